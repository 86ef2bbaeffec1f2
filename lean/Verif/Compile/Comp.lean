import Verif.Compile.Merge
/-
What the compiler does, as a relation.  `Comp exit t bl sc o` says that compiling `t` gives `o`, step
by step, and carries along the bookkeeping facts about the scopes.  `compile_ok` shows that the
compiler succeeds on every expression in scope, and does what the relation says.
-/
namespace Verif.Compile

/-- The bookkeeping facts about a step of the compilation. -/
structure Facts (bl : Blocks) (sc : Scope) (n : Nat) (vs : List Var) (bl' : Blocks) (sc' : Scope) : Prop where
  inv : SInv sc
  adds : Adds sc sc' n vs
  stack : bl'.stack = bl.stack
  count : bl.count ≤ bl'.count
  block : sc.block < bl.count

theorem Facts.inv' {bl sc n vs bl' sc'} (h : Facts bl sc n vs bl' sc') : SInv sc' := h.adds.inv h.inv
theorem Facts.block' {bl sc n vs bl' sc'} (h : Facts bl sc n vs bl' sc') : sc'.block < bl'.count := by
  rw [h.adds.same.block]; exact Nat.lt_of_lt_of_le h.block h.count

theorem Facts.trans {bl sc n vs bl' sc' m ws bl2 sc2} (h : Facts bl sc n vs bl' sc') (h' : Facts bl' sc' m ws bl2 sc2) :
    Facts bl sc (n + m) (vs ++ ws) bl2 sc2 :=
  ⟨h.inv, h.adds.trans h'.adds, h'.stack.trans h.stack, Nat.le_trans h.count h'.count, h.block⟩

theorem Facts.refl {bl sc} (hi : SInv sc) (hb : sc.block < bl.count) : Facts bl sc 0 [] bl sc :=
  ⟨hi, .refl _, rfl, Nat.le_refl _, hb⟩

/-- The slot for the result of the next instruction. -/
abbrev slot (sc : Scope) : Nat := (newLocal sc).1

/-- The code and the scope after an instruction with a result in a new slot, and the return in exit
position. -/
abbrev finCode (exit : Bool) (sc : Scope) : List Instr := (compileExit exit (.loc (slot sc)) (newLocal sc).2.emit).1
abbrev finSc (exit : Bool) (sc : Scope) : Scope := (compileExit exit (.loc (slot sc)) (newLocal sc).2.emit).2

def Scope.setVars (sc : Scope) (vs : List (Option Var)) : Scope := { sc with vars := vs }

/-- The number of instructions of the branches. -/
def partsLen (exit : Bool) : List (Nat × List Instr × Option Var) → Nat
  | [] => 0
  | p :: ps => p.2.1.length + (if exit then 0 else 2) + partsLen exit ps

mutual
inductive Comp : Bool → Tc → Blocks → Scope → Out (Option Var) → Prop
  | typeVal {exit bl sc} : SInv sc →
      Comp exit .typeVal bl sc ⟨.type (slot sc) :: finCode exit sc, some (.loc (slot sc)), bl, finSc exit sc⟩
  | literal {exit bl sc ls} : SInv sc →
      Comp exit (.literal ls) bl sc ⟨.literal ls (slot sc) :: finCode exit sc, some (.loc (slot sc)), bl, finSc exit sc⟩
  | var {exit bl sc v w} : SInv sc → getVar sc v = some w →
      Comp exit (.var v) bl sc ⟨(compileExit exit w { sc with cnt := upd sc.cnt w (sc.cnt w + 1) }).1, some w, bl,
        (compileExit exit w { sc with cnt := upd sc.cnt w (sc.cnt w + 1) }).2⟩
  | struct {exit bl sc fs a sc'} : Comps fs bl sc a → releaseAll a.res (finSc exit a.sc) = some sc' →
      Facts bl sc a.code.length a.res a.bl a.sc →
      Comp exit (.struct fs) bl sc
        ⟨a.code ++ .struct a.res (slot a.sc) :: finCode exit a.sc, some (.loc (slot a.sc)), a.bl, sc'⟩
  | list {exit bl sc fs a sc'} : Comps fs bl sc a → releaseAll a.res (finSc exit a.sc) = some sc' →
      Facts bl sc a.code.length a.res a.bl a.sc →
      Comp exit (.list fs) bl sc
        ⟨a.code ++ .list a.res (slot a.sc) :: finCode exit a.sc, some (.loc (slot a.sc)), a.bl, sc'⟩
  | copy {exit bl sc src fs o v a sc1 sc'} : Comp false src bl sc o → o.res = some v →
      Facts bl sc o.code.length [v] o.bl o.sc → CompFlds v 0 fs o.bl o.sc a →
      Facts o.bl o.sc a.code.length a.res a.bl a.sc →
      releaseAll a.res (finSc exit a.sc) = some sc1 → release v sc1 = some sc' →
      Comp exit (.copy src fs) bl sc
        ⟨o.code ++ a.code ++ .struct a.res (slot a.sc) :: finCode exit a.sc, some (.loc (slot a.sc)), a.bl, sc'⟩
  | union {exit bl sc tag t o v sc'} : Comp false t bl sc o → o.res = some v →
      Facts bl sc o.code.length [v] o.bl o.sc → release v (finSc exit o.sc) = some sc' →
      Comp exit (.union tag t) bl sc
        ⟨o.code ++ .union tag v (slot o.sc) :: finCode exit o.sc, some (.loc (slot o.sc)), o.bl, sc'⟩
  | access {exit bl sc u tag t o v sc'} : Comp false t bl sc o → o.res = some v →
      Facts bl sc o.code.length [v] o.bl o.sc → release v (finSc exit o.sc) = some sc' →
      Comp exit (.access u t tag) bl sc
        ⟨o.code ++ (if u then .unionAccess v tag (slot o.sc) else .structAccess v tag (slot o.sc)) :: finCode exit o.sc,
          some (.loc (slot o.sc)), o.bl, sc'⟩
  | func {exit bl sc scope body vs f} : SInv sc → scope.mapM (getVar sc) = some vs → body.Scoped scope.length 1 [] →
      CompFunc scope.length (merge scope.length body).1 (merge scope.length body).2 bl.count (pushBlock bl).2 f →
      Comp exit (.func scope body) bl sc
        ⟨.func f.1 (bl.count - sc.block) vs (slot sc) :: finCode exit sc, some (.loc (slot sc)), f.2, finSc exit sc⟩
  | tail {bl sc f a h fv as sc2 sc3} : Comp false f.head bl sc h → h.res = some fv →
      Facts bl sc h.code.length [fv] h.bl h.sc → Comps (.cons a f.args) h.bl h.sc as →
      Facts h.bl h.sc as.code.length as.res as.bl as.sc →
      release fv as.sc.emit.reset = some sc2 → releaseAll as.res.reverse sc2 = some sc3 →
      Comp true (.apply f a) bl sc ⟨h.code ++ as.code ++ [.tailCall fv as.res.reverse], none, as.bl, sc3⟩
  | call {bl sc f a h fv as sc2 sc3} : Comp false f.head bl sc h → h.res = some fv →
      Facts bl sc h.code.length [fv] h.bl h.sc → Comps (.cons a f.args) h.bl h.sc as →
      Facts h.bl h.sc as.code.length as.res as.bl as.sc →
      release fv (newLocal as.sc).2.emit.reset = some sc2 → releaseAll as.res.reverse sc2 = some sc3 →
      Comp false (.apply f a) bl sc
        ⟨h.code ++ as.code ++ [.call fv as.res.reverse (slot as.sc)], some (.loc (slot as.sc)), as.bl, sc3⟩
  | letE {exit bl sc ds b d sc1 o sc'} :
      CompDefs ds bl (sc.setVars (sc.vars ++ List.replicate ds.length none)) d →
      Facts bl (sc.setVars (sc.vars ++ List.replicate ds.length none)) d.code.length d.res d.bl d.sc →
      letSet sc.vars.length d.res d.sc = some sc1 →
      sc1 = d.sc.setVars (sc.vars ++ d.res.map some) →
      Comp exit b d.bl sc1 o → Facts d.bl sc1 o.code.length o.res.toList o.bl o.sc →
      popVars ds.length o.sc = some sc' →
      Comp exit (.letE false ds b) bl sc ⟨d.code ++ o.code, o.res, o.bl, sc'⟩
  | letRec {exit bl sc ds b ls lcode sc0 d acode sc1 o sc'} :
      letVars true ds.length sc = (lcode, ls, sc0) →
      Adds (sc.setVars (sc.vars ++ ls.map fun l => some (.loc l))) sc0 ds.length (ls.map .loc) →
      CompDefs ds bl sc0 d →
      Facts bl sc0 d.code.length d.res d.bl d.sc →
      letDefs sc.vars.length ls d.res d.sc = some (acode, sc1) →
      Adds (sc.setVars (sc.vars ++ d.res.map some)) sc1 (ds.length + d.code.length + ds.length) d.res →
      Comp exit b d.bl sc1 o → Facts d.bl sc1 o.code.length o.res.toList o.bl o.sc →
      popVars ds.length o.sc = some sc' →
      Comp exit (.letE true ds b) bl sc ⟨lcode ++ d.code ++ acode ++ o.code, o.res, o.bl, sc'⟩
  | selectExit {bl sc c nt bs d o cv b dd z1 z2 sc'} : Comp false c bl sc o → o.res = some cv →
      Facts bl sc o.code.length [cv] o.bl o.sc → bs.Table nt →
      CompBrs true bs o.bl o.sc.emit b → Facts o.bl o.sc.emit (partsLen true b.res) [] b.bl b.sc →
      Comp true d (enterBlock true b.bl b.sc.reset).1 (enterBlock true b.bl b.sc.reset).2 dd →
      Facts (enterBlock true b.bl b.sc.reset).1 (enterBlock true b.bl b.sc.reset).2 dd.code.length dd.res.toList dd.bl dd.sc →
      afterBranch true dd.res dd.bl dd.sc = some (z1, z2) → release cv z2.reset = some sc' →
      Comp true (.select c nt bs d) bl sc
        ⟨o.code ++ .select cv nt (branchTable true o.sc.emit.pc b.res) b.sc.pc :: (branchCode true (slot o.sc) z2.pc (b.res.map (·.2)) ++ dd.code),
          none, z1, sc'⟩
  | select {bl sc c nt bs d o cv b dd dv z1 z2 sc'} : Comp false c bl sc o → o.res = some cv →
      Facts bl sc o.code.length [cv] o.bl o.sc → bs.Table nt →
      CompBrs false bs o.bl (newLocal o.sc).2.emit b → Facts o.bl (newLocal o.sc).2.emit (partsLen false b.res) [] b.bl b.sc →
      Comp false d (enterBlock false b.bl b.sc.reset).1 (enterBlock false b.bl b.sc.reset).2 dd → dd.res = some dv →
      Facts (enterBlock false b.bl b.sc.reset).1 (enterBlock false b.bl b.sc.reset).2 dd.code.length [dv] dd.bl dd.sc →
      afterBranch false dd.res dd.bl dd.sc = some (z1, z2) → release cv z2.reset = some sc' →
      z2.pc = b.sc.pc + dd.code.length + 2 →
      Comp false (.select c nt bs d) bl sc
        ⟨o.code ++ .select cv nt (branchTable false (newLocal o.sc).2.emit.pc b.res) b.sc.pc ::
            (branchCode false (slot o.sc) z2.pc (b.res.map (·.2)) ++ (dd.code ++ [.copy dv (slot o.sc), .nop])),
          some (.loc (slot o.sc)), z1, sc'⟩
inductive Comps : Tcs → Blocks → Scope → Out (List Var) → Prop
  | nil {bl sc} : Comps .nil bl sc ⟨[], [], bl, sc⟩
  | cons {bl sc t ts o v a} : Comp false t bl sc o → o.res = some v → Facts bl sc o.code.length [v] o.bl o.sc →
      Comps ts o.bl o.sc a → Facts o.bl o.sc a.code.length a.res a.bl a.sc →
      Comps (.cons t ts) bl sc ⟨o.code ++ a.code, v :: a.res, a.bl, a.sc⟩
inductive CompDefs : Tcs → Blocks → Scope → Out (List Var) → Prop
  | nil {bl sc} : CompDefs .nil bl sc ⟨[], [], bl, sc⟩
  | cons {bl sc t ts o v a} : Comp false t (enterBlock false bl sc).1 (enterBlock false bl sc).2 o → o.res = some v →
      Facts (enterBlock false bl sc).1 (enterBlock false bl sc).2 o.code.length [v] o.bl o.sc →
      CompDefs ts (exitBlock false o.bl o.sc).1 (exitBlock false o.bl o.sc).2 a →
      Facts (exitBlock false o.bl o.sc).1 (exitBlock false o.bl o.sc).2 a.code.length a.res a.bl a.sc →
      CompDefs (.cons t ts) bl sc ⟨o.code ++ a.code, v :: a.res, a.bl, a.sc⟩
inductive CompFlds : Var → Nat → Flds → Blocks → Scope → Out (List Var) → Prop
  | nil {src i bl sc} : CompFlds src i .nil bl sc ⟨[], [], bl, sc⟩
  | keep {src i bl sc fs a} : CompFlds src (i + 1) fs bl (newLocal sc).2.emit a →
      Facts bl (newLocal sc).2.emit a.code.length a.res a.bl a.sc →
      CompFlds src i (.keep fs) bl sc ⟨.structAccess src i (slot sc) :: a.code, .loc (slot sc) :: a.res, a.bl, a.sc⟩
  | set {src i bl sc t fs o v a} : Comp false t bl sc o → o.res = some v → Facts bl sc o.code.length [v] o.bl o.sc →
      CompFlds src (i + 1) fs o.bl o.sc a → Facts o.bl o.sc a.code.length a.res a.bl a.sc →
      CompFlds src i (.set t fs) bl sc ⟨o.code ++ a.code, v :: a.res, a.bl, a.sc⟩
inductive CompBrs : Bool → Brs → Blocks → Scope → Out (List (Nat × List Instr × Option Var)) → Prop
  | nil {exit bl sc} : CompBrs exit .nil bl sc ⟨[], [], bl, sc⟩
  | cons {exit bl sc tag t bs o z1 z2 a} : Comp exit t (enterBlock exit bl sc.reset).1 (enterBlock exit bl sc.reset).2 o →
      (exit = false → o.res.isSome) →
      Facts (enterBlock exit bl sc.reset).1 (enterBlock exit bl sc.reset).2 o.code.length o.res.toList o.bl o.sc →
      afterBranch exit o.res o.bl o.sc = some (z1, z2) →
      Facts bl sc (o.code.length + if exit then 0 else 2) [] z1 z2 →
      CompBrs exit bs z1 z2 a → Facts z1 z2 (partsLen exit a.res) [] a.bl a.sc →
      CompBrs exit (.cons tag t bs) bl sc ⟨[], (tag, o.code, o.res) :: a.res, a.bl, a.sc⟩
inductive CompFunc : Nat → Nat → Tc → Nat → Blocks → Code × Blocks → Prop
  | mk {ns na body block bl o sc'} : Comp true body bl (initScope ns na block) o →
      Facts bl (initScope ns na block) o.code.length o.res.toList o.bl o.sc →
      releaseOpt o.res (exitBlock true o.bl o.sc).2 = some sc' → sc'.nlocals = o.sc.nlocals → sc'.prof = o.sc.prof →
      CompFunc ns na body block bl (.mk na ns sc'.nlocals o.code sc'.prof.ops, (exitBlock true o.bl o.sc).1)
end

end Verif.Compile
