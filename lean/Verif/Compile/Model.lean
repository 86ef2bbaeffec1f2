import Verif.Compile.Machine
/-
The compiler, /repo/lib/compile.c.

A `Local*` of the C code is identified with its `FbleVar`: there is one `Local` object per static
variable, per argument and per occupied slot (`scope->locals.xs[i]`), and its refcount is kept in
`cnt`; a slot whose count is 0 is free (NULL).  A NULL dereference, a failed assertion or a refcount
underflow is `none`.  Instructions are returned as a list instead of being appended to
`scope->code->instrs`.  Debug info is left out.
-/
namespace Verif.Compile
open Verif.Select (Branch)

def upd {α β : Type} [DecidableEq α] (f : α → β) (a : α) (b : β) : α → β := fun x => if x = a then b else f x

/-- The profiling part of a scope: `pending_profile_ops`, `active_profile_ops` (`none`: the pending
ops, `some i`: those of instruction `i`) and the ops of the instructions so far. -/
structure Prof where
  pending : List POp
  active : Option Nat
  ops : List (List POp)

/-- compile.c:66-76 `Scope`.  `pc` is `code->instrs.size`, `nlocals` is `locals.size` and
`code->num_locals`, `block` is `code->profile_block_id`.  `parent` is not used by the compiler. -/
structure Scope where
  nstatics : Nat
  nargs : Nat
  vars : List (Option Var)
  cnt : Var → Nat
  nlocals : Nat
  pc : Nat
  block : Nat
  prof : Prof

/-- compile.c:98-101 `Blocks`.  The names of the blocks are left out, only their number is kept. -/
structure Blocks where
  stack : List Nat
  count : Nat

/-- The first free slot, or a new one: compile.c:144-150. -/
def firstFree (cnt : Var → Nat) (n : Nat) : Nat := ((List.range n).find? fun i => cnt (.loc i) = 0).getD n

/-- compile.c:142-164 `NewLocal`. -/
def newLocal (sc : Scope) : Nat × Scope :=
  let i := firstFree sc.cnt sc.nlocals
  (i, { sc with nlocals := if i = sc.nlocals then sc.nlocals + 1 else sc.nlocals, cnt := upd sc.cnt (.loc i) 1 })

/-- compile.c:178-192 `ReleaseLocal` of a local that is not NULL. -/
def release (v : Var) (sc : Scope) : Option Scope :=
  match sc.cnt v with
  | 0 => none
  | 1 => match v with
    | .loc _ => some { sc with cnt := upd sc.cnt v 0 }
    | _ => none
  | n + 2 => some { sc with cnt := upd sc.cnt v (n + 1) }

/-- `ReleaseLocal` on a list of locals, in order. -/
def releaseAll : List Var → Scope → Option Scope
  | [], sc => some sc
  | v :: vs, sc => (release v sc).bind (releaseAll vs)

/-- `ReleaseLocal` of a local that may be NULL. -/
def releaseOpt (v : Option Var) (sc : Scope) : Option Scope :=
  match v with
  | none => some sc
  | some v => release v sc

/-- compile.c:205-217 `PushVar`. -/
def pushVar (v : Option Var) (sc : Scope) : Scope := { sc with vars := sc.vars ++ [v] }

/-- compile.c:227-232 `PopVar`. -/
def popVar (sc : Scope) : Option Scope :=
  match sc.vars.getLast? with
  | none => none
  | some v => releaseOpt v { sc with vars := sc.vars.dropLast }

def popVars : Nat → Scope → Option Scope
  | 0, sc => some sc
  | n + 1, sc => (popVar sc).bind (popVars n)

/-- compile.c:246-267 `GetVar`; a NULL entry is dereferenced by all callers. -/
def getVar (sc : Scope) : Var → Option Var
  | .static i => if i < sc.nstatics then some (.static i) else none
  | .arg i => if i < sc.nargs then some (.arg i) else none
  | .loc i => (sc.vars[i]?).join

/-- compile.c:281-293 `SetVar`. -/
def setVar (i : Nat) (v : Var) (sc : Scope) : Option Scope :=
  match sc.vars[i]? with
  | none => none
  | some old => (releaseOpt old sc).map fun sc => { sc with vars := sc.vars.set i (some v) }

/-! ### Profiling operations -/

/-- Adding to a list of ops; consecutive samples are merged: compile.c:681-697. -/
def addOp (ops : List POp) (op : POp) : List POp :=
  match op, ops.getLast? with
  | .sample n, some (.sample m) => ops.dropLast ++ [.sample (m + n)]
  | op, _ => ops ++ [op]

/-- compile.c:674-698 `AppendProfileOp`. -/
def Prof.append (p : Prof) (op : POp) : Prof :=
  match p.active with
  | none => { p with pending := addOp p.pending op }
  | some i => { p with ops := p.ops.modify i fun ops => addOp ops op }

/-- `scope->active_profile_ops = &scope->pending_profile_ops`. -/
def Prof.reset (p : Prof) : Prof := { p with active := none }

/-- compile.c:621-637 `AppendInstr`, the profiling part. -/
def Prof.instr (p : Prof) : Prof :=
  let p := p.append (.sample 1)
  match p.pending with
  | [] => { p with ops := p.ops ++ [[]] }
  | ops => { pending := [], active := some p.ops.length, ops := p.ops ++ [ops] }

/-- compile.c:621-637 `AppendInstr`, all but the instruction itself. -/
def Scope.emit (sc : Scope) : Scope := { sc with pc := sc.pc + 1, prof := sc.prof.instr }

def Scope.reset (sc : Scope) : Scope := { sc with prof := sc.prof.reset }

/-- compile.c:716-747 `PushBlock`, 766-787 `PushBodyBlock`: the new block and the block stack. -/
def pushBlock (bl : Blocks) : Nat × Blocks := (bl.count, ⟨bl.count :: bl.stack, bl.count + 1⟩)

/-- compile.c:804-810 `EnterBlock`. -/
def enterBlock (replace : Bool) (bl : Blocks) (sc : Scope) : Blocks × Scope :=
  let (id, bl) := pushBlock bl
  (bl, { sc with prof := sc.prof.append (if replace then .replace (id - sc.block) else .enter (id - sc.block)) })

/-- compile.c:819-823 `PopBlock`. -/
def popBlock (bl : Blocks) : Blocks := { bl with stack := bl.stack.tail }

/-- compile.c:835-841 `ExitBlock`. -/
def exitBlock (exit : Bool) (bl : Blocks) (sc : Scope) : Blocks × Scope :=
  (popBlock bl, if exit then sc else { sc with prof := sc.prof.append .exit })

/-! ### Merging functions -/

/-- compile.c:311-331 `RewriteVar`.  (Out of range is an assertion failure in the C code; it does not
occur for expressions in scope.) -/
def rewriteVar (statics : List Var) (off : Nat) : Var → Var
  | .static i => (statics[i]?).getD (.static i)
  | .arg i => .arg (i + off)
  | .loc i => .loc i

mutual
/-- compile.c:352-495 `RewriteVars`. -/
def Tc.rewrite (m : List Var) (off : Nat) : Tc → Tc
  | .typeVal => .typeVal
  | .var v => .var (rewriteVar m off v)
  | .letE r ds b => .letE r (ds.rewrite m off) (b.rewrite m off)
  | .struct fs => .struct (fs.rewrite m off)
  | .copy s fs => .copy (s.rewrite m off) (fs.rewrite m off)
  | .union tag a => .union tag (a.rewrite m off)
  | .select c nt bs d => .select (c.rewrite m off) nt (bs.rewrite m off) (d.rewrite m off)
  | .access u o tag => .access u (o.rewrite m off) tag
  | .func scope b => .func (scope.map (rewriteVar m off)) b
  | .apply f a => .apply (f.rewrite m off) (a.rewrite m off)
  | .list is => .list (is.rewrite m off)
  | .literal ls => .literal ls
def Tcs.rewrite (m : List Var) (off : Nat) : Tcs → Tcs
  | .nil => .nil
  | .cons t ts => .cons (t.rewrite m off) (ts.rewrite m off)
def Flds.rewrite (m : List Var) (off : Nat) : Flds → Flds
  | .nil => .nil
  | .keep fs => .keep (fs.rewrite m off)
  | .set t fs => .set (t.rewrite m off) (fs.rewrite m off)
def Brs.rewrite (m : List Var) (off : Nat) : Brs → Brs
  | .nil => .nil
  | .cons tag t bs => .cons tag (t.rewrite m off) (bs.rewrite m off)
end

mutual
theorem Tc.rewrite_size (m off) : (t : Tc) → (t.rewrite m off).size = t.size
  | .typeVal | .var _ | .func .. | .literal _ => by simp only [Tc.rewrite, Tc.size]
  | .letE _ ds b => by simp only [Tc.rewrite, Tc.size, Tcs.rewrite_size m off ds, Tc.rewrite_size m off b]
  | .struct fs => by simp only [Tc.rewrite, Tc.size, Tcs.rewrite_size m off fs]
  | .copy s fs => by simp only [Tc.rewrite, Tc.size, Tc.rewrite_size m off s, Flds.rewrite_size m off fs]
  | .union _ a => by simp only [Tc.rewrite, Tc.size, Tc.rewrite_size m off a]
  | .select c nt bs d => by
    simp only [Tc.rewrite, Tc.size, Tc.rewrite_size m off c, Brs.rewrite_size m off bs, Tc.rewrite_size m off d]
  | .access _ o _ => by simp only [Tc.rewrite, Tc.size, Tc.rewrite_size m off o]
  | .apply f a => by simp only [Tc.rewrite, Tc.size, Tc.rewrite_size m off f, Tc.rewrite_size m off a]
  | .list is => by simp only [Tc.rewrite, Tc.size, Tcs.rewrite_size m off is]
theorem Tcs.rewrite_size (m off) : (ts : Tcs) → (ts.rewrite m off).size = ts.size
  | .nil => rfl
  | .cons t ts => by simp only [Tcs.rewrite, Tcs.size, Tc.rewrite_size m off t, Tcs.rewrite_size m off ts]
theorem Flds.rewrite_size (m off) : (fs : Flds) → (fs.rewrite m off).size = fs.size
  | .nil => rfl
  | .keep fs => by simp only [Flds.rewrite, Flds.size, Flds.rewrite_size m off fs]
  | .set t fs => by simp only [Flds.rewrite, Flds.size, Tc.rewrite_size m off t, Flds.rewrite_size m off fs]
theorem Brs.rewrite_size (m off) : (bs : Brs) → (bs.rewrite m off).size = bs.size
  | .nil => rfl
  | .cons _ t bs => by simp only [Brs.rewrite, Brs.size, Tc.rewrite_size m off t, Brs.rewrite_size m off bs]
end

/-- A function after merging: the meaning of the statics of the innermost function in terms of the
variables of the outermost one, the offset of the innermost argument, the number of arguments, and
the innermost body. -/
structure Merged where
  statics : List Var
  off : Nat
  nargs : Nat
  body : Tc

/-- The loop compile.c:1172-1193. -/
def mergeLoop (statics : List Var) (off nargs : Nat) : Tc → Merged
  | .func scope b => mergeLoop (scope.map (rewriteVar statics off)) nargs (nargs + 1) b
  | b => ⟨statics, off, nargs, b⟩

/-- compile.c:1157-1195: the number of arguments and the body of the merged function, for a function
that captures `n` variables. -/
def merge (n : Nat) (body : Tc) : Nat × Tc :=
  let m := mergeLoop ((List.range n).map .static) 0 1 body
  (m.nargs, m.body.rewrite m.statics m.off)

theorem mergeLoop_size : (body : Tc) → (st : List Var) → (off n : Nat) → (mergeLoop st off n body).body.size ≤ body.size
  | .func scope b, st, off, n => by
    have := mergeLoop_size b (scope.map (rewriteVar st off)) n (n + 1)
    simp only [mergeLoop, Tc.size]; omega
  | .typeVal, _, _, _ | .var _, _, _, _ | .letE .., _, _, _ | .struct _, _, _, _ | .copy .., _, _, _
  | .union .., _, _, _ | .select .., _, _, _ | .access .., _, _, _ | .apply .., _, _, _ | .list _, _, _, _
  | .literal _, _, _, _ => Nat.le_refl _

theorem merge_size (n : Nat) (body : Tc) : (merge n body).2.size ≤ body.size := by
  simp only [merge, Tc.rewrite_size]
  exact mergeLoop_size _ _ _ _

/-! ### Expressions -/

/-- compile.c:520-570 `InitScope`. -/
def initScope (nstatics nargs block : Nat) : Scope where
  nstatics := nstatics
  nargs := nargs
  vars := []
  cnt := fun v => match v with
    | .static i => if i < nstatics then 1 else 0
    | .arg i => if i < nargs then 1 else 0
    | .loc _ => 0
  nlocals := 0
  pc := 0
  block := block
  prof := ⟨[], none, []⟩

/-- compile.c:852-859 `CompileExit`. -/
def compileExit (exit : Bool) (v : Var) (sc : Scope) : List Instr × Scope :=
  if exit then ([.ret v], sc.emit) else ([], sc)

/-- What a compilation step gives: the instructions appended, what it computes, and the new state. -/
structure Out (α : Type) where
  code : List Instr
  res : α
  bl : Blocks
  sc : Scope

/-- `PushVar` of the variables of a let; for a recursive let new slots with new references:
compile.c:918-927.  Returns the slots. -/
def letVars (recursive : Bool) : Nat → Scope → List Instr × List Nat × Scope
  | 0, sc => ([], [], sc)
  | n + 1, sc =>
    if recursive then
      let l := newLocal sc
      let r := letVars recursive n (pushVar (some (.loc l.1)) l.2.emit)
      (.refValue l.1 :: r.1, l.1 :: r.2.1, r.2.2)
    else letVars recursive n (pushVar none sc)

/-- compile.c:937-946, for a let that is not recursive. -/
def letSet : Nat → List Var → Scope → Option Scope
  | _, [], sc => some sc
  | i, d :: ds, sc => (setVar i d sc).bind (letSet (i + 1) ds)

/-- compile.c:937-946, for a recursive let. -/
def letDefs : Nat → List Nat → List Var → Scope → Option (List Instr × Scope)
  | i, l :: ls, d :: ds, sc =>
    (setVar i d sc.emit).bind fun sc =>
      (letDefs (i + 1) ls ds sc).map fun r => (.refDef l d :: r.1, r.2)
  | _, _, _, sc => some ([], sc)

/-- The code of the branches of a select, with the copies and the jumps to `stop`:
compile.c:1067-1077. `parts` are the branches: code and result. -/
def branchCode (exit : Bool) (dest stop : Nat) : List (List Instr × Option Var) → List Instr
  | [] => []
  | (c, r) :: parts =>
    (if exit then c else c ++ [.copy (r.getD (.loc 0)) dest, .goto stop]) ++ branchCode exit dest stop parts

/-- The branch table: compile.c:1057-1059. `pc` is where the branches begin. -/
def branchTable (exit : Bool) : Nat → List (Nat × List Instr × Option Var) → List Branch
  | _, [] => []
  | pc, (tag, c, _) :: parts =>
    ⟨tag, pc⟩ :: branchTable exit (pc + c.length + if exit then 0 else 2) parts

/-- The state after a branch: compile.c:1064-1078; `last` for the default branch, 1090-1104. -/
def afterBranch (exit : Bool) (r : Option Var) (bl : Blocks) (sc : Scope) : Option (Blocks × Scope) :=
  if exit then
    let b := exitBlock true bl sc
    (releaseOpt r b.2).map fun sc => (b.1, sc)
  else
    match r with
    | none => none
    | some v =>
      let b := exitBlock false bl sc.emit
      (release v b.2).map fun sc => (b.1, sc.emit)

mutual
/-- compile.c:887-1329 `CompileExpr`.  The result is `none` for NULL. -/
def compile (exit : Bool) (t : Tc) (bl : Blocks) (sc : Scope) : Option (Out (Option Var)) :=
  match t with
  | .typeVal =>
    let l := newLocal sc
    let x := compileExit exit (.loc l.1) l.2.emit
    some ⟨.type l.1 :: x.1, some (.loc l.1), bl, x.2⟩
  | .var v =>
    match getVar sc v with
    | none => none
    | some w =>
      let x := compileExit exit w { sc with cnt := upd sc.cnt w (sc.cnt w + 1) }
      some ⟨x.1, some w, bl, x.2⟩
  | .letE recursive ds b =>
    let vs := letVars recursive ds.length sc
    (compileDefs ds bl vs.2.2).bind fun d =>
      (if recursive then letDefs sc.vars.length vs.2.1 d.res d.sc
       else (letSet sc.vars.length d.res d.sc).map fun sc => ([], sc)).bind fun a =>
        (compile exit b d.bl a.2).bind fun o =>
          (popVars ds.length o.sc).map fun sc' => ⟨vs.1 ++ d.code ++ a.1 ++ o.code, o.res, o.bl, sc'⟩
  | .struct fs =>
    (compiles fs bl sc).bind fun a =>
      let l := newLocal a.sc
      let x := compileExit exit (.loc l.1) l.2.emit
      (releaseAll a.res x.2).map fun sc => ⟨a.code ++ .struct a.res l.1 :: x.1, some (.loc l.1), a.bl, sc⟩
  | .copy src fs =>
    (compile false src bl sc).bind fun o =>
      o.res.bind fun src =>
        (compileFlds src 0 fs o.bl o.sc).bind fun a =>
          let l := newLocal a.sc
          let x := compileExit exit (.loc l.1) l.2.emit
          (releaseAll a.res x.2).bind fun sc =>
            (release src sc).map fun sc => ⟨o.code ++ a.code ++ .struct a.res l.1 :: x.1, some (.loc l.1), a.bl, sc⟩
  | .union tag a =>
    (compile false a bl sc).bind fun o =>
      o.res.bind fun v =>
        let l := newLocal o.sc
        let x := compileExit exit (.loc l.1) l.2.emit
        (release v x.2).map fun sc => ⟨o.code ++ .union tag v l.1 :: x.1, some (.loc l.1), o.bl, sc⟩
  | .select c nt bs d =>
    (compile false c bl sc).bind fun o =>
      o.res.bind fun cv =>
        let l := newLocal o.sc.emit
        let sc1 := if exit then o.sc.emit else l.2
        (compileBrs exit bs o.bl sc1).bind fun b =>
          let e := enterBlock exit b.bl b.sc.reset
          (compile exit d e.1 e.2).bind fun dd =>
            (afterBranch exit dd.res dd.bl dd.sc).bind fun z =>
              (release cv z.2.reset).map fun sc' =>
                let dcode := if exit then dd.code else dd.code ++ [.copy (dd.res.getD (.loc 0)) l.1, .nop]
                ⟨o.code ++ .select cv nt (branchTable exit sc1.pc b.res) b.sc.pc ::
                    (branchCode exit l.1 z.2.pc (b.res.map (·.2)) ++ dcode),
                  if exit then none else some (.loc l.1), z.1, sc'⟩
  | .access isUnion obj tag =>
    (compile false obj bl sc).bind fun o =>
      o.res.bind fun v =>
        let l := newLocal o.sc.emit
        let x := compileExit exit (.loc l.1) l.2
        (release v x.2).map fun sc =>
          ⟨o.code ++ (if isUnion then .unionAccess v tag l.1 else .structAccess v tag l.1) :: x.1, some (.loc l.1), o.bl, sc⟩
  | .func scope body =>
    match scope.mapM (getVar sc) with
    | none => none
    | some vs =>
      let p := pushBlock bl
      (compileFunc scope.length (merge scope.length body).1 (merge scope.length body).2 p.1 p.2).map fun f =>
        let l := newLocal sc
        let x := compileExit exit (.loc l.1) l.2.emit
        ⟨.func f.1 (p.1 - sc.block) vs l.1 :: x.1, some (.loc l.1), f.2, x.2⟩
  | .apply f a =>
    (compile false f.head bl sc).bind fun h =>
      h.res.bind fun fv =>
        (compiles (.cons a f.args) h.bl h.sc).bind fun as =>
          let l := newLocal as.sc
          let sc1 := if exit then as.sc.emit else l.2.emit
          (release fv sc1.reset).bind fun sc2 =>
            (releaseAll as.res.reverse sc2).map fun sc3 =>
              ⟨h.code ++ as.code ++ [if exit then .tailCall fv as.res.reverse else .call fv as.res.reverse l.1],
                if exit then none else some (.loc l.1), as.bl, sc3⟩
  | .list is =>
    (compiles is bl sc).bind fun a =>
      let l := newLocal a.sc
      let x := compileExit exit (.loc l.1) l.2.emit
      (releaseAll a.res x.2).map fun sc => ⟨a.code ++ .list a.res l.1 :: x.1, some (.loc l.1), a.bl, sc⟩
  | .literal ls =>
    let l := newLocal sc
    let x := compileExit exit (.loc l.1) l.2.emit
    some ⟨.literal ls l.1 :: x.1, some (.loc l.1), bl, x.2⟩
termination_by (t.size, 0)
decreasing_by
  all_goals simp only [Prod.lex_def, Tc.size, Tcs.size]
  all_goals first
    | omega
    | (have := Tc.head_size f; omega)
    | (have := Tc.args_size f; omega)
    | (have := merge_size scope.length body; omega)

/-- Expressions in order, each result kept: compile.c:961-963, 985-998 (without NULL), 1262-1267
(from the last argument to the first), 1298-1300. -/
def compiles (ts : Tcs) (bl : Blocks) (sc : Scope) : Option (Out (List Var)) :=
  match ts with
  | .nil => some ⟨[], [], bl, sc⟩
  | .cons t ts =>
    (compile false t bl sc).bind fun o =>
      o.res.bind fun v =>
        (compiles ts o.bl o.sc).map fun a => ⟨o.code ++ a.code, v :: a.res, a.bl, a.sc⟩
termination_by (ts.size, 0)
decreasing_by all_goals simp only [Prod.lex_def, Tcs.size]; omega

/-- The definitions of a let, each in its own profile block: compile.c:930-935. -/
def compileDefs (ts : Tcs) (bl : Blocks) (sc : Scope) : Option (Out (List Var)) :=
  match ts with
  | .nil => some ⟨[], [], bl, sc⟩
  | .cons t ts =>
    let e := enterBlock false bl sc
    (compile false t e.1 e.2).bind fun o =>
      o.res.bind fun v =>
        let z := exitBlock false o.bl o.sc
        (compileDefs ts z.1 z.2).map fun a => ⟨o.code ++ a.code, v :: a.res, a.bl, a.sc⟩
termination_by (ts.size, 0)
decreasing_by all_goals simp only [Prod.lex_def, Tcs.size]; omega

/-- The fields of a struct copy: compile.c:985-998. -/
def compileFlds (src : Var) (i : Nat) (fs : Flds) (bl : Blocks) (sc : Scope) : Option (Out (List Var)) :=
  match fs with
  | .nil => some ⟨[], [], bl, sc⟩
  | .keep fs =>
    let l := newLocal sc
    (compileFlds src (i + 1) fs bl l.2.emit).map fun a =>
      ⟨.structAccess src i l.1 :: a.code, .loc l.1 :: a.res, a.bl, a.sc⟩
  | .set t fs =>
    (compile false t bl sc).bind fun o =>
      o.res.bind fun v =>
        (compileFlds src (i + 1) fs o.bl o.sc).map fun a => ⟨o.code ++ a.code, v :: a.res, a.bl, a.sc⟩
termination_by (fs.size, 0)
decreasing_by all_goals simp only [Prod.lex_def, Flds.size]; omega

/-- The branches of a select but for the default: compile.c:1054-1080. -/
def compileBrs (exit : Bool) (bs : Brs) (bl : Blocks) (sc : Scope) :
    Option (Out (List (Nat × List Instr × Option Var))) :=
  match bs with
  | .nil => some ⟨[], [], bl, sc⟩
  | .cons tag t bs =>
    let e := enterBlock exit bl sc.reset
    (compile exit t e.1 e.2).bind fun o =>
      (afterBranch exit o.res o.bl o.sc).bind fun z =>
        (compileBrs exit bs z.1 z.2).map fun a => ⟨[], (tag, o.code, o.res) :: a.res, a.bl, a.sc⟩
termination_by (bs.size, 0)
decreasing_by all_goals simp only [Prod.lex_def, Brs.size]; omega

/-- The code of a function: compile.c:1205-1217.  `block` has been pushed already. -/
def compileFunc (nstatics nargs : Nat) (body : Tc) (block : Nat) (bl : Blocks) : Option (Code × Blocks) :=
  (compile true body bl (initScope nstatics nargs block)).bind fun o =>
    let z := exitBlock true o.bl o.sc
    (releaseOpt o.res z.2).map fun sc => (.mk nargs nstatics sc.nlocals o.code sc.prof.ops, z.1)
termination_by (body.size, 1)
decreasing_by exact Prod.Lex.right _ (by omega)
end

/-- compile.c:1351-1371 `Compile`: a module with its dependencies as arguments. -/
def compileModule (nargs : Nat) (t : Tc) : Option (Code × Nat) :=
  let p := pushBlock ⟨[], 0⟩
  (compile true t p.2 (initScope 0 nargs p.1)).bind fun o =>
    let z := exitBlock true o.bl o.sc
    if z.1.stack = [] then some (.mk nargs 0 o.sc.nlocals o.code o.sc.prof.ops, z.1.count) else none

end Verif.Compile
