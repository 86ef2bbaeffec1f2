import Verif.Compile.Program
/-
Compiled code only touches its own frame (C14).
-/
namespace Verif.Compile

/-! ### Specification -/

/-- The variable is one of `ns` captured variables, `na` arguments and `nl` local slots. -/
def Var.In (ns na nl : Nat) : Var → Prop
  | .static i => i < ns
  | .arg i => i < na
  | .loc i => i < nl

/-- The variables an instruction reads. -/
def Instr.reads : Instr → List Var
  | .struct args _ => args
  | .union _ arg _ => [arg]
  | .structAccess obj _ _ => [obj]
  | .unionAccess obj _ _ => [obj]
  | .select c _ _ _ => [c]
  | .goto _ => []
  | .func _ _ scope _ => scope
  | .call f args _ => f :: args
  | .tailCall f args => f :: args
  | .copy src _ => [src]
  | .refValue _ => []
  | .refDef ref v => [.loc ref, v]
  | .ret v => [v]
  | .type _ => []
  | .list args _ => args
  | .literal _ _ => []
  | .nop => []

/-- The slots an instruction writes. -/
def Instr.writes : Instr → List Nat
  | .struct _ d => [d]
  | .union _ _ d => [d]
  | .structAccess _ _ d => [d]
  | .unionAccess _ _ d => [d]
  | .func _ _ _ d => [d]
  | .call _ _ d => [d]
  | .copy _ d => [d]
  | .refValue d => [d]
  | .type d => [d]
  | .list _ d => [d]
  | .literal _ d => [d]
  | _ => []

/-- Where control goes after an instruction at `pc`. -/
def Instr.succ (pc : Nat) : Instr → List Nat
  | .select _ _ targets default => targets.map (·.target) ++ [default]
  | .goto t => [t]
  | .tailCall _ _ => []
  | .ret _ => []
  | _ => [pc + 1]

/-- The instruction at `pc` fits in a function with these numbers of variables and `len`
instructions. -/
structure Instr.Fits (ns na nl len pc : Nat) (i : Instr) : Prop where
  reads : ∀ v ∈ i.reads, v.In ns na nl
  writes : ∀ d ∈ i.writes, d < nl
  jumps : ∀ t ∈ i.succ pc, pc < t ∧ t < len
  captures : ∀ code b scope d, i = .func code b scope d → scope.length = code.numStatics

/-- All instructions of the function fit. -/
def Code.Fits (c : Code) : Prop := 0 < c.instrs.length ∧
  ∀ (pc : Nat) i, c.instrs[pc]? = some i → i.Fits c.numStatics c.numArgs c.numLocals c.instrs.length pc

/-- The second function is the first one, or defined within it. -/
inductive Within : Code → Code → Prop
  | here {c} : Within c c
  | inner {c c' c'' b scope d} : .func c' b scope d ∈ c.instrs → Within c' c'' → Within c c''

/-! ### Proofs -/

/-- All instructions of a piece of code at `pc` fit, and the functions in it do. -/
def Seg (ns na nl len pc : Nat) (code : List Instr) : Prop :=
  ∀ (i : Nat) x, code[i]? = some x → x.Fits ns na nl len (pc + i) ∧
    ∀ c b scope d, x = .func c b scope d → ∀ c', Within c c' → c'.Fits

theorem Seg.nil {ns na nl len pc} : Seg ns na nl len pc [] := fun i x h => by simp at h

theorem Seg.cons {ns na nl len pc x code} (h1 : x.Fits ns na nl len pc) (h2 : ∀ c b scope d, x = .func c b scope d → ∀ c', Within c c' → c'.Fits)
    (h : Seg ns na nl len (pc + 1) code) : Seg ns na nl len pc (x :: code) := fun i y hy => by
  cases i with
  | zero => simp at hy; subst hy; exact ⟨h1, h2⟩
  | succ i =>
    have := h i y (by simpa using hy)
    rw [show pc + 1 + i = pc + (i + 1) by omega] at this
    exact this

theorem Seg.append {ns na nl len pc a b} (h1 : Seg ns na nl len pc a) (h2 : Seg ns na nl len (pc + a.length) b) :
    Seg ns na nl len pc (a ++ b) := fun i y hy => by
  by_cases hi : i < a.length
  · rw [List.getElem?_append_left hi] at hy; exact h1 i y hy
  · rw [List.getElem?_append_right (by omega)] at hy
    have := h2 _ y hy
    rw [show pc + a.length + (i - a.length) = pc + i by omega] at this
    exact this

/-- Only variables of the function are in use. -/
def InUse (sc : Scope) : Prop := ∀ v, 0 < sc.cnt v → v.In sc.nstatics sc.nargs sc.nlocals

theorem Var.In.mono {ns na nl nl' v} (h : Var.In ns na nl v) (hn : nl ≤ nl') : Var.In ns na nl' v := by
  cases v with
  | loc i => exact Nat.lt_of_lt_of_le h hn
  | _ => exact h

theorem Adds.inUse {sc sc' n vs} (h : Adds sc sc' n vs) (hi : InUse sc) : InUse sc' := fun v hv => by
  rw [h.same.nstatics, h.same.nargs]
  by_cases hp : 0 < sc.cnt v
  · exact (hi v hp).mono h.nlocals
  · have hm : v ∈ vs := by
      rw [h.cnt] at hv
      simp only [plus] at hv
      exact List.count_pos_iff.mp (by omega)
    rcases h.rel v hm with h' | h'
    · cases v with
      | loc i => exact h.slots (fun j hj => hi (.loc j) hj) i hv
      | _ => simp [isLoc] at h'
    · exact absurd h' hp

theorem initScope_inUse (ns na block) : InUse (initScope ns na block) := fun v hv => by
  cases v with
  | static i => simp only [initScope] at hv ⊢; split at hv <;> simp_all [Var.In]
  | arg i => simp only [initScope] at hv ⊢; split at hv <;> simp_all [Var.In]
  | loc i => simp [initScope] at hv

/-- Variables in use are in range at the end of the function. -/
theorem InUse.read {sc sc' : Scope} {ns na nl} (hi : InUse sc') (hs : Same sc sc') (h1 : sc.nstatics = ns) (h2 : sc.nargs = na) (hn : sc'.nlocals ≤ nl) {v} (hv : 0 < sc'.cnt v) :
    v.In ns na nl := by
  have := (hi v hv).mono hn
  rwa [hs.nstatics, hs.nargs, h1, h2] at this

theorem getVar_pos {sc : Scope} (hi : SInv sc) {v w} (h : getVar sc v = some w) : 0 < sc.cnt w := by
  cases v with
  | static i =>
    simp only [getVar] at h; split at h
    · next hl => cases h; exact hi.statics i hl
    · cases h
  | arg i =>
    simp only [getVar] at h; split at h
    · next hl => cases h; exact hi.args i hl
    · cases h
  | loc i =>
    simp only [getVar, Option.join_eq_some_iff] at h
    exact hi.vars w (List.mem_of_getElem? h)

theorem getVars_pos {sc : Scope} (hi : SInv sc) : {vs ws : List Var} → vs.mapM (getVar sc) = some ws → ws.length = vs.length ∧ ∀ w ∈ ws, 0 < sc.cnt w
  | [], ws, h => by simp at h; subst h; simp
  | v :: vs, ws, h => by
    rw [List.mapM_cons] at h
    cases h1 : getVar sc v with
    | none => simp [h1] at h
    | some w =>
      cases h2 : vs.mapM (getVar sc) with
      | none => simp [h1, h2] at h
      | some us =>
        simp [h1, h2] at h
        subst h
        obtain ⟨h3, h4⟩ := getVars_pos hi h2
        refine ⟨by simp [h3], fun x hx => ?_⟩
        rcases List.mem_cons.mp hx with rfl | hx
        · exact getVar_pos hi h1
        · exact h4 x hx

/-- The result of an instruction and the return. -/
theorem Seg.fin {exit} {sc : Scope} {ns na nl len pc} (hd : slot sc < nl) (hl : pc + (if exit then 1 else 0) ≤ len) :
    Seg ns na nl len pc (finCode exit sc) := by
  simp only [finCode, compileExit]
  cases exit with
  | false => exact .nil
  | true => exact .cons ⟨by simp [Instr.reads, Var.In, hd], by simp [Instr.writes], by simp [Instr.succ], by simp⟩ (by simp) .nil

/-- The length of the code after an expression in this position. -/
abbrev pad (exit : Bool) : Nat := if exit then 0 else 1

theorem Seg.one {exit} {sc : Scope} {ns na nl len pc} {x : Instr} (hr : ∀ v ∈ x.reads, v.In ns na nl) (hw : x.writes = [slot sc]) (hs : x.succ pc = [pc + 1])
    (hf : ∀ c b scope d, x = .func c b scope d → scope.length = c.numStatics ∧ ∀ c', Within c c' → c'.Fits)
    (hd : slot sc < nl) (hl : pc + 1 + (finCode exit sc).length + pad exit ≤ len) :
    Seg ns na nl len pc (x :: finCode exit sc) := by
  have hlen : (finCode exit sc).length = if exit then 1 else 0 := by simp only [finCode, compileExit]; cases exit <;> rfl
  rw [hlen] at hl
  refine .cons ⟨hr, by simp [hw, hd], ?_, fun c b s d h => (hf c b s d h).1⟩ (fun c b s d h => (hf c b s d h).2) (.fin hd ?_)
  · rw [hs]; intro t ht; simp at ht; subst ht
    cases exit <;> simp [pad] at hl <;> omega
  · cases exit <;> simp at hl ⊢ <;> omega

theorem branchTable_targets {exit} : {bs : List (Nat × List Instr × Option Var)} → {pc : Nat} → ∀ b ∈ branchTable exit pc bs,
    pc ≤ b.target ∧ b.target ≤ pc + partsLen exit bs
  | [], pc, b, h => by simp [branchTable] at h
  | (tag, c, r) :: ps, pc, b, h => by
    simp only [branchTable, List.mem_cons] at h
    simp only [partsLen]
    rcases h with rfl | h
    · exact ⟨Nat.le_refl _, Nat.le_add_right _ _⟩
    · have := branchTable_targets b h
      constructor <;> omega

/-- Code in exit position is not empty. -/
theorem Comp.exit_ne (n : Nat) : {t : Tc} → t.size ≤ n → {bl : Blocks} → {sc : Scope} → {o : Out (Option Var)} → Comp true t bl sc o → 0 < o.code.length := by
  induction n with
  | zero => intro t hs; have := t.size_pos; omega
  | succ n ih =>
    intro t hs bl sc o h
    cases h with
    | var _ _ => simp [compileExit]
    | letE _ _ _ _ co _ _ =>
      have := ih (by simp only [Tc.size] at hs; omega) co
      simp only [List.length_append]; omega
    | letRec _ _ _ _ _ _ co _ _ =>
      have := ih (by simp only [Tc.size] at hs; omega) co
      simp only [List.length_append]; omega
    | _ => simp only [List.length_append, List.length_cons]; omega

theorem letVars_code : (n : Nat) → {sc : Scope} → {lcode : List Instr} → {ls : List Nat} → {sc0 : Scope} →
    letVars true n sc = (lcode, ls, sc0) → lcode = ls.map .refValue ∧ ls.length = n
  | 0, sc, lcode, ls, sc0, h => by simp [letVars] at h; simp [h.1, h.2.1]
  | n + 1, sc, lcode, ls, sc0, h => by
    simp only [letVars, if_true, Prod.mk.injEq] at h
    obtain ⟨rfl, rfl, rfl⟩ := h
    obtain ⟨h1, h2⟩ := letVars_code n (sc := pushVar (some (.loc (newLocal sc).1)) (newLocal sc).2.emit) rfl
    simp [← h1, h2]

/-- A new slot, an instruction, and the return. -/
theorem newLocal_le {sc : Scope} : sc.nlocals ≤ (newLocal sc).2.nlocals := by
  rw [newLocal_nlocals]; split <;> omega

theorem finSc_le' {exit} {sc : Scope} : sc.nlocals ≤ (finSc exit sc).nlocals := by
  rw [finSc_nlocals]; exact newLocal_le

theorem Seg.refValues {ns na nl len} : (ls : List Nat) → {pc : Nat} → (∀ l ∈ ls, l < nl) → pc + ls.length + 1 ≤ len →
    Seg ns na nl len pc (ls.map .refValue)
  | [], _, _, _ => .nil
  | l :: ls, pc, h, hl => by
    simp only [List.length_cons] at hl
    refine .cons ⟨by simp [Instr.reads], by simpa [Instr.writes] using h l (by simp), ?_, by simp⟩ (by simp)
      (Seg.refValues ls (fun l hl => h l (List.mem_cons_of_mem _ hl)) (by omega))
    simp only [Instr.succ, List.mem_singleton, forall_eq]; omega

theorem Seg.refDefs {ns na nl len} : (ls : List Nat) → (ds : List Var) → {pc : Nat} → (∀ l ∈ ls, l < nl) → (∀ d ∈ ds, d.In ns na nl) →
    pc + (List.zipWith Instr.refDef ls ds).length + 1 ≤ len → Seg ns na nl len pc (List.zipWith .refDef ls ds)
  | [], _, _, _, _, _ => by simp; exact .nil
  | _ :: _, [], _, _, _, _ => by simp; exact .nil
  | l :: ls, d :: ds, pc, h, h', hl => by
    simp only [List.zipWith_cons_cons, List.length_cons] at hl ⊢
    refine .cons ⟨?_, by simp [Instr.writes], ?_, by simp⟩ (by simp)
      (Seg.refDefs ls ds (fun l hl => h l (List.mem_cons_of_mem _ hl)) (fun d hd => h' d (List.mem_cons_of_mem _ hd)) (by omega))
    · simp only [Instr.reads, List.mem_cons, List.not_mem_nil, or_false, forall_eq_or_imp, forall_eq]
      exact ⟨h l (by simp), h' d (by simp)⟩
    · simp only [Instr.succ, List.mem_singleton, forall_eq]; omega

mutual
theorem Comp.wf {exit t bl sc o} (h : Comp exit t bl sc o) (hi : SInv sc) (hu : InUse sc) {nl len} (hn : o.sc.nlocals ≤ nl)
    (hl : sc.pc + o.code.length + pad exit ≤ len) : Seg sc.nstatics sc.nargs nl len sc.pc o.code :=
  match h with
  | .typeVal _ => .one (by simp [Instr.reads]) rfl rfl (by simp) (Nat.lt_of_lt_of_le (slot_lt exit sc) hn) (by simp at hl ⊢; omega)
  | .literal _ => .one (by simp [Instr.reads]) rfl rfl (by simp) (Nat.lt_of_lt_of_le (slot_lt exit sc) hn) (by simp at hl ⊢; omega)
  | .var (w := w) _ hg => by
    simp only [compileExit] at hn hl ⊢
    cases exit with
    | false => exact .nil
    | true =>
      refine .cons ⟨?_, by simp [Instr.writes], by simp [Instr.succ], by simp⟩ (by simp) .nil
      simp only [Instr.reads, List.mem_singleton, forall_eq]
      exact hu.read (.refl sc) rfl rfl hn (getVar_pos hi hg)
  | .struct (a := a) ca er fa => by
    have hsame := (releaseAll_same er).1
    have hn : (finSc exit a.sc).nlocals ≤ nl := by rw [← hsame]; exact hn
    have hna : a.sc.nlocals ≤ nl := Nat.le_trans finSc_le' hn
    simp only [List.length_append, List.length_cons] at hl
    refine (ca.wf hi hu hna (by omega)).append (.one ?_ rfl rfl (by simp) (Nat.lt_of_lt_of_le (slot_lt exit a.sc) hn) (by omega))
    intro v hv
    exact (fa.adds.inUse hu).read fa.adds.same rfl rfl hna (fa.adds.mem_pos v hv)
  | .list (a := a) ca er fa => by
    have hsame := (releaseAll_same er).1
    have hn : (finSc exit a.sc).nlocals ≤ nl := by rw [← hsame]; exact hn
    have hna : a.sc.nlocals ≤ nl := Nat.le_trans finSc_le' hn
    simp only [List.length_append, List.length_cons] at hl
    refine (ca.wf hi hu hna (by omega)).append (.one ?_ rfl rfl (by simp) (Nat.lt_of_lt_of_le (slot_lt exit a.sc) hn) (by omega))
    intro v hv
    exact (fa.adds.inUse hu).read fa.adds.same rfl rfl hna (fa.adds.mem_pos v hv)
  | .copy (o := o) (v := v) (a := a) co ro fo ca fa er1 er2 => by
    have hsame := (release_same er2).1.trans (releaseAll_same er1).1
    have hn : (finSc exit a.sc).nlocals ≤ nl := by rw [← hsame]; exact hn
    have hna : a.sc.nlocals ≤ nl := Nat.le_trans finSc_le' hn
    simp only [List.length_append, List.length_cons] at hl
    have hu1 := fo.adds.inUse hu
    have h2 := ca.wf fa.inv hu1 (fo.adds.mem_pos v (by simp)) hna (len := len) (by rw [fo.adds.pc]; omega)
    rw [fo.adds.pc, fo.adds.same.nstatics, fo.adds.same.nargs] at h2
    refine ((co.wf hi hu (Nat.le_trans fa.adds.nlocals hna) (by simp [pad]; omega)).append h2).append
      (.one ?_ rfl rfl (by simp) (Nat.lt_of_lt_of_le (slot_lt exit a.sc) hn) (by simp only [List.length_append]; omega))
    intro v hv
    exact (fa.adds.inUse hu1).read (fo.adds.same.trans fa.adds.same) rfl rfl hna (fa.adds.mem_pos v hv)
  | .union (o := o) (v := v) co ro fo er => by
    have hsame := (release_same er).1
    have hn : (finSc exit o.sc).nlocals ≤ nl := by rw [← hsame]; exact hn
    have hna : o.sc.nlocals ≤ nl := Nat.le_trans finSc_le' hn
    simp only [List.length_append, List.length_cons] at hl
    refine (co.wf hi hu hna (by simp [pad]; omega)).append (.one ?_ rfl rfl (by simp) (Nat.lt_of_lt_of_le (slot_lt exit o.sc) hn) (by omega))
    intro w hw
    simp only [Instr.reads, List.mem_singleton] at hw
    subst hw
    exact (fo.adds.inUse hu).read fo.adds.same rfl rfl hna (fo.adds.mem_pos w (by simp))
  | .access (u := u) (o := o) (v := v) co ro fo er => by
    have hsame := (release_same er).1
    have hn : (finSc exit o.sc).nlocals ≤ nl := by rw [← hsame]; exact hn
    have hna : o.sc.nlocals ≤ nl := Nat.le_trans finSc_le' hn
    simp only [List.length_append, List.length_cons] at hl
    refine (co.wf hi hu hna (by simp [pad]; omega)).append (.one ?_ (by cases u <;> rfl) (by cases u <;> rfl) (by cases u <;> simp)
      (Nat.lt_of_lt_of_le (slot_lt exit o.sc) hn) (by omega))
    intro w hw
    have hw : w = v := by cases u <;> simpa [Instr.reads] using hw
    subst hw
    exact (fo.adds.inUse hu).read fo.adds.same rfl rfl hna (fo.adds.mem_pos w (by simp))
  | .func (vs := vs) (f := f) _ hg hb cf => by
    obtain ⟨h1, h2⟩ := getVars_pos hi hg
    have hlt := Nat.lt_of_lt_of_le (slot_lt exit sc) hn
    simp only [List.length_cons] at hl
    refine .one ?_ rfl rfl ?_ hlt (by omega)
    · intro v hv
      exact hu.read (.refl sc) rfl rfl (Nat.le_trans finSc_le' hn) (h2 v hv)
    · intro c b s d he
      cases he
      obtain ⟨h3, h4⟩ := cf.wf
      exact ⟨by rw [h1, h3], h4⟩
  | .tail (h := h) (fv := fv) (as := as) ch rh fh cas fas er1 er2 => by
    have hsame : _ = as.sc.nlocals := (releaseAll_same er2).1.trans (release_same er1).1
    have hna : as.sc.nlocals ≤ nl := by rw [← hsame]; exact hn
    simp only [List.length_append, List.length_cons, List.length_nil] at hl
    have hu1 := fh.adds.inUse hu
    have hu2 := fas.adds.inUse hu1
    have h2 := cas.wf fas.inv hu1 hna (len := len) (by rw [fh.adds.pc]; omega)
    rw [fh.adds.pc, fh.adds.same.nstatics, fh.adds.same.nargs] at h2
    refine ((ch.wf hi hu (Nat.le_trans fas.adds.nlocals hna) (by simp [pad]; omega)).append h2).append
      (.cons ⟨?_, by simp [Instr.writes], by simp [Instr.succ], by simp⟩ (by simp) .nil)
    intro v hv
    simp only [Instr.reads, List.mem_cons, List.mem_reverse] at hv
    refine hu2.read (fh.adds.same.trans fas.adds.same) rfl rfl hna ?_
    rcases hv with rfl | hv
    · exact fas.adds.pos v (fh.adds.mem_pos v (by simp))
    · exact fas.adds.mem_pos v hv
  | .call (h := h) (fv := fv) (as := as) ch rh fh cas fas er1 er2 => by
    have hsame : _ = (newLocal as.sc).2.nlocals := (releaseAll_same er2).1.trans (release_same er1).1
    have hn : (newLocal as.sc).2.nlocals ≤ nl := by rw [← hsame]; exact hn
    have hna : as.sc.nlocals ≤ nl := Nat.le_trans newLocal_le hn
    simp only [List.length_append, List.length_cons, List.length_nil, pad, if_false, Bool.false_eq_true] at hl
    have hu1 := fh.adds.inUse hu
    have hu2 := fas.adds.inUse hu1
    have h2 := cas.wf fas.inv hu1 hna (len := len) (by rw [fh.adds.pc]; omega)
    rw [fh.adds.pc, fh.adds.same.nstatics, fh.adds.same.nargs] at h2
    refine ((ch.wf hi hu (Nat.le_trans fas.adds.nlocals hna) (by simp [pad]; omega)).append h2).append
      (.cons ⟨?_, ?_, ?_, by simp⟩ (by simp) .nil)
    · intro v hv
      simp only [Instr.reads, List.mem_cons, List.mem_reverse] at hv
      refine hu2.read (fh.adds.same.trans fas.adds.same) rfl rfl hna ?_
      rcases hv with rfl | hv
      · exact fas.adds.pos v (fh.adds.mem_pos v (by simp))
      · exact fas.adds.mem_pos v hv
    · simp only [Instr.writes, List.mem_singleton, forall_eq]
      exact Nat.lt_of_lt_of_le (newLocal_lt as.sc) hn
    · simp only [Instr.succ, List.mem_singleton, forall_eq, List.length_append]; omega
  | .letE (ds := ds) (d := d) (sc1 := sc1) (o := o) cd fd es e1 co fo ep => by
    have hno : o.sc.nlocals ≤ nl := by rw [← (popVars_same ep).1]; exact hn
    simp only [List.length_append] at hl
    have h1 : sc1.nlocals = d.sc.nlocals := by rw [e1]; rfl
    have h2 : sc1.pc = d.sc.pc := by rw [e1]; rfl
    have hp := fd.adds.pc
    have hsp : (sc.setVars (sc.vars ++ List.replicate ds.length none)).pc = sc.pc := rfl
    rw [hsp] at hp
    have hud : InUse d.sc := fd.adds.inUse hu
    have hu1 : InUse sc1 := by rw [e1]; exact hud
    have hw1 := cd.wf (nl := nl) (len := len) fd.inv hu (by rw [← h1]; exact Nat.le_trans fo.adds.nlocals hno) (by rw [hsp]; have : pad exit ≤ 1 := (by cases exit <;> simp [pad]); cases exit with
      | false => simp [pad] at hl; omega
      | true => have := co.exit_ne _ (Nat.le_refl _); omega)
    have hw2 := co.wf fo.inv hu1 hno (len := len) (by rw [h2, hp]; omega)
    have hs1 : sc1.nstatics = sc.nstatics := by rw [e1]; exact fd.adds.same.nstatics
    have hs2 : sc1.nargs = sc.nargs := by rw [e1]; exact fd.adds.same.nargs
    rw [h2, hp, hs1, hs2] at hw2
    exact hw1.append hw2
  | .letRec (ds := ds) (ls := ls) (lcode := lcode) (sc0 := sc0) (d := d) (acode := acode) (sc1 := sc1) (o := o) el al cd fd ea aa co fo ep => by
    have hno : o.sc.nlocals ≤ nl := by rw [← (popVars_same ep).1]; exact hn
    simp only [List.length_append] at hl
    obtain ⟨rfl, hll⟩ := letVars_code _ el
    obtain rfl := letDefs_code ea
    have hnd : d.sc.nlocals ≤ nl := by rw [← letDefs_nlocals ea]; exact Nat.le_trans fo.adds.nlocals hno
    have hn0 : sc0.nlocals ≤ nl := Nat.le_trans fd.adds.nlocals hnd
    have hu0 : InUse sc0 := al.inUse hu
    have hud : InUse d.sc := fd.adds.inUse hu0
    have hu1 : InUse sc1 := aa.inUse hu
    have hlen : (ls.map Instr.refValue).length = ds.length := by rw [List.length_map, hll]
    have hp0 : sc0.pc = sc.pc + ds.length := al.pc
    have hpd : d.sc.pc = sc0.pc + d.code.length := fd.adds.pc
    have hp1 : sc1.pc = sc.pc + (ds.length + d.code.length + ds.length) := aa.pc
    have hzl : (List.zipWith Instr.refDef ls d.res).length = ds.length := by
      rw [List.length_zipWith, cd.length, hll, Nat.min_self]
    rw [hlen, hzl] at hl
    have hne : pad exit + o.code.length ≥ 1 := by
      cases exit with
      | false => simp [pad]
      | true => have := co.exit_ne _ (Nat.le_refl _); omega
    have hlv : ∀ l ∈ ls, l < nl := fun l hl => Nat.lt_of_lt_of_le (hu0 (.loc l) (al.mem_pos _ (List.mem_map_of_mem hl))) hn0
    have hw1 := cd.wf (nl := nl) (len := len) fd.inv hu0 hnd (by omega)
    have hw2 := co.wf fo.inv hu1 hno (len := len) (by omega)
    have e1 : sc0.nstatics = sc.nstatics := al.same.nstatics
    have e2 : sc0.nargs = sc.nargs := al.same.nargs
    have e3 : sc1.nstatics = sc.nstatics := aa.same.nstatics
    have e4 : sc1.nargs = sc.nargs := aa.same.nargs
    rw [hp0, e1, e2] at hw1
    rw [hp1, e3, e4] at hw2
    have hw0 : Seg sc.nstatics sc.nargs nl len sc.pc (ls.map Instr.refValue) := .refValues ls hlv (by omega)
    have hw3 : Seg sc.nstatics sc.nargs nl len (sc.pc + ds.length + d.code.length) (List.zipWith Instr.refDef ls d.res) := by
      refine .refDefs ls d.res hlv (fun v hv => ?_) (by omega)
      have := (hud v (fd.adds.mem_pos v hv)).mono hnd
      rwa [fd.adds.same.nstatics, fd.adds.same.nargs, e1, e2] at this
    refine ((hw0.append (by rw [hlen]; exact hw1)).append ?_).append ?_
    · rw [List.length_append, hlen, ← Nat.add_assoc]; exact hw3
    · rw [List.length_append, List.length_append, hlen, hzl]; exact hw2
  | .selectExit (o := o) (cv := cv) (b := b) (dd := dd) (z2 := z2) co ro fo ht cb fb cd fd ea er => by
    have hz : z2.nlocals = dd.sc.nlocals := (afterBranch_same ea).1
    have hr : _ = z2.nlocals := (release_same er).1
    have hnd : dd.sc.nlocals ≤ nl := by rw [← hz, ← hr]; exact hn
    have hnb : b.sc.nlocals ≤ nl := Nat.le_trans fd.adds.nlocals hnd
    have hno : o.sc.nlocals ≤ nl := Nat.le_trans fb.adds.nlocals hnb
    have hlb := partsLen_code true (slot o.sc) z2.pc b.res
    simp only [List.length_append, List.length_cons, hlb, pad, if_true, Nat.add_zero] at hl
    have hu1 := fo.adds.inUse hu
    have hu2 := fb.adds.inUse (sc := o.sc.emit) hu1
    have hud : InUse (enterBlock true b.bl b.sc.reset).2 := (Adds.enterBlock _ _ _).inUse ((Adds.reset b.sc).inUse hu2)
    have hpo : o.sc.emit.pc = sc.pc + o.code.length + 1 := by
      show o.sc.pc + 1 = _; rw [fo.adds.pc]
    have hpb : b.sc.pc = o.sc.emit.pc + partsLen true b.res := fb.adds.pc
    have hne := cd.exit_ne _ (Nat.le_refl _)
    have e1 : o.sc.emit.nstatics = sc.nstatics := fo.adds.same.nstatics
    have e2 : o.sc.emit.nargs = sc.nargs := fo.adds.same.nargs
    have e3 : (enterBlock true b.bl b.sc.reset).2.nstatics = sc.nstatics := fb.adds.same.nstatics.trans e1
    have e4 : (enterBlock true b.bl b.sc.reset).2.nargs = sc.nargs := fb.adds.same.nargs.trans e2
    have hwb := cb.wf fb.inv hu1 (dest := slot o.sc) (stop := z2.pc) hnb (by simp) (by simp) (len := len) (by omega)
    have hpd : (enterBlock true b.bl b.sc.reset).2.pc = b.sc.pc := rfl
    have hwd := cd.wf fd.inv hud hnd (len := len) (by simp only [pad, if_true]; omega)
    rw [hpd, hpb, hpo, e3, e4] at hwd
    rw [hpo, e1, e2] at hwb
    refine (co.wf hi hu hno (by simp only [pad, Bool.false_eq_true, if_false]; omega)).append (.cons ⟨?_, by simp [Instr.writes], ?_, by simp⟩ (by simp) (hwb.append (by rw [hlb]; exact hwd)))
    · simp only [Instr.reads, List.mem_singleton, forall_eq]
      exact hu1.read fo.adds.same rfl rfl hno (fo.adds.mem_pos cv (by simp))
    · intro t ht
      simp only [Instr.succ, List.mem_append, List.mem_map, List.mem_singleton] at ht
      rcases ht with ⟨x, hx, rfl⟩ | rfl
      · have := branchTable_targets x hx
        omega
      · omega
  | .select (o := o) (cv := cv) (b := b) (dd := dd) (dv := dv) (z2 := z2) co ro fo ht cb fb cd rd fd ea er hz2 => by
    have hz : z2.nlocals = dd.sc.nlocals := (afterBranch_same ea).1
    have hr : _ = z2.nlocals := (release_same er).1
    have hnd : dd.sc.nlocals ≤ nl := by rw [← hz, ← hr]; exact hn
    have hnb : b.sc.nlocals ≤ nl := Nat.le_trans fd.adds.nlocals hnd
    have hnl : (newLocal o.sc).2.nlocals ≤ nl := Nat.le_trans fb.adds.nlocals hnb
    have hno : o.sc.nlocals ≤ nl := Nat.le_trans newLocal_le hnl
    have hlb := partsLen_code false (slot o.sc) z2.pc b.res
    simp only [List.length_append, List.length_cons, List.length_nil, hlb, pad, if_false, Bool.false_eq_true] at hl
    have hu1 := fo.adds.inUse hu
    have hul : InUse (newLocal o.sc).2.emit := (newLocal_adds fo.inv'.slots).inUse hu1
    have hu2 := fb.adds.inUse hul
    have hud : InUse (enterBlock false b.bl b.sc.reset).2 := (Adds.enterBlock _ _ _).inUse ((Adds.reset b.sc).inUse hu2)
    have hpo : (newLocal o.sc).2.emit.pc = sc.pc + o.code.length + 1 := by
      show o.sc.pc + 1 = _; rw [fo.adds.pc]
    have hpb : b.sc.pc = (newLocal o.sc).2.emit.pc + partsLen false b.res := fb.adds.pc
    have e1 : (newLocal o.sc).2.emit.nstatics = sc.nstatics := fo.adds.same.nstatics
    have e2 : (newLocal o.sc).2.emit.nargs = sc.nargs := fo.adds.same.nargs
    have e3 : (enterBlock false b.bl b.sc.reset).2.nstatics = sc.nstatics := fb.adds.same.nstatics.trans e1
    have e4 : (enterBlock false b.bl b.sc.reset).2.nargs = sc.nargs := fb.adds.same.nargs.trans e2
    have hds : slot o.sc < nl := Nat.lt_of_lt_of_le (newLocal_lt o.sc) hnl
    have hwb := cb.wf fb.inv hul (dest := slot o.sc) (stop := z2.pc) hnb (fun _ => hds) (fun _ => by omega) (len := len) (by omega)
    have hpd : (enterBlock false b.bl b.sc.reset).2.pc = b.sc.pc := rfl
    have hwd := cd.wf fd.inv hud hnd (len := len) (by simp only [pad, Bool.false_eq_true, if_false]; omega)
    rw [hpd, hpb, hpo, e3, e4] at hwd
    have hdv : dv.In sc.nstatics sc.nargs nl := by
      have := (fd.adds.inUse hud dv (fd.adds.mem_pos dv (by simp))).mono hnd
      rwa [fd.adds.same.nstatics, fd.adds.same.nargs, e3, e4] at this
    rw [hpo, e1, e2] at hwb
    refine (co.wf hi hu hno (by simp only [pad, Bool.false_eq_true, if_false]; omega)).append (.cons ⟨?_, by simp [Instr.writes], ?_, by simp⟩ (by simp)
      (hwb.append (.append (by rw [hlb]; exact hwd)
        (.cons ⟨?_, ?_, ?_, by simp⟩ (by simp) (.cons ⟨by simp [Instr.reads], by simp [Instr.writes], ?_, by simp⟩ (by simp) .nil)))))
    · simp only [Instr.reads, List.mem_singleton, forall_eq]
      exact hu1.read fo.adds.same rfl rfl hno (fo.adds.mem_pos cv (by simp))
    · intro t ht
      simp only [Instr.succ, List.mem_append, List.mem_map, List.mem_singleton] at ht
      rcases ht with ⟨x, hx, rfl⟩ | rfl
      · have := branchTable_targets x hx
        omega
      · omega
    · simpa only [Instr.reads, List.mem_singleton, forall_eq] using hdv
    · simpa [Instr.writes] using hds
    · simp only [Instr.succ, List.mem_singleton, forall_eq]; rw [hlb]; omega
    · simp only [Instr.succ, List.mem_singleton, forall_eq]; rw [hlb]; omega
termination_by structural h
theorem Comps.wf {ts bl sc a} (h : Comps ts bl sc a) (hi : SInv sc) (hu : InUse sc) {nl len} (hn : a.sc.nlocals ≤ nl)
    (hl : sc.pc + a.code.length + 1 ≤ len) : Seg sc.nstatics sc.nargs nl len sc.pc a.code :=
  match h with
  | .nil => .nil
  | .cons (o := o) (a := a) co ro fo ca fa => by
    simp only [List.length_append] at hl
    have h2 := ca.wf fa.inv (fo.adds.inUse hu) hn (len := len) (by rw [fo.adds.pc]; omega)
    rw [fo.adds.pc, fo.adds.same.nstatics, fo.adds.same.nargs] at h2
    exact (co.wf hi hu (Nat.le_trans fa.adds.nlocals hn) (by simp [pad]; omega)).append h2
termination_by structural h
theorem CompDefs.wf {ts bl sc a} (h : CompDefs ts bl sc a) (hi : SInv sc) (hu : InUse sc) {nl len} (hn : a.sc.nlocals ≤ nl)
    (hl : sc.pc + a.code.length + 1 ≤ len) : Seg sc.nstatics sc.nargs nl len sc.pc a.code :=
  match h with
  | .nil => .nil
  | .cons (o := o) (a := a) co ro fo ca fa => by
    simp only [List.length_append] at hl
    have hu1 : InUse (enterBlock false bl sc).2 := (Adds.enterBlock false bl sc).inUse hu
    have hu2 : InUse (exitBlock false o.bl o.sc).2 := (Adds.exitBlock false o.bl o.sc).inUse (fo.adds.inUse hu1)
    have hp : (exitBlock false o.bl o.sc).2.pc = sc.pc + o.code.length := fo.adds.pc
    have h2 := ca.wf fa.inv hu2 hn (len := len) (by rw [hp]; omega)
    have e1 : (exitBlock false o.bl o.sc).2.nstatics = sc.nstatics := fo.adds.same.nstatics
    have e2 : (exitBlock false o.bl o.sc).2.nargs = sc.nargs := fo.adds.same.nargs
    rw [hp, e1, e2] at h2
    have hno : o.sc.nlocals ≤ nl := Nat.le_trans fa.adds.nlocals hn
    exact Seg.append (co.wf fo.inv hu1 hno (by simp only [pad, Bool.false_eq_true, if_false]; show sc.pc + o.code.length + 1 ≤ len; omega)) h2
termination_by structural h
theorem CompBrs.wf {exit bs bl sc b} (h : CompBrs exit bs bl sc b) (hi : SInv sc) (hu : InUse sc) {nl len dest stop} (hn : b.sc.nlocals ≤ nl)
    (hd : exit = false → dest < nl) (hs : exit = false → sc.pc + partsLen exit b.res ≤ stop ∧ stop < len) (hl : sc.pc + partsLen exit b.res ≤ len) :
    Seg sc.nstatics sc.nargs nl len sc.pc (branchCode exit dest stop (b.res.map (·.2))) :=
  match h with
  | .nil => .nil
  | .cons (o := o) (z1 := z1) (z2 := z2) (a := a) co hr fo ea fz ca fa => by
    simp only [partsLen] at hl hs
    have hu1 : InUse (enterBlock exit bl sc.reset).2 := (Adds.enterBlock _ _ _).inUse ((Adds.reset sc).inUse hu)
    have hnz : z2.nlocals ≤ nl := Nat.le_trans fa.adds.nlocals hn
    have hno : o.sc.nlocals ≤ nl := by rw [← (afterBranch_same ea).1]; exact hnz
    have hpz : z2.pc = sc.pc + (o.code.length + if exit then 0 else 2) := fz.adds.pc
    have h2 := ca.wf fa.inv (fz.adds.inUse hu) (dest := dest) (stop := stop) hn hd (len := len)
      (fun he => by have := hs he; rw [hpz]; omega) (by rw [hpz]; omega)
    rw [hpz, fz.adds.same.nstatics, fz.adds.same.nargs] at h2
    simp only [List.map_cons, branchCode]
    have hco := co.wf fo.inv hu1 hno (len := len)
    cases exit with
    | true => exact Seg.append (hco (by simp only [pad, if_true]; show sc.pc + o.code.length + 0 ≤ len; omega)) (by simpa using h2)
    | false =>
      simp only [Bool.false_eq_true, if_false] at h2 hl hs ⊢
      have hs := hs trivial
      obtain ⟨r, hr⟩ := Option.isSome_iff_exists.mp (hr rfl)
      refine Seg.append (Seg.append (hco (by simp only [pad, Bool.false_eq_true, if_false]; show sc.pc + o.code.length + 1 ≤ len; omega)) ?_) (by simpa using h2)
      refine .cons ⟨?_, ?_, ?_, by simp⟩ (by simp) (.cons ⟨by simp [Instr.reads], by simp [Instr.writes], ?_, by simp⟩ (by simp) .nil)
      · simp only [Instr.reads, List.mem_singleton, forall_eq, hr, Option.getD_some]
        exact (fo.adds.inUse hu1).read fo.adds.same rfl rfl hno (fo.adds.mem_pos r (by simp [hr]))
      · simpa [Instr.writes] using hd
      · simp only [Instr.succ, List.mem_singleton, forall_eq]; show _ < sc.pc + o.code.length + 1 ∧ _; omega
      · simp only [Instr.succ, List.mem_singleton, forall_eq]; show sc.pc + o.code.length + 1 < _ ∧ _; omega
termination_by structural h
theorem CompFlds.wf {src i fs bl sc a} (h : CompFlds src i fs bl sc a) (hi : SInv sc) (hu : InUse sc) (hv : 0 < sc.cnt src) {nl len} (hn : a.sc.nlocals ≤ nl)
    (hl : sc.pc + a.code.length + 1 ≤ len) : Seg sc.nstatics sc.nargs nl len sc.pc a.code :=
  match h with
  | .nil => .nil
  | .keep (a := a) ca fa => by
    simp only [List.length_cons] at hl
    have hadd : Adds sc (newLocal sc).2.emit 1 _ := (newLocal_adds hi.slots).trans (.emit _)
    have h2 := ca.wf fa.inv (hadd.inUse hu) (hadd.pos _ hv) hn (len := len) (by rw [hadd.pc]; omega)
    rw [hadd.pc, hadd.same.nstatics, hadd.same.nargs] at h2
    have hle : (newLocal sc).2.nlocals ≤ nl := Nat.le_trans fa.adds.nlocals hn
    refine .cons ⟨?_, ?_, ?_, by simp⟩ (by simp) h2
    · simp only [Instr.reads, List.mem_singleton, forall_eq]
      exact hu.read (.refl sc) rfl rfl (Nat.le_trans newLocal_le hle) hv
    · simp only [Instr.writes, List.mem_singleton, forall_eq]
      exact Nat.lt_of_lt_of_le (newLocal_lt sc) hle
    · simp only [Instr.succ, List.mem_singleton, forall_eq]; omega
  | .set (o := o) (a := a) co ro fo ca fa => by
    simp only [List.length_append] at hl
    have h2 := ca.wf fa.inv (fo.adds.inUse hu) (fo.adds.pos _ hv) hn (len := len) (by rw [fo.adds.pc]; omega)
    rw [fo.adds.pc, fo.adds.same.nstatics, fo.adds.same.nargs] at h2
    exact (co.wf hi hu (Nat.le_trans fa.adds.nlocals hn) (by simp [pad]; omega)).append h2
termination_by structural h
theorem CompFunc.wf {ns na body block bl f} (h : CompFunc ns na body block bl f) : f.1.numStatics = ns ∧ ∀ c', Within f.1 c' → c'.Fits :=
  match h with
  | .mk (o := o) (sc' := sc') co fo er hl hp => by
    refine ⟨rfl, fun c' hc => ?_⟩
    have h := co.wf fo.inv (initScope_inUse ns na block) (nl := sc'.nlocals) (len := o.code.length) (Nat.le_of_eq hl.symm) (by simp [initScope, pad])
    cases hc with
    | here =>
      refine ⟨co.exit_ne _ (Nat.le_refl _), fun pc i hpc => ?_⟩
      have := (h pc i hpc).1
      simpa [initScope, Code.numStatics, Code.numArgs, Code.numLocals, Code.instrs] using this
    | inner hm hc =>
      obtain ⟨i, hi⟩ := List.mem_iff_getElem?.mp hm
      exact (h i _ hi).2 _ _ _ _ rfl _ hc
termination_by structural h
end

/-- C14. In the code of every module whose expression is in scope, and in every function defined in
it, all variables read are among the captured variables, arguments and local slots of the function, all
slots written are local slots of it, and control goes strictly forward and never past the end. -/
theorem C14_code_fits {nargs : Nat} {t : Tc} (ht : t.Scoped 0 nargs []) :
    ∃ code n, compileModule nargs t = some (code, n) ∧ code.numStatics = 0 ∧ code.numArgs = nargs ∧ ∀ c, Within code c → c.Fits := by
  obtain ⟨o, e1, co, fo, _⟩ := compile_ok true t (pushBlock ⟨[], 0⟩).2 (initScope 0 nargs 0) ht (initScope_inv _ _ _) (by simp [initScope, pushBlock])
  have hst : (exitBlock true o.bl o.sc).1.stack = [] := by rw [exitBlock_stack, fo.stack]; rfl
  refine ⟨_, _, by
    unfold compileModule
    simp only [show (pushBlock ⟨[], 0⟩).1 = 0 from rfl, e1, Option.bind_some]
    rw [if_pos hst], rfl, rfl, fun c' hc => ?_⟩
  have h := co.wf fo.inv (initScope_inUse 0 nargs 0) (nl := o.sc.nlocals) (len := o.code.length) (Nat.le_refl _) (by simp [initScope, pad])
  cases hc with
  | here =>
    refine ⟨co.exit_ne _ (Nat.le_refl _), fun pc i hpc => ?_⟩
    have := (h pc i hpc).1
    simpa [initScope, Code.numStatics, Code.numArgs, Code.numLocals, Code.instrs] using this
  | inner hm hc =>
    obtain ⟨i, hi⟩ := List.mem_iff_getElem?.mp hm
    exact (h i _ hi).2 _ _ _ _ rfl _ hc

/-- The main function of a program calls the module functions with the values of earlier modules. -/
theorem mainInstrs_get : (ms : List Mod) → (k i : Nat) → (x : Instr) → (mainInstrs k ms)[i]? = some x →
    ∃ m, ms[i]? = some m ∧ x = .call (.static (k + i)) (m.deps.map .loc) (k + i)
  | [], _, _, _, h => by simp [mainInstrs] at h
  | m :: ms, k, i, x, h => by
    cases i with
    | zero => simp [mainInstrs] at h; exact ⟨m, rfl, h.symm⟩
    | succ i =>
      obtain ⟨m', h1, h2⟩ := mainInstrs_get ms (k + 1) i x (by simpa [mainInstrs] using h)
      exact ⟨m', by simpa using h1, by rw [h2, show k + 1 + i = k + (i + 1) by omega]⟩

theorem progOk_get : (ms : List Mod) → (k : Nat) → progOk k ms → ∀ (i : Nat) m, ms[i]? = some m → ∀ d ∈ m.deps, d < k + i
  | [], _, _, i, m, h => by simp at h
  | m' :: ms, k, hp, i, m, h => by
    cases i with
    | zero => simp at h; subst h; exact hp.1
    | succ i =>
      have := progOk_get ms (k + 1) hp.2.2 i m (by simpa using h)
      intro d hd
      have := this d hd
      omega

/-- C14 for the main function of a program. -/
theorem C14_main_fits {ms : List Mod} (hne : ms ≠ []) (h : progOk 0 ms) : (mainCode ms).Fits := by
  have hlen : 0 < ms.length := List.length_pos_iff.mpr hne
  have hml := mainInstrs_length ms 0
  refine ⟨by simp [mainCode, Code.instrs], fun pc x hx => ?_⟩
  simp only [mainCode, Code.instrs, Code.numStatics, Code.numArgs, Code.numLocals, List.length_append, List.length_singleton, hml] at hx ⊢
  by_cases hp : pc < ms.length
  · rw [List.getElem?_append_left (by omega)] at hx
    obtain ⟨m, h1, rfl⟩ := mainInstrs_get ms 0 pc x hx
    refine ⟨?_, ?_, ?_, by simp⟩
    · intro v hv
      simp only [Instr.reads, List.mem_cons, List.mem_map] at hv
      rcases hv with rfl | ⟨d, hd, rfl⟩
      · simpa [Var.In] using hp
      · have := progOk_get ms 0 h pc m h1 d hd
        simp only [Var.In]; omega
    · simpa [Instr.writes] using hp
    · simp only [Instr.succ, List.mem_singleton, forall_eq]; omega
  · rw [List.getElem?_append_right (by omega), hml] at hx
    have : pc - ms.length = 0 := by
      cases hq : pc - ms.length with
      | zero => rfl
      | succ n => rw [hq] at hx; simp at hx
    rw [this] at hx
    simp at hx
    subst hx
    refine ⟨?_, by simp [Instr.writes], by simp [Instr.succ], by simp⟩
    simp only [Instr.reads, List.mem_singleton, forall_eq, Var.In]; omega

theorem setNext_go {pc : Nat} {fr : Frame} {dest : Nat} {v : TVal} {s : St TFn} {pc' fr' s'} (h : setNext pc fr dest v s = .ok (.go pc' fr') s') :
    pc' = pc + 1 ∧ dest < fr.locals.length ∧ fr'.statics = fr.statics ∧ fr'.args = fr.args ∧ fr'.locals = fr.locals.set dest (some v) := by
  simp only [setNext, Frame.put] at h
  split at h
  · next hd =>
    simp only [orWild] at h
    cases h
    exact ⟨rfl, hd, rfl, rfl, rfl⟩
  · simp [orWild] at h

theorem searchLoop_mem (targets : List Select.Branch) (d tag : Nat) (lo hi x : Nat) (h : Select.searchLoop targets d tag lo hi = some x) :
    x ∈ targets.map (·.target) ++ [d] := by
  fun_induction Select.searchLoop targets d tag lo hi with
  | case1 => cases h
  | case2 lo hi _ mid b hb => 
    cases h
    exact List.mem_append_left _ (List.mem_map_of_mem (List.mem_of_getElem? hb))
  | case3 lo hi _ mid b hb _ _ ih => exact ih h
  | case4 lo hi _ mid b hb _ _ ih => exact ih h
  | case5 => cases h; simp

theorem interpSelect_mem (targets : List Select.Branch) (d : Nat) (t : Option Nat) (x : Nat) (h : Select.interpSelect targets d t = .goto x) :
    x ∈ targets.map (·.target) ++ [d] := by
  cases t with
  | none => simp [Select.interpSelect] at h
  | some tag =>
    simp only [Select.interpSelect] at h
    split at h
    · cases h
    · split at h
      · next hs => cases h; exact searchLoop_mem _ _ _ _ _ _ hs
      · cases h

/-- What the machine does in a step is what `succ` and `writes` say: control goes to one of the
successors and only the slots written change. -/
theorem step_effect {call i pc fr s pc' fr' s'} (h : step call i pc fr s = .ok (.go pc' fr') s') :
    pc' ∈ i.succ pc ∧ fr'.statics = fr.statics ∧ fr'.args = fr.args ∧ ∀ d, d ∉ i.writes → fr'.locals[d]? = fr.locals[d]? := by
  have put : ∀ {dest v s pc' fr' s'}, setNext pc fr dest v s = .ok (.go pc' fr') s' →
      pc' ∈ [pc + 1] ∧ fr'.statics = fr.statics ∧ fr'.args = fr.args ∧ ∀ d, d ∉ [dest] → fr'.locals[d]? = fr.locals[d]? := by
    intro dest v s pc' fr' s' h
    obtain ⟨h1, _, h2, h3, h4⟩ := setNext_go h
    refine ⟨by simp [h1], h2, h3, fun d hd => ?_⟩
    rw [h4, List.getElem?_set_ne (by simp at hd; exact fun he => hd he.symm)]
  have wild : ∀ {α : Type} {o : Option α} {k : α → TRes Next} {x s1}, orWild o k = .ok x s1 → ∃ a, o = some a ∧ k a = .ok x s1 := by
    intro α o k x s1 h
    cases o with
    | none => cases h
    | some a => exact ⟨a, rfl, h⟩
  have bnd : ∀ {α : Type} {r : TRes α} {k : α → St TFn → TRes Next} {x s1}, r.bind k = .ok x s1 → ∃ a s2, r = .ok a s2 ∧ k a s2 = .ok x s1 := by
    intro α r k x s1 h
    cases r with
    | ok a s2 => exact ⟨a, s2, rfl, h⟩
    | _ => cases h
  cases i with
  | struct args dest => obtain ⟨_, _, h⟩ := wild h; exact put h
  | union tag arg dest => obtain ⟨_, _, h⟩ := wild h; exact put h
  | structAccess obj tag dest => obtain ⟨_, _, h⟩ := wild h; obtain ⟨_, _, _, h⟩ := bnd h; exact put h
  | unionAccess obj tag dest => obtain ⟨_, _, h⟩ := wild h; obtain ⟨_, _, _, h⟩ := bnd h; exact put h
  | select c nt targets d =>
    obtain ⟨_, _, h⟩ := wild h
    obtain ⟨tag, _, _, h⟩ := bnd h
    split at h
    · next ht => cases h; exact ⟨interpSelect_mem _ _ _ _ ht, rfl, rfl, fun _ _ => rfl⟩
    · cases h
    · cases h
  | goto t => cases h; exact ⟨by simp [Instr.succ], rfl, rfl, fun _ _ => rfl⟩
  | func code b scope dest => obtain ⟨_, _, h⟩ := wild h; exact put h
  | call f args dest =>
    obtain ⟨_, _, h⟩ := wild h; obtain ⟨_, _, h⟩ := wild h; obtain ⟨_, _, _, h⟩ := bnd h; exact put h
  | tailCall f args =>
    obtain ⟨_, _, h⟩ := wild h
    obtain ⟨g, _, _, h⟩ := bnd h
    cases g with
    | fn _ => obtain ⟨_, _, h⟩ := wild h; cases h
    | _ => cases h
  | copy src dest => obtain ⟨_, _, h⟩ := wild h; exact put h
  | refValue dest => exact put h
  | refDef ref value =>
    obtain ⟨_, _, h⟩ := wild h; obtain ⟨_, _, h⟩ := wild h; obtain ⟨_, _, _, h⟩ := bnd h
    cases h
    exact ⟨by simp [Instr.succ], rfl, rfl, fun _ _ => rfl⟩
  | ret v => obtain ⟨_, _, h⟩ := wild h; cases h
  | type dest => exact put h
  | list args dest => obtain ⟨_, _, h⟩ := wild h; exact put h
  | literal ls dest => exact put h
  | nop => cases h; exact ⟨by simp [Instr.succ], rfl, rfl, fun _ _ => rfl⟩

end Verif.Compile
