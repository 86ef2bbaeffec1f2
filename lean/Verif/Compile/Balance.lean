import Verif.Compile.Wf
/-
Profile operations of compiled code are balanced on every path (C15).
-/
namespace Verif.Compile

/-! ### Specification -/

/-- What a profile operation does to the stack of blocks (the current one first) and the number of
samples counted: interpret.c:75-95, profile.c (see Verif.Profile).  A function must not exit or lose
the block it was called in: exiting the last block, and any operation without a block, is an error. -/
def runOp : POp → List Nat × Nat → Option (List Nat × Nat)
  | .enter b, (st, n) => some (b :: st, n)
  | .replace b, (_ :: st, n) => some (b :: st, n)
  | .replace _, ([], _) => none
  | .exit, (_ :: x :: st, n) => some (x :: st, n)
  | .exit, _ => none
  | .sample m, (x :: st, n) => some (x :: st, n + m)
  | .sample _, ([], _) => none

/-- Operations in order. -/
def runOps (ops : List POp) (s : Option (List Nat × Nat)) : Option (List Nat × Nat) :=
  ops.foldl (fun s op => s.bind (runOp op)) s

/-- Execution of a function called in block `b` may get to instruction `pc` after `k` instructions with
this stack of blocks and number of samples.  At a branch either way is taken; a call leaves the stack
as it is (FbleCall exits what it enters: see C07 and the statement about tail calls below). -/
inductive Reach (c : Code) (b : Nat) : Nat → Nat → List Nat × Nat → Prop
  | start : Reach c b 0 0 ([b], 0)
  | step {pc k s i ops s' t} : Reach c b pc k s → c.instrs[pc]? = some i → c.profile[pc]? = some ops →
      runOps ops (some s) = some s' → t ∈ i.succ pc → Reach c b t (k + 1) s'

/-- On every path the operations are defined and where the function ends, by a return or a tail call,
exactly one block is left on the stack, which the caller exits or replaces; and one sample has been
counted for every instruction executed. -/
def Code.Balanced (c : Code) : Prop :=
  ∀ b pc k s, Reach c b pc k s → ∃ i ops s', c.instrs[pc]? = some i ∧ c.profile[pc]? = some ops ∧ runOps ops (some s) = some s' ∧
    (i.succ pc = [] → s'.1.length = 1 ∧ s'.2 = k + 1)

/-- The block an operation refers to, relative to the block of the function. -/
def POp.block? : POp → Option Nat
  | .enter b => some b
  | .replace b => some b
  | _ => none

/-- The second function is the first one or defined within it; the blocks of the functions are `base`
and `base'`. -/
inductive WithinAt : Code → Nat → Code → Nat → Prop
  | here {c base} : WithinAt c base c base
  | inner {c c' c'' b scope d base base'} : .func c' b scope d ∈ c.instrs → WithinAt c' (base + b) c'' base' → WithinAt c base c'' base'

/-- The blocks used by the function are among the `n` blocks of the module. -/
def Code.BlocksIn (c : Code) (base n : Nat) : Prop := base < n ∧
  ∀ ops ∈ c.profile, ∀ op ∈ ops, ∀ b, op.block? = some b → base + b < n

/-! ### Building the operations -/

theorem runOps_append (a b : List POp) (s) : runOps (a ++ b) s = runOps b (runOps a s) := by simp [runOps]

theorem runOps_none (a : List POp) : runOps a none = none := by
  induction a with
  | nil => rfl
  | cons x a ih => simpa [runOps] using ih

theorem runOp_sample (s : Option (List Nat × Nat)) (m n) :
    (s.bind (runOp (.sample m))).bind (runOp (.sample n)) = s.bind (runOp (.sample (m + n))) := by
  rcases s with _ | ⟨_ | ⟨x, st⟩, k⟩
  · rfl
  · rfl
  · simp [runOp, Nat.add_assoc]

theorem runOps_addOp (ops : List POp) (op : POp) (s) : runOps (addOp ops op) s = (runOps ops s).bind (runOp op) := by
  unfold addOp
  split
  · next n m h =>
    obtain ⟨a, rfl⟩ := List.getLast?_eq_some_iff.mp h
    rw [List.dropLast_concat, runOps_append, runOps_append]
    exact (runOp_sample _ _ _).symm
  · rw [runOps_append]; rfl

/-- The operations in front of the next position that are not final yet. -/
def Prof.cur (p : Prof) : List POp :=
  match p.active with
  | none => p.pending
  | some a => (p.ops[a]?).getD []

structure PInv (p : Prof) (n : Nat) : Prop where
  len : p.ops.length = n
  active : ∀ a, p.active = some a → a < n ∧ p.pending = []

/-- Steps of the compiler on the profiling part of a scope: `n` instructions, and the operations satisfy
`Q`. -/
inductive PSteps (Q : POp → Prop) (p : Prof) : Nat → Prof → Prop
  | refl : PSteps Q p 0 p
  | append {n p' op} : PSteps Q p n p' → Q op → PSteps Q p n (p'.append op)
  | instr {n p'} : PSteps Q p n p' → PSteps Q p (n + 1) p'.instr
  | reset {n p'} : PSteps Q p n p' → PSteps Q p n p'.reset

theorem PSteps.trans {Q n m p p' p''} (h : PSteps Q p n p') (h' : PSteps Q p' m p'') : PSteps Q p (n + m) p'' := by
  induction h' with
  | refl => exact h
  | append _ hq ih => exact ih.append hq
  | instr _ ih => exact ih.instr
  | reset _ ih => exact ih.reset

theorem PSteps.mono {Q Q' n p p'} (h : PSteps Q p n p') (hq : ∀ op, Q op → Q' op) : PSteps Q' p n p' := by
  induction h with
  | refl => exact .refl
  | append _ h ih => exact ih.append (hq _ h)
  | instr _ ih => exact ih.instr
  | reset _ ih => exact ih.reset

theorem addOp_ne (ops op) : addOp ops op ≠ [] := by
  unfold addOp; split <;> simp

theorem PInv.append {p n} (h : PInv p n) (op) : PInv (p.append op) n := by
  unfold Prof.append
  cases ha : p.active with
  | none => exact ⟨h.len, fun a h' => by simp [ha] at h'⟩
  | some a =>
    refine ⟨by simp [h.len], fun b hb => ?_⟩
    have : p.active = some b := by rw [ha]; exact hb
    exact h.active b this

theorem instr_none {p : Prof} (h : p.active = none) : p.instr = ⟨[], some p.ops.length, p.ops ++ [addOp p.pending (.sample 1)]⟩ := by
  simp only [Prof.instr, Prof.append, h]
  split
  · next he => exact absurd he (addOp_ne _ _)
  · rfl

theorem instr_some {p : Prof} {n a} (hi : PInv p n) (h : p.active = some a) :
    p.instr = ⟨[], some a, p.ops.modify a (fun ops => addOp ops (.sample 1)) ++ [[]]⟩ := by
  have := (hi.active a h).2
  simp only [Prof.instr, Prof.append, h, this]

theorem PInv.instr {p n} (h : PInv p n) : PInv p.instr (n + 1) := by
  cases ha : p.active with
  | none => rw [instr_none ha]; exact ⟨by simp [h.len], fun a h' => by simp at h'; subst h'; exact ⟨by rw [h.len]; omega, rfl⟩⟩
  | some a =>
    rw [instr_some h ha]
    exact ⟨by simp [h.len], fun b h' => by simp at h'; subst h'; exact ⟨by have := (h.active _ ha).1; omega, rfl⟩⟩

theorem PInv.reset {p n} (h : PInv p n) : PInv p.reset n := ⟨h.len, fun a h' => by simp [Prof.reset] at h'⟩

theorem PSteps.inv {Q n p p' k} (h : PSteps Q p n p') (hi : PInv p k) : PInv p' (k + n) := by
  induction h with
  | refl => exact hi
  | append _ _ ih => exact ih.append _
  | instr _ ih => exact ih.instr
  | reset _ ih => exact ih.reset

/-- All operations satisfy `Q`. -/
def Prof.All (Q : POp → Prop) (p : Prof) : Prop := (∀ op ∈ p.pending, Q op) ∧ ∀ ops ∈ p.ops, ∀ op ∈ ops, Q op

theorem addOp_all {Q : POp → Prop} (hs : ∀ n, Q (.sample n)) {ops op} (h : ∀ op ∈ ops, Q op) (ho : Q op) : ∀ x ∈ addOp ops op, Q x := by
  unfold addOp
  split
  · intro x hx
    rcases List.mem_append.mp hx with hx | hx
    · exact h x (List.dropLast_subset _ hx)
    · simp at hx; subst hx; exact hs _
  · intro x hx
    rcases List.mem_append.mp hx with hx | hx
    · exact h x hx
    · simp at hx; subst hx; exact ho

theorem Prof.All.append {Q : POp → Prop} (hs : ∀ n, Q (.sample n)) {p : Prof} (h : p.All Q) {op} (ho : Q op) : (p.append op).All Q := by
  unfold Prof.append
  split
  · exact ⟨addOp_all hs h.1 ho, h.2⟩
  · next a _ =>
    refine ⟨h.1, fun ops hops => ?_⟩
    obtain ⟨i, hi⟩ := List.mem_iff_getElem?.mp hops
    simp only [List.getElem?_modify] at hi
    cases hp : p.ops[i]? with
    | none => simp [hp] at hi
    | some x =>
      have hx := h.2 x (List.mem_of_getElem? hp)
      simp [hp] at hi
      subst hi
      split
      · exact addOp_all hs hx ho
      · exact hx

theorem PSteps.all {Q n p p'} (hs : ∀ n, Q (.sample n)) (h : PSteps Q p n p') (ha : p.All Q) : p'.All Q := by
  induction h with
  | refl => exact ha
  | append _ ho ih => exact ih.append hs ho
  | reset _ ih => exact ih
  | @instr n q _ ih =>
    have h1 := ih.append hs (hs 1)
    unfold Prof.instr
    simp only
    split
    · exact ⟨h1.1, fun ops ho => by
        rcases List.mem_append.mp ho with ho | ho
        · exact h1.2 ops ho
        · simp at ho; subst ho; simp⟩
    · exact ⟨by simp, fun ops ho => by
        rcases List.mem_append.mp ho with ho | ho
        · exact h1.2 ops ho
        · simp at ho; subst ho; exact h1.1⟩

/-! ### The final operations -/

/-- `P` are the operations at the end of the compilation: those of the current run of instructions may
have been added to. -/
structure Ext (P : List (List POp)) (p : Prof) : Prop where
  pre : ∀ i, i < p.ops.length → p.active ≠ some i → P[i]? = p.ops[i]?
  act : ∀ a, p.active = some a → ∃ ops X, P[a]? = some ops ∧ ∀ s, runOps ops s = runOps X (runOps p.cur s)

theorem Ext.append {P p op n} (hi : PInv p n) (h : Ext P (p.append op)) : Ext P p := by
  cases ha : p.active with
  | none =>
    refine ⟨fun i h1 h2 => ?_, fun a h' => by rw [ha] at h'; cases h'⟩
    have := h.pre i (by simpa [Prof.append, ha] using h1) (by simp [Prof.append, ha])
    simpa [Prof.append, ha] using this
  | some a =>
    refine ⟨fun i h1 h2 => ?_, fun b h' => ?_⟩
    · have := h.pre i (by simpa [Prof.append, ha] using h1) (by simpa [Prof.append, ha] using h2)
      rw [this]
      have hne : a ≠ i := fun he => h2 (by rw [ha, he])
      simp [Prof.append, ha, List.getElem?_modify, hne]
    · obtain rfl : a = b := by rw [ha] at h'; simpa using h'
      obtain ⟨ops, X, h1, h2⟩ := h.act a (by simp [Prof.append, ha])
      refine ⟨ops, op :: X, h1, fun s => ?_⟩
      rw [h2]
      have hlt := (hi.active a ha).1
      rw [← hi.len] at hlt
      have : (p.append op).cur = addOp p.cur op := by
        simp [Prof.append, Prof.cur, ha, hlt]
      rw [this, runOps_addOp]
      rfl

theorem Ext.reset {P p} (hi : PInv p n) (h : Ext P p.reset) : Ext P p where
  pre := fun i h1 _ => h.pre i h1 (by simp [Prof.reset])
  act := fun a ha => by
    have hlt := (hi.active a ha).1
    rw [← hi.len] at hlt
    refine ⟨p.ops[a], [], ?_, fun s => ?_⟩
    · rw [h.pre a hlt (by simp [Prof.reset])]; simp [Prof.reset, hlt]
    · simp [Prof.cur, ha, hlt, runOps]

theorem Ext.instr {P p n} (hi : PInv p n) (h : Ext P p.instr) : Ext P p := by
  cases ha : p.active with
  | none =>
    refine ⟨fun i h1 h2 => ?_, fun a h' => by rw [ha] at h'; cases h'⟩
    have := h.pre i (by rw [instr_none ha]; simp; omega) (by rw [instr_none ha]; simp; omega)
    rw [this, instr_none ha, List.getElem?_append_left h1]
  | some a =>
    have hlt := (hi.active a ha).1
    rw [← hi.len] at hlt
    refine ⟨fun i h1 h2 => ?_, fun b h' => ?_⟩
    · have hne : a ≠ i := fun he => h2 (by rw [ha, he])
      have := h.pre i (by rw [instr_some hi ha]; simp; omega) (by rw [instr_some hi ha]; simpa using hne)
      rw [this, instr_some hi ha, List.getElem?_append_left (by simpa using h1)]
      simp [List.getElem?_modify, hne]
    · obtain rfl : a = b := by rw [ha] at h'; simpa using h'
      obtain ⟨ops, X, h1, h2⟩ := h.act a (by rw [instr_some hi ha])
      refine ⟨ops, .sample 1 :: X, h1, fun s => ?_⟩
      rw [h2]
      have : p.instr.cur = addOp p.cur (.sample 1) := by
        rw [instr_some hi ha]
        simp only [Prof.cur, ha]
        rw [List.getElem?_append_left (by simpa using hlt)]
        simp [hlt]
      rw [this, runOps_addOp]
      rfl

theorem Ext.back {P Q n p p' k} (h : PSteps Q p n p') (hi : PInv p k) (he : Ext P p') : Ext P p := by
  induction h with
  | refl => exact he
  | append h _ ih => exact ih (he.append (h.inv hi))
  | instr h ih => exact ih (he.instr (h.inv hi))
  | reset h ih => exact ih (he.reset (h.inv hi))

/-! ### Paths -/

section
variable (code : List Instr) (P : List (List POp))

/-- Every path from here is fine. -/
inductive Good : Nat → Nat → Option (List Nat × Nat) → Prop
  | mk {pc k s i ops s'} : code[pc]? = some i → P[pc]? = some ops → runOps ops s = some s' →
      (i.succ pc = [] → s'.1.length = 1 ∧ s'.2 = k + 1) → (∀ t ∈ i.succ pc, Good t (k + 1) (some s')) → Good pc k s

/-- Control arrives at a position whose profiling state is `p` with the stack `s`; going by the
operations put in front of the position so far, the stack is `ν` and the number of samples `k`. -/
def Arr (p : Prof) (s : Option (List Nat × Nat)) (ν : List Nat) (k : Nat) : Prop :=
  ∃ τ, runOps p.cur τ = some (ν, k) ∧
    s = match p.active with
      | none => τ
      | some a => runOps ((P[a]?).getD []) τ

end

variable {code : List Instr} {P : List (List POp)}

theorem Good.defined {pc k s} (h : Good code P pc k s) : ∃ x, s = some x := by
  cases h with
  | mk _ _ h _ _ =>
    cases s with
    | none => rw [runOps_none] at h; cases h
    | some x => exact ⟨x, rfl⟩

theorem Arr.append {p n s ν k op ν'} (hi : PInv p n) (h : Arr P p s ν k) (ho : runOp op (ν, k) = some (ν', k)) : Arr P (p.append op) s ν' k := by
  obtain ⟨τ, h1, h2⟩ := h
  refine ⟨τ, ?_, ?_⟩
  · have : (p.append op).cur = addOp p.cur op := by
      cases ha : p.active with
      | none => simp [Prof.append, Prof.cur, ha]
      | some a =>
        have hlt := (hi.active a ha).1
        rw [← hi.len] at hlt
        simp [Prof.append, Prof.cur, ha, hlt]
    rw [this, runOps_addOp, h1]
    exact ho
  · rw [h2]
    unfold Prof.append
    split <;> simp [*]

/-- The stack when no operation is open. -/
theorem Arr.reset {p n s ν k} (hi : PInv p n) (he : Ext P p.reset) (ha : p.active ≠ none) (h : Arr P p s ν k) : s = some (ν, k) := by
  obtain ⟨τ, h1, h2⟩ := h
  cases hx : p.active with
  | none => exact absurd hx ha
  | some a =>
    have hlt := (hi.active a hx).1
    rw [← hi.len] at hlt
    rw [h2]
    simp only [hx]
    rw [he.pre a hlt (by simp [Prof.reset])]
    rw [← h1]
    simp [Prof.reset, Prof.cur, hx]

theorem Arr.fresh {p : Prof} {ν k} (h : p.pending = []) : Arr P p.reset (some (ν, k)) ν k :=
  ⟨_, by simp [Prof.reset, Prof.cur, h, runOps], rfl⟩

theorem instr_pending {p n} (hi : PInv p n) : p.instr.pending = [] ∧ p.instr.active ≠ none := by
  cases ha : p.active with
  | none => rw [instr_none ha]; simp
  | some a => rw [instr_some hi ha]; simp

/-- An instruction: the stack after its operations. -/
theorem Arr.instr {p n s x ν k} (hi : PInv p n) (he : Ext P p.instr) (h : Arr P p s (x :: ν) k) :
    ∃ ops, P[n]? = some ops ∧ Arr P p.instr (runOps ops s) (x :: ν) (k + 1) := by
  obtain ⟨τ, h1, h2⟩ := h
  cases ha : p.active with
  | none =>
    have hc : p.cur = p.pending := by simp [Prof.cur, ha]
    simp only [ha] at h2
    subst h2
    obtain ⟨ops, X, h3, h4⟩ := he.act n (by rw [instr_none ha, hi.len])
    refine ⟨ops, h3, s, ?_, ?_⟩
    · have : p.instr.cur = addOp p.cur (.sample 1) := by
        rw [instr_none ha, hc]; simp [Prof.cur]
      rw [this, runOps_addOp, h1]; rfl
    · rw [instr_none ha, hi.len]; simp [h3]
  | some a =>
    have hlt := (hi.active a ha).1
    rw [← hi.len] at hlt
    have hn : P[n]? = some [] := by
      rw [he.pre n (by rw [instr_some hi ha]; simp [hi.len]) (by rw [instr_some hi ha]; simp; have := (hi.active a ha).1; omega), instr_some hi ha]
      simp [← hi.len]
    refine ⟨[], hn, τ, ?_, ?_⟩
    · have : p.instr.cur = addOp p.cur (.sample 1) := by
        rw [instr_some hi ha]
        simp only [Prof.cur, ha]
        rw [List.getElem?_append_left (by simpa using hlt)]
        simp [hlt]
      rw [this, runOps_addOp, h1]; rfl
    · rw [instr_some hi ha]
      simp only [ha] at h2
      simpa [runOps] using h2

/-- What is required after a piece of code: in exit position nothing follows. -/
def After (code : List Instr) (P : List (List POp)) (exit : Bool) (p : Prof) (pc : Nat) (ν : List Nat) : Prop :=
  if exit then ν.length = 1 ∧ Ext P p.reset
  else Ext P p ∧ ∀ s k, Arr P p s ν k → Good code P pc k s

/-- What holds before it. -/
def Before (code : List Instr) (P : List (List POp)) (p : Prof) (pc : Nat) (ν : List Nat) : Prop :=
  ∀ s k, Arr P p s ν k → Good code P pc k s

theorem After.before {p pc ν} (h : After code P false p pc ν) : Before code P p pc ν := h.2
theorem After.ext {p pc ν} (h : After code P false p pc ν) : Ext P p := h.1
theorem After.mk {p pc ν} (h1 : Ext P p) (h2 : Before code P p pc ν) : After code P false p pc ν := ⟨h1, h2⟩

theorem Before.instr {p pc x ν i} (hi : PInv p pc) (hc : code[pc]? = some i) (hs : i.succ pc = [pc + 1])
    (h : After code P false p.instr (pc + 1) (x :: ν)) : Before code P p pc (x :: ν) := by
  intro s k ha
  obtain ⟨ops, h1, h2⟩ := ha.instr hi h.ext
  have hg := h.before _ _ h2
  obtain ⟨s', hs'⟩ := hg.defined
  refine .mk hc h1 hs' (by rw [hs]; simp) ?_
  rw [hs]
  intro t ht
  simp at ht
  subst ht
  rw [← hs']
  exact hg

/-- The last instruction of a piece of code after which the operations start anew. -/
theorem Arr.last {p pc x ν s k} (hi : PInv p pc) (he : Ext P p.instr.reset) (ha : Arr P p s (x :: ν) k) :
    ∃ ops, P[pc]? = some ops ∧ runOps ops s = some (x :: ν, k + 1) := by
  obtain ⟨ops, h1, h2⟩ := ha.instr hi (he.reset hi.instr)
  exact ⟨ops, h1, h2.reset hi.instr he (instr_pending hi).2⟩

theorem Before.last {p pc x ν i} (hi : PInv p pc) (hc : code[pc]? = some i) (he : Ext P p.instr.reset)
    (hend : i.succ pc = [] → ν = []) (h : ∀ t ∈ i.succ pc, ∀ k, Good code P t k (some (x :: ν, k))) : Before code P p pc (x :: ν) := by
  intro s k ha
  obtain ⟨ops, h1, h2⟩ := ha.last hi he
  refine .mk hc h1 h2 (fun h0 => by simp [hend h0]) fun t ht => h t ht _

theorem Before.append {p n pc ν ν' op} (hi : PInv p n) (h : Before code P (p.append op) pc ν') (ho : ∀ k, runOp op (ν, k) = some (ν', k)) :
    Before code P p pc ν := fun s k ha => h s k (ha.append hi (ho k))

/-! ### The operations put by the compiler -/

/-- The operation refers to a block of the module. -/
def IdOk (base N : Nat) (op : POp) : Prop := ∀ b, op.block? = some b → base + b < N

theorem idOk_enter {base id N : Nat} {r : Bool} (h1 : base ≤ id) (h2 : id < N) : IdOk base N (if r then .replace (id - base) else .enter (id - base)) := by
  intro b hb
  cases r <;> simp [POp.block?] at hb <;> omega

/-- The functions in a piece of code refer to blocks of the module. -/
def Nest (base N : Nat) (code : List Instr) : Prop :=
  ∀ c b scope d, Instr.func c b scope d ∈ code → ∀ c' base', WithinAt c (base + b) c' base' → c'.BlocksIn base' N

theorem Nest.nil {base N} : Nest base N [] := by intro c b s d h; simp at h
theorem Nest.cons {base N x code} (h : ∀ c b s d, x ≠ .func c b s d) (h' : Nest base N code) : Nest base N (x :: code) := by
  intro c b s d hm
  rcases List.mem_cons.mp hm with hm | hm
  · exact absurd hm.symm (h c b s d)
  · exact h' c b s d hm
theorem Nest.append {base N a b} (h : Nest base N a) (h' : Nest base N b) : Nest base N (a ++ b) := by
  intro c b s d hm
  rcases List.mem_append.mp hm with hm | hm
  · exact h c _ s d hm
  · exact h' c _ s d hm
theorem Nest.fin {base N exit} {sc : Scope} : Nest base N (finCode exit sc) := by
  simp only [finCode, compileExit]
  cases exit
  · exact .nil
  · exact .cons (by simp) .nil
theorem Nest.of {base N code} (h : ∀ c b s d, Instr.func c b s d ∉ code) : Nest base N code := fun c b s d hm => absurd hm (h c b s d)

theorem instr_pending' (p : Prof) : p.instr.pending = [] := by
  unfold Prof.instr
  simp only
  split
  · assumption
  · rfl

theorem PSteps.fin {Q p n exit} {sc : Scope} (h : PSteps Q p n sc.prof) : PSteps Q p (n + (1 + (finCode exit sc).length)) (finSc exit sc).prof := by
  simp only [finSc, finCode, compileExit]
  cases exit
  · exact h.instr
  · exact h.instr.instr

theorem fin_pending {sc : Scope} : (finSc true sc).prof.pending = [] := by
  simp only [finSc, compileExit, if_true]
  exact instr_pending' _

theorem letVars_steps {Q p} : (n : Nat) → {sc : Scope} → {m : Nat} → PSteps Q p m sc.prof → PSteps Q p (m + n) (letVars true n sc).2.2.prof
  | 0, sc, m, h => by simpa [letVars] using h
  | n + 1, sc, m, h => by
    simp only [letVars, if_true]
    have h1 : PSteps Q p (m + 1) (pushVar (some (.loc (newLocal sc).1)) (newLocal sc).2.emit).prof := h.instr
    have := letVars_steps n h1
    rw [show m + (n + 1) = m + 1 + n by omega]
    exact this

theorem setVar_prof {i v} {sc sc' : Scope} (h : setVar i v sc = some sc') : sc'.prof = sc.prof := by
  unfold setVar at h
  split at h
  · cases h
  · simp only [Option.map_eq_some_iff] at h
    obtain ⟨c, h1, rfl⟩ := h
    exact (releaseOpt_same h1).2.2

theorem letDefs_steps {Q p} : {i : Nat} → {ls : List Nat} → {ds : List Var} → {sc : Scope} → {acode : List Instr} → {sc1 : Scope} → {m : Nat} →
    letDefs i ls ds sc = some (acode, sc1) → PSteps Q p m sc.prof → PSteps Q p (m + acode.length) sc1.prof
  | i, l :: ls, d :: ds, sc, acode, sc1, m, h, hs => by
    simp only [letDefs, Option.bind_eq_some_iff, Option.map_eq_some_iff] at h
    obtain ⟨c, h1, ⟨r1, r2⟩, h2, h3⟩ := h
    cases h3
    have hp : c.prof = sc.prof.instr := setVar_prof h1
    have := letDefs_steps (m := m + 1) h2 (by rw [hp]; exact hs.instr)
    simp only [List.length_cons]
    rw [show m + (r1.length + 1) = m + 1 + r1.length by omega]
    exact this
  | i, [], ds, sc, acode, sc1, m, h, hs => by simp [letDefs] at h; obtain ⟨rfl, rfl⟩ := h; simpa using hs
  | i, l :: ls, [], sc, acode, sc1, m, h, hs => by simp [letDefs] at h; obtain ⟨rfl, rfl⟩ := h; simpa using hs

theorem afterBranch_steps {Q p exit r bl n} {sc : Scope} {z1 z2} (hq : Q .exit) (h : afterBranch exit r bl sc = some (z1, z2)) (hs : PSteps Q p n sc.prof) :
    PSteps Q p (n + if exit then 0 else 2) z2.prof ∧ z1.count = bl.count ∧ (sc.prof.pending = [] ∨ exit = false → z2.prof.pending = []) := by
  unfold afterBranch at h
  cases exit with
  | true =>
    simp only [if_true, Option.map_eq_some_iff, Prod.mk.injEq] at h
    obtain ⟨c, h1, rfl, rfl⟩ := h
    have hp : c.prof = sc.prof := (releaseOpt_same h1).2.2
    rw [hp]
    exact ⟨hs, rfl, by simp⟩
  | false =>
    simp only [Bool.false_eq_true, if_false] at h
    cases r with
    | none => cases h
    | some v =>
      simp only [Option.map_eq_some_iff, Prod.mk.injEq] at h
      obtain ⟨c, h1, rfl, rfl⟩ := h
      have hp : c.prof = sc.prof.instr.append .exit := (release_same h1).2.2
      refine ⟨?_, rfl, fun _ => instr_pending' _⟩
      show PSteps Q p (n + 2) c.prof.instr
      rw [hp]
      exact (hs.instr.append hq).instr

theorem Comp.pending (n : Nat) : {t : Tc} → t.size ≤ n → {bl : Blocks} → {sc : Scope} → {o : Out (Option Var)} → Comp true t bl sc o → o.sc.prof.pending = [] := by
  induction n with
  | zero => intro t hs; have := t.size_pos; omega
  | succ n ih =>
    intro t hs bl sc o h
    cases h with
    | typeVal _ => exact fin_pending
    | literal _ => exact fin_pending
    | var _ _ => exact instr_pending' _
    | struct _ er _ => rw [(releaseAll_same er).2.2]; exact fin_pending
    | list _ er _ => rw [(releaseAll_same er).2.2]; exact fin_pending
    | copy _ _ _ _ _ er1 er2 => rw [(release_same er2).2.2, (releaseAll_same er1).2.2]; exact fin_pending
    | union _ _ _ er => rw [(release_same er).2.2]; exact fin_pending
    | access _ _ _ er => rw [(release_same er).2.2]; exact fin_pending
    | func _ _ _ _ => exact fin_pending
    | tail _ _ _ _ _ er1 er2 => rw [(releaseAll_same er2).2.2, (release_same er1).2.2]; exact instr_pending' _
    | letE _ _ _ _ co _ ep => rw [(popVars_same ep).2.2]; exact ih (by simp only [Tc.size] at hs; omega) co
    | letRec _ _ _ _ _ _ co _ ep => rw [(popVars_same ep).2.2]; exact ih (by simp only [Tc.size] at hs; omega) co
    | @selectExit _ _ _ _ _ _ _ _ _ dd z1 z2 _ _ _ _ _ _ _ cd _ ea er =>
      rw [(release_same er).2.2]
      exact (afterBranch_steps (Q := fun _ => True) trivial ea .refl).2.2 (.inl (ih (by simp only [Tc.size] at hs; omega) cd))

mutual
theorem Comp.steps {exit t bl sc o} (h : Comp exit t bl sc o) {N} (hb : sc.block < bl.count) (hN : o.bl.count ≤ N) :
    PSteps (IdOk sc.block N) sc.prof o.code.length o.sc.prof ∧ Nest sc.block N o.code :=
  match h with
  | .typeVal _ => by
    have := PSteps.fin (exit := exit) (sc := sc) (.refl (Q := IdOk sc.block N))
    rw [Nat.zero_add, Nat.add_comm] at this
    exact ⟨this, .cons (by simp) .fin⟩
  | .literal _ => by
    have := PSteps.fin (exit := exit) (sc := sc) (.refl (Q := IdOk sc.block N))
    rw [Nat.zero_add, Nat.add_comm] at this
    exact ⟨this, .cons (by simp) .fin⟩
  | .var _ _ => by
    simp only [compileExit]
    cases exit with
    | false => exact ⟨.refl, .nil⟩
    | true => exact ⟨PSteps.instr .refl, .cons (by simp) .nil⟩
  | .struct (a := a) ca er fa => by
    obtain ⟨h1, h2⟩ := ca.steps hb hN
    have := h1.fin (exit := exit)
    refine ⟨?_, h2.append (.cons (by simp) .fin)⟩
    simp only
    rw [(releaseAll_same er).2.2, List.length_append, List.length_cons, Nat.add_comm (finCode exit a.sc).length 1]
    exact this
  | .list (a := a) ca er fa => by
    obtain ⟨h1, h2⟩ := ca.steps hb hN
    have := h1.fin (exit := exit)
    refine ⟨?_, h2.append (.cons (by simp) .fin)⟩
    simp only
    rw [(releaseAll_same er).2.2, List.length_append, List.length_cons, Nat.add_comm (finCode exit a.sc).length 1]
    exact this
  | .copy (o := o) (v := v) (a := a) co ro fo ca fa er1 er2 => by
    obtain ⟨h1, h2⟩ := co.steps hb (Nat.le_trans fa.count hN)
    obtain ⟨h3, h4⟩ := ca.steps (N := N) fo.block' hN
    have e := fo.adds.same.block
    rw [e] at h3 h4
    have := (h1.trans h3).fin (exit := exit)
    refine ⟨?_, (h2.append h4).append (.cons (by simp) .fin)⟩
    simp only
    rw [(release_same er2).2.2, (releaseAll_same er1).2.2, List.length_append, List.length_append, List.length_cons, Nat.add_comm (finCode exit a.sc).length 1]
    exact this
  | .union (o := o) co ro fo er => by
    obtain ⟨h1, h2⟩ := co.steps hb hN
    have := h1.fin (exit := exit)
    refine ⟨?_, h2.append (.cons (by simp) .fin)⟩
    simp only
    rw [(release_same er).2.2, List.length_append, List.length_cons, Nat.add_comm (finCode exit o.sc).length 1]
    exact this
  | .access (u := u) (o := o) co ro fo er => by
    obtain ⟨h1, h2⟩ := co.steps hb hN
    have := h1.fin (exit := exit)
    refine ⟨?_, h2.append (.cons (by cases u <;> simp) .fin)⟩
    simp only
    rw [(release_same er).2.2, List.length_append, List.length_cons, Nat.add_comm (finCode exit o.sc).length 1]
    exact this
  | .func (f := f) _ hg hsc cf => by
    have hf := cf.ids (N := N) (by simp [pushBlock]) hN
    have := PSteps.fin (exit := exit) (sc := sc) (.refl (Q := IdOk sc.block N))
    rw [Nat.zero_add, Nat.add_comm] at this
    refine ⟨this, ?_⟩
    intro c b s d hm
    rcases List.mem_cons.mp hm with hm | hm
    · cases hm
      rw [show sc.block + (bl.count - sc.block) = bl.count by omega]
      exact hf
    · exact Nest.fin c b s d hm
  | .tail (h := h) (as := as) ch rh fh cas fas er1 er2 => by
    obtain ⟨h1, h2⟩ := ch.steps hb (Nat.le_trans fas.count hN)
    obtain ⟨h3, h4⟩ := cas.steps (N := N) fh.block' hN
    have e := fh.adds.same.block
    rw [e] at h3 h4
    refine ⟨?_, (h2.append h4).append (.cons (by simp) .nil)⟩
    simp only
    rw [(releaseAll_same er2).2.2, (release_same er1).2.2, List.length_append, List.length_append]
    exact (h1.trans h3).instr.reset
  | .call (h := h) (as := as) ch rh fh cas fas er1 er2 => by
    obtain ⟨h1, h2⟩ := ch.steps hb (Nat.le_trans fas.count hN)
    obtain ⟨h3, h4⟩ := cas.steps (N := N) fh.block' hN
    have e := fh.adds.same.block
    rw [e] at h3 h4
    refine ⟨?_, (h2.append h4).append (.cons (by simp) .nil)⟩
    simp only
    rw [(releaseAll_same er2).2.2, (release_same er1).2.2, List.length_append, List.length_append]
    exact (h1.trans h3).instr.reset
  | .letE (ds := ds) (d := d) (sc1 := sc1) (o := o) cd fd es e1 co fo ep => by
    obtain ⟨h1, h2⟩ := cd.steps (N := N) hb (Nat.le_trans fo.count hN)
    obtain ⟨h3, h4⟩ := co.steps (N := N) fo.block hN
    have hp : sc1.prof = d.sc.prof := by rw [e1]; rfl
    have he : sc1.block = sc.block := by rw [e1]; exact fd.adds.same.block
    rw [hp, he] at h3
    rw [he] at h4
    refine ⟨?_, Nest.append h2 h4⟩
    simp only
    rw [(popVars_same ep).2.2, List.length_append]
    exact PSteps.trans h1 h3
  | .letRec (ds := ds) (ls := ls) (lcode := lcode) (sc0 := sc0) (d := d) (acode := acode) (sc1 := sc1) (o := o) el al cd fd ea aa co fo ep => by
    obtain ⟨h1, h2⟩ := cd.steps (N := N) fd.block (Nat.le_trans fo.count hN)
    obtain ⟨h3, h4⟩ := co.steps (N := N) fo.block hN
    have he0 : sc0.block = sc.block := al.same.block
    have he1 : sc1.block = sc.block := aa.same.block
    obtain ⟨rfl, hll⟩ := letVars_code _ el
    have h0 := letVars_steps (Q := IdOk sc.block N) ds.length (sc := sc) .refl
    rw [el] at h0
    rw [he0] at h1 h2
    rw [he1] at h3 h4
    have h5 := letDefs_steps ea (h0.trans h1)
    obtain rfl := letDefs_code ea
    refine ⟨?_, Nest.append (Nest.append (Nest.append (.of ?_) h2) (.of ?_)) h4⟩
    · simp only
      rw [(popVars_same ep).2.2, List.length_append, List.length_append, List.length_append, List.length_map, hll]
      have := h5.trans h3
      rw [Nat.zero_add] at this
      exact this
    · intro c b s d hm; simp at hm
    · intro c b s d hm
      rw [List.mem_iff_getElem] at hm
      obtain ⟨i, hi, hm⟩ := hm
      simp at hm
  | .selectExit (o := o) (cv := cv) (b := b) (dd := dd) (z1 := z1) (z2 := z2) co ro fo ht cb fb cd fd ea er => by
    have hz : z1.count = dd.bl.count := (afterBranch_steps (Q := fun _ => True) trivial ea .refl).2.1
    have hNd : dd.bl.count ≤ N := by rw [← hz]; exact hN
    have hNb : b.bl.count < N := by
      have := fd.count; rw [enterBlock_count] at this; omega
    have hNo : o.bl.count ≤ N := by have := fb.count; omega
    obtain ⟨h1, h2⟩ := co.steps hb hNo
    obtain ⟨h3, h4⟩ := cb.steps (N := N) fb.block (Nat.le_of_lt hNb)
    obtain ⟨h5, h6⟩ := cd.steps (N := N) fd.block hNd
    have e1 : o.sc.emit.block = sc.block := fo.adds.same.block
    have e2 : (enterBlock true b.bl b.sc.reset).2.block = sc.block := fb.adds.same.block.trans e1
    rw [e1] at h3 h4
    rw [e2] at h5 h6
    have hbb : sc.block < b.bl.count := by rw [← e1]; exact Nat.lt_of_lt_of_le fb.block fb.count
    have hen : PSteps (IdOk sc.block N) b.sc.prof 0 (enterBlock true b.bl b.sc.reset).2.prof :=
      (PSteps.reset .refl).append (by
        show IdOk _ _ (if true then .replace (b.bl.count - b.sc.reset.block) else _)
        have : b.sc.reset.block = sc.block := e2
        rw [this]
        exact idOk_enter (r := true) (Nat.le_of_lt hbb) hNb)
    have h7 := (afterBranch_steps (Q := IdOk sc.block N) (by simp [IdOk, POp.block?]) ea (((h1.instr.trans h3).trans hen).trans h5)).1
    refine ⟨?_, h2.append (.cons (by simp) ((h4 _ _).append h6))⟩
    simp only
    rw [(release_same er).2.2, List.length_append, List.length_cons, List.length_append, partsLen_code]
    have := h7.reset
    simp only [if_true, Nat.add_zero] at this
    rw [show o.code.length + (partsLen true b.res + dd.code.length + 1) = o.code.length + 1 + partsLen true b.res + dd.code.length by omega]
    exact this
  | .select (o := o) (cv := cv) (b := b) (dd := dd) (dv := dv) (z1 := z1) (z2 := z2) co ro fo ht cb fb cd rd fd ea er hz2 => by
    have hz : z1.count = dd.bl.count := (afterBranch_steps (Q := fun _ => True) trivial ea .refl).2.1
    have hNd : dd.bl.count ≤ N := by rw [← hz]; exact hN
    have hNb : b.bl.count < N := by
      have := fd.count; rw [enterBlock_count] at this; omega
    have hNo : o.bl.count ≤ N := by have := fb.count; omega
    obtain ⟨h1, h2⟩ := co.steps hb hNo
    obtain ⟨h3, h4⟩ := cb.steps (N := N) fb.block (Nat.le_of_lt hNb)
    obtain ⟨h5, h6⟩ := cd.steps (N := N) fd.block hNd
    have e1 : (newLocal o.sc).2.emit.block = sc.block := fo.adds.same.block
    have e2 : (enterBlock false b.bl b.sc.reset).2.block = sc.block := fb.adds.same.block.trans e1
    rw [e1] at h3 h4
    rw [e2] at h5 h6
    have hbb : sc.block < b.bl.count := by rw [← e1]; exact Nat.lt_of_lt_of_le fb.block fb.count
    have hen : PSteps (IdOk sc.block N) b.sc.prof 0 (enterBlock false b.bl b.sc.reset).2.prof :=
      (PSteps.reset .refl).append (by
        show IdOk _ _ (if false then _ else .enter (b.bl.count - b.sc.reset.block))
        have : b.sc.reset.block = sc.block := e2
        rw [this]
        exact idOk_enter (r := false) (Nat.le_of_lt hbb) hNb)
    have h7 := (afterBranch_steps (Q := IdOk sc.block N) (by simp [IdOk, POp.block?]) ea (((h1.instr.trans h3).trans hen).trans h5)).1
    refine ⟨?_, h2.append (.cons (by simp) ((h4 _ _).append (h6.append (.cons (by simp) (.cons (by simp) .nil)))))⟩
    simp only
    rw [(release_same er).2.2, List.length_append, List.length_cons, List.length_append, List.length_append, partsLen_code]
    have := h7.reset
    simp only [Bool.false_eq_true, if_false] at this
    rw [show o.code.length + (partsLen false b.res + (dd.code.length + [Instr.copy dv (slot o.sc), .nop].length) + 1) =
      o.code.length + 1 + partsLen false b.res + 0 + dd.code.length + 2 by simp; omega]
    exact this
termination_by structural h
theorem Comps.steps {ts bl sc a} (h : Comps ts bl sc a) {N} (hb : sc.block < bl.count) (hN : a.bl.count ≤ N) :
    PSteps (IdOk sc.block N) sc.prof a.code.length a.sc.prof ∧ Nest sc.block N a.code :=
  match h with
  | .nil => ⟨.refl, .nil⟩
  | .cons (o := o) (a := a) co ro fo ca fa => by
    obtain ⟨h1, h2⟩ := co.steps hb (Nat.le_trans fa.count hN)
    obtain ⟨h3, h4⟩ := ca.steps (N := N) fa.block hN
    rw [fo.adds.same.block] at h3 h4
    exact ⟨by simp only [List.length_append]; exact h1.trans h3, h2.append h4⟩
termination_by structural h
theorem CompDefs.steps {ts bl sc a} (h : CompDefs ts bl sc a) {N} (hb : sc.block < bl.count) (hN : a.bl.count ≤ N) :
    PSteps (IdOk sc.block N) sc.prof a.code.length a.sc.prof ∧ Nest sc.block N a.code :=
  match h with
  | .nil => ⟨.refl, .nil⟩
  | .cons (o := o) (a := a) co ro fo ca fa => by
    have hNo : o.bl.count ≤ N := Nat.le_trans fa.count hN
    have hbl : bl.count < N := by have := fo.count; rw [enterBlock_count] at this; omega
    obtain ⟨h1, h2⟩ := co.steps (N := N) fo.block hNo
    obtain ⟨h3, h4⟩ := ca.steps (N := N) fa.block hN
    have e1 : (enterBlock false bl sc).2.block = sc.block := rfl
    have e2 : (exitBlock false o.bl o.sc).2.block = sc.block := fo.adds.same.block
    rw [e1] at h1 h2
    rw [e2] at h3 h4
    have h0 : PSteps (IdOk sc.block N) sc.prof 0 (enterBlock false bl sc).2.prof := (PSteps.refl).append (idOk_enter (r := false) (Nat.le_of_lt hb) hbl)
    have h5 := ((h0.trans h1).append (op := .exit) (by simp [IdOk, POp.block?])).trans h3
    rw [Nat.zero_add] at h5
    exact ⟨by simp only [List.length_append]; exact h5, h2.append h4⟩
termination_by structural h
theorem CompBrs.steps {exit bs bl sc b} (h : CompBrs exit bs bl sc b) {N} (hb : sc.block < bl.count) (hN : b.bl.count ≤ N) :
    PSteps (IdOk sc.block N) sc.prof (partsLen exit b.res) b.sc.prof ∧ ∀ dest stop, Nest sc.block N (branchCode exit dest stop (b.res.map (·.2))) :=
  match h with
  | .nil => ⟨.refl, fun _ _ => .nil⟩
  | .cons (o := o) (z1 := z1) (z2 := z2) (a := a) co hr fo ea fz ca fa => by
    have hz : z1.count = o.bl.count := (afterBranch_steps (Q := fun _ => True) trivial ea .refl).2.1
    have hNo : o.bl.count ≤ N := by rw [← hz]; exact Nat.le_trans fa.count hN
    have hbl : bl.count < N := by have := fo.count; rw [enterBlock_count] at this; omega
    obtain ⟨h1, h2⟩ := co.steps (N := N) fo.block hNo
    obtain ⟨h3, h4⟩ := ca.steps (N := N) fa.block hN
    have e1 : (enterBlock exit bl sc.reset).2.block = sc.block := rfl
    have e2 : z2.block = sc.block := fz.adds.same.block
    rw [e1] at h1 h2
    rw [e2] at h3 h4
    have h0 : PSteps (IdOk sc.block N) sc.prof 0 (enterBlock exit bl sc.reset).2.prof := (PSteps.reset .refl).append (idOk_enter (r := exit) (Nat.le_of_lt hb) hbl)
    have h5 := (afterBranch_steps (Q := IdOk sc.block N) (by simp [IdOk, POp.block?]) ea (h0.trans h1)).1.trans h3
    rw [Nat.zero_add] at h5
    refine ⟨h5, fun dest stop => ?_⟩
    simp only [List.map_cons, branchCode]
    refine Nest.append ?_ (h4 dest stop)
    split
    · exact h2
    · exact h2.append (.cons (by simp) (.cons (by simp) .nil))
termination_by structural h
theorem CompFlds.steps {src i fs bl sc a} (h : CompFlds src i fs bl sc a) {N} (hb : sc.block < bl.count) (hN : a.bl.count ≤ N) :
    PSteps (IdOk sc.block N) sc.prof a.code.length a.sc.prof ∧ Nest sc.block N a.code :=
  match h with
  | .nil => ⟨.refl, .nil⟩
  | .keep (a := a) ca fa => by
    obtain ⟨h3, h4⟩ := ca.steps (N := N) fa.block hN
    have h1 : PSteps (IdOk sc.block N) sc.prof 1 (newLocal sc).2.emit.prof := PSteps.instr .refl
    refine ⟨?_, .cons (by simp) h4⟩
    simp only [List.length_cons]
    rw [Nat.add_comm]
    exact h1.trans h3
  | .set (o := o) (a := a) co ro fo ca fa => by
    obtain ⟨h1, h2⟩ := co.steps hb (Nat.le_trans fa.count hN)
    obtain ⟨h3, h4⟩ := ca.steps (N := N) fa.block hN
    rw [fo.adds.same.block] at h3 h4
    exact ⟨by simp only [List.length_append]; exact h1.trans h3, h2.append h4⟩
termination_by structural h
theorem CompFunc.ids {ns na body block bl f} (h : CompFunc ns na body block bl f) {N} (hb : block < bl.count) (hN : f.2.count ≤ N) :
    ∀ c' base', WithinAt f.1 block c' base' → c'.BlocksIn base' N :=
  match h with
  | .mk (o := o) (sc' := sc') co fo er hl hp => by
    intro c' base' hw
    obtain ⟨h1, h2⟩ := co.steps (N := N) hb hN
    cases hw with
    | here =>
      refine ⟨Nat.lt_of_lt_of_le hb (Nat.le_trans fo.count hN), ?_⟩
      have := (h1.all (by simp [IdOk, POp.block?]) (by simp [Prof.All, initScope])).2
      simpa [Code.profile, hp, IdOk, initScope] using this
    | inner hm hw => exact h2 _ _ _ _ hm _ _ hw
termination_by structural h
end

end Verif.Compile
