import Verif.Backend.A64Lemmas
/-
Where the labels of an emitted function are.
-/
namespace Verif.Backend
open Verif.Compile
open Verif.Text (Str ch)

/-- The instruction a label belongs to. -/
def Lbl.pc? : Lbl → Option Nat
  | .exit => none
  | .at pc | .pp pc | .sub pc _ | .exe pc | .letters pc | .p pc | .u pc | .bt pc | .abort pc | .v pc => some pc

/-- Labels of the main path. -/
def Lbl.inl : Lbl → Bool
  | .at _ | .pp _ | .sub _ _ | .exe _ | .letters _ | .exit => true
  | _ => false

def labs (xs : List Line) : List Lbl := xs.filterMap Line.defines

/-- Lines that define no label. -/
theorem plain_defines : ((∀ a b c, (Line.ldr a b c).defines = none) ∧ (∀ a b c, (Line.str a b c).defines = none) ∧ (∀ a b, (Line.strz a b).defines = none) ∧
    (∀ a b, (Line.strSp a b).defines = none) ∧ (∀ a b c, (Line.stp a b c).defines = none) ∧ (∀ a b c, (Line.stpPre a b c).defines = none) ∧
    (∀ a b c, (Line.ldp a b c).defines = none) ∧ (∀ a b c, (Line.ldpPost a b c).defines = none) ∧ (∀ a b, (Line.mov a b).defines = none) ∧
    (∀ a, (Line.movz a).defines = none) ∧ (∀ a b, (Line.movi a b).defines = none) ∧ (∀ a, (Line.movSp a).defines = none)) ∧
    ((∀ a b, (Line.addSp a b).defines = none) ∧ (∀ a, (Line.subSP a).defines = none) ∧ (∀ a, (Line.addSP a).defines = none) ∧
    (∀ a b c, (Line.addi a b c).defines = none) ∧ (∀ a b, (Line.adr a b).defines = none) ∧ (∀ a b, (Line.cmp a b).defines = none) ∧
    (∀ a, (Line.b a).defines = none) ∧ (∀ a, (Line.beq a).defines = none) ∧ (∀ a, (Line.bcc a).defines = none) ∧ (∀ a b, (Line.cbz a b).defines = none) ∧
    (∀ a b, (Line.cbnz a b).defines = none) ∧ (∀ a, (Line.bl a).defines = none) ∧ Line.ret.defines = none) ∧
    (∀ l, (Line.label l).defines = some l) ∧ (∀ a b c d, (Line.exe a b c d).defines = some (.exe a)) ∧ (∀ a b, (Line.letters a b).defines = some (.letters a)) := by
  refine ⟨⟨?_, ?_, ?_, ?_, ?_, ?_, ?_, ?_, ?_, ?_, ?_, ?_⟩, ⟨?_, ?_, ?_, ?_, ?_, ?_, ?_, ?_, ?_, ?_, ?_, ?_, ?_⟩, ?_, ?_, ?_⟩ <;> intros <;> rfl

theorem labs_nil : labs [] = [] := rfl

theorem labs_cons {x : Line} {xs} : labs (x :: xs) = (x.defines).toList ++ labs xs := by
  simp only [labs, List.filterMap_cons]
  cases x.defines <;> simp

theorem labs_append (a b : List Line) : labs (a ++ b) = labs a ++ labs b := by simp [labs]

theorem seek_append {l : Lbl} {b : List Line} : {a : List Line} → l ∉ labs a → seek l (a ++ b) = seek l b
  | [], _ => rfl
  | x :: a, h => by
    have h1 : x.defines ≠ some l := fun e => h (by simp [labs, e])
    have h2 : l ∉ labs a := fun hm => h (by
      simp only [labs, List.filterMap_cons] at hm ⊢
      split
      · exact hm
      · exact List.mem_cons_of_mem _ hm)
    simp only [List.cons_append, seek, if_neg h1]
    exact seek_append h2

theorem seek_here {l : Lbl} {x : Line} {a : List Line} (h : x.defines = some l) : seek l (x :: a) = some (x :: a) := by
  simp only [seek, h, if_true]

theorem getVar_defines {r v} : (getVar r v).defines = none := by cases v <;> rfl

theorem labs_store {r : Nat} : (k : Nat) → (vs : List Var) → labs (storeVars r k vs) = []
  | _, [] => rfl
  | k, v :: vs => by simp [labs_cons, storeVars, getVar_defines, plain_defines, labs_store (r := r) (k + 1) vs]

theorem labs_search {pc : Nat} (xs : List Select.Asm) : labs (xs.map (searchLine pc)) = (Select.labels xs).map (.sub pc) := by
  induction xs with
  | nil => rfl
  | cons x xs ih =>
    cases x <;> simp [labs_cons, searchLine, plain_defines, Select.labels, ih]

variable {sg : Bool} {names : List Str} {block : Nat} {ops : Nat → List POp} {locs : Nat → SrcLoc}

theorem labs_doAbort {msg loc} : labs (doAbort msg loc) = [] := by simp [labs_cons, labs_nil, doAbort, plain_defines]

theorem labs_inline {pc : Nat} {i : Instr} {ls} (h : emitInline sg names block pc i = some ls) :
    ∀ l ∈ labs ls, l = .exe pc ∨ l = .letters pc ∨ ∃ k, l = .sub pc k := by
  intro l hl
  cases i with
  | func code off scope dest =>
    simp only [emitInline, Option.bind_eq_some_iff, Option.map_eq_some_iff] at h
    obtain ⟨run, _, vs, _, rfl⟩ := h
    simp [labs_cons, labs_append, labs_store, plain_defines, setVar, labs_nil] at hl
    exact .inl hl
  | literal lts dest =>
    cases h
    simp [labs_cons, plain_defines, setVar, labs_nil] at hl
    exact .inr (.inl hl)
  | select c nt targets default =>
    cases h
    simp only [labs_append, labs_search] at hl
    simp [labs_cons, labs_nil, plain_defines, getVar_defines] at hl
    obtain ⟨k, _, hk⟩ := hl
    exact .inr (.inr ⟨k, hk.symm⟩)
  | _ =>
    cases h
    simp [labs_cons, labs_append, labs_store, plain_defines, setVar, labs_nil, getVar_defines] at hl

theorem labs_check {pc : Nat} {os : List POp} : ∀ l ∈ labs (emitCheck pc os), l = .pp pc := by
  intro l hl
  unfold emitCheck at hl
  split at hl
  · simp [labs] at hl
  · simp [labs_cons, labs_nil, plain_defines] at hl
    exact hl

theorem emitBody_drop : (is : List Instr) → (pc : Nat) → {body : List Line} → emitBody sg names block pc ops is = some body → ∀ n, n ≤ is.length →
    ∃ pre b, emitBody sg names block (pc + n) ops (is.drop n) = some b ∧ body = pre ++ b ∧
      ∀ l ∈ labs pre, l.inl = true ∧ ∃ j, l.pc? = some j ∧ j < pc + n
  | is, pc, body, h, 0, _ => ⟨[], body, h, rfl, by simp [labs]⟩
  | [], pc, body, h, n + 1, hn => by simp at hn
  | i :: is, pc, body, h, n + 1, hn => by
    simp only [emitBody, Option.bind_eq_some_iff, Option.map_eq_some_iff] at h
    obtain ⟨ls, h1, rest, h2, rfl⟩ := h
    obtain ⟨pre, b, a1, a2, a3⟩ := emitBody_drop is (pc + 1) h2 n (by simpa using hn)
    refine ⟨.label (.at pc) :: emitCheck pc (ops pc) ++ ls ++ pre, b, ?_, by rw [a2]; simp, ?_⟩
    · rw [List.drop_succ_cons, ← a1]
      congr 1
      omega
    · intro l hl
      simp only [labs_append, labs_cons, List.mem_append, Line.defines, Option.toList, List.mem_singleton] at hl
      rcases hl with ((hl | hl) | hl) | hl
      · subst hl; exact ⟨rfl, pc, rfl, by omega⟩
      · rw [labs_check l hl]; exact ⟨rfl, pc, rfl, by omega⟩
      · rcases labs_inline h1 l hl with rfl | rfl | ⟨k, rfl⟩ <;> exact ⟨rfl, pc, rfl, by omega⟩
      · obtain ⟨b1, j, b2, b3⟩ := a3 l hl
        exact ⟨b1, j, b2, by omega⟩

theorem labs_ops (os : List POp) : labs (os.flatMap emitOp) = [] := by
  induction os with
  | nil => rfl
  | cons o os ih => rw [List.flatMap_cons, labs_append, ih]; cases o <;> rfl

theorem labs_outline {pc : Nat} {os : List POp} {loc i} : ∀ l ∈ labs (emitOutline pc os loc i), l.inl = false ∧ l.pc? = some pc := by
  intro l hl
  unfold emitOutline at hl
  rw [labs_append] at hl
  rcases List.mem_append.mp hl with hl | hl
  · split at hl
    · simp [labs] at hl
    · simp [labs_append, labs_cons, labs_ops, plain_defines, labs_nil] at hl
      subst hl
      exact ⟨rfl, rfl⟩
  · cases i <;> simp [emitErrors, labs_cons, labs_append, labs_doAbort, plain_defines, labs_nil] at hl
    case unionAccess => rcases hl with rfl | rfl <;> exact ⟨rfl, rfl⟩
    case tailCall => rcases hl with rfl | rfl <;> exact ⟨rfl, rfl⟩
    all_goals (subst hl; exact ⟨rfl, rfl⟩)

theorem emitOutlines_at : (is : List Instr) → (pc n : Nat) → (i : Instr) → is[n]? = some i →
    ∃ pre tl, emitOutlines pc ops locs is = pre ++ emitOutline (pc + n) (ops (pc + n)) (locs (pc + n)) i ++ tl ∧ ∀ l ∈ labs pre, ∃ j, l.pc? = some j ∧ j < pc + n
  | [], _, _, _, h => by simp at h
  | i' :: is, pc, 0, i, h => by
    cases h
    exact ⟨[], emitOutlines (pc + 1) ops locs is, rfl, by simp [labs]⟩
  | i' :: is, pc, n + 1, i, h => by
    obtain ⟨pre, tl, h1, h2⟩ := emitOutlines_at is (pc + 1) n i (by simpa using h)
    refine ⟨emitOutline pc (ops pc) (locs pc) i' ++ pre, tl, ?_, ?_⟩
    · rw [emitOutlines, h1, show pc + 1 + n = pc + (n + 1) by omega]
      simp
    · intro l hl
      rw [labs_append] at hl
      rcases List.mem_append.mp hl with hl | hl
      · exact ⟨pc, (labs_outline l hl).2, by omega⟩
      · obtain ⟨j, h3, h4⟩ := h2 l hl
        exact ⟨j, h3, by omega⟩

/-- The function as it is emitted. -/
structure Laid (sg : Bool) (names : List Str) (block nl : Nat) (ops : Nat → List POp) (locs : Nat → SrcLoc) (code : List Instr) (env : Env) (body : List Line) : Prop where
  emitted : emitBody sg names block 0 ops code = some body
  whole : env.whole = prologue nl ++ body ++ epilogue nl ++ emitOutlines 0 ops locs code

/-- The lines from an instruction on. -/
def codeFrom (sg : Bool) (names : List Str) (block nl : Nat) (ops : Nat → List POp) (locs : Nat → SrcLoc) (code : List Instr) (t : Nat) : List Line :=
  (emitBody sg names block t ops (code.drop t)).getD [] ++ epilogue nl ++ emitOutlines 0 ops locs code

variable {nl : Nat} {code : List Instr} {env : Env} {body : List Line}

theorem labs_prologue : labs (prologue nl) = [] := by simp [labs_cons, labs_nil, prologue, plain_defines]
theorem labs_epilogue : labs (epilogue nl) = [.exit] := by simp [labs_cons, labs_nil, epilogue, plain_defines]

theorem Laid.split (h : Laid sg names block nl ops locs code env body) {t : Nat} (ht : t ≤ code.length) :
    ∃ pre, env.whole = pre ++ codeFrom sg names block nl ops locs code t ∧ ∀ l ∈ labs pre, l.inl = true ∧ ∃ j, l.pc? = some j ∧ j < t := by
  obtain ⟨pre, b, h1, h2, h3⟩ := emitBody_drop code 0 h.emitted t ht
  rw [Nat.zero_add] at h1 h3
  refine ⟨prologue nl ++ pre, ?_, ?_⟩
  · rw [h.whole, h2, codeFrom, h1]
    simp
  · rw [labs_append, labs_prologue]
    exact h3

theorem Laid.from (h : Laid sg names block nl ops locs code env body) {t : Nat} {i} (hi : code[t]? = some i) :
    ∃ ls, emitInline sg names block t i = some ls ∧
      codeFrom sg names block nl ops locs code t = .label (.at t) :: emitCheck t (ops t) ++ (ls ++ codeFrom sg names block nl ops locs code (t + 1)) := by
  obtain ⟨ht, he⟩ := List.getElem?_eq_some_iff.mp hi
  obtain ⟨pre, b, h1, _, _⟩ := emitBody_drop code 0 h.emitted t (by omega)
  rw [Nat.zero_add, List.drop_eq_getElem_cons ht, he] at h1
  have hh := h1
  simp only [emitBody, Option.bind_eq_some_iff, Option.map_eq_some_iff] at h1
  obtain ⟨ls, e1, rest, e2, rfl⟩ := h1
  refine ⟨ls, e1, ?_⟩
  unfold codeFrom
  rw [List.drop_eq_getElem_cons ht, he, hh, e2]
  simp

theorem Laid.exit (h : Laid sg names block nl ops locs code env body) : HasExit env nl := by
  obtain ⟨pre, h1, h2⟩ := h.split (Nat.le_refl code.length)
  rw [show codeFrom sg names block nl ops locs code code.length = epilogue nl ++ emitOutlines 0 ops locs code by simp [codeFrom, emitBody]] at h1
  refine ⟨emitOutlines 0 ops locs code, ?_⟩
  rw [h1, seek_append fun hm => by
    obtain ⟨_, j, h3, _⟩ := h2 _ hm
    cases h3]
  rfl

/-- A label of the main path is found in its instruction. -/
theorem Laid.seekAt (h : Laid sg names block nl ops locs code env body) {t : Nat} {l : Lbl} (ht : t ≤ code.length) (hl : l.pc? = some t) :
    seek l env.whole = seek l (codeFrom sg names block nl ops locs code t) := by
  obtain ⟨pre, h1, h2⟩ := h.split ht
  rw [h1, seek_append]
  intro hm
  obtain ⟨_, j, h3, h4⟩ := h2 l hm
  rw [hl] at h3
  cases h3
  omega

theorem Laid.target (h : Laid sg names block nl ops locs code env body) {t : Nat} (ht : t < code.length) :
    ∃ r, seek (.at t) env.whole = some (.label (.at t) :: r) ∧ codeFrom sg names block nl ops locs code t = .label (.at t) :: r := by
  obtain ⟨ls, _, h1⟩ := h.from (List.getElem?_eq_getElem ht)
  rw [h.seekAt (l := .at t) (by omega) rfl, h1]
  exact ⟨_, seek_here rfl, rfl⟩

/-- A label in the lines of an instruction. -/
theorem Laid.seekIn (h : Laid sg names block nl ops locs code env body) {t : Nat} {i ls} (hi : code[t]? = some i) (he : emitInline sg names block t i = some ls)
    {l : Lbl} (hl : l.pc? = some t) (h1 : l ≠ .at t) (h2 : l ≠ .pp t) :
    seek l env.whole = seek l (ls ++ codeFrom sg names block nl ops locs code (t + 1)) := by
  obtain ⟨ht, _⟩ := List.getElem?_eq_some_iff.mp hi
  obtain ⟨ls', e1, e2⟩ := h.from hi
  rw [he] at e1
  cases e1
  rw [h.seekAt (by omega) hl, e2]
  refine seek_append fun hm => ?_
  rw [labs_cons] at hm
  rcases List.mem_append.mp hm with hm | hm
  · simp [Line.defines] at hm
    exact h1 hm
  · exact h2 (labs_check l hm)

theorem Laid.pp (h : Laid sg names block nl ops locs code env body) {t : Nat} {i ls} (hi : code[t]? = some i) (he : emitInline sg names block t i = some ls)
    (ho : ops t ≠ []) : seek (.pp t) env.whole = some (.label (.pp t) :: (ls ++ codeFrom sg names block nl ops locs code (t + 1))) := by
  obtain ⟨ht, _⟩ := List.getElem?_eq_some_iff.mp hi
  obtain ⟨ls', e1, e2⟩ := h.from hi
  rw [he] at e1
  cases e1
  rw [h.seekAt (l := .pp t) (by omega) rfl, e2]
  simp [emitCheck, ho, seek, Line.defines]

/-- A label in the outline code of an instruction. -/
theorem Laid.seekOut (h : Laid sg names block nl ops locs code env body) {t : Nat} {i} (hi : code[t]? = some i) {l : Lbl} (h1 : l.inl = false) (h2 : l.pc? = some t) :
    ∃ tl, seek l env.whole = seek l (emitOutline t (ops t) (locs t) i ++ tl) := by
  obtain ⟨pre, tl, e1, e2⟩ := emitOutlines_at (ops := ops) (locs := locs) code 0 t i hi
  obtain ⟨pre', f1, f2⟩ := h.split (Nat.le_refl code.length)
  have hc : codeFrom sg names block nl ops locs code code.length = epilogue nl ++ emitOutlines 0 ops locs code := by simp [codeFrom, emitBody]
  rw [hc, e1, Nat.zero_add] at f1
  rw [Nat.zero_add] at e2
  refine ⟨tl, ?_⟩
  have : env.whole = (pre' ++ epilogue nl ++ pre) ++ (emitOutline t (ops t) (locs t) i ++ tl) := by rw [f1]; simp
  rw [this]
  refine seek_append fun hm => ?_
  simp only [labs_append, List.mem_append, labs_epilogue, List.mem_singleton] at hm
  rcases hm with (hm | hm) | hm
  · rw [(f2 l hm).1] at h1; cases h1
  · subst hm; cases h1
  · obtain ⟨j, h3, h4⟩ := e2 l hm
    rw [h2] at h3
    cases h3
    omega

theorem Laid.p (h : Laid sg names block nl ops locs code env body) {t : Nat} {i} (hi : code[t]? = some i) (ho : ops t ≠ []) :
    ∃ tl, seek (.p t) env.whole = some (.label (.p t) :: ((ops t).flatMap emitOp ++ .b (.pp t) :: tl)) := by
  obtain ⟨tl, h1⟩ := h.seekOut hi (l := .p t) rfl rfl
  rw [h1]
  simp [emitOutline, ho, seek, Line.defines]

/-- A label in the error cases. -/
theorem Laid.err (h : Laid sg names block nl ops locs code env body) {t : Nat} {i} (hi : code[t]? = some i) {l : Lbl} (h1 : l.inl = false) (h2 : l.pc? = some t)
    (hp : l ≠ .p t) : ∃ tl, seek l env.whole = seek l (emitErrors t (locs t) i ++ tl) := by
  obtain ⟨tl, e⟩ := h.seekOut hi h1 h2
  refine ⟨tl, ?_⟩
  rw [e, emitOutline, List.append_assoc]
  refine seek_append fun hm => ?_
  split at hm
  · simp [labs] at hm
  · simp [labs_append, labs_cons, labs_ops, plain_defines, labs_nil] at hm
    exact hp hm

end Verif.Backend
