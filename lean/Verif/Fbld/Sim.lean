import Verif.Fbld.Eq
import Verif.Util
/-!
# The stack machine computes the meaning (C50)
-/
namespace Verif.Fbld

/-! ### Memory -/

theorem modify_append_left {α : Type} (l r : List α) (i : Nat) (f : α → α) (h : i < l.length) : (l ++ r).modify i f = l.modify i f ++ r := by
  induction l generalizing i with
  | nil => simp at h
  | cons a l ih => cases i with
    | zero => rfl
    | succ i => simp only [List.cons_append, List.modify_succ_cons]; rw [ih i (by simpa using h)]

theorem modify_mid {α : Type} (l r : List α) (a : α) (f : α → α) : (l ++ a :: r).modify l.length f = l ++ f a :: r := by
  induction l with
  | nil => rfl
  | cons b l ih => simp only [List.cons_append, List.length_cons, List.modify_succ_cons, ih]

theorem modify_modify {α : Type} (l : List α) (i : Nat) (f g : α → α) : (l.modify i f).modify i g = l.modify i (g ∘ f) := by
  induction l generalizing i with
  | nil => cases i <;> rfl
  | cons a l ih => cases i with
    | zero => rfl
    | succ i => simp only [List.modify_succ_cons, ih]

theorem write_append (mem e : List Tree) (d : Dest) (v : Tree) (h : d.cell < mem.length) : write (mem ++ e) d v = write mem d v ++ e :=
  modify_append_left mem e _ _ h

theorem write_mid (mem e : List Tree) (x v : Tree) : write (mem ++ x :: e) ⟨mem.length, []⟩ v = mem ++ v :: e :=
  modify_mid mem e x _

theorem write_length (mem : List Tree) (d : Dest) (v : Tree) : (write mem d v).length = mem.length := List.length_modify _ _ _

theorem writeAt_seq (p : List Nat) (i : Nat) (v : Tree) (ts : List Tree) (t : Tree) :
    writeAt (p ++ [i]) v (writeAt p (.seq ts) t) = writeAt p (.seq (ts.modify i fun _ => v)) t := by
  induction p generalizing t with
  | nil => rfl
  | cons j p ih =>
    cases t with
    | seq us =>
      simp only [List.cons_append, writeAt, modify_modify]
      congr 2
      funext u
      exact ih u
    | null => rfl
    | plain _ => rfl
    | cmd _ _ => rfl

theorem write_seq (mem : List Tree) (d : Dest) (i : Nat) (v : Tree) (ts : List Tree) :
    write (write mem d (.seq ts)) ⟨d.cell, d.path ++ [i]⟩ v = write mem d (.seq (ts.modify i fun _ => v)) := by
  unfold write
  rw [modify_modify]
  congr 1
  funext t
  exact writeAt_seq _ _ _ _ _

theorem load_mid (mem e : List Tree) (x : Tree) : load (mem ++ x :: e) (.cell mem.length) = x := by
  simp [load]

theorem load_mid2 (mem e : List Tree) (x y : Tree) : load (mem ++ x :: y :: e) (.cell (mem.length + 1)) = y := by
  simp [load, List.getElem?_append_right]

theorem load_append (mem e : List Tree) (k : Nat) (h : k < mem.length) : load (mem ++ e) (.cell k) = load mem (.cell k) := by
  simp [load, List.getElem?_append_left h]

theorem load_write (mem : List Tree) (d : Dest) (v : Tree) (k : Nat) (h : k ≠ d.cell) : load (write mem d v) (.cell k) = load mem (.cell k) := by
  simp [load, write, List.getElem?_modify, Ne.symm h]

/-! ### Environments -/

/-- An entry stands for a definition. -/
structure EntryOk (mem : List Tree) (e : Entry) (d : Def) : Prop where
  name : e.name = d.name
  args : e.args = d.params
  body : load mem e.body = embed d.body
  cell : ∀ k, e.body = .cell k → k < mem.length

/-- The environment stands for the definitions in scope. -/
abbrev EnvOk (mem : List Tree) (env : List Entry) (E : Env) : Prop := All2 (EntryOk mem) env E

/-- No entry of the environment is in cell `k`. -/
def Free (env : List Entry) (k : Nat) : Prop := ∀ e ∈ env, e.body ≠ .cell k

theorem EntryOk.append {mem e d} (h : EntryOk mem e d) (x : List Tree) : EntryOk (mem ++ x) e d := by
  refine ⟨h.name, h.args, ?_, fun k hk => by have := h.cell k hk; simp; omega⟩
  cases hb : e.body with
  | val t => have := h.body; rw [hb] at this; exact this
  | cell k => rw [load_append mem x k (h.cell k hb), ← hb]; exact h.body

theorem EntryOk.write {mem e d} (h : EntryOk mem e d) (p : Dest) (hp : e.body ≠ .cell p.cell) (v : Tree) : EntryOk (write mem p v) e d := by
  refine ⟨h.name, h.args, ?_, fun k hk => by rw [write_length]; exact h.cell k hk⟩
  cases hb : e.body with
  | val t => have := h.body; rw [hb] at this; exact this
  | cell k => rw [load_write mem p v k (fun hk => hp (by rw [hb, hk])), ← hb]; exact h.body

theorem EnvOk.append {mem env E} (h : EnvOk mem env E) (x : List Tree) : EnvOk (mem ++ x) env E :=
  h.mono fun _ _ h => h.append x

theorem EnvOk.write {mem env E} (h : EnvOk mem env E) (p : Dest) (hp : Free env p.cell) (v : Tree) : EnvOk (write mem p v) env E := by
  induction h with
  | nil => exact .nil
  | cons h hs ih => exact .cons (h.write p (hp _ (by simp)) v) (ih fun e he => hp e (by simp [he]))

theorem EnvOk.free {mem env E} (h : EnvOk mem env E) {k : Nat} (hk : mem.length ≤ k) : Free env k := by
  intro e he hb
  obtain ⟨d, _, hd⟩ := h.mem_left he
  have := hd.cell k hb
  omega

theorem lookup_ok {mem env E} (h : EnvOk mem env E) (name : Str) :
    (lookup name env = none ∧ find name E = none) ∨
      ∃ e es d ds, lookup name env = some (e, e :: es) ∧ find name E = some (d, d :: ds) ∧ EntryOk mem e d ∧ EnvOk mem es ds ∧ ∀ x ∈ e :: es, x ∈ env := by
  induction h with
  | nil => exact .inl ⟨rfl, rfl⟩
  | @cons e d es ds h hs ih =>
    by_cases hn : name = e.name
    · exact .inr ⟨e, es, d, ds, by rw [lookup, if_pos hn], by rw [find, if_pos (hn.trans h.name)], h, hs, fun _ hx => hx⟩
    · rw [lookup, if_neg hn, find, if_neg (fun h' => hn (h'.trans h.name.symm))]
      rcases ih with ih | ⟨a, b, c, f, h1, h2, h3, h4, h5⟩
      · exact .inl ih
      · exact .inr ⟨a, b, c, f, h1, h2, h3, h4, fun x hx => List.mem_cons_of_mem _ (h5 x hx)⟩

/-! ### Goals -/

/-- Within some number of turns, at least `n`, the machine is in a state with `P`, or the assertion in
`TextOfMarkup` has failed. -/
def Hits (n : Nat) (s : State) (P : State → Prop) : Prop :=
  ∃ k, n ≤ k ∧ ((∃ s', steps k s = .run s' ∧ P s') ∨ steps k s = .crash .assertion)

/-- The machine does what the meaning says. -/
def Goal {α : Type} (n : Nat) (s : State) (r : Res α) (P : α → State → Prop) : Prop :=
  match r with
  | .ok v => Hits 0 s (P v)
  | .err => Hits 0 s fun s' => s'.error = true
  | .more => Hits n s fun _ => True

theorem steps_add (i j : Nat) (s : State) : steps (i + j) s = match steps i s with
    | .run s' => steps j s'
    | .halt => .halt
    | .crash c => .crash c := by
  induction i generalizing s with
  | zero => simp [steps]
  | succ i ih =>
    rw [Nat.succ_add, steps, steps]
    cases step s with
    | run s' => exact ih s'
    | halt => rfl
    | crash c => rfl

theorem Hits.trans {n m : Nat} {s : State} {P Q : State → Prop} (h : Hits m s P) (h' : ∀ s', P s' → Hits n s' Q) : Hits n s Q := by
  obtain ⟨k, _, h | h⟩ := h
  · obtain ⟨s', h1, h2⟩ := h
    obtain ⟨k', hk, h3⟩ := h' s' h2
    refine ⟨k + k', by omega, ?_⟩
    rw [steps_add, h1]
    exact h3
  · refine ⟨k + n, by omega, .inr ?_⟩
    rw [steps_add, h]

theorem Goal.bind {α β : Type} {n : Nat} {s : State} {r : Res α} {f : α → Res β} {P : α → State → Prop} {Q : β → State → Prop}
    (h : Goal n s r P) (h' : ∀ v s', P v s' → Goal n s' (f v) Q) : Goal n s (r.bind f) Q := by
  cases r with
  | ok v =>
    show Goal n s (f v) Q
    have h' := h' v
    revert h'
    generalize f v = r'
    intro h'
    cases r' with
    | ok v' => exact Hits.trans h h'
    | err => exact Hits.trans h h'
    | more => exact Hits.trans h h'
  | err => exact h
  | more => exact h

theorem Goal.ok {α : Type} {n : Nat} {s : State} {v : α} {P : α → State → Prop} (h : P v s) : Goal n s (.ok v) P :=
  ⟨0, Nat.le_refl _, .inl ⟨s, rfl, h⟩⟩

theorem Goal.err {α : Type} {n : Nat} {s : State} {P : α → State → Prop} (h : s.error = true) : Goal n s .err P :=
  ⟨0, Nat.le_refl _, .inl ⟨s, rfl, h⟩⟩

theorem Goal.mono {α : Type} {n : Nat} {s : State} {r : Res α} {P Q : α → State → Prop} (h : Goal n s r P) (h' : ∀ v s', P v s' → Q v s') :
    Goal n s r Q := by
  cases r with
  | ok v => exact Hits.trans h fun s' hs => ⟨0, Nat.le_refl _, .inl ⟨s', rfl, h' v s' hs⟩⟩
  | err => exact h
  | more => exact h

/-- The goal for what follows a turn. -/
def NGoal {α : Type} (n : Nat) (x : Next) (r : Res α) (P : α → State → Prop) : Prop :=
  match x with
  | .run s => Goal n s r P
  | .halt => False
  | .crash c => c = .assertion

theorem Hits.step {n : Nat} {s s' : State} {P : State → Prop} (hs : step s = .run s') (h : Hits n s' P) : Hits (n + 1) s P := by
  obtain ⟨k, hk, h⟩ := h
  refine ⟨k + 1, by omega, ?_⟩
  rw [steps, hs]
  exact h

theorem Hits.le {n m : Nat} {s : State} {P : State → Prop} (hm : m ≤ n) (h : Hits n s P) : Hits m s P := by
  obtain ⟨k, hk, h⟩ := h
  exact ⟨k, by omega, h⟩

theorem NGoal.step {α : Type} {n : Nat} {s : State} {r : Res α} {P : α → State → Prop} (h : NGoal n (step s) r P) : Goal (n + 1) s r P := by
  cases hs : Fbld.step s with
  | run s' =>
    rw [hs] at h
    cases r with
    | ok v => exact Hits.le (Nat.zero_le _) (Hits.step hs h)
    | err => exact Hits.le (Nat.zero_le _) (Hits.step hs h)
    | more => exact Hits.step hs h
  | halt => rw [hs] at h; exact h.elim
  | crash c =>
    rw [hs] at h
    have : c = .assertion := h
    subst this
    have key : ∀ m, ∀ P, Hits m s P := fun m P => ⟨m + 1, by omega, .inr (by rw [steps, hs])⟩
    cases r <;> exact key _ _

theorem Goal.le {α : Type} {n m : Nat} {s : State} {r : Res α} {P : α → State → Prop} (hm : m ≤ n) (h : Goal n s r P) : Goal m s r P := by
  cases r with
  | ok v => exact h
  | err => exact h
  | more => exact Hits.le hm h

theorem NGoal.step' {α : Type} {n : Nat} {s : State} {r : Res α} {P : α → State → Prop} (h : NGoal n (Fbld.step s) r P) : Goal n s r P :=
  h.step.le (Nat.le_succ n)

theorem NGoal.err {α : Type} {n : Nat} {s : State} {P : α → State → Prop} (h : s.error = true) : NGoal n (.run s) .err P :=
  (Goal.err h : Goal n s .err P)

theorem NGoal.ok {α : Type} {n : Nat} {s : State} {v : α} {P : α → State → Prop} (h : P v s) : NGoal n (.run s) (.ok v) P :=
  (Goal.ok h : Goal n s (.ok v) P)

/-! ### Sequences of evaluations -/

/-- The state while there is no error. -/
abbrev St (rep : Bool) (stack : List Cmd) (mem : List Tree) : State := ⟨stack, mem, false, rep⟩

/-- What is to be shown of evaluation cut off at `n`. -/
def Sim (n : Nat) : Prop := ∀ rep E m env d rest mem r, d.cell < mem.length → EnvOk mem env E → Free env d.cell → load mem r = embed m →
  Goal n (St rep (.eval d env r :: rest) mem) (eval n E m)
    fun v s' => ∃ x, s' = St rep rest (write mem d (embed v) ++ x)

theorem embedL_map_null (ms : List Markup) : (embedL ms).map (fun _ => Tree.null) = ms.map fun _ => Tree.null := by
  induction ms with
  | nil => rfl
  | cons m ms ih => simp only [embedL, List.map_cons, ih]

theorem embedL_length (ms : List Markup) : (embedL ms).length = ms.length := by
  induction ms with
  | nil => rfl
  | cons m ms ih => simp only [embedL, List.length_cons, ih]

/-- Evaluation of one markup into a new cell. -/
theorem Sim.one {n : Nat} (hn : Sim n) {rep E m env rest} {base e : List Tree} {x : Tree} (he : EnvOk base env E) :
    Goal n (St rep (.eval ⟨base.length, []⟩ env (.val (embed m)) :: rest) (base ++ x :: e)) (eval n E m)
      fun v s' => ∃ y, s' = St rep rest (base ++ embed v :: e ++ y) := by
  refine (hn rep E m env ⟨base.length, []⟩ rest (base ++ x :: e) (.val (embed m)) (by simp) (he.append _) (he.free (Nat.le_refl _)) rfl).mono ?_
  rintro v s' ⟨y, rfl⟩
  exact ⟨y, by rw [write_mid]⟩

/-- Evaluation of two markups into new cells, the second first. -/
theorem Sim.two {n : Nat} (hn : Sim n) {rep E a b env rest} {base : List Tree} (he : EnvOk base env E) {α : Type}
    {F : Markup → Markup → Res α} {Q : α → State → Prop}
    (h : ∀ va vb x, Goal n (St rep rest (base ++ embed va :: embed vb :: x)) (F va vb) Q) :
    Goal n (St rep (.eval ⟨base.length + 1, []⟩ env (.val (embed b)) :: .eval ⟨base.length, []⟩ env (.val (embed a)) :: rest) (base ++ [.null, .null]))
      ((eval n E b).bind fun vb => (eval n E a).bind fun va => F va vb) Q := by
  have h1 := hn.one (rep := rep) (m := b) (rest := .eval ⟨base.length, []⟩ env (.val (embed a)) :: rest) (base := base ++ [.null]) (e := []) (x := .null) (he.append _)
  simp only [List.length_append, List.length_singleton, List.append_assoc, List.singleton_append] at h1
  refine h1.bind ?_
  rintro vb s' ⟨y, rfl⟩
  have h2 := hn.one (rep := rep) (m := a) (rest := rest) (base := base) (e := embed vb :: y) (x := .null) he
  refine h2.bind ?_
  rintro va s' ⟨z, rfl⟩
  have := h va vb (y ++ z)
  simpa using this

theorem Sim.args {n : Nat} (hn : Sim n) {rep E env} (ms : List Markup) : ∀ {rest} {base e : List Tree}, EnvOk base env E →
    Goal n (St rep (pushArgs env base.length (embedL ms) rest) (base ++ (ms.map fun _ => .null) ++ e)) (evalAll (eval n E) ms)
      fun vs s' => ∃ y, vs.length = ms.length ∧ s' = St rep rest (base ++ embedL vs ++ e ++ y) := by
  induction ms with
  | nil => intro rest base e he; exact Goal.ok ⟨[], rfl, by simp [pushArgs, embedL]⟩
  | cons m ms ih =>
    intro rest base e he
    rw [embedL, pushArgs, evalAll]
    have h1 := ih (rest := .eval ⟨base.length, []⟩ env (.val (embed m)) :: rest) (base := base ++ [.null]) (e := e) (he.append _)
    simp only [List.length_append, List.length_singleton, List.append_assoc, List.singleton_append] at h1
    simp only [List.map_cons, List.append_assoc, List.cons_append]
    refine h1.bind ?_
    rintro vs s' ⟨y, hl, rfl⟩
    refine (hn.one (rep := rep) (m := m) (rest := rest) (base := base) (e := embedL vs ++ (e ++ y)) (x := .null) he).bind ?_
    rintro v s' ⟨z, rfl⟩
    exact Goal.ok ⟨y ++ z, by simp [hl], by simp [embedL]⟩

theorem Sim.seq {n : Nat} (hn : Sim n) {rep E env d mem} (hd : d.cell < mem.length) (he : EnvOk mem env E) (hf : Free env d.cell) (ms : List Markup) :
    ∀ {rest} {pre e : List Tree},
    Goal n (St rep (pushSeq d env pre.length (embedL ms) rest) (write mem d (.seq (pre ++ ms.map fun _ => .null)) ++ e)) (evalAll (eval n E) ms)
      fun vs s' => ∃ y, s' = St rep rest (write mem d (.seq (pre ++ embedL vs)) ++ y) := by
  induction ms with
  | nil => intro rest pre e; exact Goal.ok ⟨e, by simp [pushSeq, embedL]⟩
  | cons m ms ih =>
    intro rest pre e
    rw [embedL, pushSeq, evalAll]
    have h1 := ih (rest := .eval ⟨d.cell, d.path ++ [pre.length]⟩ env (.val (embed m)) :: rest) (pre := pre ++ [.null]) (e := e)
    simp only [List.length_append, List.length_singleton, List.append_assoc, List.singleton_append] at h1
    simp only [List.map_cons]
    refine h1.bind ?_
    rintro vs s' ⟨y, rfl⟩
    refine (hn rep E m env ⟨d.cell, d.path ++ [pre.length]⟩ rest _ (.val (embed m)) (by simp [write_length]; omega)
      ((he.write d hf _).append y) hf rfl).bind ?_
    rintro v s' ⟨z, rfl⟩
    refine Goal.ok ⟨y ++ z, ?_⟩
    rw [write_append _ _ _ _ (by simpa [write_length] using hd), write_seq, modify_mid]
    simp [embedL]

/-! ### Helper functions -/

theorem text_cases (m : Markup) : textOfMarkup (embed m) = .crash .assertion ∨ (∃ s, text m = some s ∧ textOfMarkup (embed m) = .ok s) ∨
    (text m = none ∧ textOfMarkup (embed m) = .fail) := by
  by_cases h : ∃ ps, parts m = some [] :: some [] :: ps
  · obtain ⟨ps, h⟩ := h
    exact .inl (C52_violated m ps h)
  · have := C52_text m fun ps hp => h ⟨ps, hp⟩
    cases ht : text m with
    | none => rw [ht] at this; exact .inr (.inr ⟨rfl, this⟩)
    | some s => rw [ht] at this; exact .inr (.inl ⟨s, rfl, this⟩)

theorem goal_text {α : Type} {n : Nat} {s : State} {m : Markup} {f : Str → Next} {F : Str → Res α} {P : α → State → Prop}
    (h : ∀ x, NGoal n (f x) (F x) P) : NGoal n (orFail s (textOfMarkup (embed m)) f) ((Res.ofOption (text m)).bind F) P := by
  rcases text_cases m with h1 | ⟨x, h1, h2⟩ | ⟨h1, h2⟩
  · rw [h1]; rfl
  · rw [h1, h2]; exact h x
  · rw [h1, h2]; exact NGoal.err rfl

theorem goal_is {α β : Type} {n : Nat} {s : State} {r : CRes β} {r' : Res β} (hr : r.Is r') {f : β → Next} {F : β → Res α} {P : α → State → Prop}
    (h : ∀ x, r = .ok x → NGoal n (f x) (F x) P) : NGoal n (orFail s r f) (r'.bind F) P := by
  cases r' with
  | ok x => have hr : r = .ok x := hr; subst hr; exact h x rfl
  | err => have hr : r = .fail := hr; subst hr; exact NGoal.err rfl
  | more => exact hr.elim

mutual
theorem mapPlain_embed (f : Str) : (m : Markup) → mapPlain f (embed m) = some (embed (applyPlain f m))
  | .plain s => by simp [embed, mapPlain, applyPlain, embedL]
  | .cmd _ _ => by simp [embed, mapPlain, applyPlain]
  | .seq ms => by simp only [embed, mapPlain, applyPlain]; rw [mapPlainL_embed f ms]
theorem mapPlainL_embed (f : Str) : (ms : List Markup) → mapPlainL f (embedL ms) = some (embedL (applyPlainL f ms))
  | [] => rfl
  | m :: ms => by simp only [embedL, mapPlainL, applyPlainL]; rw [mapPlain_embed f m, mapPlainL_embed f ms]
end

mutual
theorem locOk_embed : (m : Markup) → locOk (embed m) = true
  | .plain _ => rfl
  | .cmd _ _ => by simp [embed, locOk]
  | .seq ms => by simp only [embed, locOk]; exact locOkL_embed ms
theorem locOkL_embed : (ms : List Markup) → locOkL (embedL ms) = true
  | [] => rfl
  | m :: _ => by simp only [embedL, locOkL]; exact locOk_embed m
end

theorem splitArgs_eq (s : Str) : ∀ buf : Str, splitArgs buf s = (List.splitOnPPrepend isSpace s buf.reverse).filter (fun w => !w.isEmpty) := by
  induction s with
  | nil => intro buf; cases buf <;> simp [splitArgs, List.splitOnPPrepend]
  | cons c s ih =>
    intro buf
    rw [splitArgs, List.splitOnPPrepend]
    by_cases h : isSpace c
    · rw [if_pos h]
      simp only [h, if_true]
      cases buf with
      | nil => simp only [List.length_nil, Nat.lt_irrefl, gt_iff_lt, if_false]; rw [ih]; simp
      | cons b buf => simp only [List.length_cons, gt_iff_lt, Nat.zero_lt_succ, if_true]; rw [ih]; simp
    · rw [if_neg h, ih]
      simp [h]

theorem splitArgs_words (s : Str) : splitArgs [] s = words s := splitArgs_eq s []

theorem bindArgs_ok {base e : List Tree} : (ps : List Str) → (vs : List Markup) → ps.length = vs.length → ∀ {pre env E},
    EnvOk (base ++ pre ++ embedL vs ++ e) env E →
    EnvOk (base ++ pre ++ embedL vs ++ e) (argEnv (base.length + pre.length) ps env) (bindArgs ps vs E)
  | [], [], _, _, _, _, h => h
  | p :: ps, v :: vs, hl, pre, env, E, h => by
    have ih := bindArgs_ok (base := base) (e := e) ps vs (by simpa using hl) (pre := pre ++ [embed v]) (env := ⟨p, none, .cell (base.length + pre.length)⟩ :: env)
      (E := ⟨p, none, v⟩ :: E)
    rw [argEnv, bindArgs]
    simp only [embedL, List.length_append, List.length_singleton, List.append_assoc, List.singleton_append, List.cons_append, List.nil_append, ← Nat.add_assoc] at ih h ⊢
    refine ih (.cons ⟨rfl, rfl, ?_, ?_⟩ h)
    · have := load_mid (base ++ pre) (embedL vs ++ e) (embed v)
      simpa using this
    · intro k hk
      cases hk
      simp only [List.length_append, List.length_cons]; omega

end Verif.Fbld
