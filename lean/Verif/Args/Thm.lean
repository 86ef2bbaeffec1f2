import Verif.Args.Spec
import Mathlib.Tactic.Common
/-
C48: option parsing.
-/
namespace Verif.Args

def spells : P → Arg → Bool
  | .bool n _, a => a == n.toList
  | .str n _, a => a == n.toList
  | .push n _, a => a == n.toList
  | .module, a => a.take 2 == "-I".toList || a == "--package".toList || a == "-p".toList || a == "--module".toList ||
      a == "-m".toList
  | .invalid, _ => true

def name? : P → Option String
  | .bool n _ => some n
  | .str n _ => some n
  | .push n _ => some n
  | _ => none

/-- No argument is for both lines. -/
def apart (p q : P) : Bool :=
  match name? p, name? q with
  | some n, some m => n.toList != m.toList
  | some n, none => q == .invalid || !spells .module n.toList
  | none, some m => p == .module && !spells .module m.toList
  | none, none => p == .module && q == .invalid

def wf (g : Program) : Bool := decide (g.lines.Pairwise fun p q => apart p q = true)

theorem apart_spec {p q : P} (h : apart p q = true) {a : Arg} (hp : spells p a = true) (hq : spells q a = true) :
    q = .invalid := by
  cases p <;> cases q <;> simp_all [apart, name?, spells]

theorem setAt_same {β : Type} (f : String → β) (k : String) : setAt f k (f k) = f := by
  funext x; simp only [setAt]; split <;> simp_all

theorem parseStr_no {s : St} {a : Arg} {as n old} (hs : s.args = a :: as) (h : a ≠ n) :
    parseStr n old s = (s, false, old) := by
  unfold parseStr
  rw [hs]
  simp [h]

theorem parse_no (e : Env) {s : St} {a : Arg} {as} (hs : s.args = a :: as) {p : P} (h : spells p a = false) :
    p.parse e s = (s, false) := by
  cases p with
  | bool n d =>
    have : a ≠ n.toList := by simpa [spells] using h
    simp [P.parse, parseBool, hs, this]
  | str n d =>
    have : a ≠ n.toList := by simpa [spells] using h
    simp only [P.parse, parseVar, parseStr_no hs this, setAt_same]
  | push n d =>
    have : a ≠ n.toList := by simpa [spells] using h
    simp [P.parse, parsePush, parseStr_no hs this]
  | module =>
    simp only [spells, Bool.or_eq_false_iff, beq_eq_false_iff_ne] at h
    obtain ⟨⟨⟨⟨h1, h2⟩, h3⟩, h4⟩, h5⟩ := h
    have h0 : a ≠ "-I".toList := by rintro rfl; exact h1 rfl
    unfold P.parse parseModule
    rw [hs]
    simp only [h0, h1, if_false, parseEither, parseStr_no hs h2, parseStr_no hs h3, parseStr_no hs h4,
      parseStr_no hs h5, Bool.false_eq_true]
  | invalid => simp [spells] at h

theorem body_skip (e : Env) {s : St} {a : Arg} {as} (hs : s.args = a :: as) : ∀ (pre post : List P),
    (∀ p ∈ pre, spells p a = false) → body e (pre ++ post) s = body e post s := by
  intro pre post h
  induction pre with
  | nil => rfl
  | cons p pre ih =>
    have := parse_no e hs (h p (by simp))
    simp only [List.cons_append, body, this, Bool.false_eq_true, if_false]
    exact ih fun p hp => h p (by simp [hp])

/-- The line for an argument is the one that is used. -/
theorem body_line (e : Env) {g : Program} (hg : wf g = true) {s : St} {a : Arg} {as} (hs : s.args = a :: as)
    {p : P} (hp : p ∈ g.lines) (hne : p ≠ .invalid) (ha : spells p a = true) {s'} (hr : p.parse e s = (s', true)) :
    body e g.lines s = (s', true) := by
  obtain ⟨pre, post, hl⟩ := List.append_of_mem hp
  have hw : g.lines.Pairwise fun p q => apart p q = true := of_decide_eq_true hg
  rw [hl] at hw ⊢
  have hpre : ∀ q ∈ pre, spells q a = false := by
    intro q hq
    have := (List.pairwise_append.mp hw).2.2 q hq p (by simp)
    by_contra hc
    exact hne (apart_spec this (by simpa using hc) ha)
  rw [body_skip e hs pre _ hpre]
  simp [body, hr]

theorem Same.refl (s : St) : Same s s := ⟨rfl, rfl, rfl, rfl, rfl, rfl⟩

theorem parseEither_pkg {n1 n2 : Arg} {s : St} {l : Bool} {v rest} (h : n1 ≠ n2)
    (hs : s.args = (if l then n1 else n2) :: v :: rest) :
    parseEither n1 n2 s = ({ s with args := rest }, true, some v) := by
  cases l
  · have hs : s.args = n2 :: v :: rest := hs
    unfold parseEither
    rw [parseStr_no hs (Ne.symm h)]
    simp [parseStr, hs]
  · have hs : s.args = n1 :: v :: rest := hs
    simp [parseEither, parseStr, hs]

/-- One option: what it does, and that it is consumed unless it is an error. -/
theorem item_body (e : Env) {g : Program} (hg : wf g = true) {i : Item} (hi : i.Of g) {s : St} (hst : s.error = false)
    (hub : s.ub = false) {rest} (hs : s.args = i.encode ++ rest) :
    ∃ s', body e g.lines s = (s', true) ∧ Same s' (i.effect e s) ∧ s'.ub = false ∧
      (s'.error = false → s'.args = rest) := by
  cases i with
  | flag n d =>
    have hs : s.args = n.toList :: rest := hs
    refine ⟨_, body_line e hg hs hi (by simp) (by simp [spells]) (s' := { s with flags := setAt s.flags d true, args := rest }) ?_,
      ⟨rfl, rfl, rfl, rfl, rfl, rfl⟩, hub, fun _ => rfl⟩
    simp [P.parse, parseBool, hs]
  | str n d v =>
    have hs : s.args = n.toList :: v :: rest := hs
    by_cases hd : (s.strs d).isSome = true
    · refine ⟨_, body_line e hg hs hi (by simp) (by simp [spells]) (s' := { s with error := true }) ?_, ?_, hub,
        fun h => by simp at h⟩
      · simp [P.parse, parseVar, parseStr, hs, hd, setAt_same]
      · simp [Item.effect, hd, Same]
    · refine ⟨_, body_line e hg hs hi (by simp) (by simp [spells])
        (s' := { s with strs := setAt s.strs d (some v), args := rest }) ?_, ?_, hub, fun _ => rfl⟩
      · simp [P.parse, parseVar, parseStr, hs, hd]
      · simp [Item.effect, hd, Same]
  | push n d v =>
    have hs : s.args = n.toList :: v :: rest := hs
    refine ⟨_, body_line e hg hs hi (by simp) (by simp [spells])
      (s' := { s with lists := setAt s.lists d (s.lists d ++ [some v]), args := rest }) ?_,
      ⟨rfl, rfl, rfl, rfl, rfl, rfl⟩, hub, fun _ => rfl⟩
    simp [P.parse, parsePush, parseStr, hs]
  | incl v =>
    have hs : s.args = "-I".toList :: v :: rest := hs
    refine ⟨_, body_line e hg hs hi (by simp) (by simp [spells])
      (s' := { s with search := s.search ++ [v], args := rest }) ?_, ⟨rfl, rfl, rfl, rfl, rfl, rfl⟩, hub, fun _ => rfl⟩
    simp [P.parse, parseModule, hs]
  | inclJoined c v =>
    have hs : s.args = ("-I".toList ++ c :: v) :: rest := hs
    have h2 : ("-I".toList ++ c :: v).take 2 = "-I".toList := rfl
    have h0 : ("-I".toList ++ c :: v) ≠ "-I".toList := by simp
    refine ⟨_, body_line e hg hs hi (by simp) (by simp [spells])
      (s' := { s with search := s.search ++ [c :: v], args := rest }) ?_, ⟨rfl, rfl, rfl, rfl, rfl, rfl⟩, hub, fun _ => rfl⟩
    unfold P.parse parseModule
    rw [hs]
    simp only [h0, h2, if_true, if_false]
    rfl
  | package l v =>
    have hs : s.args = (if l then "--package".toList else "-p".toList) :: v :: rest := hs
    have hp := parseEither_pkg (by decide) hs
    have hsp : spells .module (if l then "--package".toList else "-p".toList) = true := by cases l <;> decide
    have h1 : (if l then "--package".toList else "-p".toList) ≠ "-I".toList := by cases l <;> decide
    have h2 : (if l then "--package".toList else "-p".toList).take 2 ≠ "-I".toList := by cases l <;> decide
    have he : P.parse e s .module = (match e.find v with
      | some path => ({ s with args := rest, search := s.search ++ [path] }, true)
      | none => ({ s with args := rest, error := true }, true)) := by
      unfold P.parse parseModule
      rw [hs]
      simp only [h1, h2, if_false, hp, if_true, hst, Bool.false_eq_true, Option.bind_some]
      cases e.find v <;> rfl
    cases hf : e.find v with
    | some p =>
      rw [hf] at he
      exact ⟨_, body_line e hg hs hi (by simp) hsp he, by simp [Item.effect, hf, Same], hub, fun _ => rfl⟩
    | none =>
      rw [hf] at he
      exact ⟨_, body_line e hg hs hi (by simp) hsp he, by simp [Item.effect, hf, Same], hub, fun h => by simp at h⟩
  | module l v =>
    have hs : s.args = (if l then "--module".toList else "-m".toList) :: v :: rest := hs
    have hp := parseEither_pkg (by decide) hs
    have hsp : spells .module (if l then "--module".toList else "-m".toList) = true := by cases l <;> decide
    have h1 : (if l then "--module".toList else "-m".toList) ≠ "-I".toList := by cases l <;> decide
    have h2 : (if l then "--module".toList else "-m".toList).take 2 ≠ "-I".toList := by cases l <;> decide
    have h3 : (if l then "--module".toList else "-m".toList) ≠ "--package".toList := by cases l <;> decide
    have h4 : (if l then "--module".toList else "-m".toList) ≠ "-p".toList := by cases l <;> decide
    have hq : parseEither "--package".toList "-p".toList s = (s, false, none) := by
      simp only [parseEither, parseStr_no hs h3, parseStr_no hs h4, Bool.false_eq_true, if_false]
    have he : P.parse e s .module = (if s.module.isSome then ({ s with args := rest, error := true }, true)
      else match e.parse v with
      | some path => ({ s with args := rest, module := some path }, true)
      | none => ({ s with args := rest, error := true }, true)) := by
      unfold P.parse parseModule
      rw [hs]
      simp only [h1, h2, if_false, hq, hp, if_true, hst, Bool.false_eq_true, Option.bind_some]
      cases s.module.isSome <;> cases e.parse v <;> rfl
    by_cases hm : s.module.isSome = true
    · rw [if_pos hm] at he
      exact ⟨_, body_line e hg hs hi (by simp) hsp he, by simp [Item.effect, hm, Same], hub, fun h => by simp at h⟩
    · rw [if_neg hm] at he
      cases hf : e.parse v with
      | some p =>
        rw [hf] at he
        exact ⟨_, body_line e hg hs hi (by simp) hsp he, by simp [Item.effect, hm, hf, Same], hub, fun _ => rfl⟩
      | none =>
        rw [hf] at he
        exact ⟨_, body_line e hg hs hi (by simp) hsp he, by simp [Item.effect, hm, hf, Same], hub, fun h => by simp at h⟩

theorem Same.stop {s t : St} (h : Same s t) : Args.stop s = Args.stop t := by
  simp only [Args.stop, h.1, h.2.2.2.2.2]

theorem Same.trans {s t u : St} (h : Same s t) (h' : Same t u) : Same s u :=
  ⟨h.1.trans h'.1, h.2.1.trans h'.2.1, h.2.2.1.trans h'.2.2.1, h.2.2.2.1.trans h'.2.2.2.1,
    h.2.2.2.2.1.trans h'.2.2.2.2.1, h.2.2.2.2.2.trans h'.2.2.2.2.2⟩

theorem effect_same (e : Env) {s t : St} (h : Same s t) (i : Item) : Same (i.effect e s) (i.effect e t) := by
  obtain ⟨h1, h2, h3, h4, h5, h6⟩ := h
  cases i <;> simp only [Item.effect, h2, h5] <;> (repeat' split) <;> simp_all [Same]

theorem effects_same (e : Env) : ∀ (is : List Item) {s t : St}, Same s t → Same (effects e is s) (effects e is t) := by
  intro is
  induction is with
  | nil => intro s t h; exact h
  | cons i is ih =>
    intro s t h
    simp only [effects, h.stop]
    split
    · exact h
    · exact ih (effect_same e h i)

theorem effects_stopped (e : Env) (is : List Item) {s : St} (h : stop s = true) : effects e is s = s := by
  cases is <;> simp [effects, h]

theorem encode_ne (i : Item) : i.encode ≠ [] := by cases i <;> exact List.cons_ne_nil _ _

/-- The loop over the options of a command line. -/
theorem loop_items (e : Env) {g : Program} (hg : wf g = true) : ∀ (is : List Item), (∀ i ∈ is, i.Of g) →
    ∀ (s : St) (rest : List Arg), s.ub = false → s.args = is.flatMap Item.encode ++ rest →
    ∃ n t, Same t (effects e is s) ∧ t.ub = false ∧ (stop t = false → t.args = rest) ∧
      ∀ fuel, loop e g (fuel + n) s = loop e g fuel t := by
  intro is
  induction is with
  | nil => intro _ s rest hub hs; exact ⟨0, s, Same.refl _, hub, fun _ => by simpa using hs, fun _ => rfl⟩
  | cons i is ih =>
    intro hall s rest hub hs
    by_cases hst : stop s = true
    · exact ⟨0, s, by rw [effects_stopped e _ hst]; exact Same.refl s, hub, fun h => by rw [hst] at h; simp at h, fun _ => rfl⟩
    · have herr : s.error = false := by
        simp only [stop, Bool.or_eq_true, not_or, Bool.not_eq_true] at hst
        exact hst.2
      obtain ⟨s', b1, b2, b3, b4⟩ := item_body e hg (hall i (by simp)) herr hub (rest := is.flatMap Item.encode ++ rest)
        (by rw [hs]; simp)
      have hne : s.args.isEmpty = false := by
        rw [hs]
        have := encode_ne i
        cases he : i.encode <;> simp_all
      have hstep : ∀ fuel, loop e g (fuel + 1) s = loop e g fuel s' := by
        intro fuel
        rw [loop]
        simp [hst, hne, b1]
      have heff : effects e (i :: is) s = effects e is (i.effect e s) := by
        rw [effects, if_neg hst]
      by_cases hst' : stop s' = true
      · refine ⟨1, s', ?_, b3, fun h => by rw [hst'] at h; simp at h, hstep⟩
        rw [heff, effects_stopped e is (by rw [← b2.stop]; exact hst')]
        exact b2
      · have herr' : s'.error = false := by
          simp only [stop, Bool.or_eq_true, not_or, Bool.not_eq_true] at hst'
          exact hst'.2
        obtain ⟨n, t, t1, t2, t3, t4⟩ := ih (fun i hi => hall i (by simp [hi])) s' rest b3 (b4 herr')
        refine ⟨n + 1, t, ?_, t2, t3, fun fuel => ?_⟩
        · rw [heff]
          exact t1.trans (effects_same e is b2)
        · rw [← Nat.add_assoc, hstep, t4]

theorem not_recognised {g : Program} {a : Arg} (h : ¬ Recognised g a) {p : P} (hp : p ∈ g.lines) (hi : p ≠ .invalid) :
    spells p a = false := by
  by_contra hc
  refine h ⟨p, hp, ?_⟩
  cases p with
  | module =>
    have hc : spells .module a = true := by simpa using hc
    simp only [spells, Bool.or_eq_true, beq_iff_eq] at hc
    simp only [List.mem_cons, List.not_mem_nil, or_false]
    tauto
  | invalid => exact absurd rfl hi
  | _ => simpa [spells] using hc

/-- An argument that is no option. -/
theorem body_unknown (e : Env) {g : Program} {s : St} {a : Arg} {as} (hub : s.ub = false) (hs : s.args = a :: as)
    (h : ¬ Recognised g a) :
    (.invalid ∈ g.lines → body e g.lines s = ({ s with error := true }, true)) ∧
    (.invalid ∉ g.lines → body e g.lines s = (s, false)) := by
  have hinv : P.parse e s .invalid = ({ s with error := true }, true) := by
    simp [P.parse, parseInvalid, hs]
  have key : ∀ ls : List P, (∀ p ∈ ls, p ≠ .invalid → spells p a = false) →
    (.invalid ∈ ls → body e ls s = ({ s with error := true }, true)) ∧
    (.invalid ∉ ls → body e ls s = (s, false)) := by
    intro ls hl
    induction ls with
    | nil => exact ⟨by simp, fun _ => rfl⟩
    | cons p ls ih =>
      have ih := ih fun q hq => hl q (by simp [hq])
      by_cases hp : p = .invalid
      · subst hp
        exact ⟨fun _ => by simp [body, hinv], fun h => absurd (by simp) h⟩
      · have := parse_no e hs (hl p (by simp) hp)
        simp only [body, this, Bool.false_eq_true, if_false, List.mem_cons, Ne.symm hp, false_or]
        exact ih
  exact key g.lines fun p hp hi => not_recognised h hp hi

/-- **C48**.  For every program whose options are spelled differently, and every list of its
options on the command line: the loop ends, and the variables are what the options say one after
the other (up to help, version or an error); no argument behind the last is read. -/
theorem C48_options (e : Env) {g : Program} (hg : wf g = true) (is : List Item) (hi : ∀ i ∈ is, i.Of g) (s : St)
    (hub : s.ub = false) (hs : s.args = is.flatMap Item.encode) :
    ∃ n r, loop e g n s = some r ∧ Same r (effects e is s) ∧ r.ub = false ∧ (stop r = false → r.args = []) := by
  obtain ⟨n, t, t1, t2, t3, t4⟩ := loop_items e hg is hi s [] hub (by rw [hs]; simp)
  refine ⟨n, t, ?_, t1, t2, t3⟩
  have := t4 0
  rw [Nat.zero_add] at this
  rw [this, loop]
  by_cases h : stop t = true
  · simp [h]
  · simp [t3 (by simpa using h)]

/-- **C48**.  Likewise if after the options there is an argument that is not an option: programs
with program arguments stop there and leave it and what follows (but not a `--`); the others report
an error. -/
theorem C48_rest (e : Env) {g : Program} (hg : wf g = true) (is : List Item) (hi : ∀ i ∈ is, i.Of g) (s : St)
    (hub : s.ub = false) (a : Arg) (as : List Arg) (ha : ¬ Recognised g a)
    (hs : s.args = is.flatMap Item.encode ++ a :: as) (hok : stop (effects e is s) = false) :
    (.invalid ∈ g.lines → ∃ n r, loop e g n s = some r ∧ r.error = true ∧ r.ub = false ∧
      Same r { effects e is s with error := true }) ∧
    (.invalid ∉ g.lines → g.endOfOptions = true → ∃ n r, loop e g n s = some r ∧ Same r (effects e is s) ∧ r.ub = false ∧
      r.args = if a = "--".toList then as else a :: as) := by
  obtain ⟨n, t, t1, t2, t3, t4⟩ := loop_items e hg is hi s (a :: as) hub hs
  have hst : stop t = false := by rw [t1.stop]; exact hok
  have hargs := t3 hst
  obtain ⟨b1, b2⟩ := body_unknown e t2 hargs ha
  refine ⟨fun h => ?_, fun h he => ?_⟩
  · refine ⟨1 + n, { t with error := true }, ?_, rfl, t2, ?_⟩
    · rw [t4, loop]
      simp only [hst, hargs, List.isEmpty_cons, Bool.or_self, Bool.false_eq_true, if_false, b1 h, if_true]
      rw [loop]
      simp [stop]
    · exact ⟨t1.1, t1.2.1, t1.2.2.1, t1.2.2.2.1, t1.2.2.2.2.1, rfl⟩
  · refine ⟨1 + n, { t with args := if t.args.head? = some "--".toList then t.args.drop 1 else t.args }, ?_, t1, t2, ?_⟩
    · rw [t4, loop]
      simp only [hst, hargs, List.isEmpty_cons, Bool.or_self, Bool.false_eq_true, if_false, b2 h, he, if_true]
    · simp only [hargs, List.head?_cons, Option.some.injEq, List.drop_one, List.tail_cons]

/-- A missing value is an error. -/
theorem C48_missing (e : Env) {g : Program} (hg : wf g = true) (p : P) (hp : p ∈ g.lines) (s : St)
    (hub : s.ub = false) (hst : stop s = false) (n : Arg) (hs : s.args = [n])
    (hn : match p with
      | .str m _ => n = m.toList
      | .push m _ => n = m.toList
      | .module => n ∈ ["-I".toList, "--package".toList, "-p".toList, "--module".toList, "-m".toList]
      | _ => False) :
    ∃ k r, loop e g k s = some r ∧ r.error = true ∧ r.ub = false := by
  have key : ∃ s', p.parse e s = (s', true) ∧ s'.error = true ∧ s'.ub = false := by
    cases p with
    | bool _ _ => exact hn.elim
    | invalid => exact hn.elim
    | str m d => subst hn; simp [P.parse, parseVar, parseStr, hs, hub]
    | push m d => subst hn; simp [P.parse, parsePush, parseStr, hs, hub]
    | module =>
      simp only [List.mem_cons, List.not_mem_nil, or_false] at hn
      rcases hn with rfl | rfl | rfl | rfl | rfl <;>
        simp [P.parse, parseModule, parseEither, parseStr, hs, hub]
  have hsp : spells p n = true ∧ p ≠ .invalid := by
    cases p with
    | bool _ _ => exact hn.elim
    | invalid => exact hn.elim
    | str m d => simp [spells, show n = m.toList from hn]
    | push m d => simp [spells, show n = m.toList from hn]
    | module =>
      simp only [List.mem_cons, List.not_mem_nil, or_false] at hn
      rcases hn with rfl | rfl | rfl | rfl | rfl <;> simp [spells]
  obtain ⟨s', h1, h2, h3⟩ := key
  refine ⟨1, s', ?_, h2, h3⟩
  have hb := body_line e hg hs hp hsp.2 hsp.1 h1
  rw [loop]
  simp only [hst, hs, List.isEmpty_cons, Bool.or_self, Bool.false_eq_true, if_false, hb, if_true]
  rw [loop]
  simp [stop, h2]

/-- **C48**, violated: given an argument it does not know, fble-perf-profile loops forever. -/
theorem C48_violated (e : Env) (s : St) (hst : stop s = false) (hub : s.ub = false) (as : List Arg)
    (hs : s.args = "report.txt".toList :: as) : ∀ fuel, loop e perfProfile fuel s = none := by
  have hun : ¬ Recognised perfProfile "report.txt".toList := by
    rintro ⟨p, hp, h⟩
    simp only [perfProfile, List.mem_cons, List.not_mem_nil, or_false] at hp
    rcases hp with rfl | rfl | rfl | rfl | rfl | rfl <;> exact absurd h (by decide)
  have hb := (body_unknown e hub hs hun).2 (by decide)
  intro fuel
  induction fuel with
  | zero => rw [loop]; simp [hst, hs]
  | succ fuel ih =>
    rw [loop]
    simp only [hst, hs, List.isEmpty_cons, Bool.or_self, Bool.false_eq_true, if_false, hb]
    exact ih

/-- The options of every program are spelled differently, so the theorems apply to all of them. -/
theorem C48_programs : ∀ g ∈ [compile, deps, disassemble, test, memTest, profilesTest, stdio, stdioLinked, app, appLinked,
    perfProfile], wf g = true ∧ (g = perfProfile ∨ g.endOfOptions = true ∨ .invalid ∈ g.lines) := by
  intro g hg
  simp only [List.mem_cons, List.not_mem_nil, or_false] at hg
  rcases hg with rfl | rfl | rfl | rfl | rfl | rfl | rfl | rfl | rfl | rfl | rfl <;>
    refine ⟨by decide +kernel, ?_⟩ <;> first | (left; rfl) | (right; left; rfl) | (right; right; decide)

/-- `fble-compile -c -I lib -Ifoo -m /M% -t c --compile`. -/
def items : List Item := [.flag "-c" "compile", .incl "lib".toList, .inclJoined 'f' "oo".toList,
  .module false "/M%".toList, .str "-t" "target_string" "c".toList, .flag "--compile" "compile"]

example : ∀ i ∈ items, i.Of compile := by
  intro i hi
  simp only [items, List.mem_cons, List.not_mem_nil, or_false] at hi
  rcases hi with rfl | rfl | rfl | rfl | rfl | rfl <;>
    simp [Item.Of, compile, helpVersion]

example (e : Env) (he : e.parse "/M%".toList = some ["M".toList]) (s : St) (h0 : stop s = false)
    (hm : s.module = none) (ht : s.strs "target_string" = none) :
    let r := effects e items s
    r.search = s.search ++ ["lib".toList, "foo".toList] ∧ r.module = some ["M".toList] ∧
      r.strs "target_string" = some "c".toList ∧ r.error = false := by
  have h1 : s.flags "help" = false ∧ s.flags "version" = false ∧ s.error = false := by
    simpa [stop, and_assoc] using h0
  simp only [items, effects, Item.effect, he]
  simp [stop, setAt, h1, hm, ht]

end Verif.Args
