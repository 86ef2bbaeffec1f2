import Verif.Refs.Model
/- Property theorem C08. -/
namespace Verif.Refs
open Verif.Pack

theorem Unwrap.det {h : Heap} {v a b : Word} (h1 : Unwrap h v a) (h2 : Unwrap h v b) : a = b := by
  induction h1 with
  | packed hp =>
    cases h2 with
    | packed => rfl
    | obj => rfl
    | unassigned => rfl
    | step h => rw [hp] at h; cases h
  | obj hp hh hr =>
    cases h2 with
    | packed => rfl
    | obj => rfl
    | unassigned => rfl
    | step _ h => rw [hh] at h; cases h; exact absurd rfl (hr _)
  | unassigned hp hh =>
    cases h2 with
    | packed => rfl
    | obj => rfl
    | unassigned => rfl
    | step _ h => rw [hh] at h; cases h
  | step hp hh _ ih =>
    cases h2 with
    | packed h => rw [hp] at h; cases h
    | obj _ h hr => rw [hh] at h; cases h; exact absurd rfl (hr _)
    | unassigned _ h => rw [hh] at h; cases h
    | step _ h h' => rw [hh] at h; cases h; exact ih h'

theorem Unwrap.leads {h : Heap} {v u : Word} (h1 : Unwrap h v u) : Leads h v u := by
  induction h1 with
  | packed => exact .refl
  | obj => exact .refl
  | unassigned => exact .refl
  | step hp hh _ ih => exact .step hp hh ih

/-- The end of an unwrap is not an assigned reference. -/
theorem Unwrap.stop {h : Heap} {v u : Word} (h1 : Unwrap h v u) : Unwrap h u u := by
  induction h1 with
  | packed h => exact .packed h
  | obj a b c => exact .obj a b c
  | unassigned a b => exact .unassigned a b
  | step _ _ _ ih => exact ih

theorem Unwrap.strict {h : Heap} {v u : Word} (h1 : Unwrap h v u) : ∃ o, Strict h v o := by
  induction h1 with
  | packed h => exact ⟨_, .packed h⟩
  | obj a b c => exact ⟨_, .obj a b c⟩
  | unassigned a b => exact ⟨_, .unassigned a b⟩
  | step a b _ ih => obtain ⟨o, ho⟩ := ih; exact ⟨o, .step a b ho⟩

/-- Invariant of all histories. -/
structure Inv (h : Heap) : Prop where
  closed : ∀ a v, isPacked a = false → h a = some (.ref (some v)) → Valid h v
  ends : ∀ w, Valid h w → ∃ u, Unwrap h w u

theorem Valid.set {h : Heap} {a w : Word} {o : Obj} (hv : Valid h w) : Valid (h.set a o) w := by
  rcases hv with h1 | ⟨p, h1, h2⟩
  · exact .inl h1
  · right
    by_cases hw : w = a
    · exact ⟨o, h1, by simp [Heap.set, hw]⟩
    · exact ⟨p, h1, by simp [Heap.set, hw, h2]⟩

theorem Unwrap.valid {h : Heap} {v u : Word} (h1 : Unwrap h v u) : Valid h u := by
  induction h1 with
  | packed h => exact .inl h
  | obj a b _ => exact .inr ⟨_, a, b⟩
  | unassigned a b => exact .inr ⟨_, a, b⟩
  | step _ _ _ ih => exact ih

theorem Unwrap.alloc {h : Heap} {a v u : Word} {o : Obj} (hf : h a = none) (h1 : Unwrap h v u) :
    Unwrap (h.set a o) v u := by
  have key : ∀ w p, h w = some p → (h.set a o) w = some p := fun w p hw => Heap.le_set hf w p hw
  induction h1 with
  | packed h => exact .packed h
  | obj x y z => exact .obj x (key _ _ y) z
  | unassigned x y => exact .unassigned x (key _ _ y)
  | step x y _ ih => exact .step x (key _ _ y) ih

/-- The last element of a chain is never an assigned reference. -/
theorem Unwrap.end_not_assigned {h : Heap} {v u : Word} (hu : Unwrap h v u)
    (hp : isPacked u = false) (r : Word) : h u ≠ some (.ref (some r)) := by
  induction hu with
  | packed p => rw [p] at hp; cases hp
  | obj _ p q => intro hr; rw [p] at hr; cases hr; exact q _ rfl
  | unassigned _ p => intro hr; rw [p] at hr; cases hr
  | step _ _ _ ih => exact ih hp

/-- Where a chain ends after an assignment. -/
theorem Unwrap.assign {h : Heap} {ref t v u : Word} (h1 : Unwrap h v u) (ht : Unwrap h t t)
    (hne : t ≠ ref) (hp : isPacked ref = false) :
    ∃ u', Unwrap (h.set ref (.ref (some t))) v u' ∧
      ((Leads h v ref ∧ u' = t) ∨ (¬ Leads h v ref ∧ u' = u)) := by
  have htt : Unwrap (h.set ref (.ref (some t))) t t := by
    cases ht with
    | packed a => exact .packed a
    | obj a b c => exact .obj a (by simpa [Heap.set, hne] using b) c
    | unassigned a b => exact .unassigned a (by simpa [Heap.set, hne] using b)
    | step a b c => exact absurd b (c.end_not_assigned a _)
  have href : Unwrap (h.set ref (.ref (some t))) ref t := .step hp (by simp [Heap.set]) htt
  induction h1 with
  | @packed v a =>
    by_cases hv : v = ref
    · subst hv; rw [hp] at a; cases a
    · refine ⟨v, .packed a, .inr ⟨?_, rfl⟩⟩
      intro hl
      cases hl with
      | refl => exact hv rfl
      | step b => rw [a] at b; cases b
  | @obj v o a b c =>
    by_cases hv : v = ref
    · subst hv; exact ⟨t, href, .inl ⟨.refl, rfl⟩⟩
    · refine ⟨v, .obj a (by simpa [Heap.set, hv] using b) c, .inr ⟨?_, rfl⟩⟩
      intro hl
      cases hl with
      | refl => exact hv rfl
      | step _ b' => rw [b] at b'; cases b'; exact c _ rfl
  | @unassigned v a b =>
    by_cases hv : v = ref
    · subst hv; exact ⟨t, href, .inl ⟨.refl, rfl⟩⟩
    · refine ⟨v, .unassigned a (by simpa [Heap.set, hv] using b), .inr ⟨?_, rfl⟩⟩
      intro hl
      cases hl with
      | refl => exact hv rfl
      | step _ b' => rw [b] at b'; cases b'
  | @step v w u a b _ ih =>
    by_cases hv : v = ref
    · subst hv; exact ⟨t, href, .inl ⟨.refl, rfl⟩⟩
    · obtain ⟨u', h2, h3⟩ := ih
      refine ⟨u', .step a (by simpa [Heap.set, hv] using b) h2, ?_⟩
      rcases h3 with ⟨h3, h4⟩ | ⟨h3, h4⟩
      · exact .inl ⟨.step a b h3, h4⟩
      · refine .inr ⟨fun hl => ?_, h4⟩
        cases hl with
        | refl => exact hv rfl
        | step _ b' hl' => rw [b] at b'; cases b'; exact h3 hl'

theorem Hist.inv {h : Heap} (hh : Hist h) : Inv h := by
  induction hh with
  | empty =>
    refine ⟨by simp, fun w hv => ?_⟩
    rcases hv with h1 | ⟨o, _, h2⟩
    · exact ⟨w, .packed h1⟩
    · cases h2
  | @alloc h a o _ hf ho ih =>
    constructor
    · intro x v hx hr
      by_cases hxa : x = a
      · subst hxa; simp [Heap.set] at hr; exact absurd hr (ho v)
      · simp [Heap.set, hxa] at hr; exact (ih.closed x v hx hr).set
    · intro w hv
      by_cases hwa : w = a
      · subst hwa
        cases o with
        | ref r =>
          cases r with
          | none => exact ⟨w, .unassigned hf.even (by simp [Heap.set])⟩
          | some r => exact absurd rfl (ho r)
        | struct fs => exact ⟨w, .obj hf.even (o := .struct fs) (by simp [Heap.set]) (by simp)⟩
        | union t x => exact ⟨w, .obj hf.even (o := .union t x) (by simp [Heap.set]) (by simp)⟩
        | «opaque» i => exact ⟨w, .obj hf.even (o := .opaque i) (by simp [Heap.set]) (by simp)⟩
      · have : Valid h w := by
          rcases hv with h1 | ⟨p, h1, h2⟩
          · exact .inl h1
          · exact .inr ⟨p, h1, by simpa [Heap.set, hwa] using h2⟩
        obtain ⟨u, hu⟩ := ih.ends w this
        exact ⟨u, hu.alloc hf.unused⟩
  | @assign h ref v h' _ hv has ih =>
    cases has with
    | @ok u hu hne hp hr =>
    obtain ⟨r, hr⟩ := hr
    have hval : ∀ w, Valid (h.set ref (.ref (some u))) w → Valid h w := by
      rintro w (h1 | ⟨p, h1, h2⟩)
      · exact .inl h1
      · by_cases hw : w = ref
        · subst hw; exact .inr ⟨_, h1, hr⟩
        · exact .inr ⟨p, h1, by simpa [Heap.set, hw] using h2⟩
    constructor
    · intro x y hx hxy
      by_cases hxr : x = ref
      · subst hxr; simp [Heap.set] at hxy; subst hxy; exact hu.valid.set
      · simp [Heap.set, hxr] at hxy; exact (ih.closed x y hx hxy).set
    · intro w hw
      obtain ⟨x, hx⟩ := ih.ends w (hval w hw)
      obtain ⟨u', h3, _⟩ := hx.assign hu.stop hne hp
      exact ⟨u', h3⟩

/-- C08 (reads terminate). After any history, following references from any value a client may
hold terminates, at exactly one result: a non reference, or NULL for an unassigned reference. -/
theorem C08_reads_terminate {h : Heap} (hh : Hist h) {w : Word} (hw : Valid h w) :
    ∃ o, Strict h w o ∧ ∀ o', Strict h w o' → o' = o := by
  obtain ⟨u, hu⟩ := hh.inv.ends w hw
  obtain ⟨o, ho⟩ := hu.strict
  exact ⟨o, ho, fun o' h' => h'.det ho⟩

/-- C08 (assignment decides). After any history, assigning a value to a reference that has no
value yet terminates with exactly one answer; it is refused exactly when the value leads, through
assigned references, to the reference itself. -/
theorem C08_assign_exact {h : Heap} (hh : Hist h) {ref v : Word} (hv : Valid h v)
    (hp : isPacked ref = false) (hr : h ref = some (.ref none)) :
    (∃ b h', Assign h ref v b h') ∧
    ∀ b h', Assign h ref v b h' → (b = false ↔ Leads h v ref) := by
  obtain ⟨u, hu⟩ := hh.inv.ends v hv
  have hl : Leads h v ref ↔ u = ref := by
    constructor
    · intro hl
      have : Unwrap h v ref := by
        clear hu
        induction hl with
        | refl => exact .unassigned hp hr
        | @step v w _ a b _ ih => exact .step a b (ih (hh.inv.closed _ _ a b) hp hr)
      exact hu.det this
    · rintro rfl; exact hu.leads
  constructor
  · by_cases h1 : u = ref
    · subst h1; exact ⟨false, h, .vacuous hu⟩
    · exact ⟨true, _, .ok hu h1 hp ⟨_, hr⟩⟩
  · intro b h' ha
    cases ha with
    | vacuous h1 => simp [hl, hu.det h1]
    | ok h1 h2 => simp [hl, hu.det h1, h2]

/-- C08 (what an assignment does). After a successful assignment the reference reads as the
value does, so does everything that led to the reference, and everything else is unchanged. -/
theorem C08_assign_effect {h h' : Heap} (hh : Hist h) {ref v w : Word} 
    (hw : Valid h w) (ha : Assign h ref v true h') :
    (Leads h w ref → ∀ o, Strict h' w o ↔ Strict h' v o) ∧
    (¬ Leads h w ref → ∀ o, Strict h w o ↔ Strict h' w o) := by
  cases ha with
  | @ok u hu hne hp hr =>
  have trans : ∀ {g : Heap} {x y : Word}, Unwrap g x y → ∀ o, Strict g x o ↔ Strict g y o := by
    intro g x y hxy
    induction hxy with
    | packed => exact fun o => Iff.rfl
    | obj => exact fun o => Iff.rfl
    | unassigned => exact fun o => Iff.rfl
    | step a b _ ih =>
      intro o
      rw [← ih o]
      constructor
      · intro hs
        cases hs with
        | packed c => rw [a] at c; cases c
        | obj _ c d => rw [b] at c; cases c; exact absurd rfl (d _)
        | unassigned _ c => rw [b] at c; cases c
        | step _ c d => rw [b] at c; cases c; exact d
      · exact fun hs => .step a b hs
  obtain ⟨x, hx⟩ := hh.inv.ends w hw
  obtain ⟨x', h1, h2⟩ := hx.assign hu.stop hne hp
  obtain ⟨v', h3, h4⟩ := hu.assign hu.stop hne hp
  have hv' : v' = u := by rcases h4 with ⟨_, h⟩ | ⟨_, h⟩ <;> exact h
  subst hv'
  constructor
  · intro hl o
    rcases h2 with ⟨_, h⟩ | ⟨h, _⟩
    · subst h; rw [trans h1, trans h3]
    · exact absurd hl h
  · intro hl o
    rcases h2 with ⟨h, _⟩ | ⟨_, h⟩
    · exact absurd h hl
    · subst h
      rw [trans h1, trans hx]
      -- at the (common) end of the chain, which is not `ref`
      have hxr : x' ≠ ref := by
        rintro rfl; exact hl hx.leads
      have hs := hx.stop
      cases hs with
      | packed c =>
        constructor
        · intro h; have := h.det (.packed c); subst this; exact .packed c
        · intro h; have := h.det (.packed c); subst this; exact .packed c
      | @obj _ oo a b c =>
        have b' : (h.set ref (.ref (some v'))) x' = some oo := by simpa [Heap.set, hxr] using b
        constructor
        · intro h; have := h.det (.obj a b c); subst this; exact .obj a b' c
        · intro h; have := h.det (.obj a b' c); subst this; exact .obj a b c
      | unassigned a b =>
        have b' : (h.set ref (.ref (some v'))) x' = some (.ref none) := by simpa [Heap.set, hxr] using b
        constructor
        · intro h; have := h.det (.unassigned a b); subst this; exact .unassigned a b'
        · intro h; have := h.det (.unassigned a b'); subst this; exact .unassigned a b
      | step a b c => exact absurd b (c.end_not_assigned a _)

/-- Hypotheses are met: a history with two references, the first assigned to the second; then
assigning the first to the second is refused, although neither is the other. -/
example : ∃ h : Heap, Hist h ∧ Valid h 8#64 ∧ h 16#64 = some (.ref none) ∧ Leads h 8#64 16#64 ∧
    (8#64 : Word) ≠ 16#64 ∧ Assign h 16#64 8#64 false h := by
  let h1 : Heap := Heap.set (fun _ => none) 8#64 (.ref none)
  let h2 : Heap := h1.set 16#64 (.ref none)
  have e1 : h2 16#64 = some (.ref none) := by decide
  have e2 : h2 8#64 = some (.ref none) := by decide
  have H2 : Hist h2 := .alloc (.alloc .empty ⟨by decide, by decide, by decide, rfl⟩ (by simp))
    ⟨by decide, by decide, by decide, by decide⟩ (by simp)
  have a : Assign h2 8#64 16#64 true (h2.set 8#64 (.ref (some 16#64))) :=
    .ok (.unassigned (by decide) e1) (by decide) (by decide) ⟨_, e2⟩
  refine ⟨_, .assign H2 (.inr ⟨_, by decide, e1⟩) a, .inr ⟨.ref (some 16#64), by decide, by decide⟩,
    by decide, .step (by decide) (by decide) .refl, by decide,
    .vacuous (.step (w := 16#64) (by decide) (by decide) (.unassigned (by decide) (by decide)))⟩

end Verif.Refs
