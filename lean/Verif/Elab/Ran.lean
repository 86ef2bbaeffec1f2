import Verif.Elab.Frame
import Verif.Compile.Scoped
/-
What the parts of the type checker that go over lists have done when they succeed.
-/
namespace Verif.Elab
open Types
open Compile (Var Tc Tcs Flds Brs)

/-- Between the two states the expression was checked, with that result. -/
def Ran (rec : Rec) (s s' : S) (e : Expr) (r : Ptr × Tc) : Prop :=
  ∃ s1 s1', rec e s1 = .ok (s1', some r) ∧ Step s s1 ∧ Step s1' s'

section
variable {M : List Name} {n : Nat} {rec : Rec} {recT : RecT}

theorem Ran.mono {a b c d : S} {e : Expr} {r : Ptr × Tc} (h : Ran rec b c e r) (h1 : Step a b) (h2 : Step c d) : Ran rec a d e r := by
  obtain ⟨s1, s1', h3, h4, h5⟩ := h
  exact ⟨s1, s1', h3, h1.trans h4, h5.trans h2⟩

theorem Ran.of {s s' : S} {e : Expr} {r : Ptr × Tc} (h : rec e s = .ok (s', some r)) : Ran rec s s' e r :=
  ⟨s, s', h, .refl _, .refl _⟩

theorem tcEach_ran (hrec : ∀ e, Pres (rec e)) : (es : List Expr) → {s s' : S} → {rs : List (Option (Ptr × Tc))} → {xs : List (Ptr × Tc)} →
    tcEach rec es s = .ok (s', rs) → allSome rs = some xs → All2 (Ran rec s s') es xs
  | [], s, s', rs, xs, h, hx => by
    unfold tcEach at h
    obtain ⟨rfl, rfl⟩ := TM.pure_ok.mp h
    cases hx; exact .nil
  | e :: es, s, s', rs, xs, h, hx => by
    unfold tcEach at h
    obtain ⟨s1, r, h1, h⟩ := TM.bind_ok.mp h
    obtain ⟨s2, rs', h2, h⟩ := TM.bind_ok.mp h
    obtain ⟨rfl, rfl⟩ := TM.pure_ok.mp h
    cases r with
    | none => simp [allSome] at hx
    | some r =>
      simp only [allSome] at hx
      cases hq : allSome rs' with
      | none => rw [hq] at hx; simp at hx
      | some q =>
        rw [hq] at hx; simp at hx; subst hx
        have hp := tcEach_pres hrec es _ _ _ h2
        refine .cons ((Ran.of h1).mono (.refl _) hp) ?_
        exact (tcEach_ran hrec es h2 hq).mono fun _ _ h => h.mono (hrec e _ _ _ h1) (.refl _)

theorem tcEach_length : (es : List Expr) → {s s' : S} → {rs : List (Option (Ptr × Tc))} → tcEach rec es s = .ok (s', rs) → rs.length = es.length
  | [], s, s', rs, h => by
    unfold tcEach at h
    obtain ⟨rfl, rfl⟩ := TM.pure_ok.mp h
    rfl
  | e :: es, s, s', rs, h => by
    unfold tcEach at h
    obtain ⟨s1, r, h1, h⟩ := TM.bind_ok.mp h
    obtain ⟨s2, rs', h2, h⟩ := TM.bind_ok.mp h
    obtain ⟨rfl, rfl⟩ := TM.pure_ok.mp h
    simp [tcEach_length es h2]

theorem allSome_map : {rs : List (Option (Ptr × Tc))} → {xs : List (Ptr × Tc)} → allSome rs = some xs → rs = xs.map some
  | [], xs, h => by cases h; rfl
  | none :: _, xs, h => by simp [allSome] at h
  | some r :: rs, xs, h => by
    simp only [allSome] at h
    cases hq : allSome rs with
    | none => rw [hq] at h; simp at h
    | some q => rw [hq] at h; simp at h; subst h; rw [allSome_map hq]; rfl

theorem allSome_of_map : (xs : List (Ptr × Tc)) → allSome (xs.map some) = some xs
  | [] => rfl
  | x :: xs => by simp [allSome, allSome_of_map xs]

theorem tcEach_reverse_ran (hrec : ∀ e, Pres (rec e)) {es : List Expr} {s s' : S} {rs : List (Option (Ptr × Tc))} {xs : List (Ptr × Tc)}
    (h : tcEach rec es.reverse s = .ok (s', rs)) (hx : allSome rs.reverse = some xs) : All2 (Ran rec s s') es xs := by
  have h1 : rs = (xs.reverse).map some := by
    have := congrArg List.reverse (allSome_map hx)
    simpa using this
  have := (tcEach_ran hrec es.reverse (xs := xs.reverse) h (by rw [h1]; exact allSome_of_map _)).reverse
  simpa using this

/-! ### Select -/

/-- The branches for the fields of a union from field `i` on, and whether a field is left to the
default. -/
inductive Sel (hd : Bool) : Nat → List Name → List (Name × Tc) → List (Nat × Tc) → Bool → Prop
  | nil {i} : Sel hd i [] [] [] false
  | hit {i x fs tc cs bs u} : Sel hd (i + 1) fs cs bs u → Sel hd i (x :: fs) ((x, tc) :: cs) ((i, tc) :: bs) u
  | miss {i x fs cs bs u} : hd = true → (∀ y tc cs', cs = (y, tc) :: cs' → y ≠ x) → Sel hd (i + 1) fs cs bs u → Sel hd i (x :: fs) cs bs true

theorem selLoop_ran (hrec : ∀ e, Pres (rec e)) {hd : Bool} : (fs : List (Name × Ptr)) → (i : Nat) → (cs : List (Name × Expr)) → {rt : Option Ptr} → {s s' : S} → {q : SelRes} →
    selLoop n rec hd fs i cs rt s = .ok (s', q) → q.error = false →
    ∃ rs : List (Ptr × Tc), All2 (Ran rec s s') (cs.map (·.2)) rs ∧ Sel hd i (fs.map (·.1)) ((cs.map (·.1)).zip (rs.map (·.2))) q.branches q.defaultUsed
  | [], i, cs, rt, s, s', q, h, he => by
    unfold selLoop at h
    obtain ⟨rfl, rfl⟩ := TM.pure_ok.mp h
    cases cs with
    | nil => exact ⟨[], .nil, .nil⟩
    | cons _ _ => simp at he
  | (x, ft) :: fs, i, (y, e) :: cs, rt, s, s', q, h, he => by
    unfold selLoop at h
    split at h
    · rename_i hn
      have hn := namesEqual_iff.mp hn
      subst hn
      obtain ⟨s1, r, h1, h⟩ := TM.bind_ok.mp h
      have hp1 := hrec e _ _ _ h1
      cases r with
      | none =>
        obtain ⟨s2, q2, h2, h⟩ := TM.bind_ok.mp h
        obtain ⟨_, rfl⟩ := TM.pure_ok.mp h
        simp at he
      | some r =>
        obtain ⟨t, tc⟩ := r
        cases rt with
        | none =>
          obtain ⟨s2, q2, h2, h⟩ := TM.bind_ok.mp h
          obtain ⟨rfl, rfl⟩ := TM.pure_ok.mp h
          obtain ⟨rs, h3, h4⟩ := selLoop_ran hrec fs (i + 1) cs h2 he
          have hp2 := selLoop_pres hrec hd fs (i + 1) cs _ _ _ _ h2
          exact ⟨(t, tc) :: rs, .cons ((Ran.of h1).mono (.refl _) hp2) (h3.mono fun _ _ h => h.mono hp1 (.refl _)), .hit h4⟩
        | some rt =>
          obtain ⟨s2, eq, h2, g⟩ := TM.bind_ok.mp h
          obtain ⟨rfl, _⟩ := TM.readH_ok.mp h2
          obtain ⟨s3, q2, h3, h⟩ := TM.bind_ok.mp g
          obtain ⟨rfl, rfl⟩ := TM.pure_ok.mp h
          simp only [Bool.or_eq_false_iff] at he
          obtain ⟨rs, h4, h5⟩ := selLoop_ran hrec fs (i + 1) cs h3 he.1
          have hp2 := selLoop_pres hrec hd fs (i + 1) cs _ _ _ _ h3
          exact ⟨(t, tc) :: rs, .cons ((Ran.of h1).mono (.refl _) hp2) (h4.mono fun _ _ h => h.mono hp1 (.refl _)), .hit h5⟩
    · rename_i hn
      obtain ⟨s2, q2, h2, h⟩ := TM.bind_ok.mp h
      obtain ⟨rfl, rfl⟩ := TM.pure_ok.mp h
      cases hd with
      | false => simp at he
      | true =>
        obtain ⟨rs, h3, h4⟩ := selLoop_ran hrec fs (i + 1) _ h2 he
        refine ⟨rs, h3, .miss rfl ?_ h4⟩
        intro z tc cs' hz hzx
        cases rs with
        | nil => simp at hz
        | cons r rs =>
          simp at hz
          exact hn (namesEqual_iff.mpr (hz.1.1.trans hzx))
  | (x, ft) :: fs, i, [], rt, s, s', q, h, he => by
    unfold selLoop at h
    obtain ⟨s2, q2, h2, h⟩ := TM.bind_ok.mp h
    obtain ⟨rfl, rfl⟩ := TM.pure_ok.mp h
    cases hd with
    | false => simp at he
    | true =>
      obtain ⟨rs, h3, h4⟩ := selLoop_ran hrec fs (i + 1) _ h2 he
      exact ⟨rs, h3, .miss rfl (by intro z tc cs' hz; simp at hz) h4⟩

/-- Do the names occur once each? -/
theorem dupNames_cons {x : Name} {xs : List Name} : dupNames (x :: xs) = false ↔ x ∉ xs ∧ dupNames xs = false := by
  simp only [dupNames, Bool.or_eq_false_iff, List.any_eq_false, namesEqual_iff]
  constructor
  · rintro ⟨h1, h2⟩; exact ⟨fun h => h1 x h rfl, h2⟩
  · rintro ⟨h1, h2⟩; exact ⟨fun y hy e => h1 (e ▸ hy), h2⟩

theorem Sel.names {hd i fs cs bs u} (h : Sel hd i fs cs bs u) : (cs.map (·.1)).Sublist fs := by
  induction h with
  | nil => exact .slnil
  | hit _ ih => exact .cons_cons _ ih
  | miss _ _ _ ih => exact .cons _ ih

theorem Sel.branches_length {hd i fs cs bs u} (h : Sel hd i fs cs bs u) : bs.length = cs.length ∧ (u = false → bs.length = fs.length) := by
  induction h with
  | nil => exact ⟨rfl, fun _ => rfl⟩
  | hit _ ih => exact ⟨by simp [ih.1], fun h => by simp [ih.2 h]⟩
  | miss _ _ _ ih => exact ⟨ih.1, fun h => by cases h⟩

theorem Sel.find_lt {hd i fs cs bs u} (h : Sel hd i fs cs bs u) {k : Nat} (hk : k < i) : (toBrs bs).find k = none := by
  induction h with
  | nil => rfl
  | hit _ ih =>
    simp only [toBrs, Brs.find]
    rw [if_neg (by omega)]; exact ih (by omega)
  | miss _ _ _ ih => exact ih (by omega)

theorem Sel.sorted {hd i fs cs bs u} (h : Sel hd i fs cs bs u) : (toBrs bs).sortedFrom i := by
  have mono : ∀ (bs : Brs) {lo lo' : Nat}, lo' ≤ lo → bs.sortedFrom lo → bs.sortedFrom lo' := by
    intro bs
    cases bs with
    | nil => intros; trivial
    | cons t _ bs => intro lo lo' hl h; exact ⟨by have := h.1; omega, h.2⟩
  induction h with
  | nil => trivial
  | hit _ ih => exact ⟨Nat.le_refl _, ih⟩
  | miss _ _ _ ih => exact mono _ (Nat.le_succ _) ih

theorem tagsBelow_mono {n m : Nat} (hl : n ≤ m) : (bs : Brs) → bs.tagsBelow n → bs.tagsBelow m
  | .nil, _ => trivial
  | .cons _ _ bs, h => ⟨Nat.lt_of_lt_of_le h.1 hl, tagsBelow_mono hl bs h.2⟩

theorem Sel.tagsBelow {hd i fs cs bs u} (h : Sel hd i fs cs bs u) : (toBrs bs).tagsBelow (i + fs.length) := by
  induction h with
  | nil => trivial
  | hit _ ih => exact ⟨by simp, tagsBelow_mono (by simp; omega) _ ih⟩
  | miss _ _ _ ih => exact tagsBelow_mono (by simp; omega) _ ih

/-- The branch of a name among named choices. -/
def choice {α : Type} (cs : List (Name × α)) (x : Name) : Option α := (cs.find? fun c => decide (c.1 = x)).map (·.2)

theorem choice_cons {α : Type} {y x : Name} {a : α} {cs : List (Name × α)} : choice ((y, a) :: cs) x = if y = x then some a else choice cs x := by
  simp only [choice, List.find?_cons]
  by_cases h : y = x <;> simp [h]

theorem choice_none {α : Type} {x : Name} : {cs : List (Name × α)} → x ∉ cs.map (·.1) → choice cs x = none
  | [], _ => rfl
  | (y, a) :: cs, h => by
    simp only [List.map_cons, List.mem_cons, not_or] at h
    rw [choice_cons, if_neg (fun e => h.1 e.symm)]; exact choice_none h.2

/-- The table sends each tag to the branch of the field of that tag. -/
theorem Sel.find {hd i fs cs bs u} (h : Sel hd i fs cs bs u) (hnd : dupNames fs = false) {k : Nat} {x : Name} (hk : fs[k]? = some x) :
    (toBrs bs).find (i + k) = choice cs x ∧ (choice cs x = none → hd = true ∧ u = true) := by
  induction h generalizing k with
  | nil => simp at hk
  | @hit i y fs tc cs bs u h ih =>
    rw [dupNames_cons] at hnd
    rw [choice_cons]
    simp only [toBrs, Brs.find]
    cases k with
    | zero => simp at hk; subst hk; simp
    | succ k =>
      simp at hk
      have hne : y ≠ x := fun e => hnd.1 (e ▸ List.mem_of_getElem? hk)
      rw [if_neg (by omega), if_neg hne]
      have := ih hnd.2 hk
      rw [show i + (k + 1) = i + 1 + k by omega]; exact this
  | @miss i y fs cs bs u hh hne h ih =>
    rw [dupNames_cons] at hnd
    cases k with
    | zero =>
      simp at hk; subst hk
      have : y ∉ cs.map (·.1) := fun hm => hnd.1 (h.names.subset hm)
      rw [choice_none this]
      exact ⟨h.find_lt (by omega), fun _ => ⟨hh, rfl⟩⟩
    | succ k =>
      simp at hk
      have := ih hnd.2 hk
      rw [show i + (k + 1) = i + 1 + k by omega]; exact ⟨this.1, fun hc => ⟨hh, rfl⟩⟩

/-- If no field is left to the default, the last branch may serve as the default. -/
theorem Sel.last {hd i fs cs bs} (h : Sel hd i fs cs bs false) (hnd : dupNames fs = false) {last : Nat × Tc} (hl : bs.getLast? = some last) {k : Nat} {x : Name} (hk : fs[k]? = some x) :
    choice cs x = some (((toBrs bs.dropLast).find (i + k)).getD last.2) := by
  generalize hu : false = u at h
  induction h generalizing k with
  | nil => simp at hk
  | @hit i y fs tc cs bs u h ih =>
    rw [dupNames_cons] at hnd
    cases bs with
    | nil =>
      cases h with
      | nil =>
        cases k with
        | zero =>
          simp at hk hl; subst hk; subst hl
          simp [toBrs, choice_cons, Brs.find]
        | succ k => simp at hk
      | miss => cases hu
    | cons b bs =>
      rw [List.getLast?_cons_cons] at hl
      simp only [List.dropLast_cons_cons, toBrs, Brs.find]
      rw [choice_cons]
      cases k with
      | zero => simp at hk; subst hk; simp
      | succ k =>
        simp at hk
        have hne : y ≠ x := fun e => hnd.1 (e ▸ List.mem_of_getElem? hk)
        rw [if_neg hne, if_neg (by omega)]
        have := ih hnd.2 hl hk hu
        rw [show i + (k + 1) = i + 1 + k by omega]; exact this
  | miss => cases hu

/-! ### Copy -/

/-- Where the fields of a struct come from. -/
inductive Cpy : List Name → List (Name × Tc) → Flds → Prop
  | nil : Cpy [] [] .nil
  | keep {x fs cs fl} : (∀ y tc cs', cs = (y, tc) :: cs' → y ≠ x) → Cpy fs cs fl → Cpy (x :: fs) cs (.keep fl)
  | set {x fs tc cs fl} : Cpy fs cs fl → Cpy (x :: fs) ((x, tc) :: cs) (.set tc fl)

theorem copyLoop_cpy : (fs : List (Name × Ptr)) → (xs : List Name) → (rs : List (Ptr × Tc)) → {s s' : S} → {fl : Flds} →
    copyLoop n fs (xs.zip (rs.map some)) s = .ok (s', (fl, true)) → Cpy (fs.map (·.1)) (xs.zip (rs.map (·.2))) fl
  | [], xs, rs, s, s', fl, h => by
    unfold copyLoop at h
    obtain ⟨_, h⟩ := TM.pure_ok.mp h
    cases xs with
    | nil => cases h; simp; exact .nil
    | cons x xs => cases rs with
      | nil => cases h; simp; exact .nil
      | cons r rs => simp at h
  | (x, ft) :: fs, y :: ys, (t, tc) :: rs, s, s', fl, h => by
    unfold copyLoop at h
    simp only [List.map_cons, List.zip_cons_cons] at h ⊢
    split at h
    · rename_i hn
      have hn := namesEqual_iff.mp hn
      subst hn
      obtain ⟨s1, eq, h1, h⟩ := TM.bind_ok.mp h
      obtain ⟨s2, ⟨fl2, ok⟩, h2, h⟩ := TM.bind_ok.mp h
      obtain ⟨_, h⟩ := TM.pure_ok.mp h
      simp at h
      obtain ⟨rfl, rfl, rfl⟩ := h
      exact .set (copyLoop_cpy fs ys rs h2)
    · rename_i hn
      obtain ⟨s2, ⟨fl2, ok⟩, h2, h⟩ := TM.bind_ok.mp h
      obtain ⟨_, h⟩ := TM.pure_ok.mp h
      simp at h
      obtain ⟨rfl, rfl⟩ := h
      refine .keep ?_ (copyLoop_cpy fs (y :: ys) ((t, tc) :: rs) (by simpa using h2))
      intro z _ _ hz hzx
      simp at hz
      exact hn (namesEqual_iff.mpr (hz.1.1.trans hzx))
  | (x, ft) :: fs, [], rs, s, s', fl, h => by
    simp only [List.zip_nil_left] at h ⊢
    unfold copyLoop at h
    obtain ⟨s2, ⟨fl2, ok⟩, h2, h⟩ := TM.bind_ok.mp h
    obtain ⟨_, h⟩ := TM.pure_ok.mp h
    simp at h
    obtain ⟨rfl, rfl⟩ := h
    have := copyLoop_cpy fs [] rs (by simpa using h2)
    exact .keep (by intro z _ _ hz; simp at hz) (by simpa using this)
  | (x, ft) :: fs, y :: ys, [], s, s', fl, h => by
    simp only [List.map_nil, List.zip_nil_right] at h ⊢
    unfold copyLoop at h
    obtain ⟨s2, ⟨fl2, ok⟩, h2, h⟩ := TM.bind_ok.mp h
    obtain ⟨_, h⟩ := TM.pure_ok.mp h
    simp at h
    obtain ⟨rfl, rfl⟩ := h
    have := copyLoop_cpy fs [] [] (by simpa using h2)
    exact .keep (by intro z _ _ hz; simp at hz) (by simpa using this)

theorem Cpy.names {fs cs fl} (h : Cpy fs cs fl) : (cs.map (·.1)).Sublist fs := by
  induction h with
  | nil => exact .slnil
  | set _ ih => exact .cons_cons _ ih
  | keep _ _ ih => exact .cons _ ih

/-- Where a field of a struct copy is taken from: its position in the source or an expression. -/
def fldAt : Flds → Nat → Option (Option Tc)
  | .nil, _ => none
  | .keep _, 0 => some none
  | .set t _, 0 => some (some t)
  | .keep fs, i + 1 => fldAt fs i
  | .set _ fs, i + 1 => fldAt fs i

/-- Each field comes from the argument of its name, if there is one. -/
theorem Cpy.find {fs cs fl} (h : Cpy fs cs fl) (hnd : dupNames fs = false) {k : Nat} {x : Name} (hk : fs[k]? = some x) : fldAt fl k = some (choice cs x) := by
  induction h generalizing k with
  | nil => simp at hk
  | @set y fs tc cs fl h ih =>
    rw [dupNames_cons] at hnd
    rw [choice_cons]
    cases k with
    | zero => simp at hk; subst hk; simp [fldAt]
    | succ k =>
      simp at hk
      have hne : y ≠ x := fun e => hnd.1 (e ▸ List.mem_of_getElem? hk)
      rw [if_neg hne]
      exact ih hnd.2 hk
  | @keep y fs cs fl hne h ih =>
    rw [dupNames_cons] at hnd
    cases k with
    | zero =>
      simp at hk; subst hk
      rw [choice_none (fun hm => hnd.1 (h.names.subset hm))]; rfl
    | succ k => simp at hk; exact ih hnd.2 hk

theorem Cpy.length {fs cs fl} (h : Cpy fs cs fl) (k : Nat) : fldAt fl k = none ↔ fs.length ≤ k := by
  induction h generalizing k with
  | nil => simp [fldAt]
  | set _ ih => cases k <;> simp [fldAt, ih]
  | keep _ _ ih => cases k <;> simp [fldAt, ih]

/-! ### Let -/

theorem bindDefs_ran (hrec : ∀ e, Pres (rec e)) : (bs : List Binding) → (ts : List Ptr) → ts.length = bs.length → {s s' : S} → {ds : List (Ptr × Tc)} →
    bindDefs n rec bs ts s = .ok (s', some ds) → All2 (Ran rec s s') (bs.map (·.expr)) ds
  | [], [], _, s, s', ds, h => by
    unfold bindDefs at h
    obtain ⟨rfl, h⟩ := TM.pure_ok.mp h
    cases h; exact .nil
  | b :: bs, t :: ts, hl, s, s', ds, h => by
    unfold bindDefs at h
    obtain ⟨s1, r, h1, h⟩ := TM.bind_ok.mp h
    have hp1 := hrec _ _ _ _ h1
    cases r with
    | none => cases (TM.pure_ok.mp h).2
    | some r =>
      obtain ⟨dt, tc⟩ := r
      obtain ⟨s2, ok, h2, h⟩ := TM.bind_ok.mp h
      have hs2 : s2 = s1 := by
        cases hann : b.ann with
        | inr _ => rw [hann] at h2; exact (TM.readH_ok.mp h2).1
        | inl k =>
          rw [hann] at h2
          obtain ⟨s3, k, h3, h4⟩ := TM.bind_ok.mp h2
          exact (TM.pure_ok.mp h4).1.trans (TM.readH_ok.mp h3).1
      subst hs2
      cases ok with
      | false => cases (TM.pure_ok.mp h).2
      | true =>
      · obtain ⟨s3, q, h3, h⟩ := TM.bind_ok.mp h
        have hp3 := bindDefs_pres hrec bs ts _ _ _ h3
        cases q with
        | none => cases (TM.pure_ok.mp h).2
        | some q =>
          obtain ⟨rfl, h⟩ := TM.pure_ok.mp h
          cases h
          exact .cons ((Ran.of h1).mono (.refl _) hp3) ((bindDefs_ran hrec bs ts (by simpa using hl) h3).mono fun _ _ h => h.mono hp1 (.refl _))

/-! ### Fields -/

theorem findField_some {x : Name} : {fs : List (Name × Ptr)} → {i tag : Nat} → {t : Ptr} → findField x fs i = some (tag, t) →
    ∃ k, tag = i + k ∧ fs[k]? = some (x, t) ∧ ∀ j < k, ∀ y u, fs[j]? = some (y, u) → y ≠ x
  | [], _, _, _, h => by simp [findField] at h
  | (y, u) :: fs, i, tag, t, h => by
    simp only [findField] at h
    split at h
    · rename_i hn
      simp at h
      have := namesEqual_iff.mp hn
      subst this
      exact ⟨0, by simp [h.1], by simp [h.2], by simp⟩
    · rename_i hn
      obtain ⟨k, h1, h2, h3⟩ := findField_some h
      refine ⟨k + 1, by omega, by simpa using h2, ?_⟩
      intro j hj z u' hz
      cases j with
      | zero => simp at hz; exact fun e => hn (namesEqual_iff.mpr (hz.1.trans e))
      | succ j => exact h3 j (by omega) z u' (by simpa using hz)

theorem findField_none {x : Name} : {fs : List (Name × Ptr)} → {i : Nat} → findField x fs i = none → x ∉ fs.map (·.1)
  | [], _, _ => by simp
  | (y, u) :: fs, i, h => by
    simp only [findField] at h
    split at h
    · cases h
    · rename_i hn
      simp only [List.map_cons, List.mem_cons, not_or]
      exact ⟨fun e => hn (namesEqual_iff.mpr e.symm), findField_none h⟩

end
end Verif.Elab
