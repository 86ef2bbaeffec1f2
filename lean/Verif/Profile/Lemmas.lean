import Verif.Profile.Spec
import Mathlib.Tactic.Common
namespace Verif.Profile

@[simp] theorem upd_same {β : Type} (f : Nat → β) (a : Nat) (b : β) : upd f a b a = b := by simp [upd]

theorem upd_ne {β : Type} (f : Nat → β) {a x : Nat} (b : β) (h : x ≠ a) : upd f a b x = f x := by
  simp [upd, h]

/-! ### Binary search and insertion -/

theorem search_spec {ids : List Nat} (hs : ids.Pairwise (· < ·)) (callee : Nat) :
    ∀ (fuel lo hi : Nat), hi - lo ≤ fuel → lo ≤ hi → hi ≤ ids.length →
      (∀ i (h : i < ids.length), i < lo → ids[i] < callee) →
      (∀ i (h : i < ids.length), hi ≤ i → callee < ids[i]) →
      (∃ (i : Nat) (h : i < ids.length), search ids callee fuel lo hi = .inl i ∧ ids[i] = callee) ∨
      (∃ p, search ids callee fuel lo hi = .inr p ∧ p ≤ ids.length ∧
        (∀ i (h : i < ids.length), i < p → ids[i] < callee) ∧
        (∀ i (h : i < ids.length), p ≤ i → callee < ids[i])) := by
  intro fuel
  induction fuel with
  | zero =>
    intro lo hi hf hl hh h1 h2
    exact .inr ⟨lo, rfl, by omega, h1, fun i h hi => h2 i h (by omega)⟩
  | succ fuel ih =>
    intro lo hi hf hl hh h1 h2
    have mono : ∀ i j (hi : i < ids.length) (hj : j < ids.length), i < j → ids[i] < ids[j] :=
      fun i j hi hj hij => List.pairwise_iff_getElem.mp hs i j hi hj hij
    unfold search
    by_cases hlt : lo < hi
    · simp only [hlt, if_true]
      have hm : (lo + hi) / 2 < ids.length := by omega
      have hg : ids.getD ((lo + hi) / 2) 0 = ids[(lo + hi) / 2] := by
        simp [List.getD, List.getElem?_eq_getElem hm]
      rw [hg]
      by_cases c1 : ids[(lo + hi) / 2] < callee
      · simp only [c1, if_true]
        refine ih _ _ (by omega) (by omega) hh (fun i h hilt => ?_) h2
        by_cases e : i = (lo + hi) / 2
        · subst e; exact c1
        · have := mono i _ h hm (by omega)
          omega
      · simp only [c1, if_false]
        by_cases c2 : ids[(lo + hi) / 2] = callee
        · simp only [c2, if_true]
          exact .inl ⟨_, hm, rfl, c2⟩
        · simp only [c2, if_false]
          refine ih _ _ (by omega) (by omega) (by omega) h1 (fun i h hile => ?_)
          by_cases e : i = (lo + hi) / 2
          · subst e; omega
          · have := mono _ i hm h (by omega)
            omega
    · simp only [hlt, if_false]
      exact .inr ⟨lo, rfl, by omega, h1, fun i h hi => h2 i h (by omega)⟩

theorem shift_eq (d : Nat) (xs : List Nat) : shift d xs = d :: xs := by
  induction xs generalizing d with
  | nil => rfl
  | cons x xs ih => simp [shift, ih]

/-- What the profile needs to be in order. -/
structure Tidy (s : St) : Prop where
  addr : ∀ {c a}, a ∈ s.callees c → a < s.nextData
  uniq : ∀ {c c' a}, a ∈ s.callees c → a ∈ s.callees c' → c = c'
  sorted : ∀ c, (s.callees c).Pairwise fun a a' => (s.data a).id < (s.data a').id

/-- The result of a lookup. -/
structure Looked (s : St) (caller callee : Nat) (s' : St) (a : Nat) : Prop where
  tidy : Tidy s'
  mem : a ∈ s'.callees caller
  isId : (s'.data a).id = callee
  old : (s' = s ∧ a ∈ s.callees caller) ∨
    ((∀ x ∈ s.callees caller, (s.data x).id ≠ callee) ∧ a = s.nextData ∧
      s'.data = upd s.data a ⟨callee, 0, 0⟩ ∧
      (∀ x, x ∈ s'.callees caller ↔ x = a ∨ x ∈ s.callees caller) ∧
      (∀ c, c ≠ caller → s'.callees c = s.callees c) ∧
      s' = { s with data := s'.data, callees := s'.callees, nextData := s.nextData + 1 })

theorem getCallData_spec {s : St} (t : Tidy s) (caller callee : Nat) :
    Looked s caller callee (getCallData s caller callee).1 (getCallData s caller callee).2 := by
  have hs : ((s.callees caller).map fun a => (s.data a).id).Pairwise (· < ·) :=
    List.pairwise_map.mpr (t.sorted caller)
  have hsp := search_spec hs callee (s.callees caller).length 0 (s.callees caller).length (by omega)
    (Nat.zero_le _) (by simp) (by omega) (by
      intro i h hi
      rw [List.length_map] at h
      omega)
  unfold getCallData
  rcases hsp with ⟨i, h, e, hi⟩ | ⟨p, e, hp, h1, h2⟩
  · simp only [e]
    rw [List.length_map] at h
    have hg : (s.callees caller).getD i 0 = (s.callees caller)[i] := by
      simp [List.getD, List.getElem?_eq_getElem h]
    rw [hg]
    have hm : (s.callees caller)[i] ∈ s.callees caller := List.getElem_mem h
    simp only [List.getElem_map] at hi
    exact ⟨t, hm, hi, .inl ⟨rfl, hm⟩⟩
  · simp only [e, shift_eq]
    rw [List.length_map] at hp
    simp only [List.length_map, List.getElem_map] at h1 h2
    have hne : ∀ x ∈ s.callees caller, (s.data x).id ≠ callee := by
      intro x hx
      obtain ⟨i, hi, rfl⟩ := List.getElem_of_mem hx
      by_cases hc : i < p
      · exact Nat.ne_of_lt (h1 i hi hc)
      · exact Nat.ne_of_gt (h2 i hi (by omega))
    have hmem : ∀ x, x ∈ (s.callees caller).take p ++ s.nextData :: (s.callees caller).drop p ↔
        x = s.nextData ∨ x ∈ s.callees caller := by
      intro x
      rw [List.mem_append, List.mem_cons]
      conv_rhs => rw [← List.take_append_drop p (s.callees caller), List.mem_append]
      tauto
    have hd : ∀ {c x}, x ∈ s.callees c → upd s.data s.nextData ⟨callee, 0, 0⟩ x = s.data x := by
      intro c x hx
      exact upd_ne _ _ (Nat.ne_of_lt (t.addr hx))
    refine ⟨⟨?_, ?_, ?_⟩, ?_, by simp, .inr ⟨hne, rfl, rfl, ?_, ?_, rfl⟩⟩
    · intro c a ha
      simp only [upd] at ha
      split at ha
      · rw [hmem] at ha
        rcases ha with rfl | ha
        · exact Nat.lt_succ_self _
        · exact Nat.lt_succ_of_lt (t.addr ha)
      · exact Nat.lt_succ_of_lt (t.addr ha)
    · intro c c' a ha ha'
      simp only [upd] at ha ha'
      split at ha <;> split at ha'
      · omega
      · rw [hmem] at ha
        rcases ha with rfl | ha
        · exact absurd (t.addr ha') (Nat.lt_irrefl _)
        · rename_i e1 _; rw [e1]; exact t.uniq ha ha'
      · rw [hmem] at ha'
        rcases ha' with rfl | ha'
        · exact absurd (t.addr ha) (Nat.lt_irrefl _)
        · rename_i e1; rw [e1]; exact t.uniq ha ha'
      · exact t.uniq ha ha'
    · intro c
      simp only [upd]
      split
      · have hpw : (s.callees caller).Pairwise fun a a' =>
            (upd s.data s.nextData ⟨callee, 0, 0⟩ a).id < (upd s.data s.nextData ⟨callee, 0, 0⟩ a').id :=
          (t.sorted caller).imp_of_mem fun ha hb hab => by rw [hd ha, hd hb]; exact hab
        rw [← List.take_append_drop p (s.callees caller), List.pairwise_append] at hpw
        refine List.pairwise_append.mpr ⟨hpw.1, List.pairwise_cons.mpr ⟨fun x hx => ?_, hpw.2.1⟩,
          fun x hx y hy => ?_⟩
        · have hx' := List.mem_of_mem_drop hx
          show (upd s.data s.nextData _ s.nextData).id < (upd s.data s.nextData _ x).id
          rw [hd hx', upd_same]
          obtain ⟨i, hi, rfl⟩ := List.getElem_of_mem hx
          rw [List.getElem_drop]
          rw [List.length_drop] at hi
          exact h2 _ (by omega) (by omega)
        · have hx' := List.mem_of_mem_take hx
          rcases List.mem_cons.mp hy with rfl | hy
          · show (upd s.data s.nextData _ x).id < (upd s.data s.nextData _ s.nextData).id
            rw [hd hx', upd_same]
            obtain ⟨i, hi, rfl⟩ := List.getElem_of_mem hx
            rw [List.getElem_take]
            rw [List.length_take] at hi
            exact h1 _ (by omega) (by omega)
          · exact hpw.2.2 x hx y hy
      · exact (t.sorted c).imp_of_mem fun ha hb hab => by
          show (upd s.data s.nextData _ _).id < (upd s.data s.nextData _ _).id
          rw [hd ha, hd hb]; exact hab
    · simp only [upd_same, hmem, true_or]
    · intro x
      simp only [upd_same]
      exact hmem x
    · intro c hc
      exact upd_ne _ _ hc

/-! ### Sorting -/

theorem merge_nil_right (le) (xs : List Data) : merge le xs [] = xs := by cases xs <;> simp [merge]

theorem merge_nil_left (le) (xs : List Data) : merge le [] xs = xs := by simp [merge]

theorem merge_perm (le) : ∀ xs ys : List Data, (merge le xs ys).Perm (xs ++ ys) := by
  intro xs
  induction xs with
  | nil => intro ys; rw [merge_nil_left]; exact .refl _
  | cons x xs ihx =>
    intro ys
    induction ys with
    | nil => simp [merge]
    | cons y ys ihy =>
      unfold merge
      split
      · exact (ihx _).cons _
      · exact (ihy.cons y).trans (List.perm_middle (l₁ := x :: xs)).symm

theorem merge_sorted {le : Data → Data → Bool} (tot : ∀ x y, le x y = true ∨ le y x = true)
    (tr : ∀ x y z, le x y = true → le y z = true → le x z = true) :
    ∀ xs ys : List Data, xs.Pairwise (le · ·) → ys.Pairwise (le · ·) →
      (merge le xs ys).Pairwise (le · ·) := by
  intro xs
  induction xs with
  | nil => intro ys _ h; rw [merge_nil_left]; exact h
  | cons x xs ihx =>
    intro ys hx
    induction ys with
    | nil => intro _; rw [merge_nil_right]; exact hx
    | cons y ys ihy =>
      intro hy
      unfold merge
      have hx' := List.pairwise_cons.mp hx
      have hy' := List.pairwise_cons.mp hy
      split
      · rename_i hle
        refine List.pairwise_cons.mpr ⟨fun z hz => ?_, ihx _ hx'.2 hy⟩
        have hz := (merge_perm le xs (y :: ys)).mem_iff.mp hz
        rcases List.mem_append.mp hz with hz | hz
        · exact hx'.1 z hz
        · rcases List.mem_cons.mp hz with rfl | hz
          · exact hle
          · exact tr _ _ _ hle (hy'.1 z hz)
      · rename_i hle
        have hle' : le y x = true := (tot x y).resolve_left hle
        refine List.pairwise_cons.mpr ⟨fun z hz => ?_, ihy hy'.2⟩
        have hz := (merge_perm le (x :: xs) ys).mem_iff.mp hz
        rcases List.mem_append.mp hz with hz | hz
        · rcases List.mem_cons.mp hz with rfl | hz
          · exact hle'
          · exact tr _ _ _ hle' (hx'.1 z hz)
        · exact hy'.1 z hz

/-- Elements with the same time keep their order. -/
theorem merge_stable {le : Data → Data → Bool} {k : Nat}
    (tr : ∀ x y z, le x y = true → le y z = true → le x z = true)
    (rf : ∀ x y : Data, x.time = y.time → le x y = true) :
    ∀ xs ys : List Data, xs.Pairwise (le · ·) → ys.Pairwise (le · ·) →
      (merge le xs ys).filter (·.time == k) = xs.filter (·.time == k) ++ ys.filter (·.time == k) := by
  intro xs
  induction xs with
  | nil => intro ys _ _; rw [merge_nil_left]; rfl
  | cons x xs ihx =>
    intro ys hx
    induction ys with
    | nil => intro _; simp [merge]
    | cons y ys ihy =>
      intro hy
      have hx' := List.pairwise_cons.mp hx
      have hy' := List.pairwise_cons.mp hy
      unfold merge
      split
      · rw [List.filter_cons, ihx _ hx'.2 hy]
        conv_rhs => rw [List.filter_cons]
        split <;> rfl
      · rename_i hle
        rw [List.filter_cons, ihy hy'.2]
        by_cases hyk : y.time = k
        · -- then nothing in x :: xs has time k
          have hno : ∀ z ∈ x :: xs, (z.time == k) = false := by
            intro z hz
            by_contra hzk
            have hzk : z.time = k := by simpa using hzk
            have h1 : le z y = true := rf _ _ (by omega)
            rcases List.mem_cons.mp hz with rfl | hz
            · exact hle h1
            · exact hle (tr _ _ _ (hx'.1 z hz) h1)
          have : (x :: xs).filter (·.time == k) = [] := List.filter_eq_nil_iff.mpr fun z hz => by
            simp [hno z hz]
          rw [this]
          simp [List.filter_cons, hyk]
        · simp [hyk]

theorem msort_spec {le : Data → Data → Bool} (tot : ∀ x y, le x y = true ∨ le y x = true)
    (tr : ∀ x y z, le x y = true → le y z = true → le x z = true)
    (rf : ∀ x y : Data, x.time = y.time → le x y = true) :
    ∀ (n : Nat) (inPlace : Bool) (a b : List Data), a.length = n → b.length = n →
      (msort le inPlace a b).1.length = n ∧ (msort le inPlace a b).2.length = n ∧
      (if inPlace then (msort le inPlace a b).1 else (msort le inPlace a b).2).Perm a ∧
      (if inPlace then (msort le inPlace a b).1 else (msort le inPlace a b).2).Pairwise (le · ·) ∧
      ∀ k, (if inPlace then (msort le inPlace a b).1 else (msort le inPlace a b).2).filter (·.time == k) =
        a.filter (·.time == k) := by
  intro n
  induction n using Nat.strongRecOn with
  | ind n ih =>
    intro inPlace a b ha hb
    unfold msort
    split
    · rename_i h0
      have h0 : a = [] := List.length_eq_zero_iff.mp h0
      subst h0
      have hb0 : b = [] := List.length_eq_zero_iff.mp (by simp at ha; omega)
      subst hb0
      cases inPlace <;> simp at ha ⊢ <;> omega
    · split
      · rename_i h1
        obtain ⟨x, rfl⟩ := List.length_eq_one_iff.mp h1
        cases inPlace <;> simp at ha hb ⊢ <;> omega
      · rename_i h0 h1
        dsimp only
        have l1 : (a.take (a.length / 2)).length = a.length / 2 := by rw [List.length_take]; omega
        have l2 : (a.drop (a.length / 2)).length = a.length - a.length / 2 := by rw [List.length_drop]
        have i1 := ih (a.length / 2) (by omega) (!inPlace) (a.take (a.length / 2)) (b.take (a.length / 2)) l1
          (by rw [List.length_take]; omega)
        have i2 := ih (a.length - a.length / 2) (by omega) (!inPlace) (a.drop (a.length / 2))
          (b.drop (a.length / 2)) l2 (by rw [List.length_drop]; omega)
        generalize msort le (!inPlace) (a.take (a.length / 2)) (b.take (a.length / 2)) = r1 at i1 ⊢
        generalize msort le (!inPlace) (a.drop (a.length / 2)) (b.drop (a.length / 2)) = r2 at i2 ⊢
        have key : ∀ s1 s2 : List Data, s1.Perm (a.take (a.length / 2)) → s2.Perm (a.drop (a.length / 2)) →
            s1.Pairwise (le · ·) → s2.Pairwise (le · ·) →
            (∀ k, s1.filter (·.time == k) = (a.take (a.length / 2)).filter (·.time == k)) →
            (∀ k, s2.filter (·.time == k) = (a.drop (a.length / 2)).filter (·.time == k)) →
            (merge le s1 s2).Perm a ∧ (merge le s1 s2).Pairwise (le · ·) ∧
            ∀ k, (merge le s1 s2).filter (·.time == k) = a.filter (·.time == k) := by
          intro s1 s2 p1 p2 w1 w2 f1 f2
          refine ⟨?_, merge_sorted tot tr _ _ w1 w2, fun k => ?_⟩
          · refine (merge_perm le s1 s2).trans ((p1.append p2).trans ?_)
            rw [List.take_append_drop]
          · rw [merge_stable tr rf _ _ w1 w2, f1, f2,
              ← List.filter_append, List.take_append_drop]
        cases inPlace
        · simp only [Bool.not_false, if_true, Bool.false_eq_true, if_false] at i1 i2 ⊢
          obtain ⟨k1, k2, k3⟩ := key _ _ i1.2.2.1 i2.2.2.1 i1.2.2.2.1 i2.2.2.2.1 i1.2.2.2.2 i2.2.2.2.2
          refine ⟨?_, ?_, k1, k2, k3⟩
          · rw [List.length_append, i1.1, i2.1]; omega
          · rw [k1.length_eq, ha]
        · simp only [Bool.not_true, if_true, Bool.false_eq_true, if_false] at i1 i2 ⊢
          obtain ⟨k1, k2, k3⟩ := key _ _ i1.2.2.1 i2.2.2.1 i1.2.2.2.1 i2.2.2.2.1 i1.2.2.2.2 i2.2.2.2.2
          refine ⟨?_, ?_, k1, k2, k3⟩
          · rw [k1.length_eq, ha]
          · rw [List.length_append, i1.2.1, i2.2.1]; omega

end Verif.Profile
