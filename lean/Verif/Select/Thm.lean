import Verif.Select.Model
/- Property theorems C06 and C38. -/
namespace Verif.Select

theorem Sorted.get_lt {targets : List Branch} (hs : Sorted targets) {i j : Nat}
    (hj : j < targets.length) (hij : i < j) :
    (targets[i]'(by omega)).tag < (targets[j]).tag := by
  exact (List.pairwise_iff_getElem.mp hs) i j (by omega) hj hij

theorem Sorted.inj {targets : List Branch} (hs : Sorted targets) {a b : Branch}
    (ha : a ∈ targets) (hb : b ∈ targets) (h : a.tag = b.tag) : a = b := by
  obtain ⟨i, hi, rfl⟩ := List.mem_iff_getElem.mp ha
  obtain ⟨j, hj, rfl⟩ := List.mem_iff_getElem.mp hb
  rcases Nat.lt_trichotomy i j with h1 | h1 | h1
  · have := hs.get_lt hj h1; omega
  · subst h1; rfl
  · have := hs.get_lt hi h1; omega

/-- The specification is single valued on sorted tables. -/
theorem Selects.det {targets : List Branch} {d tag x y : Nat} (hs : Sorted targets)
    (h1 : Selects targets d tag x) (h2 : Selects targets d tag y) : x = y := by
  cases h1 with
  | listed h3 h4 =>
    cases h2 with
    | listed h5 h6 => rw [hs.inj h3 h5 (h4.trans h6.symm)]
    | default h => exact absurd h4 (h _ h3)
  | default h =>
    cases h2 with
    | listed h5 h6 => exact absurd h6 (h _ h5)
    | default => rfl

theorem Selects.exists (targets : List Branch) (d tag : Nat) : ∃ x, Selects targets d tag x := by
  by_cases h : ∃ b ∈ targets, b.tag = tag
  · obtain ⟨b, h1, h2⟩ := h; exact ⟨_, .listed h1 h2⟩
  · exact ⟨d, .default (fun b hb he => h ⟨b, hb, he⟩)⟩

theorem searchLoop_spec {targets : List Branch} (hs : Sorted targets) (d tag : Nat) :
    ∀ (n lo hi : Nat), hi - lo = n → hi ≤ targets.length →
      (∀ i (h : i < targets.length), i < lo → (targets[i]).tag < tag) →
      (∀ i (h : i < targets.length), hi ≤ i → tag < (targets[i]).tag) →
      ∃ t, searchLoop targets d tag lo hi = some t ∧ Selects targets d tag t := by
  intro n
  induction n using Nat.strongRecOn with
  | _ n ih =>
  intro lo hi hn hle hlo hhi
  unfold searchLoop
  by_cases hlt : lo < hi
  · rw [dif_pos hlt]
    have hmid : (lo + hi) / 2 < targets.length := by omega
    simp only [List.getElem?_eq_getElem hmid]
    by_cases h1 : tag = (targets[(lo + hi) / 2]).tag
    · rw [if_pos h1]
      exact ⟨_, rfl, .listed (List.getElem_mem hmid) h1.symm⟩
    · rw [if_neg h1]
      by_cases h2 : tag < (targets[(lo + hi) / 2]).tag
      · rw [if_pos h2]
        refine ih ((lo + hi) / 2 - lo) (by omega) lo _ rfl (by omega) hlo ?_
        intro i hi' h3
        rcases Nat.lt_or_ge ((lo + hi) / 2) i with h4 | h4
        · have := hs.get_lt hi' h4; omega
        · have : i = (lo + hi) / 2 := by omega
          subst this; exact h2
      · rw [if_neg h2]
        refine ih (hi - ((lo + hi) / 2 + 1)) (by omega) _ hi rfl hle ?_ hhi
        intro i hi' h3
        rcases Nat.lt_or_ge i ((lo + hi) / 2) with h4 | h4
        · have := hs.get_lt hmid h4; omega
        · have : i = (lo + hi) / 2 := by omega
          subst this; omega
  · rw [dif_neg hlt]
    refine ⟨d, rfl, .default ?_⟩
    intro b hb he
    obtain ⟨i, hi', rfl⟩ := List.mem_iff_getElem.mp hb
    rcases Nat.lt_or_ge i lo with h | h
    · have := hlo i hi' h; omega
    · have := hhi i hi' (by omega); omega

/-- C06. The interpreter continues exactly where the table says: at the branch listed for the
tag, at the default iff the tag is not listed; an undefined value aborts; the table is never read
out of bounds.  The table must list at least one branch, see `C06_empty_table_violated`. -/
theorem C06_interp_select {targets : List Branch} (hs : Sorted targets) (hne : targets ≠ []) (default : Nat) :
    interpSelect targets default none = .abort ∧
    ∀ tag, (∃ t, interpSelect targets default (some tag) = .goto t) ∧
      ∀ t, interpSelect targets default (some tag) = .goto t ↔ Selects targets default tag t := by
  refine ⟨rfl, fun tag => ?_⟩
  obtain ⟨t, h1, h2⟩ := searchLoop_spec hs default tag _ 0 targets.length rfl (Nat.le_refl _)
    (fun i _ h => absurd h (Nat.not_lt_zero _)) (fun i h h' => absurd h (by omega))
  have he : interpSelect targets default (some tag) = .goto t := by
    simp only [interpSelect, h1, if_neg hne]
  refine ⟨⟨t, he⟩, fun t' => ?_⟩
  rw [he]
  constructor
  · intro h; cases h; exact h2
  · intro h; rw [h2.det hs h]

/-- C06 for the C backend: the emitted `switch` agrees with the interpreter. -/
theorem C06_c_switch_agrees {targets : List Branch} (hs : Sorted targets) (hne : targets ≠ []) (default : Nat)
    (tag : Option Nat) : cSwitch targets default tag = interpSelect targets default tag := by
  cases tag with
  | none => rfl
  | some tag =>
    have key : ∃ t, cSwitch targets default (some tag) = .goto t ∧ Selects targets default tag t := by
      unfold cSwitch
      cases h : targets.find? (fun b => b.tag == tag) with
      | some b =>
        refine ⟨b.target, by simp [h], .listed (List.mem_of_find?_eq_some h) ?_⟩
        simpa using List.find?_some h
      | none =>
        refine ⟨default, by simp [h], .default ?_⟩
        intro b hb
        have := List.find?_eq_none.mp h b hb
        simpa using this
    obtain ⟨t, h1, h2⟩ := key
    rw [h1]
    exact (((C06_interp_select hs hne default).2 tag).2 t |>.mpr h2).symm

/-- C06, violated for an empty table: a select with only a default branch, which is what the
elaboration makes of a select on a union with one tag (typecheck.c:1518-1523), fails the assertion
of the interpreter, while the C and aarch64 backends take the default branch. -/
theorem C06_empty_table_violated (default tag : Nat) :
    interpSelect [] default (some tag) = .crash ∧ cSwitch [] default (some tag) = .goto default ∧
      exec tag none (emitSelect 1 [] default) = some default := by
  simp [interpSelect, cSwitch, emitSelect, emitSearch, singleTarget, exec]

example : Sorted [⟨0, 10⟩, ⟨2, 20⟩, ⟨5, 30⟩] := by simp [Sorted]
example : interpSelect [⟨0, 10⟩, ⟨2, 20⟩, ⟨5, 30⟩] 99 (some 2) = .goto 20 ∧
    interpSelect [⟨0, 10⟩, ⟨2, 20⟩, ⟨5, 30⟩] 99 (some 3) = .goto 99 := by
  constructor <;> (simp [interpSelect, searchLoop])

/-! ### C38 -/

theorem labels_append (a b : List Asm) : labels (a ++ b) = labels a ++ labels b := by
  induction a with
  | nil => rfl
  | cons i a ih => cases i <;> simp [labels, ih]

theorem seek_append {l : Nat} {a b : List Asm} (h : l ∉ labels a) : seek l (a ++ b) = seek l b := by
  induction a with
  | nil => rfl
  | cons i a ih =>
    cases i with
    | label l' =>
      simp only [labels, List.mem_cons, not_or] at h
      simp only [List.cons_append, seek, if_neg h.1]
      exact ih h.2
    | _ => simp only [labels] at h; simp only [List.cons_append, seek]; exact ih h

theorem Selects.narrow {targets : List Branch} {d tag : Nat} {sub : List Branch} {t : Nat}
    (hsub : ∀ b ∈ sub, b ∈ targets) (hout : ∀ b ∈ targets, b.tag = tag → b ∈ sub)
    (h : Selects sub d tag t) : Selects targets d tag t := by
  cases h with
  | listed h1 h2 => exact .listed (hsub _ h1) h2
  | default h1 => exact .default (fun b hb he => h1 b (hout b hb he) he)

theorem singleTarget_spec {lo hi d tag t : Nat} {targets : List Branch}
    (h : singleTarget lo hi targets d = some t) (h1 : lo ≤ tag) (h2 : tag ≤ hi)
    (hb : ∀ b ∈ targets, lo ≤ b.tag ∧ b.tag ≤ hi) : Selects targets d tag t := by
  unfold singleTarget at h
  split at h
  · cases h; exact .default (by simp)
  · rename_i b
    split at h
    · cases h
      have := hb b (by simp)
      exact .listed (by simp) (by omega)
    · cases h
  · cases h

theorem mem_split {targets : List Branch} {mid : Nat} (hm : mid < targets.length) {b : Branch}
    (hb : b ∈ targets) : b ∈ targets.take mid ∨ b = targets[mid] ∨ b ∈ targets.drop (mid + 1) := by
  have h1 : targets = targets.take mid ++ targets[mid] :: targets.drop (mid + 1) := by
    simp
  rw [h1] at hb
  simp only [List.mem_append, List.mem_cons] at hb
  exact hb

theorem Sorted.take_lt {targets : List Branch} (hs : Sorted targets) {mid : Nat}
    (hm : mid < targets.length) {b : Branch} (hb : b ∈ targets.take mid) : b.tag < (targets[mid]).tag := by
  obtain ⟨i, hi, rfl⟩ := List.mem_iff_getElem.mp hb
  simp only [List.length_take] at hi
  simp only [List.getElem_take]
  exact hs.get_lt hm (by omega)

theorem Sorted.drop_gt {targets : List Branch} (hs : Sorted targets) {mid : Nat}
    (hm : mid < targets.length) {b : Branch} (hb : b ∈ targets.drop (mid + 1)) :
    (targets[mid]).tag < b.tag := by
  obtain ⟨i, hi, rfl⟩ := List.mem_iff_getElem.mp hb
  simp only [List.length_drop] at hi
  simp only [List.getElem_drop]
  exact hs.get_lt (by omega) (by omega)

/-- Labels of emitted code: each used once, all in the range of fresh numbers taken. -/
theorem emitSearch_labels : ∀ (n lo hi : Nat) (targets : List Branch) (d label : Nat),
    targets.length = n →
    label ≤ (emitSearch lo hi targets d label).2 ∧
    (∀ l ∈ labels (emitSearch lo hi targets d label).1, label ≤ l ∧
      l < (emitSearch lo hi targets d label).2) ∧
    (labels (emitSearch lo hi targets d label).1).Nodup := by
  intro n
  induction n using Nat.strongRecOn with
  | _ n ih =>
  intro lo hi targets d label hn
  unfold emitSearch
  split
  · simp [labels]
  · by_cases hne : targets.length = 0
    · rw [dif_pos hne]; simp [labels]
    · rw [dif_neg hne]
      simp only
      have hd : (targets.drop (targets.length / 2 + 1)).length < n := by
        simp only [List.length_drop]; omega
      have ht : (targets.take (targets.length / 2)).length < n := by
        simp only [List.length_take]; omega
      split
      · have := ih _ hd ((targets[targets.length / 2]'(by omega)).tag + 1) hi _ d label rfl
        simpa [labels_append, labels] using this
      · split
        · have := ih _ ht lo ((targets[targets.length / 2]'(by omega)).tag - 1) _ d label rfl
          simpa [labels_append, labels] using this
        · split
          · have := ih _ hd ((targets[targets.length / 2]'(by omega)).tag + 1) hi _ d label rfl
            simpa [labels_append, labels] using this
          · obtain ⟨a1, a2, a3⟩ := ih _ hd ((targets[targets.length / 2]'(by omega)).tag + 1) hi _ d (label + 1) rfl
            obtain ⟨b1, b2, b3⟩ := ih _ ht lo ((targets[targets.length / 2]'(by omega)).tag - 1) _ d
              (emitSearch ((targets[targets.length / 2]'(by omega)).tag + 1) hi
                (targets.drop (targets.length / 2 + 1)) d (label + 1)).2 rfl
            refine ⟨by omega, ?_, ?_⟩
            · intro l hl
              simp only [labels_append, labels, List.mem_append, List.mem_cons, List.not_mem_nil,
                or_false, false_or] at hl
              rcases hl with (h | h) | h
              · have := a2 l h; omega
              · omega
              · have := b2 l h; omega
            · simp only [labels_append, labels, List.nil_append]
              rw [List.nodup_append]
              refine ⟨?_, b3, ?_⟩
              · rw [List.nodup_append]
                refine ⟨a3, by simp, ?_⟩
                intro x hx y hy he
                simp at hy
                have := a2 x hx; omega
              · intro x hx y hy he
                simp only [List.mem_append, List.mem_singleton] at hx
                have := b2 y hy
                rcases hx with h | h
                · have := a2 x h; omega
                · omega

/-- Emitted code ends in a branch to the right target, whatever follows it. -/
theorem emitSearch_exec (tag : Nat) : ∀ (n lo hi : Nat) (targets : List Branch) (d label : Nat)
    (flags : Option Nat) (rest : List Asm),
    targets.length = n → Sorted targets → lo ≤ tag → tag ≤ hi →
    (∀ b ∈ targets, lo ≤ b.tag ∧ b.tag ≤ hi) →
    ∃ t, exec tag flags ((emitSearch lo hi targets d label).1 ++ rest) = some t ∧
      Selects targets d tag t := by
  intro n
  induction n using Nat.strongRecOn with
  | _ n ih =>
  intro lo hi targets d label flags rest hn hs hlo hhi hb
  unfold emitSearch
  split
  · rename_i t ht
    exact ⟨t, by simp [exec], singleTarget_spec ht hlo hhi hb⟩
  · rename_i hsingle
    by_cases hne : targets.length = 0
    · exfalso
      have : targets = [] := List.length_eq_zero_iff.mp hne
      subst this; simp [singleTarget] at hsingle
    · rw [dif_neg hne]
      simp only
      have hm : targets.length / 2 < targets.length := by omega
      generalize hme : targets[targets.length / 2] = m
      have hd : (targets.drop (targets.length / 2 + 1)).length < n := by
        simp only [List.length_drop]; omega
      have ht : (targets.take (targets.length / 2)).length < n := by
        simp only [List.length_take]; omega
      have hmem : m ∈ targets := hme ▸ List.getElem_mem hm
      have hmb := hb m hmem
      have hsd : Sorted (targets.drop (targets.length / 2 + 1)) :=
        List.Pairwise.sublist (List.drop_sublist _ _) hs
      have hst : Sorted (targets.take (targets.length / 2)) :=
        List.Pairwise.sublist (List.take_sublist _ _) hs
      have hlow : ∀ b ∈ targets.take (targets.length / 2), b.tag < m.tag :=
        fun b hb => hme ▸ hs.take_lt hm hb
      have hhigh : ∀ b ∈ targets.drop (targets.length / 2 + 1), m.tag < b.tag :=
        fun b hb => hme ▸ hs.drop_gt hm hb
      have hbd : ∀ b ∈ targets.drop (targets.length / 2 + 1), m.tag + 1 ≤ b.tag ∧ b.tag ≤ hi :=
        fun b h => ⟨hhigh b h, (hb b (List.mem_of_mem_drop h)).2⟩
      have hbt : ∀ b ∈ targets.take (targets.length / 2), lo ≤ b.tag ∧ b.tag ≤ m.tag - 1 :=
        fun b h => ⟨(hb b (List.mem_of_mem_take h)).1, by have := hlow b h; omega⟩
      have split : ∀ b ∈ targets, b ∈ targets.take (targets.length / 2) ∨ b = m ∨
          b ∈ targets.drop (targets.length / 2 + 1) := fun b h => hme ▸ mem_split hm h
      -- where a tag different from the middle one may be listed
      have goHigh : m.tag < tag → ∀ t, Selects (targets.drop (targets.length / 2 + 1)) d tag t →
          Selects targets d tag t := fun hgt t h => h.narrow (fun b => List.mem_of_mem_drop)
        (fun b hb' he => by
          rcases split b hb' with h1 | h1 | h1
          · have := hlow b h1; omega
          · subst h1; omega
          · exact h1)
      have goLow : tag < m.tag → ∀ t, Selects (targets.take (targets.length / 2)) d tag t →
          Selects targets d tag t := fun hgt t h => h.narrow (fun b => List.mem_of_mem_take)
        (fun b hb' he => by
          rcases split b hb' with h1 | h1 | h1
          · exact h1
          · subst h1; omega
          · have := hhigh b h1; omega)
      by_cases heq : tag = m.tag
      · refine ⟨m.target, ?_, .listed hmem heq.symm⟩
        split
        · simp [exec, heq]
        · split
          · simp [exec, heq]
          · split <;> simp [exec, heq]
      · split
        · rename_i h1
          obtain ⟨t, h2, h3⟩ := ih _ hd (m.tag + 1) hi _ d label (some m.tag) rest rfl hsd
            (by omega) hhi hbd
          exact ⟨t, by simpa [exec, heq] using h2, goHigh (by omega) t h3⟩
        · split
          · obtain ⟨t, h2, h3⟩ := ih _ ht lo (m.tag - 1) _ d label (some m.tag) rest rfl hst
              hlo (by omega) hbt
            exact ⟨t, by simpa [exec, heq] using h2, goLow (by omega) t h3⟩
          · split
            · rename_i t hts
              by_cases hlt : tag < m.tag
              · refine ⟨t, by simp [exec, heq, hlt], goLow hlt t ?_⟩
                exact singleTarget_spec hts hlo (by omega) hbt
              · obtain ⟨t', h2, h3⟩ := ih _ hd (m.tag + 1) hi _ d label (some m.tag) rest rfl hsd
                  (by omega) hhi hbd
                exact ⟨t', by simpa [exec, heq, hlt] using h2, goHigh (by omega) t' h3⟩
            · by_cases hlt : tag < m.tag
              · obtain ⟨t, h2, h3⟩ := ih _ ht lo (m.tag - 1) _ d
                  (emitSearch (m.tag + 1) hi (targets.drop (targets.length / 2 + 1)) d (label + 1)).2
                  (some m.tag) rest rfl hst hlo (by omega) hbt
                refine ⟨t, ?_, goLow hlt t h3⟩
                have hl := (emitSearch_labels _ (m.tag + 1) hi
                  (targets.drop (targets.length / 2 + 1)) d (label + 1) rfl).2.1
                have hseek := seek_append (l := label)
                  (a := (emitSearch (m.tag + 1) hi (targets.drop (targets.length / 2 + 1)) d (label + 1)).1)
                  (b := [Asm.label label] ++ (emitSearch lo (m.tag - 1) (targets.take (targets.length / 2)) d
                    (emitSearch (m.tag + 1) hi (targets.drop (targets.length / 2 + 1)) d (label + 1)).2).1 ++ rest)
                  (fun h => by have := hl _ h; omega)
                simp only [List.append_assoc, List.cons_append, List.nil_append] at hseek ⊢
                simp only [exec, heq, if_false, hlt, if_true]
                split
                · rename_i r hr
                  rw [hseek] at hr
                  simp [seek] at hr
                  subst hr; exact h2
                · rename_i hr
                  rw [hseek] at hr
                  simp [seek] at hr
              · obtain ⟨t', h2, h3⟩ := ih _ hd (m.tag + 1) hi _ d (label + 1) (some m.tag)
                  ([Asm.label label] ++ (emitSearch lo (m.tag - 1) (targets.take (targets.length / 2)) d
                    (emitSearch (m.tag + 1) hi (targets.drop (targets.length / 2 + 1)) d (label + 1)).2).1 ++ rest)
                  rfl hsd (by omega) hhi hbd
                exact ⟨t', by simpa [exec, heq, hlt] using h2, goHigh (by omega) t' h3⟩

/-- C38. Executing the emitted compare-and-branch code with any tag of the union in x0 branches
to exactly the table's target; every local label is defined once, so the assembler's resolution
of a branch is the one used by `exec`. -/
theorem C38_decision_tree {targets : List Branch} (hs : Sorted targets) (default numTags : Nat)
    (hb : ∀ b ∈ targets, b.tag < numTags) (tag : Nat) (ht : tag < numTags) :
    (∀ t, exec tag none (emitSelect numTags targets default) = some t ↔
      Selects targets default tag t) ∧
    (labels (emitSelect numTags targets default)).Nodup := by
  refine ⟨fun t => ?_, (emitSearch_labels _ _ _ _ _ _ rfl).2.2⟩
  obtain ⟨t', h1, h2⟩ := emitSearch_exec tag _ 0 (numTags - 1) targets default 0 none [] rfl hs
    (by omega) (by omega) (fun b h => ⟨by omega, by have := hb b h; omega⟩)
  rw [List.append_nil] at h1
  rw [emitSelect, h1]
  constructor
  · intro h; cases h; exact h2
  · intro h; rw [h2.det hs h]

/-- C38 restated: the emitted code agrees with the interpreter for every tag of the union. -/
theorem C38_agrees_with_interp {targets : List Branch} (hs : Sorted targets) (hne : targets ≠ []) (default numTags : Nat)
    (hb : ∀ b ∈ targets, b.tag < numTags) (tag : Nat) (ht : tag < numTags) :
    ∃ t, exec tag none (emitSelect numTags targets default) = some t ∧
      interpSelect targets default (some tag) = .goto t := by
  obtain ⟨t, h⟩ := ((C06_interp_select hs hne default).2 tag).1
  exact ⟨t, ((C38_decision_tree hs default numTags hb tag ht).1 t).mpr
    ((((C06_interp_select hs hne default).2 tag).2 t).mp h), h⟩

/-- The guard `tag < numTags` is needed: outside the union's tags the emitted code may take a
branch not listed for the tag. -/
example : exec 5 none (emitSelect 1 [⟨0, 10⟩] 99) = some 10 := by
  simp [emitSelect, emitSearch, singleTarget, exec]

example : Sorted [⟨0, 10⟩, ⟨2, 20⟩, ⟨5, 30⟩] ∧ (∀ b ∈ [(⟨0, 10⟩ : Branch), ⟨2, 20⟩, ⟨5, 30⟩], b.tag < 7) := by
  simp [Sorted]

end Verif.Select
