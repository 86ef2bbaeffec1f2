import Verif.Select.Thm
/-
What the code for a select refers to.
-/
namespace Verif.Select

/-- The branches go to targets of the table or the default, local labels are defined, and the numbers
compared with are tags of the table. -/
structure Refs (targets : List Branch) (d : Nat) (c : List Asm) : Prop where
  b : ∀ t, .b t ∈ c → t = d ∨ ∃ x ∈ targets, x.target = t
  beq : ∀ t, .beq t ∈ c → t = d ∨ ∃ x ∈ targets, x.target = t
  bcc : ∀ t, .bcc t ∈ c → t = d ∨ ∃ x ∈ targets, x.target = t
  loc : ∀ l, .bccLocal l ∈ c → l ∈ labels c
  cmp : ∀ k, .cmp k ∈ c → ∃ x ∈ targets, x.tag = k

theorem labels_mem {l : Nat} {c : List Asm} : l ∈ labels c ↔ .label l ∈ c := by
  induction c with
  | nil => simp [labels]
  | cons x c ih => cases x <;> simp [labels, ih]

theorem Refs.mono {ts ts' : List Branch} {d c} (h : Refs ts d c) (hs : ∀ x ∈ ts, x ∈ ts') : Refs ts' d c :=
  ⟨fun t ht => (h.b t ht).imp id fun ⟨x, a, b⟩ => ⟨x, hs x a, b⟩, fun t ht => (h.beq t ht).imp id fun ⟨x, a, b⟩ => ⟨x, hs x a, b⟩,
    fun t ht => (h.bcc t ht).imp id fun ⟨x, a, b⟩ => ⟨x, hs x a, b⟩, h.loc, fun k hk => let ⟨x, a, b⟩ := h.cmp k hk; ⟨x, hs x a, b⟩⟩

theorem Refs.append {ts : List Branch} {d a b} (h : Refs ts d a) (h' : Refs ts d b) : Refs ts d (a ++ b) := by
  refine ⟨fun t ht => ?_, fun t ht => ?_, fun t ht => ?_, fun l hl => ?_, fun k hk => ?_⟩
  · exact (List.mem_append.mp ht).elim (h.b t) (h'.b t)
  · exact (List.mem_append.mp ht).elim (h.beq t) (h'.beq t)
  · exact (List.mem_append.mp ht).elim (h.bcc t) (h'.bcc t)
  · rw [labels_append]
    exact List.mem_append.mpr ((List.mem_append.mp hl).imp (h.loc l) (h'.loc l))
  · exact (List.mem_append.mp hk).elim (h.cmp k) (h'.cmp k)

theorem Refs.head {ts : List Branch} {d c} {m : Branch} (hm : m ∈ ts) (h : Refs ts d c) : Refs ts d ([Asm.cmp m.tag, .beq m.target] ++ c) := by
  refine .append ⟨?_, ?_, ?_, ?_, ?_⟩ h <;> simp
  · exact .inr ⟨m, hm, rfl⟩
  · exact ⟨m, hm, rfl⟩

theorem singleTarget_mem {lo hi : Nat} {ts : List Branch} {d t} (h : singleTarget lo hi ts d = some t) : t = d ∨ ∃ x ∈ ts, x.target = t := by
  unfold singleTarget at h
  split at h
  · cases h; exact .inl rfl
  · split at h
    · cases h; exact .inr ⟨_, List.mem_cons_self .., rfl⟩
    · cases h
  · cases h

theorem emitSearch_refs : (n lo hi : Nat) → (ts : List Branch) → (d label : Nat) → ts.length = n → Refs ts d (emitSearch lo hi ts d label).1 := by
  intro n
  induction n using Nat.strongRecOn with
  | _ n ih =>
  intro lo hi ts d label hn
  unfold emitSearch
  split
  · rename_i t ht
    refine ⟨?_, ?_, ?_, ?_, ?_⟩ <;> simp
    exact singleTarget_mem ht
  · by_cases hne : ts.length = 0
    · rw [dif_pos hne]; constructor <;> simp
    · rw [dif_neg hne]
      simp only
      have hd : (ts.drop (ts.length / 2 + 1)).length < n := by simp only [List.length_drop]; omega
      have ht : (ts.take (ts.length / 2)).length < n := by simp only [List.length_take]; omega
      have hmid : ts[ts.length / 2]'(by omega) ∈ ts := List.getElem_mem _
      have sd : ∀ x ∈ ts.drop (ts.length / 2 + 1), x ∈ ts := fun x hx => List.mem_of_mem_drop hx
      have st : ∀ x ∈ ts.take (ts.length / 2), x ∈ ts := fun x hx => List.mem_of_mem_take hx
      generalize ts[ts.length / 2]'(by omega) = m at hmid ⊢
      split
      · exact .head hmid ((ih _ hd _ _ _ _ _ rfl).mono sd)
      · split
        · exact .head hmid ((ih _ ht _ _ _ _ _ rfl).mono st)
        · split
          · rename_i t hst
            rw [List.append_assoc]
            refine .head hmid (.append (a := [.bcc t]) ⟨?_, ?_, ?_, ?_, ?_⟩ ((ih _ hd _ _ _ _ _ rfl).mono sd)) <;> simp
            exact (singleTarget_mem hst).imp id fun ⟨x, a, b⟩ => ⟨x, st x a, b⟩
          · simp only [List.append_assoc]
            refine .head hmid ?_
            have h1 := (ih _ hd (m.tag + 1) hi _ d (label + 1) rfl).mono sd
            have h2 := (ih _ ht lo (m.tag - 1) _ d (emitSearch (m.tag + 1) hi (ts.drop (ts.length / 2 + 1)) d (label + 1)).2 rfl).mono st
            generalize (emitSearch (m.tag + 1) hi (ts.drop (ts.length / 2 + 1)) d (label + 1)).1 = c at h1 ⊢
            generalize (emitSearch lo (m.tag - 1) (ts.take (ts.length / 2)) d (emitSearch (m.tag + 1) hi (ts.drop (ts.length / 2 + 1)) d (label + 1)).2).1 = c' at h2 ⊢
            have h3 := h1.append h2
            refine ⟨fun t h => h3.b t (by simpa using h), fun t h => h3.beq t (by simpa using h), fun t h => h3.bcc t (by simpa using h), fun l h => ?_, fun k h => h3.cmp k (by simpa using h)⟩
            simp only [List.cons_append, List.nil_append, List.mem_cons, Asm.bccLocal.injEq, List.mem_append, reduceCtorEq, false_or] at h
            rw [labels_mem]
            simp only [List.cons_append, List.nil_append, List.mem_cons, List.mem_append, reduceCtorEq, false_or, Asm.label.injEq]
            rcases h with h | h | h
            · exact .inr (.inl h)
            · exact .inl (labels_mem.mp (h1.loc l h))
            · exact .inr (.inr (labels_mem.mp (h2.loc l h)))

theorem emitSelect_refs (nt : Nat) (ts : List Branch) (d : Nat) : Refs ts d (emitSelect nt ts d) := emitSearch_refs _ _ _ _ _ _ rfl

end Verif.Select
