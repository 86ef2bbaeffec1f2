import Verif.Compile.Static
/-
Merging functions keeps expressions in scope.
-/
namespace Verif.Compile

theorem Tcs.rewrite_length (m off) : (ts : Tcs) → (ts.rewrite m off).length = ts.length
  | .nil => rfl
  | .cons _ ts => by simp only [Tcs.rewrite, Tcs.length, Tcs.rewrite_length m off ts]

/-- `m` gives variables that have a value in a scope with `ns` statics and `na` args and no locals. -/
structure MapOk (m : List Var) (off k ns na : Nat) : Prop where
  statics : ∀ v ∈ m, v.Ok ns na []
  args : off + k ≤ na

theorem Var.Ok.weaken {ns na : Nat} {v : Var} (h : v.Ok ns na []) (loc : List Bool) : v.Ok ns na loc := by
  cases v with
  | static i => exact h
  | arg i => exact h
  | loc i => simp [Var.Ok] at h

theorem MapOk.var {m off k ns na} (hm : MapOk m off k ns na) {loc} {v : Var} (h : v.Ok m.length k loc) :
    (rewriteVar m off v).Ok ns na loc := by
  cases v with
  | static i =>
    have h : i < m.length := h
    simp only [rewriteVar, List.getElem?_eq_getElem h, Option.getD_some]
    exact (hm.statics _ (List.getElem_mem h)).weaken loc
  | arg i =>
    have h : i < k := h
    have := hm.args
    show i + off < na
    omega
  | loc i => exact h

theorem rewrite_sorted (m off) : (bs : Brs) → (lo : Nat) → bs.sortedFrom lo → (bs.rewrite m off).sortedFrom lo
  | .nil, _, h => h
  | .cons _ _ bs, _, h => ⟨h.1, rewrite_sorted m off bs _ h.2⟩

theorem rewrite_below (m off) {n} : (bs : Brs) → bs.tagsBelow n → (bs.rewrite m off).tagsBelow n
  | .nil, h => h
  | .cons _ _ bs, h => ⟨h.1, rewrite_below m off bs h.2⟩

theorem rewrite_table (m off) {n} : (bs : Brs) → bs.Table n → (bs.rewrite m off).Table n
  | .nil, h => absurd rfl h.2.1
  | .cons .., h => ⟨rewrite_sorted m off _ _ h.1, (fun h => nomatch h), rewrite_below m off _ h.2.2⟩

mutual
theorem Tc.rewrite_scoped {m off k ns na} (hm : MapOk m off k ns na) : (t : Tc) → {loc : List Bool} →
    t.Scoped m.length k loc → (t.rewrite m off).Scoped ns na loc
  | .typeVal, _, _ => trivial
  | .var v, _, h => by simp only [Tc.rewrite, Tc.Scoped] at h ⊢; exact hm.var h
  | .letE r ds b, _, h => by
    simp only [Tc.rewrite, Tc.Scoped, Tcs.rewrite_length] at h ⊢
    exact ⟨Tcs.rewrite_scoped hm ds h.1, Tc.rewrite_scoped hm b h.2⟩
  | .struct fs, _, h => by simp only [Tc.rewrite, Tc.Scoped] at h ⊢; exact Tcs.rewrite_scoped hm fs h
  | .copy s fs, _, h => by
    simp only [Tc.rewrite, Tc.Scoped] at h ⊢; exact ⟨Tc.rewrite_scoped hm s h.1, Flds.rewrite_scoped hm fs h.2⟩
  | .union _ a, _, h => by simp only [Tc.rewrite, Tc.Scoped] at h ⊢; exact Tc.rewrite_scoped hm a h
  | .select c nt bs d, _, h => by
    simp only [Tc.rewrite, Tc.Scoped] at h ⊢
    exact ⟨Tc.rewrite_scoped hm c h.1, Brs.rewrite_scoped hm bs h.2.1, rewrite_table _ _ _ h.2.2.1, Tc.rewrite_scoped hm d h.2.2.2⟩
  | .access _ o _, _, h => by simp only [Tc.rewrite, Tc.Scoped] at h ⊢; exact Tc.rewrite_scoped hm o h
  | .func scope b, _, h => by
    simp only [Tc.rewrite, Tc.Scoped, List.length_map] at h ⊢
    refine ⟨fun v hv => ?_, h.2⟩
    obtain ⟨w, hw, rfl⟩ := List.mem_map.mp hv
    exact hm.var (h.1 w hw)
  | .apply f a, _, h => by
    simp only [Tc.rewrite, Tc.Scoped] at h ⊢; exact ⟨Tc.rewrite_scoped hm f h.1, Tc.rewrite_scoped hm a h.2⟩
  | .list is, _, h => by simp only [Tc.rewrite, Tc.Scoped] at h ⊢; exact Tcs.rewrite_scoped hm is h
  | .literal _, _, _ => trivial
theorem Tcs.rewrite_scoped {m off k ns na} (hm : MapOk m off k ns na) : (ts : Tcs) → {loc : List Bool} →
    ts.Scoped m.length k loc → (ts.rewrite m off).Scoped ns na loc
  | .nil, _, _ => trivial
  | .cons t ts, _, h => ⟨Tc.rewrite_scoped hm t h.1, Tcs.rewrite_scoped hm ts h.2⟩
theorem Flds.rewrite_scoped {m off k ns na} (hm : MapOk m off k ns na) : (fs : Flds) → {loc : List Bool} →
    fs.Scoped m.length k loc → (fs.rewrite m off).Scoped ns na loc
  | .nil, _, _ => trivial
  | .keep fs, _, h => by simp only [Flds.rewrite, Flds.Scoped] at h ⊢; exact Flds.rewrite_scoped hm fs h
  | .set t fs, _, h => ⟨Tc.rewrite_scoped hm t h.1, Flds.rewrite_scoped hm fs h.2⟩
theorem Brs.rewrite_scoped {m off k ns na} (hm : MapOk m off k ns na) : (bs : Brs) → {loc : List Bool} →
    bs.Scoped m.length k loc → (bs.rewrite m off).Scoped ns na loc
  | .nil, _, _ => trivial
  | .cons _ t bs, _, h => ⟨Tc.rewrite_scoped hm t h.1, Brs.rewrite_scoped hm bs h.2⟩
end

theorem Var.Ok.more {ns na na' : Nat} {loc} {v : Var} (h : v.Ok ns na loc) (hn : na ≤ na') : v.Ok ns na' loc := by
  cases v with
  | static i => exact h
  | arg i => exact Nat.lt_of_lt_of_le h hn
  | loc i => exact h

theorem mergeLoop_ok {ns} : (b : Tc) → {st : List Var} → {off na : Nat} → MapOk st off 1 ns na → b.Scoped st.length 1 [] →
    MapOk (mergeLoop st off na b).statics (mergeLoop st off na b).off 1 ns (mergeLoop st off na b).nargs ∧
      (mergeLoop st off na b).body.Scoped (mergeLoop st off na b).statics.length 1 []
  | .func scope b, st, off, na, hm, h => by
    simp only [mergeLoop]
    simp only [Tc.Scoped] at h
    refine mergeLoop_ok b ⟨fun v hv => ?_, Nat.le_refl _⟩ (by rw [List.length_map]; exact h.2)
    obtain ⟨w, hw, rfl⟩ := List.mem_map.mp hv
    exact (hm.var (h.1 w hw)).more (Nat.le_succ _)
  | .typeVal, _, _, _, hm, h | .var _, _, _, _, hm, h | .letE .., _, _, _, hm, h | .struct _, _, _, _, hm, h | .copy .., _, _, _, hm, h
  | .union .., _, _, _, hm, h | .select .., _, _, _, hm, h | .access .., _, _, _, hm, h | .apply .., _, _, _, hm, h | .list _, _, _, _, hm, h
  | .literal _, _, _, _, hm, h => ⟨hm, h⟩

theorem mapOk_start (n : Nat) : MapOk ((List.range n).map .static) 0 1 n 1 :=
  ⟨fun v hv => by obtain ⟨i, hi, rfl⟩ := List.mem_map.mp hv; exact List.mem_range.mp hi, Nat.le_refl _⟩

theorem merge_scoped {n : Nat} {b : Tc} (h : b.Scoped n 1 []) : (merge n b).2.Scoped n (merge n b).1 [] := by
  have := mergeLoop_ok b (mapOk_start n) (by simpa using h)
  exact Tc.rewrite_scoped this.1 _ this.2

end Verif.Compile
