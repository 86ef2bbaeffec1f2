import Verif.Types.Infer
/-!
# Types of lists

lib/type.c:1064-1103 `FbleListElementType`.
-/
namespace Verif.Types

/-- `t` is a union of two types, the second the empty struct, the first a struct of two fields: one
of type `e` and one of type `t` again. -/
def ListOf (h : Heap) (t e : Ptr) : Prop :=
  ∃ d x1 x2 c z d1 y1 y2 tail d2, Is h [] d t ∧ h[d]? = some (.data .union [(x1, c), (x2, z)]) ∧
    Is h [] d1 c ∧ h[d1]? = some (.data .struct [(y1, e), (y2, tail)]) ∧ Is h [] d2 z ∧ h[d2]? = some (.data .struct []) ∧ SameType h [] tail t

/-- For types that are not polymorphic, with no package open, the element type is found exactly
for the types of lists. -/
theorem C59_list {h : Heap} {S : Ptr → Prop} (hm : Mono h [] S) (hop : ∀ t q u path, S t → h[t]? = some (.abstract q u) → h[q]? ≠ some (.package path false)) {t : Ptr} (ht : S t) :
    ∃ N, ∀ n ≥ N, ∃ o, listElementType n h t = .ok o ∧ ∀ e, o = some e ↔ ListOf h t e := by
  obtain ⟨B, hB⟩ := chain_bound hm
  have hS := hm.mono0
  have isN : ∀ {a p d}, S a → Chain h p a d → ∀ q, Is h [] q a ↔ q = p := by
    intro a p d ha hc q
    rw [hc.normalTo.is q]
    obtain ⟨np, h1, h2⟩ := hc.normalTo.node
    have hp := hc.normalTo.mem hS ha
    exact is_final (final_normal h1 h2 rfl fun q' t' path he => hop p q' t' path hp (he ▸ h1)) q
  obtain ⟨d, l, hd, hl⟩ := hB t ht
  obtain ⟨nd, hnd, hnd'⟩ := hd.normalTo.node
  have hsd := hd.normalTo.mem hS ht
  have hid := isN ht hd
  have none_ : ∀ n, B < n → (∀ e, ¬ ListOf h t e) → listElementType n h t = .ok none → ∃ o, listElementType n h t = .ok o ∧ ∀ e, o = some e ↔ ListOf h t e :=
    fun n _ hno he => ⟨none, he, fun e => ⟨fun hc => (by cases hc), fun hc => absurd hc (hno e)⟩⟩
  by_cases hu : ∃ x1 c x2 z, nd = .data .union [(x1, c), (x2, z)]
  · obtain ⟨x1, c, x2, z, rfl⟩ := hu
    have hc : S c := hS.child hsd hnd (by simp [Node.children])
    have hz : S z := hS.child hsd hnd (by simp [Node.children])
    obtain ⟨d2, l2, hd2, hl2⟩ := hB z hz
    obtain ⟨n2, hn2, hn2'⟩ := hd2.normalTo.node
    obtain ⟨d1, l1, hd1, hl1⟩ := hB c hc
    obtain ⟨n1, hn1, hn1'⟩ := hd1.normalTo.node
    have hsd1 := hd1.normalTo.mem hS hc
    have hid1 := isN hc hd1
    have hid2 := isN hz hd2
    by_cases h2 : n2 = .data .struct []
    · subst h2
      by_cases h1 : ∃ y1 e y2 tail, n1 = .data .struct [(y1, e), (y2, tail)]
      · obtain ⟨y1, e, y2, tail, rfl⟩ := h1
        have htail : S tail := hS.child hsd1 hn1 (by simp [Node.children])
        obtain ⟨N, hN⟩ := typesEqual_correct hm ht htail
        refine ⟨N + B + 2, fun n hn => ?_⟩
        obtain ⟨r, hr1, hr2⟩ := hN n (by omega)
        have run : listElementType n h t = .ok (if r then some e else none) := by
          rw [listElementType, normalType_of_chain hS hd ht n (by omega)]
          show (do match ← get h d with | _ => _) = _
          simp only [get, hnd]
          show (do let (h, d) ← normalType n h z; _) = _
          rw [normalType_of_chain hS hd2 hz n (by omega)]
          show (do match ← get h d2 with | _ => _) = _
          simp only [get, hn2]
          show (do let (h, d) ← normalType n h c; _) = _
          rw [normalType_of_chain hS hd1 hc n (by omega)]
          show (do match ← get h d1 with | _ => _) = _
          simp only [get, hn1]
          show (do if ← fbleTypesEqual n h t tail then _ else _) = _
          rw [hr1]
          cases r <;> rfl
        refine ⟨_, run, fun e' => ?_⟩
        constructor
        · intro he
          cases r with
          | false => cases he
          | true =>
            cases he
            exact ⟨d, x1, x2, c, z, d1, y1, y2, tail, d2, (hid d).mpr rfl, hnd, (hid1 d1).mpr rfl, hn1, (hid2 d2).mpr rfl, hn2, (hr2.mp rfl).symm⟩
        · rintro ⟨d', x1', x2', c', z', d1', y1', y2', tail', d2', g1, g2, g3, g4, g5, g6, g7⟩
          cases (hid d').mp g1
          rw [hnd] at g2; cases g2
          cases (hid1 d1').mp g3
          rw [hn1] at g4; cases g4
          rw [hr2.mpr g7.symm]
          rfl
      · refine ⟨B + 2, fun n hn => none_ n (by omega) ?_ ?_⟩
        · rintro e' ⟨d', x1', x2', c', z', d1', y1', y2', tail', d2', g1, g2, g3, g4, g5, g6, g7⟩
          cases (hid d').mp g1
          rw [hnd] at g2; cases g2
          cases (hid1 d1').mp g3
          rw [hn1] at g4; cases g4
          exact h1 ⟨_, _, _, _, rfl⟩
        · rw [listElementType, normalType_of_chain hS hd ht n (by omega)]
          show (do match ← get h d with | _ => _) = _
          simp only [get, hnd]
          show (do let (h, d) ← normalType n h z; _) = _
          rw [normalType_of_chain hS hd2 hz n (by omega)]
          show (do match ← get h d2 with | _ => _) = _
          simp only [get, hn2]
          show (do let (h, d) ← normalType n h c; _) = _
          rw [normalType_of_chain hS hd1 hc n (by omega)]
          show (do match ← get h d1 with | _ => _) = _
          simp only [get, hn1]
          show (match n1 with | .data .struct [(_, elem), (_, tail)] => _ | _ => _) = _
          split
          · next heq => exact absurd ⟨_, _, _, _, rfl⟩ h1
          · rfl
    · refine ⟨B + 2, fun n hn => none_ n (by omega) ?_ ?_⟩
      · rintro e' ⟨d', x1', x2', c', z', d1', y1', y2', tail', d2', g1, g2, g3, g4, g5, g6, g7⟩
        cases (hid d').mp g1
        rw [hnd] at g2; cases g2
        cases (hid2 d2').mp g5
        rw [hn2] at g6; cases g6
        exact h2 rfl
      · rw [listElementType, normalType_of_chain hS hd ht n (by omega)]
        show (do match ← get h d with | _ => _) = _
        simp only [get, hnd]
        show (do let (h, d) ← normalType n h z; _) = _
        rw [normalType_of_chain hS hd2 hz n (by omega)]
        show (do match ← get h d2 with | _ => _) = _
        simp only [get, hn2]
        show (match n2 with | .data .struct [] => _ | _ => _) = _
        split
        · next heq => exact absurd rfl h2
        · rfl
  · refine ⟨B + 2, fun n hn => none_ n (by omega) ?_ ?_⟩
    · rintro e' ⟨d', x1', x2', c', z', d1', y1', y2', tail', d2', g1, g2, g3, g4, g5, g6, g7⟩
      cases (hid d').mp g1
      rw [hnd] at g2; cases g2
      exact hu ⟨_, _, _, _, rfl⟩
    · rw [listElementType, normalType_of_chain hS hd ht n (by omega)]
      show (do match ← get h d with | _ => _) = _
      simp only [get, hnd]
      show (match nd with | .data .union [(_, cons), (_, nil)] => _ | _ => _) = _
      split
      · next heq => exact absurd ⟨_, _, _, _, rfl⟩ hu
      · rfl

example : ListOf listHeap 0 1 :=
  have fin : ∀ (p : Nat) n, listHeap[p]? = some n → (∀ k v, n ≠ .var k (some v)) → (∀ q t, n ≠ .abstract q t) → Is listHeap [] p p :=
    fun p n hn hv ha => .here (final_normal hn hv rfl fun q t path he => absurd he (ha q t))
  ⟨3, _, _, 2, 1, 2, _, _, 0, 1, .value rfl (fin 3 _ rfl (by simp) (by simp)), rfl, fin 2 _ rfl (by simp) (by simp), rfl, fin 1 _ rfl (by simp) (by simp), rfl, fun _ _ => Iff.rfl⟩

end Verif.Types
