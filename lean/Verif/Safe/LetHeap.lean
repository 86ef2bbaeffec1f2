import Verif.Safe.Check2
/-
The types of the variables of a let: they are made first and get their values later.
-/
namespace Verif.Elab
open Types
open Compile (Var Tc Tcs Flds Brs)

/-- `l` times the type of a type. -/
inductive TypeChain (h : Heap) : Nat → Ptr → Ptr → Prop where
  | zero {v} : TypeChain h 0 v v
  | succ {l t u v} : h[t]? = some (.type u) → TypeChain h l u v → TypeChain h (l + 1) t v

theorem ends_type {h H : Heap} (hE : Ends h H) {t u : Ptr} (hg : h[t]? = some (.type u)) : H[t]? = some (.type u) := by
  obtain ⟨n', h1, h2⟩ := hE _ _ hg
  rcases h2 with rfl | ⟨_, _, _, h2, _⟩ | ⟨_, _, h2, _⟩
  · exact h1
  · cases h2
  · cases h2

theorem TypeChain.ends {h H : Heap} (hE : Ends h H) {l : Nat} {t v : Ptr} (hc : TypeChain h l t v) : TypeChain H l t v := by
  induction hc with
  | zero => exact .zero
  | succ hg _ ih => exact .succ (ends_type hE hg) ih

theorem TypeChain.lt {h : Heap} (hm : PreHeap h) {l : Nat} {t v : Ptr} (hc : TypeChain h l t v) (ht : t < h.length) : v < h.length := by
  induction hc with
  | zero => exact ht
  | succ hg _ ih => exact ih (hm _ _ hg)

theorem TypeChain.lt_left {h : Heap} {l : Nat} {t v : Ptr} (hc : TypeChain h l t v) (hv : v < h.length) : t < h.length := by
  cases hc with
  | zero => exact hv
  | succ hg _ => exact node_lt hg

theorem is_type {H : Heap} {a p x : Ptr} (hg : H[a]? = some (.type x)) (hi : Is H [] p a) : p = a := by
  cases hi with
  | here => rfl
  | value h => rw [hg] at h; cases h
  | inferred h => rw [hg] at h; cases h
  | unwrap h => rw [hg] at h; cases h

theorem same_typeNode_le {H : Heap} {a b x y : Ptr} (ha : H[a]? = some (.type x)) (hb : H[b]? = some (.type y)) (hs : SameType H [] x y) {path : List Nat} {l : Label} (h : At H [] [] a path l) : At H [] [] b path l := by
  have hfin : Is H [] b b := .here ⟨⟨_, hb⟩, by rw [hb]; simp, by rw [hb]; simp, by rw [hb]; simp⟩
  cases h with
  | root hi hn =>
    cases is_type ha hi
    rw [ha] at hn; cases hn
    exact At.root (n := .type y) hfin hb
  | child hi hn hc hr =>
    cases is_type ha hi
    rw [ha] at hn; cases hn
    rename_i i c path
    cases i with
    | zero =>
      simp only [Node.children, List.getElem?_cons_zero, Option.some.injEq] at hc
      subst hc
      exact .child (c := y) hfin hb (by simp [Node.children]) (by simpa [Node.binders] using (hs _ _).mp (by simpa [Node.binders] using hr))
    | succ i => simp [Node.children] at hc

theorem same_typeNode {H : Heap} {a b x y : Ptr} (ha : H[a]? = some (.type x)) (hb : H[b]? = some (.type y)) (hs : SameType H [] x y) : SameType H [] a b :=
  fun _ _ => ⟨same_typeNode_le ha hb hs, same_typeNode_le hb ha hs.symm⟩

theorem same_chain {H : Heap} {l : Nat} {a b v w : Ptr} (ha : TypeChain H l a v) (hb : TypeChain H l b w) (hs : SameType H [] v w) : SameType H [] a b := by
  induction ha generalizing b with
  | zero => cases hb; exact hs
  | succ hg _ ih =>
    cases hb with
    | succ hg' hb' => exact same_typeNode hg hg' (ih hb' hs)

theorem assignVar_ok {h : Heap} {l : Nat} {t v : Ptr} {k0 : Kind} (hc : TypeChain h l t v) (hv : h[v]? = some (.var k0 none)) {n : Nat} {d : Ptr} {h' : Heap} (hr : assignVarType n h t d = .ok h') :
    ∃ w k m, TypeChain h l d w ∧ getKind m h w = .ok k ∧ h' = h.set v (.var k (some w)) := by
  induction hc generalizing n d with
  | zero =>
    cases n with
    | zero => cases hr
    | succ n =>
      rw [assignVarType, R.bind_ok] at hr
      obtain ⟨m, h1, h2⟩ := hr
      rw [Elab.get_ok, hv] at h1; cases h1
      rw [R.bind_ok] at h2
      obtain ⟨k, h3, h4⟩ := h2
      cases h4
      exact ⟨d, k, n, .zero, h3, rfl⟩
  | succ hg _ ih =>
    cases n with
    | zero => cases hr
    | succ n =>
      rw [assignVarType, R.bind_ok] at hr
      obtain ⟨m, h1, h2⟩ := hr
      rw [Elab.get_ok, hg] at h1; cases h1
      rw [R.bind_ok] at h2
      obtain ⟨m, h3, h4⟩ := h2
      rw [Elab.get_ok] at h3
      cases m with
      | type w =>
        obtain ⟨w', k, m, g1, g2, g3⟩ := ih hv h4
        exact ⟨w', k, m, .succ h3 g1, g2, g3⟩
      | _ => cases h4

/-- The types of the variables of a let before they have values; `vs` are the fresh type variables. -/
inductive BTs (h : Heap) (L : Nat) : List Binding → List Ptr → List Ptr → Prop where
  | nil : BTs h L [] [] []
  | var {b k bs t ts v vs k0} : b.ann = .inl k → TypeChain h (kindLevel k) t v → h[v]? = some (.var k0 none) → L ≤ v → v ∉ vs → BTs h L bs ts vs → BTs h L (b :: bs) (t :: ts) (v :: vs)
  | typ {b e bs t ts vs} : b.ann = .inr e → t < h.length → BTs h L bs ts vs → BTs h L (b :: bs) (t :: ts) vs

theorem BTs.prefix {h h' : Heap} {L L' : Nat} (hp : h <+: h') (hl : L' ≤ L) {bs ts vs} (hb : BTs h L bs ts vs) : BTs h' L' bs ts vs := by
  induction hb with
  | nil => exact .nil
  | var h1 h2 h3 h4 h5 _ ih => exact .var h1 (h2.ends (.prefix hp)) (prefix_node hp h3) (Nat.le_trans hl h4) h5 ih
  | typ h1 h2 _ ih => exact .typ h1 (prefix_lt hp h2) ih

theorem BTs.ge {h : Heap} {L : Nat} {bs ts vs} (hb : BTs h L bs ts vs) : ∀ v ∈ vs, L ≤ v := by
  induction hb with
  | nil => simp
  | var _ _ _ h4 _ _ ih =>
    simp only [List.mem_cons, forall_eq_or_imp]
    exact ⟨h4, ih⟩
  | typ _ _ _ ih => exact ih

theorem BTs.lt {h : Heap} {L : Nat} {bs ts vs} (hb : BTs h L bs ts vs) : ∀ t ∈ ts, t < h.length := by
  induction hb with
  | nil => simp
  | var _ h2 h3 _ _ _ ih =>
    simp only [List.mem_cons, forall_eq_or_imp]
    exact ⟨h2.lt_left (node_lt h3), ih⟩
  | typ _ h2 _ ih =>
    simp only [List.mem_cons, forall_eq_or_imp]
    exact ⟨h2, ih⟩

theorem BTs.length {h : Heap} {L : Nat} {bs ts vs} (hb : BTs h L bs ts vs) : ts.length = bs.length := by
  induction hb <;> simp [*]

theorem wrapType_chain : (l : Nat) → {h : Heap} → {t v : Ptr} → {l0 : Nat} → TypeChain h l0 t v → t < h.length → MonoHeap h →
    MonoHeap (wrapType l h t).1 ∧ h <+: (wrapType l h t).1 ∧ TypeChain (wrapType l h t).1 (l + l0) (wrapType l h t).2 v
  | 0, h, t, v, l0, hc, ht, hm => ⟨hm, List.prefix_rfl, by simpa [wrapType] using hc⟩
  | l + 1, h, t, v, l0, hc, ht, hm => by
    rw [wrapType]
    obtain ⟨g1, g2, g3⟩ := wrapType_chain l (h := (new h (.type t)).1) (t := (new h (.type t)).2) (v := v) (l0 := l0 + 1) (.succ (new_get _ _) (hc.ends (.prefix (new_prefix _ _)))) (new_lt _ _)
      (hm.new ht (by simp))
    exact ⟨g1, (new_prefix _ _).trans g2, by rw [show l + 1 + l0 = l + (l0 + 1) by omega]; exact g3⟩

theorem newVarType_mono {h h' : Heap} (hm : MonoHeap h) {l : Nat} {t : Ptr} (hr : newVarType h (.basic l) = .ok (h', t)) :
    MonoHeap h' ∧ h <+: h' ∧ ∃ v k0, TypeChain h' l t v ∧ h'[v]? = some (.var k0 none) ∧ h.length ≤ v := by
  rw [newVarType] at hr
  simp only at hr
  rw [R.bind_ok] at hr
  obtain ⟨k, h1, h2⟩ := hr
  obtain ⟨l1, rfl⟩ := levelAdjusted_basic ⟨_, rfl⟩ h1
  have hn : NodeIn h (.var (.basic l1) none) := ⟨⟨_, rfl⟩, by simp⟩
  have hm1 := hm.new hn (by simp)
  obtain ⟨g1, g2, g3⟩ := wrapType_chain l (h := (new h (.var (.basic l1) none)).1) (t := (new h (.var (.basic l1) none)).2) .zero (new_lt _ _) hm1
  have e : wrapType l (new h (.var (.basic l1) none)).1 (new h (.var (.basic l1) none)).2 = (h', t) := by
    simpa [kindLevel] using h2
  rw [e] at g1 g2 g3
  refine ⟨g1, (new_prefix _ _).trans g2, (new h (.var (.basic l1) none)).2, .basic l1, by simpa using g3, prefix_node g2 (new_get _ _), ?_⟩
  simp [Types.new]

end Verif.Elab
