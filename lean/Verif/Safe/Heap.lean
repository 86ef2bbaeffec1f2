import Verif.Safe.Typed
import Verif.Elab.Poly
/-
What the functions on types do in a heap without polymorphic types.
-/
namespace Verif.Elab
open Types
open Compile (Var Tc Tcs Flds Brs)

theorem prefix_node {h h' : Heap} (hp : h <+: h') {p : Nat} {n : Node} (hg : h[p]? = some n) : h'[p]? = some n := by
  obtain ⟨x, rfl⟩ := hp
  rw [List.getElem?_append_left (List.getElem?_eq_some_iff.mp hg).1]; exact hg

theorem prefix_lt {h h' : Heap} (hp : h <+: h') {p : Nat} (hl : p < h.length) : p < h'.length := Nat.lt_of_lt_of_le hl hp.length_le

theorem NodeIn.prefix {h h' : Heap} (hp : h <+: h') {n : Node} (hn : NodeIn h n) : NodeIn h' n := by
  cases n with
  | data dt fs => exact fun f hf => prefix_lt hp (hn f hf)
  | func a r => exact ⟨prefix_lt hp hn.1, prefix_lt hp hn.2⟩
  | poly a b => exact hn
  | polyApply a b => exact hn
  | package path o => exact hn
  | abstract q u =>
    obtain ⟨h1, path, h2⟩ := hn
    exact ⟨prefix_lt hp h1, path, prefix_node hp h2⟩
  | var k v => exact ⟨hn.1, fun w hw => prefix_lt hp (hn.2 w hw)⟩
  | type t => exact prefix_lt hp hn

theorem PreHeap.new {h : Heap} (hm : PreHeap h) {n : Node} (hn : NodeIn h n) : PreHeap (new h n).1 := by
  intro p m hg
  have hp : h <+: (Types.new h n).1 := List.prefix_append _ _
  simp only [Types.new] at hg
  by_cases hl : p < h.length
  · rw [List.getElem?_append_left hl] at hg
    exact (hm p m hg).prefix hp
  · rw [List.getElem?_append_right (by omega)] at hg
    have : p - h.length = 0 := by
      rcases Nat.eq_zero_or_pos (p - h.length) with h | h
      · exact h
      · rw [List.getElem?_eq_none (by simp; omega)] at hg; cases hg
    rw [this] at hg
    simp at hg; subst hg
    exact hn.prefix hp

theorem is_prefix {h h' : Heap} (hm : PreHeap h) (hp : h <+: h') {q p : Ptr} (hi : Is h [] q p) : Is h' [] q p := by
  induction hi with
  | here hf =>
    obtain ⟨n, hn⟩ := hf.node
    refine .here (final_normal (prefix_node hp hn) (fun k v e => hf.noValue k v (by rw [hn, e])) rfl ?_)
    intro q t path e
    subst e
    obtain ⟨_, path', hq⟩ := hm _ _ hn
    rw [prefix_node hp hq]; simp
  | value hg _ ih => exact .value (prefix_node hp hg) ih
  | inferred _ ha => simp [assigned] at ha
  | unwrap hg hq _ ih => exact .unwrap (prefix_node hp hg) (prefix_node hp hq) ih

theorem MonoHeap.new {h : Heap} (hm : MonoHeap h) {n : Node} (hn : NodeIn h n) (hv : ∀ k w, n ≠ .var k (some w)) : MonoHeap (new h n).1 := by
  have hpre := hm.nodes.new hn
  refine ⟨hpre, fun p hl => ?_⟩
  have hp : h <+: (Types.new h n).1 := List.prefix_append _ _
  by_cases hlt : p < h.length
  · obtain ⟨q, hq⟩ := hm.proper p hlt
    exact ⟨q, is_prefix hm.nodes hp hq⟩
  · have : p = h.length := by simp [Types.new] at hl; omega
    subst this
    exact ⟨h.length, .here (hpre.final (n := n) (by simp [Types.new]) hv)⟩

theorem new_lt (h : Heap) (n : Node) : (new h n).2 < (new h n).1.length := by simp [Types.new]
theorem new_get (h : Heap) (n : Node) : (new h n).1[(new h n).2]? = some n := by simp [Types.new]
theorem new_prefix (h : Heap) (n : Node) : h <+: (new h n).1 := List.prefix_append _ _

section
variable {h : Heap} {n : Nat}

theorem normalType_mono (hm : PreHeap h) {h' : Heap} {t p : Ptr} (ht : t < h.length) (hr : normalType n h t = .ok (h', p)) :
    h' = h ∧ NormalTo h p t ∧ p < h.length := by
  obtain ⟨h1, h2⟩ := normalType_inv n hm.mono0 ht hr
  exact ⟨h1, h2, h2.mem hm.mono0 ht⟩

theorem node_lt {p : Ptr} {m : Node} (hg : h[p]? = some m) : p < h.length := (List.getElem?_eq_some_iff.mp hg).1

theorem normal_isNode (hm : PreHeap h) {p t : Ptr} {m : Node} (hn : NormalTo h p t) (hg : h[p]? = some m) : IsNode h t m := ⟨p, hm.is_normal hn, hg⟩

/-- A chain of variables is still there at the end. -/
theorem normal_ends {H : Heap} {p t : Ptr} (hn : NormalTo h p t) (he : Ends h H) (q : Ptr) : Is H [] q t ↔ Is H [] q p := by
  induction hn with
  | here => exact Iff.rfl
  | value hg _ ih =>
    obtain ⟨n', h1, h2⟩ := he _ _ hg
    rcases h2 with rfl | ⟨k1, k2, v', h2, _⟩ | ⟨path, o, h2, _⟩
    · exact (is_value h1 q).trans ih
    · cases h2
    · cases h2

theorem same_of_is {H : Heap} {a b : Ptr} (hi : ∀ q, Is H [] q a ↔ Is H [] q b) : SameType H [] a b := fun path l => Is.at hi [] path l

theorem normal_same {H : Heap} {p t : Ptr} (hn : NormalTo h p t) (he : Ends h H) : SameType H [] t p := same_of_is (normal_ends hn he)

/-- At the end an abstract type is the type inside. -/
theorem abstract_same {H : Heap} (he : Ends h H) (ho : Opened Ca H) {a q u : Ptr} (hg : h[a]? = some (.abstract q u)) : SameType H [] a u := by
  obtain ⟨n', h1, h2⟩ := he _ _ hg
  rcases h2 with rfl | ⟨k1, k2, v', h2, _⟩ | ⟨path, o, h2, _⟩
  · obtain ⟨path, hq⟩ := ho.inside _ _ _ h1
    exact same_of_is (is_unwrap h1 hq)
  · cases h2
  · cases h2

theorem typesEqual_same (hm : MonoHeap h) {a b : Ptr} (ha : a < h.length) (hb : b < h.length) (he : fbleTypesEqual n h a b = .ok true) {H : Heap} (hE : Ends h H) (hO : Uniform Ca H) :
    SameType H [] a b := same_ends hE hm.mono hO.later ha hb (C23_sound hm.mono ha hb he)

theorem levelAdjusted_basic {k k' : Kind} {i : Int} (hk : ∃ l, k = .basic l) (h : levelAdjusted k i = .ok k') : ∃ l, k' = .basic l := by
  obtain ⟨l, rfl⟩ := hk
  rw [levelAdjusted] at h
  split at h
  · cases h; exact ⟨_, rfl⟩
  · cases h

theorem getKind_basic (hm : PreHeap h) : (n : Nat) → {t : Ptr} → {k : Kind} → t < h.length → getKind n h t = .ok k → ∃ l, k = .basic l
  | 0, t, k, _, hr => by cases hr
  | n + 1, t, k, ht, hr => by
    rw [getKind, R.bind_ok] at hr
    obtain ⟨m, h1, h2⟩ := hr
    rw [Elab.get_ok] at h1
    have hi := hm t m h1
    cases m with
    | data => cases h2; exact ⟨_, rfl⟩
    | func => cases h2; exact ⟨_, rfl⟩
    | package => cases h2; exact ⟨_, rfl⟩
    | abstract => cases h2; exact ⟨_, rfl⟩
    | poly => exact hi.elim
    | polyApply => exact hi.elim
    | var => cases h2; exact hi.1
    | type u =>
      simp only [R.bind_ok] at h2
      obtain ⟨k1, h3, h4⟩ := h2
      exact levelAdjusted_basic (getKind_basic hm n hi h3) h4

theorem depoly_mono (hm : PreHeap h) {h' : Heap} {t p : Ptr} {vars : Vars} (ht : t < h.length) (hr : depoly n h t = .ok (h', p, vars)) :
    h' = h ∧ vars = [] ∧ NormalTo h p t ∧ p < h.length := by
  cases n with
  | zero => cases hr
  | succ n =>
    rw [depoly, R.bind_ok] at hr
    obtain ⟨⟨h1, p1⟩, h2, h3⟩ := hr
    obtain ⟨rfl, h4, h5⟩ := normalType_mono hm ht h2
    rw [R.bind_ok] at h3
    obtain ⟨m, h6, h7⟩ := h3
    rw [Elab.get_ok] at h6
    cases m with
    | poly => exact (hm _ _ h6).elim
    | _ => cases h7; exact ⟨rfl, rfl, h4, h5⟩

theorem vars_nil {vars : Vars} (h : vars.map (·.1) = []) : vars = [] := by simpa using h

theorem inferLoop_mono (hm : MonoHeap h) : (as bs : List Ptr) → {h' : Heap} → {vars : Vars} → {ok : Bool} → (∀ a ∈ as, a < h.length) → (∀ b ∈ bs, b < h.length) →
    inferLoop n [] as bs h = .ok (h', vars, ok) → h' = h ∧ vars = [] ∧ (ok = true → as.length = bs.length → All2 (SameType h []) as bs)
  | [], bs, h', vars, ok, _, _, hr => by
    rw [inferLoop] at hr
    · cases hr
      refine ⟨rfl, rfl, fun _ hl => ?_⟩
      cases bs with
      | nil => exact .nil
      | cons => simp at hl
    · intro a as b bs e; cases e
  | a :: as, [], h', vars, ok, _, _, hr => by
    rw [inferLoop] at hr
    · cases hr
      exact ⟨rfl, rfl, fun _ hl => by simp at hl⟩
    · intro a as b bs _ e; cases e
  | a :: as, b :: bs, h', vars, ok, ha, hb, hr => by
    rw [inferLoop, R.bind_ok] at hr
    obtain ⟨⟨h1, v1, b1⟩, h2, h3⟩ := hr
    have hk := typesEqual_keeps hm.nodes.mono0 hm.nodes.mono0 (fun _ h => h) n [] [] a b (ha _ (by simp)) (hb _ (by simp)) (by intro v t hv; simp [assigned] at hv) _ _ _ h2
    obtain ⟨e1, _, _, h4⟩ := hk
    have e1 := e1.symm
    subst e1
    cases vars_nil h4
    rw [R.bind_ok] at h3
    obtain ⟨⟨h5, v2, b2⟩, h6, h7⟩ := h3
    obtain ⟨e2, e3, h8⟩ := inferLoop_mono hm as bs (fun x hx => ha x (by simp [hx])) (fun x hx => hb x (by simp [hx])) h6
    have e2 := e2.symm
    subst e2
    subst e3
    cases h7
    refine ⟨rfl, rfl, fun hok hl => ?_⟩
    rw [Bool.and_eq_true] at hok
    obtain ⟨rfl, rfl⟩ := hok
    refine .cons (C23_sound hm.mono (ha _ (by simp)) (hb _ (by simp)) (n := n) ?_) (h8 rfl (by simpa using hl))
    rw [fbleTypesEqual, h2]; rfl

theorem typeInferArgs_mono {s s' : S} (hm : MonoHeap s.heap) {ex ac : List Ptr} {poly r : Ptr × Tc} (he : ∀ a ∈ ex, a < s.heap.length) (ha : ∀ a ∈ ac, a < s.heap.length)
    (hr : typeInferArgs n [] ex ac poly s = .ok (s', some r)) : s' = s ∧ r = poly ∧ All2 (SameType s.heap []) ex ac := by
  unfold typeInferArgs at hr
  split at hr
  · cases (TM.pure_ok.mp hr).2
  · rename_i hl
    obtain ⟨h1, ⟨v1, ok⟩, h2, h3⟩ := TM.liftH_bind.mp hr
    obtain ⟨rfl, rfl, h4⟩ := inferLoop_mono hm ex ac he ha h2
    simp only at h3
    cases ok with
    | false => cases (TM.pure_ok.mp h3).2
    | true =>
      obtain ⟨e1, e2⟩ := TM.pure_ok.mp h3
      cases e2
      exact ⟨e1, rfl, h4 rfl (by simpa using hl)⟩

theorem valueOfType_inv {t : Ptr} {o : Option Ptr} (hr : valueOfType h t = .ok o) {u : Ptr} (ho : o = some u) : h[t]? = some (.type u) := by
  rw [valueOfType, R.bind_ok] at hr
  obtain ⟨m, h1, h2⟩ := hr
  rw [Elab.get_ok] at h1
  subst ho
  cases m with
  | type => cases h2; exact h1
  | _ => cases h2

/-- The type is a list type. -/
theorem listElementType_mono (hm : MonoHeap h) {t e : Ptr} (ht : t < h.length) (hr : listElementType n h t = .ok (some e)) :
    e < h.length ∧ ∀ H, Ends h H → Uniform Ca H → IsList H t e := by
  rw [listElementType, R.bind_ok] at hr
  obtain ⟨⟨h1, d⟩, h2, h3⟩ := hr
  obtain ⟨rfl, h4, h5⟩ := normalType_mono hm.nodes ht h2
  rw [R.bind_ok] at h3
  obtain ⟨m, h6, h7⟩ := h3
  rw [Elab.get_ok] at h6
  split at h7
  · rename_i x1 c x2 z
    have hin := hm.nodes _ _ h6
    have hc : c < h1.length := hin (x1, c) (by simp)
    have hz : z < h1.length := hin (x2, z) (by simp)
    rw [R.bind_ok] at h7
    obtain ⟨⟨h8, d2⟩, h9, h10⟩ := h7
    obtain ⟨rfl, h11, h12⟩ := normalType_mono hm.nodes hz h9
    rw [R.bind_ok] at h10
    obtain ⟨m2, h13, h14⟩ := h10
    rw [Elab.get_ok] at h13
    split at h14
    · rw [R.bind_ok] at h14
      obtain ⟨⟨h15, d3⟩, h16, h17⟩ := h14
      obtain ⟨rfl, h18, h19⟩ := normalType_mono hm.nodes hc h16
      rw [R.bind_ok] at h17
      obtain ⟨m3, h20, h21⟩ := h17
      rw [Elab.get_ok] at h20
      split at h21
      · rename_i y1 elem y2 tail
        have hin3 := hm.nodes _ _ h20
        have htail : tail < h15.length := hin3 (y2, tail) (by simp)
        rw [R.bind_ok] at h21
        obtain ⟨b, h22, h23⟩ := h21
        cases b with
        | false => cases h23
        | true =>
          cases h23
          refine ⟨hin3 (y1, e) (by simp), fun H hE hO => ?_⟩
          exact ⟨x1, x2, c, z, y1, y2, tail, ends_isNode hE (normal_isNode hm.nodes h4 h6) (by simp) (by simp) (by simp),
            ends_isNode hE (normal_isNode hm.nodes h18 h20) (by simp) (by simp) (by simp), ends_isNode hE (normal_isNode hm.nodes h11 h13) (by simp) (by simp) (by simp),
            (typesEqual_same hm ht htail h22 hE hO).symm⟩
      · cases h21
    · cases h14
  · cases h7

end
end Verif.Elab
