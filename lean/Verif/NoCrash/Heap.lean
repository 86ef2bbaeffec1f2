import Verif.Safe.Let
/-
Types the type checker can use without a failed assertion: functions on types without polymorphism do not crash on them.
-/
namespace Verif.NoCrash
open Types Elab

/-- What a type refers to. -/
def kids : Node → List Ptr
  | .var _ (some v) => [v]
  | n => n.children

/-- All types of the heap, used or not, are not polymorphic, and refer to types; variables are types, not values. -/
structure Pre (h : Heap) : Prop where
  nodes : PreHeap h
  kinds : ∀ (p : Nat) k v, h[p]? = some (.var k v) → k = .basic 0
  order : ∀ (p u : Nat), h[p]? = some (.type u) → u < p
  vals : ∀ (p : Nat) k v, h[p]? = some (.var k (some v)) → ∀ u, h[v]? ≠ some (.type u)

inductive Reach (h : Heap) (t : Ptr) : Ptr → Prop where
  | refl : Reach h t t
  | step {u n c} : Reach h t u → h[u]? = some n → c ∈ kids n → Reach h t c

/-- No part of the type is a variable that only stands for itself. -/
structure Fin (h : Heap) (t : Ptr) : Prop where
  lt : t < h.length
  ends : ∀ u, Reach h t u → ∃ p, NormalTo h p u

theorem Reach.trans {h : Heap} {a b c : Ptr} (h1 : Reach h a b) (h2 : Reach h b c) : Reach h a c := by
  induction h2 with
  | refl => exact h1
  | step _ hg hc ih => exact .step ih hg hc

theorem Pre.kid {h : Heap} (hp : Pre h) {t c : Ptr} {n : Node} (hg : h[t]? = some n) (hc : c ∈ kids n) : c < h.length := by
  have hn := hp.nodes t n hg
  cases n with
  | data dt fs =>
    obtain ⟨f, hf, rfl⟩ := List.mem_map.mp hc
    exact hn f hf
  | func a r =>
    simp only [kids, Node.children, List.mem_cons, List.not_mem_nil, or_false] at hc
    rcases hc with rfl | rfl
    · exact hn.1
    · exact hn.2
  | poly => exact hn.elim
  | polyApply => exact hn.elim
  | package => simp [kids, Node.children] at hc
  | abstract q u =>
    simp only [kids, Node.children, List.mem_cons, List.not_mem_nil, or_false] at hc
    rcases hc with rfl | rfl
    · obtain ⟨path, hq⟩ := hn.2
      exact node_lt hq
    · exact hn.1
  | var k v =>
    cases v with
    | none => simp [kids, Node.children] at hc
    | some v =>
      simp only [kids, List.mem_singleton] at hc
      subst hc
      exact hn.2 _ rfl
  | type u =>
    simp only [kids, Node.children, List.mem_singleton] at hc
    subst hc
    exact hn

theorem Fin.kid {h : Heap} (hp : Pre h) {t c : Ptr} {n : Node} (hf : Fin h t) (hg : h[t]? = some n) (hc : c ∈ kids n) : Fin h c :=
  ⟨hp.kid hg hc, fun u hu => hf.ends u ((Reach.step .refl hg hc).trans hu)⟩

theorem Fin.norm {h : Heap} (hp : Pre h) {t p : Ptr} (hn : NormalTo h p t) (hf : Fin h t) : Fin h p := by
  induction hn with
  | here => exact hf
  | value hg _ ih => exact ih (hf.kid hp hg (by simp [kids]))

theorem NormalTo.prefix {h h' : Heap} (hp : h <+: h') {t p : Ptr} (hn : NormalTo h p t) : NormalTo h' p t := by
  induction hn with
  | here hg hv => exact .here (prefix_node hp hg) hv
  | value hg _ ih => exact .value (prefix_node hp hg) ih

theorem Reach.back {h h' : Heap} (hm : Pre h) (hp : h <+: h') {t u : Ptr} (ht : t < h.length) (hr : Reach h' t u) : Reach h t u ∧ u < h.length := by
  induction hr with
  | refl => exact ⟨.refl, ht⟩
  | step _ hg hc ih =>
    obtain ⟨h1, h2⟩ := ih
    have := prefix_node hp (List.getElem?_eq_getElem h2)
    rw [this] at hg
    cases hg
    exact ⟨.step h1 (List.getElem?_eq_getElem h2) hc, hm.kid (List.getElem?_eq_getElem h2) hc⟩

theorem Fin.prefix {h h' : Heap} (hm : Pre h) (hp : h <+: h') {t : Ptr} (hf : Fin h t) : Fin h' t :=
  ⟨prefix_lt hp hf.lt, fun u hu => by
    obtain ⟨p, hn⟩ := hf.ends u (Reach.back hm hp hf.lt hu).1
    exact ⟨p, NormalTo.prefix hp hn⟩⟩

/-! ### New types -/

theorem Pre.new {h : Heap} (hm : Pre h) {n : Node} (hn : NodeIn h n) (hk : ∀ k v, n = .var k v → k = .basic 0 ∧ v = none) : Pre (new h n).1 := by
  have cases' : ∀ (p : Nat) m, (Types.new h n).1[p]? = some m → h[p]? = some m ∨ p = h.length ∧ m = n := by
    intro p m hg
    simp only [Types.new] at hg
    by_cases hl : p < h.length
    · rw [List.getElem?_append_left hl] at hg
      exact .inl hg
    · have hp : p < (h ++ [n]).length := (List.getElem?_eq_some_iff.mp hg).1
      simp only [List.length_append, List.length_singleton] at hp
      rw [List.getElem?_append_right (by omega)] at hg
      have := List.mem_of_getElem? hg
      simp only [List.mem_singleton] at this
      exact .inr ⟨by omega, this⟩
  refine ⟨hm.nodes.new hn, fun p k v hg => ?_, fun p u hg => ?_, fun p k v hg u hu => ?_⟩
  · rcases cases' p _ hg with hg | ⟨-, rfl⟩
    · exact hm.kinds p k v hg
    · exact (hk k v rfl).1
  · rcases cases' p _ hg with hg | ⟨rfl, rfl⟩
    · exact hm.order p u hg
    · exact hn
  · rcases cases' p _ hg with hg | ⟨-, rfl⟩
    · have hv := (hm.nodes p _ hg).2 v rfl
      rw [show (Types.new h n).1 = h ++ [n] from rfl, List.getElem?_append_left hv] at hu
      exact hm.vals p k v hg u hu
    · cases (hk k (some v) rfl).2

theorem Fin.new {h : Heap} (hm : Pre h) {n : Node} (hk : ∀ c ∈ kids n, Fin h c) (hv : ∀ k w, n ≠ .var k (some w)) : Fin (new h n).1 (new h n).2 := by
  refine ⟨new_lt _ _, fun u hu => ?_⟩
  have hself : ∃ p, NormalTo (Types.new h n).1 p (Types.new h n).2 := ⟨_, .here (new_get _ _) hv⟩
  have : u = (Types.new h n).2 ∨ Fin (Types.new h n).1 u := by
    induction hu with
    | refl => exact .inl rfl
    | step _ hg hc ih =>
      rcases ih with rfl | ih
      · rw [new_get] at hg
        cases hg
        exact .inr ((hk _ hc).prefix hm (new_prefix _ _))
      · refine .inr ⟨?_, fun w hw => ih.ends w ((Reach.step .refl hg hc).trans hw)⟩
        obtain ⟨p, hp⟩ := ih.ends _ (.step .refl hg hc)
        cases hp with
        | here h1 _ => exact node_lt h1
        | value h1 _ => exact node_lt h1
  rcases this with rfl | h
  · exact hself
  · exact h.ends u .refl

/-! ### Kinds -/

/-- The type at the end of a number of types of types, which is not one. -/
structure Chain (h : Heap) (l : Nat) (t w : Ptr) : Prop where
  chain : TypeChain h l t w
  last : ∃ n, h[w]? = some n ∧ ∀ u, n ≠ .type u

theorem getKind_tame {h : Heap} (hm : Pre h) : (n : Nat) → {t : Ptr} → t < h.length →
    getKind n h t = .more ∨ ∃ l, getKind n h t = .ok (.basic l) ∧ ∃ w, Chain h l t w
  | 0, _, _ => .inl rfl
  | n + 1, t, ht => by
    have hg := List.getElem?_eq_getElem ht
    have hn := hm.nodes _ _ hg
    have zero : (∀ u, h[t] ≠ .type u) → getKind (n + 1) h t = .ok (.basic 0) → getKind (n + 1) h t = .more ∨ ∃ l, getKind (n + 1) h t = .ok (.basic l) ∧ ∃ w, Chain h l t w :=
      fun hu he => .inr ⟨0, he, t, .zero, _, hg, hu⟩
    have hget : get h t = .ok h[t] := by rw [Types.get, hg]
    cases hnd : h[t] with
    | data => exact zero (by simp [hnd]) (by rw [getKind, hget, hnd]; rfl)
    | func => exact zero (by simp [hnd]) (by rw [getKind, hget, hnd]; rfl)
    | package => exact zero (by simp [hnd]) (by rw [getKind, hget, hnd]; rfl)
    | abstract => exact zero (by simp [hnd]) (by rw [getKind, hget, hnd]; rfl)
    | poly => rw [hnd] at hn; exact hn.elim
    | polyApply => rw [hnd] at hn; exact hn.elim
    | var k v =>
      have := hm.kinds t k v (by rw [hg, hnd])
      subst this
      exact zero (by simp [hnd]) (by rw [getKind, hget, hnd]; rfl)
    | type u =>
      rw [hnd] at hn
      rcases getKind_tame hm n (t := u) hn with e | ⟨l, e, w, hw⟩
      · refine .inl ?_
        rw [getKind, hget, hnd]
        show R.bind (getKind n h u) _ = _
        rw [e]; rfl
      · refine .inr ⟨l + 1, ?_, w, .succ (by rw [hg, hnd]) hw.chain, hw.last⟩
        rw [getKind, hget, hnd]
        show R.bind (getKind n h u) _ = _
        rw [e]
        show levelAdjusted (.basic l) 1 = _
        have : ((l : Int) + 1).toNat = l + 1 := by omega
        simp only [levelAdjusted]
        rw [if_pos (by omega), this]

/-! ### Normal forms -/

/-- With the number of variables on the way. -/
inductive NormalLen (h : Heap) (p : Ptr) : Nat → Ptr → Prop where
  | here {n} : h[p]? = some n → (∀ k v, n ≠ .var k (some v)) → NormalLen h p 0 p
  | value {t k v l} : h[t]? = some (.var k (some v)) → NormalLen h p l v → NormalLen h p (l + 1) t

theorem NormalTo.len {h : Heap} {p t : Ptr} (hn : NormalTo h p t) : ∃ l, NormalLen h p l t := by
  induction hn with
  | here hg hv => exact ⟨0, .here hg hv⟩
  | value hg _ ih =>
    obtain ⟨l, hl⟩ := ih
    exact ⟨l + 1, .value hg hl⟩

theorem NormalLen.unique {h : Heap} {p p' t : Ptr} {l l' : Nat} (h1 : NormalLen h p l t) (h2 : NormalLen h p' l' t) : p = p' ∧ l = l' := by
  induction h1 generalizing l' with
  | here hg hv =>
    cases h2 with
    | here => exact ⟨rfl, rfl⟩
    | value hg' _ => rw [hg] at hg'; cases hg'; exact absurd rfl (hv _ _)
  | value hg _ ih =>
    cases h2 with
    | here hg' hv' => rw [hg] at hg'; cases hg'; exact absurd rfl (hv' _ _)
    | value hg' h2' =>
      rw [hg] at hg'
      cases hg'
      obtain ⟨rfl, rfl⟩ := ih h2'
      exact ⟨rfl, rfl⟩

theorem NormalTo.unique {h : Heap} {p p' t : Ptr} (h1 : NormalTo h p t) (h2 : NormalTo h p' t) : p = p' := by
  obtain ⟨_, h1⟩ := NormalTo.len h1
  obtain ⟨_, h2⟩ := NormalTo.len h2
  exact (h1.unique h2).1

theorem normal_len {h : Heap} {S : Ptr → Prop} (hm : Mono0 h S) {p : Ptr} : (n : Nat) → {l : Nat} → {t : Ptr} → {nn : List Ptr} → S t → NormalLen h p l t →
    (∀ x ∈ nn, ∃ l', l < l' ∧ NormalLen h p l' x) → normal n nn h t = .more ∨ normal n nn h t = .ok (h, some p)
  | 0, _, _, _, _, _, _ => .inl rfl
  | n + 1, l, t, nn, hs, hl, hnn => by
    have hc : nn.contains t = false := by
      cases hc : nn.contains t with
      | false => rfl
      | true =>
        obtain ⟨l', h1, h2⟩ := hnn t (by simpa using hc)
        have := (hl.unique h2).2
        omega
    rw [normal, hc]
    simp only [Bool.false_eq_true, if_false]
    cases hl with
    | here hg hv =>
      rename_i nd
      have hget : Types.get h p = .ok nd := by rw [Types.get, hg]
      rw [hget]
      cases nd with
      | poly => exact absurd hg (hm.noPoly hs)
      | polyApply => exact absurd hg (hm.noApply hs)
      | var k v =>
        cases v with
        | none => exact .inr rfl
        | some v => exact absurd rfl (hv _ _)
      | _ => exact .inr rfl
    | value hg hl' =>
      rename_i k v l
      have hget : get h t = .ok (.var k (some v)) := by rw [Types.get, hg]
      rw [hget]
      refine normal_len hm n (hm.value hs hg) hl' ?_
      intro x hx
      rcases List.mem_cons.mp hx with rfl | hx
      · exact ⟨l + 1, by omega, .value hg hl'⟩
      · obtain ⟨l', h1, h2⟩ := hnn x hx
        exact ⟨l', by omega, h2⟩

/-- Types in which `FbleNormalType` finds what it looks for. -/
structure Tame (h : Heap) (S : Ptr → Prop) : Prop where
  mono : Mono0 h S
  ends : ∀ t, S t → ∃ p, NormalTo h p t

theorem normalType_tame {h : Heap} {S : Ptr → Prop} (hm : Tame h S) {t : Ptr} (n : Nat) (ht : S t) :
    normalType n h t = .more ∨ ∃ p, normalType n h t = .ok (h, p) ∧ NormalTo h p t := by
  obtain ⟨p, hp⟩ := hm.ends t ht
  obtain ⟨l, hl⟩ := NormalTo.len hp
  rcases normal_len hm.mono n ht hl (nn := []) (by simp) with e | e
  · exact .inl (by rw [normalType, e]; rfl)
  · exact .inr ⟨p, by rw [normalType, e]; rfl, hp⟩

theorem Fin.tame {h : Heap} (hm : Pre h) : Tame h (Fin h) := by
  have m0 := hm.nodes.mono0
  refine ⟨⟨fun ht => m0.node ht.lt, fun ht => m0.noPoly ht.lt, fun ht => m0.noApply ht.lt, fun {t n c} ht hg hc => ?_, fun ht hg => ht.kid hm hg (by simp [kids]), fun ht => m0.package ht.lt⟩, fun t ht => ht.ends t .refl⟩
  refine ht.kid hm hg ?_
  cases n with
  | var k v => simp [Node.children] at hc
  | _ => exact hc

/-! ### Comparison -/

theorem bind_ok {α β : Type} (a : α) (f : α → R β) : (R.ok a >>= f) = f a := rfl

/-- Nothing is changed and nothing inferred. -/
def Same (h : Heap) (r : EqRes) : Prop := r = .more ∨ ∃ b, r = .ok (h, [], b)

theorem Same.andEq {h : Heap} {x : EqRes} {y : Heap → Vars → EqRes} (hx : Same h x) (hy : Same h (y h [])) : Same h (andEq x y) := by
  rcases hx with rfl | ⟨b, rfl⟩
  · exact .inl rfl
  · cases b with
    | true => exact hy
    | false => exact .inr ⟨false, rfl⟩

theorem fieldsEqual_tame {h : Heap} {S : Ptr → Prop} {eq : Heap → Vars → Ptr → Ptr → EqRes} (he : ∀ a b, S a → S b → Same h (eq h [] a b)) :
    (as bs : List (Name × Ptr)) → (∀ a ∈ as, S a.2) → (∀ b ∈ bs, S b.2) → Same h (fieldsEqual eq h [] as bs)
  | [], _, _, _ => .inr ⟨true, by rw [fieldsEqual]; rfl; simp⟩
  | _ :: _, [], _, _ => .inr ⟨true, by rw [fieldsEqual]; rfl; simp⟩
  | (x, a) :: as, (y, b) :: bs, ha, hb => by
    rw [fieldsEqual]
    split
    · exact .inr ⟨false, rfl⟩
    · exact (he a b (ha (x, a) (by simp)) (hb (y, b) (by simp))).andEq (fieldsEqual_tame he as bs (fun a h => ha a (by simp [h])) (fun b h => hb b (by simp [h])))

theorem sameTag_tame {n : Nat} {h : Heap} {S : Ptr → Prop} (hm : Mono0 h S) {rec : List (Ptr × Ptr) → Heap → Vars → Ptr → Ptr → EqRes} (he : ∀ q a b, S a → S b → Same h (rec q h [] a b))
    {neq : List (Ptr × Ptr)} {a b : Ptr} {na nb : Node} (ha : S a) (hb : S b) (hga : h[a]? = some na) (hgb : h[b]? = some nb) (hva : ∀ k v, na ≠ .var k (some v)) (hvb : ∀ k v, nb ≠ .var k (some v)) :
    Same h (sameTag n rec neq h [] a b na nb) := by
  have ca := fun c => hm.child (c := c) ha hga
  have cb := fun c => hm.child (c := c) hb hgb
  have no : Same h (.ok (h, [], false)) := .inr ⟨false, rfl⟩
  cases na with
  | poly => exact absurd hga (hm.noPoly ha)
  | polyApply => exact absurd hga (hm.noApply ha)
  | data dt fs =>
    cases nb with
    | data dt' fs' =>
      simp only [sameTag]
      split
      · exact no
      · exact fieldsEqual_tame (he neq) fs fs' (fun f hf => ca _ (List.mem_map.mpr ⟨f, hf, rfl⟩)) (fun f hf => cb _ (List.mem_map.mpr ⟨f, hf, rfl⟩))
    | _ => exact no
  | func a1 r1 =>
    cases nb with
    | func a2 r2 => exact Same.andEq (y := fun h vars => rec neq h vars r1 r2) (he neq _ _ (ca a1 (by simp [Node.children])) (cb a2 (by simp [Node.children]))) (he _ _ _ (ca r1 (by simp [Node.children])) (cb r2 (by simp [Node.children])))
    | _ => exact no
  | abstract a1 r1 =>
    cases nb with
    | abstract a2 r2 => exact Same.andEq (y := fun h vars => rec neq h vars r1 r2) (he neq _ _ (ca a1 (by simp [Node.children])) (cb a2 (by simp [Node.children]))) (he _ _ _ (ca r1 (by simp [Node.children])) (cb r2 (by simp [Node.children])))
    | _ => exact no
  | package p1 o1 =>
    cases nb with
    | package p2 o2 => exact .inr ⟨_, rfl⟩
    | _ => exact no
  | type u =>
    cases nb with
    | type u' => exact he _ _ _ (ca u (by simp [Node.children])) (cb u' (by simp [Node.children]))
    | _ => exact no
  | var k v =>
    cases nb with
    | var k' v' =>
      cases v with
      | some v => exact absurd rfl (hva _ _)
      | none =>
        cases v' with
        | some v => exact absurd rfl (hvb _ _)
        | none => exact .inr ⟨_, rfl⟩
    | _ => exact no

theorem typesEqual_tame {h : Heap} {S : Ptr → Prop} (hm : Tame h S) : (n : Nat) → (eq : List (Ptr × Ptr)) → (a b : Ptr) → S a → S b → Same h (typesEqual n eq h [] a b)
  | 0, _, _, _, _, _ => .inl rfl
  | n + 1, eq, a, b, ha, hb => by
    rw [typesEqual]
    rcases normalType_tame hm n ha with e | ⟨p, e, hp⟩
    · exact .inl (by rw [e]; rfl)
    · rw [e]
      have hi : infer n h [] p b = .ok (.go h p) := rfl
      simp only [bind_ok, hi]
      rcases normalType_tame hm n hb with e | ⟨q, e, hq⟩
      · exact .inl (by rw [e]; rfl)
      · rw [e]
        simp only [bind_ok]
        split
        · exact .inr ⟨true, rfl⟩
        · have sp := hp.mem hm.mono ha
          have sq := hq.mem hm.mono hb
          obtain ⟨na, hga, hva⟩ := hp.node
          obtain ⟨nb, hgb, hvb⟩ := hq.node
          have hrec := typesEqual_tame hm n
          have hst : Same h (sameTag n (typesEqual n) ((p, q) :: eq) h [] p q na nb) := sameTag_tame hm.mono (fun e a b => hrec e a b) sp sq hga hgb hva hvb
          have hget : get h p = .ok na := by rw [Types.get, hga]
          have hget' : get h q = .ok nb := by rw [Types.get, hgb]
          have tr : ∀ {t x u}, S t → h[t]? = some (.abstract x u) → ∃ b, transparent h x = .ok b := by
            intro t x u ht hg
            obtain ⟨path, o, ho⟩ := hm.mono.package ht hg
            exact ⟨!o, by rw [transparent, Types.get, ho]; rfl⟩
          have right : ∀ x u, nb = .abstract x u → Same h (R.bind (transparent h x) fun b => if b then typesEqual n ((p, q) :: eq) h [] p u else sameTag n (typesEqual n) ((p, q) :: eq) h [] p q na nb) := by
            intro x u hx
            subst hx
            obtain ⟨b, hb⟩ := tr sq hgb
            rw [hb]
            cases b with
            | true => exact hrec _ _ _ sp (hm.mono.child sq hgb (by simp [Node.children]))
            | false => exact hst
          rw [compareNormal, hget, hget']
          cases na with
          | abstract x u =>
            obtain ⟨b, hb⟩ := tr sp hga
            show Same h (R.bind (transparent h x) _)
            rw [hb]
            cases b with
            | true => exact hrec _ _ _ (hm.mono.child sp hga (by simp [Node.children])) sq
            | false =>
              cases nb with
              | abstract y w => exact right _ _ rfl
              | _ => exact hst
          | _ =>
            cases nb with
            | abstract y w => exact right _ _ rfl
            | _ => exact hst

theorem fbleTypesEqual_tame {h : Heap} {S : Ptr → Prop} (hm : Tame h S) (n : Nat) {a b : Ptr} (ha : S a) (hb : S b) :
    fbleTypesEqual n h a b = .more ∨ ∃ r, fbleTypesEqual n h a b = .ok r := by
  rcases typesEqual_tame hm n [] a b ha hb with e | ⟨r, e⟩
  · exact .inl (by rw [fbleTypesEqual, e]; rfl)
  · exact .inr ⟨r, by rw [fbleTypesEqual, e]; rfl⟩

theorem inferLoop_tame {h : Heap} {S : Ptr → Prop} (hm : Tame h S) (n : Nat) : (as bs : List Ptr) → (∀ a ∈ as, S a) → (∀ b ∈ bs, S b) →
    inferLoop n [] as bs h = .more ∨ ∃ r, inferLoop n [] as bs h = .ok (h, [], r)
  | [], _, _, _ => .inr ⟨true, by rw [inferLoop]; rfl; simp⟩
  | _ :: _, [], _, _ => .inr ⟨true, by rw [inferLoop]; rfl; simp⟩
  | a :: as, b :: bs, ha, hb => by
    rw [inferLoop]
    rcases typesEqual_tame hm n [] a b (ha _ (by simp)) (hb _ (by simp)) with e | ⟨r, e⟩
    · exact .inl (by rw [e]; rfl)
    · rw [e]
      show (R.bind (inferLoop n [] as bs h) _) = .more ∨ ∃ r, R.bind (inferLoop n [] as bs h) _ = .ok (h, [], r)
      rcases inferLoop_tame hm n as bs (fun a h => ha a (by simp [h])) (fun b h => hb b (by simp [h])) with e | ⟨r, e⟩
      · exact .inl (by rw [e]; rfl)
      · exact .inr ⟨_, by rw [e]; rfl⟩

theorem depoly_tame {h : Heap} {S : Ptr → Prop} (hm : Tame h S) (n : Nat) {t : Ptr} (ht : S t) :
    depoly n h t = .more ∨ ∃ p, depoly n h t = .ok (h, p, []) ∧ NormalTo h p t := by
  cases n with
  | zero => exact .inl rfl
  | succ n =>
    rw [depoly]
    rcases normalType_tame hm n ht with e | ⟨p, e, hp⟩
    · exact .inl (by rw [e]; rfl)
    · rw [e]
      obtain ⟨nd, hg, hv⟩ := hp.node
      have sp := hp.mem hm.mono ht
      refine .inr ⟨p, ?_, hp⟩
      have hget : get h p = .ok nd := by rw [Types.get, hg]
      show R.bind (get h p) _ = _
      rw [hget]
      cases nd with
      | poly => exact absurd hg (hm.mono.noPoly sp)
      | _ => rfl

theorem get_tame {h : Heap} {S : Ptr → Prop} (hm : Tame h S) {t : Ptr} (ht : S t) : ∃ n, get h t = .ok n ∧ h[t]? = some n := by
  obtain ⟨n, hn⟩ := hm.mono.node ht
  exact ⟨n, by rw [Types.get, hn], hn⟩

theorem listElementType_tame {h : Heap} {S : Ptr → Prop} (hm : Tame h S) (n : Nat) {t : Ptr} (ht : S t) :
    listElementType n h t = .more ∨ listElementType n h t = .ok none ∨ ∃ e, listElementType n h t = .ok (some e) ∧ S e := by
  have norm : ∀ {t : Ptr} {f : Heap × Ptr → R (Option Ptr)} {S' : Ptr → Prop}, S t → (∀ p, S p → ∀ nd, h[p]? = some nd → get h p = .ok nd → f (h, p) = .more ∨ f (h, p) = .ok none ∨ ∃ e, f (h, p) = .ok (some e) ∧ S' e) →
      R.bind (normalType n h t) f = .more ∨ R.bind (normalType n h t) f = .ok none ∨ ∃ e, R.bind (normalType n h t) f = .ok (some e) ∧ S' e := by
    intro t f S' ht hf
    rcases normalType_tame hm n ht with e | ⟨p, e, hp⟩
    · exact .inl (by rw [e]; rfl)
    · rw [e]
      have sp := hp.mem hm.mono ht
      obtain ⟨nd, h1, h2⟩ := get_tame hm sp
      exact hf p sp nd h2 h1
  have no : (R.ok none : R (Option Ptr)) = .more ∨ (R.ok none : R (Option Ptr)) = .ok none ∨ ∃ e, (R.ok none : R (Option Ptr)) = .ok (some e) ∧ S e := .inr (.inl rfl)
  rw [listElementType]
  refine norm ht fun p sp nd hg hget => ?_
  simp only []
  rw [hget]
  match nd, hg with
  | .data .union [(_, cons), (_, nil)], hg =>
    have s1 := hm.mono.child sp hg (c := cons) (by simp [Node.children])
    have s2 := hm.mono.child sp hg (c := nil) (by simp [Node.children])
    refine norm s2 fun p2 sp2 nd2 hg2 hget2 => ?_
    simp only []
    rw [hget2]
    match nd2, hg2 with
    | .data .struct [], hg2 =>
      refine norm s1 fun p3 sp3 nd3 hg3 hget3 => ?_
      simp only []
      rw [hget3]
      match nd3, hg3 with
      | .data .struct [(_, elem), (_, tail)], hg3 =>
        have s3 := hm.mono.child sp3 hg3 (c := elem) (by simp [Node.children])
        have s4 := hm.mono.child sp3 hg3 (c := tail) (by simp [Node.children])
        show (R.bind (fbleTypesEqual n h t tail) _) = _ ∨ _
        rcases fbleTypesEqual_tame hm n ht s4 with e | ⟨b, e⟩
        · exact .inl (by show R.bind (fbleTypesEqual n h t tail) _ = _; rw [e]; rfl)
        · cases b with
          | true => exact .inr (.inr ⟨elem, by show R.bind (fbleTypesEqual n h t tail) _ = _; rw [e]; rfl, s3⟩)
          | false => exact .inr (.inl (by show R.bind (fbleTypesEqual n h t tail) _ = _; rw [e]; rfl))
      | .data .struct [], _ | .data .struct [_], _ | .data .struct (_ :: _ :: _ :: _), _ | .data .union _, _
      | .func _ _, _ | .poly _ _, _ | .polyApply _ _, _ | .package _ _, _ | .abstract _ _, _ | .var _ _, _ | .type _, _ => exact no
    | .data .struct (_ :: _), _ | .data .union _, _
    | .func _ _, _ | .poly _ _, _ | .polyApply _ _, _ | .package _ _, _ | .abstract _ _, _ | .var _ _, _ | .type _, _ => exact no
  | .data .union [], _ | .data .union [_], _ | .data .union (_ :: _ :: _ :: _), _ | .data .struct _, _
  | .func _ _, _ | .poly _ _, _ | .polyApply _ _, _ | .package _ _, _ | .abstract _ _, _ | .var _ _, _ | .type _, _ => exact no

end Verif.NoCrash
