import Verif.NoCrash.Heap
/-
Functions on types without polymorphism end: how much fuel they use.
-/
namespace Verif.NoCrash
open Types Elab

/-- Enough fuel for the functions on the types of a heap of this size. -/
def need (L : Nat) : Nat := L * L + 4 * L + 4

theorem need_mono {a b : Nat} (h : a ≤ b) : need a ≤ need b := by
  have := Nat.mul_le_mul h h
  unfold need
  omega

theorem need_succ (a : Nat) : need a + 1 ≤ need (a + 1) := by
  unfold need
  have : (a + 1) * (a + 1) = a * a + a + a + 1 := by rw [Nat.add_mul, Nat.mul_add]; omega
  omega

theorem need_ge (L : Nat) : 2 * L + 4 ≤ need L := by
  unfold need
  omega

/-! ### Normal forms -/

theorem nodup_le {N : List Nat} {L : Nat} (hn : N.Nodup) (hl : ∀ x ∈ N, x < L) : N.length ≤ L := by
  induction L generalizing N with
  | zero =>
    cases N with
    | nil => simp
    | cons x N => exact absurd (hl x (by simp)) (Nat.not_lt_zero _)
  | succ L ih =>
    have h1 := ih (N := N.erase L) (hn.erase _) (fun x hx => by
      have h2 := hl x (List.mem_of_mem_erase hx)
      have h3 := (hn.mem_erase_iff.mp hx).1
      omega)
    have h4 := List.length_erase (a := L) (l := N)
    by_cases hL : L ∈ N
    · rw [if_pos hL] at h4
      omega
    · rw [List.erase_of_not_mem hL] at h1
      omega

theorem normal_more {h : Heap} {S : Ptr → Prop} (hm : Mono0 h S) : (n : Nat) → {t : Ptr} → {N : List Ptr} → S t → N.Nodup → (∀ x ∈ N, x < h.length) →
    normal n N h t = .more → n + N.length ≤ h.length
  | 0, _, _, _, hn, hl, _ => by have := nodup_le hn hl; omega
  | n + 1, t, N, ht, hn, hl, he => by
    have hlt : t < h.length := lt_of_mem hm ht
    rw [normal] at he
    split at he
    · cases he
    · rename_i hc
      have hg := List.getElem?_eq_getElem hlt
      have hget : get h t = .ok h[t] := by rw [Types.get, hg]
      rw [hget] at he
      cases hnd : h[t] with
      | poly => rw [hnd] at hg; exact absurd hg (hm.noPoly ht)
      | polyApply => rw [hnd] at hg; exact absurd hg (hm.noApply ht)
      | var k v =>
        rw [hnd] at he
        cases v with
        | none => cases he
        | some v =>
          rw [hnd] at hg
          have := normal_more hm n (N := t :: N) (hm.value ht hg) (List.nodup_cons.mpr ⟨by simpa using hc, hn⟩) (by
            simp only [List.mem_cons, forall_eq_or_imp]
            exact ⟨hlt, hl⟩) he
          simp only [List.length_cons] at this
          omega
      | data => rw [hnd] at he; cases he
      | func => rw [hnd] at he; cases he
      | package => rw [hnd] at he; cases he
      | abstract => rw [hnd] at he; cases he
      | type => rw [hnd] at he; cases he

theorem bind_more {α β : Type} {x : R α} {f : α → R β} (h : (x >>= f) = .more) : x = .more ∨ ∃ a, x = .ok a ∧ f a = .more := by
  cases x with
  | ok a => exact .inr ⟨a, rfl, h⟩
  | more => exact .inl rfl
  | fail => cases h

theorem normalType_more {h : Heap} {S : Ptr → Prop} (hm : Mono0 h S) {n : Nat} {t : Ptr} (ht : S t) (he : normalType n h t = .more) : n ≤ h.length := by
  rcases bind_more he with he | ⟨⟨h', o⟩, -, he⟩
  · simpa using normal_more hm n ht List.nodup_nil (by simp) he
  · cases o <;> cases he

/-! ### Kinds -/

theorem getKind_more {h : Heap} (hm : Pre h) : (n : Nat) → {t : Nat} → t < h.length → getKind n h t = .more → n ≤ t
  | 0, _, _, _ => Nat.zero_le _
  | n + 1, t, ht, he => by
    have hg := List.getElem?_eq_getElem ht
    have hn := hm.nodes _ _ hg
    have hget : get h t = .ok h[t] := by rw [Types.get, hg]
    rw [getKind, hget] at he
    cases hnd : h[t] with
    | data => rw [hnd] at he; cases he
    | func => rw [hnd] at he; cases he
    | package => rw [hnd] at he; cases he
    | abstract => rw [hnd] at he; cases he
    | poly => rw [hnd] at hn; exact hn.elim
    | polyApply => rw [hnd] at hn; exact hn.elim
    | var k v => rw [hnd] at he; cases he
    | type u =>
      rw [hnd] at he hn hg
      have hlt := hm.order t u hg
      rcases bind_more (x := getKind n h u) he with he | ⟨k, hk, he⟩
      · have := getKind_more hm n hn he
        omega
      · rcases getKind_tame hm n (t := u) hn with e | ⟨l, e, -⟩
        · rw [e] at hk; cases hk
        · rw [e] at hk
          cases hk
          simp only [levelAdjusted] at he
          rw [if_pos (by omega)] at he
          cases he

theorem assignVarType_more {h : Heap} (hm : Pre h) : (n : Nat) → {t d : Nat} → t < h.length → d < h.length → assignVarType n h t d = .more → n ≤ h.length + t + 1
  | 0, _, _, _, _, _ => Nat.zero_le _
  | n + 1, t, d, ht, hd, he => by
    have hg := List.getElem?_eq_getElem ht
    have hgd := List.getElem?_eq_getElem hd
    have hn := hm.nodes _ _ hg
    have hget : get h t = .ok h[t] := by rw [Types.get, hg]
    have hgetd : get h d = .ok h[d] := by rw [Types.get, hgd]
    rw [assignVarType, hget] at he
    cases hnd : h[t] with
    | data => rw [hnd] at he; cases he
    | func => rw [hnd] at he; cases he
    | package => rw [hnd] at he; cases he
    | abstract => rw [hnd] at he; cases he
    | poly => rw [hnd] at hn; exact hn.elim
    | polyApply => rw [hnd] at hn; exact hn.elim
    | var k v =>
      rw [hnd] at he
      rcases bind_more (x := getKind n h d) he with he | ⟨k, hk, he⟩
      · have := getKind_more hm n hd he
        omega
      · cases he
    | type u =>
      rw [hnd] at he hn hg
      have hlt := hm.order t u hg
      simp only [bind_ok] at he
      rw [hgetd] at he
      cases hnd' : h[d] with
      | type w =>
        rw [hnd'] at he hgd
        have := assignVarType_more hm n (t := u) (d := w) hn (hm.nodes _ _ hgd) he
        omega
      | _ => rw [hnd'] at he; cases he

/-! ### Vacuous types -/

theorem normal_some {h : Heap} (hm : Pre h) : (n : Nat) → {t p : Ptr} → {N : List Ptr} → t < h.length → normal n N h t = .ok (h, some p) → p = t ∨ ∀ u, h[p]? ≠ some (.type u)
  | 0, _, _, _, _, he => by cases he
  | n + 1, t, p, N, ht, he => by
    rw [normal] at he
    split at he
    · cases he
    · have hg := List.getElem?_eq_getElem ht
      have hget : get h t = .ok h[t] := by rw [Types.get, hg]
      have hn := hm.nodes _ _ hg
      rw [hget] at he
      cases hnd : h[t] with
      | poly => rw [hnd] at hn; exact hn.elim
      | polyApply => rw [hnd] at hn; exact hn.elim
      | var k v =>
        rw [hnd] at he hg hn
        cases v with
        | none => cases he; exact .inl rfl
        | some v =>
          rcases normal_some hm n (hn.2 v rfl) he with e | e
          · rw [e]; exact .inr (hm.vals t k v hg)
          · exact .inr e
      | data => rw [hnd] at he; cases he; exact .inl rfl
      | func => rw [hnd] at he; cases he; exact .inl rfl
      | package => rw [hnd] at he; cases he; exact .inl rfl
      | abstract => rw [hnd] at he; cases he; exact .inl rfl
      | type => rw [hnd] at he; cases he; exact .inl rfl

theorem normal_same {h : Heap} (hm : Pre h) : (n : Nat) → {t : Ptr} → {N : List Ptr} → t < h.length →
    normal n N h t = .more ∨ normal n N h t = .ok (h, none) ∨ ∃ p, normal n N h t = .ok (h, some p) ∧ p < h.length
  | 0, _, _, _ => .inl rfl
  | n + 1, t, N, ht => by
    rw [normal]
    split
    · exact .inr (.inl rfl)
    · have hg := List.getElem?_eq_getElem ht
      have hget : get h t = .ok h[t] := by rw [Types.get, hg]
      have hn := hm.nodes _ _ hg
      rw [hget]
      cases hnd : h[t] with
      | poly => rw [hnd] at hn; exact hn.elim
      | polyApply => rw [hnd] at hn; exact hn.elim
      | var k v =>
        cases v with
        | none => exact .inr (.inr ⟨t, rfl, ht⟩)
        | some v =>
          rw [hnd] at hn
          exact normal_same hm n (hn.2 v rfl)
      | _ => exact .inr (.inr ⟨t, rfl, ht⟩)

theorem stripType_more {h : Heap} (hm : Pre h) : (n : Nat) → {t : Nat} → t < h.length → stripType n h (some t) = .more → n ≤ h.length + t + 1
  | 0, _, _, _ => Nat.zero_le _
  | n + 1, t, ht, he => by
    have hg := List.getElem?_eq_getElem ht
    have hget : get h t = .ok h[t] := by rw [Types.get, hg]
    rw [stripType, hget] at he
    simp only [bind_ok] at he
    cases hnd : h[t] with
    | type u =>
      rw [hnd] at he hg
      have hlt := hm.order t u hg
      have hu : u < h.length := hm.nodes _ _ hg
      simp only at he
      rcases normal_same hm n (N := []) hu with e | e | ⟨p, e, hp⟩
      · have := normal_more hm.nodes.mono0 n hu List.nodup_nil (by simp) e
        simp only [List.length_nil] at this
        omega
      · rw [e] at he
        cases n with
        | zero => omega
        | succ n => cases he
      · rw [e] at he
        have he : stripType n h (some p) = .more := he
        rcases normal_some hm n hu e with e' | e'
        · rw [e'] at he
          have := stripType_more hm n hu he
          omega
        · cases n with
          | zero => omega
          | succ n =>
            have hgp := List.getElem?_eq_getElem hp
            rw [stripType, Types.get, hgp] at he
            simp only [bind_ok] at he
            cases hnp : h[p] with
            | type w => rw [hnp] at hgp; exact absurd hgp (e' w)
            | _ => rw [hnp] at he; cases he
    | _ => rw [hnd] at he; cases he

/-! ### Comparison -/

/-- `.more` only with less than this much fuel. -/
def Until {α : Type} (n b : Nat) (r : R α) : Prop := r = .more → n < b

theorem open_nil (L : Nat) : open_ L [] = L * L := by
  unfold open_ pairs
  simp [List.map_const']

theorem until_andEq {h : Heap} {n b : Nat} {x : EqRes} {y : Heap → Vars → EqRes} (hs : Same h x) (hx : Until n b x) (hy : Until n b (y h [])) : Until n b (andEq x y) := by
  intro he
  rcases bind_more he with he | ⟨⟨h', v, r⟩, e, he⟩
  · exact hx he
  · rcases hs with e' | ⟨r', e'⟩
    · rw [e'] at e; cases e
    · rw [e'] at e
      cases e
      cases r with
      | true => exact hy he
      | false => cases he

theorem fieldsEqual_until {h : Heap} {n b : Nat} {S : Ptr → Prop} {eq : Heap → Vars → Ptr → Ptr → EqRes} (hs : ∀ a b, S a → S b → Same h (eq h [] a b)) (he : ∀ x y, S x → S y → Until n b (eq h [] x y)) :
    (as bs : List (Name × Ptr)) → (∀ a ∈ as, S a.2) → (∀ b ∈ bs, S b.2) → Until n b (fieldsEqual eq h [] as bs)
  | [], _, _, _ => by intro h; rw [fieldsEqual] at h; cases h; simp
  | _ :: _, [], _, _ => by intro h; rw [fieldsEqual] at h; cases h; simp
  | (x, a) :: as, (y, c) :: bs, ha, hb => by
    rw [fieldsEqual]
    split
    · intro h; cases h
    · exact until_andEq (y := fun h vars => fieldsEqual eq h vars as bs) (hs a c (ha (x, a) (by simp)) (hb (y, c) (by simp))) (he a c (ha (x, a) (by simp)) (hb (y, c) (by simp)))
        (fieldsEqual_until hs he as bs (fun a h => ha a (by simp [h])) (fun b h => hb b (by simp [h])))

theorem sameTag_until {n m b : Nat} {h : Heap} {S : Ptr → Prop} (hm : Mono0 h S) {rec : List (Ptr × Ptr) → Heap → Vars → Ptr → Ptr → EqRes} {neq : List (Ptr × Ptr)} (hs : ∀ a b, S a → S b → Same h (rec neq h [] a b))
    (he : ∀ x y, S x → S y → Until m b (rec neq h [] x y)) {x y : Ptr} {na nb : Node} (ha : S x) (hb : S y) (hga : h[x]? = some na) (hgb : h[y]? = some nb) :
    Until m b (sameTag n rec neq h [] x y na nb) := by
  have ca := fun c => hm.child (c := c) ha hga
  have cb := fun c => hm.child (c := c) hb hgb
  have no : ∀ r : Bool, Until m b (.ok (h, [], r) : EqRes) := fun r h => by cases h
  cases na with
  | poly => exact absurd hga (hm.noPoly ha)
  | polyApply => exact absurd hga (hm.noApply ha)
  | data dt fs =>
    cases nb with
    | data dt' fs' =>
      simp only [sameTag]
      split
      · exact no _
      · exact fieldsEqual_until hs he fs fs' (fun f hf => ca _ (List.mem_map.mpr ⟨f, hf, rfl⟩)) (fun f hf => cb _ (List.mem_map.mpr ⟨f, hf, rfl⟩))
    | _ => exact no _
  | func a1 r1 =>
    cases nb with
    | func a2 r2 =>
      have h1 := ca a1 (by simp [Node.children])
      have h2 := cb a2 (by simp [Node.children])
      exact until_andEq (hs _ _ h1 h2) (y := fun h vars => rec neq h vars r1 r2) (he _ _ h1 h2) (he _ _ (ca r1 (by simp [Node.children])) (cb r2 (by simp [Node.children])))
    | _ => exact no _
  | abstract a1 r1 =>
    cases nb with
    | abstract a2 r2 =>
      have h1 := ca a1 (by simp [Node.children])
      have h2 := cb a2 (by simp [Node.children])
      exact until_andEq (hs _ _ h1 h2) (y := fun h vars => rec neq h vars r1 r2) (he _ _ h1 h2) (he _ _ (ca r1 (by simp [Node.children])) (cb r2 (by simp [Node.children])))
    | _ => exact no _
  | package p1 o1 =>
    cases nb with
    | package p2 o2 => exact no _
    | _ => exact no _
  | type u =>
    cases nb with
    | type u' => exact he _ _ (ca u (by simp [Node.children])) (cb u' (by simp [Node.children]))
    | _ => exact no _
  | var k v =>
    cases nb with
    | var k' v' =>
      simp only [sameTag]
      split <;> (intro h; cases h)
    | _ => exact no _

theorem typesEqual_more {h : Heap} {S : Ptr → Prop} (hm : Tame h S) : (n : Nat) → (eq : List (Ptr × Ptr)) → (a b : Ptr) → S a → S b → Until n (open_ h.length eq + h.length + 2) (typesEqual n eq h [] a b)
  | 0, _, _, _, _, _ => fun _ => by omega
  | n + 1, eq, a, b, ha, hb => by
    rw [typesEqual]
    rcases normalType_tame hm n ha with e | ⟨p, e, hp⟩
    · have := normalType_more hm.mono ha e
      intro _
      omega
    · rw [e]
      have hi : infer n h [] p b = .ok (.go h p) := rfl
      simp only [bind_ok, hi]
      rcases normalType_tame hm n hb with e | ⟨q, e, hq⟩
      · have := normalType_more hm.mono hb e
        intro _
        omega
      · rw [e]
        simp only [bind_ok]
        split
        · intro h; cases h
        · rename_i hne
          have sp := hp.mem hm.mono ha
          have sq := hq.mem hm.mono hb
          obtain ⟨na, hga, -⟩ := hp.node
          obtain ⟨nb, hgb, -⟩ := hq.node
          have hlt := open_lt (eq := eq) (node_lt hga) (node_lt hgb) (by simpa using hne)
          have hrec : ∀ x y, S x → S y → Until (n + 1) (open_ h.length eq + h.length + 2) (typesEqual n ((p, q) :: eq) h [] x y) := by
            intro x y hx hy he
            have := typesEqual_more hm n _ x y hx hy he
            omega
          have hst : Until (n + 1) (open_ h.length eq + h.length + 2) (sameTag n (typesEqual n) ((p, q) :: eq) h [] p q na nb) :=
            sameTag_until hm.mono (fun a b => typesEqual_tame hm n _ a b) hrec sp sq hga hgb
          have hget : get h p = .ok na := by rw [Types.get, hga]
          have hget' : get h q = .ok nb := by rw [Types.get, hgb]
          have tr : ∀ {t x u}, S t → h[t]? = some (.abstract x u) → ∃ b, transparent h x = .ok b := by
            intro t x u ht hg
            obtain ⟨path, o, ho⟩ := hm.mono.package ht hg
            exact ⟨!o, by rw [transparent, Types.get, ho]; rfl⟩
          have right : ∀ x u, nb = .abstract x u → Until (n + 1) (open_ h.length eq + h.length + 2)
              (R.bind (transparent h x) fun b => if b then typesEqual n ((p, q) :: eq) h [] p u else sameTag n (typesEqual n) ((p, q) :: eq) h [] p q na nb) := by
            intro x u hx
            subst hx
            obtain ⟨b, hb⟩ := tr sq hgb
            rw [hb]
            cases b with
            | true => exact hrec _ _ sp (hm.mono.child sq hgb (by simp [Node.children]))
            | false => exact hst
          rw [compareNormal, hget, hget']
          cases na with
          | abstract x u =>
            obtain ⟨b, hb⟩ := tr sp hga
            show Until _ _ (R.bind (transparent h x) _)
            rw [hb]
            cases b with
            | true => exact hrec _ _ (hm.mono.child sp hga (by simp [Node.children])) sq
            | false =>
              cases nb with
              | abstract y w => exact right _ _ rfl
              | _ => exact hst
          | _ =>
            cases nb with
            | abstract y w => exact right _ _ rfl
            | _ => exact hst

theorem need_open (L : Nat) : open_ L [] + L + 2 ≤ need L := by
  rw [open_nil]
  unfold need
  omega

theorem fbleTypesEqual_more {h : Heap} {S : Ptr → Prop} (hm : Tame h S) {n : Nat} {a b : Ptr} (ha : S a) (hb : S b) (he : fbleTypesEqual n h a b = .more) : n < need h.length := by
  rcases bind_more he with he | ⟨⟨_, _, _⟩, -, he⟩
  · exact Nat.lt_of_lt_of_le (typesEqual_more hm n [] a b ha hb he) (need_open _)
  · cases he

theorem inferLoop_more {h : Heap} {S : Ptr → Prop} (hm : Tame h S) {n : Nat} : (as bs : List Ptr) → (∀ a ∈ as, S a) → (∀ b ∈ bs, S b) → inferLoop n [] as bs h = .more → n < need h.length
  | [], _, _, _, he => by rw [inferLoop] at he; cases he; simp
  | _ :: _, [], _, _, he => by rw [inferLoop] at he; cases he; simp
  | a :: as, b :: bs, ha, hb, he => by
    rw [inferLoop] at he
    have h1 := typesEqual_tame hm n [] a b (ha _ (by simp)) (hb _ (by simp))
    rcases bind_more he with he | ⟨x, hx, he⟩
    · exact Nat.lt_of_lt_of_le (typesEqual_more hm n [] a b (ha _ (by simp)) (hb _ (by simp)) he) (need_open _)
    · rcases h1 with e | ⟨r, e⟩
      · rw [e] at hx; cases hx
      · rw [e] at hx
        cases hx
        rcases bind_more he with he | ⟨x, hx, he⟩
        · exact inferLoop_more hm as bs (fun a h => ha a (by simp [h])) (fun b h => hb b (by simp [h])) he
        · cases he

theorem depoly_more {h : Heap} {S : Ptr → Prop} (hm : Tame h S) {n : Nat} {t : Ptr} (ht : S t) (he : depoly n h t = .more) : n ≤ h.length + 1 := by
  cases n with
  | zero => omega
  | succ n =>
    rw [depoly] at he
    rcases normalType_tame hm n ht with e | ⟨p, e, hp⟩
    · have := normalType_more hm.mono ht e
      omega
    · rw [e] at he
      obtain ⟨nd, hg, hv⟩ := hp.node
      have sp := hp.mem hm.mono ht
      have hget : get h p = .ok nd := by rw [Types.get, hg]
      have he : R.bind (get h p) _ = _ := he
      rw [hget] at he
      cases nd with
      | poly => exact absurd hg (hm.mono.noPoly sp)
      | _ => cases he

theorem need_gt {n L : Nat} (h : n ≤ 2 * L + 3) : n < need L := by
  have := need_ge L
  omega

theorem need_lt {n t L : Nat} (h : n ≤ t) (h' : t < L) : n < need L := need_gt (by omega)

theorem need_lt2 {n t L : Nat} (h : n ≤ L + t + 1) (h' : t < L) : n < need L := need_gt (by omega)

theorem listElementType_more {h : Heap} {S : Ptr → Prop} (hm : Tame h S) {n : Nat} {t : Ptr} (ht : S t) (he : listElementType n h t = .more) : n < need h.length := by
  have norm : ∀ {t : Ptr} {f : Heap × Ptr → R (Option Ptr)}, S t → (∀ p, S p → ∀ nd, h[p]? = some nd → get h p = .ok nd → f (h, p) = .more → n < need h.length) →
      R.bind (normalType n h t) f = .more → n < need h.length := by
    intro t f ht hf he
    rcases normalType_tame hm n ht with e | ⟨p, e, hp⟩
    · exact need_gt (by have := normalType_more hm.mono ht e; omega)
    · rw [e] at he
      have sp := hp.mem hm.mono ht
      obtain ⟨nd, h1, h2⟩ := get_tame hm sp
      exact hf p sp nd h2 h1 he
  rw [listElementType] at he
  refine norm ht (fun p sp nd hg hget he => ?_) he
  simp only [] at he
  rw [hget] at he
  match nd, hg with
  | .data .union [(_, cons), (_, nil)], hg =>
    have s1 := hm.mono.child sp hg (c := cons) (by simp [Node.children])
    have s2 := hm.mono.child sp hg (c := nil) (by simp [Node.children])
    refine norm s2 (fun p2 sp2 nd2 hg2 hget2 he => ?_) he
    simp only [] at he
    rw [hget2] at he
    match nd2, hg2 with
    | .data .struct [], hg2 =>
      refine norm s1 (fun p3 sp3 nd3 hg3 hget3 he => ?_) he
      simp only [] at he
      rw [hget3] at he
      match nd3, hg3 with
      | .data .struct [(_, elem), (_, tail)], hg3 =>
        have s4 := hm.mono.child sp3 hg3 (c := tail) (by simp [Node.children])
        rcases bind_more (x := fbleTypesEqual n h t tail) he with he | ⟨b, -, he⟩
        · exact fbleTypesEqual_more hm ht s4 he
        · cases b <;> cases he
      | .data .struct [], _ | .data .struct [_], _ | .data .struct (_ :: _ :: _ :: _), _ | .data .union _, _
      | .func _ _, _ | .poly _ _, _ | .polyApply _ _, _ | .package _ _, _ | .abstract _ _, _ | .var _ _, _ | .type _, _ => cases he
    | .data .struct (_ :: _), _ | .data .union _, _
    | .func _ _, _ | .poly _ _, _ | .polyApply _ _, _ | .package _ _, _ | .abstract _ _, _ | .var _ _, _ | .type _, _ => cases he
  | .data .union [], _ | .data .union [_], _ | .data .union (_ :: _ :: _ :: _), _ | .data .struct _, _
  | .func _ _, _ | .poly _ _, _ | .polyApply _ _, _ | .package _ _, _ | .abstract _ _, _ | .var _ _, _ | .type _, _ => cases he

end Verif.NoCrash
