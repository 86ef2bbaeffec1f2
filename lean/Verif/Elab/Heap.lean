import Verif.Elab.Model
/-
What the functions on types keep: struct and union types have distinct field names, packages are
opaque, and types that are there stay there, except that variables get values.
-/
namespace Verif.Elab
open Types

/-- The nodes the type checker makes. -/
def NodeGood : Node → Prop
  | .data _ fields => dupNames (fields.map (·.1)) = false
  | .package _ opaq => opaq = true
  | _ => True

/-- The same type, or a variable that has got a value. -/
def Later (n n' : Node) : Prop := n' = n ∨ ∃ k v k' v', n = .var k v ∧ n' = .var k' v'

theorem Later.refl (n : Node) : Later n n := .inl rfl
theorem Later.trans {a b c : Node} (h : Later a b) (h' : Later b c) : Later a c := by
  rcases h with rfl | ⟨k, v, k', v', rfl, rfl⟩
  · exact h'
  · rcases h' with rfl | ⟨k2, v2, k3, v3, _, rfl⟩
    · exact .inr ⟨k, v, k', v', rfl, rfl⟩
    · exact .inr ⟨k, v, k3, v3, rfl, rfl⟩

/-- All types in the heap are such, and those of the heap `H` are still there. -/
structure HGood (H h : Heap) : Prop where
  good : ∀ (p : Nat) (n : Node), h[p]? = some n → NodeGood n
  later : ∀ (p : Nat) (n : Node), H[p]? = some n → ∃ n', h[p]? = some n' ∧ Later n n'

theorem HGood.refl {h : Heap} (hh : ∀ (p : Nat) (n : Node), h[p]? = some n → NodeGood n) : HGood h h := ⟨hh, fun _ n hn => ⟨n, hn, .refl n⟩⟩

theorem R.bind_ok {α β : Type} {r : R α} {f : α → R β} {b : β} : (r >>= f) = .ok b ↔ ∃ a, r = .ok a ∧ f a = .ok b := by
  show R.bind r f = .ok b ↔ _
  cases r <;> simp [R.bind]

theorem R.bind'_ok {α β : Type} {r : R α} {f : α → R β} {b : β} : R.bind r f = .ok b ↔ ∃ a, r = .ok a ∧ f a = .ok b := by
  cases r <;> simp [R.bind]

theorem R.pure_ok {α : Type} {a b : α} : (pure a : R α) = .ok b ↔ a = b := by
  show R.ok a = .ok b ↔ _
  simp

theorem get_ok {h : Heap} {p : Ptr} {n : Node} : Types.get h p = .ok n ↔ h[p]? = some n := by
  unfold Types.get
  cases h[p]? <;> simp

theorem HGood.new {H h : Heap} {n : Node} (hh : HGood H h) (hn : NodeGood n) : HGood H (new h n).1 := by
  refine ⟨fun p m hm => ?_, fun p m hm => ?_⟩
  · simp only [Types.new] at hm
    rcases Nat.lt_trichotomy p h.length with hlt | heq | hgt
    · rw [List.getElem?_append_left hlt] at hm; exact hh.good p m hm
    · subst heq
      rw [List.getElem?_append_right (Nat.le_refl _)] at hm
      simp at hm; subst hm; exact hn
    · rw [List.getElem?_append_right (by omega)] at hm
      rw [List.getElem?_eq_none (by simp; omega)] at hm; cases hm
  · obtain ⟨m', h1, h2⟩ := hh.later p m hm
    refine ⟨m', ?_, h2⟩
    obtain ⟨hlt, _⟩ := List.getElem?_eq_some_iff.mp h1
    simp only [Types.new]
    rw [List.getElem?_append_left hlt]; exact h1

theorem HGood.set {H h : Heap} {q : Ptr} {k : Kind} {v : Option Ptr} {k' : Kind} {v' : Option Ptr} (hh : HGood H h) (hq : h[q]? = some (.var k v)) : HGood H (h.set q (.var k' v')) := by
  refine ⟨fun p m hm => ?_, fun p m hm => ?_⟩
  · rw [List.getElem?_set] at hm
    split at hm
    · split at hm
      · cases hm; trivial
      · cases hm
    · exact hh.good p m hm
  · obtain ⟨m', h1, h2⟩ := hh.later p m hm
    rw [List.getElem?_set]
    split
    · rename_i heq
      subst heq
      rw [hq] at h1; cases h1
      have : q < h.length := (List.getElem?_eq_some_iff.mp hq).1
      rw [if_pos this]
      exact ⟨_, rfl, h2.trans (.inr ⟨_, _, _, _, rfl, rfl⟩)⟩
    · exact ⟨m', h1, h2⟩

/-- The function keeps the heap such. -/
def HPres {α : Type} (f : Heap → R (Heap × α)) : Prop := ∀ h h' a, f h = .ok (h', a) → ∀ H, HGood H h → HGood H h'

theorem wrapType_good : (n : Nat) → {H h : Heap} → {t : Ptr} → HGood H h → HGood H (wrapType n h t).1
  | 0, _, _, _, hh => hh
  | n + 1, _, _, _, hh => wrapType_good n (hh.new trivial)

theorem newVarType_good (k : Kind) : HPres (newVarType · k) := by
  intro h h' a e H hh
  simp only [newVarType] at e
  obtain ⟨k', _, e⟩ := R.bind_ok.mp e
  rw [R.pure_ok] at e
  have := wrapType_good (kindLevel k) (t := (new h (.var k' none)).2) (hh.new (n := .var k' none) trivial)
  rw [e] at this; exact this

theorem assignVarType_good : (n : Nat) → {H h h' : Heap} → {a b : Ptr} → assignVarType n h a b = .ok h' → HGood H h → HGood H h'
  | 0, _, _, _, _, _, e, _ => by simp [assignVarType] at e
  | n + 1, H, h, h', a, b, e, hh => by
    simp only [assignVarType] at e
    obtain ⟨na, hna, e⟩ := R.bind_ok.mp e
    rw [get_ok] at hna
    cases na with
    | type v =>
      obtain ⟨nb, _, e⟩ := R.bind_ok.mp e
      cases nb with
      | type w => exact assignVarType_good n e hh
      | _ => simp at e
    | var k v =>
      obtain ⟨k, _, e⟩ := R.bind_ok.mp e
      rw [R.pure_ok] at e
      subst e; exact hh.set hna
    | _ => simp at e

theorem newPolyType_good (arg : Ptr) : (n : Nat) → (body : Ptr) → HPres (newPolyType n · arg body)
  | 0, _ => by intro h h' a e; simp [newPolyType] at e
  | n + 1, body => by
    intro h h' a e H hh
    simp only [newPolyType] at e
    obtain ⟨na, _, e⟩ := R.bind_ok.mp e
    cases na with
    | type t =>
      obtain ⟨⟨h1, b⟩, e1, e⟩ := R.bind_ok.mp e
      have := newPolyType_good arg n t _ _ _ e1 _ hh
      simp only [R.pure_ok] at e
      have h2 := this.new (n := .type b) trivial
      rw [e] at h2; exact h2
    | _ =>
      simp only [R.pure_ok] at e
      have h2 := hh.new (n := .poly arg body) trivial
      rw [e] at h2; exact h2

theorem newPolyApplyType_good (arg : Ptr) : (n : Nat) → (poly : Ptr) → HPres (newPolyApplyType n · poly arg)
  | 0, _ => by intro h h' a e; simp [newPolyApplyType] at e
  | n + 1, poly => by
    intro h h' a e H hh
    simp only [newPolyApplyType] at e
    obtain ⟨na, _, e⟩ := R.bind_ok.mp e
    cases na with
    | type t =>
      obtain ⟨⟨h1, b⟩, e1, e⟩ := R.bind_ok.mp e
      have := newPolyApplyType_good arg n t _ _ _ e1 _ hh
      simp only [R.pure_ok] at e
      have h2 := this.new (n := .type b) trivial
      rw [e] at h2; exact h2
    | _ =>
      simp only [R.pure_ok] at e
      have h2 := hh.new (n := .polyApply poly arg) trivial
      rw [e] at h2; exact h2

theorem substFields_good {sub : Heap → Ptr → R (Heap × Ptr)} (hs : ∀ t, HPres (sub · t)) : (fs : List (Name × Ptr)) →
    {H h h' : Heap} → {fs' : List (Name × Ptr)} → substFields sub h fs = .ok (h', fs') → HGood H h →
      HGood H h' ∧ fs'.map (·.1) = fs.map (·.1)
  | [], H, h, h', fs', e, hh => by
    simp only [substFields, R.pure_ok] at e; cases e; exact ⟨hh, rfl⟩
  | (x, t) :: fs, H, h, h', fs', e, hh => by
    simp only [substFields] at e
    obtain ⟨⟨h1, s⟩, e1, e⟩ := R.bind_ok.mp e
    obtain ⟨⟨h2, ss⟩, e2, e⟩ := R.bind_ok.mp e
    simp only [R.pure_ok] at e; cases e
    have := substFields_good hs fs e2 (hs t _ _ _ e1 _ hh)
    exact ⟨this.1, by simp only [List.map_cons, this.2]⟩

theorem subst_good (param arg : Ptr) : (n : Nat) → (tps : List (Ptr × Ptr)) → (t : Ptr) → HPres (subst param arg n tps · t)
  | 0, _, _ => by intro h h' a e; simp [subst] at e
  | n + 1, tps, t => by
    intro h h' a e H hh
    simp only [subst] at e
    obtain ⟨b, _, e⟩ := R.bind_ok.mp e
    have ih := subst_good param arg n
    split at e
    · simp only [R.pure_ok] at e; cases e; exact hh
    · obtain ⟨nd, hnd, e⟩ := R.bind_ok.mp e
      rw [get_ok] at hnd
      cases nd with
      | data dt fields =>
        obtain ⟨⟨h1, fs⟩, e1, e⟩ := R.bind_ok.mp e
        have := substFields_good (ih tps) fields e1 hh
        simp only [R.pure_ok] at e
        have h2 := this.1.new (n := .data dt fs) (by
          show dupNames _ = false
          rw [this.2]; exact hh.good _ _ hnd)
        rw [e] at h2; exact h2
      | func a' r =>
        obtain ⟨⟨h1, x⟩, e1, e⟩ := R.bind_ok.mp e
        obtain ⟨⟨h2, y⟩, e2, e⟩ := R.bind_ok.mp e
        simp only [R.pure_ok] at e
        have h3 := (ih tps r _ _ _ e2 _ (ih tps a' _ _ _ e1 _ hh)).new (n := .func x y) trivial
        rw [e] at h3; exact h3
      | poly a' b' =>
        obtain ⟨⟨h1, x⟩, e1, e⟩ := R.bind_ok.mp e
        obtain ⟨_, _, e⟩ := R.bind_ok.mp e
        simp only [R.pure_ok] at e
        have h3 := (ih tps b' _ _ _ e1 _ hh).new (n := .poly a' x) trivial
        rw [e] at h3; exact h3
      | polyApply p a' =>
        obtain ⟨⟨h1, x⟩, e1, e⟩ := R.bind_ok.mp e
        obtain ⟨⟨h2, y⟩, e2, e⟩ := R.bind_ok.mp e
        obtain ⟨_, _, e⟩ := R.bind_ok.mp e
        simp only [R.pure_ok] at e
        have h3 := (ih tps a' _ _ _ e2 _ (ih tps p _ _ _ e1 _ hh)).new (n := .polyApply x y) trivial
        rw [e] at h3; exact h3
      | package p o => simp at e
      | abstract p t' =>
        obtain ⟨⟨h1, x⟩, e1, e⟩ := R.bind_ok.mp e
        simp only [R.pure_ok] at e
        have h3 := (ih tps t' _ _ _ e1 _ hh).new (n := .abstract p x) trivial
        rw [e] at h3; exact h3
      | var k v =>
        cases v with
        | none => simp only [R.pure_ok] at e; cases e; exact hh
        | some v =>
          simp only at e
          split at e
          · simp only [R.pure_ok] at e; cases e; exact hh
          · obtain ⟨⟨h1, x⟩, e1, e⟩ := R.bind_ok.mp e
            obtain ⟨⟨h2, y⟩, e2, e⟩ := R.bind_ok.mp e
            obtain ⟨h3, e3, e⟩ := R.bind_ok.mp e
            simp only [R.pure_ok] at e; cases e
            exact assignVarType_good n e3 (ih _ v _ _ _ e2 _ (newVarType_good k _ _ _ e1 _ hh))
      | type t' =>
        obtain ⟨⟨h1, x⟩, e1, e⟩ := R.bind_ok.mp e
        simp only [R.pure_ok] at e
        have h3 := (ih tps t' _ _ _ e1 _ hh).new (n := .type x) trivial
        rw [e] at h3; exact h3

theorem normal_good : (n : Nat) → (nn : List Ptr) → (t : Ptr) → HPres (normal n nn · t)
  | 0, _, _ => by intro h h' a e; simp [normal] at e
  | n + 1, nn, t => by
    intro h h' a e H hh
    simp only [normal] at e
    have ih := normal_good n
    split at e
    · cases e; exact hh
    · obtain ⟨nd, hnd, e⟩ := R.bind_ok.mp e
      cases nd with
      | poly arg body =>
        obtain ⟨⟨h1, x⟩, e1, e⟩ := R.bind_ok.mp e
        have h1g := ih _ body _ _ _ e1 _ hh
        cases x with
        | none => simp only [R.pure_ok] at e; cases e; exact h1g
        | some pat =>
          obtain ⟨nd2, _, e⟩ := R.bind_ok.mp e
          cases nd2 with
          | polyApply p a' =>
            simp only at e
            split at e <;> (simp only [R.pure_ok] at e; cases e; exact h1g)
          | _ => simp only [R.pure_ok] at e; cases e; exact h1g
      | polyApply poly arg =>
        obtain ⟨⟨h1, x⟩, e1, e⟩ := R.bind_ok.mp e
        have h1g := ih _ poly _ _ _ e1 _ hh
        cases x with
        | none => simp only [R.pure_ok] at e; cases e; exact h1g
        | some p =>
          obtain ⟨nd2, _, e⟩ := R.bind_ok.mp e
          cases nd2 with
          | poly parg body =>
            obtain ⟨⟨h2, s⟩, e2, e⟩ := R.bind_ok.mp e
            exact ih _ s _ _ _ e _ (subst_good parg arg n [] body _ _ _ e2 _ h1g)
          | _ => simp only [R.pure_ok] at e; cases e; exact h1g
      | var k v =>
        cases v with
        | none => simp only [R.pure_ok] at e; cases e; exact hh
        | some v => exact ih _ v _ _ _ e _ hh
      | _ => simp only [R.pure_ok] at e; cases e; exact hh

theorem normalType_good (n : Nat) (t : Ptr) : HPres (normalType n · t) := by
  intro h h' a e H hh
  simp only [normalType] at e
  obtain ⟨⟨h1, x⟩, e1, e⟩ := R.bind_ok.mp e
  cases x with
  | none => simp at e
  | some x => simp only [R.pure_ok] at e; cases e; exact normal_good n [] t _ _ _ e1 _ hh

theorem stripPoly_good : (n : Nat) → (t : Option Ptr) → HPres (stripPoly n · t)
  | 0, _ => by intro h h' a e; simp [stripPoly] at e
  | n + 1, none => by intro h h' a e H hh; simp only [stripPoly, R.pure_ok] at e; cases e; exact hh
  | n + 1, some t => by
    intro h h' a e H hh
    simp only [stripPoly] at e
    obtain ⟨nd, hnd, e⟩ := R.bind_ok.mp e
    cases nd with
    | poly _ body =>
      obtain ⟨⟨h1, x⟩, e1, e⟩ := R.bind_ok.mp e
      exact stripPoly_good n x _ _ _ e _ (normal_good n [] body _ _ _ e1 _ hh)
    | _ => simp only [R.pure_ok] at e; cases e; exact hh

theorem stripType_good : (n : Nat) → (t : Option Ptr) → HPres (stripType n · t)
  | 0, _ => by intro h h' a e; simp [stripType] at e
  | n + 1, none => by intro h h' a e H hh; simp only [stripType, R.pure_ok] at e; cases e; exact hh
  | n + 1, some t => by
    intro h h' a e H hh
    simp only [stripType] at e
    obtain ⟨nd, hnd, e⟩ := R.bind_ok.mp e
    cases nd with
    | type body =>
      obtain ⟨⟨h1, x⟩, e1, e⟩ := R.bind_ok.mp e
      exact stripType_good n x _ _ _ e _ (normal_good n [] body _ _ _ e1 _ hh)
    | _ => simp only [R.pure_ok] at e; cases e; exact hh

theorem typeIsVacuous_good (n : Nat) (t : Ptr) : HPres (typeIsVacuous n · t) := by
  intro h h' a e H hh
  simp only [typeIsVacuous] at e
  obtain ⟨⟨h1, x⟩, e1, e⟩ := R.bind_ok.mp e
  obtain ⟨⟨h2, y⟩, e2, e⟩ := R.bind_ok.mp e
  obtain ⟨⟨h3, z⟩, e3, e⟩ := R.bind_ok.mp e
  simp only [R.pure_ok] at e; cases e
  exact stripPoly_good n _ _ _ _ e3 _ (stripType_good n _ _ _ _ e2 _ (normal_good n _ _ _ _ _ e1 _ hh))

/-! Comparison. -/

/-- The comparison keeps the heap such. -/
def EPres (r : EqRes) (h : Heap) : Prop := ∀ h' vars b, r = .ok (h', vars, b) → ∀ H, HGood H h → HGood H h'

theorem EPres.ok {h : Heap} {vars : Vars} {b : Bool} : EPres (.ok (h, vars, b)) h := by
  intro h' v b' e H hh; cases e; exact hh

theorem EPres.fail {h : Heap} : EPres .fail h := by intro h' v b' e; cases e

theorem EPres.andEq {x : EqRes} {y : Heap → Vars → EqRes} {h : Heap} (hx : EPres x h) (hy : ∀ h v, EPres (y h v) h) : EPres (andEq x y) h := by
  intro h' v b e H hh
  simp only [Types.andEq] at e
  obtain ⟨⟨h1, v1, b1⟩, e1, e⟩ := R.bind_ok.mp e
  have := hx _ _ _ e1 _ hh
  cases b1 with
  | true => exact hy _ _ _ _ _ e _ this
  | false => simp [R.pure_ok] at e; obtain ⟨rfl, _⟩ := e; exact this

theorem fieldsEqual_good {eq : Heap → Vars → Ptr → Ptr → EqRes} (he : ∀ h v a b, EPres (eq h v a b) h) : (as bs : List (Name × Ptr)) → (h : Heap) → (v : Vars) →
    EPres (fieldsEqual eq h v as bs) h
  | (x, a) :: as, (y, b) :: bs, h, v => by
    simp only [fieldsEqual]
    split
    · exact .ok
    · exact (he h v a b).andEq fun h v => fieldsEqual_good he as bs h v
  | [], _, h, v => by simp only [fieldsEqual]; exact .ok
  | _ :: _, [], h, v => by simp only [fieldsEqual]; exact .ok

theorem sameTag_good {n : Nat} {rec : List (Ptr × Ptr) → Heap → Vars → Ptr → Ptr → EqRes} (he : ∀ q h v a b, EPres (rec q h v a b) h)
    (neq : List (Ptr × Ptr)) (h : Heap) (vars : Vars) (a b : Ptr) (na nb : Node) : EPres (sameTag n rec neq h vars a b na nb) h := by
  unfold sameTag
  split
  · split
    · exact .ok
    · exact fieldsEqual_good (he neq) _ _ h vars
  · exact EPres.andEq (he _ _ _ _ _) fun h v => he _ _ _ _ _
  · intro h' v b e H hh
    obtain ⟨k1, _, e⟩ := R.bind_ok.mp e
    obtain ⟨k2, _, e⟩ := R.bind_ok.mp e
    split at e
    · simp only [R.pure_ok] at e; cases e; exact hh
    · exact he _ _ _ _ _ _ _ _ e _ hh
  · exact EPres.andEq (he _ _ _ _ _) fun h v => he _ _ _ _ _
  · exact .ok
  · exact EPres.andEq (he _ _ _ _ _) fun h v => he _ _ _ _ _
  · split
    · exact .ok
    · exact .fail
  · exact he _ _ _ _ _
  · exact .ok

theorem compareNormal_good {n : Nat} {rec : List (Ptr × Ptr) → Heap → Vars → Ptr → Ptr → EqRes} (he : ∀ q h v a b, EPres (rec q h v a b) h)
    (eq : List (Ptr × Ptr)) (h : Heap) (vars : Vars) (a b : Ptr) : EPres (compareNormal n rec eq h vars a b) h := by
  intro h' v bb e H hh
  simp only [compareNormal] at e
  obtain ⟨na, _, e⟩ := R.bind_ok.mp e
  obtain ⟨nb, _, e⟩ := R.bind_ok.mp e
  split at e
  · obtain ⟨t, _, e⟩ := R.bind_ok.mp e
    split at e
    · exact he _ _ _ _ _ _ _ _ e _ hh
    · split at e
      · obtain ⟨t, _, e⟩ := R.bind_ok.mp e
        split at e
        · exact he _ _ _ _ _ _ _ _ e _ hh
        · exact sameTag_good he _ _ _ _ _ _ _ _ _ _ e _ hh
      · exact sameTag_good he _ _ _ _ _ _ _ _ _ _ e _ hh
  · split at e
    · obtain ⟨t, _, e⟩ := R.bind_ok.mp e
      split at e
      · exact he _ _ _ _ _ _ _ _ e _ hh
      · exact sameTag_good he _ _ _ _ _ _ _ _ _ _ e _ hh
    · exact sameTag_good he _ _ _ _ _ _ _ _ _ _ e _ hh

theorem typesEqual_good : (n : Nat) → (eq : List (Ptr × Ptr)) → (h : Heap) → (vars : Vars) → (a b : Ptr) → EPres (typesEqual n eq h vars a b) h
  | 0, _, _, _, _, _ => by intro h' v b e; simp [typesEqual] at e
  | n + 1, eq, h, vars, a, b => by
    intro h' v bb e H hh
    simp only [typesEqual] at e
    obtain ⟨⟨h1, a1⟩, e1, e⟩ := R.bind_ok.mp e
    have g1 := normalType_good n a _ _ _ e1 _ hh
    obtain ⟨inf, einf, e⟩ := R.bind_ok.mp e
    cases inf with
    | done vars' => simp only [R.pure_ok] at e; cases e; exact g1
    | go h2 a2 =>
      have g2 : HGood H h2 := by
        simp only [infer] at einf
        split at einf
        · cases einf; exact g1
        · split at einf
          · cases einf
          · obtain ⟨⟨h3, a3⟩, e3, e4⟩ := R.bind_ok.mp einf
            simp only [R.pure_ok] at e4; cases e4
            exact normalType_good n _ _ _ _ e3 _ g1
          · cases einf
      obtain ⟨⟨h3, b3⟩, e3, e⟩ := R.bind_ok.mp e
      have g3 := normalType_good n b _ _ _ e3 _ g2
      simp only at e
      split at e
      · simp only [R.pure_ok] at e; cases e; exact g3
      · exact compareNormal_good (typesEqual_good n) _ _ _ _ _ _ _ _ e _ g3

theorem depoly_good : (n : Nat) → (t : Ptr) → HPres (depoly n · t)
  | 0, _ => by intro h h' a e; simp [depoly] at e
  | n + 1, t => by
    intro h h' a e H hh
    simp only [depoly] at e
    obtain ⟨⟨h1, p⟩, e1, e⟩ := R.bind_ok.mp e
    have g1 := normalType_good n t _ _ _ e1 _ hh
    obtain ⟨nd, _, e⟩ := R.bind_ok.mp e
    cases nd with
    | poly arg body =>
      obtain ⟨⟨h2, q, vars⟩, e2, e⟩ := R.bind_ok.mp e
      simp only [R.pure_ok] at e; cases e
      exact depoly_good n body _ _ _ e2 _ g1
    | _ => simp only [R.pure_ok] at e; cases e; exact g1

theorem inferLoop_good (n : Nat) : (vars : Vars) → (as bs : List Ptr) → HPres (inferLoop n vars as bs)
  | vars, a :: as, b :: bs => by
    intro h h' r e H hh
    simp only [inferLoop] at e
    obtain ⟨⟨h1, v1, ok1⟩, e1, e⟩ := R.bind_ok.mp e
    obtain ⟨⟨h2, v2, ok2⟩, e2, e⟩ := R.bind_ok.mp e
    simp only [R.pure_ok] at e; cases e
    exact inferLoop_good n v1 as bs _ _ _ e2 _ (typesEqual_good n [] h vars a b _ _ _ e1 _ hh)
  | vars, [], _ => by intro h h' r e H hh; simp only [inferLoop, R.pure_ok] at e; cases e; exact hh
  | vars, _ :: _, [] => by intro h h' r e H hh; simp only [inferLoop, R.pure_ok] at e; cases e; exact hh

end Verif.Elab
