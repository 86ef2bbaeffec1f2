import Verif.Elab.Frame
import Verif.Types.Equal
/-
Applying a polymorphic value to types leaves the code alone.
-/
namespace Verif.Elab
open Types
open Compile (Var Tc Tcs Flds Brs)

/-- The comparison gives values to the variables, and that is all it does to them. -/
def VPres (r : EqRes) (vars : Vars) : Prop := ∀ h' vars' b, r = .ok (h', vars', b) → vars'.map (·.1) = vars.map (·.1)

theorem VPres.ok {h : Heap} {vars : Vars} {b : Bool} : VPres (.ok (h, vars, b)) vars := by
  intro h' v b' e; cases e; rfl

theorem VPres.fail {vars : Vars} : VPres .fail vars := by intro h' v b' e; cases e

theorem VPres.andEq {x : EqRes} {y : Heap → Vars → EqRes} {vars : Vars} (hx : VPres x vars) (hy : ∀ h v, VPres (y h v) v) : VPres (andEq x y) vars := by
  intro h' v b e
  simp only [Types.andEq] at e
  obtain ⟨⟨h1, v1, b1⟩, e1, e⟩ := R.bind_ok.mp e
  have := hx _ _ _ e1
  cases b1 with
  | true => exact (hy _ _ _ _ _ e).trans this
  | false => simp [R.pure_ok] at e; obtain ⟨_, rfl, _⟩ := e; exact this

theorem fieldsEqual_vars {eq : Heap → Vars → Ptr → Ptr → EqRes} (he : ∀ h v a b, VPres (eq h v a b) v) : (as bs : List (Name × Ptr)) → (h : Heap) → (v : Vars) →
    VPres (fieldsEqual eq h v as bs) v
  | (x, a) :: as, (y, b) :: bs, h, v => by
    simp only [fieldsEqual]
    split
    · exact .ok
    · exact (he h v a b).andEq fun h v => fieldsEqual_vars he as bs h v
  | [], _, h, v => by simp only [fieldsEqual]; exact .ok
  | _ :: _, [], h, v => by simp only [fieldsEqual]; exact .ok

theorem sameTag_vars {n : Nat} {rec : List (Ptr × Ptr) → Heap → Vars → Ptr → Ptr → EqRes} (he : ∀ q h v a b, VPres (rec q h v a b) v)
    (neq : List (Ptr × Ptr)) (h : Heap) (vars : Vars) (a b : Ptr) (na nb : Node) : VPres (sameTag n rec neq h vars a b na nb) vars := by
  unfold sameTag
  split
  · split
    · exact .ok
    · exact fieldsEqual_vars (he neq) _ _ h vars
  · exact VPres.andEq (he _ _ _ _ _) fun h v => he _ _ _ _ _
  · intro h' v b e
    obtain ⟨k1, _, e⟩ := R.bind_ok.mp e
    obtain ⟨k2, _, e⟩ := R.bind_ok.mp e
    split at e
    · simp only [R.pure_ok] at e; cases e; rfl
    · exact he _ _ _ _ _ _ _ _ e
  · exact VPres.andEq (he _ _ _ _ _) fun h v => he _ _ _ _ _
  · exact .ok
  · exact VPres.andEq (he _ _ _ _ _) fun h v => he _ _ _ _ _
  · split
    · exact .ok
    · exact .fail
  · exact he _ _ _ _ _
  · exact .ok

theorem compareNormal_vars {n : Nat} {rec : List (Ptr × Ptr) → Heap → Vars → Ptr → Ptr → EqRes} (he : ∀ q h v a b, VPres (rec q h v a b) v)
    (eq : List (Ptr × Ptr)) (h : Heap) (vars : Vars) (a b : Ptr) : VPres (compareNormal n rec eq h vars a b) vars := by
  intro h' v bb e
  simp only [compareNormal] at e
  obtain ⟨na, _, e⟩ := R.bind_ok.mp e
  obtain ⟨nb, _, e⟩ := R.bind_ok.mp e
  split at e
  · obtain ⟨t, _, e⟩ := R.bind_ok.mp e
    split at e
    · exact he _ _ _ _ _ _ _ _ e
    · split at e
      · obtain ⟨t, _, e⟩ := R.bind_ok.mp e
        split at e
        · exact he _ _ _ _ _ _ _ _ e
        · exact sameTag_vars he _ _ _ _ _ _ _ _ _ _ e
      · exact sameTag_vars he _ _ _ _ _ _ _ _ _ _ e
  · split at e
    · obtain ⟨t, _, e⟩ := R.bind_ok.mp e
      split at e
      · exact he _ _ _ _ _ _ _ _ e
      · exact sameTag_vars he _ _ _ _ _ _ _ _ _ _ e
    · exact sameTag_vars he _ _ _ _ _ _ _ _ _ _ e

theorem typesEqual_vars : (n : Nat) → (eq : List (Ptr × Ptr)) → (h : Heap) → (vars : Vars) → (a b : Ptr) → VPres (typesEqual n eq h vars a b) vars
  | 0, _, _, _, _, _ => by intro h' v b e; simp [typesEqual] at e
  | n + 1, eq, h, vars, a, b => by
    intro h' v bb e
    simp only [typesEqual] at e
    obtain ⟨⟨h1, a1⟩, e1, e⟩ := R.bind_ok.mp e
    obtain ⟨inf, einf, e⟩ := R.bind_ok.mp e
    cases inf with
    | done vars' =>
      simp only [R.pure_ok] at e; cases e
      rcases infer_inv einf with ⟨v2, h2, _, _, h3⟩ | h2 | ⟨_, _, _, h2, _⟩
      · cases h2; exact h3
      · cases h2
      · cases h2
    | go h2 a2 =>
      obtain ⟨⟨h3, b3⟩, e3, e⟩ := R.bind_ok.mp e
      simp only at e
      split at e
      · simp only [R.pure_ok] at e; cases e; rfl
      · exact compareNormal_vars (typesEqual_vars n) _ _ _ _ _ _ _ _ e

theorem inferLoop_vars (n : Nat) : (vars : Vars) → (as bs : List Ptr) → {h h' : Heap} → {r : Vars × Bool} → inferLoop n vars as bs h = .ok (h', r) → r.1.map (·.1) = vars.map (·.1)
  | vars, a :: as, b :: bs, h, h', r, e => by
    simp only [inferLoop] at e
    obtain ⟨⟨h1, v1, ok1⟩, e1, e⟩ := R.bind_ok.mp e
    obtain ⟨⟨h2, v2, ok2⟩, e2, e⟩ := R.bind_ok.mp e
    simp only [R.pure_ok] at e; cases e
    exact (inferLoop_vars n v1 as bs e2).trans (typesEqual_vars n [] h vars a b _ _ _ e1)
  | vars, [], _, h, h', r, e => by simp only [inferLoop, R.pure_ok] at e; cases e; rfl
  | vars, _ :: _, [], h, h', r, e => by simp only [inferLoop, R.pure_ok] at e; cases e; rfl

/-- The address holds a type that is not the type of a type. -/
def NotType (h : Heap) (p : Ptr) : Prop := ∃ n, h[p]? = some n ∧ ∀ t, n ≠ .type t

theorem NotType.later {H h : Heap} {p : Ptr} (hp : NotType H p) (hh : HGood H h) : NotType h p := by
  obtain ⟨n, h1, h2⟩ := hp
  obtain ⟨n', h3, h4⟩ := hh.later p n h1
  refine ⟨n', h3, ?_⟩
  rcases h4 with rfl | ⟨_, _, _, _, rfl, rfl⟩
  · exact h2
  · intro t h; cases h

theorem NotType.new {h : Heap} {p : Ptr} {n : Node} (hp : NotType h p) : NotType (new h n).1 p := by
  obtain ⟨m, h1, h2⟩ := hp
  refine ⟨m, ?_, h2⟩
  obtain ⟨hlt, _⟩ := List.getElem?_eq_some_iff.mp h1
  simp only [Types.new]
  rw [List.getElem?_append_left hlt]; exact h1

theorem polyApply_tc {n : Nat} {poly r : Ptr × Tc} {a : Ptr} {s s' : S} (h : polyApply n poly a s = .ok (s', some r)) (hp : NotType s.heap poly.1) :
    r.2 = poly.2 ∧ NotType s'.heap r.1 := by
  unfold polyApply at h
  obtain ⟨k, h1, h⟩ := TM.readH_bind.mp h
  obtain ⟨nd, hn, hnt⟩ := hp
  cases k with
  | poly ka kr =>
    obtain ⟨k2, h2, h⟩ := TM.readH_bind.mp h
    split at h
    · cases (TM.pure_ok.mp h).2
    · obtain ⟨v, h3, h⟩ := TM.readH_bind.mp h
      cases v with
      | none => exact (TM.crash_ok.mp h).elim
      | some arg =>
        obtain ⟨h', pat, h4, h⟩ := TM.liftH_bind.mp h
        obtain ⟨rfl, hr⟩ := TM.pure_ok.mp h
        cases hr
        refine ⟨rfl, ?_⟩
        cases n with
        | zero => simp [newPolyApplyType] at h4
        | succ n =>
          simp only [newPolyApplyType] at h4
          obtain ⟨nd', h5, h4⟩ := R.bind_ok.mp h4
          rw [get_ok, hn] at h5
          cases h5
          have : R.ok (Types.new s.heap (.polyApply poly.1 arg)) = R.ok (h', pat) := by
            cases nd with
            | type t => exact absurd rfl (hnt t)
            | _ => exact h4
          cases this
          exact ⟨.polyApply poly.1 arg, by simp, by simp⟩
  | basic l =>
    obtain ⟨v, h2, h⟩ := TM.readH_bind.mp h
    cases v with
    | none => cases (TM.pure_ok.mp h).2
    | some pv =>
      unfold valueOfType at h2
      obtain ⟨nd', h5, h2⟩ := R.bind_ok.mp h2
      rw [get_ok, hn] at h5
      cases h5
      cases nd with
      | type t => exact absurd rfl (hnt t)
      | _ => cases h2

theorem applyVars_tc {n : Nat} : (vars : Vars) → {poly r : Ptr × Tc} → {s s' : S} → applyVars n poly vars s = .ok (s', some r) → (vars ≠ [] → NotType s.heap poly.1) →
    r.2 = poly.2
  | [], poly, r, s, s', h, _ => by
    unfold applyVars at h
    cases (TM.pure_ok.mp h).2; rfl
  | (_, none) :: _, poly, r, s, s', h, _ => by
    unfold applyVars at h
    cases (TM.pure_ok.mp h).2
  | (_, some t) :: vars, poly, r, s, s', h, hp => by
    unfold applyVars at h
    obtain ⟨s1, at', h1, h⟩ := TM.bind_ok.mp h
    obtain ⟨rfl, _⟩ := TM.alloc_ok.mp h1
    obtain ⟨s2, q, h2, h⟩ := TM.bind_ok.mp h
    cases q with
    | none => cases (TM.pure_ok.mp h).2
    | some q =>
      obtain ⟨h3, h4⟩ := polyApply_tc h2 (hp (by simp)).new
      exact (applyVars_tc vars h fun _ => h4).trans h3

/-- Of a polymorphic value the type is not the type of a type. -/
theorem depoly_notType {n : Nat} {H h h' : Heap} {t q : Ptr} {vars : Vars} (e : depoly n h t = .ok (h', q, vars)) (hne : vars ≠ []) (hh : HGood H h) : NotType h' t := by
  have hg : HGood h h' := depoly_good n t _ _ _ e _ (.refl hh.good)
  cases n with
  | zero => simp [depoly] at e
  | succ n =>
    simp only [depoly] at e
    obtain ⟨⟨h1, p⟩, e1, e⟩ := R.bind_ok.mp e
    cases n with
    | zero =>
      simp only [normalType] at e1
      obtain ⟨_, e2, _⟩ := R.bind_ok.mp e1
      simp [normal] at e2
    | succ n =>
      simp only [normalType] at e1
      obtain ⟨⟨h2, o⟩, e2, e1⟩ := R.bind_ok.mp e1
      simp only [normal] at e2
      split at e2
      · rename_i hc; simp at hc
      · obtain ⟨nd, hnd, e2⟩ := R.bind_ok.mp e2
        rw [get_ok] at hnd
        cases nd with
        | type t' =>
          simp only [R.pure_ok] at e2
          cases e2
          simp only [R.pure_ok] at e1
          cases e1
          obtain ⟨nd', hnd', e⟩ := R.bind_ok.mp e
          rw [get_ok, hnd] at hnd'
          cases hnd'
          simp only [R.pure_ok] at e
          cases e
          exact absurd rfl hne
        | _ => exact NotType.later ⟨_, hnd, by simp⟩ hg

theorem typeInferArgs_tc {n : Nat} {vars : Vars} {ex ac : List Ptr} {poly r : Ptr × Tc} {s s' : S} (h : typeInferArgs n vars ex ac poly s = .ok (s', some r))
    (hp : vars ≠ [] → NotType s.heap poly.1) (hh : ∃ H, HGood H s.heap) : r.2 = poly.2 := by
  unfold typeInferArgs at h
  split at h
  · cases (TM.pure_ok.mp h).2
  · obtain ⟨s1, ⟨vars', ok⟩, h1, h⟩ := TM.bind_ok.mp h
    obtain ⟨h', rfl, g1⟩ := TM.liftH_ok.mp h1
    simp only at h
    split at h
    · cases (TM.pure_ok.mp h).2
    · refine applyVars_tc vars' h fun hne => ?_
      have hv := inferLoop_vars n vars ex ac g1
      obtain ⟨H, hh⟩ := hh
      refine (hp ?_).later (inferLoop_good n vars ex ac _ _ _ g1 _ (.refl hh.good))
      rintro rfl
      simp at hv
      exact hne hv

end Verif.Elab
