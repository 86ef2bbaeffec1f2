import Verif.Elab.Erase
/-
What the type checker makes of an expression, continued: functions, polymorphic values, application,
let.
-/
namespace Verif.Elab
open Types
open Compile (Var Tc Tcs Flds Brs)

section
variable {M : List Name} {n : Nat}

theorem tcAccess_erase (hP : ∀ e, Pres (tcExpr M n e)) (hrec : Erasing (rolesIn M) (tcExpr M n)) {o : Expr} {x : Name} {s s' : S} {r : Ptr × Tc}
    (h : tcAccess n (tcExpr M n) o x s = .ok (s', some r)) (hok : Ok s) :
    ∃ t, Erases (rolesIn M) (binders s.scopes) (.dataAccess o x) t ∧ ConvAt s' t r.2 := by
  unfold tcAccess at h
  obtain ⟨s1, q, h1, h⟩ := TM.bind_ok.mp h
  have hp1 := hP _ _ _ _ h1
  cases q with
  | none => cases (TM.pure_ok.mp h).2
  | some q =>
    obtain ⟨ot, otc⟩ := q
    simp only at h
    obtain ⟨hp, nt, h2, h⟩ := TM.liftH_bind.mp h
    obtain ⟨nd, h3, h⟩ := TM.readH_bind.mp h
    have hok1 := hok.step hp1
    have hg2 : HGood s1.heap hp := normalType_good n ot _ _ _ h2 _ hok1.refl
    split at h
    · rename_i dt fields
      cases hf : findField x fields 0 with
      | none => rw [hf] at h; cases (TM.pure_ok.mp h).2
      | some w =>
        obtain ⟨tag, ft⟩ := w
        rw [hf] at h
        obtain ⟨rfl, h⟩ := TM.pure_ok.mp h
        cases h
        obtain ⟨t, g1, sc, rest, hsc, g2⟩ := hrec _ _ _ _ h1 hok
        obtain ⟨k, rfl, hk⟩ := findField_position hf
        simp only [Nat.zero_add]
        refine ⟨_, .access (k := dt) (xs := fields.map (·.1)) ?_ g1, sc, rest, hsc, .access hk g2⟩
        exact ⟨ot, s1.heap, hp, n, nt, fields, ⟨n, s, s1, otc, h1, rfl, hok1.refl⟩, h2, h3, rfl, nodup_of_dupNames (data_nodup hg2 h3)⟩
    · cases (TM.pure_ok.mp h).2

theorem tcAbstractAccess_erase (hrec : Erasing (rolesIn M) (tcExpr M n)) {v : Expr} {s s' : S} {r : Ptr × Tc}
    (h : tcAbstractAccess M n (tcExpr M n) v s = .ok (s', some r)) (hok : Ok s) :
    ∃ t, Erases (rolesIn M) (binders s.scopes) (.abstractAccess v) t ∧ ConvAt s' t r.2 := by
  unfold tcAbstractAccess at h
  obtain ⟨s1, q, h1, h⟩ := TM.bind_ok.mp h
  cases q with
  | none => cases (TM.pure_ok.mp h).2
  | some q =>
    obtain ⟨vt, vtc⟩ := q
    simp only at h
    obtain ⟨hp, a, h2, h⟩ := TM.liftH_bind.mp h
    obtain ⟨nd, h3, h⟩ := TM.readH_bind.mp h
    split at h
    · obtain ⟨nd, h4, h⟩ := TM.readH_bind.mp h
      split at h
      · split at h
        · cases (TM.pure_ok.mp h).2
        · obtain ⟨rfl, h⟩ := TM.pure_ok.mp h
          cases h
          obtain ⟨t, g1, g2⟩ := hrec _ _ _ _ h1 hok
          exact ⟨t, .abstractAccess g1, g2⟩
      · exact (TM.crash_ok.mp h).elim
    · cases (TM.pure_ok.mp h).2

theorem tcCast_erase (hT : ∀ e, Quiet (tcType M n e)) (hrec : Erasing (rolesIn M) (tcExpr M n)) {p ty v : Expr} {s s' : S} {r : Ptr × Tc}
    (h : tcCast M n (tcExpr M n) (tcType M n) p ty v s = .ok (s', some r)) (hok : Ok s) :
    ∃ t, Erases (rolesIn M) (binders s.scopes) (.abstractCast p ty v) t ∧ ConvAt s' t r.2 := by
  unfold tcCast at h
  obtain ⟨s1, q, h1, h⟩ := TM.bind_ok.mp h
  have hp1 := (hT _).pres _ _ _ h1
  cases q with
  | none => cases (TM.pure_ok.mp h).2
  | some pt =>
    simp only at h
    obtain ⟨hp, a, h2, h⟩ := TM.liftH_bind.mp h
    obtain ⟨nd, h3, h⟩ := TM.readH_bind.mp h
    have hok1 := hok.step hp1
    have hg2 : HGood s1.heap hp := normalType_good n pt _ _ _ h2 _ hok1.refl
    have hok2 : Ok { s1 with heap := hp } := hok1.quiet rfl ⟨_, hg2⟩
    split at h
    · obtain ⟨s3, q, h4, h⟩ := TM.bind_ok.mp h
      have hp4 := (hT _).pres _ _ _ h4
      cases q with
      | none => cases (TM.pure_ok.mp h).2
      | some t0 =>
        simp only at h
        obtain ⟨s5, q, h5, h⟩ := TM.bind_ok.mp h
        cases q with
        | none => cases (TM.pure_ok.mp h).2
        | some q =>
          obtain ⟨vt, vtc⟩ := q
          obtain ⟨t, g1, g2⟩ := hrec _ _ _ _ h5 (hok2.step hp4)
          rw [binders_ext hp4.ext, show binders ({ s1 with heap := hp } : S).scopes = binders s.scopes from binders_ext hp1.ext] at g1
          simp only at h
          split at h
          · cases (TM.pure_ok.mp h).2
          · obtain ⟨b, h6, h⟩ := TM.readH_bind.mp h
            cases b with
            | false => cases (TM.pure_ok.mp h).2
            | true =>
              obtain ⟨rfl, h⟩ := TM.pure_ok.mp h
              cases h
              exact ⟨t, .abstractCast g1, g2⟩
    · cases (TM.pure_ok.mp h).2

/-! ### Functions and polymorphic values -/

/-- The first may be used where the second may. -/
def EntryLe (a b : VarName × Option (Var × Bool)) : Prop := a.1 = b.1 ∧ ∀ v, a.2 = some (v, true) → b.2 = some (v, true)

theorem CxLe.all2 {as bs cx cx' : Cx} (h : All2 EntryLe as bs) (hl : CxLe cx cx') : CxLe (as ++ cx) (bs ++ cx') := by
  induction h with
  | nil => exact hl
  | @cons a b as bs hab _ ih =>
    intro x v hx
    simp only [List.cons_append] at hx ⊢
    rw [cxVar_cons] at hx ⊢
    rw [← hab.1]
    split
    · rename_i he
      rw [if_pos he] at hx
      have : a.2 = some (v, true) := by
        rcases ha : a.2 with _ | ⟨w, _ | _⟩
        · rw [ha] at hx; cases hx
        · rw [ha] at hx; cases hx
        · rw [ha] at hx; cases hx; rfl
      rw [hab.2 v this]
    · rename_i he
      rw [if_neg he] at hx
      exact ih x v hx

theorem static_entries : (i : Nat) → (vs : List V) → (∀ (j : Nat) v, vs[j]? = some v → v.var = some (.static (i + j)) ∧ v.used = true) →
    cxOf vs = staticEntries i (vs.map (·.name))
  | _, [], _ => rfl
  | i, v :: vs, h => by
    have h0 := h 0 v rfl
    simp only [cxOf, List.map_cons, staticEntries]
    have := static_entries (i + 1) vs fun j w hj => by
      have := h (j + 1) w (by simpa using hj)
      rw [show i + 1 + j = i + (j + 1) by omega]; exact this
    simp only [cxOf] at this
    rw [this, h0.1, h0.2]; rfl

theorem tcFunc_erase (hP : ∀ e, Pres (tcExpr M n e)) (hT : ∀ e, Quiet (tcType M n e)) (hrec : Erasing (rolesIn M) (tcExpr M n)) {x : Name} {ty b : Expr} {s s' : S} {r : Ptr × Tc}
    (h : tcFunc (tcExpr M n) (tcType M n) x ty b s = .ok (s', some r)) (hok : Ok s) :
    ∃ t, Erases (rolesIn M) (binders s.scopes) (.func x ty b) t ∧ ConvAt s' t r.2 := by
  unfold tcFunc at h
  obtain ⟨s1, q, h1, h⟩ := TM.bind_ok.mp h
  have hp1 := (hT _).pres _ _ _ h1
  have hq1 := hT _ _ _ _ h1
  have hok1 := hok.step hp1
  cases q with
  | none => cases (TM.pure_ok.mp h).2
  | some argT =>
    simp only at h
    obtain ⟨s2, u, h2, h⟩ := TM.bind_ok.mp h
    have e2 : s2 = { s1 with scopes := initScope (some []) [(.normal x, argT)] :: s1.scopes } := by unfold pushScope at h2; cases h2; rfl
    obtain ⟨s3, q, h3, h⟩ := TM.bind_ok.mp h
    have hp3 := hP _ _ _ _ h3
    have hok2 : Ok s2 := by
      obtain ⟨p, rest, hp⟩ := hok1.cons
      rw [e2]
      refine ⟨⟨⟨⟨p, rest, hp, .nil⟩, fun i v hv => by simp [initScope] at hv⟩, hok1.inv⟩, .inr ⟨by simp [initScope], hok1.live⟩, ?_, hok1.heap⟩
      intro b hb
      simp only [binders_cons, initScope, argVars, List.reverse_cons, List.reverse_nil, List.nil_append, List.map_cons, List.map_nil, List.cons_append, List.mem_cons] at hb
      rcases hb with rfl | hb
      · intro; exact ⟨x, rfl⟩
      · exact hok1.names b hb
    have hok3 := hok2.step hp3
    have hx := hp3.ext
    rw [e2] at hx
    simp only at hx
    obtain ⟨sc2, rest2, hs3, hsc⟩ := hx.cons_left
    obtain ⟨s4, sc, h4, h⟩ := TM.bind_ok.mp h
    have e4 : s4 = { s3 with scopes := rest2 } ∧ sc = sc2 := by
      unfold popScope at h4
      rw [hs3] at h4; cases h4; exact ⟨rfl, rfl⟩
    obtain ⟨e4, rfl⟩ := e4
    cases q with
    | none => cases (TM.pure_ok.mp h).2
    | some q =>
      obtain ⟨bt, btc⟩ := q
      simp only at h
      rw [TM.alloc_bind] at h
      obtain ⟨rfl, h⟩ := TM.pure_ok.mp h
      cases h
      obtain ⟨t, g1, g2⟩ := hrec _ _ _ _ h3 hok2
      have g3 := g2.get hs3
      have hb : binders s2.scopes = (.normal x, false) :: binders s.scopes := by
        rw [e2, ← hq1.1]; rfl
      rw [hb] at g1
      have hinv := hok3.inv
      rw [hs3] at hinv
      have hcap := hinv.1
      unfold CapOk at hcap
      cases hc : sc.captured with
      | none => have := hsc.captured_none.mp hc; simp [initScope] at this
      | some cs =>
        rw [hc] at hcap
        obtain ⟨⟨p, rest', rfl, k1⟩, k2⟩ := hcap
        refine ⟨.func x t, .func g1, p, rest', by rw [e4], ?_⟩
        refine .func (names := sc.statics.map (·.name)) ?_ ?_
        · rw [show (Option.getD (some cs) []) = cs from rfl]
          clear k2 hc
          generalize sc.statics = st at k1
          induction k1 with
          | nil => exact .nil
          | cons h _ ih => exact .cons (FirstIs.cx.mp h) ih
        · have ha : sc.allocated = 0 := hsc.allocated
          rw [ha] at g3
          refine g3.mono ?_
          have hl := hsc.locals
          have har := hsc.args
          simp only [initScope, argVars, List.reverse_cons, List.reverse_nil, List.nil_append] at hl har
          have hstat := static_entries 0 sc.statics fun j v hj => by rw [Nat.zero_add]; exact k2 j v hj
          unfold Scope.vars
          cases hloc : sc.locals with
          | cons _ _ => rw [hloc] at hl; cases hl
          | nil =>
            cases harg : sc.args with
            | nil => rw [harg] at har; cases har
            | cons a as =>
              rw [harg] at har
              cases har with
              | cons hv hnil =>
                cases hnil
                have : cxOf ([] ++ [a] ++ sc.statics) = [(a.name, a.var.map (·, a.used))] ++ cxOf sc.statics := rfl
                rw [this, hstat]
                refine CxLe.all2 (bs := [(.normal x, some (.arg 0, true))]) (.cons ⟨hv.name, ?_⟩ .nil) (.refl _)
                intro v
                rw [hv.var]
                simp only [Option.map_some]
                intro e
                simp at e
                simp [e.1]

theorem tcPolyApply_erase (hP : ∀ e, Pres (tcExpr M n e)) (hrec : Erasing (rolesIn M) (tcExpr M n)) {p a : Expr} {s s' : S} {r : Ptr × Tc}
    (h : tcPolyApply n (tcExpr M n) p a s = .ok (s', some r)) (hok : Ok s) :
    ∃ t, Erases (rolesIn M) (binders s.scopes) (.polyApply p a) t ∧ ConvAt s' t r.2 := by
  unfold tcPolyApply at h
  obtain ⟨s1, q, h1, h⟩ := TM.bind_ok.mp h
  have hp1 := hP _ _ _ _ h1
  have hok1 := hok.step hp1
  obtain ⟨s2, q2, h2, h⟩ := TM.bind_ok.mp h
  have hp2 := exprForType_quiet hP a _ _ _ h2
  cases q with
  | none => cases (TM.pure_ok.mp h).2
  | some q =>
    cases q2 with
    | none => cases (TM.pure_ok.mp h).2
    | some q2 =>
      simp only at h
      have hq3 := polyApply_quiet _ _ _ _ _ _ h
      obtain ⟨t, g1, g2⟩ := hrec _ _ _ _ h1 hok
      obtain ⟨sc, rest, hsc, g3⟩ := g2
      have hs' : s'.scopes = sc :: rest := by rw [hq3.1, hp2.1]; exact hsc
      unfold polyApply at h
      obtain ⟨k, h3, h⟩ := TM.readH_bind.mp h
      cases k with
      | poly expected _ =>
        simp only at h
        obtain ⟨ac, h4, h⟩ := TM.readH_bind.mp h
        split at h
        · cases (TM.pure_ok.mp h).2
        · obtain ⟨v, h5, h⟩ := TM.readH_bind.mp h
          cases v with
          | none => exact (TM.crash_ok.mp h).elim
          | some v =>
            simp only at h
            obtain ⟨_, _, _, h⟩ := TM.liftH_bind.mp h
            obtain ⟨_, h⟩ := TM.pure_ok.mp h
            cases h
            exact ⟨t, .polyApply g1, sc, rest, hs', g3⟩
      | basic l =>
        simp only at h
        obtain ⟨v, h5, h⟩ := TM.readH_bind.mp h
        cases v with
        | none => cases (TM.pure_ok.mp h).2
        | some pv =>
          simp only at h
          obtain ⟨hp, pk, h6, h⟩ := TM.liftH_bind.mp h
          obtain ⟨nd, h7, h⟩ := TM.readH_bind.mp h
          split at h
          · rename_i path opaq
            obtain ⟨v, h8, h⟩ := TM.readH_bind.mp h
            cases v with
            | none => cases (TM.pure_ok.mp h).2
            | some av =>
              simp only at h
              rw [TM.alloc_bind, TM.alloc_bind] at h
              obtain ⟨_, h⟩ := TM.pure_ok.mp h
              cases h
              refine ⟨.typeVal, .abstractType ?_, sc, rest, hs', .typeVal⟩
              exact ⟨pv, s2.heap, hp, n, pk, path, opaq, .inr (.inr ⟨q.1, ⟨n, s, s1, q.2, h1, rfl, hp2.2 _ hok1.refl⟩, h5⟩), h6, h7⟩
          · cases (TM.pure_ok.mp h).2

theorem CxLe.drop_none {x : VarName} {cx : Cx} : CxLe ((x, none) :: cx) cx := by
  intro y v h
  rw [cxVar_cons] at h
  split at h
  · cases h
  · exact h

theorem tcPoly_erase (hP : ∀ e, Pres (tcExpr M n e)) (hrec : Erasing (rolesIn M) (tcExpr M n)) {x : Name} {k : Kind} {b : Expr} {s s' : S} {r : Ptr × Tc}
    (h : tcPoly n (tcExpr M n) x k b s = .ok (s', some r)) (hok : Ok s) :
    ∃ t, Erases (rolesIn M) (binders s.scopes) (.polyValue x k b) t ∧ ConvAt s' t r.2 := by
  unfold tcPoly at h
  split at h
  · cases (TM.pure_ok.mp h).2
  split at h
  · cases (TM.pure_ok.mp h).2
  obtain ⟨hp, argT, h1, h⟩ := TM.liftH_bind.mp h
  have hok1 : Ok { s with heap := hp } := hok.quiet rfl ⟨s.heap, newVarType_good k _ _ _ h1 _ hok.refl⟩
  obtain ⟨o, h2, h⟩ := TM.readH_bind.mp h
  cases o with
  | none => exact (TM.crash_ok.mp h).elim
  | some argV =>
    simp only at h
    obtain ⟨s1, _, k1, h⟩ := TM.bind_ok.mp h
    obtain ⟨s2, q, k2, h⟩ := TM.bind_ok.mp h
    obtain ⟨s3, _, k3, h⟩ := TM.bind_ok.mp h
    obtain ⟨sc, rest, s1', s2', sc2, rest2, e, e1, g2, hs2, e3⟩ := poly_frame (x := .normal x) (t := argT) (s := { s with heap := hp }) (s' := s3) (a := q) (hP b)
      (TM.bind_ok.mpr ⟨s1, _, k1, TM.bind_ok.mpr ⟨s2, q, k2, TM.bind_ok.mpr ⟨s3, _, k3, rfl⟩⟩⟩)
    cases q with
    | none => cases (TM.pure_ok.mp h).2
    | some q =>
      obtain ⟨bt, btc⟩ := q
      simp only at h
      obtain ⟨hp', pt, h4, h⟩ := TM.liftH_bind.mp h
      obtain ⟨rfl, h⟩ := TM.pure_ok.mp h
      cases h
      simp only at e
      have hokx : Ok s1' := by
        have := hok1.inv
        have hl := hok1.live
        have hn := hok1.names
        simp only [e] at this hl hn
        rw [e1]
        refine ⟨⟨this.1.vars rfl rfl, this.2⟩, hl, ?_, hok1.heap⟩
        intro b hb
        simp only [binders_cons, List.cons_append, List.map_cons, List.mem_cons] at hb
        rcases hb with rfl | hb
        · intro; exact ⟨x, rfl⟩
        · exact hn b hb
      obtain ⟨t, g3, g4⟩ := hrec _ _ _ _ g2 hokx
      have g5 := g4.get hs2
      have hbn : binders s1'.scopes = (.normal x, true) :: binders s.scopes := by
        rw [e1, e]; rfl
      rw [hbn] at g3
      have hx := (hP b _ _ _ g2).ext
      rw [e1] at hx
      simp only at hx
      rw [hs2] at hx
      obtain ⟨sc', rest', he', hsc⟩ := hx.cons_left
      cases he'
      refine ⟨t, .polyValue g3, { sc2 with locals := sc2.locals.drop 1, allocated := sc.allocated }, rest2, by rw [e3], ?_⟩
      rw [hsc.allocated] at g5
      refine g5.mono ?_
      have hl := hsc.locals
      simp only at hl
      cases hloc : sc2.locals with
      | nil => rw [hloc] at hl; cases hl
      | cons v vs =>
        rw [hloc] at hl
        cases hl with
        | cons hv _ =>
          have hvn : v.var = none := hv.var
          simp only [Scope.vars, hloc, List.cons_append, List.drop_succ_cons, List.drop_zero]
          have : cxOf (v :: (vs ++ sc2.args ++ sc2.statics)) = (v.name, none) :: cxOf (vs ++ sc2.args ++ sc2.statics) := by
            simp [cxOf, hvn]
          rw [this]
          exact .drop_none

/-! ### Application -/

theorem tcList_erase (hP : ∀ e, Pres (tcExpr M n e)) (hrec : Erasing (rolesIn M) (tcExpr M n)) {f : Expr} {args : Exprs} {s s' : S} {r : Ptr × Tc}
    (h : tcList n (tcExpr M n) f args.toList s = .ok (s', some r)) (hok : Ok s) :
    ∃ t, Erases (rolesIn M) (binders s.scopes) (.list f args) t ∧ ConvAt s' t r.2 := by
  unfold tcList at h
  obtain ⟨s1, q, h1, h⟩ := TM.bind_ok.mp h
  have hp1 := hP _ _ _ _ h1
  have hok1 := hok.step hp1
  cases q with
  | none => cases (TM.pure_ok.mp h).2
  | some q =>
    simp only at h
    obtain ⟨hp, ⟨ft, vars⟩, h2, h⟩ := TM.liftH_bind.mp h
    have hg2 : HGood s1.heap hp := depoly_good n q.1 _ _ _ h2 _ hok1.refl
    have hok2 : Ok { s1 with heap := hp } := hok1.quiet rfl ⟨_, hg2⟩
    simp only at h
    obtain ⟨nd, h3, h⟩ := TM.readH_bind.mp h
    split at h
    · obtain ⟨o, h4, h⟩ := TM.readH_bind.mp h
      cases o with
      | none => cases (TM.pure_ok.mp h).2
      | some elem =>
        simp only at h
        obtain ⟨s3, rs, h5, h⟩ := TM.bind_ok.mp h
        have hp5 := tcEach_pres hP _ _ _ _ h5
        have hok3 := hok2.step hp5
        cases hs : allSome rs with
        | none => rw [hs] at h; cases (TM.pure_ok.mp h).2
        | some xs =>
          rw [hs] at h
          simp only at h
          obtain ⟨s4, o, h6, h⟩ := TM.bind_ok.mp h
          have hq6 := typeInferArgs_quiet _ _ _ _ _ _ _ _ h6
          cases o with
          | none => cases (TM.pure_ok.mp h).2
          | some o =>
            have htc : o.2 = q.2 := by
              refine typeInferArgs_tc h6 (fun hne => ?_) hok3.heap
              exact (depoly_notType h2 hne hok1.refl).later (hp5.heap _ hok2.refl)
            obtain ⟨pt, ptc⟩ := o
            simp only at htc
            subst htc
            simp only at h
            obtain ⟨hp', it, h7, h⟩ := TM.liftH_bind.mp h
            obtain ⟨nd, h8, h⟩ := TM.readH_bind.mp h
            split at h
            · obtain ⟨rfl, h⟩ := TM.pure_ok.mp h
              cases h
              obtain ⟨t, g1, g2⟩ := hrec _ _ _ _ h1 hok
              obtain ⟨sc, rest, hsc⟩ := hok3.cons
              obtain ⟨ts, g3, g4⟩ := EC.all (ranAll hrec hok2 hsc (tcEach_ran hP _ h5 hs))
              rw [show binders ({ s1 with heap := hp } : S).scopes = binders s.scopes from binders_ext hp1.ext] at g3
              exact ⟨_, .list g1 g3, sc, rest, by simp only [hq6.1]; exact hsc, .apply ((g2.ext hp5.ext : ConvAt s3 _ _).get hsc) (.list g4)⟩
            · exact (TM.crash_ok.mp h).elim
    · cases (TM.pure_ok.mp h).2

theorem tcLiteral_erase (hP : ∀ e, Pres (tcExpr M n e)) (hrec : Erasing (rolesIn M) (tcExpr M n)) {f : Expr} {w : List Char} {s s' : S} {r : Ptr × Tc}
    (h : tcLiteral n (tcExpr M n) f w s = .ok (s', some r)) (hok : Ok s) :
    ∃ t, Erases (rolesIn M) (binders s.scopes) (.literal f w) t ∧ ConvAt s' t r.2 := by
  unfold tcLiteral at h
  obtain ⟨s1, q, h1, h⟩ := TM.bind_ok.mp h
  have hp1 := hP _ _ _ _ h1
  have hok1 := hok.step hp1
  cases q with
  | none => cases (TM.pure_ok.mp h).2
  | some q =>
    obtain ⟨ft, ftc⟩ := q
    simp only at h
    obtain ⟨hp, nt, h2, h⟩ := TM.liftH_bind.mp h
    obtain ⟨nd, h3, h⟩ := TM.readH_bind.mp h
    have hg2 : HGood s1.heap hp := normalType_good n ft _ _ _ h2 _ hok1.refl
    split at h
    · rename_i argT rt
      obtain ⟨o, h4, h⟩ := TM.readH_bind.mp h
      cases o with
      | none => cases (TM.pure_ok.mp h).2
      | some elem =>
        simp only at h
        obtain ⟨hp', et, h5, h⟩ := TM.liftH_bind.mp h
        obtain ⟨nd, h6, h⟩ := TM.readH_bind.mp h
        have hg5 : HGood s1.heap hp' := normalType_good n elem _ _ _ h5 _ hg2
        split at h
        · rename_i fields
          rw [TM.alloc_bind] at h
          obtain ⟨s3, o, h7, h⟩ := TM.bind_ok.mp h
          cases o with
          | none => cases (TM.pure_ok.mp h).2
          | some ls =>
            obtain ⟨rfl, h⟩ := TM.pure_ok.mp h
            cases h
            obtain ⟨hs7, hsp, _⟩ := letters_spell _ h7
            obtain ⟨t, g1, sc, rest, hsc, g2⟩ := hrec _ _ _ _ h1 hok
            refine ⟨_, .literal ?_ g1 hsp, sc, rest, by rw [hs7]; exact hsc, .apply g2 .literal⟩
            exact ⟨ft, s1.heap, hp, hp', n, nt, argT, rt, elem, et, fields, ⟨n, s, s1, ftc, h1, rfl, hok1.refl⟩, h2, h3, h4, h5, h6, rfl, nodup_of_dupNames (data_nodup hg5 h6)⟩
        · cases (TM.pure_ok.mp h).2
    · cases (TM.pure_ok.mp h).2

theorem applyLoop_erase {F : Roles} {Γ : Binders} {nl : Nat} {cx : Cx} : {es : List Expr} → {args : List (Ptr × Tc)} → {t : N} → {m : Ptr × Tc} → {s s' : S} → {r : Ptr × Tc} →
    applyLoop n m args s = .ok (s', some r) → (∃ H, HGood H s.heap) → All2 (fun e r => EC F Γ nl cx e r.2) es args → Conv nl cx t m.2 →
    ∃ u, ErasesArgs F Γ t es u ∧ Conv nl cx u r.2
  | _, _, t, m, s, s', r, h, _, .nil, hc => by
    unfold applyLoop at h
    obtain ⟨_, h⟩ := TM.pure_ok.mp h
    cases h
    exact ⟨t, .nil, hc⟩
  | _ :: es, a :: args, t, m, s, s', r, h, hh, .cons ha has, hc => by
    unfold applyLoop at h
    obtain ⟨hp, ⟨pbody, vars⟩, h1, h⟩ := TM.liftH_bind.mp h
    obtain ⟨H, hh⟩ := hh
    have hg1 : HGood H hp := depoly_good n m.1 _ _ _ h1 _ hh
    simp only at h
    obtain ⟨nd, h2, h⟩ := TM.readH_bind.mp h
    split at h
    · obtain ⟨s2, o, h3, h⟩ := TM.bind_ok.mp h
      have hq3 := typeInferArgs_quiet _ _ _ _ _ _ _ _ h3
      cases o with
      | none => cases (TM.pure_ok.mp h).2
      | some o =>
        have htc : o.2 = m.2 := typeInferArgs_tc h3 (fun hne => depoly_notType h1 hne hh) ⟨H, hg1⟩
        obtain ⟨pt, ptc⟩ := o
        simp only at htc
        subst htc
        simp only at h
        obtain ⟨hp', ft, h4, h⟩ := TM.liftH_bind.mp h
        obtain ⟨nd, h5, h⟩ := TM.readH_bind.mp h
        split at h
        · obtain ⟨t', g1, g2⟩ := ha
          obtain ⟨u, g3, g4⟩ := applyLoop_erase (t := .apply t t') h ⟨H, normalType_good n pt _ _ _ h4 _ (hq3.2 _ hg1)⟩ has (.apply hc g2)
          exact ⟨u, .cons g1 g3, g4⟩
        · exact (TM.crash_ok.mp h).elim
    · cases (TM.pure_ok.mp h).2

theorem hgood_trans {a b c : Heap} (h : HGood a b) (h' : HGood b c) : HGood a c :=
  ⟨h'.good, fun p n hn => by
    obtain ⟨n1, h1, l1⟩ := h.later p n hn
    obtain ⟨n2, h2, l2⟩ := h'.later p n1 h1
    exact ⟨n2, h2, l1.trans l2⟩⟩

/-- What is applied to arguments is a function. -/
theorem applyLoop_func {m : Ptr × Tc} {args : List (Ptr × Tc)} {s s' : S} {r : Ptr × Tc} (h : applyLoop n m args s = .ok (s', some r)) (hne : args ≠ []) :
    ∃ h' p vars arg rt, depoly n s.heap m.1 = .ok (h', p, vars) ∧ Types.get h' p = .ok (.func arg rt) := by
  cases args with
  | nil => exact absurd rfl hne
  | cons a args =>
    unfold applyLoop at h
    obtain ⟨hp, ⟨pbody, vars⟩, h1, h⟩ := TM.liftH_bind.mp h
    simp only at h
    obtain ⟨nd, h2, h⟩ := TM.readH_bind.mp h
    split at h
    · exact ⟨hp, pbody, vars, _, _, h1, h2⟩
    · cases (TM.pure_ok.mp h).2

theorem toTcs_length {Γ : Binders} {F : Roles} : {es : List Expr} → {ts : Ns} → ErasesAll F Γ es ts → ts.length = es.length
  | _, _, .nil => rfl
  | _, _, .cons _ h => by simp [Ns.length, toTcs_length h]

theorem typeInferArgs_lengths {vars : Vars} {ex ac : List Ptr} {poly r : Ptr × Tc} {s s' : S} (h : typeInferArgs n vars ex ac poly s = .ok (s', some r)) : ex.length = ac.length := by
  unfold typeInferArgs at h
  split at h
  · cases (TM.pure_ok.mp h).2
  · rename_i hl; simpa using hl

theorem tcApply_erase (hP : ∀ e, Pres (tcExpr M n e)) (hrec : Erasing (rolesIn M) (tcExpr M n)) {f : Expr} {args : Exprs} {bind : Bool} {s s' : S} {r : Ptr × Tc}
    (h : tcApply M n (tcExpr M n) f args.toList bind s = .ok (s', some r)) (hok : Ok s) :
    ∃ t, Erases (rolesIn M) (binders s.scopes) (.apply f args bind) t ∧ ConvAt s' t r.2 := by
  unfold tcApply at h
  obtain ⟨s1, q, h1, h⟩ := TM.bind_ok.mp h
  have hp1 := hP _ _ _ _ h1
  have hok1 := hok.step hp1
  obtain ⟨s2, rs, h2, h⟩ := TM.bind_ok.mp h
  have hp2 := tcEach_pres hP _ _ _ _ h2
  have hok2 := hok1.step hp2
  cases q with
  | none => cases (TM.pure_ok.mp h).2
  | some m =>
  cases hs : allSome rs with
  | none => rw [hs] at h; cases (TM.pure_ok.mp h).2
  | some xs =>
    rw [hs] at h
    simp only at h
    obtain ⟨sc, rest, hsc⟩ := hok2.cons
    have hec := ranAll hrec hok1 hsc (tcEach_ran hP _ h2 hs)
    rw [binders_ext hp1.ext] at hec
    obtain ⟨t, g1, g2⟩ := hrec _ _ _ _ h1 hok
    have g3 := (g2.ext hp2.ext).get hsc
    obtain ⟨hp, nm, h3, h⟩ := TM.liftH_bind.mp h
    have hg3 : HGood s2.heap hp := normalType_good n m.1 _ _ _ h3 _ hok2.refl
    obtain ⟨nd, h4, h⟩ := TM.readH_bind.mp h
    have hhas : ∀ {h}, HGood s2.heap h → HasType M (binders s.scopes) f m.1 h := fun hg => ⟨n, s, s1, m.2, h1, rfl, hgood_trans (hp2.heap _ hok1.refl) hg⟩
    have hnil : args.toList ≠ [] → xs ≠ [] := fun hne e => hne (by
      have := hec.length_eq
      rw [e] at this
      exact List.length_eq_zero_iff.mp this)
    have hfun : (args.toList = [] → bind = true ∨ rolesIn M (binders s.scopes) .notStruct f []) →
        applyLoop n m xs { s2 with heap := hp } = .ok (s', some r) → ∃ t, Erases (rolesIn M) (binders s.scopes) (.apply f args bind) t ∧ ConvAt s' t r.2 := by
      intro hno h
      have hq := applyLoop_quiet _ _ _ _ _ _ h
      obtain ⟨u, g4, g5⟩ := applyLoop_erase h ⟨_, hg3⟩ hec g3
      have hyes : args.toList ≠ [] → rolesIn M (binders s.scopes) .function f [] := fun hne => by
        obtain ⟨h', p, vars, arg, rt, k1, k2⟩ := applyLoop_func h (hnil hne)
        exact ⟨m.1, hp, h', n, p, vars, arg, rt, hhas hg3, k1, k2⟩
      exact ⟨u, .apply hyes hno g1 g4, sc, rest, by rw [hq.1]; exact hsc, g5⟩
    split at h
    · rename_i vt
      cases hbind : bind with
      | true => rw [hbind] at h hfun; exact hfun (fun _ => .inl rfl) h
      | false =>
        rw [hbind] at h hfun
        simp only [Bool.false_eq_true, if_false] at h
        have hq := applyType_quiet _ _ _ _ _ _ _ _ h
        have hs' : s'.scopes = sc :: rest := by rw [hq.1]; exact hsc
        have hty : ∀ {h}, HGood hp h → IsType M (binders s.scopes) f vt h := fun hg =>
          .inr (.inl ⟨m.1, n, s2.heap, hp, nm, ⟨n, s, s1, m.2, h1, rfl, hp2.heap _ hok1.refl⟩, h3, h4, hg⟩)
        unfold applyType at h
        obtain ⟨hp5, vn, h5, h⟩ := TM.liftH_bind.mp h
        have hg5 : HGood s2.heap hp5 := normalType_good n vt _ _ _ h5 _ hg3
        obtain ⟨nd, h6, h⟩ := TM.readH_bind.mp h
        split at h
        · rename_i path opaq
          split at h
          · rename_i a
            split at h
            · cases (TM.pure_ok.mp h).2
            · rw [TM.alloc_bind] at h
              obtain ⟨_, h⟩ := TM.pure_ok.mp h
              cases h
              cases args with
              | nil => cases hec
              | cons e es =>
                cases es with
                | cons _ _ => cases hec with | cons _ h => cases h
                | nil =>
                  cases hec with
                  | cons he _ =>
                    obtain ⟨u, g4, g5⟩ := he
                    exact ⟨u, .abstractValue ⟨vt, hp, hp5, n, vn, path, opaq, hty (.refl hg3.good), h5, h6⟩ g4, sc, rest, hs', g5⟩
          · cases (TM.pure_ok.mp h).2
        · obtain ⟨hp7, ⟨st, vars⟩, h7, h⟩ := TM.liftH_bind.mp h
          have hg7 : HGood s2.heap hp7 := depoly_good n vt _ _ _ h7 _ hg5
          simp only at h
          obtain ⟨nd, h8, h⟩ := TM.readH_bind.mp h
          split at h
          · rename_i fields
            obtain ⟨s9, o, h9, h⟩ := TM.bind_ok.mp h
            cases o with
            | none => cases (TM.pure_ok.mp h).2
            | some o =>
              obtain ⟨_, h⟩ := TM.pure_ok.mp h
              cases h
              obtain ⟨ts, g4, g5⟩ := EC.all hec
              have hl := typeInferArgs_lengths h9
              simp only [List.length_map] at hl
              have hl2 := hec.length_eq
              refine ⟨.struct ts, .structValue (xs := fields.map (·.1)) ?_ ?_ g4, sc, rest, hs', .struct g5⟩
              · refine ⟨vt, hp5, hp7, n, st, vars, fields, hty (normalType_good n vt _ _ _ h5 _ (.refl hg3.good)), h7, h8, rfl, nodup_of_dupNames (data_nodup hg7 h8)⟩
              · rw [toTcs_length g4, hl2]; simpa using hl
          · rename_i hns
            have hq := applyLoop_quiet _ _ _ _ _ _ h
            obtain ⟨u, g4, g5⟩ := applyLoop_erase h ⟨_, hg7⟩ hec g3
            have hyes : args.toList ≠ [] → rolesIn M (binders s.scopes) .function f [] := fun hne => by
              obtain ⟨h', p, vars, arg, rt, k1, k2⟩ := applyLoop_func h (hnil hne)
              exact ⟨m.1, hp7, h', n, p, vars, arg, rt, hhas hg7, k1, k2⟩
            refine ⟨u, .apply hyes (fun _ => .inr ?_) g1 g4, sc, rest, by rw [hq.1]; exact hsc, g5⟩
            refine ⟨m.1, s2.heap, hp, n, nm, _, hhas hok2.refl, h3, h4, fun vt' e => ?_⟩
            cases e
            exact ⟨hp5, hp7, st, vars, nd, normalType_good n vt _ _ _ h5 _ (.refl hg3.good), h7, h8, hns⟩
    · rename_i hnt
      exact hfun (fun _ => .inr ⟨m.1, s2.heap, hp, n, nm, nd, hhas hok2.refl, h3, h4, fun vt e => absurd e (hnt vt)⟩) h

/-! ### Let -/

theorem letVars_entries {r : Bool} : (i : Nat) → (xs : List Name) → (ts : List Ptr) → xs.length = ts.length → {vs : List V} → All2 VExt (letVars i xs ts) vs →
    (∀ v ∈ vs, v.used = true → r = true) → All2 EntryLe (cxOf vs) (letEntries i r xs)
  | _, [], [], _, vs, h, _ => by
    simp only [letVars] at h
    cases h; exact .nil
  | i, x :: xs, t :: ts, hl, vs, h, hu => by
    simp only [letVars] at h
    cases h with
    | @cons _ v _ vs hv hvs =>
      refine .cons ⟨hv.name, ?_⟩ (letVars_entries (i + 1) xs ts (by simpa using hl) hvs fun w hw => hu w (List.mem_cons_of_mem _ hw))
      intro c hc
      have h1 : v.var = some (.loc i) := hv.var
      simp only [h1, Option.map_some, Option.some.injEq, Prod.mk.injEq] at hc
      have := hu v List.mem_cons_self hc.2
      subst this
      simp [← hc.1]

theorem letVars_map : (i : Nat) → (xs : List Name) → (ts : List Ptr) → xs.length = ts.length →
    (letVars i xs ts).map (fun v => (v.name, v.var.isNone)) = xs.map fun x => (VarName.normal x, false)
  | _, [], [], _ => rfl
  | i, x :: xs, t :: ts, h => by
    simp only [letVars, List.map_cons]
    rw [letVars_map (i + 1) xs ts (by simpa using h)]; rfl

theorem tcLet_erase (hP : ∀ e, Pres (tcExpr M n e)) (hT : ∀ e, Quiet (tcType M n e)) (hrec : Erasing (rolesIn M) (tcExpr M n)) {bs : Binds} {body : Expr} {s s' : S} {r : Ptr × Tc}
    (h : tcLet n (tcExpr M n) (tcType M n) bs.toList body s = .ok (s', some r)) (hok : Ok s) :
    ∃ t, Erases (rolesIn M) (binders s.scopes) (.letE bs body) t ∧ ConvAt s' t r.2 := by
  unfold tcLet at h
  obtain ⟨s0, q, h0, h⟩ := TM.bind_ok.mp h
  have hq0 := bindTypes_quiet hT _ _ _ _ _ h0
  have hok0 := hok.step ((bindTypes_quiet hT _ _).pres _ _ _ h0)
  cases q with
  | none => cases (TM.pure_ok.mp h).2
  | some ts =>
    have hl := bindTypes_length _ _ h0
    obtain ⟨sc, rest, hs⟩ := hok0.cons
    obtain ⟨s1, s2, sc2, rest2, e1, h2, hs2, e3⟩ := let_frame (letInner_pres (n := n) hP bs.toList ts body) hl hs h
    have hlen : (bs.toList.map (·.name)).length = ts.length := by simp [hl]
    have hok1 : Ok s1 := by
      have hi := hok0.inv
      have hlv := hok0.live
      have hn := hok0.names
      rw [hs] at hi hlv hn
      rw [e1]
      refine ⟨⟨hi.1.vars rfl rfl, hi.2⟩, hlv, ?_, hok0.heap⟩
      intro b hb
      simp only [binders_cons, List.append_assoc, List.map_append, List.mem_append, List.map_reverse, List.mem_reverse] at hb
      rw [letVars_map _ _ _ hlen] at hb
      rcases hb with hb | hb
      · obtain ⟨x, _, rfl⟩ := List.mem_map.mp hb
        intro h; cases h
      · refine hn b ?_
        simp only [binders_cons, List.map_append, List.append_assoc, List.mem_append]
        exact hb
    have hbn : binders s1.scopes = withNames (bs.toList.map (·.name)) (binders s.scopes) := by
      rw [e1, ← hq0.1, hs]
      simp only [binders_cons, List.append_assoc, List.map_append, List.map_reverse, letVars_map _ _ _ hlen, withNames]
    -- the parts
    unfold letInner at h2
    obtain ⟨sa, q, h3, h2⟩ := TM.bind_ok.mp h2
    have hpa := bindDefs_pres (n := n) hP _ _ _ _ _ h3
    cases q with
    | none => cases (TM.pure_ok.mp h2).2
    | some ds =>
      simp only at h2
      obtain ⟨sa', recursive, h4, h2⟩ := TM.bind_ok.mp h2
      obtain ⟨e4, sca, resta, hsa, hrv⟩ := anyUsed_ok h4
      rw [e4] at h2
      obtain ⟨sb, ts', h5, h2⟩ := TM.bind_ok.mp h2
      have hpb := (bindAssign_quiet _ _ _ _).pres _ _ _ h5
      obtain ⟨sc', u, h6, h2⟩ := TM.bind_ok.mp h2
      have hpc := setTypes_pres _ _ _ _ h6
      obtain ⟨sd, vac, h7, h2⟩ := TM.bind_ok.mp h2
      have hpd := (anyVacuous_quiet _ _).pres _ _ _ h7
      cases vac with
      | true => cases (TM.pure_ok.mp h2).2
      | false =>
        simp only [Bool.false_eq_true, if_false] at h2
        obtain ⟨se, q, h8, h2⟩ := TM.bind_ok.mp h2
        have hpe := hP _ _ _ _ h8
        cases q with
        | none => cases (TM.pure_ok.mp h2).2
        | some q =>
          obtain ⟨bt, btc⟩ := q
          obtain ⟨e5, h2⟩ := TM.pure_ok.mp h2
          cases h2
          rw [e5] at hs2 e3
          have hbd := ((hpa.trans hpb).trans hpc).trans hpd
          have hokd := hok1.step hbd
          obtain ⟨tb, g1, g2⟩ := hrec _ _ _ _ h8 hokd
          rw [binders_ext hbd.ext, hbn] at g1
          have g3 := g2.get hs2
          have hec := ranAll hrec hok1 hsa (bindDefs_ran hP _ _ hl h3)
          rw [hbn] at hec
          obtain ⟨tds, g4, g5⟩ := EC.all hec
          -- the scopes
          have hxa := hpa.ext
          rw [e1] at hxa
          simp only at hxa
          rw [hsa] at hxa
          obtain ⟨_, _, he', hsca⟩ := hxa.cons_left
          cases he'
          have hx2 := ((hpb.trans hpc).trans (hpd.trans hpe)).ext
          rw [hsa, hs2] at hx2
          obtain ⟨_, _, he', hsc2⟩ := hx2.cons_left
          cases he'
          have hlv := letVars_length sc.allocated _ _ hlen
          rw [List.length_map] at hlv
          have hla := hsca.locals
          simp only at hla
          obtain ⟨c1, c2, ec, k1, k2⟩ := All2.split_append hla
          have hc1 : c1.length = bs.toList.length := by rw [← k1.length_eq]; simp [hlv]
          have hl2 := hsc2.locals
          rw [ec] at hl2
          obtain ⟨d1, d2, ed, k3, k4⟩ := All2.split_append hl2
          have hd1 : d1.length = bs.toList.length := by rw [← k3.length_eq, hc1]
          have hk13 : All2 VExt (letVars sc.allocated (bs.toList.map (·.name)) ts).reverse d1 :=
            All2.trans (R := VExt) (fun _ _ _ h h' => VExt.trans h h') k1 k3
          have hdrop : sc2.locals.drop bs.toList.length = d2 := by
            rw [ed, ← hd1]; simp
          have hal2 : sc2.allocated = sc.allocated + bs.toList.length := by rw [hsc2.allocated, hsca.allocated]
          refine ⟨.letE recursive (bs.toList.map (·.name)) tds tb, .letE g4 g1, { sc2 with locals := sc2.locals.drop bs.toList.length, allocated := sc.allocated }, rest2, by rw [e3], ?_⟩
          refine .letE ?_ ?_ ?_
          · rw [toTcs_length g4]; simp
          · simp only [List.length_map]
            rw [hsca.allocated] at g5
            refine g5.mono ?_
            have hent : All2 EntryLe (cxOf c1) (letEntries sc.allocated recursive (bs.toList.map (·.name))).reverse := by
              have := letVars_entries (r := recursive) sc.allocated _ _ hlen (vs := c1.reverse) (by simpa using k1.reverse) (by
                intro v hv hu
                rw [hrv, ec, List.take_append_of_le_length (by omega), List.take_of_length_le (by omega), List.any_eq_true]
                exact ⟨v, List.mem_reverse.mp hv, hu⟩)
              have := this.reverse
              simpa [cxOf, List.map_reverse] using this
            unfold letCx
            have : cxOf sca.vars = cxOf c1 ++ cxOf (c2 ++ sca.args ++ sca.statics) := by simp [Scope.vars, ec, cxOf]
            rw [this]
            refine CxLe.all2 hent ?_
            simp only [Scope.vars, hdrop]
            refine CxLe.of_ext (a := { sca with locals := c2 }) (b := { sc2 with locals := d2 }) ⟨k4, hsc2.args, hsc2.statics, hsc2.allocated, hsc2.captured⟩
          · simp only [List.length_map]
            rw [hal2] at g3
            refine g3.mono ?_
            have hent : All2 EntryLe (cxOf d1) (letEntries sc.allocated true (bs.toList.map (·.name))).reverse := by
              have := letVars_entries (r := true) sc.allocated _ _ hlen (vs := d1.reverse) (by simpa using hk13.reverse) (fun _ _ _ => rfl)
              have := this.reverse
              simpa [cxOf, List.map_reverse] using this
            unfold letCx
            have : cxOf sc2.vars = cxOf d1 ++ cxOf (d2 ++ sc2.args ++ sc2.statics) := by simp [Scope.vars, ed, cxOf]
            rw [this]
            refine CxLe.all2 hent ?_
            simp only [Scope.vars, hdrop]
            exact CxLe.refl _

theorem typeAsExpr_erase {recT : RecT} (hT : ∀ e, Quiet (recT e)) {e : Expr} {s s' : S} {r : Ptr × Tc} (h : typeAsExpr recT e s = .ok (s', some r)) (hok : Ok s) : ConvAt s' .typeVal r.2 := by
  have hp := typeAsExpr_pres hT _ _ _ _ h
  obtain ⟨sc, rest, hs⟩ := (hok.step hp).cons
  unfold typeAsExpr at h
  obtain ⟨s1, o, h1, h⟩ := TM.bind_ok.mp h
  cases o with
  | none => cases (TM.pure_ok.mp h).2
  | some t =>
    simp only at h
    rw [TM.alloc_bind] at h
    obtain ⟨_, h⟩ := TM.pure_ok.mp h
    cases h
    exact ⟨sc, rest, hs, .typeVal⟩

end

/-- The type checker leaves out types and resolves names. -/
theorem tc_erase (M : List Name) : (n : Nat) → Erasing (rolesIn M) (tcExpr M n)
  | 0 => fun e s s' r h => by simp [tcExpr] at h
  | n + 1 => by
    have hrec := tc_erase M n
    obtain ⟨hP, hT⟩ := tc_pres M n
    intro e s s' r h hok
    cases e <;> simp only [tcExpr] at h
    case typeOf => exact ⟨_, .typeOf, typeAsExpr_erase hT h hok⟩
    case var => exact tcVar_erase (y := _) (p := []) (.inl ⟨rfl, rfl⟩) h hok
    case letE => exact tcLet_erase hP hT hrec h hok
    case dataType => exact ⟨_, .dataType, typeAsExpr_erase hT h hok⟩
    case dataAccess => exact tcAccess_erase hP hrec h hok
    case structImplicit => exact tcStruct_erase hP hrec h hok
    case structCopy => exact tcCopy_erase hP hrec h hok
    case unionValue => exact tcUnion_erase hP hT hrec h hok
    case select => exact tcSelect_erase hP hrec h hok
    case funcType => exact ⟨_, .funcType, typeAsExpr_erase hT h hok⟩
    case func => exact tcFunc_erase hP hT hrec h hok
    case polyValue => exact tcPoly_erase hP hrec h hok
    case polyApply => exact tcPolyApply_erase hP hrec h hok
    case list => exact tcList_erase hP hrec h hok
    case literal => exact tcLiteral_erase hP hrec h hok
    case modulePath => exact tcVar_erase (y := ⟨[], false⟩) (.inr ⟨rfl, rfl⟩) h hok
    case packageType => exact ⟨_, .packageType, typeAsExpr_erase hT h hok⟩
    case abstractCast => exact tcCast_erase hT hrec h hok
    case abstractAccess => exact tcAbstractAccess_erase hrec h hok
    case apply => exact tcApply_erase hP hrec h hok

end Verif.Elab
