import Verif.Safe.Written3
/-
What the type checker accepts has its type by the typing rules of the language: let, and all expressions.
-/
namespace Verif.Elab
open Types
open Compile (Var Tc Tcs Flds Brs)

section
variable {M : List Name} {n : Nat} {rec : Rec} {recT : RecT} {Ca : Prop}

/-! ### Let -/

theorem TypeChain.level {H : Heap} {l : Nat} {t v : Ptr} (h : TypeChain H l t v) : OfLevel H l t := by
  induction h with
  | zero => exact .zero
  | succ h1 _ ih => exact .succ ⟨_, .here (final_normal h1 (by simp) rfl (by simp)), h1⟩ ih

/-- The annotations of a let. -/
def AnnsTy (Ca : Prop) (M : List Name) (s : S) (h : Heap) : List Binding → List Ptr → Prop :=
  All2 fun b t => ∀ e, b.ann = .inr e → ∀ H, Ends h H → Closed Ca H → IsTy M H (ctx s.scopes) e t

theorem bindTypes_src : (bs : List Binding) → (prev : List Name) → (∀ b ∈ bs, ∀ e, b.ann = .inr e → FullT Ca M e (recT e)) → {s s' : S} → {ts : List Ptr} → WOk s →
    bindTypes n recT prev bs s = .ok (s', some ts) → s.heap <+: s'.heap ∧ AnnsTy Ca M s s'.heap bs ts
  | [], prev, _, s, s', ts, hs, h => by
    unfold bindTypes at h
    obtain ⟨rfl, e⟩ := TM.pure_ok.mp h
    cases e
    exact ⟨List.prefix_rfl, .nil⟩
  | b :: bs, prev, hT, s, s', ts, hs, h => by
    unfold bindTypes at h
    obtain ⟨s1, o, h1, h⟩ := TM.bind_ok.mp h
    obtain ⟨s2, ok, h2, h⟩ := TM.bind_ok.mp h
    obtain ⟨s3, o3, h3, h⟩ := TM.bind_ok.mp h
    cases o with
    | none => cases (TM.pure_ok.mp h).2
    | some t =>
      cases o3 with
      | none => cases (TM.pure_ok.mp h).2
      | some ts' =>
        obtain ⟨e3, e⟩ := TM.pure_ok.mp h
        split at e
        · cases e
          have e2 : s2 = s1 := by
            unfold checkNameSpace at h2
            exact (TM.readH_ok.mp h2).1
          rw [e2] at h3
          rw [e3]
          cases ha : b.ann with
          | inl k =>
            rw [ha] at h1
            simp only at h1
            obtain ⟨hh, t', h4, h1⟩ := TM.liftH_bind.mp h1
            obtain ⟨e1, e⟩ := TM.pure_ok.mp h1
            cases e
            obtain ⟨g1, g2, _⟩ := newVarType_mono hs.ok.heap h4
            have hs1 : WOk s1 := by rw [e1]; exact ⟨hs.ok.withHeap g2 g1, hs.stat⟩
            have hp1 : s.heap <+: s1.heap := by rw [e1]; exact g2
            have hsc : s1.scopes = s.scopes := by rw [e1]
            obtain ⟨m1, m2⟩ := bindTypes_src bs _ (fun b hb => hT b (by simp [hb])) hs1 h3
            refine ⟨hp1.trans m1, .cons (fun e he => by rw [ha] at he; cases he) ?_⟩
            unfold AnnsTy at m2
            rw [hsc] at m2; exact m2
          | inr e =>
            rw [ha] at h1
            have k := (hT b (by simp) e ha).now hs h1
            obtain ⟨m1, m2⟩ := bindTypes_src bs _ (fun b hb => hT b (by simp [hb])) k.ok h3
            refine ⟨k.pre.trans m1, .cons (fun e' he => by rw [ha] at he; cases he; exact k.later m1) ?_⟩
            unfold AnnsTy at m2
            rw [k.scopes] at m2; exact m2
        · cases e

theorem bindDefs_src : (bs : List Binding) → (∀ b ∈ bs, Full Ca M b.expr (rec b.expr)) → (ts : List Ptr) → ts.length = bs.length → {s s' : S} → {ds : List (Ptr × Tc)} → WOk s →
    bindDefs n rec bs ts s = .ok (s', some ds) → NowAll Ca M s (bs.map (·.expr)) s' (ds.map (·.1))
  | [], _, [], _, s, s', ds, hs, h => by
    unfold bindDefs at h
    obtain ⟨rfl, e⟩ := TM.pure_ok.mp h
    cases e
    exact ⟨hs, rfl, List.prefix_rfl, by simp, fun _ _ _ => .nil⟩
  | b :: bs, hb, t :: ts, hl, s, s', ds, hs, h => by
    unfold bindDefs at h
    obtain ⟨s1, o, h1, h⟩ := TM.bind_ok.mp h
    cases o with
    | none => cases (TM.pure_ok.mp h).2
    | some r =>
      obtain ⟨dt, tc⟩ := r
      have k := (hb b (by simp)).now hs h1
      simp only at h
      obtain ⟨s2, ok, h2, h⟩ := TM.bind_ok.mp h
      cases ok with
      | false => cases (TM.pure_ok.mp h).2
      | true =>
        simp only [Bool.not_true, Bool.false_eq_true, if_false] at h
        obtain ⟨s3, o, h3, h⟩ := TM.bind_ok.mp h
        cases o with
        | none => cases (TM.pure_ok.mp h).2
        | some ds' =>
          obtain ⟨e3, e⟩ := TM.pure_ok.mp h
          cases e
          have h2' : s2 = s1 := by
            cases ha : b.ann with
            | inl k =>
              rw [ha] at h2
              obtain ⟨k', _, h2⟩ := TM.readH_bind.mp h2
              exact (TM.pure_ok.mp h2).1
            | inr e =>
              rw [ha] at h2
              exact (TM.readH_ok.mp h2).1
          rw [h2'] at h3
          have g := bindDefs_src bs (fun b hb' => hb b (by simp [hb'])) ts (by simpa using hl) k.ok h3
          rw [e3]
          refine ⟨g.ok, g.same.trans k.same, k.pre.trans g.pre, ?_, fun H hE hO => .cons (k.later g.pre H hE hO) ?_⟩
          · simp only [List.map_cons, List.mem_cons, forall_eq_or_imp]
            exact ⟨prefix_lt g.pre k.lt, g.lt⟩
          · rw [← k.same]; exact g.ty H hE hO

theorem bindsTy_of {s : S} {h h0 : Heap} {L : Nat} {H : Heap} {Γ : Ctx} (hE : Ends h H) (hO : Closed Ca H) (hE0 : Ends h0 H) : {bs : List Binding} → {ts vs ds : List Ptr} → BTs h0 L bs ts vs → AnnsTy Ca M s h bs ts →
    HasTys M H Γ (bs.map (·.expr)) ds → All2 (SameType H []) ds ts → BindsTy M H (ctx s.scopes) Γ bs ts
  | [], _, _, _, .nil, .nil, .nil, .nil => .nil
  | ⟨_, x, e⟩ :: bs, _, _, _, .var h1 h2 _ _ _ h3, .cons _ g2, .cons k1 k2, .cons m1 m2 => by
    cases h1
    exact .kind (.conv k1 m1) (h2.ends hE0).level (bindsTy_of hE hO hE0 h3 g2 k2 m2)
  | ⟨_, x, e⟩ :: bs, _, _, _, .typ h1 _ h3, .cons g1 g2, .cons k1 k2, .cons m1 m2 => by
    cases h1
    exact .type (g1 _ rfl H hE hO) (.conv k1 m1) (bindsTy_of hE hO hE0 h3 g2 k2 m2)

theorem letVars_ctx : (a : Nat) → (xs : List Name) → (ts : List Ptr) → xs.length = ts.length → (letVars a xs ts).map (fun v => (v.name, v.type)) = (xs.map VarName.normal).zip ts
  | _, [], [], _ => rfl
  | a, x :: xs, t :: ts, h => by simp [letVars, letVars_ctx (a + 1) xs ts (by simpa using h)]

theorem retype_ctx : (ts : List Ptr) → (vs : List V) → ts.length = vs.length → (retype ts vs).map (fun v => (v.name, v.type)) = (vs.map (·.name)).zip ts
  | [], [], _ => rfl
  | t :: ts, v :: vs, h => by simp [retype, retype_ctx ts vs (by simpa using h)]

theorem vsame_names {as bs : List V} (h : All2 VSame as bs) : bs.map (·.name) = as.map (·.name) := by
  induction h with
  | nil => rfl
  | cons h1 _ ih => simp [h1.name, ih]

theorem letVars_ctx_names : (a : Nat) → (xs : List Name) → (ts : List Ptr) → xs.length = ts.length → (letVars a xs ts).map (·.name) = xs.map VarName.normal
  | _, [], [], _ => rfl
  | a, x :: xs, t :: ts, h => by simp [letVars, letVars_ctx_names (a + 1) xs ts (by simpa using h)]

theorem zip_reverse_eq {α β : Type} {as : List α} {bs : List β} (h : as.length = bs.length) : as.reverse.zip bs.reverse = (as.zip bs).reverse := by
  induction as generalizing bs with
  | nil => simp
  | cons a as ih =>
    cases bs with
    | nil => simp at h
    | cons b bs =>
      simp only [List.length_cons, Nat.add_right_cancel_iff] at h
      simp only [List.reverse_cons, List.zip_cons_cons]
      rw [List.zip_append (by simpa using h), ih h]
      simp

theorem Stat.locals {sc sc' : Scope} {rest : List Scope} (h : Stat (sc :: rest)) (hs : sc'.statics = sc.statics) : Stat (sc' :: rest) := by
  refine ⟨?_, h.2⟩
  rw [hs]; exact h.1

theorem tcLet_src (hP : ∀ e, Pres (rec e)) {bs : Binds} {body : Expr} (hT : ∀ b ∈ bs.toList, ∀ e, b.ann = .inr e → FullT Ca M e (recT e)) (hbs : ∀ b ∈ bs.toList, Full Ca M b.expr (rec b.expr))
    (hbody : Full Ca M body (rec body)) : TySrc Ca M (.letE bs body) (tcLet n rec recT bs.toList body) := by
  intro s s' x hs h H hE hO
  have hT' : ∀ b ∈ bs.toList, ∀ e, b.ann = .inr e → SafeT (recT e) := fun b hb e he => (hT b hb e he).safe
  have hbs' : ∀ b ∈ bs.toList, Safe Ca (rec b.expr) := fun b hb => (hbs b hb).safe
  unfold tcLet at h
  obtain ⟨s0, q, h0, h⟩ := TM.bind_ok.mp h
  cases q with
  | none => cases (TM.pure_ok.mp h).2
  | some ts =>
    obtain ⟨a1, a2, a3, vs, a4⟩ := bindTypes_safe bs.toList [] hT' hs.ok h0
    have anns := (bindTypes_src bs.toList [] hT hs h0).2
    have hl := a4.length
    have hlen : (bs.toList.map (·.name)).length = ts.length := by simp [hl]
    cases hsc : s0.scopes with
    | nil => exact (a1.ne hsc).elim
    | cons sc rest =>
      obtain ⟨s1, s5, sc5, rest5, e1, h2, hs5, e5⟩ := let_frame (letInner_pres (n := n) hP bs.toList ts body) hl hsc h
      have ok1 := push_ok a1 hsc hlen a4.lt
      simp only [List.length_map] at ok1
      rw [← e1] at ok1
      have stat0 : Stat (sc :: rest) := by rw [← hsc, a2]; exact hs.stat
      have w1 : WOk s1 := ⟨ok1, by rw [e1]; exact stat0.locals rfl⟩
      have hctx0 : ctx s.scopes = (sc.locals ++ sc.args).map (fun v => (v.name, v.type)) ++ ctx rest := by rw [← a2, hsc]; rfl
      have hctx1 : ctx s1.scopes = letCtx bs.toList ts (ctx s.scopes) := by
        rw [hctx0, e1]
        simp only [ctx, letCtx, List.map_append, List.map_reverse, letVars_ctx _ _ _ hlen, List.append_assoc, List.map_map]
        rfl
      unfold letInner at h2
      obtain ⟨s2, q, h3, h2⟩ := TM.bind_ok.mp h2
      cases q with
      | none => cases (TM.pure_ok.mp h2).2
      | some ds =>
        simp only at h2
        obtain ⟨ok2, st2, defs⟩ := bindDefs_safe bs.toList hbs' ts hl ok1 (by rw [e1]; exact a4.lt) h3
        have srcs := bindDefs_src bs.toList hbs ts hl w1 h3
        obtain ⟨s2', r, h4, h2⟩ := TM.bind_ok.mp h2
        obtain ⟨e2, sc2, rest2, hs2, hr⟩ := anyUsed_ok h4
        rw [e2] at h2
        obtain ⟨s3, ts', h5, h2⟩ := TM.bind_ok.mp h2
        have hp12 : s0.heap <+: s2.heap := by have := st2.heap; rw [e1] at this; exact this
        obtain ⟨e3, as⟩ := bindAssign_ok bs.toList (a4.prefix hp12 (Nat.le_refl _)) defs.dok ok2.heap.nodes h5
        obtain ⟨s4, u, h6, h2⟩ := TM.bind_ok.mp h2
        obtain ⟨sc2', rest2', e4, e6, _⟩ := onScope_ok.mp h6
        rw [e3, hs2] at e4
        cases e4
        obtain ⟨s4', vac, h7, h2⟩ := TM.bind_ok.mp h2
        have hh4 : s4.heap = s3.heap := by rw [e6]
        obtain ⟨e7, hvac⟩ := anyVacuous_ok ts' (s := s4) (by rw [hh4]; exact as.pre) (by rw [hh4]; exact as.lt) h7
        rw [e7] at h2
        cases vac with
        | true => cases (TM.pure_ok.mp h2).2
        | false =>
          simp only [Bool.false_eq_true, if_false] at h2
          obtain ⟨s6, q, h8, h2⟩ := TM.bind_ok.mp h2
          cases q with
          | none => cases (TM.pure_ok.mp h2).2
          | some bt =>
            obtain ⟨t, tc⟩ := bt
            obtain ⟨e8, e⟩ := TM.pure_ok.mp h2
            cases e
            rw [e8] at hs5 e5
            have mono3 : MonoHeap s3.heap := as.mono ok2.heap (by rw [← hh4]; exact hvac rfl)
            -- the scopes
            have hst := st2.scopes
            rw [e1, hs2] at hst
            simp only at hst
            obtain ⟨hsc12, hrest12⟩ : ScSame { sc with locals := (letVars sc.allocated (bs.toList.map (·.name)) ts).reverse ++ sc.locals, allocated := sc.allocated + bs.toList.length } sc2 ∧ All2 ScSame rest rest2 := by
              cases hst with
              | cons g1 g2 => exact ⟨g1, g2⟩
            obtain ⟨c1, c2, ec, g1, g2⟩ := All2.split_append hsc12.locals
            have hc1 : c1.length = bs.toList.length := by rw [← g1.length_eq]; simp [letVars_length _ _ _ hlen]
            have hts' : ts'.length = bs.toList.length := by rw [as.lens, hl]
            have hc1' : ts'.reverse.length = c1.length := by simp [hts', hc1]
            have ec4 : s4.scopes = { sc2 with locals := retype ts'.reverse c1 ++ c2 } :: rest2 := by
              rw [e6, ← retype_append _ _ _ hc1', ← ec]
            have hok2 := ok2.scopes
            rw [hs2] at hok2
            have hty2 := hok2.1
            have ok4 : SOk s4 := by
              refine ⟨by rw [hh4]; exact mono3, ?_, by rw [ec4]; simp⟩
              rw [ec4, hh4, as.length]
              refine ⟨⟨?_, hty2.args, hty2.statics, ?_, ?_, hty2.link⟩, hok2.2⟩
              · intro i v hv
                have hall : All2 VTyped sc2.locals.reverse (retype ts'.reverse c1 ++ c2).reverse := by
                  rw [ec]
                  exact ((retype_all2 _ _ hc1').append (All2.refl (fun _ => ⟨rfl, rfl⟩) _)).reverse
                obtain ⟨w, hw, hwv⟩ := all2_getElem?_right hall hv
                rw [hwv.var]; exact hty2.locals i w hw
              · rw [hty2.allocated, ec]
                simp [(retype_all2 _ _ hc1').length_eq]
              · intro v hv
                simp only [Scope.vars, List.append_assoc, List.mem_append] at hv
                rcases hv with hv | hv
                · have : v.type ∈ ts'.reverse := by
                    rw [← retype_types _ _ hc1']
                    exact List.mem_map.mpr ⟨v, hv, rfl⟩
                  rw [← as.length]
                  exact as.lt _ (List.mem_reverse.mp this)
                · exact hty2.types v (by rw [Scope.vars, ec]; simp only [List.append_assoc, List.mem_append]; exact .inr hv)
            have stat2 : Stat (sc2 :: rest2) := by rw [← hs2]; exact srcs.ok.stat
            have w4 : WOk s4 := ⟨ok4, by rw [ec4]; exact stat2.locals rfl⟩
            have hctx4 : ctx s4.scopes = letCtx bs.toList ts' (ctx s.scopes) := by
              rw [hctx0, ec4]
              have hn1 : c1.map (·.name) = (bs.toList.map fun b => VarName.normal b.name).reverse := by
                rw [vsame_names g1, List.map_reverse, letVars_ctx_names _ _ _ hlen, List.map_map]; rfl
              simp only [ctx, letCtx, List.map_append, retype_ctx _ _ hc1', hn1, vsame_ctx g2, vsame_ctx hsc12.args, scSames_ctx hrest12, List.append_assoc]
              rw [zip_reverse_eq (by simp [hts'])]
            have b6 := hbody.now w4 h8
            have hs'h : s'.heap = s6.heap := by rw [e5]
            rw [hs'h] at hE
            have pre6 : s3.heap <+: s6.heap := by rw [← hh4]; exact b6.pre
            have hE3 : Ends s3.heap H := (Ends.prefix pre6).trans hE
            have hE2 : Ends s2.heap H := as.ends.trans hE3
            have hE0 : Ends s0.heap H := (Ends.prefix hp12).trans hE2
            obtain ⟨q1, q2⟩ := as.same H hE3 hO.uniform
            have hdefs := srcs.ty H hE2 hO
            rw [hctx1] at hdefs
            have hbody' := b6.ty H hE hO
            rw [hctx4] at hbody'
            exact .letE (bindsTy_of hE0 hO hE0 a4 anns hdefs q1) q2 hbody'

/-! ### All expressions -/

theorem dataFields_nodup : (fs : List (Name × Expr)) → (prev : List Name) → {s s' : S} → {r : List (Name × Ptr)} → dataFields n recT prev fs s = .ok (s', some r) →
    (fs.map (·.1)).Nodup ∧ ∀ x ∈ fs.map (·.1), x ∉ prev
  | [], prev, s, s', r, h => by simp
  | (x, e) :: fs, prev, s, s', r, h => by
    unfold dataFields at h
    obtain ⟨s1, o, h1, h⟩ := TM.bind_ok.mp h
    cases o with
    | none => cases (TM.pure_ok.mp h).2
    | some t =>
      simp only at h
      obtain ⟨s2, b, _, h⟩ := TM.bind_ok.mp h
      cases b with
      | false => cases (TM.pure_ok.mp h).2
      | true =>
        simp only [Bool.not_true, Bool.false_eq_true, if_false] at h
        split at h
        · cases (TM.pure_ok.mp h).2
        · rename_i hp
          obtain ⟨s3, o, h3, h⟩ := TM.bind_ok.mp h
          cases o with
          | none => cases (TM.pure_ok.mp h).2
          | some r' =>
            obtain ⟨g1, g2⟩ := dataFields_nodup fs (x :: prev) h3
            have hp' : x ∉ prev := fun hx => hp (List.any_eq_true.mpr ⟨x, hx, namesEqual_iff.mpr rfl⟩)
            simp only [List.map_cons, List.nodup_cons, List.mem_cons, forall_eq_or_imp]
            exact ⟨⟨fun hx => g2 x hx (by simp), g1⟩, hp', fun y hy hy' => g2 y hy (by simp [hy'])⟩

theorem tc_src {c : Bool} (hc : c = true → Ca) (M : List Name) : (n : Nat) → (∀ e, e.mono c = true → Full Ca M e (tcExpr M n e)) ∧ ∀ e, e.mono c = true → FullT Ca M e (tcType M n e)
  | 0 => ⟨fun e he => ⟨(tc_safe hc M 0).1 e he, (tc_pres M 0).1 e, fun s s' x _ h => by simp [tcExpr] at h⟩,
      fun e he => ⟨(tc_safe hc M 0).2 e he, (tc_pres M 0).2 e, fun s s' x _ h => by simp [tcType] at h⟩⟩
  | n + 1 => by
    obtain ⟨ihE, ihT⟩ := tc_src hc M n
    have hP : ∀ e, Pres (tcExpr M n e) := (tc_pres M n).1
    constructor
    · intro e he
      refine ⟨(tc_safe hc M (n + 1)).1 e he, (tc_pres M (n + 1)).1 e, ?_⟩
      rw [tcExpr.eq_def]
      cases e with
      | typeOf e => exact typeAsExpr_src (ihT _ he)
      | var x => exact fun s s' x hs h H _ _ => .var (tcVar_src hs h)
      | letE bs body =>
        simp only [Expr.mono, Bool.and_eq_true] at he
        exact tcLet_src hP (fun b hb e hbe => ihT e ((Binds.mono_mem he.1 b hb).2 e hbe)) (fun b hb => ihE _ (Binds.mono_mem he.1 b hb).1) (ihE _ he.2)
      | dataType dt fs => exact typeAsExpr_src (ihT _ he)
      | dataAccess o x => exact tcAccess_src (ihE _ (by simpa [Expr.mono] using he))
      | structImplicit as =>
        simp only [Expr.mono] at he
        exact tcStruct_src fun a ha => ihE _ (Tagged.mono_mem he a ha)
      | structCopy src as =>
        simp only [Expr.mono, Bool.and_eq_true] at he
        exact tcCopy_src (ihE _ he.1) fun a ha => ihE _ (Tagged.mono_mem he.2 a ha)
      | unionValue t x a =>
        simp only [Expr.mono, Bool.and_eq_true] at he
        exact tcUnion_src (ihT _ he.1) (ihE _ he.2)
      | select c cs d =>
        simp only [Expr.mono, Bool.and_eq_true] at he
        refine tcSelect_src (ihE _ he.1.1) (fun a ha => ihE _ (Tagged.mono_mem he.1.2 a ha)) ?_
        intro e hd
        cases d with
        | none => cases hd
        | some e' => cases hd; exact ihE _ (by simpa [Default.mono] using he.2)
      | funcType a r => exact typeAsExpr_src (ihT _ he)
      | func x t b =>
        simp only [Expr.mono, Bool.and_eq_true] at he
        exact tcFunc_src (ihT _ he.1) (ihE _ he.2)
      | polyValue x k b => simp [Expr.mono] at he
      | polyApply p a =>
        simp only [Expr.mono, Bool.and_eq_true] at he
        exact tcPolyApply_src hP (ihE _ he.1) (ihE _ he.2)
      | list f as =>
        simp only [Expr.mono, Bool.and_eq_true] at he
        exact tcList_src (ihE _ he.1) fun a ha => ihE _ (Exprs.mono_mem he.2 a ha)
      | literal f w => exact tcLiteral_src (ihE _ (by simpa [Expr.mono] using he))
      | modulePath p => exact fun s s' x hs h H _ _ => .modulePath (tcVar_src hs h)
      | packageType p => exact typeAsExpr_src (ihT _ he)
      | abstractCast p t v =>
        simp only [Expr.mono, Bool.and_eq_true] at he
        exact tcCast_src (hc he.1) (ihT _ he.2.1) (ihT _ he.2.2.1) (ihE _ he.2.2.2)
      | abstractAccess v => exact tcAbstractAccess_src (ihE _ (by simpa [Expr.mono] using he))
      | apply m as b =>
        simp only [Expr.mono, Bool.and_eq_true] at he
        exact tcApply_src (ihE _ he.1) fun a ha => ihE _ (Exprs.mono_mem he.2 a ha)
    · intro e he
      refine ⟨(tc_safe hc M (n + 1)).2 e he, (tc_pres M (n + 1)).2 e, ?_⟩
      rw [tcType.eq_def]
      cases e with
      | typeOf e => exact fun s s' t hs h H hE hO => .typeOf (exprForType_src (ihE _ (by simpa [Expr.mono] using he)) hs h H hE hO)
      | dataType dt fs =>
        simp only [Expr.mono] at he
        intro s s' t hs h H hE hO
        simp only at h
        obtain ⟨s1, o, h1, h⟩ := TM.bind_ok.mp h
        cases o with
        | none => cases (TM.pure_ok.mp h).2
        | some r =>
          obtain ⟨k1, k2, k3, k4⟩ := dataFields_safe fs.toList [] (fun f hf => (ihT _ (Tagged.mono_mem he f hf)).safe) hs.ok h1
          obtain ⟨_, g⟩ := dataFields_src fs.toList [] (fun f hf => ihT _ (Tagged.mono_mem he f hf)) hs h1
          have h2 : (alloc (.data dt r) >>= fun a => pure (some a) : TM _) s1 = .ok (s', some t) := h
          have h3 := TM.alloc_bind.mp h2
          obtain ⟨rfl, e⟩ := TM.pure_ok.mp h3
          cases e
          exact .dataType (g H ((Ends.prefix (new_prefix _ _)).trans hE) hO) (dataFields_nodup _ _ h1).1 (alloc_isNode (n := .data dt r) k1 k4 (by simp) (by simp) (by simp) hE)
      | funcType a r =>
        simp only [Expr.mono, Bool.and_eq_true] at he
        exact tcFuncType_src (ihT _ he.1) (ihT _ he.2)
      | packageType p =>
        intro s s' t hs h H hE hO
        simp only at h
        have h2 : (alloc (.package p true) >>= fun a => pure (some a) : TM _) s = .ok (s', some t) := h
        have h3 := TM.alloc_bind.mp h2
        obtain ⟨rfl, e⟩ := TM.pure_ok.mp h3
        cases e
        have k := hs.ok.alloc (n := .package p true) rfl (by simp)
        exact .packageType (package_node k.heap (.here (new_get _ _) (by simp)) (new_get _ _) hE hO).2
      | _ => exact exprAsType_src hP (ihE _ he)

end
end Verif.Elab
