import Verif.Safe.Written2
/-
What the type checker accepts has its type by the typing rules of the language: lists, casts, access and
application.
-/
namespace Verif.Elab
open Types
open Compile (Var Tc Tcs Flds Brs)

section
variable {M : List Name} {n : Nat} {rec : Rec} {recT : RecT} {Ca : Prop}

/-! ### Lists and literals -/

theorem all2_conv {h H : Heap} (hm : MonoHeap h) (hE : Ends h H) (hO : Closed Ca H) : {as bs : List Ptr} → All2 (SameType h []) as bs → (∀ a ∈ as, a < h.length) → (∀ b ∈ bs, b < h.length) → All2 (SameType H []) bs as
  | _, _, .nil, _, _ => .nil
  | _, _, .cons h1 h2, ha, hb =>
    .cons (same_ends hE hm.mono hO.later (ha _ (by simp)) (hb _ (by simp)) h1).symm (all2_conv hm hE hO h2 (fun a h => ha a (by simp [h])) fun b h => hb b (by simp [h]))

theorem tcList_src {func : Expr} {args : Exprs} (hf : Full Ca M func (rec func)) (he : ∀ e ∈ args.toList, Full Ca M e (rec e)) : TySrc Ca M (.list func args) (tcList n rec func args.toList) := by
  intro s s' x hs h H hE hO
  unfold tcList at h
  obtain ⟨s1, o, h1, h⟩ := TM.bind_ok.mp h
  cases o with
  | none => cases (TM.pure_ok.mp h).2
  | some f =>
    have k := hf.now hs h1
    simp only at h
    obtain ⟨hh, ⟨ft, vars⟩, h2, h⟩ := TM.liftH_bind.mp h
    obtain ⟨e, rfl, hn, hlt⟩ := depoly_mono k.ok.ok.heap.nodes k.lt h2
    subst e
    simp only at h
    obtain ⟨m, h3, h⟩ := TM.readH_bind.mp h
    rw [Elab.get_ok] at h3
    simp only at h3
    cases m with
    | func argT rt =>
      simp only at h
      obtain ⟨o, h4, h⟩ := TM.readH_bind.mp h
      cases o with
      | none => cases (TM.pure_ok.mp h).2
      | some elem =>
        simp only at h
        have hin := k.ok.ok.heap.nodes _ _ h3
        obtain ⟨helem, hlist⟩ := listElementType_mono k.ok.ok.heap hin.1 h4
        obtain ⟨s2, rs, h5, h⟩ := TM.bind_ok.mp h
        cases hx : allSome rs with
        | none => simp only [hx] at h; cases (TM.pure_ok.mp h).2
        | some xs =>
          simp only [hx] at h
          have g := tcEach_src args.toList he k.ok h5 hx
          obtain ⟨s3, o, h6, hg⟩ := TM.bind_ok.mp h
          cases o with
          | none => cases (TM.pure_ok.mp hg).2
          | some r =>
            have helem2 := prefix_lt g.pre helem
            obtain ⟨e1, e2, h7⟩ := typeInferArgs_mono g.ok.ok.heap (by intro a ha; obtain ⟨_, _, rfl⟩ := List.mem_map.mp ha; exact helem2)
              (by intro a ha; exact g.lt a ha) h6
            subst e1; subst e2
            obtain ⟨hh, it, h8, h⟩ := TM.liftH_bind.mp hg
            obtain ⟨e, hn2, hlt2⟩ := normalType_mono g.ok.ok.heap.nodes (prefix_lt g.pre k.lt) h8
            subst e
            obtain ⟨m, h9, h⟩ := TM.readH_bind.mp h
            rw [Elab.get_ok] at h9
            simp only at h9
            cases m with
            | func a2 r2 =>
              obtain ⟨rfl, e⟩ := TM.pure_ok.mp h
              cases e
              have hE1 := (Ends.prefix g.pre).trans hE
              have n1 := isNode_of_get k.ok.ok.heap hn h3 (by simp) (by simp) (by simp) hE1
              have n2 := isNode_of_get g.ok.ok.heap hn2 h9 (by simp) (by simp) (by simp) hE
              have := IsNode.unique n1 n2
              cases this
              have hargs := g.ty H hE hO
              rw [k.same] at hargs
              have hc := hargs.conv (all2_conv g.ok.ok.heap hE hO h7 (by intro a ha; obtain ⟨_, _, rfl⟩ := List.mem_map.mp ha; exact helem2) (by intro a ha; exact g.lt a ha))
              refine .list (k.later g.pre H hE hO) n1 (hlist H hE1 hO.uniform) (e := elem) ?_
              have hl := hargs.length
              have e3 : (xs.map fun _ => elem) = args.toList.map fun _ => elem := by
                rw [List.map_const', List.map_const']; simp at hl; rw [hl]
              rw [← e3]; exact hc
            | _ => exact (TM.crash_ok.mp h).elim
    | _ => cases (TM.pure_ok.mp h).2

theorem tcLiteral_src {func : Expr} {word : List Char} (hf : Full Ca M func (rec func)) : TySrc Ca M (.literal func word) (tcLiteral n rec func word) := by
  intro s s' x hs h H hE hO
  unfold tcLiteral at h
  obtain ⟨s1, o, h1, h⟩ := TM.bind_ok.mp h
  cases o with
  | none => cases (TM.pure_ok.mp h).2
  | some f =>
    obtain ⟨ft, ftc⟩ := f
    have k := hf.now hs h1
    simp only at h
    obtain ⟨hh, nt, h2, h⟩ := TM.liftH_bind.mp h
    obtain ⟨e, hn, hlt⟩ := normalType_mono k.ok.ok.heap.nodes k.lt h2
    subst e
    obtain ⟨m, h3, h⟩ := TM.readH_bind.mp h
    rw [Elab.get_ok] at h3
    simp only at h3
    cases m with
    | func argT rt =>
      simp only at h
      obtain ⟨o, h4, h⟩ := TM.readH_bind.mp h
      cases o with
      | none => cases (TM.pure_ok.mp h).2
      | some elem =>
        simp only at h
        have hin := k.ok.ok.heap.nodes _ _ h3
        obtain ⟨helem, hlist⟩ := listElementType_mono k.ok.ok.heap hin.1 h4
        obtain ⟨hh, et, h5, h⟩ := TM.liftH_bind.mp h
        obtain ⟨e, hn2, hlt2⟩ := normalType_mono k.ok.ok.heap.nodes helem h5
        subst e
        obtain ⟨m, h6, h⟩ := TM.readH_bind.mp h
        rw [Elab.get_ok] at h6
        simp only at h6
        split at h
        · rename_i fields
          have h := TM.alloc_bind.mp h
          obtain ⟨s2, o, h7, h⟩ := TM.bind_ok.mp h
          cases o with
          | none => cases (TM.pure_ok.mp h).2
          | some ls =>
            have g1 := k.ok.ok.alloc (n := .data .struct []) (by intro f hf; cases hf) (by simp)
            have hpre := new_prefix s1.heap (.data .struct [])
            obtain ⟨e2, g2⟩ := letters_safe (Ca := Ca) _ word g1 (new_lt _ _) (fun f hf => prefix_lt hpre (k.ok.ok.heap.nodes _ _ h6 f hf)) (new_get _ _) h7
            have g3 := (letters_spell _ h7).2.1
            obtain ⟨e1, e⟩ := TM.pure_ok.mp h
            rw [e2] at e1
            subst e1
            cases e
            have hE1 := (Ends.prefix hpre).trans hE
            exact .literal (k.later hpre H hE hO) (isNode_of_get k.ok.ok.heap hn h3 (by simp) (by simp) (by simp) hE1) (hlist H hE1 hO.uniform)
              (isNode_of_get k.ok.ok.heap hn2 h6 (by simp) (by simp) (by simp) hE1) g3 (g2 H hE hO.uniform)
        · cases (TM.pure_ok.mp h).2
    | _ => cases (TM.pure_ok.mp h).2

/-! ### Casts -/

theorem tcCast_src {package target v : Expr} (hCa : Ca) (hp : FullT Ca M package (recT package)) (ht : FullT Ca M target (recT target)) (hv : Full Ca M v (rec v)) :
    TySrc Ca M (.abstractCast package target v) (tcCast M n rec recT package target v) := by
  intro s s' x hs h H hE hO
  unfold tcCast at h
  obtain ⟨s1, o, h1, h⟩ := TM.bind_ok.mp h
  cases o with
  | none => cases (TM.pure_ok.mp h).2
  | some pt =>
    have k := hp.now hs h1
    simp only at h
    obtain ⟨hh, p, h2, h⟩ := TM.liftH_bind.mp h
    obtain ⟨e, hn, hlt⟩ := normalType_mono k.ok.ok.heap.nodes k.lt h2
    subst e
    obtain ⟨m, h3, h⟩ := TM.readH_bind.mp h
    rw [Elab.get_ok] at h3
    simp only at h3
    cases m with
    | package path o =>
      simp only at h
      obtain ⟨s2, o2, h4, h⟩ := TM.bind_ok.mp h
      cases o2 with
      | none => cases (TM.pure_ok.mp h).2
      | some t =>
        have l := ht.now k.ok h4
        simp only at h
        obtain ⟨s3, o3, h5, h⟩ := TM.bind_ok.mp h
        cases o3 with
        | none => cases (TM.pure_ok.mp h).2
        | some f =>
          obtain ⟨vt, vtc⟩ := f
          have m := hv.now l.ok h5
          simp only at h
          split at h
          · cases (TM.pure_ok.mp h).2
          · rename_i hb
            simp only [Bool.not_eq_true, Bool.not_eq_false'] at hb
            obtain ⟨r, h6, h⟩ := TM.readH_bind.mp h
            cases r with
            | true =>
              obtain ⟨rfl, e⟩ := TM.pure_ok.mp h
              cases e
              have htl : t < s'.heap.length := prefix_lt m.pre l.lt
              have hE1 : Ends s1.heap H := (Ends.prefix (l.pre.trans m.pre)).trans hE
              have hty := m.ty H hE hO
              have ht2 := l.later m.pre H hE hO
              rw [l.scopes, k.scopes] at hty
              rw [k.scopes] at ht2
              obtain ⟨path', g1, g2, g3⟩ := castEqual_closed m.ok.ok.heap htl m.lt h6 hE hO hCa
              have hp2 := (package_node k.ok.ok.heap hn h3 hE1 hO).1
              rw [hp2] at g2
              cases g2
              have hpt : Is H [] p pt := (normal_ends hn hE1 p).mpr (.here (final_normal hp2 (by simp) rfl (by simp)))
              exact .abstractCast (k.later (l.pre.trans m.pre) H hE hO) hpt hp2 hb ht2 hty g3.symm
            | false => cases (TM.pure_ok.mp h).2
    | _ => cases (TM.pure_ok.mp h).2

/-! ### Access -/

theorem tcAbstractAccess_src {v : Expr} (hv : Full Ca M v (rec v)) : TySrc Ca M (.abstractAccess v) (tcAbstractAccess M n rec v) := by
  intro s s' x hs h H hE hO
  unfold tcAbstractAccess at h
  obtain ⟨s1, o, h1, h⟩ := TM.bind_ok.mp h
  cases o with
  | none => cases (TM.pure_ok.mp h).2
  | some f =>
    obtain ⟨vt, vtc⟩ := f
    have k := hv.now hs h1
    simp only at h
    obtain ⟨hh, a, h2, h⟩ := TM.liftH_bind.mp h
    obtain ⟨e, hn, hlt⟩ := normalType_mono k.ok.ok.heap.nodes k.lt h2
    subst e
    obtain ⟨m, h3, h⟩ := TM.readH_bind.mp h
    rw [Elab.get_ok] at h3
    simp only at h3
    cases m with
    | abstract p t =>
      simp only at h
      obtain ⟨m2, h4, h⟩ := TM.readH_bind.mp h
      cases m2 with
      | package path o =>
        simp only at h
        rw [Elab.get_ok] at h4
        split at h
        · cases (TM.pure_ok.mp h).2
        · rename_i hb
          simp only [Bool.not_eq_true, Bool.not_eq_false'] at hb
          obtain ⟨rfl, e⟩ := TM.pure_ok.mp h
          cases e
          obtain ⟨path', o', h5, h6⟩ := abstract_node k.ok.ok.heap.nodes h3 hE hO
          rw [h5] at h4
          cases h4
          exact .abstractAccess (k.ty H hE hO) (normal_same hn hE) h6 hb
      | _ => exact (TM.crash_ok.mp h).elim
    | _ => cases (TM.pure_ok.mp h).2

theorem tcAccess_src {ob : Expr} {field : Name} (hv : Full Ca M ob (rec ob)) : TySrc Ca M (.dataAccess ob field) (tcAccess n rec ob field) := by
  intro s s' x hs h H hE hO
  unfold tcAccess at h
  obtain ⟨s1, o, h1, h⟩ := TM.bind_ok.mp h
  cases o with
  | none => cases (TM.pure_ok.mp h).2
  | some f =>
    obtain ⟨ot, otc⟩ := f
    have k := hv.now hs h1
    simp only at h
    obtain ⟨hh, a, h2, h⟩ := TM.liftH_bind.mp h
    obtain ⟨e, hn, hlt⟩ := normalType_mono k.ok.ok.heap.nodes k.lt h2
    subst e
    obtain ⟨m, h3, h⟩ := TM.readH_bind.mp h
    rw [Elab.get_ok] at h3
    simp only at h3
    cases m with
    | data dt fields =>
      simp only at h
      cases hf : findField field fields 0 with
      | none => simp only [hf] at h; cases (TM.pure_ok.mp h).2
      | some q =>
        obtain ⟨tag, ft⟩ := q
        simp only [hf] at h
        obtain ⟨rfl, e⟩ := TM.pure_ok.mp h
        cases e
        exact .dataAccess (k.ty H hE hO) (isNode_of_get k.ok.ok.heap hn h3 (by simp) (by simp) (by simp) hE) (findField_mem fields 0 hf)
    | _ => cases (TM.pure_ok.mp h).2

/-! ### Application -/

/-- From `applyLoop_safe`: the state stays. -/
theorem applyLoop_src {H : Heap} {Γ : Ctx} (hO : Closed Ca H) : (es : List Expr) → (args : List (Ptr × Tc)) → {f : Ptr × Tc} → {s s' : S} → {x : Ptr × Tc} → SOk s → f.1 < s.heap.length → (∀ a ∈ args, a.1 < s.heap.length) →
    applyLoop n f args s = .ok (s', some x) → s' = s ∧ (Ends s'.heap H → HasTys M H Γ es (args.map (·.1)) → ArgsTy M H Γ f.1 es x.1)
  | es, [], f, s, s', x, hs, hf, ha, h => by
    unfold applyLoop at h
    obtain ⟨rfl, e⟩ := TM.pure_ok.mp h
    cases e
    exact ⟨rfl, fun _ ht => by cases ht; exact .nil⟩
  | [], a :: args, f, s, s', x, hs, hf, ha, h => by
    have h' := h
    unfold applyLoop at h
    obtain ⟨hh, ⟨ft, vars⟩, h2, h⟩ := TM.liftH_bind.mp h
    obtain ⟨e, rfl, hn, hlt⟩ := depoly_mono hs.heap.nodes hf h2
    subst e
    simp only at h
    obtain ⟨m, h3, h⟩ := TM.readH_bind.mp h
    rw [Elab.get_ok] at h3
    simp only at h3
    cases m with
    | func argT rt =>
      simp only at h
      have hin := hs.heap.nodes _ _ h3
      obtain ⟨s3, o, h6, hg⟩ := TM.bind_ok.mp h
      cases o with
      | none => cases (TM.pure_ok.mp hg).2
      | some r =>
        have hat := ha a (by simp)
        obtain ⟨e1, e2, h7⟩ := typeInferArgs_mono hs.heap (by simpa using hin.1) (by simpa using hat) h6
        have e1 := e1.symm
        subst e1; subst e2
        obtain ⟨hh, it, h8, h⟩ := TM.liftH_bind.mp hg
        obtain ⟨e, hn2, hlt2⟩ := normalType_mono hs.heap.nodes hf h8
        subst e
        obtain ⟨m, h9, h⟩ := TM.readH_bind.mp h
        rw [Elab.get_ok] at h9
        simp only at h9
        cases m with
        | func a2 r2 =>
          simp only at h
          have hin2 := hs.heap.nodes _ _ h9
          exact ⟨(applyLoop_src (Γ := Γ) hO [] args hs hin2.2 (fun b hb => ha b (by simp [hb])) h).1, fun _ ht => by cases ht⟩
        | _ => exact (TM.crash_ok.mp h).elim
    | _ => cases (TM.pure_ok.mp h).2
  | e :: es, a :: args, f, s, s', x, hs, hf, ha, h => by
    unfold applyLoop at h
    obtain ⟨hh, ⟨ft, vars⟩, h2, h⟩ := TM.liftH_bind.mp h
    obtain ⟨e, rfl, hn, hlt⟩ := depoly_mono hs.heap.nodes hf h2
    subst e
    simp only at h
    obtain ⟨m, h3, h⟩ := TM.readH_bind.mp h
    rw [Elab.get_ok] at h3
    simp only at h3
    cases m with
    | func argT rt =>
      simp only at h
      have hin := hs.heap.nodes _ _ h3
      obtain ⟨s3, o, h6, hg⟩ := TM.bind_ok.mp h
      cases o with
      | none => cases (TM.pure_ok.mp hg).2
      | some r =>
        have hat := ha a (by simp)
        obtain ⟨e1, e2, h7⟩ := typeInferArgs_mono hs.heap (by simpa using hin.1) (by simpa using hat) h6
        have e1 := e1.symm
        subst e1; subst e2
        obtain ⟨hh, it, h8, h⟩ := TM.liftH_bind.mp hg
        obtain ⟨e, hn2, hlt2⟩ := normalType_mono hs.heap.nodes hf h8
        subst e
        obtain ⟨m, h9, h⟩ := TM.readH_bind.mp h
        rw [Elab.get_ok] at h9
        simp only at h9
        cases m with
        | func a2 r2 =>
          simp only at h
          have hin2 := hs.heap.nodes _ _ h9
          obtain ⟨e3, k⟩ := applyLoop_src (Γ := Γ) hO es args hs hin2.2 (fun b hb => ha b (by simp [hb])) h
          refine ⟨e3, fun hE ht => ?_⟩
          have hE' := hE
          rw [e3] at hE'
          have n1 := isNode_of_get hs.heap hn h3 (by simp) (by simp) (by simp) hE'
          have n2 := isNode_of_get hs.heap hn2 h9 (by simp) (by simp) (by simp) hE'
          have := IsNode.unique n1 n2
          cases this
          cases ht with
          | cons ht1 ht2 =>
            cases h7 with
            | cons h10 _ => exact .cons n1 (.conv ht1 (same_ends hE' hs.heap.mono hO.later hin.1 hat h10).symm) (k hE ht2)
        | _ => exact (TM.crash_ok.mp h).elim
    | _ => cases (TM.pure_ok.mp h).2

theorem applyType_src {H : Heap} {Γ : Ctx} (hO : Closed Ca H) {e : Expr} {es : Exprs} {args : List (Ptr × Tc)} {misc : Ptr × Tc} {vtype : Ptr} {s s' : S} {x : Ptr × Tc} (hs : SOk s) (hm : misc.1 < s.heap.length)
    (hv : vtype < s.heap.length) (ha : ∀ a ∈ args, a.1 < s.heap.length) (h : applyType M n misc vtype args s = .ok (s', some x)) (hE : Ends s'.heap H) (hpre : s.heap <+: s'.heap)
    (hmisc : HasTy M H Γ e misc.1) (htype : IsTy M H Γ e vtype) (hargs : HasTys M H Γ es.toList (args.map (·.1))) : HasTy M H Γ (.apply e es false) x.1 := by
  unfold applyType at h
  obtain ⟨hh, vnorm, h2, h⟩ := TM.liftH_bind.mp h
  obtain ⟨e0, hn, hlt⟩ := normalType_mono hs.heap.nodes hv h2
  subst e0
  obtain ⟨m, h3, h⟩ := TM.readH_bind.mp h
  rw [Elab.get_ok] at h3
  simp only at h3
  split at h
  · rename_i path o
    have ho : o = true := hs.heap.nodes _ _ h3
    subst ho
    match args, ha, h, hargs with
    | [], _, h, _ => cases (TM.pure_ok.mp h).2
    | _ :: _ :: _, _, h, _ => cases (TM.pure_ok.mp h).2
    | [a], ha, h, hargs =>
      simp only at h
      split at h
      · cases (TM.pure_ok.mp h).2
      · rename_i hb
        simp only [Bool.not_eq_true, Bool.not_eq_false'] at hb
        have hal := TM.alloc_bind.mp h
        obtain ⟨rfl, e⟩ := TM.pure_ok.mp hal
        cases e
        have hat := ha a (by simp)
        have hn1 : NodeIn s.heap (.abstract vnorm a.1) := ⟨hat, path, h3⟩
        have k1 := hs.alloc hn1 (by simp)
        obtain ⟨path', o', h5, h6⟩ := abstract_node k1.heap.nodes (new_get s.heap (.abstract vnorm a.1)) hE hO
        have h7 := get_prefix hpre h3
        rw [h7] at h5
        cases h5
        generalize hes : es.toList = el at hargs
        cases hargs with
        | cons ht1 ht2 =>
          cases ht2
          exact .abstractValue htype (package_node hs.heap hn h3 ((Ends.prefix hpre).trans hE) hO).2 hb hes ht1 h6
  · obtain ⟨hh, ⟨st, vars⟩, h4, h⟩ := TM.liftH_bind.mp h
    obtain ⟨e, rfl, hn, hlt⟩ := depoly_mono hs.heap.nodes hv h4
    subst e
    simp only at h
    obtain ⟨m, h5, h⟩ := TM.readH_bind.mp h
    rw [Elab.get_ok] at h5
    simp only at h5
    split at h
    · rename_i fields
      have hin := hs.heap.nodes _ _ h5
      obtain ⟨s3, o, h6, h⟩ := TM.bind_ok.mp h
      cases o with
      | none => cases (TM.pure_ok.mp h).2
      | some r =>
        have hfl : ∀ a ∈ fields.map (·.2), a < s.heap.length := by intro a ha; obtain ⟨y, hy, rfl⟩ := List.mem_map.mp ha; exact hin y hy
        have hal : ∀ t ∈ args.map (·.1), t < s.heap.length := by intro t ht; obtain ⟨y, hy, rfl⟩ := List.mem_map.mp ht; exact ha y hy
        obtain ⟨e1, e2, h7⟩ := typeInferArgs_mono hs.heap hfl hal h6
        have e1 := e1.symm
        subst e1; subst e2
        obtain ⟨rfl, e⟩ := TM.pure_ok.mp h
        cases e
        exact .structValue htype (isNode_of_get hs.heap hn h5 (by simp) (by simp) (by simp) hE) (hargs.conv (all2_conv hs.heap hE hO h7 hfl hal))
    · obtain ⟨e3, k⟩ := applyLoop_src hO es.toList args hs hm ha h
      exact .apply hmisc (k hE hargs)

theorem tcApply_src {misc : Expr} {args : Exprs} {bind : Bool} (hm : Full Ca M misc (rec misc)) (ha : ∀ e ∈ args.toList, Full Ca M e (rec e)) : TySrc Ca M (.apply misc args bind) (tcApply M n rec misc args.toList bind) := by
  intro s s' x hs h H hE hO
  have hall := tcApply_safe hm.safe (fun e he => (ha e he).safe) s s' x hs.ok h
  unfold tcApply at h
  obtain ⟨s1, m, h1, h⟩ := TM.bind_ok.mp h
  obtain ⟨s2, rs, h2, h⟩ := TM.bind_ok.mp h
  cases m with
  | none => cases (TM.pure_ok.mp h).2
  | some m =>
    cases hx : allSome rs with
    | none => simp only [hx] at h; cases (TM.pure_ok.mp h).2
    | some xs =>
      simp only [hx] at h
      have k := hm.now hs h1
      have g := tcEach_src args.toList ha k.ok h2 hx
      have g3 := (tcEach_safe args.toList (fun e he => (ha e he).safe) k.ok.ok h2 hx).2.2
      have k3 := (hm.safe _ _ _ hs.ok h1).2.2
      have st2 := (tcEach_safe args.toList (fun e he => (ha e he).safe) k.ok.ok h2 hx).2.1
      have hlt := prefix_lt g.pre k.lt
      have hxl : ∀ a ∈ xs, a.1 < s2.heap.length := fun a ha => (g3 a ha).lt
      obtain ⟨hh, nt, h3, h⟩ := TM.liftH_bind.mp h
      obtain ⟨e, hn, _⟩ := normalType_mono g.ok.ok.heap.nodes hlt h3
      subst e
      obtain ⟨nd, h4, h⟩ := TM.readH_bind.mp h
      rw [Elab.get_ok] at h4
      simp only at h4
      -- the arguments and the function at the end
      have at_end : s2.heap <+: s'.heap → HasTy M H (ctx s.scopes) misc m.1 ∧ HasTys M H (ctx s.scopes) args.toList (xs.map (·.1)) := fun hp => by
        refine ⟨k.later (g.pre.trans hp) H hE hO, ?_⟩
        rw [← k.same]; exact g.later hp H hE hO
      have loop : applyLoop n m xs s2 = .ok (s', some x) → HasTy M H (ctx s.scopes) (.apply misc args bind) x.1 := fun h => by
        obtain ⟨e3, k'⟩ := applyLoop_src (Γ := ctx s.scopes) hO args.toList xs g.ok.ok hlt hxl h
        obtain ⟨q1, q2⟩ := at_end (by rw [e3]; exact List.prefix_rfl)
        exact .apply q1 (k' hE q2)
      split at h
      · rename_i vtype
        split at h
        · exact loop h
        · rename_i hbind
          have hz := h
          have hbind : bind = false := by simpa using hbind
          subst hbind
          have hv := g.ok.ok.heap.nodes _ _ h4
          have hp := (applyType_safe g.ok.ok (k3.step st2) hv g3 hz).2.1.heap
          obtain ⟨q1, q2⟩ := at_end hp
          exact applyType_src hO g.ok.ok hlt hv hxl hz hE hp q1 (.expr q1 (isNode_of_get g.ok.ok.heap hn h4 (by simp) (by simp) (by simp) ((Ends.prefix hp).trans hE))) q2
      · exact loop h

end
end Verif.Elab
