import Verif.Safe.Check
/-
Expressions that the type checker accepts have the type it gives them: lists, access and application.
-/
namespace Verif.Elab
open Types
open Compile (Var Tc Tcs Flds Brs)

section
variable {M : List Name} {n : Nat} {rec : Rec} {recT : RecT}

/-! ### Packages applied to types -/

theorem polyApply_safe {s s' : S} {p x : Ptr × Tc} {a : Ptr} (hs : SOk s) (hp : p.1 < s.heap.length) (h : polyApply n p a s = .ok (s', some x)) :
    SOk s' ∧ TStep s s' ∧ Typed Ca s' x := by
  unfold polyApply at h
  obtain ⟨k, hk, h⟩ := TM.readH_bind.mp h
  obtain ⟨l, rfl⟩ := getKind_basic hs.heap.nodes n hp hk
  simp only at h
  obtain ⟨o, h1, h⟩ := TM.readH_bind.mp h
  cases o with
  | none => cases (TM.pure_ok.mp h).2
  | some pv =>
    simp only at h
    have hpv : pv < s.heap.length := hs.heap.nodes _ _ (valueOfType_inv h1 rfl)
    obtain ⟨hh, package, h2, h⟩ := TM.liftH_bind.mp h
    obtain ⟨e, hn, hlt⟩ := normalType_mono hs.heap.nodes hpv h2
    subst e
    obtain ⟨m, h3, h⟩ := TM.readH_bind.mp h
    rw [Elab.get_ok] at h3
    simp only at h3
    cases m with
    | package path o =>
      simp only at h
      obtain ⟨o2, h4, h⟩ := TM.readH_bind.mp h
      cases o2 with
      | none => cases (TM.pure_ok.mp h).2
      | some arg =>
        simp only at h
        have harg : arg < s.heap.length := hs.heap.nodes _ _ (valueOfType_inv h4 rfl)
        have ho : o = true := hs.heap.nodes _ _ h3
        subst ho
        have h := TM.alloc_bind.mp h
        have h := TM.alloc_bind.mp h
        obtain ⟨rfl, e⟩ := TM.pure_ok.mp h
        cases e
        have hn1 : NodeIn s.heap (.abstract package arg) := ⟨harg, path, h3⟩
        have k1 := hs.alloc hn1 (by simp)
        have hn2 : NodeIn (new s.heap (.abstract package arg)).1 (.type (new s.heap (.abstract package arg)).2) := new_lt _ _
        refine ⟨k1.alloc hn2 (by simp), (step_alloc _ _).trans (step_alloc { s with heap := (new s.heap (.abstract package arg)).1 } _), new_lt _ _, fun H hE hO => ?_⟩
        simp only [TcTy]
        exact ⟨_, alloc_isNode k1 hn2 (by simp) (by simp) (by simp) hE⟩
    | _ => cases (TM.pure_ok.mp h).2

theorem tcPolyApply_safe (hpres : ∀ e, Pres (rec e)) {p a : Expr} (hp : Safe Ca (rec p)) (ha : Safe Ca (rec a)) : Safe Ca (tcPolyApply n rec p a) := by
  intro s s' x hs h
  unfold tcPolyApply at h
  obtain ⟨s1, o1, h1, h⟩ := TM.bind_ok.mp h
  obtain ⟨s2, o2, h2, h⟩ := TM.bind_ok.mp h
  cases o1 with
  | none => cases (TM.pure_ok.mp h).2
  | some r =>
    cases o2 with
    | none => cases (TM.pure_ok.mp h).2
    | some t =>
      obtain ⟨k1, k2, k3⟩ := hp _ _ _ hs h1
      obtain ⟨g1, g2, g3, g4⟩ := exprForType_safe hpres ha _ _ _ k1 h2
      obtain ⟨m1, m2, m3⟩ := polyApply_safe g1 (prefix_lt g3 k3.lt) h
      exact ⟨m1, (k2.trans (step_quiet g2 g3)).trans m2, m3⟩

/-! ### Lists and literals -/

theorem length_toTcs : (xs : List Tc) → (toTcs xs).length = xs.length
  | [] => rfl
  | _ :: xs => by simp [toTcs, Compile.Tcs.length, length_toTcs xs]

theorem all2_replicate {α β : Type} {R : α → β → Prop} {e : α} : {bs : List β} → All2 R (bs.map fun _ => e) bs → ∀ b ∈ bs, R e b
  | [], _ => by simp
  | b :: bs, h => by
    cases h with
    | cons h1 h2 =>
      simp only [List.mem_cons, forall_eq_or_imp]
      exact ⟨h1, all2_replicate h2⟩

theorem tcList_safe {func : Expr} {args : List Expr} (hf : Safe Ca (rec func)) (he : ∀ e ∈ args, Safe Ca (rec e)) : Safe Ca (tcList n rec func args) := by
  intro s s' x hs h
  unfold tcList at h
  obtain ⟨s1, o, h1, h⟩ := TM.bind_ok.mp h
  cases o with
  | none => cases (TM.pure_ok.mp h).2
  | some f =>
    obtain ⟨k1, k2, k3⟩ := hf _ _ _ hs h1
    simp only at h
    obtain ⟨hh, ⟨ft, vars⟩, h2, h⟩ := TM.liftH_bind.mp h
    obtain ⟨e, rfl, hn, hlt⟩ := depoly_mono k1.heap.nodes k3.lt h2
    subst e
    simp only at h
    obtain ⟨m, h3, h⟩ := TM.readH_bind.mp h
    rw [Elab.get_ok] at h3
    simp only at h3
    cases m with
    | func argT rt =>
      simp only at h
      obtain ⟨o, h4, h⟩ := TM.readH_bind.mp h
      cases o with
      | none => cases (TM.pure_ok.mp h).2
      | some elem =>
        simp only at h
        have hin := k1.heap.nodes _ _ h3
        obtain ⟨helem, hlist⟩ := listElementType_mono k1.heap hin.1 h4
        obtain ⟨s2, rs, h5, h⟩ := TM.bind_ok.mp h
        cases hx : allSome rs with
        | none => simp only [hx] at h; cases (TM.pure_ok.mp h).2
        | some xs =>
          simp only [hx] at h
          obtain ⟨g1, g2, g3⟩ := tcEach_safe args he k1 h5 hx
          obtain ⟨s3, o, h6, hg⟩ := TM.bind_ok.mp h
          cases o with
          | none => cases (TM.pure_ok.mp hg).2
          | some r =>
            have helem2 := prefix_lt g2.heap helem
            obtain ⟨e1, e2, h7⟩ := typeInferArgs_mono g1.heap (by intro a ha; obtain ⟨_, _, rfl⟩ := List.mem_map.mp ha; exact helem2)
              (by intro a ha; obtain ⟨y, hy, rfl⟩ := List.mem_map.mp ha; exact (g3 y hy).lt) h6
            subst e1; subst e2
            obtain ⟨hh, it, h8, h⟩ := TM.liftH_bind.mp hg
            have k3' := k3.step g2
            obtain ⟨e, hn2, hlt2⟩ := normalType_mono g1.heap.nodes k3'.lt h8
            subst e
            obtain ⟨m, h9, h⟩ := TM.readH_bind.mp h
            rw [Elab.get_ok] at h9
            simp only at h9
            cases m with
            | func a2 r2 =>
              obtain ⟨rfl, e⟩ := TM.pure_ok.mp h
              cases e
              have hin2 := g1.heap.nodes _ _ h9
              refine ⟨g1, k2.trans g2, hin2.2, fun H hE hO => ?_⟩
              have hE1 := (Ends.prefix g2.heap).trans hE
              have n1 := isNode_of_get k1.heap hn h3 (by simp) (by simp) (by simp) hE1
              have n2 := isNode_of_get g1.heap hn2 h9 (by simp) (by simp) (by simp) hE
              have := IsNode.unique n1 n2
              cases this
              simp only [TcTy]
              refine ⟨_, argT, rt, k3'.ty H hE hO, n1, ⟨argT, elem, hlist H hE1 hO.uniform, sameType_refl, ?_⟩, sameType_refl⟩
              refine TcsTy.conv _ (tcsTy_of g3 hE hO) ?_
              rw [length_toTcs, List.length_map]
              rw [show (xs.map fun _ => elem) = (xs.map (·.1)).map fun _ => elem by simp] at h7
              have h10 := all2_replicate h7
              have : ∀ (ys : List (Ptr × Tc)), (∀ y ∈ ys, y ∈ xs) → All2 (SameType H []) (ys.map (·.1)) (List.replicate ys.length elem) := by
                intro ys hys
                induction ys with
                | nil => exact .nil
                | cons y ys ih =>
                  simp only [List.map_cons, List.length_cons, List.replicate_succ]
                  have hy := hys y (by simp)
                  refine .cons ?_ (ih fun z hz => hys z (by simp [hz]))
                  exact (same_ends hE g1.heap.mono hO.later helem2 (g3 y hy).lt (h10 _ (List.mem_map.mpr ⟨y, hy, rfl⟩))).symm
              exact this xs fun _ h => h
            | _ => exact (TM.crash_ok.mp h).elim
    | _ => cases (TM.pure_ok.mp h).2

theorem letters_safe {unit : Ptr} {fields : List (Name × Ptr)} : (k : Nat) → (word : List Char) → {s s' : S} → {ls : List Nat} → SOk s → unit < s.heap.length → (∀ f ∈ fields, f.2 < s.heap.length) →
    s.heap[unit]? = some (.data .struct []) → letters n unit fields k word s = .ok (s', some ls) →
    s' = s ∧ ∀ H, Ends s.heap H → Uniform Ca H → ∀ l ∈ ls, ∃ x S, fields[l]? = some (x, S) ∧ IsNode H S (.data .struct [])
  | 0, word, s, s', ls, hs, hu, hf, hg, h => by
    unfold letters at h
    obtain ⟨rfl, e⟩ := TM.pure_ok.mp h
    split at e
    · cases e; exact ⟨rfl, by simp⟩
    · cases e
  | k + 1, word, s, s', ls, hs, hu, hf, hg, h => by
    unfold letters at h
    split at h
    · obtain ⟨rfl, e⟩ := TM.pure_ok.mp h
      cases e; exact ⟨rfl, by simp⟩
    · simp only at h
      split at h
      · cases (TM.pure_ok.mp h).2
      · cases hb : fields[(matchLoop word fields 0 (0, 0)).2]? with
        | none => simp only [hb] at h; exact (TM.crash_ok.mp h).elim
        | some q =>
          obtain ⟨y, ft⟩ := q
          simp only [hb] at h
          obtain ⟨b, h1, h⟩ := TM.readH_bind.mp h
          cases b with
          | false => cases (TM.pure_ok.mp h).2
          | true =>
            simp only [Bool.not_true, Bool.false_eq_true, if_false] at h
            obtain ⟨s2, o, h2, h⟩ := TM.bind_ok.mp h
            cases o with
            | none => cases (TM.pure_ok.mp h).2
            | some ls' =>
              obtain ⟨e1, k1⟩ := letters_safe k _ hs hu hf hg h2
              obtain ⟨e2, e⟩ := TM.pure_ok.mp h
              cases e
              refine ⟨e2.trans e1, fun H hE hO => ?_⟩
              simp only [List.mem_cons, forall_eq_or_imp]
              refine ⟨⟨y, ft, hb, ?_⟩, k1 H hE hO⟩
              have hsame := typesEqual_same hs.heap hu (hf (y, ft) (List.mem_of_getElem? hb)) h1 hE hO
              have hunit : IsNode H unit (.data .struct []) :=
                ends_isNode hE ⟨unit, .here (hs.heap.nodes.final hg (by simp)), hg⟩ (by simp) (by simp) (by simp)
              obtain ⟨fs', h3, h4⟩ := same_data hsame hunit
              cases fs' with
              | nil => exact h3
              | cons => cases h4

theorem tcLiteral_safe {func : Expr} {word : List Char} (hf : Safe Ca (rec func)) : Safe Ca (tcLiteral n rec func word) := by
  intro s s' x hs h
  unfold tcLiteral at h
  obtain ⟨s1, o, h1, h⟩ := TM.bind_ok.mp h
  cases o with
  | none => cases (TM.pure_ok.mp h).2
  | some f =>
    obtain ⟨ft, ftc⟩ := f
    obtain ⟨k1, k2, k3⟩ := hf _ _ _ hs h1
    simp only at h
    obtain ⟨hh, nt, h2, h⟩ := TM.liftH_bind.mp h
    obtain ⟨e, hn, hlt⟩ := normalType_mono k1.heap.nodes k3.lt h2
    subst e
    obtain ⟨m, h3, h⟩ := TM.readH_bind.mp h
    rw [Elab.get_ok] at h3
    simp only at h3
    cases m with
    | func argT rt =>
      simp only at h
      obtain ⟨o, h4, h⟩ := TM.readH_bind.mp h
      cases o with
      | none => cases (TM.pure_ok.mp h).2
      | some elem =>
        simp only at h
        have hin := k1.heap.nodes _ _ h3
        obtain ⟨helem, hlist⟩ := listElementType_mono k1.heap hin.1 h4
        obtain ⟨hh, et, h5, h⟩ := TM.liftH_bind.mp h
        obtain ⟨e, hn2, hlt2⟩ := normalType_mono k1.heap.nodes helem h5
        subst e
        obtain ⟨m, h6, h⟩ := TM.readH_bind.mp h
        rw [Elab.get_ok] at h6
        simp only at h6
        split at h
        · rename_i fields
          have h := TM.alloc_bind.mp h
          obtain ⟨s2, o, h7, h⟩ := TM.bind_ok.mp h
          cases o with
          | none => cases (TM.pure_ok.mp h).2
          | some ls =>
            have g1 := k1.alloc (n := .data .struct []) (by intro f hf; cases hf) (by simp)
            have hpre := new_prefix s1.heap (.data .struct [])
            obtain ⟨e2, g2⟩ := letters_safe _ word g1 (new_lt _ _) (fun f hf => prefix_lt hpre (k1.heap.nodes _ _ h6 f hf)) (new_get _ _) h7
            obtain ⟨e1, e⟩ := TM.pure_ok.mp h
            rw [e2] at e1
            subst e1
            cases e
            have st := step_alloc s1 (.data .struct [])
            refine ⟨g1, k2.trans st, prefix_lt hpre hin.2, fun H hE hO => ?_⟩
            have hE1 := (Ends.prefix hpre).trans hE
            simp only [TcTy]
            exact ⟨ft, argT, rt, (k3.step st).ty H hE hO, isNode_of_get k1.heap hn h3 (by simp) (by simp) (by simp) hE1,
              ⟨argT, elem, fields, hlist H hE1 hO.uniform, sameType_refl, isNode_of_get k1.heap hn2 h6 (by simp) (by simp) (by simp) hE1, g2 H hE hO.uniform⟩, sameType_refl⟩
        · cases (TM.pure_ok.mp h).2
    | _ => cases (TM.pure_ok.mp h).2

/-! ### Access -/

theorem tcAbstractAccess_safe {v : Expr} (hv : Safe Ca (rec v)) : Safe Ca (tcAbstractAccess M n rec v) := by
  intro s s' x hs h
  unfold tcAbstractAccess at h
  obtain ⟨s1, o, h1, h⟩ := TM.bind_ok.mp h
  cases o with
  | none => cases (TM.pure_ok.mp h).2
  | some f =>
    obtain ⟨vt, vtc⟩ := f
    obtain ⟨k1, k2, k3⟩ := hv _ _ _ hs h1
    simp only at h
    obtain ⟨hh, a, h2, h⟩ := TM.liftH_bind.mp h
    obtain ⟨e, hn, hlt⟩ := normalType_mono k1.heap.nodes k3.lt h2
    subst e
    obtain ⟨m, h3, h⟩ := TM.readH_bind.mp h
    rw [Elab.get_ok] at h3
    simp only at h3
    cases m with
    | abstract p t =>
      simp only at h
      obtain ⟨m2, h4, h⟩ := TM.readH_bind.mp h
      cases m2 with
      | package path o =>
        simp only at h
        split at h
        · cases (TM.pure_ok.mp h).2
        · obtain ⟨rfl, e⟩ := TM.pure_ok.mp h
          cases e
          refine ⟨k1, k2, (k1.heap.nodes _ _ h3).1, fun H hE hO => ?_⟩
          exact TcTy.conv _ (k3.ty H hE hO) ((normal_same hn hE).trans (abstract_same hE hO h3))
      | _ => exact (TM.crash_ok.mp h).elim
    | _ => cases (TM.pure_ok.mp h).2

theorem tcAccess_safe {ob : Expr} {field : Name} (hv : Safe Ca (rec ob)) : Safe Ca (tcAccess n rec ob field) := by
  intro s s' x hs h
  unfold tcAccess at h
  obtain ⟨s1, o, h1, h⟩ := TM.bind_ok.mp h
  cases o with
  | none => cases (TM.pure_ok.mp h).2
  | some f =>
    obtain ⟨ot, otc⟩ := f
    obtain ⟨k1, k2, k3⟩ := hv _ _ _ hs h1
    simp only at h
    obtain ⟨hh, a, h2, h⟩ := TM.liftH_bind.mp h
    obtain ⟨e, hn, hlt⟩ := normalType_mono k1.heap.nodes k3.lt h2
    subst e
    obtain ⟨m, h3, h⟩ := TM.readH_bind.mp h
    rw [Elab.get_ok] at h3
    simp only at h3
    cases m with
    | data dt fields =>
      simp only at h
      cases hf : findField field fields 0 with
      | none => simp only [hf] at h; cases (TM.pure_ok.mp h).2
      | some q =>
        obtain ⟨tag, ft⟩ := q
        simp only [hf] at h
        obtain ⟨rfl, e⟩ := TM.pure_ok.mp h
        cases e
        obtain ⟨y, _, hy⟩ := findField_get fields 0 hf
        refine ⟨k1, k2, k1.heap.nodes _ _ h3 _ (List.mem_of_getElem? hy), fun H hE hO => ?_⟩
        simp only [TcTy]
        have hnode := isNode_of_get k1.heap hn h3 (by simp) (by simp) (by simp) hE
        refine ⟨ot, fields, y, ft, k3.ty H hE hO, ?_, by simpa using hy, sameType_refl⟩
        cases dt with
        | struct => exact hnode
        | union => exact hnode
    | _ => cases (TM.pure_ok.mp h).2

/-! ### Application -/

theorem applyLoop_safe : (args : List (Ptr × Tc)) → {f : Ptr × Tc} → {s s' : S} → {x : Ptr × Tc} → SOk s → Typed Ca s f → (∀ a ∈ args, Typed Ca s a) → applyLoop n f args s = .ok (s', some x) →
    SOk s' ∧ TStep s s' ∧ Typed Ca s' x
  | [], f, s, s', x, hs, hf, ha, h => by
    unfold applyLoop at h
    obtain ⟨rfl, e⟩ := TM.pure_ok.mp h
    cases e
    exact ⟨hs, .refl _, hf⟩
  | a :: args, f, s, s', x, hs, hf, ha, h => by
    unfold applyLoop at h
    obtain ⟨hh, ⟨ft, vars⟩, h2, h⟩ := TM.liftH_bind.mp h
    obtain ⟨e, rfl, hn, hlt⟩ := depoly_mono hs.heap.nodes hf.lt h2
    subst e
    simp only at h
    obtain ⟨m, h3, h⟩ := TM.readH_bind.mp h
    rw [Elab.get_ok] at h3
    simp only at h3
    cases m with
    | func argT rt =>
      simp only at h
      have hin := hs.heap.nodes _ _ h3
      obtain ⟨s3, o, h6, hg⟩ := TM.bind_ok.mp h
      cases o with
      | none => cases (TM.pure_ok.mp hg).2
      | some r =>
        have hat := ha a (by simp)
        obtain ⟨e1, e2, h7⟩ := typeInferArgs_mono hs.heap (by simpa using hin.1) (by simpa using hat.lt) h6
        have e1 := e1.symm
        subst e1; subst e2
        obtain ⟨hh, it, h8, h⟩ := TM.liftH_bind.mp hg
        obtain ⟨e, hn2, hlt2⟩ := normalType_mono hs.heap.nodes hf.lt h8
        subst e
        obtain ⟨m, h9, h⟩ := TM.readH_bind.mp h
        rw [Elab.get_ok] at h9
        simp only at h9
        cases m with
        | func a2 r2 =>
          simp only at h
          have hin2 := hs.heap.nodes _ _ h9
          refine applyLoop_safe args hs ⟨hin2.2, fun H hE hO => ?_⟩ (fun b hb => ha b (by simp [hb])) h
          have n1 := isNode_of_get hs.heap hn h3 (by simp) (by simp) (by simp) hE
          have n2 := isNode_of_get hs.heap hn2 h9 (by simp) (by simp) (by simp) hE
          have := IsNode.unique n1 n2
          cases this
          simp only [TcTy]
          cases h7 with
          | cons h10 _ => exact ⟨r.1, argT, rt, hf.ty H hE hO, n1, TcTy.conv _ (hat.ty H hE hO) (same_ends hE hs.heap.mono hO.later hin.1 hat.lt h10).symm, sameType_refl⟩
        | _ => exact (TM.crash_ok.mp h).elim
    | _ => cases (TM.pure_ok.mp h).2

theorem applyType_safe {args : List (Ptr × Tc)} {misc : Ptr × Tc} {vtype : Ptr} {s s' : S} {x : Ptr × Tc} (hs : SOk s) (hm : Typed Ca s misc) (hv : vtype < s.heap.length) (ha : ∀ a ∈ args, Typed Ca s a)
    (h : applyType M n misc vtype args s = .ok (s', some x)) : SOk s' ∧ TStep s s' ∧ Typed Ca s' x := by
  unfold applyType at h
  obtain ⟨hh, vnorm, h2, h⟩ := TM.liftH_bind.mp h
  obtain ⟨e, hn, hlt⟩ := normalType_mono hs.heap.nodes hv h2
  subst e
  obtain ⟨m, h3, h⟩ := TM.readH_bind.mp h
  rw [Elab.get_ok] at h3
  simp only at h3
  split at h
  · rename_i path o
    have ho : o = true := hs.heap.nodes _ _ h3
    subst ho
    match args, ha, h with
    | [], _, h => cases (TM.pure_ok.mp h).2
    | _ :: _ :: _, _, h => cases (TM.pure_ok.mp h).2
    | [a], ha, h =>
      simp only at h
      split at h
      · cases (TM.pure_ok.mp h).2
      · have hal := TM.alloc_bind.mp h
        obtain ⟨rfl, e⟩ := TM.pure_ok.mp hal
        cases e
        have hat := ha a (by simp)
        have hn1 : NodeIn s.heap (.abstract vnorm a.1) := ⟨hat.lt, path, h3⟩
        refine ⟨hs.alloc hn1 (by simp), step_alloc _ _, new_lt _ _, fun H hE hO => ?_⟩
        exact TcTy.conv _ ((hat.step (step_alloc _ _)).ty H hE hO) (abstract_same hE hO (new_get _ _)).symm
  · obtain ⟨hh, ⟨st, vars⟩, h4, h⟩ := TM.liftH_bind.mp h
    obtain ⟨e, rfl, hn, hlt⟩ := depoly_mono hs.heap.nodes hv h4
    subst e
    simp only at h
    obtain ⟨m, h5, h⟩ := TM.readH_bind.mp h
    rw [Elab.get_ok] at h5
    simp only at h5
    split at h
    · rename_i fields
      have hin := hs.heap.nodes _ _ h5
      obtain ⟨s3, o, h6, h⟩ := TM.bind_ok.mp h
      cases o with
      | none => cases (TM.pure_ok.mp h).2
      | some r =>
        have hfl : ∀ a ∈ fields.map (·.2), a < s.heap.length := by intro a ha; obtain ⟨y, hy, rfl⟩ := List.mem_map.mp ha; exact hin y hy
        have hal : ∀ t ∈ args.map (·.1), t < s.heap.length := by intro t ht; obtain ⟨y, hy, rfl⟩ := List.mem_map.mp ht; exact (ha y hy).lt
        obtain ⟨e1, e2, h7⟩ := typeInferArgs_mono hs.heap hfl hal h6
        have e1 := e1.symm
        subst e1; subst e2
        obtain ⟨rfl, e⟩ := TM.pure_ok.mp h
        cases e
        refine ⟨hs, .refl _, hv, fun H hE hO => ?_⟩
        simp only [TcTy]
        refine ⟨fields, isNode_of_get hs.heap hn h5 (by simp) (by simp) (by simp) hE, TcsTy.conv _ (tcsTy_of ha hE hO) ?_⟩
        have : ∀ {as bs : List Ptr}, All2 (SameType s'.heap []) as bs → (∀ a ∈ as, a < s'.heap.length) → (∀ b ∈ bs, b < s'.heap.length) → All2 (SameType H []) bs as := by
          intro as bs h
          induction h with
          | nil => intros; exact .nil
          | cons h1 _ ih =>
            intro ha hb
            exact .cons (same_ends hE hs.heap.mono hO.later (ha _ (by simp)) (hb _ (by simp)) h1).symm (ih (fun a h => ha a (by simp [h])) fun b h => hb b (by simp [h]))
        exact this h7 hfl hal
    · exact applyLoop_safe args hs hm ha h

theorem tcApply_safe {misc : Expr} {args : List Expr} {bind : Bool} (hm : Safe Ca (rec misc)) (ha : ∀ e ∈ args, Safe Ca (rec e)) : Safe Ca (tcApply M n rec misc args bind) := by
  intro s s' x hs h
  unfold tcApply at h
  obtain ⟨s1, m, h1, h⟩ := TM.bind_ok.mp h
  obtain ⟨s2, rs, h2, h⟩ := TM.bind_ok.mp h
  cases m with
  | none => cases (TM.pure_ok.mp h).2
  | some m =>
    cases hx : allSome rs with
    | none => simp only [hx] at h; cases (TM.pure_ok.mp h).2
    | some xs =>
      simp only [hx] at h
      obtain ⟨k1, k2, k3⟩ := hm _ _ _ hs h1
      obtain ⟨g1, g2, g3⟩ := tcEach_safe args ha k1 h2 hx
      have k3' := k3.step g2
      obtain ⟨hh, nt, h3, h⟩ := TM.liftH_bind.mp h
      obtain ⟨e, hn, hlt⟩ := normalType_mono g1.heap.nodes k3'.lt h3
      subst e
      obtain ⟨nd, h4, h⟩ := TM.readH_bind.mp h
      rw [Elab.get_ok] at h4
      simp only at h4
      have fin : SOk s' ∧ TStep s2 s' ∧ Typed Ca s' x := by
        split at h
        · rename_i vtype
          split at h
          · exact applyLoop_safe xs g1 k3' g3 h
          · exact applyType_safe g1 k3' (g1.heap.nodes _ _ h4) g3 h
        · exact applyLoop_safe xs g1 k3' g3 h
      exact ⟨fin.1, (k2.trans g2).trans fin.2.1, fin.2.2⟩

end
end Verif.Elab
