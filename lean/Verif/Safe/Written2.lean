import Verif.Safe.Written
/-
What the type checker accepts has its type by the typing rules of the language: unions, functions, lists,
casts, access and application.
-/
namespace Verif.Elab
open Types
open Compile (Var Tc Tcs Flds Brs)

section
variable {M : List Name} {n : Nat} {rec : Rec} {recT : RecT} {Ca : Prop}

theorem get_prefix {h h' : Heap} (hp : h <+: h') {p : Ptr} {m : Node} (hg : h[p]? = some m) : h'[p]? = some m := by
  rw [List.prefix_iff_getElem?] at hp
  obtain ⟨hi, e⟩ := List.getElem?_eq_some_iff.mp hg
  rw [hp p hi, e]

/-! ### Unions -/

theorem findField_mem {x : Name} : (fs : List (Name × Ptr)) → (i : Nat) → {tag : Nat} → {t : Ptr} → findField x fs i = some (tag, t) → (x, t) ∈ fs
  | [], i, tag, t, h => by simp [findField] at h
  | (y, u) :: fs, i, tag, t, h => by
    rw [findField] at h
    split at h
    · rename_i hn
      rw [namesEqual_iff] at hn
      cases h; subst hn; simp
    · exact List.mem_cons_of_mem _ (findField_mem fs (i + 1) h)

theorem tcUnion_src {type : Expr} {field : Name} {arg : Expr} (ht : FullT Ca M type (recT type)) (ha : Full Ca M arg (rec arg)) : TySrc Ca M (.unionValue type field arg) (tcUnion n rec recT type field arg) := by
  intro s s' x hs h H hE hO
  unfold tcUnion at h
  obtain ⟨s1, o, h1, h⟩ := TM.bind_ok.mp h
  cases o with
  | none => cases (TM.pure_ok.mp h).2
  | some t =>
    have k := ht.now hs h1
    obtain ⟨hh, ⟨ut, vars⟩, h2, h⟩ := TM.liftH_bind.mp h
    obtain ⟨e, rfl, hn, hlt⟩ := depoly_mono k.ok.ok.heap.nodes k.lt h2
    subst e
    simp only at h
    obtain ⟨m, h3, h⟩ := TM.readH_bind.mp h
    rw [Elab.get_ok] at h3
    simp only at h3
    split at h
    · rename_i fields
      cases hff : findField field fields 0 with
      | none => rw [hff] at h; cases (TM.pure_ok.mp h).2
      | some q =>
        obtain ⟨tag, ft⟩ := q
        rw [hff] at h
        simp only at h
        have hy := findField_mem fields 0 hff
        obtain ⟨s2, o, h4, h⟩ := TM.bind_ok.mp h
        cases o with
        | none => cases (TM.pure_ok.mp h).2
        | some r =>
          obtain ⟨argT, argTc⟩ := r
          have g := ha.now k.ok h4
          simp only at h
          obtain ⟨s3, o, h5, h⟩ := TM.bind_ok.mp h
          cases o with
          | none => cases (TM.pure_ok.mp h).2
          | some r =>
            have hft : ft < s2.heap.length := prefix_lt g.pre (k.ok.ok.heap.nodes _ _ h3 _ hy)
            obtain ⟨e1, e2, h6⟩ := typeInferArgs_mono g.ok.ok.heap (by simpa using hft) (by simpa using g.lt) h5
            subst e1; subst e2
            obtain ⟨rfl, e⟩ := TM.pure_ok.mp h
            cases e
            have hE' := (Ends.prefix g.pre).trans hE
            have hg := g.ty H hE hO
            rw [k.scopes] at hg
            cases h6 with
            | cons h7 _ =>
              exact .unionValue (k.later g.pre H hE hO) (isNode_of_get k.ok.ok.heap hn h3 (by simp) (by simp) (by simp) hE') hy
                (.conv hg (same_ends hE g.ok.ok.heap.mono hO.later hft g.lt h7).symm)
    · cases (TM.pure_ok.mp h).2

structure NowChoices (Ca : Prop) (M : List Name) (s : S) (d : Bool) (fs : Fields) (cs : List (Name × Expr)) (s' : S) (rt : Option Ptr) (rt' : Option Ptr) : Prop where
  ok : WOk s'
  same : ctx s'.scopes = ctx s.scopes
  pre : s.heap <+: s'.heap
  keep : ∀ r, rt = some r → rt' = some r
  lt : ∀ R, rt' = some R → R < s'.heap.length
  ty : ∀ R, rt' = some R → ∀ H, Ends s'.heap H → Closed Ca H → ChoicesTy M H (ctx s.scopes) d fs cs R

theorem selLoop_src {hd : Bool} : (fs : List (Name × Ptr)) → (i : Nat) → (cs : List (Name × Expr)) → (∀ c ∈ cs, Full Ca M c.2 (rec c.2)) → {rt : Option Ptr} → {s s' : S} → {q : SelRes} → WOk s →
    (∀ r, rt = some r → r < s.heap.length) → selLoop n rec hd fs i cs rt s = .ok (s', q) → q.error = false → NowChoices Ca M s hd fs cs s' rt q.rtype
  | [], i, cs, hcs, rt, s, s', q, hs, hr, h, he => by
    unfold selLoop at h
    obtain ⟨rfl, rfl⟩ := TM.pure_ok.mp h
    simp only [Bool.not_eq_false', List.isEmpty_iff] at he
    subst he
    exact ⟨hs, rfl, List.prefix_rfl, fun r e => e, hr, fun R _ H _ _ => .nil⟩
  | (x, ft) :: fs, i, (y, e) :: cs, hcs, rt, s, s', q, hs, hr, h, he => by
    unfold selLoop at h
    split at h
    · rename_i hn
      rw [namesEqual_iff] at hn
      subst hn
      obtain ⟨s1, r, h1, h⟩ := TM.bind_ok.mp h
      cases r with
      | none =>
        obtain ⟨s2, q2, h2, h⟩ := TM.bind_ok.mp h
        obtain ⟨_, rfl⟩ := TM.pure_ok.mp h
        simp at he
      | some r =>
        obtain ⟨t, tc⟩ := r
        have k := (hcs (y, e) (by simp)).now hs h1
        cases rt with
        | none =>
          obtain ⟨s2, q2, h2, h⟩ := TM.bind_ok.mp h
          obtain ⟨rfl, rfl⟩ := TM.pure_ok.mp h
          have g := selLoop_src fs (i + 1) cs (fun c hc => hcs c (by simp [hc])) k.ok (by intro r e; cases e; exact k.lt) h2 he
          refine ⟨g.ok, g.same.trans k.same, k.pre.trans g.pre, by simp, g.lt, fun R hR H hE hO => ?_⟩
          have hR' := g.keep t rfl
          simp only at hR
          rw [hR'] at hR; cases hR
          refine .choice (k.later g.pre H hE hO) ?_
          rw [← k.same]; exact g.ty _ hR' H hE hO
        | some rt =>
          obtain ⟨s2, eq, h2, g⟩ := TM.bind_ok.mp h
          obtain ⟨rfl, h2⟩ := TM.readH_ok.mp h2
          obtain ⟨s3, q2, h3, h⟩ := TM.bind_ok.mp g
          obtain ⟨rfl, rfl⟩ := TM.pure_ok.mp h
          simp only [Bool.or_eq_false_iff, Bool.not_eq_false'] at he
          obtain ⟨he, rfl⟩ := he
          have hrt : rt < s2.heap.length := prefix_lt k.pre (hr rt rfl)
          have g := selLoop_src fs (i + 1) cs (fun c hc => hcs c (by simp [hc])) k.ok (by intro r e; cases e; exact hrt) h3 he
          refine ⟨g.ok, g.same.trans k.same, k.pre.trans g.pre, g.keep, g.lt, fun R hR H hE hO => ?_⟩
          have hR' := g.keep rt rfl
          simp only at hR
          rw [hR'] at hR; cases hR
          have hE' := (Ends.prefix g.pre).trans hE
          refine .choice (.conv (k.later g.pre H hE hO) (equal_at_end k.ok.ok.heap hrt k.lt h2 hE' hO)) ?_
          rw [← k.same]; exact g.ty _ hR' H hE hO
    · obtain ⟨s2, q2, h2, h⟩ := TM.bind_ok.mp h
      obtain ⟨rfl, rfl⟩ := TM.pure_ok.mp h
      cases hd with
      | false => simp at he
      | true =>
        simp only [if_true] at he ⊢
        have g := selLoop_src fs (i + 1) _ hcs hs hr h2 he
        exact ⟨g.ok, g.same, g.pre, g.keep, g.lt, fun R hR H hE hO => .default (g.ty R hR H hE hO)⟩
  | (x, ft) :: fs, i, [], hcs, rt, s, s', q, hs, hr, h, he => by
    unfold selLoop at h
    obtain ⟨s2, q2, h2, h⟩ := TM.bind_ok.mp h
    obtain ⟨rfl, rfl⟩ := TM.pure_ok.mp h
    cases hd with
    | false => simp at he
    | true =>
      simp only [if_true] at he ⊢
      have g := selLoop_src fs (i + 1) _ hcs hs hr h2 he
      exact ⟨g.ok, g.same, g.pre, g.keep, g.lt, fun R hR H hE hO => .default (g.ty R hR H hE hO)⟩

theorem tcSelect_src {c : Expr} {cs : Tagged} {d : Default} (hc : Full Ca M c (rec c)) (hcs : ∀ c ∈ cs.toList, Full Ca M c.2 (rec c.2)) (hd : ∀ e, d.toOption = some e → Full Ca M e (rec e)) :
    TySrc Ca M (.select c cs d) (tcSelect n rec c cs.toList d.toOption) := by
  intro s s' x hs h H hE hO
  unfold tcSelect at h
  obtain ⟨s1, o, h1, h⟩ := TM.bind_ok.mp h
  cases o with
  | none => cases (TM.pure_ok.mp h).2
  | some r =>
    obtain ⟨ct, ctc⟩ := r
    have k := hc.now hs h1
    simp only at h
    obtain ⟨hh, nt, h2, h⟩ := TM.liftH_bind.mp h
    obtain ⟨e, hn, hlt⟩ := normalType_mono k.ok.ok.heap.nodes k.lt h2
    subst e
    obtain ⟨m, h3, h⟩ := TM.readH_bind.mp h
    rw [Elab.get_ok] at h3
    simp only at h3
    split at h
    · rename_i fields
      obtain ⟨s2, dv, h4, h⟩ := TM.bind_ok.mp h
      obtain ⟨s3, q, h5, h⟩ := TM.bind_ok.mp h
      split at h
      · cases (TM.pure_ok.mp h).2
      · rename_i hcond
        simp only [Bool.or_eq_true, Bool.and_eq_true, not_or, Bool.not_eq_true] at hcond
        obtain ⟨herr, hdd⟩ := hcond
        have hres : s' = s3 ∧ q.rtype = some x.1 := by
          cases hq : q.rtype with
          | none => rw [hq] at h; exact (TM.crash_ok.mp h).elim
          | some R =>
            rw [hq] at h
            simp only at h
            split at h
            · cases dv with
              | none => exact (TM.crash_ok.mp h).elim
              | some y =>
                obtain ⟨dt, dtc⟩ := y
                obtain ⟨rfl, e⟩ := TM.pure_ok.mp h
                cases e
                exact ⟨rfl, rfl⟩
            · cases hb : q.branches.getLast? with
              | none => rw [hb] at h; exact (TM.crash_ok.mp h).elim
              | some last =>
                obtain ⟨i, last⟩ := last
                rw [hb] at h
                obtain ⟨rfl, e⟩ := TM.pure_ok.mp h
                cases e
                exact ⟨rfl, rfl⟩
        obtain ⟨rfl, hq⟩ := hres
        have hnode : ∀ {h' : Heap}, s1.heap <+: h' → Ends h' H → IsNode H ct (.data .union fields) := fun hp hE => isNode_of_get k.ok.ok.heap hn h3 (by simp) (by simp) (by simp) ((Ends.prefix hp).trans hE)
        cases d with
        | none =>
          obtain ⟨rfl, rfl⟩ := TM.pure_ok.mp h4
          have g := selLoop_src fields 0 cs.toList hcs k.ok (by simp) h5 herr
          have hc := g.ty _ hq H hE hO
          rw [k.same] at hc
          exact .select (k.later g.pre H hE hO) (hnode g.pre hE) hc
        | some e =>
          cases dv with
          | none => simp [Default.toOption] at hdd
          | some y =>
            have l := (hd e rfl).now k.ok h4
            have g := selLoop_src fields 0 cs.toList hcs l.ok (by intro r hr; cases hr; exact l.lt) h5 herr
            have hk := g.keep _ rfl
            rw [hq] at hk
            simp only [Option.some.injEq] at hk
            have hc := g.ty _ hq H hE hO
            rw [l.same, k.same] at hc
            have hde := l.later g.pre H hE hO
            rw [k.same, ← hk] at hde
            exact .selectDefault (k.later (l.pre.trans g.pre) H hE hO) (hnode (l.pre.trans g.pre) hE) hc hde
    · cases (TM.pure_ok.mp h).2

/-! ### Functions -/

theorem tcFunc_src {x : Name} {type body : Expr} (ht : FullT Ca M type (recT type)) (hb : Full Ca M body (rec body)) : TySrc Ca M (.func x type body) (tcFunc rec recT x type body) := by
  intro s s' r hs h H hE hO
  unfold tcFunc at h
  obtain ⟨s1, o, h1, h⟩ := TM.bind_ok.mp h
  cases o with
  | none => cases (TM.pure_ok.mp h).2
  | some argT =>
    have k := ht.now hs h1
    simp only at h
    obtain ⟨s2, _, h2, h⟩ := TM.bind_ok.mp h
    unfold pushScope at h2
    cases h2
    obtain ⟨s3, o, h3, h⟩ := TM.bind_ok.mp h
    obtain ⟨s4, sc, h4, h⟩ := TM.bind_ok.mp h
    cases o with
    | none => cases (TM.pure_ok.mp h).2
    | some r =>
      obtain ⟨t, tc⟩ := r
      cases hs1 : s1.scopes with
      | nil => rw [k.scopes] at hs1; exact (hs.ok.ne hs1).elim
      | cons p rest =>
        have hin : WOk { s1 with scopes := initScope (some []) [(.normal x, argT)] :: s1.scopes } := by
          refine ⟨⟨k.ok.ok.heap, ⟨⟨by simp [initScope], ?_, by simp [initScope], rfl, ?_, ?_⟩, k.ok.ok.scopes⟩, by simp⟩, ⟨by simp [initScope], k.ok.stat⟩⟩
          · intro i v hv
            simp only [initScope, argVars, List.reverse_cons, List.reverse_nil, List.nil_append] at hv
            match i, hv with
            | 0, hv => simp at hv; subst hv; rfl
            | i + 1, hv => simp at hv
          · intro v hv
            simp only [Scope.vars, initScope, argVars, List.reverse_cons, List.reverse_nil, List.nil_append, List.append_nil, List.mem_singleton] at hv
            subst hv; exact k.lt
          · intro cs hc
            simp only [initScope, Option.some.injEq] at hc
            subst hc
            exact ⟨p, rest, hs1, .nil⟩
        have g := hb.now hin h3
        have hsc := (hb.safe _ _ _ hin.ok h3).2.1.scopes
        simp only at hsc
        generalize hs3 : s3.scopes = σ3 at hsc
        cases hsc with
        | @cons _ _ sc3 rest3 q1 q2 =>
          unfold popScope at h4
          rw [hs3] at h4
          cases h4
          have h := TM.alloc_bind.mp h
          obtain ⟨rfl, e⟩ := TM.pure_ok.mp h
          cases e
          have hok := g.ok.ok.scopes
          rw [hs3] at hok
          have hn : NodeIn s3.heap (.func argT t) := ⟨prefix_lt g.pre k.lt, g.lt⟩
          have ok4 : SOk { s3 with scopes := rest3 } := ⟨g.ok.ok.heap, hok.2, by rw [hs1] at q2; cases q2; simp⟩
          have hbody := g.later (new_prefix s3.heap (.func argT t)) H hE hO
          simp only [ctx, initScope, argVars, List.reverse_cons, List.reverse_nil, List.nil_append, List.map_nil, List.map_cons, List.singleton_append, k.scopes] at hbody
          exact .func (k.later (g.pre.trans (new_prefix _ _)) H hE hO) hbody (alloc_isNode ok4 hn (by simp) (by simp) (by simp) hE)

/-! ### Packages applied to types -/

theorem polyApply_src {p a : Expr} {Γ : Ctx} {s s' : S} {f : Ptr × Tc} {t : Ptr} {x : Ptr × Tc} (hs : SOk s) (hf : f.1 < s.heap.length) (h : polyApply n f t s = .ok (s', some x)) {H : Heap} (hE : Ends s'.heap H) (hO : Closed Ca H)
    (hp : HasTy M H Γ p f.1) (ha : HasTy M H Γ a t) : HasTy M H Γ (.polyApply p a) x.1 := by
  unfold polyApply at h
  obtain ⟨k, hk, h⟩ := TM.readH_bind.mp h
  obtain ⟨l, rfl⟩ := getKind_basic hs.heap.nodes n hf hk
  simp only at h
  obtain ⟨o, h1, h⟩ := TM.readH_bind.mp h
  cases o with
  | none => cases (TM.pure_ok.mp h).2
  | some pv =>
    simp only at h
    have hg1 := valueOfType_inv h1 rfl
    have hpv : pv < s.heap.length := hs.heap.nodes _ _ hg1
    obtain ⟨hh, package, h2, h⟩ := TM.liftH_bind.mp h
    obtain ⟨e, hn, hlt⟩ := normalType_mono hs.heap.nodes hpv h2
    subst e
    obtain ⟨m, h3, h⟩ := TM.readH_bind.mp h
    rw [Elab.get_ok] at h3
    simp only at h3
    cases m with
    | package path o =>
      simp only at h
      obtain ⟨o2, h4, h⟩ := TM.readH_bind.mp h
      cases o2 with
      | none => cases (TM.pure_ok.mp h).2
      | some arg =>
        simp only at h
        have hg2 := valueOfType_inv h4 rfl
        have harg : arg < s.heap.length := hs.heap.nodes _ _ hg2
        have ho : o = true := hs.heap.nodes _ _ h3
        subst ho
        have h := TM.alloc_bind.mp h
        have h := TM.alloc_bind.mp h
        obtain ⟨rfl, e⟩ := TM.pure_ok.mp h
        cases e
        have hn1 : NodeIn s.heap (.abstract package arg) := ⟨harg, path, h3⟩
        have k1 := hs.alloc hn1 (by simp)
        have hn2 : NodeIn (new s.heap (.abstract package arg)).1 (.type (new s.heap (.abstract package arg)).2) := new_lt _ _
        have k2 := k1.alloc hn2 (by simp)
        have hp1 := new_prefix s.heap (.abstract package arg)
        have hp2 := new_prefix (new s.heap (.abstract package arg)).1 (.type (new s.heap (.abstract package arg)).2)
        have hE1 : Ends (new s.heap (.abstract package arg)).1 H := (Ends.prefix hp2).trans hE
        have hE0 : Ends s.heap H := (Ends.prefix hp1).trans hE1
        obtain ⟨path', o', h5, h6⟩ := abstract_node k1.heap.nodes (new_get s.heap (.abstract package arg)) hE1 hO
        rw [get_prefix hp1 h3] at h5
        cases h5
        exact .abstractType (.expr hp (get_isNode hs.heap.nodes hg1 (by simp) (by simp) (by simp) hE0)) (package_node hs.heap hn h3 hE0 hO).2
          (.expr ha (get_isNode hs.heap.nodes hg2 (by simp) (by simp) (by simp) hE0)) h6 (alloc_isNode k1 hn2 (by simp) (by simp) (by simp) hE)
    | _ => cases (TM.pure_ok.mp h).2

theorem tcPolyApply_src (hpres : ∀ e, Pres (rec e)) {p a : Expr} (hp : Full Ca M p (rec p)) (ha : Full Ca M a (rec a)) : TySrc Ca M (.polyApply p a) (tcPolyApply n rec p a) := by
  intro s s' x hs h H hE hO
  unfold tcPolyApply at h
  obtain ⟨s1, o1, h1, h⟩ := TM.bind_ok.mp h
  obtain ⟨s2, o2, h2, h⟩ := TM.bind_ok.mp h
  cases o1 with
  | none => cases (TM.pure_ok.mp h).2
  | some r =>
    cases o2 with
    | none => cases (TM.pure_ok.mp h).2
    | some t =>
      have k := hp.now hs h1
      obtain ⟨g1, g2, g3, g4⟩ := exprForType_safe hpres ha.safe _ _ _ k.ok.ok h2
      obtain ⟨_, m2, _⟩ := polyApply_safe (Ca := Ca) g1 (prefix_lt g3 k.lt) h
      have h3 := exprForType_src ha k.ok h2 H ((Ends.prefix m2.heap).trans hE) hO
      rw [k.same] at h3
      exact polyApply_src g1 (prefix_lt g3 k.lt) h hE hO (k.later (g3.trans m2.heap) H hE hO) h3

end
end Verif.Elab
