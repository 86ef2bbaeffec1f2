import Verif.Safe.Rules
import Verif.Safe.Main
import Verif.Elab.Letters
/-
What the type checker accepts has its type by the typing rules of the language.
-/
namespace Verif.Elab
open Types
open Compile (Var Tc Tcs Flds Brs)

theorem vsame_ctx {as bs : List V} (h : All2 VSame as bs) : bs.map (fun v => (v.name, v.type)) = as.map fun v => (v.name, v.type) := by
  induction h with
  | nil => rfl
  | cons h1 _ ih => simp [h1.name, h1.type, ih]

theorem scSames_ctx {σ σ' : List Scope} (h : All2 ScSame σ σ') : ctx σ' = ctx σ := by
  induction h with
  | nil => rfl
  | cons h1 _ ih => simp only [ctx, List.map_append, vsame_ctx h1.locals, vsame_ctx h1.args, ih]

theorem TStep.ctx {s s' : S} (h : TStep s s') : ctx s'.scopes = ctx s.scopes := scSames_ctx h.scopes

structure WOk (s : S) : Prop where
  ok : SOk s
  stat : Stat s.scopes

/-- What is accepted has its type by the rules. -/
def TySrc (Ca : Prop) (M : List Name) (e : Expr) (m : TM (Option (Ptr × Tc))) : Prop :=
  ∀ s s' x, WOk s → m s = .ok (s', some x) → ∀ H, Ends s'.heap H → Closed Ca H → HasTy M H (ctx s.scopes) e x.1

def TySrcT (Ca : Prop) (M : List Name) (e : Expr) (m : TM (Option Ptr)) : Prop :=
  ∀ s s' t, WOk s → m s = .ok (s', some t) → ∀ H, Ends s'.heap H → Closed Ca H → IsTy M H (ctx s.scopes) e t

structure Full (Ca : Prop) (M : List Name) (e : Expr) (m : TM (Option (Ptr × Tc))) : Prop where
  safe : Safe Ca m
  pres : Pres m
  ty : TySrc Ca M e m

structure FullT (Ca : Prop) (M : List Name) (e : Expr) (m : TM (Option Ptr)) : Prop where
  safe : SafeT m
  quiet : Quiet m
  ty : TySrcT Ca M e m

structure Now (Ca : Prop) (M : List Name) (s : S) (e : Expr) (s' : S) (T : Ptr) : Prop where
  ok : WOk s'
  same : ctx s'.scopes = ctx s.scopes
  pre : s.heap <+: s'.heap
  lt : T < s'.heap.length
  ty : ∀ H, Ends s'.heap H → Closed Ca H → HasTy M H (ctx s.scopes) e T

structure NowT (Ca : Prop) (M : List Name) (s : S) (e : Expr) (s' : S) (T : Ptr) : Prop where
  ok : WOk s'
  scopes : s'.scopes = s.scopes
  pre : s.heap <+: s'.heap
  lt : T < s'.heap.length
  ty : ∀ H, Ends s'.heap H → Closed Ca H → IsTy M H (ctx s.scopes) e T

theorem Full.now {Ca M e m} (h : Full Ca M e m) {s s' : S} {x : Ptr × Tc} (hs : WOk s) (hm : m s = .ok (s', some x)) : Now Ca M s e s' x.1 := by
  obtain ⟨k1, k2, k3⟩ := h.safe _ _ _ hs.ok hm
  exact ⟨⟨k1, (h.pres _ _ _ hm).stat hs.stat⟩, k2.ctx, k2.heap, k3.lt, h.ty _ _ _ hs hm⟩

theorem FullT.now {Ca M e m} (h : FullT Ca M e m) {s s' : S} {t : Ptr} (hs : WOk s) (hm : m s = .ok (s', some t)) : NowT Ca M s e s' t := by
  obtain ⟨k1, k2, k3, k4⟩ := h.safe _ _ _ hs.ok hm
  exact ⟨⟨k1, by rw [k2]; exact hs.stat⟩, k2, k3, k4, h.ty _ _ _ hs hm⟩

theorem Now.later {Ca M s e s' T} (h : Now Ca M s e s' T) {h' : Heap} (hp : s'.heap <+: h') : ∀ H, Ends h' H → Closed Ca H → HasTy M H (ctx s.scopes) e T :=
  fun H hE hO => h.ty H ((Ends.prefix hp).trans hE) hO

theorem NowT.later {Ca M s e s' T} (h : NowT Ca M s e s' T) {h' : Heap} (hp : s'.heap <+: h') : ∀ H, Ends h' H → Closed Ca H → IsTy M H (ctx s.scopes) e T :=
  fun H hE hO => h.ty H ((Ends.prefix hp).trans hE) hO

/-- The types were compared before the end. -/
theorem equal_at_end {h : Heap} (hm : MonoHeap h) {n : Nat} {a b : Ptr} (ha : a < h.length) (hb : b < h.length) (he : fbleTypesEqual n h a b = .ok true) {H : Heap} (hE : Ends h H) (hO : Closed Ca H) :
    SameType H [] b a := (typesEqual_same hm ha hb he hE hO.uniform).symm

theorem package_node {h : Heap} (hm : MonoHeap h) {p t : Ptr} {path : List Name} {o : Bool} (hn : NormalTo h p t) (hg : h[p]? = some (.package path o)) {H : Heap} (hE : Ends h H) (hO : Closed Ca H) :
    H[p]? = some (.package path true) ∧ IsNode H t (.package path true) := by
  have hp : H[p]? = some (.package path true) := by
    obtain ⟨n', h1, h2⟩ := hE _ _ hg
    rcases h2 with rfl | ⟨_, _, _, h2, _⟩ | ⟨path', o', h2, rfl⟩
    · rw [h1, hO.all _ _ _ h1]
    · cases h2
    · cases h2; rw [h1, hO.all _ _ _ h1]
  exact ⟨hp, p, (normal_ends hn hE p).mpr (.here (final_normal hp (by simp) rfl (by simp))), hp⟩


theorem abstract_node {h : Heap} (hm : PreHeap h) {a p t : Ptr} (hg : h[a]? = some (.abstract p t)) {H : Heap} (hE : Ends h H) (hO : Closed Ca H) :
    ∃ path o, h[p]? = some (.package path o) ∧ IsAbstract H a path t := by
  obtain ⟨_, path, h1⟩ := hm _ _ hg
  refine ⟨path, _, h1, ⟨p, ?_, ?_⟩⟩
  · obtain ⟨n', h2, h3⟩ := hE _ _ hg
    rcases h3 with rfl | ⟨_, _, _, h3, _⟩ | ⟨_, _, h3, _⟩
    · exact h2
    · cases h3
    · cases h3
  · obtain ⟨n', h2, h3⟩ := hE _ _ h1
    rcases h3 with rfl | ⟨_, _, _, h3, _⟩ | ⟨path', o', h3, rfl⟩
    · rw [h2, hO.all _ _ _ h2]
    · cases h3
    · cases h3; rw [h2, hO.all _ _ _ h2]

theorem get_isNode {h : Heap} (hm : PreHeap h) {p : Ptr} {n : Node} (hg : h[p]? = some n) (hv : ∀ k v, n ≠ .var k v) (hk : ∀ path o, n ≠ .package path o) (ha : ∀ q u, n ≠ .abstract q u) {H : Heap}
    (hE : Ends h H) : IsNode H p n := ends_isNode hE ⟨p, .here (hm.final hg fun k v => hv k (some v)), hg⟩ hv hk ha

theorem dupNames_nodup : {xs : List Name} → dupNames xs = false → xs.Nodup
  | [], _ => .nil
  | x :: xs, h => by
    simp only [dupNames, Bool.or_eq_false_iff, List.any_eq_false] at h
    refine List.nodup_cons.mpr ⟨fun hx => h.1 x hx (namesEqual_iff.mpr rfl), dupNames_nodup h.2⟩

section
variable {M : List Name} {n : Nat} {rec : Rec} {recT : RecT} {Ca : Prop}

/-! ### Variables -/

theorem lookup_ok {x : VarName} {s s' : S} {o : Option V} (hs : WOk s) (h : lookup x s = .ok (s', o)) : ∀ v, o = some v → typeIn (ctx s.scopes) x = some v.type := by
  intro v hv
  subst hv
  unfold lookup at h
  cases hg : getVar x false s.scopes with
  | none => rw [hg] at h; cases h
  | some q =>
    obtain ⟨v', σ⟩ := q
    rw [hg] at h; cases h
    exact ((getVar_types hg).2 hs.stat).2

theorem tcVar_src {x : VarName} {s s' : S} {r : Ptr × Tc} (hs : WOk s) (h : tcVar x s = .ok (s', some r)) : typeIn (ctx s.scopes) x = some r.1 := by
  unfold tcVar at h
  obtain ⟨s1, o, h1, h⟩ := TM.bind_ok.mp h
  have hl := lookup_ok hs h1
  cases o with
  | none =>
    cases x with
    | normal => cases (TM.pure_ok.mp h).2
    | module => exact (TM.crash_ok.mp h).elim
  | some v =>
    rw [hl v rfl]
    simp only at h
    cases hv : v.var with
    | none => rw [hv] at h; cases (TM.pure_ok.mp h).2; rfl
    | some c => rw [hv] at h; cases (TM.pure_ok.mp h).2; rfl

/-! ### Types -/

theorem exprForType_src {e : Expr} (hrec : Full Ca M e (rec e)) {s s' : S} {t : Ptr} (hs : WOk s) (h : exprForType rec e s = .ok (s', some t)) :
    ∀ H, Ends s'.heap H → Closed Ca H → HasTy M H (ctx s.scopes) e t := by
  unfold exprForType at h
  obtain ⟨s1, _, h1, h⟩ := TM.bind_ok.mp h
  unfold pushScope at h1
  cases h1
  obtain ⟨s2, r, h2, h⟩ := TM.bind_ok.mp h
  obtain ⟨s3, sc, h3, h⟩ := TM.bind_ok.mp h
  obtain ⟨rfl, e⟩ := TM.pure_ok.mp h
  cases r with
  | none => cases e
  | some x =>
    cases e
    have hin : WOk { s with scopes := initScope none [] :: s.scopes } :=
      ⟨⟨hs.ok.heap, ⟨⟨by simp [initScope], by simp [initScope, argVars], by simp [initScope], rfl, by simp [initScope, argVars, Scope.vars], by simp [initScope]⟩, hs.ok.scopes⟩, by simp⟩,
        ⟨by simp [initScope], hs.stat⟩⟩
    have e3 : s'.heap = s2.heap := by
      unfold popScope at h3
      split at h3
      · cases h3
      · cases h3; rfl
    intro H hE hO
    rw [e3] at hE
    exact hrec.ty _ _ _ hin h2 H hE hO

theorem exprAsType_src {e : Expr} (hp : ∀ e, Pres (rec e)) (hrec : Full Ca M e (rec e)) : TySrcT Ca M e (exprAsType rec e) := by
  intro s s' t hs h H hE hO
  unfold exprAsType at h
  obtain ⟨s1, o, h1, h⟩ := TM.bind_ok.mp h
  cases o with
  | none => cases (TM.pure_ok.mp h).2
  | some u =>
    obtain ⟨k1, k2, k3, k4⟩ := exprForType_safe hp hrec.safe _ _ _ hs.ok h1
    obtain ⟨rfl, h2⟩ := TM.readH_ok.mp h
    exact .expr (exprForType_src hrec hs h1 H hE hO) (get_isNode k1.heap.nodes (valueOfType_inv h2 rfl) (by simp) (by simp) (by simp) hE)

theorem typeAsExpr_src {e : Expr} (hrec : FullT Ca M e (recT e)) : TySrc Ca M e (typeAsExpr recT e) := by
  intro s s' x hs h H hE hO
  unfold typeAsExpr at h
  obtain ⟨s1, o, h1, h⟩ := TM.bind_ok.mp h
  cases o with
  | none => cases (TM.pure_ok.mp h).2
  | some t =>
    have k := hrec.now hs h1
    have h := TM.alloc_bind.mp h
    obtain ⟨rfl, e⟩ := TM.pure_ok.mp h
    cases e
    exact .type (k.later (new_prefix _ _) H hE hO) (alloc_isNode (n := .type t) k.ok.ok k.lt (by simp) (by simp) (by simp) hE)

theorem tcFuncType_src {a r : Expr} (ha : FullT Ca M a (recT a)) (hr : FullT Ca M r (recT r)) : TySrcT Ca M (.funcType a r) (tcFuncType recT a r) := by
  intro s s' x hs h H hE hO
  unfold tcFuncType at h
  obtain ⟨s1, o1, h1, h⟩ := TM.bind_ok.mp h
  obtain ⟨s2, o2, h2, h⟩ := TM.bind_ok.mp h
  cases o1 with
  | none => cases (TM.pure_ok.mp h).2
  | some t1 =>
    cases o2 with
    | none => cases (TM.pure_ok.mp h).2
    | some t2 =>
      have k := ha.now hs h1
      have g := hr.now k.ok h2
      have h := TM.alloc_bind.mp h
      obtain ⟨rfl, e⟩ := TM.pure_ok.mp h
      cases e
      have hb := g.later (new_prefix _ _) H hE hO
      rw [k.scopes] at hb
      exact .funcType (k.later (g.pre.trans (new_prefix _ _)) H hE hO) hb (alloc_isNode (n := .func t1 t2) g.ok.ok ⟨prefix_lt g.pre k.lt, g.lt⟩ (by simp) (by simp) (by simp) hE)

theorem dataFields_src : (fs : List (Name × Expr)) → (prev : List Name) → (∀ f ∈ fs, FullT Ca M f.2 (recT f.2)) → {s s' : S} → {r : List (Name × Ptr)} → WOk s →
    dataFields n recT prev fs s = .ok (s', some r) → s.heap <+: s'.heap ∧ ∀ H, Ends s'.heap H → Closed Ca H → FieldsTy M H (ctx s.scopes) fs r
  | [], prev, _, s, s', r, hs, h => by
    unfold dataFields at h
    obtain ⟨rfl, e⟩ := TM.pure_ok.mp h
    cases e
    exact ⟨List.prefix_rfl, fun H hE hO => .nil⟩
  | (x, e) :: fs, prev, hf, s, s', r, hs, h => by
    unfold dataFields at h
    obtain ⟨s1, o, h1, h⟩ := TM.bind_ok.mp h
    cases o with
    | none => cases (TM.pure_ok.mp h).2
    | some t =>
      have k := (hf (x, e) (by simp)).now hs h1
      unfold checkNameSpace at h
      obtain ⟨b, _, h⟩ := TM.readH_bind.mp h
      cases b with
      | false => cases (TM.pure_ok.mp h).2
      | true =>
        simp only [Bool.not_true, Bool.false_eq_true, if_false] at h
        split at h
        · cases (TM.pure_ok.mp h).2
        · obtain ⟨s3, o, h3, h⟩ := TM.bind_ok.mp h
          cases o with
          | none => cases (TM.pure_ok.mp h).2
          | some r' =>
            obtain ⟨g1, g2⟩ := dataFields_src fs _ (fun f hf' => hf f (by simp [hf'])) k.ok h3
            obtain ⟨rfl, e⟩ := TM.pure_ok.mp h
            cases e
            refine ⟨k.pre.trans g1, fun H hE hO => .cons (k.later g1 H hE hO) ?_⟩
            rw [← k.scopes]; exact g2 H hE hO

/-! ### Several expressions -/

structure NowAll (Ca : Prop) (M : List Name) (s : S) (es : List Expr) (s' : S) (Ts : List Ptr) : Prop where
  ok : WOk s'
  same : ctx s'.scopes = ctx s.scopes
  pre : s.heap <+: s'.heap
  lt : ∀ T ∈ Ts, T < s'.heap.length
  ty : ∀ H, Ends s'.heap H → Closed Ca H → HasTys M H (ctx s.scopes) es Ts

theorem tcEach_src : (es : List Expr) → (∀ e ∈ es, Full Ca M e (rec e)) → {s s' : S} → {rs : List (Option (Ptr × Tc))} → {xs : List (Ptr × Tc)} → WOk s →
    tcEach rec es s = .ok (s', rs) → allSome rs = some xs → NowAll Ca M s es s' (xs.map (·.1))
  | [], _, s, s', rs, xs, hs, h, hx => by
    unfold tcEach at h
    obtain ⟨rfl, rfl⟩ := TM.pure_ok.mp h
    cases hx
    exact ⟨hs, rfl, List.prefix_rfl, by simp, fun _ _ _ => .nil⟩
  | e :: es, he, s, s', rs, xs, hs, h, hx => by
    unfold tcEach at h
    obtain ⟨s1, r, h1, h⟩ := TM.bind_ok.mp h
    obtain ⟨s2, rs', h2, h⟩ := TM.bind_ok.mp h
    obtain ⟨rfl, rfl⟩ := TM.pure_ok.mp h
    cases r with
    | none => simp [allSome] at hx
    | some r =>
      simp only [allSome] at hx
      cases hq : allSome rs' with
      | none => rw [hq] at hx; simp at hx
      | some q =>
        rw [hq] at hx; simp at hx; subst hx
        have k := (he e (by simp)).now hs h1
        have g := tcEach_src es (fun e' h' => he e' (by simp [h'])) k.ok h2 hq
        refine ⟨g.ok, g.same.trans k.same, k.pre.trans g.pre, ?_, fun H hE hO => .cons (k.later g.pre H hE hO) ?_⟩
        · simp only [List.map_cons, List.mem_cons, forall_eq_or_imp]
          exact ⟨prefix_lt g.pre k.lt, g.lt⟩
        · rw [← k.same]; exact g.ty H hE hO

theorem HasTys.append {H Γ} : {es es' : List Expr} → {Ts Ts' : List Ptr} → HasTys M H Γ es Ts → HasTys M H Γ es' Ts' → HasTys M H Γ (es ++ es') (Ts ++ Ts')
  | _, _, _, _, .nil, h => h
  | _, _, _, _, .cons h1 h2, h => .cons h1 (h2.append h)

theorem HasTys.reverse {H Γ} : {es : List Expr} → {Ts : List Ptr} → HasTys M H Γ es Ts → HasTys M H Γ es.reverse Ts.reverse
  | _, _, .nil => .nil
  | _, _, .cons h1 h2 => by
    simp only [List.reverse_cons]
    exact h2.reverse.append (.cons h1 .nil)

theorem tcEach_reverse_src {es : List Expr} (he : ∀ e ∈ es, Full Ca M e (rec e)) {s s' : S} {rs : List (Option (Ptr × Tc))} {xs : List (Ptr × Tc)} (hs : WOk s)
    (h : tcEach rec es.reverse s = .ok (s', rs)) (hx : allSome rs.reverse = some xs) : NowAll Ca M s es s' (xs.map (·.1)) := by
  have h1 : rs = (xs.reverse).map some := by
    have := congrArg List.reverse (allSome_map hx)
    simpa using this
  have k := tcEach_src es.reverse (fun e h' => he e (List.mem_reverse.mp h')) (xs := xs.reverse) hs h (by rw [h1]; exact allSome_of_map _)
  refine ⟨k.ok, k.same, k.pre, fun T hT => k.lt T (by simpa using hT), fun H hE hO => ?_⟩
  have := (k.ty H hE hO).reverse
  simpa using this

theorem NowAll.later {s s' : S} {es Ts} (h : NowAll Ca M s es s' Ts) {h' : Heap} (hp : s'.heap <+: h') : ∀ H, Ends h' H → Closed Ca H → HasTys M H (ctx s.scopes) es Ts :=
  fun H hE hO => h.ty H ((Ends.prefix hp).trans hE) hO

/-! ### Structs -/

theorem tcStruct_src {args : Tagged} (he : ∀ a ∈ args.toList, Full Ca M a.2 (rec a.2)) : TySrc Ca M (.structImplicit args) (tcStruct n rec args.toList) := by
  intro s s' x hs h H hE hO
  unfold tcStruct at h
  obtain ⟨s1, rs, h1, h⟩ := TM.bind_ok.mp h
  obtain ⟨s2, ok, h2, h⟩ := TM.bind_ok.mp h
  have e2 := checkNames_ok _ h2
  rw [e2] at h
  cases hx : allSome rs.reverse with
  | none => simp only [hx] at h; cases (TM.pure_ok.mp h).2
  | some xs =>
    simp only [hx] at h
    split at h
    · cases (TM.pure_ok.mp h).2
    · rename_i hc
      simp only [Bool.or_eq_true, not_or, Bool.not_eq_true] at hc
      have k := tcEach_reverse_src (es := args.toList.map (·.2)) (fun e h => by obtain ⟨a, ha, rfl⟩ := List.mem_map.mp h; exact he a ha) hs h1 hx
      have h := TM.alloc_bind.mp h
      obtain ⟨rfl, e⟩ := TM.pure_ok.mp h
      cases e
      have hn : NodeIn s1.heap (.data .struct ((args.toList.map (·.1)).zip (xs.map (·.1)))) := by
        intro f hf
        exact k.lt _ (List.of_mem_zip hf).2
      exact .structImplicit (k.later (new_prefix _ _) H hE hO) (alloc_isNode k.ok.ok hn (by simp) (by simp) (by simp) hE) (dupNames_nodup hc.2)

theorem copyLoop_src {H : Heap} {Γ : Ctx} : (fs : List (Name × Ptr)) → (as : List (Name × Expr)) → (rs : List (Ptr × Tc)) → {s s' : S} → {fl : Flds} → MonoHeap s.heap → Ends s.heap H → Closed Ca H →
    (∀ f ∈ fs, f.2 < s.heap.length) → (∀ r ∈ rs, r.1 < s.heap.length) → HasTys M H Γ (as.map (·.2)) (rs.map (·.1)) →
    copyLoop n fs ((as.map (·.1)).zip (rs.map some)) s = .ok (s', (fl, true)) → SetsTy M H Γ fs as
  | [], [], rs, s, s', fl, hs, hE, hO, hf, hr, ht, h => .nil
  | [], a :: as, r :: rs, s, s', fl, hs, hE, hO, hf, hr, ht, h => by
    unfold copyLoop at h
    obtain ⟨_, hpe⟩ := TM.pure_ok.mp h
    simp at hpe
  | (x, ft) :: fs, (y, e) :: as, (t, tc) :: rs, s, s', fl, hs, hE, hO, hf, hr, ht, h => by
    unfold copyLoop at h
    simp only [List.map_cons, List.zip_cons_cons] at h
    split at h
    · rename_i hxy
      rw [namesEqual_iff] at hxy
      subst hxy
      obtain ⟨eq, h1, h⟩ := TM.readH_bind.mp h
      obtain ⟨s2, ⟨fl2, ok⟩, h2, h⟩ := TM.bind_ok.mp h
      obtain ⟨rfl, hpe⟩ := TM.pure_ok.mp h
      obtain ⟨hf1, hb⟩ := Prod.mk.inj hpe
      simp only [Bool.true_eq, Bool.and_eq_true] at hb
      obtain ⟨rfl, rfl⟩ := hb
      cases ht with
      | cons ht1 ht2 =>
        exact .set (.conv ht1 (equal_at_end hs (hf (y, ft) (by simp)) (hr (t, tc) (by simp)) h1 hE hO))
          (copyLoop_src fs as rs hs hE hO (fun f hf' => hf f (by simp [hf'])) (fun r hr' => hr r (by simp [hr'])) ht2 h2)
    · obtain ⟨s2, ⟨fl2, ok⟩, h2, h⟩ := TM.bind_ok.mp h
      obtain ⟨rfl, h⟩ := TM.pure_ok.mp h
      simp at h
      obtain ⟨rfl, rfl⟩ := h
      exact .keep (copyLoop_src fs ((y, e) :: as) ((t, tc) :: rs) hs hE hO (fun f hf' => hf f (by simp [hf'])) hr ht (by simpa using h2))
  | (x, ft) :: fs, [], rs, s, s', fl, hs, hE, hO, hf, hr, ht, h => by
    simp only [List.map_nil, List.zip_nil_left] at h
    unfold copyLoop at h
    obtain ⟨s2, ⟨fl2, ok⟩, h2, h⟩ := TM.bind_ok.mp h
    obtain ⟨rfl, h⟩ := TM.pure_ok.mp h
    simp at h
    obtain ⟨rfl, rfl⟩ := h
    exact .keep (copyLoop_src fs [] rs hs hE hO (fun f hf' => hf f (by simp [hf'])) hr ht (by simpa using h2))
  | [], _ :: _, [], _, _, _, _, _, _, _, _, ht, _ => by cases ht
  | _ :: _, _ :: _, [], _, _, _, _, _, _, _, _, ht, _ => by cases ht

theorem copyLoop_state : (fs : List (Name × Ptr)) → (as : List (Name × Option (Ptr × Tc))) → {s s' : S} → {r : Flds × Bool} → copyLoop n fs as s = .ok (s', r) → s' = s
  | [], as, s, s', r, h => by unfold copyLoop at h; exact (TM.pure_ok.mp h).1
  | (x, ft) :: fs, (y, o) :: as, s, s', r, h => by
    unfold copyLoop at h
    split at h
    · cases o with
      | none => exact (TM.crash_ok.mp h).elim
      | some q =>
        obtain ⟨t, tc⟩ := q
        obtain ⟨eq, h1, h⟩ := TM.readH_bind.mp h
        obtain ⟨s2, _, h2, h⟩ := TM.bind_ok.mp h
        rw [(TM.pure_ok.mp h).1]; exact copyLoop_state fs as h2
    · obtain ⟨s2, _, h2, h⟩ := TM.bind_ok.mp h
      rw [(TM.pure_ok.mp h).1]; exact copyLoop_state fs _ h2
  | (x, ft) :: fs, [], s, s', r, h => by
    unfold copyLoop at h
    obtain ⟨s2, _, h2, h⟩ := TM.bind_ok.mp h
    rw [(TM.pure_ok.mp h).1]; exact copyLoop_state fs _ h2

theorem tcCopy_src {src : Expr} {args : Tagged} (hsrc : Full Ca M src (rec src)) (he : ∀ a ∈ args.toList, Full Ca M a.2 (rec a.2)) :
    TySrc Ca M (.structCopy src args) (tcCopy n rec src args.toList) := by
  intro s s' x hs h H hE hO
  unfold tcCopy at h
  obtain ⟨s1, o, h1, h⟩ := TM.bind_ok.mp h
  cases o with
  | none => cases (TM.pure_ok.mp h).2
  | some r =>
    obtain ⟨st, stc⟩ := r
    have k := hsrc.now hs h1
    simp only at h
    obtain ⟨hh, nt, h2, h⟩ := TM.liftH_bind.mp h
    obtain ⟨e, hn, hlt⟩ := normalType_mono k.ok.ok.heap.nodes k.lt h2
    subst e
    obtain ⟨m, h3, h⟩ := TM.readH_bind.mp h
    rw [Elab.get_ok] at h3
    simp only at h3
    split at h
    · rename_i fields
      obtain ⟨s2, rs, h4, h⟩ := TM.bind_ok.mp h
      obtain ⟨s3, ⟨fl, ok⟩, h5, h⟩ := TM.bind_ok.mp h
      simp only at h
      split at h
      · cases (TM.pure_ok.mp h).2
      · rename_i hc
        simp only [Bool.or_eq_true, Bool.not_eq_true', not_or, Bool.not_eq_false] at hc
        obtain ⟨rfl, hc⟩ := hc
        cases hx : allSome rs.reverse with
        | none => rw [hx] at hc; simp at hc
        | some xs =>
          have g := tcEach_reverse_src (es := args.toList.map (·.2)) (fun e h => by obtain ⟨a, ha, rfl⟩ := List.mem_map.mp h; exact he a ha) k.ok h4 hx
          have hfl : ∀ f ∈ fields, f.2 < s2.heap.length := fun f hf => prefix_lt g.pre (k.ok.ok.heap.nodes _ _ h3 f hf)
          rw [allSome_map hx] at h5
          have hp3 : s3 = s2 := copyLoop_state fields _ h5
          obtain ⟨e4, e⟩ := TM.pure_ok.mp h
          rw [hp3] at e4
          subst e4
          cases e
          have hE' := (Ends.prefix g.pre).trans hE
          have hty := g.ty H hE hO
          rw [k.same] at hty
          have hnode := isNode_of_get k.ok.ok.heap hn h3 (by simp) (by simp) (by simp) hE'
          exact .conv (.structCopy (k.later g.pre H hE hO) hnode (copyLoop_src fields args.toList xs g.ok.ok.heap hE hO hfl (fun r hr => g.lt _ (List.mem_map_of_mem hr)) hty h5)) (normal_same hn hE')
    · cases (TM.pure_ok.mp h).2

end
end Verif.Elab
