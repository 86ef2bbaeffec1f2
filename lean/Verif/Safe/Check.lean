import Verif.Safe.Scope
import Verif.Elab.Ran
/-
Expressions that the type checker accepts have the type it gives them.
-/
namespace Verif.Elab
open Types
open Compile (Var Tc Tcs Flds Brs)

/-- The types of the variables of the innermost scope. -/
def tenvs : List Scope → TEnv
  | [] => ⟨[], [], []⟩
  | sc :: _ => tenv sc

/-- The states of the type checker while it checks code that is not polymorphic. -/
structure SOk (s : S) : Prop where
  heap : MonoHeap s.heap
  scopes : ScsOk s.heap.length s.scopes
  ne : s.scopes ≠ []

structure TStep (s s' : S) : Prop where
  heap : s.heap <+: s'.heap
  scopes : All2 ScSame s.scopes s'.scopes

theorem TStep.refl (s : S) : TStep s s := ⟨List.prefix_rfl, scSames_refl _⟩
theorem TStep.trans {a b c : S} (h : TStep a b) (h' : TStep b c) : TStep a c :=
  ⟨h.heap.trans h'.heap, All2.trans (R := ScSame) (fun _ _ _ h h' => ScSame.trans h h') h.scopes h'.scopes⟩

theorem TStep.le {s s' : S} (h : TStep s s') : TEnv.Le (tenvs s.scopes) (tenvs s'.scopes) := by
  have := h.scopes
  generalize s.scopes = σ at this
  generalize s'.scopes = σ' at this
  cases this with
  | nil => exact .refl _
  | cons h1 _ => exact h1.le

/-- The expression will have that type at the end. -/
structure Typed (Ca : Prop) (s : S) (x : Ptr × Tc) : Prop where
  lt : x.1 < s.heap.length
  ty : ∀ H, Ends s.heap H → Opened Ca H → TcTy H (tenvs s.scopes) x.2 x.1

theorem Typed.step {s s' : S} {x : Ptr × Tc} (h : Typed Ca s x) (hs : TStep s s') : Typed Ca s' x :=
  ⟨prefix_lt hs.heap h.lt, fun H hE hO => TcTy.mono _ hs.le (h.ty H ((Ends.prefix hs.heap).trans hE) hO)⟩

/-- What is accepted has its type. -/
def Safe (Ca : Prop) (m : TM (Option (Ptr × Tc))) : Prop := ∀ s s' x, SOk s → m s = .ok (s', some x) → SOk s' ∧ TStep s s' ∧ Typed Ca s' x

/-- What is accepted is a type. -/
def SafeT (m : TM (Option Ptr)) : Prop := ∀ s s' t, SOk s → m s = .ok (s', some t) → SOk s' ∧ s'.scopes = s.scopes ∧ s.heap <+: s'.heap ∧ t < s'.heap.length

theorem step_quiet {s s' : S} (h1 : s'.scopes = s.scopes) (h2 : s.heap <+: s'.heap) : TStep s s' := ⟨h2, by rw [h1]; exact scSames_refl _⟩

theorem SOk.withHeap {s : S} (h : SOk s) {h' : Heap} (hp : s.heap <+: h') (hm : MonoHeap h') : SOk { s with heap := h' } := ⟨hm, h.scopes.mono hp.length_le, h.ne⟩

theorem SOk.alloc {s : S} (h : SOk s) {n : Node} (hn : NodeIn s.heap n) (hv : ∀ k w, n ≠ .var k (some w)) : SOk { s with heap := (new s.heap n).1 } :=
  h.withHeap (new_prefix _ _) (h.heap.new hn hv)

theorem step_alloc (s : S) (n : Node) : TStep s { s with heap := (new s.heap n).1 } := step_quiet rfl (new_prefix _ _)

theorem alloc_isNode {s : S} (h : SOk s) {n : Node} (hn : NodeIn s.heap n) (hv : ∀ k w, n ≠ .var k w) (hk : ∀ path o, n ≠ .package path o) (ha : ∀ q u, n ≠ .abstract q u) {H : Heap}
    (hE : Ends (new s.heap n).1 H) : IsNode H (new s.heap n).2 n := by
  have hm := h.heap.new hn fun k w => hv k (some w)
  refine ends_isNode hE ⟨_, .here (hm.nodes.final (new_get _ _) fun k w => hv k (some w)), new_get _ _⟩ hv hk ha

theorem isNode_of_get {h : Heap} (hm : MonoHeap h) {t p : Ptr} {n : Node} (hn : NormalTo h p t) (hg : h[p]? = some n) (hv : ∀ k w, n ≠ .var k w) (hk : ∀ path o, n ≠ .package path o)
    (ha : ∀ q u, n ≠ .abstract q u) {H : Heap} (hE : Ends h H) : IsNode H t n := ends_isNode hE (normal_isNode hm.nodes hn hg) hv hk ha

section
variable {M : List Name} {n : Nat} {rec : Rec} {recT : RecT} {P : Expr → Prop}

/-! ### Variables -/

theorem tcVar_safe (x : VarName) : Safe Ca (tcVar x) := by
  intro s s' r hs h
  unfold tcVar at h
  obtain ⟨s1, o, h1, h⟩ := TM.bind_ok.mp h
  unfold lookup at h1
  cases hg : getVar x false s.scopes with
  | none =>
    rw [hg] at h1; cases h1
    cases x with
    | normal => cases (TM.pure_ok.mp h).2
    | module => exact (TM.crash_ok.mp h).elim
  | some q =>
    obtain ⟨v, σ⟩ := q
    rw [hg] at h1; cases h1
    obtain ⟨g1, g2, g3, c, g4, g5⟩ := getVar_same hg hs.scopes
    simp only [g4] at h
    obtain ⟨rfl, e⟩ := TM.pure_ok.mp h
    cases e
    obtain ⟨sc, rest, rfl, g6⟩ := g5 rfl
    refine ⟨⟨hs.heap, g2, by simp⟩, ⟨List.prefix_rfl, g1⟩, g3, fun H hE hO => ?_⟩
    simp only [TcTy]
    exact ⟨_, g6, sameType_refl⟩

/-! ### Types -/

theorem exprForType_safe (hp : ∀ e, Pres (rec e)) {e : Expr} (hrec : Safe Ca (rec e)) : SafeT (exprForType rec e) := by
  intro s s' t hs h
  have hq := (exprForType_quiet hp e _ _ _ h).1
  unfold exprForType at h
  obtain ⟨s1, _, h1, h⟩ := TM.bind_ok.mp h
  unfold pushScope at h1
  cases h1
  obtain ⟨s2, r, h2, h⟩ := TM.bind_ok.mp h
  obtain ⟨s3, sc, h3, h⟩ := TM.bind_ok.mp h
  obtain ⟨rfl, e⟩ := TM.pure_ok.mp h
  cases r with
  | none => cases e
  | some x =>
    cases e
    have hin : SOk { s with scopes := initScope none [] :: s.scopes } :=
      ⟨hs.heap, ⟨⟨by simp [initScope], by simp [initScope, argVars], by simp [initScope], rfl, by simp [initScope, argVars, Scope.vars], by simp [initScope]⟩, hs.scopes⟩, by simp⟩
    obtain ⟨k1, k2, k3⟩ := hrec _ _ _ hin h2
    have e3 : s'.heap = s2.heap := by
      unfold popScope at h3
      split at h3
      · cases h3
      · cases h3; rfl
    have hp2 : s.heap <+: s'.heap := by rw [e3]; exact k2.heap
    refine ⟨⟨by rw [e3]; exact k1.heap, by rw [hq]; exact hs.scopes.mono hp2.length_le, by rw [hq]; exact hs.ne⟩, hq, hp2, by rw [e3]; exact k3.lt⟩

theorem exprAsType_safe (hp : ∀ e, Pres (rec e)) {e : Expr} (hrec : Safe Ca (rec e)) : SafeT (exprAsType rec e) := by
  intro s s' t hs h
  unfold exprAsType at h
  obtain ⟨s1, o, h1, h⟩ := TM.bind_ok.mp h
  cases o with
  | none => cases (TM.pure_ok.mp h).2
  | some u =>
    obtain ⟨k1, k2, k3, k4⟩ := exprForType_safe hp hrec _ _ _ hs h1
    obtain ⟨rfl, h2⟩ := TM.readH_ok.mp h
    exact ⟨k1, k2, k3, k1.heap.nodes _ _ (valueOfType_inv h2 rfl)⟩

theorem typeAsExpr_safe {e : Expr} (hrec : SafeT (recT e)) : Safe Ca (typeAsExpr recT e) := by
  intro s s' x hs h
  unfold typeAsExpr at h
  obtain ⟨s1, o, h1, h⟩ := TM.bind_ok.mp h
  cases o with
  | none => cases (TM.pure_ok.mp h).2
  | some t =>
    obtain ⟨k1, k2, k3, k4⟩ := hrec _ _ _ hs h1
    have h := TM.alloc_bind.mp h
    obtain ⟨rfl, e⟩ := TM.pure_ok.mp h
    cases e
    refine ⟨k1.alloc k4 (by simp), (step_quiet k2 k3).trans (step_alloc _ _), new_lt _ _, fun H hE hO => ?_⟩
    simp only [TcTy]
    exact ⟨t, alloc_isNode (n := .type t) k1 k4 (by simp) (by simp) (by simp) hE⟩

theorem tcFuncType_safe {a r : Expr} (ha : SafeT (recT a)) (hr : SafeT (recT r)) : SafeT (tcFuncType recT a r) := by
  intro s s' x hs h
  unfold tcFuncType at h
  obtain ⟨s1, o1, h1, h⟩ := TM.bind_ok.mp h
  obtain ⟨s2, o2, h2, h⟩ := TM.bind_ok.mp h
  cases o1 with
  | none => cases (TM.pure_ok.mp h).2
  | some t1 =>
    cases o2 with
    | none => cases (TM.pure_ok.mp h).2
    | some t2 =>
      obtain ⟨k1, k2, k3, k4⟩ := ha _ _ _ hs h1
      obtain ⟨g1, g2, g3, g4⟩ := hr _ _ _ k1 h2
      have h := TM.alloc_bind.mp h
      obtain ⟨rfl, e⟩ := TM.pure_ok.mp h
      cases e
      exact ⟨g1.alloc ⟨prefix_lt g3 k4, g4⟩ (by simp), g2.trans k2, (k3.trans g3).trans (new_prefix _ _), new_lt _ _⟩

theorem dataFields_safe : (fs : List (Name × Expr)) → (prev : List Name) → (∀ f ∈ fs, SafeT (recT f.2)) → {s s' : S} → {r : List (Name × Ptr)} → SOk s →
    dataFields n recT prev fs s = .ok (s', some r) → SOk s' ∧ s'.scopes = s.scopes ∧ s.heap <+: s'.heap ∧ ∀ f ∈ r, f.2 < s'.heap.length
  | [], prev, _, s, s', r, hs, h => by
    unfold dataFields at h
    obtain ⟨rfl, e⟩ := TM.pure_ok.mp h
    cases e
    exact ⟨hs, rfl, List.prefix_rfl, by simp⟩
  | (x, e) :: fs, prev, hf, s, s', r, hs, h => by
    unfold dataFields at h
    obtain ⟨s1, o, h1, h⟩ := TM.bind_ok.mp h
    cases o with
    | none => cases (TM.pure_ok.mp h).2
    | some t =>
      obtain ⟨k1, k2, k3, k4⟩ := hf (x, e) (by simp) _ _ _ hs h1
      unfold checkNameSpace at h
      obtain ⟨b, _, h⟩ := TM.readH_bind.mp h
      cases b with
      | false => cases (TM.pure_ok.mp h).2
      | true =>
        simp only [Bool.not_true, Bool.false_eq_true, if_false] at h
        split at h
        · cases (TM.pure_ok.mp h).2
        · obtain ⟨s3, o, h3, h⟩ := TM.bind_ok.mp h
          cases o with
          | none => cases (TM.pure_ok.mp h).2
          | some r' =>
            obtain ⟨g1, g2, g3, g4⟩ := dataFields_safe fs _ (fun f hf' => hf f (by simp [hf'])) k1 h3
            obtain ⟨rfl, e⟩ := TM.pure_ok.mp h
            cases e
            refine ⟨g1, g2.trans k2, k3.trans g3, ?_⟩
            simp only [List.mem_cons, forall_eq_or_imp]
            exact ⟨prefix_lt g3 k4, g4⟩

/-! ### Several expressions -/

theorem tcsTy_of {s : S} {xs : List (Ptr × Tc)} (h : ∀ x ∈ xs, Typed Ca s x) {H : Heap} (hE : Ends s.heap H) (hO : Opened Ca H) :
    TcsTy H (tenvs s.scopes) (toTcs (xs.map (·.2))) (xs.map (·.1)) := by
  induction xs with
  | nil => simp [toTcs, TcsTy]
  | cons x xs ih =>
    simp only [List.map_cons, toTcs, TcsTy]
    exact ⟨_, _, rfl, (h x (by simp)).ty H hE hO, ih fun y hy => h y (by simp [hy])⟩

theorem tcEach_safe : (es : List Expr) → (∀ e ∈ es, Safe Ca (rec e)) → {s s' : S} → {rs : List (Option (Ptr × Tc))} → {xs : List (Ptr × Tc)} → SOk s →
    tcEach rec es s = .ok (s', rs) → allSome rs = some xs → SOk s' ∧ TStep s s' ∧ ∀ x ∈ xs, Typed Ca s' x
  | [], _, s, s', rs, xs, hs, h, hx => by
    unfold tcEach at h
    obtain ⟨rfl, rfl⟩ := TM.pure_ok.mp h
    cases hx
    exact ⟨hs, .refl _, by simp⟩
  | e :: es, he, s, s', rs, xs, hs, h, hx => by
    unfold tcEach at h
    obtain ⟨s1, r, h1, h⟩ := TM.bind_ok.mp h
    obtain ⟨s2, rs', h2, h⟩ := TM.bind_ok.mp h
    obtain ⟨rfl, rfl⟩ := TM.pure_ok.mp h
    cases r with
    | none => simp [allSome] at hx
    | some r =>
      simp only [allSome] at hx
      cases hq : allSome rs' with
      | none => rw [hq] at hx; simp at hx
      | some q =>
        rw [hq] at hx; simp at hx; subst hx
        obtain ⟨k1, k2, k3⟩ := he e (by simp) _ _ _ hs h1
        obtain ⟨g1, g2, g3⟩ := tcEach_safe es (fun e' h' => he e' (by simp [h'])) k1 h2 hq
        refine ⟨g1, k2.trans g2, ?_⟩
        simp only [List.mem_cons, forall_eq_or_imp]
        exact ⟨k3.step g2, g3⟩

theorem tcEach_reverse_safe {es : List Expr} (he : ∀ e ∈ es, Safe Ca (rec e)) {s s' : S} {rs : List (Option (Ptr × Tc))} {xs : List (Ptr × Tc)} (hs : SOk s)
    (h : tcEach rec es.reverse s = .ok (s', rs)) (hx : allSome rs.reverse = some xs) : SOk s' ∧ TStep s s' ∧ ∀ x ∈ xs, Typed Ca s' x := by
  have h1 : rs = (xs.reverse).map some := by
    have := congrArg List.reverse (allSome_map hx)
    simpa using this
  obtain ⟨k1, k2, k3⟩ := tcEach_safe es.reverse (fun e h' => he e (List.mem_reverse.mp h')) (xs := xs.reverse) hs h (by rw [h1]; exact allSome_of_map _)
  exact ⟨k1, k2, fun x hx => k3 x (List.mem_reverse.mpr hx)⟩

theorem checkNames_ok : (rs : List (Name × Option (Ptr × Tc))) → {s s' : S} → {b : Bool} → checkNames n rs s = .ok (s', b) → s' = s
  | [], s, s', b, h => by unfold checkNames at h; exact (TM.pure_ok.mp h).1
  | (_, none) :: rs, s, s', b, h => by
    unfold checkNames at h
    obtain ⟨s1, b1, h1, h⟩ := TM.bind_ok.mp h
    rw [(TM.pure_ok.mp h).1]; exact checkNames_ok rs h1
  | (x, some (t, _)) :: rs, s, s', b, h => by
    unfold checkNames at h
    obtain ⟨s1, b1, h1, h⟩ := TM.bind_ok.mp h
    obtain ⟨s2, b2, h2, h⟩ := TM.bind_ok.mp h
    rw [(TM.pure_ok.mp h).1, checkNames_ok rs h2]
    exact (TM.readH_ok.mp h1).1

/-! ### Structs -/

theorem zip_snd {α β : Type} : (xs : List α) → (ys : List β) → xs.length = ys.length → (xs.zip ys).map (·.2) = ys
  | [], [], _ => rfl
  | x :: xs, y :: ys, h => by simp [zip_snd xs ys (by simpa using h)]

theorem tcStruct_safe {args : List (Name × Expr)} (he : ∀ a ∈ args, Safe Ca (rec a.2)) : Safe Ca (tcStruct n rec args) := by
  intro s s' x hs h
  unfold tcStruct at h
  obtain ⟨s1, rs, h1, h⟩ := TM.bind_ok.mp h
  obtain ⟨s2, ok, h2, h⟩ := TM.bind_ok.mp h
  have e2 := checkNames_ok _ h2
  rw [e2] at h
  cases hx : allSome rs.reverse with
  | none => simp only [hx] at h; cases (TM.pure_ok.mp h).2
  | some xs =>
    simp only [hx] at h
    split at h
    · cases (TM.pure_ok.mp h).2
    · obtain ⟨k1, k2, k3⟩ := tcEach_reverse_safe (es := args.map (·.2)) (fun e h => by obtain ⟨a, ha, rfl⟩ := List.mem_map.mp h; exact he a ha) hs h1 hx
      have hlen : (args.map (·.1)).length = (xs.map (·.1)).length := by
        have h4 := tcEach_length _ h1
        have h5 := allSome_map hx
        have h6 := congrArg List.length h5
        simp at h4 h6 ⊢; omega
      have h := TM.alloc_bind.mp h
      obtain ⟨rfl, e⟩ := TM.pure_ok.mp h
      cases e
      have hn : NodeIn s1.heap (.data .struct ((args.map (·.1)).zip (xs.map (·.1)))) := by
        intro f hf
        have := List.of_mem_zip hf
        obtain ⟨y, hy, e⟩ := List.mem_map.mp this.2
        rw [← e]; exact (k3 y hy).lt
      refine ⟨k1.alloc hn (by simp), k2.trans (step_alloc _ _), new_lt _ _, fun H hE hO => ?_⟩
      simp only [TcTy]
      refine ⟨_, alloc_isNode k1 hn (by simp) (by simp) (by simp) hE, ?_⟩
      rw [zip_snd _ _ hlen]
      exact tcsTy_of (s := { s1 with heap := (new s1.heap (.data .struct ((args.map (·.1)).zip (xs.map (·.1))))).1 }) (fun x hx => (k3 x hx).step (step_alloc _ _)) hE hO

theorem copyLoop_safe : (fs : List (Name × Ptr)) → (xs : List Name) → (rs : List (Ptr × Tc)) → {s s' : S} → {fl : Flds} → SOk s → (∀ f ∈ fs, f.2 < s.heap.length) → (∀ r ∈ rs, Typed Ca s r) →
    copyLoop n fs (xs.zip (rs.map some)) s = .ok (s', (fl, true)) → s' = s ∧ ∀ H, Ends s.heap H → Opened Ca H → FldsTy H (tenvs s.scopes) fl (fs.map (·.2))
  | [], xs, rs, s, s', fl, hs, hf, hr, h => by
    unfold copyLoop at h
    obtain ⟨rfl, hpe⟩ := TM.pure_ok.mp h
    obtain ⟨rfl, _⟩ := Prod.mk.inj hpe
    exact ⟨rfl, fun H hE hO => by simp [FldsTy]⟩
  | (x, ft) :: fs, y :: ys, (t, tc) :: rs, s, s', fl, hs, hf, hr, h => by
    unfold copyLoop at h
    simp only [List.map_cons, List.zip_cons_cons] at h ⊢
    split at h
    · obtain ⟨eq, h1, h⟩ := TM.readH_bind.mp h
      obtain ⟨s2, ⟨fl2, ok⟩, h2, h⟩ := TM.bind_ok.mp h
      obtain ⟨rfl, hpe⟩ := TM.pure_ok.mp h
      obtain ⟨hf1, hb⟩ := Prod.mk.inj hpe
      simp only [Bool.true_eq, Bool.and_eq_true] at hb
      obtain ⟨rfl, rfl⟩ := hb
      subst hf1
      obtain ⟨e, k⟩ := copyLoop_safe fs ys rs hs (fun f hf' => hf f (by simp [hf'])) (fun r hr' => hr r (by simp [hr'])) h2
      refine ⟨e, fun H hE hO => ?_⟩
      simp only [FldsTy]
      have ht := hr (t, tc) (by simp)
      exact ⟨_, _, rfl, TcTy.conv _ (ht.ty H hE hO) (typesEqual_same hs.heap (hf (x, ft) (by simp)) ht.lt h1 hE hO.uniform).symm, k H hE hO⟩
    · obtain ⟨s2, ⟨fl2, ok⟩, h2, h⟩ := TM.bind_ok.mp h
      obtain ⟨rfl, h⟩ := TM.pure_ok.mp h
      simp at h
      obtain ⟨rfl, rfl⟩ := h
      obtain ⟨e, k⟩ := copyLoop_safe fs (y :: ys) ((t, tc) :: rs) hs (fun f hf' => hf f (by simp [hf'])) hr (by simpa using h2)
      refine ⟨e, fun H hE hO => ?_⟩
      simp only [FldsTy]
      exact ⟨_, _, rfl, k H hE hO⟩
  | (x, ft) :: fs, [], rs, s, s', fl, hs, hf, hr, h => by
    simp only [List.zip_nil_left] at h ⊢
    unfold copyLoop at h
    obtain ⟨s2, ⟨fl2, ok⟩, h2, h⟩ := TM.bind_ok.mp h
    obtain ⟨rfl, h⟩ := TM.pure_ok.mp h
    simp at h
    obtain ⟨rfl, rfl⟩ := h
    obtain ⟨e, k⟩ := copyLoop_safe fs [] rs hs (fun f hf' => hf f (by simp [hf'])) hr (by simpa using h2)
    refine ⟨e, fun H hE hO => ?_⟩
    simp only [List.map_cons, FldsTy]
    exact ⟨_, _, rfl, k H hE hO⟩
  | (x, ft) :: fs, y :: ys, [], s, s', fl, hs, hf, hr, h => by
    simp only [List.map_nil, List.zip_nil_right] at h ⊢
    unfold copyLoop at h
    obtain ⟨s2, ⟨fl2, ok⟩, h2, h⟩ := TM.bind_ok.mp h
    obtain ⟨rfl, h⟩ := TM.pure_ok.mp h
    simp at h
    obtain ⟨rfl, rfl⟩ := h
    obtain ⟨e, k⟩ := copyLoop_safe fs [] [] hs (fun f hf' => hf f (by simp [hf'])) hr (by simpa using h2)
    refine ⟨e, fun H hE hO => ?_⟩
    simp only [List.map_cons, FldsTy]
    exact ⟨_, _, rfl, k H hE hO⟩

theorem tcCopy_safe {src : Expr} {args : List (Name × Expr)} (hsrc : Safe Ca (rec src)) (he : ∀ a ∈ args, Safe Ca (rec a.2)) : Safe Ca (tcCopy n rec src args) := by
  intro s s' x hs h
  unfold tcCopy at h
  obtain ⟨s1, o, h1, h⟩ := TM.bind_ok.mp h
  cases o with
  | none => cases (TM.pure_ok.mp h).2
  | some r =>
    obtain ⟨st, stc⟩ := r
    obtain ⟨k1, k2, k3⟩ := hsrc _ _ _ hs h1
    obtain ⟨hh, nt, h2, h⟩ := TM.liftH_bind.mp h
    obtain ⟨e, hn, hlt⟩ := normalType_mono k1.heap.nodes k3.lt h2
    subst e
    obtain ⟨m, h3, h⟩ := TM.readH_bind.mp h
    rw [Elab.get_ok] at h3
    simp only at h3
    split at h
    · rename_i fields
      obtain ⟨s2, rs, h4, h⟩ := TM.bind_ok.mp h
      obtain ⟨s3, ⟨fl, ok⟩, h5, h⟩ := TM.bind_ok.mp h
      simp only at h
      split at h
      · cases (TM.pure_ok.mp h).2
      · rename_i hc
        simp only [Bool.or_eq_true, Bool.not_eq_true', not_or, Bool.not_eq_false] at hc
        obtain ⟨rfl, hc⟩ := hc
        cases hx : allSome rs.reverse with
        | none => rw [hx] at hc; simp at hc
        | some xs =>
          obtain ⟨g1, g2, g3⟩ := tcEach_reverse_safe (es := args.map (·.2)) (fun e h => by obtain ⟨a, ha, rfl⟩ := List.mem_map.mp h; exact he a ha) k1 h4 hx
          have hfl : ∀ f ∈ fields, f.2 < s2.heap.length := fun f hf => prefix_lt g2.heap (k1.heap.nodes _ _ h3 f hf)
          rw [allSome_map hx] at h5
          obtain ⟨e3, k⟩ := copyLoop_safe fields (args.map (·.1)) xs g1 hfl g3 h5
          obtain ⟨e4, e⟩ := TM.pure_ok.mp h
          rw [e3] at e4
          subst e4
          cases e
          refine ⟨g1, k2.trans g2, prefix_lt g2.heap hlt, fun H hE hO => ?_⟩
          simp only [TcTy]
          have hE' := (Ends.prefix g2.heap).trans hE
          exact ⟨st, fields, (k3.step g2).ty H hE hO, isNode_of_get k1.heap hn h3 (by simp) (by simp) (by simp) hE', normal_same hn hE', k H hE hO⟩
    · cases (TM.pure_ok.mp h).2

/-! ### Unions -/

theorem findField_get {x : Name} : (fs : List (Name × Ptr)) → (i : Nat) → {tag : Nat} → {t : Ptr} → findField x fs i = some (tag, t) → ∃ y, i ≤ tag ∧ fs[tag - i]? = some (y, t)
  | [], i, tag, t, h => by simp [findField] at h
  | (y, u) :: fs, i, tag, t, h => by
    rw [findField] at h
    split at h
    · cases h; exact ⟨y, Nat.le_refl _, by simp⟩
    · obtain ⟨z, h1, h2⟩ := findField_get fs (i + 1) h
      refine ⟨z, by omega, ?_⟩
      rw [show tag - i = (tag - (i + 1)) + 1 by omega]; simpa using h2

theorem tcUnion_safe {type : Expr} {field : Name} {arg : Expr} (ht : SafeT (recT type)) (ha : Safe Ca (rec arg)) : Safe Ca (tcUnion n rec recT type field arg) := by
  intro s s' x hs h
  unfold tcUnion at h
  obtain ⟨s1, o, h1, h⟩ := TM.bind_ok.mp h
  cases o with
  | none => cases (TM.pure_ok.mp h).2
  | some t =>
    obtain ⟨k1, k2, k3, k4⟩ := ht _ _ _ hs h1
    obtain ⟨hh, ⟨ut, vars⟩, h2, h⟩ := TM.liftH_bind.mp h
    obtain ⟨e, rfl, hn, hlt⟩ := depoly_mono k1.heap.nodes k4 h2
    subst e
    simp only at h
    obtain ⟨m, h3, h⟩ := TM.readH_bind.mp h
    rw [Elab.get_ok] at h3
    simp only at h3
    split at h
    · rename_i fields
      cases hff : findField field fields 0 with
      | none => rw [hff] at h; cases (TM.pure_ok.mp h).2
      | some q =>
        obtain ⟨tag, ft⟩ := q
        rw [hff] at h
        simp only at h
        obtain ⟨y, _, hy⟩ := findField_get fields 0 hff
        obtain ⟨s2, o, h4, h⟩ := TM.bind_ok.mp h
        cases o with
        | none => cases (TM.pure_ok.mp h).2
        | some r =>
          obtain ⟨argT, argTc⟩ := r
          obtain ⟨g1, g2, g3⟩ := ha _ _ _ k1 h4
          simp only at h
          obtain ⟨s3, o, h5, h⟩ := TM.bind_ok.mp h
          cases o with
          | none => cases (TM.pure_ok.mp h).2
          | some r =>
            have hft : ft < s2.heap.length := prefix_lt g2.heap (k1.heap.nodes _ _ h3 _ (List.mem_of_getElem? hy))
            obtain ⟨e1, e2, h6⟩ := typeInferArgs_mono g1.heap (by simpa using hft) (by simpa using g3.lt) h5
            subst e1; subst e2
            obtain ⟨rfl, e⟩ := TM.pure_ok.mp h
            cases e
            refine ⟨g1, (step_quiet k2 k3).trans g2, prefix_lt g2.heap k4, fun H hE hO => ?_⟩
            simp only [TcTy]
            have hE' := (Ends.prefix g2.heap).trans hE
            refine ⟨fields, y, ft, isNode_of_get k1.heap hn h3 (by simp) (by simp) (by simp) hE', by simpa using hy, ?_⟩
            cases h6 with
            | cons h7 _ => exact TcTy.conv _ (g3.ty H hE hO) (same_ends hE g1.heap.mono hO.later hft g3.lt h7).symm
    · cases (TM.pure_ok.mp h).2

theorem selLoop_safe {hd : Bool} : (fs : List (Name × Ptr)) → (i : Nat) → (cs : List (Name × Expr)) → (∀ c ∈ cs, Safe Ca (rec c.2)) → {rt : Option Ptr} → {s s' : S} → {q : SelRes} → SOk s →
    (∀ r, rt = some r → r < s.heap.length) → selLoop n rec hd fs i cs rt s = .ok (s', q) → q.error = false →
    SOk s' ∧ TStep s s' ∧ (∀ r, rt = some r → q.rtype = some r) ∧ ∀ R, q.rtype = some R → R < s'.heap.length ∧ ∀ b ∈ q.branches, Typed Ca s' (R, b.2)
  | [], i, cs, hcs, rt, s, s', q, hs, hr, h, he => by
    unfold selLoop at h
    obtain ⟨rfl, rfl⟩ := TM.pure_ok.mp h
    exact ⟨hs, .refl _, fun r e => e, fun R e => ⟨hr R e, by simp⟩⟩
  | (x, ft) :: fs, i, (y, e) :: cs, hcs, rt, s, s', q, hs, hr, h, he => by
    unfold selLoop at h
    split at h
    · obtain ⟨s1, r, h1, h⟩ := TM.bind_ok.mp h
      cases r with
      | none =>
        obtain ⟨s2, q2, h2, h⟩ := TM.bind_ok.mp h
        obtain ⟨_, rfl⟩ := TM.pure_ok.mp h
        simp at he
      | some r =>
        obtain ⟨t, tc⟩ := r
        obtain ⟨k1, k2, k3⟩ := hcs (y, e) (by simp) _ _ _ hs h1
        cases rt with
        | none =>
          obtain ⟨s2, q2, h2, h⟩ := TM.bind_ok.mp h
          obtain ⟨rfl, rfl⟩ := TM.pure_ok.mp h
          obtain ⟨g1, g2, g3, g4⟩ := selLoop_safe fs (i + 1) cs (fun c hc => hcs c (by simp [hc])) k1 (by intro r e; cases e; exact k3.lt) h2 he
          refine ⟨g1, k2.trans g2, by simp, fun R hR => ?_⟩
          have hR' := g3 t rfl
          simp only at hR
          rw [hR'] at hR; cases hR
          obtain ⟨g5, g6⟩ := g4 _ hR'
          refine ⟨g5, ?_⟩
          simp only [List.mem_cons, forall_eq_or_imp]
          exact ⟨k3.step g2, g6⟩
        | some rt =>
          obtain ⟨s2, eq, h2, g⟩ := TM.bind_ok.mp h
          obtain ⟨rfl, h2⟩ := TM.readH_ok.mp h2
          obtain ⟨s3, q2, h3, h⟩ := TM.bind_ok.mp g
          obtain ⟨rfl, rfl⟩ := TM.pure_ok.mp h
          simp only [Bool.or_eq_false_iff, Bool.not_eq_false'] at he
          obtain ⟨he, rfl⟩ := he
          have hrt : rt < s2.heap.length := prefix_lt k2.heap (hr rt rfl)
          obtain ⟨g1, g2, g3, g4⟩ := selLoop_safe fs (i + 1) cs (fun c hc => hcs c (by simp [hc])) k1 (by intro r e; cases e; exact hrt) h3 he
          refine ⟨g1, k2.trans g2, g3, fun R hR => ?_⟩
          have hR' := g3 rt rfl
          simp only at hR
          rw [hR'] at hR; cases hR
          obtain ⟨g5, g6⟩ := g4 _ hR'
          refine ⟨g5, ?_⟩
          simp only [List.mem_cons, forall_eq_or_imp]
          refine ⟨Typed.step (s := s2) ⟨hrt, fun H hE hO => ?_⟩ g2, g6⟩
          exact TcTy.conv _ (k3.ty H hE hO) (typesEqual_same k1.heap hrt k3.lt h2 hE hO.uniform).symm
    · obtain ⟨s2, q2, h2, h⟩ := TM.bind_ok.mp h
      obtain ⟨rfl, rfl⟩ := TM.pure_ok.mp h
      cases hd with
      | false => simp at he
      | true =>
        simp only [if_true] at he ⊢
        exact selLoop_safe fs (i + 1) _ hcs hs hr h2 he
  | (x, ft) :: fs, i, [], hcs, rt, s, s', q, hs, hr, h, he => by
    unfold selLoop at h
    obtain ⟨s2, q2, h2, h⟩ := TM.bind_ok.mp h
    obtain ⟨rfl, rfl⟩ := TM.pure_ok.mp h
    cases hd with
    | false => simp at he
    | true =>
      simp only [if_true] at he ⊢
      exact selLoop_safe fs (i + 1) _ hcs hs hr h2 he

theorem brsTy_of {s : S} {R : Ptr} {bs : List (Nat × Tc)} (h : ∀ b ∈ bs, Typed Ca s (R, b.2)) {H : Heap} (hE : Ends s.heap H) (hO : Opened Ca H) :
    BrsTy H (tenvs s.scopes) (toBrs bs) R := by
  induction bs with
  | nil => simp [toBrs, BrsTy]
  | cons b bs ih =>
    obtain ⟨i, t⟩ := b
    simp only [toBrs, BrsTy]
    exact ⟨(h (i, t) (by simp)).ty H hE hO, ih fun b hb => h b (by simp [hb])⟩

theorem tcSelect_safe {c : Expr} {cs : List (Name × Expr)} {d : Option Expr} (hc : Safe Ca (rec c)) (hcs : ∀ c ∈ cs, Safe Ca (rec c.2)) (hd : ∀ e, d = some e → Safe Ca (rec e)) :
    Safe Ca (tcSelect n rec c cs d) := by
  intro s s' x hs h
  unfold tcSelect at h
  obtain ⟨s1, o, h1, h⟩ := TM.bind_ok.mp h
  cases o with
  | none => cases (TM.pure_ok.mp h).2
  | some r =>
    obtain ⟨ct, ctc⟩ := r
    obtain ⟨k1, k2, k3⟩ := hc _ _ _ hs h1
    simp only at h
    obtain ⟨hh, nt, h2, h⟩ := TM.liftH_bind.mp h
    obtain ⟨e, hn, hlt⟩ := normalType_mono k1.heap.nodes k3.lt h2
    subst e
    obtain ⟨m, h3, h⟩ := TM.readH_bind.mp h
    rw [Elab.get_ok] at h3
    simp only at h3
    split at h
    · rename_i fields
      obtain ⟨s2, dv, h4, h⟩ := TM.bind_ok.mp h
      obtain ⟨s3, q, h5, h⟩ := TM.bind_ok.mp h
      split at h
      · cases (TM.pure_ok.mp h).2
      · rename_i hcond
        simp only [Bool.or_eq_true, Bool.and_eq_true, not_or, Bool.not_eq_true] at hcond
        obtain ⟨herr, hdd⟩ := hcond
        -- the default
        have hdef : SOk s2 ∧ TStep s1 s2 ∧ ∀ y, dv = some y → Typed Ca s2 y := by
          cases d with
          | none =>
            obtain ⟨rfl, rfl⟩ := TM.pure_ok.mp h4
            exact ⟨k1, .refl _, by simp⟩
          | some e =>
            cases dv with
            | none => simp at hdd
            | some y =>
              obtain ⟨g1, g2, g3⟩ := hd e rfl _ _ _ k1 h4
              exact ⟨g1, g2, by intro z hz; cases hz; exact g3⟩
        obtain ⟨g1, g2, g3⟩ := hdef
        obtain ⟨m1, m2, m3, m4⟩ := selLoop_safe fields 0 cs hcs g1 (by
          intro r hr
          simp only [Option.map_eq_some_iff] at hr
          obtain ⟨y, hy, rfl⟩ := hr
          exact (g3 y hy).lt) h5 herr
        have hstep := (k2.trans g2).trans m2
        cases hq : q.rtype with
        | none => rw [hq] at h; exact (TM.crash_ok.mp h).elim
        | some R =>
          rw [hq] at h
          simp only at h
          obtain ⟨m5, m6⟩ := m4 R hq
          have fin : ∀ (bs : List (Nat × Tc)) (dtc : Tc), (∀ b ∈ bs, Typed Ca s3 (R, b.2)) → Typed Ca s3 (R, dtc) → Typed Ca s3 (R, .select ctc fields.length (toBrs bs) dtc) := by
            intro bs dtc hb hdt
            refine ⟨m5, fun H hE hO => ?_⟩
            simp only [TcTy]
            have hE' := (Ends.prefix (g2.trans m2).heap).trans hE
            exact ⟨ct, fields, rfl, (k3.step (g2.trans m2)).ty H hE hO, isNode_of_get k1.heap hn h3 (by simp) (by simp) (by simp) hE', brsTy_of hb hE hO, hdt.ty H hE hO⟩
          split at h
          · cases dv with
            | none => exact (TM.crash_ok.mp h).elim
            | some y =>
              obtain ⟨dt, dtc⟩ := y
              obtain ⟨rfl, e⟩ := TM.pure_ok.mp h
              cases e
              have := m3 dt rfl
              rw [hq] at this; cases this
              exact ⟨m1, hstep, fin _ _ m6 ((g3 _ rfl).step m2)⟩
          · cases hb : q.branches.getLast? with
            | none => rw [hb] at h; exact (TM.crash_ok.mp h).elim
            | some last =>
              obtain ⟨i, last⟩ := last
              rw [hb] at h
              obtain ⟨rfl, e⟩ := TM.pure_ok.mp h
              cases e
              exact ⟨m1, hstep, fin _ _ (fun b hb' => m6 b (List.dropLast_subset _ hb')) (m6 (i, last) (List.mem_of_getLast? hb))⟩
    · cases (TM.pure_ok.mp h).2

/-! ### Functions -/

theorem tcFunc_safe {x : Name} {type body : Expr} (ht : SafeT (recT type)) (hb : Safe Ca (rec body)) : Safe Ca (tcFunc rec recT x type body) := by
  intro s s' r hs h
  unfold tcFunc at h
  obtain ⟨s1, o, h1, h⟩ := TM.bind_ok.mp h
  cases o with
  | none => cases (TM.pure_ok.mp h).2
  | some argT =>
    obtain ⟨k1, k2, k3, k4⟩ := ht _ _ _ hs h1
    simp only at h
    obtain ⟨s2, _, h2, h⟩ := TM.bind_ok.mp h
    unfold pushScope at h2
    cases h2
    obtain ⟨s3, o, h3, h⟩ := TM.bind_ok.mp h
    obtain ⟨s4, sc, h4, h⟩ := TM.bind_ok.mp h
    cases o with
    | none => cases (TM.pure_ok.mp h).2
    | some r =>
      obtain ⟨t, tc⟩ := r
      cases hs1 : s1.scopes with
      | nil => rw [k2] at hs1; exact (hs.ne hs1).elim
      | cons p rest =>
        have hin : SOk { s1 with scopes := initScope (some []) [(.normal x, argT)] :: s1.scopes } := by
          refine ⟨k1.heap, ⟨⟨by simp [initScope], ?_, by simp [initScope], rfl, ?_, ?_⟩, k1.scopes⟩, by simp⟩
          · intro i v hv
            simp only [initScope, argVars, List.reverse_cons, List.reverse_nil, List.nil_append] at hv
            match i, hv with
            | 0, hv => simp at hv; subst hv; rfl
            | i + 1, hv => simp at hv
          · intro v hv
            simp only [Scope.vars, initScope, argVars, List.reverse_cons, List.reverse_nil, List.nil_append, List.append_nil, List.mem_singleton] at hv
            subst hv; exact k4
          · intro cs hc
            simp only [initScope, Option.some.injEq] at hc
            subst hc
            exact ⟨p, rest, hs1, .nil⟩
        obtain ⟨g1, g2, g3⟩ := hb _ _ _ hin h3
        have hsc := g2.scopes
        simp only at hsc
        generalize hs3 : s3.scopes = σ3 at hsc
        cases hsc with
        | @cons _ _ sc3 rest3 q1 q2 =>
          unfold popScope at h4
          rw [hs3] at h4
          cases h4
          have h := TM.alloc_bind.mp h
          obtain ⟨rfl, e⟩ := TM.pure_ok.mp h
          cases e
          have hok := g1.scopes
          rw [hs3] at hok
          have hn : NodeIn s3.heap (.func argT t) := ⟨prefix_lt g2.heap k4, g3.lt⟩
          have ok4 : SOk { s3 with scopes := rest3 } := ⟨g1.heap, hok.2, by rw [hs1] at q2; cases q2; simp⟩
          have st4 : TStep s1 { s3 with scopes := rest3 } := ⟨g2.heap, q2⟩
          refine ⟨ok4.alloc hn (by simp), ((step_quiet k2 k3).trans st4).trans (step_alloc _ _), new_lt _ _, fun H hE hO => ?_⟩
          simp only [TcTy]
          have hcap : ∃ cs, sc.captured = some cs := by
            have := q1.captured
            simp only [initScope] at this
            exact Option.isSome_iff_exists.mp (by simpa using this)
          obtain ⟨cs, hcs⟩ := hcap
          obtain ⟨p3, rest4, e4, hlink⟩ := hok.1.link cs hcs
          subst e4
          refine ⟨argT, t, argT, t, sc.statics.map (·.type), alloc_isNode ok4 hn (by simp) (by simp) (by simp) hE, sameType_refl, sameType_refl, ?_, ?_⟩
          · rw [hcs]
            simp only [Option.getD_some]
            have : ∀ {vs : List V} {cs : List Var}, All2 (fun v c => (tenv p3).get c = some v.type) vs cs → All2 (fun v S => (tenv p3).get v = some S) cs (vs.map (·.type)) := by
              intro vs cs h
              induction h with
              | nil => exact .nil
              | cons h1 _ ih => exact .cons h1 ih
            exact this hlink
          · have hty := g3.ty H ((Ends.prefix (new_prefix _ _)).trans hE) hO
            rw [hs3] at hty
            have he : tenv sc = ⟨sc.statics.map (·.type), [argT], []⟩ := by
              have hl := q1.locals
              have ha := q1.args
              simp only [initScope, argVars, List.reverse_cons, List.reverse_nil, List.nil_append] at hl ha
              unfold tenv
              congr 1
              · generalize sc.args = as at ha
                cases ha with
                | cons h1 h2 => cases h2; simp [h1.type]
              · generalize sc.locals = ls at hl
                cases hl; rfl
            rw [← he]; exact hty

end
end Verif.Elab
