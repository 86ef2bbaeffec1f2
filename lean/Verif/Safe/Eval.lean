import Verif.Safe.Typed
/-
Expressions that have a type do not go wrong.
-/
namespace Verif.Elab
open Types
open Compile (Var Tc Tcs Flds Brs Val St Res SFn SVal SRes Env)

/-- The references have values of their types, and the functions implemented in C are these. -/
def StateOk [N : Natives] (H : Heap) (Γ : List Ptr) (s : St SFn) : Prop := StoreOk H Γ s.refs ∧ s.out.answer = N.answer

/-- The run does not go wrong, and its result has property `P`. -/
def Good [N : Natives] {α : Type} (H : Heap) (Γ : List Ptr) (refs : List (Option SVal)) (P : List Ptr → α → Prop) : SRes α → Prop
  | .ok a s' => ∃ Γ', Γ <+: Γ' ∧ StateOk H Γ' s' ∧ refs <+: s'.refs ∧ P Γ' a
  | .abort => True
  | .oof => True
  | .crash => False
  | .wild => False
  | .stop _ => True

section
variable {H : Heap} [N : Natives]

theorem Good.bind {α β : Type} {Γ refs} {P : List Ptr → α → Prop} {Q : List Ptr → β → Prop} {r : SRes α} {k : α → St SFn → SRes β} (h : Good H Γ refs P r)
    (hk : ∀ Γ' a s, Γ <+: Γ' → StateOk H Γ' s → refs <+: s.refs → P Γ' a → Good H Γ' s.refs Q (k a s)) : Good H Γ refs Q (r.bind k) := by
  cases r with
  | ok a s =>
    obtain ⟨Γ', h1, h2, h3, h4⟩ := h
    have := hk Γ' a s h1 h2 h3 h4
    simp only [Res.bind]
    generalize k a s = r' at this
    cases r' with
    | ok b s' =>
      obtain ⟨Γ2, h5, h6, h7, h8⟩ := this
      exact ⟨Γ2, h1.trans h5, h6, h3.trans h7, h8⟩
    | _ => exact this
  | _ => exact h

theorem Good.imp {α : Type} {Γ refs} {P Q : List Ptr → α → Prop} {r : SRes α} (h : Good H Γ refs P r) (hk : ∀ Γ' a, P Γ' a → Q Γ' a) : Good H Γ refs Q r := by
  cases r with
  | ok a s =>
    obtain ⟨Γ', h1, h2, h3, h4⟩ := h
    exact ⟨Γ', h1, h2, h3, hk _ _ h4⟩
  | _ => exact h

theorem Good.ok {α : Type} {Γ} {P : List Ptr → α → Prop} {a : α} {s : St SFn} (hs : StateOk H Γ s) (h : P Γ a) : Good H Γ s.refs P (.ok a s) :=
  ⟨Γ, List.prefix_rfl, hs, List.prefix_rfl, h⟩

theorem strict_good {Γ} {s : St SFn} {v : SVal} {T : Ptr} (hs : StateOk H Γ s) (hv : VT H Γ v T) :
    Good H Γ s.refs (fun Γ' u => Γ' = Γ ∧ VT H Γ u T ∧ ∀ r, u ≠ .ref r) (Compile.strict s v) := by
  obtain ⟨u, h1, h2, h3⟩ := hs.1.unwrap hv
  unfold Compile.strict
  rw [h1]
  cases u with
  | ref r => trivial
  | _ => exact Good.ok hs ⟨rfl, h2, by simp⟩

theorem strict_state {F : Type} {s s' : St F} {v u : Val F} (h : Compile.strict s v = .ok u s') : s' = s := by
  unfold Compile.strict at h
  split at h
  · cases h
  · cases h
  · cases h; rfl

theorem structField_good {Γ} {s : St SFn} {v : SVal} {O : Ptr} {fields : List (Name × Ptr)} {i : Nat} {f : Name × Ptr} (hs : StateOk H Γ s) (hv : VT H Γ v O)
    (hO : IsNode H O (.data .struct fields)) (hf : fields[i]? = some f) : Good H Γ s.refs (fun Γ' v => VT H Γ' v f.2) (Compile.structField v i s) := by
  unfold Compile.structField
  refine (strict_good hs hv).bind fun Γ' u s' _ hs' _ hu => ?_
  obtain ⟨rfl, hu, hr⟩ := hu
  cases hu with
  | struct h1 h2 h3 =>
    cases h1.unique hO
    rename_i vs
    obtain ⟨hlt, _⟩ := List.getElem?_eq_some_iff.mp hf
    have hlt' : i < vs.length := by omega
    simp only [List.getElem?_eq_getElem hlt']
    exact Good.ok hs' (h3 i _ f (List.getElem?_eq_getElem hlt') hf)
  | type h1 => cases h1.unique hO
  | union h1 => cases h1.unique hO
  | ref => exact absurd rfl (hr _)
  | fn h1 => cases h1.unique hO
  | native _ _ h1 =>
    obtain ⟨_, _, h1, _⟩ := h1
    cases h1.unique hO

theorem unionField_good {Γ} {s : St SFn} {v : SVal} {O : Ptr} {fields : List (Name × Ptr)} {i : Nat} {f : Name × Ptr} (hs : StateOk H Γ s) (hv : VT H Γ v O)
    (hO : IsNode H O (.data .union fields)) (hf : fields[i]? = some f) : Good H Γ s.refs (fun Γ' v => VT H Γ' v f.2) (Compile.unionField v i s) := by
  unfold Compile.unionField
  refine (strict_good hs hv).bind fun Γ' u s' _ hs' _ hu => ?_
  obtain ⟨rfl, hu, hr⟩ := hu
  cases hu with
  | union h1 h2 h3 =>
    cases h1.unique hO
    simp only
    split
    · rename_i e
      subst e
      rw [h2] at hf; cases hf
      exact Good.ok hs' h3
    · trivial
  | type h1 => cases h1.unique hO
  | struct h1 => cases h1.unique hO
  | ref => exact absurd rfl (hr _)
  | fn h1 => cases h1.unique hO
  | native _ _ h1 =>
    obtain ⟨_, _, h1, _⟩ := h1
    cases h1.unique hO

theorem unionTag_good {Γ} {s : St SFn} {v : SVal} {O : Ptr} {fields : List (Name × Ptr)} (hs : StateOk H Γ s) (hv : VT H Γ v O)
    (hO : IsNode H O (.data .union fields)) : Good H Γ s.refs (fun Γ' tag => Γ' = Γ ∧ tag < fields.length) (Compile.unionTag v s) := by
  unfold Compile.unionTag
  refine (strict_good hs hv).bind fun Γ' u s' _ hs' _ hu => ?_
  obtain ⟨rfl, hu, hr⟩ := hu
  cases hu with
  | union h1 h2 h3 =>
    cases h1.unique hO
    exact Good.ok hs' ⟨rfl, (List.getElem?_eq_some_iff.mp h2).1⟩
  | type h1 => cases h1.unique hO
  | struct h1 => cases h1.unique hO
  | ref => exact absurd rfl (hr _)
  | fn h1 => cases h1.unique hO
  | native _ _ h1 =>
    obtain ⟨_, _, h1, _⟩ := h1
    cases h1.unique hO

theorem tagBelow_good {Γ} {s : St SFn} {v : SVal} {O : Ptr} {fields : List (Name × Ptr)} {nt : Nat} (hn : fields.length = nt) (hs : StateOk H Γ s) (hv : VT H Γ v O)
    (hO : IsNode H O (.data .union fields)) : Good H Γ s.refs (fun Γ' _ => Γ' = Γ) (Compile.tagBelow nt v s) := by
  unfold Compile.tagBelow
  refine (unionTag_good hs hv hO).bind fun Γ' tag s' _ hs' _ hu => ?_
  obtain ⟨rfl, ht⟩ := hu
  rw [if_pos (by omega)]
  exact Good.ok hs' rfl

/-! ### Lists -/

theorem newList_ty {Γ} {e L : Ptr} (hl : IsList H L e) : (vs : List SVal) → (∀ v ∈ vs, VT H Γ v e) → VT H Γ (Compile.newList vs) L
  | [], _ => by
    obtain ⟨x1, x2, c, z, y1, y2, tail, h1, h2, h3, h4⟩ := hl
    exact .union (x := x2) h1 rfl (.struct h3 rfl (by intro i v f hi; simp at hi))
  | v :: vs, h => by
    have ih := newList_ty hl vs fun w hw => h w (List.mem_cons_of_mem _ hw)
    obtain ⟨x1, x2, c, z, y1, y2, tail, h1, h2, h3, h4⟩ := hl
    refine .union (x := x1) h1 rfl (.struct h2 rfl ?_)
    intro i w f hi hf
    match i, hi, hf with
    | 0, hi, hf =>
      simp at hi hf; subst hi; subst hf
      exact h _ List.mem_cons_self
    | 1, hi, hf =>
      simp at hi hf; subst hi; subst hf
      exact ih.conv h4.symm
    | i + 2, hi, hf => simp at hi

theorem newLiteral_ty {Γ} {e L : Ptr} {fields : List (Name × Ptr)} (hl : IsList H L e) (he : IsNode H e (.data .union fields)) {ls : List Nat}
    (h : ∀ l ∈ ls, ∃ x S, fields[l]? = some (x, S) ∧ IsNode H S (.data .struct [])) : VT H Γ (Compile.newLiteral ls) L := by
  refine newList_ty hl _ fun v hv => ?_
  obtain ⟨l, hl', rfl⟩ := List.mem_map.mp hv
  obtain ⟨x, S, h1, h2⟩ := h l hl'
  exact .union he h1 (.struct h2 rfl (by intro i v f hi; simp at hi))

/-! ### Environments -/

/-- The variables have values of their types. -/
structure EnvTy (H : Heap) (Γ : List Ptr) (E : TEnv) (env : Env) : Prop where
  get : ∀ v T, E.get v = some T → ∃ w, env.get v = some w ∧ VT H Γ w T
  len : env.locals.length = E.locals.length

theorem EnvTy.more {Γ Γ' E env} (h : EnvTy H Γ E env) (hp : Γ <+: Γ') : EnvTy H Γ' E env :=
  ⟨fun v T hv => by obtain ⟨w, h1, h2⟩ := h.get v T hv; exact ⟨w, h1, h2.more hp⟩, h.len⟩

theorem EnvTy.push {Γ E env} (h : EnvTy H Γ E env) {ls : List (Option Ptr)} {vs : List (Option SVal)} (hl : vs.length = ls.length)
    (hv : ∀ (i : Nat) T, ls[i]? = some (some T) → ∃ v, vs[i]? = some (some v) ∧ VT H Γ v T) : EnvTy H Γ (E.push ls) { env with locals := env.locals ++ vs } := by
  refine ⟨fun v T hg => ?_, by simp [TEnv.push, h.len, hl]⟩
  cases v with
  | static i => exact h.get (.static i) T hg
  | arg i => exact h.get (.arg i) T hg
  | loc i =>
    simp only [TEnv.get, TEnv.push, Env.get] at hg ⊢
    by_cases hi : i < E.locals.length
    · rw [List.getElem?_append_left hi] at hg
      rw [List.getElem?_append_left (by rw [h.len]; exact hi)]
      exact h.get (.loc i) T hg
    · rw [List.getElem?_append_right (by omega)] at hg
      rw [List.getElem?_append_right (by rw [h.len]; omega), h.len]
      have : ls[i - E.locals.length]? = some (some T) := by
        cases hx : ls[i - E.locals.length]? with
        | none => rw [hx] at hg; cases hg
        | some o => rw [hx] at hg; simp at hg; rw [hg]
      obtain ⟨w, h1, h2⟩ := hv _ _ this
      exact ⟨w, by rw [h1]; rfl, h2⟩

theorem envTy_body {Γ} {Ss : List Ptr} {a0 : Ptr} {vs : List SVal} {a : SVal} (hl : vs.length = Ss.length) (hv : ∀ (i : Nat) v S, vs[i]? = some v → Ss[i]? = some S → VT H Γ v S)
    (ha : VT H Γ a a0) : EnvTy H Γ ⟨Ss, [a0], []⟩ ⟨vs, [a], []⟩ := by
  refine ⟨fun v T hg => ?_, rfl⟩
  cases v with
  | static i =>
    simp only [TEnv.get, Env.get] at hg ⊢
    have hlt : i < vs.length := by rw [hl]; exact (List.getElem?_eq_some_iff.mp hg).1
    exact ⟨_, List.getElem?_eq_getElem hlt, hv i _ T (List.getElem?_eq_getElem hlt) hg⟩
  | arg i =>
    simp only [TEnv.get, Env.get] at hg ⊢
    match i, hg with
    | 0, hg => simp at hg; subst hg; exact ⟨a, rfl, ha⟩
    | i + 1, hg => simp at hg
  | loc i => simp [TEnv.get] at hg

theorem capture_good {Γ E env} (h : EnvTy H Γ E env) : {sc : List Var} → {Ss : List Ptr} → All2 (fun v S => E.get v = some S) sc Ss →
    ∃ vs, Compile.capture env sc = some vs ∧ All2 (VT H Γ) vs Ss
  | [], _, .nil => ⟨[], rfl, .nil⟩
  | v :: sc, _, .cons h1 h2 => by
    obtain ⟨w, h3, h4⟩ := h.get _ _ h1
    obtain ⟨vs, h5, h6⟩ := capture_good h h2
    refine ⟨w :: vs, ?_, .cons h4 h6⟩
    unfold Compile.capture at h5 ⊢
    simp [List.mapM_cons, h3, h5]

theorem all2_get {α β : Type} {R : α → β → Prop} {as : List α} {bs : List β} (h : All2 R as bs) (i : Nat) (a : α) (b : β) (ha : as[i]? = some a) (hb : bs[i]? = some b) : R a b := by
  obtain ⟨h1, rfl⟩ := List.getElem?_eq_some_iff.mp ha
  obtain ⟨h2, rfl⟩ := List.getElem?_eq_some_iff.mp hb
  exact h.get i h1 h2

/-! ### New references -/

theorem newRefs_eq {F : Type} : (n : Nat) → (s : St F) → Compile.newRefs n s = ((List.range' s.refs.length n).map .ref, { s with refs := s.refs ++ List.replicate n none })
  | 0, s => by simp [Compile.newRefs]
  | n + 1, s => by
    simp only [Compile.newRefs, Compile.newRef, newRefs_eq n, List.length_append, List.length_cons, List.length_nil]
    simp [List.range'_succ, List.replicate_succ]

/-- Each reference gets a value. -/
theorem assignAll_good {Γ} : (n : Nat) → {k : Nat} → {s : St SFn} → {vs : List SVal} → {Ts : List Ptr} → StateOk H Γ s → n = vs.length →
    All2 (VT H Γ) vs Ts → (∀ i < n, s.refs[k + i]? = some none) → (∀ (i : Nat) T, Ts[i]? = some T → Γ[k + i]? = some T) →
    match Compile.assignAll ((List.range' k n).map .ref) vs s with
    | .ok _ s' => StateOk H Γ s' ∧ (∀ i, i < k → s'.refs[i]? = s.refs[i]?) ∧ s'.refs.length = s.refs.length
    | .abort => True
    | _ => False
  | 0, k, s, vs, Ts, hs, hn, hv, hr, hT => by
    simp only [List.range'_zero, List.map_nil, Compile.assignAll]
    exact ⟨hs, fun _ _ => trivial, trivial⟩
  | n + 1, k, s, v :: vs, T :: Ts, hs, hn, .cons hv1 hv2, hr, hT => by
    simp only [List.range'_succ, List.map_cons, Compile.assignAll]
    obtain ⟨u, h1, h2, h3⟩ := hs.1.unwrap hv1
    have hk : s.refs[k]? = some none := by simpa using hr 0 (by omega)
    have hTk : Γ[k]? = some T := by simpa using hT 0 T rfl
    have step : u ≠ .ref k → Compile.assignRef (.ref k) v s = .ok () { s with refs := s.refs.set k (some u) } → 
        (match Res.bind (Compile.assignRef (.ref k) v s) fun _ s => Compile.assignAll (List.map Val.ref (List.range' (k + 1) n)) vs s with
          | .ok _ s' => StateOk H Γ s' ∧ (∀ i, i < k → s'.refs[i]? = s.refs[i]?) ∧ s'.refs.length = s.refs.length
          | .abort => True
          | _ => False) := by
      intro hne he
      rw [he]
      simp only [Res.bind]
      have := assignAll_good n (k := k + 1) (s := { s with refs := s.refs.set k (some u) }) (vs := vs) (Ts := Ts) ⟨hs.1.set hk hTk h3 hne h2, hs.2⟩ (by simpa using hn) hv2
        (by
          intro i hi
          have := hr (i + 1) (by omega)
          simp only
          rw [List.getElem?_set_ne (by omega), show k + 1 + i = k + (i + 1) by omega]
          exact this)
        (by
          intro i T' hi
          have := hT (i + 1) T' (by simpa using hi)
          rw [show k + 1 + i = k + (i + 1) by omega]; exact this)
      generalize Compile.assignAll (List.map Val.ref (List.range' (k + 1) n)) vs { s with refs := s.refs.set k (some u) } = r at this
      cases r with
      | ok _ s' =>
        simp only at this ⊢
        obtain ⟨g1, g2, g3⟩ := this
        refine ⟨g1, fun i hi => ?_, by rw [g3]; simp⟩
        rw [g2 i (by omega), List.getElem?_set_ne (by omega)]
      | _ => exact this
    cases u with
    | ref j =>
      by_cases hj : j = k
      · subst hj
        have : Compile.assignRef (.ref j) v s = .abort := by simp [Compile.assignRef, h1]
        rw [this]; trivial
      · exact step (by simpa using hj) (by simp [Compile.assignRef, h1, hj])
    | _ => exact step (by simp) (by simp [Compile.assignRef, h1])

/-! ### Functions implemented in C -/

mutual
/-- A C function that has arguments of types `As` makes a value of type `T`. -/
def MadeTy [N : Natives] (H : Heap) (As : List Ptr) : Compile.Made → Ptr → Prop
  | .argument i, T => ∃ S, As[i]? = some S ∧ SameType H [] S T
  | .struct ms, T => ∃ fields, IsNode H T (.data .struct fields) ∧ MadesTy H As ms (fields.map (·.2))
  | .union tag m, T => ∃ fields x S, IsNode H T (.data .union fields) ∧ fields[tag]? = some (x, S) ∧ MadeTy H As m S
  | .function op more, T => ∃ T0, N.sig op (more + 1) T0 ∧ SameType H [] T0 T ∧ Takes H (more + 1) T
def MadesTy [N : Natives] (H : Heap) (As : List Ptr) : List Compile.Made → List Ptr → Prop
  | [], Ts => Ts = []
  | m :: ms, Ts => ∃ T Ts', Ts = T :: Ts' ∧ MadeTy H As m T ∧ MadesTy H As ms Ts'
end

/-- The functions implemented in C have their types: called with as many values as they take, of the types of the arguments, they return a value of the type of the result, or none, and
do not use the arguments as values of other types. -/
def NativesOk [N : Natives] (H : Heap) : Prop :=
  ∀ op T As R, N.sig op As.length T → Arrows H T As R → ∀ Γ refs args calls, StoreOk H Γ refs → All2 (VT H Γ) args As →
    N.answer (⟨op, args.map (Compile.view refs)⟩ :: calls) ≠ .crash ∧
    ∀ m, N.answer (⟨op, args.map (Compile.view refs)⟩ :: calls) = .value m → MadeTy H As m R

mutual
theorem make_good {Γ} {args : List SVal} {As : List Ptr} (ha : All2 (VT H Γ) args As) : (m : Compile.Made) → {T : Ptr} → MadeTy H As m T →
    ∃ v, Compile.make (fun op more => SFn.native op more []) args m = some v ∧ VT H Γ v T
  | .argument i, T, h => by
    obtain ⟨S, h1, h2⟩ := h
    have hlt : i < args.length := by rw [ha.length_eq]; exact (List.getElem?_eq_some_iff.mp h1).1
    exact ⟨_, List.getElem?_eq_getElem hlt, (all2_get ha i _ _ (List.getElem?_eq_getElem hlt) h1).conv h2⟩
  | .struct ms, T, h => by
    obtain ⟨fields, h1, h2⟩ := h
    obtain ⟨vs, h3, h4⟩ := makes_good ha ms h2
    refine ⟨.struct vs, by rw [Compile.make, h3]; rfl, .struct h1 (by simpa using h4.length_eq) fun i v f hv hf => ?_⟩
    exact all2_get h4 i v f.2 hv (by rw [List.getElem?_map, hf]; rfl)
  | .union tag m, T, h => by
    obtain ⟨fields, x, S, h1, h2, h3⟩ := h
    obtain ⟨v, h4, h5⟩ := make_good ha m h3
    exact ⟨.union tag v, by rw [Compile.make, h4]; rfl, .union h1 h2 h5⟩
  | .function op more, T, h => by
    obtain ⟨T0, h1, h2, h3⟩ := h
    exact ⟨_, rfl, .native (by simpa using h1) (.nil h2) h3 rfl (by intro i v S hv; simp at hv)⟩
theorem makes_good {Γ} {args : List SVal} {As : List Ptr} (ha : All2 (VT H Γ) args As) : (ms : List Compile.Made) → {Ts : List Ptr} → MadesTy H As ms Ts →
    ∃ vs, Compile.makes (fun op more => SFn.native op more []) args ms = some vs ∧ All2 (VT H Γ) vs Ts
  | [], _, h => by
    cases h
    exact ⟨[], rfl, .nil⟩
  | m :: ms, _, h => by
    obtain ⟨T, Ts, rfl, h1, h2⟩ := h
    obtain ⟨v, h3, h4⟩ := make_good ha m h1
    obtain ⟨vs, h5, h6⟩ := makes_good ha ms h2
    exact ⟨v :: vs, by rw [Compile.makes, h3, h5]; rfl, .cons h4 h6⟩
end

theorem all2_of_get {α β : Type} {R : α → β → Prop} : {as : List α} → {bs : List β} → as.length = bs.length → (∀ (i : Nat) a b, as[i]? = some a → bs[i]? = some b → R a b) → All2 R as bs
  | [], [], _, _ => .nil
  | a :: as, b :: bs, hl, h => .cons (h 0 a b rfl rfl) (all2_of_get (by simpa using hl) fun i x y hx hy => h (i + 1) x y hx hy)
  | [], _ :: _, hl, _ => by simp at hl
  | _ :: _, [], hl, _ => by simp at hl

theorem callOut_good (hN : NativesOk H) {Γ} {s : St SFn} {op : Nat} {args : List SVal} {T R : Ptr} {As : List Ptr} (hs : StateOk H Γ s) (hop : N.sig op As.length T) (har : Arrows H T As R)
    (ha : All2 (VT H Γ) args As) : Good H Γ s.refs (fun Γ' v => VT H Γ' v R) (Compile.callOut (fun op more => SFn.native op more []) op args s) := by
  unfold Compile.callOut
  simp only [hs.2]
  split
  · rename_i m hm
    obtain ⟨v, h1, h2⟩ := make_good ha m ((hN op T As R hop har Γ s.refs args _ hs.1 ha).2 m hm)
    simp only [h1]
    exact ⟨Γ, List.prefix_rfl, ⟨hs.1, rfl⟩, List.prefix_rfl, h2⟩
  · trivial
  · trivial
  · rename_i hm
    exact absurd hm (hN op T As R hop har Γ s.refs args _ hs.1 ha).1

/-! ### Application -/

/-- A call does not go wrong. -/
def AppOk (H : Heap) (app : SVal → SVal → St SFn → SRes SVal) : Prop :=
  ∀ {Γ : List Ptr} {s : St SFn} {f a : SVal} {F A R : Ptr}, StateOk H Γ s → VT H Γ f F → IsNode H F (.func A R) → VT H Γ a A →
    Good H Γ s.refs (fun Γ' v => VT H Γ' v R) (app f a s)

theorem all2_more {Γ Γ' : List Ptr} {vs : List SVal} {Ts : List Ptr} (h : All2 (VT H Γ) vs Ts) (hp : Γ <+: Γ') : All2 (VT H Γ') vs Ts :=
  h.mono fun _ _ h => h.more hp

theorem applyAll_good {app} (happ : AppOk H app) {F : Ptr} {As : List Ptr} {T : Ptr} (har : Arrows H F As T) : ∀ {Γ} {s : St SFn} {f : SVal} {as : List SVal},
    StateOk H Γ s → VT H Γ f F → All2 (VT H Γ) as As → Good H Γ s.refs (fun Γ' v => VT H Γ' v T) (Compile.applyAll app f as s) := by
  induction har with
  | nil hs =>
    intro Γ s f as hS hf has
    cases has
    exact Good.ok hS (hf.conv hs)
  | cons h1 h2 _ ih =>
    intro Γ s f as hS hf has
    cases has with
    | cons ha has =>
      simp only [Compile.applyAll]
      refine (happ hS hf h1 (ha.conv h2)).bind fun Γ' v s' hp hS' _ hv => ?_
      exact ih hS' hv (all2_more has hp)

theorem spine {E : TEnv} : (f : Tc) → {F : Ptr} → TcTy H E f F → ∃ Fh As, TcTy H E f.head Fh ∧ TcsTy H E f.args As ∧ Arrows H Fh As.reverse F
  | .apply f a, F, h => by
    simp only [TcTy] at h
    obtain ⟨G, A, R, h1, h2, h3, h4⟩ := h
    obtain ⟨Fh, As, h5, h6, h7⟩ := spine f h1
    refine ⟨Fh, A :: As, h5, ?_, ?_⟩
    · simp only [Tc.args, TcsTy]; exact ⟨A, As, rfl, h3, h6⟩
    · rw [List.reverse_cons]; exact h7.snoc h2 h4
  | .typeVal, F, h | .var _, F, h | .letE .., F, h | .struct _, F, h | .copy .., F, h | .union .., F, h | .select .., F, h | .access .., F, h
  | .func .., F, h | .list _, F, h | .literal _, F, h => ⟨F, [], h, by simp [Tc.args, TcsTy], .nil sameType_refl⟩

theorem BrsTy.find {E : TEnv} {T : Ptr} {n : Nat} {t : Tc} : {bs : Brs} → BrsTy H E bs T → bs.find n = some t → TcTy H E t T
  | .nil, _, h => by simp [Brs.find] at h
  | .cons tag u bs, hb, h => by
    simp only [BrsTy] at hb
    simp only [Brs.find] at h
    split at h
    · cases h; exact hb.1
    · exact BrsTy.find hb.2 h

mutual
theorem eval_good {app} (happ : AppOk H app) (t : Tc) {E : TEnv} {env : Env} {Γ : List Ptr} {s : St SFn} {T : Ptr} (ht : TcTy H E t T) (hE : EnvTy H Γ E env)
    (hs : StateOk H Γ s) : Good H Γ s.refs (fun Γ' v => VT H Γ' v T) (Compile.eval app t env s) := by
  match t with
  | .typeVal =>
    simp only [TcTy] at ht
    obtain ⟨x, hx⟩ := ht
    rw [Compile.eval]; exact Good.ok hs (.type hx)
  | .var v =>
    simp only [TcTy] at ht
    obtain ⟨S, h1, h2⟩ := ht
    obtain ⟨w, h3, h4⟩ := hE.get v S h1
    rw [Compile.eval, h3]; exact Good.ok hs (h4.conv h2)
  | .letE false ds b =>
    simp only [TcTy] at ht
    obtain ⟨Ts, Ts', h1, h2, h3⟩ := ht
    rw [Compile.eval]
    have hlen := h1.length
    refine (evals_good happ ds h1 (hE.push (by simp [hlen]) ?_) hs).bind fun Γ' vs s' hp hs' _ hvs => ?_
    · intro i T hi
      rw [List.getElem?_map] at hi
      cases hx : Ts[i]? <;> simp [hx] at hi
    · have hvs' : All2 (VT H Γ') vs Ts' := All2.right_trans (R := VT H _) (S := SameType H []) (Q := VT H _) (fun _ _ _ h h' => VT.conv h h') hvs h2
      refine eval_good happ b h3 ((hE.more hp).push (by simp [hvs'.length_eq]) ?_) hs'
      intro i T hi
      rw [List.getElem?_map] at hi ⊢
      cases hx : Ts'[i]? with
      | none => simp [hx] at hi
      | some T' =>
        simp [hx] at hi; subst hi
        have hlt : i < vs.length := by rw [hvs'.length_eq]; exact (List.getElem?_eq_some_iff.mp hx).1
        exact ⟨vs[i], by simp [List.getElem?_eq_getElem hlt], all2_get hvs' i _ _ (List.getElem?_eq_getElem hlt) hx⟩
  | .letE true ds b =>
    simp only [TcTy] at ht
    obtain ⟨Ts, Ts', h1, h2, h3⟩ := ht
    rw [Compile.eval]
    have hlen := h1.length
    simp only [newRefs_eq, ← hlen]
    have hs0 : StateOk H (Γ ++ Ts) { s with refs := s.refs ++ List.replicate Ts.length none } := ⟨hs.1.new Ts, hs.2⟩
    have hE0 : EnvTy H (Γ ++ Ts) (E.push (Ts.map fun t => if true = true then some t else none)) { env with locals := env.locals ++ ((List.range' s.refs.length Ts.length).map Val.ref).map some } := by
      refine (hE.more (List.prefix_append Γ Ts)).push (by simp) ?_
      intro i T hi
      rw [List.getElem?_map] at hi
      cases hx : Ts[i]? with
      | none => simp [hx] at hi
      | some T' =>
        simp [hx] at hi; subst hi
        have hlt := (List.getElem?_eq_some_iff.mp hx).1
        refine ⟨.ref (s.refs.length + i), by simp [List.getElem?_range', hlt], .ref (S := T') ?_ sameType_refl⟩
        rw [← hs.1.len, List.getElem?_append_right (by omega)]
        simpa using hx
    have hev := evals_good happ ds h1 hE0 (s := { s with refs := s.refs ++ List.replicate Ts.length none }) hs0
    revert hev
    generalize Compile.evals app ds { env with locals := env.locals ++ ((List.range' s.refs.length Ts.length).map Val.ref).map some }
      { s with refs := s.refs ++ List.replicate Ts.length none } = r
    intro hev
    cases r with
    | abort => trivial
    | oof => trivial
    | stop => trivial
    | crash => exact hev
    | wild => exact hev
    | ok vs s1 =>
      obtain ⟨Γ1, g1, g2, g3, g4⟩ := hev
      simp only [Res.bind]
      have hpre : s.refs <+: s1.refs := (List.prefix_append _ _).trans g3
      have has := assignAll_good Ts.length (k := s.refs.length) (s := s1) (vs := vs) (Ts := Ts) g2 g4.length_eq.symm g4
        (by
          intro i hi
          obtain ⟨x, hx⟩ := g3
          rw [← hx]
          simp only
          rw [List.getElem?_append_left (by simp; omega), List.getElem?_append_right (by omega), List.getElem?_replicate, if_pos (by omega)])
        (by
          intro i T hi
          obtain ⟨x, hx⟩ := g1
          have hlt := (List.getElem?_eq_some_iff.mp hi).1
          rw [← hx, ← hs.1.len, List.getElem?_append_left (by simp; omega), List.getElem?_append_right (by omega)]
          simpa using hi)
      revert has
      generalize Compile.assignAll ((List.range' s.refs.length Ts.length).map Val.ref) vs s1 = r2
      intro has
      cases r2 with
      | abort => trivial
      | ok u s2 =>
        simp only at has ⊢
        obtain ⟨k1, k2, k3⟩ := has
        have hpre2 : s.refs <+: s2.refs := by
          rw [List.prefix_iff_eq_take]
          apply List.ext_getElem?
          intro i
          rw [List.getElem?_take]
          split
          · rename_i hi
            rw [k2 i hi]
            obtain ⟨x, hx⟩ := hpre
            rw [← hx, List.getElem?_append_left hi]
          · rw [List.getElem?_eq_none (by omega)]
        have hp1 : Γ <+: Γ1 := (List.prefix_append _ _).trans g1
        have hvs' : All2 (VT H Γ1) vs Ts' := All2.right_trans (R := VT H _) (S := SameType H []) (Q := VT H _) (fun _ _ _ h h' => VT.conv h h') g4 h2
        have hfin := eval_good happ b (s := s2) h3 ((hE.more hp1).push (vs := vs.map some) (by simp [hvs'.length_eq]) (by
          intro i T hi
          rw [List.getElem?_map] at hi ⊢
          cases hx : Ts'[i]? with
          | none => simp [hx] at hi
          | some T' =>
            simp [hx] at hi; subst hi
            have hlt : i < vs.length := by rw [hvs'.length_eq]; exact (List.getElem?_eq_some_iff.mp hx).1
            exact ⟨vs[i], by simp [List.getElem?_eq_getElem hlt], all2_get hvs' i _ _ (List.getElem?_eq_getElem hlt) hx⟩)) k1
        revert hfin
        generalize Compile.eval app b { env with locals := env.locals ++ vs.map some } s2 = r3
        intro hfin
        cases r3 with
        | ok v s3 =>
          obtain ⟨Γ2, m1, m2, m3, m4⟩ := hfin
          exact ⟨Γ2, hp1.trans m1, m2, hpre2.trans m3, m4⟩
        | _ => exact hfin
      | crash => exact has.elim
      | wild => exact has.elim
      | oof => exact has.elim
      | stop => exact has.elim
  | .struct fs =>
    simp only [TcTy] at ht
    obtain ⟨fields, h1, h2⟩ := ht
    rw [Compile.eval]
    refine (evals_good happ fs h2 hE hs).bind fun Γ' vs s' _ hs' _ hvs => Good.ok hs' (.struct h1 (by simpa using hvs.length_eq) ?_)
    intro i v f hi hf
    exact all2_get hvs i v f.2 hi (by simp [hf])
  | .copy src fs =>
    simp only [TcTy] at ht
    obtain ⟨S, fields, h1, h2, h3, h4⟩ := ht
    rw [Compile.eval]
    refine (eval_good happ src h1 hE hs).bind fun Γ' v s' hp hs' _ hv => ?_
    refine (evalFlds_good happ v 0 fs (by simpa using h4) (hE.more hp) hs' hv h2).bind fun Γ2 vs s2 _ hs2 _ hvs => Good.ok hs2 (VT.conv (.struct h2 (by simpa using hvs.length_eq) ?_) h3)
    intro i v f hi hf
    exact all2_get hvs i v f.2 hi (by simp [hf])
  | .union tag a =>
    simp only [TcTy] at ht
    obtain ⟨fields, x, S, h1, h2, h3⟩ := ht
    rw [Compile.eval]
    exact (eval_good happ a h3 hE hs).bind fun Γ' v s' _ hs' _ hv => Good.ok hs' (.union h1 h2 hv)
  | .select c nt bs d =>
    simp only [TcTy] at ht
    obtain ⟨C, fields, h0, h1, h2, h3, h4⟩ := ht
    rw [Compile.eval]
    refine (eval_good happ c h1 hE hs).bind fun Γ' v s' hp hs' _ hv => ?_
    refine (tagBelow_good h0 hs' hv h2).bind fun Γ2 tag s2 hp2 hs2 _ e => ?_
    split
    · rename_i b hb
      exact eval_good happ b (h3.find hb) (hE.more (hp.trans hp2)) hs2
    · exact eval_good happ d h4 (hE.more (hp.trans hp2)) hs2
  | .access false o i =>
    simp only [TcTy] at ht
    obtain ⟨O, fields, x, S, h1, h2, h3, h4⟩ := ht
    rw [Compile.eval]
    refine (eval_good happ o h1 hE hs).bind fun Γ' v s' hp hs' _ hv => ?_
    have := structField_good hs' hv (by simpa using h2) h3
    exact this.imp fun Γ2 w hw => hw.conv h4
  | .access true o i =>
    simp only [TcTy] at ht
    obtain ⟨O, fields, x, S, h1, h2, h3, h4⟩ := ht
    rw [Compile.eval]
    refine (eval_good happ o h1 hE hs).bind fun Γ' v s' hp hs' _ hv => ?_
    have := unionField_good hs' hv (by simpa using h2) h3
    exact this.imp fun Γ2 w hw => hw.conv h4
  | .func scope b =>
    simp only [TcTy] at ht
    obtain ⟨a, r, a0, r0, Ss, h1, h2, h3, h4, h5⟩ := ht
    obtain ⟨vs, h6, h7⟩ := capture_good hE h4
    rw [Compile.eval, h6]
    exact Good.ok hs (.fn h1 h2 h3 h7.length_eq (all2_get h7) h5)
  | .apply f a =>
    simp only [TcTy] at ht
    obtain ⟨F, A, R, h1, h2, h3, h4⟩ := ht
    obtain ⟨Fh, As, h5, h6, h7⟩ := spine f h1
    rw [Compile.eval]
    refine (eval_good happ f.head h5 hE hs).bind fun Γ' v s' hp hs' _ hv => ?_
    refine (evals_good happ (.cons a f.args) (Ts := A :: As) (by simp only [TcsTy]; exact ⟨A, As, rfl, h3, h6⟩) (hE.more hp) hs').bind fun Γ2 vs s2 hp2 hs2 _ hvs => ?_
    have := hvs.reverse
    rw [List.reverse_cons] at this
    exact applyAll_good happ (h7.snoc h2 h4) hs2 (hv.more hp2) this
  | .list is =>
    simp only [TcTy] at ht
    obtain ⟨L, e, h1, h2, h3⟩ := ht
    rw [Compile.eval]
    refine (evals_good happ is h3 hE hs).bind fun Γ' vs s' _ hs' _ hvs => Good.ok hs' (VT.conv (newList_ty h1 vs fun v hv => ?_) h2)
    obtain ⟨T', hT, hv'⟩ := hvs.mem_left hv
    rw [List.eq_of_mem_replicate hT] at hv'
    exact hv'
  | .literal ls =>
    simp only [TcTy] at ht
    obtain ⟨L, e, fields, h1, h2, h3, h4⟩ := ht
    rw [Compile.eval]
    exact Good.ok hs (VT.conv (newLiteral_ty h1 h3 h4) h2)
termination_by t.size
decreasing_by
  all_goals simp only [Tc.size, Tcs.size]
  all_goals first
    | omega
    | (have := Tc.head_size f; omega)
    | (have := Tc.args_size f; omega)
    | (have := Brs.find_size _ (by assumption); omega)
theorem evals_good {app} (happ : AppOk H app) (ts : Tcs) {E : TEnv} {env : Env} {Γ : List Ptr} {s : St SFn} {Ts : List Ptr} (ht : TcsTy H E ts Ts) (hE : EnvTy H Γ E env)
    (hs : StateOk H Γ s) : Good H Γ s.refs (fun Γ' vs => All2 (VT H Γ') vs Ts) (Compile.evals app ts env s) := by
  match ts with
  | .nil =>
    simp only [TcsTy] at ht
    subst ht
    rw [Compile.evals]; exact Good.ok hs .nil
  | .cons t ts =>
    simp only [TcsTy] at ht
    obtain ⟨T, Ts', rfl, h1, h2⟩ := ht
    rw [Compile.evals]
    refine (eval_good happ t h1 hE hs).bind fun Γ' v s' hp hs' _ hv => ?_
    refine (evals_good happ ts h2 (hE.more hp) hs').bind fun Γ2 vs s2 hp2 hs2 _ hvs => Good.ok hs2 (.cons (hv.more hp2) hvs)
termination_by ts.size
decreasing_by all_goals simp only [Tcs.size]; omega
theorem evalFlds_good {app} (happ : AppOk H app) (src : SVal) (i : Nat) (fs : Flds) {E : TEnv} {env : Env} {Γ : List Ptr} {s : St SFn} {S : Ptr} {fields : List (Name × Ptr)}
    (ht : FldsTy H E fs ((fields.map (·.2)).drop i)) (hE : EnvTy H Γ E env) (hs : StateOk H Γ s) (hsrc : VT H Γ src S) (hS : IsNode H S (.data .struct fields)) :
    Good H Γ s.refs (fun Γ' vs => All2 (VT H Γ') vs ((fields.map (·.2)).drop i)) (Compile.evalFlds app src i fs env s) := by
  match fs with
  | .nil =>
    simp only [FldsTy] at ht
    rw [ht, Compile.evalFlds]; exact Good.ok hs .nil
  | .keep fs =>
    simp only [FldsTy] at ht
    obtain ⟨T, Ts', e, h2⟩ := ht
    have hi : i < fields.length := by
      rcases Nat.lt_or_ge i fields.length with h | h
      · exact h
      · rw [List.drop_eq_nil_of_le (by simpa using h)] at e; cases e
    rw [List.drop_eq_getElem_cons (by simpa using hi)] at e ⊢
    cases e
    rw [Compile.evalFlds]
    refine (structField_good (f := fields[i]) hs hsrc hS (List.getElem?_eq_getElem hi)).bind fun Γ' v s' hp hs' _ hv => ?_
    refine (evalFlds_good happ src (i + 1) fs h2 (hE.more hp) hs' (hsrc.more hp) hS).bind fun Γ2 vs s2 hp2 hs2 _ hvs => Good.ok hs2 (.cons (by simpa using hv.more hp2) hvs)
  | .set t fs =>
    simp only [FldsTy] at ht
    obtain ⟨T, Ts', e, h1, h2⟩ := ht
    have hi : i < fields.length := by
      rcases Nat.lt_or_ge i fields.length with h | h
      · exact h
      · rw [List.drop_eq_nil_of_le (by simpa using h)] at e; cases e
    rw [List.drop_eq_getElem_cons (by simpa using hi)] at e ⊢
    cases e
    rw [Compile.evalFlds]
    refine (eval_good happ t h1 hE hs).bind fun Γ' v s' hp hs' _ hv => ?_
    refine (evalFlds_good happ src (i + 1) fs h2 (hE.more hp) hs' (hsrc.more hp) hS).bind fun Γ2 vs s2 hp2 hs2 _ hvs => Good.ok hs2 (.cons (hv.more hp2) hvs)
termination_by fs.size
decreasing_by all_goals simp only [Flds.size]; omega
end

theorem apply_good (hN : NativesOk H) : (n : Nat) → ∀ {Γ : List Ptr} {s : St SFn} {f a : SVal} {F A R : Ptr}, s.fuel = n → StateOk H Γ s → VT H Γ f F → IsNode H F (.func A R) → VT H Γ a A →
    Good H Γ s.refs (fun Γ' v => VT H Γ' v R) (Compile.apply f a s) := by
  intro n
  induction n using Nat.strongRecOn with
  | _ n ih =>
  intro Γ s f a F A R hn hs hf hF ha
  rw [Compile.apply]
  have hst := strict_good hs hf
  cases hc : Compile.strict s f with
  | abort => trivial
  | oof => trivial
  | stop => trivial
  | crash => rw [hc] at hst; exact hst
  | wild => rw [hc] at hst; exact hst
  | ok g s1 =>
    rw [hc] at hst
    have := strict_state hc
    subst this
    obtain ⟨Γ', _, _, _, rfl, hg, hr⟩ := hst
    simp only [Res.bind]
    cases hg with
    | type h1 => cases h1.unique hF
    | struct h1 => cases h1.unique hF
    | union h1 => cases h1.unique hF
    | ref => exact absurd rfl (hr _)
    | @native op more vs T0 Ss T h1 h2 h3 h4 h5 =>
      have har := h2.snoc hF sameType_refl
      have hvs : All2 (VT H Γ') (vs ++ [a]) (Ss ++ [A]) := (all2_of_get h4 h5).append (.cons ha .nil)
      match more, h3 with
      | k + 1, h3 =>
        obtain ⟨A', R', k1, k2⟩ := h3
        cases k1.unique hF
        exact Good.ok hs (.native (by rw [List.length_append, List.length_singleton, Nat.add_assoc, Nat.add_comm 1]; exact h1) har k2 hvs.length_eq (all2_get hvs))
      | 0, _ =>
        simp only
        split
        · trivial
        · exact callOut_good hN (s := { s1 with fuel := s1.fuel - 1 }) hs (by rw [List.length_append, ← h4]; exact h1) har hvs
    | @fn body vs T a1 r1 a0 r0 Ss h1 h2 h3 h4 h5 h6 =>
      cases h1.unique hF
      have hE := envTy_body h4 h5 (ha.conv h2)
      have hrun : Good H Γ' s1.refs (fun Γ' v => VT H Γ' v R) (if s1.fuel = 0 then .oof
          else Compile.eval (fun f a s' => if s'.fuel < s1.fuel then Compile.apply f a s' else .oof) body ⟨vs, [a], []⟩ { s1 with fuel := s1.fuel - 1 }) := by
        split
        · trivial
        · refine Good.imp (eval_good (E := ⟨Ss, [a0], []⟩) ?_ body h6 hE (s := { s1 with fuel := s1.fuel - 1 }) hs) fun _ _ h => h.conv h3
          intro Γ2 s2 f2 a2 F2 A2 R2 g1 g2 g3 g4
          simp only
          split
          · rename_i hlt
            exact ih s2.fuel (by omega) rfl g1 g2 g3 g4
          · trivial
      match body, h6, hrun with
      | .func sc b, h6, _ =>
        simp only [TcTy] at h6
        obtain ⟨a2, r2, a3, r3, Ss2, k1, k2, k3, k4, k5⟩ := h6
        obtain ⟨ws, k6, k7⟩ := capture_good hE k4
        simp only [k6]
        exact Good.ok hs (VT.conv (.fn k1 k2 k3 k7.length_eq (all2_get k7) k5) h3)
      | .typeVal, _, h | .var _, _, h | .letE .., _, h | .struct _, _, h | .copy .., _, h | .union .., _, h | .select .., _, h | .access .., _, h
      | .apply .., _, h | .list _, _, h | .literal _, _, h => exact h

theorem apply_ok (hN : NativesOk H) : AppOk H Compile.apply := fun hs hf hF ha => apply_good hN _ rfl hs hf hF ha

end
end Verif.Elab
