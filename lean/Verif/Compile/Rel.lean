import Verif.Compile.Succeeds
import Verif.Compile.Outside
/-
When a value of the source and a value of the machine are the same value, and when two runs agree.
-/
namespace Verif.Compile

/-- Giving a function arguments while its body is just another function. -/
def peel : SFn → List SVal → Option SFn
  | f, [] => some f
  | .clo (.func scope b) statics, a :: as =>
    (capture ⟨statics, [a], []⟩ scope).bind fun vs => peel (.clo b vs) as
  | .native op (k + 1) args, a :: as => peel (.native op k (args ++ [a])) as
  | _, _ :: _ => none

mutual
inductive VRel : SVal → TVal → Prop
  | type : VRel .type .type
  | struct {fs gs} : All2 VRel fs gs → VRel (.struct fs) (.struct gs)
  | union {tag a b} : VRel a b → VRel (.union tag a) (.union tag b)
  | ref {r} : VRel (.ref r) (.ref r)
  | fn {f g} : FnRel f g → VRel (.fn f) (.fn g)
inductive FnRel : SFn → TFn → Prop
  | func {body svals tvals code block bl bl'} : body.Scoped svals.length 1 [] → All2 VRel svals tvals →
      CompFunc svals.length (merge svals.length body).1 (merge svals.length body).2 block bl (code, bl') →
      FnRel (.clo body svals) (.func code tvals)
  | pap {c0 g as0 pargs c} : FnRel c0 g → All2 VRel as0 pargs → pargs.length < g.arity → peel c0 as0 = some c →
      FnRel c (.pap (g.arity - pargs.length) g pargs)
  | native {op more} : FnRel (.native op more []) (.native op more)
end

/-- Related states: as many bodies may be entered, and the references have related values. -/
inductive ORel : Option SVal → Option TVal → Prop
  | none : ORel none none
  | some {v w} : VRel v w → ORel (some v) (some w)

structure SRel (s : St SFn) (s' : St TFn) : Prop where
  fuel : s.fuel = s'.fuel
  refs : All2 ORel s.refs s'.refs
  out : s.out = s'.out

/-- Related results; after a result at most `m` bodies may be entered.  `wild` is not related to
anything. -/
inductive RRel {α β : Type} (m : Nat) (P : α → β → Prop) : SRes α → TRes β → Prop
  | ok {a b s s'} : P a b → SRel s s' → s.fuel ≤ m → RRel m P (.ok a s) (.ok b s')
  | abort : RRel m P .abort .abort
  | crash : RRel m P .crash .crash
  | oof : RRel m P .oof .oof
  | stop {h} : RRel m P (.stop h) (.stop h)

theorem RRel.bind {α β γ δ : Type} {m m' : Nat} {P : α → β → Prop} {Q : γ → δ → Prop} {r r' k k'} (h : RRel m P r r')
    (hk : ∀ a b s s', P a b → SRel s s' → s.fuel ≤ m → RRel m' Q (k a s) (k' b s')) :
    RRel m' Q (Res.bind r k) (Res.bind r' k') := by
  cases h with
  | ok p hs hf => exact hk _ _ _ _ p hs hf
  | abort => exact .abort
  | crash => exact .crash
  | oof => exact .oof
  | stop => exact .stop

theorem RRel.mono {α β : Type} {m m' : Nat} {P Q : α → β → Prop} {r r'} (h : RRel m P r r') (hm : m ≤ m') (hP : ∀ a b, P a b → Q a b) :
    RRel m' Q r r' := by
  cases h with
  | ok p hs hf => exact .ok (hP _ _ p) hs (Nat.le_trans hf hm)
  | abort => exact .abort
  | crash => exact .crash
  | oof => exact .oof
  | stop => exact .stop

theorem bind_assoc {F α β γ} (r : Res F α) (k : α → St F → Res F β) (k' : β → St F → Res F γ) :
    (r.bind k).bind k' = r.bind fun a s => (k a s).bind k' := by cases r <;> rfl

theorem bind_ok {F α} (r : Res F α) : r.bind .ok = r := by cases r <;> rfl

/-! Values and references. -/

theorem SRel.get {s s'} (h : SRel s s') (r : Nat) :
    (s.refs[r]? = none ∧ s'.refs[r]? = none) ∨ ∃ a b, s.refs[r]? = some a ∧ s'.refs[r]? = some b ∧ ORel a b := by
  by_cases hr : r < s.refs.length
  · have hr' : r < s'.refs.length := by rw [← h.refs.length_eq]; exact hr
    exact .inr ⟨_, _, List.getElem?_eq_getElem hr, List.getElem?_eq_getElem hr', h.refs.get r hr hr'⟩
  · have hr' : ¬ r < s'.refs.length := by rw [← h.refs.length_eq]; exact hr
    exact .inl ⟨List.getElem?_eq_none (by omega), List.getElem?_eq_none (by omega)⟩

theorem unwrap_rel {s s'} (h : SRel s s') : (n : Nat) → {v : SVal} → {w : TVal} → VRel v w →
    ORel (unwrap s.refs n v) (unwrap s'.refs n w)
  | 0, _, _, _ => .none
  | n + 1, _, _, .ref (r := r) => by
    simp only [unwrap]
    rcases h.get r with ⟨h1, h2⟩ | ⟨a, b, h1, h2, h3⟩
    · rw [h1, h2]; exact .none
    · rw [h1, h2]
      cases h3 with
      | none => exact .some .ref
      | some hv => exact unwrap_rel h n hv
  | n + 1, _, _, .type => .some .type
  | n + 1, _, _, .struct hv => .some (.struct hv)
  | n + 1, _, _, .union hv => .some (.union hv)
  | n + 1, _, _, .fn hv => .some (.fn hv)

/-- Values that are not references. -/
def notRef {F} : Val F → Prop
  | .ref _ => False
  | _ => True

theorem strict_rel {m s s' v w} (h : SRel s s') (hv : VRel v w) (hm : s.fuel ≤ m) :
    RRel m (fun a b => VRel a b ∧ notRef a ∧ strict s v = .ok a s ∧ strict s' w = .ok b s') (strict s v) (strict s' w) := by
  unfold strict
  have := unwrap_rel h (s.refs.length + 1) hv
  rw [← h.refs.length_eq]
  generalize unwrap s.refs (s.refs.length + 1) v = x at this ⊢
  generalize unwrap s'.refs (s.refs.length + 1) w = y at this ⊢
  cases this with
  | none => exact .crash
  | some hv =>
    cases hv with
    | ref => exact .abort
    | type => exact .ok ⟨.type, trivial, rfl, rfl⟩ h hm
    | struct h' => exact .ok ⟨.struct h', trivial, rfl, rfl⟩ h hm
    | union h' => exact .ok ⟨.union h', trivial, rfl, rfl⟩ h hm
    | fn h' => exact .ok ⟨.fn h', trivial, rfl, rfl⟩ h hm

/-- A value that is not a reference is itself. -/
theorem strict_notRef {F} {s : St F} {v : Val F} (h : notRef v) : strict s v = .ok v s := by
  cases v <;> first | rfl | exact h.elim

theorem structField_rel {m s s' v w} (i : Nat) (h : SRel s s') (hv : VRel v w) (hm : s.fuel ≤ m) :
    RRel m VRel (structField v i s) (structField w i s') := by
  unfold structField
  refine (strict_rel h hv hm).bind fun a b s s' ⟨h1, _⟩ hs hf => ?_
  cases h1 with
  | @struct fs gs ha =>
    by_cases hi : i < fs.length
    · have hi' : i < gs.length := by rw [← ha.length_eq]; exact hi
      simp only [List.getElem?_eq_getElem hi, List.getElem?_eq_getElem hi']
      exact .ok (ha.get i hi hi') hs hf
    · have hi' : ¬ i < gs.length := by rw [← ha.length_eq]; exact hi
      simp only [List.getElem?_eq_none (Nat.le_of_not_lt hi), List.getElem?_eq_none (Nat.le_of_not_lt hi')]
      exact .crash
  | _ => exact .crash

theorem unionTag_rel {m s s' v w} (h : SRel s s') (hv : VRel v w) (hm : s.fuel ≤ m) :
    RRel m (· = ·) (unionTag v s) (unionTag w s') := by
  unfold unionTag
  refine (strict_rel h hv hm).bind fun a b s s' ⟨h1, _⟩ hs hf => ?_
  cases h1 with
  | union ha => exact .ok rfl hs hf
  | _ => exact .crash

theorem tagBelow_rel {m s s' v w} (nt : Nat) (h : SRel s s') (hv : VRel v w) (hm : s.fuel ≤ m) :
    RRel m (· = ·) (tagBelow nt v s) (tagBelow nt w s') := by
  unfold tagBelow
  refine (unionTag_rel h hv hm).bind fun a b s s' h1 hs hf => ?_
  cases h1
  split
  · exact .ok rfl hs hf
  · exact .crash

theorem unionField_rel {m s s' v w} (i : Nat) (h : SRel s s') (hv : VRel v w) (hm : s.fuel ≤ m) :
    RRel m VRel (unionField v i s) (unionField w i s') := by
  unfold unionField
  refine (strict_rel h hv hm).bind fun a b s s' ⟨h1, _⟩ hs hf => ?_
  cases h1 with
  | union ha =>
    simp only
    split
    · exact .ok ha hs hf
    · exact .abort
  | _ => exact .crash

theorem newList_rel {vs : List SVal} {ws : List TVal} (h : All2 VRel vs ws) : VRel (newList vs) (newList ws) := by
  induction h with
  | nil => exact .union (.struct .nil)
  | cons h _ ih => exact .union (.struct (.cons h (.cons ih .nil)))

theorem newLiteral_rel (ls : List Nat) : VRel (newLiteral ls) (newLiteral ls) := by
  refine newList_rel ?_
  induction ls with
  | nil => exact .nil
  | cons l ls ih => exact .cons (.union (.struct .nil)) ih

theorem newRef_rel {s s'} (h : SRel s s') : VRel (newRef s).1 (newRef s').1 ∧ SRel (newRef s).2 (newRef s').2 ∧
    (newRef s).2.fuel = s.fuel := by
  refine ⟨?_, ⟨h.fuel, h.refs.append (.cons .none .nil), h.out⟩, rfl⟩
  unfold newRef
  rw [h.refs.length_eq]
  exact .ref

theorem newRefs_rel : (n : Nat) → {s : St SFn} → {s' : St TFn} → SRel s s' →
    All2 VRel (newRefs n s).1 (newRefs n s').1 ∧ SRel (newRefs n s).2 (newRefs n s').2 ∧ (newRefs n s).2.fuel = s.fuel
  | 0, _, _, h => ⟨.nil, h, rfl⟩
  | n + 1, s, s', h => by
    obtain ⟨h1, h2, h3⟩ := newRef_rel h
    obtain ⟨h4, h5, h6⟩ := newRefs_rel n h2
    exact ⟨.cons h1 h4, h5, h6.trans h3⟩

theorem newRefs_length {F} : (n : Nat) → (s : St F) → (newRefs n s).1.length = n
  | 0, _ => rfl
  | n + 1, s => by simp [newRefs, newRefs_length n]

theorem All2.set {α β : Type} {R : α → β → Prop} {l : List α} {l' : List β} (h : All2 R l l') {a b} (hab : R a b) (i : Nat) :
    All2 R (l.set i a) (l'.set i b) := by
  induction h generalizing i with
  | nil => exact .nil
  | cons h ht ih =>
    cases i with
    | zero => exact .cons hab ht
    | succ i => exact .cons h (ih i)

theorem assignRef_rel {m s s' r r' v w} (h : SRel s s') (hr : VRel r r') (hv : VRel v w) (hm : s.fuel ≤ m) :
    RRel m (fun _ _ => True) (assignRef r v s) (assignRef r' w s') := by
  cases hr with
  | ref =>
    rename_i i
    simp only [assignRef]
    rw [← h.refs.length_eq]
    have := unwrap_rel h (s.refs.length + 1) hv
    generalize unwrap s.refs (s.refs.length + 1) v = x at this ⊢
    generalize unwrap s'.refs (s.refs.length + 1) w = y at this ⊢
    have done : ∀ {a b}, VRel a b → RRel m (fun _ _ => True) (.ok () { s with refs := s.refs.set i (some a) })
        (.ok () { s' with refs := s'.refs.set i (some b) }) :=
      fun hv => .ok trivial ⟨h.fuel, All2.set h.refs (.some hv) i, h.out⟩ hm
    cases this with
    | none => exact .crash
    | some hv =>
      cases hv with
      | ref =>
        simp only
        split
        · exact .abort
        · exact done .ref
      | type => exact done .type
      | struct h' => exact done (.struct h')
      | union h' => exact done (.union h')
      | fn h' => exact done (.fn h')
  | _ => exact .crash

/-! Functions implemented in C. -/

theorem unwrap_shape {s s'} (h : SRel s s') (v : SVal) (w : TVal) (hv : VRel v w) :
    OptRel (Shape VRel) (unwrap s.refs (s.refs.length + 1) v) (unwrap s'.refs (s'.refs.length + 1) w) := by
  have := unwrap_rel h (s.refs.length + 1) hv
  rw [← h.refs.length_eq]
  generalize unwrap s.refs (s.refs.length + 1) v = x at this ⊢
  generalize unwrap s'.refs (s.refs.length + 1) w = y at this ⊢
  cases this with
  | none => exact .none
  | some hv =>
    cases hv with
    | ref => exact .some .ref
    | type => exact .some .type
    | struct h' => exact .some (.struct h')
    | union h' => exact .some (.union h')
    | fn h' => exact .some .fn

theorem makesRel : Makes VRel (fun op more => SFn.native op more []) TFn.native := ⟨.struct, .union, fun _ _ => .fn .native⟩

/-- A call outside has the same effect. -/
theorem callOut_rel {m s s' op as bs} (h : SRel s s') (ha : All2 VRel as bs) (hm : s.fuel ≤ m) :
    RRel m VRel (callOut (fun op more => .native op more []) op as s) (callOut .native op bs s') := by
  have := callOut_same makesRel (unwrap_shape h) h.out ha op
  generalize callOut _ op as s = x at this ⊢
  generalize callOut _ op bs s' = y at this ⊢
  cases this with
  | ok hv => exact .ok hv ⟨h.fuel, h.refs, rfl⟩ hm
  | abort => exact .abort
  | crash => exact .crash
  | stop => exact .stop

end Verif.Compile
