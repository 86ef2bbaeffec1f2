import Verif.Compile.Value
/-
Two calls of a function implemented in C with values that are the same, in some sense, are seen as the same call from outside and
give values that are the same.  The sense is that of any of the relations between the values of two languages.
-/
namespace Verif.Compile

/-- The same constructor, with the same values in it.  Any two functions will do: they cannot be told apart by looking. -/
inductive Shape {F G : Type} (R : Val F → Val G → Prop) : Val F → Val G → Prop
  | type : Shape R .type .type
  | struct {fs gs} : All2 R fs gs → Shape R (.struct fs) (.struct gs)
  | union {tag a b} : R a b → Shape R (.union tag a) (.union tag b)
  | ref {r} : Shape R (.ref r) (.ref r)
  | fn {f g} : Shape R (.fn f) (.fn g)

inductive OptRel {α β : Type} (R : α → β → Prop) : Option α → Option β → Prop
  | none : OptRel R none none
  | some {a b} : R a b → OptRel R (some a) (some b)

theorem view_same {F G : Type} {R : Val F → Val G → Prop} {refs refs'}
    (hu : ∀ v w, R v w → OptRel (Shape R) (unwrap refs (refs.length + 1) v) (unwrap refs' (refs'.length + 1) w)) :
    (path : List Nat) → {v : Val F} → {w : Val G} → R v w → view refs v path = view refs' w path
  | [], v, w, hv => by
    have := hu _ _ hv
    simp only [view]
    generalize unwrap refs (refs.length + 1) v = x at this ⊢
    generalize unwrap refs' (refs'.length + 1) w = y at this ⊢
    cases this with
    | none => rfl
    | some hv =>
      cases hv with
      | struct ha => simp only [ha.length_eq]
      | _ => rfl
  | i :: path, v, w, hv => by
    have := hu _ _ hv
    simp only [view]
    generalize unwrap refs (refs.length + 1) v = x at this ⊢
    generalize unwrap refs' (refs'.length + 1) w = y at this ⊢
    cases this with
    | none => rfl
    | some hv =>
      cases hv with
      | @struct fs gs ha =>
        by_cases hi : i < fs.length
        · have hi' : i < gs.length := by rw [← ha.length_eq]; exact hi
          simp only [List.getElem?_eq_getElem hi, List.getElem?_eq_getElem hi']
          exact view_same hu path (ha.get i hi hi')
        · have hi' : ¬ i < gs.length := by rw [← ha.length_eq]; exact hi
          simp only [List.getElem?_eq_none (Nat.le_of_not_lt hi), List.getElem?_eq_none (Nat.le_of_not_lt hi')]
      | union ha => exact view_same hu path ha
      | _ => rfl

/-- A relation between values which values that are made keep. -/
structure Makes {F G : Type} (R : Val F → Val G → Prop) (native : Nat → Nat → F) (native' : Nat → Nat → G) : Prop where
  struct : ∀ {fs gs}, All2 R fs gs → R (.struct fs) (.struct gs)
  union : ∀ {tag a b}, R a b → R (.union tag a) (.union tag b)
  fn : ∀ op more, R (.fn (native op more)) (.fn (native' op more))

mutual
theorem make_same {F G : Type} {R : Val F → Val G → Prop} {nf ng} (hm : Makes R nf ng) {as bs} (h : All2 R as bs) :
    (m : Made) → OptRel R (make nf as m) (make ng bs m)
  | .argument i => by
    simp only [make]
    by_cases hi : i < as.length
    · have hi' : i < bs.length := by rw [← h.length_eq]; exact hi
      rw [List.getElem?_eq_getElem hi, List.getElem?_eq_getElem hi']
      exact .some (h.get i hi hi')
    · rw [List.getElem?_eq_none (by omega), List.getElem?_eq_none (by rw [← h.length_eq]; omega)]
      exact .none
  | .struct ms => by
    have := makes_same hm h ms
    simp only [make]
    generalize makes nf as ms = x at this ⊢
    generalize makes ng bs ms = y at this ⊢
    cases this with
    | none => exact .none
    | some h => exact .some (hm.struct h)
  | .union tag m => by
    have := make_same hm h m
    simp only [make]
    generalize make nf as m = x at this ⊢
    generalize make ng bs m = y at this ⊢
    cases this with
    | none => exact .none
    | some h => exact .some (hm.union h)
  | .function op more => .some (hm.fn op more)
theorem makes_same {F G : Type} {R : Val F → Val G → Prop} {nf ng} (hm : Makes R nf ng) {as bs} (h : All2 R as bs) :
    (ms : List Made) → OptRel (All2 R) (makes nf as ms) (makes ng bs ms)
  | [] => .some .nil
  | m :: ms => by
    have h1 := make_same hm h m
    have h2 := makes_same hm h ms
    simp only [makes]
    generalize make nf as m = x at h1 ⊢
    generalize make ng bs m = y at h1 ⊢
    generalize makes nf as ms = x' at h2 ⊢
    generalize makes ng bs ms = y' at h2 ⊢
    cases h1 with
    | none => exact .none
    | some h1 =>
      cases h2 with
      | none => exact .none
      | some h2 => exact .some (.cons h1 h2)
end

/-- The results of the calls: nothing but the calls in the state has changed. -/
inductive CallSame {F G : Type} (R : Val F → Val G → Prop) (s : St F) (s' : St G) : Res F (Val F) → Res G (Val G) → Prop
  | ok {v w o} : R v w → CallSame R s s' (.ok v { s with out := o }) (.ok w { s' with out := o })
  | abort : CallSame R s s' .abort .abort
  | crash : CallSame R s s' .crash .crash
  | stop {h} : CallSame R s s' (.stop h) (.stop h)

theorem callOut_same {F G : Type} {R : Val F → Val G → Prop} {nf ng} (hm : Makes R nf ng) {s : St F} {s' : St G}
    (hu : ∀ v w, R v w → OptRel (Shape R) (unwrap s.refs (s.refs.length + 1) v) (unwrap s'.refs (s'.refs.length + 1) w))
    (ho : s.out = s'.out) {as bs} (ha : All2 R as bs) (op : Nat) : CallSame R s s' (callOut nf op as s) (callOut ng op bs s') := by
  have hv : as.map (view s.refs) = bs.map (view s'.refs) := by
    induction ha with
    | nil => rfl
    | cons h1 _ ih => rw [List.map_cons, List.map_cons, ih, show view s.refs _ = view s'.refs _ from funext fun p => view_same hu p h1]
  unfold callOut
  simp only
  rw [hv, ho]
  split
  · rename_i mk hmk
    have := make_same hm ha mk
    generalize make nf as mk = x at this ⊢
    generalize make ng bs mk = y at this ⊢
    cases this with
    | none => exact .crash
    | some hv => exact .ok hv
  · exact .abort
  · exact .stop
  · exact .crash

end Verif.Compile
