import Verif.Backend.Generic
import Verif.Compile.Program
/-
When a compiled program does the same as the interpreted one.
-/
namespace Verif.Backend
open Verif.Compile

/-- The same value, but for functions, which are related by `R`. -/
inductive VR {F G : Type} (R : F → G → Prop) : Val F → Val G → Prop
  | type : VR R .type .type
  | struct {fs gs} : All2 (VR R) fs gs → VR R (.struct fs) (.struct gs)
  | union {tag a b} : VR R a b → VR R (.union tag a) (.union tag b)
  | ref {r} : VR R (.ref r) (.ref r)
  | fn {f g} : R f g → VR R (.fn f) (.fn g)

/-- An interpreted function and a compiled one whose run function implements (`E`) its code. -/
inductive FR {B : Type} (E : Code → B → Prop) : TFn → GFn B → Prop
  | func {code body st st'} : E code body → All2 (VR (FR E)) st st' → FR E (.func code st) (.func code.numArgs body st')
  | pap {n f g as as'} : FR E f g → All2 (VR (FR E)) as as' → FR E (.pap n f as) (.pap n g as')
  | native {op more} : FR E (.native op more) (.native op more)

inductive OR {F G : Type} (R : F → G → Prop) : Option (Val F) → Option (Val G) → Prop
  | none : OR R none none
  | some {v w} : VR R v w → OR R (some v) (some w)

structure SR {F G : Type} (R : F → G → Prop) (s : St F) (s' : St G) : Prop where
  fuel : s.fuel = s'.fuel
  refs : All2 (OR R) s.refs s'.refs
  out : s.out = s'.out

/-- Related results.  Nothing is said of the compiled program if the interpreted one is `wild`, which
programs that come out of the compiler are not (C13), or `crash`, which well typed programs are not (C61). -/
inductive RR {F G : Type} (R : F → G → Prop) {α β : Type} (P : α → β → Prop) : Res F α → Res G β → Prop
  | ok {a b s s'} : P a b → SR R s s' → RR R P (.ok a s) (.ok b s')
  | abort : RR R P .abort .abort
  | crash {r} : RR R P .crash r
  | oof : RR R P .oof .oof
  | wild {r} : RR R P .wild r
  | stop {h} : RR R P (.stop h) (.stop h)

section
variable {F G : Type} {R : F → G → Prop}

theorem RR.bind {α β γ δ : Type} {P : α → β → Prop} {Q : γ → δ → Prop} {r r' k k'} (h : RR R P r r')
    (hk : ∀ a b s s', P a b → SR R s s' → RR R Q (k a s) (k' b s')) : RR R Q (Res.bind r k) (Res.bind r' k') := by
  cases h with
  | ok p hs => exact hk _ _ _ _ p hs
  | abort => exact .abort
  | crash => exact .crash
  | oof => exact .oof
  | wild => exact .wild
  | stop => exact .stop

theorem RR.mono {α β : Type} {P Q : α → β → Prop} {r r'} (h : RR R P r r') (hP : ∀ a b, P a b → Q a b) : RR R Q r r' := by
  cases h with
  | ok p hs => exact .ok (hP _ _ p) hs
  | abort => exact .abort
  | crash => exact .crash
  | oof => exact .oof
  | wild => exact .wild
  | stop => exact .stop

theorem SR.get {s : St F} {s' : St G} (h : SR R s s') (r : Nat) :
    (s.refs[r]? = none ∧ s'.refs[r]? = none) ∨ ∃ a b, s.refs[r]? = some a ∧ s'.refs[r]? = some b ∧ OR R a b := by
  by_cases hr : r < s.refs.length
  · have hr' : r < s'.refs.length := by rw [← h.refs.length_eq]; exact hr
    exact .inr ⟨_, _, List.getElem?_eq_getElem hr, List.getElem?_eq_getElem hr', h.refs.get r hr hr'⟩
  · have hr' : ¬ r < s'.refs.length := by rw [← h.refs.length_eq]; exact hr
    exact .inl ⟨List.getElem?_eq_none (by omega), List.getElem?_eq_none (by omega)⟩

theorem unwrap_vr {s : St F} {s' : St G} (h : SR R s s') : (n : Nat) → {v : Val F} → {w : Val G} → VR R v w →
    OR R (unwrap s.refs n v) (unwrap s'.refs n w)
  | 0, _, _, _ => .none
  | n + 1, _, _, .ref (r := r) => by
    simp only [unwrap]
    rcases h.get r with ⟨h1, h2⟩ | ⟨a, b, h1, h2, h3⟩
    · rw [h1, h2]; exact .none
    · rw [h1, h2]
      cases h3 with
      | none => exact .some .ref
      | some hv => exact unwrap_vr h n hv
  | n + 1, _, _, .type => .some .type
  | n + 1, _, _, .struct hv => .some (.struct hv)
  | n + 1, _, _, .union hv => .some (.union hv)
  | n + 1, _, _, .fn hv => .some (.fn hv)

theorem strict_rr {s : St F} {s' : St G} {v w} (h : SR R s s') (hv : VR R v w) :
    RR R (fun a b => VR R a b ∧ notRef a) (strict s v) (strict s' w) := by
  unfold strict
  have := unwrap_vr h (s.refs.length + 1) hv
  rw [← h.refs.length_eq]
  generalize unwrap s.refs (s.refs.length + 1) v = x at this ⊢
  generalize unwrap s'.refs (s.refs.length + 1) w = y at this ⊢
  cases this with
  | none => exact .crash
  | some hv =>
    cases hv with
    | ref => exact .abort
    | type => exact .ok ⟨.type, trivial⟩ h
    | struct h' => exact .ok ⟨.struct h', trivial⟩ h
    | union h' => exact .ok ⟨.union h', trivial⟩ h
    | fn h' => exact .ok ⟨.fn h', trivial⟩ h

theorem structField_rr {s : St F} {s' : St G} {v w} (i : Nat) (h : SR R s s') (hv : VR R v w) :
    RR R (VR R) (structField v i s) (structField w i s') := by
  unfold structField
  refine (strict_rr h hv).bind fun a b s s' ⟨h1, _⟩ hs => ?_
  cases h1 with
  | @struct fs gs ha =>
    by_cases hi : i < fs.length
    · have hi' : i < gs.length := by rw [← ha.length_eq]; exact hi
      simp only [List.getElem?_eq_getElem hi, List.getElem?_eq_getElem hi']
      exact .ok (ha.get i hi hi') hs
    · have hi' : ¬ i < gs.length := by rw [← ha.length_eq]; exact hi
      simp only [List.getElem?_eq_none (Nat.le_of_not_lt hi), List.getElem?_eq_none (Nat.le_of_not_lt hi')]
      exact .crash
  | _ => exact .crash

theorem unionTag_rr {s : St F} {s' : St G} {v w} (h : SR R s s') (hv : VR R v w) : RR R (· = ·) (unionTag v s) (unionTag w s') := by
  unfold unionTag
  refine (strict_rr h hv).bind fun a b s s' ⟨h1, _⟩ hs => ?_
  cases h1 with
  | union ha => exact .ok rfl hs
  | _ => exact .crash

theorem tagBelow_rr {s : St F} {s' : St G} {v w} (nt : Nat) (h : SR R s s') (hv : VR R v w) : RR R (· = ·) (tagBelow nt v s) (tagBelow nt w s') := by
  unfold tagBelow
  refine (unionTag_rr h hv).bind fun a b s s' h1 hs => ?_
  subst h1
  split
  · exact .ok rfl hs
  · exact .crash

theorem unionField_rr {s : St F} {s' : St G} {v w} (i : Nat) (h : SR R s s') (hv : VR R v w) :
    RR R (VR R) (unionField v i s) (unionField w i s') := by
  unfold unionField
  refine (strict_rr h hv).bind fun a b s s' ⟨h1, _⟩ hs => ?_
  cases h1 with
  | union ha =>
    simp only
    split
    · exact .ok ha hs
    · exact .abort
  | _ => exact .crash

theorem newList_vr {vs : List (Val F)} {ws : List (Val G)} (h : All2 (VR R) vs ws) : VR R (newList vs) (newList ws) := by
  induction h with
  | nil => exact .union (.struct .nil)
  | cons h _ ih => exact .union (.struct (.cons h (.cons ih .nil)))

theorem newLiteral_vr (ls : List Nat) : VR R (newLiteral ls) (newLiteral ls) := by
  refine newList_vr ?_
  induction ls with
  | nil => exact .nil
  | cons l ls ih => exact .cons (.union (.struct .nil)) ih

theorem newRef_vr {s : St F} {s' : St G} (h : SR R s s') : VR R (newRef s).1 (newRef s').1 ∧ SR R (newRef s).2 (newRef s').2 := by
  refine ⟨?_, ⟨h.fuel, h.refs.append (.cons .none .nil), h.out⟩⟩
  unfold newRef
  rw [h.refs.length_eq]
  exact .ref

theorem assignRef_rr {s : St F} {s' : St G} {r r' v w} (h : SR R s s') (hr : VR R r r') (hv : VR R v w) :
    RR R (fun _ _ => True) (assignRef r v s) (assignRef r' w s') := by
  cases hr with
  | ref =>
    rename_i i
    simp only [assignRef]
    rw [← h.refs.length_eq]
    have := unwrap_vr h (s.refs.length + 1) hv
    generalize unwrap s.refs (s.refs.length + 1) v = x at this ⊢
    generalize unwrap s'.refs (s.refs.length + 1) w = y at this ⊢
    have done : ∀ {a b}, VR R a b → RR R (fun _ _ => True) (.ok () { s with refs := s.refs.set i (some a) })
        (.ok () { s' with refs := s'.refs.set i (some b) }) :=
      fun hv => .ok trivial ⟨h.fuel, All2.set h.refs (.some hv) i, h.out⟩
    cases this with
    | none => exact .crash
    | some hv =>
      cases hv with
      | ref =>
        simp only
        split
        · exact .abort
        · exact done .ref
      | type => exact done .type
      | struct h' => exact done (.struct h')
      | union h' => exact done (.union h')
      | fn h' => exact done (.fn h')
  | _ => exact .crash

theorem observe_vr {s : St F} {s' : St G} (h : SR R s s') : (n : Nat) → {v : Val F} → {w : Val G} → VR R v w →
    observe s.refs n v = observe s'.refs n w
  | 0, _, _, _ => rfl
  | n + 1, v, w, hv => by
    simp only [observe]
    have := unwrap_vr h (s.refs.length + 1) hv
    rw [← h.refs.length_eq]
    generalize unwrap s.refs (s.refs.length + 1) v = x at this ⊢
    generalize unwrap s'.refs (s.refs.length + 1) w = y at this ⊢
    cases this with
    | none => rfl
    | some hv =>
      cases hv with
      | ref => rfl
      | type => rfl
      | fn _ => rfl
      | union h' => simp only [observe_vr h n h']
      | @struct fs gs h' =>
        simp only [Obs.struct.injEq]
        induction h' with
        | nil => rfl
        | cons h1 _ ih => simp only [List.map_cons, observe_vr h n h1, ih]

theorem RR.seen {r : Res F (Val F)} {r' : Res G (Val G)} (h : RR R (VR R) r r') (hw : r ≠ .wild) (hc : r ≠ .crash) (depth : Nat) : r'.seen depth = r.seen depth := by
  cases h with
  | ok hv hs => simp only [Res.seen, observe_vr hs depth hv]
  | abort => rfl
  | crash => exact absurd rfl hc
  | oof => rfl
  | wild => exact absurd rfl hw
  | stop => rfl

theorem unwrap_shape {s : St F} {s' : St G} (h : SR R s s') (v : Val F) (w : Val G) (hv : VR R v w) :
    OptRel (Shape (VR R)) (unwrap s.refs (s.refs.length + 1) v) (unwrap s'.refs (s'.refs.length + 1) w) := by
  have := unwrap_vr h (s.refs.length + 1) hv
  rw [← h.refs.length_eq]
  generalize unwrap s.refs (s.refs.length + 1) v = x at this ⊢
  generalize unwrap s'.refs (s.refs.length + 1) w = y at this ⊢
  cases this with
  | none => exact .none
  | some hv =>
    cases hv with
    | ref => exact .some .ref
    | type => exact .some .type
    | struct h' => exact .some (.struct h')
    | union h' => exact .some (.union h')
    | fn h' => exact .some .fn

theorem callOut_rr {nf ng} (hm : ∀ op more, R (nf op more) (ng op more)) {s : St F} {s' : St G} {op as bs} (h : SR R s s') (ha : All2 (VR R) as bs) :
    RR R (VR R) (callOut nf op as s) (callOut ng op bs s') := by
  have := callOut_same (R := VR R) ⟨.struct, .union, fun op more => .fn (hm op more)⟩ (unwrap_shape h) h.out ha op
  generalize callOut nf op as s = x at this ⊢
  generalize callOut ng op bs s' = y at this ⊢
  cases this with
  | ok hv => exact .ok hv ⟨h.fuel, h.refs, rfl⟩
  | abort => exact .abort
  | crash => exact .crash
  | stop => exact .stop
end

/-! ### Calls -/

section
variable {B : Type} {E : Code → B → Prop}

/-- Related ends of function bodies. -/
inductive OutR (E : Code → B → Prop) : Outcome → GOut B → Prop
  | ret {v w} : VR (FR E) v w → OutR E (.ret v) (.ret w)
  | tail {f g as bs} : VR (FR E) f g → All2 (VR (FR E)) as bs → OutR E (.tail f as) (.tail g bs)

/-- Related calls. -/
def CallsR (E : Code → B → Prop) (call : TVal → List TVal → St TFn → TRes TVal) (call' : CallFn B) : Prop :=
  ∀ {f g as bs s s'}, VR (FR E) f g → All2 (VR (FR E)) as bs → SR (FR E) s s' →
    RR (FR E) (VR (FR E)) (call f as s) (call' g bs s')

/-- A run function implements a function body: whatever the calls it makes do, as long as they do the
same. -/
def BodyR (E : Code → B → Prop) (run : Runs B) (code : Code) (body : B) : Prop :=
  ∀ {call call' st st' as as' s s'}, CallsR E call call' → All2 (VR (FR E)) st st' → All2 (VR (FR E)) as as' → SR (FR E) s s' →
    RR (FR E) (OutR E) (exec call code.instrs 0 (code.frame st as) s) (run body call' st' as' s')

theorem FR.arity {f : TFn} {g : GFn B} (h : FR E f g) : f.arity = g.arity := by
  cases h <;> rfl

theorem All2.take {α β : Type} {R : α → β → Prop} {l : List α} {l' : List β} (h : All2 R l l') (n : Nat) : All2 R (l.take n) (l'.take n) := by
  induction h generalizing n with
  | nil => simp; exact .nil
  | cons h _ ih =>
    cases n with
    | zero => exact .nil
    | succ n => exact .cons h (ih n)

theorem All2.drop {α β : Type} {R : α → β → Prop} {l : List α} {l' : List β} (h : All2 R l l') (n : Nat) : All2 R (l.drop n) (l'.drop n) := by
  induction h generalizing n with
  | nil => simp; exact .nil
  | cons h t ih =>
    cases n with
    | zero => exact .cons h t
    | succ n => exact ih n

theorem All2.nil_iff {α β : Type} {R : α → β → Prop} {l : List α} {l' : List β} (h : All2 R l l') : (l = []) ↔ (l' = []) := by
  cases h <;> simp

mutual
/-- Calls of related functions with related arguments. -/
theorem fcall_rr {run : Runs B} (hE : ∀ {code body}, E code body → BodyR E run code body) {f g as bs} {s : St TFn} {s' : St (GFn B)}
    (hf : VR (FR E) f g) (ha : All2 (VR (FR E)) as bs) (hs : SR (FR E) s s') :
    RR (FR E) (VR (FR E)) (fcall f as s) (gcall run g bs s') := by
  rw [fcall.eq_def, gcall.eq_def]
  refine (strict_rr hs hf).bind fun a b _ _ ⟨h1, _⟩ _ => ?_
  cases h1 with
  | fn h => exact callFn_rr hE h ha hs
  | _ => exact .crash
termination_by (s.fuel, 1, 0)
theorem callFn_rr {run : Runs B} (hE : ∀ {code body}, E code body → BodyR E run code body) {f : TFn} {g as bs} {s : St TFn} {s' : St (GFn B)}
    (hf : FR E f g) (ha : All2 (VR (FR E)) as bs) (hs : SR (FR E) s s') :
    RR (FR E) (VR (FR E)) (callFn f as s) (gcallFn run g bs s') := by
  rw [callFn.eq_def, gcallFn.eq_def]
  rw [← hf.arity, ← ha.length_eq]
  by_cases hl : as.length < f.arity
  · rw [if_pos hl, if_pos hl]
    exact .ok (.fn (.pap hf ha)) hs
  · rw [if_neg hl, if_neg hl]
    have hu := All2.take ha f.arity
    have hd := All2.drop ha f.arity
    generalize hA : f.arity = A at hu hd
    generalize as.take A = used, bs.take A = used' at hu
    generalize as.drop A = rest, bs.drop A = rest' at hd
    cases hf with
    | @func code body st st' he hst =>
      simp only [All2.nil_iff hd]
      rw [← hs.fuel]
      by_cases h0 : s.fuel = 0
      · rw [if_pos h0, if_pos h0]; exact .oof
      · rw [if_neg h0, if_neg h0]
        refine (hE he (call' := fun f as s1 => if s1.fuel < s.fuel then gcall run f as s1 else .oof) ?_ hst hu (s := { s with fuel := s.fuel - 1 }) (s' := { s' with fuel := s.fuel - 1 }) ⟨rfl, hs.refs, hs.out⟩).bind
          fun o o' s1 s1' ho hs1 => ?_
        · intro f1 g1 as1 bs1 s1 s1' hf1 ha1 hs1
          simp only
          rw [← hs1.fuel]
          by_cases hlt : s1.fuel < s.fuel
          · rw [if_pos hlt, if_pos hlt]; exact fcall_rr hE hf1 ha1 hs1
          · rw [if_neg hlt, if_neg hlt]; exact .oof
        · rw [← hs1.fuel]
          by_cases hlt : s1.fuel < s.fuel
          · rw [if_pos hlt, if_pos hlt]
            cases ho with
            | ret hv =>
              simp only
              by_cases hr : rest' = []
              · rw [if_pos hr, if_pos hr]; exact .ok hv hs1
              · rw [if_neg hr, if_neg hr]; exact fcall_rr hE hv hd hs1
            | tail hf1 ha1 => exact tailCall_rr hE hf1 (ha1.append hd) hs1
          · rw [if_neg hlt, if_neg hlt]; exact .oof
    | @pap n f0 g0 ps ps' hf0 hps =>
      simp only [All2.nil_iff hd]
      refine (callFn_rr hE hf0 (hps.append hu) hs).bind fun v v' s1 s1' hv hs1 => ?_
      by_cases hr : rest' = []
      · rw [if_pos hr, if_pos hr]; exact .ok hv hs1
      · rw [if_neg hr, if_neg hr, ← hs1.fuel, ← hs.fuel]
        by_cases hlt : s1.fuel < s.fuel
        · rw [if_pos hlt, if_pos hlt]; exact fcall_rr hE hv hd hs1
        · rw [if_neg hlt, if_neg hlt]; exact .oof
    | @native op more =>
      simp only [All2.nil_iff hd]
      rw [← hs.fuel]
      by_cases h0 : s.fuel = 0
      · rw [if_pos h0, if_pos h0]; exact .oof
      · rw [if_neg h0, if_neg h0]
        refine (callOut_rr (fun _ _ => .native) (s := { s with fuel := s.fuel - 1 }) (s' := { s' with fuel := s.fuel - 1 }) ⟨rfl, hs.refs, hs.out⟩ hu).bind
          fun v v' s1 s1' hv hs1 => ?_
        by_cases hr : rest' = []
        · rw [if_pos hr, if_pos hr]; exact .ok hv hs1
        · rw [if_neg hr, if_neg hr, ← hs1.fuel]
          by_cases hlt : s1.fuel < s.fuel
          · rw [if_pos hlt, if_pos hlt]; exact fcall_rr hE hv hd hs1
          · rw [if_neg hlt, if_neg hlt]; exact .oof
termination_by (s.fuel, 0, sizeOf f)
theorem tailCall_rr {run : Runs B} (hE : ∀ {code body}, E code body → BodyR E run code body) {f g as bs} {s : St TFn} {s' : St (GFn B)}
    (hf : VR (FR E) f g) (ha : All2 (VR (FR E)) as bs) (hs : SR (FR E) s s') :
    RR (FR E) (VR (FR E)) (tailCall f as s) (gtailCall run g bs s') := by
  rw [tailCall.eq_def, gtailCall.eq_def]
  have := strict_rr hs hf
  generalize strict s f = x at this ⊢
  generalize strict s' g = y at this ⊢
  cases this with
  | @ok a b s1 s1' h _ =>
    obtain ⟨h1, _⟩ := h
    cases h1 with
    | fn h => exact callFn_rr hE h ha hs
    | _ => exact .crash
  | abort => exact .wild
  | crash => exact .crash
  | oof => exact .oof
  | wild => exact .wild
  | stop => exact .stop
termination_by (s.fuel, 1, 0)
end
end
end Verif.Backend
