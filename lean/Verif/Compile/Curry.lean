import Verif.Compile.Program
/-
Function calls behave as curried application (C07), for functions with any code.
-/
namespace Verif.Compile.Curry

/-! ### Specification -/

/-- A value as the machine makes them: a partial application lacks at least one argument, and what is
recorded is how many it lacks. -/
inductive Proper : TVal → Prop
  | type : Proper .type
  | ref {r} : Proper (.ref r)
  | struct {fs} : (∀ v ∈ fs, Proper v) → Proper (.struct fs)
  | union {tag v} : Proper v → Proper (.union tag v)
  | func {code st} : (∀ v ∈ st, Proper v) → Proper (.fn (.func code st))
  | pap {f args n} : Proper (.fn f) → (∀ v ∈ args, Proper v) → args.length < f.arity → n = f.arity - args.length →
      Proper (.fn (.pap n f args))
  | native {op more} : Proper (.fn (.native op more))

/-- A state with proper values. -/
def ProperSt (s : St TFn) : Prop := ∀ v, some v ∈ s.refs → Proper v

/-- Calling what a run gives. -/
def andThen (r : TRes TVal) (args : List TVal) : TRes TVal := r.bind fun v s => fcall v args s

/-- One argument at a time. -/
def oneByOne (f : TVal) : List TVal → St TFn → TRes TVal
  | [], s => .ok f s
  | a :: as, s => (fcall f [a] s).bind fun v s => oneByOne v as s

/-- A body in which the tail calls are ordinary calls: the call is made and then its result
returned (the function is looked at before the arguments). -/
def stepPlain (call : TVal → List TVal → St TFn → TRes TVal) (instr : Instr) (pc : Nat) (fr : Frame) (s : St TFn) : TRes Next :=
  match instr with
  | .tailCall f args => orWild (fr.get f) fun f => (strict s f).bind fun g s =>
      match g with
      | .fn _ => orWild (fr.gets args) fun vs => (call f vs s).bind fun v s => .ok (.done (.ret v)) s
      | _ => .crash
  | i => step call i pc fr s

/-- The run of a body with `stepPlain`. -/
def runPlain (call : TVal → List TVal → St TFn → TRes TVal) (code : List Instr) (pc : Nat) (fr : Frame) (s : St TFn) : TRes TVal :=
  if _h : pc < code.length then
    (stepPlain call code[pc] pc fr s).bind fun nx s =>
      match nx with
      | .done (.ret v) => .ok v s
      | .done (.tail _ _) => .wild
      | .go pc' fr => if pc < pc' then runPlain call code pc' fr s else .wild
  else .wild
termination_by code.length - pc
decreasing_by omega

/-- Calling what a run gives, again and again. -/
def calls : TRes TVal → List (List TVal) → TRes TVal
  | r, [] => r
  | r, args :: later => calls (andThen r args) later

/-- No difference can be seen between two runs, not now and not by calling what they give later. -/
def Alike (r r' : TRes TVal) : Prop :=
  ∀ later : List (List TVal), (∀ args ∈ later, ∀ v ∈ args, Proper v) → ∀ depth, (calls r later).seen depth = (calls r' later).seen depth

/-! ### Equivalent values -/

/-- A function that is not a partial application: code, or implemented in C. -/
inductive Base where
  | code (c : Code)
  | native (op more : Nat)

def Base.numArgs : Base → Nat
  | .code c => c.numArgs
  | .native _ more => more + 1

def Base.fn : Base → List TVal → TFn
  | .code c, st => .func c st
  | .native op more, _ => .native op more

/-- The function is the code with the captured values and these arguments. -/
inductive Is : TFn → Base → List TVal → List TVal → Prop
  | func {c st} : Is (.func c st) (.code c) st []
  | native {op more} : Is (.native op more) (.native op more) [] []
  | pap {f c st as bs n} : Is f c st as → as.length + bs.length < c.numArgs → n = c.numArgs - (as.length + bs.length) →
      Is (.pap n f bs) c st (as ++ bs)

/-- The same value but for how partial applications are nested. -/
inductive VEq : TVal → TVal → Prop
  | type : VEq .type .type
  | struct {fs gs} : All2 VEq fs gs → VEq (.struct fs) (.struct gs)
  | union {tag a b} : VEq a b → VEq (.union tag a) (.union tag b)
  | ref {r} : VEq (.ref r) (.ref r)
  | fn {f g c st st' as as'} : Is f c st as → Is g c st' as' → All2 VEq st st' → All2 VEq as as' → VEq (.fn f) (.fn g)

theorem Is.det {f c st as} (h : Is f c st as) {c' st' as'} (h' : Is f c' st' as') : c = c' ∧ st = st' ∧ as = as' := by
  induction h generalizing c' st' as' with
  | func => cases h'; exact ⟨rfl, rfl, rfl⟩
  | native => cases h'; exact ⟨rfl, rfl, rfl⟩
  | pap _ _ _ ih =>
    cases h' with
    | pap h'' _ _ => obtain ⟨rfl, rfl, rfl⟩ := ih h''; exact ⟨rfl, rfl, rfl⟩

theorem Is.arity {f c st as} (h : Is f c st as) : f.arity = c.numArgs - as.length ∧ (as.length < c.numArgs ∨ as = []) := by
  cases h with
  | func => exact ⟨rfl, .inr rfl⟩
  | native => exact ⟨rfl, .inr rfl⟩
  | pap _ h1 h2 => exact ⟨by simp only [TFn.arity, List.length_append]; exact h2, .inl (by simpa using h1)⟩

theorem Is.size {f c st as} (h : Is f c st as) : (∀ v ∈ st, sizeOf v < sizeOf f) ∧ ∀ v ∈ as, sizeOf v < sizeOf f := by
  induction h with
  | func => exact ⟨fun v hv => by have := List.sizeOf_lt_of_mem hv; simp; omega, by simp⟩
  | native => exact ⟨by simp, by simp⟩
  | pap _ _ _ ih =>
    refine ⟨fun v hv => by have := ih.1 v hv; simp; omega, fun v hv => ?_⟩
    rcases List.mem_append.mp hv with hv | hv
    · have := ih.2 v hv; simp; omega
    · have := List.sizeOf_lt_of_mem hv; simp; omega

theorem all2_trans {α β γ : Type} {R : α → β → Prop} {S : β → γ → Prop} {T : α → γ → Prop} {l : List α} {l' : List β} {l'' : List γ}
    (h : All2 R l l') (h' : All2 S l' l'') (ht : ∀ a ∈ l, ∀ b c, R a b → S b c → T a c) : All2 T l l'' := by
  induction h generalizing l'' with
  | nil => cases h'; exact .nil
  | cons h1 _ ih =>
    cases h' with
    | cons h2 h3 => exact .cons (ht _ (by simp) _ _ h1 h2) (ih h3 fun a ha => ht a (by simp [ha]))

theorem all2_symm {α β : Type} {R : α → β → Prop} {T : β → α → Prop} {l : List α} {l' : List β}
    (h : All2 R l l') (ht : ∀ a ∈ l, ∀ b, R a b → T b a) : All2 T l' l := by
  induction h with
  | nil => exact .nil
  | cons h1 _ ih => exact .cons (ht _ (by simp) _ h1) (ih fun a ha => ht a (by simp [ha]))

theorem VEq.trans' (n : Nat) : ∀ {u v w}, sizeOf u ≤ n → VEq u v → VEq v w → VEq u w := by
  induction n with
  | zero => intro u v w h; cases u <;> simp at h
  | succ n ih =>
    intro u v w hn h h'
    cases h with
    | type => cases h'; exact .type
    | ref => cases h'; exact .ref
    | union h =>
      cases h' with
      | union h' => exact .union (ih (by simp at hn; omega) h h')
    | struct h =>
      cases h' with
      | struct h' =>
        refine .struct (all2_trans h h' fun a ha b c h1 h2 => ih ?_ h1 h2)
        have := List.sizeOf_lt_of_mem ha
        simp at hn; omega
    | fn h1 h2 h3 h4 =>
      cases h' with
      | fn h1' h2' h3' h4' =>
        obtain ⟨rfl, rfl, rfl⟩ := h2.det h1'
        have := h1.size
        refine .fn h1 h2' (all2_trans h3 h3' fun a ha b c e1 e2 => ih ?_ e1 e2) (all2_trans h4 h4' fun a ha b c e1 e2 => ih ?_ e1 e2)
        · have := this.1 a ha; simp at hn; omega
        · have := this.2 a ha; simp at hn; omega

theorem VEq.trans {u v w} (h : VEq u v) (h' : VEq v w) : VEq u w := VEq.trans' _ (Nat.le_refl _) h h'

theorem VEq.symm' (n : Nat) : ∀ {u v}, sizeOf u ≤ n → VEq u v → VEq v u := by
  induction n with
  | zero => intro u v h; cases u <;> simp at h
  | succ n ih =>
    intro u v hn h
    cases h with
    | type => exact .type
    | ref => exact .ref
    | union h => exact .union (ih (by simp at hn; omega) h)
    | struct h =>
      refine .struct (all2_symm h fun a ha b h1 => ih ?_ h1)
      have := List.sizeOf_lt_of_mem ha
      simp at hn; omega
    | fn h1 h2 h3 h4 =>
      have := h1.size
      refine .fn h2 h1 (all2_symm h3 fun a ha b e1 => ih ?_ e1) (all2_symm h4 fun a ha b e1 => ih ?_ e1)
      · have := this.1 a ha; simp at hn; omega
      · have := this.2 a ha; simp at hn; omega

theorem VEq.symm {u v} (h : VEq u v) : VEq v u := VEq.symm' _ (Nat.le_refl _) h

theorem all2_self {α : Type} {R : α → α → Prop} {l : List α} (h : ∀ a ∈ l, R a a) : All2 R l l := by
  induction l with
  | nil => exact .nil
  | cons a l ih => exact .cons (h a (by simp)) (ih fun b hb => h b (by simp [hb]))

theorem self_all2 {α : Type} {R : α → α → Prop} {l : List α} (h : All2 R l l) : ∀ a ∈ l, R a a := by
  induction l with
  | nil => simp
  | cons a l ih => cases h with | cons h1 h2 => simpa using ⟨h1, ih h2⟩

theorem Proper.refl {v} (h : Proper v) : VEq v v := by
  induction h with
  | type => exact .type
  | ref => exact .ref
  | struct _ ih => exact .struct (all2_self ih)
  | union _ ih => exact .union ih
  | func _ ih => exact .fn .func .func (all2_self ih) .nil
  | native => exact .fn .native .native .nil .nil
  | @pap f args n _ _ hl hn ih1 ih2 =>
    cases ih1 with
    | fn h1 h2 h3 h4 =>
      obtain ⟨_, rfl, rfl⟩ := h1.det h2
      have := h1.arity
      have h5 := Is.pap (bs := args) (n := n) h1 (by omega) (by omega)
      exact .fn h5 h5 h3 (h4.append (all2_self ih2))

theorem Is.proper {f c st as} (h : Is f c st as) : (∀ v ∈ st, Proper v) → (∀ v ∈ as, Proper v) → Proper (.fn f) := by
  induction h with
  | func => exact fun h _ => .func h
  | native => exact fun _ _ => .native
  | pap h hl hn ih =>
    intro h1 h2
    have := h.arity
    exact .pap (ih h1 fun v hv => h2 v (by simp [hv])) (fun v hv => h2 v (by simp [hv])) (by omega) (by omega)

theorem VEq.proper' (n : Nat) : ∀ {u v}, sizeOf u ≤ n → VEq u v → Proper u := by
  induction n with
  | zero => intro u v h; cases u <;> simp at h
  | succ n ih =>
    intro u v hn h
    have mem : ∀ {l : List TVal} {l'}, All2 VEq l l' → (∀ a ∈ l, sizeOf a ≤ n) → ∀ a ∈ l, Proper a := by
      intro l l' h hs a ha
      obtain ⟨b, _, hb⟩ := h.mem_left ha
      exact ih (hs a ha) hb
    cases h with
    | type => exact .type
    | ref => exact .ref
    | union h => exact .union (ih (by simp at hn; omega) h)
    | struct h => exact .struct (mem h fun a ha => by have := List.sizeOf_lt_of_mem ha; simp at hn; omega)
    | fn h1 h2 h3 h4 =>
      have := h1.size
      exact h1.proper (mem h3 fun a ha => by have := this.1 a ha; simp at hn; omega) (mem h4 fun a ha => by have := this.2 a ha; simp at hn; omega)

theorem VEq.proper {u v} (h : VEq u v) : Proper u := VEq.proper' _ (Nat.le_refl _) h

/-! ### Equivalent states and results -/

inductive OEq : Option TVal → Option TVal → Prop
  | none : OEq none none
  | some {v w} : VEq v w → OEq (some v) (some w)

structure SEq (s s' : St TFn) : Prop where
  fuel : s.fuel = s'.fuel
  refs : All2 OEq s.refs s'.refs
  out : s.out = s'.out

/-- Equivalent results, with less than `m` bodies left to enter. -/
inductive REq {α β : Type} (m : Nat) (P : α → β → Prop) : TRes α → TRes β → Prop
  | ok {a b s s'} : P a b → SEq s s' → s.fuel < m → REq m P (.ok a s) (.ok b s')
  | abort : REq m P .abort .abort
  | crash : REq m P .crash .crash
  | wild : REq m P .wild .wild
  | oof : REq m P .oof .oof
  | stop {h} : REq m P (.stop h) (.stop h)

theorem OEq.trans {a b c} (h : OEq a b) (h' : OEq b c) : OEq a c := by
  cases h with
  | none => exact h'
  | some h => cases h' with | some h' => exact .some (h.trans h')
theorem OEq.symm {a b} (h : OEq a b) : OEq b a := by
  cases h with
  | none => exact .none
  | some h => exact .some h.symm

theorem SEq.trans {a b c} (h : SEq a b) (h' : SEq b c) : SEq a c :=
  ⟨h.fuel.trans h'.fuel, all2_trans h.refs h'.refs fun _ _ _ _ h1 h2 => h1.trans h2, h.out.trans h'.out⟩
theorem SEq.symm {a b} (h : SEq a b) : SEq b a := ⟨h.fuel.symm, all2_symm h.refs fun _ _ _ h1 => h1.symm, h.out.symm⟩
theorem SEq.left {a b} (h : SEq a b) : SEq a a := h.trans h.symm
theorem SEq.right {a b} (h : SEq a b) : SEq b b := h.symm.trans h

theorem REq.trans {m : Nat} {a b c} (h : REq m VEq a b) (h' : REq m VEq b c) : REq m VEq a c := by
  cases h with
  | ok h1 h2 h3 => cases h' with | ok h1' h2' _ => exact .ok (h1.trans h1') (h2.trans h2') h3
  | _ => exact h'
theorem REq.symm {m : Nat} {a b} (h : REq m VEq a b) : REq m VEq b a := by
  cases h with
  | ok h1 h2 h3 => exact .ok h1.symm h2.symm (by rw [← h2.fuel]; exact h3)
  | abort => exact .abort
  | crash => exact .crash
  | wild => exact .wild
  | oof => exact .oof
  | stop => exact .stop

theorem REq.bind {α β γ δ : Type} {m m' : Nat} {P : α → β → Prop} {Q : γ → δ → Prop} {r r' k k'} (h : REq m P r r')
    (hk : ∀ a b s s', P a b → SEq s s' → s.fuel < m → REq m' Q (k a s) (k' b s')) :
    REq m' Q (Res.bind r k) (Res.bind r' k') := by
  cases h with
  | ok p hs hf => exact hk _ _ _ _ p hs hf
  | abort => exact .abort
  | crash => exact .crash
  | wild => exact .wild
  | oof => exact .oof
  | stop => exact .stop

theorem REq.mono {α β : Type} {m m' : Nat} {P Q : α → β → Prop} {r r'} (h : REq m P r r') (hm : m ≤ m') (hP : ∀ a b, P a b → Q a b) :
    REq m' Q r r' := by
  cases h with
  | ok p hs hf => exact .ok (hP _ _ p) hs (Nat.lt_of_lt_of_le hf hm)
  | abort => exact .abort
  | crash => exact .crash
  | wild => exact .wild
  | oof => exact .oof
  | stop => exact .stop

theorem REq.wildOpt {α β γ δ : Type} {m : Nat} {Q : γ → δ → Prop} {R : α → β → Prop} {o : Option α} {o' : Option β} {k k'}
    (h : (o = none ∧ o' = none) ∨ ∃ a b, o = some a ∧ o' = some b ∧ R a b)
    (hk : ∀ a b, R a b → REq m Q (k a) (k' b)) : REq m Q (orWild o k) (orWild o' k') := by
  rcases h with ⟨rfl, rfl⟩ | ⟨a, b, rfl, rfl, h⟩
  · exact .wild
  · exact hk a b h

/-! ### Operations on values -/

theorem SEq.get {s s'} (h : SEq s s') (r : Nat) :
    (s.refs[r]? = none ∧ s'.refs[r]? = none) ∨ ∃ a b, s.refs[r]? = some a ∧ s'.refs[r]? = some b ∧ OEq a b := by
  by_cases hr : r < s.refs.length
  · have hr' : r < s'.refs.length := by rw [← h.refs.length_eq]; exact hr
    exact .inr ⟨_, _, List.getElem?_eq_getElem hr, List.getElem?_eq_getElem hr', h.refs.get r hr hr'⟩
  · have hr' : ¬ r < s'.refs.length := by rw [← h.refs.length_eq]; exact hr
    exact .inl ⟨List.getElem?_eq_none (by omega), List.getElem?_eq_none (by omega)⟩

theorem unwrap_eq {s s'} (h : SEq s s') : (n : Nat) → {v w : TVal} → VEq v w → OEq (unwrap s.refs n v) (unwrap s'.refs n w)
  | 0, _, _, _ => .none
  | n + 1, _, _, .ref (r := r) => by
    simp only [unwrap]
    rcases h.get r with ⟨h1, h2⟩ | ⟨a, b, h1, h2, h3⟩
    · rw [h1, h2]; exact .none
    · rw [h1, h2]
      cases h3 with
      | none => exact .some .ref
      | some hv => exact unwrap_eq h n hv
  | n + 1, _, _, .type => .some .type
  | n + 1, _, _, .struct hv => .some (.struct hv)
  | n + 1, _, _, .union hv => .some (.union hv)
  | n + 1, _, _, .fn h1 h2 h3 h4 => .some (.fn h1 h2 h3 h4)

theorem strict_eq {m s s' v w} (h : SEq s s') (hv : VEq v w) (hm : s.fuel < m) :
    REq m (fun a b => VEq a b ∧ strict s v = .ok a s ∧ strict s' w = .ok b s') (strict s v) (strict s' w) := by
  unfold strict
  have := unwrap_eq h (s.refs.length + 1) hv
  rw [← h.refs.length_eq]
  generalize unwrap s.refs (s.refs.length + 1) v = x at this ⊢
  generalize unwrap s'.refs (s.refs.length + 1) w = y at this ⊢
  cases this with
  | none => exact .crash
  | some hv =>
    cases hv with
    | ref => exact .abort
    | type => exact .ok ⟨.type, rfl, rfl⟩ h hm
    | struct h' => exact .ok ⟨.struct h', rfl, rfl⟩ h hm
    | union h' => exact .ok ⟨.union h', rfl, rfl⟩ h hm
    | fn h1 h2 h3 h4 => exact .ok ⟨.fn h1 h2 h3 h4, rfl, rfl⟩ h hm

theorem structField_eq {m s s' v w} (i : Nat) (h : SEq s s') (hv : VEq v w) (hm : s.fuel < m) :
    REq m VEq (structField v i s) (structField w i s') := by
  unfold structField
  refine (strict_eq h hv hm).bind fun a b s s' ⟨h1, _⟩ hs hf => ?_
  cases h1 with
  | @struct fs gs ha =>
    by_cases hi : i < fs.length
    · have hi' : i < gs.length := by rw [← ha.length_eq]; exact hi
      simp only [List.getElem?_eq_getElem hi, List.getElem?_eq_getElem hi']
      exact .ok (ha.get i hi hi') hs hf
    · have hi' : ¬ i < gs.length := by rw [← ha.length_eq]; exact hi
      simp only [List.getElem?_eq_none (Nat.le_of_not_lt hi), List.getElem?_eq_none (Nat.le_of_not_lt hi')]
      exact .crash
  | _ => exact .crash

theorem unionTag_eq {m s s' v w} (h : SEq s s') (hv : VEq v w) (hm : s.fuel < m) :
    REq m (· = ·) (unionTag v s) (unionTag w s') := by
  unfold unionTag
  refine (strict_eq h hv hm).bind fun a b s s' ⟨h1, _⟩ hs hf => ?_
  cases h1 with
  | union ha => exact .ok rfl hs hf
  | _ => exact .crash

theorem tagBelow_eq {m s s' v w} (nt : Nat) (h : SEq s s') (hv : VEq v w) (hm : s.fuel < m) :
    REq m (· = ·) (tagBelow nt v s) (tagBelow nt w s') := by
  unfold tagBelow
  refine (unionTag_eq h hv hm).bind fun a b s s' h1 hs hf => ?_
  cases h1
  split
  · exact .ok rfl hs hf
  · exact .crash

theorem unionField_eq {m s s' v w} (i : Nat) (h : SEq s s') (hv : VEq v w) (hm : s.fuel < m) :
    REq m VEq (unionField v i s) (unionField w i s') := by
  unfold unionField
  refine (strict_eq h hv hm).bind fun a b s s' ⟨h1, _⟩ hs hf => ?_
  cases h1 with
  | union ha =>
    simp only
    split
    · exact .ok ha hs hf
    · exact .abort
  | _ => exact .crash

theorem newList_eq {vs ws : List TVal} (h : All2 VEq vs ws) : VEq (newList vs) (newList ws) := by
  induction h with
  | nil => exact .union (.struct .nil)
  | cons h _ ih => exact .union (.struct (.cons h (.cons ih .nil)))

theorem newLiteral_eq (ls : List Nat) : VEq (newLiteral ls) (newLiteral ls) := by
  refine newList_eq ?_
  induction ls with
  | nil => exact .nil
  | cons l ls ih => exact .cons (.union (.struct .nil)) ih

theorem newRef_eq {s s'} (h : SEq s s') : VEq (newRef s).1 (newRef s').1 ∧ SEq (newRef s).2 (newRef s').2 := by
  refine ⟨?_, ⟨h.fuel, h.refs.append (.cons .none .nil), h.out⟩⟩
  unfold newRef
  rw [h.refs.length_eq]
  exact .ref

theorem assignRef_eq {m s s' r r' v w} (h : SEq s s') (hr : VEq r r') (hv : VEq v w) (hm : s.fuel < m) :
    REq m (fun _ _ => True) (assignRef r v s) (assignRef r' w s') := by
  cases hr with
  | ref =>
    rename_i i
    simp only [assignRef]
    rw [← h.refs.length_eq]
    have := unwrap_eq h (s.refs.length + 1) hv
    generalize unwrap s.refs (s.refs.length + 1) v = x at this ⊢
    generalize unwrap s'.refs (s.refs.length + 1) w = y at this ⊢
    have done : ∀ {a b}, VEq a b → REq m (fun _ _ => True) (.ok () { s with refs := s.refs.set i (some a) })
        (.ok () { s' with refs := s'.refs.set i (some b) }) :=
      fun hv => .ok trivial ⟨h.fuel, Compile.All2.set h.refs (.some hv) i, h.out⟩ hm
    cases this with
    | none => exact .crash
    | some hv =>
      cases hv with
      | ref =>
        simp only
        split
        · exact .abort
        · exact done .ref
      | type => exact done .type
      | struct h' => exact done (.struct h')
      | union h' => exact done (.union h')
      | fn h1 h2 h3 h4 => exact done (.fn h1 h2 h3 h4)
  | _ => exact .crash

/-! ### Bodies -/

structure FrEq (fr fr' : Frame) : Prop where
  statics : All2 VEq fr.statics fr'.statics
  args : All2 VEq fr.args fr'.args
  locals : All2 OEq fr.locals fr'.locals

theorem all2_get {α : Type} {R : α → α → Prop} {l l' : List α} (h : All2 R l l') (i : Nat) :
    (l[i]? = none ∧ l'[i]? = none) ∨ ∃ a b, l[i]? = some a ∧ l'[i]? = some b ∧ R a b := by
  by_cases hr : i < l.length
  · have hr' : i < l'.length := by rw [← h.length_eq]; exact hr
    exact .inr ⟨_, _, List.getElem?_eq_getElem hr, List.getElem?_eq_getElem hr', h.get i hr hr'⟩
  · have hr' : ¬ i < l'.length := by rw [← h.length_eq]; exact hr
    exact .inl ⟨List.getElem?_eq_none (by omega), List.getElem?_eq_none (by omega)⟩

theorem FrEq.get {fr fr'} (h : FrEq fr fr') (v : Var) :
    (fr.get v = none ∧ fr'.get v = none) ∨ ∃ a b, fr.get v = some a ∧ fr'.get v = some b ∧ VEq a b := by
  cases v with
  | static i => exact all2_get h.statics i
  | arg i => exact all2_get h.args i
  | loc i =>
    simp only [Frame.get]
    rcases all2_get h.locals i with ⟨h1, h2⟩ | ⟨a, b, h1, h2, h3⟩
    · left; rw [h1, h2]; exact ⟨rfl, rfl⟩
    · rw [h1, h2]
      cases h3 with
      | none => exact .inl ⟨rfl, rfl⟩
      | some h => exact .inr ⟨_, _, rfl, rfl, h⟩

theorem FrEq.gets {fr fr'} (h : FrEq fr fr') (vs : List Var) :
    (fr.gets vs = none ∧ fr'.gets vs = none) ∨ ∃ a b, fr.gets vs = some a ∧ fr'.gets vs = some b ∧ All2 VEq a b := by
  unfold Frame.gets
  induction vs with
  | nil => exact .inr ⟨[], [], rfl, rfl, .nil⟩
  | cons v vs ih =>
    simp only [List.mapM_cons]
    rcases h.get v with ⟨h1, h2⟩ | ⟨a, b, h1, h2, h3⟩
    · left; rw [h1, h2]; exact ⟨rfl, rfl⟩
    · rw [h1, h2]
      rcases ih with ⟨e1, e2⟩ | ⟨as, bs, e1, e2, e3⟩
      · left; rw [e1, e2]; exact ⟨rfl, rfl⟩
      · right; rw [e1, e2]; exact ⟨_, _, rfl, rfl, .cons h3 e3⟩

inductive OutEq : Outcome → Outcome → Prop
  | ret {v w} : VEq v w → OutEq (.ret v) (.ret w)
  | tail {f g as bs} : VEq f g → All2 VEq as bs → OutEq (.tail f as) (.tail g bs)

inductive NextEq : Next → Next → Prop
  | go {pc fr fr'} : FrEq fr fr' → NextEq (.go pc fr) (.go pc fr')
  | done {o o'} : OutEq o o' → NextEq (.done o) (.done o')

theorem setNext_eq {m fr fr' s s' v w} (pc d : Nat) (hf : FrEq fr fr') (hs : SEq s s') (hm : s.fuel < m) (hv : VEq v w) :
    REq m NextEq (setNext pc fr d v s) (setNext pc fr' d w s') := by
  unfold setNext Frame.put
  rw [← hf.locals.length_eq]
  split
  · exact .ok (.go ⟨hf.statics, hf.args, Compile.All2.set hf.locals (.some hv) d⟩) hs hm
  · exact .wild

/-- Calls of equivalent functions give equivalent results. -/
def CallEq (m : Nat) (call call' : TVal → List TVal → St TFn → TRes TVal) : Prop :=
  ∀ f f' as as' s s', VEq f f' → All2 VEq as as' → SEq s s' → s.fuel < m → REq m VEq (call f as s) (call' f' as' s')

theorem step_eq {m call call'} (hc : CallEq m call call') (i : Instr) (pc : Nat) {fr fr' s s'} (hf : FrEq fr fr') (hs : SEq s s') (hm : s.fuel < m) :
    REq m NextEq (step call i pc fr s) (step call' i pc fr' s') := by
  cases i with
  | struct args dest => exact .wildOpt (hf.gets args) fun a b h => setNext_eq pc dest hf hs hm (.struct h)
  | union tag arg dest => exact .wildOpt (hf.get arg) fun a b h => setNext_eq pc dest hf hs hm (.union h)
  | structAccess obj tag dest =>
    exact .wildOpt (hf.get obj) fun a b h => (structField_eq tag hs h hm).bind fun v w s s' hv hs hm => setNext_eq pc dest hf hs hm hv
  | unionAccess obj tag dest =>
    exact .wildOpt (hf.get obj) fun a b h => (unionField_eq tag hs h hm).bind fun v w s s' hv hs hm => setNext_eq pc dest hf hs hm hv
  | select c nt targets default =>
    refine .wildOpt (hf.get c) fun a b h => (tagBelow_eq nt hs h hm).bind fun v w s s' hv hs hm => ?_
    subst hv
    split
    · exact .ok (.go hf) hs hm
    · exact .abort
    · exact .wild
  | goto t => exact .ok (.go hf) hs hm
  | func code b scope dest => exact .wildOpt (hf.gets scope) fun a b h => setNext_eq pc dest hf hs hm (.fn .func .func h .nil)
  | call f args dest =>
    exact .wildOpt (hf.get f) fun f g h => .wildOpt (hf.gets args) fun a b ha =>
      (hc _ _ _ _ _ _ h ha hs hm).bind fun v w s s' hv hs hm => setNext_eq pc dest hf hs hm hv
  | tailCall f args =>
    refine .wildOpt (hf.get f) fun f g h => (strict_eq hs h hm).bind fun v w s s' hv hs hm => ?_
    cases hv.1 with
    | fn h1 h2 h3 h4 => exact .wildOpt (hf.gets args) fun a b ha => .ok (.done (.tail h ha)) hs hm
    | _ => exact .crash
  | copy src dest => exact .wildOpt (hf.get src) fun a b h => setNext_eq pc dest hf hs hm h
  | refValue dest => exact setNext_eq pc dest hf (newRef_eq hs).2 hm (newRef_eq hs).1
  | refDef ref value =>
    exact .wildOpt (hf.get (.loc ref)) fun a b h => .wildOpt (hf.get value) fun c d h' =>
      (assignRef_eq hs h h' hm).bind fun _ _ s s' _ hs hm => .ok (.go hf) hs hm
  | ret v => exact .wildOpt (hf.get v) fun a b h => .ok (.done (.ret h)) hs hm
  | type dest => exact setNext_eq pc dest hf hs hm .type
  | list args dest => exact .wildOpt (hf.gets args) fun a b h => setNext_eq pc dest hf hs hm (newList_eq h)
  | literal ls dest => exact setNext_eq pc dest hf hs hm (newLiteral_eq ls)
  | nop => exact .ok (.go hf) hs hm

theorem exec_eq {m call call'} (hc : CallEq m call call') (code : List Instr) (n : Nat) : ∀ (pc : Nat) {fr fr' s s'}, code.length - pc ≤ n →
    FrEq fr fr' → SEq s s' → s.fuel < m → REq m OutEq (exec call code pc fr s) (exec call' code pc fr' s') := by
  induction n with
  | zero =>
    intro pc fr fr' s s' hn _ _ _
    rw [exec.eq_def, exec.eq_def, dif_neg (by omega), dif_neg (by omega)]
    exact .wild
  | succ n ih =>
    intro pc fr fr' s s' hn hf hs hm
    rw [exec.eq_def call, exec.eq_def call']
    by_cases hp : pc < code.length
    · rw [dif_pos hp, dif_pos hp]
      refine (step_eq hc code[pc] pc hf hs hm).bind fun a b s s' ha hs hm => ?_
      cases ha with
      | done h => exact .ok h hs hm
      | @go pc' fr fr' h =>
        simp only
        split
        · exact ih _ (by omega) h hs hm
        · exact .wild
    · rw [dif_neg hp, dif_neg hp]; exact .wild

/-! ### Calls -/

/-- Calls of equivalent functions when `n` bodies may be entered. -/
def Cong (n : Nat) : Prop := ∀ f f' as as' s s', VEq f f' → All2 VEq as as' → SEq s s' → s.fuel = n → REq (n + 1) VEq (fcall f as s) (fcall f' as' s')

/-- A call in two steps. -/
def Split (n : Nat) : Prop := ∀ f as bs s, VEq f f → All2 VEq as as → All2 VEq bs bs → SEq s s → bs ≠ [] → s.fuel = n →
  REq (n + 1) VEq (fcall f (as ++ bs) s) (andThen (fcall f as s) bs)

theorem callEq_of {n : Nat} (ih : ∀ m, m < n → Cong m) :
    CallEq n (fun f as s1 => if s1.fuel < n then fcall f as s1 else .oof) (fun f as s1 => if s1.fuel < n then fcall f as s1 else .oof) := by
  intro f f' as as' s s' hf ha hs hm
  simp only
  rw [if_pos hm, if_pos (by rw [← hs.fuel]; exact hm)]
  exact (ih _ hm f f' as as' s s' hf ha hs rfl).mono (by omega) fun _ _ h => h

theorem frame_eq {c : Code} {st st' as as'} (h : All2 VEq st st') (ha : All2 VEq as as') : FrEq (c.frame st as) (c.frame st' as') :=
  ⟨h, ha, all2_self fun a ha => by rw [List.eq_of_mem_replicate ha]; exact .none⟩

/-- A saturated call. -/
theorem callFn_sat {c : Code} {st args : List TVal} {s : St TFn} {n : Nat} (hl : c.numArgs ≤ args.length) (hn : s.fuel = n) :
    callFn (.func c st) args s = if n = 0 then .oof else
      (exec (fun f as s1 => if s1.fuel < n then fcall f as s1 else .oof) c.instrs 0 (c.frame st (args.take c.numArgs))
          { s with fuel := n - 1 }).bind fun o s1 =>
            if s1.fuel < n then
              match o with
              | .ret v => if args.drop c.numArgs = [] then .ok v s1 else fcall v (args.drop c.numArgs) s1
              | .tail f as => tailCall f (as ++ args.drop c.numArgs) s1
            else .oof := by
  subst hn
  rw [callFn.eq_def, if_neg (show ¬ args.length < (TFn.func c st).arity by show ¬ args.length < c.numArgs; omega)]
  rfl

theorem tailCall_eq {n : Nat} (hc : Cong n) {f f' as as' s s'} (hf : VEq f f') (ha : All2 VEq as as') (hs : SEq s s') (hn : s.fuel = n) :
    REq (n + 1) VEq (tailCall f as s) (tailCall f' as' s') := by
  have h1 := hc f f' as as' s s' hf ha hs hn
  have h2 := strict_eq hs hf (m := s.fuel + 1) (by omega)
  rw [fcall, fcall] at h1
  rw [tailCall, tailCall]
  generalize he : strict s f = r at *
  generalize he' : strict s' f' = r' at *
  cases h2 with
  | @ok a b s1 s1' h3 h4 =>
    obtain ⟨h5, h6, h7⟩ := h3
    cases h5 with
    | fn _ _ _ _ => exact h1
    | type => exact .crash
    | struct _ => exact .crash
    | union _ => exact .crash
    | ref => exact .crash
  | abort => exact .wild
  | crash => exact .crash
  | wild => exact .wild
  | oof => exact .oof
  | stop => exact .stop

theorem tailCall_split {n : Nat} (hc : Split n) {f as bs s} (hf : VEq f f) (ha : All2 VEq as as) (hb : All2 VEq bs bs) (hs : SEq s s) (hne : bs ≠ [])
    (hn : s.fuel = n) : REq (n + 1) VEq (tailCall f (as ++ bs) s) (andThen (tailCall f as s) bs) := by
  have h1 := hc f as bs s hf ha hb hs hne hn
  have h2 := strict_eq hs hf (m := s.fuel + 1) (by omega)
  rw [fcall, fcall] at h1
  rw [tailCall, tailCall]
  generalize he : strict s f = r at *
  cases h2 with
  | @ok a b s1 s1' h3 h4 =>
    cases a with
    | fn _ => exact h1
    | _ => exact .crash
  | abort => exact .wild
  | crash => exact .crash
  | wild => exact .wild
  | oof => exact .oof
  | stop => exact .stop

theorem unwrap_shape {s s'} (h : SEq s s') (v w : TVal) (hv : VEq v w) :
    OptRel (Shape VEq) (unwrap s.refs (s.refs.length + 1) v) (unwrap s'.refs (s'.refs.length + 1) w) := by
  have := unwrap_eq h (s.refs.length + 1) hv
  rw [← h.refs.length_eq]
  generalize unwrap s.refs (s.refs.length + 1) v = x at this ⊢
  generalize unwrap s'.refs (s.refs.length + 1) w = y at this ⊢
  cases this with
  | none => exact .none
  | some hv =>
    cases hv with
    | ref => exact .some .ref
    | type => exact .some .type
    | struct h' => exact .some (.struct h')
    | union h' => exact .some (.union h')
    | fn _ _ _ _ => exact .some .fn

theorem callOut_eq {m s s' op as bs} (h : SEq s s') (ha : All2 VEq as bs) (hm : s.fuel < m) :
    REq m VEq (callOut .native op as s) (callOut .native op bs s') := by
  have := callOut_same (⟨.struct, .union, fun _ _ => .fn .native .native .nil .nil⟩ : Makes VEq TFn.native TFn.native) (unwrap_shape h) h.out ha op
  generalize callOut _ op as s = x at this ⊢
  generalize callOut _ op bs s' = y at this ⊢
  cases this with
  | ok hv => exact .ok hv ⟨h.fuel, h.refs, rfl⟩ hm
  | abort => exact .abort
  | crash => exact .crash
  | stop => exact .stop

/-- A saturated call of a function implemented in C. -/
theorem callFn_native {op more : Nat} {args : List TVal} {s : St TFn} {n : Nat} (hl : more + 1 ≤ args.length) (hn : s.fuel = n) :
    callFn (.native op more) args s = if n = 0 then .oof else
      (callOut .native op (args.take (more + 1)) { s with fuel := n - 1 }).bind fun v s1 =>
        if args.drop (more + 1) = [] then .ok v s1 else if s1.fuel < n then fcall v (args.drop (more + 1)) s1 else .oof := by
  subst hn
  rw [callFn.eq_def, if_neg (show ¬ args.length < (TFn.native op more).arity by show ¬ args.length < more + 1; omega)]
  rfl

theorem native_cong {n : Nat} (ih : ∀ m, m < n → Cong m) {op more args args' s s'} (ha : All2 VEq args args') (hs : SEq s s')
    (hl : more + 1 ≤ args.length) (hn : s.fuel = n) : REq n VEq (callFn (.native op more) args s) (callFn (.native op more) args' s') := by
  rw [callFn_native hl hn, callFn_native (by rw [← ha.length_eq]; exact hl) (hs.fuel.symm.trans hn)]
  by_cases h0 : n = 0
  · rw [if_pos h0, if_pos h0]; exact .oof
  · rw [if_neg h0, if_neg h0]
    refine (callOut_eq (m := n) (s := { s with fuel := n - 1 }) (s' := { s' with fuel := n - 1 }) ⟨rfl, hs.refs, hs.out⟩ (Compile.All2.take' ha _)
      (by show n - 1 < n; omega)).bind ?_
    intro v v' s1 s1' hv hs1 hm
    have hd := Compile.All2.drop' ha (more + 1)
    by_cases hu : args.drop (more + 1) = []
    · rw [if_pos hu, if_pos ((Compile.All2.nil_iff hd).mp hu)]
      exact .ok hv hs1 hm
    · rw [if_neg hu, if_neg fun h => hu ((Compile.All2.nil_iff hd).mpr h), if_pos hm, if_pos (by rw [← hs1.fuel]; exact hm)]
      exact (ih _ hm _ _ _ _ _ _ hv hd hs1 rfl).mono (by omega) fun _ _ h => h

theorem native_split {n : Nat} (ih : ∀ m, m < n → Cong m) (ih' : ∀ m, m < n → Split m) {op more args bs s} (ha : All2 VEq args args)
    (hb : All2 VEq bs bs) (hs : SEq s s) (hne : bs ≠ []) (hl : more + 1 ≤ args.length) (hn : s.fuel = n) :
    REq n VEq (callFn (.native op more) (args ++ bs) s) (andThen (callFn (.native op more) args s) bs) := by
  rw [callFn_native hl hn, callFn_native (by rw [List.length_append]; omega) hn]
  rw [List.take_append_of_le_length hl, List.drop_append_of_le_length hl]
  by_cases h0 : n = 0
  · rw [if_pos h0, if_pos h0]; exact .oof
  · rw [if_neg h0, if_neg h0]
    have he := callOut_eq (m := n) (op := op) (s := { s with fuel := n - 1 }) (s' := { s with fuel := n - 1 }) ⟨rfl, hs.refs, rfl⟩
      (Compile.All2.take' ha (more + 1)) (by show n - 1 < n; omega)
    unfold andThen
    rw [bind_assoc]
    have hd := Compile.All2.drop' ha (more + 1)
    generalize callOut _ _ _ _ = r at he ⊢
    cases r with
    | ok v s1 =>
      cases he with
      | ok hv hs1 hm =>
        simp only [Res.bind]
        rw [if_neg (by simp [hne]), if_pos hm]
        by_cases hu : args.drop (more + 1) = []
        · rw [if_pos hu, hu, List.nil_append]
          exact (ih s1.fuel hm _ _ _ _ _ _ hv hb hs1 rfl).mono (Nat.succ_le_of_lt hm) fun _ _ h => h
        · rw [if_neg hu, if_pos hm]
          exact (ih' s1.fuel hm _ _ _ _ hv hd hb hs1 hne rfl).mono (Nat.succ_le_of_lt hm) fun _ _ h => h
    | abort => exact .abort
    | crash => exact .crash
    | wild => exact .wild
    | oof => exact .oof
    | stop => exact .stop

theorem func_cong {n : Nat} (ih : ∀ m, m < n → Cong m) {c : Code} {st st' args args' s s'} (h : All2 VEq st st') (ha : All2 VEq args args') (hs : SEq s s')
    (hl : c.numArgs ≤ args.length) (hn : s.fuel = n) : REq n VEq (callFn (.func c st) args s) (callFn (.func c st') args' s') := by
  rw [callFn_sat hl hn, callFn_sat (by rw [← ha.length_eq]; exact hl) (hs.fuel.symm.trans hn)]
  by_cases h0 : n = 0
  · rw [if_pos h0, if_pos h0]; exact .oof
  · rw [if_neg h0, if_neg h0]
    refine (exec_eq (callEq_of ih) c.instrs _ 0 (Nat.le_refl _) (frame_eq h (Compile.All2.take' ha _))
      (s := { s with fuel := n - 1 }) (s' := { s' with fuel := n - 1 }) ⟨rfl, hs.refs, hs.out⟩ (by show n - 1 < n; omega)).bind ?_
    intro o o' s1 s1' ho hs1 hm
    rw [if_pos hm, if_pos (by rw [← hs1.fuel]; exact hm)]
    have hd := Compile.All2.drop' ha c.numArgs
    cases ho with
    | ret hv =>
      simp only
      by_cases hu : args.drop c.numArgs = []
      · rw [if_pos hu, if_pos ((Compile.All2.nil_iff hd).mp hu)]
        exact .ok hv hs1 hm
      · rw [if_neg hu, if_neg fun h => hu ((Compile.All2.nil_iff hd).mpr h)]
        exact (ih _ hm _ _ _ _ _ _ hv hd hs1 rfl).mono (by omega) fun _ _ h => h
    | tail hf has => exact (tailCall_eq (ih _ hm) hf (has.append hd) hs1 rfl).mono (by omega) fun _ _ h => h

theorem func_split {n : Nat} (ih : ∀ m, m < n → Cong m) (ih' : ∀ m, m < n → Split m) {c : Code} {st args bs s} (h : All2 VEq st st) (ha : All2 VEq args args)
    (hb : All2 VEq bs bs) (hs : SEq s s) (hne : bs ≠ []) (hl : c.numArgs ≤ args.length) (hn : s.fuel = n) :
    REq n VEq (callFn (.func c st) (args ++ bs) s) (andThen (callFn (.func c st) args s) bs) := by
  rw [callFn_sat hl hn, callFn_sat (by rw [List.length_append]; omega) hn]
  rw [List.take_append_of_le_length hl, List.drop_append_of_le_length hl]
  by_cases h0 : n = 0
  · rw [if_pos h0, if_pos h0]; exact .oof
  · rw [if_neg h0, if_neg h0]
    have he := exec_eq (callEq_of ih) c.instrs _ 0 (Nat.le_refl _) (frame_eq (c := c) h (Compile.All2.take' ha c.numArgs)) (s := { s with fuel := n - 1 })
      (s' := { s with fuel := n - 1 }) ⟨rfl, hs.refs, hs.out⟩ (by show n - 1 < n; omega)
    unfold andThen
    rw [bind_assoc]
    have hd := Compile.All2.drop' ha c.numArgs
    generalize exec _ _ _ _ _ = r at he ⊢
    cases r with
    | ok o s1 =>
      cases he with
      | ok ho hs1 hm =>
        simp only [Res.bind]
        rw [if_pos hm, if_pos hm]
        cases o with
        | ret v =>
          cases ho with
          | ret hv =>
            simp only
            rw [if_neg (by simp [hne])]
            by_cases hu : args.drop c.numArgs = []
            · rw [if_pos hu, hu, List.nil_append]
              exact (ih s1.fuel hm _ _ _ _ _ _ hv hb hs1 rfl).mono (Nat.succ_le_of_lt hm) fun _ _ h => h
            · rw [if_neg hu]
              exact (ih' s1.fuel hm _ _ _ _ hv hd hb hs1 hne rfl).mono (Nat.succ_le_of_lt hm) fun _ _ h => h
        | tail f as =>
          cases ho with
          | tail hf has =>
            simp only
            rw [← List.append_assoc]
            exact (tailCall_split (ih' s1.fuel hm) hf (has.append hd) hb hs1 hne rfl).mono (Nat.succ_le_of_lt hm) fun _ _ h => h
    | abort => exact .abort
    | crash => exact .crash
    | wild => exact .wild
    | oof => exact .oof
    | stop => exact .stop

theorem base_cong {n : Nat} (ih : ∀ m, m < n → Cong m) {c : Base} {st st' args args' s s'} (h : All2 VEq st st') (ha : All2 VEq args args') (hs : SEq s s')
    (hl : c.numArgs ≤ args.length) (hn : s.fuel = n) : REq n VEq (callFn (c.fn st) args s) (callFn (c.fn st') args' s') := by
  cases c with
  | code c => exact func_cong ih h ha hs hl hn
  | native op more => exact native_cong ih ha hs hl hn

theorem base_split {n : Nat} (ih : ∀ m, m < n → Cong m) (ih' : ∀ m, m < n → Split m) {c : Base} {st args bs s} (h : All2 VEq st st) (ha : All2 VEq args args)
    (hb : All2 VEq bs bs) (hs : SEq s s) (hne : bs ≠ []) (hl : c.numArgs ≤ args.length) (hn : s.fuel = n) :
    REq n VEq (callFn (c.fn st) (args ++ bs) s) (andThen (callFn (c.fn st) args s) bs) := by
  cases c with
  | code c => exact func_split ih ih' h ha hb hs hne hl hn
  | native op more => exact native_split ih ih' ha hb hs hne hl hn

/-- A saturated call of a partial application is a call of the function with all the arguments. -/
theorem pap_call {n : Nat} (ih : ∀ m, m < n → Cong m) (ih' : ∀ m, m < n → Split m) {f c st as} (hi : Is f c st as) :
    ∀ {bs s}, All2 VEq st st → All2 VEq as as → All2 VEq bs bs → SEq s s → c.numArgs ≤ as.length + bs.length → s.fuel = n →
    REq n VEq (callFn f bs s) (callFn (c.fn st) (as ++ bs) s) := by
  induction hi with
  | func =>
    intro bs s hst _ hb hs hl hn
    exact base_cong (c := .code _) ih hst hb hs (by simpa using hl) hn
  | native =>
    intro bs s _ _ hb hs hl hn
    exact native_cong ih hb hs (by simpa [Base.numArgs] using hl) hn
  | @pap f c st as ps k hi hps hk ihh =>
    intro bs s hst ha hb hs hl hn
    have ha1 : All2 VEq as as := all2_self fun a h => self_all2 ha a (by simp [h])
    have ha2 : All2 VEq ps ps := all2_self fun a h => self_all2 ha a (by simp [h])
    simp only [List.length_append] at hl
    rw [callFn.eq_def, if_neg (show ¬ bs.length < (TFn.pap k f ps).arity by simp only [TFn.arity]; omega)]
    have ek : (TFn.pap k f ps).arity = k := rfl
    simp only [ek]
    have hu := Compile.All2.take' hb k
    have hu' := Compile.All2.drop' hb k
    have h1 := ihh (bs := ps ++ bs.take k) (s := s) hst ha1 (ha2.append hu) hs
      (by simp only [List.length_append, List.length_take]; omega) hn
    by_cases he : bs.drop k = []
    · have e : (fun (v : TVal) (s' : St TFn) => if bs.drop k = [] then Res.ok v s' else if s'.fuel < s.fuel then fcall v (bs.drop k) s' else .oof) = .ok := by
        funext v s'; rw [if_pos he]
      have e2 : bs.take k = bs := by have := List.take_append_drop k bs; rw [he, List.append_nil] at this; exact this
      rw [e, bind_ok]
      rw [e2] at h1 ⊢
      rw [List.append_assoc]
      exact h1
    · have h2 : REq n VEq ((callFn f (ps ++ bs.take k) s).bind fun v s' =>
          if bs.drop k = [] then .ok v s' else if s'.fuel < s.fuel then fcall v (bs.drop k) s' else .oof)
          (andThen (callFn (c.fn st) (as ++ (ps ++ bs.take k)) s) (bs.drop k)) := by
        refine h1.bind fun v w s1 s1' hv hs1 hm => ?_
        rw [if_neg he, if_pos (by rw [hn]; exact hm)]
        exact (ih _ hm _ _ _ _ _ _ hv hu' hs1 rfl).mono (by omega) fun _ _ h => h
      refine h2.trans ?_
      have h3 := base_split ih ih' (c := c) (st := st) (args := as ++ (ps ++ bs.take k)) (bs := bs.drop k) (s := s) hst (ha1.append (ha2.append hu)) hu' hs he
        (by simp only [List.length_append, List.length_take]; omega) hn
      have e : as ++ (ps ++ bs.take k) ++ bs.drop k = as ++ ps ++ bs := by
        rw [List.append_assoc, List.append_assoc, List.take_append_drop, List.append_assoc]
      rw [e] at h3
      exact h3.symm

theorem callFn_unsat {g : TFn} {args : List TVal} {s : St TFn} (h : args.length < g.arity) :
    callFn g args s = .ok (.fn (.pap (g.arity - args.length) g args)) s := by
  rw [callFn.eq_def, if_pos h]

theorem Is.pap' {f c st as} (h : Is f c st as) {bs : List TVal} (hl : as.length + bs.length < c.numArgs) : Is (.pap (f.arity - bs.length) f bs) c st (as ++ bs) :=
  .pap h hl (by have := h.arity; omega)

theorem fcall_fn (g : TFn) (args : List TVal) (s : St TFn) : fcall (.fn g) args s = callFn g args s := by
  rw [fcall, strict_fn]; rfl

theorem cong_step {n : Nat} (ih : ∀ m, m < n → Cong m) (ih' : ∀ m, m < n → Split m) : Cong n := by
  intro f f' as as' s s' hf ha hs hn
  rw [fcall, fcall]
  refine (strict_eq hs hf (m := n + 1) (by omega)).bind fun g g' s1 s1' hg _ _ => ?_
  cases hg.1 with
  | @fn g g' c st st' ps ps' h1 h2 h3 h4 =>
    simp only
    have a1 := h1.arity
    have a2 := h2.arity
    have el := ha.length_eq
    have el2 := h4.length_eq
    by_cases hl : ps.length + as.length < c.numArgs
    · rw [callFn_unsat (by omega), callFn_unsat (by omega)]
      exact .ok (.fn (h1.pap' hl) (h2.pap' (by omega)) h3 (h4.append ha)) hs (by omega)
    · have hst := all2_trans h3 (all2_symm h3 fun _ _ _ h => h.symm) fun _ _ _ _ e1 e2 => e1.trans e2
      have hst' := all2_trans (all2_symm h3 fun _ _ _ h => VEq.symm h) h3 fun _ _ _ _ e1 e2 => VEq.trans e1 e2
      have hps := all2_trans h4 (all2_symm h4 fun _ _ _ h => h.symm) fun _ _ _ _ e1 e2 => e1.trans e2
      have hps' := all2_trans (all2_symm h4 fun _ _ _ h => VEq.symm h) h4 fun _ _ _ _ e1 e2 => VEq.trans e1 e2
      have has := all2_trans ha (all2_symm ha fun _ _ _ h => h.symm) fun _ _ _ _ e1 e2 => e1.trans e2
      have has' := all2_trans (all2_symm ha fun _ _ _ h => VEq.symm h) ha fun _ _ _ _ e1 e2 => VEq.trans e1 e2
      refine REq.mono ?_ (Nat.le_succ n) fun _ _ h => h
      refine (pap_call ih ih' h1 hst hps has hs.left (by omega) hn).trans ?_
      refine (base_cong ih h3 (h4.append ha) hs (by rw [List.length_append]; omega) hn).trans ?_
      exact (pap_call ih ih' h2 hst' hps' has' hs.right (by omega) (hs.fuel.symm.trans hn)).symm
  | _ => exact .crash

theorem split_step {n : Nat} (ih : ∀ m, m < n → Cong m) (ih' : ∀ m, m < n → Split m) : Split n := by
  intro f as bs s hf ha hb hs hne hn
  have hst := strict_eq hs hf (m := n + 1) (by omega)
  rw [fcall, fcall]
  unfold andThen
  rw [bind_assoc]
  generalize strict s f = r at hst ⊢
  cases r with
  | ok g s1 =>
    cases hst with
    | ok hg _ _ =>
      cases g with
      | fn g =>
        simp only [Res.bind]
        cases hg.1 with
        | @fn _ _ c st st' ps ps' h1 h2 h3 h4 =>
          obtain ⟨_, rfl, rfl⟩ := h1.det h2
          have a1 := h1.arity
          by_cases hl : ps.length + as.length < c.numArgs
          · rw [callFn_unsat (show as.length < g.arity by omega)]
            simp only
            rw [fcall_fn]
            have hp := h1.pap' hl
            have a2 := hp.arity
            rw [List.length_append] at a2
            by_cases hl2 : ps.length + as.length + bs.length < c.numArgs
            · rw [callFn_unsat (by rw [List.length_append]; omega), callFn_unsat (by omega)]
              have e1 := h1.pap' (bs := as ++ bs) (by rw [List.length_append]; omega)
              have e2 := hp.pap' (bs := bs) (by rw [List.length_append]; omega)
              rw [List.append_assoc] at e2
              exact .ok (.fn e1 e2 h3 (h4.append (ha.append hb))) hs (by omega)
            · refine REq.mono ?_ (Nat.le_succ n) fun _ _ h => h
              have e1 := pap_call ih ih' h1 (bs := as ++ bs) h3 h4 (ha.append hb) hs (by rw [List.length_append]; omega) hn
              have e2 := pap_call ih ih' hp (bs := bs) h3 (h4.append ha) hb hs (by rw [List.length_append]; omega) hn
              rw [List.append_assoc] at e2
              exact e1.trans e2.symm
          · refine REq.mono ?_ (Nat.le_succ n) fun _ _ h => h
            have e1 := pap_call ih ih' h1 (bs := as ++ bs) h3 h4 (ha.append hb) hs (by rw [List.length_append]; omega) hn
            have e2 := pap_call ih ih' h1 (bs := as) h3 h4 ha hs (by omega) hn
            have e3 := base_split ih ih' (c := c) (args := ps ++ as) h3 (h4.append ha) hb hs hne (by rw [List.length_append]; omega) hn
            rw [List.append_assoc] at e3
            refine e1.trans (e3.trans ?_)
            refine e2.symm.bind fun v w s1 s1' hv hs1 hm => ?_
            exact (ih _ hm _ _ _ _ _ _ hv hb hs1 rfl).mono (by omega) fun _ _ h => h
      | _ => exact .crash
  | abort => exact .abort
  | crash => exact .crash
  | wild => exact .wild
  | oof => exact .oof
  | stop => exact .stop

theorem main (n : Nat) : Cong n ∧ Split n := by
  induction n using Nat.strongRecOn with
  | ind n ih => exact ⟨cong_step (fun m hm => (ih m hm).1) fun m hm => (ih m hm).2, split_step (fun m hm => (ih m hm).1) fun m hm => (ih m hm).2⟩

/-! ### What is seen -/

theorem observe_eq {s s' : St TFn} (h : SEq s s') : (n : Nat) → {v w : TVal} → VEq v w → observe s.refs n v = observe s'.refs n w
  | 0, _, _, _ => rfl
  | n + 1, v, w, hv => by
    simp only [observe]
    have := unwrap_eq h (s.refs.length + 1) hv
    rw [← h.refs.length_eq]
    generalize unwrap s.refs (s.refs.length + 1) v = x at this ⊢
    generalize unwrap s'.refs (s.refs.length + 1) w = y at this ⊢
    cases this with
    | none => rfl
    | some hv =>
      cases hv with
      | ref => rfl
      | type => rfl
      | fn _ => rfl
      | union h' => simp only [observe_eq h n h']
      | @struct fs gs h' =>
        simp only [Obs.struct.injEq]
        induction h' with
        | nil => rfl
        | cons h1 _ ih => simp only [List.map_cons, observe_eq h n h1, ih]

theorem REq.seen {m r r'} (h : REq m VEq r r') (depth : Nat) : r.seen depth = r'.seen depth := by
  cases h with
  | ok hv hs _ => simp only [Res.seen, observe_eq hs depth hv]
  | _ => rfl

theorem REq.andThen {m r r'} (h : REq m VEq r r') {as as'} (ha : All2 VEq as as') : REq m VEq (andThen r as) (andThen r' as') :=
  h.bind fun _ _ s _ hv hs hm => ((main s.fuel).1 _ _ _ _ _ _ hv ha hs rfl).mono (Nat.succ_le_of_lt hm) fun _ _ h => h

theorem REq.alike {m r r'} (h : REq m VEq r r') : Alike r r' := by
  intro later hl depth
  induction later generalizing r r' with
  | nil => exact h.seen depth
  | cons args later ih =>
    exact ih (h.andThen (all2_self fun v hv => (hl args (by simp) v hv).refl)) fun a ha => hl a (by simp [ha])

theorem ProperSt.refl {s} (h : ProperSt s) : SEq s s :=
  ⟨rfl, all2_self fun a ha => by cases a with
    | none => exact .none
    | some v => exact .some (h v ha).refl, rfl⟩

theorem proper_all2 {as : List TVal} (h : ∀ v ∈ as, Proper v) : All2 VEq as as := all2_self fun v hv => (h v hv).refl

/-- Equivalent but for the fuel check. -/
theorem callEq_guard (n : Nat) : CallEq n (fun f as s1 => if s1.fuel < n then fcall f as s1 else .oof) fcall := by
  intro f f' as as' s s' hf ha hs hm
  simp only
  rw [if_pos hm]
  exact ((main s.fuel).1 f f' as as' s s' hf ha hs rfl).mono (Nat.succ_le_of_lt hm) fun _ _ h => h

theorem step_tail {call i pc fr s f as s'} (h : step call i pc fr s = .ok (.done (.tail f as)) s') : ∃ g vs, i = .tailCall g vs := by
  have put : ∀ {dest v s}, setNext pc fr dest v s ≠ .ok (.done (.tail f as)) s' := by
    intro dest v s h
    simp only [setNext, Frame.put] at h
    split at h
    · simp only [orWild] at h; cases h
    · simp [orWild] at h
  have wild : ∀ {α : Type} {o : Option α} {k : α → TRes Next} {x s1}, orWild o k = .ok x s1 → ∃ a, o = some a ∧ k a = .ok x s1 := by
    intro α o k x s1 h
    cases o with
    | none => cases h
    | some a => exact ⟨a, rfl, h⟩
  have bnd : ∀ {α : Type} {r : TRes α} {k : α → St TFn → TRes Next} {x s1}, r.bind k = .ok x s1 → ∃ a s2, r = .ok a s2 ∧ k a s2 = .ok x s1 := by
    intro α r k x s1 h
    cases r with
    | ok a s2 => exact ⟨a, s2, rfl, h⟩
    | _ => cases h
  cases i with
  | struct args dest => obtain ⟨_, _, h⟩ := wild h; exact absurd h put
  | union tag arg dest => obtain ⟨_, _, h⟩ := wild h; exact absurd h put
  | structAccess obj tag dest => obtain ⟨_, _, h⟩ := wild h; obtain ⟨_, _, _, h⟩ := bnd h; exact absurd h put
  | unionAccess obj tag dest => obtain ⟨_, _, h⟩ := wild h; obtain ⟨_, _, _, h⟩ := bnd h; exact absurd h put
  | select c nt targets d =>
    obtain ⟨_, _, h⟩ := wild h
    obtain ⟨tag, _, _, h⟩ := bnd h
    split at h <;> cases h
  | goto t => cases h
  | func code b scope dest => obtain ⟨_, _, h⟩ := wild h; exact absurd h put
  | call f args dest =>
    obtain ⟨_, _, h⟩ := wild h; obtain ⟨_, _, h⟩ := wild h; obtain ⟨_, _, _, h⟩ := bnd h; exact absurd h put
  | tailCall f args => exact ⟨_, _, rfl⟩
  | copy src dest => obtain ⟨_, _, h⟩ := wild h; exact absurd h put
  | refValue dest => exact absurd h put
  | refDef ref value =>
    obtain ⟨_, _, h⟩ := wild h; obtain ⟨_, _, h⟩ := wild h; obtain ⟨_, _, _, h⟩ := bnd h
    cases h
  | ret v => obtain ⟨_, _, h⟩ := wild h; cases h
  | type dest => exact absurd h put
  | list args dest => obtain ⟨_, _, h⟩ := wild h; exact absurd h put
  | literal ls dest => exact absurd h put
  | nop => cases h

theorem exec_plain (code : List Instr) (n : Nat) : ∀ (pc : Nat) (fr : Frame) (s : St TFn), code.length - pc ≤ n →
    ((exec fcall code pc fr s).bind fun o s1 =>
      match o with
      | .ret v => .ok v s1
      | .tail f as => tailCall f as s1) = runPlain fcall code pc fr s := by
  induction n with
  | zero =>
    intro pc fr s hn
    rw [exec.eq_def, runPlain.eq_def, dif_neg (by omega), dif_neg (by omega)]
    rfl
  | succ n ih =>
    intro pc fr s hn
    rw [exec.eq_def, runPlain.eq_def]
    by_cases hp : pc < code.length
    · rw [dif_pos hp, dif_pos hp, bind_assoc]
      have other : ∀ r : TRes Next, (∀ f as s, r ≠ .ok (.done (.tail f as)) s) → (r.bind fun nx s => Res.bind (match nx with
            | .done o => .ok o s
            | .go pc' fr => if pc < pc' then exec fcall code pc' fr s else .wild) fun o s1 => match o with
            | .ret v => .ok v s1
            | .tail f as => tailCall f as s1) =
          r.bind fun nx s => match nx with
            | .done (.ret v) => .ok v s
            | .done (.tail _ _) => .wild
            | .go pc' fr => if pc < pc' then runPlain fcall code pc' fr s else .wild := by
        intro r hr
        cases r with
        | ok nx s =>
          cases nx with
          | done o =>
            cases o with
            | ret v => rfl
            | tail f as => exact absurd rfl (hr f as s)
          | go pc' fr =>
            simp only [Res.bind]
            by_cases hlt : pc < pc'
            · rw [if_pos hlt, if_pos hlt, ← ih pc' fr s (by omega)]
              cases exec fcall code pc' fr s <;> rfl
            · rw [if_neg hlt, if_neg hlt]
        | _ => rfl
      cases hc : code[pc] with
      | tailCall f args =>
        simp only [step, stepPlain]
        cases fr.get f with
        | none => rfl
        | some f =>
          simp only [orWild]
          cases hst : strict s f with
          | ok g s1 =>
            have es : s1 = s := by
              unfold strict at hst
              split at hst
              · cases hst
              · cases hst
              · cases hst; rfl
            subst es
            simp only [Res.bind]
            cases g with
            | fn g =>
              simp only
              cases fr.gets args with
              | none => rfl
              | some vs =>
                simp only
                have : tailCall f vs s1 = fcall f vs s1 := by
                  rw [tailCall, fcall, hst]; rfl
                rw [this]
                cases fcall f vs s1 <;> rfl
            | _ => rfl
          | _ => rfl
      | _ =>
        refine other _ ?_
        intro f as s1 he
        obtain ⟨_, _, h⟩ := step_tail he
        cases h
    · rw [dif_neg hp, dif_neg hp]; rfl

/-- A call with exactly the arguments the function takes runs its body, in which tail calls are
ordinary calls. -/
theorem body_eq {c : Code} {st args : List TVal} {s : St TFn} (hst : ∀ v ∈ st, Proper v) (ha : ∀ v ∈ args, Proper v) (hs : ProperSt s)
    (hl : args.length = c.numArgs) :
    REq s.fuel VEq (callFn (.func c st) args s) (if s.fuel = 0 then .oof else runPlain fcall c.instrs 0 (c.frame st args) { s with fuel := s.fuel - 1 }) := by
  rw [callFn_exact hl rfl]
  by_cases h0 : s.fuel = 0
  · rw [if_pos h0, if_pos h0]; exact .oof
  · rw [if_neg h0, if_neg h0, ← exec_plain _ _ _ _ _ (Nat.le_refl _)]
    refine (exec_eq (callEq_guard s.fuel) c.instrs _ 0 (Nat.le_refl _) (frame_eq (proper_all2 hst) (proper_all2 ha))
      (s := { s with fuel := s.fuel - 1 }) (s' := { s with fuel := s.fuel - 1 }) ⟨rfl, hs.refl.refs, rfl⟩ (by show s.fuel - 1 < s.fuel; omega)).bind ?_
    intro o o' s1 s1' ho hs1 hm
    rw [if_pos hm]
    cases ho with
    | ret hv => exact .ok hv hs1 hm
    | tail hf has => exact (tailCall_eq (main s1.fuel).1 hf has hs1 rfl).mono (Nat.succ_le_of_lt hm) fun _ _ h => h

/-! ### Theorems -/

section
variable {f : TVal} {as bs : List TVal} {s : St TFn} (hf : Proper f) (ha : ∀ v ∈ as, Proper v) (hb : ∀ v ∈ bs, Proper v) (hs : ProperSt s)
include hf ha hs

/-- Calls give proper values and leave the state proper: what is assumed in the other theorems holds
of everything that is computed. -/
theorem C07_proper {v s'} (h : fcall f as s = .ok v s') : Proper v ∧ ProperSt s' ∧ s'.fuel ≤ s.fuel := by
  have := (main s.fuel).1 f f as as s s hf.refl (proper_all2 ha) hs.refl rfl
  rw [h] at this
  cases this with
  | ok hv hs' hm =>
    refine ⟨hv.proper, fun w hw => ?_, by omega⟩
    obtain ⟨b, _, hb⟩ := hs'.refs.mem_left hw
    cases hb with
    | some hb => exact hb.proper

/-- C07: giving the arguments at once or in two calls is the same. -/
theorem C07_split (hb : ∀ v ∈ bs, Proper v) (hne : bs ≠ []) : Alike (fcall f (as ++ bs) s) (andThen (fcall f as s) bs) :=
  ((main s.fuel).2 f as bs s hf.refl (proper_all2 ha) (proper_all2 hb) hs.refl hne rfl).alike

theorem oneByOne_eq (hne : as ≠ []) : REq (s.fuel + 1) VEq (fcall f as s) (oneByOne f as s) := by
  induction as generalizing f s with
  | nil => exact absurd rfl hne
  | cons a as ih =>
    have hfa : ∀ v ∈ [a], Proper v := fun v hv => ha v (by simp at hv; simp [hv])
    have h1 := (main s.fuel).1 f f [a] [a] s s hf.refl (proper_all2 hfa) hs.refl rfl
    by_cases he : as = []
    · subst he
      rw [oneByOne]
      have : (fun v s => oneByOne v [] s) = (Res.ok : TVal → St TFn → TRes TVal) := by funext v s; rfl
      rw [this, bind_ok]
      exact h1
    · have ha' : ∀ v ∈ as, Proper v := fun v hv => ha v (by simp [hv])
      refine ((main s.fuel).2 f [a] as s hf.refl (proper_all2 hfa) (proper_all2 ha') hs.refl he rfl).trans ?_
      show REq _ _ (andThen _ _) (Res.bind _ _)
      cases hr : fcall f [a] s with
      | ok v s1 =>
        obtain ⟨p1, p2, p3⟩ := C07_proper hf hfa hs hr
        exact (ih p1 ha' p2 he).mono (by omega) fun _ _ h => h
      | abort => exact .abort
      | crash => exact .crash
      | wild => exact .wild
      | oof => exact .oof
      | stop => exact .stop

/-- C07: giving the arguments at once or one at a time is the same. -/
theorem C07_one_by_one (hne : as ≠ []) : Alike (fcall f as s) (oneByOne f as s) := (oneByOne_eq hf ha hs hne).alike

omit hf in
/-- C07: a call with exactly the arguments the function takes runs its body, in which a tail call is
like a call whose result is returned. -/
theorem C07_body {c : Code} {st : List TVal} (hst : ∀ v ∈ st, Proper v) (hl : as.length = c.numArgs) :
    Alike (fcall (.fn (.func c st)) as s) (if s.fuel = 0 then .oof else runPlain fcall c.instrs 0 (c.frame st as) { s with fuel := s.fuel - 1 }) := by
  rw [fcall_fn]
  exact (body_eq hst ha hs hl).alike
end

/-- C07: with too few arguments nothing is run; the result is a function that takes the others. -/
theorem C07_partial_application {g : TFn} {as : List TVal} (s : St TFn) (hl : as.length < g.arity) :
    ∃ p, fcall (.fn g) as s = .ok (.fn p) s ∧ p.arity = g.arity - as.length :=
  ⟨_, by rw [fcall_fn, callFn_unsat hl], rfl⟩

/-- C07: calling an undefined function aborts. -/
theorem C07_undefined {r : Nat} {as : List TVal} {s : St TFn} (h : s.refs[r]? = some none) : fcall (.ref r) as s = .abort := by
  have : s.refs.length ≠ 0 := fun h0 => by rw [List.length_eq_zero_iff.mp h0] at h; cases h
  rw [fcall]
  simp [strict, unwrap, h, Res.bind]

/-- A function of two arguments that returns the first. -/
def k : TFn := .func (.mk 2 0 0 [.ret (.arg 0)] []) []

/-- The theorems apply to it, and also to its partial application to itself. -/
example : Proper (.fn k) ∧ Proper (.fn (.pap 1 k [.fn k])) ∧ Proper (.fn (.native 0 1)) ∧ ProperSt ⟨9, [], .silent⟩ := by
  have h : Proper (.fn k) := .func (by simp)
  exact ⟨h, .pap h (by simpa using h) (by simp [k, TFn.arity, Code.numArgs]) (by simp [k, TFn.arity, Code.numArgs]), .native, fun v hv => by simp at hv⟩

end Verif.Compile.Curry
