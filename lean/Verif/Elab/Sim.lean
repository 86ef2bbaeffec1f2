import Verif.Elab.Conv
/-
The output of the type checker runs like the expression by names.
-/
namespace Verif.Elab
open Types (Name Kind DataKind)
open Compile (Var Tc Tcs Flds Brs Val St Res SFn SVal SRes Env)

mutual
/-- The same value. -/
inductive VR : NVal → SVal → Prop
  | type : VR .type .type
  | struct {fs gs} : All2 VR fs gs → VR (.struct fs) (.struct gs)
  | union {tag a b} : VR a b → VR (.union tag a) (.union tag b)
  | ref {r} : VR (.ref r) (.ref r)
  | fn {f g} : FR f g → VR (.fn f) (.fn g)
/-- The same function: what was captured is the values of variables of the environment. -/
inductive FR : NFn → SFn → Prop
  | clo {x b ρ names ws tb svals} : Conv 0 (funCx x names) b tb → All2 (fun y w => lookupVal ρ y = some w) names ws → All2 VR ws svals →
      FR (.clo x b ρ) (.clo tb svals)
  | native {op more as bs} : All2 VR as bs → FR (.native op more as) (.native op more bs)
end

inductive OR : Option NVal → Option SVal → Prop
  | none : OR none none
  | some {v w} : VR v w → OR (some v) (some w)

structure SR (s : St NFn) (s' : St SFn) : Prop where
  fuel : s.fuel = s'.fuel
  refs : All2 OR s.refs s'.refs
  out : s.out = s'.out

/-- The same outcome. -/
inductive RR {α β : Type} (P : α → β → Prop) : NRes α → SRes β → Prop
  | ok {a b s s'} : P a b → SR s s' → RR P (.ok a s) (.ok b s')
  | abort : RR P .abort .abort
  | crash : RR P .crash .crash
  | oof : RR P .oof .oof
  | stop {h} : RR P (.stop h) (.stop h)

theorem RR.bind {α β γ δ : Type} {P : α → β → Prop} {Q : γ → δ → Prop} {r r' k k'} (h : RR P r r')
    (hk : ∀ a b s s', P a b → SR s s' → RR Q (k a s) (k' b s')) : RR Q (Res.bind r k) (Res.bind r' k') := by
  cases h with
  | ok p hs => exact hk _ _ _ _ p hs
  | abort => exact .abort
  | crash => exact .crash
  | oof => exact .oof
  | stop => exact .stop

theorem RR.mono {α β : Type} {P Q : α → β → Prop} {r r'} (h : RR P r r') (hP : ∀ a b, P a b → Q a b) : RR Q r r' := by
  cases h with
  | ok p hs => exact .ok (hP _ _ p) hs
  | abort => exact .abort
  | crash => exact .crash
  | oof => exact .oof
  | stop => exact .stop

theorem SR.get {s s'} (h : SR s s') (r : Nat) :
    (s.refs[r]? = none ∧ s'.refs[r]? = none) ∨ ∃ a b, s.refs[r]? = some a ∧ s'.refs[r]? = some b ∧ OR a b := by
  by_cases hr : r < s.refs.length
  · have hr' : r < s'.refs.length := by rw [← h.refs.length_eq]; exact hr
    exact .inr ⟨_, _, List.getElem?_eq_getElem hr, List.getElem?_eq_getElem hr', h.refs.get r hr hr'⟩
  · have hr' : ¬ r < s'.refs.length := by rw [← h.refs.length_eq]; exact hr
    exact .inl ⟨List.getElem?_eq_none (by omega), List.getElem?_eq_none (by omega)⟩

theorem unwrap_rr {s s'} (h : SR s s') : (n : Nat) → {v : NVal} → {w : SVal} → VR v w → OR (Compile.unwrap s.refs n v) (Compile.unwrap s'.refs n w)
  | 0, _, _, _ => .none
  | n + 1, _, _, .ref (r := r) => by
    simp only [Compile.unwrap]
    rcases h.get r with ⟨h1, h2⟩ | ⟨a, b, h1, h2, h3⟩
    · rw [h1, h2]; exact .none
    · rw [h1, h2]
      cases h3 with
      | none => exact .some .ref
      | some hv => exact unwrap_rr h n hv
  | n + 1, _, _, .type => .some .type
  | n + 1, _, _, .struct hv => .some (.struct hv)
  | n + 1, _, _, .union hv => .some (.union hv)
  | n + 1, _, _, .fn hv => .some (.fn hv)

theorem strict_rr {s s' v w} (h : SR s s') (hv : VR v w) :
    RR VR (Compile.strict s v) (Compile.strict s' w) := by
  unfold Compile.strict
  have := unwrap_rr h (s.refs.length + 1) hv
  rw [← h.refs.length_eq]
  generalize Compile.unwrap s.refs (s.refs.length + 1) v = x at this ⊢
  generalize Compile.unwrap s'.refs (s.refs.length + 1) w = y at this ⊢
  cases this with
  | none => exact .crash
  | some hv =>
    cases hv with
    | ref => exact .abort
    | type => exact .ok .type h
    | struct h' => exact .ok (.struct h') h
    | union h' => exact .ok (.union h') h
    | fn h' => exact .ok (.fn h') h

theorem structField_rr {s s' v w} (i : Nat) (h : SR s s') (hv : VR v w) : RR VR (Compile.structField v i s) (Compile.structField w i s') := by
  unfold Compile.structField
  refine (strict_rr h hv).bind fun a b s s' h1 hs => ?_
  cases h1 with
  | @struct fs gs ha =>
    by_cases hi : i < fs.length
    · have hi' : i < gs.length := by rw [← ha.length_eq]; exact hi
      simp only [List.getElem?_eq_getElem hi, List.getElem?_eq_getElem hi']
      exact .ok (ha.get i hi hi') hs
    · have hi' : gs.length ≤ i := by rw [← ha.length_eq]; exact Nat.le_of_not_lt hi
      simp only [List.getElem?_eq_none (Nat.le_of_not_lt hi), List.getElem?_eq_none hi']
      exact .crash
  | _ => exact .crash

theorem unionTag_rr {s s' v w} (h : SR s s') (hv : VR v w) : RR (· = ·) (Compile.unionTag v s) (Compile.unionTag w s') := by
  unfold Compile.unionTag
  refine (strict_rr h hv).bind fun a b s s' h1 hs => ?_
  cases h1 with
  | union ha => exact .ok rfl hs
  | _ => exact .crash

theorem unionField_rr {s s' v w} (i : Nat) (h : SR s s') (hv : VR v w) : RR VR (Compile.unionField v i s) (Compile.unionField w i s') := by
  unfold Compile.unionField
  refine (strict_rr h hv).bind fun a b s s' h1 hs => ?_
  cases h1 with
  | union ha =>
    simp only
    split
    · exact .ok ha hs
    · exact .abort
  | _ => exact .crash

theorem newList_rr {vs : List NVal} {ws : List SVal} (h : All2 VR vs ws) : VR (Compile.newList vs) (Compile.newList ws) := by
  induction h with
  | nil => exact .union (.struct .nil)
  | cons h _ ih => exact .union (.struct (.cons h (.cons ih .nil)))

theorem newLiteral_rr (ls : List Nat) : VR (Compile.newLiteral ls) (Compile.newLiteral ls) := by
  refine newList_rr ?_
  induction ls with
  | nil => exact .nil
  | cons l ls ih => exact .cons (.union (.struct .nil)) ih

theorem newRef_rr {s s'} (h : SR s s') : VR (Compile.newRef s).1 (Compile.newRef s').1 ∧ SR (Compile.newRef s).2 (Compile.newRef s').2 := by
  refine ⟨?_, ⟨h.fuel, h.refs.append (.cons .none .nil), h.out⟩⟩
  unfold Compile.newRef
  rw [h.refs.length_eq]
  exact .ref

theorem newRefs_rr : (n : Nat) → {s : St NFn} → {s' : St SFn} → SR s s' →
    All2 VR (Compile.newRefs n s).1 (Compile.newRefs n s').1 ∧ SR (Compile.newRefs n s).2 (Compile.newRefs n s').2
  | 0, _, _, h => ⟨.nil, h⟩
  | n + 1, s, s', h => by
    obtain ⟨h1, h2⟩ := newRef_rr h
    obtain ⟨h4, h5⟩ := newRefs_rr n h2
    exact ⟨.cons h1 h4, h5⟩

theorem newRefs_length {F} : (n : Nat) → (s : St F) → (Compile.newRefs n s).1.length = n
  | 0, _ => rfl
  | n + 1, s => by simp [Compile.newRefs, newRefs_length n]

theorem All2.set {α β : Type} {R : α → β → Prop} {l : List α} {l' : List β} (h : All2 R l l') {a b} (hab : R a b) (i : Nat) :
    All2 R (l.set i a) (l'.set i b) := by
  induction h generalizing i with
  | nil => exact .nil
  | cons h ht ih =>
    cases i with
    | zero => exact .cons hab ht
    | succ i => exact .cons h (ih i)

theorem assignRef_rr {s s' r r' v w} (h : SR s s') (hr : VR r r') (hv : VR v w) : RR (fun _ _ => True) (Compile.assignRef r v s) (Compile.assignRef r' w s') := by
  cases hr with
  | ref =>
    rename_i i
    simp only [Compile.assignRef]
    rw [← h.refs.length_eq]
    have := unwrap_rr h (s.refs.length + 1) hv
    generalize Compile.unwrap s.refs (s.refs.length + 1) v = x at this ⊢
    generalize Compile.unwrap s'.refs (s.refs.length + 1) w = y at this ⊢
    have done : ∀ {a b}, VR a b → RR (fun _ _ => True) (.ok () { s with refs := s.refs.set i (some a) })
        (.ok () { s' with refs := s'.refs.set i (some b) }) :=
      fun hv => .ok trivial ⟨h.fuel, All2.set h.refs (.some hv) i, h.out⟩
    cases this with
    | none => exact .crash
    | some hv =>
      cases hv with
      | ref =>
        simp only
        split
        · exact .abort
        · exact done .ref
      | type => exact done .type
      | struct h' => exact done (.struct h')
      | union h' => exact done (.union h')
      | fn h' => exact done (.fn h')
  | _ => exact .crash

theorem unwrap_shape {s s'} (h : SR s s') (v : NVal) (w : SVal) (hv : VR v w) :
    Compile.OptRel (Compile.Shape VR) (Compile.unwrap s.refs (s.refs.length + 1) v) (Compile.unwrap s'.refs (s'.refs.length + 1) w) := by
  have := unwrap_rr h (s.refs.length + 1) hv
  rw [← h.refs.length_eq]
  generalize Compile.unwrap s.refs (s.refs.length + 1) v = x at this ⊢
  generalize Compile.unwrap s'.refs (s.refs.length + 1) w = y at this ⊢
  cases this with
  | none => exact .none
  | some hv =>
    cases hv with
    | ref => exact .some .ref
    | type => exact .some .type
    | struct h' => exact .some (.struct h')
    | union h' => exact .some (.union h')
    | fn _ => exact .some .fn

theorem makesRr : Compile.Makes VR (fun op more => NFn.native op more []) (fun op more => SFn.native op more []) :=
  ⟨.struct, .union, fun _ _ => .fn (.native .nil)⟩

theorem callOut_rr {s s' op as bs} (h : SR s s') (ha : All2 VR as bs) :
    RR VR (Compile.callOut (fun op more => .native op more []) op as s) (Compile.callOut (fun op more => .native op more []) op bs s') := by
  have := Compile.callOut_same makesRr (unwrap_shape h) h.out ha op
  generalize Compile.callOut _ op as s = x at this ⊢
  generalize Compile.callOut _ op bs s' = y at this ⊢
  cases this with
  | ok hv => exact .ok hv ⟨h.fuel, h.refs, rfl⟩
  | abort => exact .abort
  | crash => exact .crash
  | stop => exact .stop

theorem assignAll_rr {rs : List NVal} {rs' : List SVal} (hr : All2 VR rs rs') : {vs : List NVal} → {vs' : List SVal} → All2 VR vs vs' → {s : St NFn} → {s' : St SFn} → SR s s' →
    RR (fun _ _ => True) (Compile.assignAll rs vs s) (Compile.assignAll rs' vs' s') := by
  induction hr with
  | nil => intro vs vs' _ s s' hs; simp only [Compile.assignAll]; exact .ok trivial hs
  | cons h1 _ ih =>
    intro vs vs' hv s s' hs
    cases hv with
    | nil => simp only [Compile.assignAll]; exact .ok trivial hs
    | cons h2 h3 =>
      simp only [Compile.assignAll]
      exact (assignRef_rr hs h1 h2).bind fun _ _ s s' _ hs => ih h3 hs

theorem applyAll_rr {app : NVal → NVal → St NFn → NRes NVal} {app' : SVal → SVal → St SFn → SRes SVal}
    (happ : ∀ f f' a a' s s', VR f f' → VR a a' → SR s s' → RR VR (app f a s) (app' f' a' s')) {as : List NVal} {as' : List SVal} (h : All2 VR as as') :
    {f : NVal} → {f' : SVal} → VR f f' → {s : St NFn} → {s' : St SFn} → SR s s' → RR VR (applyAllN app f as s) (Compile.applyAll app' f' as' s') := by
  induction h with
  | nil => intro f f' hf s s' hs; exact .ok hf hs
  | cons h1 _ ih =>
    intro f f' hf s s' hs
    exact (happ _ _ _ _ _ _ hf h1 hs).bind fun _ _ s s' hf hs => ih hf hs

/-! ### Environments -/

/-- The variables that may be used have the same values. -/
structure ER (nl : Nat) (cx : Cx) (ρ : NEnv) (env : Env) : Prop where
  get : ∀ x v, cxVar cx x = some v → ∃ a b, lookupVal ρ x = some a ∧ env.get v = some b ∧ VR a b
  length : env.locals.length = nl

theorem lookupVal_cons {y x : VarName} {o : Option NVal} {ρ : NEnv} : lookupVal ((y, o) :: ρ) x = if y = x then o else lookupVal ρ x := by
  simp only [lookupVal, List.find?_cons]
  by_cases h : y = x <;> simp [h]

/-- An entry has the same value. -/
def EntryOk (env : Env) (a : VarName × Option (Var × Bool)) (b : VarName × Option NVal) : Prop :=
  a.1 = b.1 ∧ ∀ v, a.2 = some (v, true) → ∃ x y, b.2 = some x ∧ env.get v = some y ∧ VR x y

theorem entries_get {env : Env} {es cx : Cx} {bs ρ : NEnv} (h : All2 (EntryOk env) es bs)
    (hr : ∀ x v, cxVar cx x = some v → ∃ a b, lookupVal ρ x = some a ∧ env.get v = some b ∧ VR a b) :
    ∀ x v, cxVar (es ++ cx) x = some v → ∃ a b, lookupVal (bs ++ ρ) x = some a ∧ env.get v = some b ∧ VR a b := by
  induction h with
  | nil => exact hr
  | @cons a b es bs hab _ ih =>
    intro x v hx
    simp only [List.cons_append] at hx ⊢
    rw [cxVar_cons] at hx
    obtain ⟨by_, bo⟩ := b
    have h1 : a.1 = by_ := hab.1
    rw [lookupVal_cons, ← h1]
    split
    · rename_i he
      rw [if_pos he] at hx
      have : a.2 = some (v, true) := by
        rcases ha : a.2 with _ | ⟨w, _ | _⟩
        · rw [ha] at hx; cases hx
        · rw [ha] at hx; cases hx
        · rw [ha] at hx; cases hx; rfl
      obtain ⟨p, q, h1, h2, h3⟩ := hab.2 v this
      exact ⟨p, q, h1, h2, h3⟩
    · rename_i he
      rw [if_neg he] at hx
      exact ih x v hx

theorem let_entries {r : Bool} {env : Env} : (xs : List Name) → (vs : List (Option NVal)) → (ws : List (Option SVal)) → (pre : List (Option SVal)) → xs.length = vs.length →
    All2 (fun a b => r = true → ∃ x y, a = some x ∧ b = some y ∧ VR x y) vs ws → env.locals = pre ++ ws →
    All2 (EntryOk env) (letEntries pre.length r xs) ((xs.map VarName.normal).zip vs)
  | [], vs, ws, pre, _, _, _ => by simp [letEntries]; exact .nil
  | x :: xs, v :: vs, _, pre, hl, .cons (b := w) (bs := ws) h hs, he => by
    simp only [letEntries, List.map_cons, List.zip_cons_cons]
    refine .cons ⟨rfl, ?_⟩ ?_
    · intro c hc
      simp only [Option.some.injEq, Prod.mk.injEq] at hc
      obtain ⟨rfl, hr⟩ := hc
      obtain ⟨a, b, rfl, rfl, h3⟩ := h hr
      exact ⟨a, b, rfl, by simp [Env.get, he], h3⟩
    · have := let_entries (r := r) (env := env) xs vs ws (pre ++ [w]) (by simpa using hl) hs (by simp [he])
      simpa using this

theorem Env.get_more {env : Env} {v : Var} {b : SVal} {more : List (Option SVal)} (h : env.get v = some b) : Env.get { env with locals := env.locals ++ more } v = some b := by
  cases v with
  | static i => exact h
  | arg i => exact h
  | loc i =>
    simp only [Env.get] at h ⊢
    cases hi : env.locals[i]? with
    | none => rw [hi] at h; cases h
    | some o =>
      rw [hi] at h
      obtain ⟨hlt, _⟩ := List.getElem?_eq_some_iff.mp hi
      rw [List.getElem?_append_left hlt, hi]; exact h

theorem ER.bind {nl : Nat} {cx : Cx} {ρ : NEnv} {env : Env} (h : ER nl cx ρ env) {r : Bool} {xs : List Name} {vs : List (Option NVal)} {ws : List (Option SVal)} (hl : vs.length = xs.length)
    (hv : All2 (fun a b => r = true → ∃ x y, a = some x ∧ b = some y ∧ VR x y) vs ws) :
    ER (nl + xs.length) (letCx nl r xs cx) (bindAll xs vs ρ) { env with locals := env.locals ++ ws } := by
  refine ⟨?_, by simp [h.length, ← hv.length_eq, hl]⟩
  have := (let_entries (r := r) (env := { env with locals := env.locals ++ ws }) xs vs ws env.locals hl.symm hv rfl).reverse
  rw [h.length] at this
  exact entries_get this fun x v hx => by
    obtain ⟨a, b, h1, h2, h3⟩ := h.get x v hx
    exact ⟨a, b, h1, Env.get_more h2, h3⟩

theorem static_get {ρ : NEnv} {statics : List SVal} {args : List SVal} : (names : List VarName) → (ws : List NVal) → (svals pre : List SVal) → All2 (fun y w => lookupVal ρ y = some w) names ws → All2 VR ws svals →
    statics = pre ++ svals → ∀ x v, cxVar (staticEntries pre.length names) x = some v →
    ∃ a b, lookupVal ρ x = some a ∧ Env.get ⟨statics, args, []⟩ v = some b ∧ VR a b
  | _, _, _, pre, .nil, .nil, he => by intro x v hx; simp [staticEntries, cxVar] at hx
  | y :: names, w :: ws, sv :: svals, pre, .cons h1 h2, .cons h3 h4, he => by
    intro x v hx
    rw [staticEntries, cxVar_cons] at hx
    split at hx
    · rename_i e
      have e : y = x := e
      subst e
      cases hx
      exact ⟨w, sv, h1, by simp [Env.get, he], h3⟩
    · have := static_get (statics := statics) (args := args) names ws svals (pre ++ [sv]) h2 h4 (by simp [he]) x v
      simp only [List.length_append, List.length_cons, List.length_nil, Nat.zero_add] at this
      exact this hx

theorem ER.func {x : Name} {names : List VarName} {ρ : NEnv} {ws : List NVal} {svals : List SVal} (h1 : All2 (fun y w => lookupVal ρ y = some w) names ws) (h2 : All2 VR ws svals)
    {a : NVal} {b : SVal} (hab : VR a b) : ER 0 (funCx x names) ((.normal x, some a) :: ρ) ⟨svals, [b], []⟩ := by
  refine ⟨?_, rfl⟩
  intro y v hy
  unfold funCx at hy
  rw [cxVar_cons] at hy
  rw [lookupVal_cons]
  simp only at hy
  split at hy
  · rename_i e
    cases hy
    exact ⟨a, b, by rw [if_pos e], rfl, hab⟩
  · rename_i e
    rw [if_neg e]
    exact static_get names ws svals [] h1 h2 rfl y v hy

theorem ER.capture {nl : Nat} {cx : Cx} {ρ : NEnv} {env : Env} (h : ER nl cx ρ env) {names : List VarName} {scope : List Var} (hn : All2 (fun x v => cxVar cx x = some v) names scope) :
    ∃ ws svals, All2 (fun y w => lookupVal ρ y = some w) names ws ∧ All2 VR ws svals ∧ Compile.capture env scope = some svals := by
  induction hn with
  | nil => exact ⟨[], [], .nil, .nil, rfl⟩
  | cons h1 _ ih =>
    obtain ⟨ws, svals, h2, h3, h4⟩ := ih
    obtain ⟨a, b, h5, h6, h7⟩ := h.get _ _ h1
    refine ⟨a :: ws, b :: svals, .cons h5 h2, .cons h7 h3, ?_⟩
    unfold Compile.capture at h4 ⊢
    simp [List.mapM_cons, h6, h4]

/-! ### Evaluation -/

theorem Conv.head {nl cx} : {t : N} → {tc : Tc} → Conv nl cx t tc → Conv nl cx t.head tc.head
  | .apply f a, _, h => by
    cases h with
    | apply h1 h2 => simp only [N.head, Tc.head]; exact Conv.head (t := f) h1
  | .typeVal, _, h => by cases h; exact .typeVal
  | .var _, _, h => by cases h with | var h => exact .var h
  | .letE .., _, h => by cases h with | letE h0 h1 h2 => exact .letE h0 h1 h2
  | .struct _, _, h => by cases h with | struct h => exact .struct h
  | .copy .., _, h => by cases h with | copy h1 h2 => exact .copy h1 h2
  | .union .., _, h => by cases h with | union h1 h2 => exact .union h1 h2
  | .select .., _, h => by cases h with | select h1 h2 h3 h4 hb h5 h6 h7 h8 => exact .select h1 h2 h3 h4 hb h5 h6 h7 h8
  | .access .., _, h => by cases h with | access h1 h2 => exact .access h1 h2
  | .func .., _, h => by cases h with | func h1 h2 => exact .func h1 h2
  | .list _, _, h => by cases h with | list h => exact .list h
  | .literal _, _, h => by cases h; exact .literal

theorem Conv.args {nl cx} : {t : N} → {tc : Tc} → Conv nl cx t tc → ConvAll nl cx t.args tc.args
  | .apply f a, _, h => by
    cases h with
    | apply h1 h2 => simp only [N.args, Tc.args]; exact .cons h2 (Conv.args (t := f) h1)
  | .typeVal, _, h => by cases h; exact .nil
  | .var _, _, h => by cases h with | var h => exact .nil
  | .letE .., _, h => by cases h with | letE h0 h1 h2 => exact .nil
  | .struct _, _, h => by cases h with | struct h => exact .nil
  | .copy .., _, h => by cases h with | copy h1 h2 => exact .nil
  | .union .., _, h => by cases h with | union h1 h2 => exact .nil
  | .select .., _, h => by cases h with | select h1 h2 h3 h4 hb h5 h6 h7 h8 => exact .nil
  | .access .., _, h => by cases h with | access h1 h2 => exact .nil
  | .func .., _, h => by cases h with | func h1 h2 => exact .nil
  | .list _, _, h => by cases h with | list h => exact .nil
  | .literal _, _, h => by cases h; exact .nil

theorem ConvAll.length {nl cx} : {ts : Ns} → {tcs : Tcs} → ConvAll nl cx ts tcs → tcs.length = ts.length
  | _, _, .nil => rfl
  | _, _, .cons _ h => by simp [Ns.length, Tcs.length, ConvAll.length h]

theorem map_some {vs : List NVal} {ws : List SVal} (h : All2 VR vs ws) : All2 (fun a b => true = true → ∃ x y, a = some x ∧ b = some y ∧ VR x y) (vs.map some) (ws.map some) := by
  induction h with
  | nil => exact .nil
  | cons h _ ih => exact .cons (fun _ => ⟨_, _, rfl, rfl, h⟩) ih

theorem map_none : (xs : List Name) → All2 (fun a b => false = true → ∃ x y, a = some x ∧ b = some y ∧ VR x y) (xs.map fun _ => (none : Option NVal)) (List.replicate xs.length (none : Option SVal))
  | [] => .nil
  | _ :: xs => .cons (fun h => by cases h) (map_none xs)

section
variable {app : NVal → NVal → St NFn → NRes NVal} {app' : SVal → SVal → St SFn → SRes SVal}

mutual
theorem eval_rr (happ : ∀ f f' a a' s s', VR f f' → VR a a' → SR s s' → RR VR (app f a s) (app' f' a' s')) (t : N) {nl : Nat} {cx : Cx} {tc : Tc} (hc : Conv nl cx t tc)
    {ρ : NEnv} {env : Env} (he : ER nl cx ρ env) {s : St NFn} {s' : St SFn} (hs : SR s s') : RR VR (evalN app t ρ s) (Compile.eval app' tc env s') := by
  match t, hc with
  | .typeVal, hc =>
    cases hc
    rw [evalN.eq_def, Compile.eval.eq_def]; exact .ok .type hs
  | .var x, hc =>
    cases hc with
    | var h =>
      obtain ⟨a, b, h1, h2, h3⟩ := he.get _ _ h
      rw [evalN.eq_def, Compile.eval.eq_def]
      simp only [h1, h2]
      exact .ok h3 hs
  | .letE false xs ds b, hc =>
    cases hc with
    | letE h0 h1 h2 =>
      rw [evalN.eq_def, Compile.eval.eq_def]
      simp only
      rw [h1.length, h0]
      refine (evals_rr happ ds h1 (he.bind (by simp) (map_none xs)) hs).bind fun vs ws s s' ⟨hv, hl⟩ hs => ?_
      exact eval_rr happ b h2 (he.bind (by simp [hl, h0]) (map_some hv)) hs
  | .letE true xs ds b, hc =>
    cases hc with
    | letE h0 h1 h2 =>
      rw [evalN.eq_def, Compile.eval.eq_def]
      simp only
      rw [h1.length]
      obtain ⟨g1, g2⟩ := newRefs_rr ds.length hs
      refine (evals_rr happ ds h1 (he.bind (by simp [newRefs_length, h0]) (map_some g1)) g2).bind fun vs ws s s' ⟨hv, hl⟩ hs => ?_
      refine (assignAll_rr g1 hv hs).bind fun _ _ s s' _ hs => ?_
      exact eval_rr happ b h2 (he.bind (by simp [hl, h0]) (map_some hv)) hs
  | .struct fs, hc =>
    cases hc with
    | struct h =>
      rw [evalN.eq_def, Compile.eval.eq_def]
      exact (evals_rr happ fs h he hs).bind fun vs ws s s' hv hs => RR.ok (VR.struct hv.1) hs
  | .copy src xs as, hc =>
    cases hc with
    | copy h1 h2 =>
      rw [evalN.eq_def, Compile.eval.eq_def]
      refine (eval_rr happ src h1 he hs).bind fun v w s s' hv hs => ?_
      exact (evalCopy_rr happ xs as h2 he hv 0 hs).bind fun vs ws s s' hv hs => RR.ok (VR.struct hv) hs
  | .union xs x a, hc =>
    cases hc with
    | union h1 h2 =>
      rw [evalN.eq_def, Compile.eval.eq_def]
      simp only [h1]
      exact (eval_rr happ a h2 he hs).bind fun v w s s' hv hs => RR.ok (VR.union hv) hs
  | .select c xs bs d, hc =>
    cases hc with
    | select h1 h2 h3 h4 hb h5 h6 h7 h8 =>
      rw [evalN.eq_def, Compile.eval.eq_def]
      refine (eval_rr happ c h1 he hs).bind fun v w s s' hv hs => ?_
      unfold Compile.tagBelow
      rw [Compile.bind_assoc]
      refine (unionTag_rr hs hv).bind fun tag tag' s s' ht hs => ?_
      subst ht
      cases hx : xs[tag]? with
      | none =>
        rw [if_neg (by have := List.getElem?_eq_none_iff.mp hx; omega)]
        exact .crash
      | some x =>
        rw [if_pos (List.getElem?_eq_some_iff.mp hx).1]
        simp only [Compile.Res.bind]
        split
        · rename_i b hb
          have := eval_rr happ b (h3 tag x b hx hb) he hs
          split
          · rename_i u hu; rw [hu] at this; exact this
          · rename_i hu; rw [hu] at this; exact this
        · rename_i hb
          exact absurd hb (h2 x (List.mem_of_getElem? hx))
  | .access u o xs x, hc =>
    cases hc with
    | access h1 h2 =>
      rw [evalN.eq_def]
      simp only [h1]
      cases u with
      | true =>
        rw [Compile.eval.eq_def]
        exact (eval_rr happ o h2 he hs).bind fun v w s s' hv hs => unionField_rr _ hs hv
      | false =>
        rw [Compile.eval.eq_def]
        exact (eval_rr happ o h2 he hs).bind fun v w s s' hv hs => structField_rr _ hs hv
  | .func x b, hc =>
    cases hc with
    | func h1 h2 =>
      obtain ⟨ws, svals, g1, g2, g3⟩ := he.capture h1
      rw [evalN.eq_def, Compile.eval.eq_def]
      simp only [g3]
      exact .ok (.fn (.clo h2 g1 g2)) hs
  | .apply f a, hc =>
    cases hc with
    | apply h1 h2 =>
      rw [evalN.eq_def, Compile.eval.eq_def]
      refine (eval_rr happ f.head h1.head he hs).bind fun v w s s' hv hs => ?_
      refine (evals_rr happ (.cons a f.args) (.cons h2 h1.args) he hs).bind fun vs ws s s' hvs hs => ?_
      exact applyAll_rr happ hvs.1.reverse hv hs
  | .list is, hc =>
    cases hc with
    | list h =>
      rw [evalN.eq_def, Compile.eval.eq_def]
      exact (evals_rr happ is h he hs).bind fun vs ws s s' hv hs => RR.ok (newList_rr hv.1) hs
  | .literal ls, hc =>
    cases hc
    rw [evalN.eq_def, Compile.eval.eq_def]; exact .ok (newLiteral_rr ls) hs
termination_by (t.size, 0)
decreasing_by
  all_goals simp only [N.size, Ns.size]
  all_goals apply Prod.Lex.left
  all_goals first
    | omega
    | (have := N.head_size f; omega)
    | (have := N.args_size f; omega)
    | (have := choose_size (by assumption); omega)

theorem evals_rr (happ : ∀ f f' a a' s s', VR f f' → VR a a' → SR s s' → RR VR (app f a s) (app' f' a' s')) (ts : Ns) {nl : Nat} {cx : Cx} {tcs : Tcs} (hc : ConvAll nl cx ts tcs)
    {ρ : NEnv} {env : Env} (he : ER nl cx ρ env) {s : St NFn} {s' : St SFn} (hs : SR s s') :
    RR (fun vs ws => All2 VR vs ws ∧ vs.length = ts.length) (evalNs app ts ρ s) (Compile.evals app' tcs env s') := by
  match ts, hc with
  | .nil, hc =>
    cases hc
    rw [evalNs.eq_def, Compile.evals.eq_def]; exact .ok ⟨.nil, rfl⟩ hs
  | .cons t ts, hc =>
    cases hc with
    | cons h1 h2 =>
      rw [evalNs.eq_def, Compile.evals.eq_def]
      refine (eval_rr happ t h1 he hs).bind fun v w s s' hv hs => ?_
      refine (evals_rr happ ts h2 he hs).bind fun vs ws s s' hvs hs => ?_
      exact .ok ⟨.cons hv hvs.1, by simp [Ns.length, hvs.2]⟩ hs
termination_by (ts.size, 0)
decreasing_by all_goals simp only [Ns.size]; apply Prod.Lex.left; omega

theorem evalCopy_rr (happ : ∀ f f' a a' s s', VR f f' → VR a a' → SR s s' → RR VR (app f a s) (app' f' a' s')) (xs : List Name) (as : NTagged) {nl : Nat} {cx : Cx} {fl : Flds}
    (hc : ConvCopy nl cx xs as fl) {ρ : NEnv} {env : Env} (he : ER nl cx ρ env) {v : NVal} {w : SVal} (hv : VR v w) (i : Nat) {s : St NFn} {s' : St SFn} (hs : SR s s') :
    RR (All2 VR) (evalCopy app v i xs as ρ s) (Compile.evalFlds app' w i fl env s') := by
  match xs, hc with
  | [], hc =>
    cases hc
    rw [evalCopy.eq_def, Compile.evalFlds.eq_def]; exact .ok .nil hs
  | x :: xs, hc =>
    rw [evalCopy.eq_def, Compile.evalFlds.eq_def]
    simp only
    cases hc with
    | keep h1 h2 =>
      simp only
      split
      · rename_i t ht; rw [h1] at ht; cases ht
      · refine (structField_rr i hs hv).bind fun a b s s' hab hs => ?_
        exact (evalCopy_rr happ xs as h2 he hv (i + 1) hs).bind fun vs ws s s' hvs hs => .ok (.cons hab hvs) hs
    | @set _ _ _ _ _ t tc fl h1 h2 h3 =>
      simp only
      split
      · rename_i t' ht
        rw [h1] at ht; cases ht
        refine (eval_rr happ t h2 he hs).bind fun a b s s' hab hs => ?_
        exact (evalCopy_rr happ xs as h3 he hv (i + 1) hs).bind fun vs ws s s' hvs hs => .ok (.cons hab hvs) hs
      · rename_i ht; rw [h1] at ht; cases ht
termination_by (as.size, xs.length)
decreasing_by
  · apply Prod.Lex.right; simp
  · apply Prod.Lex.left; exact NTagged.find_size as (by assumption)
  · apply Prod.Lex.right; simp
end
end

end Verif.Elab
