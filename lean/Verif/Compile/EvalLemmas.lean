import Verif.Compile.Rel
/-
Facts about the evaluator: the fuel never grows; renaming variables; merged functions.
-/
namespace Verif.Compile

theorem eval_select (app) (c : Tc) (bs : Brs) (d : Tc) (env s) :
    eval app (.select c nt bs d) env s = (eval app c env s).bind fun v s => (tagBelow nt v s).bind fun tag s =>
      match bs.find tag with
      | some b => eval app b env s
      | none => eval app d env s := by
  rw [eval]
  congr; funext v s; congr; funext tag s
  split <;> rename_i h <;> rw [h]

/-! ### Fuel -/

/-- After the run at most `n` bodies may be entered. -/
def FuelLe {F α} (n : Nat) (r : Res F α) : Prop := ∀ a s, r = .ok a s → s.fuel ≤ n

theorem FuelLe.bind {F α β n} {r : Res F α} {k : α → St F → Res F β} (h : FuelLe n r)
    (hk : ∀ a s, s.fuel ≤ n → FuelLe n (k a s)) : FuelLe n (r.bind k) := by
  cases r with
  | ok a s => exact hk a s (h a s rfl)
  | _ => intro a s h; simp [Res.bind] at h

theorem FuelLe.ok {F α n} {a : α} {s : St F} (h : s.fuel ≤ n) : FuelLe n (.ok a s) := by
  intro a' s' h'; cases h'; exact h
theorem FuelLe.abort {F α n} : FuelLe (F := F) (α := α) n .abort := fun _ _ h => nomatch h
theorem FuelLe.crash {F α n} : FuelLe (F := F) (α := α) n .crash := fun _ _ h => nomatch h
theorem FuelLe.wild {F α n} : FuelLe (F := F) (α := α) n .wild := fun _ _ h => nomatch h
theorem FuelLe.oof {F α n} : FuelLe (F := F) (α := α) n .oof := fun _ _ h => nomatch h
theorem FuelLe.stop {F α n h} : FuelLe (F := F) (α := α) n (.stop h) := fun _ _ h => nomatch h

theorem strict_fuel {F} {s : St F} {v : Val F} {n} (h : s.fuel ≤ n) : FuelLe n (strict s v) := by
  unfold strict
  split
  · exact .crash
  · exact .abort
  · exact .ok h

theorem structField_fuel {F} {s : St F} {v : Val F} {i n} (h : s.fuel ≤ n) : FuelLe n (structField v i s) := by
  refine (strict_fuel h).bind fun a s h => ?_
  split
  · split
    · exact .ok h
    · exact .crash
  · exact .crash

theorem unionField_fuel {F} {s : St F} {v : Val F} {i n} (h : s.fuel ≤ n) : FuelLe n (unionField v i s) := by
  refine (strict_fuel h).bind fun a s h => ?_
  split
  · split
    · exact .ok h
    · exact .abort
  · exact .crash

theorem unionTag_fuel {F} {s : St F} {v : Val F} {n} (h : s.fuel ≤ n) : FuelLe n (unionTag v s) := by
  refine (strict_fuel h).bind fun a s h => ?_
  split
  · exact .ok h
  · exact .crash

theorem tagBelow_fuel {F} {s : St F} {v : Val F} {n} (nt : Nat) (h : s.fuel ≤ n) : FuelLe n (tagBelow nt v s) := by
  refine (unionTag_fuel h).bind fun a s h => ?_
  split
  · exact .ok h
  · exact .crash

theorem newRefs_fuel {F} : (n : Nat) → (s : St F) → (newRefs n s).2.fuel = s.fuel
  | 0, _ => rfl
  | n + 1, s => by simp only [newRefs]; rw [newRefs_fuel n]; rfl

theorem assignRef_fuel {F} {s : St F} {r v : Val F} {n} (h : s.fuel ≤ n) : FuelLe n (assignRef r v s) := by
  unfold assignRef
  split
  · split
    · exact .crash
    · split
      · split
        · exact .abort
        · exact .ok h
      · exact .ok h
  · exact .crash

theorem assignAll_fuel {F n} : (rs vs : List (Val F)) → {s : St F} → s.fuel ≤ n → FuelLe n (assignAll rs vs s)
  | r :: rs, v :: vs, s, h => by
    rw [assignAll]
    exact (assignRef_fuel h).bind fun _ s h => assignAll_fuel rs vs h
  | [], _, s, h => by rw [assignAll]; exact .ok h; simp
  | _ :: _, [], s, h => by rw [assignAll]; exact .ok h; simp

theorem applyAll_fuel {app n} (happ : ∀ f a s, s.fuel ≤ n → FuelLe n (app f a s)) :
    (as : List SVal) → {f : SVal} → {s : St SFn} → s.fuel ≤ n → FuelLe n (applyAll app f as s)
  | [], _, _, h => .ok h
  | a :: as, f, s, h => (happ f a s h).bind fun _ _ h => applyAll_fuel happ as h

theorem callOut_fuel {F} {native : Nat → Nat → F} {op args} {s : St F} {n} (h : s.fuel ≤ n) :
    FuelLe n (callOut native op args s) := by
  unfold callOut
  simp only
  split
  · split
    · exact .ok h
    · exact .crash
  · exact .abort
  · exact .stop
  · exact .crash

mutual
theorem eval_fuel {app n} (happ : ∀ f a s, s.fuel ≤ n → FuelLe n (app f a s)) (t : Tc) (env : Env) {s : St SFn}
    (h : s.fuel ≤ n) : FuelLe n (eval app t env s) := by
  match t with
  | .typeVal => rw [eval]; exact .ok h
  | .var v =>
    rw [eval]; split
    · exact .ok h
    · exact .wild
  | .letE false ds b =>
    rw [eval]
    exact (evals_fuel happ ds _ h).bind fun vs s h => eval_fuel happ b _ h
  | .letE true ds b =>
    rw [eval]
    exact (evals_fuel happ ds _ (by rw [newRefs_fuel]; exact h)).bind fun vs s h =>
      (assignAll_fuel _ _ h).bind fun _ s h => eval_fuel happ b _ h
  | .struct fs => rw [eval]; exact (evals_fuel happ fs _ h).bind fun _ _ h => .ok h
  | .copy src fs => rw [eval]; exact (eval_fuel happ src _ h).bind fun _ _ h => (evalFlds_fuel happ _ _ fs _ h).bind fun _ _ h => .ok h
  | .union tag a => rw [eval]; exact (eval_fuel happ a _ h).bind fun _ _ h => .ok h
  | .select c nt bs d =>
    rw [eval]
    refine (eval_fuel happ c _ h).bind fun v s h => (tagBelow_fuel nt h).bind fun tag s h => ?_
    split
    · next b hb => exact eval_fuel happ b _ h
    · exact eval_fuel happ d _ h
  | .access false o i => rw [eval]; exact (eval_fuel happ o _ h).bind fun _ _ h => structField_fuel h
  | .access true o i => rw [eval]; exact (eval_fuel happ o _ h).bind fun _ _ h => unionField_fuel h
  | .func scope b =>
    rw [eval]; split
    · exact .ok h
    · exact .wild
  | .apply f a =>
    rw [eval]
    exact (eval_fuel happ f.head _ h).bind fun _ _ h => (evals_fuel happ (.cons a f.args) _ h).bind fun _ _ h => applyAll_fuel happ _ h
  | .list is => rw [eval]; exact (evals_fuel happ is _ h).bind fun _ _ h => .ok h
  | .literal ls => rw [eval]; exact .ok h
termination_by t.size
decreasing_by
  all_goals simp only [Tc.size, Tcs.size]
  all_goals first
    | omega
    | (have := Tc.head_size f; omega)
    | (have := Tc.args_size f; omega)
    | (have := Brs.find_size _ (by assumption); omega)
theorem evals_fuel {app n} (happ : ∀ f a s, s.fuel ≤ n → FuelLe n (app f a s)) (ts : Tcs) (env : Env) {s : St SFn}
    (h : s.fuel ≤ n) : FuelLe n (evals app ts env s) := by
  match ts with
  | .nil => rw [evals]; exact .ok h
  | .cons t ts => rw [evals]; exact (eval_fuel happ t _ h).bind fun _ _ h => (evals_fuel happ ts _ h).bind fun _ _ h => .ok h
termination_by ts.size
decreasing_by all_goals simp only [Tcs.size]; omega
theorem evalFlds_fuel {app n} (happ : ∀ f a s, s.fuel ≤ n → FuelLe n (app f a s)) (src : SVal) (i : Nat) (fs : Flds) (env : Env) {s : St SFn}
    (h : s.fuel ≤ n) : FuelLe n (evalFlds app src i fs env s) := by
  match fs with
  | .nil => rw [evalFlds]; exact .ok h
  | .keep fs => rw [evalFlds]; exact (structField_fuel h).bind fun _ _ h => (evalFlds_fuel happ _ _ fs _ h).bind fun _ _ h => .ok h
  | .set t fs => rw [evalFlds]; exact (eval_fuel happ t _ h).bind fun _ _ h => (evalFlds_fuel happ _ _ fs _ h).bind fun _ _ h => .ok h
termination_by fs.size
decreasing_by all_goals simp only [Flds.size]; omega
end

theorem apply_fuel : (n : Nat) → ∀ f a (s : St SFn), s.fuel ≤ n → FuelLe n (apply f a s) := by
  intro n
  induction n using Nat.strongRecOn with
  | _ n ih =>
    intro f a s h
    rw [apply]
    refine (strict_fuel h).bind fun f s' _ => ?_
    split
    · split
      · exact .ok h
      · exact .wild
    · split
      · exact .oof
      · refine fun b s2 hb => ?_
        have h1 : FuelLe (n - 1) (eval (fun f a s' => if s'.fuel < s.fuel then apply f a s' else .oof)
            ‹Tc› ⟨‹List SVal›, [a], []⟩ { s with fuel := s.fuel - 1 }) := by
          refine eval_fuel ?_ _ _ (by show s.fuel - 1 ≤ _; omega)
          intro f a s2 h2
          split
          · exact ih (n - 1) (by omega) f a s2 h2
          · exact .oof
        have := h1 b s2 hb
        omega
    · split
      · exact .ok h
      · split
        · exact .oof
        · exact callOut_fuel (by show s.fuel - 1 ≤ n; omega)
    · exact .crash

/-- The guard in `apply` never matters. -/
theorem applyAll_guard {N n : Nat} (hn : n < N) : (as : List SVal) → {f : SVal} → {s : St SFn} → s.fuel ≤ n →
    applyAll (fun f a s' => if s'.fuel < N then apply f a s' else .oof) f as s = applyAll apply f as s
  | [], _, _, _ => rfl
  | a :: as, f, s, h => by
    simp only [applyAll, if_pos (Nat.lt_of_le_of_lt h hn)]
    cases ha : apply f a s with
    | ok v s1 => exact applyAll_guard hn as (apply_fuel n f a s h v s1 ha)
    | _ => rfl

theorem applyAll_append (app) : (as bs : List SVal) → (f : SVal) → (s : St SFn) →
    applyAll app f (as ++ bs) s = (applyAll app f as s).bind fun v s => applyAll app v bs s
  | [], _, _, _ => rfl
  | a :: as, bs, f, s => by
    simp only [List.cons_append, applyAll, bind_assoc]
    congr; funext v s; exact applyAll_append app as bs v s

/-! ### Renaming variables -/

theorem Tcs.rewrite_head_args (m off) : (t : Tc) → (t.rewrite m off).head = t.head.rewrite m off ∧
    (t.rewrite m off).args = t.args.rewrite m off
  | .apply f a => by
    obtain ⟨h1, h2⟩ := Tcs.rewrite_head_args m off f
    simp only [Tc.rewrite, Tc.head, Tc.args, Tcs.rewrite, h1, h2, and_self]
  | .typeVal | .var _ | .letE .. | .struct _ | .copy .. | .union .. | .select .. | .access ..
  | .func .. | .list _ | .literal _ => by simp only [Tc.rewrite, Tc.head, Tc.args, Tcs.rewrite, and_self]

theorem Brs.rewrite_find (m off n) : (bs : Brs) → (bs.rewrite m off).find n = (bs.find n).map (Tc.rewrite m off)
  | .nil => rfl
  | .cons tag t bs => by
    simp only [Brs.rewrite, Brs.find, Brs.rewrite_find m off n bs]
    split <;> rfl

theorem Brs.Scoped.find {ns na loc n t} : {bs : Brs} → bs.Scoped ns na loc → bs.find n = some t → t.Scoped ns na loc
  | .nil, _, h => by simp [Brs.find] at h
  | .cons tag u bs, hs, h => by
    simp only [Brs.find] at h
    split at h
    · cases h; exact hs.1
    · exact Brs.Scoped.find hs.2 h

theorem capture_rewrite {m off k} {env env' : Env} {loc} (hv : ∀ v : Var, v.Ok m.length k loc → env.get (rewriteVar m off v) = env'.get v)
    : (scope : List Var) → (∀ v ∈ scope, v.Ok m.length k loc) → capture env (scope.map (rewriteVar m off)) = capture env' scope
  | [], _ => rfl
  | v :: scope, h => by
    have ih := capture_rewrite hv scope fun v hv => h v (List.mem_cons_of_mem _ hv)
    simp only [capture] at ih
    simp only [capture, List.map_cons, List.mapM_cons, ih, hv v (h v (by simp))]

/-- The variables mean the same, whatever the locals are. -/
def Renames (m : List Var) (off k : Nat) (S A S' A' : List SVal) : Prop :=
  ∀ (v : Var) (L : List (Option SVal)) (loc : List Bool), v.Ok m.length k loc →
    Env.get ⟨S, A, L⟩ (rewriteVar m off v) = Env.get ⟨S', A', L⟩ v

mutual
theorem eval_rewrite {app m off k S A S' A'} (hv : Renames m off k S A S' A') (t : Tc) {loc : List Bool}
    (hs : t.Scoped m.length k loc) (L : List (Option SVal)) (s : St SFn) :
    eval app (t.rewrite m off) ⟨S, A, L⟩ s = eval app t ⟨S', A', L⟩ s := by
  match t with
  | .typeVal => simp only [Tc.rewrite, eval]
  | .var v =>
    simp only [Tc.Scoped] at hs
    simp only [Tc.rewrite, eval, hv v L loc hs]
  | .letE false ds b =>
    simp only [Tc.Scoped] at hs
    simp only [Tc.rewrite, eval, Tcs.rewrite_length]
    rw [evals_rewrite hv ds hs.1]
    congr; funext vs s; exact eval_rewrite hv b hs.2 _ _
  | .letE true ds b =>
    simp only [Tc.Scoped] at hs
    simp only [Tc.rewrite, eval, Tcs.rewrite_length]
    rw [evals_rewrite hv ds hs.1]
    congr; funext vs s; congr; funext _ s; exact eval_rewrite hv b hs.2 _ _
  | .struct fs =>
    simp only [Tc.Scoped] at hs
    simp only [Tc.rewrite, eval]
    rw [evals_rewrite hv fs hs]
  | .copy src fs =>
    simp only [Tc.Scoped] at hs
    simp only [Tc.rewrite, eval]
    rw [eval_rewrite hv src hs.1]
    congr; funext v s; rw [evalFlds_rewrite hv v 0 fs hs.2]
  | .union tag a =>
    simp only [Tc.Scoped] at hs
    simp only [Tc.rewrite, eval]
    rw [eval_rewrite hv a hs]
  | .select c nt bs d =>
    simp only [Tc.Scoped] at hs
    simp only [Tc.rewrite, eval_select]
    rw [eval_rewrite hv c hs.1]
    congr; funext v s; congr; funext tag s
    rw [Brs.rewrite_find]
    cases hb : bs.find tag with
    | some b => exact eval_rewrite hv b (hs.2.1.find hb) _ _
    | none => exact eval_rewrite hv d hs.2.2.2 _ _
  | .access false o i =>
    simp only [Tc.Scoped] at hs
    simp only [Tc.rewrite, eval]
    rw [eval_rewrite hv o hs]
  | .access true o i =>
    simp only [Tc.Scoped] at hs
    simp only [Tc.rewrite, eval]
    rw [eval_rewrite hv o hs]
  | .func scope b =>
    simp only [Tc.Scoped] at hs
    simp only [Tc.rewrite, eval]
    rw [capture_rewrite (fun v h => hv v L loc h) scope hs.1]
  | .apply f a =>
    simp only [Tc.Scoped] at hs
    obtain ⟨h1, h2⟩ := Tcs.rewrite_head_args m off f
    simp only [Tc.rewrite, eval]
    rw [h1, h2, eval_rewrite hv f.head hs.1.head]
    congr; funext h s
    have := evals_rewrite (app := app) hv (.cons a f.args) ⟨hs.2, hs.1.args⟩ L s
    rw [← this, Tcs.rewrite]
  | .list is =>
    simp only [Tc.Scoped] at hs
    simp only [Tc.rewrite, eval]
    rw [evals_rewrite hv is hs]
  | .literal ls => simp only [Tc.rewrite, eval]
termination_by t.size
decreasing_by
  all_goals simp only [Tc.size, Tcs.size]
  all_goals first
    | omega
    | (have := Tc.head_size f; omega)
    | (have := Tc.args_size f; omega)
    | (have := Brs.find_size _ (by assumption); omega)
theorem evals_rewrite {app m off k S A S' A'} (hv : Renames m off k S A S' A') (ts : Tcs) {loc : List Bool}
    (hs : ts.Scoped m.length k loc) (L : List (Option SVal)) (s : St SFn) :
    evals app (ts.rewrite m off) ⟨S, A, L⟩ s = evals app ts ⟨S', A', L⟩ s := by
  match ts with
  | .nil => simp only [Tcs.rewrite, evals]
  | .cons t ts =>
    simp only [Tcs.rewrite, evals]
    rw [eval_rewrite hv t hs.1]
    congr; funext v s; rw [evals_rewrite hv ts hs.2]
termination_by ts.size
decreasing_by all_goals simp only [Tcs.size]; omega
theorem evalFlds_rewrite {app m off k S A S' A'} (hv : Renames m off k S A S' A') (src : SVal) (i : Nat) (fs : Flds) {loc : List Bool}
    (hs : fs.Scoped m.length k loc) (L : List (Option SVal)) (s : St SFn) :
    evalFlds app src i (fs.rewrite m off) ⟨S, A, L⟩ s = evalFlds app src i fs ⟨S', A', L⟩ s := by
  match fs with
  | .nil => simp only [Flds.rewrite, evalFlds]
  | .keep fs =>
    simp only [Flds.Scoped] at hs
    simp only [Flds.rewrite, evalFlds]
    congr; funext v s; rw [evalFlds_rewrite hv src (i + 1) fs hs]
  | .set t fs =>
    simp only [Flds.rewrite, evalFlds]
    rw [eval_rewrite hv t hs.1]
    congr; funext v s; rw [evalFlds_rewrite hv src (i + 1) fs hs.2]
termination_by fs.size
decreasing_by all_goals simp only [Flds.size]; omega
end

/-! ### Merged functions -/

/-- How many arguments are just passed on to an inner function. -/
def Tc.depth : Tc → Nat
  | .func _ b => b.depth + 1
  | _ => 0

def SFn.body : SFn → Tc | .clo b _ => b | .native .. => .typeVal
def SFn.statics : SFn → List SVal | .clo _ s => s | .native .. => []

/-- How many arguments a function just takes. -/
def SFn.depth : SFn → Nat | .clo b _ => b.depth | .native _ more _ => more

def SFn.Scoped (f : SFn) : Prop := f.body.Scoped f.statics.length 1 []

theorem capture_ok {env : Env} {ns na loc} (hv : ∀ v : Var, v.Ok ns na loc → ∃ x, env.get v = some x) :
    (scope : List Var) → (∀ v ∈ scope, v.Ok ns na loc) → ∃ vs, capture env scope = some vs ∧ vs.length = scope.length
  | [], _ => ⟨[], rfl, rfl⟩
  | v :: scope, h => by
    obtain ⟨x, hx⟩ := hv v (h v (by simp))
    obtain ⟨vs, h1, h2⟩ := capture_ok hv scope fun v hv => h v (List.mem_cons_of_mem _ hv)
    refine ⟨x :: vs, ?_, by simp [h2]⟩
    simp only [capture] at h1
    simp [capture, List.mapM_cons, hx, h1]

theorem env_ok {S A : List SVal} (v : Var) (h : v.Ok S.length A.length []) : ∃ x, Env.get ⟨S, A, []⟩ v = some x := by
  cases v with
  | static i => exact ⟨_, List.getElem?_eq_getElem h⟩
  | arg i => exact ⟨_, List.getElem?_eq_getElem h⟩
  | loc i => simp [Var.Ok] at h

/-- As long as the body is a function, arguments can be given. -/
theorem peel_ok : (as : List SVal) → {f : SFn} → f.Scoped → as.length ≤ f.depth →
    ∃ g, peel f as = some g ∧ g.Scoped ∧ g.depth + as.length = f.depth
  | [], f, h, _ => ⟨f, by simp [peel], h, rfl⟩
  | a :: as, .clo (.func scope b) statics, h, hd => by
    simp only [SFn.Scoped, SFn.body, SFn.statics, Tc.Scoped] at h
    obtain ⟨vs, h1, h2⟩ := capture_ok (env := ⟨statics, [a], []⟩) env_ok scope h.1
    obtain ⟨g, h3, h4, h5⟩ := peel_ok as (f := .clo b vs) (by
        simp only [SFn.Scoped, SFn.body, SFn.statics, h2]; exact h.2) (by
        simp only [SFn.depth, Tc.depth, List.length_cons] at hd ⊢; omega)
    refine ⟨g, by simp [peel, h1, h3], h4, ?_⟩
    simp only [SFn.depth, Tc.depth, List.length_cons] at h5 ⊢; omega
  | a :: as, .clo .typeVal _, _, hd | a :: as, .clo (.var _) _, _, hd | a :: as, .clo (.letE ..) _, _, hd
  | a :: as, .clo (.struct _) _, _, hd | a :: as, .clo (.copy ..) _, _, hd | a :: as, .clo (.union ..) _, _, hd
  | a :: as, .clo (.select ..) _, _, hd | a :: as, .clo (.access ..) _, _, hd | a :: as, .clo (.apply ..) _, _, hd
  | a :: as, .clo (.list _) _, _, hd | a :: as, .clo (.literal _) _, _, hd => by
    simp [SFn.depth, Tc.depth] at hd
  | a :: as, .native op (k + 1) args, h, hd => by
    obtain ⟨g, h3, h4, h5⟩ := peel_ok as (f := .native op k (args ++ [a])) h (by
        simp only [SFn.depth, List.length_cons] at hd ⊢; omega)
    exact ⟨g, by simp [peel, h3], h4, by simp only [SFn.depth, List.length_cons] at h5 ⊢; omega⟩
  | a :: as, .native op 0 args, h, hd => by simp [SFn.depth] at hd

theorem strict_fn {F} {s : St F} {f : F} : strict s (.fn f) = .ok (.fn f) s := rfl

/-- Applying a function whose body is a function. -/
theorem apply_peel {f g : SFn} {a : SVal} (h : peel f [a] = some g) (s : St SFn) : apply (.fn f) a s = .ok (.fn g) s := by
  rw [apply]
  simp only [strict_fn, Res.bind]
  match f with
  | .clo (.func scope b) statics =>
    simp only [peel, Option.bind_eq_some_iff] at h
    obtain ⟨vs, h1, h2⟩ := h
    cases h2
    simp [h1]
  | .native op (k + 1) args =>
    simp only [peel, Option.some.injEq] at h
    rw [← h]
  | .native op 0 args => simp [peel] at h
  | .clo .typeVal _ | .clo (.var _) _ | .clo (.letE ..) _ | .clo (.struct _) _ | .clo (.copy ..) _ | .clo (.union ..) _
  | .clo (.select ..) _ | .clo (.access ..) _ | .clo (.apply ..) _ | .clo (.list _) _ | .clo (.literal _) _ =>
    simp [peel] at h

theorem peel_cons {f : SFn} {a : SVal} {as : List SVal} : peel f (a :: as) = (peel f [a]).bind fun g => peel g as := by
  match f with
  | .clo (.func scope b) statics =>
    simp only [peel]
    cases capture ⟨statics, [a], []⟩ scope <;> simp
  | .native op (k + 1) args => simp [peel]
  | .native op 0 args => simp [peel]
  | .clo .typeVal _ | .clo (.var _) _ | .clo (.letE ..) _ | .clo (.struct _) _ | .clo (.copy ..) _ | .clo (.union ..) _
  | .clo (.select ..) _ | .clo (.access ..) _ | .clo (.apply ..) _ | .clo (.list _) _ | .clo (.literal _) _ =>
    simp [peel]

theorem applyAll_peel : (as : List SVal) → {f g : SFn} → peel f as = some g → (s : St SFn) →
    applyAll apply (.fn f) as s = .ok (.fn g) s
  | [], f, g, h, s => by simp only [peel, Option.some.injEq] at h; rw [h]; rfl
  | a :: as, f, g, h, s => by
    rw [peel_cons, Option.bind_eq_some_iff] at h
    obtain ⟨g1, h1, h2⟩ := h
    simp only [applyAll, apply_peel h1, Res.bind]
    exact applyAll_peel as h2 s

theorem peel_append : (as bs : List SVal) → (f : SFn) → peel f (as ++ bs) = (peel f as).bind fun g => peel g bs
  | [], bs, f => by simp [peel]
  | a :: as, bs, f => by
    rw [List.cons_append, peel_cons, peel_cons (as := as)]
    cases peel f [a] with
    | none => rfl
    | some g => exact peel_append as bs g

theorem capture_get {env : Env} : {m : List Var} → {vs : List SVal} → capture env m = some vs →
    vs.length = m.length ∧ ∀ i (h : i < m.length), env.get m[i] = vs[i]? ∧ (vs[i]?).isSome
  | [], vs, h => by
    simp [capture] at h; subst h; simp
  | v :: m, vs, h => by
    simp only [capture, List.mapM_cons] at h
    cases hv : env.get v with
    | none => simp [hv] at h
    | some x =>
      cases hm : List.mapM env.get m with
      | none => simp [hv, hm] at h
      | some xs =>
        simp [hv, hm] at h
        subst h
        obtain ⟨h1, h2⟩ := capture_get (m := m) hm
        refine ⟨by simp [h1], fun i hi => ?_⟩
        cases i with
        | zero => simp [hv]
        | succ i => simpa using h2 i (by simpa using hi)

/-- The statics of an inner function and its argument, in terms of the outermost function. -/
theorem renames_of_capture {S A vs : List SVal} {m : List Var} {a : SVal} (h : capture ⟨S, A, []⟩ m = some vs) :
    Renames m A.length 1 S (A ++ [a]) vs [a] := by
  obtain ⟨h1, h2⟩ := capture_get h
  intro v L loc hv
  cases v with
  | static i =>
    have hv : i < m.length := hv
    simp only [rewriteVar, List.getElem?_eq_getElem hv, Option.getD_some]
    obtain ⟨h3, h4⟩ := h2 i hv
    rw [show Env.get ⟨vs, [a], L⟩ (.static i) = vs[i]? from rfl, ← h3]
    rw [← h3] at h4
    generalize m[i] = w at h4
    cases w with
    | static j => rfl
    | arg j =>
      have h4 : (A[j]?).isSome := h4
      show (A ++ [a])[j]? = A[j]?
      exact List.getElem?_append_left (by simpa using h4)
    | loc j => simp [Env.get] at h4
  | arg i =>
    have hv : i < 1 := hv
    have : i = 0 := by omega
    subst this
    simp [rewriteVar, Env.get]
  | loc i => rfl

/-- The state of the loop that merges functions, when arguments `A` have been given: the statics of
the current function are the values of `m`. -/
theorem mergeLoop_peel {S : List SVal} : (as : List SVal) → {b : Tc} → {vs : List SVal} → {m : List Var} → {A : List SVal} → {g : SFn} →
    capture ⟨S, A, []⟩ m = some vs → b.Scoped m.length 1 [] → peel (.clo b vs) as = some g → g.depth = 0 →
    ∃ m', mergeLoop m A.length (A.length + 1) b = ⟨m', (A ++ as).length, (A ++ as).length + 1, g.body⟩ ∧
      capture ⟨S, A ++ as, []⟩ m' = some g.statics ∧ g.body.Scoped m'.length 1 []
  | [], b, vs, m, A, g, hc, hs, hp, hd => by
    simp only [peel, Option.some.injEq] at hp
    subst hp
    refine ⟨m, ?_, by simpa [SFn.statics] using hc, hs⟩
    match b with
    | .func _ _ => simp [SFn.depth, Tc.depth] at hd
    | .typeVal | .var _ | .letE .. | .struct _ | .copy .. | .union .. | .select .. | .access ..
    | .apply .. | .list _ | .literal _ => simp [mergeLoop, SFn.body]
  | a :: as, .func scope b, vs, m, A, g, hc, hs, hp, hd => by
    simp only [Tc.Scoped] at hs
    simp only [peel, Option.bind_eq_some_iff] at hp
    obtain ⟨vs', h1, h2⟩ := hp
    have hA : A ++ a :: as = (A ++ [a]) ++ as := by simp
    have hr := renames_of_capture (a := a) hc
    have hc' : capture ⟨S, A ++ [a], []⟩ (scope.map (rewriteVar m A.length)) = some vs' := by
      rw [capture_rewrite (fun v hv => hr v [] [] hv) scope hs.1]; exact h1
    obtain ⟨m', h3, h4, h5⟩ := mergeLoop_peel as (m := scope.map (rewriteVar m A.length)) hc' (by rw [List.length_map]; exact hs.2) h2 hd
    refine ⟨m', ?_, by rw [hA]; exact h4, h5⟩
    rw [hA, ← h3]
    simp [mergeLoop]
  | a :: as, .typeVal, _, _, _, _, _, _, hp, _ | a :: as, .var _, _, _, _, _, _, _, hp, _ | a :: as, .letE .., _, _, _, _, _, _, hp, _
  | a :: as, .struct _, _, _, _, _, _, _, hp, _ | a :: as, .copy .., _, _, _, _, _, _, hp, _ | a :: as, .union .., _, _, _, _, _, _, hp, _
  | a :: as, .select .., _, _, _, _, _, _, hp, _ | a :: as, .access .., _, _, _, _, _, _, hp, _ | a :: as, .apply .., _, _, _, _, _, _, hp, _
  | a :: as, .list _, _, _, _, _, _, _, hp, _ | a :: as, .literal _, _, _, _, _, _, _, hp, _ => by simp [peel] at hp

theorem capture_statics (S : List SVal) : capture ⟨S, [], []⟩ ((List.range S.length).map .static) = some S := by
  have : ∀ (pre post : List SVal), S = pre ++ post →
      capture ⟨S, [], []⟩ ((List.range' pre.length post.length).map .static) = some post := by
    intro pre post
    induction post generalizing pre with
    | nil => intro _; simp [capture]
    | cons x post ih =>
      intro h
      have := ih (pre ++ [x]) (by simp [h])
      simp only [capture] at this
      simp only [capture, List.length_cons, List.range'_succ, List.map_cons, List.mapM_cons]
      rw [show (pre ++ [x]).length = pre.length + 1 by simp] at this
      rw [this]
      simp [Env.get, h]
  have := this [] S rfl
  rwa [List.length_nil, ← List.range_eq_range'] at this

/-- A merged function takes all arguments at once, and then does what the innermost function does. -/
theorem merge_eval {body : Tc} {svals as : List SVal} {g : SFn} (hs : body.Scoped svals.length 1 [])
    (hp : peel (.clo body svals) as = some g) (hd : g.depth = 0) :
    (merge svals.length body).1 = as.length + 1 ∧
      ∀ app a s, eval app (merge svals.length body).2 ⟨svals, as ++ [a], []⟩ s = eval app g.body ⟨g.statics, [a], []⟩ s := by
  obtain ⟨m', h1, h2, h3⟩ := mergeLoop_peel as (A := []) (capture_statics svals) (by simpa using hs) hp hd
  simp only [List.length_nil, List.nil_append, Nat.zero_add] at h1 h2
  simp only [merge, h1, true_and]
  intro app a s
  exact eval_rewrite (renames_of_capture h2) g.body h3 [] s

end Verif.Compile
