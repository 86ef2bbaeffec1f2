import Verif.Compile.Sem
/-
Calls: what the function call protocol of the machine does with a compiled function agrees with
applying the closure to the arguments one at a time.
-/
namespace Verif.Compile

theorem merge_depth {n : Nat} {body : Tc} (h : body.Scoped n 1 []) : (merge n body).1 = body.depth + 1 := by
  have hs : (SFn.clo body (List.replicate n .type)).Scoped := by
    simpa [SFn.Scoped, SFn.body, SFn.statics] using h
  obtain ⟨g, h1, _, h3⟩ := peel_ok (List.replicate body.depth .type) hs (by simp [SFn.depth])
  have := (merge_eval (by simpa using h) h1 (by
    have e : (SFn.clo body (List.replicate n Val.type)).depth = body.depth := rfl
    rw [List.length_replicate] at h3; omega)).1
  simpa using this

theorem FnRel.scoped : {g : TFn} → {c : SFn} → FnRel c g → c.Scoped ∧ g.arity = c.depth + 1
  | .func code tvals, c, h => by
    cases h with
    | @func body svals _ _ block bl bl' hb hv hc =>
      refine ⟨hb, ?_⟩
      cases hc with
      | mk =>
        simp only [TFn.arity, Code.numArgs, SFn.depth]
        exact merge_depth hb
  | .pap n g pargs, c, h => by
    cases h with
    | @pap c0 _ as0 _ _ h0 ha hl hp =>
      obtain ⟨h1, h2⟩ := FnRel.scoped h0
      have hle : as0.length ≤ c0.depth := by rw [ha.length_eq]; omega
      obtain ⟨g', e, h3, h4⟩ := peel_ok as0 h1 hle
      rw [hp] at e
      cases e
      refine ⟨h3, ?_⟩
      show g.arity - pargs.length = _
      rw [ha.length_eq] at h4
      omega
  | .native op more, c, h => by
    cases h with
    | native => exact ⟨by simp [SFn.Scoped, SFn.body, Tc.Scoped], rfl⟩
termination_by g => sizeOf g

theorem apply_strict (f a : SVal) (s : St SFn) : apply f a s = (strict s f).bind fun g _ =>
    match g with
    | .fn c => apply (.fn c) a s
    | _ => .crash := by
  rw [apply]
  congr; funext g s1
  cases g with
  | fn c =>
    simp only
    conv => rhs; rw [apply]
    simp only [strict_fn, Res.bind]
  | _ => rfl

theorem applyAll_strict {as : List SVal} (h : as ≠ []) (f : SVal) (s : St SFn) : applyAll apply f as s = (strict s f).bind fun g _ =>
    match g with
    | .fn c => applyAll apply (.fn c) as s
    | _ => .crash := by
  cases as with
  | nil => exact absurd rfl h
  | cons a as =>
    rw [applyAll, apply_strict, bind_assoc]
    congr; funext g s1
    cases g with
    | fn c => rfl
    | _ => rfl

/-- Entering the body of a function that is not just another function. -/
theorem apply_body {g : SFn} (h : g.depth = 0) (hn : ∀ op m as, g ≠ .native op m as) (a : SVal) (s : St SFn) : apply (.fn g) a s =
    if s.fuel = 0 then .oof
    else eval (fun f a s' => if s'.fuel < s.fuel then apply f a s' else .oof) g.body ⟨g.statics, [a], []⟩ { s with fuel := s.fuel - 1 } := by
  rw [apply]
  simp only [strict_fn, Res.bind]
  match g with
  | .clo (.func scope b) statics => simp [SFn.depth, Tc.depth] at h
  | .native op m as => exact absurd rfl (hn op m as)
  | .clo .typeVal _ | .clo (.var _) _ | .clo (.letE ..) _ | .clo (.struct _) _ | .clo (.copy ..) _ | .clo (.union ..) _
  | .clo (.select ..) _ | .clo (.access ..) _ | .clo (.apply ..) _ | .clo (.list _) _ | .clo (.literal _) _ => rfl

theorem peel_clo : (as : List SVal) → {b : Tc} → {vs : List SVal} → {g : SFn} → peel (.clo b vs) as = some g → ∀ op m xs, g ≠ .native op m xs
  | [], _, _, _, h => by simp only [peel, Option.some.injEq] at h; subst h; simp
  | a :: as, .func scope b, vs, g, h => by
    simp only [peel, Option.bind_eq_some_iff] at h
    obtain ⟨vs', _, h⟩ := h
    exact peel_clo as h
  | a :: as, .typeVal, _, _, hp | a :: as, .var _, _, _, hp | a :: as, .letE .., _, _, hp
  | a :: as, .struct _, _, _, hp | a :: as, .copy .., _, _, hp | a :: as, .union .., _, _, hp
  | a :: as, .select .., _, _, hp | a :: as, .access .., _, _, hp | a :: as, .apply .., _, _, hp
  | a :: as, .list _, _, _, hp | a :: as, .literal _, _, _, hp => by simp [peel] at hp

theorem peel_native {op : Nat} : (as : List SVal) → (xs : List SVal) → peel (.native op as.length xs) as = some (.native op 0 (xs ++ as))
  | [], xs => by simp [peel]
  | a :: as, xs => by simp only [List.length_cons, peel]; rw [peel_native as]; simp

/-- Calling a function implemented in C. -/
theorem apply_native {op : Nat} {xs : List SVal} {a : SVal} {s : St SFn} : apply (.fn (.native op 0 xs)) a s =
    if s.fuel = 0 then .oof else callOut (fun op more => .native op more []) op (xs ++ [a]) { s with fuel := s.fuel - 1 } := by
  rw [apply]; simp only [strict_fn, Res.bind]

/-- Calls agree, when at most `n` bodies may be entered. -/
def CallOk (n : Nat) : Prop := ∀ {f f' as as' s s'}, as ≠ [] → VRel f f' → All2 VRel as as' → SRel s s' → s.fuel = n →
  RRel n VRel (applyAll apply f as s) (fcall f' as' s')

theorem All2.take' {α β : Type} {R : α → β → Prop} : {l : List α} → {l' : List β} → All2 R l l' → (n : Nat) → All2 R (l.take n) (l'.take n)
  | _, _, _, 0 => by simp; exact .nil
  | _, _, .nil, n + 1 => by simp; exact .nil
  | _, _, .cons h hs, n + 1 => by simp; exact .cons h (All2.take' hs n)

theorem All2.drop' {α β : Type} {R : α → β → Prop} : {l : List α} → {l' : List β} → All2 R l l' → (n : Nat) → All2 R (l.drop n) (l'.drop n)
  | _, _, h, 0 => by simpa using h
  | _, _, .nil, n + 1 => by simp; exact .nil
  | _, _, .cons _ hs, n + 1 => by simp; exact All2.drop' hs n

theorem All2.nil_iff {α β : Type} {R : α → β → Prop} {l : List α} {l' : List β} (h : All2 R l l') : l = [] ↔ l' = [] := by
  cases h <;> simp

/-- A saturated call of a compiled function. -/
theorem callFunc_ok {n : Nat} (ih : ∀ m, m < n → CallOk m) {body svals tvals code block bl bl'} (hb : body.Scoped svals.length 1 [])
    (hv : All2 VRel svals tvals)
    (hc : CompFunc svals.length (merge svals.length body).1 (merge svals.length body).2 block bl (code, bl'))
    {as : List SVal} {as' : List TVal} {s : St SFn} {s' : St TFn} (ha : All2 VRel as as') (hs : SRel s s') (hf : s.fuel = n)
    (hsat : code.numArgs ≤ as'.length) :
    n = 0 ∧ applyAll apply (.fn (.clo body svals)) as s = .oof ∧ callFn (.func code tvals) as' s' = .oof ∨
      0 < n ∧ RRel (n - 1) VRel (applyAll apply (.fn (.clo body svals)) as s) (callFn (.func code tvals) as' s') := by
  have hf' : s'.fuel = n := by rw [← hs.fuel]; exact hf
  have hna : code.numArgs = body.depth + 1 := by
    have := (FnRel.func hb hv hc).scoped.2
    exact this
  have hlen : body.depth < as.length := by rw [ha.length_eq]; omega
  -- the arguments
  have has : as = as.take body.depth ++ (as[body.depth] :: as.drop (body.depth + 1)) := by
    rw [List.getElem_cons_drop, List.take_append_drop]
  obtain ⟨g, hp, hgs, hgd⟩ := peel_ok (as.take body.depth) (f := .clo body svals) hb (by simp [SFn.depth]; omega)
  have hgd0 : g.depth = 0 := by
    rw [List.length_take, Nat.min_eq_left (Nat.le_of_lt hlen)] at hgd
    have : (SFn.clo body svals).depth = body.depth := rfl
    omega
  obtain ⟨hm1, hm2⟩ := merge_eval hb hp hgd0
  have hsrc : applyAll apply (.fn (.clo body svals)) as s = if s.fuel = 0 then .oof else
      (eval (fun f a s' => if s'.fuel < s.fuel then apply f a s' else .oof) (merge svals.length body).2
        ⟨svals, as.take (body.depth + 1), []⟩ { s with fuel := s.fuel - 1 }).bind fun v s1 => applyAll apply v (as.drop (body.depth + 1)) s1 := by
    rw [has, applyAll_append, applyAll_peel _ hp]
    simp only [Res.bind, applyAll]
    rw [apply_body hgd0 (peel_clo _ hp), ← has, List.take_succ_eq_append_getElem hlen, hm2]
    by_cases h0 : s.fuel = 0
    · rw [if_pos h0, if_pos h0]
    · rw [if_neg h0, if_neg h0]
  have hnl : ¬ as'.length < code.numArgs := by omega
  have htgt : callFn (.func code tvals) as' s' = if s'.fuel = 0 then .oof else
      (exec (fun f as s1 => if s1.fuel < s'.fuel then fcall f as s1 else .oof) code.instrs 0 (code.frame tvals (as'.take code.numArgs))
          { s' with fuel := s'.fuel - 1 }).bind fun o s1 =>
            if s1.fuel < s'.fuel then
              match o with
              | .ret v => if as'.drop code.numArgs = [] then .ok v s1 else fcall v (as'.drop code.numArgs) s1
              | .tail f as => tailCall f (as ++ as'.drop code.numArgs) s1
            else .oof := by
    rw [callFn.eq_def, if_neg (show ¬ as'.length < (TFn.func code tvals).arity from hnl)]
    rfl
  rw [hsrc, htgt]
  by_cases h0 : n = 0
  · left
    rw [hf, hf', if_pos h0, if_pos h0]
    exact ⟨h0, rfl, rfl⟩
  · right
    rw [hf, hf', if_neg h0, if_neg h0]
    refine ⟨by omega, ?_⟩
    let c : Ctx := {
      app := fun f a s' => if s'.fuel < n then apply f a s' else .oof
      call := fun f as s1 => if s1.fuel < n then fcall f as s1 else .oof
      code := code.instrs
      k0 := fun v s1 => applyAll apply v (as.drop (body.depth + 1)) s1
      fin := fun o s1 =>
        if s1.fuel < n then
          match o with
          | .ret v => if as'.drop code.numArgs = [] then .ok v s1 else fcall v (as'.drop code.numArgs) s1
          | .tail f as => tailCall f (as ++ as'.drop code.numArgs) s1
        else .oof
      m := n - 1 }
    have hun : All2 VRel (as.drop (body.depth + 1)) (as'.drop code.numArgs) := by rw [hna]; exact All2.drop' ha _
    have hok : c.Ok := by
      constructor
      · intro f f' bs bs' s1 s1' hne hf1 hb1 hs1 hle
        have hle : s1.fuel ≤ n - 1 := hle
        show RRel (n - 1) VRel (applyAll (fun f a s' => if s'.fuel < n then apply f a s' else .oof) f bs s1) (if s1'.fuel < n then fcall f' bs' s1' else .oof)
        rw [applyAll_guard (n := n - 1) (by omega) bs hle, if_pos (by rw [← hs1.fuel]; omega)]
        exact (ih s1.fuel (by omega) hne hf1 hb1 hs1 rfl).mono hle fun _ _ h => h
      · intro f a s1 hle
        have hle : s1.fuel ≤ n - 1 := hle
        show (if s1.fuel < n then apply f a s1 else .oof) = (strict s1 f).bind fun g _ =>
          match g with
          | .fn _ => if s1.fuel < n then apply f a s1 else .oof
          | _ => .crash
        rw [if_pos (by omega)]
        have h := apply_strict f a s1
        cases hx : strict s1 f with
        | ok g s2 =>
          rw [hx] at h
          cases g with
          | fn c1 => rfl
          | _ => exact h
        | _ => rw [hx] at h; exact h
      · intro v v' s1 s1' hv1 hs1 hle
        have hle : s1.fuel ≤ n - 1 := hle
        show RRel (n - 1) VRel (applyAll apply v (as.drop (body.depth + 1)) s1) (if s1'.fuel < n then
          (if as'.drop code.numArgs = [] then .ok v' s1' else fcall v' (as'.drop code.numArgs) s1') else .oof)
        rw [if_pos (by rw [← hs1.fuel]; omega)]
        by_cases hu : as.drop (body.depth + 1) = []
        · rw [if_pos ((All2.nil_iff hun).mp hu), hu]
          exact .ok hv1 hs1 hle
        · rw [if_neg (fun h => hu ((All2.nil_iff hun).mpr h))]
          exact (ih s1.fuel (by omega) hu hv1 hun hs1 rfl).mono hle fun _ _ h => h
      · intro f f' bs bs' s1 s1' g' hne hf1 hb1 hs1 hle hst
        have hle : s1.fuel ≤ n - 1 := hle
        show RRel (n - 1) VRel ((applyAll (fun f a s' => if s'.fuel < n then apply f a s' else .oof) f bs s1).bind
          fun v s1 => applyAll apply v (as.drop (body.depth + 1)) s1) (if s1'.fuel < n then tailCall f' (bs' ++ as'.drop code.numArgs) s1' else .oof)
        rw [applyAll_guard (n := n - 1) (by omega) bs hle, if_pos (by rw [← hs1.fuel]; omega), ← applyAll_append]
        have : tailCall f' (bs' ++ as'.drop code.numArgs) s1' = fcall f' (bs' ++ as'.drop code.numArgs) s1' := by
          rw [tailCall, fcall, hst]; rfl
        rw [this]
        exact (ih s1.fuel (by omega) (by simp [hne]) hf1 (hb1.append hun) hs1 rfl).mono hle fun _ _ h => h
    cases hc with
    | @mk _ _ _ _ _ o sc' co fo er hl hpf =>
      have hsem := co.sem (c := c) hok fo.inv (env := ⟨svals, as.take (body.depth + 1), []⟩)
        (fr := Code.frame (.mk (merge svals.length body).1 svals.length sc'.nlocals o.code sc'.prof.ops) tvals (as'.take (merge svals.length body).1))
        (s := { s with fuel := n - 1 }) (s' := { s' with fuel := n - 1 }) (by intro i hi; simp [c, Code.instrs, initScope])
        (by simp [Code.frame, Code.numLocals, hl]) ?_ ⟨rfl, hs.refs, hs.out⟩ (Nat.le_refl _)
      · unfold Ctx.Sem at hsem
        rw [if_pos rfl] at hsem
        exact hsem
      · have hna' : (merge svals.length body).1 = body.depth + 1 := hna
        refine ⟨hv, by rw [hna']; exact All2.take' ha _, rfl, ?_, rfl, ?_⟩
        · show (as.take (body.depth + 1)).length = (merge svals.length body).1
          rw [List.length_take, hna']; omega
        · intro i w hw; simp [initScope] at hw

/-- Calls of functions agree; a saturated call leaves fewer bodies to enter. -/
theorem callFn_ok {n : Nat} (ih : ∀ m, m < n → CallOk m) : {g : TFn} → {c : SFn} → FnRel c g →
    {as : List SVal} → {as' : List TVal} → {s : St SFn} → {s' : St TFn} → All2 VRel as as' → SRel s s' → s.fuel = n →
    RRel n VRel (applyAll apply (.fn c) as s) (callFn g as' s') ∧
      (g.arity ≤ as'.length → n = 0 ∧ applyAll apply (.fn c) as s = .oof ∧ callFn g as' s' = .oof ∨
        0 < n ∧ RRel (n - 1) VRel (applyAll apply (.fn c) as s) (callFn g as' s')) := by
  intro g c hg as as' s s' ha hs hf
  have hsat : g.arity ≤ as'.length → n = 0 ∧ applyAll apply (.fn c) as s = .oof ∧ callFn g as' s' = .oof ∨
        0 < n ∧ RRel (n - 1) VRel (applyAll apply (.fn c) as s) (callFn g as' s') := by
    intro hle
    match g, hg with
    | .func code tvals, .func hb hv hc => exact callFunc_ok ih hb hv hc ha hs hf hle
    | .native op more, .native =>
      have hle : more + 1 ≤ as'.length := hle
      have hf' : s'.fuel = n := by rw [← hs.fuel]; exact hf
      have hlen : more < as.length := by rw [ha.length_eq]; omega
      have has : as = as.take more ++ (as[more] :: as.drop (more + 1)) := by
        rw [List.getElem_cons_drop, List.take_append_drop]
      have hp := peel_native (op := op) (as.take more) []
      rw [List.length_take, Nat.min_eq_left (Nat.le_of_lt hlen), List.nil_append] at hp
      have hused := All2.take' ha (more + 1)
      have hun := All2.drop' ha (more + 1)
      have hsrc : applyAll apply (.fn (.native op more [])) as s = if s.fuel = 0 then .oof else
          (callOut (fun op more => .native op more []) op (as.take (more + 1)) { s with fuel := s.fuel - 1 }).bind
            fun v s1 => applyAll apply v (as.drop (more + 1)) s1 := by
        conv => lhs; rw [has, applyAll_append, applyAll_peel _ hp]
        simp only [Res.bind, applyAll]
        rw [apply_native, List.take_succ_eq_append_getElem hlen]
        by_cases h0 : s.fuel = 0
        · rw [if_pos h0, if_pos h0]
        · rw [if_neg h0, if_neg h0]
      have htgt : callFn (.native op more) as' s' = if s'.fuel = 0 then .oof else
          (callOut .native op (as'.take (more + 1)) { s' with fuel := s'.fuel - 1 }).bind fun v s1 =>
            if as'.drop (more + 1) = [] then .ok v s1 else if s1.fuel < s'.fuel then fcall v (as'.drop (more + 1)) s1 else .oof := by
        rw [callFn.eq_def, if_neg (show ¬ as'.length < (TFn.native op more).arity from by
          show ¬ as'.length < more + 1
          omega)]
        rfl
      rw [hsrc, htgt]
      by_cases h0 : n = 0
      · left
        rw [hf, hf', if_pos h0, if_pos h0]
        exact ⟨h0, rfl, rfl⟩
      · right
        rw [hf, hf', if_neg h0, if_neg h0]
        refine ⟨by omega, (callOut_rel (s := { s with fuel := n - 1 }) (s' := { s' with fuel := n - 1 })
          ⟨rfl, hs.refs, hs.out⟩ hused (Nat.le_refl _)).bind fun v v' s1 s1' hv hs1 hf1 => ?_⟩
        have hf1 : s1.fuel ≤ n - 1 := hf1
        by_cases hu : as.drop (more + 1) = []
        · rw [if_pos ((All2.nil_iff hun).mp hu), hu]
          exact .ok hv hs1 hf1
        · rw [if_neg (fun h => hu ((All2.nil_iff hun).mpr h)), if_pos (by rw [← hs1.fuel]; omega)]
          exact (ih s1.fuel (by omega) hu hv hun hs1 rfl).mono hf1 fun _ _ h => h
    | .pap _ g pargs, .pap (c0 := c0) (as0 := as0) hg0 hpa hlt hp =>
      have hle : g.arity - pargs.length ≤ as'.length := hle
      have hf' : s'.fuel = n := by rw [← hs.fuel]; exact hf
      -- the arguments of the inner call
      have hused := All2.take' ha (g.arity - pargs.length)
      have hun := All2.drop' ha (g.arity - pargs.length)
      have hin := (callFn_ok ih hg0 (hpa.append hused) hs hf).2 (by simp; omega)
      have hsrc : applyAll apply (.fn c) as s = (applyAll apply (.fn c0) (as0 ++ as.take (g.arity - pargs.length)) s).bind
          fun v s1 => applyAll apply v (as.drop (g.arity - pargs.length)) s1 := by
        rw [← applyAll_append, List.append_assoc, List.take_append_drop, applyAll_append, applyAll_peel as0 hp]
        rfl
      have htgt : callFn (.pap (g.arity - pargs.length) g pargs) as' s' = (callFn g (pargs ++ as'.take (g.arity - pargs.length)) s').bind fun v s1 =>
          if as'.drop (g.arity - pargs.length) = [] then .ok v s1
          else if s1.fuel < s'.fuel then fcall v (as'.drop (g.arity - pargs.length)) s1 else .oof := by
        rw [callFn.eq_def, if_neg (show ¬ as'.length < (TFn.pap (g.arity - pargs.length) g pargs).arity from by
          show ¬ as'.length < g.arity - pargs.length
          omega)]
        rfl
      rw [hsrc, htgt]
      rcases hin with ⟨h0, h1, h2⟩ | ⟨hpos, hin⟩
      · left
        rw [h1, h2]
        exact ⟨h0, rfl, rfl⟩
      · right
        refine ⟨hpos, hin.bind fun v v' s1 s1' hv hs1 hf1 => ?_⟩
        by_cases hu : as.drop (g.arity - pargs.length) = []
        · rw [if_pos ((All2.nil_iff hun).mp hu), hu]
          exact .ok hv hs1 hf1
        · rw [if_neg (fun h => hu ((All2.nil_iff hun).mpr h)), if_pos (by rw [← hs1.fuel]; omega)]
          exact (ih s1.fuel (by omega) hu hv hun hs1 rfl).mono hf1 fun _ _ h => h
  refine ⟨?_, hsat⟩
  obtain ⟨hsc, har⟩ := hg.scoped
  have hf' : s'.fuel = n := by rw [← hs.fuel]; exact hf
  by_cases hlt : as'.length < g.arity
  · obtain ⟨c', h1, h2, h3⟩ := peel_ok as hsc (by rw [ha.length_eq]; omega)
    rw [applyAll_peel as h1]
    have : callFn g as' s' = .ok (.fn (.pap (g.arity - as'.length) g as')) s' := by
      rw [callFn.eq_def]; rw [if_pos hlt]
    rw [this]
    exact .ok (.fn (.pap hg ha hlt h1)) hs (by omega)
  · rcases hsat (by omega) with ⟨_, h1, h2⟩ | ⟨_, h⟩
    · rw [h1, h2]; exact .oof
    · exact h.mono (by omega) fun _ _ h => h
termination_by g => sizeOf g

/-- Calls agree. -/
theorem call_ok (n : Nat) : CallOk n := by
  induction n using Nat.strongRecOn with
  | _ n ih =>
    intro f f' as as' s s' hne hv ha hs hf
    rw [applyAll_strict hne, fcall]
    refine strict_bind hs hv (Nat.le_of_eq hf) fun a b hab _ _ _ => ?_
    cases hab with
    | fn h => exact (callFn_ok ih h ha hs hf).1
    | _ => exact .crash

end Verif.Compile
