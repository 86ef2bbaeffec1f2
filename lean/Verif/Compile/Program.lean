import Verif.Compile.Knot
/-
Whole programs: modules compiled one by one and linked (link.c:41-104), and what a user sees of the
outcome.
-/
namespace Verif.Compile

/-- A module after elaboration: the earlier modules it imports, by position (C27 is about finding
them by path), and its expression, whose arguments are the values of these modules. -/
structure Mod where
  deps : List Nat
  body : Tc

/-- A module refers to earlier modules only, and its expression is in scope. -/
def progOk : Nat → List Mod → Prop
  | _, [] => True
  | i, m :: ms => (∀ d ∈ m.deps, d < i) ∧ m.body.Scoped 0 m.deps.length [] ∧ progOk (i + 1) ms

/-! ### The meaning of a program -/

/-- The values of the modules, in order.  Evaluating a module counts as entering a body. -/
def runMods : List Mod → List SVal → St SFn → SRes (List SVal)
  | [], vals, s => .ok vals s
  | m :: ms, vals, s =>
    match m.deps.mapM (fun d => vals[d]?) with
    | none => .wild
    | some args =>
      if s.fuel = 0 then .oof
      else (meaning m.body args { s with fuel := s.fuel - 1 }).bind fun v s => runMods ms (vals ++ [v]) s

/-- The value of a program is the value of its last module. -/
def runProgram (ms : List Mod) (fuel : Nat) (out : Outside := .silent) : SRes SVal :=
  if fuel = 0 then .oof
  else (runMods ms [] ⟨fuel - 1, [], out⟩).bind fun vals s =>
    match vals.getLast? with
    | some v => .ok v s
    | none => .wild

/-! ### Compiling and linking -/

/-- FbleCompileProgram, compile.c: each module on its own. -/
def compileAll (ms : List Mod) : Option (List Code) := ms.mapM fun m => (compileModule m.deps.length m.body).map (·.1)

/-- The calls of the main function: link.c:68-91. -/
def mainInstrs (i : Nat) : List Mod → List Instr
  | [] => []
  | m :: ms => .call (.static i) (m.deps.map .loc) i :: mainInstrs (i + 1) ms

/-- The main function: link.c:66-97. -/
def mainCode (ms : List Mod) : Code :=
  .mk 0 ms.length ms.length (mainInstrs 0 ms ++ [.ret (.loc (ms.length - 1))]) []

/-- LinkInterpreted, link.c:41-104, and the call of the linked function. -/
def runMachine (ms : List Mod) (codes : List Code) (fuel : Nat) (out : Outside := .silent) : TRes TVal :=
  fcall (.fn (.func (mainCode ms) (codes.map fun c => .fn (.func c [])))) [] ⟨fuel, [], out⟩

/-! ### What is seen of the outcome -/

/-- A value as seen from outside.  Functions can only be called: a module that imports the function
and calls it tells functions apart. -/
inductive Obs where
  | type
  | struct (fields : List Obs)
  | union (tag : Nat) (arg : Obs)
  | fn
  | undefined
  | broken
  | deep

/-- The value seen down to a depth. -/
def observe {F} (refs : List (Option (Val F))) : Nat → Val F → Obs
  | 0, _ => .deep
  | n + 1, v =>
    match unwrap refs (refs.length + 1) v with
    | none => .broken
    | some .type => .type
    | some (.struct fs) => .struct (fs.map (observe refs n))
    | some (.union tag a) => .union tag (observe refs n a)
    | some (.ref _) => .undefined
    | some (.fn _) => .fn

/-- The outcome as seen from outside. -/
inductive Seen where
  | value (o : Obs)
  | abort
  | crash
  | wild
  | cutOff
  | stopped (calls : List Call)

def Res.seen {F} (depth : Nat) : Res F (Val F) → Seen
  | .ok v s => .value (observe s.refs depth v)
  | .abort => .abort
  | .crash => .crash
  | .wild => .wild
  | .oof => .cutOff
  | .stop calls => .stopped calls

/-! ### Proofs -/

theorem observe_rel {s : St SFn} {s' : St TFn} (h : SRel s s') : (n : Nat) → {v : SVal} → {w : TVal} → VRel v w →
    observe s.refs n v = observe s'.refs n w
  | 0, _, _, _ => rfl
  | n + 1, v, w, hv => by
    simp only [observe]
    have := unwrap_rel h (s.refs.length + 1) hv
    rw [← h.refs.length_eq]
    generalize unwrap s.refs (s.refs.length + 1) v = x at this ⊢
    generalize unwrap s'.refs (s.refs.length + 1) w = y at this ⊢
    cases this with
    | none => rfl
    | some hv =>
      cases hv with
      | ref => rfl
      | type => rfl
      | fn _ => rfl
      | union h' => simp only [observe_rel h n h']
      | @struct fs gs h' =>
        simp only [Obs.struct.injEq]
        induction h' with
        | nil => rfl
        | cons h1 _ ih => simp only [List.map_cons, observe_rel h n h1, ih]

theorem RRel.seen {m r r'} (h : RRel m VRel r r') (depth : Nat) : r'.seen depth = r.seen depth := by
  cases h with
  | ok hv hs _ => simp only [Res.seen, observe_rel hs depth hv]
  | abort => rfl
  | crash => rfl
  | oof => rfl
  | stop => rfl

/-- A call with exactly as many arguments as the function wants. -/
theorem callFn_exact {code : Code} {as : List TVal} {statics : List TVal} {s : St TFn} {n : Nat} (hl : as.length = code.numArgs) (hn : s.fuel = n) :
    callFn (.func code statics) as s = if n = 0 then .oof else
      (exec (fun f as s1 => if s1.fuel < n then fcall f as s1 else .oof) code.instrs 0 (code.frame statics as)
          { s with fuel := n - 1 }).bind fun o s1 =>
            if s1.fuel < n then
              match o with
              | .ret v => .ok v s1
              | .tail f as => tailCall f as s1
            else .oof := by
  subst hn
  rw [callFn.eq_def, if_neg (show ¬ as.length < (TFn.func code statics).arity by show ¬ as.length < code.numArgs; omega)]
  have h1 : as.drop (TFn.func code statics).arity = [] := List.drop_of_length_le (Nat.le_of_eq hl)
  have h2 : as.take (TFn.func code statics).arity = as := List.take_of_length_le (Nat.le_of_eq hl)
  simp only [h1, h2, List.append_nil, if_true]
  congr

/-- A module function computes the value of the module. -/
theorem module_ok {t : Tc} {nargs : Nat} (ht : t.Scoped 0 nargs []) :
    ∃ code n, compileModule nargs t = some (code, n) ∧ code.numArgs = nargs ∧
      ∀ {args args' s s'}, All2 VRel args args' → args.length = nargs → SRel s s' →
        RRel (s.fuel - 1) VRel (if s.fuel = 0 then .oof else meaning t args { s with fuel := s.fuel - 1 }) (callFn (.func code []) args' s') := by
  obtain ⟨o, e1, co, fo, _⟩ := compile_ok true t (pushBlock ⟨[], 0⟩).2 (initScope 0 nargs 0) ht (initScope_inv _ _ _) (by simp [initScope, pushBlock])
  have hst : (exitBlock true o.bl o.sc).1.stack = [] := by rw [exitBlock_stack, fo.stack]; rfl
  refine ⟨_, _, by
    unfold compileModule
    simp only [show (pushBlock ⟨[], 0⟩).1 = 0 from rfl, e1, Option.bind_some]
    rw [if_pos hst], rfl, ?_⟩
  intro args args' s s' ha hl hs
  have hl' : args'.length = nargs := by rw [← ha.length_eq]; exact hl
  rw [callFn_exact (n := s.fuel) (show args'.length = nargs from hl') hs.fuel.symm]
  by_cases h0 : s.fuel = 0
  · rw [if_pos h0, if_pos h0]; exact .oof
  · rw [if_neg h0, if_neg h0]
    let c : Ctx := {
      app := apply
      call := fun f as s1 => if s1.fuel < s.fuel then fcall f as s1 else .oof
      code := o.code
      k0 := fun v s1 => .ok v s1
      fin := fun o s1 =>
        if s1.fuel < s.fuel then
          match o with
          | .ret v => .ok v s1
          | .tail f as => tailCall f as s1
        else .oof
      m := s.fuel - 1 }
    have hok : c.Ok := by
      constructor
      · intro f f' bs bs' s1 s1' hne hf1 hb1 hs1 hle
        have hle : s1.fuel ≤ s.fuel - 1 := hle
        show RRel (s.fuel - 1) VRel (applyAll apply f bs s1) (if s1'.fuel < s.fuel then fcall f' bs' s1' else .oof)
        rw [if_pos (by rw [← hs1.fuel]; omega)]
        exact (call_ok s1.fuel hne hf1 hb1 hs1 rfl).mono hle fun _ _ h => h
      · intro f a s1 hle
        show apply f a s1 = (strict s1 f).bind fun g _ =>
          match g with
          | .fn _ => apply f a s1
          | _ => .crash
        have h := apply_strict f a s1
        cases hx : strict s1 f with
        | ok g s2 =>
          rw [hx] at h
          cases g with
          | fn c1 => rfl
          | _ => exact h
        | _ => rw [hx] at h; exact h
      · intro v v' s1 s1' hv1 hs1 hle
        have hle : s1.fuel ≤ s.fuel - 1 := hle
        show RRel (s.fuel - 1) VRel (.ok v s1) (if s1'.fuel < s.fuel then .ok v' s1' else .oof)
        rw [if_pos (by rw [← hs1.fuel]; omega)]
        exact .ok hv1 hs1 hle
      · intro f f' bs bs' s1 s1' g' hne hf1 hb1 hs1 hle hst
        have hle : s1.fuel ≤ s.fuel - 1 := hle
        show RRel (s.fuel - 1) VRel ((applyAll apply f bs s1).bind fun v s1 => .ok v s1) (if s1'.fuel < s.fuel then tailCall f' bs' s1' else .oof)
        rw [if_pos (by rw [← hs1.fuel]; omega), bind_ok]
        have : tailCall f' bs' s1' = fcall f' bs' s1' := by
          rw [tailCall, fcall, hst]; rfl
        rw [this]
        exact (call_ok s1.fuel hne hf1 hb1 hs1 rfl).mono hle fun _ _ h => h
    have hsem := co.sem (c := c) hok fo.inv (env := ⟨[], args, []⟩)
        (fr := Code.frame (.mk nargs 0 o.sc.nlocals o.code o.sc.prof.ops) [] args')
        (s := { s with fuel := s.fuel - 1 }) (s' := { s' with fuel := s.fuel - 1 }) (by intro i hi; simp [c, initScope])
        (by simp [Code.frame, Code.numLocals]) ⟨.nil, ha, rfl, hl, rfl, by intro i w hw; simp [initScope] at hw⟩ ⟨rfl, hs.refs, hs.out⟩ (Nat.le_refl _)
    unfold Ctx.Sem at hsem
    rw [if_pos rfl] at hsem
    have hk : (eval c.app t ⟨[], args, []⟩ { s with fuel := s.fuel - 1 }).bind c.k0 = meaning t args { s with fuel := s.fuel - 1 } := bind_ok _
    rw [hk] at hsem
    exact hsem

theorem mapM_get {vals : List SVal} {vals' : List TVal} (hv : All2 VRel vals vals') {rest : List (Option TVal)} {statics args : List TVal} :
    (ds : List Nat) → (∀ d ∈ ds, d < vals.length) →
    ∃ xs xs', ds.mapM (fun d => vals[d]?) = some xs ∧ Frame.gets ⟨statics, args, vals'.map some ++ rest⟩ (ds.map .loc) = some xs' ∧
      All2 VRel xs xs' ∧ xs.length = ds.length
  | [], _ => ⟨[], [], rfl, rfl, .nil, rfl⟩
  | d :: ds, h => by
    obtain ⟨xs, xs', h1, h2, h3, h4⟩ := mapM_get hv (rest := rest) (statics := statics) (args := args) ds fun d hd => h d (List.mem_cons_of_mem _ hd)
    have hd : d < vals.length := h d (by simp)
    have hd' : d < vals'.length := by rw [← hv.length_eq]; exact hd
    refine ⟨vals[d] :: xs, vals'[d] :: xs', ?_, ?_, .cons (hv.get d hd hd') h3, by simp [h4]⟩
    · simp [List.mapM_cons, hd, h1]
    · refine gets_cons ?_ h2
      simp only [Frame.get]
      rw [List.getElem?_append_left (by simpa using hd')]
      simp [hd']

theorem mainInstrs_length : (ms : List Mod) → (i : Nat) → (mainInstrs i ms).length = ms.length
  | [], _ => rfl
  | _ :: ms, i => by simp [mainInstrs, mainInstrs_length ms]

theorem program_ok {N n : Nat} {codes : List Code} {last : Nat} (c : Ctx) (hN : n < N) (hm : c.m = n)
    (hcall : c.call = fun f as s1 => if s1.fuel < N then fcall f as s1 else .oof)
    (hfin : ∀ v s1, c.fin (.ret v) s1 = if s1.fuel < N then .ok v s1 else .oof) :
    (ms : List Mod) → {vals : List SVal} → {vals' : List TVal} → {s : St SFn} → {s' : St TFn} →
    progOk vals.length ms → (vals ≠ [] ∨ ms ≠ []) → last = vals.length + ms.length - 1 →
    (∀ (i : Nat) (m : Mod), ms[i]? = some m → ∃ code k, codes[vals.length + i]? = some code ∧ compileModule m.deps.length m.body = some (code, k)) →
    At c.code vals.length (mainInstrs vals.length ms ++ [.ret (.loc last)]) →
    All2 VRel vals vals' → SRel s s' → s.fuel ≤ n →
    RRel n VRel ((runMods ms vals s).bind fun vals s =>
      match vals.getLast? with
      | some v => .ok v s
      | none => .wild)
      (c.X vals.length ⟨codes.map fun c => .fn (.func c []), [], vals'.map some ++ List.replicate ms.length none⟩ s')
  | [], vals, vals', s, s', _, hne, hl, _, ha, hv, hs, hf => by
    have hne : vals ≠ [] := by simpa using hne
    simp only [runMods, Res.bind, List.length_nil, List.replicate_zero, List.append_nil]
    simp only [mainInstrs, List.nil_append] at ha
    have hlen : 0 < vals.length := List.length_pos_iff.mpr hne
    have hl1 : last < vals.length := by simp at hl; omega
    have hl2 : last < vals'.length := by rw [← hv.length_eq]; exact hl1
    rw [c.X_step (At.head ha)]
    simp only [step]
    have hg : Frame.get ⟨codes.map fun c => .fn (.func c []), [], vals'.map some⟩ (.loc last) = some vals'[last] := by
      simp [Frame.get, hl2]
    rw [hg]
    simp only [orWild, Res.bind, hfin]
    rw [if_pos (by rw [← hs.fuel]; omega)]
    have : vals.getLast? = some vals[last] := by
      rw [List.getLast?_eq_getElem?]
      simp at hl
      rw [← hl, List.getElem?_eq_getElem hl1]
    rw [this]
    exact .ok (hv.get last hl1 hl2) hs hf
  | m :: ms, vals, vals', s, s', hp, _, hl, hco, ha, hv, hs, hf => by
    obtain ⟨hd, hb, hp⟩ := hp
    obtain ⟨xs, xs', h1, h2, h3, h4⟩ := mapM_get hv (rest := List.replicate (m :: ms).length none)
      (statics := codes.map fun c => .fn (.func c [])) (args := []) m.deps hd
    obtain ⟨code, k, hc1, hc2⟩ := hco 0 m rfl
    obtain ⟨code', k', hc3, _, hM⟩ := module_ok hb
    rw [hc2] at hc3
    cases hc3
    rw [c.X_step (At.head ha)]
    simp only [step]
    have hg : Frame.get ⟨codes.map fun c => .fn (.func c []), [], vals'.map some ++ List.replicate (m :: ms).length none⟩ (.static vals.length) =
        some (.fn (.func code [])) := by
      simp only [Frame.get, List.getElem?_map]
      rw [show codes[vals.length]? = some code from hc1]
      rfl
    rw [hg, h2]
    simp only [orWild, hcall, bind_assoc, runMods, h1]
    have hfc : fcall (.fn (.func code [])) xs' s' = callFn (.func code []) xs' s' := by
      rw [fcall, strict_fn]; rfl
    rw [if_pos (show s'.fuel < N by rw [← hs.fuel]; omega), hfc]
    have hM := hM h3 h4 hs
    by_cases h0 : s.fuel = 0
    · rw [if_pos h0] at hM ⊢
      generalize callFn (.func code []) xs' s' = r at hM
      cases hM
      exact .oof
    · rw [if_neg h0] at hM ⊢
      rw [bind_assoc]
      refine hM.bind fun v v' s1 s1' hv1 hs1 hf1 => ?_
      have hlt : vals.length < (vals'.map some ++ List.replicate (m :: ms).length (none : Option TVal)).length := by
        simp [hv.length_eq]
      simp only [setNext, Frame.put]
      rw [if_pos hlt]
      simp only [orWild, Res.bind, Nat.lt_succ_self, if_true]
      have hset : (vals'.map some ++ List.replicate (m :: ms).length (none : Option TVal)).set vals.length (some v') =
          (vals' ++ [v']).map some ++ List.replicate ms.length none := by
        rw [hv.length_eq, List.set_append_right _ _ (by simp)]
        simp [List.replicate_succ]
      rw [hset]
      have := program_ok (last := last) c hN hm hcall hfin ms (vals := vals ++ [v]) (vals' := vals' ++ [v']) (s := s1) (s' := s1')
        (by simpa using hp) (.inl (by simp)) (by simp at hl ⊢; omega) (fun i m' hi => by
          have := hco (i + 1) m' (by simpa using hi)
          simpa [Nat.add_assoc, Nat.add_comm 1 i] using this) (by simpa using At.tail ha) (hv.append (.cons hv1 .nil)) hs1 (by omega)
      simpa [Res.bind] using this

theorem compileAll_ok : (ms : List Mod) → {i : Nat} → progOk i ms → ∃ codes, compileAll ms = some codes ∧ codes.length = ms.length ∧
    ∀ (i : Nat) (m : Mod), ms[i]? = some m → ∃ code k, codes[i]? = some code ∧ compileModule m.deps.length m.body = some (code, k)
  | [], _, _ => ⟨[], rfl, rfl, by simp⟩
  | m :: ms, i, h => by
    obtain ⟨code, k, h1, _, _⟩ := module_ok h.2.1
    obtain ⟨codes, h2, h3, h4⟩ := compileAll_ok ms h.2.2
    refine ⟨code :: codes, ?_, by simp [h3], fun j m' hj => ?_⟩
    · simp only [compileAll] at h2
      simp [compileAll, List.mapM_cons, h1, h2]
    · cases j with
      | zero => simp at hj; subst hj; exact ⟨code, k, rfl, h1⟩
      | succ j => simpa using h4 j m' (by simpa using hj)

/-- Compiling, linking and running agrees with the meaning of the program. -/
theorem compiled_rel {ms : List Mod} (hne : ms ≠ []) (h : progOk 0 ms) :
    ∃ codes, compileAll ms = some codes ∧ ∀ fuel out, RRel fuel VRel (runProgram ms fuel out) (runMachine ms codes fuel out) := by
  obtain ⟨codes, h1, h2, h3⟩ := compileAll_ok ms h
  refine ⟨codes, h1, fun fuel out => ?_⟩
  unfold runProgram runMachine
  rw [fcall, strict_fn]
  simp only [Res.bind]
  rw [callFn_exact (n := fuel) (code := mainCode ms) rfl rfl]
  by_cases h0 : fuel = 0
  · rw [if_pos h0, if_pos h0]; exact .oof
  · rw [if_neg h0, if_neg h0]
    let c : Ctx := {
      app := apply
      call := fun f as s1 => if s1.fuel < fuel then fcall f as s1 else .oof
      code := mainInstrs 0 ms ++ [.ret (.loc (ms.length - 1))]
      k0 := fun v s1 => .ok v s1
      fin := fun o s1 =>
        if s1.fuel < fuel then
          match o with
          | .ret v => .ok v s1
          | .tail f as => tailCall f as s1
        else .oof
      m := fuel - 1 }
    have := program_ok (codes := codes) (last := ms.length - 1) c (n := fuel - 1) (N := fuel) (by omega) rfl rfl (fun v s1 => rfl) ms (vals := []) (vals' := [])
      (s := ⟨fuel - 1, [], out⟩) (s' := ⟨fuel - 1, [], out⟩) h (.inr hne) (by simp) (by simpa using h3) (by intro i hi; simp [c]) .nil ⟨rfl, .nil, rfl⟩ (Nat.le_refl _)
    exact this.mono (by omega) fun _ _ h => h

/-- C13. Every program whose expressions are in scope compiles, and running the compiled and linked
program gives what the program means: the same value (as far as it can be seen), an abort if and
only if the program aborts, and so on, however many function bodies are entered.  Running the
compiled program never uses a variable that has no value, jumps backwards or runs off the code. -/
theorem C13_compiled_program {ms : List Mod} (hne : ms ≠ []) (h : progOk 0 ms) :
    ∃ codes, compileAll ms = some codes ∧ ∀ fuel,
      (∀ depth, (runMachine ms codes fuel).seen depth = (runProgram ms fuel).seen depth) ∧ runMachine ms codes fuel ≠ .wild := by
  obtain ⟨codes, h1, h2⟩ := compiled_rel hne h
  refine ⟨codes, h1, fun fuel => ?_⟩
  have hR := h2 fuel .silent
  refine ⟨fun depth => hR.seen depth, fun hw => ?_⟩
  rw [hw] at hR
  generalize runProgram ms fuel = r at hR
  cases hR

/-- An example: the first module is the recursive function `f(x) = x.?(0: x, : f(x.1))`, the second
applies it to `1:1:0:()`. -/
def exampleProgram : List Mod :=
  [⟨[], .letE true (.cons (.func [.loc 0] (.select (.var (.arg 0)) 2 (.cons 0 (.var (.arg 0)) .nil)
      (.apply (.var (.static 0)) (.access true (.var (.arg 0)) 1)))) .nil) (.var (.loc 0))⟩,
   ⟨[0], .apply (.var (.arg 0)) (.union 1 (.union 1 (.union 0 (.struct .nil))))⟩]

example : exampleProgram ≠ [] ∧ progOk 0 exampleProgram := by
  simp [exampleProgram, progOk, Tc.Scoped, Tcs.Scoped, Brs.Scoped, Brs.Table, Brs.sortedFrom, Brs.tagsBelow, Var.Ok, Tcs.length]

theorem apply_select (c : Tc) (bs : Brs) (d : Tc) (statics : List SVal) (a : SVal) (n : Nat) (refs : List (Option SVal)) (out : Outside) :
    apply (.fn (.clo (.select c nt bs d) statics)) a ⟨n + 1, refs, out⟩ =
      eval (fun f a s' => if s'.fuel < n + 1 then apply f a s' else .oof) (.select c nt bs d) ⟨statics, [a], []⟩ ⟨n, refs, out⟩ := by
  rw [apply_body (g := .clo (.select c nt bs d) statics) rfl (by simp)]
  simp [SFn.body, SFn.statics]

theorem apply_ref (r : Nat) (f : SFn) (a : SVal) (n : Nat) (refs : List (Option SVal)) (out : Outside) (h : refs[r]? = some (some (.fn f))) :
    apply (.ref r) a ⟨n, refs, out⟩ = apply (.fn f) a ⟨n, refs, out⟩ := by
  rw [apply, apply, strict_fn]
  have : refs.length ≠ 0 := fun h0 => by rw [List.length_eq_zero_iff.mp h0] at h; cases h
  obtain ⟨k, hk⟩ := Nat.exists_eq_succ_of_ne_zero this
  have : strict ⟨n, refs, out⟩ (.ref r : SVal) = .ok (.fn f) ⟨n, refs, out⟩ := by
    simp [strict, hk, unwrap, h]
  rw [this]

/-- The example has a value after six bodies have been entered. -/
theorem example_value : (runProgram exampleProgram 6).seen 9 = .value (.union 0 (.struct [])) := by
  simp [runProgram, exampleProgram, runMods, meaning, eval, evals, Tcs.length, newRefs, newRef, capture, Env.get, Res.bind, assignAll, assignRef, unwrap,
    Tc.head, Tc.args, applyAll, apply_select, apply_ref, strict, tagBelow, unionTag, Brs.find, unionField, Res.seen, observe]

/-- A program outside C13: a select of a union type with a single tag, which the type checker turns
into a select with only a default branch (typecheck.c:1515-1525). -/
def emptySelect : List Mod := [⟨[], .select (.union 0 (.struct .nil)) 1 .nil (.struct .nil)⟩]

/-- The exception to C13: the interpreter stops with a failed assertion at a select that has only a
default branch. -/
theorem C13_empty_select_violated : (runProgram emptySelect 9).seen 9 = .value (.struct []) ∧
    ∃ codes, compileAll emptySelect = some codes ∧ runMachine emptySelect codes 9 = .wild := by
  refine ⟨by
    simp [runProgram, emptySelect, runMods, meaning, eval, evals, Res.bind, unwrap, strict, tagBelow, unionTag, Brs.find, Res.seen, observe], ?_⟩
  have hc : ∃ p, compileAll emptySelect = some [.mk 0 0 2 [.struct [] 0, .union 0 (.loc 0) 1, .select (.loc 1) 1 [] 3, .struct [] 0, .ret (.loc 0)] p] := by
    refine ⟨_, by
      simp [compileAll, emptySelect, compileModule, compile, compiles, compileBrs, compileExit, pushBlock, newLocal, initScope, firstFree, releaseAll,
        release, upd, Scope.emit, branchCode, branchTable, afterBranch, exitBlock, popBlock, enterBlock, releaseOpt, Scope.reset, List.range_succ]
      rfl⟩
  obtain ⟨p, hc⟩ := hc
  refine ⟨_, hc, ?_⟩
  simp only [runMachine]
  rw [fcall, strict_fn]
  simp only [Res.bind]
  rw [callFn_exact (n := 9) (code := mainCode emptySelect) rfl rfl, exec.eq_def]
  simp only [mainCode, emptySelect, Code.instrs, mainInstrs, Code.frame, Code.numLocals, List.length_cons, List.length_nil, List.map_nil, List.map_cons]
  simp [step, Frame.get, Frame.gets, orWild]
  rw [fcall, strict_fn]
  simp only [Res.bind]
  rw [callFn_exact (n := 8) rfl rfl]
  simp only [Code.instrs, Code.frame, Code.numLocals]
  rw [exec.eq_def]
  simp [step, Frame.get, Frame.gets, orWild, setNext, Frame.put, Res.bind]
  rw [exec.eq_def]
  simp [step, Frame.get, Frame.gets, orWild, setNext, Frame.put, Res.bind]
  rw [exec.eq_def]
  simp [step, Frame.get, Frame.gets, orWild, setNext, Frame.put, Res.bind, tagBelow, unionTag, strict, unwrap, Select.interpSelect]

end Verif.Compile
