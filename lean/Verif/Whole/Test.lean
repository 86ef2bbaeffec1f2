import Verif.Whole.Build
import Verif.Whole.Example
import Verif.Backend.Typed
import Verif.Elab.Wide
/-
C94: the command fble-test and the programs compiled for it, from the command line to the exit status, /repo/test/test.c.
-/
namespace Verif.Whole.Test
open Parse
open Text (Str Byte ch Path)
open Args (Arg Env Recognised effects)
open Compile (Seen Res runMachine)
open Elab (runNamedProgram)

/-- What follows the options. -/
inductive Launch where
  | exit (status : Int)
  | run (roots : List Str) (module : Path)

/-- test/test.c:51-92: EX_SUCCESS is 0, EX_USAGE_ERROR is 3, EX_OTHER_ERROR is 4.  `linked` says whether there is a compiled module; then the search path and the module path are not used. -/
def launch (sys : System) (linked : Bool) (s : Args.St) : Launch :=
  if s.flags "version" then .exit 0
  else if s.flags "help" then .exit 0
  else if s.error then .exit 3
  else if !linked && s.module.isNone then .exit 3
  else if linked && s.module.isSome then .exit 3
  else if (s.strs "profile_file").any fun f => !sys.creatable (bytes f) then .exit 4
  else .run (s.search.map bytes) (pathOf (s.module.getD []))

/-- How the command ends: before the program is evaluated, or as that ends. -/
inductive Outcome where
  | exit (status : Int)
  | ran (r : Seen)

/-- What FbleTestMain returns, if it does: test/test.c:105-114.  EX_RUNTIME_ERROR is 2. -/
def Outcome.status : Outcome → Option Int
  | .exit status => some status
  | .ran (.value _) => some 0
  | .ran .abort => some 2
  | .ran _ => none

/-- The command fble-test: test/test.c:31-115 with no compiled module.  FbleLink (link.c:223-255) gives NULL if the program cannot be loaded or does not type check, and then the exit status is
EX_COMPILE_ERROR, 1.  The numbers `n` and `fuel` bound the type checker and the run. -/
inductive TestMain (sys : System) (e : Env) (n fuel : Nat) (args : List Arg) : Outcome → Prop where
  | exits {k s status} : Args.loop e Args.test k (start args) = some s → launch sys false s = .exit status → TestMain sys e n fuel args (.exit status)
  | notLoaded {k s roots path} : Args.loop e Args.test k (start args) = some s → launch sys false s = .run roots path → FbleLoad sys.files roots path none →
      TestMain sys e n fuel args (.exit 1)
  | rejected {k s roots path program} : Args.loop e Args.test k (start args) = some s → launch sys false s = .run roots path → FbleLoad sys.files roots path (some program) →
      Elab.tcProgram n (modules program) = .ok none → TestMain sys e n fuel args (.exit 1)
  | runs {k s roots path program tcs mds codes} : Args.loop e Args.test k (start args) = some s → launch sys false s = .run roots path → FbleLoad sys.files roots path (some program) →
      Elab.tcProgram n (modules program) = .ok (some tcs) → Elab.linkMods [] (modules program) tcs = some mds → Compile.compileAll mds = some codes →
      TestMain sys e n fuel args (.ran ((runMachine mds codes fuel).seen 0))

/-- A compiled program with FbleTestMain as its main function: test/test.c:31-115 with a compiled module.  `run` is how evaluating the compiled program ends. -/
inductive CompiledMain (sys : System) (e : Env) (run : Seen) (args : List Arg) : Outcome → Prop where
  | exits {k s status} : Args.loop e Args.test k (start args) = some s → launch sys true s = .exit status → CompiledMain sys e run args (.exit status)
  | runs {k s roots path} : Args.loop e Args.test k (start args) = some s → launch sys true s = .run roots path → CompiledMain sys e run args (.ran run)

/-! ### Specification -/

/-- The command ends as an evaluation with this result does: with status 0 if there is a value, and 2 if it is aborted; there is no other way to get an exit status. -/
structure EndsWith {F} (ends : Outcome → Prop) (result : Compile.Res F (Compile.Val F)) : Prop where
  only : ∃ o, ∀ o', ends o' ↔ o' = o
  value : (∃ o, ends o ∧ o.status = some 0) ↔ ∃ v s, result = .ok v s
  abort : (∃ o, ends o ∧ o.status = some 2) ↔ result = .abort
  other : ∀ o k, ends o → o.status = some k → k = 0 ∨ k = 2
  crash : ends (.ran .crash) ↔ result = .crash

/-! ### Proofs -/

theorem endsWith {F} {ends : Outcome → Prop} {result : Compile.Res F (Compile.Val F)} (h : ∀ o, ends o ↔ o = .ran (result.seen 0)) : EndsWith ends result where
  only := ⟨_, h⟩
  value := by
    simp only [h, exists_eq_left]
    cases result <;> simp [Res.seen, Outcome.status]
  abort := by
    simp only [h, exists_eq_left]
    cases result <;> simp [Res.seen, Outcome.status]
  other := by
    intro o k ho hk
    rw [(h o).mp ho] at hk
    cases result <;> simp [Res.seen, Outcome.status] at hk <;> omega
  crash := by
    rw [h]
    cases result <;> simp [Res.seen]

theorem TestMain.unique {sys : System} {e : Env} {n fuel args o o'} (h : TestMain sys e n fuel args o) (h' : TestMain sys e n fuel args o') : o = o' := by
  cases h with
  | exits h1 h2 =>
    cases h' with
    | exits g1 g2 => obtain rfl := loop_unique h1 g1; rw [h2] at g2; cases g2; rfl
    | notLoaded g1 g2 | rejected g1 g2 | runs g1 g2 => obtain rfl := loop_unique h1 g1; rw [h2] at g2; cases g2
  | notLoaded h1 h2 h3 =>
    cases h' with
    | exits g1 g2 => obtain rfl := loop_unique h1 g1; rw [h2] at g2; cases g2
    | notLoaded g1 g2 | rejected g1 g2 => rfl
    | runs g1 g2 g3 => obtain rfl := loop_unique h1 g1; rw [h2] at g2; cases g2; cases load_unique h3 g3
  | rejected h1 h2 h3 h4 =>
    cases h' with
    | exits g1 g2 => obtain rfl := loop_unique h1 g1; rw [h2] at g2; cases g2
    | notLoaded g1 g2 | rejected g1 g2 => rfl
    | runs g1 g2 g3 g4 =>
      obtain rfl := loop_unique h1 g1; rw [h2] at g2; cases g2; cases load_unique h3 g3
      rw [h4] at g4; cases g4
  | runs h1 h2 h3 h4 h5 h6 =>
    cases h' with
    | exits g1 g2 => obtain rfl := loop_unique h1 g1; rw [h2] at g2; cases g2
    | notLoaded g1 g2 g3 => obtain rfl := loop_unique h1 g1; rw [h2] at g2; cases g2; cases load_unique h3 g3
    | rejected g1 g2 g3 g4 =>
      obtain rfl := loop_unique h1 g1; rw [h2] at g2; cases g2; cases load_unique h3 g3
      rw [h4] at g4; cases g4
    | runs g1 g2 g3 g4 g5 g6 =>
      obtain rfl := loop_unique h1 g1; rw [h2] at g2; cases g2; cases load_unique h3 g3
      rw [h4] at g4; cases g4
      rw [h5] at g5; cases g5
      rw [h6] at g6; cases g6
      rfl

theorem CompiledMain.unique {sys : System} {e : Env} {run args o o'} (h : CompiledMain sys e run args o) (h' : CompiledMain sys e run args o') : o = o' := by
  cases h with
  | exits h1 h2 =>
    cases h' with
    | exits g1 g2 => obtain rfl := loop_unique h1 g1; rw [h2] at g2; cases g2; rfl
    | runs g1 g2 => obtain rfl := loop_unique h1 g1; rw [h2] at g2; cases g2
  | runs h1 h2 =>
    cases h' with
    | exits g1 g2 => obtain rfl := loop_unique h1 g1; rw [h2] at g2; cases g2
    | runs g1 g2 => rfl

theorem test_wf : Args.wf Args.test = true := by decide +kernel

theorem launch_same {sys : System} {linked : Bool} {s t : Args.St} (h : Args.Same s t) : launch sys linked s = launch sys linked t := by
  obtain ⟨h1, h2, -, h4, h5, h6⟩ := h
  simp only [launch, h1, h2, h4, h5, h6]

theorem launch_run {sys : System} {s : Args.St} (h0 : Args.stop s = false) {m} (hm : s.module = some m) (hp : ∀ f, s.strs "profile_file" = some f → sys.creatable (bytes f) = true) :
    launch sys false s = .run (s.search.map bytes) (pathOf m) := by
  obtain ⟨h1, h2, h3⟩ := not_stop.mp h0
  have : ¬ ((s.strs "profile_file").any fun f => !sys.creatable (bytes f)) = true := by
    cases hf : s.strs "profile_file" with
    | none => simp
    | some f => simp [hp f hf]
  simp only [launch, h1, h2, h3, hm, this]
  simp

/-- C94: options, one of which names a module; the program can be loaded and type checks; and the file for a profile can be created, if it is asked for.  Then the command evaluates the program, as the texts of
its modules say: the exit status is 0 if there is a value, and 2 if there is none because the evaluation is aborted. -/
theorem C94_runs {sys : System} {e : Env} {items : List Args.Item} (hi : ∀ i ∈ items, i.Of Args.test) (h0 : Args.stop (effects e items (start [])) = false)
    {m} (hm : (effects e items (start [])).module = some m) (hp : ∀ f, (effects e items (start [])).strs "profile_file" = some f → sys.creatable (bytes f) = true) {program}
    (hl : FbleLoad sys.files ((effects e items (start [])).search.map bytes) (pathOf m) (some program)) {n tcs}
    (htc : Elab.tcProgram n (modules program) = .ok (some tcs)) :
    ∃ ts, All2 Elab.ErasesModule (modules program) ts ∧ ((∀ t ∈ ts, t.Tables) → ∀ fuel,
      EndsWith (TestMain sys e n fuel (items.flatMap Args.Item.encode)) (runNamedProgram (((modules program).map (·.path)).zip ts) fuel)) := by
  have hne : modules program ≠ [] := by
    intro he
    have : program = [] := by simpa [modules] using he
    subst this
    simpa using (C70_loaded hl).1
  obtain ⟨ts, t1, t2⟩ := Elab.C60_program htc hne
  refine ⟨ts, t1, fun ht fuel => endsWith fun o => ?_⟩
  obtain ⟨mds, codes, g1, g2, g3⟩ := t2 ht
  obtain ⟨k, s, l1, l2⟩ := loop_all e test_wf hi
  have hlaunch := (launch_same (sys := sys) (linked := false) l2).trans (launch_run h0 hm hp)
  have := TestMain.runs (fuel := fuel) l1 hlaunch hl htc g1 g2
  rw [← (g3 fuel).2 0]
  exact ⟨fun ho => ho.unique this, fun he => he ▸ this⟩

/-- C94: the other ways to end, with their exit status: 0 after help or version; 3 for an option with an error, an argument that is not an option, or if no module is given; 4 if the file for the profile
cannot be created; 1 if the program cannot be loaded, or does not type check.  The program is not evaluated. -/
theorem C94_fails {sys : System} {e : Env} {items : List Args.Item} (hi : ∀ i ∈ items, i.Of Args.test) (n fuel : Nat) :
    let s := effects e items (start [])
    let ends := fun (rest : List Arg) (status : Int) => ∀ o, TestMain sys e n fuel (items.flatMap Args.Item.encode ++ rest) o ↔ o = .exit status
    (s.flags "version" = true ∨ s.flags "help" = true → ends [] 0) ∧
    (s.flags "version" = false → s.flags "help" = false → s.error = true → ends [] 3) ∧
    (Args.stop s = false →
      (∀ a as, ¬ Recognised Args.test a → ends (a :: as) 3) ∧
      (s.module = none → ends [] 3) ∧
      ∀ m, s.module = some m →
        (∀ f, s.strs "profile_file" = some f → sys.creatable (bytes f) = false → ends [] 4) ∧
        ((∀ f, s.strs "profile_file" = some f → sys.creatable (bytes f) = true) →
          (FbleLoad sys.files (s.search.map bytes) (pathOf m) none → ends [] 1) ∧
          ∀ program, FbleLoad sys.files (s.search.map bytes) (pathOf m) (some program) → Elab.tcProgram n (modules program) = .ok none → ends [] 1)) := by
  intro s ends
  have exits : ∀ {rest : List Arg} {status : Int}, TestMain sys e n fuel (items.flatMap Args.Item.encode ++ rest) (.exit status) → ends rest status :=
    fun h o => ⟨fun ho => ho.unique h, fun he => he ▸ h⟩
  obtain ⟨k, t, h1, h2⟩ := loop_all e test_wf hi
  rw [← List.append_nil (items.flatMap Args.Item.encode)] at h1
  have hl : launch sys false t = launch sys false s := launch_same h2
  refine ⟨fun h => exits (.exits h1 (hl.trans ?_)), fun hv hh he => exits (.exits h1 (hl.trans ?_)), fun h0 => ?_⟩
  · unfold launch
    rcases h with h | h
    · rw [if_pos h]
    · split
      · rfl
      · rfl
  · simp [launch, hv, hh, he]
  · obtain ⟨f1, f2, f3⟩ := not_stop.mp h0
    refine ⟨fun a as ha => ?_, fun hm => exits (.exits h1 (hl.trans ?_)), fun m hm => ⟨fun f hf hc => exits (.exits h1 (hl.trans ?_)), fun hp => ⟨fun hld => ?_, fun program hld htc => ?_⟩⟩⟩
    · have hsame : Args.Same (effects e items (start (items.flatMap Args.Item.encode ++ a :: as))) s := Args.effects_same e items ⟨rfl, rfl, rfl, rfl, rfl, rfl⟩
      obtain ⟨k, r, r1, r2, -, r4⟩ := (Args.C48_rest e test_wf items hi (start (items.flatMap Args.Item.encode ++ a :: as)) rfl a as ha rfl (by rw [hsame.stop]; exact h0)).1 (by decide)
      refine exits (.exits r1 ?_)
      obtain ⟨g1, -, -, -, -, -⟩ := hsame
      obtain ⟨q1, -, -, -, -, -⟩ := r4
      simp only at q1
      rw [g1] at q1
      simp [launch, q1, f1, f2, r2]
    · simp [launch, f1, f2, f3, hm]
    · simp [launch, f1, f2, f3, hm, hf, hc]
    · exact exits (.notLoaded h1 (hl.trans (launch_run h0 hm hp)) hld)
    · exact exits (.rejected h1 (hl.trans (launch_run h0 hm hp)) hld htc)

/-- C94, a compiled program: the same options can be given, but for the module.  `run` is how evaluating the compiled program ends (`C94_same`). -/
theorem C94_compiled (sys : System) (e : Env) (run : Seen) {items : List Args.Item} (hi : ∀ i ∈ items, i.Of Args.test) :
    let s := effects e items (start [])
    let ends := fun (rest : List Arg) (o : Outcome) => ∀ o', CompiledMain sys e run (items.flatMap Args.Item.encode ++ rest) o' ↔ o' = o
    (s.flags "version" = true ∨ s.flags "help" = true → ends [] (.exit 0)) ∧
    (s.flags "version" = false → s.flags "help" = false → s.error = true → ends [] (.exit 3)) ∧
    (Args.stop s = false →
      (∀ a as, ¬ Recognised Args.test a → ends (a :: as) (.exit 3)) ∧
      (s.module ≠ none → ends [] (.exit 3)) ∧
      (s.module = none →
        (∀ f, s.strs "profile_file" = some f → sys.creatable (bytes f) = false → ends [] (.exit 4)) ∧
        ((∀ f, s.strs "profile_file" = some f → sys.creatable (bytes f) = true) → ends [] (.ran run)))) := by
  intro s ends
  have only : ∀ {rest o}, CompiledMain sys e run (items.flatMap Args.Item.encode ++ rest) o → ends rest o := fun h o => ⟨fun ho => ho.unique h, fun he => he ▸ h⟩
  obtain ⟨k, t, h1, h2⟩ := loop_all e test_wf hi
  rw [← List.append_nil (items.flatMap Args.Item.encode)] at h1
  have hl : launch sys true t = launch sys true s := launch_same h2
  refine ⟨fun h => only (.exits h1 (hl.trans ?_)), fun hv hh he => only (.exits h1 (hl.trans ?_)), fun h0 => ?_⟩
  · unfold launch
    rcases h with h | h
    · rw [if_pos h]
    · split
      · rfl
      · rfl
  · simp [launch, hv, hh, he]
  · obtain ⟨f1, f2, f3⟩ := not_stop.mp h0
    refine ⟨fun a as ha => ?_, fun hm => only (.exits h1 (hl.trans ?_)), fun hm => ⟨fun f hf hc => only (.exits h1 (hl.trans ?_)), fun hp => ?_⟩⟩
    · have hsame : Args.Same (effects e items (start (items.flatMap Args.Item.encode ++ a :: as))) s := Args.effects_same e items ⟨rfl, rfl, rfl, rfl, rfl, rfl⟩
      obtain ⟨k, r, r1, r2, -, r4⟩ := (Args.C48_rest e test_wf items hi (start (items.flatMap Args.Item.encode ++ a :: as)) rfl a as ha rfl (by rw [hsame.stop]; exact h0)).1 (by decide)
      refine only (.exits r1 ?_)
      obtain ⟨g1, -, -, -, -, -⟩ := hsame
      obtain ⟨q1, -, -, -, -, -⟩ := r4
      simp only at q1
      rw [g1] at q1
      simp [launch, q1, f1, f2, r2]
    · cases hs : s.module with
      | none => exact absurd hs hm
      | some m => simp [launch, f1, f2, f3, hs]
    · simp [launch, f1, f2, f3, hm, hf, hc]
    · have hno : ¬ ((s.strs "profile_file").any fun f => !sys.creatable (bytes f)) = true := by
        cases hf : s.strs "profile_file" with
        | none => simp
        | some f => simp [hp f hf]
      have hr : launch sys true s = .run (s.search.map bytes) (pathOf []) := by
        simp only [launch, f1, f2, f3, hm, hno]
        simp
      exact only (.runs h1 (hl.trans hr))

/-! ### A plain command line -/

/-- The options `-I d1 .. -I dk -m a`. -/
def plainArgs (dirs : List Arg) (a : Arg) : List Arg := dirs.flatMap (fun d => ["-I".toList, d]) ++ ["-m".toList, a]

theorem plain_items (dirs : List Arg) (a : Arg) : ∀ i ∈ dirs.map Args.Item.incl ++ [.module false a], i.Of Args.test := by
  intro i hi
  rcases List.mem_append.mp hi with hi | hi
  · obtain ⟨d, -, rfl⟩ := List.mem_map.mp hi
    simp [Args.Item.Of, Args.test, Args.helpVersion]
  · obtain rfl := List.mem_singleton.mp hi
    simp [Args.Item.Of, Args.test, Args.helpVersion]

theorem plain_args (dirs : List Arg) (a : Arg) : (dirs.map Args.Item.incl ++ [Args.Item.module false a]).flatMap Args.Item.encode = plainArgs dirs a := by
  simp [List.flatMap_map, Args.Item.encode, plainArgs]

/-- C94: `fble-test -I d1 .. -I dk -m /a/b%`: if the module /a/b%, and those it refers to, are found in these directories and type check, then the command ends as their texts say. -/
theorem C94_command {sys : System} {e : Env} (he : Looks sys e) (dirs : List Arg) {p : Path} (hp : p ≠ [] ∧ ∀ n ∈ p, n.space = .normal ∧ n.str ≠ [] ∧ ∀ b ∈ n.str, Text.Spec.WordChar b ∧ b ≠ 0xFF)
    {a : Arg} (ha : bytes a = Text.printPath p) {program} (hl : FbleLoad sys.files (dirs.map bytes) p (some program)) {n tcs} (htc : Elab.tcProgram n (modules program) = .ok (some tcs)) :
    (∀ m ∈ program, ∃ f text s rest, FileOf sys.files (dirs.map bytes) m.1 f ∧ sys.files.read f = some text ∧ (∃ ts r, Text.Spec.Lexes text ts r ∧ Parses ts s rest) ∧ s.ast = some m.2.2) ∧
    ∃ ts, All2 Elab.ErasesModule (modules program) ts ∧ ((∀ t ∈ ts, t.Tables) → ∀ fuel,
      EndsWith (TestMain sys e n fuel (dirs.flatMap (fun d => ["-I".toList, d]) ++ ["-m".toList, a])) (runNamedProgram (((modules program).map (·.path)).zip ts) fuel)) := by
  refine ⟨fun m hm => ?_, ?_⟩
  · obtain ⟨f, text, s, rest, h1, h2, h3, h4, -⟩ := (C70_loaded hl).2.2.1 m hm
    exact ⟨f, text, s, rest, h1, h2, h3, h4⟩
  obtain ⟨m, h2, heff⟩ := plain he dirs hp ha
  obtain ⟨ts, t1, t2⟩ := C94_runs (sys := sys) (e := e) (plain_items dirs a) (by rw [heff]; rfl) (m := m) (by rw [heff]) (by rw [heff]; intro f hf; cases hf) (program := program)
    (by rw [heff, h2]; exact hl) htc
  rw [plain_args] at t2
  exact ⟨ts, t1, t2⟩

/-- C94: the same for the program compiled, without arguments, by either compiler, unless an assertion fails when it is interpreted. -/
theorem C94_same {sys : System} {e : Env} (he : Looks sys e) (dirs : List Arg) {p : Path} (hp : p ≠ [] ∧ ∀ n ∈ p, n.space = .normal ∧ n.str ≠ [] ∧ ∀ b ∈ n.str, Text.Spec.WordChar b ∧ b ≠ 0xFF)
    {a : Arg} (ha : bytes a = Text.printPath p) {program} (hl : FbleLoad sys.files (dirs.map bytes) p (some program)) {n tcs} (htc : Elab.tcProgram n (modules program) = .ok (some tcs)) (sg : Bool) :
    ∃ ts, All2 Elab.ErasesModule (modules program) ts ∧ ((∀ t ∈ ts, t.Tables) → ∃ mds, Elab.linkMods [] (modules program) tcs = some mds ∧ ∀ names locs, All2 (Backend.NamesFor sg) mds names →
      ∃ cmods amods, Backend.compileC sg mds names = some cmods ∧ Backend.compileA sg mds names locs = some amods ∧
      ∀ fuel, ¬ TestMain sys e n fuel (plainArgs dirs a) (.ran .crash) → ∀ o,
        (CompiledMain sys e ((Backend.runCProgram mds cmods fuel).seen 0) [] o ↔ TestMain sys e n fuel (plainArgs dirs a) o) ∧
        ∀ profiling, (CompiledMain sys e ((Backend.runAProgram mds amods profiling fuel).seen 0) [] o ↔ TestMain sys e n fuel (plainArgs dirs a) o)) := by
  have hne : modules program ≠ [] := by
    intro he
    have : program = [] := by simpa [modules] using he
    subst this
    simpa using (C70_loaded hl).1
  obtain ⟨ts, mds, k1, k2, k3⟩ := Elab.tcProgram_ok htc
  refine ⟨ts, k3.erases, fun ht => ⟨mds, k1, fun names locs hn => ?_⟩⟩
  obtain ⟨codes, g1, g2⟩ := Compile.C13_compiled_program (Host.mods_ne k3 hne) (k3.progOk ht)
  obtain ⟨cmods, e1, e2⟩ := Backend.C62_c_program (Host.mods_ne k3 hne) (k3.progOk ht) hn
  obtain ⟨amods, f1, f2⟩ := Backend.C64_a64_program locs (Host.mods_ne k3 hne) (k3.progOk ht) hn
  refine ⟨cmods, amods, e1, f1, fun fuel hcrash o => ?_⟩
  obtain ⟨m, h2, heff⟩ := plain he dirs hp ha
  obtain ⟨k, s, l1, l2⟩ := loop_all e test_wf (plain_items dirs a)
  have hlaunch : launch sys false s = .run (dirs.map bytes) p := by
    rw [launch_same l2, launch_run (m := m) (by rw [heff]; rfl) (by rw [heff]) (by rw [heff]; intro f hf; cases hf), heff, h2]
  rw [plain_args] at l1
  have hrun : ∀ o, TestMain sys e n fuel (plainArgs dirs a) o ↔ o = .ran ((runMachine mds codes fuel).seen 0) := by
    intro o
    have := TestMain.runs (fuel := fuel) l1 hlaunch hl htc k1 g1
    exact ⟨fun ho => ho.unique this, fun he => he ▸ this⟩
  have hcr : Compile.runProgram mds fuel ≠ .crash := by
    intro hc
    refine hcrash ((hrun _).mpr ?_)
    rw [(g2 fuel).1 0, hc]
    rfl
  have hcomp : ∀ run, CompiledMain sys e run [] o ↔ o = .ran run := by
    intro run
    have := (C94_compiled sys e run (items := []) (by simp)).2.2 rfl |>.2.2 rfl |>.2 (by intro f hf; cases hf)
    exact this o
  refine ⟨?_, fun profiling => ?_⟩
  · rw [hcomp, hrun, (e2 fuel hcr).1 0, (g2 fuel).1 0]
  · rw [hcomp, hrun, (f2 profiling fuel hcr).1 0, (g2 fuel).1 0]

/-- C94: with a program without polymorphic definitions, no assertion fails and nothing is accessed that is not there. -/
theorem C94_safe {sys : System} {e : Env} (he : Looks sys e) (dirs : List Arg) {p : Path} (hp : p ≠ [] ∧ ∀ n ∈ p, n.space = .normal ∧ n.str ≠ [] ∧ ∀ b ∈ n.str, Text.Spec.WordChar b ∧ b ≠ 0xFF)
    {a : Arg} (ha : bytes a = Text.printPath p) {program} (hl : FbleLoad sys.files (dirs.map bytes) p (some program)) {n tcs} (htc : Elab.tcProgram n (modules program) = .ok (some tcs))
    (hm : Elab.Monomorphic n (modules program)) :
    ∃ ts, All2 Elab.ErasesModule (modules program) ts ∧ ((∀ t ∈ ts, t.Tables) → ∀ fuel o,
      TestMain sys e n fuel (dirs.flatMap (fun d => ["-I".toList, d]) ++ ["-m".toList, a]) o → o ≠ .ran .crash ∧ o ≠ .ran .wild) := by
  have hne : modules program ≠ [] := by
    intro he
    have : program = [] := by simpa [modules] using he
    subst this
    simpa using (C70_loaded hl).1
  obtain ⟨ts, t1, t2⟩ := Elab.C61_program htc hne hm
  refine ⟨ts, t1, fun ht fuel o ho => ?_⟩
  obtain ⟨mds, codes, g1, g2, g3⟩ := t2 ht
  obtain ⟨m, h2, heff⟩ := plain he dirs hp ha
  obtain ⟨k, s, l1, l2⟩ := loop_all e test_wf (plain_items dirs a)
  have hlaunch : launch sys false s = .run (dirs.map bytes) p := by
    rw [launch_same l2, launch_run (m := m) (by rw [heff]; rfl) (by rw [heff]) (by rw [heff]; intro f hf; cases hf), heff, h2]
  rw [plain_args] at l1
  obtain rfl := ho.unique (TestMain.runs (fuel := fuel) l1 hlaunch hl htc g1 g2)
  obtain ⟨q1, q2⟩ := g3 fuel
  generalize runMachine mds codes fuel = r at q1 q2
  cases r <;> simp [Res.seen] <;> first | exact q1 rfl | exact q2 rfl

/-! ### Examples -/

namespace Example

/-- `fble-test -I old -I src -m /Main%` with the files of `Whole.Example`, and what becomes of the same with a profile file that cannot be created, and without the module. -/
example : ∃ e ts, Looks Whole.Example.sys e ∧
    (∀ fuel, EndsWith (TestMain Whole.Example.sys e 20 fuel (plainArgs ["old".toList, "src".toList] "/Main%".toList)) (runNamedProgram (((modules Whole.Example.program).map (·.path)).zip ts) fuel)) ∧
    (∀ fuel o, TestMain Whole.Example.sys e 20 fuel ["-I".toList, "old".toList] o ↔ o = .exit 3) ∧
    (∀ fuel o, TestMain Whole.Example.sys e 20 fuel ["-I".toList, "old".toList, "main.fble".toList] o ↔ o = .exit 3) := by
  obtain ⟨e, he⟩ := looks_exists Whole.Example.sys
  obtain ⟨tcs, htc⟩ := Whole.Example.checked
  obtain ⟨-, ts, t1, t2⟩ := C94_command he ["old".toList, "src".toList] (p := Whole.Example.mainPath) ⟨by decide, by decide +kernel⟩ (a := "/Main%".toList) (by decide +kernel)
    (program := Whole.Example.program) Whole.Example.loaded htc
  have hi : ∀ i ∈ [Args.Item.incl "old".toList], i.Of Args.test := by
    intro i hi
    obtain rfl := List.mem_singleton.mp hi
    simp [Args.Item.Of, Args.test, Args.helpVersion]
  refine ⟨e, ts, he, fun fuel => t2 (Whole.Example.tables t1) fuel, fun fuel => ?_, fun fuel => ?_⟩
  · exact ((C94_fails (sys := Whole.Example.sys) (e := e) hi 20 fuel).2.2 rfl).2.1 rfl
  · refine ((C94_fails (sys := Whole.Example.sys) (e := e) hi 20 fuel).2.2 rfl).1 "main.fble".toList [] ?_
    rintro ⟨p, hp, hq⟩
    simp only [Args.test, Args.helpVersion, List.cons_append, List.nil_append, List.mem_cons, List.not_mem_nil, or_false] at hp
    rcases hp with rfl | rfl | rfl | rfl | rfl | rfl | rfl <;> exact absurd hq (by decide)

end Example

end Verif.Whole.Test
