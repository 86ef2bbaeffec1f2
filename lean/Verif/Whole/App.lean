import Verif.Whole.Stdio
import Verif.Host.AppSafe
/-
C91: the command fble-app and the programs compiled for it, from the command line to the exit status.

The model puts together those of options (`Args`), of FbleLoad (`Whole.Source`), of the type checker, and of an app (`Host.App`), as `Whole.Stdio` does for fble-stdio.
-/
namespace Verif.Whole.App
open Parse
open Text (Str Byte ch Path)
open Args (Arg Env Recognised effects)
open Host (World AppWorld SdlEvent Ended ended exitStatus appHost namedProcess interpretedProcess)

/-- What the command finds when it is started: what fble-stdio does, the events that come, and the size of the window if SDL can be initialised with the driver asked for, if any. -/
structure Desktop extends System where
  events : List SdlEvent
  display : Option Str → Option (Int32 × Int32)

/-- The outside of the app. -/
def Desktop.outside (sys : Desktop) : AppWorld := ⟨sys.world, sys.events⟩

/-- pkgs/app/app.c:430-468: the variables after the options are parsed.  `linked` says whether there is a compiled module, as FbleAppMain then goes straight to the arguments of
the program if there is no `--`. -/
def Options (e : Env) (linked : Bool) (argv0 : Arg) (args : List Arg) (s : Args.St) : Prop :=
  if linked ∧ "--".toList ∉ argv0 :: args then s = start args
  else ∃ k, Args.loop e (if linked then Args.appLinked else Args.app) k (start args) = some s

/-- What follows the options. -/
inductive Launch where
  | exit (status : Int)
  | run (roots : List Str) (module : Path) (driver : Option Str) (args : List (List Nat))

/-- pkgs/app/app.c:470-506 and 510: EX_SUCCESS is 0, EX_USAGE is 2, EX_FAILURE is 3.  For a compiled module there is no search path and no module path. -/
def launch (sys : Desktop) (linked : Bool) (s : Args.St) : Launch :=
  if s.flags "version" then .exit 0
  else if s.flags "help" then .exit 0
  else if s.error then .exit 2
  else if !linked && s.module.isNone then .exit 2
  else if (s.strs "profile_file").any fun f => !sys.creatable (bytes f) then .exit 3
  else .run (s.search.map bytes) (pathOf (s.module.getD [])) ((s.strs "driver").map bytes) (s.args.map fun a => (bytes a).map UInt8.toNat)

/-- How the command ends: before the program is run; after its main value is computed, as there is no display; or after it is run. -/
inductive Outcome where
  | exit (status : Int)
  | noDisplay (e : Ended)
  | ran (e : Ended)

/-- What FbleAppMain returns, if it does: pkgs/app/app.c:518-522, 529-543, 602-608 and 624-627. -/
def Outcome.status : Outcome → Option Int
  | .exit status => some status
  | .noDisplay (.value _ _) => some 3
  | .noDisplay e => exitStatus e
  | .ran e => exitStatus e

/-- FbleAppMain without a display: the main value is computed (pkgs/app/app.c:516), and not used. -/
def evalOnly : Host.Program := fun _ => .finish 0

/-- FbleAppMain from FbleEval on, pkgs/app/app.c:516-637: SDL_Init comes after it.  `run` says how a C program that uses the fble program ends. -/
def finish (sys : Desktop) (run : Host.Program → Ended) (driver : Option Str) (args : List (List Nat)) : Outcome :=
  match sys.display driver with
  | none => .noDisplay (run evalOnly)
  | some (width, height) => .ran (run (appHost width height args))

/-- The command fble-app: pkgs/app/app.c:419-649 with no compiled module.  FbleLink (link.c:223-255) gives NULL if the program cannot be loaded or does not type check.
The numbers `n`, `steps` and `fuel` bound the type checker and the run, and `depth` how much of the result is looked at. -/
inductive AppMain (sys : Desktop) (e : Env) (n steps fuel depth : Nat) (argv0 : Arg) (args : List Arg) : Outcome → Prop where
  | exits {s status} : Options e false argv0 args s → launch sys false s = .exit status → AppMain sys e n steps fuel depth argv0 args (.exit status)
  | notLoaded {s roots path driver rest} : Options e false argv0 args s → launch sys false s = .run roots path driver rest → FbleLoad sys.files roots path none →
      AppMain sys e n steps fuel depth argv0 args (.exit 3)
  | rejected {s roots path driver rest program} : Options e false argv0 args s → launch sys false s = .run roots path driver rest → FbleLoad sys.files roots path (some program) →
      Elab.tcProgram n (modules program) = .ok none → AppMain sys e n steps fuel depth argv0 args (.exit 3)
  | runs {s roots path driver rest program tcs mds codes} : Options e false argv0 args s → launch sys false s = .run roots path driver rest → FbleLoad sys.files roots path (some program) →
      Elab.tcProgram n (modules program) = .ok (some tcs) → Elab.linkMods [] (modules program) tcs = some mds → Compile.compileAll mds = some codes →
      AppMain sys e n steps fuel depth argv0 args (finish sys (fun host => ended depth (interpretedProcess mds codes host steps fuel sys.outside.outside)) driver rest)

/-- A compiled program with FbleAppMain as its main function: pkgs/app/app.c:419-649 with a compiled module.  `run` is how a C program that uses the compiled program ends. -/
inductive CompiledMain (sys : Desktop) (e : Env) (run : Host.Program → Ended) (argv0 : Arg) (args : List Arg) : Outcome → Prop where
  | exits {s status} : Options e true argv0 args s → launch sys true s = .exit status → CompiledMain sys e run argv0 args (.exit status)
  | runs {s roots path driver rest} : Options e true argv0 args s → launch sys true s = .run roots path driver rest → CompiledMain sys e run argv0 args (finish sys run driver rest)

/-! ### Specification -/

/-- The program is run as `run` says in this window, or its main value is computed and the exit status is 3 if there is no window. -/
def EndsAs (sys : Desktop) (run : Host.Program → Ended) (driver : Option Str) (args : List (List Nat)) (o : Outcome) : Prop :=
  (∃ width height, sys.display driver = some (width, height) ∧ o = .ran (run (appHost width height args))) ∨ (sys.display driver = none ∧ o = .noDisplay (run evalOnly))

/-! ### Proofs -/

theorem finish_iff {sys : Desktop} {run driver args o} : o = finish sys run driver args ↔ EndsAs sys run driver args o := by
  unfold finish EndsAs
  cases hd : sys.display driver with
  | none => simp
  | some wh =>
    obtain ⟨w, h⟩ := wh
    simp only [Option.some.injEq, Prod.mk.injEq, reduceCtorEq, false_and, or_false]
    constructor
    · rintro rfl; exact ⟨w, h, ⟨rfl, rfl⟩, rfl⟩
    · rintro ⟨_, _, ⟨rfl, rfl⟩, rfl⟩; rfl

/-- Without a display the exit status is 3, if the computation of the main value ends. -/
theorem noDisplay_status {ev : Ended} {k : Int} (h : (Outcome.noDisplay ev).status = some k) : k = 3 := by
  cases ev with
  | value o c => simp [Outcome.status] at h; exact h.symm
  | abort => simp [Outcome.status, exitStatus] at h; exact h.symm
  | _ => simp [Outcome.status, exitStatus] at h

theorem Options.unique {e : Env} {linked argv0 args s s'} (h : Options e linked argv0 args s) (h' : Options e linked argv0 args s') : s = s' := by
  unfold Options at h h'
  split at h
  · rename_i hc
    rw [if_pos hc] at h'
    rw [h, h']
  · rename_i hc
    rw [if_neg hc] at h'
    obtain ⟨k, h⟩ := h
    obtain ⟨k', h'⟩ := h'
    have a := loop_mono (Nat.le_max_left k k') h
    rw [loop_mono (Nat.le_max_right k k') h'] at a
    exact (Option.some.inj a).symm

/-- The command ends in only one way. -/
theorem AppMain.unique {sys : Desktop} {e : Env} {n steps fuel depth argv0 args o o'} (h : AppMain sys e n steps fuel depth argv0 args o)
    (h' : AppMain sys e n steps fuel depth argv0 args o') : o = o' := by
  cases h with
  | exits h1 h2 =>
    cases h' with
    | exits g1 g2 => obtain rfl := h1.unique g1; rw [h2] at g2; cases g2; rfl
    | notLoaded g1 g2 | rejected g1 g2 | runs g1 g2 => obtain rfl := h1.unique g1; rw [h2] at g2; cases g2
  | notLoaded h1 h2 h3 =>
    cases h' with
    | exits g1 g2 => obtain rfl := h1.unique g1; rw [h2] at g2; cases g2
    | notLoaded g1 g2 | rejected g1 g2 => rfl
    | runs g1 g2 g3 => obtain rfl := h1.unique g1; rw [h2] at g2; cases g2; cases load_unique h3 g3
  | rejected h1 h2 h3 h4 =>
    cases h' with
    | exits g1 g2 => obtain rfl := h1.unique g1; rw [h2] at g2; cases g2
    | notLoaded g1 g2 | rejected g1 g2 => rfl
    | runs g1 g2 g3 g4 =>
      obtain rfl := h1.unique g1; rw [h2] at g2; cases g2; cases load_unique h3 g3
      rw [h4] at g4; cases g4
  | runs h1 h2 h3 h4 h5 h6 =>
    cases h' with
    | exits g1 g2 => obtain rfl := h1.unique g1; rw [h2] at g2; cases g2
    | notLoaded g1 g2 g3 => obtain rfl := h1.unique g1; rw [h2] at g2; cases g2; cases load_unique h3 g3
    | rejected g1 g2 g3 g4 =>
      obtain rfl := h1.unique g1; rw [h2] at g2; cases g2; cases load_unique h3 g3
      rw [h4] at g4; cases g4
    | runs g1 g2 g3 g4 g5 g6 =>
      obtain rfl := h1.unique g1; rw [h2] at g2; cases g2; cases load_unique h3 g3
      rw [h4] at g4; cases g4
      rw [h5] at g5; cases g5
      rw [h6] at g6; cases g6
      rfl

theorem CompiledMain.unique {sys : Desktop} {e : Env} {run argv0 args o o'} (h : CompiledMain sys e run argv0 args o) (h' : CompiledMain sys e run argv0 args o') : o = o' := by
  cases h with
  | exits h1 h2 =>
    cases h' with
    | exits g1 g2 => obtain rfl := h1.unique g1; rw [h2] at g2; cases g2; rfl
    | runs g1 g2 => obtain rfl := h1.unique g1; rw [h2] at g2; cases g2
  | runs h1 h2 =>
    cases h' with
    | exits g1 g2 => obtain rfl := h1.unique g1; rw [h2] at g2; cases g2
    | runs g1 g2 => obtain rfl := h1.unique g1; rw [h2] at g2; cases g2; rfl

theorem app_wf : Args.wf Args.app = true ∧ Args.app.endOfOptions = true ∧ Args.P.invalid ∉ Args.app.lines := ⟨by decide +kernel, rfl, by decide⟩

theorem appLinked_wf : Args.wf Args.appLinked = true ∧ Args.appLinked.endOfOptions = true ∧ Args.P.invalid ∉ Args.appLinked.lines := ⟨by decide +kernel, rfl, by decide⟩

theorem launch_run {sys : Desktop} {s : Args.St} (h0 : Args.stop s = false) {m} (hm : s.module = some m) (hp : ∀ f, s.strs "profile_file" = some f → sys.creatable (bytes f) = true) :
    launch sys false s = .run (s.search.map bytes) (pathOf m) ((s.strs "driver").map bytes) (s.args.map fun a => (bytes a).map UInt8.toNat) := by
  obtain ⟨h1, h2, h3⟩ := not_stop.mp h0
  have : ¬ ((s.strs "profile_file").any fun f => !sys.creatable (bytes f)) = true := by
    cases hf : s.strs "profile_file" with
    | none => simp
    | some f => simp [hp f hf]
  simp only [launch, h1, h2, h3, hm, this]
  simp

theorem run_options {sys : Desktop} {e : Env} {items : List Args.Item} (hi : ∀ i ∈ items, i.Of Args.app) {rest : List Arg} (hr : Ends Args.app rest)
    (h0 : Args.stop (effects e items (start [])) = false) {m} (hm : (effects e items (start [])).module = some m)
    (hp : ∀ f, (effects e items (start [])).strs "profile_file" = some f → sys.creatable (bytes f) = true) (argv0 : Arg) :
    ∃ s, Options e false argv0 (items.flatMap Args.Item.encode ++ rest) s ∧
      launch sys false s = .run ((effects e items (start [])).search.map bytes) (pathOf m) (((effects e items (start [])).strs "driver").map bytes) (given rest) := by
  obtain ⟨k, s, h1, h2, h3⟩ := loop_given e app_wf.1 app_wf.2.1 app_wf.2.2 hi hr (.inr h0)
  have hs : Args.stop s = false := by rw [h2.stop]; exact h0
  refine ⟨s, ⟨k, h1⟩, ?_⟩
  obtain ⟨-, g2, -, g4, g5, -⟩ := h2
  rw [launch_run hs (g5.trans hm) (fun f hf => hp f (by rw [← g2]; exact hf)), g4, g2, h3 hs]

theorem runs_interpreted {sys : Desktop} {e : Env} {items : List Args.Item} (hi : ∀ i ∈ items, i.Of Args.app) {rest : List Arg} (hr : Ends Args.app rest)
    (h0 : Args.stop (effects e items (start [])) = false) {m} (hm : (effects e items (start [])).module = some m)
    (hp : ∀ f, (effects e items (start [])).strs "profile_file" = some f → sys.creatable (bytes f) = true) {program}
    (hl : FbleLoad sys.files ((effects e items (start [])).search.map bytes) (pathOf m) (some program)) {n tcs}
    (htc : Elab.tcProgram n (modules program) = .ok (some tcs)) (argv0 : Arg) {mds codes} (g1 : Elab.linkMods [] (modules program) tcs = some mds) (g2 : Compile.compileAll mds = some codes) (steps fuel depth : Nat) (o : Outcome) :
    AppMain sys e n steps fuel depth argv0 (items.flatMap Args.Item.encode ++ rest) o ↔
      o = finish sys (fun host => ended depth (interpretedProcess mds codes host steps fuel sys.outside.outside)) (((effects e items (start [])).strs "driver").map bytes) (given rest) := by
  obtain ⟨s, h1, h2⟩ := run_options (sys := sys) hi hr h0 hm hp argv0
  have hrun := AppMain.runs (steps := steps) (fuel := fuel) (depth := depth) h1 h2 hl htc g1 g2
  exact ⟨fun ho => ho.unique hrun, fun he => he ▸ hrun⟩

/-- C91: options that give a module and a search path, with or without a profile, then arguments for the program: if the modules are found and type check, then their texts are programs, and the
command ends as the last of them says, given these arguments. -/
theorem C91_runs {sys : Desktop} {e : Env} {items : List Args.Item} (hi : ∀ i ∈ items, i.Of Args.app) {rest : List Arg} (hr : Ends Args.app rest)
    (h0 : Args.stop (effects e items (start [])) = false) {m} (hm : (effects e items (start [])).module = some m)
    (hp : ∀ f, (effects e items (start [])).strs "profile_file" = some f → sys.creatable (bytes f) = true) {program}
    (hl : FbleLoad sys.files ((effects e items (start [])).search.map bytes) (pathOf m) (some program)) {n tcs}
    (htc : Elab.tcProgram n (modules program) = .ok (some tcs)) (argv0 : Arg) :
    ∃ ts, All2 Elab.ErasesModule (modules program) ts ∧ ((∀ t ∈ ts, t.Tables) → ∀ steps fuel depth o,
      AppMain sys e n steps fuel depth argv0 (items.flatMap Args.Item.encode ++ rest) o ↔
        EndsAs sys (fun host => ended depth (namedProcess (((modules program).map (·.path)).zip ts) host steps fuel (AppWorld.mk sys.world sys.events).outside)) (((effects e items (start [])).strs "driver").map bytes) (given rest) o) := by
  change ∃ ts, All2 Elab.ErasesModule (modules program) ts ∧ ((∀ t ∈ ts, t.Tables) → ∀ steps fuel depth o,
      AppMain sys e n steps fuel depth argv0 (items.flatMap Args.Item.encode ++ rest) o ↔
        EndsAs sys (fun host => ended depth (namedProcess (((modules program).map (·.path)).zip ts) host steps fuel sys.outside.outside)) (((effects e items (start [])).strs "driver").map bytes) (given rest) o)
  have hne : modules program ≠ [] := by
    intro he
    have : program = [] := by simpa [modules] using he
    subst this
    simpa using (C70_loaded hl).1
  obtain ⟨ts, t1, t2⟩ := Host.C77_interpreted htc hne
  refine ⟨ts, t1, fun ht steps fuel depth o => ?_⟩
  obtain ⟨mds, codes, g1, g2, g3⟩ := t2 ht
  rw [runs_interpreted hi hr h0 hm hp hl htc argv0 g1 g2, ← finish_iff]
  have : (fun host => ended depth (interpretedProcess mds codes host steps fuel sys.outside.outside)) =
      fun host => ended depth (namedProcess (((modules program).map (·.path)).zip ts) host steps fuel sys.outside.outside) := funext fun host => by rw [(g3 host steps fuel).1]
  rw [this]

/-- C91: the other ways to end, with their exit status: 0 after help or version; 2 for an option with an error, or if no module is given; 3 if the file for the profile cannot be created,
the program cannot be loaded, or does not type check.  The program is not run. -/
theorem C91_fails {sys : Desktop} {e : Env} {items : List Args.Item} (hi : ∀ i ∈ items, i.Of Args.app) (argv0 : Arg) (n steps fuel depth : Nat) :
    let s := effects e items (start [])
    let ends := fun (rest : List Arg) (status : Int) => ∀ o, AppMain sys e n steps fuel depth argv0 (items.flatMap Args.Item.encode ++ rest) o ↔ o = .exit status
    (s.flags "version" = true ∨ s.flags "help" = true → ends [] 0) ∧
    (s.flags "version" = false → s.flags "help" = false → s.error = true → ends [] 2) ∧
    (Args.stop s = false → ∀ rest, Ends Args.app rest →
      (s.module = none → ends rest 2) ∧
      ∀ m, s.module = some m →
        (∀ f, s.strs "profile_file" = some f → sys.creatable (bytes f) = false → ends rest 3) ∧
        ((∀ f, s.strs "profile_file" = some f → sys.creatable (bytes f) = true) →
          (FbleLoad sys.files (s.search.map bytes) (pathOf m) none → ends rest 3) ∧
          ∀ program, FbleLoad sys.files (s.search.map bytes) (pathOf m) (some program) → Elab.tcProgram n (modules program) = .ok none → ends rest 3)) := by
  intro s ends
  have exits : ∀ {rest : List Arg} {status : Int}, AppMain sys e n steps fuel depth argv0 (items.flatMap Args.Item.encode ++ rest) (.exit status) → ends rest status :=
    fun h o => ⟨fun ho => ho.unique h, fun he => he ▸ h⟩
  refine ⟨fun h => ?_, fun hv hh he => ?_, fun h0 rest hr => ⟨fun hm => ?_, fun m hm => ⟨fun f hf hc => ?_, fun hp => ⟨fun hl => ?_, fun program hl htc => ?_⟩⟩⟩⟩
  · obtain ⟨k, t, h1, h2, -⟩ := loop_given e app_wf.1 app_wf.2.1 app_wf.2.2 hi (rest := []) trivial (.inl rfl)
    refine exits (.exits (s := t) ⟨k, h1⟩ ?_)
    unfold launch
    rw [h2.1]
    rcases h with h | h
    · rw [if_pos h]
    · split
      · rfl
      · rfl
  · obtain ⟨k, t, h1, h2, -⟩ := loop_given e app_wf.1 app_wf.2.1 app_wf.2.2 hi (rest := []) trivial (.inl rfl)
    refine exits (.exits (s := t) ⟨k, h1⟩ ?_)
    obtain ⟨g1, -, -, -, -, g6⟩ := h2
    simp only [launch, g1, g6]
    simp only [s] at hv hh he
    simp [hv, hh, he]
  · obtain ⟨k, t, h1, h2, -⟩ := loop_given e app_wf.1 app_wf.2.1 app_wf.2.2 hi hr (.inr h0)
    refine exits (.exits (s := t) ⟨k, h1⟩ ?_)
    have hs : Args.stop t = false := by rw [h2.stop]; exact h0
    obtain ⟨f1, f2, f3⟩ := not_stop.mp hs
    obtain ⟨-, -, -, -, g5, -⟩ := h2
    have hm' : t.module = none := g5.trans hm
    simp [launch, f1, f2, f3, hm']
  · obtain ⟨k, t, h1, h2, -⟩ := loop_given e app_wf.1 app_wf.2.1 app_wf.2.2 hi hr (.inr h0)
    refine exits (.exits (s := t) ⟨k, h1⟩ ?_)
    have hs : Args.stop t = false := by rw [h2.stop]; exact h0
    obtain ⟨f1, f2, f3⟩ := not_stop.mp hs
    obtain ⟨-, g2, -, -, g5, -⟩ := h2
    have hm' : t.module = some m := g5.trans hm
    have hf' : t.strs "profile_file" = some f := by rw [g2]; exact hf
    simp [launch, f1, f2, f3, hm', hf', hc]
  · obtain ⟨t, h1, h2⟩ := run_options (sys := sys) hi hr h0 hm hp argv0
    exact exits (.notLoaded h1 h2 hl)
  · obtain ⟨t, h1, h2⟩ := run_options (sys := sys) hi hr h0 hm hp argv0
    exact exits (.rejected h1 h2 hl htc)

/-- C91, a compiled program: without `--` on the command line all arguments are those of the program; otherwise options come first.  `run` is how a C program
that uses the compiled program ends (`C91_same`). -/
theorem C91_compiled (sys : Desktop) (e : Env) (run : Host.Program → Ended) (argv0 : Arg) :
    (∀ args, "--".toList ∉ argv0 :: args → ∀ o, CompiledMain sys e run argv0 args o ↔ EndsAs sys run none (args.map fun a => (bytes a).map UInt8.toNat) o) ∧
    ∀ items : List Args.Item, (∀ i ∈ items, i.Of Args.appLinked) → let s := effects e items (start []); Args.stop s = false → ∀ rest,
      ((∀ f, s.strs "profile_file" = some f → sys.creatable (bytes f) = true) → ∀ o, CompiledMain sys e run argv0 (items.flatMap Args.Item.encode ++ "--".toList :: rest) o ↔
        EndsAs sys run ((s.strs "driver").map bytes) (rest.map fun a => (bytes a).map UInt8.toNat) o) ∧
      (∀ f, s.strs "profile_file" = some f → sys.creatable (bytes f) = false → ∀ o, CompiledMain sys e run argv0 (items.flatMap Args.Item.encode ++ "--".toList :: rest) o ↔ o = .exit 3) := by
  refine ⟨fun args h o => ?_, ?_⟩
  · have h1 : Options e true argv0 args (start args) := by
      unfold Options
      rw [if_pos ⟨rfl, h⟩]
    have h2 : launch sys true (start args) = .run [] [] none (args.map fun a => (bytes a).map UInt8.toNat) := by simp [launch, start, pathOf]
    have := CompiledMain.runs (run := run) h1 h2
    rw [← finish_iff]
    exact ⟨fun ho => ho.unique this, fun he => he ▸ this⟩
  · intro items hi s h0 rest
    have hrec : Ends Args.appLinked ("--".toList :: rest) := by
      rintro ⟨p, hp, hq⟩
      simp only [Args.appLinked, Args.helpVersion, List.cons_append, List.nil_append, List.mem_cons, List.not_mem_nil, or_false] at hp
      rcases hp with rfl | rfl | rfl | rfl | rfl | rfl | rfl <;> exact absurd hq (by decide)
    obtain ⟨k, t, h1, h2, h3⟩ := loop_given e appLinked_wf.1 appLinked_wf.2.1 appLinked_wf.2.2 hi hrec (.inr h0)
    have hs : Args.stop t = false := by rw [h2.stop]; exact h0
    have ho : Options e true argv0 (items.flatMap Args.Item.encode ++ "--".toList :: rest) t := by
      unfold Options
      rw [if_neg (by simp)]
      exact ⟨k, h1⟩
    obtain ⟨f1, f2, f3⟩ := not_stop.mp hs
    obtain ⟨-, g2, -, -, -, -⟩ := h2
    constructor
    · intro hp o
      have hl : launch sys true t = .run (t.search.map bytes) (pathOf (t.module.getD [])) ((s.strs "driver").map bytes) (rest.map fun a => (bytes a).map UInt8.toNat) := by
        have : ¬ ((t.strs "profile_file").any fun f => !sys.creatable (bytes f)) = true := by
          rw [g2]
          cases hf : s.strs "profile_file" with
          | none => simp [s] at hf; simp [hf]
          | some f => have := hp f hf; simp [s] at hf; simp [hf, this]
        have h4 := h3 hs
        simp only [given, if_true] at h4
        simp only [launch, f1, f2, f3, this, h4]
        simp [g2, s]
      have := CompiledMain.runs (run := run) ho hl
      rw [← finish_iff]
      exact ⟨fun ho => ho.unique this, fun he => he ▸ this⟩
    · intro f hf hc o
      have hl : launch sys true t = .exit 3 := by
        have hf' : t.strs "profile_file" = some f := by rw [g2]; exact hf
        simp [launch, f1, f2, f3, hf', hc]
      have := CompiledMain.exits (run := run) ho hl
      exact ⟨fun ho => ho.unique this, fun he => he ▸ this⟩

/-! ### A plain command line -/

theorem plain_items (dirs : List Arg) (a : Arg) : ∀ i ∈ dirs.map Args.Item.incl ++ [.module false a], i.Of Args.app := by
  intro i hi
  rcases List.mem_append.mp hi with hi | hi
  · obtain ⟨d, -, rfl⟩ := List.mem_map.mp hi
    simp [Args.Item.Of, Args.app, Args.helpVersion]
  · obtain rfl := List.mem_singleton.mp hi
    simp [Args.Item.Of, Args.app, Args.helpVersion]

theorem plain_ends (args : List Arg) : Ends Args.app ("--".toList :: args) := by
  rintro ⟨p, hp, hq⟩
  simp only [Args.app, Args.helpVersion, List.cons_append, List.nil_append, List.mem_cons, List.not_mem_nil, or_false] at hp
  rcases hp with rfl | rfl | rfl | rfl | rfl | rfl | rfl | rfl <;> exact absurd hq (by decide)

theorem plain_args (dirs : List Arg) (a : Arg) (args : List Arg) : (dirs.map Args.Item.incl ++ [Args.Item.module false a]).flatMap Args.Item.encode ++ "--".toList :: args =
    dirs.flatMap (fun d => ["-I".toList, d]) ++ ["-m".toList, a, "--".toList] ++ args := by
  simp [List.flatMap_map, Args.Item.encode]

/-- C91: `fble-app -I d1 .. -I dk -m /a/b% -- x1 .. xm`: if the module /a/b%, and those it refers to, are found in these directories and type check, then the command ends as their texts
say, with the arguments x1 .. xm. -/
theorem C91_command {sys : Desktop} {e : Env} (he : Looks sys.toSystem e) (dirs : List Arg) {p : Path} (hp : p ≠ [] ∧ ∀ n ∈ p, n.space = .normal ∧ n.str ≠ [] ∧ ∀ b ∈ n.str, Text.Spec.WordChar b ∧ b ≠ 0xFF)
    {a : Arg} (ha : bytes a = Text.printPath p) {program} (hl : FbleLoad sys.files (dirs.map bytes) p (some program)) {n tcs} (htc : Elab.tcProgram n (modules program) = .ok (some tcs)) (argv0 : Arg)
    (args : List Arg) :
    (∀ m ∈ program, ∃ f text s rest, FileOf sys.files (dirs.map bytes) m.1 f ∧ sys.files.read f = some text ∧ (∃ ts r, Text.Spec.Lexes text ts r ∧ Parses ts s rest) ∧ s.ast = some m.2.2) ∧
    ∃ ts, All2 Elab.ErasesModule (modules program) ts ∧ ((∀ t ∈ ts, t.Tables) → ∀ steps fuel depth o,
      AppMain sys e n steps fuel depth argv0 (dirs.flatMap (fun d => ["-I".toList, d]) ++ ["-m".toList, a, "--".toList] ++ args) o ↔
        EndsAs sys (fun host => ended depth (namedProcess (((modules program).map (·.path)).zip ts) host steps fuel (AppWorld.mk sys.world sys.events).outside)) none (args.map fun a => (bytes a).map UInt8.toNat) o) := by
  refine ⟨fun m hm => ?_, ?_⟩
  · obtain ⟨f, text, s, rest, h1, h2, h3, h4, -⟩ := (C70_loaded hl).2.2.1 m hm
    exact ⟨f, text, s, rest, h1, h2, h3, h4⟩
  obtain ⟨m, h2, heff⟩ := plain he dirs hp ha
  obtain ⟨ts, t1, t2⟩ := C91_runs (sys := sys) (e := e) (plain_items dirs a) (plain_ends args) (by rw [heff]; rfl) (m := m) (by rw [heff]) (by rw [heff]; intro f hf; cases hf) (program := program)
    (by rw [heff, h2]; exact hl) htc argv0
  refine ⟨ts, t1, fun ht steps fuel depth o => ?_⟩
  have := t2 ht steps fuel depth o
  rw [plain_args] at this
  rw [this, heff]
  simp only [given, if_true, start, Option.map_none]

/-- C91: a compiled program, given arguments without `--`, does what fble-app does with its source given them after `--`, if no assertion fails in that run. -/
theorem C91_same {sys : Desktop} {e : Env} (he : Looks sys.toSystem e) (dirs : List Arg) {p : Path} (hp : p ≠ [] ∧ ∀ n ∈ p, n.space = .normal ∧ n.str ≠ [] ∧ ∀ b ∈ n.str, Text.Spec.WordChar b ∧ b ≠ 0xFF)
    {a : Arg} (ha : bytes a = Text.printPath p) {program} (hl : FbleLoad sys.files (dirs.map bytes) p (some program)) {n tcs} (htc : Elab.tcProgram n (modules program) = .ok (some tcs)) (sg : Bool) :
    ∃ ts, All2 Elab.ErasesModule (modules program) ts ∧ ((∀ t ∈ ts, t.Tables) → ∃ mds, Elab.linkMods [] (modules program) tcs = some mds ∧ ∀ names locs, All2 (Backend.NamesFor sg) mds names →
      ∃ cmods amods, Backend.compileC sg mds names = some cmods ∧ Backend.compileA sg mds names locs = some amods ∧
      ∀ argv0 argv0' args, "--".toList ∉ argv0 :: args → ∀ steps fuel depth,
        ¬ (AppMain sys e n steps fuel depth argv0' (dirs.flatMap (fun d => ["-I".toList, d]) ++ ["-m".toList, a, "--".toList] ++ args) (.ran .crash) ∨
          AppMain sys e n steps fuel depth argv0' (dirs.flatMap (fun d => ["-I".toList, d]) ++ ["-m".toList, a, "--".toList] ++ args) (.noDisplay .crash)) → ∀ o,
        (CompiledMain sys e (fun host => ended depth (Host.cProcess mds cmods host steps fuel sys.outside.outside)) argv0 args o ↔
          AppMain sys e n steps fuel depth argv0' (dirs.flatMap (fun d => ["-I".toList, d]) ++ ["-m".toList, a, "--".toList] ++ args) o) ∧
        ∀ profiling, (CompiledMain sys e (fun host => ended depth (Host.a64Process mds amods profiling host steps fuel sys.outside.outside)) argv0 args o ↔
          AppMain sys e n steps fuel depth argv0' (dirs.flatMap (fun d => ["-I".toList, d]) ++ ["-m".toList, a, "--".toList] ++ args) o)) := by
  have hne : modules program ≠ [] := by
    intro he
    have : program = [] := by simpa [modules] using he
    subst this
    simpa using (C70_loaded hl).1
  obtain ⟨ts, mds, k1, k2, k3⟩ := Elab.tcProgram_ok htc
  refine ⟨ts, k3.erases, fun ht => ⟨mds, k1, fun names locs hn => ?_⟩⟩
  obtain ⟨codes, g1, g2⟩ := Host.meaning_interpreted (Host.mods_ne k3 hne) (k3.progOk ht)
  obtain ⟨cmods, _, e1, e2, e3⟩ := Backend.compiledC_rel (Host.mods_ne k3 hne) (k3.progOk ht) hn g1
  obtain ⟨amods, _, f1, f2⟩ := Backend.compiledA_rel locs (Host.mods_ne k3 hne) (k3.progOk ht) hn g1
  refine ⟨cmods, amods, e1, f1, fun argv0 argv0' args hdash steps fuel depth hcrash o => ?_⟩
  have hint : ∀ o, AppMain sys e n steps fuel depth argv0' (dirs.flatMap (fun d => ["-I".toList, d]) ++ ["-m".toList, a, "--".toList] ++ args) o ↔
      o = finish sys (fun host => ended depth (interpretedProcess mds codes host steps fuel sys.outside.outside)) none (args.map fun a => (bytes a).map UInt8.toNat) := by
    intro o
    obtain ⟨m, h2, heff⟩ := plain he dirs hp ha
    have := runs_interpreted (sys := sys) (e := e) (plain_items dirs a) (plain_ends args) (by rw [heff]; rfl) (m := m) (by rw [heff]) (by rw [heff]; intro f hf; cases hf) (program := program)
      (by rw [heff, h2]; exact hl) htc argv0' k1 g1 steps fuel depth o
    rw [plain_args] at this
    rw [this, heff]
    simp only [given, if_true, start, Option.map_none]
  have hcr : ∀ host, finish sys (fun host => ended depth (interpretedProcess mds codes host steps fuel sys.outside.outside)) none (args.map fun a => (bytes a).map UInt8.toNat) = .ran (ended depth (interpretedProcess mds codes host steps fuel sys.outside.outside)) ∨
      finish sys (fun host => ended depth (interpretedProcess mds codes host steps fuel sys.outside.outside)) none (args.map fun a => (bytes a).map UInt8.toNat) = .noDisplay (ended depth (interpretedProcess mds codes host steps fuel sys.outside.outside)) →
      interpretedProcess mds codes host steps fuel sys.outside.outside ≠ .crash := by
    intro host h hc
    rw [hc] at h
    exact hcrash (h.imp (fun h => (hint _).mpr h.symm) fun h => (hint _).mpr h.symm)
  have same : ∀ run : Host.Program → Ended, (∀ host, interpretedProcess mds codes host steps fuel sys.outside.outside ≠ .crash →
        run host = ended depth (interpretedProcess mds codes host steps fuel sys.outside.outside)) →
      (CompiledMain sys e run argv0 args o ↔ AppMain sys e n steps fuel depth argv0' (dirs.flatMap (fun d => ["-I".toList, d]) ++ ["-m".toList, a, "--".toList] ++ args) o) := by
    intro run hrun
    rw [(C91_compiled sys e run argv0).1 args hdash, hint, ← finish_iff]
    have : finish sys run none (args.map fun a => (bytes a).map UInt8.toNat) =
        finish sys (fun host => ended depth (interpretedProcess mds codes host steps fuel sys.outside.outside)) none (args.map fun a => (bytes a).map UInt8.toNat) := by
      unfold finish at hcr ⊢
      split
      · rename_i hd
        rw [hd] at hcr
        rw [hrun _ (hcr evalOnly (.inr rfl))]
      · rename_i w h hd
        rw [hd] at hcr
        rw [hrun _ (hcr (appHost w h _) (.inl rfl))]
    rw [this]
  constructor
  · exact same _ fun host hc =>
      Host.ended_generated ((e3 fuel _).bind fun _ _ _ _ hv hs => Host.host_generated e2 host steps (.cons hv .nil) hs) (Host.not_wild (g2 host steps fuel sys.outside.outside)) hc depth
  · intro profiling
    exact same _ fun host hc =>
      Host.ended_generated (((f2 profiling).2 fuel _).bind fun _ _ _ _ hv hs => Host.host_generated (f2 profiling).1 host steps (.cons hv .nil) hs) (Host.not_wild (g2 host steps fuel sys.outside.outside)) hc depth

/-- C91: with a program without polymorphic definitions whose last module has the type `Main@` of /App/IO% (C83), no assertion fails and nothing is accessed that is not there. -/
theorem C91_safe {sys : Desktop} {e : Env} (he : Looks sys.toSystem e) (dirs : List Arg) {p : Path} (hp : p ≠ [] ∧ ∀ n ∈ p, n.space = .normal ∧ n.str ≠ [] ∧ ∀ b ∈ n.str, Text.Spec.WordChar b ∧ b ≠ 0xFF)
    {a : Arg} (ha : bytes a = Text.printPath p) {program} (hl : FbleLoad sys.files (dirs.map bytes) p (some program)) {n tcs} (htc : Elab.tcProgram n (modules program) = .ok (some tcs))
    (hm : Elab.Monomorphic n (modules program)) {hf types t} (hend : Elab.atEnd n [] [] (modules program) [] = .ok (hf, types ++ [some t])) (hmain : Nonempty (Host.AppTypes (Elab.openAll hf) t)) :
    ∃ ts, All2 Elab.ErasesModule (modules program) ts ∧ ((∀ t ∈ ts, t.Tables) → ∀ argv0 args steps fuel depth o,
      AppMain sys e n steps fuel depth argv0 (dirs.flatMap (fun d => ["-I".toList, d]) ++ ["-m".toList, a, "--".toList] ++ args) o → ∃ r, (o = .ran r ∨ o = .noDisplay r) ∧ r ≠ .crash ∧ r ≠ .wild) := by
  have hne : modules program ≠ [] := by
    intro he
    have : program = [] := by simpa [modules] using he
    subst this
    simpa using (C70_loaded hl).1
  obtain ⟨ts, mds, k1, k2, k3⟩ := Elab.tcProgram_ok htc
  refine ⟨ts, k3.erases, fun ht argv0 args steps fuel depth o ho => ?_⟩
  obtain ⟨codes, g1, g2⟩ := Host.meaning_interpreted (Host.mods_ne k3 hne) (k3.progOk ht)
  obtain ⟨m, h2, heff⟩ := plain he dirs hp ha
  rw [← plain_args, runs_interpreted (sys := sys) (e := e) (plain_items dirs a) (plain_ends args) (by rw [heff]; rfl) (m := m) (by rw [heff]) (by rw [heff]; intro f hf; cases hf) (program := program)
      (by rw [heff, h2]; exact hl) htc argv0 k1 g1 steps fuel depth o] at ho
  obtain ⟨hf', types', t', q1, mts, q2⟩ := Host.main_type htc hne hm k1
  rw [hend] at q1
  simp only [Types.R.ok.injEq, Prod.mk.injEq] at q1
  obtain ⟨rfl, q1⟩ := q1
  obtain ⟨-, q3⟩ := List.append_inj' q1 rfl
  cases q3
  obtain ⟨S⟩ := hmain
  have hgood : ∀ host, Host.HostTy (N := S.natives sys.outside) (Elab.openAll hf) host steps [t] → Host.Safe (ended depth (interpretedProcess mds codes host steps fuel sys.outside.outside)) := by
    intro host hh
    rw [Host.ended_rel (g2 host steps fuel _) depth]
    exact Host.safe_of_good (N := S.natives sys.outside) (Host.process_good (N := S.natives sys.outside) (S.nativesOk sys.outside) q2 hh fuel) depth
  rcases finish_iff.mp ho with ⟨w, h, -, ho⟩ | ⟨-, ho⟩
  · exact ⟨_, .inl ho, hgood _ (S.hostTy sys.outside w h _ steps)⟩
  · refine ⟨_, .inr ho, hgood _ ?_⟩
    cases steps with
    | zero => trivial
    | succ k => intro Γ refs vals _ _; exact Nat.zero_lt_one

/-! ### Examples -/

namespace Example

/-- A desktop on which the driver `dummy` has a window of 640 by 480, and no other works. -/
def desk : Desktop := ⟨Whole.Example.sys, [], fun d => if d = some (bytes "dummy".toList) then some (640, 480) else none⟩

/-- `--fps [--driver d] -I d1 .. -I dk -m a`. -/
def cmd (driver : Option Arg) (dirs : List Arg) (a : Arg) : List Args.Item := .flag "--fps" "fps" :: driver.toList.map (.str "--driver" "driver") ++ (dirs.map Args.Item.incl ++ [.module false a])

theorem parse_of {e : Env} {dirs : List Arg} {a : Arg} {m} (h : effects e (dirs.map Args.Item.incl ++ [.module false a]) (start []) = { start [] with search := dirs, module := some m }) : e.parse a = some m := by
  rw [effects_dirs e _ dirs (by rfl)] at h
  have := congrArg Args.St.module h
  simp [effects, Args.stop, start, Args.Item.effect] at this
  cases hp : e.parse a with
  | none => rw [hp] at this; simp at this
  | some m' => rw [hp] at this; simpa using this

theorem cmd_effects {e : Env} {driver : Option Arg} {dirs : List Arg} {a : Arg} {m} (hm : e.parse a = some m) : let s := effects e (cmd driver dirs a) (start [])
    Args.stop s = false ∧ s.module = some m ∧ s.strs "profile_file" = none ∧ s.strs "driver" = driver ∧ s.search = dirs := by
  cases driver with
  | none =>
    simp only [cmd, Option.toList, List.map_nil, List.nil_append, List.cons_append, effects]
    simp only [Args.stop, start, Args.Item.effect, Args.setAt, Bool.or_self, Bool.false_eq_true, if_false]
    rw [effects_dirs e _ dirs (by simp [Args.stop, Args.setAt])]
    simp [effects, Args.stop, Args.Item.effect, Args.setAt, hm]
  | some d =>
    simp only [cmd, Option.toList, List.map_cons, List.map_nil, List.nil_append, List.cons_append, effects]
    simp only [Args.stop, start, Args.Item.effect, Args.setAt, Bool.or_self, Bool.false_eq_true, if_false, Option.isSome_none]
    simp only [show ("help" = "fps") = False from by decide, show ("version" = "fps") = False from by decide, if_false, Bool.or_self, Bool.false_eq_true]
    rw [effects_dirs e _ dirs (by simp [Args.stop, Args.setAt])]
    simp [effects, Args.stop, Args.Item.effect, Args.setAt, hm]

theorem cmd_of (driver : Option Arg) (dirs : List Arg) (a : Arg) : ∀ i ∈ cmd driver dirs a, i.Of Args.app := by
  intro i hi
  simp only [cmd, List.mem_append, List.mem_cons, List.mem_map, Option.mem_toList, List.not_mem_nil, or_false] at hi
  rcases hi with (rfl | ⟨d, -, rfl⟩) | ⟨d, -, rfl⟩ | rfl <;> simp [Args.Item.Of, Args.app, Args.helpVersion]

/-- With the driver `dummy` the program is run in a window of this size; without it the main value is computed, and the exit status can only be 3. -/
example (argv0 : Arg) : ∃ e ts, Looks desk.toSystem e ∧ ∀ steps fuel depth o,
    (AppMain desk e 20 steps fuel depth argv0 ((cmd (some "dummy".toList) ["old".toList, "src".toList] "/Main%".toList).flatMap Args.Item.encode ++ ["--".toList, "hello".toList]) o ↔
      o = .ran (ended depth (namedProcess (((modules Whole.Example.program).map (·.path)).zip ts) (appHost 640 480 [[104, 101, 108, 108, 111]]) steps fuel desk.outside.outside))) ∧
    (AppMain desk e 20 steps fuel depth argv0 ((cmd none ["old".toList, "src".toList] "/Main%".toList).flatMap Args.Item.encode ++ ["--".toList, "hello".toList]) o → ∀ k, o.status = some k → k = 3) := by
  obtain ⟨e, he⟩ := looks_exists desk.toSystem
  obtain ⟨tcs, htc⟩ := Whole.Example.checked
  obtain ⟨m, h2, heff⟩ := plain he ["old".toList, "src".toList] (p := Whole.Example.mainPath) ⟨by decide, by decide +kernel⟩ (a := "/Main%".toList) (by decide +kernel)
  have key : ∀ driver,
      ∃ ts, All2 Elab.ErasesModule (modules Whole.Example.program) ts ∧ ∀ steps fuel depth o,
        AppMain desk e 20 steps fuel depth argv0 ((cmd driver ["old".toList, "src".toList] "/Main%".toList).flatMap Args.Item.encode ++ ["--".toList, "hello".toList]) o ↔
        EndsAs desk (fun host => ended depth (namedProcess (((modules Whole.Example.program).map (·.path)).zip ts) host steps fuel (AppWorld.mk desk.world desk.events).outside)) (driver.map bytes) [[104, 101, 108, 108, 111]] o := by
    intro driver
    obtain ⟨s1, s2, s3, s4, s5⟩ := cmd_effects (driver := driver) (dirs := ["old".toList, "src".toList]) (parse_of heff)
    obtain ⟨ts, t1, t2⟩ := C91_runs (sys := desk) (cmd_of driver _ _) (plain_ends ["hello".toList]) s1 s2 (by rw [s3]; intro f hf; cases hf) (program := Whole.Example.program)
      (by rw [s5, h2]; exact Whole.Example.loaded) htc argv0
    refine ⟨ts, t1, fun steps fuel depth o => ?_⟩
    rw [t2 (Whole.Example.tables t1), s4]
    exact Iff.rfl
  obtain ⟨ts, t1, k1⟩ := key (some "dummy".toList)
  obtain ⟨ts', t1', k2⟩ := key none
  refine ⟨e, ts, he, fun steps fuel depth o => ⟨?_, fun ho k hk => ?_⟩⟩
  · rw [k1]
    unfold EndsAs
    simp [desk]
    exact Iff.rfl
  · rcases (k2 steps fuel depth o).mp ho with ⟨w, h, hd, -⟩ | ⟨-, rfl⟩
    · simp [desk] at hd
    · exact noDisplay_status hk

end Example

end Verif.Whole.App
