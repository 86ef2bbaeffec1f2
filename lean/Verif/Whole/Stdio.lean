import Verif.Whole.Source
import Verif.Whole.Example
import Verif.Args.Thm
import Verif.Host.Thm
import Verif.Host.StdioSafe
/-
C86: the command fble-stdio and the programs compiled for it, from the command line to the exit status.

The model puts together those of options (`Args`), of the search for packages and modules (`Text`), of the parser of module paths (`Parse`), of FbleLoad (`Whole.Source`), and of
FbleStdio (`Host`).
-/
namespace Verif.Whole
open Parse
open Text (Str Byte ch Path)
open Args (Arg Env Recognised effects)
open Host (World Ended ended exitStatus stdioHost namedProcess interpretedProcess)

/-- The bytes of an argument. -/
def bytes (a : Arg) : Str := a.map ch

/-- A module path from its names. -/
def pathOf (m : List Arg) : Path := m.map fun a => ⟨bytes a, .normal⟩

/-- What the command finds when it is started: the files of modules, FBLE_PACKAGE_PATH and the default of it, which files can be created, and the files and streams of the
program it runs. -/
structure System where
  files : Files
  packagePath : Option Str
  default : Str
  creatable : Str → Bool
  world : World

/-- The functions that options use, on this system: FbleFindPackage (load.c:114-141) and FbleParseModulePath (parse.y:943-970), for strings without the byte 0xFF. -/
structure Looks (sys : System) (e : Env) : Prop where
  find : ∀ v, (e.find v).map bytes = Text.findPackage sys.files.access sys.default sys.packagePath (bytes v)
  parse : ∀ v, (0xFF : Byte) ∉ bytes v → ∃ ok, FbleParseModulePathString (bytes v) ((e.parse v).map pathOf) ok

/-- The variables before the options are parsed: pkgs/core/stdio.fble.c:399-404. -/
def start (args : List Arg) : Args.St := ⟨fun _ => false, fun _ => none, fun _ => [], [], none, false, args, false⟩

/-- pkgs/core/stdio.fble.c:406-434: the variables after the options are parsed.  `linked` says whether there is a compiled module, as FbleStdioMain then goes straight to the arguments of
the program if there is no `--`. -/
def Options (e : Env) (linked : Bool) (argv0 : Arg) (args : List Arg) (s : Args.St) : Prop :=
  if linked ∧ "--".toList ∉ argv0 :: args then s = start args
  else ∃ k, Args.loop e (if linked then Args.stdioLinked else Args.stdio) k (start args) = some s

/-- What follows the options. -/
inductive Launch where
  | exit (status : Int)
  | run (roots : List Str) (module : Path) (args : List (List Nat))

/-- pkgs/core/stdio.fble.c:436-473 and 482-486: EX_TRUE is 0, EX_USAGE is 2, EX_FAILURE is 3.  For a compiled module there is no search path and no module path. -/
def launch (sys : System) (linked : Bool) (s : Args.St) : Launch :=
  if s.flags "version" then .exit 0
  else if s.flags "help" then .exit 0
  else if s.error then .exit 2
  else if !linked && s.module.isNone then .exit 2
  else if (s.strs "profile_file").any fun f => !sys.creatable (bytes f) then .exit 3
  else .run (s.search.map bytes) (pathOf (s.module.getD [])) (s.args.map fun a => (bytes a).map UInt8.toNat)

/-- How the command ends: before the program is run, or after. -/
inductive Outcome where
  | exit (status : Int)
  | ran (e : Ended)

/-- What FbleStdioMain returns, if it does: pkgs/core/stdio.fble.c:493-503. -/
def Outcome.status : Outcome → Option Int
  | .exit status => some status
  | .ran e => exitStatus e

/-- The command fble-stdio: pkgs/core/stdio.fble.c:389-504 with no compiled module.  FbleLink (link.c:223-255) gives NULL if the program cannot be loaded or does not type check.
The numbers `n`, `steps` and `fuel` bound the type checker and the run, and `depth` how much of the result is looked at. -/
inductive StdioMain (sys : System) (e : Env) (n steps fuel depth : Nat) (argv0 : Arg) (args : List Arg) : Outcome → Prop where
  | exits {s status} : Options e false argv0 args s → launch sys false s = .exit status → StdioMain sys e n steps fuel depth argv0 args (.exit status)
  | notLoaded {s roots path rest} : Options e false argv0 args s → launch sys false s = .run roots path rest → FbleLoad sys.files roots path none →
      StdioMain sys e n steps fuel depth argv0 args (.exit 3)
  | rejected {s roots path rest program} : Options e false argv0 args s → launch sys false s = .run roots path rest → FbleLoad sys.files roots path (some program) →
      Elab.tcProgram n (modules program) = .ok none → StdioMain sys e n steps fuel depth argv0 args (.exit 3)
  | runs {s roots path rest program tcs mds codes} : Options e false argv0 args s → launch sys false s = .run roots path rest → FbleLoad sys.files roots path (some program) →
      Elab.tcProgram n (modules program) = .ok (some tcs) → Elab.linkMods [] (modules program) tcs = some mds → Compile.compileAll mds = some codes →
      StdioMain sys e n steps fuel depth argv0 args (.ran (ended depth (interpretedProcess mds codes (stdioHost rest) steps fuel sys.world.outside)))

/-- A compiled program with FbleStdioMain as its main function: pkgs/core/stdio.fble.c:389-504 with a compiled module.  `run` is how FbleStdio ends with these arguments. -/
inductive CompiledMain (sys : System) (e : Env) (run : List (List Nat) → Ended) (argv0 : Arg) (args : List Arg) : Outcome → Prop where
  | exits {s status} : Options e true argv0 args s → launch sys true s = .exit status → CompiledMain sys e run argv0 args (.exit status)
  | runs {s roots path rest} : Options e true argv0 args s → launch sys true s = .run roots path rest → CompiledMain sys e run argv0 args (.ran (run rest))

/-! ### Specification -/

/-- The arguments after the options: those of the program, after `--` if the first is that. -/
def given : List Arg → List (List Nat)
  | [] => []
  | a :: as => (if a = "--".toList then as else a :: as).map fun a => (bytes a).map UInt8.toNat

/-- The options end here. -/
def Ends (g : Args.Program) : List Arg → Prop
  | [] => True
  | a :: _ => ¬ Recognised g a

/-! ### Proofs -/

theorem loop_done {e : Env} {g : Args.Program} {k : Nat} {s : Args.St} (h : (Args.stop s || s.args.isEmpty) = true) : Args.loop e g k s = some s := by
  rw [Args.loop.eq_def]
  simp only
  rw [if_pos h]

theorem loop_next {e : Env} {g : Args.Program} {k : Nat} {s : Args.St} (h : ¬ (Args.stop s || s.args.isEmpty) = true) :
    Args.loop e g 0 s = none ∧ Args.loop e g (k + 1) s =
      if (Args.body e g.lines s).2 then Args.loop e g k (Args.body e g.lines s).1
      else if g.endOfOptions then
        some { (Args.body e g.lines s).1 with args := if (Args.body e g.lines s).1.args.head? = some "--".toList then (Args.body e g.lines s).1.args.drop 1 else (Args.body e g.lines s).1.args }
      else Args.loop e g k (Args.body e g.lines s).1 := by
  constructor <;> (rw [Args.loop.eq_def]; simp only; rw [if_neg h])

theorem loop_mono {e : Env} {g : Args.Program} {k : Nat} : ∀ {m : Nat} {s r : Args.St}, k ≤ m → Args.loop e g k s = some r → Args.loop e g m s = some r := by
  induction k with
  | zero =>
    intro m s r _ h
    by_cases hc : (Args.stop s || s.args.isEmpty) = true
    · rw [loop_done hc] at h ⊢; exact h
    · rw [(loop_next (k := 0) hc).1] at h; cases h
  | succ k ih =>
    intro m s r hm h
    by_cases hc : (Args.stop s || s.args.isEmpty) = true
    · rw [loop_done hc] at h ⊢; exact h
    · cases m with
      | zero => omega
      | succ m =>
        rw [(loop_next hc).2] at h ⊢
        by_cases hb : (Args.body e g.lines s).2 = true
        · rw [if_pos hb] at h ⊢
          exact ih (by omega) h
        · rw [if_neg hb] at h ⊢
          by_cases hg : g.endOfOptions = true
          · rw [if_pos hg] at h ⊢; exact h
          · rw [if_neg hg] at h ⊢
            exact ih (by omega) h

theorem Options.unique {e : Env} {linked argv0 args s s'} (h : Options e linked argv0 args s) (h' : Options e linked argv0 args s') : s = s' := by
  unfold Options at h h'
  split at h
  · rename_i hc
    rw [if_pos hc] at h'
    rw [h, h']
  · rename_i hc
    rw [if_neg hc] at h'
    obtain ⟨k, h⟩ := h
    obtain ⟨k', h'⟩ := h'
    have a := loop_mono (Nat.le_max_left k k') h
    rw [loop_mono (Nat.le_max_right k k') h'] at a
    exact (Option.some.inj a).symm

/-- The command ends in only one way. -/
theorem StdioMain.unique {sys : System} {e : Env} {n steps fuel depth argv0 args o o'} (h : StdioMain sys e n steps fuel depth argv0 args o)
    (h' : StdioMain sys e n steps fuel depth argv0 args o') : o = o' := by
  cases h with
  | exits h1 h2 =>
    cases h' with
    | exits g1 g2 => obtain rfl := h1.unique g1; rw [h2] at g2; cases g2; rfl
    | notLoaded g1 g2 | rejected g1 g2 | runs g1 g2 => obtain rfl := h1.unique g1; rw [h2] at g2; cases g2
  | notLoaded h1 h2 h3 =>
    cases h' with
    | exits g1 g2 => obtain rfl := h1.unique g1; rw [h2] at g2; cases g2
    | notLoaded g1 g2 | rejected g1 g2 => rfl
    | runs g1 g2 g3 => obtain rfl := h1.unique g1; rw [h2] at g2; cases g2; cases load_unique h3 g3
  | rejected h1 h2 h3 h4 =>
    cases h' with
    | exits g1 g2 => obtain rfl := h1.unique g1; rw [h2] at g2; cases g2
    | notLoaded g1 g2 | rejected g1 g2 => rfl
    | runs g1 g2 g3 g4 =>
      obtain rfl := h1.unique g1; rw [h2] at g2; cases g2; cases load_unique h3 g3
      rw [h4] at g4; cases g4
  | runs h1 h2 h3 h4 h5 h6 =>
    cases h' with
    | exits g1 g2 => obtain rfl := h1.unique g1; rw [h2] at g2; cases g2
    | notLoaded g1 g2 g3 => obtain rfl := h1.unique g1; rw [h2] at g2; cases g2; cases load_unique h3 g3
    | rejected g1 g2 g3 g4 =>
      obtain rfl := h1.unique g1; rw [h2] at g2; cases g2; cases load_unique h3 g3
      rw [h4] at g4; cases g4
    | runs g1 g2 g3 g4 g5 g6 =>
      obtain rfl := h1.unique g1; rw [h2] at g2; cases g2; cases load_unique h3 g3
      rw [h4] at g4; cases g4
      rw [h5] at g5; cases g5
      rw [h6] at g6; cases g6
      rfl

theorem CompiledMain.unique {sys : System} {e : Env} {run argv0 args o o'} (h : CompiledMain sys e run argv0 args o) (h' : CompiledMain sys e run argv0 args o') : o = o' := by
  cases h with
  | exits h1 h2 =>
    cases h' with
    | exits g1 g2 => obtain rfl := h1.unique g1; rw [h2] at g2; cases g2; rfl
    | runs g1 g2 => obtain rfl := h1.unique g1; rw [h2] at g2; cases g2
  | runs h1 h2 =>
    cases h' with
    | exits g1 g2 => obtain rfl := h1.unique g1; rw [h2] at g2; cases g2
    | runs g1 g2 => obtain rfl := h1.unique g1; rw [h2] at g2; cases g2; rfl

/-- What the loop leaves. -/
theorem loop_given (e : Env) {g : Args.Program} (hg : Args.wf g = true) (hend : g.endOfOptions = true) (hinv : Args.P.invalid ∉ g.lines) {items : List Args.Item} (hi : ∀ i ∈ items, i.Of g) {rest : List Arg}
    (hr : Ends g rest) (hr0 : rest = [] ∨ Args.stop (effects e items (start [])) = false) :
    ∃ k s, Args.loop e g k (start (items.flatMap Args.Item.encode ++ rest)) = some s ∧ Args.Same s (effects e items (start [])) ∧
      (Args.stop s = false → s.args.map (fun a => (bytes a).map UInt8.toNat) = given rest) := by
  have hsame : Args.Same (effects e items (start (items.flatMap Args.Item.encode ++ rest))) (effects e items (start [])) :=
    Args.effects_same e items ⟨rfl, rfl, rfl, rfl, rfl, rfl⟩
  cases rest with
  | nil =>
    obtain ⟨k, s, h1, h2, -, h4⟩ := Args.C48_options e hg items hi (start (items.flatMap Args.Item.encode ++ [])) rfl (by simp [start])
    exact ⟨k, s, h1, h2.trans hsame, fun hs => by rw [h4 hs]; rfl⟩
  | cons a as =>
    have hst : Args.stop (effects e items (start (items.flatMap Args.Item.encode ++ a :: as))) = false := by
      rw [hsame.stop]; exact hr0.resolve_left (by simp)
    obtain ⟨k, s, h1, h2, -, h4⟩ := (Args.C48_rest e hg items hi (start (items.flatMap Args.Item.encode ++ a :: as)) rfl a as hr rfl hst).2 hinv hend
    exact ⟨k, s, h1, h2.trans hsame, fun _ => by rw [h4]; rfl⟩

theorem stdio_wf : Args.wf Args.stdio = true ∧ Args.stdio.endOfOptions = true ∧ Args.P.invalid ∉ Args.stdio.lines := ⟨by decide +kernel, rfl, by decide⟩

theorem stdioLinked_wf : Args.wf Args.stdioLinked = true ∧ Args.stdioLinked.endOfOptions = true ∧ Args.P.invalid ∉ Args.stdioLinked.lines := ⟨by decide +kernel, rfl, by decide⟩

theorem not_stop {s : Args.St} : Args.stop s = false ↔ s.flags "help" = false ∧ s.flags "version" = false ∧ s.error = false := by
  simp [Args.stop, and_assoc]

theorem launch_run {sys : System} {s : Args.St} (h0 : Args.stop s = false) {m} (hm : s.module = some m) (hp : ∀ f, s.strs "profile_file" = some f → sys.creatable (bytes f) = true) :
    launch sys false s = .run (s.search.map bytes) (pathOf m) (s.args.map fun a => (bytes a).map UInt8.toNat) := by
  obtain ⟨h1, h2, h3⟩ := not_stop.mp h0
  have : ¬ ((s.strs "profile_file").any fun f => !sys.creatable (bytes f)) = true := by
    cases hf : s.strs "profile_file" with
    | none => simp
    | some f => simp [hp f hf]
  simp only [launch, h1, h2, h3, hm, this]
  simp

theorem run_options {sys : System} {e : Env} {items : List Args.Item} (hi : ∀ i ∈ items, i.Of Args.stdio) {rest : List Arg} (hr : Ends Args.stdio rest)
    (h0 : Args.stop (effects e items (start [])) = false) {m} (hm : (effects e items (start [])).module = some m)
    (hp : ∀ f, (effects e items (start [])).strs "profile_file" = some f → sys.creatable (bytes f) = true) (argv0 : Arg) :
    ∃ s, Options e false argv0 (items.flatMap Args.Item.encode ++ rest) s ∧
      launch sys false s = .run ((effects e items (start [])).search.map bytes) (pathOf m) (given rest) := by
  obtain ⟨k, s, h1, h2, h3⟩ := loop_given e stdio_wf.1 stdio_wf.2.1 stdio_wf.2.2 hi hr (.inr h0)
  have hs : Args.stop s = false := by rw [h2.stop]; exact h0
  refine ⟨s, ⟨k, h1⟩, ?_⟩
  obtain ⟨-, g2, -, g4, g5, -⟩ := h2
  rw [launch_run hs (g5.trans hm) (fun f hf => hp f (by rw [← g2]; exact hf)), g4, h3 hs]

theorem runs_interpreted {sys : System} {e : Env} {items : List Args.Item} (hi : ∀ i ∈ items, i.Of Args.stdio) {rest : List Arg} (hr : Ends Args.stdio rest)
    (h0 : Args.stop (effects e items (start [])) = false) {m} (hm : (effects e items (start [])).module = some m)
    (hp : ∀ f, (effects e items (start [])).strs "profile_file" = some f → sys.creatable (bytes f) = true) {program}
    (hl : FbleLoad sys.files ((effects e items (start [])).search.map bytes) (pathOf m) (some program)) {n tcs}
    (htc : Elab.tcProgram n (modules program) = .ok (some tcs)) (argv0 : Arg) {mds codes} (g1 : Elab.linkMods [] (modules program) tcs = some mds) (g2 : Compile.compileAll mds = some codes) (steps fuel depth : Nat) (o : Outcome) :
    StdioMain sys e n steps fuel depth argv0 (items.flatMap Args.Item.encode ++ rest) o ↔
      o = .ran (ended depth (interpretedProcess mds codes (stdioHost (given rest)) steps fuel sys.world.outside)) := by
  obtain ⟨s, h1, h2⟩ := run_options (sys := sys) hi hr h0 hm hp argv0
  have hrun := StdioMain.runs (steps := steps) (fuel := fuel) (depth := depth) h1 h2 hl htc g1 g2
  exact ⟨fun ho => ho.unique hrun, fun he => he ▸ hrun⟩

/-- C86: options that give a module and a search path, with or without a profile, then arguments for the program: if the modules are found and type check, then their texts are programs, and the
command ends as the last of them says, given these arguments. -/
theorem C86_runs {sys : System} {e : Env} {items : List Args.Item} (hi : ∀ i ∈ items, i.Of Args.stdio) {rest : List Arg} (hr : Ends Args.stdio rest)
    (h0 : Args.stop (effects e items (start [])) = false) {m} (hm : (effects e items (start [])).module = some m)
    (hp : ∀ f, (effects e items (start [])).strs "profile_file" = some f → sys.creatable (bytes f) = true) {program}
    (hl : FbleLoad sys.files ((effects e items (start [])).search.map bytes) (pathOf m) (some program)) {n tcs}
    (htc : Elab.tcProgram n (modules program) = .ok (some tcs)) (argv0 : Arg) :
    ∃ ts, All2 Elab.ErasesModule (modules program) ts ∧ ((∀ t ∈ ts, t.Tables) → ∀ steps fuel depth o,
      StdioMain sys e n steps fuel depth argv0 (items.flatMap Args.Item.encode ++ rest) o ↔
        o = .ran (ended depth (namedProcess (((modules program).map (·.path)).zip ts) (stdioHost (given rest)) steps fuel sys.world.outside))) := by
  have hne : modules program ≠ [] := by
    intro he
    have : program = [] := by simpa [modules] using he
    subst this
    simpa using (C70_loaded hl).1
  obtain ⟨ts, t1, t2⟩ := Host.C77_interpreted htc hne
  refine ⟨ts, t1, fun ht steps fuel depth o => ?_⟩
  obtain ⟨mds, codes, g1, g2, g3⟩ := t2 ht
  rw [runs_interpreted hi hr h0 hm hp hl htc argv0 g1 g2, (g3 (stdioHost (given rest)) steps fuel).1]

/-- C86: the other ways to end, with their exit status: 0 after help or version; 2 for an option with an error, or if no module is given; 3 if the file for the profile cannot be created,
the program cannot be loaded, or does not type check.  The program is not run. -/
theorem C86_fails {sys : System} {e : Env} {items : List Args.Item} (hi : ∀ i ∈ items, i.Of Args.stdio) (argv0 : Arg) (n steps fuel depth : Nat) :
    let s := effects e items (start [])
    let ends := fun (rest : List Arg) (status : Int) => ∀ o, StdioMain sys e n steps fuel depth argv0 (items.flatMap Args.Item.encode ++ rest) o ↔ o = .exit status
    (s.flags "version" = true ∨ s.flags "help" = true → ends [] 0) ∧
    (s.flags "version" = false → s.flags "help" = false → s.error = true → ends [] 2) ∧
    (Args.stop s = false → ∀ rest, Ends Args.stdio rest →
      (s.module = none → ends rest 2) ∧
      ∀ m, s.module = some m →
        (∀ f, s.strs "profile_file" = some f → sys.creatable (bytes f) = false → ends rest 3) ∧
        ((∀ f, s.strs "profile_file" = some f → sys.creatable (bytes f) = true) →
          (FbleLoad sys.files (s.search.map bytes) (pathOf m) none → ends rest 3) ∧
          ∀ program, FbleLoad sys.files (s.search.map bytes) (pathOf m) (some program) → Elab.tcProgram n (modules program) = .ok none → ends rest 3)) := by
  intro s ends
  have exits : ∀ {rest : List Arg} {status : Int}, StdioMain sys e n steps fuel depth argv0 (items.flatMap Args.Item.encode ++ rest) (.exit status) → ends rest status :=
    fun h o => ⟨fun ho => ho.unique h, fun he => he ▸ h⟩
  refine ⟨fun h => ?_, fun hv hh he => ?_, fun h0 rest hr => ⟨fun hm => ?_, fun m hm => ⟨fun f hf hc => ?_, fun hp => ⟨fun hl => ?_, fun program hl htc => ?_⟩⟩⟩⟩
  · obtain ⟨k, t, h1, h2, -⟩ := loop_given e stdio_wf.1 stdio_wf.2.1 stdio_wf.2.2 hi (rest := []) trivial (.inl rfl)
    refine exits (.exits (s := t) ⟨k, h1⟩ ?_)
    unfold launch
    rw [h2.1]
    rcases h with h | h
    · rw [if_pos h]
    · split
      · rfl
      · rfl
  · obtain ⟨k, t, h1, h2, -⟩ := loop_given e stdio_wf.1 stdio_wf.2.1 stdio_wf.2.2 hi (rest := []) trivial (.inl rfl)
    refine exits (.exits (s := t) ⟨k, h1⟩ ?_)
    obtain ⟨g1, -, -, -, -, g6⟩ := h2
    simp only [launch, g1, g6]
    simp only [s] at hv hh he
    simp [hv, hh, he]
  · obtain ⟨k, t, h1, h2, -⟩ := loop_given e stdio_wf.1 stdio_wf.2.1 stdio_wf.2.2 hi hr (.inr h0)
    refine exits (.exits (s := t) ⟨k, h1⟩ ?_)
    have hs : Args.stop t = false := by rw [h2.stop]; exact h0
    obtain ⟨f1, f2, f3⟩ := not_stop.mp hs
    obtain ⟨-, -, -, -, g5, -⟩ := h2
    have hm' : t.module = none := g5.trans hm
    simp [launch, f1, f2, f3, hm']
  · obtain ⟨k, t, h1, h2, -⟩ := loop_given e stdio_wf.1 stdio_wf.2.1 stdio_wf.2.2 hi hr (.inr h0)
    refine exits (.exits (s := t) ⟨k, h1⟩ ?_)
    have hs : Args.stop t = false := by rw [h2.stop]; exact h0
    obtain ⟨f1, f2, f3⟩ := not_stop.mp hs
    obtain ⟨-, g2, -, -, g5, -⟩ := h2
    have hm' : t.module = some m := g5.trans hm
    have hf' : t.strs "profile_file" = some f := by rw [g2]; exact hf
    simp [launch, f1, f2, f3, hm', hf', hc]
  · obtain ⟨t, h1, h2⟩ := run_options (sys := sys) hi hr h0 hm hp argv0
    exact exits (.notLoaded h1 h2 hl)
  · obtain ⟨t, h1, h2⟩ := run_options (sys := sys) hi hr h0 hm hp argv0
    exact exits (.rejected h1 h2 hl htc)

/-- C86, a compiled program: without `--` on the command line all arguments are those of the program; otherwise options come first.  `run` is how the compiled program ends given arguments
(`C86_compiled_same`). -/
theorem C86_compiled (sys : System) (e : Env) (run : List (List Nat) → Ended) (argv0 : Arg) :
    (∀ args, "--".toList ∉ argv0 :: args → ∀ o, CompiledMain sys e run argv0 args o ↔ o = .ran (run (args.map fun a => (bytes a).map UInt8.toNat))) ∧
    ∀ items : List Args.Item, (∀ i ∈ items, i.Of Args.stdioLinked) → let s := effects e items (start []); Args.stop s = false → ∀ rest,
      ((∀ f, s.strs "profile_file" = some f → sys.creatable (bytes f) = true) → ∀ o, CompiledMain sys e run argv0 (items.flatMap Args.Item.encode ++ "--".toList :: rest) o ↔
        o = .ran (run (rest.map fun a => (bytes a).map UInt8.toNat))) ∧
      (∀ f, s.strs "profile_file" = some f → sys.creatable (bytes f) = false → ∀ o, CompiledMain sys e run argv0 (items.flatMap Args.Item.encode ++ "--".toList :: rest) o ↔ o = .exit 3) := by
  refine ⟨fun args h o => ?_, ?_⟩
  · have h1 : Options e true argv0 args (start args) := by
      unfold Options
      rw [if_pos ⟨rfl, h⟩]
    have h2 : launch sys true (start args) = .run [] [] (args.map fun a => (bytes a).map UInt8.toNat) := by simp [launch, start, pathOf]
    have := CompiledMain.runs (run := run) h1 h2
    exact ⟨fun ho => ho.unique this, fun he => he ▸ this⟩
  · intro items hi s h0 rest
    have hrec : Ends Args.stdioLinked ("--".toList :: rest) := by
      rintro ⟨p, hp, hq⟩
      simp only [Args.stdioLinked, Args.helpVersion, List.cons_append, List.nil_append, List.mem_cons, List.not_mem_nil, or_false] at hp
      rcases hp with rfl | rfl | rfl | rfl | rfl <;> exact absurd hq (by decide)
    obtain ⟨k, t, h1, h2, h3⟩ := loop_given e stdioLinked_wf.1 stdioLinked_wf.2.1 stdioLinked_wf.2.2 hi hrec (.inr h0)
    have hs : Args.stop t = false := by rw [h2.stop]; exact h0
    have ho : Options e true argv0 (items.flatMap Args.Item.encode ++ "--".toList :: rest) t := by
      unfold Options
      rw [if_neg (by simp)]
      exact ⟨k, h1⟩
    obtain ⟨f1, f2, f3⟩ := not_stop.mp hs
    obtain ⟨-, g2, -, -, -, -⟩ := h2
    constructor
    · intro hp o
      have hl : launch sys true t = .run (t.search.map bytes) (pathOf (t.module.getD [])) (rest.map fun a => (bytes a).map UInt8.toNat) := by
        have : ¬ ((t.strs "profile_file").any fun f => !sys.creatable (bytes f)) = true := by
          rw [g2]
          cases hf : s.strs "profile_file" with
          | none => simp [s] at hf; simp [hf]
          | some f => have := hp f hf; simp [s] at hf; simp [hf, this]
        have h4 := h3 hs
        simp only [given, if_true] at h4
        simp only [launch, f1, f2, f3, this, h4]
        simp
      have := CompiledMain.runs (run := run) ho hl
      exact ⟨fun ho => ho.unique this, fun he => he ▸ this⟩
    · intro f hf hc o
      have hl : launch sys true t = .exit 3 := by
        have hf' : t.strs "profile_file" = some f := by rw [g2]; exact hf
        simp [launch, f1, f2, f3, hf', hc]
      have := CompiledMain.exits (run := run) ho hl
      exact ⟨fun ho => ho.unique this, fun he => he ▸ this⟩

/-! ### A plain command line -/

theorem parse_given {sys : System} {e : Env} (he : Looks sys e) {a : Arg} {p : Path} (hff : (0xFF : Byte) ∉ bytes a) {ok} (h : FbleParseModulePathString (bytes a) (some p) ok) :
    ∃ m, e.parse a = some m ∧ pathOf m = p := by
  obtain ⟨ok', ts, l, h1, h2⟩ := he.parse a hff
  obtain ⟨ts', l', h3, h4⟩ := h
  rw [h1] at h3
  cases h3
  have := ((C69_total ts).2 _ _ _ _ h2 h4).1
  cases hm : e.parse a with
  | none => rw [hm] at this; cases this
  | some m =>
    rw [hm] at this
    exact ⟨m, rfl, by simpa using this⟩

theorem effects_dirs (e : Env) (more : List Args.Item) : (dirs : List Arg) → {s : Args.St} → Args.stop s = false →
    effects e (dirs.map Args.Item.incl ++ more) s = effects e more { s with search := s.search ++ dirs }
  | [], s, h => by simp
  | d :: dirs, s, h => by
    simp only [List.map_cons, List.cons_append, effects, h, Bool.false_eq_true, if_false, Args.Item.effect]
    rw [effects_dirs e more dirs (by simpa [Args.stop] using h)]
    simp

/-- The variables after these options. -/
theorem plain {sys : System} {e : Env} (he : Looks sys e) (dirs : List Arg) {p : Path} (hp : p ≠ [] ∧ ∀ n ∈ p, n.space = .normal ∧ n.str ≠ [] ∧ ∀ b ∈ n.str, Text.Spec.WordChar b ∧ b ≠ 0xFF)
    {a : Arg} (ha : bytes a = Text.printPath p) : ∃ m, pathOf m = p ∧ effects e (dirs.map Args.Item.incl ++ [.module false a]) (start []) = { start [] with search := dirs, module := some m } := by
  have hff : (0xFF : Byte) ∉ bytes a := by
    have e' : Text.printPath p = p.flatMap (fun n => ch '/' :: n.str) ++ [ch '%'] := by
      cases p with
      | nil => exact absurd rfl hp.1
      | cons n p => simp [Text.printPath]
    rw [ha, e']
    simp only [List.mem_append, List.mem_flatMap, List.mem_cons, not_or]
    refine ⟨?_, by decide⟩
    rintro ⟨m, hm, h | h⟩
    · exact absurd h (by decide)
    · exact ((hp.2 m hm).2.2 _ h).2 rfl
  obtain ⟨m, h1, h2⟩ := parse_given he hff (ha ▸ C54_path_roundtrip p hp.1 hp.2)
  refine ⟨m, h2, ?_⟩
  rw [effects_dirs e _ dirs (by rfl)]
  simp [effects, Args.stop, start, Args.Item.effect, h1]

theorem plain_items (dirs : List Arg) (a : Arg) : ∀ i ∈ dirs.map Args.Item.incl ++ [.module false a], i.Of Args.stdio := by
  intro i hi
  rcases List.mem_append.mp hi with hi | hi
  · obtain ⟨d, -, rfl⟩ := List.mem_map.mp hi
    simp [Args.Item.Of, Args.stdio, Args.helpVersion]
  · obtain rfl := List.mem_singleton.mp hi
    simp [Args.Item.Of, Args.stdio, Args.helpVersion]

theorem plain_ends (args : List Arg) : Ends Args.stdio ("--".toList :: args) := by
  rintro ⟨p, hp, hq⟩
  simp only [Args.stdio, Args.helpVersion, List.cons_append, List.nil_append, List.mem_cons, List.not_mem_nil, or_false] at hp
  rcases hp with rfl | rfl | rfl | rfl | rfl | rfl <;> exact absurd hq (by decide)

theorem plain_args (dirs : List Arg) (a : Arg) (args : List Arg) : (dirs.map Args.Item.incl ++ [Args.Item.module false a]).flatMap Args.Item.encode ++ "--".toList :: args =
    dirs.flatMap (fun d => ["-I".toList, d]) ++ ["-m".toList, a, "--".toList] ++ args := by
  simp [List.flatMap_map, Args.Item.encode]

/-- C86: `fble-stdio -I d1 .. -I dk -m /a/b% -- x1 .. xm`: if the module /a/b%, and those it refers to, are found in these directories and type check, then the command ends as their texts
say, with the arguments x1 .. xm. -/
theorem C86_command {sys : System} {e : Env} (he : Looks sys e) (dirs : List Arg) {p : Path} (hp : p ≠ [] ∧ ∀ n ∈ p, n.space = .normal ∧ n.str ≠ [] ∧ ∀ b ∈ n.str, Text.Spec.WordChar b ∧ b ≠ 0xFF)
    {a : Arg} (ha : bytes a = Text.printPath p) {program} (hl : FbleLoad sys.files (dirs.map bytes) p (some program)) {n tcs} (htc : Elab.tcProgram n (modules program) = .ok (some tcs)) (argv0 : Arg)
    (args : List Arg) :
    (∀ m ∈ program, ∃ f text s rest, FileOf sys.files (dirs.map bytes) m.1 f ∧ sys.files.read f = some text ∧ (∃ ts r, Text.Spec.Lexes text ts r ∧ Parses ts s rest) ∧ s.ast = some m.2.2) ∧
    ∃ ts, All2 Elab.ErasesModule (modules program) ts ∧ ((∀ t ∈ ts, t.Tables) → ∀ steps fuel depth o,
      StdioMain sys e n steps fuel depth argv0 (dirs.flatMap (fun d => ["-I".toList, d]) ++ ["-m".toList, a, "--".toList] ++ args) o ↔
        o = .ran (ended depth (namedProcess (((modules program).map (·.path)).zip ts) (stdioHost (args.map fun a => (bytes a).map UInt8.toNat)) steps fuel sys.world.outside))) := by
  refine ⟨fun m hm => ?_, ?_⟩
  · obtain ⟨f, text, s, rest, h1, h2, h3, h4, -⟩ := (C70_loaded hl).2.2.1 m hm
    exact ⟨f, text, s, rest, h1, h2, h3, h4⟩
  obtain ⟨m, h2, heff⟩ := plain he dirs hp ha
  obtain ⟨ts, t1, t2⟩ := C86_runs (sys := sys) (e := e) (plain_items dirs a) (plain_ends args) (by rw [heff]; rfl) (m := m) (by rw [heff]) (by rw [heff]; intro f hf; cases hf) (program := program)
    (by rw [heff, h2]; exact hl) htc argv0
  refine ⟨ts, t1, fun ht steps fuel depth o => ?_⟩
  have := t2 ht steps fuel depth o
  rw [plain_args] at this
  rw [this]
  simp only [given, if_true]

/-- C86: a compiled program, given arguments without `--`, does what fble-stdio does with its source given them after `--`, if no assertion fails in that run. -/
theorem C86_same {sys : System} {e : Env} (he : Looks sys e) (dirs : List Arg) {p : Path} (hp : p ≠ [] ∧ ∀ n ∈ p, n.space = .normal ∧ n.str ≠ [] ∧ ∀ b ∈ n.str, Text.Spec.WordChar b ∧ b ≠ 0xFF)
    {a : Arg} (ha : bytes a = Text.printPath p) {program} (hl : FbleLoad sys.files (dirs.map bytes) p (some program)) {n tcs} (htc : Elab.tcProgram n (modules program) = .ok (some tcs)) (sg : Bool) :
    ∃ ts, All2 Elab.ErasesModule (modules program) ts ∧ ((∀ t ∈ ts, t.Tables) → ∃ mds, Elab.linkMods [] (modules program) tcs = some mds ∧ ∀ names locs, All2 (Backend.NamesFor sg) mds names →
      ∃ cmods amods, Backend.compileC sg mds names = some cmods ∧ Backend.compileA sg mds names locs = some amods ∧
      ∀ argv0 argv0' args, "--".toList ∉ argv0 :: args → ∀ steps fuel depth,
        (¬ StdioMain sys e n steps fuel depth argv0' (dirs.flatMap (fun d => ["-I".toList, d]) ++ ["-m".toList, a, "--".toList] ++ args) (.ran .crash)) → ∀ o,
        (CompiledMain sys e (fun args => ended depth (Host.cProcess mds cmods (stdioHost args) steps fuel sys.world.outside)) argv0 args o ↔
          StdioMain sys e n steps fuel depth argv0' (dirs.flatMap (fun d => ["-I".toList, d]) ++ ["-m".toList, a, "--".toList] ++ args) o) ∧
        ∀ profiling, (CompiledMain sys e (fun args => ended depth (Host.a64Process mds amods profiling (stdioHost args) steps fuel sys.world.outside)) argv0 args o ↔
          StdioMain sys e n steps fuel depth argv0' (dirs.flatMap (fun d => ["-I".toList, d]) ++ ["-m".toList, a, "--".toList] ++ args) o)) := by
  have hne : modules program ≠ [] := by
    intro he
    have : program = [] := by simpa [modules] using he
    subst this
    simpa using (C70_loaded hl).1
  obtain ⟨ts, mds, k1, k2, k3⟩ := Elab.tcProgram_ok htc
  refine ⟨ts, k3.erases, fun ht => ⟨mds, k1, fun names locs hn => ?_⟩⟩
  obtain ⟨codes, g1, g2⟩ := Host.meaning_interpreted (Host.mods_ne k3 hne) (k3.progOk ht)
  obtain ⟨cmods, _, e1, e2, e3⟩ := Backend.compiledC_rel (Host.mods_ne k3 hne) (k3.progOk ht) hn g1
  obtain ⟨amods, _, f1, f2⟩ := Backend.compiledA_rel locs (Host.mods_ne k3 hne) (k3.progOk ht) hn g1
  refine ⟨cmods, amods, e1, f1, fun argv0 argv0' args hdash steps fuel depth hcrash o => ?_⟩
  have hint : ∀ o, StdioMain sys e n steps fuel depth argv0' (dirs.flatMap (fun d => ["-I".toList, d]) ++ ["-m".toList, a, "--".toList] ++ args) o ↔
      o = .ran (ended depth (interpretedProcess mds codes (stdioHost (args.map fun a => (bytes a).map UInt8.toNat)) steps fuel sys.world.outside)) := by
    intro o
    obtain ⟨m, h2, heff⟩ := plain he dirs hp ha
    have := runs_interpreted (sys := sys) (e := e) (plain_items dirs a) (plain_ends args) (by rw [heff]; rfl) (m := m) (by rw [heff]) (by rw [heff]; intro f hf; cases hf) (program := program)
      (by rw [heff, h2]; exact hl) htc argv0' k1 g1 steps fuel depth o
    rw [plain_args] at this
    rw [this]
    simp only [given, if_true]
  have hc : interpretedProcess mds codes (stdioHost (args.map fun a => (bytes a).map UInt8.toNat)) steps fuel sys.world.outside ≠ .crash := by
    intro hc
    apply hcrash
    rw [hint, hc]
    rfl
  have hw := Host.not_wild (g2 (stdioHost (args.map fun a => (bytes a).map UInt8.toNat)) steps fuel sys.world.outside)
  constructor
  · rw [(C86_compiled sys e _ argv0).1 args hdash, hint]
    have : ended depth (Host.cProcess mds cmods _ steps fuel sys.world.outside) = _ :=
      Host.ended_generated ((e3 fuel _).bind fun _ _ _ _ hv hs => Host.host_generated e2 _ steps (.cons hv .nil) hs) hw hc depth
    rw [this]
    exact Iff.rfl
  · intro profiling
    rw [(C86_compiled sys e _ argv0).1 args hdash, hint]
    have : ended depth (Host.a64Process mds amods profiling _ steps fuel sys.world.outside) = _ :=
      Host.ended_generated (((f2 profiling).2 fuel _).bind fun _ _ _ _ hv hs => Host.host_generated (f2 profiling).1 _ steps (.cons hv .nil) hs) hw hc depth
    rw [this]
    exact Iff.rfl

/-- There are such functions for every system. -/
theorem looks_exists (sys : System) : ∃ e, Looks sys e := by
  have hn : ∀ n : Nat, n < 256 → (Char.ofNat n).toNat = n := by decide +kernel
  have hb : ∀ s : Str, bytes (s.map fun b => Char.ofNat b.toNat) = s := by
    intro s
    simp only [bytes, List.map_map]
    conv => rhs; rw [← List.map_id s]
    apply List.map_congr_left
    intro b _
    simp only [Function.comp_apply, ch, hn _ b.toNat_lt, id]
    exact UInt8.ofNat_toNat
  have hpath : ∀ sp : SPath, ∃ m, pathOf m = sp.path := by
    intro sp
    induction sp with
    | word w => exact ⟨[(Text.toCStr w).map fun b => Char.ofNat b.toNat], by simp [pathOf, SPath.path, hb]⟩
    | slash sp w ih =>
      obtain ⟨m, hm⟩ := ih
      exact ⟨m ++ [(Text.toCStr w).map fun b => Char.ofNat b.toNat], by simp [pathOf, SPath.path, hb, ← hm]⟩
  have hparse : ∀ v : Arg, ∃ m : Option (List Arg), (0xFF : Byte) ∉ bytes v → ∃ ok, FbleParseModulePathString (bytes v) (m.map pathOf) ok := by
    intro v
    by_cases hff : (0xFF : Byte) ∈ bytes v
    · exact ⟨none, fun h => absurd hff h⟩
    · obtain ⟨ts, l, r, h1, -⟩ := tokens_of true (bytes v) (fun _ => hff)
      obtain ⟨res, ok, h2⟩ := (C69_total ts).1
      cases res with
      | none => exact ⟨none, fun _ => ⟨ok, ts, l, h1, h2⟩⟩
      | some p =>
        obtain ⟨sp, rest, -, rfl⟩ := (C69_path ts p).mp ⟨ok, h2⟩
        obtain ⟨m, hm⟩ := hpath sp
        exact ⟨some m, fun _ => ⟨ok, ts, l, h1, by rw [Option.map_some, hm]; exact h2⟩⟩
  refine ⟨⟨fun v => (Text.findPackage sys.files.access sys.default sys.packagePath (bytes v)).map fun s => s.map fun b => Char.ofNat b.toNat, fun v => (hparse v).choose⟩, ?_, fun v => (hparse v).choose_spec⟩
  intro v
  show Option.map bytes (Option.map _ (Text.findPackage sys.files.access sys.default sys.packagePath (bytes v))) = _
  generalize Text.findPackage sys.files.access sys.default sys.packagePath (bytes v) = x
  cases x with
  | none => rfl
  | some s => simp [hb]

/-- C86: with a program without polymorphic definitions whose last module has the type `Main@` (C82), no assertion fails and nothing is accessed that is not there. -/
theorem C86_safe {sys : System} {e : Env} (he : Looks sys e) (dirs : List Arg) {p : Path} (hp : p ≠ [] ∧ ∀ n ∈ p, n.space = .normal ∧ n.str ≠ [] ∧ ∀ b ∈ n.str, Text.Spec.WordChar b ∧ b ≠ 0xFF)
    {a : Arg} (ha : bytes a = Text.printPath p) {program} (hl : FbleLoad sys.files (dirs.map bytes) p (some program)) {n tcs} (htc : Elab.tcProgram n (modules program) = .ok (some tcs))
    (hm : Elab.Monomorphic n (modules program)) {hf types t} (hend : Elab.atEnd n [] [] (modules program) [] = .ok (hf, types ++ [some t])) (hmain : Nonempty (Host.StdioTypes (Elab.openAll hf) t)) :
    ∃ ts, All2 Elab.ErasesModule (modules program) ts ∧ ((∀ t ∈ ts, t.Tables) → ∀ argv0 args steps fuel depth o,
      StdioMain sys e n steps fuel depth argv0 (dirs.flatMap (fun d => ["-I".toList, d]) ++ ["-m".toList, a, "--".toList] ++ args) o → ∃ r, o = .ran r ∧ r ≠ .crash ∧ r ≠ .wild) := by
  have hne : modules program ≠ [] := by
    intro he
    have : program = [] := by simpa [modules] using he
    subst this
    simpa using (C70_loaded hl).1
  obtain ⟨ts, mds, k1, k2, k3⟩ := Elab.tcProgram_ok htc
  refine ⟨ts, k3.erases, fun ht argv0 args steps fuel depth o ho => ?_⟩
  obtain ⟨codes, g1, g2⟩ := Host.meaning_interpreted (Host.mods_ne k3 hne) (k3.progOk ht)
  obtain ⟨m, h2, heff⟩ := plain he dirs hp ha
  rw [← plain_args, runs_interpreted (sys := sys) (e := e) (plain_items dirs a) (plain_ends args) (by rw [heff]; rfl) (m := m) (by rw [heff]) (by rw [heff]; intro f hf; cases hf) (program := program)
      (by rw [heff, h2]; exact hl) htc argv0 k1 g1 steps fuel depth o] at ho
  refine ⟨_, ho, ?_⟩
  obtain ⟨hf', types', t', q1, mts, q2⟩ := Host.main_type htc hne hm k1
  rw [hend] at q1
  simp only [Types.R.ok.injEq, Prod.mk.injEq] at q1
  obtain ⟨rfl, q1⟩ := q1
  obtain ⟨-, q3⟩ := List.append_inj' q1 rfl
  cases q3
  obtain ⟨S⟩ := hmain
  rw [Host.ended_rel (g2 _ steps fuel _) depth]
  exact Host.safe_of_good (N := S.natives sys.world) (Host.process_good (N := S.natives sys.world) (S.nativesOk sys.world) q2 (S.hostTy sys.world (given ("--".toList :: args)) steps) fuel) depth

/-! ### Examples -/

namespace Example

def sys : System := ⟨fs, none, str "/usr/share/fble", fun _ => false, ⟨[], fun _ => none, fun _ => false, fun _ => none⟩⟩

theorem tables {ts : List Elab.N} (h : All2 Elab.ErasesModule (modules program) ts) : ∀ t ∈ ts, t.Tables := by
  cases h with
  | cons h1 h =>
    cases h with
    | cons h2 h =>
      cases h with
      | nil =>
        simp only [List.mem_cons, List.not_mem_nil, or_false, forall_eq_or_imp, forall_eq]
        constructor
        · replace h1 : Elab.Erases _ _ libExpr _ := h1
          cases h1 with
          | letE a b =>
            simp only [Elab.Binds.toList, List.map_cons, List.map_nil] at a
            cases a with
            | cons a a' =>
              cases a' with
              | nil =>
                cases a with
                | dataType =>
                  refine ⟨⟨trivial, trivial⟩, ?_⟩
                  cases b with
                  | apply c d f g =>
                    simp only [Elab.Exprs.toList] at g
                    cases g with
                    | nil => cases f <;> trivial
                  | structValue c d f =>
                    simp only [Elab.Exprs.toList] at f
                    cases f with
                    | nil => trivial
        · replace h2 : Elab.Erases _ _ mainExpr _ := h2
          cases h2 with
          | letE a b =>
            simp only [Elab.Binds.toList, List.map_cons, List.map_nil] at a
            cases a with
            | cons a a' =>
              cases a' with
              | nil =>
                cases a with
                | modulePath =>
                  refine ⟨⟨trivial, trivial⟩, ?_⟩
                  cases b <;> trivial

/-- `fble-stdio -I old -I src -m /Main% -- hello`. -/
example (argv0 : Arg) : ∃ e ts, Looks sys e ∧ ∀ steps fuel depth o,
    StdioMain sys e 20 steps fuel depth argv0 ["-I".toList, "old".toList, "-I".toList, "src".toList, "-m".toList, "/Main%".toList, "--".toList, "hello".toList] o ↔
      o = .ran (ended depth (namedProcess (((modules program).map (·.path)).zip ts) (stdioHost [[104, 101, 108, 108, 111]]) steps fuel sys.world.outside)) := by
  obtain ⟨e, he⟩ := looks_exists sys
  obtain ⟨tcs, htc⟩ := checked
  obtain ⟨-, ts, h1, h2⟩ := C86_command he ["old".toList, "src".toList] (p := mainPath)
    ⟨by decide, by decide +kernel⟩ (a := "/Main%".toList) (by decide +kernel) (program := program) loaded htc argv0 ["hello".toList]
  refine ⟨e, ts, he, fun steps fuel depth o => ?_⟩
  exact h2 (tables h1) steps fuel depth o

end Example

end Verif.Whole
