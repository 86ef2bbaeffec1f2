import Verif.Whole.Stdio
/-
C87: fble-compile, from the command line to what it writes, and the programs built by compiling each module on its own.
-/
namespace Verif.Whole
open Parse
open Text (Str Byte ch Path)
open Args (Arg Env Recognised effects)
open Host (World Ended ended exitStatus stdioHost namedProcess)

/-- bin/fble-compile.c:23-26. -/
inductive Target where
  | aarch64
  | c
deriving DecidableEq

/-- What fble-compile writes: FbleGenerateAArch64Export or FbleGenerateCExport, FbleGenerateAArch64Main or FbleGenerateCMain, and FbleGenerateAArch64 or FbleGenerateC for a module with this
path, which refers to these modules. -/
inductive Piece where
  | exported (t : Target) (name : Arg) (path : Path)
  | main (t : Target) (name : Arg) (path : Path)
  | module (t : Target) (path : Path) (deps : List Path) (tc : Compile.Tc)

/-- bin/fble-compile.c:86-98. -/
def targetOf : Option Arg → Option Target
  | none => some .aarch64
  | some a => if a = "aarch64".toList then some .aarch64 else if a = "c".toList then some .c else none

/-- What follows the options: the exit status, or what is to be done. -/
inductive Job where
  | exit (status : Int)
  | write (t : Target) (pieces : List Piece) (compile : Bool) (roots : List Str) (path : Path)

/-- bin/fble-compile.c:67-127. -/
def job (s : Args.St) : Job :=
  if s.flags "version" then .exit 0
  else if s.flags "help" then .exit 0
  else if s.error then .exit 2
  else match targetOf (s.strs "target_string") with
    | none => .exit 2
    | some t =>
      if !s.flags "compile" && (s.strs "export").isNone && (s.strs "main_").isNone then .exit 2
      else match s.module with
        | none => .exit 2
        | some m =>
          .write t ((s.strs "export").toList.map (fun name => .exported t name (pathOf m)) ++ (s.strs "main_").toList.map fun name => .main t name (pathOf m))
            (s.flags "compile") (s.search.map bytes) (pathOf m)

/-- The command fble-compile: bin/fble-compile.c:39-155, with FbleCompileModule (compile.c:1438-1451) and FbleTypeCheckModule (typecheck.c:2361-2374), which give what the type checker makes of the last
module of the program.  The exit status and what is written. -/
inductive CompileMain (sys : System) (e : Env) (n : Nat) (args : List Arg) : Int × List Piece → Prop where
  | exits {k s status} : Args.loop e Args.compile k (start args) = some s → job s = .exit status → CompileMain sys e n args (status, [])
  | wrote {k s t pieces roots path} : Args.loop e Args.compile k (start args) = some s → job s = .write t pieces false roots path → CompileMain sys e n args (0, pieces)
  | notLoaded {k s t pieces roots path} : Args.loop e Args.compile k (start args) = some s → job s = .write t pieces true roots path → FbleLoad sys.files roots path none →
      CompileMain sys e n args (1, pieces)
  | rejected {k s t pieces roots path program} : Args.loop e Args.compile k (start args) = some s → job s = .write t pieces true roots path →
      FbleLoad sys.files roots path (some program) → Elab.tcProgram n (modules program) = .ok none → CompileMain sys e n args (1, pieces)
  | compiled {k s t pieces roots path program tcs m tc} : Args.loop e Args.compile k (start args) = some s → job s = .write t pieces true roots path →
      FbleLoad sys.files roots path (some program) → Elab.tcProgram n (modules program) = .ok (some tcs) → program.getLast? = some m → tcs.getLast? = some tc →
      CompileMain sys e n args (0, pieces ++ [.module t path m.2.1 tc])

/-! ### Options -/

theorem loop_unique {e : Env} {g : Args.Program} {k k' : Nat} {s r r' : Args.St} (h : Args.loop e g k s = some r) (h' : Args.loop e g k' s = some r') : r = r' := by
  have a := loop_mono (Nat.le_max_left k k') h
  rw [loop_mono (Nat.le_max_right k k') h'] at a
  exact (Option.some.inj a).symm

theorem CompileMain.unique {sys : System} {e : Env} {n args o o'} (h : CompileMain sys e n args o) (h' : CompileMain sys e n args o') : o = o' := by
  cases h with
  | exits h1 h2 =>
    cases h' with
    | exits g1 g2 => obtain rfl := loop_unique h1 g1; rw [h2] at g2; cases g2; rfl
    | wrote g1 g2 | notLoaded g1 g2 | rejected g1 g2 | compiled g1 g2 => obtain rfl := loop_unique h1 g1; rw [h2] at g2; cases g2
  | wrote h1 h2 =>
    cases h' with
    | wrote g1 g2 => obtain rfl := loop_unique h1 g1; rw [h2] at g2; cases g2; rfl
    | exits g1 g2 | notLoaded g1 g2 | rejected g1 g2 | compiled g1 g2 => obtain rfl := loop_unique h1 g1; rw [h2] at g2; cases g2
  | notLoaded h1 h2 h3 =>
    cases h' with
    | notLoaded g1 g2 g3 => obtain rfl := loop_unique h1 g1; rw [h2] at g2; cases g2; rfl
    | rejected g1 g2 g3 | compiled g1 g2 g3 => obtain rfl := loop_unique h1 g1; rw [h2] at g2; cases g2; cases load_unique h3 g3
    | exits g1 g2 | wrote g1 g2 => obtain rfl := loop_unique h1 g1; rw [h2] at g2; cases g2
  | rejected h1 h2 h3 h4 =>
    cases h' with
    | rejected g1 g2 g3 => obtain rfl := loop_unique h1 g1; rw [h2] at g2; cases g2; rfl
    | notLoaded g1 g2 g3 => obtain rfl := loop_unique h1 g1; rw [h2] at g2; cases g2; cases load_unique h3 g3
    | compiled g1 g2 g3 g4 => obtain rfl := loop_unique h1 g1; rw [h2] at g2; cases g2; cases load_unique h3 g3; rw [h4] at g4; cases g4
    | exits g1 g2 | wrote g1 g2 => obtain rfl := loop_unique h1 g1; rw [h2] at g2; cases g2
  | compiled h1 h2 h3 h4 h5 h6 =>
    cases h' with
    | compiled g1 g2 g3 g4 g5 g6 =>
      obtain rfl := loop_unique h1 g1; rw [h2] at g2; cases g2; cases load_unique h3 g3; rw [h4] at g4; cases g4; rw [h5] at g5; cases g5; rw [h6] at g6; cases g6; rfl
    | notLoaded g1 g2 g3 => obtain rfl := loop_unique h1 g1; rw [h2] at g2; cases g2; cases load_unique h3 g3
    | rejected g1 g2 g3 g4 => obtain rfl := loop_unique h1 g1; rw [h2] at g2; cases g2; cases load_unique h3 g3; rw [h4] at g4; cases g4
    | exits g1 g2 | wrote g1 g2 => obtain rfl := loop_unique h1 g1; rw [h2] at g2; cases g2

/-- The variables after the options of a command that takes nothing but options. -/
theorem loop_all (e : Env) {g : Args.Program} (hg : Args.wf g = true) {items : List Args.Item} (hi : ∀ i ∈ items, i.Of g) :
    ∃ k s, Args.loop e g k (start (items.flatMap Args.Item.encode)) = some s ∧ Args.Same s (effects e items (start [])) := by
  obtain ⟨k, s, h1, h2, -, -⟩ := Args.C48_options e hg items hi (start (items.flatMap Args.Item.encode)) rfl rfl
  exact ⟨k, s, h1, h2.trans (Args.effects_same e items ⟨rfl, rfl, rfl, rfl, rfl, rfl⟩)⟩

theorem compile_wf : Args.wf Args.compile = true := by decide +kernel

theorem job_same {s t : Args.St} (h : Args.Same s t) : job s = job t := by
  obtain ⟨h1, h2, -, h4, h5, h6⟩ := h
  simp only [job, h1, h2, h4, h5, h6]

/-- The target that the options name. -/
inductive Names : Option Arg → Target → Prop
  | default : Names none .aarch64
  | aarch64 : Names (some "aarch64".toList) .aarch64
  | c : Names (some "c".toList) .c

theorem names_iff {a : Option Arg} {t : Target} : Names a t ↔ targetOf a = some t := by
  constructor
  · intro h
    cases h <;> decide
  · intro h
    cases a with
    | none => cases h; exact .default
    | some a =>
      simp only [targetOf] at h
      split at h
      · rename_i ha; subst ha; cases h; exact .aarch64
      · split at h
        · rename_i ha; subst ha; cases h; exact .c
        · cases h

/-- C87, what fble-compile does, for every list of its options: exit status 0 for help and version; 2 for an error in the options, a target that is not known, nothing to do, or no module; otherwise what is
asked for is written for the target, and if the module is to be compiled the exit status is 1 exactly if it cannot be loaded or does not type check, and otherwise the module is written and the status is 0. -/
theorem C87_compile {sys : System} {e : Env} {items : List Args.Item} (hi : ∀ i ∈ items, i.Of Args.compile) (n : Nat) :
    let s := effects e items (start [])
    let ends := fun (o : Int × List Piece) => ∀ o', CompileMain sys e n (items.flatMap Args.Item.encode) o' ↔ o' = o
    (s.flags "version" = true ∨ s.flags "help" = true → ends (0, [])) ∧
    (s.flags "version" = false → s.flags "help" = false → s.error = true → ends (2, [])) ∧
    (Args.stop s = false →
      ((¬ ∃ t, Names (s.strs "target_string") t) → ends (2, [])) ∧
      (s.flags "compile" = false → s.strs "export" = none → s.strs "main_" = none → ends (2, [])) ∧
      (s.module = none → ends (2, [])) ∧
      ∀ t m, Names (s.strs "target_string") t → s.module = some m → (s.flags "compile" = true ∨ s.strs "export" ≠ none ∨ s.strs "main_" ≠ none) →
        let pieces := (s.strs "export").toList.map (fun name => Piece.exported t name (pathOf m)) ++ (s.strs "main_").toList.map fun name => .main t name (pathOf m)
        (s.flags "compile" = false → ends (0, pieces)) ∧
        (s.flags "compile" = true →
          (FbleLoad sys.files (s.search.map bytes) (pathOf m) none → ends (1, pieces)) ∧
          ∀ program, FbleLoad sys.files (s.search.map bytes) (pathOf m) (some program) →
            (Elab.tcProgram n (modules program) = .ok none → ends (1, pieces)) ∧
            ∀ tcs md tc, Elab.tcProgram n (modules program) = .ok (some tcs) → program.getLast? = some md → tcs.getLast? = some tc →
              ends (0, pieces ++ [.module t (pathOf m) md.2.1 tc]))) := by
  intro s ends
  have only : ∀ {o}, CompileMain sys e n (items.flatMap Args.Item.encode) o → ends o := fun h o' => ⟨fun ho => ho.unique h, fun he => he ▸ h⟩
  obtain ⟨k, t, h1, h2⟩ := loop_all e compile_wf hi
  have hj : job t = job s := job_same h2
  refine ⟨fun h => only (.exits h1 (hj.trans ?_)), fun hv hh he => only (.exits h1 (hj.trans ?_)), fun h0 => ?_⟩
  · unfold job
    rcases h with h | h
    · rw [if_pos h]
    · split
      · rfl
      · rfl
  · simp [job, hv, hh, he]
  · obtain ⟨f1, f2, f3⟩ := not_stop.mp h0
    refine ⟨fun ht => only (.exits h1 (hj.trans ?_)), fun c1 c2 c3 => only (.exits h1 (hj.trans ?_)), fun hm => only (.exits h1 (hj.trans ?_)), ?_⟩
    · cases hn : targetOf (s.strs "target_string") with
      | none => simp [job, f1, f2, f3, hn]
      | some t => exact absurd ⟨t, names_iff.mpr hn⟩ ht
    · cases hn : targetOf (s.strs "target_string") <;> simp [job, f1, f2, f3, hn, c1, c2, c3]
    · cases hn : targetOf (s.strs "target_string") with
      | none => simp [job, f1, f2, f3, hn]
      | some t => simp [job, f1, f2, f3, hn, hm]
    · intro tg m ht hm hdo pieces
      have hw : job t = .write tg pieces (s.flags "compile") (s.search.map bytes) (pathOf m) := by
        rw [hj]
        have hc : ¬ (!s.flags "compile" && (s.strs "export").isNone && (s.strs "main_").isNone) = true := by
          rcases hdo with h | h | h
          · simp [h]
          · simp [h]
          · simp [h]
        unfold job
        simp only [f1, f2, f3, names_iff.mp ht, hc, hm]
        rfl
      refine ⟨fun hc => only (.wrote h1 (hc ▸ hw)), fun hc => ⟨fun hl => only (.notLoaded h1 (hc ▸ hw) hl), fun program hl => ⟨fun htc => only (.rejected h1 (hc ▸ hw) hl htc), ?_⟩⟩⟩
      exact fun tcs md tc htc hmd hlast => only (.compiled h1 (hc ▸ hw) hl htc hmd hlast)

/-! ### Modules compiled one by one -/

/-- A module of a program is the last one of the program that is loaded for it. -/
theorem loaded_last {fs : Files} {roots root program program'} (h : FbleLoad fs roots root (some program)) {m} (hm : m ∈ program) (h' : FbleLoad fs roots m.1 (some program')) :
    program'.getLast? = some m := by
  have key : ∀ {root program}, FbleLoad fs roots root (some program) → ∀ {look : Path → Load.FileResult Path Str × Option Elab.Expr}, (∀ p, Finds fs roots p (look p)) →
      ∀ m ∈ program, ∃ f, look m.1 = (.ok f m.2.1, some m.2.2) := by
    rintro root program ⟨look', r, h1, h2, h3⟩ look hlook m hm
    obtain rfl := look_unique h1 hlook
    cases hr : r.modules with
    | none => rw [hr] at h3; cases h3
    | some ms =>
      rw [hr] at h3
      simp only [Option.map_some, Option.some.injEq] at h3
      obtain ⟨-, -, g3, -, -⟩ := Load.C26_load_ok h2 hr
      have : (m.1, m.2.1, some m.2.2) ∈ ms.map fun m => (m.path, m.deps, (look' m.path).2) := by
        rw [h3]
        exact List.mem_map.mpr ⟨m, hm, rfl⟩
      obtain ⟨x, hx, he⟩ := List.mem_map.mp this
      simp only [Prod.mk.injEq] at he
      obtain ⟨e1, e2, e3⟩ := he
      obtain ⟨f, hf⟩ := g3 x hx
      rw [e1] at hf e3
      exact ⟨f, Prod.ext (by rw [hf, e2]) e3⟩
  obtain ⟨look, hlook⟩ := exists_look fs roots
  obtain ⟨f, hf⟩ := key h hlook m hm
  have hl := (C70_loaded h').1
  cases hp : program'.getLast? with
  | none =>
    rw [List.getLast?_eq_none_iff] at hp
    subst hp
    simp at hl
  | some m' =>
    have hm' : m'.1 = m.1 := by
      rw [List.getLast?_map, hp] at hl
      simpa using hl
    obtain ⟨f', hf'⟩ := key h' hlook m' (List.mem_of_getLast? hp)
    rw [hm', hf] at hf'
    simp only [Prod.mk.injEq, Load.FileResult.ok.injEq, Option.some.injEq] at hf'
    obtain ⟨a, b, c⟩ := m
    obtain ⟨a', b', c'⟩ := m'
    simp only at hm' hf'
    rw [hm', ← hf'.1.2, ← hf'.2]

/-- The modules a module refers to come before it. -/
theorem deps_before {fs : Files} {roots root program} (h : FbleLoad fs roots root (some program)) {pre m post} (hp : program = pre ++ m :: post) : ∀ d ∈ m.2.1, d ∈ pre.map (·.1) := by
  obtain ⟨look, r, h1, h2, h3⟩ := h
  cases hr : r.modules with
  | none => rw [hr] at h3; cases h3
  | some ms =>
    rw [hr] at h3
    simp only [Option.map_some, Option.some.injEq] at h3
    obtain ⟨-, -, -, g4, -⟩ := Load.C26_load_ok h2 hr
    rw [hp, List.map_append, List.map_cons, List.map_eq_append_iff] at h3
    obtain ⟨l1, l2, rfl, e1, e2⟩ := h3
    obtain ⟨x, l3, rfl, e3, e4⟩ := List.map_eq_cons_iff.mp e2
    simp only [Prod.mk.injEq] at e3
    intro d hd
    rw [← e3.2.1] at hd
    have := g4 l1 x l3 rfl d hd
    have e5 := congrArg (List.map (·.1)) e1
    simp only [List.map_map, Function.comp_def] at e5
    rw [← e5]
    exact this

theorem modsOk_last {done ms ts mds} (h : Elab.ModsOk done ms ts mds) : ∀ {m}, ms.getLast? = some m → ∃ done' t md, mds.getLast? = some md ∧ Elab.ModOk done' m t md := by
  induction h with
  | nil => intro m h; cases h
  | @cons done m ms t ts md mds hm hr ih =>
    intro m' h
    cases hr with
    | nil =>
      simp only [List.getLast?_singleton, Option.some.injEq] at h
      subst h
      exact ⟨_, t, md, rfl, hm⟩
    | cons a b =>
      rw [List.getLast?_cons_cons] at h ⊢
      exact ih h

/-- What the type checker makes of a module: as the last one of some program. -/
def ChecksTo (m : Elab.Module) (tc : Compile.Tc) : Prop :=
  ∃ n program tcs, program.getLast? = some m ∧ Elab.tcProgram n program = .ok (some tcs) ∧ tcs.getLast? = some tc

theorem ChecksTo.ok {m : Elab.Module} {tc : Compile.Tc} (h : ChecksTo m tc) : ∃ t cx, Elab.ErasesModule m t ∧ Elab.ModuleCx m.deps cx ∧ Elab.Conv 0 cx t tc := by
  obtain ⟨n, program, tcs, h1, h2, h3⟩ := h
  obtain ⟨ts, mds, -, k2, k3⟩ := Elab.tcProgram_ok h2
  obtain ⟨done, t, md, g1, g2⟩ := modsOk_last k3 h1
  obtain ⟨cx, c1, c2⟩ := g2.conv
  rw [← k2, List.getLast?_map, g1] at h3
  cases h3
  exact ⟨t, cx, g2.erases, c1, c2⟩

theorem findModule_some {d : List Types.Name} : {ms : List Elab.Module} → d ∈ ms.map (·.path) → ∃ i, Elab.findModule d ms = some i
  | m :: ms, h => by
    rw [Elab.findModule]
    split
    · exact ⟨0, rfl⟩
    · rename_i hne
      rw [List.map_cons, List.mem_cons] at h
      rcases h with rfl | h
      · exact absurd (Elab.pathsEqual_iff.mpr rfl) hne
      · obtain ⟨i, hi⟩ := findModule_some h
        exact ⟨i + 1, by rw [hi]; rfl⟩

theorem deps_found {done : List Elab.Module} : {ds : List (List Types.Name)} → (∀ d ∈ ds, d ∈ done.map (·.path)) →
    ∃ is, ds.mapM (fun d => Elab.findModule d done) = some is ∧ All2 (fun d i => Elab.findModule d done = some i) ds is
  | [], _ => ⟨[], rfl, .nil⟩
  | d :: ds, h => by
    obtain ⟨i, hi⟩ := findModule_some (h d (by simp))
    obtain ⟨is, h1, h2⟩ := deps_found (ds := ds) fun d hd => h d (by simp [hd])
    exact ⟨i :: is, by simp [hi, h1], .cons hi h2⟩

/-- Modules that were checked one by one make a program. -/
theorem separate_ok : {ms : List Elab.Module} → {done : List Elab.Module} → {tcs : List Compile.Tc} → All2 ChecksTo ms tcs →
    (∀ pre m post, ms = pre ++ m :: post → ∀ d ∈ m.deps, d ∈ (done ++ pre).map (·.path)) → ∃ ts mds, Elab.linkMods done ms tcs = some mds ∧ Elab.ModsOk done ms ts mds
  | [], done, _, .nil, _ => ⟨[], [], rfl, .nil⟩
  | m :: ms, done, tc :: tcs, .cons h hs, hd => by
    obtain ⟨t, cx, g1, g2, g3⟩ := h.ok
    obtain ⟨is, i1, i2⟩ := deps_found (done := done) (ds := m.deps) (by simpa using hd [] m ms rfl)
    obtain ⟨ts, mds, k1, k2⟩ := separate_ok (done := done ++ [m]) hs fun pre m' post he d hd' => by
      have := hd (m :: pre) m' post (by rw [he]; rfl) d hd'
      simpa using this
    exact ⟨t :: ts, ⟨is, tc⟩ :: mds, by simp [Elab.linkMods, i1, k1], .cons ⟨g1, i2, cx, g2, g3⟩ k2⟩

/-- The options for compiling a module: `-I d1 .. -I dk -t target -c -m path`. -/
def compileArgs (dirs : List Arg) (t : Target) (a : Arg) : List Arg :=
  dirs.flatMap (fun d => ["-I".toList, d]) ++ ["-t".toList, match t with | .aarch64 => "aarch64".toList | .c => "c".toList, "-c".toList, "-m".toList, a]

/-- Every module of the program, compiled on its own for the target: fble-compile ends with status 0 and writes the module. -/
def BuiltFrom (sys : System) (e : Env) (dirs : List Arg) (t : Target) (program : List (Path × List Path × Elab.Expr)) (tcs : List Compile.Tc) : Prop :=
  All2 (fun m tc => ∃ n a, bytes a = Text.printPath m.1 ∧ CompileMain sys e n (compileArgs dirs t a) (0, [.module t m.1 m.2.1 tc])) program tcs

theorem compile_items (dirs : List Arg) (t : Target) (a : Arg) : let name := match t with | .aarch64 => "aarch64".toList | .c => "c".toList
    let items : List Args.Item := dirs.map Args.Item.incl ++ [.str "-t" "target_string" name, .flag "-c" "compile", .module false a]
    (∀ i ∈ items, i.Of Args.compile) ∧ items.flatMap Args.Item.encode = compileArgs dirs t a ∧ Names (some name) t := by
  refine ⟨?_, ?_, by cases t; exacts [.aarch64, .c]⟩
  · intro i hi
    rcases List.mem_append.mp hi with hi | hi
    · obtain ⟨d, -, rfl⟩ := List.mem_map.mp hi
      simp [Args.Item.Of, Args.compile, Args.helpVersion]
    · simp only [List.mem_cons, List.not_mem_nil, or_false] at hi
      rcases hi with rfl | rfl | rfl <;> simp [Args.Item.Of, Args.compile, Args.helpVersion]
  · cases t <;> simp [List.flatMap_map, Args.Item.encode, compileArgs]

/-- The path of a module, as an argument. -/
theorem parse_path {sys : System} {e : Env} (he : Looks sys e) {p : Path} (hp : p ≠ [] ∧ ∀ n ∈ p, n.space = .normal ∧ n.str ≠ [] ∧ ∀ b ∈ n.str, Text.Spec.WordChar b ∧ b ≠ 0xFF)
    {a : Arg} (ha : bytes a = Text.printPath p) : ∃ m, e.parse a = some m ∧ pathOf m = p := by
  obtain ⟨m, h1, h2⟩ := plain he [] hp ha
  cases hm : e.parse a with
  | none => simp [effects, Args.stop, start, Args.Item.effect, hm] at h2
  | some m' =>
    simp [effects, Args.stop, start, Args.Item.effect, hm] at h2
    exact ⟨m', rfl, by rw [h2]; exact h1⟩

/-- C87, one module: `fble-compile -I d1 .. -I dk -t target -c -m /a/b%` writes the module /a/b%, or ends with status 1. -/
theorem C87_module {sys : System} {e : Env} (he : Looks sys e) (dirs : List Arg) (t : Target)
    {p : Path} (hp : p ≠ [] ∧ ∀ n ∈ p, n.space = .normal ∧ n.str ≠ [] ∧ ∀ b ∈ n.str, Text.Spec.WordChar b ∧ b ≠ 0xFF) {a : Arg} (ha : bytes a = Text.printPath p) (n : Nat) (o : Int × List Piece) :
    CompileMain sys e n (compileArgs dirs t a) o ↔
      ((FbleLoad sys.files (dirs.map bytes) p none ∨ ∃ program, FbleLoad sys.files (dirs.map bytes) p (some program) ∧ Elab.tcProgram n (modules program) = .ok none) ∧ o = (1, [])) ∨
      ∃ program tcs m tc, FbleLoad sys.files (dirs.map bytes) p (some program) ∧ Elab.tcProgram n (modules program) = .ok (some tcs) ∧ program.getLast? = some m ∧ tcs.getLast? = some tc ∧
        o = (0, [.module t p m.2.1 tc]) := by
  obtain ⟨hi, henc, hn⟩ := compile_items dirs t a
  obtain ⟨m, h1, h2⟩ := parse_path he hp ha
  obtain ⟨k, s, l1, l2⟩ := loop_all e compile_wf hi
  rw [henc] at l1
  have heff : ∃ s', Args.Same s s' ∧ job s' = .write t [] true (dirs.map bytes) p := by
    refine ⟨_, l2, ?_⟩
    rw [effects_dirs e _ dirs (by rfl)]
    cases t <;> simp [effects, Args.stop, start, Args.Item.effect, Args.setAt, h1, job, targetOf, h2]
  obtain ⟨s', g1, g2⟩ := heff
  have hj : job s = .write t [] true (dirs.map bytes) p := (job_same g1).trans g2
  constructor
  · intro h
    cases h with
    | exits a1 a2 => obtain rfl := loop_unique l1 a1; rw [hj] at a2; cases a2
    | wrote a1 a2 => obtain rfl := loop_unique l1 a1; rw [hj] at a2; cases a2
    | notLoaded a1 a2 a3 => obtain rfl := loop_unique l1 a1; rw [hj] at a2; cases a2; exact .inl ⟨.inl a3, rfl⟩
    | rejected a1 a2 a3 a4 => obtain rfl := loop_unique l1 a1; rw [hj] at a2; cases a2; exact .inl ⟨.inr ⟨_, a3, a4⟩, rfl⟩
    | compiled a1 a2 a3 a4 a5 a6 => obtain rfl := loop_unique l1 a1; rw [hj] at a2; cases a2; exact .inr ⟨_, _, _, _, a3, a4, a5, a6, rfl⟩
  · rintro (⟨a3 | ⟨_, a3, a4⟩, rfl⟩ | ⟨_, _, _, _, a3, a4, a5, a6, rfl⟩)
    · exact .notLoaded l1 hj a3
    · exact .rejected l1 hj a3 a4
    · exact .compiled l1 hj a3 a4 a5 a6

theorem built_checks {sys : System} {e : Env} (he : Looks sys e) {dirs : List Arg} {t : Target} {root program} (hl : FbleLoad sys.files (dirs.map bytes) root (some program))
    (hp : ∀ m ∈ program, m.1 ≠ [] ∧ ∀ n ∈ m.1, n.space = .normal ∧ n.str ≠ [] ∧ ∀ b ∈ n.str, Text.Spec.WordChar b ∧ b ≠ 0xFF) {tcs} (hb : BuiltFrom sys e dirs t program tcs) :
    All2 ChecksTo (modules program) tcs := by
  have key : ∀ {ms tcs}, (∀ m ∈ ms, m ∈ program) → BuiltFrom sys e dirs t ms tcs → All2 ChecksTo (modules ms) tcs := by
    intro ms tcs hms hb
    unfold BuiltFrom at hb
    induction hb with
    | nil => exact .nil
    | @cons m tc ms tcs h _ ih =>
      refine .cons ?_ (ih fun m hm => hms m (by simp [hm]))
      have hm := hms m (by simp)
      obtain ⟨n, a, h1, h2⟩ := h
      rcases (C87_module he dirs t (hp m hm) h1 n _).mp h2 with ⟨-, h3⟩ | ⟨program', tcs', m', tc', g1, g2, g3, g4, g5⟩
      · cases h3
      · simp only [Prod.mk.injEq, List.cons.injEq, Piece.module.injEq, true_and, and_true] at g5
        obtain ⟨-, rfl⟩ := g5
        have := loaded_last hl hm g1
        refine ⟨n, modules program', tcs', ?_, g2, g4⟩
        rw [modules, List.getLast?_map, this]
        rfl
  exact key (fun _ h => h) hb

/-- C87. A program whose modules were compiled one by one with fble-compile, each from its own text and those of the modules it uses, and then linked: it does what the texts of the modules say, with any C
program that runs it, and any functions implemented in C; for C and for assembly. -/
theorem C87_separate {sys : System} {e : Env} (he : Looks sys e) {dirs : List Arg} {t : Target} {root program} (hl : FbleLoad sys.files (dirs.map bytes) root (some program))
    (hp : ∀ m ∈ program, m.1 ≠ [] ∧ ∀ n ∈ m.1, n.space = .normal ∧ n.str ≠ [] ∧ ∀ b ∈ n.str, Text.Spec.WordChar b ∧ b ≠ 0xFF) {tcs} (hb : BuiltFrom sys e dirs t program tcs) (sg : Bool) :
    ∃ ts, All2 Elab.ErasesModule (modules program) ts ∧ ((∀ t ∈ ts, t.Tables) → ∃ mds, Elab.linkMods [] (modules program) tcs = some mds ∧
      ∀ names locs, All2 (Backend.NamesFor sg) mds names → ∃ cmods amods, Backend.compileC sg mds names = some cmods ∧ Backend.compileA sg mds names locs = some amods ∧
      ∀ host steps fuel out, namedProcess (((modules program).map (·.path)).zip ts) host steps fuel out ≠ .crash → ∀ depth,
        ended depth (Host.cProcess mds cmods host steps fuel out) = ended depth (namedProcess (((modules program).map (·.path)).zip ts) host steps fuel out) ∧
        ∀ profiling, ended depth (Host.a64Process mds amods profiling host steps fuel out) = ended depth (namedProcess (((modules program).map (·.path)).zip ts) host steps fuel out)) := by
  have hne : modules program ≠ [] := by
    intro he
    have : program = [] := by simpa [modules] using he
    subst this
    simpa using (C70_loaded hl).1
  have hdeps : ∀ pre m post, modules program = pre ++ m :: post → ∀ d ∈ m.deps, d ∈ ([] ++ pre).map (·.path) := by
    intro pre m post hm d hd
    rw [modules, List.map_eq_append_iff] at hm
    obtain ⟨l1, l2, hm, rfl, e2⟩ := hm
    obtain ⟨x, l3, rfl, rfl, -⟩ := List.map_eq_cons_iff.mp e2
    obtain ⟨q, hq, rfl⟩ := List.mem_map.mp hd
    obtain ⟨y, hy, rfl⟩ := List.mem_map.mp (deps_before hl hm q hq)
    simp only [List.nil_append, List.map_map, List.mem_map]
    exact ⟨y, hy, rfl⟩
  obtain ⟨ts, mds, k1, k3⟩ := separate_ok (built_checks he hl hp hb) hdeps
  refine ⟨ts, k3.erases, fun ht => ⟨mds, k1, fun names locs hn => ?_⟩⟩
  obtain ⟨codes, g1, g2⟩ := Host.meaning_interpreted (Host.mods_ne k3 hne) (k3.progOk ht)
  obtain ⟨cmods, _, e1, e2, e3⟩ := Backend.compiledC_rel (Host.mods_ne k3 hne) (k3.progOk ht) hn g1
  obtain ⟨amods, _, f1, f2⟩ := Backend.compiledA_rel locs (Host.mods_ne k3 hne) (k3.progOk ht) hn g1
  refine ⟨cmods, amods, e1, f1, fun host steps fuel out hc depth => ⟨?_, fun profiling => ?_⟩⟩
  · exact Host.generated_ends (Host.named_meaning k3 hne host steps fuel out) (g2 host steps fuel out)
      ((e3 fuel out).bind fun _ _ _ _ hv hs => Host.host_generated e2 host steps (.cons hv .nil) hs) hc depth
  · exact Host.generated_ends (Host.named_meaning k3 hne host steps fuel out) (g2 host steps fuel out)
      (((f2 profiling).2 fuel out).bind fun _ _ _ _ hv hs => Host.host_generated (f2 profiling).1 host steps (.cons hv .nil) hs) hc depth

end Verif.Whole
