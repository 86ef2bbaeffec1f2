import Verif.Whole.Build
import Verif.Whole.Example
import Verif.Backend.Dis
/-
C95: the command fble-disassemble, from the command line to what it writes, /repo/bin/fble-disassemble.c.
-/
namespace Verif.Whole
open Parse
open Text (Str Byte ch Path)
open Args (Arg Env Recognised effects)
open Backend.Dis (Header Info Disassembles)

/-- What follows the options: the exit status, or what is to be done. -/
inductive DisJob where
  | exit (status : Int)
  | show (roots : List Str) (path : Path)

/-- bin/fble-disassemble.c:50-74. -/
def disJob (s : Args.St) : DisJob :=
  if s.flags "version" then .exit 0
  else if s.flags "help" then .exit 0
  else if s.error then .exit 2
  else match s.module with
    | none => .exit 2
    | some m => .show (s.search.map bytes) (pathOf m)

/-- The beginning of what is written for a module with this path, from this file, that refers to these modules. -/
def header (path : Path) (source : Str) (deps : List Path) : Header := ⟨Text.printPath path, source, deps.map Text.printPath⟩

/-- The command fble-disassemble: bin/fble-disassemble.c:33-95.  The exit status, and what is written.  `source` is the file of the module and `info` the names of the blocks, the locations and the debug
information that the compiler collects. -/
inductive DisMain (sys : System) (e : Env) (n : Nat) (source : Str) (info : Info) (args : List Arg) : Int × Option Str → Prop where
  | exits {k s status} : Args.loop e Args.disassemble k (start args) = some s → disJob s = .exit status → DisMain sys e n source info args (status, none)
  | notLoaded {k s roots path} : Args.loop e Args.disassemble k (start args) = some s → disJob s = .show roots path → FbleLoad sys.files roots path none →
      DisMain sys e n source info args (1, none)
  | rejected {k s roots path program} : Args.loop e Args.disassemble k (start args) = some s → disJob s = .show roots path → FbleLoad sys.files roots path (some program) →
      Elab.tcProgram n (modules program) = .ok none → DisMain sys e n source info args (1, none)
  | shows {k s roots path program tcs m tc code blocks out} : Args.loop e Args.disassemble k (start args) = some s → disJob s = .show roots path →
      FbleLoad sys.files roots path (some program) → Elab.tcProgram n (modules program) = .ok (some tcs) → program.getLast? = some m → tcs.getLast? = some tc →
      Compile.compileModule m.2.1.length tc = some (code, blocks) → Disassembles (header m.1 source m.2.1) info code out → DisMain sys e n source info args (0, some out)

theorem disassembles_unique {h : Header} {info : Info} {code out out'} (h1 : Disassembles h info code out) (h2 : Disassembles h info code out') : out = out' := by
  obtain ⟨_, fs, ts, a1, a2, rfl⟩ := h1
  obtain ⟨_, fs', ts', b1, b2, rfl⟩ := h2
  cases Backend.Dis.order_same a1 b1
  rw [a2] at b2
  cases b2
  rfl

theorem DisMain.unique {sys : System} {e : Env} {n source info args o o'} (h : DisMain sys e n source info args o) (h' : DisMain sys e n source info args o') : o = o' := by
  cases h with
  | exits h1 h2 =>
    cases h' with
    | exits g1 g2 => obtain rfl := loop_unique h1 g1; rw [h2] at g2; cases g2; rfl
    | notLoaded g1 g2 | rejected g1 g2 | shows g1 g2 => obtain rfl := loop_unique h1 g1; rw [h2] at g2; cases g2
  | notLoaded h1 h2 h3 =>
    cases h' with
    | exits g1 g2 => obtain rfl := loop_unique h1 g1; rw [h2] at g2; cases g2
    | notLoaded g1 g2 | rejected g1 g2 => rfl
    | shows g1 g2 g3 => obtain rfl := loop_unique h1 g1; rw [h2] at g2; cases g2; cases load_unique h3 g3
  | rejected h1 h2 h3 h4 =>
    cases h' with
    | exits g1 g2 => obtain rfl := loop_unique h1 g1; rw [h2] at g2; cases g2
    | notLoaded g1 g2 | rejected g1 g2 => rfl
    | shows g1 g2 g3 g4 =>
      obtain rfl := loop_unique h1 g1; rw [h2] at g2; cases g2; cases load_unique h3 g3
      rw [h4] at g4; cases g4
  | shows h1 h2 h3 h4 h5 h6 h7 h8 =>
    cases h' with
    | exits g1 g2 => obtain rfl := loop_unique h1 g1; rw [h2] at g2; cases g2
    | notLoaded g1 g2 g3 => obtain rfl := loop_unique h1 g1; rw [h2] at g2; cases g2; cases load_unique h3 g3
    | rejected g1 g2 g3 g4 =>
      obtain rfl := loop_unique h1 g1; rw [h2] at g2; cases g2; cases load_unique h3 g3
      rw [h4] at g4; cases g4
    | shows g1 g2 g3 g4 g5 g6 g7 g8 =>
      obtain rfl := loop_unique h1 g1; rw [h2] at g2; cases g2; cases load_unique h3 g3
      rw [h4] at g4; cases g4
      rw [h5] at g5; cases g5
      rw [h6] at g6; cases g6
      rw [h7] at g7; cases g7
      rw [disassembles_unique h8 g8]

theorem disassemble_wf : Args.wf Args.disassemble = true := by decide +kernel

theorem disJob_same {s t : Args.St} (h : Args.Same s t) : disJob s = disJob t := by
  obtain ⟨h1, h2, -, h4, h5, h6⟩ := h
  simp only [disJob, h1, h2, h4, h5, h6]

theorem progOk_mem : ∀ {ms : List Compile.Mod} {i}, Compile.progOk i ms → ∀ md ∈ ms, md.body.Scoped 0 md.deps.length []
  | [], _, _, md, h => by simp at h
  | m :: ms, i, hp, md, h => by
    rcases List.mem_cons.mp h with rfl | h
    · exact hp.2.1
    · exact progOk_mem hp.2.2 md h

/-- The last module of a program that type checks can be compiled. -/
theorem last_compiles {program : List (Path × List Path × Elab.Expr)} {n tcs} (hne : program ≠ []) (htc : Elab.tcProgram n (modules program) = .ok (some tcs)) :
    ∃ ts, All2 Elab.ErasesModule (modules program) ts ∧ ((∀ t ∈ ts, t.Tables) → ∃ m tc code blocks, program.getLast? = some m ∧ tcs.getLast? = some tc ∧ tc.Scoped 0 m.2.1.length [] ∧
      Compile.compileModule m.2.1.length tc = some (code, blocks)) := by
  obtain ⟨ts, mds, k1, k2, k3⟩ := Elab.tcProgram_ok htc
  refine ⟨ts, k3.erases, fun ht => ?_⟩
  cases hm : program.getLast? with
  | none => exact absurd (List.getLast?_eq_none_iff.mp hm) hne
  | some m =>
    have hm' : (modules program).getLast? = some (⟨astPath m.1, m.2.1.map astPath, m.2.2⟩ : Elab.Module) := by rw [modules, List.getLast?_map, hm]; rfl
    obtain ⟨done, t, md, g1, g2⟩ := modsOk_last k3 hm'
    have hsc := progOk_mem (k3.progOk ht) md (List.mem_of_getLast? g1)
    have hd : md.deps.length = m.2.1.length := by rw [← g2.deps.length_eq]; simp
    rw [hd] at hsc
    obtain ⟨code, blocks, hc, -⟩ := Compile.C14_code_fits hsc
    refine ⟨m, md.body, code, blocks, rfl, ?_, hsc, hc⟩
    rw [← k2, List.getLast?_map, g1]
    rfl

/-- C95, what fble-disassemble does, for every list of its options: exit status 0 for help and version; 2 for an error in the options, something else among them, or no module; 1 if the module cannot be
loaded or does not type check; and otherwise 0, and what is written is the disassembly of the code the module is compiled to. -/
theorem C95_command {sys : System} {e : Env} {items : List Args.Item} (hi : ∀ i ∈ items, i.Of Args.disassemble) (n : Nat) (source : Str) (info : Info) :
    let s := effects e items (start [])
    let ends := fun rest (o : Int × Option Str) => ∀ o', DisMain sys e n source info (items.flatMap Args.Item.encode ++ rest) o' ↔ o' = o
    (s.flags "version" = true ∨ s.flags "help" = true → ends [] (0, none)) ∧
    (s.flags "version" = false → s.flags "help" = false → s.error = true → ends [] (2, none)) ∧
    (Args.stop s = false →
      (∀ a as, ¬ Recognised Args.disassemble a → ends (a :: as) (2, none)) ∧
      (s.module = none → ends [] (2, none)) ∧
      ∀ m, s.module = some m →
        (FbleLoad sys.files (s.search.map bytes) (pathOf m) none → ends [] (1, none)) ∧
        ∀ program, FbleLoad sys.files (s.search.map bytes) (pathOf m) (some program) →
          (Elab.tcProgram n (modules program) = .ok none → ends [] (1, none)) ∧
          ∀ tcs, Elab.tcProgram n (modules program) = .ok (some tcs) → ∃ ts, All2 Elab.ErasesModule (modules program) ts ∧ ((∀ t ∈ ts, t.Tables) →
            ∃ md tc code blocks, program.getLast? = some md ∧ tcs.getLast? = some tc ∧ tc.Scoped 0 md.2.1.length [] ∧ Compile.compileModule md.2.1.length tc = some (code, blocks) ∧
              (info.names.length = blocks → ∃ out, Disassembles ⟨Text.printPath md.1, source, md.2.1.map Text.printPath⟩ info code out ∧ ends [] (0, some out)))) := by
  intro s ends
  have only : ∀ {rest o}, DisMain sys e n source info (items.flatMap Args.Item.encode ++ rest) o → ends rest o := fun h o' => ⟨fun ho => ho.unique h, fun he => he ▸ h⟩
  obtain ⟨k, t, h1, h2⟩ := loop_all e disassemble_wf hi
  rw [← List.append_nil (items.flatMap Args.Item.encode)] at h1
  have hl : disJob t = disJob s := disJob_same h2
  refine ⟨fun h => only (.exits h1 (hl.trans ?_)), fun hv hh he => only (.exits h1 (hl.trans ?_)), fun h0 => ?_⟩
  · unfold disJob
    rcases h with h | h
    · rw [if_pos h]
    · split
      · rfl
      · rfl
  · simp [disJob, hv, hh, he]
  · obtain ⟨f1, f2, f3⟩ := not_stop.mp h0
    refine ⟨fun a as ha => ?_, fun hm => only (.exits h1 (hl.trans ?_)), fun m hm => ?_⟩
    · have hsame : Args.Same (effects e items (start (items.flatMap Args.Item.encode ++ a :: as))) s := Args.effects_same e items ⟨rfl, rfl, rfl, rfl, rfl, rfl⟩
      obtain ⟨k, r, r1, r2, -, r4⟩ := (Args.C48_rest e disassemble_wf items hi (start (items.flatMap Args.Item.encode ++ a :: as)) rfl a as ha rfl (by rw [hsame.stop]; exact h0)).1 (by decide)
      refine only (.exits r1 ?_)
      obtain ⟨g1, -, -, -, -, -⟩ := hsame
      obtain ⟨q1, -, -, -, -, -⟩ := r4
      simp only at q1
      rw [g1] at q1
      simp [disJob, q1, f1, f2, r2]
    · simp [disJob, f1, f2, f3, hm]
    · have hj : disJob t = .show (s.search.map bytes) (pathOf m) := by rw [hl]; simp [disJob, f1, f2, f3, hm]
      refine ⟨fun hload => only (.notLoaded h1 hj hload), fun program hload => ⟨fun htc => only (.rejected h1 hj hload htc), fun tcs htc => ?_⟩⟩
      have hne : program ≠ [] := by
        rintro rfl
        simpa using (C70_loaded hload).1
      obtain ⟨ts, t1, t2⟩ := last_compiles hne htc
      refine ⟨ts, t1, fun ht => ?_⟩
      obtain ⟨md, tc, code, blocks, g1, g2, g3, g4⟩ := t2 ht
      refine ⟨md, tc, code, blocks, g1, g2, g3, g4, fun hn => ?_⟩
      obtain ⟨_, _, out, hd, -⟩ := Backend.Dis.C95_listing g3 g4 (header md.1 source md.2.1) hn
      exact ⟨out, hd, only (.shows h1 hj hload htc g1 g2 g4 hd)⟩

/-! ### An example -/

/-- `fble-disassemble -I old -I src -m /Main%` with the files of `Whole.Example`. -/
example : ∃ e ts, Looks Example.sys e ∧ All2 Elab.ErasesModule (modules Example.program) ts ∧ ∃ code blocks, ∀ info : Info, info.names.length = blocks → ∃ out,
    Disassembles (header Example.mainPath (bytes "src/Main.fble".toList) [Example.libPath]) info code out ∧
    ∀ o, DisMain Example.sys e 20 (bytes "src/Main.fble".toList) info ["-I".toList, "old".toList, "-I".toList, "src".toList, "-m".toList, "/Main%".toList] o ↔ o = (0, some out) := by
  obtain ⟨e, he⟩ := looks_exists Example.sys
  obtain ⟨tcs, htc⟩ := Example.checked
  obtain ⟨m, h1, h2⟩ := plain he ["old".toList, "src".toList] (p := Example.mainPath) ⟨by decide, by decide +kernel⟩ (a := "/Main%".toList) (by decide +kernel)
  have hi : ∀ i ∈ (["old".toList, "src".toList].map Args.Item.incl ++ [.module false "/Main%".toList] : List Args.Item), i.Of Args.disassemble := by
    intro i hi
    simp only [List.map_cons, List.map_nil, List.cons_append, List.nil_append, List.mem_cons, List.not_mem_nil, or_false] at hi
    rcases hi with rfl | rfl | rfl <;> simp [Args.Item.Of, Args.disassemble, Args.helpVersion]
  have hl : FbleLoad Example.sys.files ((effects e (["old".toList, "src".toList].map Args.Item.incl ++ [.module false "/Main%".toList]) (start [])).search.map bytes) (pathOf m) (some Example.program) := by
    rw [h2, h1]; exact Example.loaded
  have key := fun source info => (((C95_command (sys := Example.sys) (e := e) hi 20 source info).2.2 (by rw [h2]; rfl)).2.2 m (by rw [h2])).2 _ hl |>.2 tcs htc
  obtain ⟨ts, t1, t2⟩ := last_compiles (program := Example.program) (by simp [Example.program]) htc
  obtain ⟨md, tc, code, blocks, g1, g2, g3, g4⟩ := t2 (Example.tables t1)
  refine ⟨e, ts, he, t1, code, blocks, fun info hn => ?_⟩
  obtain ⟨ts', u1, u2⟩ := key (bytes "src/Main.fble".toList) info
  obtain ⟨md', tc', code', blocks', k1, k2, k3, k4, k5⟩ := u2 (Example.tables u1)
  rw [g1] at k1
  cases k1
  rw [g2] at k2
  cases k2
  rw [g4] at k4
  cases k4
  obtain ⟨out, o1, o2⟩ := k5 hn
  have hmd : md = (Example.mainPath, [Example.libPath], Example.mainExpr) := by
    have : Example.program.getLast? = some (Example.mainPath, [Example.libPath], Example.mainExpr) := rfl
    rw [g1] at this
    exact Option.some.inj this
  rw [hmd] at o1
  refine ⟨out, o1, fun o => ?_⟩
  have := o2 o
  simpa [Args.Item.encode] using this

end Verif.Whole
