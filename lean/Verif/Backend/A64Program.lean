import Verif.Backend.A64Sim
import Verif.Backend.CProgram
/-
A program compiled to AArch64 assembly does what the program means.
-/
namespace Verif.Backend
open Verif.Compile
open Verif.Text (Str ch)

/-! ### One function -/

theorem Ends.det {env : Env} {xs m s o o'} (h : Ends env xs m s o) (h' : Ends env xs m s o') : o = o' := by
  induction h with
  | next e _ ih =>
    generalize hx : (_ :: _ : List Line) = xs at h'
    cases h' with
    | next e' k => cases hx; rw [e] at e'; cases e'; exact ih k
    | jump e' => cases hx; rw [e] at e'; cases e'
    | stop e' => cases hx; rw [e] at e'; cases e'
  | jump e hs _ ih =>
    generalize hx : (_ :: _ : List Line) = xs at h'
    cases h' with
    | next e' k => cases hx; rw [e] at e'; cases e'
    | jump e' hs' k => cases hx; rw [e] at e'; cases e'; rw [hs] at hs'; cases hs'; exact ih k
    | stop e' => cases hx; rw [e] at e'; cases e'
  | stop e =>
    generalize hx : (_ :: _ : List Line) = xs at h'
    cases h' with
    | next e' k => cases hx; rw [e] at e'; cases e'
    | jump e' => cases hx; rw [e] at e'; cases e'
    | stop e' => cases hx; rw [e] at e'; cases e'; rfl

variable {sg : Bool} {names : List Str}

/-- What the interpreter logs when it runs the code of a function: interpret.c:53-307. -/
def interpretLog (mk : Code → Nat → CBody) (profiling : Bool) (locs : Nat → SrcLoc) (code : Code) (call : CallFn CBody) (statics args : List (GVal CBody))
    (s : St (GFn CBody)) : List Ev :=
  gtrace profiling (fun pc => code.profile[pc]?.getD []) locs mk call code.instrs 0 ⟨statics, args, List.replicate code.numLocals none⟩ s

/-- C64, one run of one function.  The emitted function ends exactly as the interpreter does with the
code, and does along the way what the interpreter does: the same profile operations, the same calls,
function values with the same profile blocks, and the same error reports. -/
theorem C64_a64_function {block : Nat} {locs : Nat → SrcLoc} {code : Code} {f : AFun} (he : emitCodeA sg names block locs code = some f)
    (ok : CodeOk code.numLocals code.instrs) (env : Env) (hw : env.whole = f.body) (s : St (GFn CBody))
    (hwild : interpret (genBodyA sg names env.m block) code env.call env.statics env.args s ≠ .wild)
    (hcrash : interpret (genBodyA sg names env.m block) code env.call env.statics env.args s ≠ .crash) (o : GRes CBody (GOut CBody) × List Ev) :
    Ends env env.whole (entry env) s o ↔
      o = (interpret (genBodyA sg names env.m block) code env.call env.statics env.args s,
        interpretLog (genBodyA sg names env.m block) env.profiling locs code env.call env.statics env.args s) := by
  simp only [emitCodeA, Option.bind_eq_some_iff, Option.map_eq_some_iff] at he
  obtain ⟨n, _, body, hb, rfl⟩ := he
  have hl : Laid sg names block code.numLocals _ locs code.instrs env body := ⟨hb, hw⟩
  have h : Ends env env.whole (entry env) s (interpret (genBodyA sg names env.m block) code env.call env.statics env.args s,
      interpretLog (genBodyA sg names env.m block) env.profiling locs code env.call env.statics env.args s) := by
    have : Sim env env.whole (entry env) s (interpret (genBodyA sg names env.m block) code env.call env.statics env.args s,
        interpretLog (genBodyA sg names env.m block) env.profiling locs code env.call env.statics env.args s) := by
      rw [hw]
      simp only [List.append_assoc]
      refine sim_prologue fun m h1 h2 h3 => ?_
      have := asim hl ok _ 0 rfl _ m s [] h1 h2 h3
      simp only [codeFrom, List.drop_zero, hb, Option.getD_some, List.append_assoc, List.nil_append] at this
      exact this
    rcases this with h | h | h
    · exact absurd h hwild
    · exact absurd h hcrash
    · exact h
  exact ⟨fun h' => h'.det h, fun e => e ▸ h⟩

theorem arun_agrees {block : Nat} {locs : Nat → SrcLoc} {code : Code} {f : AFun} (he : emitCodeA sg names block locs code = some f)
    (ok : CodeOk code.numLocals code.instrs) (env : Env) (hw : env.whole = f.body) (s : St (GFn CBody)) :
    Agrees (interpret (genBodyA sg names env.m block) code env.call env.statics env.args s) (arun env s) := by
  by_cases hwild : interpret (genBodyA sg names env.m block) code env.call env.statics env.args s = .wild
  · rw [hwild]; exact .wild
  by_cases hcrash : interpret (genBodyA sg names env.m block) code env.call env.statics env.args s = .crash
  · rw [hcrash]; exact .crash
  have h := C64_a64_function he ok env hw s hwild hcrash
  have hex : ∃ o, Ends env env.whole (entry env) s o := ⟨_, (h _).mpr rfl⟩
  have : arun env s = interpret (genBodyA sg names env.m block) code env.call env.statics env.args s := by
    unfold arun
    rw [dif_pos hex, (h _).mp hex.choose_spec]
  rw [this]
  exact .refl _

/-! ### Modules -/

/-- Compiling every module: FbleCompileProgram and FbleGenerateAArch64 for each module.  `locs` are the
locations of the instructions of each block of each module. -/
def compileA (sg : Bool) : List Mod → List (List Str) → (Nat → Nat → Nat → SrcLoc) → Option (List AModule)
  | [], _, _ => some []
  | m :: ms, names, locs =>
    (compileModule m.deps.length m.body).bind fun c =>
      if (names.headD []).length = c.2 then
        (generateA sg (names.headD []) (locs 0) c.1).bind fun md => (compileA sg ms names.tail fun k => locs (k + 1)).map fun rest => md :: rest
      else none

/-- The executables of the modules: FbleGeneratedModule.executable, aarch64.c:359-370. -/
def aExecutables (k : Nat) : List AModule → List (Nat × CBody)
  | [] => []
  | md :: mds => (md.numArgs, .gen k md.run) :: aExecutables (k + 1) mds

/-- Running a program compiled to assembly: LinkGenerated, link.c:153-221. -/
noncomputable def runAProgram (ms : List Mod) (mods : List AModule) (profiling : Bool) (fuel : Nat) (out : Outside := .silent) : GRes CBody (GVal CBody) :=
  runGenerated (runA mods profiling) .interp (mainCode ms) (aExecutables 0 mods) fuel out

theorem emitInline_some {block pc i} (hc : ∀ c off scope d, i = .func c off scope d → scope.length = c.numStatics ∧ ∃ r, runNameA sg names (block + off) = some r) :
    ∃ r, emitInline sg names block pc i = some r := by
  cases i
  case func c off scope d =>
    obtain ⟨h1, r, h2⟩ := hc _ _ _ _ rfl
    simp only [emitInline, h2, firstVars, h1, Nat.le_refl, if_true, Option.bind_some, Option.map_some]; exact ⟨_, rfl⟩
  all_goals exact ⟨_, rfl⟩

theorem emitBody_some {block ops} : (is : List Instr) → (pc : Nat) →
    (∀ c off scope d, .func c off scope d ∈ is → scope.length = c.numStatics ∧ ∃ r, runNameA sg names (block + off) = some r) →
    ∃ out, emitBody sg names block pc ops is = some out
  | [], _, _ => ⟨_, rfl⟩
  | i :: is, pc, h => by
    obtain ⟨r, hr⟩ := emitInline_some (sg := sg) (names := names) (block := block) (i := i) (pc := pc)
      fun c off scope d e => h c off scope d (e ▸ List.mem_cons_self ..)
    obtain ⟨out, ho⟩ := emitBody_some (block := block) (ops := ops) is (pc + 1) fun c off scope d hm => h c off scope d (List.mem_cons_of_mem _ hm)
    simp only [emitBody, hr, ho, Option.bind_some, Option.map_some]; exact ⟨_, rfl⟩

variable {root : Code}

theorem ModOk.runNameA (h : ModOk sg names root) {b : Nat} {c} (hm : (b, c) ∈ collectBlocks 0 root) : ∃ r, runNameA sg names b = some r := by
  have hb := (h.inc.2 b (List.mem_map.mpr ⟨_, hm, rfl⟩)).2
  have hn := h.bytes _ (List.getElem_mem hb)
  unfold Backend.runNameA Gen.functionLabel
  rw [List.getElem?_eq_getElem hb, Option.bind_some, Gen.sanitize_some _ _ hn]
  exact ⟨_, rfl⟩

theorem ModOk.emitA (h : ModOk sg names root) {b : Nat} {c} (locs : Nat → SrcLoc) (hm : (b, c) ∈ collectBlocks 0 root) : ∃ f, emitCodeA sg names b locs c = some f := by
  obtain ⟨r, hr⟩ := h.runNameA hm
  obtain ⟨hw, hin⟩ := collect_mem root b c hm
  have hf := (h.fits c hw).2
  obtain ⟨out, ho⟩ := emitBody_some (sg := sg) (names := names) (block := b) (ops := fun pc => c.profile[pc]?.getD []) c.instrs 0
    fun c' off scope d hm' => by
      obtain ⟨k, hk⟩ := List.mem_iff_getElem?.mp hm'
      exact ⟨(hf k _ hk).captures _ _ _ _ rfl, h.runNameA (hin _ _ _ _ hm')⟩
  simp only [emitCodeA, hr, ho, Option.bind_some, Option.map_some]; exact ⟨_, rfl⟩

theorem ModOk.generateA (h : ModOk sg names root) (locs : Nat → Nat → SrcLoc) : ∃ md, generateA sg names locs root = some md := by
  obtain ⟨fs, hfs⟩ := mapM_ok (f := fun b => emitCodeA sg names b.1 (locs b.1) b.2) (xs := collectBlocks 0 root) fun x hx => h.emitA _ hx
  obtain ⟨r, hr⟩ := h.runNameA (collect_root 0 root)
  simp only [Backend.generateA, hfs, hr, Option.bind_some, Option.map_some]; exact ⟨_, rfl⟩

theorem emitCodeA_name {b : Nat} {locs c f} (h : emitCodeA sg names b locs c = some f) : runNameA sg names b = some f.name := by
  simp only [emitCodeA, Option.bind_eq_some_iff, Option.map_eq_some_iff] at h
  obtain ⟨n, h1, _, _, rfl⟩ := h
  exact h1

theorem runNameA_inj {i j : Nat} {s} (h1 : runNameA sg names i = some s) (h2 : runNameA sg names j = some s) : i = j := by
  simp only [Backend.runNameA, Option.bind_eq_some_iff] at h1 h2
  obtain ⟨n, _, h1⟩ := h1
  obtain ⟨m, _, h2⟩ := h2
  exact Gen.C35_function_labels_distinct sg _ (.inr rfl) _ _ _ _ _ h1 h2

/-- The function emitted for a block is found by its name. -/
theorem find_emittedA {b : Nat} {c f} {locs : Nat → Nat → SrcLoc} : {xs : List (Nat × Code)} → {fs : List AFun} → (xs.map (·.1)).Pairwise (· < ·) →
    xs.mapM (fun b => emitCodeA sg names b.1 (locs b.1) b.2) = some fs → (b, c) ∈ xs → emitCodeA sg names b (locs b) c = some f →
    fs.find? (fun g => g.name == f.name) = some f
  | [], _, _, _, hm, _ => by cases hm
  | (b0, c0) :: xs, fs, hi, hfs, hm, hf => by
    rw [List.mapM_cons] at hfs
    cases h0 : emitCodeA sg names b0 (locs b0) c0 with
    | none => rw [h0] at hfs; cases hfs
    | some f0 =>
      cases h1 : xs.mapM (fun b => emitCodeA sg names b.1 (locs b.1) b.2) with
      | none => rw [h0, h1] at hfs; cases hfs
      | some fs1 =>
        rw [h0, h1] at hfs
        cases hfs
        rw [List.map_cons, List.pairwise_cons] at hi
        rcases List.mem_cons.mp hm with hm | hm
        · cases hm
          rw [h0] at hf
          cases hf
          simp
        · have hlt : b0 < b := hi.1 b (List.mem_map.mpr ⟨_, hm, rfl⟩)
          have hne : f0.name ≠ f.name := fun e => by
            have e1 := emitCodeA_name h0
            have e2 := emitCodeA_name hf
            rw [e] at e1
            have := runNameA_inj e1 e2
            omega
          rw [List.find?_cons_of_neg (by simpa using hne)]
          exact find_emittedA hi.2 h1 hm hf

/-- How a run function of the program belongs to code. -/
def AImpl (sg : Bool) (progs : List (List Str × Code)) (code : Code) : CBody → Prop
  | .interp c => c = code ∧ ∀ c' off scope d, .func c' off scope d ∉ code.instrs
  | .gen m name => ∃ names root b, progs[m]? = some (names, root) ∧ (b, code) ∈ collectBlocks 0 root ∧ runNameA sg names b = some name

/-- The modules are those generated from the programs. -/
def GeneratedA (sg : Bool) (progs : List (List Str × Code)) (locs : Nat → Nat → Nat → SrcLoc) (mods : List AModule) : Prop :=
  ∀ (m : Nat) names root, progs[m]? = some (names, root) → ModOk sg names root ∧ ∃ md, mods[m]? = some md ∧ generateA sg names (locs m) root = some md

/-- The run functions do what the interpreter does with the code. -/
theorem runA_body {progs : List (List Str × Code)} {locs : Nat → Nat → Nat → SrcLoc} {mods : List AModule} {profiling : Bool} (hg : GeneratedA sg progs locs mods) :
    ∀ {code body}, AImpl sg progs code body → BodyR (AImpl sg progs) (runA mods profiling) code body := by
  intro code body h
  cases body with
  | interp c =>
    obtain ⟨rfl, hno⟩ := h
    exact interpret_body (mk := fun c _ => .interp c) (by funext; rfl) fun c' off scope d hm => absurd hm (hno c' off scope d)
  | gen m name =>
    obtain ⟨names, root, b, h1, h2, h3⟩ := h
    obtain ⟨hok, md, hmd, hgen⟩ := hg m names root h1
    obtain ⟨f, hf⟩ := hok.emitA (locs m b) h2
    obtain ⟨hw, hin⟩ := collect_mem root b code h2
    have hname : f.name = name := by
      have := emitCodeA_name hf
      rw [h3] at this
      exact (Option.some.inj this).symm
    simp only [Backend.generateA, Option.bind_eq_some_iff, Option.map_eq_some_iff] at hgen
    obtain ⟨fs, hfs, run, _, rfl⟩ := hgen
    have hfind := find_emittedA hok.inc.1 hfs h2 hf
    rw [hname] at hfind
    intro call call' st st' as as' s s' hc hst has hs
    have hrun : runA mods profiling (.gen m name) call' st' as' s' = arun ⟨m, f.body, st', as', profiling, call'⟩ s' := by
      simp only [runA, hmd, Option.bind_some, hfind]
    rw [hrun]
    refine RR.agrees (exec_rr (mk := genBodyA sg names m b) ?_ hc (frame_rr (code := code) hst has) hs) ?_
    · intro c off scope d hm
      have hm' := hin c off scope d hm
      obtain ⟨r, hr⟩ := hok.runNameA hm'
      exact ⟨names, root, b + off, h1, hm', by rw [hr]; simp⟩
    · exact arun_agrees hf (hok.codeOk hw) ⟨m, f.body, st', as', profiling, call'⟩ rfl s'

/-! ### Programs -/

theorem compileA_ok : (ms : List Mod) → (k i : Nat) → progOk i ms → (names : List (List Str)) → (locs : Nat → Nat → Nat → SrcLoc) → All2 (NamesFor sg) ms names →
    ∃ codes mods, compileAll ms = some codes ∧ compileA sg ms names locs = some mods ∧ mods.length = codes.length ∧ names.length = codes.length ∧
      GeneratedA sg (names.zip codes) locs mods ∧
      ∃ bodies, aExecutables k mods = (codes.map (·.numArgs)).zip bodies ∧ bodies.length = codes.length ∧
        ∀ (j : Nat) code body, codes[j]? = some code → bodies[j]? = some body → ∃ ns name, body = .gen (k + j) name ∧ names[j]? = some ns ∧ runNameA sg ns 0 = some name
  | [], _, _, _, _, _, .nil => ⟨[], [], rfl, rfl, rfl, rfl, by intro m names root h; simp at h, [], rfl, rfl, by simp⟩
  | m :: ms, k, i, hp, _, locs, .cons (b := ns) (bs := names) hn hns => by
    obtain ⟨codes, mods, h1, h2, h3, h4, h5, bodies, h6, h7, h8⟩ := compileA_ok ms (k + 1) (i + 1) hp.2.2 names (fun k => locs (k + 1)) hns
    obtain ⟨code, n, c1, _⟩ := C14_code_fits hp.2.1
    obtain ⟨n1, n2, n3, n4⟩ := module_neat hp.2.1 c1
    have hlen := hn.1 code n c1
    have hok : ModOk sg ns code := ⟨by rw [hlen]; exact n1, n3, n2, hn.2⟩
    obtain ⟨md, hmd⟩ := hok.generateA (locs 0)
    have hmd' := hmd
    simp only [Backend.generateA, Option.bind_eq_some_iff, Option.map_eq_some_iff] at hmd'
    obtain ⟨fs, _, run, hrun, rfl⟩ := hmd'
    simp only [compileAll] at h1
    refine ⟨code :: codes, ⟨fs, code.numArgs, code.numStatics, run⟩ :: mods, by simp [compileAll, List.mapM_cons, c1, h1], ?_, by simp [h3], by simp [h4],
      ?_, .gen k run :: bodies, by simp [aExecutables, h6], by simp [h7], ?_⟩
    · simp only [compileA, c1, Option.bind_some, List.headD_cons, hlen, if_true, hmd, List.tail_cons, h2, Option.map_some]
    · intro j names' root hj
      cases j with
      | zero =>
        simp at hj
        obtain ⟨rfl, rfl⟩ := hj
        exact ⟨hok, _, rfl, hmd⟩
      | succ j =>
        obtain ⟨a, md, b, c⟩ := h5 j names' root (by simpa using hj)
        exact ⟨a, md, by simpa using b, c⟩
    · intro j code' body hj hb
      cases j with
      | zero =>
        simp at hb
        exact ⟨ns, run, by rw [← hb]; rfl, rfl, hrun⟩
      | succ j =>
        obtain ⟨ns', name, a, b, c⟩ := h8 j code' body (by simpa using hj) (by simpa using hb)
        exact ⟨ns', name, by rw [a, show k + 1 + j = k + (j + 1) by omega], by simpa using b, c⟩

/-- The modules in assembly, run with any outside, do what the interpreted ones do. -/
theorem compiledA_rel {ms : List Mod} {names : List (List Str)} (locs : Nat → Nat → Nat → SrcLoc) (hne : ms ≠ []) (h : progOk 0 ms) (hnames : All2 (NamesFor sg) ms names) {codes} (h1 : compileAll ms = some codes) :
    ∃ (mods : List AModule) (E : Code → CBody → Prop), compileA sg ms names locs = some mods ∧ ∀ profiling, (∀ {code body}, E code body → BodyR E (runA mods profiling) code body) ∧
      ∀ fuel out, RR (FR E) (VR (FR E)) (runMachine ms codes fuel out) (runAProgram ms mods profiling fuel out) := by
  obtain ⟨codes', mods, g1, g2, g3, g4, g5, bodies, g6, g7, g8⟩ := compileA_ok ms 0 0 h names locs hnames
  rw [h1] at g1
  cases g1
  have hmain : AImpl sg (names.zip codes) (mainCode ms) (.interp (mainCode ms)) := by
    refine ⟨rfl, fun c off scope d hm => ?_⟩
    simp only [mainCode, Code.instrs, List.mem_append, List.mem_singleton] at hm
    rcases hm with hm | hm
    · obtain ⟨f, as, d, e⟩ := mainInstrs_calls ms 0 _ hm
      cases e
    · cases hm
  have hall : All2 (AImpl sg (names.zip codes)) codes bodies := by
    refine all2_of_get g7.symm fun j code body hj hb => ?_
    obtain ⟨ns, name, rfl, e2, e3⟩ := g8 j code body hj hb
    rw [Nat.zero_add]
    exact ⟨ns, code, 0, by rw [List.getElem?_zip_eq_some]; exact ⟨e2, hj⟩, collect_root 0 code, e3⟩
  refine ⟨mods, _, g2, fun profiling => ⟨runA_body g5, fun fuel out => ?_⟩⟩
  have hr := program_rr (runA_body (profiling := profiling) g5) hmain hall fuel out
  rw [← g6] at hr
  exact hr

/-- C64. Every program whose expressions are in scope can be compiled to AArch64 assembly, and running
the compiled program gives what the program means, profiling or not: the same value, an abort if and only if the
program aborts, and so on, however many function bodies are entered, unless the program uses a value as
one of another type (`crash`; well typed programs do not, see C61).  The assembly never uses a register
or a word of the stack without a value, never accesses the stack outside its frame, keeps the stack
pointer aligned, never jumps to a label that is not there, and gives its caller the stack pointer and the callee
saved registers back. -/
theorem C64_a64_program {ms : List Mod} {names : List (List Str)} (locs : Nat → Nat → Nat → SrcLoc) (hne : ms ≠ []) (h : progOk 0 ms) (hnames : All2 (NamesFor sg) ms names) :
    ∃ mods, compileA sg ms names locs = some mods ∧ ∀ profiling fuel, runProgram ms fuel ≠ .crash →
      (∀ depth, (runAProgram ms mods profiling fuel).seen depth = (runProgram ms fuel).seen depth) ∧ runAProgram ms mods profiling fuel ≠ .wild := by
  obtain ⟨codes, h1, h2⟩ := C13_compiled_program hne h
  obtain ⟨mods, E, g2, g3⟩ := compiledA_rel locs hne h hnames h1
  refine ⟨mods, g2, fun profiling fuel hcr => ?_⟩
  have hr := (g3 profiling).2 fuel .silent
  obtain ⟨e1, e2⟩ := h2 fuel
  have e3 : runMachine ms codes fuel ≠ .crash := not_crash e1 hcr
  refine ⟨fun depth => (hr.seen e2 e3 depth).trans (e1 depth), fun hw => ?_⟩
  rw [hw] at hr
  generalize runMachine ms codes fuel = x at hr e2 e3
  cases hr
  · exact e3 rfl
  · exact e2 rfl

end Verif.Backend
