import Verif.Backend.Blocks
import Verif.Compile.Program
import Verif.Gen.Thm
/-
A program compiled to C does what the program means.
-/
namespace Verif.Backend
open Verif.Compile
open Verif.Text (Str ch)

/-- Compiling every module to C: FbleCompileProgram and FbleGenerateC for each module.  `names` are the
names of the profile blocks of each module, which the compiler collects along with the blocks
(compile.c:716-747): as many as there are blocks. -/
def compileC (sg : Bool) : List Mod → List (List Str) → Option (List CModule)
  | [], _ => some []
  | m :: ms, names =>
    (compileModule m.deps.length m.body).bind fun c =>
      if (names.headD []).length = c.2 then
        (generateC sg (names.headD []) c.1).bind fun md => (compileC sg ms names.tail).map fun rest => md :: rest
      else none

/-- The executables of the modules: FbleGeneratedModule.executable, c.c:232-241. -/
def cExecutables (k : Nat) : List CModule → List (Nat × CBody)
  | [] => []
  | md :: mds => (md.numArgs, .gen k md.run) :: cExecutables (k + 1) mds

/-- Running a program compiled to C: LinkGenerated, link.c:153-221. -/
def runCProgram (ms : List Mod) (mods : List CModule) (fuel : Nat) (out : Outside := .silent) : GRes CBody (GVal CBody) :=
  runGenerated (runC mods) .interp (mainCode ms) (cExecutables 0 mods) fuel out

/-! ### Blocks -/

mutual
theorem collect_mem {block : Nat} : (code : Code) → ∀ b c, (b, c) ∈ collectBlocks block code → Within code c ∧
    ∀ c' off scope d, .func c' off scope d ∈ c.instrs → (b + off, c') ∈ collectBlocks block code
  | .mk na ns nl is p => by
    intro b c h
    rw [collectBlocks] at h ⊢
    rcases List.mem_cons.mp h with h | h
    · cases h
      refine ⟨.here, fun c' off scope d hm => List.mem_cons_of_mem _ (collect_top is c' off scope d hm)⟩
    · obtain ⟨⟨c0, off, scope, d, h1, h2⟩, h3⟩ := collects_mem is b c h
      exact ⟨.inner h1 h2, fun c' off scope d hm => List.mem_cons_of_mem _ (h3 c' off scope d hm)⟩
theorem collects_mem {block : Nat} : (is : List Instr) → ∀ b c, (b, c) ∈ collectInstrs block is →
    (∃ c0 off scope d, .func c0 off scope d ∈ is ∧ Within c0 c) ∧ ∀ c' off scope d, .func c' off scope d ∈ c.instrs → (b + off, c') ∈ collectInstrs block is
  | [] => by intro b c h; rw [collectInstrs] at h; cases h
  | .func c0 off0 scope0 d0 :: is => by
    intro b c h
    rw [collectInstrs, collectInstr] at h ⊢
    rcases List.mem_append.mp h with h | h
    · obtain ⟨h1, h2⟩ := collect_mem c0 b c h
      exact ⟨⟨c0, off0, scope0, d0, List.mem_cons_self .., h1⟩, fun c' off scope d hm => List.mem_append.mpr (.inl (h2 c' off scope d hm))⟩
    · obtain ⟨⟨c1, off, scope, d, h1, h2⟩, h3⟩ := collects_mem is b c h
      exact ⟨⟨c1, off, scope, d, List.mem_cons_of_mem _ h1, h2⟩, fun c' off scope d hm => List.mem_append.mpr (.inr (h3 c' off scope d hm))⟩
  | .struct .. :: is | .union .. :: is | .structAccess .. :: is | .unionAccess .. :: is | .select .. :: is | .goto .. :: is | .call .. :: is
  | .tailCall .. :: is | .copy .. :: is | .refValue .. :: is | .refDef .. :: is | .ret .. :: is | .type .. :: is | .list .. :: is | .literal .. :: is | .nop :: is => by
    intro b c h
    rw [collectInstrs, collectInstr] at h ⊢
    · obtain ⟨⟨c1, off, scope, d, h1, h2⟩, h3⟩ := collects_mem is b c h
      exact ⟨⟨c1, off, scope, d, List.mem_cons_of_mem _ h1, h2⟩, h3⟩
    all_goals simp
theorem collect_top {block : Nat} : (is : List Instr) → ∀ c off scope d, .func c off scope d ∈ is → (block + off, c) ∈ collectInstrs block is
  | [] => by intro c off scope d h; cases h
  | i :: is => by
    intro c off scope d h
    rw [collectInstrs]
    rcases List.mem_cons.mp h with h | h
    · subst h
      rw [collectInstr]
      cases c
      rw [collectBlocks]
      exact List.mem_append.mpr (.inl (List.mem_cons_self ..))
    · exact List.mem_append.mpr (.inr (collect_top is c off scope d h))
end

/-! ### The generator succeeds -/

theorem mark_ok {flags : List Bool} {pc t : Nat} (h1 : pc < t) (h2 : t < flags.length) : ∃ f, mark flags pc t = some f ∧ f.length = flags.length := by
  unfold mark
  rw [if_pos ⟨h1, h2⟩]
  exact ⟨_, rfl, by simp⟩

theorem markAll_ok {pc : Nat} : {bs : List Select.Branch} → {flags : List Bool} → (∀ b ∈ bs, pc < b.target ∧ b.target < flags.length) →
    ∃ f, markAll flags pc bs = some f ∧ f.length = flags.length
  | [], flags, _ => ⟨flags, rfl, rfl⟩
  | b :: bs, flags, h => by
    obtain ⟨f, h1, h2⟩ := mark_ok (h b (List.mem_cons_self ..)).1 (h b (List.mem_cons_self ..)).2
    obtain ⟨f', h3, h4⟩ := markAll_ok (bs := bs) (flags := f) (pc := pc) fun b hb => by
      rw [h2]; exact h b (List.mem_cons_of_mem _ hb)
    exact ⟨f', by simp [markAll, h1, h3], h4.trans h2⟩

theorem emitInstr_some {sg names block pc exe lit flags i} (hj : ∀ t ∈ i.succ pc, pc < t ∧ t < flags.length)
    (hc : ∀ c off scope d, i = .func c off scope d → scope.length = c.numStatics ∧ ∃ r, runName sg names (block + off) = some r) :
    ∃ r, emitInstr sg names block pc exe lit flags i = some r := by
  cases i
  case select c targets default =>
    simp only [Instr.succ, List.mem_append, List.mem_map, List.mem_singleton] at hj
    obtain ⟨f1, h1, h2⟩ := markAll_ok (pc := pc) (bs := targets) (flags := flags) fun b hb => hj _ (.inl ⟨b, hb, rfl⟩)
    obtain ⟨f2, h3, _⟩ := mark_ok (hj _ (.inr rfl)).1 (by rw [h2]; exact (hj _ (.inr rfl)).2)
    simp only [emitInstr, h1, h3, Option.bind_some, Option.map_some]; exact ⟨_, rfl⟩
  case goto t =>
    simp only [Instr.succ, List.mem_singleton] at hj
    obtain ⟨f2, h3, _⟩ := mark_ok (hj _ rfl).1 (hj _ rfl).2
    simp only [emitInstr, h3, Option.map_some]; exact ⟨_, rfl⟩
  case func c off scope d =>
    obtain ⟨h1, r, h2⟩ := hc _ _ _ _ rfl
    simp only [emitInstr, h2, firstVars, h1, Nat.le_refl, if_true, Option.bind_some, Option.map_some]; exact ⟨_, rfl⟩
  all_goals exact ⟨_, rfl⟩

theorem emitLoop_some {sg names block} : (is : List Instr) → (pc exe lit : Nat) → (flags : List Bool) → (ops : List (List POp)) →
    (∀ (k : Nat) i, is[k]? = some i → ∀ t ∈ i.succ (pc + k), pc + k < t ∧ t < flags.length) →
    (∀ c off scope d, .func c off scope d ∈ is → scope.length = c.numStatics ∧ ∃ r, runName sg names (block + off) = some r) →
    ∃ out, emitLoop sg names block pc exe lit flags is ops = some out
  | [], _, _, _, _, _, _, _ => ⟨_, rfl⟩
  | i :: is, pc, exe, lit, flags, ops, h1, h2 => by
    obtain ⟨r, hr⟩ := emitInstr_some (sg := sg) (names := names) (block := block) (exe := exe) (lit := lit) (flags := flags) (i := i) (pc := pc)
      (h1 0 i rfl) fun c off scope d e => h2 c off scope d (e ▸ List.mem_cons_self ..)
    have hl := (emitInstr_ok hr).length
    obtain ⟨out, ho⟩ := emitLoop_some (sg := sg) (names := names) (block := block) is (pc + 1) r.2.1 r.2.2.1 r.2.2.2 ops.tail
      (fun k i hk t ht => by
        rw [hl]
        rw [show pc + 1 + k = pc + (k + 1) by omega] at ht ⊢
        exact h1 (k + 1) i (by simpa using hk) t ht)
      fun c off scope d hm => h2 c off scope d (List.mem_cons_of_mem _ hm)
    simp only [emitLoop, hr, ho, Option.bind_some, Option.map_some]; exact ⟨_, rfl⟩

/-- What a compiled module is like. -/
structure ModOk (sg : Bool) (names : List Str) (root : Code) : Prop where
  inc : Inc 0 names.length ((collectBlocks 0 root).map (·.1))
  fits : ∀ c, Within root c → c.Fits
  tables : ∀ c, Within root c → Tables c.instrs
  bytes : ∀ n ∈ names, ∀ b ∈ n, Gen.Fits sg b

variable {sg : Bool} {names : List Str} {root : Code}

theorem ModOk.runName (h : ModOk sg names root) {b : Nat} {c} (hm : (b, c) ∈ collectBlocks 0 root) : ∃ r, runName sg names b = some r := by
  have hb := (h.inc.2 b (List.mem_map.mpr ⟨_, hm, rfl⟩)).2
  have hn := h.bytes _ (List.getElem_mem hb)
  unfold Backend.runName Gen.functionLabel
  rw [List.getElem?_eq_getElem hb, Option.bind_some, Gen.sanitize_some _ _ hn]
  exact ⟨_, rfl⟩

theorem ModOk.emit (h : ModOk sg names root) {b : Nat} {c} (hm : (b, c) ∈ collectBlocks 0 root) : ∃ f, emitCode sg names b c = some f := by
  obtain ⟨r, hr⟩ := h.runName hm
  obtain ⟨hw, hin⟩ := collect_mem root b c hm
  have hf := (h.fits c hw).2
  obtain ⟨out, ho⟩ := emitLoop_some (sg := sg) (names := names) (block := b) c.instrs 0 0 0 (List.replicate c.instrs.length false) c.profile
    (fun k i hk t ht => by
      rw [Nat.zero_add] at ht ⊢
      rw [List.length_replicate]
      exact (hf k i hk).jumps t ht)
    fun c' off scope d hm' => by
      obtain ⟨k, hk⟩ := List.mem_iff_getElem?.mp hm'
      exact ⟨(hf k _ hk).captures _ _ _ _ rfl, h.runName (hin _ _ _ _ hm')⟩
  simp only [emitCode, hr, ho, Option.bind_some, Option.map_some]; exact ⟨_, rfl⟩

theorem mapM_ok {α β : Type} {f : α → Option β} : {xs : List α} → (∀ x ∈ xs, ∃ y, f x = some y) → ∃ ys, xs.mapM f = some ys
  | [], _ => ⟨[], rfl⟩
  | x :: xs, h => by
    obtain ⟨y, hy⟩ := h x (List.mem_cons_self ..)
    obtain ⟨ys, hys⟩ := mapM_ok (xs := xs) fun x hx => h x (List.mem_cons_of_mem _ hx)
    exact ⟨y :: ys, by rw [List.mapM_cons, hy, hys]; rfl⟩

theorem collect_root (block : Nat) (code : Code) : (block, code) ∈ collectBlocks block code := by
  cases code; rw [collectBlocks]; exact List.mem_cons_self ..

theorem ModOk.generate (h : ModOk sg names root) : ∃ md, generateC sg names root = some md := by
  obtain ⟨fs, hfs⟩ := mapM_ok (f := fun b => emitCode sg names b.1 b.2) (xs := collectBlocks 0 root) fun x hx => h.emit hx
  obtain ⟨r, hr⟩ := h.runName (collect_root 0 root)
  simp only [generateC, hfs, hr, Option.bind_some, Option.map_some]; exact ⟨_, rfl⟩

theorem emitCode_name {b : Nat} {c f} (h : emitCode sg names b c = some f) : runName sg names b = some f.name := by
  simp only [emitCode, Option.bind_eq_some_iff, Option.map_eq_some_iff] at h
  obtain ⟨n, h1, _, _, rfl⟩ := h
  exact h1

theorem runName_inj {i j : Nat} {s} (h1 : runName sg names i = some s) (h2 : runName sg names j = some s) : i = j := by
  simp only [Backend.runName, Option.bind_eq_some_iff] at h1 h2
  obtain ⟨n, _, h1⟩ := h1
  obtain ⟨m, _, h2⟩ := h2
  exact Gen.C35_function_labels_distinct sg _ (.inl rfl) _ _ _ _ _ h1 h2

/-- The function emitted for a block is found by its name. -/
theorem find_emitted {b : Nat} {c f} : {xs : List (Nat × Code)} → {fs : List CFun} → (xs.map (·.1)).Pairwise (· < ·) →
    xs.mapM (fun b => emitCode sg names b.1 b.2) = some fs → (b, c) ∈ xs → emitCode sg names b c = some f → fs.find? (fun g => g.name == f.name) = some f
  | [], _, _, _, hm, _ => by cases hm
  | (b0, c0) :: xs, fs, hi, hfs, hm, hf => by
    rw [List.mapM_cons] at hfs
    cases h0 : emitCode sg names b0 c0 with
    | none => rw [h0] at hfs; cases hfs
    | some f0 =>
      cases h1 : xs.mapM (fun b => emitCode sg names b.1 b.2) with
      | none => rw [h0, h1] at hfs; cases hfs
      | some fs1 =>
        rw [h0, h1] at hfs
        cases hfs
        rw [List.map_cons, List.pairwise_cons] at hi
        rcases List.mem_cons.mp hm with hm | hm
        · cases hm
          rw [h0] at hf
          cases hf
          simp
        · have hlt : b0 < b := hi.1 b (List.mem_map.mpr ⟨_, hm, rfl⟩)
          have hne : f0.name ≠ f.name := fun e => by
            have e1 := emitCode_name h0
            have e2 := emitCode_name hf
            rw [e] at e1
            have := runName_inj e1 e2
            omega
          rw [List.find?_cons_of_neg (by simpa using hne)]
          exact find_emitted hi.2 h1 hm hf

/-! ### Run functions -/

theorem RR.agrees {F G : Type} {R : F → G → Prop} {α β : Type} {P : α → β → Prop} {x : Res F α} {y z : Res G β} (h : RR R P x y) (h' : Agrees y z) : RR R P x z := by
  rcases h' with h' | h' | h'
  · subst h'
    cases h
    · exact .crash
    · exact .wild
  · subst h'
    cases h
    · exact .crash
    · exact .wild
  · rw [h']; exact h

/-- How a run function of the program belongs to code: Interpret runs the main function, and the
function with the name of a block of a module is for the code with the block. -/
def CImpl (sg : Bool) (progs : List (List Str × Code)) (code : Code) : CBody → Prop
  | .interp c => c = code ∧ ∀ c' off scope d, .func c' off scope d ∉ code.instrs
  | .gen m name => ∃ names root b, progs[m]? = some (names, root) ∧ (b, code) ∈ collectBlocks 0 root ∧ runName sg names b = some name

/-- The modules are those generated from the programs. -/
def Generated (sg : Bool) (progs : List (List Str × Code)) (mods : List CModule) : Prop :=
  ∀ (m : Nat) names root, progs[m]? = some (names, root) → ModOk sg names root ∧ ∃ md, mods[m]? = some md ∧ generateC sg names root = some md

theorem ModOk.codeOk (h : ModOk sg names root) {c} (hw : Within root c) : CodeOk c.numLocals c.instrs := by
  have hf := (h.fits c hw).2
  refine ⟨fun i hi d hd => ?_, fun pc i hi => (hf pc i hi).jumps, fun c' off scope d hi => ?_, h.tables c hw⟩
  · obtain ⟨k, hk⟩ := List.mem_iff_getElem?.mp hi
    exact (hf k i hk).writes d hd
  · obtain ⟨k, hk⟩ := List.mem_iff_getElem?.mp hi
    exact (hf k _ hk).captures _ _ _ _ rfl

/-- The run functions do what the interpreter does with the code. -/
theorem runC_body {progs : List (List Str × Code)} {mods : List CModule} (hg : Generated sg progs mods) :
    ∀ {code body}, CImpl sg progs code body → BodyR (CImpl sg progs) (runC mods) code body := by
  intro code body h
  cases body with
  | interp c =>
    obtain ⟨rfl, hno⟩ := h
    exact interpret_body (mk := fun c _ => .interp c) (by funext; rfl) fun c' off scope d hm => absurd hm (hno c' off scope d)
  | gen m name =>
    obtain ⟨names, root, b, h1, h2, h3⟩ := h
    obtain ⟨hok, md, hmd, hgen⟩ := hg m names root h1
    obtain ⟨f, hf⟩ := hok.emit h2
    obtain ⟨hw, hin⟩ := collect_mem root b code h2
    have hname : f.name = name := by
      have := emitCode_name hf
      rw [h3] at this
      exact (Option.some.inj this).symm
    simp only [generateC, Option.bind_eq_some_iff, Option.map_eq_some_iff] at hgen
    obtain ⟨fs, hfs, run, _, rfl⟩ := hgen
    have hfind := find_emitted hok.inc.1 hfs h2 hf
    rw [hname] at hfind
    intro call call' st st' as as' s s' hc hst has hs
    have hrun : runC mods (.gen m name) call' st' as' s' =
        cexec m f.body call' f.body ⟨st', as', List.replicate f.numLocals none, fun _ => none, none⟩ s' := by
      simp only [runC, hmd, Option.bind_some, hfind]
    rw [hrun]
    simp only [emitCode, Option.bind_eq_some_iff, Option.map_eq_some_iff] at hf
    obtain ⟨n, _, body, hbody, rfl⟩ := hf
    refine RR.agrees (exec_rr (mk := genBody sg names m b) ?_ hc (frame_rr (code := code) hst has) hs) ?_
    · intro c off scope d hm
      have hm' := hin c off scope d hm
      obtain ⟨r, hr⟩ := hok.runName hm'
      exact ⟨names, root, b + off, h1, hm', by rw [hr]; simp⟩
    · refine csim (hok.codeOk hw) (ops := code.profile) _ 0 rfl (exe := 0) (lit := 0) (pre := []) (by simpa using hbody) rfl .nil (by simp) _ _ _
        ⟨rfl, rfl, by simp⟩ (by simp)

/-! ### Programs -/

/-- Names for the blocks of a module: as many as it has blocks, with bytes that the generator can
escape (C36). -/
def NamesFor (sg : Bool) (m : Mod) (names : List Str) : Prop :=
  (∀ code n, compileModule m.deps.length m.body = some (code, n) → names.length = n) ∧ ∀ n ∈ names, ∀ b ∈ n, Gen.Fits sg b

theorem module_neat {nargs : Nat} {t : Tc} (ht : t.Scoped 0 nargs []) {code n} (hc : compileModule nargs t = some (code, n)) :
    Inc 0 n ((collectBlocks 0 code).map (·.1)) ∧ (∀ c, Within code c → Tables c.instrs) ∧ (∀ c, Within code c → c.Fits) ∧ code.numArgs = nargs := by
  obtain ⟨code', n', h1, h2, h3, h4⟩ := C14_code_fits ht
  rw [hc] at h1
  cases h1
  obtain ⟨o, e1, co, fo, _⟩ := compile_ok true t (pushBlock ⟨[], 0⟩).2 (initScope 0 nargs 0) ht (initScope_inv _ _ _) (by simp [initScope, pushBlock])
  have hst : (exitBlock true o.bl o.sc).1.stack = [] := by rw [exitBlock_stack, fo.stack]; rfl
  have hc' : compileModule nargs t = some (.mk nargs 0 o.sc.nlocals o.code o.sc.prof.ops, o.bl.count) := by
    unfold compileModule
    simp only [show (pushBlock ⟨[], 0⟩).1 = 0 from rfl, e1, Option.bind_some]
    rw [if_pos hst]
    rfl
  rw [hc] at hc'
  cases hc'
  have hn : Neat 0 1 o.bl.count o.code := co.neat fo.block
  refine ⟨?_, fun c hw => ?_, h4, h3⟩
  · rw [collectBlocks, List.map_cons]
    exact Inc.append (a := [0]) (m := 1) (m' := 1) ⟨by simp, by simp⟩ (Nat.le_refl _) (by omega) hn.le hn.inc
  · cases hw with
    | here => exact hn.tables
    | inner hm hw => exact hn.inner _ _ _ _ hm _ hw

theorem compileC_ok : (ms : List Mod) → (k i : Nat) → progOk i ms → (names : List (List Str)) → All2 (NamesFor sg) ms names →
    ∃ codes mods, compileAll ms = some codes ∧ compileC sg ms names = some mods ∧ mods.length = codes.length ∧ names.length = codes.length ∧
      Generated sg (names.zip codes) mods ∧
      ∃ bodies, cExecutables k mods = (codes.map (·.numArgs)).zip bodies ∧ bodies.length = codes.length ∧
        ∀ (j : Nat) code body, codes[j]? = some code → bodies[j]? = some body → ∃ ns name, body = .gen (k + j) name ∧ names[j]? = some ns ∧ runName sg ns 0 = some name
  | [], _, _, _, _, .nil => ⟨[], [], rfl, rfl, rfl, rfl, by intro m names root h; simp at h, [], rfl, rfl, by simp⟩
  | m :: ms, k, i, hp, _, .cons (b := ns) (bs := names) hn hns => by
    obtain ⟨codes, mods, h1, h2, h3, h4, h5, bodies, h6, h7, h8⟩ := compileC_ok ms (k + 1) (i + 1) hp.2.2 names hns
    obtain ⟨code, n, c1, _⟩ := C14_code_fits hp.2.1
    obtain ⟨n1, n2, n3, n4⟩ := module_neat hp.2.1 c1
    have hlen := hn.1 code n c1
    have hok : ModOk sg ns code := ⟨by rw [hlen]; exact n1, n3, n2, hn.2⟩
    obtain ⟨md, hmd⟩ := hok.generate
    obtain ⟨r, hr⟩ := hok.runName (collect_root 0 code)
    have hmd' := hmd
    simp only [generateC, Option.bind_eq_some_iff, Option.map_eq_some_iff] at hmd'
    obtain ⟨fs, _, run, hrun, rfl⟩ := hmd'
    simp only [compileAll] at h1
    refine ⟨code :: codes, ⟨fs, code.numArgs, code.numStatics, run⟩ :: mods, by simp [compileAll, List.mapM_cons, c1, h1], ?_, by simp [h3], by simp [h4],
      ?_, .gen k run :: bodies, by simp [cExecutables, h6], by simp [h7], ?_⟩
    · simp only [compileC, c1, Option.bind_some, List.headD_cons, hlen, if_true, hmd, List.tail_cons, h2, Option.map_some]
    · intro j names' root hj
      cases j with
      | zero =>
        simp at hj
        obtain ⟨rfl, rfl⟩ := hj
        exact ⟨hok, _, rfl, hmd⟩
      | succ j =>
        obtain ⟨a, md, b, c⟩ := h5 j names' root (by simpa using hj)
        exact ⟨a, md, by simpa using b, c⟩
    · intro j code' body hj hb
      cases j with
      | zero =>
        simp at hb
        exact ⟨ns, run, by rw [← hb]; rfl, rfl, hrun⟩
      | succ j =>
        obtain ⟨ns', name, a, b, c⟩ := h8 j code' body (by simpa using hj) (by simpa using hb)
        exact ⟨ns', name, by rw [a, show k + 1 + j = k + (j + 1) by omega], by simpa using b, c⟩

theorem mainInstrs_calls : (ms : List Mod) → (k : Nat) → ∀ i ∈ mainInstrs k ms, ∃ f as d, i = .call f as d
  | [], _, i, h => by simp [mainInstrs] at h
  | m :: ms, k, i, h => by
    rw [mainInstrs] at h
    rcases List.mem_cons.mp h with h | h
    · exact ⟨_, _, _, h⟩
    · exact mainInstrs_calls ms (k + 1) i h

theorem all2_of_get {α β : Type} {R : α → β → Prop} : {l : List α} → {l' : List β} → l.length = l'.length →
    (∀ (j : Nat) a b, l[j]? = some a → l'[j]? = some b → R a b) → All2 R l l'
  | [], [], _, _ => .nil
  | a :: l, b :: l', h, hr => .cons (hr 0 a b rfl rfl) (all2_of_get (by simpa using h) fun j a b ha hb => hr (j + 1) a b (by simpa using ha) (by simpa using hb))

theorem not_crash {F G : Type} {x : Res F (Val F)} {y : Res G (Val G)} (h : ∀ depth, x.seen depth = y.seen depth) (hy : y ≠ .crash) : x ≠ .crash := by
  intro e
  subst e
  have := h 0
  cases y <;> simp [Res.seen] at this
  exact hy rfl

/-- The modules in C, run with any outside, do what the interpreted ones do. -/
theorem compiledC_rel {ms : List Mod} {names : List (List Str)} (hne : ms ≠ []) (h : progOk 0 ms) (hnames : All2 (NamesFor sg) ms names) {codes} (h1 : compileAll ms = some codes) :
    ∃ (mods : List CModule) (E : Code → CBody → Prop), compileC sg ms names = some mods ∧ (∀ {code body}, E code body → BodyR E (runC mods) code body) ∧
      ∀ fuel out, RR (FR E) (VR (FR E)) (runMachine ms codes fuel out) (runCProgram ms mods fuel out) := by
  obtain ⟨codes', mods, g1, g2, g3, g4, g5, bodies, g6, g7, g8⟩ := compileC_ok ms 0 0 h names hnames
  rw [h1] at g1
  cases g1
  have hmain : CImpl sg (names.zip codes) (mainCode ms) (.interp (mainCode ms)) := by
    refine ⟨rfl, fun c off scope d hm => ?_⟩
    simp only [mainCode, Code.instrs, List.mem_append, List.mem_singleton] at hm
    rcases hm with hm | hm
    · obtain ⟨f, as, d, e⟩ := mainInstrs_calls ms 0 _ hm
      cases e
    · cases hm
  have hall : All2 (CImpl sg (names.zip codes)) codes bodies := by
    refine all2_of_get g7.symm fun j code body hj hb => ?_
    obtain ⟨ns, name, rfl, e2, e3⟩ := g8 j code body hj hb
    rw [Nat.zero_add]
    exact ⟨ns, code, 0, by rw [List.getElem?_zip_eq_some]; exact ⟨e2, hj⟩, collect_root 0 code, e3⟩
  refine ⟨mods, _, g2, runC_body g5, fun fuel out => ?_⟩
  have hr := program_rr (runC_body g5) hmain hall fuel out
  rw [← g6] at hr
  exact hr

/-- C62. Every program whose expressions are in scope can be compiled to C, and running the compiled
program gives what the program means: the same value, an abort if and only if the program aborts, and
so on, however many function bodies are entered, unless the program uses a value as one of another type
(`crash`; well typed programs do not, see C61).  The C code never uses a variable that has no value or
a pointer that is not a value, and never jumps to a label that is not there. -/
theorem C62_c_program {ms : List Mod} {names : List (List Str)} (hne : ms ≠ []) (h : progOk 0 ms) (hnames : All2 (NamesFor sg) ms names) :
    ∃ mods, compileC sg ms names = some mods ∧ ∀ fuel, runProgram ms fuel ≠ .crash →
      (∀ depth, (runCProgram ms mods fuel).seen depth = (runProgram ms fuel).seen depth) ∧ runCProgram ms mods fuel ≠ .wild := by
  obtain ⟨codes, h1, h2⟩ := C13_compiled_program hne h
  obtain ⟨mods, E, g2, _, g3⟩ := compiledC_rel hne h hnames h1
  refine ⟨mods, g2, fun fuel hcr => ?_⟩
  have hr := g3 fuel .silent
  obtain ⟨e1, e2⟩ := h2 fuel
  have e3 : runMachine ms codes fuel ≠ .crash := not_crash e1 hcr
  refine ⟨fun depth => (hr.seen e2 e3 depth).trans (e1 depth), fun hw => ?_⟩
  rw [hw] at hr
  generalize runMachine ms codes fuel = x at hr e2 e3
  cases hr
  · exact e3 rfl
  · exact e2 rfl

end Verif.Backend
