import Verif.Backend.CProgram
/-
The emitted C code is well formed: what is declared in a function is declared once, and the labels and
functions that are used are there.
-/
namespace Verif.Backend
open Verif.Compile
open Verif.Text (Str ch)

/-! ### What it means -/

def CStmt.label? : CStmt → Option Nat
  | .label pc => some pc
  | _ => none
def CStmt.exe? : CStmt → Option Nat
  | .exe id .. => some id
  | _ => none
def CStmt.lit? : CStmt → Option Nat
  | .lit id _ => some id
  | _ => none
def CStmt.arr? : CStmt → Option CArr
  | .arr name .. => some name
  | _ => none

/-- The labels a statement refers to. -/
def CStmt.targets : CStmt → List Nat
  | .goto t => [t]
  | .switch _ cases d => d :: cases.map (·.2)
  | _ => []

/-- A function is well formed. -/
structure CFun.Valid (f : CFun) : Prop where
  labels : (f.body.filterMap CStmt.label?).Nodup
  exes : (f.body.filterMap CStmt.exe?).Nodup
  lits : (f.body.filterMap CStmt.lit?).Nodup
  arrs : (f.body.filterMap CStmt.arr?).Nodup
  targets : ∀ st ∈ f.body, ∀ t ∈ st.targets, .label t ∈ f.body
  cases : ∀ v cases d, .switch v cases d ∈ f.body → (cases.map (·.1)).Nodup

/-- A module is well formed: its functions are, have different names, and the ones used are there. -/
structure CModule.Valid (m : CModule) : Prop where
  names : (m.funs.map (·.name)).Nodup
  funs : ∀ f ∈ m.funs, f.Valid
  run : m.run ∈ m.funs.map (·.name)
  exes : ∀ f ∈ m.funs, ∀ id na ns r, .exe id na ns r ∈ f.body → r ∈ m.funs.map (·.name)

/-! ### Proof -/

def CArr.pc : CArr → Nat
  | .fv pc => pc
  | .ca pc => pc

variable {sg : Bool} {names : List Str} {block : Nat}

theorem Inc.nodup {lo hi xs} (h : Inc lo hi xs) : xs.Nodup := h.1.imp fun h => Nat.ne_of_lt h

structure Ordered (pc pc' e e' l l' : Nat) (xs : List CStmt) : Prop where
  labels : Inc pc pc' (xs.filterMap CStmt.label?)
  exes : Inc e e' (xs.filterMap CStmt.exe?)
  lits : Inc l l' (xs.filterMap CStmt.lit?)
  arrs : Inc pc pc' ((xs.filterMap CStmt.arr?).map CArr.pc)

theorem Ordered.append {pc pc1 pc2 e e1 e2 l l1 l2 a b} (h : Ordered pc pc1 e e1 l l1 a) (h' : Ordered pc1 pc2 e1 e2 l1 l2 b)
    (p1 : pc ≤ pc1) (p2 : pc1 ≤ pc2) (q1 : e ≤ e1) (q2 : e1 ≤ e2) (r1 : l ≤ l1) (r2 : l1 ≤ l2) : Ordered pc pc2 e e2 l l2 (a ++ b) := by
  refine ⟨?_, ?_, ?_, ?_⟩
  · rw [List.filterMap_append]; exact h.labels.append (Nat.le_refl _) p1 p2 h'.labels
  · rw [List.filterMap_append]; exact h.exes.append (Nat.le_refl _) q1 q2 h'.exes
  · rw [List.filterMap_append]; exact h.lits.append (Nat.le_refl _) r1 r2 h'.lits
  · rw [List.filterMap_append, List.map_append]; exact h.arrs.append (Nat.le_refl _) p1 p2 h'.arrs

theorem Inc.one {a : Nat} : Inc a (a + 1) [a] := ⟨by simp, by simp⟩

theorem emitInstr_ordered {pc exe lit flags i r} (h : emitInstr sg names block pc exe lit flags i = some r) (ops : List POp) :
    Ordered pc (pc + 1) exe r.2.1 lit r.2.2.1 (emitHead flags pc ops ++ r.1) := by
  have hh : ∀ xs, (emitHead flags pc ops ++ xs).filterMap CStmt.exe? = xs.filterMap CStmt.exe? ∧
      (emitHead flags pc ops ++ xs).filterMap CStmt.lit? = xs.filterMap CStmt.lit? ∧ (emitHead flags pc ops ++ xs).filterMap CStmt.arr? = xs.filterMap CStmt.arr? := by
    intro xs
    unfold emitHead
    split <;> split <;> exact ⟨rfl, rfl, rfl⟩
  have hl : Inc pc (pc + 1) ((emitHead flags pc ops).filterMap CStmt.label?) := by
    unfold emitHead
    split <;> split
    · exact .one
    · exact .one
    · exact .nil
    · exact .nil
  have hn : r.1.filterMap CStmt.label? = [] := by
    rw [List.filterMap_eq_nil_iff]
    intro st hs
    cases st
    case label t => exact absurd hs ((emitInstr_ok h).noLabel t)
    all_goals rfl
  suffices hs : Inc exe r.2.1 (r.1.filterMap CStmt.exe?) ∧ Inc lit r.2.2.1 (r.1.filterMap CStmt.lit?) ∧ Inc pc (pc + 1) ((r.1.filterMap CStmt.arr?).map CArr.pc) by
    refine ⟨by rw [List.filterMap_append, hn, List.append_nil]; exact hl, ?_, ?_, ?_⟩
    · rw [(hh _).1]; exact hs.1
    · rw [(hh _).2.1]; exact hs.2.1
    · rw [(hh _).2.2]; exact hs.2.2
  clear hh hl hn
  cases i
  case select c targets default =>
    simp only [emitInstr, Option.bind_eq_some_iff, Option.map_eq_some_iff] at h
    obtain ⟨_, _, _, _, rfl⟩ := h
    exact ⟨.nil, .nil, .nil⟩
  case goto t =>
    simp only [emitInstr, Option.map_eq_some_iff] at h
    obtain ⟨_, _, rfl⟩ := h
    exact ⟨.nil, .nil, .nil⟩
  case func code off scope dest =>
    simp only [emitInstr, Option.bind_eq_some_iff, Option.map_eq_some_iff] at h
    obtain ⟨_, _, _, _, rfl⟩ := h
    exact ⟨.one, .nil, .one⟩
  all_goals
    cases h
    exact ⟨by first | exact .nil | exact .one, by first | exact .nil | exact .one, by first | exact .nil | exact .one⟩

theorem emitLoop_ordered : (is : List Instr) → {pc exe lit : Nat} → {flags : List Bool} → {ops : List (List POp)} → {out : List CStmt} →
    emitLoop sg names block pc exe lit flags is ops = some out → ∃ exe' lit', exe ≤ exe' ∧ lit ≤ lit' ∧ Ordered pc (pc + is.length) exe exe' lit lit' out
  | [], pc, exe, lit, flags, ops, out, h => by
    cases h
    exact ⟨exe, lit, Nat.le_refl _, Nat.le_refl _, .nil, .nil, .nil, .nil⟩
  | i :: is, pc, exe, lit, flags, ops, out, h => by
    simp only [emitLoop, Option.bind_eq_some_iff, Option.map_eq_some_iff] at h
    obtain ⟨r, e1, rest, e2, rfl⟩ := h
    have ok := emitInstr_ok e1
    obtain ⟨exe', lit', h1, h2, h3⟩ := emitLoop_ordered is e2
    refine ⟨exe', lit', Nat.le_trans ok.exe h1, Nat.le_trans ok.lit h2, ?_⟩
    rw [show pc + (i :: is).length = pc + 1 + is.length by simp; omega]
    exact (emitInstr_ordered e1 _).append h3 (by omega) (by omega) ok.exe h1 ok.lit h2

/-- What is used by the statements of an instruction. -/
theorem emitInstr_uses {pc exe lit flags i r} (h : emitInstr sg names block pc exe lit flags i = some r) : ∀ st ∈ r.1,
    (∀ t ∈ st.targets, pc < t ∧ r.2.2.2[t]? = some true) ∧
    (∀ v cases d, st = .switch v cases d → ∃ nt targets, i = .select v nt targets d ∧ cases = targets.map fun b => (b.tag, b.target)) ∧
    (∀ id na ns run, st = .exe id na ns run → ∃ c off scope d, i = .func c off scope d ∧ runName sg names (block + off) = some run) := by
  intro st hs
  cases i
  case select c targets default =>
    simp only [emitInstr, Option.bind_eq_some_iff, Option.map_eq_some_iff] at h
    obtain ⟨f1, m1, f2, m2, rfl⟩ := h
    obtain ⟨a1, a2, a3⟩ := markAll_spec m1
    obtain ⟨b1, b2, b3, b4⟩ := mark_spec m2
    simp only [List.mem_singleton] at hs
    subst hs
    refine ⟨fun t ht => ?_, fun v cases d e => ?_, by simp⟩
    · simp only [CStmt.targets, List.map_map, List.mem_cons, List.mem_map] at ht
      rcases ht with rfl | ⟨b, hb, rfl⟩
      · exact ⟨b1, b3⟩
      · exact ⟨(a1 b hb).1, b4 _ (a1 b hb).2⟩
    · cases e
      exact ⟨_, targets, rfl, rfl⟩
  case goto t =>
    simp only [emitInstr, Option.map_eq_some_iff] at h
    obtain ⟨f2, m2, rfl⟩ := h
    obtain ⟨b1, b2, b3, b4⟩ := mark_spec m2
    simp only [List.mem_singleton] at hs
    subst hs
    refine ⟨fun t ht => ?_, by simp, by simp⟩
    simp only [CStmt.targets, List.mem_singleton] at ht
    subst ht
    exact ⟨b1, b3⟩
  case func code off scope dest =>
    simp only [emitInstr, Option.bind_eq_some_iff, Option.map_eq_some_iff] at h
    obtain ⟨run, m1, vs, _, rfl⟩ := h
    simp only [List.mem_cons, List.not_mem_nil, or_false] at hs
    rcases hs with rfl | rfl | rfl
    · refine ⟨by simp [CStmt.targets], by simp, fun id na ns run' e => ?_⟩
      cases e
      exact ⟨_, _, _, _, rfl, m1⟩
    · exact ⟨by simp [CStmt.targets], by simp, by simp⟩
    · exact ⟨by simp [CStmt.targets], by simp, by simp⟩
  case nop => cases h; cases hs
  all_goals
    cases h
    simp only [List.mem_cons, List.not_mem_nil, or_false] at hs
    first
      | (rcases hs with rfl | rfl | rfl | rfl <;> exact ⟨by simp [CStmt.targets], by simp, by simp⟩)
      | (rcases hs with rfl | rfl | rfl <;> exact ⟨by simp [CStmt.targets], by simp, by simp⟩)
      | (rcases hs with rfl | rfl <;> exact ⟨by simp [CStmt.targets], by simp, by simp⟩)
      | (subst hs; exact ⟨by simp [CStmt.targets], by simp, by simp⟩)

theorem emitLoop_uses : (is : List Instr) → {pc exe lit : Nat} → {flags : List Bool} → {ops : List (List POp)} → {out : List CStmt} →
    emitLoop sg names block pc exe lit flags is ops = some out → flags.length = pc + is.length → ∀ st ∈ out,
    (∀ t ∈ st.targets, .label t ∈ out) ∧
    (∀ v cases d, st = .switch v cases d → ∃ nt targets, .select v nt targets d ∈ is ∧ cases = targets.map fun b => (b.tag, b.target)) ∧
    (∀ id na ns run, st = .exe id na ns run → ∃ c off scope d, .func c off scope d ∈ is ∧ runName sg names (block + off) = some run)
  | [], pc, exe, lit, flags, ops, out, h, _, st, hs => by cases h; cases hs
  | i :: is, pc, exe, lit, flags, ops, out, h, hl, st, hs => by
    simp only [emitLoop, Option.bind_eq_some_iff, Option.map_eq_some_iff] at h
    obtain ⟨r, e1, rest, e2, rfl⟩ := h
    have ok := emitInstr_ok e1
    rw [List.mem_append] at hs
    rcases hs with hs | hs
    · rw [List.mem_append] at hs
      rcases hs with hs | hs
      · unfold emitHead at hs
        rcases List.mem_append.mp hs with hs | hs <;> split at hs <;> simp at hs <;> subst hs <;> exact ⟨by simp [CStmt.targets], by simp, by simp⟩
      · obtain ⟨h1, h2, h3⟩ := emitInstr_uses e1 st hs
        refine ⟨fun t ht => ?_, fun v cases d e => ?_, fun id na ns run e => ?_⟩
        · obtain ⟨hlt, hf⟩ := h1 t ht
          have hb : t < flags.length := by
            have := (List.getElem?_eq_some_iff.mp hf).1
            rwa [ok.length] at this
          obtain ⟨_, _, _, k, mid, _, a2, _⟩ := seek_emit is e2 hf hlt (by rw [hl] at hb; simp at hb; omega)
          rw [a2]
          simp
        · obtain ⟨nt, ts, a, b⟩ := h2 v cases d e
          exact ⟨nt, ts, a ▸ List.mem_cons_self .., b⟩
        · obtain ⟨c, off, scope, d, a, b⟩ := h3 id na ns run e
          exact ⟨c, off, scope, d, a ▸ List.mem_cons_self .., b⟩
    · obtain ⟨h1, h2, h3⟩ := emitLoop_uses is e2 (by rw [ok.length, hl]; simp; omega) st hs
      refine ⟨fun t ht => List.mem_append.mpr (.inr (h1 t ht)), fun v cases d e => ?_, fun id na ns run e => ?_⟩
      · obtain ⟨nt, ts, a, b⟩ := h2 v cases d e
        exact ⟨nt, ts, List.mem_cons_of_mem _ a, b⟩
      · obtain ⟨c, off, scope, d, a, b⟩ := h3 id na ns run e
        exact ⟨c, off, scope, d, List.mem_cons_of_mem _ a, b⟩

theorem emitCode_valid {b : Nat} {c f} (h : emitCode sg names b c = some f) (ht : Tables c.instrs) : f.Valid ∧
    ∀ id na ns r, .exe id na ns r ∈ f.body → ∃ c' off scope d, .func c' off scope d ∈ c.instrs ∧ runName sg names (b + off) = some r := by
  simp only [emitCode, Option.bind_eq_some_iff, Option.map_eq_some_iff] at h
  obtain ⟨n, _, body, hbody, rfl⟩ := h
  obtain ⟨e', l', _, _, ho⟩ := emitLoop_ordered _ hbody
  have hu := emitLoop_uses _ hbody (by simp)
  refine ⟨⟨ho.labels.nodup, ho.exes.nodup, ho.lits.nodup, (List.pairwise_map.mp ho.arrs.nodup).imp fun h e => h (congrArg CArr.pc e), fun st hs => (hu st hs).1, fun v cases d hs => ?_⟩,
    fun id na ns r hs => (hu _ hs).2.2 _ _ _ _ rfl⟩
  obtain ⟨nt, ts, h1, rfl⟩ := (hu _ hs).2.1 v cases d rfl
  have := (ht _ _ _ _ h1).1
  rw [List.map_map]
  exact List.pairwise_map.mpr (this.imp fun h => Nat.ne_of_lt h)

theorem mapM_mem {α β : Type} {f : α → Option β} : {xs : List α} → {ys : List β} → xs.mapM f = some ys →
    (∀ y ∈ ys, ∃ x ∈ xs, f x = some y) ∧ ∀ x ∈ xs, ∃ y ∈ ys, f x = some y
  | [], ys, h => by cases h; simp
  | x :: xs, ys, h => by
    rw [List.mapM_cons] at h
    cases h0 : f x with
    | none => rw [h0] at h; cases h
    | some y =>
      cases h1 : xs.mapM f with
      | none => rw [h0, h1] at h; cases h
      | some ys' =>
        rw [h0, h1] at h
        cases h
        obtain ⟨a, b⟩ := mapM_mem h1
        constructor
        · intro z hz
          rcases List.mem_cons.mp hz with rfl | hz
          · exact ⟨x, List.mem_cons_self .., h0⟩
          · obtain ⟨w, hw, e⟩ := a z hz
            exact ⟨w, List.mem_cons_of_mem _ hw, e⟩
        · intro z hz
          rcases List.mem_cons.mp hz with rfl | hz
          · exact ⟨y, List.mem_cons_self .., h0⟩
          · obtain ⟨w, hw, e⟩ := b z hz
            exact ⟨w, List.mem_cons_of_mem _ hw, e⟩

theorem names_nodup : {xs : List (Nat × Code)} → {fs : List CFun} → (xs.map (·.1)).Pairwise (· < ·) →
    xs.mapM (fun b => emitCode sg names b.1 b.2) = some fs → (fs.map (·.name)).Nodup
  | [], fs, _, h => by cases h; simp
  | (b0, c0) :: xs, fs, hi, h => by
    rw [List.mapM_cons] at h
    cases h0 : emitCode sg names b0 c0 with
    | none => rw [h0] at h; cases h
    | some f0 =>
      cases h1 : xs.mapM (fun b => emitCode sg names b.1 b.2) with
      | none => rw [h0, h1] at h; cases h
      | some fs1 =>
        rw [h0, h1] at h
        cases h
        rw [List.map_cons, List.pairwise_cons] at hi
        rw [List.map_cons, List.nodup_cons]
        refine ⟨fun hm => ?_, names_nodup hi.2 h1⟩
        obtain ⟨f, hf, e⟩ := List.mem_map.mp hm
        obtain ⟨⟨b, c⟩, hb, he⟩ := (mapM_mem h1).1 f hf
        have := hi.1 b (List.mem_map.mpr ⟨_, hb, rfl⟩)
        have := runName_inj (emitCode_name h0) (e ▸ emitCode_name he)
        omega

theorem ModOk.valid {root : Code} (h : ModOk sg names root) {md} (hg : generateC sg names root = some md) : md.Valid := by
  simp only [generateC, Option.bind_eq_some_iff, Option.map_eq_some_iff] at hg
  obtain ⟨fs, hfs, run, hrun, rfl⟩ := hg
  obtain ⟨m1, m2⟩ := mapM_mem hfs
  have byName : ∀ {b c r}, (b, c) ∈ collectBlocks 0 root → Backend.runName sg names b = some r → r ∈ fs.map (·.name) := by
    intro b c r hm hr
    obtain ⟨f, hf, he⟩ := m2 _ hm
    have := emitCode_name he
    rw [hr] at this
    exact List.mem_map.mpr ⟨f, hf, (Option.some.inj this).symm⟩
  refine ⟨names_nodup h.inc.1 hfs, fun f hf => ?_, byName (collect_root 0 root) hrun, fun f hf id na ns r hs => ?_⟩
  · obtain ⟨⟨b, c⟩, hb, he⟩ := m1 f hf
    exact (emitCode_valid he (h.tables c (collect_mem root b c hb).1)).1
  · obtain ⟨⟨b, c⟩, hb, he⟩ := m1 f hf
    obtain ⟨hw, hin⟩ := collect_mem root b c hb
    obtain ⟨c', off, scope, d, h1, h2⟩ := (emitCode_valid he (h.tables c hw)).2 id na ns r hs
    exact byName (hin _ _ _ _ h1) h2

/-- C62. The C code of every module of a program whose expressions are in scope is well formed: in a
function no label, variable or constant is declared twice, labels that are jumped to are there, a
switch has no case twice; functions have different names, and those used are defined. -/
theorem C62_c_valid {ms : List Mod} {nss : List (List Str)} (h : progOk 0 ms) (hnames : All2 (NamesFor sg) ms nss) {mods} (hc : compileC sg ms nss = some mods) :
    ∀ md ∈ mods, md.Valid := by
  generalize 0 = i at h
  induction ms generalizing nss mods i with
  | nil => cases hc; simp
  | cons m ms ih =>
    cases hnames with
    | @cons _ ns _ nss' hn hns =>
      obtain ⟨code, n, c1, _⟩ := C14_code_fits h.2.1
      obtain ⟨n1, n2, n3, n4⟩ := module_neat h.2.1 c1
      have hlen := hn.1 code n c1
      have hok : ModOk sg ns code := ⟨by rw [hlen]; exact n1, n3, n2, hn.2⟩
      simp only [compileC, c1, Option.bind_some, List.headD_cons, hlen, if_true, List.tail_cons, Option.bind_eq_some_iff, Option.map_eq_some_iff] at hc
      obtain ⟨md, hmd, rest, hrest, rfl⟩ := hc
      intro x hx
      rcases List.mem_cons.mp hx with rfl | hx
      · exact hok.valid hmd
      · exact ih hns hrest _ h.2.2 x hx

/-! ### An example -/

theorem NamesFor.of {m : Mod} {nss : List Str} (h1 : (compileModule m.deps.length m.body).map (·.2) = some nss.length) (h2 : ∀ n ∈ nss, ∀ b ∈ n, Gen.Fits sg b) :
    NamesFor sg m nss := by
  refine ⟨fun code n h => ?_, h2⟩
  rw [h] at h1
  exact (Option.some.inj h1).symm

/-- Names for the blocks of the program of C13. -/
def exampleNames : List (List Str) := [List.replicate 5 [ch '/', ch 'A', ch '%'], [[ch '/', ch 'B', ch '%']]]

theorem example_names : All2 (NamesFor true) exampleProgram exampleNames := by
  refine .cons (.of ?_ ?_) (.cons (.of ?_ ?_) .nil)
  · simp [compileModule, compile, compiles, compileDefs, compileBrs, compileFunc, compileExit, pushBlock, newLocal, initScope, firstFree, releaseAll, Tc.head, Tc.args,
      release, upd, Scope.emit, branchCode, branchTable, afterBranch, exitBlock, popBlock, enterBlock, releaseOpt, Scope.reset, List.range_succ, letVars, letDefs, getVar,
      merge, mergeLoop, Tc.rewrite, Brs.rewrite, Tcs.rewrite, rewriteVar, Tcs.length, pushVar, popVar, popVars, setVar, Prof.append, Prof.instr, Prof.reset, addOp,
      List.set, List.find?]
  · simp [Gen.Fits]; decide
  · simp [compileModule, compile, compiles, compileExit, pushBlock, newLocal, initScope, firstFree, releaseAll, Tc.head, Tc.args, getVar,
      release, upd, Scope.emit, exitBlock, popBlock, enterBlock, releaseOpt, Scope.reset, List.range_succ]
  · simp [Gen.Fits]; decide

/-- The example, compiled to C, has the value it should have. -/
theorem C62_example : ∃ mods, compileC true exampleProgram exampleNames = some mods ∧ (∀ md ∈ mods, md.Valid) ∧
    (runCProgram exampleProgram mods 6).seen 9 = .value (.union 0 (.struct [])) := by
  have hp : exampleProgram ≠ [] ∧ progOk 0 exampleProgram := by
    simp [exampleProgram, progOk, Tc.Scoped, Tcs.Scoped, Brs.Scoped, Brs.Table, Brs.sortedFrom, Brs.tagsBelow, Var.Ok, Tcs.length]
  obtain ⟨mods, h1, h2⟩ := C62_c_program hp.1 hp.2 example_names
  exact ⟨mods, h1, C62_c_valid hp.2 example_names h1, ((h2 6 (fun h => by have := example_value; rw [h] at this; cases this)).1 9).trans example_value⟩

end Verif.Backend
