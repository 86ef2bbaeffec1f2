import Verif.Backend.A64Program
import Verif.Backend.CValid
import Verif.Select.Refs
/-
The emitted assembly is well formed: labels.
-/
namespace Verif.Backend
open Verif.Compile
open Verif.Text (Str ch)

/-! ### What is to be shown -/

/-- The labels a line refers to. -/
def Line.refs : Line → List Lbl
  | .b l | .beq l | .bcc l | .cbz _ l | .cbnz _ l => [l]
  | .adr _ (.lbl l) => [l]
  | _ => []

/-- The names of source files a line refers to. -/
def Line.locRefs : Line → List Str
  | .adr _ (.loc s) => [s]
  | _ => []

/-- A function is well formed: every label is defined once, and those referred to are defined. -/
structure AFun.Valid (f : AFun) : Prop where
  once : (labs f.body).Nodup
  defined : ∀ x ∈ f.body, ∀ l ∈ x.refs, l ∈ labs f.body

/-- A module with definitions of the names of source files `sources` is well formed: its functions
are, have different names, and the ones used are there; each name of a source file is defined once, and
those referred to are defined. -/
structure AModule.Valid (m : AModule) (sources : List Str) : Prop where
  names : (m.funs.map (·.name)).Nodup
  funs : ∀ f ∈ m.funs, f.Valid
  run : m.run ∈ m.funs.map (·.name)
  exes : ∀ f ∈ m.funs, ∀ id na ns r, .exe id na ns r ∈ f.body → r ∈ m.funs.map (·.name)
  once : sources.Nodup
  locs : ∀ f ∈ m.funs, ∀ x ∈ f.body, ∀ s ∈ x.locRefs, s ∈ sources

/-! ### Names of source files -/

/-- aarch64.c:136-144 `AddLoc`. -/
def addLoc (sources : List Str) (s : Str) : List Str := if s ∈ sources then sources else sources ++ [s]

mutual
/-- aarch64.c:158-217 `CollectBlocksAndLocs`: the locations. -/
def collectLocs (locs : Nat → Nat → SrcLoc) (block : Nat) (acc : List Str) : Code → List Str
  | .mk _ _ _ is _ => collectLocsIs locs block 0 acc is
/-- The loop aarch64.c:161-216, from instruction `pc` on. -/
def collectLocsIs (locs : Nat → Nat → SrcLoc) (block pc : Nat) (acc : List Str) : List Instr → List Str
  | [] => acc
  | i :: is => collectLocsIs locs block (pc + 1) (collectLocsI locs block pc acc i) is
/-- aarch64.c:162-215. -/
def collectLocsI (locs : Nat → Nat → SrcLoc) (block pc : Nat) (acc : List Str) : Instr → List Str
  | .func code off _ _ => collectLocs locs (block + off) acc code
  | .structAccess _ _ _ => addLoc acc (locs block pc).source
  | .unionAccess _ _ _ => addLoc acc (locs block pc).source
  | .select _ _ _ _ => addLoc acc (locs block pc).source
  | .call _ _ _ => addLoc acc (locs block pc).source
  | .tailCall _ _ => addLoc acc (locs block pc).source
  | .refDef _ _ => addLoc acc (locs block pc).source
  | _ => acc
end

/-- The names defined for a module: aarch64.c:1228-1232. -/
def moduleLocs (locs : Nat → Nat → SrcLoc) (code : Code) : List Str := collectLocs locs 0 [] code

/-- Instructions that can abort. -/
def _root_.Verif.Compile.Instr.aborts : Instr → Bool
  | .structAccess _ _ _ | .unionAccess _ _ _ | .select _ _ _ _ | .call _ _ _ | .tailCall _ _ | .refDef _ _ => true
  | _ => false

theorem addLoc_ok {acc : List Str} {s : Str} : (∀ x ∈ acc, x ∈ addLoc acc s) ∧ s ∈ addLoc acc s ∧ (acc.Nodup → (addLoc acc s).Nodup) := by
  unfold addLoc
  split
  · rename_i h
    exact ⟨fun _ h => h, h, id⟩
  · rename_i h
    refine ⟨fun x hx => List.mem_append_left _ hx, by simp, fun hn => ?_⟩
    rw [List.nodup_append]
    exact ⟨hn, by simp, fun a ha b hb e => by simp at hb; subst hb; subst e; exact h ha⟩

theorem mem_addLoc {acc : List Str} {s x : Str} (h : x ∈ addLoc acc s) : x ∈ acc ∨ x = s := by
  unfold addLoc at h
  split at h
  · exact .inl h
  · simpa using h

/-- What collecting locations does: the ones there stay, no name twice, and names for the blocks. -/
structure Collected (locs : Nat → Nat → SrcLoc) (acc out : List Str) (blocks : List (Nat × Code)) : Prop where
  keep : ∀ x ∈ acc, x ∈ out
  nodup : acc.Nodup → out.Nodup
  all : ∀ b c, (b, c) ∈ blocks → ∀ (pc : Nat) i, c.instrs[pc]? = some i → i.aborts = true → (locs b pc).source ∈ out
  only : ∀ s ∈ out, s ∈ acc ∨ ∃ b pc, s = (locs b pc).source

mutual
theorem collectLocs_ok {locs : Nat → Nat → SrcLoc} (block : Nat) (acc : List Str) : (code : Code) → Collected locs acc (collectLocs locs block acc code) (collectBlocks block code)
  | .mk na ns nl is p => by
    rw [collectLocs, collectBlocks]
    obtain ⟨h1, h2⟩ := collectLocsIs_ok (locs := locs) block 0 acc is
    refine ⟨h1.keep, h1.nodup, fun b c hm => ?_, h1.only⟩
    rcases List.mem_cons.mp hm with hm | hm
    · cases hm
      intro pc i hi ha
      have := h2 pc i hi ha
      rwa [Nat.zero_add] at this
    · exact h1.all b c hm
theorem collectLocsIs_ok {locs : Nat → Nat → SrcLoc} (block pc : Nat) (acc : List Str) : (is : List Instr) →
    Collected locs acc (collectLocsIs locs block pc acc is) (collectInstrs block is) ∧
      ∀ (k : Nat) i, is[k]? = some i → i.aborts = true → (locs block (pc + k)).source ∈ collectLocsIs locs block pc acc is
  | [] => by
    rw [collectLocsIs, collectInstrs]
    exact ⟨⟨fun _ h => h, id, by simp, fun _ h => .inl h⟩, by simp⟩
  | i :: is => by
    rw [collectLocsIs, collectInstrs]
    obtain ⟨h1, h2⟩ := collectLocsI_ok (locs := locs) block pc acc i
    obtain ⟨h3, h4⟩ := collectLocsIs_ok (locs := locs) block (pc + 1) (collectLocsI locs block pc acc i) is
    refine ⟨⟨fun x hx => h3.keep x (h1.keep x hx), fun hn => h3.nodup (h1.nodup hn), fun b c hm pc' j hj ha => ?_, fun s hs => ?_⟩, fun k j hj ha => ?_⟩
    · rcases List.mem_append.mp hm with hm | hm
      · exact h3.keep _ (h1.all b c hm pc' j hj ha)
      · exact h3.all b c hm pc' j hj ha
    · rcases h3.only s hs with h | h
      · exact h1.only s h
      · exact .inr h
    · cases k with
      | zero =>
        simp at hj
        subst hj
        exact h3.keep _ (h2 ha)
      | succ k =>
        have := h4 k j (by simpa using hj) ha
        rwa [show pc + 1 + k = pc + (k + 1) by omega] at this
theorem collectLocsI_ok {locs : Nat → Nat → SrcLoc} (block pc : Nat) (acc : List Str) : (i : Instr) →
    Collected locs acc (collectLocsI locs block pc acc i) (collectInstr block i) ∧ (i.aborts = true → (locs block pc).source ∈ collectLocsI locs block pc acc i)
  | .func code off _ _ => by
    rw [collectLocsI, collectInstr]
    exact ⟨collectLocs_ok (locs := locs) (block + off) acc code, by simp [Instr.aborts]⟩
  | .structAccess .. | .unionAccess .. | .select .. | .call .. | .tailCall .. | .refDef .. => by
    rw [collectLocsI, collectInstr]
    · exact ⟨⟨addLoc_ok.1, addLoc_ok.2.2, by simp, fun s hs => (mem_addLoc hs).imp id fun h => ⟨_, _, h⟩⟩, fun _ => addLoc_ok.2.1⟩
    all_goals simp
  | .struct .. | .union .. | .goto .. | .copy .. | .refValue .. | .ret .. | .type .. | .list .. | .literal .. | .nop => by
    rw [collectLocsI, collectInstr]
    · exact ⟨⟨fun _ h => h, id, by simp, fun _ h => .inl h⟩, by simp [Instr.aborts]⟩
    all_goals simp
end

/-! ### Labels of a function -/

variable {sg : Bool} {names : List Str} {block : Nat} {ops : Nat → List POp} {locs : Nat → SrcLoc}

def refs (xs : List Line) : List Lbl := xs.flatMap Line.refs

theorem refs_nil : refs [] = [] := rfl
theorem refs_cons {x : Line} {xs} : refs (x :: xs) = x.refs ++ refs xs := rfl
theorem refs_append (a b : List Line) : refs (a ++ b) = refs a ++ refs b := by simp [refs]

theorem refs_getVar {r v} : (getVar r v).refs = [] := by cases v <;> rfl

theorem refs_store {r : Nat} : (k : Nat) → (vs : List Var) → refs (storeVars r k vs) = []
  | _, [] => rfl
  | k, v :: vs => by
    rw [storeVars, refs_cons, refs_cons, refs_store (k + 1) vs, refs_getVar]
    rfl

theorem refs_doAbort {msg loc} : refs (doAbort msg loc) = [.exit] := rfl

theorem inline_nodup {pc : Nat} {i : Instr} {ls} (h : emitInline sg names block pc i = some ls) : (labs ls).Nodup := by
  cases i with
  | func code off scope dest =>
    simp only [emitInline, Option.bind_eq_some_iff, Option.map_eq_some_iff] at h
    obtain ⟨run, _, vs, _, rfl⟩ := h
    simp [labs_cons, labs_append, labs_store, plain_defines, setVar, labs_nil]
  | literal lts dest =>
    cases h
    simp [labs_cons, plain_defines, setVar, labs_nil]
  | select c nt targets default =>
    cases h
    simp only [labs_append, labs_search]
    simp only [labs_cons, labs_nil, plain_defines, getVar_defines, Option.toList, List.nil_append]
    exact List.pairwise_map.mpr ((Select.emitSearch_labels _ _ _ _ _ _ rfl).2.2.imp fun h e => h (by cases e; rfl))
  | _ =>
    cases h
    simp [labs_cons, labs_append, labs_store, plain_defines, setVar, labs_nil, getVar_defines]

theorem inline_refs {pc : Nat} {i : Instr} {ls} (h : emitInline sg names block pc i = some ls) :
    ∀ l ∈ refs ls, l = .exit ∨ (∃ t ∈ i.succ pc, l = .at t) ∨ l ∈ labs ls ∨ ∀ loc, l ∈ labs (emitErrors pc loc i) := by
  intro l hl
  cases i with
  | func code off scope dest =>
    simp only [emitInline, Option.bind_eq_some_iff, Option.map_eq_some_iff] at h
    obtain ⟨run, _, vs, _, rfl⟩ := h
    simp [refs_cons, refs_append, refs_store, Line.refs, setVar, refs_nil] at hl
    subst hl
    exact .inr (.inr (.inl (by simp [labs_cons, plain_defines])))
  | literal lts dest =>
    cases h
    simp [refs_cons, Line.refs, setVar, refs_nil] at hl
    subst hl
    exact .inr (.inr (.inl (by simp [labs_cons, plain_defines])))
  | select c nt targets default =>
    cases h
    rw [refs_append] at hl
    rcases List.mem_append.mp hl with hl | hl
    · simp only [refs_cons, refs_nil, refs_getVar] at hl
      simp [Line.refs] at hl
      subst hl
      exact .inr (.inr (.inr fun loc => by simp [emitErrors, labs_cons, plain_defines]))
    · have hr := Select.emitSelect_refs nt targets default
      have ht : ∀ t, (t = default ∨ ∃ x ∈ targets, x.target = t) → ∃ t' ∈ (Instr.select c nt targets default).succ pc, Lbl.at t = .at t' := by
        intro t h
        refine ⟨t, ?_, rfl⟩
        rcases h with rfl | ⟨x, hx, rfl⟩
        · simp [Instr.succ]
        · exact List.mem_append_left _ (List.mem_map.mpr ⟨x, hx, rfl⟩)
      simp only [refs, List.mem_flatMap, List.mem_map] at hl
      obtain ⟨_, ⟨a, ha, rfl⟩, hl⟩ := hl
      cases a <;> simp [searchLine, Line.refs] at hl <;> subst hl
      · exact .inr (.inl (ht _ (hr.b _ ha)))
      · exact .inr (.inl (ht _ (hr.beq _ ha)))
      · exact .inr (.inl (ht _ (hr.bcc _ ha)))
      · refine .inr (.inr (.inl ?_))
        rw [labs_append, labs_search]
        exact List.mem_append_right _ (List.mem_map.mpr ⟨_, hr.loc _ ha, rfl⟩)
  | goto t =>
    cases h
    simp [refs_cons, Line.refs, refs_nil] at hl
    exact .inr (.inl ⟨t, by simp [Instr.succ], hl⟩)
  | _ =>
    cases h
    simp only [refs_cons, refs_append, refs_store, refs_getVar, refs_nil] at hl
    simp [Line.refs, setVar] at hl
    try (rcases hl with rfl | rfl)
    all_goals first
      | exact .inl hl
      | exact .inl rfl
      | (subst hl; exact .inr (.inr (.inr fun loc => by simp [emitErrors, labs_cons, labs_append, plain_defines])))
      | exact .inr (.inr (.inr fun loc => by simp [emitErrors, labs_cons, labs_append, plain_defines]))

theorem body_labels : (is : List Instr) → (pc : Nat) → {b : List Line} → emitBody sg names block pc ops is = some b →
    (labs b).Nodup ∧ (∀ l ∈ labs b, l.inl = true ∧ ∃ j, l.pc? = some j ∧ pc ≤ j) ∧
    (∀ (k : Nat), k < is.length → .at (pc + k) ∈ labs b ∧ (ops (pc + k) ≠ [] → .pp (pc + k) ∈ labs b)) ∧
    ∀ l ∈ refs b, l = .exit ∨ l ∈ labs b ∨ ∃ (k : Nat) (i : Instr), is[k]? = some i ∧
      ((∃ t ∈ i.succ (pc + k), l = .at t) ∨ (∀ loc, l ∈ labs (emitOutline (pc + k) (ops (pc + k)) loc i)))
  | [], pc, b, h => by
    cases h
    simp [labs_nil, refs_nil]
  | i :: is, pc, b, h => by
    simp only [emitBody, Option.bind_eq_some_iff, Option.map_eq_some_iff] at h
    obtain ⟨ls, h1, rest, h2, rfl⟩ := h
    obtain ⟨a1, a2, a3, a4⟩ := body_labels is (pc + 1) h2
    have hn := inline_nodup h1
    have hi := labs_inline h1
    have hr := inline_refs h1
    have hc : labs (emitCheck pc (ops pc)) = if ops pc = [] then [] else [.pp pc] := by
      unfold emitCheck
      split <;> simp [labs_cons, labs_nil, plain_defines]
    have e : labs (.label (.at pc) :: emitCheck pc (ops pc) ++ ls ++ rest) = .at pc :: ((if ops pc = [] then [] else [.pp pc]) ++ (labs ls ++ labs rest)) := by
      simp only [labs_append, labs_cons, plain_defines, hc, Option.toList, List.append_assoc, List.cons_append, List.nil_append]
    rw [e]
    have hlt : ∀ l ∈ labs rest, ∀ j, l.pc? = some j → pc < j := fun l hl j hj => by
      obtain ⟨_, j', h3, h4⟩ := a2 l hl
      rw [hj] at h3
      cases h3
      omega
    have hls : ∀ l ∈ labs ls, l.inl = true ∧ l.pc? = some pc ∧ l ≠ .at pc ∧ l ≠ .pp pc := fun l hl => by
      rcases hi l hl with rfl | rfl | ⟨k, rfl⟩ <;> simp [Lbl.inl, Lbl.pc?]
    have hpp : ∀ l ∈ (if ops pc = [] then [] else [Lbl.pp pc]), l = .pp pc := fun l hl => by
      split at hl
      · cases hl
      · exact List.mem_singleton.mp hl
    refine ⟨?_, ?_, ?_, ?_⟩
    · rw [List.nodup_cons, List.nodup_append, List.nodup_append]
      refine ⟨fun hm => ?_, by split <;> simp, ⟨hn, a1, fun a ha b hb e => ?_⟩, fun a ha b hb e => ?_⟩
      · rcases List.mem_append.mp hm with hm | hm
        · cases hpp _ hm
        · rcases List.mem_append.mp hm with hm | hm
          · exact (hls _ hm).2.2.1 rfl
          · have := hlt _ hm pc rfl
            omega
      · subst e
        have := hlt _ hb pc (hls _ ha).2.1
        omega
      · subst e
        have e2 := hpp _ ha
        subst e2
        rcases List.mem_append.mp hb with hb | hb
        · exact (hls _ hb).2.2.2 rfl
        · have := hlt _ hb pc rfl
          omega
    · intro l hl
      rcases List.mem_cons.mp hl with rfl | hl
      · exact ⟨rfl, pc, rfl, Nat.le_refl _⟩
      rcases List.mem_append.mp hl with hl | hl
      · rw [hpp _ hl]
        exact ⟨rfl, pc, rfl, Nat.le_refl _⟩
      rcases List.mem_append.mp hl with hl | hl
      · exact ⟨(hls l hl).1, pc, (hls l hl).2.1, Nat.le_refl _⟩
      · obtain ⟨b1, j, b2, b3⟩ := a2 l hl
        exact ⟨b1, j, b2, by omega⟩
    · intro k hk
      cases k with
      | zero =>
        refine ⟨List.mem_cons_self .., fun ho => ?_⟩
        rw [Nat.add_zero] at ho ⊢
        rw [if_neg ho]
        simp
      | succ k =>
        have := a3 k (by simpa using hk)
        rw [show pc + 1 + k = pc + (k + 1) by omega] at this
        exact ⟨List.mem_cons_of_mem _ (List.mem_append_right _ (List.mem_append_right _ this.1)),
          fun ho => List.mem_cons_of_mem _ (List.mem_append_right _ (List.mem_append_right _ (this.2 ho)))⟩
    · intro l hl
      simp only [refs_append, refs_cons, Line.refs, List.nil_append, List.mem_append] at hl
      rcases hl with (hl | hl) | hl
      · unfold emitCheck at hl
        split at hl
        · cases hl
        · rename_i ho
          simp [refs_cons, refs_nil, Line.refs] at hl
          subst hl
          refine .inr (.inr ⟨0, i, rfl, .inr fun loc => ?_⟩)
          rw [Nat.add_zero, emitOutline, if_neg ho, labs_append]
          exact List.mem_append_left _ (by simp [labs_cons, plain_defines])
      · rcases hr l hl with h | h | h | h
        · exact .inl h
        · exact .inr (.inr ⟨0, i, rfl, .inl h⟩)
        · exact .inr (.inl (List.mem_cons_of_mem _ (List.mem_append_right _ (List.mem_append_left _ h))))
        · refine .inr (.inr ⟨0, i, rfl, .inr fun loc => ?_⟩)
          rw [Nat.add_zero, emitOutline, labs_append]
          exact List.mem_append_right _ (h loc)
      · rcases a4 l hl with h | h | ⟨k, j, hk, h⟩
        · exact .inl h
        · exact .inr (.inl (List.mem_cons_of_mem _ (List.mem_append_right _ (List.mem_append_right _ h))))
        · refine .inr (.inr ⟨k + 1, j, by simpa using hk, ?_⟩)
          rw [show pc + (k + 1) = pc + 1 + k by omega]
          exact h

theorem refs_ops (os : List POp) : refs (os.flatMap emitOp) = [] := by
  induction os with
  | nil => rfl
  | cons o os ih => rw [List.flatMap_cons, refs_append, ih]; cases o <;> rfl

theorem outline_labels {pc : Nat} {os : List POp} {loc i} : (labs (emitOutline pc os loc i)).Nodup ∧
    ∀ l ∈ refs (emitOutline pc os loc i), l = .exit ∨ (os ≠ [] ∧ l = .pp pc) := by
  unfold emitOutline
  constructor
  · rw [labs_append]
    by_cases ho : os = [] <;> cases i <;>
      simp [ho, labs_append, labs_cons, labs_ops, plain_defines, labs_nil, emitErrors, labs_doAbort]
  · intro l hl
    rw [refs_append] at hl
    rcases List.mem_append.mp hl with hl | hl
    · split at hl
      · cases hl
      · rename_i ho
        simp [refs_append, refs_cons, refs_ops, refs_nil, Line.refs] at hl
        exact .inr ⟨ho, hl⟩
    · left
      cases i <;> simp [emitErrors, refs_cons, refs_append, refs_doAbort, refs_nil, Line.refs] at hl <;> exact hl

theorem outlines_labels : (is : List Instr) → (pc : Nat) → (labs (emitOutlines pc ops locs is)).Nodup ∧
    (∀ l ∈ labs (emitOutlines pc ops locs is), l.inl = false ∧ ∃ j, l.pc? = some j ∧ pc ≤ j) ∧
    (∀ (k : Nat) i, is[k]? = some i → ∀ l ∈ labs (emitOutline (pc + k) (ops (pc + k)) (locs (pc + k)) i), l ∈ labs (emitOutlines pc ops locs is)) ∧
    ∀ l ∈ refs (emitOutlines pc ops locs is), l = .exit ∨ ∃ (k : Nat), k < is.length ∧ ops (pc + k) ≠ [] ∧ l = .pp (pc + k)
  | [], pc => by simp [emitOutlines, labs_nil, refs_nil]
  | i :: is, pc => by
    obtain ⟨a1, a2, a3, a4⟩ := outlines_labels is (pc + 1)
    obtain ⟨b1, b2⟩ := outline_labels (pc := pc) (os := ops pc) (loc := locs pc) (i := i)
    rw [emitOutlines, labs_append, refs_append]
    refine ⟨?_, ?_, ?_, ?_⟩
    · rw [List.nodup_append]
      refine ⟨b1, a1, fun a ha b hb e => ?_⟩
      subst e
      obtain ⟨_, j, h1, h2⟩ := a2 _ hb
      rw [(labs_outline _ ha).2] at h1
      cases h1
      omega
    · intro l hl
      rcases List.mem_append.mp hl with hl | hl
      · exact ⟨(labs_outline _ hl).1, pc, (labs_outline _ hl).2, Nat.le_refl _⟩
      · obtain ⟨h1, j, h2, h3⟩ := a2 l hl
        exact ⟨h1, j, h2, by omega⟩
    · intro k j hk l hl
      cases k with
      | zero =>
        simp at hk
        subst hk
        exact List.mem_append_left _ hl
      | succ k =>
        rw [show pc + (k + 1) = pc + 1 + k by omega] at hl
        exact List.mem_append_right _ (a3 k j (by simpa using hk) l hl)
    · intro l hl
      rcases List.mem_append.mp hl with hl | hl
      · rcases b2 l hl with h | h
        · exact .inl h
        · exact .inr ⟨0, by simp, h⟩
      · rcases a4 l hl with h | ⟨k, h1, h2, h3⟩
        · exact .inl h
        · refine .inr ⟨k + 1, by simpa using h1, ?_⟩
          rw [show pc + (k + 1) = pc + 1 + k by omega]
          exact ⟨h2, h3⟩

theorem emitCodeA_valid {b : Nat} {c f} (h : emitCodeA sg names b locs c = some f) (ok : CodeOk c.numLocals c.instrs) : f.Valid := by
  simp only [emitCodeA, Option.bind_eq_some_iff, Option.map_eq_some_iff] at h
  obtain ⟨n, _, body, hbody, rfl⟩ := h
  generalize (fun pc : Nat => c.profile[pc]?.getD []) = ops at hbody ⊢
  obtain ⟨a1, a2, a3, a4⟩ := body_labels c.instrs 0 hbody
  obtain ⟨b1, b2, b3, b4⟩ := outlines_labels (ops := ops) (locs := locs) c.instrs 0
  simp only [Nat.zero_add] at a3 a4 b3 b4
  have hl : labs (prologue c.numLocals ++ body ++ epilogue c.numLocals ++ emitOutlines 0 ops locs c.instrs) = labs body ++ .exit :: labs (emitOutlines 0 ops locs c.instrs) := by
    simp only [labs_append, labs_prologue, labs_epilogue, List.nil_append, List.append_assoc, List.cons_append]
  constructor
  · show (labs _).Nodup
    rw [hl, List.nodup_append, List.nodup_cons]
    refine ⟨a1, ⟨fun hm => ?_, b1⟩, fun a ha b hb e => ?_⟩
    · have := (b2 _ hm).1
      cases this
    · subst e
      rcases List.mem_cons.mp hb with rfl | hb
      · obtain ⟨_, j, h1, _⟩ := a2 _ ha
        cases h1
      · have h1 := (a2 _ ha).1
        have h2 := (b2 _ hb).1
        rw [h1] at h2
        cases h2
  · intro x hx l hlx
    show l ∈ labs _
    rw [hl]
    have hr : l ∈ refs (prologue c.numLocals ++ body ++ epilogue c.numLocals ++ emitOutlines 0 ops locs c.instrs) := List.mem_flatMap.mpr ⟨x, hx, hlx⟩
    have hp : refs (prologue c.numLocals) = [] := rfl
    have hq : refs (epilogue c.numLocals) = [] := rfl
    simp only [refs_append, hp, hq, List.nil_append, List.append_nil, List.mem_append] at hr
    have exit_in : Lbl.exit ∈ labs body ++ .exit :: labs (emitOutlines 0 ops locs c.instrs) := by simp
    rcases hr with hr | hr
    · rcases a4 l hr with h | h | ⟨k, i, hk, ⟨t, ht, rfl⟩ | h⟩
      · rw [h]; exact exit_in
      · exact List.mem_append_left _ h
      · exact List.mem_append_left _ (a3 t (ok.jumps k i hk t ht).2).1
      · exact List.mem_append_right _ (List.mem_cons_of_mem _ (b3 k i hk l (h _)))
    · rcases b4 l hr with h | ⟨k, h1, h2, h3⟩
      · rw [h]; exact exit_in
      · rw [h3]; exact List.mem_append_left _ ((a3 k h1).2 h2)

/-! ### What else a function refers to -/

/-- Lines that do not name a source file. -/
theorem store_quiet {r : Nat} : (k : Nat) → (vs : List Var) → ∀ x ∈ storeVars r k vs, x.locRefs = [] ∧ ∀ id na ns run, x ≠ .exe id na ns run
  | _, [], x, h => by cases h
  | k, v :: vs, x, h => by
    rcases List.mem_cons.mp h with rfl | h
    · cases v <;> exact ⟨rfl, by simp [getVar]⟩
    rcases List.mem_cons.mp h with rfl | h
    · exact ⟨rfl, by simp⟩
    · exact store_quiet (k + 1) vs x h

theorem getVar_quiet {r v} : (getVar r v).locRefs = [] ∧ ∀ id na ns run, getVar r v ≠ .exe id na ns run := by cases v <;> exact ⟨rfl, by simp [getVar]⟩

/-- Whether a line names neither a source file nor a function. -/
def Line.quiet : Line → Bool
  | .adr _ (.loc _) => false
  | .exe _ _ _ _ => false
  | _ => true

theorem quiet_getVar {r v} : (getVar r v).quiet = true := by cases v <;> rfl

theorem quiet_store {r k vs} : ∀ x ∈ storeVars r k vs, x.quiet = true := by
  intro x hx
  have h := store_quiet k vs x hx
  cases x with
  | adr rd sym =>
    cases sym with
    | loc s =>
      have := h.1
      simp [Line.locRefs] at this
    | _ => rfl
  | exe a b c d => exact absurd rfl (h.2 a b c d)
  | _ => rfl

theorem quiet_stores {r k vs} : (∀ x ∈ storeVars r k vs, x.quiet = true) ↔ True := iff_true_intro quiet_store

theorem of_quiet {ls : List Line} {P : Nat → Nat → Nat → Str → Prop} (h : ∀ x ∈ ls, x.quiet = true) {x : Line} (hx : x ∈ ls) :
    x.locRefs = [] ∧ ∀ id na ns run, x = .exe id na ns run → P id na ns run := by
  have h := h x hx
  cases x with
  | adr rd sym =>
    cases sym with
    | loc s => cases h
    | _ => exact ⟨rfl, by simp⟩
  | exe a b c d => cases h
  | _ => exact ⟨rfl, by simp⟩

theorem inline_uses {pc : Nat} {i : Instr} {ls} (h : emitInline sg names block pc i = some ls) : ∀ x ∈ ls, x.locRefs = [] ∧
    ∀ id na ns run, x = .exe id na ns run → ∃ c off scope d, i = .func c off scope d ∧ runNameA sg names (block + off) = some run := by
  intro x hx
  have hs : ∀ {r k vs}, x ∈ storeVars r k vs → x.locRefs = [] ∧ ∀ id na ns run, x = .exe id na ns run → ∃ c off scope d, i = .func c off scope d ∧ runNameA sg names (block + off) = some run :=
    fun h => ⟨(store_quiet _ _ x h).1, fun id na ns run e => absurd e ((store_quiet _ _ x h).2 id na ns run)⟩
  have hg : ∀ {r v}, x = getVar r v → x.locRefs = [] ∧ ∀ id na ns run, x = .exe id na ns run → ∃ c off scope d, i = .func c off scope d ∧ runNameA sg names (block + off) = some run :=
    fun h => h ▸ ⟨getVar_quiet.1, fun id na ns run e => absurd e (getVar_quiet.2 id na ns run)⟩
  cases i with
  | func code off scope dest =>
    simp only [emitInline, Option.bind_eq_some_iff, Option.map_eq_some_iff] at h
    obtain ⟨run, hrun, vs, _, rfl⟩ := h
    simp only [List.cons_append, List.mem_cons, List.mem_append, List.not_mem_nil, or_false] at hx
    rcases hx with rfl | rfl | hx | hx
    · exact ⟨rfl, fun id na ns run e => by cases e; exact ⟨code, off, scope, dest, rfl, hrun⟩⟩
    · exact ⟨rfl, by simp⟩
    · exact hs hx
    · rcases hx with rfl | rfl | rfl | rfl | rfl | rfl | rfl <;> exact ⟨rfl, by simp [setVar]⟩
  | select c nt targets default =>
    cases h
    rcases List.mem_append.mp hx with hx | hx
    · simp only [List.mem_cons, List.not_mem_nil, or_false] at hx
      rcases hx with hx | rfl | rfl | rfl
      · exact hg hx
      all_goals exact ⟨rfl, by simp⟩
    · obtain ⟨a, _, rfl⟩ := List.mem_map.mp hx
      cases a <;> exact ⟨rfl, by simp [searchLine]⟩
  | _ =>
    cases h
    refine of_quiet ?_ hx
    try simp only [List.cons_append, List.forall_mem_cons, List.forall_mem_append, quiet_getVar, quiet_stores, true_and]
    try simp [Line.quiet, setVar]

theorem body_uses : (is : List Instr) → (pc : Nat) → {b : List Line} → emitBody sg names block pc ops is = some b → ∀ x ∈ b, x.locRefs = [] ∧
    ∀ id na ns run, x = .exe id na ns run → ∃ c off scope d, .func c off scope d ∈ is ∧ runNameA sg names (block + off) = some run
  | [], pc, b, h, x, hx => by
    cases h
    cases hx
  | i :: is, pc, b, h, x, hx => by
    simp only [emitBody, Option.bind_eq_some_iff, Option.map_eq_some_iff] at h
    obtain ⟨ls, h1, rest, h2, rfl⟩ := h
    simp only [List.cons_append, List.mem_cons, List.mem_append] at hx
    rcases hx with rfl | (hx | hx) | hx
    · exact ⟨rfl, by simp⟩
    · refine of_quiet ?_ hx
      unfold emitCheck
      split <;> simp [Line.quiet]
    · obtain ⟨a, b⟩ := inline_uses h1 x hx
      refine ⟨a, fun id na ns run e => ?_⟩
      obtain ⟨c, off, scope, d, e1, e2⟩ := b id na ns run e
      exact ⟨c, off, scope, d, e1 ▸ List.mem_cons_self .., e2⟩
    · obtain ⟨a, b⟩ := body_uses is (pc + 1) h2 x hx
      refine ⟨a, fun id na ns run e => ?_⟩
      obtain ⟨c, off, scope, d, e1, e2⟩ := b id na ns run e
      exact ⟨c, off, scope, d, List.mem_cons_of_mem _ e1, e2⟩

theorem doAbort_uses {msg loc} : ∀ x ∈ doAbort msg loc, (∀ s ∈ x.locRefs, s = loc.source) ∧ ∀ id na ns run, x ≠ .exe id na ns run := by
  simp [doAbort, Line.locRefs]

theorem errors_uses {pc : Nat} {loc : SrcLoc} {i : Instr} : ∀ x ∈ emitErrors pc loc i, (∀ s ∈ x.locRefs, i.aborts = true ∧ s = loc.source) ∧ ∀ id na ns run, x ≠ .exe id na ns run := by
  cases i <;> simp [emitErrors, doAbort, Line.locRefs, Instr.aborts]

theorem ops_quiet (os : List POp) : ∀ x ∈ os.flatMap emitOp, x.quiet = true := by
  intro x hx
  obtain ⟨o, _, hx⟩ := List.mem_flatMap.mp hx
  cases o <;> simp [emitOp] at hx <;> rcases hx with rfl | hx <;> first | rfl | (rcases hx with rfl | hx <;> first | rfl | (rcases hx with rfl | hx <;> first | rfl | (subst hx; rfl)))

theorem outlines_uses : (is : List Instr) → (pc : Nat) → ∀ x ∈ emitOutlines pc ops locs is,
    (∀ s ∈ x.locRefs, ∃ (k : Nat) (i : Instr), is[k]? = some i ∧ i.aborts = true ∧ s = (locs (pc + k)).source) ∧ ∀ id na ns run, x ≠ .exe id na ns run
  | [], pc, x, hx => by cases hx
  | i :: is, pc, x, hx => by
    rw [emitOutlines] at hx
    rcases List.mem_append.mp hx with hx | hx
    · unfold emitOutline at hx
      rcases List.mem_append.mp hx with hx | hx
      · have : ∀ y ∈ (if ops pc = [] then [] else .label (.p pc) :: (ops pc).flatMap emitOp ++ [.b (.pp pc)]), y.quiet = true := by
          split
          · simp
          · simp only [List.cons_append, List.forall_mem_cons, List.forall_mem_append]
            exact ⟨rfl, ops_quiet _, by simp [Line.quiet]⟩
        obtain ⟨a, b⟩ := of_quiet (P := fun _ _ _ _ => False) this hx
        exact ⟨by simp [a], b⟩
      · obtain ⟨a, b⟩ := errors_uses x hx
        exact ⟨fun s hs => ⟨0, i, rfl, (a s hs).1, (a s hs).2⟩, b⟩
    · obtain ⟨a, b⟩ := outlines_uses is (pc + 1) x hx
      refine ⟨fun s hs => ?_, b⟩
      obtain ⟨k, j, h1, h2, h3⟩ := a s hs
      exact ⟨k + 1, j, by simpa using h1, h2, by rw [h3, show pc + 1 + k = pc + (k + 1) by omega]⟩

theorem emitCodeA_uses {b : Nat} {c f} (h : emitCodeA sg names b locs c = some f) : ∀ x ∈ f.body,
    (∀ s ∈ x.locRefs, ∃ (k : Nat) (i : Instr), c.instrs[k]? = some i ∧ i.aborts = true ∧ s = (locs k).source) ∧
    ∀ id na ns run, x = .exe id na ns run → ∃ c' off scope d, .func c' off scope d ∈ c.instrs ∧ runNameA sg names (b + off) = some run := by
  simp only [emitCodeA, Option.bind_eq_some_iff, Option.map_eq_some_iff] at h
  obtain ⟨n, _, body, hbody, rfl⟩ := h
  intro x hx
  have hp : ∀ x ∈ prologue c.numLocals, x.quiet = true := by simp [prologue, Line.quiet]
  have hq : ∀ x ∈ epilogue c.numLocals, x.quiet = true := by simp [epilogue, Line.quiet]
  simp only [List.mem_append] at hx
  rcases hx with ((hx | hx) | hx) | hx
  · obtain ⟨a, b⟩ := of_quiet hp hx
    exact ⟨by simp [a], b⟩
  · obtain ⟨a, b⟩ := body_uses _ _ hbody x hx
    exact ⟨by simp [a], b⟩
  · obtain ⟨a, b⟩ := of_quiet hq hx
    exact ⟨by simp [a], b⟩
  · obtain ⟨a, b⟩ := outlines_uses _ _ x hx
    refine ⟨fun s hs => ?_, fun id na ns run e => absurd e (b id na ns run)⟩
    obtain ⟨k, i, h1, h2, h3⟩ := a s hs
    exact ⟨k, i, h1, h2, by rw [h3, Nat.zero_add]⟩

/-! ### Modules -/

theorem namesA_nodup {locs : Nat → Nat → SrcLoc} : {xs : List (Nat × Code)} → {fs : List AFun} → (xs.map (·.1)).Pairwise (· < ·) →
    xs.mapM (fun b => emitCodeA sg names b.1 (locs b.1) b.2) = some fs → (fs.map (·.name)).Nodup
  | [], fs, _, h => by cases h; simp
  | (b0, c0) :: xs, fs, hi, h => by
    rw [List.mapM_cons] at h
    cases h0 : emitCodeA sg names b0 (locs b0) c0 with
    | none => rw [h0] at h; cases h
    | some f0 =>
      cases h1 : xs.mapM (fun b => emitCodeA sg names b.1 (locs b.1) b.2) with
      | none => rw [h0, h1] at h; cases h
      | some fs1 =>
        rw [h0, h1] at h
        cases h
        rw [List.map_cons, List.pairwise_cons] at hi
        rw [List.map_cons, List.nodup_cons]
        refine ⟨fun hm => ?_, namesA_nodup hi.2 h1⟩
        obtain ⟨f, hf, e⟩ := List.mem_map.mp hm
        obtain ⟨⟨b, c⟩, hb, he⟩ := (mapM_mem h1).1 f hf
        have := hi.1 b (List.mem_map.mpr ⟨_, hb, rfl⟩)
        have := runNameA_inj (emitCodeA_name h0) (e ▸ emitCodeA_name he)
        omega

theorem ModOk.validA {root : Code} (h : ModOk sg names root) {locs : Nat → Nat → SrcLoc} {md} (hg : Backend.generateA sg names locs root = some md) : md.Valid (moduleLocs locs root) := by
  simp only [Backend.generateA, Option.bind_eq_some_iff, Option.map_eq_some_iff] at hg
  obtain ⟨fs, hfs, run, hrun, rfl⟩ := hg
  obtain ⟨m1, m2⟩ := mapM_mem hfs
  have byName : ∀ {b c r}, (b, c) ∈ collectBlocks 0 root → Backend.runNameA sg names b = some r → r ∈ fs.map (·.name) := by
    intro b c r hm hr
    obtain ⟨f, hf, he⟩ := m2 _ hm
    have := emitCodeA_name he
    rw [hr] at this
    exact List.mem_map.mpr ⟨f, hf, (Option.some.inj this).symm⟩
  have hcol := collectLocs_ok (locs := locs) 0 [] root
  refine ⟨namesA_nodup h.inc.1 hfs, fun f hf => ?_, byName (collect_root 0 root) hrun, fun f hf id na ns r hs => ?_, hcol.nodup .nil, fun f hf x hx s hs => ?_⟩
  · obtain ⟨⟨b, c⟩, hb, he⟩ := m1 f hf
    exact emitCodeA_valid he (h.codeOk (collect_mem root b c hb).1)
  · obtain ⟨⟨b, c⟩, hb, he⟩ := m1 f hf
    obtain ⟨hw, hin⟩ := collect_mem root b c hb
    obtain ⟨c', off, scope, d, h1, h2⟩ := (emitCodeA_uses he _ hs).2 id na ns r rfl
    exact byName (hin _ _ _ _ h1) h2
  · obtain ⟨⟨b, c⟩, hb, he⟩ := m1 f hf
    obtain ⟨k, i, h1, h2, rfl⟩ := (emitCodeA_uses he x hx).1 s hs
    exact hcol.all b c hb k i h1 h2

end Verif.Backend
