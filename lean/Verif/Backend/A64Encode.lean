import Verif.Backend.A64Text
/-
The emitted instructions exist: operands fit the encodings of AArch64.
-/
namespace Verif.Backend
open Verif.Compile
open Verif.Text (Str ch)

/-! ### What is to be shown -/

/-- The immediates of add, sub, cmp and cmn: twelve bits, perhaps shifted by twelve. -/
def AddImm (n : Nat) : Prop := n < 4096 ∨ (n % 4096 = 0 ∧ n < 4096 * 4096)

instance (n : Nat) : Decidable (AddImm n) := by unfold AddImm; infer_instance

/-- Offsets of ldr and str of 64 bits. -/
def LdrImm (n : Nat) : Prop := n % 8 = 0 ∧ n ≤ 32760

/-- Offsets of ldp and stp of 64 bits that are not negative. -/
def LdpImm (n : Nat) : Prop := n % 8 = 0 ∧ n ≤ 504

/-- Immediates of mov with sixteen bits.  (There are more the assembler accepts.) -/
def MovImm (n : Nat) : Prop := n < 65536

/-- A line has an encoding, apart from the distance of branches.  Registers are x0 to x30. -/
def Line.Encodes : Line → Prop
  | .label _ | .ret | .bl _ | .b _ | .beq _ | .bcc _ | .exe _ _ _ _ | .letters _ _ => True
  | .ldr r t n | .str r t n => r ≤ 30 ∧ t ≤ 30 ∧ LdrImm n
  | .strz r n | .strSp r n => r ≤ 30 ∧ LdrImm n
  | .stp r t n | .ldp r t n => r ≤ 30 ∧ t ≤ 30 ∧ LdpImm n
  | .stpPre r t n | .ldpPost r t n => r ≤ 30 ∧ t ≤ 30 ∧ n % 8 = 0 ∧ n ≤ 504
  | .mov r t => r ≤ 30 ∧ t ≤ 30
  | .movz a | .movSp a | .adr a _ | .cbz a _ | .cbnz a _ => a ≤ 30
  | .movi a n => a ≤ 30 ∧ MovImm n
  | .addSp a n => a ≤ 30 ∧ AddImm n
  | .subSP n | .addSP n => AddImm n
  | .addi r t n => r ≤ 30 ∧ t ≤ 30 ∧ AddImm n
  | .cmp a i => a ≤ 30 ∧ AddImm i.natAbs

/-- Bytes of a line in the text section. -/
def Line.bytes : Line → Nat
  | .label _ | .exe _ _ _ _ | .letters _ _ => 0
  | .adr _ _ => 8
  | _ => 4

/-- Bytes of lines. -/
def bytes (xs : List Line) : Nat := (xs.map Line.bytes).sum

/-- The label a line branches to, and the distance its encoding allows. -/
def Line.reach : Line → Option (Lbl × Nat)
  | .b l => some (l, 2 ^ 27)
  | .beq l | .bcc l | .cbz _ l | .cbnz _ l => some (l, 2 ^ 20)
  | _ => none

/-- A function has an encoding: its lines do, and the labels branched to are near enough. -/
structure AFun.Encodes (f : AFun) : Prop where
  lines : ∀ x ∈ f.body, x.Encodes
  near : ∀ pre x post, f.body = pre ++ x :: post → ∀ l d, x.reach = some (l, d) →
    ∀ pre' y post', f.body = pre' ++ y :: post' → y.defines = some l → bytes pre' < bytes pre + d ∧ bytes pre ≤ bytes pre' + d

/-! ### Limits -/

/-- The number of a variable. -/
def varIdx : Var → Nat
  | .static i | .arg i | .loc i => i

/-- Variables are among the first 4096. -/
def SmallVar (v : Var) : Prop := varIdx v ≤ 4095

/-- An instruction within limits: at most 512 arguments or variables captured, numbers of variables
and of blocks at most 4095, tags compared with at most 4095, other tags and numbers of letters less than 65536. -/
def _root_.Verif.Compile.Instr.Small : Instr → Prop
  | .struct args dest => args.length ≤ 512 ∧ (∀ v ∈ args, SmallVar v) ∧ dest ≤ 4095
  | .union tag arg dest => tag < 65536 ∧ SmallVar arg ∧ dest ≤ 4095
  | .structAccess obj tag dest => SmallVar obj ∧ tag < 65536 ∧ dest ≤ 4095
  | .unionAccess obj tag dest => SmallVar obj ∧ tag < 65536 ∧ dest ≤ 4095
  | .select c _ targets _ => SmallVar c ∧ ∀ x ∈ targets, x.tag ≤ 4095
  | .goto _ => True
  | .func code off scope dest => code.numStatics ≤ 512 ∧ off ≤ 4095 ∧ (∀ v ∈ scope, SmallVar v) ∧ dest ≤ 4095
  | .call f args dest => SmallVar f ∧ args.length ≤ 512 ∧ (∀ v ∈ args, SmallVar v) ∧ dest ≤ 4095
  | .tailCall f args => SmallVar f ∧ args.length ≤ 512 ∧ ∀ v ∈ args, SmallVar v
  | .copy v dest => SmallVar v ∧ dest ≤ 4095
  | .refValue dest => dest ≤ 4095
  | .refDef ref v => ref ≤ 4095 ∧ SmallVar v
  | .ret v => SmallVar v
  | .type dest => dest ≤ 4095
  | .list args dest => args.length ≤ 512 ∧ (∀ v ∈ args, SmallVar v) ∧ dest ≤ 4095
  | .literal ls dest => ls.length < 65536 ∧ dest ≤ 4095
  | .nop => True

/-- A profile operation within limits. -/
def _root_.Verif.Compile.POp.Small : POp → Prop
  | .enter n | .replace n => n ≤ 4095
  | .exit => True
  | .sample n => n < 65536

/-- Code within limits. -/
structure _root_.Verif.Compile.Code.Small (c : Code) : Prop where
  locals : c.numLocals ≤ 512
  instrs : ∀ i ∈ c.instrs, i.Small
  ops : ∀ os ∈ c.profile, ∀ o ∈ os, o.Small

/-! ### Proofs -/

variable {sg : Bool} {names : List Str} {block : Nat} {ops : Nat → List POp} {locs : Nat → SrcLoc}

theorem stack_imm {n : Nat} (h : n ≤ 512) : AddImm (stackBytes n) := by
  unfold AddImm stackBytes
  by_cases hn : n ≤ 510
  · left; omega
  · right
    have : n = 511 ∨ n = 512 := by omega
    rcases this with rfl | rfl <;> decide

theorem idx_imm {i : Nat} (h : i ≤ 4095) : LdrImm (8 * i) := ⟨by omega, by omega⟩

theorem getVar_enc {r v} (hr : r ≤ 30) (h : SmallVar v) : (getVar r v).Encodes := by
  cases v <;> exact ⟨hr, by decide, idx_imm h⟩

theorem setVar_enc {r d} (hr : r ≤ 30) (h : d ≤ 4095) : (setVar r d).Encodes := ⟨hr, by decide, idx_imm h⟩

theorem store_enc {r : Nat} (hr : r ≤ 30) : (k : Nat) → (vs : List Var) → k + vs.length ≤ 512 → (∀ v ∈ vs, SmallVar v) → ∀ x ∈ storeVars r k vs, x.Encodes
  | _, [], _, _, x, h => by cases h
  | k, v :: vs, hk, hv, x, h => by
    rw [List.length_cons] at hk
    rcases List.mem_cons.mp h with rfl | h
    · exact getVar_enc hr (hv v (List.mem_cons_self ..))
    rcases List.mem_cons.mp h with rfl | h
    · exact ⟨hr, idx_imm (by omega)⟩
    · exact store_enc hr (k + 1) vs (by omega) (fun w hw => hv w (List.mem_cons_of_mem _ hw)) x h

theorem doAbort_enc {msg loc} (h1 : loc.line < 65536) (h2 : loc.col < 65536) : ∀ x ∈ doAbort msg loc, x.Encodes := by
  simp [doAbort, Line.Encodes, LdrImm, MovImm, h1, h2]

theorem errors_enc {pc loc i} (h1 : loc.line < 65536) (h2 : loc.col < 65536) (hi : i.Small) : ∀ x ∈ emitErrors pc loc i, x.Encodes := by
  have hl : ∀ l, (Line.label l).Encodes := fun _ => trivial
  have hd : ∀ {msg}, (∀ x ∈ doAbort msg loc, x.Encodes) ↔ True := iff_true_intro (doAbort_enc h1 h2)
  cases i <;> simp only [emitErrors, List.cons_append, List.forall_mem_cons, List.forall_mem_append, hl, hd, true_and, and_true, List.forall_mem_nil]
  case unionAccess => exact ⟨by decide, idx_imm hi.2.2⟩
  all_goals simp

theorem ops_enc {os : List POp} (h : ∀ o ∈ os, o.Small) : ∀ x ∈ os.flatMap emitOp, x.Encodes := by
  intro x hx
  obtain ⟨o, ho, hx⟩ := List.mem_flatMap.mp hx
  have ho := h o ho
  cases o with
  | exit =>
    simp only [emitOp, List.mem_cons, List.not_mem_nil, or_false] at hx
    rcases hx with rfl | rfl <;> simp [Line.Encodes]
  | sample n =>
    have ho : n < 65536 := ho
    simp only [emitOp, List.mem_cons, List.not_mem_nil, or_false] at hx
    rcases hx with rfl | rfl | rfl <;> simp [Line.Encodes, MovImm, ho]
  | enter n | replace n =>
    have ho : n ≤ 4095 := ho
    simp only [emitOp, List.mem_cons, List.not_mem_nil, or_false] at hx
    rcases hx with rfl | rfl | rfl | rfl <;> simp [Line.Encodes, AddImm]
    omega

theorem outlines_enc : (is : List Instr) → (pc : Nat) → (∀ i ∈ is, i.Small) → (∀ pc, ∀ o ∈ ops pc, o.Small) → (∀ pc, (locs pc).line < 65536 ∧ (locs pc).col < 65536) →
    ∀ x ∈ emitOutlines pc ops locs is, x.Encodes
  | [], pc, _, _, _, x, hx => by cases hx
  | i :: is, pc, hi, ho, hl, x, hx => by
    rw [emitOutlines] at hx
    rcases List.mem_append.mp hx with hx | hx
    · unfold emitOutline at hx
      rcases List.mem_append.mp hx with hx | hx
      · split at hx
        · cases hx
        · simp only [List.cons_append, List.mem_cons, List.mem_append, List.not_mem_nil, or_false] at hx
          rcases hx with rfl | hx | rfl
          · trivial
          · exact ops_enc (ho pc) x hx
          · trivial
      · exact errors_enc (hl pc).1 (hl pc).2 (hi i (List.mem_cons_self ..)) x hx
    · exact outlines_enc is (pc + 1) (fun j hj => hi j (List.mem_cons_of_mem _ hj)) ho hl x hx

theorem inline_enc {pc : Nat} {i : Instr} {ls} (h : emitInline sg names block pc i = some ls) (hi : i.Small) : ∀ x ∈ ls, x.Encodes := by
  have trans : ∀ {r vs}, r ≤ 30 → vs.length ≤ 512 → (∀ v ∈ vs, SmallVar v) → ∀ x ∈ storeVars r 0 vs, x.Encodes := fun hr hl hv => store_enc hr 0 _ (by omega) hv
  cases i with
  | func code off scope dest =>
    simp only [emitInline, Option.bind_eq_some_iff, Option.map_eq_some_iff] at h
    obtain ⟨run, _, vs, hvs, rfl⟩ := h
    unfold firstVars at hvs
    split at hvs
    · cases hvs
      simp only [List.cons_append, List.forall_mem_cons, List.forall_mem_append]
      refine ⟨trivial, stack_imm hi.1, trans (by decide) (by rw [List.length_take]; have := hi.1; omega) fun v hv => hi.2.2.1 v (List.mem_of_mem_take hv), ⟨by decide, by decide⟩, show (1 : Nat) ≤ 30 by decide,
        ⟨by decide, by decide, .inl (by have := hi.2.1; omega)⟩, show (3 : Nat) ≤ 30 by decide, trivial, setVar_enc (by decide) hi.2.2.2, stack_imm hi.1, by simp⟩
    · cases hvs
  | select c nt targets default =>
    cases h
    simp only [List.forall_mem_cons, List.forall_mem_append]
    refine ⟨⟨getVar_enc (by decide) hi.1, trivial, ⟨by decide, by decide⟩, trivial, by simp⟩, fun x hx => ?_⟩
    obtain ⟨a, ha, rfl⟩ := List.mem_map.mp hx
    have hr := Select.emitSelect_refs nt targets default
    cases a with
    | cmp k =>
      obtain ⟨y, hy, rfl⟩ := hr.cmp k ha
      have := hi.2 y hy
      exact ⟨by decide, .inl (by simp; omega)⟩
    | _ => trivial
  | struct args dest =>
    cases h
    simp only [List.cons_append, List.forall_mem_cons, List.forall_mem_append]
    exact ⟨stack_imm hi.1, trans (by decide) hi.1 hi.2.1, ⟨by decide, by decide⟩, ⟨by decide, show _ < _ by have := hi.1; omega⟩, show (2 : Nat) ≤ 30 by decide, trivial, setVar_enc (by decide) hi.2.2, stack_imm hi.1, by simp⟩
  | list args dest =>
    cases h
    simp only [List.cons_append, List.forall_mem_cons, List.forall_mem_append]
    exact ⟨stack_imm hi.1, trans (by decide) hi.1 hi.2.1, ⟨by decide, by decide⟩, ⟨by decide, show _ < _ by have := hi.1; omega⟩, show (2 : Nat) ≤ 30 by decide, trivial, setVar_enc (by decide) hi.2.2, stack_imm hi.1, by simp⟩
  | call f args dest =>
    cases h
    simp only [List.cons_append, List.forall_mem_cons, List.forall_mem_append]
    exact ⟨stack_imm hi.2.1, trans (by decide) hi.2.1 hi.2.2.1, ⟨by decide, by decide⟩, ⟨by decide, by decide⟩, getVar_enc (by decide) hi.1, ⟨by decide, show _ < _ by have := hi.2.1; omega⟩,
      show (4 : Nat) ≤ 30 by decide, trivial, setVar_enc (by decide) hi.2.2.2, stack_imm hi.2.1, show (0 : Nat) ≤ 30 by decide, by simp⟩
  | tailCall f args =>
    cases h
    simp only [List.cons_append, List.nil_append, List.forall_mem_cons, List.forall_mem_append]
    exact ⟨getVar_enc (by decide) hi.1, trivial, show (0 : Nat) ≤ 30 by decide, ⟨by decide, by decide⟩, ⟨by decide, by decide⟩, getVar_enc (by decide) hi.1, stack_imm hi.2.1, trans (by decide) hi.2.1 hi.2.2,
      ⟨by decide, show _ < _ by have := hi.2.1; omega⟩, show (4 : Nat) ≤ 30 by decide, trivial, stack_imm hi.2.1, trivial, by simp⟩
  | union tag arg dest =>
    cases h
    simp only [List.forall_mem_cons]
    exact ⟨⟨by decide, by decide⟩, ⟨by decide, hi.1⟩, getVar_enc (by decide) hi.2.1, trivial, setVar_enc (by decide) hi.2.2, by simp⟩
  | structAccess obj tag dest =>
    cases h
    simp only [List.forall_mem_cons]
    exact ⟨getVar_enc (by decide) hi.1, ⟨by decide, hi.2.1⟩, trivial, setVar_enc (by decide) hi.2.2, show (0 : Nat) ≤ 30 by decide, by simp⟩
  | unionAccess obj tag dest =>
    cases h
    simp only [List.forall_mem_cons]
    exact ⟨getVar_enc (by decide) hi.1, ⟨by decide, hi.2.1⟩, trivial, setVar_enc (by decide) hi.2.2, show (0 : Nat) ≤ 30 by decide, ⟨by decide, by decide⟩, trivial, by simp⟩
  | goto t =>
    cases h
    simp [Line.Encodes]
  | copy v dest =>
    cases h
    simp only [List.forall_mem_cons]
    exact ⟨getVar_enc (by decide) hi.1, setVar_enc (by decide) hi.2, by simp⟩
  | refValue dest =>
    cases h
    simp only [List.forall_mem_cons]
    exact ⟨⟨by decide, by decide⟩, trivial, setVar_enc (by decide) hi, by simp⟩
  | refDef ref v =>
    cases h
    simp only [List.forall_mem_cons]
    exact ⟨⟨by decide, by decide⟩, getVar_enc (by decide) hi.1, getVar_enc (by decide) hi.2, trivial, show (0 : Nat) ≤ 30 by decide, by simp⟩
  | ret v =>
    cases h
    simp only [List.forall_mem_cons]
    exact ⟨getVar_enc (by decide) hi, trivial, by simp⟩
  | type dest =>
    cases h
    simp only [List.forall_mem_cons]
    exact ⟨show (0 : Nat) ≤ 30 by decide, ⟨by decide, by decide, by decide, by decide⟩, setVar_enc (by decide) hi, by simp⟩
  | literal ls dest =>
    cases h
    simp only [List.forall_mem_cons]
    exact ⟨trivial, ⟨by decide, by decide⟩, ⟨by decide, hi.1⟩, show (2 : Nat) ≤ 30 by decide, trivial, setVar_enc (by decide) hi.2, by simp⟩
  | nop =>
    cases h
    simp

theorem body_enc : (is : List Instr) → (pc : Nat) → {b : List Line} → emitBody sg names block pc ops is = some b → (∀ i ∈ is, i.Small) → ∀ x ∈ b, x.Encodes
  | [], pc, b, h, _, x, hx => by
    cases h
    cases hx
  | i :: is, pc, b, h, hi, x, hx => by
    simp only [emitBody, Option.bind_eq_some_iff, Option.map_eq_some_iff] at h
    obtain ⟨ls, h1, rest, h2, rfl⟩ := h
    simp only [List.cons_append, List.mem_cons, List.mem_append] at hx
    rcases hx with rfl | (hx | hx) | hx
    · trivial
    · unfold emitCheck at hx
      split at hx
      · cases hx
      · simp only [List.mem_cons, List.not_mem_nil, or_false] at hx
        rcases hx with rfl | rfl
        · show (24 : Nat) ≤ 30
          decide
        · trivial
    · exact inline_enc h1 (hi i (List.mem_cons_self ..)) x hx
    · exact body_enc is (pc + 1) h2 (fun j hj => hi j (List.mem_cons_of_mem _ hj)) x hx

theorem bytes_append (a b : List Line) : bytes (a ++ b) = bytes a + bytes b := by simp [bytes]

/-- C66. The function for code within limits has an encoding, if it is shorter than 1 MB. -/
theorem C66_a64_encodes {b : Nat} {c f} (h : emitCodeA sg names b locs c = some f) (hs : c.Small) (hl : ∀ pc, (locs pc).line < 65536 ∧ (locs pc).col < 65536) (hlen : bytes f.body < 2 ^ 20) :
    f.Encodes := by
  constructor
  · simp only [emitCodeA, Option.bind_eq_some_iff, Option.map_eq_some_iff] at h
    obtain ⟨n, _, body, hbody, rfl⟩ := h
    have hst := stack_imm hs.locals
    intro x hx
    simp only [List.mem_append] at hx
    rcases hx with ((hx | hx) | hx) | hx
    · revert x
      simp only [prologue, List.forall_mem_cons]
      refine ⟨hst, ?_⟩
      simp [Line.Encodes, LdpImm, LdrImm, AddImm]
    · exact body_enc _ _ hbody hs.instrs x hx
    · revert x
      simp only [epilogue, List.forall_mem_cons]
      refine ⟨trivial, ?_, ?_, ?_, ?_, hst, trivial, by simp⟩ <;> simp [Line.Encodes, LdpImm]
    · refine outlines_enc _ _ hs.instrs (fun pc o ho => ?_) hl x hx
      cases hp : c.profile[pc]? with
      | none => rw [hp] at ho; cases ho
      | some os =>
        rw [hp] at ho
        exact hs.ops os (List.mem_of_getElem? hp) o ho
  · intro pre x post e l d hd pre' y post' e' hy
    have h1 : bytes pre ≤ bytes f.body := by rw [e, bytes_append]; omega
    have h2 : bytes pre' ≤ bytes f.body := by rw [e', bytes_append]; omega
    have h3 : 2 ^ 20 ≤ d := by
      cases x <;> simp [Line.reach] at hd <;> omega
    omega

/-- The functions of a module. -/
theorem C66_a64_module {locs : Nat → Nat → SrcLoc} {root : Code} {md} (h : generateA sg names locs root = some md) (hs : ∀ b c, (b, c) ∈ collectBlocks 0 root → c.Small)
    (hl : ∀ b pc, (locs b pc).line < 65536 ∧ (locs b pc).col < 65536) : ∀ f ∈ md.funs, bytes f.body < 2 ^ 20 → f.Encodes := by
  simp only [generateA, Option.bind_eq_some_iff, Option.map_eq_some_iff] at h
  obtain ⟨fs, hfs, run, hrun, rfl⟩ := h
  intro f hf hlen
  obtain ⟨⟨b, c⟩, hb, he⟩ := (mapM_mem hfs).1 f hf
  exact C66_a64_encodes he (hs b c hb) (hl b) hlen

/-- A function with more than 512 local variables has none: the immediate of `sub SP, SP, 4112` has
more than twelve bits. -/
theorem C66_violated {b : Nat} {na ns : Nat} {is ps f} (h : emitCodeA sg names b locs (.mk na ns 513 is ps) = some f) : ¬ f.Encodes := by
  simp only [emitCodeA, Option.bind_eq_some_iff, Option.map_eq_some_iff] at h
  obtain ⟨n, _, body, hbody, rfl⟩ := h
  intro he
  have := he.lines (.subSP (stackBytes 513)) (List.mem_append_left _ (List.mem_append_left _ (List.mem_append_left _ (List.mem_cons_self ..))))
  revert this
  show ¬ AddImm (stackBytes 513)
  decide

/-- Such a function is emitted without complaint. -/
theorem C66_violated_example : ∃ f, emitCodeA true [[ch 'f']] 0 (fun _ => ⟨[ch 'f'], 1, 1⟩) (.mk 1 0 513 [.ret (.arg 0)] [[]]) = some f ∧ ¬ f.Encodes := by
  cases h : emitCodeA true [[ch 'f']] 0 (fun _ => ⟨[ch 'f'], 1, 1⟩) (.mk 1 0 513 [.ret (.arg 0)] [[]]) with
  | none =>
    exfalso
    have : (emitCodeA true [[ch 'f']] 0 (fun _ => ⟨[ch 'f'], 1, 1⟩) (.mk 1 0 513 [.ret (.arg 0)] [[]])).isSome = true := by decide +kernel
    rw [h] at this
    cases this
  | some f => exact ⟨f, rfl, C66_violated h⟩

/-- An example within limits. -/
theorem C66_example {f} (h : emitCodeA true [[ch 'f']] 0 (fun _ => ⟨[ch 'f'], 1, 1⟩) (.mk 1 0 1 [.structAccess (.arg 0) 1 0, .ret (.loc 0)] [[.enter 0], [.exit]]) = some f) : f.Encodes := by
  refine C66_a64_encodes h ⟨by decide, ?_, ?_⟩ (fun _ => by decide) ?_
  · simp [Code.instrs, Instr.Small, SmallVar, varIdx]
  · simp [Code.profile, POp.Small]
  · have : (emitCodeA true [[ch 'f']] 0 (fun _ => ⟨[ch 'f'], 1, 1⟩) (.mk 1 0 1 [.structAccess (.arg 0) 1 0, .ret (.loc 0)] [[.enter 0], [.exit]])).map (fun f => decide (bytes f.body < 2 ^ 20)) = some true := by
      decide +kernel
    rw [h, Option.map_some] at this
    simpa using this

end Verif.Backend
