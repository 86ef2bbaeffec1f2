import Verif.Backend.A64
import Verif.Backend.CThm
/-
Lemmas for running the emitted assembly: the frame of a run function, its variables, and the lines that
occur often.
-/
namespace Verif.Backend
open Verif.Compile

/-- The same result and log, unless the result is `wild` or `crash`. -/
def Sim (env : Env) (rest : List Line) (m : Mach) (s : St (GFn CBody)) (o : GRes CBody (GOut CBody) × List Ev) : Prop :=
  o.1 = .wild ∨ o.1 = .crash ∨ Ends env rest m s o

variable {env : Env} {rest : List Line} {m m' : Mach} {s s' : St (GFn CBody)} {o : GRes CBody (GOut CBody) × List Ev}

theorem Sim.wild {lg} : Sim env rest m s (.wild, lg) := .inl rfl
theorem Sim.crash {lg} : Sim env rest m s (.crash, lg) := .inr (.inl rfl)

theorem Sim.next {x} (h : astep env x m s = .next m' s') (k : Sim env rest m' s' o) : Sim env (x :: rest) m s o := by
  rcases k with k | k | k
  · exact .inl k
  · exact .inr (.inl k)
  · exact .inr (.inr (.next h k))

theorem Sim.jump {x l r} (h : astep env x m s = .jump l) (hs : seek l env.whole = some (.label l :: r)) (k : Sim env r m s o) :
    Sim env (x :: rest) m s o := by
  rcases k with k | k | k
  · exact .inl k
  · exact .inr (.inl k)
  · exact .inr (.inr (.jump h hs k))

theorem Sim.stop {x r lg} (h : astep env x m s = .stop r) (e : lg = m.log) : Sim env (x :: rest) m s (r, lg) := by
  subst e
  exact .inr (.inr (.stop h))

/-! ### Lines -/

theorem sim_label {l} (k : Sim env rest m s o) : Sim env (.label l :: rest) m s o := .next rfl k
theorem sim_exe {pc na ns r} (k : Sim env rest m s o) : Sim env (.exe pc na ns r :: rest) m s o := .next rfl k
theorem sim_letters {pc ls} (k : Sim env rest m s o) : Sim env (.letters pc ls :: rest) m s o := .next rfl k

theorem sim_ldr {rd rb off w x} (h : m.reg rb = some w) (h2 : m.load env w off = some x) (k : Sim env rest (m.setReg rd x) s o) :
    Sim env (.ldr rd rb off :: rest) m s o := .next (by simp [astep, h, h2]) k

theorem sim_str {rs rb off w a} (h : m.reg rs = some w) (h2 : m.reg rb = some (.stk a)) (h3 : m.onStack (a + (off : Nat)))
    (k : Sim env rest (m.setMem (a + (off : Nat)) w) s o) : Sim env (.str rs rb off :: rest) m s o := .next (by simp [astep, h, h2, h3]) k

theorem sim_strz {rb off a} (h2 : m.reg rb = some (.stk a)) (h3 : m.onStack (a + (off : Nat)))
    (k : Sim env rest (m.setMem (a + (off : Nat)) (.int 0)) s o) : Sim env (.strz rb off :: rest) m s o := .next (by simp [astep, h2, h3]) k

theorem sim_strSp {rs off w} (h : m.reg rs = some w) (h1 : m.sp % 16 = 0) (h3 : m.onStack (m.sp + (off : Nat)))
    (k : Sim env rest (m.setMem (m.sp + (off : Nat)) w) s o) : Sim env (.strSp rs off :: rest) m s o := .next (by simp [astep, h, h1, h3]) k

theorem sim_stp {r1 r2 off w1 w2} (h1 : m.reg r1 = some w1) (h2 : m.reg r2 = some w2) (h3 : m.sp % 16 = 0) (h4 : m.onStack (m.sp + (off : Nat)))
    (h5 : m.onStack (m.sp + (off : Nat) + 8)) (k : Sim env rest ((m.setMem (m.sp + (off : Nat)) w1).setMem (m.sp + (off : Nat) + 8) w2) s o) :
    Sim env (.stp r1 r2 off :: rest) m s o := .next (by simp [astep, h1, h2, h3, h4, h5]) k

theorem sim_stpPre {r1 r2 n w1 w2 sp} (h1 : m.reg r1 = some w1) (h2 : m.reg r2 = some w2) (hsp : sp = m.sp - (n : Nat)) (h3 : sp % 16 = 0)
    (h4 : ({ m with sp := sp } : Mach).onStack sp) (h5 : ({ m with sp := sp } : Mach).onStack (sp + 8))
    (k : Sim env rest ((({ m with sp := sp } : Mach).setMem sp w1).setMem (sp + 8) w2) s o) :
    Sim env (.stpPre r1 r2 n :: rest) m s o := by
  subst hsp
  exact .next (by simp [astep, h1, h2, h3, h4, h5]) k

theorem sim_ldp {r1 r2 off w1 w2} (h3 : m.sp % 16 = 0) (h4 : m.onStack (m.sp + (off : Nat)))
    (h5 : m.onStack (m.sp + (off : Nat) + 8)) (h1 : m.mem (m.sp + (off : Nat)) = some w1) (h2 : m.mem (m.sp + (off : Nat) + 8) = some w2)
    (k : Sim env rest ((m.setReg r1 w1).setReg r2 w2) s o) :
    Sim env (.ldp r1 r2 off :: rest) m s o := .next (by simp [astep, h1, h2, h3, h4, h5]) k

theorem sim_ldpPost {r1 r2 n w1 w2} (h3 : m.sp % 16 = 0) (h4 : m.onStack m.sp) (h5 : m.onStack (m.sp + 8)) (h1 : m.mem m.sp = some w1)
    (h2 : m.mem (m.sp + 8) = some w2) (k : Sim env rest { (m.setReg r1 w1).setReg r2 w2 with sp := m.sp + (n : Nat) } s o) :
    Sim env (.ldpPost r1 r2 n :: rest) m s o := .next (by simp [astep, h1, h2, h3, h4, h5]) k

theorem sim_mov {rd rs w} (h : m.reg rs = some w) (k : Sim env rest (m.setReg rd w) s o) : Sim env (.mov rd rs :: rest) m s o :=
  .next (by simp [astep, h]) k
theorem sim_movz {rd} (k : Sim env rest (m.setReg rd (.int 0)) s o) : Sim env (.movz rd :: rest) m s o := .next rfl k
theorem sim_movi {rd n} (k : Sim env rest (m.setReg rd (.int (n : Nat))) s o) : Sim env (.movi rd n :: rest) m s o := .next rfl k
theorem sim_movSp {rd} (k : Sim env rest (m.setReg rd (.stk m.sp)) s o) : Sim env (.movSp rd :: rest) m s o := .next rfl k
theorem sim_addSp {rd n} (k : Sim env rest (m.setReg rd (.stk (m.sp + (n : Nat)))) s o) : Sim env (.addSp rd n :: rest) m s o := .next rfl k
theorem sim_subSP {n} (k : Sim env rest { m with sp := m.sp - (n : Nat) } s o) : Sim env (.subSP n :: rest) m s o := .next rfl k
theorem sim_addSP {n} (k : Sim env rest { m with sp := m.sp + (n : Nat) } s o) : Sim env (.addSP n :: rest) m s o := .next rfl k
theorem sim_addi {rd rs n b} (h : m.reg rs = some (.block b)) (k : Sim env rest (m.setReg rd (.block (b + n))) s o) :
    Sim env (.addi rd rs n :: rest) m s o := .next (by simp [astep, h]) k
theorem sim_adr {rd y} (k : Sim env rest (m.setReg rd (.sym y)) s o) : Sim env (.adr rd y :: rest) m s o := .next rfl k
theorem sim_cmp {rn i w} (h : m.reg rn = some w) (k : Sim env rest { m with flags := some (w, i) } s o) : Sim env (.cmp rn i :: rest) m s o :=
  .next (by simp [astep, h]) k
theorem sim_b {l r} (hs : seek l env.whole = some (.label l :: r)) (k : Sim env r m s o) : Sim env (.b l :: rest) m s o := .jump rfl hs k

theorem sim_cbz_no {r l w} (h : m.reg r = some w) (h2 : w.is 0 = some false) (k : Sim env rest m s o) : Sim env (.cbz r l :: rest) m s o :=
  .next (by simp [astep, h, h2, branch]) k
theorem sim_cbz_yes {r l w r'} (h : m.reg r = some w) (h2 : w.is 0 = some true) (hs : seek l env.whole = some (.label l :: r')) (k : Sim env r' m s o) :
    Sim env (.cbz r l :: rest) m s o := .jump (by simp [astep, h, h2, branch]) hs k
theorem sim_cbnz_no {r l w} (h : m.reg r = some w) (h2 : w.is 0 = some true) (k : Sim env rest m s o) : Sim env (.cbnz r l :: rest) m s o :=
  .next (by simp [astep, h, h2, branch]) k
theorem sim_cbnz_yes {r l w r'} (h : m.reg r = some w) (h2 : w.is 0 = some false) (hs : seek l env.whole = some (.label l :: r')) (k : Sim env r' m s o) :
    Sim env (.cbnz r l :: rest) m s o := .jump (by simp [astep, h, h2, branch]) hs k
theorem sim_beq_no {l w i} (h : m.flags = some (w, i)) (h2 : w.is i = some false) (k : Sim env rest m s o) : Sim env (.beq l :: rest) m s o :=
  .next (by simp [astep, h, h2, branch]) k
theorem sim_beq_yes {l w i r'} (h : m.flags = some (w, i)) (h2 : w.is i = some true) (hs : seek l env.whole = some (.label l :: r')) (k : Sim env r' m s o) :
    Sim env (.beq l :: rest) m s o := .jump (by simp [astep, h, h2, branch]) hs k
theorem sim_bcc_no {l w i} (h : m.flags = some (w, i)) (h2 : w.below i = some false) (k : Sim env rest m s o) : Sim env (.bcc l :: rest) m s o :=
  .next (by simp [astep, h, h2, branch]) k
theorem sim_bcc_yes {l w i r'} (h : m.flags = some (w, i)) (h2 : w.below i = some true) (hs : seek l env.whole = some (.label l :: r')) (k : Sim env r' m s o) :
    Sim env (.bcc l :: rest) m s o := .jump (by simp [astep, h, h2, branch]) hs k

/-- A call that returns. -/
theorem sim_bl {f} (h : m.sp % 16 = 0) (h2 : acall env m s f = .next m' s') (k : Sim env rest m' s' o) : Sim env (.bl f :: rest) m s o :=
  .next (by simp only [astep, if_pos h, h2]) k

/-- A call that does not. -/
theorem sim_bl_stop {f r lg} (h : m.sp % 16 = 0) (h2 : acall env m s f = .stop r) (e : lg = m.log) : Sim env (.bl f :: rest) m s (r, lg) :=
  .stop (by simp only [astep, if_pos h, h2]) e

attribute [simp] rHeap rLocals rArgs rStatics rBlock rProfile rFP rLR

@[simp] theorem setReg_reg {r w x} : (m.setReg r w).reg x = if x = r then some w else m.reg x := rfl
@[simp] theorem setReg_sp {r w} : (m.setReg r w).sp = m.sp := rfl
@[simp] theorem setReg_mem {r w} : (m.setReg r w).mem = m.mem := rfl
@[simp] theorem setReg_log {r w} : (m.setReg r w).log = m.log := rfl
@[simp] theorem setReg_flags {r w} : (m.setReg r w).flags = m.flags := rfl
@[simp] theorem setMem_reg {a w} : (m.setMem a w).reg = m.reg := rfl
@[simp] theorem setMem_sp {a w} : (m.setMem a w).sp = m.sp := rfl
@[simp] theorem setMem_mem {a w x} : (m.setMem a w).mem x = if x = a then some w else m.mem x := rfl
@[simp] theorem setMem_log {a w} : (m.setMem a w).log = m.log := rfl
@[simp] theorem after_sp {w} : (m.after w).sp = m.sp := rfl
@[simp] theorem after_log {w} : (m.after w).log = m.log := rfl
@[simp] theorem after_reg {w r} : (m.after w).reg r = if r = 0 then w else if r ≤ 18 ∨ r = 30 then none else m.reg r := rfl
@[simp] theorem after_mem {w a} : (m.after w).mem a = if a < m.sp then none else m.mem a := rfl
@[simp] theorem note_reg {e} : (m.note e).reg = m.reg := rfl
@[simp] theorem note_sp {e} : (m.note e).sp = m.sp := rfl
@[simp] theorem note_mem {e} : (m.note e).mem = m.mem := rfl
@[simp] theorem note_log {e} : (m.note e).log = m.log ++ [e] := rfl
@[simp] theorem setReg_array {r w a n} : (m.setReg r w).array env a n = m.array env a n := rfl
@[simp] theorem nat_int {n : Nat} : (Word.int n).nat? = some n := by simp [Word.nat?]

/-! ### The frame -/

/-- The stack pointer between the instructions. -/
def base (nl : Nat) : Int := -(64 + stackBytes nl : Nat)

/-- What is always so in the body of a run function: the registers, and what is saved on the stack. -/
structure Frame (env : Env) (nl : Nat) (m : Mach) : Prop where
  sp : m.sp ≤ base nl
  aligned : m.sp % 16 = 0
  heap : m.reg 19 = some .heap
  locals : m.reg 20 = some (.stk (base nl + 64))
  args : m.reg 21 = some (.argv 0)
  statics : m.reg 22 = some (.statv 0)
  block : m.reg 23 = some (.block 0)
  profile : m.reg 24 = some env.profile
  r25 : m.reg 25 = some (.caller 25)
  r26 : m.reg 26 = some (.caller 26)
  r27 : m.reg 27 = some (.caller 27)
  r28 : m.reg 28 = some (.caller 28)
  s29 : m.mem (base nl) = some (.caller 29)
  s30 : m.mem (base nl + 8) = some (.caller 30)
  s19 : m.mem (base nl + 16) = some (.caller 19)
  s20 : m.mem (base nl + 24) = some (.caller 20)
  s21 : m.mem (base nl + 32) = some (.caller 21)
  s22 : m.mem (base nl + 40) = some (.caller 22)
  s23 : m.mem (base nl + 48) = some (.caller 23)
  s24 : m.mem (base nl + 56) = some (.caller 24)

variable {nl : Nat} {fr : GFrame CBody}

theorem base_al (nl : Nat) : base nl % 16 = 0 := by unfold base stackBytes; omega

theorem base_room {d nl : Nat} (h : d < nl) : base nl + 64 + 8 * d + 8 ≤ 0 := by unfold base stackBytes; omega

theorem base_neg (nl : Nat) : base nl + 64 ≤ 0 := by unfold base stackBytes; omega

theorem Frame.mono (h : Frame env nl m) (hr : ∀ r, 19 ≤ r → r ≤ 28 → m'.reg r = m.reg r) (hm : ∀ a, base nl ≤ a → a < base nl + 64 → m'.mem a = m.mem a)
    (h1 : m'.sp ≤ base nl) (h2 : m'.sp % 16 = 0) : Frame env nl m' where
  sp := h1
  aligned := h2
  heap := (hr _ (by omega) (by omega)).trans h.heap
  locals := (hr _ (by omega) (by omega)).trans h.locals
  args := (hr _ (by omega) (by omega)).trans h.args
  statics := (hr _ (by omega) (by omega)).trans h.statics
  block := (hr _ (by omega) (by omega)).trans h.block
  profile := (hr _ (by omega) (by omega)).trans h.profile
  r25 := (hr _ (by omega) (by omega)).trans h.r25
  r26 := (hr _ (by omega) (by omega)).trans h.r26
  r27 := (hr _ (by omega) (by omega)).trans h.r27
  r28 := (hr _ (by omega) (by omega)).trans h.r28
  s29 := (hm _ (by omega) (by omega)).trans h.s29
  s30 := (hm _ (by omega) (by omega)).trans h.s30
  s19 := (hm _ (by omega) (by omega)).trans h.s19
  s20 := (hm _ (by omega) (by omega)).trans h.s20
  s21 := (hm _ (by omega) (by omega)).trans h.s21
  s22 := (hm _ (by omega) (by omega)).trans h.s22
  s23 := (hm _ (by omega) (by omega)).trans h.s23
  s24 := (hm _ (by omega) (by omega)).trans h.s24

theorem Frame.setReg {r w} (h : Frame env nl m) (hr : r < 19 := by omega) : Frame env nl (m.setReg r w) :=
  h.mono (fun x h1 _ => by simp; omega) (fun _ _ _ => rfl) h.sp h.aligned

theorem Frame.flags {f} (h : Frame env nl m) : Frame env nl { m with flags := f } := h.mono (fun _ _ _ => rfl) (fun _ _ _ => rfl) h.sp h.aligned

theorem Frame.note {e} (h : Frame env nl m) : Frame env nl (m.note e) := h.mono (fun _ _ _ => rfl) (fun _ _ _ => rfl) h.sp h.aligned

theorem Frame.after {w} (h : Frame env nl m) : Frame env nl (m.after w) := by
  refine h.mono (fun r h1 h2 => ?_) (fun a h1 _ => ?_) h.sp h.aligned
  · simp; rw [if_neg (by omega), if_neg (by omega)]
  · have := h.sp; simp; omega

theorem Frame.setMem {a w} (h : Frame env nl m) (ha : a < base nl ∨ base nl + 64 ≤ a) : Frame env nl (m.setMem a w) :=
  h.mono (fun _ _ _ => rfl) (fun x _ _ => by simp; omega) h.sp h.aligned

theorem Frame.setSp {a} (h : Frame env nl m) (h1 : a ≤ base nl) (h2 : a % 16 = 0) : Frame env nl { m with sp := a } :=
  h.mono (fun _ _ _ => rfl) (fun _ _ _ => rfl) h1 h2

/-! ### Variables -/

/-- The variables of the function have the values in `fr`. -/
structure Vars (env : Env) (nl : Nat) (fr : GFrame CBody) (m : Mach) : Prop where
  statics : env.statics = fr.statics
  args : env.args = fr.args
  len : fr.locals.length = nl
  locals : ∀ (i : Nat) v, fr.locals[i]? = some (some v) → m.mem (base nl + 64 + 8 * i) = some (.val v)

structure Ok (env : Env) (nl : Nat) (fr : GFrame CBody) (m : Mach) : Prop where
  frame : Frame env nl m
  vars : Vars env nl fr m

theorem Vars.mono (h : Vars env nl fr m) (hm : ∀ a, base nl ≤ a → m'.mem a = m.mem a) : Vars env nl fr m' :=
  ⟨h.statics, h.args, h.len, fun i v hi => (hm _ (by omega)).trans (h.locals i v hi)⟩

theorem Ok.setReg {r w} (h : Ok env nl fr m) (hr : r < 19 := by omega) : Ok env nl fr (m.setReg r w) := ⟨h.1.setReg hr, h.2.mono fun _ _ => rfl⟩
theorem Ok.flags {f} (h : Ok env nl fr m) : Ok env nl fr { m with flags := f } := ⟨h.1.flags, h.2.mono fun _ _ => rfl⟩
theorem Ok.note {e} (h : Ok env nl fr m) : Ok env nl fr (m.note e) := ⟨h.1.note, h.2.mono fun _ _ => rfl⟩
theorem Ok.after {w} (h : Ok env nl fr m) : Ok env nl fr (m.after w) := ⟨h.1.after, h.2.mono fun a ha => by have := h.1.sp; simp; omega⟩
theorem Ok.setMem {a w} (h : Ok env nl fr m) (ha : a < base nl) : Ok env nl fr (m.setMem a w) :=
  ⟨h.1.setMem (.inl ha), h.2.mono fun x hx => by simp; omega⟩
theorem Ok.setSp {a} (h : Ok env nl fr m) (h1 : a ≤ base nl) (h2 : a % 16 = 0) : Ok env nl fr { m with sp := a } :=
  ⟨h.1.setSp h1 h2, h.2.mono fun _ _ => rfl⟩

theorem Ok.idx (h : Ok env nl fr m) {i : Nat} {v} (hi : fr.locals[i]? = some (some v)) : i < nl := by
  have := (List.getElem?_eq_some_iff.mp hi).1
  rw [h.vars.len] at this
  exact this

/-- GetFrameVar. -/
theorem sim_get {r v x} (h : Ok env nl fr m) (hv : fr.get v = some x) (k : Sim env rest (m.setReg r (.val x)) s o) : Sim env (getVar r v :: rest) m s o := by
  cases v with
  | static i =>
    refine sim_ldr h.frame.statics ?_ k
    simp only [Mach.load, Nat.zero_add, Nat.mul_mod_right, if_true]
    rw [Nat.mul_div_cancel_left _ (by omega), h.vars.statics, show fr.statics[i]? = some x from hv]
    rfl
  | arg i =>
    refine sim_ldr h.frame.args ?_ k
    simp only [Mach.load, Nat.zero_add, Nat.mul_mod_right, if_true]
    rw [Nat.mul_div_cancel_left _ (by omega), h.vars.args, show fr.args[i]? = some x from hv]
    rfl
  | loc i =>
    have hi : fr.locals[i]? = some (some x) := by
      simp only [GFrame.get] at hv
      cases hx : fr.locals[i]? with
      | none => rw [hx] at hv; cases hv
      | some y => rw [hx] at hv; simp at hv; rw [hv]
    refine sim_ldr h.frame.locals ?_ k
    simp only [Mach.load]
    have h1 := base_room (h.idx hi)
    have h2 := h.frame.sp
    have h3 := base_al nl
    rw [if_pos ⟨by omega, by omega, by omega⟩]
    have := h.vars.locals i x hi
    simpa using this

theorem onStack_local {d : Nat} (h : Frame env nl m) (hd : d < nl) : m.onStack (base nl + 64 + (8 * d : Nat)) := by
  have h1 := base_room hd
  have h2 := h.sp
  have h3 := base_al nl
  exact ⟨by omega, by omega, by omega⟩

/-- SetFrameVar with a value. -/
theorem sim_set {r d x fr1} (h : Ok env nl fr m) (hr : m.reg r = some (.val x)) (hp : fr.put d x = some fr1)
    (k : ∀ m', Ok env nl fr1 m' → m'.sp = m.sp → m'.log = m.log → m'.reg = m.reg → Sim env rest m' s o) : Sim env (setVar r d :: rest) m s o := by
  unfold GFrame.put at hp
  split at hp
  · rename_i hd
    cases hp
    rw [h.vars.len] at hd
    refine sim_str hr h.frame.locals (onStack_local h.frame hd) (k _ ⟨h.frame.setMem (.inr (by omega)), ?_⟩ rfl rfl rfl)
    refine ⟨h.vars.statics, h.vars.args, by simp [h.vars.len], fun i v hi => ?_⟩
    simp only [setMem_mem]
    by_cases e : i = d
    · subst e
      have := h.vars.len
      simp only [List.getElem?_set, this, hd, if_true] at hi
      cases hi
      rw [if_pos (by omega)]
    · rw [if_neg (by omega)]
      refine h.vars.locals i v ?_
      rw [List.getElem?_set, if_neg (Ne.symm e)] at hi
      exact hi
  · cases hp

/-- SetFrameVar with something else. -/
theorem sim_setw {r d w} (h : Frame env nl m) (hr : m.reg r = some w) (hd : d < nl)
    (k : ∀ m', Frame env nl m' → m'.sp = m.sp → m'.log = m.log → m'.reg = m.reg → Sim env rest m' s o) : Sim env (setVar r d :: rest) m s o :=
  sim_str hr h.locals (onStack_local h hd) (k _ (h.setMem (.inr (by omega))) rfl rfl rfl)

/-! ### Arrays on the stack -/

theorem mapM_map' {α β γ : Type} (g : α → β) (f : β → Option γ) : (l : List α) → (l.map g).mapM f = l.mapM fun a => f (g a)
  | [] => rfl
  | a :: l => by rw [List.map_cons, List.mapM_cons, List.mapM_cons, mapM_map' g f l]

theorem mapM_range {α : Type} : {xs : List α} → {f : Nat → Option α} → (∀ (i : Nat) x, xs[i]? = some x → f i = some x) → (List.range xs.length).mapM f = some xs
  | [], _, _ => rfl
  | x :: xs, f, h => by
    rw [List.length_cons, List.range_succ_eq_map, List.mapM_cons, h 0 x rfl, mapM_map',
      mapM_range (xs := xs) (f := fun i => f (i + 1)) fun i y hi => h (i + 1) y (by simpa using hi)]
    rfl

theorem array_ok {a : Int} {xs : List (GVal CBody)} {n : Nat} (hn : n = xs.length) (hsp : m.sp ≤ a) (h0 : a + 8 * xs.length ≤ 0) (h8 : a % 8 = 0)
    (h : ∀ (i : Nat) x, xs[i]? = some x → m.mem (a + 8 * i) = some (.val x)) : m.array env (.stk a) n = some xs := by
  subst hn
  refine mapM_range fun i x hi => ?_
  have := (List.getElem?_eq_some_iff.mp hi).1
  simp only [Mach.load]
  rw [if_pos ⟨by omega, by omega, by omega⟩]
  have := h i x hi
  rw [show a + ((8 * i : Nat) : Int) = a + 8 * i by omega, this]
  rfl

theorem gets_cons {v vs} {ys : List (GVal CBody)} (h : fr.gets (v :: vs) = some ys) : ∃ x xs, fr.get v = some x ∧ fr.gets vs = some xs ∧ ys = x :: xs := by
  simp only [GFrame.gets, List.mapM_cons] at h
  cases hx : fr.get v with
  | none => rw [hx] at h; cases h
  | some x =>
    cases hy : List.mapM fr.get vs with
    | none => rw [hx, hy] at h; cases h
    | some xs =>
      rw [hx, hy] at h
      cases h
      exact ⟨x, xs, rfl, hy, rfl⟩

theorem store_ok {r : Nat} (hr : r < 19) : (vs : List Var) → (pre xs : List (GVal CBody)) → (m : Mach) → Ok env nl fr m → fr.gets vs = some xs →
    m.sp + 8 * (pre.length + vs.length) ≤ base nl → (∀ (i : Nat) x, pre[i]? = some x → m.mem (m.sp + 8 * i) = some (.val x)) →
    (∀ m', Ok env nl fr m' → m'.sp = m.sp → m'.log = m.log → (∀ q, q ≠ r → m'.reg q = m.reg q) →
      (∀ (i : Nat) x, (pre ++ xs)[i]? = some x → m'.mem (m'.sp + 8 * i) = some (.val x)) → Sim env rest m' s o) →
    Sim env (storeVars r pre.length vs ++ rest) m s o
  | [], pre, xs, m, hok, hv, hle, hpre, k => by
    cases hv
    exact k m hok rfl rfl (fun _ _ => rfl) (by simpa using hpre)
  | v :: vs, pre, ys, m, hok, hv, hle, hpre, k => by
    obtain ⟨x, xs, h1, h2, rfl⟩ := gets_cons hv
    simp only [List.length_cons] at hle
    rw [storeVars]
    simp only [List.cons_append]
    refine sim_get hok h1 ?_
    have hn := base_neg nl
    have ha := hok.frame.aligned
    refine sim_strSp (w := .val x) (by simp) ha ⟨by simp; omega, by simp; omega, by simp; omega⟩ ?_
    have := store_ok hr vs (pre ++ [x]) xs ((m.setReg r (.val x)).setMem (m.sp + (8 * pre.length : Nat)) (.val x))
      (hok.setReg.setMem (by omega)) h2 (by simp; omega) ?_ ?_
    · rw [show (pre ++ [x]).length = pre.length + 1 by simp] at this
      exact this
    · intro i y hi
      simp only [setMem_mem, setMem_sp, setReg_sp, setReg_mem]
      by_cases e : i = pre.length
      · subst e
        simp at hi
        rw [if_pos (by omega), hi]
      · rw [if_neg (by omega)]
        refine hpre i y ?_
        have := (List.getElem?_eq_some_iff.mp hi).1
        simp at this
        rw [List.getElem?_append_left (by omega)] at hi
        exact hi
    · intro m' a1 a2 a3 a4 a5
      refine k m' a1 a2 a3 (fun q hq => ?_) (by simpa using a5)
      rw [a4 q hq]
      simp [hq]

theorem stackBytes_ge (n : Nat) : 8 * n ≤ stackBytes n := by unfold stackBytes; omega
theorem stackBytes_al (n : Nat) : stackBytes n % 16 = 0 := by unfold stackBytes; omega

/-- Making room for values and storing them. -/
theorem sim_args {r n : Nat} (hr : r < 19) {vs : List Var} {xs : List (GVal CBody)} (h : Ok env nl fr m) (hsp : m.sp = base nl) (hv : fr.gets vs = some xs)
    (hn : n = vs.length)
    (k : ∀ m', Ok env nl fr m' → m'.sp = base nl - stackBytes n → m'.log = m.log → (∀ q, q ≠ r → m'.reg q = m.reg q) →
      m'.array env (.stk m'.sp) n = some xs → Sim env rest m' s o) :
    Sim env (.subSP (stackBytes n) :: storeVars r 0 vs ++ rest) m s o := by
  have hx := gets_length hv
  have h1 := stackBytes_ge n
  have h2 := stackBytes_al n
  have h3 := base_al nl
  have h4 := base_neg nl
  refine sim_subSP (store_ok hr vs [] xs _ (h.setSp (by omega) (by omega)) hv (by simp; omega) (by simp) fun m' a1 a2 a3 a4 a5 => ?_)
  simp only at a2
  refine k m' a1 (by rw [a2, hsp]) a3 a4 (array_ok (by omega) (Int.le_refl _) (by omega) (by omega) (by simpa using a5))

/-! ### Leaving -/

/-- Where the function is left. -/
def HasExit (env : Env) (nl : Nat) : Prop := ∃ tl, seek .exit env.whole = some (epilogue nl ++ tl)

theorem sim_exit {w} (hx : HasExit env nl) (h : Frame env nl m) (hsp : m.sp = base nl) (hw : m.reg 0 = some w) :
    Sim env (.b .exit :: rest) m s (w.result s, m.log) := by
  obtain ⟨tl, hx⟩ := hx
  refine sim_b hx ?_
  have h0 := base_al nl
  have h1 := base_neg nl
  refine sim_ldp h.aligned ⟨by omega, by omega, by omega⟩ ⟨by omega, by omega, by omega⟩ (by rw [hsp]; exact h.s19)
    (by rw [hsp, Int.add_assoc]; exact h.s20) ?_
  refine sim_ldp h.aligned ⟨by simp; omega, by simp; omega, by simp; omega⟩ ⟨by simp; omega, by simp; omega, by simp; omega⟩ (by simp only [setReg_sp, setReg_mem]; rw [hsp]; exact h.s21)
    (by simp only [setReg_sp, setReg_mem]; rw [hsp, Int.add_assoc]; exact h.s22) ?_
  refine sim_ldp h.aligned ⟨by simp; omega, by simp; omega, by simp; omega⟩ ⟨by simp; omega, by simp; omega, by simp; omega⟩ (by simp only [setReg_sp, setReg_mem]; rw [hsp]; exact h.s23)
    (by simp only [setReg_sp, setReg_mem]; rw [hsp, Int.add_assoc]; exact h.s24) ?_
  refine sim_ldpPost h.aligned ⟨by simp, by simp; omega, by simp; omega⟩ ⟨by simp; omega, by simp; omega, by simp; omega⟩ (by simp only [setReg_sp, setReg_mem]; rw [hsp]; exact h.s29)
    (by simp only [setReg_sp, setReg_mem]; rw [hsp]; exact h.s30) ?_
  refine sim_addSP ?_
  refine .stop (r := w.result s) ?_ rfl
  have hz : base nl + 64 + (stackBytes nl : Int) = 0 := by unfold base; omega
  simp [astep, hw, Mach.restored, Word.isCaller, hsp, h.r25, h.r26, h.r27, h.r28, hz]

theorem sim_fprintf {src t} {l c : Nat} (h : m.sp % 16 = 0) (h0 : m.reg 0 = some .file) (h1 : m.reg 1 = some (.sym .errorFormat)) (h2 : m.reg 2 = some (.sym (.loc src)))
    (h3 : m.reg 3 = some (.int l)) (h4 : m.reg 4 = some (.int c)) (h5 : m.reg 5 = some (.sym (.msg t)))
    (k : Sim env rest ((m.note (.report ⟨src, l, c⟩ t)).after none) s o) : Sim env (.bl .fprintf :: rest) m s o :=
  sim_bl h (by simp [acall, h0, h1, h2, h3, h4, h5]) k

theorem sim_abort {msg : Msg} {loc : SrcLoc} (hx : HasExit env nl) (h : Frame env nl m) (hsp : m.sp = base nl) :
    Sim env (doAbort msg loc ++ rest) m s (.abort, m.log ++ [.report loc msg]) := by
  unfold doAbort
  simp only [List.cons_append, List.nil_append]
  refine sim_adr (sim_ldr (w := .sym .stderr) (by simp) (x := .file) (by simp [Mach.load]) (sim_adr (sim_adr (sim_movi (sim_movi (sim_adr
    (sim_fprintf (src := loc.source) (t := msg) (l := loc.line) (c := loc.col) h.aligned (by simp) (by simp) (by simp) (by simp) (by simp) (by simp)
      (sim_movz (sim_exit (w := .int 0) hx ?_ hsp (by simp))))))))))
  exact Frame.setReg (Frame.after (Frame.note (Frame.setReg (Frame.setReg (Frame.setReg (Frame.setReg (Frame.setReg (Frame.setReg (Frame.setReg h)))))))))

end Verif.Backend
