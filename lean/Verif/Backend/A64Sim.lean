import Verif.Backend.A64Thm
/-
The simulation, instruction by instruction.
-/
namespace Verif.Backend
open Verif.Compile
open Verif.Text (Str ch)

variable {sg : Bool} {names : List Str} {block nl : Nat} {ops : Nat → List POp} {locs : Nat → SrcLoc} {code : List Instr} {env : Env} {body : List Line}

local notation "Out" => outp sg names block ops locs code env
local notation "From" => codeFrom sg names block nl ops locs code

theorem ends_label {l r m s o} (h : Ends env (.label l :: r) m s o) : Ends env r m s o := by
  cases h with
  | next e k => cases e; exact k
  | jump e => cases e
  | stop e => cases e

theorem Sim.unlabel {l r m s o} (h : Sim env (.label l :: r) m s o) : Sim env r m s o := by
  rcases h with h | h | h
  · exact .inl h
  · exact .inr (.inl h)
  · exact .inr (.inr (ends_label h))

/-- A jump to an instruction. -/
theorem sim_goto {pc t : Nat} {i : Instr} {fr m s0 s lg rest} (hl : Laid sg names block nl ops locs code env body) (hpc : pc < t) (ht : t < code.length)
    (good : GoodA sg names block nl ops locs code env t) (hi : evOf i = [])
    (k : ∀ r o, seek (.at t) env.whole = some (.label (.at t) :: r) → (∀ m', Ok env nl fr m' → m'.sp = base nl → m'.log = lg → Sim env r m' s o) → Sim env rest m s o) :
    Sim env rest m s (Out pc i fr s0 lg (.ok (.go t fr) s)) := by
  obtain ⟨r, h1, h2⟩ := hl.target ht
  refine k r _ h1 fun m' a1 a2 a3 => ?_
  have := good fr m' s lg a1 a2 a3
  rw [h2] at this
  simp only [outp, Res.bind, contT, instrEvents_ok, hi, List.nil_append, if_pos hpc]
  exact this.unlabel

/-- SetFrameVar, then a check for NULL. -/
theorem sim_set_check {pc : Nat} {i : Instr} {fr : GFrame CBody} {m : Mach} {s s' : St (GFn CBody)} {lg : List Ev} {d v l} (next : GoodA sg names block nl ops locs code env (pc + 1))
    (h : Ok env nl fr m) (hsp : m.sp = base nl) (hr : m.reg 0 = some (.val v)) (hlg : m.log = lg ++ evOf i) :
    Sim env (setVar 0 d :: .cbz 0 l :: From (pc + 1)) m s' (Out pc i fr s lg (gset pc fr d v s')) :=
  out_set fun fr1 lg' hp hl => sim_set h hr hp fun m' a1 a2 a3 a4 =>
    sim_cbz_no (w := .val v) (by rw [a4, hr]) (by simp [Word.is]) (next fr1 m' s' lg' a1 (a2.trans hsp) (by rw [a3, hlg, hl]))

theorem instr_ok (hl : Laid sg names block nl ops locs code env body) (ok : CodeOk nl code) {pc : Nat} {i : Instr} {ls : List Line} (hi : code[pc]? = some i)
    (he : emitInline sg names block pc i = some ls) (next : GoodA sg names block nl ops locs code env (pc + 1))
    (jump : ∀ t, pc < t → t < code.length → GoodA sg names block nl ops locs code env t) {fr : GFrame CBody} {m : Mach} (s : St (GFn CBody)) {lg : List Ev}
    (h : Ok env nl fr m) (hsp : m.sp = base nl) (hlg : m.log = lg) :
    Sim env (ls ++ From (pc + 1)) m s (Out pc i fr s lg (gstep (genBodyA sg names env.m block) env.call i pc fr s)) := by
  have hmem : i ∈ code := List.mem_of_getElem? hi
  have hwr := ok.writes i hmem
  have hlg0 : m.log = lg ++ [] := by rw [hlg, List.append_nil]
  cases i with
  | struct args dest =>
    cases he
    simp only [List.append_assoc, List.cons_append, List.nil_append, gstep]
    cases hv : fr.gets args with
    | none => exact out_wild
    | some xs =>
      refine sim_args (r := 0) (by omega) h hsp hv rfl fun m' a1 a2 a3 a4 a5 => ?_
      refine sim_mov a1.frame.heap (sim_movi (sim_movSp (sim_newStruct a1.frame.aligned (by simp) (by simp) (a := .stk m'.sp) (by simp) a5 ?_)))
      exact sim_set_add next a1.setReg.setReg.setReg.after a2 (by simp) (by simp [a3, hlg, evOf])
  | list args dest =>
    cases he
    simp only [List.append_assoc, List.cons_append, List.nil_append, gstep]
    cases hv : fr.gets args with
    | none => exact out_wild
    | some xs =>
      refine sim_args (r := 9) (by omega) h hsp hv rfl fun m' a1 a2 a3 a4 a5 => ?_
      refine sim_mov a1.frame.heap (sim_movi (sim_movSp (sim_newList a1.frame.aligned (by simp) (by simp) (a := .stk m'.sp) (by simp) a5 ?_)))
      exact sim_set_add next a1.setReg.setReg.setReg.after a2 (by simp) (by simp [a3, hlg, evOf])
  | union tag arg dest =>
    cases he
    simp only [List.cons_append, List.nil_append, gstep]
    cases hv : fr.get arg with
    | none => exact out_wild
    | some v =>
      refine sim_mov h.frame.heap (sim_movi (sim_get (x := v) h.setReg.setReg hv (sim_newUnion (n := tag) (v := v) h.frame.aligned (by simp) (by simp) (by simp) ?_)))
      exact sim_set_next next h.setReg.setReg.setReg.after hsp (by simp) (by simp [hlg, evOf])
  | copy src dest =>
    cases he
    simp only [List.cons_append, List.nil_append, gstep]
    cases hv : fr.get src with
    | none => exact out_wild
    | some v => exact sim_get h hv (sim_set_next next h.setReg hsp (by simp) (by simp [hlg, evOf]))
  | refValue dest =>
    cases he
    simp only [List.cons_append, List.nil_append, gstep]
    exact sim_mov h.frame.heap (sim_newRef h.frame.aligned (by simp) (sim_set_next next h.setReg.after hsp (by simp) (by simp [hlg, evOf])))
  | type dest =>
    cases he
    simp only [List.cons_append, List.nil_append, gstep]
    exact sim_adr (sim_ldr (w := .sym .genericType) (x := .val .type) (by simp) (by simp [Mach.load])
      (sim_set_next next h.setReg.setReg hsp (by simp) (by simp [hlg, evOf])))
  | literal lts dest =>
    have hs : seek (.letters pc) env.whole = _ := hl.seekIn hi he rfl (by simp) (by simp)
    cases he
    simp only [List.cons_append, List.nil_append, gstep] at hs ⊢
    refine sim_letters (sim_mov h.frame.heap (sim_movi (sim_adr (sim_newLiteral h.frame.aligned (by simp) (by simp) (by simp) (hs.trans (seek_here rfl)) rfl ?_))))
    exact sim_set_next next h.setReg.setReg.setReg.after hsp (by simp) (by simp [hlg, evOf])
  | nop =>
    cases he
    simp only [List.nil_append, gstep]
    exact out_go fun lg' e => next fr m s lg' h hsp (by rw [hlg, e]; simp [evOf])
  | ret v =>
    cases he
    simp only [List.cons_append, List.nil_append, gstep]
    cases hv : fr.get v with
    | none => exact out_wild
    | some x =>
      refine sim_get h hv ?_
      have := sim_exit (rest := From (pc + 1)) (s := s) hl.exit (m := m.setReg 0 (.val x)) h.setReg.frame hsp (w := .val x) (by simp)
      simpa [outp, Res.bind, contT, orWild, Word.result, instrEvents_ok, evOf, hlg] using this
  | goto t =>
    cases he
    simp only [List.cons_append, List.nil_append, gstep]
    have ht := ok.jumps pc _ hi t (by simp [Instr.succ])
    exact sim_goto hl ht.1 ht.2 (jump t ht.1 ht.2) rfl fun r o h1 h2 => sim_b h1 (h2 m h hsp hlg)
  | structAccess obj tag dest =>
    obtain ⟨tl, hu⟩ := hl.err hi (l := .u pc) rfl rfl (by simp)
    cases he
    simp only [List.cons_append, List.nil_append, gstep]
    cases hv : fr.get obj with
    | none => exact out_wild
    | some v =>
      simp only [orWild]
      refine sim_get h hv (sim_movi ?_)
      have hc : acall env ((m.setReg 0 (.val v)).setReg 1 (.int tag)) s .structField = doneNullable ((m.setReg 0 (.val v)).setReg 1 (.int tag)) s (structField v tag s) := by
        simp [acall]
      cases hg : structField v tag s with
      | ok w s' =>
        rw [hg] at hc
        refine sim_bl h.frame.aligned hc ?_
        exact sim_set_check next h.setReg.setReg.after hsp (by simp) (by simp [hlg, evOf])
      | abort =>
        rw [hg] at hc
        refine sim_bl h.frame.aligned hc (sim_setw (w := .int 0) h.setReg.setReg.after.frame (by simp) (hwr dest (by simp [Instr.writes])) fun m' a1 a2 a3 a4 => ?_)
        exact sim_cbz_yes (w := .int 0) (by rw [a4]; simp) (by simp [Word.is]) (hu.trans (seek_here rfl)) (sim_err hl a1 (a2.trans hsp) rfl (a3.trans hlg0))
      | crash => exact out_crash
      | wild => exact out_wild
      | oof =>
        rw [hg] at hc
        exact out_oof (sim_bl_stop h.frame.aligned hc hlg.symm)
      | stop calls =>
        rw [hg] at hc
        exact out_stop (sim_bl_stop h.frame.aligned hc hlg.symm)
  | unionAccess obj tag dest =>
    obtain ⟨tl, hu⟩ := hl.err hi (l := .u pc) rfl rfl (by simp)
    obtain ⟨tl', hb⟩ := hl.err hi (l := .bt pc) rfl rfl (by simp)
    have hb' : seek (.bt pc) env.whole = some (.label (.bt pc) :: .strz rLocals (8 * dest) :: (doAbort .wrongUnionTag (locs pc) ++ tl')) := by
      rw [hb]
      simp [emitErrors, doAbort, seek, plain_defines]
    have hd : dest < nl := hwr dest (by simp [Instr.writes])
    cases he
    simp only [List.cons_append, List.nil_append, gstep]
    cases hv : fr.get obj with
    | none => exact out_wild
    | some v =>
      simp only [orWild, unionField]
      refine sim_get h hv (sim_movi ?_)
      cases hg : strict s v with
      | ok x s' =>
        cases x with
        | union t a =>
          by_cases e : t = tag
          · have hc : acall env ((m.setReg 0 (.val v)).setReg 1 (.int tag)) s .unionField = done ((m.setReg 0 (.val v)).setReg 1 (.int tag)) (.val a) s' := by
              simp [acall, unionFieldPtr, hg, e]
            simp only [Res.bind, if_pos e]
            refine sim_bl h.frame.aligned hc ?_
            refine out_set fun fr1 lg' hp hlg' => sim_set h.setReg.setReg.after (x := a) (by simp) hp fun m' a1 a2 a3 a4 =>
              sim_cbz_no (w := .val a) (by rw [a4]; simp) (by simp [Word.is]) (sim_cmp (w := .val a) (by rw [a4]; simp) (sim_beq_no rfl (by simp [Word.is]) ?_))
            exact next fr1 _ s' lg' a1.flags (a2.trans hsp) (a3.trans (by simp [hlg, hlg', evOf]))
          · have hc : acall env ((m.setReg 0 (.val v)).setReg 1 (.int tag)) s .unionField = done ((m.setReg 0 (.val v)).setReg 1 (.int tag)) (.int 2) s' := by
              simp [acall, unionFieldPtr, hg, e]
            simp only [Res.bind, if_neg e]
            refine sim_bl h.frame.aligned hc (sim_setw (w := .int 2) h.setReg.setReg.after.frame (by simp) hd fun m' a1 a2 a3 a4 => ?_)
            refine sim_cbz_no (w := .int 2) (by rw [a4]; simp) (by simp [Word.is]) (sim_cmp (w := .int 2) (by rw [a4]; simp)
              (sim_beq_yes rfl (by simp [Word.is]) hb' (sim_strz (a := base nl + 64) a1.locals (onStack_local a1.flags hd) ?_)))
            exact sim_err hl (Frame.setMem a1.flags (.inr (by omega))) (a2.trans hsp) (by simp [abortMsg, hv, hg]) (a3.trans hlg0)
        | _ => exact out_crash
      | abort =>
        have hc : acall env ((m.setReg 0 (.val v)).setReg 1 (.int tag)) s .unionField = done ((m.setReg 0 (.val v)).setReg 1 (.int tag)) (.int 0) s := by
          simp [acall, unionFieldPtr, hg]
        refine sim_bl h.frame.aligned hc (sim_setw (w := .int 0) h.setReg.setReg.after.frame (by simp) hd fun m' a1 a2 a3 a4 => ?_)
        exact sim_cbz_yes (w := .int 0) (by rw [a4]; simp) (by simp [Word.is]) (hu.trans (seek_here rfl))
          (sim_err hl a1 (a2.trans hsp) (by simp [abortMsg, hv, hg]) (a3.trans hlg0))
      | crash => exact out_crash
      | wild => exact out_wild
      | oof =>
        have hc : acall env ((m.setReg 0 (.val v)).setReg 1 (.int tag)) s .unionField = .stop .oof := by simp [acall, unionFieldPtr, hg]
        exact out_oof (sim_bl_stop h.frame.aligned hc hlg.symm)
      | stop calls =>
        have hc : acall env ((m.setReg 0 (.val v)).setReg 1 (.int tag)) s .unionField = .stop (.stop calls) := by simp [acall, unionFieldPtr, hg]
        exact out_stop (sim_bl_stop h.frame.aligned hc hlg.symm)
  | func c off scope dest =>
    have hs : seek (.exe pc) env.whole = _ := hl.seekIn hi he rfl (by simp) (by simp)
    simp only [emitInline, Option.bind_eq_some_iff, Option.map_eq_some_iff] at he
    obtain ⟨run, hrun, vs, hvs, rfl⟩ := he
    have hcap := ok.captures _ _ _ _ hmem
    have hvs' : vs = scope := by
      unfold firstVars at hvs
      rw [hcap, if_pos (Nat.le_refl _), ← hcap, List.take_length] at hvs
      exact (Option.some.inj hvs).symm
    subst hvs'
    simp only [List.append_assoc, List.cons_append, List.nil_append, gstep] at hs ⊢
    cases hv : fr.gets vs with
    | none => exact out_wild
    | some xs =>
      simp only [orWild]
      refine sim_exe (sim_args (r := 0) (by omega) h hsp hv hcap.symm fun m' a1 a2 a3 a4 a5 => ?_)
      refine sim_mov a1.frame.heap (sim_adr (sim_addi (b := 0) (by simp [a1.frame.block]) (sim_movSp
        (sim_newFunc (off := off) (a := .stk m'.sp) a1.frame.aligned (by simp) (by simp) (by simp) (by simp) (hs.trans (seek_here rfl)) a5 ?_))))
      have hb : genBodyA sg names env.m block c off = .gen env.m run := by rw [genBodyA, hrun]; rfl
      rw [hb]
      exact sim_set_add next a1.setReg.setReg.setReg.setReg.note.after a2 (by simp) (by simp [a3, hlg, evOf])
  | call f args dest =>
    obtain ⟨tl, hu⟩ := hl.err hi (l := .abort pc) rfl rfl (by simp)
    have hd : dest < nl := hwr dest (by simp [Instr.writes])
    cases he
    simp only [List.append_assoc, List.cons_append, List.nil_append, gstep]
    cases hf : fr.get f with
    | none => exact out_wild
    | some fv =>
      simp only [orWild]
      cases hv : fr.gets args with
      | none => exact out_wild
      | some xs =>
        simp only [orWild]
        refine sim_args (r := 0) (by omega) h hsp hv rfl fun m' a1 a2 a3 a4 a5 => ?_
        refine sim_mov a1.frame.heap (sim_mov (w := env.profile) (by simp [a1.frame.profile]) (sim_get (x := fv) a1.setReg.setReg hf (sim_movi (sim_movSp ?_))))
        have hal := a1.frame.aligned
        have hc : acall env (((((m'.setReg 0 .heap).setReg 1 env.profile).setReg 2 (.val fv)).setReg 3 (.int args.length)).setReg 4 (.stk m'.sp)) s .call =
            doneNullable ((((((m'.setReg 0 .heap).setReg 1 env.profile).setReg 2 (.val fv)).setReg 3 (.int args.length)).setReg 4 (.stk m'.sp)).note .called) s (env.call fv xs s) := by
          have : env.isProfile env.profile = true := by cases hp : env.profiling <;> simp [Env.isProfile, Env.profile, hp]
          simp [acall, a5, this]
        have hbal := base_al nl
        have hsp2 : m'.sp + (stackBytes args.length : Nat) = base nl := by omega
        cases hg : env.call fv xs s with
        | ok w s' =>
          rw [hg] at hc
          refine sim_bl hal hc ?_
          refine out_set fun fr1 lg' hp hlg' => sim_set a1.setReg.setReg.setReg.setReg.setReg.note.after (x := w) (by simp) hp fun m2 b1 b2 b3 b4 =>
            sim_addSP (sim_cbz_no (w := .val w) (by simp [b4]) (by simp [Word.is]) (next fr1 _ s' lg' (b1.setSp ?_ ?_) ?_ ?_))
          · rw [b2]; simp; omega
          · rw [b2]; simp; omega
          · show m2.sp + _ = _; rw [b2]; simp; omega
          · show m2.log = _; rw [b3]; simp [a3, hlg, hlg', evOf]
        | abort =>
          rw [hg] at hc
          refine sim_bl hal hc (sim_setw (w := .int 0) a1.setReg.setReg.setReg.setReg.setReg.note.after.frame (by simp) hd fun m2 b1 b2 b3 b4 => ?_)
          refine sim_addSP (sim_cbz_yes (w := .int 0) (by simp [b4]) (by simp [Word.is]) (hu.trans (seek_here rfl)) (sim_err hl (b1.setSp ?_ ?_) ?_ rfl ?_))
          · rw [b2]; simp; omega
          · rw [b2]; simp; omega
          · show m2.sp + _ = _; rw [b2]; simp; omega
          · show m2.log = _; rw [b3]; simp [a3, hlg, evOf]
        | crash => exact out_crash
        | wild => exact out_wild
        | oof =>
          rw [hg] at hc
          exact out_oof (sim_bl_stop hal hc (by simp [a3, hlg]))
        | stop calls =>
          rw [hg] at hc
          exact out_stop (sim_bl_stop hal hc (by simp [a3, hlg]))
  | tailCall f args =>
    obtain ⟨tl, hu⟩ := hl.err hi (l := .u pc) rfl rfl (by simp)
    cases he
    simp only [List.append_assoc, List.cons_append, List.nil_append, gstep]
    cases hf : fr.get f with
    | none => exact out_wild
    | some fv =>
      simp only [orWild]
      refine sim_get h hf ?_
      cases hg : strict s fv with
      | ok x s' =>
        cases x with
        | fn g =>
          simp only [Res.bind]
          cases hv : fr.gets args with
          | none => exact out_wild
          | some xs =>
            simp only [orWild]
            have hc : acall env (m.setReg 0 (.val fv)) s .funcFunction = done (m.setReg 0 (.val fv)) (.fn g) s' := by simp [acall, hg]
            refine sim_bl h.frame.aligned hc (sim_cbz_no (w := .fn g) (by simp) (by simp [Word.is]) (sim_mov (w := .fn g) (by simp)
              (sim_mov (w := .heap) (by simp [h.frame.heap]) (sim_get (x := fv) h.setReg.after.setReg.setReg hf ?_))))
            refine sim_args (r := 9) (by omega) h.setReg.after.setReg.setReg.setReg hsp hv rfl fun m' a1 a2 a3 a4 a5 => ?_
            have r0 : m'.reg 0 = some .heap := by rw [a4 0 (by omega)]; simp
            have r1 : m'.reg 1 = some (.fn g) := by rw [a4 1 (by omega)]; simp
            have r2 : m'.reg 2 = some (.val fv) := by rw [a4 2 (by omega)]; simp
            refine sim_movi (sim_movSp (sim_tailCall (n := args.length) (a := .stk m'.sp) a1.frame.aligned (by simp [r0]) (by simp [r1]; rfl) (by simp [r2]; rfl) (by simp) (by simp) a5 (sim_addSP ?_)))
            have hbal := base_al nl
            have hsp2 : m'.sp + (stackBytes args.length : Nat) = base nl := by omega
            have := sim_exit (rest := From (pc + 1)) (s := s') hl.exit
              (m := { ((m'.setReg 3 (.int args.length)).setReg 4 (.stk m'.sp)).after (some (.tail fv xs)) with sp := m'.sp + (stackBytes args.length : Nat) })
              (a1.setReg.setReg.after.frame.setSp (by omega) (by omega)) hsp2 (w := .tail fv xs) (by simp)
            simpa [outp, Res.bind, contT, orWild, Word.result, instrEvents_ok, evOf, hlg, a3] using this
        | _ => exact out_crash
      | abort =>
        have hc : acall env (m.setReg 0 (.val fv)) s .funcFunction = done (m.setReg 0 (.val fv)) (.int 0) s := by simp [acall, hg]
        exact sim_bl h.frame.aligned hc (sim_cbz_yes (w := .int 0) (by simp) (by simp [Word.is]) (hu.trans (seek_here rfl))
          (sim_err hl h.setReg.after.frame hsp rfl hlg0))
      | crash => exact out_crash
      | wild => exact out_wild
      | oof =>
        have hc : acall env (m.setReg 0 (.val fv)) s .funcFunction = .stop .oof := by simp [acall, hg]
        exact out_oof (sim_bl_stop h.frame.aligned hc hlg.symm)
      | stop calls =>
        have hc : acall env (m.setReg 0 (.val fv)) s .funcFunction = .stop (.stop calls) := by simp [acall, hg]
        exact out_stop (sim_bl_stop h.frame.aligned hc hlg.symm)
  | refDef ref value =>
    obtain ⟨tl, hu⟩ := hl.err hi (l := .v pc) rfl rfl (by simp)
    cases he
    simp only [List.cons_append, List.nil_append, gstep]
    cases hr : fr.get (.loc ref) with
    | none => exact out_wild
    | some r =>
      simp only [orWild]
      cases hv : fr.get value with
      | none => exact out_wild
      | some v =>
        simp only [orWild]
        refine sim_mov h.frame.heap (sim_get (x := r) h.setReg hr (sim_get (x := v) h.setReg.setReg hv ?_))
        cases hg : assignRef r v s with
        | ok u s' =>
          have hc : acall env (((m.setReg 0 .heap).setReg 1 (.val r)).setReg 2 (.val v)) s .assignRef =
            done (((m.setReg 0 .heap).setReg 1 (.val r)).setReg 2 (.val v)) (.int 1) s' := by simp [acall, hg]
          refine sim_bl h.frame.aligned hc (sim_cbz_no (w := .int 1) (by simp) (by simp [Word.is]) (out_go fun lg' e => ?_))
          exact next fr _ s' lg' h.setReg.setReg.setReg.after hsp (by simp [hlg, e, evOf])
        | abort =>
          have hc : acall env (((m.setReg 0 .heap).setReg 1 (.val r)).setReg 2 (.val v)) s .assignRef =
            done (((m.setReg 0 .heap).setReg 1 (.val r)).setReg 2 (.val v)) (.int 0) s := by simp [acall, hg]
          exact sim_bl h.frame.aligned hc (sim_cbz_yes (w := .int 0) (by simp) (by simp [Word.is]) (hu.trans (seek_here rfl))
            (sim_err hl h.setReg.setReg.setReg.after.frame hsp rfl hlg0))
        | crash => exact out_crash
        | wild => exact out_wild
        | oof =>
          have hc : acall env (((m.setReg 0 .heap).setReg 1 (.val r)).setReg 2 (.val v)) s .assignRef = .stop .oof := by simp [acall, hg]
          exact out_oof (sim_bl_stop h.frame.aligned hc hlg.symm)
        | stop calls =>
          have hc : acall env (((m.setReg 0 .heap).setReg 1 (.val r)).setReg 2 (.val v)) s .assignRef = .stop (.stop calls) := by simp [acall, hg]
          exact out_stop (sim_bl_stop h.frame.aligned hc hlg.symm)
  | select c nt targets default =>
    obtain ⟨tl, hu⟩ := hl.err hi (l := .u pc) rfl rfl (by simp)
    have hs := fun k : Nat => hl.seekIn hi he (l := .sub pc k) rfl (by simp) (by simp)
    have htab := ok.tables _ _ _ _ hmem
    cases he
    simp only [List.append_assoc, List.cons_append, List.nil_append, gstep] at hs ⊢
    cases hv : fr.get c with
    | none => exact out_wild
    | some v =>
      simp only [orWild, tagBelow]
      refine sim_get h hv ?_
      cases hg : unionTag v s with
      | ok tag s' =>
        simp only [Res.bind]
        by_cases hlt : tag < nt
        case neg => rw [if_neg hlt]; exact out_crash
        · rw [if_pos hlt]
          have hc : acall env (m.setReg 0 (.val v)) s .unionTag = done (m.setReg 0 (.val v)) (.int tag) s' := by simp [acall, hg]
          obtain ⟨t, e1, e2⟩ := Select.C38_agrees_with_interp htab.1 htab.2.1 default nt htab.2.2 tag hlt
          simp only [e2]
          have hmt : t ∈ (Instr.select c nt targets default).succ pc := by
            cases ((Select.C38_decision_tree htab.1 default nt htab.2.2 tag hlt).1 t).mp e1 with
            | listed hb _ => exact List.mem_append_left _ (List.mem_map.mpr ⟨_, hb, rfl⟩)
            | default _ => simp [Instr.succ]
          have ht := ok.jumps pc _ hi t hmt
          refine sim_bl h.frame.aligned hc (sim_cmp (w := .int tag) (by simp) (sim_beq_no rfl (by simp [Word.is]) ?_))
          refine sim_goto hl ht.1 ht.2 (jump t ht.1 ht.2) rfl fun r o h1 h2 => ?_
          refine sim_search (frag := Select.emitSelect nt targets default) (lg := lg) ?_ (Select.C38_decision_tree htab.1 default nt htab.2.2 tag hlt).2 h1 h2 _ _ [] rfl rfl none _
            h.setReg.after.flags hsp (by simp [hlg]) (by simp) (by simp) e1
          intro l pre post e hni
          rw [hs l, e]
          have hg : (getVar 0 c).defines ≠ some (.sub pc l) := by rw [getVar_defines]; simp
          simp only [seek, plain_defines, if_neg hg, List.map_append, List.map_cons, searchLine, List.append_assoc, List.cons_append]
          simp only [reduceCtorEq, if_false]
          rw [seek_append, seek_here rfl]
          rw [labs_search]
          simpa using hni
      | abort =>
        have hc : acall env (m.setReg 0 (.val v)) s .unionTag = done (m.setReg 0 (.val v)) (.int (-1)) s := by simp [acall, hg]
        exact sim_bl h.frame.aligned hc (sim_cmp (w := .int (-1)) (by simp) (sim_beq_yes rfl (by simp [Word.is]) (hu.trans (seek_here rfl))
          (sim_err hl h.setReg.after.flags.frame hsp rfl hlg0)))
      | crash => exact out_crash
      | wild => exact out_wild
      | oof =>
        have hc : acall env (m.setReg 0 (.val v)) s .unionTag = .stop .oof := by simp [acall, hg]
        exact out_oof (sim_bl_stop h.frame.aligned hc hlg.symm)
      | stop calls =>
        have hc : acall env (m.setReg 0 (.val v)) s .unionTag = .stop (.stop calls) := by simp [acall, hg]
        exact out_stop (sim_bl_stop h.frame.aligned hc hlg.symm)

/-- From every instruction on. -/
theorem asim (hl : Laid sg names block nl ops locs code env body) (ok : CodeOk nl code) :
    (n t : Nat) → n = code.length - t → GoodA sg names block nl ops locs code env t
  | n, t, hn => by
    by_cases ht : t < code.length
    · intro fr m s lg h hsp hlg
      have hi := List.getElem?_eq_getElem ht
      obtain ⟨ls, he, hfrom⟩ := hl.from hi
      rw [hfrom, gexec_at hi, gtrace_at hi]
      refine sim_label (sim_check hl hi he h fun m' a1 a2 a3 => ?_)
      have := instr_ok hl ok hi he (asim hl ok (n - 1) (t + 1) (by omega)) (fun t' h1 h2 => asim hl ok (code.length - t') t' rfl) s a1 (a2.trans hsp) a3
      rw [outp, hlg, List.append_assoc] at this
      exact this
    · intro fr m s lg _ _ _
      rw [gexec, dif_neg ht]
      exact .wild
termination_by n => n

/-! ### Whole functions -/

theorem sim_prologue {rest s o} (k : ∀ m, Ok env nl ⟨env.statics, env.args, List.replicate nl none⟩ m → m.sp = base nl → m.log = [] → Sim env rest m s o) :
    Sim env (prologue nl ++ rest) (entry env) s o := by
  have hb : (0 : Int) - (stackBytes nl : Nat) - (64 : Nat) = base nl := by unfold base; omega
  have h1 := base_al nl
  have h2 := base_neg nl
  have hz (k : Int) (hk : 0 < k) : ¬ base nl = base nl + k := by omega
  unfold prologue
  simp only [List.cons_append, List.nil_append]
  refine sim_subSP (sim_stpPre (w1 := .caller 29) (w2 := .caller 30) (sp := base nl) rfl rfl hb.symm h1 ?_ ?_ ?_)
  · exact ⟨by simp; try omega, by omega, by omega⟩
  · exact ⟨by simp; try omega, by omega, by omega⟩
  refine sim_movSp (sim_stp (w1 := .caller 19) (w2 := .caller 20) (by simp [entry]) (by simp [entry]) h1 ⟨by simp; omega, by simp; omega, by simp; omega⟩
    ⟨by simp; omega, by simp; omega, by simp; omega⟩ ?_)
  refine sim_stp (w1 := .caller 21) (w2 := .caller 22) (by simp [entry]) (by simp [entry]) h1 ⟨by simp; omega, by simp; omega, by simp; omega⟩
    ⟨by simp; omega, by simp; omega, by simp; omega⟩ ?_
  refine sim_stp (w1 := .caller 23) (w2 := .caller 24) (by simp [entry]) (by simp [entry]) h1 ⟨by simp; omega, by simp; omega, by simp; omega⟩
    ⟨by simp; omega, by simp; omega, by simp; omega⟩ ?_
  refine sim_ldr (w := .self) (x := .statv 0) (by simp [entry]) (by simp [Mach.load]) (sim_ldr (w := .self) (x := .block 0) (by simp [entry]) (by simp [Mach.load]) ?_)
  refine sim_mov (w := .heap) (by simp [entry]) (sim_mov (w := .argv 0) (by simp [entry]) (sim_mov (w := env.profile) (by simp [entry]) (sim_addSp (k _ ?_ rfl rfl))))
  refine ⟨?_, rfl, rfl, by simp, fun i v hi => ?_⟩
  · constructor <;> simp [entry, h1, hz, Int.add_assoc]
  · rw [List.getElem?_replicate] at hi
    split at hi
    · cases hi
    · cases hi

end Verif.Backend
