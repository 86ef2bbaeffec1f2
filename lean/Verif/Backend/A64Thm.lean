import Verif.Backend.A64Layout
/-
The emitted assembly for a code block does what the interpreter does with the code.
-/
namespace Verif.Backend
open Verif.Compile
open Verif.Text (Str ch)

/-! ### Calls -/

section
variable {env : Env} {rest : List Line} {m : Mach} {s : St (GFn CBody)} {o : GRes CBody (GOut CBody) × List Ev}

theorem sim_newStruct {n : Nat} {a vs} (h : m.sp % 16 = 0) (h0 : m.reg 0 = some .heap) (h1 : m.reg 1 = some (.int n)) (h2 : m.reg 2 = some a)
    (h3 : m.array env a n = some vs) (k : Sim env rest (m.after (some (.val (.struct vs)))) s o) : Sim env (.bl .newStruct :: rest) m s o :=
  sim_bl h (by simp [acall, h0, h1, h2, h3, done]) k

theorem sim_newList {n : Nat} {a vs} (h : m.sp % 16 = 0) (h0 : m.reg 0 = some .heap) (h1 : m.reg 1 = some (.int n)) (h2 : m.reg 2 = some a)
    (h3 : m.array env a n = some vs) (k : Sim env rest (m.after (some (.val (newList vs)))) s o) : Sim env (.bl .newList :: rest) m s o :=
  sim_bl h (by simp [acall, h0, h1, h2, h3, done]) k

theorem sim_newUnion {n : Nat} {v} (h : m.sp % 16 = 0) (h0 : m.reg 0 = some .heap) (h1 : m.reg 1 = some (.int n)) (h2 : m.reg 2 = some (.val v))
    (k : Sim env rest (m.after (some (.val (.union n v)))) s o) : Sim env (.bl .newUnion :: rest) m s o :=
  sim_bl h (by simp [acall, h0, h1, h2, done]) k

theorem sim_newRef (h : m.sp % 16 = 0) (h0 : m.reg 0 = some .heap) (k : Sim env rest (m.after (some (.val (newRef s).1))) (newRef s).2 o) :
    Sim env (.bl .newRef :: rest) m s o :=
  sim_bl h (by simp [acall, h0, done]) k

theorem sim_newLiteral {n : Nat} {l pc ls tl} (h : m.sp % 16 = 0) (h0 : m.reg 0 = some .heap) (h1 : m.reg 1 = some (.int n)) (h2 : m.reg 2 = some (.sym (.lbl l)))
    (h3 : seek l env.whole = some (.letters pc ls :: tl)) (h4 : n = ls.length) (k : Sim env rest (m.after (some (.val (newLiteral ls)))) s o) :
    Sim env (.bl .newLiteral :: rest) m s o :=
  sim_bl h (by simp [acall, h0, h1, h2, h3, h4, done]) k

theorem sim_newFunc {off pc na ns l a vs run tl} (h : m.sp % 16 = 0) (h0 : m.reg 0 = some .heap) (h1 : m.reg 1 = some (.sym (.lbl l))) (h2 : m.reg 2 = some (.block off))
    (h3 : m.reg 3 = some a) (h4 : seek l env.whole = some (.exe pc na ns run :: tl)) (h5 : m.array env a ns = some vs)
    (k : Sim env rest ((m.note (.made off)).after (some (.val (.fn (.func na (.gen env.m run) vs))))) s o) : Sim env (.bl .newFunc :: rest) m s o :=
  sim_bl h (by simp [acall, h0, h1, h2, h3, h4, h5, done]) k

theorem sim_tailCall {n : Nat} {g f a vs} (h : m.sp % 16 = 0) (h0 : m.reg 0 = some .heap) (h1 : m.reg 1 = some (.fn g)) (h2 : m.reg 2 = some (.val f))
    (h3 : m.reg 3 = some (.int n)) (h4 : m.reg 4 = some a) (h5 : m.array env a n = some vs) (k : Sim env rest (m.after (some (.tail f vs))) s o) :
    Sim env (.bl .tailCall :: rest) m s o :=
  sim_bl h (by simp [acall, h0, h1, h2, h3, h4, h5, done]) k

/-- A call that returns a value or NULL, where the reference has a result `g`: `ok` and `abort` go on. -/
theorem sim_nullable {f lg} {g : GRes CBody (GVal CBody)} {K : GVal CBody → St (GFn CBody) → GRes CBody (GOut CBody)} {L : List Ev} (h : m.sp % 16 = 0)
    (h2 : acall env m s f = doneNullable m s g)
    (hok : ∀ v s', g = .ok v s' → Sim env rest (m.after (some (.val v))) s' o)
    (hab : g = .abort → Sim env rest (m.after (some (.int 0))) s o)
    (ho : (∀ v s', g ≠ .ok v s') → g ≠ .abort → o = (g.bind K, lg ++ L)) (hL : (∀ v s', g ≠ .ok v s') → g ≠ .abort → L = []) (hlg : lg = m.log) :
    Sim env (.bl f :: rest) m s o := by
  cases g with
  | ok v s' => exact sim_bl h (h2.trans rfl) (hok v s' rfl)
  | abort => exact sim_bl h (h2.trans rfl) (hab rfl)
  | crash => rw [ho (by simp) (by simp)]; exact .crash
  | wild => rw [ho (by simp) (by simp)]; exact .wild
  | oof =>
    rw [ho (by simp) (by simp), hL (by simp) (by simp), List.append_nil]
    exact sim_bl_stop h (h2.trans rfl) hlg
  | stop calls =>
    rw [ho (by simp) (by simp), hL (by simp) (by simp), List.append_nil]
    exact sim_bl_stop h (h2.trans rfl) hlg
end

/-! ### Profile operations -/

variable {sg : Bool} {names : List Str} {block nl : Nat} {ops : Nat → List POp} {locs : Nat → SrcLoc} {code : List Instr} {env : Env} {body : List Line}

theorem profile_prof (h : env.profiling = true) : env.profile = .prof := by simp [Env.profile, h]

theorem sim_op {fr m s o rest} (op : POp) (hp : env.profiling = true) (h : Ok env nl fr m)
    (k : ∀ m', Ok env nl fr m' → m'.sp = m.sp → m'.log = m.log ++ [.prof op] → Sim env rest m' s o) : Sim env (emitOp op ++ rest) m s o := by
  have hprof := h.frame.profile
  rw [profile_prof hp] at hprof
  cases op with
  | enter n =>
    refine sim_mov hprof (sim_mov (w := .block 0) (by simp [h.frame.block]) (sim_addi (b := 0) (by simp) (sim_bl h.frame.aligned
      (m' := Mach.after (Mach.note (Mach.setReg (Mach.setReg (Mach.setReg m _ _) _ _) _ _) _) none) (by simp [acall]; rfl) (k _ ?_ rfl ?_))))
    · exact h.setReg.setReg.setReg.note.after
    · simp
  | replace n =>
    refine sim_mov hprof (sim_mov (w := .block 0) (by simp [h.frame.block]) (sim_addi (b := 0) (by simp) (sim_bl h.frame.aligned
      (m' := Mach.after (Mach.note (Mach.setReg (Mach.setReg (Mach.setReg m _ _) _ _) _ _) _) none) (by simp [acall]; rfl) (k _ ?_ rfl ?_))))
    · exact h.setReg.setReg.setReg.note.after
    · simp
  | exit =>
    refine sim_mov hprof (sim_bl h.frame.aligned
      (m' := Mach.after (Mach.note (Mach.setReg m _ _) _) none) (by simp [acall]; rfl) (k _ ?_ rfl ?_))
    · exact h.setReg.note.after
    · simp
  | sample n =>
    refine sim_mov hprof (sim_movi (sim_bl h.frame.aligned
      (m' := Mach.after (Mach.note (Mach.setReg (Mach.setReg m _ _) _ _) _) none) (by simp [acall]; rfl) (k _ ?_ rfl ?_)))
    · exact h.setReg.setReg.note.after
    · simp

theorem sim_ops {fr s o rest} (hp : env.profiling = true) : (os : List POp) → (m : Mach) → Ok env nl fr m →
    (∀ m', Ok env nl fr m' → m'.sp = m.sp → m'.log = m.log ++ os.map .prof → Sim env rest m' s o) → Sim env (os.flatMap emitOp ++ rest) m s o
  | [], m, h, k => k m h rfl (by simp)
  | op :: os, m, h, k => by
    rw [List.flatMap_cons, List.append_assoc]
    refine sim_op op hp h fun m1 h1 h2 h3 => sim_ops hp os m1 h1 fun m2 g1 g2 g3 => k m2 g1 (g2.trans h2) ?_
    rw [g3, h3]; simp

/-- The check for profiling. -/
theorem sim_check {t : Nat} {i ls fr m s o} (hl : Laid sg names block nl ops locs code env body) (hi : code[t]? = some i) (he : emitInline sg names block t i = some ls)
    (h : Ok env nl fr m)
    (k : ∀ m', Ok env nl fr m' → m'.sp = m.sp → m'.log = m.log ++ profEvents env.profiling (ops t) →
      Sim env (ls ++ codeFrom sg names block nl ops locs code (t + 1)) m' s o) :
    Sim env (emitCheck t (ops t) ++ (ls ++ codeFrom sg names block nl ops locs code (t + 1))) m s o := by
  by_cases ho : ops t = []
  · rw [emitCheck, if_pos ho]
    exact k m h rfl (by simp [profEvents, ho])
  · rw [emitCheck, if_neg ho]
    cases hp : env.profiling with
    | false =>
      refine sim_cbnz_no h.frame.profile (by simp [Env.profile, hp, Word.is]) (sim_label (k m h rfl (by simp [profEvents, hp])))
    | true =>
      obtain ⟨tl, hs⟩ := hl.p hi ho
      refine sim_cbnz_yes h.frame.profile (by simp [Env.profile, hp, Word.is]) hs (sim_ops hp _ m h fun m' h1 h2 h3 =>
        sim_b (hl.pp hi he ho) (k m' h1 h2 (by rw [h3]; simp [profEvents, hp])))

/-! ### Selects -/

theorem select_seek {l : Nat} : {xs r : List Select.Asm} → Select.seek l xs = some r → ∃ pre, xs = pre ++ .label l :: r
  | [], r, h => by simp [Select.seek] at h
  | x :: xs, r, h => by
    cases x with
    | label l' =>
      simp only [Select.seek] at h
      split at h
      · rename_i e
        cases h
        exact ⟨[], by rw [e]; rfl⟩
      · obtain ⟨pre, e⟩ := select_seek h
        exact ⟨.label l' :: pre, by rw [e]; rfl⟩
    | _ =>
      simp only [Select.seek] at h
      obtain ⟨pre, e⟩ := select_seek h
      rw [e]
      exact ⟨_ :: pre, rfl⟩

/-- The decision tree reaches the jump to `t`. -/
theorem sim_search {pc tag t : Nat} {fr s o} {frag : List Select.Asm} {tl : List Line}
    (hseek : ∀ l pre post, frag = pre ++ .label l :: post → l ∉ Select.labels pre → seek (.sub pc l) env.whole = some (.label (.sub pc l) :: (post.map (searchLine pc) ++ tl)))
    (hnd : (Select.labels frag).Nodup)
    {r} (hr : seek (.at t) env.whole = some (.label (.at t) :: r)) (k : ∀ m, Ok env nl fr m → m.sp = base nl → m.log = lg → Sim env r m s o) :
    (n : Nat) → (xs done : List Select.Asm) → n = xs.length → frag = done ++ xs → (flags : Option Nat) → (m : Mach) → Ok env nl fr m → m.sp = base nl → m.log = lg →
    m.reg 0 = some (.int tag) → (∀ k, flags = some k → m.flags = some (.int tag, (k : Int))) → Select.exec tag flags xs = some t → Sim env (xs.map (searchLine pc) ++ tl) m s o
  | n, [], done, hn, hf, flags, m, h1, h2, h3, h4, h5, he => by simp [Select.exec] at he
  | n, x :: xs, done, hn, hf, flags, m, h1, h2, h3, h4, h5, he => by
    have hf' : frag = (done ++ [x]) ++ xs := by rw [hf]; simp
    simp only [List.length_cons] at hn
    cases x with
    | b t' =>
      simp only [Select.exec, Option.some.injEq] at he
      subst he
      exact sim_b hr (k m h1 h2 h3)
    | cmp j =>
      rw [Select.exec] at he
      exact sim_cmp h4 (sim_search hseek hnd hr k (n - 1) xs _ (by omega) hf' (some j) _ h1.flags h2 h3 h4 (fun k' e => by cases e; rfl) he)
    | label l =>
      rw [Select.exec] at he
      exact sim_label (sim_search hseek hnd hr k (n - 1) xs _ (by omega) hf' flags _ h1 h2 h3 h4 h5 he)
    | beq t' =>
      cases flags with
      | none => simp [Select.exec] at he
      | some j =>
        rw [Select.exec] at he
        by_cases e : tag = j
        · rw [if_pos e] at he
          cases he
          exact sim_beq_yes (h5 j rfl) (by simp [Word.is, e]) hr (k m h1 h2 h3)
        · rw [if_neg e] at he
          exact sim_beq_no (h5 j rfl) (by simp [Word.is]; omega) (sim_search hseek hnd hr k (n - 1) xs _ (by omega) hf' (some j) _ h1 h2 h3 h4 h5 he)
    | bcc t' =>
      cases flags with
      | none => simp [Select.exec] at he
      | some j =>
        rw [Select.exec] at he
        by_cases e : tag < j
        · rw [if_pos e] at he
          cases he
          exact sim_bcc_yes (h5 j rfl) (by simp [Word.below, e]) hr (k m h1 h2 h3)
        · rw [if_neg e] at he
          exact sim_bcc_no (h5 j rfl) (by simp [Word.below, e]) (sim_search hseek hnd hr k (n - 1) xs _ (by omega) hf' (some j) _ h1 h2 h3 h4 h5 he)
    | bccLocal l =>
      cases flags with
      | none => simp [Select.exec] at he
      | some j =>
        rw [Select.exec] at he
        by_cases e : tag < j
        · rw [if_pos e] at he
          split at he
          · rename_i r' hs
            obtain ⟨pre, hpre⟩ := select_seek hs
            have hfr : frag = (done ++ .bccLocal l :: pre) ++ .label l :: r' := by rw [hf, hpre]; simp
            have hni : l ∉ Select.labels (done ++ .bccLocal l :: pre) := by
              intro hm
              rw [hfr, Select.labels_append, List.nodup_append] at hnd
              exact hnd.2.2 _ hm l (by simp [Select.labels]) rfl
            have hlen : r'.length < n := by rw [hn, hpre]; simp; omega
            refine sim_bcc_yes (h5 j rfl) (by simp [Word.below, e]) (hseek l _ _ hfr hni)
              (sim_search hseek hnd hr k r'.length r' (done ++ .bccLocal l :: pre ++ [.label l]) rfl (by rw [hfr]; simp) (some j) _ h1 h2 h3 h4 h5 he)
          · cases he
        · rw [if_neg e] at he
          exact sim_bcc_no (h5 j rfl) (by simp [Word.below, e]) (sim_search hseek hnd hr k (n - 1) xs _ (by omega) hf' (some j) _ h1 h2 h3 h4 h5 he)
termination_by n => n

/-! ### Instructions -/

/-- What the interpreter does after instruction `pc`. -/
abbrev cont (mk : Code → Nat → CBody) (call : CallFn CBody) (code : List Instr) (pc : Nat) (nx : GNext CBody) (s : St (GFn CBody)) : GRes CBody (GOut CBody) :=
  match nx with
  | .done o => .ok o s
  | .go pc' fr => if pc < pc' then gexec mk call code pc' fr s else .wild

/-- What it logs after instruction `pc`. -/
def contT (profiling : Bool) (ops : Nat → List POp) (locs : Nat → SrcLoc) (mk : Code → Nat → CBody) (call : CallFn CBody) (code : List Instr)
    (pc : Nat) : GRes CBody (GNext CBody) → List Ev
  | .ok (.go pc' fr) s => if pc < pc' then gtrace profiling ops locs mk call code pc' fr s else []
  | _ => []

theorem gtrace_at {profiling} {mk : Code → Nat → CBody} {call} {pc : Nat} {i fr s} (h : code[pc]? = some i) :
    gtrace profiling ops locs mk call code pc fr s = profEvents profiling (ops pc) ++
      (instrEvents i (locs pc) fr s (gstep mk call i pc fr s) ++ contT profiling ops locs mk call code pc (gstep mk call i pc fr s)) := by
  rw [gtrace]
  obtain ⟨h1, h2⟩ := List.getElem?_eq_some_iff.mp h
  rw [dif_pos h1, h2, List.append_assoc]
  congr 2
  cases gstep mk call i pc fr s with
  | ok nx s' => cases nx <;> rfl
  | _ => rfl

/-- The run function of a function value made by code in block `block` of module `m`. -/
def genBodyA (sg : Bool) (names : List Str) (m block : Nat) (_ : Code) (off : Nat) : CBody := .gen m ((runNameA sg names (block + off)).getD [])

/-- What is to be shown from instruction `t` on. -/
def GoodA (sg : Bool) (names : List Str) (block nl : Nat) (ops : Nat → List POp) (locs : Nat → SrcLoc) (code : List Instr) (env : Env) (t : Nat) : Prop :=
  ∀ fr m s lg, Ok env nl fr m → m.sp = base nl → m.log = lg →
    Sim env (codeFrom sg names block nl ops locs code t) m s
      (gexec (genBodyA sg names env.m block) env.call code t fr s, lg ++ gtrace env.profiling ops locs (genBodyA sg names env.m block) env.call code t fr s)

/-- The result and log of an instruction and what follows it, given what it results in. -/
def outp (sg : Bool) (names : List Str) (block : Nat) (ops : Nat → List POp) (locs : Nat → SrcLoc) (code : List Instr) (env : Env) (pc : Nat)
    (i : Instr) (fr : GFrame CBody) (s : St (GFn CBody)) (lg : List Ev) (g : GRes CBody (GNext CBody)) : GRes CBody (GOut CBody) × List Ev :=
  (g.bind (cont (genBodyA sg names env.m block) env.call code pc),
    lg ++ (instrEvents i (locs pc) fr s g ++ contT env.profiling ops locs (genBodyA sg names env.m block) env.call code pc g))

theorem instrEvents_ok {i : Instr} {loc fr s} {α} {a : α} {s' : St (GFn CBody)} : instrEvents i loc fr s (.ok a s') = evOf i := rfl

variable {pc : Nat} {i : Instr} {fr : GFrame CBody} {s s' : St (GFn CBody)} {m : Mach} {lg : List Ev} {rest : List Line}

local notation "Out" => outp sg names block ops locs code env pc
local notation "Next" => codeFrom sg names block nl ops locs code (pc + 1)

theorem out_wild : Sim env rest m s' (Out i fr s lg .wild) := .inl rfl
theorem out_crash : Sim env rest m s' (Out i fr s lg .crash) := .inr (.inl rfl)

theorem out_go {fr1} (h : ∀ lg', lg' = lg ++ evOf i → Sim env rest m s' (gexec (genBodyA sg names env.m block) env.call code (pc + 1) fr1 s',
      lg' ++ gtrace env.profiling ops locs (genBodyA sg names env.m block) env.call code (pc + 1) fr1 s')) :
    Sim env rest m s' (Out i fr s lg (.ok (.go (pc + 1) fr1) s')) := by
  have := h _ rfl
  simp only [outp, Res.bind, contT, instrEvents_ok, if_pos (Nat.lt_succ_self pc)]
  rwa [← List.append_assoc]

/-- Storing a value and going on. -/
theorem out_set {d v} (h : ∀ fr1 lg', fr.put d v = some fr1 → lg' = lg ++ evOf i → Sim env rest m s' (gexec (genBodyA sg names env.m block) env.call code (pc + 1) fr1 s',
      lg' ++ gtrace env.profiling ops locs (genBodyA sg names env.m block) env.call code (pc + 1) fr1 s')) :
    Sim env rest m s' (Out i fr s lg (gset pc fr d v s')) := by
  unfold gset
  cases hp : fr.put d v with
  | none => exact out_wild
  | some fr1 => exact out_go fun lg' e => h fr1 lg' hp e

theorem out_abort {msg} (hm : abortMsg i fr s = some msg) (h : Sim env rest m s' (.abort, lg ++ (evOf i ++ [.report (locs pc) msg]))) :
    Sim env rest m s' (Out i fr s lg .abort) := by
  simpa only [outp, Res.bind, contT, instrEvents, hm, Option.map_some, Option.toList, List.append_nil] using h

theorem out_oof (h : Sim env rest m s' (.oof, lg)) : Sim env rest m s' (Out i fr s lg .oof) := by
  simpa only [outp, Res.bind, contT, instrEvents, List.append_nil] using h

theorem out_stop {calls} (h : Sim env rest m s' (.stop calls, lg)) : Sim env rest m s' (Out i fr s lg (.stop calls)) := by
  simpa only [outp, Res.bind, contT, instrEvents, List.append_nil] using h

/-- SetFrameVar at the end of an instruction. -/
theorem sim_set_next {r d v} (next : GoodA sg names block nl ops locs code env (pc + 1)) (h : Ok env nl fr m) (hsp : m.sp = base nl) (hr : m.reg r = some (.val v))
    (hlg : m.log = lg ++ evOf i) : Sim env (setVar r d :: Next) m s' (Out i fr s lg (gset pc fr d v s')) :=
  out_set fun fr1 lg' hp hl => sim_set h hr hp fun m' a1 a2 a3 _ => next fr1 m' s' lg' a1 (a2.trans hsp) (by rw [a3, hlg, hl])

/-- The same before giving back stack. -/
theorem sim_set_add {r d v} {n : Nat} (next : GoodA sg names block nl ops locs code env (pc + 1)) (h : Ok env nl fr m) (hsp : m.sp = base nl - stackBytes n)
    (hr : m.reg r = some (.val v)) (hlg : m.log = lg ++ evOf i) :
    Sim env (setVar r d :: .addSP (stackBytes n) :: Next) m s' (Out i fr s lg (gset pc fr d v s')) := by
  have h1 := base_al nl
  have h2 : m.sp + (stackBytes n : Nat) = base nl := by omega
  refine out_set fun fr1 lg' hp hl => sim_set h hr hp fun m' a1 a2 a3 _ => sim_addSP (next fr1 _ s' lg' (a1.setSp ?_ ?_) ?_ ?_)
  · rw [a2]; omega
  · rw [a2]; omega
  · show m'.sp + _ = _
    rw [a2]; omega
  · show m'.log = lg'
    rw [a3, hlg, hl]

/-- An error case. -/
theorem sim_err {msg : Msg} {tl : List Line} (hl : Laid sg names block nl ops locs code env body)
    (h : Frame env nl m) (hsp : m.sp = base nl) (hm : abortMsg i fr s = some msg) (hlg : m.log = lg ++ evOf i) :
    Sim env (doAbort msg (locs pc) ++ tl) m s' (Out i fr s lg .abort) := by
  refine out_abort hm ?_
  have := sim_abort (rest := tl) (s := s') (msg := msg) (loc := locs pc) hl.exit h hsp
  rwa [hlg, List.append_assoc] at this

end Verif.Backend
