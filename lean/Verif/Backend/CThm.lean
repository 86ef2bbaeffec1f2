import Verif.Backend.C
import Verif.Backend.Interp
import Verif.Select.Thm
/-
The emitted C function for a code block does what the interpreter does with the code.
-/
namespace Verif.Backend
open Verif.Compile
open Verif.Text (Str ch)

/-- The same result, unless the first is `wild` or `crash`. -/
def Agrees {F α : Type} (a b : Res F α) : Prop := a = .wild ∨ a = .crash ∨ b = a

theorem Agrees.refl {F α : Type} (a : Res F α) : Agrees a a := .inr (.inr rfl)
theorem Agrees.crash {F α : Type} {b : Res F α} : Agrees .crash b := .inr (.inl rfl)
theorem Agrees.wild {F α : Type} {b : Res F α} : Agrees .wild b := .inl rfl

theorem Agrees.bind {F α β : Type} {r : Res F α} {k k' : α → St F → Res F β} (h : ∀ a s, r = .ok a s → Agrees (k a s) (k' a s)) :
    Agrees (r.bind k) (r.bind k') := by
  cases r with
  | ok a s => exact h a s rfl
  | _ => exact .refl _

theorem Agrees.orWild {F α β : Type} {o : Option α} {k k' : α → Res F β} (h : ∀ a, o = some a → Agrees (k a) (k' a)) :
    Agrees (orWild o k) (orWild o k') := by
  cases o with
  | none => exact .wild
  | some a => exact h a rfl

/-! ### Frames -/

structure Same (fr : GFrame CBody) (c : CFrame) : Prop where
  statics : c.statics = fr.statics
  args : c.args = fr.args
  locals : c.locals = fr.locals.map (Option.map .val)

theorem Same.get {fr c} (h : Same fr c) (v : Var) : c.get v = fr.get v := by
  cases v with
  | static i => simp [CFrame.get, GFrame.get, h.statics]
  | arg i => simp [CFrame.get, GFrame.get, h.args]
  | loc i =>
    simp only [CFrame.get, GFrame.get, h.locals, List.getElem?_map]
    cases fr.locals[i]? with
    | none => rfl
    | some x => cases x <;> rfl

theorem Same.gets {fr c} (h : Same fr c) (vs : List Var) : c.gets vs = fr.gets vs := by
  have : c.get = fr.get := funext h.get
  simp only [CFrame.gets, GFrame.gets, this]

/-- Storing a value. -/
theorem Same.set {fr c} (h : Same fr c) {pc dest : Nat} {v : GVal CBody} {s} {K : GNext CBody → St (GFn CBody) → GRes CBody (GOut CBody)}
    {k : CFrame → GRes CBody (GOut CBody)}
    (hk : ∀ fr1 c1, Same fr1 c1 → c1.locals[dest]? = some (some (.val v)) → c1.locals.length = c.locals.length → Agrees (K (.go (pc + 1) fr1) s) (k c1)) :
    Agrees ((gset pc fr dest v s).bind K) (orWild (c.put dest (.val v)) k) := by
  simp only [gset, GFrame.put, CFrame.put]
  by_cases hd : dest < fr.locals.length
  · have hd' : dest < c.locals.length := by rw [h.locals]; simpa using hd
    rw [if_pos hd, if_pos hd']
    refine hk _ _ ⟨h.statics, h.args, ?_⟩ (by simp [hd']) (by simp)
    simp [h.locals, List.map_set]
  · rw [if_neg hd]; exact .wild

/-! ### Identifiers -/

/-- The executables and literals declared have ids below `e` and `l`. -/
def Below (e l : Nat) (xs : List CStmt) : Prop :=
  ∀ st ∈ xs, (∀ id na ns r, st = .exe id na ns r → id < e) ∧ (∀ id ls, st = .lit id ls → id < l)

theorem Below.mono {e l e' l' xs} (h : Below e l xs) (he : e ≤ e') (hl : l ≤ l') : Below e' l' xs := fun st hs =>
  ⟨fun id na ns r h' => Nat.lt_of_lt_of_le ((h st hs).1 id na ns r h') he, fun id ls h' => Nat.lt_of_lt_of_le ((h st hs).2 id ls h') hl⟩

theorem Below.append {e l a b} (h : Below e l a) (h' : Below e l b) : Below e l (a ++ b) := fun st hs => by
  rcases List.mem_append.mp hs with hs | hs
  · exact h st hs
  · exact h' st hs

theorem Below.nil {e l} : Below e l [] := fun st h => by cases h

theorem findExe_at {e l na ns r rest} : {pre : List CStmt} → Below e l pre → findExe e (pre ++ .exe e na ns r :: rest) = some (na, ns, r)
  | [], _ => by simp [findExe]
  | st :: pre, h => by
    have ih := findExe_at (na := na) (ns := ns) (r := r) (rest := rest) (pre := pre) fun st hs => h st (List.mem_cons_of_mem _ hs)
    cases st
    case exe id na' ns' r' =>
      have := (h _ (List.mem_cons_self ..)).1 id na' ns' r' rfl
      simp only [List.cons_append, findExe]
      rw [if_neg (by omega)]
      exact ih
    all_goals exact ih

theorem findLit_at {e l ls rest} : {pre : List CStmt} → Below e l pre → findLit l (pre ++ .lit l ls :: rest) = some ls
  | [], _ => by simp [findLit]
  | st :: pre, h => by
    have ih := findLit_at (ls := ls) (rest := rest) (pre := pre) fun st hs => h st (List.mem_cons_of_mem _ hs)
    cases st
    case lit id ls' =>
      have := (h _ (List.mem_cons_self ..)).2 id ls' rfl
      simp only [List.cons_append, findLit]
      rw [if_neg (by omega)]
      exact ih
    all_goals exact ih

/-! ### Jump targets -/

/-- No label among the statements. -/
def NoLabel (xs : List CStmt) : Prop := ∀ pc, .label pc ∉ xs

theorem mark_spec {flags pc t flags'} (h : mark flags pc t = some flags') :
    pc < t ∧ flags'.length = flags.length ∧ flags'[t]? = some true ∧ ∀ j : Nat, flags[j]? = some true → flags'[j]? = some true := by
  unfold mark at h
  split at h
  · rename_i hh
    cases h
    refine ⟨hh.1, by simp, by simp [hh.2], fun j hj => ?_⟩
    rw [List.getElem?_set]
    split
    · simp_all
    · exact hj
  · cases h

theorem markAll_spec : {bs : List Select.Branch} → {flags pc : _} → {flags' : List Bool} → markAll flags pc bs = some flags' →
    (∀ b ∈ bs, pc < b.target ∧ flags'[b.target]? = some true) ∧ flags'.length = flags.length ∧
    ∀ j : Nat, flags[j]? = some true → flags'[j]? = some true
  | [], flags, pc, flags', h => by
    cases h
    exact ⟨by simp, rfl, fun j h => h⟩
  | b :: bs, flags, pc, flags', h => by
    simp only [markAll, Option.bind_eq_some_iff] at h
    obtain ⟨f1, h1, h2⟩ := h
    obtain ⟨a1, a2, a3, a4⟩ := mark_spec h1
    obtain ⟨b1, b2, b3⟩ := markAll_spec h2
    refine ⟨fun x hx => ?_, b2.trans a2, fun j hj => b3 j (a4 j hj)⟩
    rcases List.mem_cons.mp hx with rfl | hx
    · exact ⟨a1, b3 _ a3⟩
    · exact b1 x hx

/-- What is known of the statements of an instruction. -/
structure EmitOk (exe lit : Nat) (flags : List Bool) (r : List CStmt × Nat × Nat × List Bool) : Prop where
  exe : exe ≤ r.2.1
  lit : lit ≤ r.2.2.1
  below : Below r.2.1 r.2.2.1 r.1
  noLabel : NoLabel r.1
  length : r.2.2.2.length = flags.length
  mono : ∀ j : Nat, flags[j]? = some true → r.2.2.2[j]? = some true

theorem emitInstr_ok {sg names block pc exe lit flags i r} (h : emitInstr sg names block pc exe lit flags i = some r) : EmitOk exe lit flags r := by
  have plain : ∀ {xs : List CStmt}, (∀ st ∈ xs, ∀ id na ns r, st ≠ .exe id na ns r) → (∀ st ∈ xs, ∀ id ls, st ≠ .lit id ls) → NoLabel xs →
      EmitOk exe lit flags (xs, exe, lit, flags) := fun h1 h2 h3 =>
    ⟨Nat.le_refl _, Nat.le_refl _, fun st hs => ⟨fun id na ns r h => absurd h (h1 st hs id na ns r), fun id ls h => absurd h (h2 st hs id ls)⟩, h3, rfl,
      fun _ h => h⟩
  cases i
  case select c targets default =>
    simp only [emitInstr, Option.bind_eq_some_iff, Option.map_eq_some_iff] at h
    obtain ⟨f1, h1, f2, h2, rfl⟩ := h
    obtain ⟨_, a1, a2⟩ := markAll_spec h1
    obtain ⟨_, b1, _, b2⟩ := mark_spec h2
    exact ⟨Nat.le_refl _, Nat.le_refl _, by intro st hs; simp at hs; subst hs; simp, by intro pc; simp, b1.trans a1, fun j hj => b2 j (a2 j hj)⟩
  case goto t =>
    simp only [emitInstr, Option.map_eq_some_iff] at h
    obtain ⟨f1, h1, rfl⟩ := h
    obtain ⟨_, b1, _, b2⟩ := mark_spec h1
    exact ⟨Nat.le_refl _, Nat.le_refl _, by intro st hs; simp at hs; subst hs; simp, by intro pc; simp, b1, b2⟩
  case func code off scope dest =>
    simp only [emitInstr, Option.bind_eq_some_iff, Option.map_eq_some_iff] at h
    obtain ⟨run, h1, vs, h2, rfl⟩ := h
    refine ⟨Nat.le_succ _, Nat.le_refl _, ?_, by intro pc; simp, rfl, fun j hj => hj⟩
    intro st hs
    simp at hs
    rcases hs with rfl | rfl | rfl
    · exact ⟨fun id na ns r h => by cases h; exact Nat.lt_succ_self _, by simp⟩
    · simp
    · simp
  case literal ls dest =>
    simp only [emitInstr] at h
    cases h
    refine ⟨Nat.le_refl _, Nat.le_succ _, ?_, by intro pc; simp, rfl, fun j hj => hj⟩
    intro st hs
    simp at hs
    rcases hs with rfl | rfl
    · exact ⟨by simp, fun id ls h => by cases h; exact Nat.lt_succ_self _⟩
    · simp
  all_goals
    simp only [emitInstr] at h
    cases h
    exact plain (by intro st hs id na ns r e; subst e; simp at hs) (by intro st hs id ls e; subst e; simp at hs) (by intro pc; simp)

theorem head_below {e l flags pc ops} : Below e l (emitHead flags pc ops) := by
  intro st hs
  unfold emitHead at hs
  rcases List.mem_append.mp hs with hs | hs <;> split at hs <;> simp at hs <;> subst hs <;> simp

theorem cseek_append {t : Nat} {b : List CStmt} : {a : List CStmt} → (.label t ∉ a) → cseek t (a ++ b) = cseek t b
  | [], _ => rfl
  | st :: a, h => by
    have ih := cseek_append (t := t) (b := b) (a := a) fun h' => h (List.mem_cons_of_mem _ h')
    cases st
    case label pc' =>
      simp only [List.cons_append, cseek]
      rw [if_neg (by rintro rfl; exact h (List.mem_cons_self ..))]
      exact ih
    all_goals exact ih

/-- The place after a jump. -/
theorem seek_emit {sg names block t} : (is : List Instr) → {pc exe lit : Nat} → {flags : List Bool} → {ops : List (List POp)} → {out : List CStmt} →
    emitLoop sg names block pc exe lit flags is ops = some out → flags[t]? = some true → pc ≤ t → t < pc + is.length →
    ∃ exe' lit' flags' r mid, emitLoop sg names block t exe' lit' flags' (is.drop (t - pc)) (ops.drop (t - pc)) = some (.label t :: r) ∧
      out = mid ++ .label t :: r ∧ cseek t out = some r ∧ exe ≤ exe' ∧ lit ≤ lit' ∧ Below exe' lit' mid ∧ flags'.length = flags.length
  | [], pc, exe, lit, flags, ops, out, h, hf, h1, h2 => by simp at h2; omega
  | i :: is, pc, exe, lit, flags, ops, out, h, hf, h1, h2 => by
    have hh := h
    simp only [emitLoop, Option.bind_eq_some_iff, Option.map_eq_some_iff] at h
    obtain ⟨r, e1, rest, e2, rfl⟩ := h
    have ok := emitInstr_ok e1
    by_cases ht : t = pc
    · subst ht
      have hhead : emitHead flags t (ops.headD []) = .label t :: (if ops.headD [] = [] then [] else [.profile (ops.headD [])]) := by
        simp [emitHead, hf]
      refine ⟨exe, lit, flags, (if ops.headD [] = [] then [] else [.profile (ops.headD [])]) ++ r.1 ++ rest, [], ?_, ?_, ?_, Nat.le_refl _, Nat.le_refl _, .nil, rfl⟩
      · rw [Nat.sub_self, List.drop_zero, List.drop_zero, hh, hhead]
        simp only [List.cons_append]
      · rw [hhead]
        simp only [List.cons_append, List.nil_append]
      · rw [hhead]
        simp only [List.cons_append, cseek, if_true]
    · have hlt : pc < t := by omega
      obtain ⟨exe', lit', flags', r', mid, a1, a2, a3, a4, a5, a6, a7⟩ :=
        seek_emit is e2 (ok.mono t hf) (by omega) (by simp at h2; omega)
      have hsub : t - pc = (t - (pc + 1)) + 1 := by omega
      refine ⟨exe', lit', flags', r', emitHead flags pc (ops.headD []) ++ r.1 ++ mid, ?_, ?_, ?_, Nat.le_trans ok.exe a4, Nat.le_trans ok.lit a5,
        (head_below.append (ok.below.mono a4 a5)).append a6, a7.trans ok.length⟩
      · rw [hsub, List.drop_succ_cons]
        have : ops.drop (t - (pc + 1) + 1) = ops.tail.drop (t - (pc + 1)) := by
          cases ops <;> simp
        rw [this]
        exact a1
      · rw [a2]; simp
      · rw [cseek_append]
        · exact a3
        · intro hm
          rcases List.mem_append.mp hm with hm | hm
          · unfold emitHead at hm
            rcases List.mem_append.mp hm with hm | hm <;> split at hm <;> simp at hm
            omega
          · exact ok.noLabel t hm

/-! ### Running the statements -/

/-- The table of a select: sorted, not empty, and for tags of the type. -/
def TableOk (nt : Nat) (targets : List Select.Branch) : Prop := Select.Sorted targets ∧ targets ≠ [] ∧ ∀ b ∈ targets, b.tag < nt

/-- What the compiled code of a function has to be like. -/
structure CodeOk (nl : Nat) (code : List Instr) : Prop where
  writes : ∀ i ∈ code, ∀ d ∈ i.writes, d < nl
  jumps : ∀ (pc : Nat) i, code[pc]? = some i → ∀ t ∈ i.succ pc, pc < t ∧ t < code.length
  captures : ∀ c off scope d, .func c off scope d ∈ code → scope.length = c.numStatics
  tables : ∀ c nt targets default, .select c nt targets default ∈ code → TableOk nt targets

/-- The run function of a function value made by code in block `block` of module `m`. -/
def genBody (sg : Bool) (names : List Str) (m block : Nat) (_ : Code) (off : Nat) : CBody := .gen m ((runName sg names (block + off)).getD [])

theorem gets_length {B} {fr : GFrame B} : {vs : List Var} → {xs : List (GVal B)} → fr.gets vs = some xs → xs.length = vs.length
  | [], xs, h => by cases h; rfl
  | v :: vs, xs, h => by
    simp only [GFrame.gets, List.mapM_cons] at h
    cases hx : fr.get v with
    | none => rw [hx] at h; cases h
    | some x =>
      cases hy : List.mapM fr.get vs with
      | none => rw [hx, hy] at h; cases h
      | some ys =>
        rw [hx, hy] at h
        cases h
        simp [gets_length (fr := fr) (vs := vs) hy]

variable {sg : Bool} {names : List Str} {block m nl : Nat} {call : CallFn CBody} {code : List Instr} {whole : List CStmt}

/-- What is to be shown from instruction `pc` on. -/
def Good (sg : Bool) (names : List Str) (block m nl : Nat) (call : CallFn CBody) (code : List Instr) (whole : List CStmt) (pc : Nat) (rest : List CStmt) : Prop :=
  ∀ fr c s, Same fr c → c.locals.length = nl → Agrees (gexec (genBody sg names m block) call code pc fr s) (cexec m whole call rest c s)

theorem cexec_goto (c : CFrame) (s) (t : Nat) (rest : List CStmt) : cexec m whole call (.goto t :: rest) c s =
    match cseek t rest with
    | some r => cexec m whole call r c s
    | none => .wild := by
  rw [cexec]
  split <;> simp_all

theorem cexec_switch (c : CFrame) (s) (v : Var) (cases default) (rest : List CStmt) : cexec m whole call (.switch v cases default :: rest) c s =
    orWild (c.get v) fun v =>
    match unionTag v s with
    | .ok tag s =>
      match cseek (((cases.find? fun b => b.1 == tag).map (·.2)).getD default) rest with
      | some r => cexec m whole call r c s
      | none => .wild
    | .abort => .abort
    | .crash => .crash
    | .wild => .wild
    | .oof => .oof
    | .stop h => .stop h := by
  rw [cexec]
  cases c.get v with
  | none => rfl
  | some v =>
    simp only [orWild]
    cases unionTag v s with
    | ok tag s => simp only; split <;> simp_all
    | _ => rfl

/-- The code of the interpreter after one instruction. -/
abbrev after (sg : Bool) (names : List Str) (block m : Nat) (call : CallFn CBody) (code : List Instr) (pc : Nat) (nx : GNext CBody) (s : St (GFn CBody)) :
    GRes CBody (GOut CBody) :=
  match nx with
  | .done o => .ok o s
  | .go pc' fr => if pc < pc' then gexec (genBody sg names m block) call code pc' fr s else .wild

theorem next_ok {pc : Nat} {rest} (h : Good sg names block m nl call code whole (pc + 1) rest) {fr c s} (hsame : Same fr c) (hn : c.locals.length = nl) :
    Agrees (after sg names block m call code pc (.go (pc + 1) fr) s) (cexec m whole call rest c s) := by
  show Agrees (if pc < pc + 1 then _ else _) _
  rw [if_pos (Nat.lt_succ_self _)]
  exact h _ _ _ hsame hn

/-- Storing a value and going on. -/
theorem set_ok {pc dest : Nat} {rest} (h : Good sg names block m nl call code whole (pc + 1) rest) {fr c s} (hsame : Same fr c) (hn : c.locals.length = nl)
    (v : GVal CBody) : Agrees ((gset pc fr dest v s).bind (after sg names block m call code pc))
      (orWild (c.put dest (.val v)) fun c => cexec m whole call rest c s) :=
  hsame.set fun _ _ h1 _ h3 => next_ok h h1 (h3.trans hn)

/-- A runtime function that may return NULL, followed by the check. -/
theorem nullable_ok {pc dest : Nat} {rest} (h : Good sg names block m nl call code whole (pc + 1) rest) {fr c s} (hsame : Same fr c) (hn : c.locals.length = nl)
    (hd : dest < nl) (r : GRes CBody (GVal CBody)) :
    Agrees ((r.bind fun w s => gset pc fr dest w s).bind (after sg names block m call code pc))
      ((nullable s r).bind fun p s => orWild (c.put dest p) fun c => cexec m whole call (.ifNull dest :: rest) c s) := by
  cases r with
  | ok w s1 =>
    simp only [Res.bind, nullable]
    refine hsame.set fun fr1 c1 h1 h2 h3 => ?_
    rw [cexec, h2]
    exact next_ok h h1 (h3.trans hn)
  | abort =>
    simp only [Res.bind, nullable, CFrame.put]
    have hd : dest < c.locals.length := by omega
    rw [if_pos hd]
    right
    simp only [orWild]
    rw [cexec]
    simp [hd]
  | crash => exact .refl _
  | wild => exact .wild
  | oof => exact .refl _
  | stop => exact .refl _

/-- FbleUnionValueField, followed by the two checks. -/
theorem unionField_ok {pc dest : Nat} {rest} (h : Good sg names block m nl call code whole (pc + 1) rest) {fr c s} (hsame : Same fr c) (hn : c.locals.length = nl)
    (hd : dest < nl) (v : GVal CBody) (i : Nat) :
    Agrees (((unionField v i s).bind fun w s => gset pc fr dest w s).bind (after sg names block m call code pc))
      ((unionFieldPtr v i s).bind fun p s => orWild (c.put dest p) fun c => cexec m whole call (.ifNull dest :: .ifWrongTag dest :: rest) c s) := by
  have hd : dest < c.locals.length := by omega
  unfold unionField unionFieldPtr
  cases strict s v with
  | ok w s1 =>
    cases w
    case union tag a =>
      simp only [Res.bind]
      by_cases ht : tag = i
      · rw [if_pos ht, if_pos ht]
        refine hsame.set fun fr1 c1 h1 h2 h3 => ?_
        rw [cexec, h2]
        simp only
        rw [cexec, h2]
        exact next_ok h h1 (h3.trans hn)
      · rw [if_neg ht, if_neg ht]
        right
        simp only [CFrame.put, if_pos hd, orWild]
        rw [cexec]
        simp only [List.getElem?_set, hd, if_true]
        rw [cexec]
        simp [hd]
    all_goals exact .refl _
  | abort =>
    right
    simp only [Res.bind, CFrame.put, if_pos hd, orWild]
    rw [cexec]
    simp [hd]
  | crash => exact .refl _
  | wild => exact .wild
  | oof => exact .refl _
  | stop => exact .refl _

theorem cexec_head {flags pc ops xs c s} : cexec m whole call (emitHead flags pc ops ++ xs) c s = cexec m whole call xs c s := by
  unfold emitHead
  split <;> split <;> simp [cexec]

theorem gexec_at {mk : Code → Nat → CBody} {pc : Nat} {i fr s} (h : code[pc]? = some i) :
    gexec mk call code pc fr s = (gstep mk call i pc fr s).bind fun nx s =>
      match nx with
      | .done o => .ok o s
      | .go pc' fr => if pc < pc' then gexec mk call code pc' fr s else .wild := by
  rw [gexec]
  obtain ⟨h1, h2⟩ := List.getElem?_eq_some_iff.mp h
  rw [dif_pos h1, h2]
  congr 1
  funext nx s
  cases nx <;> rfl

/-- The statements emitted from instruction `pc` on do what the interpreter does from there. -/
theorem csim (ok : CodeOk nl code) {ops : List (List POp)} : (n : Nat) → (pc : Nat) → n = code.length - pc → ∀ {exe lit flags pre rest},
    emitLoop sg names block pc exe lit flags (code.drop pc) (ops.drop pc) = some rest → whole = pre ++ rest → Below exe lit pre → flags.length = code.length →
    Good sg names block m nl call code whole pc rest
  | n, pc, hn, exe, lit, flags, pre, rest, he, hw, hb, hfl => by
    intro fr c s hsame hlen
    by_cases hpc : pc < code.length
    · have hget : code[pc]? = some code[pc] := List.getElem?_eq_getElem hpc
      have hmem : code[pc] ∈ code := List.getElem_mem hpc
      rw [gexec_at hget]
      rw [List.drop_eq_getElem_cons hpc] at he
      simp only [emitLoop, Option.bind_eq_some_iff, Option.map_eq_some_iff] at he
      obtain ⟨r, e1, rest', e2, rfl⟩ := he
      have hok := emitInstr_ok e1
      have e2' : emitLoop sg names block (pc + 1) r.2.1 r.2.2.1 r.2.2.2 (code.drop (pc + 1)) (ops.drop (pc + 1)) = some rest' := by
        rw [← e2]; congr 1; simp
      have hpre : Below r.2.1 r.2.2.1 (pre ++ (emitHead flags pc ((ops.drop pc).headD []) ++ r.1)) :=
        (hb.mono hok.exe hok.lit).append (head_below.append hok.below)
      have hw' : whole = (pre ++ (emitHead flags pc ((ops.drop pc).headD []) ++ r.1)) ++ rest' := by rw [hw]; simp
      have next : Good sg names block m nl call code whole (pc + 1) rest' :=
        csim ok (code.length - (pc + 1)) (pc + 1) rfl e2' hw' hpre (hok.length.trans hfl)
      have jump : ∀ t, r.2.2.2[t]? = some true → pc < t → ∃ k, cseek t rest' = some k ∧ Good sg names block m nl call code whole t k := by
        intro t h1 h2
        have h3 : t < code.length := by
          have := (List.getElem?_eq_some_iff.mp h1).1
          rw [hok.length, hfl] at this
          exact this
        obtain ⟨exe', lit', flags', k, mid, a1, a2, a3, a4, a5, a6, a7⟩ := seek_emit (code.drop (pc + 1)) e2' h1 h2 (by simp; omega)
        refine ⟨k, a3, ?_⟩
        rw [List.drop_drop, List.drop_drop, show pc + 1 + (t - (pc + 1)) = t by omega] at a1
        have := csim ok (code.length - t) t rfl a1 (pre := pre ++ (emitHead flags pc ((ops.drop pc).headD []) ++ r.1) ++ mid)
          (by rw [hw', a2]; simp) ((hpre.mono a4 a5).append a6) (a7.trans (hok.length.trans hfl))
        intro fr c s h1 h2
        have := this fr c s h1 h2
        rwa [cexec] at this
      rw [List.append_assoc, cexec_head]
      have hwr := ok.writes _ hmem
      have hcap := ok.captures
      have hsort := ok.tables
      generalize code[pc] = i at *
      cases i with
      | struct args dest =>
        cases e1
        simp only [List.cons_append, List.nil_append, gstep]
        rw [cexec]
        simp only [ceval, hsame.gets]
        cases hv : fr.gets args with
        | none => exact .wild
        | some vs =>
          simp only [orWild, gets_length hv, if_true, Res.bind]
          exact set_ok next hsame hlen _
      | union tag arg dest =>
        cases e1
        simp only [List.cons_append, List.nil_append, gstep]
        rw [cexec]
        simp only [ceval, hsame.get]
        cases hv : fr.get arg with
        | none => exact .wild
        | some v => exact set_ok next hsame hlen _
      | structAccess obj tag dest =>
        cases e1
        simp only [List.cons_append, List.nil_append, gstep]
        rw [cexec]
        simp only [ceval, hsame.get]
        cases hv : fr.get obj with
        | none => exact .wild
        | some v => exact nullable_ok next hsame hlen (hwr _ (List.mem_singleton.mpr rfl)) _
      | unionAccess obj tag dest =>
        cases e1
        simp only [List.cons_append, List.nil_append, gstep]
        rw [cexec]
        simp only [ceval, hsame.get]
        cases hv : fr.get obj with
        | none => exact .wild
        | some v => exact unionField_ok next hsame hlen (hwr _ (List.mem_singleton.mpr rfl)) _ _
      | select cv nt targets default =>
        simp only [emitInstr, Option.bind_eq_some_iff, Option.map_eq_some_iff] at e1
        obtain ⟨f1, m1, f2, m2, rfl⟩ := e1
        obtain ⟨a1, a2, a3⟩ := markAll_spec m1
        obtain ⟨b1, b2, b3, b4⟩ := mark_spec m2
        simp only [List.cons_append, List.nil_append, gstep]
        rw [cexec_switch]
        simp only [hsame.get]
        cases hv : fr.get cv with
        | none => exact .wild
        | some v =>
          simp only [orWild, tagBelow]
          cases unionTag v s with
          | ok tag s1 =>
            simp only [Res.bind]
            by_cases hlt : tag < nt
            case neg => rw [if_neg hlt]; exact .crash
            · rw [if_pos hlt]
              simp only
              rw [← Select.C06_c_switch_agrees (hsort _ _ _ _ hmem).1 (hsort _ _ _ _ hmem).2.1]
              simp only [Select.cSwitch]
              have htgt : ∀ t, f2[t]? = some true → pc < t → Agrees (if pc < t then gexec (genBody sg names m block) call code t fr s1 else .wild)
                  (match cseek t rest' with
                    | some r => cexec m whole call r c s1
                    | none => .wild) := fun t h1 h2 => by
                obtain ⟨k, k1, k2⟩ := jump t h1 h2
                rw [if_pos h2, k1]
                exact k2 _ _ _ hsame hlen
              have hfd : (targets.map fun b => (b.tag, b.target)).find? (fun b => b.1 == tag) =
                  (targets.find? fun b => b.tag == tag).map fun b => (b.tag, b.target) := by
                rw [List.find?_map]; rfl
              rw [hfd]
              cases hb : targets.find? (fun b => b.tag == tag) with
              | none => exact htgt default b3 b1
              | some b =>
                have := a1 b (List.mem_of_find?_eq_some hb)
                exact htgt b.target (b4 _ this.2) this.1
          | abort => exact .refl _
          | crash => exact .refl _
          | wild => exact .wild
          | oof => exact .refl _
          | stop => exact .refl _
      | goto t =>
        simp only [emitInstr, Option.map_eq_some_iff] at e1
        obtain ⟨f2, m2, rfl⟩ := e1
        obtain ⟨b1, b2, b3, b4⟩ := mark_spec m2
        obtain ⟨k, k1, k2⟩ := jump t b3 b1
        simp only [List.cons_append, List.nil_append, gstep]
        rw [cexec_goto, k1]
        simp only [Res.bind]
        rw [if_pos b1]
        exact k2 _ _ _ hsame hlen
      | func code' off scope dest =>
        simp only [emitInstr, Option.bind_eq_some_iff, Option.map_eq_some_iff] at e1
        obtain ⟨run, m1, vs, m2, rfl⟩ := e1
        have hc := hcap _ _ _ _ hmem
        have : vs = scope := by
          unfold firstVars at m2
          rw [if_pos (by omega)] at m2
          cases m2
          rw [← hc]; simp
        subst this
        simp only [List.cons_append, List.nil_append, gstep]
        rw [cexec, cexec]
        simp only [hsame.gets]
        cases hv : fr.gets vs with
        | none => exact .wild
        | some xs =>
          have hx := gets_length hv
          simp only [orWild]
          rw [if_pos (by omega), cexec]
          have hfind : findExe exe whole = some (code'.numArgs, code'.numStatics, run) := by
            rw [hw]
            have := findExe_at (e := exe) (l := lit) (na := code'.numArgs) (ns := code'.numStatics) (r := run)
              (rest := .arr (.fv pc) code'.numStatics vs :: .set dest (.newFunc exe off (.fv pc)) :: rest')
              (pre := pre ++ emitHead flags pc ((ops.drop pc).headD [])) (hb.append head_below)
            simpa using this
          simp only [ceval, hfind, orWild, CFrame.arr, upd, if_true, Option.bind_some]
          rw [if_pos (by omega)]
          simp only [orWild, Res.bind]
          rw [show xs.take code'.numStatics = xs by rw [← hc, ← hx]; simp]
          have hg : genBody sg names m block code' off = .gen m run := by simp [genBody, m1]
          rw [hg]
          have hs2 : Same fr { c with arrs := upd c.arrs (CArr.fv pc) (some xs) } := ⟨hsame.statics, hsame.args, hsame.locals⟩
          exact set_ok next hs2 hlen _
      | call f args dest =>
        cases e1
        simp only [List.cons_append, List.nil_append, gstep]
        rw [cexec]
        simp only [hsame.gets]
        cases hf : fr.get f with
        | none => exact .wild
        | some fv =>
        cases hv : fr.gets args with
        | none => exact .wild
        | some vs =>
          have hx := gets_length hv
          simp only [orWild]
          rw [if_pos hx, cexec]
          have hs2 : Same fr { c with arrs := upd c.arrs (CArr.ca pc) (some vs) } := ⟨hsame.statics, hsame.args, hsame.locals⟩
          simp only [ceval, hs2.get, hf, orWild, CFrame.arr, upd, if_true, Option.bind_some]
          rw [if_pos (by omega), show vs.take args.length = vs by rw [← hx]; simp]
          exact nullable_ok next hs2 hlen (hwr _ (List.mem_singleton.mpr rfl)) _
      | tailCall f args =>
        cases e1
        simp only [List.cons_append, List.nil_append, gstep]
        rw [cexec]
        simp only [hsame.get]
        cases hf : fr.get f with
        | none => exact .wild
        | some fv =>
          simp only [orWild]
          cases strict s fv with
          | ok w s1 =>
            cases w
            case fn g =>
              simp only [Res.bind]
              rw [cexec]
              simp only
              rw [cexec]
              have hs2 : Same fr { c with f0 := some (some g) } := ⟨hsame.statics, hsame.args, hsame.locals⟩
              simp only [hs2.gets]
              cases hv : fr.gets args with
              | none => exact .wild
              | some vs =>
                have hx := gets_length hv
                simp only [orWild]
                rw [if_pos hx, cexec]
                have hs3 : Same fr { c with f0 := some (some g), arrs := upd c.arrs (CArr.ca pc) (some vs) } := ⟨hsame.statics, hsame.args, hsame.locals⟩
                simp only [hs3.get, hf, orWild, CFrame.arr, upd, if_true, Option.bind_some]
                rw [if_pos (by omega), show vs.take args.length = vs by rw [← hx]; simp]
                exact .refl _
            all_goals exact .refl _
          | abort =>
            simp only [Res.bind]
            rw [cexec]
            exact .refl _
          | crash => exact .refl _
          | wild => exact .wild
          | oof => exact .refl _
          | stop => exact .refl _
      | copy src dest =>
        cases e1
        simp only [List.cons_append, List.nil_append, gstep]
        rw [cexec]
        simp only [ceval, hsame.get]
        cases hv : fr.get src with
        | none => exact .wild
        | some v => exact set_ok next hsame hlen _
      | refValue dest =>
        cases e1
        simp only [List.cons_append, List.nil_append, gstep]
        rw [cexec]
        exact set_ok next hsame hlen _
      | refDef ref v =>
        cases e1
        simp only [List.cons_append, List.nil_append, gstep]
        rw [cexec]
        simp only [hsame.get]
        cases hr : fr.get (.loc ref) with
        | none => exact .wild
        | some rv =>
        cases hv : fr.get v with
        | none => exact .wild
        | some w =>
          simp only [orWild]
          cases assignRef rv w s with
          | ok _ s1 => exact next_ok next hsame hlen
          | wild => exact .wild
          | _ => exact .refl _
      | ret v =>
        cases e1
        simp only [List.cons_append, List.nil_append, gstep]
        rw [cexec]
        simp only [hsame.get]
        cases hv : fr.get v with
        | none => exact .wild
        | some w => exact .refl _
      | type dest =>
        cases e1
        simp only [List.cons_append, List.nil_append, gstep]
        rw [cexec]
        exact set_ok next hsame hlen _
      | list args dest =>
        cases e1
        simp only [List.cons_append, List.nil_append, gstep]
        rw [cexec]
        simp only [ceval, hsame.gets]
        cases hv : fr.gets args with
        | none => exact .wild
        | some vs =>
          simp only [orWild, gets_length hv, if_true, Res.bind]
          exact set_ok next hsame hlen _
      | literal ls dest =>
        cases e1
        simp only [List.cons_append, List.nil_append, gstep]
        rw [cexec, cexec]
        have hfind : findLit lit whole = some ls := by
          rw [hw]
          have := findLit_at (e := exe) (l := lit) (ls := ls) (rest := .set dest (.newLiteral ls.length lit) :: rest')
            (pre := pre ++ emitHead flags pc ((ops.drop pc).headD [])) (hb.append head_below)
          simpa using this
        simp only [ceval, hfind, orWild, Nat.le_refl, if_true, List.take_length, Res.bind]
        exact set_ok next hsame hlen _
      | nop =>
        cases e1
        simp only [List.nil_append, gstep]
        exact next_ok next hsame hlen
    · rw [gexec, dif_neg hpc]
      exact .wild
termination_by n => n

end Verif.Backend
