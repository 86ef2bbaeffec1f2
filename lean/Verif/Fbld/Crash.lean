import Verif.Fbld.Safe
/-!
# Errors are reported, and the program ends abnormally only in known ways (C53)
-/
namespace Verif.Fbld

theorem inv_start (m : Markup) : Inv (start m) := by
  refine ⟨⟨?_, trivial⟩, ?_, ?_, (by intro h; cases h), ?_, ?_⟩
  · rintro c' _ (h | h)
    · exact h fun e he => by cases he
    · cases h
  · intro c hc
    simp [start] at hc
    subst hc
    show 0 < 1
    omega
  · intro c hc k hk
    simp [start] at hc
    subst hc
    rcases hk with h | h
    · exact absurd (fun e he => by cases he) h
    · cases h
  · intro _ c hc
    simp [start] at hc
    subst hc
    exact ⟨(fun e he => by cases he), embed_full m⟩
  · intro _ k t ht
    cases k with
    | zero => simp [start] at ht; subst ht; exact .null ⟨_, List.mem_singleton.mpr rfl, rfl⟩
    | succ k => simp [start] at ht

/-- A state the evaluator gets into. -/
def Reached (m : Markup) (s : State) : Prop := ∃ n, steps n (start m) = .run s

theorem inv_steps (n : Nat) {s s' : State} (hs : Inv s) (h : steps n s = .run s') : Inv s' := by
  induction n generalizing s with
  | zero => cases h; exact hs
  | succ n ih =>
    rw [steps] at h
    obtain ⟨stack, mem, err, rep⟩ := s
    cases stack with
    | nil => simp [step] at h
    | cons c rest =>
      have := safe_step hs
      cases hst : step ⟨c :: rest, mem, err, rep⟩ with
      | run s1 => rw [hst] at this h; exact ih this h
      | halt => rw [hst] at h; cases h
      | crash c => rw [hst] at h; cases h

theorem Reached.inv {m s} (h : Reached m s) : Inv s := by
  obtain ⟨n, h⟩ := h
  exact inv_steps n (inv_start m) h

theorem crash_from (n : Nat) {s : State} {k : Crash} (h : steps n s = .crash k) : ∃ i s', steps i s = .run s' ∧ step s' = .crash k := by
  induction n generalizing s with
  | zero => cases h
  | succ n ih =>
    rw [steps] at h
    cases hst : step s with
    | run s1 =>
      rw [hst] at h
      obtain ⟨i, s', h1, h2⟩ := ih h
      exact ⟨i + 1, s', by rw [steps, hst]; exact h1, h2⟩
    | halt => rw [hst] at h; cases h
    | crash c => rw [hst] at h; cases h; exact ⟨0, s, rfl, hst⟩

/-- C50: when a command reads a cell, neither it nor any command that is still to be executed stores
into that cell.  So it makes no difference that the model copies where the program shares. -/
theorem C50_no_pending_write (m : Markup) (s : State) (h : Reached m s) (c : Cmd) (rest : List Cmd) (hs : s.stack = c :: rest) (k : Nat) (hk : c.reads k) :
    ∀ c' ∈ s.stack, c'.dest.cell ≠ k := by
  have := h.inv.ord
  rw [hs] at this ⊢
  intro c' hc' he
  exact this.1 c' hc' (he ▸ hk)

/-- C53: the program ends abnormally only by the assertion in `TextOfMarkup` (C52), or by following a
NULL pointer in `@tail` or `@plain`, after an error has been reported. -/
theorem C53_crash (m : Markup) (k : Crash) (h : Crashes m k) :
    k = .assertion ∨ (k = .nullDeref ∧ ∃ s, Reached m s ∧ s.error = true ∧ s.reported = true ∧
      ((∃ d a rest, s.stack = .tail d a :: rest) ∨ ∃ d f b env rest, s.stack = .plain d f b env :: rest)) := by
  obtain ⟨n, h⟩ := h
  obtain ⟨i, s, h1, h2⟩ := crash_from n h
  have hi : Inv s := inv_steps i (inv_start m) h1
  obtain ⟨stack, mem, err, rep⟩ := s
  cases stack with
  | nil => simp [step] at h2
  | cons c rest =>
    have := safe_step hi
    rw [h2] at this
    rcases this with h3 | ⟨h3, h4, h5⟩
    · exact .inl h3
    · refine .inr ⟨h3, _, ⟨i, h1⟩, h4, hi.rep h4, ?_⟩
      rcases h5 with ⟨d, a, rfl⟩ | ⟨d, f, b, env, rfl⟩
      · exact .inl ⟨d, a, rest, rfl⟩
      · exact .inr ⟨d, f, b, env, rest, rfl⟩

/-- C53: a failure has been reported. -/
theorem C53_reported (m : Markup) (s : State) (h : Reached m s) (he : s.error = true) : s.reported = true := h.inv.rep he

/-- The abnormal end of a run, if there is one. -/
def Next.crash? : Next → Option Crash
  | .crash c => some c
  | _ => none

theorem crashes_of {m : Markup} {c : Crash} (n : Nat) (h : (steps n (start m)).crash? = some c) : Crashes m c := by
  refine ⟨n, ?_⟩
  cases hs : steps n (start m) with
  | crash k => rw [hs] at h; cases h; rfl
  | run s => rw [hs] at h; cases h
  | halt => rw [hs] at h; cases h

/-- C53 does not hold without exception: `@tail[@error[x]]` and `@plain{f}[@error[x]]` crash. -/
theorem C53_violated : Crashes (.cmd nTail [.cmd nError [.plain ['x']]]) .nullDeref ∧
    Crashes (.cmd nPlain [.plain ['f'], .cmd nError [.plain ['x']]]) .nullDeref ∧
    Crashes (.cmd nError [.seq [.cmd nEval [.plain []], .cmd nEval [.plain []]]]) .assertion :=
  ⟨crashes_of 5 (by decide +kernel), crashes_of 6 (by decide +kernel), crashes_of 9 (by decide +kernel)⟩

/-! ### Documents without `@tail` and `@plain` -/

mutual
/-- The command `name` occurs in the markup. -/
def mentions (name : Str) : Markup → Prop
  | .plain _ => False
  | .cmd n as => n = name ∨ mentionsL name as
  | .seq ms => mentionsL name ms
def mentionsL (name : Str) : List Markup → Prop
  | [] => False
  | m :: ms => mentions name m ∨ mentionsL name ms
end

/-- `@tail` and `@plain` do not occur. -/
inductive Clean : Tree → Prop where
  | null : Clean .null
  | plain {s} : Clean (.plain s)
  | cmd {n as} : n ≠ nTail → n ≠ nPlain → (∀ t ∈ as, Clean t) → Clean (.cmd n as)
  | seq {ts} : (∀ t ∈ ts, Clean t) → Clean (.seq ts)

mutual
theorem embed_clean : (m : Markup) → ¬ mentions nTail m → ¬ mentions nPlain m → Clean (embed m)
  | .plain _, _, _ => .plain
  | .cmd n as, h1, h2 => by
    rw [embed]
    simp only [mentions, not_or] at h1 h2
    exact .cmd h1.1 h2.1 (embedL_clean as h1.2 h2.2)
  | .seq ms, h1, h2 => by
    rw [embed]
    simp only [mentions] at h1 h2
    exact .seq (embedL_clean ms h1 h2)
theorem embedL_clean : (ms : List Markup) → ¬ mentionsL nTail ms → ¬ mentionsL nPlain ms → ∀ t ∈ embedL ms, Clean t
  | [], _, _, t, h => by simp [embedL] at h
  | m :: ms, h1, h2, t, h => by
    simp only [mentionsL, not_or] at h1 h2
    rw [embedL] at h
    rcases List.mem_cons.mp h with rfl | h
    · exact embed_clean m h1.1 h2.1
    · exact embedL_clean ms h1.2 h2.2 t h
end

theorem writeAt_clean {v : Tree} (hv : Clean v) (p : List Nat) : ∀ {t}, Clean t → Clean (writeAt p v t) := by
  induction p with
  | nil => intro t _; exact hv
  | cons i p ih =>
    intro t ht
    cases ht with
    | null => exact .null
    | plain => exact .plain
    | cmd h1 h2 h3 => exact .cmd h1 h2 h3
    | @seq ts h =>
      refine .seq fun u hu => ?_
      obtain ⟨j, hj⟩ := List.getElem?_of_mem hu
      rw [List.getElem?_modify] at hj
      cases hts : ts[j]? with
      | none => rw [hts] at hj; simp at hj
      | some t0 =>
        rw [hts] at hj
        have h0 := h t0 (List.mem_of_getElem? hts)
        by_cases hij : i = j
        · simp [hij] at hj; subst hj; exact ih h0
        · simp [hij] at hj; subst hj; exact h0

def RefClean : Ref → Prop
  | .val t => Clean t
  | .cell _ => True

def EnvClean (env : List Entry) : Prop := ∀ e ∈ env, RefClean e.body

def Cmd.Clean : Cmd → Prop
  | .eval _ env m => EnvClean env ∧ RefClean m
  | .define _ _ _ df b env => EnvClean env ∧ Fbld.Clean df ∧ Fbld.Clean b
  | .letc _ _ _ b env => EnvClean env ∧ Fbld.Clean b
  | .ifc _ _ _ t e env => EnvClean env ∧ Fbld.Clean t ∧ Fbld.Clean e
  | .error _ _ => True
  | .head _ _ => True
  | .tail _ _ => False
  | .plain _ _ _ _ => False

structure CleanSt (s : State) : Prop where
  stack : ∀ c ∈ s.stack, c.Clean
  mem : ∀ t ∈ s.mem, Clean t

def CleanNext : Next → Prop
  | .run s => CleanSt s
  | _ => True

theorem load_clean {mem : List Tree} (h : ∀ t ∈ mem, Clean t) {r : Ref} (hr : RefClean r) : Clean (load mem r) := by
  cases r with
  | val t => exact hr
  | cell k =>
    simp only [load, List.getD_eq_getElem?_getD]
    cases hk : mem[k]? with
    | none => exact .null
    | some t => exact h t (List.mem_of_getElem? hk)

theorem write_clean {mem : List Tree} (h : ∀ t ∈ mem, Clean t) (d : Dest) {v : Tree} (hv : Clean v) : ∀ t ∈ write mem d v, Clean t := by
  intro t ht
  obtain ⟨j, hj⟩ := List.getElem?_of_mem ht
  unfold write at hj
  rw [List.getElem?_modify] at hj
  cases hm : mem[j]? with
  | none => rw [hm] at hj; simp at hj
  | some t0 =>
    rw [hm] at hj
    have h0 := h t0 (List.mem_of_getElem? hm)
    by_cases hij : d.cell = j
    · simp [hij] at hj; subst hj; exact writeAt_clean hv _ h0
    · simp [hij] at hj; subst hj; exact h0

theorem append_clean {mem x : List Tree} (h : ∀ t ∈ mem, Clean t) (hx : ∀ t ∈ x, t = .null) : ∀ t ∈ mem ++ x, Clean t := by
  intro t ht
  rcases List.mem_append.mp ht with ht | ht
  · exact h t ht
  · rw [hx t ht]; exact .null

theorem stack_clean {evs rest : List Cmd} (h : ∀ c ∈ rest, c.Clean) (he : ∀ c ∈ evs, c.Clean) : ∀ c ∈ evs ++ rest, c.Clean :=
  fun c hc => (List.mem_append.mp hc).elim (he c) (h c)

theorem clean_orFail {α : Type} {rest mem err rep} (h : CleanSt ⟨rest, mem, err, rep⟩) {r : CRes α} {f : α → Next} (hf : ∀ a, CleanNext (f a)) :
    CleanNext (orFail ⟨rest, mem, err, rep⟩ r f) := by
  cases r with
  | ok a => exact hf a
  | fail => exact ⟨h.stack, h.mem⟩
  | silent => exact ⟨h.stack, h.mem⟩
  | crash c => trivial

theorem clean_builtin {rest mem err rep d env name} {args : List Tree} (h : CleanSt ⟨rest, mem, err, rep⟩) (henv : EnvClean env) (h1 : name ≠ nTail) (h2 : name ≠ nPlain)
    (ha : ∀ t ∈ args, Clean t) : CleanNext (stepBuiltin ⟨rest, mem, err, rep⟩ d env name args) := by
  have bad : CleanNext (.run ⟨rest, mem, true, true⟩) := ⟨h.stack, h.mem⟩
  have push1 : ∀ (t : Tree) (last : Cmd), Clean t → last.Clean →
      CleanNext (.run ⟨.eval ⟨mem.length, []⟩ env (.val t) :: last :: rest, mem ++ [.null], err, rep⟩) := fun t last ht hl =>
    ⟨stack_clean (evs := [_, _]) h.stack fun c hc => by
      simp at hc
      rcases hc with rfl | rfl
      · exact ⟨henv, ht⟩
      · exact hl, append_clean h.mem (by simp)⟩
  have push2 : ∀ (t u : Tree) (last : Cmd), Clean t → Clean u → last.Clean →
      CleanNext (.run ⟨.eval ⟨mem.length + 1, []⟩ env (.val u) :: .eval ⟨mem.length, []⟩ env (.val t) :: last :: rest, mem ++ [.null, .null], err, rep⟩) := fun t u last ht hu hl =>
    ⟨stack_clean (evs := [_, _, _]) h.stack fun c hc => by
      simp at hc
      rcases hc with rfl | rfl | rfl
      · exact ⟨henv, hu⟩
      · exact ⟨henv, ht⟩
      · exact hl, append_clean h.mem (by simp)⟩
  unfold stepBuiltin
  dsimp only
  split
  · split
    · exact push1 _ (.error d mem.length) (ha _ (by simp)) trivial
    · exact bad
  split
  · split
    · exact push2 _ _ (.define d mem.length (mem.length + 1) _ _ env) (ha _ (by simp)) (ha _ (by simp)) ⟨henv, ha _ (by simp), ha _ (by simp)⟩
    · exact bad
  split
  · split
    · exact push2 _ _ (.letc d mem.length (mem.length + 1) _ env) (ha _ (by simp)) (ha _ (by simp)) ⟨henv, ha _ (by simp)⟩
    · exact bad
  split
  · split
    · exact push1 _ (.head d mem.length) (ha _ (by simp)) trivial
    · exact bad
  split
  · split
    · exact push2 _ _ (.ifc d mem.length (mem.length + 1) _ _ env) (ha _ (by simp)) (ha _ (by simp)) ⟨henv, ha _ (by simp), ha _ (by simp)⟩
    · exact bad
  split
  · split
    · exact push2 _ _ (.ifc d mem.length (mem.length + 1) _ _ env) (ha _ (by simp)) (ha _ (by simp)) ⟨henv, ha _ (by simp), ha _ (by simp)⟩
    · exact bad
  split
  · split
    · exact push1 _ (.eval d env (.cell mem.length)) (ha _ (by simp)) ⟨henv, trivial⟩
    · exact bad
  exact ⟨h.stack, write_clean h.mem d (.cmd h1 h2 ha)⟩

theorem argEnv_clean (ps : List Str) : ∀ (k : Nat) (env : List Entry), EnvClean env → EnvClean (argEnv k ps env) := by
  induction ps with
  | nil => intro k env h; exact h
  | cons p ps ih =>
    intro k env h
    refine ih _ _ fun e he => ?_
    rcases List.mem_cons.mp he with rfl | he
    · exact trivial
    · exact h e he

theorem clean_step {s : State} (h : CleanSt s) : CleanNext (step s) := by
  obtain ⟨stack, mem, err, rep⟩ := s
  cases stack with
  | nil => exact trivial
  | cons c rest =>
    have hr : CleanSt ⟨rest, mem, err, rep⟩ := ⟨fun c hc => h.stack c (List.mem_cons_of_mem _ hc), h.mem⟩
    have hc := h.stack c (List.mem_cons_self ..)
    have one : ∀ c : Cmd, c.Clean → CleanNext (.run ⟨c :: rest, mem, err, rep⟩) := fun c hc =>
      ⟨stack_clean (evs := [c]) hr.stack (by simpa using hc), h.mem⟩
    have hload : ∀ k, Clean (load mem (.cell k)) := fun k => load_clean h.mem (r := .cell k) trivial
    cases c with
    | eval d env m =>
      have hm := load_clean h.mem hc.2
      simp only [step]
      cases hl : load mem m with
      | null =>
        unfold stepEval
        dsimp only
        split
        · exact hr
        · trivial
      | plain s => exact ⟨hr.stack, write_clean h.mem d .plain⟩
      | seq ts =>
        rw [hl] at hm
        cases hm with
        | seq hm =>
          simp only [stepEval]
          rw [pushSeq_append]
          refine ⟨stack_clean hr.stack fun n hn => ?_, write_clean h.mem d (.seq fun t ht => ?_)⟩
          · obtain ⟨j, t, hj, rfl⟩ := (mem_pushSeq d env ts _ _).mp hn
            exact ⟨hc.1, hm t (List.mem_of_getElem? hj)⟩
          · simp at ht; rw [← ht.2]; exact .null
      | cmd name args =>
        rw [hl] at hm
        cases hm with
        | cmd h1 h2 ha =>
          simp only [stepEval]
          cases hlk : lookup name env with
          | none => exact clean_builtin hr hc.1 h1 h2 ha
          | some p =>
            obtain ⟨e, next⟩ := p
            obtain ⟨hmem, hsub⟩ := lookup_mem hlk
            have hb := load_clean h.mem (hc.1 e (hsub e hmem))
            dsimp only
            split
            · exact ⟨hr.stack, h.mem⟩
            · split
              · exact ⟨hr.stack, write_clean h.mem d hb⟩
              · rw [pushArgs_append]
                refine ⟨stack_clean (stack_clean (evs := [_]) hr.stack ?_) fun n hn => ?_, append_clean h.mem (by simp)⟩
                · intro c hc'
                  simp at hc'
                  subst hc'
                  exact ⟨argEnv_clean _ _ _ fun x hx => hc.1 x (hsub x hx), hb⟩
                · obtain ⟨j, t, hj, rfl⟩ := (mem_pushArgs env args _ _).mp hn
                  exact ⟨hc.1, ha t (List.mem_of_getElem? hj)⟩
    | define d n as df body env =>
      refine clean_orFail hr fun name => clean_orFail hr fun args => one _ ⟨fun e he => ?_, hc.2.2⟩
      rcases List.mem_cons.mp he with rfl | he
      · exact hc.2.1
      · exact hc.1 e he
    | letc d n df body env =>
      refine clean_orFail hr fun name => one _ ⟨fun e he => ?_, hc.2⟩
      rcases List.mem_cons.mp he with rfl | he
      · exact hload df
      · exact hc.1 e he
    | ifc d a b t e env =>
      refine clean_orFail hr fun eq => one _ ⟨hc.1, ?_⟩
      show Clean _
      cases eq
      · exact hc.2.2
      · exact hc.2.1
    | error d m => exact clean_orFail hr fun _ => ⟨hr.stack, h.mem⟩
    | head d a =>
      refine clean_orFail hr fun o => ?_
      cases o with
      | none => exact ⟨hr.stack, write_clean h.mem d (hload a)⟩
      | some c =>
        dsimp only
        split
        · exact ⟨hr.stack, write_clean h.mem d .plain⟩
        · trivial
    | tail d a => exact hc.elim
    | plain d f b env => exact hc.elim

theorem clean_steps (n : Nat) {s s' : State} (hs : CleanSt s) (h : steps n s = .run s') : CleanSt s' := by
  induction n generalizing s with
  | zero => cases h; exact hs
  | succ n ih =>
    rw [steps] at h
    have := clean_step hs
    cases hst : step s with
    | run s1 => rw [hst] at this h; exact ih this h
    | halt => rw [hst] at h; cases h
    | crash c => rw [hst] at h; cases h

/-- C53: a document in which the commands `@tail` and `@plain` do not occur does not crash, whatever
errors it contains (but for the assertion of C52). -/
theorem C53_clean (m : Markup) (h1 : ¬ mentions nTail m) (h2 : ¬ mentions nPlain m) (k : Crash) (h : Crashes m k) : k = .assertion := by
  rcases C53_crash m k h with h | ⟨_, s, ⟨n, hn⟩, _, _, hs⟩
  · exact h
  · have hstart : CleanSt (start m) := ⟨fun c hc => by
      simp [start] at hc; subst hc
      exact ⟨(fun e he => by cases he), embed_clean m h1 h2⟩, fun t ht => by
      simp [start] at ht; subst ht; exact .null⟩
    have hc := clean_steps n hstart hn
    rcases hs with ⟨d, a, rest, hs⟩ | ⟨d, f, b, env, rest, hs⟩
    · exact (show False from hc.stack (.tail d a) (by rw [hs]; exact List.mem_cons_self ..)).elim
    · exact (show False from hc.stack (.plain d f b env) (by rw [hs]; exact List.mem_cons_self ..)).elim

/-- C53: a document whose evaluation meets no error does not follow a NULL pointer, and no
error is claimed to have been missed. -/
theorem C53_no_error (m v : Markup) (n : Nat) (h : eval n [] m = .ok v) (k : Crash) (hc : Crashes m k) : k = .assertion := by
  rcases C50_complete m v n h with ⟨i, s, h1, h2, _, _⟩ | ⟨i, h1⟩
  · obtain ⟨j, hc⟩ := hc
    rcases Nat.lt_or_ge i j with hij | hij
    · rw [steps_done i j hij h1 h2] at hc; cases hc
    · obtain ⟨s', h3, _⟩ := steps_prefix i j hij h1
      rw [hc] at h3; cases h3
  · obtain ⟨j, hc⟩ := hc
    rcases Nat.le_total i j with hij | hij
    · obtain ⟨d, rfl⟩ : ∃ d, j = i + d := ⟨j - i, by omega⟩
      rw [steps_add, h1] at hc; cases hc; rfl
    · obtain ⟨d, rfl⟩ : ∃ d, i = j + d := ⟨i - j, by omega⟩
      rw [steps_add, hc] at h1; cases h1; rfl

/-- A document with an error inside a command argument: it fails, and the failure is reported. -/
example : Fails (.cmd nLet [.plain ['x'], .cmd nError [.plain ['e']], .cmd ['x'] []]) ∧
    ¬ mentions nTail (.cmd nLet [.plain ['x'], .cmd nError [.plain ['e']], .cmd ['x'] []]) := by
  refine ⟨?_, by simp [mentions, mentionsL, nTail, nLet, nError]⟩
  have h : (match steps 7 (start (.cmd nLet [.plain ['x'], .cmd nError [.plain ['e']], .cmd ['x'] []])) with
    | .run s => s.stack.isEmpty && s.error
    | _ => false) = true := by decide +kernel
  split at h
  · next s hs =>
    rw [Bool.and_eq_true] at h
    exact ⟨7, s, hs, List.isEmpty_iff.mp h.1, h.2⟩
  · cases h

end Verif.Fbld
