import Verif.Profile.PerfGraph
/-
C93: theorems about fble-perf-profile.
-/
namespace Verif.Profile.Perf
open Support.GetLine (getLine text firstLine)
open Args (Arg Env Recognised effects Item)

/-- The functions to leave out: the values of `-s` and `--squash`. -/
def squashed (items : List Item) : List Name := items.filterMap fun i =>
  match i with
  | .push _ _ v => some v
  | _ => none

theorem perf_wf : Args.wf Args.perfProfile = true ∧ .invalid ∉ Args.perfProfile.lines := ⟨by decide +kernel, by decide⟩

/-! ### The loop over the options -/

theorem options_done {e : Env} {g : Args.Program} {k : Nat} {s : Args.St} (h : (Args.stop s || s.args.isEmpty) = true) : Args.loop e g k s = some s := by
  rw [Args.loop.eq_def]
  simp only
  rw [if_pos h]

theorem options_next {e : Env} {k : Nat} {s : Args.St} (h : ¬ (Args.stop s || s.args.isEmpty) = true) :
    Args.loop e Args.perfProfile 0 s = none ∧ Args.loop e Args.perfProfile (k + 1) s = Args.loop e Args.perfProfile k (Args.body e Args.perfProfile.lines s).1 := by
  constructor
  · rw [Args.loop.eq_def]; simp only; rw [if_neg h]
  · rw [Args.loop.eq_def]; simp only; rw [if_neg h]
    have : Args.perfProfile.endOfOptions = false := rfl
    rw [this]
    simp

theorem options_mono {e : Env} {k : Nat} : ∀ {m : Nat} {s r : Args.St}, k ≤ m → Args.loop e Args.perfProfile k s = some r → Args.loop e Args.perfProfile m s = some r := by
  induction k with
  | zero =>
    intro m s r _ h
    by_cases hc : (Args.stop s || s.args.isEmpty) = true
    · rw [options_done hc] at h ⊢; exact h
    · rw [(options_next (k := 0) hc).1] at h; cases h
  | succ k ih =>
    intro m s r hm h
    by_cases hc : (Args.stop s || s.args.isEmpty) = true
    · rw [options_done hc] at h ⊢; exact h
    · cases m with
      | zero => omega
      | succ m =>
        rw [(options_next hc).2] at h ⊢
        exact ih (by omega) h

/-- The program ends in only one way. -/
theorem PerfMain.unique {e : Env} {c : Libc} {args stdin o o'} (h : PerfMain e c args stdin o) (h' : PerfMain e c args stdin o') : o = o' := by
  obtain ⟨k, s, h1, rfl⟩ := h
  obtain ⟨k', s', h2, rfl⟩ := h'
  have a := options_mono (Nat.le_max_left k k') h1
  rw [options_mono (Nat.le_max_right k k') h2] at a
  rw [Option.some.inj a]

theorem effect_lists {e : Env} {s : Args.St} {i : Item} (hi : i.Of Args.perfProfile) :
    ((i.effect e s).lists "squashes").filterMap id = (s.lists "squashes").filterMap id ++ squashed [i] := by
  cases i with
  | push n d v =>
    have : d = "squashes" := by
      simp only [Item.Of, Args.perfProfile, List.mem_cons, List.not_mem_nil, or_false, Args.P.push.injEq, reduceCtorEq, false_or] at hi
      rcases hi with h | h <;> exact h.2
    subst this
    simp [Item.effect, squashed, Args.setAt]
  | flag n d => simp [Item.effect, squashed]
  | str n d v => simp [Item.Of, Args.perfProfile] at hi
  | incl v => simp [Item.Of, Args.perfProfile] at hi
  | inclJoined c v => simp [Item.Of, Args.perfProfile] at hi
  | package l v => simp [Item.Of, Args.perfProfile] at hi
  | module l v => simp [Item.Of, Args.perfProfile] at hi

theorem effects_lists {e : Env} : ∀ {items : List Item}, (∀ i ∈ items, i.Of Args.perfProfile) → ∀ {s : Args.St}, Args.stop (effects e items s) = false →
    ((effects e items s).lists "squashes").filterMap id = (s.lists "squashes").filterMap id ++ squashed items := by
  intro items
  induction items with
  | nil => intro _ s _; simp [effects, squashed]
  | cons i is ih =>
    intro hi s h0
    unfold effects at h0 ⊢
    by_cases hs : Args.stop s = true
    · rw [if_pos hs, hs] at h0; cases h0
    · rw [if_neg hs] at h0 ⊢
      rw [ih (fun j hj => hi j (List.mem_cons_of_mem _ hj)) h0, effect_lists (hi i List.mem_cons_self), List.append_assoc]
      congr 1
      simp only [squashed, ← List.filterMap_append, List.singleton_append]

theorem main_options {e : Env} {c : Libc} {items : List Item} (hi : ∀ i ∈ items, i.Of Args.perfProfile) (stdin : List UInt8) :
    let s := effects e items (noOptions (items.flatMap Item.encode))
    ∀ o, PerfMain e c (items.flatMap Item.encode) stdin o ↔ o = finish c s stdin := by
  intro s
  obtain ⟨n, r, h1, h2, -, -⟩ := Args.C48_options e perf_wf.1 items hi (noOptions (items.flatMap Item.encode)) rfl rfl
  have hf : finish c r stdin = finish c s stdin := by
    obtain ⟨g1, -, g3, -, -, g6⟩ := h2
    unfold finish
    rw [g1, g3, g6]
  have hm : PerfMain e c (items.flatMap Item.encode) stdin (finish c s stdin) := ⟨n, r, h1, hf.symm⟩
  exact fun o => ⟨fun h => h.unique hm, fun h => h ▸ hm⟩

theorem stop_args {e : Env} {items : List Item} {a b : List Arg} : Args.Same (effects e items (noOptions a)) (effects e items (noOptions b)) :=
  Args.effects_same e items ⟨rfl, rfl, rfl, rfl, rfl, rfl⟩

theorem main_reads {e : Env} {c : Libc} {items : List Item} (hi : ∀ i ∈ items, i.Of Args.perfProfile) (h0 : Args.stop (effects e items (noOptions [])) = false) (stdin : List UInt8) :
    ∀ o, PerfMain e c (items.flatMap Item.encode) stdin o ↔ o = readAll c (squashed items) stdin := by
  have h0' : Args.stop (effects e items (noOptions (items.flatMap Item.encode))) = false := by
    rw [(stop_args (b := [])).stop]; exact h0
  intro o
  rw [main_options hi stdin]
  have hl := effects_lists hi h0'
  simp only [noOptions, List.filterMap_nil, List.nil_append] at hl
  simp only [Args.stop, Bool.or_eq_false_iff] at h0'
  obtain ⟨⟨q1, q2⟩, q3⟩ := h0'
  simp only [finish, q1, q2, q3, Bool.false_eq_true, if_false]
  rw [show noOptions (items.flatMap Item.encode) = ⟨fun _ => false, fun _ => none, fun _ => [], [], none, false, items.flatMap Item.encode, false⟩ from rfl, hl]

/-- C93. The report that fble-perf-profile prints on the lines of perf describes those lines, with the functions left out that its options name: one block for each function, with its count, its times, and its
calls; and the exit status is 0. -/
theorem C93_report {e : Env} {c : Libc} (hc : c.Scans) (hs : ∀ xs, (c.scratch xs).length = xs.length) {items : List Item} (hi : ∀ i ∈ items, i.Of Args.perfProfile)
    (h0 : Args.stop (effects e items (noOptions [])) = false) {header : List UInt8} (hh : (10 : UInt8) ∉ header) {ls : List (Nat × List UInt8)} (hl : ∀ l ∈ ls, Good l)
    {tail : List UInt8} (ht : Tail tail) (hf : Fits [] (lengths header ls (firstLine tail))) :
    ∃ name R, Describes (squashed items) (textOf ls) name R ∧
      ∀ o, PerfMain e c (items.flatMap Item.encode) (header ++ 10 :: (linesOf (ls.map lineOf) ++ tail)) o ↔
        o = .exit 0 (reportText c.part name (fun id => if id = 0 then ":0:0".toList else "???:0:0".toList) R) := by
  refine ⟨_, _, describes (squashed items) (textOf ls) hs, fun o => ?_⟩
  rw [main_reads hi h0, ((readAll_spec c hc (squashed items) hh hl tail).2 hf).1 ht]
  rfl

/-- C93: the other ways to end.  Help and version are printed; options with an error are reported with exit status 2; a line that cannot be parsed with exit status 1, and no report is printed. -/
theorem C93_fails {e : Env} {c : Libc} (hc : c.Scans) {items : List Item} (hi : ∀ i ∈ items, i.Of Args.perfProfile) :
    let s := effects e items (noOptions [])
    let ends' := fun stdin o => ∀ o', PerfMain e c (items.flatMap Item.encode) stdin o' ↔ o' = o
    (s.flags "version" = true → ∀ stdin, ends' stdin (.exit 0 c.version)) ∧
    (s.flags "version" = false → s.flags "help" = true → ∀ stdin, ends' stdin (.exit 0 c.help)) ∧
    (s.flags "version" = false → s.flags "help" = false → s.error = true → ∀ stdin, ends' stdin (.exit 2 [])) ∧
    (Args.stop s = false → ∀ (header : List UInt8) (ls : List (Nat × List UInt8)) (bad rest : List UInt8), (10 : UInt8) ∉ header → (∀ l ∈ ls, Good l) → (10 : UInt8) ∉ bad →
      Fits [] (lengths header ls bad) → ¬ ends ((bad.takeWhile (· != 0)).map chr) → c.scan ((bad.takeWhile (· != 0)).map chr) = none →
      ends' (header ++ 10 :: (linesOf (ls.map lineOf) ++ (bad ++ 10 :: rest))) (.exit 1 [])) := by
  intro s ends'
  have hsame : Args.Same (effects e items (noOptions (items.flatMap Item.encode))) s := stop_args
  obtain ⟨g1, -, -, -, -, g6⟩ := hsame
  refine ⟨fun h stdin o => ?_, fun h h' stdin o => ?_, fun h h' h'' stdin o => ?_, fun h0 header ls bad rest hh hl hb hf he hbad o => ?_⟩
  · rw [main_options hi stdin, finish, g1, if_pos h]
  · rw [main_options hi stdin, finish, g1, h, h']; simp
  · rw [main_options hi stdin, finish, g1, g6, h, h', h'']; simp
  · obtain ⟨f1, -⟩ := firstLine_line (rest := rest) hb
    have := ((readAll_spec c hc (squashed items) hh hl (bad ++ 10 :: rest)).2 (by rw [f1]; exact hf)).2 (by simp) (by rw [f1]; exact he) (by rw [f1]; exact hbad)
    rw [main_reads hi h0, this]

/-- C93, violated: if a line is as long as a buffer (0, 2, 6, 14, ... characters) and no line in front of it is longer, the program writes outside of the buffer. -/
theorem C93_violated {e : Env} {c : Libc} (hc : c.Scans) {items : List Item} (hi : ∀ i ∈ items, i.Of Args.perfProfile) (h0 : Args.stop (effects e items (noOptions [])) = false)
    {header : List UInt8} (hh : (10 : UInt8) ∉ header) {ls : List (Nat × List UInt8)} (hl : ∀ l ∈ ls, Good l) {tail : List UInt8} (hf : ¬ Fits [] (lengths header ls (firstLine tail))) :
    ∀ o, PerfMain e c (items.flatMap Item.encode) (header ++ 10 :: (linesOf (ls.map lineOf) ++ tail)) o ↔ o = .ub := by
  intro o
  rw [main_reads hi h0, (readAll_spec c hc (squashed items) hh hl tail).1 hf]

/-- C93, violated: with an argument that is not an option, the program never ends. -/
theorem C93_hangs {e : Env} {c : Libc} {items : List Item} (hi : ∀ i ∈ items, i.Of Args.perfProfile) (h0 : Args.stop (effects e items (noOptions [])) = false)
    {a : Arg} (ha : ¬ Recognised Args.perfProfile a) (as : List Arg) (stdin : List UInt8) (o : Ended) : ¬ PerfMain e c (items.flatMap Item.encode ++ a :: as) stdin o := by
  rintro ⟨k, s, h, -⟩
  obtain ⟨n, t, t1, t2, t3, t4⟩ := Args.loop_items e perf_wf.1 items hi (noOptions (items.flatMap Item.encode ++ a :: as)) (a :: as) rfl rfl
  have hst : Args.stop t = false := by
    rw [t1.stop, (stop_args (b := [])).stop]; exact h0
  have hb := (Args.body_unknown e t2 (t3 hst) ha).2 perf_wf.2
  have hno : ∀ k, Args.loop e Args.perfProfile k t = none := by
    have hc : ¬ (Args.stop t || t.args.isEmpty) = true := by simp [hst, t3 hst]
    intro k
    induction k with
    | zero => exact (options_next (k := 0) hc).1
    | succ k ih => rw [(options_next hc).2, hb]; exact ih
  have := options_mono (Nat.le_add_right k n) h
  rw [t4, hno] at this
  cases this

/-! ### An example -/

instance (n : Nat) : Decidable (Special n) :=
  decidable_of_iff (∃ k < n + 2, n + 2 = 2 ^ (k + 1)) ⟨fun ⟨k, _, h⟩ => ⟨k, h⟩, fun ⟨k, h⟩ => ⟨k, by rw [h]; exact Nat.lt_of_succ_lt Nat.lt_two_pow_self, h⟩⟩

instance decFits : (prev ns : List Nat) → Decidable (Fits prev ns)
  | _, [] => isTrue trivial
  | prev, n :: ns => @instDecidableAnd _ _ _ (decFits (n :: prev) ns)

/-- A libc: sscanf reads decimal numbers. -/
def exampleLibc : Libc where
  scan t := if (t.takeWhile Char.isDigit).isEmpty then none else some (Nat.ofDigitChars 10 (t.takeWhile Char.isDigit) 0 : Nat)
  junk _ := 0
  version := "v".toList
  help := "h".toList
  part _ _ := "0.00".toList
  scratch := id

theorem exampleLibc_scans : exampleLibc.Scans := by
  intro n rest _
  have h : (dec n ++ ' ' :: rest).takeWhile Char.isDigit = dec n := by
    rw [List.takeWhile_append_of_pos (dec_digit n)]
    simp
  show (if ((dec n ++ ' ' :: rest).takeWhile Char.isDigit).isEmpty then none else some (Nat.ofDigitChars 10 ((dec n ++ ' ' :: rest).takeWhile Char.isDigit) 0 : Int)) = _
  rw [h, if_neg (by simpa using dec_ne n)]
  simp [dec, Nat.repr]

def exampleSamples : List (Nat × List UInt8) := [(12, "a;b;a;b".toList.map ord), (4, "b;c".toList.map ord), (1, "c;a;d".toList.map ord)]

/-- `fble-perf-profile -s c` on three samples.  The second line has 5 characters, the last 6, the size of a buffer, but the first is longer. -/
theorem C93_example : let items := [Item.push "-s" "squashes" "c".toList]
    (∀ i ∈ items, i.Of Args.perfProfile) ∧ (∀ e, Args.stop (effects e items (noOptions [])) = false) ∧ squashed items = ["c".toList] ∧
    (∀ l ∈ exampleSamples, Good l) ∧ Tail (" 100% x\n".toList.map ord) ∧ Tail ("4 b".toList.map ord) ∧
    Fits [] (lengths ("100.00% 0.00% a".toList.map ord) exampleSamples (" 100% x".toList.map ord)) ∧
    ¬ Fits [] (lengths ("ab".toList.map ord) exampleSamples []) ∧
    countOf ["c".toList] "a".toList (textOf exampleSamples) = 3 ∧ timeOf ["c".toList] "a".toList (textOf exampleSamples) = 13 ∧ selfOf ["c".toList] "b".toList (textOf exampleSamples) = 16 ∧
    callsOf ["c".toList] "a".toList "b".toList (textOf exampleSamples) = 2 ∧ callTimeOf ["c".toList] "a".toList "b".toList (textOf exampleSamples) = 12 ∧
    callTimeOf ["c".toList] "<root>".toList "a".toList (textOf exampleSamples) = 13 ∧ exampleLibc.scan "x y".toList = none := by
  refine ⟨?_, fun e => rfl, rfl, by unfold Good; decide +kernel, ?_⟩
  · intro i hi
    simp only [List.mem_cons, List.not_mem_nil, or_false] at hi
    subst hi
    simp [Item.Of, Args.perfProfile]
  · unfold Tail; decide +kernel

end Verif.Profile.Perf
