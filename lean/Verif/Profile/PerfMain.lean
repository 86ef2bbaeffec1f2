import Verif.Profile.Perf
import Verif.Profile.Report
import Verif.Support.GetLine
import Verif.Args.Thm
/-
C93: fble-perf-profile, from its arguments and input to what it prints, /repo/bin/fble-perf-profile.c.

The model puts together those of its options (`Args`), of GetLine (`Support.GetLine`), of Sample (`Profile.Perf`) and of the report (`Profile.Report`).

SIMPLIFIED: sscanf with "%i" is a parameter; a character is a byte; a file is the list of its bytes; the semicolons that Sample replaces in the buffer do not matter, as GetLine overwrites them.
-/
namespace Verif.Profile.Perf
open Support.GetLine (getLine text firstLine nextN next)
open Support (GetLine.Str)
open Args (Arg Env Recognised effects)

/-- A byte as a character. -/
def chr (b : UInt8) : Char := Char.ofNat b.toNat

/-- The C string in the buffer: what is in front of the first NUL.  GetLine puts one behind the text. -/
def cstr (l : GetLine.Str) : List Char := ((text l).takeWhile (· != 0)).map chr

/-- An int as uint64_t: the call of FbleProfileSample, fble-perf-profile.c:124. -/
def asTime (c : Int) : Nat := (c.emod (2 ^ 64)).toNat

/-- fble-perf-profile.c:199-203: this line ends the list of samples. -/
def ends (t : List Char) : Prop := t.head? = some ' ' ∨ ' ' ∉ t

instance (t : List Char) : Decidable (ends t) := by unfold ends; infer_instance

/-- How reading the samples ends: with a write outside of the buffer, with a line that cannot be parsed, or with a profile. -/
inductive Read where
  | ub
  | bad
  | ok (s : PS)

theorem loop_rest (junk : Nat → UInt8) : ∀ (file : List UInt8) (l : GetLine.Str), (Support.GetLine.loop junk file l).2.1 = true → (Support.GetLine.loop junk file l).1.length < file.length := by
  intro file
  induction file with
  | nil => intro l h; simp [Support.GetLine.loop] at h
  | cons c cs ih =>
    intro l h
    unfold Support.GetLine.loop at h ⊢
    split
    · simp
    · rename_i hc
      rw [if_neg hc] at h
      exact Nat.lt_succ_of_lt (ih _ h)

/-- The loop over the lines, fble-perf-profile.c:196-214. -/
def readSamples (junk : Nat → UInt8) (scan : List Char → Option Int) (sq : List Name) (file : List UInt8) (l : GetLine.Str) (s : PS) : Read :=
  let r := getLine junk file l
  if r.2.2.oob = true then .ub
  else if _h : r.2.1 = true then
    let t := cstr r.2.2
    if ends t then .ok s
    else match scan t with
      | none => .bad
      | some c => readSamples junk scan sq r.1 r.2.2 (sample sq (asTime c) ((t.dropWhile (· != ' ')).drop 1) s)
  else .ok s
termination_by file.length
decreasing_by exact loop_rest junk file _ _h

/-- What is there besides the program: sscanf with "%i", what memory from realloc contains, the texts for `--help` and `--version`, what the floating point numbers look like, and the contents of
the scratch buffers of the sort. -/
structure Libc where
  scan : List Char → Option Int
  junk : Nat → UInt8
  version : List Char
  help : List Char
  part : Nat → Nat → List Char
  scratch : List Data → List Data

/-- How the program ends: with undefined behaviour, or with an exit status after it printed a text to stdout. -/
inductive Ended where
  | ub
  | exit (status : Int) (out : List Char)

/-- The location of a block: of the root, profile.c:524-528; of others, fble-perf-profile.c:81-85. -/
def location (id : Nat) : List Char := if id = 0 then ":0:0".toList else "???:0:0".toList

/-- The report on a profile: fble-perf-profile.c:217-218. -/
def printed (c : Libc) (r : PS) : List Char :=
  reportText c.part (fun id => r.names.getD id []) location (Verif.Profile.report c.scratch (run 0 r.ops))

/-- fble-perf-profile.c:188-222: after the options.  EX_FAIL is 1, EX_SUCCESS is 0. -/
def readAll (c : Libc) (sq : List Name) (stdin : List UInt8) : Ended :=
  let r := getLine c.junk stdin ⟨0, 0, fun _ => 0, false⟩
  if r.2.2.oob then .ub
  else match readSamples c.junk c.scan sq r.1 r.2.2 start with
    | .ub => .ub
    | .bad => .exit 1 []
    | .ok s => .exit 0 (printed c s)

/-- The variables when main starts, fble-perf-profile.c:145-153. -/
def noOptions (args : List Arg) : Args.St := ⟨fun _ => false, fun _ => none, fun _ => [], [], none, false, args, false⟩

/-- fble-perf-profile.c:170-222: after the loop over the options. -/
def finish (c : Libc) (s : Args.St) (stdin : List UInt8) : Ended :=
  if s.flags "version" then .exit 0 c.version
  else if s.flags "help" then .exit 0 c.help
  else if s.error then .exit 2 []
  else readAll c ((s.lists "squashes").filterMap id) stdin

/-- main of fble-perf-profile, fble-perf-profile.c:143-222: with these arguments and input it may end like this. -/
def PerfMain (e : Env) (c : Libc) (args : List Arg) (stdin : List UInt8) (o : Ended) : Prop :=
  ∃ k s, Args.loop e Args.perfProfile k (noOptions args) = some s ∧ o = finish c s stdin

/-! ### Specification -/

/-- The bytes of a text. -/
def ord (c : Char) : UInt8 := UInt8.ofNat c.toNat

/-- A line of the report of perf: the count, a space, and the path. -/
def lineOf (l : Nat × List UInt8) : List UInt8 := (dec l.1).map ord ++ 32 :: l.2

/-- Lines. -/
def linesOf (ls : List (List UInt8)) : List UInt8 := ls.flatMap fun l => l ++ [10]

/-- sscanf reads numbers that fit into an int. -/
def Libc.Scans (c : Libc) : Prop := ∀ n rest, n < 2 ^ 31 → c.scan (dec n ++ ' ' :: rest) = some (n : Int)

/-- The sizes of the buffer. -/
def Special (n : Nat) : Prop := ∃ k, n + 2 = 2 ^ (k + 1)

/-- A line whose length is one of the sizes of the buffer has a longer line in front of it.  The list has the lengths of the lines, `prev` those of the lines before. -/
def Fits (prev : List Nat) : List Nat → Prop
  | [] => True
  | n :: ns => (Special n → ∃ m ∈ prev, n < m) ∧ Fits (n :: prev) ns

/-- A sample that can be read: the count fits into an int, the path has neither a newline nor a NUL. -/
def Good (l : Nat × List UInt8) : Prop := l.1 < 2 ^ 31 ∧ (10 : UInt8) ∉ l.2 ∧ (0 : UInt8) ∉ l.2

/-- What follows the samples: no complete line, or one that begins with a space or has none. -/
def Tail (tail : List UInt8) : Prop :=
  (10 : UInt8) ∉ tail ∨ ends (((firstLine tail).takeWhile (· != 0)).map chr)

/-- The samples with paths as text. -/
def textOf (ls : List (Nat × List UInt8)) : List (Nat × List Char) := ls.map fun l => (l.1, l.2.map chr)

/-! ### Proofs -/

theorem nextN_eq (k : Nat) : nextN k 0 + 2 = 2 ^ (k + 1) := by
  induction k with
  | zero => rfl
  | succ k ih => rw [nextN, next, Nat.pow_succ]; omega

theorem nextN_nextN (j k : Nat) : nextN j (nextN k 0) = nextN (j + k) 0 := by
  induction j with
  | zero => simp [nextN]
  | succ j ih => rw [Nat.succ_add, nextN, nextN, ih]

theorem special_iff (n : Nat) : Special n ↔ ∃ k, n = nextN k 0 := by
  constructor
  · rintro ⟨k, h⟩; exact ⟨k, by have := nextN_eq k; omega⟩
  · rintro ⟨k, rfl⟩; exact ⟨k, nextN_eq k⟩

/-- The buffer is as large as the lines so far need it. -/
structure Sized (prev : List Nat) (cap : Nat) : Prop where
  fits : ∀ m ∈ prev, m ≤ cap
  need : ∃ k, cap = nextN k 0 ∧ ∀ j < k, ∃ m ∈ prev, nextN j 0 < m

theorem getLine_line (junk : Nat → UInt8) {file : List UInt8} {l : GetLine.Str} (h : l.oob = false) {prev : List Nat} (hs : Sized prev l.capacity) :
    let r := getLine junk file l
    let n := (firstLine file).length
    r.1 = (file.dropWhile (· != 10)).drop 1 ∧ (r.2.1 = true ↔ (10 : UInt8) ∈ file) ∧ text r.2.2 = firstLine file ∧
    (r.2.2.oob = true ↔ ¬ (Special n → ∃ m ∈ prev, n < m)) ∧ Sized (n :: prev) r.2.2.capacity := by
  intro r n
  obtain ⟨g1, g2, g3, _, g5⟩ := Support.GetLine.C49_getLine junk file l h
  obtain ⟨k, hk, hj⟩ := hs.need
  refine ⟨g1, g2, g3, g5.trans ?_, ?_⟩
  · rw [hk]
    simp only [nextN_nextN, Classical.not_imp, not_exists, not_and, Nat.not_lt]
    constructor
    · rintro ⟨m, hm⟩
      refine ⟨(special_iff _).mpr ⟨_, hm⟩, fun x hx => ?_⟩
      have h1 := hs.fits x hx
      have h2 : nextN k 0 ≤ nextN (m + k) 0 := by
        rcases Nat.eq_zero_or_pos m with rfl | hp
        · simp
        · exact Nat.le_of_lt (Support.GetLine.nextN_mono 0 _ _ (by omega))
      show x ≤ (firstLine file).length
      omega
    · rintro ⟨h1, h2⟩
      obtain ⟨j, hj'⟩ := (special_iff _).mp h1
      rcases Nat.lt_or_ge j k with h | h
      · obtain ⟨m, hm, hlt⟩ := hj j h
        have := h2 m hm
        omega
      · exact ⟨j - k, by rw [Nat.sub_add_cancel h]; exact hj'⟩
  · obtain ⟨_, _, _, _, i5, i6, k', i7, i8⟩ := Support.GetLine.loop_spec junk l.capacity file { l with size := 0 } h (Nat.zero_le _)
      ⟨0, rfl, fun j hj => absurd hj (Nat.not_lt_zero _)⟩
    have hsz : (Support.GetLine.loop junk file { l with size := 0 }).2.2.size = n := by rw [i5]; simp [n]
    have hcap : r.2.2.capacity = (Support.GetLine.loop junk file { l with size := 0 }).2.2.capacity := rfl
    rw [hsz] at i6 i8
    have hle : l.capacity ≤ r.2.2.capacity := by
      rw [hcap, i7]
      rcases Nat.eq_zero_or_pos k' with rfl | hp
      · simp [nextN]
      · exact Nat.le_of_lt (Support.GetLine.nextN_mono l.capacity 0 _ hp)
    refine ⟨?_, k' + k, by rw [hcap, i7, hk, nextN_nextN], ?_⟩
    · intro m hm
      rcases List.mem_cons.mp hm with rfl | hm
      · rw [hcap]; exact i6
      · exact Nat.le_trans (hs.fits m hm) hle
    · intro j hj'
      rcases Nat.lt_or_ge j k with h | h
      · obtain ⟨m, hm, hlt⟩ := hj j h
        exact ⟨m, List.mem_cons_of_mem _ hm, hlt⟩
      · refine ⟨n, List.mem_cons_self, ?_⟩
        have := i8 (j - k) (by omega)
        rw [hk, nextN_nextN, Nat.sub_add_cancel h] at this
        exact this

theorem firstLine_line {line rest : List UInt8} (h : (10 : UInt8) ∉ line) : firstLine (line ++ 10 :: rest) = line ∧
    ((line ++ 10 :: rest).dropWhile (· != 10)).drop 1 = rest := by
  have hall : ∀ x ∈ line, (x != 10) = true := by
    intro x hx
    simp only [bne_iff_ne, ne_eq]
    rintro rfl
    exact h hx
  constructor
  · rw [firstLine, List.takeWhile_append_of_pos hall]; simp
  · rw [List.dropWhile_append_of_pos hall]; simp

theorem dec_digit (n : Nat) : ∀ c ∈ dec n, c.isDigit = true := by
  intro c hc
  exact Nat.isDigit_of_mem_toDigits (b := 10) (by decide) (by decide) (by simpa [dec, Nat.repr] using hc)

theorem chr_ord {c : Char} (h : c.toNat < 256) : chr (ord c) = c := by
  simp only [chr, ord, UInt8.toNat_ofNat']
  rw [Nat.mod_eq_of_lt (by simpa using h)]
  exact Char.ofNat_toNat c

theorem digit_bounds {c : Char} (h : c.isDigit = true) : 48 ≤ c.toNat ∧ c.toNat ≤ 57 := by
  simp only [Char.isDigit, Bool.and_eq_true, decide_eq_true_eq] at h
  exact ⟨by simpa [UInt32.le_iff_toNat_le] using h.1, by simpa [UInt32.le_iff_toNat_le] using h.2⟩

theorem ord_toNat {c : Char} (h : c.toNat < 256) : (ord c).toNat = c.toNat := by
  simp only [ord, UInt8.toNat_ofNat']
  exact Nat.mod_eq_of_lt (by simpa using h)

theorem dec_ne (n : Nat) : dec n ≠ [] := by
  intro h
  have := Nat.length_toDigits_pos (b := 10) (n := n)
  simp [dec, Nat.repr] at h

theorem lineOf_text {l : Nat × List UInt8} (hg : Good l) : (10 : UInt8) ∉ lineOf l ∧
    ((lineOf l).takeWhile (· != 0)).map chr = dec l.1 ++ ' ' :: l.2.map chr := by
  have hd : ∀ b ∈ (dec l.1).map ord, b ≠ 10 ∧ b ≠ 0 := by
    intro b hb
    obtain ⟨c, hc, rfl⟩ := List.mem_map.mp hb
    have := digit_bounds (dec_digit _ c hc)
    have ho := ord_toNat (c := c) (by omega)
    constructor <;> intro h <;> rw [h] at ho <;> simp at ho <;> omega
  constructor
  · intro h
    rcases List.mem_append.mp h with h | h
    · exact (hd _ h).1 rfl
    · rcases List.mem_cons.mp h with h | h
      · cases h
      · exact hg.2.1 h
  · have hall : ∀ b ∈ lineOf l, (b != 0) = true := by
      intro b hb
      simp only [bne_iff_ne, ne_eq]
      rintro rfl
      rcases List.mem_append.mp hb with h | h
      · exact (hd _ h).2 rfl
      · rcases List.mem_cons.mp h with h | h
        · cases h
        · exact hg.2.2 h
    have hw : (lineOf l).takeWhile (· != 0) = lineOf l := by simpa using List.takeWhile_append_of_pos (l₂ := []) hall
    rw [hw, lineOf, List.map_append, List.map_cons, List.map_map]
    congr 1
    · conv => rhs; rw [← List.map_id (dec l.1)]
      refine List.map_congr_left fun c hc => ?_
      have := digit_bounds (dec_digit _ c hc)
      exact chr_ord (by omega)

theorem not_ends (n : Nat) (p : List Char) : ¬ ends (dec n ++ ' ' :: p) := by
  rintro (h | h)
  · cases hd : dec n with
    | nil => exact dec_ne n hd
    | cons c cs =>
      rw [hd] at h
      simp at h
      have := dec_digit n c (by rw [hd]; simp)
      rw [h] at this
      exact absurd this (by decide)
  · exact h (by simp)

theorem path_of (n : Nat) (p : List Char) : ((dec n ++ ' ' :: p).dropWhile (· != ' ')).drop 1 = p := by
  rw [List.dropWhile_append_of_pos]
  · simp
  · intro c hc
    have := dec_digit n c hc
    simp only [bne_iff_ne, ne_eq]
    rintro rfl
    exact absurd this (by decide)

theorem asTime_nat {n : Nat} (h : n < 2 ^ 31) : asTime (n : Int) = n := by
  show ((n : Int) % 2 ^ 64).toNat = n
  omega

/-- Reading the samples. -/
theorem reads (c : Libc) (hc : c.Scans) (sq : List Name) (rest : List UInt8) : ∀ (ls : List (Nat × List UInt8)), (∀ l ∈ ls, Good l) →
    ∀ (prev : List Nat) (l : GetLine.Str) (s : PS), l.oob = false → Sized prev l.capacity →
    (Fits prev (ls.map fun l => (lineOf l).length) → ∃ l', l'.oob = false ∧ Sized ((ls.map fun l => (lineOf l).length).reverse ++ prev) l'.capacity ∧
      readSamples c.junk c.scan sq (linesOf (ls.map lineOf) ++ rest) l s = readSamples c.junk c.scan sq rest l' (Perf.report sq (textOf ls) s)) ∧
    (¬ Fits prev (ls.map fun l => (lineOf l).length) → readSamples c.junk c.scan sq (linesOf (ls.map lineOf) ++ rest) l s = .ub) := by
  intro ls
  induction ls with
  | nil =>
    intro _ prev l s ho hs
    exact ⟨fun _ => ⟨l, ho, hs, rfl⟩, fun h => absurd trivial h⟩
  | cons x xs ih =>
    intro hg prev l s ho hs
    have hgx := hg x List.mem_cons_self
    obtain ⟨hx, ht⟩ := lineOf_text hgx
    have he : linesOf ((x :: xs).map lineOf) ++ rest = lineOf x ++ 10 :: (linesOf (xs.map lineOf) ++ rest) := by
      simp [linesOf]
    obtain ⟨f1, f2⟩ := firstLine_line (rest := linesOf (xs.map lineOf) ++ rest) hx
    obtain ⟨g1, g2, g3, g4, g5⟩ := getLine_line c.junk (file := lineOf x ++ 10 :: (linesOf (xs.map lineOf) ++ rest)) ho hs
    rw [f1] at g3 g4 g5
    rw [f2] at g1
    have g2 := g2.mpr (by simp)
    rw [he, readSamples]
    by_cases hoob : (Special (lineOf x).length → ∃ m ∈ prev, (lineOf x).length < m)
    · have ho' : (getLine c.junk (lineOf x ++ 10 :: (linesOf (xs.map lineOf) ++ rest)) l).2.2.oob = false := by
        cases hb : (getLine c.junk (lineOf x ++ 10 :: (linesOf (xs.map lineOf) ++ rest)) l).2.2.oob with
        | false => rfl
        | true => exact absurd hoob (g4.mp hb)
      have hcs : cstr (getLine c.junk (lineOf x ++ 10 :: (linesOf (xs.map lineOf) ++ rest)) l).2.2 = dec x.1 ++ ' ' :: x.2.map chr := by
        rw [cstr, g3, ht]
      simp only [ho', g2, hcs, Bool.false_eq_true, if_false, dite_true, if_neg (not_ends _ _), hc _ _ hgx.1, path_of, asTime_nat hgx.1, g1]
      obtain ⟨i1, i2⟩ := ih (fun l hl => hg l (List.mem_cons_of_mem _ hl)) _ _ (sample sq x.1 (x.2.map chr) s) ho' g5
      refine ⟨fun h => ?_, fun h => ?_⟩
      · obtain ⟨l', h1, h2, h3⟩ := i1 h.2
        exact ⟨l', h1, by simpa using h2, h3⟩
      · exact i2 fun h' => h ⟨hoob, h'⟩
    · rw [if_pos (g4.mpr hoob)]
      exact ⟨fun h => absurd h.1 hoob, fun _ => rfl⟩

theorem fits_append : ∀ (xs ys prev : List Nat), Fits prev (xs ++ ys) ↔ Fits prev xs ∧ Fits (xs.reverse ++ prev) ys := by
  intro xs
  induction xs with
  | nil => intro ys prev; simp [Fits]
  | cons x xs ih => intro ys prev; simp [Fits, ih, and_assoc]

/-- The lengths of the lines that are read. -/
def lengths (header : List UInt8) (ls : List (Nat × List UInt8)) (last : List UInt8) : List Nat :=
  header.length :: ls.map (fun l => (lineOf l).length) ++ [last.length]

/-- What is read of an input: the first line, the samples, and the next line. -/
theorem readAll_spec (c : Libc) (hc : c.Scans) (sq : List Name) {header : List UInt8} (hh : (10 : UInt8) ∉ header) {ls : List (Nat × List UInt8)} (hl : ∀ l ∈ ls, Good l)
    (tail : List UInt8) :
    let o := readAll c sq (header ++ 10 :: (linesOf (ls.map lineOf) ++ tail))
    (¬ Fits [] (lengths header ls (firstLine tail)) → o = .ub) ∧
    (Fits [] (lengths header ls (firstLine tail)) →
      (Tail tail → o = .exit 0 (printed c (Perf.report sq (textOf ls) start))) ∧
      ((10 : UInt8) ∈ tail → ¬ ends (((firstLine tail).takeWhile (· != 0)).map chr) → c.scan (((firstLine tail).takeWhile (· != 0)).map chr) = none → o = .exit 1 [])) := by
  intro o
  obtain ⟨f1, f2⟩ := firstLine_line (rest := linesOf (ls.map lineOf) ++ tail) hh
  obtain ⟨g1, g2, g3, g4, g5⟩ := getLine_line c.junk (file := header ++ 10 :: (linesOf (ls.map lineOf) ++ tail)) (l := ⟨0, 0, fun _ => 0, false⟩) (prev := []) rfl
    ⟨by simp, 0, rfl, fun j hj => absurd hj (Nat.not_lt_zero _)⟩
  rw [f1] at g3 g4 g5
  rw [f2] at g1
  have ho : o = readAll c sq (header ++ 10 :: (linesOf (ls.map lineOf) ++ tail)) := rfl
  rw [readAll] at ho
  simp only [g1] at ho
  have hfit : Fits [] (lengths header ls (firstLine tail)) ↔ (Special header.length → ∃ m ∈ [], header.length < m) ∧
      Fits [header.length] (ls.map fun l => (lineOf l).length) ∧
      Fits ((ls.map fun l => (lineOf l).length).reverse ++ [header.length]) [(firstLine tail).length] := by
    rw [lengths, List.cons_append, Fits, fits_append]
  rw [hfit]
  by_cases h0 : (Special header.length → ∃ m ∈ ([] : List Nat), header.length < m)
  · have ho' : (getLine c.junk (header ++ 10 :: (linesOf (ls.map lineOf) ++ tail)) ⟨0, 0, fun _ => 0, false⟩).2.2.oob = false := by
      cases hb : (getLine c.junk (header ++ 10 :: (linesOf (ls.map lineOf) ++ tail)) ⟨0, 0, fun _ => 0, false⟩).2.2.oob with
      | false => rfl
      | true => exact absurd h0 (g4.mp hb)
    rw [ho'] at ho
    simp only [Bool.false_eq_true, if_false] at ho
    obtain ⟨i1, i2⟩ := reads c hc sq tail ls hl _ _ start ho' g5
    by_cases h1 : Fits [header.length] (ls.map fun l => (lineOf l).length)
    · obtain ⟨l', k1, k2, k3⟩ := i1 h1
      rw [k3, readSamples] at ho
      obtain ⟨m1, m2, m3, m4, m5⟩ := getLine_line c.junk (file := tail) k1 k2
      by_cases h2 : Special (firstLine tail).length → ∃ m ∈ (ls.map fun l => (lineOf l).length).reverse ++ [header.length], (firstLine tail).length < m
      · have ho2 : (getLine c.junk tail l').2.2.oob = false := by
          cases hb : (getLine c.junk tail l').2.2.oob with
          | false => rfl
          | true => exact absurd h2 (m4.mp hb)
        have hcs : cstr (getLine c.junk tail l').2.2 = ((firstLine tail).takeWhile (· != 0)).map chr := by rw [cstr, m3]
        simp only [ho2, hcs, Bool.false_eq_true, if_false] at ho
        refine ⟨fun h => absurd ⟨h0, h1, h2, trivial⟩ h, fun _ => ⟨?_, ?_⟩⟩
        · rintro (h | h)
          · rw [dif_neg (fun hb => h (m2.mp hb))] at ho
            exact ho
          · by_cases hb : (getLine c.junk tail l').2.1 = true
            · rw [dif_pos hb, if_pos h] at ho
              exact ho
            · rw [dif_neg hb] at ho
              exact ho
        · intro h3 h4 h5
          rw [dif_pos (m2.mpr h3), if_neg h4, h5] at ho
          exact ho
      · rw [if_pos (m4.mpr h2)] at ho
        exact ⟨fun _ => ho, fun h => absurd h.2.2.1 h2⟩
    · rw [i2 h1] at ho
      exact ⟨fun _ => ho, fun h => absurd h.2.1 h1⟩
  · rw [if_pos (g4.mpr h0)] at ho
    exact ⟨fun _ => ho, fun h => absurd h.1 h0⟩

end Verif.Profile.Perf
