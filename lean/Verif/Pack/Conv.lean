import Verif.Pack.Heap
/-
Model of the C conversions between C data and fble values:
/repo/pkgs/core/int.fble.c, char.fble.c, string.fble.c.
-/
namespace Verif.Pack

/-- int.fble.c:26-35 `MakeIntP` (argument known to be positive; `assert(x > 0)`). -/
def mkIntP (poison : Word) (x : Nat) (s : St) : Option (Word × St) :=
  if x = 0 then none
  else if x = 1 then mkEnum poison 0 s
  else
    match mkIntP poison (x / 2) s with
    | none => none
    | some (p, s) => mkUnion (1 + x % 2) p s
termination_by x
decreasing_by omega

/-- int.fble.c:57-72 `FbleNewIntValue`. `none` also stands for undefined behaviour: `-x`
overflows when `x` is the least 64 bit integer. -/
def mkInt (poison : Word) (x : Int) (s : St) : Option (Word × St) :=
  if x < 0 then
    if x = -2^63 then none else
    match mkIntP poison (-x).toNat s with
    | none => none
    | some (p, s) => mkUnion 0 p s
  else if x = 0 then mkEnum poison 1 s
  else
    match mkIntP poison x.toNat s with
    | none => none
    | some (p, s) => mkUnion 2 p s

/-- int.fble.c:47-55 `ReadIntP`: `ReadIntP h x n` says the call returns `n` without overflowing
`int64_t` on the way. -/
inductive ReadIntP (h : Heap) : Word → Int → Prop where
  | one {x} : UnionTag h x (.ok 0) → ReadIntP h x 1
  | even {x p n} : UnionTag h x (.ok 1) → UnionArg h x (.ok p) → ReadIntP h p n →
      2 * n < 2^63 → ReadIntP h x (2 * n)
  | odd {x p n} : UnionTag h x (.ok 2) → UnionArg h x (.ok p) → ReadIntP h p n →
      2 * n + 1 < 2^63 → ReadIntP h x (2 * n + 1)

/-- int.fble.c:75-83 `FbleIntValueAccess`. -/
inductive ReadInt (h : Heap) : Word → Int → Prop where
  | neg {x p n} : UnionTag h x (.ok 0) → UnionArg h x (.ok p) → ReadIntP h p n → ReadInt h x (-n)
  | zero {x} : UnionTag h x (.ok 1) → ReadInt h x 0
  | pos {x p n} : UnionTag h x (.ok 2) → UnionArg h x (.ok p) → ReadIntP h p n → ReadInt h x n

/-- char.fble.c:14-19 `Chars`, as character codes in tag order. -/
def charsTable : List Nat := [10, 9] ++ (List.range 95).map (· + 32)

/-- char.fble.c:22-32 `FbleNewCharValue`; `strchr` is the index of the first occurrence. -/
def mkChar (poison : Word) (c : Nat) (s : St) : Option (Word × St) :=
  match charsTable.idxOf? c with
  | some tag => mkEnum poison tag s
  | none =>
    match charsTable.idxOf? 63 with
    | some tag => mkEnum poison tag s
    | none => none   -- assert(c != '?')

/-- char.fble.c:35-38 `FbleCharValueAccess` (reading past the table is no result). -/
def ReadChar (h : Heap) (w : Word) (c : Nat) : Prop :=
  ∃ tag, UnionTag h w (.ok tag) ∧ charsTable[tag]? = some c

/-- The loop of string.fble.c:38-42, characters in the order visited (last first). -/
def stringLoop (poison : Word) : List Nat → Word → St → Option (Word × St)
  | [], charS, s => some (charS, s)
  | c :: rest, charS, s =>
    match mkChar poison c s with
    | none => none
    | some (charV, s) =>
      match mkStruct poison [charV, charS] s with
      | none => none
      | some (charP, s) =>
        match mkUnion 0 charP s with
        | none => none
        | some (t, s) => stringLoop poison rest t s

/-- string.fble.c:34-44 `FbleNewStringValue`; `str` is the sequence of characters before the
terminating NUL. -/
def mkString (poison : Word) (str : List Nat) (s : St) : Option (Word × St) :=
  match mkEnum poison 1 s with
  | none => none
  | some (charS, s) => stringLoop poison str.reverse charS s

/-- string.fble.c:16-31 `FbleStringValueAccess` (the NUL terminated result without its NUL). -/
inductive ReadString (h : Heap) : Word → List Nat → Prop where
  | done {w tag} : UnionTag h w (.ok tag) → tag ≠ 0 → ReadString h w []
  | next {w charP charV str c cs} : UnionTag h w (.ok 0) → UnionArg h w (.ok charP) →
      StructField h charP 0 (.ok charV) → StructField h charP 1 (.ok str) →
      ReadChar h charV c → ReadString h str cs → ReadString h w (c :: cs)

/-! ### Specification of the encodings -/

/-- The data value of type `IntP@` for a positive number: binary digits, least significant
outermost (pkgs/core/Core/Int/IntP.fble). -/
def intPData (x : Nat) : Data :=
  if x ≤ 1 then enumData 0 else .union (1 + x % 2) (intPData (x / 2))
termination_by x
decreasing_by omega

def intData (x : Int) : Data :=
  if x < 0 then .union 0 (intPData (-x).toNat)
  else if x = 0 then enumData 1
  else .union 2 (intPData x.toNat)

/-- What becomes of a character: itself if `Char@` has it, `?` otherwise. -/
def charOrQuestion (c : Nat) : Nat := if c ∈ charsTable then c else 63

theorem mkIntP_made (poison : Word) (x : Nat) (s : St) (hx : 0 < x) (k : Nat) (hk : x < 2 ^ k)
    (hg : Good s) (hs : k + 2 ≤ s.supply.length) :
    ∃ w s', mkIntP poison x s = some (w, s') ∧ Made s (k + 2) w s' (intPData x) := by
  induction k generalizing x s with
  | zero => simp at hk; omega
  | succ k ih =>
    unfold mkIntP intPData
    rw [if_neg (by omega)]
    by_cases h1 : x = 1
    · subst h1
      simp only [if_true, Nat.le_refl]
      obtain ⟨w, s', h1, m⟩ := mkEnum_made poison 0 hg (by omega)
      exact ⟨w, s', h1, m.good, m.le, by have := m.used; omega, m.denotes⟩
    · rw [if_neg h1, if_neg (by omega)]
      obtain ⟨p, s1, h2, m1⟩ := ih (x / 2) s (by omega) (by rw [Nat.pow_succ] at hk; omega) hg (by omega)
      obtain ⟨w, s2, h3, m2⟩ := mkUnion_made (tag := 1 + x % 2) m1.good
        (by have := m1.used; omega) m1.denotes
      refine ⟨w, s2, by simp [h2, h3], ?_⟩
      have m := m1.trans m2
      exact ⟨m.good, m.le, by have := m.used; omega, m.denotes⟩

theorem mkInt_made (poison : Word) (x : Int) (s : St) (hx : -2^63 < x) (hx' : x < 2^63)
    (hg : Good s) (hs : 66 ≤ s.supply.length) :
    ∃ w s', mkInt poison x s = some (w, s') ∧ Made s 66 w s' (intData x) := by
  unfold mkInt intData
  by_cases h0 : x < 0
  · rw [if_pos h0, if_pos h0, if_neg (by omega)]
    obtain ⟨p, s1, h2, m1⟩ := mkIntP_made poison (-x).toNat s (by omega) 63 (by omega) hg (by omega)
    obtain ⟨w, s2, h3, m2⟩ := mkUnion_made (tag := 0) m1.good (by have := m1.used; omega) m1.denotes
    exact ⟨w, s2, by simp [h2, h3], m1.trans m2⟩
  · rw [if_neg h0, if_neg h0]
    by_cases h1 : x = 0
    · rw [if_pos h1, if_pos h1]
      obtain ⟨w, s', h1, m⟩ := mkEnum_made poison 1 hg (by omega)
      exact ⟨w, s', h1, m.good, m.le, by have := m.used; omega, m.denotes⟩
    · rw [if_neg h1, if_neg h1]
      obtain ⟨p, s1, h2, m1⟩ := mkIntP_made poison x.toNat s (by omega) 63 (by omega) hg (by omega)
      obtain ⟨w, s2, h3, m2⟩ := mkUnion_made (tag := 2) m1.good (by have := m1.used; omega) m1.denotes
      exact ⟨w, s2, by simp [h2, h3], m1.trans m2⟩

theorem readIntP_of_denotes {h : Heap} (x : Nat) (w : Word) (hx : 0 < x) (hx' : x < 2^63)
    (hd : Denotes h w (intPData x)) : ReadIntP h w x := by
  induction x using Nat.strongRecOn generalizing w with
  | _ x ih =>
  unfold intPData at hd
  by_cases h1 : x ≤ 1
  · rw [if_pos h1] at hd
    have : x = 1 := by omega
    subst this
    exact .one (union_denotes hd).1
  · rw [if_neg h1] at hd
    obtain ⟨h2, ⟨r, h3, _, h4⟩, _⟩ := union_denotes hd
    have hr := ih (x / 2) (by omega) r (by omega) (by omega) h4
    rcases Nat.mod_two_eq_zero_or_one x with h5 | h5
    · rw [h5] at h2
      have hxe : (x : Int) = 2 * ((x / 2 : Nat) : Int) := by omega
      rw [hxe]
      exact .even h2 h3 hr (by omega)
    · rw [h5] at h2
      have hxe : (x : Int) = 2 * ((x / 2 : Nat) : Int) + 1 := by omega
      rw [hxe]
      exact .odd h2 h3 hr (by omega)

theorem readInt_of_denotes {h : Heap} (x : Int) (w : Word) (hx : -2^63 < x) (hx' : x < 2^63)
    (hd : Denotes h w (intData x)) : ReadInt h w x := by
  unfold intData at hd
  by_cases h0 : x < 0
  · rw [if_pos h0] at hd
    obtain ⟨h2, ⟨r, h3, _, h4⟩, _⟩ := union_denotes hd
    have := ReadInt.neg h2 h3 (readIntP_of_denotes _ r (by omega) (by omega) h4)
    have hxe : x = -(((-x).toNat : Nat) : Int) := by omega
    rw [hxe]; exact this
  · rw [if_neg h0] at hd
    by_cases h1 : x = 0
    · rw [if_pos h1] at hd; subst h1; exact .zero (union_denotes hd).1
    · rw [if_neg h1] at hd
      obtain ⟨h2, ⟨r, h3, _, h4⟩, _⟩ := union_denotes hd
      have := ReadInt.pos h2 h3 (readIntP_of_denotes _ r (by omega) (by omega) h4)
      have hxe : x = ((x.toNat : Nat) : Int) := by omega
      rw [hxe]; exact this

theorem UnionTag.det {h : Heap} {w : Word} {a b : Acc Nat} (h1 : UnionTag h w a)
    (h2 : UnionTag h w b) : a = b := by
  obtain ⟨o, ho, rfl⟩ := h1; obtain ⟨p, hp, rfl⟩ := h2; rw [ho.det hp]
theorem UnionArg.det {h : Heap} {w : Word} {a b : Acc Word} (h1 : UnionArg h w a)
    (h2 : UnionArg h w b) : a = b := by
  obtain ⟨o, ho, rfl⟩ := h1; obtain ⟨p, hp, rfl⟩ := h2; rw [ho.det hp]
theorem UnionField.det {h : Heap} {w : Word} {i : Nat} {a b : Acc Word} (h1 : UnionField h w i a)
    (h2 : UnionField h w i b) : a = b := by
  obtain ⟨o, ho, rfl⟩ := h1; obtain ⟨p, hp, rfl⟩ := h2; rw [ho.det hp]
theorem StructField.det {h : Heap} {w : Word} {i : Nat} {a b : Acc Word} (h1 : StructField h w i a)
    (h2 : StructField h w i b) : a = b := by
  obtain ⟨o, ho, rfl⟩ := h1; obtain ⟨p, hp, rfl⟩ := h2; rw [ho.det hp]

theorem ReadIntP.det {h : Heap} {w : Word} {a b : Int} (h1 : ReadIntP h w a)
    (h2 : ReadIntP h w b) : a = b := by
  induction h1 generalizing b with
  | one t =>
    cases h2 with
    | one => rfl
    | even t' => have := t.det t'; cases this
    | odd t' => have := t.det t'; cases this
  | even t a _ _ ih =>
    cases h2 with
    | one t' => have := t.det t'; cases this
    | even _ a' r => have := a.det a'; cases this; rw [ih r]
    | odd t' => have := t.det t'; cases this
  | odd t a _ _ ih =>
    cases h2 with
    | one t' => have := t.det t'; cases this
    | even t' => have := t.det t'; cases this
    | odd _ a' r => have := a.det a'; cases this; rw [ih r]

theorem ReadInt.det {h : Heap} {w : Word} {a b : Int} (h1 : ReadInt h w a)
    (h2 : ReadInt h w b) : a = b := by
  cases h1 with
  | neg t a r =>
    cases h2 with
    | neg _ a' r' => have := a.det a'; cases this; rw [r.det r']
    | zero t' => have := t.det t'; cases this
    | pos t' => have := t.det t'; cases this
  | zero t =>
    cases h2 with
    | neg t' => have := t.det t'; cases this
    | zero => rfl
    | pos t' => have := t.det t'; cases this
  | pos t a r =>
    cases h2 with
    | neg t' => have := t.det t'; cases this
    | zero t' => have := t.det t'; cases this
    | pos _ a' r' => have := a.det a'; cases this; rw [r.det r']

/-- Tag of a character. -/
def charTag (c : Nat) : Nat := charsTable.idxOf (charOrQuestion c)

theorem idxOf?_some {l : List Nat} {c : Nat} (h : c ∈ l) : l.idxOf? c = some (l.idxOf c) := by
  rw [List.idxOf?_eq_some_iff]
  refine ⟨by simpa using List.idxOf_lt_length_iff.mpr h, by simp, ?_⟩
  intro j hj
  have := List.not_of_lt_findIdx (xs := l) (p := (· == c)) hj
  simpa using this

theorem mkChar_eq (poison : Word) (c : Nat) (s : St) : mkChar poison c s = mkEnum poison (charTag c) s := by
  unfold mkChar charTag charOrQuestion
  by_cases h : c ∈ charsTable
  · rw [if_pos h, idxOf?_some h]
  · rw [if_neg h, List.idxOf?_eq_none_iff.mpr h]
    rfl

theorem charOrQuestion_mem (c : Nat) : charOrQuestion c ∈ charsTable := by
  unfold charOrQuestion; split
  · assumption
  · decide

theorem charTag_get (c : Nat) : charsTable[charTag c]? = some (charOrQuestion c) := by
  unfold charTag
  have h := charOrQuestion_mem c
  rw [List.getElem?_eq_getElem (List.idxOf_lt_length_iff.mpr h)]
  simp

theorem stringLoop_made (poison : Word) : ∀ (cs : List Nat) (tail : Word)
    (done : List Data) (s : St), Good s → 4 * cs.length ≤ s.supply.length →
    Denotes s.heap tail (listData done) →
    ∃ w s', stringLoop poison cs tail s = some (w, s') ∧
      Made s (4 * cs.length) w s' (listData ((cs.map (fun c => enumData (charTag c))).reverse ++ done))
  | [], tail, done, s, hg, _, ht =>
    ⟨tail, s, rfl, hg, Heap.le_refl _, by simp, by simpa using ht⟩
  | l :: ls, tail, done, s, hg, hs, ht => by
    simp only [List.length_cons] at hs
    obtain ⟨a, s0, h0, m0⟩ := mkEnum_made poison (charTag l) hg (by omega)
    obtain ⟨c, s1, h1, m1⟩ := mkStruct_made poison m0.good (by have := m0.used; omega)
      (.cons m0.denotes (.cons (ht.mono m0.le) .nil))
    have m01 := m0.trans m1
    obtain ⟨t, s2, h2, m2⟩ := mkUnion_made (tag := 0) m1.good (by have := m01.used; omega) m1.denotes
    have m12 := m01.trans m2
    obtain ⟨w, s3, h3, m3⟩ := stringLoop_made poison ls t (enumData (charTag l) :: done) s2 m2.good
      (by have := m12.used; omega) m2.denotes
    refine ⟨w, s3, by simp [stringLoop, mkChar_eq, h0, h1, h2, h3], ?_⟩
    have := m12.trans m3
    refine ⟨this.good, this.le, by have := this.used; simp only [List.length_cons]; omega, ?_⟩
    simpa using this.denotes

theorem mkString_made {s : St} (poison : Word) (str : List Nat) (hg : Good s)
    (hs : 4 * str.length + 2 ≤ s.supply.length) :
    ∃ w s', mkString poison str s = some (w, s') ∧
      Made s (4 * str.length + 2) w s' (listData (str.map (fun c => enumData (charTag c)))) := by
  obtain ⟨t, s2, h2, m2⟩ := mkEnum_made poison 1 hg (by omega)
  obtain ⟨w, s3, h3, m3⟩ := stringLoop_made poison str.reverse t [] s2 m2.good
    (by have := m2.used; simp; omega) m2.denotes
  refine ⟨w, s3, by simp [mkString, h2, h3], ?_⟩
  have := m2.trans m3
  refine ⟨this.good, this.le, by have := this.used; simp at this; omega, ?_⟩
  simpa using this.denotes

theorem readString_of_denotes {h : Heap} (str : List Nat) (w : Word)
    (hd : Denotes h w (listData (str.map (fun c => enumData (charTag c))))) :
    ReadString h w (str.map charOrQuestion) := by
  induction str generalizing w with
  | nil => exact .done (union_denotes hd).1 (by simp)
  | cons c cs ih =>
    simp only [List.map_cons, listData] at hd
    obtain ⟨h1, ⟨r, h2, _, h3⟩, _⟩ := union_denotes hd
    obtain ⟨x, h4, h5⟩ := structField_denotes h3 (i := 0) (by simp)
    obtain ⟨y, h6, h7⟩ := structField_denotes h3 (i := 1) (by simp)
    exact .next h1 h2 h4 h6 ⟨_, (union_denotes h5).1, charTag_get c⟩ (ih y h7)

theorem ReadString.det {h : Heap} {w : Word} {a b : List Nat} (h1 : ReadString h w a)
    (h2 : ReadString h w b) : a = b := by
  induction h1 generalizing b with
  | done t hn =>
    cases h2 with
    | done => rfl
    | next t' => have := t.det t'; cases this; exact absurd rfl hn
  | next t a f0 f1 hc _ ih =>
    cases h2 with
    | done t' hn => have := t.det t'; cases this; exact absurd rfl hn
    | next t' a' f0' f1' hc' r =>
      have := a.det a'; cases this
      have := f0.det f0'; cases this
      have := f1.det f1'; cases this
      obtain ⟨tg, h3, h4⟩ := hc
      obtain ⟨tg', h3', h4'⟩ := hc'
      have := h3.det h3'; cases this
      rw [h4] at h4'; cases h4'
      rw [ih r]

end Verif.Pack
