import Verif.Pack.Spec
namespace Verif.Pack

theorem sbit_sshiftRight (x : Word) (k i : Nat) : sbit (x.sshiftRight k) i = sbit x (k + i) := by
  unfold sbit
  rw [BitVec.getLsbD_sshiftRight, BitVec.msb_sshiftRight]
  by_cases h1 : i < 64 <;> by_cases h2 : k + i < 64 <;> simp [h1, h2] <;> omega

theorem has_nil (x : Word) : Has x [] := by intro i h; simp at h

theorem has_cons {x : Word} {b : Bool} {bs : List Bool} :
    Has x (b :: bs) ↔ x.getLsbD 0 = b ∧ Has (x.sshiftRight 1) bs := by
  constructor
  · intro h
    refine ⟨?_, ?_⟩
    · have := h 0 (by simp); simpa [sbit] using this
    · intro i hi
      rw [sbit_sshiftRight]
      have := h (i + 1) (by simp; omega)
      rw [Nat.add_comm 1 i]; simpa using this
  · rintro ⟨h0, h1⟩ i hi
    cases i with
    | zero => simpa [sbit] using h0
    | succ i =>
      have := h1 i (by simpa using hi)
      rw [sbit_sshiftRight, Nat.add_comm 1 i] at this
      simpa using this

theorem sshiftRight_zero (x : Word) : x.sshiftRight 0 = x := by simp

theorem sshiftRight_add' (x : Word) (a b : Nat) :
    (x.sshiftRight a).sshiftRight b = x.sshiftRight (a + b) := by
  rw [BitVec.sshiftRight_add]

theorem has_append {x : Word} {as bs : List Bool} :
    Has x (as ++ bs) ↔ Has x as ∧ Has (x.sshiftRight as.length) bs := by
  induction as generalizing x with
  | nil => simp [has_nil]
  | cons a as ih =>
    simp only [List.cons_append, has_cons, ih, List.length_cons]
    rw [sshiftRight_add', Nat.add_comm 1 as.length]
    constructor
    · rintro ⟨h1, h2, h3⟩; exact ⟨⟨h1, h2⟩, h3⟩
    · rintro ⟨⟨h1, h2⟩, h3⟩; exact ⟨h1, h2, h3⟩

theorem skipOnes_spec {n fuel : Nat} {x : Word} {bs : List Bool} (hf : n < fuel)
    (h : Has x (List.replicate n true ++ false :: bs)) :
    skipOnes fuel x = some (n, x.sshiftRight (n + 1)) ∧ Has (x.sshiftRight (n + 1)) bs := by
  induction n generalizing x fuel with
  | zero =>
    obtain ⟨fuel, rfl⟩ : ∃ k, fuel = k + 1 := ⟨fuel - 1, by omega⟩
    simp only [List.replicate, List.nil_append, has_cons] at h
    simp only [skipOnes, h.1]
    exact ⟨rfl, h.2⟩
  | succ n ih =>
    obtain ⟨fuel, rfl⟩ : ∃ k, fuel = k + 1 := ⟨fuel - 1, by omega⟩
    simp only [List.replicate_succ, List.cons_append, has_cons] at h
    have := ih (fuel := fuel) (by omega) h.2
    rw [sshiftRight_add', Nat.add_comm 1 (n+1)] at this
    simp only [skipOnes, h.1, this.1, if_true]
    exact ⟨trivial, this.2⟩

mutual
def PData.dep : PData → Nat
  | .struct fs => PData.deps fs + 1
  | .union _ a => a.dep + 1
def PData.deps : List PData → Nat
  | [] => 0
  | d :: ds => max d.dep (PData.deps ds)
end

mutual
theorem two_dep_le_enc : ∀ d : PData, 2 * d.dep ≤ d.enc.length
  | .struct fs => by
    have := two_deps_le_encs fs
    simp [PData.dep, PData.enc]; omega
  | .union tag a => by
    have := two_dep_le_enc a
    simp [PData.dep, PData.enc]; omega
theorem two_deps_le_encs : ∀ ds : List PData, 2 * PData.deps ds ≤ (PData.encs ds).length
  | [] => by simp [PData.deps]
  | d :: ds => by
    have := two_dep_le_enc d
    have := two_deps_le_encs ds
    simp [PData.deps, PData.encs]; omega
end

mutual
theorem packedLen_spec : ∀ (d : PData) (fuel : Nat) (x : Word) (rest : List Bool),
    d.dep ≤ fuel → d.enc.length ≤ 64 → Has x (d.enc ++ rest) →
    packedLen fuel x = some d.enc.length
  | .struct fs, fuel, x, rest, hd, hl, h => by
    obtain ⟨fuel, rfl⟩ : ∃ k, fuel = k + 1 := ⟨fuel - 1, by simp [PData.dep] at hd; omega⟩
    simp only [PData.enc, List.cons_append, List.append_assoc, has_cons] at h
    have hl' : fs.length + (PData.encs fs).length + 2 ≤ 64 := by
      simp [PData.enc] at hl; omega
    obtain ⟨h1, h2⟩ := skipOnes_spec (fuel := 65) (by omega) h.2
    have h3 := skipArgs_spec fs fuel _ rest (by simp [PData.dep] at hd; omega) (by omega) h2
    simp only [packedLen, h.1, if_true]
    rw [h1]
    simp only [h3]
    simp [PData.enc]; omega
  | .union tag a, fuel, x, rest, hd, hl, h => by
    obtain ⟨fuel, rfl⟩ : ∃ k, fuel = k + 1 := ⟨fuel - 1, by simp [PData.dep] at hd; omega⟩
    simp only [PData.enc, List.cons_append, List.append_assoc, has_cons] at h
    have hl' : tag + a.enc.length + 2 ≤ 64 := by
      simp [PData.enc] at hl; omega
    obtain ⟨h1, h2⟩ := skipOnes_spec (fuel := 65) (by omega) h.2
    have h3 := packedLen_spec a fuel _ rest (by simp [PData.dep] at hd; omega) (by omega) h2
    simp only [packedLen, h.1]
    rw [h1]
    simp [h3, PData.enc]; omega
theorem skipArgs_spec : ∀ (ds : List PData) (fuel : Nat) (x : Word) (rest : List Bool),
    PData.deps ds ≤ fuel → (PData.encs ds).length ≤ 62 → Has x (PData.encs ds ++ rest) →
    skipArgs (packedLen fuel) ds.length x =
      some ((PData.encs ds).length, x.sshiftRight (PData.encs ds).length)
  | [], fuel, x, rest, _, _, _ => by simp [skipArgs, PData.encs]
  | d :: ds, fuel, x, rest, hd, hl, h => by
    simp only [PData.encs, List.append_assoc] at h
    simp only [PData.encs, List.length_append] at hl
    simp only [PData.deps] at hd
    have h1 := packedLen_spec d fuel x _ (by omega) (by omega) h
    have h2 := skipArgs_spec ds fuel (x.sshiftRight d.enc.length) rest (by omega) (by omega)
      (has_append.mp h).2
    simp only [List.length_cons, skipArgs, h1]
    rw [if_neg (by omega), h2, sshiftRight_add']
    simp [PData.encs]
end

theorem packedLen_depth {d : PData} {x : Word} (hl : d.enc.length ≤ 64) (h : Has x d.enc) :
    packedLen depth x = some d.enc.length := by
  apply packedLen_spec d depth x [] _ hl (by simpa using h)
  have := two_dep_le_enc d; unfold depth; omega

/-! ### Building words -/

/-- The 64 stored bits agree with `bs` as far as they reach. -/
def HasW (x : Word) (bs : List Bool) : Prop := ∀ i (h : i < bs.length), i < 64 → x.getLsbD i = bs[i]

theorem Has.toW {x : Word} {bs} (h : Has x bs) : HasW x bs := by
  intro i hi h64; have := h i hi; simpa [sbit, h64] using this

theorem HasW.toHas {x : Word} {bs : List Bool} (h : HasW x (bs ++ [false, false]))
    (hl : bs.length + 2 ≤ 65) : Has x (bs ++ [false, false]) := by
  intro i hi
  unfold sbit
  by_cases h64 : i < 64
  · simp only [h64, if_true]; exact h i hi h64
  · simp only [h64, if_false]
    simp only [List.length_append, List.length_cons, List.length_nil] at hi
    have hi' : i = bs.length + 1 := by omega
    have hb : bs.length = 63 := by omega
    have h63 := h 63 (by simp; omega) (by omega)
    rw [BitVec.msb_eq_getLsbD_last]
    simp [hb, List.getElem_append_right] at h63
    simp [h63, hi', List.getElem_append_right]

theorem HasW.push {x : Word} {bs : List Bool} {c : Word} {b : Bool}
    (hc : ∀ i, i < 64 → c.getLsbD i = (decide (i = 0) && b)) (h : HasW x bs) :
    HasW ((x <<< 1) ||| c) (b :: bs) := by
  intro i hi h64
  simp only [BitVec.getLsbD_or, BitVec.getLsbD_shiftLeft, hc i h64, h64]
  cases i with
  | zero => simp
  | succ i =>
    have := h i (by simpa using hi) (by omega)
    simp [this]

theorem one_bits (i : Nat) (_ : i < 64) : (1#64).getLsbD i = (decide (i = 0) && true) := by
  simp

theorem pushOnes_hasW {x : Word} {bs : List Bool} (n : Nat) (h : HasW x bs) :
    HasW (pushOnes n x) (List.replicate n true ++ bs) := by
  induction n generalizing x bs with
  | zero => simpa [pushOnes] using h
  | succ n ih =>
    have h1 : HasW ((x <<< 1) ||| 1#64) (true :: bs) := HasW.push one_bits h
    have := ih h1
    simp only [pushOnes]
    have e : List.replicate (n+1) true ++ bs = List.replicate n true ++ true :: bs := by
      rw [List.replicate_succ']; simp
    rw [e]; exact this

theorem HasW.shl1 {x : Word} {bs : List Bool} (h : HasW x bs) : HasW (x <<< 1) (false :: bs) := by
  have := HasW.push (x := x) (c := 0#64) (b := false) (by intro i _; simp) h
  simpa using this

theorem HasW.shl2_or {x : Word} {bs : List Bool} {c : Word} {b0 b1 : Bool}
    (hc : ∀ i, i < 64 → c.getLsbD i = ((decide (i = 0) && b0) || (decide (i = 1) && b1)))
    (h : HasW x bs) : HasW ((x <<< 2) ||| c) (b0 :: b1 :: bs) := by
  intro i hi h64
  simp only [BitVec.getLsbD_or, BitVec.getLsbD_shiftLeft, hc i h64, h64]
  match i, hi, h64 with
  | 0, _, _ => simp
  | 1, _, _ => simp
  | i + 2, hi, h64 =>
    have := h i (by simpa using hi) (by omega)
    simp [this]

theorem mask_bits {l i : Nat} (hl : l < 64) (hi : i < 64) :
    ((1#64 <<< l) - 1#64).getLsbD i = decide (i < l) := by
  have e : (1#64 <<< l) - 1#64 = BitVec.ofNat 64 (2^l - 1) := by
    apply BitVec.eq_of_toNat_eq
    have : 2^l < 2^64 := Nat.pow_lt_pow_right (by omega) hl
    have h2 : 0 < 2^l := Nat.two_pow_pos l
    have h1 : (1#64 <<< l).toNat = 2^l := by
      simp [BitVec.toNat_shiftLeft, Nat.shiftLeft_eq]; omega
    rw [BitVec.toNat_sub, h1]
    simp; omega
  rw [e, BitVec.getLsbD_ofNat, Nat.testBit_two_pow_sub_one]
  simp [hi]

theorem HasW.pushBits {x a : Word} {bs cs : List Bool} (hl : cs.length < 64)
    (h : HasW x bs) (ha : Has a cs) :
    HasW ((x <<< cs.length) ||| (((1#64 <<< cs.length) - 1#64) &&& a)) (cs ++ bs) := by
  intro i hi h64
  simp only [BitVec.getLsbD_or, BitVec.getLsbD_shiftLeft, BitVec.getLsbD_and, mask_bits hl h64, h64]
  by_cases hc : i < cs.length
  · have := ha i hc
    simp only [sbit, h64, if_true] at this
    simp [hc, this]
  · simp only [List.length_append] at hi
    have := h (i - cs.length) (by omega) (by omega)
    simp [hc, this, List.getElem_append_right (Nat.le_of_not_lt hc)]

mutual
theorem enc_tail : ∀ d : PData, ∃ bs, d.enc = bs ++ [false, false]
  | .union tag a => by
    obtain ⟨bs, h⟩ := enc_tail a
    exact ⟨true :: (List.replicate tag true ++ false :: bs), by simp [PData.enc, h]⟩
  | .struct fs => by
    rcases encs_tail fs with h | ⟨bs, h⟩
    · subst h; exact ⟨[], by simp [PData.enc, PData.encs]⟩
    · exact ⟨false :: (List.replicate fs.length true ++ false :: bs), by simp [PData.enc, h]⟩
theorem encs_tail : ∀ ds : List PData, ds = [] ∨ ∃ bs, PData.encs ds = bs ++ [false, false]
  | [] => .inl rfl
  | d :: ds => by
    rcases encs_tail ds with h | ⟨bs, h⟩
    · subst h
      obtain ⟨bs, h⟩ := enc_tail d
      exact .inr ⟨bs, by simp [PData.encs, h]⟩
    · exact .inr ⟨d.enc ++ bs, by simp [PData.encs, h]⟩
end

theorem packs_of_hasW {w : Word} {d : PData} (h : HasW w (true :: d.enc)) (hl : d.enc.length ≤ 64) :
    Packs w d := by
  obtain ⟨bs, hbs⟩ := enc_tail d
  have h' : HasW w ((true :: bs) ++ [false, false]) := by rw [hbs] at h; simpa using h
  have := HasW.toHas h' (by rw [hbs] at hl; simpa using hl)
  rw [show (true :: bs) ++ [false, false] = true :: d.enc by simp [hbs]] at this
  rw [has_cons] at this
  exact ⟨this.1, this.2, hl⟩

theorem encs_append (as bs : List PData) : PData.encs (as ++ bs) = PData.encs as ++ PData.encs bs := by
  induction as with
  | nil => simp [PData.encs]
  | cons a as ih => simp [PData.encs, ih]

end Verif.Pack
