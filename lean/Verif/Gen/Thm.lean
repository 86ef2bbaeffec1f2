import Verif.Gen.Model
import Verif.Gen.Spec
import Verif.Text.Search
/- Theorems: C35 (symbols), C36 (buffers), C37 (string literals). -/
namespace Verif.Gen
open Verif.Text (Byte Str ch Path Name)
open Spec

/-! ### Hexadecimal -/

def digitVal (b : Byte) : Nat := if b < 58 then b.toNat - 48 else b.toNat - 87

def unhex (s : Str) : Nat := s.foldl (fun a b => 16 * a + digitVal b) 0

theorem digitVal_hex : ∀ d < 16, digitVal (hexDigit d) = d := by decide

theorem hexDigit_ok : ∀ d < 16, (Letter (hexDigit d) ∨ Digit (hexDigit d)) ∧ hexDigit d ≠ ch '_' ∧
    hexDigit d ≠ ch '.' := by
  intro d hd
  unfold Letter Digit
  revert d
  decide

theorem unhex_append (s : Str) (b : Byte) : unhex (s ++ [b]) = 16 * unhex s + digitVal b := by
  simp [unhex]

theorem unhex_hex (n : Nat) : unhex (hex n) = n := by
  fun_induction hex n with
  | case1 n h => simp [unhex, digitVal_hex n h]
  | case2 n h ih =>
    rw [unhex_append, ih, digitVal_hex _ (Nat.mod_lt _ (by omega))]
    omega

theorem unhex_zeros (k : Nat) (s : Str) : unhex (List.replicate k (ch '0') ++ s) = unhex s := by
  induction k with
  | zero => simp
  | succ k ih =>
    rw [List.replicate_succ, List.cons_append]
    simp only [unhex, List.foldl_cons] at ih ⊢
    have : 16 * 0 + digitVal (ch '0') = 0 := by decide
    rw [this]
    exact ih

theorem hexPad_inj {w n m : Nat} (h : hexPad w n = hexPad w m) : n = m := by
  have := congrArg unhex h
  simpa [hexPad, unhex_zeros, unhex_hex] using this

theorem hex_chars (n : Nat) : ∀ b ∈ hex n, (Letter b ∨ Digit b) ∧ b ≠ ch '_' ∧ b ≠ ch '.' := by
  fun_induction hex n with
  | case1 n h => simp; exact hexDigit_ok n h
  | case2 n h ih =>
    intro b hb
    simp only [List.mem_append, List.mem_singleton] at hb
    rcases hb with hb | rfl
    · exact ih b hb
    · exact hexDigit_ok _ (Nat.mod_lt _ (by omega))

theorem hexPad_chars (w n : Nat) : ∀ b ∈ hexPad w n, (Letter b ∨ Digit b) ∧ b ≠ ch '_' ∧ b ≠ ch '.' := by
  intro b hb
  simp only [hexPad, List.mem_append, List.mem_replicate] at hb
  rcases hb with ⟨_, rfl⟩ | hb
  · unfold Letter Digit; decide
  · exact hex_chars n b hb

theorem hex_length_two (n : Nat) (h : n < 256) : (hex n).length ≤ 2 := by
  unfold hex
  split
  · simp
  · unfold hex
    rw [if_pos (by omega)]
    simp

theorem hex_length_big (n : Nat) (h : 256 ≤ n) : 3 ≤ (hex n).length := by
  unfold hex
  rw [if_neg (by omega)]
  unfold hex
  rw [if_neg (by omega)]
  have : ∀ k, 1 ≤ (hex k).length := by
    intro k
    unfold hex
    split <;> simp
  have := this (n / 16 / 16)
  simp only [List.length_append, List.length_singleton]
  omega

/-! ### Translation of characters -/

theorem alnum_small {b : Byte} (h : isAlnum b = true) : b < 0x80 ∧ b ≠ ch '_' ∧ b ≠ ch '.' ∧
    (Letter b ∨ Digit b) := by
  simp only [isAlnum, Bool.or_eq_true, Bool.and_eq_true, decide_eq_true_eq, UInt8.le_iff_toNat_le] at h
  have e1 : (ch '0').toNat = 48 := rfl
  have e2 : (ch '9').toNat = 57 := rfl
  have e3 : (ch 'A').toNat = 65 := rfl
  have e4 : (ch 'Z').toNat = 90 := rfl
  have e5 : (ch 'a').toNat = 97 := rfl
  have e6 : (ch 'z').toNat = 122 := rfl
  rw [e1, e2, e3, e4, e5, e6] at h
  have f1 : (65 : Byte).toNat = 65 := rfl
  have f2 : (90 : Byte).toNat = 90 := rfl
  have f3 : (97 : Byte).toNat = 97 := rfl
  have f4 : (122 : Byte).toNat = 122 := rfl
  have f5 : (48 : Byte).toNat = 48 := rfl
  have f6 : (57 : Byte).toNat = 57 := rfl
  have f7 : (0x80 : Byte).toNat = 128 := rfl
  refine ⟨?_, ?_, ?_, ?_⟩
  · rw [UInt8.lt_iff_toNat_lt, f7]; omega
  · rintro rfl; have : (ch '_').toNat = 95 := rfl; omega
  · rintro rfl; have : (ch '.').toNat = 46 := rfl; omega
  · simp only [Letter, Digit, UInt8.le_iff_toNat_le, f1, f2, f3, f4, f5, f6]
    omega

theorem charArg_inj {sg : Bool} {b c : Byte} (h : charArg sg b = charArg sg c) : b = c := by
  have hb : b.toNat < 256 := b.toNat_lt
  have hc : c.toNat < 256 := c.toNat_lt
  apply UInt8.toNat_inj.mp
  unfold charArg at h
  split at h <;> split at h <;> omega

theorem us_cut {h h' u u' : Str} (hh : ∀ b ∈ h, b ≠ ch '_') (hh' : ∀ b ∈ h', b ≠ ch '_')
    (e : h ++ ch '_' :: u = h' ++ ch '_' :: u') : h = h' ∧ u = u' := by
  induction h generalizing h' with
  | nil =>
    cases h' with
    | nil => exact ⟨rfl, by simpa using e⟩
    | cons b h' => simp at e; exact absurd e.1.symm (hh' b (by simp))
  | cons b h ih =>
    cases h' with
    | nil => simp at e; exact absurd e.1 (hh b (by simp))
    | cons b' h' =>
      simp only [List.cons_append, List.cons.injEq] at e
      obtain ⟨rfl, e⟩ := e
      obtain ⟨rfl, rfl⟩ := ih (fun b hb => hh b (by simp [hb])) (fun b hb => hh' b (by simp [hb])) e
      exact ⟨rfl, rfl⟩

/-- The translations of characters form a prefix code. -/
theorem translate_prefix {sg : Bool} {b c : Byte} {u v : Str}
    (h : translate sg b ++ u = translate sg c ++ v) : b = c ∧ u = v := by
  unfold translate at h
  split at h
  · rename_i hb
    split at h
    · simpa using h
    · simp at h; exact absurd h.1 (alnum_small hb).2.1
  · split at h
    · rename_i hc
      simp at h; exact absurd h.1.symm (alnum_small hc).2.1
    · simp only [List.append_assoc, List.cons_append, List.nil_append, List.cons.injEq, true_and] at h
      obtain ⟨h1, h2⟩ := us_cut (fun b hb => (hexPad_chars _ _ b hb).2.1)
        (fun b hb => (hexPad_chars _ _ b hb).2.1) h
      exact ⟨charArg_inj (hexPad_inj h1), h2⟩

theorem translate_ne (sg : Bool) (b : Byte) : translate sg b ≠ [] := by
  unfold translate; split <;> simp

theorem translate_inj {sg : Bool} {s t : Str} (h : s.flatMap (translate sg) = t.flatMap (translate sg)) :
    s = t := by
  induction s generalizing t with
  | nil =>
    cases t with
    | nil => rfl
    | cons c t =>
      rw [List.flatMap_cons, List.flatMap_nil] at h
      exact absurd (List.append_eq_nil_iff.mp h.symm).1 (translate_ne sg c)
  | cons b s ih =>
    cases t with
    | nil =>
      rw [List.flatMap_cons, List.flatMap_nil] at h
      exact absurd (List.append_eq_nil_iff.mp h).1 (translate_ne sg b)
    | cons c t =>
      rw [List.flatMap_cons, List.flatMap_cons] at h
      obtain ⟨rfl, h'⟩ := translate_prefix h
      rw [ih h']

/-- The number of bytes a character is given in the size computations. -/
def cost (b : Byte) : Nat := if isAlnum b then 1 else 4

/-- The characters for which the translation is as long as the size computation assumes. -/
def Fits (sg : Bool) (b : Byte) : Prop := sg = false ∨ b < 0x80

theorem translate_length {sg : Bool} {b : Byte} (h : Fits sg b) : (translate sg b).length = cost b := by
  unfold translate cost
  split
  · simp
  · have hn : charArg sg b < 256 := by
      have hb := b.toNat_lt
      unfold charArg
      rcases h with rfl | h
      · simpa using hb
      · have : ¬ (0x80 ≤ b) := UInt8.not_le.mpr h
        simp [this]
        exact hb
    have := hex_length_two _ hn
    simp only [hexPad, List.length_append, List.length_replicate, List.length_singleton]
    omega

theorem translate_too_long {sg : Bool} {b : Byte} (h : ¬ Fits sg b) : charBuf < (translate sg b).length + 1 := by
  unfold Fits at h
  simp only [not_or, Bool.not_eq_false] at h
  obtain ⟨rfl, h⟩ := h
  have hal : isAlnum b = false := by
    cases hb : isAlnum b with
    | false => rfl
    | true => exact absurd (alnum_small hb).1 h
  have hle : 0x80 ≤ b := UInt8.not_lt.mp h
  have hbig : 256 ≤ charArg true b := by
    unfold charArg
    simp [hle]
    omega
  have := hex_length_big _ hbig
  simp only [translate, hal, Bool.false_eq_true, if_false, hexPad, charBuf, List.length_append,
    List.length_singleton, List.length_replicate]
  omega

theorem appendChars_some (sg : Bool) (cap : Nat) (dst s : Str) (hf : ∀ b ∈ s, Fits sg b)
    (hc : dst.length + (s.map cost).sum + 1 ≤ cap) :
    appendChars sg cap dst s = some (dst ++ s.flatMap (translate sg)) := by
  induction s generalizing dst with
  | nil => simp [appendChars]
  | cons b s ih =>
    have hl := translate_length (hf b (by simp))
    simp only [List.map_cons, List.sum_cons] at hc
    have hcost : cost b ≤ 4 := by unfold cost; split <;> omega
    unfold appendChars appendChar
    simp only
    rw [if_pos ⟨by unfold charBuf; omega, by omega⟩, Option.bind_some, ih _ (fun b hb => hf b (by simp [hb]))
      (by simp only [List.length_append]; omega)]
    simp

theorem appendChars_none (sg : Bool) (cap : Nat) (dst s : Str) (hf : ¬ ∀ b ∈ s, Fits sg b) :
    appendChars sg cap dst s = none := by
  induction s generalizing dst with
  | nil => simp at hf
  | cons b s ih =>
    unfold appendChars
    cases ha : appendChar sg cap dst b with
    | none => rfl
    | some d =>
      rw [Option.bind_some]
      apply ih
      intro h
      apply hf
      intro c hc
      simp only [List.mem_cons] at hc
      rcases hc with rfl | hc
      · by_contra hn
        have := translate_too_long hn
        unfold appendChar at ha
        simp only at ha
        rw [if_neg (by omega)] at ha
        cases ha
      · exact h c hc

theorem sizeofSanitized_eq (s : Str) : sizeofSanitized s = 1 + (s.map cost).sum := by
  have : ∀ (s : Str) (a : Nat), s.foldl (fun n b => n + if isAlnum b then 1 else 4) a = a + (s.map cost).sum := by
    intro s
    induction s with
    | nil => simp
    | cons b s ih => intro a; simp [ih, cost]; omega
  exact this s 1

theorem sanitize_some (sg : Bool) (s : Str) (h : ∀ b ∈ s, Fits sg b) :
    sanitize sg s = some (s.flatMap (translate sg)) := by
  unfold sanitize
  rw [appendChars_some sg _ [] s h (by rw [sizeofSanitized_eq]; simp; omega)]
  simp

/-! ### C36 -/

/-- C36. SanitizeString stays inside its two buffers exactly when `char` is unsigned or all
characters are ASCII. -/
theorem C36_sanitize_in_bounds (sg : Bool) (s : Str) :
    (sanitize sg s).isSome ↔ (sg = false ∨ ∀ b ∈ s, b < 0x80) := by
  have e : (sg = false ∨ ∀ b ∈ s, b < 0x80) ↔ ∀ b ∈ s, Fits sg b := by
    unfold Fits
    constructor
    · rintro (h | h) b hb
      · exact .inl h
      · exact .inr (h b hb)
    · intro h
      by_cases hs : sg = false
      · exact .inl hs
      · exact .inr fun b hb => (h b hb).resolve_left hs
  rw [e]
  by_cases h : ∀ b ∈ s, Fits sg b
  · rw [sanitize_some sg s h]
    exact ⟨fun _ => h, fun _ => rfl⟩
  · rw [sanitize, appendChars_none sg _ _ _ h]
    exact ⟨fun g => absurd g (by simp), fun g => absurd g h⟩

/-- The text the label is a translation of. -/
def pathText (p : Path) : Str := p.flatMap (fun n => ch '/' :: n.str) ++ [ch '%']

theorem cost_slash : cost (ch '/') = 4 := by decide
theorem cost_percent : cost (ch '%') = 4 := by decide

theorem labelLen_eq (p : Path) : labelLen p = 6 + ((pathText p).map cost).sum := by
  have h1 : ∀ (s : Str) (a : Nat), s.foldl (fun len b => if isAlnum b then len + 1 else len + 4) a =
      a + (s.map cost).sum := by
    intro s
    induction s with
    | nil => simp
    | cons b s ih =>
      intro a
      simp only [List.foldl_cons, ih, List.map_cons, List.sum_cons, cost]
      split <;> omega
  have h2 : ∀ (p : Path) (a : Nat), p.foldl (fun len n => n.str.foldl (fun len b => if isAlnum b then len + 1 else len + 4) (len + 4)) a =
      a + ((p.flatMap (fun n => ch '/' :: n.str)).map cost).sum := by
    intro p
    induction p with
    | nil => simp
    | cons n p ih =>
      intro a
      rw [List.foldl_cons, ih, h1]
      simp only [List.flatMap_cons, List.cons_append, List.map_cons, List.map_append, List.sum_cons,
        List.sum_append, cost_slash]
      omega
  rw [labelLen, h2, pathText]
  simp [cost_percent]
  omega

theorem labelLoop_some (sg : Bool) (cap : Nat) (p : Path) (dst : Str)
    (hf : ∀ n ∈ p, ∀ b ∈ n.str, Fits sg b)
    (hc : dst.length + ((p.flatMap (fun n => ch '/' :: n.str)).map cost).sum + 1 ≤ cap) :
    labelLoop sg cap dst p = some (dst ++ (p.flatMap (fun n => ch '/' :: n.str)).flatMap (translate sg)) := by
  induction p generalizing dst with
  | nil => simp [labelLoop]
  | cons n p ih =>
    have hsl : Fits sg (ch '/') := .inr (by decide)
    have e := appendChars_some sg cap dst (ch '/' :: n.str)
      (by intro b hb
          simp only [List.mem_cons] at hb
          rcases hb with rfl | hb
          · exact hsl
          · exact hf n (by simp) b hb)
      (by simp only [List.flatMap_cons, List.map_append, List.sum_append] at hc; omega)
    simp only [appendChars] at e
    unfold labelLoop
    rw [e, Option.bind_some, ih _ (fun m hm => hf m (by simp [hm]))]
    · simp
    · simp only [List.flatMap_cons, List.map_append, List.sum_append] at hc
      have hl : ∀ s : Str, (∀ b ∈ s, Fits sg b) → (s.flatMap (translate sg)).length = (s.map cost).sum := by
        intro s hs
        induction s with
        | nil => rfl
        | cons b s ih =>
          rw [List.flatMap_cons, List.length_append, translate_length (hs b (by simp)),
            ih fun b hb => hs b (by simp [hb])]
          simp
      rw [List.length_append, hl (ch '/' :: n.str) (by
          intro b hb
          simp only [List.mem_cons] at hb
          rcases hb with rfl | hb
          · exact hsl
          · exact hf n (by simp) b hb)]
      omega

theorem labelForPath_some (sg : Bool) (p : Path) (hf : ∀ n ∈ p, ∀ b ∈ n.str, Fits sg b) :
    labelForPath sg p = some (prefix_ ++ (pathText p).flatMap (translate sg)) := by
  have hlen := labelLen_eq p
  have hpre : prefix_.length = 5 := rfl
  have hsum : ((pathText p).map cost).sum = ((p.flatMap (fun n => ch '/' :: n.str)).map cost).sum + 4 := by
    simp [pathText, cost_percent]
  unfold labelForPath
  simp only
  rw [labelLoop_some sg _ p prefix_ hf (by rw [hlen, hpre]; omega), Option.bind_some]
  have e := appendChars_some sg (labelLen p) prefix_ (pathText p) (by
    intro b hb
    simp only [pathText, List.mem_append, List.mem_flatMap, List.mem_cons] at hb
    rcases hb with ⟨n, hn, rfl | hb⟩ | hb
    · exact .inr (by decide)
    · exact hf n hn b hb
    · simp at hb; rw [hb]; exact .inr (by decide)) (by rw [hlen, hpre]; omega)
  have split : ∀ (s : Str) (b : Byte) (dst : Str), appendChars sg (labelLen p) dst (s ++ [b]) =
      (appendChars sg (labelLen p) dst s).bind fun d => appendChar sg (labelLen p) d b := by
    intro s b
    induction s with
    | nil => intro dst; simp [appendChars]
    | cons c s ih =>
      intro dst
      simp only [List.cons_append, appendChars]
      cases appendChar sg (labelLen p) dst c with
      | none => rfl
      | some d => simp [ih]
  rw [pathText, split, appendChars_some sg _ prefix_ _ (by
    intro b hb
    simp only [List.mem_flatMap, List.mem_cons] at hb
    rcases hb with ⟨n, hn, rfl | hb⟩
    · exact .inr (by decide)
    · exact hf n hn b hb) (by rw [hlen, hpre]; omega), Option.bind_some] at e
  exact e

theorem labelLoop_none (sg : Bool) (cap : Nat) (p : Path) (dst : Str)
    (hf : ¬ ∀ n ∈ p, ∀ b ∈ n.str, Fits sg b) : labelLoop sg cap dst p = none := by
  induction p generalizing dst with
  | nil => simp at hf
  | cons n p ih =>
    unfold labelLoop
    by_cases hn : ∀ b ∈ n.str, Fits sg b
    · have hp : ¬ ∀ n ∈ p, ∀ b ∈ n.str, Fits sg b := by
        intro h
        apply hf
        intro m hm
        simp only [List.mem_cons] at hm
        rcases hm with rfl | hm
        · exact hn
        · exact h m hm
      cases (appendChar sg cap dst (ch '/')).bind fun dst => appendChars sg cap dst n.str with
      | none => rfl
      | some d => exact ih d hp
    · cases appendChar sg cap dst (ch '/') with
      | none => rfl
      | some d => rw [Option.bind_some, appendChars_none sg cap d _ hn]; rfl

/-- C36. LabelForPath stays inside its two buffers exactly when `char` is unsigned or all
characters of the module path are ASCII. -/
theorem C36_label_in_bounds (sg : Bool) (p : Path) :
    (labelForPath sg p).isSome ↔ (sg = false ∨ ∀ n ∈ p, ∀ b ∈ n.str, b < 0x80) := by
  have e : (sg = false ∨ ∀ n ∈ p, ∀ b ∈ n.str, b < 0x80) ↔ ∀ n ∈ p, ∀ b ∈ n.str, Fits sg b := by
    unfold Fits
    constructor
    · rintro (h | h) n hn b hb
      · exact .inl h
      · exact .inr (h n hn b hb)
    · intro h
      by_cases hs : sg = false
      · exact .inl hs
      · exact .inr fun n hn b hb => (h n hn b hb).resolve_left hs
  rw [e]
  by_cases h : ∀ n ∈ p, ∀ b ∈ n.str, Fits sg b
  · rw [labelForPath_some sg p h]
    exact ⟨fun _ => h, fun _ => rfl⟩
  · rw [labelForPath]
    rw [labelLoop_none sg _ p _ h]
    exact ⟨fun g => absurd g (by simp), fun g => absurd g h⟩

/-- C36 is violated where `char` is signed: a module name with a byte of a UTF-8 character (here
`é`) overruns the 5 byte buffer. -/
theorem C36_signed_char_violated : labelForPath true [⟨[0xC3, 0xA9], .normal⟩] = none := by
  have := C36_label_in_bounds true [⟨[0xC3, 0xA9], .normal⟩]
  rw [← Option.not_isSome_iff_eq_none, this]
  decide

/-! ### C35 -/

/-- C35. Two module paths without slashes in their names (the only ones that can be loaded from
files, C55) that get the same link symbol are the same path. -/
theorem C35_symbol_injective (sg : Bool) (p q : Path) (s : Str)
    (hp : labelForPath sg p = some s) (hq : labelForPath sg q = some s)
    (hsp : ∀ n ∈ p, n.space = .normal ∧ ch '/' ∉ n.str)
    (hsq : ∀ n ∈ q, n.space = .normal ∧ ch '/' ∉ n.str) : p = q := by
  have fits : ∀ p, (labelForPath sg p).isSome → ∀ n ∈ p, ∀ b ∈ n.str, Fits sg b := by
    intro p hp
    rw [C36_label_in_bounds] at hp
    intro n hn b hb
    rcases hp with h | h
    · exact .inl h
    · exact .inr (h n hn b hb)
  rw [labelForPath_some sg p (fits p (by rw [hp]; rfl))] at hp
  rw [labelForPath_some sg q (fits q (by rw [hq]; rfl))] at hq
  rw [← hq] at hp
  have h := translate_inj (List.append_cancel_left (Option.some.inj hp))
  unfold pathText at h
  exact Verif.Text.slash_inj p q (fun n hn => (hsp n hn).2) (fun n hn => (hsq n hn).2)
    (fun n hn => (hsp n hn).1) (fun n hn => (hsq n hn).1) (List.append_cancel_right h)

/-- With a slash in a name C35 is violated: `/a/b%` and `/'a/b'%` get the same symbol. -/
theorem C35_slash_violated (sg : Bool) :
    labelForPath sg [⟨[ch 'a'], .normal⟩, ⟨[ch 'b'], .normal⟩] =
    labelForPath sg [⟨[ch 'a', ch '/', ch 'b'], .normal⟩] ∧
    (labelForPath sg [⟨[ch 'a'], .normal⟩, ⟨[ch 'b'], .normal⟩]).isSome := by
  have h : ∀ b ∈ [ch 'a', ch '/', ch 'b'], Fits sg b := by
    intro b hb
    exact .inr (by revert b; decide)
  constructor
  · rw [labelForPath_some, labelForPath_some]
    · rfl
    · intro n hn b hb
      simp only [List.mem_singleton] at hn
      subst hn
      exact h b hb
    · intro n hn b hb
      simp only [List.mem_cons, List.not_mem_nil, or_false] at hn
      rcases hn with rfl | rfl <;> simp at hb <;> subst hb <;> exact h _ (by simp)
  · rw [C36_label_in_bounds]
    right
    decide

theorem translate_ident (sg : Bool) (b c : Byte) (h : c ∈ translate sg b) : Letter c ∨ Digit c := by
  unfold translate at h
  split at h
  · rename_i hb
    simp at h
    subst h
    exact (alnum_small hb).2.2.2
  · simp only [List.mem_append, List.mem_singleton] at h
    rcases h with (rfl | h) | rfl
    · left; unfold Letter; decide
    · exact (hexPad_chars _ _ c h).1
    · left; unfold Letter; decide

/-- C35. The symbol is a valid C identifier. -/
theorem C35_symbol_identifier (sg : Bool) (p : Path) (s : Str) (h : labelForPath sg p = some s) :
    Identifier s := by
  have hf : ∀ n ∈ p, ∀ b ∈ n.str, Fits sg b := by
    have : (labelForPath sg p).isSome := by rw [h]; rfl
    rw [C36_label_in_bounds] at this
    intro n hn b hb
    rcases this with h | h
    · exact .inl h
    · exact .inr (h n hn b hb)
  rw [labelForPath_some sg p hf] at h
  cases h
  constructor
  · exact ⟨ch '_', _, rfl, by unfold Letter; decide⟩
  · intro b hb
    simp only [List.mem_append, List.mem_flatMap] at hb
    rcases hb with hb | ⟨c, _, hb⟩
    · revert b; unfold Letter Digit; decide
    · exact translate_ident sg c b hb

/-- C35. Within a module, different code blocks get different function labels, whatever their
names (`sep` is the separator used by either backend). -/
theorem C35_function_labels_distinct (sg : Bool) (sep : Byte) (hsep : sep = ch '_' ∨ sep = ch '.')
    (n m : Str) (i j : Nat) (s : Str)
    (h1 : functionLabel sg sep n i = some s) (h2 : functionLabel sg sep m j = some s) : i = j := by
  unfold functionLabel at h1 h2
  rw [Option.map_eq_some_iff] at h1 h2
  obtain ⟨a, _, h1⟩ := h1
  obtain ⟨b, _, h2⟩ := h2
  rw [← h2] at h1
  have hne : ∀ k, ∀ c ∈ hexPad 4 k, c ≠ sep := by
    intro k c hc
    rcases hsep with rfl | rfl
    · exact (hexPad_chars _ _ c hc).2.1
    · exact (hexPad_chars _ _ c hc).2.2
  have cut : ∀ (x y u v : Str), (∀ c ∈ x, c ≠ sep) → (∀ c ∈ y, c ≠ sep) →
      x ++ sep :: u = y ++ sep :: v → x = y := by
    intro x
    induction x with
    | nil =>
      intro y u v hx hy e
      cases y with
      | nil => rfl
      | cons c y => simp at e; exact absurd e.1.symm (hy c (by simp))
    | cons c x ih =>
      intro y u v hx hy e
      cases y with
      | nil => simp at e; exact absurd e.1 (hx c (by simp))
      | cons d y =>
        simp only [List.cons_append, List.cons.injEq] at e
        rw [e.1, ih y u v (fun c hc => hx c (by simp [hc])) (fun c hc => hy c (by simp [hc])) e.2]
  have e := congrArg List.reverse h1
  simp only [List.reverse_append, List.reverse_cons, List.reverse_nil, List.nil_append,
    List.singleton_append] at e
  have := cut _ _ _ _ (by simpa using hne i) (by simpa using hne j) e
  exact hexPad_inj (List.reverse_inj.mp this)

/-- C35. The function label of a block whose name starts with a slash (as the names of all blocks
of a module do, compile.c:1398) is a valid C identifier. -/
theorem C35_function_label_identifier (sg : Bool) (n : Str) (i : Nat) (s : Str)
    (h : functionLabel sg (ch '_') (ch '/' :: n) i = some s) : Identifier s := by
  unfold functionLabel at h
  rw [Option.map_eq_some_iff] at h
  obtain ⟨a, ha, rfl⟩ := h
  have hf : ∀ b ∈ ch '/' :: n, Fits sg b := by
    have : (sanitize sg (ch '/' :: n)).isSome := by rw [ha]; rfl
    rw [C36_sanitize_in_bounds] at this
    intro b hb
    rcases this with h | h
    · exact .inl h
    · exact .inr (h b hb)
  rw [sanitize_some sg _ hf] at ha
  cases ha
  constructor
  · rw [List.flatMap_cons]
    refine ⟨ch '_', _, by simp only [translate, show isAlnum (ch '/') = false from by decide, Bool.false_eq_true, if_false, List.cons_append, List.nil_append]; rfl, by unfold Letter; decide⟩
  · intro b hb
    simp only [List.mem_append, List.mem_flatMap, List.mem_singleton] at hb
    rcases hb with (⟨c, _, hb⟩ | rfl) | hb
    · exact translate_ident sg c b hb
    · left; unfold Letter; decide
    · exact (hexPad_chars _ _ b hb).1

example : labelForPath true [⟨[ch 'a', ch ' ', ch 'b'], .normal⟩] =
    some (['_','F','b','l','e','_','2','f','_','a','_','2','0','_','b','_','2','5','_'].map ch) := by
  rw [labelForPath_some]
  · have h1 : translate true (ch '/') = ['_', '2', 'f', '_'].map ch := by
      rw [translate, if_neg (by decide), hexPad, show charArg true (ch '/') = 47 from rfl,
        show hex 47 = ['2','f'].map ch by
          rw [hex, if_neg (by decide), hex, if_pos (by decide)]; decide]
      decide
    have h2 : translate true (ch ' ') = ['_', '2', '0', '_'].map ch := by
      rw [translate, if_neg (by decide), hexPad, show charArg true (ch ' ') = 32 from rfl,
        show hex 32 = ['2','0'].map ch by
          rw [hex, if_neg (by decide), hex, if_pos (by decide)]; decide]
      decide
    have h3 : translate true (ch '%') = ['_', '2', '5', '_'].map ch := by
      rw [translate, if_neg (by decide), hexPad, show charArg true (ch '%') = 37 from rfl,
        show hex 37 = ['2','5'].map ch by
          rw [hex, if_neg (by decide), hex, if_pos (by decide)]; decide]
      decide
    have h4 : translate true (ch 'a') = [ch 'a'] := by decide
    have h5 : translate true (ch 'b') = [ch 'b'] := by decide
    simp [pathText, h1, h2, h3, h4, h5, prefix_]
  · intro n hn b hb
    simp only [List.mem_singleton] at hn
    subst hn
    exact .inr (by revert b; decide)

/-! ### C37 -/

theorem phase1_step (a : Byte) (u : Str)
    (h : ¬ (a = ch '?' ∧ ∃ c v, u = ch '?' :: c :: v ∧ (trigraph c).isSome)) :
    phase1 (a :: u) = a :: phase1 u := by
  match u with
  | [] => rfl
  | [b] => rfl
  | b :: c :: t =>
    conv => lhs; unfold phase1
    split
    · rename_i hab
      split
      · rename_i d hd
        exact absurd ⟨hab.1, c, t, by rw [hab.2], by rw [hd]; rfl⟩ h
      · rfl
    · rfl

theorem escapeC_cases (b : Byte) : (escapeC b = [b] ∧ b ≠ ch '"' ∧ b ≠ ch '\\' ∧ b ≠ ch '\n') ∨
    ∃ e, escapeC b = [ch '\\', e] ∧ e ≠ ch '?' ∧ escapesC.lookup e = some b := by
  unfold escapeC
  split
  · rename_i h; subst h; exact .inr ⟨_, rfl, by decide, by decide⟩
  split
  · rename_i h; subst h; exact .inr ⟨_, rfl, by decide, by decide⟩
  split
  · rename_i h; subst h; exact .inr ⟨_, rfl, by decide, by decide⟩
  split
  · rename_i h; subst h; exact .inr ⟨_, rfl, by decide, by decide⟩
  split
  · rename_i h; subst h; exact .inr ⟨_, rfl, by decide, by decide⟩
  split
  · rename_i h; subst h; exact .inr ⟨_, rfl, by decide, by decide⟩
  split
  · rename_i h; subst h; exact .inr ⟨_, rfl, by decide, by decide⟩
  split
  · rename_i h; subst h; exact .inr ⟨_, rfl, by decide, by decide⟩
  split
  · rename_i h; subst h; exact .inr ⟨_, rfl, by decide, by decide⟩
  · rename_i h10 _ _ _ hq hb
    exact .inl ⟨rfl, hq, hb, h10⟩

theorem hasTrigraph_cons {s : Str} (b : Byte) (h : HasTrigraph s) : HasTrigraph (b :: s) := by
  obtain ⟨a, c, d, rfl, h⟩ := h
  exact ⟨b :: a, c, d, by simp, h⟩

theorem phase1_escaped (s rest : Str) (h : ¬ HasTrigraph s) :
    phase1 (s.flatMap escapeC ++ ch '"' :: rest) = s.flatMap escapeC ++ ch '"' :: phase1 rest := by
  induction s with
  | nil =>
    exact phase1_step _ _ (fun e => absurd e.1 (by decide))
  | cons b s ih =>
    have ih := ih (fun g => h (hasTrigraph_cons b g))
    rw [List.flatMap_cons]
    rcases escapeC_cases b with ⟨he, -, -, -⟩ | ⟨e, he, hne, -⟩
    · rw [he, List.append_assoc, List.singleton_append, phase1_step, ih]
      · rfl
      · rintro ⟨hb, c, v, hu, hc⟩
        cases s with
        | nil =>
          simp at hu
          exact absurd hu.1 (by decide)
        | cons b2 s =>
          rw [List.flatMap_cons, List.append_assoc] at hu
          rcases escapeC_cases b2 with ⟨he2, -, -, -⟩ | ⟨e2, he2, -, -⟩
          · rw [he2, List.singleton_append, List.cons.injEq] at hu
            obtain ⟨hb2, hu⟩ := hu
            cases s with
            | nil =>
              simp at hu
              rw [← hu.1] at hc
              exact absurd hc (by decide)
            | cons b3 s =>
              rw [List.flatMap_cons, List.append_assoc] at hu
              rcases escapeC_cases b3 with ⟨he3, -, -, -⟩ | ⟨e3, he3, -, -⟩
              · rw [he3, List.singleton_append, List.cons.injEq] at hu
                apply h
                exact ⟨[], s, b3, by rw [hb, hb2]; rfl, by rw [hu.1]; exact hc⟩
              · rw [he3] at hu
                simp only [List.cons_append, List.cons.injEq] at hu
                rw [← hu.1] at hc
                exact absurd hc (by decide)
          · rw [he2] at hu
            simp only [List.cons_append, List.cons.injEq] at hu
            exact absurd hu.1 (by decide)
    · rw [he]
      simp only [List.cons_append, List.nil_append]
      rw [phase1_step _ _ (fun g => absurd g.1 (by decide)), phase1_step _ _ (fun g => hne g.1), ih]

theorem body_escapedC (s r : Str) :
    body escapesC (s.flatMap escapeC ++ ch '"' :: r) = some (s, r) := by
  induction s with
  | nil =>
    show body _ (ch '"' :: _) = _
    unfold body
    rw [if_pos rfl]
  | cons b s ih =>
    rw [List.flatMap_cons]
    rcases escapeC_cases b with ⟨he, h1, h2, h3⟩ | ⟨e, he, hne, hl⟩
    · rw [he, List.append_assoc, List.singleton_append]
      unfold body
      rw [if_neg h1, if_neg h3, if_neg h2, ih]
      rfl
    · rw [he]
      simp only [List.cons_append, List.nil_append]
      unfold body
      rw [if_neg (by decide), if_neg (by decide), if_pos rfl]
      simp only [hl, ih]
      rfl

/-- C37. The C string literal emitted for a string without trigraphs, read by a C99 compiler,
denotes exactly that string, and reading continues after it. -/
theorem C37_c_literal (s rest : Str) (h : ¬ HasTrigraph s) :
    readC (stringLitC s ++ rest) = some (s, phase1 rest) := by
  have e : stringLitC s ++ rest = ch '"' :: (s.flatMap escapeC ++ ch '"' :: rest) := by
    simp [stringLitC]
  rw [readC, e, phase1_step _ _ (fun g => absurd g.1 (by decide)), phase1_escaped s rest h]
  simp only [literal, if_true, body_escapedC]

/-- C37 is violated for trigraphs (the build compiles generated code with -std=c99): the literal
emitted for `??)` denotes `]`. -/
theorem C37_trigraph_violated :
    readC (stringLitC [ch '?', ch '?', ch ')']) = some ([ch ']'], []) := by decide

theorem escapeAsm_cases (b : Byte) : (escapeAsm b = [b] ∧ b ≠ ch '"' ∧ b ≠ ch '\\' ∧ b ≠ ch '\n') ∨
    ∃ e, escapeAsm b = [ch '\\', e] ∧ escapesAsm.lookup e = some b := by
  unfold escapeAsm
  split
  · rename_i h; subst h; exact .inr ⟨_, rfl, by decide⟩
  split
  · rename_i h; subst h; exact .inr ⟨_, rfl, by decide⟩
  split
  · rename_i h; subst h; exact .inr ⟨_, rfl, by decide⟩
  · rename_i h1 h2 h3
    exact .inl ⟨rfl, h2, h3, h1⟩

/-- C37. The assembler string operand emitted for any string denotes exactly that string. -/
theorem C37_asm_literal (s rest : Str) :
    readAsm (stringLitAsm s ++ rest) = some (s, rest) := by
  have key : ∀ s : Str, body escapesAsm (s.flatMap escapeAsm ++ ch '"' :: rest) = some (s, rest) := by
    intro s
    induction s with
    | nil =>
      show body _ (ch '"' :: _) = _
      unfold body
      rw [if_pos rfl]
    | cons b s ih =>
      rw [List.flatMap_cons]
      rcases escapeAsm_cases b with ⟨he, h1, h2, h3⟩ | ⟨e, he, hl⟩
      · rw [he, List.append_assoc, List.singleton_append]
        unfold body
        rw [if_neg h1, if_neg h3, if_neg h2, ih]
        rfl
      · rw [he]
        simp only [List.cons_append, List.nil_append]
        unfold body
        rw [if_neg (by decide), if_neg (by decide), if_pos rfl]
        simp only [hl, ih]
        rfl
  have e : stringLitAsm s ++ rest = ch '"' :: (s.flatMap escapeAsm ++ ch '"' :: rest) := by
    simp [stringLitAsm]
  rw [readAsm, e]
  simp only [literal, if_true, key]

/-- C37 is violated for the source file names of abort messages, which are not escaped: for a file
called `a\b` the emitted operand does not denote that name. -/
theorem C37_location_violated :
    readAsm (locLitAsm [ch 'a', ch '\\', ch 'b']) = some ([ch 'a', 8], []) := by decide

example : readC (stringLitC [ch 'a', ch '"', 10, ch '\\', ch '?', ch '?', 0xE9]) =
    some ([ch 'a', ch '"', 10, ch '\\', ch '?', ch '?', 0xE9], []) := by decide

end Verif.Gen
