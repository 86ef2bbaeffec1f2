import Verif.FbldParse.Grammar
/-
Steps of the parser on a text that is not indented.
-/
namespace Verif.FbldParse
open Fbld (Str Markup)

/-- With enough steps this is the result of the function. -/
structure Goes {α : Type} (f : Nat → P View α) (v : View) (x : PRes (α × View)) : Prop where
  run : ∃ N, ∀ n, N ≤ n → f n v = x

/-- With enough steps the function gives this value and state. -/
abbrev Gives {α : Type} (f : Nat → P View α) (v : View) (a : α) (v' : View) : Prop := Goes f v (.ok (a, v'))

variable {α β : Type} {a : α} {b : β} {v v' w : View} {z : PRes (β × View)}

theorem Goes.succ {f g : Nat → P View α} (h : ∀ n, f (n + 1) = g n) {z : PRes (α × View)} (hg : Goes g v z) : Goes f v z := by
  obtain ⟨N, hN⟩ := hg.run
  refine ⟨N + 1, fun n hn => ?_⟩
  obtain ⟨m, rfl⟩ : ∃ m, n = m + 1 := ⟨n - 1, by omega⟩
  rw [h]; exact hN m (by omega)

theorem Goes.bind {f : Nat → P View α} {g : Nat → α → P View β} (hf : Gives f v a v') (hg : Goes (fun n => g n a) v' z) : Goes (fun n => f n >>= g n) v z := by
  obtain ⟨N, hN⟩ := hf.run
  obtain ⟨M, hM⟩ := hg.run
  refine ⟨max N M, fun n hn => ?_⟩
  show P.bind (f n) (g n) v = _
  unfold P.bind
  rw [hN n (by omega)]
  exact hM n (by omega)

theorem Goes.pure : Gives (fun _ => Pure.pure a) v a v := ⟨0, fun _ _ => rfl⟩

theorem look_at {c : Char} {t : Str} {col : Nat} (h : 1 ≤ col) : (⟨c :: t, col, 0⟩ : View).look = some (0, c) := by
  unfold View.look
  rw [show (0 : Nat) + 1 - col = 0 by omega]
  rfl

theorem look_nil {col i : Nat} : (⟨[], col, i⟩ : View).look = none := by
  unfold View.look
  simp only
  cases i + 1 - col <;> rfl

/-- The column after a character. -/
def col1 (col : Nat) (c : Char) : Nat := if c = '\n' then 1 else col + 1

theorem col1_pos {col : Nat} {c : Char} : 1 ≤ col1 col c := by unfold col1; split <;> omega

theorem skip_at {c : Char} {t : Str} {col : Nat} : (⟨c :: t, col, 0⟩ : View).skip 1 = ⟨t, col1 col c, 0⟩ := rfl

theorem is_at : (p : Str) → {t : Str} → {col : Nat} → 1 ≤ col → (⟨t, col, 0⟩ : View).is p = p.isPrefixOf t
  | [], _, _, _ => by rw [View.is]; simp
  | p :: ps, [], col, _ => by rw [View.is, look_nil]; rfl
  | p :: ps, c :: t, col, h => by
    rw [View.is, look_at h]
    simp only [Nat.zero_add, skip_at, List.isPrefixOf]
    rw [is_at ps col1_pos]
    rfl

theorem g_is {p t : Str} {col : Nat} {g : Nat → Bool → P View β} (h : 1 ≤ col) (hg : Goes (fun n => g n (p.isPrefixOf t)) ⟨t, col, 0⟩ z) : Goes (fun n => is View.lexer p >>= g n) ⟨t, col, 0⟩ z :=
  Goes.bind (f := fun _ => is View.lexer p) (a := p.isPrefixOf t) ⟨0, fun _ _ => by show PRes.ok (View.is p _, _) = _; rw [is_at p h]⟩ hg

theorem g_yes {p t : Str} {col : Nat} {x y : Nat → P View β} (h : 1 ≤ col) (hp : p.isPrefixOf t = true) (hg : Goes x ⟨t, col, 0⟩ z) :
    Goes (fun n => is View.lexer p >>= fun b => if b = true then x n else y n) ⟨t, col, 0⟩ z :=
  g_is h (by simp only [hp, if_true]; exact hg)

theorem g_no {p t : Str} {col : Nat} {x y : Nat → P View β} (h : 1 ≤ col) (hp : p.isPrefixOf t = false) (hg : Goes y ⟨t, col, 0⟩ z) :
    Goes (fun n => is View.lexer p >>= fun b => if b = true then x n else y n) ⟨t, col, 0⟩ z :=
  g_is h (by simp only [hp, Bool.false_eq_true, if_false]; exact hg)

theorem g_char {c : Char} {t : Str} {col : Nat} {g : Nat → Char → P View β} (h : 1 ≤ col) (hg : Goes (fun n => g n c) ⟨c :: t, col, 0⟩ z) : Goes (fun n => char View.lexer >>= g n) ⟨c :: t, col, 0⟩ z :=
  Goes.bind (f := fun _ => char View.lexer) (a := c) ⟨0, fun _ _ => by show PRes.ok (_, _) = _; simp only [View.lexer, look_at h]⟩ hg

theorem g_charEnd {col : Nat} {g : Nat → Char → P View β} (hg : Goes (fun n => g n END) ⟨[], col, 0⟩ z) : Goes (fun n => char View.lexer >>= g n) ⟨[], col, 0⟩ z :=
  Goes.bind (f := fun _ => char View.lexer) (a := END) ⟨0, fun _ _ => by show PRes.ok (_, _) = _; simp only [View.lexer, look_nil]⟩ hg

theorem g_more {c : Char} {t : Str} {col : Nat} {x y : Nat → P View β} (h : 1 ≤ col) (hc : c ≠ END) (hg : Goes y ⟨c :: t, col, 0⟩ z) :
    Goes (fun n => isEnd View.lexer >>= fun b => if b = true then x n else y n) ⟨c :: t, col, 0⟩ z := by
  refine Goes.bind (f := fun _ => isEnd View.lexer) (a := false) ⟨0, fun _ _ => ?_⟩ (by simp only [Bool.false_eq_true, if_false]; exact hg)
  show PRes.ok (decide (_ = END), _) = _
  simp only [View.lexer, look_at h]
  rw [decide_eq_false hc]

theorem g_end {col : Nat} {x y : Nat → P View β} (hg : Goes x ⟨[], col, 0⟩ z) :
    Goes (fun n => isEnd View.lexer >>= fun b => if b = true then x n else y n) ⟨[], col, 0⟩ z := by
  refine Goes.bind (f := fun _ => isEnd View.lexer) (a := true) ⟨0, fun _ _ => ?_⟩ (by simp only [if_true]; exact hg)
  show PRes.ok (decide (_ = END), _) = _
  simp only [View.lexer, look_nil]
  rfl

theorem g_advance {c : Char} {t : Str} {col : Nat} {g : Nat → Unit → P View β} (h : 1 ≤ col) (hg : Goes (fun n => g n ()) ⟨t, col1 col c, 0⟩ z) : Goes (fun n => advance View.lexer >>= g n) ⟨c :: t, col, 0⟩ z :=
  Goes.bind (f := fun _ => advance View.lexer) (a := ()) ⟨0, fun _ _ => by simp [advance, View.lexer, look_at h, skip_at]⟩ hg

theorem Goes.congr {f g : Nat → P View α} (h : Gives f v a v') (e : ∀ n, g n = f n) : Gives g v a v' := by
  rw [show g = f from funext e]; exact h

/-! ### Characters -/

theorem okChar_iff {c : Char} : okChar c = true ↔ c ≠ '\x00' ∧ c ≠ END := by simp [okChar]

theorem nameChar_is {c : Char} (h : nameChar c = true) : isNameChar c = true := by
  simp only [nameChar, isNameChar, Bool.or_eq_true, decide_eq_true_eq, Bool.and_eq_true, Char.isAlphanum, Char.isAlpha, Char.isUpper, Char.isLower, Char.isDigit, ge_iff_le] at *
  simp only [Char.le_def, UInt32.le_iff_toNat_le] at *
  rcases h with ((h | h) | h) | h
  · exact .inl h
  · exact .inr (.inl (.inr h))
  · exact .inr (.inl (.inl h))
  · exact .inr (.inr h)

theorem is_nameChar {c : Char} (h : isNameChar c = true) : nameChar c = true := by
  simp only [nameChar, isNameChar, Bool.or_eq_true, decide_eq_true_eq, Bool.and_eq_true, Char.isAlphanum, Char.isAlpha, Char.isUpper, Char.isLower, Char.isDigit, ge_iff_le] at *
  simp only [Char.le_def, UInt32.le_iff_toNat_le] at *
  rcases h with h | (h | h) | h
  · exact .inl (.inl (.inl h))
  · exact .inl (.inr h)
  · exact .inl (.inl (.inr h))
  · exact .inr h

theorem cstr_id {s : Str} (h : ∀ c ∈ s, c ≠ '\x00') : cstr s = s := by
  unfold cstr
  induction s with
  | nil => rfl
  | cons c s ih =>
    rw [List.takeWhile_cons_of_pos (by simpa using h c (by simp)), ih fun d hd => h d (by simp [hd])]

theorem nameChar_ne {c d : Char} (h : nameChar c = true) (hd : nameChar d = false) : c ≠ d := by
  rintro rfl; rw [h] at hd; cases hd

theorem nameChar_ok {c : Char} (h : nameChar c = true) : okChar c = true :=
  okChar_iff.2 ⟨nameChar_ne h (by decide), nameChar_ne h (by decide)⟩

/-! ### Names and literals -/

/-- The column after a text. -/
theorem name_gives : (name : Str) → (cs r : Str) → (col : Nat) → 1 ≤ col → name.all nameChar = true → (∀ c s, r = c :: s → nameChar c = false) → (∀ c ∈ cs, c ≠ '\x00') →
    Gives (fun n => nameLoop View.lexer n cs) ⟨name ++ r, col, 0⟩ (cs ++ name) ⟨r, columnAfter col name, 0⟩
  | [], cs, r, col, hcol, _, hr, hcs => by
    apply Goes.succ (fun n => nameLoop.eq_2 _ _ _)
    simp only [List.nil_append, List.append_nil, columnAfter]
    have e : cstr cs = cs := cstr_id hcs
    cases r with
    | nil =>
      apply g_charEnd
      rw [e]
      exact .pure
    | cons c s =>
      apply g_char hcol
      have : isNameChar c = false := by
        cases h : isNameChar c with
        | false => rfl
        | true => have := is_nameChar h; rw [hr c s rfl] at this; cases this
      simp only [this, Bool.false_eq_true, if_false, e]
      exact .pure
  | c :: name, cs, r, col, hcol, hn, hr, hcs => by
    simp only [List.all_cons, Bool.and_eq_true] at hn
    apply Goes.succ (fun n => nameLoop.eq_2 _ _ _)
    apply g_char hcol
    simp only [nameChar_is hn.1, if_true]
    apply g_char hcol
    apply g_advance hcol
    have := name_gives name (cs ++ [c]) r (col1 col c) col1_pos hn.2 hr (by
      intro d hd
      simp only [List.mem_append, List.mem_singleton] at hd
      rcases hd with hd | hd
      · exact hcs d hd
      · rw [hd]; exact (okChar_iff.1 (nameChar_ok hn.1)).1)
    rw [List.append_assoc] at this
    exact this

theorem literal_gives : (s : Str) → (nest : Nat) → (cs r : Str) → (col : Nat) → 1 ≤ col → s.all okChar = true → balanced nest s = true →
    Gives (fun n => literalLoop View.lexer n nest cs) ⟨s ++ '}' :: r, col, 0⟩ (cs ++ s) ⟨'}' :: r, columnAfter col s, 0⟩
  | [], nest, cs, r, col, hcol, _, hb => by
    have hb : nest = 0 := by simpa [balanced] using hb
    subst hb
    apply Goes.succ (fun n => literalLoop.eq_2 _ _ _ _)
    apply g_is hcol
    simp [List.isPrefixOf, columnAfter]
    exact .pure
  | c :: s, nest, cs, r, col, hcol, hok, hb => by
    simp only [List.all_cons, Bool.and_eq_true] at hok
    apply Goes.succ (fun n => literalLoop.eq_2 _ _ _ _)
    apply g_is hcol
    unfold balanced at hb
    have hgo : (decide (nest > 0) || !['}'].isPrefixOf (c :: (s ++ '}' :: r))) = true := by
      by_cases hc : c = '}'
      · rw [if_neg (by rw [hc]; decide), if_pos hc] at hb
        cases nest with
        | zero => cases hb
        | succ n => simp
      · simp [List.isPrefixOf, Ne.symm hc]
    simp only [List.cons_append, hgo, if_true]
    apply g_more hcol (okChar_iff.1 hok.1).2
    apply g_is hcol
    apply g_is hcol
    apply g_char hcol
    apply g_advance hcol
    have go : ∀ k, balanced k s = true → Gives (fun n => literalLoop View.lexer n k (cs ++ [c])) ⟨s ++ '}' :: r, col1 col c, 0⟩ (cs ++ c :: s) ⟨'}' :: r, columnAfter col (c :: s), 0⟩ := by
      intro k hk
      have := literal_gives s k (cs ++ [c]) r (col1 col c) col1_pos hok.2 hk
      rw [List.append_assoc] at this
      exact this
    by_cases h1 : c = '{'
    · subst h1
      exact go _ hb
    · rw [if_neg h1] at hb
      have e1 : ['{'].isPrefixOf (c :: (s ++ '}' :: r)) = false := by simp [List.isPrefixOf, Ne.symm h1]
      by_cases h2 : c = '}'
      · subst h2
        rw [if_pos rfl] at hb
        cases nest with
        | zero => cases hb
        | succ k => exact go k hb
      · rw [if_neg h2] at hb
        have e2 : ['}'].isPrefixOf (c :: (s ++ '}' :: r)) = false := by simp [List.isPrefixOf, Ne.symm h2]
        simp only [e1, e2, Bool.false_eq_true, if_false]
        exact go _ hb

end Verif.FbldParse
