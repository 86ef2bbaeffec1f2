import Verif.FbldParse.Document
/-
Any text, indented, is an argument of a command: with the same document, or the same error.
-/
namespace Verif.FbldParse
open Fbld (Str Markup)

variable {α β : Type}

/-- With enough steps there is this result. -/
theorem goes_of {n : Nat} {f : Nat → P View α} (hf : ∀ n, LeP (f n) (f (n + 1))) {v : View} {x : PRes (α × View)} (h : f n v = x) (hx : x ≠ .more) : Goes f v x := by
  refine ⟨n, fun m hm => ?_⟩
  rcases (upTo hf hm).run v with e | e
  · rw [h] at e; exact absurd e hx
  · rw [← e, h]

theorem Goes.bind_error {f : Nat → P View α} {g : Nat → α → P View β} {v : View} (h : Goes f v .error) : Goes (fun n => f n >>= g n) v .error := by
  obtain ⟨N, hN⟩ := h.run
  refine ⟨N, fun n hn => ?_⟩
  show P.bind (f n) (g n) v = _
  unfold P.bind
  rw [hN n hn]

theorem bind_ok {m : P View α} {f : α → P View β} {v v' : View} {b : β} (h : (m >>= f) v = .ok (b, v')) : ∃ a w, m v = .ok (a, w) ∧ f a w = .ok (b, v') := by
  have h : P.bind m f v = _ := h
  unfold P.bind at h
  cases hm : m v with
  | ok x => rw [hm] at h; exact ⟨x.1, x.2, rfl, h⟩
  | error => rw [hm] at h; cases h
  | crash => rw [hm] at h; cases h
  | more => rw [hm] at h; cases h

/-- A block goes on to the end of its input. -/
theorem block_end : (n : Nat) → (ms : List Markup) → (v v' : View) → (a : Markup) → blockLoop View.lexer n ms v = .ok (a, v') → next v' = END
  | 0, _, _, _, _, h => by rw [blockLoop] at h; cases h
  | n + 1, ms, v, v', a, h => by
    have ih := block_end n
    rw [blockLoop] at h
    obtain ⟨b, w, h1, h⟩ := bind_ok h
    have e : isEnd View.lexer v = .ok (decide (next v = END), v) := rfl
    rw [e] at h1
    cases h1
    split at h
    · rename_i hb
      cases h
      simpa using hb
    · obtain ⟨b, w, h1, h⟩ := bind_ok h
      split at h
      · obtain ⟨_, _, -, h⟩ := bind_ok h
        obtain ⟨_, _, -, h⟩ := bind_ok h
        obtain ⟨_, _, -, h⟩ := bind_ok h
        exact ih _ _ _ _ h
      · obtain ⟨b, w, h1, h⟩ := bind_ok h
        split at h
        · obtain ⟨_, _, -, h⟩ := bind_ok h
          obtain ⟨_, _, -, h⟩ := bind_ok h
          obtain ⟨_, _, -, h⟩ := bind_ok h
          obtain ⟨_, _, -, h⟩ := bind_ok h
          exact ih _ _ _ _ h
        · obtain ⟨_, _, -, h⟩ := bind_ok h
          obtain ⟨_, _, -, h⟩ := bind_ok h
          exact ih _ _ _ _ h

theorem parse_end {n : Nat} {v v' : View} {a : Markup} (h : parseBlock View.lexer n v = .ok (a, v')) : next v' = END := by
  cases n with
  | zero => rw [parseBlock] at h; cases h
  | succ n =>
    rw [parseBlock] at h
    obtain ⟨_, _, -, h⟩ := bind_ok h
    exact block_end _ _ _ _ _ h

/-- The result with some elements before. -/
def prepend (p : List Markup) : PRes (Markup × View) → PRes (Markup × View)
  | .ok (.seq ms, v) => .ok (.seq (p ++ ms), v)
  | x => x

theorem prepend_bind {p : List Markup} {m : P View α} {f g : α → P View Markup} {v : View} (h : ∀ a w, f a w = prepend p (g a w)) : (m >>= f) v = prepend p ((m >>= g) v) := by
  show P.bind m f v = prepend p (P.bind m g v)
  unfold P.bind
  cases m v with
  | ok x => exact h _ _
  | error => rfl
  | crash => rfl
  | more => rfl

/-- What was parsed before does not matter. -/
theorem block_prepend (p : List Markup) : (n : Nat) → (ms : List Markup) → (v : View) → blockLoop View.lexer n (p ++ ms) v = prepend p (blockLoop View.lexer n ms v)
  | 0, _, _ => by rw [blockLoop, blockLoop]; rfl
  | n + 1, ms, v => by
    have ih := block_prepend p n
    rw [blockLoop, blockLoop]
    refine prepend_bind fun b w => ?_
    split
    · rfl
    · refine prepend_bind fun b w => ?_
      split
      · refine prepend_bind fun _ w => prepend_bind fun _ w => prepend_bind fun _ w => ?_
        rw [List.append_assoc]; exact ih _ _
      · refine prepend_bind fun b w => ?_
        split
        · refine prepend_bind fun _ w => prepend_bind fun _ w => prepend_bind fun _ w => prepend_bind fun _ w => ?_
          rw [List.append_assoc]; exact ih _ _
        · refine prepend_bind fun _ w => prepend_bind fun _ w => ?_
          rw [List.append_assoc]; exact ih _ _

theorem prepend_goes {f : Nat → P View Unit} {p ms : List Markup} {v : View} {x : PRes (Markup × View)} (h : Goes (fun n => f n >>= fun _ => blockLoop View.lexer n ms) v x) :
    Goes (fun n => f n >>= fun _ => blockLoop View.lexer n (p ++ ms)) v (prepend p x) := by
  obtain ⟨N, hN⟩ := h.run
  refine ⟨N, fun n hn => ?_⟩
  rw [← hN n hn]
  exact prepend_bind fun _ w => block_prepend p n ms w

/-! ### The law -/

variable {t t' r : Str}

/-- An indented text is parsed in the same way. -/
theorem block_shift_ok (hr : Unindented r) (hl : Lines t) (he : NoEnd t) (hi : Indented true t t') {a : Markup} {v : View} (hg : Gives (fun n => parseBlock View.lexer n) ⟨t, 1, 0⟩ a v) :
    Gives (fun n => parseBlock View.lexer n) ⟨t' ++ r, 1, 1⟩ a ⟨r, 1, 1⟩ := by
  refine block_shift hr hl hi ?_
  obtain ⟨N, hN⟩ := hg.run
  refine ⟨N + 4 * t.length + 5, fun n hn => ?_⟩
  have hb := hN n (by omega)
  rw [hb]
  have hs := ((same_block View.lawful (shift_sim hr) n 0).2.1).run _ _ (shift_start (r := r) hl hi) rfl
  rw [hb] at hs
  have hend := parse_end hb
  rcases ((block_tot n).2.1 ⟨t, 1, 0⟩ ⟨he, hl⟩ (by simp only; omega)).run with h | ⟨a', w, h, ha⟩
  · rw [hb] at h; cases h
  rw [hb] at h
  cases h
  have hgood := ha.good
  cases hx : parseBlock View.lexer n ⟨t' ++ r, 1, 1⟩ with
  | ok x =>
    rw [hx] at hs
    cases hs with
    | ok h1 h2 =>
      have hrest : v.rest = [] := by
        cases hv : v.look with
        | none =>
          unfold View.look at hv
          have h2 : v.indent = 0 := h2
          have h3 := h1.pos
          rw [show v.indent + 1 - v.column = 0 by omega] at hv
          cases hr' : v.rest with
          | nil => rfl
          | cons c s => rw [hr'] at hv; cases hv
        | some x =>
          obtain ⟨k, c⟩ := x
          exact absurd ((look_next hv).symm.trans hend) (look_good hgood hv)
      have hcol : v.column = 1 := by
        rcases h1.lines with h | h
        · exact h.2
        · rw [hrest] at h; obtain ⟨s, hs⟩ := h; simp at hs
      obtain ⟨rest, col, ind⟩ := v
      have h2 : ind = 0 := h2
      simp only at hrest hcol
      rw [hrest, hcol, h2]
  | error => rw [hx] at hs; cases hs
  | crash => rw [hx] at hs; cases hs
  | more => rw [hx] at hs; cases hs

theorem block_shift_error (hr : Unindented r) (hl : Lines t) (hi : Indented true t t') (hg : Goes (fun n => parseBlock View.lexer n) ⟨t, 1, 0⟩ .error) :
    Goes (fun n => parseBlock View.lexer n) ⟨t' ++ r, 1, 1⟩ .error := by
  obtain ⟨N, hN⟩ := hg.run
  refine ⟨N, fun n hn => ?_⟩
  have hs := ((same_block View.lawful (shift_sim hr) n 0).2.1).run _ _ (shift_start (r := r) hl hi) rfl
  rw [hN n hn] at hs
  cases hx : parseBlock View.lexer n ⟨t' ++ r, 1, 1⟩ with
  | error => rfl
  | ok x => rw [hx] at hs; cases hs
  | crash => rw [hx] at hs; cases hs
  | more => rw [hx] at hs; cases hs

/-- The text that can follow a command and is not a part of it. -/
structure NotPart (r : Str) : Prop where
  unindented : Unindented r
  noFinal : ['@', '@', '\n'].isPrefixOf r = false
  noAgain : ∀ c ∈ ['\n', ' ', '[', '{'], ['@', c].isPrefixOf r = false

theorem NotPart.nil : NotPart [] := ⟨(by intro c s h; cases h), rfl, fun _ _ => rfl⟩

/-- A command with an argument on the next lines. -/
theorem command_line {s : Str} {col : Nat} (hcol : 1 ≤ col) {x : PRes (List Markup × View)} (h : Goes (fun n => lineEnd n []) ⟨'\n' :: s, col, 0⟩ x) :
    Goes (fun n => commandLoop View.lexer n []) ⟨'\n' :: s, col, 0⟩ x := by
  apply Goes.succ (fun n => commandLoop_eq _ _)
  have h0 : Gives (fun n => parseInlineArgs View.lexer n []) ⟨'\n' :: s, col, 0⟩ [] ⟨'\n' :: s, col, 0⟩ := by
    apply Goes.succ (fun n => parseInlineArgs.eq_2 _ _ _)
    apply g_is hcol
    apply g_is hcol
    exact .pure
  refine h0.bind ?_
  refine Goes.bind (a := []) (v' := ⟨'\n' :: s, col, 0⟩) ?_ h
  apply g_no hcol (pre_ne rfl)
  exact .pure

theorem more_none {as : List Markup} (h : NotPart r) : Gives (fun n => moreEnd n as) ⟨r, 1, 0⟩ as ⟨r, 1, 0⟩ := by
  apply g_no (Nat.le_refl _) h.noFinal
  apply g_is (Nat.le_refl _)
  rw [h.noAgain '\n' (by simp)]
  apply g_is (Nat.le_refl _)
  rw [h.noAgain ' ' (by simp)]
  apply g_is (Nat.le_refl _)
  rw [h.noAgain '[' (by simp)]
  apply g_is (Nat.le_refl _)
  rw [h.noAgain '{' (by simp)]
  exact .pure

/-- A command, up to its arguments. -/
theorem command_start {name : Str} {ms : List Markup} {x : PRes (Markup × View)} {s : Str} (hn : okName name = true)
    (h : Goes (fun n => do let args ← commandLoop View.lexer n []; skipBlank View.lexer n; blockLoop View.lexer n (ms ++ [.cmd name args])) ⟨'\n' :: s, columnAfter 2 name, 0⟩ x) :
    Goes (fun n => do skipBlank View.lexer n; blockLoop View.lexer n ms) ⟨'@' :: (name ++ '\n' :: s), 1, 0⟩ x := by
  have hall : name.all nameChar = true := by simp [okName] at hn; simpa using hn.2
  have hsk := skip_gives (r := '@' :: (name ++ '\n' :: s)) (by intro c t e; cases e; decide) 0
  refine Goes.bind hsk ?_
  apply Goes.succ (fun n => blockLoop.eq_2 _ _ _)
  apply g_more (Nat.le_refl _) (by decide)
  have hat : ['@', '@'].isPrefixOf ('@' :: (name ++ '\n' :: s)) = false := by
    obtain ⟨f, u, rfl, hf⟩ := okName_head hn
    have : ('@' == f) = false := by simpa using Ne.symm (nameChar_ne hf (d := '@') (by decide))
    simp [List.isPrefixOf, this]
  apply g_no (Nat.le_refl _) hat
  apply g_yes (Nat.le_refl _) rfl
  apply g_advance (Nat.le_refl _)
  refine (name_gives name [] _ _ col1_pos hall ?_ (by simp)).bind ?_
  · intro c' s' e'; cases e'; decide
  exact h

theorem law_ok {name : Str} {a : Markup} {v : View} {x : PRes (Markup × View)} (hn : okName name = true) (hl : Lines t) (he : NoEnd t) (hi : Indented true t (' ' :: t')) (hr : NotPart r)
    (hg : Gives (fun n => parseBlock View.lexer n) ⟨t, 1, 0⟩ a v) (hx : Goes (fun n => parseBlock View.lexer n) ⟨r, 1, 0⟩ x) :
    Goes (fun n => parseBlock View.lexer n) ⟨'@' :: (name ++ '\n' :: ' ' :: (t' ++ r)), 1, 0⟩ (prepend [.cmd name [a]] x) := by
  apply Goes.succ (fun n => parseBlock.eq_2 _ _)
  apply command_start hn
  have h1 := next_line (as := []) (col := columnAfter 2 name) (columnAfter_pos _ (by omega)) (T := ' ' :: t') (R := r) rfl (block_shift_ok hr.unindented hl he hi hg) (more_none hr)
  refine (command_line (columnAfter_pos _ (by omega)) h1).bind ?_
  refine prepend_goes (p := [.cmd name [a]]) (ms := []) ?_
  obtain ⟨N, hN⟩ := hx.run
  refine ⟨N, fun n hn => ?_⟩
  have := hN (n + 1) (by omega)
  rw [parseBlock] at this
  exact this

theorem law_error {name : Str} (hn : okName name = true) (hl : Lines t) (hi : Indented true t (' ' :: t')) (hr : Unindented r)
    (hg : Goes (fun n => parseBlock View.lexer n) ⟨t, 1, 0⟩ .error) :
    Goes (fun n => parseBlock View.lexer n) ⟨'@' :: (name ++ '\n' :: ' ' :: (t' ++ r)), 1, 0⟩ .error := by
  apply Goes.succ (fun n => parseBlock.eq_2 _ _)
  apply command_start hn
  have hcol : 1 ≤ columnAfter 2 name := columnAfter_pos _ (by omega)
  refine Goes.bind_error (command_line hcol ?_)
  apply g_no hcol (pre_ne rfl)
  refine Goes.bind (line_step hcol) ?_
  refine Goes.bind_error ?_
  apply g_yes (Nat.le_refl _) (pre_same pre_nil)
  apply g_deeper
  exact Goes.bind_error (block_shift_error hr hl hi hg)

end Verif.FbldParse
