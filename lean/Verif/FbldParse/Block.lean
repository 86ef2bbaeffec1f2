import Verif.FbldParse.Lines
/-
Block structured text is parsed as what it means.
-/
namespace Verif.FbldParse
open Fbld (Str Markup)

theorem newlines_add : (m n : Nat) → newlines (m + n) = newlines m ++ newlines n := by
  intro m n; simp [newlines]

theorem skip_gives {r : Str} (hr : ∀ c s, r = c :: s → c ≠ '\n') : (g : Nat) → Gives (fun n => skipBlank View.lexer n) ⟨newlines g ++ r, 1, 0⟩ () ⟨r, 1, 0⟩
  | 0 => by
    apply Goes.succ (fun n => skipBlank.eq_2 _ _)
    refine g_no (Nat.le_refl _) ?_ .pure
    cases r with
    | nil => rfl
    | cons c s => exact prefix_ne (hr c s rfl)
  | g + 1 => by
    apply Goes.succ (fun n => skipBlank.eq_2 _ _)
    apply g_yes (Nat.le_refl _) rfl
    exact g_advance (Nat.le_refl _) (skip_gives hr g)

theorem rest_gives : (s cs : Str) → (col : Nat) → 1 ≤ col → NoEnd s → Gives (fun n => restLoop View.lexer n cs) ⟨s, col, 0⟩ (cs ++ s) ⟨[], columnAfter col s, 0⟩
  | [], cs, col, h, _ => by
    apply Goes.succ (fun n => restLoop.eq_2 _ _ _)
    apply g_end
    rw [List.append_nil]
    exact .pure
  | c :: s, cs, col, h, hs => by
    apply Goes.succ (fun n => restLoop.eq_2 _ _ _)
    apply g_more h (fun e => hs (by simp [e]))
    apply g_char h
    apply g_advance h
    have := rest_gives s (cs ++ [c]) (col1 col c) col1_pos (fun e => hs (by simp [e]))
    rw [List.append_assoc] at this
    exact this

/-! ### The indented arguments -/

theorem shift_start {t t' r : Str} (hl : Lines t) (hi : Indented true t t') : Shift r ⟨t, 1, 0⟩ ⟨t' ++ r, 1, 1⟩ :=
  ⟨⟨t', hi, rfl⟩, rfl, rfl, hl.elim (fun h => .inl ⟨h, rfl⟩) .inr, Nat.le_refl _⟩

theorem shift_end {r : Str} {v : View} (h : Shift r ⟨[], 1, 0⟩ v) : v = ⟨r, 1, 1⟩ := by
  obtain ⟨⟨t', h1, h2⟩, h3, h4, -, -⟩ := h
  obtain ⟨rest, col, ind⟩ := v
  simp only at h2 h3 h4
  cases h1
  rw [h2, h3, h4]; rfl

theorem shift_gives {α : Type} {f : Nat → P View α} {t t' r : Str} {a : α} (hf : ∀ n, SameP View.lexer (Shift r) 0 0 (f n) (f n)) (hl : Lines t) (hi : Indented true t t')
    (hg : Gives f ⟨t, 1, 0⟩ a ⟨[], 1, 0⟩) : Gives f ⟨t' ++ r, 1, 1⟩ a ⟨r, 1, 1⟩ := by
  obtain ⟨N, hN⟩ := hg.run
  refine ⟨N, fun n hn => ?_⟩
  have := (hf n).run _ _ (shift_start (r := r) hl hi) rfl
  rw [hN n hn] at this
  cases hx : f n ⟨t' ++ r, 1, 1⟩ with
  | ok x =>
    rw [hx] at this
    cases this with
    | ok h1 h2 => rw [shift_end h1]
  | error => rw [hx] at this; cases this
  | crash => rw [hx] at this; cases this
  | more => rw [hx] at this; cases this

theorem block_shift {t t' r : Str} {a : Markup} (hr : Unindented r) (hl : Lines t) (hi : Indented true t t') (hg : Gives (fun n => parseBlock View.lexer n) ⟨t, 1, 0⟩ a ⟨[], 1, 0⟩) :
    Gives (fun n => parseBlock View.lexer n) ⟨t' ++ r, 1, 1⟩ a ⟨r, 1, 1⟩ :=
  shift_gives (fun n => (same_block View.lawful (shift_sim hr) n 0).2.1) hl hi hg

theorem rest_shift {t t' r : Str} (hr : Unindented r) (hl : Lines t) (he : NoEnd t) (hi : Indented true t t') :
    Gives (fun n => restLoop View.lexer n []) ⟨t' ++ r, 1, 1⟩ t ⟨r, 1, 1⟩ := by
  refine shift_gives (fun n => same_rest View.lawful (shift_sim hr) n []) hl hi ?_
  have := rest_gives t [] 1 (Nat.le_refl _) he
  have e : columnAfter 1 t = 1 := by
    rcases hl with rfl | ⟨s, rfl⟩
    · rfl
    · rw [columnAfter_append]; rfl
  rw [e] at this
  exact this

theorem stripBlank_newlines {s : Str} : (g : Nat) → stripBlank (newlines g ++ '\n' :: s) = stripBlank ('\n' :: s)
  | 0 => rfl
  | g + 1 => by
    have h2 : newlines g ++ '\n' :: s = '\n' :: (newlines g ++ s) := by
      rw [show newlines g ++ '\n' :: s = (newlines g ++ newlines 1) ++ s by simp [newlines], ← newlines_add, Nat.add_comm, newlines_add]
      simp [newlines]
    rw [show newlines (g + 1) = '\n' :: newlines g from rfl, List.cons_append, h2, stripBlank, ← h2, stripBlank_newlines g]

theorem strip_literal {s : Str} (h : okLiteral s = true) (g : Nat) : (stripBlank (s ++ newlines g).reverse).reverse = s := by
  have hn : (newlines g).reverse = newlines g := by simp [newlines]
  obtain ⟨t, rfl⟩ := literal_lines h
  simp only [okLiteral, Bool.and_eq_true, List.reverse_append, List.reverse_cons, List.reverse_nil, List.nil_append, List.cons_append] at h
  rw [List.reverse_append, hn, List.reverse_append]
  simp only [List.reverse_cons, List.reverse_nil, List.nil_append, List.cons_append]
  rw [stripBlank_newlines]
  have : stripBlank ('\n' :: t.reverse) = '\n' :: t.reverse := by
    cases hr : t.reverse with
    | nil => rfl
    | cons c u =>
      have h2 := h.2
      rw [hr] at h2
      simp only [ne_eq, decide_not, Bool.not_eq_true', decide_eq_false_iff_not] at h2
      unfold stripBlank
      split
      · simp_all
      · rfl
  rw [this]
  simp

/-! ### The parts of a command -/

/-- The end of the line of a command, and what follows it. -/
def lineEnd (n : Nat) (args : List Markup) : P View (List Markup) := do
  if ← is View.lexer [' ', '@', '@', '\n'] then
    advance View.lexer; advance View.lexer; advance View.lexer; advance View.lexer
    let final ← parseBlock View.lexer n
    return args ++ [final]
  else
    let args ← (do
      if ← is View.lexer [' ', '@', '\n'] then
        advance View.lexer; advance View.lexer; advance View.lexer
        deeper View.lexer
        let chars ← restLoop View.lexer n []
        shallower View.lexer
        return args ++ [.plain (cstr (stripBlank chars.reverse).reverse)]
      else if ← is View.lexer ['\n'] then
        advance View.lexer
        return args
      else fail : P View (List Markup))
    let args ← (do
      if ← is View.lexer [' '] then
        deeper View.lexer
        let arg ← parseBlock View.lexer n
        shallower View.lexer
        return args ++ [arg]
      else return args : P View (List Markup))
    if ← is View.lexer ['@', '@', '\n'] then
      advance View.lexer; advance View.lexer; advance View.lexer
      let final ← parseBlock View.lexer n
      return args ++ [final]
    else
      let c1 ← is View.lexer ['@', '\n']
      let c2 ← (if c1 then return true else is View.lexer ['@', ' '] : P View Bool)
      let c3 ← (if c2 then return true else is View.lexer ['@', '['] : P View Bool)
      let c4 ← (if c3 then return true else is View.lexer ['@', '{'] : P View Bool)
      if c4 then
        advance View.lexer
        commandLoop View.lexer n args
      else return args

/-- What follows the arguments on the next lines. -/
def moreEnd (n : Nat) (args : List Markup) : P View (List Markup) := do
  if ← is View.lexer ['@', '@', '\n'] then
    advance View.lexer; advance View.lexer; advance View.lexer
    let final ← parseBlock View.lexer n
    return args ++ [final]
  else
    let c1 ← is View.lexer ['@', '\n']
    let c2 ← (if c1 then return true else is View.lexer ['@', ' '] : P View Bool)
    let c3 ← (if c2 then return true else is View.lexer ['@', '['] : P View Bool)
    let c4 ← (if c3 then return true else is View.lexer ['@', '{'] : P View Bool)
    if c4 then
      advance View.lexer
      commandLoop View.lexer n args
    else return args

theorem commandLoop_eq (n : Nat) (args : List Markup) : commandLoop View.lexer (n + 1) args = (do
    let args ← parseInlineArgs View.lexer n args
    let args ← (do
      if ← is View.lexer [' '] then
        if ← is View.lexer [' ', '@', '\n'] then return args
        else if ← is View.lexer [' ', '@', '@', '\n'] then return args
        else
          advance View.lexer
          let arg ← inlineLoop View.lexer n .sameLineArg [] []
          return args ++ [arg]
      else return args : P View (List Markup))
    lineEnd n args) := by
  rw [commandLoop]; rfl

/-- The text after a command. -/
structure RestOk (fin : Bool) (r : Str) : Prop where
  fin : fin = true → r = []
  starts : ∀ c s, r = c :: s → Starts c s

theorem RestOk.unindented {b : Bool} {r : Str} (h : RestOk b r) : Unindented r := fun c s e => ⟨(h.starts c s e).space, (h.starts c s e).newline⟩

/-- It is not taken for a continuation. -/
theorem RestOk.noCont {b : Bool} {r : Str} (h : RestOk b r) (g : Nat) : ['@', '@', '\n'].isPrefixOf (newlines g ++ r) = false ∧ ∀ c ∈ ['\n', ' ', '[', '{'], ['@', c].isPrefixOf (newlines g ++ r) = false := by
  cases g with
  | succ g => exact ⟨rfl, fun c _ => rfl⟩
  | zero =>
    show _ ∧ ∀ c ∈ _, List.isPrefixOf _ r = false
    show List.isPrefixOf _ r = false ∧ _
    cases r with
    | nil => exact ⟨rfl, fun _ _ => rfl⟩
    | cons c s =>
      have hs := h.starts c s rfl
      by_cases hc : c = '@'
      · obtain ⟨e, s', rfl, he⟩ := hs.command hc
        rcases he with he | ⟨rfl, f, s'', rfl, hf⟩
        · have hne : ∀ d, nameChar d = false → (d == e) = false := fun d hd => by simpa using Ne.symm (nameChar_ne he hd)
          refine ⟨by simp [List.isPrefixOf, hne '@' (by decide)], fun d hd => ?_⟩
          have : nameChar d = false := by simp at hd; rcases hd with rfl | rfl | rfl | rfl <;> decide
          simp [List.isPrefixOf, hne d this]
        · have : ('\n' == f) = false := by simpa using Ne.symm (nameChar_ne hf (d := '\n') (by decide))
          refine ⟨by simp [List.isPrefixOf, this], fun d hd => ?_⟩
          simp at hd
          rcases hd with rfl | rfl | rfl | rfl <;> simp [List.isPrefixOf]
      · have : ('@' == c) = false := by simpa using Ne.symm hc
        exact ⟨by simp [List.isPrefixOf, this], fun d _ => by simp [List.isPrefixOf, this]⟩

theorem RestOk.noSpace {b : Bool} {r : Str} (h : RestOk b r) (g : Nat) : [' '].isPrefixOf (newlines g ++ r) = false := by
  cases g with
  | succ g => rfl
  | zero =>
    cases r with
    | nil => rfl
    | cons c s => exact prefix_ne (h.starts c s rfl).space

end Verif.FbldParse
