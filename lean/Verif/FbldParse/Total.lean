import Verif.FbldParse.Start
/-
The parser ends on every complete text, without a failed assertion.
-/
namespace Verif.FbldParse
open Fbld (Str Markup)

/-- A text whose last line is complete, without the character that stands for the end. -/
structure Good (v : View) : Prop where
  noEnd : END ∉ v.rest
  lines : v.rest = [] ∨ EndsNl v.rest

/-- The line goes on. -/
structure Line (v : View) : Prop where
  column : v.indent < v.column
  rest : v.rest ≠ []

/-- What the parser has left after some steps. -/
structure After (v v' : View) : Prop where
  good : Good v'
  indent : v'.indent = v.indent
  le : v'.rest.length ≤ v.rest.length
  eq : v'.rest.length = v.rest.length → v' = v

theorem After.refl {v : View} (h : Good v) : After v v := ⟨h, rfl, Nat.le_refl _, fun _ => rfl⟩

theorem After.trans {v v' v'' : View} (h : After v v') (g : After v' v'') : After v v'' :=
  ⟨g.good, g.indent.trans h.indent, Nat.le_trans g.le h.le, fun e => by
    have := h.le; have := g.le
    rw [g.eq (by omega), h.eq (by omega)]⟩

theorem look_len {k : Nat} {t : Str} {j : Nat} {c : Char} (h : look k t = some (j, c)) : j + 1 ≤ t.length := by
  obtain ⟨h1, -, -⟩ := look_some h
  have := congrArg List.length h1
  simp only [List.length_append, List.length_replicate, List.length_cons, List.length_drop] at this
  omega

theorem EndsNl.drop {t : Str} {k : Nat} (h : EndsNl t) (hk : k < t.length) : EndsNl (t.drop k) := by
  obtain ⟨r, rfl⟩ := h
  simp only [List.length_append, List.length_cons, List.length_nil] at hk
  exact ⟨r.drop k, by rw [List.drop_append_of_le_length (by omega)]⟩

theorem skip_after {v : View} {k : Nat} {c : Char} (hg : Good v) (h : v.look = some (k, c)) : After v (v.skip (k + 1)) ∧ (v.skip (k + 1)).rest.length < v.rest.length := by
  have hl := look_len h
  have hlt : (v.skip (k + 1)).rest.length < v.rest.length := by simp only [View.skip, List.length_drop]; omega
  refine ⟨⟨⟨fun hm => hg.noEnd (List.mem_of_mem_drop hm), ?_⟩, rfl, by omega, fun e => by omega⟩, hlt⟩
  rcases hg.lines with h0 | h0
  · rw [h0] at hl; simp at hl
  · by_cases hk : k + 1 < v.rest.length
    · exact .inr (h0.drop hk)
    · left; simp only [View.skip, List.drop_eq_nil_iff]; omega

theorem skip_line {v : View} {k : Nat} {c : Char} (hg : Good v) (h : v.look = some (k, c)) (hc : c ≠ '\n') : Line (v.skip (k + 1)) := by
  obtain ⟨h1, h2, h3⟩ := look_some h
  constructor
  · rw [skip_column h, if_neg hc]
    simp only [View.skip]
    have := h2.resolve_left hc
    omega
  · intro h0
    rcases hg.lines with h4 | ⟨r, h4⟩
    · rw [h4] at h1; simp at h1
    · simp only [View.skip] at h0
      rw [h0, h4] at h1
      have := congrArg List.getLast? h1
      simp at this
      exact hc this.symm

theorem Line.look {v : View} (h : Line v) : ∃ c, v.look = some (0, c) := by
  have := h.column
  unfold View.look
  rw [show v.indent + 1 - v.column = 0 by omega]
  cases hr : v.rest with
  | nil => exact absurd hr h.rest
  | cons c t => exact ⟨c, rfl⟩

/-! ### Functions that end -/

/-- The function ends with an error or a result that is as described. -/
structure Tot {α : Type} (m : P View α) (v : View) (Q : α → View → Prop) : Prop where
  run : m v = .error ∨ ∃ a v', m v = .ok (a, v') ∧ Q a v'

variable {α β : Type} {v : View} {Q : α → View → Prop} {R : β → View → Prop}

theorem Tot.bind {m : P View α} {f : α → P View β} (h : Tot m v Q) (g : ∀ a v', Q a v' → Tot (f a) v' R) : Tot (m >>= f) v R := by
  constructor
  show P.bind m f v = _ ∨ ∃ a v', P.bind m f v = _ ∧ _
  unfold P.bind
  rcases h.run with h | ⟨a, v', h, hq⟩
  · left; rw [h]
  · rw [h]; exact (g a v' hq).run

theorem Tot.pure {a : α} (h : Q a v) : Tot (pure a) v Q := ⟨.inr ⟨a, v, rfl, h⟩⟩
theorem Tot.fail : Tot (fail : P View α) v Q := ⟨.inl rfl⟩
theorem Tot.weaken {m : P View α} {Q' : α → View → Prop} (h : Tot m v Q) (g : ∀ a v', Q a v' → Q' a v') : Tot m v Q' := by
  constructor
  rcases h.run with h | ⟨a, v', h, hq⟩
  · exact .inl h
  · exact .inr ⟨a, v', h, g a v' hq⟩

def next (v : View) : Char := match v.look with | none => END | some x => x.2

theorem bind_char {f : Char → P View β} (h : Tot (f (next v)) v R) : Tot (char View.lexer >>= f) v R :=
  ⟨h.run⟩
theorem bind_is {p : Str} {f : Bool → P View β} (h : Tot (f (v.is p)) v R) : Tot (is View.lexer p >>= f) v R :=
  ⟨h.run⟩
theorem bind_isEnd {f : Bool → P View β} (h : Tot (f (next v = END)) v R) : Tot (isEnd View.lexer >>= f) v R :=
  ⟨h.run⟩
theorem bind_column {f : Nat → P View β} (h : Tot (f v.column) v R) : Tot (column View.lexer >>= f) v R :=
  ⟨h.run⟩
theorem bind_deeper {f : Unit → P View β} (h : Tot (f ()) { v with indent := v.indent + 1 } R) : Tot (deeper View.lexer >>= f) v R :=
  ⟨h.run⟩
theorem bind_shallower {f : Unit → P View β} (h : Tot (f ()) { v with indent := v.indent - 1 } R) : Tot (shallower View.lexer >>= f) v R :=
  ⟨h.run⟩
theorem bind_advance {f : Unit → P View β} {k : Nat} {c : Char} (hl : v.look = some (k, c)) (h : Tot (f ()) (v.skip (k + 1)) R) : Tot (advance View.lexer >>= f) v R := by
  constructor
  have : advance View.lexer v = .ok ((), v.skip (k + 1)) := by simp [advance, View.lexer, hl]
  show P.bind (advance View.lexer) f v = _ ∨ ∃ a v', P.bind (advance View.lexer) f v = _ ∧ _
  unfold P.bind
  rw [this]
  exact h.run

theorem is_look {p : Char} {ps : Str} (h : v.is (p :: ps) = true) : ∃ k, v.look = some (k, p) ∧ (v.skip (k + 1)).is ps = true := by
  rw [View.is] at h
  cases hl : v.look with
  | none => rw [hl] at h; cases h
  | some x =>
    rw [hl] at h
    simp only [Bool.and_eq_true, decide_eq_true_eq] at h
    exact ⟨x.1, by rw [h.1], h.2⟩

theorem next_look (hg : Good v) (h : next v ≠ END) : ∃ k, v.look = some (k, next v) := by
  unfold next at h ⊢
  cases hl : v.look with
  | none => rw [hl] at h; exact absurd rfl h
  | some x => exact ⟨x.1, rfl⟩

theorem look_next {k : Nat} {c : Char} (h : v.look = some (k, c)) : next v = c := by unfold next; rw [h]

theorem look_good {k : Nat} {c : Char} (hg : Good v) (h : v.look = some (k, c)) : c ≠ END := by
  rintro rfl
  obtain ⟨h1, -, -⟩ := look_some h
  apply hg.noEnd
  rw [h1]; simp

theorem is_one {p : Char} (h : v.look = some (k, c)) : v.is [p] = decide (p = c) := by
  rw [View.is, h]; simp [View.is]

/-- One character, on its line. -/
abbrev On (v : View) (v' : View) : Prop := After v v' ∧ Line v'

theorem name_tot (hg : Good v) (hl : Line v) {n : Nat} (hn : v.rest.length + 1 ≤ n) (cs : Str) : Tot (nameLoop View.lexer n cs) v fun _ v' => On v v' := by
  induction n generalizing v cs with
  | zero => omega
  | succ n ih =>
    rw [nameLoop]
    apply bind_char
    split
    · rename_i hc
      apply bind_char
      have hne : next v ≠ END := by intro h; rw [h] at hc; revert hc; decide
      obtain ⟨k, hk⟩ := next_look hg hne
      apply bind_advance hk
      have ha := skip_after hg hk
      have hne : next v ≠ '\n' := by intro h; rw [h] at hc; revert hc; decide
      exact (ih ha.1.good (skip_line hg hk hne) (by omega) _).weaken fun _ _ h => ⟨ha.1.trans h.1, h.2⟩
    · exact .pure ⟨.refl hg, hl⟩

theorem literal_tot (hg : Good v) {n : Nat} (hn : v.rest.length + 1 ≤ n) (nest : Nat) (cs : Str) : Tot (literalLoop View.lexer n nest cs) v fun _ v' => After v v' ∧ v'.is ['}'] = true := by
  induction n generalizing v nest cs with
  | zero => omega
  | succ n ih =>
    rw [literalLoop]
    apply bind_is
    split
    · apply bind_isEnd
      split
      · exact .fail
      · rename_i hne
        simp only [decide_eq_true_eq] at hne
        obtain ⟨k, hk⟩ := next_look hg hne
        apply bind_is
        apply bind_is
        apply bind_char
        apply bind_advance hk
        have ha := skip_after hg hk
        exact (ih ha.1.good (by omega) _ _).weaken fun _ _ h => ⟨ha.1.trans h.1, h.2⟩
    · rename_i hc
      simp at hc
      exact .pure ⟨.refl hg, hc.2⟩

theorem rest_tot (hg : Good v) {n : Nat} (hn : v.rest.length + 1 ≤ n) (cs : Str) : Tot (restLoop View.lexer n cs) v fun _ v' => After v v' := by
  induction n generalizing v cs with
  | zero => omega
  | succ n ih =>
    rw [restLoop]
    apply bind_isEnd
    split
    · exact .pure (.refl hg)
    · rename_i hne
      simp only [decide_eq_true_eq] at hne
      obtain ⟨k, hk⟩ := next_look hg hne
      apply bind_char
      apply bind_advance hk
      have ha := skip_after hg hk
      exact (ih ha.1.good (by omega) _).weaken fun _ _ h => ha.1.trans h

theorem skip_tot (hg : Good v) {n : Nat} (hn : v.rest.length + 1 ≤ n) : Tot (skipBlank View.lexer n) v fun _ v' => After v v' ∧ v'.is ['\n'] = false := by
  induction n generalizing v with
  | zero => omega
  | succ n ih =>
    rw [skipBlank]
    apply bind_is
    split
    · rename_i h
      obtain ⟨k, hk, -⟩ := is_look h
      apply bind_advance hk
      have ha := skip_after hg hk
      exact (ih ha.1.good (by omega)).weaken fun _ _ h => ⟨ha.1.trans h.1, h.2⟩
    · rename_i h
      exact .pure ⟨.refl hg, by simpa using h⟩

/-- Where the text ends. -/
def Stops : Context → View → Prop
  | .inlineArg, v => v.is [']'] = true
  | .sameLineArg, v => v.is ['\n'] = true ∨ v.is [' ', '@', '\n'] = true ∨ v.is [' ', '@', '@', '\n'] = true
  | .implicitBlock, v => next v = END ∨ v.is ['\n'] = true

theorem inlineEnd_tot (hg : Good v) (context : Context) : Tot (inlineEnd View.lexer context) v fun b v' => v' = v ∧ (b = true → Stops context v) ∧ (b = false → context ≠ .sameLineArg → next v ≠ END) ∧ (b = false → context = .sameLineArg → v.is ['\n'] = false) := by
  cases context with
  | inlineArg =>
    rw [inlineEnd]
    apply bind_is
    split
    · exact .pure ⟨rfl, fun _ => ‹_›, by simp, by simp⟩
    · apply bind_isEnd
      split
      · exact .fail
      · rename_i h
        exact .pure ⟨rfl, by simp, by simpa using h, by simp⟩
  | sameLineArg =>
    rw [inlineEnd]
    apply bind_is
    split
    · exact .pure ⟨rfl, fun _ => .inl ‹_›, by simp, by simp⟩
    · rename_i h0
      apply bind_is
      split
      · exact .pure ⟨rfl, fun _ => .inr (.inl ‹_›), by simp, by simp⟩
      · refine ⟨.inr ⟨_, _, rfl, rfl, fun h => .inr (.inr h), by simp, fun _ _ => by simpa using h0⟩⟩
  | implicitBlock =>
    rw [inlineEnd]
    apply bind_column
    have : Tot (isEnd View.lexer) v fun b v' => v' = v ∧ (b = true → Stops .implicitBlock v) ∧ (b = false → Context.implicitBlock ≠ .sameLineArg → next v ≠ END) ∧ (b = false → Context.implicitBlock = .sameLineArg → v.is ['\n'] = false) :=
      ⟨.inr ⟨_, _, rfl, rfl, fun h => .inl (of_decide_eq_true (p := next v = END) h), fun h _ => of_decide_eq_false (p := next v = END) h, by simp⟩⟩
    split
    · apply bind_is
      split
      · exact .pure ⟨rfl, fun _ => .inr ‹_›, by simp, by simp⟩
      · exact this
    · exact this

theorem inline_tot (n : Nat) :
    (∀ v args, Good v → Line v → 4 * v.rest.length + 1 ≤ n → Tot (parseInlineArgs View.lexer n args) v fun _ v' => On v v')
    ∧ (∀ v, Good v → Line v → 4 * v.rest.length + 2 ≤ n → Tot (parseInlineCommand View.lexer n) v fun _ v' => On v v')
    ∧ (∀ v context ms cs, Good v → (context = .sameLineArg → Line v) → 4 * v.rest.length + 3 ≤ n →
        Tot (inlineLoop View.lexer n context ms cs) v fun _ v' => After v v' ∧ Stops context v') := by
  induction n with
  | zero => exact ⟨fun _ _ _ _ h => by omega, fun _ _ _ h => by omega, fun _ _ _ _ _ _ h => by omega⟩
  | succ n ih =>
    obtain ⟨ih1, ih2, ih3⟩ := ih
    refine ⟨fun v args hg hl hn => ?_, fun v hg hl hn => ?_, fun v context ms cs hg hl hn => ?_⟩
    · rw [parseInlineArgs]
      apply bind_is
      have hopen : Tot (if v.is ['['] = true then pure true else is View.lexer ['{'] : P View Bool) v fun b v' => v' = v ∧ (b = false → v.is ['['] = false ∧ v.is ['{'] = false) ∧ (b = true → v.is ['['] = true ∨ v.is ['{'] = true) := by
        split
        · exact .pure ⟨rfl, by simp, fun _ => .inl ‹_›⟩
        · rename_i h
          exact ⟨.inr ⟨_, _, rfl, rfl, fun h' => ⟨by simpa using h, h'⟩, fun h' => .inr h'⟩⟩
      refine hopen.bind ?_
      rintro b v' ⟨rfl, hb, hb'⟩
      split
      · exact .pure ⟨.refl hg, hl⟩
      · apply bind_is
        split
        · rename_i h
          obtain ⟨k, hk, -⟩ := is_look h
          apply bind_advance hk
          have ha := skip_after hg hk
          have hlt := ha.2
          refine (literal_tot ha.1.good (by omega) _ _).bind ?_
          rintro chars v2 ⟨ha2, h2⟩
          obtain ⟨k2, hk2, -⟩ := is_look h2
          apply bind_advance hk2
          have ha3 := skip_after ha2.good hk2
          have := ha2.le; have := ha3.2
          exact (ih1 _ _ ha3.1.good (skip_line ha2.good hk2 (by decide)) (by omega)).weaken fun _ _ h => ⟨(ha.1.trans ha2).trans (ha3.1.trans h.1), h.2⟩
        · rename_i hnb hb0
          apply bind_is
          split
          · rename_i h
            obtain ⟨k, hk, -⟩ := is_look h
            apply bind_advance hk
            have ha := skip_after hg hk
            have hlt := ha.2
            refine (ih3 _ .inlineArg _ _ ha.1.good (by simp) (by omega)).bind ?_
            rintro arg v2 ⟨ha2, h2⟩
            apply bind_is
            rw [show v2.is [']'] = true from h2]
            rw [if_neg (by decide)]
            obtain ⟨k2, hk2, -⟩ := is_look h2
            apply bind_advance hk2
            have ha3 := skip_after ha2.good hk2
            have := ha2.le; have := ha3.2
            exact (ih1 _ _ ha3.1.good (skip_line ha2.good hk2 (by decide)) (by omega)).weaken fun _ _ h => ⟨(ha.1.trans ha2).trans (ha3.1.trans h.1), h.2⟩
          · rename_i h
            cases b with
            | false => exact absurd rfl hnb
            | true => rcases hb' rfl with h' | h' <;> contradiction
    · rw [parseInlineCommand]
      refine (name_tot hg hl (by omega) _).bind ?_
      rintro name v2 ⟨ha, hl2⟩
      have := ha.le
      refine (ih1 _ _ ha.good hl2 (by omega)).bind ?_
      rintro args v3 ⟨ha2, hl3⟩
      exact .pure ⟨ha.trans ha2, hl3⟩
    · rw [inlineLoop]
      refine (inlineEnd_tot hg context).bind ?_
      rintro b v' ⟨rfl, h1, h2, h3⟩
      split
      · exact .pure ⟨.refl hg, h1 ‹_›⟩
      · rename_i hb
        have hb : b = false := by simpa using hb
        have hlook : ∃ k, v'.look = some (k, next v') := by
          by_cases hc : context = .sameLineArg
          · obtain ⟨c, h⟩ := (hl hc).look
            exact ⟨0, by rw [look_next h]; exact h⟩
          · exact next_look hg (h2 hb hc)
        apply bind_is
        split
        · rename_i h
          obtain ⟨k, hk, -⟩ := is_look h
          apply bind_advance hk
          have ha := skip_after hg hk
          have hlt := ha.2
          refine (ih2 _ ha.1.good (skip_line hg hk (by decide)) (by omega)).bind ?_
          rintro command v2 ⟨ha2, hl2⟩
          have := ha2.le
          exact (ih3 _ _ _ _ ha2.good (fun _ => hl2) (by omega)).weaken fun _ _ h => ⟨(ha.1.trans ha2).trans h.1, h.2⟩
        · apply bind_is
          split
          · rename_i h
            obtain ⟨k, hk, -⟩ := is_look h
            apply bind_advance hk
            have ha := skip_after hg hk
            have hlt := ha.2
            apply bind_char
            split
            · exact .fail
            · rename_i hesc
              have hne : next (v'.skip (k + 1)) ≠ END ∧ next (v'.skip (k + 1)) ≠ '\n' := by
                constructor <;> intro h0 <;> rw [h0] at hesc <;> revert hesc <;> decide +revert
              obtain ⟨k2, hk2⟩ := next_look ha.1.good hne.1
              apply bind_advance hk2
              have ha2 := skip_after ha.1.good hk2
              have := ha2.2
              exact (ih3 _ _ _ _ ha2.1.good (fun _ => skip_line ha.1.good hk2 hne.2) (by omega)).weaken fun _ _ h => ⟨(ha.1.trans ha2.1).trans h.1, h.2⟩
          · obtain ⟨k, hk⟩ := hlook
            apply bind_char
            apply bind_advance hk
            have ha := skip_after hg hk
            have hlt := ha.2
            refine (ih3 _ _ _ _ ha.1.good (fun hc => skip_line hg hk ?_) (by omega)).weaken fun _ _ h => ⟨ha.1.trans h.1, h.2⟩
            intro h0
            have h4 := h3 hb hc
            rw [is_one hk, h0] at h4
            simp at h4

theorem deeper_after {v v' : View} (h : After { v with indent := v.indent + 1 } v') : After v { v' with indent := v'.indent - 1 } := by
  have hi : v'.indent = v.indent + 1 := h.indent
  refine ⟨⟨h.good.noEnd, h.good.lines⟩, by show v'.indent - 1 = _; omega, h.le, fun e => ?_⟩
  have := h.eq e
  rw [this]
  rfl

theorem deep_rest {w : View} (hg : Good w) {n : Nat} (hn : w.rest.length + 1 ≤ n) : Tot (restLoop View.lexer n []) { w with indent := w.indent + 1 } fun _ v' => After { w with indent := w.indent + 1 } v' :=
  rest_tot (v := { w with indent := w.indent + 1 }) ⟨hg.noEnd, hg.lines⟩ hn _

theorem block_tot (n : Nat) :
    (∀ v args, Good v → Line v → 4 * v.rest.length + 4 ≤ n → Tot (commandLoop View.lexer n args) v fun _ v' => After v v')
    ∧ (∀ v, Good v → 4 * v.rest.length + 5 ≤ n → Tot (parseBlock View.lexer n) v fun _ v' => After v v')
    ∧ (∀ v ms, Good v → v.is ['\n'] = false → 4 * v.rest.length + 4 ≤ n → Tot (blockLoop View.lexer n ms) v fun _ v' => After v v') := by
  induction n with
  | zero => exact ⟨fun _ _ _ _ h => by omega, fun _ _ h => by omega, fun _ _ _ _ h => by omega⟩
  | succ n ih =>
    obtain ⟨ih1, ih2, ih3⟩ := ih
    refine ⟨fun v args hg hl hn => ?_, fun v hg hn => ?_, fun v ms hg hnl hn => ?_⟩
    · rw [commandLoop]
      refine ((inline_tot n).1 _ _ hg hl (by omega)).bind ?_
      rintro args v1 ⟨ha, hl1⟩
      have le1 := ha.le
      have same : Tot (do
            if ← is View.lexer [' '] then
              if ← is View.lexer [' ', '@', '\n'] then return args
              else if ← is View.lexer [' ', '@', '@', '\n'] then return args
              else
                advance View.lexer
                let arg ← inlineLoop View.lexer n .sameLineArg [] []
                return args ++ [arg]
            else return args : P View (List Markup)) v1 fun _ v' => After v1 v' := by
        apply bind_is
        split
        · rename_i h
          apply bind_is
          split
          · exact .pure (.refl ha.good)
          · apply bind_is
            split
            · exact .pure (.refl ha.good)
            · obtain ⟨k, hk, -⟩ := is_look h
              apply bind_advance hk
              have ha2 := skip_after ha.good hk
              have := ha2.2
              refine ((inline_tot n).2.2 _ .sameLineArg _ _ ha2.1.good (fun _ => skip_line ha.good hk (by decide)) (by omega)).bind ?_
              rintro arg v2 ⟨ha3, -⟩
              exact .pure (ha2.1.trans ha3)
        · exact .pure (.refl ha.good)
      refine same.bind ?_
      rintro args v2 ha2
      replace ha2 := ha.trans ha2
      have le2 := ha2.le
      apply bind_is
      split
      · rename_i h
        obtain ⟨k1, hk1, h⟩ := is_look h
        obtain ⟨k2, hk2, h⟩ := is_look h
        obtain ⟨k3, hk3, h⟩ := is_look h
        obtain ⟨k4, hk4, -⟩ := is_look h
        have b1 := skip_after ha2.good hk1
        have b2 := skip_after b1.1.good hk2
        have b3 := skip_after b2.1.good hk3
        have b4 := skip_after b3.1.good hk4
        have := b1.2; have := b2.2; have := b3.2; have := b4.2
        apply bind_advance hk1
        apply bind_advance hk2
        apply bind_advance hk3
        apply bind_advance hk4
        refine (ih2 _ b4.1.good (by omega)).bind ?_
        intro final v3 ha3
        exact .pure (ha2.trans (b1.1.trans (b2.1.trans (b3.1.trans (b4.1.trans ha3)))))
      · have lit : Tot (do
            if ← is View.lexer [' ', '@', '\n'] then
              advance View.lexer; advance View.lexer; advance View.lexer
              deeper View.lexer
              let chars ← restLoop View.lexer n []
              shallower View.lexer
              return args ++ [.plain (cstr (stripBlank chars.reverse).reverse)]
            else if ← is View.lexer ['\n'] then
              advance View.lexer
              return args
            else fail : P View (List Markup)) v2 fun _ v' => After v2 v' ∧ v'.rest.length < v2.rest.length := by
          apply bind_is
          split
          · rename_i h
            obtain ⟨k1, hk1, h⟩ := is_look h
            obtain ⟨k2, hk2, h⟩ := is_look h
            obtain ⟨k3, hk3, -⟩ := is_look h
            have b1 := skip_after ha2.good hk1
            have b2 := skip_after b1.1.good hk2
            have b3 := skip_after b2.1.good hk3
            have := b1.2; have := b2.2; have := b3.2
            apply bind_advance hk1
            apply bind_advance hk2
            apply bind_advance hk3
            apply bind_deeper
            refine (deep_rest b3.1.good (by omega)).bind ?_
            intro chars v3 ha3
            apply bind_shallower
            have b4 := deeper_after ha3
            have := b4.le
            exact .pure ⟨b1.1.trans (b2.1.trans (b3.1.trans b4)), by omega⟩
          · apply bind_is
            split
            · rename_i h
              obtain ⟨k, hk, -⟩ := is_look h
              apply bind_advance hk
              exact .pure (skip_after ha2.good hk)
            · exact .fail
        refine lit.bind ?_
        rintro args v3 ⟨ha3, lt3⟩
        have nxt : Tot (do
            if ← is View.lexer [' '] then
              deeper View.lexer
              let arg ← parseBlock View.lexer n
              shallower View.lexer
              return args ++ [arg]
            else return args : P View (List Markup)) v3 fun _ v' => After v3 v' := by
          apply bind_is
          split
          · apply bind_deeper
            refine (ih2 { v3 with indent := v3.indent + 1 } ⟨ha3.good.noEnd, ha3.good.lines⟩ (by show 4 * v3.rest.length + 5 ≤ n; omega)).bind ?_
            intro arg v4 ha4
            apply bind_shallower
            exact .pure (deeper_after ha4)
          · exact .pure (.refl ha3.good)
        refine nxt.bind ?_
        intro args v4 ha4
        have le4 := ha4.le
        have hall := ha2.trans (ha3.trans ha4)
        apply bind_is
        split
        · rename_i h
          obtain ⟨k1, hk1, h⟩ := is_look h
          obtain ⟨k2, hk2, h⟩ := is_look h
          obtain ⟨k3, hk3, -⟩ := is_look h
          have b1 := skip_after ha4.good hk1
          have b2 := skip_after b1.1.good hk2
          have b3 := skip_after b2.1.good hk3
          have := b1.2; have := b2.2; have := b3.2
          apply bind_advance hk1
          apply bind_advance hk2
          apply bind_advance hk3
          refine (ih2 _ b3.1.good (by omega)).bind ?_
          intro final v5 ha5
          exact .pure (hall.trans (b1.1.trans (b2.1.trans (b3.1.trans ha5))))
        · have cont : ∀ (b : Bool) (p : Str) , (b = true → ∃ k, v4.look = some (k, '@')) → Tot (if b = true then pure true else is View.lexer ('@' :: p) : P View Bool) v4 fun b v' => v' = v4 ∧ (b = true → ∃ k, v4.look = some (k, '@')) := by
            intro b p hb
            split
            · exact .pure ⟨rfl, fun _ => hb ‹_›⟩
            · exact ⟨.inr ⟨_, _, rfl, rfl, fun h => by obtain ⟨k, hk, -⟩ := is_look h; exact ⟨k, hk⟩⟩⟩
          apply bind_is
          refine (cont _ _ fun h => by obtain ⟨k, hk, -⟩ := is_look h; exact ⟨k, hk⟩).bind ?_
          rintro b2 _ ⟨rfl, h2⟩
          refine (cont _ _ h2).bind ?_
          rintro b3 _ ⟨rfl, h3⟩
          refine (cont _ _ h3).bind ?_
          rintro b4 _ ⟨rfl, h4⟩
          split
          · obtain ⟨k, hk⟩ := h4 ‹_›
            apply bind_advance hk
            have b1 := skip_after ha4.good hk
            have := b1.2
            exact (ih1 _ _ b1.1.good (skip_line ha4.good hk (by decide)) (by omega)).weaken fun _ _ h => hall.trans (b1.1.trans h)
          · exact .pure hall
    · rw [parseBlock]
      refine (skip_tot hg (by omega)).bind ?_
      rintro _ v1 ⟨ha, h1⟩
      have := ha.le
      exact (ih3 _ _ ha.good h1 (by omega)).weaken fun _ _ h => ha.trans h
    · rw [blockLoop]
      have again : ∀ v1 ms, After v v1 → v1.rest.length < v.rest.length → Tot (do skipBlank View.lexer n; blockLoop View.lexer n ms) v1 fun _ v' => After v v' := by
        intro v1 ms ha hlt
        refine (skip_tot ha.good (by omega)).bind ?_
        rintro _ v2 ⟨ha2, h2⟩
        have := ha2.le
        exact (ih3 _ _ ha2.good h2 (by omega)).weaken fun _ _ h => ha.trans (ha2.trans h)
      apply bind_isEnd
      split
      · exact .pure (.refl hg)
      · rename_i hne
        have hne : next v ≠ END := by simpa using hne
        apply bind_is
        split
        · rename_i h
          obtain ⟨k, hk, -⟩ := is_look h
          apply bind_advance hk
          have ha := skip_after hg hk
          have := ha.2
          refine ((inline_tot n).2.2 _ .implicitBlock _ _ ha.1.good (by simp) (by omega)).bind ?_
          rintro arg v2 ⟨ha2, -⟩
          have := ha2.le
          exact again _ _ (ha.1.trans ha2) (by omega)
        · apply bind_is
          split
          · rename_i h
            obtain ⟨k, hk, -⟩ := is_look h
            apply bind_advance hk
            have ha := skip_after hg hk
            have := ha.2
            refine (name_tot ha.1.good (skip_line hg hk (by decide)) (by omega) _).bind ?_
            rintro name v2 ⟨ha2, hl2⟩
            have := ha2.le
            refine (ih1 _ _ ha2.good hl2 (by omega)).bind ?_
            intro args v3 ha3
            have := ha3.le
            exact again _ _ (ha.1.trans (ha2.trans ha3)) (by omega)
          · refine ((inline_tot n).2.2 _ .implicitBlock _ _ hg (by simp) (by omega)).bind ?_
            rintro arg v2 ⟨ha2, h2⟩
            have := ha2.le
            refine again _ _ ha2 (Nat.lt_of_le_of_ne ha2.le fun e => ?_)
            rw [ha2.eq e] at h2
            rcases h2 with h2 | h2
            · exact hne h2
            · rw [hnl] at h2; cases h2

/-- On a complete text the parser ends, with a document or an error. -/
theorem parseText_ends {text : Str} (hend : END ∉ text) (hnl : text = [] ∨ EndsNl text) {n : Nat} (hn : 4 * text.length + 6 ≤ n) : parseText n text = .error ∨ ∃ doc, parseText n text = .ok doc := by
  by_cases hs : ∃ r, text = ' ' :: '\n' :: r
  rotate_left
  · rw [parseText_top fun r h => hs ⟨r, h⟩]
    rcases ((block_tot n).2.1 (top text) ⟨hend, hnl⟩ (by show 4 * text.length + 5 ≤ n; omega)).run with h | ⟨a, v', h, -⟩
    · left; rw [h]; rfl
    · right; rw [h]; exact ⟨a, rfl⟩
  · obtain ⟨r, rfl⟩ := hs
    simp only [List.length_cons] at hn
    obtain ⟨n, rfl⟩ : ∃ m, n = m + 2 := ⟨n - 2, by omega⟩
    have hg : Good ⟨'\n' :: r, 2, 0⟩ := by
      refine ⟨fun hm => hend (List.mem_cons_of_mem _ hm), .inr ?_⟩
      rcases hnl with h | h
      · cases h
      · exact h.drop (k := 1) (by simp)
    have e : parseText (n + 2) (' ' :: '\n' :: r) = ((do skipBlank View.lexer n; blockLoop View.lexer (n + 1) []) ⟨'\n' :: r, 2, 0⟩).value := by
      show _ = (P.bind (skipBlank View.lexer n) _ _).value
      unfold parseText P.bind
      simp only
      rw [show firstSkip (n + 1) (' ' :: '\n' :: r) = skipBlank View.lexer n ⟨'\n' :: r, 2, 0⟩ from rfl]
      cases skipBlank View.lexer n ⟨'\n' :: r, 2, 0⟩ <;> rfl
    have t : Tot (do skipBlank View.lexer n; blockLoop View.lexer (n + 1) []) ⟨'\n' :: r, 2, 0⟩ fun _ _ => True := by
      refine (skip_tot hg (by simp only [List.length_cons]; omega)).bind ?_
      rintro _ v1 ⟨ha, h1⟩
      have := ha.le
      simp only [List.length_cons] at this
      exact ((block_tot (n + 1)).2.2 v1 [] ha.good h1 (by omega)).weaken fun _ _ _ => trivial
    rw [e]
    rcases t.run with h | ⟨a, v', h, -⟩
    · left; rw [h]; rfl
    · right; rw [h]; exact ⟨a, rfl⟩

end Verif.FbldParse
