import Verif.FbldParse.Model
/-
With more steps the result of the parser is the same, if there is one.
-/
namespace Verif.FbldParse
open Fbld (Str Markup)

section
variable {σ : Type} {L : Lexer σ}

/-- The second function gives what the first gives, unless the steps did not suffice for the first. -/
structure LeP {α : Type} (m m' : P σ α) : Prop where
  run : ∀ s, m s = .more ∨ m s = m' s

theorem LeP.rfl {α : Type} {m : P σ α} : LeP m m := ⟨fun _ => .inr (Eq.refl _)⟩
theorem LeP.more {α : Type} {m : P σ α} : LeP FbldParse.more m := ⟨fun _ => .inl (Eq.refl _)⟩
theorem LeP.trans {α : Type} {a b c : P σ α} (h : LeP a b) (g : LeP b c) : LeP a c := ⟨fun s => by
  rcases h.run s with e | e
  · exact .inl e
  · rcases g.run s with e' | e'
    · exact .inl (e.trans e')
    · exact .inr (e.trans e')⟩
theorem LeP.bind {α β : Type} {m m' : P σ α} {f f' : α → P σ β} (h : LeP m m') (hf : ∀ a, LeP (f a) (f' a)) : LeP (m >>= f) (m' >>= f') := by
  refine ⟨fun s => ?_⟩
  show P.bind m f s = .more ∨ P.bind m f s = P.bind m' f' s
  unfold P.bind
  rcases h.run s with e | e <;> rw [e]
  · exact .inl (Eq.refl _)
  · cases m' s with
    | ok x => exact (hf _).run _
    | _ => exact .inr (Eq.refl _)

syntax "grow" "[" term,* "]" : tactic
macro_rules
  | `(tactic| grow [$ts,*]) => do
    let ts := ts.getElems
    let mut alts : Array (Lean.TSyntax `tactic) := #[← `(tactic| exact LeP.rfl), ← `(tactic| exact LeP.more)]
    for t in ts do alts := alts.push (← `(tactic| apply $t))
    alts := alts.push (← `(tactic| apply LeP.bind))
    alts := alts.push (← `(tactic| intro _))
    alts := alts.push (← `(tactic| split))
    `(tactic| repeat' first $[| $alts:tactic]*)

theorem name_le : (n : Nat) → (cs : Str) → LeP (nameLoop L n cs) (nameLoop L (n + 1) cs)
  | 0, _ => .more
  | n + 1, cs => by
    have ih := name_le n
    rw [nameLoop, nameLoop]
    grow [ih]

theorem literal_le : (n k : Nat) → (cs : Str) → LeP (literalLoop L n k cs) (literalLoop L (n + 1) k cs)
  | 0, _, _ => .more
  | n + 1, k, cs => by
    have ih := literal_le n
    rw [literalLoop, literalLoop]
    grow [ih]

theorem rest_le : (n : Nat) → (cs : Str) → LeP (restLoop L n cs) (restLoop L (n + 1) cs)
  | 0, _ => .more
  | n + 1, cs => by
    have ih := rest_le n
    rw [restLoop, restLoop]
    grow [ih]

theorem skip_le : (n : Nat) → LeP (skipBlank L n) (skipBlank L (n + 1))
  | 0 => .more
  | n + 1 => by
    have ih := skip_le n
    rw [skipBlank, skipBlank]
    grow [ih]

theorem inline_le : (n : Nat) → (∀ as, LeP (parseInlineArgs L n as) (parseInlineArgs L (n + 1) as)) ∧ LeP (parseInlineCommand L n) (parseInlineCommand L (n + 1)) ∧
    ∀ c ms cs, LeP (inlineLoop L n c ms cs) (inlineLoop L (n + 1) c ms cs)
  | 0 => ⟨fun _ => by rw [parseInlineArgs]; exact .more, by rw [parseInlineCommand]; exact .more, fun _ _ _ => by rw [inlineLoop]; exact .more⟩
  | n + 1 => by
    obtain ⟨ih1, ih2, ih3⟩ := inline_le n
    refine ⟨fun as => ?_, ?_, fun c ms cs => ?_⟩
    · rw [parseInlineArgs, parseInlineArgs]
      grow [ih1, ih3, literal_le]
    · rw [parseInlineCommand, parseInlineCommand]
      grow [ih1, name_le]
    · rw [inlineLoop, inlineLoop]
      grow [ih2, ih3]

theorem block_le : (n : Nat) → (∀ as, LeP (commandLoop L n as) (commandLoop L (n + 1) as)) ∧ LeP (parseBlock L n) (parseBlock L (n + 1)) ∧
    ∀ ms, LeP (blockLoop L n ms) (blockLoop L (n + 1) ms)
  | 0 => ⟨fun _ => by rw [commandLoop]; exact .more, by rw [parseBlock]; exact .more, fun _ => by rw [blockLoop]; exact .more⟩
  | n + 1 => by
    obtain ⟨ih1, ih2, ih3⟩ := block_le n
    refine ⟨fun as => ?_, ?_, fun ms => ?_⟩
    · rw [commandLoop, commandLoop]
      grow [ih1, ih2, ((inline_le n).1), ((inline_le n).2.2), rest_le]
    · rw [parseBlock, parseBlock]
      grow [ih3, skip_le]
    · rw [blockLoop, blockLoop]
      grow [ih1, ih3, ((inline_le n).2.2), skip_le, name_le]

/-- With more steps. -/
theorem upTo {α : Type} {f : Nat → P σ α} (h : ∀ n, LeP (f n) (f (n + 1))) {n m : Nat} (hm : n ≤ m) : LeP (f n) (f m) := by
  induction hm with
  | refl => exact .rfl
  | step _ ih => exact ih.trans (h _)

end

theorem fbldParse_le {n m : Nat} (h : n ≤ m) {files : List Str} (hn : fbldParse n files ≠ .more) : fbldParse m files = fbldParse n files := by
  have := (upTo (f := parseBlock Lex.lexer) (fun n => (block_le n).2.1) h).run ⟨files, none, 0, 0, []⟩
  unfold fbldParse at *
  rcases this with e | e
  · rw [e] at hn; exact absurd (Eq.refl _) hn
  · rw [e]

end Verif.FbldParse
