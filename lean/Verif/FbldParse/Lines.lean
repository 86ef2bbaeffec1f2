import Verif.FbldParse.Inline
/-
The text of a document: its lines are complete, and how it starts.
-/
namespace Verif.FbldParse
open Fbld (Str Markup)

/-- Without the character that stands for the end. -/
def NoEnd (s : Str) : Prop := END ∉ s

theorem NoEnd.nil : NoEnd [] := by simp [NoEnd]
theorem NoEnd.cons {c : Char} {s : Str} (hc : c ≠ END) (h : NoEnd s) : NoEnd (c :: s) := by
  unfold NoEnd at *; simp [h, Ne.symm hc]
theorem NoEnd.append {a b : Str} (ha : NoEnd a) (hb : NoEnd b) : NoEnd (a ++ b) := by
  unfold NoEnd at *; simp [ha, hb]
theorem NoEnd.newlines {n : Nat} : NoEnd (newlines n) := by
  unfold NoEnd FbldParse.newlines
  intro h
  have := List.eq_of_mem_replicate h
  exact absurd this (by decide)
theorem NoEnd.ok {s : Str} (h : s.all okChar = true) : NoEnd s := fun hm => (okChar_iff.1 (List.all_eq_true.1 h _ hm)).2 rfl
theorem NoEnd.name {s : Str} (h : okName s = true) : NoEnd s := by
  simp only [okName, Bool.and_eq_true] at h
  exact fun hm => nameChar_ne (List.all_eq_true.1 h.2 _ hm) (by decide) rfl

theorem NoEnd.indent : (b : Bool) → (s : Str) → NoEnd s → NoEnd (indent b s)
  | b, [], _ => by cases b <;> exact .nil
  | true, c :: s, h => by
    have hc : c ≠ END := fun e => h (by simp [e])
    have hs : NoEnd s := fun e => h (by simp [e])
    rw [FbldParse.indent]
    split
    · exact .cons hc (NoEnd.indent _ s hs)
    · exact .cons (by decide) (.cons hc (NoEnd.indent _ s hs))
  | false, c :: s, h => by
    have hc : c ≠ END := fun e => h (by simp [e])
    have hs : NoEnd s := fun e => h (by simp [e])
    rw [FbldParse.indent]
    exact .cons hc (NoEnd.indent _ s hs)

mutual
theorem text_noEnd : (t : Text) → (context : Context) → (b : Bool) → t.ok context b = true → NoEnd t.print
  | .nil, _, _, _ => .nil
  | .chr c t, context, b, h => by
    simp only [Text.ok, okChr, Bool.and_eq_true] at h
    exact .cons (okChar_iff.1 h.1.1.1.1).2 (text_noEnd t _ _ h.2)
  | .esc c t, context, b, h => by
    simp only [Text.ok, Bool.and_eq_true, Bool.or_eq_true, decide_eq_true_eq] at h
    refine .cons (by decide) (.cons ?_ (text_noEnd t _ _ h.2))
    rcases h.1 with (((h | h) | h) | h) | h <;> subst h <;> decide
  | .cmd name args t, context, b, h => by
    simp only [Text.ok, Bool.and_eq_true] at h
    exact .cons (by decide) (.append (.name h.1.1.1) (.append (args_noEnd args h.1.1.2) (text_noEnd t _ _ h.2)))
theorem args_noEnd : (a : Args) → a.ok = true → NoEnd a.print
  | .nil, _ => .nil
  | .inline t a, h => by
    simp only [Args.ok, Bool.and_eq_true] at h
    exact .cons (by decide) (.append (text_noEnd t _ _ h.1) (.cons (by decide) (args_noEnd a h.2)))
  | .literal s a, h => by
    simp only [Args.ok, Bool.and_eq_true] at h
    exact .cons (by decide) (.append (.ok h.1.1) (.cons (by decide) (args_noEnd a h.2)))
end

mutual
theorem doc_noEnd : (d : Doc) → d.ok = true → NoEnd d.print
  | .nil, _ => .nil
  | .para e t gap d, h => by
    simp only [Doc.ok, Bool.and_eq_true] at h
    have : NoEnd (if e then ['@'] else []) := by cases e <;> simp [NoEnd]; decide
    exact .append this (.append (text_noEnd t _ _ h.1.1.1.1) (.append .newlines (doc_noEnd d h.2)))
  | .cmd name s gap d, h => by
    simp only [Doc.ok, Bool.and_eq_true] at h
    exact .cons (by decide) (.append (.name h.1.1.1) (.append (seg_noEnd s h.1.1.2) (.append .newlines (doc_noEnd d h.2))))
theorem seg_noEnd : (s : Seg) → s.ok = true → NoEnd s.print
  | .seg args same tail, h => by
    simp only [Seg.ok, Bool.and_eq_true] at h
    refine .append (args_noEnd args h.1.1) (.append ?_ (tail_noEnd tail h.2))
    cases same with
    | none => exact .nil
    | some t => exact .cons (by decide) (text_noEnd t _ _ h.1.2)
theorem tail_noEnd : (t : Tail) → t.ok = true → NoEnd t.print
  | .line m, h => .cons (by decide) (more_noEnd m (by simpa [Tail.ok] using h))
  | .next d m, h => by
    simp only [Tail.ok, Bool.and_eq_true] at h
    exact .cons (by decide) (.append (.indent _ _ (doc_noEnd d h.1.1)) (more_noEnd m h.2))
  | .literal s m, h => by
    simp only [Tail.ok, okLiteral, Bool.and_eq_true] at h
    exact .cons (by decide) (.cons (by decide) (.cons (by decide) (.append (.indent _ _ (.ok h.1.1)) (more_noEnd m h.2))))
  | .final g d, h => .cons (by decide) (.cons (by decide) (.cons (by decide) (.cons (by decide) (.append .newlines (doc_noEnd d (by simpa [Tail.ok] using h))))))
theorem more_noEnd : (m : More) → m.ok = true → NoEnd m.print
  | .done, _ => .nil
  | .final g d, h => .cons (by decide) (.cons (by decide) (.cons (by decide) (.append .newlines (doc_noEnd d (by simpa [More.ok] using h)))))
  | .again s, h => .cons (by decide) (seg_noEnd s (by simpa [More.ok] using h))
end

/-! ### Lines -/

/-- Complete lines. -/
def Lines (s : Str) : Prop := s = [] ∨ EndsNl s

theorem Lines.nil : Lines [] := .inl rfl
theorem Lines.append {a b : Str} (ha : Lines a) (hb : Lines b) : Lines (a ++ b) := by
  rcases hb with rfl | ⟨r, rfl⟩
  · simpa using ha
  · exact .inr ⟨a ++ r, by simp⟩
theorem Lines.after {a b : Str} (h : Lines b) (hb : b ≠ []) : Lines (a ++ b) := by
  obtain ⟨r, rfl⟩ := h.resolve_left hb
  exact .inr ⟨a ++ r, by simp⟩
theorem Lines.nl {b : Str} (h : Lines b) : Lines ('\n' :: b) := by
  rcases h with rfl | ⟨r, rfl⟩
  · exact .inr ⟨[], rfl⟩
  · exact .inr ⟨'\n' :: r, rfl⟩
theorem Lines.cons {c : Char} {b : Str} (h : Lines b) (hb : b ≠ []) : Lines (c :: b) := Lines.after (a := [c]) h hb
theorem Lines.newlines : (n : Nat) → Lines (newlines n)
  | 0 => .nil
  | n + 1 => (Lines.newlines n).nl

theorem Lines.indent : (b : Bool) → (s : Str) → Lines s → Lines (indent b s)
  | b, [], _ => by cases b <;> exact .nil
  | b, [c], h => by
    obtain ⟨r, hr⟩ := h.resolve_left (by simp)
    cases r with
    | nil => cases hr; cases b <;> exact .inr ⟨[], rfl⟩
    | cons d r => simp at hr
  | b, c :: d :: s, h => by
    have hs : Lines (d :: s) := by
      obtain ⟨r, hr⟩ := h.resolve_left (by simp)
      cases r with
      | nil => simp at hr
      | cons e r => exact .inr ⟨r, by simpa using (List.cons.inj hr).2⟩
    have hne : ∀ b, FbldParse.indent b (d :: s) ≠ [] := by intro b; cases b <;> rw [FbldParse.indent] <;> (try split) <;> simp
    cases b with
    | true =>
      rw [FbldParse.indent]
      split
      · exact (Lines.indent _ _ hs).cons (hne _)
      · exact ((Lines.indent _ _ hs).cons (hne _)).cons (by simp)
    | false => rw [FbldParse.indent]; exact (Lines.indent _ _ hs).cons (hne _)

theorem text_lines : (t : Text) → t.endsLine = true → EndsNl t.print
  | .nil, h => by cases h
  | .chr c t, h => by
    cases t with
    | nil => simp [Text.endsLine] at h; subst h; exact ⟨[], rfl⟩
    | chr d t => obtain ⟨r, hr⟩ := text_lines (.chr d t) h; exact ⟨c :: r, by rw [Text.print, hr]; rfl⟩
    | esc d t => obtain ⟨r, hr⟩ := text_lines (.esc d t) h; exact ⟨c :: r, by rw [Text.print, hr]; rfl⟩
    | cmd n a t => obtain ⟨r, hr⟩ := text_lines (.cmd n a t) h; exact ⟨c :: r, by rw [Text.print, hr]; rfl⟩
  | .esc c t, h => by
    obtain ⟨r, hr⟩ := text_lines t h
    exact ⟨'\\' :: (if c = '\n' then 'n' else c) :: r, by rw [Text.print, hr]; rfl⟩
  | .cmd name args t, h => by
    obtain ⟨r, hr⟩ := text_lines t h
    exact ⟨'@' :: (name ++ (args.print ++ r)), by rw [Text.print, hr]; simp⟩

theorem endsNl_ne {s : Str} (h : EndsNl s) : s ≠ [] := by obtain ⟨r, rfl⟩ := h; simp

theorem literal_lines {s : Str} (h : okLiteral s = true) : EndsNl s := by
  simp only [okLiteral, Bool.and_eq_true] at h
  have h2 := h.2
  cases hr : s.reverse with
  | nil => rw [hr] at h2; cases h2
  | cons c r =>
    have : c = '\n' := by
      rw [hr] at h2
      by_cases hc : c = '\n'
      · exact hc
      · exfalso; revert h2; split <;> simp_all
    subst this
    exact ⟨r.reverse, by rw [← List.reverse_reverse s, hr]; simp⟩

mutual
theorem doc_lines : (d : Doc) → d.ok = true → Lines d.print
  | .nil, _ => .nil
  | .para e t gap d, h => by
    simp only [Doc.ok, Bool.and_eq_true] at h
    have := text_lines t h.1.1.1.2
    exact Lines.after (Lines.append (.inr this) (.append (.newlines gap) (doc_lines d h.2))) (by simp [endsNl_ne this])
  | .cmd name s gap d, h => by
    simp only [Doc.ok, Bool.and_eq_true] at h
    have := seg_lines s h.1.1.2
    exact Lines.after (a := '@' :: name) (Lines.append (.inr this) (.append (.newlines gap) (doc_lines d h.2))) (by simp [endsNl_ne this])
theorem seg_lines : (s : Seg) → s.ok = true → EndsNl s.print
  | .seg args same tail, h => by
    simp only [Seg.ok, Bool.and_eq_true] at h
    obtain ⟨r, hr⟩ := tail_lines tail h.2
    rw [Seg.print, hr]
    exact ⟨args.print ++ (samePrint same ++ r), by simp⟩
theorem tail_lines : (t : Tail) → t.ok = true → EndsNl t.print
  | .line m, h => (Lines.nl (more_lines m (by simpa [Tail.ok] using h))).resolve_left (by simp)
  | .next d m, h => by
    simp only [Tail.ok, Bool.and_eq_true] at h
    exact (Lines.nl (.append (.indent _ _ (doc_lines d h.1.1)) (more_lines m h.2))).resolve_left (by simp)
  | .literal s m, h => by
    simp only [Tail.ok, Bool.and_eq_true] at h
    exact (Lines.cons (Lines.cons (Lines.nl (.append (.indent _ _ (.inr (literal_lines h.1))) (more_lines m h.2))) (by simp)) (by simp)).resolve_left (by simp)
  | .final g d, h =>
    (Lines.cons (Lines.cons (Lines.cons (Lines.nl (.append (.newlines g) (doc_lines d (by simpa [Tail.ok] using h)))) (by simp)) (by simp)) (by simp)).resolve_left (by simp)
theorem more_lines : (m : More) → m.ok = true → Lines m.print
  | .done, _ => .nil
  | .final g d, h => Lines.cons (Lines.cons (Lines.nl (.append (.newlines g) (doc_lines d (by simpa [More.ok] using h)))) (by simp)) (by simp)
  | .again s, h => by
    have := seg_lines s (by simpa [More.ok] using h)
    exact Lines.cons (.inr this) (endsNl_ne this)
end

/-! ### The start of a document -/

/-- What starts a paragraph or a command. -/
structure Starts (c : Char) (s : Str) : Prop where
  space : c ≠ ' '
  newline : c ≠ '\n'
  fin : c ≠ END
  command : c = '@' → ∃ e s', s = e :: s' ∧ (nameChar e = true ∨ (e = '@' ∧ ∃ f s'', s' = f :: s'' ∧ nameChar f = true))

theorem doc_starts {d : Doc} (h : d.ok = true) (hn : d.isNil = false) : ∃ c s, d.print = c :: s ∧ Starts c s := by
  cases d with
  | nil => cases hn
  | para e t gap d =>
    simp only [Doc.ok, Bool.and_eq_true] at h
    obtain ⟨⟨⟨⟨h1, -⟩, h2⟩, -⟩, -⟩ := h
    cases t with
    | nil => cases h2
    | chr c t =>
      simp only [okStart, Bool.and_eq_true, Bool.not_eq_true', decide_eq_true_eq] at h2
      obtain ⟨⟨rfl, h3⟩, h4⟩ := h2
      simp only [Text.ok, okChr, Bool.and_eq_true, decide_eq_true_eq] at h1
      refine ⟨c, _, rfl, ⟨h3, h4, (okChar_iff.1 h1.1.1.1.1).2, fun hc => absurd hc h1.1.1.1.2⟩⟩
    | esc c t =>
      simp only [okStart, Bool.not_eq_true'] at h2
      subst h2
      exact ⟨'\\', _, rfl, ⟨by decide, by decide, by decide, fun hc => by cases hc⟩⟩
    | cmd name args t =>
      simp only [okStart] at h2
      subst h2
      simp only [Text.ok, Bool.and_eq_true] at h1
      obtain ⟨f, s, rfl, hf⟩ := okName_head h1.1.1.1
      exact ⟨'@', _, rfl, ⟨by decide, by decide, by decide, fun _ => ⟨'@', _, rfl, .inr ⟨rfl, f, _, rfl, hf⟩⟩⟩⟩
  | cmd name s gap d =>
    simp only [Doc.ok, Bool.and_eq_true] at h
    obtain ⟨f, s, rfl, hf⟩ := okName_head h.1.1.1
    exact ⟨'@', _, rfl, ⟨by decide, by decide, by decide, fun _ => ⟨f, _, rfl, .inl hf⟩⟩⟩

/-! ### Indented text -/

theorem indented_indent : (b : Bool) → (s : Str) → Indented b s (indent b s)
  | b, [] => by cases b <;> exact .nil
  | true, c :: s => by
    rw [indent]
    split
    · rename_i hc; subst hc; exact .blank (indented_indent true s)
    · rename_i hc
      refine .line hc (.char ?_)
      rw [decide_eq_false hc]
      exact indented_indent false s
  | false, c :: s => by
    rw [indent]
    exact .char (indented_indent _ s)

theorem indented_newlines : (n : Nat) → Indented true (newlines n) (newlines n)
  | 0 => .nil
  | n + 1 => .blank (indented_newlines n)

theorem Indented.append {b : Bool} {s s' t t' : Str} (h : Indented b s s') (hs : (s = [] ∧ b = true) ∨ EndsNl s) (ht : Indented true t t') : Indented b (s ++ t) (s' ++ t') := by
  induction h with
  | nil =>
    rcases hs with ⟨-, rfl⟩ | h
    · exact ht
    · exact absurd rfl (endsNl_ne h)
  | line hc _ ih => exact .line hc (ih (.inr (hs.resolve_left (by simp))))
  | blank _ ih =>
    refine .blank (ih ?_)
    rcases (hs.resolve_left (by simp)).tail with h | h
    · exact .inl ⟨h.1, rfl⟩
    · exact .inr h
  | blankSpace _ ih =>
    refine .blankSpace (ih ?_)
    rcases (hs.resolve_left (by simp)).tail with h | h
    · exact .inl ⟨h.1, rfl⟩
    · exact .inr h
  | char _ ih =>
    refine .char (ih ?_)
    rcases (hs.resolve_left (by simp)).tail with h | h
    · exact .inl ⟨h.1, by simp [h.2]⟩
    · exact .inr h

end Verif.FbldParse
