import Verif.FbldParse.Block
/-
Documents are parsed as what they mean.
-/
namespace Verif.FbldParse
open Fbld (Str Markup)

theorem g_deeper {β : Type} {v : View} {z : PRes (β × View)} {g : Nat → Unit → P View β} (hg : Goes (fun n => g n ()) ⟨v.rest, v.column, v.indent + 1⟩ z) : Goes (fun n => deeper View.lexer >>= g n) v z :=
  ⟨hg.run⟩
theorem g_shallower {β : Type} {v : View} {z : PRes (β × View)} {g : Nat → Unit → P View β} (hg : Goes (fun n => g n ()) ⟨v.rest, v.column, v.indent - 1⟩ z) : Goes (fun n => shallower View.lexer >>= g n) v z :=
  ⟨hg.run⟩

theorem pre_same {p : Char} {ps s : Str} (h : ps.isPrefixOf s = true) : (p :: ps).isPrefixOf (p :: s) = true := by simpa [List.isPrefixOf] using h
theorem pre_nil {s : Str} : ([] : Str).isPrefixOf s = true := by simp
theorem pre_ne {p c : Char} {ps s : Str} (h : (p == c) = false) : (p :: ps).isPrefixOf (c :: s) = false := by simp [List.isPrefixOf, h]
theorem pre_ne2 {p q c : Char} {ps s : Str} (h : (q == c) = false) : (p :: q :: ps).isPrefixOf (p :: c :: s) = false := by simp [List.isPrefixOf, h]

theorem tail_stops : (t : Tail) → (r : Str) → (col : Nat) → StopsAt .sameLineArg col (t.print ++ r)
  | .line _, _, _ => .inl ⟨_, rfl⟩
  | .next _ _, _, _ => .inl ⟨_, rfl⟩
  | .literal _ _, _, _ => .inr (.inl ⟨_, rfl⟩)
  | .final _ _, _, _ => .inr (.inr ⟨_, rfl⟩)

theorem block_gives {d : Doc} {g0 g : Nat} (h : ∀ ms, Gives (fun n => do skipBlank View.lexer n; blockLoop View.lexer n ms) ⟨newlines g0 ++ (d.print ++ newlines g), 1, 0⟩ (.seq (ms ++ d.values)) ⟨[], 1, 0⟩) :
    Gives (fun n => parseBlock View.lexer n) ⟨newlines g0 ++ (d.print ++ newlines g), 1, 0⟩ (.seq d.values) ⟨[], 1, 0⟩ := by
  apply Goes.succ (fun n => parseBlock.eq_2 _ _)
  exact h []

/-- The text after the arguments on the next lines, without the blank lines before it. -/
theorem more_split {m : More} {r : Str} (hr : RestOk m.isFinal r) (g : Nat) : ∃ g1 g2, m.print ++ (newlines g ++ r) = newlines g1 ++ (m.print ++ (newlines g2 ++ r)) ∧ Unindented (m.print ++ (newlines g2 ++ r)) := by
  cases m with
  | done => exact ⟨g, 0, rfl, hr.unindented⟩
  | final k d => exact ⟨0, g, rfl, fun c s e => by cases e; decide⟩
  | again s => exact ⟨0, g, rfl, fun c s e => by cases e; decide⟩

theorem seg_head (s : Seg) (r : Str) : ∃ c t, s.print ++ r = c :: t ∧ c ∈ ['\n', ' ', '[', '{'] := by
  obtain ⟨args, same, tail⟩ := s
  rw [Seg.print]
  cases args with
  | inline t a => exact ⟨_, _, rfl, by simp⟩
  | literal t a => exact ⟨_, _, rfl, by simp⟩
  | nil =>
    cases same with
    | some t => exact ⟨_, _, rfl, by simp⟩
    | none => cases tail <;> exact ⟨_, _, rfl, by simp⟩

theorem line_step {as : List Markup} {s : Str} {col : Nat} (hcol : 1 ≤ col) :
    Gives (fun n => (do
      if ← is View.lexer [' ', '@', '\n'] then
        advance View.lexer; advance View.lexer; advance View.lexer
        deeper View.lexer
        let chars ← restLoop View.lexer n []
        shallower View.lexer
        return as ++ [.plain (cstr (stripBlank chars.reverse).reverse)]
      else if ← is View.lexer ['\n'] then
        advance View.lexer
        return as
      else fail : P View (List Markup))) ⟨'\n' :: s, col, 0⟩ as ⟨s, 1, 0⟩ := by
  apply g_no hcol (pre_ne rfl)
  apply g_yes hcol (pre_same pre_nil)
  apply g_advance hcol
  exact .pure

theorem next_line {as b : List Markup} {a : Markup} {T R : Str} {col : Nat} {w : View} (hcol : 1 ≤ col) (hsp : [' '].isPrefixOf (T ++ R) = true)
    (hb : Gives (fun n => parseBlock View.lexer n) ⟨T ++ R, 1, 1⟩ a ⟨R, 1, 1⟩) (hg : Gives (fun n => moreEnd n (as ++ [a])) ⟨R, 1, 0⟩ b w) :
    Gives (fun n => lineEnd n as) ⟨'\n' :: (T ++ R), col, 0⟩ b w := by
  apply g_no hcol (pre_ne rfl)
  refine Goes.bind (line_step hcol) ?_
  refine Goes.bind (a := as ++ [a]) (v' := ⟨R, 1, 0⟩) ?_ hg
  apply g_yes (Nat.le_refl _) hsp
  apply g_deeper
  refine hb.bind ?_
  apply g_shallower
  exact .pure

theorem next_literal {as b : List Markup} {s T R : Str} {col : Nat} {w : View} (hcol : 1 ≤ col) (hR : Unindented R)
    (hb : Gives (fun n => restLoop View.lexer n []) ⟨T ++ R, 1, 1⟩ s ⟨R, 1, 1⟩)
    (hg : Gives (fun n => moreEnd n (as ++ [.plain (cstr (stripBlank s.reverse).reverse)])) ⟨R, 1, 0⟩ b w) :
    Gives (fun n => lineEnd n as) ⟨' ' :: '@' :: '\n' :: (T ++ R), col, 0⟩ b w := by
  apply g_no hcol (by simp [List.isPrefixOf])
  refine Goes.bind (a := as ++ [.plain (cstr (stripBlank s.reverse).reverse)]) (v' := ⟨R, 1, 0⟩) ?_ ?_
  · apply g_yes hcol (pre_same (pre_same (pre_same pre_nil)))
    apply g_advance hcol
    apply g_advance col1_pos
    apply g_advance col1_pos
    apply g_deeper
    refine hb.bind ?_
    apply g_shallower
    exact .pure
  · refine Goes.bind (v' := ⟨R, 1, 0⟩) ?_ hg
    refine g_no (Nat.le_refl _) ?_ .pure
    cases R with
    | nil => rfl
    | cons c q => exact prefix_ne (hR c q rfl).1

theorem final_same {as : List Markup} {T : Str} {a : Markup} {col : Nat} {w : View} (hcol : 1 ≤ col) (hb : Gives (fun n => parseBlock View.lexer n) ⟨T, 1, 0⟩ a w) :
    Gives (fun n => lineEnd n as) ⟨' ' :: '@' :: '@' :: '\n' :: T, col, 0⟩ (as ++ [a]) w := by
  apply g_yes hcol (pre_same (pre_same (pre_same (pre_same pre_nil))))
  apply g_advance hcol
  apply g_advance col1_pos
  apply g_advance col1_pos
  apply g_advance col1_pos
  exact hb.bind .pure

theorem final_next {as : List Markup} {T : Str} {a : Markup} {w : View} (hb : Gives (fun n => parseBlock View.lexer n) ⟨T, 1, 0⟩ a w) :
    Gives (fun n => moreEnd n as) ⟨'@' :: '@' :: '\n' :: T, 1, 0⟩ (as ++ [a]) w := by
  apply g_yes (Nat.le_refl _) (pre_same (pre_same (pre_same pre_nil)))
  apply g_advance (Nat.le_refl _)
  apply g_advance col1_pos
  apply g_advance col1_pos
  exact hb.bind .pure

theorem next_gives {d : Doc} {m : More} {as : List Markup} {r : Str} {g g1 g2 g' col : Nat} (h1 : d.ok = true) (h2 : d.isNil = false) (hcol : 1 ≤ col)
    (hsplit : m.print ++ (newlines g ++ r) = newlines g1 ++ (m.print ++ (newlines g2 ++ r))) (hun : Unindented (m.print ++ (newlines g2 ++ r)))
    (hd : ∀ ms, Gives (fun n => do skipBlank View.lexer n; blockLoop View.lexer n ms) ⟨newlines 0 ++ (d.print ++ newlines g1), 1, 0⟩ (.seq (ms ++ d.values)) ⟨[], 1, 0⟩)
    (hg' : Gives (fun n => moreEnd n (as ++ [.seq d.values])) ⟨m.print ++ (newlines g2 ++ r), 1, 0⟩ (as ++ [.seq d.values] ++ m.values) ⟨newlines g' ++ r, 1, 0⟩) :
    Gives (fun n => lineEnd n as) ⟨(Tail.next d m).print ++ (newlines g ++ r), col, 0⟩ (as ++ (Tail.next d m).values) ⟨newlines g' ++ r, 1, 0⟩ := by
  have ev : as ++ (Tail.next d m).values = as ++ [.seq d.values] ++ m.values := by simp [Tail.values]
  have e : (Tail.next d m).print ++ (newlines g ++ r) = '\n' :: ((indent true d.print ++ newlines g1) ++ (m.print ++ (newlines g2 ++ r))) := by
    simp only [Tail.print, List.cons_append, List.append_assoc]
    rw [hsplit]
  rw [e, ev]
  have hsp : [' '].isPrefixOf ((indent true d.print ++ newlines g1) ++ (m.print ++ (newlines g2 ++ r))) = true := by
    obtain ⟨c, s, hs, hst⟩ := doc_starts h1 h2
    rw [hs, indent, if_neg hst.newline]
    exact pre_same pre_nil
  have hdoc : Gives (fun n => parseBlock View.lexer n) ⟨d.print ++ newlines g1, 1, 0⟩ (.seq d.values) ⟨[], 1, 0⟩ := block_gives (g0 := 0) (g := g1) hd
  have hl : Lines (d.print ++ newlines g1) := (doc_lines d h1).append (.newlines g1)
  have hi : Indented true (d.print ++ newlines g1) (indent true d.print ++ newlines g1) :=
    (indented_indent true d.print).append ((doc_lines d h1).elim (fun h => .inl ⟨h, rfl⟩) .inr) (indented_newlines g1)
  exact next_line hcol hsp (block_shift hun hl hi hdoc) hg'

mutual
theorem doc_gives : (d : Doc) → d.ok = true → (g0 g : Nat) → (ms : List Markup) →
    Gives (fun n => do skipBlank View.lexer n; blockLoop View.lexer n ms) ⟨newlines g0 ++ (d.print ++ newlines g), 1, 0⟩ (.seq (ms ++ d.values)) ⟨[], 1, 0⟩
  | .nil, _, g0, g, ms => by
    have e : newlines g0 ++ (Doc.nil.print ++ newlines g) = newlines (g0 + g) ++ [] := by simp [Doc.print, newlines_add]
    rw [e]
    refine (skip_gives (by simp) _).bind ?_
    apply Goes.succ (fun n => blockLoop.eq_2 _ _ _)
    apply g_end
    simp only [Doc.values, List.append_nil]
    exact .pure
  | .para explicit t gap d, h, g0, g, ms => by
    have hstart := doc_starts h rfl
    have h' := h
    simp only [Doc.ok, Bool.and_eq_true] at h
    obtain ⟨⟨⟨⟨h1, h2⟩, h3⟩, h4⟩, h5⟩ := h
    have ih := fun g0 ms => doc_gives d h5 g0 g ms
    obtain ⟨c, s, hs, hst⟩ := hstart
    refine (skip_gives ?_ _).bind ?_
    · intro c' s' e; rw [hs] at e; cases e; exact hst.newline
    have text : ∀ col, 1 ≤ col → (col = 1 → (!explicit) = true) → Gives (fun n => inlineLoop View.lexer n .implicitBlock [] []) ⟨t.print ++ (newlines gap ++ (d.print ++ newlines g)), col, 0⟩ t.value ⟨newlines gap ++ (d.print ++ newlines g), 1, 0⟩ := by
      intro col hcol hc1
      have ec : columnAfter col t.print = 1 := by
        obtain ⟨q, hq⟩ := text_lines t h2
        rw [hq, columnAfter_append]; rfl
      have := text_gives t .implicitBlock (!explicit) [] [] (newlines gap ++ (d.print ++ newlines g)) col hcol h1 hc1 ?_ (by simp)
      · rw [ec] at this; exact this
      · rw [ec]
        cases gap with
        | succ k => exact .inr ⟨rfl, _, rfl⟩
        | zero =>
          have hnil : d = .nil := by
            cases d with
            | nil => rfl
            | _ => simp [Doc.isNil] at h4
          subst hnil
          cases g with
          | zero => exact .inl rfl
          | succ k => exact .inr ⟨rfl, _, rfl⟩
    have fin : Gives (fun n => do skipBlank View.lexer n; blockLoop View.lexer n (ms ++ [.cmd ['.', 'b', 'l', 'o', 'c', 'k'] [t.value]])) ⟨newlines gap ++ (d.print ++ newlines g), 1, 0⟩ (.seq (ms ++ (Doc.para explicit t gap d).values)) ⟨[], 1, 0⟩ := by
      have := ih gap (ms ++ [.cmd ['.', 'b', 'l', 'o', 'c', 'k'] [t.value]])
      rw [List.append_assoc] at this
      exact this
    apply Goes.succ (fun n => blockLoop.eq_2 _ _ _)
    cases explicit with
    | true =>
      have e : (Doc.para true t gap d).print ++ newlines g = '@' :: (t.print ++ (newlines gap ++ (d.print ++ newlines g))) := by simp [Doc.print]
      rw [e]
      have hat : ['@', '@'].isPrefixOf ('@' :: (t.print ++ (newlines gap ++ (d.print ++ newlines g)))) = true := by
        cases t with
        | cmd n a t => rfl
        | _ => simp [okStart] at h3
      apply g_more (Nat.le_refl _) (by decide)
      apply g_yes (Nat.le_refl _) hat
      apply g_advance (Nat.le_refl _)
      exact (text _ col1_pos (by simp [col1])).bind fin
    | false =>
      have e : (Doc.para false t gap d).print ++ newlines g = t.print ++ (newlines gap ++ (d.print ++ newlines g)) := by simp [Doc.print]
      have hc : c ≠ '@' := by
        cases t with
        | nil => cases h3
        | cmd n a t => cases h3
        | esc x t => simp [Doc.print, Text.print] at hs; rw [← hs.1]; decide
        | chr x t =>
          simp [Doc.print, Text.print] at hs
          simp only [Text.ok, okChr, Bool.and_eq_true, decide_eq_true_eq] at h1
          rw [← hs.1]; exact h1.1.1.1.2
      have e2 : t.print ++ (newlines gap ++ (d.print ++ newlines g)) = c :: (s ++ newlines g) := by rw [← e, hs]; rfl
      have no : ∀ p, ('@' :: p).isPrefixOf (c :: (s ++ newlines g)) = false := fun p => by simp [List.isPrefixOf, Ne.symm hc]
      rw [e, e2]
      apply g_more (Nat.le_refl _) hst.fin
      apply g_no (Nat.le_refl _) (no _)
      apply g_no (Nat.le_refl _) (no _)
      rw [← e2]
      exact (text 1 (Nat.le_refl _) (by simp)).bind fin
  | .cmd name sg gap d, h, g0, g, ms => by
    have hstart := doc_starts h rfl
    simp only [Doc.ok, Bool.and_eq_true] at h
    obtain ⟨⟨⟨hname, hseg⟩, hfin⟩, hd⟩ := h
    have ih := fun g0 g ms => doc_gives d hd g0 g ms
    obtain ⟨c, s, hs, hst⟩ := hstart
    have hall : name.all nameChar = true := by simp [okName] at hname; simpa using hname.2
    refine (skip_gives ?_ _).bind ?_
    · intro c' s' e; rw [hs] at e; cases e; exact hst.newline
    have e : (Doc.cmd name sg gap d).print ++ newlines g = '@' :: (name ++ (sg.print ++ (newlines gap ++ (d.print ++ newlines g)))) := by simp [Doc.print]
    rw [e]
    apply Goes.succ (fun n => blockLoop.eq_2 _ _ _)
    apply g_more (Nat.le_refl _) (by decide)
    have hat : ['@', '@'].isPrefixOf ('@' :: (name ++ (sg.print ++ (newlines gap ++ (d.print ++ newlines g))))) = false := by
      obtain ⟨f, u, rfl, hf⟩ := okName_head hname
      have : ('@' == f) = false := by simpa using Ne.symm (nameChar_ne hf (d := '@') (by decide))
      simp [List.isPrefixOf, this]
    apply g_no (Nat.le_refl _) hat
    apply g_yes (Nat.le_refl _) rfl
    apply g_advance (Nat.le_refl _)
    refine (name_gives name [] _ _ col1_pos hall ?_ (by simp)).bind ?_
    · intro c' s' e'
      obtain ⟨x, y, hx, hy⟩ := seg_head sg (newlines gap ++ (d.print ++ newlines g))
      rw [hx] at e'; cases e'
      simp at hy
      rcases hy with rfl | rfl | rfl | rfl <;> decide
    have hg : ∃ g' g2, Gives (fun n => commandLoop View.lexer n []) ⟨sg.print ++ (newlines gap ++ (d.print ++ newlines g)), columnAfter (col1 1 '@') name, 0⟩ ([] ++ sg.values) ⟨newlines g' ++ (d.print ++ newlines g2), 1, 0⟩ := by
      cases hd0 : d.isNil with
      | true =>
        have hnil : d = .nil := by
          cases d with
          | nil => rfl
          | _ => simp [Doc.isNil] at hd0
        subst hnil
        have e3 : newlines gap ++ (Doc.nil.print ++ newlines g) = newlines (gap + g) ++ [] := by simp [Doc.print, newlines_add]
        rw [e3]
        obtain ⟨g', hg'⟩ := seg_gives sg hseg [] [] (gap + g) _ (columnAfter_pos _ col1_pos) ⟨fun _ => rfl, by simp⟩
        exact ⟨g', 0, hg'⟩
      | false =>
        suffices hk : RestOk sg.isFinal (d.print ++ newlines g) by
          obtain ⟨g', hg'⟩ := seg_gives sg hseg [] _ gap _ (columnAfter_pos _ col1_pos) hk
          exact ⟨g', g, hg'⟩
        refine ⟨fun hf => ?_, fun c' s' e' => ?_⟩
        · rw [hf, hd0] at hfin; simp at hfin
        · obtain ⟨x, y, hx, hy⟩ := doc_starts hd hd0
          rw [hx] at e'
          cases e'
          refine ⟨hy.space, hy.newline, hy.fin, fun hc => ?_⟩
          obtain ⟨a, b, rfl, hab⟩ := hy.command hc
          refine ⟨a, _, rfl, ?_⟩
          rcases hab with hab | ⟨hab, f, u, rfl, hf⟩
          · exact .inl hab
          · exact .inr ⟨hab, f, _, rfl, hf⟩
    obtain ⟨g', g2, hg'⟩ := hg
    refine hg'.bind ?_
    have := ih g' g2 (ms ++ [.cmd name sg.values])
    rw [List.append_assoc] at this
    exact this

theorem seg_gives : (s : Seg) → s.ok = true → (as : List Markup) → (r : Str) → (g col : Nat) → 1 ≤ col → RestOk s.isFinal r →
    ∃ g', Gives (fun n => commandLoop View.lexer n as) ⟨s.print ++ (newlines g ++ r), col, 0⟩ (as ++ s.values) ⟨newlines g' ++ r, 1, 0⟩
  | .seg args same tail, h, as, r, g, col, hcol, hr => by
    simp only [Seg.ok, Bool.and_eq_true] at h
    obtain ⟨⟨h1, h2⟩, h3⟩ := h
    have hp : 1 ≤ columnAfter col args.print := columnAfter_pos _ hcol
    have e : (Seg.seg args same tail).print ++ (newlines g ++ r) = args.print ++ (samePrint same ++ (tail.print ++ (newlines g ++ r))) := by simp [Seg.print]
    have hst := fun col => tail_stops tail (newlines g ++ r) col
    have hargs := args_gives args as (samePrint same ++ (tail.print ++ (newlines g ++ r))) col hcol h1 (by
      intro c s e
      cases same with
      | some t => cases e; decide
      | none => rcases hst 0 with ⟨s, h⟩ | ⟨s, h⟩ | ⟨s, h⟩ <;> simp only [samePrint, List.nil_append] at e <;> rw [h] at e <;> cases e <;> decide)
    rw [e]
    cases same with
    | none =>
      obtain ⟨g', hg'⟩ := tail_gives tail h3 (as ++ args.values) r g _ hp hr
      refine ⟨g', ?_⟩
      apply Goes.succ (fun n => commandLoop_eq n _)
      refine hargs.bind ?_
      have ev : as ++ (Seg.seg args none tail).values = as ++ args.values ++ tail.values := by simp [Seg.values, sameValues]
      rw [ev]
      refine Goes.bind (a := as ++ args.values) (v' := ⟨tail.print ++ (newlines g ++ r), columnAfter col args.print, 0⟩) ?_ hg'
      show Gives _ ⟨tail.print ++ (newlines g ++ r), _, 0⟩ _ _
      rcases hst 0 with ⟨s, h⟩ | ⟨s, h⟩ | ⟨s, h⟩ <;> rw [h]
      · exact g_no hp rfl .pure
      · exact g_yes hp rfl (g_yes hp rfl .pure)
      · exact g_yes hp rfl (g_no hp rfl (g_yes hp rfl .pure))
    | some t =>
      have hp2 : 1 ≤ columnAfter (col1 (columnAfter col args.print) ' ') t.print := columnAfter_pos _ col1_pos
      obtain ⟨g', hg'⟩ := tail_gives tail h3 (as ++ args.values ++ [t.value]) r g _ hp2 hr
      refine ⟨g', ?_⟩
      apply Goes.succ (fun n => commandLoop_eq n _)
      refine hargs.bind ?_
      have ev : as ++ (Seg.seg args (some t) tail).values = as ++ args.values ++ [t.value] ++ tail.values := by simp [Seg.values, sameValues]
      rw [ev]
      refine Goes.bind ?_ hg'
      show Gives _ ⟨' ' :: (t.print ++ (tail.print ++ (newlines g ++ r))), _, 0⟩ _ _
      obtain ⟨n1, n2⟩ := noAt h2 (hst 0)
      apply g_yes hp rfl
      apply g_no hp (by rw [← n1]; rfl)
      apply g_no hp (by rw [← n2]; rfl)
      apply g_advance hp
      refine (text_gives t .sameLineArg false [] [] _ _ col1_pos h2 (by simp [col1]; omega) (hst _) (by simp)).bind ?_
      exact .pure

theorem tail_gives : (t : Tail) → t.ok = true → (as : List Markup) → (r : Str) → (g col : Nat) → 1 ≤ col → RestOk t.isFinal r →
    ∃ g', Gives (fun n => lineEnd n as) ⟨t.print ++ (newlines g ++ r), col, 0⟩ (as ++ t.values) ⟨newlines g' ++ r, 1, 0⟩
  | .line m, h, as, r, g, col, hcol, hr => by
    obtain ⟨g', hg'⟩ := more_gives m (by simpa [Tail.ok] using h) as r g hr
    refine ⟨g', ?_⟩
    apply g_no hcol (pre_ne rfl)
    refine Goes.bind (a := as) (g_no hcol (pre_ne rfl) (g_yes hcol (pre_same pre_nil) (g_advance hcol .pure))) ?_
    refine Goes.bind (a := as) ?_ hg'
    refine g_no (Nat.le_refl _) ?_ .pure
    cases m with
    | done => exact hr.noSpace g
    | final k d => rfl
    | again s => rfl
  | .next d m, h, as, r, g, col, hcol, hr => by
    simp only [Tail.ok, Bool.and_eq_true, Bool.not_eq_true'] at h
    obtain ⟨⟨h1, h2⟩, h3⟩ := h
    obtain ⟨g1, g2, hsplit, hun⟩ := more_split (m := m) hr g
    obtain ⟨g', hg'⟩ := more_gives m h3 (as ++ [.seq d.values]) r g2 hr
    refine ⟨g', ?_⟩
    exact next_gives h1 h2 hcol hsplit hun (fun ms => doc_gives d h1 0 g1 ms) hg'
  | .literal s m, h, as, r, g, col, hcol, hr => by
    simp only [Tail.ok, Bool.and_eq_true] at h
    obtain ⟨h1, h3⟩ := h
    obtain ⟨g1, g2, hsplit, hun⟩ := more_split (m := m) hr g
    obtain ⟨g', hg'⟩ := more_gives m h3 (as ++ [.plain s]) r g2 hr
    refine ⟨g', ?_⟩
    have ev : as ++ (Tail.literal s m).values = as ++ [.plain s] ++ m.values := by simp [Tail.values]
    have e : (Tail.literal s m).print ++ (newlines g ++ r) = ' ' :: '@' :: '\n' :: ((indent true s ++ newlines g1) ++ (m.print ++ (newlines g2 ++ r))) := by
      simp only [Tail.print, List.cons_append, List.append_assoc]
      rw [hsplit]
    rw [e, ev]
    have hs := literal_lines h1
    have hall : s.all okChar = true := by simp only [okLiteral, Bool.and_eq_true] at h1; exact h1.1
    have hl : Lines (s ++ newlines g1) := Lines.append (.inr hs) (.newlines g1)
    have hi : Indented true (s ++ newlines g1) (indent true s ++ newlines g1) := (indented_indent true s).append (.inr hs) (indented_newlines g1)
    have hrest := rest_shift hun hl (.append (.ok hall) .newlines) hi
    have hstrip : cstr (stripBlank (s ++ newlines g1).reverse).reverse = s := by
      rw [strip_literal h1, cstr_id fun c hc => (okChar_iff.1 (List.all_eq_true.1 hall c hc)).1]
    exact next_literal hcol hun hrest (by rw [hstrip]; exact hg')
  | .final k d, h, as, r, g, col, hcol, hr => by
    have hd : d.ok = true := by simpa [Tail.ok] using h
    have hr0 := hr.fin rfl
    subst hr0
    refine ⟨0, ?_⟩
    have e : (Tail.final k d).print ++ (newlines g ++ []) = ' ' :: '@' :: '@' :: '\n' :: (newlines k ++ (d.print ++ newlines g)) := by simp [Tail.print]
    rw [e]
    exact final_same hcol (block_gives fun ms => doc_gives d hd k g ms)

theorem more_gives : (m : More) → m.ok = true → (as : List Markup) → (r : Str) → (g : Nat) → RestOk m.isFinal r →
    ∃ g', Gives (fun n => moreEnd n as) ⟨m.print ++ (newlines g ++ r), 1, 0⟩ (as ++ m.values) ⟨newlines g' ++ r, 1, 0⟩
  | .done, h, as, r, g, hr => by
    refine ⟨g, ?_⟩
    obtain ⟨h1, h2⟩ := hr.noCont g
    have one : (1 : Nat) ≤ 1 := Nat.le_refl _
    simp only [More.print, More.values, List.nil_append, List.append_nil]
    apply g_no one h1
    apply g_is one
    simp only [h2 '\n' (by simp), Bool.false_eq_true, if_false]
    apply g_is one
    simp only [h2 ' ' (by simp), Bool.false_eq_true, if_false]
    apply g_is one
    simp only [h2 '[' (by simp), Bool.false_eq_true, if_false]
    apply g_is one
    simp only [h2 '{' (by simp), Bool.false_eq_true, if_false]
    exact .pure
  | .final k d, h, as, r, g, hr => by
    have hd : d.ok = true := by simpa [More.ok] using h
    have hr0 := hr.fin rfl
    subst hr0
    refine ⟨0, ?_⟩
    have e : (More.final k d).print ++ (newlines g ++ []) = '@' :: '@' :: '\n' :: (newlines k ++ (d.print ++ newlines g)) := by simp [More.print]
    rw [e]
    exact final_next (block_gives fun ms => doc_gives d hd k g ms)
  | .again s, h, as, r, g, hr => by
    obtain ⟨g', hg'⟩ := seg_gives s (by simpa [More.ok] using h) as r g (col1 1 '@') col1_pos hr
    refine ⟨g', ?_⟩
    have one : (1 : Nat) ≤ 1 := Nat.le_refl _
    obtain ⟨c, t, hc, hm⟩ := seg_head s (newlines g ++ r)
    have fin : Gives (fun n => do advance View.lexer; commandLoop View.lexer n as) ⟨(More.again s).print ++ (newlines g ++ r), 1, 0⟩ (as ++ (More.again s).values) ⟨newlines g' ++ r, 1, 0⟩ := g_advance one hg'
    have e : (More.again s).print ++ (newlines g ++ r) = '@' :: c :: t := by rw [← hc]; rfl
    rw [e] at fin ⊢
    have hpre : ∀ d, ['@', d].isPrefixOf ('@' :: c :: t) = (d == c) := fun d => by simp [List.isPrefixOf]
    have yes : ∀ p : P View Bool, Gives (fun _ => (if true = true then pure true else p : P View Bool)) ⟨'@' :: c :: t, 1, 0⟩ true ⟨'@' :: c :: t, 1, 0⟩ := fun p => .pure
    apply g_no one (by simp at hm; rcases hm with rfl | rfl | rfl | rfl <;> rfl)
    simp only [List.mem_cons, List.not_mem_nil, or_false] at hm
    apply g_is one
    simp only [hpre]
    rcases hm with rfl | rfl | rfl | rfl
    · refine (yes _).bind ((yes _).bind ((yes _).bind ?_))
      exact fin
    · refine Goes.bind (f := fun _ => is View.lexer ['@', ' ']) (is_gives one) ?_
      refine (yes _).bind ((yes _).bind ?_)
      exact fin
    · refine Goes.bind (f := fun _ => is View.lexer ['@', ' ']) (is_gives one) ?_
      refine Goes.bind (f := fun _ => is View.lexer ['@', '[']) (is_gives one) ?_
      refine (yes _).bind ?_
      exact fin
    · refine Goes.bind (f := fun _ => is View.lexer ['@', ' ']) (is_gives one) ?_
      refine Goes.bind (f := fun _ => is View.lexer ['@', '[']) (is_gives one) ?_
      refine Goes.bind (f := fun _ => is View.lexer ['@', '{']) (is_gives one) ?_
      exact fin
end

end Verif.FbldParse
