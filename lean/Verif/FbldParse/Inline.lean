import Verif.FbldParse.Gives
/-
Inline structured text is parsed as what it means.
-/
namespace Verif.FbldParse
open Fbld (Str Markup)

/-- The text that follows ends the inline text. -/
def StopsAt : Context → Nat → Str → Prop
  | .inlineArg, _, r => ∃ s, r = ']' :: s
  | .sameLineArg, _, r => (∃ s, r = '\n' :: s) ∨ (∃ s, r = ' ' :: '@' :: '\n' :: s) ∨ ∃ s, r = ' ' :: '@' :: '@' :: '\n' :: s
  | .implicitBlock, col, r => r = [] ∨ col = 1 ∧ ∃ s, r = '\n' :: s

/-- The text does not end here. -/
def GoesOn : Context → Nat → Char → Str → Prop
  | .inlineArg, _, c, _ => c ≠ ']'
  | .sameLineArg, _, c, s => c ≠ '\n' ∧ (c = ' ' → ['@', '\n'].isPrefixOf s = false ∧ ['@', '@', '\n'].isPrefixOf s = false)
  | .implicitBlock, col, c, _ => col = 1 → c ≠ '\n'

theorem g_column {β : Type} {v : View} {z : PRes (β × View)} {x y : Nat → P View β} (hg : Goes (fun n => if v.column = 1 then x n else y n) v z) :
    Goes (fun n => column View.lexer >>= fun c => if c = 1 then x n else y n) v z :=
  Goes.bind (f := fun _ => column View.lexer) (a := v.column) ⟨0, fun _ _ => rfl⟩ hg

theorem isEnd_gives {c : Char} {s : Str} {col : Nat} (h : 1 ≤ col) (hc : c ≠ END) : Gives (fun _ => isEnd View.lexer) ⟨c :: s, col, 0⟩ false ⟨c :: s, col, 0⟩ := by
  refine ⟨0, fun _ _ => ?_⟩
  show PRes.ok (decide (_ = END), _) = _
  simp only [View.lexer, look_at h]
  rw [decide_eq_false hc]

theorem isEnd_nil {col : Nat} : Gives (fun _ => isEnd View.lexer) ⟨[], col, 0⟩ true ⟨[], col, 0⟩ := by
  refine ⟨0, fun _ _ => ?_⟩
  show PRes.ok (decide (_ = END), _) = _
  simp only [View.lexer, look_nil]
  rfl

theorem is_gives {p s : Str} {col : Nat} (h : 1 ≤ col) : Gives (fun _ => is View.lexer p) ⟨s, col, 0⟩ (p.isPrefixOf s) ⟨s, col, 0⟩ :=
  ⟨0, fun _ _ => by show PRes.ok (View.is p _, _) = _; rw [is_at p h]⟩

theorem stop_gives {context : Context} {r : Str} {col : Nat} (hcol : 1 ≤ col) (h : StopsAt context col r) : Gives (fun _ => inlineEnd View.lexer context) ⟨r, col, 0⟩ true ⟨r, col, 0⟩ := by
  cases context with
  | inlineArg =>
    obtain ⟨s, rfl⟩ := h
    unfold inlineEnd
    exact g_yes hcol rfl .pure
  | sameLineArg =>
    unfold inlineEnd
    rcases h with ⟨s, rfl⟩ | ⟨s, rfl⟩ | ⟨s, rfl⟩
    · exact g_yes hcol rfl .pure
    · exact g_no hcol rfl (g_yes hcol rfl .pure)
    · exact g_no hcol rfl (g_no hcol rfl (is_gives hcol))
  | implicitBlock =>
    unfold inlineEnd
    apply g_column
    rcases h with rfl | ⟨h1, s, rfl⟩
    · split
      · exact g_no hcol rfl isEnd_nil
      · exact isEnd_nil
    · rw [if_pos h1]
      exact g_yes hcol rfl .pure

theorem goes_gives {context : Context} {c : Char} {s : Str} {col : Nat} (hcol : 1 ≤ col) (hc : c ≠ END) (h : GoesOn context col c s) : Gives (fun _ => inlineEnd View.lexer context) ⟨c :: s, col, 0⟩ false ⟨c :: s, col, 0⟩ := by
  have one : ∀ d, d ≠ c → [d].isPrefixOf (c :: s) = false := fun d hd => by simp [List.isPrefixOf, hd]
  cases context with
  | inlineArg =>
    unfold inlineEnd
    refine g_no hcol (one _ (Ne.symm h)) (g_more hcol hc .pure)
  | sameLineArg =>
    unfold inlineEnd
    obtain ⟨h1, h2⟩ := h
    have e1 : [' ', '@', '\n'].isPrefixOf (c :: s) = false := by
      by_cases hc : c = ' '
      · rw [hc]; exact (h2 hc).1
      · simp [List.isPrefixOf, Ne.symm hc]
    have e2 : [' ', '@', '@', '\n'].isPrefixOf (c :: s) = false := by
      by_cases hc : c = ' '
      · rw [hc]; exact (h2 hc).2
      · simp [List.isPrefixOf, Ne.symm hc]
    refine g_no hcol (one _ (Ne.symm h1)) (g_no hcol e1 ?_)
    rw [← e2]
    exact is_gives hcol
  | implicitBlock =>
    unfold inlineEnd
    apply g_column
    split
    · exact g_no hcol (one _ (Ne.symm (h ‹_›))) (isEnd_gives hcol hc)
    · exact isEnd_gives hcol hc

theorem stops_head {context : Context} {r : Str} {col : Nat} (h : StopsAt context col r) : ∀ c s, r = c :: s → c = ']' ∨ c = '\n' ∨ c = ' ' := by
  rintro c s rfl
  cases context with
  | inlineArg => obtain ⟨s, h⟩ := h; cases h; simp
  | sameLineArg => rcases h with ⟨s, h⟩ | ⟨s, h⟩ | ⟨s, h⟩ <;> cases h <;> simp
  | implicitBlock =>
    rcases h with h | ⟨_, s, h⟩ <;> cases h
    simp

theorem follows_head {context : Context} {start : Bool} {args : Args} {t : Text} {r : Str} {col : Nat} (hf : follows args t = true) (h : StopsAt context col r) :
    ∀ c s, t.print ++ r = c :: s → c ≠ '[' ∧ c ≠ '{' ∧ (args = .nil → nameChar c = false) := by
  intro c s e
  cases t with
  | nil =>
    have := stops_head h c s (by simpa [Text.print] using e)
    rcases this with rfl | rfl | rfl <;> exact ⟨by decide, by decide, fun _ => by decide⟩
  | chr d t =>
    cases e
    simp only [follows, Bool.and_eq_true, decide_eq_true_eq, ne_eq, decide_not, Bool.not_eq_true', decide_eq_false_iff_not] at hf
    refine ⟨hf.1.1, hf.1.2, ?_⟩
    rintro rfl
    simpa using hf.2
  | esc d t => cases e; exact ⟨by decide, by decide, fun _ => by decide⟩
  | cmd name as t => cases e; exact ⟨by decide, by decide, fun _ => by decide⟩

theorem okName_head {name : Str} (h : okName name = true) : ∃ c s, name = c :: s ∧ nameChar c = true := by
  cases name with
  | nil => cases h
  | cons c s => simp [okName] at h; exact ⟨c, s, rfl, h.1⟩

/-- In a same line arg no text looks like the end of the line. -/
theorem noAt {start : Bool} {t : Text} {r : Str} {col : Nat} (ht : t.ok .sameLineArg start = true) (h : StopsAt .sameLineArg col r) :
    ['@', '\n'].isPrefixOf (t.print ++ r) = false ∧ ['@', '@', '\n'].isPrefixOf (t.print ++ r) = false := by
  cases t with
  | nil => rcases h with ⟨s, rfl⟩ | ⟨s, rfl⟩ | ⟨s, rfl⟩ <;> exact ⟨rfl, rfl⟩
  | chr d t =>
    have : d ≠ '@' := by
      rintro rfl
      simp [Text.ok, okChr] at ht
    simp [Text.print, List.isPrefixOf, Ne.symm this]
  | esc d t => exact ⟨rfl, rfl⟩
  | cmd name as t =>
    simp only [Text.ok, Bool.and_eq_true] at ht
    obtain ⟨c, s, rfl, hc⟩ := okName_head ht.1.1.1
    have h1 : ('\n' == c) = false := by simpa using Ne.symm (nameChar_ne hc (d := '\n') (by decide))
    have h2 : ('@' == c) = false := by simpa using Ne.symm (nameChar_ne hc (d := '@') (by decide))
    simp [Text.print, List.isPrefixOf, h1, h2]

theorem flush_eq {ms : List Markup} {cs : Str} (h : ∀ c ∈ cs, c ≠ '\x00') : flush ms cs = ms ++ plainRun cs := by
  unfold flush plainRun
  cases cs with
  | nil => simp
  | cons c cs => simp [cstr_id h]

theorem sequence_eq : (ms : List Markup) → sequence ms = together ms
  | [] => rfl
  | [_] => rfl
  | _ :: _ :: _ => rfl

theorem snoc_ne {cs : Str} {c : Char} (h : ∀ c ∈ cs, c ≠ '\x00') (hc : c ≠ '\x00') : ∀ d ∈ cs ++ [c], d ≠ '\x00' := by
  intro d hd
  simp only [List.mem_append, List.mem_singleton] at hd
  rcases hd with hd | rfl
  · exact h d hd
  · exact hc

theorem prefix_one {p c : Char} {s : Str} : [p].isPrefixOf (c :: s) = (p == c) := by simp [List.isPrefixOf]

theorem prefix_ne {p c : Char} {s : Str} (h : c ≠ p) : [p].isPrefixOf (c :: s) = false := by rw [prefix_one]; simpa using Ne.symm h

theorem escape_of {c : Char} (h : c = '\\' ∨ c = '@' ∨ c = '[' ∨ c = ']' ∨ c = '\n') : escape (if c = '\n' then 'n' else c) = some c := by
  rcases h with rfl | rfl | rfl | rfl | rfl <;> rfl

theorem name_col : (name : Str) → {col : Nat} → 2 ≤ col → name.all nameChar = true → 2 ≤ columnAfter col name
  | [], _, h, _ => h
  | c :: s, col, h, ha => by
    simp only [List.all_cons, Bool.and_eq_true] at ha
    rw [columnAfter, if_neg (nameChar_ne ha.1 (by decide))]
    exact name_col s (by omega) ha.2

theorem args_col : (a : Args) → {col : Nat} → 2 ≤ col → 2 ≤ columnAfter col a.print
  | .nil, _, h => h
  | .inline t a, col, h => by
    rw [Args.print, columnAfter, columnAfter_append, columnAfter]
    have : 1 ≤ columnAfter (if '[' = '\n' then 1 else col + 1) t.print := columnAfter_pos _ (by split <;> omega)
    exact args_col a (by rw [if_neg (by decide)]; omega)
  | .literal s a, col, h => by
    rw [Args.print, columnAfter, columnAfter_append, columnAfter]
    have : 1 ≤ columnAfter (if '{' = '\n' then 1 else col + 1) s := columnAfter_pos _ (by split <;> omega)
    exact args_col a (by rw [if_neg (by decide)]; omega)

mutual
theorem text_gives : (t : Text) → (context : Context) → (start : Bool) → (ms : List Markup) → (cs r : Str) → (col : Nat) → 1 ≤ col → t.ok context start = true →
    (col = 1 → start = true) → StopsAt context (columnAfter col t.print) r → (∀ c ∈ cs, c ≠ '\x00') →
    Gives (fun n => inlineLoop View.lexer n context ms cs) ⟨t.print ++ r, col, 0⟩ (together (ms ++ t.pieces cs)) ⟨r, columnAfter col t.print, 0⟩
  | .nil, context, start, ms, cs, r, col, hcol, hok, hs, hr, hcs => by
    apply Goes.succ (fun n => inlineLoop.eq_2 _ _ _ _ _)
    refine Goes.bind (f := fun _ => inlineEnd View.lexer context) (stop_gives hcol hr) ?_
    simp only [if_true, sequence_eq, flush_eq hcs]
    exact .pure
  | .chr c t, context, start, ms, cs, r, col, hcol, hok, hs, hr, hcs => by
    simp only [Text.ok, Bool.and_eq_true] at hok
    obtain ⟨hc, hok⟩ := hok
    simp only [okChr, Bool.and_eq_true, decide_eq_true_eq] at hc
    obtain ⟨⟨⟨hch, hat⟩, hesc⟩, hctx⟩ := hc
    rw [okChar_iff] at hch
    apply Goes.succ (fun n => inlineLoop.eq_2 _ _ _ _ _)
    have hgo : GoesOn context col c (t.print ++ r) := by
      cases context with
      | inlineArg => show c ≠ ']'; simpa using hctx
      | sameLineArg => exact ⟨by simpa using hctx, fun _ => noAt hok hr⟩
      | implicitBlock =>
        intro h1
        have := hs h1
        rw [this] at hctx
        simpa using hctx
    refine Goes.bind (f := fun _ => inlineEnd View.lexer context) (goes_gives hcol hch.2 hgo) ?_
    simp only [Bool.false_eq_true, if_false]
    apply g_no hcol (prefix_ne hat)
    apply g_no hcol (prefix_ne hesc)
    apply g_char hcol
    apply g_advance hcol
    refine text_gives t context _ ms (cs ++ [c]) r (col1 col c) col1_pos hok ?_ hr (snoc_ne hcs hch.1)
    intro h
    unfold col1 at h
    split at h
    · simpa using ‹_›
    · omega
  | .esc c t, context, start, ms, cs, r, col, hcol, hok, hs, hr, hcs => by
    simp only [Text.ok, Bool.and_eq_true, Bool.or_eq_true, decide_eq_true_eq] at hok
    obtain ⟨hc, hok⟩ := hok
    apply Goes.succ (fun n => inlineLoop.eq_2 _ _ _ _ _)
    have hgo : GoesOn context col '\\' ((if c = '\n' then 'n' else c) :: (t.print ++ r)) := by
      cases context with
      | inlineArg => show _ ≠ _; decide
      | sameLineArg => exact ⟨by decide, fun h => by cases h⟩
      | implicitBlock => exact fun _ => by decide
    refine Goes.bind (f := fun _ => inlineEnd View.lexer context) (goes_gives hcol (by decide) hgo) ?_
    simp only [Bool.false_eq_true, if_false]
    apply g_no hcol (prefix_ne (by decide))
    apply g_yes hcol rfl
    apply g_advance hcol
    apply g_char col1_pos
    have hc' : c = '\\' ∨ c = '@' ∨ c = '[' ∨ c = ']' ∨ c = '\n' := by
      rcases hc with (((h | h) | h) | h) | h <;> simp [h]
    rw [escape_of hc']
    simp only
    apply g_advance col1_pos
    have hne : c ≠ '\x00' := by rcases hc' with rfl | rfl | rfl | rfl | rfl <;> decide
    refine text_gives t context _ ms (cs ++ [c]) r _ col1_pos hok ?_ hr (snoc_ne hcs hne)
    intro h
    exfalso
    revert h
    have : (if c = '\n' then 'n' else c) ≠ '\n' := by split <;> simp_all
    simp [col1, this]
  | .cmd name args t, context, start, ms, cs, r, col, hcol, hok, hs, hr, hcs => by
    simp only [Text.ok, Bool.and_eq_true] at hok
    obtain ⟨⟨⟨hname, hargs⟩, hfol⟩, hok⟩ := hok
    have hall : name.all nameChar = true := by simp [okName] at hname; simpa using hname.2
    simp only [Text.print, List.append_assoc, List.cons_append] at hr ⊢
    have hcol2 : columnAfter col ('@' :: (name ++ (args.print ++ t.print))) = columnAfter (columnAfter (columnAfter (col1 col '@') name) args.print) t.print := by
      rw [columnAfter, columnAfter_append, columnAfter_append]; rfl
    rw [hcol2] at hr ⊢
    apply Goes.succ (fun n => inlineLoop.eq_2 _ _ _ _ _)
    have hgo : GoesOn context col '@' (name ++ (args.print ++ (t.print ++ r))) := by
      cases context with
      | inlineArg => show _ ≠ _; decide
      | sameLineArg => exact ⟨by decide, fun h => by cases h⟩
      | implicitBlock => exact fun _ => by decide
    refine Goes.bind (f := fun _ => inlineEnd View.lexer context) (goes_gives hcol (by decide) hgo) ?_
    simp only [Bool.false_eq_true, if_false]
    apply g_yes hcol rfl
    apply g_advance hcol
    have hhead := follows_head (start := start) hfol hr
    have hcmd : Gives (fun n => parseInlineCommand View.lexer n) ⟨name ++ (args.print ++ (t.print ++ r)), col1 col '@', 0⟩ (.cmd name args.values) ⟨t.print ++ r, columnAfter (columnAfter (col1 col '@') name) args.print, 0⟩ := by
      apply Goes.succ (fun n => parseInlineCommand.eq_2 _ _)
      refine (name_gives name [] _ _ col1_pos hall ?_ (by simp)).bind ?_
      · intro c s e
        cases args with
        | nil => exact (hhead c s e).2.2 rfl
        | inline t2 as => cases e; decide
        | literal s2 as => cases e; decide
      · refine (args_gives args [] _ _ (columnAfter_pos _ col1_pos) hargs fun c s e => ⟨(hhead c s e).1, (hhead c s e).2.1⟩).bind ?_
        exact .pure
    refine hcmd.bind ?_
    have hpos : 1 ≤ columnAfter (columnAfter (col1 col '@') name) args.print := columnAfter_pos _ (columnAfter_pos _ col1_pos)
    have := text_gives t context false (flush ms cs ++ [.cmd name args.values]) [] r _ hpos hok ?_ hr (by simp)
    · rw [flush_eq hcs] at this ⊢
      simp only [List.append_assoc, List.cons_append, List.nil_append] at this
      simp only [Text.pieces, List.append_assoc, List.cons_append, List.nil_append]
      exact this
    · intro h
      have := args_col args (name_col name (col := col1 col '@') (by show 2 ≤ col + 1; omega) hall)
      omega

theorem args_gives : (a : Args) → (as : List Markup) → (r : Str) → (col : Nat) → 1 ≤ col → a.ok = true → (∀ c s, r = c :: s → c ≠ '[' ∧ c ≠ '{') →
    Gives (fun n => parseInlineArgs View.lexer n as) ⟨a.print ++ r, col, 0⟩ (as ++ a.values) ⟨r, columnAfter col a.print, 0⟩
  | .nil, as, r, col, hcol, hok, hr => by
    apply Goes.succ (fun n => parseInlineArgs.eq_2 _ _ _)
    have e : ['['].isPrefixOf r = false ∧ ['{'].isPrefixOf r = false := by
      cases r with
      | nil => exact ⟨rfl, rfl⟩
      | cons c s => exact ⟨prefix_ne (hr c s rfl).1, prefix_ne (hr c s rfl).2⟩
    simp only [Args.print, List.nil_append, Args.values, List.append_nil, columnAfter]
    apply g_is hcol
    simp only [e.1, Bool.false_eq_true, if_false]
    apply g_is hcol
    simp only [e.2, Bool.not_false, if_true]
    exact .pure
  | .inline t a, as, r, col, hcol, hok, hr => by
    simp only [Args.ok, Bool.and_eq_true] at hok
    simp only [Args.print, List.append_assoc, List.cons_append]
    have hcol2 : columnAfter col ('[' :: (t.print ++ ']' :: a.print)) = columnAfter (col1 (columnAfter (col1 col '[') t.print) ']') a.print := by
      rw [columnAfter, columnAfter_append]; rfl
    rw [hcol2]
    apply Goes.succ (fun n => parseInlineArgs.eq_2 _ _ _)
    apply g_is hcol
    simp only [show ['['].isPrefixOf ('[' :: (t.print ++ ']' :: (a.print ++ r))) = true from rfl, if_true]
    refine Goes.bind (f := fun _ => pure true) .pure ?_
    simp only [Bool.not_true, Bool.false_eq_true, if_false]
    apply g_no hcol rfl
    apply g_yes hcol rfl
    apply g_advance hcol
    refine (text_gives t .inlineArg false [] [] (']' :: (a.print ++ r)) _ col1_pos hok.1 ?_ ⟨_, rfl⟩ (by simp)).bind ?_
    · simp [col1]; omega
    · have hp : 1 ≤ columnAfter (col1 col '[') t.print := columnAfter_pos _ col1_pos
      apply g_is hp
      simp only [show [']'].isPrefixOf (']' :: (a.print ++ r)) = true from rfl, Bool.not_true, Bool.false_eq_true, if_false]
      apply g_advance hp
      have := args_gives a (as ++ [together ([] ++ t.pieces [])]) r (col1 (columnAfter (col1 col '[') t.print) ']') col1_pos hok.2 hr
      simp only [List.append_assoc, List.cons_append, List.nil_append] at this
      exact this
  | .literal s a, as, r, col, hcol, hok, hr => by
    simp only [Args.ok, Bool.and_eq_true] at hok
    simp only [Args.print, List.append_assoc, List.cons_append]
    have hcol2 : columnAfter col ('{' :: (s ++ '}' :: a.print)) = columnAfter (col1 (columnAfter (col1 col '{') s) '}') a.print := by
      rw [columnAfter, columnAfter_append]; rfl
    rw [hcol2]
    apply Goes.succ (fun n => parseInlineArgs.eq_2 _ _ _)
    apply g_is hcol
    simp only [show ['['].isPrefixOf ('{' :: (s ++ '}' :: (a.print ++ r))) = false from rfl, Bool.false_eq_true, if_false]
    apply g_is hcol
    simp only [show ['{'].isPrefixOf ('{' :: (s ++ '}' :: (a.print ++ r))) = true from rfl, Bool.not_true, Bool.false_eq_true, if_false]
    apply g_yes hcol rfl
    apply g_advance hcol
    refine (literal_gives s 0 [] (a.print ++ r) _ col1_pos hok.1.1 hok.1.2).bind ?_
    apply g_advance (columnAfter_pos _ col1_pos)
    have hnul : cstr ([] ++ s) = s := cstr_id fun c hc => (okChar_iff.1 (List.all_eq_true.1 hok.1.1 c hc)).1
    have := args_gives a (as ++ [.plain s]) r (col1 (columnAfter (col1 col '{') s) '}') col1_pos hok.2 hr
    rw [← hnul] at this
    simp only [List.append_assoc, List.cons_append, List.nil_append] at this
    rw [show cstr s = s from hnul] at this
    rw [hnul]
    exact this
end

end Verif.FbldParse
