import Verif.FbldParse.View
/-
The lexer of the program reads its files as one text, if they end with a newline.
-/
namespace Verif.FbldParse
open Fbld (Str Markup)

/-- The last line is complete. -/
def EndsNl (s : Str) : Prop := ∃ r, s = r ++ ['\n']

/-- The lexer is at this place of the text. -/
structure Reads (l : Lex) (v : View) : Prop where
  rest : v.rest = l.next ++ l.fin.getD [] ++ l.inputs.flatten
  column : v.column = l.column
  indent : v.indent = l.indent
  noEnd : END ∉ v.rest
  file : (l.next ++ l.fin.getD [] = [] ∧ l.column = 1) ∨ EndsNl (l.next ++ l.fin.getD [])
  files : ∀ f ∈ l.inputs, f = [] ∨ EndsNl f

variable {l : Lex} {v : View} {i : Nat}

theorem EndsNl.mem {s : Str} (h : EndsNl s) : '\n' ∈ s := by obtain ⟨r, rfl⟩ := h; simp

/-- Opening the next file. -/
theorem open_reads : (fs : List Str) → (l : Lex) → v.rest = fs.flatten → v.column = 1 → l.column = 1 → v.indent = l.indent → END ∉ v.rest → (∀ f ∈ fs, f = [] ∨ EndsNl f) → l.next = [] → l.fin.getD [] = [] →
    ((openNext l fs).1 = END ∧ v.rest = [] ∧ Reads (openNext l fs).2 v) ∨
    ((openNext l fs).1 ≠ END ∧ Reads { (openNext l fs).2 with next := (openNext l fs).2.next ++ [(openNext l fs).1] } v ∧ (openNext l fs).2.next = [])
  | [], l, h1, h2, h3, h4, h5, h6, h7, h8 => by
    refine .inl ⟨rfl, by simpa using h1, ⟨?_, ?_, ?_, h5, ?_, ?_⟩⟩
    · simp [openNext, h1, h7, h8]
    · simp [openNext, h2, h3]
    · simp [openNext, h4]
    · exact .inl (by simp [openNext, h7, h8, h3])
    · simp [openNext]
  | [] :: fs, l, h1, h2, h3, h4, h5, h6, h7, h8 => by
    rw [openNext]
    exact open_reads fs _ (by simpa using h1) h2 rfl (by simpa using h4) h5 (fun f hf => h6 f (by simp [hf])) h7 rfl
  | (c :: r) :: fs, l, h1, h2, h3, h4, h5, h6, h7, h8 => by
    rw [openNext]
    refine .inr ⟨?_, ⟨?_, ?_, ?_, h5, ?_, ?_⟩, h7⟩
    · intro hc
      simp only at hc
      rw [h1, hc] at h5
      simp at h5
    · simp [h1, h7]
    · simp [h2]
    · simp [h4]
    · refine .inr ?_
      have := h6 (c :: r) (by simp)
      simp only [h7, List.nil_append, Option.getD_some]
      rcases this with h | h
      · cases h
      · exact h
    · exact fun f hf => h6 f (by simp [hf])

theorem fetch_reads (h : Reads l v) (hi : i ≤ l.next.length) (hn : '\n' ∉ v.rest.take i) :
    Reads (fetch l i).2 v ∧ ((fetch l i).1 = true → i < (fetch l i).2.next.length) ∧ ((fetch l i).1 = false → v.rest.drop i = []) ∧ l.next.length ≤ (fetch l i).2.next.length := by
  unfold fetch
  split
  · rename_i hlen
    have cons : ∀ c r, l.fin = some (c :: r) → c ≠ END ∧ Reads { l with fin := some r, next := l.next ++ [c] } v := by
      intro c r hf
      refine ⟨?_, ⟨?_, h.column, h.indent, h.noEnd, ?_, h.files⟩⟩
      · intro hc
        have := h.noEnd
        rw [h.rest, hf, hc] at this
        simp at this
      · have := h.rest
        rw [hf] at this
        simp [this]
      · have := h.file
        rw [hf] at this
        simpa using this
    have stop : l.fin.getD [] = [] → (if l.next.isEmpty then openNext l l.inputs else (END, l)) = getC l →
        Reads ((match getC l with | (c, l) => if c = END then (false, l) else (true, { l with next := l.next ++ [c] }) : Bool × Lex)).2 v ∧
        (((match getC l with | (c, l) => if c = END then (false, l) else (true, { l with next := l.next ++ [c] }) : Bool × Lex)).1 = true →
          i < ((match getC l with | (c, l) => if c = END then (false, l) else (true, { l with next := l.next ++ [c] }) : Bool × Lex)).2.next.length) ∧
        (((match getC l with | (c, l) => if c = END then (false, l) else (true, { l with next := l.next ++ [c] }) : Bool × Lex)).1 = false → v.rest.drop i = []) ∧
        l.next.length ≤ ((match getC l with | (c, l) => if c = END then (false, l) else (true, { l with next := l.next ++ [c] }) : Bool × Lex)).2.next.length := by
      intro hf hg
      rw [← hg]
      cases hx : l.next with
      | nil =>
        rw [hx] at hlen
        simp only [List.length_nil] at hlen
        subst hlen
        have hcol : l.column = 1 := by
          rcases h.file with hh | hh
          · exact hh.2
          · rw [hx, hf] at hh
            simpa using hh.mem
        have hr := h.rest
        rw [hx, hf] at hr
        rcases open_reads l.inputs l (by simpa using hr) (h.column.trans hcol) hcol h.indent h.noEnd h.files hx hf with ⟨e1, e2, e3⟩ | ⟨e1, e2, e3⟩
        · simp [e1, e2, e3]
        · simp only [List.isEmpty_nil, if_true, if_neg e1]
          exact ⟨e2, by simp [e3], by simp, by simp [e3]⟩
      | cons a as =>
        have he : EndsNl l.next := by
          rcases h.file with hh | hh
          · rw [hx] at hh; simp at hh
          · rw [hf] at hh; simpa using hh
        have : '\n' ∈ v.rest.take i := by
          rw [h.rest, ← hlen]
          simpa using he.mem
        exact absurd this hn
    cases hf : l.fin with
    | none => exact stop (by rw [hf]; rfl) (by unfold getC; rw [hf])
    | some s =>
      cases s with
      | nil => exact stop (by rw [hf]; rfl) (by unfold getC; rw [hf])
      | cons c r =>
        obtain ⟨g1, g2⟩ := cons c r hf
        have : getC l = (c, { l with fin := some r }) := by unfold getC; rw [hf]
        rw [this]
        simp only [if_neg g1]
        exact ⟨g2, by simp [hlen], by simp, by simp⟩
  · exact ⟨h, fun _ => by simp only; omega, by simp, Nat.le_refl _⟩

theorem next_at (h : Reads l v) (hi : i < l.next.length) : ∃ c, l.next[i]? = some c ∧ v.rest.drop i = c :: v.rest.drop (i + 1) := by
  refine ⟨l.next[i], List.getElem?_eq_getElem hi, ?_⟩
  have : i < v.rest.length := by rw [h.rest]; simp; omega
  rw [List.drop_eq_getElem_cons this]
  congr 1
  have := h.rest
  simp only [this, List.append_assoc]
  rw [List.getElem_append_left hi]

/-- What the lexer finds at an index of its buffer. -/
structure Found (v : View) (i k : Nat) (r : Char × Nat × Lex) : Prop where
  reads : Reads r.2.2 v
  none : look k (v.rest.drop i) = none → r.1 = END
  some : ∀ j c, look k (v.rest.drop i) = some (j, c) → r.1 = c ∧ r.2.1 = i + j ∧ i + j < r.2.2.next.length

theorem fetchLoop_reads : (k : Nat) → (l : Lex) → (i : Nat) → Reads l v → i ≤ l.next.length → '\n' ∉ v.rest.take i → Found v i k (fetchLoop k l i)
  | k, l, i, h, hi, hn => by
    obtain ⟨g1, g2, g3, g4⟩ := fetch_reads h hi hn
    rw [fetchLoop.eq_def]
    simp only
    cases hf : (fetch l i).1 with
    | false =>
      simp only [Bool.not_false, if_true]
      exact ⟨g1, fun _ => rfl, fun j c hl => by rw [g3 hf, look] at hl; cases hl⟩
    | true =>
      simp only [Bool.not_true, Bool.false_eq_true, if_false]
      obtain ⟨c, e1, e2⟩ := next_at g1 (g2 hf)
      rw [e1]
      simp only [Option.getD_some]
      cases k with
      | zero => exact ⟨g1, by rw [e2]; simp [look], fun j d hl => by rw [e2] at hl; simp [look] at hl; obtain ⟨rfl, rfl⟩ := hl; exact ⟨rfl, rfl, g2 hf⟩⟩
      | succ k =>
        simp only
        split
        · rename_i hc
          have ih := fetchLoop_reads k (fetch l i).2 (i + 1) g1 (g2 hf) (by
            rw [List.take_add_one]
            have : v.rest[i]? = some c := by
              have := congrArg List.head? e2
              simpa using this
            rw [this, hc]
            simp only [Option.toList_some, List.mem_append, List.mem_singleton, not_or]
            exact ⟨hn, by decide⟩)
          have e : look (k + 1) (v.rest.drop i) = (look k (v.rest.drop (i + 1))).map fun x => (x.1 + 1, x.2) := by rw [e2, look, if_pos hc]
          refine ⟨ih.reads, fun hl => ih.none (by rw [e] at hl; simpa using hl), fun j d hl => ?_⟩
          rw [e] at hl
          simp only [Option.map_eq_some_iff, Prod.mk.injEq] at hl
          obtain ⟨x, hx, rfl, rfl⟩ := hl
          obtain ⟨k1, k2, k3⟩ := ih.some x.1 x.2 hx
          exact ⟨k1, by omega, by omega⟩
        · rename_i hc
          have e : look (k + 1) (v.rest.drop i) = if c = '\n' then some (0, '\n') else none := by rw [e2, look, if_neg hc]
          split
          · rename_i hc'
            rw [if_pos hc'] at e
            refine ⟨g1, by rw [e]; simp, fun j d hl => ?_⟩
            rw [e] at hl
            simp at hl
            obtain ⟨rfl, rfl⟩ := hl
            exact ⟨rfl, rfl, g2 hf⟩
          · rename_i hc'
            rw [if_neg hc'] at e
            exact ⟨g1, fun _ => rfl, fun j d hl => by rw [e] at hl; cases hl⟩

theorem columnAt_eq : (s : Str) → (i col : Nat) → columnAt col s i = columnAfter col (s.take i)
  | _, 0, _ => by simp [columnAt, columnAfter]
  | [], _ + 1, _ => rfl
  | c :: s, i + 1, col => by
    rw [columnAt]
    exact columnAt_eq s i _

theorem nextFetched_reads (h : Reads l v) (hi : i ≤ l.next.length) (hn : '\n' ∉ v.rest.take i) : Found v i (v.indent + 1 - columnAfter v.column (v.rest.take i)) (nextFetched l i) := by
  have : v.indent + 1 - columnAfter v.column (v.rest.take i) = l.indent + 1 - columnAt l.column l.next i := by
    rw [columnAt_eq, h.column, h.indent, h.rest, List.append_assoc, List.take_append_of_le_length hi]
  rw [this]
  exact fetchLoop_reads _ _ _ h hi hn

theorem look_ne_end (h : END ∉ v.rest) {k j : Nat} {c : Char} (hl : look k (v.rest.drop i) = some (j, c)) : c ≠ END := by
  intro hc
  apply h
  have := (look_some hl).1
  apply List.mem_of_mem_drop (i := i)
  rw [this, hc]
  simp

theorem is_reads : (p : Str) → '\n' ∉ p.dropLast → (l : Lex) → (i : Nat) → Reads l v → i ≤ l.next.length → '\n' ∉ v.rest.take i →
    (lexIs p l i).1 = (v.skip i).is p ∧ Reads (lexIs p l i).2 v
  | [], _, l, i, h, _, _ => ⟨rfl, h⟩
  | p :: ps, hp, l, i, h, hi, hn => by
    have f := nextFetched_reads h hi hn
    rw [lexIs, View.is]
    simp only
    have hlook : (v.skip i).look = look (v.indent + 1 - columnAfter v.column (v.rest.take i)) (v.rest.drop i) := rfl
    cases hl : (v.skip i).look with
    | none =>
      rw [hlook] at hl
      rw [f.none hl]
      simp only [if_true]
      exact ⟨trivial, f.reads⟩
    | some x =>
      obtain ⟨j, c⟩ := x
      rw [hlook] at hl
      obtain ⟨g1, g2, g3⟩ := f.some j c hl
      rw [g1, if_neg (look_ne_end h.noEnd hl), g2]
      by_cases hpc : p = c
      · rw [if_neg (by simp [hpc])]
        cases ps with
        | nil => simp only [lexIs, View.is, hpc, decide_true, Bool.and_true]; exact ⟨trivial, f.reads⟩
        | cons q qs =>
          have hc : c ≠ '\n' := by
            intro hc
            rw [hpc, hc] at hp
            simp at hp
          have htake : v.rest.take (i + j + 1) = v.rest.take i ++ (List.replicate j ' ' ++ [c]) := by
            have := (look_some hl).1
            rw [Nat.add_assoc, List.take_add, this, List.take_append]
            simp
          obtain ⟨k1, k2⟩ := is_reads (q :: qs) (by simp at hp ⊢; exact hp.2) (nextFetched l i).2.2 (i + j + 1) f.reads g3 (by
            rw [htake]
            simp only [List.mem_append, List.mem_singleton, not_or, List.mem_replicate]
            exact ⟨hn, fun hh => absurd hh.2 (by decide), fun hh => hc hh.symm⟩)
          refine ⟨?_, k2⟩
          rw [k1]
          simp only [hpc, decide_true, Bool.true_and]
          congr 1
          unfold View.skip
          simp only [View.mk.injEq, List.drop_drop, and_true]
          refine ⟨by rw [Nat.add_assoc], ?_⟩
          rw [← columnAfter_append, Nat.add_assoc, ← List.take_add]
      · rw [if_pos (by simpa using hpc)]
        exact ⟨by simp [hpc], f.reads⟩

/-- The lexer of the program cannot be told apart from the text of its files. -/
theorem reads_sim : Sim Lex.lexer View.lexer Reads where
  char l v h := by
    have f := nextFetched_reads (i := 0) h (Nat.zero_le _) (by simp)
    refine ⟨?_, f.reads⟩
    show (nextFetched l 0).1 = match v.look with | none => END | some x => x.2
    have e : v.look = look (v.indent + 1 - columnAfter v.column (v.rest.take 0)) (v.rest.drop 0) := rfl
    rw [e]
    cases hl : look (v.indent + 1 - columnAfter v.column (v.rest.take 0)) (v.rest.drop 0) with
    | none => exact f.none hl
    | some x => exact (f.some x.1 x.2 hl).1
  is p hp l v h := is_reads p (by revert p; decide) l 0 h (Nat.zero_le _) (by simp)
  advance l v h := by
    have f := nextFetched_reads (i := 0) h (Nat.zero_le _) (by simp)
    have e : v.look = look (v.indent + 1 - columnAfter v.column (v.rest.take 0)) (v.rest.drop 0) := rfl
    show (lexAdvance l = none ∧ v.look.map (fun x => v.skip (x.1 + 1)) = none) ∨ ∃ s t, lexAdvance l = some s ∧ v.look.map (fun x => v.skip (x.1 + 1)) = some t ∧ Reads s t
    rw [e]
    unfold lexAdvance
    simp only
    cases hl : look (v.indent + 1 - columnAfter v.column (v.rest.take 0)) (v.rest.drop 0) with
    | none =>
      rw [f.none hl]
      simp
    | some x =>
      obtain ⟨j, c⟩ := x
      obtain ⟨g1, g2, g3⟩ := f.some j c hl
      simp only [Nat.zero_add] at g2 g3
      rw [g1, if_neg (look_ne_end h.noEnd hl), g2]
      refine .inr ⟨_, _, rfl, rfl, ?_⟩
      have hr := f.reads
      have hrest : v.rest = (nextFetched l 0).2.2.next ++ ((nextFetched l 0).2.2.fin.getD [] ++ (nextFetched l 0).2.2.inputs.flatten) := by rw [hr.rest, List.append_assoc]
      refine ⟨?_, ?_, hr.indent, ?_, ?_, hr.files⟩
      · unfold View.skip
        simp only
        rw [hrest, List.drop_append_of_le_length (by omega), List.append_assoc]
      · unfold View.skip
        simp only
        rw [hr.column, hrest, List.take_append_of_le_length (by omega)]
      · intro hm
        exact h.noEnd (List.mem_of_mem_drop hm)
      · simp only
        have e : ((nextFetched l 0).2.2.next ++ (nextFetched l 0).2.2.fin.getD []).drop (j + 1) = (nextFetched l 0).2.2.next.drop (j + 1) ++ (nextFetched l 0).2.2.fin.getD [] :=
          List.drop_append_of_le_length g3
        rw [← e]
        generalize hs : (nextFetched l 0).2.2.next ++ (nextFetched l 0).2.2.fin.getD [] = s
        have hlen : j + 1 ≤ s.length := by rw [← hs]; simp; omega
        have htake : (nextFetched l 0).2.2.next.take (j + 1) = s.take (j + 1) := by rw [← hs, List.take_append_of_le_length (by omega)]
        rw [htake]
        rcases hr.file with hh | hh
        · rw [hs] at hh
          rw [hh.1] at hlen
          simp at hlen
        · rw [hs] at hh
          obtain ⟨r, rfl⟩ := hh
          by_cases hj : j + 1 ≤ r.length
          · exact .inr ⟨r.drop (j + 1), by rw [List.drop_append_of_le_length hj]⟩
          · refine .inl ⟨?_, ?_⟩
            · apply List.drop_eq_nil_of_le; simp at hlen ⊢; omega
            · rw [List.take_of_length_le (by simp at hlen ⊢; omega), columnAfter_append]
              rfl
  column l v h := by
    show l.column = 1 ↔ v.column = 1
    rw [h.column]
  deeper l v h := ⟨h.rest, h.column, by simp [Lex.lexer, View.lexer, h.indent], h.noEnd, h.file, h.files⟩
  shallower l v h _ := ⟨h.rest, h.column, by simp [Lex.lexer, View.lexer, h.indent], h.noEnd, h.file, h.files⟩

theorem openNext_indent : (fs : List Str) → (l : Lex) → (openNext l fs).2.indent = l.indent
  | [], _ => rfl
  | [] :: fs, l => by rw [openNext, openNext_indent fs]
  | (_ :: _) :: _, _ => rfl

theorem getC_indent (l : Lex) : (getC l).2.indent = l.indent := by
  unfold getC
  split
  · rfl
  · split
    · exact openNext_indent _ _
    · rfl

theorem fetch_indent (l : Lex) (i : Nat) : (fetch l i).2.indent = l.indent := by
  unfold fetch
  split
  · simp only
    split <;> exact getC_indent l
  · rfl

theorem fetchLoop_indent : (k : Nat) → (l : Lex) → (i : Nat) → (fetchLoop k l i).2.2.indent = l.indent
  | k, l, i => by
    rw [fetchLoop.eq_def]
    simp only
    split
    · exact fetch_indent l i
    · cases k with
      | zero => exact fetch_indent l i
      | succ k =>
        simp only
        split
        · rw [fetchLoop_indent k, fetch_indent]
        · split <;> exact fetch_indent l i

theorem lexIs_indent : (p : Str) → (l : Lex) → (i : Nat) → (lexIs p l i).2.indent = l.indent
  | [], _, _ => rfl
  | p :: ps, l, i => by
    rw [lexIs]
    simp only
    split
    · exact fetchLoop_indent _ _ _
    · split
      · exact fetchLoop_indent _ _ _
      · rw [lexIs_indent ps]
        exact fetchLoop_indent _ _ _

theorem Lex.lawful : Lawful Lex.lexer where
  char l := fetchLoop_indent _ _ _
  is p l := lexIs_indent p l 0
  advance l l' h := by
    simp only [Lex.lexer, lexAdvance] at h
    split at h
    · cases h
    · cases h
      exact fetchLoop_indent _ _ _
  set _ _ := rfl

end Verif.FbldParse
