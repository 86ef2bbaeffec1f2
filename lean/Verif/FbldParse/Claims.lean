import Verif.FbldParse.Law
/-!
# Properties of the fbld parser
-/
namespace Verif.FbldParse
open Fbld (Str Markup)

/-- The parser ends with this result: with any number of steps that suffices. -/
def Parses (files : List Str) (x : PRes Markup) : Prop := ∃ N, ∀ n, N ≤ n → fbldParse n files = x

theorem Parses.unique {files : List Str} {x y : PRes Markup} (h : Parses files x) (g : Parses files y) : x = y := by
  obtain ⟨N, hN⟩ := h
  obtain ⟨M, hM⟩ := g
  rw [← hN (max N M) (by omega), ← hM (max N M) (by omega)]

theorem parses_of {n : Nat} {files : List Str} {x : PRes Markup} (h : fbldParse n files = x) (hx : x ≠ .more) : Parses files x :=
  ⟨n, fun m hm => by rw [fbldParse_le hm (by rw [h]; exact hx), h]⟩

mutual
/-- The same markup; only used to compute examples. -/
def same : Markup → Markup → Bool
  | .plain s, .plain t => decide (s = t)
  | .cmd s as, .cmd t bs => decide (s = t) && sameAll as bs
  | .seq as, .seq bs => sameAll as bs
  | _, _ => false
def sameAll : List Markup → List Markup → Bool
  | [], [] => true
  | a :: as, b :: bs => same a b && sameAll as bs
  | _, _ => false
end

mutual
theorem same_eq : (a b : Markup) → same a b = true → a = b
  | .plain s, .plain t, h => by simp only [same, decide_eq_true_eq] at h; rw [h]
  | .cmd s as, .cmd t bs, h => by simp only [same, Bool.and_eq_true, decide_eq_true_eq] at h; rw [h.1, sameAll_eq as bs h.2]
  | .seq as, .seq bs, h => by simp only [same] at h; rw [sameAll_eq as bs h]
  | .plain _, .cmd _ _, h => by simp [same] at h
  | .plain _, .seq _, h => by simp [same] at h
  | .cmd _ _, .plain _, h => by simp [same] at h
  | .cmd _ _, .seq _, h => by simp [same] at h
  | .seq _, .plain _, h => by simp [same] at h
  | .seq _, .cmd _ _, h => by simp [same] at h
theorem sameAll_eq : (as bs : List Markup) → sameAll as bs = true → as = bs
  | [], [], _ => rfl
  | a :: as, b :: bs, h => by simp only [sameAll, Bool.and_eq_true] at h; rw [same_eq a b h.1, sameAll_eq as bs h.2]
  | [], _ :: _, h => by simp [sameAll] at h
  | _ :: _, [], h => by simp [sameAll] at h
end

/-- The result of some steps, compared. -/
def gives (n : Nat) (files : List Str) (x : PRes Markup) : Bool :=
  match fbldParse n files, x with
  | .ok a, .ok b => same a b
  | .error, .error => true
  | .crash, .crash => true
  | _, _ => false

theorem parses_gives (n : Nat) {files : List Str} {x : PRes Markup} (h : gives n files x = true) : Parses files x := by
  unfold gives at h
  split at h
  · rename_i e; rw [← same_eq _ _ h]; exact parses_of e (by simp)
  · rename_i e; exact parses_of e (by simp)
  · rename_i e; exact parses_of e (by simp)
  · cases h

/-! ### Several files -/

/-- Files are read as if they were one, when each of them ends with a complete line. -/
theorem C73_files {files files' : List Str} (h : Complete files) (h' : Complete files') (he : files.flatten = files'.flatten) (n : Nat) : fbldParse n files = fbldParse n files' := by
  rw [fbldParse_text h, fbldParse_text h', he]

theorem C73_files_concrete : Complete ["@foo @\n b\n".toList, [], " c\n".toList] ∧ Parses ["@foo @\n b\n".toList, [], " c\n".toList] (.ok (.seq [.cmd "foo".toList [.plain "b\nc\n".toList]])) :=
  ⟨⟨by simp, by
    intro f hf
    simp only [List.mem_cons, List.not_mem_nil, or_false] at hf
    rcases hf with rfl | rfl | rfl
    · exact .inr ⟨"@foo @\n b".toList, by decide +kernel⟩
    · exact .inl rfl
    · exact .inr ⟨" c".toList, by decide +kernel⟩, by decide +kernel⟩, parses_gives 30 (by decide +kernel)⟩

/-- Not when the last line of a file is not complete: the rest of the line is in the next file, and the parser stops with a failed
assertion. -/
theorem C73_violated : Parses ["@foo @\n b".toList, "x\n".toList] .crash ∧ Parses ["@foo @\n bx\n".toList] (.ok (.seq [.cmd "foo".toList [.plain "bx\n".toList]])) :=
  ⟨parses_gives 30 (by decide +kernel), parses_gives 30 (by decide +kernel)⟩

/-! ### The parser ends -/

theorem lines_flatten : (files : List Str) → (∀ f ∈ files, f = [] ∨ EndsNl f) → Lines files.flatten
  | [], _ => .nil
  | f :: fs, h => by
    rw [List.flatten_cons]
    exact .append (h f (List.mem_cons_self ..)) (lines_flatten fs fun g hg => h g (List.mem_cons_of_mem _ hg))

theorem Complete.flat_lines {files : List Str} (h : Complete files) : Lines files.flatten := lines_flatten files h.lines
theorem Complete.flat_noEnd {files : List Str} (h : Complete files) : NoEnd files.flatten := by
  intro hm
  obtain ⟨f, hf, hc⟩ := List.mem_flatten.1 hm
  exact h.noEnd f hf hc

/-- On complete files the parser ends, with a document or with an error; it does not stop in any other way. The number of steps is
linear in the length of the text. -/
theorem C74_ends {files : List Str} (h : Complete files) {n : Nat} (hn : 4 * files.flatten.length + 6 ≤ n) :
    fbldParse n files = .error ∨ ∃ doc, fbldParse n files = .ok doc := by
  rw [fbldParse_text h]
  exact parseText_ends h.flat_noEnd h.flat_lines hn

/-- So there is exactly one result. -/
theorem C74_result {files : List Str} (h : Complete files) : Parses files .error ∨ ∃ doc, Parses files (.ok doc) := by
  rcases C74_ends h (Nat.le_refl _) with h | ⟨doc, h⟩
  · exact .inl (parses_of h (by simp))
  · exact .inr ⟨doc, parses_of h (by simp)⟩

theorem complete_one {s : Str} (hl : Lines s) (he : NoEnd s) : Complete [s] :=
  ⟨by simp, by intro f hf; simp only [List.mem_singleton] at hf; exact hf ▸ hl, by intro f hf; simp only [List.mem_singleton] at hf; exact hf ▸ he⟩

/-- Both results are possible. -/
theorem C74_concrete : (Complete ["@foo[a b\n".toList] ∧ Parses ["@foo[a b\n".toList] .error) ∧
    Complete ["@foo[a b]\n".toList] ∧ Parses ["@foo[a b]\n".toList] (.ok (.seq [.cmd "foo".toList [.plain "a b".toList]])) :=
  ⟨⟨complete_one (.inr ⟨"@foo[a b".toList, rfl⟩) (by unfold NoEnd; decide +kernel), parses_gives 30 (by decide +kernel)⟩,
   complete_one (.inr ⟨"@foo[a b]".toList, rfl⟩) (by unfold NoEnd; decide +kernel), parses_gives 30 (by decide +kernel)⟩

/-- Without the newline at the end of the last line, there is a failed assertion. -/
theorem C74_violated : Parses ["@foo bar".toList] .crash := parses_gives 30 (by decide +kernel)

/-! ### What is written is what is read -/

theorem doc_complete {d : Doc} (h : d.ok = true) (g : Nat) : Complete [newlines g ++ d.print] :=
  complete_one (.append (.newlines g) (doc_lines d h)) (.append .newlines (doc_noEnd d h))

/-- A document that is written as the manual says is read as what it means, however it is divided into files. -/
theorem C75_grammar {d : Doc} (h : d.ok = true) {g : Nat} {files : List Str} (hf : Complete files) (he : files.flatten = newlines g ++ d.print) :
    Parses files (.ok d.value) := by
  have hg := block_gives (d := d) (g0 := g) (g := 0) fun ms => doc_gives d h g 0 ms
  obtain ⟨N, hN⟩ := hg.run
  refine ⟨N, fun n hn => ?_⟩
  rw [fbldParse_text hf, he, parseText_top]
  · have := hN n hn
    simp only [newlines, List.replicate_zero, List.append_nil] at this
    rw [top, newlines, this]; rfl
  · intro r e
    cases g with
    | succ g => cases e
    | zero =>
      cases hn : d.isNil with
      | true =>
        cases d with
        | nil => simp [newlines, Doc.print] at e
        | _ => cases hn
      | false =>
        obtain ⟨c, s, h1, h2⟩ := doc_starts h hn
        rw [h1] at e
        cases e
        exact h2.space rfl

/-- The text of a document determines what it means. -/
theorem C75_unambiguous {d d' : Doc} (h : d.ok = true) (h' : d'.ok = true) (e : d.print = d'.print) : d.value = d'.value := by
  have h1 := C75_grammar h (g := 0) (doc_complete h 0) (by simp)
  have h2 := C75_grammar h' (g := 0) (doc_complete h 0) (by simp [e])
  have := h1.unique h2
  injection this

/-- A paragraph, and a command with arguments of all kinds. -/
def example1 : Doc :=
  .para false (.chr 'A' (.chr ' ' (.cmd "b".toList (.inline (.chr 'c' (.esc ']' .nil)) (.literal "{@}".toList .nil)) (.chr '\n' .nil)))) 1
    (.cmd "foo".toList (.seg (.inline (.chr 'x' .nil) .nil) (some (.chr 'y' (.chr ' ' (.chr 'z' .nil))))
      (.next (.para false (.chr 'p' (.chr '\n' .nil)) 2 (.cmd "q".toList (.seg .nil none (.literal "  r\n\ns\n".toList .done)) 0 .nil))
        (.again (.seg .nil (some (.chr 't' .nil)) (.line (.final 1 (.para true (.cmd "u".toList .nil (.chr '\n' .nil)) 0 .nil))))))) 0 .nil)

theorem C75_concrete : example1.ok = true ∧
    example1.print = "A @b[c\\]]{{@}}\n\n@foo[x] y z\n p\n\n\n @q @\n    r\n\n  s\n@ t\n@@\n\n@@u\n".toList ∧
    example1.value = .seq [.cmd ".block".toList [.seq [.plain "A ".toList, .cmd "b".toList [.plain "c]".toList, .plain "{@}".toList], .plain "\n".toList]],
      .cmd "foo".toList [.plain "x".toList, .plain "y z".toList,
        .seq [.cmd ".block".toList [.plain "p\n".toList], .cmd "q".toList [.plain "  r\n\ns\n".toList]],
        .plain "t".toList, .seq [.cmd ".block".toList [.seq [.cmd "u".toList [], .plain "\n".toList]]]]] :=
  ⟨by decide +kernel, by decide +kernel, same_eq _ _ (by decide +kernel)⟩

/-! ### Indentation -/

/-- The text does not start with a line that is a single space: at the start of the first file, the parser takes this for a blank line. -/
def NoBlank (s : Str) : Prop := ∀ r, s ≠ ' ' :: '\n' :: r

theorem parses_goes {s : Str} (hc : Complete [s]) (hb : NoBlank s) {x : PRes Markup} (h : Parses [s] x) (hx : x ≠ .more) :
    ∃ y, y.value = x ∧ Goes (fun n => parseBlock View.lexer n) ⟨s, 1, 0⟩ y := by
  obtain ⟨N, hN⟩ := h
  have := hN N (Nat.le_refl _)
  rw [fbldParse_text hc, List.flatten_cons, List.flatten_nil, List.append_nil, parseText_top hb] at this
  refine ⟨_, this, goes_of (n := N) (fun n => (block_le n).2.1) rfl ?_⟩
  intro e
  rw [show parseBlock View.lexer N (top s) = .more from e] at this
  exact hx this.symm

theorem goes_parses {s : Str} (hc : Complete [s]) (hb : NoBlank s) {y : PRes (Markup × View)} (h : Goes (fun n => parseBlock View.lexer n) ⟨s, 1, 0⟩ y) : Parses [s] y.value := by
  obtain ⟨N, hN⟩ := h.run
  refine ⟨N, fun n hn => ?_⟩
  rw [fbldParse_text hc, List.flatten_cons, List.flatten_nil, List.append_nil, parseText_top hb, top, hN n hn]

theorem indented_lines {b : Bool} {t t' : Str} (h : Indented b t t') : Lines t → Lines t' := by
  induction h with
  | nil => exact id
  | @line c t t' hc h ih => intro hl; exact (ih hl).cons (by rintro rfl; cases h)
  | @blank t t' h ih =>
    intro hl
    rcases hl with hl | hl
    · cases hl
    · rcases EndsNl.tail hl with ⟨rfl, -⟩ | ht
      · exact (ih .nil).nl
      · exact (ih (.inr ht)).nl
  | @blankSpace t t' h ih =>
    intro hl
    refine Lines.cons (c := ' ') ?_ (by simp)
    rcases hl with hl | hl
    · cases hl
    · rcases EndsNl.tail hl with ⟨rfl, -⟩ | ht
      · exact (ih .nil).nl
      · exact (ih (.inr ht)).nl
  | @char c t t' h ih =>
    intro hl
    rcases hl with hl | hl
    · cases hl
    · rcases EndsNl.tail hl with ⟨rfl, rfl⟩ | ht
      · exact (ih .nil).nl
      · refine (ih (.inr ht)).cons ?_
        intro e
        rw [e] at h
        have : t = [] := by
          generalize hb : decide (c = '\n') = b at h
          cases h; rfl
        exact endsNl_ne ht this

theorem indented_noEnd {b : Bool} {t t' : Str} (h : Indented b t t') : NoEnd t → NoEnd t' := by
  induction h with
  | nil => exact id
  | line _ _ ih => intro hn; exact .cons (by decide) (ih hn)
  | blank _ ih => intro hn; exact .cons (by decide) (ih fun hm => hn (List.mem_cons_of_mem _ hm))
  | blankSpace _ ih => intro hn; exact .cons (by decide) (.cons (by decide) (ih fun hm => hn (List.mem_cons_of_mem _ hm)))
  | char _ ih => intro hn; exact .cons (fun e => hn (by simp [e])) (ih fun hm => hn (List.mem_cons_of_mem _ hm))

/-- A command with an indented argument and what follows it. -/
def withBlock (name block rest : Str) : Str := '@' :: (name ++ '\n' :: (block ++ rest))

section
variable {name text block rest : Str} (hn : okName name = true) (ht : Complete [text]) (hb : NoBlank text)
  (hi : Indented true text (' ' :: block)) (hc : Complete [rest]) (hr : NotPart rest)
include hn ht hb hi hc hr

theorem withBlock_complete : Complete [withBlock name (' ' :: block) rest] := by
  have h1 := ht.flat_lines
  have h2 := ht.flat_noEnd
  have h3 := hc.flat_lines
  have h4 := hc.flat_noEnd
  simp only [List.flatten_cons, List.flatten_nil, List.append_nil] at h1 h2 h3 h4
  refine complete_one ?_ (.cons (by decide) (.append (.name hn) (.cons (by decide) (.append (indented_noEnd hi h2) h4))))
  exact Lines.after (a := '@' :: name) (Lines.nl ((indented_lines hi h1).append h3)) (by simp)

theorem withBlock_noBlank : NoBlank (withBlock name (' ' :: block) rest) := fun r e => by cases e

theorem rest_noBlank : NoBlank rest := fun r e => (hr.unindented _ _ e).1 rfl

/-- Every text that is a document, indented, is the argument of a command with that document, and the text after it is read as without
the command. -/
theorem C76_indent {doc : Markup} {more : List Markup} (h : Parses [text] (.ok doc)) (hm : Parses [rest] (.ok (.seq more))) :
    Parses [withBlock name (' ' :: block) rest] (.ok (.seq (.cmd name [doc] :: more))) := by
  obtain ⟨y, hy, hg⟩ := parses_goes ht hb h (by simp)
  obtain ⟨z, hz, hg'⟩ := parses_goes hc (rest_noBlank hn ht hb hi hc hr) hm (by simp)
  have h1 := ht.flat_lines
  have h2 := ht.flat_noEnd
  simp only [List.flatten_cons, List.flatten_nil, List.append_nil] at h1 h2
  cases y with
  | ok y =>
    obtain ⟨a, v⟩ := y
    cases hy
    have := law_ok hn h1 h2 hi hr hg hg'
    have e : (prepend [.cmd name [doc]] z).value = .ok (.seq (.cmd name [doc] :: more)) := by
      cases z with
      | ok z => obtain ⟨b, w⟩ := z; cases hz; rfl
      | error => cases hz
      | crash => cases hz
      | more => cases hz
    rw [← e]
    exact goes_parses (withBlock_complete hn ht hb hi hc hr) (withBlock_noBlank hn ht hb hi hc hr) this
  | error => cases hy
  | crash => cases hy
  | more => cases hy

/-- If the text is not a document, then also not the text with the command. -/
theorem C76_indent_error (h : Parses [text] .error) : Parses [withBlock name (' ' :: block) rest] .error := by
  obtain ⟨y, hy, hg⟩ := parses_goes ht hb h (by simp)
  have h1 := ht.flat_lines
  simp only [List.flatten_cons, List.flatten_nil, List.append_nil] at h1
  cases y with
  | ok y => cases hy
  | error => exact goes_parses (withBlock_complete hn ht hb hi hc hr) (withBlock_noBlank hn ht hb hi hc hr) (law_error hn h1 hi hr.unindented hg)
  | crash => cases hy
  | more => cases hy

/-- Neither if what follows is not a document. -/
theorem C76_rest_error {doc : Markup} (h : Parses [text] (.ok doc)) (hm : Parses [rest] .error) : Parses [withBlock name (' ' :: block) rest] .error := by
  obtain ⟨y, hy, hg⟩ := parses_goes ht hb h (by simp)
  obtain ⟨z, hz, hg'⟩ := parses_goes hc (rest_noBlank hn ht hb hi hc hr) hm (by simp)
  have h1 := ht.flat_lines
  have h2 := ht.flat_noEnd
  simp only [List.flatten_cons, List.flatten_nil, List.append_nil] at h1 h2
  cases y with
  | ok y =>
    obtain ⟨a, v⟩ := y
    have := law_ok hn h1 h2 hi hr hg hg'
    cases z with
    | ok z => cases hz
    | error => exact goes_parses (withBlock_complete hn ht hb hi hc hr) (withBlock_noBlank hn ht hb hi hc hr) this
    | crash => cases hz
    | more => cases hz
  | error => cases hy
  | crash => cases hy
  | more => cases hy
end

/-- The text need not be one that the grammar describes: here it starts with a space and has a command without a name. -/
theorem C76_concrete : okName "foo".toList = true ∧ Complete ["  a\n\n\n@ b\n c\n".toList] ∧ NoBlank "  a\n\n\n@ b\n c\n".toList ∧
    Indented true "  a\n\n\n@ b\n c\n".toList (' ' :: "  a\n\n \n @ b\n  c\n".toList) ∧ Complete ["@bar\n".toList] ∧ NotPart "@bar\n".toList ∧
    Parses ["  a\n\n\n@ b\n c\n".toList] (.ok (.seq [.cmd ".block".toList [.plain "  a\n".toList], .cmd [] [.plain "b".toList, .seq [.cmd ".block".toList [.plain "c\n".toList]]]])) ∧
    Parses ["@bar\n".toList] (.ok (.seq [.cmd "bar".toList []])) ∧
    withBlock "foo".toList (' ' :: "  a\n\n \n @ b\n  c\n".toList) "@bar\n".toList = "@foo\n   a\n\n \n @ b\n  c\n@bar\n".toList := by
  refine ⟨by decide +kernel, complete_one (.inr ⟨"  a\n\n\n@ b\n c".toList, rfl⟩) (by unfold NoEnd; decide +kernel), (by intro r e; cases e), ?_,
    complete_one (.inr ⟨"@bar".toList, rfl⟩) (by unfold NoEnd; decide +kernel), ⟨(by intro c s e; cases e; decide), rfl, by decide +kernel⟩,
    parses_gives 40 (by decide +kernel), parses_gives 20 (by decide +kernel), by decide +kernel⟩
  exact .line (by decide) (.char (.char (.char (.char (.blank (.blankSpace (.line (by decide) (.char (.char (.char (.char (.line (by decide) (.char (.char (.char .nil)))))))))))))))

theorem C76_error_concrete : Complete ["a\n@b[\n".toList] ∧ Indented true "a\n@b[\n".toList (' ' :: "a\n @b[\n".toList) ∧ Parses ["a\n@b[\n".toList] .error :=
  ⟨complete_one (.inr ⟨"a\n@b[".toList, rfl⟩) (by unfold NoEnd; decide +kernel),
   .line (by decide) (.char (.char (.line (by decide) (.char (.char (.char (.char .nil))))))), parses_gives 40 (by decide +kernel)⟩

/-- The line that is a single space, where the text and the indented text are not read in the same way. -/
theorem C76_violated : Parses [" \na\n".toList] (.ok (.seq [.cmd ".block".toList [.plain "a\n".toList]])) ∧
    Parses ["@foo\n  \n a\n".toList] (.ok (.seq [.cmd "foo".toList [.seq [.cmd ".block".toList [.plain " \na\n".toList]]]])) :=
  ⟨parses_gives 40 (by decide +kernel), parses_gives 40 (by decide +kernel)⟩

end Verif.FbldParse
