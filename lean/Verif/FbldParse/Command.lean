import Verif.FbldParse.Claims
import Verif.Fbld.Crash
import Verif.Fbld.Text
/-
C92: the command fbld, from the texts of its input files to what it prints and its exit status.

The model puts together those of the parser (`FbldParse`), of the evaluator and of the printer (`Fbld`).
-/
namespace Verif.FbldParse
open Fbld (Str Markup Tree Returns Fails Crashes printMarkup embed eval text items untilCmd)

/-- How the command ends: with an exit status, and what it has written to stdout; or by a signal. -/
inductive Ends where
  | exit (status : Nat) (printed : Str)
  | crash

/-- `main`, fbld/fbld.c:21-46, when the files named on the command line have these texts.  Not modelled: files that cannot be opened (the parser calls `abort` when it comes to one,
fbld/parse.c:98-102), and what is written to stderr. -/
inductive FbldMain (files : List Str) : Ends → Prop where
  | notParsed : Parses files .error → FbldMain files (.exit 1 [])
  | parseCrash : Parses files .crash → FbldMain files .crash
  | notEvaluated {doc} : Parses files (.ok doc) → Fails doc → FbldMain files (.exit 1 [])
  | evalCrash {doc c} : Parses files (.ok doc) → Crashes doc c → FbldMain files .crash
  | printed {doc t out ok} : Parses files (.ok doc) → Returns doc t → printMarkup t = some (out, ok) → FbldMain files (.exit (if ok then 0 else 1) out)
  | printCrash {doc t} : Parses files (.ok doc) → Returns doc t → printMarkup t = none → FbldMain files .crash

/-! ### Proofs -/

/-- Runs of the evaluator end in one way. -/
theorem eval_unique {m : Markup} : (∀ t, Returns m t → ¬ Fails m ∧ (∀ c, ¬ Crashes m c) ∧ ∀ t', Returns m t' → t = t') ∧ (Fails m → ∀ c, ¬ Crashes m c) := by
  have tail : ∀ {j : Nat} {s : Fbld.State} {r}, s.stack = [] → Fbld.steps j s = r → r = .halt ∨ (j = 0 ∧ r = .run s) := by
    intro j s r hs h
    cases j with
    | zero => exact .inr ⟨rfl, h.symm⟩
    | succ j =>
      left
      rw [← h, Fbld.steps]
      have : Fbld.step s = .halt := by rw [Fbld.step, hs]
      rw [this]
  have split : ∀ {n k : Nat} {s : Fbld.State}, Fbld.steps n (Fbld.start m) = .run s → s.stack = [] → n ≤ k → ∀ {r}, Fbld.steps k (Fbld.start m) = r → r = .halt ∨ r = .run s := by
    intro n k s h hs hn r hr
    obtain ⟨d, rfl⟩ : ∃ d, k = n + d := ⟨k - n, by omega⟩
    rw [Fbld.steps_add, h] at hr
    rcases tail hs hr with h | ⟨-, h⟩
    · exact .inl h
    · exact .inr h
  have same : ∀ {n k : Nat} {s t : Fbld.State}, Fbld.steps n (Fbld.start m) = .run s → s.stack = [] → Fbld.steps k (Fbld.start m) = .run t → t.stack = [] → s = t := by
    intro n k s t h hs h' ht
    rcases Nat.le_total n k with hn | hn
    · rcases split h hs hn h' with e | e <;> cases e; rfl
    · rcases split h' ht hn h with e | e <;> cases e; rfl
  have nocrash : ∀ {n k : Nat} {s : Fbld.State} {c}, Fbld.steps n (Fbld.start m) = .run s → s.stack = [] → Fbld.steps k (Fbld.start m) = .crash c → False := by
    intro n k s c h hs hc
    rcases Nat.le_total n k with hn | hn
    · rcases split h hs hn hc with e | e <;> cases e
    · obtain ⟨d, rfl⟩ : ∃ d, n = k + d := ⟨n - k, by omega⟩
      rw [Fbld.steps_add, hc] at h
      cases h
  refine ⟨?_, ?_⟩
  · rintro t ⟨n, s, h1, h2, h3, h4⟩
    refine ⟨?_, ?_, ?_⟩
    · rintro ⟨k, u, g1, g2, g3⟩
      obtain rfl := same h1 h2 g1 g2
      rw [h3] at g3
      cases g3
    · rintro c ⟨k, hc⟩
      exact nocrash h1 h2 hc
    · rintro t' ⟨k, u, g1, g2, g3, g4⟩
      obtain rfl := same h1 h2 g1 g2
      rw [h4] at g4
      exact Option.some.inj g4
  · rintro ⟨n, s, h1, h2, h3⟩ c ⟨k, hc⟩
    exact nocrash h1 h2 hc

/-- The command ends in only one way. -/
theorem FbldMain.unique {files o o'} (h : FbldMain files o) (h' : FbldMain files o') : o = o' := by
  cases h with
  | notParsed h =>
    cases h' with
    | notParsed => rfl
    | parseCrash g => cases h.unique g
    | notEvaluated g | evalCrash g | printed g | printCrash g => cases h.unique g
  | parseCrash h =>
    cases h' with
    | parseCrash => rfl
    | notParsed g => cases h.unique g
    | notEvaluated g | evalCrash g | printed g | printCrash g => cases h.unique g
  | notEvaluated h1 h2 =>
    cases h' with
    | notParsed g | parseCrash g => cases h1.unique g
    | notEvaluated => rfl
    | evalCrash g1 g2 => cases h1.unique g1; exact absurd g2 (eval_unique.2 h2 _)
    | printed g1 g2 | printCrash g1 g2 => cases h1.unique g1; exact absurd h2 (eval_unique.1 _ g2).1
  | evalCrash h1 h2 =>
    cases h' with
    | notParsed g | parseCrash g => cases h1.unique g
    | notEvaluated g1 g2 => cases h1.unique g1; exact absurd h2 (eval_unique.2 g2 _)
    | evalCrash => rfl
    | printed g1 g2 | printCrash g1 g2 => cases h1.unique g1; exact absurd h2 ((eval_unique.1 _ g2).2.1 _)
  | printed h1 h2 h3 =>
    cases h' with
    | notParsed g | parseCrash g => cases h1.unique g
    | notEvaluated g1 g2 => cases h1.unique g1; exact absurd g2 (eval_unique.1 _ h2).1
    | evalCrash g1 g2 => cases h1.unique g1; exact absurd g2 ((eval_unique.1 _ h2).2.1 _)
    | printed g1 g2 g3 =>
      cases h1.unique g1
      obtain rfl := (eval_unique.1 _ h2).2.2 _ g2
      rw [h3] at g3
      cases g3
      rfl
    | printCrash g1 g2 g3 =>
      cases h1.unique g1
      obtain rfl := (eval_unique.1 _ h2).2.2 _ g2
      rw [h3] at g3
      cases g3
  | printCrash h1 h2 h3 =>
    cases h' with
    | notParsed g | parseCrash g => cases h1.unique g
    | notEvaluated g1 g2 => cases h1.unique g1; exact absurd g2 (eval_unique.1 _ h2).1
    | evalCrash g1 g2 => rfl
    | printed g1 g2 g3 =>
      cases h1.unique g1
      obtain rfl := (eval_unique.1 _ h2).2.2 _ g2
      rw [h3] at g3
      cases g3
    | printCrash => rfl

theorem main_iff {files o} (h : FbldMain files o) (o') : FbldMain files o' ↔ o' = o := ⟨fun h' => h'.unique h, fun e => e ▸ h⟩

theorem untilCmd_none : {l : List (Option Char)} → l.mapM id = none → (untilCmd l).2 = false
  | [], h => by simp at h
  | none :: l, _ => rfl
  | some c :: l, h => by
    have : l.mapM id = none := by
      cases hl : l.mapM id with
      | none => rfl
      | some x => simp [hl] at h
    simpa [untilCmd] using untilCmd_none this

/-- C92, a value: when the files contain a document with the value `v`, then the command prints the text of it, and exits with 0; if a command is left in the value, then only what is in front of
the first is printed, and the exit status is 1.  Or the assertion of C52 fails. -/
theorem C92_value {files doc} (h : Parses files (.ok doc)) {n v} (hv : eval n [] doc = .ok v) :
    (∀ o, FbldMain files o ↔ o = match text v with
      | some s => .exit 0 s
      | none => .exit 1 (untilCmd (items v)).1) ∨
    ((∀ o, FbldMain files o ↔ o = .crash) ∧ Crashes doc .assertion) := by
  rcases Fbld.C50_complete doc v n hv with hr | hc
  · left
    intro o
    have hp := Fbld.C52_print v
    have hm := FbldMain.printed (out := (untilCmd (items v)).1) (ok := (untilCmd (items v)).2) h hr hp
    rw [main_iff hm]
    cases ht : text v with
    | some s =>
      have := Fbld.C52_print_text v s ht
      rw [hp] at this
      simp only [Option.some.injEq] at this
      simp [this]
    | none =>
      have := untilCmd_none ht
      simp [this]
  · exact .inr ⟨main_iff (.evalCrash h hc), hc⟩

/-- C92, errors: when the files do not contain a document, the exit status is 1 and nothing is printed.  When evaluating the document meets an error, the same, if the command ends by itself. -/
theorem C92_error {files} : (Parses files .error → ∀ o, FbldMain files o ↔ o = .exit 1 []) ∧
    ∀ {doc n}, Parses files (.ok doc) → eval n [] doc = .err → ∀ o, FbldMain files o → o = .exit 1 [] ∨ o = .crash := by
  refine ⟨fun h => main_iff (.notParsed h), fun h he o ho => ?_⟩
  cases ho with
  | notParsed | parseCrash => simp
  | notEvaluated => exact .inl rfl
  | evalCrash | printCrash => exact .inr rfl
  | printed g1 g2 =>
    cases h.unique g1
    exact absurd g2 (Fbld.C50_error _ _ he _)

/-- C92, the exit status tells: it is 0 only if the files contain a document whose evaluation meets no error and leaves no command, and then its text is what was printed; it is never anything but 0 or 1,
and with 1 the files do not contain a document, or evaluating it meets an error, or its value contains a command, and what was printed is the text in front of it. -/
theorem C92_status {files status out} (h : FbldMain files (.exit status out)) :
    (status = 0 ∧ ∃ doc n v, Parses files (.ok doc) ∧ eval n [] doc = .ok v ∧ text v = some out) ∨
    (status = 1 ∧ ((out = [] ∧ (Parses files .error ∨ ∃ doc n, Parses files (.ok doc) ∧ eval n [] doc = .err)) ∨
      ∃ doc n v rest, Parses files (.ok doc) ∧ eval n [] doc = .ok v ∧ items v = out.map some ++ none :: rest)) := by
  have spl : ∀ l : List (Option Char), (untilCmd l).2 = false → ∃ rest, l = (untilCmd l).1.map some ++ none :: rest := by
    intro l
    induction l with
    | nil => intro h; simp [untilCmd] at h
    | cons a l ih =>
      intro h
      cases a with
      | none => exact ⟨l, rfl⟩
      | some c =>
        obtain ⟨rest, hr⟩ := ih (by simpa [untilCmd] using h)
        refine ⟨rest, ?_⟩
        conv => lhs; rw [hr]
        simp [untilCmd]
  have all : ∀ l : List (Option Char), (untilCmd l).2 = true → l.mapM id = some (untilCmd l).1 := by
    intro l
    induction l with
    | nil => intro _; rfl
    | cons a l ih =>
      intro h
      cases a with
      | none => simp [untilCmd] at h
      | some c => simp [untilCmd, ih (by simpa [untilCmd] using h)]
  cases h with
  | notParsed h => exact .inr ⟨rfl, .inl ⟨rfl, .inl h⟩⟩
  | notEvaluated h1 h2 => exact .inr ⟨rfl, .inl ⟨rfl, .inr ⟨_, _, h1, (Fbld.C50_failure _ h2).choose_spec⟩⟩⟩
  | @printed doc t _ ok h1 h2 h3 =>
    obtain ⟨n, v, hv, rfl⟩ := Fbld.C50_sound _ _ h2
    rw [Fbld.C52_print] at h3
    simp only [Option.some.injEq] at h3
    cases ok with
    | true => exact .inl ⟨rfl, doc, n, v, h1, hv, by rw [text, all _ (by rw [h3]), h3]⟩
    | false =>
      obtain ⟨rest, hr⟩ := spl (items v) (by rw [h3])
      rw [h3] at hr
      exact .inr ⟨rfl, .inr ⟨doc, n, v, rest, h1, hv, hr⟩⟩

/-- C92: a document that is written as the manual says (C75), in any number of files, is evaluated and printed. -/
theorem C92_document {d : Doc} (h : d.ok = true) {g : Nat} {files : List Str} (hf : Complete files) (he : files.flatten = newlines g ++ d.print) {n v s} (hv : eval n [] d.value = .ok v) (hs : text v = some s) :
    (∀ o, FbldMain files o ↔ o = .exit 0 s) ∨ ((∀ o, FbldMain files o ↔ o = .crash) ∧ Crashes d.value .assertion) := by
  have := C92_value (C75_grammar h hf he) hv
  rw [hs] at this
  exact this

/-- C92: only the text of the files matters, not how it is divided. -/
theorem C92_files {files files' : List Str} (h : Complete files) (h' : Complete files') (he : files.flatten = files'.flatten) (o : Ends) : FbldMain files o ↔ FbldMain files' o := by
  have hp : ∀ {fs fs' : List Str}, Complete fs → Complete fs' → fs.flatten = fs'.flatten → ∀ {x}, Parses fs x → Parses fs' x := by
    rintro fs fs' h h' he x ⟨N, hN⟩
    exact ⟨N, fun n hn => by rw [← C73_files h h' he]; exact hN n hn⟩
  have one : ∀ {fs fs' : List Str}, Complete fs → Complete fs' → fs.flatten = fs'.flatten → FbldMain fs o → FbldMain fs' o := by
    intro fs fs' h h' he ho
    cases ho with
    | notParsed g => exact .notParsed (hp h h' he g)
    | parseCrash g => exact .parseCrash (hp h h' he g)
    | notEvaluated g g2 => exact .notEvaluated (hp h h' he g) g2
    | evalCrash g g2 => exact .evalCrash (hp h h' he g) g2
    | printed g g2 g3 => exact .printed (hp h h' he g) g2 g3
    | printCrash g g2 g3 => exact .printCrash (hp h h' he g) g2 g3
  exact ⟨one h h' he, one h' h he.symm⟩

/-- C92: on files that end with complete lines, a crash is the failed assertion of C52, or follows an error that was reported (C53). -/
theorem C92_crash {files} (h : Complete files) (hc : FbldMain files .crash) : ∃ doc, Parses files (.ok doc) ∧ (Crashes doc .assertion ∨ (Crashes doc .nullDeref ∧ ∃ s, Fbld.Reached doc s ∧ s.reported = true)) := by
  cases hc with
  | parseCrash g =>
    rcases C74_result h with h | ⟨doc, h⟩ <;> cases g.unique h
  | @evalCrash doc c g1 g2 =>
    refine ⟨doc, g1, ?_⟩
    rcases Fbld.C53_crash doc c g2 with rfl | ⟨rfl, s, h1, -, h3, -⟩
    · exact .inl g2
    · exact .inr ⟨g2, s, h1, h3⟩
  | printCrash g1 g2 g3 =>
    obtain ⟨n, v, hv, rfl⟩ := Fbld.C50_sound _ _ g2
    rw [Fbld.C52_print] at g3
    cases g3

/-! ### Examples -/

/-- What is printed after these many steps of the parser and of the evaluator. -/
def outcome (k n : Nat) (files : List Str) : Option (Nat × Str) :=
  match fbldParse k files with
  | .ok doc => match Fbld.steps n (Fbld.start doc) with
    | .run ⟨[], mem, false, _⟩ => match mem[0]? with
      | some t => (printMarkup t).map fun r => (if r.2 then 0 else 1, r.1)
      | none => none
    | .run ⟨[], _, true, _⟩ => some (1, [])
    | _ => none
  | .error => some (1, [])
  | _ => none

theorem outcome_main {k n files status out} (h : outcome k n files = some (status, out)) : ∀ o, FbldMain files o ↔ o = .exit status out := by
  apply main_iff
  unfold outcome at h
  split at h
  · rename_i doc hp
    have hp := parses_of hp (by simp)
    split at h
    · rename_i mem _ hs
      split at h
      · rename_i t ht
        cases hr : printMarkup t with
        | none => rw [hr] at h; cases h
        | some r =>
          obtain ⟨s, ok⟩ := r
          rw [hr] at h
          simp only [Option.map_some, Option.some.injEq, Prod.mk.injEq] at h
          rw [← h.1, ← h.2]
          exact .printed hp ⟨n, _, hs, rfl, rfl, ht⟩ hr
      · cases h
    · rename_i hs
      cases h
      exact .notEvaluated hp ⟨n, _, hs, rfl, rfl⟩
    · cases h
  · rename_i hp
    cases h
    exact .notParsed (parses_of hp (by simp))
  · cases h

/-- Two files, the first with definitions for the second. -/
theorem C92_concrete : Complete ["@define[.block][x][<@x>]\n@@\n".toList, "@define[f][x][@x@x]\n@@\nA @f[bc].\n".toList] ∧
    (∀ o, FbldMain ["@define[.block][x][<@x>]\n@@\n".toList, "@define[f][x][@x@x]\n@@\nA @f[bc].\n".toList] o ↔ o = .exit 0 "<A bcbc.\n>".toList) ∧
    (∀ o, FbldMain ["a".toList, "b@x[\n".toList] o ↔ o = .exit 1 []) ∧
    (∀ o, FbldMain ["@error[no]\n".toList] o ↔ o = .exit 1 []) ∧
    ∀ o, FbldMain ["@define[.block][x][<@x>]\n@@\na@b[c]\n".toList] o ↔ o = .exit 1 "<a".toList :=
  ⟨⟨by simp, by
    intro f hf
    simp only [List.mem_cons, List.not_mem_nil, or_false] at hf
    rcases hf with rfl | rfl
    · exact .inr ⟨"@define[.block][x][<@x>]\n@@".toList, by decide +kernel⟩
    · exact .inr ⟨"@define[f][x][@x@x]\n@@\nA @f[bc].".toList, by decide +kernel⟩, by decide +kernel⟩,
    outcome_main (k := 20) (n := 24) (by decide +kernel), outcome_main (k := 20) (n := 0) (by decide +kernel), outcome_main (k := 20) (n := 4) (by decide +kernel),
    outcome_main (k := 20) (n := 15) (by decide +kernel)⟩

end Verif.FbldParse
