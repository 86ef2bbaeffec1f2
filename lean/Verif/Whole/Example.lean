import Verif.Whole.Source
/-
An example for C70: two files, from their texts to the result.
-/
namespace Verif.Whole.Example
open Parse
open Text (Str Byte ch Path)
open Text.Spec (Lexes)
open Elab (Expr)
open Load (FileResult)

def str (s : String) : Str := s.toList.map ch

def libPath : Path := [⟨str "Lib", .normal⟩]
def mainPath : Path := [⟨str "Main", .normal⟩]

def libText : Str := str "# A library.\n@ Unit@ = *();\nUnit@();\n"
def mainText : Str := str "% f = {/Lib%;}; f;"

/-- Two files. -/
def fs : Files where
  access f := f = str "src/Lib.fble" ∨ f = str "src/Main.fble"
  read f := if f = str "src/Lib.fble" then some libText else if f = str "src/Main.fble" then some mainText else none

def roots : List Str := [str "old", str "src"]

def libSrc : SStmt :=
  .letE (.kind (.t .basic) (.type (str "Unit")) (.structType .none)) (.expr (.apply (.var (.type (str "Unit"))) .none))
def mainSrc : SStmt :=
  .letE (.kind (.n .basic) (.normal (str "f")) (.block (.braces (.expr (.modulePath (.word (str "Lib"))))))) (.expr (.var (.normal (str "f"))))

def tn (s : String) : Types.Name := ⟨s.toList, true⟩
def vn (s : String) : Types.Name := ⟨s.toList, false⟩

def libExpr : Expr := .letE (.kind (.basic 1) (tn "Unit") (.dataType .struct .nil) .nil) (.apply (.var (tn "Unit")) .nil false)
def mainExpr : Expr := .letE (.kind (.basic 0) (vn "f") (.modulePath [vn "Lib"]) .nil) (.var (vn "f"))

theorem source_of {p f text s} (h1 : FileOf fs roots p f) (h2 : fs.read f = some text)
    (h3 : (Text.tokens (text.length + 1) (Text.initLex false text)).map (·.1) = some s.toks) : Source fs roots p s := by
  obtain ⟨ts, l, r, t1, t2⟩ := tokens_of false text (by simp)
  rw [t1] at h3
  cases h3
  exact ⟨f, text, r, h1, h2, t2⟩

theorem lib_source : Source fs roots libPath libSrc :=
  source_of (f := str "src/Lib.fble") (text := libText) ⟨by decide, by decide +kernel⟩ (by decide +kernel) (by decide +kernel)

theorem main_source : Source fs roots mainPath mainSrc :=
  source_of (f := str "src/Main.fble") (text := mainText) ⟨by decide, by decide +kernel⟩ (by decide +kernel) (by decide +kernel)

def program : List (Path × List Path × Expr) := [(libPath, [], libExpr), (mainPath, [libPath], mainExpr)]

/-- The two files are loaded. -/
theorem loaded : FbleLoad fs roots mainPath (some program) := by
  obtain ⟨look, hlook⟩ := exists_look fs roots
  obtain ⟨f, hf⟩ := finds_source lib_source (e := libExpr) rfl (by decide +kernel)
  obtain ⟨g, hg⟩ := finds_source main_source (e := mainExpr) rfl (by decide +kernel)
  have h1 : look libPath = (.ok f [], some libExpr) := (hlook _).unique hf
  have h2 : look mainPath = (.ok g [libPath], some mainExpr) := (hlook _).unique hg
  have hne : libPath ≠ mainPath := by decide
  refine ⟨look, ⟨some [⟨libPath, [], true⟩, ⟨mainPath, [libPath], true⟩], [g, f]⟩, hlook, ⟨10, ?_⟩, ?_⟩
  · simp [Load.load, Load.push, Load.loop, Load.step, h1, h2, hne]
  · simp [h1, h2, program]

/-- They type check. -/
theorem checked : ∃ tcs, Elab.tcProgram 20 (modules program) = .ok (some tcs) := by
  have : (match Elab.tcProgram 20 (modules program) with | .ok (some _) => true | _ => false) = true := by decide +kernel
  cases h : Elab.tcProgram 20 (modules program) with
  | ok r =>
    cases r with
    | some tcs => exact ⟨tcs, rfl⟩
    | none => rw [h] at this; cases this
  | _ => rw [h] at this; cases this

example : ∃ program n tcs, FbleLoad fs roots mainPath (some program) ∧ Elab.tcProgram n (modules program) = .ok (some tcs) :=
  ⟨program, 20, _, loaded, checked.choose_spec⟩

theorem main_mods {q} (h : q ∈ mainSrc.mods) : q = libPath := by
  have : mainSrc.mods = [libPath] := by decide +kernel
  simpa [this] using h

theorem uses {p} (h : Uses fs roots mainPath p) : p = mainPath ∨ p = libPath := by
  induction h with
  | self => exact .inl rfl
  | step _ hd ih =>
    obtain ⟨s, hs, hm⟩ := hd
    rcases ih with rfl | rfl
    · obtain rfl := hs.unique main_source
      exact .inr (main_mods hm)
    · obtain rfl := hs.unique lib_source
      simp [libSrc, SStmt.mods, SBinds.mods, SExpr.mods, STypes0.mods, SExprs0.mods] at hm

/-- They meet the hypotheses of `C70_loads`. -/
example : ∃ program, FbleLoad fs roots mainPath (some program) ∧ ∀ p, p ∈ program.map (·.1) ↔ Uses fs roots mainPath p := by
  obtain ⟨program, h1, h2, -⟩ := C70_loads (univ := [mainPath, libPath]) (fs := fs) (roots := roots) (root := mainPath)
    (fun p h => by rcases uses h with rfl | rfl <;> simp)
    (fun p h => by
      rcases uses h with rfl | rfl
      · exact ⟨_, mainExpr, main_source, rfl, by decide +kernel⟩
      · exact ⟨_, libExpr, lib_source, rfl, by decide +kernel⟩)
    (fun p q h hr hu => by
      have hlib : ∀ {x}, Uses fs roots libPath x → x = libPath := by
        intro x hx
        induction hx with
        | self => rfl
        | step _ hd ih =>
          subst ih
          obtain ⟨s, hs, hm⟩ := hd
          obtain rfl := hs.unique lib_source
          simp [libSrc, SStmt.mods, SBinds.mods, SExpr.mods, STypes0.mods, SExprs0.mods] at hm
      rcases uses h with rfl | rfl
      · obtain ⟨s, hs, hm⟩ := hr
        obtain rfl := hs.unique main_source
        have : q = libPath := main_mods hm
        subst this
        exact absurd (hlib hu) (by decide)
      · obtain ⟨s, hs, hm⟩ := hr
        obtain rfl := hs.unique lib_source
        simp [libSrc, SStmt.mods, SBinds.mods, SExpr.mods, STypes0.mods, SExprs0.mods] at hm)
  exact ⟨program, h1, h2⟩

/-- The main file alone. -/
def half : Files where
  access f := f = str "src/Main.fble"
  read f := if f = str "src/Main.fble" then some mainText else none

theorem half_reads {p s e} (h : Reads half roots p s e) : p ≠ libPath ∧ (p = mainPath → s = mainSrc) := by
  obtain ⟨f, text, ts, r, rest, h1, h2, h3, h4, h5, h6⟩ := h
  constructor
  · rintro rfl
    have : (roots.map fun root => root ++ libPath.flatMap (fun n => ch '/' :: n.str) ++ ['.', 'f', 'b', 'l', 'e'].map ch).find? half.access = none := by
      decide +kernel
    rw [h1.2] at this
    cases this
  · rintro rfl
    have : (roots.map fun root => root ++ mainPath.flatMap (fun n => ch '/' :: n.str) ++ ['.', 'f', 'b', 'l', 'e'].map ch).find? half.access = some (str "src/Main.fble") := by
      decide +kernel
    rw [h1.2] at this
    cases this
    have : half.read (str "src/Main.fble") = some mainText := by decide +kernel
    rw [h2] at this
    cases this
    obtain ⟨ts', l, r', t1, t2⟩ := tokens_of false mainText (by simp)
    obtain ⟨rfl, -⟩ := lexes_det h3 t2
    have ht : (Text.tokens (mainText.length + 1) (Text.initLex false mainText)).map (·.1) = some mainSrc.toks := by decide +kernel
    rw [t1] at ht
    cases ht
    exact (C67_unambiguous h4 (s' := mainSrc) (rest' := []) ⟨(List.append_nil mainSrc.toks).symm, by simp⟩).1

theorem half_reaches {p} (h : Reaches half roots mainPath p) : p = mainPath ∨ p = libPath := by
  induction h with
  | self => exact .inl rfl
  | step _ hd ih =>
    obtain ⟨s, e, hs, hm⟩ := hd
    rcases ih with rfl | rfl
    · obtain rfl := (half_reads hs).2 rfl
      exact .inr (main_mods hm)
    · exact absurd rfl (half_reads hs).1

/-- It is rejected, since it refers to a file that is missing. -/
theorem half_fails : FbleLoad half roots mainPath none := by
  obtain ⟨r, h1, -, h3⟩ := C70_decides (fs := half) (roots := roots) (root := mainPath) (univ := [mainPath, libPath])
    (fun p h => by rcases half_reaches h with rfl | rfl <;> simp)
  obtain ⟨s, rest, h4⟩ : ∃ f text, FileOf half roots mainPath f ∧ half.read f = some text ∧ text = mainText :=
    ⟨str "src/Main.fble", mainText, ⟨by decide, by decide +kernel⟩, by decide +kernel, rfl⟩
  obtain ⟨h4, h5, rfl⟩ := h4
  obtain ⟨ts, l, r', t1, t2⟩ := tokens_of false mainText (by simp)
  have ht : (Text.tokens (mainText.length + 1) (Text.initLex false mainText)).map (·.1) = some mainSrc.toks := by decide +kernel
  rw [t1] at ht
  cases ht
  have hr : Reads half roots mainPath mainSrc mainExpr := ⟨_, _, _, _, [], h4, h5, t2, ⟨(List.append_nil mainSrc.toks).symm, by simp⟩, rfl, by decide +kernel⟩
  have hi : Imports half roots mainPath libPath := ⟨_, _, hr, by decide +kernel⟩
  rw [h3.mpr ⟨libPath, .step .self hi, .inl fun ⟨s, e, h⟩ => (half_reads h).1 rfl⟩] at h1
  exact h1

end Verif.Whole.Example
