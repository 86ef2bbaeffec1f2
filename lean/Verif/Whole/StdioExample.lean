import Verif.Whole.Stdio
import Verif.Host.StdioExample
import Verif.Elab.Wide
/-
An example for C86: the text of a program that copies a byte from the standard input to the standard output, from its file to its run.
-/
namespace Verif.Whole.CopyExample
open Parse
open Text (Str Byte ch Path)
open Host (charFields StdioTypes ended stdioHost namedProcess)
open Host.Example (isOk isOk_of isStdio isStdio_of)
open Example (str source_of)

/-! ### Reading tokens off a text -/

def skipB : Bool → Str → Str
  | _, [] => []
  | false, b :: t => if Text.Spec.White b then skipB false t else if b = ch '#' then skipB true t else b :: t
  | true, b :: t => if b = ch '\n' then skipB false t else skipB true t

def quotedB : Str → Option (Str × Str)
  | [] => none
  | [b] => if b = ch '\'' then some ([], []) else none
  | b :: c :: t =>
    if b = ch '\'' then
      if c = ch '\'' then (quotedB t).map fun r => (ch '\'' :: r.1, r.2) else some ([], c :: t)
    else (quotedB (c :: t)).map fun r => (b :: r.1, r.2)

def lexB : Nat → Str → Option (List Text.Token)
  | 0, _ => none
  | n + 1, s =>
    match skipB false s with
    | [] => some []
    | b :: t =>
      if Text.Spec.Punct b then (lexB n t).map (.punct b :: ·)
      else if b = ch '\'' then (quotedB t).bind fun r => (lexB n r.2).map (.word r.1 :: ·)
      else if Text.Spec.WordChar b then
        (lexB n (t.dropWhile fun b => decide (Text.Spec.WordChar b))).map (.word (b :: t.takeWhile fun b => decide (Text.Spec.WordChar b)) :: ·)
      else none

theorem skipB_blank : (s : Str) → Text.Spec.Blank s (skipB false s) ∧
    ∃ body t, s = body ++ t ∧ ch '\n' ∉ body ∧ (∀ b ∈ t.head?, b = ch '\n') ∧ Text.Spec.Blank t (skipB true s)
  | [] => ⟨.done (by simp), [], [], rfl, by simp, by simp, .done (by simp)⟩
  | b :: s => by
    obtain ⟨h1, body, t, h2, h3, h4, h5⟩ := skipB_blank s
    constructor
    · rw [skipB]
      split
      · rename_i hw
        exact .space hw h1
      · rename_i hw
        split
        · rename_i hc
          subst hc
          rw [h2]
          rw [h2] at h5
          exact .comment h3 h4 h5
        · rename_i hc
          exact .done (by simp [hw, hc])
    · rw [skipB]
      split
      · rename_i hn
        subst hn
        exact ⟨[], ch '\n' :: s, rfl, by simp, by simp, .space (by decide) h1⟩
      · rename_i hn
        refine ⟨b :: body, t, by rw [h2]; rfl, ?_, h4, h5⟩
        simp only [List.mem_cons, not_or]
        exact ⟨fun h => hn h.symm, h3⟩

theorem quotedB_ok : (s : Str) → {w r : Str} → quotedB s = some (w, r) → ∃ d, Text.Spec.Doubled w d ∧ s = d ++ ch '\'' :: r ∧ ∀ b ∈ r.head?, b ≠ ch '\''
  | [], _, _, h => by cases h
  | [b], w, r, h => by
    rw [quotedB] at h
    split at h
    · rename_i hb
      cases h
      exact ⟨[], .nil, by rw [hb]; rfl, by simp⟩
    · cases h
  | b :: c :: t, w, r, h => by
    rw [quotedB] at h
    split at h
    · rename_i hb
      split at h
      · rename_i hc
        cases hq : quotedB t with
        | none => rw [hq] at h; cases h
        | some x =>
          rw [hq] at h
          cases h
          obtain ⟨d, d1, d2, d3⟩ := quotedB_ok t hq
          exact ⟨ch '\'' :: ch '\'' :: d, .quote d1, by rw [hb, hc, d2]; rfl, d3⟩
      · rename_i hc
        cases h
        exact ⟨[], .nil, by rw [hb]; rfl, by simpa using hc⟩
    · rename_i hb
      cases hq : quotedB (c :: t) with
      | none => rw [hq] at h; cases h
      | some x =>
        rw [hq] at h
        cases h
        obtain ⟨d, d1, d2, d3⟩ := quotedB_ok (c :: t) hq
        exact ⟨b :: d, .other hb d1, by rw [d2]; rfl, d3⟩

theorem lexB_ok : (n : Nat) → {s : Str} → {ts : List Text.Token} → lexB n s = some ts → Text.Spec.Lexes s ts []
  | 0, _, _, h => by cases h
  | n + 1, s, ts, h => by
    have hb := (skipB_blank s).1
    rw [lexB] at h
    cases hs : skipB false s with
    | nil =>
      rw [hs] at h hb
      cases h
      exact .stop hb .eof
    | cons b t =>
      rw [hs] at h hb
      simp only at h
      split at h
      · rename_i hp
        obtain ⟨ts', h1, rfl⟩ := Option.map_eq_some_iff.mp h
        exact .next hb (.punct hp) (by simp) (lexB_ok n h1)
      · split at h
        · rename_i hq
          obtain ⟨⟨w, r⟩, h1, h2⟩ := Option.bind_eq_some_iff.mp h
          obtain ⟨ts', h3, rfl⟩ := Option.map_eq_some_iff.mp h2
          obtain ⟨d, d1, d2, d3⟩ := quotedB_ok t h1
          subst hq
          rw [d2] at hb
          exact .next hb (.quoted d1 d3) (by simp) (lexB_ok n h3)
        · split at h
          · rename_i hw
            obtain ⟨ts', h1, rfl⟩ := Option.map_eq_some_iff.mp h
            have e : b :: t = (b :: t.takeWhile fun b => decide (Text.Spec.WordChar b)) ++ t.dropWhile fun b => decide (Text.Spec.WordChar b) := by
              simp [List.takeWhile_append_dropWhile]
            rw [e] at hb
            refine .next hb (.plain (by simp) ?_ ?_) (by simp) (lexB_ok n h1)
            · intro x hx
              rcases List.mem_cons.mp hx with rfl | hx
              · exact hw
              · simpa using List.all_eq_true.mp List.all_takeWhile x hx
            · intro x hx
              have := List.head?_dropWhile_not (fun b => decide (Text.Spec.WordChar b)) t
              rw [hx] at this
              simpa using this
          · cases h

/-- The lines of the file. -/
def lines : List Str := ([
  "# Copies a byte, if there is one.",
  "@ Unit@ = *();",
  "@ World@ = %(/Main%)<Unit@>,",
  "@ IntP@ = +(Unit@ 1, IntP@ 2p0, IntP@ 2p1),",
  "@ Int@ = +(IntP@ n, Unit@ 0, IntP@ p),"] : List String).map str ++
  [str "@ Char@ = +(" ++ [ch ',', ch ' '].intercalate (charFields.map fun c => str "Unit@ " ++ (if c = "'" then str "''''" else str "'" ++ str c ++ str "'")) ++ str "),"] ++ ([
  "@ StringCons@ = *(Char@ head, String@ tail),",
  "@ String@ = +(StringCons@ cons, Unit@ nil),",
  "@ StringsCons@ = *(String@ head, Strings@ tail),",
  "@ Strings@ = +(StringsCons@ cons, Unit@ nil),",
  "@ Bool@ = +(Unit@ true, Unit@ false),",
  "@ MaybeInt@ = +(Int@ just, Unit@ nothing),",
  "@ RMaybeInt@ = *(World@ s, MaybeInt@ x),",
  "@ RUnit@ = *(World@ s, Unit@ x),",
  "@ RBool@ = *(World@ s, Bool@ x),",
  "@ IStream@ = (World@) { RMaybeInt@; },",
  "@ OStream@ = (Int@, World@) { RUnit@; },",
  "@ MaybeIStream@ = +(IStream@ just, Unit@ nothing),",
  "@ MaybeOStream@ = +(OStream@ just, Unit@ nothing),",
  "@ MaybeString@ = +(String@ just, Unit@ nothing),",
  "@ RMaybeIStream@ = *(World@ s, MaybeIStream@ x),",
  "@ RMaybeOStream@ = *(World@ s, MaybeOStream@ x),",
  "@ RMaybeString@ = *(World@ s, MaybeString@ x),",
  "@ StdioIO@ = *(IStream@ stdin, OStream@ stdout, OStream@ stderr,",
  "  (String@, World@) { RMaybeIStream@; } read,",
  "  (String@, World@) { RMaybeOStream@; } write,",
  "  (String@, World@) { RMaybeString@; } getenv);",
  "(StdioIO@ io, Strings@ args, World@ w) {",
  "  RMaybeInt@ r = io.stdin(w);",
  "  r.x.?(",
  "    just: { RUnit@ o = io.stdout(r.x.just, r.s); RBool@(o.s, Bool@(true: Unit@())); },",
  "    nothing: RBool@(r.s, Bool@(false: Unit@())));",
  "};"] : List String).map str

/-- The types of /Core/Stdio/IO% and those they use, written out for a single module; then the program. -/
def text : Str := lines.flatMap fun l => l ++ [ch '\n']

def t (x : String) : SExpr := .var (.type (str x))
def v (x : String) : SExpr := .var (.normal (str x))
def dot (e : SExpr) (x : String) : SExpr := .access e (.normal (str x))

def types : List (SExpr × String) → STypes
  | [] => .one (.mk (t "") (.normal []))
  | f :: fs => fs.foldl (fun ts f => .more ts (.mk f.1 (.normal (str f.2)))) (.one (.mk f.1 (.normal (str f.2))))

def exprs : List SExpr → SExprs
  | [] => .one (t "")
  | e :: es => es.foldl .more (.one e)

def call (f : SExpr) (as : List SExpr) : SExpr := .apply f (.some (exprs as))
def union (fs : List (SExpr × String)) : SExpr := .unionType (types fs)
def struct (fs : List (SExpr × String)) : SExpr := .structType (.some (types fs))
def arrow (as : List SExpr) (r : SExpr) : SExpr := .block (.funcType (exprs as) (.braces (.expr r)))
def bool (x : String) : SExpr := .union (t "Bool") (.normal (str x)) (.apply (t "Unit") .none)

def defs : List (String × SExpr) → SBinds
  | [] => .kind (.t .basic) (.type []) (t "")
  | d :: ds => ds.foldl (fun bs d => .moreKind bs (.t .basic) (.type (str d.1)) d.2) (.kind (.t .basic) (.type (str d.1)) d.2)

/-- The program. -/
def src : SStmt :=
  .letE (defs [("Unit", .structType .none)]) (.letE (defs [
    ("World", .polyApply (.package (.word (str "Main"))) (exprs [t "Unit"])),
    ("IntP", union [(t "Unit", "1"), (t "IntP", "2p0"), (t "IntP", "2p1")]),
    ("Int", union [(t "IntP", "n"), (t "Unit", "0"), (t "IntP", "p")]),
    ("Char", union (charFields.map fun c => (t "Unit", c))),
    ("StringCons", struct [(t "Char", "head"), (t "String", "tail")]),
    ("String", union [(t "StringCons", "cons"), (t "Unit", "nil")]),
    ("StringsCons", struct [(t "String", "head"), (t "Strings", "tail")]),
    ("Strings", union [(t "StringsCons", "cons"), (t "Unit", "nil")]),
    ("Bool", union [(t "Unit", "true"), (t "Unit", "false")]),
    ("MaybeInt", union [(t "Int", "just"), (t "Unit", "nothing")]),
    ("RMaybeInt", struct [(t "World", "s"), (t "MaybeInt", "x")]),
    ("RUnit", struct [(t "World", "s"), (t "Unit", "x")]),
    ("RBool", struct [(t "World", "s"), (t "Bool", "x")]),
    ("IStream", arrow [t "World"] (t "RMaybeInt")),
    ("OStream", arrow [t "Int", t "World"] (t "RUnit")),
    ("MaybeIStream", union [(t "IStream", "just"), (t "Unit", "nothing")]),
    ("MaybeOStream", union [(t "OStream", "just"), (t "Unit", "nothing")]),
    ("MaybeString", union [(t "String", "just"), (t "Unit", "nothing")]),
    ("RMaybeIStream", struct [(t "World", "s"), (t "MaybeIStream", "x")]),
    ("RMaybeOStream", struct [(t "World", "s"), (t "MaybeOStream", "x")]),
    ("RMaybeString", struct [(t "World", "s"), (t "MaybeString", "x")]),
    ("StdioIO", struct [(t "IStream", "stdin"), (t "OStream", "stdout"), (t "OStream", "stderr"),
      (arrow [t "String", t "World"] (t "RMaybeIStream"), "read"),
      (arrow [t "String", t "World"] (t "RMaybeOStream"), "write"),
      (arrow [t "String", t "World"] (t "RMaybeString"), "getenv")])])
  (.expr (.block (.func (types [(t "StdioIO", "io"), (t "Strings", "args"), (t "World", "w")]) (.braces
    (.letE (.type (t "RMaybeInt") (.normal (str "r")) (call (dot (v "io") "stdin") [v "w"]))
      (.expr (.select (dot (v "r") "x") (.more
        (.one (.mk (.normal (str "just")) (.block (.braces
          (.letE (.type (t "RUnit") (.normal (str "o")) (call (dot (v "io") "stdout") [dot (dot (v "r") "x") "just", dot (v "r") "s"]))
            (.expr (call (t "RBool") [dot (v "o") "s", bool "true"])))))))
        (.mk (.normal (str "nothing")) (call (t "RBool") [dot (v "r") "s", bool "false"])))))))))))

def fs : Files where
  access f := f = str "src/Main.fble"
  read f := if f = str "src/Main.fble" then some text else none

def mainPath : Path := [⟨str "Main", .normal⟩]

def value : Elab.Expr := src.ast.getD (.packageType [])

theorem src_ast : src.ast = some value := by
  have : src.ast.isSome = true := by decide +kernel
  obtain ⟨e, he⟩ := Option.isSome_iff_exists.mp this
  simp [value, he]

theorem toks_ok : lexB (text.length + 1) text = some src.toks := by decide +kernel

def roots : List Str := [str "src"]

theorem source : Source fs roots mainPath src :=
  ⟨str "src/Main.fble", text, [], ⟨by decide, by decide +kernel⟩, by simp [fs], lexB_ok _ toks_ok⟩

def program : List (Path × List Path × Elab.Expr) := [(mainPath, [], value)]

/-- The file is loaded. -/
theorem loaded : FbleLoad fs roots mainPath (some program) := by
  obtain ⟨look, hlook⟩ := exists_look fs roots
  obtain ⟨f, hf⟩ := finds_source source src_ast (by decide +kernel)
  have hm : firsts src.mods = [] := by decide +kernel
  rw [hm] at hf
  have h1 : look mainPath = (.ok f [], some value) := (hlook _).unique hf
  refine ⟨look, ⟨some [⟨mainPath, [], true⟩], [f]⟩, hlook, ⟨10, ?_⟩, ?_⟩
  · simp [Load.load, Load.push, Load.loop, Load.step, h1]
  · simp [h1, program]

theorem checks : isOk (Elab.tcProgram 300 (modules program)) = true := by decide +kernel

theorem typesOk : isStdio (Elab.atEnd 300 [] [] (modules program) []) = true := by decide +kernel

theorem mono : Elab.Monomorphic 300 (modules program) := by
  unfold Elab.Monomorphic
  exact Or.inl (by decide +kernel)

theorem wide : ∀ m ∈ modules program, m.value.wide = true := by
  have : ((modules program).all fun m => m.value.wide) = true := by decide +kernel
  exact List.all_eq_true.mp this

def system (world : Host.World) : System := ⟨fs, none, str "/usr/share/fble", fun _ => false, world⟩

/-- `fble-stdio -I src -m /Main% -- ...`, with this file, any standard input and any arguments: it runs the program, no assertion fails and nothing is accessed that is not there; and it ends as the
text says. -/
theorem runs (world : Host.World) (argv0 : Args.Arg) (args : List Args.Arg) : ∃ e ts, Looks (system world) e ∧ All2 Elab.ErasesModule (modules program) ts ∧ ∀ steps fuel depth,
    let r := ended depth (namedProcess (((modules program).map (·.path)).zip ts) (stdioHost (args.map fun a => (bytes a).map UInt8.toNat)) steps fuel world.outside)
    (∀ o, StdioMain (system world) e 300 steps fuel depth argv0 (["-I".toList, "src".toList, "-m".toList, "/Main%".toList, "--".toList] ++ args) o ↔ o = .ran r) ∧ r ≠ .crash ∧ r ≠ .wild := by
  obtain ⟨e, he⟩ := looks_exists (system world)
  obtain ⟨tcs, htc⟩ := isOk_of checks
  have hp : mainPath ≠ [] ∧ ∀ n ∈ mainPath, n.space = .normal ∧ n.str ≠ [] ∧ ∀ b ∈ n.str, Text.Spec.WordChar b ∧ b ≠ 0xFF := ⟨by decide, by decide +kernel⟩
  have ha : bytes "/Main%".toList = Text.printPath mainPath := by decide +kernel
  obtain ⟨-, ts, h1, h2⟩ := C86_command he ["src".toList] hp ha (program := program) loaded htc argv0 args
  obtain ⟨mds, k⟩ := Elab.tcProgram_ok htc
  obtain ⟨hf, types, t, k1⟩ : ∃ hf types t, Elab.atEnd 300 [] [] (modules program) [] = .ok (hf, types ++ [some t]) := by
    obtain ⟨hf, types, t, k1, -⟩ := Host.main_type htc (by simp [modules, program]) mono (k.choose_spec.1)
    exact ⟨hf, types, t, k1⟩
  obtain ⟨ts', h3, h4⟩ := C86_safe he ["src".toList] hp ha (program := program) loaded htc mono k1 (isStdio_of typesOk hf types t k1)
  refine ⟨e, ts, he, h1, fun steps fuel depth => ?_⟩
  have h5 := h2 (Elab.tables_of_wide wide h1) steps fuel depth
  refine ⟨h5, ?_⟩
  obtain ⟨r, h6, h7⟩ := h4 (Elab.tables_of_wide wide h3) argv0 args steps fuel depth _ ((h5 _).mpr rfl)
  cases h6
  exact h7

end Verif.Whole.CopyExample
