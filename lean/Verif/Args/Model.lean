/-
Model of command line parsing: /repo/lib/arg-parse.c and the option loops of the programs.

SIMPLIFIED: an argument is its list of characters; the variables that options are stored in are
named by the C variable.  Messages to stderr are not modelled.  Looking up a package and parsing a
module path are parameters.
-/
namespace Verif.Args

abbrev Arg := List Char

/-- The variables of a program: flags, strings (NULL is `none`), vectors of strings, search path, module path, the
error flag and the arguments left.  `ub` tells whether an argument behind the last was read. -/
structure St where
  flags : String → Bool
  strs : String → Option Arg
  lists : String → List (Option Arg)
  search : List Arg
  module : Option (List Arg)
  error : Bool
  args : List Arg
  ub : Bool

/-- FbleFindPackage and FbleParseModulePath. -/
structure Env where
  find : Arg → Option Arg
  parse : Arg → Option (List Arg)

def setAt {β : Type} (f : String → β) (k : String) (v : β) : String → β := fun x => if x = k then v else f x

/-- FbleParseBoolArg, arg-parse.c:14-25. -/
def parseBool (name : Arg) (dest : String) (s : St) : St × Bool :=
  match s.args with
  | [] => ({ s with ub := true }, false)
  | a :: as => if a = name then ({ s with flags := setAt s.flags dest true, args := as }, true) else (s, false)

/-- FbleParseStringArg, arg-parse.c:28-48, on the value of `*dest`; the result is the new value and the
other effects. -/
def parseStr (name : Arg) (old : Option Arg) (s : St) : St × Bool × Option Arg :=
  match s.args with
  | [] => ({ s with ub := true }, false, old)
  | a :: as =>
    if a = name then
      match as with
      | [] => ({ s with error := true }, true, old)
      | v :: rest =>
        if old.isSome then ({ s with error := true }, true, old)
        else ({ s with args := rest }, true, some v)
    else (s, false, old)

/-- FbleParseStringArg for a variable of the program. -/
def parseVar (name : Arg) (dest : String) (s : St) : St × Bool :=
  let r := parseStr name (s.strs dest) s
  ({ r.1 with strs := setAt r.1.strs dest r.2.2 }, r.2.1)

/-- FbleParseStringArg for a variable that is NULL, which is then appended to a vector:
fble-perf-profile.c:156-165. -/
def parsePush (name : Arg) (dest : String) (s : St) : St × Bool :=
  let r := parseStr name none s
  if r.2.1 then ({ r.1 with lists := setAt r.1.lists dest (r.1.lists dest ++ [r.2.2]) }, true)
  else (r.1, false)

/-- `FbleParseStringArg(n1, &x, ..) || FbleParseStringArg(n2, &x, ..)` with a fresh variable x. -/
def parseEither (n1 n2 : Arg) (s : St) : St × Bool × Option Arg :=
  let r := parseStr n1 none s
  if r.2.1 then r else parseStr n2 r.2.2 r.1

/-- FbleParseModuleArg, arg-parse.c:71-125.  In the code `error` is false whenever it is called, as
the loops stop otherwise. -/
def parseModule (e : Env) (s : St) : St × Bool :=
  match s.args with
  | [] => ({ s with ub := true }, false)
  | a :: as =>
    if a = "-I".toList then
      match as with
      | [] => ({ s with error := true }, true)
      | v :: rest => ({ s with search := s.search ++ [v], args := rest }, true)
    else if a.take 2 = "-I".toList then
      ({ s with search := s.search ++ [a.drop 2], args := as }, true)
    else
      let p := parseEither "--package".toList "-p".toList s
      if p.2.1 then
        if p.1.error then (p.1, true)
        else
          match (p.2.2.bind e.find) with
          | some path => ({ p.1 with search := p.1.search ++ [path] }, true)
          | none => ({ p.1 with error := true }, true)
      else
        let m := parseEither "--module".toList "-m".toList p.1
        if m.2.1 then
          if m.1.error then (m.1, true)
          else if m.1.module.isSome then ({ m.1 with error := true }, true)
          else
            match m.2.2.bind e.parse with
            | some path => ({ m.1 with module := some path }, true)
            | none => ({ m.1 with error := true }, true)
        else (m.1, false)

/-- FbleParseInvalidArg, arg-parse.c:128-135. -/
def parseInvalid (s : St) : St × Bool := ({ s with error := true, ub := s.ub || s.args.isEmpty }, true)

/-- A line of an option loop. -/
inductive P where
  | bool (name dest : String)
  | str (name dest : String)
  | push (name dest : String)
  | module
  | invalid
deriving DecidableEq

def P.parse (e : Env) (s : St) : P → St × Bool
  | .bool n d => parseBool n.toList d s
  | .str n d => parseVar n.toList d s
  | .push n d => parsePush n.toList d s
  | .module => parseModule e s
  | .invalid => parseInvalid s

/-- The lines of the body of a loop up to the first that succeeds. -/
def body (e : Env) : List P → St → St × Bool
  | [], s => (s, false)
  | p :: ps, s =>
    let r := p.parse e s
    if r.2 then (r.1, true) else body e ps r.1

/-- A program: the lines of its loop, and whether the loop ends at the first argument that is not an
option (skipping a `--`), as in stdio.fble.c:429-433 and app.c:463-467. -/
structure Program where
  lines : List P
  endOfOptions : Bool

/-- The condition `help || version || error`. -/
def stop (s : St) : Bool := s.flags "help" || s.flags "version" || s.error

/-- The loop with at most `fuel` iterations; `none` if these do not suffice. -/
def loop (e : Env) (g : Program) : Nat → St → Option St
  | fuel, s =>
    if stop s || s.args.isEmpty then some s
    else match fuel with
      | 0 => none
      | fuel + 1 =>
        let r := body e g.lines s
        if r.2 then loop e g fuel r.1
        else if g.endOfOptions then
          some { r.1 with args := if r.1.args.head? = some "--".toList then r.1.args.drop 1 else r.1.args }
        else loop e g fuel r.1

def helpVersion : List P := [.bool "-h" "help", .bool "--help" "help", .bool "-v" "version", .bool "--version" "version"]

/-- bin/fble-compile.c:51-65. -/
def compile : Program := ⟨helpVersion ++ [.module, .str "-t" "target_string", .str "--target" "target_string",
  .bool "-c" "compile", .bool "--compile" "compile", .str "-e" "export", .str "--export" "export",
  .str "--main" "main_", .invalid], false⟩
/-- bin/fble-deps.c:45-54. -/
def deps : Program := ⟨helpVersion ++ [.module, .str "-t" "target", .str "--target" "target", .invalid], false⟩
/-- bin/fble-disassemble.c:41-48. -/
def disassemble : Program := ⟨helpVersion ++ [.module, .invalid], false⟩
/-- test/test.c:41-49. -/
def test : Program := ⟨helpVersion ++ [.module, .str "--profile" "profile_file", .invalid], false⟩
/-- test/mem-test.c:89-98, when not linked with a module. -/
def memTest : Program := ⟨helpVersion ++ [.module, .bool "--growth" "growth", .bool "--debug" "debug", .invalid], false⟩
/-- test/profiles-test.c:117-124, when not linked with a module. -/
def profilesTest : Program := ⟨helpVersion ++ [.module, .invalid], false⟩
/-- pkgs/core/stdio.fble.c:421-434, without and with a linked module. -/
def stdio : Program := ⟨helpVersion ++ [.module, .str "--profile" "profile_file"], true⟩
def stdioLinked : Program := ⟨helpVersion ++ [.str "--profile" "profile_file"], true⟩
/-- pkgs/app/app.c:453-468, without and with a linked module. -/
def app : Program := ⟨helpVersion ++ [.bool "--fps" "fps", .module, .str "--profile" "profile_file",
  .str "--driver" "driver"], true⟩
def appLinked : Program := ⟨helpVersion ++ [.bool "--fps" "fps", .str "--profile" "profile_file",
  .str "--driver" "driver"], true⟩
/-- bin/fble-perf-profile.c:153-168. -/
def perfProfile : Program := ⟨[.bool "-h" "help", .bool "--help" "help", .push "-s" "squashes", .push "--squash" "squashes",
  .bool "-v" "version", .bool "--version" "version"], false⟩

end Verif.Args
