# A Lean 4 model of ruhler/fable

This repository contains a formal model, in Lean 4, of most of the fble implementation in `/repo`
(C sources in `lib/`, `fbld/`, `bin/`, `pkgs/core/`) and machine checked proofs about it.

* `properties.jsonl` – the English properties (generated by `tools/props.py`).
* `lean/Verif/<Topic>/` – one directory per part of the code. The `Model`/`Machine`/`Expr` files are
  the model (every definition cites the file and lines it models and says where it simplifies), the
  `Spec`/`Sem`/`Named`/`Meaning` files are the independent specifications used in statements, and
  the remaining files are lemmas and the property theorems `Cnn_*` with examples that show that
  their hypotheses can be met.
* `MANIFEST.json` – property → theorem map with status (from `tools/claims.py`).
* `COVERAGE.md` – for each C file, which functions are modelled, in part, or not (generated).
* `AXIOMS.md` – the axioms of every theorem (generated with `#print axioms`).
* `seeded/LOG.jsonl` – wrong programs and the theorems that failed on them (`tools/mutate.py`).

## Trusted base

1. Lean's kernel (Lean 4.33.0) and its standard axioms `propext`, `Classical.choice`, `Quot.sound`;
   AXIOMS.md lists which of them each theorem uses. No axioms are added and no compiled evaluation
   is used; concrete examples and witnesses are evaluated by the kernel (`decide +kernel`, `simp`, `rfl`).
2. The model is faithful to the C code. This was established by reading only: the code was never
   compiled or run here. Each definition cites its source; `tools/cites.py` checks that the cited lines exist.
   For the parser, bison is not run: the tables are computed by `tools/lalr.py` (LALR(1) construction with bison's default
   reductions), and the theorems C67-C69 hold of these tables; the kernel checks the properties of the tables that the
   proofs use, so a mistake in the script could only make the tables differ from bison's, which for a grammar
   without conflicts accept the same language.  The limit of the stack is bison's default `YYMAXDEPTH` = 10000.
3. The specifications say what the English says. They are kept small and do not use the model's helpers.

### Conventions of the model

* `size_t` counters are `Nat` unless a property is about words (packing: `BitVec 64`). `malloc` does not fail.
* C pointers are indices or addresses into an explicit store. A NULL dereference, a failed assertion, an access
  out of bounds, a shift by ≥ 64 or a signed overflow is an explicit outcome (`crash`, `none`, `.oob` …)
  in every model whose properties speak about it.
* Reference counts and the freeing of memory are modelled in `Gc` (values) and `TypeHeap` (types).
  Elsewhere (`Compile`, `Types`, `Elab`, `Fbld`) memory is never reclaimed: C09, C10 and C25 say why this is right
  where the client obeys the rules.
* Loops and recursion that need not end take fuel; theorems speak about every amount of fuel, and say
  when a result with some fuel is the result for all larger fuels.
* Error messages on stderr are not modelled, except warnings (`Unused`) and the fbld error/no error distinction.
* Locations (`FbleLoc`) are modelled where the property is about them (C32, C19) and dropped elsewhere.

## The parts

| directory | models | not modelled there |
|---|---|---|
| `Pack` | value.c packed words, struct/union constructors and accessors, lists, literals; core int/char/string | functions as values (opaque leaves) |
| `Select` | interpreter's select search, C `switch`, AArch64 compare/branch tree | the rest of the code generators |
| `Refs` | reference values, `StrictValue`, `FbleAssignRefValue` | – |
| `Gc` | value heap: frames, generations, gc lists, incremental collector, full collection | what the client computes: it is an arbitrary legal history of API calls |
| `Support` | vectors, allocation accounting, stack chunks, `GetLine` | – |
| `TypeHeap` | type-heap.c collector | what types mean: a type is its outgoing references |
| `Types` | kind.c, type.c: kinds, substitution, normal form, equality, inference, list types | printing |
| `Elab` | expr.h, typecheck.c completely, down to `FbleTc` | messages; reference counts; cleaners |
| `Safe` | (theorems about `Elab` and `Compile` only: type soundness) | – |
| `Unused` | unused.c | text of the warnings |
| `Compile` | tc.h, compile.c, interpret.c, calls of value.c, link.c for interpreted programs; functions implemented in C as an arbitrary environment | debug info |
| `Backend` | c.c: `CollectBlocks`, `EmitCode`, `FbleGenerateC`; link.c for generated programs; what the emitted C statements do | printing of the text (see `Gen`), the C compiler, heap and profile effects |
| `Backend/A64*`, `Backend/Trace` | aarch64.c: `CollectBlocksAndLocs`, `EmitInstr`, `EmitSearch`, `EmitOutlineCode`, `EmitCode`, `DoAbort`, `FbleGenerateAArch64`; what the emitted instructions do: registers, stack, flags, calls of the runtime; profile operations, blocks of function values and error reports of an activation | printing of the text, the assembler and linker, encodings, DWARF directives; the data of a word is abstract (a number, a value, a stack address and so on) |
| `Load` | load.c, link.c order and dependencies | reading files: `find` is an arbitrary function |
| `Text` | lexer of parse.y, name.c, module-path.c, search in load.c, build deps | – |
| `Parse` | parse.y: the grammar and its actions, `FbleParse`, `FbleParseModulePath`; the loop of the parser bison generates, with its tables and its stack limit | source locations; the text of messages |
| `Whole` | the parts put together: files, `Find`, `FbleParse`, `FbleLoad`, type checker, compiler, linker, interpreter; `Stdio`: the fble-stdio command; `Build`: fble-compile; `Deps`: fble-deps | – |
| `NoCrash` | the same model of the type checker as `Elab` | – |
| `Gen` | mangling, string literals and labels in c.c and aarch64.c | code for functions |
| `Profile` | profile.c, fble-perf-profile.c | report text, random sampling |
| `Args` | arg-parse.c and the option loops of the programs | the programs after option parsing |
| `Fbld` | eval.c, markup.c of fbld | – |
| `FbldParse` | parse.c of fbld: the lexer over several files with its lookahead buffer, columns and indentation, and the parser | source locations, texts of messages, memory; files are read whole; a byte is a character, so `isalnum` of a byte ≥ 0x80 is false |
| `Host` | pkgs/core/stdio.fble.c, int.fble.c, char.fble.c, string.fble.c: a C program that runs an fble program with functions implemented in C (any such program, and `FbleStdio`), and the functions of /Core/Stdio; pkgs/app/app.c: Draw, MakeKey, MakeButton, EventImpl, EffectImpl and the part of FbleAppMain that runs the program | timers, the histogram of frames, SDL and OpenGL, command line options; `OnFree` (files are not closed), frames, functions that apply values themselves (FbleDebugTest etc.), errors of `fgetc` and `fputc`, files that are read while they are written; a file that is written has no effect on what is read |

## Per property

"Witness" means that the property fails in the code as it is: the English statement names the exception, and a
theorem `…_violated` proves a concrete case of the failure, so that the exception is known to be needed.

| id | what is modelled and stated | how it is proved |
|----|------|-------|
| C01 C02 | `FbleNewStructValue`, `FbleNewUnionValue`, accessors on words and heap objects | relation "the sign extended bit stream of the word starts with the code of the value"; prefix codes |
| C03 | any program over the value API has the same observations as on algebraic data | refinement over histories of API calls |
| C04 | shift amounts | bound on the packed length; witness: shifts by 64 happen (an argument of 64 bits); the result does not depend on them |
| C05 | list and literal constructors | induction over the elements |
| C06 | interpreter's binary search | loop invariant against table lookup; witness: an empty table stops the interpreter (select over a union with one tag) |
| C07 | `FbleCall`, `FbleTailCall`, `PartialApply`, for functions with any bytecode | simulation of over- and under-application against one argument at a time |
| C08 | reference store | acyclicity over all histories, by rank |
| C09 C10 C11 | value heap under all legal client histories | invariant (generations, marks, frame lists) by induction over operations; witnesses: a pop of an old value during marking leads to use after free; `FbleValueFullGc` stops early |
| C12 | chunk allocator | invariant; witness for sizes over half a chunk |
| C13 | compiled, linked and run program = meaning (`Sem.lean`) of the `FbleTc` | logical relation indexed by fuel between source values and machine values; per-expression compile lemma; witness C06 |
| C14 C15 | every register, jump and profile operation of compiled code | structural induction over the compiler; `step_effect` ties the specification to the machine |
| C16 C60 | type checker output means, by position, what the source means by name | erasure relation between typed elaboration and named terms, simulation of the evaluators; then C13 |
| C17 C18 C19 C20 | select, struct copy, literals, abstract types in `TypeCheckExpr` | inversion of the elaboration loops |
| C21 | unused.c | fixpoint = reachability through definitions |
| C22 | kinds and levels | structural induction |
| C23 C24 C58 C59 | type graphs, `TypesEqual`, `FbleTypeInfer` | bisimulation of unfoldings; termination by the finite set of pairs; witnesses for polymorphic types and for packages |
| C25 | type heap | invariant; completeness of a full collection |
| C26 C27 C28 | loader, linker | invariant of the depth first search |
| C67 C68 C69 | the syntax of the language as a type of trees (`SStmt`, `SExpr`, …) with the tokens each spells (`toks`), what it stands for (`ast`) and its stack need (`height`); the LR machine with the actions | (1) the tables: the kernel checks that every table entry is justified by LR items and every item leads on (`Check`); (2) soundness for any tables that pass the checks: what is on the stack spells what was read (`StackOk`); completeness: the machine follows every tree (`Lr`), termination by the height of reductions; (3) trees are exactly what the grammar derives (`Tree`), so the parser with trees as values decides the grammar, and the parser with the real actions runs in step with it (`Run`) |
| C70 | composition of the models of C55, C67, C26, C60 over a file system | the modules of the abstract syntax are those of the text (`same_stmt`); then the theorems of the parts |
| C71 | failed assertions are the result `fail` of the model | every type in scope has a normal form, and so has every part of it (`Fin`); kept by all steps, for `let` thanks to the vacuity check; induction over the fuel |
| C72 | the fuel of the model bounds the depth of calls; to end is to give a result for all large enough fuels | the number of types made is at most the cost of the expression; a comparison adds a pair of old types each time, so its depth is at most quadratic in their number; the same induction as for C71 |
| C73 | `fbldParse` over lists of files; the parser is written over an abstract lexer, and there are two: files with buffers (`Lex`) and a text (`View`) | two lexers that cannot be told apart give the same parse (`Sim.lean`); the buffer is always the start of the rest of the text (`Files.lean`); witness for a file that ends within a line |
| C74 | asserts are the result `crash`, to go on for ever is to give `more` for all fuels | invariant of the text view: the last line is complete, what is left gets shorter; the depth of calls is at most four times the length; witness |
| C75 | the manual as trees (`Grammar.lean`): `print`, `value`, `ok`, with no reference to the parser | simulation for each kind of argument; nested blocks by the indentation law |
| C76 | `Indented`: a space before every line, optional for empty lines | the text and the indented text are lexers that cannot be told apart (`shift_sim`); witness for the exception |
| C77 | functions implemented in C are a kind of function value (`native`) in all five languages (source, elaborated, bytecode, C, assembly); the process has an `Outside`, which knows all calls made so far and what can be seen of their arguments (`View`), and returns a value made of arguments, structs, unions and new functions, or stops the process; the C program is a function from all it has seen to its next step | the simulations of C16, C13, C62 and C64 extended to native functions; arguments that are related look the same (`view_same`); infinite runs by stopping at the n-th call |
| C78 C79 | what a value means: `ShowsInt`, `ShowsString` over views | induction over the meaning; witnesses |
| C80 | `World`: the state of streams after a list of calls | induction over the history |
| C81 | a function implemented in C has a type (`Natives`: its argument and result types, and what it answers); the C program's steps are typed (`HostTy`) | values of functions implemented in C are typed by `VT.native`; `callOut_good` and the induction of C61; C77 for the other ways of running |
| C82 | `StdioTypes`: the type Main@, its parts named one by one, up to the equality of C23; `stdioHost` and `World` | every function of /Core/Stdio returns values of its type (`nativesOk`), every step of FbleStdio is one its type allows (`hostTy`), by cases; then C81 |
| C83 | `AppTypes`: the type Main@ of /App/IO%; `AppWorld.call`: EventImpl and EffectImpl; `draw` gives what is drawn or says that an assertion fails (`fails`) or that a value has another type (`wrong`); `appHost` | a value of type Drawing@ is never `wrong` (induction on the depth); events have type Event@, by cases; then C81 |
| C84 | `Drawing`, `ShowsDrawing` (a value of the type means a drawing) and `Drawing.shapes` (what it looks like) are the specification; `draw` is the code | induction on the drawing, for all scales and offsets; more depth changes nothing |
| C85 | `AppWorld.after`: the state after a history of calls | induction on the history |
| C86 | `StdioMain`: FbleStdioMain for the interpreter, `CompiledMain` for a program linked in: options (the loops of C48), profile file, search, load, check, link, run; `Looks`: what the option parser finds for a module or package is what the file system and the text say | the option theorems, C70 and C77/C82 composed; each outcome is unique; `CopyExample` runs the chain on a source text |
| C87 | `CompileMain`: main of fble-compile with FbleCompileModule; what is written is a list of pieces (`Piece`: export, main, module with what the type checker made of it), whose text and meaning are those of C35-C37, C59, C64; `BuiltFrom`: one run for each module | each outcome is unique, by cases on the options; a module is the last one of the program loaded for it (`loaded_last`), and what the type checker makes of the last module of any program is right for its text (`ChecksTo.ok`), so the pieces make a program as in C77 |
| C88 | `DepsMain`: main of fble-deps, with the loader of C26 and the writer of C30; `Listed` says which files, in terms of the files found and the texts in them | an invariant of the loader that holds after errors too (`Seen`), and one that holds as long as there is no cycle (`Whole`) |
| C89 | the typing rules (`HasTy`, Safe/Rules.lean) on the written program, with no reference to the type checker; types are nodes of a heap with all packages opaque (`TypesOf`), the same if their infinite trees are (`SameType`) | induction over the fuel of the checker, one lemma for each kind of expression; what was compared before the end is the same at the end (`same_ends`), also when the packages stay opaque; a cast compares in the heap with one package transparent |
| C90 | `report`: the lists that FbleGenerateProfileReport prints, `reportText`: the text; the specification is the tallies over the history of C39 and C40 (`Says`, `LineOf`) | the invariant of C39, every record was counted (`Counted`), the loop that inverts the call lists keeps them sorted; the sort is stable (C42) |
| C91 | `Whole.App.AppMain`: FbleAppMain for the interpreter, `CompiledMain` for a program linked in, as in C86; `Desktop.display` says which drivers give a window, and its size; the main value is computed before SDL is started | as C86; `EndsAs` is the specification: in the window, or only the main value and exit status 3 |
| C92 | `FbldMain`: `main` of fbld: the parser, the evaluator and the printer, one after the other | C50 to C53 and C73 to C76 composed; each outcome is unique; `eval` and `text` are those of the definition of the language (Fbld/Markup.lean) |
| C93 | `PerfMain`: `main` of fble-perf-profile: options, GetLine, Sample, the report | C48, C49, C57 and C90 composed; `Describes` is the specification of the report in terms of the lines: counts and times of functions, and of calls between functions that follow each other on a path |
| C94 | `Whole.Test.TestMain`: FbleTestMain for the interpreter, `CompiledMain` for a program linked in, as in C86 and C91 | C48, C60, C61, C62, C64 and C70 composed; `EndsWith` states the exit status in terms of the meaning of the program by names |
| C95 | `Backend.Dis.Disassembles`: FbleDisassemble, with the names, locations and debug information as parameters; `Whole.DisMain`: `main` of fble-disassemble | a reader of instruction lines is shown to read back what was printed (`C95_instr`); the order of the functions is a permutation of the functions of the code, their blocks differ (C15, C14); C48 and C70 for the command |
| C96 | `Load.loop` (FbleLoad) against `Load.loadGenerated` (LoadGenerated); `Whole.object`: the symbols a module's file defines and refers to; `Whole.StandsFor`: the system linker | induction on the references left on the top of the loader's stack: the modules finished are those LoadGenerated adds; C35 for the symbols |
| C97 | `Gen.Data.staticGeneratedModule`, `generatedModuleC`: the lines and declarations with their numbered labels; `place`: the assembler's addresses; `Accepts`: a C compiler's order of declarations | the functions that emit are followed one by one with the memory as a parameter; labels lie in intervals that are used one after the other; C35, C37 for symbols and strings |
| C98 | `Parse.PrintType.print`, `printKind`: the printers of types and kinds with their loops as modes; specification: `Ty.ast`, the expression a type is, and the grammar of C67 | induction over the type for each mode at once: the tokens of what is printed complete those of what was begun; C31 for names, C67 for uniqueness; `PrintHeap`: on the heap, exactly the pointers that stand for a tree (`Shows`: cycles are reached only through type variables) are printed, as that tree; that no type of a program has a cycle without a variable is not shown |
| C29 C30 C54 C55 | search path, dependency files, module paths | list lemmas; witness for unescaped names |
| C31 C32 C33 | lexer and name printer | round trip; witnesses: the empty name, NUL bytes |
| C34 | module paths | list prefixes |
| C35 C36 C37 | symbols, labels, literals in generated code | injectivity of codes; decoding; witnesses: `/` in names, bytes ≥ 0x80, trigraphs, locations |
| C38 | AArch64 search | interval invariant of the emitted code |
| C39–C43 C56 C57 | profiler | invariants over histories; witness: interpreted programs charge the root twice |
| C44 C45 | vectors, allocation totals | arithmetic invariants |
| C46 C47 | integer and string conversion | induction; witness for the least integer |
| C48 C49 | options, lines | case analysis over all option tables; witnesses: unknown option loops, write past the buffer |
| C50 C51 | fbld evaluator | machine = recursive evaluator, both directions |
| C52 C53 | fbld text, missing values | invariants; witnesses: two empty texts, `@tail`/`@plain` of a failed value |
| C61 | running a type checked program | see "Type soundness" below; witnesses for polymorphic types and for an abstract type defined as itself |
| C62 | statements emitted for every instruction, with a semantics of these statements; run functions by name | (1) parametricity: the machine of C13 with any kind of run function (`Rel`, `Interp`); (2) per instruction, the emitted statements equal the interpreter (`csim`), forward jumps by the list of marked targets; (3) blocks of the compiler are distinct, so names are (C35) |
| C64 | lines emitted for every instruction and for its errors, with an operational semantics of these lines; unknown words, accesses outside of the frame, a misaligned stack pointer, missing labels and registers not restored are all `wild` | (1) layout: where each label of a function is (`Laid`); (2) per instruction the lines simulate the interpreter, with an invariant for registers, saved registers and variables on the stack (`Frame`, `Ok`, `instr_ok`); (3) backwards over the instructions (`asim`), determinism; (4) programs as for C62 |
| C65 | labels defined and used by the lines of C64; the list of source files that CollectBlocksAndLocs makes; the texts of labels | the labels of each instruction carry its number (`body_labels`, `outlines_labels`), those of a binary search are numbered (`Select.Refs`); texts are pieces separated by dots, and pieces have no dots (`dots_inj`), so they can be read back |
| C66 | which operands the instructions of AArch64 have room for (immediates of add and sub, offsets of ldr and ldp, distances of branches) | per instruction; distances are at most the length of the function |
| C63 | the type checker of C16; rules about names as a predicate on the abstract syntax (`WF`) | induction over the type checker with the names bound in the scopes as invariant (`tc_sound`) |

## Type soundness

`Safe` proves C61 for programs without polymorphic definitions (`Expr.mono`: no `<@ T@> …` value; type application,
packages, abstract types and casts are allowed).  The steps:

* `Types`: the heap of types while checking has no polymorphic nodes and every chain of type variables ends
  (`MonoHeap`); variables of a `let` get their values later, packages are transparent only during a cast.  `Ends h H`
  relates such a heap to a later one; types that are the same now are the same at the end, where all packages are
  transparent (`same_ends`).
* `Typed`: when a `FbleTc` has a type (`TcTy`), a value has a type in a store of references (`VT`, `StoreOk`), over a
  fixed heap of types; types are compared by `SameType` of the specification of C23 (equal unfoldings), not by the
  code's function.
* `Eval`: the evaluator of C13 on typed input gives typed output, or aborts, or runs out of fuel; it does not crash
  (`eval_good`, `apply_ok`).  The measure is that of the evaluator, so recursion is unbounded.
* `Check`, `Check2`, `CastSame`, `Let*`, `Main`: every function of the type checker makes typed expressions (`tc_safe`).
* `Program`: modules; C13 carries the result over to bytecode.
* `Host/Safe`, `Host/StdioSafe`: the same with functions implemented in C (`VT.native`), whose types are a parameter
  (`Natives`); C61 is the case without any (`noNatives`).

With casts the hypothesis `ProperTypes` is needed: no abstract type is defined as itself.  `Cast.lean` has a program
without it that goes wrong, and one with it.

## Failures of the code found on the way

Each is proved of the model (theorem in brackets) unless marked "read".

* `FblePopFrame` does not raise the caller's `max_gen` when it returns an old or packed value from a frame being
  marked: a reachable value can be freed (`C09_violated`, `C10_violated`).
* `FbleValueFullGc` returns when the last collection cycle has only started (`C11_violated`).
* `FblePrintModulePath` writes names without quotes: the types of different packages are shown alike, and that of the
  root package as `%(/%)`, which is not in the language (`C98_violated`, `C98_root_violated`).
* `StackAlloc` counts the size twice for a new chunk (`C12_violated`).
* The interpreter asserts that a select has a target besides the default; the type checker makes one without for
  a union of one tag (`C06_empty_table_violated`, `C13_empty_select_violated`).
* `TypesEqual` keeps pairs of bound type variables after it left their binders, and `Subst` shares binders: types that
  differ are equal, and a program that type checks looks for the tag of a struct (`C23_violated`, `C61_violated`).
* `TypesEqual` assumes the pair before it opens abstract types, and `FbleTypeIsVacuous` does not look inside of them: with
  `@ A@ = P@<A@>` everything can be cast to everything (`C24_violated`, `C61_cast_violated`).
* Shifts by 64 bits in packing (`C04_violated`); `-x` for the least integer (`C46_violated`).
* The profile of an interpreted program charges the root twice (`C43_violated`).
* `SanitizeString` overflows its buffer for bytes ≥ 0x80 (`C36_signed_char_violated`); paths with `/` in names share
  symbols (`C35_slash_violated`); trigraphs and unescaped locations in generated C (`C37_*_violated`).
* A NUL byte ends a source file (`C33_violated`); the empty name prints as nothing (`C31_empty_name_violated`).
* `FbleDisassemble` prints the block of a profile operation without adding the block of the function (`C95_violated`).
* `GetLine` of fble-perf-profile writes past its buffer (`C49_violated`); an unknown option makes it loop (`C48_violated`).
* fbld: `@tail`, `@plain` of a failed value (`C53_violated`), two empty plain texts (`C52_violated`).
* `TypeCheckModule` reads `module->value` where `module->type` is meant (typecheck.c, read; unreachable, `module->type` is never set).
* In the emitted C a label can come directly before a declaration, which C does not allow before C23 (c.c:316, 441; read).
* aarch64.c (all read): `cbz x0` after `FbleAssignRefValue` tests 64 bits of a `bool`; comments in the debug information name other registers than the ones used; source names in
  `.string` are not escaped (`C37_*_violated`).
* aarch64.c does not check immediates: a function with more than 512 locals does not assemble (`C66_violated`), nor does a module
  with more than 4095 profile blocks in general.
* typecheck.c:935-944 uses a type after releasing it (read).
* `FbleParse` and `FbleParseModulePath` ignore the return code of `yyparse`: for `x;;` or `/x% y` the error is reported, and the
  program or path is returned (`C67_violated`, `C69_violated`), contrary to fble-load.h:77-78 and fble-module-path.h:121-122.
* `YYMAXDEPTH` is not raised and `stmt` is right recursive: a block of 4999 definitions is refused (`C67_stack_violated`).
* The vacuity check of a recursive type is done where a polymorphic type's argument is not known:
  `<<@>@>@ H@ = <<@>@ F@> { @ A@ = F@<A@>; A@; };` is accepted, and `H@<Id@>` has no normal form: the use of a value of
  that type fails an assertion of the type checker (`C71_violated`).
* `x.@(a: e)` where `e` has a type error: an assertion or a null pointer access in the type checker, since there is no return after the error
  (`C71_copy_violated`).
* fbld/parse.c: a same line argument at the end of the input without a newline fails an assertion (`@foo bar`, `C74_violated`), and so
  does a file that ends within a line of an indented block (`C73_violated`); a first line that is a single space counts as blank, since the column
  starts at 0 (`C76_violated`); the byte 0x03 is taken for the end of the input (read); `isalnum` is called with negative values for bytes
  ≥ 0x80 (read).  Commands without a name are accepted (`@ foo`, see `C76_concrete`).
* pkgs/core: a string with the character `unknown` of `Char@` is cut short when C code reads it, so `write` can open another file than the program named
  (`C79_violated`).  FbleStdio does not check that the program has the type it needs (read).
* pkgs/core, pkgs/app: values given to functions implemented in C are read without looking whether they are defined yet.  `Int@ x = { ... io.stdout(x, w) ... };`
  type checks; an assertion of FbleIntValueAccess fails (`C82_violated`).  A `Char@` that is not defined reads `Chars[-1]`, a `Drawing@` fails an assertion (read).
