#!/usr/bin/env python3
"""Generates properties.jsonl.  Edit the table here and rerun."""
import json, os
P = []
def p(id, title, statement, quantifier, why, anchors):
    P.append(dict(id=id, title=title, statement=statement, quantifier=quantifier,
                  why_tests_cant=why, anchors=anchors))

# ---------------------------------------------------------------- values
p("C01", "Struct field access returns the constructor argument",
  "FbleStructValueField(FbleNewStructValue(args), i) denotes exactly args[i], whether the implementation decided to pack the struct in a machine word or to allocate it, and whatever mixture of packed, allocated and previously accessed values the args are.",
  "every argument count, every field index below it, every argument value of any depth, every representation those arguments may have",
  "The packed/unpacked decision depends on bit lengths summed over nested values; 2^64 words and unbounded nesting cannot be sampled, and non-canonical words only appear after particular access sequences.",
  ["lib/value.c:FbleNewStructValue", "lib/value.c:FbleStructValueField", "lib/value.c:PackedValueLength"])
p("C02", "Union tag and argument access return what was constructed",
  "For v = FbleNewUnionValue(tag, arg): FbleUnionValueTag(v) = tag, FbleUnionValueArg(v) denotes arg, FbleUnionValueField(v, tag) denotes arg and FbleUnionValueField(v, t) for t != tag reports the wrong-tag sentinel.",
  "every tag, every argument value and representation, every queried field",
  "Same bit-level boundary cases as C01 (up to the word's sign bit), for unboundedly many tags and values.",
  ["lib/value.c:FbleNewUnionValue", "lib/value.c:FbleUnionValueTag", "lib/value.c:FbleUnionValueArg", "lib/value.c:FbleUnionValueField"])
p("C03", "Packing never loses or confuses data",
  "The packed word of a value determines the value: if two values are packed into the same word by the constructors they are the same value, and a packed word is never confused with a pointer, NULL, or the wrong-tag sentinel.",
  "all pairs of packable values",
  "Requires injectivity over the whole 64-bit space and all value shapes.",
  ["lib/value.c:PackedValueLength", "lib/value.c:FbleNewStructValue", "lib/value.c:FbleNewUnionValue", "lib/value.c:IsPacked"])
p("C04", "Struct construction performs only defined shifts",
  "A call of FbleNewStructValue evaluates a shift by 64 or more bits (undefined behaviour in C) only if the packed code of some argument has 63 or 64 bits and all arguments after it are packed (then it does), and even then the returned value does not depend on the result of the shift.",
  "every argument vector, every result of the undefined shifts",
  "The offending inputs are rare (packed lengths of exactly 64 bits) and the hardware usually masks the mistake, so running the code does not reveal it.",
  ["lib/value.c:FbleNewStructValue", "lib/value.c:PackedValueLength"])
p("C05", "List and literal values have the specified elements in order",
  "FbleNewListValue(args) is the cons list of args in order, and FbleNewLiteralValue(letters) is the list of enum values with those tags in order: walking it with union tag / struct field accessors yields exactly the inputs followed by the empty list.",
  "every argument vector of any length",
  "Unbounded list length and element representation.",
  ["lib/value.c:FbleNewListValue", "lib/value.c:FbleNewLiteralValue"])
p("C06", "Union select takes the branch of the value's tag",
  "Executing a union select on a value with tag t continues at the branch listed for t, and at the default branch if and only if t is not listed; the interpreter's search agrees with a plain table lookup. (Exception: a table without any listed branch, which a select on a union with one tag elaborates to, fails an assertion in the interpreter, although not in generated code.)",
  "every sorted branch table of any size but the empty one, every tag",
  "Binary search off-by-one errors show only for particular table sizes and positions.",
  ["lib/interpret.c:RunCode", "lib/compile.c:CompileExpr", "lib/code.h:FbleUnionSelectInstr"])
p("C07", "Function calls behave as curried application",
  "FbleCall on a function of arity n with m arguments gives the same result as applying the function one argument at a time: partial application when m < n, a direct call when m = n, calling the result on the rest when m > n, and tail calls are equivalent to ordinary calls; a call to an undefined function or an aborting callee aborts.",
  "every function, arity, argument count and nesting of partial, over-saturated and tail calls",
  "Arity mismatches compose without bound (partial applications of partial applications, tail calls with left over arguments).",
  ["lib/value.c:FbleCall", "lib/value.c:FbleTailCall", "lib/value.c:TailCall", "lib/value.c:PartialApplyImpl"])
p("C08", "Reference assignment rejects exactly the vacuous definitions and reads terminate",
  "FbleAssignRefValue(ref, v) fails exactly when v is, through a chain of already assigned references, ref itself; after any history of reference creations and successful assignments, following references from any value terminates at a non-reference or at an unassigned reference.",
  "every history of reference creation and assignment",
  "A cycle needs a particular assignment order and would show as a hang; all histories are needed.",
  ["lib/value.c:FbleAssignRefValue", "lib/value.c:StrictValue"])
p("C09", "The value garbage collector never frees a reachable value",
  "After any sequence of heap operations (allocate, add references, push frame, pop frame, compact frame, incremental gc steps) every value reachable from a value the caller is still entitled to use is still allocated, and the collector never touches freed memory. (Exception, a bug in the code: if a frame is popped while the collector is in the middle of marking it, and the returned value does not belong to that frame, a value in use can be freed later; without such a pop the property holds.)",
  "every sequence of heap operations, every object graph (including cycles), every interleaving of incremental gc steps with frame pops",
  "The collector is incremental, generational and interrupted by frame pops; failures need precise interleavings.",
  ["lib/value.c:IncrGc", "lib/value.c:MarkRefs", "lib/value.c:FblePopFrame", "lib/value.c:CompactFrame", "lib/value.c:FblePushFrame"])
p("C10", "Every value is freed at most once, and exactly once by the time the heap is freed",
  "No heap operation sequence frees a value twice, and after FbleFreeValueHeap every value ever allocated on the heap has been freed, so every native value's on_free callback runs exactly once. (Same exception as C09.)",
  "every sequence of heap operations followed by freeing the heap",
  "Double frees and leaks depend on the gc phase in which the heap is torn down.",
  ["lib/value.c:FbleFreeValueHeap", "lib/value.c:FreeGcValue", "lib/value.c:IncrGc", "lib/value.c:FbleNewNativeValue"])
p("C11", "A full garbage collection reclaims all garbage",
  "FbleValueFullGc terminates, and once the collector has made enough steps every object that is left is reachable from a value handed to the caller in some live frame, from an object of a live frame that was created or found reachable since the frame was last compacted, or from what the collection in progress at the time of the call had already marked. (FbleValueFullGc itself may return before this point, with garbage still allocated: it stops as soon as the last collection has begun.)",
  "every heap state",
  "Needs all intermediate states of the incremental collector at the moment of the call.",
  ["lib/value.c:FbleValueFullGc", "lib/value.c:IncrGc"])
p("C12", "Stack allocation stays inside the chunk and never overlaps",
  "Over any sequence of allocations of at most (2^20-8)/2 bytes, frame pushes, pops and compactions, merged or not, every piece of stack memory handed out lies within its chunk and overlaps no other piece that is still live in the same or an outer frame, and freeing the heap frees each chunk exactly once. (A larger allocation that does not fit in the rest of the current chunk is placed so that it runs over the end of the new chunk. FbleNewValueHeap leaves the chunk list of the first frame uninitialised, which freeing the heap follows unless the memory happens to hold zero.)",
  "every sequence of frame pushes, pops, compactions and allocations of any sizes",
  "Chunk boundaries are crossed only after a megabyte of allocation; the sequences are unbounded.",
  ["lib/value.c:StackAlloc", "lib/value.c:FblePushFrame", "lib/value.c:FblePopFrame", "lib/value.c:CompactFrame", "lib/value.c:FbleFreeValueHeap"])
p("C13", "Compiled code computes what the source expression means",
  "Running the bytecode produced by the compiler for a type-checked expression gives the same result (value or abort) as the direct meaning of the expression, for every expression form: variables, let (recursive and not), struct/union values, access, copy, select, functions (including merged multi-argument functions), application (including merged applications), lists and literals. The same holds for a whole program, module by module, after linking. (Exception, a bug in the code: a select on a union type with a single tag compiles to a select with an empty branch table, at which the interpreter fails an assertion.)",
  "every type-checked expression, every argument and captured environment",
  "Slot reuse, function/application merging and tail positions interact in unboundedly many nestings.",
  ["lib/compile.c:CompileExpr", "lib/compile.c:RewriteVars", "lib/interpret.c:RunCode"])
p("C14", "Compiled code only touches its own frame",
  "Every local slot read or written by compiled code is below the declared number of locals, every static and argument index is below the declared counts, every jump goes strictly forward to an instruction of the same function, and control never runs past the end.",
  "every expression compiled",
  "Out of range slots are silent memory corruption at run time and depend on nesting.",
  ["lib/compile.c:NewLocal", "lib/compile.c:CompileExpr", "lib/compile.c:AppendInstr"])
p("C15", "Profile blocks are balanced in compiled code",
  "On every execution path of a compiled function the enter, replace and exit profile operations are balanced: no operation exits the block the function was called in, and when the function returns or makes a tail call the profile stack is as deep as at entry and one sample has been recorded for each instruction executed (an abort in between leaves the blocks entered so far on the stack). Every block id used is below the number of blocks allocated for the module.",
  "every expression compiled, every path through it",
  "Paths are exponential in nested selects.",
  ["lib/compile.c:EnterBlock", "lib/compile.c:ExitBlock", "lib/compile.c:CompileExpr"])
# ---------------------------------------------------------------- typecheck
p("C16", "Variable resolution finds the innermost binding and captures it faithfully",
  "Looking up a name through nested function scopes yields the innermost binding of that name, and the generated static/argument/local index denotes, in the closure built at run time, exactly the value of that binding: a program that type checks gives what it means when variables are looked up by name (an operation on a value of the wrong type, which C23 shows is possible, counts as a result of its own).",
  "every program that type checks, of any number of modules",
  "Capture chains through arbitrarily many nested functions with shadowing.",
  ["lib/typecheck.c:GetVar", "lib/typecheck.c:InitScope", "lib/typecheck.c:PushLocalVar"])
p("C17", "Union select elaboration covers every tag with the right branch",
  "If a union select type checks, then for every tag of the union the generated table sends that tag to the branch written for that field name, or to the default branch if the field has no branch; without a default branch every field has one.",
  "every union type, every list of branches, with and without default",
  "Field order, missing branches and the reuse of the last branch as default combine without bound.",
  ["lib/typecheck.c:TypeCheckExprWithCleaner", "lib/tc.h:FbleUnionSelectTc"])
p("C18", "Struct copy takes each field from the right place",
  "If a struct copy type checks, every field named in the copy comes from the supplied argument of that name and every other field from the source struct, and every supplied argument is used.",
  "every struct type and argument list",
  "All subsets and orders of fields.",
  ["lib/typecheck.c:TypeCheckExprWithCleaner", "lib/tc.h:FbleStructCopyTc"])
p("C19", "Literals are split by longest match and cover the word exactly",
  "If a literal type checks, its letters' field names concatenate to exactly the literal's word, each letter being the longest field name that is a prefix of the remaining text; otherwise some suffix of the word has no field name as prefix (or a matched field is not unit typed).",
  "every union type and word",
  "Unbounded words and alphabets with names that are prefixes of each other.",
  ["lib/typecheck.c:TypeCheckExprWithCleaner"])
p("C20", "Abstract values are only opened inside their package",
  "A cast to, construction of, or access into an abstract type of a package type checks only in a module whose path begins with the package path.",
  "every module path and package path",
  "All pairs of paths, including those that share textual but not component prefixes.",
  ["lib/module-path.c:FbleModuleBelongsToPackage", "lib/typecheck.c:TypeCheckExprWithCleaner"])
p("C21", "Unused variable warnings are exact",
  "A let variable or function argument is warned about exactly when its name does not begin with an underscore and it is not used by the expression it scopes over (for let: not reachable from the body or from a variable whose name begins with an underscore, through used bindings); nothing within the expression of an unused let variable counts as a use or is warned about; no warning is printed twice.",
  "every expression",
  "Fixpoint over mutually recursive bindings with shadowing.",
  ["lib/unused.c:FbleWarnAboutUnusedVars", "lib/unused.c:Expr"])
p("C22", "Kind equality and levels behave as equality of kinds at levels",
  "FbleKindsEqual is an equivalence relation coinciding with structural equality of kinds, and the kind level / level adjustment functions satisfy their arithmetic laws.",
  "all kinds of any depth",
  "Unbounded nesting of poly kinds.",
  ["lib/type.c:FbleKindsEqual", "lib/type.c:FbleGetKindLevel", "lib/type.c:LevelAdjustedKind"])
p("C23", "Type equality decides equality of recursive types",
  "For any two non-polymorphic types, cyclic or not, FbleTypesEqual ends without failing and accepts them exactly if they unfold to the same possibly infinite tree. (For polymorphic types the claim is false: after <T><U>(U){T} is applied to itself, two different types are accepted as equal to the result.)",
  "all pairs of types in all finite cyclic type graphs in which every cycle goes through a proper type",
  "Cyclic types unfold without bound.",
  ["lib/type.c:FbleTypesEqual", "lib/type.c:TypesEqual", "lib/type.c:Normal"])
p("C24", "Opening a package makes exactly its abstract types transparent",
  "While a package is open, two non-polymorphic types are accepted as equal exactly if they unfold to the same tree after replacing abstract types of that package by their underlying types; abstract types of packages that are not open are equal only to abstract types of the same package with the same type inside. (Except that a cycle consisting of an abstract type alone, A = Pkg<A>, which is not reported as vacuous, is equal to everything.)",
  "all pairs of type graphs with abstract types, every package",
  "Needs contrived recursive abstract types.",
  ["lib/type.c:TypesEqual", "lib/type.c:FbleTypeIsVacuous", "lib/typecheck.c:TypeCheckExprWithCleaner"])
p("C25", "The type heap frees exactly the types that are no longer needed",
  "Under any sequence of allocate, retain, release, add-reference and gc steps of the type heap, a type reachable from a retained type is never freed, no type is freed twice and freed memory is never touched; a full collection (as when the heap is freed) terminates and leaves exactly the types reachable from retained ones, including when the garbage is cyclic.",
  "every operation sequence, every graph including cycles",
  "Incremental cycle-collecting gc; interleaving dependent.",
  ["lib/type-heap.c:FbleRetainType", "lib/type-heap.c:FbleReleaseType", "lib/type-heap.c:IncrGc", "lib/type-heap.c:FbleTypeAddRef"])
# ---------------------------------------------------------------- load / link
p("C26", "Loading yields a dependency-ordered, duplicate-free, closed program",
  "If FbleLoad succeeds, the requested module is last, no two modules have the same path, every dependency of every module occurs earlier in the list, and every module in the list is needed (transitively) by the requested one.",
  "every module graph (any number of modules, any dependency lists)",
  "All graphs.",
  ["lib/load.c:FbleLoad"])
p("C27", "Loading fails exactly on missing, unparseable or cyclic dependencies",
  "FbleLoad terminates on every finite set of modules and returns NULL if and only if some transitively needed module is missing or fails to parse, or the needed modules contain a dependency cycle.",
  "every module graph",
  "Cycle detection must hold for cycles of every length.",
  ["lib/load.c:FbleLoad"])
p("C28", "Linking passes each module the values of its own dependencies",
  "In the linked program the i-th argument given to each module's code is the value computed for the module with the path of its i-th dependency.",
  "every loaded program",
  "All graphs and orders.",
  ["lib/link.c:FbleLink"])
p("C29", "Package search inspects exactly the directories in the path, in order",
  "FbleFindPackage looks for the package in each colon separated component of FBLE_PACKAGE_PATH from left to right (ignoring one trailing colon), then in the default path, and returns the first that exists.",
  "every path string and file system",
  "All strings: empty components, trailing colons.",
  ["lib/load.c:FbleFindPackage"])
p("C30", "Build dependency files list every dependency and respect the column limit",
  "The text written by FbleSaveBuildDeps, read as a make rule (backslash-newline joins lines), lists exactly the given dependencies in order for the target provided no name contains a blank, newline or backslash (these are not escaped, so such names are listed wrongly), and the text of no line is longer than 80 columns unless it holds a single name.",
  "every target and dependency list",
  "Wrapping depends on the lengths of all names.",
  ["lib/load.c:FbleSaveBuildDeps"])
# ---------------------------------------------------------------- names, lexing, mangling
p("C31", "A printed name reads back as the same name",
  "For every nonempty name, whatever characters it contains, the output of FblePrintName followed by any text that does not continue a word is read by the lexer and parser as exactly that name, the lexer continuing right after it; distinct nonempty names print differently. (The empty name, written '' in source, prints as nothing and does not read back.)",
  "every name and every following text",
  "All byte strings.",
  ["lib/name.c:FblePrintName", "lib/parse.y:yylex", "lib/parse.y:FbleIsPlainWord"])
p("C32", "Source locations count lines and columns exactly",
  "After reading any prefix of the input, the lexer's location has line = 1 + number of newlines read and column = number of characters since the last newline.",
  "every input and every prefix",
  "All inputs.",
  ["lib/parse.y:ReadNextChar"])
p("C33", "The whole source file is read",
  "The tokens the parser receives up to the end token, with the white space and comments between them, spell the whole source file, for every file without NUL bytes. (A NUL byte between tokens is taken as the end of the file and the text after it is silently ignored.)",
  "every source file",
  "The offending bytes are unusual (NUL, 0xFF).",
  ["lib/parse.y:yylex", "lib/parse.y:ReadNextChar"])
p("C34", "Module path equality and package membership are componentwise",
  "FbleModulePathsEqual holds exactly when the component lists are equal, and FbleModuleBelongsToPackage exactly when the package's components are a prefix of the module's.",
  "every pair of paths",
  "All lengths and names.",
  ["lib/module-path.c:FbleModulePathsEqual", "lib/module-path.c:FbleModuleBelongsToPackage", "lib/name.c:FbleNamesEqual"])
p("C35", "Different modules get different link symbols",
  "The symbol generated for a module path is a valid identifier, and two different module paths whose names contain no slash (the only ones the loader can find) never get the same symbol; nor do the functions of different blocks of a module. (Names with slashes collide: /a/b% and /'a/b'%.)",
  "every pair of module paths",
  "All strings.",
  ["lib/c.c:LabelForPath", "lib/aarch64.c:LabelForPath", "lib/c.c:SanitizeString"])
p("C36", "Symbol generation stays inside its buffers",
  "On a platform where char is unsigned, and for names of ASCII characters on every platform, generating the symbol for a module path or function name writes no more bytes than its buffers hold. (Where char is signed a byte of 0x80 or more is printed with eight hex digits into a five byte buffer.)",
  "every module path and function name",
  "Only non-ASCII names on signed-char platforms misbehave.",
  ["lib/c.c:SanitizeString", "lib/c.c:LabelForPath", "lib/c.c:SizeofSanitizedString"])
p("C37", "Emitted string literals denote the original string",
  "The C string literal emitted for a string without trigraphs, read by the C99 rules, denotes exactly the original bytes, and the assembler literal emitted for any string denotes exactly that string. (A trigraph changes the C literal, and source file names in abort messages are emitted without escaping.)",
  "every string",
  "All byte strings.",
  ["lib/c.c:StringLit", "lib/aarch64.c:StringLit"])
p("C38", "The generated decision tree implements the branch table",
  "The compare-and-branch code emitted for a union select by the aarch64 backend reaches, for every tag below the number of tags, the branch the table lists for it, or the default.",
  "every sorted branch table, every number of tags, every tag",
  "Off-by-one errors at interval ends for particular tables.",
  ["lib/aarch64.c:EmitSearch", "lib/aarch64.c:GetSingleTarget"])
# ---------------------------------------------------------------- profile
p("C39", "Profile call counts are exact",
  "After any well-nested sequence of enter, replace, exit and sample operations, the count recorded for a block equals the number of times it was entered and the count recorded for a caller/callee pair equals the number of times the callee was entered from that caller.",
  "every operation sequence",
  "All histories, recursion included.",
  ["lib/profile.c:EnterBlock", "lib/profile.c:FbleProfileExitBlock", "lib/profile.c:GetCallData"])
p("C40", "Profile time attribution is exact",
  "The self time of a block is the total of samples taken while it is the current block; its total time is the total of samples taken while it is anywhere on the call stack, counted once per sample even under recursion; likewise for each caller/callee edge.",
  "every operation sequence",
  "Recursion and replace (tail calls) of any depth.",
  ["lib/profile.c:FbleProfileSample", "lib/profile.c:EnterBlock", "lib/profile.c:FbleProfileExitBlock"])
p("C41", "Looking up a callee in a caller's call list is exact and keeps it sorted",
  "The per-caller call list stays strictly sorted by callee and each lookup returns the unique entry of that callee, creating a zero entry exactly if there was none.",
  "every list and callee",
  "Binary search plus insertion boundaries.",
  ["lib/profile.c:GetCallData"])
p("C42", "Profile report sorting is a sorted permutation",
  "The report's merge sort returns a permutation of its input sorted by time, keeping equal elements in order.",
  "every list",
  "All lengths and tie patterns.",
  ["lib/profile.c:MergeSortCallData", "lib/profile.c:SortCallData"])
p("C43", "The root block is charged once per sample",
  "In every run of a program linked from generated modules each sample is charged to the root block exactly once; in general the root is charged once per sample, and once more while block 0 is on the call stack. (A program linked for the interpreter enters block 0 for its main function, so all its samples are charged twice.)",
  "every program",
  "Requires looking at the interplay of linker and profiler for every execution.",
  ["lib/link.c:LinkInterpreted", "lib/link.c:LinkGenerated", "lib/profile.c:FbleProfileSample"])
# ---------------------------------------------------------------- support library
p("C44", "Vectors never write past their allocation and behave as lists",
  "After any number of FbleAppendToVector calls the vector's contents are the appended elements in order and its allocation always has room for its size.",
  "every number of appends",
  "Capacity is implicit (never stored), so the invariant must hold for every size.",
  ["lib/vector.c:FbleExtendVectorRaw", "include/fble/fble-vector.h", "fbld/vector.c:FbldExtendVectorRaw"])
p("C45", "Allocation accounting is exact",
  "After any sequence of allocate, reallocate and free the tracked total equals the sum of the sizes of the live allocations, and the recorded maximum is the maximum the total has had since the last reset; the leak check at exit reports a leak exactly if an allocation of nonzero size is still live (as long as less than 2^64 bytes are live).",
  "every operation sequence",
  "All histories.",
  ["lib/alloc.c:FbleAllocRaw", "lib/alloc.c:FbleReAllocRaw", "lib/alloc.c:FbleFree"])
p("C46", "Integers survive the round trip through fble values",
  "FbleIntValueAccess(FbleNewIntValue(x)) = x (except for the least integer, -2^63, on which the code computes -x, an overflow).",
  "every 64-bit x",
  "2^64 inputs including the most negative one.",
  ["pkgs/core/int.fble.c:FbleNewIntValue", "pkgs/core/int.fble.c:FbleIntValueAccess"])
p("C47", "Strings survive the round trip through fble values",
  "FbleStringValueAccess(FbleNewStringValue(s)) = s with every character that the Char@ type does not have replaced by '?'.",
  "every C string",
  "All strings.",
  ["pkgs/core/string.fble.c:FbleNewStringValue", "pkgs/core/string.fble.c:FbleStringValueAccess", "pkgs/core/char.fble.c"])
p("C48", "Command line option parsing consumes exactly its option",
  "For each of the programs, a command line made of its options (with their values, -I also joined) sets exactly the destinations of those options, in order, and consumes exactly them; a missing value, a second module path or an unknown option is reported as an error, and the programs that take further arguments leave those (after an optional --) untouched. (fble-perf-profile is the exception: on any argument that is not one of its options it loops forever.)",
  "every argument vector",
  "All argument vectors.",
  ["lib/arg-parse.c", "bin/fble-perf-profile.c:main", "pkgs/core/stdio.fble.c:FbleStdioMain"])
p("C49", "Reading a line never writes outside the line buffer",
  "GetLine of fble-perf-profile reads a line of any length, consumes exactly that line, says whether it ended in a newline, and returns its characters followed by a NUL. It writes outside the buffer exactly when the length of the line is one of the capacities c, 2(c+1), 2(2(c+1)+1), ... that the buffer takes on (so already when the first line is empty, where it writes through a null pointer).",
  "every input, every initial buffer capacity reached",
  "Only lines whose length equals the capacity misbehave.",
  ["bin/fble-perf-profile.c:GetLine"])
# ---------------------------------------------------------------- fbld
p("C50", "fbld evaluation implements the language definition",
  "The command-stack evaluator returns the same markup as direct recursive evaluation (static scoping, call by value arguments, eager let), and fails exactly when that evaluation meets an error. (A run can also be stopped by the assertion of C52.)",
  "every markup document whose evaluation terminates",
  "Unbounded nesting of user commands, conditionals and defines.",
  ["fbld/eval.c:Eval", "fbld/eval.c:FbldEval"])
p("C51", "fbld conditionals compare text",
  "@ifeq takes its first branch exactly when the two evaluated arguments have the same text, irrespective of how the text is split into sequences; @head and @tail return the first character and the rest of the text.",
  "every pair of plain/sequence markups",
  "All nestings of sequences with empty parts.",
  ["fbld/eval.c:Eq", "fbld/eval.c:HeadOf", "fbld/eval.c:TailOf"])
p("C52", "fbld text concatenation stays inside its buffer",
  "FbldTextOfMarkup returns the concatenation of all plain text in order and never writes outside its growing buffer; FbldPrintMarkup prints that text. (If the first two plain texts are both empty, FbldTextOfMarkup trips its own assertion.)",
  "every markup",
  "Only particular sequences of empty pieces misbehave.",
  ["fbld/markup.c:TextOfMarkup", "fbld/markup.c:FbldTextOfMarkup"])
p("C53", "fbld evaluation never dereferences a missing value",
  "Evaluating a document that contains an error reports the error and does not return a value; it never dereferences a missing value. (@tail and @plain of a failed value do crash, after the error has been reported; and the assertion of C52 can stop a run.)",
  "every document",
  "Crash needs an error nested in particular commands.",
  ["fbld/eval.c:TailOf", "fbld/eval.c:MapPlain", "fbld/eval.c:Eval"])

p("C54", "A printed module path parses back",
  "FbleParseModulePath applied to what FblePrintModulePath writes for a nonempty path whose names are unquoted words gives the same path; FbleModulePathName builds the same text within the buffer it allocates. (Names with special characters print ambiguously: /a/b% and /'a/b'%.)",
  "every module path",
  "Names and paths of any length over all characters.",
  ["lib/module-path.c:FblePrintModulePath", "lib/module-path.c:FbleModulePathName", "lib/parse.y:FbleParseModulePath"])
p("C55", "Modules are found at the first search root that has them, and different modules in different files",
  "Finding a module returns root/a/b/c.fble for the first root of the search path where that file exists and records exactly that file as a build dependency; a name containing a slash is never found; under one root two different module paths never resolve to the same file.",
  "every search path, module path and file system",
  "Unboundedly many names; slash in a name is the corner case that would confuse two modules.",
  ["lib/load.c:FindAt", "lib/load.c:Find"])
p("C56", "The profiler's call stack is a stack at every depth",
  "For every sequence of block entries, replacements and exits, at any depth, the profiler's chunked call stack accesses no memory outside its chunks, always shows the entry on top that a plain list would, and no chunk is lost when the thread is freed.",
  "every sequence of pushes, overwrites and pops",
  "Behaviour at chunk boundaries depends on how often and in which order they are crossed.",
  ["lib/profile.c:CallStackPush", "lib/profile.c:CallStackPop", "lib/profile.c:FbleFreeProfileThread"])
p("C57", "A perf report is converted to the right profile",
  "For every perf report and every list of squashed functions, fble-perf-profile makes exactly one block per function that is not squashed; the time of a function is the total of the lines it is on, each counted once however often the function occurs there; its self time is the total of the lines that end with it after squashing; the root's time is the total of all lines (plus that of the lines on which a function called <root> occurs).",
  "every report and list of squashed functions",
  "Recursion on the sampled stacks and squashing interact in unboundedly many ways.",
  ["bin/fble-perf-profile.c:Sample", "bin/fble-perf-profile.c:GetBlockId", "lib/profile.c:FbleProfileSample"])
p("C58", "Type inference finds the types that make two types equal",
  "For non-polymorphic types FbleTypeInfer ends, and succeeds exactly if there are types for the given variables that make the abstract type the same as the concrete one; the types it assigns are parts of the concrete type, only the given variables are assigned, and with them the two types unfold to the same tree.",
  "all pairs of cyclic type graphs and all lists of variables not occurring in the concrete type",
  "Unbounded graphs; the result depends on the order in which parts are visited.",
  ["lib/type.c:FbleTypeInfer", "lib/type.c:TypesEqual"])
p("C59", "List types are recognized exactly",
  "For non-polymorphic types FbleListElementType ends and returns an element type exactly for unions of a struct of an element and the same type again, and the empty struct; it returns that element's type.",
  "all types in all cyclic type graphs",
  "Recursive types unfold without bound.",
  ["lib/type.c:FbleListElementType"])
p("C60", "From source to bytecode",
  "A program that type checks compiles, and running the linked bytecode gives the value that the source expressions mean by names (except for a program with a select that has no branch besides the default or the like, which stops the interpreter; an operation on a value of the wrong type, which C23 shows is possible, counts as a result of its own).",
  "all programs of any number of modules, all lengths of runs",
  "Type checker, compiler, linker and interpreter together, for unboundedly many programs.",
  ["lib/typecheck.c:FbleTypeCheckProgram", "lib/compile.c:FbleCompileProgram", "lib/link.c:FbleLink", "lib/interpret.c:FbleInterpret"])
p("C61", "Programs that type check do not go wrong",
  "Running a program that type checks never applies an operation to a value of the wrong kind: no call of something that is not a function, no tag of something that is not a union, no missing field or branch (except with polymorphic definitions, see C23, and with casts to an abstract type that is defined as itself, see C24: for both a program that type checks and goes wrong is proved to exist; and for a select that has only a default branch, see C13).",
  "all programs that type check, all lengths of runs",
  "Unboundedly many programs, types and values; soundness rests on an invariant of all reachable values.",
  ["lib/typecheck.c:FbleTypeCheckProgram", "lib/type.c:FbleTypesEqual", "lib/interpret.c:FbleInterpret"])
p("C62", "Programs compiled to C do what they mean",
  "Every program whose expressions are in scope can be compiled to C; the C code is well formed (nothing is declared twice, labels and functions that are used are there); and running it, with the interpreted main function and any mixture of calls, tail calls and partial applications, gives the value the program means, or aborts, exactly as the interpreter does. It never reads a variable without a value, uses NULL or FbleWrongUnionTag as a value, or runs off the end of a function (for names of blocks with bytes that C36 allows, selects that have a branch besides the default, and up to the first use of a value as one of another type, which there is none of in the well typed programs of C61).",
  "all programs of any number of modules and functions, all lengths of runs",
  "Two code generators and an interpreter have to agree on unboundedly many programs; tests compare them on a few.",
  ["lib/c.c:FbleGenerateC", "lib/c.c:EmitCode", "lib/c.c:CollectBlocks", "lib/link.c:LinkGenerated"])
p("C63", "Names that are bound twice or not at all are rejected",
  "In a program that type checks, in every expression at every depth of every module: the variables of a let, the fields of a struct value, of a struct or union type, of a struct copy and the choices of a select have different names; a type parameter has the name of a type and a kind of types; every variable that is used is bound by an expression around it; and every module that is referred to is a dependency of its module that comes before it in the program.",
  "all programs, all expressions in them at any depth",
  "The rules must hold at every depth, also in types, defaults and annotations, where a traversal is easily forgotten.",
  ["lib/typecheck.c:TypeCheckExprWithCleaner", "lib/typecheck.c:TypeCheckTypeWithCleaner", "lib/typecheck.c:GetVar"])
p("C64", "Programs compiled to AArch64 assembly do what they mean",
  "Every program whose expressions are in scope can be compiled to AArch64 assembly, and running it, profiling or not, gives the value the program means, or aborts, exactly as the interpreter does. Each run of each function makes the same profile operations, calls and function values, and reports the same errors at the same locations in the same order as the interpreter. The code never uses a register or a word of the stack that has no value, never accesses the stack outside of its frame, keeps the stack pointer aligned to 16 bytes, never jumps to a label that is not there, and returns with the stack pointer and the callee saved registers of its caller (for names of blocks with bytes that C36 allows, selects that have a branch besides the default, and up to the first use of a value as one of another type, which there is none of in the well typed programs of C61).",
  "all programs of any number of modules and functions, profiling or not, all lengths of runs",
  "Registers, stack and labels have to be right in every function of unboundedly many programs; tests run a few.",
  ["lib/aarch64.c:FbleGenerateAArch64", "lib/aarch64.c:EmitCode", "lib/aarch64.c:EmitInstr", "lib/aarch64.c:EmitOutlineCode", "lib/aarch64.c:DoAbort"])
p("C65", "Labels of the assembly are defined once",
  "In the assembly of a module every label is defined once and every label used is defined: branches in a function go to labels of that function, the tables of function values name run functions that are there, errors name source files whose text is there. The texts of all the labels of the file, of all functions and for all source files, are different (for names of files and blocks with bytes that C36 allows; labels of the description of the module and of debug information are left out).",
  "all programs of any number of modules and functions, all locations",
  "Labels are made from numbers and names; that no two of unboundedly many coincide needs an argument about the formats.",
  ["lib/aarch64.c:EmitCode", "lib/aarch64.c:EmitInstr", "lib/aarch64.c:EmitSearch", "lib/aarch64.c:EmitOutlineCode", "lib/aarch64.c:CollectBlocksAndLocs", "lib/aarch64.c:SanitizeString"])
p("C66", "Instructions of the assembly exist",
  "The operands of every emitted instruction have an encoding: registers, immediates, offsets into frame and arguments, and distances of branches (for functions with at most 512 local variables, arguments and captured variables, offsets of blocks and tags selected by at most 4095, tags, lines and columns less than 65536, and less than 1 MB of code; a function with more local variables is emitted without an error, and proved to have no encoding).",
  "all functions within the limits, of any number of instructions up to 1 MB",
  "Limits of encodings are met only by large programs, which tests do not have.",
  ["lib/aarch64.c:EmitCode", "lib/aarch64.c:EmitInstr", "lib/aarch64.c:StackBytesForCount", "lib/aarch64.c:GetFrameVar"])
p("C67", "The parser accepts exactly the programs of the grammar",
  "FbleParse ends for every file, and never reads a value that was not stored. It reports no error exactly if the text spells a program of the grammar, one statement and nothing after it, and then the result is the expression that the program stands for; no text spells two different programs. (Exceptions: programs so deeply nested that they need more than 9998 entries of the parser's stack are refused, for instance one with 4999 definitions in a row; a NUL byte ends the text, see C33; when a program is followed by something else, which is reported as an error, the program is returned nevertheless, although the documentation says NULL.)",
  "every text of any length",
  "Precedence, optional parts and lookahead interact in unboundedly many texts; an ambiguity or a wrong table entry shows only for some of them.",
  ["lib/parse.y:FbleParse", "lib/parse.y:expr", "lib/parse.y:stmt", "lib/parse.y:yylex"])
p("C68", "The parser lists the modules a program refers to",
  "The dependencies FbleParse gives for a program are the module paths that occur in it, each once, in the order in which they occur first.",
  "every program",
  "Module paths occur anywhere in a program, in any number, also inside of types and blocks.",
  ["lib/parse.y:FbleParse", "lib/parse.y:expr"])
p("C69", "Module paths are parsed exactly",
  "FbleParseModulePath ends for every string; it reports no error exactly if the string spells a module path, and then gives the names in it. (When a module path is followed by something else the error is reported and the path is returned nevertheless; a byte 0xFF ends the string.)",
  "every string of any length",
  "Strings of any length over all bytes.",
  ["lib/parse.y:FbleParseModulePath", "lib/parse.y:module_path"])
p("C70", "From source files to the result",
  "FbleLoad finds, for every module used, the first of the files of its name in the search path, and the program it gives consists of what the texts of these files spell, each module once, the requested one last. Every module path in a module refers to a module that comes before it in the program. If the texts of all modules used spell programs and no module uses itself, the program is loaded; if a module has no text that begins with a program, or uses itself, NULL is returned. A loaded program that type checks compiles, and running it gives the value that the texts mean by names (with the exceptions of C60, C67).",
  "all file systems, search paths, programs of any number of files and all lengths of runs",
  "Search, lexer, parser, loader, type checker, compiler and linker together, for unboundedly many programs.",
  ["lib/load.c:FbleLoad", "lib/parse.y:FbleParse", "lib/typecheck.c:FbleTypeCheckProgram", "lib/compile.c:FbleCompileProgram", "lib/link.c:FbleLink"])
p("C71", "The type checker does not crash",
  "FbleTypeCheckProgram ends with a program or with errors: none of its assertions fails, however wrong the program is (for programs without polymorphic definitions and without struct copies; for each of the two there is a program that makes an assertion fail).",
  "all loaded programs of any size without polymorphic definitions and struct copies, with any type errors",
  "What reaches an assertion depends on recursive types and on errors in other places; programs with type errors are unboundedly many, and few are in tests.",
  ["lib/typecheck.c:FbleTypeCheckProgram", "lib/typecheck.c:TypeCheckExpr", "lib/type.c:FbleNormalType", "lib/type.c:FbleTypeIsVacuous"])
p("C72", "Type checking ends",
  "FbleTypeCheckProgram returns for every program: normalising and comparing recursive types does not go on for ever (for programs without polymorphic definitions and without struct copies).",
  "all loaded programs of any size without polymorphic definitions and struct copies, with recursive and mutually recursive types and any type errors",
  "Recursive types are cyclic and the functions on them stop only because they remember where they have been; a test that ends says nothing about the next program.",
  ["lib/typecheck.c:FbleTypeCheckProgram", "lib/type.c:TypesEqual", "lib/type.c:Normal", "lib/type.c:FbleTypeIsVacuous", "lib/type.c:FbleGetKind"])
p("C73", "fbld reads its input files as one text",
  "FbldParse gives the same result for the same text, however the text is divided into input files, if every file ends at the end of a line (a file that ends within an indented line makes an assertion fail).",
  "all lists of input files of any length and all ways to divide a text into files at line ends, also empty files",
  "The parser looks ahead across file ends, through indentation, at any place of its grammar.",
  ["fbld/parse.c:FbldParse", "fbld/parse.c:GetChar", "fbld/parse.c:Advance", "fbld/parse.c:Is"])
p("C74", "The fbld parser ends with a document or an error",
  "FbldParse returns a document, or NULL after an error message, for all inputs in which every file ends at the end of a line and the byte 0x03 does not occur: it does not go on for ever and none of its assertions fails (without the last newline one fails for a same line argument).",
  "all input texts of any length and nesting",
  "Malformed documents are unboundedly many; that nested blocks and arguments always leave the lexer where the next assertion expects it is an invariant of the whole parser.",
  ["fbld/parse.c:FbldParse", "fbld/parse.c:Advance", "fbld/parse.c:ParseBlock", "fbld/parse.c:ParseBlockCommand", "fbld/parse.c:ParseInline", "fbld/parse.c:ParseInlineArgs"])
p("C75", "fbld documents mean what the manual says",
  "A document that is written according to the syntax of the manual is parsed as what the manual says it means: paragraphs, explicit paragraphs, commands with inline, inline literal, same line, next line, next line literal, same line final and next line final arguments, continuations, escapes, blank lines. A text has only one meaning.",
  "all documents of any size and nesting depth, with any numbers of blank lines",
  "The argument kinds combine and nest in unboundedly many ways, each block changes how the lines in it are read.",
  ["fbld/parse.c:FbldParse", "fbld/parse.c:ParseBlockCommand", "fbld/parse.c:ParseInline", "fbld/fbld.fbld:syntax"])
p("C76", "Indented fbld text keeps its meaning",
  "If a text is a document, then the same text with every line indented by a space is the argument of a command on the line before, with the same document, and the lines after it are read as without the command; if the text is an error, so is the whole. (Not for a text that starts with a line that is a single space: at the start of the input this is taken for a blank line.)",
  "all texts, also those no manual describes, and all texts that can follow",
  "Indentation is removed by the lexer at every character and at any depth; texts are unboundedly many.",
  ["fbld/parse.c:GetChar", "fbld/parse.c:Advance", "fbld/parse.c:ParseBlockCommand", "fbld/parse.c:ParseBlock"])
p("C77", "Programs do the same input and output however they are run",
  "An fble program that type checks, run by a C program that gives it functions implemented in C, makes the same calls of these functions with the same arguments in the same order, and ends with the same value or error, as the source says, when it is interpreted, compiled to C or compiled to AArch64 assembly, with profiling or without; also if it never ends. This is so whatever the C program does with the values it gets, and whatever the functions return, e.g. more functions. (As C60 and C62: for the compiled program if the source does not fail with an assertion; selects have a target besides the default.)",
  "all programs, all C programs that apply and read values, all behaviours of the functions (what they return may depend on all earlier calls and on everything that can be seen of the arguments), all amounts of fuel",
  "The functions' behaviour, the program and the point where it stops range over infinite sets.",
  ["pkgs/core/stdio.fble.c:FbleStdio", "lib/value.c:FbleCall", "lib/value.c:PartialApplyImpl", "lib/interpret.c:FbleInterpreterRunFunction", "lib/compile.c:CompileExpr", "lib/c.c:FbleGenerateC", "lib/aarch64.c:FbleGenerateAArch64"])
p("C78", "C functions read the integer a program passes to them",
  "FbleIntValueAccess of any value of type Int@, however the program made it, also with parts that are references, returns the integer it means, if this is between -2^63 and 2^63 (exclusive). FbleNewIntValue makes a value that means the integer, in any program. (Not for the least int64_t, whose negation overflows.)",
  "all values of the type in all states, all integers",
  "There are unboundedly many values and ways to share and delay their parts.",
  ["pkgs/core/int.fble.c:FbleIntValueAccess", "pkgs/core/int.fble.c:FbleNewIntValue", "pkgs/core/int.fble.c:ReadIntP", "pkgs/core/int.fble.c:MakeIntP"])
p("C79", "C functions read the string a program passes to them",
  "FbleStringValueAccess of any value of type String@, however the program made it, returns its characters in order; the tags of FbleCharValueAccess are those of the fields of the type Char@. FbleNewStringValue makes a value with the characters of the C string, with ? for those that Char@ does not have. (If a character is the field `unknown` of Char@, only what is before it is returned: the name of another file, if it is a name.)",
  "all strings of any length in all states",
  "There are unboundedly many values and ways to share and delay their parts.",
  ["pkgs/core/string.fble.c:FbleStringValueAccess", "pkgs/core/string.fble.c:FbleNewStringValue", "pkgs/core/char.fble.c:FbleCharValueAccess", "pkgs/core/char.fble.fble:Char@"])
p("C80", "Streams give their bytes in order, and files get the bytes written to them",
  "After any calls of the functions of /Core/Stdio: reading from a stream gives the byte after those that were read from it before, and nothing at the end from then on; a file that is opened is read from its start, on a new stream, whatever is done with others; what has been written to a stream is the bytes of the calls that wrote to it, in order; a file that cannot be opened gives nothing and changes nothing; an environment variable gives its value (with ? for characters that Char@ does not have), or nothing if it is not set.",
  "all histories of calls of any length, all contents of files",
  "Histories interleave unboundedly many streams.",
  ["pkgs/core/stdio.fble.c:IStreamImpl", "pkgs/core/stdio.fble.c:OStreamImpl", "pkgs/core/stdio.fble.c:ReadImpl", "pkgs/core/stdio.fble.c:WriteImpl"])
p("C81", "C programs and typed fble programs do not break each other",
  "An fble program that type checks, run by a C program that applies and reads its value as the type of the program's last module allows, with functions implemented in C that return values of their types: no assertion of the runtime fails and nothing is accessed that is not there, when it is interpreted, compiled to C or compiled to AArch64 assembly, no function implemented in C gets a value of another type than its argument's, and all of them end as the source says. (With the exceptions of C61: polymorphic definitions, casts to abstract types that are defined as themselves, and selects that have only a default branch. A value of the right type may be one that is not defined yet.)",
  "all programs that type check, all C programs that use values by their types, all behaviours of functions implemented in C that return values of their types, all lengths of runs",
  "Values flow between the program and C code in unboundedly many ways; soundness is an invariant of all reachable values.",
  ["lib/typecheck.c:FbleTypeCheckProgram", "lib/value.c:FbleCall", "lib/value.c:FbleNewFuncValue", "lib/value.c:FbleUnionValueTag", "lib/value.c:FbleStructValueField"])
p("C82", "Programs of type Main@ run by FbleStdio do not go wrong",
  "A program that type checks and whose last module has the type Main@ of /Core/Stdio/IO%, run by FbleStdio with any arguments, files, environment and standard input: no assertion of the runtime fails, and nothing is accessed that is not there, in the program, in FbleStdio or in the functions for input and output, when it is interpreted, compiled to C or compiled to AArch64 assembly. All of them do the same input and output and end as the source says. The program is given the standard streams and the functions in the fields of StdioIO@ with their names, and the arguments of the command in order. (With the exceptions of C61, and of a number or string given to a function for input and output that is not defined yet, does not fit or has no end: then an assertion of FbleIntValueAccess fails or the behaviour is not defined.)",
  "all programs of the type, all arguments, all contents of files, all environments, all lengths of runs",
  "As C81; FbleStdio does not check the type, and reads values with fields and tags given by number.",
  ["pkgs/core/stdio.fble.c:FbleStdio", "pkgs/core/stdio.fble.c:ReadImpl", "pkgs/core/stdio.fble.c:WriteImpl", "pkgs/core/stdio.fble.c:GetEnvImpl", "pkgs/core/string.fble.c:FbleStringValueAccess", "pkgs/core/Core/Stdio/IO.fble:Main@"])
p("C83", "Programs of type Main@ run by FbleAppMain do not go wrong",
  "A program that type checks and whose last module has the type Main@ of /App/IO%, run by FbleAppMain with any arguments, files, environment, events and size of the window: no assertion about types fails, and nothing is accessed that is not there, in the program, in FbleAppMain or in the functions for events, drawings, input and output, when it is interpreted, compiled to C or compiled to AArch64 assembly. All of them take the same events, draw the same and end as the source says. The program is given what C82 says, and the width and the height of the window. (With the exceptions of C82, also for the numbers in drawings and the drawings themselves.)",
  "all programs of the type, all sequences of events, all arguments, files and environments, all lengths of runs",
  "As C81; FbleAppMain does not check the type, and builds events and reads drawings with fields and tags given by number.",
  ["pkgs/app/app.c:FbleAppMain", "pkgs/app/app.c:Draw", "pkgs/app/app.c:EventImpl", "pkgs/app/app.c:EffectImpl", "pkgs/app/App/IO.fble:Main@", "pkgs/app/App/App.fble:Event@", "pkgs/app/App/Drawing.fble:Drawing@"])
p("C84", "What is drawn is what the drawing means",
  "Drawing a value of type Drawing@ draws its triangles and rectangles, each in its color, those below before those above them, at the places given by the transformations around them: a point p of a drawing transformed by a and b is drawn where (a.x*p.x + b.x, a.y*p.y + b.y) is in the drawing around it; a rectangle is the one with corners (x, y) and (x+w, y+h), also if w or h or the scale is negative. (As long as the numbers, the places on the screen and the products of scales are less than 2^31.)",
  "all drawings of any depth, all numbers that fit",
  "Drawings nest without bound, and the places depend on all transformations around them.",
  ["pkgs/app/app.c:Draw", "pkgs/app/App/Drawing.fble:Transformed"])
p("C85", "Events and pictures come in order",
  "After any calls of the functions of an app: the next event is the first one after those taken before that has a value of type Event@ (others are skipped, none is given twice), and the process waits if there is none; the pictures drawn are those of the calls that drew, in order; the ticks asked for are those of the calls that asked, in order; an event of type Event@ says what happened, the key by the field of Key@ with its name, the button, and the coordinates by their names, and only keys, buttons and events that Event@ does not have are skipped; what the app does does not disturb the standard streams.",
  "all histories of calls, all sequences of events",
  "Histories interleave events, pictures and streams without bound.",
  ["pkgs/app/app.c:EventImpl", "pkgs/app/app.c:EffectImpl", "pkgs/app/app.c:MakeKey", "pkgs/app/app.c:MakeButton"])

p("C86", "fble-stdio runs the program the command line names, with the arguments it gives",
  "fble-stdio [-I dir | -p package | --profile file | ...] -m path [--] args: if the module is found by the search path and it and what it needs type check, the command ends as the text of the program says a /Core/Stdio program applied to args ends. Otherwise the exit status is 0 for --help and --version, 2 for a malformed command line or one without a module, 3 if the profile file cannot be created, or the program cannot be loaded or does not type check. The command built from the same program by either compiler gives all of its arguments to the program (unless -- is among them, which then separates its own options) and ends the same way. A program of type Main@ never fails an assertion. (Programs that crash interpreted because of a one-tag union are the exception of C60.)",
  "all command lines, file systems, programs, arguments, inputs",
  "The chain from command line to exit status crosses option parsing, search, parsing, type checking, three ways of running, and the streams.",
  ["pkgs/core/stdio.fble.c:FbleStdioMain", "lib/arg-parse.c:FbleParseStringArg", "lib/arg-parse.c:FbleParseModuleArg", "lib/link.c:FbleLink", "lib/load.c:FbleLoad"])

p("C87", "fble-compile writes what is asked for, and modules compiled one by one make the program",
  "fble-compile [-I dir | ...] -t target [-c] [--export name] [--main name] -m path: exit status 0 for --help and --version; 2 for a malformed command line, a target other than aarch64 (the default) and c, nothing to do, or no module; otherwise what was asked for is written, for that target; with -c the exit status is 1 if the module cannot be loaded or does not type check, and otherwise 0 and the module named (not those it needs) is written. If every module of a program is compiled by its own run of fble-compile -c, from its own text and those of the modules it uses, and the results are linked, then the program does what the texts of its modules say, for either target, with any C program that runs it and any functions implemented in C. (Programs that crash interpreted because of a one-tag union are the exception of C60.)",
  "all command lines, file systems, programs of any number of modules, hosts, inputs",
  "Separate compilation is right only if each module is treated the same alone as within each program that uses it; tests try few combinations.",
  ["bin/fble-compile.c:main", "lib/compile.c:FbleCompileModule", "lib/typecheck.c:FbleTypeCheckModule", "lib/link.c:FbleLink", "lib/load.c:FbleLoad"])
p("C88", "fble-deps lists the files of a module and all it needs, even if they cannot be loaded",
  "fble-deps [-I dir | ...] -t target -m path: exit status 0 for --help and --version; 2 for a malformed command line, no target or no module; otherwise 0, whether or not the module can be loaded, and a make rule is written for the target. The rule lists the file of the module and the files of modules it refers to, directly or not, one for each module; it lists all of them if no module refers to itself in one or more steps, even if some are missing or do not parse. Make reads the rule back as these files, as long as no name has a space, newline or backslash in it (C30).",
  "all command lines, file systems, programs, names",
  "A missing dependency shows only when the right file changes later.",
  ["bin/fble-deps.c:main", "lib/load.c:FbleLoad", "lib/load.c:FbleSaveBuildDeps", "lib/load.c:Find"])

p("C89", "What the type checker accepts is well typed by the typing rules of the language",
  "A program that passes the type checker has types by the typing rules of the language: one type for each module, in the scope of the modules it refers to, by rules that read off the written program (a field that is accessed is a field of the struct or union; the branches of a select are for the fields of the union, in order, none left out without a default, and of one type; arguments have the types of the parameters; definitions have the types that are written; casts and accesses of abstract types are only in modules of the package, and only between types that are the same once the abstract types of that package are looked into), with types the same if they are the same infinite trees. (For programs without polymorphic definitions, and with casts only if there is no abstract type defined as itself: see C23, C24, C61.)",
  "all programs, module lists, nesting depths, recursive types",
  "Unboundedly many programs and types; a missing check shows only for programs that should have been rejected.",
  ["lib/typecheck.c:FbleTypeCheckProgram", "lib/typecheck.c:TypeCheckExpr", "lib/typecheck.c:TypeCheckType", "lib/typecheck.c:TypeCheckExprForType"])

p("C90", "The profile report says what was recorded",
  "After every well nested history of block entries, replacements, exits and samples, the profile report lists each block exactly once by overall time and once by self time, the longest time first and blocks of the same time by number, with how often it was entered, for how long it was on the stack, and for how long it was running; its call graph has, in the same order, a part for each block that was entered, which lists each caller with at least one call exactly once, the shortest time first, and each callee exactly once, the longest time first, with the numbers of calls and the times.",
  "all histories, numbers of blocks, contents of scratch memory",
  "The report is made from lists that grow with the history; a lost or doubled line shows only for some call graphs.",
  ["lib/profile.c:FbleGenerateProfileReport", "lib/profile.c:PrintCallData", "lib/profile.c:PrintBlockName"])

p("C91", "fble-app runs the program the command line names in a window, with the arguments it gives",
  "fble-app [-I dir | -p package | --profile file | --fps | --driver name | ...] -m path [--] args: if the module is found by the search path and it and what it needs type check, the program is run in a window of the size that SDL gives with this driver, and the command ends as the text of the program says a /App/IO program applied to that size and args ends; without a display only the main value is computed and the exit status is 3. Otherwise the exit status is 0 for --help and --version, 2 for a malformed command line or one without a module, 3 if the profile file cannot be created, or the program cannot be loaded or does not type check. --fps changes neither. The command built from the same program by either compiler gives all of its arguments to the program (unless -- is among them, which then separates its own options) and ends the same way. A program of type Main@ never fails an assertion. (Programs that crash interpreted because of a one-tag union are the exception of C60.)",
  "all command lines, file systems, programs, arguments, sequences of events, displays",
  "The chain from command line to exit status crosses option parsing, search, parsing, type checking, three ways of running, events and pictures.",
  ["pkgs/app/app.c:FbleAppMain", "lib/arg-parse.c:FbleParseStringArg", "lib/arg-parse.c:FbleParseModuleArg", "lib/link.c:FbleLink", "lib/load.c:FbleLoad"])

p("C92", "fbld prints what its input says, and its exit status tells if there is more to it",
  "fbld file ...: if the texts of the files are a document whose evaluation meets no error and leaves no command, its text is printed and the exit status is 0; the exit status is 0 only then. Otherwise it is 1, and what is printed is nothing, if the text is not a document or evaluation meets an error, or the text in front of the first command that is left. Only the text of the files matters, not how it is divided into files that end with complete lines. (The crashes of C52 and C53 are the exceptions: a failed assertion, or a NULL pointer after an error has been reported.)",
  "all texts, numbers of files, documents, definitions, depths of evaluation",
  "The chain of parser, evaluator and printer; recursive definitions make runs of any length.",
  ["fbld/fbld.c:main", "fbld/parse.c:FbldParse", "fbld/eval.c:FbldEval", "fbld/markup.c:FbldPrintMarkup"])

p("C93", "fble-perf-profile prints a profile report that describes the samples it is given",
  "fble-perf-profile with any of its options: for every report of perf it prints a profile report with one block for each function on the paths (besides the root), leaving out those given with -s and --squash: how often it is on a path, the total of the lines it is on and of those that end with it, and which functions it calls and is called by, how often and for how long; the longest first. The exit status is 0. It is 0 with the usage or version for --help and --version, 2 for an option without value, and 1, with no report, if a line cannot be parsed. (Exceptions: a line of 0, 2, 6, 14, 30, ... characters with no longer line before it makes it write outside of its buffer, and with an argument that is not an option it never ends.)",
  "all options, all inputs with counts that fit an int, all paths, all functions",
  "Samples, call graph and report meet in unbounded inputs; the buffer fails for some lengths only.",
  ["bin/fble-perf-profile.c:main", "bin/fble-perf-profile.c:GetLine", "bin/fble-perf-profile.c:Sample", "lib/profile.c:FbleGenerateProfileReport"])

p("C94", "fble-test tells by its exit status how evaluating the program the command line names ends",
  "fble-test [-I dir | -p package | --profile file | ...] -m path: if the module is found by the search path and it and what it needs type check, the program is evaluated; the exit status is 0 if that gives a value, and 2 if it is aborted because an undefined value is used or the wrong field of a union is accessed, as the texts of the modules say; it is not otherwise 2. Otherwise the program is not evaluated, and the exit status is 0 for --help and --version, 3 for a malformed command line, an argument that is not an option, or one without a module, 4 if the profile file cannot be created, 1 if the program cannot be loaded or does not type check. The command built from the same program by either compiler takes the same options but --module, which is an error (3), and ends the same way. A program without polymorphic definitions never fails an assertion. (Programs that crash interpreted because of a one-tag union are the exception of C60.)",
  "all command lines, file systems, programs, numbers of steps",
  "The chain from command line to exit status crosses option parsing, search, parsing, type checking and three ways of running.",
  ["test/test.c:FbleTestMain", "lib/arg-parse.c:FbleParseModuleArg", "lib/arg-parse.c:FbleParseInvalidArg", "lib/link.c:FbleLink", "lib/load.c:FbleLoad", "lib/value.c:FbleEval"])

p("C95", "fble-disassemble writes down the whole code of the module, so that the code can be read off it",
  "fble-disassemble with any options: if the module it names can be loaded and type checks, it writes the module's path, file and dependencies, then every function of the code the module compiles to exactly once, each with a block of its own, the numbers of its variables and all its instructions in order with the debug information and profile operations in front, then the profile blocks; the exit status is 0. It never looks up a block that does not exist, and the targets of jumps are instructions that are written. Two lines that are the same are for the same instruction at the same place, but for the kind of a field access, which is not shown; a function is shown by its block. It is 0 with nothing written for --help and --version, 2 for a malformed command line, an argument that is not an option, or no module, 1 if the module cannot be loaded or does not type check. (Exception: the blocks named in the profile operations are right only for the function of the module itself; for the others they are counted from the block of the function, but printed as if counted from the first.)",
  "all command lines, file systems, modules that type check, names and locations",
  "Modules nest functions to any depth and instructions have any number of operands; that nothing is lost in print holds for pairs of instructions.",
  ["bin/fble-disassemble.c:main", "lib/code.c:FbleDisassemble", "lib/code.c:PrintLoc", "lib/compile.c:EnterBlock", "lib/compile.c:FbleCompileModule"])

p("C96", "A compiled program is linked from the same modules, in the same order, as the interpreted one",
  "If a program is loaded from its files, then the object files made for its modules (for names of ASCII characters, or where char is unsigned) define each a symbol of its own, and linked with each other they give FbleLink one record for the main module, from which it goes through exactly the modules the interpreter goes through, in the same order, each with the values of the same modules as arguments: so effects of evaluating modules, such as aborts and profile blocks, come in the same order.",
  "all programs that can be loaded: any number of modules, any graph of references",
  "The two orders come from different traversals, one with a stack of files and one over linked records; they agree only by induction over the graph.",
  ["lib/load.c:FbleLoad", "lib/link.c:LoadGenerated", "lib/link.c:LinkGenerated", "lib/link.c:LinkInterpreted", "lib/c.c:StaticGeneratedModule", "lib/aarch64.c:StaticGeneratedModule", "lib/c.c:LabelForPath"])

p("C97", "The record written for a module says what the module is",
  "The data that FbleGenerateAArch64 and FbleGenerateC write for a module, read back by the structures of the headers (as laid out on the machine, for assembly; by a C compiler, for C), holds the module: its path and the location of the path and of each of its names, the symbols of the modules it refers to in order, the number of arguments and statics and the run function of its code, and the names of its profile blocks with their locations. Every label and symbol is defined once, C declarations come before their uses, nothing overlaps, and the labels differ from all symbols of modules and functions. (For C the strings must have no trigraphs.)",
  "all modules: paths, locations, references, profile blocks of any number with any strings, and all places in memory",
  "Layout depends on the lengths of all strings before; offsets and labels are right for all lengths only by induction.",
  ["lib/aarch64.c:StaticGeneratedModule", "lib/aarch64.c:StaticModulePath", "lib/aarch64.c:StaticNames", "lib/aarch64.c:StaticString", "lib/c.c:StaticGeneratedModule", "lib/c.c:StaticModulePath", "lib/c.c:StaticNames", "lib/c.c:StaticString"])

p("C98", "Types and kinds in error messages can be read back",
  "A type that an error message shows is written in the language itself: the parser reads the text, followed by a semicolon, as exactly the expression that is this type, and in no other way; so types with the same text are the same, up to which variables the names stand for. The same holds for the kinds shown. (The exception: package types. A path is written without quotes, so different packages can have the same text, and the root package is written in a way that is not in the language.)",
  "all types of any size and depth, with any names, whose package paths are not empty and of plain words; all kinds that a program can mention",
  "Nested function, polymorphic and applied types are joined in the text; that nothing gets lost needs the grammar and induction over all types.",
  ["lib/type.c:FblePrintType", "lib/type.c:FblePrintKind", "lib/name.c:FblePrintName", "lib/parse.y"])
out = os.path.join(os.path.dirname(__file__), '..', 'properties.jsonl')
with open(out, 'w') as f:
    for x in P: f.write(json.dumps(x) + "\n")
print(len(P))
