{
 "claims": [
  {
   "property": "C01",
   "status": "proved",
   "theorems": [
    "Verif.Pack.C01_struct_field",
    "Verif.Pack.C01_struct_field_same"
   ],
   "note": "all arities, values and representations; allocator assumed to return fresh even addresses"
  },
  {
   "property": "C02",
   "status": "proved",
   "theorems": [
    "Verif.Pack.C02_union_access",
    "Verif.Pack.C02_union_access_same"
   ],
   "note": ""
  },
  {
   "property": "C03",
   "status": "proved",
   "theorems": [
    "Verif.Pack.C03_injective",
    "Verif.Pack.C03_not_confused",
    "Verif.Pack.C03_constructors",
    "Verif.Pack.C03_refinement"
   ],
   "note": "refinement: any program over the value API behaves as on plain algebraic data"
  },
  {
   "property": "C04",
   "status": "proved",
   "theorems": [
    "Verif.Pack.C04_shifts",
    "Verif.Pack.C04_violated"
   ],
   "note": "the shifts by 64 bits are proved to happen"
  },
  {
   "property": "C05",
   "status": "proved",
   "theorems": [
    "Verif.Pack.C05_list",
    "Verif.Pack.C05_literal"
   ],
   "note": ""
  },
  {
   "property": "C06",
   "status": "proved",
   "theorems": [
    "Verif.Select.C06_interp_select",
    "Verif.Select.C06_c_switch_agrees",
    "Verif.Select.C06_empty_table_violated"
   ],
   "note": "interpreter binary search and C switch"
  },
  {
   "property": "C07",
   "status": "proved",
   "theorems": [
    "Verif.Compile.Curry.C07_split",
    "Verif.Compile.Curry.C07_one_by_one",
    "Verif.Compile.Curry.C07_body",
    "Verif.Compile.Curry.C07_partial_application",
    "Verif.Compile.Curry.C07_undefined",
    "Verif.Compile.Curry.C07_proper"
   ],
   "note": "functions with any bytecode; C functions are not in this model; the second list of arguments must not be empty, because a call with no arguments runs a function of arity 0"
  },
  {
   "property": "C08",
   "status": "proved",
   "theorems": [
    "Verif.Refs.C08_reads_terminate",
    "Verif.Refs.C08_assign_exact",
    "Verif.Refs.C08_assign_effect"
   ],
   "note": ""
  },
  {
   "property": "C09",
   "status": "proved",
   "theorems": [
    "Verif.Gc.C09_safe",
    "Verif.Gc.C09_violated"
   ],
   "note": "safe for all histories without the excluded kind of pop; with it, a legal history on which the collector frees a value in use is proved to exist"
  },
  {
   "property": "C10",
   "status": "proved",
   "theorems": [
    "Verif.Gc.C10_freed_once",
    "Verif.Gc.C10_violated"
   ],
   "note": "same exclusion as C09; without it a double free is proved possible"
  },
  {
   "property": "C11",
   "status": "proved",
   "theorems": [
    "Verif.Gc.C11_terminates",
    "Verif.Gc.C11_reclaims",
    "Verif.Gc.C11_violated"
   ],
   "note": "FbleValueFullGc stops when the last collection starts; that garbage remains then is proved with a witness"
  },
  {
   "property": "C12",
   "status": "proved",
   "theorems": [
    "Verif.Support.StackAlloc.C12_apart",
    "Verif.Support.StackAlloc.C12_size",
    "Verif.Support.StackAlloc.C12_freed",
    "Verif.Support.StackAlloc.C12_callee",
    "Verif.Support.StackAlloc.C12_violated"
   ],
   "note": ""
  },
  {
   "property": "C13",
   "status": "proved",
   "theorems": [
    "Verif.Compile.C13_compiled_program",
    "Verif.Compile.C13_empty_select_violated"
   ],
   "note": "meaning: evaluator with one-argument closures; runs are cut off after a number of function bodies entered, the same number for the meaning and for the machine; C functions and heap frames are not in this model"
  },
  {
   "property": "C14",
   "status": "proved",
   "theorems": [
    "Verif.Compile.C14_code_fits",
    "Verif.Compile.C14_main_fits",
    "Verif.Compile.step_effect"
   ],
   "note": "step_effect: the machine reads, writes and jumps as the specification says"
  },
  {
   "property": "C15",
   "status": "proved",
   "theorems": [
    "Verif.Compile.C15_balanced",
    "Verif.Compile.C15_blocks"
   ],
   "note": ""
  },
  {
   "property": "C16",
   "status": "proved",
   "theorems": [
    "Verif.Elab.C16_names",
    "Verif.Elab.Example.checked"
   ],
   "note": "meaning by names: evaluator over what is left of the expressions without types"
  },
  {
   "property": "C17",
   "status": "proved",
   "theorems": [
    "Verif.Elab.C17_select"
   ],
   "note": ""
  },
  {
   "property": "C18",
   "status": "proved",
   "theorems": [
    "Verif.Elab.C18_copy"
   ],
   "note": ""
  },
  {
   "property": "C19",
   "status": "proved",
   "theorems": [
    "Verif.Elab.C19_literal",
    "Verif.Elab.C19_rejected"
   ],
   "note": ""
  },
  {
   "property": "C20",
   "status": "proved",
   "theorems": [
    "Verif.Elab.C20_cast",
    "Verif.Elab.C20_access",
    "Verif.Elab.C20_value"
   ],
   "note": ""
  },
  {
   "property": "C21",
   "status": "proved",
   "theorems": [
    "Verif.Unused.C21_exact",
    "Verif.Unused.C21_once"
   ],
   "note": ""
  },
  {
   "property": "C22",
   "status": "proved",
   "theorems": [
    "Verif.Types.C22_equal",
    "Verif.Types.C22_adjust",
    "Verif.Types.C22_adjust_add",
    "Verif.Types.C22_adjust_zero",
    "Verif.Types.C22_adjust_undo",
    "Verif.Types.C22_var",
    "Verif.Types.C22_poly",
    "Verif.Types.C22_apply"
   ],
   "note": ""
  },
  {
   "property": "C23",
   "status": "proved",
   "theorems": [
    "Verif.Types.C23_decides",
    "Verif.Types.C23_sound",
    "Verif.Types.C23_violated"
   ],
   "note": "non-polymorphic types; the failure for polymorphic types is proved with a witness"
  },
  {
   "property": "C24",
   "status": "proved",
   "theorems": [
    "Verif.Types.C24_opened",
    "Verif.Types.C24_inside",
    "Verif.Types.C24_closed",
    "Verif.Types.C24_violated"
   ],
   "note": "non-polymorphic types; the exception is proved with a witness"
  },
  {
   "property": "C25",
   "status": "proved",
   "theorems": [
    "Verif.TypeHeap.C25_safe",
    "Verif.TypeHeap.C25_full",
    "Verif.TypeHeap.C25_all"
   ],
   "note": "types are their outgoing references; the traversal of FbleTypeRefs is the list of stored references"
  },
  {
   "property": "C26",
   "status": "proved",
   "theorems": [
    "Verif.Load.C26_load_ok",
    "Verif.Load.C26_build_deps"
   ],
   "note": ""
  },
  {
   "property": "C27",
   "status": "proved",
   "theorems": [
    "Verif.Load.C27_load_decides"
   ],
   "note": "termination, uniqueness and exact failure condition"
  },
  {
   "property": "C28",
   "status": "proved",
   "theorems": [
    "Verif.Load.C28_link_iff",
    "Verif.Load.C28_link",
    "Verif.Load.C28_loaded_linkable",
    "Verif.Load.C28_generated_linkable"
   ],
   "note": ""
  },
  {
   "property": "C29",
   "status": "proved",
   "theorems": [
    "Verif.Text.C29_find_package",
    "Verif.Text.C29_components_unique",
    "Verif.Text.C29_no_env"
   ],
   "note": ""
  },
  {
   "property": "C30",
   "status": "proved",
   "theorems": [
    "Verif.Text.C30_rule",
    "Verif.Text.C30_layout",
    "Verif.Text.C30_unescaped_violated"
   ],
   "note": "names with blanks, newlines or backslashes are not escaped by the code (proved)"
  },
  {
   "property": "C31",
   "status": "proved",
   "theorems": [
    "Verif.Text.C31_type_name",
    "Verif.Text.C31_normal_name",
    "Verif.Text.C31_print_injective",
    "Verif.Text.C31_empty_name_violated"
   ],
   "note": "holds for all nonempty names; the failure for the empty name is proved"
  },
  {
   "property": "C32",
   "status": "proved",
   "theorems": [
    "Verif.Text.C32_read_locations",
    "Verif.Text.C32_token_locations"
   ],
   "note": ""
  },
  {
   "property": "C33",
   "status": "proved",
   "theorems": [
    "Verif.Text.C33_whole_file",
    "Verif.Text.C33_violated"
   ],
   "note": "files with a NUL byte are cut short (proved)"
  },
  {
   "property": "C34",
   "status": "proved",
   "theorems": [
    "Verif.Text.C34_paths_equal",
    "Verif.Text.C34_belongs",
    "Verif.Text.C34_belongs_trans"
   ],
   "note": ""
  },
  {
   "property": "C35",
   "status": "proved",
   "theorems": [
    "Verif.Gen.C35_symbol_injective",
    "Verif.Gen.C35_symbol_identifier",
    "Verif.Gen.C35_slash_violated",
    "Verif.Gen.C35_function_labels_distinct",
    "Verif.Gen.C35_function_label_identifier"
   ],
   "note": ""
  },
  {
   "property": "C36",
   "status": "proved",
   "theorems": [
    "Verif.Gen.C36_sanitize_in_bounds",
    "Verif.Gen.C36_label_in_bounds",
    "Verif.Gen.C36_signed_char_violated"
   ],
   "note": "the overflow for signed char and non-ASCII bytes is proved"
  },
  {
   "property": "C37",
   "status": "proved",
   "theorems": [
    "Verif.Gen.C37_c_literal",
    "Verif.Gen.C37_asm_literal",
    "Verif.Gen.C37_trigraph_violated",
    "Verif.Gen.C37_location_violated"
   ],
   "note": ""
  },
  {
   "property": "C38",
   "status": "proved",
   "theorems": [
    "Verif.Select.C38_decision_tree",
    "Verif.Select.C38_agrees_with_interp"
   ],
   "note": "instruction-level model of the emitted compare-and-branch code"
  },
  {
   "property": "C39",
   "status": "proved",
   "theorems": [
    "Verif.Profile.C39_counts"
   ],
   "note": "unbounded counters"
  },
  {
   "property": "C40",
   "status": "proved",
   "theorems": [
    "Verif.Profile.C40_times"
   ],
   "note": "also that the self times add up to the total"
  },
  {
   "property": "C41",
   "status": "proved",
   "theorems": [
    "Verif.Profile.C41_lookup"
   ],
   "note": ""
  },
  {
   "property": "C42",
   "status": "proved",
   "theorems": [
    "Verif.Profile.C42_sort"
   ],
   "note": ""
  },
  {
   "property": "C43",
   "status": "proved",
   "theorems": [
    "Verif.Profile.C43_generated",
    "Verif.Profile.C43_root",
    "Verif.Profile.C43_violated"
   ],
   "note": "the double charge for interpreted programs is proved"
  },
  {
   "property": "C44",
   "status": "proved",
   "theorems": [
    "Verif.Support.Vector.C44_vector"
   ],
   "note": ""
  },
  {
   "property": "C45",
   "status": "proved",
   "theorems": [
    "Verif.Support.Alloc.C45_accounting"
   ],
   "note": ""
  },
  {
   "property": "C46",
   "status": "proved",
   "theorems": [
    "Verif.Pack.C46_int_roundtrip",
    "Verif.Pack.C46_violated"
   ],
   "note": "the overflow for the least integer is proved"
  },
  {
   "property": "C47",
   "status": "proved",
   "theorems": [
    "Verif.Pack.C47_string_roundtrip",
    "Verif.Pack.C47_chars",
    "Verif.Pack.C47_plain_unchanged"
   ],
   "note": ""
  },
  {
   "property": "C48",
   "status": "proved",
   "theorems": [
    "Verif.Args.C48_options",
    "Verif.Args.C48_rest",
    "Verif.Args.C48_missing",
    "Verif.Args.C48_programs",
    "Verif.Args.C48_violated"
   ],
   "note": ""
  },
  {
   "property": "C49",
   "status": "proved",
   "theorems": [
    "Verif.Support.GetLine.C49_getLine",
    "Verif.Support.GetLine.C49_violated"
   ],
   "note": ""
  },
  {
   "property": "C50",
   "status": "proved",
   "theorems": [
    "Verif.Fbld.C50_sound",
    "Verif.Fbld.C50_complete",
    "Verif.Fbld.C50_failure",
    "Verif.Fbld.C50_error",
    "Verif.Fbld.C50_no_pending_write"
   ],
   "note": "meaning: recursive evaluator cut off after a number of nested evaluations; a run can be stopped by the assertion of C52"
  },
  {
   "property": "C51",
   "status": "proved",
   "theorems": [
    "Verif.Fbld.C51_equal",
    "Verif.Fbld.C51_compare",
    "Verif.Fbld.C51_head",
    "Verif.Fbld.C51_tail",
    "Verif.Fbld.C51_no_crash"
   ],
   "note": ""
  },
  {
   "property": "C52",
   "status": "proved",
   "theorems": [
    "Verif.Fbld.C52_text",
    "Verif.Fbld.C52_in_bounds",
    "Verif.Fbld.C52_print",
    "Verif.Fbld.C52_print_text",
    "Verif.Fbld.C52_violated"
   ],
   "note": "the assertion failure for two empty texts is proved"
  },
  {
   "property": "C53",
   "status": "proved",
   "theorems": [
    "Verif.Fbld.C53_crash",
    "Verif.Fbld.C53_clean",
    "Verif.Fbld.C53_no_error",
    "Verif.Fbld.C53_reported",
    "Verif.Fbld.C53_violated"
   ],
   "note": "the crashes in @tail and @plain of a failed value are proved"
  },
  {
   "property": "C54",
   "status": "proved",
   "theorems": [
    "Verif.Parse.C54_path_roundtrip",
    "Verif.Text.C54_path_name",
    "Verif.Text.C54_quoted_ambiguous"
   ],
   "note": ""
  },
  {
   "property": "C55",
   "status": "proved",
   "theorems": [
    "Verif.Text.C55_find",
    "Verif.Text.C55_distinct_files"
   ],
   "note": ""
  },
  {
   "property": "C56",
   "status": "proved",
   "theorems": [
    "Verif.Profile.Stack.C56_stack"
   ],
   "note": ""
  },
  {
   "property": "C57",
   "status": "proved",
   "theorems": [
    "Verif.Profile.Perf.C57_perf"
   ],
   "note": "counts are natural numbers; the parsing of a line is not modelled"
  },
  {
   "property": "C58",
   "status": "proved",
   "theorems": [
    "Verif.Types.C58_infer",
    "Verif.Types.C58_complete"
   ],
   "note": ""
  },
  {
   "property": "C59",
   "status": "proved",
   "theorems": [
    "Verif.Types.C59_list"
   ],
   "note": ""
  },
  {
   "property": "C60",
   "status": "proved",
   "theorems": [
    "Verif.Elab.C60_program"
   ],
   "note": "modules with bodies; module->type is never set by the loader (load.c:274,330)"
  },
  {
   "property": "C61",
   "status": "proved",
   "theorems": [
    "Verif.Elab.C61_program",
    "Verif.Elab.C61_meaning",
    "Verif.Elab.C61_violated",
    "Verif.Elab.C61_cast_violated"
   ],
   "note": "type soundness by a typing of values and expressions over the final heap of types; programs without polymorphic definitions; both exceptions are proved with a witness"
  },
  {
   "property": "C62",
   "status": "proved",
   "theorems": [
    "Verif.Backend.C62_c_program",
    "Verif.Backend.C62_c_source",
    "Verif.Backend.C62_c_valid",
    "Verif.Backend.C62_example"
   ],
   "note": "abstract syntax of the emitted statements; locations and messages left out; the meaning of the C statements is part of the model"
  },
  {
   "property": "C63",
   "status": "proved",
   "theorems": [
    "Verif.Elab.C63_names"
   ],
   "note": ""
  },
  {
   "property": "C64",
   "status": "proved",
   "theorems": [
    "Verif.Backend.C64_a64_program",
    "Verif.Backend.C64_a64_source",
    "Verif.Backend.C64_a64_function",
    "Verif.Backend.C64_example",
    "Verif.Backend.C64_function_example"
   ],
   "note": "abstract syntax of the emitted lines, with a semantics of these lines (registers, stack, flags, calling convention) that is part of the model; the assembler is not modelled"
  },
  {
   "property": "C65",
   "status": "proved",
   "theorems": [
    "Verif.Backend.C65_a64_valid",
    "Verif.Backend.C65_example"
   ],
   "note": ""
  },
  {
   "property": "C66",
   "status": "proved",
   "theorems": [
    "Verif.Backend.C66_a64_encodes",
    "Verif.Backend.C66_a64_module",
    "Verif.Backend.C66_violated",
    "Verif.Backend.C66_violated_example",
    "Verif.Backend.C66_example"
   ],
   "note": "the immediates of mov are those of sixteen bits; the assembler accepts more"
  },
  {
   "property": "C67",
   "status": "proved",
   "theorems": [
    "Verif.Parse.C67_total",
    "Verif.Parse.C67_parses",
    "Verif.Parse.C67_unambiguous",
    "Verif.Parse.C67_no_error",
    "Verif.Parse.C67_file",
    "Verif.Parse.C67_whole_file",
    "Verif.Parse.C67_one_program",
    "Verif.Parse.C67_too_deep",
    "Verif.Parse.C67_violated",
    "Verif.Parse.C67_stack_violated"
   ],
   "note": "bison's tables are those that tools/lalr.py computes from the grammar; the kernel checks what the proofs need of them"
  },
  {
   "property": "C68",
   "status": "proved",
   "theorems": [
    "Verif.Parse.C68_deps"
   ],
   "note": ""
  },
  {
   "property": "C69",
   "status": "proved",
   "theorems": [
    "Verif.Parse.C69_total",
    "Verif.Parse.C69_path",
    "Verif.Parse.C69_no_error",
    "Verif.Parse.C69_string",
    "Verif.Parse.C69_violated"
   ],
   "note": ""
  },
  {
   "property": "C70",
   "status": "proved",
   "theorems": [
    "Verif.Whole.C70_loaded",
    "Verif.Whole.C70_loads",
    "Verif.Whole.C70_run",
    "Verif.Whole.C70_decides"
   ],
   "note": "interpreted programs; meaning as in C60"
  },
  {
   "property": "C71",
   "status": "proved",
   "theorems": [
    "Verif.NoCrash.C71_no_crash",
    "Verif.NoCrash.C71_loaded",
    "Verif.NoCrash.C71_violated",
    "Verif.NoCrash.C71_copy_violated"
   ],
   "note": "assertions on types and scopes, and accesses outside of vectors, are results of the model; asserts about memory (reference counts) are not; both exceptions are proved with a witness"
  },
  {
   "property": "C72",
   "status": "proved",
   "theorems": [
    "Verif.NoCrash.C72_ends",
    "Verif.NoCrash.C72_loaded",
    "Verif.NoCrash.C72_verdict",
    "Verif.NoCrash.C72_fuel"
   ],
   "note": "C72_fuel holds for all programs, so no theorem depends on a choice of the fuel; the bound on the depth of the calls is quadratic in the size of the program"
  },
  {
   "property": "C73",
   "status": "proved",
   "theorems": [
    "Verif.FbldParse.C73_files",
    "Verif.FbldParse.C73_files_concrete",
    "Verif.FbldParse.C73_violated"
   ],
   "note": ""
  },
  {
   "property": "C74",
   "status": "proved",
   "theorems": [
    "Verif.FbldParse.C74_ends",
    "Verif.FbldParse.C74_result",
    "Verif.FbldParse.C74_concrete",
    "Verif.FbldParse.C74_violated"
   ],
   "note": "memory and locations are not modelled"
  },
  {
   "property": "C75",
   "status": "proved",
   "theorems": [
    "Verif.FbldParse.C75_grammar",
    "Verif.FbldParse.C75_unambiguous",
    "Verif.FbldParse.C75_concrete"
   ],
   "note": "the manual as syntax trees with how they are written and what they mean (Grammar.lean); commands have names, paragraphs do not start with a space"
  },
  {
   "property": "C76",
   "status": "proved",
   "theorems": [
    "Verif.FbldParse.C76_indent",
    "Verif.FbldParse.C76_indent_error",
    "Verif.FbldParse.C76_rest_error",
    "Verif.FbldParse.C76_concrete",
    "Verif.FbldParse.C76_violated"
   ],
   "note": "for all texts, not only those of the grammar of C75"
  },
  {
   "property": "C77",
   "status": "proved",
   "theorems": [
    "Verif.Host.C77_interpreted",
    "Verif.Host.C77_c",
    "Verif.Host.C77_a64",
    "Verif.Host.Example.copies",
    "Verif.Host.Example.copies_interpreted"
   ],
   "note": "the functions and the C program are arbitrary; FbleStdio is one such program (stdioHost); functions implemented in C do not apply values themselves"
  },
  {
   "property": "C78",
   "status": "proved",
   "theorems": [
    "Verif.Host.C78_read",
    "Verif.Host.C78_read_only",
    "Verif.Host.C78_make",
    "Verif.Host.C78_violated"
   ],
   "note": ""
  },
  {
   "property": "C79",
   "status": "proved",
   "theorems": [
    "Verif.Host.C79_table",
    "Verif.Host.C79_read",
    "Verif.Host.C79_make",
    "Verif.Host.C79_violated"
   ],
   "note": ""
  },
  {
   "property": "C80",
   "status": "proved",
   "theorems": [
    "Verif.Host.C80_stdin",
    "Verif.Host.C80_file",
    "Verif.Host.C80_no_file",
    "Verif.Host.C80_stdout",
    "Verif.Host.C80_write",
    "Verif.Host.C80_getenv"
   ],
   "note": "files are not closed, and what is written to a file is not read from it again in the same process"
  },
  {
   "property": "C81",
   "status": "proved",
   "theorems": [
    "Verif.Host.C81_safe",
    "Verif.Host.Example.copyMain_ok"
   ],
   "note": "programs without polymorphic definitions, as C61; the functions implemented in C do not apply values themselves"
  },
  {
   "property": "C82",
   "status": "proved",
   "theorems": [
    "Verif.Host.C82_stdio",
    "Verif.Host.C82_given",
    "Verif.Host.Example.copyMain_ok",
    "Verif.Host.Example.C82_violated"
   ],
   "note": "C82_violated: a program that writes a number which is not defined yet. StdioTypes says what the type Main@ is, structurally; the example is a program with this type"
  },
  {
   "property": "C83",
   "status": "proved",
   "theorems": [
    "Verif.Host.C83_app",
    "Verif.Host.C83_given",
    "Verif.Host.Example.drawMain_ok"
   ],
   "note": "AppTypes says what the type Main@ is, structurally; timers are not modelled, the user events they make are among the events"
  },
  {
   "property": "C84",
   "status": "proved",
   "theorems": [
    "Verif.Host.C84_draw",
    "Verif.Host.example_drawn"
   ],
   "note": "what is given to OpenGL, not what OpenGL does; example_drawn: two rectangles, one mirrored and moved"
  },
  {
   "property": "C85",
   "status": "proved",
   "theorems": [
    "Verif.Host.C85_events",
    "Verif.Host.C85_pictures",
    "Verif.Host.C85_keys",
    "Verif.Host.C85_values",
    "Verif.Host.C85_skipped",
    "Verif.Host.C85_ticks",
    "Verif.Host.C85_stdio"
   ],
   "note": "C85_values: the value for an event says what it was, by the names of the fields"
  },
  {
   "property": "C86",
   "status": "proved",
   "theorems": [
    "Verif.Whole.C86_runs",
    "Verif.Whole.C86_fails",
    "Verif.Whole.C86_compiled",
    "Verif.Whole.C86_command",
    "Verif.Whole.C86_same",
    "Verif.Whole.C86_safe",
    "Verif.Host.C86_status",
    "Verif.Whole.CopyExample.runs",
    "Verif.Elab.tables_of_wide"
   ],
   "note": "CopyExample.runs: the text of a program that copies its input, lexed, parsed, type checked and run; tables_of_wide: a condition on the text under which the premise Tables holds (each select names two different tags)"
  },
  {
   "property": "C87",
   "status": "proved",
   "theorems": [
    "Verif.Whole.C87_compile",
    "Verif.Whole.C87_module",
    "Verif.Whole.C87_separate",
    "Verif.Whole.Example.separate"
   ],
   "note": "the premise that the run of the texts does not crash is as in C77; Example.separate: a library and a program that uses it, compiled one by one"
  },
  {
   "property": "C88",
   "status": "proved",
   "theorems": [
    "Verif.Whole.C88_options",
    "Verif.Whole.C88_rule",
    "Verif.Whole.C88_ends",
    "Verif.Load.buildDeps_any",
    "Verif.Whole.Example.deps_written",
    "Verif.Whole.Example.deps_missing"
   ],
   "note": "C88_ends: it ends if the modules that are found are finitely many"
  },
  {
   "property": "C89",
   "status": "proved",
   "theorems": [
    "Verif.Elab.C89_typed",
    "Verif.Elab.unit_ty",
    "Verif.Elab.access_ty",
    "Verif.Elab.call_ty"
   ],
   "note": "programs without polymorphic definitions, as C61; the rules are in Safe/Rules.lean; access_ty and call_ty: the rules reject a missing field and a call of a struct"
  },
  {
   "property": "C90",
   "status": "proved",
   "theorems": [
    "Verif.Profile.C90_report",
    "Verif.Profile.C90_blocks",
    "Verif.Profile.C90_example"
   ],
   "note": "the text of the report is modelled (reportText) but for the percentages, which are floating point numbers"
  },
  {
   "property": "C91",
   "status": "proved",
   "theorems": [
    "Verif.Whole.App.C91_runs",
    "Verif.Whole.App.C91_fails",
    "Verif.Whole.App.C91_compiled",
    "Verif.Whole.App.C91_command",
    "Verif.Whole.App.C91_same",
    "Verif.Whole.App.C91_safe",
    "Verif.Whole.App.noDisplay_status"
   ],
   "note": "not modelled: what --fps prints, errors of SDL after SDL_Init; example: the same command line with and without --driver dummy"
  },
  {
   "property": "C92",
   "status": "proved",
   "theorems": [
    "Verif.FbldParse.C92_value",
    "Verif.FbldParse.C92_error",
    "Verif.FbldParse.C92_status",
    "Verif.FbldParse.C92_document",
    "Verif.FbldParse.C92_files",
    "Verif.FbldParse.C92_crash",
    "Verif.FbldParse.C92_concrete"
   ],
   "note": "not modelled: files that cannot be opened (the parser aborts), what is written to stderr"
  },
  {
   "property": "C93",
   "status": "proved",
   "theorems": [
    "Verif.Profile.Perf.C93_report",
    "Verif.Profile.Perf.describes",
    "Verif.Profile.Perf.C93_fails",
    "Verif.Profile.Perf.C93_violated",
    "Verif.Profile.Perf.C93_hangs",
    "Verif.Profile.Perf.C93_example"
   ],
   "note": "sscanf is a parameter that reads decimal numbers; the percentages are parameters; violated for lines of certain lengths and for unknown arguments: see C93_violated, C93_hangs"
  },
  {
   "property": "C94",
   "status": "proved",
   "theorems": [
    "Verif.Whole.Test.C94_runs",
    "Verif.Whole.Test.C94_fails",
    "Verif.Whole.Test.C94_compiled",
    "Verif.Whole.Test.C94_command",
    "Verif.Whole.Test.C94_same",
    "Verif.Whole.Test.C94_safe"
   ],
   "note": "meaning as in C60; what is printed is not modelled"
  },
  {
   "property": "C95",
   "status": "proved",
   "theorems": [
    "Verif.Backend.Dis.C95_instr",
    "Verif.Backend.Dis.C95_debug",
    "Verif.Backend.Dis.C95_listing",
    "Verif.Backend.Dis.C95_profile",
    "Verif.Backend.Dis.C95_violated",
    "Verif.Whole.C95_command"
   ],
   "note": "names, locations and debug information are parameters; printed names are not read back"
  },
  {
   "property": "C96",
   "status": "proved",
   "theorems": [
    "Verif.Load.C96_order",
    "Verif.Load.C96_exists",
    "Verif.Whole.C96_linked"
   ],
   "note": "the system linker is modelled as resolving symbols"
  },
  {
   "property": "C97",
   "status": "proved",
   "theorems": [
    "Verif.Gen.Data.C97_a64",
    "Verif.Gen.Data.C97_c",
    "Verif.Gen.Data.C97_labels_a64",
    "Verif.Gen.Data.C97_labels_c",
    "Verif.Gen.Data.Accepts.unique"
   ],
   "note": "the assembler and the C compiler are modelled as far as data declarations go"
  },
  {
   "property": "C98",
   "status": "proved",
   "theorems": [
    "Verif.Parse.PrintType.C98_syntax",
    "Verif.Parse.PrintType.C98_parse",
    "Verif.Parse.PrintType.C98_parse_exists",
    "Verif.Parse.PrintType.C98_apart",
    "Verif.Parse.PrintType.C98_kind",
    "Verif.Parse.PrintType.C98_violated",
    "Verif.Parse.PrintType.C98_root_violated",
    "Verif.Parse.PrintType.C98_heap",
    "Verif.Parse.PrintType.C98_shown",
    "Verif.Parse.PrintType.C98_ends"
   ],
   "note": "types of the heap are printed as the trees they stand for (of a type variable only the name); the parser refuses texts nested deeper than its stack, as any program"
  }
 ]
}