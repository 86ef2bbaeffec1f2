P='Verif.Pack.'
claim('C01','proved',[P+'C01_struct_field',P+'C01_struct_field_same'],'all arities, values and representations; allocator assumed to return fresh even addresses')
claim('C02','proved',[P+'C02_union_access',P+'C02_union_access_same'],'')
claim('C03','proved',[P+'C03_injective',P+'C03_not_confused',P+'C03_constructors',P+'C03_refinement'],'refinement: any program over the value API behaves as on plain algebraic data')
claim('C04','proved',[P+'C04_shifts',P+'C04_violated'],'the shifts by 64 bits are proved to happen')
claim('C05','proved',[P+'C05_list',P+'C05_literal'],'')
claim('C46','proved',[P+'C46_int_roundtrip',P+'C46_violated'],'the overflow for the least integer is proved')
claim('C47','proved',[P+'C47_string_roundtrip',P+'C47_chars',P+'C47_plain_unchanged'],'')
P='Verif.Select.'
claim('C06','proved',[P+'C06_interp_select',P+'C06_c_switch_agrees',P+'C06_empty_table_violated'],'interpreter binary search and C switch')
claim('C38','proved',[P+'C38_decision_tree',P+'C38_agrees_with_interp'],'instruction-level model of the emitted compare-and-branch code')
P='Verif.Refs.'
claim('C08','proved',[P+'C08_reads_terminate',P+'C08_assign_exact',P+'C08_assign_effect'],'')
P='Verif.Load.'
claim('C26','proved',[P+'C26_load_ok',P+'C26_build_deps'],'')
claim('C27','proved',[P+'C27_load_decides'],'termination, uniqueness and exact failure condition')
claim('C28','proved',[P+'C28_link_iff',P+'C28_link',P+'C28_loaded_linkable',P+'C28_generated_linkable'],'')
P='Verif.Text.'
claim('C29','proved',[P+'C29_find_package',P+'C29_components_unique',P+'C29_no_env'],'')
claim('C30','proved',[P+'C30_rule',P+'C30_layout',P+'C30_unescaped_violated'],'names with blanks, newlines or backslashes are not escaped by the code (proved)')
claim('C31','proved',[P+'C31_type_name',P+'C31_normal_name',P+'C31_print_injective',P+'C31_empty_name_violated'],'holds for all nonempty names; the failure for the empty name is proved')
claim('C32','proved',[P+'C32_read_locations',P+'C32_token_locations'],'')
claim('C33','proved',[P+'C33_whole_file',P+'C33_violated'],'files with a NUL byte are cut short (proved)')
claim('C34','proved',[P+'C34_paths_equal',P+'C34_belongs',P+'C34_belongs_trans'],'')
claim('C54','proved',['Verif.Parse.C54_path_roundtrip',P+'C54_path_name',P+'C54_quoted_ambiguous'],'')
claim('C55','proved',[P+'C55_find',P+'C55_distinct_files'],'')
P='Verif.Gen.'
claim('C35','proved',[P+'C35_symbol_injective',P+'C35_symbol_identifier',P+'C35_slash_violated',P+'C35_function_labels_distinct',P+'C35_function_label_identifier'],'')
claim('C36','proved',[P+'C36_sanitize_in_bounds',P+'C36_label_in_bounds',P+'C36_signed_char_violated'],'the overflow for signed char and non-ASCII bytes is proved')
claim('C37','proved',[P+'C37_c_literal',P+'C37_asm_literal',P+'C37_trigraph_violated',P+'C37_location_violated'],'')
P='Verif.Gc.'
claim('C09','proved',[P+'C09_safe',P+'C09_violated'],'safe for all histories without the excluded kind of pop; with it, a legal history on which the collector frees a value in use is proved to exist')
claim('C10','proved',[P+'C10_freed_once',P+'C10_violated'],'same exclusion as C09; without it a double free is proved possible')
claim('C11','proved',[P+'C11_terminates',P+'C11_reclaims',P+'C11_violated'],'FbleValueFullGc stops when the last collection starts; that garbage remains then is proved with a witness')
P='Verif.Profile.'
claim('C39','proved',[P+'C39_counts'],'unbounded counters')
claim('C40','proved',[P+'C40_times'],'also that the self times add up to the total')
claim('C41','proved',[P+'C41_lookup'],'')
claim('C42','proved',[P+'C42_sort'],'')
claim('C43','proved',[P+'C43_generated',P+'C43_root',P+'C43_violated'],'the double charge for interpreted programs is proved')
claim('C56','proved',[P+'Stack.C56_stack'],'')
claim('C57','proved',[P+'Perf.C57_perf'],'counts are natural numbers; the parsing of a line is not modelled')
P='Verif.Support.'
claim('C44','proved',[P+'Vector.C44_vector'],'')
claim('C45','proved',[P+'Alloc.C45_accounting'],'')
claim('C49','proved',[P+'GetLine.C49_getLine',P+'GetLine.C49_violated'],'')
P='Verif.Args.'
claim('C48','proved',[P+'C48_options',P+'C48_rest',P+'C48_missing',P+'C48_programs',P+'C48_violated'],'')
P='Verif.Support.StackAlloc.'
claim('C12','proved',[P+'C12_apart',P+'C12_size',P+'C12_freed',P+'C12_callee',P+'C12_violated'],'')
P='Verif.TypeHeap.'
claim('C25','proved',[P+'C25_safe',P+'C25_full',P+'C25_all'],'types are their outgoing references; the traversal of FbleTypeRefs is the list of stored references')
P='Verif.Compile.'
claim('C13','proved',[P+'C13_compiled_program',P+'C13_empty_select_violated'],'meaning: evaluator with one-argument closures; runs are cut off after a number of function bodies entered, the same number for the meaning and for the machine; C functions and heap frames are not in this model')
claim('C14','proved',[P+'C14_code_fits',P+'C14_main_fits',P+'step_effect'],'step_effect: the machine reads, writes and jumps as the specification says')
claim('C15','proved',[P+'C15_balanced',P+'C15_blocks'],'')
P='Verif.Compile.Curry.'
claim('C07','proved',[P+'C07_split',P+'C07_one_by_one',P+'C07_body',P+'C07_partial_application',P+'C07_undefined',P+'C07_proper'],'functions with any bytecode; C functions are not in this model; the second list of arguments must not be empty, because a call with no arguments runs a function of arity 0')
P='Verif.Fbld.'
claim('C50','proved',[P+'C50_sound',P+'C50_complete',P+'C50_failure',P+'C50_error',P+'C50_no_pending_write'],'meaning: recursive evaluator cut off after a number of nested evaluations; a run can be stopped by the assertion of C52')
claim('C51','proved',[P+'C51_equal',P+'C51_compare',P+'C51_head',P+'C51_tail',P+'C51_no_crash'],'')
claim('C52','proved',[P+'C52_text',P+'C52_in_bounds',P+'C52_print',P+'C52_print_text',P+'C52_violated'],'the assertion failure for two empty texts is proved')
claim('C53','proved',[P+'C53_crash',P+'C53_clean',P+'C53_no_error',P+'C53_reported',P+'C53_violated'],'the crashes in @tail and @plain of a failed value are proved')
P='Verif.Types.'
claim('C22','proved',[P+'C22_equal',P+'C22_adjust',P+'C22_adjust_add',P+'C22_adjust_zero',P+'C22_adjust_undo',P+'C22_var',P+'C22_poly',P+'C22_apply'],'')
claim('C23','proved',[P+'C23_decides',P+'C23_sound',P+'C23_violated'],'non-polymorphic types; the failure for polymorphic types is proved with a witness')
claim('C24','proved',[P+'C24_opened',P+'C24_inside',P+'C24_closed',P+'C24_violated'],'non-polymorphic types; the exception is proved with a witness')
claim('C58','proved',[P+'C58_infer',P+'C58_complete'],'')
claim('C59','proved',[P+'C59_list'],'')
P='Verif.Elab.'
claim('C16','proved',[P+'C16_names',P+'Example.checked'],'meaning by names: evaluator over what is left of the expressions without types')
claim('C17','proved',[P+'C17_select'],'')
claim('C18','proved',[P+'C18_copy'],'')
claim('C19','proved',[P+'C19_literal',P+'C19_rejected'],'')
claim('C20','proved',[P+'C20_cast',P+'C20_access',P+'C20_value'],'')
claim('C60','proved',[P+'C60_program'],'modules with bodies; module->type is never set by the loader (load.c:274,330)')
claim('C61','proved',[P+'C61_program',P+'C61_meaning',P+'C61_violated',P+'C61_cast_violated'],'type soundness by a typing of values and expressions over the final heap of types; programs without polymorphic definitions; both exceptions are proved with a witness')
claim('C63','proved',[P+'C63_names'],'')
P='Verif.Unused.'
claim('C21','proved',[P+'C21_exact',P+'C21_once'],'')
P='Verif.Backend.'
claim('C62','proved',[P+'C62_c_program',P+'C62_c_source',P+'C62_c_valid',P+'C62_example'],'abstract syntax of the emitted statements; locations and messages left out; the meaning of the C statements is part of the model')
claim('C64','proved',[P+'C64_a64_program',P+'C64_a64_source',P+'C64_a64_function',P+'C64_example',P+'C64_function_example'],'abstract syntax of the emitted lines, with a semantics of these lines (registers, stack, flags, calling convention) that is part of the model; the assembler is not modelled')
claim('C65','proved',[P+'C65_a64_valid',P+'C65_example'],'')
claim('C66','proved',[P+'C66_a64_encodes',P+'C66_a64_module',P+'C66_violated',P+'C66_violated_example',P+'C66_example'],'the immediates of mov are those of sixteen bits; the assembler accepts more')
P='Verif.Parse.'
claim('C67','proved',[P+'C67_total',P+'C67_parses',P+'C67_unambiguous',P+'C67_no_error',P+'C67_file',P+'C67_whole_file',P+'C67_one_program',P+'C67_too_deep',P+'C67_violated',P+'C67_stack_violated'],"bison's tables are those that tools/lalr.py computes from the grammar; the kernel checks what the proofs need of them")
claim('C68','proved',[P+'C68_deps'],'')
claim('C69','proved',[P+'C69_total',P+'C69_path',P+'C69_no_error',P+'C69_string',P+'C69_violated'],'')
P='Verif.Whole.'
claim('C70','proved',[P+'C70_loaded',P+'C70_loads',P+'C70_run',P+'C70_decides'],'interpreted programs; meaning as in C60')
P='Verif.NoCrash.'
claim('C71','proved',[P+'C71_no_crash',P+'C71_loaded',P+'C71_violated',P+'C71_copy_violated'],'assertions on types and scopes, and accesses outside of vectors, are results of the model; asserts about memory (reference counts) are not; both exceptions are proved with a witness')
claim('C72','proved',[P+'C72_ends',P+'C72_loaded',P+'C72_verdict',P+'C72_fuel'],'C72_fuel holds for all programs, so no theorem depends on a choice of the fuel; the bound on the depth of the calls is quadratic in the size of the program')
P='Verif.FbldParse.'
claim('C73','proved',[P+'C73_files',P+'C73_files_concrete',P+'C73_violated'],'')
claim('C74','proved',[P+'C74_ends',P+'C74_result',P+'C74_concrete',P+'C74_violated'],'memory and locations are not modelled')
claim('C75','proved',[P+'C75_grammar',P+'C75_unambiguous',P+'C75_concrete'],'the manual as syntax trees with how they are written and what they mean (Grammar.lean); commands have names, paragraphs do not start with a space')
claim('C76','proved',[P+'C76_indent',P+'C76_indent_error',P+'C76_rest_error',P+'C76_concrete',P+'C76_violated'],'for all texts, not only those of the grammar of C75')
P='Verif.Host.'
claim('C77','proved',[P+'C77_interpreted',P+'C77_c',P+'C77_a64',P+'Example.copies',P+'Example.copies_interpreted'],'the functions and the C program are arbitrary; FbleStdio is one such program (stdioHost); functions implemented in C do not apply values themselves')
claim('C78','proved',[P+'C78_read',P+'C78_read_only',P+'C78_make',P+'C78_violated'],'')
claim('C79','proved',[P+'C79_table',P+'C79_read',P+'C79_make',P+'C79_violated'],'')
claim('C80','proved',[P+'C80_stdin',P+'C80_file',P+'C80_no_file',P+'C80_stdout',P+'C80_write',P+'C80_getenv'],'files are not closed, and what is written to a file is not read from it again in the same process')
claim('C81','proved',[P+'C81_safe',P+'Example.copyMain_ok'],'programs without polymorphic definitions, as C61; the functions implemented in C do not apply values themselves')
claim('C82','proved',[P+'C82_stdio',P+'C82_given',P+'Example.copyMain_ok',P+'Example.C82_violated'],'C82_violated: a program that writes a number which is not defined yet. StdioTypes says what the type Main@ is, structurally; the example is a program with this type')
claim('C83','proved',[P+'C83_app',P+'C83_given',P+'Example.drawMain_ok'],'AppTypes says what the type Main@ is, structurally; timers are not modelled, the user events they make are among the events')
claim('C84','proved',[P+'C84_draw',P+'example_drawn'],'what is given to OpenGL, not what OpenGL does; example_drawn: two rectangles, one mirrored and moved')
claim('C85','proved',[P+'C85_events',P+'C85_pictures',P+'C85_keys',P+'C85_values',P+'C85_skipped',P+'C85_ticks',P+'C85_stdio'],'C85_values: the value for an event says what it was, by the names of the fields')
P='Verif.Whole.'
claim('C86','proved',[P+'C86_runs',P+'C86_fails',P+'C86_compiled',P+'C86_command',P+'C86_same',P+'C86_safe','Verif.Host.C86_status',P+'CopyExample.runs','Verif.Elab.tables_of_wide'],'CopyExample.runs: the text of a program that copies its input, lexed, parsed, type checked and run; tables_of_wide: a condition on the text under which the premise Tables holds (each select names two different tags)')
claim('C87','proved',[P+'C87_compile',P+'C87_module',P+'C87_separate',P+'Example.separate'],'the premise that the run of the texts does not crash is as in C77; Example.separate: a library and a program that uses it, compiled one by one')
claim('C88','proved',[P+'C88_options',P+'C88_rule',P+'C88_ends','Verif.Load.buildDeps_any',P+'Example.deps_written',P+'Example.deps_missing'],'C88_ends: it ends if the modules that are found are finitely many')
P='Verif.Elab.'
claim('C89','proved',[P+'C89_typed',P+'unit_ty',P+'access_ty',P+'call_ty'],'programs without polymorphic definitions, as C61; the rules are in Safe/Rules.lean; access_ty and call_ty: the rules reject a missing field and a call of a struct')
P='Verif.Profile.'
claim('C90','proved',[P+'C90_report',P+'C90_blocks',P+'C90_example'],'the text of the report is modelled (reportText) but for the percentages, which are floating point numbers')
P='Verif.Whole.App.'
claim('C91','proved',[P+'C91_runs',P+'C91_fails',P+'C91_compiled',P+'C91_command',P+'C91_same',P+'C91_safe',P+'noDisplay_status'],'not modelled: what --fps prints, errors of SDL after SDL_Init; example: the same command line with and without --driver dummy')
P='Verif.FbldParse.'
claim('C92','proved',[P+'C92_value',P+'C92_error',P+'C92_status',P+'C92_document',P+'C92_files',P+'C92_crash',P+'C92_concrete'],'not modelled: files that cannot be opened (the parser aborts), what is written to stderr')
P='Verif.Profile.Perf.'
claim('C93','proved',[P+'C93_report',P+'describes',P+'C93_fails',P+'C93_violated',P+'C93_hangs',P+'C93_example'],'sscanf is a parameter that reads decimal numbers; the percentages are parameters; violated for lines of certain lengths and for unknown arguments: see C93_violated, C93_hangs')
P='Verif.Whole.Test.'
claim('C94','proved',[P+'C94_runs',P+'C94_fails',P+'C94_compiled',P+'C94_command',P+'C94_same',P+'C94_safe'],'meaning as in C60; what is printed is not modelled')
Q='Verif.Backend.Dis.'
claim('C95','proved',[Q+'C95_instr',Q+'C95_debug',Q+'C95_listing',Q+'C95_profile',Q+'C95_violated','Verif.Whole.C95_command'],'names, locations and debug information are parameters; printed names are not read back')
claim('C96','proved',['Verif.Load.C96_order','Verif.Load.C96_exists','Verif.Whole.C96_linked'],'the system linker is modelled as resolving symbols')
claim('C97','proved',['Verif.Gen.Data.C97_a64','Verif.Gen.Data.C97_c','Verif.Gen.Data.C97_labels_a64','Verif.Gen.Data.C97_labels_c','Verif.Gen.Data.Accepts.unique'],'the assembler and the C compiler are modelled as far as data declarations go')
claim('C98','proved',['Verif.Parse.PrintType.C98_syntax','Verif.Parse.PrintType.C98_parse','Verif.Parse.PrintType.C98_parse_exists','Verif.Parse.PrintType.C98_apart','Verif.Parse.PrintType.C98_kind','Verif.Parse.PrintType.C98_violated','Verif.Parse.PrintType.C98_root_violated','Verif.Parse.PrintType.C98_heap','Verif.Parse.PrintType.C98_shown','Verif.Parse.PrintType.C98_ends'],'types of the heap are printed as the trees they stand for (of a type variable only the name); the parser refuses texts nested deeper than its stack, as any program')
