# Axioms

Generated by `tools/axioms.py` (`#print axioms` for every theorem of MANIFEST.json).

| property | theorem | axioms |
|---|---|---|
| C01 | `Verif.Pack.C01_struct_field` | propext, Classical.choice, Quot.sound |
| C01 | `Verif.Pack.C01_struct_field_same` | propext, Classical.choice, Quot.sound |
| C02 | `Verif.Pack.C02_union_access` | propext, Classical.choice, Quot.sound |
| C02 | `Verif.Pack.C02_union_access_same` | propext, Classical.choice, Quot.sound |
| C03 | `Verif.Pack.C03_injective` | propext, Classical.choice, Quot.sound |
| C03 | `Verif.Pack.C03_not_confused` | propext |
| C03 | `Verif.Pack.C03_constructors` | propext, Classical.choice, Quot.sound |
| C03 | `Verif.Pack.C03_refinement` | propext, Classical.choice, Quot.sound |
| C04 | `Verif.Pack.C04_shifts` | propext, Classical.choice, Quot.sound |
| C04 | `Verif.Pack.C04_violated` | propext, Quot.sound |
| C05 | `Verif.Pack.C05_list` | propext, Classical.choice, Quot.sound |
| C05 | `Verif.Pack.C05_literal` | propext, Classical.choice, Quot.sound |
| C06 | `Verif.Select.C06_interp_select` | propext, Quot.sound |
| C06 | `Verif.Select.C06_c_switch_agrees` | propext, Quot.sound |
| C06 | `Verif.Select.C06_empty_table_violated` | propext, Quot.sound |
| C07 | `Verif.Compile.Curry.C07_split` | propext, Quot.sound |
| C07 | `Verif.Compile.Curry.C07_one_by_one` | propext, Quot.sound |
| C07 | `Verif.Compile.Curry.C07_body` | propext, Quot.sound |
| C07 | `Verif.Compile.Curry.C07_partial_application` | propext, Quot.sound |
| C07 | `Verif.Compile.Curry.C07_undefined` | propext, Quot.sound |
| C07 | `Verif.Compile.Curry.C07_proper` | propext, Quot.sound |
| C08 | `Verif.Refs.C08_reads_terminate` | propext, Quot.sound |
| C08 | `Verif.Refs.C08_assign_exact` | propext, Quot.sound |
| C08 | `Verif.Refs.C08_assign_effect` | propext, Quot.sound |
| C09 | `Verif.Gc.C09_safe` | propext, Classical.choice, Quot.sound |
| C09 | `Verif.Gc.C09_violated` | propext, Quot.sound |
| C10 | `Verif.Gc.C10_freed_once` | propext, Classical.choice, Quot.sound |
| C10 | `Verif.Gc.C10_violated` | propext, Quot.sound |
| C11 | `Verif.Gc.C11_terminates` | propext, Classical.choice, Quot.sound |
| C11 | `Verif.Gc.C11_reclaims` | propext, Classical.choice, Quot.sound |
| C11 | `Verif.Gc.C11_violated` | propext, Classical.choice, Quot.sound |
| C12 | `Verif.Support.StackAlloc.C12_apart` | propext, Classical.choice, Quot.sound |
| C12 | `Verif.Support.StackAlloc.C12_size` | propext |
| C12 | `Verif.Support.StackAlloc.C12_freed` | propext, Classical.choice, Quot.sound |
| C12 | `Verif.Support.StackAlloc.C12_callee` | propext, Classical.choice, Quot.sound |
| C12 | `Verif.Support.StackAlloc.C12_violated` | propext, Quot.sound |
| C13 | `Verif.Compile.C13_compiled_program` | propext, Classical.choice, Quot.sound |
| C13 | `Verif.Compile.C13_empty_select_violated` | propext, Quot.sound |
| C14 | `Verif.Compile.C14_code_fits` | propext, Classical.choice, Quot.sound |
| C14 | `Verif.Compile.C14_main_fits` | propext, Classical.choice, Quot.sound |
| C14 | `Verif.Compile.step_effect` | propext, Quot.sound |
| C15 | `Verif.Compile.C15_balanced` | propext, Classical.choice, Quot.sound |
| C15 | `Verif.Compile.C15_blocks` | propext, Classical.choice, Quot.sound |
| C16 | `Verif.Elab.C16_names` | propext, Classical.choice, Quot.sound |
| C16 | `Verif.Elab.Example.checked` | propext, Classical.choice, Quot.sound |
| C17 | `Verif.Elab.C17_select` | propext, Classical.choice, Quot.sound |
| C18 | `Verif.Elab.C18_copy` | propext, Classical.choice, Quot.sound |
| C19 | `Verif.Elab.C19_literal` | propext, Quot.sound |
| C19 | `Verif.Elab.C19_rejected` | propext, Quot.sound |
| C20 | `Verif.Elab.C20_cast` | propext, Quot.sound |
| C20 | `Verif.Elab.C20_access` | propext, Quot.sound |
| C20 | `Verif.Elab.C20_value` | propext, Quot.sound |
| C21 | `Verif.Unused.C21_exact` | propext, Classical.choice, Quot.sound |
| C21 | `Verif.Unused.C21_once` | propext, Classical.choice, Quot.sound |
| C22 | `Verif.Types.C22_equal` | propext, Quot.sound |
| C22 | `Verif.Types.C22_adjust` | propext, Quot.sound |
| C22 | `Verif.Types.C22_adjust_add` | propext, Quot.sound |
| C22 | `Verif.Types.C22_adjust_zero` | propext, Quot.sound |
| C22 | `Verif.Types.C22_adjust_undo` | propext, Quot.sound |
| C22 | `Verif.Types.C22_var` | propext, Quot.sound |
| C22 | `Verif.Types.C22_poly` | propext, Quot.sound |
| C22 | `Verif.Types.C22_apply` | propext, Quot.sound |
| C23 | `Verif.Types.C23_decides` | propext, Classical.choice, Quot.sound |
| C23 | `Verif.Types.C23_sound` | propext, Classical.choice, Quot.sound |
| C23 | `Verif.Types.C23_violated` | propext, Quot.sound |
| C24 | `Verif.Types.C24_opened` | propext, Classical.choice, Quot.sound |
| C24 | `Verif.Types.C24_inside` | propext |
| C24 | `Verif.Types.C24_closed` | propext, Classical.choice, Quot.sound |
| C24 | `Verif.Types.C24_violated` | propext |
| C25 | `Verif.TypeHeap.C25_safe` | propext, Classical.choice, Quot.sound |
| C25 | `Verif.TypeHeap.C25_full` | propext, Classical.choice, Quot.sound |
| C25 | `Verif.TypeHeap.C25_all` | propext, Classical.choice, Quot.sound |
| C26 | `Verif.Load.C26_load_ok` | propext, Quot.sound |
| C26 | `Verif.Load.C26_build_deps` | propext, Quot.sound |
| C27 | `Verif.Load.C27_load_decides` | propext, Classical.choice, Quot.sound |
| C28 | `Verif.Load.C28_link_iff` | propext, Classical.choice, Quot.sound |
| C28 | `Verif.Load.C28_link` | propext, Classical.choice, Quot.sound |
| C28 | `Verif.Load.C28_loaded_linkable` | propext, Quot.sound |
| C28 | `Verif.Load.C28_generated_linkable` | propext, Quot.sound |
| C29 | `Verif.Text.C29_find_package` | propext, Classical.choice, Quot.sound |
| C29 | `Verif.Text.C29_components_unique` | propext |
| C29 | `Verif.Text.C29_no_env` | propext, Quot.sound |
| C30 | `Verif.Text.C30_rule` | propext |
| C30 | `Verif.Text.C30_layout` | propext, Quot.sound |
| C30 | `Verif.Text.C30_unescaped_violated` | none |
| C31 | `Verif.Text.C31_type_name` | propext, Classical.choice, Quot.sound |
| C31 | `Verif.Text.C31_normal_name` | propext, Classical.choice, Quot.sound |
| C31 | `Verif.Text.C31_print_injective` | propext, Classical.choice, Quot.sound |
| C31 | `Verif.Text.C31_empty_name_violated` | propext, Classical.choice, Quot.sound |
| C32 | `Verif.Text.C32_read_locations` | propext, Quot.sound |
| C32 | `Verif.Text.C32_token_locations` | propext, Classical.choice, Quot.sound |
| C33 | `Verif.Text.C33_whole_file` | propext, Classical.choice, Quot.sound |
| C33 | `Verif.Text.C33_violated` | propext, Classical.choice, Quot.sound |
| C34 | `Verif.Text.C34_paths_equal` | propext, Quot.sound |
| C34 | `Verif.Text.C34_belongs` | propext, Quot.sound |
| C34 | `Verif.Text.C34_belongs_trans` | propext, Quot.sound |
| C35 | `Verif.Gen.C35_symbol_injective` | propext, Classical.choice, Quot.sound |
| C35 | `Verif.Gen.C35_symbol_identifier` | propext, Classical.choice, Quot.sound |
| C35 | `Verif.Gen.C35_slash_violated` | propext, Classical.choice, Quot.sound |
| C35 | `Verif.Gen.C35_function_labels_distinct` | propext, Quot.sound |
| C35 | `Verif.Gen.C35_function_label_identifier` | propext, Classical.choice, Quot.sound |
| C36 | `Verif.Gen.C36_sanitize_in_bounds` | propext, Classical.choice, Quot.sound |
| C36 | `Verif.Gen.C36_label_in_bounds` | propext, Classical.choice, Quot.sound |
| C36 | `Verif.Gen.C36_signed_char_violated` | propext, Classical.choice, Quot.sound |
| C37 | `Verif.Gen.C37_c_literal` | propext, Quot.sound |
| C37 | `Verif.Gen.C37_asm_literal` | propext, Quot.sound |
| C37 | `Verif.Gen.C37_trigraph_violated` | none |
| C37 | `Verif.Gen.C37_location_violated` | none |
| C38 | `Verif.Select.C38_decision_tree` | propext, Classical.choice, Quot.sound |
| C38 | `Verif.Select.C38_agrees_with_interp` | propext, Classical.choice, Quot.sound |
| C39 | `Verif.Profile.C39_counts` | propext, Classical.choice, Quot.sound |
| C40 | `Verif.Profile.C40_times` | propext, Classical.choice, Quot.sound |
| C41 | `Verif.Profile.C41_lookup` | propext, Classical.choice, Quot.sound |
| C42 | `Verif.Profile.C42_sort` | propext, Classical.choice, Quot.sound |
| C43 | `Verif.Profile.C43_generated` | propext, Classical.choice, Quot.sound |
| C43 | `Verif.Profile.C43_root` | propext, Classical.choice, Quot.sound |
| C43 | `Verif.Profile.C43_violated` | propext, Classical.choice, Quot.sound |
| C44 | `Verif.Support.Vector.C44_vector` | propext, Classical.choice, Quot.sound |
| C45 | `Verif.Support.Alloc.C45_accounting` | propext, Classical.choice, Quot.sound |
| C46 | `Verif.Pack.C46_int_roundtrip` | propext, Classical.choice, Quot.sound |
| C46 | `Verif.Pack.C46_violated` | propext, Quot.sound |
| C47 | `Verif.Pack.C47_string_roundtrip` | propext, Classical.choice, Quot.sound |
| C47 | `Verif.Pack.C47_chars` | propext, Classical.choice, Quot.sound |
| C47 | `Verif.Pack.C47_plain_unchanged` | propext, Quot.sound |
| C48 | `Verif.Args.C48_options` | propext, Classical.choice, Quot.sound |
| C48 | `Verif.Args.C48_rest` | propext, Classical.choice, Quot.sound |
| C48 | `Verif.Args.C48_missing` | propext, Classical.choice, Quot.sound |
| C48 | `Verif.Args.C48_programs` | propext, Classical.choice, Quot.sound |
| C48 | `Verif.Args.C48_violated` | propext, Classical.choice, Quot.sound |
| C49 | `Verif.Support.GetLine.C49_getLine` | propext, Classical.choice, Quot.sound |
| C49 | `Verif.Support.GetLine.C49_violated` | propext, Classical.choice, Quot.sound |
| C50 | `Verif.Fbld.C50_sound` | propext, Classical.choice, Quot.sound |
| C50 | `Verif.Fbld.C50_complete` | propext, Classical.choice, Quot.sound |
| C50 | `Verif.Fbld.C50_failure` | propext, Classical.choice, Quot.sound |
| C50 | `Verif.Fbld.C50_error` | propext, Classical.choice, Quot.sound |
| C50 | `Verif.Fbld.C50_no_pending_write` | propext, Classical.choice, Quot.sound |
| C51 | `Verif.Fbld.C51_equal` | propext, Quot.sound |
| C51 | `Verif.Fbld.C51_compare` | propext, Quot.sound |
| C51 | `Verif.Fbld.C51_head` | propext, Quot.sound |
| C51 | `Verif.Fbld.C51_tail` | propext, Quot.sound |
| C51 | `Verif.Fbld.C51_no_crash` | propext, Quot.sound |
| C52 | `Verif.Fbld.C52_text` | propext, Classical.choice, Quot.sound |
| C52 | `Verif.Fbld.C52_in_bounds` | propext, Classical.choice, Quot.sound |
| C52 | `Verif.Fbld.C52_print` | propext |
| C52 | `Verif.Fbld.C52_print_text` | propext, Quot.sound |
| C52 | `Verif.Fbld.C52_violated` | propext, Classical.choice, Quot.sound |
| C53 | `Verif.Fbld.C53_crash` | propext, Classical.choice, Quot.sound |
| C53 | `Verif.Fbld.C53_clean` | propext, Classical.choice, Quot.sound |
| C53 | `Verif.Fbld.C53_no_error` | propext, Classical.choice, Quot.sound |
| C53 | `Verif.Fbld.C53_reported` | propext, Classical.choice, Quot.sound |
| C53 | `Verif.Fbld.C53_violated` | propext, Quot.sound |
| C54 | `Verif.Parse.C54_path_roundtrip` | propext, Classical.choice, Quot.sound |
| C54 | `Verif.Text.C54_path_name` | propext, Quot.sound |
| C54 | `Verif.Text.C54_quoted_ambiguous` | none |
| C55 | `Verif.Text.C55_find` | propext, Quot.sound |
| C55 | `Verif.Text.C55_distinct_files` | propext, Quot.sound |
| C56 | `Verif.Profile.Stack.C56_stack` | propext, Quot.sound |
| C57 | `Verif.Profile.Perf.C57_perf` | propext, Classical.choice, Quot.sound |
| C58 | `Verif.Types.C58_infer` | propext, Classical.choice, Quot.sound |
| C58 | `Verif.Types.C58_complete` | propext, Classical.choice, Quot.sound |
| C59 | `Verif.Types.C59_list` | propext, Classical.choice, Quot.sound |
| C60 | `Verif.Elab.C60_program` | propext, Classical.choice, Quot.sound |
| C61 | `Verif.Elab.C61_program` | propext, Classical.choice, Quot.sound |
| C61 | `Verif.Elab.C61_meaning` | propext, Classical.choice, Quot.sound |
| C61 | `Verif.Elab.C61_violated` | propext, Classical.choice, Quot.sound |
| C61 | `Verif.Elab.C61_cast_violated` | propext, Classical.choice, Quot.sound |
| C62 | `Verif.Backend.C62_c_program` | propext, Classical.choice, Quot.sound |
| C62 | `Verif.Backend.C62_c_source` | propext, Classical.choice, Quot.sound |
| C62 | `Verif.Backend.C62_c_valid` | propext, Classical.choice, Quot.sound |
| C62 | `Verif.Backend.C62_example` | propext, Classical.choice, Quot.sound |
| C63 | `Verif.Elab.C63_names` | propext, Classical.choice, Quot.sound |
| C64 | `Verif.Backend.C64_a64_program` | propext, Classical.choice, Quot.sound |
| C64 | `Verif.Backend.C64_a64_source` | propext, Classical.choice, Quot.sound |
| C64 | `Verif.Backend.C64_a64_function` | propext, Classical.choice, Quot.sound |
| C64 | `Verif.Backend.C64_example` | propext, Classical.choice, Quot.sound |
| C64 | `Verif.Backend.C64_function_example` | propext, Classical.choice, Quot.sound |
| C65 | `Verif.Backend.C65_a64_valid` | propext, Classical.choice, Quot.sound |
| C65 | `Verif.Backend.C65_example` | propext, Classical.choice, Quot.sound |
| C66 | `Verif.Backend.C66_a64_encodes` | propext, Classical.choice, Quot.sound |
| C66 | `Verif.Backend.C66_a64_module` | propext, Classical.choice, Quot.sound |
| C66 | `Verif.Backend.C66_violated` | propext, Quot.sound |
| C66 | `Verif.Backend.C66_violated_example` | propext, Quot.sound |
| C66 | `Verif.Backend.C66_example` | propext, Classical.choice, Quot.sound |
| C67 | `Verif.Parse.C67_total` | propext, Classical.choice, Quot.sound |
| C67 | `Verif.Parse.C67_parses` | propext, Classical.choice, Quot.sound |
| C67 | `Verif.Parse.C67_unambiguous` | propext, Classical.choice, Quot.sound |
| C67 | `Verif.Parse.C67_no_error` | propext, Classical.choice, Quot.sound |
| C67 | `Verif.Parse.C67_file` | propext, Classical.choice, Quot.sound |
| C67 | `Verif.Parse.C67_whole_file` | propext, Classical.choice, Quot.sound |
| C67 | `Verif.Parse.C67_one_program` | propext, Classical.choice, Quot.sound |
| C67 | `Verif.Parse.C67_too_deep` | propext, Classical.choice, Quot.sound |
| C67 | `Verif.Parse.C67_violated` | propext, Classical.choice, Quot.sound |
| C67 | `Verif.Parse.C67_stack_violated` | propext, Classical.choice, Quot.sound |
| C68 | `Verif.Parse.C68_deps` | propext, Classical.choice, Quot.sound |
| C69 | `Verif.Parse.C69_total` | propext, Classical.choice, Quot.sound |
| C69 | `Verif.Parse.C69_path` | propext, Classical.choice, Quot.sound |
| C69 | `Verif.Parse.C69_no_error` | propext, Classical.choice, Quot.sound |
| C69 | `Verif.Parse.C69_string` | propext, Classical.choice, Quot.sound |
| C69 | `Verif.Parse.C69_violated` | propext, Classical.choice, Quot.sound |
| C70 | `Verif.Whole.C70_loaded` | propext, Classical.choice, Quot.sound |
| C70 | `Verif.Whole.C70_loads` | propext, Classical.choice, Quot.sound |
| C70 | `Verif.Whole.C70_run` | propext, Classical.choice, Quot.sound |
| C70 | `Verif.Whole.C70_decides` | propext, Classical.choice, Quot.sound |
| C71 | `Verif.NoCrash.C71_no_crash` | propext, Classical.choice, Quot.sound |
| C71 | `Verif.NoCrash.C71_loaded` | propext, Classical.choice, Quot.sound |
| C71 | `Verif.NoCrash.C71_violated` | propext, Classical.choice, Quot.sound |
| C71 | `Verif.NoCrash.C71_copy_violated` | propext, Classical.choice, Quot.sound |
| C72 | `Verif.NoCrash.C72_ends` | propext, Classical.choice, Quot.sound |
| C72 | `Verif.NoCrash.C72_loaded` | propext, Classical.choice, Quot.sound |
| C72 | `Verif.NoCrash.C72_verdict` | propext, Classical.choice, Quot.sound |
| C72 | `Verif.NoCrash.C72_fuel` | propext, Quot.sound |
| C73 | `Verif.FbldParse.C73_files` | propext, Classical.choice, Quot.sound |
| C73 | `Verif.FbldParse.C73_files_concrete` | propext, Classical.choice, Quot.sound |
| C73 | `Verif.FbldParse.C73_violated` | propext, Classical.choice, Quot.sound |
| C74 | `Verif.FbldParse.C74_ends` | propext, Classical.choice, Quot.sound |
| C74 | `Verif.FbldParse.C74_result` | propext, Classical.choice, Quot.sound |
| C74 | `Verif.FbldParse.C74_concrete` | propext, Classical.choice, Quot.sound |
| C74 | `Verif.FbldParse.C74_violated` | propext, Classical.choice, Quot.sound |
| C75 | `Verif.FbldParse.C75_grammar` | propext, Classical.choice, Quot.sound |
| C75 | `Verif.FbldParse.C75_unambiguous` | propext, Classical.choice, Quot.sound |
| C75 | `Verif.FbldParse.C75_concrete` | propext, Classical.choice, Quot.sound |
| C76 | `Verif.FbldParse.C76_indent` | propext, Classical.choice, Quot.sound |
| C76 | `Verif.FbldParse.C76_indent_error` | propext, Classical.choice, Quot.sound |
| C76 | `Verif.FbldParse.C76_rest_error` | propext, Classical.choice, Quot.sound |
| C76 | `Verif.FbldParse.C76_concrete` | propext, Classical.choice, Quot.sound |
| C76 | `Verif.FbldParse.C76_violated` | propext, Classical.choice, Quot.sound |
| C77 | `Verif.Host.C77_interpreted` | propext, Classical.choice, Quot.sound |
| C77 | `Verif.Host.C77_c` | propext, Classical.choice, Quot.sound |
| C77 | `Verif.Host.C77_a64` | propext, Classical.choice, Quot.sound |
| C77 | `Verif.Host.Example.copies` | propext, Classical.choice, Quot.sound |
| C77 | `Verif.Host.Example.copies_interpreted` | propext, Classical.choice, Quot.sound |
| C78 | `Verif.Host.C78_read` | propext, Quot.sound |
| C78 | `Verif.Host.C78_read_only` | propext, Quot.sound |
| C78 | `Verif.Host.C78_make` | propext, Quot.sound |
| C78 | `Verif.Host.C78_violated` | propext, Quot.sound |
| C79 | `Verif.Host.C79_table` | none |
| C79 | `Verif.Host.C79_read` | propext, Classical.choice, Quot.sound |
| C79 | `Verif.Host.C79_make` | propext, Classical.choice, Quot.sound |
| C79 | `Verif.Host.C79_violated` | propext, Classical.choice, Quot.sound |
| C80 | `Verif.Host.C80_stdin` | propext, Classical.choice, Quot.sound |
| C80 | `Verif.Host.C80_file` | propext, Classical.choice, Quot.sound |
| C80 | `Verif.Host.C80_no_file` | propext, Classical.choice, Quot.sound |
| C80 | `Verif.Host.C80_stdout` | propext, Classical.choice, Quot.sound |
| C80 | `Verif.Host.C80_write` | propext, Classical.choice, Quot.sound |
| C80 | `Verif.Host.C80_getenv` | propext, Classical.choice, Quot.sound |
| C81 | `Verif.Host.C81_safe` | propext, Classical.choice, Quot.sound |
| C81 | `Verif.Host.Example.copyMain_ok` | propext, Classical.choice, Quot.sound |
| C82 | `Verif.Host.C82_stdio` | propext, Classical.choice, Quot.sound |
| C82 | `Verif.Host.C82_given` | propext, Classical.choice, Quot.sound |
| C82 | `Verif.Host.Example.copyMain_ok` | propext, Classical.choice, Quot.sound |
| C82 | `Verif.Host.Example.C82_violated` | propext, Classical.choice, Quot.sound |
| C83 | `Verif.Host.C83_app` | propext, Classical.choice, Quot.sound |
| C83 | `Verif.Host.C83_given` | propext, Classical.choice, Quot.sound |
| C83 | `Verif.Host.Example.drawMain_ok` | propext, Classical.choice, Quot.sound |
| C84 | `Verif.Host.C84_draw` | propext, Classical.choice, Quot.sound |
| C84 | `Verif.Host.example_drawn` | propext, Classical.choice, Quot.sound |
| C85 | `Verif.Host.C85_events` | propext, Classical.choice, Quot.sound |
| C85 | `Verif.Host.C85_pictures` | propext, Classical.choice, Quot.sound |
| C85 | `Verif.Host.C85_keys` | propext, Classical.choice, Quot.sound |
| C85 | `Verif.Host.C85_values` | propext, Classical.choice, Quot.sound |
| C85 | `Verif.Host.C85_skipped` | propext, Classical.choice, Quot.sound |
| C85 | `Verif.Host.C85_ticks` | propext, Classical.choice, Quot.sound |
| C85 | `Verif.Host.C85_stdio` | propext, Classical.choice, Quot.sound |
| C86 | `Verif.Whole.C86_runs` | propext, Classical.choice, Quot.sound |
| C86 | `Verif.Whole.C86_fails` | propext, Classical.choice, Quot.sound |
| C86 | `Verif.Whole.C86_compiled` | propext, Classical.choice, Quot.sound |
| C86 | `Verif.Whole.C86_command` | propext, Classical.choice, Quot.sound |
| C86 | `Verif.Whole.C86_same` | propext, Classical.choice, Quot.sound |
| C86 | `Verif.Whole.C86_safe` | propext, Classical.choice, Quot.sound |
| C86 | `Verif.Host.C86_status` | propext |
| C86 | `Verif.Whole.CopyExample.runs` | propext, Classical.choice, Quot.sound |
| C86 | `Verif.Elab.tables_of_wide` | propext, Quot.sound |
| C87 | `Verif.Whole.C87_compile` | propext, Classical.choice, Quot.sound |
| C87 | `Verif.Whole.C87_module` | propext, Classical.choice, Quot.sound |
| C87 | `Verif.Whole.C87_separate` | propext, Classical.choice, Quot.sound |
| C87 | `Verif.Whole.Example.separate` | propext, Classical.choice, Quot.sound |
| C88 | `Verif.Whole.C88_options` | propext, Classical.choice, Quot.sound |
| C88 | `Verif.Whole.C88_rule` | propext, Classical.choice, Quot.sound |
| C88 | `Verif.Whole.C88_ends` | propext, Classical.choice, Quot.sound |
| C88 | `Verif.Load.buildDeps_any` | propext, Quot.sound |
| C88 | `Verif.Whole.Example.deps_written` | propext, Classical.choice, Quot.sound |
| C88 | `Verif.Whole.Example.deps_missing` | propext, Classical.choice, Quot.sound |
| C89 | `Verif.Elab.C89_typed` | propext, Classical.choice, Quot.sound |
| C89 | `Verif.Elab.unit_ty` | propext, Classical.choice, Quot.sound |
| C89 | `Verif.Elab.access_ty` | propext, Classical.choice, Quot.sound |
| C89 | `Verif.Elab.call_ty` | propext, Classical.choice, Quot.sound |
| C90 | `Verif.Profile.C90_report` | propext, Classical.choice, Quot.sound |
| C90 | `Verif.Profile.C90_blocks` | propext, Classical.choice, Quot.sound |
| C90 | `Verif.Profile.C90_example` | propext, Classical.choice, Quot.sound |
| C91 | `Verif.Whole.App.C91_runs` | propext, Classical.choice, Quot.sound |
| C91 | `Verif.Whole.App.C91_fails` | propext, Classical.choice, Quot.sound |
| C91 | `Verif.Whole.App.C91_compiled` | propext, Classical.choice, Quot.sound |
| C91 | `Verif.Whole.App.C91_command` | propext, Classical.choice, Quot.sound |
| C91 | `Verif.Whole.App.C91_same` | propext, Classical.choice, Quot.sound |
| C91 | `Verif.Whole.App.C91_safe` | propext, Classical.choice, Quot.sound |
| C91 | `Verif.Whole.App.noDisplay_status` | propext |
| C92 | `Verif.FbldParse.C92_value` | propext, Classical.choice, Quot.sound |
| C92 | `Verif.FbldParse.C92_error` | propext, Classical.choice, Quot.sound |
| C92 | `Verif.FbldParse.C92_status` | propext, Classical.choice, Quot.sound |
| C92 | `Verif.FbldParse.C92_document` | propext, Classical.choice, Quot.sound |
| C92 | `Verif.FbldParse.C92_files` | propext, Classical.choice, Quot.sound |
| C92 | `Verif.FbldParse.C92_crash` | propext, Classical.choice, Quot.sound |
| C92 | `Verif.FbldParse.C92_concrete` | propext, Classical.choice, Quot.sound |
| C93 | `Verif.Profile.Perf.C93_report` | propext, Classical.choice, Quot.sound |
| C93 | `Verif.Profile.Perf.describes` | propext, Classical.choice, Quot.sound |
| C93 | `Verif.Profile.Perf.C93_fails` | propext, Classical.choice, Quot.sound |
| C93 | `Verif.Profile.Perf.C93_violated` | propext, Classical.choice, Quot.sound |
| C93 | `Verif.Profile.Perf.C93_hangs` | propext, Classical.choice, Quot.sound |
| C93 | `Verif.Profile.Perf.C93_example` | propext, Classical.choice, Quot.sound |
| C94 | `Verif.Whole.Test.C94_runs` | propext, Classical.choice, Quot.sound |
| C94 | `Verif.Whole.Test.C94_fails` | propext, Classical.choice, Quot.sound |
| C94 | `Verif.Whole.Test.C94_compiled` | propext, Classical.choice, Quot.sound |
| C94 | `Verif.Whole.Test.C94_command` | propext, Classical.choice, Quot.sound |
| C94 | `Verif.Whole.Test.C94_same` | propext, Classical.choice, Quot.sound |
| C94 | `Verif.Whole.Test.C94_safe` | propext, Classical.choice, Quot.sound |
| C95 | `Verif.Backend.Dis.C95_instr` | propext, Classical.choice, Quot.sound |
| C95 | `Verif.Backend.Dis.C95_debug` | propext, Classical.choice, Quot.sound |
| C95 | `Verif.Backend.Dis.C95_listing` | propext, Classical.choice, Quot.sound |
| C95 | `Verif.Backend.Dis.C95_profile` | propext, Classical.choice, Quot.sound |
| C95 | `Verif.Backend.Dis.C95_violated` | propext, Classical.choice, Quot.sound |
| C95 | `Verif.Whole.C95_command` | propext, Classical.choice, Quot.sound |
| C96 | `Verif.Load.C96_order` | propext, Quot.sound |
| C96 | `Verif.Load.C96_exists` | propext, Quot.sound |
| C96 | `Verif.Whole.C96_linked` | propext, Classical.choice, Quot.sound |
| C97 | `Verif.Gen.Data.C97_a64` | propext, Classical.choice, Quot.sound |
| C97 | `Verif.Gen.Data.C97_c` | propext, Classical.choice, Quot.sound |
| C97 | `Verif.Gen.Data.C97_labels_a64` | propext, Classical.choice, Quot.sound |
| C97 | `Verif.Gen.Data.C97_labels_c` | propext, Classical.choice, Quot.sound |
| C97 | `Verif.Gen.Data.Accepts.unique` | propext, Quot.sound |
| C98 | `Verif.Parse.PrintType.C98_syntax` | propext, Classical.choice, Quot.sound |
| C98 | `Verif.Parse.PrintType.C98_parse` | propext, Classical.choice, Quot.sound |
| C98 | `Verif.Parse.PrintType.C98_parse_exists` | propext, Classical.choice, Quot.sound |
| C98 | `Verif.Parse.PrintType.C98_apart` | propext, Classical.choice, Quot.sound |
| C98 | `Verif.Parse.PrintType.C98_kind` | propext, Classical.choice, Quot.sound |
| C98 | `Verif.Parse.PrintType.C98_violated` | propext, Classical.choice, Quot.sound |
| C98 | `Verif.Parse.PrintType.C98_root_violated` | propext, Classical.choice, Quot.sound |
| C98 | `Verif.Parse.PrintType.C98_heap` | propext, Classical.choice, Quot.sound |
| C98 | `Verif.Parse.PrintType.C98_shown` | propext, Classical.choice, Quot.sound |
| C98 | `Verif.Parse.PrintType.C98_ends` | propext, Classical.choice, Quot.sound |
