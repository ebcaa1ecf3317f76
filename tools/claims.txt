c("C01","proved","C01_self_sizes","all leak free histories; leaking ones never finish (C13)")
c("C02","proved","C02_text_exact_sorted C02_finish_covered C02_literal C02_finish_and_write","")
c("C05","proved","C05_order_independent","")
c("C06","proved","C06_visit_order_independent","")
c("C12","proved","C12_no_internal_panic","")
c("C17","proved","C17_lines_sum C17_finish_lines_sum","")
c("C18","proved","C18_warnings_exact","")
c("C20","proved","C20_total_size","")
c("C21","proved","C21_add_pointwise C21_add_laws","")
c("C03","proved","C03_parse_back C03_text_injective","")
c("C04","proved","C04_semicolon_ambiguous","defect of the text format, proved as a counterexample")
c("C07","proved","C07_shared_entered_once C11_stacks_of_calls","pointer sizes: every enter call is a record (C11)")
c("C11","proved","C11_stacks_of_calls","")
c("C13","proved","C13_leak_blocks_builder C13_leak_never_finishes","")
c("C14","proved","C14_panic_keeps_builder C11_stacks_of_calls","")
c("C15","proved","C15_exit_drop_same C15_one_exit_per_visitor","")
c("C16","proved","C16_conservation_exact C16_conservation","")
c("C19","proved","C19_consistent_no_warnings","")
c("C22","proved","C22_merge_disjoint","")
c("C23","proved","C23_sum_behind_unique C23_rename","")
c("C24","proved","C24_no_unreachable","")
c("C25","proved","C25_utilities_agree C25_size_of_unique C25_shared C25_values","")
c("C43","proved","C43_address_reuse","hazard")
c("C45","proved","C45_overcount_exact","defect, exact overcount")
c("C26","proved","C26_eq_iff_same_string C26_derived_is_new C26_hash_eq_contract","")
c("C27","proved","C27_total_order C27_lexicographic","")
c("C28","proved","C28_any_keys C28_wrong_hash_splits","hazard: general theorem for arbitrary keys plus witness")
c("C08","proved","C08_counted_once_iff_reachable C08_sizes","")
c("C09","proved","C09_terminates C09_runs C09_fuel_is_no_limit","")
c("C10","proved","C10_order_irrelevant","")
c("C38","proved","C38_struct C38_enum_variant C38_enum_skipped_variant C38_enum_unit_variant C38_type_skip C38_rejects C38_rejects_enum C38_field_named_visitor C38_generated_ok C38_empty_enum","field called visitor: defect, generated code does not compile")
c("C40","proved","C40_attrs_exact","")
c("C41","proved","C41_generics C41_header_ok C41_bound_header C41_demands C41_bounds_suffice C41_instances","const parameter defaults are kept: defect; trait resolution is by a table of impls with requirements on type arguments (no supertraits, no associated types)")
c("C32","proved","C32_exact C32_accounting","")
c("C33","proved","C33_tables_invisible C33_warning C33_warning_set","defect")
c("C34","proved","C34_vec C34_vecDeque C34_slab C34_string C34_path C34_indexmap","IndexMap: total smaller than capacity*size_of::<(K, V)>() by the padding of used entries")
c("C39","proved","C39_struct C39_enum","")
c("C48","proved","C48_no_warnings C48_cells","")
c("C49","proved","C49_never_overcounts C32_accounting C49_bigint","")
c("C29","proved","Registry.C29_registry Registry.C29_complete Registry.C29_grows Registry.C29_snapshot","labelled transition system with arbitrary interleaving")
c("C30","proved","Registry.C30_no_deadlock Registry.C30_lock_released","")
c("C31","proved","C31_never_waits C31_history C31_restored C31_only_poison C31_access C31_cell C31_cell_concurrent C31_once_cell C31_arc C31_impls_never_wait C31_reentrant C31_panic_poisons","")
c("C36","proved","C36_rc_box C36_bounds","")
c("C37","proved","C37_table_size C37_bounds C37_monotone C37_exact_buckets","")
c("C44","proved","C44_weak_gone C44_weak_alive C44_weak_value C44_counted_once C44_counts_restored C44_last_reference","")
c("C50","proved","C50_triomphe_arc C50_thin_arc C50_thin_arc_underestimates","defect for over-aligned elements")
c("C51","proved","C51_dashmap_waits C51_root_waits C51_waits_only_if_held C51_held_by_others C51_returns C51_history C51_history_returns C51_dashmap_returns C51_dashmap_value C51_dashset_value C51_dashmap_concurrent C51_dashset_concurrent C51_holds_while_waiting","hazard")
c("C42","proved","C42_exact C42_bound_needed C42_flamegraph C42_flamegraph_debug C42_flamegraph_panic C42_size_of_release C42_size_of_debug C42_size_of_unique_debug","size_of_debug: visits that do not catch panics")
c("C46","proved","C46_fail_stop C46_exact_or_panic","")
c("C35","proved","C35_builder C35_size_of C35_visit_iter","")
c("C47","proved","RootMacro.C47_expansion RootMacro.C47_names_collide RootMacro.C47_own_name RootMacro.C47_registers_marked RootMacro.C47_compiles_iff RootMacro.C47_startup RootMacro.C47_ascii","Unicode tables are a parameter with stated laws (Unicode.Lawful), C47_ascii says what they mean for ASCII names")
c("C52","proved","C52_records C52_cells C52_text","")
c("C53","proved","C53_same_key_iff C53_distinct_keys C53_contents_by_key C53_exception","hazard: exact exception")
c("C54","proved","C54_global_roots C54_live_roots","")
c("C55","proved","C55_struct C55_enum_variant C55_enum_skipped_variant C55_enum_unit_variant C55_type_skip","")
c("C56","proved","C56_release C56_text C56_local C56_flamegraph C56_add_child C56_finish","")
c("C57","proved","C57_consistent C57_add_self C57_add_child C57_add C57_same_result C57_finish","")
c("C58","proved","C58_never_panics C58_report C58_any_moment C58_independent C58_leak C58_programs","")
c("C59","proved","C59_accounting C59_footprint C59_never_more C59_never_less C59_unmixed C59_named_accounting C59_named_footprint","mixed stacks excluded in the exact form; C59_never_less without that hypothesis; C59_unmixed shows that types with proper names never mix")
c("C60","proved","C60_stack_bound C60_no_overflow C60_release_exact C60_size_of","")
c("C61","proved","C61_snapshot C61_footprint C61_size_of C61_memory C61_locks C61_untouched C61_guarded C61_seen C61_once_seen C61_free_seen C61_quiet_sees C61_alone","the own visitor of a DashSet ends by exit instead of drop in this model (the same, C15_exit_drop_same)")
c("C62","proved","C62_lines C62_struct C62_enum C62_value","")
c("C63","proved","C63_history C63_calls C63_object_graph C63_values C63_size_of","")
c("C64","proved","C64_more_is_not_less C64_adds_at_most C64_can_decrease","")
c("C65","proved","C65_calls C65_memory","")
c("C66","proved","C66_sum C66_no_panic C66_independent C66_programs","")
c("C67","proved","C67_visit_depth C67_list_depth C67_finish_depth C67_stack_length C67_at_least C67_owned C67_box_list C67_values C67_at_most","")
c("C68","proved","C68_release C68_release_same C68_debug_dead C68_debug_exact C68_debug_panic C68_exact C68_programs C68_size_of","")
c("C69","proved","C69_counted_twice C69_not_counted","hazard")
c("C70","proved","C70_merge","")
c("C71","proved","C71_lines C71_concat C71_rebuild","")
c("C72","proved","C72_carried_over C72_exactly","")
c("C73","proved","C73_frame C73_values C73_parts C73_fields","")
c("C74","proved","C74_object_graph C74_reproducible C74_size_of","")
c("C75","proved","C75_local C75_values","")
c("C76","proved","C76_calls C76_fields","")
c("C77","proved","C77_merged C77_renamed C77_panics","")
c("C78","proved","C78_retained C78_again","")
c("C79","proved","C79_release_calls C79_exact_calls C79_live C79_memory C79_debug_poisons C79_given_back C79_size_of_calls C79_size_of C79_fail_stop C79_finished_exact C79_overflow_panics C79_size_of_unique_calls C79_global_roots","")
c("C80","proved","BuildScript.C80_script BuildScript.C80_channels BuildScript.C80_vendor BuildScript.C80_same_keys","")
c("C81","proved","C81_live_cost","")
c("C82","proved","C82_confined C82_sizes C82_two_profiles","")
c("C83","proved","C83_each_alone C83_values C83_history C83_finitely_many_looks C83_ends C83_never_wait C83_waits_only_for_others C83_all_end C83_live_calls C83_exclusive C83_readers C83_destructor C83_outside_locks C83_agree C83_memory C83_size_of C83_kinds C83_machine C83_machine_alone C83_given_back C83_global_roots C83_profiles_hide","")
