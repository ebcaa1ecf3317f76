{
 "claims": [
  {
   "property": "C01",
   "status": "proved",
   "theorems": [
    "Allocative.C01_self_sizes"
   ],
   "note": "all leak free histories; leaking ones never finish (C13)"
  },
  {
   "property": "C02",
   "status": "proved",
   "theorems": [
    "Allocative.C02_text_exact_sorted",
    "Allocative.C02_finish_covered",
    "Allocative.C02_literal",
    "Allocative.C02_finish_and_write"
   ],
   "note": ""
  },
  {
   "property": "C03",
   "status": "proved",
   "theorems": [
    "Allocative.C03_parse_back",
    "Allocative.C03_text_injective"
   ],
   "note": ""
  },
  {
   "property": "C04",
   "status": "proved",
   "theorems": [
    "Allocative.C04_semicolon_ambiguous"
   ],
   "note": "defect of the text format, proved as a counterexample"
  },
  {
   "property": "C05",
   "status": "proved",
   "theorems": [
    "Allocative.C05_order_independent"
   ],
   "note": ""
  },
  {
   "property": "C06",
   "status": "proved",
   "theorems": [
    "Allocative.C06_visit_order_independent"
   ],
   "note": ""
  },
  {
   "property": "C07",
   "status": "proved",
   "theorems": [
    "Allocative.C07_shared_entered_once",
    "Allocative.C11_stacks_of_calls"
   ],
   "note": "pointer sizes: every enter call is a record (C11)"
  },
  {
   "property": "C08",
   "status": "proved",
   "theorems": [
    "Allocative.C08_counted_once_iff_reachable",
    "Allocative.C08_sizes"
   ],
   "note": ""
  },
  {
   "property": "C09",
   "status": "proved",
   "theorems": [
    "Allocative.C09_terminates",
    "Allocative.C09_runs",
    "Allocative.C09_fuel_is_no_limit"
   ],
   "note": ""
  },
  {
   "property": "C10",
   "status": "proved",
   "theorems": [
    "Allocative.C10_order_irrelevant"
   ],
   "note": ""
  },
  {
   "property": "C11",
   "status": "proved",
   "theorems": [
    "Allocative.C11_stacks_of_calls"
   ],
   "note": ""
  },
  {
   "property": "C12",
   "status": "proved",
   "theorems": [
    "Allocative.C12_no_internal_panic"
   ],
   "note": ""
  },
  {
   "property": "C13",
   "status": "proved",
   "theorems": [
    "Allocative.C13_leak_blocks_builder",
    "Allocative.C13_leak_never_finishes"
   ],
   "note": ""
  },
  {
   "property": "C14",
   "status": "proved",
   "theorems": [
    "Allocative.C14_panic_keeps_builder",
    "Allocative.C11_stacks_of_calls"
   ],
   "note": ""
  },
  {
   "property": "C15",
   "status": "proved",
   "theorems": [
    "Allocative.C15_exit_drop_same",
    "Allocative.C15_one_exit_per_visitor"
   ],
   "note": ""
  },
  {
   "property": "C16",
   "status": "proved",
   "theorems": [
    "Allocative.C16_conservation_exact",
    "Allocative.C16_conservation"
   ],
   "note": ""
  },
  {
   "property": "C17",
   "status": "proved",
   "theorems": [
    "Allocative.C17_lines_sum",
    "Allocative.C17_finish_lines_sum"
   ],
   "note": ""
  },
  {
   "property": "C18",
   "status": "proved",
   "theorems": [
    "Allocative.C18_warnings_exact"
   ],
   "note": ""
  },
  {
   "property": "C19",
   "status": "proved",
   "theorems": [
    "Allocative.C19_consistent_no_warnings"
   ],
   "note": ""
  },
  {
   "property": "C20",
   "status": "proved",
   "theorems": [
    "Allocative.C20_total_size"
   ],
   "note": ""
  },
  {
   "property": "C21",
   "status": "proved",
   "theorems": [
    "Allocative.C21_add_pointwise",
    "Allocative.C21_add_laws"
   ],
   "note": ""
  },
  {
   "property": "C22",
   "status": "proved",
   "theorems": [
    "Allocative.C22_merge_disjoint"
   ],
   "note": ""
  },
  {
   "property": "C23",
   "status": "proved",
   "theorems": [
    "Allocative.C23_sum_behind_unique",
    "Allocative.C23_rename"
   ],
   "note": ""
  },
  {
   "property": "C24",
   "status": "proved",
   "theorems": [
    "Allocative.C24_no_unreachable"
   ],
   "note": ""
  },
  {
   "property": "C25",
   "status": "proved",
   "theorems": [
    "Allocative.C25_utilities_agree",
    "Allocative.C25_size_of_unique",
    "Allocative.C25_shared",
    "Allocative.C25_values"
   ],
   "note": ""
  },
  {
   "property": "C26",
   "status": "proved",
   "theorems": [
    "Allocative.C26_eq_iff_same_string",
    "Allocative.C26_derived_is_new",
    "Allocative.C26_hash_eq_contract"
   ],
   "note": ""
  },
  {
   "property": "C27",
   "status": "proved",
   "theorems": [
    "Allocative.C27_total_order",
    "Allocative.C27_lexicographic"
   ],
   "note": ""
  },
  {
   "property": "C28",
   "status": "proved",
   "theorems": [
    "Allocative.C28_any_keys",
    "Allocative.C28_wrong_hash_splits"
   ],
   "note": "hazard: general theorem for arbitrary keys plus witness"
  },
  {
   "property": "C29",
   "status": "proved",
   "theorems": [
    "Allocative.Registry.C29_registry",
    "Allocative.Registry.C29_complete",
    "Allocative.Registry.C29_grows",
    "Allocative.Registry.C29_snapshot"
   ],
   "note": "labelled transition system with arbitrary interleaving"
  },
  {
   "property": "C30",
   "status": "proved",
   "theorems": [
    "Allocative.Registry.C30_no_deadlock",
    "Allocative.Registry.C30_lock_released"
   ],
   "note": ""
  },
  {
   "property": "C31",
   "status": "proved",
   "theorems": [
    "Allocative.C31_never_waits",
    "Allocative.C31_history",
    "Allocative.C31_restored",
    "Allocative.C31_only_poison",
    "Allocative.C31_access",
    "Allocative.C31_cell",
    "Allocative.C31_cell_concurrent",
    "Allocative.C31_once_cell",
    "Allocative.C31_arc",
    "Allocative.C31_impls_never_wait",
    "Allocative.C31_reentrant",
    "Allocative.C31_panic_poisons"
   ],
   "note": ""
  },
  {
   "property": "C32",
   "status": "proved",
   "theorems": [
    "Allocative.C32_exact",
    "Allocative.C32_accounting"
   ],
   "note": ""
  },
  {
   "property": "C33",
   "status": "proved",
   "theorems": [
    "Allocative.C33_tables_invisible",
    "Allocative.C33_warning",
    "Allocative.C33_warning_set"
   ],
   "note": "defect"
  },
  {
   "property": "C34",
   "status": "proved",
   "theorems": [
    "Allocative.C34_vec",
    "Allocative.C34_vecDeque",
    "Allocative.C34_slab",
    "Allocative.C34_string",
    "Allocative.C34_path",
    "Allocative.C34_indexmap"
   ],
   "note": "IndexMap: total smaller than capacity*size_of::<(K, V)>() by the padding of used entries"
  },
  {
   "property": "C35",
   "status": "proved",
   "theorems": [
    "Allocative.C35_builder",
    "Allocative.C35_size_of",
    "Allocative.C35_visit_iter"
   ],
   "note": ""
  },
  {
   "property": "C36",
   "status": "proved",
   "theorems": [
    "Allocative.C36_rc_box",
    "Allocative.C36_bounds"
   ],
   "note": ""
  },
  {
   "property": "C37",
   "status": "proved",
   "theorems": [
    "Allocative.C37_table_size",
    "Allocative.C37_bounds",
    "Allocative.C37_monotone",
    "Allocative.C37_exact_buckets"
   ],
   "note": ""
  },
  {
   "property": "C38",
   "status": "proved",
   "theorems": [
    "Allocative.C38_struct",
    "Allocative.C38_enum_variant",
    "Allocative.C38_enum_skipped_variant",
    "Allocative.C38_enum_unit_variant",
    "Allocative.C38_type_skip",
    "Allocative.C38_rejects",
    "Allocative.C38_rejects_enum",
    "Allocative.C38_field_named_visitor",
    "Allocative.C38_generated_ok",
    "Allocative.C38_empty_enum"
   ],
   "note": "field called visitor: defect, generated code does not compile"
  },
  {
   "property": "C39",
   "status": "proved",
   "theorems": [
    "Allocative.C39_struct",
    "Allocative.C39_enum"
   ],
   "note": ""
  },
  {
   "property": "C40",
   "status": "proved",
   "theorems": [
    "Allocative.C40_attrs_exact"
   ],
   "note": ""
  },
  {
   "property": "C41",
   "status": "proved",
   "theorems": [
    "Allocative.C41_generics",
    "Allocative.C41_header_ok",
    "Allocative.C41_bound_header",
    "Allocative.C41_demands",
    "Allocative.C41_bounds_suffice",
    "Allocative.C41_instances"
   ],
   "note": "const parameter defaults are kept: defect; trait resolution is by a table of impls with requirements on type arguments (no supertraits, no associated types)"
  },
  {
   "property": "C42",
   "status": "proved",
   "theorems": [
    "Allocative.C42_exact",
    "Allocative.C42_bound_needed",
    "Allocative.C42_flamegraph",
    "Allocative.C42_flamegraph_debug",
    "Allocative.C42_flamegraph_panic",
    "Allocative.C42_size_of_release",
    "Allocative.C42_size_of_debug",
    "Allocative.C42_size_of_unique_debug"
   ],
   "note": "size_of_debug: visits that do not catch panics"
  },
  {
   "property": "C43",
   "status": "proved",
   "theorems": [
    "Allocative.C43_address_reuse"
   ],
   "note": "hazard"
  },
  {
   "property": "C44",
   "status": "proved",
   "theorems": [
    "Allocative.C44_weak_gone",
    "Allocative.C44_weak_alive",
    "Allocative.C44_weak_value",
    "Allocative.C44_counted_once",
    "Allocative.C44_counts_restored",
    "Allocative.C44_last_reference"
   ],
   "note": ""
  },
  {
   "property": "C45",
   "status": "proved",
   "theorems": [
    "Allocative.C45_overcount_exact"
   ],
   "note": "defect, exact overcount"
  },
  {
   "property": "C46",
   "status": "proved",
   "theorems": [
    "Allocative.C46_fail_stop",
    "Allocative.C46_exact_or_panic"
   ],
   "note": ""
  },
  {
   "property": "C47",
   "status": "proved",
   "theorems": [
    "Allocative.RootMacro.C47_expansion",
    "Allocative.RootMacro.C47_names_collide",
    "Allocative.RootMacro.C47_own_name",
    "Allocative.RootMacro.C47_registers_marked",
    "Allocative.RootMacro.C47_compiles_iff",
    "Allocative.RootMacro.C47_startup",
    "Allocative.RootMacro.C47_ascii"
   ],
   "note": "Unicode tables are a parameter with stated laws (Unicode.Lawful), C47_ascii says what they mean for ASCII names"
  },
  {
   "property": "C48",
   "status": "proved",
   "theorems": [
    "Allocative.C48_no_warnings",
    "Allocative.C48_cells"
   ],
   "note": ""
  },
  {
   "property": "C49",
   "status": "proved",
   "theorems": [
    "Allocative.C49_never_overcounts",
    "Allocative.C32_accounting",
    "Allocative.C49_bigint"
   ],
   "note": ""
  },
  {
   "property": "C50",
   "status": "proved",
   "theorems": [
    "Allocative.C50_triomphe_arc",
    "Allocative.C50_thin_arc",
    "Allocative.C50_thin_arc_underestimates"
   ],
   "note": "defect for over-aligned elements"
  },
  {
   "property": "C51",
   "status": "proved",
   "theorems": [
    "Allocative.C51_dashmap_waits",
    "Allocative.C51_root_waits",
    "Allocative.C51_waits_only_if_held",
    "Allocative.C51_held_by_others",
    "Allocative.C51_returns",
    "Allocative.C51_history",
    "Allocative.C51_history_returns",
    "Allocative.C51_dashmap_returns",
    "Allocative.C51_dashmap_value",
    "Allocative.C51_dashset_value",
    "Allocative.C51_dashmap_concurrent",
    "Allocative.C51_dashset_concurrent",
    "Allocative.C51_holds_while_waiting"
   ],
   "note": "hazard"
  },
  {
   "property": "C52",
   "status": "proved",
   "theorems": [
    "Allocative.C52_records",
    "Allocative.C52_cells",
    "Allocative.C52_text"
   ],
   "note": ""
  },
  {
   "property": "C53",
   "status": "proved",
   "theorems": [
    "Allocative.C53_same_key_iff",
    "Allocative.C53_distinct_keys",
    "Allocative.C53_contents_by_key",
    "Allocative.C53_exception"
   ],
   "note": "hazard: exact exception"
  },
  {
   "property": "C54",
   "status": "proved",
   "theorems": [
    "Allocative.C54_global_roots",
    "Allocative.C54_live_roots"
   ],
   "note": ""
  },
  {
   "property": "C55",
   "status": "proved",
   "theorems": [
    "Allocative.C55_struct",
    "Allocative.C55_enum_variant",
    "Allocative.C55_enum_skipped_variant",
    "Allocative.C55_enum_unit_variant",
    "Allocative.C55_type_skip"
   ],
   "note": ""
  },
  {
   "property": "C56",
   "status": "proved",
   "theorems": [
    "Allocative.C56_release",
    "Allocative.C56_text",
    "Allocative.C56_local",
    "Allocative.C56_flamegraph",
    "Allocative.C56_add_child",
    "Allocative.C56_finish"
   ],
   "note": ""
  },
  {
   "property": "C57",
   "status": "proved",
   "theorems": [
    "Allocative.C57_consistent",
    "Allocative.C57_add_self",
    "Allocative.C57_add_child",
    "Allocative.C57_add",
    "Allocative.C57_same_result",
    "Allocative.C57_finish"
   ],
   "note": ""
  },
  {
   "property": "C58",
   "status": "proved",
   "theorems": [
    "Allocative.C58_never_panics",
    "Allocative.C58_report",
    "Allocative.C58_any_moment",
    "Allocative.C58_independent",
    "Allocative.C58_leak",
    "Allocative.C58_programs"
   ],
   "note": ""
  },
  {
   "property": "C59",
   "status": "proved",
   "theorems": [
    "Allocative.C59_accounting",
    "Allocative.C59_footprint",
    "Allocative.C59_never_more",
    "Allocative.C59_never_less",
    "Allocative.C59_unmixed",
    "Allocative.C59_named_accounting",
    "Allocative.C59_named_footprint"
   ],
   "note": "mixed stacks excluded in the exact form; C59_never_less without that hypothesis; C59_unmixed shows that types with proper names never mix"
  },
  {
   "property": "C60",
   "status": "proved",
   "theorems": [
    "Allocative.C60_stack_bound",
    "Allocative.C60_no_overflow",
    "Allocative.C60_release_exact",
    "Allocative.C60_size_of"
   ],
   "note": ""
  },
  {
   "property": "C61",
   "status": "proved",
   "theorems": [
    "Allocative.C61_snapshot",
    "Allocative.C61_footprint",
    "Allocative.C61_size_of",
    "Allocative.C61_memory",
    "Allocative.C61_locks",
    "Allocative.C61_untouched",
    "Allocative.C61_guarded",
    "Allocative.C61_seen",
    "Allocative.C61_once_seen",
    "Allocative.C61_free_seen",
    "Allocative.C61_quiet_sees",
    "Allocative.C61_alone"
   ],
   "note": "the own visitor of a DashSet ends by exit instead of drop in this model (the same, C15_exit_drop_same)"
  },
  {
   "property": "C62",
   "status": "proved",
   "theorems": [
    "Allocative.C62_lines",
    "Allocative.C62_struct",
    "Allocative.C62_enum",
    "Allocative.C62_value"
   ],
   "note": ""
  },
  {
   "property": "C63",
   "status": "proved",
   "theorems": [
    "Allocative.C63_history",
    "Allocative.C63_calls",
    "Allocative.C63_object_graph",
    "Allocative.C63_values",
    "Allocative.C63_size_of"
   ],
   "note": ""
  },
  {
   "property": "C64",
   "status": "proved",
   "theorems": [
    "Allocative.C64_more_is_not_less",
    "Allocative.C64_adds_at_most",
    "Allocative.C64_can_decrease"
   ],
   "note": ""
  },
  {
   "property": "C65",
   "status": "proved",
   "theorems": [
    "Allocative.C65_calls",
    "Allocative.C65_memory"
   ],
   "note": ""
  },
  {
   "property": "C66",
   "status": "proved",
   "theorems": [
    "Allocative.C66_sum",
    "Allocative.C66_no_panic",
    "Allocative.C66_independent",
    "Allocative.C66_programs"
   ],
   "note": ""
  },
  {
   "property": "C67",
   "status": "proved",
   "theorems": [
    "Allocative.C67_visit_depth",
    "Allocative.C67_list_depth",
    "Allocative.C67_finish_depth",
    "Allocative.C67_stack_length",
    "Allocative.C67_at_least",
    "Allocative.C67_owned",
    "Allocative.C67_box_list",
    "Allocative.C67_values",
    "Allocative.C67_at_most"
   ],
   "note": ""
  },
  {
   "property": "C68",
   "status": "proved",
   "theorems": [
    "Allocative.C68_release",
    "Allocative.C68_release_same",
    "Allocative.C68_debug_dead",
    "Allocative.C68_debug_exact",
    "Allocative.C68_debug_panic",
    "Allocative.C68_exact",
    "Allocative.C68_programs",
    "Allocative.C68_size_of"
   ],
   "note": ""
  },
  {
   "property": "C69",
   "status": "proved",
   "theorems": [
    "Allocative.C69_counted_twice",
    "Allocative.C69_not_counted"
   ],
   "note": "hazard"
  },
  {
   "property": "C70",
   "status": "proved",
   "theorems": [
    "Allocative.C70_merge"
   ],
   "note": ""
  },
  {
   "property": "C71",
   "status": "proved",
   "theorems": [
    "Allocative.C71_lines",
    "Allocative.C71_concat",
    "Allocative.C71_rebuild"
   ],
   "note": ""
  },
  {
   "property": "C72",
   "status": "proved",
   "theorems": [
    "Allocative.C72_carried_over",
    "Allocative.C72_exactly"
   ],
   "note": ""
  },
  {
   "property": "C73",
   "status": "proved",
   "theorems": [
    "Allocative.C73_frame",
    "Allocative.C73_values",
    "Allocative.C73_parts",
    "Allocative.C73_fields"
   ],
   "note": ""
  },
  {
   "property": "C74",
   "status": "proved",
   "theorems": [
    "Allocative.C74_object_graph",
    "Allocative.C74_reproducible",
    "Allocative.C74_size_of"
   ],
   "note": ""
  },
  {
   "property": "C75",
   "status": "proved",
   "theorems": [
    "Allocative.C75_local",
    "Allocative.C75_values"
   ],
   "note": ""
  },
  {
   "property": "C76",
   "status": "proved",
   "theorems": [
    "Allocative.C76_calls",
    "Allocative.C76_fields"
   ],
   "note": ""
  },
  {
   "property": "C77",
   "status": "proved",
   "theorems": [
    "Allocative.C77_merged",
    "Allocative.C77_renamed",
    "Allocative.C77_panics"
   ],
   "note": ""
  },
  {
   "property": "C78",
   "status": "proved",
   "theorems": [
    "Allocative.C78_retained",
    "Allocative.C78_again"
   ],
   "note": ""
  },
  {
   "property": "C79",
   "status": "proved",
   "theorems": [
    "Allocative.C79_release_calls",
    "Allocative.C79_exact_calls",
    "Allocative.C79_live",
    "Allocative.C79_memory",
    "Allocative.C79_debug_poisons",
    "Allocative.C79_given_back",
    "Allocative.C79_size_of_calls",
    "Allocative.C79_size_of",
    "Allocative.C79_fail_stop",
    "Allocative.C79_finished_exact",
    "Allocative.C79_overflow_panics",
    "Allocative.C79_size_of_unique_calls",
    "Allocative.C79_global_roots"
   ],
   "note": ""
  },
  {
   "property": "C80",
   "status": "proved",
   "theorems": [
    "Allocative.BuildScript.C80_script",
    "Allocative.BuildScript.C80_channels",
    "Allocative.BuildScript.C80_vendor",
    "Allocative.BuildScript.C80_same_keys"
   ],
   "note": ""
  },
  {
   "property": "C81",
   "status": "proved",
   "theorems": [
    "Allocative.C81_live_cost"
   ],
   "note": ""
  },
  {
   "property": "C82",
   "status": "proved",
   "theorems": [
    "Allocative.C82_confined",
    "Allocative.C82_sizes",
    "Allocative.C82_two_profiles"
   ],
   "note": ""
  },
  {
   "property": "C83",
   "status": "proved",
   "theorems": [
    "Allocative.C83_each_alone",
    "Allocative.C83_values",
    "Allocative.C83_history",
    "Allocative.C83_finitely_many_looks",
    "Allocative.C83_ends",
    "Allocative.C83_never_wait",
    "Allocative.C83_waits_only_for_others",
    "Allocative.C83_all_end",
    "Allocative.C83_live_calls",
    "Allocative.C83_exclusive",
    "Allocative.C83_readers",
    "Allocative.C83_destructor",
    "Allocative.C83_outside_locks",
    "Allocative.C83_agree",
    "Allocative.C83_memory",
    "Allocative.C83_size_of",
    "Allocative.C83_kinds",
    "Allocative.C83_machine",
    "Allocative.C83_machine_alone",
    "Allocative.C83_given_back",
    "Allocative.C83_global_roots",
    "Allocative.C83_profiles_hide"
   ],
   "note": ""
  }
 ]
}