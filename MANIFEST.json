{"claims": [
 {"property": "C01", "status": "partial", "theorems": ["MZ.C01_add", "MZ.C01_sub", "MZ.C01_neg", "MZ.C01_incr", "MZ.C01_decr", "MZ.C01_mul", "MZ.C01_div", "MZ.C01_mod", "MZ.C01_result_exact", "MZ.C01_exact_or_error_partial", "MZ.C01_min_ub", "MZ.C01_mul_rejects_min", "MZ.C01_div_mod"], "note": "Exact result or error for all finite operands, except operands equal to LLONG_MIN, where C01_min_ub exhibits undefined behaviour in the C++ (multiplication and division call abs on it)."},
 {"property": "C02", "status": "partial", "theorems": ["MZ.C02_add_sub", "MZ.C02_neg", "MZ.C02_plus_minus", "MZ.C02_mul_left_inf", "MZ.C02_mul_right_inf_false", "MZ.C02_mul_right_inf_partial", "MZ.C02_mul_right_inf_never", "MZ.C02_abs"], "note": "Addition, subtraction, negation, comparison and multiplication with the infinity on the left agree with the extended integers; with the infinity on the right multiplication is wrong (C02_mul_right_inf_false gives the witness, C02_mul_right_inf_partial the part that holds)."},
 {"property": "C03", "status": "proved", "theorems": ["MZ.C03_compare", "MZ.C03_ends", "MZ.C03_min_max"], "note": "All six comparisons, min and max."},
 {"property": "C04", "status": "partial", "theorems": ["MZ.C04_pow_exact", "MZ.C04_neg_pow_zero", "MZ.C04_pow_defined_partial", "MZ.C04_pow_ub"], "note": "Any returned value is the exact power; C04_pow_ub exhibits an exponent beyond int for which the C++ is undefined, C04_pow_defined_partial covers the rest."},
 {"property": "C05", "status": "proved", "theorems": ["MZ.C05_of_bounds", "MZ.C05_of_values", "MZ.C05_canonical"], "note": "From bounds, from value lists, and uniqueness of the normal form. Streams produced by the operators are covered by C06."},
 {"property": "C06", "status": "proved", "theorems": ["MZ.C06_union", "MZ.C06_inter", "MZ.C06_diff", "MZ.C06_bounded", "MZ.C06_bounded_needs_order"], "note": "Union, Inter, Diff, Bounded; 64-bit overflow of bounds adjacent to LLONG_MIN/LLONG_MAX (an arithmetic error in the code) is not modelled."},
 {"property": "C07", "status": "proved", "theorems": ["MZ.C07_contains", "MZ.C07_subset", "MZ.C07_range_subset", "MZ.C07_disjoint", "MZ.C07_equal", "MZ.C07_compare", "MZ.C07_min_max", "MZ.C07_cardinality"], "note": "contains, subset, isSubset, disjoint, equal, compare, min, max, cardinality."},
 {"property": "C08", "status": "proved", "theorems": ["MZ.C08_less_lex", "MZ.C08_trichotomy", "MZ.C08_irrefl", "MZ.C08_trans"], "note": "less is irreflexive, transitive, trichotomous and lexicographic on sets bounded below."},
 {"property": "C09", "status": "partial", "theorems": ["MZ.C09_print_partial", "MZ.C09_print_max_error"], "note": "Holds for every set none of whose ranges ends at LLONG_MAX; C09_print_max_error shows that printing such a set raises an arithmetic error."},
 {"property": "C10", "status": "proved", "theorems": ["MZ.C10_limitDomain", "MZ.C10_limitDomain_total", "MZ.C10_intersectInterval", "MZ.C10_intersect"], "note": "limitDomain for <, <=, >, >=, != and intersectDomain for = and intervals."},
 {"property": "C11", "status": "partial", "theorems": ["MZ.C11_bounds_partial", "MZ.C11_mod_unsound", "MZ.C11_div_unsound", "MZ.C11_div_zero_divisor_unsound", "MZ.C11_boolArg_unsound"], "note": "Soundness for every expression the visitor handles except remainders, divisions whose operand bounds touch zero and Boolean arguments of functions with declared result domain; for each of these C11_*_unsound gives a concrete expression with wrong bounds."},
 {"property": "C12", "status": "proved", "theorems": ["MZ.C12_value", "MZ.C12_normal", "MZ.C12_no_error"], "note": "Value preserved for every assignment; no zero coefficient, literal or repeated operand remains, for every index order std::sort may return; no error for small magnitudes. Infinite literals (always an arithmetic error) are not modelled."},
 {"property": "C13", "status": "proved", "theorems": ["MZ.C13_builtin"], "note": "All six operators."},
 {"property": "C14", "status": "proved", "theorems": ["MZ.C14_int", "MZ.C14_float", "MZ.C14_pointer", "MZ.C14_distinct"], "note": "64-bit pointers. Integers up to 2^61-1 in magnitude and doubles with biased exponent 0 or 513..1534 round-trip bit for bit; encoded integers, encoded floats and aligned pointers are distinguished. Literals outside the range are ordinary nodes cached through weak references, see C30."},
 {"property": "C15", "status": "proved", "theorems": ["MZ.C15_location", "MZ.C15_packed_fits"], "note": "Both pointer sizes, all 32-bit quadruples, also with the last line before the first."},
 {"property": "C16", "status": "partial", "theorems": ["MZ.C16_injective", "MZ.C16_order", "MZ.C16_range", "MZ.C16_roundtrip_partial", "MZ.C16_roundtrip_fails"], "note": "Encoding is injective on everything a user can write and its comparison is a total order; decoding gives the type back only for type ids below 4096 (C16_roundtrip_fails)."},
 {"property": "C17", "status": "partial", "theorems": ["MZ.C17_common_comm", "MZ.C17_common_comm_fails", "MZ.C17_common_upper", "MZ.C17_common_upper_fails", "MZ.C17_common_least", "MZ.C17_common_exists", "MZ.C17_subtype_iff", "MZ.C17_refl", "MZ.C17_trans", "MZ.C17_trans_fails_bot", "MZ.C17_bool_enum"], "note": "All types without tuples, records and type variables. Missing: the field-wise rules for tuples and records. Refuted for the type bot (C17_trans_fails_bot, C17_common_comm_fails) and for variable sets with arrays (C17_common_upper_fails)."},
 {"property": "C18", "status": "proved", "theorems": ["MZ.C18_build", "MZ.C18_reshape", "MZ.C18_access", "MZ.C18_rank_bijective", "MZ.C18_set", "MZ.C18_set_fails"], "note": "building, re-dimensioning, reading and accessing; in addition C18_set_fails shows that overwriting an element of a compressed array replaces the whole repeated prefix"},
 {"property": "C19", "status": "proved", "theorems": ["MZ.C19_slice", "MZ.C19_make1d_fails"], "note": "reading through slices of any depth; in addition C19_make1d_fails shows that make1d on a slice always reads past its bounds vector"},
 {"property": "C20", "status": "partial", "theorems": ["MZ.C20_rect", "MZ.C20_error_iff", "MZ.C20_element", "MZ.C20_empty_fails", "MZ.C20_object_fails"], "note": "C20_rect and C20_element: positive lengths in all but the last dimension; C20_error_iff: error iff not rectangular, when no object stands in place of a list; C20_empty_fails and C20_object_fails show what happens otherwise"},
 {"property": "C21", "status": "partial", "theorems": ["MZ.C21_strings_partial", "MZ.C21_pair_iff", "MZ.C21_pair_fails", "MZ.C21_control_fails", "MZ.C21_malformed_fails", "MZ.C21_roundtrip"], "note": "all strings without \\b, \\f, \\r and without surrogate pairs of even-numbered planes; C21_pair_iff is exact for surrogate pairs; C21_pair_fails, C21_control_fails and C21_malformed_fails show the exceptions"},
 {"property": "C22", "status": "partial", "theorems": ["MZ.C22_iff_partial", "MZ.C22_clamp_fails", "MZ.C22_minus_fails"], "note": "exact iff the integer has 32 bits; C22_clamp_fails: larger integers are silently clamped; C22_minus_fails"},
 {"property": "C23", "status": "partial", "theorems": ["MZ.C23_roundtrip_iff", "MZ.C23_reparse", "MZ.C23_cr_fails", "MZ.C23_nul_fails"], "note": "C23_roundtrip_iff: the round trip holds iff the string has no carriage return and no NUL byte"},
 {"property": "C24", "status": "partial", "theorems": ["MZ.C24_roundtrip_partial", "MZ.C24_structure", "MZ.C24_unambiguous", "MZ.C24_power_base_fails", "MZ.C24_power_negated_fails", "MZ.C24_plus_plus_fails", "MZ.C24_exponent_fails", "MZ.C24_call_power_fails", "MZ.C24_power_power_fails", "MZ.C24_concat_regrouped"], "note": "Print, lex and parse are composed for every tree over 28 binary and 3 unary operators, literals, names, calls and ranges; same value under every interpretation, same structure for canonical trees, distinct canonical trees print differently. Excluded: trees outside Clean, each exclusion witnessed by a _fails theorem. Annotations, let, if, comprehensions, array accesses, floats and strings are not in the model."},
 {"property": "C25", "status": "proved", "theorems": ["MZ.C25_levenshtein", "MZ.C25_metric"], "note": "the two-row dynamic program computes the least number of single-character edits (C25_levenshtein), which is a metric (C25_metric)"},
 {"property": "C26", "status": "partial", "theorems": ["MZ.C26_identity_partial", "MZ.C26_intern_partial", "MZ.C26_intern_empty", "MZ.C26_collect", "MZ.C26_no_dangling_key", "MZ.C26_zero_byte_collision"], "note": "for strings without zero bytes; for strings with a zero byte the property is false (C26_zero_byte_collision), because the key comparison uses strncmp"},
 {"property": "C27", "status": "proved", "theorems": ["MZ.C27_no_overlap", "MZ.C27_allocate", "MZ.C27_sweep", "MZ.C27_accounting", "MZ.C27_free_lists", "MZ.C27_abandoned_allocation_underflow", "MZ.C27_mark", "MZ.C27_collect", "MZ.C27_members_live", "MZ.C27_flat", "MZ.C27_operator_decl_not_kept", "MZ.C27_trail_needs_container"], "note": "Allocation, marking and sweeping over the whole heap; a block survives a collection iff it is reachable over the pointer members that the collector follows. Deviations proved: raw allocations that were never constructed spoil the free counter, declarations of operators are not followed, without a registered container the trail is not marked."},
 {"property": "C28", "status": "proved", "theorems": ["MZ.C28_trail", "MZ.C28_restore", "MZ.C28_untrailed_write_stays", "MZ.C28_exception_skips_undo"], "note": "For disciplined clients (a location is trailed before it is written under a mark). Deviations proved: untrailed writes stay, and an exception inside a comprehension leaves a mark behind."},
 {"property": "C29", "status": "proved", "theorems": ["MZ.C29_locked", "MZ.C29_collection_unlocked", "MZ.C29_due"], "note": "Every sequence of lock operations; a due collection runs at the next outermost lock and none is due afterwards."},
 {"property": "C30", "status": "partial", "theorems": ["MZ.C30_keepalive", "MZ.C30_weakref_partial", "MZ.C30_weakref_progress", "MZ.C30_weakref_get", "MZ.C30_weakref_dangles"], "note": "Keep-alive handles: complete. Weak references: only if the first reference of the list refers to a live node at every collection; the full claim is refuted by C30_weakref_dangles and C30_weakref_get."},
 {"property": "C31", "status": "partial", "theorems": ["MZ.C31_chunks_partial", "MZ.C31_raw", "MZ.C31_lines", "MZ.C31_nul_fails"], "note": "Proved for all streams without NUL characters and all divisions (C31_chunks_partial), with C31_raw and C31_lines. C31_nul_fails: a NUL ends the chunk, so the rest of the chunk is lost."},
 {"property": "C32", "status": "partial", "theorems": ["MZ.C32_unique", "MZ.C32_once", "MZ.C32_all", "MZ.C32_commas", "MZ.C32_canonical_held", "MZ.C32_canonical_partial", "MZ.C32_status", "MZ.C32_order", "MZ.C32_firsts", "MZ.C32_canonical_repeat_fails"], "note": "Proved for all sequences of lines: C32_unique, C32_once (also after exceptions), C32_all, C32_commas, C32_canonical_held, C32_status. C32_canonical_partial covers one status message at the end; C32_canonical_repeat_fails: a second status message prints all solutions again."},
 {"property": "C33", "status": "proved", "theorems": ["MZ.C33_encode_is_rfc", "MZ.C33_stream_roundtrip", "MZ.C33_roundtrip", "MZ.C33_injective", "MZ.C33_text", "MZ.C33_decode_reads_behind_table", "MZ.C33_decode_safe"], "note": "Decoding inverts encoding for all byte strings with the stream state machine of the code; the encoding is the standard one. C33_decode_reads_behind_table records that the decoder reads outside its table for some characters that are not in the alphabet; C33_decode_safe states which texts are safe."},
 {"property": "C34", "status": "partial", "theorems": ["MZ.C34_roundtrip_partial", "MZ.C34_backslash_lost", "MZ.C34_newline_lost", "MZ.C34_double_backslash_lost", "MZ.C34_plain_words"], "note": "Round trip proved for all lists of words without backslash followed by quote/backslash or a newline (Tame); the full property is refuted by C34_backslash_lost, C34_newline_lost and C34_double_backslash_lost."},
 {"property": "C35", "status": "partial", "theorems": ["MZ.C35_lt_not_an_order", "MZ.C35_le_not_total", "MZ.C35_lt_partial", "MZ.C35_le_partial", "MZ.C35_same_series_partial", "MZ.C35_eq", "MZ.C35_roundtrip", "MZ.C35_missing"], "note": "The property is false: C35_lt_not_an_order, C35_le_not_total. Proved: < never misses an older version, <= never accepts a newer one, both are right within one major.minor series, equality, and print/parse round trip."},
 {"property": "C36", "status": "proved", "theorems": ["MZ.C36_parse_int", "MZ.C36_parse_long", "MZ.C36_parse_unsigned_long", "MZ.C36_parse_unsigned_int", "MZ.C36_no_ub", "MZ.C36_roundtrip"], "note": "All four functions: accepted exactly the decimal texts in range with exactly their value, never undefined behaviour."},
 {"property": "C37", "status": "partial", "theorems": ["MZ.C37_itoa", "MZ.C37_basename", "MZ.C37_dump_stack_partial", "MZ.C37_dump_stack_ub"], "note": "Number formatting and file name proved in full. Crash report: correct with at least 15 calls on the stack; refuted otherwise (C37_dump_stack_ub: the loop condition is always true and the loop reads before the start of the stack)."},
 {"property": "C38", "status": "partial", "theorems": ["MZ.C38_counts_partial", "MZ.C38_counts_enough", "MZ.C38_defined", "MZ.C38_remove", "MZ.C38_remove_complete_partial", "MZ.C38_cleanup", "MZ.C38_replace", "MZ.C38_unify", "MZ.C38_usages_partial", "MZ.C38_usages_defined", "MZ.C38_alias_fails", "MZ.C38_replace_argument_fails"], "note": "Exact counts hold if every right hand side that is dropped is unregistered (C38_counts_partial, C38_remove_complete_partial, C38_usages_partial). The code drops the right hand side of an alias without that: C38_alias_fails shows the count that is too large. C38_replace_argument_fails: replacing one argument of a constraint forgets the occurrences in the others. Not modelled: identifiers in annotations of declarations, the output model, the domains."},
 {"property": "C39", "status": "partial", "theorems": ["MZ.C39_steps", "MZ.C39_failed", "MZ.C39_none_lost", "MZ.C39_run_partial", "MZ.C39_literal_fails", "MZ.C39_unified_fails", "MZ.C39_refuted_fails"], "note": "C39_steps: any sequence of steps keeps the solutions; C39_none_lost: no run loses one. That a run adds no solution is proved under the condition that the top-level constraints removed at the end have become redundant (C39_run_partial); the code does not ensure this: C39_literal_fails, C39_unified_fails, C39_refuted_fails. Arrays are inlined; annotations, chain compression (C42) and the removal of unused variables are not modelled here."},
 {"property": "C40", "status": "partial", "theorems": ["MZ.C40_linear_partial", "MZ.C40_linear_eq_ne", "MZ.C40_large_unsound", "MZ.C40_linear_complete", "MZ.C40_lin_exp"], "note": "Right for every linear constraint and domain except that an asserted inequality reduced to one variable needs |coefficient|,|rhs| < 2^53; C40_large_unsound is the counterexample beyond."},
 {"property": "C41", "status": "proved", "theorems": ["MZ.C41_optimizers", "MZ.C41_times_functional", "MZ.C41_clause_complete", "MZ.C41_fixed_decided", "MZ.C41_set_in_empty_ub", "MZ.C41_div_zero"], "note": "All ten optimisers right for all arguments and domains; additionally o_clause/forall/exists completeness; set_in on an empty set without domain is undefined behaviour (C41_set_in_empty_ub)."},
 {"property": "C42", "status": "partial", "theorems": ["MZ.C42_imp_partial", "MZ.C42_imp_step", "MZ.C42_imp_sound", "MZ.C42_imp_defined", "MZ.C42_le_partial", "MZ.C42_le_step", "MZ.C42_le_unsat", "MZ.C42_imp_duplicate_fails", "MZ.C42_imp_control_fails", "MZ.C42_imp_loop_fails", "MZ.C42_le_sign_fails"], "note": "Implications: proved for every run from every start state in which clauses keep distinct negative literals and no half-reified call has its control variable among its other arguments. Without this the claim is false of the code: double entries lead to access of a removed item, a repeated control variable adds solutions, y -> y loops for ever. Inequalities: every single step from a sound multimap is proved; whole runs as long as the replacing variable is new to the inequality. Otherwise the item is stored under a variable with a negative coefficient and a later step loses solutions (C42_le_sign_fails). Not modelled: int2float aliases, float inequalities, declarations removed because unused."},
 {"property": "C43", "status": "partial", "theorems": ["MZ.C43_floorDiv_partial", "MZ.C43_ceilDiv_partial", "MZ.C43_ceilDiv_wrong", "MZ.C43_floorDiv_wrong"], "note": "Exact for operands below 2^53 in magnitude; C43_ceilDiv_wrong and C43_floorDiv_wrong show that it is false beyond that."},
 {"property": "C44", "status": "partial", "theorems": ["MZ.C44_flatten", "MZ.C44_tightening_partial", "MZ.C44_tightening_loses_solution"], "note": "The posted constraint is equivalent in all cases. The accompanying domain derivation is proved sound below 2^53; C44_tightening_loses_solution shows a lost solution above."},
 {"property": "C45", "status": "proved", "theorems": ["MZ.C45_option_sound", "MZ.C45_flag_complete", "MZ.C45_value_complete", "MZ.C45_joined_complete"], "note": "Soundness and completeness of the option matcher, for every value type and reader."},
 {"property": "C46", "status": "partial", "theorems": ["MZ.C46_split_repeats_last", "MZ.C46_split_wrong", "MZ.C46_split_partial", "MZ.C46_beginswith"], "note": "split is wrong for every text (C46_split_repeats_last, C46_split_wrong): it repeats the last word. Proved: all entries but the last are the words."},
 {"property": "C47", "status": "partial", "theorems": ["MZ.C47_equal", "MZ.C47_less", "MZ.C47_order", "MZ.C47_affixes", "MZ.C47_substr", "MZ.C47_find", "MZ.C47_findLastOf_partial", "MZ.C47_findLastOf_missing"], "note": "everything proved except findLastOf for an absent character, where the property is false (C47_findLastOf_missing)"},
 {"property": "C48", "status": "partial", "theorems": ["MZ.C48_reshape_partial", "MZ.C48_reshape_open_partial", "MZ.C48_reshape_fails", "MZ.C48_list", "MZ.C48_list_fails"], "note": "holds when the product of the sizes is below 2^32, bounds fit into 32 bits and no empty index set stands beside an open one; C48_reshape_fails and C48_list_fails show the exceptions"},
 {"property": "C49", "status": "partial", "theorems": ["MZ.C49_concat", "MZ.C49_slice", "MZ.C49_select_range", "MZ.C49_select_set", "MZ.C49_select_fails"], "note": "holds for finite sets; C49_select_fails shows an out-of-bounds selection without upper bound that is not undefined"},
 {"property": "C50", "status": "partial", "theorems": ["MZ.C50_roundtrip_iff", "MZ.C50_fails"], "note": "C50_roundtrip_iff: the round trip holds iff the identifier is not _, infinity or variant_record; FlatZinc mode is not modelled"},
 {"property": "C51", "status": "partial", "theorems": ["MZ.C51_literal_partial", "MZ.C51_nul_fails"], "note": "Every literal without NUL; an escape that denotes NUL cuts the literal short (C51_nul_fails)."},
 {"property": "C52", "status": "proved", "theorems": ["MZ.C52_decimal", "MZ.C52_based", "MZ.C52_roundtrip"], "note": "Exact characterisation of value and error for decimal, hexadecimal and octal literals, and round trip of every 64-bit integer, the minimal one included."},
 {"property": "C53", "status": "partial", "theorems": ["MZ.C53_accepts_fails", "MZ.C53_rejects_fails", "MZ.C53_enum_object_fails", "MZ.C53_document_partial", "MZ.C53_set"], "note": "Every document over the supported tokens (C21, C22) with nonempty objects; enumeration definitions as lists of names. Missing: declared types with tuples, records or aliases, enumeration objects, enumeration constructors, sets other than of integers, error cases beyond C20. Deviations from the notation are proved as C53_*_fails."},
 {"property": "C54", "status": "partial", "theorems": ["MZ.C54_text_partial", "MZ.C54_roundtrip_partial", "MZ.C54_array", "MZ.C54_empty_fails", "MZ.C54_infinite_fails"], "note": "C54_text_partial: every showable value (finite sets with 32-bit bounds, 32-bit integers, no zero extent before the last dimension) yields text spelling its JSON value; C54_roundtrip_partial: the data reader reads it back as the meaning of the value; C54_array: integer arrays come back with the same extents and elements. Missing: floats, enum values and annotations. C54_empty_fails (out-of-bounds read when a middle extent is 0) and C54_infinite_fails (infinite bounds are not JSON) show where the claim is false of the code."},
 {"property": "C55", "status": "partial", "theorems": ["MZ.C55_chunks_partial", "MZ.C55_prompt", "MZ.C55_prompt_fails", "MZ.C55_carriage_return_fails"], "note": "C55_chunks_partial: all chunkings of all sequences of lines that do not end with the begin marker (unless equal to it). C55_prompt_fails: a prompt followed by the marker depends on the chunks. C55_carriage_return_fails: a marker with CRLF is lost if the chunk ends between CR and LF."},
 {"property": "C56", "status": "proved", "theorems": ["MZ.C56_entries", "MZ.C56_known", "MZ.C56_unknown"], "note": "C56_entries, C56_known, C56_unknown."},
 {"property": "C57", "status": "partial", "theorems": ["MZ.C57_step_partial", "MZ.C57_defined", "MZ.C57_domains", "MZ.C57_substitute", "MZ.C57_bool2int_constant_fails", "MZ.C57_bool2int_defined_fails"], "note": "int_eq, bool_eq, int_le, bool2int and the handling of registry verdicts are modelled on unbounded declarations. For bool2int constraints the claim is false in two situations (proved as _fails): a constant other than 0 and 1 on the integer side, and an integer argument that has a definition of its own, which is overwritten. C57_step_partial assumes these away. Float and set equality, annotations and removal of unused declarations are not modelled."},
 {"property": "C58", "status": "partial", "theorems": ["MZ.C58_eval_sound", "MZ.C58_eval_complete", "MZ.C58_bool_never_undefined", "MZ.C58_iterate_max_fails"], "note": "Full for the modelled fragment: agreement with the relational semantics (sound) and absence of errors when nothing leaves the 64-bit range (complete). One deviation is proved: a comprehension over a set that contains LLONG_MAX fails with an overflow error although it has a value. Not modelled: floats, strings, annotations, optional types, enums, tuples and records, multi-dimensional arrays and slices (index arithmetic: C18, C19), the value infinity, lazy evaluation of global right-hand sides."},
 {"property": "C59", "status": "proved", "theorems": ["MZ.C59_solutions_kept", "MZ.C59_solutions_sound", "MZ.C59_same_solutions", "MZ.C59_failed_unsat"], "note": "Soundness and completeness for full reification, completeness and correct reports of inconsistency in both modes, over the compile function on lists of items. Integer terms and predicate arguments are opaque; optional types and redefinitions of operators are not modelled."},
 {"property": "C60", "status": "partial", "theorems": ["MZ.C60_half_reified_quantifier_fails", "MZ.C60_half_reified_declaration_fails", "MZ.C60_half_reified_xor_fails"], "note": "False as stated: three concrete models whose flat model accepts assignments the source model excludes (a negated forall/exists keeps the context of the quantifier; a declaration with a right-hand side is not annotated; xor/<-> with a fixed operand use the context from before negation). See DESIGN.md."},
 {"property": "C61", "status": "partial", "theorems": ["MZ.C61_order_partial", "MZ.C61_declaration_order_partial", "MZ.C61_order_fails", "MZ.C61_most_specific_fails", "MZ.C61_found_fails", "MZ.C61_accepts", "MZ.C61_found", "MZ.C61_bottom", "MZ.C61_most_specific_partial", "MZ.C61_most_specific_default_partial"], "note": "Resolution returns a declaration that accepts the arguments (C61_accepts), finds one if a definition or a unique declaration accepts them (C61_found), picks a most specific one (C61_most_specific_partial without defaults, C61_most_specific_default_partial with defaults), and does not depend on the declaration order (C61_declaration_order_partial). Partial because overloads that differ only in their dimensions at a place and mention enumerations are excluded: for these the comparison is cyclic (C61_order_fails) and a less specific overload is chosen (C61_most_specific_fails); and a declaration without body is dropped when a definition for another enumeration follows (C61_found_fails). Functions with type-inst variables, tuples and records, and named arguments are not modelled."},
 {"property": "C62", "status": "partial", "theorems": ["MZ.C62_binding", "MZ.C62_order", "MZ.C62_reason", "MZ.C62_accepted", "MZ.C62_item_order", "MZ.C62_function_cycle_fails", "MZ.C62_sorted"], "note": "Proved for the pass over global declarations, expressions, let, comprehensions and functions: binding, acceptance and the reported reason, item order, resulting order. The full statement fails for definitions that are circular through the body of a function (C62_function_cycle_fails): these are accepted and the compiler then recurses without end. Not modelled: warnings, enumerations and identifiers introduced by the compiler, assignment items, include items in the sort."},
 {"property": "C63", "status": "partial", "theorems": ["MZ.C63_arg_min", "MZ.C63_arg_bool", "MZ.C63_min", "MZ.C63_sort_by", "MZ.C63_sort_by_fails", "MZ.C63_sort", "MZ.C63_inverse_partial", "MZ.C63_inverse_fails", "MZ.C63_array_intersect_partial", "MZ.C63_array_intersect_fails", "MZ.C63_set2array", "MZ.C63_sparse_inverse", "MZ.C63_array_union", "MZ.C63_set_to_ranges"], "note": "Proved: arg_min/arg_max, min/max, sort, set2array, set_to_sparse_inverse, array_union, set_to_ranges; sort_by for keys as long as the array; inverse for non-negative indices and 32-bit values; array_intersect if the first set is a single range. Refuted with witnesses: sort_by reads beyond the array when there are more keys than elements; inverse gives 4294967295 for the index -1; array_intersect([{1,3,5},3..5]) never returns."},
 {"property": "C64", "status": "partial", "theorems": ["MZ.C64_show_int", "MZ.C64_show_float", "MZ.C64_format", "MZ.C64_format_justify_partial", "MZ.C64_fails"], "note": "Proved for widths that are an int other than INT_MIN and, for format_justify_string, maximal lengths that are not negative. Refuted with witnesses: a negative maximal length is not rejected, wide widths wrap, INT_MIN is undefined, multi-byte characters are split."},
 {"property": "C65", "status": "proved", "theorems": ["MZ.C65_div", "MZ.C65_mod", "MZ.C65_pow", "MZ.C65_pow_overflow"], "note": "For every successful computation. C65_pow_overflow: the computation itself can raise an overflow error although powers are representable."},
 {"property": "C66", "status": "partial", "theorems": ["MZ.C66_cse_sound", "MZ.C66_cse_alive", "MZ.C66_cse_complete", "MZ.C66_cse_first", "MZ.C66_no_cse", "MZ.C66_distinct", "MZ.C66_remove_partial", "MZ.C66_remove_other", "MZ.C66_gc", "MZ.C66_remove_fails", "MZ.C66_hash", "MZ.C66_hash_fails", "MZ.C66_hash_table", "MZ.C66_order_partial", "MZ.C66_order_fails", "MZ.C66_equal_compare_partial", "MZ.C66_equal_compare_fails", "MZ.C66_compare_zero_fails", "MZ.C66_refl", "MZ.C66_equivalence_partial", "MZ.C66_equivalence_fails", "MZ.C66_equal_sound", "MZ.C66_gindex", "MZ.C66_anon"], "note": "Soundness of equality, hash values and reuse of results proved for all expressions and histories. False parts: equality is not transitive with unresolved identifiers, compare is no order across kinds of set literals and is 0 for some different expressions, equal identifiers of one flat variable are separated by their hash, and calls of commutative functions are not removed from the map."},
 {"property": "C67", "status": "partial", "theorems": ["MZ.C67_predicate", "MZ.C67_partiality", "MZ.C67_ite_partial", "MZ.C67_split", "MZ.C67_constraint_partial", "MZ.C67_struct_partial", "MZ.C67_struct_fails", "MZ.C67_opt_fails"], "note": "Proved: the two library predicates for any number of branches (C67_predicate, C67_partiality); the splitting of conditional constraints (C67_split); the loop over the conditions with the posted bounds (C67_ite_partial); both together (C67_constraint_partial); conditionals over tuples without nested tuples (C67_struct_partial). Missing: optional variables that already have a domain, for which it is false (C67_opt_fails), and nested tuples, for which it is false (C67_struct_fails). Float and set bounds are not modelled."},
 {"property": "C68", "status": "partial", "theorems": ["MZ.C68_element", "MZ.C68_access_partial", "MZ.C68_absent_fails", "MZ.C68_element_opt", "MZ.C68_compose", "MZ.C68_slice_partial", "MZ.C68_slice_fails"], "note": "Proved: element with one to six indices in root and other contexts, optional variable indices, the slice for fixed indices, composition, and the whole access. Missing because false of the code: the loop that collects the slice never ends if the last index set with a variable index is empty and so is another one (C68_slice_fails), and a fixed absent index together with a variable one gives the element for the minimum instead of <> (C68_absent_fails). Arrays of other element types use the same functions with other names and are not modelled separately."},
 {"property": "C69", "status": "partial", "theorems": ["MZ.C69_indexed", "MZ.C69_index_fails", "MZ.C69_typecheck", "MZ.C69_flatten_partial", "MZ.C69_comprehension", "MZ.C69_eval", "MZ.C69_set2iter_fails", "MZ.C69_sum_fails"], "note": "Proved: the rearrangement of where clauses (C69_typecheck), evaluation of comprehensions without variable conditions (C69_eval), the meaning of flattened comprehensions, also together with the type checker (C69_flatten_partial, C69_comprehension), indexed comprehensions with indices that fit into an int (C69_indexed). Missing because false of the code: fixed conjuncts of the where clause are dropped if the library implements set2iter (C69_set2iter_fails); a sum with fixed elements is undefined if an element with a false condition is (C69_sum_fails); indices that do not fit into an int are changed (C69_index_fails). Undefinedness of where clauses and of the sets of generators is not modelled."},
 {"property": "C70", "status": "partial", "theorems": ["MZ.C70_load", "MZ.C70_delete", "MZ.C70_iterate", "MZ.C70_resolve", "MZ.C70_resolve_absolute", "MZ.C70_companion_fails", "MZ.C70_alias_fails", "MZ.C70_root_fails", "MZ.C70_cycle_fails"], "note": "C70_load: for every file system without companion files, every finite set of files closed under inclusion, every include graph: loading finishes; it succeeds only if all reached files can be opened and the first file does not include itself, and then each reached file is one model with its items in order; otherwise a cycle through the first file or a missing file is reported truthfully. C70_delete: after any number of rounds, with companions too, deletion deletes each model exactly once. C70_iterate: iteration visits each model exactly once. C70_resolve: the lookup order of names. Not true of the code in general: C70_companion_fails (companion files are parsed twice into the same model), C70_alias_fails (an absolute name is not made canonical, so the file is loaded again), C70_root_fails (the first file is loaded again if another command-line file includes it), C70_cycle_fails (a cycle is reported only if it goes through the first file). Not modelled: models given as text, FlatZinc files, data files, syntax errors, the order in which ItemIter visits models (only in an example)."},
 {"property": "C71", "status": "partial", "theorems": ["MZ.C71_let", "MZ.C71_free", "MZ.C71_restore", "MZ.C71_empty_fails"], "note": "C71_let: for all Boolean expressions over comparison, +, div, not, and, or, iff and nested lets (integer locals with right-hand side and domain, Boolean locals, free integer locals, local constraints): the constraint is true for values of the model's variables exactly if they are part of a solution of the flat model. C71_free: flattening reports an error exactly if a free local variable is in a non-positive position. C71_restore: in any non-root context the flat variables of declarations are as before and every solution of the flat model so far extends. C71_empty_fails: the hypothesis that free local variables have non-empty domains is needed; otherwise the flat model is unsatisfiable even if the let is under a disjunction whose other side is true. Not modelled: promise_total, promise_monotone and promise_antitone, integer contexts, arrays, structs and optional types as locals; the other operators are in a simplified form."},
 {"property": "C72", "status": "partial", "theorems": ["MZ.C72_meaning", "MZ.C72_call_partial", "MZ.C72_repair", "MZ.C72_restore", "MZ.C72_cse_fails", "MZ.C72_total_fails"], "note": "C72_call_partial: for all programs and constraints in which the arguments of calls are defined for all values by their form, the constraints are true for values of the model's variables exactly if these are part of a solution of the flat model. C72_repair: the same for all programs and constraints if the entry for common subexpressions does not contain the definedness of the arguments. C72_meaning: the specification does not depend on the bound on nested calls. C72_restore: after a call all declarations have their previous values. C72_cse_fails: the code stores the definedness of the arguments of the first call in the entry, so a later call with the same flat arguments is wrongly undefined (a solution is lost). C72_total_fails: the body of a promise_total function is posted in root context even for arguments outside of the parameters' domains, which loses solutions if the promise is only true on the domains. Not modelled: arrays, optional types, functions without a body, reified versions, annotations, negated and integer contexts, captured annotations."},
 {"property": "C73", "status": "partial", "theorems": ["MZ.C73_cumulative_partial", "MZ.C73_cumulative_negative_fails", "MZ.C73_cumulative_reif_partial", "MZ.C73_cumulative_reif_fails", "MZ.C73_cumulative_opt_partial", "MZ.C73_cumulative_opt_fails", "MZ.C73_disjunctive_partial", "MZ.C73_disjunctive_strict", "MZ.C73_disjunctive_empty_fails", "MZ.C73_disjunctive_opt_partial", "MZ.C73_cumulatives", "MZ.C73_cumulatives_opt_partial", "MZ.C73_opt_index_fails", "MZ.C73_diffn_k", "MZ.C73_diffn", "MZ.C73_bin_packing", "MZ.C73_bin_packing_capa_load", "MZ.C73_bin_packing_opt_partial", "MZ.C73_bin_packing_opt_dummy_fails"], "note": "cumulatives, diffn (all four forms), disjunctive_strict, bin_packing (with its reified form), bin_packing_capa and bin_packing_load are equivalent to the documented condition for all sizes and values. cumulative is, whichever of its implementations is selected, for non-negative capacities. Proved false, with witnesses: reified and optional cumulative charge a task of duration 0 when the horizon exceeds 5000; cumulative with a negative capacity depends on the implementation; disjunctive of no tasks aborts; the optional cumulatives/bin_packing abort for arrays not indexed from 1; a present item in the bin after the last one is accepted as absent."},
 {"property": "C74", "status": "partial", "theorems": ["MZ.C74_all_different", "MZ.C74_all_different_opt", "MZ.C74_all_equal", "MZ.C74_count", "MZ.C74_count_opt", "MZ.C74_gcc_partial", "MZ.C74_gcc_fails", "MZ.C74_gcc_low_up", "MZ.C74_gcc_low_up_closed_partial", "MZ.C74_gcc_low_up_closed_fails", "MZ.C74_gcc_set", "MZ.C74_nvalue", "MZ.C74_sets"], "note": "All listed constraints are proved equivalent to the documented condition, for all arrays; global_cardinality and global_cardinality_closed with bounds only for pairwise different cover values, the optional closed form only for a non-empty cover. Proved false, with witnesses: a repeated cover value makes global_cardinality (also closed and reified) and global_cardinality_closed with bounds false, because of the implied sums; the optional closed form aborts for an empty cover although all elements may be absent."},
 {"property": "C75", "status": "partial", "theorems": ["MZ.C75_lex_less", "MZ.C75_lex_lesseq", "MZ.C75_lex_decompositions", "MZ.C75_lex_chain", "MZ.C75_lex2", "MZ.C75_increasing", "MZ.C75_strictly_increasing_partial", "MZ.C75_strictly_increasing_fails", "MZ.C75_var_perm_sym_partial", "MZ.C75_var_sqr_sym", "MZ.C75_var_perm_sym_fails", "MZ.C75_value_precede", "MZ.C75_value_precede_opt_partial", "MZ.C75_value_precede_opt_fails", "MZ.C75_seq_precede_chain_partial", "MZ.C75_seq_precede_chain_fails", "MZ.C75_seq_precede_chain_set_partial", "MZ.C75_seq_precede_chain_set_fails", "MZ.C75_value_precede_chain_partial", "MZ.C75_value_precede_chain_fails", "MZ.C75_value_precede_chain_opt_partial", "MZ.C75_value_precede_chain_set", "MZ.C75_increasing_opt", "MZ.C75_strictly_increasing_bool"], "note": "All listed constraints are proved equivalent to the documented condition, the lexicographic ones in every Boolean context and for any linearly ordered element type; value_precede_chain for any order, repeated values included. Proved false, with witnesses or for all cases of the kind: strictly_increasing and increasing of sets on empty arrays, var_perm_sym for lists that are not groups, value_precede on optional elements when 0 is a searched value but not a possible one, seq_precede_chain when all values are negative or a set after the first is empty, value_precede_chain on an empty array (error)."},
 {"property": "C76", "status": "partial", "theorems": ["MZ.C76_regular", "MZ.C76_regular_set_partial", "MZ.C76_regular_set_fails", "MZ.C76_regular_nfa", "MZ.C76_cost_regular", "MZ.C76_regular_reif", "MZ.C76_regular_reif_native_partial", "MZ.C76_regular_set_reif_native_partial", "MZ.C76_regular_reif_native_fails", "MZ.C76_regular_enum_partial", "MZ.C76_regular_enum_fails", "MZ.C76_regular_nfa_enum_partial", "MZ.C76_regular_nfa_enum_fails", "MZ.C76_mdd", "MZ.C76_mdd_reif", "MZ.C76_mdd_nondet", "MZ.C76_cost_mdd_sound_partial", "MZ.C76_cost_mdd_partial", "MZ.C76_cost_mdd_negative_fails", "MZ.C76_cost_mdd_dangling_fails", "MZ.C76_table_partial", "MZ.C76_table_fails", "MZ.C76_table_opt_partial", "MZ.C76_table_reif", "MZ.C76_table_reif_total"], "note": "Proved equivalent to acceptance, existence of a path or membership: regular (integer alphabet), regular_nfa, cost_regular, the direct reification of regular, mdd, mdd_reif, mdd_nondet, table_reif. Proved false in corner cases, with witnesses: regular over a set of symbols not starting at 1 on the empty sequence, the reification for native solvers when a variable takes a value that is no symbol, regular and regular_nfa over index sets when the states do not start at 1, cost_mdd with negative costs or dangling nodes, table on arrays without elements; the remaining cases are proved."},
 {"property": "C77", "status": "partial", "theorems": ["MZ.C77_subgraph_int", "MZ.C77_subgraph_enum", "MZ.C77_dreachable_int", "MZ.C77_dreachable_enum", "MZ.C77_reachable_int", "MZ.C77_reachable_enum", "MZ.C77_connected", "MZ.C77_dconnected_partial", "MZ.C77_dconnected_fails", "MZ.C77_dtree_int", "MZ.C77_dtree_enum", "MZ.C77_tree_int", "MZ.C77_tree_enum", "MZ.C77_dtree_is_tree", "MZ.C77_steiner", "MZ.C77_dsteiner", "MZ.C77_weighted_spanning_tree", "MZ.C77_d_weighted_spanning_tree", "MZ.C77_weighted_spanning_tree_partial", "MZ.C77_weighted_spanning_tree_fails", "MZ.C77_dpath_int", "MZ.C77_dpath_enum", "MZ.C77_path_int", "MZ.C77_path_enum", "MZ.C77_bounded_path", "MZ.C77_bounded_path_int", "MZ.C77_dag_partial", "MZ.C77_dag_fails", "MZ.C77_circuit_partial", "MZ.C77_circuit_fails", "MZ.C77_subcircuit", "MZ.C77_circuit_opt"], "note": "Proved equivalent to the specification for all graphs: subgraph, dreachable, reachable, connected, dtree, tree, steiner, dsteiner, weighted_spanning_tree and its directed version with numbered nodes, dpath, path, bounded_path, bounded_dpath (both variants each), subcircuit, circuit over optional successors. Proved false in corner cases, with witnesses: circuit rejects a single node; dag accepts edges whose start is not selected; dconnected is neither strong nor weak connection; spanning trees without numbers of nodes and edges constrain nothing when there are no edges. Missing: the renumbering of edges in those versions for index sets not starting at 1."},
 {"property": "C78", "status": "partial", "theorems": ["MZ.C78_inverse", "MZ.C78_inverse_in_range", "MZ.C78_inverse_in_range_reif", "MZ.C78_inverse_opt", "MZ.C78_inverse_set", "MZ.C78_link_set_to_booleans", "MZ.C78_int_set_channel", "MZ.C78_symmetric_all_different", "MZ.C78_range", "MZ.C78_roots", "MZ.C78_sort", "MZ.C78_sort_total", "MZ.C78_arg_sort", "MZ.C78_arg_sort_total", "MZ.C78_arg_sort_predicate_partial", "MZ.C78_arg_sort_predicate_fails", "MZ.C78_arg_max", "MZ.C78_arg_max_total", "MZ.C78_arg_min", "MZ.C78_arg_min_total", "MZ.C78_arg_max_float", "MZ.C78_arg_max_weak_partial", "MZ.C78_arg_min_weak_partial", "MZ.C78_arg_max_weak_fails", "MZ.C78_arg_max_weak_bool", "MZ.C78_arg_min_weak_bool", "MZ.C78_arg_max_opt_partial", "MZ.C78_arg_val", "MZ.C78_arg_val_bool", "MZ.C78_arg_val_weak", "MZ.C78_arg_val_opt_partial", "MZ.C78_arg_val_opt_fails", "MZ.C78_write", "MZ.C78_writes_seq", "MZ.C78_writes_partial", "MZ.C78_writes_fails", "MZ.C78_sliding_sum_partial", "MZ.C78_sliding_sum_fails", "MZ.C78_sum_pred_partial", "MZ.C78_sum_pred_fails", "MZ.C78_network_flow", "MZ.C78_network_flow_cost", "MZ.C78_knapsack_partial", "MZ.C78_knapsack_fails", "MZ.C78_piecewise_linear_partial", "MZ.C78_piecewise_linear_fails", "MZ.C78_piecewise_linear_non_continuous"], "note": "Proved equivalent to the specification for all arrays: inverse and its variants, int_set_channel, link_set_to_booleans, symmetric_all_different, range, roots, sort (total), arg_sort function (total, unique), arg_max/arg_min of integers, Booleans and floats (total, unique), weak versions, arg_val and arg_val_weak, write, writes_seq, network_flow with cost, piecewise linear functions over the rationals. Proved false in corner cases with witnesses: arg_val of optional values ignores the index set; the arg_sort predicate accepts any permutation of one element; arg_max_weak aborts if all elements are literally absent; writes promises totality but conflicting writes have no result; sliding_sum of an empty array is false; sum_pred aborts for sets not indexed from 1; knapsack of no items aborts; piecewise_linear through one point has no solution."},
 {"property": "C79", "status": "partial", "theorems": ["MZ.C79_mip_domains_exact_partial", "MZ.C79_mip_domains_unsat_partial", "MZ.C79_mip_domains_total_partial", "MZ.C79_mip_cliques", "MZ.C79_mip_relations", "MZ.C79_mip_group_exact_partial", "MZ.C79_small_coefficient_fails", "MZ.C79_fractional_equality_fails", "MZ.C79_flag_overwritten_fails", "MZ.C79_self_connection_fails"], "note": "Proved: equivalence of domain constraints and linear constraints for every group of integer variables whose coefficients are multiples of 1/q with q < 100000 and whose flags have the domain 0..1; unsatisfiability reports are right; no assertion fails for finite groups unless b <-> x = c has a fractional image; groups are the connected parts; relations follow from the equations. Proved false in corner cases, with witnesses: a coefficient below INT_EPS admits wrong solutions, a fractional image of an equality aborts, the domain of a fixed flag is overwritten, an equation of a variable with itself is taken for an inconsistency. Not modelled: float variables, half-reified constraints, linear definitions with more than two variables."},
 {"property": "C80", "status": "partial", "theorems": ["MZ.C80_int_reified", "MZ.C80_int_half_reified", "MZ.C80_int_ne", "MZ.C80_equality_encoding", "MZ.C80_int_linear", "MZ.C80_int_linear_eq_partial", "MZ.C80_int_lin_eq_reif_fails", "MZ.C80_bool_linear_partial", "MZ.C80_bool_lin_eq_reif_fails", "MZ.C80_bools", "MZ.C80_bools_half_reified", "MZ.C80_bool_arrays", "MZ.C80_float_half_reified", "MZ.C80_float_reified_sound", "MZ.C80_float_reified_complete", "MZ.C80_float_linear_sound", "MZ.C80_float_linear_complete", "MZ.C80_float_linear_ne_partial", "MZ.C80_float_lin_ne_reif_fails", "MZ.C80_float_lin_ne_imp_fails"], "note": "Proved for all integer and Boolean predicates and their linear forms under all options, and for floats sound always and complete for values apart. Proved false, with witnesses: float_lin_ne_reif and float_lin_ne_imp negate the flag when the domains of differences are post-processed; bool_lin_eq_reif stops with an assertion with that option; int_lin_eq_reif stops with an assertion when new integer variables are avoided and the older translation is chosen. Predicates without a body (…__POST, …__IND) stand for their documented meaning (the former is C79)."},
 {"property": "C81", "status": "partial", "theorems": ["MZ.C81_abs", "MZ.C81_array_min_max", "MZ.C81_min_max", "MZ.C81_int_div_mod", "MZ.C81_float_div_partial", "MZ.C81_float_div_fails", "MZ.C81_element_of_constants", "MZ.C81_element_of_variables", "MZ.C81_int_times_encodings", "MZ.C81_int_times_partial", "MZ.C81_int_times_fails", "MZ.C81_set_in", "MZ.C81_subintervals", "MZ.C81_encodings"], "note": "Proved: absolute value, minimum, maximum, integer division and remainder, element of constants and variables (with cuts), products by unary encoding and element, set membership (plain, reified, half-reified) and the encodings, for every option and domain. Missing: the product of two 0..1 variables with a possibly negative result accepts 0*0 = -1 (C81_int_times_fails), and the float division accepts a divisor zero (C81_float_div_fails; the function / excludes it before). int_pow is not modelled."},
 {"property": "C82", "status": "partial", "theorems": ["MZ.C82_all_different", "MZ.C82_inverse", "MZ.C82_inverse_reif_partial", "MZ.C82_inverse_reif_fails", "MZ.C82_circuit", "MZ.C82_subcircuit_partial", "MZ.C82_subcircuit_complete_partial", "MZ.C82_subcircuit_fails", "MZ.C82_cumulative_partial", "MZ.C82_cumulative_sound_partial", "MZ.C82_cumulative_fails", "MZ.C82_if_then_else", "MZ.C82_lex_partial", "MZ.C82_lex_fails", "MZ.C82_lex_float_partial", "MZ.C82_lex_chain", "MZ.C82_table_clause", "MZ.C82_regular"], "note": "Proved in full: all_different, alldifferent_except_0, inverse, inverse_in_range (and reified), circuit (the solver's own subtour cuts are assumed to mean a circuit), if_then_else, lex_chain_lesseq and its orbitope forms, table, sliding_sum, reified clause, regular. Partial: reified inverse (arrays not empty), subcircuit (values are nodes; completeness without that), cumulative (durations positive; soundness for durations >= 0), lex_less (first array not shorter), float lex_less (first difference at least the tolerance). The unrestricted statements are false, see the _fails theorems."},
 {"property": "C83", "status": "partial", "theorems": ["MZ.C83_encoding", "MZ.C83_subset", "MZ.C83_equality", "MZ.C83_membership", "MZ.C83_order", "MZ.C83_order_lt_reif", "MZ.C83_order_le_reif_partial", "MZ.C83_order_le_reif_fails", "MZ.C83_order_total", "MZ.C83_operations", "MZ.C83_var_element", "MZ.C83_element"], "note": "Proved in full for every constraint except the reified <=, which is proved when the left set is not known to be empty; C83_order_le_reif_fails shows that it is false otherwise. An access outside of the index set of the Booleans is false (relational semantics); unbounded sets abort and are not modelled."},
 {"property": "C84", "status": "partial", "theorems": ["MZ.C84_sec_valid", "MZ.C84_sec_no_abort_partial", "MZ.C84_sec_exact", "MZ.C84_sec_validate", "MZ.C84_sec_not_compiled", "MZ.C84_sec_abort_fails", "MZ.C84_xbz_valid", "MZ.C84_xbz_best", "MZ.C84_circuit"], "note": "Validity and exactness are proved in full, given a minimum cut algorithm (Boost's Stoer-Wagner is not modelled; without it the generator throws, C84_sec_not_compiled). That the generator does not throw is proved for points without values strictly between 0 and 0.0001; C84_sec_abort_fails gives a point with the assignment constraints where it throws. Rationals instead of doubles."},
 {"property": "C85", "status": "partial", "theorems": ["MZ.C85_encoding", "MZ.C85_encoding_unique", "MZ.C85_had_zero", "MZ.C85_alias", "MZ.C85_compare", "MZ.C85_equality", "MZ.C85_logic", "MZ.C85_xor_partial", "MZ.C85_xor_fails", "MZ.C85_quantifiers", "MZ.C85_folds", "MZ.C85_arithmetic", "MZ.C85_weak_add", "MZ.C85_sum", "MZ.C85_min_max", "MZ.C85_array2set", "MZ.C85_set_in", "MZ.C85_var_dom_partial", "MZ.C85_var_dom_fails", "MZ.C85_var_dom_par", "MZ.C85_element", "MZ.C85_element_2d_partial", "MZ.C85_element_2d_fails", "MZ.C85_objective"], "note": "Proved for all operators but three: xor (C85_xor_fails: missing parentheses make <> xor true false and the result depend on a hidden value), var_dom when the variable may be zero and the domain has no zero (C85_var_dom_fails), and access to an empty two-dimensional array (C85_element_2d_fails). Floats and enums share the bodies of integers and are not repeated; element with three to six indices and the par versions of min and max are not modelled."},
 {"property": "C86", "status": "partial", "theorems": ["MZ.C86_feasible_partial", "MZ.C86_no_solution_lost_partial", "MZ.C86_order", "MZ.C86_counts", "MZ.C86_objective", "MZ.C86_sparsity_partial", "MZ.C86_solution_read_partial", "MZ.C86_verdict_partial", "MZ.C86_failure_reported_fails", "MZ.C86_report_partial", "MZ.C86_report_item_partial", "MZ.C86_reported_solution_partial", "MZ.C86_int_div_fails", "MZ.C86_int_pow_fails", "MZ.C86_single_variable_fails", "MZ.C86_inconsistent_bounds_fails", "MZ.C86_constants_fails", "MZ.C86_fixed_variable_fails", "MZ.C86_sparsity_fails", "MZ.C86_no_options_fails", "MZ.C86_rounding_fails", "MZ.C86_feasible_real_partial"], "note": "Proved: positions, counts, objective, and that points and solutions coincide (C86_feasible_partial) when integer divisions have no remainder, integer exponents are not negative, the problem has two variables at least and the bounds on each variable are consistent; solutions are never lost without the last two. The five exceptions are shown to be real: C86_int_div_fails, C86_int_pow_fails, C86_single_variable_fails, C86_inconsistent_bounds_fails, C86_constants_fails; also C86_fixed_variable_fails (a bound on a fixed variable throws), C86_sparsity_fails (no linear part for a constant result), C86_no_options_fails, C86_rounding_fails, C86_failure_reported_fails. Doubles are elements of an ordered field; the output of arrays is modelled for one item only."},
 {"property": "C87", "status": "partial", "theorems": ["MZ.C87_parts_in_order", "MZ.C87_accepted", "MZ.C87_one_to_n", "MZ.C87_expression_value", "MZ.C87_one_expression", "MZ.C87_values_differ", "MZ.C87_constructor", "MZ.C87_constructor_lifted", "MZ.C87_text_partial", "MZ.C87_absent_text_partial", "MZ.C87_read_back_partial", "MZ.C87_text_injective", "MZ.C87_collections_text", "MZ.C87_enum_next", "MZ.C87_enum_prev", "MZ.C87_next_prev", "MZ.C87_to_enum", "MZ.C87_to_enum_set_variable", "MZ.C87_empty_part_fails", "MZ.C87_negative_anonymous_fails", "MZ.C87_quoted_name_fails", "MZ.C87_subset_json_fails", "MZ.C87_next_in_set_fails"], "note": "Values, order, constructors, inverses, lifted versions, successor, predecessor and to_enum are proved without exceptions for declarations whose sizes are not negative (C87_negative_anonymous_fails). Printing (C87_text_partial, C87_absent_text_partial, C87_read_back_partial) is proved if only the last part may be an empty list of identifiers (C87_empty_part_fails), constructors over proper subsets of an enumerated type are left out for data files and JSON (C87_subset_json_fails), and, for data files, names of types with anonymous members need no quotes (C87_quoted_name_fails). enum_next in a set with holes differs between parameters and variables (C87_next_in_set_fails)."},
 {"property": "C88", "status": "partial", "theorems": ["MZ.C88_selection", "MZ.C88_selection_error", "MZ.C88_by_id", "MZ.C88_default_solver_partial", "MZ.C88_default_solver_fails", "MZ.C88_tag_case_fails", "MZ.C88_version_fails", "MZ.C88_version_case_fails", "MZ.C88_configuration_file", "MZ.C88_tags", "MZ.C88_default_options", "MZ.C88_flag_range", "MZ.C88_flag_choice", "MZ.C88_flag_fails", "MZ.C88_parameter_file_partial", "MZ.C88_repeated_values_fails", "MZ.C88_object_partial", "MZ.C88_object_blank_fails", "MZ.C88_object_array_fails", "MZ.C88_object_false_fails", "MZ.C88_expansion", "MZ.C88_expansion_ends", "MZ.C88_expansion_result", "MZ.C88_twice_fails", "MZ.C88_value_fails"], "note": "Selection, errors, default options, expansion and termination are proved for all inputs. C88_default_solver_partial: identifiers in lower case (C88_default_solver_fails). C88_parameter_file_partial: arrays that start with four equal values are left out (C88_repeated_values_fails). C88_object_partial: texts without blanks, quotes and backslashes, no arrays or objects inside (C88_object_blank_fails, C88_object_array_fails). Tags and versions with upper case letters cannot be requested (C88_tag_case_fails, C88_version_case_fails), an absent version is ignored (C88_version_fails), a file may not be given twice (C88_twice_fails)."},
 {"property": "C89", "status": "partial", "theorems": ["MZ.C89_int_comparisons", "MZ.C89_int_arithmetic", "MZ.C89_int_linear", "MZ.C89_bool_comparisons", "MZ.C89_bool_eq_partial", "MZ.C89_bool_eq_fails", "MZ.C89_bool_lt_reif_fails", "MZ.C89_bool_connectives", "MZ.C89_clauses", "MZ.C89_bool_linear_partial", "MZ.C89_bool_linear_fails", "MZ.C89_large_constants_fails", "MZ.C89_bool2int_partial", "MZ.C89_bool2int_fails", "MZ.C89_constant_element_partial", "MZ.C89_variable_element_partial", "MZ.C89_variable_bool_element_partial", "MZ.C89_element_in_range", "MZ.C89_element_index_fails", "MZ.C89_element_literal_fails", "MZ.C89_counting", "MZ.C89_scheduling", "MZ.C89_table", "MZ.C89_global_cardinality_partial", "MZ.C89_global_cardinality_fails", "MZ.C89_unknown_fails", "MZ.C89_set_in_reif", "MZ.C89_int_pow_partial", "MZ.C89_int_pow_fails", "MZ.C89_lin_eq_reif", "MZ.C89_xor", "MZ.C89_value_precede_partial", "MZ.C89_value_precede_fails", "MZ.C89_inverse", "MZ.C89_nogood", "MZ.C89_satisfaction_partial", "MZ.C89_satisfaction_fails", "MZ.C89_optimisation", "MZ.C89_probing_fails", "MZ.C89_domain", "MZ.C89_array_access_fails"], "note": "Proved for all arguments and assignments within 32 bit constants (C89_large_constants_fails). bool_eq and its forms need a known first argument or a variable control (C89_bool_eq_fails), bool_lt_reif a variable result (C89_bool_lt_reif_fails), bool_lin_* a constant right hand side (C89_bool_linear_fails). Element constraints are exact for indices in the array (C89_element_index_fails, C89_element_literal_fails). global_cardinality is closed (C89_global_cardinality_fails). Satisfaction prints once too often (C89_satisfaction_fails), probing may not end (C89_probing_fails). The solver itself is trusted."},
 {"property": "C90", "status": "partial", "theorems": ["MZ.C90_names_partial", "MZ.C90_characters", "MZ.C90_tokens", "MZ.C90_syntax", "MZ.C90_unambiguous", "MZ.C90_regular_partial", "MZ.C90_refused", "MZ.C90_no_variables_fails", "MZ.C90_quoted_names_fails", "MZ.C90_adjacent_calls_fails", "MZ.C90_negative_fails", "MZ.C90_empty_class_fails"], "note": "Proved for every text and assignment except calls of constructors, and {n,m} with n > m, whose meaning depends on Gecode. Quoted names (C90_quoted_names_fails), arrays without variables (C90_no_variables_fails), calls without space between them (C90_adjacent_calls_fails), negative values (C90_negative_fails) and classes without a value (C90_empty_class_fails) deviate. Gecode's REG and DFA are trusted."},
 {"property": "C91", "status": "partial", "theorems": ["MZ.C91_problem_partial", "MZ.C91_status_partial", "MZ.C91_values", "MZ.C91_duplicates", "MZ.C91_mask", "MZ.C91_search", "MZ.C91_warm_start", "MZ.C91_known_flag_fails", "MZ.C91_known_flag_unsat_fails", "MZ.C91_upper_bound_fails", "MZ.C91_bounds_fails", "MZ.C91_tolerance_fails", "MZ.C91_holes_fails", "MZ.C91_bool_domain_fails", "MZ.C91_no_variables_fails"], "note": "Proved for all models whose definitions refer to earlier variables of the same type, with domains of at most one range and constants within the solver's infinity. Not so, with witnesses: equality with a known flag tests another argument (C91_known_flag_fails, C91_known_flag_unsat_fails), bounds set for known flags replace those of the declaration (C91_upper_bound_fails, C91_bounds_fails), constants are compared with a tolerance (C91_tolerance_fails), domains with holes and of Booleans (C91_holes_fails, C91_bool_domain_fails), models without variables (C91_no_variables_fails). The solvers are trusted, doubles are rational numbers."},
 {"property": "C92", "status": "partial", "theorems": ["MZ.C92_int_comparisons", "MZ.C92_int_linear", "MZ.C92_bool_linear", "MZ.C92_arithmetic", "MZ.C92_bool_operators", "MZ.C92_bool_implications", "MZ.C92_bool_arrays_partial", "MZ.C92_clause_imp_fails", "MZ.C92_left_imp_fails", "MZ.C92_left_imp_partial", "MZ.C92_literals_fails", "MZ.C92_bin_packing", "MZ.C92_regular", "MZ.C92_cumulative_partial", "MZ.C92_cumulative_fails", "MZ.C92_cumulative_increasing_fails", "MZ.C92_cumulative_overflow_fails", "MZ.C92_element", "MZ.C92_domains", "MZ.C92_arrays", "MZ.C92_windows_inverse", "MZ.C92_table", "MZ.C92_count", "MZ.C92_global_cardinality_partial", "MZ.C92_repeated_cover_fails"], "note": "Proved for literals within Gecode's range. Not so, with witnesses: cumulative keeps tasks apart that fit together because the second smallest height is computed wrongly (C92_cumulative_fails, C92_cumulative_increasing_fails), and overflows with one task (C92_cumulative_overflow_fails); half-reified clauses are posted as reifications (C92_clause_imp_fails); bool_left_imp with a variable result is undefined (C92_left_imp_fails); literals are cut to 32 bits (C92_literals_fails); repeated values in a cover are refused (C92_repeated_cover_fails). Gecode's functions are trusted to enforce their meaning (Post.holds); floats, sets, circuits, optional tasks, propagation levels and search are not modelled."},
 {"property": "C93", "status": "partial", "theorems": ["MZ.C93_copy_partial", "MZ.C93_recursive_call_fails"], "note": "Proved if what is copied before an object is registered (the function of a call) does not lead back to the object, or only through an enclosing object that is already registered (recursive functions). Without this sharing is lost, with a witness (C93_recursive_call_fails). Not modelled: followIds, flat and payload pointers, annotations of identifiers, shared vectors and value sets, and that the functions of operators are copied without copyFundecls."},
 {"property": "C94", "status": "proved", "theorems": ["MZ.C94_indices", "MZ.C94_array_names", "MZ.C94_paths", "MZ.C94_path_names", "MZ.C94_distinct"], "note": "Proved for the table of names and paths from which the lines are printed. Identifiers are compared as objects, as the table does: an element that is another object for the same variable does not name it. path2name is a parameter; the text of names and lines is not modelled."},
 {"property": "C95", "status": "partial", "theorems": ["MZ.C95_accepted_partial", "MZ.C95_set_result_fails", "MZ.C95_optional_fails", "MZ.C95_checker", "MZ.C95_function", "MZ.C95_bounds", "MZ.C95_source", "MZ.C95_reason_format", "MZ.C95_default_reason"], "note": "Acceptance is proved for declarations in which types of variables are neither sets nor optional: list of var set of int as a result (C95_set_result_fails) and list of var opt int as a parameter (C95_optional_fails) are accepted against the documentation. The solver is trusted to enforce blackbox; lookup of overloads and resolution of file names are inputs."},
 {"property": "C96", "status": "partial", "theorems": ["MZ.C96_solutions_partial", "MZ.C96_command_line_partial", "MZ.C96_no_solver", "MZ.C96_unknown_rejected", "MZ.C96_num_optimal_fails", "MZ.C96_short_flag_fails"], "note": "All option sequences, spellings and declared flags. Missing: numbers of optimal solutions other than 0 and 1 (refuted: C96_num_optimal_fails, the number is stored in a Boolean) and solver flags not beginning with two dashes (refuted for -r...: C96_short_flag_fails). The running of the process is not modelled."}
]}
