{
 "claims": [
  {
   "property": "C01",
   "status": "proved",
   "theorems": [
    "Gp.HashTbl.C01_table_is_finite_map",
    "Gp.HashTbl.C01_operation_results"
   ],
   "note": "All histories of insert/delete/clear/resize/grow on the chained table, any positive initial size."
  },
  {
   "property": "C02",
   "status": "proved",
   "theorems": [
    "Gp.HashTbl.C02_resize_preserves",
    "Gp.HashTbl.C02_scan_enumerates_once",
    "Gp.HashTbl.C02_scan_with_delete",
    "Gp.HashTbl.C02_scan_across_growth_is_undefined",
    "Gp.HashTbl.C02_scan_across_delete_of_next_is_undefined"
   ],
   "note": "Growth and enumeration, also with deletion of the current element. Enumeration interleaved with other updates is undefined behaviour in the code: two witness theorems."
  },
  {
   "property": "C03",
   "status": "proved",
   "theorems": [
    "Gp.Atom.C03_unique",
    "Gp.Atom.C03_create",
    "Gp.Atom.C03_find",
    "Gp.Atom.C03_history",
    "Gp.Atom.C03_new_atom",
    "Gp.Atom.C03_new_atom_succeeds",
    "Gp.Atom.C03_enumeration",
    "Gp.Atom.C03_init",
    "Gp.Atom.C03_fixed_atoms",
    "Gp.Atom.C03_length_partial",
    "Gp.Atom.C03_length_truncated",
    "Gp.Atom.C03_new_atom_long_prefix_overflows",
    "Gp.Atom.C03_adjust"
   ],
   "note": "All histories of atom creations from the initial table, all hash functions, all table sizes. Extra: new_atom gives a fresh atom, current_atom enumerates all atoms; the recorded length is the length of the name only below 65536 characters (C03_length_partial; C03_length_truncated shows the failure)."
  },
  {
   "property": "C04",
   "status": "proved",
   "theorems": [
    "Gp.Oper.C04_init",
    "Gp.Oper.C04_op",
    "Gp.Oper.C04_lookup",
    "Gp.Oper.C04_restrictions",
    "Gp.Oper.C04_current_op_atom",
    "Gp.Oper.C04_current_op_all",
    "Gp.Oper.C04_deleted_alternative_crashes"
   ],
   "note": "All histories of op/3 from the initial table: errors, effect, lookups, restrictions, current_op (unmodified operators between its solutions). C04_deleted_alternative_crashes: current_op/3 dereferences NULL if the operator of its alternative was deleted."
  },
  {
   "property": "C05",
   "status": "proved",
   "theorems": [
    "Gp.Tag.C05_kind_recognised",
    "Gp.Tag.C05_value_recovered",
    "Gp.Tag.C05_words_unambiguous",
    "Gp.Tag.C05_overflow_test_exact",
    "Gp.Tag.C05_functor_arity",
    "Gp.Tag.C05_functor_arity_inj",
    "Gp.Tag.C05_trail_entry"
   ],
   "note": "All seven tags, 61-bit integers, atoms, functor/arity words, trail tags."
  },
  {
   "property": "C06",
   "status": "proved",
   "theorems": [
    "Gp.Arith.C06_exact_or_overflow",
    "Gp.Arith.C06_sign_and_compare",
    "Gp.Arith.C06_power_exact_or_overflow",
    "Gp.Arith.C06_power_negative"
   ],
   "note": "All integer operands, no undefined behaviour; multiplication and power through the 64-bit overflow builtins."
  },
  {
   "property": "C07",
   "status": "proved",
   "theorems": [
    "Gp.Arith.C07_truncating_division",
    "Gp.Arith.C07_flooring_division",
    "Gp.Arith.C07_law_determines",
    "Gp.Arith.C07_trunc_law_determines",
    "Gp.Arith.C07_zero_divisor"
   ],
   "note": "Both division pairs satisfy their law, the law determines the result, zero divisor is the evaluation error."
  },
  {
   "property": "C08",
   "status": "partial",
   "theorems": [
    "Gp.Arith.C08_bitwise",
    "Gp.Arith.C08_shift_right",
    "Gp.Arith.C08_shift_left_nonneg_partial",
    "Gp.Arith.C08_shift_left_negative_partial",
    "Gp.Arith.C08_shift_left_negative_wraps",
    "Gp.Arith.C08_shift_negative_count",
    "Gp.Arith.C08_shift_lowest_count_wrong"
   ],
   "note": "Left shift of a negative integer is not checked for overflow and a shift by the lowest integer gives 0: the negations are proved with witnesses, the rest is proved."
  },
  {
   "property": "C09",
   "status": "partial",
   "theorems": [
    "Gp.Arith.C09_gcd_partial",
    "Gp.Arith.C09_gcd_lowest_wrong",
    "Gp.Arith.C09_bit_scans",
    "Gp.Arith.C09_negative_is_error_partial",
    "Gp.Arith.C09_negative_culprit_wrong"
   ],
   "note": "gcd of twice the lowest integer wraps, and the culprit of the domain error is an untagged integer: negations proved; the rest is proved."
  },
  {
   "property": "C10",
   "status": "proved",
   "theorems": [
    "Gp.Term.C10_compare_is_standard_order",
    "Gp.Term.C10_total_order",
    "Gp.Term.C10_equal_is_identical",
    "Gp.Term.C10_compare_atom"
   ],
   "note": "All terms of the engine (NUL-free names, non-NaN floats); -0.0 and 0.0 are identified by the code, stated explicitly."
  },
  {
   "property": "C11",
   "status": "proved",
   "theorems": [
    "Gp.Sort.C11_msort",
    "Gp.Sort.C11_keysort",
    "Gp.Sort.C11_sort_memory_frame"
   ],
   "note": "In-memory merge sort (base/aux areas) refined to a stable sort; msort/2 and keysort/2. The in-place msort/1, keysort/1 are not modelled."
  },
  {
   "property": "C12",
   "status": "proved",
   "theorems": [
    "Gp.Sort.C12_sort",
    "Gp.Sort.C12_sort_canonical",
    "Gp.Sort.C12_sort_errors"
   ],
   "note": "sort/2: strictly ascending, same set, canonical, and the error cases."
  },
  {
   "property": "C13",
   "status": "proved",
   "theorems": [
    "Gp.Unify.C13_success_equal",
    "Gp.Unify.C13_binds_only_variables",
    "Gp.Unify.C13_trailed"
   ],
   "note": "All well-formed memories without FD variables; Reads/WF/ValidWord are the spec. FD variables are treated by hooks (see C25)."
  },
  {
   "property": "C14",
   "status": "proved",
   "theorems": [
    "Gp.Unify.C14_most_general",
    "Gp.Unify.C14_fail_no_unifier",
    "Gp.Unify.C14_unifier_success",
    "Gp.Unify.C14_occurs_check_decides",
    "Gp.Unify.C14_deterministic",
    "Gp.Unify.C14_cyclic_diverges"
   ],
   "note": "All well-formed memories without cyclic terms and without FD variables; for cyclic terms =/2 may not terminate (C14_cyclic_diverges)."
  },
  {
   "property": "C15",
   "status": "proved",
   "theorems": [
    "Gp.Wam.C15_retry_restores",
    "Gp.Wam.C15_trust_restores",
    "Gp.Wam.C15_current_choice",
    "Gp.Wam.C15_cut",
    "Gp.Wam.C15_soft_cut_newest",
    "Gp.Wam.C15_soft_cut_older",
    "Gp.Wam.C15_protected"
   ],
   "note": "All executions of the control instructions (Reach); cells assigned without trailing since the creation are excepted. The trail is a list of records, not of words."
  },
  {
   "property": "C16",
   "status": "proved",
   "theorems": [
    "Gp.CopyTerm.C16_copy_term",
    "Gp.CopyTerm.C16_too_many_iff",
    "Gp.CopyTerm.C16_too_many_source_modified",
    "Gp.CopyTerm.C16_too_many_not_restored",
    "Gp.CopyTerm.C16_term_size"
   ],
   "note": "Pl_Copy_Term/Copy_Term_Rec over all memories and finite terms (FD variables included, also the reachability of the whole copy); finding: on the too-many-variables error the source is left bound (theorem C16_too_many_not_restored)"
  },
  {
   "property": "C17",
   "status": "proved",
   "theorems": [
    "Gp.CopyTerm.C17_relocate",
    "Gp.CopyTerm.C17_copy_contiguous",
    "Gp.CopyTerm.C17_store_retrieve"
   ],
   "note": "Pl_Copy_Contiguous_Term on every contiguous block; the result of Pl_Copy_Term is such a block; store then retrieve gives a variant"
  },
  {
   "property": "C18",
   "status": "proved",
   "theorems": [
    "Gp.Dyn.C18_logical_update_view",
    "Gp.Dyn.C18_all_operations_partial"
   ],
   "note": "Snapshot semantics for every interleaving of asserta/assertz/calls/clause/retract/backtracking/cuts; with abolish or multifile removal C18_all_operations_partial under Legal."
  },
  {
   "property": "C19",
   "status": "proved",
   "theorems": [
    "Gp.Dyn.C19_indexing",
    "Gp.Dyn.C19_selective"
   ],
   "note": "Indexed scan visits in database order all clauses that may match, after any history."
  },
  {
   "property": "C20",
   "status": "partial",
   "theorems": [
    "Gp.Dyn.C20_invisible",
    "Gp.Dyn.C20_safe_partial",
    "Gp.Dyn.C20_reclaimed_partial",
    "Gp.Dyn.C20_retract_after_abolish_crashes",
    "Gp.Dyn.C20_file_removal_uses_freed_clause",
    "Gp.Dyn.C20_leak"
   ],
   "note": "Invisible and safe for all histories of asserta/assertz/calls/retract/cuts; with abolish/file removal only for legal histories (the code fails otherwise: two counterexamples proved); a leak with environments is proved."
  },
  {
   "property": "C21",
   "status": "partial",
   "theorems": [
    "Gp.AllSol.C21_store",
    "Gp.AllSol.C21_findall_partial",
    "Gp.AllSol.C21_findall_exception",
    "Gp.AllSol.C21_findall_exception_witness"
   ],
   "note": "Stack of solutions on the memory model: store (copy to a new block), recover; executions with findall's nested at any depth and arbitrary other steps. The result is the list of variants of the solutions in order, without common variables, followed by the tail, and the stack is restored. Partial because the claim is false when an exception leaves an inner findall and is caught by the goal of the outer one: the outer one also collects the solutions of the aborted one (proved with a witness). Heap limit not modelled."
  },
  {
   "property": "C22",
   "status": "partial",
   "theorems": [
    "Gp.AllSol.C22_free_variables",
    "Gp.AllSol.C22_keys_linked",
    "Gp.AllSol.C22_bagof",
    "Gp.AllSol.C22_setof",
    "Gp.AllSol.C22_same_group",
    "Gp.AllSol.C22_no_free_variables_partial",
    "Gp.AllSol.C22_setof_instantiated_fails",
    "Gp.AllSol.C22_setof_instantiated_modified"
   ],
   "note": "Free variables of the goal, linking of the key variables (variant keys become identical), keysort/sort and grouping, for all lists of solutions. Partial because setof/3 without free variables unifies its third argument before sorting in place: with an instantiated third argument it fails or modifies the list of the caller (both proved). FD variables in keys and the error for too many key variables are not modelled."
  },
  {
   "property": "C23",
   "status": "partial",
   "theorems": [
    "Gp.FdRange.C23_test_value",
    "Gp.FdRange.C23_bounds",
    "Gp.FdRange.C23_test_null_inter",
    "Gp.FdRange.C23_union",
    "Gp.FdRange.C23_inter",
    "Gp.FdRange.C23_compl",
    "Gp.FdRange.C23_expressions",
    "Gp.FdRange.C23_set_value_partial",
    "Gp.FdRange.C23_reset_value_partial",
    "Gp.FdRange.C23_nb_ith",
    "Gp.FdRange.C23_listing",
    "Gp.FdRange.C23_next_after",
    "Gp.FdRange.C23_next_before",
    "Gp.FdRange.C23_test_null_inter_empty_witness",
    "Gp.FdRange.C23_compl_witness",
    "Gp.FdRange.C23_set_value_junk_witness",
    "Gp.FdRange.C23_set_value_flag_witness",
    "Gp.FdRange.C23_reset_value_witness"
   ],
   "note": "Exact for every range and vector size: membership, bounds, emptiness, null-intersection test (non-empty ranges), union, intersection, complement, expressions, cardinality, i-th, next, previous. Insertion and removal of a value are partial: the C code is wrong in the excluded cases (witness theorems)."
  },
  {
   "property": "C24",
   "status": "partial",
   "theorems": [
    "Gp.FdRange.C24_empty",
    "Gp.FdRange.C24_add_intervals",
    "Gp.FdRange.C24_sub_intervals",
    "Gp.FdRange.C24_add_range",
    "Gp.FdRange.C24_sub_range",
    "Gp.FdRange.C24_mul_range",
    "Gp.FdRange.C24_div_range",
    "Gp.FdRange.C24_mod_range",
    "Gp.FdRange.C24_add_value",
    "Gp.FdRange.C24_mul_value_partial",
    "Gp.FdRange.C24_div_value_partial",
    "Gp.FdRange.C24_mod_value",
    "Gp.FdRange.C24_mul_range_flag_witness",
    "Gp.FdRange.C24_mul_overflow_witness",
    "Gp.FdRange.C24_div_range_zero_witness",
    "Gp.FdRange.C24_mul_value_neg_witness",
    "Gp.FdRange.C24_div_value_bounds_witness",
    "Gp.FdRange.C24_div_value_undefined_witness"
   ],
   "note": "Addition, subtraction, multiplication, division, modulo of ranges, translation and modulo by a value are exact images (on 0..fd_vector_max for sparse ones; products must fit an int). Multiplication and division by a value are partial: the C code is wrong or undefined for the excluded values (witness theorems)."
  },
  {
   "property": "C25",
   "status": "partial",
   "theorems": [
    "Gp.Fd.C25_told",
    "Gp.Fd.C25_exact",
    "Gp.Fd.C25_history",
    "Gp.Fd.C25_use_vector",
    "Gp.Fd.C25_check_bool",
    "Gp.Fd.C25_flag_write_witness",
    "Gp.Fd.C25_silent_instantiation_witness",
    "Gp.Fd.C25_unify_int_witness",
    "Gp.Fd.C25_unify_int_partial"
   ],
   "note": "Proved for all domains and told sets: result = intersection, failure iff empty, exact events (unconditionally for domains within 0..fd_vector_max, over any history of tells); beyond it the losses are warned or recorded. Missing: the cases where the code disagrees (64-bit write at extra_cstr resets min; silent instantiation with lost values; unification with integers of more than 32 bits)."
  },
  {
   "property": "C26",
   "status": "partial",
   "theorems": [
    "Gp.Fd.C26_post_fixpoint",
    "Gp.Fd.C26_post_sound",
    "Gp.Fd.C26_queue_empty",
    "Gp.Fd.C26_stopped",
    "Gp.Fd.C26_program_partial",
    "Gp.Fd.C26_overflow_witness",
    "Gp.Fd.C26_constant_witness"
   ],
   "note": "Generic propagation (termination, fixpoint, soundness, empty queue, stop) for any blocks and switches; 21 arithmetic primitives proved to keep all solutions and to hold when instantiated. Missing: product by 0 when instantiated, constraints with switch / C functions (min, max, abs, truth_*, symbolic). Overflow and clamped constants violate the property: witnesses."
  },
  {
   "property": "C27",
   "status": "partial",
   "theorems": [
    "Gp.Fd.Trail.C27_restored_partial",
    "Gp.Fd.Trail.C27_domains_partial",
    "Gp.Fd.Trail.C27_tell",
    "Gp.Fd.Trail.C27_tells_then_fail_partial",
    "Gp.Fd.Trail.C27_nb_cstr_witness",
    "Gp.Fd.Trail.C27_nb_cstr_dependency_witness",
    "Gp.Fd.Trail.C27_copy_witness"
   ],
   "note": "The memory of the FD frames and vectors, the conditional trailing by stamps, choice points, untrailing, cut and soft cut. For all histories, a failure restores every word of the frames existing at the creation of the choice point, hence every domain; the tells on this memory refine the tells of C25. Not restored (shown by witnesses): Nb_Cstr, used by the labeling heuristics, and FD variables copied by copy_term/2, whose instantiation is never trailed."
  },
  {
   "property": "C28",
   "status": "partial",
   "theorems": [
    "Gp.Switch.C28_table",
    "Gp.Switch.C28_table_last",
    "Gp.Switch.C28_structure_keys",
    "Gp.Switch.C28_negative_key_out_of_bounds",
    "Gp.Switch.C28_integer_partial",
    "Gp.Switch.C28_big_integer_fails",
    "Gp.Switch.C28_far_integers_fail",
    "Gp.Switch.C28_switch_on_term",
    "Gp.Switch.C28_switch_on_term_float"
   ],
   "note": "Hash tables (atoms, structures) proved for all key lists; selection on the type of the first argument proved for all the specialised functions. switch_on_integer is right only for keys in int range with differences in int range: the code truncates the keys (LOAD_C_INT) and overflows in Switch_Cmp_Int; both negations are proved (C28_big_integer_fails, C28_far_integers_fail)."
  },
  {
   "property": "C29",
   "status": "partial",
   "theorems": [
    "Gp.Mangle.C29_mangle_injective",
    "Gp.Mangle.C29_mangle_identifier",
    "Gp.Mangle.C29_demangle_mangle_partial",
    "Gp.Mangle.C29_demangle_rejects_both_encoded"
   ],
   "note": "Mangle injective and valid identifier proved for all names; demangle inverse except when both names are hex encoded (the code rejects coding digit 5: proved) or the functor is empty"
  },
  {
   "property": "C30",
   "status": "partial",
   "theorems": [
    "Gp.GVar.C30_defined_partial",
    "Gp.GVar.C30_read_partial",
    "Gp.GVar.C30_reads_unique",
    "Gp.GVar.C30_backtrack_partial",
    "Gp.GVar.C30_inc_undone",
    "Gp.GVar.C30_extend_undone",
    "Gp.GVar.C30_assignb_overflow",
    "Gp.GVar.C30_extend_overflow",
    "Gp.GVar.C30_assignb_auto"
   ],
   "note": "proved for all histories of g_assign, g_assignb/g_link, g_read with selectors, g_inc, choice points, failures and cuts: no undefined behaviour and the value read is that of a store with one copy per choice point. Missing: g_inc on an element with a pending backtrackable assignment, a backtrackable array assignment over an array, g_array_extend to a smaller size (the code violates the property there: witnesses C30_inc_undone, C30_assignb_overflow, C30_assignb_auto, C30_extend_overflow, C30_extend_undone); sub-term selectors and indirect indexes are not modelled"
  },
  {
   "property": "C31",
   "status": "partial",
   "theorems": [
    "Gp.SubAtom.C31_sub_atom_partial",
    "Gp.SubAtom.C31_decompositions",
    "Gp.SubAtom.C31_sub_atom_errors",
    "Gp.SubAtom.C31_before_beyond_end",
    "Gp.SubAtom.C31_after_beyond_start",
    "Gp.SubAtom.C31_out_of_bounds",
    "Gp.SubAtom.C31_length_is_sub"
   ],
   "note": "exact enumeration proved for all patterns (also repeated variables) except three situations where the code is wrong; each has a proved witness"
  },
  {
   "property": "C32",
   "status": "proved",
   "theorems": [
    "Gp.SubAtom.C32_atom_concat",
    "Gp.SubAtom.C32_atom_concat_errors"
   ],
   "note": "all patterns, also with the same variable twice"
  },
  {
   "property": "C33",
   "status": "proved",
   "theorems": [
    "Gp.Quote.C33_roundtrip",
    "Gp.Quote.C33_brackets",
    "Gp.Quote.C33_quotes_needed",
    "Gp.Quote.C33_injective",
    "Gp.Quote.C33_classes",
    "Gp.Quote.C33_escapes",
    "Gp.Quote.C33_glued_witness",
    "Gp.Quote.C33_escape_nul",
    "Gp.Quote.C33_escape_nul_digit",
    "Gp.Quote.C33_escape_overflow",
    "Gp.Rw.C33_read_term"
   ],
   "note": "Token level for every locale, every name without NUL and every following text that does not glue; and the whole reader (C33_read_term): read_term of what writeq writes is the atom, whatever the operators and flags. Quotes only when needed; injective. The 1 MB token buffer is not modelled; the reader on other inputs has defects (NUL bytes and overflow in escapes: witnesses)."
  },
  {
   "property": "C34",
   "status": "partial",
   "theorems": [
    "Gp.ListBip.C34_append",
    "Gp.ListBip.C34_reverse",
    "Gp.ListBip.C34_length",
    "Gp.ListBip.C34_nth",
    "Gp.ListBip.C34_member_partial",
    "Gp.ListBip.C34_member_proper",
    "Gp.ListBip.C34_memberchk_partial",
    "Gp.ListBip.C34_member_incomplete",
    "Gp.ListBip.C34_member_wrong_answer",
    "Gp.ListBip.C34_memberchk_local"
   ],
   "note": "append/3, reverse/2, length/2 and nth/3 (integer N): all modes, all well formed memories, any number of retries. member/2: all lists that are not partial, and the partial lists whose end variable occurs neither in X nor in the elements; the code is wrong for the others (C34_member_incomplete, C34_member_wrong_answer). memberchk/2: X must not be a reference to the local stack when the list is partial (C34_memberchk_local: memory corruption). Cyclic terms have no valuation: the answer sets are then empty. nth/3 with a variable N is Prolog code, not modelled. Termination is not part of the theorems: they are about the results of the calls that return."
  },
  {
   "property": "C35",
   "status": "partial",
   "theorems": [
    "Gp.RegAlloc.C35_total",
    "Gp.RegAlloc.C35_reads_partial",
    "Gp.RegAlloc.C35_useless_write_overwrites",
    "Gp.RegAlloc.C35_argument_write_overwrites",
    "Gp.RegAlloc.C35_address_overwrites",
    "Gp.RegAlloc.C35_self_copy_overwrites",
    "Gp.RegAlloc.C35_wish_check_needed"
   ],
   "note": "Full statement: every instruction of the allocated clause reads the values it reads before the allocation, and the allocation always succeeds with machine registers everywhere. Proved for every clause, level of optimisation and world, provided no register is copied into itself, no address of register is given to C, and registers set in vain are temporaries not copied before (level 2). Counterexamples show that each hypothesis is needed."
  },
  {
   "property": "C36",
   "status": "partial",
   "theorems": [
    "Gp.Stream.C36_answers",
    "Gp.Stream.C36_positions_partial",
    "Gp.Stream.C36_prefix",
    "Gp.Stream.C36_peek_consumes_nothing",
    "Gp.Stream.C36_unget_restores",
    "Gp.Stream.C36_set_position",
    "Gp.Stream.C36_seek_bof",
    "Gp.Stream.C36_eof_shifts_column",
    "Gp.Stream.C36_lookahead_eof_offset",
    "Gp.Stream.C36_unget_eof_count",
    "Gp.Stream.C36_lookahead_unget_loses",
    "Gp.Stream.C36_failed_line_column",
    "Gp.Stream.C36_seek_current_skips",
    "Gp.Stream.C36_seek_eof_count",
    "Gp.Stream.C36_get_key_count",
    "Gp.Stream.C36_string_answers"
   ],
   "note": "Answers of get/peek/unget/at_end_of_stream/set_stream_position/set_stream_line_column and the character and line counts are exact after any legal history. Line position and offset are exact except after reading / looking ahead the end of file, where the code is wrong: negations proved. Mirrors, output, line editor: not in this part."
  },
  {
   "property": "C37",
   "status": "partial",
   "theorems": [
    "Gp.Catch.C37_answers_partial",
    "Gp.Catch.C37_first_answer",
    "Gp.Catch.C37_handler_restored_partial",
    "Gp.Catch.C37_not_after_exit",
    "Gp.Catch.C37_recovery_not_protected",
    "Gp.Catch.C37_innermost",
    "Gp.Catch.C37_no_ball",
    "Gp.Catch.C37_sync_ball",
    "Gp.Catch.C37_query_stale_ball",
    "Gp.Catch.C37_uncaught_continues"
   ],
   "note": "Refinement of the catch/throw machine (choice-point stack with addresses, handler and ball variables) to a nested-handler semantics, for every program, goal and context. Excluded and shown false: the reserved balls, exceptions handled by a C query (stale ball), exceptions with no catch at all (execution goes on). Goals have no side effects in the model."
  },
  {
   "property": "C38",
   "status": "proved",
   "theorems": [
    "Gp.BtString.C38_lookup",
    "Gp.BtString.C38_add",
    "Gp.BtString.C38_list"
   ],
   "note": "Binary-tree dictionary of Tools/bt_string.c: lookup, numbering, ordered listing for all histories of additions."
  },
  {
   "property": "C39",
   "status": "partial",
   "theorems": [
    "Gp.Path.C39_absolute",
    "Gp.Path.C39_canonical",
    "Gp.Path.C39_result",
    "Gp.Path.C39_keep_slash_partial",
    "Gp.Path.C39_root_slash",
    "Gp.Path.C39_idempotent_partial",
    "Gp.Path.C39_not_idempotent",
    "Gp.Path.C39_not_idempotent_cwd",
    "Gp.Path.C39_user_relative",
    "Gp.Path.C39_no_overflow_partial",
    "Gp.Path.C39_overflow_exact",
    "Gp.Path.C39_overflow_env",
    "Gp.Path.C39_decompose",
    "Gp.Path.C39_decompose_unique",
    "Gp.Path.C39_dirname_partial",
    "Gp.Path.C39_dirname_root"
   ],
   "note": "Canonical form, meaning of the result and decomposition are proved for all paths. Partial: idempotence needs a result without variables (C39_not_idempotent), the root with kept separator (C39_root_slash), buffer safety needs length bounds (C39_overflow_exact, C39_overflow_env), the trimmed directory part of /foo (C39_dirname_root)."
  },
  {
   "property": "C40",
   "status": "proved",
   "theorems": [
    "Gp.Acyclic.C40_acyclic_term",
    "Gp.Acyclic.C40_fails_iff_cyclic"
   ],
   "note": "Model of Pl_Acyclic_Term_1 (marking, stack of records, restoration); termination, exactness and restoration on every well formed heap, cyclic or not; failure iff a sub-term is a proper sub-term of itself."
  },
  {
   "property": "C41",
   "status": "proved",
   "theorems": [
    "Gp.Arith.C41_is_evaluates_exactly",
    "Gp.Arith.C41_order_independent"
   ],
   "note": "Expressions of any depth over the listed functors; << >> gcd ^ and bit scans are left to C06, C08, C09."
  },
  {
   "property": "C42",
   "status": "proved",
   "theorems": [
    "Gp.RbMap.C42_get",
    "Gp.RbMap.C42_put",
    "Gp.RbMap.C42_remove",
    "Gp.RbMap.C42_height",
    "Gp.RbMap.C42_first_last",
    "Gp.RbMap.C42_next",
    "Gp.RbMap.C42_prev",
    "Gp.RbMap.C42_foreach",
    "Gp.RbMap.C42_history",
    "Gp.RbMap.C42_numbering"
   ],
   "note": "Functional (zipper) model of rbtree.c / rbtree_augmented.h / map_rbtree.h."
  },
  {
   "property": "C43",
   "status": "partial",
   "theorems": [
    "Gp.Index.C43_tried_partial",
    "Gp.Index.C43_call_partial",
    "Gp.Index.C43_complete",
    "Gp.Index.C43_last_clause",
    "Gp.Index.C43_at_most_two",
    "Gp.Index.C43_deterministic",
    "Gp.Index.C43_big_integer_not_tried"
   ],
   "note": "Proved for all clause lists and call arguments by a correctness proof of the generated code (labels unique, execution ends, clauses tried). Restricted to integer first arguments in one interval of 2^31 C ints: outside, the code violates the property (C43_big_integer_not_tried: p(4294967296). p(1). fails on p(4294967296))."
  },
  {
   "property": "C44",
   "status": "proved",
   "theorems": [
    "Gp.Rw.C44_canonical",
    "Gp.Rw.C44_ignore_ops",
    "Gp.Rw.C44_injective"
   ],
   "note": "Writer (Show_Term and the automatic spaces), lexer and parser modelled; every term and every pair of operator tables. Not modelled: portray, depth limits, FD variables, attributed output streams, the 1 MB token buffer; floats are their text."
  },
  {
   "property": "C45",
   "status": "proved",
   "theorems": [
    "Gp.Rw.C45_write_read",
    "Gp.Rw.C45_write_stop_read",
    "Gp.Rw.C45_injective",
    "Gp.Rw.C45_after_op",
    "Gp.Rw.C45_dollar_var_witness"
   ],
   "note": "Round trip for every table of operators op/3 can build (connected to the model of op/3), every term without '$VAR'(N)/'$VARNAME'(A) when these options are set (the exclusion is needed: witness). Same limits of the model as C44."
  },
  {
   "property": "C46",
   "status": "partial",
   "theorems": [
    "Gp.Mirror.C46_tables_consistent",
    "Gp.Mirror.C46_no_ub_partial",
    "Gp.Mirror.C46_current_partial",
    "Gp.Mirror.C46_designation",
    "Gp.Mirror.C46_close",
    "Gp.Mirror.C46_close_term",
    "Gp.Mirror.C46_close_std",
    "Gp.Mirror.C46_set_alias",
    "Gp.Mirror.C46_add_alias",
    "Gp.Mirror.C46_open",
    "Gp.Mirror.C46_add_mirror",
    "Gp.Mirror.C46_remove_mirror",
    "Gp.Mirror.C46_put",
    "Gp.Mirror.C46_receivers_unique",
    "Gp.Mirror.C46_get",
    "Gp.Mirror.C46_put_cycle",
    "Gp.Mirror.C46_mirror_cycle",
    "Gp.Mirror.C46_counters",
    "Gp.Mirror.C46_stale_handle",
    "Gp.Mirror.C46_open_reposition",
    "Gp.Mirror.C46_close_fails",
    "Gp.Mirror.C46_input_is_output",
    "Gp.Mirror.C46_current_mirror_removed",
    "Gp.Mirror.C46_sr_open_user"
   ],
   "note": "Stream table, aliases and mirrors (memory of the list nodes explicit). Proved for every history: consistency of the tables, effect of open, close, aliases, mirrors, who receives a character. Partial: absence of undefined behaviour and direction of the current streams need files that can be repositioned and closed and no set_stream_alias on predefined aliases. Violations proved: cyclic mirrors never end, stale stream terms, open with reposition(true) and failing close leave a closed file, current input may be an output stream, current mirror node read after free, sr_open(user) frees shared nodes."
  },
  {
   "property": "C47",
   "status": "partial",
   "theorems": [
    "Gp.Format.C47_format_partial",
    "Gp.Format.C47_only_documented",
    "Gp.Format.C47_literal",
    "Gp.Format.C47_boundary",
    "Gp.Format.C47_boundary_here",
    "Gp.Format.C47_relative",
    "Gp.Format.C47_bound",
    "Gp.Format.C47_text_kept",
    "Gp.Format.C47_even",
    "Gp.Format.C47_radix",
    "Gp.Format.C47_decimal",
    "Gp.Format.C47_groups",
    "Gp.Format.C47_newline_violated",
    "Gp.Format.C47_fresh_violated",
    "Gp.Format.C47_places_violated",
    "Gp.Format.C47_plus_digit_violated",
    "Gp.Format.C47_sign_violated",
    "Gp.Format.C47_realloc_violated",
    "Gp.Format.C47_percent_end_violated",
    "Gp.Format.C47_buffer_violated",
    "Gp.Format.C47_leak_violated"
   ],
   "note": "Proved for the tame formats (no new line between a ~t and the next boundary, at most 1023 characters after the first ~t of a column, no ~N just after ~t, printf texts below 65535 bytes, no ~+ followed by a digit); the other formats violate the property (witnesses). What Pl_Write_Term and the C printf produce is a parameter of the arguments."
  },
  {
   "property": "C48",
   "status": "partial",
   "theorems": [
    "Gp.FdMath.C48_solutions_satisfy_the_constraint",
    "Gp.FdMath.C48_no_solution_is_lost",
    "Gp.FdMath.C48_failure_means_no_solution",
    "Gp.FdMath.C48_posted_constraints_are_exact_partial",
    "Gp.FdMath.C48_linear_constraints_are_posted",
    "Gp.FdMath.C48_defined_behaviour_partial",
    "Gp.FdMath.C48_clamped_coefficient_violated",
    "Gp.FdMath.C48_clamped_bound_violated",
    "Gp.FdMath.C48_clamped_disequality_violated",
    "Gp.FdMath.C48_power_overflow_violated",
    "Gp.FdMath.C48_negative_operand_violated",
    "Gp.FdMath.C48_large_sum_violated",
    "Gp.FdMath.C48_released_cell_violated"
   ],
   "note": "Exact when no subexpression can exceed the largest FD integer (bounds on the sizes of the expressions) and operands of the operators other than + - * are read as non-negative; for larger coefficients, constants, powers and sums, for negative operands, and for the heap cell that // releases, the code disagrees with the manual: violation theorems with witnesses. Known variables enter through a parameter that is assumed sound. Errors excluded for linear constraints with at most 2000 variable occurrences."
  },
  {
   "property": "C49",
   "status": "partial",
   "theorems": [
    "Gp.Label.C49_answers_are_the_solutions_partial",
    "Gp.Label.C49_order_of_the_values",
    "Gp.Label.C49_middle_witness",
    "Gp.Label.C49_wide_witness",
    "Gp.Label.C49_variable_choice_partial",
    "Gp.Label.C49_packing_witness"
   ],
   "note": "For all primitive constraints of C26 without overflow, every option and every random sequence: the answers are exactly the solutions, each once, ground and ordered; order of the values of one variable; best variable. Missing: products by a variable that may be 0, overflows, plain Prolog variables, middle/random on domains above the vector maximum (witness: values are lost), best variable after packing (witness: a wrong variable is picked)."
  },
  {
   "property": "C50",
   "status": "partial",
   "theorems": [
    "Gp.Optim.C50_answers_are_the_optimal_solutions_partial",
    "Gp.Optim.C50_maximize_diverges_violated"
   ],
   "note": "For the constraints and labelings of C49: terminates, the answers are exactly the optimal solutions, each once. Missing: fd_maximize of a variable that may be 268435455 (proved violated: it never terminates if a solution reaches this value), goals other than a labeling, and what is missing in C49."
  },
  {
   "property": "C51",
   "status": "partial",
   "theorems": [
    "Gp.CodeGen.C51_head_fails",
    "Gp.CodeGen.C51_head_sound",
    "Gp.CodeGen.C51_head_complete",
    "Gp.CodeGen.C51_head_environment"
   ],
   "note": "Proved for every head, every option and every call, on the code before register allocation (C35): failure only without a common instance, soundness, completeness, no reference to the environment. Not covered: FD variables in the call, '$mt'/2 arguments, overflow of the stacks; termination of the unification on cyclic terms is a hypothesis (the run ends)."
  },
  {
   "property": "C52",
   "status": "partial",
   "theorems": [
    "Gp.CodeGen.C52_args_never_fail",
    "Gp.CodeGen.C52_clause_sound",
    "Gp.CodeGen.C52_clause_complete",
    "Gp.CodeGen.C52_last_call",
    "Gp.CodeGen.C52_classification",
    "Gp.CodeGen.C52_source_sound",
    "Gp.CodeGen.C52_source_complete",
    "Gp.CodeGen.C52_source_fails"
   ],
   "note": "Proved for every clause made of a head and calls, every option and every behaviour of the calls which return an answer (Called), on the code before register allocation (C35), with the classification of the variables of internal.pl: the loading never fails, soundness, completeness, safe last call. Not covered: inline predicates in the body (see C53 for =), cut, '$mt'/2 arguments, overflow of the stacks, the environment trimming."
  },
  {
   "property": "C53",
   "status": "partial",
   "theorems": [
    "Gp.CodeGen.C53_fails_partial",
    "Gp.CodeGen.C53_sound_partial",
    "Gp.CodeGen.C53_complete_partial",
    "Gp.CodeGen.C53_last_call_partial",
    "Gp.CodeGen.C53_new_variable_dangling"
   ],
   "note": "The theorems cover all the unifications but three cases: New = Old with New a temporary without any occurrence before and Old a variable not known to be in the heap (there the compiler generates wrong code, C53_new_variable_dangling proves that the heap then refers to the local stack), the unification of two new temporaries (made one variable by the compiler), and Y = New with Y permanent and New a new temporary. The called predicates are specified (Called), not modelled."
  },
  {
   "property": "C54",
   "status": "partial",
   "theorems": [
    "Gp.Control.C54_standard",
    "Gp.Control.C54_control_partial",
    "Gp.Control.C54_only_partial",
    "Gp.Control.C54_cut",
    "Gp.Control.C54_soft_cut_then_cut",
    "Gp.Control.C54_soft_cut_then_if"
   ],
   "note": "Proved without restriction for all the bodies without an else of *-> (C54_standard), both directions. With (P *-> Q ; R): proved when the condition P has no cut of its own and no if-then-else in an alternative which is not the first one; in these two cases the code is wrong (C54_soft_cut_then_cut, C54_soft_cut_then_if): a cut puts back in B the choice point of the else which the soft cut has unlinked. Goals which are not control constructs are given by their answers; indexing is C28/C43."
  },
  {
   "property": "C55",
   "status": "partial",
   "theorems": [
    "Gp.ByteCode.C55_instruction",
    "Gp.ByteCode.C55_call",
    "Gp.ByteCode.C55_clause_32",
    "Gp.ByteCode.C55_clause_partial",
    "Gp.ByteCode.C55_context",
    "Gp.ByteCode.C55_resume",
    "Gp.ByteCode.C55_buffer",
    "Gp.ByteCode.C55_field_overflow",
    "Gp.ByteCode.C55_max_arity"
   ],
   "note": "round trip of every instruction, execution of a clause from every instruction for every history, buffer never overflows, saved continuation; on 64 bits the arity of the context of an unknown predicate is lost (C55_context). Missing: the effect of the instructions is abstract here (see C51-C53), debugger active, instruction names looked up in the table."
  },
  {
   "property": "C56",
   "status": "partial",
   "theorems": [
    "Gp.Dcg.C56_rule_partial",
    "Gp.Dcg.C56_pushback_partial",
    "Gp.Dcg.C56_cut_not_steadfast",
    "Gp.Dcg.C56_alt_cut_not_steadfast",
    "Gp.Dcg.C56_condition_not_steadfast",
    "Gp.Dcg.C56_if_then_else_lost",
    "Gp.Dcg.C56_disjunction_lost",
    "Gp.Dcg.C56_pushback_not_steadfast"
   ],
   "note": "The logical reading (cut true, -> as ,) is proved for all bodies, with and without pushback. Steadfastness and the meaning of the control constructs fail: six witnesses are proved. Missing: the order of the answers and the effect of cuts for the bodies where the translation is right; errors of ill-formed bodies."
  },
  {
   "property": "C57",
   "status": "partial",
   "theorems": [
    "Gp.FdBool.C57_sound_partial",
    "Gp.FdBool.C57_complete_partial",
    "Gp.FdBool.C57_defined",
    "Gp.FdBool.C57_error_partial",
    "Gp.FdBool.C57_integer_truncated",
    "Gp.FdBool.C57_cardinality_sound_partial",
    "Gp.FdBool.C57_cardinality_complete_partial",
    "Gp.FdBool.C57_rules_sound",
    "Gp.FdBool.C57_rules_exact",
    "Gp.FdBool.C57_switch_sound",
    "Gp.FdBool.C57_switch_exact",
    "Gp.FdBool.C57_switch_starts",
    "Gp.FdBool.C57_reified_in_partial",
    "Gp.FdBool.C57_reified_in_negative"
   ],
   "note": "Posting (simplification and loading) proved sound, complete and free of unset words for all formulas; rules of all primitive constraints of fd_bool_fd.fd proved sound and exact; fd_cardinality counts; fd_reified_in. Not proved: the loading of arithmetic expressions is a parameter (C48), sparse ranges are mathematical sets (their truncation is in C20-C24), C integer overflow; witnesses for the truncation of integers to 32 bits and for fd_reified_in on values outside 0..max."
  },
  {
   "property": "C58",
   "status": "partial",
   "theorems": [
    "Gp.TermInl.C58_functor",
    "Gp.TermInl.C58_arg_partial",
    "Gp.TermInl.C58_univ",
    "Gp.TermInl.C58_term_variables_partial",
    "Gp.TermInl.C58_subsumes",
    "Gp.TermInl.C58_setarg_partial",
    "Gp.TermInl.C58_arg_win64",
    "Gp.TermInl.C58_term_variables_local",
    "Gp.TermInl.C58_setarg_local"
   ],
   "note": "functor/3, =../2 and subsumes_term/2 are proved in full for valid words (no finite domain variables). arg/3 is proved when unsigned long has the size of the integers; on 64 bits Windows it is refuted (C58_arg_win64). term_variables/2-3 and setarg/3-4 are proved except for a variable of the local stack, where the memory is corrupted (C58_term_variables_local, C58_setarg_local). The culprit of the errors is not modelled."
  },
  {
   "property": "C59",
   "status": "partial",
   "theorems": [
    "Gp.NumVars.C59_bind_variables",
    "Gp.NumVars.C59_name",
    "Gp.NumVars.C59_exclude_partial",
    "Gp.NumVars.C59_numbervars",
    "Gp.NumVars.C59_exclude_large",
    "Gp.NumVars.C59_name_overflow",
    "Gp.NumVars.C59_next_option"
   ],
   "note": "The C function behind bind_variables/2 and numbervars/1-3 (pretty_c.c:549-781) with the traversal which binds while it reads: a success is the most general answer of the numbering of the variables, a failure means there is none, and each error has its cause. The exclusion holds for the numbers below 1048576 (C59_exclude_large shows that the larger ones are given again although excluded). C59_name_overflow: the number of a name such as 'A99999999' overflows an int. C59_next_option: the option next(Next) is refused for a variable, against the documentation. Not modelled: the cyclic terms (left untouched by the code), overflow of the counter."
  },
  {
   "property": "C60",
   "status": "partial",
   "theorems": [
    "Gp.FdSymb.C60_index",
    "Gp.FdSymb.C60_value",
    "Gp.FdSymb.C60_position",
    "Gp.FdSymb.C60_element",
    "Gp.FdSymb.C60_element_undef",
    "Gp.FdSymb.C60_element_large",
    "Gp.FdSymb.C60_element_flag",
    "Gp.FdSymb.C60_var_value",
    "Gp.FdSymb.C60_var_position",
    "Gp.FdSymb.C60_var_tell",
    "Gp.FdSymb.C60_atmost",
    "Gp.FdSymb.C60_atleast",
    "Gp.FdSymb.C60_exactly",
    "Gp.FdSymb.C60_atmost_twice",
    "Gp.FdSymb.C60_all_different",
    "Gp.FdSymb.C60_relation",
    "Gp.FdSymb.C60_columns",
    "Gp.FdSymb.C60_relation_empty"
   ],
   "note": "fd_element: C60_element gives the exact domains after the first execution of the three blocks, with the hypothesis that the values and the length of the list are at most the maximum of the vectors; without it a bit is written outside of a vector (C60_element_undef). fd_element_var: the ranges computed and the tell, not their sequence. Counting constraints: one execution on any domains (C60_atmost and C60_exactly: domains within the vectors). fd_all_different: over any posting of X =\\= Y which keeps the solutions (an hypothesis on the disequality constraint). fd_relation: the columns and the constraints posted. Not proved: the propagation after the first execution for these constraints; the errors on the arguments."
  },
  {
   "property": "C61",
   "status": "partial",
   "theorems": [
    "Gp.Linedit.C61_keys_partial",
    "Gp.Linedit.C61_bounds",
    "Gp.Linedit.C61_history",
    "Gp.Linedit.C61_kill_yank",
    "Gp.Linedit.C61_buffered",
    "Gp.Linedit.C61_clipboard_overflow",
    "Gp.Linedit.C61_clipboard_reached",
    "Gp.Linedit.C61_mark_beyond",
    "Gp.Linedit.C61_search_loses_a_line",
    "Gp.Linedit.C61_repeat_kept",
    "Gp.Linedit.C61_previous_word_forward",
    "Gp.Linedit.C61_buffered_tab"
   ],
   "note": "Every sequence of keys has the effect of the specification on the text, the cursor, the clipboard and the history unless it uses a mark beyond the end of the line or puts 4096 characters in the clipboard (C61_keys_partial); without cut and copy and with a buffer of at most 4096 bytes no access is outside of the buffers (C61_bounds); the history of typed lines (C61_history); erase then paste (C61_kill_yank); the keys waiting at the start without tabulation (C61_buffered). The code violates the claim: the clipboard of 4096 bytes is overflowed by a line of the top level (C61_clipboard_overflow, C61_clipboard_reached), a mark beyond the end of the line makes the editor write before the buffer (C61_mark_beyond), a search which fails changes the history (C61_search_loses_a_line), a repeated line is kept when the table wraps (C61_repeat_kept), the previous word can be after the cursor (C61_previous_word_forward), a tabulation waiting at the start overflows the buffer (C61_buffered_tab). Not modelled: display, interrupt key, matching of brackets, choice of the completion."
  },
  {
   "property": "C62",
   "status": "partial",
   "theorems": [
    "Gp.Compl.C62_words",
    "Gp.Compl.C62_match_first",
    "Gp.Compl.C62_navig",
    "Gp.Compl.C62_match_last",
    "Gp.Compl.C62_find_partial",
    "Gp.Compl.C62_tab_partial",
    "Gp.Compl.C62_display",
    "Gp.Compl.C62_tab_word",
    "Gp.Compl.C62_tab_after_separator",
    "Gp.Compl.C62_find_nested",
    "Gp.Compl.C62_longer_prefix"
   ],
   "note": "The dictionary, the completion of a prefix, the moves and the table are proved in full. C62_find_partial assumes that find_linedit_completion/2 is not called again between two solutions and that no word is added meanwhile (new atoms are added to the dictionary): C62_find_nested proves that a call in between changes the solutions, or makes the retry read through NULL. C62_tab_partial is about the text found before the cursor by C62_tab_word; after a separator followed by another one the length passed is negative (C62_tab_after_separator). C62_longer_prefix: a prefix longer than its length misses words."
  },
  {
   "property": "C63",
   "status": "partial",
   "theorems": [
    "Gp.Between.C63_between",
    "Gp.Between.C63_errors",
    "Gp.Between.C63_all",
    "Gp.Between.C63_fd_variable"
   ],
   "note": "Every run of the call and of its retries on a valid memory enumerates the solutions of the specification (stated on the terms denoted by the arguments), exact number of solutions and determinism of the last one, exact conditions of each error. Missing: memories with FD variables (only the result of an FD variable as third argument, a type error, is proved); the restoration of the bindings by the trail is that of the part ListBip (the state saved in the choice point)."
  },
  {
   "property": "C64",
   "status": "partial",
   "theorems": [
    "Gp.Singl.C64_name_singletons"
   ],
   "note": "Full result of the call on a valid memory and a finite term: the answer (stated on the terms denoted by the memory, occurrences counted in the term), the unbound variables which stay unbound, the only error. Missing: memories with FD variables and cyclic terms (the test of acyclicity is C40)."
  },
  {
   "property": "C65",
   "status": "partial",
   "theorems": [
    "Gp.TypeTest.C65_type_tests",
    "Gp.TypeTest.C65_fd_variable",
    "Gp.TypeTest.C65_ground",
    "Gp.TypeTest.C65_lists"
   ],
   "note": "All the tests are proved exact on every finite term, with termination. Missing: terms which contain FD variables (only the tests applied to an FD variable itself), and cyclic terms (ground/1 and the tests of lists do not end on them)."
  },
  {
   "property": "C66",
   "status": "partial",
   "theorems": [
    "Gp.CallN.C66_call",
    "Gp.CallN.C66_total"
   ],
   "note": "Pl_Call_Closure with the registers, for all closures and arguments. Not modelled: what runs after the jump (the code of the predicate, the interpretation of a control construct), and closures which are FD variables."
  },
  {
   "property": "C67",
   "status": "partial",
   "theorems": [
    "Gp.CurPred.C67_current_predicate",
    "Gp.CurPred.C67_in_range",
    "Gp.CurPred.C67_creation_is_undefined"
   ],
   "note": "All the answers, for every reachable table and every indicator, on a table which is not changed during the enumeration; the creation of a predicate during the enumeration is proved undefined when the table is full. Not modelled: the errors of the predicate indicator, the memory of the terms (the arguments are given by their values and the form of their words)."
  },
  {
   "property": "C68",
   "status": "partial",
   "theorems": [
    "Gp.Random.C68_random_integer",
    "Gp.Random.C68_random_partial",
    "Gp.Random.C68_every_value",
    "Gp.Random.C68_large_bounds_violated"
   ],
   "note": "Proved for bounds up to 2^53 in absolute value (every value reachable for intervals up to 2^22); beyond, the claim is false and the negation is proved with a witness. The random integer below n (also used by the labeling) is proved for all n. Not modelled: float bounds."
  },
  {
   "property": "C69",
   "status": "partial",
   "theorems": [
    "Gp.THash.C69_value",
    "Gp.THash.C69_sequence",
    "Gp.THash.C69_equal_terms",
    "Gp.THash.C69_term_hash_2",
    "Gp.THash.C69_nested_lists_collide",
    "Gp.THash.C69_fd_variable",
    "Gp.THash.C69_murmur_by_value",
    "Gp.THash.C69_floats_collide"
   ],
   "note": "The hypothesis ByValue on the hash function is proved for a model of the one used (MurmurHash3 with the 64 bits taken from a double); the hash codes of the atoms, the reading of the depth and the range and the unification with the last argument are not modelled; terms without NaN; the bits hashed for an infinite float (an undefined conversion) are a parameter. Findings: [[a]] and [a,[]] have the same hash for every hash function; 1.0 and 0.5009765625 (and every such pair of floats) have the same hash."
  },
  {
   "property": "C70",
   "status": "partial",
   "theorems": [
    "Gp.Flags.C70_set_prolog_flag",
    "Gp.Flags.C70_current_known",
    "Gp.Flags.C70_current_all"
   ],
   "note": "The unification of the value with the second argument is a parameter; the calls of debug/0 and nodebug/0 by the flag debug and the terms of version_data and argv are not modelled; the table has at least two flags (the enumeration of a table of one flag would read beyond it; there are more than forty)."
  },
  {
   "property": "C71",
   "status": "partial",
   "theorems": [
    "Gp.Environ.C71_environ_all",
    "Gp.Environ.C71_environ_known",
    "Gp.Environ.C71_entry_without_equal_is_undefined"
   ],
   "note": "The unification with the arguments is a parameter, the checks of their types are not modelled and the environment does not change between the answers. Finding: an entry without '=' makes the enumeration compute a length from a NULL pointer (C71_entry_without_equal_is_undefined)."
  },
  {
   "property": "C72",
   "status": "partial",
   "theorems": [
    "Gp.CharConv.C72_current_all",
    "Gp.CharConv.C72_char_conversion",
    "Gp.CharConv.C72_stale_answer"
   ],
   "note": "The checks of the types of the arguments and the unification with them are not modelled (a test is a parameter); the enumeration is exact for a table which does not change between the answers. Finding: the next answer is computed in advance, a conversion removed in between is still given (C72_stale_answer)."
  },
  {
   "property": "C73",
   "status": "partial",
   "theorems": [
    "Gp.CurAtom.C73_current_atom",
    "Gp.CurAtom.C73_known_atom"
   ],
   "note": "The type error for a bound argument which is not an atom is not modelled; the growth of the table of atoms (atoms are never removed) is a hypothesis, which C03 supports."
  },
  {
   "property": "C74",
   "status": "partial",
   "theorems": [
    "Gp.CharCode.C74_char_code",
    "Gp.CharCode.C74_round_trip",
    "Gp.CharCode.C74_lower_upper",
    "Gp.CharCode.C74_lower_upper_answer",
    "Gp.CharCode.C74_lower_upper_errors"
   ],
   "note": "char_code/2: the outcome is fixed for all well-formed arguments. lower_upper/2: proved for toupper and tolower of the C locale, which are modelled (the run-time system never calls setlocale). Terms other than variables, atoms and integers are one case, the arguments are dereferenced. The documented reading as a relation does not hold: lower_upper(X, a) answers X = a but lower_upper(a, a) fails (C74_lower_upper_answer). No edits of this model were tried in seeded/LOG.jsonl."
  }
 ]
}