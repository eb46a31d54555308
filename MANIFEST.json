{
 "claims": [
  {
   "property": "C01",
   "status": "proved",
   "theorems": [
    "Wicked.Rational.C01_ctor_exact_canonical",
    "Wicked.Rational.C01_ctor_int"
   ],
   "note": ""
  },
  {
   "property": "C02",
   "status": "proved",
   "theorems": [
    "Wicked.Rational.C02_arith_exact_canonical"
   ],
   "note": ""
  },
  {
   "property": "C03",
   "status": "partial",
   "theorems": [
    "Wicked.Rational.C03_div_exact",
    "Wicked.Rational.C03_div_canonical_partial",
    "Wicked.Rational.C03_div_eq_partial",
    "Wicked.Rational.C03_div_negative_not_canonical"
   ],
   "note": "exact value proved for all divisors; canonicity proved for positive divisors only: the code leaves a negative denominator for negative divisors (C03_div_negative_not_canonical proves the negation)"
  },
  {
   "property": "C04",
   "status": "proved",
   "theorems": [
    "Wicked.Rational.C04_eq_numeric",
    "Wicked.Rational.C04_eq_equivalence"
   ],
   "note": ""
  },
  {
   "property": "C05",
   "status": "proved",
   "theorems": [
    "Wicked.Rational.C05_str_roundtrip",
    "Wicked.Rational.C05_parse_exact"
   ],
   "note": ""
  },
  {
   "property": "C06",
   "status": "proved",
   "theorems": [
    "Wicked.Rational.C06_machine_exact_or_overflow",
    "Wicked.Rational.C06_machine_no_overflow",
    "Wicked.Rational.C06_machine_overflow_witness"
   ],
   "note": ""
  },
  {
   "property": "C07",
   "status": "proved",
   "theorems": [
    "Wicked.C07_factorial",
    "Wicked.C07_factorial_neg",
    "Wicked.C07_binomial",
    "Wicked.C07_binomial_division_exact",
    "Wicked.C07_factorial_64bit",
    "Wicked.C07_binomial_64bit"
   ],
   "note": ""
  },
  {
   "property": "C08",
   "status": "proved",
   "theorems": [
    "Wicked.C08_permutation_sign",
    "Wicked.C08_exchange_flips"
   ],
   "note": ""
  },
  {
   "property": "C09",
   "status": "proved",
   "theorems": [
    "Wicked.C09_integer_partitions",
    "Wicked.C09_small_cases"
   ],
   "note": ""
  },
  {
   "property": "C10",
   "status": "proved",
   "theorems": [
    "Wicked.C10_registry_consistent",
    "Wicked.C10_labels_distinct_any_history"
   ],
   "note": ""
  },
  {
   "property": "C11",
   "status": "partial",
   "theorems": [
    "Wicked.C11_failed_add_partial",
    "Wicked.C11_failed_add_changes_registry",
    "Wicked.C11_failed_add_alias_witness"
   ],
   "note": "registry unchanged when the failure is one of the checks made before the first write (label re-use, empty/illegal arguments); for an index-name clash discovered half-way the code leaves a modified registry: negation proved (C11_failed_add_changes_registry, C11_failed_add_alias_witness)"
  },
  {
   "property": "C12",
   "status": "proved",
   "theorems": [
    "Wicked.C12_make_index_exact",
    "Wicked.C12_index_roundtrip"
   ],
   "note": ""
  },
  {
   "property": "C13",
   "status": "proved",
   "theorems": [
    "Wicked.C13_index_label_injective",
    "Wicked.C13_collision_witness"
   ],
   "note": ""
  },
  {
   "property": "C14",
   "status": "proved",
   "theorems": [
    "Wicked.C14_total_orders",
    "Wicked.C14_tensor_and_term_orders",
    "Wicked.C14_sort_keys",
    "Wicked.C14_normal_ordered_less",
    "Wicked.Wick.C14_graph_less"
   ],
   "note": ""
  },
  {
   "property": "C15",
   "status": "proved",
   "theorems": [
    "Wicked.C15_canonicalize_indices"
   ],
   "note": ""
  },
  {
   "property": "C16",
   "status": "partial",
   "theorems": [
    "Wicked.C16_canonicalize_sqops_partial",
    "Wicked.C16_boson_sign_wrong"
   ],
   "note": "proved for all fermionic operator strings in every anticommuting valuation; false for bosons (C16_boson_sign_wrong): canonicalize_sqops always uses the fermionic sign"
  },
  {
   "property": "C17",
   "status": "proved",
   "theorems": [
    "Wicked.C17_tensor_canonicalize"
   ],
   "note": ""
  },
  {
   "property": "C18",
   "status": "proved",
   "theorems": [
    "Wicked.C18_history"
   ],
   "note": ""
  },
  {
   "property": "C19",
   "status": "proved",
   "theorems": [
    "Wicked.C19_equality",
    "Wicked.C19_equivalence"
   ],
   "note": ""
  },
  {
   "property": "C20",
   "status": "partial",
   "theorems": [
    "Wicked.C20_smul_partial",
    "Wicked.C20_mul_by_zero",
    "Wicked.C20_sdiv",
    "Wicked.C20_sdiv_pos_partial",
    "Wicked.C20_div_by_negative"
   ],
   "note": "coefficients scale exactly for every scalar; e*c is == to the expression built from scaled terms for c != 0 and e/c == e*(1/c) for c > 0, c = 0 raises; the code violates the rest: multiplying by 0 keeps zero-coefficient terms (C20_mul_by_zero) and dividing by a negative number gives non-canonical coefficients that are not == (C20_div_by_negative)"
  },
  {
   "property": "C21",
   "status": "proved",
   "theorems": [
    "Wicked.C21_product_coefficient",
    "Wicked.C21_product_laws"
   ],
   "note": ""
  },
  {
   "property": "C22",
   "status": "proved",
   "theorems": [
    "Wicked.C22_adjoint"
   ],
   "note": ""
  },
  {
   "property": "C23",
   "status": "proved",
   "theorems": [
    "Wicked.C23_commutator",
    "Wicked.C23_nested"
   ],
   "note": ""
  },
  {
   "property": "C24",
   "status": "proved",
   "theorems": [
    "Wicked.C24_bch_series"
   ],
   "note": ""
  },
  {
   "property": "C25",
   "status": "proved",
   "theorems": [
    "Wicked.C25_dot"
   ],
   "note": ""
  },
  {
   "property": "C26",
   "status": "proved",
   "theorems": [
    "Wicked.C26_value_preserved"
   ],
   "note": ""
  },
  {
   "property": "C27",
   "status": "proved",
   "theorems": [
    "Wicked.C27_result_normal_ordered",
    "Wicked.C27_test_exact"
   ],
   "note": ""
  },
  {
   "property": "C28",
   "status": "proved",
   "theorems": [
    "Wicked.C28_terminates",
    "Wicked.C28_idempotent"
   ],
   "note": ""
  },
  {
   "property": "C29",
   "status": "proved",
   "theorems": [
    "Wicked.C29_vno_raises",
    "Wicked.C29_product_raises"
   ],
   "note": ""
  },
  {
   "property": "C30",
   "status": "proved",
   "theorems": [
    "Wicked.C30_value_of_product",
    "Wicked.C30_assoc",
    "Wicked.C30_distrib"
   ],
   "note": ""
  },
  {
   "property": "C31",
   "status": "proved",
   "theorems": [
    "Wicked.C31_value_of_adjoint",
    "Wicked.C31_involution"
   ],
   "note": ""
  },
  {
   "property": "C32",
   "status": "partial",
   "theorems": [
    "Wicked.C32_labels_merged",
    "Wicked.C32_merged_terms_differ",
    "Wicked.C32_distinct_partial"
   ],
   "note": "false of the code: == and < on terms ignore the normal-ordered label, so such terms are always merged (C32_labels_merged, for every operator string and tensors); proved: terms differing in operators or in tensor labels/indices stay distinct"
  },
  {
   "property": "C33",
   "status": "partial",
   "theorems": [
    "Wicked.C33_value_preserved_partial",
    "Wicked.C33_expression_partial",
    "Wicked.C33_capture"
   ],
   "note": "proved for every term all of whose operator indices occur in a tensor, and for expressions of such terms; false in general because an operator index that no tensor carries is not renamed and can be captured (C33_capture)"
  },
  {
   "property": "C34",
   "status": "partial",
   "theorems": [
    "Wicked.C34_no_ub_partial",
    "Wicked.C34_out_of_bounds"
   ],
   "note": "proved for terms with at most 64 index occurrences per space; with more the code writes outside a std::bitset<64> (C34_out_of_bounds)"
  },
  {
   "property": "C35",
   "status": "partial",
   "theorems": [
    "Wicked.C35_term_reindex_partial",
    "Wicked.C35_expression_reindex_wrong",
    "Wicked.C35_discarded_result_partial"
   ],
   "note": "false for Expression::reindex, which discards its result (C35_expression_reindex_wrong); proved for SymbolicTerm::reindex and for the local map that is dropped"
  },
  {
   "property": "C36",
   "status": "partial",
   "theorems": [
    "Wicked.C36_operator_expr_partial",
    "Wicked.C36_coefficient_ignored",
    "Wicked.C36_coefficient_witness"
   ],
   "note": "proved for coefficient 1 (C36_operator_expr_partial); for any other coefficient false: the coefficient argument is ignored (C36_coefficient_ignored, C36_coefficient_witness)"
  },
  {
   "property": "C37",
   "status": "proved",
   "theorems": [
    "Wicked.C37_diag_operator",
    "Wicked.C37_diag_operator_unregistered",
    "Wicked.C37_op_counts",
    "Wicked.C37_op_order",
    "Wicked.C37_op_reads"
   ],
   "note": ""
  },
  {
   "property": "C38",
   "status": "proved",
   "theorems": [
    "Wicked.C38_gen_op",
    "Wicked.C38_diagonal_kept"
   ],
   "note": ""
  },
  {
   "property": "C39",
   "status": "proved",
   "theorems": [
    "Wicked.C39_operator_factor"
   ],
   "note": ""
  },
  {
   "property": "C40",
   "status": "proved",
   "theorems": [
    "Wicked.C40_canonicalize_sound",
    "Wicked.C40_expression_value"
   ],
   "note": ""
  },
  {
   "property": "C41",
   "status": "partial",
   "theorems": [
    "Wicked.C41_irreducible",
    "Wicked.C41_normal_form_partial",
    "Wicked.C41_commuting_factors",
    "Wicked.C41_not_normal_form"
   ],
   "note": "False in general (C41_not_normal_form). Proved: the result is irreducible and canonicalize is idempotent; the canonical form is unique when exchangeability is compatible with the order (C41_normal_form_partial), in particular when all factors commute."
  },
  {
   "property": "C42",
   "status": "proved",
   "theorems": [
    "Wicked.C42_elementary_exact"
   ],
   "note": ""
  },
  {
   "property": "C43",
   "status": "partial",
   "theorems": [
    "Wicked.C43_composite_exact_partial",
    "Wicked.C43_small_products",
    "Wicked.C43_deep_fails",
    "Wicked.C43_buffer_overrun"
   ],
   "note": "exact when no composite contraction has more than 100 elementary ones (in particular up to 201 operators); otherwise the code overruns its buffer (C43_deep_fails, C43_buffer_overrun)"
  },
  {
   "property": "C44",
   "status": "proved",
   "theorems": [
    "Wicked.Wick.C44_rank_window_expr",
    "Wicked.Wick.C44_rank_window",
    "Wicked.Wick.C44_window_split",
    "Wicked.Wick.C44_empty_window"
   ],
   "note": ""
  },
  {
   "property": "C45",
   "status": "proved",
   "theorems": [
    "Wicked.Wick.C45_threads_eq_single",
    "Wicked.Wick.C45_contract",
    "Wicked.Wick.C45_terminates",
    "Wicked.Wick.C45_progress",
    "Wicked.Wick.C45_can_return"
   ],
   "note": ""
  },
  {
   "property": "C46",
   "status": "partial",
   "theorems": [
    "Wicked.Wick.C46_only_timers_race_partial",
    "Wicked.Wick.C46_single_task_partial",
    "Wicked.Wick.C46_data_race"
   ],
   "note": "false as stated: the unsynchronised timers are a data race whenever two tasks run (C46_data_race); proved: no schedule has any other race, and with one task there is none"
  },
  {
   "property": "C47",
   "status": "proved",
   "theorems": [
    "Wicked.Wick.C47_contract_scale",
    "Wicked.Wick.C47_contract_plus",
    "Wicked.Wick.C47_contract_terms"
   ],
   "note": ""
  },
  {
   "property": "C48",
   "status": "proved",
   "theorems": [
    "Wicked.Wick.C48_evaluate_ok",
    "Wicked.Wick.C48_contract_returns"
   ],
   "note": ""
  },
  {
   "property": "C49",
   "status": "proved",
   "theorems": [
    "Wicked.Wick.C49_one_tensor_per_operator",
    "Wicked.Wick.C49_index_bound",
    "Wicked.Wick.C49_tensors_determinant",
    "Wicked.Wick.C49_indices_pair",
    "Wicked.Wick.C49_indices_pair_expression"
   ],
   "note": ""
  },
  {
   "property": "C50",
   "status": "partial",
   "theorems": [
    "Wicked.Wick.C50_factor",
    "Wicked.Wick.C50_factor_counts_partial",
    "Wicked.Wick.C50_overcounts"
   ],
   "note": "C50_factor gives the exact value: the number of realisations times (m-1)! for every elementary contraction occurring m times; so the claim holds when no elementary contraction occurs more than twice (C50_factor_counts_partial) and is false from three equal ones on (C50_overcounts, 12 instead of 6): the code divides by m, not by m!"
  },
  {
   "property": "C51",
   "status": "proved",
   "theorems": [
    "Wicked.Wick.C51_permutation_accepted",
    "Wicked.Wick.C51_graph_sound"
   ],
   "note": ""
  },
  {
   "property": "C52",
   "status": "partial",
   "theorems": [
    "Wicked.Wick.C52_minimal_partial",
    "Wicked.Wick.C52_representative_partial",
    "Wicked.Wick.C52_tie_sign"
   ],
   "note": "minimality and uniqueness of the operators and contractions are proved; the last clause is false: C52_tie_sign gives two rearrangements that compare equal but carry opposite signs"
  },
  {
   "property": "C53",
   "status": "partial",
   "theorems": [
    "Wicked.Wick.C53_operator_product_partial",
    "Wicked.Wick.C53_operator_product_expr_partial",
    "Wicked.Wick.C53_vacuum_expectation_partial",
    "Wicked.Wick.C53_wick_weighted",
    "Wicked.Wick.C53_weights_one_iff",
    "Wicked.Wick.C53_wick_partial",
    "Wicked.Wick.C53_wick_expr_weighted",
    "Wicked.Wick.C53_wick_expr_partial",
    "Wicked.Wick.C53_three_body_doubled"
   ],
   "note": "C53_wick_weighted gives the exact value for every product: the Wick sum with every scheme weighted by prod (m-1)! over the multiplicities m of alike contractions (the weight comes from combinatorial_factor). All weights are one iff no three alike contractions are possible (C53_weights_one_iff); under that condition (NoTriples) Wick's theorem, equality with the operator product in every CAR algebra (C53_operator_product_partial) and with the vacuum expectation value (C53_vacuum_expectation_partial) are proved. Beyond it the property is false (C53_three_body_doubled)."
  },
  {
   "property": "C54",
   "status": "proved",
   "theorems": [
    "Wicked.C54_operator_constructor",
    "Wicked.C54_op"
   ],
   "note": ""
  },
  {
   "property": "C55",
   "status": "partial",
   "theorems": [
    "Wicked.C55_partition",
    "Wicked.C55_key_iff_partial",
    "Wicked.C55_bar_label_clash"
   ],
   "note": "the partition is proved for every expression over registered spaces; keys determine the operator counts when no space is labelled | (C55_key_iff_partial); with a space labelled | two different kinds of terms share a key (C55_bar_label_clash)"
  },
  {
   "property": "C56",
   "status": "proved",
   "theorems": [
    "Wicked.C56_einsum_letters"
   ],
   "note": ""
  },
  {
   "property": "C57",
   "status": "partial",
   "theorems": [
    "Wicked.C57_print_parse_partial",
    "Wicked.C57_digit_joins_label",
    "Wicked.C57_two_t"
   ],
   "note": "proved for every expression unless its first term has tensors and the coefficient 2..9 (C57_print_parse_partial); in that case false: the digit is printed against the label and parsed as a part of it (C57_digit_joins_label, C57_two_t)"
  },
  {
   "property": "C58",
   "status": "partial",
   "theorems": [
    "Wicked.C58_field_types_ignored",
    "Wicked.C58_boson_sign"
   ],
   "note": "The property is false of the code: contract never looks at the field types (C58_field_types_ignored) and bosonic operators get fermionic signs (C58_boson_sign)."
  },
  {
   "property": "C59",
   "status": "partial",
   "theorems": [
    "Wicked.C59_add2_self_partial",
    "Wicked.C59_add2_other",
    "Wicked.C59_add2_self_minus_one"
   ],
   "note": "proved for c != -1; for c = -1 the loop erases the element its iterator points to, undefined behaviour proved for every non-empty expression (C59_add2_self_minus_one)"
  },
  {
   "property": "C60",
   "status": "partial",
   "theorems": [
    "Wicked.C60_conjugates_equal",
    "Wicked.C60_conjugate_terms_cancel",
    "Wicked.C60_tensor_eq_partial"
   ],
   "note": "false of the code: every tensor is == to its conjugate and conjugate terms are merged (C60_conjugates_equal, C60_conjugate_terms_cancel); proved: == is exact on tensors with the same conjugation flag and symmetry"
  },
  {
   "property": "C61",
   "status": "partial",
   "theorems": [
    "Wicked.C61_einsum_computes_partial",
    "Wicked.C61_exact_factor",
    "Wicked.C61_exact_factor_iff",
    "Wicked.C61_rounded_factor",
    "Wicked.C61_contract_ready"
   ],
   "note": "C61_einsum_computes_partial: for every equation (indices registered, different on the left and all present on the right; all this holds for the equations of contract: C61_contract_ready) the text is an accepted numpy call that computes the contraction exactly. The literal in the text is the coefficient rounded to nine decimals, so the factor is exact only if the denominator divides 10^9 (C61_exact_factor) and is wrong for 1/3 (C61_rounded_factor)."
  },
  {
   "property": "C62",
   "status": "partial",
   "theorems": [
    "Wicked.C62_equations_value_partial",
    "Wicked.C62_contract_equations",
    "Wicked.C62_equations_of_product_partial",
    "Wicked.C62_order_lost"
   ],
   "note": "proved for every expression whose terms have the creation operators on the left (C62_equations_value_partial), which every result of contract has (C62_contract_equations), and joined with C53 to the operator product; for other terms false: the order, and with it the sign, is lost (C62_order_lost)"
  },
  {
   "property": "C63",
   "status": "proved",
   "theorems": [
    "Wicked.Wick.C63_settings",
    "Wicked.Wick.C63_reuse",
    "Wicked.Wick.C63_total",
    "Wicked.Wick.C63_histories"
   ],
   "note": ""
  },
  {
   "property": "C64",
   "status": "partial",
   "theorems": [
    "Wicked.C64_representative_partial",
    "Wicked.C64_idempotent_partial",
    "Wicked.C64_not_canonical",
    "Wicked.C64_not_idempotent"
   ],
   "note": "proved for every term whose tensors have pairwise different signatures (label, spaces, connections) and whose operator indices all occur in tensors (C64_representative_partial, C64_idempotent_partial); with indistinguishable tensors both claims are false (C64_not_canonical, C64_not_idempotent)"
  },
  {
   "property": "C65",
   "status": "partial",
   "theorems": [
    "Wicked.C65_summed_value_partial",
    "Wicked.C65_sum_lost"
   ],
   "note": "proved for all expressions in which no index occurs on a creation and an annihilation operator without occurring on a tensor (C65_summed_value_partial); otherwise false: the contraction of a(i) a+(i) is replaced by 1, and the sum over i is lost (C65_sum_lost)"
  },
  {
   "property": "C66",
   "status": "partial",
   "theorems": [
    "Wicked.C66_program_error",
    "Wicked.C66_ambit_computes_partial",
    "Wicked.C66_text_determines",
    "Wicked.C66_exact_factor_iff",
    "Wicked.C66_rounded_factor",
    "Wicked.C66_no_tensor",
    "Wicked.C66_operators_raise",
    "Wicked.C66_unknown_format"
   ],
   "note": "C66_ambit_computes_partial: for every equation (indices registered, different on the left and all present on the right) the line is an accepted ambit statement that computes the contraction exactly with the literal in the text. The literal is the coefficient rounded to six decimals (exact iff C66_exact_factor_iff; wrong for 1/3: C66_rounded_factor), and with no tensor on the right the text is malformed (C66_no_tensor). C66_program_error: the statements of all equations of a key, executed in order, give an array within 10^-6 times the sum of the absolute contractions of the exact one"
  },
  {
   "property": "C67",
   "status": "partial",
   "theorems": [
    "Wicked.C67_nonscalar_fails",
    "Wicked.C67_scalar_partial",
    "Wicked.C67_exact_factor_iff",
    "Wicked.C67_rounded_factor",
    "Wicked.C67_no_tensor",
    "Wicked.C67_program_error",
    "Wicked.C67_scalar_program",
    "Wicked.Wick.C67_expectation_program_partial",
    "Wicked.Wick.C67_reference_program_partial"
   ],
   "note": "C67_scalar_partial: for scalar left-hand sides the line computes the equation exactly with the literal in the text, and too few names raise an exception. Every equation with indices on the left raises an exception (C67_nonscalar_fails: utils.py calls upper() on a list); the literal is rounded to eight decimals (C67_exact_factor_iff, C67_rounded_factor); without tensors on the right numpy gets no operand (C67_no_tensor). C67_program_error: for all equations of an expression, key by key: an exception for every key but that of the scalars, and the lines of the scalar key, executed in order, give a number within 10^-8 times the sum of the absolute contractions of the exact one. C67_expectation_program_partial, C67_reference_program_partial: run on the full contractions of a product of operators, the program computes its expectation value with this error (under NoTriples, as C53 and C72)"
  },
  {
   "property": "C68",
   "status": "proved",
   "theorems": [
    "Wicked.Wick.C68_truncation",
    "Wicked.Wick.C68_truncation_expr",
    "Wicked.Wick.C68_large_enough"
   ],
   "note": ""
  },
  {
   "property": "C69",
   "status": "proved",
   "theorems": [
    "Wicked.Wick.C69_commutator_linked",
    "Wicked.Wick.C69_bch_linked",
    "Wicked.Wick.C69_commutator_connected",
    "Wicked.Wick.C69_bch_connected",
    "Wicked.Wick.C69_product_unlinked",
    "Wicked.Wick.C69_odd_unlinked",
    "Wicked.Wick.C69_pair_unlinked"
   ],
   "note": ""
  },
  {
   "property": "C70",
   "status": "proved",
   "theorems": [
    "Wicked.C70_latex_total",
    "Wicked.C70_latex_eq_iff",
    "Wicked.C70_shown_order",
    "Wicked.C70_expr_latex_eq_iff",
    "Wicked.C70_term_latex_eq_iff",
    "Wicked.C70_same_latex_equal",
    "Wicked.C70_greek_subscript_lost",
    "Wicked.C70_unit_scalar",
    "Wicked.C70_boson_symbol",
    "Wicked.C70_label_rejected",
    "Wicked.C70_expr_lines"
   ],
   "note": ""
  },
  {
   "property": "C71",
   "status": "proved",
   "theorems": [
    "Wicked.C71_printing_stable",
    "Wicked.C71_parsing_stable",
    "Wicked.C71_canonicalize_stable",
    "Wicked.C71_vacuum_normal_order_stable",
    "Wicked.C71_manybody_stable",
    "Wicked.C71_compile_stable",
    "Wicked.C71_op_stable",
    "Wicked.C71_gen_op_stable",
    "Wicked.C71_operator_expr_stable",
    "Wicked.C71_contract_stable",
    "Wicked.C71_operators_stable",
    "Wicked.C71_ninth_space_witness",
    "Wicked.C71_stale_label_witness"
   ],
   "note": ""
  },
  {
   "property": "C72",
   "status": "partial",
   "theorems": [
    "Wicked.C72_expectation_expr_partial",
    "Wicked.Wick.C72_generalized_product_partial",
    "Wicked.Wick.C72_generalized_product_expr_partial",
    "Wicked.Wick.C72_expectation_partial",
    "Wicked.Wick.C72_reference_exists",
    "Wicked.Wick.C72_gno_exists_unique",
    "Wicked.Wick.C72_gno_properties",
    "Wicked.Wick.C72_tensors_exist"
   ],
   "note": "Proved for products in which no three alike contractions are possible (NoTriples); otherwise the claim is false of the code: C53_three_body_doubled. Existence and uniqueness of cumulants, normal products and tensors are proved, so the hypotheses can be met for every number-conserving state."
  },
  {
   "property": "C73",
   "status": "proved",
   "theorems": [
    "Wicked.Wick.C73_commutator_vanishes",
    "Wicked.Wick.C73_bch_ends",
    "Wicked.Wick.C73_bound_sharp",
    "Wicked.Wick.C73_contracting_T_does_not_end"
   ],
   "note": ""
  },
  {
   "property": "C74",
   "status": "proved",
   "theorems": [
    "Wicked.Wick.C74_exchanged_products",
    "Wicked.Wick.C74_exchanged_returns",
    "Wicked.Wick.C74_canonicalize_contract",
    "Wicked.Wick.C74_contractible_do_not_exchange"
   ],
   "note": ""
  },
  {
   "property": "C75",
   "status": "proved",
   "theorems": [
    "Wicked.Wick.C75_contract_adjoint",
    "Wicked.Wick.C75_normal_products",
    "Wicked.Wick.C75_generalized_products",
    "Wicked.Wick.C75_reference_hermitian",
    "Wicked.Wick.C75_reference_tensors",
    "Wicked.Wick.C75_contract_adjoint_normal",
    "Wicked.Wick.C75_expectation",
    "Wicked.Wick.C75_hermitian_real"
   ],
   "note": ""
  },
  {
   "property": "C76",
   "status": "proved",
   "theorems": [
    "Wicked.C76_operator_roundtrip",
    "Wicked.C76_operator_injective",
    "Wicked.C76_expression_injective",
    "Wicked.C76_labels_with_braces"
   ],
   "note": ""
  },
  {
   "property": "C77",
   "status": "proved",
   "theorems": [
    "Wicked.C77_equation_roundtrip",
    "Wicked.C77_equation_injective",
    "Wicked.C77_term_roundtrip",
    "Wicked.C77_term_injective"
   ],
   "note": ""
  },
  {
   "property": "C78",
   "status": "partial",
   "theorems": [
    "Wicked.C78_program_rounded",
    "Wicked.C78_program_partial",
    "Wicked.C78_program_error",
    "Wicked.Wick.C78_contract_program_partial",
    "Wicked.Wick.C78_contract_rounded",
    "Wicked.Wick.C78_product_program_partial"
   ],
   "note": "proved for coefficients that are multiples of 10^-9 (the literals are printed with nine decimals, C61_rounded_factor shows that others are wrong) and, where the operators themselves are concerned, under NoTriples as in C53. For arbitrary coefficients C78_program_rounded / C78_contract_rounded give the exact result with the printed literals, and C78_program_error bounds the error of every array element by 10^-9 times the sum of the absolute values of the contractions."
  },
  {
   "property": "C79",
   "status": "partial",
   "theorems": [
    "Wicked.C79_field_type_names",
    "Wicked.C79_space_type_names",
    "Wicked.C79_add_space_by_name",
    "Wicked.C79_to_dict",
    "Wicked.C79_to_dict_python",
    "Wicked.C79_str_determines_partial",
    "Wicked.C79_str_ambiguous",
    "Wicked.C79_replay"
   ],
   "note": "everything but the injectivity of str is unconditional; str determines the registry only if no index name is empty or contains a comma or a closing bracket (C79_str_ambiguous shows that the hypothesis is needed)"
  },
  {
   "property": "C80",
   "status": "proved",
   "theorems": [
    "Wicked.C80_term_history",
    "Wicked.C80_coefficient_history",
    "Wicked.C80_expression_history",
    "Wicked.C80_order_irrelevant",
    "Wicked.C80_append_is_sum",
    "Wicked.C80_tensor_two_ways",
    "Wicked.C80_operator_of_index"
   ],
   "note": ""
  },
  {
   "property": "C81",
   "status": "proved",
   "theorems": [
    "Wicked.C81_two_two",
    "Wicked.C81_three_three",
    "Wicked.C81_aab",
    "Wicked.C81_abb",
    "Wicked.C81_changes_sign",
    "Wicked.C81_already",
    "Wicked.C81_upper",
    "Wicked.C81_lower",
    "Wicked.C81_operator_two_two",
    "Wicked.C81_operator_three_three",
    "Wicked.C81_operator_aab",
    "Wicked.C81_operator_abb",
    "Wicked.C81_zero_iff",
    "Wicked.C81_zero_iff_two_two",
    "Wicked.C81_zero_iff_three_three",
    "Wicked.C81_ordinary_product",
    "Wicked.C81_normal_product"
   ],
   "note": ""
  },
  {
   "property": "C82",
   "status": "partial",
   "theorems": [
    "Wicked.C82_generate_equation_rounded",
    "Wicked.C82_generate_equation_partial",
    "Wicked.C82_generate_equation_space_rounded",
    "Wicked.C82_generate_equation_space_partial",
    "Wicked.C82_index_blocks_partial",
    "Wicked.C82_missed_block"
   ],
   "note": "Full claim is false of the code: coefficients are printed with 9 decimals (C61_rounded_factor) and get_index_blocks finds only the first H block of a line (C82_missed_block). Proved for coefficients that are printed exactly, resp. for equations with at most one H. For arbitrary coefficients C82_generate_equation_rounded and C82_generate_equation_space_rounded give the result with the printed literals."
  },
  {
   "property": "C83",
   "status": "proved",
   "theorems": [
    "Wicked.C83_denominators",
    "Wicked.C83_denominators_spin",
    "Wicked.C83_rank_refused",
    "Wicked.C83_update",
    "Wicked.C83_update_spin",
    "Wicked.C83_fixed_point",
    "Wicked.C83_fixed_point_spin"
   ],
   "note": ""
  },
  {
   "property": "C84",
   "status": "partial",
   "theorems": [
    "Wicked.Wick.C84_equations_space_partial",
    "Wicked.Wick.C84_equations_partial",
    "Wicked.C84_projection",
    "Wicked.Wick.C84_window_partial",
    "Wicked.Wick.C84_program_partial",
    "Wicked.Wick.C84_two_two",
    "Wicked.Wick.C84_three_three",
    "Wicked.Wick.C84_one_one",
    "Wicked.Wick.C84_scalar",
    "Wicked.Wick.C84_aab",
    "Wicked.Wick.C84_abb",
    "Wicked.Wick.C84_residual_rounded_partial",
    "Wicked.Wick.C84_residual_partial",
    "Wicked.Wick.C84_residual_error_partial",
    "Wicked.Wick.C84_residual_space_rounded_partial",
    "Wicked.Wick.C84_residual_space_partial",
    "Wicked.Wick.C84_residual_space_error_partial"
   ],
   "note": "Full claim is false of the code: coefficients are printed with 9 decimals (C61_rounded_factor) and products with three alike contractions get a wrong combinatorial factor (C50). Proved for coefficients printed exactly and products without three alike contractions (NoTriples). For arbitrary coefficients C84_residual_rounded_partial and C84_residual_error_partial give the result with the printed literals and bound the error; C84_equations_partial and C84_equations_space_partial, about the equations instead of the generated functions, are exact for all coefficients."
  },
  {
   "property": "C85",
   "status": "partial",
   "theorems": [
    "Wicked.Wick.C85_similarity",
    "Wicked.Wick.C85_residual_partial",
    "Wicked.Wick.C85_residual_error_partial",
    "Wicked.Wick.C85_converged_partial",
    "Wicked.Wick.C85_residual_space_partial",
    "Wicked.Wick.C85_residual_space_error_partial",
    "Wicked.Wick.C85_converged_spin_partial"
   ],
   "note": "C85_similarity is complete. The program part is false of the code in full: coefficients are printed with 9 decimals (C61_rounded_factor) and Hamiltonians beyond two-body can have three alike contractions, which get a wrong combinatorial factor (C50). Proved for coefficients printed exactly and one- and two-body Hamiltonians; T of any rank. C85_residual_error_partial bounds the error for arbitrary coefficients."
  },
  {
   "property": "C86",
   "status": "partial",
   "theorems": [
    "Wicked.Wick.C86_exact_partial"
   ],
   "note": "Full claim is false of the code: coefficients are printed with 9 decimals (C61_rounded_factor) and Hamiltonians beyond two-body can have three alike contractions, which get a wrong combinatorial factor (C50). Proved for coefficients printed exactly and one- and two-body Hamiltonians; T of any rank."
  },
  {
   "property": "C87",
   "status": "partial",
   "theorems": [
    "Wicked.C87_symmetry_factor_partial",
    "Wicked.C87_wraps"
   ],
   "note": "Full claim is false of the code: the product is kept in a 32-bit int and wraps with thirteen indices of one space (C87_wraps). Proved for all tensors for which the number fits an int."
  },
  {
   "property": "C88",
   "status": "partial",
   "theorems": [
    "Wicked.C88_product_of_sums_partial",
    "Wicked.C88_normal_ordered_product_partial",
    "Wicked.C88_shared_indices"
   ],
   "note": "Full claim is false of the code: the product concatenates terms without renaming indices (C88_shared_indices). Proved for factors without a common index."
  },
  {
   "property": "C89",
   "status": "partial",
   "theorems": [
    "Wicked.C89_engines_agree_partial"
   ],
   "note": "Full claim is false of the code: three alike contractions get a wrong combinatorial factor in contract (C53_three_body_doubled). Proved for products without three alike contractions (NoTriples)."
  },
  {
   "property": "C90",
   "status": "proved",
   "theorems": [
    "Wicked.Wick.C90_conserved",
    "Wicked.Wick.C90_conserved_expr",
    "Wicked.Wick.C90_selection_rule",
    "Wicked.Wick.C90_charge",
    "Wicked.C90_vacuum_normal_ordered"
   ],
   "note": ""
  },
  {
   "property": "C91",
   "status": "proved",
   "theorems": [
    "Wicked.Wick.C91_labels_are_names",
    "Wicked.Wick.C91_labels_are_names_expr"
   ],
   "note": ""
  },
  {
   "property": "C92",
   "status": "proved",
   "theorems": [
    "Wicked.Wick.C92_space_order",
    "Wicked.Wick.C92_registration_order"
   ],
   "note": ""
  },
  {
   "property": "C93",
   "status": "partial",
   "theorems": [
    "Wicked.C93_gen_op",
    "Wicked.C93_program",
    "Wicked.C93_contract_partial",
    "Wicked.C93_generalized_partial",
    "Wicked.C93_partition_partial",
    "Wicked.C93_gen_op_diagonal",
    "Wicked.C93_returns"
   ],
   "note": "The meaning of gen_op and of programs is proved for all ranks (C93_gen_op, C93_gen_op_diagonal, C93_program). For the contraction the full claim is false of the code (C94_three_body_depends: three alike contractions get a wrong combinatorial factor, C50); the theorems on contract are for programs in which no operator of rank three or higher creates in a space in which another annihilates (one- and two-body operators, and excitations of any rank)."
  },
  {
   "property": "C94",
   "status": "partial",
   "theorems": [
    "Wicked.C94_normal_product",
    "Wicked.C94_vacuum_state",
    "Wicked.C94_vacuum_reference",
    "Wicked.C94_registries_partial",
    "Wicked.C94_determinant_partial",
    "Wicked.C94_expectation_partial",
    "Wicked.C94_full_contraction_partial",
    "Wicked.C94_three_body_depends"
   ],
   "note": "The full claim is false of the code: C94_three_body_depends gives a program with three-body operators whose full contraction changes by a factor of two when a core space is split off. Proved for programs in which no operator of rank three or higher creates in a space in which another annihilates (one- and two-body operators, and excitations of any rank). C94_normal_product, C94_vacuum_state and C94_vacuum_reference have no restriction."
  },
  {
   "property": "C95",
   "status": "partial",
   "theorems": [
    "Wicked.Wick.C95_equations_partial",
    "Wicked.Wick.C95_equations_division_partial",
    "Wicked.Wick.C95_residual_partial",
    "Wicked.Wick.C95_division_partial"
   ],
   "note": "Proved for programs in which no operator of rank three or higher creates in a space in which another annihilates (one- and two-body operators; coupled cluster with excitations of any rank), with tensors called H and T (as generate_equation requires); for other programs with rank three and more the claim is false of the code (C94_three_body_depends). As in C84: at most 52 different indices in a term and coefficients with at most nine decimals; C95_equations_partial and C95_equations_division_partial, about the equations instead of the generated functions, need neither the decimals nor the names H and T."
  },
  {
   "property": "C96",
   "status": "proved",
   "theorems": [
    "Wicked.Wick.C96_program",
    "Wicked.Wick.C96_notebook",
    "Wicked.Wick.C96_spin"
   ],
   "note": ""
  },
  {
   "property": "C97",
   "status": "proved",
   "theorems": [
    "Wicked.Wick.C97_function",
    "Wicked.Wick.C97_residual",
    "Wicked.Wick.C97_mp2"
   ],
   "note": ""
  },
  {
   "property": "C98",
   "status": "partial",
   "theorems": [
    "Wicked.Wick.C98_call_times",
    "Wicked.Wick.C98_same_result",
    "Wicked.Wick.C98_history",
    "Wicked.Wick.C98_threads_bounds_partial",
    "Wicked.Wick.C98_lost_update",
    "Wicked.Wick.C98_single_task_partial"
   ],
   "note": "Proved except for the exact sums with several threads, which is false of the code: the timers are not synchronised, and C98_lost_update gives a schedule that loses an arbitrarily large part of the measured time. Proved for all schedules: nothing is gained beyond the measured times and nothing lost of earlier ones (C98_threads_bounds_partial); exact with at most one contraction (C98_single_task_partial)."
  },
  {
   "property": "C99",
   "status": "proved",
   "theorems": [
    "Wicked.Wick.C99_keys",
    "Wicked.Wick.C99_spin"
   ],
   "note": ""
  },
  {
   "property": "C100",
   "status": "partial",
   "theorems": [
    "Wicked.Wick.C100_notebook",
    "Wicked.Wick.C100_converged_partial",
    "Wicked.Wick.C100_triples_not_tested"
   ],
   "note": "C100_notebook proves in full that the loops run and that every round is a step of the coupled-cluster iteration. Convergence is proved for the singles and doubles equations (C100_converged_partial). For the triples of the CCSDT notebook the claim is not true of the code: its test does not look at R[ooovvv] (C100_triples_not_tested). Arithmetic is exact; the error of the printed coefficients is bounded explicitly and absent if nine decimals are enough."
  },
  {
   "property": "C101",
   "status": "proved",
   "theorems": [
    "Wicked.Wick.C101_notebook"
   ],
   "note": ""
  },
  {
   "property": "C102",
   "status": "proved",
   "theorems": [
    "Wicked.Wick.C102_exact"
   ],
   "note": ""
  },
  {
   "property": "C103",
   "status": "proved",
   "theorems": [
    "Wicked.Wick.C103_complete"
   ],
   "note": ""
  }
 ]
}