{"claims":[
{"property": "C01", "status": "proved", "theorems": ["Verif.Props.C01_create_roundtrip", "Verif.Props.C01_call_injective", "Verif.Props.C01_coerce"], "note": "all widths and values"},
{"property": "C02", "status": "proved", "theorems": ["Verif.Props.C02_add_sub"], "note": "all widths"},
{"property": "C03", "status": "proved", "theorems": ["Verif.Props.C03_mul", "Verif.Props.C03_pow"], "note": "exponent below 2^64 as in the code's loop bound"},
{"property": "C04", "status": "proved", "theorems": ["Verif.Props.C04_comparisons"], "note": "all widths"},
{"property": "C05", "status": "proved", "theorems": ["Verif.Props.C05_bits_shifts"], "note": "all widths and shift amounts"},
{"property": "C06", "status": "proved", "theorems": ["Verif.Props.C06_bitwise", "Verif.Props.C06_sub_alt"], "note": "all widths"},
{"property": "C07", "status": "partial", "theorems": ["Verif.Props.C07_division_wrong", "Verif.Props.C07_divmod_partial", "Verif.Props.C07_divmod_small_quotient_partial", "Verif.Props.C07_divmod_by_zero"], "note": "The full claim is false of the code: rhat<<32 wraps in uint64 (C07_division_wrong gives a witness). Proved: single-limb divisors, and all inputs without a quotient digit >= 2^32-3."},
{"property": "C08", "status": "proved", "theorems": ["Verif.Props.C08_bit_size"], "note": "all widths"},
{"property": "C09", "status": "proved", "theorems": ["Verif.Props.C09_modinv_static", "Verif.Props.C09_modinv", "Verif.Props.C09_unique"], "note": "Arguments a >= 0, m > 1; Python integers."},
{"property": "C10", "status": "proved", "theorems": ["Verif.Props.C10_roundtrip", "Verif.Props.C10_roundtrip_traced", "Verif.Props.C10_product", "Verif.Props.C10_even_modulus_fails"], "note": "The round-trip covers QuantumModulus.encoder/decoder for every shift; for even moduli it fails (witness)."},
{"property": "C11", "status": "proved", "theorems": ["Verif.Props.C11_reduction"], "note": ""},
{"property": "C12", "status": "proved", "theorems": ["Verif.Props.C12_findShift"], "note": ""},
{"property": "C13", "status": "proved", "theorems": ["Verif.Props.C13_cuccaro_adder"], "note": "any register lengths"},
{"property": "C14", "status": "proved", "theorems": ["Verif.Props.C14_gidney_quantum", "Verif.Props.C14_gidney_classical", "Verif.Props.C14_traced_wide_addend_flips_carry"], "note": "Integer addends are clamped as in the code. C14_traced_wide_addend_flips_carry records that the unclamped traced path treats c_out as one more sum bit."},
{"property": "C15", "status": "proved", "theorems": ["Verif.Props.C15_increment_one", "Verif.Props.C15_increment", "Verif.Props.C15_lin_incr", "Verif.Props.C15_lin_incr_no_carry_is_identity"], "note": "Gate-level model of all four circuits; the identity theorem shows that the qcla callers passing c_in=None do not increment."},
{"property": "C16", "status": "proved", "theorems": ["Verif.Props.C16_mod_adder", "Verif.Props.C16_mod_subtract"], "note": "For any adder satisfying Adder.Correct; quantum operands must hold a residue."},
{"property": "C17", "status": "proved", "theorems": ["Verif.Props.C17_reduction", "Verif.Props.C17_cq_multiply", "Verif.Props.C17_cq_multiply_closed"], "note": "Any classical X, odd N >= 3, shift chosen by best_montgomery_shift(X, N), constants computed by the modelled helpers."},
{"property": "C18", "status": "proved", "theorems": ["Verif.Props.C18_qq_less_than", "Verif.Props.C18_cq_less_than", "Verif.Props.C18_qc_less_than", "Verif.Props.C18_derived_comparisons"], "note": "For any adder satisfying Adder.Correct, all classical integers."},
{"property": "C19", "status": "proved", "theorems": ["Verif.Props.C19_q_int_mult", "Verif.Props.C19_q_int_mult_signed", "Verif.Props.C19_q_int_mult_target", "Verif.Props.C19_inpl_q_int_mult", "Verif.Props.C19_jasp_multiplyer", "Verif.Props.C19_controlling_multiplyer", "Verif.Props.C19_squaring"], "note": "For every in-place adder that adds modulo a power of two."},
{"property": "C20", "status": "proved", "theorems": ["Verif.Props.C20_add", "Verif.Props.C20_control_add", "Verif.Props.C20_control_add_sub"], "note": "All sizes and basis states; control_add needs n >= 1 (the code indexes A[n-1])."},
{"property": "C21", "status": "proved", "theorems": ["Verif.Props.C21_inverse_after", "Verif.Props.C21_inverse_before", "Verif.Props.C21_inverse_wf"], "note": "all nestings of composite, controlled and phase tolerant operations; unitary operations only"},
{"property": "C22", "status": "partial", "theorems": ["Verif.Props.C22_transpile_partial", "Verif.Props.C22_transpile_full", "Verif.Props.C22_name_collision_wrong", "Verif.Props.C22_no_qubits_fails", "Verif.Props.C22_transpile_level_partial"], "note": "any level, predicate and interpretation of elementary operations; false when a qubit and a clbit of a definition share an identifier, and for circuits with clbits but no qubits (witnesses)"},
{"property": "C23", "status": "partial", "theorems": ["Verif.Props.C23_wellformed", "Verif.Props.C23_distinct_partial", "Verif.Props.C23_rejected_unchanged", "Verif.Props.C23_append_only_extends", "Verif.Props.C23_broadcast_partial_effect", "Verif.Props.C23_duplicate_qubit", "Verif.Props.C23_foreign_clbit", "Verif.Props.C23_broadcast_lengths", "Verif.Props.append_index"], "note": "accelerated mode off; distinctness needs identifiers to determine objects, a rejected broadcast keeps the instructions before the failing one (witnesses)"},
{"property": "C24", "status": "proved", "theorems": ["Verif.Props.C24_depth", "Verif.Props.depth_instruction"], "note": "integer weights; every counted instruction acts on a qubit of the circuit"},
{"property": "C25", "status": "partial", "theorems": ["Verif.Props.C25_control_partial", "Verif.Props.C25_gphase_wrong", "Verif.Props.C25_multi_y_wrong", "Verif.Props.C25_swap_name_wrong"], "note": "default method; multi_cx by its specification; phase synthesis proved (C46). False for controlled gphase with mixed control state, multi-controlled Y and composite gates named swap (witnesses)"},
{"property": "C26", "status": "partial", "theorems": ["Verif.Props.C26_convert_cx_partial", "Verif.Props.C26_convert_cz_partial", "Verif.Props.C26_total", "Verif.Props.C26_strict_basis", "Verif.Props.C26_ctrl_state_wrong"], "note": "Guard: two-qubit instructions named cx/cy/cz/swap are these gates. False otherwise: gates controlled on 0 carry the same name (witness)."},
{"property": "C27", "status": "proved", "theorems": ["Verif.Props.C27_combine"], "note": "The numerical identity test (norm < 1e-10) is idealised to recognise only the identity."},
{"property": "C28", "status": "partial", "theorems": ["Verif.Props.C28_commute_swaps_partial", "Verif.Props.C28_resolve_swaps", "Verif.Props.C28_resolve_swaps_statistics", "Verif.Props.C28_resolve_swaps_total", "Verif.Props.C28_arrange_swaps_partial", "Verif.Props.C28_commute_swaps_wrong", "Verif.Props.C28_arrange_swaps_wrong"], "note": "commute_swaps false for measurements whose bit is used later (witness); arrange_swaps drops gates with alloc in the name (witness)."},
{"property": "C29", "status": "partial", "theorems": ["Verif.Props.C29_cancel_zero_partial", "Verif.Props.C29_sublist", "Verif.Props.C29_ctrl_state_wrong", "Verif.Props.diagonal_table"], "note": "Guard: operations do what their names say, phase tolerant operations are trivial for unsatisfied controls, allocated qubits are zero. False for cz/cp controlled on 0 (witness)."},
{"property": "C30", "status": "proved", "theorems": ["Verif.Props.C30_run", "Verif.Props.C30_calls", "Verif.Props.C30_verify", "Verif.Props.C30_init", "Verif.Props.pass_rejected"], "note": ""},
{"property": "C31", "status": "proved", "theorems": ["Verif.Props.C31_mul"], "note": "All terms, all key set orders."},
{"property": "C32", "status": "proved", "theorems": ["Verif.Props.C32_commute", "Verif.Props.C32_commute_qw", "Verif.Props.C32_commute_pauli"], "note": "Both directions for commute and commute_qw."},
{"property": "C33", "status": "proved", "theorems": ["Verif.Props.C33_eval", "Verif.Props.C33_eval_ladder"], "note": "Outcome as natural number; more than 128 qubits are not partitioned in the model."},
{"property": "C34", "status": "proved", "theorems": ["Verif.Props.C34_images", "Verif.Props.C34_car", "Verif.Props.C34_adjoint"], "note": ""},
{"property": "C35", "status": "partial", "theorems": ["Verif.Props.C35_sort_partial", "Verif.Props.C35_sort_nonzero", "Verif.Props.C35_triple_wrong"], "note": "False when a mode occurs three times (sign wrongly 0); proved when every mode occurs at most twice, and whenever the sign is not 0."},
{"property": "C36", "status": "proved", "theorems": ["Verif.Props.C36_own_result", "Verif.Props.C36_dispatch", "Verif.Props.C36_queue", "Verif.Props.C36_run", "Verif.Props.C36_short_result_lost"], "note": "For backends honouring the contract of returning one result per circuit. C36_short_result_lost shows what happens otherwise: no error, placeholder stays unpopulated."},
{"property": "C37", "status": "partial", "theorems": ["Verif.Props.C37_decoded", "Verif.Props.C37_int_keyed", "Verif.Props.C37_multi_partial", "Verif.Props.C37_extra_bit_wrong", "Verif.Props.int_key_value"], "note": "Decoded and int-keyed results proved in full. Multi-variable results proved when labels are injective and all bits are read; otherwise a probability is overwritten (witness)."},
{"property": "C38", "status": "proved", "theorems": ["Verif.Props.C38_atomic", "Verif.Props.C38_history"], "note": ""},
{"property": "C39", "status": "partial", "theorems": ["Verif.Props.C39_round_trip_partial", "Verif.Props.C39_injective_partial", "Verif.Props.C39_rejects", "Verif.Props.C39_large_wrong", "Verif.Props.C39_unrepresentable_accepted", "Verif.Props.C39_round_towards_zero"], "note": "Up to 53 mantissa bits; false for larger sizes because of float64 (witness). Range rejection holds for all sizes. In-range values off the grid are accepted and rounded towards zero (witness)."},
{"property": "C40", "status": "partial", "theorems": ["Verif.Props.C40_history_partial", "Verif.Props.C40_slice_reversed_wrong", "Verif.Props.C40_slice_start_wrong", "Verif.Props.C40_clear_wrong", "Verif.Props.C40_pop_empty_wrong"], "note": "All histories of append, prepend, pop, extend, indexing and in-order slices. False for clear, reversed or out of range slices, pop on empty (witnesses)."},
{"property": "C41", "status": "partial", "theorems": ["Verif.Props.C41_cuccaro_controlled_partial", "Verif.Props.C41_cuccaro_control_leaks_carry"], "note": "False of the code when a carry-out is given: line 155 is not controlled (witness). Proved without carry-out."},
{"property": "C42", "status": "partial", "theorems": ["Verif.Props.C42_gidney_controlled_bits_partial", "Verif.Props.C42_gidney_control_phase"], "note": "Bits are proved; the phase claim is false of the code (witness): Gidney ANDs target qubits that may be 1."},
{"property": "C43", "status": "partial", "theorems": ["Verif.Props.C43_inplace_partial", "Verif.Props.C43_inplace_closed_partial", "Verif.Props.C43_library_shift_partial", "Verif.Props.C43_small_shift_leaves_garbage"], "note": "False in general: witness N=259, X=3, y=85. Proved whenever the register length is at most 2^m, hence for every invertible X in [n, N) with the library's shift."},
{"property": "C44", "status": "partial", "theorems": ["Verif.Props.C44_qq_multiply_partial", "Verif.Props.C44_qq_reduced_partial", "Verif.Props.C44_not_reduced"], "note": "Congruence and clean-up hold always; reducedness fails for N=21, x=y=20 (register holds 25). Reduced whenever x*y < 2^m*N."},
{"property": "C45", "status": "proved", "theorems": ["Verif.Props.C45_isqrt"], "note": "Exponent 0 only (the code raises otherwise)."},
{"property": "C46", "status": "partial", "theorems": ["Verif.Props.C46_gray_partial", "Verif.Props.C46_gray_pt_partial", "Verif.Props.C46_gray_two_qubits", "Verif.Props.C46_fwht", "Verif.Props.C46_parity7_wrong"], "note": "correct when the smallest parity needed per most significant bit has at most two ones (always for n <= 2 and for the phases used by controlled gates); false otherwise (witness)"},
{"property": "C47", "status": "proved", "theorems": ["Verif.Props.C47_unitary"], "note": "Real arithmetic instead of floating point; numpy dtype effects (real matrices with determinant -1 give nan) are not modelled."},
{"property": "C48", "status": "partial", "theorems": ["Verif.Props.C48_layout_partial", "Verif.Props.C48_rejects_partial", "Verif.Props.C48_second_layout_fails"], "note": "Guard: no qubit is named amended_qb_k. False otherwise: a second layout with gaps is rejected (witness)."},
{"property": "C49", "status": "proved", "theorems": ["Verif.Props.C49_add", "Verif.Props.C49_sub", "Verif.Props.C49_rsub", "Verif.Props.C49_mul", "Verif.Props.C49_exact", "Verif.Props.C49_adjoint"], "note": "adjoint: for terms without an explicit identity factor. X(), Y(), ..., products, from_matrix and the fermionic images never create one (checked by reading all QubitTerm constructions); a hand-written QubitTerm({0: 'I'}) is excluded."},
{"property": "C50", "status": "partial", "theorems": ["Verif.Props.C50_elim_partial", "Verif.Props.C50_elim_sym", "Verif.Props.C50_imaginary_lost"], "note": "False for imaginary coefficients of ladder terms (witness); proved for real coefficients."},
{"property": "C51", "status": "proved", "theorems": ["Verif.Props.C51_term_ops"], "note": ""},
{"property": "C52", "status": "proved", "theorems": ["Verif.Props.C52_truncate"], "note": "Conversion to int64 is modelled as unbounded; exponent range of float64 not modelled."},
{"property": "C53", "status": "proved", "theorems": ["Verif.Props.C53_sound", "Verif.Props.C53_complete"], "note": "Order finding is an arbitrary function; find_optimal_a sorts by an arbitrary cost."},
{"property": "C54", "status": "partial", "theorems": ["Verif.Props.C54_extract", "Verif.Props.C54_candidates", "Verif.Props.C54_extract_succeeds", "Verif.Props.C54_find_order_partial", "Verif.Props.C54_find_order_odd_partial", "Verif.Props.C54_find_order_wrong"], "note": "extract_order is correct for the a it is given; find_order passes the repeatedly squared a, so its result need not be an exponent of a (witness)."},
{"property": "C55", "status": "proved", "theorems": ["Verif.Props.C55_rsa"], "note": ""},
{"property": "C56", "status": "partial", "theorems": ["Verif.Props.C56_string_partial", "Verif.Props.C56_trailing_nul"], "note": "The exact result is the message followed by a computed number of NUL characters; the plain round trip is false (witness)."},
{"property": "C57", "status": "proved", "theorems": ["Verif.Props.C57_order", "Verif.Props.C57_commute", "Verif.Props.C57_matrix", "Verif.Props.C57_once", "Verif.Props.C57_acyclic", "Verif.Props.C57_total", "Verif.Props.C57_cif"], "note": "Effect preserved for every interpretation and for matrices. Classically conditioned operations on two or more qubits raise KeyError (C57_cif)."},
{"property": "C58", "status": "proved", "theorems": ["Verif.Props.C58_parallelize", "Verif.Props.C58_allocations", "Verif.Props.C58_late", "Verif.Props.C58_total"], "note": "Costs are an arbitrary choice function, hash values an arbitrary order. The dense variant of the ancestor and sort helpers is modelled, the sparse one is not."},
{"property": "C59", "status": "proved", "theorems": ["Verif.Props.C59_split", "Verif.Props.C59_prob"], "note": "Instruction identity is part of the label; circuits without measurements, as in the only caller."},
{"property": "C60", "status": "proved", "theorems": ["Verif.Props.C60_state", "Verif.Props.C60_width"], "note": "Without recompilation of mcx and mid circuit measurement gates."},
{"property": "C61", "status": "proved", "theorems": ["Verif.Props.C61_jasp_balauca_mcx", "Verif.Props.C61_jasp_balauca_mcp"], "note": "Phases of gray_pt gates arbitrary; the logical AND (gidney) as a basis-state gate needing target 0, justified by C67_gidney."},
{"property": "C62", "status": "proved", "theorems": ["Verif.Props.C62_khattar_mcp"], "note": "gidney_CCCX for three controls enters as exact gate, justified by C67_gidney_CCCX."},
{"property": "C63", "status": "partial", "theorems": ["Verif.Props.C63_khattar_mcx_partial", "Verif.Props.C63_khattar_mcx_basis", "Verif.Props.C63_khattar_four_phase"], "note": "Exact except for four controls, where the code leaves a relative phase; the phase is computed exactly by C63_khattar_four_phase."},
{"property": "C64", "status": "proved", "theorems": ["Verif.Props.C64_hybrid_mcx"], "note": "num_dirty_ancilla = 0."},
{"property": "C65", "status": "partial", "theorems": ["Verif.Props.C65_balauca_mcp_partial", "Verif.Props.C65_balauca_mcp_one"], "note": "With one control the code applies no phase (C65_balauca_mcp_one); two or more controls are right."},
{"property": "C66", "status": "proved", "theorems": ["Verif.Props.C66_yong_mcx"], "note": "gray mcx with two controls enters as exact gate, justified by C67_toffoli."},
{"property": "C67", "status": "proved", "theorems": ["Verif.Props.C67_toffoli", "Verif.Props.C67_margolus", "Verif.Props.C67_maslov", "Verif.Props.C67_gidney", "Verif.Props.C67_gidney_inv", "Verif.Props.C67_amy", "Verif.Props.C67_gidney_CCCX"], "note": "Kernel computation over the complete table of local basis states, lifted to all layouts and amplitude functions."},
{"property": "C68", "status": "partial", "theorems": ["Verif.Props.C68_jones_partial", "Verif.Props.C68_jones_not_toffoli"], "note": "The circuit is Toffoli times CZ on the controls: s(3) should be s_dg(3)."},
{"property": "C69", "status": "proved", "theorems": ["Verif.Props.C69_qft", "Verif.Props.C69_qft_endian", "Verif.Props.C69_qft_inverse", "Verif.Props.C69_qft_even", "Verif.Props.C69_qft_tracing", "Verif.Props.C69_qft_tracing_inverse", "Verif.Props.C69_qft_tracing_mult_negation"], "note": "QFT_inner without GMS and adder support. Angles are exact rationals of a turn. Finding: tracing mode ignores inplace_mult and qiskit_endian."},
{"property": "C70", "status": "proved", "theorems": ["Verif.Props.C70_fourier_adder_classical", "Verif.Props.C70_fourier_adder", "Verif.Props.C70_fourier_adder_size"], "note": "Exact angles."},
{"property": "C71", "status": "proved", "theorems": ["Verif.Props.C71_jasp_fourier_adder_classical", "Verif.Props.C71_jasp_fourier_adder"], "note": "Exact angles."},
{"property": "C72", "status": "proved", "theorems": ["Verif.Props.C72_qpe", "Verif.Props.C72_qpe_iter_spec", "Verif.Props.C72_qpe_tracing", "Verif.Props.C72_qpe_exact", "Verif.Props.C72_qpe_probability"], "note": "U is any operator on amplitudes commuting with functions of the register."},
{"property": "C73", "status": "partial", "theorems": ["Verif.Props.C73_iqpe_partial", "Verif.Props.C73_iqpe_negation"], "note": "False of the code: the powers of U are 2^precision..2, so IQPE returns the fractional part of 2*theta. The negation is proved; the partial theorem says what is returned."},
{"property": "C74", "status": "proved", "theorems": ["Verif.Props.C74_reflection", "Verif.Props.C74_reflection_indices"], "note": "mcx and mcp with ctrl_state 0 are taken by their specification (see C61-C67)."},
{"property": "C75", "status": "proved", "theorems": ["Verif.Props.C75_amplitude_amplification", "Verif.Props.C75_unitary"], "note": "The oracle is a phase oracle (multiplies amplitudes by 1 or -1)."},
{"property": "C76", "status": "proved", "theorems": ["Verif.Props.C76_polynomial_encoder", "Verif.Props.C76_encoder_raises"], "note": "Exact rationals instead of floats; relative phases of the phase tolerant controls are arbitrary non-zero functions."},
{"property": "C77", "status": "partial", "theorems": ["Verif.Props.C77_inplace", "Verif.Props.C77_inplace_number", "Verif.Props.C77_finer_operand_fails"], "note": "Proved if the resolution of x covers that of y; false for a signed y of finer resolution (witness). Classical mode only."},
{"property": "C78", "status": "proved", "theorems": ["Verif.Props.C78_add", "Verif.Props.C78_sub", "Verif.Props.C78_mul"], "note": "Multiplication by the polynomial method (sbp_mult); hybrid_mult is not modelled."},
{"property": "C79", "status": "proved", "theorems": ["Verif.Props.C79_cyclic_shift", "Verif.Props.C79_cyclic_shift_tracing", "Verif.Props.C79_shift_back", "Verif.Props.C79_empty"], "note": "Element swaps are one step."},
{"property": "C80", "status": "proved", "theorems": ["Verif.Props.C80_permute"], "note": "Element swaps are one step."},
{"property": "C81", "status": "partial", "theorems": ["Verif.Props.C81_demux_partial", "Verif.Props.C81_more_outputs_fails", "Verif.Props.C81_mismatch_raises"], "note": "Proved if there are at most as many outputs as index values; false otherwise (witness). Relative phases of ctrl_method='gray_pt' are not modelled."},
{"property": "C82", "status": "partial", "theorems": ["Verif.Props.C82_deref_partial", "Verif.Props.C82_shape_unchecked", "Verif.Props.C82_raises"], "note": "Proved for index sizes matching the dimensions; false otherwise (witness)."},
{"property": "C83", "status": "partial", "theorems": ["Verif.Props.C83_imul_signed_partial", "Verif.Props.C83_imul_unsigned_partial", "Verif.Props.C83_imul_modular", "Verif.Props.C83_imul_raises", "Verif.Props.C83_unsigned_fails"], "note": "Signed floats: exact except for the smallest number times a negative power of two (which keeps its sign). Unsigned floats with a factor that is not a power of two: right exactly if the top qubit is 0; the full statement is false (C83_unsigned_fails: 5 in three qubits times 3)."},
{"property": "C84", "status": "proved", "theorems": ["Verif.Props.C84_compare"], "note": "Static mode; numbers are rational (no float rounding)."},
{"property": "C85", "status": "partial", "theorems": ["Verif.Props.C85_equal_partial", "Verif.Props.C85_equal_signed", "Verif.Props.C85_equal_wrong", "Verif.Props.C85_equal_number"], "note": "Right for the formats EqOk and for numbers; false for two signed floats whose signs have different significance and for a float ending below an unsigned one (C85_equal_wrong)."},
{"property": "C86", "status": "partial", "theorems": ["Verif.Props.C86_thapliyal_partial", "Verif.Props.C86_one_qubit_wrong", "Verif.Props.C86_raises"], "note": "Lists of at least two qubits; with one qubit each the carry of the code is wrong."},
{"property": "C87", "status": "partial", "theorems": ["Verif.Props.C87_inpl_add_partial", "Verif.Props.C87_inpl_add_exact_partial", "Verif.Props.C87_two_qubits_wrong", "Verif.Props.C87_one_qubit_raises", "Verif.Props.C87_disjoint_raises", "Verif.Props.C87_signed_overflow_wrong", "Verif.Props.C87_signed_into_unsigned_raises"], "note": "Formats in which at least three qubits of the target take part; smaller ones and ignored overflow of signed targets are wrong in the code."},
{"property": "C88", "status": "partial", "theorems": ["Verif.Props.C88_int_div_partial", "Verif.Props.C88_int_div_floor_partial", "Verif.Props.C88_divmod_partial", "Verif.Props.C88_int_div_raises", "Verif.Props.C88_short_numerator_wrong"], "note": "Numerators that reach the lowest digit of the divisor; shorter ones give a wrong result in the code. Fresh qubits in state 0; q_div and qf_inversion (which uncompute the remainder with hybrid_mult) are not modelled."},
{"property": "C89", "status": "proved", "theorems": ["Verif.Props.C89_tree", "Verif.Props.C89_sequential", "Verif.Props.C89_parallel", "Verif.Props.C89_list", "Verif.Props.C89_inverse", "Verif.Props.C89_second_call_raises"], "note": "Branches act on the operands only (not on the index register). A list with an odd number of branches is changed by the call, so a second call with it raises unless there is one operand."},
{"property": "C90", "status": "proved", "theorems": ["Verif.Props.C90_lcu", "Verif.Props.C90_lcu_exact", "Verif.Props.C90_one_unitary_raises"], "note": "Without oblivious amplitude amplification. A single unitary raises."},
{"property": "C91", "status": "proved", "theorems": ["Verif.Props.C91_rzz", "Verif.Props.C91_rxx", "Verif.Props.C91_xxyy"], "note": "Exact real angles."},
{"property": "C92", "status": "proved", "theorems": ["Verif.Props.C92_w_state", "Verif.Props.C92_raises"], "note": "Exact real arithmetic; static mode for the raises. Tails between 0 and 1e-15 of the norm are excluded by hypothesis."},
{"property": "C93", "status": "proved", "theorems": ["Verif.Props.C93_dicke"], "note": "Exact real angles, 1 <= k <= n. The controlled rotations are single controlled operations."},
{"property": "C94", "status": "proved", "theorems": ["Verif.Props.C94_prepare", "Verif.Props.C94_raises", "Verif.Props.C94_bit_reverse", "Verif.Props.C94_swap_endianness", "Verif.Props.C94_swap_twice"], "note": "Exact arithmetic over the reals and complex numbers. q_switch enters as selection by the index (C89). Static mode."},
{"property": "C95", "status": "proved", "theorems": ["Verif.Props.C95_simulate", "Verif.Props.C95_eigenvalue", "Verif.Props.C95_traced_wrong", "Verif.Props.C95_leak"], "note": "Static mode proved; tracing mode refuted for P0 factors (its logical AND ignores the control state)."},
{"property": "C96", "status": "proved", "theorems": ["Verif.Props.C96_matrix", "Verif.Props.C96_states", "Verif.Props.C96_overlap_raises", "Verif.Props.C96_assert"], "note": "Default method commuting_qw; exact matrices."},
{"property": "C97", "status": "proved", "theorems": ["Verif.Props.C97_step", "Verif.Props.C97_groups_sum", "Verif.Props.C97_first_order", "Verif.Props.C97_second_order", "Verif.Props.C97_limit", "Verif.Props.C97_exact", "Verif.Props.C97_hermitian"], "note": "Method commuting_qw, static mode, no control; exact real angles."},
{"property": "C98", "status": "proved", "theorems": ["Verif.Props.C98_coloring", "Verif.Props.C98_groups", "Verif.Props.C98_insertion", "Verif.Props.C98_sum", "Verif.Props.C98_qw_insertion"], "note": "Colouring and grouping for all graphs, relations and term lists."},
{"property": "C99", "status": "proved", "theorems": ["Verif.Props.C99_exact", "Verif.Props.C99_iterations", "Verif.Props.C99_default", "Verif.Props.C99_overshoot", "Verif.Props.C99_missing", "Verif.Props.C99_tag", "Verif.Props.C99_tag_range"], "note": "Exact real arithmetic; the oracle multiplies the winner states by the phase. tag_state in static mode."},
{"property": "C100", "status": "proved", "theorems": ["Verif.Props.block_encoding_expr", "Verif.Props.block_encoding_add_zero", "Verif.Props.block_encoding_kron"], "note": "Matrices over the complex numbers; real scalars; floating point is exact; prepare by its ry matrix."},
{"property": "C101", "status": "proved", "theorems": ["Verif.Props.qubitization_powers", "Verif.Props.qubitization_flag_witness", "Verif.Props.qubitization_no_ancilla_witness"], "note": "For encodings with at least one ancilla or a Hermitian flag; negations proved for the flag of the result and for encodings without ancillas."},
{"property": "C102", "status": "proved", "theorems": ["Verif.Props.chebyshev_svt", "Verif.Props.chebyshev_hermitian", "Verif.Props.chebyshev_one_witness"], "note": "rescale=False only; k = 1 keeps alpha (witness)."},
{"property": "C103", "status": "proved", "theorems": ["Verif.Props.rus_success", "Verif.Props.expectation_value_eq"], "note": "Exact probabilities instead of sampling."},
{"property": "C104", "status": "proved", "theorems": ["Verif.Props.gqsp_applies", "Verif.Props.gqsp_real", "Verif.Props.gqsp_without_conjugate", "Verif.Props.gqsp_complex_witness", "Verif.Props.completion_exists", "Verif.Props.completion_exists_parity"], "note": "Matrices over C of any dimension; layer stripping by an invariant on the unit circle. The completion (FFT) and the maximum are hypotheses: any q with |q|^2+|p|^2=1 and positive constant term. For polynomials that are not real the thresholds 1e-10 of the angle formulas must not round (hypothesis Sharp). False for general complex polynomials (gqsp_complex_witness: _inlft conjugates the coefficients of q); gqsp_without_conjugate: without that conjugate all complex polynomials would be right. Completions exist for every real polynomial (completion_exists)."},
{"property": "C105", "status": "proved", "theorems": ["Verif.Props.poly2cheb_spec", "Verif.Props.cheb2poly_spec", "Verif.Props.cheb_roundtrip", "Verif.Props.rescale_spec"], "note": "Real arithmetic; linalg.solve is the inverse of the (invertible) triangular matrix."},
{"property": "C106", "status": "proved", "theorems": ["Verif.Props.gqet_encodes", "Verif.Props.gqet_hermitian", "Verif.Props.completion_exists", "Verif.Props.completion_exists_parity"], "note": "completion and maximum are parameters Completions exist for every real polynomial (completion_exists)."},
{"property": "C107", "status": "proved", "theorems": ["Verif.Props.hamsim_encodes", "Verif.Props.completion_exists", "Verif.Props.completion_exists_parity"], "note": "exact statement about the truncated series the code uses; distance to exp(-iHt) not part of the claim; no layer coefficient non-zero below 1e-10 Completions exist for every real polynomial (completion_exists)."},
{"property": "C108", "status": "proved", "theorems": ["Verif.Props.qet_even", "Verif.Props.qet_odd", "Verif.Props.qet_hermitian", "Verif.Props.qet_trailing_witness", "Verif.Props.qet_small_witness", "Verif.Props.completion_exists", "Verif.Props.completion_exists_parity"], "note": "guards stated in the property; the excluded inputs are the two findings Completions exist for every real polynomial (completion_exists)."},
{"property": "C109", "status": "proved", "theorems": ["Verif.Props.qsvt_even", "Verif.Props.qsvt_odd", "Verif.Props.qsvt_valid", "Verif.Props.odd_singular", "Verif.Props.even_singular", "Verif.Props.qsvt_constant_witness", "Verif.Props.completion_exists", "Verif.Props.completion_exists_parity"], "note": "Even parity for arrays of length at least 3; the constant polynomial is a finding with a witness. Completion and maximum are parameters as in C104. Completions exist for every real polynomial (completion_exists)."},
{"property": "C110", "status": "proved", "theorems": ["Verif.Props.gqsvt_even", "Verif.Props.gqsvt_odd", "Verif.Props.gqsvt_valid", "Verif.Props.odd_singular", "Verif.Props.completion_exists", "Verif.Props.completion_exists_parity"], "note": "Real coefficients. Completions exist for every real polynomial (completion_exists)."},
{"property": "C111", "status": "proved", "theorems": ["Verif.Props.inversion_error", "Verif.Props.inversion_valid", "Verif.Props.inversion_enc", "Verif.Props.inversion_coarse_witness", "Verif.Props.invComp_exists"], "note": "Bound 2 eps/alpha; the documented bound eps has a counterexample for coarse eps. The completions exist for all inputs (invComp_exists)."},
{"property": "C112", "status": "partial", "theorems": ["Verif.Props.pseudo_inversion_encodes", "Verif.Props.pseudo_inversion_witness"], "note": "The documented property is false (witness); what is encoded is proved for every polynomial. The filter polynomial of _pseudo_inversion_cheb is not modelled."},
{"property": "C113", "status": "proved", "theorems": ["Verif.Props.unary_prep_state", "Verif.Props.cks_combination", "Verif.Props.cks_encodes", "Verif.Props.cks_params_ok", "Verif.Props.cks_error", "Verif.Props.cks_nan", "Verif.Props.cks_nan_witness"], "note": "Exact reals; reflection and control as in C103. For kappa = 1 and eps at most 1/100 the angles are NaN (cks_nan_witness): a finding."},
{"property": "C114", "status": "proved", "theorems": ["Verif.Props.from_lcu_encodes", "Verif.Props.from_lcu_single", "Verif.Props.from_lcu_negative_witness", "Verif.Props.from_lcu_flag_witness"], "note": "State preparation is any map with the property of C94. Findings: a negative coefficient of a single unitary gives negative alpha; the documented rule for is_hermitian is wrong for coefficients that are not non-negative."},
{"property": "C115", "status": "proved", "theorems": ["Verif.Props.from_projector_encodes", "Verif.Props.eyeMap_spec", "Verif.Props.from_eye_encodes"], "note": "Preparations are unitary matrices; the in-place subtraction and the comparison are the classical maps of C08/C27-style theorems."},
{"property": "C116", "status": "proved", "theorems": ["Verif.Props.from_operator_encodes", "Verif.Props.from_array_encodes", "Verif.Props.from_array_exact", "Verif.Props.from_array_small_witness"], "note": "With the threshold of the operator arithmetic as an explicit error bound; finding: a matrix with all entries below 1e-9 is encoded as zero with alpha = 0 (from_array_small_witness)."},
{"property": "C117", "status": "proved", "theorems": ["Verif.Props.C117_maxcut", "Verif.Props.C117_qubo", "Verif.Props.C117_e3lin2", "Verif.Props.C117_maxsat", "Verif.Props.C117_colour_binary", "Verif.Props.C117_colour_onehot", "Verif.Props.C117_rz", "Verif.Props.C117_sb_polynomial", "Verif.Props.C117_polynomial"], "note": "Self loops / repeated indices in a clause are excluded (the gates would act twice on a qubit). Collecting terms of the MaxSat and phase polynomials is a parameter that keeps values. The sign of the E3Lin2 and MaxSat phase is opposite to MaxCut and QUBO."},
{"property": "C118", "status": "partial", "theorems": ["Verif.Props.C118_maxcut", "Verif.Props.C118_maxcut_tracing", "Verif.Props.C118_maxcut_limit", "Verif.Props.C118_maxsat", "Verif.Props.C118_e3lin2", "Verif.Props.C118_colour", "Verif.Props.C118_mis", "Verif.Props.C118_cover_partial", "Verif.Props.C118_cover_fails"], "note": "Set cover: the penalty of infeasible outcomes is not weighted with the probability (C118_cover_fails); partial: distributions of covers. MaxCut only up to 32 qubits (C118_maxcut_limit)."},
{"property": "C119", "status": "partial", "theorems": ["Verif.Props.C119_mis", "Verif.Props.C119_clique", "Verif.Props.C119_packing", "Verif.Props.C119_colouring", "Verif.Props.C119_xxyy", "Verif.Props.C119_xy_weight", "Verif.Props.C119_cover_partial", "Verif.Props.C119_cover_fails", "Verif.Props.C119_layers"], "note": "Proved for independent set, clique, set packing and colouring. Set cover: the mixer leaves the covers if an element lies in only one set, since mcx without controls does nothing (C119_cover_fails); partial: every element in at least two sets."},
{"property": "C120", "status": "partial", "theorems": ["Verif.Props.C120_portfolio_partial", "Verif.Props.C120_portfolio_fails", "Verif.Props.C120_phase"], "note": "False: ^ is xor in Python and the variance terms add rz gates (C120_portfolio_fails). Partial: no trading costs and no variances."},
{"property": "C121", "status": "partial", "theorems": ["Verif.Props.C121_venting_adder_partial", "Verif.Props.C121_venting_adder_bits", "Verif.Props.C121_control_fails", "Verif.Props.C121_carry_out_value", "Verif.Props.C121_carry_out_fails"], "note": "proved without control, with control 1, or with a carry in; signs are wrong for control 0 without carry in, and c_out receives the carry into bit n-2 (both shown)"},
{"property": "C122", "status": "partial", "theorems": ["Verif.Props.C122_unitary_partial", "Verif.Props.C122_circuit_partial", "Verif.Props.C122_rules", "Verif.Props.C122_ctrl_state_wrong", "Verif.Props.C122_tolerance_wrong"], "note": "The full claim is false: gates controlled on 0 share the names of the ordinary ones, and the inverse check has a tolerance of 1e-4 (both shown). Proved for circuits whose names are used as in the library and with an exact comparison, for every depth of recursion and every topological order."},
{"property": "C123", "status": "partial", "theorems": ["Verif.Props.C123_quantum", "Verif.Props.C123_quantum_reversed", "Verif.Props.C123_index_error", "Verif.Props.C123_classical", "Verif.Props.C123_integer", "Verif.Props.C123_classical_reversed_partial", "Verif.Props.C123_zero_block", "Verif.Props.C123_radix_one", "Verif.Props.C123_jones_sign"], "note": "Proved for the default (t_depth_reduction=True) with quantum and classical addends, all sizes and radices. For t_depth_reduction=False proved when the quantum addend reaches the last block or the first block of the classical addend is not zero; otherwise false of the code (C123_index_error, C123_zero_block). Radix 1 with t_depth_reduction=False is false for classical addends (C123_radix_one)."},
{"property": "C124", "status": "partial", "theorems": ["Verif.Props.C124_pprm", "Verif.Props.C124_gray_pt", "Verif.Props.C124_gray_one_partial", "Verif.Props.C124_gray_many_partial", "Verif.Props.C124_gray_phase_wrong", "Verif.Props.C124_gray_parity_wrong", "Verif.Props.C124_dict_table", "Verif.Props.C124_dict", "Verif.Props.C124_dict_tuple_label", "Verif.Props.C124_dict_fits"], "note": "pprm and pprm_pt exact for every table; gray_pt with several columns correct for every table up to phases; gray with one column exact under the parity condition of C46 and false for the parity of three bits; gray with several columns computes the table with a wrong relative phase (residual phases act on the bit-reversed input); dictionaries proved for pprm; a single key whose labels are tuples raises"},
{"property": "C125", "status": "partial", "theorems": ["Verif.Props.C125_uncomputed_partial", "Verif.Props.C125_clean_partial", "Verif.Props.C125_function_partial", "Verif.Props.C125_attempts", "Verif.Props.C125_example", "Verif.Props.C125_raise", "Verif.Props.C125_mixed_circuit", "Verif.Props.C125_mixed", "Verif.Props.C125_example_nomix", "Verif.Props.C125_order"], "note": "False in general: add_edge keeps the type of an existing edge, so a gate joined to its predecessor by a Z and another qubit is silently not uncomputed (C125_mixed: cx(a,x); cx(x,a)). Proved under the hypothesis that no edge carries two types (NoMix), for all labelled circuits, sets and topological orders. Not modelled: recompute_qubits, clbit-controlled gates, value layers."},
{"property": "C126", "status": "partial", "theorems": ["Verif.Props.C126_nested_partial", "Verif.Props.C126_controlled_partial", "Verif.Props.C126_example", "Verif.Props.C126_example_wf", "Verif.Props.C126_example_undo", "Verif.Props.C126_inverted", "Verif.Props.C126_flipped", "Verif.Props.C126_condition", "Verif.Props.C126_phase", "Verif.Props.C126_rz", "Verif.Props.C126_not_full", "Verif.Props.C126_wf_user", "Verif.Props.C126_example_conj", "Verif.Props.C126_example_conj_wf", "Verif.Props.C126_conjugation"], "note": "The full statement (C126_full) is refuted by C126_not_full. C126_nested_partial proves it for programs in which nested environments are not inverted and not flipped, phases and nested conditions occur in environments executed for the value one, no rz acts on truth values, and conditions are not in invert inside of environments (the last restriction is one of the proof only). Conjugations are covered except in nested environments with one control qubit and control state 0, where C126_conjugation shows that their body is never executed."},
{"property": "C127", "status": "partial", "theorems": ["Verif.Props.sim_group_partial", "Verif.Props.sim_group_condition_lost"], "note": "Proved for circuits whose conditional instructions act on one qubit; false otherwise (witness)."},
{"property": "C128", "status": "proved", "theorems": ["Verif.Props.sim_reorder", "Verif.Props.sim_topological"], "note": "For every assignment of positions that networkx.topological_sort may return."},
{"property": "C129", "status": "partial", "theorems": ["Verif.Props.sim_measure_partial", "Verif.Props.sim_reset_lost", "Verif.Props.sim_reset_early", "Verif.Props.sim_clbit_twice"], "note": "Proved under conditions on resets and on classical bits; witnesses show that the claim is false without them."},
{"property": "C130", "status": "partial", "theorems": ["Verif.Props.sim_run_partial"], "note": "Proved for circuits with single-qubit conditional instructions, resets only at the end of a qubit, no reset of measured qubits, classical bits measured once; exact numbers."},
{"property": "C131", "status": "partial", "theorems": ["Verif.Props.jasp_invert_partial", "Verif.Props.jasp_invert_measure", "Verif.Props.jasp_invert_carry", "Verif.Props.jasp_invert_reset", "Verif.Props.jasp_invert_result"], "note": "Proved for all nested programs without resets whose quantum calls have no used results and whose loops carry only the index; measurements are always rejected. Missing: the code does not have the property otherwise, see the three negative theorems."},
{"property": "C132", "status": "partial", "theorems": ["Verif.Props.jasp_control", "Verif.Props.jasp_multi_control_partial", "Verif.Props.jasp_control_reset"], "note": "Control proved for all programs; measurements and resets are not rejected and executed regardless of the control (jasp_control_reset)."},
{"property": "C133", "status": "partial", "theorems": ["Verif.Props.jasp_ctrl_state", "Verif.Props.jasp_ctrl_state_agree", "Verif.Props.jasp_ctrl_state_differ"], "note": "The claim is false: the orders are opposite; they agree exactly for palindromic states."},
{"property": "C134", "status": "partial", "theorems": ["Verif.Props.count_ops_partial", "Verif.Props.metric_guarded", "Verif.Props.metric_slice_wrong", "Verif.Props.metric_fuse_error", "Verif.Props.metric_outcome_bit", "Verif.Props.metric_keys"], "note": "Proved for all programs whose executions use non-negative ordered slice bounds and concatenate arrays only (sizeGuard). Otherwise the code is wrong: metric_slice_wrong, metric_fuse_error."},
{"property": "C135", "status": "partial", "theorems": ["Verif.Props.num_qubits_partial", "Verif.Props.metric_const", "Verif.Props.metric_loop_never_ends", "Verif.Props.metric_slice_wrong", "Verif.Props.metric_fuse_error"], "note": "Proved for the same programs, with the outcomes numbered anew in every call, branch and iteration, as the code does; for constant outcomes this makes no difference (metric_const), else it does (metric_loop_never_ends)."},
{"property": "C136", "status": "partial", "theorems": ["Verif.Props.depth_partial", "Verif.Props.metric_const", "Verif.Props.metric_loop_never_ends", "Verif.Props.metric_depth_negative_index"], "note": "Proved for executions with at most max_qubits qubits and without negative indices of single qubits; negative indices of dynamic arrays address a wrong qubit (metric_depth_negative_index)."},
{"property": "C137", "status": "partial", "theorems": ["Verif.Props.boolean_simulation_partial", "Verif.Props.boolean_guarded", "Verif.Props.boolean_size", "Verif.Props.boolean_truncated", "Verif.Props.boolean_reset_array", "Verif.Props.boolean_slice_negative", "Verif.Props.boolean_aliased", "Verif.Props.boolean_rejects_cp"], "note": "All programs; missing: variables with more than bit_array_padding/64 qubits, more than bit_array_padding qubits, reset of whole variables, slices with decreasing bounds, controlled phases - false of the code, shown by the other theorems; parity and callbacks are not modelled."},
{"property": "C138", "status": "partial", "theorems": ["Verif.Props.jrange_loop_partial", "Verif.Props.jrange_swap", "Verif.Props.jrange_rule_none", "Verif.Props.jrange_gate", "Verif.Props.jrange_verify_params", "Verif.Props.jrange_start", "Verif.Props.jrange_merge", "Verif.Props.jrange_external"], "note": "proved when used names have different variables and are unchanged or computed in the iteration; a number that takes the old value of another one is never updated, gates are not compared, equal variables are rejected"},
{"property": "C139", "status": "partial", "theorems": ["Verif.Props.session_merged", "Verif.Props.session_circuit", "Verif.Props.session_qubit_order", "Verif.Props.session_instruction", "Verif.Props.session_qubits", "Verif.Props.session_variables", "Verif.Props.session_names", "Verif.Props.session_identifiers", "Verif.Props.session_error", "Verif.Props.session_rename", "Verif.Props.session_create", "Verif.Props.session_deleted", "Verif.Props.session_user_name_partial", "Verif.Props.session_user_name", "Verif.Props.session_duplicate"], "note": "All parts are proved for all programs except that names given by the user are kept: session_user_name_partial needs that equally named variables of the other session were created later; session_user_name shows a name given by the user that is changed, session_duplicate a name ending with * that counts as given by the user. Environments, classical bits, backends and names inferred from the source code are not modelled."},
{"property": "C140", "status": "proved", "theorems": ["Verif.Props.array_history", "Verif.Props.array_history_sparse", "Verif.Props.array_lazy"], "note": "exact for entries of a commutative ring; axes are natural numbers; threads are not modelled"},
{"property": "C141", "status": "proved", "theorems": ["Verif.Props.array_tensordot", "Verif.Props.array_tensordot_size", "Verif.Props.array_outer", "Verif.Props.array_sparse_product"], "note": "np.matmul and the scipy product are taken as exact matrix products; the estimates are an arbitrary choice"},
{"property": "C142", "status": "proved", "theorems": ["Verif.Props.state_history", "Verif.Props.state_complex"], "note": "Over any field with conjugation and square roots of norms; the assumptions are proved for the complex numbers. Entries are exact, so thresholds are tests for zero."},
{"property": "C143", "status": "proved", "theorems": ["Verif.Props.state_multi"], "note": "For every state reached by a valid sequence of operations."},
{"property": "C144", "status": "proved", "theorems": ["Verif.Props.state_born", "Verif.Props.state_measure", "Verif.Props.state_repeat"], "note": ""},
{"property": "C145", "status": "partial", "theorems": ["Verif.Props.extract_post_partial", "Verif.Props.extract_slice_wrong", "Verif.Props.extract_fuse_error", "Verif.Props.extract_const_wrong", "Verif.Props.extract_convert"], "note": "Programs over any classical functions, by a simulation between two interpretations of eval_jaxpr. Missing (false of the code): constants of calls, odd slices and fuses. Not modelled: scan, arrays of classical values."},
{"property": "C146", "status": "partial", "theorems": ["Verif.Props.extract_circuit_partial", "Verif.Props.extract_gate_dropped", "Verif.Props.extract_while_wrong", "Verif.Props.extract_parity_wrong"], "note": "Simulation between execution and construction, the world is a renaming of qubits and the values of bits. Missing (false of the code): the cases noted by odd and lost."},
{"property": "C147", "status": "partial", "theorems": ["Verif.Props.extract_key_partial", "Verif.Props.extract_nested_wrong"], "note": "Composition of the two simulations. Missing (false of the code): measurements under conditions."},
{"property": "C148", "status": "proved", "theorems": ["Verif.Props.iqae_fits", "Verif.Props.iqae_inside", "Verif.Props.iqae_accurate", "Verif.Props.iqae_width"], "note": "real numbers instead of floating point numbers"},
{"property": "C149", "status": "proved", "theorems": ["Verif.Props.iqae_terminates", "Verif.Props.iqae_iterations", "Verif.Props.iqae_budget", "Verif.Props.iqae_shots", "Verif.Props.iqae_constant"], "note": "real numbers instead of floating point numbers"},
{"property": "C150", "status": "proved", "theorems": ["Verif.Props.iqae_probability", "Verif.Props.iqae_sampler", "Verif.Props.iqae_step"], "note": "shots are independent with the probability of the amplified state (iqae_step, by C75)"},
{"property": "C151", "status": "proved", "theorems": ["Verif.Props.sampling_split", "Verif.Props.sampling_ev"], "note": "drawing the indices and the exact probabilities of outcomes are C143's; rational numbers instead of floats"},
{"property": "C152", "status": "partial", "theorems": ["Verif.Props.sampling_array_partial", "Verif.Props.sampling_dict_partial", "Verif.Props.sampling_probabilities_partial", "Verif.Props.sampling_array_wrong", "Verif.Props.sampling_dict_wrong", "Verif.Props.sampling_post_ignored", "Verif.Props.sampling_post_wrong", "Verif.Props.sampling_no_shots"], "note": "Missing (false of the code): values that several outcomes share (counts are overwritten); post-processor of sample called from Python"},
{"property": "C153", "status": "partial", "theorems": ["Verif.Props.prx_sign", "Verif.Props.prx_exact_partial", "Verif.Props.prx_controlled_partial", "Verif.Props.prx_only", "Verif.Props.prx_gate_def", "Verif.Props.prx_gate_inverse", "Verif.Props.prx_x_wrong", "Verif.Props.prx_controlled_error"], "note": "Exact up to the sign -1 for each gate whose dropped rotation is the negative identity (X and Y among them, prx_x_wrong); exact for all other circuits. Classically controlled gates: same action up to a phase if the pass does not fail; it fails for classically controlled single rotations (prx_controlled_error)."},
{"property": "C154", "status": "partial", "theorems": ["Verif.Props.collect_exact_partial", "Verif.Props.collect_phase", "Verif.Props.collect_one", "Verif.Props.collect_lost", "Verif.Props.gray_phase"], "note": "Collecting is exact if some instruction on a qubit is not a global phase, otherwise the phase is lost (collect_lost). The Gray circuit is the Toffoli gate times the phase pi/8, for every control state and in every circuit."},
{"property": "C155", "status": "partial", "theorems": ["Verif.Props.qiro_find_max", "Verif.Props.qiro_mis_feasible", "Verif.Props.qiro_mis_mixer", "Verif.Props.qiro_pack", "Verif.Props.qiro_init_state", "Verif.Props.qiro_mis_keeps_partial", "Verif.Props.qiro_mis_negative_pair_wrong"], "note": "Feasibility, mixer, find_max and set packing are proved in full; a round keeps the sets that agree with the correlation except for negative pairs, where the code is wrong."},
{"property": "C156", "status": "partial", "theorems": ["Verif.Props.qiro_clique_feasible_partial", "Verif.Props.qiro_clique_positive_pair_wrong", "Verif.Props.qiro_clique_zero_pair_wrong", "Verif.Props.qiro_clique_repeats_wrong"], "note": "Proved if the neighbours of the first node of a positive pair are neighbours of the second; false otherwise."},
{"property": "C157", "status": "partial", "theorems": ["Verif.Props.qiro_sat_count", "Verif.Props.qiro_sat_skipped_wrong", "Verif.Props.qiro_sat_init_wrong", "Verif.Props.qiro_sat_find_wrong"], "note": "The count of satisfied clauses is proved in full; the statements about the reduced problem and the initial state are false of the code."},
{"property": "C158", "status": "proved", "theorems": ["Verif.Props.qae_distribution", "Verif.Props.qae_exact", "Verif.Props.qae_estimate", "Verif.Props.qae_most_likely", "Verif.Props.counting_qae", "Verif.Props.counting_estimate", "Verif.Props.counting_most_likely", "Verif.Props.counting_rounded"], "note": "Model: Verif/Fourier/QAE.lean on top of the models of QPE, amplitude amplification and the diffuser. The oracle multiplies good states by -1; it does not touch the result register. Real arithmetic instead of floats."},
{"property": "C159", "status": "partial", "theorems": ["Verif.Props.qmci_distribution", "Verif.Props.qmci_riemann", "Verif.Props.qmci_exact", "Verif.Props.qmci_rounding", "Verif.Props.qmci_accuracy", "Verif.Props.qmci_mean", "Verif.Props.qmci_twice_wrong"], "note": "Unsigned registers. The numerical claims are proved. Not true of the code: QMCI appends a QuantumBool to the list of the caller, so that a second call with the same list fails (qmci_twice_wrong)."},
{"property": "C160", "status": "partial", "theorems": ["Verif.Props.ferm_coefficients", "Verif.Props.ferm_arithmetic", "Verif.Props.ferm_hermitize", "Verif.Props.ferm_to_qubit", "Verif.Props.ferm_from_openfermion", "Verif.Props.ferm_qubit_amount", "Verif.Props.ferm_reduce", "Verif.Props.ferm_reduce_hermitian_partial", "Verif.Props.ferm_reduce_hermitian_wrong", "Verif.Props.ferm_eq_partial", "Verif.Props.ferm_eq_wrong"], "note": "Arithmetic, conversions and reduce() proved. reduce(assume_hermitian=True) proved for real coefficients, refuted for complex ones. == proved sound if no term is compared with the adjoint, refuted in general."},
{"property": "C161", "status": "partial", "theorems": ["Verif.Props.ferm_unipolars", "Verif.Props.ferm_swap_conjugation", "Verif.Props.ferm_swap_permutation", "Verif.Props.ferm_match_partial", "Verif.Props.ferm_no_strings_partial", "Verif.Props.ferm_match_wrong"], "note": "Unipolars and the conjugation proved for all groups and permutations. Matching and absence of Z proved for groups without two odd terms on the same modes, refuted for groups with them."},
{"property": "C162", "status": "partial", "theorems": ["Verif.Props.qrange_runs_partial", "Verif.Props.qrange_bound_wrong", "Verif.Props.qrange_reduce_wrong", "Verif.Props.qrange_copy_wrong", "Verif.Props.qrange_negative_wrong"], "note": "Passes proved for all non-negative bounds. Restoring the bound and clearing the index refuted for every bound; negative bounds refuted with the passes that do run."},
{"property": "C163", "status": "partial", "theorems": ["Verif.Props.round_floor_partial", "Verif.Props.round_floor_wrong", "Verif.Props.round_ceil", "Verif.Props.round_nearest", "Verif.Props.round_fractional", "Verif.Props.round_modf_partial", "Verif.Props.round_modf_wrong"], "note": "Proved for exponents <= 0, signed and unsigned, all sizes. q_floor refuted for positive exponents, q_modf refuted for all negative values with a fraction."},
{"property": "C164", "status": "partial", "theorems": ["Verif.Props.max_value_partial", "Verif.Props.min_value_partial", "Verif.Props.max_signed_wrong"], "note": "Proved for overlapping or touching mantissas if the selected value is not negative or the mantissas end at the same significance; refuted for all other negative selections. Shapes with a gap not modelled."},
{"property": "C165", "status": "partial", "theorems": ["Verif.Props.qubo_cost", "Verif.Props.qubo_library_partial", "Verif.Props.qubo_ten_wrong", "Verif.Props.qubo_ratio_le_one", "Verif.Props.qubo_ten_ratio_wrong", "Verif.Props.qubo_success"], "note": "Entries for 3 to 9 variables correct over all bit strings; the entry for 10 is wrong (witness). Ratio at most 1 for every measurement with a correct entry. Exact numbers instead of floats. Success probability of a correct entry stated in general."},
{"property": "C166", "status": "partial", "theorems": ["Verif.Props.tree_node_round_trip", "Verif.Props.tree_subtree_node", "Verif.Props.tree_diffuser_sign", "Verif.Props.tree_phi_partial", "Verif.Props.tree_subtree_phi_raises", "Verif.Props.tree_subtree_phi_wrong", "Verif.Props.tree_copy_partial", "Verif.Props.tree_copy_wrong"], "note": "Round trip and diffuser signs for all trees and subtrees; init_phi and copy only for trees, false for subtrees. psi_prep and phase estimation not modelled."},
{"property": "C167", "status": "proved", "theorems": ["Verif.Props.search_sound", "Verif.Props.search_complete", "Verif.Props.search_exact", "Verif.Props.search_none_unreliable"], "note": "Soundness for any measurement; completeness under the stated hypothesis on the measurement, which is part of the property."},
{"property": "C168", "status": "partial", "theorems": ["Verif.Props.stim_convert_partial", "Verif.Props.stim_counts_partial", "Verif.Props.stim_detectors_partial", "Verif.Props.stim_control_zero_wrong", "Verif.Props.stim_empty_detector_wrong", "Verif.Props.stim_handle_wrong"], "note": "Holds without classical control on 0; detectors also need nonempty lists of distinct bits. Control on 0, cancelling detectors and handles on re-measured bits are false of the code (witnesses). Noise gates not modelled."},
{"property": "C169", "status": "partial", "theorems": ["Verif.Props.job_iqm", "Verif.Props.job_aqt", "Verif.Props.job_qiskit_partial", "Verif.Props.job_returns_partial", "Verif.Props.job_qiskit_none_wrong", "Verif.Props.job_iqm_final_wrong"], "note": "IQM and AQT for all histories; Qiskit only if DONE is not seen before the first result, otherwise result() returns None (proved for all such histories). Finality of the status is false for IQM (witness). Concurrency and counts conversion not modelled."}
]}
