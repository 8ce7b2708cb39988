{"claims": [
 {"property": "C01", "status": "proved", "theorems": ["PyQ.C01_string_roundtrip", "PyQ.C01_binary_roundtrip"], "note": ""},
 {"property": "C02", "status": "proved", "theorems": ["PyQ.C02_string_errors", "PyQ.C02_binary_errors"], "note": ""},
 {"property": "C03", "status": "proved", "theorems": ["PyQ.C03_inner_prod_decides_commutation", "PyQ.C03_errors"], "note": ""},
 {"property": "C04", "status": "proved", "theorems": ["PyQ.C04_pauli_matrix_entries", "PyQ.C04_pauli_matrix_algebra", "PyQ.C04_errors"], "note": ""},
 {"property": "C05", "status": "proved", "theorems": ["PyQ.C05_array_accepted", "PyQ.C05_strings_accepted", "PyQ.C05_array_wrong_shape", "PyQ.C05_empty_or_ragged", "PyQ.C05_array_anticommuting", "PyQ.C05_strings_anticommuting"], "note": ""},
 {"property": "C06", "status": "proved", "theorems": ["PyQ.C06_normal_form_same_group"], "note": "no assumption on the generators beyond a successful construction"},
 {"property": "C07", "status": "proved", "theorems": ["PyQ.C07_normal_form_shape", "PyQ.C07_accepted_shape"], "note": ""},
 {"property": "C08", "status": "proved", "theorems": ["PyQ.C08_logical_operators", "PyQ.C08_shapes"], "note": ""},
 {"property": "C09", "status": "partial", "theorems": ["PyQ.C09_relabelled_partial", "PyQ.C09_same_group_partial", "PyQ.C09_refuted"], "note": "false of the code when the elimination moves qubits; refuted by the code generated by IXX"},
 {"property": "C10", "status": "partial", "theorems": ["PyQ.C10_array_accepted_iff_partial", "PyQ.C10_strings_accepted_iff_partial", "PyQ.C10_refuted"], "note": "exact characterisation proved: accepted iff the X half has equal rational and mod-2 rank; the unrestricted claim is refuted"},
 {"property": "C100", "status": "proved", "theorems": ["PyQ.C100_equivalent", "PyQ.C100_detects_iff", "PyQ.C100_erasures", "PyQ.C100_five_qubits"], "note": "Generators with an even number of Ys (C13: otherwise the rows of the normal form need not fix the encoded states)."},
 {"property": "C101", "status": "proved", "theorems": ["PyQ.C101_singleton", "PyQ.C101_corrects", "PyQ.C101_disjoint", "PyQ.C101_five_qubits"], "note": "The quantum Singleton bound for the codes of the library."},
 {"property": "C102", "status": "proved", "theorems": ["PyQ.C102_coherent", "PyQ.C102_open_bits", "PyQ.C102_perfect", "PyQ.C102_effective", "PyQ.C102_phase_flip"], "note": "The entropy cut-off of the library is accounted for in the bounds."},
 {"property": "C103", "status": "proved", "theorems": ["PyQ.C103_concave"], "note": "up to the entropy cut-off"},
 {"property": "C104", "status": "proved", "theorems": ["PyQ.C104_subadditive", "PyQ.C104_regularized"], "note": "up to the entropy cut-off"},
 {"property": "C105", "status": "proved", "theorems": ["PyQ.C105_useless"], "note": "up to the entropy cut-off"},
 {"property": "C106", "status": "proved", "theorems": ["PyQ.C106_phase", "PyQ.C106_bit", "PyQ.C106_erasure_one", "PyQ.C106_erasure", "PyQ.C106_erasure_half", "PyQ.C106_damping_one", "PyQ.C106_damping", "PyQ.C106_damping_half", "PyQ.C106_search_phase", "PyQ.C106_search_bit", "PyQ.C106_search_erasure", "PyQ.C106_search_damping"], "note": "up to the entropy cut-off; the search under the contract that differential evolution comes within delta of the minimum of its objective"},
 {"property": "C107", "status": "proved", "theorems": ["PyQ.C107_dephrasure", "PyQ.dephrasureInfo_test"], "note": "The published formula for all parameters and numbers of uses; dephrasureInfo_test identifies it with the expression in the test file."},
 {"property": "C108", "status": "proved", "theorems": ["PyQ.C108_bit", "PyQ.C108_phase", "PyQ.C108_damping", "PyQ.C108_search", "PyQ.C108_depolarizing", "PyQ.C108_depolarizing_search"], "note": "Lower bound for every pure state of n qubits, attained by a named state; value reported by the search."},
 {"property": "C109", "status": "partial", "theorems": ["PyQ.C109_bitflip_partial", "PyQ.C109_bitflip_refuted", "PyQ.C109_serial_refuted", "PyQ.C109_adjoint_refuted", "PyQ.C109_fidelity_refuted", "PyQ.C109_logical", "PyQ.C109_recipe_refuted", "PyQ.C109_dephasing_refuted"], "note": "True of the logical-operator example (every code) and of the bit-flip example once the operators carry square roots; the operators shown, chan2 + chan1, the adjoint, the minimum fidelity and the error correction of the READMEs are refuted."},
 {"property": "C11", "status": "proved", "theorems": ["PyQ.C11_encoding_closed_form", "PyQ.C139_closed_form"], "note": "default logical operators, independent 0/1 generators; register of n qubits in |0..0> C139_closed_form: the same without independence."},
 {"property": "C110", "status": "partial", "theorems": ["PyQ.C110_entropy", "PyQ.C110_coherent", "PyQ.C110_vanishes", "PyQ.C110_lipschitz_refuted"], "note": "The modulus of continuity is proved for every channel, number of uses and history; the Lipschitz claim of chan/README.md line 227 is false for every constant, by two states on either side of the cut-off at 1e-10."},
 {"property": "C111", "status": "proved", "theorems": ["PyQ.C111_design", "PyQ.C111_exists", "PyQ.C111_sharp", "PyQ.C111_diamond_refuted"], "note": "For every register, epsilon, tester's system, state and measurement; C111_exists gives the circuits and the uniform distribution; C111_sharp gives states that reach epsilon (1 - 1/(2^N-1)); C111_diamond_refuted refutes the stronger reading epsilon/2."},
 {"property": "C112", "status": "proved", "theorems": ["PyQ.C112_undone_iff", "PyQ.C112_uses", "PyQ.C112_no_cloning"], "note": "For exactly trace preserving operators and inputs of positive dimension; a dense object without orthogonal operators list or a sparse object, as for C45."},
 {"property": "C113", "status": "proved", "theorems": ["PyQ.C113_state", "PyQ.C113_ensemble", "PyQ.C113_identity", "PyQ.C113_decoder"], "note": "Exactly trace preserving channels; the average for Choi objects (the Kraus version is broken, C31); the decoder for real operators (C46)."},
 {"property": "C114", "status": "proved", "theorems": ["PyQ.C114_transposed", "PyQ.C114_measure", "PyQ.C114_pauli", "PyQ.C114_depolarizing", "PyQ.C114_no_transpose", "PyQ.C114_choi"], "note": "The cut-off contributes at most 4e-9 per operator of the n uses, as in C105."},
 {"property": "C115", "status": "proved", "theorems": ["PyQ.C115_table", "PyQ.C115_number", "PyQ.C115_full_table", "PyQ.C115_apart", "PyQ.C115_hamming", "PyQ.C115_five_qubits"], "note": "even numbers of Y's, as for C73; the five qubit code meets the Hamming bound with equality"},
 {"property": "C116", "status": "proved", "theorems": ["PyQ.C116_best", "PyQ.C116_exists", "PyQ.C116_likely"], "note": "even numbers of Y's, as for C73"},
 {"property": "C117", "status": "proved", "theorems": ["PyQ.C117_conditions", "PyQ.C117_pauli", "PyQ.C117_combinations", "PyQ.C117_table", "PyQ.C117_phase_flip"], "note": "Knill-Laflamme conditions for the encoder of the code; Pauli noise; equivalence with tables of corrections."},
 {"property": "C118", "status": "partial", "theorems": ["PyQ.C33_choi_channel", "PyQ.C118_more_outputs_refuted", "PyQ.C118_half_refuted", "PyQ.C118_inputs_refuted", "PyQ.C118_mixed_refuted", "PyQ.C118_fewer_outputs_refuted", "PyQ.C118_partial_trace_refuted"], "note": "False of the code unless N = M (C33_choi_channel is the positive part): channel keeps the particles M..2M-1 of the list of inputs and outputs. What it returns is stated for every N and M: for M > N it raises for every state, for N >= 2M it returns the transposed state of the inputs M..2M-1 whatever the channel is, for M < N < 2M a state of N-M inputs and 2M-N outputs. C118_fewer_outputs_refuted shows it wrong for every N > M. qutip's partial trace is modelled on the flat list of particles; a version of qutip that refuses lists of different lengths raises instead. kraus_operators is right for all N and M (C33_kraus_operators)."},
 {"property": "C119", "status": "proved", "theorems": ["PyQ.C119_converse", "PyQ.C119_achieved", "PyQ.C119_object", "PyQ.C119_search"], "note": "Exact values of the entropies are used in the proofs; the statements carry the tolerance of the cut-off. h and log2(N^2-1) are Mathlib's Real.qaryEntropy. The search part uses the contract of the SDP solver and, as in C46, real operators and the factor (N/M)^2 of the reported value."},
 {"property": "C12", "status": "proved", "theorems": ["PyQ.C12_encoding_isometry", "PyQ.C139_isometry"], "note": "inner products of all pairs of encoded basis states C139_isometry: the same without independence."},
 {"property": "C120", "status": "partial", "theorems": ["PyQ.C120_same_partial", "PyQ.C120_noise", "PyQ.C120_uses", "PyQ.C120_product", "PyQ.C120_range", "PyQ.C120_same_refuted"], "note": "All parts are proved for real operators. False of the code for complex operators, because of the missing conjugation of C46: [1] and [i 1] describe the same channel and give the values 1 and 0."},
 {"property": "C121", "status": "proved", "theorems": ["PyQ.C121_exact", "PyQ.C121_large_refuted"], "note": "Both halves: the bound below dimension 10^5 and, above it, an accepted channel that maps a density matrix to zero (1 - J/D with J all ones)."},
 {"property": "C122", "status": "proved", "theorems": ["PyQ.C122_interchange", "PyQ.C122_constructed", "PyQ.C122_identity", "PyQ.C122_mul_assoc", "PyQ.C122_mul_swap", "PyQ.C122_copies", "PyQ.C122_copies_constructed"], "note": "Products of channels on several particles are never constructed (C32); the laws hold whenever the channels are constructed."},
 {"property": "C123", "status": "proved", "theorems": ["PyQ.C123_avoid", "PyQ.C123_logical", "PyQ.C123_count"], "note": "Logical operators with an index of ten or more cannot be named (C14), hence i < 10 in C123_logical."},
 {"property": "C124", "status": "partial", "theorems": ["PyQ.C124_same_code_partial", "PyQ.C124_distance_partial", "PyQ.C124_order", "PyQ.C124_order_refuted", "PyQ.C124_choice_refuted"], "note": "As stated the property is false of the code: swapping two rows changes the encoded states (C124_order_refuted), and one choice of generators is rejected while another of the same group is accepted (C124_choice_refuted). Proved: acceptance does not depend on the order of independent commuting rows; two accepted inputs of the same group encode the same states up to an order of the qubits, and have the same distance and recoverable sets. Missing: the same order of qubits and acceptance for every choice (both refuted)."},
 {"property": "C125", "status": "proved", "theorems": ["PyQ.C125_channels"], "note": "For both outputs and coherent information, every number of uses and every history; the example applies it to phase flips of probabilities p and q."},
 {"property": "C126", "status": "proved", "theorems": ["PyQ.C126_blocks", "PyQ.C126_rate", "PyQ.C126_degradable", "PyQ.C126_antidegradable"], "note": "Q n is the exact best value, without cut-off; the API value is within the stated tolerance of it, and comes within any delta of it for some state. For degradable channels the rate is the best value of one use, for antidegradable ones it is zero."},
 {"property": "C127", "status": "proved", "theorems": ["PyQ.C127_channel", "PyQ.C127_coherent", "PyQ.C127_rate", "PyQ.C127_degradable", "PyQ.C127_antidegradable"], "note": "values up to the cut-off of small eigenvalues ; exact additivity for pairs of degradable channels and zero for pairs of antidegradable ones: C127_degradable, C127_antidegradable"},
 {"property": "C128", "status": "proved", "theorems": ["PyQ.C128_noise_before", "PyQ.C128_rate"], "note": "up to the cut-off of small eigenvalues"},
 {"property": "C129", "status": "partial", "theorems": ["PyQ.C129_copied_partial", "PyQ.C129_supplied_exact", "PyQ.C129_supplied_refuted", "PyQ.C129_stab_view", "PyQ.C129_normal_form_view", "PyQ.C129_stab_view_refuted", "PyQ.C129_arrays_exact"], "note": "True for the generators passed, and for everything passed when no logical operators are supplied. False for supplied logical operators, which are stored without a copy: the code is at any time that of the present contents of the two arrays (exact). False for the attributes, which are the object's own arrays: after a write into stab_bin_rep encode_krauss_operators follows the new rows while the circuits keep the old ones (refuted with XX overwritten by ZZ). The list pauli_stab is not modelled."},
 {"property": "C13", "status": "partial", "theorems": ["PyQ.C13_normal_form_rows_fix", "PyQ.C13_even_generators_rows_fix", "PyQ.C13_generators_eigen_partial", "PyQ.C13_css_fixed_partial", "PyQ.C13_sign_partial", "PyQ.C13_same_group_partial", "PyQ.C13_relabelling_refuted", "PyQ.C13_sign_refuted", "PyQ.C13_oddY_refuted"], "note": "rows of the normal form: proved. Generators given: proved up to the relabelling of qubits done by the elimination; false for the original labels (C13_relabelling_refuted), sign may be -1 (C13_sign_refuted), and odd numbers of Y's fail (C13_oddY_refuted) C13_sign_partial gives the exact sign: a generator fixes the encoded states iff its product of normal form rows, taken in order, has sign +1."},
 {"property": "C130", "status": "partial", "theorems": ["PyQ.C130_rule", "PyQ.C130_exact", "PyQ.C130_exact_error", "PyQ.C130_positive_partial", "PyQ.C130_iff", "PyQ.C130_refuted", "PyQ.C130_silent", "PyQ.C130_repair", "PyQ.C130_agrees", "PyQ.C130_sparse_iff", "PyQ.C130_sparse_value", "PyQ.C130_left"], "note": "False of the code: after a request for n <= 0 every valid request that follows raises ValueError, for every dense channel, until the number of uses has gone down to a positive number (C130_iff). C130_exact gives the number of copies applied after any sequence of integers; a first request for n <= 0 silently applies two copies. True as long as all numbers are positive (C130_positive_partial). C130_sparse_iff and C130_sparse_value say the same for sparse objects."},
 {"property": "C131", "status": "proved", "theorems": ["PyQ.C131_rounds", "PyQ.C131_restored_iff", "PyQ.C131_undone", "PyQ.C131_independent", "PyQ.C131_shared", "PyQ.C131_changes", "PyQ.C131_shared_refuted", "PyQ.C131_cancel", "PyQ.C131_five_qubits"], "note": "Fresh ancillas: exact final state for any errors and table, restored iff the leftover is in the group, correctable sets undone any number of times, rounds independent for consistent tables (failures can cancel, C131_cancel). Ancilla of the register: results are running sums (C131_shared); raw lookup fails (C131_shared_refuted), lookup of changes works (C131_changes)."},
 {"property": "C132", "status": "proved", "theorems": ["PyQ.C132_any_errors", "PyQ.C132_computes"], "note": "Arbitrary interleavings of rounds (C131) and logical operators named with one digit; names with two digits are C14/C18."},
 {"property": "C133", "status": "proved", "theorems": ["PyQ.C133_rows", "PyQ.C133_supplied", "PyQ.C133_strings", "PyQ.C133_at_most_two"], "note": "Exact acceptance for 0/1 rows of any number, independent or not, with the exception raised otherwise; strings of n Pauli letters; one or two generators always pass the rank condition."},
 {"property": "C134", "status": "proved", "theorems": ["PyQ.C134_order", "PyQ.C134_renamed", "PyQ.C134_some_presentation"], "note": "Existence of an accepted presentation for every commuting family, and invariance under reordering and renaming; that products of generators do matter is C124_choice_refuted."},
 {"property": "C135", "status": "proved", "theorems": ["PyQ.C135_rate", "PyQ.C135_one", "PyQ.C135_bound", "PyQ.C135_limit", "PyQ.C135_uniform", "PyQ.C135_distance", "PyQ.C135_five_qubits"], "note": "Exact formula for the success probability of m rounds, lower bound, limit, completely random errors, codes of a given distance and the five-qubit code."},
 {"property": "C136", "status": "partial", "theorems": ["PyQ.C136_agrees", "PyQ.C136_negative_partial", "PyQ.C136_supplied", "PyQ.C136_supplied_refuted"], "note": "Without logical_ops every negative k raises. With logical_ops the claim is false of the code: C136_supplied_refuted; C136_supplied says exactly which 0/1 rows are accepted and which exception the others raise."},
 {"property": "C137", "status": "proved", "theorems": ["PyQ.C137_apply", "PyQ.C137_logical", "PyQ.C137_syndrome", "PyQ.C137_encoding", "PyQ.C137_decoding", "PyQ.C137_logical_distance"], "note": "Exact wires and counts for the circuits as the engine receives them; logical operators 0-9 as logical_circuit names them by one digit."},
 {"property": "C138", "status": "proved", "theorems": ["PyQ.C138_rebuild", "PyQ.C138_iter_determines"], "note": "default logical operators, independent 0/1 generators; logical operator arrays compared entry by entry inside their shape"},
 {"property": "C139", "status": "partial", "theorems": ["PyQ.C139_as_independent", "PyQ.C139_isometry", "PyQ.C139_decoding", "PyQ.C139_logical", "PyQ.C139_logical_operators", "PyQ.C139_zero_fixed", "PyQ.C139_sign_partial", "PyQ.C139_stabilised_iff_partial", "PyQ.C139_stabilised_refuted", "PyQ.C139_superposition", "PyQ.C139_decode_discard", "PyQ.C139_sizes", "PyQ.C139_unreset", "PyQ.C139_closed_form"], "note": "all but the last claim proved without independence; that the rows fix every encoded state is false (C139_stabilised_refuted); C139_sign_partial gives the exact sign and C139_stabilised_iff_partial says exactly which rows do: those that commute with the logical X operators Encoding superpositions, decoding with discarding, circuit sizes and unreset registers are covered too."},
 {"property": "C14", "status": "proved", "theorems": ["PyQ.C14_logical_X", "PyQ.C14_logical_Z", "PyQ.C14_logical_Y", "PyQ.C14_two_digits_refuted", "PyQ.C139_logical"], "note": "operator names carry one digit, so i <= 9 ; for i >= 10 the documented name raises AssertionError (C14_two_digits_refuted) C139_logical: the same without independence."},
 {"property": "C140", "status": "proved", "theorems": ["PyQ.C140_pauli_error", "PyQ.C140_measured"], "note": "Closed form for every basis state of the register, by linearity for every state; the measured form needs generators with an even number of Y's (C13)."},
 {"property": "C141", "status": "proved", "theorems": ["PyQ.C141_uncorrected", "PyQ.C141_harmless"], "note": "All accepted 0/1 generators; \u03c9 is a sign that depends on the error only."},
 {"property": "C142", "status": "proved", "theorems": ["PyQ.C142_projects_to_code", "PyQ.C142_correction_exists", "PyQ.C142_from_basis", "PyQ.C142_encoded_zero"], "note": "Fresh ancillas. Generators independent with even numbers of Y's; the five-qubit code meets the hypotheses."},
 {"property": "C143", "status": "proved", "theorems": ["PyQ.C143_read", "PyQ.C143_read_all", "PyQ.C143_decoder_agrees", "PyQ.C143_read_X", "PyQ.C143_read_Y", "PyQ.C143_read_unreset"], "note": "All accepted 0/1 generators. C143_read gives results, joint probability and remaining state for any sequence of logical Z operators after any Pauli error; fresh ancilla for sequences, both conventions for single readings."},
 {"property": "C144", "status": "proved", "theorems": ["PyQ.C144_parities", "PyQ.C144_every_qubit", "PyQ.C144_checks", "PyQ.C144_table"], "note": "Proved; independence of the generators is needed only for the parities over the rows of the normal form (C144_checks, C144_table)."},
 {"property": "C145", "status": "proved", "theorems": ["PyQ.C145_rounds", "PyQ.C145_last_flips", "PyQ.C145_distance", "PyQ.C145_majority", "PyQ.C145_five_qubits"], "note": "all rounds and all wrong reports; C145_five_qubits is the instance with the five-qubit code, and shows that an error with a wrong bit in the same round is not repaired"},
 {"property": "C146", "status": "proved", "theorems": ["PyQ.C146_readings", "PyQ.C146_as_wrong_readings", "PyQ.C146_restored_iff", "PyQ.C146_distance", "PyQ.C146_five_qubits"], "note": "all rounds and all places of the errors; C146_five_qubits is the instance with the five-qubit code, and shows that one error in the middle of a round can be fatal"},
 {"property": "C147", "status": "proved", "theorems": ["PyQ.C147_between", "PyQ.C147_before", "PyQ.C147_after", "PyQ.C147_phase", "PyQ.C147_hook", "PyQ.C147_five_qubits"], "note": "the error may be anywhere in the circuit; the state must have a definite value of the measured operator, as encoded states with Pauli errors do"},
 {"property": "C148", "status": "proved", "theorems": ["PyQ.C148_circuit", "PyQ.C148_plain", "PyQ.C148_measurement", "PyQ.C148_rounds", "PyQ.C148_encoding", "PyQ.C148_spread", "PyQ.C148_spread_circuit"], "note": "errors in a correction circuit count as errors before the first gate of the next measurement; gates must act inside the register, which C16 and C18 show of the builders"},
 {"property": "C149", "status": "proved", "theorems": ["PyQ.C149_decoding", "PyQ.C149_right", "PyQ.C149_transmission", "PyQ.C149_succeeds", "PyQ.C149_restored"], "note": "Errors in the correction gates between rounds are those before the first gate of the next measurement up to the phase; the errors are Pauli operators and the ancillas of the measurements are fresh."},
 {"property": "C15", "status": "proved", "theorems": ["PyQ.C15_decoding", "PyQ.C139_decoding"], "note": "all superpositions; both ways of supplying the ancillas C139_decoding: the same without independence."},
 {"property": "C150", "status": "proved", "theorems": ["PyQ.C150_unreset", "PyQ.C150_results", "PyQ.C150_persistent", "PyQ.C150_rounds", "PyQ.C150_changes"], "note": "Measurements with errors anywhere and an ancilla that is never reset: same as fresh ancillas with the results added up, for all states; results on encoded states, flips persist, rounds, and the repair by looking up changes."},
 {"property": "C151", "status": "proved", "theorems": ["PyQ.C151_channel", "PyQ.C151_count", "PyQ.C151_uniform", "PyQ.C151_corrected", "PyQ.C151_harmless", "PyQ.C151_repaired"], "note": "All accepted 0/1 generators; the effective channel on the decoded qubits for any distribution of Pauli errors, the number of errors behind each logical operator, and complete noise. C151_harmless, C151_repaired: exactly when every state survives."},
 {"property": "C16", "status": "proved", "theorems": ["PyQ.C16_syndrome", "PyQ.C16_encoded"], "note": "fresh or supplied ancilla in state 0; any code object on n qubits; encoded states as a corollary"},
 {"property": "C17", "status": "proved", "theorems": ["PyQ.C17_fresh_history", "PyQ.C17_shared_history", "PyQ.C17_encoded_state_qualifies"], "note": "all histories, all possible readings"},
 {"property": "C18", "status": "proved", "theorems": ["PyQ.C18_encoding_guard", "PyQ.C18_logical_guard", "PyQ.C18_syndrome_guard", "PyQ.C18_decoding_wires", "PyQ.C11_encoding_closed_form", "PyQ.C18_encoding_guard_any", "PyQ.C18_logical_guard_any", "PyQ.C18_decoding_wires_any"], "note": "exact characterisation of the errors; logical_circuit gives ValueError, not AssertionError, for a non-digit index"},
 {"property": "C19", "status": "proved", "theorems": ["PyQ.C19_encoder_isometry", "PyQ.C19_dimension"], "note": "For every accepted code whose generators have an even number of Y letters; eigh is a contract."},
 {"property": "C20", "status": "proved", "theorems": ["PyQ.C20_corrected", "PyQ.C20_pauli_errors", "PyQ.C20_wrong_shape"], "note": "Exact for every list of matrices; the test of the code compares entries with a tolerance, and for multiples of Pauli matrices it is the symplectic product; wrong shapes raise."},
 {"property": "C21", "status": "proved", "theorems": ["PyQ.C21_generators", "PyQ.C21_code"], "note": "The generators are those of the concatenated code for every pair; whether the constructor then accepts them is characterised exactly (the rank defect of C10)."},
 {"property": "C22", "status": "partial", "theorems": ["PyQ.C22_square_partial", "PyQ.C22_no_error_refuted", "PyQ.C22_no_logical_qubit", "PyQ.C22_dropped_part_refuted", "PyQ.C22_lengths_refuted", "PyQ.C22_few_blocks_refuted", "PyQ.C22_identity_letter_refuted", "PyQ.C22_no_logical_rows", "PyQ.C22_many_blocks_refuted", "PyQ.C22_exact", "PyQ.C22_identity_silent_refuted"], "note": "False of the code: None instead of ValueError, and most pairs with l > 1 raise. Positive theorem for n = m = l*l without identity letters. C22_exact says for every pair with l >= 2 dividing n whether ValueError, IndexError or a constructor call results, and with which generators; an identity letter is replaced like the letter before it, which silently gives a wrong code (C22_identity_silent_refuted)."},
 {"property": "C23", "status": "proved", "theorems": ["PyQ.C23_channel", "PyQ.C23_batch", "PyQ.C23_state_properties", "PyQ.C23_linear", "PyQ.C23_wrong_shape"], "note": ""},
 {"property": "C24", "status": "proved", "theorems": ["PyQ.C24_channel_duality", "PyQ.C24_exchange_duality", "PyQ.C24_unital"], "note": ""},
 {"property": "C25", "status": "proved", "theorems": ["PyQ.C25_composition", "PyQ.C25_trace_preserving", "PyQ.C25_associative"], "note": ""},
 {"property": "C26", "status": "proved", "theorems": ["PyQ.C26_parallel", "PyQ.C26_trace_preserving", "PyQ.C26_product_state"], "note": ""},
 {"property": "C27", "status": "partial", "theorems": ["PyQ.C27_history_partial", "PyQ.C27_sparse_return_refuted", "PyQ.C27_zero_uses_refuted", "PyQ.C27_sparse_iff"], "note": "true for dense objects and positive n; a sparse object that returns to one use raises (refuted) C27_sparse_iff says exactly which calls a sparse channel supports, after any calls, failed or not."},
 {"property": "C28", "status": "partial", "theorems": ["PyQ.C28_sparse_dense_partial", "PyQ.C28_fidelity_refuted", "PyQ.C28_batch_refuted", "PyQ.C28_batch_paired_refuted", "PyQ.C28_batch_exact", "PyQ.C28_batch_one", "PyQ.C28_batch_summed_refuted"], "note": "channel, adjoint, exchange and its adjoint agree; average fidelity and batches differ (refuted) A sparse object given a batch of as many matrices as it has operators pairs them one by one and returns a single matrix (C28_batch_paired_refuted). C28_batch_exact says which batches a sparse channel accepts; it returns one matrix for them."},
 {"property": "C29", "status": "proved", "theorems": ["PyQ.C29_entropy_exchange"], "note": ""},
 {"property": "C30", "status": "partial", "theorems": ["PyQ.C30_orthogonal_partial", "PyQ.C30_rows_refuted", "PyQ.C30_orthogonal_refuted", "PyQ.C30_blocks", "PyQ.C30_three_groups_refuted", "PyQ.C30_excess_refuted", "PyQ.C30_coherent_partial", "PyQ.C30_three_groups_coherent_refuted"], "note": "true for two groups of equal size only; refuted for the example of the documentation; C30_blocks gives the blocks computed for every list of groups"},
 {"property": "C31", "status": "partial", "theorems": ["PyQ.C31_fidelity_partial", "PyQ.C31_errors", "PyQ.C31_dense_refuted", "PyQ.C31_sparse_refuted", "PyQ.C31_broadcast_refuted", "PyQ.C31_dense_value", "PyQ.C31_sparse_value"], "note": "the einsum sums all entries instead of the trace (dense), the trace is taken over the wrong axes (sparse) C31_dense_value and C31_sparse_value give the number returned for every ensemble."},
 {"property": "C32", "status": "partial", "theorems": ["PyQ.C32_add", "PyQ.C32_add_mismatch", "PyQ.C32_tolerance_refuted", "PyQ.C32_mul_partial", "PyQ.C32_mul_refuted", "PyQ.C32_kraus_add_partial", "PyQ.C32_kraus_add_refuted", "PyQ.C32_kraus_add_kinds", "PyQ.C32_kraus_mul_kinds", "PyQ.C32_kraus_mul_partial", "PyQ.C32_kraus_mul_refuted", "PyQ.C32_add_exact", "PyQ.C32_add_outer", "PyQ.C32_mul_exact", "PyQ.C32_mul_one", "PyQ.C32_kraus_add_exact", "PyQ.C32_kraus_mul_exact"], "note": "+ of AnalyticQChan is proved for exactly trace preserving channels; the 1e-5 tolerance can reject the sum of two accepted channels, * fails for several particles (for AnalyticQChan and for the Kraus objects), DenseKraus + fails for unequal particle numbers (refuted) C32_add_exact, C32_mul_exact, C32_kraus_add_exact and C32_kraus_mul_exact say for every two accepted channels when + and * construct a channel and what they raise otherwise; for + it is enough that the outer channel preserves the trace exactly (C32_add_outer), for * of single particles that one of the two does (C32_mul_one)."},
 {"property": "C33", "status": "proved", "theorems": ["PyQ.C33_choi_channel", "PyQ.C33_choi_equals_kraus", "PyQ.C33_trace_preserving", "PyQ.C33_constraint", "PyQ.C33_kraus_operators", "PyQ.C33_kraus_operators_channel", "PyQ.C33_errors"], "note": "Equal numbers of input and output particles, as in the property. kraus_operators drops eigenvalues up to 1e-8; the theorem bounds what is lost, for every eigenbasis. The checks istp and iscp of qutip are parameters; qutip's ptrace is modelled by its definition."},
 {"property": "C34", "status": "proved", "theorems": ["PyQ.C34_spectrum", "PyQ.C34_coherent_information"], "note": "For every routine that meets the contracts of eigvalsh and sqrtm."},
 {"property": "C35", "status": "proved", "theorems": ["PyQ.C35_value", "PyQ.C35_range", "PyQ.C35_errors"], "note": ""},
 {"property": "C36", "status": "proved", "theorems": ["PyQ.C36_standard", "PyQ.C36_over", "PyQ.C36_over_errors", "PyQ.C36_cholesky", "PyQ.C36_cholesky_errors"], "note": "All three schemes, every size, rank and vector; zero vectors (division by zero trace) excluded for the two factor schemes. StandardBasis: Hermitian entries as documented."},
 {"property": "C37", "status": "partial", "theorems": ["PyQ.C37_standard", "PyQ.C37_over", "PyQ.C37_cholesky_partial", "PyQ.C37_cholesky_refuted", "PyQ.C37_cholesky_low_rank_refuted", "PyQ.C37_cholesky_exact", "PyQ.C37_cholesky_sizes_refuted", "PyQ.C37_cholesky_diagonal"], "note": "Proved for StandardBasis and OverParam. False for CholeskyParam: refuted at size 3 for every Cholesky routine and at every rank below the size; proved for sizes 1 and 2. For CholeskyParam C37_cholesky_exact says for every size exactly which positive definite states survive; from size three on some never do."},
 {"property": "C38", "status": "proved", "theorems": ["PyQ.C38_standard", "PyQ.C38_over", "PyQ.C38_cholesky", "PyQ.C38_cholesky_errors", "PyQ.C38_cholesky_refused", "PyQ.C38_normal_refuted", "PyQ.C38_cholesky_reach", "PyQ.C38_cholesky_start"], "note": "Counts, bounds, random vectors and accepted lengths, for every size and rank; the uniform starting vectors are exactly the vectors within the bounds. C38_normal_refuted: the documented scaling of the normal distribution fails (outside the statement of the property)."},
 {"property": "C39", "status": "partial", "theorems": ["PyQ.C39_pool_last", "PyQ.C39_pool_first", "PyQ.C39_coherent_value", "PyQ.C39_fidelity_value", "PyQ.C39_optimize_coherent", "PyQ.C39_optimize_fidelity", "PyQ.C39_pool_partial", "PyQ.C39_loop_coherent_refuted", "PyQ.C39_loop_fidelity_refuted", "PyQ.C39_best_refuted", "PyQ.C39_callback", "PyQ.C39_loop_error", "PyQ.C39_loop_unbound", "PyQ.C39_pool_exact"], "note": "the reported value is that of the reported state for differential evolution and SLSQP with a pool; false of the code: best over the samples, and SLSQP without a pool C39_pool_exact describes the pool's selection for every list of results."},
 {"property": "C40", "status": "proved", "theorems": ["PyQ.C40_sampler", "PyQ.C40_total", "PyQ.C40_error", "PyQ.C40_zero_samples"], "note": "when zero samples are requested one is returned"},
 {"property": "C41", "status": "partial", "theorems": ["PyQ.C41_param", "PyQ.C41_necessary", "PyQ.C41_checks", "PyQ.C41_accepted_iff", "PyQ.C41_optimizer", "PyQ.C41_subclass_refuted", "PyQ.C41_samples_refuted", "PyQ.C41_bool"], "note": "false of the code: a subclass of ParameterizationABC, as documented, is rejected; slsqp with user samples and lipschitz=0 is rejected"},
 {"property": "C42", "status": "proved", "theorems": ["PyQ.C42_inverse", "PyQ.C42_accepted", "PyQ.C42_record", "PyQ.C42_errors", "PyQ.C42_short_record"], "note": "The inverse restores every amplitude exactly; epsilon=0 raises ZeroDivisionError, negative epsilon ValueError."},
 {"property": "C43", "status": "proved", "theorems": ["PyQ.C43_value", "PyQ.C43_range", "PyQ.C43_identity", "PyQ.C43_errors", "PyQ.C43_channel_identity", "PyQ.C43_code_identity"], "note": "Measurement outcomes are any possible ones; the identity channel is any channel that multiplies states by a factor."},
 {"property": "C44", "status": "partial", "theorems": ["PyQ.C44_channel", "PyQ.C44_coherent", "PyQ.C44_guards", "PyQ.C44_multi_qubit_refuted", "PyQ.C44_fidelity_refuted", "PyQ.C44_options_refuted", "PyQ.C44_no_errors"], "note": "Trace preservation and the form of the Kraus operators are proved for k = 1, which is the only case that ever returns (C44_multi_qubit_refuted). optimize=fidelity never returns for n >= 2 and options is ignored. For sparse=True see C84."},
 {"property": "C45", "status": "proved", "theorems": ["PyQ.C45_entropy_bounds", "PyQ.C45_cut_off", "PyQ.C45_coherent_value", "PyQ.C45_coherent_bounds", "PyQ.C45_coherent_list"], "note": "For every routine that meets the contract of eigvalsh; exact arithmetic. The orthogonal-operator variant of entropy_exchange is covered by C30."},
 {"property": "C46", "status": "partial", "theorems": ["PyQ.C46_feasible", "PyQ.C46_objective", "PyQ.C46_objective_partial", "PyQ.C46_solution_partial", "PyQ.C46_errors", "PyQ.C46_operators", "PyQ.C46_scale_refuted", "PyQ.C46_complex_refuted", "PyQ.C46_stabilizer_recovery_refuted", "PyQ.C46_stabilizer_value_refuted", "PyQ.C46_multi_qubit_refuted", "PyQ.C46_no_qubit_refuted", "PyQ.C46_optimize_decoder_refuted", "PyQ.C46_no_qubit_error", "PyQ.C46_pauli"], "note": "Proved for the documented call of _optimize_average_entang_fid: the feasible points are exactly the Choi matrices of recoveries, the optimum is attained, and for real Kraus operators the solver returns a best recovery. False of the code in five ways, each proved: the value is scaled by (output/input dimension)^2, the conjugate is missing for complex operators, optimize_decoder_stabilizers swaps the qubit numbers (its matrix is never the Choi matrix of a recovery and its value can be too small), more than one logical qubit never returns, optimize_decoder never returns. For Pauli noise on a qubit the reported value is max(p0, p1, p3): the probability of Y is ignored (C46_pauli)."},
 {"property": "C47", "status": "partial", "theorems": ["PyQ.C47_decoding_returns_partial", "PyQ.C47_refuted"], "note": "false when the register already holds the ancillas and is kept: ancillas are returned twice"},
 {"property": "C48", "status": "partial", "theorems": ["PyQ.C48_apply_stabilizer", "PyQ.C48_string_argument_refuted"], "note": "proved for 0/1 rows; every string argument raises UnboundLocalError"},
 {"property": "C49", "status": "proved", "theorems": ["PyQ.C49_pure_state", "PyQ.C49_isometry"], "note": ""},
 {"property": "C50", "status": "proved", "theorems": ["PyQ.C50_value", "PyQ.C50_range", "PyQ.C50_fixed_state", "PyQ.C50_pure_state", "PyQ.C50_dimensions", "PyQ.C50_choi"], "note": ""},
 {"property": "C51", "status": "proved", "theorems": ["PyQ.C51_coherent_state", "PyQ.C51_fidelity_state", "PyQ.C51_fidelity_range", "PyQ.C51_coherent_range"], "note": "scipy by contract; reported ranges for differential evolution and SLSQP with a pool"},
 {"property": "C52", "status": "partial", "theorems": ["PyQ.C52_checks", "PyQ.C52_never_returns_refuted", "PyQ.C52_split_partial"], "note": "False of the code: total_channel needs three arguments and is called with two, so with at least one trial no call returns. Proved: the argument checks, the refutation for every scipy that reports a value at an evaluated point, and what remains for a negative number of trials."},
 {"property": "C53", "status": "partial", "theorems": ["PyQ.C43_value", "PyQ.C43_real_device_refuted", "PyQ.C53_real_device", "PyQ.C53_real_device_identity", "PyQ.C53_real_device_flip"], "note": "Holds on simulators (C43_value). False with real_device=True: the register is not reset between trials; concrete case with estimate 1/2 instead of 0. What a real device does exactly: only the first trial starts from the register as it was, every later one from the basis state measured before; so without noise the estimate is 1 or 0 depending on the first state, and a flip gives 1/2."},
 {"property": "C54", "status": "proved", "theorems": ["PyQ.C54_circuit"], "note": "Exact amplitudes of the whole circuit, for every state."},
 {"property": "C55", "status": "proved", "theorems": ["PyQ.C55_diagonal_design"], "note": "Second moments of the phases of C54 over uniform draws. That the whole circuit is an epsilon-approximate unitary two-design is not claimed."},
 {"property": "C56", "status": "partial", "theorems": ["PyQ.C56_no_correction_refuted", "PyQ.C56_leaves_code_refuted", "PyQ.C56_single_flip_refuted"], "note": "False of the code: the correction multiplies by a generator, which acts trivially on the code, so the effective channel equals encoding followed by the noise for every Pauli channel."},
 {"property": "C57", "status": "partial", "theorems": ["PyQ.C57_parts", "PyQ.C57_measures_partial", "PyQ.C57_odd_refuted", "PyQ.C57_odd_state_refuted", "PyQ.C57_odd_twice_refuted", "PyQ.C57_unreset"], "note": "Proved for operators with even numbers of Y's; for odd numbers refuted: every result has probability one half on every state. For odd numbers of Y's exactly: the register is left in (1 + (-1)^r S) phi / sqrt 2, so a second measurement gives an independent fair coin again and either restores phi or leaves S phi. C57_unreset: with one ancilla that is never reset the results are the running sums of those with fresh ancillas, for every sequence and state."},
 {"property": "C58", "status": "proved", "theorems": ["PyQ.C58_projects"], "note": "Histories of any length with fresh ancillas, any initial state."},
 {"property": "C59", "status": "proved", "theorems": ["PyQ.C59_normalizer"], "note": "With respect to the rows of the normal form (iterating over the code)."},
 {"property": "C60", "status": "proved", "theorems": ["PyQ.C60_encoded_span"], "note": ""},
 {"property": "C61", "status": "proved", "theorems": ["PyQ.C61_correction"], "note": ""},
 {"property": "C62", "status": "proved", "theorems": ["PyQ.C62_syndrome", "PyQ.C62_same_syndrome"], "note": ""},
 {"property": "C63", "status": "partial", "theorems": ["PyQ.C63_encoders_agree_iff", "PyQ.C63_encoders_agree_partial", "PyQ.C63_relabelling_refuted", "PyQ.C63_sign_refuted"], "note": "The two encoders agree exactly if every generator fixes every encoded state; this holds for generators of X's only or Z's only whose normal form generates the same group, and is refuted when qubits are relabelled or signs appear."},
 {"property": "C64", "status": "partial", "theorems": ["PyQ.C64_normalizer_refuted", "PyQ.C64_repaired_partial", "PyQ.C64_contains_group", "PyQ.C64_count"], "note": "False of the code: both functions raise AttributeError for every code. With the missing methods supplied: exactly the commuting rows, each once, including the group itself (2^(n+k) rows of which 2^(n-k) are in the group)."},
 {"property": "C65", "status": "proved", "theorems": ["PyQ.C65_generators"], "note": "2n unit rows in order; every row is a unique product"},
 {"property": "C66", "status": "proved", "theorems": ["PyQ.C66_representation"], "note": "for every pair of Kraus families of one map, storage, history and eigensolver"},
 {"property": "C67", "status": "proved", "theorems": ["PyQ.C67_input_entropy"], "note": "with the explicit tolerance of the eigenvalue cut-off"},
 {"property": "C68", "status": "partial", "theorems": ["PyQ.C68_decode_discard", "PyQ.C68_register"], "note": "Measurements, returned qubits and the state of the ancillas are proved. False of the code: with added ancillas the caller's register is not emptied (C68_register)."},
 {"property": "C69", "status": "proved", "theorems": ["PyQ.C69_additive", "PyQ.C69_regularized"], "note": "with the explicit tolerance of the eigenvalue cut-off"},
 {"property": "C70", "status": "partial", "theorems": ["PyQ.C70_stored", "PyQ.C70_unchecked_refuted", "PyQ.C70_encoding_iff_partial", "PyQ.C70_encoding_same", "PyQ.C70_encoding_refuted", "PyQ.C70_logical_equiv"], "note": "False of the code: operators are not checked, and an equivalent valid choice makes the encoder leave the code (both refuted). Proved: what is stored, exactly when the encoder still encodes into the code, same gates in that case, and that equivalent operators give logical X and Z circuits up to a sign."},
 {"property": "C71", "status": "partial", "theorems": ["PyQ.C71_copied_partial", "PyQ.C71_array_refuted", "PyQ.C71_exchange_refuted", "PyQ.C71_flip_refuted", "PyQ.C71_one_use_partial", "PyQ.C71_returned_refuted", "PyQ.C71_channel_exact", "PyQ.C71_exchange_exact"], "note": "True for lists and sparse objects under any interleaving of calls and writes; false for a dense object given an array, whose operators are the caller's array. C71_returned_refuted: after several uses and then one use the channel applies whatever is in the caller's array. C71_channel_exact and C71_exchange_exact say, for every history of calls and writes, which version of the caller's array each use of the channel applies."},
 {"property": "C72", "status": "partial", "theorems": ["PyQ.C72_columns_partial", "PyQ.C72_dependent_refuted", "PyQ.C72_empty_refuted", "PyQ.C72_oddY_refuted", "PyQ.C19_encoder_isometry", "PyQ.C72_first_oddY"], "note": "The number of columns is 2^(n - rank) or zero for every accepted code with even numbers of Y's, independent or not; 2^k fails for dependent generators and the span is wrong for odd numbers of Y's. That the columns are orthonormal and span the common +1 eigenspace, for every accepted code with even numbers of Y's, is C19_encoder_isometry. With an odd number of Y's in the first generator the columns never contain an eigenvector of it: they are fixed by the operator with X and Y exchanged on its first such qubit, and for a single generator they span exactly the states fixed by that operator."},
 {"property": "C73", "status": "proved", "theorems": ["PyQ.C73_correctable", "PyQ.C73_distance", "PyQ.C73_five_qubits", "PyQ.C73_four_qubits"], "note": "Both directions; instances: XZZXI, IXZZX, XIXZZ, ZXIXZ correct every error on one qubit, XXXX, ZZZZ do not correct two X errors."},
 {"property": "C74", "status": "partial", "theorems": ["PyQ.C74_agrees", "PyQ.C74_strings_partial", "PyQ.C74_arrays_partial", "PyQ.C74_short_refuted", "PyQ.C74_count_refuted", "PyQ.C74_longer_refuted", "PyQ.C74_index", "PyQ.C74_index_second", "PyQ.C74_strings_cut", "PyQ.C74_strings_short", "PyQ.C74_strings_exact_partial"], "note": "Arrays of the wrong shape are rejected as documented, and strings without supplied logical operators are rejected unless the first has length n and there are n-k of them, or k=0 and they are short. False in full: three refutations with accepted inputs. For k >= 1 and no supplied operators C74_strings_exact_partial says exactly which lists of strings are accepted; letters beyond the length of the first string are never read (C74_strings_cut), a shorter string raises (C74_strings_short). Missing: an exact criterion for k = 0 with a first string shorter than n."},
 {"property": "C75", "status": "proved", "theorems": ["PyQ.C75_two_design", "PyQ.C75_expected"], "note": "Expected value of the estimate within epsilon^2 of the Haar average fidelity. The existence of a uniform distribution (uniformStates_uniformMeasure) and of such runs (randomRuns_exist) is proved for every register and channel."},
 {"property": "C76", "status": "proved", "theorems": ["PyQ.C76_deviation"], "note": "Chebyshev bound for pairwise independent trials; randomRuns_exist shows that such runs exist."},
 {"property": "C77", "status": "proved", "theorems": ["PyQ.C77_average", "PyQ.C77_estimate"], "note": "For Choi matrices; average_entanglement_fidelity of Kraus objects is wrong (C31)."},
 {"property": "C78", "status": "proved", "theorems": ["PyQ.C78_data_processing"], "note": "Up to the cut-off of small eigenvalues in the code, 4e-9 per eigenvalue."},
 {"property": "C79", "status": "proved", "theorems": ["PyQ.C79_recoverable"], "note": "Up to the cut-off of small eigenvalues in the code."},
 {"property": "C80", "status": "proved", "theorems": ["PyQ.C80_unital"], "note": "Up to the cut-off of small eigenvalues in the code."},
 {"property": "C81", "status": "partial", "theorems": ["PyQ.C81_list_partial", "PyQ.C81_array_partial", "PyQ.C81_choi_partial", "PyQ.C81_refused", "PyQ.C81_qubits_refused", "PyQ.C81_choi_refused", "PyQ.C81_tuple_refuted", "PyQ.C81_dimensions_refuted", "PyQ.C81_sparse_matrix_refuted", "PyQ.C81_array_errors"], "note": "Acceptance is characterised exactly; the documented tuple, the documented TypeError and the usability of every object are false of the code (refuted)."},
 {"property": "C82", "status": "partial", "theorems": ["PyQ.C82_kraus_partial", "PyQ.C82_choi_partial", "PyQ.C82_numb_krauss_refuted", "PyQ.C82_tuple_choi"], "note": "All attributes proved except numb_krauss, which raises AttributeError for every channel (refuted)."},
 {"property": "C83", "status": "proved", "theorems": ["PyQ.C83_kraus", "PyQ.C83_left", "PyQ.C83_add_cut", "PyQ.C83_add_choi", "PyQ.C83_add_same", "PyQ.C83_add_constructed", "PyQ.C83_mul_choi", "PyQ.C83_mul_constructed", "PyQ.C83_add_any", "PyQ.C83_mul_any"], "note": "qutip's checks are parameters; positivity and exact trace preservation are hypotheses."},
 {"property": "C84", "status": "partial", "theorems": ["PyQ.C84_operators_partial", "PyQ.C84_never_returns_refuted", "PyQ.C84_value_error_refuted"], "note": "The operators built agree (one logical qubit). False of the code: with sparse=True the call never returns; wherever the dense call succeeds it raises ValueError."},
 {"property": "C85", "status": "proved", "theorems": ["PyQ.C85_product", "PyQ.C85_copies", "PyQ.C85_representation", "PyQ.C85_choi", "PyQ.C85_parallel"], "note": "All channels with equal input and output dimension, any history, any correct sqrtm."},
 {"property": "C86", "status": "proved", "theorems": ["PyQ.C86_coherent_representation", "PyQ.C86_fidelity_representation", "PyQ.C86_choi_one_use", "PyQ.C86_choi_coherent", "PyQ.C86_choi_fidelity", "PyQ.C86_choi_coherent_output", "PyQ.C86_choi_fidelity_output"], "note": "All pairs of representations, any history, any optimiser and eigenvalue routine meeting its contract."},
 {"property": "C87", "status": "partial", "theorems": ["PyQ.C87_wrong_shape", "PyQ.C87_exchange_sparse", "PyQ.C87_exchange_dense_partial", "PyQ.C87_adjoint_sparse", "PyQ.C87_adjoint_dense_partial", "PyQ.C87_batch_partial", "PyQ.C87_exchange_columns_refuted", "PyQ.C87_exchange_broadcast_refuted", "PyQ.C87_exchange_dense_exact", "PyQ.C87_adjoint_dense_exact", "PyQ.C87_batch_exact"], "note": "True of coherent_information and fidelity_two_states; false of dense entropy_exchange for axes of size one (numpy broadcasts) and of sparse entropy_exchange for the number of columns ; the _exact theorems state for every shape what dense channels refuse and what they compute"},
 {"property": "C88", "status": "partial", "theorems": ["PyQ.C88_returns", "PyQ.C88_untouched", "PyQ.C88_untouched_refuted", "PyQ.C88_encoding_state", "PyQ.C88_short_logical", "PyQ.C88_short_apply", "PyQ.C88_syndrome_letter", "PyQ.C88_decoding_short"], "note": "False of the code: encoding_circuit with a bad later entry, short registers and bad letters raise after gates were sent (refuted with a witness). Proved: which checks come first, and the exact quantum state left behind at the other points; both descriptions of the builders agree. Missing: the state left by encoding_circuit when the normal form itself is not binary (unreachable for accepted codes)."},
 {"property": "C89", "status": "proved", "theorems": ["PyQ.C89_superposition"], "note": "onLast is the register with the given state on its last k qubits and zeros elsewhere; all codes with binary independent generators."},
 {"property": "C90", "status": "proved", "theorems": ["PyQ.C90_concatenated_states"], "note": "The condition that the inner generators fix the encoded states excludes inner codes whose normal form swaps qubits (see C13); hypotheses met by YY with XX."},
 {"property": "C91", "status": "partial", "theorems": ["PyQ.C91_cholesky", "PyQ.C91_overparam_partial", "PyQ.C91_overparam_refuted", "PyQ.C91_overparam_string", "PyQ.C91_standard_refuted"], "note": "True for CholeskyParam() and, without the Lipschitz sampler, for OverParam(). False otherwise: OverParam.random_vectors is not a static method, and StandardBasis has methods with fewer arguments."},
 {"property": "C92", "status": "proved", "theorems": ["PyQ.C92_over", "PyQ.C92_cholesky", "PyQ.C92_standard", "PyQ.C92_coherent_best", "PyQ.C92_fidelity_worst", "PyQ.C92_coherent_qubit", "PyQ.C92_fidelity_qubit", "PyQ.C92_coherent_within", "PyQ.C92_within_runs", "PyQ.C92_fidelity_within", "PyQ.C92_fidelity_within_runs"], "note": "For differential evolution under the stated contract that it ends at a minimum over its bounds; SLSQP is a local method and promises no such thing (see C39). The two _qubit theorems run the optimisers on concrete channels. C92_coherent_within allows an optimiser that only comes within delta of the minimum; C92_within_runs shows that such a run exists for every channel."},
 {"property": "C93", "status": "partial", "theorems": ["PyQ.C93_fidelity_sampler", "PyQ.C93_fidelity_lipschitz", "PyQ.C93_sampler_partial", "PyQ.C93_coherent_refuted"], "note": "Proved for the fidelity (every trace preserving channel) and for every objective with Lipschitz constant one; false of the code for the coherent information, refuted with a concrete run."},
 {"property": "C94", "status": "proved", "theorems": ["PyQ.C94_channel", "PyQ.C94_exchange", "PyQ.C94_accumulates"], "note": "For every operator set within the tolerance of the constructor; the growth with n is shown by a concrete channel."},
 {"property": "C95", "status": "proved", "theorems": ["PyQ.C95_states", "PyQ.C95_channels"], "note": "Two-sided bounds for entropies of mixed states and coherent informations of mixed channels, up to the cut-off of small eigenvalues."},
 {"property": "C96", "status": "proved", "theorems": ["PyQ.C96_ensemble", "PyQ.C96_pure"], "note": "Choi objects; the Kraus object's average_entanglement_fidelity is broken (axis argument), see Findings"},
 {"property": "C97", "status": "proved", "theorems": ["PyQ.C97_entanglement"], "note": "Choi objects"},
 {"property": "C98", "status": "proved", "theorems": ["PyQ.C98_digitised", "PyQ.C98_local", "PyQ.C98_five_qubits"], "note": "even numbers of Y's, as for C73 (odd ones are a fair coin, C57)"},
 {"property": "C99", "status": "proved", "theorems": ["PyQ.C99_distance", "PyQ.C99_normal_form", "PyQ.C99_corrects", "PyQ.C99_sixteen_qubits"], "note": "Distance of the returned code at least the product; the correction table for arbitrary noise follows; an accepted 16-qubit instance."}
]}
