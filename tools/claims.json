{
"C01": {"status": "proved", "theorems": ["C01_single_qubit_gate", "C01_rejects"], "note": "All one-qubit gate classes, every N, wire and parameter; out-of-range wires raise."},
"C02": {"status": "proved", "theorems": ["C02_controlled_gates", "C02_cnot_on_basis", "C02_rejects"], "note": "cnot, cz, cphase, cu3 in both orientations; equal or out-of-range wires raise."},
"C03": {"status": "proved", "theorems": ["C03_multi_controlled_not", "C03_on_basis", "C03_rejects"], "note": "toffoli and multi_control_cnot with any control list."},
"C04": {"status": "partial", "theorems": ["C04_swap", "C04_symmetric", "C04_equal_wires_accepted"], "note": "Exchange and symmetry proved. The expectation that equal wires are rejected is false of the code: C04_equal_wires_accepted is the negation."},
"C05": {"status": "proved", "theorems": ["C05_pauli_rotations", "C05_symmetric", "C05_rejects"], "note": "Bad wires always raise, but as IndexError when only the second wire is too large."},
"C06": {"status": "proved", "theorems": ["C06_unitary", "C06_gates_unitary"], "note": "Every gate and layer class on distinct in-range wires."},
"C07": {"status": "partial", "theorems": ["C07_dagger_partial", "C07_gates_dagger", "C07_double_dagger", "C07_ring2_and_basic_return_none"], "note": "Adjoint whenever an operation is returned; ring_of_cnot2 and BasicEntangleLayer return None (negation proved)."},
"C08": {"status": "partial", "theorems": ["C08_params_update", "C08_update_history", "C08_layer_history", "C08_basic_history", "C08_layer_wrong_length_accepted"], "note": "Identical object state for all updates acceptable to the constructor. Layers accept updates of the wrong length that the constructor rejects (negation proved)."},
"C09": {"status": "proved", "theorems": ["C09_rotation_layers", "C09_hadamard_layer", "C09_xyz_wire", "C09_rejects"], "note": "All seven single-qubit layer classes."},
"C10": {"status": "proved", "theorems": ["C10_ring_of_cnot", "C10_ring_of_cnot_dagger", "C10_fused_path", "C10_rejects"], "note": "Generic, two-wire and fused path."},
"C100": {"status": "proved", "theorems": ["C100_flip", "C100_absorb", "C100_distribution", "C100_signs", "C100_mean", "C100_gradient", "C100_variance", "C100_forward"], "note": "The mean is the iterated integral over [0, 2 pi] for each weight. The forward pass of test_qnn_demo_free.py raises (C75), so C100_forward is about the other two; the other theorems hold for all three circuits."},
"C101": {"status": "proved", "theorems": ["C101_variance", "C101_gradient", "C101_forward"], "note": "For the last six or seven qubits only C100_variance (the mean square is positive) is shown. The constants are lower bounds, not the exact means."},
"C102": {"status": "proved", "theorems": ["C102_qgate", "C102_qcircuit", "C102_qoperator", "C102_qlayers", "C102_qlayers_script", "C102_qtensornetwork", "C102_twelve", "C102_qmath", "C102_qstate", "C102_qlayer"], "note": "The qtensornetwork.py theorem assumes that the norms of the draws are at least 1e-12, the qmath.py theorem that the trace is positive (torch.rand draws numbers in [0, 1))."},
"C103": {"status": "proved", "theorems": ["C103_U", "C103_exact", "C103_state", "C103_probs", "C103_cost", "C103_float32", "C103_not_unitary"], "note": "Exponents are unbounded in the model: overflow, underflow and NaN are outside the claim. Layers are not covered, only gates added one by one."},
"C104": {"status": "proved", "theorems": ["C104_measure", "C104_any_state", "C104_sign", "C104_exact", "C104_float32"], "note": "State vectors only (density matrices: C111); gates added one by one, no layers. Exponents are unbounded in the model (no overflow or underflow)."},
"C105": {"status": "proved", "theorems": ["C105_U", "C105_exact", "C105_bound_append", "C105_gates", "C105_measure", "C105_any_state", "C105_cost", "C105_float32"], "note": "Matrix path and state vectors only. Exponents are unbounded in the model (no overflow or underflow). The bounds are worst cases and not sharp."},
"C106": {"status": "partial", "theorems": ["C106_expectation", "C106_gradient_partial", "C106_restored", "C106_small_lost", "C106_changes_circuit", "C106_float32"], "note": "Proved: the bounds, for all parameters but those of CU3 gates (for these the entries are wrong already in exact arithmetic, C40_cu3_wrong), and what the operations hold afterwards. False: that the circuit is left with the parameters it had. Only the gates with a single parameter are; the parameters of u3, cu3 and the layers have been shifted three times, and in single precision every one below 2^-24 has become 0 while the dictionary cir_params still has it (C106_small_lost, C106_changes_circuit). The tensor network path is not covered: what it returns is an arbitrary function in the model."},
"C107": {"status": "proved", "theorems": ["C107_step", "C107_step_tn", "C107_step_saved", "C107_demo_step", "C107_train", "C107_train2", "C107_four"], "note": "The learning rate 0.1 of the file with 36 parameters is outside the range of the theorems, which need at most 1/36 there; C109 covers it."},
"C108": {"status": "proved", "theorems": ["C108_step", "C108_train", "C108_float32"], "note": "The tensor network path is not covered: what it returns is an arbitrary function in the model."},
"C109": {"status": "proved", "theorems": ["C109_step", "C109_train", "C109_file", "C109_runs"], "note": "The expectation value is the exact one of the circuit with the stored parameters; the loops print the computed one, which C73 compares with it."},
"C11": {"status": "proved", "theorems": ["C11_ring_of_cnot2", "C11_fused_path"], "note": "Generic, two-wire and fused path."},
"C110": {"status": "proved", "theorems": ["C110_extremes", "C110_flat", "C110_step", "C110_stays", "C110_pass"], "note": "The limit of C107 and C109: they show that descent approaches a stationary point, which need not be a minimum. With the decompositions of the program only the first pass is covered: the maximum is unstable, and later passes may amplify the error of the first."},
"C111": {"status": "proved", "theorems": ["C111_measure", "C111_reject", "C111_vector", "C111_float32"], "note": "The entries of the matrix are taken as stored; how it was computed is not part of the claim. For traces between the two thresholds nothing is claimed: there the outcome of the check depends on the rounding. Exponents are unbounded in the model (no overflow or underflow)."},
"C112": {"status": "proved", "theorems": ["C112_entries", "C112_density", "C112_reject", "C112_measure", "C112_float32", "C112_order", "C112_old", "C112_ptrace"], "note": "The entries of the matrix are taken as stored; how it was computed is not part of the claim. For traces between the two thresholds nothing is claimed: there the outcome of the check depends on the rounding. Exponents are unbounded in the model (no overflow or underflow)."},
"C113": {"status": "proved", "theorems": ["C113_hermitian_accept", "C113_hermitian_reject", "C113_normalized_accept", "C113_normalized_reject", "C113_hermitian_float32", "C113_normalized_float32", "C113_unitary_accept", "C113_unitary_reject_row", "C113_unitary_reject_pair", "C113_errors", "C113_unitary_float32"], "note": "Between the two thresholds nothing is claimed: there the outcome depends on the rounding. For longer vectors the guaranteed range of IsNormalized and IsUnitary in single precision is empty, since the bound on the rounding error exceeds 1e-6; whether a unit vector is then rejected is left open. Exponents are unbounded in the model (no overflow or underflow)."},
"C12": {"status": "proved", "theorems": ["C12_basic_entangle_layer", "C12_rejects"], "note": "Initially and after every history of updates of the right length."},
"C13": {"status": "proved", "theorems": ["C13_circuit_U", "C13_items", "C13_empty", "C13_concat", "C13_raises"], "note": "Both orders, empty circuit, concatenation, error branch."},
"C14": {"status": "proved", "theorems": ["C14_norm", "C14_from_state_init"], "note": "Exact arithmetic."},
"C15": {"status": "proved", "theorems": ["C15_dagger_circuit"], "note": "Every sequence of operations whose class implements operation_dagger."},
"C16": {"status": "proved", "theorems": ["C16_round_trip", "C16_one_qubit", "C16_zero_raises", "C16_rejects"], "note": "Every non-zero psi and every SVD routine meeting the contract. The zero vector is not a state: with N>=2 it raises RuntimeError (C16_zero_raises)."},
"C17": {"status": "proved", "theorems": ["C17_error_bound"], "note": "No lossless assumption. If every singular value of a cut is at most 1e-8 the code raises RuntimeError; this is the other branch of the theorem."},
"C18": {"status": "proved", "theorems": ["C18_single", "C18_every_mps"], "note": "All single-qubit gates and rotation/Hadamard layers, any bond dimensions; no SVD is called."},
"C19": {"status": "proved", "theorems": ["C19_two_qubit"], "note": "Any distance and order, any bond dimensions. For an MPS of the zero vector a RuntimeError is possible, which the theorem states as the only other outcome."},
"C20": {"status": "proved", "theorems": ["C20_toffoli"], "note": "Any three distinct wires in any order; zero vector as in C19."},
"C21": {"status": "proved", "theorems": ["C21_ring", "C21_constructed", "C21_other_wires"], "note": "N>=2, ring and dagger; other wire lists raise ValueError. Zero vector as in C19."},
"C22": {"status": "proved", "theorems": ["C22_evolution", "C22_wrong_length", "C22_unsupported_raises", "C22_unsupported"], "note": "Every sequence of operations that have a working TN_operation. An operation with supportTN=False always raises, and the error is ValueError when the operations before it succeed. Zero vector as in C19."},
"C23": {"status": "proved", "theorems": ["C23_gate", "C23_gate_operator", "C23_item", "C23_ring_wires_raise", "C23_rank_rejected"], "note": "Every gate class with TN_contract, single-gate layers, and CNOT rings on wires 0..N-1; rings on other wires raise ValueError (proved)."},
"C24": {"status": "proved", "theorems": ["C24_batched"], "note": "Every batch size, every gate and layer of C23."},
"C25": {"status": "proved", "theorems": ["C25_evolution", "C25_rank", "C25_unsupported"], "note": "Every sequence of the operations of C23, unbatched and batched, with error branches."},
"C26": {"status": "proved", "theorems": ["C26_modes_agree", "C26_empty"], "note": "Every MPS of N>=1 sites; the empty list raises in both modes."},
"C27": {"status": "proved", "theorems": ["C27_state", "C27_state_rejects", "C27_density", "C27_density_rejects"], "note": "Every N; every other shape raises ValueError."},
"C28": {"status": "partial", "theorems": ["C28_matrix_path", "C28_paths_agree_partial", "C28_fallback", "C28_flagged_but_missing", "C28_rejects_init"], "note": "Matrix path for every circuit; both paths agree when every operation has a TN_operation and truncation is lossless; fallback when an operation is flagged supportTN=False. A circuit with rxx, ryy or rzz is flagged but raises (C28_flagged_but_missing is the negation)."},
"C29": {"status": "proved", "theorems": ["C29_cir_real", "C29_cir_bound", "C29_cir_bound_tn", "C29_expval_vector", "C29_expval_density"], "note": "Real for Hermitian observables, within the norm bounds."},
"C30": {"status": "partial", "theorems": ["C30_inner_product_partial", "C30_thin_bond_raises", "C30_one_site_raises", "C30_returns_iff", "C30_product_state_raises"], "note": "Proved when all inner bonds have dimension at least 2; the code raises on every other input (squeeze removes bonds of dimension 1), which is proved as an equivalence."},
"C31": {"status": "partial", "theorems": ["C31_value", "C31_second_call_partial", "C31_second_call_value", "C31_second_call_differs"], "note": "The value of a call is proved in full. The call replaces the caller's sites, so repeating it gives the same value only for e.g. unitary observables; the value of the second call and a counterexample are proved."},
"C32": {"status": "partial", "theorems": ["C32_round_trip_partial", "C32_round_trip_value", "C32_phase_lost"], "note": "The round trip multiplies the density matrix by u / Re u with u the phase the SVD chose for the last one-column matrix; exact if that phase is real. A valid SVD with another phase gives a counterexample."},
"C33": {"status": "proved", "theorems": ["C33_partial_trace", "C33_keep_exists", "C33_rejects", "C33_negative_raises", "C33_repeated"], "note": "Any list of distinct wires in any order, any matrix of trace within 1e-4 of one; malformed arguments rejected. A repeated index is not rejected and traces a neighbouring qubit (characterised)."},
"C34": {"status": "proved", "theorems": ["C34_preserves", "C34_order", "C34_two_stages"], "note": "Trace, Hermiticity and positivity are kept; order of the list is irrelevant; tracing in two stages composes."},
"C35": {"status": "proved", "theorems": ["C35_old_agrees", "C35_ptrace_agrees", "C35_list"], "note": "partial_trace_old agrees on every square input and list, errors included; ptrace(rho, A, B) agrees with tracing out the last B qubits."},
"C36": {"status": "partial", "theorems": ["C36_measure_partial", "C36_range", "C36_vector_density", "C36_zero_measures_all", "C36_rejects"], "note": "Every request form on vectors and density matrices, except the integer 0, which measures all qubits (C36_zero_measures_all is the negation)."},
"C37": {"status": "proved", "theorems": ["C37_vector_density", "C37_unnormalised"], "note": "Vector and density matrix paths agree."},
"C38": {"status": "proved", "theorems": ["C38_unitary", "C38_hermitian", "C38_normalized", "C38_rejects"], "note": "Each predicate holds exactly when the entrywise tolerance statement does."},
"C39": {"status": "partial", "theorems": ["C39_adds_partial", "C39_counter_is_total_ever_added", "C39_clear_breaks", "C39_update_breaks"], "note": "Exact for histories of add; clear and params_update break it (negations proved); the counter is characterised for every history."},
"C40": {"status": "partial", "theorems": ["C40_gradient_matrix_partial", "C40_gradient_tn_partial", "C40_cu3_wrong"], "note": "Exact derivative for every parameter of every gate and layer except the controlled U3, on both evaluation paths; false for cu3 (counterexample: entry -sqrt 2, derivative -1)."},
"C41": {"status": "partial", "theorems": ["C41_unchanged_partial", "C41_unchanged_tn_partial", "C41_resets_to_recorded", "C41_update_lost", "C41_raise_leaves_shifted", "C41_clear_asserts"], "note": "Holds whenever cir_params is up to date; in general the gates are reset to the recorded parameters. False after params_update (update is lost) and after an exception (shifted parameters stay)."},
"C42": {"status": "partial", "theorems": ["C42_saved_gradient_partial", "C42_agrees_partial", "C42_u1_wrong", "C42_empty_raises"], "note": "Proved for every valid SVD routine, every non-empty circuit of operations with a working TN_operation, every non-zero input row and every observable that is an operation with Hermitian matrix (all Pauli gates included): the entries for parameters of rx, ry, rz, u3 and the rotation layers are the exact partial derivatives, equal to cal_params_grad. False for u1, cphase and cu3 (C42_u1_wrong: entry 0, derivative -2); the empty circuit raises IndexError (C42_empty_raises). Hypothesis: no non-zero singular value falls under the cutoff."},
"C43": {"status": "proved", "theorems": ["C43_encoded_state", "C43_too_long", "C43_empty_raises"], "note": "Exact complex arithmetic. The zero vector (NaN in the code) is excluded, as in the claim; an empty input raises TypeError."},
"C44": {"status": "proved", "theorems": ["C44_encoding", "C44_reading", "C44_unknown_axis", "C44_too_many", "C44_no_inputs"], "note": "Distinct valid wires, at least one input. The unknown axis is rejected at use, not by the constructor."},
"C45": {"status": "partial", "theorems": ["C45_real_partial", "C45_hermitian_iff", "C45_complex_wrong"], "note": "False as stated: PrepareRho does not conjugate. Proved for real amplitudes; C45_complex_wrong is the counterexample and C45_hermitian_iff says exactly when the result is Hermitian."},
"C46": {"status": "proved", "theorems": ["C46_density", "C46_value", "C46_complex_wrong"], "note": "Real rows, exact arithmetic. C46_complex_wrong shows that the docstring's complex input is not covered."},
"C47": {"status": "partial", "theorems": ["C47_same_U_partial", "C47_product", "C47_wrong"], "note": "False as stated: rxx/ryy/rzz with second qubit 0 act on the successor of the first qubit (C47_wrong; C47_product gives U() of the older class in general). Equality of U() proved for every sequence of gates of the older class without such rotations."},
"C48": {"status": "partial", "theorems": ["C48_step_partial", "C48_history_partial", "C48_assertion", "C48_not_atomic", "C48_cnot_wrong", "C48_mcnot_wrong"], "note": "False as stated: a call failing after its assertions has recorded the gate without its matrix, multi_control_cnot records no gate. The histories for which the lists stay in step are characterised exactly."},
"C49": {"status": "partial", "theorems": ["C49_rotation_partial", "C49_wrong", "C49_last_raises"], "note": "False for second qubit 0 (C49_wrong, C49_last_raises); proved for every ordered pair of distinct qubits with second qubit not 0."},
"C50": {"status": "partial", "theorems": ["C50_forward_partial", "C50_succeeds_iff", "C50_errors", "C50_overlap"], "note": "False as stated: the loops visit every multiple of the stride inside the image, so a window that does not fit raises IndexError (always if stride < kernel size), and kernel size 1 raises ValueError in cnot. C50_succeeds_iff characterises success exactly; C50_forward_partial proves that every output position is written exactly once with the specified value when all windows fit."},
"C51": {"status": "proved", "theorems": ["C51_two_sites", "C51_three_sites", "C51_rank"], "note": "Any tensor with positive bonds, any SVD meeting the contract: isometry, bond dimension, exact loss, restoration when lossless, RuntimeError when all singular values are negligible, ValueError for a wrong rank (three sites)."},
"C52": {"status": "proved", "theorems": ["C52_u1_u3_matrices"], "note": "Direct computation."},
"C53": {"status": "partial", "theorems": ["C53_check", "C53_accepts_partial", "C53_contract_partial", "C53_evolution_raises", "C53_contract_raises", "C53_contract_iff"], "note": "False as stated: rxx, ryy, rzz and CNOT rings on wires other than 0..N-1 are flagged supportTN=True but TN_evolution raises; such rings also break TN_contract_evolution. Proved for every circuit without these operations; C53_contract_iff characterises acceptance exactly."},
"C54": {"status": "partial", "theorems": ["C54_U_expand", "C54_contract_partial", "C54_operation_partial", "C54_contract_wrong_qubit", "C54_batch_wrong_qubit", "C54_batch_dimension", "C54_operation_equal", "C54_operation_negative", "C54_toffoli_target", "C54_swap_equal"], "note": "False as stated. Proved: U_expand rejects; TN_contract rejects except single gates on a negative wire; TN_operation rejects wires outside -N..N-1. Negations: single gates on negative wires act on another qubit (or on the batch dimension), cnot/cz/cphase/cu3 with equal or negative wires, toffoli with target equal to a control and SWAP with equal wires out of range are silently applied."},
"C55": {"status": "partial", "theorems": ["C55_expecval_partial", "C55_measure_partial", "C55_agrees", "C55_range", "C55_bad_target", "C55_bad_shape", "C55_bad_vector", "C55_state_row", "C55_row_value_wrong"], "note": "False as stated. Proved: values, shape, agreement with the newer measure and range for 2^N x 2^N matrices; bad targets and other column counts raise. Negation: a state vector given as a row is accepted and every qubit gets the real part of the first amplitude (torch.trace takes non-square matrices); for |1> this is 0 instead of -1."},
"C56": {"status": "proved", "theorems": ["C56_evolution", "C56_bound", "C56_from_vector", "C56_expectation", "C56_zero_input"], "note": "No losslessness assumption: holds whatever the cutoff removes. C56_zero_input shows that the RuntimeError branch is reached (zero vector)."},
"C57": {"status": "partial", "theorems": ["C57_rotation_partial", "C57_entangle_partial", "C57_pairs_partial", "C57_combined_partial", "C57_same_ring", "C57_rotation_raises", "C57_entangle_raises", "C57_combined_raises"], "note": "False as stated: qlayer.py binds cir to the class of qgate.py, so every function raises on every input (TypeError or AttributeError for valid arguments, ValueError otherwise); proved for all inputs. Partial: with any gate functions that return the matrices they are named after, every function of the file computes the specified operator for all N and all angles."},
"C58": {"status": "partial", "theorems": ["C58_rotation_layers", "C58_hadamard_layer", "C58_distinct_partial", "C58_paths_differ", "C58_block_lost", "C58_rings"], "note": "False as stated when a wire is listed twice: U_expand keeps the last block of angles once, the tensor-network paths apply it as often as the wire is listed. Exact behaviour of all paths proved for every wire list; the statement holds for distinct wires. Rings: exact characterisation of U_expand."},
"C59": {"status": "partial", "theorems": ["C59_U_partial", "C59_contract_raises", "C59_operation_wrong", "C59_operation_raises", "C59_paths_differ"], "note": "True of U_expand. toffoli.TN_contract raises AssertionError for every repeated control; toffoli.TN_operation takes the neighbouring qubit as second control (or raises at the last qubit), with a concrete state on which the paths differ."},
"C60": {"status": "proved", "theorems": ["C60_error_bound", "C60_accuracy", "C60_expectation", "C60_needs_conversion"], "note": "No assumption on singular values. C60_needs_conversion: the bound is about runs that start from a state vector; an arbitrary matrix product state of a normalised state can make one CNOT raise RuntimeError."},
"C61": {"status": "proved", "theorems": ["C61_matrix_contract", "C61_three_paths", "C61_close"], "note": "Matrix and contraction path agree for every circuit of operations with a TN_contract; all three agree exactly when no non-zero singular value is discarded, and within an a-priori bound without that hypothesis."},
"C62": {"status": "proved", "theorems": ["C62_measure", "C62_density", "C62_mps", "C62_close"], "note": "Matrix routes for every circuit; density-matrix routes for normalised states; matrix-product routes exactly without truncation and within 2*accuracy in general."},
"C63": {"status": "proved", "theorems": ["C63_program", "C63_evaluation"], "note": "Refinement between the object-level model (references, shared state) and the value-level model for whole programs."},
"C64": {"status": "partial", "theorems": ["C64_update_everywhere", "C64_gradient_matrix_partial", "C64_gradient_tn_partial", "C64_saved_gradient_partial", "C64_shared_wrong"], "note": "Exact value of every entry of cal_params_grad under sharing; right for objects that occur once; negation with witness for an object that occurs twice. cal_params_grad2 is right under the restrictions of C42."},
"C65": {"status": "proved", "theorems": ["C65_add_raises", "C65_all_added", "C65_matrix", "C65_expectation_raises", "C65_expectation_blocked", "C65_evolution_raises", "C65_gradient_raises"], "note": ""},
"C66": {"status": "proved", "theorems": ["C66_shift_gradient", "C66_saved_gradient", "C66_routines_close"], "note": "No assumption on singular values. The excluded parameters (controlled U3 for the shift rule, phases for the saved states) are those for which the exact rule is already wrong, C40_cu3_wrong and C42_u1_wrong."},
"C67": {"status": "proved", "theorems": ["C67_in_place", "C67_argument_evolved", "C67_argument_lost", "C67_second_run", "C67_failure_not_atomic", "C67_gate_not_atomic", "C67_batch", "C67_expectation", "C67_gradient", "C67_gradient_raises"], "note": "Lists are objects in a store; the in-place functions are modelled separately and proved to act on the store as the functions on values act on contents, for every argument including those that raise. Theorems that name a state assume that no decomposition discards a non-zero singular value."},
"C68": {"status": "proved", "theorems": ["C68_view_reads_same_memory", "C68_view_of_contiguous", "C68_expectation", "C68_evolution", "C68_contraction", "C68_matrix", "C68_conversions", "C68_energy"], "note": "Assumes that torch.matmul returns contiguous results and that every routine returns one stride per dimension (LayoutOK); nothing else is assumed about strides of results. view mirrors torch's computeStride. On one qubit, circuits of one-qubit operations only; MPS2StateVec of a list of length other than one (a one-element list is covered through cir_expectation)."},
"C69": {"status": "partial", "theorems": ["C69_rho_partial", "C69_other_layouts_raise", "C69_transposed"], "note": "False of the code in general: C69_other_layouts_raise proves RuntimeError for every layout whose rows do not lie one after the other, C69_transposed gives the transpose of a contiguous matrix. C69_rho_partial proves it for all other layouts."},
"C70": {"status": "partial", "theorems": ["C70_real_state_partial", "C70_matrix_path_raises", "C70_paths_disagree", "C70_returned_types", "C70_contraction_raises", "C70_mps_type", "C70_real_rho_raises", "C70_real_rho_error"], "note": "False of the code in general: the matrix path raises for every state that is not complex64 (C70_matrix_path_raises, C70_paths_disagree), real observables and density matrices are rejected (C70_returned_types, C70_real_rho_raises). C70_real_state_partial proves it for states on the tensor-network path."},
"C71": {"status": "partial", "theorems": ["C71_precision_partial", "C71_double_raises"], "note": "False of the code in general: C71_double_raises proves that float64 parameters of u1, cphase and layers of rotations make every route raise. C71_precision_partial proves it for all other operations."},
"C72": {"status": "partial", "theorems": ["C72_matrix", "C72_contract", "C72_batched", "C72_batched_partial", "C72_batched_wrong", "C72_empty", "C72_empty_kind"], "note": "False of the batched forward: C72_batched says what it returns for every input, C72_batched_wrong gives inputs for every N on which it has the opposite sign, C72_batched_partial proves agreement for real final states. C72_matrix and C72_contract prove the claim for the three other methods."},
"C73": {"status": "proved", "theorems": ["C73_forward", "C73_forward_exact", "C73_gradient", "C73_train", "C73_train2", "C73_four"], "note": "The bound needs accuracy < 1 (what may be discarded is less than the norm of the state), true for every N up to at least 40; C73_four instantiates the numbers of the file without hypothesis."},
"C74": {"status": "partial", "theorems": ["C74_backward_partial", "C74_last_zero", "C74_last_entry", "C74_last_wrong", "C74_observable_ignored", "C74_batch", "C74_empty", "C74_six", "C74_empty_kind"], "note": "Proved for the 7N rotation angles and for the forward pass and the batch; false of the code for the parameter of the controlled phase, as C74_last_zero and C74_last_wrong show; C74_last_entry says what is returned for it. Autograd itself is not modelled: backward is a function of what forward kept and of grad_output."},
"C75": {"status": "proved", "theorems": ["C75_qnn", "C75_qcnn", "C75_range", "C75_free", "C75_free_raises", "C75_free_mean"], "note": "Only the circuits (qcir) are modelled, not the linear layers and the training loops."},
"C76": {"status": "proved", "theorems": ["C76_born", "C76_distribution"], "note": "Exact arithmetic; the losses and the training loop are not modelled."},
"C77": {"status": "proved", "theorems": ["C77_shadow", "C77_empty", "C77_too_long", "C77_norm", "C77_range"], "note": "The number of repetitions is a parameter (the demo has 2 in one version and 4 in the other). The linear layer and the training loop are not modelled."},
"C78": {"status": "proved", "theorems": ["C78_same_state", "C78_same_calls", "C78_script", "C78_cu_differs"], "note": "Qiskit's gates and index order are specified from its documentation (qCallOp, qiskitState); its simulator is not modelled. Rounding is any function within half a unit of the fourth decimal."},
"C79": {"status": "proved", "theorems": ["C79_state", "C79_loss", "C79_counter", "C79_uncompute"], "note": "The counter and its inverse are stated for the Qiskit calls, which are the calls of Circuit by C78_same_calls."},
"C80": {"status": "proved", "theorems": ["C80_info", "C80_same", "C80_update", "C80_dagger", "C80_circuit", "C80_missing", "C80_repeat"], "note": "The table that says what a label stands for is Verif/SpecInfo.lean; it does not mention the model's operations."},
"C81": {"status": "proved", "theorems": ["C81_circuit", "C81_net", "C81_range", "C81_loss", "C81_class", "C81_bloch", "C81_edges", "C81_labels"], "note": "Exact arithmetic; torch.arcsin outside of [-1,1] (NaN) is outside the model."},
"C82": {"status": "proved", "theorems": ["C82_diagonals", "C82_loop", "C82_overlaps", "C82_script"], "note": "Exact arithmetic apart from the truncation of singular values; the random draws are quantified."},
"C83": {"status": "proved", "theorems": ["C83_evolution", "C83_same_circuit", "C83_fourteen", "C83_gates", "C83_batch"], "note": "Exact arithmetic apart from the truncation of singular values; the random draws are quantified, the timing is left out."},
"C84": {"status": "proved", "theorems": ["C84_labels", "C84_build", "C84_forward", "C84_never", "C84_unused"], "note": "The linear layers and the export behind the failing call are not modelled."},
"C85": {"status": "proved", "theorems": ["C85_canonical", "C85_norm_le", "C85_lower_bound", "C85_minimal", "C85_product", "C85_bell"], "note": "The Schmidt rank is the rank of the matrix of amplitudes with rows given by the first k bits and columns by the others (SpecCut.lean)."},
"C86": {"status": "proved", "theorems": ["C86_sites", "C86_circuit_sites", "C86_bonds", "C86_product", "C86_crossed"], "note": "spans, crosses and HasBonds are defined in SpecSpan.lean on the abstract circuit, not on the model."},
"C87": {"status": "proved", "theorems": ["C87_commute", "C87_partial_trace", "C87_expectation", "C87_measure"], "note": "cir_expectation is taken with TN=False, where nothing is decomposed; its agreement with the tensor-network path is C28. The density matrix after the circuit is U @ rho @ dag(U), as the library writes it in its quanvolution demo."},
"C88": {"status": "proved", "theorems": ["C88_target", "C88_loss", "C88_script", "C88_rate"], "note": "Exact reals; the value inf of the loss is modelled, nan is not. The optimizer and the gradient are an arbitrary function of its state, the weights and the learning rate."},
"C89": {"status": "partial", "theorems": ["C89_multi_kron_shape", "C89_tests_partial", "C89_bad_call", "C89_test_measure", "C89_repaired"], "note": "False of the code for test_measure: it calls measure with keywords the function does not have, which is a TypeError (C89_test_measure). With the arguments measure asks for, the call returns the expectation value zero (C89_repaired)."},
"C90": {"status": "proved", "theorems": ["C90_growth", "C90_neighbours", "C90_product", "C90_reached"], "note": "Either the evolution raises RuntimeError (all singular values below the cutoff) or the bound holds."},
"C91": {"status": "proved", "theorems": ["C91_qnn", "C91_qcnn", "C91_train", "C91_classify", "C91_parameter", "C91_cu3", "C91_weight", "C91_period", "C91_limit", "C91_limit_qcnn", "C91_limit_train", "C91_limit_classify", "C91_reached"], "note": "The limits are stated for one varied entry of one sample; the tensor network variant of test_TN_train2.py is compared with the matrix variants in C72."},
"C92": {"status": "partial", "theorems": ["C92_net", "C92_loss", "C92_batches", "C92_batch_zero", "C92_epoch", "C92_train", "C92_no_samples", "C92_reported_partial", "C92_reported_false", "C92_bounded", "C92_period"], "note": "All proved except the last sentence, which is false of the code: an epoch reports the error on its last batch only, with the parameters before the last step (C92_epoch; witness C92_reported_false). It is true if one batch holds all samples (C92_reported_partial)."},
"C93": {"status": "partial", "theorems": ["C93_net", "C93_sizes", "C93_prob", "C93_loss", "C93_batches", "C93_epoch", "C93_train", "C93_test", "C93_accuracy_partial", "C93_accuracy_false", "C93_test_loss_partial", "C93_test_loss_false", "C93_empty", "C93_script"], "note": "All proved except that the printed loss and accuracy are those of the test images, which is false of the code. The accuracy divides by the number of batches times the batch size: it is right if and only if the last batch is full or nothing is recognised (C93_accuracy_partial), and with the constants of the script it is 25 percent for a correctly classified image (C93_accuracy_false). The loss averages over batches (C93_test_loss_partial, C93_test_loss_false)."},
"C94": {"status": "partial", "theorems": ["C94_net", "C94_too_long", "C94_scale", "C94_output", "C94_loss", "C94_epoch", "C94_train", "C94_accuracy", "C94_reported_partial", "C94_reported_false"], "note": "All proved except that the number reported for an epoch is the mean loss of the samples, which is false of the code: it is the loss of the last batch only (C94_epoch; witness C94_reported_false). It is true if one batch holds all samples (C94_reported_partial)."},
"C95": {"status": "proved", "theorems": ["C95_laws", "C95_replace", "C95_rewrite", "C95_contract", "C95_universal", "C95_period"], "note": "The laws (SpecRewrite.lean) mention only gates and angles. That they hold of what the code builds is checked against the matrices the model returns, so they also validate the gate specification of C01-C12: no gate has a wrong sign, angle or qubit order relative to the others."},
"C96": {"status": "proved", "theorems": ["C96_state", "C96_expectation", "C96_partial", "C96_gradient", "C96_qnn", "C96_net", "C96_train", "C96_sharp", "C96_state_sharp"], "note": "In exact arithmetic. C96_gradient covers the matrix path (circuits with an operation flagged supportTN=False), where cal_params_grad decomposes nothing."},
"C97": {"status": "proved", "theorems": ["C97_canonical", "C97_loss", "C97_returns", "C97_density", "C97_raises", "C97_lower_bound", "C97_minimal", "C97_product", "C97_pure", "C97_round_trip", "C97_accuracy"], "note": "In exact arithmetic. The phase of the last decomposition is a choice of the SVD routine (see C32); C97_round_trip states the result for every choice, C97_accuracy for routines that choose a real one."},
"C98": {"status": "proved", "theorems": ["C98_net", "C98_range", "C98_net1", "C98_loss", "C98_loss2", "C98_epoch", "C98_train", "C98_plotted", "C98_ring", "C98_fit", "C98_hybrid_fit", "C98_fit_loss", "C98_hybrid_loss", "C98_limit"], "note": "The weights are exhibited, not found by training: the theorems say what the networks can represent. C98_train holds for every network that answers; answers_net2 and answers_net1 show that both do."},
"C99": {"status": "proved", "theorems": ["C99_wave", "C99_product", "C99_degree", "C99_represent", "C99_target", "C99_loss"], "note": "The weights are shown to exist, not found by training. C99_target and C99_loss are about the modelled qnet.forward and loss; the values of the circuits are tied to the code by C75 and C92."}
}
