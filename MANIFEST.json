{
 "claims": [
  {
   "property": "C01",
   "status": "proved",
   "theorems": [
    "QTN.Props.C01_single_qubit_gate",
    "QTN.Props.C01_rejects"
   ],
   "note": "All one-qubit gate classes, every N, wire and parameter; out-of-range wires raise."
  },
  {
   "property": "C02",
   "status": "proved",
   "theorems": [
    "QTN.Props.C02_controlled_gates",
    "QTN.Props.C02_cnot_on_basis",
    "QTN.Props.C02_rejects"
   ],
   "note": "cnot, cz, cphase, cu3 in both orientations; equal or out-of-range wires raise."
  },
  {
   "property": "C03",
   "status": "proved",
   "theorems": [
    "QTN.Props.C03_multi_controlled_not",
    "QTN.Props.C03_on_basis",
    "QTN.Props.C03_rejects"
   ],
   "note": "toffoli and multi_control_cnot with any control list."
  },
  {
   "property": "C04",
   "status": "partial",
   "theorems": [
    "QTN.Props.C04_swap",
    "QTN.Props.C04_symmetric",
    "QTN.Props.C04_equal_wires_accepted"
   ],
   "note": "Exchange and symmetry proved. The expectation that equal wires are rejected is false of the code: C04_equal_wires_accepted is the negation."
  },
  {
   "property": "C05",
   "status": "proved",
   "theorems": [
    "QTN.Props.C05_pauli_rotations",
    "QTN.Props.C05_symmetric",
    "QTN.Props.C05_rejects"
   ],
   "note": "Bad wires always raise, but as IndexError when only the second wire is too large."
  },
  {
   "property": "C06",
   "status": "proved",
   "theorems": [
    "QTN.Props.C06_unitary",
    "QTN.Props.C06_gates_unitary"
   ],
   "note": "Every gate and layer class on distinct in-range wires."
  },
  {
   "property": "C07",
   "status": "partial",
   "theorems": [
    "QTN.Props.C07_dagger_partial",
    "QTN.Props.C07_gates_dagger",
    "QTN.Props.C07_double_dagger",
    "QTN.Props.C07_ring2_and_basic_return_none"
   ],
   "note": "Adjoint whenever an operation is returned; ring_of_cnot2 and BasicEntangleLayer return None (negation proved)."
  },
  {
   "property": "C08",
   "status": "partial",
   "theorems": [
    "QTN.Props.C08_params_update",
    "QTN.Props.C08_update_history",
    "QTN.Props.C08_layer_history",
    "QTN.Props.C08_basic_history",
    "QTN.Props.C08_layer_wrong_length_accepted"
   ],
   "note": "Identical object state for all updates acceptable to the constructor. Layers accept updates of the wrong length that the constructor rejects (negation proved)."
  },
  {
   "property": "C09",
   "status": "proved",
   "theorems": [
    "QTN.Props.C09_rotation_layers",
    "QTN.Props.C09_hadamard_layer",
    "QTN.Props.C09_xyz_wire",
    "QTN.Props.C09_rejects"
   ],
   "note": "All seven single-qubit layer classes."
  },
  {
   "property": "C10",
   "status": "proved",
   "theorems": [
    "QTN.Props.C10_ring_of_cnot",
    "QTN.Props.C10_ring_of_cnot_dagger",
    "QTN.Props.C10_fused_path",
    "QTN.Props.C10_rejects"
   ],
   "note": "Generic, two-wire and fused path."
  },
  {
   "property": "C11",
   "status": "proved",
   "theorems": [
    "QTN.Props.C11_ring_of_cnot2",
    "QTN.Props.C11_fused_path"
   ],
   "note": "Generic, two-wire and fused path."
  },
  {
   "property": "C12",
   "status": "proved",
   "theorems": [
    "QTN.Props.C12_basic_entangle_layer",
    "QTN.Props.C12_rejects"
   ],
   "note": "Initially and after every history of updates of the right length."
  },
  {
   "property": "C13",
   "status": "proved",
   "theorems": [
    "QTN.Props.C13_circuit_U",
    "QTN.Props.C13_items",
    "QTN.Props.C13_empty",
    "QTN.Props.C13_concat",
    "QTN.Props.C13_raises"
   ],
   "note": "Both orders, empty circuit, concatenation, error branch."
  },
  {
   "property": "C14",
   "status": "proved",
   "theorems": [
    "QTN.Props.C14_norm",
    "QTN.Props.C14_from_state_init"
   ],
   "note": "Exact arithmetic."
  },
  {
   "property": "C15",
   "status": "proved",
   "theorems": [
    "QTN.Props.C15_dagger_circuit"
   ],
   "note": "Every sequence of operations whose class implements operation_dagger."
  },
  {
   "property": "C16",
   "status": "proved",
   "theorems": [
    "QTN.Props.C16_round_trip",
    "QTN.Props.C16_one_qubit",
    "QTN.Props.C16_zero_raises",
    "QTN.Props.C16_rejects"
   ],
   "note": "Every non-zero psi and every SVD routine meeting the contract. The zero vector is not a state: with N>=2 it raises RuntimeError (C16_zero_raises)."
  },
  {
   "property": "C17",
   "status": "proved",
   "theorems": [
    "QTN.Props.C17_error_bound"
   ],
   "note": "No lossless assumption. If every singular value of a cut is at most 1e-8 the code raises RuntimeError; this is the other branch of the theorem."
  },
  {
   "property": "C18",
   "status": "proved",
   "theorems": [
    "QTN.Props.C18_single",
    "QTN.Props.C18_every_mps"
   ],
   "note": "All single-qubit gates and rotation/Hadamard layers, any bond dimensions; no SVD is called."
  },
  {
   "property": "C19",
   "status": "proved",
   "theorems": [
    "QTN.Props.C19_two_qubit"
   ],
   "note": "Any distance and order, any bond dimensions. For an MPS of the zero vector a RuntimeError is possible, which the theorem states as the only other outcome."
  },
  {
   "property": "C20",
   "status": "proved",
   "theorems": [
    "QTN.Props.C20_toffoli"
   ],
   "note": "Any three distinct wires in any order; zero vector as in C19."
  },
  {
   "property": "C21",
   "status": "proved",
   "theorems": [
    "QTN.Props.C21_ring",
    "QTN.Props.C21_constructed",
    "QTN.Props.C21_other_wires"
   ],
   "note": "N>=2, ring and dagger; other wire lists raise ValueError. Zero vector as in C19."
  },
  {
   "property": "C22",
   "status": "proved",
   "theorems": [
    "QTN.Props.C22_evolution",
    "QTN.Props.C22_wrong_length",
    "QTN.Props.C22_unsupported_raises",
    "QTN.Props.C22_unsupported"
   ],
   "note": "Every sequence of operations that have a working TN_operation. An operation with supportTN=False always raises, and the error is ValueError when the operations before it succeed. Zero vector as in C19."
  },
  {
   "property": "C23",
   "status": "proved",
   "theorems": [
    "QTN.Props.C23_gate",
    "QTN.Props.C23_gate_operator",
    "QTN.Props.C23_item",
    "QTN.Props.C23_ring_wires_raise",
    "QTN.Props.C23_rank_rejected"
   ],
   "note": "Every gate class with TN_contract, single-gate layers, and CNOT rings on wires 0..N-1; rings on other wires raise ValueError (proved)."
  },
  {
   "property": "C24",
   "status": "proved",
   "theorems": [
    "QTN.Props.C24_batched"
   ],
   "note": "Every batch size, every gate and layer of C23."
  },
  {
   "property": "C25",
   "status": "proved",
   "theorems": [
    "QTN.Props.C25_evolution",
    "QTN.Props.C25_rank",
    "QTN.Props.C25_unsupported"
   ],
   "note": "Every sequence of the operations of C23, unbatched and batched, with error branches."
  },
  {
   "property": "C26",
   "status": "proved",
   "theorems": [
    "QTN.Props.C26_modes_agree",
    "QTN.Props.C26_empty"
   ],
   "note": "Every MPS of N>=1 sites; the empty list raises in both modes."
  },
  {
   "property": "C27",
   "status": "proved",
   "theorems": [
    "QTN.Props.C27_state",
    "QTN.Props.C27_state_rejects",
    "QTN.Props.C27_density",
    "QTN.Props.C27_density_rejects"
   ],
   "note": "Every N; every other shape raises ValueError."
  },
  {
   "property": "C28",
   "status": "partial",
   "theorems": [
    "QTN.Props.C28_matrix_path",
    "QTN.Props.C28_paths_agree_partial",
    "QTN.Props.C28_fallback",
    "QTN.Props.C28_flagged_but_missing",
    "QTN.Props.C28_rejects_init"
   ],
   "note": "Matrix path for every circuit; both paths agree when every operation has a TN_operation and truncation is lossless; fallback when an operation is flagged supportTN=False. A circuit with rxx, ryy or rzz is flagged but raises (C28_flagged_but_missing is the negation)."
  },
  {
   "property": "C29",
   "status": "proved",
   "theorems": [
    "QTN.Props.C29_cir_real",
    "QTN.Props.C29_cir_bound",
    "QTN.Props.C29_cir_bound_tn",
    "QTN.Props.C29_expval_vector",
    "QTN.Props.C29_expval_density"
   ],
   "note": "Real for Hermitian observables, within the norm bounds."
  },
  {
   "property": "C30",
   "status": "partial",
   "theorems": [
    "QTN.Props.C30_inner_product_partial",
    "QTN.Props.C30_thin_bond_raises",
    "QTN.Props.C30_one_site_raises",
    "QTN.Props.C30_returns_iff",
    "QTN.Props.C30_product_state_raises"
   ],
   "note": "Proved when all inner bonds have dimension at least 2; the code raises on every other input (squeeze removes bonds of dimension 1), which is proved as an equivalence."
  },
  {
   "property": "C31",
   "status": "partial",
   "theorems": [
    "QTN.Props.C31_value",
    "QTN.Props.C31_second_call_partial",
    "QTN.Props.C31_second_call_value",
    "QTN.Props.C31_second_call_differs"
   ],
   "note": "The value of a call is proved in full. The call replaces the caller's sites, so repeating it gives the same value only for e.g. unitary observables; the value of the second call and a counterexample are proved."
  },
  {
   "property": "C32",
   "status": "partial",
   "theorems": [
    "QTN.Props.C32_round_trip_partial",
    "QTN.Props.C32_round_trip_value",
    "QTN.Props.C32_phase_lost"
   ],
   "note": "The round trip multiplies the density matrix by u / Re u with u the phase the SVD chose for the last one-column matrix; exact if that phase is real. A valid SVD with another phase gives a counterexample."
  },
  {
   "property": "C33",
   "status": "proved",
   "theorems": [
    "QTN.Props.C33_partial_trace",
    "QTN.Props.C33_keep_exists",
    "QTN.Props.C33_rejects",
    "QTN.Props.C33_negative_raises",
    "QTN.Props.C33_repeated"
   ],
   "note": "Any list of distinct wires in any order, any matrix of trace within 1e-4 of one; malformed arguments rejected. A repeated index is not rejected and traces a neighbouring qubit (characterised)."
  },
  {
   "property": "C34",
   "status": "proved",
   "theorems": [
    "QTN.Props.C34_preserves",
    "QTN.Props.C34_order",
    "QTN.Props.C34_two_stages"
   ],
   "note": "Trace, Hermiticity and positivity are kept; order of the list is irrelevant; tracing in two stages composes."
  },
  {
   "property": "C35",
   "status": "proved",
   "theorems": [
    "QTN.Props.C35_old_agrees",
    "QTN.Props.C35_ptrace_agrees",
    "QTN.Props.C35_list"
   ],
   "note": "partial_trace_old agrees on every square input and list, errors included; ptrace(rho, A, B) agrees with tracing out the last B qubits."
  },
  {
   "property": "C36",
   "status": "partial",
   "theorems": [
    "QTN.Props.C36_measure_partial",
    "QTN.Props.C36_range",
    "QTN.Props.C36_vector_density",
    "QTN.Props.C36_zero_measures_all",
    "QTN.Props.C36_rejects"
   ],
   "note": "Every request form on vectors and density matrices, except the integer 0, which measures all qubits (C36_zero_measures_all is the negation)."
  },
  {
   "property": "C37",
   "status": "proved",
   "theorems": [
    "QTN.Props.C37_vector_density",
    "QTN.Props.C37_unnormalised"
   ],
   "note": "Vector and density matrix paths agree."
  },
  {
   "property": "C38",
   "status": "proved",
   "theorems": [
    "QTN.Props.C38_unitary",
    "QTN.Props.C38_hermitian",
    "QTN.Props.C38_normalized",
    "QTN.Props.C38_rejects"
   ],
   "note": "Each predicate holds exactly when the entrywise tolerance statement does."
  },
  {
   "property": "C39",
   "status": "partial",
   "theorems": [
    "QTN.Props.C39_adds_partial",
    "QTN.Props.C39_counter_is_total_ever_added",
    "QTN.Props.C39_clear_breaks",
    "QTN.Props.C39_update_breaks"
   ],
   "note": "Exact for histories of add; clear and params_update break it (negations proved); the counter is characterised for every history."
  },
  {
   "property": "C40",
   "status": "partial",
   "theorems": [
    "QTN.Props.C40_gradient_matrix_partial",
    "QTN.Props.C40_gradient_tn_partial",
    "QTN.Props.C40_cu3_wrong"
   ],
   "note": "Exact derivative for every parameter of every gate and layer except the controlled U3, on both evaluation paths; false for cu3 (counterexample: entry -sqrt 2, derivative -1)."
  },
  {
   "property": "C41",
   "status": "partial",
   "theorems": [
    "QTN.Props.C41_unchanged_partial",
    "QTN.Props.C41_unchanged_tn_partial",
    "QTN.Props.C41_resets_to_recorded",
    "QTN.Props.C41_update_lost",
    "QTN.Props.C41_raise_leaves_shifted",
    "QTN.Props.C41_clear_asserts"
   ],
   "note": "Holds whenever cir_params is up to date; in general the gates are reset to the recorded parameters. False after params_update (update is lost) and after an exception (shifted parameters stay)."
  },
  {
   "property": "C42",
   "status": "partial",
   "theorems": [
    "QTN.Props.C42_saved_gradient_partial",
    "QTN.Props.C42_agrees_partial",
    "QTN.Props.C42_u1_wrong",
    "QTN.Props.C42_empty_raises"
   ],
   "note": "Proved for every valid SVD routine, every non-empty circuit of operations with a working TN_operation, every non-zero input row and every observable that is an operation with Hermitian matrix (all Pauli gates included): the entries for parameters of rx, ry, rz, u3 and the rotation layers are the exact partial derivatives, equal to cal_params_grad. False for u1, cphase and cu3 (C42_u1_wrong: entry 0, derivative -2); the empty circuit raises IndexError (C42_empty_raises). Hypothesis: no non-zero singular value falls under the cutoff."
  },
  {
   "property": "C43",
   "status": "proved",
   "theorems": [
    "QTN.Props.C43_encoded_state",
    "QTN.Props.C43_too_long",
    "QTN.Props.C43_empty_raises"
   ],
   "note": "Exact complex arithmetic. The zero vector (NaN in the code) is excluded, as in the claim; an empty input raises TypeError."
  },
  {
   "property": "C44",
   "status": "proved",
   "theorems": [
    "QTN.Props.C44_encoding",
    "QTN.Props.C44_reading",
    "QTN.Props.C44_unknown_axis",
    "QTN.Props.C44_too_many",
    "QTN.Props.C44_no_inputs"
   ],
   "note": "Distinct valid wires, at least one input. The unknown axis is rejected at use, not by the constructor."
  },
  {
   "property": "C45",
   "status": "partial",
   "theorems": [
    "QTN.Props.C45_real_partial",
    "QTN.Props.C45_hermitian_iff",
    "QTN.Props.C45_complex_wrong"
   ],
   "note": "False as stated: PrepareRho does not conjugate. Proved for real amplitudes; C45_complex_wrong is the counterexample and C45_hermitian_iff says exactly when the result is Hermitian."
  },
  {
   "property": "C46",
   "status": "proved",
   "theorems": [
    "QTN.Props.C46_density",
    "QTN.Props.C46_value",
    "QTN.Props.C46_complex_wrong"
   ],
   "note": "Real rows, exact arithmetic. C46_complex_wrong shows that the docstring's complex input is not covered."
  },
  {
   "property": "C47",
   "status": "partial",
   "theorems": [
    "QTN.Props.C47_same_U_partial",
    "QTN.Props.C47_product",
    "QTN.Props.C47_wrong"
   ],
   "note": "False as stated: rxx/ryy/rzz with second qubit 0 act on the successor of the first qubit (C47_wrong; C47_product gives U() of the older class in general). Equality of U() proved for every sequence of gates of the older class without such rotations."
  },
  {
   "property": "C48",
   "status": "partial",
   "theorems": [
    "QTN.Props.C48_step_partial",
    "QTN.Props.C48_history_partial",
    "QTN.Props.C48_assertion",
    "QTN.Props.C48_not_atomic",
    "QTN.Props.C48_cnot_wrong",
    "QTN.Props.C48_mcnot_wrong"
   ],
   "note": "False as stated: a call failing after its assertions has recorded the gate without its matrix, multi_control_cnot records no gate. The histories for which the lists stay in step are characterised exactly."
  },
  {
   "property": "C49",
   "status": "partial",
   "theorems": [
    "QTN.Props.C49_rotation_partial",
    "QTN.Props.C49_wrong",
    "QTN.Props.C49_last_raises"
   ],
   "note": "False for second qubit 0 (C49_wrong, C49_last_raises); proved for every ordered pair of distinct qubits with second qubit not 0."
  },
  {
   "property": "C50",
   "status": "partial",
   "theorems": [
    "QTN.Props.C50_forward_partial",
    "QTN.Props.C50_succeeds_iff",
    "QTN.Props.C50_errors",
    "QTN.Props.C50_overlap"
   ],
   "note": "False as stated: the loops visit every multiple of the stride inside the image, so a window that does not fit raises IndexError (always if stride < kernel size), and kernel size 1 raises ValueError in cnot. C50_succeeds_iff characterises success exactly; C50_forward_partial proves that every output position is written exactly once with the specified value when all windows fit."
  },
  {
   "property": "C51",
   "status": "proved",
   "theorems": [
    "QTN.Props.C51_two_sites",
    "QTN.Props.C51_three_sites",
    "QTN.Props.C51_rank"
   ],
   "note": "Any tensor with positive bonds, any SVD meeting the contract: isometry, bond dimension, exact loss, restoration when lossless, RuntimeError when all singular values are negligible, ValueError for a wrong rank (three sites)."
  },
  {
   "property": "C52",
   "status": "proved",
   "theorems": [
    "QTN.Props.C52_u1_u3_matrices"
   ],
   "note": "Direct computation."
  },
  {
   "property": "C53",
   "status": "partial",
   "theorems": [
    "QTN.Props.C53_check",
    "QTN.Props.C53_accepts_partial",
    "QTN.Props.C53_contract_partial",
    "QTN.Props.C53_evolution_raises",
    "QTN.Props.C53_contract_raises",
    "QTN.Props.C53_contract_iff"
   ],
   "note": "False as stated: rxx, ryy, rzz and CNOT rings on wires other than 0..N-1 are flagged supportTN=True but TN_evolution raises; such rings also break TN_contract_evolution. Proved for every circuit without these operations; C53_contract_iff characterises acceptance exactly."
  },
  {
   "property": "C54",
   "status": "partial",
   "theorems": [
    "QTN.Props.C54_U_expand",
    "QTN.Props.C54_contract_partial",
    "QTN.Props.C54_operation_partial",
    "QTN.Props.C54_contract_wrong_qubit",
    "QTN.Props.C54_batch_wrong_qubit",
    "QTN.Props.C54_batch_dimension",
    "QTN.Props.C54_operation_equal",
    "QTN.Props.C54_operation_negative",
    "QTN.Props.C54_toffoli_target",
    "QTN.Props.C54_swap_equal"
   ],
   "note": "False as stated. Proved: U_expand rejects; TN_contract rejects except single gates on a negative wire; TN_operation rejects wires outside -N..N-1. Negations: single gates on negative wires act on another qubit (or on the batch dimension), cnot/cz/cphase/cu3 with equal or negative wires, toffoli with target equal to a control and SWAP with equal wires out of range are silently applied."
  },
  {
   "property": "C55",
   "status": "partial",
   "theorems": [
    "QTN.Props.C55_expecval_partial",
    "QTN.Props.C55_measure_partial",
    "QTN.Props.C55_agrees",
    "QTN.Props.C55_range",
    "QTN.Props.C55_bad_target",
    "QTN.Props.C55_bad_shape",
    "QTN.Props.C55_bad_vector",
    "QTN.Props.C55_state_row",
    "QTN.Props.C55_row_value_wrong"
   ],
   "note": "False as stated. Proved: values, shape, agreement with the newer measure and range for 2^N x 2^N matrices; bad targets and other column counts raise. Negation: a state vector given as a row is accepted and every qubit gets the real part of the first amplitude (torch.trace takes non-square matrices); for |1> this is 0 instead of -1."
  },
  {
   "property": "C56",
   "status": "proved",
   "theorems": [
    "QTN.Props.C56_evolution",
    "QTN.Props.C56_bound",
    "QTN.Props.C56_from_vector",
    "QTN.Props.C56_expectation",
    "QTN.Props.C56_zero_input"
   ],
   "note": "No losslessness assumption: holds whatever the cutoff removes. C56_zero_input shows that the RuntimeError branch is reached (zero vector)."
  },
  {
   "property": "C57",
   "status": "partial",
   "theorems": [
    "QTN.Props.C57_rotation_partial",
    "QTN.Props.C57_entangle_partial",
    "QTN.Props.C57_pairs_partial",
    "QTN.Props.C57_combined_partial",
    "QTN.Props.C57_same_ring",
    "QTN.Props.C57_rotation_raises",
    "QTN.Props.C57_entangle_raises",
    "QTN.Props.C57_combined_raises"
   ],
   "note": "False as stated: qlayer.py binds cir to the class of qgate.py, so every function raises on every input (TypeError or AttributeError for valid arguments, ValueError otherwise); proved for all inputs. Partial: with any gate functions that return the matrices they are named after, every function of the file computes the specified operator for all N and all angles."
  },
  {
   "property": "C58",
   "status": "partial",
   "theorems": [
    "QTN.Props.C58_rotation_layers",
    "QTN.Props.C58_hadamard_layer",
    "QTN.Props.C58_distinct_partial",
    "QTN.Props.C58_paths_differ",
    "QTN.Props.C58_block_lost",
    "QTN.Props.C58_rings"
   ],
   "note": "False as stated when a wire is listed twice: U_expand keeps the last block of angles once, the tensor-network paths apply it as often as the wire is listed. Exact behaviour of all paths proved for every wire list; the statement holds for distinct wires. Rings: exact characterisation of U_expand."
  },
  {
   "property": "C59",
   "status": "partial",
   "theorems": [
    "QTN.Props.C59_U_partial",
    "QTN.Props.C59_contract_raises",
    "QTN.Props.C59_operation_wrong",
    "QTN.Props.C59_operation_raises",
    "QTN.Props.C59_paths_differ"
   ],
   "note": "True of U_expand. toffoli.TN_contract raises AssertionError for every repeated control; toffoli.TN_operation takes the neighbouring qubit as second control (or raises at the last qubit), with a concrete state on which the paths differ."
  },
  {
   "property": "C60",
   "status": "proved",
   "theorems": [
    "QTN.Props.C60_error_bound",
    "QTN.Props.C60_accuracy",
    "QTN.Props.C60_expectation",
    "QTN.Props.C60_needs_conversion"
   ],
   "note": "No assumption on singular values. C60_needs_conversion: the bound is about runs that start from a state vector; an arbitrary matrix product state of a normalised state can make one CNOT raise RuntimeError."
  },
  {
   "property": "C61",
   "status": "proved",
   "theorems": [
    "QTN.Props.C61_matrix_contract",
    "QTN.Props.C61_three_paths",
    "QTN.Props.C61_close"
   ],
   "note": "Matrix and contraction path agree for every circuit of operations with a TN_contract; all three agree exactly when no non-zero singular value is discarded, and within an a-priori bound without that hypothesis."
  },
  {
   "property": "C62",
   "status": "proved",
   "theorems": [
    "QTN.Props.C62_measure",
    "QTN.Props.C62_density",
    "QTN.Props.C62_mps",
    "QTN.Props.C62_close"
   ],
   "note": "Matrix routes for every circuit; density-matrix routes for normalised states; matrix-product routes exactly without truncation and within 2*accuracy in general."
  },
  {
   "property": "C63",
   "status": "proved",
   "theorems": [
    "QTN.Props.C63_program",
    "QTN.Props.C63_evaluation"
   ],
   "note": "Refinement between the object-level model (references, shared state) and the value-level model for whole programs."
  },
  {
   "property": "C64",
   "status": "partial",
   "theorems": [
    "QTN.Props.C64_update_everywhere",
    "QTN.Props.C64_gradient_matrix_partial",
    "QTN.Props.C64_gradient_tn_partial",
    "QTN.Props.C64_saved_gradient_partial",
    "QTN.Props.C64_shared_wrong"
   ],
   "note": "Exact value of every entry of cal_params_grad under sharing; right for objects that occur once; negation with witness for an object that occurs twice. cal_params_grad2 is right under the restrictions of C42."
  },
  {
   "property": "C65",
   "status": "proved",
   "theorems": [
    "QTN.Props.C65_add_raises",
    "QTN.Props.C65_all_added",
    "QTN.Props.C65_matrix",
    "QTN.Props.C65_expectation_raises",
    "QTN.Props.C65_expectation_blocked",
    "QTN.Props.C65_evolution_raises",
    "QTN.Props.C65_gradient_raises"
   ],
   "note": ""
  },
  {
   "property": "C66",
   "status": "proved",
   "theorems": [
    "QTN.Props.C66_shift_gradient",
    "QTN.Props.C66_saved_gradient",
    "QTN.Props.C66_routines_close"
   ],
   "note": "No assumption on singular values. The excluded parameters (controlled U3 for the shift rule, phases for the saved states) are those for which the exact rule is already wrong, C40_cu3_wrong and C42_u1_wrong."
  },
  {
   "property": "C67",
   "status": "proved",
   "theorems": [
    "QTN.Props.C67_in_place",
    "QTN.Props.C67_argument_evolved",
    "QTN.Props.C67_argument_lost",
    "QTN.Props.C67_second_run",
    "QTN.Props.C67_failure_not_atomic",
    "QTN.Props.C67_gate_not_atomic",
    "QTN.Props.C67_batch",
    "QTN.Props.C67_expectation",
    "QTN.Props.C67_gradient",
    "QTN.Props.C67_gradient_raises"
   ],
   "note": "Lists are objects in a store; the in-place functions are modelled separately and proved to act on the store as the functions on values act on contents, for every argument including those that raise. Theorems that name a state assume that no decomposition discards a non-zero singular value."
  },
  {
   "property": "C68",
   "status": "proved",
   "theorems": [
    "QTN.Props.C68_view_reads_same_memory",
    "QTN.Props.C68_view_of_contiguous",
    "QTN.Props.C68_expectation",
    "QTN.Props.C68_evolution",
    "QTN.Props.C68_contraction",
    "QTN.Props.C68_matrix",
    "QTN.Props.C68_conversions",
    "QTN.Props.C68_energy"
   ],
   "note": "Assumes that torch.matmul returns contiguous results and that every routine returns one stride per dimension (LayoutOK); nothing else is assumed about strides of results. view mirrors torch's computeStride. On one qubit, circuits of one-qubit operations only; MPS2StateVec of a list of length other than one (a one-element list is covered through cir_expectation)."
  },
  {
   "property": "C69",
   "status": "partial",
   "theorems": [
    "QTN.Props.C69_rho_partial",
    "QTN.Props.C69_other_layouts_raise",
    "QTN.Props.C69_transposed"
   ],
   "note": "False of the code in general: C69_other_layouts_raise proves RuntimeError for every layout whose rows do not lie one after the other, C69_transposed gives the transpose of a contiguous matrix. C69_rho_partial proves it for all other layouts."
  },
  {
   "property": "C70",
   "status": "partial",
   "theorems": [
    "QTN.Props.C70_real_state_partial",
    "QTN.Props.C70_matrix_path_raises",
    "QTN.Props.C70_paths_disagree",
    "QTN.Props.C70_returned_types",
    "QTN.Props.C70_contraction_raises",
    "QTN.Props.C70_mps_type",
    "QTN.Props.C70_real_rho_raises",
    "QTN.Props.C70_real_rho_error"
   ],
   "note": "False of the code in general: the matrix path raises for every state that is not complex64 (C70_matrix_path_raises, C70_paths_disagree), real observables and density matrices are rejected (C70_returned_types, C70_real_rho_raises). C70_real_state_partial proves it for states on the tensor-network path."
  },
  {
   "property": "C71",
   "status": "partial",
   "theorems": [
    "QTN.Props.C71_precision_partial",
    "QTN.Props.C71_double_raises"
   ],
   "note": "False of the code in general: C71_double_raises proves that float64 parameters of u1, cphase and layers of rotations make every route raise. C71_precision_partial proves it for all other operations."
  },
  {
   "property": "C72",
   "status": "partial",
   "theorems": [
    "QTN.Props.C72_matrix",
    "QTN.Props.C72_contract",
    "QTN.Props.C72_batched",
    "QTN.Props.C72_batched_partial",
    "QTN.Props.C72_batched_wrong",
    "QTN.Props.C72_empty",
    "QTN.Props.C72_empty_kind"
   ],
   "note": "False of the batched forward: C72_batched says what it returns for every input, C72_batched_wrong gives inputs for every N on which it has the opposite sign, C72_batched_partial proves agreement for real final states. C72_matrix and C72_contract prove the claim for the three other methods."
  },
  {
   "property": "C73",
   "status": "proved",
   "theorems": [
    "QTN.Props.C73_forward",
    "QTN.Props.C73_forward_exact",
    "QTN.Props.C73_gradient",
    "QTN.Props.C73_train",
    "QTN.Props.C73_train2",
    "QTN.Props.C73_four"
   ],
   "note": "The bound needs accuracy < 1 (what may be discarded is less than the norm of the state), true for every N up to at least 40; C73_four instantiates the numbers of the file without hypothesis."
  },
  {
   "property": "C74",
   "status": "partial",
   "theorems": [
    "QTN.Props.C74_backward_partial",
    "QTN.Props.C74_last_zero",
    "QTN.Props.C74_last_entry",
    "QTN.Props.C74_last_wrong",
    "QTN.Props.C74_observable_ignored",
    "QTN.Props.C74_batch",
    "QTN.Props.C74_empty",
    "QTN.Props.C74_six",
    "QTN.Props.C74_empty_kind"
   ],
   "note": "Proved for the 7N rotation angles and for the forward pass and the batch; false of the code for the parameter of the controlled phase, as C74_last_zero and C74_last_wrong show; C74_last_entry says what is returned for it. Autograd itself is not modelled: backward is a function of what forward kept and of grad_output."
  },
  {
   "property": "C75",
   "status": "proved",
   "theorems": [
    "QTN.Props.C75_qnn",
    "QTN.Props.C75_qcnn",
    "QTN.Props.C75_range",
    "QTN.Props.C75_free",
    "QTN.Props.C75_free_raises",
    "QTN.Props.C75_free_mean"
   ],
   "note": "Only the circuits (qcir) are modelled, not the linear layers and the training loops."
  },
  {
   "property": "C76",
   "status": "proved",
   "theorems": [
    "QTN.Props.C76_born",
    "QTN.Props.C76_distribution"
   ],
   "note": "Exact arithmetic; the losses and the training loop are not modelled."
  },
  {
   "property": "C77",
   "status": "proved",
   "theorems": [
    "QTN.Props.C77_shadow",
    "QTN.Props.C77_empty",
    "QTN.Props.C77_too_long",
    "QTN.Props.C77_norm",
    "QTN.Props.C77_range"
   ],
   "note": "The number of repetitions is a parameter (the demo has 2 in one version and 4 in the other). The linear layer and the training loop are not modelled."
  },
  {
   "property": "C78",
   "status": "proved",
   "theorems": [
    "QTN.Props.C78_same_state",
    "QTN.Props.C78_same_calls",
    "QTN.Props.C78_script",
    "QTN.Props.C78_cu_differs"
   ],
   "note": "Qiskit's gates and index order are specified from its documentation (qCallOp, qiskitState); its simulator is not modelled. Rounding is any function within half a unit of the fourth decimal."
  },
  {
   "property": "C79",
   "status": "proved",
   "theorems": [
    "QTN.Props.C79_state",
    "QTN.Props.C79_loss",
    "QTN.Props.C79_counter",
    "QTN.Props.C79_uncompute"
   ],
   "note": "The counter and its inverse are stated for the Qiskit calls, which are the calls of Circuit by C78_same_calls."
  },
  {
   "property": "C80",
   "status": "proved",
   "theorems": [
    "QTN.Props.C80_info",
    "QTN.Props.C80_same",
    "QTN.Props.C80_update",
    "QTN.Props.C80_dagger",
    "QTN.Props.C80_circuit",
    "QTN.Props.C80_missing",
    "QTN.Props.C80_repeat"
   ],
   "note": "The table that says what a label stands for is Verif/SpecInfo.lean; it does not mention the model's operations."
  },
  {
   "property": "C81",
   "status": "proved",
   "theorems": [
    "QTN.Props.C81_circuit",
    "QTN.Props.C81_net",
    "QTN.Props.C81_range",
    "QTN.Props.C81_loss",
    "QTN.Props.C81_class",
    "QTN.Props.C81_bloch",
    "QTN.Props.C81_edges",
    "QTN.Props.C81_labels"
   ],
   "note": "Exact arithmetic; torch.arcsin outside of [-1,1] (NaN) is outside the model."
  },
  {
   "property": "C82",
   "status": "proved",
   "theorems": [
    "QTN.Props.C82_diagonals",
    "QTN.Props.C82_loop",
    "QTN.Props.C82_overlaps",
    "QTN.Props.C82_script"
   ],
   "note": "Exact arithmetic apart from the truncation of singular values; the random draws are quantified."
  },
  {
   "property": "C83",
   "status": "proved",
   "theorems": [
    "QTN.Props.C83_evolution",
    "QTN.Props.C83_same_circuit",
    "QTN.Props.C83_fourteen",
    "QTN.Props.C83_gates",
    "QTN.Props.C83_batch"
   ],
   "note": "Exact arithmetic apart from the truncation of singular values; the random draws are quantified, the timing is left out."
  },
  {
   "property": "C84",
   "status": "proved",
   "theorems": [
    "QTN.Props.C84_labels",
    "QTN.Props.C84_build",
    "QTN.Props.C84_forward",
    "QTN.Props.C84_never",
    "QTN.Props.C84_unused"
   ],
   "note": "The linear layers and the export behind the failing call are not modelled."
  },
  {
   "property": "C85",
   "status": "proved",
   "theorems": [
    "QTN.Props.C85_canonical",
    "QTN.Props.C85_norm_le",
    "QTN.Props.C85_lower_bound",
    "QTN.Props.C85_minimal",
    "QTN.Props.C85_product",
    "QTN.Props.C85_bell"
   ],
   "note": "The Schmidt rank is the rank of the matrix of amplitudes with rows given by the first k bits and columns by the others (SpecCut.lean)."
  },
  {
   "property": "C86",
   "status": "proved",
   "theorems": [
    "QTN.Props.C86_sites",
    "QTN.Props.C86_circuit_sites",
    "QTN.Props.C86_bonds",
    "QTN.Props.C86_product",
    "QTN.Props.C86_crossed"
   ],
   "note": "spans, crosses and HasBonds are defined in SpecSpan.lean on the abstract circuit, not on the model."
  },
  {
   "property": "C87",
   "status": "proved",
   "theorems": [
    "QTN.Props.C87_commute",
    "QTN.Props.C87_partial_trace",
    "QTN.Props.C87_expectation",
    "QTN.Props.C87_measure"
   ],
   "note": "cir_expectation is taken with TN=False, where nothing is decomposed; its agreement with the tensor-network path is C28. The density matrix after the circuit is U @ rho @ dag(U), as the library writes it in its quanvolution demo."
  },
  {
   "property": "C88",
   "status": "proved",
   "theorems": [
    "QTN.Props.C88_target",
    "QTN.Props.C88_loss",
    "QTN.Props.C88_script",
    "QTN.Props.C88_rate"
   ],
   "note": "Exact reals; the value inf of the loss is modelled, nan is not. The optimizer and the gradient are an arbitrary function of its state, the weights and the learning rate."
  },
  {
   "property": "C89",
   "status": "partial",
   "theorems": [
    "QTN.Props.C89_multi_kron_shape",
    "QTN.Props.C89_tests_partial",
    "QTN.Props.C89_bad_call",
    "QTN.Props.C89_test_measure",
    "QTN.Props.C89_repaired"
   ],
   "note": "False of the code for test_measure: it calls measure with keywords the function does not have, which is a TypeError (C89_test_measure). With the arguments measure asks for, the call returns the expectation value zero (C89_repaired)."
  },
  {
   "property": "C90",
   "status": "proved",
   "theorems": [
    "QTN.Props.C90_growth",
    "QTN.Props.C90_neighbours",
    "QTN.Props.C90_product",
    "QTN.Props.C90_reached"
   ],
   "note": "Either the evolution raises RuntimeError (all singular values below the cutoff) or the bound holds."
  },
  {
   "property": "C91",
   "status": "proved",
   "theorems": [
    "QTN.Props.C91_qnn",
    "QTN.Props.C91_qcnn",
    "QTN.Props.C91_train",
    "QTN.Props.C91_classify",
    "QTN.Props.C91_parameter",
    "QTN.Props.C91_cu3",
    "QTN.Props.C91_weight",
    "QTN.Props.C91_period",
    "QTN.Props.C91_limit",
    "QTN.Props.C91_limit_qcnn",
    "QTN.Props.C91_limit_train",
    "QTN.Props.C91_limit_classify",
    "QTN.Props.C91_reached"
   ],
   "note": "The limits are stated for one varied entry of one sample; the tensor network variant of test_TN_train2.py is compared with the matrix variants in C72."
  },
  {
   "property": "C92",
   "status": "partial",
   "theorems": [
    "QTN.Props.C92_net",
    "QTN.Props.C92_loss",
    "QTN.Props.C92_batches",
    "QTN.Props.C92_batch_zero",
    "QTN.Props.C92_epoch",
    "QTN.Props.C92_train",
    "QTN.Props.C92_no_samples",
    "QTN.Props.C92_reported_partial",
    "QTN.Props.C92_reported_false",
    "QTN.Props.C92_bounded",
    "QTN.Props.C92_period"
   ],
   "note": "All proved except the last sentence, which is false of the code: an epoch reports the error on its last batch only, with the parameters before the last step (C92_epoch; witness C92_reported_false). It is true if one batch holds all samples (C92_reported_partial)."
  },
  {
   "property": "C93",
   "status": "partial",
   "theorems": [
    "QTN.Props.C93_net",
    "QTN.Props.C93_sizes",
    "QTN.Props.C93_prob",
    "QTN.Props.C93_loss",
    "QTN.Props.C93_batches",
    "QTN.Props.C93_epoch",
    "QTN.Props.C93_train",
    "QTN.Props.C93_test",
    "QTN.Props.C93_accuracy_partial",
    "QTN.Props.C93_accuracy_false",
    "QTN.Props.C93_test_loss_partial",
    "QTN.Props.C93_test_loss_false",
    "QTN.Props.C93_empty",
    "QTN.Props.C93_script"
   ],
   "note": "All proved except that the printed loss and accuracy are those of the test images, which is false of the code. The accuracy divides by the number of batches times the batch size: it is right if and only if the last batch is full or nothing is recognised (C93_accuracy_partial), and with the constants of the script it is 25 percent for a correctly classified image (C93_accuracy_false). The loss averages over batches (C93_test_loss_partial, C93_test_loss_false)."
  },
  {
   "property": "C94",
   "status": "partial",
   "theorems": [
    "QTN.Props.C94_net",
    "QTN.Props.C94_too_long",
    "QTN.Props.C94_scale",
    "QTN.Props.C94_output",
    "QTN.Props.C94_loss",
    "QTN.Props.C94_epoch",
    "QTN.Props.C94_train",
    "QTN.Props.C94_accuracy",
    "QTN.Props.C94_reported_partial",
    "QTN.Props.C94_reported_false"
   ],
   "note": "All proved except that the number reported for an epoch is the mean loss of the samples, which is false of the code: it is the loss of the last batch only (C94_epoch; witness C94_reported_false). It is true if one batch holds all samples (C94_reported_partial)."
  },
  {
   "property": "C95",
   "status": "proved",
   "theorems": [
    "QTN.Props.C95_laws",
    "QTN.Props.C95_replace",
    "QTN.Props.C95_rewrite",
    "QTN.Props.C95_contract",
    "QTN.Props.C95_universal",
    "QTN.Props.C95_period"
   ],
   "note": "The laws (SpecRewrite.lean) mention only gates and angles. That they hold of what the code builds is checked against the matrices the model returns, so they also validate the gate specification of C01-C12: no gate has a wrong sign, angle or qubit order relative to the others."
  },
  {
   "property": "C96",
   "status": "proved",
   "theorems": [
    "QTN.Props.C96_state",
    "QTN.Props.C96_expectation",
    "QTN.Props.C96_partial",
    "QTN.Props.C96_gradient",
    "QTN.Props.C96_qnn",
    "QTN.Props.C96_net",
    "QTN.Props.C96_train",
    "QTN.Props.C96_sharp",
    "QTN.Props.C96_state_sharp"
   ],
   "note": "In exact arithmetic. C96_gradient covers the matrix path (circuits with an operation flagged supportTN=False), where cal_params_grad decomposes nothing."
  },
  {
   "property": "C97",
   "status": "proved",
   "theorems": [
    "QTN.Props.C97_canonical",
    "QTN.Props.C97_loss",
    "QTN.Props.C97_returns",
    "QTN.Props.C97_density",
    "QTN.Props.C97_raises",
    "QTN.Props.C97_lower_bound",
    "QTN.Props.C97_minimal",
    "QTN.Props.C97_product",
    "QTN.Props.C97_pure",
    "QTN.Props.C97_round_trip",
    "QTN.Props.C97_accuracy"
   ],
   "note": "In exact arithmetic. The phase of the last decomposition is a choice of the SVD routine (see C32); C97_round_trip states the result for every choice, C97_accuracy for routines that choose a real one."
  },
  {
   "property": "C98",
   "status": "proved",
   "theorems": [
    "QTN.Props.C98_net",
    "QTN.Props.C98_range",
    "QTN.Props.C98_net1",
    "QTN.Props.C98_loss",
    "QTN.Props.C98_loss2",
    "QTN.Props.C98_epoch",
    "QTN.Props.C98_train",
    "QTN.Props.C98_plotted",
    "QTN.Props.C98_ring",
    "QTN.Props.C98_fit",
    "QTN.Props.C98_hybrid_fit",
    "QTN.Props.C98_fit_loss",
    "QTN.Props.C98_hybrid_loss",
    "QTN.Props.C98_limit"
   ],
   "note": "The weights are exhibited, not found by training: the theorems say what the networks can represent. C98_train holds for every network that answers; answers_net2 and answers_net1 show that both do."
  },
  {
   "property": "C99",
   "status": "proved",
   "theorems": [
    "QTN.Props.C99_wave",
    "QTN.Props.C99_product",
    "QTN.Props.C99_degree",
    "QTN.Props.C99_represent",
    "QTN.Props.C99_target",
    "QTN.Props.C99_loss"
   ],
   "note": "The weights are shown to exist, not found by training. C99_target and C99_loss are about the modelled qnet.forward and loss; the values of the circuits are tied to the code by C75 and C92."
  },
  {
   "property": "C100",
   "status": "proved",
   "theorems": [
    "QTN.Props.C100_flip",
    "QTN.Props.C100_absorb",
    "QTN.Props.C100_distribution",
    "QTN.Props.C100_signs",
    "QTN.Props.C100_mean",
    "QTN.Props.C100_gradient",
    "QTN.Props.C100_variance",
    "QTN.Props.C100_forward"
   ],
   "note": "The mean is the iterated integral over [0, 2 pi] for each weight. The forward pass of test_qnn_demo_free.py raises (C75), so C100_forward is about the other two; the other theorems hold for all three circuits."
  },
  {
   "property": "C101",
   "status": "proved",
   "theorems": [
    "QTN.Props.C101_variance",
    "QTN.Props.C101_gradient",
    "QTN.Props.C101_forward"
   ],
   "note": "For the last six or seven qubits only C100_variance (the mean square is positive) is shown. The constants are lower bounds, not the exact means."
  },
  {
   "property": "C102",
   "status": "proved",
   "theorems": [
    "QTN.Props.C102_qgate",
    "QTN.Props.C102_qcircuit",
    "QTN.Props.C102_qoperator",
    "QTN.Props.C102_qlayers",
    "QTN.Props.C102_qlayers_script",
    "QTN.Props.C102_qtensornetwork",
    "QTN.Props.C102_twelve",
    "QTN.Props.C102_qmath",
    "QTN.Props.C102_qstate",
    "QTN.Props.C102_qlayer"
   ],
   "note": "The qtensornetwork.py theorem assumes that the norms of the draws are at least 1e-12, the qmath.py theorem that the trace is positive (torch.rand draws numbers in [0, 1))."
  },
  {
   "property": "C103",
   "status": "proved",
   "theorems": [
    "QTN.Props.C103_U",
    "QTN.Props.C103_exact",
    "QTN.Props.C103_state",
    "QTN.Props.C103_probs",
    "QTN.Props.C103_cost",
    "QTN.Props.C103_float32",
    "QTN.Props.C103_not_unitary"
   ],
   "note": "Exponents are unbounded in the model: overflow, underflow and NaN are outside the claim. Layers are not covered, only gates added one by one."
  },
  {
   "property": "C104",
   "status": "proved",
   "theorems": [
    "QTN.Props.C104_measure",
    "QTN.Props.C104_any_state",
    "QTN.Props.C104_sign",
    "QTN.Props.C104_exact",
    "QTN.Props.C104_float32"
   ],
   "note": "State vectors only (density matrices: C111); gates added one by one, no layers. Exponents are unbounded in the model (no overflow or underflow)."
  },
  {
   "property": "C105",
   "status": "proved",
   "theorems": [
    "QTN.Props.C105_U",
    "QTN.Props.C105_exact",
    "QTN.Props.C105_bound_append",
    "QTN.Props.C105_gates",
    "QTN.Props.C105_measure",
    "QTN.Props.C105_any_state",
    "QTN.Props.C105_cost",
    "QTN.Props.C105_float32"
   ],
   "note": "Matrix path and state vectors only. Exponents are unbounded in the model (no overflow or underflow). The bounds are worst cases and not sharp."
  },
  {
   "property": "C106",
   "status": "partial",
   "theorems": [
    "QTN.Props.C106_expectation",
    "QTN.Props.C106_gradient_partial",
    "QTN.Props.C106_restored",
    "QTN.Props.C106_small_lost",
    "QTN.Props.C106_changes_circuit",
    "QTN.Props.C106_float32"
   ],
   "note": "Proved: the bounds, for all parameters but those of CU3 gates (for these the entries are wrong already in exact arithmetic, C40_cu3_wrong), and what the operations hold afterwards. False: that the circuit is left with the parameters it had. Only the gates with a single parameter are; the parameters of u3, cu3 and the layers have been shifted three times, and in single precision every one below 2^-24 has become 0 while the dictionary cir_params still has it (C106_small_lost, C106_changes_circuit). The tensor network path is not covered: what it returns is an arbitrary function in the model."
  },
  {
   "property": "C107",
   "status": "proved",
   "theorems": [
    "QTN.Props.C107_step",
    "QTN.Props.C107_step_tn",
    "QTN.Props.C107_step_saved",
    "QTN.Props.C107_demo_step",
    "QTN.Props.C107_train",
    "QTN.Props.C107_train2",
    "QTN.Props.C107_four"
   ],
   "note": "The learning rate 0.1 of the file with 36 parameters is outside the range of the theorems, which need at most 1/36 there; C109 covers it."
  },
  {
   "property": "C108",
   "status": "proved",
   "theorems": [
    "QTN.Props.C108_step",
    "QTN.Props.C108_train",
    "QTN.Props.C108_float32"
   ],
   "note": "The tensor network path is not covered: what it returns is an arbitrary function in the model."
  },
  {
   "property": "C109",
   "status": "proved",
   "theorems": [
    "QTN.Props.C109_step",
    "QTN.Props.C109_train",
    "QTN.Props.C109_file",
    "QTN.Props.C109_runs"
   ],
   "note": "The expectation value is the exact one of the circuit with the stored parameters; the loops print the computed one, which C73 compares with it."
  },
  {
   "property": "C110",
   "status": "proved",
   "theorems": [
    "QTN.Props.C110_extremes",
    "QTN.Props.C110_flat",
    "QTN.Props.C110_step",
    "QTN.Props.C110_stays",
    "QTN.Props.C110_pass"
   ],
   "note": "The limit of C107 and C109: they show that descent approaches a stationary point, which need not be a minimum. With the decompositions of the program only the first pass is covered: the maximum is unstable, and later passes may amplify the error of the first."
  },
  {
   "property": "C111",
   "status": "proved",
   "theorems": [
    "QTN.Props.C111_measure",
    "QTN.Props.C111_reject",
    "QTN.Props.C111_vector",
    "QTN.Props.C111_float32"
   ],
   "note": "The entries of the matrix are taken as stored; how it was computed is not part of the claim. For traces between the two thresholds nothing is claimed: there the outcome of the check depends on the rounding. Exponents are unbounded in the model (no overflow or underflow)."
  },
  {
   "property": "C112",
   "status": "proved",
   "theorems": [
    "QTN.Props.C112_entries",
    "QTN.Props.C112_density",
    "QTN.Props.C112_reject",
    "QTN.Props.C112_measure",
    "QTN.Props.C112_float32",
    "QTN.Props.C112_order",
    "QTN.Props.C112_old",
    "QTN.Props.C112_ptrace"
   ],
   "note": "The entries of the matrix are taken as stored; how it was computed is not part of the claim. For traces between the two thresholds nothing is claimed: there the outcome of the check depends on the rounding. Exponents are unbounded in the model (no overflow or underflow)."
  },
  {
   "property": "C113",
   "status": "proved",
   "theorems": [
    "QTN.Props.C113_hermitian_accept",
    "QTN.Props.C113_hermitian_reject",
    "QTN.Props.C113_normalized_accept",
    "QTN.Props.C113_normalized_reject",
    "QTN.Props.C113_hermitian_float32",
    "QTN.Props.C113_normalized_float32",
    "QTN.Props.C113_unitary_accept",
    "QTN.Props.C113_unitary_reject_row",
    "QTN.Props.C113_unitary_reject_pair",
    "QTN.Props.C113_errors",
    "QTN.Props.C113_unitary_float32"
   ],
   "note": "Between the two thresholds nothing is claimed: there the outcome depends on the rounding. For longer vectors the guaranteed range of IsNormalized and IsUnitary in single precision is empty, since the bound on the rounding error exceeds 1e-6; whether a unit vector is then rejected is left open. Exponents are unbounded in the model (no overflow or underflow)."
  }
 ]
}
