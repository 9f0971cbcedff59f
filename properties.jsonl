{"id": "C01", "title": "Single-qubit gate acts on exactly its wire", "statement": "For a single-qubit gate g built for N qubits on wire i (0<=i<N), g.U_expand() returns the 2^N x 2^N matrix that applies the gate's 2x2 matrix to qubit i (qubit 0 = most significant bit of the basis index) and the identity to every other qubit; with a wire outside 0..N-1 it raises an error and never returns a matrix.", "quantifier": "every N, every wire, every 2x2 gate class and parameter value, every pair of basis indices", "why_tests_cant": "N and the wire are unbounded; tests sample a few N and wires.", "anchors": ["deepquantum/gates/qoperator.py:Operator.gate_expand_1toN", "deepquantum/gates/qoperator.py:Hadamard.U_expand", "deepquantum/gates/qmath.py:multi_kron"]}
{"id": "C02", "title": "Controlled two-qubit gates", "statement": "cnot/cz/cphase/cu3 built for N qubits with wires [c,t], c!=t in range: U_expand() leaves every basis state with control bit 0 fixed and applies X / Z / diag(1,e^{i theta}) / U3 to the target when the control bit is 1, for either orientation and any distance; c==t or out-of-range wires raise ValueError.", "quantifier": "every N, every ordered pair of wires, every parameter, every basis state", "why_tests_cant": "quadratically many wire pairs for each unbounded N.", "anchors": ["deepquantum/gates/qoperator.py:Operation.two_qubit_control_gate", "deepquantum/gates/qoperator.py:cnot.U_expand", "deepquantum/gates/qoperator.py:cz.U_expand", "deepquantum/gates/qoperator.py:cphase.U_expand", "deepquantum/gates/qoperator.py:cu3.U_expand"]}
{"id": "C03", "title": "Multi-controlled NOT", "statement": "toffoli(N,[c1,c2,t]) and multi_control_cnot(N,[c1..ck,t]): U_expand() maps each basis state to the state with bit t flipped iff all control bits are 1, for any number k>=1 of controls in any order (repeated controls included); a target equal to a control or an out-of-range wire raises ValueError.", "quantifier": "every N, every k, every control list and target", "why_tests_cant": "control sets are exponentially many.", "anchors": ["deepquantum/gates/qoperator.py:Operation.multi_control_gate", "deepquantum/gates/qoperator.py:toffoli", "deepquantum/gates/qoperator.py:multi_control_cnot"]}
{"id": "C04", "title": "SWAP exchanges two qubits", "statement": "SWAP(N,[a,b]).U_expand() for a!=b maps |..x_a..x_b..> to |..x_b..x_a..>; it is symmetric in a,b. (A user would expect a==b to be rejected like the other two-qubit gates.)", "quantifier": "every N, every pair of wires", "why_tests_cant": "unbounded N.", "anchors": ["deepquantum/gates/qoperator.py:SWAP.U_expand"]}
{"id": "C05", "title": "Two-qubit Pauli rotations", "statement": "rxx/ryy/rzz(theta,N,[a,b]).U_expand() = cos(theta/2) I - i sin(theta/2) P_a P_b on any two distinct wires in either order, and is the same for [a,b] and [b,a]; invalid wires raise an error rather than return a matrix.", "quantifier": "every theta, N, ordered pair of wires (including out of range and equal ones)", "why_tests_cant": "continuum of angles, unbounded N.", "anchors": ["deepquantum/gates/qoperator.py:rxx.U_expand", "deepquantum/gates/qoperator.py:ryy.U_expand", "deepquantum/gates/qoperator.py:rzz.U_expand"]}
{"id": "C06", "title": "Every gate and layer matrix is unitary", "statement": "For every gate and layer object on valid wires, U_expand() returns a unitary matrix for all real parameter values.", "quantifier": "every gate class, layer class, N, wires, real parameters", "why_tests_cant": "continuum of parameters.", "anchors": ["deepquantum/gates/qoperator.py", "deepquantum/layers/qlayers.py"]}
{"id": "C07", "title": "operation_dagger is the adjoint", "statement": "For every gate and layer that returns an operation from operation_dagger(), that operation's U_expand() is the conjugate transpose of the original's; user expects this for every class.", "quantifier": "every class, N, wires, parameters", "why_tests_cant": "continuum of parameters; parameter re-ordering errors show only for asymmetric values.", "anchors": ["deepquantum/gates/qoperator.py:*.operation_dagger", "deepquantum/layers/qlayers.py:*.operation_dagger", "deepquantum/layers/qlayers.py:ring_of_cnot_dagger"]}
{"id": "C08", "title": "params_update is equivalent to reconstruction", "statement": "After any sequence of params_update calls on a parametrised gate or layer, U_expand, TN_contract and TN_operation behave exactly as for a freshly constructed object with the last parameters (all stored copies of the matrix are refreshed).", "quantifier": "every class, every finite history of updates, every parameter value", "why_tests_cant": "histories and angles are unbounded.", "anchors": ["deepquantum/gates/qoperator.py:*.params_update", "deepquantum/layers/qlayers.py:*.params_update"]}
{"id": "C09", "title": "Rotation layers apply the documented rotations per wire", "statement": "XYZ/ZYX/YZY/XZX/XZ/ZX/H layers on distinct wires: U_expand() is the tensor product in which wire wires[i] gets the documented product of rotations with parameters k*i..k*i+k-1 (first letter applied first) and every other qubit the identity; parameter-count mismatch raises ValueError.", "quantifier": "every N, list of distinct wires in any order, parameters", "why_tests_cant": "unbounded N and wire subsets.", "anchors": ["deepquantum/layers/qlayers.py:XYZLayer", "deepquantum/layers/qlayers.py:ZYXLayer", "deepquantum/layers/qlayers.py:YZYLayer", "deepquantum/layers/qlayers.py:XZXLayer", "deepquantum/layers/qlayers.py:XZLayer", "deepquantum/layers/qlayers.py:ZXLayer", "deepquantum/layers/qlayers.py:HLayer"]}
{"id": "C10", "title": "ring_of_cnot is the ordered product of its CNOTs on every code path", "statement": "ring_of_cnot(N,wires).U_expand() equals the time-ordered product of cnot(wires[i],wires[(i+1)%L]) for i=0..L-1 (a single cnot when L=2), both on the generic path and on the fused path used when wires == [0..N-1]; ring_of_cnot_dagger is the reverse product.", "quantifier": "every N>=2, every list of distinct wires", "why_tests_cant": "the fused path grows the matrix qubit by qubit for unbounded N.", "anchors": ["deepquantum/layers/qlayers.py:ring_of_cnot", "deepquantum/layers/qlayers.py:ring_of_cnot_dagger"]}
{"id": "C11", "title": "ring_of_cnot2 is the ordered product of its CNOTs on every code path", "statement": "ring_of_cnot2(N,wires).U_expand() equals the time-ordered product of cnot(wires[i],wires[(i+2)%L]), on the generic and the fused path.", "quantifier": "every N>=2, every list of distinct wires", "why_tests_cant": "unbounded N.", "anchors": ["deepquantum/layers/qlayers.py:ring_of_cnot2"]}
{"id": "C12", "title": "BasicEntangleLayer is its repeated YZY+ring decomposition", "statement": "BasicEntangleLayer(N,wires,params,repeat).U_expand() equals the product over r=0..repeat-1 (later on the left) of ring_of_cnot(wires) times YZYLayer(wires, r-th slice of params), initially and after any params_update of the right length.", "quantifier": "every N, wires, repeat, parameters, update history", "why_tests_cant": "unbounded repeat.", "anchors": ["deepquantum/layers/qlayers.py:BasicEntangleLayer"]}
{"id": "C13", "title": "Circuit.U is the time-ordered product", "statement": "For every sequence of operations added to a Circuit, U() is the product of their matrices with later operations on the left (reversed with left_to_right=False); the empty circuit gives the identity and U of a concatenation is the product of the U's; if any operation's matrix cannot be formed U() raises.", "quantifier": "every finite sequence of operations", "why_tests_cant": "unbounded gate sequences.", "anchors": ["deepquantum/gates/qcircuit.py:Circuit.U", "deepquantum/gates/qcircuit.py:Circuit.add"]}
{"id": "C14", "title": "Circuits preserve norm", "statement": "Circuit.U() is unitary and maps normalised states to normalised states, starting from state_init() (|0..0>), for every sequence of valid gates and layers.", "quantifier": "every N, gate sequence, parameters, state", "why_tests_cant": "unbounded sequences.", "anchors": ["deepquantum/gates/qcircuit.py:Circuit.U", "deepquantum/gates/qcircuit.py:Circuit.state_init"]}
{"id": "C15", "title": "Reversed dagger circuit inverts a circuit", "statement": "Appending operation_dagger() of every gate in reverse order to a circuit makes U() the identity.", "quantifier": "every finite sequence of operations whose class implements operation_dagger", "why_tests_cant": "unbounded sequences.", "anchors": ["deepquantum/gates/qcircuit.py:Circuit.U", "deepquantum/gates/qcircuit.py:parameter_shift.save_mid_MPS"]}
{"id": "C16", "title": "State vector -> MPS -> state vector round trip", "statement": "MPS2StateVec(StateVec2MPS(psi,N)) == psi whenever no discarded singular value is nonzero, whatever valid singular value decomposition torch returns; StateVec2MPS rejects any input that is not 1 x 2^N.", "quantifier": "every N, psi, every SVD gauge choice", "why_tests_cant": "continuum of states; gauge freedom of SVD.", "anchors": ["deepquantum/gates/qtensornetwork.py:StateVec2MPS", "deepquantum/gates/qtensornetwork.py:MPS2StateVec"]}
{"id": "C17", "title": "Truncation error of the MPS conversion is bounded", "statement": "Because only singular values with |s|<=1e-8 are discarded, the Euclidean distance between psi and MPS2StateVec(StateVec2MPS(psi,N)) is at most the sum over the N-1 cuts of the root-sum-square of discarded singular values.", "quantifier": "every N, psi, SVD choice", "why_tests_cant": "continuum of states.", "anchors": ["deepquantum/gates/qtensornetwork.py:StateVec2MPS"]}
{"id": "C18", "title": "Single-qubit gates and layers act correctly on an MPS", "statement": "TN_operation of a single-qubit gate or rotation layer (distinct wires) on any MPS yields an MPS whose state vector is U_expand() times the original state vector.", "quantifier": "every N, wire(s), bond dimensions, parameters, MPS", "why_tests_cant": "unbounded bond dimensions.", "anchors": ["deepquantum/gates/qoperator.py:SingleGateOperation.TN_operation", "deepquantum/layers/qlayers.py:SingleGateLayer.TN_operation"]}
{"id": "C19", "title": "Two-qubit gates act correctly on an MPS at any distance", "statement": "TN_operation of cnot, cz, cphase, cu3 and SWAP with distinct wires in either order yields an MPS whose state vector is U_expand() times the original one, whenever no discarded singular value is nonzero, for every SVD choice.", "quantifier": "every N, ordered wire pair, bond dimensions, MPS, SVD choice", "why_tests_cant": "SWAP chains of unbounded length.", "anchors": ["deepquantum/gates/qoperator.py:cnot.TN_operation", "deepquantum/gates/qoperator.py:cz.TN_operation", "deepquantum/gates/qoperator.py:cphase.TN_operation", "deepquantum/gates/qoperator.py:cu3.TN_operation", "deepquantum/gates/qoperator.py:SWAP.TN_operation", "deepquantum/gates/qtensornetwork.py:TensorDecompAfterTwoQbitGate"]}
{"id": "C20", "title": "Toffoli acts correctly on an MPS", "statement": "toffoli.TN_operation for any three distinct wires in any order yields an MPS whose state vector is U_expand() times the original one (no nonzero singular value discarded).", "quantifier": "every N, triple of wires, MPS, SVD choice", "why_tests_cant": "SWAP chains of unbounded length.", "anchors": ["deepquantum/gates/qoperator.py:toffoli.TN_operation", "deepquantum/gates/qtensornetwork.py:TensorDecompAfterThreeQbitGate"]}
{"id": "C21", "title": "ring_of_cnot acts correctly on an MPS", "statement": "ring_of_cnot / ring_of_cnot_dagger TN_operation on wires [0..N-1] yields U_expand() times the state; other wire lists raise ValueError.", "quantifier": "every N>=2, MPS, SVD choice", "why_tests_cant": "unbounded N.", "anchors": ["deepquantum/layers/qlayers.py:ring_of_cnot.TN_operation", "deepquantum/layers/qlayers.py:ring_of_cnot_dagger.TN_operation"]}
{"id": "C22", "title": "MPS circuit evolution equals matrix evolution", "statement": "Circuit.TN_evolution(MPS) yields an MPS whose state vector is U() times the initial one for every circuit of operations with a TN_operation; an MPS list of the wrong length or an operation flagged supportTN=False raises ValueError.", "quantifier": "every gate sequence, MPS, SVD choice", "why_tests_cant": "unbounded sequences.", "anchors": ["deepquantum/gates/qcircuit.py:Circuit.TN_evolution"]}
{"id": "C23", "title": "TN_contract of every gate equals its matrix", "statement": "For every gate and layer with TN_contract on valid wires, TN_contract(T) of a rank-N tensor T with all dimensions 2 equals reshape(U_expand() @ flatten(T)).", "quantifier": "every N, wires in any order, parameters, tensor", "why_tests_cant": "index permutations of unbounded rank.", "anchors": ["deepquantum/gates/qoperator.py:*.TN_contract", "deepquantum/layers/qlayers.py:*.TN_contract"]}
{"id": "C24", "title": "Batched TN_contract equals per-sample contraction", "statement": "TN_contract(T,batch_mod=True) on a rank N+1 tensor equals applying the unbatched TN_contract to every slice along dimension 0, for every batch size.", "quantifier": "every N, batch size, gate, wires, tensor", "why_tests_cant": "unbounded batch and rank.", "anchors": ["deepquantum/gates/qoperator.py:*.TN_contract", "deepquantum/layers/qlayers.py:*.TN_contract"]}
{"id": "C25", "title": "TN_contract_evolution equals matrix evolution", "statement": "Circuit.TN_contract_evolution(T) equals reshape(U() @ flatten(T)) for every circuit of operations supporting it, also batchwise; rank mismatch raises AssertionError.", "quantifier": "every gate sequence, N, tensor, batch", "why_tests_cant": "unbounded sequences.", "anchors": ["deepquantum/gates/qcircuit.py:Circuit.TN_contract_evolution"]}
{"id": "C26", "title": "MPS2StateVec modes agree", "statement": "MPS2StateVec(mps,return_sv=False) is the rank-N tensor whose row-major flattening is MPS2StateVec(mps), for every MPS with N>=1 sites.", "quantifier": "every N, bond dimensions", "why_tests_cant": "unbounded N and bonds.", "anchors": ["deepquantum/gates/qtensornetwork.py:MPS2StateVec"]}
{"id": "C27", "title": "Rank-N reshapes preserve amplitudes", "statement": "MatrixProductState(psi,N) and MatrixProductDensityOperator(rho,N) put amplitude psi[x] (entry rho[x,y]) at the tensor position given by the big-endian bits of x (of x then y); wrong shapes raise ValueError.", "quantifier": "every N, psi, rho", "why_tests_cant": "unbounded N.", "anchors": ["deepquantum/gates/qtensornetwork.py:MatrixProductState", "deepquantum/gates/qtensornetwork.py:MatrixProductDensityOperator"]}
{"id": "C28", "title": "cir_expectation does not depend on the evaluation path", "statement": "cir_expectation(psi,M,TN=True) equals cir_expectation(psi,M,TN=False) for every circuit and equals Re <psi|U^dagger M U|psi>.", "quantifier": "every circuit, state, observable, SVD choice", "why_tests_cant": "unbounded circuits.", "anchors": ["deepquantum/gates/qcircuit.py:Circuit.cir_expectation", "deepquantum/gates/qcircuit.py:Circuit.TN_check"]}
{"id": "C29", "title": "Expectation values of Hermitian observables", "statement": "For Hermitian M, the discarded imaginary part in cir_expectation and expval is zero, and for a circuit of valid gates and normalised input |<M>| is bounded by any bound on the quadratic form of M.", "quantifier": "every Hermitian M, state, circuit", "why_tests_cant": "continuum.", "anchors": ["deepquantum/gates/qcircuit.py:Circuit.cir_expectation", "deepquantum/gates/qmath.py:expval"]}
{"id": "C30", "title": "MPS_inner_product returns <bra|ket> or raises", "statement": "MPS_inner_product(ket,bra) returns sum_x conj(bra_x) ket_x for every pair of MPS with N>=2 sites and all inner bond dimensions >=2; users expect the same for any two MPS of equal length.", "quantifier": "every N, bond dimensions, pair of MPS", "why_tests_cant": "unbounded N; squeeze() makes shape depend on data.", "anchors": ["deepquantum/gates/qtensornetwork.py:MPS_inner_product"]}
{"id": "C31", "title": "MPS_expec computes a product-observable expectation and does not disturb the MPS", "statement": "MPS_expec(MPS,wires,obs) returns Re <psi|O_k..O_1|psi> with each local observable acting on its wire; calling it again with the same arguments returns the same value.", "quantifier": "every N, MPS, list of wires and 2x2 observables, repeated calls", "why_tests_cant": "history dependence through in-place mutation.", "anchors": ["deepquantum/gates/qtensornetwork.py:MPS_expec"]}
{"id": "C32", "title": "Density matrix -> MPDO -> density matrix round trip", "statement": "MPS2Rho(Rho2MPS(rho,N)) == rho for every rho of unit trace when no nonzero singular value is discarded.", "quantifier": "every N, rho, SVD choice", "why_tests_cant": "gauge freedom; continuum.", "anchors": ["deepquantum/gates/qtensornetwork.py:Rho2MPS", "deepquantum/gates/qtensornetwork.py:MPS2Rho"]}
{"id": "C33", "title": "partial_trace computes the partial trace", "statement": "partial_trace(rho,N,lst) returns the 2^(N-k) matrix whose entry (x,y) is the sum over all settings of the k traced qubits of rho at the basis states extended by that setting, for every list of k distinct qubits in any order; it raises ValueError for trace != 1 (1e-4), wrong dimension or too large indices.", "quantifier": "every N, rho, list of distinct qubits", "why_tests_cant": "exponentially many subsets.", "anchors": ["deepquantum/gates/qmath.py:partial_trace"]}
{"id": "C34", "title": "partial_trace preserves density-matrix properties", "statement": "The result of partial_trace has the same trace, is Hermitian if rho is, and positive semidefinite if rho is; tracing in two stages equals tracing at once; result does not depend on list order.", "quantifier": "every N, rho, qubit lists", "why_tests_cant": "continuum.", "anchors": ["deepquantum/gates/qmath.py:partial_trace"]}
{"id": "C35", "title": "The three partial-trace implementations agree", "statement": "partial_trace, partial_trace_old and ptrace return the same matrix where their domains overlap (ptrace(rho,A,B) = partial_trace(rho,A+B,[A..A+B-1])).", "quantifier": "every N, rho, list", "why_tests_cant": "unbounded N.", "anchors": ["deepquantum/gates/qmath.py:partial_trace", "deepquantum/gates/qmath.py:partial_trace_old", "deepquantum/gates/qmath.py:ptrace"]}
{"id": "C36", "title": "measure returns the Pauli-Z expectations of the requested qubits", "statement": "measure(n,state,ith) returns, for each requested qubit (all if ith is None), P(0)-P(1) of that qubit, for state vectors and density matrices alike, always in [-1,1] for normalised input; a single integer ith yields exactly one value.", "quantifier": "every n, state/density matrix, ith", "why_tests_cant": "continuum; truthiness edge case.", "anchors": ["deepquantum/gates/qmath.py:measure", "deepquantum/gates/qmath.py:_Zmeasure", "deepquantum/gates/qmath.py:expval"]}
{"id": "C37", "title": "Vector and density-matrix expectations agree", "statement": "expval(psi,M) equals expval(|psi><psi|,M,rho=True) for every normalised psi and every M.", "quantifier": "every psi, M, dimension", "why_tests_cant": "continuum.", "anchors": ["deepquantum/gates/qmath.py:expval"]}
{"id": "C38", "title": "Matrix predicates decide what they claim", "statement": "IsUnitary(A) / IsHermitian(A) / IsNormalized(v) accept every exactly unitary / Hermitian / normalised input and whenever they accept, A A^dagger is entrywise within 1e-6 of I / A within 1e-6 of A^dagger / | |v|^2-1 |<=1e-6; non-square input raises ValueError.", "quantifier": "every matrix/vector of every size", "why_tests_cant": "continuum.", "anchors": ["deepquantum/gates/qmath.py:IsUnitary", "deepquantum/gates/qmath.py:IsHermitian", "deepquantum/gates/qmath.py:IsNormalized"]}
{"id": "C39", "title": "Circuit parameter bookkeeping", "statement": "At every point of a Circuit's life cir_num_params equals the total number of parameters of the operations currently in it, and cir_params maps exactly the positions 0..len-1 to the parameters of the operation at that position (None if parameterless).", "quantifier": "every history of add, clear and params_update", "why_tests_cant": "unbounded histories.", "anchors": ["deepquantum/gates/qcircuit.py:Circuit.add", "deepquantum/gates/qcircuit.py:Circuit.clear"]}
{"id": "C40", "title": "parameter_shift.cal_params_grad is the exact gradient", "statement": "For every circuit, entry j of cal_params_grad() is the partial derivative of the expectation value with respect to the j-th parameter (in gate order, then position).", "quantifier": "every circuit, parameters, state, observable", "why_tests_cant": "continuum and unbounded circuits; finite differences only approximate.", "anchors": ["deepquantum/gates/qcircuit.py:parameter_shift.cal_params_grad"]}
{"id": "C41", "title": "cal_params_grad leaves the circuit unchanged", "statement": "After cal_params_grad() every gate has the parameters (and matrices) it had before the call, whatever was done to the circuit before.", "quantifier": "every circuit history", "why_tests_cant": "history dependence.", "anchors": ["deepquantum/gates/qcircuit.py:parameter_shift.cal_params_grad"]}
{"id": "C42", "title": "Saved-state gradient equals the exact gradient", "statement": "cal_params_grad2(save_mid_MPS(M)) returns the same exact gradient for every circuit supporting TN evolution and Pauli observable.", "quantifier": "every circuit, parameters, Pauli observable, SVD choice", "why_tests_cant": "continuum and unbounded circuits.", "anchors": ["deepquantum/gates/qcircuit.py:parameter_shift.save_mid_MPS", "deepquantum/gates/qcircuit.py:parameter_shift.cal_params_grad2"]}
{"id": "C43", "title": "AmplitudeEncoding normalises and pads", "statement": "AmplitudeEncoding(N,v).encoded_state() is a 2^N vector of norm 1 whose first len(v) entries are v/|v| and the rest 0 for every nonzero v with len(v)<=2^N; longer inputs raise ValueError.", "quantifier": "every N, v", "why_tests_cant": "continuum.", "anchors": ["deepquantum/embeddings/qembedding.py:AmplitudeEncoding"]}
{"id": "C44", "title": "PauliEncoding cycles through its inputs", "statement": "PauliEncoding(N,x,wires,pauli).U_expand() rotates wire wires[i] by angle x[i mod len(x)] about the chosen axis and leaves other qubits alone; TN_operation/TN_contract agree with it; an unknown axis raises ValueError.", "quantifier": "every N, wires, inputs", "why_tests_cant": "unbounded lists.", "anchors": ["deepquantum/embeddings/qembedding.py:PauliEncoding"]}
{"id": "C45", "title": "PrepareRho returns a density matrix", "statement": "PrepareRho(state) for a normalised state is |state><state|: Hermitian, positive, trace one.", "quantifier": "every state", "why_tests_cant": "complex amplitudes are needed to expose a missing conjugate.", "anchors": ["deepquantum/embeddings/qstate.py:PrepareRho"]}
{"id": "C46", "title": "gram_encoding returns a density matrix", "statement": "gram_encoding(x) of a real 1 x n tensor is Hermitian, positive semidefinite with trace at most 1.", "quantifier": "every n, x", "why_tests_cant": "continuum.", "anchors": ["deepquantum/embeddings/qembedding.py:gram_encoding"]}
{"id": "C47", "title": "Legacy circuit API computes the same unitary", "statement": "A qgate.Circuit and a qcircuit.Circuit given the same sequence of gates return the same U().", "quantifier": "every gate sequence on valid wires", "why_tests_cant": "unbounded sequences.", "anchors": ["deepquantum/gates/qgate.py:Circuit", "deepquantum/gates/qcircuit.py:Circuit"]}
{"id": "C48", "title": "Legacy circuit keeps its gate list and matrices in step", "statement": "After any sequence of gate calls, including calls that raise, gate_list and u of a qgate.Circuit describe the same operations in the same order.", "quantifier": "every history of calls, including failing ones", "why_tests_cant": "failure atomicity over unbounded histories.", "anchors": ["deepquantum/gates/qgate.py:Circuit._add_gate", "deepquantum/gates/qgate.py:Circuit._add_u", "deepquantum/gates/qgate.py:Circuit.cnot", "deepquantum/gates/qgate.py:Circuit.multi_control_cnot"]}
{"id": "C49", "title": "Legacy two-qubit rotations act on the requested qubits", "statement": "qgate.Circuit.rxx/ryy/rzz(a,b,phi) rotate qubits a and b for every pair a!=b in range.", "quantifier": "every N, ordered pair (a,b)", "why_tests_cant": "edge case b=0 among unbounded pairs.", "anchors": ["deepquantum/gates/qgate.py:Circuit.rxx", "deepquantum/gates/qgate.py:Circuit.ryy", "deepquantum/gates/qgate.py:Circuit.rzz"]}
{"id": "C50", "title": "QuanConv2D covers exactly the output grid", "statement": "QuanConv2D.forward succeeds for every image at least as large as the kernel and writes every output position exactly once from the patch starting at (x*stride,y*stride).", "quantifier": "every image size, stride, kernel size", "why_tests_cant": "unbounded sizes.", "anchors": ["deepquantum/nn/modules/quanv.py:QuanConv2D.forward"]}
{"id": "C51", "title": "Merged-tensor decompositions restore the merged tensor", "statement": "TensorDecompAfterTwoQbitGate / TensorDecompAfterThreeQbitGate return site tensors whose contraction equals the input (no nonzero singular value discarded), whose left factors are isometries, and whose bond dimension is the number of singular values above 1e-8; an all-negligible input raises.", "quantifier": "every tensor shape, every SVD choice", "why_tests_cant": "continuum.", "anchors": ["deepquantum/gates/qtensornetwork.py:TensorDecompAfterTwoQbitGate", "deepquantum/gates/qtensornetwork.py:TensorDecompAfterThreeQbitGate"]}
{"id": "C52", "title": "u1 and u3 match their documented matrices", "statement": "u1(l) = diag(1,e^{il}); u3(theta,phi,lambda) = e^{-i(phi+lambda)/2} [[cos(theta/2), -e^{i lambda} sin(theta/2)],[e^{i phi} sin(theta/2), e^{i(phi+lambda)} cos(theta/2)]], before and after params_update.", "quantifier": "every real parameter", "why_tests_cant": "continuum.", "anchors": ["deepquantum/gates/qoperator.py:u1", "deepquantum/gates/qoperator.py:u3"]}
{"id": "C53", "title": "supportTN tells the truth", "statement": "If TN_check() is True then TN_evolution and TN_contract_evolution accept the circuit (every operation with supportTN=True implements both on every wire list it was constructed with).", "quantifier": "every circuit", "why_tests_cant": "unbounded circuits.", "anchors": ["deepquantum/gates/qcircuit.py:Circuit.TN_check", "deepquantum/gates/qoperator.py:rxx", "deepquantum/layers/qlayers.py:ring_of_cnot"]}
{"id": "C54", "title": "Invalid wires are rejected on every evaluation path", "statement": "If U_expand() of a gate raises because its wires are equal or out of range then TN_operation and TN_contract raise too instead of silently applying a different gate.", "quantifier": "every N, wires including negative and repeated ones", "why_tests_cant": "unbounded wire values.", "anchors": ["deepquantum/gates/qoperator.py:cnot.TN_operation", "deepquantum/gates/qoperator.py:SingleGateOperation.TN_contract", "deepquantum/gates/qoperator.py:*.TN_contract"]}
{"id": "C55", "title": "Older measure returns P(0)-P(1) of every qubit and accepts density matrices only", "statement": "gates.Circuit.measure(rho, N) (qgate.py) returns an N x 1 tensor whose row i is P(0)-P(1) of qubit i, the same values as qmath.measure; expecval_ZI counts negative targets from the end and rejects targets outside -N..N-1; an input that is not a 2^N x 2^N density matrix is rejected.", "quantifier": "every N, rho, target", "why_tests_cant": "unbounded matrices and registers; a non-square input needs no particular value to slip through.", "anchors": ["deepquantum/gates/qgate.py:Circuit.expecval_ZI", "deepquantum/gates/qgate.py:Circuit.measure"]}
{"id": "C56", "title": "The tensor-network path never produces a misshapen state, whatever is truncated", "statement": "For every SVD routine that keeps its contract and every truncation, TN_evolution of a valid circuit on a valid matrix product state returns a valid matrix product state of N sites or raises RuntimeError; bond i stays at most 2^min(i,N-i) if it was so at the start, which StateVec2MPS guarantees; cir_expectation(TN=True) returns a number or raises RuntimeError.", "quantifier": "every N, circuit, input state, SVD routine", "why_tests_cant": "unbounded circuits and states; truncation depends on singular values at run time.", "anchors": ["deepquantum/gates/qcircuit.py:Circuit.TN_evolution", "deepquantum/gates/qcircuit.py:Circuit.cir_expectation", "deepquantum/gates/qtensornetwork.py:StateVec2MPS", "deepquantum/gates/qoperator.py:*.TN_operation"]}
{"id": "C57", "title": "The older layer functions return the unitaries they are named after", "statement": "For every number of qubits and every parameter list of the right length, the functions of layers/qlayer.py return the unitary their name says: rotation layers with the angles in order, Hadamard layers, rings and nearest-neighbour and all-to-all patterns of CNOT/CZ from the top or from the bottom, layers of two-qubit rotations on neighbours, and the combined layers as a rotation layer followed by rings.", "quantifier": "every N, every parameter list, every single_gate string, both directions", "why_tests_cant": "unbounded N and real-valued parameters; even and odd N take different branches.", "anchors": ["deepquantum/layers/qlayer.py:XYZLayer", "deepquantum/layers/qlayer.py:ring_of_cnot", "deepquantum/layers/qlayer.py:nearest_neighbor_cnot", "deepquantum/layers/qlayer.py:all2all_cnot", "deepquantum/layers/qlayer.py:strong_entangle_layer", "deepquantum/layers/qlayer.py:RxxLayer"]}
{"id": "C58", "title": "Layers apply the gate of every listed wire, on every evaluation path", "statement": "For every list of in-range wires that a layer's constructor accepts (at most N, possibly with repetitions), U_expand, TN_contract and TN_operation all apply the gate of each listed wire with its own block of parameters, one after the other; rings apply all their CNOTs.", "quantifier": "every N, every wire list of at most N entries, all parameters, every input state", "why_tests_cant": "unbounded lists and real parameters; repeated wires are accepted silently and only some paths go wrong.", "anchors": ["deepquantum/layers/qlayers.py:SingleGateLayer.TN_operation", "deepquantum/layers/qlayers.py:SingleGateLayer.TN_contract", "deepquantum/layers/qlayers.py:XYZLayer._cal_single_gates", "deepquantum/layers/qlayers.py:ring_of_cnot.U_expand"]}
{"id": "C59", "title": "A control wire listed twice counts once, on every evaluation path", "statement": "For every toffoli or multi_control_cnot whose control wires contain a repetition and do not contain the target, U_expand, TN_contract and TN_operation all apply the NOT controlled by the set of control wires.", "quantifier": "every N, every control list with repetitions, every target outside it, every input state", "why_tests_cant": "unbounded wire lists; the constructors accept repetitions silently and the paths treat them differently.", "anchors": ["deepquantum/gates/qoperator.py:toffoli.U_expand", "deepquantum/gates/qoperator.py:toffoli.TN_contract", "deepquantum/gates/qoperator.py:toffoli.TN_operation", "deepquantum/gates/qoperator.py:multi_control_cnot.U_expand"]}
{"id": "C60", "title": "The truncating matrix-product evaluation stays within a computable distance of the exact result", "statement": "For every circuit of valid operations with a working TN_operation and every input row of norm at most one, StateVec2MPS followed by TN_evolution calls the SVD exactly N-1 plus a fixed number per operation times, and the state it returns differs from the exact one in Euclidean norm by at most the discarded singular values, hence by at most (number of calls) * 1e-8 * sqrt(2^(N/2)); if the input is longer than that it does not raise, and cir_expectation with TN=True is within twice that times the norm of the observable of the matrix path.", "quantifier": "every N, every circuit of any length, all real parameters, every input vector of norm at most one, every SVD routine that keeps its contract, whatever singular values occur", "why_tests_cant": "errors accumulate over an unbounded number of truncations and depend on real-valued singular values near the cut-off; tests only see inputs without small singular values.", "anchors": ["deepquantum/gates/qtensornetwork.py:StateVec2MPS", "deepquantum/gates/qtensornetwork.py:TensorDecompAfterTwoQbitGate", "deepquantum/gates/qtensornetwork.py:TensorDecompAfterThreeQbitGate", "deepquantum/gates/qcircuit.py:Circuit.TN_evolution", "deepquantum/gates/qcircuit.py:Circuit.cir_expectation"]}
{"id": "C61", "title": "The three evaluation paths return the same state", "statement": "For a circuit and an input row psi, (a) U() @ psi, (b) TN_contract_evolution(MatrixProductState(psi, N)) flattened, and (c) MPS2StateVec(TN_evolution(StateVec2MPS(psi, N))) return the same 1 x 2^N row; (c) exactly when no non-zero singular value is discarded and otherwise within svdCount * 1e-8 * sqrt(2^(N/2)) of the others.", "quantifier": "all N, all circuits whose operations have the respective method, all input rows, all valid SVD routines", "why_tests_cant": "The paths share almost no code; tests compare them on a few random states of small circuits and cannot bound the deviation caused by discarded singular values for every input.", "anchors": ["deepquantum/gates/qcircuit.py:Circuit.U", "deepquantum/gates/qcircuit.py:Circuit.TN_evolution", "deepquantum/gates/qcircuit.py:Circuit.TN_contract_evolution", "deepquantum/gates/qtensornetwork.py:MatrixProductState", "deepquantum/gates/qtensornetwork.py:StateVec2MPS", "deepquantum/gates/qtensornetwork.py:MPS2StateVec"]}
{"id": "C62", "title": "All ways to read out a qubit agree", "statement": "After a circuit, P(0)-P(1) of every qubit is obtained alike from cir_expectation with PauliZ (both paths), from measure of the state vector, from measure of its density matrix, from the older class's measure, from the diagonal of the reduced density matrix returned by partial_trace, and from MPS_expec of the evolved matrix product state (the matrix-product routes exactly without truncation, otherwise within 2 * accuracy).", "quantifier": "all N, circuits, input states, qubits, valid SVD routines", "why_tests_cant": "Six independent implementations have to agree for every state and qubit; wrong bit orders cancel for symmetric states and for the first or last qubit, which is what tests try.", "anchors": ["deepquantum/gates/qcircuit.py:Circuit.cir_expectation", "deepquantum/gates/qmath.py:measure", "deepquantum/gates/qmath.py:partial_trace", "deepquantum/gates/qgate.py:Circuit.measure", "deepquantum/gates/qtensornetwork.py:MPS_expec"]}
{"id": "C63", "title": "A circuit of distinct objects behaves as the list of its operations", "statement": "Any program that creates a Circuit and, in any order, adds gate and layer objects, updates parameters by position, evaluates the circuit on any path and computes gradients (catching exceptions) observes the same results, exceptions, SVD calls and recorded parameters as if the circuit stored the operations by value, provided no object is added twice; the evaluation functions alone do not even notice sharing.", "quantifier": "all programs (finite sequences of calls), objects, arguments, valid or not", "why_tests_cant": "Aliasing effects depend on the whole history of calls; a test fixes one history. The theorem covers every sequence of calls including those that raise half way.", "anchors": ["deepquantum/gates/qcircuit.py:Circuit.add", "deepquantum/gates/qcircuit.py:parameter_shift.cal_params_grad", "deepquantum/gates/qcircuit.py:parameter_shift.cal_params_grad2"]}
{"id": "C64", "title": "One object at several positions of a circuit", "statement": "Adding one gate object at several positions ties their parameters: params_update changes all of them and the circuit evaluates accordingly. Every entry of cal_params_grad and of cal_params_grad2 should still be the partial derivative with respect to its position. (cal_params_grad2 satisfies this; cal_params_grad shifts all positions at once and does not.)", "quantifier": "all circuits, all ways of sharing, input states, observables", "why_tests_cant": "Parameter tying is common in variational circuits, but the wrong gradient is only visible for objects that occur more than once and at generic angles.", "anchors": ["deepquantum/gates/qcircuit.py:parameter_shift.cal_params_grad", "deepquantum/gates/qcircuit.py:parameter_shift.cal_params_grad2", "deepquantum/gates/qcircuit.py:Circuit.add"]}
{"id": "C65", "title": "A PauliEncoding in a circuit", "statement": "PauliEncoding lacks num_params, supportTN and params. Circuit.add raises AttributeError for it but leaves it in the list; U() then includes it correctly in the product, while TN_check, cir_expectation (also with TN=False), TN_evolution, TN_contract_evolution and cal_params_grad raise, except that cir_expectation works if an operation with supportTN=False stands earlier.", "quantifier": "all circuits and encodings, positions, inputs, observables", "why_tests_cant": "Whether the missing attribute is reached depends on the position of other operations in the list; tests see one arrangement.", "anchors": ["deepquantum/embeddings/qembedding.py:PauliEncoding", "deepquantum/gates/qcircuit.py:Circuit.add", "deepquantum/gates/qcircuit.py:Circuit.TN_check", "deepquantum/gates/qcircuit.py:Circuit.cir_expectation"]}
{"id": "C66", "title": "Accuracy of the gradients when singular values are discarded", "statement": "With no assumption on the singular values, every entry of cal_params_grad is within 2*B*accuracy of the true partial derivative (B a bound of the observable, accuracy the a-priori bound on what the decompositions of the circuit discard) except for parameters of a controlled U3; every entry of cal_params_grad2(save_mid_MPS(M)) is within accuracy(l)+accuracy(l, M, l) of it except for phase gates; the two routines agree up to the sum of both bounds; the circuit is left as it was.", "quantifier": "all SVD implementations meeting the contract, all circuits of operations with a matrix-product implementation, all inputs of norm at most one that exceed the bound, all observables", "why_tests_cant": "The error depends on the singular values met in every one of the shifted or rewound runs; sampled circuits say nothing about the worst accumulation.", "anchors": ["deepquantum/gates/qcircuit.py:parameter_shift.cal_params_grad", "deepquantum/gates/qcircuit.py:parameter_shift.save_mid_MPS", "deepquantum/gates/qcircuit.py:parameter_shift.cal_params_grad2"]}
{"id": "C67", "title": "Matrix-product evaluation works in place on the caller's list", "statement": "TN_operation of every gate, layer and encoding and TN_evolution of every circuit return the very list they were given and change no other list; afterwards that list holds the final state, so the initial state is lost unless the circuit fixes it, and a second evaluation of the same list continues from the first result. Failures are not atomic: an unsupported operation late in the circuit, or a toffoli with a repeated control, raises and leaves the caller's list in an intermediate state. A batch encoded without copies consists of one list holding all encodings in sequence; with copy.deepcopy it consists of distinct lists. cir_expectation, save_mid_MPS and cal_params_grad2 copy where needed: no existing list changes, the saved states stay intact, and the results are those of the functions on values.", "quantifier": "all gates, layers, encodings and circuits, all lists and stores of list objects, all SVD routines (meeting the contract where a state is named)", "why_tests_cant": "Tests build a fresh input for each call, so they do not see which object is written; the aliasing matters for every later use of the list and for every point at which an exception may stop the evaluation.", "anchors": ["deepquantum/gates/qcircuit.py:Circuit.TN_evolution", "deepquantum/gates/qcircuit.py:parameter_shift.save_mid_MPS", "deepquantum/gates/qcircuit.py:parameter_shift.cal_params_grad2", "deepquantum/gates/qoperator.py:toffoli.TN_operation", "deepquantum/gates/qlayers.py:SingleGateLayer.TN_operation"]}
{"id": "C68", "title": "Results do not depend on the memory layout of tensors", "statement": "With strides and data types modelled, so that view raises where torch cannot describe the same memory with the new shape and a product raises on different types: every view that torch accepts reads the same elements in row-major order; a contiguous tensor can be viewed in every shape of its size; and cir_expectation on both paths, TN_evolution, TN_contract_evolution, the matrix of the circuit and the conversions between vectors, matrices and their tensor forms return exactly what the model without layouts returns, exceptions and decomposed matrices included, for complex64 inputs in any layout. So no view in these functions ever fails because of strides.", "quantifier": "all circuits, all layouts of inputs, all layouts that torch may choose for results of svd, einsum and elementwise operations, all SVD routines meeting the contract", "why_tests_cant": "Tests start from freshly made contiguous tensors; whether view raises after permute, svd (which returns column-major factors), slicing and einsum depends on the strides met along each path.", "anchors": ["deepquantum/gates/qoperator.py:rxx.TN_contract", "deepquantum/gates/qoperator.py:cnot.TN_operation", "deepquantum/gates/qtensornetwork.py:StateVec2MPS", "deepquantum/gates/qtensornetwork.py:MPS2StateVec", "deepquantum/gates/qtensornetwork.py:TensorDecompAfterTwoQbitGate", "deepquantum/gates/qcircuit.py:Circuit.cir_expectation"]}
{"id": "C69", "title": "Rho2MPS does not depend on the memory layout of the density matrix", "statement": "Rho2MPS gives the same result for every layout of the density matrix. False: it depends on it exactly through whether the rows lie one after the other; for every other layout, a transposed matrix among them, Rho2MPS raises RuntimeError at Rho.view(1,-1).", "quantifier": "all N, all 2^N x 2^N matrices, all strides", "why_tests_cant": "Tests use matrices made by products or kron, which are contiguous; a matrix obtained by .T or permute has the same entries and raises.", "anchors": ["deepquantum/gates/qtensornetwork.py:Rho2MPS"]}
{"id": "C70", "title": "Data types of states, observables and density matrices", "statement": "A real or integer state, observable or density matrix gives the result of its complex64 copy. True of the state on the tensor-network path. False otherwise: the matrix path raises RuntimeError for every state that is not complex64, so the two paths of cir_expectation disagree on every float32 state; a real observable is never accepted; a double-precision state never with a complex64 observable; MatrixProductState keeps the type, so contracting a real tensor with a circuit that contains a gate other than SWAP raises; Rho2MPS raises for every real density matrix.", "quantifier": "all circuits, states, observables, layouts and data types int64, float32, float64, complex64, complex128", "why_tests_cant": "Whether a product of two types is reached depends on the path through the code; tests use states to which +0j was already added.", "anchors": ["deepquantum/gates/qcircuit.py:Circuit.cir_expectation", "deepquantum/gates/qtensornetwork.py:StateVec2MPS", "deepquantum/gates/qtensornetwork.py:MatrixProductState", "deepquantum/gates/qtensornetwork.py:Rho2MPS"]}
{"id": "C71", "title": "Precision of the parameters", "statement": "Giving the same parameters as Python numbers, float32 tensors or float64 tensors makes no difference. True of all rotation gates, u3, rxx, ryy, rzz and cu3, whose matrices stay complex64. False of u1, cphase and all layers of rotations: their integer Pauli matrices let a float64 parameter turn the matrix into complex128 (or make the product of the layer's matrices raise), and then every circuit that contains such an operation raises on every route: U, TN_evolution, TN_contract_evolution, cir_expectation.", "quantifier": "all circuits, positions of the operation, inputs, layouts and SVD routines", "why_tests_cant": "The type of a gate matrix follows from torch's promotion rules for 0-dimensional tensors, different for each class; tests use float32 parameters.", "anchors": ["deepquantum/gates/qoperator.py:u1", "deepquantum/gates/qoperator.py:cphase", "deepquantum/layers/qlayers.py:XYZLayer._cal_single_gates", "deepquantum/layers/qlayers.py:XZXLayer._cal_single_gates"]}
{"id": "C72", "title": "The four versions of the variational circuit in the training program agree", "statement": "In tests/test_TN_train2.py the four methods forward3 (matrix path), forward1 (matrix path, BasicEntangleLayer), forward2 (tensor contraction per sample) and forward (batched contraction) compute, for every batch, the same column of expectation values of Z on the first qubit in the state that the encoding and the layers prepare. Proved for the first three, for all weights and samples, without any hypothesis on singular values. False of forward: it contracts the final state with itself without conjugation, so it returns the bilinear form instead; for zero weights and the sample (pi,0,...,0) it returns the opposite number. It agrees whenever the final states are real. An empty batch makes all four raise.", "quantifier": "all N >= 2, all weights of length 21N, all non-empty batches of samples of between one and N numbers, all SVD routines meeting the contract", "why_tests_cant": "The program prints losses of one of the methods; a missing conjugation is invisible on real states.", "anchors": ["deepquantum/tests/test_TN_train2.py:qcir.forward", "deepquantum/tests/test_TN_train2.py:qcir.forward1", "deepquantum/tests/test_TN_train2.py:qcir.forward2", "deepquantum/tests/test_TN_train2.py:qcir.forward3"]}
{"id": "C73", "title": "The gradient descent demo follows the exact gradient", "statement": "In tests/test_TN_parameter_shift_rule.py, forward never raises and returns the expectation value of Z on the first qubit up to twice what the decompositions may discard (exactly, if they discard nothing); partial_M returns, restores the parameters it shifted in place, and each entry is within the same bound of the partial derivative; both training loops (partial_M and parameter_shift.cal_params_grad) return for every number of steps and perform gradient descent on the exact expectation value with derivatives off by at most that bound. For the four qubits of the file the bound is 7.6e-7.", "quantifier": "all N >= 2, all 9N parameters, learning rates, numbers of steps, all SVD routines meeting the contract", "why_tests_cant": "The demo prints values for one random start; neither the derivative nor the effect of the cut of small singular values is visible.", "anchors": ["deepquantum/tests/test_TN_parameter_shift_rule.py:forward", "deepquantum/tests/test_TN_parameter_shift_rule.py:partial_M", "deepquantum/gates/qtensornetwork.py:StateVec2MPS", "deepquantum/gates/qcircuit.py:parameter_shift.cal_params_grad"]}
{"id": "C74", "title": "The hand-written backward pass returns the gradient of the forward pass", "statement": "In tests/test_TN_train.py, HybridFunction.forward returns the expectation value of its observable up to three times the norm of the observable times what the decompositions may discard, and HybridFunction.backward returns one entry per parameter, each within that accuracy of grad_output times the partial derivative; the network on a batch returns four times the expectation value of Z on the first qubit for every sample. False for the parameter of the controlled phase: the derivative is always zero, but backward returns minus grad_output times the expectation value of Z times controlled Z (minus grad_output for zero parameters and |0...0>). The derivatives are always those of Z on the first qubit, whatever observable forward was given.", "quantifier": "all N >= 2, all 7N+1 parameters, input states, observables, grad_output, batches, all SVD routines meeting the contract", "why_tests_cant": "Training still runs when one of 43 derivatives is wrong; the loss printed by the script does not show it.", "anchors": ["deepquantum/tests/test_TN_train.py:HybridFunction.forward", "deepquantum/tests/test_TN_train.py:HybridFunction.backward", "deepquantum/tests/test_TN_train.py:qcir.forward", "deepquantum/tests/test_TN_train.py:qnet.forward", "deepquantum/gates/qcircuit.py:parameter_shift.cal_params_grad2"]}
{"id": "C75", "title": "The circuits of the neural network demos return four times the Z expectation values of the encoded samples", "statement": "qcir.forward of tests/test_qnn_demo.py and of tests/test_qcnn_demo.py returns, for a batch of B samples, a B x N tensor whose entry (k, i) is four times the expectation value of Z on qubit i in the state obtained from |0...0> by the Y rotations of sample k followed by the variational circuit; all entries lie between -4 and 4 and an empty batch gives an empty result. qcir.forward of tests/test_qnn_demo_free.py raises for every input, because it passes the matrix of states to measure as the number of qubits.", "quantifier": "all N >= 2, all weights of the right number, all batches of samples with 1 to N entries; the last part for all weights and batches", "why_tests_cant": "The demos only print losses; a wrong order of rows and columns or a missing conjugation changes numbers that nobody compares with anything.", "anchors": ["deepquantum/tests/test_qnn_demo.py:qcir.forward", "deepquantum/tests/test_qcnn_demo.py:qcir.forward", "deepquantum/tests/test_qnn_demo_free.py:qcir.forward", "deepquantum/gates/qmath.py:measure"]}
{"id": "C76", "title": "The Born machine returns the measurement distribution of its circuit", "statement": "qnet.forward of tests/test_born_machine.py returns 2^N numbers; the entry at a is the squared modulus of the amplitude of the basis state a after the circuit (five entangling layers and a YZY layer) on |0...0>. No entry is negative and they sum to one.", "quantifier": "all N >= 2, all 18N weights", "why_tests_cant": "The script trains one random start for six qubits and plots the result.", "anchors": ["deepquantum/tests/test_born_machine.py:qcir.forward", "deepquantum/tests/test_born_machine.py:qnet.forward"]}
{"id": "C77", "title": "The shadow circuits return the expectation values of all windows, and both versions agree", "statement": "For a matrix of B samples with M entries, qcircuit.forward of tests/shadow_circuit_demo.py returns a B x (N-n+1) tensor whose entry (k, s) is the expectation value of X on all qubits s, ..., s+n-1 after the variational circuit on these qubits, in the state that holds sample k divided by its norm and filled up with zeros. qcircuit2.forward, which computes one sample and one window at a time, returns the same tensor for the same weights and number of repetitions if there is at least one sample, and raises UnboundLocalError if there is none. Both raise ValueError if M > 2^N. The encoded sample has norm one if the norm of the sample is at least 1e-12 and never more than one, so all entries lie between -1 and 1.", "quantifier": "all 2 <= n <= N, all numbers of repetitions >= 1, all weights of the right number, all batches of samples with at most 2^N entries", "why_tests_cant": "The demo compares the two versions at no point, and the batched version depends on broadcasting over four-dimensional tensors whose mistakes only show for particular batch sizes and windows.", "anchors": ["deepquantum/tests/shadow_circuit_demo.py:qcircuit2.forward", "deepquantum/tests/shadow_circuit_demo.py:qcircuit2.cal_o_lst", "deepquantum/tests/shadow_circuit_demo.py:qcircuit.forward", "deepquantum/tests/shadow_circuit_demo.py:qcircuit.cal_o_lst"]}
{"id": "C78", "title": "The Circuit half and the Qiskit half of test_CDO.py compute the same state", "statement": "For every list of the Qiskit calls u, ry, p, x, cx, ccx and cu on distinct wires, in which the phase argument of each cu is -(phi+lambda)/2, the corresponding list of calls of Circuit (u3, ry, u1, x_gate, cnot, toffoli, cu3) followed by the tensor contraction of tests/test_CDO.py returns the state of Qiskit's simulator with its indices bit-reversed by the loop of the script, times exp(-i sum (phi+lambda)/2) over the u calls. The two halves of the script contain the same calls and their phases cancel, so the script prints the same 1024 amplitudes twice, up to its rounding. Without the condition on the phase of cu the states differ by more than a global phase.", "quantifier": "all numbers of qubits >= 1, all lists of calls, all angles, all valid singular value decompositions", "why_tests_cant": "The script prints two lists of 1024 numbers without comparing them, for one fixed circuit; it cannot show for which calls the translation is right.", "anchors": ["deepquantum/tests/test_CDO.py:40-147", "deepquantum/tests/test_CDO.py:149-176", "deepquantum/tests/test_CDO.py:189-328"]}
{"id": "C79", "title": "The circuit of test_CDO.py prepares the intended distribution of defaults and losses", "statement": "The state that tests/test_CDO.py computes has the amplitude, for the values a0..a9 of the ten qubits: 0 unless a6=a7=a8=a9=0, and otherwise the product of the amplitudes of six rotations: a1 by pi/2, a0 by pi/2 +- 0.791 depending on a1, a2, a3 and a4 by 0.98-0.25a0-0.502a1, 1.45-0.382a0-0.766a1 and 1.5-0.232a0-0.462a1, and a5 by 3pi/8 + max(a2+a3+a4-1,0) pi/12. So the work qubits are always read as 0, and the probability of reading 1 from qubit 5 is the mean of sin^2 of half that angle over the joint distribution of the first five qubits, which sums to one. Part 2 writes the number of ones among the qubits 2, 3, 4 into the qubits 6 and 7 of every basis state with empty work qubits, and part 4 is the inverse of part 2 on every state.", "quantifier": "all 1024 outcomes, all basis states with empty work qubits, all valid singular value decompositions", "why_tests_cant": "The script prints 1024 rounded numbers; that they factor exactly into the conditional rotations is a statement about real numbers that rounding hides.", "anchors": ["deepquantum/tests/test_CDO.py:40-147", "deepquantum/tests/test_CDO.py:149-176"]}
{"id": "C80", "title": "The dictionary returned by info() describes the operation", "statement": "For every gate and layer built from valid arguments, the dictionary returned by info() - label, controls, targets, parameters - read by a fixed table of what the labels stand for, gives the operator that U_expand computes. So two operations with the same dictionary have the same operator, the dictionary after params_update with as many parameters describes the updated operation, the dictionary of operation_dagger() describes the adjoint, and the dictionaries of the operations of a circuit, read in order, give the circuit's unitary. Exceptions: a toffoli gate with the default wires and a PauliEncoding have no working info() (AttributeError), and the dictionary of a BasicEntangleLayer does not contain the number of repetitions, so that after params_update with a longer list it describes another operation.", "quantifier": "all numbers of qubits, all gates and layers of the package, all wires and parameters that the constructors accept as valid", "why_tests_cant": "info() is used for printing only; no test compares it with the matrix.", "anchors": ["deepquantum/gates/qoperator.py:203-206", "deepquantum/gates/qoperator.py:1210-1213", "deepquantum/gates/qoperator.py:2110-2113", "deepquantum/gates/qoperator.py:2157-2160", "deepquantum/layers/qlayers.py:775-782", "deepquantum/layers/qlayers.py:882-889", "deepquantum/layers/qlayers.py:948-955", "deepquantum/layers/qlayers.py:1010-1012"]}
{"id": "C81", "title": "The classifier of test_classification_demo.py computes a logistic function of one expectation value and cannot be certain", "statement": "qcir.forward returns, for every batch of samples with 1 to N entries and 21N weights, one row per sample and one column per qubit with four times the expectation value of Z of that qubit in the final state: Y rotation and Z rotation by the sample's angles on |0...0>, six entangling layers, one YZY layer. qnet.forward returns the logistic function of the first column after arcsin of the inputs. So every output is between sigma(-4) and sigma(4), the mean squared error against the labels 0 and 1 is never below sigma(-4)^2 whatever the weights, and a sample is coloured as class 1 exactly if the expectation value of Z of the first qubit is positive. An input x in [-1,1] is encoded on a qubit as the point (x sqrt(1-x^2), x^2, sqrt(1-x^2)) of the Bloch sphere; the inputs 1 and -1 are therefore not told apart: batches that differ only in such signs get equal outputs.", "quantifier": "all numbers of qubits from 2, all weights, all batches", "why_tests_cant": "The script plots the result of one training run with random data and random initial weights.", "anchors": ["deepquantum/tests/test_classification_demo.py:49-81", "deepquantum/tests/test_classification_demo.py:84-111", "deepquantum/tests/test_classification_demo.py:138-149", "deepquantum/tests/test_classification_demo.py:159-164", "deepquantum/tests/test_classification_demo.py:223-225"]}
{"id": "C82", "title": "What test_operation_dagger.py prints: diagonals of ones, overlaps within 4e-7 of one, and an AttributeError", "statement": "The first block of the script (disabled there) prints, for every number of qubits from 2 and all parameters, 7 and 16 diagonals that consist of ones, and between them the parameters of the XYZ layer and the list with the angles of each qubit reversed and negated. The second block (which runs) applies each operation and its dagger to one matrix product state and prints the overlap with the start state after each step. For every state of norm one, every number of qubits from 2 and all parameters, every one of the 16 printed overlaps differs from 1 by no more than 7N times 1e-8 times the square root of 2^(N/2) despite the truncations adding up over the steps; for the N = 3 of the script by no more than 4e-7. The script then stops with an AttributeError at rxx, which claims supportTN and has no TN_operation, so that the gates from rxx on are never tested. The loop has the corresponding bound for every list of gates and layers that have TN_operation.", "quantifier": "all N from 2, all parameters, all normalised states, all valid singular value decompositions, all lists of operations with TN_operation", "why_tests_cant": "The script prints numbers for a reader to compare, for one random state.", "anchors": ["deepquantum/tests/test_operation_dagger.py:26-69", "deepquantum/tests/test_operation_dagger.py:72-123", "deepquantum/gates/qcircuit.py:169-254", "deepquantum/gates/qoperator.py:604-736"]}
{"id": "C83", "title": "What test_TN.py prints: the three ways to evolve a state agree within the stated tolerance", "statement": "First block: for every number of qubits from 2, all 21N weights and every state of norm one, both circuits are built and the two printed states differ from the exact final state in norm by no more than 19N (matrix product state) and N-1 (contraction) times 1e-8 times the square root of 2^(N/2); for the 14 qubits of the script by 3.1e-5 and 1.5e-6. The circuit with one BasicEntangleLayer of six repetitions computes exactly the state of the circuit with single layers and rings (the comparison that is commented out). Second block (8 and 4 qubits, 39 gates and layers): it returns for every state of norm one; psif0 is exact, psif1 is within 1.1e-6 and psif2 within 6e-8 of it, and all 16 entries of the printed comparison |psif2-psif0| < 1e-6 are True. Third block: for all parameters, all states of norm one and every batch size, every entry of the printed comparisons of psif0 with psif1 and psif2[0] is True, and every row of the batch result equals the result without a batch.", "quantifier": "all states of norm one, all weights and parameters, all valid singular value decompositions; all N from 2 in the first block, all batch sizes in the third", "why_tests_cant": "The script draws one random state and random parameters per run and prints the comparison.", "anchors": ["deepquantum/tests/test_TN.py:57-116", "deepquantum/tests/test_TN.py:162-255", "deepquantum/tests/test_TN.py:258-324", "deepquantum/gates/qcircuit.py:169-254"]}
{"id": "C84", "title": "What test_torchscript.py prints, and that its forward pass always fails", "statement": "The list comprehension [each.info()['label'] for each in c.gate] gives, for every circuit of gates and layers on admissible wires, the labels of the operations in order. In test_torchscript.py, for every number of qubits from 3, all 11N weights and every batch of samples with 1 to N entries, build_circuit returns the circuit with the operator of its 14 listed operations and the encoded states as columns, and prints the 14 labels; forward then raises TypeError because it passes the matrix of states to measure as the number of qubits. Whatever the number of qubits, weights and samples, forward returns no result, so the export that the script is about is never reached. The weights from 3N to 6N influence nothing.", "quantifier": "all circuits of gates and layers; all numbers of qubits, weights and batches", "why_tests_cant": "The script is itself the test and cannot get past its second statement.", "anchors": ["deepquantum/tests/test_torchscript.py:56-95", "deepquantum/tests/test_torchscript.py:98-115", "deepquantum/gates/qcircuit.py:504-505", "deepquantum/gates/qmath.py:242-253"]}
{"id": "C85", "title": "The conversion to a matrix product state is canonical, minimal and has a known error", "statement": "For every vector of 2^N entries and every SVD routine that keeps its contract: whenever StateVec2MPS returns, all sites but the last are isometries, every inner bond is at most the Schmidt rank of the vector at this place, the squared distance between the vector and the vector of the result is exactly the sum of the squares of the discarded singular values, and the squared norm shrinks by exactly this sum. If no non-zero singular value is discarded, every inner bond equals the Schmidt rank, and no matrix product state of the vector, however obtained, has a smaller bond anywhere. A product state always gives sites of shape [2,1,1], and p|00>+q|11> gives the shapes [2,1,2] and [2,2,1].", "quantifier": "all numbers of qubits, all vectors, all SVD routines keeping their contract", "why_tests_cant": "Minimality compares with all other matrix product states, and the error formula concerns all vectors and all choices of the SVD routine.", "anchors": ["deepquantum/gates/qtensornetwork.py:15-48", "deepquantum/gates/qtensornetwork.py:66-90"]}
{"id": "C86", "title": "Operations on matrix product states are local", "statement": "Whatever the SVD routine returns and whatever tensors the list contains, a TN_operation that returns leaves the length of the list and every site outside the span of its qubits (from the lowest to the highest; for single-qubit layers the qubits themselves) exactly as they were; so does TN_evolution for the union of the spans. For every circuit of operations with a working TN_operation and every SVD routine that keeps its contract, every bond that no operation crosses keeps its dimension; in particular a product state converted by StateVec2MPS and evolved has dimension 1 at every bond no operation crosses. A crossed bond can grow: CNOT turns (p|0>+q|1>)|0> into sites with a bond of dimension 2.", "quantifier": "all circuits, all matrix product states, all SVD routines", "why_tests_cant": "The untouched sites must be untouched for every circuit, every number of sites and every outcome of the SVDs, including the swap chains of long-range gates.", "anchors": ["deepquantum/gates/qoperator.py:115-127", "deepquantum/gates/qoperator.py:1040-1077", "deepquantum/gates/qoperator.py:1763-1800", "deepquantum/gates/qcircuit.py:64-77", "deepquantum/layers/qlayers.py:37-50", "deepquantum/layers/qlayers.py:685-720"]}
{"id": "C87", "title": "Operations on disjoint qubits do not influence each other", "statement": "Two circuits of valid gates and layers without common qubits can be exchanged: U() of the two concatenations is the same tensor. For every density matrix, a circuit all of whose qubits are traced out does not change the result of partial_trace; cir_expectation of an observable on qubits the circuit does not touch is that of the input state; and measure of a list of qubits the circuit does not touch gives the same values before and after the circuit.", "quantifier": "all numbers of qubits, all circuits of gates and layers, all states and density matrices, all observables on the untouched qubits", "why_tests_cant": "The claim quantifies over all pairs of circuits and all sets of qubits, and relates U, partial_trace, cir_expectation and measure, whose index conventions must agree for every register size.", "anchors": ["deepquantum/gates/qcircuit.py:51-62", "deepquantum/gates/qcircuit.py:101-115", "deepquantum/gates/qmath.py:154-203", "deepquantum/gates/qmath.py:18-26", "deepquantum/gates/qmath.py:242-254"]}
{"id": "C88", "title": "The Born machine script runs to its end and its loss is the relative entropy to a positive target", "statement": "For every number of qubits the target of the script has 2^N positive entries that sum to one, so none of its three assertions fails. For every weight vector the loss is the relative entropy of the target to the measurement distribution of the circuit: never negative, zero exactly if the circuit produces the target, infinite exactly if one outcome has probability zero. For every optimizer that keeps the number of weights the script prints 3000 lines with epochs 1..3000, non-negative losses and the learning rate 0.5 * 0.8^(milestones passed), which never increases, and the final assertion on the length of the output holds.", "quantifier": "all numbers of qubits >= 2, all initial weights, all optimizers", "why_tests_cant": "The script runs one number of qubits and random weights; that the loss is bounded below by zero with equality only at the target, and that no assertion fails in any of the 3000 passes whatever the optimizer does, is a claim about all weights.", "anchors": ["deepquantum/tests/test_born_machine.py:29-49", "deepquantum/tests/test_born_machine.py:107-116", "deepquantum/tests/test_born_machine.py:120-172"]}
{"id": "C89", "title": "The unit tests of qmath pass for every random input", "statement": "multi_kron of a non-empty list of matrices has the products of the row numbers and of the column numbers as its shape, so test_multi_kron passes for all random matrices, as does test_dag. test_measure passes as well.", "quantifier": "all random matrices drawn by the tests; for the shape all non-empty lists of matrices of any sizes", "why_tests_cant": "Each run of the tests draws one set of random matrices; the claim is about every draw and, for the shape, about lists of any length and matrices of any size.", "anchors": ["deepquantum/tests/test_gates/test_qmath.py:20-62", "deepquantum/gates/qmath.py:10-15", "deepquantum/gates/qmath.py:242-253"]}
{"id": "C90", "title": "Every operation enlarges a bond of a matrix product state by a known factor only", "statement": "After any circuit of supported operations the dimension of bond k is at most the dimension before times the product over the operations of a factor: 1 for one-qubit gates and layers, 2 for a CNOT, CZ, controlled phase or controlled U3 at the bond beside the outer qubit and 16 at the bonds it is carried across, 4 resp. 16 for SWAP, 2 resp. 16 for Toffoli, 32 (4 at the last bond) for a ring of CNOTs, and 1 at bonds an operation does not reach. For controlled gates between neighbours it is 2 to the number of gates across the bond; the factor 2 is reached.", "quantifier": "all numbers of qubits, all circuits of supported operations, all matrix product states, all valid SVD routines", "why_tests_cant": "The cost of the tensor network simulation is governed by the bond dimensions; the tests look at amplitudes of a few small circuits and would not notice an implementation whose bonds grow faster.", "anchors": ["deepquantum/gates/qoperator.py:1040-1133", "deepquantum/gates/qoperator.py:1763-1799", "deepquantum/gates/qtensornetwork.py:93-149", "deepquantum/gates/qcircuit.py:64-77"]}
{"id": "C91", "title": "The networks of the demos are trigonometric polynomials of their inputs and weights", "statement": "An output of test_qnn_demo.py, test_qcnn_demo.py and of the matrix variants of test_TN_train2.py is, as a function of one entry of a sample, a trigonometric polynomial whose degree is at most the number of qubits rotated by this entry (twice that for the circuit of the classifier); as a function of one weight it is alpha + beta cos + gamma sin. Hence all are 2 pi periodic, and if a target A cos(n x + c) oscillates faster than the number of qubits with this input, no weights bring the mean square error on a grid of 2n samples below A^2. The degree bound is reached. Parameters of a controlled U3 also give the frequency 1/2.", "quantifier": "all numbers of qubits, weights, batches, samples, entries of a sample, outputs, frequencies, amplitudes and phases", "why_tests_cant": "Which functions a circuit can represent for some choice of weights is a statement about all weights and all inputs; a training run that ends with a large loss does not tell whether more steps would help.", "anchors": ["deepquantum/tests/test_qnn_demo.py:qcir.forward", "deepquantum/tests/test_qcnn_demo.py:qcir.forward", "deepquantum/tests/test_TN_train2.py:qcir.forward3", "deepquantum/tests/test_classification_demo.py:49-81", "deepquantum/embeddings/qembedding.py:PauliEncoding"]}
{"id": "C92", "title": "The hybrid networks of the demos compute what they should, their batches are fair and the training runs to its end", "statement": "qnet of test_qnn_demo.py and test_qcnn_demo.py gives one number per sample: three layers of leaky neurons applied to four times the Z expectation values of the circuit; it depends on this sample only, is 2 pi periodic in every input and bounded by the row sums of the linear layers. The loss of a batch is the mean square error of its samples, also for a batch of one sample. For every shuffle, data_iter yields every labelled sample exactly once, in batches of the given size except a smaller last one. For every optimiser that keeps shapes, training ends without an error and reports one number per epoch; the number reported for an epoch is the mean square error on the training data.", "quantifier": "all numbers of qubits from two on, parameters, samples, labels, batch sizes, shuffles, optimisers and numbers of epochs", "why_tests_cant": "The scripts run one data set with one batch size that divides its length, on three qubits; the shuffle and the initial parameters are random. What an epoch reports is only compared by eye in a plot.", "anchors": ["deepquantum/tests/test_qnn_demo.py:qnet", "deepquantum/tests/test_qnn_demo.py:data_iter", "deepquantum/tests/test_qnn_demo.py:202-220", "deepquantum/tests/test_qcnn_demo.py:qnet", "deepquantum/tests/test_qcnn_demo.py:data_iter"]}
{"id": "C93", "title": "The image classifier computes ten scores per image, and its script reports the loss and the accuracy", "statement": "Net of quanv.py gives, for every batch of images with even sides and 784 pixels, ten scores per image: the 4 x 196 values of the quantum convolution in row-major order, 64 rectified neurons, a linear layer; images of other sizes raise. The loss of a batch is the mean of -log softmax. The data loader yields the samples in order in full batches except a smaller last one. test_quan_demo.py runs to its end for every optimiser that keeps shapes and every nonempty data; it prints one loss per epoch, the mean loss of the test images, and as accuracy the percentage of test images whose label has the greatest score.", "quantifier": "all parameters, image sizes, images, labels, batch sizes, numbers of images, numbers of epochs and optimisers", "why_tests_cant": "The script downloads its data, uses one batch size and checks no number it prints; that the accuracy can never exceed 25 percent with its constants is only seen by comparing the formula with the count of correct images.", "anchors": ["deepquantum/nn/modules/quanv.py:Net", "deepquantum/tests/test_quan_demo.py:Net", "deepquantum/tests/test_quan_demo.py:73-105", "deepquantum/tests/test_quan_demo.py:107-122"]}
{"id": "C94", "title": "The image classifier of the shadow circuit demo and its script", "statement": "qnet of shadow_circuit_demo.py gives ten scores per image, a linear function of the expectation values of all windows in the normalised image; they do not change if the image is made brighter or darker or is inverted in sign. The reshaping of a batch keeps every image in its row, also for a batch of one image, where squeeze drops the batch dimension. The loss of a batch is the mean cross entropy. Training ends without an error for all orders of the samples and all optimisers that keep shapes, and reports per epoch the mean loss of the samples; the printed accuracy is the percentage of test images whose label has the greatest score.", "quantifier": "all numbers of qubits with 784 <= 2^N, window sizes from two on, parameters, images, labels, batch sizes, orders, optimisers, and positions and sizes of the test set", "why_tests_cant": "The script checks nothing and needs minutes per epoch; a row mixed up by squeeze and view would only show as a bad accuracy.", "anchors": ["deepquantum/tests/shadow_circuit_demo.py:qnet", "deepquantum/tests/shadow_circuit_demo.py:304-317", "deepquantum/tests/shadow_circuit_demo.py:335-366", "deepquantum/tests/shadow_circuit_demo.py:369-382"]}
{"id": "C95", "title": "Circuits may be rewritten by the usual identities", "statement": "74 laws relate the gates of the library to each other: gates that undo themselves, angles that add up or vanish, periods, gates expressed by other gates (swap and the two-qubit rotations by controlled NOTs, a controlled U3 by two controlled NOTs, a Toffoli by six, a controlled Z by Hadamards), interchangeable qubits, Paulis and rotations moved through a controlled NOT, gates on different qubits. U() returns the same tensor for both sides, also when a law is applied inside a circuit between other gates and layers, any number of times and in both directions; expectation values and contraction results stay the same as well. Hadamards, phase gates and controlled NOTs express every circuit of library gates exactly, so every circuit has a form on which all three evaluation paths work. The period of a rotation is 4 pi and not 2 pi.", "quantifier": "all laws with all their angles and qubits, all surrounding circuits, all chains of rewriting steps, all circuits of gates with any number of controls, all input states and observables", "why_tests_cant": "A test checks a law for a few angles and one position in one circuit; the laws hold for all of them, and a chain of rewritings has no bound.", "anchors": ["deepquantum/gates/qoperator.py:Hadamard", "deepquantum/gates/qoperator.py:cu3", "deepquantum/gates/qoperator.py:toffoli", "deepquantum/gates/qoperator.py:multi_control_cnot", "deepquantum/gates/qcircuit.py:U"]}
{"id": "C96", "title": "Results change with the parameters no faster than known constants", "statement": "If two circuits consist of the same gates and layers on the same qubits and differ in their parameters only, then applying them to the same input gives states whose distance is at most the sum of the changes of all parameters, halved for everything but the phase gates. Expectation values change by at most the sum of the changes times a bound on the observable, so rounding n parameters by eps costs at most n*eps. No partial derivative and no entry of cal_params_grad() exceeds this bound. The values of the networks of test_qnn_demo.py, test_qcnn_demo.py and test_TN_train2.py change by at most 4, 4 and 1 times the total change of the weights and encoded angles, and the complete demo networks by that times the row sums of their linear layers. The constants cannot be improved.", "quantifier": "all circuits of valid gates and layers, all pairs of parameter lists, all inputs, all observables, all weights and batches of the networks", "why_tests_cant": "A test compares a few pairs of parameters; a bound on the rate of change concerns all pairs, arbitrarily close ones included, and its sharpness is a limit.", "anchors": ["deepquantum/gates/qcircuit.py:U", "deepquantum/gates/qcircuit.py:cir_expectation", "deepquantum/gates/qcircuit.py:cal_params_grad", "deepquantum/tests/test_qnn_demo.py:qcir", "deepquantum/tests/test_TN_train2.py:forward3"]}
{"id": "C97", "title": "Rho2MPS is canonical and minimal, and its error is known exactly", "statement": "Whatever singular values are discarded, Rho2MPS of a 2^N x 2^N matrix makes N decompositions and gives N sites that are isometries from their right bonds, so the operator they hold always has Frobenius norm 1 and the scale of the matrix is lost. No bond exceeds the operator Schmidt rank. The squared Frobenius distance of the matrix from a multiple of what the sites hold is exactly the sum of the squared discarded singular values, at most N 2^N 1e-16. If nothing is discarded, every inner bond is the operator Schmidt rank and no matrix product operator of the matrix has a smaller one; for a pure state the bonds are the squares of its Schmidt ranks, for a product of one-qubit matrices they are 1. Rho2MPS returns for every matrix of trace 1 of at most 24 qubits, and raises for every matrix of Frobenius norm at most 1e-8. MPS2Rho of the result differs from the matrix, up to the phase of the SVD routine, by at most an explicit multiple of the discarded values; with real phases and at most 22 qubits by at most 3 sqrt(N) 2^N 1e-8 for every density matrix.", "quantifier": "all N, all 2^N x 2^N matrices, all SVD routines satisfying their contract", "why_tests_cant": "Minimality compares with all matrix product operators; the error identity concerns a continuum of matrices and truncation at 1e-8 is never exercised by test inputs.", "anchors": ["deepquantum/gates/qtensornetwork.py:Rho2MPS", "deepquantum/gates/qtensornetwork.py:MPS2Rho"]}
{"id": "C98", "title": "The regression scripts can represent their target, and what they report", "statement": "qnet of test_TN_train2.py gives for every sample six times the real part of the sum of psi (Z psi), a number in [-6, 6]; qnet of test_TN_train.py with its six qubits gives four expectation values up to 7.2e-6. The loss of a batch is the mean square difference to the labels, also for a batch of one sample. Training runs to its end for every shuffle, optimiser and scheduler, and reports one number per epoch, the error on the last batch before its step; the points of the plot are the values of the network. The target 2 sin(2x+1.9) can be represented exactly by both circuits for all real x: for at least 3 qubits (2 for test_TN_train.py) some weights give any wave B + A sin(2x+phi) with |B| <= |A| <= 3 (2 for test_TN_train.py). For an even number of qubits these weights make all amplitudes real, so the batched evaluation without conjugation gives the same. Hence some weights give on every batch of the noisy data a loss of at most 2.5e-7 (2.6e-7). No weights give an amplitude above 6 sqrt(1 - 2^-N) (4 sqrt(1 - 2^-N)), so the range [-6, 6] is never filled by such a wave. A ring of CNOTs on at least 3 qubits turns bit 0 into the sum of the others and bit k into the sum of bits 0..k.", "quantifier": "all N, all weights, all batches, all shuffles, all optimisers, all real inputs, all valid SVD routines", "why_tests_cant": "Training from random weights shows at best a small loss on some samples; it cannot show that the loss can be brought to the noise level for all inputs, nor that larger amplitudes are out of reach.", "anchors": ["deepquantum/tests/test_TN_train2.py:qnet.forward", "deepquantum/tests/test_TN_train2.py:foo", "deepquantum/tests/test_TN_train.py:qnet.forward", "deepquantum/gates/qlayers.py:ring_of_cnot"]}
{"id": "C99", "title": "What the networks of the three demos can represent", "statement": "On three or more qubits there are weights for which the first output of the circuit of test_qnn_demo.py, test_qcnn_demo.py and test_qnn_demo_free.py is 4 cos(x_0 + phi) for every sample x, for any chosen phi; and other weights for which it is 4 times the product over the qubits j of cos(x_(j mod len x) + phi_j), for any chosen shifts. Hence the degree N in C91 is reached by these circuits themselves and cannot be lowered. With the three linear layers behind the circuit the whole network represents every wave A sin(x_0 + phi) + B, in particular the target foo = 2 sin(x) exactly, and some parameters give a loss of at most 2.5e-7 (the largest variance of the noise in the labels) on every non-empty batch of the noisy data of the scripts.", "quantifier": "all N >= 3, all shifts, amplitudes and offsets, all samples, all batches, all noise in [0, 1]", "why_tests_cant": "Training from random weights shows at best a small loss on some samples; it cannot show that the network can represent the target for all inputs, nor that the degree bound is sharp.", "anchors": ["deepquantum/tests/test_qnn_demo.py:qnet.forward", "deepquantum/tests/test_qnn_demo.py:foo", "deepquantum/tests/test_qcnn_demo.py:qnet.forward", "deepquantum/tests/test_qnn_demo_free.py:qcir.build_circuit"]}
{"id": "C100", "title": "With random initial weights the demo circuits treat all samples alike and give centred, uncorrelated outputs", "statement": "The weights of the circuits of test_qnn_demo.py, test_qcnn_demo.py and test_qnn_demo_free.py are drawn independently and uniformly from [0, 2 pi]. For the outputs (four times the Z expectation values): a sample can be moved into the weights, it only shifts the first weight of every qubit; hence the outputs have the same distribution for every sample, that is, every function of the outputs has the same mean over the weights. Half a turn added to the last weight of a qubit changes the sign of its output and of no other; hence the distribution is symmetric in the sign of every output, every output has mean zero, different outputs are uncorrelated, and all derivatives with respect to the weights have mean zero. The mean square of an output is positive and at most 8. The same holds for the entries of the tensor that forward returns.", "quantifier": "all N, all samples and batches, all functions of the outputs, all qubits and weights", "why_tests_cant": "A test sees one draw of the weights; equality of distributions over all weights cannot be tested on samples.", "anchors": ["deepquantum/tests/test_qnn_demo.py:qcir.__init__", "deepquantum/tests/test_qnn_demo.py:qcir.forward", "deepquantum/tests/test_qcnn_demo.py:qcir.__init__", "deepquantum/tests/test_qnn_demo_free.py:qcir.__init__"]}
{"id": "C101", "title": "The outputs and gradients of wide demo circuits do not vanish for random initial weights", "statement": "For the circuits of test_qnn_demo.py, test_qcnn_demo.py and test_qnn_demo_free.py with weights drawn independently and uniformly from [0, 2 pi], the mean square of the output of qubit i is at least 16 (3/8)^13 (qnn demo, i + 6 < N) or 16 (3/8)^23 (the other two, i + 7 < N), for every sample and every number N of qubits: the constant does not depend on N, so the outputs do not concentrate at zero when the circuit gets wider. The mean square of the derivative of an output with respect to the last weight of its qubit equals the mean square of the output, so the gradients do not vanish either (no barren plateau). The same bound holds for the entries of the tensor that forward returns.", "quantifier": "all N, all samples and batches, all qubits far enough from the last one", "why_tests_cant": "It is a statement about means over 15 N or 18 N continuous weights for every N; tests see single draws for small N.", "anchors": ["deepquantum/tests/test_qnn_demo.py:qcir.__init__", "deepquantum/tests/test_qnn_demo.py:qcir.forward", "deepquantum/tests/test_qcnn_demo.py:qcir.__init__", "deepquantum/tests/test_qnn_demo_free.py:qcir.__init__"]}
{"id": "C102", "title": "What the self-tests at the end of the modules print", "statement": "The blocks under `if __name__ == '__main__'`, for every draw of their random numbers: qgate.py prints [[1.]]; qcircuit.py prints the seven labels, the unitary of the circuit, its parameters, and eleven gradient entries that are exactly the partial derivatives of the expectation of Z on qubit 0 (the circuit contains a layer without tensor network methods, so the matrix path is taken); qoperator.py prints the matrix of a NOT on qubit 3 of six controlled by the qubits 0, 1, 2 and its info; qlayers.py prints the state (2|0000> + |1010>)/sqrt 5, exactly with the matrix and up to 2.2e-7 with the sites; qtensornetwork.py prints the inner product of the two normalised vectors, and the number computed with the sites is within 1.8e-6 of it or the call raises, which it does only if one of the vectors is a product across a cut up to that accuracy; qmath.py prints numbers between -1 and 1 for the matrix, and unnormalised differences for the vector; qstate.py prints |1> and its density matrix; qlayer.py raises TypeError.", "quantifier": "all random draws, all SVD routines; the theorems for qlayers.py, qtensornetwork.py and qmath.py hold for all numbers of qubits", "why_tests_cant": "These blocks are the only tests in the package and they check nothing: they print one draw and leave the judgement to the reader.", "anchors": ["deepquantum/gates/qgate.py:__main__", "deepquantum/gates/qcircuit.py:__main__", "deepquantum/gates/qoperator.py:__main__", "deepquantum/layers/qlayers.py:__main__", "deepquantum/gates/qtensornetwork.py:__main__", "deepquantum/gates/qmath.py:__main__", "deepquantum/embeddings/qstate.py:__main__", "deepquantum/layers/qlayer.py:__main__"]}
{"id": "C103", "title": "What rounding does to the matrix of a circuit", "statement": "In every floating-point arithmetic with relative error u of one real operation and absolute error delta of cosine and sine, building a circuit gate by gate and calling U() does not raise, and every column of the computed matrix is within prod(1 + cost) - 1 of the column of the operator for the stored (rounded) angles, and within that plus u times the sum of the absolute angles of the operator for the given angles. The cost of a gate depends on its kind only, not on the number of qubits, and is 0 for X, Y, Z, CNOT, CZ, SWAP, Toffoli and multi-controlled NOT: circuits of these gates are computed exactly. Applying the matrix to a basis state adds no error, and the norm of the result is 1 up to the same bound. In single precision no gate costs more than 5e-6, so 1000 gates give at most 0.0051. The computed matrix is not exactly unitary in general: for one Hadamard gate no arithmetic with rational numbers gives a unitary matrix.", "quantifier": "all arithmetics meeting the assumptions (instances: binary numbers with p digits, round to nearest even, sums of products term by term or fused), all circuits of gates, all numbers of qubits, all basis states", "why_tests_cant": "A test sees the rounding errors of one machine on one circuit; the bound holds for every circuit and every order of summation.", "anchors": ["deepquantum/gates/qcircuit.py:Circuit.U", "deepquantum/gates/qoperator.py:U_expand", "deepquantum/gates/qoperator.py:Operator.gate_expand_1toN", "deepquantum/gates/qoperator.py:Operation.two_qubit_control_gate", "deepquantum/gates/qoperator.py:Operation.multi_control_gate", "deepquantum/gates/qmath.py:multi_kron"]}
{"id": "C104", "title": "Measured values in rounded arithmetic", "statement": "In every floating-point arithmetic, the whole matrix path (build the gates, U(), product with the state, measure) returns for every requested qubit a number within d(2+d) + s(1+d)^2 of P(0) - P(1), where d is the bound of C103 and s the error of a sum of 2^N products. All three forms of the argument ith give the same numbers (a single index not 0). For an arbitrary normalised initial state the same holds with a larger d that includes the product with the state. If the true value is further from 0 than the bound, the computed sign is right. Circuits of X, Y, Z, CNOT, CZ, SWAP, Toffoli and multi-controlled NOT on a basis state give exactly 1 or -1. In single precision, with up to 10 qubits and 100 gates, the error is at most 0.0011.", "quantifier": "all arithmetics meeting the assumptions, all circuits of gates, all numbers of qubits, all initial states, all lists of qubits", "why_tests_cant": "A test compares with a tolerance chosen by hand for a few circuits; here the tolerance is derived and holds for every circuit.", "anchors": ["deepquantum/gates/qmath.py:measure", "deepquantum/gates/qmath.py:expval", "deepquantum/gates/qmath.py:_Zmeasure", "deepquantum/gates/qcircuit.py:Circuit.U"]}
{"id": "C105", "title": "Layers in rounded arithmetic", "statement": "In every floating-point arithmetic, the computed unitary matrix of a circuit of gates and layers differs from the matrix of the operator in every column by at most the product of the factors (1 + cost) over the gates and layers, minus 1; the costs are given in closed form. Rounding the parameters adds at most u times the sum of their absolute values. CNOT rings cost nothing: their computed matrices are exact, on both code paths, and circuits of rings and exact gates are computed exactly. For circuits of gates only the bound is the one of C103, and bounds of consecutive circuits multiply. The measured values differ from P(0) - P(1) by at most the corresponding bound, for a basis state and for any normalised initial state. In single precision, on up to 4 qubits, a layer costs at most 2e-5, a BasicEntangleLayer with up to 10 repetitions at most 9e-4, and measured values after up to 50 gates and layers are within 0.0021.", "quantifier": "all arithmetics meeting the assumptions, all circuits of gates and layers, all wire lists, all parameters, all numbers of qubits and repetitions, all initial states", "why_tests_cant": "The error of a layer depends on the number of its qubits, on its parameters and on the order of the sums in the library; a test sees one of these at a time.", "anchors": ["deepquantum/layers/qlayers.py:SingleGateLayer", "deepquantum/layers/qlayers.py:YZYLayer", "deepquantum/layers/qlayers.py:HLayer", "deepquantum/layers/qlayers.py:ring_of_cnot", "deepquantum/layers/qlayers.py:BasicEntangleLayer", "deepquantum/gates/qcircuit.py:Circuit.U", "deepquantum/gates/qmath.py:multi_kron", "deepquantum/gates/qmath.py:measure"]}
{"id": "C106", "title": "Gradients in rounded arithmetic", "statement": "In every floating-point arithmetic, cir_expectation of a circuit that is evaluated by its matrix differs from the expectation value by at most a bound in closed form, and every entry of cal_params_grad differs from the partial derivative at the stored parameters by at most a bound in closed form, which includes that the parameters are not restored exactly in the course of the computation; cal_params_grad leaves the circuit with the parameters it had. In single precision, on up to 4 qubits, for up to 20 gates and layers other than BasicEntangleLayer with up to 100 parameters in [-4, 4], the entries are within 0.0035 times the size of the observable.", "quantifier": "all arithmetics meeting the assumptions, all circuits of gates and layers with an operation flagged supportTN=False, all parameters, all observables, all normalised initial states", "why_tests_cant": "A test compares with a tolerance; it cannot tell which tolerance is right for all circuits, and it does not look at the parameters of the circuit after the gradient has been computed.", "anchors": ["deepquantum/gates/qcircuit.py:Circuit.cir_expectation", "deepquantum/gates/qcircuit.py:parameter_shift.cal_params_grad", "deepquantum/gates/qoperator.py:u1.params_update", "deepquantum/gates/qoperator.py:u3.params_update", "deepquantum/layers/qlayers.py:BasicEntangleLayer.params_update"]}
{"id": "C107", "title": "Gradient descent lowers the expectation value and comes close to a stationary point", "statement": "Let a circuit without controlled U3 gates have n parameters, and let C bound the observable times the squared norm of the initial state. Replacing the parameters by params - lr*grad, with grad from cal_params_grad, lowers the expectation value by at least lr (1 - lr n C/2) times the sum of the squared entries of grad, for circuits evaluated by their matrix; on the tensor network path by lr/2 times the sum of the squared derivatives for 0 < lr <= 1/(n C), up to a term quadratic in the accuracy, with the derivatives of cal_params_grad and, for circuits without u1, cphase and cu3, with those of cal_params_grad2. Hence the two training loops of test_TN_parameter_shift_rule.py, for every start and every learning rate of at most one over the number of parameters, never raise the expectation value by more than such a term, and after k steps have passed parameters where the sum of the squared derivatives is at most 4/(lr k) plus such a term.", "quantifier": "all circuits of gates and layers without controlled U3, all parameters, all observables, all learning rates in the range, all numbers of steps, every SVD routine", "why_tests_cant": "The script prints the values of one run from random parameters; that no step from any start raises the value, and that the derivatives must become small, is a statement about all runs.", "anchors": ["deepquantum/tests/test_TN_parameter_shift_rule.py:partial_M", "deepquantum/tests/test_TN_parameter_shift_rule.py:forward", "deepquantum/gates/qcircuit.py:parameter_shift.cal_params_grad", "deepquantum/gates/qcircuit.py:Circuit.cir_expectation", "deepquantum/gates/qcircuit.py:parameter_shift.cal_params_grad2"]}
{"id": "C108", "title": "Gradient descent in rounded arithmetic", "statement": "In every floating-point arithmetic, for circuits without controlled U3 gates that are evaluated by their matrix and learning rates 0 < lr <= 1/(n B), n the number of parameters and B the size of the observable: the parameters params - lr*grad with grad from cal_params_grad are floating-point numbers again, and the expectation value at them is lower by lr/2 times the sum of the squared derivatives, up to lr/2 n times the square of an error in closed form. Hence a loop of k such steps whose parameters cannot leave [-X, X] returns, does not raise the expectation value by more than k such terms, and passes parameters where the sum of the squared derivatives is at most 4B/(lr k) plus n times the square of that error. In single precision, on up to 4 qubits, for up to 20 gates and layers other than BasicEntangleLayer with up to 100 parameters in [-4, 4] and lr >= 0.001, the error is below 0.0036 B + 0.0003.", "quantifier": "all arithmetics meeting the assumptions, all circuits of gates and layers with an operation flagged supportTN=False and without controlled U3, all floating-point parameters, all observables, all normalised initial states, all learning rates in the range, all numbers of steps", "why_tests_cant": "Whether rounding can turn a descent into an ascent depends on the circuit, the parameters and the learning rate; a run shows it for one of them.", "anchors": ["deepquantum/gates/qcircuit.py:parameter_shift.cal_params_grad", "deepquantum/gates/qcircuit.py:Circuit.cir_expectation", "deepquantum/gates/qoperator.py:u3.params_update", "deepquantum/layers/qlayers.py:YZYLayer.params_update"]}
{"id": "C109", "title": "With the learning rate of the file, no pass of the training loops raises the expectation value", "statement": "For every start and every learning rate lr with c = 1 - lr (2N + 3/2) > 0, every pass of the two training loops of test_TN_parameter_shift_rule.py on N qubits returns and lowers the expectation value of Z on the first qubit by at least lr c/2 times the sum of its squared derivatives, up to lr (6N + 3)(1 + 1/(2c)) times the square of twice the accuracy. With the numbers of the file, four qubits and learning rate 0.1, every pass lowers it by at least 0.0025 times the sum of the squared derivatives, up to 2e-11, and after the 20 and 50 passes of the file it is not above the value at the start, up to 1e-9.", "quantifier": "all decompositions that are singular value decompositions, all N >= 2, all 9N start parameters, all learning rates in the range, all passes", "why_tests_cant": "Whether a step of fixed size overshoots depends on the point; a run with one random start shows nothing about the others.", "anchors": ["deepquantum/tests/test_TN_parameter_shift_rule.py:partial_M", "deepquantum/tests/test_TN_parameter_shift_rule.py:forward"]}
{"id": "C110", "title": "Gradient descent started at zero stays at the largest expectation value", "statement": "The expectation value that test_TN_parameter_shift_rule.py minimises lies between -1 and 1 and takes both values. With all parameters zero it is 1. Wherever it is 1, every partial derivative is zero. Gradient descent with exact derivatives that starts there never leaves, whatever the learning rate and the number of passes. The first pass of either training loop from zero returns and moves no parameter by more than the learning rate times twice the accuracy.", "quantifier": "all decompositions that are singular value decompositions, all N >= 2, all learning rates, all numbers of steps, all parameters with the value 1", "why_tests_cant": "The file starts at random parameters, from which the value drops; a run says nothing about starts from which it cannot, and nothing about arbitrarily many steps.", "anchors": ["deepquantum/tests/test_TN_parameter_shift_rule.py:partial_M", "deepquantum/tests/test_TN_parameter_shift_rule.py:forward"]}
{"id": "C111", "title": "Measured values of density matrices in rounded arithmetic", "statement": "In every floating-point arithmetic, measure of a density matrix whose entries are numbers of the arithmetic makes no error except in the sum over the diagonal. If the trace is close enough to one for the check to pass in spite of rounding, all three forms of the argument ith give the same numbers (a single index not 0), each within ((1+u)^(2^N) - 1) times the sum of the absolute diagonal entries of P(0) - P(1). If the trace is far enough from one, a ValueError is raised. In single precision, with up to 10 qubits and a diagonal that is real and not negative, a trace within 3e-5 of one is accepted and the values are within 6.2e-5; a trace that is off by more than 1.7e-4 is rejected. For state vectors the result is that of C104.", "quantifier": "all arithmetics and all routines for the trace and the absolute value meeting the assumptions, all numbers of qubits, all matrices, all lists of qubits", "why_tests_cant": "The order of the additions depends on the library and the device; a test sees one of them, and matrices near the threshold of the check are not tried.", "anchors": ["deepquantum/gates/qmath.py:measure", "deepquantum/gates/qmath.py:expval", "deepquantum/gates/qmath.py:_Zmeasure"]}
{"id": "C112", "title": "Partial traces in rounded arithmetic", "statement": "In every floating-point arithmetic, if the trace of the matrix is close enough to one for the check to pass in spite of rounding, partial_trace over any list of k different qubits in any order passes the checks of all its recursive calls and returns a matrix on the remaining qubits, each entry within ((1+u)^k - 1) times the partial trace of the absolute values of the exact partial trace; for a positive semidefinite matrix that is at most ((1+u)^k - 1) times its trace. Measuring that matrix passes the check of measure as well and gives, for each kept qubit, a value within ((1+u)^(k+2^M) - 1) times the sum of the absolute diagonal entries of P(0) - P(1) of this qubit in the whole. If the trace is far enough from one, a ValueError is raised. In single precision, with up to 10 qubits and a diagonal that is real and not negative, a trace within 3e-5 of one is accepted, with errors below 6e-7 times the partial trace of the absolute values for the entries and below 6.2e-5 for the measured values; a trace that is off by more than 1.7e-4 is rejected. Reordering the list changes nothing, to the last bit. On square matrices whose entries are numbers of the arithmetic, partial_trace_old returns the same tensor or raises the same exception as partial_trace, and ptrace over Q qubits has entries within ((1+u)^(2^Q - 1) - 1) times the partial trace of the absolute values.", "quantifier": "all arithmetics and all routines for the trace and the absolute value meeting the assumptions, all numbers of qubits, all matrices, all lists of different qubits", "why_tests_cant": "The trace is checked again in every recursive call, on a matrix that has been rounded once more; whether a matrix accepted at first can be rejected later depends on the rounding and is not seen on a few matrices.", "anchors": ["deepquantum/gates/qmath.py:partial_trace", "deepquantum/gates/qmath.py:partial_trace_old", "deepquantum/gates/qmath.py:ptrace", "deepquantum/gates/qmath.py:measure"]}
{"id": "C113", "title": "Checks for Hermitian matrices, unit vectors and unitary matrices in rounded arithmetic", "statement": "In every floating-point arithmetic, IsHermitian returns True on a square matrix if (1+u)^4 times each difference between an entry and the conjugate of its mirror entry is at most (1-u) 1e-6, and False if (2-(1+u)^4) times some difference is above (1+u) 1e-6. IsNormalized returns True on a vector of d entries with squared norm S if (1+u)(|S-1| + ((1+u)^(d+7)-1) S) is at most (1-u) 1e-6, and False if (1-u)(|S-1| - ((1+u)^(d+7)-1) S) is above (1+u) 1e-6. IsUnitary returns True on a d by d matrix if every row meets the condition of IsNormalized and, for each pair of rows, (1+u)^3 times the sum of the absolute value of their product and E times the sum of the absolute values of its terms is at most (1-u) 1e-6, where E is the error of a rounded sum of d products; it returns False if some row meets the condition for False, or some pair has (2-(1+u)^3) times the difference of these two above (1+u) 1e-6. What is raised depends on the shape only. In single precision, IsHermitian accepts differences up to 9.9e-7 and rejects any above 1.01e-6; IsNormalized, for up to 8 entries, accepts squared norms within 1e-7 of one and rejects those off by 2e-6 or more; IsUnitary, for up to 8 rows, accepts squared norms of rows within 1e-7 of one with products of rows up to 2e-7, and rejects a squared norm off by 2e-6 or a product of 2e-6 or more.", "quantifier": "all arithmetics and all routines for the absolute value meeting the assumptions, all square matrices, all vectors that are not empty", "why_tests_cant": "The threshold 1e-6 is about 17 times the unit roundoff of single precision, so whether a unit vector is accepted depends on the rounding of each of its squares; a few vectors say nothing about the rest.", "anchors": ["deepquantum/gates/qmath.py:IsHermitian", "deepquantum/gates/qmath.py:IsNormalized", "deepquantum/gates/qmath.py:IsUnitary"]}
