# Formal model of TuringQ/QuantumTensorNetwork (deepquantum) in Lean 4

## Layout

- `lean/Verif/Model/*.lean` — the model. Each definition cites the file and lines in `/repo` it models.
  - `Py.lean` Python exceptions and list operations; `Tensor.lean` the torch tensor operations used;
    `QMath.lean`, `QTensorNetwork.lean`, `QOperator.lean`, `QLayers.lean`, `QLayer.lean`, `QCircuit.lean`, `QGate.lean`,
    `Embedding.lean`, `Quanv.lean` mirror the Python files of the same names; `Objects.lean` repeats `QCircuit.lean` on objects; `InPlace.lean` repeats the matrix-product methods on list objects that are assigned into; `Measure.lean` holds the
    measurement functions of `qmath.py` and the MPS expectation.
- `lean/Verif/Spec.lean` and `Spec*.lean` — the specification vocabulary: operators on qubits (`Spec`),
  instructions and layers (`SpecInstr`, `SpecLayer`, `SpecQLayer`, `SpecRepeat`), matrix product states (`SpecTN`, `SpecBond`, `SpecAccuracy`),
  expectation values (`SpecExp`), partial trace (`SpecTrace`), gradients (`SpecGrad`), the older circuit
  class (`SpecLegacy`), convolution windows (`SpecQuanv`). They do not mention the model's helpers.
- `lean/Verif/Build*.lean` — which Python object a specified instruction or layer stands for.
- `lean/Verif/Lemmas/*.lean` — helper lemmas.
- `lean/Verif/Props/*.lean` — the property theorems with a non-vacuity `example` beside each.
- `tools/manifest.py` writes `MANIFEST.json` from `tools/claims.json`; `tools/seed.py` applies deliberate bugs
  to a scratch copy of the model and records which theorems fail (`seeded/LOG.jsonl`).
- `MANIFEST.json` maps every property of `properties.jsonl` to exact theorem names.

## Trusted base

- Lean 4.33.0's kernel and the three standard axioms `propext`, `Classical.choice`, `Quot.sound`.
  No axiom is added; no `sorry`, `native_decide`, `bv_decide`, `implemented_by`, `unsafe`.
- The reading of the Python source into the model (the code is not run here).
- **Numbers**: torch floating point (complex64/float32) is modelled by exact real and complex numbers.
  All claims but C103, C104, C105, C106, C108, C111, C112 and C113 are about the ideal arithmetic; these bound the effect of
  rounding on matrices, measured values, layers and gradients (`Model/Round*.lean`). Overflow, underflow and NaN are not modelled. Data types (which
  products raise, which type a result has) are modelled in `Model/Layout.lean` and `Model/LayoutOps.lean` only.
- **torch primitives** are modelled by their documented meaning on a `Tensor` (shape + entry function):
  view/reshape (with -1 inference and size errors), permute, unsqueeze, squeeze, broadcasting matmul, kron,
  index_select, cat, chunk, diag, trace, eye, zeros, conj, einsum (the instances used).
  Devices, autograd and in-place aliasing between tensors are not modelled (in-place mutation of the caller's
  Python lists is, in `Model/InPlace.lean`).
- **Memory layout and data types**: `Model/Layout.lean` adds strides and a data type to a tensor. `view` follows
  `computeStride` of aten/src/ATen/TensorUtils.cpp, types follow torch's promotion rules (dimensioned tensor over
  0-dimensional tensor over Python number, within one category). Strides of results that torch does not document
  are an arbitrary function `Lay`; assumed is only `Spec.LayoutOK`: one stride per dimension, and results of
  `torch.matmul` contiguous. C68 proves that for complex64 inputs this finer model agrees with the plain one, in
  which `view` is `reshape` and types do not exist; C69–C71 say where it does not.
- **SVD** (`torch.linalg.svd`/`torch.svd`) is an oracle parameter of the model. The only assumption is
  the mathematical contract (A = U diag(S) V^H, orthonormal columns, S >= 0 descending). Theorems hold for every
  oracle satisfying it; the existence of such an oracle is proved, so the hypothesis is not vacuous.
- **Truncation**: the code drops singular values <= 1e-8. Exactness theorems assume that every dropped singular
  value of a matrix actually decomposed in the run is 0. This is expressed over the log of decomposed
  matrices of the run. For the vector conversion an error bound without that hypothesis is proved too.

## What is modelled / not modelled

Modelled: `gates/qmath.py`, `gates/qtensornetwork.py`, `gates/qoperator.py`, `layers/qlayers.py`, `layers/qlayer.py`,
`gates/qcircuit.py`, `gates/qgate.py` (gate building and U), `embeddings/qembedding.py`, `embeddings/qstate.py`,
index logic of `nn/modules/quanv.py`.

Not modelled: drawing/printing, timing, CUDA moves, `nn.Parameter` registration, random initialisation,
the demos under `tests/` other than the circuits of `test_TN_train2.py` (`Model/Train.lean`),
the programs of `test_TN_parameter_shift_rule.py` (`Model/ShiftDemo.lean`)
the circuit and network of `test_TN_train.py` (`Model/Hybrid.lean`),
the circuits of `test_qnn_demo.py`, `test_qnn_demo_free.py`, `test_qcnn_demo.py` and `test_born_machine.py`
(`Model/Qnn.lean`), both circuits of `shadow_circuit_demo.py` (`Model/Shadow.lean`) both circuits of `test_CDO.py`
with the printing loop (`Model/Cdo.lean`), the classifier of `test_classification_demo.py` (`Model/Classify.lean`),
both blocks of `test_operation_dagger.py` (`Model/DaggerTest.lean`), the three blocks of `test_TN.py` that run
(`Model/TnTest.lean`), the circuit of `test_torchscript.py` (`Model/Script.lean`), the target, loss and loop of `test_born_machine.py`
(`Model/BornScript.lean`), and `test_gates/test_qmath.py` (`Model/QmathTest.lean`).  The builder methods of `Circuit` are
constructors of `Method` (`Model/Methods.lean`), so that a script's calls are a list. Qiskit is specified, not modelled: its gate matrices and index order are in `Props/Cdo.lean`.

## Per-property plan

| id | model and proof |
|----|-----------------|
| C01 | `gate_expand_1toN` = fold of kron over a list with one gate; entry of `multi_kron` is the product of entries (induction over the list); compare with `Spec.onQubit`. Error branch separately. |
| C02 | `two_qubit_control_gate` = sum of two multi_krons; compare entries with `Spec.controlled`. |
| C03 | `multi_control_gate` likewise with a control list; product over wires of projector entries. |
| C04 | `SWAP.U_expand` sum of four multi_krons; compare with the permutation matrix. a==b is not rejected: negation with witness. |
| C05 | entries, symmetric; the bounds check tests wires[0] twice, the error is an IndexError instead of ValueError: statement says "raises". |
| C06 | each spec operator is unitary; via C01–C05, C09–C12. |
| C07 | entrywise conjugation identities, parameter reversal for layers. `ring_of_cnot2`/`BasicEntangleLayer` return None: partial. |
| C08 | state machine on gate objects; invariant "matrix fields agree with params"; induction over updates. |
| C09 | entry of the layer = product over qubits; duplicates excluded (treated in C58). |
| C10, C11 | generic path by fold; fused path by induction on the grown size: kron with I2 = lift of operators on n qubits to n+1. |
| C12 | fold over repeat. |
| C13 | fold induction over the gate list, both directions. |
| C14, C15 | from C06, C07, C13. |
| C16, C17 | recursion of `StateVec2MPS`; invariants relating remaining matrix with amplitudes; truncation error by orthonormality. |
| C18 | local update of the site product. |
| C19 | SWAP chain conjugation; local two-site replacement lemma with the SVD contract. |
| C20 | the same with three-site merge. |
| C21 | composition of C19. |
| C22 | induction over gates with log monad. |
| C23–C25 | permute/matmul/permute index lemma with inverse permutations. |
| C26, C27 | row-major index lemmas. |
| C28, C29 | from C22, C13. rxx/ryy/rzz raise under TN=True: partial with negation. |
| C30 | contraction invariant; bond 1 / N=1 raise: partial + negation. |
| C31 | value theorem; second call differs: negation with witness. |
| C32 | the trace normalisation takes the real part; exact up to c/Re(c): partial + negation. |
| C33–C35 | chunk/index recursion by induction over the sorted list. |
| C36, C37 | entry computations; ith=0 violates: negation. |
| C38 | loops as all-quantified tests. |
| C39 | state machine over histories; `clear` breaks the invariant: partial + negation. |
| C40 | expectation is a trigonometric polynomial of degree 1 in each parameter; shift identity equals HasDerivAt. cu3 fails: partial + negation. |
| C41 | restore theorem when cir_params is in step; negation after params_update. |
| C42 | for Pauli-rotation gates; u1/cphase/cu3 fail: partial + negation. |
| C43–C46 | direct. PrepareRho lacks a conjugate: partial + negation. |
| C47–C49 | state machine of the legacy class; negations for desynchronisation and b=0. |
| C50 | index arithmetic; windows that do not fit raise: partial + negation. |
| C51 | SVD contract. |
| C52 | direct trigonometric computation. |
| C53, C54 | negations with witnesses, partial positive theorems. |
| C55 | trace over the diagonal entries there are; row vectors slip through: partial + negation. |
| C56 | bond dimensions as a function of the site; every update keeps a predicate on them that is closed under the three ways a bond is replaced. |
| C57 | the functions take what `cir` provides as an argument; with the imported class they raise (negation), with gate functions that return their matrices they compute the operators (partial): fold over pairs, kron of operators of different sizes for the two-qubit layers. |
| C58 | the assignment loop keeps the last matrix per wire (induction from the right); the tensor-network loops multiply once per listed wire, giving powers: exact theorems, negation with witness for every register. |
| C59 | sorting a repeated control gives the same loops as its neighbour would: equality of runs, then the theorem for distinct wires; witness on a basis state. |
| C60 | the gate methods are shown once for an abstract calculus (site, two-site and three-site step, composition, number of decompositions); instance with truncation: all sites are contractions, so an error made in the middle is not enlarged; a second instance bounds the sizes of the decomposed matrices. |
| C61, C62 | composition of C13, C16, C22, C25–C27, C31, C33, C36, C55, C60 through the states the intermediate values hold. |
| C63 | object-level model with a heap; simulation relation (same circuit, same log, no object twice) preserved by every call; induction over the program. |
| C64 | the shift loop on objects evaluates with the object changed at all its positions: exact formula, C40 for objects that occur once, witness rx twice; the saved-state loop reads only one position: equal to the loop on values, then C42. |
| C65 | unfold `add` and `TN_check`; the product for `U` by induction over objects; an encoding stays in place through the gradient loop, which raises at the latest when it reaches it. |
| C66 | the evaluation bound of C60 at each shifted circuit gives the shift rule with an error per evaluation; for the saved states, norm and distance of every saved pair by induction over the forward and the backward pass, then Cauchy–Schwarz for the overlap. |
| C67 | each in-place function is related to the function on values by one relation (same result, same record, only the argument list changed), closed under sequencing and loops; states then come from C19–C22 and C44; for the gradient routine, induction over both passes that saved references are fresh and never written again. |
| C68 | a second model with strides and data types; one simulation relation (same value, type, one stride per dimension, contiguous where needed) closed under sequencing and loops, proved for every function; `computeStride` is shown to succeed on contiguous memory and on the chunks that permute and svd leave. |
| C69 | `computeStride [n,n] [a,b] [1,n*n]` succeeds iff a = n*b; otherwise the first `view` raises. Negation: every other layout, the transpose as witness. |
| C70 | tensor-network path by the simulation of C68 from a real start (`+ 0j`); postconditions on data types along all functions (what an operation returns has the type of what it was given) give the rejections. |
| C71 | types of all gate matrices computed from the promotion rules; the postconditions of C70 show that an operation with a complex128 matrix never returns on complex64 data. |
| C72 | the methods modelled call by call; `add` of layers gives the circuit of a list of items, so C13 and C25 apply; the start state decomposes without loss (`zero_state_lossless`); the batched method is a sum over the batch of bilinear forms. Negation: zero weights, one sample `(pi,0,…)`, whose encoded state is `-i` times a basis state. |
| C73 | `forward` is `cir_expectation` of the circuit of a list of items, so C60 and C28 bound it; shifting a parameter of the list is shifting an entry of the tensor (induction over the stack of layers); C66 for the second loop; induction over the number of steps. |
| C74 | `forward` and `backward` are the two passes of C66, so their entries are close to the overlaps, which are the partial derivatives for rotations; the controlled phase and `Z` are diagonal, which gives the zero derivative and the closed form of the overlap. |
| C75 | The batch is a matrix whose rows are states: filled row by row, transposed, multiplied by the circuit's matrix (C13), transposed back; the broadcast product reads off `⟨Z_i⟩` of each row, and `torch.cat` puts the columns side by side. |
| C76 | The column of amplitudes is the circuit's matrix (C13) applied to `|0…0⟩`; unitarity gives the sum. |
| C77 | Kronecker products with identities are the operator of the window (`Lemmas/Window.lean`); embedding commutes with products, adjoints and layers, so `U† X…X U` of the window is the circuit on the window's qubits. Both loops fill the same table; the batched product is read entry by entry. |
| C78 | Each call has the operator of its Qiskit counterpart up to a scalar, so products agree up to the product of the scalars; the printing loop reverses the bits of the index (digits of `bin`, padded). The two lists of calls are compared by computation. |
| C79 | The gates are Y rotations and NOTs with controls, and at each point every qubit that is a control can be fixed to a basis value, so the state is a sum of product states. `Lemmas/Sim.lean` has a sound symbolic evaluation of such gates on product states; `Lemmas/CdoSim.lean` applies it block by block and sums over the control values from the end. |
| C80 | `SpecInfo.readInfo` turns label, controls, targets and parameters into an operator. Case by case the dictionary of a built item is computed and read back; the ring layers need that the listed controls and targets are the CNOTs of the ring. |
| C81 | As C75 with a second encoding. The outputs of the network follow from `|<Z>| <= 1` and monotonicity of the logistic function. The encoded state is a product of columns of 2x2 unitaries; the columns of 1 and -1 differ by a phase, which drops out of every expectation value. |
| C82 | Each call of a builder method constructs what `buildItem` constructs, so the circuits are known lists of items. Diagonals: U†U = 1. Overlaps: `Near` (distance to the exact state bounded by the number of truncations) is kept by each operation and its dagger; the overlap differs from one by no more than the distance. |
| C83 | As C82 for the lists of calls. Site by site: C61 with the number of truncations of the list. By contraction: only the decomposition of the start state truncates, and unitaries keep distances. A stack of equal tensors is a batch; `reshape(n,1,-1)` keeps its rows. |
| C84 | The label of each item follows from the `info()` computed for C80; the circuit is a list of calls as in C82. The failing call is the first one after the circuit has been evaluated, so the TypeError follows from `range` of a tensor. |
| C85 | Induction over the loop: the matrix left after a truncation is `U^H A`, so its cuts have at most the rank of the cuts of the matrix before, and the first bond is at most the rank of the decomposed matrix. The error `A - U U^H A` is orthogonal to the range of `U`, so squared errors add. The lower bound factorises the cut matrix through the bond. |
| C86 | A partial-correctness triple for the log monad; every write of a TN_operation is a `pySet` at an index inside the span, so the rest of the list is unchanged. For a bond that is not crossed one of its two sites is unchanged, and the result is a valid matrix product state (C56), so the bond has the old dimension. |
| C87 | The operator of every item lies in the algebra generated by the single-qubit operators on its qubits; such algebras on disjoint qubits commute. A partial trace is the family of traces against matrix units on the kept qubits, which commute with the circuit. |
| C88 | The function of the target is positive on (0, 1], so the sum is positive. The loss term by term is `p log (p/q)`, in the extended reals where `q = 0`; Gibbs' inequality from `log x ≤ x - 1` with its equality case. The loop is an induction with the number of weights as invariant; the scheduler multiplies once per milestone. |
| C89 | Induction over the list with the shape of one Kronecker product. The failing test follows from Python's rules for binding keywords. |
| C90 | A gate that is a sum of r products of one-qubit matrices makes the matrix that is decomposed factor through r times the old bond; the kept singular values are at most its rank. Controlled gates are sums of two products, every two-qubit gate of four. Factors multiply along a computation; in the loops over neighbours each bond is enlarged in one pass. |
| C91 | Amplitudes of the encoded state are products of cos(x/2) and sin(x/2), one factor per qubit with this input: polynomials in exp(ix/2) of that degree. Expectation values are sums of products of two amplitudes. With alternating signs, the values of a trigonometric polynomial of degree below n at 2n equidistant points add up to zero (geometric sum), which gives the lower bound for the error. Weights: the shift rule's form of each gate; the list of weights is cut into the layers' blocks. |
| C92 | The circuit's output is C75; linear layers and leaky ReLU are unfolded entry by entry. `squeeze` is followed for batches of one and of several samples. The slices of the shuffled index list are consecutive blocks whose concatenation is the list. Epoch and training: induction over the batches and the shuffles with an arbitrary optimiser. The claim about the reported number is false: two samples in two batches. |
| C93 | The convolution is C50; flattening is the row-major index, linear layers and ReLU entry by entry. Sizes: windows of 2 fit if and only if the side is even. Cross entropy: log of a quotient of exponentials. argmax: invariant of the fold. Accuracy: the printed value is hits / (ceil(n/B) B); comparison with hits / n. Mean of means: equal batch lengths; counterexample with a network of constant scores. |
| C94 | The windows' values are C77; the linear layer entry by entry. Scaling: the normalised image changes by a sign only, and expectation values are quadratic. squeeze and view: row-major indices for one and for several images. softmax is monotone, so its argmax is that of the scores; batches of one sample. Training as in C92. |
| C95 | C13 reduces equality of the tensors to equality of operators. Laws on one qubit: 2x2 matrices. Laws with a controlled gate: a choice between two 2x2 matrices is closed under products. Laws of diagonal gates, controlled NOTs and swaps: permutations of the basis with phases, compared on every basis state. A phase gate with n controls reduces to n-1 controls by two controlled phases and two multi-controlled NOTs; induction. Period: the angle is determined by its cosine and sine. |
| C96 | A unitary R with R + R^H = 2 cos x moves vectors by at most abs(x); this covers all rotations, and controls only restrict the vectors moved. Phase gates are diagonal; a global phase halves their speed, which expectation values do not see. Distances up to a phase add under products; layers change one qubit at a time. Sharpness: the derivatives of sine and cosine where they are steepest. |
| C97 | As C85, with pairs of bit strings as columns: each truncation error is orthogonal to everything that follows, so the squares add; the last site also comes from a decomposition, hence norm 1. Ranks: the remainders are products of cuts of the matrix. Pure states: the cut is a Kronecker product, whose rank is computed after diagonalising both factors by elementary operations. Round trip: the trace changes by at most sqrt(2^N) times the error. |
| C98 | A ring of CNOTs is a permutation of basis states that is linear in the bits, so it maps products of Pauli matrices to such products. Z of qubit 0 is pulled back through the layers with angles chosen so that it becomes a product of X on two qubits, whose value in the encoded state is a product of two sines. An even number of qubits pairs the phases of the Z rotations. Limit: two encoded states have overlap cos^N of half the distance, and expectation values differ by at most 2 sqrt(1 - overlap^2). Loop as in C92. |
| C99 | Products of Pauli matrices are indexed by two bit vectors; a layer of quarter turns permutes the three Pauli matrices on each qubit, a ring of CNOTs acts linearly on the two bit vectors (Lemmas/Strings). Z of qubit 0 is pulled back through the rings; at each layer the quarter turns are chosen qubit by qubit so that the product becomes Z on all qubits (C99_product) or on qubit 0 alone (C99_wave). The sign is absorbed into the shifts. The linear layers split the output into positive and negative part and join them again. |
| C100 | The mean over the weights is an iterated integral over whole periods, so it does not change when the weights are shifted (Lemmas/Random); no measurability is needed for this. Rotations about the same axis add up, which moves the sample into the first layer; half a turn about Y in the last layer maps Z to -Z. Every claim about means follows from one such shift. The bound on the mean square adds the values at two points a quarter turn apart. |
| C101 | Averaging over the angle of a rotation replaces the square of an expectation value by the mean of two such squares, with the operator before and after a quarter turn (mean_anti in Lemmas/Moments). So X on a qubit passes the three rotations of a layer with weight 3/8 at least. The rings map X on two qubits to X on one (ring_pull), so X of one output can be followed back through all layers while staying on a few qubits; the number of factors X met on the way is the exponent. The sample is chosen (C100_distribution) such that X does not change the encoded state. |
| C102 | Model/SelfTest transcribes the blocks with the random draws as arguments. Each claim follows from the theorems about the functions called: C55, C40 (matrix path) with C13 and C84 for the labels, C80, near_start and near_step with C98 for the ring, C30 with ip_diff and C85 for the inner product, C36, C57. |
| C103 | Model/Round transcribes the matrix path with rounding after every real operation. All entries of expanded gates are sums with one term that is not zero, or products with 0, ±1, ±i, so expanding a 2×2 matrix makes no error (Lemmas/RoundExact). Each row of an expanded gate has at most two entries, so a product with it makes an error of a few units per column, whatever the number of qubits; the factors of this bound are the Frobenius norm of the 2×2 matrix and the error of its entries (Lemmas/RoundGate). Errors of successive gates multiply as 1 + cost because the exact gates are unitary. Products with entries 0, ±1, ±i only make no error. |
| C104 | Model/RoundMeasure transcribes `_Zmeasure`, `expval` and `measure` for state vectors with rounding. The products with the diagonal of Z are exact, so a value is one rounded sum of 2^N products (Lemmas/RoundMeasure); the error of the probabilities is bounded by Cauchy-Schwarz (C103_probs). For arbitrary states the product with the matrix is bounded by its Frobenius norm. For exact gates every column has one entry 0, ±1, ±i, so no sum has two terms. |
| C105 | Model/RoundLayers transcribes the `U_expand` of every layer with rounding. A Kronecker product of k rounded matrices has the relative error (1+μ)^k - 1 in every entry (products with the entries of the identity are exact); the norm of a tensor product is at most the product of the norms of its factors (Lemmas/RoundLayer). A product with a matrix that has at most r entries in a row is a sum of r terms (Lemmas/RoundStep). Rings: exact matrices and model matrices are compared step by step (Lemmas/RoundRing). BasicEntangleLayer: each repetition is a layer times an exact permutation. |
| C106 | Model/RoundGrad transcribes `params_update`, `cir_expectation` (matrix path) and `cal_params_grad` with rounding; what the tensor network path returns is an arbitrary function `tn`. The quadratic form is two rounded products, bounded by the sum of the absolute values of its terms (Lemmas/RoundExpect). The loop: an operation represents an item if it was constructed or updated with these parameters (`Good`, Lemmas/RoundGrad); the items already processed hold `Item.after` (Lemmas/RoundGradLoop). The energies at the drifted parameters are compared with those at the exactly shifted ones by C96 (Lemmas/RoundShift), then C40. Lost parameters: with p binary digits fl(π) = 2 fl(π/2) and fl(x + fl(π/2)) = fl(π/2) for small x. |
| C107 | No new model. The parameters are moved one after the other (Lemmas/Descent): by the shift rule a derivative is half a difference of two expectation values, so by C96 it is Lipschitz in every parameter with the same constant; a function of one variable with Lipschitz derivative lies under its tangent parabola; adding up gives the linear prediction plus C/2 (Σ\|d\|)². One step: complete the square. The loops: the drops add up and the expectation value stays in [-1, 1]. |
| C108 | Model/RoundDescent: the step with every operation rounded, and the loop for an arbitrary circuit. The rounded step is off by the error of the derivative (C106), three roundings of the product and one of the difference, which is relative to the parameter (Lemmas/RoundDescent); then as C107. Parameters after a step are rounded numbers, so the circuit built from them stores them exactly. |
| C109 | No new model. The constant of C107 counts every parameter; here qubits' rotations are taken together (Lemmas/Blocks). Three rotations about Y, Z, Y are a unit quaternion, and its distance to another one is at most √(½ Σ d²) (near_yzy). The effect of a change of later gates hardly depends on a change of an earlier one (braket_mixed), so by induction over the gates the second-order term is (½ + number of blocks) Σ d². The last rotations of qubits that are not measured cancel (core_energy), which leaves 2N + 1 blocks; 0.1 is below 1/9.5. |
| C110 | No new model. With zero parameters the layers are identities and the rings keep the all-zero state; the first rotation of the last layer gives cos θ (flip_energy). The value is bounded by 1, so 1 is a maximum in every direction and the derivatives vanish. |
| C111 | Model/RoundRho: expval with rho=True and both branches of measure. `torch.trace` and `torch.abs` are arbitrary routines with the usual error bounds (TraceRoutines); seqTrace shows that such routines exist. The product with Z is exact because each entry is a single product with 1 or -1, so one sum remains; the check compares a number within (1+u)^4 - 1 of the distance of the computed trace from one. |
| C112 | Model/RoundTrace: partial_trace with the sum of the two blocks rounded and the rounded check of C111 in every call. Induction over the sorted list: one call turns the exact sum into one that is off by u times the sum of the absolute values, and the condition on the trace with exponent m + 1 becomes the one with exponent m; since 2^N + 1 <= 2^(N+1), the condition at the start covers all later checks and the one of measure. The matrix products of partial_trace_old and ptrace only select entries (dot_exact), so the former agrees with partial_trace and the latter is a sum of 2^Q matrices in order. |
| C113 | Model/RoundChecks: IsHermitian with a rounded difference and absolute value, IsNormalized with the squares rounded and added one after the other, IsUnitary with these sums for the rows and rounded sums of products for the pairs; 1e-6 is rounded as well. Induction over the entries: the sum of d squares is off by at most ((1+u)^(d+7) - 1) times the exact sum. The terms of the product of two rows are bounded by the mean of the two squared norms. |
