# Formal model of PyQCodes in Lean 4: design

## Layout

* `lean/Verif/Np.lean`: exceptions as values (`PyErr`), two-dimensional numpy arrays (`Arr`: shape plus entry
  function on natural indices), `dot`, `kron`, transposition, slices.
* `lean/Verif/Spec/*.lean`: small specifications, written with Mathlib notions only.
* `lean/Verif/Model/*.lean`: the code, function by function, each definition citing `/repo` file and lines.
* `lean/Verif/Lemmas/*.lean`: helper lemmas.
* `lean/Verif/Props/*.lean`: the property theorems and, beside each, a concrete non-vacuity `example`.  Some properties
  need one more notion that only they use; it is then defined in the namespace `PyQ.Spec` at the head of the file.
* `properties.jsonl`: the properties in English.  `MANIFEST.json`: which theorems settle which property.
* `seeded/LOG.jsonl`: the wrong programs tried against the theorems.

Naming: `Cnn_...` belongs to property Cnn; `_partial` is a theorem that settles a part of the property (the comment says
what is missing); `_refuted` is a theorem that says the property, or a part of it, is false of the code, with a
concrete witness or for a whole class of inputs.

Conventions: Python exceptions are `Except PyErr`; loops are folds over `List.range`; methods that mutate their object
return the result and the new object; random draws, eigen-solvers, matrix square roots, Cholesky factors, scipy
optimisers and the semidefinite solver are universally quantified parameters constrained only by a stated contract.
ProjectQ engines are modelled by the list of gates sent to them; the semantics of a gate list is the usual action on
amplitude functions `(Fin N -> ZMod 2) -> C`.

## Plan per property

| id | modelled | how proved |
|----|----------|-----------|
| C01 | both converters on lists of characters / integer rows | induction on the string |
| C02 | the same, error branches | case analysis on the first offending position |
| C03 | `inner_prod`, `binary_rep_to_pauli_mat` (left fold of kron) | entries of the matrix in closed form, sign bookkeeping |
| C04 | same | closed form of entries |
| C05 | `__init__` guards and the double loop | loop lemma |
| C06 | both elimination functions, ranks as parameters | invariant: row span mod 2 and qubit permutation, fold induction |
| C07 | same, rank = `Matrix.rank` over Q | loop invariants for identity columns; commutation gives the zero X block |
| C08 | `_matrix_blocks_standard_form`, `logical_operators` | block identities mod 2 |
| C09 | whole constructor | partial (no swap) theorem plus refutation by witness |
| C10 | whole constructor | partial theorem (equal ranks) plus refutation by witness |
| C11 | `encoding_circuit` as gate list | invariant over the stages, gate semantics |
| C12 | same | labels in the closed form are disjoint / norm by induction |
| C13 | same + original generators | commutation and product law; refutation of consistency by witness |
| C14 | `logical_circuit` | product law |
| C15 | `decoding_circuit` | product law + linearity |
| C16 | `single_syndrome_measurement` gate list + Born rule | algebra |
| C17 | sequences of measurements | induction on the history |
| C18 | guards of all circuit builders | case analysis, gate list membership |
| C19 | `encode_krauss_operators` with eigen-solver contract | invariant over stabilizers; trace formula for dimension |
| C20 | `kraus_operators_correcting_errors` | list induction |
| C21, C22 | `concatenate_codes` | generator by generator; refutations by witness |
| C23..C32 | `DenseKraus`, `SparseKraus`, `AnalyticQChan` as objects with dynamic shapes | matrix algebra through `Arr.mat` |
| C33..C35 | `ChoiQutip` | matrix algebra, spectral theorem through the eigen-solver contract |
| C36..C38 | the three parameterisations | matrix algebra, counting |
| C39..C41, C51 | `optimize_procedure` and helpers with the optimiser as parameter; `initial_guesses_lipschitz` with random stream as parameter | fold invariants, case analysis |
| C42, C43, C53 | two-design circuits and the estimation loop with random draws and measurement outcomes as parameters | induction on repetitions and trials |
| C44, C56 | `effective_channel_with_stabilizers` up to and including the optimiser call | from C19, C20, C26; generators act trivially on the code |
| C45, C49 | `entropy`, `coherent_information` | convexity of x log x; spectra of A A^H and A^H A |
| C46 | the data of the semidefinite programme, its constraints and objective as a proposition about matrices | Choi matrices, compactness of the feasible set; refutation by witness where the set-up is wrong |
| C47, C48 | return value of `decoding_circuit`, `apply_stabilizer_circuit` | case analysis, product law |
| C50 | `fidelity_two_states` with matrix square root contract | uniqueness of the positive root, Cauchy-Schwarz for traces |
| C52 | `optimize_encoder_decoder_average_fidelity` | the objective raises at every point |
| C54, C55 | the amplitudes of the two-design circuit, uniform draws as finite averages | induction on rounds; characters of Z_3 and Z_2 |
| C57, C58 | `single_syndrome_measurement` on arbitrary states | closed form of the circuit on any state (`Lemmas/Measure.lean`); C58 by induction on the history |
| C59 | rows, logical operators | dimension count in the symplectic space (`Lemmas/Normalizer.lean`), C08 |
| C60 | `encoding_circuit` | dimension of the fixed space by the trace of the projector (`Lemmas/FixedSpace.lean`), C12, C13 |
| C61, C62 | encode, error, measure or correct, decode | C13, C15, C17, C48, C59, C60 |
| C63 | the two encoders | C19, C60; counterexamples from C13 |
| C64 | `normalizer`, `undetectable_errors`, with the two methods they call and the class lacks | lookup of a missing attribute; with the methods supplied, filter of the product list; count by C59 |
| C65 | `generator_set_pauli_elements` | fold of the diagonal updates; basis of unit rows |
| C66 | Kraus channel, exchange matrix, entropy | equal Choi matrices give exchange matrices with equal non-zero spectrum (charpoly of AB and BA) |
| C67 | as C66 | purification, Schur concavity of the entropy and subadditivity proved in `Lemmas/Spectrum` |
| C68 | `decoding_circuit` with its measurements and the caller's list (`Model/Deallocate`) | C15; reading qubits of a product state, induction over the list of qubits |
| C69 | as C66 | exchange matrix and output of a product are products; spectrum of a tensor product; entropy of a product distribution |
| C70 | `stabInit` with `logical_ops`, the encoder and `logical_circuit` on such a code | closed form of the encoder for arbitrary X operators; sign of the Z-type rows; group elements act by a sign |
| C71 | which arrays of a Kraus object are the caller's own, and writes into them (`Model/Alias`) | induction over the events; products of new and old operators from the update step |
| C72 | as C19, for dependent generators too; `eigh` reading the lower triangle | an independent part of the generators with the same span fixes the same states up to signs; dimension by C19's trace |
| C73 | the circuits of encoding, measurement, correction and decoding composed | C61 and C62; the table is chosen among the errors with the measured results; weights are subadditive |
| C74 | the constructor for strings of any length (Model/StabInput): Python slices, index errors and `hstack` shapes explicit | equal to the constructor of the other properties when the first string has length `n`; otherwise the widths of the slices in the logical operators do not fit; refuted for `k = 0`, for supplied logical operators and for strings longer than the first |
| C75 | the model of C42/C43 on a finite probability space of runs (Spec/Runs): uniform draws, Kraus operators with the probabilities of quantum mechanics, Born rule for "all zeros"; the average fidelity is an integral over a distribution of pure states that no unitary changes (Spec/Average), which is shown to exist | the averaged table of products of four amplitudes obeys a linear recursion per round (C55 and sums of characters); its closed form after two or more rounds differs from the table of uniform states by a term of size `2^(-N(T+1))` |
| C76 | as C75 with pairwise independent trials | Chebyshev's inequality; runs of this kind are constructed for every channel |
| C77 | the models of C35 and C75 together | the closed form of the average over uniform states is the trace formula |
| C78 | `QChan.add`, `QChan.coherentInformation` | the relative entropy is a limit of integrals of suprema that a channel can only lower (inequality of Kadison and Schwarz); coherent information is a relative entropy of output and reference |
| C79 | as C78, with `channel` of both objects | C78 with the identity as composition, C67 |
| C80 | `channel`, `entropy` | the relative entropy to the identity does not grow |
| C81 | `Chan.init` (Model/Channel.lean): the kinds of operator, `numb_qubits` as list or tuple | case analysis of the constructor, trace condition as a matrix inequality |
| C82 | the attributes of `Chan` | invariants of C27 |
| C83 | `Chan.add`, `Chan.mul` for any two kinds | spectral decomposition of the Choi matrix (C33), C25, C26 |
| C84 | `decoderKraus` and `optimizeDecoderStabilizers` with `sparse`, `optimizeEntangFidSparse` | the C46 lemma on operators for both kinds; case analysis of the sparse branch |
| C85 | `QChan.fidelityTwoStates`, `ChoiQ.fidelityTwoStates` on product states and on two families of one map | C50, products of square roots, uniqueness of the positive root |
| C86 | `optimizeCoherent`, `optimizeFidelity` of Kraus and Choi channels | congruence of the optimisation procedure in its objective; C66, C85 for equal objectives |
| C87 | `channel`, `entropyExchange`, its adjoint, batches, with numpy's broadcasting of axes of size one | case analysis on the shapes; counterexamples for broadcasting and for the sparse column count |
| C88 | `Model/Sent`: every circuit builder as a list of steps that send gates or raise; agreement with `Model/Circuit` | induction on the steps; the state after the gates sent, at each point where a call can raise |
| C89 | `Model/Circuit.encodingCircuit`, gate semantics of `Spec/Circuit` | the part of the circuit after the X gates does not depend on the bits (`encoding_ok`); linearity of `run` |
| C90 | `Model/Circuit.encodingCircuit`, `Model/CodeKraus.concatenateCodes`; `Spec/Blocks`: the state with every qubit replaced by a block | joined Paulis act block by block; substituted Paulis commute with the block encoding; equality of the two spaces by dimension (`fixed_finrank`) |
| C91 | `Model/ParamInst`: which arguments a method looked up on an object receives | case analysis of the call; false for `OverParam()` with the sampler and for `StandardBasis()` |
| C92 | `Model/Param`, `Model/Optimize`; `Spec.Within`; the extra contract `Scipy.FindsMinimum` (not assumed anywhere else) | every positive semidefinite matrix of rank `r` is `A A†`, and `A` can be made lower trapezoidal with a non-negative diagonal by a unitary; entries of a factor of a state have modulus at most one |
| C93 | `Model/Optimize.initialGuesses` | from `C40_sampler`: a discarded draw is bounded by the Lipschitz bound. The fidelity of a pure state is the norm of the vector `tr(K ρ)` over the Kraus operators, hence 1-Lipschitz in the sum of the entry differences; the coherent information is not (entropy has infinite slope at pure states) |
| C94 | as C23, C24, with `Spec.NearlyTP` instead of exact trace preservation | the trace after `n` uses is `tr(E^{⊗n} ρ)` with `E = ∑ K†K`; row sums of `E^{⊗n} - 1` are at most `(1 + D ε)^n - 1`; a Hermitian matrix with row sums at most `c` has expectation values at most `c` |
| C95 | as C45, C78 | upper bound: the channel that also tells which of the two was applied has the mean coherent information, and forgetting the flag is a channel (data processing, C78); lower bound and entropies: Schur's inequality with concavity of `-x log x`, and pinching of a Gram matrix (C80) |
| C96 | as C35, C50 | Cauchy-Schwarz in the eigenbasis of the square root of `√ρ N(ρ) √ρ`; for pure states both values are `∑ abs(⟨ψ, K_i ψ⟩)²` |
| C97 | as C35, C50 | average of the pure-state value over the states with amplitudes `√p_k i^(g k)` in the eigenbasis of the state, all `g` with values in Z/4; the off-diagonal terms are bounded through trace preservation (argument of Barnum, Knill and Nielsen) |
| C98 | as C57, C62, C73 | each reading keeps the terms of the superposition that give the result read (induction over the rows); the terms that remain are multiples of one state after the correction; operators on `t` qubits are combinations of Pauli operators on them (Fourier expansion over bit strings) |
| C99 | as C21, C73, C98; distance of a list of generators in `Spec/Distance.lean` | an operator that commutes with the concatenated generators is, block by block, an operator of the inner group times logical operators (dimension count); the logical operators form an operator that commutes with the outer generators, so it is in the outer group or differs from the identity on `d1` blocks, each of weight at least `d2`; relabelling of qubits keeps weights, so the normal form has the same distance |
| C100 | as C73, C98 | condition ⇒ table (C73 and C98 for the Pauli operators on the set), table ⇒ detection (compare with the noise operator 1, corrections are injective), detection ⇒ condition (an operator of which every encoded state is an eigenstate has one eigenvalue, C61) |
| C101 | as C73, C100; distance in `Spec/Distance.lean` | for a correctable set T, rank-nullity for the restriction to T and for the pairing with it gives 2\|T\| + dim(group elements off T) ≤ dim(group elements on T) + dim(group); two disjoint sets give \|A\| + \|B\| ≤ n - k |
| C102 | as C19, C44, C45; class, syndrome and bits left open in `Spec/CodeInfo.lean` | errors of one class act on the code as multiples of one operator and different classes have trace zero, so the exchange matrix is G G† with G†G the probabilities of the classes; errors of one syndrome move the code to one subspace and different syndromes to orthogonal ones, so the output is B B† with B†B the probabilities of the syndromes over 2^k; then compare eigenvalues |
| C103 | as C45, C78; degradability stated with calls of `channel` and `entropy_exchange` | strong subadditivity for the channel `r`: the difference of the Holevo quantities of output and environment does not increase under `r`, and one use determines `n` uses on products and so on all matrices |
| C104 | as C103; marginals by digits in `Spec/Marginal.lean` | relative entropy of output and product of its marginals does not increase under `n` uses of `r`; the marginals of the output are the outputs of the marginals |
| C105 | as C103 | data processing for the complementary channel |
| C106 | as C45, C92; the channels in `Spec/StdChannels.lean` | explicit degrading and antidegrading maps, C103-C105 at the level of matrices, symmetry (twirling) to reach the optimal state; the search by C92 with a tolerance |
| C107 | as C45; the channel in `Spec/StdChannels.lean`, the formula as `Spec.dephrasureInfo` (`dephrasureInfo_test` shows it is the test's expression) | the output and the exchange matrix are `G G*` for vectors labelled by which qubits were erased; `G* G` is block diagonal with blocks of size two whose weights cancel between the two entropies; groups by C30 |
| C108 | as C50, C92; channels in `Spec/StdChannels.lean` | the probability of finding a pure state unchanged is the sum of the squared overlaps; one operator is diagonal with entries of at least the square root of `1 - p`, the others vanish on the worst state; products multiply |
| C109 | as C81, C26, C87, C51, C14-C16, C61; partial: most of the examples fail | bit flip: `NearlyTP` of the operators shown is `2 p (1 - p) < 1e-5`; the others from C87, C50, C39 and C61: a row of the code is in the group, so it cannot undo an error that is not |
| C110 | The model of coherent_information and entropy already there; the norm of the difference is written out as a sum over the entries. | Split the difference of two densities into T times the difference of two other densities, use concavity of the entropy and the bound on the entropy of a mixture, for the output and the exchange matrix; the refutation uses two diagonal states on either side of the cut-off. |
| C111 | The model of the circuit (C42, C54) already there; its unitary acts on two copies; states and effects are positive semidefinite matrices; the uniform distribution is a probability measure on the unitary group invariant from both sides. | The random phases of one round keep the blocks of pairs; iterate the action of a round on the two sums that describe a block; the Haar average is fixed by every round, which determines it; the difference is a positive part minus a positive part of trace 2^(-N l). The sharp case is an antisymmetric state of pairs with a fixed sum. Existence of the uniform distribution from Mathlib's Haar measure of a compact group |
| C112 | as C45, C79; recovery stated with calls of `channel`, the knowledge of the environment with calls of `entropy_exchange` | Kraus operators of the identity are multiples of it, so the products K_i* K_j of an undone channel are; conversely diagonalise their coefficients and decode each eigenvector, the rest of the space going anywhere; polarisation turns a constant expectation into a multiple of the identity; tensor powers factor |
| C113 | as C35, C46, C50 | equality in the inequality of arithmetic and geometric means behind the fidelity bound, through a polar decomposition; tr((K - w) rho (K - w)*) sums to zero, so each operator is a multiple of the identity on the support; operators of a map with a single operator are multiples of it |
| C114 | as C105; transposition of the input is stated with two objects and the channel method, Pauli and depolarizing noise in Spec/PauliNoise.lean | the joint state of output and reference is below the output tensored with the identity (reduction criterion, from the partial transpose); by data processing of the relative entropy a matrix below another has no positive relative entropy to it, so the output entropy is at most the exchange entropy; depolarizing noise with 1/4 is antidegradable (optimal cloning), more noise by data processing |
| C115 | the codes, circuits and measurement histories of C62 and C73; Pauli operators as vectors over the field with two elements | the errors undone are the union of one coset of the group per list of results whose entry is consistent; results are injective on errors told apart; the errors on at most t qubits are counted by their supports |
| C116 | as C115, with a function from Pauli operators to probabilities | the probability splits into a sum over results of a term that depends on one entry; replace one entry to compare; XX with unequal probabilities as the counterexample |
| C117 | the encoder of C19, channel objects as in C112, tables as in C73 | the criterion of C112 for the products of Kraus operators, moved to the code space by the encoder being an isometry onto it; Pauli operators are zero, a sign or traceless and unitary between code states; the relabelling preserves syndromes and classes |
| C118 | `ChoiObj.channel` with qutip's partial trace over the flat list of particles | true for N = M (C33); for M > N the kept indices leave the list; for N ≥ 2M the trace over the outputs makes the channel drop out, which leaves the transposed state of the inputs M..2M-1; for M < N < 2M the result is a state of N-M inputs and 2M-N outputs; a partial trace lemma for any kept segment of a list of particles covers both |
| C119 | `QChan.coherentInformation`, `ChoiObj.avgFidelity`, `optimizeEntangFid` | decoder from the polar decomposition of the operators times the root of the state; Cauchy-Schwarz against the root of the exchange matrix and Jensen's inequality for the relative entropy of reference and environment to the product of its parts; converse from data processing, the triangle inequality of the entropies and the quantum Fano inequality (diagonal entries in a basis with the purification) |
| C120 | the programme of C46 and the channel objects of C23 | the fidelity is a function of the action of the noise alone; later noise is part of the decoder; products of decoders; refuted for complex operators by [1] and [i] |
| C121 | constructor check with its tolerance, `channel`, `coherent_information` | the operators are exact operators times the square root S^(1/2) of the sum of K^dagger K, whose eigenvalues are within D 1e-5 of one; tensor powers; the filtered state is bounded from both sides by the state plus small positive matrices, which gives the measurement bound and, with the concavity of the entropy, the bound on the coherent information; weights of states cancel in the coherent information |
| C122 | `__add__`, `__mul__`, `channel`, `coherent_information` of the Kraus model | families of operators of one map (C66) by reindexing sums; the product arrays are equal by arithmetic of quotients and remainders; induction on the number of copies |
| C123 | constructor with supplied logical operators, `logical_circuit`, `apply_stabilizer_circuit`, measurements of C100 | orthogonal complements of the symplectic form: what commutes with the group can be moved off T iff what commutes with it on T is in it; dimensions of sums and intersections; C61 and C70 turn this into states and circuits |
| C124 | constructor with its two rank tests and column swaps, encoding circuit of C01 | the pivot column of each step of the first block depends on the group only, so after the first block the groups still agree; rows with X then differ by Z-type elements, which fix encoded states without sign; the second block relabels both; a Pauli fixing all encoded states lies in the group; rank and independence depend only on the set of rows; two concrete counterexamples |
| C125 | `channel` and `coherent_information` of `AnalyticQChan` with histories (C23, C27, C45) | the difference of the n-fold products is a sum of n products with one difference each; each makes little of any state (eigenvalues of the Gram matrix), together at most n times as much; completing the square writes the outputs as a common part plus positive matrices of trace at most 2 n eps; continuity of the entropy (C110) |
| C126 | `coherent_information` of `AnalyticQChan` with histories (C45) | digits of the index of n+m uses split into the digits of the two blocks, so the operators are tensor products; entropies of products of two density matrices add; the supremum over states of the exact value is superadditive and bounded, and Fekete's lemma gives the limit |
| C127 | `__mul__`, `channel`, `coherent_information` of `AnalyticQChan` with histories (C26, C45) | the base d1*d2 digits of an index are pairs of digits, so the operators of n uses of the product are reindexed tensor products; entropies of tensor products add; suprema and limits (C126); if both degrade, the product of the degrading channels degrades the product, and what the two parts know of each other does not grow under channels on the parts (monotonicity of relative entropy), which bounds the joint value by the sum |
| C128 | `__add__`, `coherent_information` of `AnalyticQChan` with histories (C25, C45) | let a record of which operator of o acted pass to the output: the output and environment matrices become block diagonal, so the value is the weighted sum over the parts of rho; forgetting the record does not raise it (C78), so some part is as good as the whole |
| C129 | which arrays the constructor copies and which it shares (`Model/CodeAlias`): an event per array the caller can write to | induction over the events: without supplied logical operators nothing passed matters; with them the code is always that of the present contents of the two arrays (exact); which methods read which attribute; concrete refutations |
| C130 | `update_kraus_operators` and `channel` with integer `current_n` and `n` (`Model/IntUses`), shown to agree with `Model/Kraus` on natural numbers | invariant: the operators held are those of `current_n + x` uses, where `x` changes only when the number goes down; exact rule for the number of copies, when a valid request is served, refutation for every channel, repair |
| C131 | rounds of the modelled circuits (`Spec/Rounds`), errors as Pauli operators | induction over the rounds with the state kept as a phase times a Pauli operator times the encoded state; exact criterion by C61, correctable sets by C115, independence of the rounds for tables whose entries give the results they are listed under; the same for the shared ancilla, where looking up the raw results is refuted and looking up changes is shown to be right |
| C132 | sequences of the modelled circuits (`Spec/Protected`) | induction over the sequence: the logical operators act on superpositions of encoded states as the single-qubit operators on the logical state (C14), and commute up to sign with what the rounds leave (C131) |
| C133 | the constructor (`Model/Stabilizer`), ranks and commutation on the lists themselves (`Spec/Accept`) | the second elimination leaves the corner made by the first alone, so the final assertion depends on the ranks only; case analysis of the checks |
| C134 | as C133 | invariance of the criterion of C133 under reordering and renaming; a presentation in reduced form, with the renaming of the elimination undone, is always accepted |
| C135 | runs of rounds as in C131 (`Spec/Rounds`), probabilities summed over all histories of errors (`Spec/FailureRate`) | the rounds succeed iff the product of errors and corrections lies in the group (C131); membership of an operator commuting with the group is the average of the signs of the logical operators (C08, C59); sums over histories factor; Bernoulli; weights of independent noise |
| C136 | the constructor with an integer k (`Model/IntParams`), agreeing with the other model for natural k | without logical_ops the zeros of line 898 raise on every path; with logical_ops refuted by one qubit and the generator Z twice, and the accepted lists characterised exactly |
| C137 | the gate lists of `Model/Circuit`; `Spec/CircuitSize` defines the support of a Pauli operator and the number of controlled gates | wires of the gates of a Pauli string by induction on the string; the encoder and decoder by summing over rows, using the shape of the normal form and of the default logical operators |
| C138 | the constructor of `Model/Stabilizer` run on `StabCode.iter`; `Spec/Rebuild` says that all circuits agree | an array in normal form is a fixed point of both eliminations and its ranks are read off; the circuit builders read only entries inside the arrays |
| C139 | the constructor and the circuits of `Model/Stabilizer` and `Model/Circuit` without the hypothesis of independence | the eliminations keep the upper identity and the zero block; the lower rows are completed to a normal form with the same last k columns, which is a fixed point of the constructor (C138) and has the same circuits; the sign of a row on an encoded state is computed from its product with the logical X operators; the last claim is refuted by ZIZII, IZIII, ZZZII, IIIIZ |
| C140 | the encoding circuit of `Model/Circuit` on every basis state | a Pauli operator is moved through the preparation, the logical X gates and, one by one, the Hadamard and controlled gates of each generator; the resulting operator is read off and its products with the rows of the normal form are triangular in the starting bits; measurement by C17 |
| C141 | the decoding circuit of `Model/Circuit` on encoded states with an error | the parity each copying step reads and the sign each controlled logical X leaves are computed for an arbitrary Pauli operator on a codeword; redundant generators by C139; the converse of the last claim by comparing factors of product states |
| C142 | the syndrome circuits, corrections and encoding circuit of `Model/Circuit` on a register in any state | measured eigenvalues by C58, corrections by C48, fixed states are encoded states by C60; measuring keeps the eigenvalues of the logical Z's, which pins the encoded state; corrections exist because the error map of C140 is injective, then multiplied by logical X's |
| C143 | the syndrome circuits of `Model/Circuit` with the rows of the logical arrays, results with their joint probability (`Readings`) | the encoded states are orthonormal eigenvectors of the logical Z's (C11, C139), one reading by C57, any number by induction on the list of operators; X by the flip of the encoded bit; Y by the symplectic pairing and C57_odd_refuted |
| C144 | the encoding circuit and logical Z rows of `Model/Circuit`, `Model/Stab`; qubits read one after the other (`Spec/ReadQubits`) | reading all qubits gives the squared amplitude by induction on the list of qubits; an eigenstate of an operator without X is supported on one parity; the encoded states are orthonormal (C11, C139) and the Z rows fix them (C13) |
| C145 | the measurement and correction circuits of `Model/Circuit`; rounds with wrong reports, the product left and the majority of the reports (`Spec/WrongReadings`) | induction on the rounds with the operator on the register (as C131); the signs of a consistent row cancel those of the register up to the flips; weights add up to less than the distance; counting the wrong reports of a row |
| C146 | the measurement and correction circuits of `Model/Circuit`; rounds with an error before each measurement (`Spec/MidRound`) | induction on the measurements with the operator on the register, a reading differs from that for the total error by the sign with the later errors; then C145 |
| C147 | the measurement circuit of `Model/Circuit`, with a Pauli operator between two gates (`Spec/GateErrors`) | the circuit cut at the error is two controlled strings on different qubits; both branches of the ancilla are followed through the error |
| C148 | the circuits of `Model/Circuit`; circuits with a Pauli operator at every place (`Spec/Propagate`), measurements and rounds made of them (`Spec/NoisyCircuits`) | for each kind of gate the Pauli operator after it is computed amplitude by amplitude; induction on the gates; no builder sends a controlled Hadamard gate; induction on measurements and rounds |
| C149 | the circuits of `Model/Circuit` with a Pauli operator at every place, in sequence; the operator that reaches the message is `transmitted` | errors of each circuit are taken to its end (C148), the rounds leave one operator (C148), the decoding circuit shows it to the message as in C141; only the identity takes every state to a multiple of itself |
| C150 | the circuits of `Model/Circuit` with a Pauli operator at every place; sequences and rounds with a fresh ancilla and with the last qubit of the register (`Spec/UnresetErrors`) | both variants send the same gates; an ancilla in state 1 exchanges the two branches up to a common sign, since the errors are one Pauli operator at the end (C148); induction on the measurements and on the rounds |
| C151 | the circuits of `Model/Circuit`; the density matrix of the last k qubits (`Spec/LastQubits`) | the state after decoding is a product (C141), so ignoring the code qubits leaves a pure state; the logical pairing (C08, C139) makes the map from errors to operators on the decoded qubits linear and onto, so all its fibres have the same size; the sum over all signs gives the maximally mixed state; rounds of correction by C131; that a mixture of Pauli operators is the identity only if nothing else is mixed in is read off the entries of the density matrices for a basis state and for an equal superposition of two |

## Trusted base

* Lean's kernel.
* The axioms `propext`, `Classical.choice`, `Quot.sound` (those of Mathlib).  No theorem depends on any other axiom; there is
  no `sorry`, no `native_decide`, no `bv_decide`, no axiom of this project.
* The reading of the Python source: that the definitions under `Model/` do what the cited lines do.
* The contracts below for libraries.  They are hypotheses of the theorems, not axioms, and each is shown to be satisfiable
  (`exists_eigh`, `exists_eigvalsh`, `exists_sqrtm`, `CholeskyParam.exists_cholesky`, `lazyScipy_correct`,
  `exists_sdpSolver`).

| library routine | contract |
|---|---|
| `np.linalg.eigh` | for Hermitian input: ascending real eigenvalues and any orthonormal eigenbasis; in `C72_oddY_refuted` also that only the lower triangle is read (`exists_eigh_lower`) |
| `np.linalg.eigvalsh` | for Hermitian input: the eigenvalues with multiplicity |
| `scipy.linalg.sqrtm` | for positive semidefinite input: the positive root |
| `np.linalg.cholesky` | for Hermitian input: the lower triangular factor with positive diagonal, `LinAlgError` if not positive definite |
| `scipy.optimize` | the value reported is the objective at the point reported; nothing about optimality or bounds, except in `C92_coherent_best` and `C92_fidelity_worst`, which assume that differential evolution ends at a minimum over the bounds (`bestScipy_finds`) |
| picos / cvxopt | an exact optimal point and its value whenever there is one |
| `np.random`, `random` | any values (uniform only in C55) |
| measurement in ProjectQ | any outcome of non-zero probability, with the projected state |
| `Pool.map` | the ordered list of results |
| qutip `istp`, `iscp` | parameters; `ptrace` by its definition |

## Modelled and not modelled

Modelled: `codes.py` (constructor, normal form, logical operators, all circuit builders, Kraus encoders and correctors,
concatenation, converters), `chan/_kraus.py`, `chan/channel.py`, `chan/_choi.py`, `chan/param.py`, `chan/_coherent.py`,
`_optimize.py`, `device_adaptor.py`, `find_codes.py`, `avgfid/avg_fidelity.py`.

Simplifications, each also stated at the definition:

* Floating point is replaced by exact arithmetic over the integers, rationals or complex numbers; tolerances written in
  the code (`1e-5`, `1e-8`, `1e-10`) are kept where they decide a branch.
* Sparse arrays are modelled by their entries; where the sparse and the dense code differ in what they compute, both are
  modelled.
* `einsum` repeats axes of length one in the Kraus classes (`einsumDim`); elsewhere the shapes always match.
* A division by a zero trace (`nan` in numpy) is the error value `unmodelled`.
* `np.int` is taken to exist, as in the numpy of the time.
* The device is a pure state simulator.  An `R` gate whose angle is an array of one element is read as that number.
* `sparse=True` of `effective_channel_with_stabilizers` is not modelled: it multiplies matrices of two different sparse packages.
* Printing (`disp`, `verbose`), plots and type annotations are not modelled.

Not modelled: the abstract classes `QCode`, `DeviceAdaptorABC`, `ParameterizationABC` (no code), the functions without a
body (`effective_coherent_info`, `_optimization_coherent_information_parameters`, `_lipschitz_optimizing_condition`: they
return `None`), timing.

## Findings

Behaviour of the code that contradicts its documentation or a property a user would expect.  Each is a theorem.

* C09, C13: logical operators and encoded states belong to a relabelled code: the elimination swaps qubits and never swaps back (generator IXX).
* C10: valid generators are rejected when the rational and the mod 2 rank of the X half differ; another presentation of the same group is always accepted (C134).
* C133: dependent generators are accepted, and with supplied logical operators nothing but the shape and commutation is checked.
* C13: encoded states can have eigenvalue -1 for a generator (XZII, YYYY), and generators with an odd number of Y's fail altogether.
* C14, C18: logical operators with index ten or more cannot be named.
* C17: a supplied ancilla is never reset: results are running parities.
* C131: so a table of corrections looked up with the results of a supplied ancilla miscorrects even a single error
  (`C131_shared_refuted`); looked up with the changes between results it is right (`C131_changes`).
* C22: `concatenate_codes` returns `None` instead of raising, drops parts of generators and fails for most codes with several logical qubits (`C22_exact` says when and how); an identity letter repeats the logical operator of the letter before it, so a wrong code can be returned without any exception (`C22_identity_silent_refuted`: outer code XXXX, ZIIZ).
* C27: a sparse channel that goes back from several uses to one raises; `update_kraus_operators(0)` leaves a wrong state.
* C130: a request for zero or a negative number of uses spoils a dense channel: every valid request that follows raises
  `ValueError` until the number of uses goes down to a positive number; a first such request applies the channel twice.
* C28, C31: the average fidelity of Kraus channels is computed with a wrong `einsum` (dense) and wrong axes (sparse).
* C28: a sparse channel given a batch raises unless there is one matrix, one operator or as many of each, and then returns one
  matrix: the image of the one matrix, the image of the sum, or the sum of each operator applied to its own matrix
  (`C28_batch_exact`, `C28_batch_one`, `C28_batch_summed_refuted`, `C28_batch_paired_refuted`).
* C30: `orthogonal_kraus` is right only for two groups of equal size; the example of the documentation fails.
* C32: `*` and `+` build wrong dimensions for several particles; the sum of two accepted channels can miss the tolerance. Exactly when
  they succeed: `C32_add_exact`, `C32_mul_exact`, `C32_kraus_add_exact`, `C32_kraus_mul_exact`.
* C37: `CholeskyParam.vec_from_rho` does not invert `rho_from_vec` for some states of every size from 3 on (exactly which, for every size: `C37_cholesky_exact`), nor for any rank below the size.
* C38: with `dist="normal"` the Cholesky random vectors always contain a diagonal entry of exactly 1, whatever `u_bnd` is, against
  the documentation (`C38_normal_refuted`).
* C39: SLSQP without a pool never returns for the coherent information (it negates a result object) and reports a result
  object instead of a number for the fidelity; with a pool the value reported need not be the best over the samples.
* C40: asking for zero samples returns one.
* C41: the documented subclass of `ParameterizationABC` is rejected; `slsqp` with samples and `lipschitz=0` is rejected.
* C91: `OverParam.random_vectors` has no `@staticmethod`: the object `OverParam()` raises `TypeError` whenever the Lipschitz sampler
  is used, so always with SLSQP (`C91_overparam_refuted`).  `StandardBasis()` always raises `TypeError` (`C91_standard_refuted`).
* C93: the sampler assumes Lipschitz constant one.  This is right for the fidelity (`C93_fidelity_sampler`) but not for the coherent
  information: with the identity channel of a qubit the draws `diag(1,0)`, `diag(9/10,1/10)` make it discard `diag(4/5,1/5)`, which is
  better than both and than the sample it returns instead (`C93_coherent_refuted`).
* C44: `effective_channel_with_stabilizers` never returns for k other than 1 and never for `optimize='fidelity'`; `options` is ignored.
* C46: the decoder programme: value scaled by (2^k/2^n)^2, conjugate missing (for Pauli noise on a qubit the search ignores the probability of Y), qubit numbers swapped for stabilizer codes, no return for k > 1, `optimize_decoder` raises `NameError`.
* C120: because of the missing conjugate the value of the decoder search depends on how the channel is written: 1 for `[1]`, 0 for
  `[i 1]` (`C120_same_refuted`).
* C121: the tolerance of the check of trace preservation is per entry, so it loosens with the dimension: for every dimension above
  10^5 a channel is accepted that maps some density matrix to zero (`C121_large_refuted`).
* C47: `decoding_circuit` returns supplied ancillas twice.
* C48: `apply_stabilizer_circuit` with a string raises `UnboundLocalError`.
* C52: `optimize_encoder_decoder_average_fidelity` never returns: `total_channel` is called with too few arguments.
* C53: on a real device the register is not reset between trials.
* C56: the correction in the effective channel multiplies by a stabilizer generator, which has no effect on the code.
* C57: measuring an operator with an odd number of Y's is a fair coin on every state, even on its eigenstates, because the
  controlled letter is `-iY` (`C57_odd_refuted`).  The call rotates the register to `(1 ± S) phi / sqrt 2`, and repeating it
  gives another fair coin (`C57_odd_state_refuted`, `C57_odd_twice_refuted`).
* C63: for the codes of IXX and of XZII, YYYY the states of `encoding_circuit` lie outside the column space of
  `encode_krauss_operators` (`C63_relabelling_refuted`, `C63_sign_refuted`).  `C63_encoders_agree_iff` says exactly when the
  two agree.
* C64: `normalizer` and `undetectable_errors` raise `AttributeError` for every code, as `_commute` and
  `_convert_binary_representation_to_pauli` do not exist (`C64_normalizer_refuted`).  Even with these methods supplied the
  result would contain the stabilizer group, against the documentation N(S) - S (`C64_contains_group`).
* C68: with `add_ancilla_bits=True` the caller's register still holds the qubits that are documented as deleted (`del register`
  unbinds a local name only); without it the caller's list is shortened in place (`C68_register`).
* C70: supplied logical operators are never checked beyond their number of columns (`C70_unchecked_refuted`), and an equivalent
  choice of valid operators makes the encoder leave the code: with XIIX, XIXI for the code of XXXX and ZZZZ the state encoded
  from `10` has ZZZZ = -1 (`C70_encoding_refuted`).  `C70_encoding_iff_partial` says exactly which operators are safe.
* C71: a dense channel keeps the caller's array.  After the caller changes it, one use still applies the old operators, two
  uses apply the new operators to the first system and the old ones to the second, and from then on one use applies the
  new ones (`C71_array_refuted`, `C71_flip_refuted`), while `entropy_exchange` can be left with the old ones
  (`C71_exchange_refuted`).  `C71_channel_exact` and `C71_exchange_exact` say for every history of calls and writes which
  version of the array each use applies (`Spec.Held`).
* C129: a code copies its generators but keeps supplied `logical_ops` arrays without a copy, so later writes change its
  circuits (`C129_supplied_refuted`).  `stab_bin_rep` and `normal_form` are the object's own arrays: after a write into
  `stab_bin_rep` the matrix encoder and the encoding circuit belong to different codes (`C129_stab_view_refuted`).
* C72: dependent generators are accepted.  A repeated generator gives more than `2^k` columns (`C72_dependent_refuted`);
  XZI, ZXI, YYI, whose product is minus the identity, give none (`C72_empty_refuted`).  With an odd number of Y's `eigh` is
  given a matrix that is not Hermitian, and the columns for YI are those of XI (`C72_oddY_refuted`).
* C74: `StabilizerCode(["X"], 2, 0)` is accepted (`C74_short_refuted`).  With supplied logical operators the number of strings is
  never checked (`C74_count_refuted`).  Letters after the length of the first string are dropped, even when they are not Pauli
  letters (`C74_longer_refuted`).
* C81: the documented tuple for `numb_qubits` is refused for Kraus operators (`C81_tuple_refuted`); dimensions that do not match
  raise `AssertionError`, not the documented `TypeError` (`C81_dimensions_refuted`); a sparse array that is not three-dimensional
  is accepted with any other arguments and gives an object on which everything raises `AttributeError`
  (`C81_sparse_matrix_refuted`).
* C82: `numb_krauss` raises `AttributeError` for every channel (`C82_numb_krauss_refuted`).
* C84: `optimize_decoder_stabilizers` never returns with `sparse=True`; wherever the dense call succeeds it raises `ValueError`
  (`C84_never_returns_refuted`, `C84_value_error_refuted`).
* C30: for every list of groups the blocks computed are given exactly by `C30_blocks`; with three groups the second block is
  empty (`C30_three_groups_refuted`), and groups that count more operators than there are give no error
  (`C30_excess_refuted`).
* C30: with three groups of equal size `coherent_information` raises for every input (`C30_three_groups_coherent_refuted`: the blocks have
  different shapes and `np.linalg.eigvalsh` cannot stack them; the class of the exception depends on the numpy version).
* C31, C87: `einsum` repeats axes of size one, so dense channels accept a one by one matrix (`C31_broadcast_refuted`,
  `C87_exchange_broadcast_refuted`).  The sparse `entropy_exchange` checks the rows only: extra columns are dropped
  and missing ones filled with zeros (`C87_exchange_columns_refuted`).  The three `C87_*_exact` theorems say for every shape
  which matrices a dense channel refuses and which square matrix it takes the others for.
* C88: gates are sent before all arguments are checked.  `encoding_circuit` writes the bits before the bad one
  (`C88_untouched_refuted`, `C88_encoding_state`); a register that is too short receives part of the operator before
  `IndexError` or `ValueError` (`C88_short_logical`, `C88_short_apply`); a letter outside XYZI in
  `single_syndrome_measurement` leaves register and ancilla entangled (`C88_syndrome_letter`).
* C109: of the examples in the READMEs, the operators `[(1 - p) I, p X]` are refused (`C109_bitflip_refuted`), `chan2 + chan1`
  raises `TypeError` (`C109_serial_refuted`), the adjoint of the complementary channel raises `ValueError`
  (`C109_adjoint_refuted`), the minimum fidelity of a channel from a qubit to a qutrit cannot be searched
  (`C109_fidelity_refuted`), and applying the stabilizer that reported an error never reverses it, for any code
  (`C109_recipe_refuted`); the code shown does not even detect bit flips (`C109_dephasing_refuted`).
* C110: the coherent information is not Lipschitz, with constant 1 or any other: at the cut-off of 1e-10 on the eigenvalues
  it jumps (`C110_lipschitz_refuted`); what does hold is the modulus of continuity of `C110_coherent`.
* C111: the circuits of `approximate_unitary_two_design(epsilon)` are close to a random unitary within `epsilon` in the probability
  of every outcome, not within `epsilon / 2`, which the diamond norm used in the cited paper asks for (`C111_diamond_refuted`).
* C118: `channel` of a Choi object keeps the wrong particles unless there are as many inputs as outputs: with more outputs it raises for
  every state (`C118_more_outputs_refuted`), with at least twice as many inputs it returns the transposed state of some of the inputs,
  whatever the channel is (`C118_half_refuted`, `C118_inputs_refuted`), in between a state of some inputs and some outputs
  (`C118_mixed_refuted`); it is wrong for some channel and state for every number of outputs and every larger number of inputs
  (`C118_fewer_outputs_refuted`).
* C124: the code that is built depends on which generators of a group are given: swapping two rows can change the encoded states
  (`C124_order_refuted`), and XXII, XIXI, ZZZI are accepted while XXII, XIXI and the product of all three are rejected
  (`C124_choice_refuted`).
* C136: a negative `k` is accepted when logical operators are supplied: `n - k` copies of Z on one qubit (`C136_supplied_refuted`).
* C139: redundant generators are accepted silently, and when a redundant one comes before an independent one the second elimination stops
  at the row it has made zero: from ZIZII, IZIII, ZZZII, IIIIZ the constructor builds a logical X operator that anticommutes with IIIIZ,
  and the state encoded from 1 changes sign under it (`C139_stabilised_refuted`).
