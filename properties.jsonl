{"id": "C01", "title": "Pauli string / binary representation round trip", "statement": "Converting a list of equally long Pauli strings to the binary representation and converting each row back gives the same strings; converting a 0/1 row to a string and back gives the same row.", "quantifier": "every non-empty list of equally long strings over I,X,Y,Z; every 0/1 vector of even length", "why_tests_cant": "there are 4^n strings for every n; tests show a handful of literals", "anchors": ["PyQCodes/codes.py:StabilizerCode.pauli_str_to_binary_representation", "PyQCodes/codes.py:StabilizerCode.binary_rep_to_pauli_str"]}
{"id": "C02", "title": "Conversion errors are exactly characterised", "statement": "String-to-binary conversion raises ValueError exactly when the first offending symbol (within the length of the first string) is not one of I,X,Y,Z, IndexError exactly when the list is empty or a string is shorter than the first one, and never otherwise; binary-to-string raises RuntimeError exactly when some pair is non-binary on both the X and the Z test, and never otherwise.", "quantifier": "every list of strings; every integer vector", "why_tests_cant": "the error condition ranges over all malformed inputs", "anchors": ["PyQCodes/codes.py:StabilizerCode.pauli_str_to_binary_representation", "PyQCodes/codes.py:StabilizerCode.binary_rep_to_pauli_str", "PyQCodes/codes.py:StabilizerCode.index_to_qubit_pauli"]}
{"id": "C03", "title": "inner_prod decides commutation of the actual matrices", "statement": "inner_prod of two binary rows is 0 exactly when the matrices built by binary_rep_to_pauli_mat commute, 1 exactly when they anticommute, and takes no other value; it raises (ValueError) exactly when the first vector has odd length or the lengths differ.", "quantifier": "every n >= 1 and every pair of 0/1 vectors of length 2n; for the errors, every pair of integer vectors", "why_tests_cant": "4^n x 4^n pairs for every n; matrices have size 2^n", "anchors": ["PyQCodes/codes.py:StabilizerCode.inner_prod", "PyQCodes/codes.py:StabilizerCode.binary_rep_to_pauli_mat", "PyQCodes/codes.py:StabilizerCode.index_to_qubit_pauli"]}
{"id": "C04", "title": "Algebra of the generated Pauli matrices", "statement": "The matrices built from binary rows are orthogonal; the product of two of them is plus or minus the matrix of the mod-2 sum of the rows with sign (-1)^(z.x'); the square is (-1)^(number of Y); the trace vanishes unless the row is zero.", "quantifier": "every n >= 1 and every 0/1 vectors of length 2n", "why_tests_cant": "infinitely many sizes", "anchors": ["PyQCodes/codes.py:StabilizerCode.binary_rep_to_pauli_mat"]}
{"id": "C05", "title": "Constructor rejects non-commuting or mis-shaped generators", "statement": "Constructing a code succeeds only if all generators commute pairwise; a pair that anticommutes gives AssertionError; array input with the wrong number of columns or rows gives AssertionError.", "quantifier": "every integer generator array, n and k", "why_tests_cant": "all generator arrays of all sizes", "anchors": ["PyQCodes/codes.py:StabilizerCode.__init__", "PyQCodes/codes.py:StabilizerCode._is_stabilizer_code"]}
{"id": "C06", "title": "Normal form describes the same code up to relabelling qubits", "statement": "There is a permutation of the qubits, applied to X and Z halves alike, such that the mod-2 row span of normal_form equals the permuted row span of the generators given; consequently the rows of the normal form commute pairwise and iterating over the code yields exactly these rows.", "quantifier": "every 0/1 generator array and every value of the computed ranks", "why_tests_cant": "elimination performs data-dependent swaps; only an invariant over all loop iterations covers every input", "anchors": ["PyQCodes/codes.py:StabilizerCode._gaussian_elimination_first_block", "PyQCodes/codes.py:StabilizerCode._gaussian_elimination_second_block", "PyQCodes/codes.py:StabilizerCode.__iter__"]}
{"id": "C07", "title": "Normal form has the block shape [I A1 A2 | B C1 C2; 0 0 0 | D I E]", "statement": "For commuting, mod-2 independent generators whose X block has equal real and mod-2 rank, normal_form has the documented block shape with identity blocks of size rank and n-k-rank and the zero X block below.", "quantifier": "every such generator array, every n and k", "why_tests_cant": "the shape depends on every swap and elimination step succeeding", "anchors": ["PyQCodes/codes.py:StabilizerCode._gaussian_elimination_first_block", "PyQCodes/codes.py:StabilizerCode._gaussian_elimination_second_block", "PyQCodes/codes.py:StabilizerCode._matrix_blocks_standard_form"]}
{"id": "C08", "title": "Logical operators form a symplectic pairing that commutes with the normal form", "statement": "Logical X_i and logical Z_j commute with every row of the normal form; X_i anticommutes with Z_i and commutes with Z_j for j different from i; the logical X operators commute with each other, and so do the logical Z operators.", "quantifier": "every normal form of the documented shape, every i, j < k. The documented shape is that of independent 0/1 generators (for dependent ones see C139).", "why_tests_cant": "block matrix identity over all sizes", "anchors": ["PyQCodes/codes.py:StabilizerCode.logical_operators", "PyQCodes/codes.py:StabilizerCode.logical_x", "PyQCodes/codes.py:StabilizerCode.logical_z"]}
{"id": "C09", "title": "Logical operators commute with the generators the user gave", "statement": "Every logical operator returned commutes with every generator passed to the constructor.", "quantifier": "every code that constructs successfully with default logical operators", "why_tests_cant": "fails only for inputs that need qubit swaps; example tests without swaps pass", "anchors": ["PyQCodes/codes.py:StabilizerCode.logical_operators", "PyQCodes/codes.py:StabilizerCode._gaussian_elimination_first_block"]}
{"id": "C10", "title": "Every valid generator set is accepted", "statement": "For every n-k commuting, mod-2 independent generators on n qubits the constructor succeeds.", "quantifier": "every valid stabilizer group presentation", "why_tests_cant": "the rank is computed over the reals, which differs from the mod-2 rank only on some inputs", "anchors": ["PyQCodes/codes.py:StabilizerCode.__init__", "PyQCodes/codes.py:StabilizerCode._gaussian_elimination_first_block"]}
{"id": "C11", "title": "Encoding circuit produces the closed-form codeword", "statement": "Starting from |0...0>, the gates emitted by encoding_circuit for basis state delta produce 2^(-r/2) prod_i (1+g_i) |0^r, E delta, delta>, where g_i are the Pauli operators of the first r normal-form rows.", "quantifier": "every code in normal form, every basis state delta of k bits", "why_tests_cant": "state space of dimension 2^n for every n", "anchors": ["PyQCodes/codes.py:StabilizerCode.encoding_circuit"]}
{"id": "C12", "title": "Encoding is injective and norm preserving", "statement": "The encoded basis states of different delta are orthogonal and each has norm one, so the circuit is an isometry from k to n qubits.", "quantifier": "every code in normal form, every pair of basis states", "why_tests_cant": "2^k x 2^k pairs for every code", "anchors": ["PyQCodes/codes.py:StabilizerCode.encoding_circuit"]}
{"id": "C13", "title": "Encoded states are stabilised", "statement": "The encoded state is fixed by every row of the normal form with an even number of Y's, is an eigenvector with eigenvalue plus or minus one of every generator given, and, for codes whose generators are each purely X or purely Z, is fixed by each.", "quantifier": "every code in normal form with even-Y rows, every basis state", "why_tests_cant": "every code and state; sign depends on the history of row operations", "anchors": ["PyQCodes/codes.py:StabilizerCode.encoding_circuit", "PyQCodes/codes.py:StabilizerCode.encode_krauss_operators"]}
{"id": "C14", "title": "Logical circuits act as logical Paulis on encoded states", "statement": "logical_circuit 'Xi' maps enc(delta) to enc(delta with bit i flipped); 'Zi' multiplies enc(delta) by (-1)^delta_i; 'Yi' acts as 'Zi' followed by 'Xi'. Names hold one digit: for i >= 10 the name raises AssertionError even when the code has that many logical qubits.", "quantifier": "every code in normal form, every delta, every i < min(k, 10); for the error, every i >= 10", "why_tests_cant": "all codes and superpositions", "anchors": ["PyQCodes/codes.py:StabilizerCode.logical_circuit", "PyQCodes/codes.py:StabilizerCode.encoding_circuit"]}
{"id": "C15", "title": "Decoding circuit moves the logical state to the ancillas", "statement": "The gates emitted by decoding_circuit map enc(delta) tensor |0^k> to enc(0) tensor |delta>; by linearity every superposition of encoded states is moved to the ancillas, unentangled from the register.", "quantifier": "every code in normal form, every delta and every superposition", "why_tests_cant": "all codes, continuous state space", "anchors": ["PyQCodes/codes.py:StabilizerCode.decoding_circuit", "PyQCodes/codes.py:StabilizerCode.encoding_circuit"]}
{"id": "C16", "title": "Syndrome measurement returns the symplectic product with the error", "statement": "On a state stabilised by s to which Pauli error e was applied, single_syndrome_measurement of s with a fresh ancilla returns inner_prod(e,s) with probability one and leaves the register state unchanged.", "quantifier": "every stabilised state, every Pauli error, every stabilizer. For encoded states: independent 0/1 generators with even numbers of Ys.", "why_tests_cant": "continuous state space and all errors", "anchors": ["PyQCodes/codes.py:StabilizerCode.single_syndrome_measurement", "PyQCodes/codes.py:StabilizerCode.apply_stabilizer_circuit"]}
{"id": "C17", "title": "Histories of syndrome measurements", "statement": "A sequence of syndrome measurements with fresh ancillas returns, for each, a value independent of the history; with the supplied (n+1)-th qubit as ancilla the i-th result is the XOR of all syndromes measured so far, because the ancilla is not reset.", "quantifier": "every finite sequence of measurements", "why_tests_cant": "quantifies over histories", "anchors": ["PyQCodes/codes.py:StabilizerCode.single_syndrome_measurement"]}
{"id": "C18", "title": "Circuit builders check their inputs and touch only the register", "statement": "encoding_circuit raises AssertionError exactly when the state has not k entries, the register has not n qubits or an entry is not 0/1; logical_circuit raises ValueError for a Pauli letter followed by a single character that is not a digit, and AssertionError for every other malformed name; all emitted gates act on qubits of the register and controls differ from targets; single_syndrome_measurement raises TypeError exactly when the engine has neither n nor n+1 qubits.", "quantifier": "every code, state list, register length and operator name", "why_tests_cant": "all inputs", "anchors": ["PyQCodes/codes.py:StabilizerCode.encoding_circuit", "PyQCodes/codes.py:StabilizerCode.logical_circuit", "PyQCodes/codes.py:StabilizerCode.single_syndrome_measurement", "PyQCodes/codes.py:StabilizerCode.apply_stabilizer_circuit"]}
{"id": "C19", "title": "encode_krauss_operators is an isometry onto the code space", "statement": "The columns returned are orthonormal and span exactly the joint +1 eigenspace of all generators; for independent generators that square to one it has 2^k columns.", "quantifier": "every code with even-Y commuting generators, every eigenbasis choice of the eigensolver", "why_tests_cant": "the eigensolver may return any eigenbasis", "anchors": ["PyQCodes/codes.py:StabilizerCode.encode_krauss_operators"]}
{"id": "C20", "title": "kraus_operators_correcting_errors keeps trace preservation", "statement": "The result has one operator per error, each is the error or a generator times the error, the generator is the first one that anticommutes with it, and the sum of K^dagger K is unchanged.", "quantifier": "every list of errors and every code. Codes are given by 0/1 generators.", "why_tests_cant": "arbitrary lists of matrices", "anchors": ["PyQCodes/codes.py:StabilizerCode.kraus_operators_correcting_errors"]}
{"id": "C21", "title": "Concatenation with a one-logical-qubit inner code", "statement": "For an outer [n,k] and an inner [m,1] code whose logical X has no Z part and logical Z no X part, concatenate_codes builds nm-k pairwise commuting generators on nm qubits: the inner generators on each block and the outer generators with Paulis replaced by the inner logical operators.", "quantifier": "every pair of such codes. Codes are given by 0/1 generators, n-k of them, independent in the part that says when the constructor accepts the result.", "why_tests_cant": "all sizes of both codes", "anchors": ["PyQCodes/codes.py:StabilizerCode.concatenate_codes"]}
{"id": "C22", "title": "Concatenation in general and its error handling", "statement": "When l does not divide n concatenate_codes raises ValueError; when it does, it builds a valid concatenated code for every inner code.", "quantifier": "every pair of codes", "why_tests_cant": "failing inputs are not among the three tested pairs", "anchors": ["PyQCodes/codes.py:StabilizerCode.concatenate_codes"]}
{"id": "C23", "title": "Kraus channel acts as sum K rho K^dagger", "statement": "channel(rho) equals the sum of K rho K^dagger over the current n-fold Kraus operators, for a matrix or a batch of matrices; it is linear and maps Hermitian to Hermitian and positive to positive matrices; if sum K^dagger K = 1 it preserves the trace.", "quantifier": "every Kraus list, every matrix rho, every n. A history is any sequence of calls for positive numbers of uses, whether or not they raised; of a sparse channel one use is asked for only if no earlier call asked for several (C27).", "why_tests_cant": "continuous input space", "anchors": ["PyQCodes/chan/_kraus.py:DenseKraus.channel", "PyQCodes/chan/_kraus.py:SparseKraus.channel", "PyQCodes/chan/channel.py:AnalyticQChan.channel"]}
{"id": "C24", "title": "Adjoint duality", "statement": "trace(channel(rho) sigma) = trace(rho channel(sigma, adjoint=True)) for the channel and for the entropy-exchange (complementary) channel; the adjoint of a trace preserving channel maps identity to identity.", "quantifier": "every Kraus list, every rho and sigma. A history is any sequence of calls for positive numbers of uses, whether or not they raised; of a sparse channel one use is asked for only if no earlier call asked for several (C27). Dense channels are those without orthogonal_krauss groups (for these see C30).", "why_tests_cant": "continuous input space", "anchors": ["PyQCodes/chan/_kraus.py:DenseKraus.channel", "PyQCodes/chan/_kraus.py:DenseKraus.entropy_exchange"]}
{"id": "C25", "title": "Serial concatenation is composition", "statement": "(A + B).channel(rho) equals A.channel(B.channel(rho)) whenever the sum is constructed; the number of Kraus operators multiplies; the composition of trace preserving channels is trace preserving; composition is associative.", "quantifier": "every pair of composable Kraus lists and every rho. A history is any sequence of calls for positive numbers of uses, whether or not they raised; of a sparse channel one use is asked for only if no earlier call asked for several (C27).", "why_tests_cant": "continuous input space, all dimensions", "anchors": ["PyQCodes/chan/_kraus.py:DenseKraus.__add__", "PyQCodes/chan/_kraus.py:DenseKraus.serial_concatenate", "PyQCodes/chan/_kraus.py:SparseKraus.serial_concatenate", "PyQCodes/chan/channel.py:AnalyticQChan.__add__"]}
{"id": "C26", "title": "Parallel concatenation is the tensor product", "statement": "(A * B).channel(rho kron sigma) equals A.channel(rho) kron B.channel(sigma), the number of Kraus operators multiplies and trace preservation is kept; the n-fold channel on a product state is the product of the outputs.", "quantifier": "every pair of Kraus lists, every rho, sigma and n. A history is any sequence of calls for positive numbers of uses, whether or not they raised; of a sparse channel one use is asked for only if no earlier call asked for several (C27).", "why_tests_cant": "continuous input space, all dimensions and n", "anchors": ["PyQCodes/chan/_kraus.py:DenseKraus.parallel_concatenate", "PyQCodes/chan/_kraus.py:SparseKraus.parallel_concatenate", "PyQCodes/chan/_kraus.py:DenseKraus._tensor_kraus_operators"]}
{"id": "C27", "title": "update_kraus_operators is history independent", "statement": "After any sequence of update_kraus_operators calls ending in n the operators used are the n-fold tensor products, independent of the earlier calls.", "quantifier": "every finite sequence of positive n, dense and sparse objects", "why_tests_cant": "quantifies over histories", "anchors": ["PyQCodes/chan/_kraus.py:Kraus.update_kraus_operators"]}
{"id": "C28", "title": "Sparse and dense channels agree", "statement": "A channel built with sparse=True and one built with sparse=False from the same operators give equal channel, adjoint, entropy exchange and fidelity results.", "quantifier": "every Kraus list, rho and n. A history is any sequence of calls for positive numbers of uses, whether or not they raised; of a sparse channel one use is asked for only if no earlier call asked for several (C27).", "why_tests_cant": "continuous input space", "anchors": ["PyQCodes/chan/_kraus.py:SparseKraus", "PyQCodes/chan/_kraus.py:DenseKraus"]}
{"id": "C29", "title": "Entropy exchange matrix", "statement": "entropy_exchange returns the matrix W_ij = trace(K_i rho K_j^dagger); its trace is that of channel(rho) and it is Hermitian/positive if rho is.", "quantifier": "every Kraus list and rho. A history is any sequence of calls for positive numbers of uses, whether or not they raised; of a sparse channel one use is asked for only if no earlier call asked for several (C27). Dense channels are those without orthogonal_krauss groups (for these see C30).", "why_tests_cant": "continuous input space", "anchors": ["PyQCodes/chan/_kraus.py:DenseKraus.entropy_exchange", "PyQCodes/chan/_kraus.py:SparseKraus.entropy_exchange"]}
{"id": "C30", "title": "orthogonal_kraus speed-up gives the same spectrum", "statement": "When the Kraus operators split into mutually orthogonal groups, the blocks returned with orthogonal_kraus cover the diagonal blocks of the full entropy exchange matrix.", "quantifier": "every split and every n. A history is any sequence of calls for positive numbers of uses, whether or not they raised; of a sparse channel one use is asked for only if no earlier call asked for several (C27).", "why_tests_cant": "tested split hides an index slip", "anchors": ["PyQCodes/chan/_kraus.py:DenseKraus.entropy_exchange"]}
{"id": "C31", "title": "Kraus average entanglement fidelity", "statement": "average_entanglement_fidelity returns sum_i p_i sum_K |trace(K rho_i)|^2.", "quantifier": "every ensemble and channel", "why_tests_cant": "continuous input space", "anchors": ["PyQCodes/chan/_kraus.py:DenseKraus.average_entanglement_fidelity", "PyQCodes/chan/_kraus.py:SparseKraus.average_entanglement_fidelity"]}
{"id": "C32", "title": "Dimensions of composed channels", "statement": "For every two channels whose dimensions match, + and * construct a channel with the input dimension of the inner and output dimension of the outer one (for *, the products).", "quantifier": "all channel dimensions and qubit numbers", "why_tests_cant": "assertions fail only for unequal numbers of qubits", "anchors": ["PyQCodes/chan/_kraus.py:DenseKraus.__add__", "PyQCodes/chan/_kraus.py:DenseKraus.__mul__", "PyQCodes/chan/channel.py:AnalyticQChan.__add__", "PyQCodes/chan/channel.py:AnalyticQChan.__mul__"]}
{"id": "C33", "title": "Choi and Kraus descriptions agree", "statement": "For a Choi matrix sum_K vec(K) vec(K)^dagger, the Choi channel equals the Kraus channel; kraus_operators of a positive Choi matrix reproduces the matrix (above the cut-off) and hence the channel, for every eigenbasis; trace preservation is equivalent to the partial trace over the output being the identity.", "quantifier": "every Choi matrix with equal numbers of input and output particles, every rho. A history is any sequence of calls for positive numbers of uses, whether or not they raised; of a sparse channel one use is asked for only if no earlier call asked for several (C27).", "why_tests_cant": "continuous input space", "anchors": ["PyQCodes/chan/_choi.py:ChoiQutip.channel", "PyQCodes/chan/_choi.py:ChoiQutip.kraus_operators", "PyQCodes/chan/_choi.py:ChoiQutip.constraint_partial_trace"]}
{"id": "C34", "title": "Choi complementary channel has the entropy-exchange spectrum", "statement": "complementary_channel(rho) of a Choi matrix and entropy_exchange(rho) of Kraus operators of the same channel have the same non-zero spectrum, so both give the same coherent information.", "quantifier": "every channel and density matrix; for the coherent information equal numbers of input and output particles (for others see C118). A history is any sequence of calls for positive numbers of uses, whether or not they raised; of a sparse channel one use is asked for only if no earlier call asked for several (C27). Dense channels are those without orthogonal_krauss groups (for these see C30).", "why_tests_cant": "continuous input space", "anchors": ["PyQCodes/chan/_choi.py:ChoiQutip.complementary_channel", "PyQCodes/chan/channel.py:AnalyticQChan.coherent_information"]}
{"id": "C35", "title": "Choi average entanglement fidelity", "statement": "average_entanglement_fidelity of a Choi matrix equals sum_i p_i sum_K |trace(K rho_i)|^2 for Hermitian rho_i, lies in [0,1] for states and trace preserving channels, and raises ValueError exactly when input and output dimensions differ.", "quantifier": "every ensemble and Choi matrix", "why_tests_cant": "continuous input space", "anchors": ["PyQCodes/chan/_choi.py:ChoiQutip.average_entanglement_fidelity"]}
{"id": "C36", "title": "Parameterisations give density matrices", "statement": "rho_from_vec of OverParam and CholeskyParam returns a Hermitian positive semidefinite matrix of trace one and rank at most the requested rank for every vector with non-zero norm; StandardBasis returns a Hermitian matrix.", "quantifier": "every real parameter vector of the documented length", "why_tests_cant": "continuous input space", "anchors": ["PyQCodes/chan/param.py:OverParam.rho_from_vec", "PyQCodes/chan/param.py:CholeskyParam.rho_from_vec", "PyQCodes/chan/param.py:StandardBasis.rho_from_vec"]}
{"id": "C37", "title": "Parameterisation round trips", "statement": "vec_from_rho followed by rho_from_vec returns the density matrix (of the requested rank); for StandardBasis both round trips hold.", "quantifier": "every density matrix, every eigenbasis choice", "why_tests_cant": "continuous input space; order of components matters only from size three", "anchors": ["PyQCodes/chan/param.py:OverParam.vec_from_rho", "PyQCodes/chan/param.py:CholeskyParam.vec_from_rho", "PyQCodes/chan/param.py:StandardBasis.vec_from_rho"]}
{"id": "C38", "title": "Parameter counts, bounds and random vectors are consistent", "statement": "bounds and random_vectors have exactly numb_variables entries, and numb_variables is the length rho_from_vec consumes.", "quantifier": "every size and rank", "why_tests_cant": "all sizes", "anchors": ["PyQCodes/chan/param.py:OverParam.bounds", "PyQCodes/chan/param.py:CholeskyParam.bounds", "PyQCodes/chan/param.py:CholeskyParam.numb_variables", "PyQCodes/chan/param.py:CholeskyParam.random_vectors"]}
{"id": "C39", "title": "Optimisers report the value of the state they return", "statement": "optimal_val is the objective evaluated at optimal_rho, and is the best over the samples tried.", "quantifier": "every optimiser behaviour and every sample list", "why_tests_cant": "optimiser results are arbitrary", "anchors": ["PyQCodes/chan/_coherent.py:optimize_procedure", "PyQCodes/chan/_coherent.py:_use_multi_processes", "PyQCodes/chan/_coherent.py:_optimize_samples_slsqp"]}
{"id": "C40", "title": "Lipschitz sampler invariants", "statement": "The sampler returns at most the requested number of samples (at least one), each generated by the sampler, reports success exactly when the requested number was found, and the reported function evaluations are those of the samples returned.", "quantifier": "every random stream, objective and limits", "why_tests_cant": "quantifies over random streams", "anchors": ["PyQCodes/_optimize.py:initial_guesses_lipschitz"]}
{"id": "C41", "title": "Optimisation option checks", "statement": "optimize_coherent and optimize_fidelity raise TypeError for an unknown parameterisation or optimizer and AssertionError for an inadmissible use_pool, lipschitz or samples; every admissible combination is accepted. True and False count as one and zero.", "quantifier": "every combination of options", "why_tests_cant": "all combinations", "anchors": ["PyQCodes/chan/_coherent.py:optimize_procedure", "PyQCodes/chan/channel.py:AnalyticQChan.optimize_coherent"]}
{"id": "C42", "title": "Approximate two-design is undone by its inverse", "statement": "Applying inverse_of_unitary_two_design with the record returned by approximate_unitary_two_design restores every state exactly, for every random draw.", "quantifier": "every register size, every number of repetitions, every random draw and state", "why_tests_cant": "random schedule and continuous state space", "anchors": ["PyQCodes/device_adaptor.py:ProjectQDeviceAdaptor.approximate_unitary_two_design", "PyQCodes/device_adaptor.py:ProjectQDeviceAdaptor.inverse_of_unitary_two_design"]}
{"id": "C43", "title": "Fidelity estimate is a frequency and is one for the identity channel", "statement": "estimate_average_fidelity is between 0 and 1 for every channel and random draw, equals 1 for the identity channel, and raises ZeroDivisionError for zero trials.", "quantifier": "every channel, number of trials and random draws", "why_tests_cant": "random schedule", "anchors": ["PyQCodes/device_adaptor.py:ProjectQDeviceAdaptor.estimate_average_fidelity", "PyQCodes/find_codes.py:QDeviceChannel.estimate_average_fidelity_channel"]}
{"id": "C44", "title": "Effective channel of a stabilizer code is trace preserving", "statement": "The Kraus operators built by effective_channel_with_stabilizers from a trace preserving Pauli channel and an isometric encoder are trace preserving, and the guards raise TypeError exactly for unsupported options.", "quantifier": "every code and Pauli channel. Codes are given by independent 0/1 generators with even numbers of Ys.", "why_tests_cant": "continuous input space", "anchors": ["PyQCodes/find_codes.py:effective_channel_with_stabilizers"]}
{"id": "C45", "title": "Entropy and coherent information bounds", "statement": "entropy of a density matrix is non-negative and at most log2 of the dimension (up to the eigenvalue cut-off); coherent information is entropy of the output minus entropy of the exchange matrix and is at most log2 of the output dimension.", "quantifier": "every density matrix. A history is any sequence of calls for positive numbers of uses, whether or not they raised; of a sparse channel one use is asked for only if no earlier call asked for several (C27). Dense channels are those without orthogonal_krauss groups (for these see C30). The bounds on the coherent information are for channels that preserve the trace exactly; the constructor also accepts small deviations (C94, C121).", "why_tests_cant": "continuous input space", "anchors": ["PyQCodes/chan/channel.py:AnalyticQChan.entropy", "PyQCodes/chan/channel.py:AnalyticQChan.coherent_information"]}
{"id": "C46", "title": "Decoder optimisation problem is the average fidelity problem", "statement": "The semidefinite programme set up for the decoder has as feasible points exactly the Choi matrices of recoveries and as objective the average entanglement fidelity.", "quantifier": "every encoder and channel", "why_tests_cant": "continuous input space", "anchors": ["PyQCodes/avgfid/avg_fidelity.py:_optimize_average_entang_fid", "PyQCodes/avgfid/avg_fidelity.py:optimize_decoder_stabilizers"]}
{"id": "C47", "title": "decoding_circuit returns each qubit once", "statement": "The list returned by decoding_circuit is the register followed by the k ancillas, each qubit once; with deallocate_nqubits it is the list of the k ancillas.", "quantifier": "every code, both ways of supplying ancillas, both values of deallocate_nqubits", "why_tests_cant": "every code size and option combination", "anchors": ["PyQCodes/codes.py:StabilizerCode.decoding_circuit"]}
{"id": "C48", "title": "apply_stabilizer_circuit applies the Pauli operator", "statement": "Given a stabilizer as a 0/1 row or as a Pauli string, apply_stabilizer_circuit applies the corresponding Pauli operator to the register, up to a power of i equal to the number of Y's.", "quantifier": "every stabilizer in either representation, every register state", "why_tests_cant": "continuous state space and all operators", "anchors": ["PyQCodes/codes.py:StabilizerCode.apply_stabilizer_circuit"]}
{"id": "C49", "title": "Coherent information of pure states and of isometries", "statement": "coherent_information of a pure state is zero for every channel, and coherent_information of a channel with a single Kraus operator equals the entropy of the input state.", "quantifier": "every pure state, every channel, every number of uses, both storage kinds, every history of calls. A history is any sequence of calls for positive numbers of uses, whether or not they raised; of a sparse channel one use is asked for only if no earlier call asked for several (C27). Dense channels are those without orthogonal_krauss groups (for these see C30). The second claim is for channels that preserve the trace exactly; the constructor also accepts small deviations (C94, C121).", "why_tests_cant": "continuous input space, unbounded number of uses", "anchors": ["PyQCodes/chan/channel.py:AnalyticQChan.coherent_information", "PyQCodes/chan/channel.py:AnalyticQChan.entropy"]}
{"id": "C50", "title": "fidelity_two_states is the fidelity", "statement": "fidelity_two_states(rho, n) returns tr sqrt(sqrt(rho) N(rho) sqrt(rho)) for the n-fold channel N; for density matrices and trace preserving channels it lies in [0, 1], it is 1 when N(rho) = rho, and for a pure state psi it is sqrt(<psi|N(psi)|psi>). If the input and output dimensions differ it raises ValueError.", "quantifier": "every channel with equal input and output dimension, every state, every number of uses, both storage kinds, every history of calls. A history is any sequence of calls for positive numbers of uses, whether or not they raised; of a sparse channel one use is asked for only if no earlier call asked for several (C27). Objects built from a Choi matrix have equal numbers of input and output particles (for others see C118).", "why_tests_cant": "continuous input space, unbounded number of uses", "anchors": ["PyQCodes/chan/channel.py:AnalyticQChan.fidelity_two_states"]}
{"id": "C51", "title": "The optimisers return a state and a value in range", "statement": "optimal_rho of optimize_coherent and optimize_fidelity is a density matrix on the input space of n uses with rank at most the requested rank (one for the fidelity); the reported fidelity lies in [0, 1] and the reported coherent information between -n log2(number of operators) and n log2(output dimension). The ranges are those of 'diffev' and of 'slsqp' with a pool; 'slsqp' without a pool reports something else (C39).", "quantifier": "every channel, history, optimiser behaviour, random stream and named parameterisation. A history is any sequence of calls for positive numbers of uses, whether or not they raised; of a sparse channel one use is asked for only if no earlier call asked for several (C27). Dense channels are those without orthogonal_krauss groups (for these see C30). The ranges are for channels that preserve the trace exactly; the constructor also accepts small deviations (C94, C121).", "why_tests_cant": "optimiser results are arbitrary", "anchors": ["PyQCodes/chan/channel.py:AnalyticQChan.optimize_coherent", "PyQCodes/chan/channel.py:AnalyticQChan.optimize_fidelity", "PyQCodes/chan/_coherent.py:optimize_procedure"]}
{"id": "C52", "title": "Optimised encoder and decoder reach the reported value", "statement": "optimize_encoder_decoder_average_fidelity raises AssertionError for a wrong number of bounds and ValueError for an unknown optimizer; otherwise it returns encoder and decoder parameters whose estimated average fidelity is the reported optimal value.", "quantifier": "every channel, encoder and decoder circuit, number of parameters, bounds, number of trials and random draws", "why_tests_cant": "the optimiser and the random draws range over unbounded histories", "anchors": ["PyQCodes/find_codes.py:QDeviceChannel.optimize_encoder_decoder_average_fidelity"]}
{"id": "C53", "title": "Every trial of the fidelity estimate starts from the zero state", "statement": "The estimate is the fraction of trials that end with all zero outcomes, where every trial starts in the all zero state whatever the earlier trials left in the register.", "quantifier": "every channel, number of trials, initial register, random draws and measurement outcomes", "why_tests_cant": "depends on the whole history of outcomes", "anchors": ["PyQCodes/device_adaptor.py:ProjectQDeviceAdaptor.estimate_average_fidelity", "PyQCodes/device_adaptor.py:ProjectQDeviceAdaptor.set_register_to_zero"]}
{"id": "C54", "title": "The two-design circuit alternates random phases and Hadamard transforms", "statement": "approximate_unitary_two_design applies 2*ceil(log2(1/epsilon)/N)+1 rounds; each round multiplies every basis state with the phase given by the drawn single-qubit angles (0, 2pi/3, 4pi/3) and pair angles (0, pi), then applies the Hadamard transform of all qubits.", "quantifier": "every register size, epsilon, draws and state", "why_tests_cant": "all states, sizes and draws", "anchors": ["PyQCodes/device_adaptor.py:ProjectQDeviceAdaptor.approximate_unitary_two_design"]}
{"id": "C55", "title": "The random phases of a round form an exact diagonal two-design", "statement": "Averaged over uniform draws, the second moment exp i(t(x)+t(y)-t(x')-t(y')) of the phases t drawn in a round is one if {x',y'}={x,y} and zero otherwise, exactly as for independent uniform phases on all basis states.", "quantifier": "every register size and all basis states x, y, x', y'", "why_tests_cant": "average over exponentially many draws for every size", "anchors": ["PyQCodes/device_adaptor.py:ProjectQDeviceAdaptor.approximate_unitary_two_design"]}
{"id": "C56", "title": "The effective channel contains the correction", "statement": "effective_channel_with_stabilizers returns the channel encode, noise, correct: for a Pauli error that the code detects, the corrected Kraus operator brings the encoded state back to the code space, so that the effective channel is less noisy than encoding followed by the noise alone.", "quantifier": "every code with one logical qubit, every Pauli channel, every input state. Codes are given by independent 0/1 generators with even numbers of Ys, channels preserve the trace exactly.", "why_tests_cant": "infinitely many codes, channels and states; the object returned is always a valid channel, so shape and trace checks pass", "anchors": ["PyQCodes/find_codes.py:effective_channel_with_stabilizers", "PyQCodes/codes.py:StabilizerCode.kraus_operators_correcting_errors"]}
{"id": "C57", "title": "Measuring an operator on any state", "statement": "single_syndrome_measurement of a Pauli operator on an arbitrary state of the register, code state or not, is the projective measurement of that operator: result r is read with probability |(1 + (-1)^r S)/2 phi|^2 and the register is left in that projection, normalised.", "quantifier": "every valid stabilizer argument (string or 0/1 row), every normalised state of n qubits, both results", "why_tests_cant": "a continuum of states; simulators return one random result per run", "anchors": ["PyQCodes/codes.py:StabilizerCode.single_syndrome_measurement"]}
{"id": "C58", "title": "Measuring commuting operators projects to a joint eigenspace", "statement": "After single_syndrome_measurement of any list of pairwise commuting operators with even numbers of Y's, each with a fresh ancilla, on any state, the register is in a joint eigenstate whose signs are the results read; measuring the list again returns the same results with certainty and leaves the state unchanged.", "quantifier": "every list of operators, every initial state, every history of results", "why_tests_cant": "the results are random and the histories unbounded in length", "anchors": ["PyQCodes/codes.py:StabilizerCode.single_syndrome_measurement"]}
{"id": "C59", "title": "Logical operators are complete", "statement": "Every Pauli operator that commutes with all rows of the normal form is, up to phase, a product of rows and of the logical operators; which logical operators occur is determined by its commutation with the logical operators.", "quantifier": "every accepted code with independent generators, every Pauli operator", "why_tests_cant": "4^n operators for every n", "anchors": ["PyQCodes/codes.py:StabilizerCode.logical_operators", "PyQCodes/codes.py:StabilizerCode.__iter__"]}
{"id": "C60", "title": "Encoded states span the code", "statement": "A state is fixed by every row of the normal form iff it is a superposition, with unique coefficients, of the 2^k states prepared by encoding_circuit.", "quantifier": "every accepted code with independent generators with even numbers of Y's, every state of n qubits", "why_tests_cant": "a continuum of states, all n and k", "anchors": ["PyQCodes/codes.py:StabilizerCode.encoding_circuit"]}
{"id": "C61", "title": "When a correction restores the state", "statement": "After encode, Pauli error e and apply_stabilizer_circuit with the operator r, every encoded superposition is restored up to one global phase iff e and r differ by an element of the group of the normal form; decoding_circuit then delivers the logical state to the ancillas.", "quantifier": "every accepted code with independent generators with even numbers of Y's, every error, every correction, every logical state", "why_tests_cant": "every error and correction for every code; a wrong correction acts as a logical operator, which is invisible to the syndromes", "anchors": ["PyQCodes/codes.py:StabilizerCode.apply_stabilizer_circuit", "PyQCodes/codes.py:StabilizerCode.encoding_circuit", "PyQCodes/codes.py:StabilizerCode.decoding_circuit"]}
{"id": "C62", "title": "Syndromes identify errors up to undetectable ones", "statement": "Measuring all rows of the normal form on an encoded superposition with a Pauli error returns the commutation signs of the error with the rows, whatever the superposition, and does not disturb the state; two errors give the same results iff their product commutes with every row.", "quantifier": "every accepted code with independent generators with even numbers of Y's, all pairs of errors, all normalised logical states, all histories", "why_tests_cant": "all errors, states and random results", "anchors": ["PyQCodes/codes.py:StabilizerCode.single_syndrome_measurement", "PyQCodes/codes.py:StabilizerCode.encoding_circuit"]}
{"id": "C63", "title": "The two encoders agree", "statement": "The columns of encode_krauss_operators and the states prepared by encoding_circuit span the same code space.", "quantifier": "every accepted code with independent generators with even numbers of Y's, every eigensolver result", "why_tests_cant": "depends on the whole elimination; the simplest codes agree", "anchors": ["PyQCodes/codes.py:StabilizerCode.encode_krauss_operators", "PyQCodes/codes.py:StabilizerCode.encoding_circuit"]}
{"id": "C64", "title": "normalizer and undetectable_errors list the undetectable Pauli operators", "statement": "normalizer returns the binary rows, and undetectable_errors the Pauli strings, of exactly the Pauli operators that commute with every generator and are not in the group of the generators, each once.", "quantifier": "every constructed code", "why_tests_cant": "4^n rows for every n and every code; the tests never call either function", "anchors": ["PyQCodes/codes.py:StabilizerCode.normalizer", "PyQCodes/codes.py:StabilizerCode.undetectable_errors"]}
{"id": "C65", "title": "generator_set_pauli_elements generates all Pauli operators", "statement": "generator_set_pauli_elements returns 2n rows, the single qubit X's followed by the single qubit Z's, and every binary row is the mod 2 sum of exactly one subset of them.", "quantifier": "every code, every n, every Pauli operator", "why_tests_cant": "ranges over all n and all 4^n Pauli operators", "anchors": ["PyQCodes/codes.py:StabilizerCode.generator_set_pauli_elements"]}
{"id": "C66", "title": "Coherent information belongs to the channel, not to its Kraus operators", "statement": "Two channel objects built from different Kraus operators of the same map, dense or sparse and after any earlier calls, return the same coherent_information for every state and number of uses.", "quantifier": "all pairs of Kraus families (of different sizes) that define the same map, all density matrices, all numbers of uses, all histories, all eigensolvers. A history is any sequence of calls for positive numbers of uses, whether or not they raised; of a sparse channel one use is asked for only if no earlier call asked for several (C27). Dense channels are those without orthogonal_krauss groups (for these see C30).", "why_tests_cant": "ranges over all representations of a map and all states", "anchors": ["PyQCodes/chan/channel.py:AnalyticQChan.coherent_information", "PyQCodes/chan/_kraus.py:Kraus.entropy_exchange"]}
{"id": "C67", "title": "Coherent information is bounded by the input entropy", "statement": "coherent_information(rho, n) lies between minus the entropy of rho and the entropy of rho (data processing and its dual), hence at most n log2 of the input dimension, up to the cut-off of small eigenvalues.", "quantifier": "all trace preserving Kraus channels, all density matrices, all numbers of uses, all histories, all eigensolvers. A history is any sequence of calls for positive numbers of uses, whether or not they raised; of a sparse channel one use is asked for only if no earlier call asked for several (C27). Dense channels are those without orthogonal_krauss groups (for these see C30).", "why_tests_cant": "an inequality (subadditivity of the entropy) over all channels and states", "anchors": ["PyQCodes/chan/channel.py:AnalyticQChan.coherent_information", "PyQCodes/chan/channel.py:AnalyticQChan.entropy"]}
{"id": "C68", "title": "Decoding and discarding the code qubits", "statement": "decoding_circuit with deallocate_nqubits=True measures exactly the n code qubits and returns the k ancillas; whatever is read, the ancillas are left in the logical state that was encoded, the readings carry no information about it, and the caller's register no longer holds the discarded qubits.", "quantifier": "every accepted code, every superposition of encoded states, every sequence of measurement results, both ways of supplying the ancillas. Generators are 0/1 and independent.", "why_tests_cant": "measurement results are random; ranges over all codes and superpositions", "anchors": ["PyQCodes/codes.py:StabilizerCode.decoding_circuit"]}
{"id": "C69", "title": "Coherent information of product states is additive", "statement": "coherent_information of n uses on a tensor product of n states is the sum of the values of one use on each; with regularized=True and n copies of one state it is the value of one use (up to the cut-off of small eigenvalues).", "quantifier": "all trace preserving Kraus channels, all n, all product states, all histories, all eigensolvers. A history is any sequence of calls for positive numbers of uses, whether or not they raised; of a sparse channel one use is asked for only if no earlier call asked for several (C27). Dense channels are those without orthogonal_krauss groups (for these see C30).", "why_tests_cant": "ranges over all channels, states and n", "anchors": ["PyQCodes/chan/channel.py:AnalyticQChan.coherent_information"]}
{"id": "C70", "title": "Logical operators supplied by the caller", "statement": "A code built with logical_ops=[LX, LZ], where these are logical operators of the code, behaves like the code built without them: LX and LZ are checked and stored, encoding_circuit still encodes into the code, and logical_circuit acts as the logical X and Z.", "quantifier": "every accepted code, every pair of arrays, every basis state. Logical operators are those of the first ten encoded qubits, as logical_circuit can name no others (C14).", "why_tests_cant": "ranges over all codes and all equivalent choices of logical operators; the documented example happens to work", "anchors": ["PyQCodes/codes.py:StabilizerCode.__init__", "PyQCodes/codes.py:StabilizerCode.encoding_circuit", "PyQCodes/codes.py:StabilizerCode.logical_circuit"]}
{"id": "C71", "title": "A channel does not depend on the array it was built from", "statement": "After AnalyticQChan(operator, ...) has been built, changing the entries of the array that was passed has no effect on any later result of the channel.", "quantifier": "every trace preserving family of operators given as a list or an array, dense or sparse, every sequence of calls and writes", "why_tests_cant": "ranges over all interleavings of calls with writes by the caller", "anchors": ["PyQCodes/chan/channel.py:AnalyticQChan.__init__", "PyQCodes/chan/_kraus.py:DenseKraus.__init__", "PyQCodes/chan/_kraus.py:Kraus.update_kraus_operators"]}
{"id": "C72", "title": "The Kraus encoder has 2^k columns in the code space", "statement": "For every code the constructor accepts, encode_krauss_operators returns an isometry with 2^k columns that span the common +1 eigenspace of the generators.", "quantifier": "every accepted list of generators, independent or not, every eigensolver", "why_tests_cant": "ranges over all generator lists, including dependent ones and ones with odd numbers of Y's, which the tests avoid", "anchors": ["PyQCodes/codes.py:StabilizerCode.encode_krauss_operators", "PyQCodes/codes.py:StabilizerCode.__init__"]}
{"id": "C73", "title": "A table of corrections exists exactly when confusable errors differ by a stabilizer", "statement": "Encode, let an error act, call single_syndrome_measurement on every row iterating over the code yields, look the results up in a table of binary rows, call apply_stabilizer_circuit with the row found and decode. Some table makes this give back every logical state (up to one factor of modulus one per error) for every error of a set exactly when any two errors of the set that give the same results differ by an operator of the group the rows generate. In particular, if every operator on at most 2t qubits that commutes with all rows is in the group, one table undoes every error on at most t qubits.", "quantifier": "every accepted code with independent generators that contain an even number of Y's, every set of Pauli errors, every logical superposition, every sequence of measurement results", "why_tests_cant": "ranges over all codes, all sets of errors and all tables; the negative direction excludes every table", "anchors": ["PyQCodes/codes.py:StabilizerCode.single_syndrome_measurement", "PyQCodes/codes.py:StabilizerCode.apply_stabilizer_circuit", "PyQCodes/codes.py:StabilizerCode.encoding_circuit", "PyQCodes/codes.py:StabilizerCode.decoding_circuit", "PyQCodes/codes.py:StabilizerCode.__iter__"]}
{"id": "C74", "title": "The constructor rejects generators that do not match n and k", "statement": "StabilizerCode(gens, n, k) raises AssertionError unless gens are n - k generators, each on n qubits; in particular no letter of a supplied string is ignored.", "quantifier": "every list of strings or of rows, every n and k, with and without supplied logical operators", "why_tests_cant": "ranges over every shape of input; what happens to a wrong shape depends on ranks and slices inside the normal form", "anchors": ["PyQCodes/codes.py:StabilizerCode.__init__", "PyQCodes/codes.py:StabilizerCode._gaussian_elimination_first_block", "PyQCodes/codes.py:StabilizerCode._gaussian_elimination_second_block", "PyQCodes/codes.py:StabilizerCode._logical_operators"]}
{"id": "C75", "title": "The estimate of the average fidelity is right on average up to epsilon", "statement": "On a simulator whose random draws are uniform and whose measurements follow the Born rule, the expected value of estimate_average_fidelity(channel, ntimes, epsilon) differs from the average fidelity of the channel over all pure states by at most epsilon squared, which is at most epsilon for epsilon up to one.", "quantifier": "every number of qubits, every channel with Kraus operators, every epsilon > 0, every number of trials, every dependence between trials, every state of the register at the start", "why_tests_cant": "a statement about an average over all draws and a continuum of states, for all channels and register sizes", "anchors": ["PyQCodes/device_adaptor.py:ProjectQDeviceAdaptor.estimate_average_fidelity", "PyQCodes/device_adaptor.py:ProjectQDeviceAdaptor.approximate_unitary_two_design", "PyQCodes/device_adaptor.py:ProjectQDeviceAdaptor.inverse_of_unitary_two_design"]}
{"id": "C76", "title": "More trials bring the estimate of the average fidelity closer to the truth", "statement": "With pairwise independent trials, estimate_average_fidelity(channel, n, epsilon) differs from the average fidelity of the channel by epsilon squared plus a, or more, with probability at most 1/(4 n a^2).", "quantifier": "every number of qubits, channel, epsilon > 0, number of trials and a > 0", "why_tests_cant": "a bound on the probability of rare results for all channels and numbers of trials", "anchors": ["PyQCodes/device_adaptor.py:ProjectQDeviceAdaptor.estimate_average_fidelity", "PyQCodes/device_adaptor.py:ProjectQDeviceAdaptor.approximate_unitary_two_design"]}
{"id": "C77", "title": "The estimated and the computed fidelity of a channel agree", "statement": "For a channel on n qubits with Choi matrix C, let v be the value of average_entanglement_fidelity([1], [I/2^n]) of the channel built from C. Then (2^n v + 1)/(2^n + 1) is the average fidelity over all pure states, and the expected value of estimate_average_fidelity(channel, ntimes, epsilon) on a simulator is within epsilon squared of it.", "quantifier": "every channel on n qubits, every n, epsilon > 0 and number of trials. The channels preserve the trace exactly.", "why_tests_cant": "compares an average over random circuits and measurements with a trace formula for all channels", "anchors": ["PyQCodes/chan/_choi.py:ChoiQutip.average_entanglement_fidelity", "PyQCodes/device_adaptor.py:ProjectQDeviceAdaptor.estimate_average_fidelity"]}
{"id": "C78", "title": "Further noise never raises the coherent information", "statement": "For trace preserving channels s and o whose sum s + o (first o, then s) is accepted, coherent_information(rho, n) of s + o is at most coherent_information(rho, n) of o, up to 4e-9 for every eigenvalue below the cut-off of the code.", "quantifier": "every pair of channels (dense or sparse, after any sequence of calls), every density matrix and number of uses n. A history is any sequence of calls for positive numbers of uses, whether or not they raised; of a sparse channel one use is asked for only if no earlier call asked for several (C27). Dense channels are those without orthogonal_krauss groups (for these see C30).", "why_tests_cant": "the quantum data processing inequality, equivalent to strong subadditivity of entropy, for all channels and states", "anchors": ["PyQCodes/chan/channel.py:AnalyticQChan.__add__", "PyQCodes/chan/channel.py:AnalyticQChan.coherent_information"]}
{"id": "C79", "title": "A channel that a decoder undoes has coherent information equal to the entropy of the input", "statement": "If a trace preserving channel r satisfies r.channel(o.channel(x, n), n) = x for every x, then coherent_information(rho, n) of o is entropy(rho) for every density matrix, up to the cut-off of small eigenvalues. So a smaller value proves that no decoder exists.", "quantifier": "every channel o and r (after any sequence of calls), density matrix and number of uses n. A history is any sequence of calls for positive numbers of uses, whether or not they raised; of a sparse channel one use is asked for only if no earlier call asked for several (C27). Dense channels are those without orthogonal_krauss groups (for these see C30).", "why_tests_cant": "a statement about all possible decoders", "anchors": ["PyQCodes/chan/channel.py:AnalyticQChan.coherent_information", "PyQCodes/chan/channel.py:AnalyticQChan.channel"]}
{"id": "C80", "title": "Channels that keep the identity never lower the entropy", "statement": "If n uses of a trace preserving channel map the identity matrix to itself, then entropy(channel(rho, n)) is at least entropy(rho) for every density matrix rho, up to the cut-off of small eigenvalues.", "quantifier": "every unital channel, every density matrix and number of uses. A history is any sequence of calls for positive numbers of uses, whether or not they raised; of a sparse channel one use is asked for only if no earlier call asked for several (C27).", "why_tests_cant": "an inequality between spectra for all channels and states", "anchors": ["PyQCodes/chan/channel.py:AnalyticQChan.channel", "PyQCodes/chan/channel.py:AnalyticQChan.entropy"]}
{"id": "C81", "title": "Which arguments AnalyticQChan accepts", "statement": "AnalyticQChan(operator, (a, b), dim_in, dim_out) accepts exactly: a nonempty list or a three-dimensional array of dim_out^b by dim_in^a matrices that preserve the trace up to 1e-5, or a two-dimensional array, taken for a Choi matrix, with dim_out^b dim_in^a columns that passes the checks of qutip; numb_qubits may be the documented tuple; everything else is refused with the documented exception, and every object that is constructed can be used.", "quantifier": "every operator argument (list, array of any dimension, sparse array, other object), every sequence numb_qubits, all dimensions, sparse or not", "why_tests_cant": "an exact characterisation over all arguments", "anchors": ["PyQCodes/chan/channel.py:AnalyticQChan.__init__", "PyQCodes/chan/_kraus.py:Kraus.__init__", "PyQCodes/chan/_choi.py:ChoiQutip.__init__"]}
{"id": "C82", "title": "The attributes of a channel describe the channel", "statement": "Whatever calls were made before, dim_in, dim_out, numb_qubits and kraus return what the channel was constructed with, input_dimension and output_dimension belong to the number of uses of the last call, and numb_krauss is the number of Kraus operators; for Choi matrices the attributes that need Kraus operators raise AssertionError.", "quantifier": "every channel of either kind and every sequence of calls. A history is any sequence of calls for positive numbers of uses, whether or not they raised; of a sparse channel one use is asked for only if no earlier call asked for several (C27).", "why_tests_cant": "all histories of calls", "anchors": ["PyQCodes/chan/channel.py:AnalyticQChan.numb_krauss", "PyQCodes/chan/channel.py:AnalyticQChan.input_dimension", "PyQCodes/chan/channel.py:AnalyticQChan.kraus"]}
{"id": "C83", "title": "Sums and products of Kraus and Choi channels", "statement": "For A given by Kraus operators and B given by a positive Choi matrix, A + B is the composition and A * B the tensor product, exactly when the Choi matrix has no eigenvalues in (0, 1e-8], and otherwise with a part R, 0 <= R <= 1e-8, of the Choi matrix missing; for any number of uses A + B does what A + B' does for any Kraus operators B' of B; exactly trace preserving channels with matching dimensions give a sum and (for one particle each) a product, dimensions that do not match give TypeError; a Choi channel on the left is refused with AssertionError.", "quantifier": "every Kraus channel after any calls, every positive Choi matrix, every eigenbasis that the eigenvalue routine may return, every rho. A history is any sequence of calls for positive numbers of uses, whether or not they raised; of a sparse channel one use is asked for only if no earlier call asked for several (C27). B may have any numbers of input and output particles; where B.channel itself is compared it has equally many of both (otherwise that call is wrong, C118).", "why_tests_cant": "continuous inputs, and the eigenbasis is not determined", "anchors": ["PyQCodes/chan/channel.py:AnalyticQChan.__add__", "PyQCodes/chan/channel.py:AnalyticQChan.__mul__", "PyQCodes/chan/_choi.py:ChoiQutip.kraus_operators"]}
{"id": "C84", "title": "The sparse option does not change the decoder optimisation", "statement": "optimize_decoder_stabilizers returns the same result with sparse=True as with sparse=False.", "quantifier": "every stabilizer code and every error channel. Codes are given by independent 0/1 generators with even numbers of Ys, channels preserve the trace exactly.", "why_tests_cant": "continuous input space; the option must not matter for any code or channel", "anchors": ["PyQCodes/avgfid/avg_fidelity.py:optimize_decoder_stabilizers", "PyQCodes/avgfid/avg_fidelity.py:_optimize_average_entang_fid", "PyQCodes/avgfid/avg_fidelity.py:_convert_sparse_matrix_into_cvx_opt"]}
{"id": "C85", "title": "The fidelity of product states multiplies and belongs to the channel", "statement": "fidelity_two_states of n uses on a tensor product of n states is the product of the values of one use on each (a power for copies of one state); A * B on a product state gives the product of the values of A and B; Kraus operators of the same map, dense or sparse, and the Choi matrix of the map give the same value, after any earlier calls.", "quantifier": "all Kraus channels with equal input and output dimension, all n, all positive semidefinite product states, all pairs of Kraus families of one map, all histories, all matrix square root routines. A history is any sequence of calls for positive numbers of uses, whether or not they raised; of a sparse channel one use is asked for only if no earlier call asked for several (C27). Objects built from a Choi matrix have equal numbers of input and output particles (for others see C118).", "why_tests_cant": "ranges over all channels, states, numbers of uses and histories", "anchors": ["PyQCodes/chan/channel.py:AnalyticQChan.fidelity_two_states", "PyQCodes/chan/channel.py:AnalyticQChan.__mul__"]}
{"id": "C86", "title": "The optimised value belongs to the channel", "statement": "optimize_coherent and optimize_fidelity return the same dictionary for two Kraus families of one map, dense or sparse, after any earlier calls, whenever the optimiser only sees objective values. For a channel given by its Choi matrix, more than one use raises AssertionError; one use returns the same dictionary as the Kraus channel of the same map, the reported state is a density matrix of rank at most the requested one, and the reported value is the coherent information (fidelity) of that state with 'diffev' and with 'slsqp' and a pool ('slsqp' without a pool reports something else, see C39).", "quantifier": "all pairs of Kraus families of one map, all Choi matrices of channels, all numbers of uses, ranks, parameterizations, optimiser behaviours, sample draws and histories. A history is any sequence of calls for positive numbers of uses, whether or not they raised; of a sparse channel one use is asked for only if no earlier call asked for several (C27). Dense channels are those without orthogonal_krauss groups (for these see C30). Objects built from a Choi matrix have equal numbers of input and output particles (for others see C118).", "why_tests_cant": "ranges over all channels, representations, optimiser behaviours and histories", "anchors": ["PyQCodes/chan/channel.py:AnalyticQChan.optimize_coherent", "PyQCodes/chan/channel.py:AnalyticQChan.optimize_fidelity", "PyQCodes/chan/_kraus.py:DenseKraus", "PyQCodes/chan/_choi.py:ChoiQutip"]}
{"id": "C87", "title": "Matrices of the wrong shape are refused", "statement": "coherent_information, fidelity_two_states, entropy_exchange (also its adjoint) and channel on batches raise ValueError for a matrix whose shape does not fit the channel, and never return a value computed from part of it.", "quantifier": "all Kraus channels, dense and sparse, all numbers of uses, all matrices of the wrong shape, all histories. A history is any sequence of calls for positive numbers of uses, whether or not they raised; of a sparse channel one use is asked for only if no earlier call asked for several (C27).", "why_tests_cant": "ranges over all channels and all wrong shapes", "anchors": ["PyQCodes/chan/channel.py:AnalyticQChan.entropy_exchange", "PyQCodes/chan/channel.py:AnalyticQChan.coherent_information", "PyQCodes/chan/channel.py:AnalyticQChan.fidelity_two_states", "PyQCodes/chan/_kraus.py:DenseKraus.entropy_exchange", "PyQCodes/chan/_kraus.py:SparseKraus.entropy_exchange"]}
{"id": "C88", "title": "A circuit builder that raises leaves the register as it was", "statement": "When encoding_circuit, apply_stabilizer_circuit, decoding_circuit, logical_circuit or single_syndrome_measurement raises, no gate has been sent, so the quantum state is the one before the call and the call can be repeated with corrected arguments.", "quantifier": "all codes, register lengths, states, rows, strings and names, every point at which a call can raise. Logical operators are those of the first ten encoded qubits, as logical_circuit can name no others (C14).", "why_tests_cant": "ranges over all inputs and every point at which the call can stop", "anchors": ["PyQCodes/codes.py:StabilizerCode.encoding_circuit", "PyQCodes/codes.py:StabilizerCode.apply_stabilizer_circuit", "PyQCodes/codes.py:StabilizerCode.decoding_circuit", "PyQCodes/codes.py:StabilizerCode.logical_circuit", "PyQCodes/codes.py:StabilizerCode.single_syndrome_measurement"]}
{"id": "C89", "title": "Encoding a superposition", "statement": "For an accepted code, encoding_circuit sent to a register whose last k qubits hold an arbitrary state and whose other qubits are zero gives the same superposition of encoded basis states: with zero bits it encodes that state, and with bits s it encodes the state with every basis label shifted by s.", "quantifier": "all accepted codes with binary independent generators, all states of k qubits, all bits", "why_tests_cant": "ranges over a continuum of states and all codes", "anchors": ["PyQCodes/codes.py:StabilizerCode.encoding_circuit"]}
{"id": "C90", "title": "The states of a concatenated code", "statement": "If concatenate_codes returns a code for an outer [n,k] code and an inner [m,1] code whose generators fix its two encoded states and whose logical X has no Z part, then the states fixed by all its generators are exactly those obtained from a state of the outer code by encoding each of its n qubits with encoding_circuit of the inner code, and inner products of states are kept.", "quantifier": "every such pair of codes with binary independent generators, the outer ones with even numbers of Y's; all states", "why_tests_cant": "ranges over a continuum of states and all pairs of codes", "anchors": ["PyQCodes/codes.py:StabilizerCode.concatenate_codes", "PyQCodes/codes.py:StabilizerCode.encoding_circuit"]}
{"id": "C91", "title": "Objects of the package's own parameterisations", "statement": "Passing the object CholeskyParam(), OverParam() or StandardBasis() as param to optimize_coherent or optimize_fidelity gives the same result as naming the parameterisation with a string.", "quantifier": "every channel, rank, optimizer, combination of options, stream of random numbers and behaviour of scipy", "why_tests_cant": "all combinations of options and all random draws", "anchors": ["PyQCodes/chan/param.py:OverParam.random_vectors", "PyQCodes/chan/param.py:StandardBasis.bounds", "PyQCodes/chan/_coherent.py:_get_parameterization_scheme_density"]}
{"id": "C92", "title": "The optimisers search exactly the states of the requested rank", "statement": "The vectors within bounds(nsize, rank) of OverParam and of CholeskyParam describe exactly the density matrices of rank at most rank, and every density matrix lies within the bounds of StandardBasis. Hence, whenever differential evolution ends at the minimum over its bounds, optimize_coherent reports the largest coherent information of all density matrices of that rank and optimize_fidelity the smallest fidelity of all pure states.", "quantifier": "every dimension, rank and density matrix; every channel, history, number of uses and behaviour of scipy that meets its contract. A history is any sequence of calls for positive numbers of uses, whether or not they raised; of a sparse channel one use is asked for only if no earlier call asked for several (C27). Dense channels are those without orthogonal_krauss groups (for these see C30).", "why_tests_cant": "the set of density matrices is infinite; a test can only try samples and cannot see a state that the bounds exclude", "anchors": ["PyQCodes/chan/param.py:OverParam.bounds", "PyQCodes/chan/param.py:CholeskyParam.bounds", "PyQCodes/chan/param.py:StandardBasis.bounds", "PyQCodes/chan/_coherent.py:optimize_procedure", "PyQCodes/chan/channel.py:AnalyticQChan.optimize_coherent", "PyQCodes/chan/channel.py:AnalyticQChan.optimize_fidelity"]}
{"id": "C93", "title": "The Lipschitz sampler discards no better draw", "statement": "The best of the samples returned by the sampler behind lipschitz=N is the best of all random states it has drawn: a draw that it discards unevaluated is never better than every sample it returns.", "quantifier": "every channel, number of uses, parameterisation, number of samples and tries, and stream of random numbers. A history is any sequence of calls for positive numbers of uses, whether or not they raised; of a sparse channel one use is asked for only if no earlier call asked for several (C27).", "why_tests_cant": "a discarded draw is never evaluated, so a test does not see that it was better; all random streams and channels", "anchors": ["PyQCodes/_optimize.py:initial_guesses_lipschitz", "PyQCodes/chan/_coherent.py:_objective_func_coherent", "PyQCodes/chan/_coherent.py:_objective_func_fidelity"]}
{"id": "C94", "title": "Trace error of an accepted channel", "statement": "Whatever operators AnalyticQChan accepts (its check has a tolerance), channel(rho, n) and entropy_exchange(rho, n) of a density matrix are positive semidefinite and their trace differs from one by at most (1 + D 1e-5)^n - 1, with D the dimension of the input of one use. The error does grow with n: an accepted qubit channel multiplies the trace by (1 + 8e-6 + 16e-12)^n.", "quantifier": "every accepted channel, dense or sparse, history of calls, number of uses and density matrix. A history is any sequence of calls for positive numbers of uses, whether or not they raised; of a sparse channel one use is asked for only if no earlier call asked for several (C27). Dense channels are those without orthogonal_krauss groups (for these see C30).", "why_tests_cant": "tests use exactly trace preserving channels and a few uses; the bound is over all operators within the tolerance and all n", "anchors": ["PyQCodes/chan/_kraus.py:is_trace_perserving", "PyQCodes/chan/channel.py:AnalyticQChan.__init__", "PyQCodes/chan/channel.py:AnalyticQChan.channel", "PyQCodes/chan/channel.py:AnalyticQChan.entropy_exchange"]}
{"id": "C95", "title": "Mixtures of states and of channels", "statement": "The entropy that the code computes for a mixture p A + (1-p) B of two density matrices is at least the mean of the two entropies and exceeds it by at most the entropy of the choice. If the outputs of one channel object are the mixtures of the outputs of two channel objects, its coherent information is at most the mean of theirs and falls short of it by at most the entropy of the choice. Both hold up to 4e-9 for each eigenvalue, the effect of the cut-off of small eigenvalues.", "quantifier": "all density matrices, weights p in [0,1], channels, histories of calls and numbers of uses with matching dimensions. A history is any sequence of calls for positive numbers of uses, whether or not they raised; of a sparse channel one use is asked for only if no earlier call asked for several (C27). Dense channels are those without orthogonal_krauss groups (for these see C30). The channels preserve the trace exactly.", "why_tests_cant": "an inequality between real numbers for all states and channels; a test sees single points", "anchors": ["PyQCodes/chan/channel.py:AnalyticQChan.entropy", "PyQCodes/chan/channel.py:AnalyticQChan.coherent_information"]}
{"id": "C96", "title": "Entanglement fidelity never exceeds the squared fidelity", "statement": "For a channel object built from a Choi matrix, average_entanglement_fidelity(probs, states) is at most the sum of probs[i] times the square of fidelity_two_states(states[i], 1), and equals it when all states are pure.", "quantifier": "all completely positive Choi matrices with equal input and output dimension, all ensembles of positive states with nonnegative weights. Objects built from a Choi matrix have equal numbers of input and output particles (for others see C118).", "why_tests_cant": "an inequality between two differently computed real numbers for all channels and states", "anchors": ["PyQCodes/chan/_choi.py:ChoiQutip.average_entanglement_fidelity", "PyQCodes/chan/channel.py:AnalyticQChan.fidelity_two_states"]}
{"id": "C97", "title": "A good minimum fidelity implies a good entanglement fidelity", "statement": "If fidelity_two_states of a trace preserving channel object built from a Choi matrix is at least f for every pure state, then average_entanglement_fidelity of every ensemble of density matrices is at least 1 - 3/2 (1 - f^2).", "quantifier": "all trace preserving Choi matrices with equal input and output dimension, all f >= 0, all ensembles of density matrices. Objects built from a Choi matrix have equal numbers of input and output particles (for others see C118).", "why_tests_cant": "the hypothesis ranges over all pure states and the conclusion over all ensembles", "anchors": ["PyQCodes/chan/_choi.py:ChoiQutip.average_entanglement_fidelity", "PyQCodes/chan/channel.py:AnalyticQChan.fidelity_two_states", "PyQCodes/chan/channel.py:AnalyticQChan.optimize_fidelity"]}
{"id": "C98", "title": "Correcting Pauli errors corrects arbitrary errors on the same qubits", "statement": "Encode, let noise act, call single_syndrome_measurement on every row iterating over the code yields, look the results up in a table, call apply_stabilizer_circuit with the row found and decode. If the table undoes each of a set of Pauli errors, it undoes every linear combination of them whatever results are read; so if no operator on at most 2t qubits is undetectable except the stabilizers, some table undoes every noise operator, unitary or not, on at most t qubits.", "quantifier": "all accepted codes with independent generators with even numbers of Y's, all tables, all noise operators in the span, all logical superpositions, all measurement results of non-zero probability", "why_tests_cant": "a continuum of noise operators and states and all measurement results", "anchors": ["PyQCodes/codes.py:StabilizerCode.encoding_circuit", "PyQCodes/codes.py:StabilizerCode.single_syndrome_measurement", "PyQCodes/codes.py:StabilizerCode.apply_stabilizer_circuit", "PyQCodes/codes.py:StabilizerCode.decoding_circuit"]}
{"id": "C99", "title": "Concatenation multiplies distances", "statement": "If concatenate_codes returns a code for an [n,k] outer code and an [m,1] inner code, both with independent generators, whose first logical X has no Z part and first logical Z no X part, then every Pauli operator on fewer than d1*d2 qubits that commutes with all generators of the returned code is a product of them, where d1 and d2 are such bounds for the two codes. Bringing generators to normal form does not change this bound. If all generators have even numbers of Y's and 2t < d1*d2, one table of corrections, looked up by the results of the syndrome measurements, undoes arbitrary noise on any t qubits of the returned code.", "quantifier": "all accepted outer codes, all accepted [m,1] inner codes with the stated logical operators, all Pauli operators on n*m qubits, all noise on at most t qubits, all results of the measurements", "why_tests_cant": "The number of Pauli operators on n*m qubits is 4^(n*m); a test can check the distance of a few small codes only, and noise ranges over a continuum.", "anchors": ["PyQCodes/codes.py:StabilizerCode.concatenate_codes", "PyQCodes/codes.py:StabilizerCode.single_syndrome_measurement", "PyQCodes/codes.py:StabilizerCode.apply_stabilizer_circuit"]}
{"id": "C100", "title": "Detection of noise and recovery of lost qubits", "statement": "For a code that StabilizerCode accepts with independent generators, each with an even number of Ys, and for any set T of qubits, three things are equivalent: every Pauli operator on T that commutes with all generators is a product of generators up to phase; whenever noise of any kind on T is followed by single_syndrome_measurement of all rows of the normal form and all of them read 0, the encoded state is intact up to a phase; and there is one table from readings to apply_stabilizer_circuit rows that undoes every noise on T.  Hence a code has distance at least d exactly when the measurements detect every noise on fewer than d qubits, and then the loss of any d-1 known qubits can be undone.", "quantifier": "every accepted code, every set of qubits, every matrix acting on these qubits (unitary or not), every logical state and every history of outcomes of the measurements", "why_tests_cant": "noise operators and states form a continuum, the set of qubits and the code are arbitrary, and the outcomes of the measurements are random", "anchors": ["PyQCodes/codes.py:StabilizerCode.single_syndrome_measurement", "PyQCodes/codes.py:StabilizerCode.encoding_circuit", "PyQCodes/codes.py:StabilizerCode.decoding_circuit", "PyQCodes/codes.py:StabilizerCode.apply_stabilizer_circuit"]}
{"id": "C101", "title": "How much noise a code can stand", "statement": "For a code that StabilizerCode accepts with independent generators and k >= 1: if every Pauli operator on fewer than d qubits that commutes with all generators is a product of them, then k + 2(d-1) <= n.  If one table from readings of single_syndrome_measurement to apply_stabilizer_circuit rows undoes every Pauli error on at most t qubits, then k + 4t <= n; so no accepted code on fewer than five qubits corrects every error on one qubit.  If the measurements detect every noise on each of two disjoint sets of qubits, at least k qubits are in neither.", "quantifier": "every accepted code with independent generators, every distance, every table of corrections, every pair of disjoint sets of qubits; for the parts about measured noise and corrections, generators with even numbers of Y (for odd numbers the readings are random, C57)", "why_tests_cant": "it rules out every code and every table of corrections of any size", "anchors": ["PyQCodes/codes.py:StabilizerCode.__init__", "PyQCodes/codes.py:StabilizerCode.single_syndrome_measurement", "PyQCodes/codes.py:StabilizerCode.apply_stabilizer_circuit"]}
{"id": "C102", "title": "Coherent information of Pauli noise on a code", "statement": "For a code that StabilizerCode accepts with independent generators and even numbers of Y, take a channel object whose Kraus operators are encode_krauss_operators followed by Pauli errors p_i with amplitudes a_i (sum |a_i|^2 = 1). coherent_information at the maximally mixed state returns k - H, up to the 4e-9 per eigenvalue of the entropy cut-off, where H is the conditional entropy in bits of the class of the error (modulo products of generators) given its syndrome. H is never negative and is zero exactly when errors that can occur and share a syndrome share a class; then the value is k. effective_channel_with_stabilizers for one logical qubit and single-qubit errors that are multiples of Pauli operators returns such an object, so its value is 1 - H for the independent errors on the n qubits.", "quantifier": "every accepted code, every number of logical qubits, every list of Pauli errors and amplitudes, every history of calls, sparse or dense objects. A history is any sequence of calls for positive numbers of uses, whether or not they raised; of a sparse channel one use is asked for only if no earlier call asked for several (C27). Dense channels are those without orthogonal_krauss groups (for these see C30).", "why_tests_cant": "it ranges over all codes and all Pauli channels, and equates an eigenvalue computation of exponential size with a formula", "anchors": ["PyQCodes/codes.py:StabilizerCode.encode_krauss_operators", "PyQCodes/find_codes.py:effective_channel_with_stabilizers", "PyQCodes/chan/channel.py:AnalyticQChan.coherent_information"]}
{"id": "C103", "title": "Degradable channels: mixing states never loses coherent information", "statement": "If some channel object r turns what one use of a channel object o delivers into the state of o's environment (r.channel(o.channel(x, 1), 1) is the matrix in o.entropy_exchange(x, 1) for every x), then o.coherent_information(rho, n) of a mixture rho of density matrices is at least the mean of their coherent informations, up to the 4e-9 per eigenvalue of the entropy cut-off.", "quantifier": "every pair of trace preserving channel objects in that relation, every history of calls, every number n of uses, every finite mixture of density matrices. A history is any sequence of calls for positive numbers of uses, whether or not they raised; of a sparse channel one use is asked for only if no earlier call asked for several (C27). Dense channels are those without orthogonal_krauss groups (for these see C30).", "why_tests_cant": "it ranges over all channels, all states and all mixtures of any number of states, and rests on strong subadditivity", "anchors": ["PyQCodes/chan/channel.py:AnalyticQChan.coherent_information", "PyQCodes/chan/channel.py:AnalyticQChan.entropy_exchange", "PyQCodes/chan/channel.py:AnalyticQChan.channel"]}
{"id": "C104", "title": "Degradable channels: more uses at once do not help", "statement": "If some channel object r turns what one use of a channel object o delivers into the state of o's environment, then o.coherent_information(rho, n) is at most the sum of o.coherent_information(rho_t, 1) over the marginals rho_t of rho, up to the entropy cut-off. So if c bounds the coherent information of one use for every density matrix, the regularised value coherent_information(rho, n, regularized=True) is at most c for every n and every rho.", "quantifier": "every pair of trace preserving channel objects in that relation, every history, every n, every density matrix, entangled or not. A history is any sequence of calls for positive numbers of uses, whether or not they raised; of a sparse channel one use is asked for only if no earlier call asked for several (C27). Dense channels are those without orthogonal_krauss groups (for these see C30).", "why_tests_cant": "it is about every number of uses at once; the dimension grows exponentially with n", "anchors": ["PyQCodes/chan/channel.py:AnalyticQChan.coherent_information", "PyQCodes/chan/channel.py:AnalyticQChan.entropy_exchange"]}
{"id": "C105", "title": "Antidegradable channels have no coherent information", "statement": "If some channel object r turns the state of the environment of a channel object o into what o delivers (r.channel(W, 1) is o.channel(x, 1) for the matrix W in o.entropy_exchange(x, 1) and every x), then o.coherent_information(rho, n) is at most zero, up to the entropy cut-off, for every density matrix and every number of uses.", "quantifier": "every pair of trace preserving channel objects in that relation, every history, every n, every density matrix. A history is any sequence of calls for positive numbers of uses, whether or not they raised; of a sparse channel one use is asked for only if no earlier call asked for several (C27). Dense channels are those without orthogonal_krauss groups (for these see C30).", "why_tests_cant": "it rules out every state and every number of uses", "anchors": ["PyQCodes/chan/channel.py:AnalyticQChan.coherent_information", "PyQCodes/chan/channel.py:AnalyticQChan.entropy_exchange"]}
{"id": "C106", "title": "Coherent information of the standard qubit channels", "statement": "For n uses and every density matrix of n qubits, coherent_information is at most n(1 - h(p)) for bit flips and phase flips with probability p, n(1 - 2q) for erasure with probability q <= 1/2 and n max_t(h((1-g)t) - h(gt)) for amplitude damping with probability g <= 1/2, with h the entropy in bits of a choice; at most zero for erasure and damping with probability 1/2 and more. The bounds are attained, by the maximally mixed state for flips and erasure; for one use, erasure gives (1 - 2q) times the entropy of the state and damping of a diagonal state h((1-g)t) - h(gt) with t the second population. All up to the 4e-9 per eigenvalue of the entropy cut-off. If differential evolution comes within delta of the minimum of its objective, optimize_coherent(n, 2**n, 'diffev', ...) reports these values up to delta, and the regularised value does not depend on n.", "quantifier": "every probability, every n, every density matrix, every history, dense and sparse objects; for the search every run of a scipy that keeps its contract. A history is any sequence of calls for positive numbers of uses, whether or not they raised; of a sparse channel one use is asked for only if no earlier call asked for several (C27). Dense channels are those without orthogonal_krauss groups (for these see C30).", "why_tests_cant": "maxima over all states of any number of qubits, for a continuum of channels", "anchors": ["PyQCodes/chan/channel.py:AnalyticQChan.coherent_information", "PyQCodes/chan/channel.py:AnalyticQChan.optimize_coherent", "PyQCodes/chan/_coherent.py:optimize_procedure"]}
{"id": "C107", "title": "The dephrasure channel has its published coherent information for every number of uses", "statement": "For the channel that flips the phase with probability p and then erases the qubit with probability q, coherent_information(rho, n) of the state with weight lam on |0...0> and 1 - lam on |1...1> is ((1-q)^n - q^n) h(lam) - (1-q)^n h((1+u)/2), u = sqrt(1 - 4 lam (1-lam)(1 - (1-2p)^(2n))), up to the 4e-9 per eigenvalue of the entropy cut-off; with regularized=True it is that divided by n. It does not matter whether the object is sparse, dense, or dense with orthogonal_krauss=[2].", "quantifier": "all p, q, lam in [0, 1], every n, every history of calls before, sparse and dense objects with and without the groups. A history is any sequence of calls for positive numbers of uses, whether or not they raised; of a sparse channel one use is asked for only if no earlier call asked for several (C27).", "why_tests_cant": "the test compares with the formula only at p = 0.2, q = 0.4, ten values of lam and n up to 3; the dimension is 4^n", "anchors": ["PyQCodes/chan/channel.py:AnalyticQChan.coherent_information", "PyQCodes/chan/tests/test_channel.py:_analytic_solution"]}
{"id": "C108", "title": "The worst fidelity of the standard qubit channels, for every number of uses", "statement": "For bit flips, phase flips and amplitude damping with probability p, fidelity_two_states(rho, n) of every pure state of n qubits, entangled or not, is at least sqrt((1-p)^n), and equals it for |0...0>, the equal superposition and |1...1> respectively. So optimize_fidelity(n, 'diffev') reports that number up to the tolerance of the optimiser. For depolarizing noise every product of pure states has fidelity sqrt((1 - 2p/3)^n), so optimize_fidelity(1, ...) reports sqrt(1 - 2p/3) whatever the optimiser finds ('diffev', or 'slsqp' with a pool).", "quantifier": "every p in [0, 1], every n, every pure state, every history of calls, sparse and dense objects, every optimiser that ends within some tolerance of the minimum", "why_tests_cant": "the minimum ranges over a continuum of states of exponentially large dimension; the tests only look at a single use and random states", "anchors": ["PyQCodes/chan/channel.py:AnalyticQChan.fidelity_two_states", "PyQCodes/chan/channel.py:AnalyticQChan.optimize_fidelity"]}
{"id": "C109", "title": "The examples of the documentation do what the text says", "statement": "README.md: the bit-flip channel can be built from the operators shown, channel(I, 1) is the identity and the complementary channel is not unital. chan/README.md: two channels of the kind shown can be concatenated, the adjoint of the complementary channel and the minimum fidelity of the dephrasure channel can be computed. PyQCodes/README.md: encoding zeros, applying X0 and decoding gives a one; measuring the stabilizers and applying the one that reports 1 reverses the bit flips.", "quantifier": "every probability, every code and logical qubit, every error, every history of calls, all options of the search. A history is any sequence of calls for positive numbers of uses, whether or not they raised; of a sparse channel one use is asked for only if no earlier call asked for several (C27). Logical operators are those of the first ten encoded qubits, as logical_circuit can name no others (C14).", "why_tests_cant": "the examples are never run by the tests, and the claims are about all parameters, codes and errors", "anchors": ["README.md:Examples", "PyQCodes/chan/README.md:Examples", "PyQCodes/README.md:Stabilizer Codes", "PyQCodes/chan/channel.py:AnalyticQChan.__init__", "PyQCodes/chan/channel.py:AnalyticQChan.__add__", "PyQCodes/codes.py:StabilizerCode.apply_stabilizer_circuit"]}
{"id": "C110", "title": "States that differ little have nearly the same coherent information", "statement": "If two density matrices given to coherent_information (or to entropy) differ by little, measured by the sum of the absolute values of the entries of their difference, then the two values differ by little: by at most T(log2 D + log2 E) + 2((1+T)log2(1+T) - T log2 T) bits where 2T bounds that sum, D is the dimension of the output and E the number of Kraus operators of the n uses, up to the 4e-9 per eigenvalue of the entropy cut-off. The documentation of the optimizer claims more, that the coherent information is Lipschitz with constant 1; no constant works.", "quantifier": "all trace preserving channels, numbers of uses, histories of earlier calls, and all pairs of density matrices; for the negative part, all constants L. A history is any sequence of calls for positive numbers of uses, whether or not they raised; of a sparse channel one use is asked for only if no earlier call asked for several (C27). Dense channels are those without orthogonal_krauss groups (for these see C30).", "why_tests_cant": "Continuity with an explicit modulus is a statement about all pairs of states; tests compare finitely many pairs and never approach the pairs at which the cut-off at 1e-10 jumps.", "anchors": ["PyQCodes/chan/channel.py:AnalyticQChan.coherent_information", "PyQCodes/chan/channel.py:AnalyticQChan.entropy", "PyQCodes/chan/README.md"]}
{"id": "C111", "title": "The two-design circuit used twice looks like a uniformly random unitary", "statement": "Whoever applies the circuit of approximate_unitary_two_design(epsilon), with the same random draws, to two copies of the register, entangled or not with further systems, and then measures anything, sees every outcome with a probability, averaged over the draws, that differs by at most epsilon from the probability for a uniformly (Haar) random unitary. The bound is of the right size: at epsilon = 2^(-N l), l at least 1, some state and measurement reach epsilon (1 - 1/(2^N - 1)), so the circuits are not epsilon-approximate in the stronger sense of the diamond norm, which asks for epsilon / 2.", "quantifier": "all registers of at least one qubit, all epsilon > 0, all auxiliary systems of the tester, all joint states, all measurements; for the sharpness, all registers and all l", "why_tests_cant": "The claim compares an average over all draws with an integral over the unitary group, for all states and measurements of two copies; sampling gives neither side.", "anchors": ["PyQCodes/device_adaptor.py:ProjectQDeviceAdaptor.approximate_unitary_two_design"]}
{"id": "C112", "title": "A channel can be undone exactly when its environment learns nothing", "statement": "Some channel r undoes n uses of a trace preserving channel o (r.channel(o.channel(x, n), 1) is x for every x) exactly when o.entropy_exchange(rho, n) is the same matrix for all density matrices rho. Several uses help as little as one: n uses can be undone by a joint decoder exactly when one use can. And if n uses of a channel with at least two input states can be undone, then no channel recovers the input from what entropy_exchange returns.", "quantifier": "all exactly trace preserving Kraus operators of any sizes, dense or sparse, all safe histories of the object, all numbers of uses; all recovering channels of any kind and number of operators. Dense channels are those without orthogonal_krauss groups (for these see C30).", "why_tests_cant": "One side says that a decoder exists among all channels, the other ranges over all density matrices.", "anchors": ["PyQCodes/chan/channel.py:AnalyticQChan.entropy_exchange", "PyQCodes/chan/channel.py:AnalyticQChan.channel"]}
{"id": "C113", "title": "A fidelity of one means that nothing was changed", "statement": "fidelity_two_states(rho, n) is 1 exactly when channel(rho, n) is rho. average_entanglement_fidelity(probs, states) of a channel built from a Choi matrix, with positive probabilities that add up to 1, is 1 exactly when the channel leaves everything on the supports of the states unchanged (all matrices rho Y rho); so with one state of full rank it is 1 exactly when the channel changes no matrix at all. The optimisation of the decoder reports its largest possible value exactly when some decoder undoes the noise, and then it returns one that does.", "quantifier": "all trace preserving channels with equal input and output dimension, all density matrices and ensembles, all numbers of uses and safe histories (for fidelity_two_states, dense and sparse); for the decoder, all trace preserving noise with real Kraus operators (see C46 for complex ones and for the scale of the value). Objects built from a Choi matrix have equal numbers of input and output particles (for others see C118).", "why_tests_cant": "One side is a number, the other speaks of all matrices on the support of a state, or of all decoders.", "anchors": ["PyQCodes/chan/channel.py:AnalyticQChan.fidelity_two_states", "PyQCodes/chan/_choi.py:ChoiQutip.average_entanglement_fidelity", "PyQCodes/avgfid/avg_fidelity.py:_optimize_average_entang_fid"]}
{"id": "C114", "title": "Channels that cannot transmit quantum information", "statement": "coherent_information(rho, n) is at most zero, up to the cut-off of small eigenvalues, for every number of uses n and every state rho, entangled over the uses or not, if the channel stays a channel when its input is transposed first: in particular for channels that measure and prepare (all Kraus operators of rank one), for Pauli noise where none of the four probabilities exceeds 1/2, and for depolarizing noise with error probability at least 1/4. For objects built from a Choi matrix the condition is that the partial transpose of the matrix is positive. No object transposes all matrices.", "quantifier": "all trace preserving channels of the named kinds, all numbers of uses, density matrices and safe histories, dense (without orthogonal_krauss) and sparse; one use for objects built from a Choi matrix. Objects built from a Choi matrix have equal numbers of input and output particles (for others see C118).", "why_tests_cant": "The claim is about all numbers of uses and all entangled inputs; the dimension grows exponentially and positive values, if there were any, could appear at any number of uses.", "anchors": ["PyQCodes/chan/channel.py:AnalyticQChan.coherent_information", "PyQCodes/chan/channel.py:AnalyticQChan.channel"]}
{"id": "C115", "title": "How many errors can be told apart and undone", "statement": "Encode, let a Pauli error act, call single_syndrome_measurement on every row iterating over the code yields, look the results up in a table of binary rows, call apply_stabilizer_circuit with the row found and decode. A given table undoes an error exactly when the entry for its results differs from it by an operator of the group of the rows. A table undoes at most 4^(n-k) errors, and exactly so many iff the entry for every list of results has these results itself; such a table exists. The measurements tell at most 2^(n-k) errors apart; if they tell all errors on at most t qubits apart, the sum over j <= t of C(n,j) 3^j is at most 2^(n-k).", "quantifier": "every accepted code with independent generators that contain an even number of Y's, every table, every set of errors, every t, every logical superposition, every sequence of measurement results", "why_tests_cant": "The bounds are over all codes, all tables and all sets of errors; there are exponentially many of each.", "anchors": ["PyQCodes/codes.py:StabilizerCode.single_syndrome_measurement", "PyQCodes/codes.py:StabilizerCode.apply_stabilizer_circuit", "PyQCodes/codes.py:StabilizerCode.encoding_circuit", "PyQCodes/codes.py:StabilizerCode.decoding_circuit"]}
{"id": "C116", "title": "The best table of corrections for noise of known probabilities", "statement": "Pauli errors happen with known probabilities; encode, measure all rows, apply the row a table holds for the results and decode. Some table undoes the error with the greatest probability, namely the sum over the results of the greatest probability of a class of errors that differ by operators of the group of the rows. A table is best exactly when for every error the errors of its class are together no more probable than the errors with the same results the table undoes. To hold the most probable single error for every result is in general not best.", "quantifier": "every accepted code with independent generators that contain an even number of Y's, all probabilities of the Pauli errors, all tables", "why_tests_cant": "Best means best among all tables, whose number is doubly exponential in the number of qubits.", "anchors": ["PyQCodes/codes.py:StabilizerCode.single_syndrome_measurement", "PyQCodes/codes.py:StabilizerCode.apply_stabilizer_circuit"]}
{"id": "C117", "title": "Which noise any recovery at all can undo on a code", "statement": "AnalyticQChan is given the encoder that encode_krauss_operators of an accepted code computes followed by operators N_i. Some channel undoes the result exactly when for any two of the operators there is a number w with <N_i x, N_j y> = w <x, y> for all states x and y fixed by the generators. If the operators are Pauli operators, this holds exactly when any two of them that can occur and have the same syndrome differ by a product of generators, and then the same recovery condition holds for all operators that are combinations of them. For Pauli noise no recovery does better than the circuits of the library: up to the one relabelling of qubits between the generators and the rows of the normal form, some channel undoes the noise exactly when some table of corrections, applied with apply_stabilizer_circuit after single_syndrome_measurement, does.", "quantifier": "every accepted code with independent generators that contain an even number of Y's, all trace preserving noise, every correct eigensolver, every history of calls on the channel object", "why_tests_cant": "That no recovery exists is a statement about all channels; the noise ranges over all complex operators.", "anchors": ["PyQCodes/codes.py:StabilizerCode.encode_krauss_operators", "PyQCodes/codes.py:StabilizerCode.single_syndrome_measurement", "PyQCodes/codes.py:StabilizerCode.apply_stabilizer_circuit", "PyQCodes/chan/channel.py:AnalyticQChan.channel"]}
{"id": "C118", "title": "Choi channels with different numbers of input and output particles", "statement": "ChoiQutip and AnalyticQChan accept a Choi matrix with numb_qubits [N, M] for any N and M, and channel(rho) returns the state of the M output particles that the channel produces.", "quantifier": "every N and M, every Choi matrix of matching size, every state rho", "why_tests_cant": "The tests use equal numbers only; the claim is about all pairs of numbers, all channels and all states.", "anchors": ["PyQCodes/chan/_choi.py:ChoiQutip.channel", "PyQCodes/chan/channel.py:AnalyticQChan.channel"]}
{"id": "C119", "title": "The coherent information says how well the input can be recovered", "statement": "Let I be coherent_information(rho, n) of a trace preserving channel o, S the entropy of the density matrix rho and N the dimension of the input. Some trace preserving channel r recovers the input well: average_entanglement_fidelity([1], [rho]) of the channel (built from its Choi matrix) that acts as n uses of o followed by r is at least 2^(I - S). And no r does much better: if that value is F, then S - I <= 2 (h(F) + (1 - F) log2(N^2 - 1)). Consequently the value found by _optimize_average_entang_fid, times (M/N)^2 for real operators from N to M dimensions, obeys both bounds with the coherent information at the maximally mixed state. All up to 4e-9 for each eigenvalue, the effect of the cut-off of small eigenvalues.", "quantifier": "all trace preserving channels o and decoders r, all density matrices, all numbers of uses, all histories of calls on both objects; for the search all lists of real, trace preserving Kraus operators. Objects built from a Choi matrix have equal numbers of input and output particles (for others see C118). Dense channels are those without orthogonal_krauss groups (for these see C30).", "why_tests_cant": "one half claims that a decoder exists for every channel, the other bounds all decoders of every channel; both range over continuous sets of channels and states in all dimensions", "anchors": ["PyQCodes/chan/channel.py:AnalyticQChan.coherent_information", "PyQCodes/chan/_choi.py:ChoiQutip.average_entanglement_fidelity", "PyQCodes/avgfid/avg_fidelity.py:_optimize_average_entang_fid"]}
{"id": "C120", "title": "The value of the decoder search belongs to the channel", "statement": "The optimal value that _optimize_average_entang_fid reports for a list of Kraus operators depends only on the channel they describe. For trace preserving noise from N to M dimensions, the value times (M/N)^2 (the fidelity of the best decoder) lies between 1/N^2 and 1. Noise after the channel never raises the value times M^2. For several uses of a channel, or several channels side by side, it is at least the product of the values of the parts.", "quantifier": "every correct solver, all lists of operators of any dimensions, every trace preserving noise that follows, every number of uses, every list of operators that describes the composed channel", "why_tests_cant": "The operators and their mixtures form a continuum, and the value is an optimum over all decoders; a test compares two lists at a time.", "anchors": ["PyQCodes/avgfid/avg_fidelity.py:_optimize_average_entang_fid", "PyQCodes/chan/channel.py:AnalyticQChan.channel"]}
{"id": "C121", "title": "What the tolerance of the constructor costs", "statement": "AnalyticQChan accepts operators that preserve the trace only approximately. If the input of one use has a dimension D below 10^5, such a channel is close to a channel of the same shape that preserves the trace exactly: for n uses no measurement of the outputs of channel(rho, n) tells the two apart with probabilities that differ by more than (1 + D 1e-5)^(2n) - 1, and the values of coherent_information(rho, n) differ by at most (4e + e^2)(log2 D' + log2 E) + 2((1+T)log2(1+T) - T log2 T) with e = (1 + D 1e-5)^n - 1, T = 3e + e^2, D' the dimension of the output and E the number of operators of the n uses, up to the cut-off of small eigenvalues. Above 10^5 there is no such bound: for every larger dimension a channel is accepted that maps some density matrix to zero.", "quantifier": "every accepted channel, dense or sparse, all histories of calls of both objects, numbers of uses and density matrices, every measurement effect; for the second part every dimension above 10^5. A history is any sequence of calls for positive numbers of uses, whether or not they raised; of a sparse channel one use is asked for only if no earlier call asked for several (C27). For coherent_information dense channels are those without orthogonal_krauss groups (for these see C30).", "why_tests_cant": "A test can compare one accepted channel with one exact channel; the bound must hold for every channel within the tolerance, every state, every measurement and every number of uses.", "anchors": ["PyQCodes/chan/channel.py:AnalyticQChan.__init__", "PyQCodes/chan/channel.py:AnalyticQChan.channel", "PyQCodes/chan/channel.py:AnalyticQChan.coherent_information", "PyQCodes/chan/_kraus.py:DenseKraus", "PyQCodes/chan/_kraus.py:SparseKraus"]}
{"id": "C122", "title": "Sums and products of channels obey the laws of composition and tensor product", "statement": "(A * B) + (C * D) and (A + C) * (B + D) are the same channel: they map every matrix to the same matrix for every number of uses and have the same coherent information. A + I and J + A are A for the identity channels on the input and output of A. (A * B) * C and A * (B * C) are the same object. B * A is A * B with the two systems exchanged. The product of n copies of A used once is A used n times, also on correlated inputs.", "quantifier": "all channels given by Kraus operators, dense or sparse, for which the sums and products are constructed (one particle each for products, see C32; always so for exactly trace preserving channels), every input matrix, number of uses, eigensolver and safe history of calls (C27). Dense channels are those without orthogonal_krauss groups (for these see C30).", "why_tests_cant": "Tests multiply a few matrices of fixed size on product states; the laws range over all operators, all inputs including correlated ones, and all numbers of uses.", "anchors": ["PyQCodes/chan/channel.py: AnalyticQChan.__add__, __mul__, channel, coherent_information", "PyQCodes/chan/_kraus.py: serial_concatenate, parallel_concatenate, update_kraus_operators"]}
{"id": "C123", "title": "What can be done on a code without the qubits that may be lost", "statement": "For a code that StabilizerCode accepts with independent generators, each with an even number of Ys, and any set T of qubits: one table from readings of single_syndrome_measurement to apply_stabilizer_circuit rows undoes every noise on T if and only if every Pauli operator that commutes with all rows of the normal form has a substitute that does nothing on T and acts in the same way on all encoded superpositions up to one phase. Then there are logical operators, accepted by the constructor, whose logical_circuit has no gate on T and acts on encoded states as the logical X and Z of every qubit up to a sign. With N(T) the number of Pauli operators on T commuting with all rows and G(T) the number of those in the group of the rows, N(T) N(rest) = 4^k G(T) G(rest).", "quantifier": "every accepted code with independent generators, every set of qubits, every commuting Pauli operator, every logical state; the circuits for the first ten encoded qubits (others cannot be named, see C14)", "why_tests_cant": "sets of qubits, operators and codes are exponentially many and encoded states form a continuum; the converse excludes every table of corrections", "anchors": ["PyQCodes/codes.py:StabilizerCode.logical_circuit", "PyQCodes/codes.py:StabilizerCode.apply_stabilizer_circuit", "PyQCodes/codes.py:StabilizerCode.__init__", "PyQCodes/codes.py:StabilizerCode.encoding_circuit"]}
{"id": "C124", "title": "Other generators of the same group describe the same code", "statement": "The code that StabilizerCode builds depends only on the group the given generators generate, not on which generators are given or in which order: two such inputs are both accepted or both rejected, encode the same states, and have the same distance and the same recoverable sets of qubits. (False of the code: the order of the rows can change the encoded states because columns are swapped differently, and one choice of generators can be rejected while another of the same group is accepted. True: the order never changes whether the array is accepted, and two accepted inputs of the same group have the same encoded states up to an order of the qubits, the same recoverable sets in that order, and the same distance.)", "quantifier": "every pair of generator lists of the same group, every order of rows, every superposition, every set of qubits, every distance", "why_tests_cant": "pairs of generator lists are unbounded and encoded states form a continuum; tests fix one list per code", "anchors": ["PyQCodes/codes.py:StabilizerCode.__init__", "PyQCodes/codes.py:StabilizerCode._normal_form", "PyQCodes/codes.py:StabilizerCode.encoding_circuit"]}
{"id": "C125", "title": "Channels whose operators differ little behave alike", "statement": "If the operators of two channels of the same shape differ by little, the squares of the absolute differences of all entries adding up to at most eps^2, then for n uses no measurement of the outputs of channel(rho, n) gives an outcome probabilities that differ by more than 2 n eps, and the values of coherent_information(rho, n) differ by at most 2 n eps (log2 D + log2 E) + 2((1+T)log2(1+T) - T log2 T) with T = 2 n eps, D the dimension of the output and E the number of operators of the n uses, up to the cut-off of small eigenvalues.", "quantifier": "all pairs of accepted trace preserving channels with equally many operators, dense or sparse, all histories of calls of both, numbers of uses, density matrices and measurement effects. For coherent_information dense channels are those without orthogonal_krauss groups (for these see C30).", "why_tests_cant": "pairs of channels, states and measurements form a continuum and the bound is for every number of uses", "anchors": ["PyQCodes/chan/channel.py:AnalyticQChan.channel", "PyQCodes/chan/channel.py:AnalyticQChan.coherent_information", "PyQCodes/chan/_kraus.py:DenseKraus", "PyQCodes/chan/_kraus.py:SparseKraus"]}
{"id": "C126", "title": "Blocks of uses: the best value per use converges", "statement": "coherent_information of n+m uses on the product of a state of n inputs and a state of m inputs is the sum of the values of the two blocks, also for states that are correlated within the blocks. Hence the best value over all states for n+m uses is at least the sum of the best values for n and for m uses, and the best regularised value converges for growing n to a limit between 0 and log2 of the output dimension that no number of uses exceeds. All up to the cut-off of small eigenvalues. The limit is the best value of one use for degradable channels (C104) and zero for antidegradable ones (C105).", "quantifier": "all trace preserving channels given by Kraus operators, dense or sparse, all numbers of uses n and m, all density matrices of the blocks, all eigensolvers and safe histories of calls (C27). Dense channels are those without orthogonal_krauss groups (for these see C30).", "why_tests_cant": "the states form a continuum and the claim is about all numbers of uses and a limit", "anchors": ["PyQCodes/chan/channel.py:AnalyticQChan.coherent_information", "PyQCodes/chan/_kraus.py:DenseKraus.update_kraus_operators", "PyQCodes/chan/_kraus.py:SparseKraus.update_kraus_operators"]}
{"id": "C127", "title": "Channels side by side, for every number of uses", "statement": "(A * B).channel on n uses of an n-input state of A next to an n-input state of B (regrouped so that each use takes one input of A and one of B) is the output of A.channel for n uses next to that of B.channel for n uses, regrouped the same way, also when the states are correlated between the uses. The coherent information is the sum of the two, up to the cut-off of small eigenvalues. Hence the best value of n uses of A * B is at least the sum of the best values of A and of B, and the rate of A * B is at least the sum of the rates. If the environments of both can be made from what they deliver (by channel objects), the values add exactly: n uses of A * B are worth n times the sum of the best values of one use of each, on whatever joint state, and the rates add. If what both deliver can be made from their environments, no number of uses of A * B has a positive value.", "quantifier": "all pairs of channels on one particle each whose product is constructed (C32), dense or sparse, all numbers of uses, all input matrices (density matrices for the values), all eigensolvers and safe histories of calls (C27). For the values the channels are trace preserving and dense ones have no orthogonal_krauss groups (C30).", "why_tests_cant": "ranges over all pairs of channels, all correlated states and all numbers of uses, and speaks of a limit", "anchors": ["PyQCodes/chan/channel.py:AnalyticQChan.__mul__", "PyQCodes/chan/channel.py:AnalyticQChan.channel", "PyQCodes/chan/channel.py:AnalyticQChan.coherent_information"]}
{"id": "C128", "title": "Noise before a channel does not help", "statement": "For channels s and o whose sum s + o (first o, then s) is accepted and every density matrix rho and number of uses there is an input sigma of s alone with s.coherent_information(sigma, n) at least (s + o).coherent_information(rho, n), up to the cut-off. Hence the best value of n uses of s + o exceeds neither that of s nor that of o, and neither does the rate.", "quantifier": "all pairs of trace preserving channels whose sum is constructed, dense or sparse, all density matrices, numbers of uses, eigensolvers and safe histories of calls (C27). Dense channels are those without orthogonal_krauss groups (for these see C30).", "why_tests_cant": "ranges over all pairs of channels, all states and all numbers of uses", "anchors": ["PyQCodes/chan/channel.py:AnalyticQChan.__add__", "PyQCodes/chan/channel.py:AnalyticQChan.coherent_information"]}
{"id": "C129", "title": "A code does not depend on arrays the caller can write to", "statement": "After StabilizerCode(...) returned, changing the generators or the logical operators that were passed, or writing into arrays obtained from the code (stab_bin_rep, normal_form, logical_x, logical_z, the rows yielded by iteration), does not change what its methods do.", "quantifier": "all accepted codes, all sequences of writes with all contents, all arguments of the circuit builders and of encode_krauss_operators", "why_tests_cant": "ranges over all codes and all sequences of writes between calls", "anchors": ["PyQCodes/codes.py:StabilizerCode.__init__", "PyQCodes/codes.py:StabilizerCode.stab_bin_rep", "PyQCodes/codes.py:StabilizerCode.__iter__", "PyQCodes/codes.py:StabilizerCode.encode_krauss_operators", "PyQCodes/codes.py:StabilizerCode.encoding_circuit"]}
{"id": "C130", "title": "A request for a senseless number of uses does not spoil a channel", "statement": "If a function of a channel is asked for zero or a negative number of uses, then whatever this call does, later calls for n >= 1 uses behave as the channel used n times.", "quantifier": "all channels, all sequences of calls with any integers as numbers of uses, whether or not they raise, all n >= 1", "why_tests_cant": "ranges over all channels and all histories of calls with arbitrary integers", "anchors": ["PyQCodes/chan/_kraus.py:Kraus.update_kraus_operators", "PyQCodes/chan/channel.py:AnalyticQChan.channel", "PyQCodes/chan/channel.py:AnalyticQChan.entropy_exchange"]}
{"id": "C131", "title": "Error correction can be repeated any number of times", "statement": "For an accepted code with independent generators with even numbers of Y's and a table of corrections that undoes every error of a set: encode anything, then any number of times let an error of the set happen, measure all rows of the normal form (each with the ancilla the library allocates) and apply the table's correction with apply_stabilizer_circuit. The encoded state is back up to one global factor, and decoding gives the logical state. For arbitrary errors and tables, it is back exactly when the accumulated product of errors and corrections is in the stabilizer group. With an ancilla kept in the register the results are running sums, and the table has to be looked up with the changes between successive results.", "quantifier": "all accepted codes with independent generators with even numbers of Y's, all tables, all errors, all numbers of rounds, all logical states", "why_tests_cant": "ranges over all codes, tables, states and unbounded histories of errors, measurements and corrections", "anchors": ["PyQCodes/codes.py:StabilizerCode.single_syndrome_measurement", "PyQCodes/codes.py:StabilizerCode.apply_stabilizer_circuit", "PyQCodes/codes.py:StabilizerCode.encoding_circuit", "PyQCodes/codes.py:StabilizerCode.decoding_circuit"]}
{"id": "C132", "title": "Logical operators can be applied between rounds of error correction", "statement": "For an accepted code with independent generators with even numbers of Y's and a table of corrections that undoes every error of a set: take any sequence of rounds of error correction, with errors of the set, and of logical operators X, Y, Z applied with logical_circuit. Started from any encoded logical state, the sequence leaves the encoding of the logical state with exactly these operators applied, up to one global factor, and decoding_circuit moves this logical state to its ancillas. For arbitrary errors and tables the state has in addition the operator on it which the rounds alone would leave.", "quantifier": "all accepted codes with independent generators with even numbers of Y's, all tables, all sequences of rounds and logical operators (with names logical_circuit accepts), all logical states", "why_tests_cant": "ranges over all codes, tables, states and unbounded interleavings of errors, corrections and logical operators", "anchors": ["PyQCodes/codes.py:StabilizerCode.logical_circuit", "PyQCodes/codes.py:StabilizerCode.single_syndrome_measurement", "PyQCodes/codes.py:StabilizerCode.apply_stabilizer_circuit", "PyQCodes/codes.py:StabilizerCode.decoding_circuit"]}
{"id": "C133", "title": "What the constructor accepts, exactly", "statement": "StabilizerCode(rows, n, k) of 0/1 rows succeeds exactly when there are n - k rows of length 2n that commute pairwise and whose X half has the same rank over the rationals as modulo two; dependent generators are not rejected. With supplied logical operators it succeeds exactly when the rows have that shape and commute and both supplied arrays have 2n columns. Everything else raises IndexError (empty or ragged lists) or AssertionError. For strings of n Pauli letters the same condition decides. One or two commuting generators always pass.", "quantifier": "all lists of 0/1 rows, all lists of strings of n Pauli letters, all n and k, with and without logical_ops", "why_tests_cant": "an equivalence over all generator matrices of all sizes", "anchors": ["PyQCodes/codes.py:StabilizerCode.__init__", "PyQCodes/codes.py:StabilizerCode._standard_normal_form", "PyQCodes/codes.py:StabilizerCode.logical_operators"]}
{"id": "C134", "title": "Every stabilizer group has a presentation the constructor accepts", "statement": "For every list of n - k pairwise commuting 0/1 generators on n qubits, accepted or not, there is a list of as many 0/1 generators of the same group that StabilizerCode(rows, n, k) accepts. Whether a list is accepted changes neither with the order of its generators nor with the names of the qubits.", "quantifier": "all lists of commuting 0/1 generators, independent or not, all reorderings, all permutations of the qubits", "why_tests_cant": "an existence statement for every group of every size, and invariance under all reorderings and renamings", "anchors": ["PyQCodes/codes.py:StabilizerCode.__init__", "PyQCodes/codes.py:StabilizerCode._gaussian_elimination_first_block"]}
{"id": "C135", "title": "How often rounds of error correction succeed", "statement": "When every round of syndrome measurement and table correction meets a Pauli error drawn independently with the same probabilities, the probability that m rounds with the generated circuits give back what was encoded is the average over the 4^k products L of the returned logical operators of (1 - 2 f_L)^m, where f_L is the probability that one round flips L. It is at least the m-th power of the one-round probability; it tends to 1/4^k when no nontrivial f_L is 0 or 1; it equals 1/4^k from the first round on for completely random errors; and with a code of distance at least 2t + 1 there is a table for which it is at least 1 - m times the probability that independent noise hits more than t qubits.", "quantifier": "all accepted codes with independent generators with an even number of Y, all consistent tables, all distributions of Pauli errors, all numbers of rounds", "why_tests_cant": "an exact formula over all codes, tables, distributions and unboundedly many rounds; simulation only estimates it", "anchors": ["PyQCodes/codes.py:StabilizerCode.syndrome_circuit", "PyQCodes/codes.py:StabilizerCode.logical_operators", "PyQCodes/codes.py:StabilizerCode.apply_sparse"]}
{"id": "C136", "title": "A negative number of unencoded qubits is refused", "statement": "StabilizerCode(stabilizers, n, k) raises for every negative k, whatever the generators and whether or not logical operators are supplied.", "quantifier": "all generators (rows and strings), all n, all negative integers k, all supplied logical operators", "why_tests_cant": "an error for every input with a negative parameter", "anchors": ["PyQCodes/codes.py:StabilizerCode.__init__", "PyQCodes/codes.py:StabilizerCode.logical_operators", "PyQCodes/codes.py:StabilizerCode._gaussian_elimination_second_block"]}
{"id": "C137", "title": "The number of gates each circuit sends is the weight of its operators", "statement": "apply_stabilizer_circuit and logical_circuit send exactly one gate to each qubit on which the operator is not the identity. single_syndrome_measurement sends one gate controlled by the ancilla to each such qubit, between two Hadamard gates on the ancilla. encoding_circuit sends one gate per 1 of the input, one controlled gate per 1 of the logical X operators between the rank and n - k, and as many gates as the weight of each row of the first kind; never more than n squared. decoding_circuit sends as many gates, all controlled, as the total weight of the logical operators. The circuit of a logical operator of a code of distance d touches at least d qubits.", "quantifier": "all accepted codes with independent generators, all rows, all logical operators, all inputs of the encoder, both ancilla conventions. Logical operators are those of the first ten encoded qubits, as logical_circuit can name no others (C14).", "why_tests_cant": "a gate count for every code of every size", "anchors": ["PyQCodes/codes.py:StabilizerCode.apply_stabilizer_circuit", "PyQCodes/codes.py:StabilizerCode.logical_circuit", "PyQCodes/codes.py:StabilizerCode.single_syndrome_measurement", "PyQCodes/codes.py:StabilizerCode.encoding_circuit", "PyQCodes/codes.py:StabilizerCode.decoding_circuit"]}
{"id": "C138", "title": "Rebuilding a code from the generators it yields changes nothing", "statement": "For a code accepted with independent 0/1 generators, StabilizerCode(list(code), n, k) is accepted, yields the same rows again, has the same rank and the same logical operators, and every call of encoding_circuit, decoding_circuit, logical_circuit and single_syndrome_measurement sends the same gates or raises the same exception. Two codes on n qubits that yield the same rows agree in the same sense, whatever generators they were built from.", "quantifier": "all accepted codes with independent 0/1 generators given as rows or strings, all arguments of the circuit builders", "why_tests_cant": "the normal form has to be a fixed point of the two eliminations for every code of every size", "anchors": ["PyQCodes/codes.py:StabilizerCode.__init__", "PyQCodes/codes.py:StabilizerCode.__iter__", "PyQCodes/codes.py:StabilizerCode._standard_normal_form", "PyQCodes/codes.py:StabilizerCode.logical_operators"]}
{"id": "C139", "title": "Generators that are not independent", "statement": "The constructor accepts generators that are not independent. Whatever 0/1 generators it accepts, the code has the rank, the logical operators and all the circuits of some code with n - k independent generators: encoded basis states are orthonormal, the decoder returns every encoded superposition, logical X and Z circuits act as on k qubits. Logical Z operators commute with every row the code yields. Every row with an even number of Y's fixes the state encoded from zeros and every other encoded state.", "quantifier": "all lists of 0/1 generators the constructor accepts, independent or not, all bit strings, all superpositions. Logical operators are those of the first ten encoded qubits, as logical_circuit can name no others (C14).", "why_tests_cant": "ranges over every redundant presentation of every group; the failing case needs a product listed before an independent generator", "anchors": ["PyQCodes/codes.py:StabilizerCode.__init__", "PyQCodes/codes.py:StabilizerCode._gaussian_elimination_second_block", "PyQCodes/codes.py:StabilizerCode.logical_operators", "PyQCodes/codes.py:StabilizerCode.encoding_circuit"]}
{"id": "C140", "title": "Encoding a register that was not reset", "statement": "encoding_circuit sent to a register in any computational basis state gives the state it would have given if the first n - k qubits had been reset, changed by a Pauli operator that depends on those bits only, multiplicatively, and is the identity for zeros. The last k qubits shift the logical bits. Every other such operator anticommutes with a generator; with an even number of Y's per generator, measuring the generators leaves the state alone, reports only zeros exactly when the first n - k qubits were zero, and tells any two such registers apart.", "quantifier": "all accepted codes with independent 0/1 generators, all logical bit strings, all basis states of the register", "why_tests_cant": "ranges over all codes and all 2^n starting states; tests start the encoder on a fresh register", "anchors": ["PyQCodes/codes.py:StabilizerCode.encoding_circuit", "PyQCodes/codes.py:StabilizerCode.single_syndrome_measurement"]}
{"id": "C141", "title": "What an uncorrected error does to the decoded qubits", "statement": "Encode any state, apply a Pauli error, do not correct it, run decoding_circuit. The decoded qubits hold the encoded state with a Pauli operator applied: X on qubit i exactly when the error anticommutes with logical Z i, Z exactly when it anticommutes with logical X i. The code qubits are left unentangled in a state that does not depend on the encoded one. So the decoded state is right for every input exactly when the error commutes with all logical operators, detectable or not.", "quantifier": "all lists of 0/1 generators the constructor accepts, independent or not, all encoded states, all Pauli errors, both ways of supplying the ancillas", "why_tests_cant": "ranges over all codes, all 4^n errors and a continuum of states", "anchors": ["PyQCodes/codes.py:StabilizerCode.encoding_circuit", "PyQCodes/codes.py:StabilizerCode.decoding_circuit", "PyQCodes/codes.py:StabilizerCode.logical_operators"]}
{"id": "C142", "title": "Preparing encoded states by measuring the generators", "statement": "Take a register in any state, run the syndrome circuits of all generators of the normal form one after the other with fresh ancillas, then run apply_stabilizer_circuit with any Pauli operator that anticommutes with exactly the generators that gave one. The register is left in a normalised superposition of encoded states, whatever the results were. Such an operator exists for every list of results and can be chosen to commute with every row of the logical Z array. From a basis state the outcome is, up to a phase, one state that encoding_circuit makes, with bit i read off by logical Z i and flipped if the correction anticommutes with it; from a reset register, with a correction commuting with the logical Z's, it is the encoded zero.", "quantifier": "all lists of independent 0/1 generators with an even number of Y's the constructor accepts, all states of the register, all measurement results of non-zero probability, all corrections", "why_tests_cant": "ranges over all codes, a continuum of initial states, all random results and all corrections", "anchors": ["PyQCodes/codes.py:StabilizerCode.single_syndrome_measurement", "PyQCodes/codes.py:StabilizerCode.apply_stabilizer_circuit", "PyQCodes/codes.py:StabilizerCode.encoding_circuit"]}
{"id": "C143", "title": "Reading the logical qubits without decoding", "statement": "Give the logical Z operators of a code to single_syndrome_measurement, in any order and any number, with the register in any encoded superposition, possibly after a Pauli error. The results are the bits of the encoded qubits, flipped where the error anticommutes with the operator; their joint probability is the weight of the part of the superposition that agrees with them; this part, normalised, is what the register is left in, still encoded. All logical Z's together read the bit string d with probability |a_d|^2 and leave the encoded state of d. Reading an ancilla after decoding_circuit has the same probabilities. Logical X operators read a qubit in the basis |0> +- |1>. The product of logical X and Z of one qubit always has an odd number of Y's, so measuring it gives a fair coin whatever was encoded.", "quantifier": "all lists of 0/1 generators the constructor accepts, independent or not, all encoded superpositions, all Pauli errors, all sequences of logical operators, all results, both ancilla conventions", "why_tests_cant": "ranges over all codes, a continuum of states, all errors, and all random results of sequences of any length", "anchors": ["PyQCodes/codes.py:StabilizerCode.single_syndrome_measurement", "PyQCodes/codes.py:StabilizerCode.logical_operators", "PyQCodes/codes.py:StabilizerCode.decoding_circuit"]}
{"id": "C144", "title": "Reading the logical qubits by measuring every qubit", "statement": "Encode any state with encoding_circuit, let any Pauli error happen, and measure every qubit of the register one after the other instead of decoding. Add up, for every logical Z operator of the code, the bits on which it acts. These parities are the encoded bit string v, flipped where the error anticommutes with the operator, with the same total probability |a_v|^2 that v has in the encoded state. If the generators are independent, the parities over the rows of the normal form without X are in every possible result exactly those which single_syndrome_measurement would have shown. A table from these parities to the bits to flip, which recovers the encoded bits for every error of a given set and every possible result, exists exactly when two errors of the set with the same parities have the same signs on the logical Z operators; phase errors never matter.", "quantifier": "all lists of 0/1 generators the constructor accepts, all encoded superpositions, all Pauli errors, all sets of errors, all possible results", "why_tests_cant": "ranges over all codes, a continuum of states, all errors and all random results", "anchors": ["PyQCodes/codes.py:StabilizerCode.encoding_circuit", "PyQCodes/codes.py:StabilizerCode.logical_operators", "PyQCodes/codes.py:StabilizerCode.normal_form"]}
{"id": "C145", "title": "Error correction with wrongly reported results", "statement": "Correct errors in any number of rounds with single_syndrome_measurement for every row of the normal form, a table of corrections and apply_stabilizer_circuit, where in every round any of the results may be reported wrongly. Whatever was encoded, the rounds leave it with the product of all errors and all applied rows on it, up to one common phase; it is restored exactly when this product is in the group of the code. If each row of the table has the results it is looked up with, then the wrong reports of earlier rounds do not accumulate: a further measurement shows exactly the wrong bits of the last round. If moreover the last report is right and all errors and applied rows together touch fewer qubits than the distance, counted with repetition, the encoded state is back. Measuring all rows m times in turn shows the same results every time without changing the state, and the more frequent reported values are right if for every row fewer than half of the reports are wrong. One error and one wrong bit in the same round can destroy the state even for the five-qubit code.", "quantifier": "all lists of independent 0/1 generators with even numbers of Ys the constructor accepts, all encoded states, all tables, all sequences of rounds of any length with any errors and any wrong reports", "why_tests_cant": "ranges over all codes, a continuum of states and all histories of errors and wrong reports", "anchors": ["PyQCodes/codes.py:StabilizerCode.single_syndrome_measurement", "PyQCodes/codes.py:StabilizerCode.apply_stabilizer_circuit", "PyQCodes/codes.py:StabilizerCode.normal_form"]}
{"id": "C146", "title": "Errors between the measurements of a round", "statement": "In rounds of error correction with single_syndrome_measurement for the rows of the normal form, a table and apply_stabilizer_circuit, let a Pauli error happen before every single measurement. The results of a round are those for the product of its errors, flipped for the rows that anticommute with the product of the errors coming after their measurement. So such rounds do the same to whatever is encoded, up to a common phase, as rounds with the product of the errors at the beginning and these results reported wrongly (C145); the state is restored exactly when the product of all errors and applied rows is in the group of the code. With a table whose rows have the results they are looked up with, the encoded state is back if in the last round no error comes after the first measurement and all errors and applied rows together touch fewer qubits than the distance, counted with repetition. A single error in the middle of a round may destroy the state even for the five-qubit code.", "quantifier": "all lists of independent 0/1 generators with even numbers of Ys the constructor accepts, all encoded states, all tables, all sequences of rounds of any length with any errors at any place", "why_tests_cant": "ranges over all codes, a continuum of states and all histories of errors", "anchors": ["PyQCodes/codes.py:StabilizerCode.single_syndrome_measurement", "PyQCodes/codes.py:StabilizerCode.apply_stabilizer_circuit", "PyQCodes/codes.py:StabilizerCode.normal_form"]}
{"id": "C147", "title": "An error inside a syndrome measurement", "statement": "Call single_syndrome_measurement, with a fresh ancilla, for an operator that has a definite value in the state of the register, and let any Pauli operator hit the register and the ancilla between two gates of the circuit. Exactly one result is possible: the value, flipped if the phase of the ancilla is changed, flipped if the part on the register anticommutes with the letters still to come, and flipped if the ancilla is flipped after an odd number of letters Y. The register is left, up to a sign, with the part on it and, if the ancilla is flipped, with the letters dealt with so far. So a phase error of the ancilla is no more than a wrong report, and a flip of the ancilla is an error on at most half as many qubits as the measured operator has; in the five-qubit code it may be an error on two qubits which the next round of error correction does not undo. Before the first gate and after the last one a flip of the ancilla only flips the result.", "quantifier": "all code objects, all strings of at most n letters and all 0/1 rows of length 2n, all normalised eigenstates, all places in the circuit and all Pauli operators on the n+1 qubits", "why_tests_cant": "ranges over all operators, a continuum of states, all places of the circuit and all errors", "anchors": ["PyQCodes/codes.py:StabilizerCode.single_syndrome_measurement"]}
{"id": "C148", "title": "Any number of errors anywhere in the circuits", "statement": "Let any Pauli operators happen before, between and after the gates of a circuit sent by encoding_circuit, apply_stabilizer_circuit, decoding_circuit, logical_circuit or single_syndrome_measurement. Whatever the state, the result is, up to a common phase, that of the circuit without errors followed by one Pauli operator: the product of the errors, each taken through the gates that come after it, where a Hadamard gate exchanges X and Z and a controlled gate puts its letter on the target for a flip of the control and Z on the control for an error it anticommutes with. An error spreads to at most one more qubit for every controlled gate. A syndrome measurement with such errors has exactly one possible result, flipped if this operator flips the ancilla. Any number of rounds of error correction with errors anywhere in the measurements leave what is encoded with one Pauli operator and bring it back exactly when that is in the group of the code. Errors in the encoding circuit are repaired by the next round if what the table holds for their product completes it to an operator of the group.", "quantifier": "all circuits of the five builders with any arguments, all states, all errors at all places, all tables and all numbers of rounds; for the rounds all lists of independent 0/1 generators with even numbers of Ys the constructor accepts", "why_tests_cant": "ranges over all circuits, a continuum of states and all histories of errors", "anchors": ["PyQCodes/codes.py:StabilizerCode.single_syndrome_measurement", "PyQCodes/codes.py:StabilizerCode.encoding_circuit", "PyQCodes/codes.py:StabilizerCode.decoding_circuit", "PyQCodes/codes.py:StabilizerCode.logical_circuit", "PyQCodes/codes.py:StabilizerCode.apply_stabilizer_circuit"]}
{"id": "C149", "title": "A whole transmission with errors everywhere", "statement": "Put any state on the last k qubits of a fresh register, run encoding_circuit for zeros, any number of rounds of error correction (the measurements of all generators with fresh ancillas and the correction a table prescribes for the results), then decoding_circuit, with any Pauli errors before, between and after the gates of the encoding circuit, the measurements and the decoding circuit. This can be done with exactly one result. The decoded qubits hold the state with one Pauli operator on them, computed from the errors alone: the errors of the encoding circuit taken to its end, what the rounds leave of them, seen as X on qubit i if it anticommutes with logical Z i and as Z if it anticommutes with logical X i, times what is left on the decoded qubits of the errors of the decoding circuit. The code qubits end in one state that does not depend on the message. The message arrives, whatever it was, exactly when this operator is the identity; if the rounds leave a member of the group of the code, it consists of the errors of the decoding circuit alone.", "quantifier": "all lists of independent 0/1 generators with even numbers of Ys the constructor accepts (decoding alone: all 0/1 generators), all messages, all tables, all numbers of rounds, all errors at all places", "why_tests_cant": "ranges over all codes, a continuum of messages and all histories of errors", "anchors": ["PyQCodes/codes.py:StabilizerCode.encoding_circuit", "PyQCodes/codes.py:StabilizerCode.single_syndrome_measurement", "PyQCodes/codes.py:StabilizerCode.apply_stabilizer_circuit", "PyQCodes/codes.py:StabilizerCode.decoding_circuit"]}
{"id": "C150", "title": "Errors with an ancilla that is never reset", "statement": "On an engine with n + 1 qubits single_syndrome_measurement uses the last qubit as it is. Let any Pauli errors happen before, between and after the gates of any sequence of such measurements, whatever the state of the register and whatever value the last qubit holds. The results, their probability and the state of the register that remains (up to a sign that does not depend on the state) are those of the same measurements with the same errors and fresh ancillas, where each single result is the change from one result to the next. On encoded states exactly one list of results is possible, and an error that flips the ancilla at the end of one measurement flips that result and all later ones. Any number of rounds of error correction with such errors leave what is encoded with one Pauli operator and bring it back exactly when that is in the group of the code; a user who looks up the changes from one result to the next gets it back for exactly the same errors as with fresh ancillas.", "quantifier": "all sequences of valid operators, all states, both values of the last qubit, all errors at all places, all tables and all numbers of rounds; for encoded states and rounds all lists of independent 0/1 generators with even numbers of Ys the constructor accepts", "why_tests_cant": "ranges over a continuum of states and all histories of measurements and errors", "anchors": ["PyQCodes/codes.py:StabilizerCode.single_syndrome_measurement", "PyQCodes/codes.py:StabilizerCode.apply_stabilizer_circuit"]}
{"id": "C151", "title": "The channel that random errors make of the encoded qubits", "statement": "Encode a state with encoding_circuit, let a Pauli error drawn with any probabilities happen, do not correct it, run decoding_circuit and ignore the code qubits. The decoded qubits are then in the mixture of the encoded state with Pauli operators on k qubits applied, where each operator L has the total probability of the errors that anticommute with logical Z i exactly where L has an X and with logical X i exactly where L has a Z. With any number of rounds of error correction with a table before decoding the same holds with the product of all errors and applied rows in place of the error. Each of the 4^k operators L belongs to 4^(n-k) of the errors. If all errors are equally likely, the decoded qubits are maximally mixed whatever was encoded. In both cases every encoded state comes back unharmed exactly when every error (with rounds: every product of errors and applied rows) that has a positive probability commutes with all logical operators.", "quantifier": "all lists of 0/1 generators the constructor accepts, independent or not, all encoded states, all probabilities of the errors, both ways of supplying the ancillas; with rounds of error correction all lists of independent 0/1 generators with even numbers of Ys, all tables, all joint distributions of the errors of the rounds", "why_tests_cant": "ranges over all codes, a continuum of states and of probabilities of the 4^n errors", "anchors": ["PyQCodes/codes.py:StabilizerCode.encoding_circuit", "PyQCodes/codes.py:StabilizerCode.decoding_circuit"]}
