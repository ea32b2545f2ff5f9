{"id": "C01", "title": "ncon computes the Einstein sum", "statement": "For a well-labelled network (each positive label occurs exactly twice, each negative label exactly once, no label 0, one label per leg, equal extents at the two ends of a contracted label) ncon returns, without raising, the array whose entry at free index f is the sum over all values of the contracted labels of the product of the tensor entries.", "quantifier": "every list of tensors of every rank and extent over a commutative ring, every labelling including traces and disconnected graphs, every contraction order, every iteration order of Python sets", "why_tests_cant": "the number of graphs, labelings, orders and extents is unbounded; a test fixes one graph", "anchors": ["xmps/ncon.py:ncon", "xmps/ncon.py:connect_graph", "xmps/ncon.py:get_tcon", "xmps/ncon.py:get_icon", "xmps/ncon.py:find_newv", "xmps/ncon.py:permute_final"]}
{"id": "C02", "title": "ncon result does not depend on the contraction order", "statement": "Two calls of ncon that differ only in the `order` argument (any two permutations of the contracted labels) return equal arrays; passing a different `forder` permutes the legs of the result and nothing else.", "quantifier": "every well-labelled network and every pair of orders / free orders", "why_tests_cant": "factorially many orders per network", "anchors": ["xmps/ncon.py:ncon", "xmps/ncon.py:create_order", "xmps/ncon.py:create_forder"]}
{"id": "C03", "title": "ncon index check rejects exactly the malformed networks", "statement": "With check_indices=True and default orders, ncon raises ValueError exactly when the number of label lists, the number of labels of a tensor, the multiplicity of a label or the extents of a contracted label are wrong, and otherwise returns an array.", "quantifier": "every list of tensors and every list of label lists with non-zero labels", "why_tests_cant": "infinitely many malformed inputs", "anchors": ["xmps/ncon.py:do_check_indices", "xmps/ncon.py:ncon"]}
{"id": "C04", "title": "ncon does not modify its arguments", "statement": "After ncon returns, the caller's list of tensors, label lists, order and forder are what they were, so the same call can be repeated with the same result.", "quantifier": "every network, every order argument", "why_tests_cant": "needs the effect on every input observed, in particular on disconnected graphs with an explicit order", "anchors": ["xmps/ncon.py:connect_graph", "xmps/ncon.py:ncon"]}
{"id": "C05", "title": "group_legs and ungroup_legs are inverse", "statement": "ungroup_legs(*group_legs(a, cl)) is a, and the grouped array has entry at the row-major ravelled grouped indices equal to the entry of a, for any partition cl of the axes of a into ordered groups.", "quantifier": "every array of every rank and shape and every ordered partition of its axes", "why_tests_cant": "ranks and partitions unbounded", "anchors": ["xmps/peps_tools.py:group_legs", "xmps/peps_tools.py:ungroup_legs", "xmps/peps_tools.py:inverse_transpose"]}
{"id": "C06", "title": "partial traces are reduced density matrices", "statement": "\u03c1A(u, keep, dims) is the partial trace of |u><u| over the complement of keep; it is Hermitian, its trace is the squared norm of u, and partial_trace of the outer product returns the same array.", "quantifier": "every vector, every list of local dimensions, every set keep", "why_tests_cant": "all dims lists and subsets", "anchors": ["xmps/tensor.py:\u03c1A", "xmps/tensor.py:partial_trace"]}
{"id": "C07", "title": "loc and split_up agree with kron", "statement": "H[loc(st, uv, d)] is A[st]*B[uv] for H = kron(A, B), and split_up(H, d)[k,i,l,j] is A[i,j]*B[k,l]; with p, q given the same holds for rectangular B.", "quantifier": "every pair of matrices and every dimension", "why_tests_cant": "every dimension and index", "anchors": ["xmps/tensor.py:loc", "xmps/tensor.py:split_up", "xmps/tensor.py:loc_3", "xmps/tensor.py:split_up_3"]}
{"id": "C08", "title": "recombine returns the amplitudes", "statement": "fMPS.recombine()[s1..sL] is the sum over all bond indices of the product of the tensor entries, for every well-formed chain.", "quantifier": "every chain length, local dimensions, bond dimensions, basis state", "why_tests_cant": "exponentially many amplitudes, unbounded length", "anchors": ["xmps/fMPS.py:fMPS.recombine"]}
{"id": "C09", "title": "MPS addition adds states", "statement": "x.add(y).recombine() == x.recombine() + y.recombine(), and x.add(y.mul(-1)) subtracts, for two chains of the same length and local dimensions.", "quantifier": "all pairs of chains of equal length", "why_tests_cant": "unbounded lengths and bond dimensions, including length 1", "anchors": ["xmps/fMPS.py:fMPS.add", "xmps/fMPS.py:fMPS.__sub__", "xmps/fMPS.py:fMPS.mul"]}
{"id": "C10", "title": "scalar multiples of an MPS", "statement": "c.mul scales every amplitude by c exactly once; * and / act on every tensor.", "quantifier": "every chain, every scalar", "why_tests_cant": "unbounded length", "anchors": ["xmps/fMPS.py:fMPS.mul", "xmps/fMPS.py:fMPS.__mul__", "xmps/fMPS.py:fMPS.__truediv__"]}
{"id": "C11", "title": "product states and single-site operators", "statement": "from_product_state(v) has amplitude prod v_k[s_k]; apply((op, site)) multiplies the state by op at that site, leaves the receiver unchanged, and applying a then b on one site equals applying b@a; operators on different sites commute.", "quantifier": "every chain, every operator, every site", "why_tests_cant": "all states and operators", "anchors": ["xmps/fMPS.py:fMPS.from_product_state", "xmps/fMPS.py:fMPS.apply"]}
{"id": "C12", "title": "two-site gates act on the two named sites", "statement": "apply_two_site((op, (i, j))) with no truncation multiplies the state by op acting on sites i and j (first leg of op on i), also for distant sites.", "quantifier": "every qubit chain, every 4x4 operator, every pair i<j, every QR factorisation LAPACK may return", "why_tests_cant": "all pairs, all states", "anchors": ["xmps/fMPS.py:fMPS.apply_two_site", "xmps/fMPS.py:apply_unitary", "xmps/fMPS.py:group_tensors", "xmps/fMPS.py:separate_tensor_qr", "xmps/fMPS.py:separate_tensor_rq"]}
{"id": "C13", "title": "post_select fixes a site", "statement": "post_select(site, which) leaves a chain of length L-1 whose amplitudes are those of the original with s_site = which.", "quantifier": "every chain with at least two sites, every site, every value", "why_tests_cant": "all states and sites", "anchors": ["xmps/fMPS.py:fMPS.post_select"]}
{"id": "C14", "title": "overlap is the inner product", "statement": "overlap(x, y) is the inner product of the two state vectors and agrees with full_overlap(x, y); norm() is the squared norm, real and non-negative.", "quantifier": "all pairs of chains of equal length", "why_tests_cant": "exponential sums over unbounded lengths", "anchors": ["xmps/fMPS.py:fMPS.overlap", "xmps/fMPS.py:fMPS.full_overlap", "xmps/fMPS.py:fMPS.norm"]}
{"id": "C15", "title": "orthogonalisation preserves the state", "statement": "left_orthogonalise / right_orthogonalise / mixed_orthogonalise leave a chain whose tensors are isometries on the stated side of the orthogonality centre, have norm 1 and whose state times norm_ is the original state.", "quantifier": "every non-zero chain, every orthogonality centre, every factorisation meeting the QR/RQ contract", "why_tests_cant": "every chain and centre", "anchors": ["xmps/fMPS.py:fMPS.left_orthogonalise", "xmps/fMPS.py:fMPS.right_orthogonalise", "xmps/fMPS.py:fMPS.mixed_orthogonalise"]}
{"id": "C16", "title": "canonicalisation preserves the state", "statement": "left_canonicalise() and right_canonicalise() without truncation return a chain in canonical form whose state is the original up to a scalar.", "quantifier": "every chain, every factorisation meeting the SVD and eigendecomposition contracts", "why_tests_cant": "every chain, including rank deficient ones", "anchors": ["xmps/fMPS.py:fMPS.left_canonicalise", "xmps/fMPS.py:fMPS.right_canonicalise", "xmps/tensor.py:truncate_A", "xmps/tensor.py:truncate_B", "xmps/tensor.py:rank"]}
{"id": "C17", "title": "truncation bounds every bond", "statement": "After left_canonicalise(D) or right_canonicalise(D) every bond dimension is at most D, neighbouring bonds match and the outer bonds are 1.", "quantifier": "every chain and every D >= 1", "why_tests_cant": "all chains", "anchors": ["xmps/fMPS.py:fMPS.left_canonicalise", "xmps/fMPS.py:fMPS.right_canonicalise", "xmps/tensor.py:truncate_A", "xmps/tensor.py:truncate_B"]}
{"id": "C18", "title": "left_from_state and right_from_state reproduce the vector", "statement": "The chain built from a state tensor has amplitudes proportional to the tensor, with a factor of modulus equal to the norm, and its tensors are isometries.", "quantifier": "every tensor of shape (d,...,d), every factorisation meeting the SVD contract", "why_tests_cant": "every L, d and state", "anchors": ["xmps/fMPS.py:fMPS.left_from_state", "xmps/fMPS.py:fMPS.right_from_state"]}
{"id": "C19", "title": "create_structure yields a consistent open chain", "statement": "create_structure(L, d, D) lists L pairs with matching neighbours, outer bonds 1, bond i equal to min(d**min(i, L-i), D), and is symmetric under reversal.", "quantifier": "all L >= 2, d >= 1, D >= 1", "why_tests_cant": "all sizes", "anchors": ["xmps/fMPS.py:fMPS.create_structure"]}
{"id": "C20", "title": "serialize and deserialize round trip", "statement": "fMPS().deserialize(x.serialize(real), L, d, D, real) returns a chain equal to x, with or without an explicit structure.", "quantifier": "every chain, both settings of real", "why_tests_cant": "all shapes and data; shapes that are not the default structure", "anchors": ["xmps/fMPS.py:fMPS.serialize", "xmps/fMPS.py:fMPS.deserialize", "xmps/iMPS.py:iMPS.serialize", "xmps/iMPS.py:iMPS.deserialize"]}
{"id": "C21", "title": "store and load round trip", "statement": "load(f) after x.store(f) returns a chain equal to x.", "quantifier": "every chain, every file name, every earlier content of the file system", "why_tests_cant": "all names and shapes", "anchors": ["xmps/fMPS.py:fMPS.store", "xmps/fMPS.py:fMPS.load", "xmps/iMPS.py:iMPS.store", "xmps/iMPS.py:iMPS.load"]}
{"id": "C22", "title": "padding does not change the state", "statement": "mps_pad(x, y) returns chains with equal structure and the same states as x and y.  expand(D) on a chain whose bonds do not exceed the standard bonds for D returns an object with exactly the standard bonds whose state is the old one divided by the factor stored in norm_; if a bond would have to shrink it raises ValueError.", "quantifier": "all pairs of chains of equal length; all chains, all D", "why_tests_cant": "all shapes", "anchors": ["xmps/tensor.py:mps_pad", "xmps/fMPS.py:fMPS.expand"]}
{"id": "C23", "title": "expectation values are <psi|O|psi>", "statement": "For a normalised state E(op, site), Es([op], site), E_k(op, [site]) and Tr(rho([site]) op) all equal <psi|op|psi>.", "quantifier": "every chain, every Hermitian operator, every site", "why_tests_cant": "all states and operators; agreement of several code paths", "anchors": ["xmps/fMPS.py:fMPS.E", "xmps/fMPS.py:fMPS.E_", "xmps/fMPS.py:fMPS.Es", "xmps/fMPS.py:fMPS.E_k", "xmps/fMPS.py:fMPS.rho", "xmps/fMPS.py:fMPS.links"]}
{"id": "C24", "title": "expectation values do not depend on the call history", "statement": "Whatever sequence of operations produced an MPS object, E(op, site) is the expectation value in the state the object currently holds.", "quantifier": "every finite sequence of public operations", "why_tests_cant": "needs every history", "anchors": ["xmps/fMPS.py:fMPS.E", "xmps/fMPS.py:fMPS.apply_two_site", "xmps/fMPS.py:fMPS.mixed_orthogonalise", "xmps/fMPS.py:fMPS.post_select"]}
{"id": "C25", "title": "factors splits evenly", "statement": "factors(n) returns two integers with product n whose difference is minimal; for n = d*d it returns [d, d].", "quantifier": "all n >= 1", "why_tests_cant": "all n", "anchors": ["xmps/fMPS.py:factors", "xmps/fPEPS.py:factors"]}
{"id": "C26", "title": "Hamiltonian terms sum to the full Hamiltonian", "statement": "Hamiltonian(strings).to_full(L) is the sum over bonds of the two-body terms plus the sum over sites of the one-body terms, each with the coefficient the user gave.", "quantifier": "every dictionary of Pauli strings, every L", "why_tests_cant": "all coefficient dictionaries and lengths", "anchors": ["xmps/Hamiltonians.py:Hamiltonian.__init__", "xmps/Hamiltonians.py:Hamiltonian.to_matrices", "xmps/Hamiltonians.py:Hamiltonian.to_full"]}
{"id": "C27", "title": "the MPO is the Hamiltonian", "statement": "Contracting Hamiltonian(strings).to_mpo(L) gives the same matrix as to_full(L).", "quantifier": "all Heisenberg-type dictionaries and all L", "why_tests_cant": "all lengths", "anchors": ["xmps/Hamiltonians.py:Hamiltonian.to_mpo", "xmps/Hamiltonians.py:Hamiltonian.to_full"]}
{"id": "C28", "title": "n_body places an operator at the named site", "statement": "n_body(op, i, n) is 1 x .. x op x .. x 1 with op at site i (1-based); operators at different sites commute; an out-of-range site raises.", "quantifier": "all op, i, n", "why_tests_cant": "all sizes", "anchors": ["xmps/spin.py:n_body"]}
{"id": "C29", "title": "spin matrices obey the su(2) algebra", "statement": "spins(S) are Hermitian, [Sx,Sy] = i Sz and cyclic, and Sx^2+Sy^2+Sz^2 = S(S+1).", "quantifier": "every S = n/2", "why_tests_cant": "all S", "anchors": ["xmps/spin.py:spins"]}
{"id": "C30", "title": "su(N) is an orthogonal Hermitian traceless basis", "statement": "su(N) lists N^2-1 Hermitian traceless matrices with Tr(ab) = 2 delta_ab, and every traceless matrix is the combination given by components.", "quantifier": "every N", "why_tests_cant": "all N", "anchors": ["xmps/spin.py:su", "xmps/spin.py:components"]}
{"id": "C31", "title": "levi_civita is the sign of a permutation", "statement": "levi_civita(n)[i1..in] is the sign of the permutation, 0 if an index repeats.", "quantifier": "every n and every index", "why_tests_cant": "n^n entries", "anchors": ["xmps/spin.py:levi_civita"]}
{"id": "C32", "title": "Nsphere returns unit vectors", "statement": "Nsphere(v) has Euclidean norm 1.", "quantifier": "every vector of every length", "why_tests_cant": "all real vectors", "anchors": ["xmps/spin.py:Nsphere"]}
{"id": "C33", "title": "transfer matrices", "statement": "TransferMatrix and Map: asmatrix() applied to the vectorised matrix equals mv, mvr is the adjoint of mv.", "quantifier": "all tensors", "why_tests_cant": "all shapes and entries", "anchors": ["xmps/iMPS.py:Map", "xmps/iMPS.py:TransferMatrix"]}
{"id": "C34", "title": "cached blocks equal fresh ones", "statement": "For one id, F1(i, j) returns the same value whether or not earlier calls filled the cache.", "quantifier": "every sequence of (i, j) requests, every L", "why_tests_cant": "every request history and size", "anchors": ["xmps/fMPS.py:fMPS.F1", "xmps/fMPS.py:fMPS.F2", "xmps/fMPS.py:fMPS.christoffel"]}
{"id": "C35", "title": "trajectory history", "statement": "After any sequence of integrations, expansions, contractions and clears, mps_list() returns the states that were integrated, in order.", "quantifier": "every sequence of operations", "why_tests_cant": "every history", "anchors": ["xmps/fTDVP.py:Trajectory"]}
{"id": "C36", "title": "rk4 is the classical fourth-order scheme", "statement": "One rk4 step of size h on a linear vector field A -> z A is multiplication by 1+hz+(hz)^2/2+(hz)^3/6+(hz)^4/24.", "quantifier": "all step sizes and fields", "why_tests_cant": "order of accuracy is a statement about all h", "anchors": ["xmps/fTDVP.py:Trajectory.rk4", "xmps/iTDVP.py:Trajectory.rk4"]}
{"id": "C37", "title": "thermofield double from an MPS", "statement": "fTFD().from_fMPS(x) has amplitude x(s)x(t), is invariant under symmetry, symmetry is an involution.", "quantifier": "every chain", "why_tests_cant": "all chains", "anchors": ["xmps/fMPS.py:fTFD.from_fMPS", "xmps/fMPS.py:fTFD.symmetry", "xmps/fMPS.py:fTFD.symmetrise"]}
{"id": "C38", "title": "PEPS reflections", "statement": "T, R, U are involutions on a PEPS, keep neighbouring bonds matched and permute the amplitudes by the reflection.", "quantifier": "every rectangular PEPS", "why_tests_cant": "all sizes", "anchors": ["xmps/fPEPS.py:fPEPS.T", "xmps/fPEPS.py:fPEPS.R", "xmps/fPEPS.py:fPEPS.U"]}
{"id": "C39", "title": "match_gauge_to keeps the state", "statement": "x.match_gauge_to(y) changes the state of x at most by a phase.", "quantifier": "every pair of chains of equal structure, every polar factorisation", "why_tests_cant": "all chains", "anchors": ["xmps/fMPS.py:fMPS.match_gauge_to"]}
{"id": "C40", "title": "copies are independent", "statement": "No operation on x.copy() changes the state of x, and apply does not change its receiver.", "quantifier": "every sequence of operations on the copy", "why_tests_cant": "every history", "anchors": ["xmps/fMPS.py:fMPS.copy", "xmps/fMPS.py:fMPS.mixed_orthogonalise"]}
{"id": "C41", "title": "transfer and environments", "statement": "left_transfer(op, j, i) maps an operator through sites j..i-1 and composes: through j..k equals through i..k then j..i; get_envs gives the left and right environments.", "quantifier": "every chain, all j<=i<=k, all operators", "why_tests_cant": "all positions and chains", "anchors": ["xmps/fMPS.py:fMPS.left_transfer", "xmps/fMPS.py:fMPS.right_transfer", "xmps/fMPS.py:fMPS.get_envs"]}
{"id": "C42", "title": "MPO product is the matrix product", "statement": "(A*B).recombine() == A.recombine() @ B.recombine() for fMPO, and an MPO times an MPS is the matrix times the vector.", "quantifier": "all pairs of MPOs of equal length", "why_tests_cant": "all lengths", "anchors": ["xmps/fPEPS.py:fMPO.__mul__", "xmps/fPEPS.py:fMPO.recombine"]}
{"id": "C43", "title": "symplectic matrices", "statement": "sympmat(n) squares to -1 and is orthogonal; changebasis(n) is a permutation matrix that turns sympmat(2n) into n blocks of [[0,1],[-1,0]].", "quantifier": "all even n", "why_tests_cant": "all sizes", "anchors": ["xmps/fMPS.py:sympmat", "xmps/fMPS.py:changebasis"]}
{"id": "C44", "title": "unitary_extension extends", "statement": "unitary_extension(Q, D) is unitary and has Q as its upper left block.", "quantifier": "all isometries Q and all D at least max(Q.shape), every null space basis", "why_tests_cant": "all shapes", "anchors": ["xmps/tensor.py:unitary_extension", "xmps/tensor.py:direct_sum"]}
{"id": "C45", "title": "canonicality tests are sound", "statement": "is_left_canonical / is_right_canonical return True exactly when every tensor is an isometry on that side.", "quantifier": "every list of tensors", "why_tests_cant": "all lists", "anchors": ["xmps/tests.py:is_left_canonical", "xmps/tests.py:is_right_canonical"]}
{"id": "C46", "title": "infinite MPS canonicalisation", "statement": "iMPS.canonicalise('r'/'l') returns a right/left canonical tensor that generates the same state up to gauge and normalisation.", "quantifier": "every injective tensor, every factorisation meeting the contracts", "why_tests_cant": "all tensors", "anchors": ["xmps/iMPS.py:iMPS.canonicalise"]}
{"id": "C47", "title": "the run directory number is fresh", "statement": "Trajectory.stop() writes to a directory that did not exist, and numbers runs consecutively.", "quantifier": "every earlier content of the run directory", "why_tests_cant": "every history of runs", "anchors": ["xmps/fTDVP.py:Trajectory.stop"]}
{"id": "C48", "title": "TDVP tangent vectors are in the left gauge", "statement": "Every tensor B returned by dA_dt satisfies sum_s A_s^dagger l B_s = 0.", "quantifier": "every chain and Hamiltonian", "why_tests_cant": "all chains", "anchors": ["xmps/fMPS.py:fMPS.dA_dt", "xmps/fMPS.py:fMPS.left_null_projector"]}
{"id": "C49", "title": "tangent vector import and export round trip", "statement": "extract_tangent_vector(import_tangent_vector(v)) == v.", "quantifier": "every tangent vector", "why_tests_cant": "all chains and vectors", "anchors": ["xmps/fMPS.py:fMPS.extract_tangent_vector", "xmps/fMPS.py:fMPS.import_tangent_vector"]}
{"id": "C50", "title": "vidal form round trip", "statement": "vfMPS().from_fMPS(x).to_fMPS() equals x when x is right canonical with invertible Schmidt matrices.", "quantifier": "every such chain", "why_tests_cant": "all chains", "anchors": ["xmps/fMPS.py:vfMPS.from_fMPS", "xmps/fMPS.py:vfMPS.to_fMPS"]}
{"id": "C51", "title": "embed / deembed", "statement": "deembed(embed(v)) == v / norm(v) and embed(v) is unitary.", "quantifier": "every non-zero 2x2 block", "why_tests_cant": "all matrices", "anchors": ["xmps/tensor.py:embed", "xmps/tensor.py:deembed"]}
{"id": "C52", "title": "swap gates", "statement": "swap() is a self-inverse permutation gate, swap_symmetrise and swap_antisymmetrise project on the symmetric and antisymmetric operators.", "quantifier": "every two-qubit operator", "why_tests_cant": "all operators", "anchors": ["xmps/spin.py:swap", "xmps/spin.py:swap_symmetrise", "xmps/spin.py:swap_antisymmetrise"]}
{"id": "C53", "title": "controlled gates", "statement": "CZ() and CNOT() act as Z and X on the second qubit when the first is 1 and are self-inverse; the angles of CRy add and CRy is orthogonal.", "quantifier": "all product vectors and all angles", "why_tests_cant": "continuous parameters", "anchors": ["xmps/spin.py:CZ", "xmps/spin.py:CNOT", "xmps/spin.py:CRy"]}
{"id": "C54", "title": "entanglement_entropy is the entropy of the Schmidt weights", "statement": "x.entanglement_entropy(site) is -sum p log p over the squared Schmidt coefficients p of the normalised state across the bond left of site; the call leaves the state of x unchanged up to a factor.", "quantifier": "every chain, every bond, every factorisation meeting its contract", "why_tests_cant": "quantifies over all states and all admissible SVD/eig outputs; a test sees one LAPACK build", "anchors": ["xmps/fMPS.py:fMPS.entanglement_entropy", "xmps/fMPS.py:fMPS.left_canonicalise"]}
{"id": "C55", "title": "energy is the expectation value per site", "statement": "After left_canonicalise() or right_canonicalise(), x.energy(H) for a list of two-site matrices is the sum of their normalised expectation values divided by the number of sites; without canonicalising first it is not.", "quantifier": "every chain, every list of fewer than L two-site matrices, every factorisation meeting its contract", "why_tests_cant": "get_envs keeps only the real diagonal of each environment, so correctness depends on every environment of the chain being diagonal; a test on canonical or product states never sees the loss", "anchors": ["xmps/fMPS.py:fMPS.energy", "xmps/fMPS.py:fMPS.get_envs"]}
{"id": "C56", "title": "environment, rank and trace tests mean what they say", "statement": "is_right_env_canonical(mats, sings) and is_left_env_canonical(mats, sings) are True exactly when every tensor carries each recorded environment to the next one within the tolerance of allclose; is_full_rank is True exactly when no diagonal entry vanishes, and has_trace_1 exactly when every trace is within 1e-8 of 1. The last tensor of the chain is in fact never checked.", "quantifier": "every chain with matrices on its bonds", "why_tests_cant": "these predicates are what the test-suite itself asserts with, so their meaning cannot be settled by it", "anchors": ["xmps/tests.py:is_right_env_canonical", "xmps/tests.py:is_left_env_canonical", "xmps/tests.py:is_full_rank", "xmps/tests.py:has_trace_1"]}
{"id": "C57", "title": "embed puts a vector into a unitary", "statement": "embed(v) is unitary with v/norm(v) as its first column, and deembed(embed(v)) == v/norm(v) for a 2 by 2 matrix.", "quantifier": "every non-zero array, every null space basis", "why_tests_cant": "all arrays and every choice of basis", "anchors": ["xmps/tensor.py:embed", "xmps/tensor.py:deembed"]}
{"id": "C58", "title": "unique QR", "statement": "uqr(A) is the QR factorisation of A with positive diagonal, independent of the signs LAPACK chose, when the columns of A are independent; urq(A) multiplies back to A. When R has a zero on its diagonal uqr returns a first factor with a zero column, which is not an isometry.", "quantifier": "every matrix, every QR factorisation with real diagonal", "why_tests_cant": "uniqueness is a statement about all factorisations; random test matrices are never rank deficient", "anchors": ["xmps/tensor.py:uqr", "xmps/tensor.py:urq"]}
{"id": "C59", "title": "one-site expectation values of thermofield doubles", "statement": "fTFD.E(op, site, lr) is the normalised expectation value of op (transposed) on the chosen copy; on fTFD().from_fMPS(x) both copies give what x.E(op, site) gives.", "quantifier": "every doubled chain, site, one-site matrix and lr; every factorisation meeting the SVD contract", "why_tests_cant": "all chains and matrices", "anchors": ["xmps/fMPS.py:fTFD.E", "xmps/fMPS.py:fTFD.Es"]}
{"id": "C60", "title": "overlap, norm and expectation values of PEPS", "statement": "x.overlap(y) is the 1 by 1 matrix holding <x|y>, summed over all basis states; x.norm() holds the square root of the sum of squared moduli; x.apply(op, (i, j)) acts with op on column i, row j; x.E(op, site) is the real part of <x|op|x>; x.normalise() divides the amplitudes by the norm. A grid with a single column raises ValueError.", "quantifier": "every grid with open boundaries, at least one row and at least two columns, with any bond and physical extents, every one-site matrix", "why_tests_cant": "tests compare with a recombined state on a few small grids", "anchors": ["xmps/fPEPS.py:fPEPS.overlap", "xmps/fPEPS.py:fPEPS.norm", "xmps/fPEPS.py:fPEPS.apply", "xmps/fPEPS.py:fPEPS.E", "xmps/fPEPS.py:fPEPS.normalise"]}
{"id": "C61", "title": "expectation values of an infinite MPS", "statement": "iMPS.E(op) is the expectation value of op per site of the infinite chain, and E(op, c) after canonicalise(c) gives the same number.", "quantifier": "every tensor with positive definite leading fixed points, every operator, every way to store the state", "why_tests_cant": "all tensors and operators; tests use real symmetric operators, for which a transposition is invisible", "anchors": ["xmps/iMPS.py:iMPS.E", "xmps/iMPS.py:iMPS.canonicalise"]}
{"id": "C62", "title": "energy of an infinite MPS", "statement": "iMPS.energy([h]) is the expectation value of the two-site operator h on neighbouring sites of the normalised infinite state.", "quantifier": "every normalised tensor, every two-site operator", "why_tests_cant": "all tensors; for real symmetric or right canonical fixed points the defect is invisible", "anchors": ["xmps/iMPS.py:iMPS.energy", "xmps/iMPS.py:TransferMatrix.eigs"]}
{"id": "C63", "title": "mixed canonical form of an infinite MPS", "statement": "When iMPS.mixed() ends it returns AL, AR, C with AL a left isometry, AR a right isometry, AL C = C AR up to the tolerance, and AL gauge equivalent to the tensor up to the tolerance; before it ends it raises nothing.", "quantifier": "every tensor injective from both sides, every invertible start, every tolerance, any number of rounds", "why_tests_cant": "unbounded loop over all tensors and random starts", "anchors": ["xmps/iMPS.py:iMPS.mixed", "xmps/iMPS.py:iMPS._lmixed", "xmps/iMPS.py:iMPS._rmixed"]}
{"id": "C64", "title": "dA_dt is the TDVP tangent vector", "statement": "For a chain with diagonal positive environments (for instance after left_canonicalise()) dA_dt(H) returns the tangent vector of the time-dependent variational principle: it is orthogonal to the state, it is the orthogonal projection of -iH\u03c8 on the tangent vectors in the left gauge and therefore the closest of them, and along it the energy does not change to first order.", "quantifier": "every chain with diagonal positive environments, every list of two-site Hamiltonian terms, and every matrix on the whole chain with fullH=True", "why_tests_cant": "a universal statement about optimality over all tangent vectors", "anchors": ["xmps/fMPS.py:fMPS.dA_dt", "xmps/fMPS.py:fMPS.left_null_projector", "xmps/fMPS.py:fMPS.get_envs"]}
{"id": "C65", "title": "tangent states", "statement": "tangent_state(X, n) is the state with the tangent tensor inv(ch(l)) vL X inv(ch(r)) in place of the tensor n; the tangent tensor is in the left gauge and the inner product of two tangent states at a site is the inner product of their X.", "quantifier": "every chain with diagonal positive environments, every site, every X of the shape given by tangent_space_dims", "why_tests_cant": "all chains and coordinates; the default argument is never exercised by the tests", "anchors": ["xmps/fMPS.py:fMPS.tangent_state", "xmps/fMPS.py:fMPS.left_null_projector", "xmps/fMPS.py:fMPS.tangent_space_dims"]}
{"id": "C66", "title": "tangent space bases", "statement": "tangent_space_basis('eye') is the identity matrix whose size is the dimension of the tangent space, sum over the sites of (d p - q) q; tangent_space_basis('rand') has orthonormal rows of the same number and length.", "quantifier": "every chain with diagonal positive environments, every random matrix", "why_tests_cant": "all chains and random matrices", "anchors": ["xmps/fMPS.py:fMPS.tangent_space_basis", "xmps/fMPS.py:fMPS.tangent_space_dims"]}
{"id": "C67", "title": "parametrised unitaries are special unitary and reach every unitary", "statement": "SU(v, N), SU4, SU8, U4 and U4s return, for every real coordinate vector of the right length, a unitary matrix of determinant one; any other length raises ValueError.  U4s(v) commutes with the exchange of the two sites.  Conversely every unitary is SU(v, N) up to a phase, and every exchange-symmetric two-site unitary is U4s(v) up to a phase.", "quantifier": "all N, all real coordinate vectors, all unitary matrices", "why_tests_cant": "continuous parameters, all sizes; reaching every unitary is an existence claim", "anchors": ["xmps/spin.py:SU", "xmps/spin.py:SU4", "xmps/spin.py:SU8", "xmps/spin.py:U4", "xmps/spin.py:U4s"]}
{"id": "C68", "title": "lambdas and slambdas are bases", "statement": "lambdas() is a trace-orthogonal basis (squared norm 2) of the traceless Hermitian 4 x 4 matrices.  slambdas() is a basis of those that commute with the exchange of the two sites (the docstring's 'should prove this!'), and its span is closed under commutators.", "quantifier": "all Hermitian traceless 4 x 4 matrices", "why_tests_cant": "completeness and uniqueness quantify over all matrices", "anchors": ["xmps/spin.py:lambdas", "xmps/spin.py:slambdas"]}
{"id": "C69", "title": "antiferro and ferro are spinors", "statement": "antiferro() and ferro() return three Hermitian matrices that satisfy the commutation relations of the Pauli matrices (the test pCR).", "quantifier": "none (constants)", "why_tests_cant": "no test in the repository covers them; the claim is an exact identity", "anchors": ["xmps/spin.py:antiferro", "xmps/spin.py:ferro", "xmps/spin.py:pCR"]}
{"id": "C70", "title": "insu2N adds an idle qubit", "statement": "insu2N(v, where) returns the coordinates in su(2n) of the generator with coordinates v in su(n), acting as the identity on a qubit added on the left, on the right, or before the last one; so SU(insu2N(v, where), 2n), and SU(v, n, '2N') for the default place, is SU(v, n) with an idle qubit.  The default place needs n to be a power of two; otherwise ValueError.", "quantifier": "all n, all coordinate vectors, all three places", "why_tests_cant": "all sizes and continuous parameters; tested only for two sizes on random vectors", "anchors": ["xmps/spin.py:insu2N", "xmps/spin.py:SU"]}
{"id": "C71", "title": "coordinates can be recovered from a unitary up to a phase", "statement": "extractv(U) returns n^2 - 1 real coordinates whose unitary is U up to a phase; to_new_v(v) returns coordinates of the same unitary up to an n-th root of one.  equal_up_to_phase(U, V) holds exactly if U and V differ by a phase.", "quantifier": "all unitary matrices of all sizes", "why_tests_cant": "all unitaries; the failing case (zero corner entry) has measure zero for random tests", "anchors": ["xmps/spin.py:extractv", "xmps/spin.py:to_new_v", "xmps/spin.py:equal_up_to_phase"]}
{"id": "C72", "title": "Exact evolution is the Schroedinger evolution and conserves norm and energy", "statement": "edint(T) stores in ed_history, one entry per entry of T, the exact solution exp(-i H k dt) psi_0 of the Schroedinger equation for H = sum of the two-site terms (or the full matrix), where dt = T[1]-T[0]; for equally spaced T entry k is the state at T[k]. For Hermitian terms the norm of every entry and the value returned by ed_energies() never change, the latter being L times energy(H) of the canonicalised initial state. The mps left behind is a normalised left-canonical chain in the state of the last entry.", "quantifier": "every chain of qubits, every list of L-1 two-site matrices, every list of at least two times", "why_tests_cant": "all states, Hamiltonians and time grids; conservation is an identity over all of them", "anchors": ["xmps/fTDVP.py:Trajectory.edint", "xmps/fTDVP.py:Trajectory.ed_evs", "xmps/fTDVP.py:Trajectory.ed_energies"]}
{"id": "C73", "title": "The exact out-of-time-order correlator is a squared norm", "statement": "For Hermitian H, V, W every value returned by ed_OTOC(T, (V, W)) is the squared norm of [W(t), V] psi with W(t) the operator in the Heisenberg picture; it is never negative and vanishes at t = 0 when V and W commute.", "quantifier": "every chain, all Hermitian H, V, W, all lists of at least two times", "why_tests_cant": "all states, operators and times", "anchors": ["xmps/fTDVP.py:Trajectory.ed_OTOC", "xmps/spin.py:comm"]}
{"id": "C74", "title": "Infinite states survive serialisation and files", "statement": "For every unit cell of tensors of shape (d, D, D), deserialize(serialize(), d, D, period) returns equal tensors and attributes, also with real=True; after store(f), load(f) returns the stored cell and no other file changes.", "quantifier": "every d, D, period and all tensors, every content of the file system", "why_tests_cant": "all shapes, contents and file names", "anchors": ["xmps/iMPS.py:iMPS.serialize", "xmps/iMPS.py:iMPS.deserialize", "xmps/iMPS.py:iMPS.store", "xmps/iMPS.py:iMPS.load"]}
{"id": "C75", "title": "The overlap of infinite states lies in [0, 1] and is 1 only for equal states", "statement": "x.overlap(y) returns a number between 0 and 1; it is 1 exactly when the tensors of x and y are related by an invertible change of basis of the bond and a factor, i.e. generate the same infinite state. Afterwards both are in left canonical form and represent the same states as before.", "quantifier": "all injective tensors x, y of equal shape", "why_tests_cant": "all tensors; the equivalence needs the equality case of an inequality", "anchors": ["xmps/iMPS.py:iMPS.overlap", "xmps/iMPS.py:Map.left_fixed_point"]}
{"id": "C76", "title": "Calling a state indexes its tensors from one", "statement": "x(k) returns the k-th tensor, counted from 1 (docstring), for fMPS and iMPS.", "quantifier": "every chain and every k between 1 and its length", "why_tests_cant": "all chains and indices", "anchors": ["xmps/fMPS.py:fMPS.__call__", "xmps/iMPS.py:iMPS.__call__"]}
{"id": "C77", "title": "The example states are those of their docstrings", "statement": "bell(i), comp_z(i), comp_x(i) for i = 1..4 return normalised two-site states whose amplitudes are, up to one factor, those of the docstring; bell and comp_x are left canonical, and different states of a family are orthogonal.", "quantifier": "every i, every SVD and eigensolver within its contract", "why_tests_cant": "the tests compare expectation values only, which do not determine the state; the decompositions are not fixed", "anchors": ["xmps/mps_examples.py:bell", "xmps/mps_examples.py:comp_z", "xmps/mps_examples.py:comp_x", "xmps/mps_examples.py:i_comp_z"]}
{"id": "C78", "title": "AKLT() is the ground state of the AKLT Hamiltonian", "statement": "In the infinite state returned by AKLT() two neighbouring spins are never in a state of total spin two: the expectation value of the projector vanishes.", "quantifier": "the infinite chain", "why_tests_cant": "a statement about the infinite state; there is no test of AKLT()", "anchors": ["xmps/mps_examples.py:AKLT"]}
{"id": "C79", "title": "iMPS.Lh sums the Hamiltonian terms on the left", "statement": "For a normalised infinite MPS, Lh([h]) returns the sum over all n of the two-site term h placed n sites to the left, closed with l and carried to the right by the transfer matrix, each term with its expectation value times l subtracted.", "quantifier": "all tensors with a simple leading eigenvalue 1, all two-site matrices h, every root finder within its contract", "why_tests_cant": "the test checks that the residual of the equation of the code itself vanishes; it does not compare with the sum over the infinitely many terms", "anchors": ["xmps/iMPS.py:iMPS.Lh"]}
{"id": "C80", "title": "iMPS.dA_dt is the tangent vector of the time-dependent variational principle", "statement": "dA_dt([h]) returns the tensor B in the left gauge for which the scalar product of the tangent vector with every variation B' in the left gauge is -i<dpsi(B')|H|psi>, H being the sum of h over all bonds of the infinite chain.", "quantifier": "all tensors with a simple leading eigenvalue 1, all h, all variations", "why_tests_cant": "the claim is about a limit of windows of growing length and all variations", "anchors": ["xmps/iMPS.py:iMPS.dA_dt", "xmps/iMPS.py:iMPS.left_null_projector"]}
{"id": "C81", "title": "iMPS.Rh sums the Hamiltonian terms on the right", "statement": "For a normalised infinite MPS, Rh([h]) returns (with the bra index first) the sum over all n of the two-site term h placed n sites to the right, closed with r and carried to the left by the transfer matrix, each term with its expectation value times r subtracted, as its docstring draws.", "quantifier": "all tensors with a simple leading eigenvalue 1, all h, every root finder within its contract", "why_tests_cant": "the test checks the residual of the equation of the code itself; that the right-hand side is wrong does not show there", "anchors": ["xmps/iMPS.py:iMPS.Rh"]}
{"id": "C82", "title": "ivMPS.canonicalise brings the pair (G, L) to Vidal form without changing the state", "statement": "For an ivMPS with one pair (G, L) whose transfer matrix has a simple leading eigenvalue eta with positive definite fixed points, canonicalise() returns a pair in Vidal canonical form: L is diagonal with positive, decreasing entries and unit norm, and both G L and L G are isometries. The tensor of to_iMPS() afterwards is a gauge transform of the one before, divided by sqrt(eta).", "quantifier": "for all physical and bond dimensions, all complex G, all positive diagonal L, all eigensolvers, Cholesky factorisations, singular value decompositions and inverses that keep their contracts", "why_tests_cant": "The claim is about every tensor and every phase the eigensolver may choose; tests see a few random tensors and compare numbers up to a tolerance.", "anchors": ["xmps/iMPS.py:ivMPS.canonicalise", "xmps/iMPS.py:ivMPS.to_iMPS", "xmps/tensor.py:r_eigenmatrix", "xmps/tensor.py:l_eigenmatrix"]}
{"id": "C83", "title": "ivMPS.E(op) is the expectation value of op", "statement": "After canonicalise(), E(op) of an ivMPS is the expectation value per site of the operator op in the infinite state.", "quantifier": "for all dimensions, all complex G, all positive diagonal L with a simple leading eigenvalue, and all operators op on one site", "why_tests_cant": "Which of op and its transpose is measured only shows for operators that are not symmetric; the usual test operators X and Z are.", "anchors": ["xmps/iMPS.py:ivMPS.E", "xmps/iMPS.py:ivMPS.canonicalise"]}
{"id": "C84", "title": "fPEPS.add adds states", "statement": "For two PEPS on the same grid with open boundaries, x.add(y) is a PEPS whose amplitude on every basis state is the sum of the amplitudes of x and y.", "quantifier": "for all grids, all bond extents, all tensors", "why_tests_cant": "the block structure of the padded tensors has nine cases by position in the grid; tests compare one expectation on random square grids, where rows and columns cannot be confused", "anchors": ["xmps/fPEPS.py: fPEPS.add, fPEPS.__init__"]}
{"id": "C85", "title": "recombine lists the amplitudes of a PEPS", "statement": "x.recombine() is the vector of all amplitudes in reading order, x.recombine('row_snake') the same vector with every second row read from right to left, and x.full_overlap(y) is the inner product, in agreement with x.overlap(y).", "quantifier": "for all grids with open boundaries, all extents, all tensors", "why_tests_cant": "the order of merged bonds matters only when several bonds between two rows are not trivial; tests use random chains wound through a grid, which have one such bond", "anchors": ["xmps/fPEPS.py: fPEPS.recombine, row_contract, col_contract, fPEPS.full_overlap"]}
{"id": "C87", "title": "from_mps winds a chain through a grid", "statement": "fPEPS().from_mps(mps, Lx) is a PEPS with open boundaries whose amplitudes along the snake are the amplitudes of the chain; recombine('row_snake') gives the state vector of the chain back; a chain that does not fit the grid raises.", "quantifier": "for all chains with open boundaries, all extents, all widths", "why_tests_cant": "the legs of each tensor depend on the position in the row and on the direction of the row; tests use squares of one size", "anchors": ["xmps/fPEPS.py: fPEPS.from_mps, fPEPS.recombine"]}
{"id": "C86", "title": "E_k is the expectation value of an operator on a block", "statement": "x.contract(((x0, y0), (width, height))) is the same state with the sites of the block merged into one site, and x.E_k(op, ((x0, y0), (width, height))) is the real part of the expectation value of op on the block, op being specified in reading order.", "quantifier": "for all grids with open boundaries, all blocks inside, all extents, all tensors, all operators of matching size", "why_tests_cant": "the order of the sites of a block only matters for blocks with several rows and several columns and an operator that is not symmetric under their exchange; the test of E_k is switched off", "anchors": ["xmps/fPEPS.py: fPEPS.row_contract, fPEPS.col_contract, fPEPS.contract, fPEPS.E_k"]}
{"id": "C88", "title": "rho and rho_proj of a product PEPS", "statement": "For a PEPS with bond dimension 1 and normalised tensors, x.rho(((x0, y0), (width, height))) holds at [i, j] the reduced density matrix of the site in column x0+i and row y0+j, and E(op, site) is the real part of the trace of op with it; x.rho_proj(y, sites) holds the partial traces of |x><y|.", "quantifier": "for all grids, all blocks inside, all extents, all tensors", "why_tests_cant": "whether the factors of the traced-out sites are included shows only for states that differ outside the block; tests use single comparisons", "anchors": ["xmps/fPEPS.py: fPEPS.rho, fPEPS.rho_proj, fPEPS.E"]}
{"id": "C89", "title": "F2 is the matrix element of H between the state and its second tangent vectors", "statement": "For a list H of two-site terms F2(i, j, H), contracted with the conjugated coordinates of two tangent tensors in the left gauge, as extract_tangent_vector computes them, is <d_i d_j psi|H|psi>: the matrix element of the sum of the terms between the state with both tensors replaced and the state itself. F2(i, i, H) is zero.", "quantifier": "for all lengths, physical and bond dimensions, all states with full-rank environments, all lists of terms, all pairs of sites and all tangent tensors", "why_tests_cant": "the tests check gauge conditions and compare two implementations on random states of a fixed length; whether the terms dropped for reasons of gauge vanish for every chain cannot be sampled", "anchors": ["xmps/fMPS.py: fMPS.F2, fMPS.left_null_projector, fMPS.left_transfer, fMPS.extract_tangent_vector"]}
{"id": "C90", "title": "F1 is the matrix element of H between tangent vectors", "statement": "For a list H of two-site terms F1(i, j, H), contracted with the conjugated coordinates of a tangent tensor at i and the coordinates of a tangent tensor at j, both in the left gauge and as extract_tangent_vector computes them, is <d_i psi|H|d_j psi>: the matrix element of the sum of the terms between the state with the tensor at i replaced and the state with the tensor at j replaced.", "quantifier": "for all lengths, physical and bond dimensions, all states with full-rank environments, all lists of Hermitian terms, all pairs of sites and all tangent tensors", "why_tests_cant": "the tests compare on random states with real Hamiltonians of spin one half; for a complex term, another local dimension or a distance of more than one site a different branch with a different index order is taken, and sampling cannot show that all of them agree with the matrix element", "anchors": ["xmps/fMPS.py: fMPS.F1, fMPS.left_transfer, fMPS.right_transfer, fMPS.left_null_projector, fMPS.extract_tangent_vector"]}
{"id": "C91", "title": "christoffel holds the overlaps of second tangent vectors with tangent vectors", "statement": "christoffel(i, j, k), contracted with the weighted tensors l(i-1)@conj(U)@r(i), l(j-1)@conj(W)@r(j) and l(k-1)@C@r(k) of left-gauge tangent tensors, is minus the overlap of the state with U, W in place of the tensors i and j with the state with C in place of tensor k, zero for i = j, in either order of i and j. With the third tensor given (closed=(None, None, l@C@r)) the result contracted with the conjugated coordinates of U and W, as extract_tangent_vector computes them, is the same number, whatever calls were made on the object before.", "quantifier": "for all lengths, physical and bond dimensions, all states with full-rank environments, all triples of sites, all tangent tensors in the left gauge", "why_tests_cant": "the tests check christoffel on a few random states and only some index patterns; the claim is an identity between a nine-index tensor and overlaps of exponentially large vectors, and the stored environments make the result depend on earlier calls", "anchors": ["xmps/fMPS.py: fMPS.christoffel, fMPS.dA_dt (dA_cache), fMPS.left_transfer, fMPS.left_null_projector, fMPS.extract_tangent_vector"]}
{"id": "C92", "title": "jac: the projection part of the linearised equation of motion, and its real form", "statement": "For a normalised state jac(H, real_matrix=False) returns three square matrices J1, J2, G2 of the dimension of the tangent space; J2 + G2, contracted with the conjugated coordinates of two tangent vectors (as extract_tangent_vector computes them), is minus the sum over pairs of different sites of the matrix elements of d_t psi + iH psi with the second tangent vectors, d_t psi being the evolution of dA_dt; it is zero where the evolution stays in the tangent space up to norm and phase. jac(H) is the real matrix of u -> J1 u + (J2 + G2) conj(u) on real parts followed by imaginary parts.", "quantifier": "for all lengths, bond dimensions, all normalised states of spin-1/2 sites with full-rank environments, all lists of two-site terms, all tangent vectors in the left gauge", "why_tests_cant": "the tests integrate a few trajectories and compare exponents; the claim identifies every entry of the matrix with derivatives of an exponentially large vector for every state and Hamiltonian", "anchors": ["xmps/fMPS.py: fMPS.jac, fMPS.F2, fMPS.christoffel, fMPS.dA_dt, fMPS.tangent_space_dims, fMPS.extract_tangent_vector"]}
{"id": "C93", "title": "jac is Hamiltonian for Hermitian terms", "statement": "For Hermitian two-site terms the matrix jac(H) is real and Hamiltonian: the flow u -> J u of real and imaginary parts of the coordinates preserves the standard symplectic form, so the linearised evolution is one of a classical Hamiltonian system. In complex form J1 is anti-Hermitian and J2 + G2 is symmetric (the latter for any terms). This holds for every state, normalised or not, also where entries of J1 are wrong (C90).", "quantifier": "for all lengths, bond dimensions, all states of spin-1/2 sites with full-rank environments whose sites without coordinates come first, all lists of Hermitian two-site terms", "why_tests_cant": "a test can look at the matrix of one state; the claim is an identity between all entries for every state and every Hermitian Hamiltonian", "anchors": ["xmps/fMPS.py: fMPS.jac, fMPS.F1, fMPS.F2, fMPS.christoffel"]}
{"id": "C94", "title": "the eigenvalues of jac come in pairs and its trace is zero", "statement": "For Hermitian two-site terms the trace of jac(H) is zero (the linearised flow preserves volumes) and with every eigenvalue z also -z is an eigenvalue: the instantaneous exponents come in pairs of opposite sign, as the computation of Lyapunov exponents expects.", "quantifier": "for all lengths, bond dimensions, all states of spin-1/2 sites with full-rank environments whose sites without coordinates come first, all lists of Hermitian two-site terms, all eigenvalues", "why_tests_cant": "a test computes floating-point eigenvalues for a few states", "anchors": ["xmps/fMPS.py: fMPS.jac", "xmps/fTDVP.py: Trajectory.lyapunov"]}
{"id": "C95", "title": "jac along a trajectory: null vectors carried over, matrix still Hamiltonian", "statement": "For a state with old_vL (as lyapunov and ts_int set it) jac(H) turns the null vectors of each site towards the old ones: new_vL is again an orthonormal basis of the null space of each site, its overlaps with old_vL form a positive semidefinite matrix, and for Hermitian terms the returned matrix is real and Hamiltonian. Without old_vL the result is that of C92.", "quantifier": "for all lengths, bond dimensions, all states of spin-1/2 sites with full-rank environments whose sites without coordinates come first, all arrays old_vL of matching shapes (whatever their entries), all lists of Hermitian two-site terms, all polar decompositions", "why_tests_cant": "a test follows one trajectory and compares floating-point overlaps; the claim is about every pair of consecutive states and every choice of null vectors lapack may return", "anchors": ["xmps/fMPS.py: fMPS.jac, fMPS.left_null_projector", "xmps/fTDVP.py: Trajectory.lyapunov, Trajectory.ts_int"]}
{"id": "C96", "title": "tangent_space_basis('F2') returns an orthonormal basis and its assertions hold", "statement": "tangent_space_basis('F2', H) with Hermitian terms never fails one of its four assertions (J Hamiltonian, exp(J/10) symplectic, J2 symmetric, J1 antisymmetric) and returns an orthonormal basis of the real form of the tangent space.", "quantifier": "for all lengths, bond dimensions, all states of spin-1/2 sites with full-rank environments whose sites without coordinates come first, all lists of Hermitian two-site terms, all singular value decompositions", "why_tests_cant": "the assertions are themselves tests, run on the states a user happens to choose; that they cannot fail is a claim about all states", "anchors": ["xmps/fMPS.py: fMPS.tangent_space_basis, fMPS.tangent_space_dims, sympmat"]}
{"id": "C97", "title": "lyapunov: exponents sum to zero and are the growth rates of the product of exponentials", "statement": "Whenever lyapunov(T) returns, for Hermitian terms and an orthonormal initial basis Q: every entry of lys, lys_, exps, exps_ sums to zero; exps[m] is the mean of the first k+m+1 entries of lys divided by the step of time; and the product of the exponentials exp(J dt) at the states visited, applied to Q, is an orthonormal matrix times an upper triangular one whose diagonal has the logarithms sum(lys). lys_ averages these with the rates of the inverse transposed flow. With just_max=True the entries of lys sum to the logarithm of the growth of the first row of Q, and the returned exps is empty.", "quantifier": "for all runs: all numbers of steps, thresholds and convergence criteria, evolutions that stay among states with full-rank environments, all QR, SVD, polar decompositions", "why_tests_cant": "a test follows one trajectory for finitely many steps in floating point; the identities relate all rounds of every run", "anchors": ["xmps/fTDVP.py: Trajectory.lyapunov", "xmps/fMPS.py: fMPS.jac, fMPS.tangent_space_basis"]}
{"id": "C98", "title": "ts_int accumulates symplectic matrices", "statement": "Whenever ts_int(T) returns, for Hermitian terms: Ms holds the identity and then, for every step, the product of the exponentials exp(J dt) at the states visited so far; each of them preserves the symplectic form and has a determinant of modulus 1.", "quantifier": "for all numbers of steps, all evolutions that stay among states with full-rank environments, all lists of Hermitian two-site terms", "why_tests_cant": "a test checks finitely many products in floating point; the claim is an invariant of every run", "anchors": ["xmps/fTDVP.py: Trajectory.ts_int"]}
{"id": "C99", "title": "schmidts returns the Schmidt weights of every recorded state across every cut", "statement": "schmidts() of a trajectory has one entry per recorded state and in it one list per cut, from the left end to the right end: the Schmidt weights (squared Schmidt coefficients) of the normalised state across that cut. After edint the same for the entries of ed_history. The weights across a cut are determined by the state up to their order, are positive and sum to 1.", "quantifier": "for all numbers of sites, local and bond dimensions (also changing between the recorded states), all recorded non-zero states, all singular value and eigenvalue decompositions", "why_tests_cant": "a test compares the weights of a few states in floating point; that any two Schmidt decompositions agree, and that the list belongs to the normalised state whatever was recorded, are claims about all states", "anchors": ["xmps/fTDVP.py: Trajectory.schmidts", "xmps/fMPS.py: fMPS.left_canonicalise, fMPS.left_from_state, fMPS.deserialize"]}
{"id": "C100", "title": "von_neumann and renyi are the largest entanglement entropies over the cuts", "statement": "von_neumann()[k] is the largest of -sum(lam log lam) over all cuts of the k-th recorded state, lam its Schmidt weights; renyi(a)[k] the largest of log(sum(lam^a))/(1-a). 0 <= renyi(2) <= von_neumann() <= renyi(0) <= log D, and the first two vanish exactly for states not entangled across any cut.", "quantifier": "for all numbers of sites, local and bond dimensions, all recorded non-zero states, all orders a other than 1", "why_tests_cant": "the maximum is over all Schmidt decompositions of a state and the inequalities hold for all states; a test sees a few values", "anchors": ["xmps/fTDVP.py: Trajectory.von_neumann, Trajectory.renyi, Trajectory.schmidts"]}
{"id": "C101", "title": "loschmidt, mps_evs and mps_energies report overlaps, expectation values and energies of the recorded states", "statement": "loschmidt()[k] is |<psi_0|psi_k>|, 1 for k = 0 and at most 1 for normalised states. mps_evs(ops, site)[k] lists Re<op>_site in the normalised k-th state. mps_energies()[k] is the energy of the normalised k-th state, per site for a list of two-site terms, in total for a full Hamiltonian.", "quantifier": "for all numbers of sites, local and bond dimensions, all recorded non-zero states, all lists of one-site operators, all Hamiltonians", "why_tests_cant": "a test compares a few states in floating point; the claims hold for every history that a run can leave behind", "anchors": ["xmps/fTDVP.py: Trajectory.loschmidt, Trajectory.mps_evs, Trajectory.mps_energies", "xmps/fMPS.py: fMPS.overlap, fMPS.Es, fMPS.energy"]}
{"id": "C102", "title": "isometrise gives a PEPS that is isometric towards the centre and has norm 1", "statement": "Whenever isometrise(oc) returns, every tensor other than the one at oc is an isometry from its legs towards oc to its other legs and the physical leg, no bond has grown, the boundaries are still open, and norm() of the result is 1 unless the tensor at oc was 0 on the bonds that are kept.", "quantifier": "for all grids with open boundaries (at least one row, two columns), all physical and bond dimensions, all entries, all centres, all singular value decompositions", "why_tests_cant": "tests compare the norm of a few random PEPS in floating point; the contraction to the centre is an identity for all grids of isometries", "anchors": ["xmps/fPEPS.py: fPEPS.isometrise, fPEPS.truncate_below, fPEPS.truncate_left, fPEPS.truncate_along_row, fPEPS.truncate_along_column", "xmps/fPEPS.py: tensor_isometrise_diag, tensor_isometrise_lrud, tensor_isometrise_center"]}
{"id": "C103", "title": "iso_E at the centre is the expectation value", "statement": "After isometrise(oc), iso_E(op), which contracts op with the one tensor at oc, equals E(op, oc), which contracts the whole PEPS.", "quantifier": "for all grids, dimensions, entries, centres and one-site operators", "why_tests_cant": "the two contractions agree for all isometric PEPS; a test compares a few sizes in floating point", "anchors": ["xmps/fPEPS.py: fPEPS.iso_E, fPEPS.E, fPEPS.isometrise"]}
{"id": "C104", "title": "isometrise succeeds on every PEPS the class can build", "statement": "isometrise(oc) truncates the bonds far enough that it returns for every centre inside the grid, whatever the size of the grid, the bond dimension, and the way the PEPS was made.", "quantifier": "for all numbers of rows and columns, physical and bond dimensions, centres and entries, for PEPS made by random and by the constructor", "why_tests_cant": "the test uses small square grids with small bond dimension; the failures begin at 7 by 7 with X > d^2 and at grids that are not square", "anchors": ["xmps/fPEPS.py: fPEPS.isometrise, fPEPS.create_structure, fPEPS.random, fPEPS.__init__, fPEPS.truncate_below, fPEPS.truncate_left"]}
{"id": "C105", "title": "Moses moves carry the centre to another site", "statement": "moses_move_oc_to(site) returns a PEPS with its centre at site, so that iso_E(op, site) gives the expectation value at any site; factors(n), used to split the bond, returns the pair of factors of n closest to each other.", "quantifier": "for all PEPS, sites other than the centre, operators and bond dimensions; for all n >= 1", "why_tests_cant": "that a call fails for every input, and the minimality for every n, cannot be seen from samples", "anchors": ["xmps/fPEPS.py: fPEPS.moses_move_right, fPEPS.moses_move_left, fPEPS.moses_move_down, fPEPS.moses_move_up, fPEPS.moses_move_oc_to, fPEPS.iso_E, split_tensor, factors", "xmps/peps_tools.py: U2"]}
{"id": "C106", "title": "projection_error vanishes exactly when the step needs no larger bonds", "statement": "For a canonical state, projection_error(H, dt) is dt squared times a non-negative number that does not depend on dt, and it is zero exactly when H|psi> is a tangent vector at the state, that is, when TDVP at the present bond dimension loses nothing; should_expand with a non-negative threshold can therefore be true exactly in the other case.", "quantifier": "for all lengths, local and bond dimensions, left canonical states with diagonal positive environments, lists of two-site terms, non-negative time steps, all null spaces and singular value decompositions", "why_tests_cant": "\"zero exactly when\" quantifies over all states and Hamiltonians; floating point never gives exact zeros", "anchors": ["xmps/fMPS.py: fMPS.projection_error, fMPS.should_expand, fMPS.right_null_projector, fMPS.left_null_projector, fMPS.dA_dt", "xmps/tensor.py: tr_svd"]}
{"id": "C107", "title": "projection_error returns for every canonical state", "statement": "projection_error(H, dt) returns a number for every canonical state of full rank, whatever its bond dimensions are.", "quantifier": "for all lengths, local and bond dimensions and states as in C106", "why_tests_cant": "the failure depends on the pattern of bond dimensions; random states have a pattern that does not show it", "anchors": ["xmps/fMPS.py: fMPS.projection_error"]}
{"id": "C108", "title": "dynamical_expand makes a time step while it enlarges the bonds", "statement": "dynamical_expand(H, dt, D) and grow(H, dt, D) return |psi> - i dt H|psi> up to second order in dt: the one-site parts as dA_dt gives them, and the part that leaves the tangent space in the new bonds; in particular an eigenstate changes by a phase only.", "quantifier": "for all states, two-site Hamiltonians and time steps", "why_tests_cant": "the tests look at the bond dimensions only; agreement to first order for all Hamiltonians is a statement about every entry of H", "anchors": ["xmps/fMPS.py: fMPS.dynamical_expand, fMPS.grow"]}
{"id": "C109", "title": "Trajectory.dynamical_expand uses the Hamiltonian it is given", "statement": "Trajectory.dynamical_expand(D, dt, H) expands for H when it is given and for the Hamiltonian of the trajectory otherwise, and records D.", "quantifier": "for all trajectories, with and without a Hamiltonian, and all arguments", "why_tests_cant": "the tests never give the argument; that it is ignored for all inputs is a statement about every call", "anchors": ["xmps/fTDVP.py: Trajectory.dynamical_expand"]}
{"id": "C110", "title": "anisotropic_heisenberg of projects/fMPO.py is the MPO of the XXZ chain", "statement": "anisotropic_heisenberg(L, h, J, Jz) is a matrix product operator of L tensors whose matrix elements are those of sum J/2 (S+S- + S-S+) + Jz ZZ - h sum Z.", "quantifier": "for all lengths and all parameters", "why_tests_cant": "equality of all 4^L entries for all lengths", "anchors": ["xmps/projects/fMPO.py: anisotropic_heisenberg, MPO"]}
{"id": "C111", "title": "effH is the effective Hamiltonian of one site", "statement": "effH.asmatrix(), built by get_envs(W, mps, k), is the matrix of the MPO between the states obtained by varying the tensor of site k, with indices (site, left bond, right bond), and effH.mv(x) is the product with that matrix; DMRG takes its lowest eigenvector.", "quantifier": "for all MPOs, states, sites, physical, state and operator bond dimensions and vectors", "why_tests_cant": "one test compares mv with asmatrix for one random state and neither with the Hamiltonian; an exchanged pair of indices is invisible at sites with bond dimension 1", "anchors": ["xmps/projects/fMPO.py: effH, get_envs, DMRG"]}
{"id": "C112", "title": "qmb Hamiltonians: full and local forms agree with the definition", "statement": "anisotropic_heisenberg(J, Jz, h, N) is the matrix of the XXZ chain; the terms of local_anisotropic_heisenbergs and local_isings, each put on its bond, sum to the matrix of the XXZ chain and of the transverse field Ising chain, so that S_n_body(op, i, n) is op on site i for every valid i.", "quantifier": "for all numbers of sites and all parameters", "why_tests_cant": "one random choice of parameters at L = 10; all entries for all N", "anchors": ["xmps/qmb.py: S_n_body, anisotropic_heisenberg, local_anisotropic_heisenbergs, local_isings"]}
{"id": "C113", "title": "fTFD.dA_dt is the flow of H on both copies", "statement": "For a thermofield double, fTFD.dA_dt(H) is the projected time derivative under the Hamiltonian H on the first copies plus H on the second copies.", "quantifier": "for all doubled states with positive diagonal environments and all lists of two-site matrices", "why_tests_cant": "whether the Kronecker products refer to the copies or to the sites is only visible in the amplitudes of the tangent vector, and only for terms that are not symmetric", "anchors": ["xmps/fMPS.py:2165-2168 fTFD.dA_dt"]}
{"id": "C114", "title": "mps_OTOC returns the out-of-time-order correlator", "statement": "Trajectory.mps_OTOC(V, W, ...) returns, for every time, the out-of-time-order correlator of the evolved W and V in the initial state; it is zero when the operators commute.", "quantifier": "for all chains, operators and time grids", "why_tests_cant": "the returned numbers look plausible; that they cannot represent a commutator needs a bound over all states and operators", "anchors": ["xmps/fTDVP.py Trajectory.mps_OTOC"]}
{"id": "C115", "title": "rho_proj is the partial trace of |self><other|", "statement": "x.rho_proj(y, sites) is the matrix of the partial trace of |x><y| over the sites that are not listed.", "quantifier": "for all pairs of product states, all contiguous sites", "why_tests_cant": "real tensors hide a missing conjugation; the identity is over all complex entries and lengths", "anchors": ["xmps/fMPS.py:986-995 fMPS.rho_proj"]}
{"id": "C116", "title": "Overlaps with product states", "statement": "x.local_overlap(y, sites) is Tr(rho_x rho_y) also when one state is a product state; product_state_overlap is the inner product with the product of the given vectors; k_local_approx_overlap with k the length of the chain agrees with k=None.", "quantifier": "for all lengths, local dimensions, contiguous sites and complex entries", "why_tests_cant": "tests use normalised tensors, for which a missing normalisation cannot be seen", "anchors": ["xmps/fMPS.py:745-779 fMPS.k_local_approx_overlap, local_overlap, product_state_overlap", "xmps/fMPS.py:971-977 fMPS.rho"]}
{"id": "C117", "title": "apply_two_site_isometry replaces two sites by one", "statement": "x.apply_two_site_isometry((op, (i, j)), lr) returns a chain in which the two sites are replaced by the site that the isometry op maps them to.", "quantifier": "for all chains, bonds and operators, neighbouring sites", "why_tests_cant": "whether the returned tensors still form a chain depends on the bond dimensions; the method has no tests", "anchors": ["xmps/fMPS.py:897-911 fMPS.apply_two_site_isometry", "xmps/fMPS.py:92-93 apply_isometry"]}
{"id": "C118", "title": "random returns a chain of the requested structure", "statement": "x.random(L, d, D) makes x a chain of L sites of local dimension d with bonds at most D, real if asked for, on which the other methods (such as rho) act as on any other chain.", "quantifier": "for all lengths, dimensions and outcomes of the random numbers", "why_tests_cant": "tests draw d = 2 for product states and fresh objects; the claim is over every outcome of the generator and every earlier state of the object", "anchors": ["xmps/fMPS.py:401-434 fMPS.random"]}
{"id": "C119", "title": "random_with_energy_E returns a state of the requested energy", "statement": "x.random_with_energy_E(E, H, L, d, D, tol, maxiters) returns a normalised chain of L sites whose energy(H) differs from E by at most tol, or raises an exception after at most maxiters rounds; every small enough step moves the energy towards E.", "quantifier": "for all Hamiltonians given as lists of two-site terms, target energies, tolerances, chain lengths and outcomes of the random numbers", "why_tests_cant": "the loops run until a condition on a real number holds; tests cannot show that they end, nor what they return for every start state", "anchors": ["xmps/fMPS.py:356-399 fMPS.random_with_energy_E", "xmps/fMPS.py:fMPS.dA_dt", "xmps/fMPS.py:fMPS.energy"]}
{"id": "C120", "title": "the Hamiltonians of the project scripts are the Ising and Heisenberg chains", "statement": "The list heis(L, \u0394) adds up to \u03a3 SxSx + SySy + \u0394 SzSz over the bonds and isin(L, \u03bb) to \u2212\u03a3 SzSz + \u03bb \u03a3 Sx with the field once on every site; iHam gives one such term per bond of the infinite chain.", "quantifier": "for all chain lengths L, anisotropies \u0394, fields \u03bb and spins", "why_tests_cant": "an operator identity for every L; a test looks at one chain, where a doubled boundary term is easily taken for the definition", "anchors": ["xmps/projects/fHam.py:5-12 heis, isin", "xmps/projects/iHam.py heis, isin"]}
{"id": "C121", "title": "optimise of the project script lowers the energy and returns energy per site", "statement": "optimise(H, L, D) never raises; it returns a normalised state reached from a random one by imaginary time steps, each of which lowers the energy, stopping when the change is below tol or after max_iters steps; the number beside it is the energy per site of the state returned.", "quantifier": "for all Hamiltonians given as two-site terms, L, D, max_iters, tol and outcomes of the random numbers", "why_tests_cant": "a loop that runs until a real number is small, from random states; a test sees a few runs", "anchors": ["xmps/projects/fHam.py:14-29 optimise", "xmps/fMPS.py:fMPS.dA_dt", "xmps/fMPS.py:fMPS.energy"]}
{"id": "C122", "title": "CR and pCR recognise spin operators and Pauli matrices", "statement": "CR(S) is true exactly for triples with [Sa, Sb] = i \u03b5abc Sc and pCR(S) exactly for triples with [Sa, Sb] = 2i \u03b5abc Sc, up to the tolerance of allclose; in particular CR accepts spins(s) for every spin and pCR the Pauli matrices.", "quantifier": "for all triples of square matrices and all spins", "why_tests_cant": "a predicate used inside tests: its false positives and its truth for every spin are not seen by calling it on a few triples", "anchors": ["xmps/spin.py:297-317 CR, pCR", "xmps/spin.py:spins, paulis"]}
{"id": "C123", "title": "direct_sum and tr_svd of tensor.py", "statement": "direct_sum(A, B) is the block diagonal matrix of A and B; tr_svd(A, D) keeps the D largest singular values and its product differs from A by the dropped ones in Frobenius norm.", "quantifier": "for all matrices and all D", "why_tests_cant": "shape conditions and an optimality statement over all matrices; square blocks, which tests use, are the only shapes that work", "anchors": ["xmps/tensor.py:78-81 direct_sum", "xmps/tensor.py:234-236 tr_svd"]}
{"id": "C124", "title": "haar_unitary is unitary and get_null_space is an orthonormal basis of the kernel", "statement": "haar_unitary(n) returns a unitary matrix for every outcome of the random numbers; get_null_space(A) returns columns v with A v = 0 and v\u2020 v = 1, a basis of the kernel when the rows of A are independent.", "quantifier": "for all n, random outcomes and matrices with at least as many columns as rows", "why_tests_cant": "statements about every random outcome and every matrix", "anchors": ["xmps/tensor.py:83-84 haar_unitary", "xmps/tensor.py:363-371 get_null_space"]}
{"id": "C125", "title": "svd of svd_robust.py falls back to gesvd exactly when gesdd does not converge", "statement": "svd(a) returns what gesdd returns, or what gesvd returns if gesdd raised LinAlgError; it raises LinAlgError only if both do; an unknown driver is refused; and it is a singular value decomposition for every matrix if and only if the driver that answers gives one.", "quantifier": "for all matrices, drivers and outcomes of the two LAPACK routines", "why_tests_cant": "the backup branch runs only when LAPACK fails to converge, which a test cannot provoke", "anchors": ["xmps/svd_robust.py:79-133 svd", "xmps/fMPS.py:55"]}
{"id": "C126", "title": "renyi of peps_tools.py is the second R\u00e9nyi entropy after the gate", "statement": "For a unitary gate U on two legs, renyi(U, \u03b8) = -log tr \u03c1\u00b2, where \u03c1 is the density matrix of the first leg and the left bond of U\u03b8; for a normalised state it is a number \u2265 0.", "quantifier": "for all leg and bond dimensions, unitary gates and states", "why_tests_cant": "an identity between a five-tensor contraction and a density matrix, for every dimension and every unitary", "anchors": ["xmps/peps_tools.py:67-75 E2, renyi", "xmps/ncon.py:ncon"]}
{"id": "C127", "title": "renyi_2_disentangler ends with a unitary that lowers the entropy", "statement": "renyi_2_disentangler(psi, eps, max_iter) returns a unitary U and the entropies found on the way, the last being that after U and within eps of the one before; the entropy after U is not above that of psi.", "quantifier": "for all states, tolerances, iteration limits and outcomes of the random numbers", "why_tests_cant": "a loop without a bound on its length, restarted at random; whether it goes down cannot be read off single runs", "anchors": ["xmps/peps_tools.py:95-127 renyi_2_disentangler", "xmps/peps_tools.py:67 E2"]}
{"id": "C128", "title": "find_ground_state returns a canonical state and the energies on the way", "statement": "find_ground_state(H, D, \u03f5, maxiters, tol) returns a left canonical state and one energy per bond for every state of the run, the last being that of the state returned; if it stops before maxiters steps, the gradient there is below tol.", "quantifier": "for all 4 x 4 matrices H, bond dimensions, step sizes, tolerances, iteration limits and outcomes of the random numbers", "why_tests_cant": "a loop over states found by an eigensolver, started at random", "anchors": ["xmps/iOptimize.py:6-16 find_ground_state", "xmps/iMPS.py:660-682 iMPS.dA_dt", "xmps/iMPS.py:350-392 iMPS.canonicalise"]}
{"id": "C129", "title": "eulerint and rk4int of infinite states record the states at the times; loschmidts are the rates", "statement": "Trajectory(mps, H).eulerint(T) and rk4int(T) of iTDVP.py record one left canonical state per time of T, each one step after the one before, leave the state of the last time in mps, and loschmidts() is then one number per time: the rate of the overlap with the first state, never negative, zero for the same state.", "quantifier": "for all tensors with local dimension two, 4 x 4 matrices H and lists of times", "why_tests_cant": "a loop whose states come from an eigensolver, and a history that has to be read back with the right dimensions", "anchors": ["xmps/iTDVP.py:77-89 eulerint", "xmps/iTDVP.py:91-101 rk4int", "xmps/iTDVP.py:103-110 loschmidts"]}
{"id": "C130", "title": "optimise of iHam.py steps in imaginary time and returns the energy per bond", "statement": "optimise(H, D, 'euler', max_iters, tol) of projects/iHam.py returns the last of a run of imaginary time Euler steps, each made canonical in the mixed gauge, that ends after max_iters steps or as soon as two energies in a row differ by less than tol; the number beside the state is its energy per bond.", "quantifier": "for all two-site Hamiltonians, bond dimensions, random numbers, max_iters and tol", "why_tests_cant": "the state comes from random numbers and an eigensolver, and the number is off by a factor that depends on the fixed points of the last tensor; a test sees a few runs, and the factor is one for real tensors", "anchors": ["xmps/projects/iHam.py:31-45 optimise", "xmps/iMPS.py:iMPS.canonicalise", "xmps/iMPS.py:iMPS.energy"]}
{"id": "C131", "title": "random thermofield states are symmetric in the two copies", "statement": "fTFD().random(L, d, D) is the double of a random fMPS: its amplitude on a pair of basis states is the product of the amplitudes, its attributes say d**2 and D**2, and exchanging the copies changes no tensor. With pure=False it is a state of the same doubled chain, the sum of random tensors and the ones with exchanged copies, again unchanged by the exchange.", "quantifier": "for all L, d, D and random numbers", "why_tests_cant": "the states are random, and the claim is about every L, d, D and every draw", "anchors": ["xmps/fMPS.py:2085-2095 fTFD.random", "xmps/fMPS.py:fMPS.random", "xmps/fMPS.py:fTFD.symmetrise"]}
{"id": "C132", "title": "symm_asymm gives the projectors on symmetric and antisymmetric vectors of a doubled bond", "statement": "fTFD.symm_asymm(D**2) returns two complementary orthogonal projectors of ranks D(D+1)/2 and D(D-1)/2 and their difference; the difference is the exchange of the two copies of the bond, so that the first projector leaves exactly the symmetric vectors.", "quantifier": "for all D", "why_tests_cant": "a claim about every bond dimension and every vector; the ranks and the projector identities, which are easy to test, hold for the wrong basis too", "anchors": ["xmps/fMPS.py:2132-2136 fTFD.symm_asymm"]}
{"id": "C133", "title": "local_ising and local_XX of qmb.py are the terms of the models they name", "statement": "[local_ising(J, g)]*(N-1) stands for the transverse-field Ising model -J ZZ - g X on N sites, with half the field on the ends; [local_XX(J, g)]*(N-1) stands for the XX model -J/2 (XX + YY) with a field -g along z.", "quantifier": "for all J, g and all N of at least two", "why_tests_cant": "a claim about every length and all couplings; the repository has no test of these two functions", "anchors": ["xmps/qmb.py:90-92 local_ising", "xmps/qmb.py:99-102 local_XX"]}
{"id": "C134", "title": "i_cat is the cat state for \u03f5 = 0 and symmetric under turning all spins over for every \u03f5", "statement": "On rings of every length the amplitudes of i_cat(\u03f5) are unchanged if all spins are turned over; those of i_cat(0) are 1 if all spins are equal and 0 otherwise.", "quantifier": "for all real \u03f5, all ring lengths and all spin configurations", "why_tests_cant": "a claim about rings of every length", "anchors": ["xmps/mps_examples.py:120-131 i_cat"]}
{"id": "C135", "title": "fix_neighbours makes the bonds of one site of a PEPS fit", "statement": "fPEPS.fix_neighbours(i, j) never raises, gives every bond of the tensor in column i and row j the smaller of the two dimensions that meet there, keeps the entries that are left and every other leg. A network that fits is not changed, and one in which only the bonds of that site do not fit does so afterwards.", "quantifier": "for all networks of five-legged tensors, all sizes and all sites counted from zero", "why_tests_cant": "a claim about every network, size and site, including the borders and corners; the repository has no test of it", "anchors": ["xmps/fPEPS.py:447-473 fPEPS.fix_neighbours"]}
{"id": "C136", "title": "== of chains and unit cells compares the tensors", "statement": "x == y of two fMPS (or two iMPS) says whether they have the same tensors: the same number of them, the same shapes, and entries that agree to within the tolerance of numpy.allclose; it never raises, and it is symmetric. x != y is the negation.", "quantifier": "for all lists of tensors", "why_tests_cant": "equality is used by the tests themselves, as the measure of everything else; what it accepts is a claim about all pairs", "anchors": ["xmps/fMPS.py:192-205 fMPS.__eq__, fMPS.__ne__", "xmps/iMPS.py:194-207 iMPS.__eq__, iMPS.__ne__"]}
{"id": "C137", "title": "== of PEPS compares the networks", "statement": "x == y of two fPEPS says whether they are the same network: the same orthogonality centre (or none), the same X and d, the same numbers of rows and of tensors in each row, the same shapes, and entries that agree to within the tolerance of numpy.allclose; it does not raise.", "quantifier": "for all pairs of networks of tensors with five legs", "why_tests_cant": "the tests use it as their measure; what it accepts is a claim about all pairs of networks", "anchors": ["xmps/fPEPS.py:273-299 fPEPS.__eq__"]}
{"id": "C138", "title": "Rows of tensors: random, trivial, quarter turns", "statement": "fMPO().random(L, d, X) is a chain of L tensors whose bonds fit, with outer bonds of dimension one; fMPO().trivial(L) is neutral for the product, on the left of rows with nothing below them and on the right of rows with nothing above them; rotate_90 turns every tensor by a quarter and unrotate_90 undoes it.", "quantifier": "for all lengths, dimensions, entries and rows of tensors with four legs", "why_tests_cant": "the tests multiply random rows of five sites only; length one and the neutral rows used by environment are not tried", "anchors": ["xmps/fPEPS.py:195-236 fMPO.rotate_90, unrotate_90, create_structure, random, trivial"]}
{"id": "C139", "title": "The compiled loop of left_transfer agrees with the one in Python", "statement": "lt of left_transfer.pyx, its copy lt_ in fMPS.py and the function inside fMPS.left_transfer return the same list, or raise the same error, on all arguments; on a chain the entry n - j of that list is the operator pulled back through the sites n, ..., i - 1.", "quantifier": "for all lists of arrays, operators and sites j, i", "why_tests_cant": "the tests call only the copy that is in use; whether it may be exchanged for the compiled one is a claim about all arguments", "anchors": ["xmps/left_transfer.pyx:3-8 lt", "xmps/fMPS.py:41-46 lt_", "xmps/fMPS.py:811-823 fMPS.left_transfer"]}
{"id": "C140", "title": "Random Vidal cells and their transfer matrix", "statement": "ivMPS().random(d, D, period) has period pairs (Gamma, Lambda) of shapes (d, D, D) and (D, D); Lambda is diagonal, its entries are not negative and in decreasing order. transfer_matrix() of a cell of one pair has the entries sum over s of A[s,a,b] conj(A[s,a',b']) with A = Gamma Lambda, legs in the order a, b, a', b', and raises AssertionError for other periods.", "quantifier": "for all dimensions, periods and drawn numbers", "why_tests_cant": "a test sees one draw of the random numbers; the order of the diagonal and of the legs is a claim about all of them", "anchors": ["xmps/iMPS.py:743-762 ivMPS.random, ivMPS.transfer_matrix"]}
{"id": "C141", "title": "Null vectors of a thermofield double are split into two parities", "statement": "fs(X) exchanges the two copies in the site leg of X. get_vL() of an fTFD returns for every site two arrays whose sum are the null vectors of that site; the first is unchanged when the copies are exchanged with fs and the bond is multiplied with the matrix M that is returned, the second changes its sign.", "quantifier": "for all null vectors, dimensions of the site and of the bonds", "why_tests_cant": "the tests look at random chains with bonds of dimension nine; the parities are claims about all arrays", "anchors": ["xmps/fMPS.py:2014-2017 fs", "xmps/fMPS.py:2138-2144 fTFD.get_vL", "xmps/projects/fTFD.py fs, fTFD.get_vL"]}
