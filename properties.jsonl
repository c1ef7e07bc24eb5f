{"id": "C01", "title": "perm computes the permanent for every size and method", "statement": "For every square array A of any size n>=0 and every value of `method`, perm(A, method) returns sum over all permutations s of prod_i A[i, s(i)]; a non-array, a non-square array or an array with a NaN raises and returns nothing.", "quantifier": "all n, all matrices over any field of characteristic zero, all method strings, all (invalid) inputs", "why_tests_cant": "A Gray-code or sign error can appear at a size that is too large to test against brute force; tests use a handful of sizes and random matrices.", "anchors": ["thewalrus/_permanent.py: perm, perm_ryser, perm_bbfg"]}
{"id": "C02", "title": "The Gray-code walk behind perm never fails and the two formulas agree", "statement": "For every n>=1 each step of the Gray-code loops of perm_ryser and perm_bbfg changes exactly one bit with index < n (so the table lookup never raises), and the two functions return the same value on every square matrix.", "quantifier": "all n>=1, all loop indices, all matrices", "why_tests_cant": "The lookup must succeed at each of 2^n steps for every n.", "anchors": ["thewalrus/_permanent.py: perm_ryser, perm_bbfg"]}
{"id": "C03", "title": "The reference hafnian is the sum over (loop) perfect matchings", "statement": "reference.hafnian(M, loop) for an even (any, with loop) number of vertices returns the sum over all perfect matchings (with loop: matchings in which each vertex is paired or alone, a lone vertex i contributing M[i,i]) of the product of the matched entries; for odd sizes without loops it returns 0.", "quantifier": "all sizes, all symmetric matrices, both loop flags", "why_tests_cant": "The sum has (n-1)!! terms; agreement must hold for each n.", "anchors": ["thewalrus/reference.py: hafnian, rspm, rpmp, splitter, organizer, matchingiterator, partitions, spm, pmp, T"]}
{"id": "C04", "title": "The reference matching iterators enumerate every matching exactly once", "statement": "Iterating over pmp (perfect matchings) and spm (single-pair matchings) of n distinct labels yields every matching exactly once, no other object, and the number of yields is (n-1)!! resp. the involution number T(n).", "quantifier": "all n (documented range), all label sequences without repetition", "why_tests_cant": "Exactly-once enumeration over (n-1)!! objects is a universal statement on n.", "anchors": ["thewalrus/reference.py: splitter, organizer, matchingiterator, partitions, spm, pmp, T"]}
{"id": "C05", "title": "hafnian (glynn and inclexcl) computes the hafnian", "statement": "For every symmetric matrix A of any size, hafnian(A, loop=False, method in {glynn, inclexcl, recursive}) equals the sum over perfect matchings of the product of matched entries (0 for odd n, 1 for the empty matrix).", "quantifier": "all n, all symmetric matrices (exact arithmetic), methods glynn, inclexcl, recursive", "why_tests_cant": "The algorithms take n^3 2^(n/2) steps and their correctness rests on an identity between power traces and matchings for each n.", "anchors": ["thewalrus/_hafnian.py: hafnian, _haf, _calc_hafnian, f, get_AX_S, get_submatrices, matched_reps, find_kept_edges"]}
{"id": "C06", "title": "hafnian with loop=True computes the loop hafnian", "statement": "For every symmetric matrix A of any size (even or odd), hafnian(A, loop=True) equals the sum over matchings with loops, the diagonal giving the loop weights; if the diagonal is zero it equals the plain hafnian.", "quantifier": "all n even and odd, all symmetric matrices", "why_tests_cant": "As C05, plus the odd-size branch with a separate generating function.", "anchors": ["thewalrus/_hafnian.py: hafnian, loop_hafnian, _calc_loop_hafnian, f_loop, f_loop_odd, get_submatrices, get_submatrix_batch_odd0"]}
{"id": "C07", "title": "hafnian_repeated equals the hafnian of the explicitly repeated matrix", "statement": "hafnian_repeated(A, rpt, mu, loop) equals the (loop) hafnian of the matrix obtained by repeating row/column i of A rpt[i] times (with mu on the diagonal when loop=True), including rpt entries equal to 0.", "quantifier": "all matrices, all repetition vectors, all mu", "why_tests_cant": "The repetition vector ranges over all of N^n.", "anchors": ["thewalrus/_hafnian.py: hafnian_repeated, _haf, loop_hafnian, reduction, matched_reps"]}
{"id": "C08", "title": "hafnian_sparse equals the (loop) hafnian for every elimination order", "statement": "hafnian_sparse(A, D, loop) on the index set D equals the (loop) hafnian of the submatrix on D when D is non-empty, whatever element set.pop removes at each step.", "quantifier": "all matrices, all index sets, all pop orders", "why_tests_cant": "The order in which CPython pops set elements is not specified; every order must give the same value.", "anchors": ["thewalrus/_hafnian.py: hafnian_sparse"]}
{"id": "C09", "title": "hafnian_banded equals the (loop) hafnian for every bandwidth", "statement": "hafnian_banded(A, loop) equals the (loop) hafnian for each symmetric A, bandwidth(A) is the smallest w such that entries further than w from the diagonal vanish.", "quantifier": "all n>=1, all bandwidths", "why_tests_cant": "The dynamic programme prunes subsets using the bandwidth; a boundary error shows only for certain band structures.", "anchors": ["thewalrus/_hafnian.py: hafnian_banded, bandwidth"]}
{"id": "C10", "title": "recursive_hafnian computes the hafnian", "statement": "recursive_hafnian(A) returns the sum over perfect matchings for each symmetric matrix of even size.", "quantifier": "all even n, all symmetric matrices", "why_tests_cant": "Recursion depth and truncated polynomial products vary with n.", "anchors": ["thewalrus/_hafnian.py: recursive_hafnian"]}
{"id": "C11", "title": "hafnian_batched entry k is the (loop) hafnian of A repeated according to k", "statement": "hafnian_batched(A, cutoff, mu)[k] equals the loop hafnian of A (with mu on the diagonal; zero when mu is None) with row/column i repeated k_i times, for each multi-index k below the cutoff.", "quantifier": "all matrices, all mu, all multi-indices below the cutoffs", "why_tests_cant": "The recurrence fills a tensor of cutoff^n entries; each depends on previous ones.", "anchors": ["thewalrus/_hermite_multidimensional.py: hafnian_batched, hermite_multidimensional, _hermite_multidimensional"]}
{"id": "C12", "title": "The multidimensional Hermite array satisfies the Hermite recurrence, and renorm divides by sqrt(k!)", "statement": "Each entry of hermite_multidimensional(R, cutoff, y) satisfies H[0]=C, H[k+e_i] = y_i' H[k] - sum_j R_ij k_j H[k-e_j] for each mode i, regardless of which mode the code uses as pivot, and with renorm=True it is the same entry divided by sqrt(prod k_i!).", "quantifier": "all symmetric R, y, cutoffs, multi-indices and pivots", "why_tests_cant": "Consistency over pivots is a universal statement; the code only uses the first non-zero one.", "anchors": ["thewalrus/_hermite_multidimensional.py: hermite_multidimensional, _hermite_multidimensional, _hermite_multidimensional_renorm"]}
{"id": "C13", "title": "grad_hermite_multidimensional returns the derivative of the array", "statement": "grad_hermite_multidimensional returns the arrays of partial derivatives of the renormalised Hermite array with respect to C, R_ij and y_i.", "quantifier": "all inputs and multi-indices", "why_tests_cant": "Finite differences only approximate at sample points.", "anchors": ["thewalrus/_hermite_multidimensional.py: grad_hermite_multidimensional"]}
{"id": "C14", "title": "loop_hafnian_batch returns the loop hafnians for each photon number in the last mode", "statement": "Entry k of loop_hafnian_batch(A, D, fixed_reps, N_cutoff) equals the loop hafnian of A (diagonal D) with fixed_reps and last row repeated k times, for k = 0..N_cutoff, except when sum(fixed_reps) is odd and N_cutoff = 0 (the code then returns [0]).", "quantifier": "all matrices, reps, cutoffs", "why_tests_cant": "Parity-dependent index arithmetic over all N and cutoffs.", "anchors": ["thewalrus/loop_hafnian_batch.py"]}
{"id": "C15", "title": "loop_hafnian_batch_gamma is loop_hafnian_batch row by row", "statement": "Row i of loop_hafnian_batch_gamma(A, D, fixed_reps, N_cutoff) equals loop_hafnian_batch(A, D[i], fixed_reps, N_cutoff).", "quantifier": "all inputs, all rows", "why_tests_cant": "Separate code with separate index arithmetic.", "anchors": ["thewalrus/loop_hafnian_batch_gamma.py"]}
{"id": "C16", "title": "permanent_repeated is the permanent of the repeated matrix", "statement": "permanent_repeated(A, rpt) for a list rpt equals the permanent of A with row i and column i each repeated rpt[i] times.", "quantifier": "all matrices, all lists", "why_tests_cant": "Needs perm(A)=haf([[0,A],[A^T,0]]) for all sizes.", "anchors": ["thewalrus/_permanent.py: permanent_repeated"]}
{"id": "C17", "title": "powertrace and charpoly are right for every matrix", "statement": "charpoly(H) returns the coefficients of the characteristic polynomial, powertrace(H, n) returns trace(H^k) at each index k<n.", "quantifier": "all matrices and n", "why_tests_cant": "La Budde's recurrence and Householder reduction need an identity for each size.", "anchors": ["thewalrus/charpoly.py"]}
{"id": "C18", "title": "Montrealer and loop montrealer, fast and reference", "statement": "For symmetric A of dimension 2n >= 2, mtl(A) is the sum over the perfect matchings of 2n vertices that join the pairs {i, n+i} into one connected graph, of the product of the entries of A on the edges; lmtl(A, zeta) with zeta = (beta, conj beta) also allows loops, weighted by conj(zeta). reference.rpmp / rspm yield each of these matchings exactly once, and reference.mtl (loop=False/True) returns the same numbers as the fast functions.", "quantifier": "all n >= 1, all symmetric complex matrices, all beta", "why_tests_cant": "Number of terms grows factorially.", "anchors": ["thewalrus/_montrealer.py: dec2bin, montrealer, power_loop, lmontrealer, mtl, lmtl", "thewalrus/reference.py: mapper, bitstrings, rpmp, splitter, rspm, mtl"]}
{"id": "C19", "title": "Recursive torontonian equals the non-recursive torontonian", "statement": "tor(A, recursive=True) = tor(A, recursive=False) = sum over subsets Z of modes of (-1)^(n-|Z|)/sqrt(det(1-A_Z)), and the same for ltor.", "quantifier": "all sizes, all matrices for which the Cholesky factorisations exist", "why_tests_cant": "Recursion updates a Cholesky factor across 2^n calls.", "anchors": ["thewalrus/_torontonian.py"]}
{"id": "C20", "title": "Threshold-detector probabilities are consistent", "statement": "The values given by the torontonian sum for all click patterns are the inclusion-exclusion of vacuum probabilities: they sum to 1 and marginals over a mode agree with the reduced state. Each is the sum of the photon-number probabilities over all patterns whose support is the set of clicks; in particular it is between 0 and 1.", "quantifier": "all numbers of modes, all click patterns", "why_tests_cant": "2^n patterns for each n.", "anchors": ["thewalrus/_torontonian.py: threshold_detection_prob, numba_tor, numba_ltor"]}
{"id": "C21", "title": "low_rank_hafnian equals the hafnian of G G^T", "statement": "low_rank_hafnian(G) for an n x r matrix G, n even, equals the hafnian of G G^T.", "quantifier": "all n>=1, r, G", "why_tests_cant": "Polynomial expansion with C(n/2+r-1, r-1) terms.", "anchors": ["thewalrus/_low_rank_haf.py: low_rank_hafnian"]}
{"id": "C22", "title": "_low_rank_haf.partitions enumerates bounded compositions exactly once", "statement": "_low_rank_haf.partitions(r, n) yields each r-tuple of non-negative integers with sum n exactly once (the code yields all of them; the caller keeps the even ones).", "quantifier": "all r, n", "why_tests_cant": "Exactly-once enumeration for all parameters.", "anchors": ["thewalrus/_low_rank_haf.py: partitions"]}
{"id": "C23", "title": "matched_reps returns a pairing of the repeated multiset", "statement": "matched_reps(reps) returns pairs x, their multiplicities and an odd index such that the multiset of pair ends with multiplicities (plus the odd one) is exactly the multiset in which i occurs reps[i] times; the odd index is None exactly when sum(reps) is even.", "quantifier": "all repetition vectors", "why_tests_cant": "All multiplicity vectors of all lengths.", "anchors": ["thewalrus/_hafnian.py: matched_reps"]}
{"id": "C24", "title": "find_kept_edges is a mixed-radix numbering", "statement": "As j ranges over 0 .. prod(reps_i+1)-1, find_kept_edges(j, reps) takes each vector 0<=k_i<=reps_i exactly once.", "quantifier": "all reps vectors", "why_tests_cant": "Any length and radices.", "anchors": ["thewalrus/_hafnian.py: find_kept_edges"]}
{"id": "C25", "title": "reduction repeats rows and columns", "statement": "reduction(A, rpt) is the matrix (or vector) whose rows/columns are those of A in order, index i repeated rpt[i] times.", "quantifier": "all A, rpt", "why_tests_cant": "All multiplicity vectors of all lengths.", "anchors": ["thewalrus/_hafnian.py: reduction"]}
{"id": "C26", "title": "Gate constructors return symplectic matrices", "statement": "rotation, squeezing, two_mode_squeezing, beam_splitter, and interferometer of a unitary satisfy S Omega S^T = Omega for all parameters.", "quantifier": "all real parameters, all mode numbers", "why_tests_cant": "Continuous parameters.", "anchors": ["thewalrus/symplectic.py"]}
{"id": "C27", "title": "expand embeds a gate without touching other modes and is multiplicative", "statement": "expand(S, modes, N) acts as S on the listed modes and as the identity elsewhere; it is symplectic when S is, expand(S T)=expand(S) expand(T), expand(1)=1; analogous for expand_vector and expand_passive.", "quantifier": "all N, mode lists without repetition, S", "why_tests_cant": "Index shuffling for every mode list.", "anchors": ["thewalrus/symplectic.py: expand, expand_vector, expand_passive"]}
{"id": "C28", "title": "xxpp/xpxp conversions are inverse bijections", "statement": "xpxp_to_xxpp(xxpp_to_xpxp(S)) = S and vice versa for vectors and matrices of even size; they send Omega in one ordering to the other; odd sizes raise.", "quantifier": "all sizes and matrices", "why_tests_cant": "All sizes.", "anchors": ["thewalrus/symplectic.py: xxpp_to_xpxp, xpxp_to_xxpp, sympmat"]}
{"id": "C29", "title": "loss channels compose", "statement": "loss(loss(mu,cov,T1),T2)=loss(mu,cov,T1*T2); T=1 is the identity; T=0 gives the vacuum on that mode; passive_transformation by sqrt(T) diag agrees with loss; passive_transformation composes.", "quantifier": "all states, transmissions, modes", "why_tests_cant": "Continuous parameters, any mode number.", "anchors": ["thewalrus/symplectic.py: loss, passive_transformation"]}
{"id": "C30", "title": "Phase-space conversions round-trip", "statement": "Covmat(Qmat(V))=V, Qmat(Covmat(Q))=Q (Q of Hermitian form), real_to_complex and complex_to_real displacements are inverse.", "quantifier": "all matrices/vectors, all hbar>0", "why_tests_cant": "All sizes and reals.", "anchors": ["thewalrus/quantum/conversions.py"]}
{"id": "C31", "title": "Amat is symmetric and inverts the construction of Q", "statement": "For a covariance matrix V (symmetric) with invertible Q, Amat(V) = X (1 - Q^-1) is a symmetric matrix, has the block form [[B, C], [C^T, conj B]], and Q is recovered from it as (1 - X A)^-1.", "quantifier": "all mode numbers, all symmetric V with invertible Q, all hbar>0", "why_tests_cant": "A matrix identity over all reals and sizes.", "anchors": ["thewalrus/quantum/conversions.py: Amat, Qmat, Xmat"]}
{"id": "C32", "title": "The two is_symplectic predicates agree", "statement": "symplectic.is_symplectic and quantum.is_symplectic accept the same arrays when tolerances are 0: exactly the even-sized square S with S Omega S^T = Omega (equivalently S^T Omega S = Omega); the accepted set is closed under product.", "quantifier": "all real matrices of all sizes and shapes", "why_tests_cant": "Universal over matrices.", "anchors": ["thewalrus/symplectic.py: is_symplectic, sympmat", "thewalrus/quantum/gaussian_checks.py: is_symplectic"]}
{"id": "C33", "title": "Reducing a Gaussian state selects the listed modes, and reductions compose", "statement": "reduced_state / reduced_gaussian(mu, cov, modes) return means and covariances of exactly the listed modes in the listed order; reducing twice is reducing once by the composed list; an out-of-range mode raises.", "quantifier": "all states, all mode lists", "why_tests_cant": "All lists and sizes.", "anchors": ["thewalrus/symplectic.py: reduced_state", "thewalrus/quantum/conversions.py: reduced_gaussian"]}
{"id": "C34", "title": "loss_mat is the binomial loss channel", "statement": "loss_mat(eta, cutoff)[i,j] = C(i,j) eta^j (1-eta)^(i-j): each row sums to 1, entries are >= 0 for 0<=eta<=1, eta=1 is the identity, and loss_mat(a) loss_mat(b) = loss_mat(a b).", "quantifier": "all eta, all cutoffs", "why_tests_cant": "All cutoffs and reals.", "anchors": ["thewalrus/quantum/fock_tensors.py: loss_mat"]}
{"id": "C35", "title": "update_probabilities_with_loss conserves total probability", "statement": "For a distribution over at most 9 modes with all axes of the same length, update_probabilities_with_loss applies the loss matrix of each mode along that mode's axis, hence keeps the total and non-negativity, and applying etas then etas' equals applying the product. (With 10 modes the result is silently wrong and with more a ValueError is raised: the index letters run out.)", "quantifier": "all arrays of any shape with at most 9 axes, all transmissions", "why_tests_cant": "All shapes; the code builds einsum strings whose letters depend on the mode number.", "anchors": ["thewalrus/quantum/fock_tensors.py: update_probabilities_with_loss"]}
{"id": "C36", "title": "update_probabilities_with_noise is the truncated convolution", "statement": "update_probabilities_with_noise returns the multidimensional convolution of the probabilities with the product noise distribution, truncated to the original shape; total probability never grows when noise is a sub-distribution.", "quantifier": "all arrays, all noise distributions", "why_tests_cant": "All shapes and lengths.", "anchors": ["thewalrus/quantum/fock_tensors.py: _update_1d, update_probabilities_with_noise"]}
{"id": "C37", "title": "n_body_marginals returns marginals indexed by the queried mode order", "statement": "The k-th array of n_body_marginals, at mode indices (m1,...,mk) and photon numbers (n1,...,nk), is the probability that mode mi has ni photons for each i, for each order of the distinct mode indices. (False of the code for three or more distinct modes in cyclic order, and for indices whose set iteration order is not ascending.)", "quantifier": "all mode tuples and orders", "why_tests_cant": "All permutations of mode indices; tests use two modes.", "anchors": ["thewalrus/quantum/fock_tensors.py: n_body_marginals"]}
{"id": "C38", "title": "find_classical_subsystem returns the largest classical prefix", "statement": "find_classical_subsystem(cov) returns the largest k such that the reduced state on the first k modes is classical (given that subsets of a classical state are classical).", "quantifier": "all covariance matrices and mode numbers", "why_tests_cant": "All sizes.", "anchors": ["thewalrus/quantum/fock_tensors.py: find_classical_subsystem"]}
{"id": "C39", "title": "Samplers respect cutoffs and sample counts for every random stream", "statement": "For every sequence of outcomes of the random generator: hafnian_sample_state / torontonian_sample_state return exactly `samples` rows, each with one entry per mode, entries within the cutoff (0 or 1 for clicks) and total within max_photons; a single draw is either -1 or such a row, and a call that returns consumed the draws up to the last accepted one, keeping the accepted ones in order. Bad covariance arguments raise the documented exceptions. The classical-state samplers return the clicks of the photon samples, and rank-one graph samples have an even number of photons and none on isolated vertices.", "quantifier": "all random streams, cutoffs, photon limits, mode numbers", "why_tests_cant": "Random streams cannot be enumerated.", "anchors": ["thewalrus/samples.py: generate_hafnian_sample, _hafnian_sample, hafnian_sample_state, generate_torontonian_sample, _torontonian_sample, torontonian_sample_state, hafnian_sample_classical_state, torontonian_sample_classical_state, hafnian_sample_graph_rank_one"]}
{"id": "C40", "title": "invert_permutation inverts, so sampled modes come back in the caller's order", "statement": "For each permutation p of range(n), x[p][invert_permutation(p)] = x and p[invert_permutation(p)] is the identity.", "quantifier": "all n, all permutations", "why_tests_cant": "n! permutations for each n.", "anchors": ["thewalrus/samples.py: invert_permutation, photon_means_order"]}
{"id": "C41", "title": "photon_number_sampler maps every drawn index to the right pattern", "statement": "For probabilities of shape [cutoff]*M (the documented shape): photon_number_sampler draws the pattern n with probability probabilities[n] / sum (measure of the uniform numbers that give n), every returned pattern has M entries below the cutoff and positive probability, and with an out-of-bounds marker the marker is drawn with probability 1 - sum. For other shapes the first dimension is used for every mode, and the pattern returned can be wrong.", "quantifier": "all cutoffs, mode numbers, probability arrays and random numbers", "why_tests_cant": "All shapes, all random draws.", "anchors": ["thewalrus/samples.py: photon_number_sampler"]}
{"id": "C42", "title": "Memoisation in the reference module is transparent and bounded", "statement": "A memoised function returns the same values as the original for every history of calls, whatever has been evicted; the cache never exceeds its size limit.", "quantifier": "all call histories", "why_tests_cant": "All histories.", "anchors": ["thewalrus/reference.py: LimitedSizeDict, memoized"]}
{"id": "C43", "title": "Fock-state interference probabilities are normalised", "statement": "For a unitary U and an input pattern n, the values fock_prob(n, m, U) are non-negative and sum to 1 over the output patterns m with the same photon number; unequal photon numbers raise.", "quantifier": "all unitaries of all sizes, all input patterns", "why_tests_cant": "Sum over all outputs for each n.", "anchors": ["thewalrus/_permanent.py: fock_prob, perm"]}
{"id": "C44", "title": "Bristolian inclusion-exclusion", "statement": "brs(A, E) is the signed sum over row subsets S of perm(A_S^dag A_S + E), ubrs the same with E = 0 and without the empty subset; fock_threshold_prob(n, d, T) is the total fock_prob of the output patterns occupying exactly the clicked modes in a dilation of T, hence non-negative and summing to 1 over d (for unitary T: when there is at least one photon; for the vacuum the code returns 0).", "quantifier": "all matrices, all sizes", "why_tests_cant": "2^m terms for each m.", "anchors": ["thewalrus/_permanent.py: brs, ubrs, fock_threshold_prob"]}
{"id": "C45", "title": "Normal ordering coefficients are Stirling numbers", "statement": "_coeff_normal_ordered(m, k) is the Stirling number of the second kind, i.e. n^m = sum_k S(m,k) n(n-1)...(n-k+1) for all n; hence photon_number_moment is the combination of factorial moments that the definition of moments requires.", "quantifier": "all m, k, n", "why_tests_cant": "All integers.", "anchors": ["thewalrus/quantum/means_and_variances.py: _coeff_normal_ordered, photon_number_moment"]}
{"id": "C46", "title": "partition enumerates set partitions exactly once", "statement": "partition(collection) of n>=1 distinct elements yields every set partition exactly once (Bell(n) in total), so that photon_number_cumulant sums over each partition once.", "quantifier": "all n, all collections", "why_tests_cant": "Bell(n) objects for each n.", "anchors": ["thewalrus/quantum/means_and_variances.py: partition, photon_number_cumulant"]}
{"id": "C47", "title": "Pre-Iwasawa and Iwasawa factorisations", "statement": "For a symplectic S, pre_iwasawa(S) returns (E, D, F) with S = E D F, each symplectic, E lower block unitriangular, D block diagonal, F orthogonal (given a symmetric square root); iwasawa(S) the same with a triangular block (given QR).", "quantifier": "all symplectic S, any size", "why_tests_cant": "Continuum of matrices.", "anchors": ["thewalrus/decompositions.py: pre_iwasawa, iwasawa"]}
{"id": "C48", "title": "takagi and blochmessiah return factorisations of their input", "statement": "takagi(A) returns r >= 0, sorted as requested, and a unitary U with A = U diag(r) U^T, for every complex symmetric A (A is symmetrised from its upper triangle); blochmessiah(S) returns O, D, Q with S = O D Q, O and Q orthogonal symplectic and D = diag(d, 1/d), d > 0, for every symplectic S; non-square or non-symplectic input raises ValueError.", "quantifier": "all symmetric complex A of every size; all symplectic S of every size", "why_tests_cant": "Continuum of matrices; the branches depend on special structure.", "anchors": ["thewalrus/decompositions.py: takagi, blochmessiah"]}
{"id": "C49", "title": "Fock representations of the Gaussian gates and their gradients are exact", "statement": "For every cutoff, displacement, squeezing, two_mode_squeezing, beamsplitter and mzgate return the matrix elements of the operator that has the gate's vacuum amplitude and satisfies its Heisenberg relations (a D = D(a + alpha), a S = S(cosh r a - e^{i theta} sinh r a^dagger), ...), in particular entries do not depend on the cutoff and are loop hafnians of the repeated gate matrix; entries vanish unless the gate's conserved quantity (parity, difference, sum of photons) allows them; beamsplitter and mzgate are unitary on the columns with fewer than cutoff photons; and grad_displacement, grad_squeezing, grad_two_mode_squeezing, grad_beamsplitter and grad_mzgate applied to the gate return the derivatives of all its entries in both parameters.", "quantifier": "all cutoffs, all real parameters and all entries", "why_tests_cant": "Holds for every cutoff and every entry of arrays of unbounded size, and for every real value of the parameters.", "anchors": ["thewalrus/fock_gradients.py: displacement, squeezing, two_mode_squeezing, beamsplitter, mzgate, grad_displacement, grad_squeezing, grad_two_mode_squeezing, grad_beamsplitter, grad_mzgate"]}
{"id": "C50", "title": "Random matrices are what they claim for every sequence of random numbers", "statement": "Whatever numbers the generator returns, random_interferometer returns a unitary (orthogonal with real=True) or, exactly if the drawn matrix is singular, NaN; the unitary does not depend on the choices of LAPACK and its law under normal draws is invariant under multiplication by unitaries (Haar). random_symplectic is symplectic (orthogonal if passive, block diagonal with block_diag); random_covariance obeys the uncertainty relation and is pure with pure=True; block and banded interferometers are unitary with the advertised zero entries; bandwidth >= N raises ValueError.", "quantifier": "all sizes, flags, bandwidths, sequences of random numbers, implementations of QR", "why_tests_cant": "All random streams.", "anchors": ["thewalrus/random.py: random_block_interferometer, random_banded_interferometer"]}
{"id": "C51", "title": "Photon-number means are additive and consistent across functions", "statement": "photon_number_mean, photon_number_mean_vector, photon_number_covar, photon_number_covmat, photon_number_expectation and photon_number_squared_expectation are the means, covariances and product moments of the photon numbers a^dagger a of the state; the mean vector sums to the total mean photon number; symplectic.mean_photon_number equals photon_number_mean and photon_number_covar for one mode; the covariance is symmetric; the vacuum has mean and variance zero.", "quantifier": "all states, modes, hbar", "why_tests_cant": "Continuum of states.", "anchors": ["thewalrus/quantum/means_and_variances.py: photon_number_mean, photon_number_mean_vector, photon_number_covar, photon_number_covmat", "thewalrus/symplectic.py: mean_photon_number"]}
{"id": "C52", "title": "get_partition accepts exactly the valid selections of modes", "statement": "get_partition(cov, modes_A, split) returns the selected modes: [modes_A] for an int, list(modes_A) for a sequence of Python ints, range(split) if only split is given, and every returned mode exists; TypeError exactly when modes_A has an unsupported type or neither argument is given; ValueError for every other call that does not return (mode out of range, not an int, split >= M). modes_A takes precedence over split; repeated modes are not rejected.", "quantifier": "all M, mode arguments and splits", "why_tests_cant": "All lists.", "anchors": ["thewalrus/quantum/entanglement.py: get_partition"]}
{"id": "C53", "title": "Parallel reductions do not depend on the schedule", "statement": "In every parallel loop of the hafnian, loop hafnian, batch, permanent and torontonian functions each iteration adds a term to a reduction variable of which every thread has a private copy: however the iterations are distributed over threads, in whatever order they are executed and interleaved, and in whatever order the private copies are combined, the value returned (or the exception raised by an iteration) is that of the sequential loop, in exact arithmetic.", "quantifier": "all inputs, all numbers of threads, all distributions, interleavings and reduction orders", "why_tests_cant": "Number of schedules is unbounded.", "anchors": ["thewalrus/_hafnian.py: _calc_hafnian, _calc_loop_hafnian", "thewalrus/_permanent.py: brs, ubrs", "thewalrus/_torontonian.py: numba_tor"]}
{"id": "C54", "title": "Default tolerances can change the hafnian", "statement": "hafnian(A) with the default tolerances equals the exact hafnian of A whenever no special-case shortcut triggers on an approximate test; for a matrix whose off-diagonal entries are all zero within the tolerances the result is 0 (with loop=True the product of the diagonal), whatever these entries are, so there are matrices for which the default tolerances return 0 although the hafnian is not zero.", "quantifier": "all matrices, all tolerances", "why_tests_cant": "All real matrices.", "anchors": ["thewalrus/_hafnian.py: hafnian, input_validation"]}
{"id": "C55", "title": "Input validation accepts exactly the square, NaN-free, symmetric arrays", "statement": "input_validation(A) raises iff A is not an array, not square, has NaN or is not symmetric within tolerance; tor_input_checks similarly.", "quantifier": "all inputs", "why_tests_cant": "All inputs.", "anchors": ["thewalrus/_hafnian.py: input_validation", "thewalrus/_torontonian.py: tor_input_checks"]}
{"id": "C56", "title": "Click statistics are moments of the threshold distribution", "statement": "mean_clicks(cov) and variance_clicks(cov) are the mean and variance of the number of clicks under the threshold distribution determined by vacuum probabilities of subsets of modes.", "quantifier": "all mode numbers and covariances", "why_tests_cant": "2^n patterns for each n.", "anchors": ["thewalrus/quantum/means_and_variances.py: mean_clicks, variance_clicks"]}
{"id": "C57", "title": "Precomputed binomials are binomial coefficients", "statement": "nb_binom(n,k) and precompute_binoms(m)[n,k] equal C(n,k) for all 0<=n,k<=m, with zero outside the triangle.", "quantifier": "all n, k", "why_tests_cant": "All integers; the multiplicative loop divides at each step.", "anchors": ["thewalrus/_hafnian.py: nb_binom, precompute_binoms"]}
{"id": "C58", "title": "The generating function f is the truncated exponential of power traces", "statement": "f(A, n) returns coefficient z^(n/2) of exp(sum_k tr(A^k) z^k/(2k)); f_loop and f_loop_odd the analogous coefficient with the loop term.", "quantifier": "all matrices, all n", "why_tests_cant": "Polynomial loops nested over n.", "anchors": ["thewalrus/_hafnian.py: f, f_loop, f_loop_odd"]}
{"id": "C59", "title": "interferometer is hermite_multidimensional on block anti-diagonal input", "statement": "interferometer(R, cutoff) for R = [[0, U],[U^T, 0]] equals hermite_multidimensional(R, cutoff) with zero y: entries with unequal photon numbers are zero.", "quantifier": "all U, cutoffs, entries", "why_tests_cant": "All tensors.", "anchors": ["thewalrus/_hermite_multidimensional.py: interferometer, _interferometer, _interferometer_renorm"]}
{"id": "C60", "title": "powerset and bitstrings enumerate subsets exactly once", "statement": "powerset(s) yields each sub-tuple of s exactly once, by size; reference.bitstrings(n) yields each bit string of length n starting with 0 exactly once; dec2bin(num, n) returns the positions of the set bits of the n-bit big-endian expansion of num.", "quantifier": "all s, n, num < 2^n", "why_tests_cant": "2^n objects.", "anchors": ["thewalrus/_hafnian.py: powerset", "thewalrus/reference.py: bitstrings", "thewalrus/_montrealer.py: dec2bin"]}
{"id": "C61", "title": "Ordered expectation values obey Wick's theorem", "statement": "s_ordered_expectation(mu, cov, rpt, hbar, s) is the sum, over all ways of pairing up some of the listed ladder operators, of the product of their s-ordered covariances and of the means of the unpaired ones; normal_ordered_expectation is the case s=1.", "quantifier": "all mode numbers, all means and symmetric covariance matrices, all repetition patterns, all s and hbar", "why_tests_cant": "Continuum of states and unbounded operator products.", "anchors": ["thewalrus/quantum/means_and_variances.py: s_ordered_expectation, normal_ordered_expectation"]}
{"id": "C62", "title": "The Gaussian-state checks decide the uncertainty relation, classicality and purity", "statement": "With exact comparisons, is_valid_cov(cov, hbar) accepts exactly the symmetric even-dimensional matrices with cov + i hbar/2 Omega positive semidefinite; is_classical_cov those for which in addition cov - hbar/2 is positive semidefinite; is_pure_cov those valid ones with det(2 cov/hbar) = 1, equivalently with 2 cov/hbar symplectic.", "quantifier": "all dimensions, matrices and hbar", "why_tests_cant": "Continuum of matrices in every dimension; purity is an equivalence between a determinant and a matrix identity.", "anchors": ["thewalrus/quantum/gaussian_checks.py: is_valid_cov, is_pure_cov, is_classical_cov"]}
{"id": "C63", "title": "Gaussian operations map physical states to physical states", "statement": "The vacuum is physical; conjugating with a symplectic matrix, reduced_state, passive_transformation with T T^dagger <= 1 and loss with transmission in [0,1] and thermal occupation >= 0 each map a covariance matrix obeying the uncertainty relation to one that obeys it.", "quantifier": "all mode numbers, states, symplectic and sub-unitary matrices, losses", "why_tests_cant": "Continuum of states and operations in every dimension.", "anchors": ["thewalrus/symplectic.py: vacuum_state, loss, passive_transformation, reduced_state, interferometer"]}
{"id": "C64", "title": "williamson diagonalises every positive definite matrix by a symplectic congruence", "statement": "williamson(V) returns (Db, S) with V = S Db S^T, S symplectic and Db = diag(d, d), d > 0, for every real positive definite symmetric V of even size, and raises ValueError on non-square, odd-sized, asymmetric or not positive definite input; symplectic_eigenvals(V) returns the same numbers d up to order.", "quantifier": "all real positive definite V of every even size", "why_tests_cant": "Continuum of matrices; degenerate symplectic spectra are measure zero and never sampled.", "anchors": ["thewalrus/decompositions.py: williamson, symplectic_eigenvals"]}
{"id": "C65", "title": "vonneumann_entropy is the entropy of the symplectic spectrum", "statement": "For every physical covariance matrix vonneumann_entropy(cov, hbar) is the sum of (n+1)log(n+1) - n log n with n = (nu-1)/2 over the symplectic eigenvalues nu (in units of hbar/2); it is nonnegative, zero exactly for pure states, and unchanged by symplectic transformations; unphysical matrices raise ValueError. It is -Tr(rho log rho): the Shannon entropy of the eigenvalues of the density matrix (in the Fock basis) of any Gaussian state with this covariance matrix.", "quantifier": "all mode numbers, physical covariances, symplectic matrices, hbar > 0", "why_tests_cant": "Continuum of states in every dimension; degenerate spectra are never sampled.", "anchors": ["thewalrus/quantum/entanglement.py: vonneumann_entropy", "thewalrus/decompositions.py: symplectic_eigenvals"]}
{"id": "C66", "title": "entanglement_entropy of a pure state does not depend on which side is traced out", "statement": "For every pure Gaussian state and every division of its modes into two nonempty parts, entanglement_entropy of one part is the von Neumann entropy of the reduced state, is nonnegative and is equal to that of the other part. It is -Tr(rho' log rho') for the partial trace rho' of the state's density matrix in the Fock basis.", "quantifier": "all mode numbers, pure states, bipartitions and orders of the modes", "why_tests_cant": "2^n bipartitions of a continuum of states.", "anchors": ["thewalrus/quantum/entanglement.py: entanglement_entropy, get_partition", "thewalrus/symplectic.py: reduced_state"]}
{"id": "C67", "title": "log_negativity decides the PPT criterion and is invariant under local operations", "statement": "For every physical state and every selection of modes, log_negativity is the sum of max(0, -log nu) over the symplectic eigenvalues of the partial transpose; it is zero exactly if the partial transpose is physical, hence zero for separable states; it is the same for the complementary selection and unchanged by symplectic transformations acting separately on the two parts; invalid input raises.", "quantifier": "all mode numbers, physical covariances, selections of modes, local symplectic matrices", "why_tests_cant": "Continuum of states and operations.", "anchors": ["thewalrus/quantum/entanglement.py: log_negativity, get_partition"]}
{"id": "C69", "title": "density_matrix_element returns the matrix elements of the Gaussian state", "statement": "For every physical Gaussian state and all occupation numbers i, j, density_matrix_element(mu, cov, i, j) is <j|rho|i>, where rho is the (unique) matrix whose Husimi function <alpha|rho|alpha> is the Gaussian with means mu and covariance cov + hbar/2. (The docstring says <i|rho|j>: that is false of the code, which returns the complex conjugate.)", "quantifier": "all mode numbers >= 1, physical states whose displacement is zero or above the tolerance, occupation numbers, hbar > 0", "why_tests_cant": "Continuum of states and unbounded photon numbers; the reference value is an infinite-dimensional operator.", "anchors": ["thewalrus/quantum/fock_tensors.py: density_matrix_element, _prefactor", "thewalrus/quantum/conversions.py: Qmat, Amat, complex_to_real_displacements"]}
{"id": "C70", "title": "density_matrix returns the density matrix with the documented index order, with and without post-selection", "statement": "For every physical Gaussian state, density_matrix(mu, cov, post_select, normalize, cutoff, hbar) at index (i0, j0, i1, j1, ...) is <i|rho|j>; with post_select it is the block of rho in which the selected modes hold the given photon numbers on both sides, divided with normalize=True by the trace of that block below the cutoff; rho is Hermitian.", "quantifier": "all mode numbers, physical states, post-selections of distinct modes, cutoffs (<= 1000 without post-selection), hbar > 0", "why_tests_cant": "Continuum of states, unbounded cutoffs and all post-selection dictionaries.", "anchors": ["thewalrus/quantum/fock_tensors.py: density_matrix"]}
{"id": "C71", "title": "pure_state_amplitude and state_vector return the same state vector, and it factorises the density matrix", "statement": "For every pure Gaussian state there is one vector psi with rho_ij = psi_i conj(psi_j) such that pure_state_amplitude(mu, cov, n) = psi_n and state_vector returns psi, restricted to the post-selected photon numbers and divided by its norm when asked; with check_purity=True a state that is not pure raises ValueError.", "quantifier": "all mode numbers >= 1, pure states, occupation numbers, post-selections, cutoffs", "why_tests_cant": "Two different algorithms (hafnians and Hermite recursion) must agree, including the phase, on a continuum of states.", "anchors": ["thewalrus/quantum/fock_tensors.py: pure_state_amplitude, state_vector"]}
{"id": "C72", "title": "Gaussian states have positive density matrices and probabilities returns their diagonal", "statement": "For every physical Gaussian state the density matrix is positive semidefinite; probabilities(mu, cov, cutoff, parallel) returns its diagonal, which is real and nonnegative, whichever branch (pure or mixed, serial or parallel) is taken.", "quantifier": "all mode numbers >= 1, physical states, cutoffs <= 1000, both values of parallel, finite superpositions of Fock states", "why_tests_cant": "Positivity quantifies over all vectors of an infinite-dimensional space and a continuum of states.", "anchors": ["thewalrus/quantum/fock_tensors.py: probabilities, density_matrix_element, state_vector"]}
{"id": "C73", "title": "Probabilities of a Gaussian state sum to one and reduced_state is the partial trace", "statement": "For every physical Gaussian state the diagonal of its density matrix in the Fock basis sums to one, so the array returned by probabilities is non-negative and sums to at most one for every cutoff; and for every list of distinct modes, in any order, the density matrix of the state returned by reduced_state is the partial trace, over the modes not listed, of the density matrix of the whole state - so its photon-number probabilities are the marginals.", "quantifier": "all physical states, mode numbers, lists of distinct modes, occupation numbers, cutoffs", "why_tests_cant": "An infinite sum over occupation numbers of every state: no finite computation reaches it.", "anchors": ["thewalrus/quantum/fock_tensors.py: probabilities, density_matrix", "thewalrus/symplectic.py: reduced_state"]}
{"id": "C74", "title": "tvd_cutoff_bounds bounds the truncation error", "statement": "For every physical state, entry k of tvd_cutoff_bounds(mu, cov, cutoff) is the sum over modes of the probability of more than k photons in that mode, and is at least the total variation distance between the photon-number distribution and its (renormalised) restriction to at most k photons in each mode.", "quantifier": "all physical states, mode numbers, cutoffs up to the square-root table", "why_tests_cant": "The total variation distance is an infinite sum.", "anchors": ["thewalrus/quantum/fock_tensors.py: tvd_cutoff_bounds"]}
{"id": "C75", "title": "adj_to_qmat encodes a graph into a pure Gaussian state with the requested mean photon number", "statement": "For every complex symmetric matrix A whose largest singular value exceeds 1e-7 and every n_mean from 0 to 499 (and beyond, up to s^2/(1e-10(2s+1e-10))), adj_scaling returns the unique scaling x in [0, 1/s) and adj_to_qmat the Q matrix of a state which for every hbar is physical and pure, has A matrix conj(xA) + xA (direct sum), total mean photon number n_mean, and whose photon-number amplitudes are haf((xA)_n)/sqrt(n!) times the square root of the vacuum probability prod sqrt(1-(x s_k)^2). ValueError for negative or too large n_mean, tiny singular values, non-square matrices.", "quantifier": "all sizes, complex symmetric matrices, mean photon numbers, photon patterns", "why_tests_cant": "Continuum of matrices and means; the amplitudes range over all photon patterns.", "anchors": ["thewalrus/quantum/adjacency_matrices.py: adj_scaling, adj_to_qmat"]}
{"id": "C76", "title": "adj_scaling_torontonian returns the scaling with the requested mean number of clicks", "statement": "For every nonzero complex symmetric matrix and every c_mean between 0 and the number of modes: if some scaling y below 1/s_max gives a state with c_mean mean clicks, it is unique and adj_scaling_torontonian returns it; whenever the returned scaling is below 1/s_max the state has exactly c_mean mean clicks (_mean_clicks_adj being the mean click number of the pure state of the matrix); c_mean outside [0, n] raises ValueError. (A request that no scaling can meet is not refused: 1/s_max is returned, where there is no state.)", "quantifier": "all sizes, nonzero complex symmetric matrices, click numbers", "why_tests_cant": "Needs strict monotonicity of the mean click number in the scaling, over a continuum of matrices.", "anchors": ["thewalrus/quantum/adjacency_matrices.py: adj_scaling_torontonian, _mean_clicks_adj"]}
{"id": "C77", "title": "rescale_adjacency_matrix returns the spectral decomposition of the rescaled matrix with the requested thermal photon number", "statement": "For every real symmetric matrix whose eigenvalues are zero or at least atol, and 0 <= n_mean <= scale*l_max/atol, rescale_adjacency_matrix returns (l, O) with O orthogonal, O diag(l) O^T = x A for the unique x >= 0 for which sum of scale*l/(1-scale*l) is n_mean, and 0 <= scale*l < 1; the thermal version is scale = 1; asymmetric matrices and matrices with a negative eigenvalue raise AssertionError.", "quantifier": "all sizes, matrices, mean photon numbers, scales", "why_tests_cant": "Continuum of matrices and means.", "anchors": ["thewalrus/csamples.py: rescale_adjacency_matrix, rescale_adjacency_matrix_thermal"]}
{"id": "C68", "title": "The photon-number sampler draws every photon number with its Born probability", "statement": "For hbar = 2 and every physical Gaussian state, generate_hafnian_sample is - as a function of every sequence of random numbers - the reference sampler: order the modes by mean photon number, write the covariance matrix as T + W W^T with T that of a pure state, draw the means mu + W x, draw the outcomes of heterodyne detection of all modes of that pure state (quadratures mean + C y with C C^T = T + 1), then mode after mode draw a photon number at most cutoff with probability proportional to the Born probability <n,alpha|rho|n,alpha> of that number together with the numbers already drawn and the heterodyne outcomes of the remaining modes; undo the ordering; reject exactly if the last entry is cutoff or the total exceeds max_photons. (For other values of hbar the code is wrong: hbar is ignored in parts of the routine.)", "quantifier": "all mode numbers >= 1, physical states with symplectic eigenvalues equal to 1 or at least 1+1e-10, cutoffs >= 1, max_photons, sequences of random numbers", "why_tests_cant": "Statistical tests see finitely many samples of a few states; the conditional probabilities are infinite sums over a continuum of outcomes.", "anchors": ["thewalrus/samples.py: generate_hafnian_sample, decompose_cov, photon_means_order, invert_permutation, mu_to_alpha", "thewalrus/loop_hafnian_batch_gamma.py: loop_hafnian_batch_gamma"]}
{"id": "C78", "title": "fock_tensor returns the matrix elements of the Gaussian unitary", "statement": "For every symplectic S of l modes and every displacement alpha there is a unitary U on Fock space with U^dag a_k U = sum_m (E_km a_m + F_km a_m^dag) + alpha_k, E and F being the complex form of S, such that for every cutoff <= 1000, every choi_r != 0, both index orders and both branches (interferometer or Choi expansion) fock_tensor(S, alpha, cutoff) returns <i|U|j>; the global phase is fixed by <0|U|0> = exp(-(|alpha|^2 - conj(alpha) F conj(E)^-1 conj(alpha))/2)/sqrt|det E|, so the result does not depend on choi_r, and enlarging the cutoff only adds entries. A matrix that is not symplectic, or a vector alpha of the wrong length, raises ValueError.", "quantifier": "all mode numbers, symplectic matrices, displacements, occupation numbers, cutoffs, choi_r", "why_tests_cant": "Unitarity and the Heisenberg relations concern an infinite matrix, for a continuum of inputs.", "anchors": ["thewalrus/quantum/fock_tensors.py: fock_tensor, state_vector", "thewalrus/_hermite_multidimensional.py: interferometer", "thewalrus/symplectic.py: expand"]}
{"id": "C79", "title": "Composing and inverting symplectic matrices composes and inverts the tensors of fock_tensor", "statement": "The Gaussian unitary of (S, alpha), whose entries fock_tensor returns, exists, is determined up to a phase, and by its vacuum amplitude completely; the product of those of (S, alpha) and (T, beta) (convergent sums) is the one of ST with displacement alpha + S beta; the adjoint is the one of S^-1; its first column is the state vector of the Gaussian state with covariance (hbar/2) S S^T and mean sqrt(2 hbar) alpha.", "quantifier": "all mode numbers, symplectic matrices, displacements, hbar > 0", "why_tests_cant": "Infinite sums over occupation numbers for a continuum of matrices.", "anchors": ["thewalrus/quantum/fock_tensors.py: fock_tensor, state_vector"]}
{"id": "C80", "title": "Symplectic transformations of means and covariance describe the evolution under the tensors of fock_tensor", "statement": "For every physical Gaussian state with density matrix rho (as returned by density_matrix) and every symplectic S and displacement alpha, U rho U^dag - with U the unitary whose entries fock_tensor(S, alpha) returns, the double sum converging absolutely - is the density matrix of the state with means S mu + sqrt(2 hbar)(Re alpha, Im alpha) and covariance S cov S^T. If cov = (hbar/2) S diag(nu, nu) S^T (the output of williamson), rho is diagonal in the columns of the unitary of S, with eigenvalues the photon-number probabilities of thermal states with mean photon numbers (nu-1)/2.", "quantifier": "all mode numbers, physical states, symplectic matrices, displacements, occupation numbers, hbar > 0", "why_tests_cant": "Infinite double sums over occupation numbers for a continuum of states and unitaries.", "anchors": ["thewalrus/quantum/fock_tensors.py: fock_tensor, density_matrix", "thewalrus/symplectic.py", "thewalrus/decompositions.py: williamson"]}
{"id": "C81", "title": "fidelity is the Uhlmann fidelity of the density matrices", "statement": "For every pair of physical Gaussian states of the same number of modes, with any means, fidelity returns F = (Tr sqrt(sqrt(rho) sigma sqrt(rho)))^2 of their density matrices in the Fock basis, and no other number: the spectral decompositions exist, the traces converge, and the value is independent of the choice of eigenvectors. For a pure state psi this is <psi|rho|psi> (whichever state is given first), for two pure states |<psi|phi>|^2; for states with equal means whose covariance matrices are diagonalised by the same symplectic matrix it is (sum_m sqrt(p_m q_m))^2; the fidelity of a state with itself is 1. Covariance matrices and first means of incompatible shapes raise ValueError; the shape of the second means is not checked (a vector with one entry is broadcast).", "quantifier": "all mode numbers, means, physical covariance matrices, hbar > 0", "why_tests_cant": "A continuum of states, with infinite sums over occupation numbers on the side of the specification.", "anchors": ["thewalrus/quantum/gaussian_checks.py: fidelity"]}
{"id": "C82", "title": "The Fock-basis gates are the Gaussian unitaries of the symplectic gates, and fock_tensor reproduces them", "statement": "For all gate parameters, the arrays returned by displacement, squeezing, beamsplitter, mzgate and two_mode_squeezing of fock_gradients hold the matrix elements of one unitary on Fock space (the same for every cutoff) that transforms the creation and annihilation operators by, respectively, the identity with displacement r exp(i phi), symplectic.squeezing(r, theta), symplectic.beam_splitter(theta, phi), symplectic.interferometer of the Mach-Zehnder matrix and symplectic.two_mode_squeezing(r, theta); and fock_tensor of that symplectic matrix (any choi_r != 0, both index orders) returns the same array, phase included.", "quantifier": "all real gate parameters, cutoffs <= 1000, Fock indices, choi_r", "why_tests_cant": "Two independently coded recursions and a hafnian-based routine agree on a continuum of parameters and infinitely many Fock indices.", "anchors": ["thewalrus/fock_gradients.py: displacement, squeezing, beamsplitter, mzgate, two_mode_squeezing", "thewalrus/quantum/fock_tensors.py: fock_tensor", "thewalrus/symplectic.py: squeezing, beam_splitter, interferometer, two_mode_squeezing"]}
{"id": "C83", "title": "expand embeds a gate into a larger system: the listed modes get the gate, the others the identity", "statement": "For every M-mode symplectic matrix with Gaussian unitary U and every list of M distinct modes below N, the matrix returned by expand is that of the operator with matrix elements <i|W|j> = <i on the listed modes|U|j on the listed modes> if i and j agree on all other modes and 0 otherwise; a one-mode matrix expanded to a list of modes gives the product of the one-mode gates over the listed modes; expand_vector gives the displacement of the means by D(alpha) on one mode.", "quantifier": "all M, N, matrices, lists of modes, occupation numbers", "why_tests_cant": "All dimensions, mode lists and infinitely many Fock indices.", "anchors": ["thewalrus/symplectic.py: expand, expand_vector"]}
{"id": "C84", "title": "Loss on means and covariances is photon loss in the Fock basis", "statement": "For every physical Gaussian state with density matrix rho: loss(mu, cov, T, mode, nbar) describes the state obtained by adding an environment mode in the thermal state with nbar photons, applying the beam splitter of transmission T (as unitary on Fock space) to mode and environment, and tracing out the environment; for nbar = 0 its matrix elements are the sums over k of sqrt(p(i_m | i_m+k) p(j_m | j_m+k)) <i + k e_m|rho|j + k e_m>, p(a|n) being the probability that a of n photons survive. passive_transformation with the diagonal matrix of the sqrt(eta_k) turns the photon-number distribution into that in which every photon of mode k survives independently with probability eta_k. update_probabilities_with_loss applied to the probabilities below a cutoff (up to 9 modes) returns numbers between 0 and the probabilities of the state behind the losses, and tends to these when the cutoff grows.", "quantifier": "all mode numbers, physical states, transmissions in [0,1], nbar >= 0, modes, occupation numbers, cutoffs", "why_tests_cant": "Infinite sums over occupation numbers for a continuum of states and transmissions.", "anchors": ["thewalrus/symplectic.py: loss, passive_transformation, beam_splitter", "thewalrus/quantum/fock_tensors.py: update_probabilities_with_loss, density_matrix"]}
{"id": "C85", "title": "pure_state_distribution is the distribution of the total photon number", "statement": "For every physical Gaussian state the total photon number has generating function sum_n x^|n| <n|rho|n> = exp(-(1-x) mu^T W^-1 mu / 2)/sqrt(det(W/hbar)) with W = (1-x) cov + (1+x) hbar/2. For a zero-mean pure state (hbar = 2), entry k < cutoff of pure_state_distribution(cov, cutoff, padding_factor) is exactly the probability sum over |n| = k of <n|rho|n>, for every cutoff >= 1 and every padding factor >= 1; a state that is not pure raises ValueError. (The purity check ignores hbar: with hbar = 1 the vacuum is refused.)", "quantifier": "all mode numbers, states, cutoffs, padding factors", "why_tests_cant": "Infinite sums over patterns of unbounded total photon number, continuum of states.", "anchors": ["thewalrus/quantum/photon_number_distributions.py: pure_state_distribution, _convolve_squeezed_state_distribution, _squeezed_state_distribution"]}
{"id": "C86", "title": "total_photon_number_distribution and characteristic_function describe k lossy squeezed states", "statement": "For k >= 1 copies of a squeezed vacuum with parameter s that passed loss of transmission eta, total_photon_number_distribution(n, k, s, eta) is the probability of n photons in total - the sum of the diagonal elements of the density matrix over patterns with n photons - and characteristic_function(k, s, eta, ...) returns the truncated series sum over n of p(n) exp(mu n) n^poly_corr at which its stopping rule stops, a lower bound of the characteristic function.", "quantifier": "all n, k >= 1, squeezing parameters, transmissions, tolerances", "why_tests_cant": "Continuum of parameters, unbounded n, hypergeometric series.", "anchors": ["thewalrus/quantum/photon_number_distributions.py: total_photon_number_distribution, characteristic_function"]}
{"id": "C87", "title": "Distinguishable squeezers: moments and samples", "statement": "For sources k of squeezed light (parameter r_k, one per input mode) that do not interfere with each other, sent through a transmission matrix T: number_means and number_cov are the sums over the sources of the mean photon numbers and photon-number covariances of the Gaussian state of source k behind T (vacuum in all other inputs); each row returned by sample is the sum of independent contributions of the sources, where source k emits m < input_cutoff photons with the probabilities of the squeezed vacuum conditioned on m < input_cutoff and every photon is found in mode j with probability |T_jk|^2 and lost otherwise; rows are independent; as input_cutoff grows the law tends to that of the sum of independent photon numbers with laws <n|rho_k|n>.", "quantifier": "all mode numbers, squeezing parameters, transmission matrices with |T| <= 1, cutoffs, numbers of samples", "why_tests_cant": "Laws of random variables and infinite Fock sums for a continuum of parameters.", "anchors": ["thewalrus/quantum/distinguishable_squeezers.py: sample, number_means, number_cov"]}
{"id": "C88", "title": "The samplers for classical and thermal states have exactly the photon-number law of the state", "statement": "For every classical Gaussian state (covariance matrix minus vacuum positive semidefinite) with density matrix rho, the probability that hafnian_sample_classical_state returns given rows n_1..n_s is the product of <n_i|rho|n_i>, and the probability that torontonian_sample_classical_state returns given click patterns is the product of their click probabilities; more generally the rows are independent and the expectation of every bounded function of a row is the one under <n|rho|n>. generate_thermal_samples(ls, O) returns independent rows, where n has probability prod(1 - ls_k) per(A_n)/prod(n_k!) for A = O diag(ls) O^T, which is <n|rho|n> for the thermal state of A.", "quantifier": "all numbers of modes, classical covariance matrices, means, values of hbar > 0, sample counts, orthogonal matrices and thermal parameters in [0,1), all outcomes; NumPy's factorisation of the covariance matrix by contract", "why_tests_cant": "A law over infinitely many outcomes and all states; statistical tests only compare a few frequencies for a few states.", "anchors": ["thewalrus/samples.py: hafnian_sample_classical_state, torontonian_sample_classical_state", "thewalrus/csamples.py: generate_thermal_samples"]}
{"id": "C89", "title": "The rank-one graph sampler has exactly the law of the Gaussian boson sampler encoding the graph", "statement": "For every non-zero complex vector G and every mean photon number n_mean, let c >= 0 be the scaling with (c S)^2/(1-(c S)^2) = n_mean, S = sum |G_k|^2. The probability that hafnian_sample_graph_rank_one(G, n_mean, s) returns the rows n_1..n_s is the product of sqrt(1-(cS)^2) |haf((c G G^T)_{n_i})|^2/prod(n_i!), and this is <n|rho|n> for the pure Gaussian state rho encoding the adjacency matrix c G G^T.", "quantifier": "all lengths, complex vectors G other than 0, mean photon numbers, sample counts and outcomes", "why_tests_cant": "A law over infinitely many outcomes; statistical tests compare a few frequencies of one graph.", "anchors": ["thewalrus/samples.py: _hafnian_sample_graph_rank_one, hafnian_sample_graph_rank_one"]}
{"id": "C90", "title": "hafnian(approx=True) is an unbiased estimator of the hafnian", "statement": "For every symmetric real matrix with non-negative entries and every number of samples >= 1, the expected value of hafnian(A, approx=True, num_samples) - the average of determinants of random matrices with normal entries - is exactly the hafnian of A (for odd sizes, sizes up to 4 and diagonal matrices the result is exact). Matrices of even size >= 6 with a negative entry off the diagonal raise ValueError. (With loop=True and size >= 5 the estimate is still that of the hafnian without loops.)", "quantifier": "all sizes, symmetric matrices with non-negative entries, sample counts, contents of uninitialised arrays", "why_tests_cant": "The expectation is over a continuous random variable; tests average a few thousand samples of one matrix and accept a wide tolerance.", "anchors": ["thewalrus/_hafnian.py: hafnian, hafnian_approx, _one_det"]}
{"id": "C91", "title": "grouped_click_probabilities estimates the distribution of the number of clicks without bias", "statement": "For every lossy or lossless network with at least as many outputs as inputs, all input photon numbers and coherences of a physical state, and every number of groups that divides the number of samples, the expectation of entry p of the first array returned by grouped_click_probabilities is the probability that exactly p modes of the output state hold a photon (the sum of the photon-number probabilities of all outcomes with p nonempty modes); the same for grouped_click_probabilities_squeezed with squeezed vacuum inputs. In every single run the entries sum to the number of complete groups over num_groups (so not to one when num_groups does not fit num_samples, a finding). No groups, or more groups than samples, raises ZeroDivisionError; a wide matrix raises ValueError.", "quantifier": "all network sizes, contractions t_matrix, input parameters, numbers of samples and groups; all outcomes of the random generator", "why_tests_cant": "the output is random and the modes, samples and parameters are unbounded: a test compares one seed within a tolerance", "anchors": ["thewalrus/grouped_click_probabilities.py: grouped_click_probabilities, grouped_click_probabilities_squeezed"]}
{"id": "C92", "title": "The photon-number sampler has the Born distribution of the state, up to the probability beyond the cutoff", "statement": "For hbar = 2 and every physical Gaussian state with density matrix rho (as returned by density_matrix), the probability that generate_hafnian_sample returns the pattern t - with all entries at most cutoff, the last one below the cutoff and at most max_photons photons - is at least <t|rho|t> and at most <t|rho|t> plus the probability that some mode of the state has more than cutoff photons; all other patterns are returned with probability zero; as the cutoff tends to infinity the probability tends to <t|rho|t>.", "quantifier": "all physical states (symplectic eigenvalues 1 or at least 1 + 1e-10), mode numbers, cutoffs, max_photons and patterns; the law is that of all outcomes of the random generator", "why_tests_cant": "the output is random: a test compares frequencies of a few states within a statistical tolerance", "anchors": ["thewalrus/samples.py: generate_hafnian_sample, decompose_cov", "thewalrus/quantum/fock_tensors.py: density_matrix"]}
{"id": "C93", "title": "The threshold sampler draws the channels of each mode by the Born rule, and without fan-out its click patterns have the threshold probabilities", "statement": "For hbar = 2 and every physical Gaussian state, every fanout F >= 1, cutoff >= 1 and every sequence of random numbers, generate_torontonian_sample runs the following procedure: draw a pure state and the heterodyne outcomes of its modes, turn these by a unitary Fourier transform with additional noise into outcomes of F channels per mode, and then replace the outcomes of the channels one after the other by photon numbers drawn from the Born probabilities (up to the cutoff) of the state whose modes were split evenly over F channels, given all photon numbers found before and the heterodyne outcomes of the channels that are left; a mode is left at its first photon and then clicks; the run is abandoned as soon as there are more than max_photons clicks. With fanout = 1 each click pattern with at most max_photons clicks is returned with a probability that differs from its threshold probability (the value of threshold_detection_prob) by at most the probability that the state has more than cutoff photons in some mode, so that it tends to the threshold probability when the cutoff grows. For fanout >= 2 this is false of the code, because the noise of the additional channels has twice the variance of the vacuum.", "quantifier": "all physical Gaussian states of any number of modes with arbitrary means, all fanouts, cutoffs and limits, all sequences of random numbers; all click patterns for the law", "why_tests_cant": "a statement about a probability distribution over continuous random numbers for all states; a sampler test can only compare frequencies of one state up to statistical error", "anchors": ["thewalrus/samples.py: generate_torontonian_sample, get_heterodyne_fanout", "thewalrus/loop_hafnian_batch_gamma.py: loop_hafnian_batch_gamma", "thewalrus/_torontonian.py: threshold_detection_prob"]}
{"id": "C94", "title": "Moments and photon-number statistics computed from means and covariances are those of the density matrix", "statement": "For every physical Gaussian state on any number of modes with density matrix rho (as returned by density_matrix) and every list of multiplicities rpt: s_ordered_expectation with s = 1 is the expectation value tr(rho O) of the normally ordered product O of creation and annihilation operators with those multiplicities, with s = -1 that of the antinormally ordered product, and with s = 0 the mean of the expectation values over all orders of the operators, the series converging absolutely. Likewise photon_number_mean(_vector), photon_number_covmat, photon_number_expectation, photon_number_squared_expectation, photon_number_moment and photon_number_cumulant are the means, covariances, expectations of products, of products of squares, moments and joint cumulants of the photon numbers under the photon-number distribution P(n) = <n|rho|n>, all series converging absolutely.", "quantifier": "all physical Gaussian states, any number of modes, all multiplicities, all lists of modes and orders, all hbar > 0", "why_tests_cant": "two independently implemented routes (hafnians of moments against infinite sums over Fock matrix elements); a test truncates the infinite sum and fixes a state", "anchors": ["thewalrus/quantum/means_and_variances.py: photon_number_mean, photon_number_mean_vector, photon_number_covmat, photon_number_expectation, photon_number_squared_expectation, s_ordered_expectation, photon_number_moment, photon_number_cumulant", "thewalrus/quantum/fock_tensors.py: density_matrix"]}
{"id": "C95", "title": "The rows returned by the photon-number samplers are independent samples of the conditioned photon-number distribution", "statement": "hafnian_sample_state called for any number of samples on any physical Gaussian state (hbar = 2), with independent standard normal and uniform random numbers, returns rows that are independent and identically distributed: each row has the law of one run of generate_hafnian_sample given that the run does not give up. It ends with a row with at least the probability S/(S+b), S the Born probability of the patterns that can be returned and b that of more than cutoff photons in some mode. Every row that can be returned has at most cutoff photons per mode, fewer than cutoff in the last mode and at most max_photons in total; its probability equals its Born probability <t|rho|t> divided by the Born probability of the set of such patterns, up to the probability of more than cutoff photons in some mode; as the cutoff grows the rows become independent samples of the photon-number distribution conditioned on at most max_photons photons. hafnian_sample_graph with adjacency matrix A and mean photon number n_mean returns, in this limit, independent samples of |haf((xA)_t)|^2/t! normalised over the patterns with at most max_photons photons, x being the scaling of adj_scaling; it raises ValueError for arrays that are not square and NotImplementedError with parallel=True on macOS.", "quantifier": "all physical Gaussian states without symplectic eigenvalue in (1, 1+1e-10), any number of modes, samples, cutoff >= 1 and max_photons; all symmetric complex adjacency matrices with largest singular value above 1e-7", "why_tests_cant": "the claim is about the joint law of unboundedly many random numbers consumed by a rejection loop of unbounded length; a statistical test can only fail to reject it", "anchors": ["thewalrus/samples.py: hafnian_sample_state, _hafnian_sample, hafnian_sample_graph, generate_hafnian_sample", "thewalrus/quantum/adjacency_matrices.py: adj_to_qmat, adj_scaling"]}
{"id": "C96", "title": "The rows returned by the threshold samplers are independent samples of the conditioned click statistics", "statement": "torontonian_sample_state with fanout = 1 called for any number of samples on any physical Gaussian state (hbar = 2), with independent random numbers, returns rows that are independent and identically distributed: each row has the law of one run of generate_torontonian_sample given that the run does not give up - although a run that gives up consumes fewer random numbers than one that returns a row, and stops at a random mode. The probability that a run does not give up is the probability of at most max_photons clicks, up to the probability of more than cutoff photons in some mode; as the cutoff grows the rows become independent samples of the click statistics of the state conditioned on at most max_photons clicks, and of threshold_detection_prob itself if max_photons is at least the number of modes. torontonian_sample_graph with adjacency matrix A and mean photon number n_mean returns, in this limit, independent click patterns with weights the sums of |haf((xA)_t)|^2/t! over the photon patterns t that give these clicks, normalised over at most max_photons clicks, x being the scaling of adj_scaling; ValueError for arrays that are not square and NotImplementedError with parallel=True on macOS.", "quantifier": "all physical Gaussian states without symplectic eigenvalue in (1, 1+1e-10), any number of modes, samples, max_photons, cutoffs; all symmetric complex adjacency matrices with admissible mean photon number", "why_tests_cant": "the law of the whole output over all random streams; the rejection loop has no bound, rejected runs use a random number of draws", "anchors": ["thewalrus/samples.py: torontonian_sample_state, _torontonian_sample, generate_torontonian_sample, torontonian_sample_graph", "thewalrus/_torontonian.py: threshold_detection_prob", "thewalrus/quantum/adjacency_matrices.py: adj_to_qmat"]}
{"id": "C97", "title": "The thermal point process: rescaling and sampling together give the permanental distribution with the requested mean", "statement": "For every real symmetric positive semidefinite kernel matrix A (eigenvalues zero or at least the tolerance) and every positive admissible n_mean, rescale_adjacency_matrix_thermal followed by generate_thermal_samples (with the eigenvalues and eigenvectors of the rescaled matrix) returns independent rows, each with probability det(1-xA) per((xA)_t)/t! of the pattern t; these weights are nonnegative, sum to one, and the mean total number of points is n_mean. The derivative functions that the rescaling routines hand to the Newton root finder are the derivatives of the functions whose root they seek: grad_mean_photon_number of mean_photon_number for adj_scaling and the squeezed rescaling, and its thermal analogue.", "quantifier": "all symmetric positive semidefinite matrices of any size with eigenvalues zero or at least the tolerance, all n_mean, all numbers of samples, all patterns", "why_tests_cant": "an exact law for all inputs and an identity between real functions", "anchors": ["thewalrus/csamples.py: rescale_adjacency_matrix, rescale_adjacency_matrix_thermal, generate_thermal_samples", "thewalrus/quantum/adjacency_matrices.py: adj_scaling"]}
{"id": "C98", "title": "With parallel=True the samples have the same joint law, for every schedule of the threads", "statement": "With parallel=True the sampling tasks run in threads that draw from one shared random number generator, so which thread gets which random number depends on the schedule, and the schedule may itself depend on what was drawn before (a task that rejects needs more draws). Whatever the schedule - any rule that decides, from everything drawn so far, which thread draws next, and lets each thread finish - the rows that hafnian_sample_state, torontonian_sample_state (fanout = 1), hafnian_sample_graph and torontonian_sample_graph return with parallel=True have exactly the same joint law as with parallel=False: independent rows, each with the law of one round given that it is not rejected; in the limit of large cutoff independent samples of the photon-number or click distribution.", "quantifier": "all physical Gaussian states without symplectic eigenvalue in (1, 1+1e-10), all symmetric adjacency matrices with admissible mean, any numbers of modes and samples, cutoffs, max_photons, and all measurable adaptive schedules of the threads", "why_tests_cant": "quantifies over all schedules and all random streams", "anchors": ["thewalrus/samples.py: hafnian_sample_state, _hafnian_sample, hafnian_sample_graph, torontonian_sample_state, _torontonian_sample, torontonian_sample_graph"]}
{"id": "C99", "title": "Click statistics computed from means and covariances are those of the photon-number distribution", "statement": "click_cumulant of a Gaussian state and a nonempty list of modes, with repetitions, is the joint cumulant of the clicks of threshold detectors in these modes: the sum over all set partitions of the positions of (-1)^(b-1) (b-1)! times the product over the b blocks of the probability that every mode of the block contains a photon, in the photon-number distribution of the state - independently of the order in which Python lists the elements of a set. For one mode it is the click probability, for two the covariance of the clicks. mean_clicks and variance_clicks are the mean and the variance of the number of modes with photons. The empty list raises IndexError.", "quantifier": "all physical Gaussian states with any number of modes and any displacement (none for mean_clicks, variance_clicks), all lists of modes", "why_tests_cant": "infinitely many photon patterns, all set partitions", "anchors": ["thewalrus/quantum/means_and_variances.py: click_cumulant, mean_clicks, variance_clicks, partition", "thewalrus/_torontonian.py: threshold_detection_prob", "thewalrus/quantum/conversions.py: reduced_gaussian"]}
{"id": "C100", "title": "fidelity is symmetric, lies in (0, 1], is one only for equal states, and is invariant under Gaussian unitaries", "statement": "For every pair of physical Gaussian states of the same number of modes fidelity returns the same number for both orders of the states; the number is positive and at most one, and it is one exactly if the two states have the same means and the same covariance matrix. Applying one symplectic matrix and one displacement to both states does not change it, and neither does a change of units (means by sqrt(hbar'/hbar), covariance matrices by hbar'/hbar).", "quantifier": "all physical Gaussian states with any number of modes, pure or mixed, with any displacement; all symplectic matrices, displacements and values of hbar", "why_tests_cant": "real-valued inputs of unbounded dimension; the equality case is a statement about all pairs of states", "anchors": ["thewalrus/quantum/gaussian_checks.py: fidelity"]}
{"id": "C101", "title": "The tolerance of fidelity can only lower the result, and by a bounded factor", "statement": "fidelity skips the matrix square root when all entries of its argument are at most atol in absolute value (np.allclose against zero). Whatever the states, the number returned is at most the Uhlmann fidelity F and at least F / (1 + sqrt(2 N atol))^N for N modes. The loss is real: for N modes in a thermal state with nu = 2n + 1 such that ((nu^2-1)/(nu^2+1))^2 <= atol, fidelity of the state with itself returns ((nu^2+1)/(2 nu^2))^N < 1 instead of 1 (about 1 - 8e-5 for two modes with mean photon number 2e-5 and the default atol = 1e-8).", "quantifier": "all physical Gaussian states with any number of modes, all tolerances", "why_tests_cant": "the bound must hold for all pairs of states near the threshold; rounding makes the effect hard to see in tests", "anchors": ["thewalrus/quantum/gaussian_checks.py: fidelity"]}
{"id": "C102", "title": "log_negativity is the logarithm of the trace norm of the partially transposed density matrix", "statement": "For every physical Gaussian state (any means, any covariance matrix, pure or mixed, any number of modes), with density matrix rho in the Fock basis, and every admissible mode selection or split: log_negativity(cov, ...) returns r exactly if exp(r) is the trace norm (sum of the absolute values of the eigenvalues) of the matrix obtained from rho by exchanging the row and column occupation numbers of the selected modes. In particular it returns 0 exactly if the partially transposed matrix is again a density matrix (positive partial transpose).", "quantifier": "all physical covariance matrices, all means, all mode selections, all hbar > 0", "why_tests_cant": "the claim is about infinite matrices: the trace norm of the partially transposed density matrix is not computable by a finite truncation, and the theorem covers every state and every split", "anchors": ["thewalrus/quantum/entanglement.py:log_negativity", "thewalrus/quantum/entanglement.py:_get_partition", "thewalrus/symplectic.py"]}
{"id": "C103", "title": "passive_transformation is an interferometer with a vacuum environment followed by the partial trace", "statement": "For every physical Gaussian state of N modes with density matrix rho and every M x N matrix T: if U is a unitary matrix of size N + M whose upper left block is T, then passive_transformation(mu, cov, T) returns the means and covariances of exactly the state obtained by adding M environment modes in the vacuum, letting all N + M modes pass the interferometer U (as unitary on Fock space), and tracing out all modes but the first M. Such a U exists exactly if T T^dagger <= 1, and then the result is a physical state.", "quantifier": "all physical states, all sizes N and M, all complex matrices T, all dilations U, all hbar > 0", "why_tests_cant": "an identity between infinite density matrices for every state and every linear optical channel, for any number of modes", "anchors": ["thewalrus/symplectic.py:passive_transformation", "thewalrus/symplectic.py:interferometer"]}
{"id": "C104", "title": "Independent systems: density matrices and fidelities multiply, entropies and logarithmic negativities add", "statement": "Let a Gaussian state of N + M modes consist of a state of the first N modes and a state of the last M modes without correlations (direct sum of the covariance matrices in xxpp ordering). Its density matrix is the product of the density matrices; vonneumann_entropy of the joint covariance matrix is the sum of the entropies of the parts; log_negativity for a selection of modes is the sum of the values for the selections restricted to the parts; fidelity of two such states is the product of the fidelities of the parts.", "quantifier": "all physical states of the parts, all numbers of modes, all selections of modes, all hbar > 0", "why_tests_cant": "A statement about all pairs of states of all sizes; tests compare a few matrices", "anchors": ["thewalrus/quantum/gaussian_checks.py:fidelity", "thewalrus/quantum/fock_tensors.py:density_matrix", "thewalrus/quantum/entanglement.py:vonneumann_entropy", "thewalrus/quantum/entanglement.py:log_negativity"]}
{"id": "C105", "title": "fidelity never decreases when modes are discarded or light is lost", "statement": "For every pair of physical Gaussian states of N modes: the fidelity of the states returned by reduced_state for a list of distinct modes is at least the fidelity of the two states, and so is the fidelity after passive_transformation with the same matrix T (T T^dagger <= 1) or after loss with the same transmission, mode and thermal environment on both states (data processing inequality).", "quantifier": "all pairs of physical states, all numbers of modes, all lists of distinct modes, all transmission matrices with T T^dagger <= 1, all transmissions in [0, 1] and nbar >= 0, all hbar > 0", "why_tests_cant": "an inequality for all pairs of states and all channels; a violation in a corner of the parameter space is not found by sampling", "anchors": ["thewalrus/quantum/gaussian_checks.py:fidelity", "thewalrus/symplectic.py:reduced_state", "thewalrus/symplectic.py:passive_transformation", "thewalrus/symplectic.py:loss"]}
{"id": "C106", "title": "The entropy of a Gaussian state is subadditive and satisfies the triangle inequality", "statement": "For every physical covariance matrix and every division of the modes into two non-empty groups, vonneumann_entropy of the covariance matrix is at most the sum, and at least the absolute difference, of vonneumann_entropy of the two states returned by reduced_state for the two groups; it is equal to the sum precisely when the covariance matrix has no correlations between the groups.", "quantifier": "all numbers of modes, all physical covariance matrices (hbar > 0), all pairs of non-empty lists of modes that together list every mode once, in any order", "why_tests_cant": "an inequality between the results of three calls that must hold for every state and every bipartition, with a characterisation of the equality that no sample of states can settle", "anchors": ["thewalrus/quantum/entanglement.py: vonneumann_entropy", "thewalrus/symplectic.py: reduced_state"]}
{"id": "C107", "title": "The logarithmic negativity does not increase when modes are discarded or lose light", "statement": "For every physical covariance matrix and every admissible partition of the modes: log_negativity of the state returned by reduced_state for a list of distinct modes, with the partition that puts each kept mode on the side it had, is at most log_negativity of the whole state; and log_negativity of the state returned by loss on any mode, for any transmission between 0 and 1 and any mean photon number of the environment, is at most log_negativity of the state before the loss.", "quantifier": "all numbers of modes, all physical states (hbar > 0), all lists of kept modes, all pairs of matching partitions (single mode, list or split), all transmissions, all environment temperatures", "why_tests_cant": "an inequality between the results of several calls for all states and partitions; a violation can be confined to a set of states no test samples", "anchors": ["thewalrus/quantum/entanglement.py: log_negativity", "thewalrus/symplectic.py: reduced_state, loss"]}
{"id": "C108", "title": "Errors of grouped_click_probabilities", "statement": "If num_groups divides num_samples, the second array returned by grouped_click_probabilities holds, in every run, the standard deviations of the averages of the groups about the returned probabilities (it is never nan, and zero exactly when all groups agree). In the mean over the random generator the square of an error is the mean square deviation of the returned probability from its mean, times num_groups - 1; so error / sqrt(num_groups - 1) measures the accuracy of the probability. If num_groups does not divide num_samples, nan can be returned (three samples of the vacuum in two groups).", "quantifier": "all input correlations of physical states, all networks that do not amplify, all numbers of samples and groups, all runs", "why_tests_cant": "A test sees one seed and a few networks; that a standard deviation estimates the fluctuations of the result is a statement about the distribution over all seeds.", "anchors": ["thewalrus/grouped_click_probabilities.py: grouped_click_probabilities, grouped_click_probabilities_squeezed"]}
{"id": "C109", "title": "The entropy is bounded by the mean photon numbers", "statement": "For every Gaussian state vonneumann_entropy(cov) is at most the sum over the modes of (n + 1) log(n + 1) - n log n, n running over the entries of photon_number_mean_vector(mu, cov); it is equal to this sum exactly if the state is the product of thermal states with these mean photon numbers (no displacement, no correlations, equal variances hbar (n + 1/2) of both quadratures of each mode).", "quantifier": "all Gaussian states of any number of modes, all hbar", "why_tests_cant": "An inequality over all physical covariance matrices with a characterisation of equality; tests only sample some states.", "anchors": ["thewalrus/quantum/entanglement.py: vonneumann_entropy", "thewalrus/quantum/means_and_variances.py: photon_number_mean_vector"]}
{"id": "C110", "title": "Entanglement entropy and logarithmic negativity of pure states", "statement": "For a pure Gaussian state and any proper nonempty selection of modes, log_negativity is the sum of log(nu + sqrt(nu^2 - 1)) over the symplectic eigenvalues nu of the selected modes (the eigenvalues entanglement_entropy is computed from); entanglement_entropy <= log_negativity, and the two are equal exactly if the selected modes are uncorrelated with the rest, which is also exactly when log_negativity is zero.", "quantifier": "all pure Gaussian states of any number of modes, all selections of modes, all hbar", "why_tests_cant": "It relates two functions over all pure states; tests compare a few squeezed states with closed forms.", "anchors": ["thewalrus/quantum/entanglement.py: entanglement_entropy, log_negativity"]}
