# Formal model of XanaduAI/thewalrus in Lean 4 — design

## Trusted base

* Lean 4.33.0's kernel and Mathlib's compiled library (imported module by module).
* Axioms: each theorem depends on at most `propext`, `Classical.choice` and `Quot.sound`. No axiom is added;
  nothing rests on compiled evaluation.
* The reading of the Python source: every definition under `lean/Verif/Model/` cites the file and lines it
  models and says where it simplifies. The code is never run; the tie between model and code is that reading.
* The specifications in `lean/Verif/Spec/` (and the few definitions at the head of a `Props` file that a
  statement uses): the English property is tied to the theorem through them. They do not use the model.

## Simplifications that apply to the entire model

* **Exact arithmetic.** Floats / complex128 are elements of a field of characteristic zero (ℝ or ℂ where
  norms, square roots, order or limits are needed). Rounding, overflow, dtype and int64 wrap-around are not modelled.
* **Arrays** are a size plus a total function (`ℕ → ℕ → K`; for tensors a function of the index list). The
  value out of range is arbitrary, and theorems hold for all of them, so they also show that no
  out-of-range entry influences a result. Front ends that check their input take a Python object
  (`PyObj`: not an array / array with a shape and possibly-NaN entries).
* **Exceptions** are values of `Except PyErr`. Which exception is raised is part of the model.
* **Loops** are folds over `List.range` in source order with the same update; in-place updates return the
  new array. Recursive functions carry fuel, and theorems say what fuel suffices (none needs a bound on inputs).
* **`prange`**: the models run the loops in order; `Spec/Schedule` defines numba's semantics (arbitrary
  distribution of iterations over threads, a private accumulator per thread, arbitrary order of the final
  reduction) as an inductive relation, and C53 shows every execution gives the sequential result.
* **`np.allclose(a,b,rtol,atol)`** is `|a-b| ≤ atol + rtol*|b|`. Theorems either quantify over the
  tolerances, or take the outcome of the test as a parameter, or say that they treat it as exact; C54 states
  what the default tolerances change.
* **Library routines** are parameters with a stated contract (`Spec/LinAlg`, the `...Contract` structures):
  `cholesky`, `sqrtm`, `schur`, `polar`, `qr`, `svd`, `eigh`, `eigvals`, `argsort`, `root_scalar`.
  `Props/LinAlgExists` (and `..._exists` theorems elsewhere) proves that routines with these contracts
  exist, so no theorem is vacuous for want of one. `eigvalsh` is Mathlib's eigenvalue family of the Hermitian matrix read from the
  lower triangle. `np.linalg.inv`/`solve` are Mathlib's inverse and raise on a zero determinant.
* **Randomness**: the generator is an arbitrary sequence of outcomes (safety holds for each of them); where
  a law is claimed it is a statement about Lebesgue / Gaussian measure of the set of outcomes, or the
  random program is modelled by its expectation functional (`Expect`, Model/Distinguishable and Model/SamplerLaws:
  it maps each real function of the outcome to its expected value; draws are independent and have the
  documented distributions; `multivariate_normal` factors its covariance by a contract).
* **Unspecified orders** (iteration order of sets, `set.pop`, cache eviction) are parameters or inductive relations.
* **Quantum states**: a Gaussian state in the Fock basis is the matrix determined by its Husimi function
  (`Spec/FockState.IsFock`; uniqueness is `fockMatrix_unique`); phase-space expectation values are linear
  functionals determined by prescribed moments (existence proved).

## Layout

* `Verif/Py.lean` — Python values, errors, loops.
* `Verif/Spec/*.lean` — the small specifications (matchings, permanents, symplectic form, physical states,
  ladder operators, click statistics, Fock states, schedules, marginals …).
* `Verif/Model/*.lean` — the model, function by function, citing `/repo`.
* `Verif/Lemmas/*.lean` — helper lemmas (no claims rest on reading them).
* `Verif/Props/*.lean` — property theorems with a non-vacuity example beside each.
* `seeded/LOG.jsonl` — seeded bugs: which definition was edited, which claim breaks, which theorems fail.

## Modelled and not modelled

Modelled: `_permanent.py`, `_hafnian.py` (all exact algorithms and front ends), `_hermite_multidimensional.py`,
`_low_rank_haf.py`, `_montrealer.py`, `_torontonian.py`, `charpoly.py`, `loop_hafnian_batch.py`,
`loop_hafnian_batch_gamma.py`, `reference.py`, `symplectic.py`, `decompositions.py`, `random.py`,
`fock_gradients.py`, `samples.py` (control flow, orders, cutoffs; the graph front ends through `adj_to_qmat`),
`quantum/conversions.py`, `quantum/means_and_variances.py`, `quantum/gaussian_checks.py`,
`quantum/entanglement.py`, `quantum/fock_tensors.py`, and the modules listed in the property table below
from `quantum/adjacency_matrices.py`, `quantum/photon_number_distributions.py`,
`quantum/distinguishable_squeezers.py`, `csamples.py`, `grouped_click_probabilities.py`.

Not modelled: version/about information, docstrings, dask's
scheduler (its sequential meaning is), floating-point effects, and numba/LAPACK internals.

## Per property: what is modelled, how it is proved, status

* **C01 — perm computes the permanent for every size and method** (proved). `perm`, `perm_ryser`, `perm_bbfg` as Gray-code folds. Invariant: the running row sums are those of the current subset; Gray step flips the lowest set bit of the counter; the subset sum is the Ryser / Glynn identity.
* **C02 — The Gray-code walk behind perm never fails and the two formulas agree** (proved). Same model; the dictionary look-up of the Gray code succeeds at every step (powers of two), and both formulas equal the permanent.
* **C03 — The reference hafnian is the sum over (loop) perfect matchings** (proved). `reference.hafnian/T/partitions/spm/pmp` on lists; induction on the list; sum over the enumerated matchings = sum over the set of matchings of `Spec/Matching`.
* **C04 — The reference matching iterators enumerate every matching exactly once** (proved). Same model; membership, no duplicates and count of the iterators.
* **C05 — hafnian (glynn and inclexcl) computes the hafnian** (proved). `_haf`, `_calc_hafnian`, `get_AX_S`, `get_submatrices`, `matched_reps`, `find_kept_edges`, `f`; Wick functional on polynomials, power-trace generating function, finite differences / inclusion–exclusion.
* **C06 — hafnian with loop=True computes the loop hafnian** (proved). `loop_hafnian`, `_calc_loop_hafnian`, `f_loop`, `f_loop_odd`; as C05 with linear terms.
* **C07 — hafnian_repeated equals the hafnian of the explicitly repeated matrix** (proved). `hafnian_repeated`; matching multiplicities.
* **C08 — hafnian_sparse equals the (loop) hafnian for every elimination order** (proved). `hafnian_sparse`; `set.pop` is an arbitrary choice function; induction on cardinality and permutation invariance.
* **C09 — hafnian_banded equals the (loop) hafnian for every bandwidth** (proved). `hafnian_banded` with its dictionary loop; invariant on the dictionary; `bandwidth`.
* **C10 — recursive_hafnian computes the hafnian** (proved). `recursive_hafnian`, `solve`; polynomial coefficients carried by the recursion.
* **C11 — hafnian_batched entry k is the (loop) hafnian of A repeated according to k** (proved). `hafnian_batched` through the Hermite recurrence; C order induction.
* **C12 — The multidimensional Hermite array satisfies the Hermite recurrence, and renorm divides by sqrt(k!)** (proved). `_hermite_multidimensional`, `_hermite_multidimensional_renorm`, `hermite_multidimensional`.
* **C13 — grad_hermite_multidimensional returns the derivative of the array** (proved). `_grad_hermite_multidimensional`; total derivative along arbitrary curves.
* **C14 — loop_hafnian_batch returns the loop hafnians for each photon number in the last mode** (proved). `loop_hafnian_batch` and its even/odd helpers; Wick functional with a polynomial in the batch mode.
* **C15 — loop_hafnian_batch_gamma is loop_hafnian_batch row by row** (proved). `loop_hafnian_batch_gamma`; same helpers with a matrix of loops.
* **C16 — permanent_repeated is the permanent of the repeated matrix** (proved). `permanent_repeated`; hafnian of a bipartite matrix is a permanent.
* **C17 — powertrace and charpoly are right for every matrix** (proved). `charpoly.py`: Householder reduction, La Budde recursion, Newton/Cayley–Hamilton continuation of power traces.
* **C18 — Montrealer and loop montrealer, fast and reference** (proved). `_montrealer.py` and `reference.mtl/lmtl/rpmp/rspm`: closed walks through dihedral orbits; inclusion–exclusion.
* **C19 — Recursive torontonian equals the non-recursive torontonian** (proved). `_torontonian.py`: definition and recursive Cholesky-update versions; both equal the inclusion–exclusion sum of `Spec/Torontonian`.
* **C20 — Threshold-detector probabilities are consistent** (proved). `threshold_detection_prob` and the generating function of vacuum probabilities; Schur complements, inclusion–exclusion; coarse-graining of the photon-number probabilities.
* **C21 — low_rank_hafnian equals the hafnian of G G^T** (proved). `low_rank_hafnian`; Gaussian functional under a linear change of variables.
* **C22 — _low_rank_haf.partitions enumerates bounded compositions exactly once** (proved). `_low_rank_haf.partitions`; induction with fuel.
* **C23 — matched_reps returns a pairing of the repeated multiset** (proved). `matched_reps`; invariants of the while loop.
* **C24 — find_kept_edges is a mixed-radix numbering** (proved). `find_kept_edges`; mixed-radix numbering.
* **C25 — reduction repeats rows and columns** (proved). `reduction`; counting indices.
* **C26 — Gate constructors return symplectic matrices** (proved). gate constructors in `symplectic.py`; action on quadratures and symplectic condition.
* **C27 — expand embeds a gate without touching other modes and is multiplicative** (proved). `expand`, `expand_vector`, `expand_passive`; matrix algebra.
* **C28 — xxpp/xpxp conversions are inverse bijections** (proved). `xxpp_to_xpxp`, `xpxp_to_xxpp`.
* **C29 — loss channels compose** (proved). `loss`, `passive_transformation`, `loss` on lists.
* **C30 — Phase-space conversions round-trip** (proved). `Covmat`, `Qmat`, `real_to_complex_displacements` …
* **C31 — Amat is symmetric and inverts the construction of Q** (proved). `Amat`, `Xmat`, `Qmat`.
* **C32 — The two is_symplectic predicates agree** (proved). `is_symplectic` of both modules.
* **C33 — Reducing a Gaussian state selects the listed modes, and reductions compose** (partial). `reduced_state`, `reduced_gaussian`.
* **C34 — loss_mat is the binomial loss channel** (proved). `loss_mat`.
* **C35 — update_probabilities_with_loss conserves total probability** (proved). `update_probabilities_with_loss` (einsum strings included).
* **C36 — update_probabilities_with_noise is the truncated convolution** (proved). `update_probabilities_with_noise`.
* **C37 — n_body_marginals returns marginals indexed by the queried mode order** (partial). `n_body_marginals`; the dictionary, argsort and transpose; exact description for every input, the property on the subsets where it is true, refutation on cyclic orders.
* **C38 — find_classical_subsystem returns the largest classical prefix** (proved). `find_classical_subsystem`.
* **C39 — Samplers respect cutoffs and sample counts for every random stream** (proved). `samples.py` for every random stream: shapes, cutoffs, counts, permutations.
* **C40 — invert_permutation inverts, so sampled modes come back in the caller's order** (proved). `invert_permutation`, `photon_means_order`.
* **C41 — photon_number_sampler maps every drawn index to the right pattern** (proved). `photon_number_sampler`; law of `np.random.choice`.
* **C42 — Memoisation in the reference module is transparent and bounded** (partial). `memoized`, `LimitedSizeDict`; invariant over call histories.
* **C43 — Fock-state interference probabilities are normalised** (proved). `fock_prob`; Cauchy–Binet for permanents.
* **C44 — Bristolian inclusion-exclusion** (proved). `brs`, `ubrs`, `fock_threshold_prob`.
* **C45 — Normal ordering coefficients are Stirling numbers** (partial). `photon_number_moment` and coefficients.
* **C46 — partition enumerates set partitions exactly once** (proved). `partition`, `photon_number_cumulant`.
* **C47 — Pre-Iwasawa and Iwasawa factorisations** (proved). `pre_iwasawa`, `iwasawa`.
* **C48 — takagi and blochmessiah return factorisations of their input** (partial). `takagi`, `blochmessiah`, `sun_compact` excluded.
* **C49 — Fock representations of the Gaussian gates and their gradients are exact** (proved). `fock_gradients.py`; matrix elements of the operators defined by commutation relations in `Spec/FockGates`, derivatives.
* **C50 — Random matrices are what they claim for every sequence of random numbers** (proved). `random.py`; invariants for each stream, Haar law through invariance.
* **C51 — Photon-number means are additive and consistent across functions** (proved). `photon_number_mean*`, `photon_number_covar*`.
* **C52 — get_partition accepts exactly the valid selections of modes** (proved). `get_partition`.
* **C53 — Parallel reductions do not depend on the schedule** (proved). `Spec/Schedule`; all `prange` bodies in the library.
* **C54 — Default tolerances can change the hafnian** (proved). tolerance arguments of `hafnian`.
* **C55 — Input validation accepts exactly the square, NaN-free, symmetric arrays** (proved). `input_validation`.
* **C56 — Click statistics are moments of the threshold distribution** (proved). `mean_clicks`, `variance_clicks`.
* **C57 — Precomputed binomials are binomial coefficients** (proved). `nb_binom`, `precompute_binoms`.
* **C58 — The generating function f is the truncated exponential of power traces** (proved). `f`, `f_loop`, `f_loop_odd` as truncated exponentials of power series.
* **C59 — interferometer is hermite_multidimensional on block anti-diagonal input** (proved). `interferometer`.
* **C60 — powerset and bitstrings enumerate subsets exactly once** (proved). `powerset`, `bitstrings`, `dec2bin`.
* **C61 — Ordered expectation values obey Wick's theorem** (proved). `s_ordered_expectation`, `photon_number_expectation`, `photon_number_squared_expectation`.
* **C62 — The Gaussian-state checks decide the uncertainty relation, classicality and purity** (proved). `is_valid_cov`, `is_classical_cov`, `is_pure_cov`.
* **C63 — Gaussian operations map physical states to physical states** (proved). gates, loss, passive transformations, reductions on `Spec/Physical` states.
* **C64 — williamson diagonalises every positive definite matrix by a symplectic congruence** (proved). `williamson`, `symplectic_eigenvals`.
* **C65 — vonneumann_entropy is the entropy of the symplectic spectrum** (proved). `vonneumann_entropy`.
* **C66 — entanglement_entropy of a pure state does not depend on which side is traced out** (proved). `entanglement_entropy`.
* **C67 — log_negativity decides the PPT criterion and is invariant under local operations** (proved). `log_negativity`.
* **C69 — density_matrix_element returns the matrix elements of the Gaussian state** (proved). `density_matrix_element`; Husimi generating function.
* **C70 — density_matrix returns the density matrix with the documented index order, with and without post-selection** (proved). `density_matrix` with and without post-selection.
* **C71 — pure_state_amplitude and state_vector return the same state vector, and it factorises the density matrix** (proved). `pure_state_amplitude`, `state_vector`.
* **C72 — Gaussian states have positive density matrices and probabilities returns their diagonal** (proved). `probabilities`; Gram matrix for the Fischer inner product.
* **C73 — Probabilities of a Gaussian state sum to one and reduced_state is the partial trace** (proved). trace and partial trace by averaging over phases and Gaussian integration.
* **C74 — tvd_cutoff_bounds bounds the truncation error** (proved). `tvd_cutoff_bounds`.
* **C75 — adj_to_qmat encodes a graph into a pure Gaussian state with the requested mean photon number** (proved). `adj_scaling`, `adj_to_qmat` with SVD and root finder as contracted routines; block inversion of 1 - X(M + conj M), Williamson-free proof of purity and physicality, Fock amplitudes by uniqueness of the Fock matrix.
* **C76 — adj_scaling_torontonian returns the scaling with the requested mean number of clicks** (proved). `cost`, `_mean_clicks_adj`, `adj_scaling_torontonian`; the vacuum probability of a mode as a double sum over singular values, each term strictly monotone in the scaling; the root finder returns a point where the sign changes.
* **C77 — rescale_adjacency_matrix returns the spectral decomposition of the rescaled matrix with the requested thermal photon number** (proved). `rescale_adjacency_matrix`; eigendecomposition contract, monotone function, sign change.
* **C68 — The photon-number sampler draws every photon number with its Born probability** (proved). `decompose_cov`, `photon_means_order`, `generate_hafnian_sample`; the batched loop hafnians are the derivatives of the pure state's generating function at the heterodyne outcomes (convergent series), so up to a constant that cancels in the normalisation they are the Born densities of Spec/Outcomes; equality of random programs.
* **C78 — fock_tensor returns the matrix elements of the Gaussian unitary** (proved). `fock_tensor` with both branches; the amplitudes are loop hafnians of an explicit matrix (Choi state rescaled), their recursion is the Heisenberg relations, unitarity from the normalisation of the Choi state and a commutant argument.
* **C79 — Composing and inverting symplectic matrices composes and inverts the tensors of fock_tensor** (proved). Heisenberg relations determine the matrix by its vacuum entry (ladder induction); products in l^2; column 0 compared with the Husimi function of the pure state.
* **C80 — Symplectic transformations of means and covariance describe the evolution under the tensors of fock_tensor** (proved). Purification: Gaussian unitary on half of two-mode squeezed states, partial trace of the pure state gives the thermal mixture; absolutely convergent exchange of sums.
* **C81 — fidelity is the Uhlmann fidelity of the density matrices** (proved). Specification: Uhlmann fidelity of infinite matrices (Spec/Fidelity). In the Williamson frame of the first state, sqrt(rho) sigma sqrt(rho) is a multiple of a Gaussian density matrix (identity of Husimi functions, scaled_fock) whose covariance is D - C (D + s)^-1 C; its symplectic eigenvalues are related to the spectrum of the auxiliary matrix of the code by a similarity (Lemmas/FidelityCore; degenerate square roots by a limit-free argument on minimal polynomials, Lemmas/Diagonalise). Uniqueness of the fidelity: square roots do not depend on the eigenbasis (Parseval in l2), and traces of functions of a matrix do not either (doubly stochastic overlaps). Pure, commuting and equal states as separate theorems.
* **C82 — The Fock-basis gates are the Gaussian unitaries of the symplectic gates, and fock_tensor reproduces them** (proved). The closed forms of the gate arrays (C55-C57) satisfy the Heisenberg relations of the symplectic matrix and have the vacuum amplitude of fock_tensor's unitary; both determine the unitary.
* **C83 — expand embeds a gate into a larger system: the listed modes get the gate, the others the identity** (proved). Operator acting on the listed modes and trivially elsewhere: its relations and unitarity by splitting the occupation numbers; products of one-mode unitaries by factorised absolutely convergent sums.
* **C84 — Loss on means and covariances is photon loss in the Fock basis** (proved). Product states have product Husimi functions; the environment mode, the beam splitter (C82, C83) and the partial trace reproduce the means and covariances of the code; the Kraus form is read off from the beam splitter amplitudes with vacuum input; several modes by induction on the set of lossy modes.
* **C85 — pure_state_distribution is the distribution of the total photon number** (proved). Generating function from the Husimi function by loss of every mode (C84) and the vacuum probability; determinant by the symplectic spectrum; coefficients of power series agreeing on (0,1) are equal; convolution of negative binomials.
* **C86 — total_photon_number_distribution and characteristic_function describe k lossy squeezed states** (proved). Generating function of k lossy squeezed modes from C85, hypergeometric series summed termwise; loop invariant for the stopping rule.
* **C87 — Distinguishable squeezers: moments and samples** (proved). Joint generating function of the photon numbers of a Gaussian state by loss of every mode; a source behind an interferometer is the vacuum plus a rank-two perturbation, so its generating function is that of the photons of the squeezed vacuum distributed independently; the sampler by induction over sources and photons; moments by the Wick formulas of C45.
* **C88 — The samplers for classical and thermal states have exactly the photon-number law of the state** (proved). The random program is modelled by its expectation functional (Model/SamplerLaws); a Gaussian mixture of coherent states is the Gaussian state (convolution of Gaussians and the Woodbury identity applied to the Husimi function, Fubini for the matrix elements), photon numbers of coherent states are Poissonian, rows are independent by induction.
* **C89 — The rank-one graph sampler has exactly the law of the Gaussian boson sampler encoding the graph** (proved). The hafnian of a rank-one matrix is a double factorial times a monomial; distributing the photons one by one gives a multinomial law (induction over photons); negative binomial weights with r = 1/2 are central binomial coefficients.
* **C90 — hafnian(approx=True) is an unbiased estimator of the hafnian** (proved). Leibniz expansion of the determinant; the expectation of a monomial in independent normal variables vanishes unless each occurs an even number of times, which leaves exactly the fixed-point-free involutions; their signs cancel against the antisymmetry. The in-place fill loop by a loop invariant.
* **C91 — grouped_click_probabilities estimates the distribution of the number of clicks without bias** (proved). The discrete Fourier sum selects the click patterns with p clicks (orthogonality of the roots of unity); a complex Gaussian integral (Lemmas/ComplexGauss) gives the mean of the products exp(-alpha beta) as the vacuum probability 1/sqrt det of the transformed state; inclusion-exclusion; the grouping loop by an invariant over the list of samples; the click probabilities are sums of photon-number probabilities by C73.
* **C92 — The photon-number sampler has the Born distribution of the state, up to the probability beyond the cutoff** (proved). By C68 the program is the reference sampler, for all random numbers. For fixed numbers x, y the event is a box in the uniform numbers, whose measure is the product of the conditional probabilities (Fubini). The heterodyne density of a mode, integrated over the plane, is at least the sum over the photon numbers up to the cutoff (Bessel inequality in the Bargmann space, Lemmas/Bargmann: orthogonality of the powers of z on discs, monotone limit), and this step, iterated over the modes with Mathlib's marginal integrals (Lemmas/ChainRule), gives the lower bound for a pure state; the change of variables from normal numbers to heterodyne outcomes (Lemmas/HetChange) and the Gaussian mixture of pure states (Props/Mixture) give it for every state. The upper bound follows since the events are disjoint and the Born probabilities sum to one.
* **C93 — The threshold sampler draws the channels of each mode by the Born rule, and without fan-out its click patterns have the threshold probabilities** (proved). The wave function of the split state is again a Gaussian one, with the matrix A/F for any two channels and the loop weights gamma/sqrt F (homogeneity of the loop hafnian); enumerating the channels with the counted ones first reduces the Born density to the one of C68, and the loops over channels and modes are followed with the invariant that the loop weights are those of the channels not yet counted. For one channel per mode the run is the one of the photon-number sampler without the final rejection; the events of C92 are disjoint and each has at least its Born probability, which bounds the probability of a click pattern from both sides. Mutations of the model: see seeded/LOG.jsonl.
* **C94 — Moments and photon-number statistics computed from means and covariances are those of the density matrix** (proved). For a state sent through loss with transmission t < 1 the generating function of the Fock matrix elements converges at the required point, so that the moments are read off the Husimi generating function; the loss map acts on the Fock matrix by binomial weights (off-diagonal version of C84), which turns the statement for t < 1 into an Abel sum for the original state; positivity (Cauchy-Schwarz on the off-diagonal elements) and monotone/dominated convergence as t -> 1 give absolute convergence and the value. Other orders of the operators follow by adjacent transpositions: the commutator [a, a+] = 1 on Fock amplitudes matches the change of the sum over pairings (lh_swap); the symmetrised product by an involution argument on the sum over all permutations. Photon-number statistics: the functional of C61 is realised by the distribution, all moments being absolutely summable.
* **C95 — The rows returned by the photon-number samplers are independent samples of the conditioned photon-number distribution** (proved). Each round of the rejection loop consumes the same number of random numbers, so that the stream splits into independent blocks; the loop is followed round by round (collect_rounds) and becomes a union of cylinder events of the infinite product measure; splitting off the first block (measure preserving) and the geometric series give the product formula (Lemmas/Rejection). Bounds for one round from C92. The graph front end by C75: the state of adj_to_qmat is pure, so its symplectic eigenvalues are all one, and its vacuum probability cancels in the conditional law.
* **C96 — The rows returned by the threshold samplers are independent samples of the conditioned click statistics** (proved). The stream of calls of the generator is one infinite product measure. Each run is decided by a stretch of the stream whose length is random (it gives up at mode m after m+1 uniform numbers): the events 'returns c' and 'gives up at mode m' depend only on the first l calls (Decided), so that what follows the stretch is independent of it (decided_indep); induction over fuel and rows and the geometric series give the product formula (Lemmas/Stopping, stops_law). One run: the fold over the modes stops at the first mode with more than max_photons clicks (bornModes_none), its probability is read off the partial pattern events of C93. Graph front end as in C95.
* **C97 — The thermal point process: rescaling and sampling together give the permanental distribution with the requested mean** (proved). Model/AdjacencyGrad transcribes the derivative functions; HasDerivAt by calculus. thermal_point_process composes rescale_correct (C76) with generateThermalSamples_prob and thermal_perm (C86).
* **C98 — With parallel=True the samples have the same joint law, for every schedule of the threads** (proved). The shared generator is one stream of independent calls; a schedule maps the list of earlier draws to the thread that draws next. merge interleaves the private streams of the threads along the schedule; it is measure preserving (merge_box: induction on the number of draws, splitting off the first private draw), and each thread sees its private stream as far as it is served (seen_merge), so that the rows are decided by independent streams (shared_stream); the law of one task is C95/C96 for one sample, and the serial law factorises into the same product.
* **C99 — Click statistics computed from means and covariances are those of the photon-number distribution** (proved). Each block by C20 (threshold_detection_prob in the Fock basis) applied to the reduced state, whose density matrix is the partial trace (C73); the photon-number distribution of the reduced state is the marginal (sum over fibres). If the block has all modes reduced_gaussian returns the state unpermuted, which does not matter for the all-ones pattern. The sum over partitions as in C46. mean_clicks and variance_clicks: the Fock distribution realises the expectation functional of C56.
* **C100 — fidelity is symmetric, lies in (0, 1], is one only for equal states, and is invariant under Gaussian unitaries** (proved). Abstract laws of the Uhlmann fidelity of infinite density matrices. The vectors sqrt(sigma) sqrt(rho) W_k are orthogonal with squared norms q_k (fidelity_vectors). Symmetry: the singular values of an operator and of its adjoint have the same sum (trace_le, both directions). Bound: sqrt(q_k) = <sqrt(sigma) z_k, y_k> <= (|sqrt(sigma) z_k|^2 + |y_k|^2)/2 and Bessel; equality forces y_k = sqrt(sigma) z_k, hence rho <= sigma on the diagonal, equal traces, and rho = sigma by Parseval. The density matrix determines means and covariance (fockMatrix_faithful: two quadratic functions with a minimum). Positivity, invariance and units from the closed formula (fidelity_value) in the Williamson frame.
* **C101 — The tolerance of fidelity can only lower the result, and by a bounded factor** (proved). fidelity_branch gives the returned number for every sqrtm and every closeness test, with the same argument A. If the test accepts, the matrix square root is replaced by 0 and the determinant loses the factor prod(1 + sqrt(d_p)), d_p the eigenvalues of A (fidelity_eig); a matrix with entries at most eps has eigenvalues at most 2 N eps (eig_small, largest component of an eigenvector). The thermal example is computed in closed form.
* **C102 — log_negativity is the logarithm of the trace norm of the partially transposed density matrix** (proved). Spec/TraceNorm defines the partial transpose entrywise on occupation numbers and the trace norm by a spectral decomposition (hasTraceNorm_unique: two decompositions give the same sum, by a doubly stochastic matrix of overlaps). fockTranspose_gaussian: the partial transpose has the Gaussian Husimi function with the momenta of the selected modes reversed (conjugate the coherent amplitudes of these modes). Its covariance matrix has symplectic eigenvalues nu > 0, possibly below 1; gaussian_signed extends the thermal decomposition (C80) to all nu > 0: both sides of the Husimi identity are analytic in each ratio x_k = (nu_k - 1)/(nu_k + 1) on (-1, 1), and they agree on [0, 1), so they agree everywhere, one coordinate after the other (signed_husimi). The eigenvalues are then signed geometric distributions, whose absolute values sum to max(1, 1/nu_k) in each mode.
* **C103 — passive_transformation is an interferometer with a vacuum environment followed by the partial trace** (proved). The state is joined with the vacuum (vacuum_fock, product_fock of C84), evolved by the Gaussian unitary of the interferometer (gaussianUnitary_state of C80) and reduced (fock_partialTrace of C73); the moments of the result are computed from S S^T = 1 by splitting the sums over the N + M modes, and a Gaussian matrix is determined by its moments (fockMatrix_unique). dilation_exists: 1 - T T^dagger = R^dagger R gives M orthonormal rows (T, R^dagger), which are extended to an orthonormal basis.
* **C104 — Independent systems: density matrices and fidelities multiply, entropies and logarithmic negativities add** (proved). Spec/Independent says entrywise, in the xxpp layout of the arrays, that a state of N + M modes consists of two uncorrelated states. The density matrix is the product (product_fock of C84); the direct sum of symplectic matrices is symplectic, hence the symplectic spectrum is the concatenation (sympSpectrum_joint), also after partial transposition; entropy and logarithmic negativity are sums over the spectrum (C65, C67). hasFidelity_product multiplies spectral decompositions, and fidelity_correct (C81) translates back to the program.
* **C105 — fidelity never decreases when modes are discarded or light is lost** (proved). hasFidelity_monotone proves the monotonicity of the Uhlmann fidelity under the partial trace for density matrices over any index sets: the trace norm of sqrt(sigma) sqrt(rho) is a sum over the states of the joint system of inner products of the rows of the square roots under a finite-rank contraction; the rows of all states of the discarded system form vectors with the Gram matrix of the reduced state, hence they are images of the rows of the reduced square root under a contraction (gram_contraction), and a trace with a contraction is at most the sum of the singular values (trace_bound). With fidelity_correct (C81) and fock_partialTrace (C73) this gives fidelity_reduced; adding an environment (C104, factor 1) and a symplectic transformation (C100) gives fidelity_channel, and the dilations of C103 and C84 give passive_transformation and loss.
* **C106 — The entropy of a Gaussian state is subadditive and satisfies the triangle inequality** (proved). By a local symplectic transformation (which leaves the three entropies unchanged) both parts are products of thermal states, so their density matrices are diagonal in the Fock basis and are the marginals of the diagonal of the density matrix of the whole (partial trace). Klein's inequality p log p - p log r >= p - r, summed over the double array |V_xk|^2 of the eigenvectors, gives subadditivity, with equality only if the density matrix is the product of the marginals; the covariance matrix is determined by the density matrix, so it then has no correlations. The triangle inequality is subadditivity for the second part and the environment of a purification (two parts of a pure state have the same symplectic eigenvalues apart from ones). Lemmas/Klein.lean, Props/EntropySub.lean.
* **C107 — The logarithmic negativity does not increase when modes are discarded or lose light** (proved). log_negativity is the logarithm of the trace norm of the partially transposed density matrix (C102), whose partial trace is the partial transpose of the reduced density matrix. The partial trace does not increase the trace norm: both signed mixtures define the same bounded operator, so the eigenvalue q_k is the sum of p_m |<W_k|V_m,j>|^2 over m and j, and Parseval bounds the sum of |q_k|. loss is a local symplectic transformation with an uncorrelated thermal mode on the side of the lossy mode (C104, C67), which is then discarded. Props/NegativityMonotone.lean.
* **C108 — Errors of grouped_click_probabilities** (proved). Model/GroupedClicks.lean (as C91). Props/GroupedError.lean: by induction on the samples the loop accumulates the sums of the averages of the groups and of their squares (accLoop_groups), hence the second result is their standard deviation (groupedRun_error). Props/GroupedVariance.lean, Lemmas/ComplexGaussSq.lean: the contributions are square integrable, means of quadratic polynomials in independent samples (repeatE_quad), so the mean of the squared error is (num_groups - 1) times the variance of the probability returned.
* **C109 — The entropy is bounded by the mean photon numbers** (proved). Props/EntropyThermal.lean: induction on the number of modes with subadditivity (entropy_consecutive) and its case of equality; for one mode the symplectic eigenvalue is the root of the determinant, which is at most the mean of the two variances (thermal_bound_one); the entropy of a thermal state increases strictly with the mean photon number (thermalEntropy_strictMono); displacements only add photons.
* **C110 — Entanglement entropy and logarithmic negativity of pure states** (proved). Props/PureEntanglement.lean: for a pure state the mean of the partial transpose and of its symplectic dual is the partial transpose of the product of the two reduced states, so (mu + 1/mu)/2 runs over the symplectic eigenvalues of both parts (partialTranspose_pure); the product of the mu is 1, which gives the sum over mu < 1 (pure_negativity); the inequality for one eigenvalue by differentiation, from u < sinh u (thermalEntropy_lt_negOf); the case of equality by that of subadditivity.

## Findings: where the code does not satisfy the natural property

The negations marked (thm) are theorems in `Props`.

* `memoized` passes `maxsize=` while the dictionary's constructor reads `size_limit`: the bound is never enforced (thm, C42).
* `takagi` on diagonal matrices that are not a real matrix times a phase, e.g. diag(1, 2i), returns factors that do not
  multiply back; `blochmessiah` inherits it (thm, C48).
* `reduced_gaussian` returns the unpermuted state for a list of N modes (thm, C33); its bound check is off by one.
* `photon_number_moment` with a zero exponent returns 0 (thm, C45); `partition([])` raises (thm, C46).
* `update_probabilities_with_loss` is silently wrong for 10 modes and raises for 11 (thm, C35).
* `fock_threshold_prob` on vacuum through a unitary returns 0 for "no click" (thm, C44).
* `loop_hafnian_batch` with an odd fixed total and cutoff 0 returns `[0]` (thm, C14); `hafnian_sparse` of an empty
  selection returns 0 (thm, C08); `hafnian_banded`, `low_rank_hafnian` and the montrealers raise on empty input (thm).
* `hafnian` with default tolerances returns 0 on matrices with tiny entries (thm, C54).
* `entanglement_entropy` with repeated modes returns the entropy of the entire state (thm, C66).
* `density_matrix_element(i, j)` returns ⟨j|ρ|i⟩, its docstring says ⟨i|ρ|j⟩ (thm, C69); `density_matrix` ignores
  `normalize` unless a mode is post-selected.
* `n_body_marginals` permutes the axes wrongly for three or more modes in cyclic order (thm, C37).
* samplers: `samples=0` raises (thm, C39); only the last mode is checked against `cutoff`; `hbar` is ignored
  by the conditional state computation and by the mode ordering; `photon_number_sampler` uses the first dimension for every axis (thm, C41).
* `hermite_multidimensional` silently drops `rtol/atol` in its recursion, and its square-root table has 1000 entries.
* `fidelity` replaces the matrix square root by zero when its argument is within `atol` of zero. The square root of `1e-8` is `1e-4`, so this is visible for nearly pure states: the fidelity of an `N`-mode thermal state with itself is returned as `((ν²+1)/(2ν²))^N < 1` if `((ν²-1)/(ν²+1))² <= atol` (thm `fidelity_near_pure`, C101). Bound for all states: `fidelity_tolerance`.
* `pure_state_distribution` calls `is_pure_cov(cov)` without `hbar`: with `hbar = 1` the vacuum is refused (thm, C85); `fidelity` never checks the shape of `mu2`, so that a one-entry
  vector is broadcast (thm, C81).
* `rec_torontonian` raises where 1−A is not positive definite while `numba_tor` returns a value.
* `iwasawa`'s docstring says upper triangular; the code returns lower triangular (C47).
* `random_block_interferometer(0, top_one=True)` returns a 2×2 matrix (C50).
* `adj_scaling_torontonian` answers a request that no scaling can meet (e.g. an isolated vertex and `c_mean > n - 1`) with
  `1/s_max`, where there is no state (thm, C76); `adj_to_qmat` of a complex matrix gives the state of `conj(A)`'s block order
  (`A` matrix `conj(xA) ⊕ xA`).
* `hafnian(A, loop=True, approx=True)` estimates the hafnian without loops for sizes from five on (`hafnianApproxFront_loop`).
* `grouped_click_probabilities` divides by `num_groups` although `num_samples // (num_samples // num_groups)` groups are formed: with three
  samples in two groups the returned "probabilities" sum to 3/2 in every run (`groupedRun_not_normalised`), and in general their means are
  off by that factor (`groupedClickProbabilities_mean`); more groups than samples raises `ZeroDivisionError`. With three samples of the vacuum in two groups the returned error is `nan` (`grouped_radicand_negative`).
* `get_heterodyne_fanout` draws the outcomes of the additional channels with the variance 1 per quadrature of α, twice that of the vacuum: with
  `fanout >= 2` the click probabilities of `torontonian_sample_state` are biased. For the squeezed vacuum diag(1/3, 3) and `fanout = 2` "no click"
  is returned with probability 0.8404 instead of 0.8660 in the limit of a large cutoff (thm `generateTorontonianSample_fanout_biased`, C93).
