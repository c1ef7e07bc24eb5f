/-
Model of thewalrus/quantum/fock_tensors.py, except for the functions in Model/Loss.lean (`loss_mat`, `update_probabilities_with_loss`,
`update_probabilities_with_noise`) and Model/GaussianChecks.lean (`find_classical_subsystem`).  Arrays of means have length `2N` and covariance matrices
have shape `2N × 2N`; tensors are functions of the list of their indices, all axes have length `cutoff`.  `close` is the elementwise tolerance test used
inside the hafnian and Hermite functions, `closeR` the one of the purity check (`np.allclose` on real arrays), `atol` its absolute tolerance on eigenvalues.
-/
import Verif.Model.Conversions
import Verif.Model.Torontonian
import Verif.Model.GaussianChecks
import Verif.Model.Hermite
import Verif.Model.Charpoly
import Mathlib.Analysis.SpecialFunctions.Arsinh
import Mathlib.Analysis.SpecialFunctions.Trigonometric.Basic

namespace Verif.Model.Fock
open Verif.Model Verif.Model.Symp Verif.Model.Conv

noncomputable section

/-- `_prefactor`, thewalrus/quantum/fock_tensors.py:566-581. -/
def prefactor (N : ℕ) (mu : ℕ → ℝ) (cov : ℕ → ℕ → ℝ) (hbar : ℝ) : Except PyErr ℂ := do
  let Q := Qmat N cov hbar
  let beta := complexToReal N mu hbar
  let Qinv ← npInv (2 * N) Q
  pure (Complex.exp (dot (2 * N) (fun j => dot (2 * N) (fun i => -(1 / 2) * beta i) fun i => Qinv i j) fun j => (starRingEnd ℂ) (beta j))
    / Tor.csqrt (toMatrix (2 * N) (2 * N) Q).det)

/-- `np.prod([k + 1 for k in rpt]) ** (1 / len(rpt)) < 3`, thewalrus/quantum/fock_tensors.py:79, 86, 213, 220; the product is exact (no 64-bit overflow). -/
def smallRpt (rpt : List ℕ) : Bool := decide ((((rpt.map (· + 1)).prod : ℕ) : ℝ) ^ (1 / (rpt.length : ℝ)) < 3)

/-- The four calls of `hafnian`/`hafnian_repeated` in thewalrus/quantum/fock_tensors.py:77-91 and 211-225 (the same code for an `n × n` matrix `A` and
loop weights `gamma`, `none` when the displacement is negligible).  `1 / len(rpt)` raises `ZeroDivisionError` for an empty list, `reduction` raises
`IndexError` when a repeated index is out of range. -/
def hafTerm (close : ℂ → ℂ → Bool) (n : ℕ) (A : ℕ → ℕ → ℂ) (gamma : Option (ℕ → ℂ)) (rpt : List ℕ) : Except PyErr ℂ :=
  if rpt.length = 0 then .error .zeroDivision
  else if smallRpt rpt then
    if (reductionRows rpt).any (· ≥ n) then .error .indexError
    else
      match gamma with
      | none => hafnian powertrace close (.arr (reduction2 A rpt).1 (reduction2 A rpt).1 fun i j => some ((reduction2 A rpt).2 i j)) false "glynn"
      | some g => hafnian powertrace close (.arr (reduction2 A rpt).1 (reduction2 A rpt).1 fun i j =>
          some (if i = j then (reduction1 g rpt).2 i else (reduction2 A rpt).2 i j)) true "glynn"
  else
    hafnianRepeated powertrace close (.arr n n fun i j => some (A i j)) (rpt.map fun k : ℕ => (k : ℤ)) (gamma.map fun g => (n, g)) gamma.isSome true

/-- `np.linalg.norm` of a vector of length `n`. -/
def norm2 (n : ℕ) (v : ℕ → ℂ) : ℝ := Real.sqrt (dot n (fun i => ‖v i‖) fun i => ‖v i‖)

/-- `np.sqrt(np.prod(fac(rpt)))` -/
def sqrtFacs (rpt : List ℕ) : ℝ := Real.sqrt ((rpt.map fun k => (k.factorial : ℝ)).prod)

/-- `density_matrix_element`, thewalrus/quantum/fock_tensors.py:191-232. -/
def densityMatrixElement (close : ℂ → ℂ → Bool) (N : ℕ) (mu : ℕ → ℝ) (cov : ℕ → ℕ → ℝ) (i j : List ℕ) (includePrefactor : Bool) (tol hbar : ℝ) :
    Except PyErr ℂ := do
  let rpt := i ++ j
  let beta := complexToReal N mu hbar
  let A ← Amat N cov hbar
  let gamma : ℕ → ℂ := fun k => (starRingEnd ℂ) (beta k) - dot (2 * N) (A k) beta
  let haf ← hafTerm close (2 * N) A (if norm2 (2 * N) beta < tol then none else some gamma) rpt
  let pref ← if includePrefactor then prefactor N mu cov hbar else pure 1
  pure (haf * pref / (sqrtFacs rpt : ℝ))

/-- `pure_state_amplitude`, thewalrus/quantum/fock_tensors.py:45-98. -/
def pureStateAmplitude (close : ℂ → ℂ → Bool) (closeR : ℝ → ℝ → Bool) (N : ℕ) (mu : ℕ → ℝ) (cov : ℕ → ℕ → ℝ) (rpt : List ℕ) (includePrefactor : Bool)
    (tol hbar atol : ℝ) (checkPurity : Bool) : Except PyErr ℂ := do
  if checkPurity && !(Checks.isPureCov closeR (2 * N) (2 * N) cov hbar atol) then throw .valueError
  else
    let beta := complexToReal N mu hbar
    let Q := Qmat N cov hbar
    let A ← Amat N cov hbar
    let B : ℕ → ℕ → ℂ := fun i j => (starRingEnd ℂ) (A i j)
    let gamma : ℕ → ℂ := fun k => beta k - dot N (B k) fun l => (starRingEnd ℂ) (beta l)
    let haf ← hafTerm close N B (if norm2 N beta < tol then none else some gamma) rpt
    let pref : ℂ := if includePrefactor then
        Complex.exp (-(1 / 2) * ((norm2 N beta ^ 2 : ℝ) - dot N (fun j => dot N (fun i => (starRingEnd ℂ) (beta i)) fun i => B i j) fun j => (starRingEnd ℂ) (beta j)))
      else 1
    pure (haf * pref / Tor.csqrt (((rpt.map fun k => (k.factorial : ℝ)).prod : ℝ) * Tor.csqrt (toMatrix (2 * N) (2 * N) Q).det))

/-- `el = [post_select[i] if i in post_select else idx[next(counter)] for i in modes]`; `post` are the items of the dictionary. -/
def fillEl (post : List (ℕ × ℕ)) (idx : List ℕ) : List ℕ → ℕ → Except PyErr (List ℕ)
  | [], _ => .ok []
  | m :: ms, c =>
    match post.lookup m with
    | some v => (fillEl post idx ms c).map (v :: ·)
    | none => if c < idx.length then (fillEl post idx ms (c + 1)).map (idx.getD c 0 :: ·) else .error .indexError

/-- entries of a tensor returned by the Hermite functions -/
def HermiteOut.get : HermiteOut ℂ → MArr ℂ
  | .tensor _ G => G
  | .flat _ => fun _ => 0

/-- The branch `post_select is None` of `state_vector`, thewalrus/quantum/fock_tensors.py:155-169; `choi` is the keyword argument `choi_r`. -/
def stateVectorAll (sq : ℕ → ℂ) (close : ℂ → ℂ → Bool) (N : ℕ) (Q B : ℕ → ℕ → ℂ) (gamma : ℕ → ℂ) (pref : ℂ) (cutoff : ℕ) (choi : Option ℝ) :
    Except PyErr (MArr ℂ) := do
  match choi with
  | none =>
    let denom : ℝ := Real.sqrt (Real.sqrt (toMatrix (2 * N) (2 * N) Q).det.re)
    let T ← hafnianBatched sq close close (.arr N N fun i j => some ((starRingEnd ℂ) (B i j))) (List.replicate N cutoff)
      (some (N, fun i => (starRingEnd ℂ) (gamma i))) true true
    pure fun idx => pref * HermiteOut.get T idx / (denom : ℝ)
  | some r =>
    if N / 2 + N / 2 ≠ N then throw .valueError
    else
      let resc : ℕ → ℂ := fun i => if i < N / 2 then 1 else ((1 / Real.tanh r : ℝ) : ℂ)
      let B' : ℕ → ℕ → ℂ := fun i j => resc i * B i j * resc j
      let gamma' : ℕ → ℂ := fun i => resc i * gamma i
      let denom : ℝ := Real.sqrt (Real.sqrt (toMatrix (2 * N) (2 * N) fun i j => Q i j / (Real.cosh r : ℝ)).det.re)
      let T ← hafnianBatched sq close close (.arr N N fun i j => some ((starRingEnd ℂ) (B' i j))) (List.replicate N cutoff)
        (some (N, fun i => (starRingEnd ℂ) (gamma' i))) true true
      pure fun idx => pref * HermiteOut.get T idx / (denom : ℝ)

/-- The post-selected branch of `state_vector`, thewalrus/quantum/fock_tensors.py:170-182 (a dictionary with more than `N` keys makes `itertools.product`
raise `ValueError`). -/
def stateVectorPost (close : ℂ → ℂ → Bool) (closeR : ℝ → ℝ → Bool) (N : ℕ) (mu : ℕ → ℝ) (cov : ℕ → ℕ → ℝ) (pref : ℂ) (post : List (ℕ × ℕ)) (cutoff : ℕ)
    (hbar atol : ℝ) : Except PyErr (MArr ℂ) := do
  if post.length > N then throw .valueError
  else
    let M := N - post.length
    let psi ← (ndindex (List.replicate M cutoff)).foldlM (fun (psi : MArr ℂ) idx => do
      let el ← fillEl post idx (List.range N) 0
      let a ← pureStateAmplitude close closeR N mu cov el false (1 / 10 ^ 10) hbar atol false
      pure (Function.update psi idx a)) (fun _ => 0)
    pure fun idx => psi idx * pref

/-- `state_vector`, thewalrus/quantum/fock_tensors.py:101-188.  The result has `N` axes, `N - len(post_select)` if states are post-selected. -/
def stateVector (sq : ℕ → ℂ) (close : ℂ → ℂ → Bool) (closeR : ℝ → ℝ → Bool) (N : ℕ) (mu : ℕ → ℝ) (cov : ℕ → ℕ → ℝ) (post : Option (List (ℕ × ℕ)))
    (normalize : Bool) (cutoff : ℕ) (hbar atol : ℝ) (checkPurity : Bool) (choi : Option ℝ) : Except PyErr (MArr ℂ) := do
  if checkPurity && !(Checks.isPureCov closeR (2 * N) (2 * N) cov hbar atol) then throw .valueError
  else
    let beta := complexToReal N mu hbar
    let A ← Amat N cov hbar
    let Q := Qmat N cov hbar
    let gamma : ℕ → ℂ := fun k => (starRingEnd ℂ) (beta k) - dot N (A k) beta
    let prefexp : ℂ := -(1 / 2) * ((norm2 N beta ^ 2 : ℝ) - dot N (fun j => dot N beta fun i => A i j) beta)
    let pref := Complex.exp ((starRingEnd ℂ) prefexp)
    let psi ← match post with
      | none => stateVectorAll sq close N Q A gamma pref cutoff choi
      | some post => stateVectorPost close closeR N mu cov pref post cutoff hbar atol
    if normalize then
      let M := N - (post.map List.length).getD 0
      let norm : ℝ := Real.sqrt (((ndindex (List.replicate M cutoff)).map fun idx => ‖psi idx‖ ^ 2).sum)
      pure fun idx => psi idx / (norm : ℝ)
    else pure psi

/-- `np.transpose(T, axes)`: axis `a` of the result is axis `axes[a]` of the argument. -/
def transposeT {K : Type} (axes : List ℕ) (T : MArr K) : MArr K := fun idx => T ((List.range axes.length).map fun b => idx.getD (axes.idxOf b) 0)

/-- `tuple(chain.from_iterable([[i, i + N] for i in range(N)]))` -/
def sfOrder (N : ℕ) : List ℕ := (List.range N).flatMap fun i => [i, i + N]

/-- `density_matrix`, thewalrus/quantum/fock_tensors.py:235-281, without post-selection (`normalize` is ignored); `zeroMu` is the outcome of
`np.allclose(mu, np.zeros_like(mu))`. -/
def densityMatrixAll (sq : ℕ → ℂ) (close : ℂ → ℂ → Bool) (N : ℕ) (mu : ℕ → ℝ) (cov : ℕ → ℕ → ℝ) (zeroMu : Bool) (cutoff : ℕ) (hbar : ℝ) :
    Except PyErr (MArr ℂ) := do
  let pref ← prefactor N mu cov hbar
  let A0 ← Amat N cov hbar
  let A : ℕ → ℕ → ℂ := fun i j => (starRingEnd ℂ) (A0 i j)
  let beta := complexToReal N mu hbar
  let y : ℕ → ℂ := fun k => beta k - dot (2 * N) (A k) fun l => (starRingEnd ℂ) (beta l)
  let T ← hermiteMultidimensional sq close (.arr (2 * N) (2 * N) fun i j => some (-A i j)) (List.replicate (2 * N) cutoff)
    (if zeroMu then none else some (2 * N, y)) 1 true true true
  pure (transposeT (sfOrder N) fun idx => pref * HermiteOut.get T idx)

/-- `sf_el = tuple(sf_idx[::-1].T.flatten())` for `sf_idx = np.array(idx).reshape(2, -1)` -/
def sfEl (M : ℕ) (idx : List ℕ) : List ℕ := (List.range M).flatMap fun k => [idx.getD (M + k) 0, idx.getD k 0]

/-- `density_matrix`, thewalrus/quantum/fock_tensors.py:283-311: the post-selected branch. -/
def densityMatrixPost (close : ℂ → ℂ → Bool) (N : ℕ) (mu : ℕ → ℝ) (cov : ℕ → ℕ → ℝ) (post : List (ℕ × ℕ)) (normalize : Bool) (cutoff : ℕ) (hbar : ℝ) :
    Except PyErr (MArr ℂ) := do
  let pref ← prefactor N mu cov hbar
  if post.length > N then throw .valueError
  else
    let M := N - post.length
    let rho ← (ndindex (List.replicate (2 * M) cutoff)).foldlM (fun (rho : MArr ℂ) idx => do
      let el ← fillEl post idx ((List.range (2 * N)).map (· % N)) 0
      let v ← densityMatrixElement close N mu cov (el.take N) (el.drop N) false (1 / 10 ^ 10) hbar
      pure (Function.update rho (sfEl M idx) v)) (fun _ => 0)
    let rho : MArr ℂ := fun idx => rho idx * pref
    if normalize then
      let newAx := (List.range M).map (2 * ·) ++ (List.range M).map (2 * · + 1)
      let tr : ℝ := (((ndindex (List.replicate M cutoff)).map fun k => transposeT newAx rho (k ++ k)).sum).re
      pure fun idx => rho idx / (tr : ℝ)
    else pure rho

/-- `np.maximum(0.0, np.real_if_close(z))` stored in a real array (an imaginary part, zero in exact arithmetic, is dropped). -/
def maxReal (z : ℂ) : ℝ := max 0 z.re

/-- `probabilities`, thewalrus/quantum/fock_tensors.py:392-430.  With `parallel=True` the list of elements is computed by dask, in order, and reshaped. -/
def probabilities (sq : ℕ → ℂ) (close : ℂ → ℂ → Bool) (closeR : ℝ → ℝ → Bool) (N : ℕ) (mu : ℕ → ℝ) (cov : ℕ → ℕ → ℝ) (cutoff : ℕ) (parallel : Bool)
    (hbar atol : ℝ) : Except PyErr (MArr ℝ) := do
  if Checks.isPureCov closeR (2 * N) (2 * N) cov hbar atol then
    let psi ← stateVector sq close closeR N mu cov none false cutoff hbar atol false none
    pure fun idx => ‖psi idx‖ ^ 2
  else if parallel then
    let l ← (ndindex (List.replicate N cutoff)).mapM fun i => densityMatrixElement close N mu cov i i true (1 / 10 ^ 10) hbar
    pure fun idx => (l.map maxReal).getD ((ndindex (List.replicate N cutoff)).idxOf idx) 0
  else
    (ndindex (List.replicate N cutoff)).foldlM (fun (probs : MArr ℝ) i => do
      let v ← densityMatrixElement close N mu cov i i true (1 / 10 ^ 10) hbar
      pure (Function.update probs i (maxReal v))) (fun _ => 0)

/-- `tvd_cutoff_bounds`, thewalrus/quantum/fock_tensors.py:584-613: entry `k` of the returned array.  `np.diag` of the tensor of one mode is
`rho[n, n]`; `zeroMu` is the outcome of `np.allclose(mu_red, 0)` for each mode. -/
def tvdCutoffBounds (sq : ℕ → ℂ) (close : ℂ → ℂ → Bool) (closeR : ℝ → ℝ → Bool) (s : GState ℝ) (zeroMu : ℕ → Bool) (cutoff : ℕ) (hbar atol : ℝ)
    (checkValid : Bool) : Except PyErr (ℕ → ℝ) := do
  if checkValid && !(Checks.isValidCov closeR s.len s.len s.cov hbar atol) then throw .valueError
  else
    (List.range (s.len / 2)).foldlM (fun (bounds : ℕ → ℝ) i => do
      let r ← reducedState s [i]
      let rho ← densityMatrixAll sq close 1 r.mu r.cov (zeroMu i) cutoff hbar
      pure fun k => bounds k + (1 - ((List.range (k + 1)).map fun n => (rho [n, n]).re).sum)) (fun _ => 0)

/-- `fock_tensor`, thewalrus/quantum/fock_tensors.py:314-389, for an `m × m` array `S` and a vector `alpha` of length `la`.  `closeR`/`closeC` are the
elementwise tests of `np.allclose` on real and complex arrays. -/
def fockTensor (sq : ℕ → ℂ) (close : ℂ → ℂ → Bool) (closeR : ℝ → ℝ → Bool) (closeC : ℂ → ℂ → Bool) (m : ℕ) (S : ℕ → ℕ → ℝ) (la : ℕ) (alpha : ℕ → ℂ)
    (cutoff : ℕ) (choiR : ℝ) (checkSymplectic sfOrd : Bool) (atol : ℝ) : Except PyErr (MArr ℂ) := do
  if checkSymplectic && !(isSymplectic closeR m m S) then throw .valueError
  else if m / 2 ≠ la then throw .valueError
  else
    let l := m / 2
    let tensor : MArr ℂ ←
      if allClose2 closeR m m (mmul m S (tr S)) eye && (List.range la).all (fun i => closeC (alpha i) 0) then
        let U : ℕ → ℕ → ℂ := fun i j => S i j - Complex.I * S i (l + j)
        let Ub : ℕ → ℕ → ℂ := block l l (fun _ _ => 0) (fun i j => -U i j) (fun i j => -U j i) (fun _ _ => 0)
        (interferometer sq close (.arr (2 * l) (2 * l) fun i j => some (Ub i j)) cutoff 1 true).map HermiteOut.get
      else do
        let ch : ℕ → ℕ → ℝ := fun i j => Real.cosh choiR * eye i j
        let sh : ℕ → ℕ → ℝ := fun i j => Real.sinh choiR * eye i j
        let zh : ℕ → ℕ → ℝ := fun _ _ => 0
        let Schoi : ℕ → ℕ → ℝ := block (2 * l) (2 * l) (block l l ch sh sh ch) (block l l zh zh zh zh) (block l l zh zh zh zh)
          (block l l ch (fun i j => -sh i j) (fun i j => -sh i j) ch)
        let Sx ← expand m S (List.range l) (2 * l)
        let Sexp := mmul (4 * l) Sx Schoi
        let cov := mmul (4 * l) Sexp (tr Sexp)
        let alphat : ℕ → ℂ := fun i => if i < l then alpha i else 0
        let mu : ℕ → ℝ := fun i => if i < 2 * l then 2 * (alphat i).re else 2 * (alphat (i - 2 * l)).im
        stateVector sq close closeR (2 * l) mu cov none false cutoff 2 atol false (some choiR)
    if sfOrd then pure (transposeT (sfOrder l) tensor) else pure tensor

end

end Verif.Model.Fock
