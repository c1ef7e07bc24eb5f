/-
Model of thewalrus/quantum/adjacency_matrices.py and of the rescaling functions of thewalrus/csamples.py.  `np.linalg.svd`, `np.linalg.eigh` and
`scipy.optimize.root_scalar` are parameters (contracts in Spec/LinAlg.lean, Spec/RootFinding.lean; the derivative passed to `root_scalar` is not used by its
bracketing method).
-/
import Verif.Model.Conversions
import Verif.Model.Means
import Verif.Spec.LinAlg
import Mathlib.Analysis.Complex.Basic

namespace Verif.Model.Adj
open Verif.Model Verif.Model.Symp Verif.Model.Conv Verif.Model.Means Verif.Spec

noncomputable section

/-- The routines called. -/
structure Lib where
  svd : ℕ → CArr → CArr × (ℕ → ℝ) × CArr
  eigh : ℕ → RArr → (ℕ → ℝ) × RArr
  rootScalar : (ℝ → ℝ) → ℝ → ℝ → Except PyErr (Bool × ℝ)

/-- `mean_photon_number`, thewalrus/quantum/adjacency_matrices.py:113-126, for `n` singular values. -/
def meanPhotonNumber (n : ℕ) (x : ℝ) (vals : ℕ → ℝ) : ℝ :=
  ((List.range n).map fun i => (x * vals i) ^ 2 / (1 - (x * vals i) ^ 2)).sum

/-- `adj_scaling`, thewalrus/quantum/adjacency_matrices.py:91-153, for a square array (of a 0 × 0 array `ls[0]` raises). -/
def adjScaling (lib : Lib) (n : ℕ) (A : CArr) (nMean : ℝ) : Except PyErr ℝ := do
  let eps : ℝ := 1e-10
  let ls := (lib.svd n A).2.1
  if n = 0 then throw .indexError
  let maxSv := ls 0
  let bLim := 1 / (eps + maxSv)
  if 1000 * eps ≥ maxSv then throw .valueError
  let res ← lib.rootScalar (fun x => meanPhotonNumber n x ls - nMean) 0 bLim
  if ¬ res.1 then throw .valueError
  pure res.2

/-- The matrix `I - X @ A` for `A = [[B, 0], [0, conj(B)]]`, thewalrus/quantum/adjacency_matrices.py:84-87, 175-178. -/
def graphInv (n : ℕ) (B : CArr) : CArr :=
  let A : CArr := block n n B (fun i j => 0 * B i j) (fun i j => 0 * B i j) (fun i j => (starRingEnd ℂ) (B i j))
  fun i j => eye i j - mmul (2 * n) (Xmat n) A i j

/-- `adj_to_qmat`, thewalrus/quantum/adjacency_matrices.py:156-179, for an `n × m` array. -/
def adjToQmat (lib : Lib) (n m : ℕ) (A : CArr) (nMean : ℝ) : Except PyErr CArr := do
  if n ≠ m then throw .valueError
  let sc ← adjScaling lib n A nMean
  npInv (2 * n) (graphInv n fun i j => sc * A i j)

/-- `_mean_clicks_adj`, thewalrus/quantum/adjacency_matrices.py:69-88 (`Covmat` and `mean_clicks` with their default `hbar = 2`). -/
def meanClicksAdj (n : ℕ) (A : CArr) : Except PyErr ℝ := do
  let Q ← npInv (2 * n) (graphInv n A)
  pure (meanClicks n (Covmat n Q 2) 2)

/-- `cost`, thewalrus/quantum/adjacency_matrices.py:46-60.  (Where `np.linalg.inv` raises, the search ends with that exception; for the matrices passed here it does
not, see `meanClicksAdj_correct`; the model returns `c_mean` there.) -/
def cost (n : ℕ) (localA : CArr) (cMean x : ℝ) : ℝ :=
  if x ≥ 1 then cMean - n
  else if x ≤ 0 then cMean
  else match meanClicksAdj n (fun i j => x * localA i j) with
    | .ok c => cMean - c
    | .error _ => cMean

/-- `adj_scaling_torontonian`, thewalrus/quantum/adjacency_matrices.py:25-66, for a square array (of a zero matrix, `A / 0` has NaN entries and the search
raises; of a 0 × 0 array `vals[0]` raises). -/
def adjScalingTorontonian (lib : Lib) (n : ℕ) (A : CArr) (cMean : ℝ) : Except PyErr ℝ := do
  if cMean < 0 ∨ cMean > n then throw .valueError
  let vals := (lib.svd n A).2.1
  if n = 0 then throw .indexError
  if vals 0 = 0 then throw .linAlgError
  let localA : CArr := fun i j => A i j / (vals 0 : ℂ)
  let res ← lib.rootScalar (cost n localA cMean) 0 1
  if ¬ res.1 then throw .valueError
  pure (res.2 / vals 0)

/-- `mean_photon_number`, thewalrus/csamples.py:115-130, for `n` eigenvalues. -/
def meanPhotonThermal (n : ℕ) (scale x : ℝ) (vals : ℕ → ℝ) : ℝ :=
  ((List.range n).map fun i => scale * x * vals i / (1 - scale * x * vals i)).sum

/-- `rescale_adjacency_matrix`, thewalrus/csamples.py:77-154, for an `n × n` array; `close` is the elementwise test of `np.allclose` with the given
tolerances.  `eigh` reads the lower triangle. -/
def rescaleAdjacencyMatrix (lib : Lib) (close : ℝ → ℝ → Bool) (n : ℕ) (A : RArr) (nMean scale : ℝ) (checkPositivity checkSymmetry : Bool) (atol : ℝ) :
    Except PyErr ((ℕ → ℝ) × RArr) := do
  let e := lib.eigh n A
  let ls : ℕ → ℝ := fun i => if |e.1 i| < atol then 0 else e.1 i
  if checkSymmetry && !allClose2 close n n A (tr A) then throw .assertionError
  if checkPositivity && !(List.range n).all (fun i => decide (ls i ≥ 0)) then throw .assertionError
  if n = 0 then throw .indexError
  let maxSv := ls (n - 1)
  let bLim := 1 / (atol + scale * maxSv)
  let res ← lib.rootScalar (fun x => meanPhotonThermal n scale x ls - nMean) 0 bLim
  if ¬ res.1 then throw .assertionError
  pure (fun i => res.2 * ls i, e.2)

/-- `rescale_adjacency_matrix_thermal`, thewalrus/csamples.py:48-74. -/
def rescaleAdjacencyMatrixThermal (lib : Lib) (close : ℝ → ℝ → Bool) (n : ℕ) (A : RArr) (nMean : ℝ) (checkPositivity checkSymmetry : Bool) (atol : ℝ) :
    Except PyErr ((ℕ → ℝ) × RArr) :=
  rescaleAdjacencyMatrix lib close n A nMean 1 checkPositivity checkSymmetry atol

end

end Verif.Model.Adj
