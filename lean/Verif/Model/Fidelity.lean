/-
Model of `fidelity` of thewalrus/quantum/gaussian_checks.py.
-/
import Verif.Model.Decompositions

namespace Verif.Model.Fid
open Verif.Model Verif.Model.Symp Verif.Model.Dec Verif.Spec

noncomputable section

/-- `vaux`, thewalrus/quantum/gaussian_checks.py:144: `omega.T @ sigma_inv @ (0.25 * omega + sigma2 @ omega @ sigma1)`, for `n × n` arrays. -/
def vauxOf (n : ℕ) (omega sigmaInv sigma1 sigma2 : RArr) : RArr :=
  mmul n (mmul n (tr omega) sigmaInv) fun i j => 1 / 4 * omega i j + mmul n (mmul n sigma2 omega) sigma1 i j

/-- `fidelity`, thewalrus/quantum/gaussian_checks.py:102-159, for covariance arrays of shapes `n0 × n1` and `m0 × m1` and means of lengths `l1` and `l2`.  `close` is the elementwise test of
`np.allclose` and `sqrtm` is `scipy.linalg.sqrtm` (of which only real results are modelled).  The length of `mu2` is not checked by the code (line 131 reads `mu1.shape` again): `mu1 - mu2`
broadcasts if one of the lengths is 1, and raises `ValueError` for other different lengths.  An odd `n0` makes the products with the `2(n0 // 2) × 2(n0 // 2)` array `omega` raise `ValueError`. -/
def fidelity (sqrtm : ℕ → RArr → RArr) (close : ℝ → ℝ → Bool) (l1 : ℕ) (mu1 : ℕ → ℝ) (n0 n1 : ℕ) (cov1 : RArr) (l2 : ℕ) (mu2 : ℕ → ℝ) (m0 m1 : ℕ) (cov2 : RArr) (hbar : ℝ) : Except PyErr ℝ := do
  if ¬ (n0 = n1 ∧ n1 = m0 ∧ m0 = m1 ∧ m1 = l1) then throw .valueError
  if ¬ (l2 = l1 ∨ l2 = 1 ∨ l1 = 1) then throw .valueError
  let deltar : ℕ → ℝ := fun i => (mu1 i - mu2 (if l2 = 1 then 0 else i)) / Real.sqrt hbar
  let sigma1 : RArr := fun i j => cov1 i j / hbar
  let sigma2 : RArr := fun i j => cov2 i j / hbar
  let sigma : RArr := fun i j => sigma1 i j + sigma2 i j
  let sigmaInv ← npInvR n0 sigma
  if n0 % 2 = 1 then throw .valueError
  let omega : RArr := sympmat (n0 / 2)
  let vaux := vauxOf n0 omega sigmaInv sigma1 sigma2
  let inv2 ← npInvR n0 (mmul n0 (mmul n0 (mmul n0 vaux omega) vaux) omega)
  let sqrtmArg : RArr := fun i j => eye i j + 1 / 4 * inv2 i j
  let matSqrtm : RArr := if allClose2 close n0 n0 sqrtmArg (fun _ _ => 0) then fun _ _ => 0 else sqrtm n0 sqrtmArg
  let detArg : RArr := mmul n0 (fun i j => 2 * (matSqrtm i j + eye i j)) vaux
  pure (Real.sqrt ((toMatrix n0 n0 sigmaInv).det * (toMatrix n0 n0 detArg).det) *
    Real.exp (-(1 / 2) * dot n0 (fun j => dot n0 deltar fun i => sigmaInv i j) deltar))

end

end Verif.Model.Fid
