/-
Model of the derivatives handed to `scipy.optimize.root_scalar` by thewalrus/quantum/adjacency_matrices.py and thewalrus/csamples.py.
-/
import Verif.Model.Adjacency

namespace Verif.Model.Adj

noncomputable section

/-- `grad_mean_photon_number`, thewalrus/quantum/adjacency_matrices.py:128-143, for `n` singular values. -/
def gradMeanPhotonNumber (n : ℕ) (x : ℝ) (vals : ℕ → ℝ) : ℝ :=
  2 / x * ((List.range n).map fun i => (vals i * x / (1 - (vals i * x) ^ 2)) ^ 2).sum

/-- `grad_mean_photon_number`, thewalrus/csamples.py:133-149, for `n` eigenvalues. -/
def gradMeanPhotonThermal (n : ℕ) (scale x : ℝ) (vals : ℕ → ℝ) : ℝ :=
  ((List.range n).map fun i => scale * vals i / (1 - scale * x * vals i) ^ 2).sum

end

end Verif.Model.Adj
