/-
Specification of the entropy and of the entanglement measures of Gaussian states.
-/
import Verif.Spec.Physical
import Mathlib.Analysis.SpecialFunctions.Log.Basic
import Mathlib.LinearAlgebra.SymplecticGroup

namespace Verif.Spec
open Matrix

/-- `ν` are the symplectic eigenvalues of `V`: `V = S diag(ν, ν) Sᵀ` with `S` symplectic, `ν > 0`. -/
def SympSpectrum {N : ℕ} (V : Matrix (Fin N ⊕ Fin N) (Fin N ⊕ Fin N) ℝ) (ν : Fin N → ℝ) : Prop :=
  (∀ i, 0 < ν i) ∧ ∃ S ∈ symplecticGroup (Fin N) ℝ, V = S * diagonal (Sum.elim ν ν) * Sᵀ

/-- The entropy of a thermal state of a single mode with mean photon number `n`: `(n + 1) log (n + 1) - n log n`. -/
noncomputable def thermalEntropy (n : ℝ) : ℝ := (n + 1) * Real.log (n + 1) - n * Real.log n

/-- The probability of `k` photons in the thermal state of a single mode with mean photon number `n`: `n^k / (n + 1)^(k + 1)`. -/
noncomputable def thermalProb (n : ℝ) (k : ℕ) : ℝ := n ^ k / (n + 1) ^ (k + 1)

/-- The partial transpose on the modes `A`: the sign of the momenta of `A` is reversed. -/
def partialTranspose {N : ℕ} (A : Finset (Fin N)) (V : Matrix (Fin N ⊕ Fin N) (Fin N ⊕ Fin N) ℝ) : Matrix (Fin N ⊕ Fin N) (Fin N ⊕ Fin N) ℝ :=
  let s : Fin N ⊕ Fin N → ℝ := Sum.elim (fun _ => 1) fun k => if k ∈ A then -1 else 1
  Matrix.of fun p q => s p * V p q * s q

/-- No correlations between the modes in `A` and the others. -/
def Uncorrelated {N : ℕ} (A : Finset (Fin N)) (V : Matrix (Fin N ⊕ Fin N) (Fin N ⊕ Fin N) ℝ) : Prop :=
  ∀ p q, (Sum.elim id id p ∈ A ↔ Sum.elim id id q ∉ A) → V p q = 0

end Verif.Spec
