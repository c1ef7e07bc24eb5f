/-
Specification of the von Neumann entropy of a density matrix in the Fock basis.
-/
import Verif.Spec.GaussianUnitary
import Verif.Spec.Entropy

namespace Verif.Spec

noncomputable section

/-- The density matrix `ρ` has the eigenvalues `p m`, with the columns of the unitary matrix `V` as eigenvectors, and the eigenvalues are a probability distribution. -/
structure IsSpectral {I : Type} [DecidableEq I] (ρ : I → I → ℂ) (p : I → ℝ) (V : I → I → ℂ) : Prop where
  unitary : IsUnitaryFock V
  expand : ∀ i j, HasSum (fun m => ((p m : ℝ) : ℂ) * (V i m * (starRingEnd ℂ) (V j m))) (ρ i j)
  nonneg : ∀ m, 0 ≤ p m
  total : HasSum p 1

/-- `s = - Tr ρ log ρ`: the entropy of the eigenvalues of `ρ`.  It does not depend on the choice of the eigenvectors (`Verif.Props.entropy_unique`). -/
def HasEntropy {I : Type} [DecidableEq I] (ρ : I → I → ℂ) (s : ℝ) : Prop :=
  ∃ p V, IsSpectral ρ p V ∧ HasSum (fun m => -(p m * Real.log (p m))) s

end

end Verif.Spec
