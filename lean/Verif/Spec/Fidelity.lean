/-
Specification of the fidelity of two density matrices in the Fock basis.
-/
import Verif.Spec.FockEntropy
import Mathlib.Analysis.SpecialFunctions.Sqrt

namespace Verif.Spec

noncomputable section

/-- `F = (Tr √(√ρ σ √ρ))²` (Uhlmann).  The columns of `V` are eigenvectors of `ρ`, with eigenvalues `p`; `σ' = V† σ V` is the matrix of `σ` in this basis, so that
`√(p m) σ' m n √(p n)` is the matrix of `√ρ σ √ρ`.  The numbers `q` are its eigenvalues, with the columns of `W` as eigenvectors, and the trace of its square root is the sum of the `√(q k)`. -/
def HasFidelity {I : Type} [DecidableEq I] (ρ σ : I → I → ℂ) (F : ℝ) : Prop :=
  ∃ (p : I → ℝ) (V σ' : I → I → ℂ) (q : I → ℝ) (W : I → I → ℂ) (t : ℝ), IsSpectral ρ p V ∧
    (∀ m n, HasSum (fun x : I × I => (starRingEnd ℂ) (V x.1 m) * σ x.1 x.2 * V x.2 n) (σ' m n)) ∧
    IsUnitaryFock W ∧ (∀ k, 0 ≤ q k) ∧
    (∀ m n, HasSum (fun k => ((q k : ℝ) : ℂ) * (W m k * (starRingEnd ℂ) (W n k))) ((Real.sqrt (p m) : ℂ) * σ' m n * (Real.sqrt (p n) : ℂ))) ∧
    HasSum (fun k => Real.sqrt (q k)) t ∧ F = t ^ 2

end

end Verif.Spec
