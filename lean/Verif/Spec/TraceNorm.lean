/-
Specification of the partial transpose and of the trace norm of a matrix in the Fock basis.
-/
import Verif.Spec.GaussianUnitary

namespace Verif.Spec

noncomputable section

/-- The partial transpose on the modes `A`: `⟨i|ρ^T|j⟩` is the matrix element of `ρ` with the occupation numbers of the modes in `A` exchanged between the row and the column. -/
def fockTranspose {N : ℕ} (A : Finset (Fin N)) (ρ : (Fin N → ℕ) → (Fin N → ℕ) → ℂ) (i j : Fin N → ℕ) : ℂ :=
  ρ (fun k => if k ∈ A then j k else i k) fun k => if k ∈ A then i k else j k

/-- The trace norm `Tr |M|` of a Hermitian matrix: `M` has the real eigenvalues `p m`, with the columns of the unitary matrix `V` as eigenvectors, and the sum of their absolute values is `t`.
It does not depend on the choice of the eigenvectors (`Verif.Props.hasTraceNorm_unique`). -/
def HasTraceNorm {I : Type} [DecidableEq I] (M : I → I → ℂ) (t : ℝ) : Prop :=
  ∃ (p : I → ℝ) (V : I → I → ℂ), IsUnitaryFock V ∧ (∀ i j, HasSum (fun m => ((p m : ℝ) : ℂ) * (V i m * (starRingEnd ℂ) (V j m))) (M i j)) ∧ HasSum (fun m => |p m|) t

end

end Verif.Spec
