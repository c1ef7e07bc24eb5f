/-
Williamson's theorem and the existence of the other decompositions, without assumptions on numerical routines: the contracts of Spec/LinAlg.lean
are met by some routines (Props/LinAlgExists.lean).
-/
import Verif.Props.LinAlgExists
import Verif.Props.Williamson

namespace Verif.Props
open Matrix Verif.Spec Verif.Model Verif.Model.Symp Verif.Lemmas.Symp

/-- every phase-space matrix is the phase-space matrix of an array -/
theorem exists_phase {K : Type} [Zero K] (N : ℕ) (V : Matrix (Fin N ⊕ Fin N) (Fin N ⊕ Fin N) K) : ∃ A : ℕ → ℕ → K, phase N N A = V := by
  refine ⟨ofMatrix (V.submatrix (quadEquiv N).symm (quadEquiv N).symm) fun _ _ => 0, ?_⟩
  rw [phase_toMatrix, toMatrix_ofMatrix']
  ext p q; simp

/-- Williamson's theorem: every positive definite matrix is `S diag(d, d) Sᵀ` with `S` symplectic and `d > 0`. -/
theorem williamson_theorem (N : ℕ) (V : Matrix (Fin N ⊕ Fin N) (Fin N ⊕ Fin N) ℝ) (hV : V.PosDef) :
    ∃ S ∈ symplecticGroup (Fin N) ℝ, ∃ d : Fin N → ℝ, (∀ i, 0 < d i) ∧ V = S * diagonal (Sum.elim d d) * Sᵀ := by
  obtain ⟨sqrtm, hs⟩ := sqrtm_exists
  obtain ⟨schur, hsc⟩ := schur_exists
  obtain ⟨A, rfl⟩ := exists_phase N V
  obtain ⟨D, S, _, h, hS, d, hd, hD⟩ := williamson_correct sqrtm hs schur hsc (fun _ _ => true) (fun _ => rfl) N A hV
  refine ⟨phase N N S, hS, d, hd, ?_⟩
  rw [← h, hD]

/-- `symplectic_eigenvals` of any positive definite matrix returns the symplectic eigenvalues of a Williamson form. -/
theorem symplecticEigenvals_posDef (eigvals : ℕ → RArr → ℕ → ℂ) (he : EigvalsContract eigvals) (N : ℕ) (V : RArr) (hV : (phase N N V).PosDef) :
    ∃ S ∈ symplecticGroup (Fin N) ℝ, ∃ d : Fin N → ℝ, (∀ i, 0 < d i) ∧ phase N N V = S * diagonal (Sum.elim d d) * Sᵀ ∧
      (Dec.symplecticEigenvals eigvals (2 * N) V).Perm ((List.ofFn d).map Complex.ofReal) := by
  obtain ⟨S, hS, d, hd, h⟩ := williamson_theorem N (phase N N V) hV
  exact ⟨S, hS, d, hd, h, symplecticEigenvals_correct eigvals he N V S d hS hd h⟩

end Verif.Props
