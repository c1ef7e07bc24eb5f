/- Dropping rows/columns of zero weight does not change traces of powers nor the loop terms. -/
import Mathlib.LinearAlgebra.Matrix.Trace
import Mathlib.Data.Matrix.Mul
import Mathlib.Algebra.Field.Basic

set_option linter.unusedSectionVars false

namespace Verif
open Matrix Finset

variable {ι κ : Type*} [Fintype ι] [DecidableEq ι] [Fintype κ] [DecidableEq κ] {K : Type*} [CommRing K]

/-- sum over the range of an injection -/
theorem sum_compress (φ : κ → ι) (hφ : Function.Injective φ) (f : ι → K) (hf : ∀ i, i ∉ Set.range φ → f i = 0) :
    ∑ i, f i = ∑ k, f (φ k) := by
  rw [← Finset.sum_image (s := univ) (g := φ) (f := f) (fun a _ b _ h => hφ h)]
  symm
  apply Finset.sum_subset (Finset.subset_univ _)
  intro i _ hi
  apply hf
  rintro ⟨k, rfl⟩
  exact hi (Finset.mem_image_of_mem _ (mem_univ k))

variable (φ : κ → ι) (hφ : Function.Injective φ) (M : Matrix ι ι K)
  (hM : ∀ i j, j ∉ Set.range φ → M i j = 0)

include hφ hM

theorem compress_mul (N : Matrix ι ι K) : (M * N).submatrix φ φ = M.submatrix φ φ * N.submatrix φ φ := by
  ext a b
  simp only [submatrix_apply, mul_apply]
  exact sum_compress φ hφ (fun j => M (φ a) j * N j (φ b)) (fun j hj => by simp [hM _ _ hj])

theorem compress_pow (k : ℕ) : (M ^ k).submatrix φ φ = (M.submatrix φ φ) ^ k := by
  induction k with
  | zero => simp [submatrix_one φ hφ]
  | succ k ih => rw [pow_succ', compress_mul φ hφ M hM, ih, pow_succ']

theorem compress_pow_col (k : ℕ) (i j : ι) (hj : j ∉ Set.range φ) : (M ^ (k + 1)) i j = 0 := by
  rw [pow_succ, mul_apply]
  exact Finset.sum_eq_zero fun x _ => by simp [hM _ _ hj]

theorem compress_trace (k : ℕ) : (M ^ (k + 1)).trace = ((M.submatrix φ φ) ^ (k + 1)).trace := by
  rw [← compress_pow φ hφ M hM]
  simp only [trace, diag_apply, submatrix_apply]
  exact sum_compress φ hφ (fun i => (M ^ (k + 1)) i i) fun i hi => compress_pow_col φ hφ M hM k i i hi

theorem compress_mulVec (k : ℕ) (v : ι → K) :
    ((M ^ k) *ᵥ v) ∘ φ = ((M.submatrix φ φ) ^ k) *ᵥ (v ∘ φ) := by
  induction k with
  | zero => simp
  | succ k ih =>
    rw [pow_succ', pow_succ', ← mulVec_mulVec, ← mulVec_mulVec, ← ih]
    funext a
    simp only [Function.comp, mulVec, dotProduct, submatrix_apply]
    exact sum_compress φ hφ (fun j => M (φ a) j * _) (fun j hj => by simp [hM _ _ hj])

omit hM in
theorem compress_dot (u v : ι → K) (hu : ∀ i, i ∉ Set.range φ → u i = 0) :
    u ⬝ᵥ v = (u ∘ φ) ⬝ᵥ (v ∘ φ) := by
  simp only [dotProduct, Function.comp]
  exact sum_compress φ hφ (fun i => u i * v i) fun i hi => by simp [hu i hi]

end Verif
