/-
Complementary minors and Schur complements over a field.
-/
import Mathlib.LinearAlgebra.Matrix.NonsingularInverse
import Mathlib.LinearAlgebra.Matrix.SchurComplement

namespace Verif.Lemmas.Minor
open Matrix

section
variable {a b : Type*} [Fintype a] [Fintype b] [DecidableEq a] [DecidableEq b] {K : Type*} [Field K]

/-- Jacobi's complementary minor identity -/
theorem jacobi_minor (M P : Matrix (a ⊕ b) (a ⊕ b) K) (h : M * P = 1) : M.det * P.toBlocks₂₂.det = M.toBlocks₁₁.det := by
  have h' : M * fromBlocks 1 P.toBlocks₁₂ 0 P.toBlocks₂₂ = fromBlocks M.toBlocks₁₁ 0 M.toBlocks₂₁ 1 := by
    rw [← fromBlocks_toBlocks M, ← fromBlocks_toBlocks P, fromBlocks_multiply, ← fromBlocks_one] at h
    obtain ⟨-, h2, -, h4⟩ := fromBlocks_inj.mp h
    rw [← fromBlocks_toBlocks M, fromBlocks_multiply]
    simp only [toBlocks_fromBlocks₁₁, toBlocks_fromBlocks₁₂, toBlocks_fromBlocks₂₁, toBlocks_fromBlocks₂₂, Matrix.mul_one, Matrix.mul_zero, add_zero, h2, h4]
  have := congrArg Matrix.det h'
  rwa [Matrix.det_mul, det_fromBlocks_zero₂₁, det_fromBlocks_zero₁₂, Matrix.det_one, Matrix.det_one, one_mul, mul_one] at this

/-- splitting the quadratic form of the inverse along a block -/
theorem schur_quad (M P : Matrix (a ⊕ b) (a ⊕ b) K) (h : M * P = 1) (hP : P.toBlocks₂₂.det ≠ 0) (x y : a ⊕ b → K) :
    x ⬝ᵥ P *ᵥ y = (fun j => (x ᵥ* P) (.inr j)) ⬝ᵥ P.toBlocks₂₂⁻¹ *ᵥ (fun j => (P *ᵥ y) (.inr j)) +
      (fun i => x (.inl i)) ⬝ᵥ M.toBlocks₁₁⁻¹ *ᵥ (fun i => y (.inl i)) := by
  have hu : IsUnit P.toBlocks₂₂.det := isUnit_iff_ne_zero.mpr hP
  have hS : M.toBlocks₁₁⁻¹ = P.toBlocks₁₁ - P.toBlocks₁₂ * P.toBlocks₂₂⁻¹ * P.toBlocks₂₁ := by
    rw [← fromBlocks_toBlocks M, ← fromBlocks_toBlocks P, fromBlocks_multiply, ← fromBlocks_one] at h
    obtain ⟨h1, h2, -, -⟩ := fromBlocks_inj.mp h
    apply Matrix.inv_eq_right_inv
    have h3 : M.toBlocks₁₂ = -(M.toBlocks₁₁ * P.toBlocks₁₂ * P.toBlocks₂₂⁻¹) := by
      have := congrArg (· * P.toBlocks₂₂⁻¹) h2
      simp only [Matrix.add_mul, Matrix.zero_mul, Matrix.mul_nonsing_inv_cancel_right _ _ hu] at this
      exact eq_neg_of_add_eq_zero_right this
    rw [h3] at h1
    rw [← h1, Matrix.mul_sub, Matrix.neg_mul, sub_eq_add_neg, ← Matrix.mul_assoc, ← Matrix.mul_assoc]
  obtain ⟨P11, P12, P21, P22, rfl⟩ : ∃ A B C D, P = fromBlocks A B C D := ⟨_, _, _, _, (fromBlocks_toBlocks P).symm⟩
  simp only [toBlocks_fromBlocks₁₁, toBlocks_fromBlocks₁₂, toBlocks_fromBlocks₂₁, toBlocks_fromBlocks₂₂] at hS hu ⊢
  have hx : x = Sum.elim (fun i => x (.inl i)) (fun j => x (.inr j)) := by ext (i | i) <;> rfl
  have hy : y = Sum.elim (fun i => y (.inl i)) (fun j => y (.inr j)) := by ext (i | i) <;> rfl
  generalize (fun i => x (.inl i)) = x1 at *
  generalize (fun i => x (.inr i)) = x2 at *
  generalize (fun i => y (.inl i)) = y1 at *
  generalize (fun i => y (.inr i)) = y2 at *
  subst hx hy
  rw [hS]
  have e1 : (fun j => (Sum.elim x1 x2 ᵥ* fromBlocks P11 P12 P21 P22) (.inr j)) = x1 ᵥ* P12 + x2 ᵥ* P22 := by
    rw [vecMul_fromBlocks]; rfl
  have e2 : (fun j => (fromBlocks P11 P12 P21 P22 *ᵥ Sum.elim y1 y2) (.inr j)) = P21 *ᵥ y1 + P22 *ᵥ y2 := by
    rw [fromBlocks_mulVec]; rfl
  rw [e1, e2, fromBlocks_mulVec, sumElim_dotProduct_sumElim]
  have hid : P22 * P22⁻¹ = 1 := Matrix.mul_nonsing_inv _ hu
  have hid' : P22⁻¹ * P22 = 1 := Matrix.nonsing_inv_mul _ hu
  simp only [Matrix.mulVec_add, Matrix.sub_mulVec, add_dotProduct, dotProduct_add, dotProduct_sub, Matrix.mulVec_mulVec, hid', Matrix.one_mulVec]
  simp only [← Matrix.dotProduct_mulVec, Matrix.mulVec_mulVec, ← Matrix.mul_assoc, hid, Matrix.one_mul]
  simp only [Sum.elim_comp_inl, Sum.elim_comp_inr]
  ring
end

end Verif.Lemmas.Minor
