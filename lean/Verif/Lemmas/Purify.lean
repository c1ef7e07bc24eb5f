/-
A Gaussian unitary applied to half of a two-mode squeezed state with a squeezing parameter for each mode.
-/
import Verif.Lemmas.GaussUnitaryNorm

set_option linter.unusedSectionVars false
set_option linter.unusedSimpArgs false

namespace Verif.Lemmas.Heis
open Verif.Spec Verif.Lemmas Matrix Verif.Props Verif.Lemmas.Symp

noncomputable section

section blocks
variable {ι : Type} [Fintype ι] [DecidableEq ι]

/-- two-mode squeezing of the two halves, mode by mode -/
def sTmsD (r : ι → ℝ) : Matrix ((ι ⊕ ι) ⊕ (ι ⊕ ι)) ((ι ⊕ ι) ⊕ (ι ⊕ ι)) ℝ :=
  fromBlocks (fromBlocks (diagonal fun k => Real.cosh (r k)) (diagonal fun k => Real.sinh (r k)) (diagonal fun k => Real.sinh (r k)) (diagonal fun k => Real.cosh (r k))) 0 0
    (fromBlocks (diagonal fun k => Real.cosh (r k)) (-diagonal fun k => Real.sinh (r k)) (-diagonal fun k => Real.sinh (r k)) (diagonal fun k => Real.cosh (r k)))

theorem sTmsD_symp (r : ι → ℝ) : sTmsD r ∈ symplecticGroup (ι ⊕ ι) ℝ := by
  apply symp_diag
  rw [fromBlocks_transpose, fromBlocks_multiply, ← fromBlocks_one]
  simp only [transpose_neg, diagonal_transpose, Matrix.mul_neg, diagonal_mul_diagonal, ← diagonal_one, diagonal_neg, diagonal_add, ← diagonal_zero]
  have h := fun k => Real.cosh_sq (r k)
  congr 1 <;> congr 1 <;> funext k <;> nlinarith [h k]

/-- complex diagonal matrix of the hyperbolic cosines -/
def Cd (r : ι → ℝ) : Matrix ι ι ℂ := diagonal fun k => ((Real.cosh (r k) : ℝ) : ℂ)
/-- complex diagonal matrix of the hyperbolic sines -/
def Sd (r : ι → ℝ) : Matrix ι ι ℂ := diagonal fun k => ((Real.sinh (r k) : ℝ) : ℂ)
/-- complex diagonal matrix of the hyperbolic tangents -/
def Td (r : ι → ℝ) : Matrix ι ι ℂ := diagonal fun k => ((Real.tanh (r k) : ℝ) : ℂ)

theorem Td_mul (r : ι → ℝ) : Td r * Cd r = Sd r := by
  rw [Td, Cd, Sd, diagonal_mul_diagonal]
  congr 1; funext k
  rw [← Complex.ofReal_mul, Real.tanh_eq_sinh_div_cosh, div_mul_cancel₀ _ (Real.cosh_pos _).ne']

theorem cj_real_diag (f : ι → ℝ) : cj (diagonal fun k => ((f k : ℝ) : ℂ)) = diagonal fun k => ((f k : ℝ) : ℂ) := by
  ext i j; by_cases h : i = j <;> simp [h, diagonal_apply]

theorem cj_Cd (r : ι → ℝ) : cj (Cd r) = Cd r := cj_real_diag _
theorem cj_Sd (r : ι → ℝ) : cj (Sd r) = Sd r := cj_real_diag _

theorem bog_sTmsD (r : ι → ℝ) : bogE (sTmsD r) = fromBlocks (Cd r) 0 0 (Cd r) ∧ bogF (sTmsD r) = fromBlocks 0 (Sd r) (Sd r) 0 := by
  constructor
  · ext (i | i) (j | j) <;> apply Complex.ext <;> by_cases h : i = j <;> simp only [bogE, sTmsD, Cd, of_apply, fromBlocks_apply₁₁, fromBlocks_apply₁₂, fromBlocks_apply₂₁, fromBlocks_apply₂₂,
      Matrix.zero_apply, Matrix.neg_apply, diagonal_apply, h, if_true, if_false, Complex.ofReal_re, Complex.ofReal_im, Complex.zero_re, Complex.zero_im] <;> ring
  · ext (i | i) (j | j) <;> apply Complex.ext <;> by_cases h : i = j <;> simp only [bogF, sTmsD, Sd, of_apply, fromBlocks_apply₁₁, fromBlocks_apply₁₂, fromBlocks_apply₂₁, fromBlocks_apply₂₂,
      Matrix.zero_apply, Matrix.neg_apply, diagonal_apply, h, if_true, if_false, Complex.ofReal_re, Complex.ofReal_im, Complex.zero_re, Complex.zero_im] <;> ring

theorem bog_choiD (S : Matrix (ι ⊕ ι) (ι ⊕ ι) ℝ) (r : ι → ℝ) :
    bogE (sOne S * sTmsD r) = fromBlocks (bogE S * Cd r) (bogF S * Sd r) 0 (Cd r) ∧
    bogF (sOne S * sTmsD r) = fromBlocks (bogF S * Cd r) (bogE S * Sd r) (Sd r) 0 := by
  obtain ⟨h1, h2⟩ := bog_mul (sOne S) (sTmsD r)
  obtain ⟨e1, f1⟩ := bog_sOne S
  obtain ⟨e2, f2⟩ := bog_sTmsD r
  rw [e1, f1, e2, f2] at h1 h2
  constructor
  · rw [h1, cj_blocks, cj_Sd, cj_zero, fromBlocks_multiply, fromBlocks_multiply, fromBlocks_add]
    congr 1 <;> simp
  · rw [h2, cj_blocks, cj_Cd, cj_zero, fromBlocks_multiply, fromBlocks_multiply, fromBlocks_add]
    congr 1 <;> simp

theorem choi_MD {E F : Matrix ι ι ℂ} (h : Bog E F) (r : ι → ℝ) :
    fromBlocks (F * (cj E)⁻¹) ((E - F * (cj E)⁻¹ * cj F) * Td r) (Td r * (cj E)⁻¹) (Td r * (-((cj E)⁻¹ * cj F)) * Td r) *
      cj (fromBlocks (E * Cd r) (F * Sd r) 0 (Cd r)) = fromBlocks (F * Cd r) (E * Sd r) (Sd r) 0 := by
  rw [cj_blocks, cj_mul, cj_mul, cj_Cd, cj_Sd, cj_zero, fromBlocks_multiply]
  have hi := cj_inv_mul h
  have ht := Td_mul r
  congr 1
  · rw [Matrix.mul_zero, add_zero, ← Matrix.mul_assoc, Matrix.mul_assoc F, hi, Matrix.mul_one]
  · rw [Matrix.mul_assoc _ (Td r), ht, ← Matrix.mul_assoc, ← Matrix.add_mul, add_sub_cancel]
  · rw [Matrix.mul_zero, add_zero, ← Matrix.mul_assoc, Matrix.mul_assoc (Td r), hi, Matrix.mul_one, ht]
  · rw [Matrix.mul_assoc _ (Td r) (Cd r), ht, ← Matrix.mul_assoc, ← Matrix.add_mul, Matrix.mul_assoc (Td r), ← Matrix.mul_add, add_neg_cancel, Matrix.mul_zero, Matrix.zero_mul]

end blocks

variable {l : ℕ}

/-- the symplectic matrix of the purification -/
def purS (S : Matrix (Fin l ⊕ Fin l) (Fin l ⊕ Fin l) ℝ) (r : Fin l → ℝ) : Matrix (Fin (2 * l) ⊕ Fin (2 * l)) (Fin (2 * l) ⊕ Fin (2 * l)) ℝ :=
  (sOne S * sTmsD r).submatrix (Sum.map (quadEquiv l).symm (quadEquiv l).symm) (Sum.map (quadEquiv l).symm (quadEquiv l).symm)

theorem purS_symp {S : Matrix (Fin l ⊕ Fin l) (Fin l ⊕ Fin l) ℝ} (hS : S ∈ symplecticGroup (Fin l) ℝ) (r : Fin l → ℝ) : purS S r ∈ symplecticGroup (Fin (2 * l)) ℝ :=
  symp_reindex _ (mul_mem (sOne_symp hS) (sTmsD_symp r))

variable {S : Matrix (Fin l ⊕ Fin l) (Fin l ⊕ Fin l) ℝ}

theorem pur_MM (hS : S ∈ symplecticGroup (Fin l) ℝ) (r : Fin l → ℝ) :
    bogF (purS S r) * (cj (bogE (purS S r)))⁻¹ = (fromBlocks (bogF S * (cj (bogE S))⁻¹) ((bogE S - bogF S * (cj (bogE S))⁻¹ * cj (bogF S)) * Td r)
        (Td r * (cj (bogE S))⁻¹) (Td r * (-((cj (bogE S))⁻¹ * cj (bogF S))) * Td r)).submatrix (quadEquiv l).symm (quadEquiv l).symm := by
  have h := choi_MD (symp_bog hS) r
  rw [← (bog_choiD S r).1, ← (bog_choiD S r).2] at h
  have hE : cj (bogE (purS S r)) = (cj (bogE (sOne S * sTmsD r))).submatrix (quadEquiv l).symm (quadEquiv l).symm := rfl
  have hF : bogF (purS S r) = (bogF (sOne S * sTmsD r)).submatrix (quadEquiv l).symm (quadEquiv l).symm := rfl
  rw [hF, ← h, ← submatrix_mul_equiv _ _ _ (quadEquiv l).symm, ← hE, Matrix.mul_assoc, cj_mul_inv (symp_bog (purS_symp hS r)), Matrix.mul_one]

theorem pur_det (r : Fin l → ℝ) : (bogE (purS S r)).det = (∏ k, ((Real.cosh (r k) : ℝ) : ℂ)) ^ 2 * (bogE S).det := by
  have hE : bogE (purS S r) = (bogE (sOne S * sTmsD r)).submatrix (quadEquiv l).symm (quadEquiv l).symm := rfl
  rw [hE, det_submatrix_equiv_self, (bog_choiD S r).1, det_fromBlocks_zero₂₁, det_mul, Cd, det_diagonal]
  ring

theorem pur_vac (hS : S ∈ symplecticGroup (Fin l) ℝ) (r : Fin l → ℝ) (α : Fin l → ℂ) :
    uVac (bogE (purS S r)) (bogF (purS S r)) (choiA α) = uVac (bogE S) (bogF S) α / ∏ k, ((Real.cosh (r k) : ℝ) : ℂ) := by
  have e1 : ∑ k, ‖choiA α k‖ ^ 2 = ∑ k, ‖α k‖ ^ 2 := by
    rw [← (quadEquiv l).sum_comp, Fintype.sum_sum_type]
    simp [choiA]
  have e2 : star (choiA α) ⬝ᵥ ((bogF (purS S r) * (cj (bogE (purS S r)))⁻¹) *ᵥ star (choiA α)) = star α ⬝ᵥ ((bogF S * (cj (bogE S))⁻¹) *ᵥ star α) := by
    rw [pur_MM hS]
    simp only [dotProduct, Matrix.mulVec]
    rw [← (quadEquiv l).sum_comp, Fintype.sum_sum_type]
    simp only [← (quadEquiv l).sum_comp, Fintype.sum_sum_type]
    simp [choiA]
  have hc : 0 ≤ ∏ k, Real.cosh (r k) := Finset.prod_nonneg fun k _ => (Real.cosh_pos _).le
  have e3 : Real.sqrt ‖(bogE (purS S r)).det‖ = (∏ k, Real.cosh (r k)) * Real.sqrt ‖(bogE S).det‖ := by
    rw [pur_det, ← Complex.ofReal_prod, norm_mul, norm_pow, Complex.norm_real, Real.norm_of_nonneg hc, Real.sqrt_mul (by positivity), Real.sqrt_sq hc]
  unfold uVac
  rw [e1, e2, e3, Complex.ofReal_mul, Complex.ofReal_prod, div_div, mul_comm (∏ k, ((Real.cosh (r k) : ℝ) : ℂ))]

/-- the amplitudes of the purification -/
theorem pur_amp (hS : S ∈ symplecticGroup (Fin l) ℝ) (r : Fin l → ℝ) (α : Fin l → ℂ) (i j : Fin l → ℕ) :
    stAmp (purS S r) (choiA α) (pairN i j) = (∏ k, ((Real.tanh (r k) : ℝ) : ℂ) ^ j k) / (∏ k, ((Real.cosh (r k) : ℝ) : ℂ)) * gaussU S α i j := by
  have hsc := fockAmp_scale (uVac (bogE S) (bogF S) α) ((uR (bogE S) (bogF S)).submatrix (quadEquiv l).symm (quadEquiv l).symm) ((uR_symm (symp_bog hS)).submatrix _)
    (uY (bogE S) (bogF S) α ∘ (quadEquiv l).symm) ((Sum.elim (fun _ => 1) (fun k => ((Real.tanh (r k) : ℝ) : ℂ))) ∘ (quadEquiv l).symm) (pairN i j)
  have hp : ∏ x, ((Sum.elim (fun _ => (1 : ℂ)) (fun k => ((Real.tanh (r k) : ℝ) : ℂ))) ∘ (quadEquiv l).symm) x ^ pairN i j x = ∏ k, ((Real.tanh (r k) : ℝ) : ℂ) ^ j k := by
    rw [← (quadEquiv l).prod_comp, Fintype.prod_sum_type]
    simp only [Function.comp_apply, Equiv.symm_apply_apply, Sum.elim_inl, Sum.elim_inr, one_pow, Finset.prod_const_one, one_mul, pairN_inr]
  rw [hp] at hsc
  unfold stAmp
  rw [pur_vac hS, fockAmp_div]
  have hM : bogF (purS S r) * (cj (bogE (purS S r)))⁻¹ = of fun a b => ((Sum.elim (fun _ => (1 : ℂ)) (fun k => ((Real.tanh (r k) : ℝ) : ℂ))) ∘ (quadEquiv l).symm) a *
      (uR (bogE S) (bogF S)).submatrix (quadEquiv l).symm (quadEquiv l).symm a b * ((Sum.elim (fun _ => (1 : ℂ)) (fun k => ((Real.tanh (r k) : ℝ) : ℂ))) ∘ (quadEquiv l).symm) b := by
    rw [pur_MM hS]
    ext a b
    simp only [submatrix_apply, of_apply, Function.comp_apply]
    rcases (quadEquiv l).symm a with a | a <;> rcases (quadEquiv l).symm b with b | b <;>
      simp only [uR, fromBlocks_apply₁₁, fromBlocks_apply₁₂, fromBlocks_apply₂₁, fromBlocks_apply₂₂, Sum.elim_inl, Sum.elim_inr, one_mul, mul_one, Td, diagonal_mul, mul_diagonal]
  have hY : choiA α - (bogF (purS S r) * (cj (bogE (purS S r)))⁻¹) *ᵥ star (choiA α) =
      fun a => ((Sum.elim (fun _ => (1 : ℂ)) (fun k => ((Real.tanh (r k) : ℝ) : ℂ))) ∘ (quadEquiv l).symm) a * (uY (bogE S) (bogF S) α ∘ (quadEquiv l).symm) a := by
    rw [pur_MM hS]
    funext a
    simp only [Pi.sub_apply, Matrix.mulVec, dotProduct]
    simp only [← (quadEquiv l).sum_comp, Fintype.sum_sum_type]
    simp only [choiA, Function.comp_apply, submatrix_apply, Equiv.symm_apply_apply, Pi.star_apply, Sum.elim_inl, Sum.elim_inr, Pi.zero_apply, star_zero, mul_zero, Finset.sum_const_zero, add_zero]
    rcases (quadEquiv l).symm a with a | a
    · simp only [uY, fromBlocks_apply₁₁, Sum.elim_inl, one_mul, Pi.sub_apply, Matrix.mulVec, dotProduct, Pi.star_apply]
    · simp only [uY, fromBlocks_apply₂₁, Sum.elim_inr, Pi.neg_apply, Matrix.mulVec, dotProduct, Pi.star_apply, Td, diagonal_mul, Pi.zero_apply, zero_sub, mul_neg,
        Finset.mul_sum, mul_assoc]
  rw [hM] at hY ⊢
  rw [hY, hsc]
  unfold gaussU
  ring

end

end Verif.Lemmas.Heis
