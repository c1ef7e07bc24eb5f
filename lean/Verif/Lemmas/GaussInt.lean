/-
Gaussian integrals over all quadratures of some modes.
-/
import Mathlib.Analysis.SpecialFunctions.Gaussian.GaussianIntegral
import Mathlib.MeasureTheory.Measure.Lebesgue.Basic
import Mathlib.MeasureTheory.Measure.Lebesgue.Complex
import Mathlib.MeasureTheory.Integral.Pi
import Mathlib.Analysis.Matrix.PosDef
import Mathlib.Analysis.Matrix.Order
import Mathlib.Data.Real.StarOrdered

namespace Verif.Lemmas.GInt
open MeasureTheory Matrix

variable {ι : Type} [Fintype ι] [DecidableEq ι]

theorem std_int : ∫⁻ y : ι → ℝ, ENNReal.ofReal (Real.exp (-(y ⬝ᵥ y) / 2)) = ENNReal.ofReal (Real.sqrt (2 * Real.pi) ^ Fintype.card ι) := by
  have e : ∀ y : ι → ℝ, Real.exp (-(y ⬝ᵥ y) / 2) = ∏ l, Real.exp (-(1 / 2) * y l ^ 2) := by
    intro y
    rw [← Real.exp_sum, dotProduct]
    congr 1
    rw [← Finset.mul_sum]
    rw [Finset.sum_congr rfl fun l _ => sq (y l)]
    ring
  have hi : Integrable fun x : ℝ => Real.exp (-(1 / 2) * x ^ 2) := integrable_exp_neg_mul_sq (by norm_num)
  simp only [e]
  rw [← ofReal_integral_eq_lintegral_ofReal]
  · rw [integral_fintype_prod_volume_eq_prod (fun _ (x : ℝ) => Real.exp (-(1 / 2) * x ^ 2))]
    simp only [integral_gaussian, Finset.prod_const, Finset.card_univ]
    congr 3
    ring
  · exact Integrable.fintype_prod fun _ => hi
  · exact Filter.Eventually.of_forall fun β => Finset.prod_nonneg fun l _ => (Real.exp_pos _).le

theorem gauss_int (P : Matrix ι ι ℝ) (hP : P.PosDef) (c : ℝ) (hc : 0 < c) (m : ι → ℝ) :
    ∫⁻ y : ι → ℝ, ENNReal.ofReal (Real.exp (-((c • y - m) ⬝ᵥ P *ᵥ (c • y - m)) / 2)) =
      ENNReal.ofReal (Real.sqrt (2 * Real.pi) ^ Fintype.card ι / (c ^ Fintype.card ι * Real.sqrt P.det)) := by
  obtain ⟨B, hB⟩ : ∃ B : Matrix ι ι ℝ, P = Bᵀ * B := by
    open scoped MatrixOrder in
    obtain ⟨B, hB⟩ := CStarAlgebra.nonneg_iff_eq_star_mul_self.mp hP.posSemidef.nonneg
    exact ⟨B, by rw [hB, star_eq_conjTranspose, conjTranspose_eq_transpose_of_trivial]⟩
  have hdet : P.det = B.det ^ 2 := by rw [hB, det_mul, det_transpose, sq]
  have hBd : B.det ≠ 0 := by
    intro h
    have := hP.det_pos
    rw [hdet, h] at this
    simp at this
  have hs : Real.sqrt P.det = |B.det| := by rw [hdet, Real.sqrt_sq_eq_abs]
  have hq : ∀ v : ι → ℝ, v ⬝ᵥ P *ᵥ v = (B *ᵥ v) ⬝ᵥ (B *ᵥ v) := by
    intro v
    rw [hB, ← mulVec_mulVec, dotProduct_mulVec, vecMul_transpose]
  have hM : (c • B).det ≠ 0 := by rw [det_smul]; positivity
  have e : ∀ y : ι → ℝ, Real.exp (-((c • y - m) ⬝ᵥ P *ᵥ (c • y - m)) / 2) =
      (fun z : ι → ℝ => Real.exp (-((z - B *ᵥ m) ⬝ᵥ (z - B *ᵥ m)) / 2)) (toLin' (c • B) y) := by
    intro y
    simp only [toLin'_apply]
    rw [hq, mulVec_sub, mulVec_smul, smul_mulVec]
  simp only [e]
  have hcont : Continuous fun z : ι → ℝ => Real.exp (-((z - B *ᵥ m) ⬝ᵥ (z - B *ᵥ m)) / 2) := by
    simp only [dotProduct, Pi.sub_apply]
    fun_prop
  have h1 := Real.map_matrix_volume_pi_eq_smul_volume_pi hM
  have h2 := lintegral_map (μ := volume) (f := fun z : ι → ℝ => ENNReal.ofReal (Real.exp (-((z - B *ᵥ m) ⬝ᵥ (z - B *ᵥ m)) / 2)))
    (g := toLin' (c • B)) (ENNReal.measurable_ofReal.comp hcont.measurable) (LinearMap.continuous_of_finiteDimensional _).measurable
  rw [← h2, h1, lintegral_smul_measure, lintegral_sub_right_eq_self (μ := volume) (fun z : ι → ℝ => ENNReal.ofReal (Real.exp (-(z ⬝ᵥ z) / 2))), std_int, smul_eq_mul,
    ← ENNReal.ofReal_mul (abs_nonneg _)]
  congr 1
  rw [hs, abs_inv, det_smul, abs_mul, abs_pow, abs_of_pos hc]
  field_simp

variable {τ : Type} [Fintype τ]

/-- quadratures of complex amplitudes -/
def quads (β : τ → ℂ) : τ ⊕ τ → ℝ := Sum.elim (fun l => (β l).re) fun l => (β l).im

theorem quads_preserving : MeasurePreserving (quads : (τ → ℂ) → (τ ⊕ τ → ℝ)) := by
  have h1 : MeasurePreserving fun (β : τ → ℂ) l => Complex.measurableEquivRealProd (β l) := volume_preserving_pi fun _ => Complex.volume_preserving_equiv_real_prod
  have h2 := volume_measurePreserving_arrowProdEquivProdArrow ℝ ℝ τ
  have h3 := volume_measurePreserving_sumPiEquivProdPi_symm (ι := τ) (ι' := τ) fun _ => ℝ
  have h4 := h3.comp (h2.comp h1)
  have e : (quads : (τ → ℂ) → (τ ⊕ τ → ℝ)) = (MeasurableEquiv.sumPiEquivProdPi fun _ : τ ⊕ τ => ℝ).symm ∘ MeasurableEquiv.arrowProdEquivProdArrow ℝ ℝ τ ∘
      fun β l => Complex.measurableEquivRealProd (β l) := by
    funext β p
    rcases p with p | p <;> rfl
  rw [e]
  exact h4

end Verif.Lemmas.GInt
