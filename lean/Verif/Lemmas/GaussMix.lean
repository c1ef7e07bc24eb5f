/-
Integrals over independent standard normal variables.
-/
import Verif.Lemmas.GaussInt
import Mathlib.Probability.Distributions.Gaussian.Real
import Mathlib.LinearAlgebra.Matrix.SchurComplement

set_option linter.style.longLine false

namespace Verif.Lemmas.GInt
open MeasureTheory ProbabilityTheory Matrix

variable {ι κ : Type} [Fintype ι] [DecidableEq ι] [Fintype κ] [DecidableEq κ]

/-- the law of independent standard normal variables -/
noncomputable def stdNormal (ι : Type) [Fintype ι] : Measure (ι → ℝ) := Measure.pi fun _ => gaussianReal 0 1

instance : IsProbabilityMeasure (stdNormal ι) := by unfold stdNormal; infer_instance

theorem stdNormal_density : stdNormal ι = (volume : Measure (ι → ℝ)).withDensity fun z => ENNReal.ofReal (Real.exp (-(z ⬝ᵥ z) / 2) / Real.sqrt (2 * Real.pi) ^ Fintype.card ι) := by
  unfold stdNormal
  refine Measure.pi_eq fun s hs => ?_
  have e : ∀ z : ι → ℝ, Real.exp (-(z ⬝ᵥ z) / 2) / Real.sqrt (2 * Real.pi) ^ Fintype.card ι = ∏ i, gaussianPDFReal 0 1 (z i) := by
    intro z
    simp only [gaussianPDFReal, NNReal.coe_one, mul_one, sub_zero]
    rw [Finset.prod_mul_distrib, Finset.prod_const, Finset.card_univ, inv_pow, ← Real.exp_sum, div_eq_inv_mul, dotProduct]
    congr 2
    rw [← Finset.sum_div, Finset.sum_neg_distrib]
    congr 2
    exact Finset.sum_congr rfl fun i _ => by ring
  have hm : MeasurableSet (Set.univ.pi s) := MeasurableSet.univ_pi hs
  rw [withDensity_apply _ hm]
  simp only [e]
  have hi : ∀ i, Integrable ((s i).indicator (gaussianPDFReal 0 1)) := fun i => (integrable_gaussianPDFReal 0 1).indicator (hs i)
  have h0 : ∀ i x, 0 ≤ (s i).indicator (gaussianPDFReal 0 1) x := fun i x => Set.indicator_nonneg (fun y _ => gaussianPDFReal_nonneg 0 1 y) x
  have e2 : ∀ z, (Set.univ.pi s).indicator (fun z : ι → ℝ => ENNReal.ofReal (∏ i, gaussianPDFReal 0 1 (z i))) z = ENNReal.ofReal (∏ i, (s i).indicator (gaussianPDFReal 0 1) (z i)) := by
    intro z
    by_cases h : z ∈ Set.univ.pi s
    · rw [Set.indicator_of_mem h]
      congr 1
      exact Finset.prod_congr rfl fun i _ => by rw [Set.indicator_of_mem (h i (Set.mem_univ i))]
    · rw [Set.indicator_of_notMem h]
      simp only [Set.mem_pi, Set.mem_univ, true_implies, not_forall] at h
      obtain ⟨i, hi⟩ := h
      rw [Finset.prod_eq_zero (Finset.mem_univ i) (Set.indicator_of_notMem hi _), ENNReal.ofReal_zero]
  have hip : Integrable (fun z : ι → ℝ => ∏ i, (s i).indicator (gaussianPDFReal 0 1) (z i)) := Integrable.fintype_prod fun i => hi i
  rw [← lintegral_indicator hm, lintegral_congr e2, ← ofReal_integral_eq_lintegral_ofReal hip (Filter.Eventually.of_forall fun z => Finset.prod_nonneg fun i _ => h0 i _),
    integral_fintype_prod_volume_eq_prod (fun i => (s i).indicator (gaussianPDFReal 0 1)), ENNReal.ofReal_prod_of_nonneg fun i _ => integral_nonneg (h0 i)]
  refine Finset.prod_congr rfl fun i _ => ?_
  rw [gaussianReal_apply 0 one_ne_zero, ofReal_integral_eq_lintegral_ofReal (hi i) (Filter.Eventually.of_forall (h0 i)), ← lintegral_indicator (hs i)]
  refine lintegral_congr fun x => ?_
  by_cases h : x ∈ s i
  · simp [h, gaussianPDF]
  · simp [h]

/-- the Woodbury identity for `P⁻¹ + W Wᵀ` -/
theorem woodbury (P : Matrix κ κ ℝ) (hP : P.PosDef) (W : Matrix κ ι ℝ) : (P⁻¹ + W * Wᵀ)⁻¹ = P - P * W * (1 + Wᵀ * P * W)⁻¹ * Wᵀ * P ∧ (1 + Wᵀ * P * W).PosDef ∧ (P⁻¹ + W * Wᵀ).det * P.det = (1 + Wᵀ * P * W).det := by
  have hK : (1 + Wᵀ * P * W).PosDef := by
    refine PosDef.add_posSemidef PosDef.one ?_
    have := hP.posSemidef.conjTranspose_mul_mul_same W
    rwa [conjTranspose_eq_transpose_of_trivial] at this
  have hPu : IsUnit P.det := isUnit_iff_ne_zero.mpr hP.det_pos.ne'
  have hKu : IsUnit (1 + Wᵀ * P * W).det := isUnit_iff_ne_zero.mpr hK.det_pos.ne'
  have hPi : P⁻¹ * P = 1 := nonsing_inv_mul _ hPu
  refine ⟨inv_eq_right_inv ?_, hK, ?_⟩
  · have hKi : (1 + Wᵀ * P * W) * (1 + Wᵀ * P * W)⁻¹ = 1 := mul_nonsing_inv _ hKu
    rw [Matrix.add_mul, Matrix.one_mul] at hKi
    generalize (1 + Wᵀ * P * W)⁻¹ = L at *
    have h1 : P⁻¹ * (P * W * L * Wᵀ * P) = W * L * Wᵀ * P := by
      simp only [Matrix.mul_assoc]
      rw [← Matrix.mul_assoc P⁻¹, hPi, Matrix.one_mul]
    have h2 : W * Wᵀ * (P * W * L * Wᵀ * P) = W * (1 - L) * Wᵀ * P := by
      have : Wᵀ * P * W * L = 1 - L := by rw [← hKi]; abel
      rw [← this]
      simp only [Matrix.mul_assoc]
    rw [Matrix.mul_sub, Matrix.add_mul, Matrix.add_mul, hPi, h1, h2, Matrix.mul_sub, Matrix.sub_mul, Matrix.sub_mul, Matrix.mul_one, Matrix.mul_assoc W Wᵀ P]
    abel
  · rw [← det_mul, Matrix.add_mul, hPi, Matrix.mul_assoc, det_one_add_mul_comm]

/-- the convolution of two Gaussians -/
theorem gauss_conv (P : Matrix κ κ ℝ) (hP : P.PosDef) (W : Matrix κ ι ℝ) (u : κ → ℝ) :
    ∫ z, Real.exp (-((u - W *ᵥ z) ⬝ᵥ P *ᵥ (u - W *ᵥ z)) / 2) ∂stdNormal ι = Real.exp (-(u ⬝ᵥ (P⁻¹ + W * Wᵀ)⁻¹ *ᵥ u) / 2) / Real.sqrt (1 + Wᵀ * P * W).det := by
  obtain ⟨hw, hK, -⟩ := woodbury P hP W
  have hKu : IsUnit (1 + Wᵀ * P * W).det := isUnit_iff_ne_zero.mpr hK.det_pos.ne'
  have hPt : Pᵀ = P := by have := hP.1; rwa [IsHermitian, conjTranspose_eq_transpose_of_trivial] at this
  have hKt : (1 + Wᵀ * P * W)ᵀ = 1 + Wᵀ * P * W := by have := hK.1; rwa [IsHermitian, conjTranspose_eq_transpose_of_trivial] at this
  have hKi : (1 + Wᵀ * P * W) * (1 + Wᵀ * P * W)⁻¹ = 1 := mul_nonsing_inv _ hKu
  have hquad : ∀ z : ι → ℝ, z ⬝ᵥ z + (u - W *ᵥ z) ⬝ᵥ P *ᵥ (u - W *ᵥ z) =
      ((1 : ℝ) • z - (1 + Wᵀ * P * W)⁻¹ *ᵥ (Wᵀ *ᵥ (P *ᵥ u))) ⬝ᵥ (1 + Wᵀ * P * W) *ᵥ ((1 : ℝ) • z - (1 + Wᵀ * P * W)⁻¹ *ᵥ (Wᵀ *ᵥ (P *ᵥ u))) + u ⬝ᵥ (P⁻¹ + W * Wᵀ)⁻¹ *ᵥ u := by
    intro z
    rw [one_smul, hw]
    have hz : z ⬝ᵥ (1 + Wᵀ * P * W) *ᵥ z = z ⬝ᵥ z + (W *ᵥ z) ⬝ᵥ P *ᵥ (W *ᵥ z) := by
      rw [add_mulVec, one_mulVec, dotProduct_add, ← mulVec_mulVec, ← mulVec_mulVec, dotProduct_mulVec z Wᵀ, vecMul_transpose]
    have hsw : ∀ a b : κ → ℝ, a ⬝ᵥ P *ᵥ b = b ⬝ᵥ P *ᵥ a := fun a b => by
      rw [dotProduct_mulVec, ← mulVec_transpose, hPt, dotProduct_comm]
    have hsk : ∀ a b : ι → ℝ, a ⬝ᵥ (1 + Wᵀ * P * W) *ᵥ b = b ⬝ᵥ (1 + Wᵀ * P * W) *ᵥ a := fun a b => by
      rw [dotProduct_mulVec, ← mulVec_transpose, hKt, dotProduct_comm]
    have hm : (1 + Wᵀ * P * W) *ᵥ ((1 + Wᵀ * P * W)⁻¹ *ᵥ (Wᵀ *ᵥ (P *ᵥ u))) = Wᵀ *ᵥ (P *ᵥ u) := by rw [mulVec_mulVec, hKi, one_mulVec]
    have hl : u ⬝ᵥ (P * W * (1 + Wᵀ * P * W)⁻¹ * Wᵀ * P) *ᵥ u = ((1 + Wᵀ * P * W)⁻¹ *ᵥ (Wᵀ *ᵥ (P *ᵥ u))) ⬝ᵥ (Wᵀ *ᵥ (P *ᵥ u)) := by
      simp only [← mulVec_mulVec]
      rw [dotProduct_mulVec, ← mulVec_transpose, hPt, dotProduct_mulVec, ← mulVec_transpose, dotProduct_comm]
    have hc : z ⬝ᵥ Wᵀ *ᵥ (P *ᵥ u) = u ⬝ᵥ P *ᵥ (W *ᵥ z) := by
      rw [dotProduct_mulVec, vecMul_transpose, hsw]
    rw [sub_mulVec, dotProduct_sub u (P *ᵥ u), hl]
    generalize (1 + Wᵀ * P * W)⁻¹ *ᵥ (Wᵀ *ᵥ (P *ᵥ u)) = m at *
    rw [mulVec_sub P, mulVec_sub _ z, sub_dotProduct, dotProduct_sub, dotProduct_sub, sub_dotProduct, dotProduct_sub, dotProduct_sub, hm, hz, hsk m z, hm, hc, hsw (W *ᵥ z) u]
    ring
  have hs : (0 : ℝ) < Real.sqrt (2 * Real.pi) ^ Fintype.card ι := by positivity
  have hcont : Continuous fun z : ι → ℝ => Real.exp (-((u - W *ᵥ z) ⬝ᵥ P *ᵥ (u - W *ᵥ z)) / 2) := by
    simp only [dotProduct, mulVec, Pi.sub_apply]
    fun_prop
  have hcont2 : Continuous fun z : ι → ℝ => Real.exp (-(z ⬝ᵥ z) / 2) / Real.sqrt (2 * Real.pi) ^ Fintype.card ι := by
    simp only [dotProduct]
    fun_prop
  have hm1 : Measurable fun z : ι → ℝ => ENNReal.ofReal (Real.exp (-((u - W *ᵥ z) ⬝ᵥ P *ᵥ (u - W *ᵥ z)) / 2)) := ENNReal.measurable_ofReal.comp hcont.measurable
  have hm2 : Measurable fun z : ι → ℝ => ENNReal.ofReal (Real.exp (-(z ⬝ᵥ z) / 2) / Real.sqrt (2 * Real.pi) ^ Fintype.card ι) := ENNReal.measurable_ofReal.comp hcont2.measurable
  rw [integral_eq_lintegral_of_nonneg_ae (Filter.Eventually.of_forall fun z => (Real.exp_pos _).le) hcont.measurable.aestronglyMeasurable, stdNormal_density,
    lintegral_withDensity_eq_lintegral_mul _ hm2 hm1]
  have e : ∀ z : ι → ℝ, ((fun z : ι → ℝ => ENNReal.ofReal (Real.exp (-(z ⬝ᵥ z) / 2) / Real.sqrt (2 * Real.pi) ^ Fintype.card ι)) * fun z => ENNReal.ofReal (Real.exp (-((u - W *ᵥ z) ⬝ᵥ P *ᵥ (u - W *ᵥ z)) / 2))) z =
      ENNReal.ofReal (Real.exp (-(u ⬝ᵥ (P⁻¹ + W * Wᵀ)⁻¹ *ᵥ u) / 2) / Real.sqrt (2 * Real.pi) ^ Fintype.card ι) *
        ENNReal.ofReal (Real.exp (-(((1 : ℝ) • z - (1 + Wᵀ * P * W)⁻¹ *ᵥ (Wᵀ *ᵥ (P *ᵥ u))) ⬝ᵥ (1 + Wᵀ * P * W) *ᵥ ((1 : ℝ) • z - (1 + Wᵀ * P * W)⁻¹ *ᵥ (Wᵀ *ᵥ (P *ᵥ u)))) / 2)) := by
    intro z
    rw [Pi.mul_apply, ← ENNReal.ofReal_mul (by positivity), ← ENNReal.ofReal_mul (by positivity), div_mul_eq_mul_div, div_mul_eq_mul_div, ← Real.exp_add, ← Real.exp_add]
    congr 3
    linear_combination (-1 / 2 : ℝ) * hquad z
  rw [lintegral_congr e, lintegral_const_mul' _ _ ENNReal.ofReal_ne_top, gauss_int _ hK 1 one_pos, ← ENNReal.ofReal_mul (by positivity), ENNReal.toReal_ofReal (by positivity), one_pow, one_mul]
  field_simp

end Verif.Lemmas.GInt
