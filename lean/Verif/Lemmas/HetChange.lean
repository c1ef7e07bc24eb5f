/-
Integration against the distribution of the outcomes of heterodyne detection, drawn as an affine function of standard normal variables.
-/
import Verif.Lemmas.GaussMix
import Verif.Lemmas.GaussInt

set_option linter.style.longLine false
set_option linter.unusedSectionVars false

namespace Verif.Lemmas.GInt
open MeasureTheory Matrix ProbabilityTheory

theorem stdNormal_equiv {ι κ : Type} [Fintype ι] [Fintype κ] (e : ι ≃ κ) (F : (κ → ℝ) → ENNReal) :
    ∫⁻ y, F y ∂stdNormal κ = ∫⁻ y, F (fun k => y (e.symm k)) ∂stdNormal ι := by
  have h := measurePreserving_piCongrLeft (fun _ : κ => gaussianReal 0 1) e
  have h2 := h.lintegral_comp_emb (MeasurableEquiv.measurableEmbedding _) F
  unfold stdNormal
  rw [← h2]
  refine lintegral_congr fun y => ?_
  congr 1
  funext k
  obtain ⟨i, rfl⟩ := e.surjective k
  rw [e.symm_apply_apply, MeasurableEquiv.coe_piCongrLeft, Equiv.piCongrLeft_apply_apply]

variable {τ : Type} [Fintype τ] [DecidableEq τ]

/-- the complex amplitudes of a vector of quadratures, ħ = 2 -/
noncomputable def amps (v : τ ⊕ τ → ℝ) (l : τ) : ℂ := ((v (Sum.inl l) : ℂ) + Complex.I * (v (Sum.inr l) : ℂ)) / 2

theorem amps_quads (a : τ → ℂ) : amps ((2 : ℝ) • quads a) = a := by
  funext l
  apply Complex.ext <;> simp [amps, quads]

theorem amps_continuous : Continuous (amps : (τ ⊕ τ → ℝ) → τ → ℂ) := by
  unfold amps
  fun_prop

theorem het_change (C P : Matrix (τ ⊕ τ) (τ ⊕ τ) ℝ) (hP : P.PosDef) (hC : C * Cᵀ = P) (m : τ ⊕ τ → ℝ) (F : (τ → ℂ) → ENNReal) (hF : Measurable F) :
    ∫⁻ y, F (amps (m + C *ᵥ y)) ∂stdNormal (τ ⊕ τ) = ∫⁻ a : τ → ℂ, ENNReal.ofReal (Real.exp (-(((2 : ℝ) • quads a - m) ⬝ᵥ P⁻¹ *ᵥ ((2 : ℝ) • quads a - m)) / 2) *
      (2 ^ Fintype.card τ / (Real.pi ^ Fintype.card τ * Real.sqrt P.det))) * F a := by
  have hdet : P.det = C.det ^ 2 := by rw [← hC, det_mul, det_transpose, sq]
  have hCd : C.det ≠ 0 := by
    intro h
    have := hP.det_pos
    rw [hdet, h] at this
    simp at this
  have hCu : IsUnit C.det := isUnit_iff_ne_zero.mpr hCd
  have hs : Real.sqrt P.det = |C.det| := by rw [hdet, Real.sqrt_sq_eq_abs]
  have hinv : P⁻¹ = (C⁻¹)ᵀ * C⁻¹ := by rw [← hC, Matrix.mul_inv_rev, transpose_nonsing_inv]
  have hq : ∀ v : τ ⊕ τ → ℝ, v ⬝ᵥ P⁻¹ *ᵥ v = (C⁻¹ *ᵥ v) ⬝ᵥ (C⁻¹ *ᵥ v) := by
    intro v
    rw [hinv, ← mulVec_mulVec, dotProduct_mulVec, vecMul_transpose]
  have hk : Fintype.card (τ ⊕ τ) = 2 * Fintype.card τ := by rw [Fintype.card_sum]; ring
  have hCi : C⁻¹.det ≠ 0 := by rw [det_nonsing_inv, Ring.inverse_eq_inv']; exact inv_ne_zero hCd
  have hM : ((2 : ℝ) • C⁻¹).det ≠ 0 := by rw [det_smul]; positivity
  have mG : Measurable fun y : τ ⊕ τ → ℝ => F (amps (m + C *ᵥ y)) := by
    refine hF.comp (amps_continuous.comp ?_).measurable
    exact continuous_const.add (Continuous.matrix_mulVec continuous_const continuous_id)
  have md : Measurable fun z : τ ⊕ τ → ℝ => ENNReal.ofReal (Real.exp (-(z ⬝ᵥ z) / 2) / Real.sqrt (2 * Real.pi) ^ Fintype.card (τ ⊕ τ)) := by
    refine ENNReal.measurable_ofReal.comp (Continuous.measurable ?_)
    simp only [dotProduct]
    fun_prop
  -- the right hand side as an integral over the quadratures
  have mR : Measurable fun v : τ ⊕ τ → ℝ => ENNReal.ofReal (Real.exp (-(((2 : ℝ) • v - m) ⬝ᵥ P⁻¹ *ᵥ ((2 : ℝ) • v - m)) / 2) *
      (2 ^ Fintype.card τ / (Real.pi ^ Fintype.card τ * Real.sqrt P.det))) * F (amps ((2 : ℝ) • v)) := by
    have c1 : Continuous fun v : τ ⊕ τ → ℝ => amps ((2 : ℝ) • v) := amps_continuous.comp (continuous_const_smul (2 : ℝ))
    have m1 : Measurable fun v : τ ⊕ τ → ℝ => F (amps ((2 : ℝ) • v)) := hF.comp c1.measurable
    refine Measurable.mul ?_ m1
    refine ENNReal.measurable_ofReal.comp (Continuous.measurable ?_)
    simp only [dotProduct, mulVec, Pi.sub_apply, Pi.smul_apply, smul_eq_mul]
    fun_prop
  have h1 := (quads_preserving (τ := τ)).lintegral_comp mR
  simp only [amps_quads] at h1
  rw [h1, stdNormal_density, lintegral_withDensity_eq_lintegral_mul _ md mG]
  -- shift and scale
  have e : ∀ v : τ ⊕ τ → ℝ, ENNReal.ofReal (Real.exp (-(((2 : ℝ) • v - m) ⬝ᵥ P⁻¹ *ᵥ ((2 : ℝ) • v - m)) / 2) *
      (2 ^ Fintype.card τ / (Real.pi ^ Fintype.card τ * Real.sqrt P.det))) * F (amps ((2 : ℝ) • v)) =
      ENNReal.ofReal (2 ^ (2 * Fintype.card τ) / |C.det|) *
      (fun w : τ ⊕ τ → ℝ => (fun y : τ ⊕ τ → ℝ => ENNReal.ofReal (Real.exp (-(y ⬝ᵥ y) / 2) / Real.sqrt (2 * Real.pi) ^ Fintype.card (τ ⊕ τ)) * F (amps (m + C *ᵥ y)))
        (w - C⁻¹ *ᵥ m)) (toLin' ((2 : ℝ) • C⁻¹) v) := by
    intro v
    simp only [toLin'_apply]
    have e1 : ((2 : ℝ) • C⁻¹) *ᵥ v - C⁻¹ *ᵥ m = C⁻¹ *ᵥ ((2 : ℝ) • v - m) := by rw [mulVec_sub, mulVec_smul, smul_mulVec]
    rw [e1, hq, mulVec_mulVec, mul_nonsing_inv _ hCu, one_mulVec, add_sub_cancel, ← mul_assoc, ← ENNReal.ofReal_mul (by positivity)]
    congr 2
    rw [hs, hk, pow_mul, pow_mul (Real.sqrt (2 * Real.pi)), Real.sq_sqrt (by positivity), mul_pow, show ((2 : ℝ) ^ 2) = 2 * 2 by norm_num, mul_pow]
    generalize Real.exp (-(C⁻¹ *ᵥ ((2 : ℝ) • v - m) ⬝ᵥ C⁻¹ *ᵥ ((2 : ℝ) • v - m)) / 2) = E
    have h0 : |C.det| ≠ 0 := abs_ne_zero.mpr hCd
    have hpi : Real.pi ^ Fintype.card τ ≠ 0 := by positivity
    have h2 : (2 : ℝ) ^ Fintype.card τ ≠ 0 := by positivity
    field_simp
  rw [lintegral_congr e, lintegral_const_mul' _ _ ENNReal.ofReal_ne_top]
  have mH : Measurable fun w : τ ⊕ τ → ℝ => (fun y : τ ⊕ τ → ℝ => ENNReal.ofReal (Real.exp (-(y ⬝ᵥ y) / 2) / Real.sqrt (2 * Real.pi) ^ Fintype.card (τ ⊕ τ)) * F (amps (m + C *ᵥ y)))
      (w - C⁻¹ *ᵥ m) := (md.mul mG).comp (measurable_id.sub_const _)
  have h2 := lintegral_map (μ := volume) mH (g := toLin' ((2 : ℝ) • C⁻¹)) (LinearMap.continuous_of_finiteDimensional _).measurable
  have h3 := Real.map_matrix_volume_pi_eq_smul_volume_pi hM
  rw [← h2, h3, lintegral_smul_measure, lintegral_sub_right_eq_self (μ := volume) (fun y : τ ⊕ τ → ℝ =>
    ENNReal.ofReal (Real.exp (-(y ⬝ᵥ y) / 2) / Real.sqrt (2 * Real.pi) ^ Fintype.card (τ ⊕ τ)) * F (amps (m + C *ᵥ y))), smul_eq_mul, ← mul_assoc,
    ← ENNReal.ofReal_mul (by positivity)]
  have e2 : 2 ^ (2 * Fintype.card τ) / |C.det| * |(((2 : ℝ) • C⁻¹).det)⁻¹| = 1 := by
    rw [det_smul, hk, abs_inv, abs_mul, abs_pow, abs_of_pos (by norm_num : (0 : ℝ) < 2), det_nonsing_inv, Ring.inverse_eq_inv', abs_inv]
    have h0 : |C.det| ≠ 0 := abs_ne_zero.mpr hCd
    field_simp
  rw [e2, ENNReal.ofReal_one, one_mul]
  rfl

end Verif.Lemmas.GInt
