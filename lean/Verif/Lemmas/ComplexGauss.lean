/-
Gaussian integrals with complex symmetric matrices.
-/
import Verif.Lemmas.GaussMix
import Mathlib.Analysis.Matrix.Spectrum
import Mathlib.Analysis.SpecialFunctions.Gaussian.GaussianIntegral
import Mathlib.Topology.Algebra.Field

set_option linter.style.longLine false

namespace Verif.Lemmas.GInt
open MeasureTheory ProbabilityTheory Matrix

variable {ι κ : Type} [Fintype ι] [DecidableEq ι] [Fintype κ] [DecidableEq κ]

/-- two quadratic forms, one of them positive definite, have a common diagonal form -/
theorem simult (A B : Matrix ι ι ℝ) (hA : A.PosDef) (hB : Bᵀ = B) : ∃ (P : Matrix ι ι ℝ) (d : ι → ℝ), P.det ≠ 0 ∧ A = Pᵀ * P ∧ B = Pᵀ * diagonal d * P := by
  obtain ⟨C, hC⟩ : ∃ C : Matrix ι ι ℝ, A = Cᵀ * C := by
    open scoped MatrixOrder in
    obtain ⟨B, hB⟩ := CStarAlgebra.nonneg_iff_eq_star_mul_self.mp hA.posSemidef.nonneg
    exact ⟨B, by rw [hB, star_eq_conjTranspose, conjTranspose_eq_transpose_of_trivial]⟩
  have hdet : A.det = C.det ^ 2 := by rw [hC, det_mul, det_transpose, sq]
  have hCd : C.det ≠ 0 := by
    intro h
    have := hA.det_pos
    rw [hdet, h] at this
    simp at this
  have hCu : IsUnit C.det := isUnit_iff_ne_zero.mpr hCd
  have hCi : C⁻¹ * C = 1 := nonsing_inv_mul _ hCu
  set B' : Matrix ι ι ℝ := (C⁻¹)ᵀ * B * C⁻¹ with hB'
  have hH : B'.IsHermitian := by
    rw [IsHermitian, conjTranspose_eq_transpose_of_trivial, hB']
    simp only [transpose_mul, transpose_transpose, hB, Matrix.mul_assoc]
  set O : Matrix ι ι ℝ := (hH.eigenvectorUnitary : Matrix ι ι ℝ) with hO
  have hs := hH.spectral_theorem
  rw [Unitary.conjStarAlgAut_apply] at hs
  have hst : (star (hH.eigenvectorUnitary) : Matrix ι ι ℝ) = Oᵀ := by rw [hO, star_eq_conjTranspose, conjTranspose_eq_transpose_of_trivial]
  obtain ⟨d, hs'⟩ : ∃ d : ι → ℝ, B' = O * diagonal d * Oᵀ := ⟨hH.eigenvalues, by rw [← hst]; exact hs⟩
  have hOO : O * Oᵀ = 1 := by
    rw [← hst]
    exact (mem_unitaryGroup_iff).mp (hH.eigenvectorUnitary).2
  refine ⟨Oᵀ * C, d, ?_, ?_, ?_⟩
  · rw [det_mul]
    refine mul_ne_zero (fun h => ?_) hCd
    have := congrArg det hOO
    rw [det_mul, h, mul_zero, det_one] at this
    exact zero_ne_one this
  · rw [transpose_mul, transpose_transpose, Matrix.mul_assoc, ← Matrix.mul_assoc O, hOO, Matrix.one_mul, hC]
  · rw [transpose_mul, transpose_transpose]
    have : Cᵀ * B' * C = B := by
      have h1 : Cᵀ * (C⁻¹)ᵀ = 1 := by rw [← transpose_mul, hCi, transpose_one]
      rw [hB', Matrix.mul_assoc (C⁻¹)ᵀ, ← Matrix.mul_assoc Cᵀ, h1, Matrix.one_mul, Matrix.mul_assoc, hCi, Matrix.mul_one]
    have h2 : Cᵀ * B' * C = Cᵀ * (O * diagonal d * Oᵀ) * C := congrArg (fun X => Cᵀ * X * C) hs'
    rw [← this, h2]
    simp only [Matrix.mul_assoc]

/-- the Gaussian integral with the complex matrix `A + iB` -/
theorem cgauss (A B : Matrix ι ι ℝ) (hA : A.PosDef) (hB : Bᵀ = B) :
    Integrable (fun z : ι → ℝ => Complex.exp (-(((z ⬝ᵥ A *ᵥ z : ℝ) : ℂ) + Complex.I * ((z ⬝ᵥ B *ᵥ z : ℝ) : ℂ)) / 2)) ∧
    (∫ z : ι → ℝ, Complex.exp (-(((z ⬝ᵥ A *ᵥ z : ℝ) : ℂ) + Complex.I * ((z ⬝ᵥ B *ᵥ z : ℝ) : ℂ)) / 2)) ^ 2 * (A.map Complex.ofReal + Complex.I • B.map Complex.ofReal).det = (2 * Real.pi : ℂ) ^ Fintype.card ι := by
  obtain ⟨P, d, hP, hAP, hBP⟩ := simult A B hA hB
  have hqA : ∀ z : ι → ℝ, z ⬝ᵥ A *ᵥ z = ∑ k, (P *ᵥ z) k ^ 2 := fun z => by
    rw [hAP, ← mulVec_mulVec, dotProduct_mulVec, vecMul_transpose, dotProduct]
    exact Finset.sum_congr rfl fun k _ => by ring
  have hqB : ∀ z : ι → ℝ, z ⬝ᵥ B *ᵥ z = ∑ k, d k * (P *ᵥ z) k ^ 2 := fun z => by
    rw [hBP, ← mulVec_mulVec, ← mulVec_mulVec, dotProduct_mulVec, vecMul_transpose, dotProduct]
    exact Finset.sum_congr rfl fun k _ => by rw [mulVec_diagonal]; ring
  set f : ι → ℝ → ℂ := fun k x => Complex.exp (-((1 + Complex.I * d k) / 2) * (x : ℂ) ^ 2) with hf
  have hre : ∀ k, 0 < ((1 + Complex.I * (d k : ℂ)) / 2).re := fun k => by simp
  have e : ∀ z : ι → ℝ, Complex.exp (-(((z ⬝ᵥ A *ᵥ z : ℝ) : ℂ) + Complex.I * ((z ⬝ᵥ B *ᵥ z : ℝ) : ℂ)) / 2) = (fun y : ι → ℝ => ∏ k, f k (y k)) (toLin' P z) := fun z => by
    simp only [toLin'_apply, hf]
    rw [← Complex.exp_sum, hqA, hqB]
    congr 1
    push_cast
    rw [Finset.mul_sum, ← Finset.sum_add_distrib, ← Finset.sum_neg_distrib, Finset.sum_div]
    exact Finset.sum_congr rfl fun k _ => by ring
  have h1 := Real.map_matrix_volume_pi_eq_smul_volume_pi hP
  have hfi : ∀ k, Integrable (f k) := fun k => integrable_cexp_neg_mul_sq (hre k)
  have hint : Integrable (fun y : ι → ℝ => ∏ k, f k (y k)) := Integrable.fintype_prod hfi
  have hmeas : Measurable (toLin' P) := (LinearMap.continuous_of_finiteDimensional _).measurable
  have hint2 : Integrable (fun y : ι → ℝ => ∏ k, f k (y k)) (Measure.map (toLin' P) volume) := by
    rw [h1]
    exact hint.smul_measure ENNReal.ofReal_ne_top
  simp only [e]
  refine ⟨hint2.comp_measurable hmeas, ?_⟩
  have h2 : ∫ z : ι → ℝ, ∏ k, f k ((toLin' P) z k) = ∫ y, ∏ k, f k (y k) ∂(Measure.map (toLin' P) volume) := (integral_map hmeas.aemeasurable hint2.aestronglyMeasurable).symm
  rw [h2, h1, integral_smul_measure, integral_fintype_prod_volume_eq_prod f]
  have h3 : ∀ k, (∫ x, f k x) ^ 2 * (1 + Complex.I * d k) = 2 * Real.pi := fun k => by
    have hne : (1 + Complex.I * (d k : ℂ)) ≠ 0 := fun h => by have := hre k; rw [h] at this; simp at this
    rw [hf, integral_gaussian_complex (hre k), ← Complex.cpow_nat_mul]
    norm_num
    field_simp
  have h4 : (A.map Complex.ofReal + Complex.I • B.map Complex.ofReal).det = (P.det : ℂ) ^ 2 * ∏ k, (1 + Complex.I * d k) := by
    have : A.map Complex.ofReal + Complex.I • B.map Complex.ofReal = (P.map Complex.ofReal)ᵀ * diagonal (fun k => 1 + Complex.I * (d k : ℂ)) * P.map Complex.ofReal := by
      have hD : (diagonal fun k => 1 + Complex.I * (d k : ℂ)) = 1 + Complex.I • (diagonal d).map Complex.ofReal := by
        ext i j
        by_cases h : i = j
        · subst h; simp
        · simp [h]
      have m1 : ∀ X Y : Matrix ι ι ℝ, (X * Y).map Complex.ofReal = X.map Complex.ofReal * Y.map Complex.ofReal := fun X Y => Matrix.map_mul (f := Complex.ofRealHom)
      rw [hD, hAP, hBP, m1, m1, m1, ← transpose_map, Matrix.mul_add, Matrix.add_mul, Matrix.mul_one, mul_smul_comm, smul_mul_assoc]
    rw [this, det_mul, det_mul, det_transpose, det_diagonal]
    have : (P.map Complex.ofReal).det = (P.det : ℂ) := (RingHom.map_det Complex.ofRealHom P).symm
    rw [this]
    ring
  rw [h4, Complex.real_smul, ENNReal.toReal_ofReal (abs_nonneg _), abs_inv, mul_pow, ← Finset.prod_pow]
  have h5 : (((|P.det|⁻¹ : ℝ) : ℂ)) ^ 2 * (P.det : ℂ) ^ 2 = 1 := by
    rw [← Complex.ofReal_pow, ← Complex.ofReal_pow, ← Complex.ofReal_mul, inv_pow, sq_abs, inv_mul_cancel₀ (pow_ne_zero 2 hP), Complex.ofReal_one]
  have h6 : (∏ k, (∫ x, f k x) ^ 2) * ∏ k, (1 + Complex.I * (d k : ℂ)) = (2 * Real.pi : ℂ) ^ Fintype.card ι := by
    rw [← Finset.prod_mul_distrib, Finset.prod_congr rfl fun k _ => h3 k, Finset.prod_const, Finset.card_univ]
  rw [← h6]
  linear_combination (∏ k, (∫ x, f k x) ^ 2) * (∏ k, (1 + Complex.I * (d k : ℂ))) * h5

theorem std_dens_nonneg (z : ι → ℝ) : 0 ≤ Real.exp (-(z ⬝ᵥ z) / 2) / Real.sqrt (2 * Real.pi) ^ Fintype.card ι := by positivity

theorem std_dens_meas : Measurable fun z : ι → ℝ => Real.exp (-(z ⬝ᵥ z) / 2) / Real.sqrt (2 * Real.pi) ^ Fintype.card ι := by
  refine Continuous.measurable ?_
  simp only [dotProduct]; fun_prop

theorem std_integrable_iff {E : Type} [NormedAddCommGroup E] [NormedSpace ℝ E] (f : (ι → ℝ) → E) :
    Integrable f (stdNormal ι) ↔ Integrable fun z => (Real.exp (-(z ⬝ᵥ z) / 2) / Real.sqrt (2 * Real.pi) ^ Fintype.card ι) • f z := by
  have h : Measurable fun z : ι → ℝ => ENNReal.ofReal (Real.exp (-(z ⬝ᵥ z) / 2) / Real.sqrt (2 * Real.pi) ^ Fintype.card ι) := ENNReal.measurable_ofReal.comp std_dens_meas
  rw [stdNormal_density, integrable_withDensity_iff_integrable_smul' h (Filter.Eventually.of_forall fun z => ENNReal.ofReal_lt_top)]
  simp only [ENNReal.toReal_ofReal (std_dens_nonneg _)]

theorem std_integral (f : (ι → ℝ) → ℂ) :
    ∫ z, f z ∂stdNormal ι = ∫ z, (Real.exp (-(z ⬝ᵥ z) / 2) / Real.sqrt (2 * Real.pi) ^ Fintype.card ι) • f z := by
  rw [stdNormal_density]
  have := integral_withDensity_eq_integral_smul (μ := (volume : Measure (ι → ℝ))) (f := fun z : ι → ℝ => (Real.exp (-(z ⬝ᵥ z) / 2) / Real.sqrt (2 * Real.pi) ^ Fintype.card ι).toNNReal)
    (measurable_real_toNNReal.comp std_dens_meas) f
  refine this.trans ?_
  refine integral_congr_ae (Filter.Eventually.of_forall fun z => ?_)
  simp only [NNReal.smul_def, Real.coe_toNNReal _ (std_dens_nonneg z)]

/-- the square of the expectation of a complex Gaussian -/
theorem cgauss_sq (A B : Matrix ι ι ℝ) (hA : (1 + (2 : ℝ) • A).PosDef) (hB : Bᵀ = B) :
    (∫ z : ι → ℝ, Complex.exp (-(((z ⬝ᵥ A *ᵥ z : ℝ) : ℂ) + Complex.I * ((z ⬝ᵥ B *ᵥ z : ℝ) : ℂ))) ∂stdNormal ι) ^ 2 * (1 + (2 : ℂ) • (A.map Complex.ofReal + Complex.I • B.map Complex.ofReal)).det = 1 := by
  obtain ⟨-, h⟩ := cgauss (1 + (2 : ℝ) • A) ((2 : ℝ) • B) hA (by rw [transpose_smul, hB])
  have hs : ((Real.sqrt (2 * Real.pi) : ℝ) : ℂ) ^ 2 = 2 * Real.pi := by
    rw [← Complex.ofReal_pow, Real.sq_sqrt (by positivity)]; push_cast; ring
  have hs0 : ((Real.sqrt (2 * Real.pi) : ℝ) : ℂ) ≠ 0 := Complex.ofReal_ne_zero.mpr (by positivity)
  have e : ∀ z : ι → ℝ, (Real.exp (-(z ⬝ᵥ z) / 2) / Real.sqrt (2 * Real.pi) ^ Fintype.card ι) • Complex.exp (-(((z ⬝ᵥ A *ᵥ z : ℝ) : ℂ) + Complex.I * ((z ⬝ᵥ B *ᵥ z : ℝ) : ℂ))) =
      (((Real.sqrt (2 * Real.pi) : ℝ) : ℂ) ^ Fintype.card ι)⁻¹ * Complex.exp (-(((z ⬝ᵥ (1 + (2 : ℝ) • A) *ᵥ z : ℝ) : ℂ) + Complex.I * ((z ⬝ᵥ ((2 : ℝ) • B) *ᵥ z : ℝ) : ℂ)) / 2) := fun z => by
    rw [Complex.real_smul, Complex.ofReal_div, Complex.ofReal_exp, Complex.ofReal_pow, div_eq_inv_mul, mul_assoc, ← Complex.exp_add]
    congr 2
    rw [add_mulVec, one_mulVec, smul_mulVec, smul_mulVec, dotProduct_add, dotProduct_smul, dotProduct_smul]
    push_cast
    simp only [smul_eq_mul]
    push_cast
    ring
  have hm : (1 + (2 : ℝ) • A).map Complex.ofReal + Complex.I • ((2 : ℝ) • B).map Complex.ofReal = 1 + (2 : ℂ) • (A.map Complex.ofReal + Complex.I • B.map Complex.ofReal) := by
    ext i j
    by_cases hij : i = j
    · subst hij; simp; ring
    · simp [hij]; ring
  rw [std_integral]
  simp only [e]
  rw [integral_const_mul, mul_pow, ← hm, mul_assoc, h, ← inv_pow, ← hs, ← pow_mul, ← pow_mul, mul_comm (Fintype.card ι) 2, ← mul_pow, inv_mul_cancel₀ hs0, one_pow]

/-- expectation of `exp(-zᵀ Δ G Δ z)` for a diagonal matrix `Δ` with real square `x ≥ -1/4` and `0 ≤ G ≤ 1` -/
theorem cgauss_std (G : Matrix ι ι ℝ) (hG : G.PosSemidef) (hG1 : (1 - G).PosSemidef) (Δ : ι → ℂ) (x : ι → ℝ) (hx : ∀ k, Δ k ^ 2 = (x k : ℂ)) (hx4 : ∀ k, -(1 / 4) ≤ x k) :
    Integrable (fun z : ι → ℝ => Complex.exp (-∑ i, ∑ j, Δ i * (z i : ℂ) * (G i j : ℂ) * (Δ j * (z j : ℂ)))) (stdNormal ι) ∧
    0 < (1 + diagonal (fun k => 2 * x k) * G).det ∧
    ∫ z : ι → ℝ, Complex.exp (-∑ i, ∑ j, Δ i * (z i : ℂ) * (G i j : ℂ) * (Δ j * (z j : ℂ))) ∂stdNormal ι = ((1 / Real.sqrt (1 + diagonal (fun k => 2 * x k) * G).det : ℝ) : ℂ) := by
  set a : ι → ℝ := fun k => (Δ k).re with ha
  set b : ι → ℝ := fun k => (Δ k).im with hb
  have hΔ : ∀ k, Δ k = (a k : ℂ) + Complex.I * b k := fun k => by rw [mul_comm, Complex.re_add_im]
  have hGt : Gᵀ = G := by have := hG.1; rwa [IsHermitian, conjTranspose_eq_transpose_of_trivial] at this
  have hb4 : ∀ k, b k ^ 2 ≤ 1 / 4 := fun k => by
    have h1 := congrArg Complex.re (hx k)
    have h2 := congrArg Complex.im (hx k)
    rw [pow_two, Complex.mul_re, Complex.ofReal_re] at h1
    rw [pow_two, Complex.mul_im, Complex.ofReal_im] at h2
    have h3 : a k * b k = 0 := by simp only [ha, hb]; linarith
    have h4 := hx4 k
    rcases mul_eq_zero.mp h3 with h | h
    · simp only [ha] at h
      simp only [hb]
      rw [h] at h1
      nlinarith
    · rw [h]; norm_num
  set RA : Matrix ι ι ℝ := diagonal a * G * diagonal a - diagonal b * G * diagonal b with hRA
  set RB : Matrix ι ι ℝ := diagonal a * G * diagonal b + diagonal b * G * diagonal a with hRB
  have hRBt : RBᵀ = RB := by
    rw [hRB, transpose_add, transpose_mul, transpose_mul, transpose_mul, transpose_mul, diagonal_transpose, diagonal_transpose, hGt, add_comm]
    simp only [Matrix.mul_assoc]
  have hRAt : RAᵀ = RA := by
    rw [hRA, transpose_sub, transpose_mul, transpose_mul, transpose_mul, transpose_mul, diagonal_transpose, diagonal_transpose, hGt]
    simp only [Matrix.mul_assoc]
  have hquad : ∀ (c d : ι → ℝ) (z : ι → ℝ), z ⬝ᵥ (diagonal c * G * diagonal d) *ᵥ z = (fun k => c k * z k) ⬝ᵥ G *ᵥ fun k => d k * z k := fun c d z => by
    rw [← mulVec_mulVec, ← mulVec_mulVec, dotProduct_mulVec, show z ᵥ* diagonal c = fun k => c k * z k from funext fun k => by rw [vecMul_diagonal, mul_comm]]
    congr 2
    funext k
    rw [mulVec_diagonal]
  have hGnn : ∀ v : ι → ℝ, 0 ≤ v ⬝ᵥ G *ᵥ v := fun v => by
    have := (posSemidef_iff_dotProduct_mulVec.mp hG).2 v
    simpa using this
  have hGle : ∀ v : ι → ℝ, v ⬝ᵥ G *ᵥ v ≤ v ⬝ᵥ v := fun v => by
    have := (posSemidef_iff_dotProduct_mulVec.mp hG1).2 v
    rw [sub_mulVec, one_mulVec, dotProduct_sub] at this
    simpa using this
  have hlow : ∀ z : ι → ℝ, -(1 / 4) * (z ⬝ᵥ z) ≤ z ⬝ᵥ RA *ᵥ z := fun z => by
    rw [hRA, sub_mulVec, dotProduct_sub, hquad, hquad]
    have h1 := hGnn fun k => a k * z k
    have h2 := hGle fun k => b k * z k
    have h3 : (fun k => b k * z k) ⬝ᵥ (fun k => b k * z k) ≤ 1 / 4 * (z ⬝ᵥ z) := by
      rw [dotProduct, dotProduct, Finset.mul_sum]
      refine Finset.sum_le_sum fun k _ => ?_
      have := mul_le_mul_of_nonneg_right (hb4 k) (mul_self_nonneg (z k))
      nlinarith
    linarith
  have hpd : ∀ t ∈ Set.Icc (0 : ℝ) 1, (1 + (2 : ℝ) • (t • RA)).PosDef := fun t ht => by
    refine PosDef.of_dotProduct_mulVec_pos ?_ fun z hz => ?_
    · rw [IsHermitian, conjTranspose_eq_transpose_of_trivial, transpose_add, transpose_one, transpose_smul, transpose_smul, hRAt]
    · have hzp : 0 < z ⬝ᵥ z := by
        have := dotProduct_star_self_pos_iff.mpr hz
        simpa using this
      have h := mul_le_mul_of_nonneg_left (hlow z) ht.1
      have h' : t * (z ⬝ᵥ z) ≤ z ⬝ᵥ z := by nlinarith [ht.2]
      rw [add_mulVec, one_mulVec, smul_mulVec, smul_mulVec, dotProduct_add, dotProduct_smul, dotProduct_smul, star_trivial, smul_eq_mul, smul_eq_mul]
      nlinarith
  have hexp : ∀ (t : ℝ) (z : ι → ℝ), ((z ⬝ᵥ (t • RA) *ᵥ z : ℝ) : ℂ) + Complex.I * ((z ⬝ᵥ (t • RB) *ᵥ z : ℝ) : ℂ) = (t : ℂ) * ∑ i, ∑ j, Δ i * (z i : ℂ) * (G i j : ℂ) * (Δ j * (z j : ℂ)) := fun t z => by
    have hq : ∀ c d : ι → ℝ, (((fun k => c k * z k) ⬝ᵥ G *ᵥ fun k => d k * z k : ℝ) : ℂ) = ∑ i, ∑ j, (c i : ℂ) * z i * G i j * (d j * z j) := fun c d => by
      rw [dotProduct]
      simp only [mulVec, dotProduct, Finset.mul_sum]
      push_cast
      refine Finset.sum_congr rfl fun i _ => Finset.sum_congr rfl fun j _ => by ring
    rw [smul_mulVec, smul_mulVec, dotProduct_smul, dotProduct_smul, smul_eq_mul, smul_eq_mul, hRA, hRB, sub_mulVec, add_mulVec, dotProduct_sub, dotProduct_add, hquad, hquad, hquad, hquad]
    push_cast
    rw [hq, hq, hq, hq]
    have e : ∀ i j, Δ i * (z i : ℂ) * (G i j : ℂ) * (Δ j * (z j : ℂ)) = ((a i : ℂ) * z i * G i j * (a j * z j) - (b i : ℂ) * z i * G i j * (b j * z j)) + Complex.I * ((a i : ℂ) * z i * G i j * (b j * z j) + (b i : ℂ) * z i * G i j * (a j * z j)) := fun i j => by
      rw [hΔ i, hΔ j]
      linear_combination (-(b i : ℂ) * b j * z i * z j * G i j) * (-Complex.I_sq)
    simp only [e, Finset.sum_add_distrib, Finset.sum_sub_distrib, ← Finset.mul_sum]
    ring
  have hdet : ∀ t : ℝ, (1 + (2 : ℂ) • ((t • RA).map Complex.ofReal + Complex.I • (t • RB).map Complex.ofReal)).det = (((1 + t • (diagonal (fun k => 2 * x k) * G)).det : ℝ) : ℂ) := fun t => by
    have h1 : (1 : Matrix ι ι ℂ) + (2 : ℂ) • ((t • RA).map Complex.ofReal + Complex.I • (t • RB).map Complex.ofReal) = 1 + diagonal Δ * ((2 * t : ℂ) • G.map Complex.ofReal * diagonal Δ) := by
      ext i j
      simp only [hRA, hRB, Matrix.add_apply, Matrix.smul_apply, Matrix.map_apply, Matrix.sub_apply, smul_eq_mul, diagonal_mul, mul_diagonal, Complex.ofReal_mul, Complex.ofReal_add, Complex.ofReal_sub, hΔ]
      linear_combination (2 * (t : ℂ) * b i * b j * G i j) * (-Complex.I_sq)
    rw [h1, det_one_add_mul_comm, show (((1 + t • (diagonal (fun k => 2 * x k) * G)).det : ℝ) : ℂ) = ((1 + t • (diagonal (fun k => 2 * x k) * G)).map Complex.ofReal).det from RingHom.map_det Complex.ofRealHom _, ← det_transpose]
    congr 1
    ext i j
    have hGij : G j i = G i j := congrFun (congrFun hGt i) j
    have h1 : ((1 : Matrix ι ι ℂ) j i) = (((1 : Matrix ι ι ℝ) i j : ℝ) : ℂ) := by
      by_cases h : i = j
      · subst h; simp
      · rw [Matrix.one_apply_ne h, Matrix.one_apply_ne (Ne.symm h), Complex.ofReal_zero]
    simp only [transpose_apply, Matrix.add_apply, Matrix.smul_apply, Matrix.map_apply, smul_eq_mul, diagonal_mul, mul_diagonal, Complex.ofReal_mul, Complex.ofReal_add, hGij, h1, ← hx]
    push_cast
    ring
  set F : ℝ → ℂ := fun t => ∫ z : ι → ℝ, Complex.exp (-((t : ℂ) * ∑ i, ∑ j, Δ i * (z i : ℂ) * (G i j : ℂ) * (Δ j * (z j : ℂ)))) ∂stdNormal ι with hF
  set D : ℝ → ℝ := fun t => (1 + t • (diagonal (fun k => 2 * x k) * G)).det with hD
  have hFD : ∀ t ∈ Set.Icc (0 : ℝ) 1, F t ^ 2 * (D t : ℂ) = 1 := fun t ht => by
    have := cgauss_sq (t • RA) (t • RB) (hpd t ht) (by rw [transpose_smul, hRBt])
    rw [hdet t] at this
    simp only [hexp] at this
    exact this
  have hDc : Continuous D := by
    simp only [hD]
    exact Continuous.matrix_det (by fun_prop)
  have hD0 : D 0 = 1 := by simp [hD]
  have hDpos : ∀ t ∈ Set.Icc (0 : ℝ) 1, 0 < D t := fun t ht => by
    by_contra hneg
    rw [not_lt] at hneg
    obtain ⟨s, hs, hs0⟩ := intermediate_value_Icc' ht.1 hDc.continuousOn ⟨hneg, by rw [hD0]; norm_num⟩
    have := hFD s ⟨hs.1, hs.2.trans ht.2⟩
    rw [hs0] at this
    simp at this
  have hbint : Integrable (fun z : ι → ℝ => Real.exp (1 / 4 * (z ⬝ᵥ z))) (stdNormal ι) := by
    rw [std_integrable_iff]
    obtain ⟨h, -⟩ := cgauss (ι := ι) ((1 / 2 : ℝ) • 1) 0 (PosDef.one.smul (by norm_num)) (by simp)
    have h2 := (h.norm).const_mul (Real.sqrt (2 * Real.pi) ^ Fintype.card ι)⁻¹
    refine h2.congr (Filter.Eventually.of_forall fun z => ?_)
    dsimp only
    rw [Complex.norm_exp, smul_mulVec, one_mulVec, dotProduct_smul, zero_mulVec, dotProduct_zero, smul_eq_mul, smul_eq_mul]
    have : -(((1 / 2 * (z ⬝ᵥ z) : ℝ) : ℂ) + Complex.I * ((0 : ℝ) : ℂ)) / 2 = ((-(1 / 4 * (z ⬝ᵥ z)) : ℝ) : ℂ) := by push_cast; ring
    rw [this, Complex.ofReal_re, show -(1 / 4 * (z ⬝ᵥ z)) = -(z ⬝ᵥ z) / 2 + 1 / 4 * (z ⬝ᵥ z) by ring, Real.exp_add]
    ring
  have hnorm : ∀ t ∈ Set.Icc (0 : ℝ) 1, ∀ z : ι → ℝ, ‖Complex.exp (-((t : ℂ) * ∑ i, ∑ j, Δ i * (z i : ℂ) * (G i j : ℂ) * (Δ j * (z j : ℂ))))‖ ≤ Real.exp (1 / 4 * (z ⬝ᵥ z)) := fun t ht z => by
    rw [Complex.norm_exp, ← hexp, Real.exp_le_exp, smul_mulVec, dotProduct_smul, smul_eq_mul]
    have h1 : (-(((t * (z ⬝ᵥ RA *ᵥ z) : ℝ) : ℂ) + Complex.I * ((z ⬝ᵥ (t • RB) *ᵥ z : ℝ) : ℂ))).re = -(t * (z ⬝ᵥ RA *ᵥ z)) := by simp [-Complex.ofReal_mul]
    rw [h1]
    have h2 := mul_le_mul_of_nonneg_left (hlow z) ht.1
    have h3 : 0 ≤ z ⬝ᵥ z := by rw [dotProduct]; exact Finset.sum_nonneg fun k _ => mul_self_nonneg _
    nlinarith [ht.2]
  have hmeas : ∀ t : ℝ, AEStronglyMeasurable (fun z : ι → ℝ => Complex.exp (-((t : ℂ) * ∑ i, ∑ j, Δ i * (z i : ℂ) * (G i j : ℂ) * (Δ j * (z j : ℂ))))) (stdNormal ι) := fun t =>
    Continuous.aestronglyMeasurable (by fun_prop)
  have hFc : ContinuousOn F (Set.Icc 0 1) := by
    refine continuousOn_of_dominated (bound := fun z => Real.exp (1 / 4 * (z ⬝ᵥ z))) (fun t _ => hmeas t) (fun t ht => Filter.Eventually.of_forall (hnorm t ht)) hbint (Filter.Eventually.of_forall fun z => ?_)
    fun_prop
  have hFv : Set.EqOn F (fun t => ((1 / Real.sqrt (D t) : ℝ) : ℂ)) (Set.Icc 0 1) := by
    refine isPreconnected_Icc.eq_of_sq_eq hFc ?_ (fun t ht => ?_) (fun {t} ht => ?_) (Set.left_mem_Icc.mpr zero_le_one) ?_
    · refine Complex.continuous_ofReal.comp_continuousOn (ContinuousOn.div continuousOn_const (Real.continuous_sqrt.comp hDc).continuousOn fun t ht => (Real.sqrt_pos.mpr (hDpos t ht)).ne')
    · have h1 := hFD t ht
      have h2 : (D t : ℂ) ≠ 0 := Complex.ofReal_ne_zero.mpr (hDpos t ht).ne'
      rw [Pi.pow_apply, Pi.pow_apply, eq_div_of_mul_eq h2 h1, ← Complex.ofReal_pow, div_pow, Real.sq_sqrt (hDpos t ht).le]
      push_cast
      ring
    · exact Complex.ofReal_ne_zero.mpr (one_div_pos.mpr (Real.sqrt_pos.mpr (hDpos t ht))).ne'
    · simp [hF, hD0]
  have h1 := hFv (Set.right_mem_Icc.mpr zero_le_one)
  have hi := hbint.mono' (hmeas 1) (Filter.Eventually.of_forall (hnorm 1 (Set.right_mem_Icc.mpr zero_le_one)))
  have h2 := hDpos 1 (Set.right_mem_Icc.mpr zero_le_one)
  simp only [hF, hD, Complex.ofReal_one, one_mul, one_smul] at h1 hi h2
  exact ⟨hi, h2, h1⟩

end Verif.Lemmas.GInt
