/-
Power series in the Gaussian measure of the plane: monomials are orthogonal, and Bessel's inequality.
-/
import Verif.Lemmas.GaussMix
import Mathlib.MeasureTheory.Integral.Gamma
import Mathlib.MeasureTheory.Measure.Haar.InnerProductSpace
import Mathlib.Analysis.Complex.Isometry

set_option linter.style.longLine false

namespace Verif.Lemmas.GInt
open MeasureTheory Metric

/-- the weight -/
noncomputable def gw (z : ℂ) : ℝ := Real.exp (-Complex.normSq z)

theorem gw_pos (z : ℂ) : 0 < gw z := Real.exp_pos _

theorem gw_le (z : ℂ) : gw z ≤ 1 := Real.exp_le_one_iff.mpr (neg_nonpos.mpr (Complex.normSq_nonneg z))

theorem gw_cont : Continuous gw := Real.continuous_exp.comp Complex.continuous_normSq.neg

/-- monomials of different degrees are orthogonal on every disc -/
theorem disc_orth (R : ℝ) (j l : ℕ) (h : j ≠ l) : ∫ z in closedBall (0 : ℂ) R, (starRingEnd ℂ) z ^ l * z ^ j * (gw z : ℂ) = 0 := by
  set θ : ℝ := Real.pi / ((j : ℝ) - l) with hθ
  have hne : ((j : ℝ) - l) ≠ 0 := sub_ne_zero.mpr (by exact_mod_cast h)
  set c : Circle := Circle.exp θ with hc
  have hcn : ‖(c : ℂ)‖ = 1 := Circle.norm_coe c
  set F : ℂ → ℂ := (closedBall (0 : ℂ) R).indicator fun z => (starRingEnd ℂ) z ^ l * z ^ j * (gw z : ℂ) with hF
  have h1 : ∫ z in closedBall (0 : ℂ) R, (starRingEnd ℂ) z ^ l * z ^ j * (gw z : ℂ) = ∫ z, F z := (integral_indicator measurableSet_closedBall).symm
  have hmp := (rotation c).measurePreserving
  have h2 : ∫ z, F (rotation c z) = ∫ z, F z := hmp.integral_comp (rotation c).toHomeomorph.measurableEmbedding F
  have hk : (starRingEnd ℂ) (c : ℂ) ^ l * (c : ℂ) ^ j = -1 := by
    rw [← Complex.inv_eq_conj hcn, hc, Circle.coe_exp, ← Complex.exp_neg, ← Complex.exp_nat_mul, ← Complex.exp_nat_mul, ← Complex.exp_add]
    have : (l : ℂ) * -(θ * Complex.I) + j * (θ * Complex.I) = Real.pi * Complex.I := by
      have e : ((j : ℝ) - l) * θ = Real.pi := by rw [hθ]; field_simp
      have e' : ((j : ℂ) - l) * θ = Real.pi := by exact_mod_cast e
      rw [← e']; ring
    rw [this, Complex.exp_pi_mul_I]
  have h3 : ∀ z, F (rotation c z) = -F z := fun z => by
    have hm : rotation c z ∈ closedBall (0 : ℂ) R ↔ z ∈ closedBall (0 : ℂ) R := by
      rw [mem_closedBall_zero_iff, mem_closedBall_zero_iff, LinearIsometryEquiv.norm_map]
    have hw : gw (rotation c z) = gw z := by
      unfold gw
      rw [Complex.normSq_eq_norm_sq, Complex.normSq_eq_norm_sq, LinearIsometryEquiv.norm_map]
    by_cases hz : z ∈ closedBall (0 : ℂ) R
    · rw [hF, Set.indicator_of_mem hz, Set.indicator_of_mem (hm.mpr hz), hw, rotation_apply, map_mul, mul_pow, mul_pow]
      linear_combination (starRingEnd ℂ) z ^ l * z ^ j * (gw z : ℂ) * hk
    · rw [hF, Set.indicator_of_notMem hz, Set.indicator_of_notMem (fun h => hz (hm.mp h)), neg_zero]
  simp only [h3] at h2
  rw [integral_neg] at h2
  rw [h1]
  have h4 : (2 : ℂ) * ∫ z, F z = 0 := by linear_combination -h2
  exact (mul_eq_zero.mp h4).resolve_left two_ne_zero

/-- the moments of the weight on a disc -/
noncomputable def discMoment (R : ℝ) (j : ℕ) : ℝ := ∫ z in closedBall (0 : ℂ) R, Complex.normSq z ^ j * gw z

theorem moment_total (j : ℕ) : ∫ z : ℂ, Complex.normSq z ^ j * gw z = Real.pi * j.factorial := by
  have h := Complex.integral_rpow_mul_exp_neg_rpow (p := 2) (q := 2 * j) (by norm_num) (by have : (0 : ℝ) ≤ j := by positivity
                                                                                           linarith)
  have e : ∀ z : ℂ, Complex.normSq z ^ j * gw z = ‖z‖ ^ (2 * j : ℝ) * Real.exp (-‖z‖ ^ (2 : ℝ)) := fun z => by
    unfold gw
    rw [Complex.normSq_eq_norm_sq, ← pow_mul]
    have : (2 * j : ℝ) = ((2 * j : ℕ) : ℝ) := by push_cast; ring
    rw [this, Real.rpow_natCast, Real.rpow_two]
  simp only [e]
  rw [h, show (2 * (j : ℝ) + 2) / 2 = j + 1 by ring, Real.Gamma_nat_eq_factorial]
  ring

theorem moment_integrable (j : ℕ) : Integrable fun z : ℂ => Complex.normSq z ^ j * gw z := by
  by_contra h
  have h1 := integral_undef h
  rw [moment_total] at h1
  have : 0 < Real.pi * j.factorial := by positivity
  exact this.ne' h1

theorem discMoment_tendsto (j : ℕ) : Filter.Tendsto (fun R : ℕ => discMoment R j) Filter.atTop (nhds (Real.pi * j.factorial)) := by
  have hu : (⋃ n : ℕ, closedBall (0 : ℂ) n) = Set.univ := iUnion_closedBall_nat 0
  have h := tendsto_setIntegral_of_monotone (μ := volume) (f := fun z : ℂ => Complex.normSq z ^ j * gw z) (s := fun n : ℕ => closedBall (0 : ℂ) n)
    (fun n => measurableSet_closedBall) (fun a b hab => closedBall_subset_closedBall (by exact_mod_cast hab)) (by rw [hu]; exact (moment_integrable j).integrableOn)
  rw [hu, setIntegral_univ, moment_total] at h
  exact h

variable {A : ℂ → ℂ} {b : ℕ → ℂ}

theorem series_bound (h : ∀ z, HasSum (fun j => b j * (starRingEnd ℂ) z ^ j) (A z)) (R : ℝ) (hR : 0 ≤ R) :
    Summable (fun j => ‖b j‖ * R ^ j) ∧ ∀ z ∈ closedBall (0 : ℂ) R, ‖A z‖ ≤ ∑' j, ‖b j‖ * R ^ j := by
  have hs : Summable fun j => ‖b j‖ * R ^ j := by
    refine (summable_norm_iff.mpr (h R).summable).congr fun j => ?_
    rw [norm_mul, norm_pow, Complex.conj_ofReal, Complex.norm_real, Real.norm_of_nonneg hR]
  refine ⟨hs, fun z hz => ?_⟩
  rw [← (h z).tsum_eq]
  have hb : ∀ j, ‖b j * (starRingEnd ℂ) z ^ j‖ ≤ ‖b j‖ * R ^ j := fun j => by
    rw [norm_mul, norm_pow, RCLike.norm_conj]
    exact mul_le_mul_of_nonneg_left (pow_le_pow_left₀ (norm_nonneg _) (mem_closedBall_zero_iff.mp hz) _) (norm_nonneg _)
  exact (norm_tsum_le_tsum_norm (hs.of_nonneg_of_le (fun _ => norm_nonneg _) hb)).trans ((hs.of_nonneg_of_le (fun _ => norm_nonneg _) hb).tsum_le_tsum hb hs)

theorem series_measurable (h : ∀ z, HasSum (fun j => b j * (starRingEnd ℂ) z ^ j) (A z)) : Measurable A := by
  refine measurable_of_tendsto_metrizable (f := fun (n : ℕ) z => ∑ j ∈ Finset.range n, b j * (starRingEnd ℂ) z ^ j) (fun n => ?_) ?_
  · refine Continuous.measurable ?_
    have := Complex.continuous_conj
    fun_prop
  · rw [tendsto_pi_nhds]
    exact fun z => (h z).tendsto_sum_nat

theorem disc_integrable {g : ℂ → ℂ} (hg : Measurable g) (R C : ℝ) (hb : ∀ z ∈ closedBall (0 : ℂ) R, ‖g z‖ ≤ C) : Integrable g (volume.restrict (closedBall (0 : ℂ) R)) := by
  haveI : IsFiniteMeasure (volume.restrict (closedBall (0 : ℂ) R)) := ⟨by rw [Measure.restrict_apply_univ]; exact measure_closedBall_lt_top⟩
  exact Integrable.of_bound hg.aestronglyMeasurable C ((ae_restrict_iff' measurableSet_closedBall).mpr (Filter.Eventually.of_forall hb))

/-- the coefficients of a power series, by integration over a disc -/
theorem disc_coeff (h : ∀ z, HasSum (fun j => b j * (starRingEnd ℂ) z ^ j) (A z)) (R : ℝ) (hR : 0 ≤ R) (l : ℕ) :
    ∫ z in closedBall (0 : ℂ) R, A z * z ^ l * (gw z : ℂ) = b l * (discMoment R l : ℂ) := by
  have hs := (series_bound h R hR).1
  set F : ℕ → ℂ → ℂ := fun j z => b j * (starRingEnd ℂ) z ^ j * z ^ l * (gw z : ℂ) with hF
  have hcont : ∀ j, Continuous (F j) := fun j => by
    have h1 := Complex.continuous_conj
    have h2 := Complex.continuous_ofReal.comp gw_cont
    have h3 : Continuous fun z : ℂ => (gw z : ℂ) := h2
    rw [hF]
    fun_prop
  have hb : ∀ j, ∀ z ∈ closedBall (0 : ℂ) R, ‖F j z‖ ≤ ‖b j‖ * R ^ j * R ^ l := fun j z hz => by
    have hz' := mem_closedBall_zero_iff.mp hz
    rw [hF]
    dsimp only
    rw [norm_mul, norm_mul, norm_mul, norm_pow, norm_pow, RCLike.norm_conj, Complex.norm_real, Real.norm_of_nonneg (gw_pos z).le]
    calc ‖b j‖ * ‖z‖ ^ j * ‖z‖ ^ l * gw z ≤ ‖b j‖ * R ^ j * R ^ l * 1 := by
          have := gw_le z
          have := (gw_pos z).le
          gcongr
      _ = _ := mul_one _
  have hint : ∀ j, Integrable (F j) (volume.restrict (closedBall (0 : ℂ) R)) := fun j => disc_integrable (hcont j).measurable R _ (hb j)
  haveI : IsFiniteMeasure (volume.restrict (closedBall (0 : ℂ) R)) := ⟨by rw [Measure.restrict_apply_univ]; exact measure_closedBall_lt_top⟩
  have hsum : Summable fun j => ∫ z in closedBall (0 : ℂ) R, ‖F j z‖ := by
    refine Summable.of_nonneg_of_le (fun j => integral_nonneg fun _ => norm_nonneg _) (fun j => ?_) ((hs.mul_right (R ^ l)).mul_right ((volume.restrict (closedBall (0 : ℂ) R)).real Set.univ))
    have h1 := integral_mono_ae (μ := volume.restrict (closedBall (0 : ℂ) R)) (hint j).norm (integrable_const (‖b j‖ * R ^ j * R ^ l)) ((ae_restrict_iff' measurableSet_closedBall).mpr (Filter.Eventually.of_forall (hb j)))
    rw [integral_const, smul_eq_mul, mul_comm] at h1
    exact h1
  have key := hasSum_integral_of_summable_integral_norm hint hsum
  have e1 : ∀ z, ∑' j, F j z = A z * z ^ l * (gw z : ℂ) := fun z => by
    rw [hF]
    exact (((h z).mul_right (z ^ l)).mul_right (gw z : ℂ)).tsum_eq
  simp only [e1] at key
  have e2 : ∀ j, j ≠ l → ∫ z in closedBall (0 : ℂ) R, F j z = 0 := fun j hj => by
    have e : ∀ z, F j z = b j * ((starRingEnd ℂ) z ^ j * z ^ l * (gw z : ℂ)) := fun z => by rw [hF]; ring
    simp only [e]
    rw [integral_const_mul, disc_orth R l j hj.symm, mul_zero]
  have key2 := hasSum_single (f := fun j => ∫ z in closedBall (0 : ℂ) R, F j z) l e2
  rw [key.unique key2]
  have e : ∀ z, F l z = b l * ((Complex.normSq z ^ l * gw z : ℝ) : ℂ) := fun z => by
    rw [hF]
    dsimp only
    push_cast
    rw [Complex.normSq_eq_conj_mul_self, mul_pow]
    ring
  simp only [e]
  rw [integral_const_mul, integral_complex_ofReal, discMoment]

/-- Bessel's inequality on a disc -/
theorem disc_bessel (h : ∀ z, HasSum (fun j => b j * (starRingEnd ℂ) z ^ j) (A z)) (R : ℝ) (hR : 0 ≤ R) (c : ℕ) :
    ∑ j ∈ Finset.range c, Complex.normSq (b j) * discMoment R j ≤ ∫ z in closedBall (0 : ℂ) R, Complex.normSq (A z) * gw z := by
  set b' : ℕ → ℂ := fun j => if j < c then b j else 0 with hb'
  set P : ℂ → ℂ := fun z => ∑ j ∈ Finset.range c, b j * (starRingEnd ℂ) z ^ j with hP
  have hP' : ∀ z, HasSum (fun j => b' j * (starRingEnd ℂ) z ^ j) (P z) := fun z => by
    have h1 : HasSum (fun j => b' j * (starRingEnd ℂ) z ^ j) (∑ j ∈ Finset.range c, b' j * (starRingEnd ℂ) z ^ j) := hasSum_sum_of_ne_finset_zero fun j hj => by
      rw [hb']
      dsimp only
      rw [if_neg (fun h => hj (Finset.mem_range.mpr h)), zero_mul]
    have e : ∑ j ∈ Finset.range c, b' j * (starRingEnd ℂ) z ^ j = P z := Finset.sum_congr rfl fun j hj => by
      rw [hb']
      dsimp only
      rw [if_pos (Finset.mem_range.mp hj)]
    rwa [e] at h1
  have mA := series_measurable h
  have mP := series_measurable hP'
  have mw : Measurable fun z : ℂ => (gw z : ℂ) := (Complex.continuous_ofReal.comp gw_cont).measurable
  obtain ⟨-, bA⟩ := series_bound h R hR
  obtain ⟨-, bP⟩ := series_bound hP' R hR
  set KA := ∑' j, ‖b j‖ * R ^ j
  set KP := ∑' j, ‖b' j‖ * R ^ j
  have hint : ∀ {f g : ℂ → ℂ} {K L : ℝ}, Measurable f → Measurable g → (∀ z ∈ closedBall (0 : ℂ) R, ‖f z‖ ≤ K) → (∀ z ∈ closedBall (0 : ℂ) R, ‖g z‖ ≤ L) →
      Integrable (fun z => f z * (starRingEnd ℂ) (g z) * (gw z : ℂ)) (volume.restrict (closedBall (0 : ℂ) R)) := fun {f g K L} hf hg bf bg => by
    refine disc_integrable ((hf.mul (Complex.continuous_conj.measurable.comp hg)).mul mw) R (K * L) fun z hz => ?_
    simp only [Pi.mul_apply, Function.comp_apply]
    rw [norm_mul, norm_mul, RCLike.norm_conj, Complex.norm_real, Real.norm_of_nonneg (gw_pos z).le]
    calc ‖f z‖ * ‖g z‖ * gw z ≤ K * L * 1 := by
          have h1 := bf z hz
          have h2 := bg z hz
          have h3 := gw_le z
          have h4 := (gw_pos z).le
          have h5 : 0 ≤ K := (norm_nonneg _).trans h1
          have h6 : 0 ≤ L := (norm_nonneg _).trans h2
          gcongr
      _ = _ := mul_one _
  -- the inner product with the truncated series
  have hip : ∀ {B : ℂ → ℂ} {d : ℕ → ℂ}, (∀ z, HasSum (fun j => d j * (starRingEnd ℂ) z ^ j) (B z)) → (∀ j < c, d j = b j) →
      ∫ z in closedBall (0 : ℂ) R, B z * (starRingEnd ℂ) (P z) * (gw z : ℂ) = ((∑ j ∈ Finset.range c, Complex.normSq (b j) * discMoment R j : ℝ) : ℂ) := fun {B d} hB hd => by
    have mB := series_measurable hB
    obtain ⟨-, bB⟩ := series_bound hB R hR
    have e : ∀ z, B z * (starRingEnd ℂ) (P z) * (gw z : ℂ) = ∑ j ∈ Finset.range c, (starRingEnd ℂ) (b j) * (B z * z ^ j * (gw z : ℂ)) := fun z => by
      rw [hP]
      simp only [map_sum, map_mul, map_pow, Complex.conj_conj, Finset.mul_sum, Finset.sum_mul]
      exact Finset.sum_congr rfl fun j _ => by ring
    simp only [e]
    rw [integral_finsetSum _ fun j _ => ?_]
    · push_cast
      refine Finset.sum_congr rfl fun j hj => ?_
      rw [integral_const_mul, disc_coeff hB R hR j, hd j (Finset.mem_range.mp hj), ← mul_assoc, ← Complex.normSq_eq_conj_mul_self]
    · refine (disc_integrable ((mB.mul (measurable_id.pow_const j)).mul mw) R ((∑' j, ‖d j‖ * R ^ j) * R ^ j) fun z hz => ?_).const_mul _
      simp only [Pi.mul_apply, id_eq]
      rw [norm_mul, norm_mul, norm_pow, Complex.norm_real, Real.norm_of_nonneg (gw_pos z).le]
      have h1 := bB z hz
      have h2 := mem_closedBall_zero_iff.mp hz
      have h3 := gw_le z
      have h4 := (gw_pos z).le
      have h5 := (norm_nonneg _).trans h1
      calc ‖B z‖ * ‖z‖ ^ j * gw z ≤ (∑' j, ‖d j‖ * R ^ j) * R ^ j * 1 := by gcongr
        _ = _ := mul_one _
  have i1 := hip h fun _ _ => rfl
  have i2 := hip hP' fun j hj => by rw [hb']; dsimp only; rw [if_pos hj]
  have hAA := (hint mA mA bA bA).re
  have hAP := (hint mA mP bA bP).re
  have hPP := (hint mP mP bP bP).re
  have r1 := integral_re (hint mA mP bA bP)
  have r2 := integral_re (hint mP mP bP bP)
  rw [i1] at r1
  rw [i2] at r2
  have hnn : 0 ≤ ∫ z in closedBall (0 : ℂ) R, ((A z * (starRingEnd ℂ) (A z) * (gw z : ℂ)).re - 2 * (A z * (starRingEnd ℂ) (P z) * (gw z : ℂ)).re) + (P z * (starRingEnd ℂ) (P z) * (gw z : ℂ)).re := by
    refine integral_nonneg fun z => ?_
    have : (A z * (starRingEnd ℂ) (A z) * (gw z : ℂ)).re - 2 * (A z * (starRingEnd ℂ) (P z) * (gw z : ℂ)).re + (P z * (starRingEnd ℂ) (P z) * (gw z : ℂ)).re = Complex.normSq (A z - P z) * gw z := by
      rw [Complex.re_mul_ofReal, Complex.re_mul_ofReal, Complex.re_mul_ofReal]
      simp only [Complex.normSq_apply, Complex.mul_re, Complex.conj_re, Complex.conj_im, Complex.sub_re, Complex.sub_im]
      ring
    rw [Pi.zero_apply, this]
    exact mul_nonneg (Complex.normSq_nonneg _) (gw_pos z).le
  have hAA' : Integrable (fun z => (A z * (starRingEnd ℂ) (A z) * (gw z : ℂ)).re) (volume.restrict (closedBall (0 : ℂ) R)) := hAA
  have hAP' : Integrable (fun z => (A z * (starRingEnd ℂ) (P z) * (gw z : ℂ)).re) (volume.restrict (closedBall (0 : ℂ) R)) := hAP
  have hPP' : Integrable (fun z => (P z * (starRingEnd ℂ) (P z) * (gw z : ℂ)).re) (volume.restrict (closedBall (0 : ℂ) R)) := hPP
  have r1' : ∫ z in closedBall (0 : ℂ) R, (A z * (starRingEnd ℂ) (P z) * (gw z : ℂ)).re = ∑ j ∈ Finset.range c, Complex.normSq (b j) * discMoment R j := r1
  have r2' : ∫ z in closedBall (0 : ℂ) R, (P z * (starRingEnd ℂ) (P z) * (gw z : ℂ)).re = ∑ j ∈ Finset.range c, Complex.normSq (b j) * discMoment R j := r2
  have hsub : Integrable (fun z => (A z * (starRingEnd ℂ) (A z) * (gw z : ℂ)).re - 2 * (A z * (starRingEnd ℂ) (P z) * (gw z : ℂ)).re) (volume.restrict (closedBall (0 : ℂ) R)) := hAA'.sub (hAP'.const_mul 2)
  rw [integral_add hsub hPP', integral_sub hAA' (hAP'.const_mul 2), integral_const_mul, r1', r2'] at hnn
  have e : ∀ z, (A z * (starRingEnd ℂ) (A z) * (gw z : ℂ)).re = Complex.normSq (A z) * gw z := fun z => by
    rw [Complex.mul_conj, ← Complex.ofReal_mul, Complex.ofReal_re]
  simp only [e] at hnn
  linarith

/-- Bessel's inequality in the plane -/
theorem plane_bessel (h : ∀ z, HasSum (fun j => b j * (starRingEnd ℂ) z ^ j) (A z)) (c : ℕ) :
    ENNReal.ofReal (Real.pi * ∑ j ∈ Finset.range c, Complex.normSq (b j) * j.factorial) ≤ ∫⁻ z, ENNReal.ofReal (Complex.normSq (A z) * gw z) := by
  have mA := series_measurable h
  have hR : ∀ R : ℕ, ENNReal.ofReal (∑ j ∈ Finset.range c, Complex.normSq (b j) * discMoment R j) ≤ ∫⁻ z, ENNReal.ofReal (Complex.normSq (A z) * gw z) := fun R => by
    have h1 := disc_bessel h R (by positivity) c
    obtain ⟨-, bA⟩ := series_bound h R (by positivity)
    have hi : Integrable (fun z => Complex.normSq (A z) * gw z) (volume.restrict (closedBall (0 : ℂ) R)) := by
      have hg : Measurable fun z => ((Complex.normSq (A z) * gw z : ℝ) : ℂ) :=
        Complex.measurable_ofReal.comp ((Complex.continuous_normSq.measurable.comp mA).mul gw_cont.measurable)
      have h2 := disc_integrable hg R ((∑' j, ‖b j‖ * (R : ℝ) ^ j) ^ 2) fun z hz => by
        rw [Complex.norm_real, Real.norm_of_nonneg (mul_nonneg (Complex.normSq_nonneg _) (gw_pos z).le), Complex.normSq_eq_norm_sq]
        have h1 := bA z hz
        have h3 := gw_le z
        have h4 := (gw_pos z).le
        calc ‖A z‖ ^ 2 * gw z ≤ (∑' j, ‖b j‖ * (R : ℝ) ^ j) ^ 2 * 1 := by gcongr
          _ = _ := mul_one _
      have h3 := h2.re
      exact h3
    have h2 := ofReal_integral_eq_lintegral_ofReal hi (Filter.Eventually.of_forall fun z => mul_nonneg (Complex.normSq_nonneg _) (gw_pos z).le)
    exact (ENNReal.ofReal_le_ofReal h1).trans (h2.le.trans (setLIntegral_le_lintegral _ _))
  have ht : Filter.Tendsto (fun R : ℕ => ENNReal.ofReal (∑ j ∈ Finset.range c, Complex.normSq (b j) * discMoment R j)) Filter.atTop
      (nhds (ENNReal.ofReal (Real.pi * ∑ j ∈ Finset.range c, Complex.normSq (b j) * j.factorial))) := by
    refine (ENNReal.continuous_ofReal.tendsto _).comp ?_
    rw [Finset.mul_sum]
    refine tendsto_finsetSum _ fun j _ => ?_
    have := (discMoment_tendsto j).const_mul (Complex.normSq (b j))
    rwa [show Complex.normSq (b j) * (Real.pi * j.factorial) = Real.pi * (Complex.normSq (b j) * j.factorial) by ring] at this
  exact le_of_tendsto' ht hR

end Verif.Lemmas.GInt
