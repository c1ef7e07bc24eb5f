/-
Averages over phases and Gaussian weights of complex amplitudes: the analytic part of the partial trace of a Gaussian state.
-/
import Mathlib.Analysis.Fourier.AddCircleMulti
import Mathlib.MeasureTheory.Integral.Gamma
import Mathlib.MeasureTheory.Measure.Lebesgue.Complex
import Mathlib.MeasureTheory.Measure.Haar.InnerProductSpace
import Mathlib.Analysis.Complex.Isometry

namespace Verif.Lemmas.FTr
open MeasureTheory

variable {τ : Type} [Fintype τ]

/-- the phases of a point of the torus -/
noncomputable def ph (x : UnitAddTorus τ) (l : τ) : ℂ := fourier 1 (x l)

theorem ph_norm (x : UnitAddTorus τ) (l : τ) : ‖ph x l‖ = 1 := by
  unfold ph
  rw [fourier_apply, Circle.norm_coe]

theorem ph_continuous (l : τ) : Continuous fun x : UnitAddTorus τ => ph x l := (fourier 1).continuous.comp (continuous_apply l)

theorem mFourier_ph (m n : τ → ℕ) (x : UnitAddTorus τ) :
    (∏ l, (starRingEnd ℂ) (ph x l) ^ m l) * ∏ l, ph x l ^ n l = UnitAddTorus.mFourier (fun l => (n l : ℤ) - m l) x := by
  unfold UnitAddTorus.mFourier
  rw [ContinuousMap.coe_mk, ← Finset.prod_mul_distrib]
  refine Finset.prod_congr rfl fun l _ => ?_
  have h1 : ∀ (k : ℕ), ph x l ^ k = fourier (k : ℤ) (x l) := by
    intro k
    induction k with
    | zero => simp
    | succ k ih =>
      rw [pow_succ, ih]
      push_cast
      rw [fourier_add]
      rfl
  beta_reduce
  rw [← map_pow, h1, h1, sub_eq_add_neg, add_comm, fourier_add, fourier_neg]

/-- the uniform measure on the torus -/
noncomputable def tor (τ : Type) [Fintype τ] : Measure (UnitAddTorus τ) := Measure.pi fun _ => AddCircle.haarAddCircle

instance : IsProbabilityMeasure (tor τ) := by unfold tor; infer_instance

theorem integral_mFourier [DecidableEq τ] (k : τ → ℤ) : ∫ x : UnitAddTorus τ, UnitAddTorus.mFourier k x ∂(tor τ) = if k = 0 then 1 else 0 := by
  have h := (orthonormal_iff_ite.mp (UnitAddTorus.orthonormal_mFourier (d := τ))) 0 k
  simp only [ContinuousMap.inner_toLp, ← UnitAddTorus.mFourier_neg, ← UnitAddTorus.mFourier_add, neg_zero, add_zero] at h
  exact h.trans (if_congr eq_comm rfl rfl)

theorem integrable_tor {E : Type*} [NormedAddCommGroup E] (f : UnitAddTorus τ → E) (hf : Continuous f) : Integrable f (tor τ) := by
  rw [← integrableOn_univ]
  exact hf.continuousOn.integrableOn_compact isCompact_univ

/-- averaging an absolutely convergent series over the phases leaves the diagonal terms -/
theorem torus_avg [DecidableEq τ] (a : (τ → ℕ) × (τ → ℕ) → ℂ) (ha : Summable fun p => ‖a p‖) (g : UnitAddTorus τ → ℂ)
    (hg : ∀ x, HasSum (fun p => a p * ((∏ l, (starRingEnd ℂ) (ph x l) ^ p.1 l) * ∏ l, ph x l ^ p.2 l)) (g x)) :
    HasSum (fun n : τ → ℕ => a (n, n)) (∫ x, g x ∂(tor τ)) := by
  have hF := hasSum_integral_of_summable_integral_norm (μ := tor τ)
    (F := fun p x => a p * ((∏ l, (starRingEnd ℂ) (ph x l) ^ p.1 l) * ∏ l, ph x l ^ p.2 l)) ?_ ?_
  · have e : (fun x => ∑' p, a p * ((∏ l, (starRingEnd ℂ) (ph x l) ^ p.1 l) * ∏ l, ph x l ^ p.2 l)) = g := funext fun x => (hg x).tsum_eq
    rw [e] at hF
    have e2 : ∀ p : (τ → ℕ) × (τ → ℕ), ∫ x, a p * ((∏ l, (starRingEnd ℂ) (ph x l) ^ p.1 l) * ∏ l, ph x l ^ p.2 l) ∂(tor τ) = if p.1 = p.2 then a p else 0 := by
      intro p
      simp only [mFourier_ph]
      rw [integral_const_mul, integral_mFourier]
      by_cases h : p.1 = p.2
      · rw [if_pos h, if_pos (by funext l; simp [h]), mul_one]
      · rw [if_neg h, if_neg, mul_zero]
        intro h'
        apply h
        funext l
        have := congrFun h' l
        simp only [Pi.zero_apply] at this
        omega
    simp only [e2] at hF
    have hinj : Function.Injective fun n : τ → ℕ => (n, n) := fun m n h => (Prod.ext_iff.mp h).1
    rw [← hinj.hasSum_iff] at hF
    · simpa [Function.comp_def] using hF
    · rintro ⟨m, n⟩ h
      rw [if_neg]
      intro h'
      have h'' : m = n := h'
      subst h''
      exact h ⟨m, rfl⟩
  · intro p
    simp only [mFourier_ph]
    exact (integrable_tor _ (UnitAddTorus.mFourier _).continuous).const_mul _
  · refine ha.congr fun p => ?_
    simp only [norm_mul, norm_prod, norm_pow, RCLike.norm_conj, ph_norm, one_pow, Finset.prod_const_one, mul_one]
    simp

/-- Gaussian moments of a complex amplitude -/
theorem moment (n : ℕ) : ∫ z : ℂ, ‖z‖ ^ (2 * n) / (n.factorial : ℝ) * Real.exp (-‖z‖ ^ 2) = Real.pi := by
  have h := Complex.integral_rpow_mul_exp_neg_rpow (p := 2) (q := 2 * n) (by norm_num) (by have : (0 : ℝ) ≤ n := Nat.cast_nonneg n; linarith)
  have e : ∀ z : ℂ, ‖z‖ ^ (2 * n) / (n.factorial : ℝ) * Real.exp (-‖z‖ ^ 2) = (1 / (n.factorial : ℝ)) * (‖z‖ ^ (2 * n : ℝ) * Real.exp (-‖z‖ ^ (2 : ℝ))) := by
    intro z
    rw [show (2 * n : ℝ) = ((2 * n : ℕ) : ℝ) by push_cast; ring, Real.rpow_natCast, show (2 : ℝ) = ((2 : ℕ) : ℝ) by norm_num, Real.rpow_natCast]
    ring
  simp only [e]
  rw [integral_const_mul, h, show ((2 * n + 2 : ℝ) / 2) = n + 1 by ring, Real.Gamma_nat_eq_factorial]
  have : (n.factorial : ℝ) ≠ 0 := by positivity
  field_simp

theorem moment_integrable (n : ℕ) : Integrable fun z : ℂ => ‖z‖ ^ (2 * n) / (n.factorial : ℝ) * Real.exp (-‖z‖ ^ 2) := by
  apply Integrable.of_integral_ne_zero
  rw [moment]
  exact Real.pi_ne_zero

theorem moments (n : τ → ℕ) : ∫⁻ β : τ → ℂ, ENNReal.ofReal ((∏ l, ‖β l‖ ^ (2 * n l) / ((n l).factorial : ℝ)) * Real.exp (-∑ l, ‖β l‖ ^ 2)) =
    ENNReal.ofReal (Real.pi ^ Fintype.card τ) := by
  have e : ∀ β : τ → ℂ, (∏ l, ‖β l‖ ^ (2 * n l) / ((n l).factorial : ℝ)) * Real.exp (-∑ l, ‖β l‖ ^ 2) =
      ∏ l, (‖β l‖ ^ (2 * n l) / ((n l).factorial : ℝ) * Real.exp (-‖β l‖ ^ 2)) := by
    intro β
    rw [Finset.prod_mul_distrib, ← Finset.sum_neg_distrib, Real.exp_sum]
  simp only [e]
  rw [← ofReal_integral_eq_lintegral_ofReal]
  · rw [integral_fintype_prod_volume_eq_prod (fun l (z : ℂ) => ‖z‖ ^ (2 * n l) / ((n l).factorial : ℝ) * Real.exp (-‖z‖ ^ 2))]
    simp only [moment, Finset.prod_const, Finset.card_univ]
  · exact Integrable.fintype_prod fun l => moment_integrable (n l)
  · exact Filter.Eventually.of_forall fun β => Finset.prod_nonneg fun l _ => by positivity

/-- multiplication by phases preserves the Lebesgue measure -/
theorem rotate (c : τ → Circle) : MeasurePreserving fun (β : τ → ℂ) l => (c l : ℂ) * β l := by
  refine volume_preserving_pi fun l => ?_
  exact (rotation (c l)).measurePreserving

/-- Integrating a function over all amplitudes with Gaussian weight, from its averages over the phases. -/
theorem radial (h : (τ → ℂ) → ℝ) (hc : Continuous h) (h0 : ∀ β, 0 ≤ h β) (s : (τ → ℕ) → ℝ) (hs : ∀ n, 0 ≤ s n)
    (havg : ∀ β : τ → ℂ, HasSum (fun n : τ → ℕ => s n * ∏ l, ‖β l‖ ^ (2 * n l) / ((n l).factorial : ℝ)) (∫ x, h (fun l => ph x l * β l) ∂(tor τ))) :
    ∫⁻ β : τ → ℂ, ENNReal.ofReal (h β * Real.exp (-∑ l, ‖β l‖ ^ 2)) = ∑' n, ENNReal.ofReal (s n * Real.pi ^ Fintype.card τ) := by
  have hcont : Continuous fun p : UnitAddTorus τ × (τ → ℂ) => fun l => ph p.1 l * p.2 l :=
    continuous_pi fun l => ((ph_continuous l).comp continuous_fst).mul ((continuous_apply l).comp continuous_snd)
  have hexp : ∀ β : τ → ℂ, ∀ x : UnitAddTorus τ, Real.exp (-∑ l, ‖ph x l * β l‖ ^ 2) = Real.exp (-∑ l, ‖β l‖ ^ 2) := by
    intro β x
    simp only [norm_mul, ph_norm, one_mul]
  have h1 : ∀ x : UnitAddTorus τ, ∫⁻ β : τ → ℂ, ENNReal.ofReal (h (fun l => ph x l * β l) * Real.exp (-∑ l, ‖β l‖ ^ 2)) =
      ∫⁻ β : τ → ℂ, ENNReal.ofReal (h β * Real.exp (-∑ l, ‖β l‖ ^ 2)) := by
    intro x
    have hr := rotate (fun l => AddCircle.toCircle (x l))
    rw [← hr.lintegral_comp (f := fun β => ENNReal.ofReal (h β * Real.exp (-∑ l, ‖β l‖ ^ 2)))]
    · refine lintegral_congr fun β => ?_
      have e : ∀ l, (AddCircle.toCircle (x l) : ℂ) = ph x l := by intro l; simp [ph, fourier_apply]
      simp only [e, hexp]
    · fun_prop
  calc ∫⁻ β : τ → ℂ, ENNReal.ofReal (h β * Real.exp (-∑ l, ‖β l‖ ^ 2))
      = ∫⁻ x, (∫⁻ β : τ → ℂ, ENNReal.ofReal (h (fun l => ph x l * β l) * Real.exp (-∑ l, ‖β l‖ ^ 2))) ∂(tor τ) := by
        simp only [h1, lintegral_const, measure_univ, mul_one]
    _ = ∫⁻ β : τ → ℂ, ∫⁻ x, ENNReal.ofReal (h (fun l => ph x l * β l) * Real.exp (-∑ l, ‖β l‖ ^ 2)) ∂(tor τ) := by
        apply lintegral_lintegral_swap
        apply Measurable.aemeasurable
        apply ENNReal.measurable_ofReal.comp
        apply Continuous.measurable
        exact (hc.comp hcont).mul (Real.continuous_exp.comp (by fun_prop))
    _ = ∫⁻ β : τ → ℂ, ∑' n, ENNReal.ofReal (s n) * ENNReal.ofReal ((∏ l, ‖β l‖ ^ (2 * n l) / ((n l).factorial : ℝ)) * Real.exp (-∑ l, ‖β l‖ ^ 2)) := by
        refine lintegral_congr fun β => ?_
        rw [← ofReal_integral_eq_lintegral_ofReal, integral_mul_const, ← (havg β).tsum_eq, ← tsum_mul_right, ENNReal.ofReal_tsum_of_nonneg]
        · refine tsum_congr fun n => ?_
          rw [← ENNReal.ofReal_mul (hs n), mul_assoc]
        · intro n
          exact mul_nonneg (mul_nonneg (hs n) (Finset.prod_nonneg fun l _ => by positivity)) (Real.exp_pos _).le
        · exact (havg β).summable.mul_right _
        · exact integrable_tor _ ((hc.comp (hcont.comp (Continuous.prodMk_left β))).mul continuous_const)
        · exact Filter.Eventually.of_forall fun x => mul_nonneg (h0 _) (Real.exp_pos _).le
    _ = ∑' n, ENNReal.ofReal (s n) * ENNReal.ofReal (Real.pi ^ Fintype.card τ) := by
        rw [lintegral_tsum]
        · refine tsum_congr fun n => ?_
          rw [lintegral_const_mul, moments]
          fun_prop
        · intro n
          fun_prop
    _ = _ := by
        refine tsum_congr fun n => ?_
        rw [ENNReal.ofReal_mul (hs n)]

end Verif.Lemmas.FTr
