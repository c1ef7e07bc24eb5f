/-
C88: Gaussian states as mixtures, and the law of the samplers for classical states.
-/
import Verif.Props.Coherent
import Verif.Props.FockReduced
import Verif.Props.FidelityFock
import Verif.Props.Tvd
import Verif.Lemmas.GaussMix
import Verif.Lemmas.GaussUnitaryNorm
import Mathlib.MeasureTheory.Integral.DominatedConvergence

set_option linter.style.longLine false
set_option linter.unusedVariables false

namespace Verif.Props
open Verif.Model Verif.Model.Symp Verif.Model.Conv Verif.Spec Verif.Lemmas Verif.Lemmas.Symp Verif.Lemmas.Heis Verif.Lemmas.FPar Verif.Lemmas.FockS Verif.Lemmas.GInt Matrix MeasureTheory

variable {N : ℕ} {hbar : ℝ}

theorem eSum_continuous {X σ : Type} [TopologicalSpace X] (l : List σ) : ∀ F : X → σ → List σ → ℂ, (∀ y ys, ys.length + 1 = l.length → Continuous fun x => F x y ys) → Continuous fun x => eSum (F x) l := by
  induction l with
  | nil => intro F _; simp only [eSum_nil]; exact continuous_const
  | cons a l ih =>
    intro F hF
    simp only [eSum_cons]
    exact (hF a l rfl).add (ih (fun x y ys => F x y (a :: ys)) fun y ys hy => hF y (a :: ys) (by simp; omega))

theorem lh_continuous {X σ : Type} [TopologicalSpace X] (A : σ → σ → ℂ) (D : X → σ → ℂ) (hD : ∀ k, Continuous fun x => D x k) (n : ℕ) : ∀ l : List σ, l.length ≤ n → Continuous fun x => lh (D x) A l := by
  induction n with
  | zero =>
    intro l hl
    obtain rfl := List.length_eq_zero_iff.mp (Nat.le_zero.mp hl)
    simp only [lh_nil]
    exact continuous_const
  | succ n ih =>
    intro l hl
    rcases l with _ | ⟨x, xs⟩
    · simp only [lh_nil]; exact continuous_const
    · simp only [lh_cons]
      rw [List.length_cons] at hl
      exact ((hD x).mul (ih xs (by omega))).add (eSum_continuous xs (fun z y ys => A x y * lh (D z) A ys) fun y ys hy => continuous_const.mul (ih ys (by omega)))

theorem cohAmp_summable (α : Fin N → ℂ) : Summable fun i : Fin N → ℕ => ‖cohAmp α i‖ := by
  have h1 : Summable fun i : Fin N → ℕ => ‖cohAmp (fun k => 2 * α k) i‖ ^ 2 := by
    refine (cohAmp_overlap (fun k => 2 * α k) fun k => 2 * α k).summable.norm.congr fun i => ?_
    rw [norm_mul, Complex.norm_conj, sq]
  have h2 : Summable fun i : Fin N → ℕ => ∏ k, (1 / 4 : ℝ) ^ i k := by
    have := hasSum_pi_prod (ι := Fin N) (f := fun k n => ((1 / 4 : ℂ)) ^ n) (a := fun k => (1 - 1 / 4 : ℂ)⁻¹) fun k => hasSum_geometric_of_norm_lt_one (by norm_num)
    refine this.summable.norm.congr fun i => ?_
    rw [norm_prod]
    exact Finset.prod_congr rfl fun k _ => by rw [norm_pow]; norm_num
  refine Summable.of_nonneg_of_le (fun _ => norm_nonneg _) (fun i => ?_) (h1.add h2)
  have e : cohAmp α i = cohAmp (fun k => 2 * α k) i * ∏ k, (1 / 2 : ℂ) ^ i k := by
    unfold cohAmp
    rw [← Finset.prod_mul_distrib]
    refine Finset.prod_congr rfl fun k _ => ?_
    have h2 : (starRingEnd ℂ) (2 : ℂ) = 2 := map_ofNat _ 2
    rw [map_mul, mul_pow, div_mul_eq_mul_div, mul_right_comm, ← mul_pow, h2]
    norm_num
  have e2 : ∏ k, (1 / 4 : ℝ) ^ i k = (∏ k, (1 / 2 : ℝ) ^ i k) ^ 2 := by
    rw [← Finset.prod_pow]
    refine Finset.prod_congr rfl fun k _ => ?_
    rw [← pow_mul, mul_comm, pow_mul]; norm_num
  rw [e, norm_mul, norm_prod, e2]
  simp only [norm_pow]
  have e3 : ‖(1 / 2 : ℂ)‖ = 1 / 2 := by norm_num
  rw [e3]
  nlinarith [sq_nonneg (‖cohAmp (fun k => 2 * α k) i‖ - ∏ k, (1 / 2 : ℝ) ^ i k), sq_nonneg ‖cohAmp (fun k => 2 * α k) i‖, sq_nonneg (∏ k, (1 / 2 : ℝ) ^ i k)]

/-- entries of a density matrix are bounded -/
theorem fockMatrix_bound (hh : 0 < hbar) {mu : ℕ → ℝ} {cov : ℕ → ℕ → ℝ} (hph : Physical (phase N N cov) hbar) {ρ : (Fin N → ℕ) → (Fin N → ℕ) → ℂ} (hρ : IsFockMatrix N mu cov hbar ρ) (i j : Fin N → ℕ) : ‖ρ i j‖ ≤ 2 := by
  have hp := fock_isPsd hh hph hρ
  have ht := Complex.hasSum_re (fockMatrix_trace hh hph hρ)
  have h1 : ∀ i, (ρ i i).re ≤ 1 := fun i => le_hasSum ht i fun k _ => (hp.diag k).1
  have := hp.bound i j
  have := h1 i
  have := h1 j
  linarith

/-- the entries of the density matrix depend continuously on the means -/
theorem fockMatrix_continuous {X : Type} [TopologicalSpace X] (hh : 0 < hbar) {cov : ℕ → ℕ → ℝ} (hph : Physical (phase N N cov) hbar) (mean : X → ℕ → ℝ) (hm : ∀ p, Continuous fun x => phaseVec N (mean x) p)
    (ρ : X → (Fin N → ℕ) → (Fin N → ℕ) → ℂ) (hρ : ∀ x, IsFockMatrix N (mean x) cov hbar (ρ x)) (i j : Fin N → ℕ) : Continuous fun x => ρ x i j := by
  have hsym := physical_sym hph
  have hQdet : (phase N N (Qmat N cov hbar)).det ≠ 0 := by rw [det_Q hsym hh, Complex.ofReal_ne_zero]; exact (det_W_pos hph hh).ne'
  obtain ⟨A, hA, -⟩ := Amat_correct N cov hbar hsym hQdet
  -- the same means, cut off
  have hred : ∀ x, IsFockMatrix N (fun a => if a < 2 * N then mean x a else 0) cov hbar (ρ x) := by
    intro x α
    have : husimiFn N (fun a => if a < 2 * N then mean x a else 0) cov hbar α = husimiFn N (mean x) cov hbar α := by
      unfold husimiFn
      have : phaseVec N (fun a => if a < 2 * N then mean x a else 0) = phaseVec N (mean x) := funext fun p => by simp [phaseVec, quad_lt]
      rw [this]
    rw [this]
    exact hρ x α
  have hmc : ∀ a, Continuous fun x => (if a < 2 * N then mean x a else 0 : ℝ) := by
    intro a
    by_cases ha : a < 2 * N
    · obtain ⟨p, rfl⟩ := exists_quad N a ha
      simp only [ha, if_true]
      exact hm p
    · simp only [ha, if_false]; exact continuous_const
  have hβ : ∀ k, Continuous fun x => complexToReal N (fun a => if a < 2 * N then mean x a else 0) hbar k := by
    intro k
    unfold complexToReal
    dsimp only
    have h1 : ∀ k, Continuous fun x => (((if k < 2 * N then mean x k else 0 : ℝ) : ℂ) + Complex.I * ((if N + k < 2 * N then mean x (N + k) else 0 : ℝ) : ℂ)) / (Real.sqrt (2 * hbar) : ℝ) := fun k =>
      ((Complex.continuous_ofReal.comp (hmc k)).add (continuous_const.mul (Complex.continuous_ofReal.comp (hmc (N + k))))).div_const _
    by_cases hk : k < N
    · simp only [if_pos hk]
      exact h1 k
    · simp only [if_neg hk]
      exact Complex.continuous_conj.comp (h1 (k - N))
  have hval : ∀ x, ρ x i j = ((husimiFn N (fun a => if a < 2 * N then mean x a else 0) cov hbar 0 : ℝ) : ℂ) *
      lh (fun k => (starRingEnd ℂ) (complexToReal N (fun a => if a < 2 * N then mean x a else 0) hbar k) - dot (2 * N) (A k) (complexToReal N (fun a => if a < 2 * N then mean x a else 0) hbar)) A
        (repeatedIndices (List.ofFn j ++ List.ofFn i)) / (Real.sqrt (((∏ k, ((j k).factorial : ℝ)) * ∏ k, ((i k).factorial : ℝ))) : ℝ) := by
    intro x
    obtain ⟨A', γ, pref, hA', -, -, hγ, -, hp, -, hF, hv⟩ := fock_setup (fun a => if a < 2 * N then mean x a else 0) hh hph
    obtain rfl : A = A' := Except.ok.inj (hA.symm.trans hA')
    rw [fockMatrix_unique (hred x) hF, hv, hγ]
    have h0 := (fockMatrix_vacuum hh hph hF).1
    rw [hv] at h0
    have hr : repeatedIndices (List.ofFn (0 : Fin N → ℕ) ++ List.ofFn (0 : Fin N → ℕ)) = [] := by
      have : List.ofFn (0 : Fin N → ℕ) ++ List.ofFn (0 : Fin N → ℕ) = List.replicate (N + N) 0 := by
        rw [← List.replicate_append_replicate]
        congr 1 <;> exact List.ofFn_const N 0
      rw [this]
      exact rep_replicate_zero _
    rw [hr, lh_nil] at h0
    have : (pref : ℂ) = ((husimiFn N (fun a => if a < 2 * N then mean x a else 0) cov hbar 0 : ℝ) : ℂ) := by
      rw [← h0]; simp
    rw [this]
  simp only [hval]
  refine Continuous.div_const (Continuous.mul (Complex.continuous_ofReal.comp ?_) (lh_continuous A _ (fun k => ?_) _ _ le_rfl)) _
  · unfold husimiFn
    dsimp only
    refine Continuous.div_const (Real.continuous_exp.comp (Continuous.div_const (Continuous.neg ?_) _)) _
    simp only [dotProduct, mulVec, Pi.sub_apply]
    have : ∀ p, Continuous fun x => phaseVec N (fun a => if a < 2 * N then mean x a else 0) p := fun p => hmc (quad N p)
    fun_prop
  · refine (Complex.continuous_conj.comp (hβ k)).sub ?_
    simp only [dot_sum]
    exact continuous_finset_sum _ fun a _ => continuous_const.mul (hβ a)

/-- **C88** A Gaussian state is the mixture of Gaussian states with normally distributed means: if `V = V₀ + W Wᵀ`, then `ρ = E ρ_z`, where `ρ_z` is the state with covariance matrix `V₀` and means `μ + W z` and `z` is a vector
of independent standard normal variables. -/
theorem gaussian_mixture {R : Type} [Fintype R] [DecidableEq R] (hh : 0 < hbar) (mu : ℕ → ℝ) (cov cov0 : ℕ → ℕ → ℝ) (hph : Physical (phase N N cov0) hbar) (W : Matrix (Fin N ⊕ Fin N) R ℝ)
    (hcov : phase N N cov = phase N N cov0 + W * Wᵀ) (mean : (R → ℝ) → ℕ → ℝ) (hm : ∀ z, phaseVec N (mean z) = phaseVec N mu + W *ᵥ z) (ρz : (R → ℝ) → (Fin N → ℕ) → (Fin N → ℕ) → ℂ)
    (hρz : ∀ z, IsFockMatrix N (mean z) cov0 hbar (ρz z)) (ρ : (Fin N → ℕ) → (Fin N → ℕ) → ℂ) (hρ : IsFockMatrix N mu cov hbar ρ) (i j : Fin N → ℕ) :
    Integrable (fun z => ρz z i j) (stdNormal R) ∧ ∫ z, ρz z i j ∂stdNormal R = ρ i j := by
  have hcont : ∀ i j, Continuous fun z => ρz z i j := fun i j => fockMatrix_continuous hh hph mean (fun p => by
    simp only [hm, Pi.add_apply, mulVec, dotProduct]
    fun_prop) ρz hρz i j
  have hint : ∀ i j, Integrable (fun z => ρz z i j) (stdNormal R) := fun i j =>
    Integrable.of_bound (hcont i j).measurable.aestronglyMeasurable 2 (Filter.Eventually.of_forall fun z => fockMatrix_bound hh hph (hρz z) i j)
  refine ⟨hint i j, ?_⟩
  have hF : IsFockMatrix N mu cov hbar fun i j => ∫ z, ρz z i j ∂stdNormal R := by
    intro α
    have hs := hasSum_integral_of_summable_integral_norm (μ := stdNormal R) (F := fun (p : (Fin N → ℕ) × (Fin N → ℕ)) z => cohAmp α p.1 * ρz z p.1 p.2 * (starRingEnd ℂ) (cohAmp α p.2))
      (fun p => ((hint p.1 p.2).const_mul _).mul_const _) (by
        have hb : Summable fun p : (Fin N → ℕ) × (Fin N → ℕ) => 2 * (‖cohAmp α p.1‖ * ‖cohAmp α p.2‖) :=
          ((cohAmp_summable α).mul_of_nonneg (cohAmp_summable α) (fun _ => norm_nonneg _) fun _ => norm_nonneg _).mul_left 2
        refine Summable.of_nonneg_of_le (fun p => integral_nonneg fun z => norm_nonneg _) (fun p => ?_) hb
        have : ∀ z, ‖cohAmp α p.1 * ρz z p.1 p.2 * (starRingEnd ℂ) (cohAmp α p.2)‖ ≤ 2 * (‖cohAmp α p.1‖ * ‖cohAmp α p.2‖) := fun z => by
          rw [norm_mul, norm_mul, Complex.norm_conj]
          have h2 := fockMatrix_bound hh hph (hρz z) p.1 p.2
          have h3 : 0 ≤ ‖cohAmp α p.1‖ * ‖cohAmp α p.2‖ := by positivity
          nlinarith
        calc ∫ z, ‖cohAmp α p.1 * ρz z p.1 p.2 * (starRingEnd ℂ) (cohAmp α p.2)‖ ∂stdNormal R ≤ ∫ z, 2 * (‖cohAmp α p.1‖ * ‖cohAmp α p.2‖) ∂stdNormal R :=
              integral_mono ((((hint p.1 p.2).const_mul _).mul_const _).norm) (integrable_const _) this
          _ = _ := by simp)
    refine hs_eq hs (fun p => ?_) ?_
    · rw [integral_mul_const, integral_const_mul]
    have e1 : ∀ z, ∑' p : (Fin N → ℕ) × (Fin N → ℕ), cohAmp α p.1 * ρz z p.1 p.2 * (starRingEnd ℂ) (cohAmp α p.2) = ((Real.exp (∑ k, Complex.normSq (α k)) * husimiFn N (mean z) cov0 hbar α : ℝ) : ℂ) := fun z => (hρz z α).tsum_eq
    simp only [e1]
    rw [integral_complex_ofReal, integral_const_mul]
    congr 2
    unfold husimiFn
    dsimp only
    have hWpd : (phase N N cov0 + (hbar / 2) • 1 : Matrix (Fin N ⊕ Fin N) (Fin N ⊕ Fin N) ℝ).PosDef := fock_W_posDef hph hh
    have hWi := hWpd.inv
    have hWu : IsUnit (phase N N cov0 + (hbar / 2) • 1 : Matrix (Fin N ⊕ Fin N) (Fin N ⊕ Fin N) ℝ).det := isUnit_iff_ne_zero.mpr hWpd.det_pos.ne'
    have hc := gauss_conv _ hWi W (cohQuad hbar α - phaseVec N mu)
    obtain ⟨-, hK, hdet⟩ := woodbury _ hWi W
    have e2 : ∀ z, cohQuad hbar α - phaseVec N (mean z) = cohQuad hbar α - phaseVec N mu - W *ᵥ z := fun z => by rw [hm, sub_sub]
    simp only [e2]
    rw [integral_div, hc, nonsing_inv_nonsing_inv _ hWu]
    have e3 : phase N N cov0 + (hbar / 2) • 1 + W * Wᵀ = phase N N cov + (hbar / 2) • 1 := by rw [hcov]; abel
    rw [nonsing_inv_nonsing_inv _ hWu, e3] at hdet
    rw [e3, div_div, ← Real.sqrt_mul hK.det_pos.le]
    congr 2
    rw [← hdet, det_smul, det_smul, det_nonsing_inv, Ring.inverse_eq_inv']
    have := hWpd.det_pos.ne'
    field_simp
  exact (congrFun (congrFun (fockMatrix_unique hF hρ) i) j)

end Verif.Props
