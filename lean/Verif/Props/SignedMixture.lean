/-
C102: every Gaussian matrix in the Fock basis, also of an unphysical covariance matrix, is a signed mixture of the columns of a Gaussian unitary.
-/
import Verif.Props.FidelityLaws
import Verif.Props.Mixture
import Mathlib.Analysis.Complex.LocallyUniformLimit
import Mathlib.Analysis.Analytic.IsolatedZeros
import Mathlib.Analysis.Complex.RealDeriv
import Mathlib.Analysis.SpecialFunctions.Complex.Analytic
import Mathlib.Analysis.Complex.CauchyIntegral

set_option linter.unusedSectionVars false
set_option linter.unusedSimpArgs false

namespace Verif.Props
open Verif.Model Verif.Model.Symp Verif.Model.Conv Verif.Model.Dec Verif.Model.Fid Verif.Spec Verif.Lemmas Verif.Lemmas.Symp Verif.Lemmas.Heis Verif.Lemmas.FPar Verif.Lemmas.Uhl Matrix

section signed
variable {I : Type} [DecidableEq I] {V : I → I → ℂ}

theorem l1_col (hV : IsUnitaryFock V) {u : I → ℂ} (hu : Summable fun m => ‖u m‖) (b : I) : Summable (fun m => ‖u m‖ * ‖V m b‖) ∧ ∑' m, ‖u m‖ * ‖V m b‖ ≤ ∑' m, ‖u m‖ := by
  have hle : ∀ m, ‖u m‖ * ‖V m b‖ ≤ ‖u m‖ := fun m => mul_le_of_le_one_right (norm_nonneg _) (unitary_le_one hV m b)
  have hs := Summable.of_nonneg_of_le (fun m => by positivity) hle hu
  exact ⟨hs, hs.tsum_le_tsum hle hu⟩

/-- a signed mixture of the columns of `V`, multiplied by summable row vectors -/
theorem signed_rows₂ {u v : I → ℂ} {C D : ℝ} (hu' : ∀ b, Summable (fun m => ‖u m‖ * ‖V m b‖) ∧ ∑' m, ‖u m‖ * ‖V m b‖ ≤ C) (hv' : ∀ b, Summable (fun m => ‖v m‖ * ‖V m b‖) ∧ ∑' m, ‖v m‖ * ‖V m b‖ ≤ D) (p : I → ℝ) (hs : Summable fun m => |p m|) (ρ : I → I → ℂ)
    (hρ : ∀ i j, HasSum (fun b => ((p b : ℝ) : ℂ) * (V i b * (starRingEnd ℂ) (V j b))) (ρ i j)) :
    HasSum (fun x : I × I => u x.1 * ρ x.1 x.2 * (starRingEnd ℂ) (v x.2)) (∑' b, ((p b : ℝ) : ℂ) * ((∑' m, u m * V m b) * (starRingEnd ℂ) (∑' m, v m * V m b))) := by
  have hn : ∀ b (x : I × I), ‖((p b : ℝ) : ℂ) * (u x.1 * V x.1 b * (starRingEnd ℂ) (v x.2 * V x.2 b))‖ = |p b| * ((‖u x.1‖ * ‖V x.1 b‖) * (‖v x.2‖ * ‖V x.2 b‖)) := by
    intro b x
    rw [norm_mul, norm_mul, norm_mul, RCLike.norm_conj, norm_mul, Complex.norm_real, Real.norm_eq_abs]
  have hfib : ∀ b, Summable fun x : I × I => (‖u x.1‖ * ‖V x.1 b‖) * (‖v x.2‖ * ‖V x.2 b‖) := fun b =>
    (hu' b).1.mul_of_nonneg (hv' b).1 (fun m => by positivity) fun m => by positivity
  have hsum : Summable fun y : I × (I × I) => ((p y.1 : ℝ) : ℂ) * (u y.2.1 * V y.2.1 y.1 * (starRingEnd ℂ) (v y.2.2 * V y.2.2 y.1)) := by
    apply Summable.of_norm
    rw [summable_prod_of_nonneg (fun y => norm_nonneg _)]
    refine ⟨fun b => ?_, ?_⟩
    · simp only [hn]
      exact (hfib b).mul_left _
    · simp only [hn]
      refine Summable.of_nonneg_of_le (fun b => tsum_nonneg fun x => by positivity) (fun b => ?_) (hs.mul_right (C * D))
      rw [tsum_mul_left, ← (hu' b).1.tsum_mul_tsum (hv' b).1 (hfib b)]
      have h3 : 0 ≤ C := (tsum_nonneg fun m => by positivity).trans (hu' b).2
      have h4 : 0 ≤ ∑' m, ‖v m‖ * ‖V m b‖ := tsum_nonneg fun m => by positivity
      exact mul_le_mul_of_nonneg_left (mul_le_mul (hu' b).2 (hv' b).2 h4 h3) (abs_nonneg _)
  have hs1 : ∀ b, Summable fun m => ‖u m * V m b‖ := fun b => (hu' b).1.congr fun m => (norm_mul _ _).symm
  have hs2 : ∀ b, Summable fun m => ‖v m * V m b‖ := fun b => (hv' b).1.congr fun m => (norm_mul _ _).symm
  have hb : ∀ b, HasSum (fun x : I × I => ((p b : ℝ) : ℂ) * (u x.1 * V x.1 b * (starRingEnd ℂ) (v x.2 * V x.2 b)))
      (((p b : ℝ) : ℂ) * ((∑' m, u m * V m b) * (starRingEnd ℂ) (∑' m, v m * V m b))) := by
    intro b
    have h1 := (hs1 b).of_norm.hasSum
    have h2 := Complex.hasSum_conj'.mpr (hs2 b).of_norm.hasSum
    have h3 : Summable fun x : I × I => (u x.1 * V x.1 b) * (starRingEnd ℂ) (v x.2 * V x.2 b) := by
      apply Summable.of_norm
      refine (hfib b).congr fun x => ?_
      rw [norm_mul, RCLike.norm_conj, norm_mul, norm_mul]
    exact (h1.mul h2 h3).mul_left _
  have htot := hsum.hasSum
  have e1 := htot.prod_fiberwise hb
  rw [← e1.tsum_eq] at htot
  have hsw := (Equiv.prodComm (I × I) I).hasSum_iff.mpr htot
  refine hsw.prod_fiberwise fun x => ?_
  have h5 := (hρ x.1 x.2).mul_left (u x.1 * (starRingEnd ℂ) (v x.2))
  have e : u x.1 * ρ x.1 x.2 * (starRingEnd ℂ) (v x.2) = u x.1 * (starRingEnd ℂ) (v x.2) * ρ x.1 x.2 := by ring
  rw [e]
  refine h5.congr_fun fun b => ?_
  simp only [Function.comp_apply, Equiv.prodComm_apply, Prod.swap_prod_mk, map_mul]
  ring

theorem signed_rows (hV : IsUnitaryFock V) {u v : I → ℂ} (hu : Summable fun m => ‖u m‖) (hv : Summable fun m => ‖v m‖) (p : I → ℝ) (hs : Summable fun m => |p m|) (ρ : I → I → ℂ)
    (hρ : ∀ i j, HasSum (fun b => ((p b : ℝ) : ℂ) * (V i b * (starRingEnd ℂ) (V j b))) (ρ i j)) :
    HasSum (fun x : I × I => u x.1 * ρ x.1 x.2 * (starRingEnd ℂ) (v x.2)) (∑' b, ((p b : ℝ) : ℂ) * ((∑' m, u m * V m b) * (starRingEnd ℂ) (∑' m, v m * V m b))) :=
  signed_rows₂ (fun b => l1_col hV hu b) (fun b => l1_col hV hv b) p hs ρ hρ

theorem signed_summable (hV : IsUnitaryFock V) {p : I → ℝ} (hs : Summable fun m => |p m|) (i j : I) : Summable fun b => ((p b : ℝ) : ℂ) * (V i b * (starRingEnd ℂ) (V j b)) := by
  apply Summable.of_norm
  refine Summable.of_nonneg_of_le (fun b => norm_nonneg _) (fun b => ?_) hs
  rw [norm_mul, norm_mul, RCLike.norm_conj, Complex.norm_real, Real.norm_eq_abs]
  exact mul_le_of_le_one_right (abs_nonneg _) (mul_le_one₀ (unitary_le_one hV i b) (norm_nonneg _) (unitary_le_one hV j b))

/-- Bessel: the weights of the columns are summable -/
theorem weights_summable (hV : IsUnitaryFock V) {u : I → ℂ} (hu : Summable fun m => ‖u m‖) : Summable fun b => ‖∑' m, u m * V m b‖ ^ 2 := by
  obtain ⟨bV, hbV⟩ := exists_basis hV
  have hu2 : Summable fun m => ‖(starRingEnd ℂ) (u m)‖ ^ 2 := by
    have h1 := hu.mul_of_nonneg hu (fun k => norm_nonneg _) fun k => norm_nonneg _
    have h2 := h1.comp_injective (i := fun k : I => (k, k)) fun a b hab => (Prod.mk.inj hab).1
    exact h2.congr fun k => by rw [RCLike.norm_conj, pow_two]; rfl
  have h := bV.orthonormal.inner_products_summable (toL2 _ hu2)
  refine h.congr fun b => ?_
  have e : inner ℂ (toL2 _ hu2) (bV b) = ∑' m, u m * V m b := by
    rw [← (inner_fun _ _).tsum_eq]
    refine tsum_congr fun m => ?_
    rw [toL2_apply, Complex.conj_conj, hbV]
  rw [← e, norm_inner_symm]

end signed

section analytic
variable {n : Type} [Fintype n] [DecidableEq n]

theorem det_analytic (A : ℝ → Matrix n n ℝ) (z : ℝ) (h : ∀ p q, AnalyticAt ℝ (fun y => A y p q) z) : AnalyticAt ℝ (fun y => (A y).det) z := by
  simp only [det_apply']
  refine Finset.analyticAt_fun_sum _ fun σ _ => ?_
  exact analyticAt_const.mul (Finset.analyticAt_fun_prod _ fun i _ => h _ _)

theorem inv_analytic (A : ℝ → Matrix n n ℝ) (z : ℝ) (h : ∀ p q, AnalyticAt ℝ (fun y => A y p q) z) (h0 : (A z).det ≠ 0) (p q : n) : AnalyticAt ℝ (fun y => (A y)⁻¹ p q) z := by
  have e : (fun y => (A y)⁻¹ p q) = fun y => (A y).det⁻¹ * ((A y).updateRow q (Pi.single p 1)).det := by
    funext y
    rw [Matrix.inv_def, Matrix.smul_apply, adjugate_apply, Ring.inverse_eq_inv', smul_eq_mul]
  rw [e]
  refine ((det_analytic A z h).fun_inv h0).mul (det_analytic _ z fun i j => ?_)
  by_cases hi : i = q
  · subst hi
    simp only [updateRow_self]
    exact analyticAt_const
  · simp only [updateRow_ne hi]
    exact h i j

/-- the logarithm of a Gaussian function -/
theorem gauss_analytic (A : ℝ → Matrix n n ℝ) (z c : ℝ) (d : n → ℝ) (h : ∀ p q, AnalyticAt ℝ (fun y => A y p q) z) (h0 : 0 < (A z).det) (hc : 0 < (c • A z).det) :
    AnalyticAt ℝ (fun y => Real.exp (-(d ⬝ᵥ (A y)⁻¹ *ᵥ d) / 2 - Real.log (c • A y).det / 2)) z := by
  have h1 : AnalyticAt ℝ (fun y => d ⬝ᵥ (A y)⁻¹ *ᵥ d) z := by
    simp only [dotProduct, mulVec]
    refine Finset.analyticAt_fun_sum _ fun p _ => analyticAt_const.mul (Finset.analyticAt_fun_sum _ fun q _ => (inv_analytic A z h h0.ne' p q).mul analyticAt_const)
  have h2 : AnalyticAt ℝ (fun y => Real.log (c • A y).det) z := (det_analytic (fun y => c • A y) z fun p q => by
    simp only [Matrix.smul_apply, smul_eq_mul]
    exact analyticAt_const.mul (h p q)).log hc
  have h3 : AnalyticAt ℝ (fun y => -(d ⬝ᵥ (A y)⁻¹ *ᵥ d) / 2 - Real.log (c • A y).det / 2) z := by
    have h4 := (h1.fun_mul (analyticAt_const (v := (-1 / 2 : ℝ)))).fun_add (h2.fun_mul (analyticAt_const (v := (-1 / 2 : ℝ))))
    refine h4.congr (Filter.Eventually.of_forall fun y => ?_)
    show _ * (-1 / 2 : ℝ) + _ * (-1 / 2 : ℝ) = _
    ring
  exact AnalyticAt.rexp' h3

/-- a power series in one of the variables, with absolutely summable coefficients -/
theorem series_analytic {ι : Type} (b : ι → ℝ) (hb : Summable fun m => |b m|) (e : ι → ℕ) (z : ℝ) (hz : z ∈ Set.Ioo (-1 : ℝ) 1) : AnalyticAt ℝ (fun y => ∑' m, y ^ e m * b m) z := by
  have hU : IsOpen (Metric.ball (0 : ℂ) 1) := Metric.isOpen_ball
  have hd : DifferentiableOn ℂ (fun w : ℂ => ∑' m, w ^ e m * (b m : ℂ)) (Metric.ball 0 1) := by
    refine Complex.differentiableOn_tsum_of_summable_norm hb (fun m => by fun_prop) hU fun m w hw => ?_
    rw [norm_mul, norm_pow, Complex.norm_real, Real.norm_eq_abs]
    have hw1 : ‖w‖ ≤ 1 := by rw [mem_ball_zero_iff] at hw; exact hw.le
    exact mul_le_of_le_one_left (abs_nonneg _) (pow_le_one₀ (norm_nonneg _) hw1)
  have hzU : (z : ℂ) ∈ Metric.ball (0 : ℂ) 1 := by
    rw [mem_ball_zero_iff, Complex.norm_real, Real.norm_eq_abs, abs_lt]; exact hz
  have ha := (hd.analyticOnNhd hU _ hzU).re_ofReal
  refine ha.congr (Filter.Eventually.of_forall fun y => ?_)
  have : (∑' m, ((y : ℂ)) ^ e m * (b m : ℂ)) = ((∑' m, y ^ e m * b m : ℝ) : ℂ) := by
    rw [Complex.ofReal_tsum]
    exact tsum_congr fun m => by push_cast; rfl
  show (∑' m, ((y : ℂ)) ^ e m * (b m : ℂ)).re = _
  rw [this, Complex.ofReal_re]

end analytic

variable {N : ℕ}

theorem abs_thermal {ν : ℝ} (hν : 0 < ν) (n : ℕ) : thermalProb ((ν - 1) / 2) n = (1 - (ν - 1) / (ν + 1)) * ((ν - 1) / (ν + 1)) ^ n := by
  have h1 : ν + 1 ≠ 0 := by linarith
  rw [thermalProb]
  have e1 : (ν - 1) / 2 + 1 = (ν + 1) / 2 := by ring
  have e2 : 1 - (ν - 1) / (ν + 1) = 2 / (ν + 1) := by field_simp; ring
  rw [e1, e2, pow_succ, div_mul_eq_div_div, ← div_pow, div_div_div_cancel_right₀ (by norm_num)]
  field_simp

/-- the symplectic eigenvalue of a signed geometric distribution with ratio `x` -/
noncomputable def nuX (x : ℝ) : ℝ := (1 + x) / (1 - x)

theorem nuX_pos {x : ℝ} (h : x ∈ Set.Ioo (-1 : ℝ) 1) : 0 < nuX x := div_pos (by linarith [h.1]) (by linarith [h.2])

theorem nuX_one {x : ℝ} (h : x ∈ Set.Ioo (-1 : ℝ) 1) (h0 : 0 ≤ x) : 1 ≤ nuX x := by
  rw [nuX, one_le_div (by linarith [h.2])]; linarith

theorem nuX_thermal {x : ℝ} (h : x ∈ Set.Ioo (-1 : ℝ) 1) (n : ℕ) : thermalProb ((nuX x - 1) / 2) n = (1 - x) * x ^ n := by
  have h1 : 1 - x ≠ 0 := by linarith [h.2]
  have e : (nuX x - 1) / (nuX x + 1) = x := by
    rw [nuX]; field_simp; ring
  rw [abs_thermal (nuX_pos h), e]

/-- the matrix `V + ħ/2` of the Husimi function -/
noncomputable def gaussW (S : Matrix (Fin N ⊕ Fin N) (Fin N ⊕ Fin N) ℝ) (hbar : ℝ) (ν : Fin N → ℝ) : Matrix (Fin N ⊕ Fin N) (Fin N ⊕ Fin N) ℝ :=
  (hbar / 2) • (S * diagonal (Sum.elim ν ν) * Sᵀ) + (hbar / 2) • 1

theorem gaussW_posDef (S : Matrix (Fin N ⊕ Fin N) (Fin N ⊕ Fin N) ℝ) {hbar : ℝ} (hh : 0 < hbar) {ν : Fin N → ℝ} (hν : ∀ k, 0 < ν k) : (gaussW S hbar ν).PosDef := by
  refine PosDef.posSemidef_add ?_ ?_
  · refine PosSemidef.smul ?_ (by positivity)
    have h1 : (diagonal (Sum.elim ν ν)).PosSemidef := by
      refine PosSemidef.diagonal fun p => ?_
      rcases p with p | p <;> exact (hν p).le
    have := h1.mul_mul_conjTranspose_same S
    rwa [conjTranspose_eq_transpose_of_trivial] at this
  · exact PosDef.one.smul (by positivity)

/-- the Husimi function, with the logarithm of the determinant -/
theorem husimi_log (mu : ℕ → ℝ) (cov : ℕ → ℕ → ℝ) (hbar : ℝ) (hh : 0 < hbar) (S : Matrix (Fin N ⊕ Fin N) (Fin N ⊕ Fin N) ℝ) (ν : Fin N → ℝ) (hν : ∀ k, 0 < ν k)
    (hcov : phase N N cov = (hbar / 2) • (S * diagonal (Sum.elim ν ν) * Sᵀ)) (α : Fin N → ℂ) :
    husimiFn N mu cov hbar α = Real.exp (-((cohQuad hbar α - phaseVec N mu) ⬝ᵥ (gaussW S hbar ν)⁻¹ *ᵥ (cohQuad hbar α - phaseVec N mu)) / 2 - Real.log ((1 / hbar) • gaussW S hbar ν).det / 2) := by
  have hd : 0 < ((1 / hbar) • gaussW S hbar ν).det := ((gaussW_posDef S hh hν).smul (by positivity)).det_pos
  rw [husimiFn, hcov]
  change Real.exp (-((cohQuad hbar α - phaseVec N mu) ⬝ᵥ (gaussW S hbar ν)⁻¹ *ᵥ (cohQuad hbar α - phaseVec N mu)) / 2) / Real.sqrt ((1 / hbar) • gaussW S hbar ν).det = _
  rw [Real.exp_sub]
  congr 1
  rw [Real.exp_half, Real.exp_log hd]

/-- the signed weights -/
noncomputable def wtX (x : Fin N → ℝ) (m : Fin N → ℕ) : ℝ := ∏ k, (1 - x k) * x k ^ m k

theorem wtX_update (x : Fin N → ℝ) (k : Fin N) (y : ℝ) (m : Fin N → ℕ) :
    wtX (Function.update x k y) m = (1 - y) * (y ^ m k * ∏ j ∈ Finset.univ.erase k, (1 - x j) * x j ^ m j) := by
  rw [wtX, ← Finset.mul_prod_erase Finset.univ _ (Finset.mem_univ k), Function.update_self, mul_assoc]
  congr 2
  refine Finset.prod_congr rfl fun j hj => ?_
  rw [Function.update_of_ne (Finset.ne_of_mem_erase hj)]

/-- the absolute values of a signed geometric distribution -/
theorem abs_thermal_sum {ν : ℝ} (hν : 0 < ν) : HasSum (fun n => |thermalProb ((ν - 1) / 2) n|) (max 1 ν⁻¹) := by
  have h1 : (ν - 1) / (ν + 1) < 1 := by rw [div_lt_one (by linarith)]; linarith
  have h2 : -1 < (ν - 1) / (ν + 1) := by rw [lt_div_iff₀ (by linarith)]; linarith
  have h3 : |(ν - 1) / (ν + 1)| < 1 := abs_lt.mpr ⟨h2, h1⟩
  have h4 := (hasSum_geometric_of_lt_one (abs_nonneg _) h3).mul_left (1 - (ν - 1) / (ν + 1))
  have e : (1 - (ν - 1) / (ν + 1)) * (1 - |(ν - 1) / (ν + 1)|)⁻¹ = max 1 ν⁻¹ := by
    have h5 : ν + 1 ≠ 0 := by linarith
    rcases le_total 1 ν with h | h
    · rw [abs_of_nonneg (div_nonneg (by linarith) (by linarith)), max_eq_left (inv_le_one_of_one_le₀ h), mul_inv_cancel₀ (by linarith)]
    · rw [abs_of_nonpos (div_nonpos_of_nonpos_of_nonneg (by linarith) (by linarith)), max_eq_right ((one_le_inv₀ hν).mpr h)]
      have e1 : 1 - (ν - 1) / (ν + 1) = 2 / (ν + 1) := by field_simp; ring
      have e2 : 1 - -((ν - 1) / (ν + 1)) = 2 * ν / (ν + 1) := by field_simp; ring
      rw [e1, e2]
      field_simp
  rw [e] at h4
  refine h4.congr_fun fun n => ?_
  rw [abs_thermal hν, abs_mul, abs_pow, abs_of_pos (a := 1 - (ν - 1) / (ν + 1)) (by linarith)]

theorem abs_weights_sum {ν : Fin N → ℝ} (hν : ∀ k, 0 < ν k) : HasSum (fun m : Fin N → ℕ => |∏ k, thermalProb ((ν k - 1) / 2) (m k)|) (∏ k, max 1 (ν k)⁻¹) := by
  rw [← Complex.hasSum_ofReal]
  have h := hasSum_pi_prod (ι := Fin N) (f := fun k n => ((|thermalProb ((ν k - 1) / 2) n| : ℝ) : ℂ)) (a := fun k => ((max 1 (ν k)⁻¹ : ℝ) : ℂ)) fun k => Complex.hasSum_ofReal.mpr (abs_thermal_sum (hν k))
  rw [Complex.ofReal_prod]
  refine h.congr_fun fun m => ?_
  rw [Finset.abs_prod, Complex.ofReal_prod]

section continuation
variable {S : Matrix (Fin N ⊕ Fin N) (Fin N ⊕ Fin N) ℝ} {β : Fin N → ℂ} {V : (Fin N → ℕ) → (Fin N → ℕ) → ℂ}

/-- the identity for physical states -/
theorem signed_base (hS : S ∈ symplecticGroup (Fin N) ℝ) (hV : IsGaussianUnitary S β V) (hbar : ℝ) (hh : 0 < hbar) (mu : ℕ → ℝ)
    (hmu : ∀ k : Fin N, mu k = Real.sqrt (2 * hbar) * (β k).re ∧ mu (N + k) = Real.sqrt (2 * hbar) * (β k).im) (α : Fin N → ℂ) (x : Fin N → ℝ) (hx : ∀ k, x k ∈ Set.Ioo (-1 : ℝ) 1) (h0 : ∀ k, 0 ≤ x k) :
    ∑' m, wtX x m * ‖∑' i, cohAmp α i * V i m‖ ^ 2 = Real.exp (∑ k, Complex.normSq (α k)) *
      Real.exp (-((cohQuad hbar α - phaseVec N mu) ⬝ᵥ (gaussW S hbar fun k => nuX (x k))⁻¹ *ᵥ (cohQuad hbar α - phaseVec N mu)) / 2 - Real.log ((1 / hbar) • gaussW S hbar fun k => nuX (x k)).det / 2) := by
  obtain ⟨cov, hcov⟩ := exists_cov ((hbar / 2) • (S * diagonal (Sum.elim (fun k => nuX (x k)) fun k => nuX (x k)) * Sᵀ))
  have hsp : SympSpectrum (phase N N cov) fun k => hbar / 2 * nuX (x k) := by
    rw [hcov]
    exact sympSpectrum_smul _ _ _ (by positivity) ⟨fun k => nuX_pos (hx k), S, hS, rfl⟩
  have hph : Physical (phase N N cov) hbar := (physical_iff_spectrum _ hbar hh.le _ hsp).mpr fun k => by
    have := nuX_one (hx k) (h0 k)
    nlinarith
  obtain ⟨ρ, _, _, -, hρ, -⟩ := fock_gram (N := N) mu hh hph
  have h1 : ∀ k, 1 ≤ nuX (x k) := fun k => nuX_one (hx k) (h0 k)
  have hth := gaussian_thermal hS hV hbar hh _ h1 mu cov hcov hmu ρ hρ
  have hwt : (fun m : Fin N → ℕ => ∏ k, thermalProb ((nuX (x k) - 1) / 2) (m k)) = wtX x := by
    funext m
    exact Finset.prod_congr rfl fun k _ => nuX_thermal (hx k) _
  have hsum : Summable fun m => |wtX x m| := by
    rw [← hwt]
    exact (abs_weights_sum fun k => nuX_pos (hx k)).summable
  have hth' : ∀ i j, HasSum (fun m => ((wtX x m : ℝ) : ℂ) * (V i m * (starRingEnd ℂ) (V j m))) (ρ i j) := fun i j => by
    have := hth i j
    rw [← hwt]; exact this
  have h2 := signed_rows hV.unitary (cohAmp_summable α) (cohAmp_summable α) _ hsum ρ hth'
  have h3 := (hρ α).unique h2
  rw [← husimi_log mu cov hbar hh S _ (fun k => nuX_pos (hx k)) hcov α]
  apply Complex.ofReal_injective
  rw [h3, Complex.ofReal_tsum]
  refine tsum_congr fun m => ?_
  rw [Complex.mul_conj, Complex.normSq_eq_norm_sq]
  push_cast; rfl

theorem signed_step (hV : IsUnitaryFock V) (hbar : ℝ) (hh : 0 < hbar) (d : Fin N ⊕ Fin N → ℝ) (α : Fin N → ℂ) (c : ℝ) (x : Fin N → ℝ) (hx : ∀ k, x k ∈ Set.Ioo (-1 : ℝ) 1) (k : Fin N)
    (hy : ∀ y ∈ Set.Ioo (0 : ℝ) 1, ∑' m, wtX (Function.update x k y) m * ‖∑' i, cohAmp α i * V i m‖ ^ 2 =
      c * Real.exp (-(d ⬝ᵥ (gaussW S hbar fun j => nuX (Function.update x k y j))⁻¹ *ᵥ d) / 2 - Real.log ((1 / hbar) • gaussW S hbar fun j => nuX (Function.update x k y j)).det / 2)) :
    ∑' m, wtX x m * ‖∑' i, cohAmp α i * V i m‖ ^ 2 =
      c * Real.exp (-(d ⬝ᵥ (gaussW S hbar fun j => nuX (x j))⁻¹ *ᵥ d) / 2 - Real.log ((1 / hbar) • gaussW S hbar fun j => nuX (x j)).det / 2) := by
  have hup : ∀ y ∈ Set.Ioo (-1 : ℝ) 1, ∀ j, Function.update x k y j ∈ Set.Ioo (-1 : ℝ) 1 := by
    intro y hy1 j
    by_cases hj : j = k
    · subst hj; rw [Function.update_self]; exact hy1
    · rw [Function.update_of_ne hj]; exact hx j
  have hf : AnalyticOnNhd ℝ (fun y => ∑' m, wtX (Function.update x k y) m * ‖∑' i, cohAmp α i * V i m‖ ^ 2) (Set.Ioo (-1 : ℝ) 1) := by
    intro z hz
    set b : (Fin N → ℕ) → ℝ := fun m => (∏ j ∈ Finset.univ.erase k, (1 - x j) * x j ^ m j) * ‖∑' i, cohAmp α i * V i m‖ ^ 2 with hb
    have hbs : Summable fun m => |b m| := by
      refine Summable.of_nonneg_of_le (fun m => abs_nonneg _) (fun m => ?_) ((weights_summable hV (cohAmp_summable α)).mul_left (∏ j ∈ Finset.univ.erase k, (2 : ℝ)))
      rw [hb]
      simp only
      rw [abs_mul, abs_of_nonneg (sq_nonneg ‖∑' i, cohAmp α i * V i m‖), Finset.abs_prod]
      refine mul_le_mul_of_nonneg_right (Finset.prod_le_prod (fun j _ => abs_nonneg _) fun j _ => ?_) (by positivity)
      rw [abs_mul, abs_pow]
      have h1 : |1 - x j| ≤ 2 := by rw [abs_le]; constructor <;> linarith [(hx j).1, (hx j).2]
      have h2 : |x j| ^ m j ≤ 1 := pow_le_one₀ (abs_nonneg _) (by rw [abs_le]; constructor <;> linarith [(hx j).1, (hx j).2])
      calc |1 - x j| * |x j| ^ m j ≤ 2 * 1 := mul_le_mul h1 h2 (by positivity) (by norm_num)
        _ = 2 := by norm_num
    have h1 := series_analytic b hbs (fun m => m k) z hz
    have h2 : AnalyticAt ℝ (fun y : ℝ => 1 - y) z := analyticAt_const.fun_sub analyticAt_id
    refine (h2.fun_mul h1).congr (Filter.Eventually.of_forall fun y => ?_)
    show (1 - y) * ∑' m, y ^ m k * b m = _
    rw [← tsum_mul_left]
    refine tsum_congr fun m => ?_
    rw [wtX_update, hb]
    ring
  have hg : AnalyticOnNhd ℝ (fun y => c * Real.exp (-(d ⬝ᵥ (gaussW S hbar fun j => nuX (Function.update x k y j))⁻¹ *ᵥ d) / 2 - Real.log ((1 / hbar) • gaussW S hbar fun j => nuX (Function.update x k y j)).det / 2)) (Set.Ioo (-1 : ℝ) 1) := by
    intro z hz
    have hpd := gaussW_posDef S hh fun j => nuX_pos (hup z hz j)
    refine analyticAt_const.fun_mul (gauss_analytic (fun y => gaussW S hbar fun j => nuX (Function.update x k y j)) z (1 / hbar) d (fun p q => ?_) hpd.det_pos (hpd.smul (by positivity)).det_pos)
    have hn : ∀ j, AnalyticAt ℝ (fun y => nuX (Function.update x k y j)) z := by
      intro j
      by_cases hj : j = k
      · subst hj
        simp only [Function.update_self, nuX]
        exact (analyticAt_const.fun_add analyticAt_id).fun_div (analyticAt_const.fun_sub analyticAt_id) (by have := hz.2; intro h0; change 1 - z = 0 at h0; linarith)
      · simp only [Function.update_of_ne hj]
        exact analyticAt_const
    simp only [gaussW, Matrix.add_apply, Matrix.smul_apply, smul_eq_mul]
    refine (analyticAt_const.fun_mul ?_).fun_add analyticAt_const
    simp only [Matrix.mul_apply, mul_diagonal]
    refine Finset.analyticAt_fun_sum _ fun r _ => ((Finset.analyticAt_fun_sum _ fun t _ => analyticAt_const.fun_mul ?_)).fun_mul analyticAt_const
    by_cases ht : t = r
    · subst ht
      simp only [diagonal_apply_eq]
      rcases t with t | t <;> exact hn t
    · simp only [diagonal_apply_ne _ ht]
      exact analyticAt_const
  have key := hf.eqOn_of_preconnected_of_eventuallyEq hg isPreconnected_Ioo (z₀ := 1 / 2) (by constructor <;> norm_num)
    (Filter.eventually_of_mem (Ioo_mem_nhds (by norm_num : (0 : ℝ) < 1 / 2) (by norm_num : (1 / 2 : ℝ) < 1)) hy)
  have := key (hx k)
  simpa only [Function.update_eq_self] using this

/-- the identity for all symplectic eigenvalues -/
theorem signed_husimi (hS : S ∈ symplecticGroup (Fin N) ℝ) (hV : IsGaussianUnitary S β V) (hbar : ℝ) (hh : 0 < hbar) (mu : ℕ → ℝ)
    (hmu : ∀ k : Fin N, mu k = Real.sqrt (2 * hbar) * (β k).re ∧ mu (N + k) = Real.sqrt (2 * hbar) * (β k).im) (α : Fin N → ℂ) (s : Finset (Fin N)) :
    ∀ x : Fin N → ℝ, (∀ k, x k ∈ Set.Ioo (-1 : ℝ) 1) → (∀ k, k ∉ s → 0 ≤ x k) → ∑' m, wtX x m * ‖∑' i, cohAmp α i * V i m‖ ^ 2 = Real.exp (∑ k, Complex.normSq (α k)) *
      Real.exp (-((cohQuad hbar α - phaseVec N mu) ⬝ᵥ (gaussW S hbar fun k => nuX (x k))⁻¹ *ᵥ (cohQuad hbar α - phaseVec N mu)) / 2 - Real.log ((1 / hbar) • gaussW S hbar fun k => nuX (x k)).det / 2) := by
  classical
  induction s using Finset.induction_on with
  | empty => exact fun x hx h0 => signed_base hS hV hbar hh mu hmu α x hx fun k => h0 k (Finset.notMem_empty k)
  | insert k s hk ih =>
    intro x hx h0
    refine signed_step hV.unitary hbar hh _ α _ x hx k fun y hy => ih _ (fun j => ?_) fun j hj => ?_
    · by_cases hj : j = k
      · subst hj; rw [Function.update_self]; exact ⟨by linarith [hy.1], hy.2⟩
      · rw [Function.update_of_ne hj]; exact hx j
    · by_cases hjk : j = k
      · subst hjk; rw [Function.update_self]; exact hy.1.le
      · rw [Function.update_of_ne hjk]; exact h0 j fun h => (Finset.mem_insert.mp h).elim hjk hj

/-- **C102** `gaussian_thermal` without the hypothesis that the matrix is a quantum state: the matrix in the Fock basis of a Gaussian Husimi function with positive definite `V` is a signed mixture of the columns of the Gaussian unitary. -/
theorem gaussian_signed (hS : S ∈ symplecticGroup (Fin N) ℝ) (hV : IsGaussianUnitary S β V) (hbar : ℝ) (hh : 0 < hbar) (ν : Fin N → ℝ) (hν : ∀ k, 0 < ν k) (mu : ℕ → ℝ) (cov : ℕ → ℕ → ℝ)
    (hcov : phase N N cov = (hbar / 2) • (S * diagonal (Sum.elim ν ν) * Sᵀ))
    (hmu : ∀ k : Fin N, mu k = Real.sqrt (2 * hbar) * (β k).re ∧ mu (N + k) = Real.sqrt (2 * hbar) * (β k).im)
    (ρ : (Fin N → ℕ) → (Fin N → ℕ) → ℂ) (hρ : IsFockMatrix N mu cov hbar ρ) (i j : Fin N → ℕ) :
    HasSum (fun m => ((∏ k, thermalProb ((ν k - 1) / 2) (m k) : ℝ) : ℂ) * (V i m * (starRingEnd ℂ) (V j m))) (ρ i j) := by
  have hsum := (abs_weights_sum hν).summable
  have h1 : ∀ i j, HasSum (fun m : Fin N → ℕ => ((∏ k, thermalProb ((ν k - 1) / 2) (m k) : ℝ) : ℂ) * (V i m * (starRingEnd ℂ) (V j m)))
      (∑' m : Fin N → ℕ, ((∏ k, thermalProb ((ν k - 1) / 2) (m k) : ℝ) : ℂ) * (V i m * (starRingEnd ℂ) (V j m))) := fun i j => (signed_summable hV.unitary hsum i j).hasSum
  have h2 : IsFockMatrix N mu cov hbar fun i j => ∑' m : Fin N → ℕ, ((∏ k, thermalProb ((ν k - 1) / 2) (m k) : ℝ) : ℂ) * (V i m * (starRingEnd ℂ) (V j m)) := by
    intro α
    have h3 := signed_rows hV.unitary (cohAmp_summable α) (cohAmp_summable α) _ hsum _ h1
    have hx : ∀ k, (ν k - 1) / (ν k + 1) ∈ Set.Ioo (-1 : ℝ) 1 := fun k => by
      have := hν k
      constructor
      · rw [lt_div_iff₀ (by linarith)]; linarith
      · rw [div_lt_one (by linarith)]; linarith
    have hn : (fun k => nuX ((ν k - 1) / (ν k + 1))) = ν := by
      funext k
      have : ν k + 1 ≠ 0 := by linarith [hν k]
      rw [nuX]
      have e1 : 1 + (ν k - 1) / (ν k + 1) = 2 * ν k / (ν k + 1) := by field_simp; ring
      have e2 : 1 - (ν k - 1) / (ν k + 1) = 2 / (ν k + 1) := by field_simp; ring
      rw [e1, e2, div_div_div_cancel_right₀ this, mul_div_assoc, mul_div_cancel₀]
      norm_num
    have h4 := signed_husimi hS hV hbar hh mu hmu α Finset.univ (fun k => (ν k - 1) / (ν k + 1)) hx fun k hk => absurd (Finset.mem_univ k) hk
    rw [hn, ← husimi_log mu cov hbar hh S ν hν hcov α] at h4
    rw [← h4, Complex.ofReal_tsum]
    convert h3 using 1
    refine tsum_congr fun m => ?_
    rw [Complex.mul_conj, Complex.normSq_eq_norm_sq, wtX]
    simp only [abs_thermal (hν _)]
    push_cast; rfl
  rw [fockMatrix_unique hρ h2]
  exact h1 i j

end continuation

end Verif.Props
