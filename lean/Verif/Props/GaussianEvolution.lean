/-
C80: a Gaussian unitary maps the Gaussian state with means `mu` and covariance matrix `cov` to the one with means `S mu + d` and covariance matrix `S cov Sᵀ`.
-/
import Verif.Props.Thermal

set_option linter.unusedSectionVars false
set_option linter.unusedSimpArgs false

namespace Verif.Props
open Verif.Model Verif.Model.Symp Verif.Model.Conv Verif.Model.Fock Verif.Spec Verif.Lemmas Verif.Lemmas.Symp Verif.Lemmas.Heis Verif.Lemmas.FPar Matrix

section abstract
variable {I : Type} [DecidableEq I]

/-- rows and columns of unitaries have absolutely convergent inner products -/
theorem row_col {U V : I → I → ℂ} (hU : IsUnitaryFock U) (hV : IsUnitaryFock V) (i b : I) :
    Summable (fun m => ‖U i m‖ * ‖V m b‖) ∧ ∑' m, ‖U i m‖ * ‖V m b‖ ≤ 1 := by
  have hr : HasSum (fun m => ‖U i m‖ ^ 2) 1 := by
    have h := hU.rows i i
    rw [if_pos rfl, ← Complex.ofReal_one] at h
    refine Complex.hasSum_ofReal.mp (h.congr_fun fun m => ?_)
    rw [Complex.conj_mul']; push_cast; rfl
  have hc : HasSum (fun m => ‖V m b‖ ^ 2) 1 := by
    have h := hV.cols b b
    rw [if_pos rfl, ← Complex.ofReal_one] at h
    refine Complex.hasSum_ofReal.mp (h.congr_fun fun m => ?_)
    rw [Complex.conj_mul']; push_cast; rfl
  have ht := (hr.add hc).div_const 2
  have hle : ∀ m, ‖U i m‖ * ‖V m b‖ ≤ (‖U i m‖ ^ 2 + ‖V m b‖ ^ 2) / 2 := fun m => by nlinarith [sq_nonneg (‖U i m‖ - ‖V m b‖)]
  have hs : Summable (fun m => ‖U i m‖ * ‖V m b‖) := Summable.of_nonneg_of_le (fun m => by positivity) hle ht.summable
  refine ⟨hs, ?_⟩
  have := hs.hasSum.unique hs.hasSum
  calc ∑' m, ‖U i m‖ * ‖V m b‖ ≤ ∑' m, (‖U i m‖ ^ 2 + ‖V m b‖ ^ 2) / 2 := hs.tsum_le_tsum hle ht.summable
    _ = 1 := by rw [ht.tsum_eq]; norm_num

/-- a mixture of the columns of `V`, multiplied by unitaries from both sides -/
theorem mixture_mul₂ {U U' V : I → I → ℂ} (hU : IsUnitaryFock U) (hU' : IsUnitaryFock U') (hV : IsUnitaryFock V) (p : I → ℝ) (hp : ∀ m, 0 ≤ p m) (hs : Summable p) (ρ : I → I → ℂ)
    (hρ : ∀ i j, HasSum (fun b => ((p b : ℝ) : ℂ) * (V i b * (starRingEnd ℂ) (V j b))) (ρ i j)) (i j : I) (z : ℂ)
    (hz : HasSum (fun b => ((p b : ℝ) : ℂ) * ((∑' m, U i m * V m b) * (starRingEnd ℂ) (∑' m, U' j m * V m b))) z) :
    HasSum (fun x : I × I => U i x.1 * ρ x.1 x.2 * (starRingEnd ℂ) (U' j x.2)) z := by
  have hn : ∀ b (x : I × I), ‖((p b : ℝ) : ℂ) * (U i x.1 * V x.1 b * (starRingEnd ℂ) (U' j x.2 * V x.2 b))‖ = p b * ((‖U i x.1‖ * ‖V x.1 b‖) * (‖U' j x.2‖ * ‖V x.2 b‖)) := by
    intro b x
    rw [norm_mul, norm_mul, norm_mul, RCLike.norm_conj, norm_mul, Complex.norm_real, Real.norm_of_nonneg (hp b)]
  have hfib : ∀ b, Summable fun x : I × I => (‖U i x.1‖ * ‖V x.1 b‖) * (‖U' j x.2‖ * ‖V x.2 b‖) := fun b =>
    (row_col hU hV i b).1.mul_of_nonneg (row_col hU' hV j b).1 (fun m => by positivity) fun m => by positivity
  have hsum : Summable fun y : I × (I × I) => ((p y.1 : ℝ) : ℂ) * (U i y.2.1 * V y.2.1 y.1 * (starRingEnd ℂ) (U' j y.2.2 * V y.2.2 y.1)) := by
    apply Summable.of_norm
    rw [summable_prod_of_nonneg (fun y => norm_nonneg _)]
    refine ⟨fun b => ?_, ?_⟩
    · simp only [hn]
      exact (hfib b).mul_left _
    · simp only [hn]
      refine Summable.of_nonneg_of_le (fun b => tsum_nonneg fun x => ?_) (fun b => ?_) hs
      · have := hp b; positivity
      · rw [tsum_mul_left, ← (row_col hU hV i b).1.tsum_mul_tsum (row_col hU' hV j b).1 (hfib b)]
        have h1 := (row_col hU hV i b).2
        have h2 := (row_col hU' hV j b).2
        have h3 : 0 ≤ ∑' m, ‖U i m‖ * ‖V m b‖ := tsum_nonneg fun m => by positivity
        have h4 : 0 ≤ ∑' m, ‖U' j m‖ * ‖V m b‖ := tsum_nonneg fun m => by positivity
        exact mul_le_of_le_one_right (hp b) (mul_le_one₀ h1 h4 h2)
  have hs1 : ∀ b, Summable fun m => ‖U i m * V m b‖ := fun b => (row_col hU hV i b).1.congr fun m => (norm_mul _ _).symm
  have hs2 : ∀ b, Summable fun m => ‖U' j m * V m b‖ := fun b => (row_col hU' hV j b).1.congr fun m => (norm_mul _ _).symm
  have hb : ∀ b, HasSum (fun x : I × I => ((p b : ℝ) : ℂ) * (U i x.1 * V x.1 b * (starRingEnd ℂ) (U' j x.2 * V x.2 b)))
      (((p b : ℝ) : ℂ) * ((∑' m, U i m * V m b) * (starRingEnd ℂ) (∑' m, U' j m * V m b))) := by
    intro b
    have h1 := (hs1 b).of_norm.hasSum
    have h2 := Complex.hasSum_conj'.mpr (hs2 b).of_norm.hasSum
    have h3 : Summable fun x : I × I => (U i x.1 * V x.1 b) * (starRingEnd ℂ) (U' j x.2 * V x.2 b) := by
      apply Summable.of_norm
      refine (hfib b).congr fun x => ?_
      rw [norm_mul, RCLike.norm_conj, norm_mul, norm_mul]
    exact (h1.mul h2 h3).mul_left _
  have htot := hsum.hasSum
  have e1 := htot.prod_fiberwise hb
  rw [e1.unique hz] at htot
  have hsw := (Equiv.prodComm (I × I) I).hasSum_iff.mpr htot
  refine hsw.prod_fiberwise fun x => ?_
  have h5 := (hρ x.1 x.2).mul_left (U i x.1 * (starRingEnd ℂ) (U' j x.2))
  have e : U i x.1 * ρ x.1 x.2 * (starRingEnd ℂ) (U' j x.2) = U i x.1 * (starRingEnd ℂ) (U' j x.2) * ρ x.1 x.2 := by ring
  rw [e]
  refine h5.congr_fun fun b => ?_
  simp only [Function.comp_apply, Equiv.prodComm_apply, Prod.swap_prod_mk, map_mul]
  ring

/-- a mixture of the columns of `V`, multiplied by `U` from the left and by its adjoint from the right, is the mixture of the columns of `U V` -/
theorem mixture_mul {U V : I → I → ℂ} (hU : IsUnitaryFock U) (hV : IsUnitaryFock V) (p : I → ℝ) (hp : ∀ m, 0 ≤ p m) (hs : Summable p) (ρ : I → I → ℂ)
    (hρ : ∀ i j, HasSum (fun b => ((p b : ℝ) : ℂ) * (V i b * (starRingEnd ℂ) (V j b))) (ρ i j)) (i j : I) (z : ℂ)
    (hz : HasSum (fun b => ((p b : ℝ) : ℂ) * ((∑' m, U i m * V m b) * (starRingEnd ℂ) (∑' m, U j m * V m b))) z) :
    HasSum (fun x : I × I => U i x.1 * ρ x.1 x.2 * (starRingEnd ℂ) (U j x.2)) z := mixture_mul₂ hU hU hV p hp hs ρ hρ i j z hz

end abstract

variable {l : ℕ} {S T : Matrix (Fin l ⊕ Fin l) (Fin l ⊕ Fin l) ℝ} {α β : Fin l → ℂ} {U V : (Fin l → ℕ) → (Fin l → ℕ) → ℂ}

/-- the matrix of the quadratures, acting on complex amplitudes -/
theorem quad_bog (S : Matrix (Fin l ⊕ Fin l) (Fin l ⊕ Fin l) ℝ) (β : Fin l → ℂ) (k : Fin l) :
    (∑ m, (bogE S k m * β m + bogF S k m * (starRingEnd ℂ) (β m))).re = ∑ m, (S (.inl k) (.inl m) * (β m).re + S (.inl k) (.inr m) * (β m).im) ∧
    (∑ m, (bogE S k m * β m + bogF S k m * (starRingEnd ℂ) (β m))).im = ∑ m, (S (.inr k) (.inl m) * (β m).re + S (.inr k) (.inr m) * (β m).im) := by
  rw [Complex.re_sum, Complex.im_sum]
  constructor <;> refine Finset.sum_congr rfl fun m _ => ?_ <;>
    simp only [bogE, bogF, of_apply, Complex.add_re, Complex.add_im, Complex.mul_re, Complex.mul_im, Complex.conj_re, Complex.conj_im] <;> ring

theorem thermalProb_nonneg (n : ℝ) (h : 0 ≤ n) (k : ℕ) : 0 ≤ thermalProb n k := by unfold thermalProb; positivity

theorem thermalProb_sum (n : ℝ) (h : 0 ≤ n) : HasSum (thermalProb n) 1 := by
  have h1 : n / (n + 1) < 1 := by rw [div_lt_one (by linarith)]; linarith
  have hg := (hasSum_geometric_of_lt_one (by positivity) h1).mul_left (1 / (n + 1))
  have e : 1 / (n + 1) * (1 - n / (n + 1))⁻¹ = 1 := by
    have : n + 1 ≠ 0 := by linarith
    rw [one_sub_div this]; simp; field_simp
  rw [e] at hg
  refine hg.congr_fun fun k => ?_
  rw [thermalProb, div_pow, pow_succ]
  field_simp

theorem thermal_summable (n : Fin l → ℝ) (h : ∀ k, 0 ≤ n k) : HasSum (fun m : Fin l → ℕ => ∏ k, thermalProb (n k) (m k)) 1 := by
  have h1 := hasSum_pi_prod (ι := Fin l) (f := fun k m => ((thermalProb (n k) m : ℝ) : ℂ)) (a := fun _ => 1) fun k => by
    have := Complex.hasSum_ofReal.mpr (thermalProb_sum (n k) (h k))
    rwa [Complex.ofReal_one] at this
  rw [Finset.prod_const_one, ← Complex.ofReal_one] at h1
  refine Complex.hasSum_ofReal.mp (h1.congr_fun fun m => ?_)
  push_cast; rfl

/-- **C80** the evolution of a physical Gaussian state under a Gaussian unitary: if `U` is the Gaussian unitary of the symplectic matrix `S` and the displacement `α`, and `ρ` the density matrix of
the state with means `mu` and covariance matrix `cov`, then `U ρ U†` is the density matrix of the state with means `S mu + √(2ħ) (Re α, Im α)` and covariance matrix `S cov Sᵀ`. -/
theorem gaussianUnitary_state (hS : S ∈ symplecticGroup (Fin l) ℝ) (hU : IsGaussianUnitary S α U) (hbar : ℝ) (hh : 0 < hbar) (mu mu' : ℕ → ℝ) (cov cov' : ℕ → ℕ → ℝ)
    (hph : Physical (phase l l cov) hbar) (hcov : phase l l cov' = S * phase l l cov * Sᵀ) (hmu : phaseVec l mu' = S *ᵥ phaseVec l mu + cohQuad hbar α)
    (ρ ρ' : (Fin l → ℕ) → (Fin l → ℕ) → ℂ) (hρ : IsFockMatrix l mu cov hbar ρ) (hρ' : IsFockMatrix l mu' cov' hbar ρ') (i j : Fin l → ℕ) :
    HasSum (fun x : (Fin l → ℕ) × (Fin l → ℕ) => U i x.1 * ρ x.1 x.2 * (starRingEnd ℂ) (U j x.2)) (ρ' i j) := by
  obtain ⟨ν, ⟨-, T, hT, hTν⟩, hν⟩ := sympSpectrum_physical _ hbar hh hph
  have hcovT : phase l l cov = (hbar / 2) • (T * diagonal (Sum.elim ν ν) * Tᵀ) := by
    rw [← hTν, smul_smul]
    have : hbar / 2 * (2 / hbar) = 1 := by field_simp
    rw [this, one_smul]
  obtain ⟨β, hβ⟩ : ∃ β : Fin l → ℂ, ∀ k : Fin l, complexToReal l mu hbar k = β k := ⟨fun k => complexToReal l mu hbar k, fun _ => rfl⟩
  have hmβ := mean_amp hh hβ
  obtain ⟨V, hV⟩ := gaussianUnitary_exists hT β
  have hW := (gaussianUnitary_mul hS hU hV).2
  have h1 := gaussian_thermal hT hV hbar hh ν hν mu cov hcovT hmβ ρ hρ
  have hcov2 : phase l l cov' = (hbar / 2) • (S * T * diagonal (Sum.elim ν ν) * (S * T)ᵀ) := by
    rw [hcov, hcovT, Matrix.mul_smul, Matrix.smul_mul, transpose_mul]
    simp only [Matrix.mul_assoc]
  have hmu2 : ∀ k : Fin l, mu' k = Real.sqrt (2 * hbar) * ((∑ m, (bogE S k m * β m + bogF S k m * (starRingEnd ℂ) (β m))) + α k).re ∧
      mu' (l + k) = Real.sqrt (2 * hbar) * ((∑ m, (bogE S k m * β m + bogF S k m * (starRingEnd ℂ) (β m))) + α k).im := by
    intro k
    rw [Complex.add_re, Complex.add_im, (quad_bog S β k).1, (quad_bog S β k).2]
    have hx := congrFun hmu (.inl k)
    have hp := congrFun hmu (.inr k)
    have q1 : ∀ m : Fin l, phaseVec l mu (.inl m) = Real.sqrt (2 * hbar) * (β m).re := fun m => (hmβ m).1
    have q2 : ∀ m : Fin l, phaseVec l mu (.inr m) = Real.sqrt (2 * hbar) * (β m).im := fun m => (hmβ m).2
    rw [Pi.add_apply, Matrix.mulVec, dotProduct, Fintype.sum_sum_type] at hx hp
    simp only [q1, q2] at hx hp
    have w1 : phaseVec l mu' (.inl k) = mu' k := rfl
    have w2 : phaseVec l mu' (.inr k) = mu' (l + k) := rfl
    have w3 : cohQuad hbar α (.inl k) = Real.sqrt (2 * hbar) * (α k).re := rfl
    have w4 : cohQuad hbar α (.inr k) = Real.sqrt (2 * hbar) * (α k).im := rfl
    rw [w1, w3] at hx
    rw [w2, w4] at hp
    rw [hx, hp, mul_add, mul_add, Finset.mul_sum, Finset.mul_sum, ← Finset.sum_add_distrib, ← Finset.sum_add_distrib]
    constructor <;> congr 1 <;> refine Finset.sum_congr rfl fun m _ => by ring
  have h2 := gaussian_thermal (mul_mem hS hT) hW hbar hh ν hν mu' cov' hcov2 hmu2 ρ' hρ'
  have hn : ∀ k, 0 ≤ (ν k - 1) / 2 := fun k => by linarith [hν k]
  exact mixture_mul hU.unitary hV.unitary (fun m => ∏ k, thermalProb ((ν k - 1) / 2) (m k)) (fun m => Finset.prod_nonneg fun k _ => thermalProb_nonneg _ (hn k) _)
    (thermal_summable _ hn).summable ρ h1 i j _ (h2 i j)

/-- the hypotheses of `gaussianUnitary_state` hold for the two-mode squeezed vacuum, a quarter rotation of both modes and any displacement -/
example (α : Fin 2 → ℂ) : ∃ mu' cov' U ρ ρ', IsGaussianUnitary (J (Fin 2) ℝ) α U ∧ IsFockMatrix 2 (fun _ => 0) tmsExample 2 ρ ∧ IsFockMatrix 2 mu' cov' 2 ρ' ∧
    ∀ i j, HasSum (fun x : (Fin 2 → ℕ) × (Fin 2 → ℕ) => U i x.1 * ρ x.1 x.2 * (starRingEnd ℂ) (U j x.2)) (ρ' i j) := by
  have hph : Physical (phase 2 2 tmsExample) 2 := (physical_iff_spectrum _ 2 (by norm_num) _ tmsExample_spec).mpr fun _ => by norm_num
  have hJ : J (Fin 2) ℝ ∈ symplecticGroup (Fin 2) ℝ := SymplecticGroup.J_mem _ _
  obtain ⟨cov', hcov'⟩ := exists_cov (J (Fin 2) ℝ * phase 2 2 tmsExample * (J (Fin 2) ℝ)ᵀ)
  obtain ⟨mu', hmu'⟩ := exists_mu (hbar := 2) (by norm_num) α
  have hm := mean_amp (by norm_num) hmu'
  have hph' : Physical (phase 2 2 cov') 2 := by
    rw [hcov']
    exact physical_symplectic _ _ 2 hph hJ
  obtain ⟨ρ, _, _, -, hρ, -⟩ := fock_gram (N := 2) (fun _ => 0) (by norm_num : (0 : ℝ) < 2) hph
  obtain ⟨ρ', _, _, -, hρ', -⟩ := fock_gram (N := 2) mu' (by norm_num : (0 : ℝ) < 2) hph'
  obtain ⟨U, hU⟩ := gaussianUnitary_exists hJ α
  refine ⟨mu', cov', U, ρ, ρ', hU, hρ, hρ', gaussianUnitary_state hJ hU 2 (by norm_num) _ _ _ _ hph hcov' ?_ ρ ρ' hρ hρ'⟩
  have h0 : phaseVec 2 (fun _ => (0 : ℝ)) = 0 := rfl
  rw [h0, Matrix.mulVec_zero, zero_add]
  funext p
  rcases p with p | p
  · exact (hm p).1
  · exact (hm p).2

end Verif.Props
