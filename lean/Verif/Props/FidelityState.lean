/-
C81: `fidelity` is the Uhlmann fidelity of the density matrices of two arbitrary physical Gaussian states.
-/
import Verif.Props.FidelityUhlmann

set_option linter.unusedSectionVars false
set_option linter.unusedSimpArgs false

namespace Verif.Props
open Verif.Model Verif.Model.Symp Verif.Model.Conv Verif.Model.Dec Verif.Model.Fid Verif.Spec Verif.Lemmas Verif.Lemmas.Symp Verif.Lemmas.Heis Verif.Lemmas.FPar Verif.Lemmas.Uhl Matrix
open scoped ComplexOrder

variable {N : ℕ}

theorem physical_unit (V : Matrix (Fin N ⊕ Fin N) (Fin N ⊕ Fin N) ℝ) (hbar c : ℝ) (hh : 0 < hbar) (hc : 0 < c) (hV : Physical V hbar) : Physical ((c / hbar) • V) c := by
  refine ⟨?_, ?_⟩
  · unfold Matrix.IsSymm; rw [transpose_smul, hV.1.eq]
  · have hpos : (0 : ℂ) ≤ ((c / hbar : ℝ) : ℂ) := Complex.zero_le_real.mpr (by positivity)
    have := hV.2.smul hpos
    convert this using 1
    have hne : (hbar : ℂ) ≠ 0 := by exact_mod_cast hh.ne'
    ext p q
    simp only [Matrix.add_apply, map_apply, Matrix.smul_apply, smul_eq_mul]
    push_cast
    field_simp

/-- the trace of the square root of a thermal state -/
theorem sqrt_thermal_sum {x : ℝ} (hx : 1 / 2 ≤ x) : HasSum (fun j => Real.sqrt (thermalProb (x - 1 / 2) j)) (Real.sqrt (x + 1 / 2) + Real.sqrt (x - 1 / 2)) := by
  have h1 := Real.mul_self_sqrt (show 0 ≤ x + 1 / 2 by linarith)
  have h2 := Real.mul_self_sqrt (show 0 ≤ x - 1 / 2 by linarith)
  have h0 : 0 < Real.sqrt (x + 1 / 2) := Real.sqrt_pos.mpr (by linarith)
  have hlt : Real.sqrt (x - 1 / 2) < Real.sqrt (x + 1 / 2) := Real.sqrt_lt_sqrt (by linarith) (by linarith)
  have h3 := Real.sqrt_nonneg (x - 1 / 2)
  have hg := (hasSum_geometric_of_lt_one (r := Real.sqrt (x - 1 / 2) / Real.sqrt (x + 1 / 2)) (by positivity) (by rwa [div_lt_one h0])).mul_left (1 / Real.sqrt (x + 1 / 2))
  have e : 1 / Real.sqrt (x + 1 / 2) * (1 - Real.sqrt (x - 1 / 2) / Real.sqrt (x + 1 / 2))⁻¹ = Real.sqrt (x + 1 / 2) + Real.sqrt (x - 1 / 2) := by
    generalize Real.sqrt (x - 1 / 2) = a at *
    generalize Real.sqrt (x + 1 / 2) = b at *
    have h4 : b - a ≠ 0 := by linarith
    rw [one_sub_div h0.ne', inv_div, div_mul_div_comm, one_mul, div_eq_iff (mul_ne_zero h0.ne' h4)]
    linear_combination (-b) * h1 + b * h2
  rw [e] at hg
  exact hg.congr_fun fun j => sqrt_thermal hx j

theorem sqrt_thermal_pi_sum {d : Fin N → ℝ} (hd : ∀ k, 1 / 2 ≤ d k) :
    HasSum (fun m : Fin N → ℕ => Real.sqrt (∏ k, thermalProb (d k - 1 / 2) (m k))) (∏ k, (Real.sqrt (d k + 1 / 2) + Real.sqrt (d k - 1 / 2))) := by
  have h2 := hasSum_pi_prod (ι := Fin N) (f := fun k m => ((Real.sqrt (thermalProb (d k - 1 / 2) m) : ℝ) : ℂ))
    (a := fun k => ((Real.sqrt (d k + 1 / 2) + Real.sqrt (d k - 1 / 2) : ℝ) : ℂ)) fun k => Complex.hasSum_ofReal.mpr (sqrt_thermal_sum (hd k))
  rw [← Complex.ofReal_prod] at h2
  have h3 : HasSum (fun m : Fin N → ℕ => ((∏ k, Real.sqrt (thermalProb (d k - 1 / 2) (m k)) : ℝ) : ℂ)) ((∏ k, (Real.sqrt (d k + 1 / 2) + Real.sqrt (d k - 1 / 2)) : ℝ) : ℂ) :=
    h2.congr_fun fun m => by rw [Complex.ofReal_prod]
  refine (Complex.hasSum_ofReal.mp h3).congr_fun fun m => ?_
  rw [Real.sqrt_eq_rpow, ← Real.finsetProd_rpow _ _ fun k _ => thermalProb_nonneg _ (by linarith [hd k]) _]
  simp only [Real.sqrt_eq_rpow]

theorem sqrt_half_sq {x : ℝ} (hx : 1 ≤ x) : (Real.sqrt (x / 2 + 1 / 2) + Real.sqrt (x / 2 - 1 / 2)) ^ 2 = x + Real.sqrt (x * x - 1) := by
  have h1 := Real.mul_self_sqrt (show 0 ≤ x / 2 + 1 / 2 by linarith)
  have h2 := Real.mul_self_sqrt (show 0 ≤ x / 2 - 1 / 2 by linarith)
  have h3 : Real.sqrt (x * x - 1) = 2 * (Real.sqrt (x / 2 + 1 / 2) * Real.sqrt (x / 2 - 1 / 2)) := by
    rw [← Real.sqrt_mul (by linarith), Real.sqrt_eq_iff_mul_self_eq (by nlinarith) (by positivity)]
    have := Real.mul_self_sqrt (show 0 ≤ (x / 2 + 1 / 2) * (x / 2 - 1 / 2) from mul_nonneg (by linarith) (by linarith))
    linear_combination (-4) * this
  rw [h3]
  linear_combination h1 + h2

/-- the quadratures of the amplitudes of the means -/
theorem cohQuad_mean (mu : ℕ → ℝ) (hbar : ℝ) (hh : 0 < hbar) : cohQuad hbar (fun k : Fin N => complexToReal N mu hbar k) = phaseVec N mu := by
  funext p
  have h := fun k : Fin N => mean_amp (N := N) hh (mu := mu) (a := fun k : Fin N => complexToReal N mu hbar k) (fun _ => rfl) k
  rcases p with k | k
  · exact (h k).1.symm
  · exact (h k).2.symm

/-- eigenvectors and eigenvalues of a multiple of a Gaussian state, and the trace of its square root -/
theorem scaled_spectral (hbar : ℝ) (hh : 0 < hbar) (s : Matrix (Fin N ⊕ Fin N) (Fin N ⊕ Fin N) ℝ) (ν : Fin N → ℝ) (hsp : SympSpectrum ((2 : ℝ) • s) ν) (hν : ∀ k, 1 ≤ ν k) (mu : ℕ → ℝ) (cov : ℕ → ℕ → ℝ)
    (hcov : phase N N cov = hbar • s) (c : ℝ) (hc : 0 < c) (M : (Fin N → ℕ) → (Fin N → ℕ) → ℂ) (hM : IsFockMatrix N mu cov hbar fun i j => M i j / (c : ℂ)) :
    ∃ (q : (Fin N → ℕ) → ℝ) (W : (Fin N → ℕ) → (Fin N → ℕ) → ℂ) (t : ℝ), IsUnitaryFock W ∧ (∀ k, 0 ≤ q k) ∧ (∀ m n, HasSum (fun k => ((q k : ℝ) : ℂ) * (W m k * (starRingEnd ℂ) (W n k))) (M m n)) ∧
      HasSum (fun k => Real.sqrt (q k)) t ∧ t ^ 2 = c * ∏ k, (ν k + Real.sqrt (ν k * ν k - 1)) := by
  obtain ⟨-, T, hT, hTν⟩ := hsp
  obtain ⟨W, hW⟩ := gaussianUnitary_exists hT (fun k => complexToReal N mu hbar k)
  have hcov2 : phase N N cov = (hbar / 2) • (T * diagonal (Sum.elim ν ν) * Tᵀ) := by
    rw [← hTν, smul_smul, hcov]; congr 1; ring
  have hd : ∀ k, 1 / 2 ≤ ν k / 2 := fun k => by linarith [hν k]
  have hsp := gaussian_thermal hT hW hbar hh ν hν mu cov hcov2 (mean_amp hh fun _ => rfl) _ hM
  have e : ∀ k, (ν k - 1) / 2 = ν k / 2 - 1 / 2 := fun k => by ring
  simp only [e] at hsp
  have hp : ∀ m : Fin N → ℕ, 0 ≤ ∏ k, thermalProb (ν k / 2 - 1 / 2) (m k) := fun m => Finset.prod_nonneg fun k _ => thermalProb_nonneg _ (by linarith [hν k]) _
  have hc0 : (c : ℂ) ≠ 0 := Complex.ofReal_ne_zero.mpr hc.ne'
  refine ⟨fun m => c * ∏ k, thermalProb (ν k / 2 - 1 / 2) (m k), W, Real.sqrt c * ∏ k, (Real.sqrt (ν k / 2 + 1 / 2) + Real.sqrt (ν k / 2 - 1 / 2)), hW.unitary, fun m => mul_nonneg hc.le (hp m), fun m n => ?_, ?_, ?_⟩
  · have h2 := (hsp m n).mul_left (c : ℂ)
    rw [mul_div_cancel₀ _ hc0] at h2
    refine h2.congr_fun fun k => ?_
    push_cast; ring
  · refine ((sqrt_thermal_pi_sum hd).mul_left (Real.sqrt c)).congr_fun fun m => ?_
    rw [Real.sqrt_mul hc.le]
  · rw [mul_pow, Real.sq_sqrt hc.le, ← Finset.prod_pow]
    congr 1
    exact Finset.prod_congr rfl fun k _ => sqrt_half_sq (hν k)

/-- **C81** `fidelity` returns the Uhlmann fidelity `(Tr √(√ρ σ √ρ))²` of the density matrices, for every pair of physical Gaussian states of the same number of modes. -/
theorem fidelity_uhlmann {sqrtm : ℕ → RArr → RArr} (hsq : SqrtmDiagContract sqrtm) (close : ℝ → ℝ → Bool) (hc : ∀ x, close x 0 = true → x = 0) (mu1 mu2 : ℕ → ℝ) (cov1 cov2 : RArr) (hbar : ℝ) (hh : 0 < hbar)
    (hp1 : Physical (phase N N cov1) hbar) (hp2 : Physical (phase N N cov2) hbar) (ρ σ : (Fin N → ℕ) → (Fin N → ℕ) → ℂ) (hρ : IsFockMatrix N mu1 cov1 hbar ρ) (hσ : IsFockMatrix N mu2 cov2 hbar σ) :
    ∃ F, HasFidelity ρ σ F ∧ fidelity sqrtm close (2 * N) mu1 (2 * N) (2 * N) cov1 (2 * N) mu2 (2 * N) (2 * N) cov2 hbar = .ok F := by
  obtain ⟨ν1, ⟨-, T, hT, hTν⟩, hν1⟩ := sympSpectrum_physical _ hbar hh hp1
  have hu := symp_unit hT
  have hut : IsUnit Tᵀ.det := by rwa [det_transpose]
  have hTi : T⁻¹ ∈ symplecticGroup (Fin N) ℝ := by
    have h1 := (⟨T, hT⟩ : symplecticGroup (Fin N) ℝ)⁻¹.2
    have h2 := SymplecticGroup.coe_inv' ⟨T, hT⟩
    rwa [h2] at h1
  have hcov1 : phase N N cov1 = (hbar / 2) • (T * dd ν1 * Tᵀ) := by
    rw [dd, ← hTν, smul_smul]
    have : hbar / 2 * (2 / hbar) = 1 := by field_simp
    rw [this, one_smul]
  obtain ⟨d, hdν⟩ : ∃ d : Fin N → ℝ, d = fun k => ν1 k / 2 := ⟨_, rfl⟩
  have hd : ∀ k, 1 / 2 ≤ d k := fun k => by rw [hdν]; dsimp only; linarith [hν1 k]
  have hcov1d : phase N N cov1 = hbar • (T * dd d * Tᵀ) := by
    have : dd d = (1 / 2 : ℝ) • dd ν1 := by
      rw [hdν]
      ext p q
      simp only [dd, Matrix.smul_apply, diagonal_apply, smul_eq_mul]
      rcases p with p | p <;> rcases q with q | q <;> simp <;> split_ifs <;> ring
    rw [hcov1, this, Matrix.mul_smul, Matrix.smul_mul, smul_smul]; congr 1; ring
  obtain ⟨s, hsdef⟩ : ∃ s, s = T⁻¹ * ((1 / hbar) • phase N N cov2) * (T⁻¹)ᵀ := ⟨_, rfl⟩
  have hs : Physical s 1 := by rw [hsdef]; exact physical_symplectic _ _ 1 (physical_unit _ hbar 1 hh one_pos hp2) hTi
  have hcov2s : phase N N cov2 = hbar • (T * s * Tᵀ) := by
    have e1 : T * s * Tᵀ = (1 / hbar) • phase N N cov2 := by
      rw [hsdef, transpose_nonsing_inv]
      calc _ = (T * T⁻¹) * ((1 / hbar) • phase N N cov2) * (Tᵀ⁻¹ * Tᵀ) := by simp only [Matrix.mul_assoc]
        _ = _ := by rw [mul_nonsing_inv _ hu, nonsing_inv_mul _ hut, Matrix.one_mul, Matrix.mul_one]
    rw [e1, smul_smul, mul_one_div_cancel hh.ne', one_smul]
  obtain ⟨m, hmdef⟩ : ∃ m, m = (1 / Real.sqrt hbar) • T⁻¹ *ᵥ (phaseVec N mu2 - phaseVec N mu1) := ⟨_, rfl⟩
  have hsh : Real.sqrt hbar ≠ 0 := (Real.sqrt_pos.mpr hh).ne'
  have hm2 : Real.sqrt hbar • m = T⁻¹ *ᵥ (phaseVec N mu2 - phaseVec N mu1) := by
    rw [hmdef, smul_smul, mul_one_div_cancel hsh, one_smul]
  have hm : phaseVec N mu1 - phaseVec N mu2 = Real.sqrt hbar • T *ᵥ (-m) := by
    rw [← Matrix.mulVec_smul, smul_neg, hm2, Matrix.mulVec_neg, Matrix.mulVec_mulVec, mul_nonsing_inv _ hu, Matrix.one_mulVec, neg_sub]
  have hsM := (vaux_general hd s hs).1
  obtain ⟨ν, hspec, hν⟩ := sympSpectrum_physical _ 1 one_pos hsM
  rw [div_one] at hspec
  have hval := fidelity_value hsq close hc mu1 mu2 cov1 cov2 hbar hh T s hT d hd hs hcov1d hcov2s (-m) hm ν hspec hν
  have hquad : (-m) ⬝ᵥ (dd d + s)⁻¹ *ᵥ (-m) = m ⬝ᵥ (dd d + s)⁻¹ *ᵥ m := by
    rw [Matrix.mulVec_neg, neg_dotProduct, dotProduct_neg, neg_neg]
  rw [hquad] at hval
  have hpd : (dd d + s).PosDef := by
    refine PosDef.add_posSemidef (PosDef.diagonal fun p => ?_) (physical_posDef s 1 one_pos hs).posSemidef
    rcases p with p | p <;> exact lt_of_lt_of_le (by norm_num) (hd p)
  -- eigenvectors of the first state
  obtain ⟨V, hV⟩ := gaussianUnitary_exists hT (fun k => complexToReal N mu1 hbar k)
  have hspρ := gaussian_thermal hT hV hbar hh ν1 hν1 mu1 cov1 hcov1 (mean_amp hh fun _ => rfl) ρ hρ
  have e : ∀ k, (ν1 k - 1) / 2 = d k - 1 / 2 := fun k => by rw [hdν]; ring
  simp only [e] at hspρ
  -- the second state in this basis
  obtain ⟨mu', hmu'⟩ := exists_phaseVec (N := N) (Real.sqrt hbar • m)
  obtain ⟨cov', hcov'⟩ := exists_cov (N := N) (hbar • s)
  have hph' : Physical (phase N N cov') hbar := by
    have h := physical_unit s 1 hbar one_pos hh hs
    rw [div_one] at h
    rwa [hcov']
  obtain ⟨σ', _, _, -, hσ', -⟩ := fock_gram (N := N) mu' hh hph'
  have hadj := gaussianUnitary_adjoint hT hV
  have hstate := gaussianUnitary_state hTi hadj hbar hh mu2 mu' cov2 cov' hp2 (by
    rw [hcov', hsdef, Matrix.mul_smul, Matrix.smul_mul, smul_smul, mul_one_div_cancel hh.ne', one_smul]) (by
    rw [cohQuad_bog, cohQuad_mean mu1 hbar hh, hmu', hm2, Matrix.mulVec_sub]
    abel) σ σ' hσ hσ'
  -- the product √ρ σ √ρ
  obtain ⟨mu'', hmu''⟩ := exists_phaseVec (N := N) (Real.sqrt hbar • (dd (cof d) * (dd d + s)⁻¹) *ᵥ m)
  obtain ⟨cov'', hcov''⟩ := exists_cov (N := N) (hbar • sM (dd d) (dd (cof d)) (dd d + s)⁻¹)
  have hM := scaled_fock hd s hs hbar hh mu' mu'' cov' cov'' m hcov' hmu' hcov'' hmu'' σ' hσ'
  obtain ⟨q, W, t, hW, hq, hsum, htr, ht⟩ := scaled_spectral hbar hh _ ν hspec hν mu'' cov'' hcov'' _ (div_pos (Real.exp_pos _) (Real.sqrt_pos.mpr hpd.det_pos)) _ hM
  refine ⟨t ^ 2, ⟨fun i => ∏ k, thermalProb (d k - 1 / 2) (i k), V, σ', q, W, t, ⟨hV.unitary, hspρ, fun i => Finset.prod_nonneg fun k _ => thermalProb_nonneg _ (by linarith [hd k]) _,
    thermal_summable _ fun k => by linarith [hd k]⟩, ?_, hW, hq, hsum, htr, rfl⟩, ?_⟩
  · intro i j
    refine (hstate i j).congr_fun fun x => ?_
    rw [Complex.conj_conj]
  · rw [hval, ht]
    congr 1
    ring

end Verif.Props
