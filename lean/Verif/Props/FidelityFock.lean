/-
C81: `fidelity` is the overlap of density matrices if one of the states is pure.
-/
import Verif.Props.Fidelity
import Verif.Props.EntropyFock
import Verif.Props.Tvd

set_option linter.unusedSectionVars false
set_option linter.unusedSimpArgs false

namespace Verif.Props
open Verif.Model Verif.Model.Symp Verif.Model.Conv Verif.Model.Dec Verif.Model.Fid Verif.Spec Verif.Lemmas Verif.Lemmas.Symp Verif.Lemmas.Heis Verif.Lemmas.FPar Matrix

variable {N : ℕ}

/-- a pure covariance matrix is `(ħ/2) S Sᵀ` -/
theorem pure_factor {cov : ℕ → ℕ → ℝ} {hbar : ℝ} (hh : 0 < hbar) (hph : Physical (phase N N cov) hbar) (hpure : ((2 / hbar) • phase N N cov).det = 1) :
    ∃ S ∈ symplecticGroup (Fin N) ℝ, phase N N cov = (hbar / 2) • (S * Sᵀ) := by
  obtain ⟨ν, ⟨hpos, T, hT, hTν⟩, hν⟩ := sympSpectrum_physical _ hbar hh hph
  have hd : (diagonal (Sum.elim ν ν)).det = 1 := by
    have h1 := hpure
    rw [hTν, det_mul, det_mul, det_transpose, SymplecticGroup.det_eq_one hT, one_mul, mul_one] at h1
    exact h1
  rw [det_diagonal, Fintype.prod_sum_type] at hd
  simp only [Sum.elim_inl, Sum.elim_inr] at hd
  have h1 : ∀ k, ν k = 1 := by
    intro k
    by_contra hne
    have hlt : 1 < ν k := lt_of_le_of_ne (hν k) (Ne.symm hne)
    have h2 : 1 < ∏ k, ν k := by
      calc (1 : ℝ) = ∏ _k : Fin N, (1 : ℝ) := by simp
        _ < ∏ k, ν k := Finset.prod_lt_prod (fun _ _ => one_pos) (fun i _ => hν i) ⟨k, Finset.mem_univ k, hlt⟩
    nlinarith
  refine ⟨T, hT, ?_⟩
  have hν1 : diagonal (Sum.elim ν ν) = (1 : Matrix (Fin N ⊕ Fin N) (Fin N ⊕ Fin N) ℝ) := by
    rw [← diagonal_one]
    congr 1
    funext p; rcases p with p | p <;> simp [h1]
  rw [hν1, Matrix.mul_one] at hTν
  rw [← hTν, smul_smul]
  have : hbar / 2 * (2 / hbar) = 1 := by field_simp
  rw [this, one_smul]

theorem exists_phaseVec (w : Fin N ⊕ Fin N → ℝ) : ∃ mu : ℕ → ℝ, phaseVec N mu = w :=
  ⟨fun x => if hx : x < 2 * N then w ((quadEquiv N).symm ⟨x, hx⟩) else 0, funext fun p => by
    have e : (⟨quad N p, quad_lt N p⟩ : Fin (2 * N)) = quadEquiv N p := rfl
    simp [phaseVec, quad_lt, e]⟩

/-- the quadratures of transformed complex amplitudes -/
theorem cohQuad_bog (S : Matrix (Fin N ⊕ Fin N) (Fin N ⊕ Fin N) ℝ) (hbar : ℝ) (β : Fin N → ℂ) :
    cohQuad hbar (fun k => -∑ m, (bogE S k m * β m + bogF S k m * (starRingEnd ℂ) (β m))) = -(S *ᵥ cohQuad hbar β) := by
  funext p
  have e : ∀ (f g : Fin N → ℝ) (c : ℝ), c * -∑ m, (f m + g m) = -(∑ m, c * f m + ∑ m, c * g m) := fun f g c => by
    rw [mul_neg, Finset.sum_add_distrib, mul_add, Finset.mul_sum, Finset.mul_sum]
  rcases p with k | k
  · simp only [cohQuad, Sum.elim_inl, Pi.neg_apply, Matrix.mulVec, dotProduct, Fintype.sum_sum_type, Sum.elim_inr]
    rw [Complex.neg_re, (quad_bog S β k).1, e]
    congr 2 <;> refine Finset.sum_congr rfl fun m _ => by ring
  · simp only [cohQuad, Sum.elim_inl, Pi.neg_apply, Matrix.mulVec, dotProduct, Fintype.sum_sum_type, Sum.elim_inr]
    rw [Complex.neg_im, (quad_bog S β k).2, e]
    congr 2 <;> refine Finset.sum_congr rfl fun m _ => by ring

/-- the vacuum element after undoing a symplectic transformation -/
theorem husimi_congr (mu' : ℕ → ℝ) (cov' : ℕ → ℕ → ℝ) (hbar : ℝ) (S : Matrix (Fin N ⊕ Fin N) (Fin N ⊕ Fin N) ℝ) (hS : S.det = 1)
    (d : Fin N ⊕ Fin N → ℝ) (W : Matrix (Fin N ⊕ Fin N) (Fin N ⊕ Fin N) ℝ) (hd : phaseVec N mu' = -(S⁻¹ *ᵥ d)) (hW : S * (phase N N cov' + (hbar / 2) • 1) * Sᵀ = W) :
    husimiFn N mu' cov' hbar 0 = Real.exp (-(d ⬝ᵥ W⁻¹ *ᵥ d) / 2) / Real.sqrt ((1 / hbar) • W).det := by
  have hu : IsUnit S.det := by rw [hS]; exact isUnit_one
  have hut : IsUnit Sᵀ.det := by rw [det_transpose]; exact hu
  unfold husimiFn
  dsimp only
  have h0 : cohQuad hbar (0 : Fin N → ℂ) = 0 := by funext p; rcases p with p | p <;> simp [cohQuad]
  rw [h0, hd, zero_sub, neg_neg]
  have hWi : W⁻¹ = (Sᵀ)⁻¹ * (phase N N cov' + (hbar / 2) • 1)⁻¹ * S⁻¹ := by rw [← hW, Matrix.mul_inv_rev, Matrix.mul_inv_rev, Matrix.mul_assoc]
  have e1 : (S⁻¹ *ᵥ d) ⬝ᵥ (phase N N cov' + (hbar / 2) • 1)⁻¹ *ᵥ (S⁻¹ *ᵥ d) = d ⬝ᵥ W⁻¹ *ᵥ d := by
    rw [hWi, ← Matrix.mulVec_mulVec, ← Matrix.mulVec_mulVec, ← transpose_nonsing_inv, Matrix.dotProduct_mulVec d, Matrix.vecMul_transpose]
  have e2 : ((1 / hbar) • W).det = ((1 / hbar) • (phase N N cov' + (hbar / 2) • 1)).det := by
    rw [← hW, det_smul, det_smul, det_mul, det_mul, det_transpose, hS, one_mul, mul_one]
  rw [e1, e2]

/-- **C81** the overlap `⟨ψ|ρ|ψ⟩` of a pure Gaussian state with a Gaussian state -/
theorem gaussian_overlap (mu1 mu2 : ℕ → ℝ) (cov1 cov2 : ℕ → ℕ → ℝ) (hbar : ℝ) (hh : 0 < hbar) (hph1 : Physical (phase N N cov1) hbar) (hph2 : Physical (phase N N cov2) hbar)
    (hpure : ((2 / hbar) • phase N N cov1).det = 1) (ψ : (Fin N → ℕ) → ℂ) (hψ : IsFockMatrix N mu1 cov1 hbar fun i j => ψ i * (starRingEnd ℂ) (ψ j))
    (ρ : (Fin N → ℕ) → (Fin N → ℕ) → ℂ) (hρ : IsFockMatrix N mu2 cov2 hbar ρ) :
    HasSum (fun x : (Fin N → ℕ) × (Fin N → ℕ) => (starRingEnd ℂ) (ψ x.1) * ρ x.1 x.2 * ψ x.2)
      ((Real.exp (-((phaseVec N mu1 - phaseVec N mu2) ⬝ᵥ (phase N N cov1 + phase N N cov2)⁻¹ *ᵥ (phaseVec N mu1 - phaseVec N mu2)) / 2) /
        Real.sqrt ((1 / hbar) • (phase N N cov1 + phase N N cov2)).det : ℝ) : ℂ) := by
  obtain ⟨S, hS, hSc⟩ := pure_factor hh hph1 hpure
  obtain ⟨U, hU⟩ := gaussianUnitary_exists hS (fun k => complexToReal N mu1 hbar k)
  have hm := mean_amp (a := fun k => complexToReal N mu1 hbar k) hh fun _ => rfl
  have hp := gaussianUnitary_pure hS hU hbar hh mu1 cov1 hSc hm
  have hψU := fockMatrix_unique hψ hp
  have hdet := SymplecticGroup.det_eq_one hS
  have hu : IsUnit S.det := by rw [hdet]; exact isUnit_one
  have hut : IsUnit Sᵀ.det := by rw [det_transpose]; exact hu
  have hSi : S⁻¹ ∈ symplecticGroup (Fin N) ℝ := by
    have h1 := (⟨S, hS⟩ : symplecticGroup (Fin N) ℝ)⁻¹.2
    have h2 := SymplecticGroup.coe_inv' ⟨S, hS⟩
    rwa [h2] at h1
  have hmu1 : phaseVec N mu1 = cohQuad hbar (fun k => complexToReal N mu1 hbar k) := by
    funext p
    rcases p with p | p
    · exact (hm p).1
    · exact (hm p).2
  obtain ⟨cov', hcov'⟩ := exists_cov (S⁻¹ * phase N N cov2 * (S⁻¹)ᵀ)
  obtain ⟨mu', hmu'⟩ := exists_phaseVec (-(S⁻¹ *ᵥ (phaseVec N mu1 - phaseVec N mu2)))
  have hph' : Physical (phase N N cov') hbar := by rw [hcov']; exact physical_symplectic _ _ hbar hph2 hSi
  obtain ⟨ρ', _, _, -, hρ', -⟩ := fock_gram (N := N) mu' hh hph'
  have hst := gaussianUnitary_state hSi (gaussianUnitary_adjoint hS hU) hbar hh mu2 mu' cov2 cov' hph2 hcov' (by
    rw [hmu', cohQuad_bog, ← hmu1, Matrix.mulVec_sub]; abel) ρ ρ' hρ hρ' 0 0
  have e1 : S * (S⁻¹ * phase N N cov2 * (S⁻¹)ᵀ) * Sᵀ = phase N N cov2 := by
    rw [transpose_nonsing_inv, Matrix.mul_assoc, Matrix.mul_assoc, Matrix.mul_assoc, nonsing_inv_mul _ hut, Matrix.mul_one, ← Matrix.mul_assoc, mul_nonsing_inv _ hu, Matrix.one_mul]
  have hc := husimi_congr mu' cov' hbar S hdet _ (phase N N cov1 + phase N N cov2) hmu' (by
    rw [hcov', Matrix.mul_add, Matrix.add_mul, e1, Matrix.mul_smul, Matrix.smul_mul, Matrix.mul_one, hSc, add_comm])
  have hv := (fockMatrix_vacuum hh hph' hρ').1
  rw [hc] at hv
  rw [hv] at hst
  refine hst.congr_fun fun x => ?_
  have := congrFun (congrFun hψU x.2) x.1
  rw [Complex.conj_conj]
  linear_combination ρ x.1 x.2 * this

/-- **C81** `fidelity` of a pure state with state vector `ψ` and a state with density matrix `ρ` is `⟨ψ|ρ|ψ⟩`, whichever of the two is given first. -/
theorem fidelity_pure {sqrtm : ℕ → RArr → RArr} (hs : SqrtmDiagContract sqrtm) (close : ℝ → ℝ → Bool) (mu1 mu2 : ℕ → ℝ) (cov1 cov2 : RArr) (hbar : ℝ) (hh : 0 < hbar)
    (hph1 : Physical (phase N N cov1) hbar) (hph2 : Physical (phase N N cov2) hbar) (hpure : ((2 / hbar) • phase N N cov1).det = 1)
    (ψ : (Fin N → ℕ) → ℂ) (hψ : IsFockMatrix N mu1 cov1 hbar fun i j => ψ i * (starRingEnd ℂ) (ψ j)) (ρ : (Fin N → ℕ) → (Fin N → ℕ) → ℂ) (hρ : IsFockMatrix N mu2 cov2 hbar ρ) :
    ∃ f : ℝ, fidelity sqrtm close (2 * N) mu1 (2 * N) (2 * N) cov1 (2 * N) mu2 (2 * N) (2 * N) cov2 hbar = .ok f ∧
      fidelity sqrtm close (2 * N) mu2 (2 * N) (2 * N) cov2 (2 * N) mu1 (2 * N) (2 * N) cov1 hbar = .ok f ∧
      HasSum (fun x : (Fin N → ℕ) × (Fin N → ℕ) => (starRingEnd ℂ) (ψ x.1) * ρ x.1 x.2 * ψ x.2) (f : ℂ) := by
  refine ⟨_, fidelity_overlap hs close mu1 mu2 cov1 cov2 hbar hh hph1 hph2 (.inl hpure), ?_, gaussian_overlap mu1 mu2 cov1 cov2 hbar hh hph1 hph2 hpure ψ hψ ρ hρ⟩
  rw [fidelity_overlap hs close mu2 mu1 cov2 cov1 hbar hh hph2 hph1 (.inr hpure), add_comm (phase N N cov2), ← neg_sub (phaseVec N mu1) (phaseVec N mu2), Matrix.mulVec_neg, neg_dotProduct_neg]

theorem hasSum_mul_norm {I R : Type} [NormedRing R] [CompleteSpace R] (f g : I → R) (hf : Summable fun n => ‖f n‖) (hg : Summable fun n => ‖g n‖) :
    HasSum (fun x : I × I => f x.1 * g x.2) ((∑' n, f n) * ∑' n, g n) :=
  hf.of_norm.hasSum.mul hg.of_norm.hasSum (summable_mul_of_summable_norm hf hg)

theorem hasSum_mul_conj {I : Type} (f : I → ℂ) (hn : Summable fun n => ‖f n‖) :
    HasSum (fun x : I × I => f x.1 * (starRingEnd ℂ) (f x.2)) ((‖∑' n, f n‖ ^ 2 : ℝ) : ℂ) := by
  have hn' : Summable fun n => ‖(starRingEnd ℂ) (f n)‖ := hn.congr fun n => (RCLike.norm_conj _).symm
  have h3 := hasSum_mul_norm (R := ℂ) f (fun n => (starRingEnd ℂ) (f n)) hn hn'
  have h4 : ∑' n, (starRingEnd ℂ) (f n) = (starRingEnd ℂ) (∑' n, f n) := (Complex.conj_tsum f).symm
  refine hs_eq h3 (fun x => rfl) ?_
  rw [h4, Complex.mul_conj, Complex.normSq_eq_norm_sq]

theorem summable_sq_of_fock {mu : ℕ → ℝ} {cov : ℕ → ℕ → ℝ} {hbar : ℝ} (hh : 0 < hbar) (hph : Physical (phase N N cov) hbar) {ψ : (Fin N → ℕ) → ℂ}
    (hψ : IsFockMatrix N mu cov hbar fun i j => ψ i * (starRingEnd ℂ) (ψ j)) : Summable fun n => ‖ψ n‖ ^ 2 := by
  have h := (fockMatrix_trace hh hph hψ).summable.norm
  refine h.congr fun n => ?_
  rw [norm_mul, RCLike.norm_conj, sq]

theorem summable_inner {I : Type} (ψ φ : I → ℂ) (n1 : Summable fun n => ‖ψ n‖ ^ 2) (n2 : Summable fun n => ‖φ n‖ ^ 2) : Summable fun n => ‖(starRingEnd ℂ) (ψ n) * φ n‖ := by
  refine Summable.of_nonneg_of_le (fun n => norm_nonneg _) (fun n => ?_) ((n1.add n2).div_const 2)
  rw [norm_mul, RCLike.norm_conj]
  nlinarith [sq_nonneg (‖ψ n‖ - ‖φ n‖)]

/-- **C81** `fidelity` of two pure states is the squared modulus of the inner product of the state vectors. -/
theorem fidelity_pure_pure {sqrtm : ℕ → RArr → RArr} (hs : SqrtmDiagContract sqrtm) (close : ℝ → ℝ → Bool) (mu1 mu2 : ℕ → ℝ) (cov1 cov2 : RArr) (hbar : ℝ) (hh : 0 < hbar)
    (hph1 : Physical (phase N N cov1) hbar) (hph2 : Physical (phase N N cov2) hbar) (hpure : ((2 / hbar) • phase N N cov1).det = 1)
    (ψ φ : (Fin N → ℕ) → ℂ) (hψ : IsFockMatrix N mu1 cov1 hbar fun i j => ψ i * (starRingEnd ℂ) (ψ j)) (hφ : IsFockMatrix N mu2 cov2 hbar fun i j => φ i * (starRingEnd ℂ) (φ j)) :
    ∃ z : ℂ, HasSum (fun n => (starRingEnd ℂ) (ψ n) * φ n) z ∧
      fidelity sqrtm close (2 * N) mu1 (2 * N) (2 * N) cov1 (2 * N) mu2 (2 * N) (2 * N) cov2 hbar = .ok (‖z‖ ^ 2) := by
  obtain ⟨f, hf, -, hsum⟩ := fidelity_pure hs close mu1 mu2 cov1 cov2 hbar hh hph1 hph2 hpure ψ hψ _ hφ
  have hn := summable_inner ψ φ (summable_sq_of_fock hh hph1 hψ) (summable_sq_of_fock hh hph2 hφ)
  refine ⟨_, hn.of_norm.hasSum, ?_⟩
  have h3 := hasSum_mul_conj _ hn
  have h4 : HasSum (fun x : (Fin N → ℕ) × (Fin N → ℕ) => (starRingEnd ℂ) (ψ x.1) * φ x.1 * (starRingEnd ℂ) ((starRingEnd ℂ) (ψ x.2) * φ x.2)) (f : ℂ) := by
    refine hsum.congr_fun fun x => ?_
    simp only [map_mul, Complex.conj_conj]
    ring
  have h5 := h3.unique h4
  rw [hf]
  congr 1
  exact_mod_cast h5.symm

/-- every pure Gaussian state has a state vector, so that the hypotheses of `fidelity_pure` can be met for every pure state -/
theorem pure_vector_exists (mu : ℕ → ℝ) (cov : ℕ → ℕ → ℝ) (hbar : ℝ) (hh : 0 < hbar) (hph : Physical (phase N N cov) hbar) (hpure : ((2 / hbar) • phase N N cov).det = 1) :
    ∃ ψ : (Fin N → ℕ) → ℂ, IsFockMatrix N mu cov hbar fun i j => ψ i * (starRingEnd ℂ) (ψ j) := by
  obtain ⟨S, hS, hSc⟩ := pure_factor hh hph hpure
  obtain ⟨U, hU⟩ := gaussianUnitary_exists hS (fun k => complexToReal N mu hbar k)
  exact ⟨_, gaussianUnitary_pure hS hU hbar hh mu cov hSc (mean_amp (a := fun k => complexToReal N mu hbar k) hh fun _ => rfl)⟩

end Verif.Props
