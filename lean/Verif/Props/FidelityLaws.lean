/-
C100: laws of `fidelity`: symmetry, range, equality only for equal states, invariance under Gaussian unitaries and under the choice of units.
-/
import Verif.Props.FidelityMetric

set_option linter.unusedSectionVars false
set_option linter.unusedSimpArgs false

namespace Verif.Props
open Verif.Model Verif.Model.Symp Verif.Model.Conv Verif.Model.Dec Verif.Model.Fid Verif.Spec Verif.Lemmas Verif.Lemmas.Symp Verif.Lemmas.Heis Verif.Lemmas.FPar Verif.Lemmas.Uhl Matrix

variable {N : ℕ}

theorem cohQuad_surj (hbar : ℝ) (hh : 0 < hbar) (x : Fin N ⊕ Fin N → ℝ) : ∃ α : Fin N → ℂ, cohQuad hbar α = x := by
  have h0 : Real.sqrt (2 * hbar) ≠ 0 := (Real.sqrt_pos.mpr (by linarith)).ne'
  refine ⟨fun k => ⟨x (.inl k) / Real.sqrt (2 * hbar), x (.inr k) / Real.sqrt (2 * hbar)⟩, ?_⟩
  funext p
  rcases p with p | p <;> simp only [cohQuad, Sum.elim_inl, Sum.elim_inr] <;> exact mul_div_cancel₀ _ h0

/-- two quadratic functions with a minimum agree only if they have the same minimum and the same matrix -/
theorem quadratic_unique {n : Type} [Fintype n] [DecidableEq n] (A B : Matrix n n ℝ) (hA : A.PosDef) (hB : B.PosDef) (m m' : n → ℝ) (c c' : ℝ)
    (h : ∀ x, (x - m) ⬝ᵥ A *ᵥ (x - m) + c = (x - m') ⬝ᵥ B *ᵥ (x - m') + c') : m = m' ∧ A = B := by
  have hm : m = m' := by
    by_contra hne
    have h1 := h m
    have h2 := h m'
    rw [sub_self, zero_dotProduct, zero_add] at h1 h2
    have h3 := hA.dotProduct_mulVec_pos (x := m' - m) (sub_ne_zero.mpr (Ne.symm hne))
    have h4 := hB.dotProduct_mulVec_pos (x := m - m') (sub_ne_zero.mpr hne)
    simp only [star_trivial] at h3 h4
    linarith
  subst hm
  refine ⟨rfl, ?_⟩
  have hc : c = c' := by
    have h1 := h m
    rwa [sub_self, zero_dotProduct, zero_dotProduct, zero_add, zero_add] at h1
  have hq : ∀ v, v ⬝ᵥ A *ᵥ v = v ⬝ᵥ B *ᵥ v := fun v => by
    have h1 := h (v + m)
    rw [add_sub_cancel_right, hc] at h1
    exact add_right_cancel h1
  have hAt : ∀ i j, A j i = A i j := fun i j => by have := hA.1.apply i j; simpa using this
  have hBt : ∀ i j, B j i = B i j := fun i j => by have := hB.1.apply i j; simpa using this
  have hs : ∀ (C : Matrix n n ℝ) i j, Pi.single i (1 : ℝ) ⬝ᵥ C *ᵥ Pi.single j 1 = C i j := fun C i j => by
    rw [single_dotProduct, one_mul, mulVec_single_one]; rfl
  have he : ∀ (C : Matrix n n ℝ) i j, (Pi.single i (1 : ℝ) + Pi.single j 1) ⬝ᵥ C *ᵥ (Pi.single i (1 : ℝ) + Pi.single j 1) = C i i + C i j + C j i + C j j := fun C i j => by
    rw [Matrix.mulVec_add, add_dotProduct, dotProduct_add, dotProduct_add, hs, hs, hs, hs]; ring
  have hd : ∀ i, A i i = B i i := fun i => by have := hq (Pi.single i 1); rwa [hs, hs] at this
  ext i j
  have h1 := hq (Pi.single i 1 + Pi.single j 1)
  rw [he, he, hAt i j, hBt i j, hd, hd] at h1
  linarith

/-- the density matrix determines the means and the covariance matrix -/
theorem fockMatrix_faithful (mu1 mu2 : ℕ → ℝ) (cov1 cov2 : RArr) (hbar : ℝ) (hh : 0 < hbar) (hp1 : Physical (phase N N cov1) hbar) (hp2 : Physical (phase N N cov2) hbar) (ρ : (Fin N → ℕ) → (Fin N → ℕ) → ℂ)
    (h1 : IsFockMatrix N mu1 cov1 hbar ρ) (h2 : IsFockMatrix N mu2 cov2 hbar ρ) : phaseVec N mu1 = phaseVec N mu2 ∧ phase N N cov1 = phase N N cov2 := by
  have hpd : ∀ cov : RArr, Physical (phase N N cov) hbar → (phase N N cov + (hbar / 2) • (1 : Matrix (Fin N ⊕ Fin N) (Fin N ⊕ Fin N) ℝ)).PosDef := fun cov hp =>
    (physical_posDef _ hbar hh hp).add_posSemidef (PosSemidef.one.smul (by positivity))
  have hdet : ∀ cov : RArr, Physical (phase N N cov) hbar → 0 < ((1 / hbar) • (phase N N cov + (hbar / 2) • (1 : Matrix (Fin N ⊕ Fin N) (Fin N ⊕ Fin N) ℝ))).det := fun cov hp =>
    ((hpd cov hp).smul (by positivity)).det_pos
  have hfun : ∀ α, husimiFn N mu1 cov1 hbar α = husimiFn N mu2 cov2 hbar α := fun α => by
    have := (h1 α).unique (h2 α)
    exact mul_left_cancel₀ (Real.exp_pos _).ne' (Complex.ofReal_inj.mp this)
  set A := phase N N cov1 + (hbar / 2) • (1 : Matrix (Fin N ⊕ Fin N) (Fin N ⊕ Fin N) ℝ) with hA
  set B := phase N N cov2 + (hbar / 2) • (1 : Matrix (Fin N ⊕ Fin N) (Fin N ⊕ Fin N) ℝ) with hB
  obtain ⟨hm, hAB⟩ := quadratic_unique A⁻¹ B⁻¹ (hpd cov1 hp1).inv (hpd cov2 hp2).inv (phaseVec N mu1) (phaseVec N mu2) (2 * Real.log (Real.sqrt ((1 / hbar) • A).det)) (2 * Real.log (Real.sqrt ((1 / hbar) • B).det)) (by
    intro x
    obtain ⟨α, rfl⟩ := cohQuad_surj hbar hh x
    have h := congrArg Real.log (hfun α)
    simp only [husimiFn] at h
    rw [Real.log_div (Real.exp_pos _).ne' (Real.sqrt_pos.mpr (hdet cov1 hp1)).ne', Real.log_div (Real.exp_pos _).ne' (Real.sqrt_pos.mpr (hdet cov2 hp2)).ne', Real.log_exp, Real.log_exp] at h
    linarith)
  refine ⟨hm, ?_⟩
  have h3 := Matrix.inv_inj hAB (isUnit_iff_ne_zero.mpr (hpd cov1 hp1).det_pos.ne')
  rw [hA, hB] at h3
  exact add_right_cancel h3

/-- coordinates in which the first state is in Williamson form -/
theorem fidelity_frame (mu1 mu2 : ℕ → ℝ) (cov1 cov2 : RArr) (hbar : ℝ) (hh : 0 < hbar) (hp1 : Physical (phase N N cov1) hbar) (hp2 : Physical (phase N N cov2) hbar) :
    ∃ (T s : Matrix (Fin N ⊕ Fin N) (Fin N ⊕ Fin N) ℝ) (d : Fin N → ℝ) (m : Fin N ⊕ Fin N → ℝ) (ν : Fin N → ℝ), T ∈ symplecticGroup (Fin N) ℝ ∧ (∀ k, 1 / 2 ≤ d k) ∧ Physical s 1 ∧
      phase N N cov1 = hbar • (T * dd d * Tᵀ) ∧ phase N N cov2 = hbar • (T * s * Tᵀ) ∧ phaseVec N mu1 - phaseVec N mu2 = Real.sqrt hbar • T *ᵥ m ∧
      SympSpectrum ((2 : ℝ) • sM (dd d) (dd (cof d)) (dd d + s)⁻¹) ν ∧ (∀ k, 1 ≤ ν k) := by
  obtain ⟨ν1, ⟨-, T, hT, hTν⟩, hν1⟩ := sympSpectrum_physical _ hbar hh hp1
  have hu := symp_unit hT
  have hut : IsUnit Tᵀ.det := by rwa [det_transpose]
  have hTi : T⁻¹ ∈ symplecticGroup (Fin N) ℝ := by
    have h1 := (⟨T, hT⟩ : symplecticGroup (Fin N) ℝ)⁻¹.2
    have h2 := SymplecticGroup.coe_inv' ⟨T, hT⟩
    rwa [h2] at h1
  have hd : ∀ k, 1 / 2 ≤ ν1 k / 2 := fun k => by linarith [hν1 k]
  have hs := physical_symplectic _ _ 1 (physical_unit _ hbar 1 hh one_pos hp2) hTi
  have hsM := (vaux_general hd _ hs).1
  obtain ⟨ν, hspec, hν⟩ := sympSpectrum_physical _ 1 one_pos hsM
  rw [div_one] at hspec
  have hsh : Real.sqrt hbar ≠ 0 := (Real.sqrt_pos.mpr hh).ne'
  refine ⟨T, T⁻¹ * ((1 / hbar) • phase N N cov2) * (T⁻¹)ᵀ, fun k => ν1 k / 2, (1 / Real.sqrt hbar) • T⁻¹ *ᵥ (phaseVec N mu1 - phaseVec N mu2), ν, hT, hd, hs, ?_, ?_, ?_, hspec, hν⟩
  · have e : (dd fun k => ν1 k / 2) = (1 / 2 : ℝ) • dd ν1 := by rw [dd_smul]; exact dd_congr fun k => by ring
    rw [e, Matrix.mul_smul, Matrix.smul_mul, dd, ← hTν, smul_smul, smul_smul]
    have : hbar * (1 / 2) * (2 / hbar) = 1 := by field_simp
    rw [this, one_smul]
  · have e1 : T * (T⁻¹ * ((1 / hbar) • phase N N cov2) * (T⁻¹)ᵀ) * Tᵀ = (1 / hbar) • phase N N cov2 := by
      rw [transpose_nonsing_inv]
      calc _ = (T * T⁻¹) * ((1 / hbar) • phase N N cov2) * (Tᵀ⁻¹ * Tᵀ) := by simp only [Matrix.mul_assoc]
        _ = _ := by rw [mul_nonsing_inv _ hu, nonsing_inv_mul _ hut, Matrix.one_mul, Matrix.mul_one]
    rw [e1, smul_smul, mul_one_div_cancel hh.ne', one_smul]
  · rw [Matrix.mulVec_smul, smul_smul, mul_one_div_cancel hsh, one_smul, Matrix.mulVec_mulVec, mul_nonsing_inv _ hu, Matrix.one_mulVec]

section laws
variable {sqrtm : ℕ → RArr → RArr} (hsq : SqrtmDiagContract sqrtm) (close : ℝ → ℝ → Bool) (hc : ∀ x, close x 0 = true → x = 0)
include hsq hc

/-- **C100** `fidelity` does not depend on the order of the two states. -/
theorem fidelity_symm (mu1 mu2 : ℕ → ℝ) (cov1 cov2 : RArr) (hbar : ℝ) (hh : 0 < hbar) (hp1 : Physical (phase N N cov1) hbar) (hp2 : Physical (phase N N cov2) hbar) :
    fidelity sqrtm close (2 * N) mu1 (2 * N) (2 * N) cov1 (2 * N) mu2 (2 * N) (2 * N) cov2 hbar = fidelity sqrtm close (2 * N) mu2 (2 * N) (2 * N) cov2 (2 * N) mu1 (2 * N) (2 * N) cov1 hbar := by
  obtain ⟨ρ, _, _, -, hρ, -⟩ := fock_gram (N := N) mu1 hh hp1
  obtain ⟨σ, _, _, -, hσ, -⟩ := fock_gram (N := N) mu2 hh hp2
  obtain ⟨F, hF, hr⟩ := fidelity_uhlmann hsq close hc mu1 mu2 cov1 cov2 hbar hh hp1 hp2 ρ σ hρ hσ
  obtain ⟨F', hF', hr'⟩ := fidelity_uhlmann hsq close hc mu2 mu1 cov2 cov1 hbar hh hp2 hp1 σ ρ hσ hρ
  rw [hr, hr', hasFidelity_symm hF hF']

/-- **C100** `fidelity` returns a number in `(0, 1]`, and it returns one exactly if the states have the same means and the same covariance matrix. -/
theorem fidelity_range (mu1 mu2 : ℕ → ℝ) (cov1 cov2 : RArr) (hbar : ℝ) (hh : 0 < hbar) (hp1 : Physical (phase N N cov1) hbar) (hp2 : Physical (phase N N cov2) hbar) :
    ∃ F, fidelity sqrtm close (2 * N) mu1 (2 * N) (2 * N) cov1 (2 * N) mu2 (2 * N) (2 * N) cov2 hbar = .ok F ∧ 0 < F ∧ F ≤ 1 ∧ (F = 1 ↔ phaseVec N mu1 = phaseVec N mu2 ∧ phase N N cov1 = phase N N cov2) := by
  obtain ⟨ρ, _, _, -, hρ, -⟩ := fock_gram (N := N) mu1 hh hp1
  obtain ⟨σ, _, _, -, hσ, -⟩ := fock_gram (N := N) mu2 hh hp2
  obtain ⟨F, hF, hr⟩ := fidelity_uhlmann hsq close hc mu1 mu2 cov1 cov2 hbar hh hp1 hp2 ρ σ hρ hσ
  obtain ⟨r, U, hU⟩ := gaussian_spectral mu2 cov2 hbar hh hp2 σ hσ
  obtain ⟨-, hF1, hFe⟩ := hasFidelity_bound hU hF
  refine ⟨F, hr, ?_, hF1, fun h1 => ?_, fun ⟨hm, hv⟩ => ?_⟩
  · obtain ⟨T, s, d, m, ν, hT, hd, hs, e1, e2, e3, hspec, hν⟩ := fidelity_frame mu1 mu2 cov1 cov2 hbar hh hp1 hp2
    have hval := fidelity_value hsq close hc mu1 mu2 cov1 cov2 hbar hh T s hT d hd hs e1 e2 m e3 ν hspec hν
    rw [hr] at hval
    rw [Except.ok.inj hval]
    have hpd : (dd d + s).PosDef := by
      refine PosDef.add_posSemidef (PosDef.diagonal fun p => ?_) (physical_posDef s 1 one_pos hs).posSemidef
      rcases p with p | p <;> exact lt_of_lt_of_le (by norm_num) (hd p)
    refine mul_pos (div_pos (Finset.prod_pos fun k _ => ?_) (Real.sqrt_pos.mpr hpd.det_pos)) (Real.exp_pos _)
    have := hν k
    have := Real.sqrt_nonneg (ν k * ν k - 1)
    linarith
  · have := hFe h1
    subst this
    exact fockMatrix_faithful mu1 mu2 cov1 cov2 hbar hh hp1 hp2 ρ hρ hσ
  · have hρ' : IsFockMatrix N mu1 cov1 hbar σ := by
      intro α
      have := hσ α
      rw [husimiFn, ← hm, ← hv] at this
      exact this
    have e : ρ = σ := fockMatrix_unique hρ hρ'
    subst e
    exact hasFidelity_unique hU hF (hasFidelity_self hU)

/-- **C100** `fidelity` is invariant under Gaussian unitaries: the same symplectic matrix and displacement applied to both states. -/
theorem fidelity_invariant (mu1 mu2 mu1' mu2' : ℕ → ℝ) (cov1 cov2 cov1' cov2' : RArr) (hbar : ℝ) (hh : 0 < hbar) (hp1 : Physical (phase N N cov1) hbar) (hp2 : Physical (phase N N cov2) hbar)
    (S : Matrix (Fin N ⊕ Fin N) (Fin N ⊕ Fin N) ℝ) (hS : S ∈ symplecticGroup (Fin N) ℝ) (v : Fin N ⊕ Fin N → ℝ) (hc1 : phase N N cov1' = S * phase N N cov1 * Sᵀ) (hc2 : phase N N cov2' = S * phase N N cov2 * Sᵀ)
    (hm1 : phaseVec N mu1' = S *ᵥ phaseVec N mu1 + v) (hm2 : phaseVec N mu2' = S *ᵥ phaseVec N mu2 + v) :
    fidelity sqrtm close (2 * N) mu1' (2 * N) (2 * N) cov1' (2 * N) mu2' (2 * N) (2 * N) cov2' hbar = fidelity sqrtm close (2 * N) mu1 (2 * N) (2 * N) cov1 (2 * N) mu2 (2 * N) (2 * N) cov2 hbar := by
  obtain ⟨T, s, d, m, ν, hT, hd, hs, e1, e2, e3, hspec, hν⟩ := fidelity_frame mu1 mu2 cov1 cov2 hbar hh hp1 hp2
  have h := fun X : Matrix (Fin N ⊕ Fin N) (Fin N ⊕ Fin N) ℝ => show S * (hbar • (T * X * Tᵀ)) * Sᵀ = hbar • (S * T * X * (S * T)ᵀ) by
    rw [Matrix.mul_smul, Matrix.smul_mul, transpose_mul]; simp only [Matrix.mul_assoc]
  rw [fidelity_value hsq close hc mu1 mu2 cov1 cov2 hbar hh T s hT d hd hs e1 e2 m e3 ν hspec hν,
    fidelity_value hsq close hc mu1' mu2' cov1' cov2' hbar hh (S * T) s (mul_mem hS hT) d hd hs (by rw [hc1, e1, h]) (by rw [hc2, e2, h]) m (by
      rw [hm1, hm2, add_sub_add_right_eq_sub, ← Matrix.mulVec_sub, e3, Matrix.mulVec_smul, Matrix.mulVec_mulVec]) ν hspec hν]

/-- **C100** `fidelity` does not depend on the units: means in units of `√ħ` and covariance matrices in units of `ħ`. -/
theorem fidelity_units (mu1 mu2 mu1' mu2' : ℕ → ℝ) (cov1 cov2 cov1' cov2' : RArr) (hbar hbar' : ℝ) (hh : 0 < hbar) (hh' : 0 < hbar') (hp1 : Physical (phase N N cov1) hbar) (hp2 : Physical (phase N N cov2) hbar)
    (hc1 : phase N N cov1' = (hbar' / hbar) • phase N N cov1) (hc2 : phase N N cov2' = (hbar' / hbar) • phase N N cov2) (hm1 : phaseVec N mu1' = Real.sqrt (hbar' / hbar) • phaseVec N mu1)
    (hm2 : phaseVec N mu2' = Real.sqrt (hbar' / hbar) • phaseVec N mu2) :
    fidelity sqrtm close (2 * N) mu1' (2 * N) (2 * N) cov1' (2 * N) mu2' (2 * N) (2 * N) cov2' hbar' = fidelity sqrtm close (2 * N) mu1 (2 * N) (2 * N) cov1 (2 * N) mu2 (2 * N) (2 * N) cov2 hbar := by
  obtain ⟨T, s, d, m, ν, hT, hd, hs, e1, e2, e3, hspec, hν⟩ := fidelity_frame mu1 mu2 cov1 cov2 hbar hh hp1 hp2
  have e : hbar' / hbar * hbar = hbar' := div_mul_cancel₀ _ hh.ne'
  have e' : Real.sqrt (hbar' / hbar) * Real.sqrt hbar = Real.sqrt hbar' := by rw [← Real.sqrt_mul (by positivity), e]
  rw [fidelity_value hsq close hc mu1 mu2 cov1 cov2 hbar hh T s hT d hd hs e1 e2 m e3 ν hspec hν,
    fidelity_value hsq close hc mu1' mu2' cov1' cov2' hbar' hh' T s hT d hd hs (by rw [hc1, e1, smul_smul, e]) (by rw [hc2, e2, smul_smul, e]) m (by
      rw [hm1, hm2, ← smul_sub, e3, smul_smul, e']) ν hspec hν]

/-- the hypotheses hold for a two-mode squeezed vacuum and the vacuum, whose fidelity is below one -/
example : ∃ F, fidelity sqrtm close 4 (fun _ => 0) 4 4 tmsExample 4 (vacuumState 2 2).mu 4 4 (vacuumState 2 2).cov 2 = .ok F ∧ 0 < F ∧ F < 1 := by
  have hp1 : Physical (phase 2 2 tmsExample) 2 := (physical_iff_spectrum _ 2 (by norm_num) _ tmsExample_spec).mpr fun _ => by norm_num
  have hp2 := (physical_vacuum 2 2 (by norm_num)).1
  obtain ⟨F, hr, h0, h1, h2⟩ := fidelity_range (N := 2) hsq close hc (fun _ => 0) (vacuumState 2 2).mu tmsExample (vacuumState 2 2).cov 2 (by norm_num) hp1 hp2
  refine ⟨F, hr, h0, lt_of_le_of_ne h1 fun h => ?_⟩
  have h3 := congrFun (congrFun (h2.mp h).2 (.inl 0)) (.inl 1)
  revert h3
  simp [phase, quad, tmsExample, vacuumState, eye]

end laws

end Verif.Props
