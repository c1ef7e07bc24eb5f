/-
C81: `fidelity` of Gaussian states.
-/
import Verif.Model.Fidelity
import Verif.Props.GaussianEvolution

set_option linter.unusedSectionVars false
set_option linter.unusedSimpArgs false

namespace Verif.Props
open Verif.Model Verif.Model.Symp Verif.Model.Conv Verif.Model.Dec Verif.Model.Fid Verif.Spec Verif.Lemmas Verif.Lemmas.Symp Verif.Lemmas.Heis Verif.Lemmas.FPar Matrix

/-- `SqrtmDiagContract` can be met: the square root does not depend on the diagonalisation. -/
theorem sqrtmDiag_exists : ∃ sqrtm, SqrtmDiagContract sqrtm := by
  classical
  refine ⟨fun n M => if h : ∃ (T : Matrix (Fin n) (Fin n) ℝ) (d : Fin n → ℝ), IsUnit T.det ∧ (∀ i, 0 ≤ d i) ∧ toMatrix n n M = T * diagonal d * T⁻¹ then
    Verif.ofMatrix (h.choose * diagonal (fun i => Real.sqrt (h.choose_spec.choose i)) * h.choose⁻¹) fun _ _ => 0 else fun _ _ => 0, ?_⟩
  intro n M T d hT hd hM
  have h : ∃ (T : Matrix (Fin n) (Fin n) ℝ) (d : Fin n → ℝ), IsUnit T.det ∧ (∀ i, 0 ≤ d i) ∧ toMatrix n n M = T * diagonal d * T⁻¹ := ⟨T, d, hT, hd, hM⟩
  simp only [dif_pos h]
  obtain ⟨hT', hd', hM'⟩ := h.choose_spec.choose_spec
  generalize h.choose_spec.choose = d' at hT' hd' hM' ⊢
  generalize h.choose = T' at hT' hd' hM' ⊢
  rw [toMatrix_ofMatrix]
  have e : T'⁻¹ * T * diagonal d = diagonal d' * (T'⁻¹ * T) := by
    have : T * diagonal d * T⁻¹ = T' * diagonal d' * T'⁻¹ := hM.symm.trans hM'
    calc T'⁻¹ * T * diagonal d = T'⁻¹ * (T * diagonal d * T⁻¹) * T := by
          simp only [Matrix.mul_assoc, nonsing_inv_mul _ hT, Matrix.mul_one]
      _ = T'⁻¹ * (T' * diagonal d' * T'⁻¹) * T := by rw [this]
      _ = diagonal d' * (T'⁻¹ * T) := by
          simp only [← Matrix.mul_assoc, nonsing_inv_mul _ hT', Matrix.one_mul]
  have e2 : T'⁻¹ * T * diagonal (fun i => Real.sqrt (d i)) = diagonal (fun i => Real.sqrt (d' i)) * (T'⁻¹ * T) := by
    ext i j
    have := congrFun (congrFun e i) j
    rw [mul_diagonal, diagonal_mul] at this ⊢
    by_cases h0 : (T'⁻¹ * T) i j = 0
    · rw [h0]; simp
    · rw [mul_comm] at this
      rw [mul_right_cancel₀ h0 this, mul_comm]
  calc T' * diagonal (fun i => Real.sqrt (d' i)) * T'⁻¹ = T' * (diagonal (fun i => Real.sqrt (d' i)) * (T'⁻¹ * T)) * T⁻¹ := by
        simp only [Matrix.mul_assoc, mul_nonsing_inv _ hT, Matrix.mul_one]
    _ = T' * (T'⁻¹ * T * diagonal (fun i => Real.sqrt (d i))) * T⁻¹ := by rw [e2]
    _ = T * diagonal (fun i => Real.sqrt (d i)) * T⁻¹ := by
        simp only [← Matrix.mul_assoc, mul_nonsing_inv _ hT', Matrix.one_mul]

section core
variable {ι : Type} [Fintype ι] [DecidableEq ι]

/-- `vaux` of the two covariance matrices -/
noncomputable def vauxM (s1 s2 : Matrix (ι ⊕ ι) (ι ⊕ ι) ℝ) : Matrix (ι ⊕ ι) (ι ⊕ ι) ℝ := (-J ι ℝ)ᵀ * (s1 + s2)⁻¹ * ((1 / 4 : ℝ) • (-J ι ℝ) + s2 * -J ι ℝ * s1)

theorem omega_tr : (-J ι ℝ)ᵀ = J ι ℝ := by rw [transpose_neg, J_transpose, neg_neg]

theorem vaux_pure1 (s1 s2 : Matrix (ι ⊕ ι) (ι ⊕ ι) ℝ) (hs : IsUnit (s1 + s2).det) (h1 : s1 * J ι ℝ * s1 = (1 / 4 : ℝ) • J ι ℝ) : vauxM s1 s2 = s1 := by
  have e : (1 / 4 : ℝ) • (-J ι ℝ) + s2 * -J ι ℝ * s1 = -((s1 + s2) * J ι ℝ * s1) := by
    rw [smul_neg, ← h1, Matrix.mul_neg, Matrix.neg_mul, Matrix.add_mul, Matrix.add_mul, neg_add]
  have e2 : (s1 + s2)⁻¹ * ((s1 + s2) * J ι ℝ * s1) = J ι ℝ * s1 := by
    rw [← Matrix.mul_assoc, ← Matrix.mul_assoc, nonsing_inv_mul _ hs, Matrix.one_mul]
  rw [vauxM, e, omega_tr, Matrix.mul_assoc, Matrix.mul_neg, e2, Matrix.mul_neg, ← Matrix.mul_assoc, J_squared]
  simp

theorem vaux_pure2 (s1 s2 : Matrix (ι ⊕ ι) (ι ⊕ ι) ℝ) (h1 : s2 * J ι ℝ * s2 = (1 / 4 : ℝ) • J ι ℝ) : vauxM s1 s2 = -(J ι ℝ * (s1 + s2)⁻¹ * s2 * J ι ℝ * (s1 + s2)) := by
  have e : (1 / 4 : ℝ) • (-J ι ℝ) + s2 * -J ι ℝ * s1 = -(s2 * J ι ℝ * (s1 + s2)) := by
    rw [smul_neg, ← h1, Matrix.mul_neg, Matrix.neg_mul, Matrix.mul_add, neg_add, add_comm]
  rw [vauxM, e, omega_tr, Matrix.mul_neg]
  simp only [Matrix.mul_assoc]

/-- the commutant property of pure states: `(v Ω)² = -1/4` -/
theorem vaux_sq1 (s1 : Matrix (ι ⊕ ι) (ι ⊕ ι) ℝ) (h1 : s1 * J ι ℝ * s1 = (1 / 4 : ℝ) • J ι ℝ) : s1 * -J ι ℝ * s1 * -J ι ℝ = (-(1 / 4) : ℝ) • 1 := by
  rw [Matrix.mul_neg, Matrix.mul_neg, Matrix.neg_mul, Matrix.neg_mul, neg_neg, h1, Matrix.smul_mul, J_squared]
  simp

theorem vaux_sq2 (s s2 : Matrix (ι ⊕ ι) (ι ⊕ ι) ℝ) (hs : IsUnit s.det) (h1 : s2 * J ι ℝ * s2 = (1 / 4 : ℝ) • J ι ℝ) :
    -(J ι ℝ * s⁻¹ * s2 * J ι ℝ * s) * -J ι ℝ * -(J ι ℝ * s⁻¹ * s2 * J ι ℝ * s) * -J ι ℝ = (-(1 / 4) : ℝ) • 1 := by
  have hJ : ∀ X : Matrix (ι ⊕ ι) (ι ⊕ ι) ℝ, J ι ℝ * (J ι ℝ * X) = -X := fun X => by rw [← Matrix.mul_assoc, J_squared, Matrix.neg_mul, Matrix.one_mul]
  have hi : ∀ X : Matrix (ι ⊕ ι) (ι ⊕ ι) ℝ, s * (s⁻¹ * X) = X := fun X => by rw [← Matrix.mul_assoc, mul_nonsing_inv _ hs, Matrix.one_mul]
  have hi' : ∀ X : Matrix (ι ⊕ ι) (ι ⊕ ι) ℝ, s⁻¹ * (s * X) = X := fun X => by rw [← Matrix.mul_assoc, nonsing_inv_mul _ hs, Matrix.one_mul]
  have h2 : ∀ X : Matrix (ι ⊕ ι) (ι ⊕ ι) ℝ, s2 * (J ι ℝ * (s2 * X)) = (1 / 4 : ℝ) • (J ι ℝ * X) := fun X => by
    rw [← Matrix.mul_assoc, ← Matrix.mul_assoc, h1, Matrix.smul_mul]
  simp only [Matrix.mul_assoc, Matrix.mul_neg, Matrix.neg_mul, neg_neg, hJ, hi, h2, Matrix.mul_smul, hi']
  rw [nonsing_inv_mul _ hs, Matrix.mul_one, Matrix.smul_mul, Matrix.neg_mul, J_squared]
  simp

end core

variable {N : ℕ}

theorem npInvR_phase (N : ℕ) (A : RArr) (h : (phase N N A).det ≠ 0) : ∃ B, npInvR (2 * N) A = .ok B ∧ phase N N B = (phase N N A)⁻¹ := by
  rw [phase_det] at h
  obtain ⟨B, hB, hBm⟩ := npInvR_ok (2 * N) A h
  refine ⟨B, hB, ?_⟩
  rw [phase_toMatrix N B, hBm, phase_toMatrix N A, inv_submatrix_equiv]

/-- the contract of `sqrtm` for arrays of quadratures -/
theorem sqrtm_phase {sqrtm : ℕ → RArr → RArr} (hs : SqrtmDiagContract sqrtm) (A : RArr) (T : Matrix (Fin N ⊕ Fin N) (Fin N ⊕ Fin N) ℝ) (d : Fin N ⊕ Fin N → ℝ) (hT : IsUnit T.det) (hd : ∀ p, 0 ≤ d p)
    (hA : phase N N A = T * diagonal d * T⁻¹) : phase N N (sqrtm (2 * N) A) = T * diagonal (fun p => Real.sqrt (d p)) * T⁻¹ := by
  have h1 : toMatrix (2 * N) (2 * N) A = (phase N N A).submatrix (quadEquiv N).symm (quadEquiv N).symm := by
    rw [phase_toMatrix, submatrix_submatrix]; simp
  have e : ∀ d : Fin N ⊕ Fin N → ℝ, (T * diagonal d * T⁻¹).submatrix (quadEquiv N).symm (quadEquiv N).symm =
      T.submatrix (quadEquiv N).symm (quadEquiv N).symm * diagonal (d ∘ (quadEquiv N).symm) * (T.submatrix (quadEquiv N).symm (quadEquiv N).symm)⁻¹ := by
    intro d
    rw [← submatrix_mul_equiv _ _ _ (quadEquiv N).symm, ← submatrix_mul_equiv _ _ _ (quadEquiv N).symm, submatrix_diagonal_equiv, inv_submatrix_equiv]
  have h2 := hs (2 * N) A (T.submatrix (quadEquiv N).symm (quadEquiv N).symm) (d ∘ (quadEquiv N).symm) (by rwa [det_submatrix_equiv_self]) (fun i => hd _) (by rw [h1, hA, e])
  rw [phase_toMatrix, h2]
  have e2 := e fun p => Real.sqrt (d p)
  have e3 : (fun i => Real.sqrt ((d ∘ (quadEquiv N).symm) i)) = (fun p => Real.sqrt (d p)) ∘ (quadEquiv N).symm := rfl
  rw [e3, ← e2, submatrix_submatrix]
  simp

/-- the quadratic form computed by two nested dot products -/
theorem quadForm_phase (B : RArr) (v : ℕ → ℝ) : dot (2 * N) (fun j => dot (2 * N) v fun i => B i j) v = phaseVec N v ⬝ᵥ phase N N B *ᵥ phaseVec N v := by
  simp only [dot_sum, ← sum_quad N, dotProduct, Matrix.mulVec]
  simp only [Finset.sum_mul, Finset.mul_sum]
  rw [Finset.sum_comm]
  refine Finset.sum_congr rfl fun p _ => Finset.sum_congr rfl fun q _ => ?_
  simp only [phaseVec, phase, of_apply]
  ring

/-- what `fidelity` computes, given the eigenvalues of the argument of the matrix square root -/
theorem fidelity_run {sqrtm : ℕ → RArr → RArr} (hs : SqrtmDiagContract sqrtm) (close : ℝ → ℝ → Bool) (mu1 mu2 : ℕ → ℝ) (cov1 cov2 : RArr) (hbar : ℝ)
    (s1 s2 v T : Matrix (Fin N ⊕ Fin N) (Fin N ⊕ Fin N) ℝ) (d : Fin N ⊕ Fin N → ℝ) (h1 : (1 / hbar) • phase N N cov1 = s1) (h2 : (1 / hbar) • phase N N cov2 = s2)
    (hdet : (s1 + s2).det ≠ 0) (hv : vauxM s1 s2 = v) (hvd : (v * -J (Fin N) ℝ * v * -J (Fin N) ℝ).det ≠ 0) (hT : IsUnit T.det) (hd : ∀ p, 0 ≤ d p)
    (hA : 1 + (1 / 4 : ℝ) • (v * -J (Fin N) ℝ * v * -J (Fin N) ℝ)⁻¹ = T * diagonal d * T⁻¹) (hcl : (∀ x, close x 0 = true → x = 0) ∨ d = 0) :
    fidelity sqrtm close (2 * N) mu1 (2 * N) (2 * N) cov1 (2 * N) mu2 (2 * N) (2 * N) cov2 hbar =
      .ok (Real.sqrt ((s1 + s2)⁻¹.det * ((2 : ℝ) • ((T * diagonal (fun p => Real.sqrt (d p)) * T⁻¹ + 1) * v)).det) *
        Real.exp (-(1 / 2) * (((1 / Real.sqrt hbar) • (phaseVec N mu1 - phaseVec N mu2)) ⬝ᵥ (s1 + s2)⁻¹ *ᵥ ((1 / Real.sqrt hbar) • (phaseVec N mu1 - phaseVec N mu2))))) := by
  unfold fidelity
  have hl : (2 * N = 1) = False := by simp
  have hN : 2 * N / 2 = N := by omega
  have hodd : ¬ (2 * N % 2 = 1) := by omega
  have e1 : phase N N (fun i j => cov1 i j / hbar) = s1 := by
    rw [← h1]; ext p q; simp only [phase, of_apply, Matrix.smul_apply, smul_eq_mul]; ring
  have e2 : phase N N (fun i j => cov2 i j / hbar) = s2 := by
    rw [← h2]; ext p q; simp only [phase, of_apply, Matrix.smul_apply, smul_eq_mul]; ring
  have e3 : phase N N (fun i j => cov1 i j / hbar + cov2 i j / hbar) = s1 + s2 := by rw [← e1, ← e2]; rfl
  obtain ⟨B, hB, hBm⟩ := npInvR_phase N (fun i j => cov1 i j / hbar + cov2 i j / hbar) (by rwa [e3])
  rw [e3] at hBm
  have e4 : phase N N (vauxOf (2 * N) (sympmat N) B (fun i j => cov1 i j / hbar) fun i j => cov2 i j / hbar) = v := by
    unfold vauxOf
    rw [phase_mmul, phase_mmul, phase_tr, hBm, phase_sympmat, ← hv, vauxM]
    congr 1
    have : ∀ A B : RArr, phase N N (fun i j => 1 / 4 * A i j + B i j) = (1 / 4 : ℝ) • phase N N A + phase N N B := fun A B => rfl
    rw [this, phase_mmul, phase_mmul, e1, e2, phase_sympmat]
  obtain ⟨C, hC, hCm⟩ := npInvR_phase N (mmul (2 * N) (mmul (2 * N) (mmul (2 * N) (vauxOf (2 * N) (sympmat N) B (fun i j => cov1 i j / hbar) fun i j => cov2 i j / hbar) (sympmat N))
    (vauxOf (2 * N) (sympmat N) B (fun i j => cov1 i j / hbar) fun i j => cov2 i j / hbar)) (sympmat N)) (by
      rw [phase_mmul, phase_mmul, phase_mmul, e4, phase_sympmat]; exact hvd)
  rw [phase_mmul, phase_mmul, phase_mmul, e4, phase_sympmat] at hCm
  simp only [bind, Except.bind, pure, Except.pure, throw, throwThe, MonadExceptOf.throw, and_self, not_true, if_false, true_or, hl, hB, hodd, hN, hC]
  generalize vauxOf (2 * N) (sympmat N) B (fun i j => cov1 i j / hbar) (fun i j => cov2 i j / hbar) = va at *
  have e5 : phase N N (fun i j => eye i j + 1 / 4 * C i j) = T * diagonal d * T⁻¹ := by
    rw [← hA, ← hCm, ← phase_eye]; rfl
  have e6 : phase N N (if allClose2 close (2 * N) (2 * N) (fun i j => eye i j + 1 / 4 * C i j) (fun _ _ => 0) = true then (fun _ _ => 0)
      else sqrtm (2 * N) fun i j => eye i j + 1 / 4 * C i j) = T * diagonal (fun p => Real.sqrt (d p)) * T⁻¹ := by
    split_ifs with hz
    · have h0 : phase N N (fun i j => eye i j + 1 / 4 * C i j) = 0 ∨ d = 0 := by
        rcases hcl with hcl | hcl
        · left
          rw [allClose2_iff] at hz
          ext p q
          exact hcl _ (hz _ (quad_lt N p) _ (quad_lt N q))
        · exact .inr hcl
      have hd0 : d = 0 := by
        rcases h0 with h0 | h0
        · rw [e5] at h0
          have : diagonal d = (0 : Matrix (Fin N ⊕ Fin N) (Fin N ⊕ Fin N) ℝ) := by
            calc diagonal d = T⁻¹ * (T * diagonal d * T⁻¹) * T := by
                  simp only [← Matrix.mul_assoc, nonsing_inv_mul _ hT, Matrix.one_mul]
                  rw [Matrix.mul_assoc, nonsing_inv_mul _ hT, Matrix.mul_one]
              _ = 0 := by rw [h0]; simp
          funext p
          have := congrFun (congrFun this p) p
          simpa using this
        · exact h0
      have hz0 : phase N N (fun _ _ => (0 : ℝ)) = 0 := rfl
      rw [hd0, hz0]
      simp
    · exact sqrtm_phase hs _ T d hT hd e5
  generalize (if allClose2 close (2 * N) (2 * N) (fun i j => eye i j + 1 / 4 * C i j) (fun _ _ => 0) = true then (fun _ _ => (0 : ℝ))
      else sqrtm (2 * N) fun i j => eye i j + 1 / 4 * C i j) = R at *
  have e7 : phase N N (mmul (2 * N) (fun i j => 2 * (R i j + eye i j)) va) = (2 : ℝ) • ((T * diagonal (fun p => Real.sqrt (d p)) * T⁻¹ + 1) * v) := by
    rw [phase_mmul, e4, ← e6, ← phase_eye, ← Matrix.smul_mul]; rfl
  have e8 : phaseVec N (fun i => (mu1 i - mu2 i) / Real.sqrt hbar) = (1 / Real.sqrt hbar) • (phaseVec N mu1 - phaseVec N mu2) := by
    funext p; simp only [phaseVec, Pi.smul_apply, Pi.sub_apply, smul_eq_mul]; ring
  rw [← phase_det, ← phase_det, e7, hBm, quadForm_phase, e8, hBm]

/-- a pure covariance matrix in units of `ħ` -/
theorem pure_sigma {cov : RArr} {hbar : ℝ} (hh : 0 < hbar) (hph : Physical (phase N N cov) hbar) (hpure : ((2 / hbar) • phase N N cov).det = 1) :
    ((1 / hbar) • phase N N cov) * J (Fin N) ℝ * ((1 / hbar) • phase N N cov) = (1 / 4 : ℝ) • J (Fin N) ℝ ∧ ((2 : ℝ) • ((1 / hbar) • phase N N cov)).det = 1 := by
  have h1 := SymplecticGroup.mem_iff.mp ((physical_pure_iff _ hbar hh hph).mp hpure)
  have hsym : (phase N N cov)ᵀ = phase N N cov := hph.1
  rw [transpose_smul, hsym] at h1
  refine ⟨?_, ?_⟩
  · have h2 := congrArg (fun X => (1 / 4 : ℝ) • X) h1
    refine Eq.trans ?_ h2
    simp only [Matrix.smul_mul, Matrix.mul_smul, smul_smul]
    congr 1
    ring
  · rw [smul_smul, mul_one_div]; exact hpure

theorem sum_det {cov1 cov2 : RArr} {hbar : ℝ} (hh : 0 < hbar) (hph1 : Physical (phase N N cov1) hbar) (hph2 : Physical (phase N N cov2) hbar) :
    0 < ((1 / hbar) • phase N N cov1 + (1 / hbar) • phase N N cov2).det := by
  have h1 := physical_posDef _ hbar hh hph1
  have h2 := physical_posDef _ hbar hh hph2
  rw [← smul_add]
  exact ((h1.add h2).smul (by positivity)).det_pos

/-- the overlap of two Gaussian Wigner functions, as computed for states one of which is pure -/
theorem fidelity_overlap {sqrtm : ℕ → RArr → RArr} (hs : SqrtmDiagContract sqrtm) (close : ℝ → ℝ → Bool) (mu1 mu2 : ℕ → ℝ) (cov1 cov2 : RArr) (hbar : ℝ) (hh : 0 < hbar)
    (hph1 : Physical (phase N N cov1) hbar) (hph2 : Physical (phase N N cov2) hbar) (hpure : ((2 / hbar) • phase N N cov1).det = 1 ∨ ((2 / hbar) • phase N N cov2).det = 1) :
    fidelity sqrtm close (2 * N) mu1 (2 * N) (2 * N) cov1 (2 * N) mu2 (2 * N) (2 * N) cov2 hbar =
      .ok (Real.exp (-((phaseVec N mu1 - phaseVec N mu2) ⬝ᵥ (phase N N cov1 + phase N N cov2)⁻¹ *ᵥ (phaseVec N mu1 - phaseVec N mu2)) / 2) /
        Real.sqrt ((1 / hbar) • (phase N N cov1 + phase N N cov2)).det) := by
  have hdet := sum_det hh hph1 hph2
  have hu : IsUnit ((1 / hbar) • phase N N cov1 + (1 / hbar) • phase N N cov2).det := isUnit_iff_ne_zero.mpr hdet.ne'
  obtain ⟨v, hv, hsq, hdv⟩ : ∃ v, vauxM ((1 / hbar) • phase N N cov1) ((1 / hbar) • phase N N cov2) = v ∧ v * -J (Fin N) ℝ * v * -J (Fin N) ℝ = (-(1 / 4) : ℝ) • 1 ∧ ((2 : ℝ) • v).det = 1 := by
    rcases hpure with hp | hp
    · obtain ⟨h1, h2⟩ := pure_sigma hh hph1 hp
      exact ⟨_, vaux_pure1 _ _ hu h1, vaux_sq1 _ h1, h2⟩
    · obtain ⟨h1, h2⟩ := pure_sigma hh hph2 hp
      refine ⟨_, vaux_pure2 _ _ h1, vaux_sq2 _ _ hu h1, ?_⟩
      have hJ : (J (Fin N) ℝ).det * (J (Fin N) ℝ).det = 1 := by rw [SymplecticGroup.det_eq_one (SymplecticGroup.J_mem _ _)]; norm_num
      have e : (2 : ℝ) • -(J (Fin N) ℝ * ((1 / hbar) • phase N N cov1 + (1 / hbar) • phase N N cov2)⁻¹ * ((1 / hbar) • phase N N cov2) * J (Fin N) ℝ *
          ((1 / hbar) • phase N N cov1 + (1 / hbar) • phase N N cov2)) = (-J (Fin N) ℝ) * ((1 / hbar) • phase N N cov1 + (1 / hbar) • phase N N cov2)⁻¹ * ((2 : ℝ) • ((1 / hbar) • phase N N cov2)) * J (Fin N) ℝ *
          ((1 / hbar) • phase N N cov1 + (1 / hbar) • phase N N cov2) := by
        simp only [Matrix.mul_smul, Matrix.smul_mul, Matrix.neg_mul, smul_neg]
      have hJn : (-J (Fin N) ℝ).det = 1 := SymplecticGroup.det_eq_one (SymplecticGroup.neg_mem (SymplecticGroup.J_mem _ _))
      have hJ1 : (J (Fin N) ℝ).det = 1 := SymplecticGroup.det_eq_one (SymplecticGroup.J_mem _ _)
      rw [e, det_mul, det_mul, det_mul, det_mul, h2, hJn, hJ1, det_nonsing_inv, one_mul, mul_one, mul_one]
      exact Ring.inverse_mul_cancel _ hu
  have hvi : (v * -J (Fin N) ℝ * v * -J (Fin N) ℝ)⁻¹ = (-4 : ℝ) • 1 := by
    rw [hsq]
    apply Matrix.inv_eq_left_inv
    rw [Matrix.smul_mul, Matrix.one_mul, smul_smul]
    norm_num
  have hr := fidelity_run hs close mu1 mu2 cov1 cov2 hbar _ _ v 1 0 rfl rfl hdet.ne' hv (by rw [hsq, det_smul, det_one, mul_one]; exact pow_ne_zero _ (by norm_num)) (by simp) (fun _ => le_rfl) (by
    rw [hvi, smul_smul]
    have h0 : diagonal (0 : Fin N ⊕ Fin N → ℝ) = 0 := diagonal_zero
    rw [h0]; norm_num) (.inr rfl)
  rw [hr]
  have hz : (1 : Matrix (Fin N ⊕ Fin N) (Fin N ⊕ Fin N) ℝ) * diagonal (fun p : Fin N ⊕ Fin N => Real.sqrt ((0 : Fin N ⊕ Fin N → ℝ) p)) * 1⁻¹ = 0 := by simp
  rw [hz, zero_add, Matrix.one_mul, hdv, mul_one, ← smul_add, det_nonsing_inv, Ring.inverse_eq_inv', Real.sqrt_inv, ← div_eq_inv_mul]
  congr 3
  have hinv : ((1 / hbar) • (phase N N cov1 + phase N N cov2))⁻¹ = hbar • (phase N N cov1 + phase N N cov2)⁻¹ := by
    have hu2 : IsUnit (phase N N cov1 + phase N N cov2).det := isUnit_iff_ne_zero.mpr ((physical_posDef _ hbar hh hph1).add (physical_posDef _ hbar hh hph2)).det_pos.ne'
    apply Matrix.inv_eq_left_inv
    rw [Matrix.smul_mul, Matrix.mul_smul, nonsing_inv_mul _ hu2, smul_smul, mul_one_div_cancel hh.ne', one_smul]
  rw [hinv, Matrix.smul_mulVec, Matrix.mulVec_smul, smul_dotProduct, dotProduct_smul, dotProduct_smul]
  have hsq2 : Real.sqrt hbar * Real.sqrt hbar = hbar := Real.mul_self_sqrt hh.le
  have hs0 : Real.sqrt hbar ≠ 0 := (Real.sqrt_pos.mpr hh).ne'
  simp only [smul_eq_mul]
  have : 1 / Real.sqrt hbar * (hbar * (1 / Real.sqrt hbar)) = 1 := by
    rw [mul_one_div, ← mul_div_assoc, div_eq_one_iff_eq hs0]
    field_simp
    linarith [hsq2, sq (Real.sqrt hbar)]
  linear_combination (-(1 / 2) * ((phaseVec N mu1 - phaseVec N mu2) ⬝ᵥ (phase N N cov1 + phase N N cov2)⁻¹ *ᵥ (phaseVec N mu1 - phaseVec N mu2))) * this

end Verif.Props
