/-
C101: the effect of the tolerance of `np.allclose` on `fidelity`.
-/
import Verif.Props.FidelityLaws

set_option linter.unusedSectionVars false
set_option linter.unusedSimpArgs false

namespace Verif.Props
open Verif.Model Verif.Model.Symp Verif.Model.Conv Verif.Model.Dec Verif.Model.Fid Verif.Spec Verif.Lemmas Verif.Lemmas.Symp Verif.Lemmas.Heis Verif.Lemmas.FPar Verif.Lemmas.Uhl Matrix

variable {N : ℕ}

/-- what `fidelity` computes, for every `sqrtm` and every test `close` -/
theorem fidelity_branch (mu1 mu2 : ℕ → ℝ) (cov1 cov2 : RArr) (hbar : ℝ)
    (s1 s2 v : Matrix (Fin N ⊕ Fin N) (Fin N ⊕ Fin N) ℝ) (h1 : (1 / hbar) • phase N N cov1 = s1) (h2 : (1 / hbar) • phase N N cov2 = s2)
    (hdet : (s1 + s2).det ≠ 0) (hv : vauxM s1 s2 = v) (hvd : (v * -J (Fin N) ℝ * v * -J (Fin N) ℝ).det ≠ 0) :
    ∃ A : RArr, phase N N A = 1 + (1 / 4 : ℝ) • (v * -J (Fin N) ℝ * v * -J (Fin N) ℝ)⁻¹ ∧ ∀ (sqrtm : ℕ → RArr → RArr) (close : ℝ → ℝ → Bool),
    fidelity sqrtm close (2 * N) mu1 (2 * N) (2 * N) cov1 (2 * N) mu2 (2 * N) (2 * N) cov2 hbar =
      .ok (Real.sqrt ((s1 + s2)⁻¹.det * ((2 : ℝ) • ((phase N N (if allClose2 close (2 * N) (2 * N) A (fun _ _ => 0) = true then fun _ _ => 0 else sqrtm (2 * N) A) + 1) * v)).det) *
        Real.exp (-(1 / 2) * (((1 / Real.sqrt hbar) • (phaseVec N mu1 - phaseVec N mu2)) ⬝ᵥ (s1 + s2)⁻¹ *ᵥ ((1 / Real.sqrt hbar) • (phaseVec N mu1 - phaseVec N mu2))))) := by
  have hl : (2 * N = 1) = False := by simp
  have hN : 2 * N / 2 = N := by omega
  have hodd : ¬ (2 * N % 2 = 1) := by omega
  have e1 : phase N N (fun i j => cov1 i j / hbar) = s1 := by
    rw [← h1]; ext p q; simp only [phase, of_apply, Matrix.smul_apply, smul_eq_mul]; ring
  have e2 : phase N N (fun i j => cov2 i j / hbar) = s2 := by
    rw [← h2]; ext p q; simp only [phase, of_apply, Matrix.smul_apply, smul_eq_mul]; ring
  have e3 : phase N N (fun i j => cov1 i j / hbar + cov2 i j / hbar) = s1 + s2 := by rw [← e1, ← e2]; rfl
  obtain ⟨B, hB, hBm⟩ := npInvR_phase N (fun i j => cov1 i j / hbar + cov2 i j / hbar) (by rwa [e3])
  rw [e3] at hBm
  have e4 : phase N N (vauxOf (2 * N) (sympmat N) B (fun i j => cov1 i j / hbar) fun i j => cov2 i j / hbar) = v := by
    unfold vauxOf
    rw [phase_mmul, phase_mmul, phase_tr, hBm, phase_sympmat, ← hv, vauxM]
    congr 1
    have : ∀ A B : RArr, phase N N (fun i j => 1 / 4 * A i j + B i j) = (1 / 4 : ℝ) • phase N N A + phase N N B := fun A B => rfl
    rw [this, phase_mmul, phase_mmul, e1, e2, phase_sympmat]
  obtain ⟨C, hC, hCm⟩ := npInvR_phase N (mmul (2 * N) (mmul (2 * N) (mmul (2 * N) (vauxOf (2 * N) (sympmat N) B (fun i j => cov1 i j / hbar) fun i j => cov2 i j / hbar) (sympmat N))
    (vauxOf (2 * N) (sympmat N) B (fun i j => cov1 i j / hbar) fun i j => cov2 i j / hbar)) (sympmat N)) (by
      rw [phase_mmul, phase_mmul, phase_mmul, e4, phase_sympmat]; exact hvd)
  rw [phase_mmul, phase_mmul, phase_mmul, e4, phase_sympmat] at hCm
  refine ⟨fun i j => eye i j + 1 / 4 * C i j, by rw [← hCm, ← phase_eye]; rfl, fun sqrtm close => ?_⟩
  unfold fidelity
  simp only [bind, Except.bind, pure, Except.pure, throw, throwThe, MonadExceptOf.throw, and_self, not_true, if_false, true_or, hl, hB, hodd, hN, hC]
  generalize vauxOf (2 * N) (sympmat N) B (fun i j => cov1 i j / hbar) (fun i j => cov2 i j / hbar) = va at *
  generalize (if allClose2 close (2 * N) (2 * N) (fun i j => eye i j + 1 / 4 * C i j) (fun _ _ => 0) = true then (fun _ _ => (0 : ℝ))
      else sqrtm (2 * N) fun i j => eye i j + 1 / 4 * C i j) = R at *
  have e7 : phase N N (mmul (2 * N) (fun i j => 2 * (R i j + eye i j)) va) = (2 : ℝ) • ((phase N N R + 1) * v) := by
    rw [phase_mmul, e4, ← phase_eye, ← Matrix.smul_mul]; rfl
  have e8 : phaseVec N (fun i => (mu1 i - mu2 i) / Real.sqrt hbar) = (1 / Real.sqrt hbar) • (phaseVec N mu1 - phaseVec N mu2) := by
    funext p; simp only [phaseVec, Pi.smul_apply, Pi.sub_apply, smul_eq_mul]; ring
  rw [← phase_det, ← phase_det, e7, hBm, quadForm_phase, e8, hBm]

/-- the eigenvalues of the argument of the matrix square root, for every pair of physical states -/
theorem fidelity_eig (cov1 cov2 : RArr) (hbar : ℝ) (hh : 0 < hbar) (hp1 : Physical (phase N N cov1) hbar) (hp2 : Physical (phase N N cov2) hbar) :
    ∃ (v T : Matrix (Fin N ⊕ Fin N) (Fin N ⊕ Fin N) ℝ) (d : Fin N ⊕ Fin N → ℝ), 0 < ((1 / hbar) • phase N N cov1 + (1 / hbar) • phase N N cov2).det ∧
      vauxM ((1 / hbar) • phase N N cov1) ((1 / hbar) • phase N N cov2) = v ∧ 0 < v.det ∧ (v * -J (Fin N) ℝ * v * -J (Fin N) ℝ).det ≠ 0 ∧ IsUnit T.det ∧ (∀ p, 0 ≤ d p) ∧
      1 + (1 / 4 : ℝ) • (v * -J (Fin N) ℝ * v * -J (Fin N) ℝ)⁻¹ = T * diagonal d * T⁻¹ := by
  obtain ⟨S, s, d, m, ν, hS, hd, hs, h1, h2, -, hspec, hν⟩ := fidelity_frame (fun _ => 0) (fun _ => 0) cov1 cov2 hbar hh hp1 hp2
  obtain ⟨T, e, hT, he, hTe, hf, hdet⟩ := (vaux_general hd s hs).2 ν hspec hν
  have hS1 := SymplecticGroup.det_eq_one hS
  have hsc : ∀ X : Matrix (Fin N ⊕ Fin N) (Fin N ⊕ Fin N) ℝ, (1 / hbar) • (hbar • X) = X := fun X => by rw [smul_smul, one_div_mul_cancel hh.ne', one_smul]
  have he0 : ∀ p, e p ≠ 0 := fun p => by linarith [he p]
  have hST : IsUnit (S * T).det := by rw [det_mul, hS1, one_mul]; exact hT
  have hpd : (dd d + s).PosDef := by
    refine PosDef.add_posSemidef (PosDef.diagonal fun p => ?_) (physical_posDef s 1 one_pos hs).posSemidef
    rcases p with p | p <;> exact lt_of_lt_of_le (by norm_num) (hd p)
  have hmain : S * vauxM (dd d) s * Sᵀ * -J (Fin N) ℝ * (S * vauxM (dd d) s * Sᵀ) * -J (Fin N) ℝ = S * T * diagonal e * (S * T)⁻¹ := by
    rw [vaux_symp_sq hS, hTe, Matrix.mul_inv_rev]; simp only [Matrix.mul_assoc]
  have hinv : (S * T * diagonal e * (S * T)⁻¹)⁻¹ = S * T * diagonal (fun p => (e p)⁻¹) * (S * T)⁻¹ := by
    apply Matrix.inv_eq_left_inv
    have e1 : S * T * diagonal (fun p => (e p)⁻¹) * (S * T)⁻¹ * (S * T * diagonal e * (S * T)⁻¹) = S * T * (diagonal (fun p => (e p)⁻¹) * diagonal e) * (S * T)⁻¹ := by
      rw [Matrix.mul_assoc _ (S * T)⁻¹, ← Matrix.mul_assoc (S * T)⁻¹, ← Matrix.mul_assoc (S * T)⁻¹, nonsing_inv_mul _ hST, Matrix.one_mul]
      simp only [Matrix.mul_assoc]
    rw [e1, diagonal_mul_diagonal]
    have e2 : (fun p => (e p)⁻¹ * e p) = fun _ => 1 := funext fun p => inv_mul_cancel₀ (he0 p)
    rw [e2, diagonal_one, Matrix.mul_one, mul_nonsing_inv _ hST]
  refine ⟨S * vauxM (dd d) s * Sᵀ, S * T, fun p => 1 + 1 / 4 * (e p)⁻¹, ?_, ?_, ?_, ?_, hST, fun p => ?_, ?_⟩
  · rw [h1, h2, hsc, hsc, ← Matrix.add_mul, ← Matrix.mul_add, det_mul, det_mul, det_transpose, hS1, one_mul, mul_one]
    exact hpd.det_pos
  · rw [h1, h2, hsc, hsc]; exact vaux_symp hS _ _
  · rw [det_mul, det_mul, det_transpose, hS1, one_mul, mul_one, hdet]
    exact Finset.prod_pos fun k _ => by have := hν k; positivity
  · rw [hmain, det_mul, det_mul, det_nonsing_inv, mul_right_comm, Ring.mul_inverse_cancel _ hST, one_mul, det_diagonal]
    exact Finset.prod_ne_zero_iff.mpr fun p _ => he0 p
  · have h3 := he p
    have : (e p)⁻¹ = -(-e p)⁻¹ := by rw [inv_neg, neg_neg]
    have h4 : (-e p)⁻¹ ≤ 4 := by rw [inv_le_comm₀ (by linarith) (by norm_num)]; linarith
    dsimp only
    rw [this]; linarith
  · rw [hmain, hinv]
    have e1 : diagonal (fun p => 1 + 1 / 4 * (e p)⁻¹) = 1 + (1 / 4 : ℝ) • diagonal fun p => (e p)⁻¹ := by
      rw [← diagonal_one, ← diagonal_smul, diagonal_add]; rfl
    rw [e1, Matrix.mul_add, Matrix.add_mul, Matrix.mul_one, mul_nonsing_inv _ hST, Matrix.mul_smul, Matrix.smul_mul]

/-- the eigenvalues of a matrix with small entries are small -/
theorem eig_small {n : Type} [Fintype n] [DecidableEq n] (A T : Matrix n n ℝ) (d : n → ℝ) (hT : IsUnit T.det) (hA : A = T * diagonal d * T⁻¹) (ε : ℝ) (hε : ∀ i j, |A i j| ≤ ε) (p : n) : d p ≤ Fintype.card n * ε := by
  have h1 : ∀ i, ∑ j, A i j * T j p = d p * T i p := fun i => by
    have : A * T = T * diagonal d := by rw [hA, Matrix.mul_assoc, nonsing_inv_mul _ hT, Matrix.mul_one]
    have := congrFun (congrFun this i) p
    rw [Matrix.mul_apply, Matrix.mul_diagonal, mul_comm] at this
    exact this
  haveI : Nonempty n := ⟨p⟩
  obtain ⟨i, hi⟩ := Finite.exists_max fun i => |T i p|
  have h0 : 0 < |T i p| := by
    by_contra h
    have hz : ∀ j, T j p = 0 := fun j => abs_eq_zero.mp (le_antisymm ((hi j).trans (not_lt.mp h)) (abs_nonneg _))
    exact hT.ne_zero (det_eq_zero_of_column_eq_zero p hz)
  have h2 : |d p| * |T i p| ≤ Fintype.card n * ε * |T i p| := by
    rw [← abs_mul, ← h1]
    refine (Finset.abs_sum_le_sum_abs _ _).trans ?_
    calc ∑ j, |A i j * T j p| ≤ ∑ _j : n, ε * |T i p| := Finset.sum_le_sum fun j _ => by
          rw [abs_mul]; exact mul_le_mul (hε i j) (hi j) (abs_nonneg _) ((abs_nonneg _).trans (hε i j))
      _ = _ := by rw [Finset.sum_const, Finset.card_univ, nsmul_eq_mul, mul_assoc]
  exact (le_abs_self _).trans (le_of_mul_le_mul_right h2 h0)

/-- **C101** if `np.allclose(x, 0)` accepts only numbers of absolute value at most `ε`, then `fidelity` is at most the Uhlmann fidelity, and smaller by a factor of at most `(1 + √(2 N ε)) ^ N`. -/
theorem fidelity_tolerance {sqrtm : ℕ → RArr → RArr} (hsq : SqrtmDiagContract sqrtm) (close : ℝ → ℝ → Bool) (ε : ℝ) (hc : ∀ x, close x 0 = true → |x| ≤ ε) (mu1 mu2 : ℕ → ℝ) (cov1 cov2 : RArr) (hbar : ℝ) (hh : 0 < hbar)
    (hp1 : Physical (phase N N cov1) hbar) (hp2 : Physical (phase N N cov2) hbar) (ρ σ : (Fin N → ℕ) → (Fin N → ℕ) → ℂ) (hρ : IsFockMatrix N mu1 cov1 hbar ρ) (hσ : IsFockMatrix N mu2 cov2 hbar σ) (F : ℝ) (hF : HasFidelity ρ σ F) :
    ∃ F', fidelity sqrtm close (2 * N) mu1 (2 * N) (2 * N) cov1 (2 * N) mu2 (2 * N) (2 * N) cov2 hbar = .ok F' ∧ F' ≤ F ∧ F ≤ F' * (1 + Real.sqrt (2 * N * ε)) ^ N := by
  have hex := (fidelity_correct hsq (fun _ _ => false) (fun x h => absurd h (by simp)) mu1 mu2 cov1 cov2 hbar hh hp1 hp2 ρ σ hρ hσ F).mpr hF
  obtain ⟨v, T, d, hdet, hv, hv0, hvd, hT, hd, hA⟩ := fidelity_eig cov1 cov2 hbar hh hp1 hp2
  obtain ⟨A, hAm, hrun⟩ := fidelity_branch mu1 mu2 cov1 cov2 hbar _ _ v rfl rfl hdet.ne' hv hvd
  have hfalse : ∀ x : RArr, allClose2 (fun _ _ => false) (2 * N) (2 * N) A x = true → d = 0 := fun x h => by
    funext p
    rw [allClose2_iff] at h
    exact absurd (h _ (quad_lt N p) _ (quad_lt N p)) (by simp)
  have hsqA := sqrtm_phase hsq A T d hT hd (hAm.trans hA)
  set E := Real.exp (-(1 / 2) * (((1 / Real.sqrt hbar) • (phaseVec N mu1 - phaseVec N mu2)) ⬝ᵥ ((1 / hbar) • phase N N cov1 + (1 / hbar) • phase N N cov2)⁻¹ *ᵥ ((1 / Real.sqrt hbar) • (phaseVec N mu1 - phaseVec N mu2)))) with hE
  set g := ((1 / hbar) • phase N N cov1 + (1 / hbar) • phase N N cov2)⁻¹.det with hg
  have hg0 : 0 < g := by rw [hg, det_nonsing_inv, Ring.inverse_eq_inv']; exact inv_pos.mpr hdet
  have hE0 : 0 < E := Real.exp_pos _
  have hX : T * diagonal (fun p => Real.sqrt (d p)) * T⁻¹ + 1 = T * diagonal (fun p => Real.sqrt (d p) + 1) * T⁻¹ := by
    have e1 : diagonal (fun p => Real.sqrt (d p) + 1) = diagonal (fun p => Real.sqrt (d p)) + 1 := by rw [← diagonal_one, diagonal_add]
    rw [e1, Matrix.mul_add, Matrix.add_mul, Matrix.mul_one, mul_nonsing_inv _ hT]
  have hdX : ((2 : ℝ) • ((T * diagonal (fun p => Real.sqrt (d p)) * T⁻¹ + 1) * v)).det = (∏ p, (Real.sqrt (d p) + 1)) * ((2 : ℝ) • v).det := by
    rw [hX, det_smul, det_smul, det_mul, det_mul, det_mul, det_nonsing_inv T, mul_right_comm T.det, Ring.mul_inverse_cancel _ hT, one_mul, det_diagonal]
    ring
  -- the value with the exact square root
  have hval : F = Real.sqrt (g * ((∏ p, (Real.sqrt (d p) + 1)) * ((2 : ℝ) • v).det)) * E := by
    rw [hrun] at hex
    have := Except.ok.inj hex
    rw [← this, ← hdX]
    by_cases hb : allClose2 (fun _ _ => false) (2 * N) (2 * N) A (fun _ _ => 0) = true
    · have hd0 := hfalse _ hb
      rw [if_pos hb, hd0]
      have hz0 : phase N N (fun _ _ => (0 : ℝ)) = 0 := rfl
      simp [hz0]
    · rw [if_neg hb, hsqA]
  have h2v : 0 < ((2 : ℝ) • v).det := by rw [det_smul]; positivity
  have hP1 : 1 ≤ ∏ p, (Real.sqrt (d p) + 1) := Finset.prod_induction _ (fun x : ℝ => 1 ≤ x) (fun a b ha hb => by nlinarith) le_rfl fun p _ => by have := Real.sqrt_nonneg (d p); linarith
  rw [hrun sqrtm close]
  by_cases hb : allClose2 close (2 * N) (2 * N) A (fun _ _ => 0) = true
  · refine ⟨_, rfl, ?_⟩
    rw [if_pos hb, hval]
    have hz0 : phase N N (fun _ _ => (0 : ℝ)) = 0 := rfl
    rw [hz0, zero_add, Matrix.one_mul]
    rw [allClose2_iff] at hb
    have hsmall : ∀ p, d p ≤ 2 * N * ε := fun p => by
      have h := eig_small (phase N N A) T d hT (hAm.trans hA) ε (fun i j => hc _ (hb _ (quad_lt N i) _ (quad_lt N j))) p
      rw [Fintype.card_sum, Fintype.card_fin] at h
      push_cast at h
      linarith
    have hPle : ∏ p, (Real.sqrt (d p) + 1) ≤ ((1 + Real.sqrt (2 * N * ε)) ^ N) ^ 2 := by
      calc ∏ p, (Real.sqrt (d p) + 1) ≤ ∏ _p : Fin N ⊕ Fin N, (1 + Real.sqrt (2 * N * ε)) := Finset.prod_le_prod (fun p _ => by positivity) fun p _ => by
            have := Real.sqrt_le_sqrt (hsmall p); linarith
        _ = _ := by rw [Finset.prod_const, Finset.card_univ, Fintype.card_sum, Fintype.card_fin, ← pow_mul]; congr 1; ring
    have hsplit : Real.sqrt (g * ((∏ p, (Real.sqrt (d p) + 1)) * ((2 : ℝ) • v).det)) = Real.sqrt (g * ((2 : ℝ) • v).det) * Real.sqrt (∏ p, (Real.sqrt (d p) + 1)) := by
      rw [← Real.sqrt_mul (by positivity)]; congr 1; ring
    rw [hsplit]
    have hs1 : 1 ≤ Real.sqrt (∏ p, (Real.sqrt (d p) + 1)) := by rw [Real.one_le_sqrt]; exact hP1
    have hs2 : Real.sqrt (∏ p, (Real.sqrt (d p) + 1)) ≤ (1 + Real.sqrt (2 * N * ε)) ^ N := by
      refine (Real.sqrt_le_sqrt hPle).trans (le_of_eq (Real.sqrt_sq ?_))
      positivity
    have hr0 : 0 ≤ Real.sqrt (g * ((2 : ℝ) • v).det) := Real.sqrt_nonneg _
    constructor
    · exact mul_le_mul_of_nonneg_right (le_mul_of_one_le_right hr0 hs1) hE0.le
    · rw [mul_right_comm]
      exact mul_le_mul_of_nonneg_left hs2 (by positivity)
  · refine ⟨_, rfl, ?_⟩
    rw [if_neg hb, hsqA, hdX, ← hval]
    refine ⟨le_rfl, le_mul_of_one_le_right ?_ (one_le_pow₀ (by have := Real.sqrt_nonneg (2 * N * ε); linarith))⟩
    rw [hval]; positivity

/-- **C101** for nearly pure states the tolerance is visible: the fidelity of a thermal state with itself, with `ν = 2 n + 1`, is `((ν² + 1) / (2 ν²)) ^ N < 1` if `((ν² - 1) / (ν² + 1))² ≤ ε`. -/
theorem fidelity_near_pure (sqrtm : ℕ → RArr → RArr) (close : ℝ → ℝ → Bool) (ε : ℝ) (hε : 0 ≤ ε) (hc : ∀ x, |x| ≤ ε → close x 0 = true) (mu : ℕ → ℝ) (cov : RArr) (hbar : ℝ) (hh : 0 < hbar) (ν : ℝ) (hν : 1 < ν)
    (hcov : phase N N cov = (hbar * (ν / 2)) • 1) (hs : ((ν ^ 2 - 1) / (ν ^ 2 + 1)) ^ 2 ≤ ε) :
    fidelity sqrtm close (2 * N) mu (2 * N) (2 * N) cov (2 * N) mu (2 * N) (2 * N) cov hbar = .ok (((ν ^ 2 + 1) / (2 * ν ^ 2)) ^ N) ∧ (0 < N → ((ν ^ 2 + 1) / (2 * ν ^ 2)) ^ N < 1) := by
  have hν0 : 0 < ν := by linarith
  have hs1 : (1 / hbar) • phase N N cov = (ν / 2) • (1 : Matrix (Fin N ⊕ Fin N) (Fin N ⊕ Fin N) ℝ) := by
    rw [hcov, smul_smul]; congr 1; field_simp
  have hsum : (ν / 2) • (1 : Matrix (Fin N ⊕ Fin N) (Fin N ⊕ Fin N) ℝ) + (ν / 2) • 1 = ν • 1 := by rw [← add_smul]; congr 1; ring
  have hinv : ∀ x : ℝ, x ≠ 0 → (x • (1 : Matrix (Fin N ⊕ Fin N) (Fin N ⊕ Fin N) ℝ))⁻¹ = x⁻¹ • 1 := fun x hx => by
    apply Matrix.inv_eq_left_inv
    rw [Matrix.smul_mul, Matrix.one_mul, smul_smul, inv_mul_cancel₀ hx, one_smul]
  have hdet1 : ∀ x : ℝ, (x • (1 : Matrix (Fin N ⊕ Fin N) (Fin N ⊕ Fin N) ℝ)).det = (x ^ N) ^ 2 := fun x => by
    rw [det_smul, det_one, mul_one, Fintype.card_sum, Fintype.card_fin, ← pow_mul]; congr 1; ring
  have hJ2 : (-J (Fin N) ℝ) * -J (Fin N) ℝ = -1 := by rw [neg_mul_neg, J_squared]
  have hJt : (-J (Fin N) ℝ)ᵀ * -J (Fin N) ℝ = 1 := by rw [transpose_neg, J_transpose, neg_neg, Matrix.mul_neg, J_squared, neg_neg]
  obtain ⟨c, hcd⟩ : ∃ c, c = (1 + ν ^ 2) / (4 * ν) := ⟨_, rfl⟩
  have hc0 : 0 < c := by rw [hcd]; positivity
  have hv : vauxM ((ν / 2) • (1 : Matrix (Fin N ⊕ Fin N) (Fin N ⊕ Fin N) ℝ)) ((ν / 2) • 1) = c • 1 := by
    rw [vauxM, hsum, hinv ν hν0.ne']
    simp only [Matrix.smul_mul, Matrix.mul_smul, Matrix.one_mul, Matrix.mul_one, smul_smul, Matrix.mul_add, hJt]
    rw [← add_smul, hcd]
    congr 1
    field_simp
    ring
  have hsq : c • (1 : Matrix (Fin N ⊕ Fin N) (Fin N ⊕ Fin N) ℝ) * -J (Fin N) ℝ * (c • 1) * -J (Fin N) ℝ = (-(c * c)) • 1 := by
    simp only [Matrix.smul_mul, Matrix.mul_smul, Matrix.one_mul, Matrix.mul_one, smul_smul, hJ2]
    rw [smul_neg, neg_smul]
  obtain ⟨A, hAm, hrun⟩ := fidelity_branch mu mu cov cov hbar _ _ (c • 1) hs1 hs1 (by rw [hsum, hdet1]; positivity) hv (by
    rw [hsq, hdet1]; exact pow_ne_zero _ (pow_ne_zero _ (neg_ne_zero.mpr (by positivity))))
  have hA2 : phase N N A = (((ν ^ 2 - 1) / (ν ^ 2 + 1)) ^ 2) • 1 := by
    rw [hAm, hsq, hinv _ (neg_ne_zero.mpr (by positivity)), smul_smul]
    have : (1 : Matrix (Fin N ⊕ Fin N) (Fin N ⊕ Fin N) ℝ) + (1 / 4 * (-(c * c))⁻¹) • 1 = (1 + 1 / 4 * (-(c * c))⁻¹) • 1 := by rw [add_smul, one_smul]
    rw [this, hcd]
    congr 1
    field_simp
    ring
  have hcl : allClose2 close (2 * N) (2 * N) A (fun _ _ => 0) = true := by
    rw [allClose2_iff]
    intro i hi j hj
    apply hc
    have h3 : A i j = phase N N A ((quadEquiv N).symm ⟨i, hi⟩) ((quadEquiv N).symm ⟨j, hj⟩) := by
      have := congrFun (congrFun (phase_toMatrix N A) ((quadEquiv N).symm ⟨i, hi⟩)) ((quadEquiv N).symm ⟨j, hj⟩)
      rw [this]; simp [toMatrix]
    rw [h3, hA2, Matrix.smul_apply, smul_eq_mul, Matrix.one_apply]
    split_ifs
    · rw [mul_one, abs_of_nonneg (sq_nonneg _)]; exact hs
    · rw [mul_zero, abs_zero]; exact hε
  constructor
  · rw [hrun, if_pos hcl]
    have hz0 : phase N N (fun _ _ => (0 : ℝ)) = 0 := rfl
    rw [hz0, zero_add, Matrix.one_mul, hsum, smul_smul, hinv ν hν0.ne', hdet1, hdet1, sub_self, smul_zero, zero_dotProduct, mul_zero, Real.exp_zero, mul_one, ← mul_pow, ← mul_pow, Real.sqrt_sq (by positivity), hcd]
    congr 2
    field_simp
    ring
  · intro hN
    refine pow_lt_one₀ (by positivity) ?_ hN.ne'
    rw [div_lt_one (by positivity)]
    nlinarith

/-- the hypotheses of `fidelity_near_pure` hold for the default tolerance `1e-8` and a mean photon number of `2e-5` per mode: the code returns a fidelity below one -/
example (sqrtm : ℕ → RArr → RArr) : ∃ (cov : RArr) (F : ℝ), Physical (phase 2 2 cov) 2 ∧ fidelity sqrtm (fun x _ => decide (|x| ≤ 1 / 100000000)) 4 (fun _ => 0) 4 4 cov 4 (fun _ => 0) 4 4 cov 2 = .ok F ∧ F < 1 := by
  obtain ⟨cov, hcov⟩ := exists_cov (N := 2) ((2 * (100004 / 100000 / 2) : ℝ) • 1)
  obtain ⟨h1, h2⟩ := fidelity_near_pure (N := 2) sqrtm (fun x _ => decide (|x| ≤ 1 / 100000000)) (1 / 100000000) (by norm_num) (fun x hx => by simpa using hx) (fun _ => 0) cov 2 (by norm_num) (100004 / 100000) (by norm_num) hcov (by norm_num)
  refine ⟨cov, _, ?_, h1, h2 (by norm_num)⟩
  have hsp : SympSpectrum (phase 2 2 cov) fun _ => 100004 / 100000 := by
    refine ⟨fun _ => by norm_num, 1, one_mem _, ?_⟩
    rw [hcov, Matrix.one_mul, transpose_one, Matrix.mul_one]
    have e : (Sum.elim (fun _ => 100004 / 100000) fun _ => 100004 / 100000 : Fin 2 ⊕ Fin 2 → ℝ) = fun _ => 100004 / 100000 := by funext p; rcases p with p | p <;> rfl
    rw [e, ← Matrix.smul_one_eq_diagonal]
    congr 1; norm_num
  exact (physical_iff_spectrum _ 2 (by norm_num) _ hsp).mpr fun _ => by norm_num

end Verif.Props
