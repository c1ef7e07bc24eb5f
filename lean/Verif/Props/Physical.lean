/-
C62, C63: purity, and Gaussian operations map physical states to physical states.
-/
import Verif.Props.GaussianChecks
import Mathlib.LinearAlgebra.Matrix.Kronecker

set_option linter.unusedSimpArgs false
set_option linter.unusedSectionVars false

namespace Verif.Props
open Verif Verif.Model Verif.Model.Symp Verif.Model.Checks Verif.Spec Verif.Lemmas.Symp
open Matrix Unitary
open scoped ComplexOrder

variable {N : ℕ}

/-! ### congruences -/

/-- the complex version of a real matrix -/
noncomputable abbrev cmap {m n : Type*} (M : Matrix m n ℝ) : Matrix m n ℂ := M.map Complex.ofReal

theorem cmap_mul {l m n : Type*} [Fintype m] (A : Matrix l m ℝ) (B : Matrix m n ℝ) : cmap (A * B) = cmap A * cmap B := by
  ext i j
  simp [Matrix.mul_apply]

theorem cmap_add {m n : Type*} (A B : Matrix m n ℝ) : cmap (A + B) = cmap A + cmap B := by
  ext i j; simp

theorem cmap_sub {m n : Type*} (A B : Matrix m n ℝ) : cmap (A - B) = cmap A - cmap B := by
  ext i j; simp

theorem cmap_smul {m n : Type*} (t : ℝ) (A : Matrix m n ℝ) : cmap (t • A) = (t : ℂ) • cmap A := by
  ext i j; simp

theorem cmap_one {m : Type*} [DecidableEq m] : cmap (1 : Matrix m m ℝ) = 1 := by
  ext i j; simp [Matrix.one_apply, apply_ite]

theorem cmap_conjTranspose {m n : Type*} (A : Matrix m n ℝ) : (cmap A)ᴴ = cmap Aᵀ := by
  ext i j; simp [conjTranspose_apply]

/-- `Ω` as a real matrix -/
theorem cmap_omega : cmap (-J (Fin N) ℝ) = omega N := by
  unfold omega J
  ext p q
  rcases p with p | p <;> rcases q with q | q <;> simp [Matrix.one_apply, apply_ite]

theorem symp_omega (S : Matrix (Fin N ⊕ Fin N) (Fin N ⊕ Fin N) ℝ) (hS : S ∈ symplecticGroup (Fin N) ℝ) :
    cmap S * omega N * cmap Sᵀ = omega N := by
  have h := SymplecticGroup.mem_iff.mp hS
  rw [← cmap_omega, ← cmap_mul, ← cmap_mul, Matrix.mul_neg, Matrix.neg_mul, h]

/-- C63: a symplectic transformation `V ↦ S V Sᵀ` keeps the uncertainty relation. -/
theorem physical_symplectic (V S : Matrix (Fin N ⊕ Fin N) (Fin N ⊕ Fin N) ℝ) (hbar : ℝ) (hV : Physical V hbar)
    (hS : S ∈ symplecticGroup (Fin N) ℝ) : Physical (S * V * Sᵀ) hbar := by
  refine ⟨?_, ?_⟩
  · unfold Matrix.IsSymm
    rw [transpose_mul, transpose_mul, transpose_transpose, hV.1.eq, Matrix.mul_assoc]
  · have h := hV.2.mul_mul_conjTranspose_same (cmap S)
    rw [cmap_conjTranspose] at h
    convert h using 1
    rw [Matrix.mul_add, Matrix.add_mul, Matrix.mul_smul, Matrix.smul_mul, symp_omega S hS]
    congr 1
    exact (cmap_mul _ _).trans (by rw [cmap_mul])

theorem real_congr_posSemidef {m n : Type*} [Fintype m] [Fintype n] (V : Matrix n n ℝ) (P : Matrix m n ℝ) (h : V.PosSemidef) : (P * V * Pᵀ).PosSemidef := by
  have := h.mul_mul_conjTranspose_same P
  rwa [conjTranspose_eq_transpose_of_trivial] at this

/-- the pair vector `(1, -i)` for every mode: `1 + iΩ = w wᴴ` -/
noncomputable def wmat (N : ℕ) : Matrix (Fin N ⊕ Fin N) (Fin N) ℂ := of fun p k => Sum.elim (fun a => if a = k then 1 else 0) (fun a => if a = k then -Complex.I else 0) p

theorem wmat_mul (N : ℕ) : wmat N * (wmat N)ᴴ = 1 + Complex.I • omega N := by
  unfold omega J
  ext p q
  rcases p with p | p <;> rcases q with q | q <;>
    simp [wmat, Matrix.mul_apply, conjTranspose_apply, Matrix.add_apply, Matrix.smul_apply, Matrix.one_apply, apply_ite, ite_and, eq_comm]

/-- C63: the vacuum is physical, classical and pure. -/
theorem physical_vacuum (N : ℕ) (hbar : ℝ) (hh : 0 ≤ hbar) : Classical (phase N N (vacuumState N hbar).cov) hbar := by
  have e : phase N N (vacuumState N hbar).cov = (hbar / 2) • (1 : Matrix (Fin N ⊕ Fin N) (Fin N ⊕ Fin N) ℝ) := by
    have h1 := phase_eye (K := ℝ) N
    ext p q
    have h2 := congrFun (congrFun h1 p) q
    simp only [phase, of_apply] at h2
    simp only [phase, vacuumState, of_apply, h2, Matrix.smul_apply, smul_eq_mul]
    ring
  rw [e]
  refine ⟨⟨?_, ?_⟩, ?_⟩
  · unfold Matrix.IsSymm
    rw [transpose_smul, transpose_one]
  · have : ((hbar / 2) • (1 : Matrix (Fin N ⊕ Fin N) (Fin N ⊕ Fin N) ℝ)).map Complex.ofReal + (Complex.I * (hbar / 2 : ℝ)) • omega N =
        ((hbar / 2 : ℝ) : ℂ) • (wmat N * (wmat N)ᴴ) := by
      rw [wmat_mul, smul_add, smul_smul, mul_comm Complex.I]
      congr 1
      exact (cmap_smul _ _).trans (by rw [cmap_one])
    rw [this]
    exact (posSemidef_self_mul_conjTranspose _).smul (Complex.zero_le_real.mpr (by positivity))
  · rw [sub_self]
    exact Matrix.PosSemidef.zero

/-! ### C62: pure states -/

theorem conj_uncertainty (V : Matrix (Fin N ⊕ Fin N) (Fin N ⊕ Fin N) ℝ) (hbar : ℝ) (hV : Physical V hbar) :
    (cmap V - (Complex.I * (hbar / 2 : ℝ)) • omega N).PosSemidef := by
  have h := hV.2.transpose
  have e : cmap V - (Complex.I * (hbar / 2 : ℝ)) • omega N = (V.map Complex.ofReal + (Complex.I * (hbar / 2 : ℝ)) • omega N)ᵀ := by
    rw [transpose_add, transpose_smul, sub_eq_add_neg, ← smul_neg]
    congr 1
    · ext p q
      have := congrFun (congrFun hV.1 p) q
      simp only [transpose_apply] at this
      simp [← this]
    · congr 1
      unfold omega
      rw [transpose_neg, J_transpose, neg_neg]
  rw [e]
  exact h

theorem omega_sq (N : ℕ) : omega N * omega N = -1 := by
  unfold omega
  rw [Matrix.neg_mul, Matrix.mul_neg, neg_neg, J_squared]

/-- C62: a physical covariance matrix has unit purity exactly if `2V/ħ` is a symplectic matrix, that is if the state is `S |vacuum⟩`-like:
`(2V/ħ) Ω (2V/ħ)ᵀ = Ω`. -/
theorem physical_pure_iff (V : Matrix (Fin N ⊕ Fin N) (Fin N ⊕ Fin N) ℝ) (hbar : ℝ) (hh : 0 < hbar) (hV : Physical V hbar) :
    ((2 / hbar) • V).det = 1 ↔ (2 / hbar) • V ∈ symplecticGroup (Fin N) ℝ := by
  set W : Matrix (Fin N ⊕ Fin N) (Fin N ⊕ Fin N) ℝ := (2 / hbar) • V with hW
  have hpos : (0 : ℂ) ≤ ((2 / hbar : ℝ) : ℂ) := Complex.zero_le_real.mpr (by positivity)
  have hc : ((2 / hbar : ℝ) : ℂ) * (Complex.I * (hbar / 2 : ℝ)) = Complex.I := by
    push_cast
    have : (hbar : ℂ) ≠ 0 := by exact_mod_cast hh.ne'
    field_simp
  have hplus : (cmap W + Complex.I • omega N).PosSemidef := by
    have := hV.2.smul hpos
    rwa [smul_add, smul_smul, hc, ← cmap_smul] at this
  have hminus : (cmap W - Complex.I • omega N).PosSemidef := by
    have := (conj_uncertainty V hbar hV).smul hpos
    rwa [smul_sub, smul_smul, hc, ← cmap_smul] at this
  have hWpsd : (cmap W).PosSemidef := by
    have := (hplus.add hminus).smul (show (0 : ℂ) ≤ ((1 / 2 : ℝ) : ℂ) from Complex.zero_le_real.mpr (by norm_num))
    convert this using 1
    rw [add_add_sub_cancel, ← two_smul ℂ, smul_smul]
    push_cast
    norm_num
  have hWr : W.PosSemidef := (real_posSemidef_map W).mp hWpsd
  have hWs : Wᵀ = W := by rw [hW, transpose_smul, hV.1.eq]
  constructor
  · intro hdet
    obtain ⟨B, hB⟩ : ∃ B : Matrix (Fin N ⊕ Fin N) (Fin N ⊕ Fin N) ℂ, cmap W = Bᴴ * B := by
      open scoped MatrixOrder in
      obtain ⟨B, hB⟩ := CStarAlgebra.nonneg_iff_eq_star_mul_self.mp hWpsd.nonneg
      exact ⟨B, hB⟩
    have hdc : (cmap W).det = 1 := by
      have := RingHom.map_det Complex.ofRealHom W
      rw [hdet, map_one] at this
      exact this.symm
    have hBdet : IsUnit B.det := by
      rw [hB, det_mul] at hdc
      exact IsUnit.of_mul_eq_one_right _ hdc
    have hBHdet : IsUnit (Bᴴ).det := by rw [det_conjTranspose]; exact hBdet.star
    set K : Matrix (Fin N ⊕ Fin N) (Fin N ⊕ Fin N) ℂ := (B⁻¹)ᴴ * (Complex.I • omega N) * B⁻¹ with hK
    have hBB : (B⁻¹)ᴴ * Bᴴ = 1 := by
      rw [← conjTranspose_mul, Matrix.mul_nonsing_inv _ hBdet, conjTranspose_one]
    have hBB' : Bᴴ * (B⁻¹)ᴴ = 1 := by
      rw [← conjTranspose_mul, Matrix.nonsing_inv_mul _ hBdet, conjTranspose_one]
    have hone : (B⁻¹)ᴴ * cmap W * B⁻¹ = 1 := by
      rw [hB, ← Matrix.mul_assoc, hBB, Matrix.one_mul, Matrix.mul_nonsing_inv _ hBdet]
    have hKp : (1 + K).PosSemidef := by
      have := hplus.conjTranspose_mul_mul_same B⁻¹
      rwa [Matrix.mul_add, Matrix.add_mul, hone] at this
    have hKm : (1 - K).PosSemidef := by
      have := hminus.conjTranspose_mul_mul_same B⁻¹
      rwa [Matrix.mul_sub, Matrix.sub_mul, hone] at this
    have hKh : K.IsHermitian := by
      have := hKp.1.sub (isHermitian_one (n := Fin N ⊕ Fin N) (α := ℂ))
      simpa using this
    -- the eigenvalues are between -1 and 1
    have hle : ∀ i, |hKh.eigenvalues i| ≤ 1 := by
      have hspec := hKh.spectral_theorem
      have hp : ∀ i, 0 ≤ 1 + hKh.eigenvalues i := by
        have h := hKp
        have e : 1 + K = conjStarAlgAut ℂ _ hKh.eigenvectorUnitary (diagonal fun i => ((1 + hKh.eigenvalues i : ℝ) : ℂ)) := by
          have h1 : (diagonal fun i => ((1 + hKh.eigenvalues i : ℝ) : ℂ)) = 1 + diagonal (RCLike.ofReal ∘ hKh.eigenvalues) := by
            rw [← diagonal_one, diagonal_add]
            congr 1
            funext i
            simp
          rw [h1, map_add, map_one, ← hspec]
        rw [e, conjStarAlgAut_apply, isUnit_coe.posSemidef_star_right_conjugate_iff, posSemidef_diagonal_iff] at h
        exact fun i => Complex.zero_le_real.mp (h i)
      have hm : ∀ i, 0 ≤ 1 - hKh.eigenvalues i := by
        have h := hKm
        have e : 1 - K = conjStarAlgAut ℂ _ hKh.eigenvectorUnitary (diagonal fun i => ((1 - hKh.eigenvalues i : ℝ) : ℂ)) := by
          have h1 : (diagonal fun i => ((1 - hKh.eigenvalues i : ℝ) : ℂ)) = 1 - diagonal (RCLike.ofReal ∘ hKh.eigenvalues) := by
            rw [← diagonal_one, diagonal_sub]
            congr 1
            funext i
            simp
          rw [h1, map_sub, map_one, ← hspec]
        rw [e, conjStarAlgAut_apply, isUnit_coe.posSemidef_star_right_conjugate_iff, posSemidef_diagonal_iff] at h
        exact fun i => Complex.zero_le_real.mp (h i)
      intro i
      rw [abs_le]
      exact ⟨by linarith [hp i], by linarith [hm i]⟩
    -- and the product of their squares is 1
    have hdetsq : K.det * K.det = 1 := by
      have h1 : K.det = (omega N).det * Complex.I ^ (Fintype.card (Fin N ⊕ Fin N)) := by
        have hb : ((B⁻¹)ᴴ).det * (B⁻¹).det = 1 := by
          rw [← det_mul]
          have : ((B⁻¹)ᴴ * B⁻¹).det * (cmap W).det = 1 := by
            rw [det_mul, hB, det_mul]
            have h2 := congrArg det hBB
            have h3 := congrArg det (Matrix.mul_nonsing_inv _ hBdet)
            rw [det_mul, det_one] at h2 h3
            calc _ = ((B⁻¹)ᴴ.det * (Bᴴ).det) * (B.det * (B⁻¹).det) := by ring
              _ = 1 := by rw [h2, h3, one_mul]
          rwa [hdc, mul_one] at this
        rw [hK, det_mul, det_mul, det_smul]
        linear_combination (Complex.I ^ (Fintype.card (Fin N ⊕ Fin N)) * (omega N).det) * hb
      have h2 : (omega N).det * (omega N).det = 1 := by
        rw [← det_mul, omega_sq, det_neg, det_one]
        simp
      have h3 : Complex.I ^ (Fintype.card (Fin N ⊕ Fin N)) * Complex.I ^ (Fintype.card (Fin N ⊕ Fin N)) = 1 := by
        rw [← mul_pow, Complex.I_mul_I]
        simp
      rw [h1]
      linear_combination (Complex.I ^ (Fintype.card (Fin N ⊕ Fin N)) * Complex.I ^ (Fintype.card (Fin N ⊕ Fin N))) * h2 + h3
    have hprod : ∏ i, hKh.eigenvalues i ^ 2 = 1 := by
      rw [hKh.det_eq_prod_eigenvalues, ← sq] at hdetsq
      have : ((∏ i, hKh.eigenvalues i ^ 2 : ℝ) : ℂ) = 1 := by
        rw [← hdetsq, ← Finset.prod_pow]
        push_cast
        rfl
      exact_mod_cast this
    have hsq : ∀ i, hKh.eigenvalues i ^ 2 = 1 := by
      intro i
      have hle2 : ∀ j, hKh.eigenvalues j ^ 2 ≤ 1 := fun j => by
        have := hle j
        rw [← sq_abs]
        exact pow_le_one₀ (abs_nonneg _) this
      refine le_antisymm (hle2 i) ?_
      have h1 : ∏ j, hKh.eigenvalues j ^ 2 ≤ hKh.eigenvalues i ^ 2 := by
        rw [← Finset.mul_prod_erase Finset.univ (fun j => hKh.eigenvalues j ^ 2) (Finset.mem_univ i)]
        calc _ ≤ hKh.eigenvalues i ^ 2 * 1 :=
              mul_le_mul_of_nonneg_left (Finset.prod_le_one (fun j _ => sq_nonneg _) fun j _ => hle2 j) (sq_nonneg _)
          _ = _ := mul_one _
      rwa [hprod] at h1
    have hKK : K * K = 1 := by
      have hspec := hKh.spectral_theorem
      have h2 : K * K = conjStarAlgAut ℂ _ hKh.eigenvectorUnitary (diagonal (RCLike.ofReal ∘ hKh.eigenvalues) * diagonal (RCLike.ofReal ∘ hKh.eigenvalues)) := by
        rw [map_mul, ← hspec]
      rw [h2, diagonal_mul_diagonal]
      have h3 : (fun i => (RCLike.ofReal ∘ hKh.eigenvalues) i * (RCLike.ofReal ∘ hKh.eigenvalues) i : Fin N ⊕ Fin N → ℂ) = fun _ => 1 := by
        funext i
        have := hsq i
        simp only [Function.comp]
        rw [← RCLike.ofReal_mul, ← sq, this]
        simp
      rw [h3, diagonal_one, map_one]
    -- back to W
    have hOm : Complex.I • omega N = Bᴴ * K * B := by
      rw [hK]
      calc Complex.I • omega N = (Bᴴ * (B⁻¹)ᴴ) * (Complex.I • omega N) * (B⁻¹ * B) := by
            rw [hBB', Matrix.nonsing_inv_mul _ hBdet, Matrix.one_mul, Matrix.mul_one]
        _ = _ := by simp only [Matrix.mul_assoc]
    have hWinv : cmap W * (B⁻¹ * (B⁻¹)ᴴ) = 1 := by
      rw [hB]
      calc Bᴴ * B * (B⁻¹ * (B⁻¹)ᴴ) = Bᴴ * (B * B⁻¹) * (B⁻¹)ᴴ := by simp only [Matrix.mul_assoc]
        _ = 1 := by rw [Matrix.mul_nonsing_inv _ hBdet, Matrix.mul_one, hBB']
    have hmid : (Complex.I • omega N) * (B⁻¹ * (B⁻¹)ᴴ) * (Complex.I • omega N) = cmap W := by
      rw [hOm]
      calc Bᴴ * K * B * (B⁻¹ * (B⁻¹)ᴴ) * (Bᴴ * K * B) = Bᴴ * K * (B * B⁻¹) * ((B⁻¹)ᴴ * Bᴴ) * K * B := by simp only [Matrix.mul_assoc]
        _ = Bᴴ * (K * K) * B := by rw [Matrix.mul_nonsing_inv _ hBdet, hBB, Matrix.mul_one, Matrix.mul_one, Matrix.mul_assoc Bᴴ K K]
        _ = cmap W := by rw [hKK, Matrix.mul_one, hB]
    have hfin : cmap W * omega N * cmap W = omega N := by
      have h1 : omega N * cmap W = (B⁻¹ * (B⁻¹)ᴴ) * omega N := by
        rw [← hmid]
        simp only [Matrix.smul_mul, Matrix.mul_smul, smul_smul, Complex.I_mul_I, neg_smul, one_smul, Matrix.mul_neg]
        rw [← Matrix.mul_assoc, ← Matrix.mul_assoc, omega_sq]
        simp
      rw [Matrix.mul_assoc, h1, ← Matrix.mul_assoc, hWinv, Matrix.one_mul]
    rw [SymplecticGroup.mem_iff, hWs]
    have h2 : cmap (W * (-J (Fin N) ℝ) * W) = cmap (-J (Fin N) ℝ) := by
      rw [cmap_mul, cmap_mul, cmap_omega, hfin]
    have h3 : W * (-J (Fin N) ℝ) * W = -J (Fin N) ℝ := Matrix.map_injective Complex.ofReal_injective h2
    rw [Matrix.mul_neg, Matrix.neg_mul] at h3
    exact neg_injective h3
  · intro hS
    have h1 := congrArg det (SymplecticGroup.mem_iff.mp hS)
    rw [det_mul, det_mul, det_transpose] at h1
    have hJ : (J (Fin N) ℝ).det ≠ 0 := (isUnit_det_J (Fin N) ℝ).ne_zero
    have h2 : W.det * W.det = 1 := by
      apply mul_right_cancel₀ hJ
      linear_combination h1
    have h3 : 0 ≤ W.det := hWr.det_nonneg
    nlinarith

/-- C62: `is_pure_cov` (exact comparisons) accepts exactly the physical covariance matrices for which `2V/ħ` is symplectic. -/
theorem isPureCov_symplectic (close : ℝ → ℝ → Bool) (hc : ∀ x y, close x y = true ↔ x = y) (n m : ℕ) (cov : ℕ → ℕ → ℝ) (hbar : ℝ) (hh : 0 < hbar) :
    isPureCov close n m cov hbar 0 = true ↔
      n = m ∧ ∃ N, n = 2 * N ∧ Physical (phase N N cov) hbar ∧ (2 / hbar) • phase N N cov ∈ symplecticGroup (Fin N) ℝ := by
  rw [isPureCov_exact close hc]
  refine and_congr_right fun _ => exists_congr fun N => and_congr_right fun _ => and_congr_right fun hp => ?_
  exact physical_pure_iff _ hbar hh hp

/-- C62: the states `S |vacuum⟩` are pure. -/
theorem isPureCov_gate (close : ℝ → ℝ → Bool) (hc : ∀ x y, close x y = true ↔ x = y) (N : ℕ) (S : ℕ → ℕ → ℝ) (hS : IsSymp N S) (hbar : ℝ) (hh : 0 < hbar) :
    isPureCov close (2 * N) (2 * N) (fun i j => hbar / 2 * mmul (2 * N) S (tr S) i j) hbar 0 = true := by
  rw [isPureCov_exact close hc]
  refine ⟨rfl, N, rfl, ?_⟩
  have e : phase N N (fun i j => hbar / 2 * mmul (2 * N) S (tr S) i j) = phase N N S * phase N N (vacuumState N hbar).cov * (phase N N S)ᵀ := by
    have e1 : phase N N (vacuumState N hbar).cov = (hbar / 2) • (1 : Matrix (Fin N ⊕ Fin N) (Fin N ⊕ Fin N) ℝ) := by
      have h1 := phase_eye (K := ℝ) N
      ext p q
      have h2 := congrFun (congrFun h1 p) q
      simp only [phase, of_apply] at h2
      simp only [phase, vacuumState, of_apply, h2, Matrix.smul_apply, smul_eq_mul]
      ring
    rw [e1, Matrix.mul_smul, Matrix.mul_one, Matrix.smul_mul, ← phase_tr, ← phase_mmul]
    rfl
  rw [e]
  have hphys := physical_symplectic _ (phase N N S) hbar (physical_vacuum N hbar hh.le).1 hS
  refine ⟨hphys, (physical_pure_iff _ hbar hh hphys).mpr ?_⟩
  rw [← e]
  have e2 : (2 / hbar) • phase N N (fun i j => hbar / 2 * mmul (2 * N) S (tr S) i j) = phase N N S * (phase N N S)ᵀ := by
    rw [← phase_tr, ← phase_mmul]
    ext p q
    simp only [phase, of_apply, Matrix.smul_apply, smul_eq_mul]
    field_simp
  rw [e2]
  exact mul_mem hS (SymplecticGroup.transpose_mem hS)

/-! ### C63: channels -/

/-- C63: the reduced state on distinct modes is physical. -/
theorem physical_reduced (s r : GState ℝ) (hs : s.len = 2 * N) (modes : List ℕ) (hb : ∀ m ∈ modes, m < N) (hne : modes ≠ []) (hbar : ℝ)
    (hV : Physical (phase N N s.cov) hbar) (hn : modes.Nodup) (hr : reducedState s modes = .ok r) :
    Physical (phase modes.length modes.length r.cov) hbar := by
  obtain ⟨r', hr', hred⟩ := reducedState_eq N s hs modes hne hb
  rw [hr] at hr'
  obtain rfl : r = r' := by injection hr'
  let e : Fin modes.length → Fin N := fun a => ⟨modes.getD a 0, hb _ (by rw [List.getD_eq_getElem _ _ a.2]; exact List.getElem_mem _)⟩
  have he : Function.Injective e := by
    intro a b h
    have h' : modes.getD a 0 = modes.getD b 0 := congrArg Fin.val h
    rw [List.getD_eq_getElem _ _ a.2, List.getD_eq_getElem _ _ b.2] at h'
    exact Fin.ext ((List.Nodup.getElem_inj_iff hn).mp h')
  have hsub : phase modes.length modes.length r.cov = (phase N N s.cov).submatrix (Sum.map e e) (Sum.map e e) := by
    ext p q
    rcases p with p | p <;> rcases q with q | q
    · exact hred.xx p p.2 q q.2
    · exact hred.xp p p.2 q q.2
    · exact hred.px p p.2 q q.2
    · exact hred.pp p p.2 q q.2
  rw [hsub]
  refine ⟨?_, ?_⟩
  · unfold Matrix.IsSymm
    rw [transpose_submatrix, hV.1.eq]
  · have h := hV.2.submatrix (Sum.map e e)
    convert h using 1
    have ho : omega modes.length = (omega N).submatrix (Sum.map e e) (Sum.map e e) := by
      unfold omega J
      ext p q
      rcases p with p | p <;> rcases q with q | q <;> simp [Matrix.one_apply, he.eq_iff]
    rw [ho]
    rfl

/-- C63: a passive transformation with `T Tᴴ ≤ 1` (an interferometer with losses) maps physical states to physical states. -/
theorem physical_passive (M : ℕ) (s r : GState ℝ) (hs : s.len = 2 * N) (T : ℕ → ℕ → ℂ) (hbar : ℝ) (hh : 0 ≤ hbar)
    (hT : (1 - toMatrix M N T * (toMatrix M N T)ᴴ).PosSemidef) (hV : Physical (phase N N s.cov) hbar)
    (hr : passiveTransformation s M N T hbar = .ok r) : Physical (phase M M r.cov) hbar := by
  obtain ⟨r', hr', -, -, hcov⟩ := passive_phase s M N T hbar hs
  rw [hr] at hr'
  obtain rfl : r = r' := by injection hr'
  rw [hcov]
  set P := phase M N (interferometer M N T) with hP
  have hPw : cmap P * wmat N = wmat M * toMatrix M N T := by
    rw [hP, phase_interferometer]
    ext p k
    rcases p with p | p
    · simp [Matrix.mul_apply, wmat, toMatrix, Fintype.sum_sum_type, fromBlocks]
    · simp [Matrix.mul_apply, wmat, toMatrix, Fintype.sum_sum_type, fromBlocks]
      apply Complex.ext <;> simp
  refine ⟨?_, ?_⟩
  · unfold Matrix.IsSymm
    simp only [transpose_add, transpose_smul, transpose_sub, transpose_one, transpose_mul, transpose_transpose, hV.1.eq, Matrix.mul_assoc]
  · have h1 := hV.2.mul_mul_conjTranspose_same (cmap P)
    have h2 := (hT.mul_mul_conjTranspose_same (wmat M)).smul (show (0 : ℂ) ≤ ((hbar / 2 : ℝ) : ℂ) from Complex.zero_le_real.mpr (by positivity))
    have h3 := h1.add h2
    convert h3 using 1
    have hw : wmat M * (1 - toMatrix M N T * (toMatrix M N T)ᴴ) * (wmat M)ᴴ = (1 + Complex.I • omega M) - cmap P * (1 + Complex.I • omega N) * (cmap P)ᴴ := by
      rw [← wmat_mul, ← wmat_mul, Matrix.mul_sub, Matrix.sub_mul, Matrix.mul_one]
      congr 1
      calc wmat M * (toMatrix M N T * (toMatrix M N T)ᴴ) * (wmat M)ᴴ = (wmat M * toMatrix M N T) * (wmat M * toMatrix M N T)ᴴ := by
            rw [conjTranspose_mul]; simp only [Matrix.mul_assoc]
        _ = _ := by rw [← hPw, conjTranspose_mul]; simp only [Matrix.mul_assoc]
    rw [hw]
    have e1 : (P * phase N N s.cov * Pᵀ + (hbar / 2) • (1 - P * Pᵀ)).map Complex.ofReal =
        cmap P * cmap (phase N N s.cov) * (cmap P)ᴴ + ((hbar / 2 : ℝ) : ℂ) • (1 - cmap P * (cmap P)ᴴ) := by
      refine (cmap_add _ _).trans ?_
      rw [cmap_mul, cmap_mul, cmap_smul, cmap_sub, cmap_one, cmap_mul, cmap_conjTranspose]
    rw [e1]
    simp only [Matrix.mul_add, Matrix.add_mul, Matrix.mul_smul, Matrix.smul_mul, Matrix.mul_one, smul_sub, smul_add, smul_smul, mul_comm Complex.I]
    abel

/-- C63: loss with transmission between 0 and 1 into a thermal environment maps physical states to physical states. -/
theorem physical_loss (s r : GState ℝ) (hs : s.len = 2 * N) (T nbar hbar : ℝ) (hT0 : 0 ≤ T) (hT1 : T ≤ 1) (hn : 0 ≤ nbar) (hh : 0 ≤ hbar)
    (m : ℕ) (hm : m < N) (hV : Physical (phase N N s.cov) hbar) (hr : loss s T m nbar hbar = .ok r) : Physical (phase N N r.cov) hbar := by
  rw [loss_eq N s hs T hT0 m hm] at hr
  obtain rfl : lossState N s T m nbar hbar = r := by injection hr
  have hT' : 0 ≤ 1 - T := by linarith
  -- the factors as a diagonal matrix, and the modes that are touched
  let d : Fin N ⊕ Fin N → ℝ := fun p => fac N m T (quad N p)
  let e : Matrix (Fin N) (Fin N) ℂ := diagonal fun k => if (k : ℕ) = m then 1 else 0
  have hfac : ∀ p, d p = if (Sum.elim id id p : Fin N) = (⟨m, hm⟩ : Fin N) then Real.sqrt T else 1 := by
    intro p
    rcases p with k | k
    · have : ((k : ℕ) = m ∨ (k : ℕ) = m + N) ↔ k = ⟨m, hm⟩ := by
        rw [Fin.ext_iff]
        have := k.2
        constructor
        · rintro (h | h)
          · exact h
          · omega
        · exact Or.inl
      simp only [d, fac, quad, Sum.elim_inl, this, id]
      by_cases h9 : k = ⟨m, hm⟩ <;> simp [h9]
    · have : (N + (k : ℕ) = m ∨ N + (k : ℕ) = m + N) ↔ k = ⟨m, hm⟩ := by
        rw [Fin.ext_iff]
        have := k.2
        constructor
        · rintro (h | h)
          · omega
          · simp only; omega
        · intro h; right; simp only at h; omega
      simp only [d, fac, quad, Sum.elim_inr, this, id]
      by_cases h9 : k = ⟨m, hm⟩ <;> simp [h9]
  have hnoise : phase N N (lossState N s T m nbar hbar).cov = diagonal d * phase N N s.cov * (diagonal d)ᵀ +
      ((1 - T) * (2 * nbar + 1) * hbar / 2) • diagonal fun p : Fin N ⊕ Fin N => if (Sum.elim id id p : Fin N) = (⟨m, hm⟩ : Fin N) then (1 : ℝ) else 0 := by
    ext p q
    rw [diagonal_transpose]
    simp only [phase, of_apply, lossState, Matrix.add_apply, Matrix.smul_apply, smul_eq_mul, mul_diagonal, diagonal_mul]
    congr 1
    rw [diagonal_apply]
    have hq : quad N p = quad N q ↔ p = q := (quad_injective N).eq_iff
    have hp : (quad N p = m ∨ quad N p = m + N) ↔ (Sum.elim id id p : Fin N) = (⟨m, hm⟩ : Fin N) := by
      rcases p with k | k
      · rw [Fin.ext_iff]
        have := k.2
        simp only [quad, Sum.elim_inl, id]
        constructor
        · rintro (h | h)
          · exact h
          · omega
        · exact Or.inl
      · rw [Fin.ext_iff]
        have := k.2
        simp only [quad, Sum.elim_inr, id]
        constructor
        · rintro (h | h) <;> omega
        · intro h; right; omega
    simp only [hq, hp]
    by_cases h1 : p = q
    · simp [h1]
    · simp [h1]
  rw [hnoise]
  refine ⟨?_, ?_⟩
  · unfold Matrix.IsSymm
    simp only [transpose_add, transpose_smul, diagonal_transpose, transpose_mul, hV.1.eq, Matrix.mul_assoc]
  · have h1 := hV.2.mul_mul_conjTranspose_same (cmap (diagonal d))
    have hE : e.PosSemidef := by
      refine Matrix.PosSemidef.diagonal fun k => ?_
      dsimp only
      split_ifs <;> simp
    have h2 := (hE.mul_mul_conjTranspose_same (wmat N)).smul
      (show (0 : ℂ) ≤ (((1 - T) * hbar / 2 : ℝ) : ℂ) from Complex.zero_le_real.mpr (by positivity))
    have hD : (diagonal fun p : Fin N ⊕ Fin N => if (Sum.elim id id p : Fin N) = (⟨m, hm⟩ : Fin N) then (1 : ℂ) else 0).PosSemidef := by
      refine Matrix.PosSemidef.diagonal fun k => ?_
      dsimp only
      split_ifs <;> simp
    have h3 := hD.smul (show (0 : ℂ) ≤ (((1 - T) * nbar * hbar : ℝ) : ℂ) from Complex.zero_le_real.mpr (by positivity))
    have h4 := (h1.add h2).add h3
    convert h4 using 1
    have hsT : Real.sqrt T * Real.sqrt T = T := Real.mul_self_sqrt hT0
    ext p q
    have hw : (wmat N * e * (wmat N)ᴴ) p q = if (Sum.elim id id p : Fin N) = (⟨m, hm⟩ : Fin N) then (1 + Complex.I • omega N) p q else 0 := by
      rw [← wmat_mul, Matrix.mul_apply, Matrix.mul_apply]
      have hz : ∀ k, wmat N p k * (if (k : ℕ) = m then 1 else 0) = if (Sum.elim id id p : Fin N) = (⟨m, hm⟩ : Fin N) then wmat N p k else 0 := by
        intro k
        have hk : wmat N p k ≠ 0 → (Sum.elim id id p : Fin N) = k := by
          rcases p with p | p <;> simp [wmat]
        by_cases h0 : wmat N p k = 0
        · simp [h0]
        · rw [hk h0]
          by_cases h9 : k = ⟨m, hm⟩
          · simp [h9]
          · have h8 : ¬ (k : ℕ) = m := fun h => h9 (Fin.ext h)
            rw [if_neg h9, if_neg h8, mul_zero]
      by_cases h9 : (Sum.elim id id p : Fin N) = (⟨m, hm⟩ : Fin N)
      · rw [if_pos h9]
        refine Finset.sum_congr rfl fun k _ => ?_
        rw [mul_diagonal, hz k, if_pos h9]
      · rw [if_neg h9]
        refine Finset.sum_eq_zero fun k _ => ?_
        rw [mul_diagonal, hz k, if_neg h9, zero_mul]
    simp only [Matrix.add_apply, Matrix.smul_apply, smul_eq_mul, hw]
    have hd : cmap (diagonal d) = diagonal fun p : Fin N ⊕ Fin N => (d p : ℂ) := by
      exact diagonal_map (by simp)
    rw [hd, diagonal_conjTranspose]
    have hXX : (diagonal (fun p => (d p : ℂ)) * ((phase N N s.cov).map Complex.ofReal + (Complex.I * (hbar / 2 : ℝ)) • omega N) *
        diagonal (star fun p => (d p : ℂ))) p q = (d p : ℂ) * (Complex.ofReal (phase N N s.cov p q) + Complex.I * (hbar / 2 : ℝ) * omega N p q) * (d q : ℂ) := by
      rw [mul_diagonal, diagonal_mul]
      simp
    rw [hXX]
    have hmap : ((diagonal d * phase N N s.cov * (diagonal d)ᵀ + ((1 - T) * (2 * nbar + 1) * hbar / 2) •
        diagonal fun p : Fin N ⊕ Fin N => if (Sum.elim id id p : Fin N) = (⟨m, hm⟩ : Fin N) then (1 : ℝ) else 0).map Complex.ofReal) p q =
        (d p : ℂ) * Complex.ofReal (phase N N s.cov p q) * (d q : ℂ) + ((1 - T) * (2 * nbar + 1) * hbar / 2 : ℝ) *
          (if p = q then (if (Sum.elim id id p : Fin N) = (⟨m, hm⟩ : Fin N) then 1 else 0) else 0) := by
      rw [diagonal_transpose]
      simp only [map_apply, Matrix.add_apply, Matrix.smul_apply, smul_eq_mul, mul_diagonal, diagonal_mul, diagonal_apply]
      push_cast
      simp only [apply_ite Complex.ofReal, Complex.ofReal_one, Complex.ofReal_zero]
    rw [hmap, diagonal_apply]
    have hom : omega N p q ≠ 0 → (Sum.elim id id p : Fin N) = (Sum.elim id id q : Fin N) := by
      unfold omega J
      rcases p with p | p <;> rcases q with q | q <;> simp [Matrix.one_apply] <;> tauto
    by_cases ho : omega N p q = 0
    · rw [ho]
      by_cases hpq : p = q
      · subst hpq
        by_cases hp : (Sum.elim id id p : Fin N) = (⟨m, hm⟩ : Fin N)
        · simp [hp, Matrix.one_apply]
          push_cast
          ring
        · simp [hp, Matrix.one_apply]
      · by_cases hp : (Sum.elim id id p : Fin N) = (⟨m, hm⟩ : Fin N)
        · simp [hp, hpq, Matrix.one_apply]
        · simp [hp, hpq, Matrix.one_apply]
    · have hpq' := hom ho
      rw [hfac p, hfac q, ← hpq']
      have hne : p ≠ q := by
        rintro rfl
        apply ho
        unfold omega J
        rcases p with p | p <;> simp
      by_cases hp : (Sum.elim id id p : Fin N) = (⟨m, hm⟩ : Fin N)
      · have hsTc : ((Real.sqrt T : ℝ) : ℂ) * ((Real.sqrt T : ℝ) : ℂ) = (T : ℂ) := by rw [← Complex.ofReal_mul, hsT]
        simp [hp, hne, Matrix.one_apply]
        linear_combination (-(Complex.I * (hbar / 2) * omega N p q)) * hsTc
      · simp [hp, hne, Matrix.one_apply]

/-! ### Concrete instances of the hypotheses -/

/-- half of the light of one mode of the two-mode vacuum is lost into a thermal environment: the hypotheses of `physical_loss` hold and the
output exists -/
example : ∃ r, loss (vacuumState 2 2) (1 / 2) 1 3 2 = .ok r ∧ Physical (phase 2 2 r.cov) 2 := by
  have h := loss_eq 2 (vacuumState 2 2) rfl (1 / 2) (by norm_num) 1 (by norm_num) 3 2
  exact ⟨_, h, physical_loss (N := 2) (vacuumState 2 2) _ rfl (1 / 2) 3 2 (by norm_num) (by norm_num) (by norm_num) (by norm_num) 1 (by norm_num)
    (physical_vacuum 2 2 (by norm_num)).1 h⟩

/-- a two-mode squeezed vacuum is physical and pure -/
example (r phi : ℝ) : isPureCov (fun x y => decide (x = y)) 4 4 (fun i j => (2 : ℝ) / 2 * mmul 4 (twoModeSqueezing r phi) (tr (twoModeSqueezing r phi)) i j) 2 0 = true :=
  isPureCov_gate _ (fun x y => by simp) 2 (twoModeSqueezing r phi) (twoModeSqueezing_symplectic r phi) 2 (by norm_num)

end Verif.Props
