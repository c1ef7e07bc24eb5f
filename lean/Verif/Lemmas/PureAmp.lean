/-
The amplitudes of the pure Gaussian state of a symplectic matrix and a displacement.
-/
import Verif.Lemmas.GaussUnitary

set_option linter.unusedSectionVars false
set_option linter.unusedSimpArgs false

namespace Verif.Lemmas.Heis
open Verif.Spec Verif.Lemmas Matrix Verif.Props Verif.Model Verif.Model.Symp Verif.Model.Conv Verif.Model.Fock Verif.Lemmas.Symp Verif.Lemmas.FockS

noncomputable section

variable {N : ℕ}

/-- amplitudes of the pure state -/
def stAmp (S : Matrix (Fin N ⊕ Fin N) (Fin N ⊕ Fin N) ℝ) (α : Fin N → ℂ) (n : Fin N → ℕ) : ℂ :=
  fockAmp (uVac (bogE S) (bogF S) α) (bogF S * (cj (bogE S))⁻¹) (α - (bogF S * (cj (bogE S))⁻¹) *ᵥ star α) n

variable {cov : ℕ → ℕ → ℝ} {hbar : ℝ} {S : Matrix (Fin N ⊕ Fin N) (Fin N ⊕ Fin N) ℝ}

theorem physical_one (hh : 0 < hbar) : Physical ((hbar / 2) • (1 : Matrix (Fin N ⊕ Fin N) (Fin N ⊕ Fin N) ℝ)) hbar := by
  have h := (physical_vacuum N hbar hh.le).1
  rwa [phase_vacuum] at h

theorem symp_physical (hh : 0 < hbar) (hS : S ∈ symplecticGroup (Fin N) ℝ) (hcov : phase N N cov = (hbar / 2) • (S * Sᵀ)) :
    Physical (phase N N cov) hbar ∧ ((2 / hbar) • phase N N cov).det = 1 := by
  constructor
  · have := physical_symplectic _ S hbar (physical_one (N := N) hh) hS
    rw [Matrix.mul_smul, Matrix.smul_mul, Matrix.mul_one] at this
    rwa [hcov]
  · rw [hcov, smul_smul]
    have : 2 / hbar * (hbar / 2) = 1 := by field_simp
    rw [this, one_smul, det_mul, det_transpose, SymplecticGroup.det_eq_one hS, one_mul]

theorem symp_W (hh : 0 < hbar) (hcov : phase N N cov = (hbar / 2) • (S * Sᵀ)) : Wmat N cov hbar = (1 / 2 : ℝ) • (S * Sᵀ + 1) := by
  unfold Wmat
  rw [hcov, ← smul_add, smul_smul]
  congr 1
  field_simp

theorem pure_block_eq (hh : 0 < hbar) (hS : S ∈ symplecticGroup (Fin N) ℝ) (hcov : phase N N cov = (hbar / 2) • (S * Sᵀ)) (A : ℕ → ℕ → ℂ) (hA : Amat N cov hbar = .ok A) :
    cj (toMatrix N N A) = bogF S * (cj (bogE S))⁻¹ := by
  obtain ⟨hph, hpure⟩ := symp_physical hh hS hcov
  have hsym := physical_sym hph
  have hdet := det_W_pos hph hh
  have hQdet : (phase N N (Qmat N cov hbar)).det ≠ 0 := by rw [det_Q hsym hh, Complex.ofReal_ne_zero]; exact hdet.ne'
  obtain ⟨A', hA', -, -, hAQ, -⟩ := Amat_correct N cov hbar hsym hQdet
  obtain rfl : A' = A := Except.ok.inj (hA'.symm.trans hA)
  have hblk := pure_block hph hh hpure A' hAQ
  have hQU := Q_mul_U (N := N) hsym hh
  have hK : phase N N A' * phase N N (Xmat N) = fromBlocks 0 (toMatrix N N A') (toMatrix N N fun i j => A' (N + i) (N + j)) 0 := by
    rw [phase_blocks, phase_Xmat, fromBlocks_multiply]
    congr 1
    · ext i j; simp [toMatrix, (hblk i i.2 j j.2).1]
    · simp
    · simp
    · ext i j; simp [toMatrix, (hblk i i.2 j j.2).2]
  rw [hK] at hAQ
  have hinv : (phase N N (Qmat N cov hbar))⁻¹ * phase N N (Qmat N cov hbar) = 1 := Matrix.nonsing_inv_mul _ (isUnit_iff_ne_zero.mpr hQdet)
  have h1 : fromBlocks 0 (toMatrix N N A') (toMatrix N N fun i j => A' (N + i) (N + j)) 0 * (Um N * (Wmat N cov hbar).map Complex.ofReal) =
      Um N * (Wmat N cov hbar).map Complex.ofReal - Um N := by
    rw [hAQ, ← hQU, ← Matrix.mul_assoc, Matrix.sub_mul, Matrix.one_mul, hinv, Matrix.sub_mul, Matrix.one_mul]
  have hUi : Um N = Ui (Fin N) := rfl
  have hm : ∀ (c : ℝ) (M : Matrix (Fin N ⊕ Fin N) (Fin N ⊕ Fin N) ℝ), (c • M).map Complex.ofReal = (c : ℂ) • M.map Complex.ofReal := fun c M => by ext i j; simp
  have h2 : fromBlocks 0 (toMatrix N N A') (toMatrix N N fun i j => A' (N + i) (N + j)) 0 * (Ui (Fin N) * ((S * Sᵀ + 1).map Complex.ofReal)) =
      Ui (Fin N) * ((S * Sᵀ - 1).map Complex.ofReal) := by
    rw [symp_W hh hcov, hm, hUi, Matrix.mul_smul, Matrix.mul_smul] at h1
    have h3 := congrArg (fun M => (2 : ℂ) • M) h1
    simp only [smul_sub, smul_smul] at h3
    have e : (2 : ℂ) * ((1 / 2 : ℝ) : ℂ) = 1 := by push_cast; norm_num
    rw [e, one_smul, one_smul] at h3
    rw [h3]
    have e2 : (S * Sᵀ - 1).map Complex.ofReal = (S * Sᵀ + 1).map Complex.ofReal - (2 : ℂ) • 1 := by
      ext i j
      by_cases hij : i = j <;> simp [hij, Matrix.one_apply]; ring
    rw [e2, Matrix.mul_sub, Matrix.mul_smul, Matrix.mul_one]
  have h3 := congrArg cj (pure_A hS _ _ h2)
  rw [cj_mul, cj_cj] at h3
  rw [← h3, Matrix.mul_assoc, cj_mul_inv (symp_bog hS), Matrix.mul_one]

theorem lh_fockAmp (R : Matrix (Fin N) (Fin N) ℂ) (y : Fin N → ℂ) (B : ℕ → ℕ → ℂ) (g : ℕ → ℂ) (hB : ∀ i j : Fin N, B i j = R i j) (hg : ∀ i : Fin N, g i = y i) (c : ℂ) (n : Fin N → ℕ) :
    fockAmp c R y n = c * lh g B (repeatedIndices (List.ofFn n)) / ((sqrtFact n : ℝ) : ℂ) := by
  rw [fockAmp_eq]
  unfold gfun
  congr 2
  have hlt : ∀ x ∈ repeatedIndices (List.ofFn n), x < N := fun x hx => by have := repeatedIndices_lt hx; simpa using this
  refine lh_congr (fun x hx => ?_) fun x hx y hy => ?_
  · simp [vecOf, hlt x hx, hg ⟨x, hlt x hx⟩]
    try exact (hg ⟨x, hlt x hx⟩).symm
  · simp [arrOf, hlt x hx, hlt y hy]
    exact (hB ⟨x, hlt x hx⟩ ⟨y, hlt y hy⟩).symm

/-- the loop weights of a pure state -/
theorem pure_gamma (hh : 0 < hbar) (hS : S ∈ symplecticGroup (Fin N) ℝ) (hcov : phase N N cov = (hbar / 2) • (S * Sᵀ)) (A : ℕ → ℕ → ℂ) (hA : Amat N cov hbar = .ok A)
    (α : Fin N → ℂ) (β : ℕ → ℂ) (hβ : ∀ k : Fin N, β k = α k) (k : Fin N) :
    (starRingEnd ℂ) ((starRingEnd ℂ) (β k) - dot N (A k) β) = (α - (bogF S * (cj (bogE S))⁻¹) *ᵥ star α) k := by
  rw [← pure_block_eq hh hS hcov A hA, map_sub, Complex.conj_conj, hβ, dot_sum, map_sum, Finset.sum_range]
  simp only [Pi.sub_apply, Matrix.mulVec, dotProduct, Matrix.map_apply, map_mul, hβ, Pi.star_apply, RCLike.star_def, toMatrix, of_apply]

/-- the exponent of the vacuum amplitude of a pure state -/
theorem pure_exp (hh : 0 < hbar) (hS : S ∈ symplecticGroup (Fin N) ℝ) (hcov : phase N N cov = (hbar / 2) • (S * Sᵀ)) (A : ℕ → ℕ → ℂ) (hA : Amat N cov hbar = .ok A)
    (mu : ℕ → ℝ) (α : Fin N → ℂ) (hα : ∀ k : Fin N, complexToReal N mu hbar k = α k) :
    (starRingEnd ℂ) (pureExp N mu hbar A) = -(1 / 2) * (((∑ k, ‖α k‖ ^ 2 : ℝ) : ℂ) - star α ⬝ᵥ ((bogF S * (cj (bogE S))⁻¹) *ᵥ star α)) := by
  rw [← pure_block_eq hh hS hcov A hA]
  unfold pureExp
  rw [map_mul, map_sub, Complex.conj_ofReal, norm2_sq, half_conj]
  congr 2
  · simp only [hα]
  · simp only [dot_sum, map_sum, map_mul, Finset.sum_range, hα, dotProduct, Matrix.mulVec, Matrix.map_apply, Pi.star_apply, RCLike.star_def, toMatrix, of_apply,
      Finset.sum_mul, Finset.mul_sum]
    rw [Finset.sum_comm]
    exact Finset.sum_congr rfl fun i _ => Finset.sum_congr rfl fun j _ => by ring

theorem psiFn_stAmp (hh : 0 < hbar) (hS : S ∈ symplecticGroup (Fin N) ℝ) (hcov : phase N N cov = (hbar / 2) • (S * Sᵀ)) (A : ℕ → ℕ → ℂ) (hA : Amat N cov hbar = .ok A)
    (mu : ℕ → ℝ) (α : Fin N → ℂ) (hα : ∀ k : Fin N, complexToReal N mu hbar k = α k) (γ : ℕ → ℂ)
    (hγ : ∀ k < N, γ k = (starRingEnd ℂ) (complexToReal N mu hbar k) - dot N (A k) (complexToReal N mu hbar)) (n : Fin N → ℕ) :
    psiFn N mu cov hbar A γ n = stAmp S α n := by
  unfold psiFn stAmp
  rw [lh_fockAmp _ _ (fun i j => (starRingEnd ℂ) (A i j)) (fun k => (starRingEnd ℂ) (γ k)), ← lh_ringHom, pure_exp hh hS hcov A hA mu α hα, symp_W hh hcov, pure_det hS]
  · unfold uVac sqrtFact
    rw [Real.sqrt_sq (norm_nonneg _)]
    push_cast
    ring
  · intro i j
    have := congrFun (congrFun (pure_block_eq hh hS hcov A hA) i) j
    exact this
  · intro k
    rw [hγ k k.2, pure_gamma hh hS hcov A hA α _ hα k]

/-- the pure state as a Fock matrix -/
theorem stAmp_fock (hh : 0 < hbar) (hS : S ∈ symplecticGroup (Fin N) ℝ) (hcov : phase N N cov = (hbar / 2) • (S * Sᵀ)) (mu : ℕ → ℝ) (α : Fin N → ℂ)
    (hα : ∀ k : Fin N, complexToReal N mu hbar k = α k) : IsFockMatrix N mu cov hbar fun i j => stAmp S α i * (starRingEnd ℂ) (stAmp S α j) := by
  obtain ⟨hph, hpure⟩ := symp_physical hh hS hcov
  obtain ⟨A, γ, hA, -, hγ, -, hF⟩ := pure_setup mu hh hph hpure
  have e : psiFn N mu cov hbar A γ = stAmp S α := funext fun n => psiFn_stAmp hh hS hcov A hA mu α hα γ hγ n
  rwa [e] at hF

theorem exists_cov (V : Matrix (Fin N ⊕ Fin N) (Fin N ⊕ Fin N) ℝ) : ∃ cov : ℕ → ℕ → ℝ, phase N N cov = V := by
  classical
  refine ⟨fun a b => if h : a < 2 * N ∧ b < 2 * N then V ((quadEquiv N).symm ⟨a, h.1⟩) ((quadEquiv N).symm ⟨b, h.2⟩) else 0, ?_⟩
  ext p q
  have e : ∀ p, (⟨quad N p, quad_lt N p⟩ : Fin (2 * N)) = quadEquiv N p := fun p => rfl
  simp [phase, quad_lt, e]

theorem exists_mu (hh : 0 < hbar) (α : Fin N → ℂ) : ∃ mu : ℕ → ℝ, ∀ k : Fin N, complexToReal N mu hbar k = α k := by
  classical
  refine ⟨fun a => Real.sqrt (2 * hbar) * if h : a < N then (α ⟨a, h⟩).re else if h : a - N < N then (α ⟨a - N, h⟩).im else 0, fun k => ?_⟩
  rw [(complexToReal_entries N _ hbar k k.2).1]
  have hs : Real.sqrt (2 * hbar) ≠ 0 := by positivity
  have hs' : ((Real.sqrt (2 * hbar) : ℝ) : ℂ) ≠ 0 := by exact_mod_cast hs
  rw [div_eq_iff hs']
  unfold amp
  apply Complex.ext <;> simp [mul_comm]

/-- the amplitudes are normalised -/
theorem stAmp_norm (hS : S ∈ symplecticGroup (Fin N) ℝ) (α : Fin N → ℂ) : HasSum (fun n => ‖stAmp S α n‖ ^ 2) 1 := by
  obtain ⟨cov, hcov⟩ := exists_cov ((2 / 2 : ℝ) • (S * Sᵀ))
  obtain ⟨mu, hmu⟩ := exists_mu (hbar := 2) (by norm_num) α
  have h := fockMatrix_trace (by norm_num) (symp_physical (by norm_num) hS hcov).1 (stAmp_fock (by norm_num) hS hcov mu α hmu)
  have h2 : HasSum (fun n => ((‖stAmp S α n‖ ^ 2 : ℝ) : ℂ)) ((1 : ℝ) : ℂ) := by
    rw [Complex.ofReal_one]
    refine h.congr_fun fun n => ?_
    rw [Complex.mul_conj', Complex.ofReal_pow]
  exact Complex.hasSum_ofReal.mp h2

end

end Verif.Lemmas.Heis
