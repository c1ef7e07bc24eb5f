/-
The pure Gaussian state of a symmetric matrix `M` of norm less than one: `Q = (1 - X (M ⊕ conj M))⁻¹`.
-/
import Verif.Lemmas.FockState
import Verif.Props.Physical
import Verif.Props.PhotonNumber
import Verif.Model.Adjacency
import Mathlib.LinearAlgebra.Matrix.SchurComplement
import Mathlib.Data.Matrix.ColumnRowPartitioned

namespace Verif.Lemmas.Graph
open Verif.Model Verif.Model.Symp Verif.Model.Conv Verif.Model.Means Verif.Spec Verif.Lemmas Verif.Lemmas.Symp Verif.Lemmas.FockS Verif.Props Matrix
open scoped ComplexOrder

variable {N : ℕ}

theorem blocks_sub (A B C D A' B' C' D' : Matrix (Fin N) (Fin N) ℂ) :
    fromBlocks A B C D - fromBlocks A' B' C' D' = fromBlocks (A - A') (B - B') (C - C') (D - D') := by
  rw [sub_eq_add_neg, fromBlocks_neg, fromBlocks_add]; simp only [sub_eq_add_neg]

/-- `1 - X (M ⊕ conj M)` -/
noncomputable def Bm (M : Matrix (Fin N) (Fin N) ℂ) : Matrix (Fin N ⊕ Fin N) (Fin N ⊕ Fin N) ℂ := fromBlocks 1 (-Mᴴ) (-M) 1

/-- its inverse -/
noncomputable def Qb (M : Matrix (Fin N) (Fin N) ℂ) : Matrix (Fin N ⊕ Fin N) (Fin N ⊕ Fin N) ℂ :=
  fromBlocks (1 - Mᴴ * M)⁻¹ ((1 - Mᴴ * M)⁻¹ * Mᴴ) (M * (1 - Mᴴ * M)⁻¹) (1 + M * (1 - Mᴴ * M)⁻¹ * Mᴴ)

theorem Bm_mul (M : Matrix (Fin N) (Fin N) ℂ) (hP : (1 - Mᴴ * M).PosDef) : Bm M * Qb M = 1 := by
  have h1 : (1 - Mᴴ * M) * (1 - Mᴴ * M)⁻¹ = 1 := Matrix.mul_nonsing_inv _ (isUnit_iff_ne_zero.mpr hP.det_pos.ne')
  set P := (1 - Mᴴ * M)⁻¹ with hPd
  have h2 : P - Mᴴ * M * P = 1 := by rw [← h1, Matrix.sub_mul, Matrix.one_mul]
  unfold Bm Qb
  rw [fromBlocks_multiply, ← fromBlocks_one, ← hPd]
  congr 1
  · rw [Matrix.one_mul, Matrix.neg_mul, ← Matrix.mul_assoc, ← sub_eq_add_neg, h2]
  · rw [Matrix.one_mul, Matrix.neg_mul, Matrix.mul_add, Matrix.mul_one]
    have : P * Mᴴ - Mᴴ * M * P * Mᴴ = Mᴴ := by rw [← Matrix.sub_mul, h2, Matrix.one_mul]
    rw [← Matrix.mul_assoc, ← Matrix.mul_assoc]
    calc P * Mᴴ + -(Mᴴ + Mᴴ * M * P * Mᴴ) = (P * Mᴴ - Mᴴ * M * P * Mᴴ) - Mᴴ := by abel
      _ = 0 := by rw [this, sub_self]
  · rw [Matrix.one_mul, Matrix.neg_mul, neg_add_cancel]
  · rw [Matrix.one_mul, Matrix.neg_mul, Matrix.mul_assoc]; abel

theorem Bm_det (M : Matrix (Fin N) (Fin N) ℂ) (hP : (1 - Mᴴ * M).PosDef) : (Bm M).det ≠ 0 := by
  have := congrArg Matrix.det (Bm_mul M hP)
  rw [det_mul, det_one] at this
  exact left_ne_zero_of_mul (this ▸ one_ne_zero)

theorem Bm_inv (M : Matrix (Fin N) (Fin N) ℂ) (hP : (1 - Mᴴ * M).PosDef) : (Bm M)⁻¹ = Qb M := inv_eq_right_inv (Bm_mul M hP)

theorem Bm_herm (M : Matrix (Fin N) (Fin N) ℂ) : (Bm M)ᴴ = Bm M := by
  unfold Bm; rw [fromBlocks_conjTranspose]; simp

theorem map_conj_eq (M : Matrix (Fin N) (Fin N) ℂ) (hM : Mᵀ = M) : M.map (starRingEnd ℂ) = Mᴴ := by
  ext i j
  have := congrFun (congrFun hM i) j
  simp only [transpose_apply] at this
  simp [conjTranspose_apply, this]

theorem Bm_conj (M : Matrix (Fin N) (Fin N) ℂ) (hM : Mᵀ = M) :
    (Bm M).map (starRingEnd ℂ) = fromBlocks 0 1 1 0 * Bm M * fromBlocks 0 1 1 0 := by
  unfold Bm
  rw [fromBlocks_map, fromBlocks_multiply, fromBlocks_multiply]
  simp only [Matrix.zero_mul, Matrix.one_mul, zero_add, add_zero, Matrix.mul_zero, Matrix.mul_one]
  have h1 := map_conj_eq M hM
  congr 1
  · ext i j; simp [Matrix.one_apply, apply_ite]
  · ext i j
    have := congrFun (congrFun hM i) j
    simp only [transpose_apply] at this
    simp [conjTranspose_apply, this]
  · ext i j
    have := congrFun (congrFun hM i) j
    simp only [transpose_apply] at this
    simp [conjTranspose_apply, this]
  · ext i j; simp [Matrix.one_apply, apply_ite]

/-- converse of `husimi_phase` -/
theorem husimi_of_phase (Q : ℕ → ℕ → ℂ) (h1 : (phase N N Q)ᴴ = phase N N Q)
    (h2 : (phase N N Q).map (starRingEnd ℂ) = fromBlocks 0 1 1 0 * phase N N Q * fromBlocks 0 1 1 0) : IsHusimi N Q := by
  have h3 := h2
  rw [phase_blocks, fromBlocks_multiply, fromBlocks_multiply, fromBlocks_map] at h3
  simp only [Matrix.zero_mul, Matrix.one_mul, zero_add, add_zero, Matrix.mul_zero, Matrix.mul_one] at h3
  obtain ⟨e1, e2, -, -⟩ := fromBlocks_inj.mp h3
  refine ⟨?_, ?_, ?_⟩
  · intro i hi j hj
    obtain ⟨p, rfl⟩ := exists_quad N i hi
    obtain ⟨q, rfl⟩ := exists_quad N j hj
    have := congrFun (congrFun h1 q) p
    simp only [conjTranspose_apply, phase, of_apply] at this
    rw [← this]; rfl
  · intro i hi j hj
    exact (congrFun (congrFun e1 ⟨i, hi⟩) ⟨j, hj⟩).symm
  · intro i hi j hj
    have := congrFun (congrFun e2 ⟨i, hi⟩) ⟨j, hj⟩
    simp only [map_apply, toMatrix, of_apply] at this
    have h4 := congrArg (starRingEnd ℂ) this
    rw [Complex.conj_conj] at h4
    exact h4

theorem graph_husimi (M : Matrix (Fin N) (Fin N) ℂ) (hM : Mᵀ = M) (Q : ℕ → ℕ → ℂ) (hQ : phase N N Q = (Bm M)⁻¹) : IsHusimi N Q := by
  have hXinv : (fromBlocks 0 1 1 0 : Matrix (Fin N ⊕ Fin N) (Fin N ⊕ Fin N) ℂ)⁻¹ = fromBlocks 0 1 1 0 := inv_eq_left_inv (Xmat_sq N)
  apply husimi_of_phase
  · rw [hQ, conjTranspose_nonsing_inv, Bm_herm]
  · rw [hQ, map_inv_conj, Bm_conj M hM, Matrix.mul_inv_rev, Matrix.mul_inv_rev, hXinv, Matrix.mul_assoc]

/-- `Covmat` of a Husimi matrix is symmetric. -/
theorem Covmat_symm (Q : ℕ → ℕ → ℂ) (hbar : ℝ) (hQ : IsHusimi N Q) : ∀ i < 2 * N, ∀ j < 2 * N, Covmat N Q hbar i j = Covmat N Q hbar j i := by
  have hre : ∀ i < N, ∀ j < N, (Q j i).re = (Q i j).re := by
    intro i hi j hj
    rw [hQ.herm i (by omega) j (by omega)]; simp
  have hM : ∀ i < N, ∀ j < N, Q (N + j) i = Q (N + i) j := by
    intro i hi j hj
    have := hQ.herm i (by omega) (N + j) (by omega)
    rw [this, hQ.off i hi j hj, Complex.conj_conj]
  intro i hi j hj
  by_cases h1 : i < N <;> by_cases h2 : j < N
  · simp only [Covmat, block, h1, h2, if_true, Complex.sub_re, hM j h2 i h1, hre j h2 i h1, eye_symm i j]
  · simp only [Covmat, block, h1, h2, if_true, if_false, tr]
  · simp only [Covmat, block, h1, h2, if_true, if_false, tr]
  · simp only [Covmat, block, h1, h2, if_false, Complex.sub_re, hM (j - N) (by omega) (i - N) (by omega), hre (j - N) (by omega) (i - N) (by omega), eye_symm (i - N) (j - N)]

theorem Covmat_Q (Q : ℕ → ℕ → ℂ) (hbar : ℝ) (hh : 0 < hbar) (hQ : IsHusimi N Q) : phase N N (Qmat N (Covmat N Q hbar) hbar) = phase N N Q := by
  ext p q
  exact Qmat_Covmat N Q hbar hh hQ _ (quad_lt N p) _ (quad_lt N q)

/-- `Uᴴ Q U = (2/ħ) V + 1` -/
theorem U_Q_U (cov : ℕ → ℕ → ℝ) (hbar : ℝ) (hh : 0 < hbar) (hsym : ∀ i < 2 * N, ∀ j < 2 * N, cov i j = cov j i) :
    (Um N)ᴴ * phase N N (Qmat N cov hbar) * Um N = ((2 / hbar : ℝ) : ℂ) • (phase N N cov).map Complex.ofReal + 1 := by
  rw [Matrix.mul_assoc, Q_mul_U hsym hh, ← Matrix.mul_assoc, U_conj, smul_mul_assoc, Matrix.one_mul]
  ext p q
  have : (hbar : ℂ) ≠ 0 := by exact_mod_cast hh.ne'
  simp only [Matrix.smul_apply, Matrix.add_apply, map_apply, Wmat, smul_eq_mul, Matrix.one_apply]
  split_ifs <;> push_cast <;> field_simp

theorem U_proj : (Um N)ᴴ * fromBlocks 0 0 0 1 * Um N = 1 + Complex.I • omega N := by
  unfold Um omega Matrix.J
  rw [fromBlocks_conjTranspose, fromBlocks_multiply, fromBlocks_multiply, fromBlocks_neg, fromBlocks_smul, ← fromBlocks_one, fromBlocks_add]
  congr 1 <;> ext i j <;> by_cases h : i = j <;> simp [Matrix.one_apply, h]

theorem Qb_psd (M : Matrix (Fin N) (Fin N) ℂ) (hP : (1 - Mᴴ * M).PosDef) : (Qb M - fromBlocks 0 0 0 1).PosSemidef := by
  have h := hP.inv.posSemidef.mul_mul_conjTranspose_same (fromRows (1 : Matrix (Fin N) (Fin N) ℂ) M)
  have e : fromRows (1 : Matrix (Fin N) (Fin N) ℂ) M * (1 - Mᴴ * M)⁻¹ * (fromRows (1 : Matrix (Fin N) (Fin N) ℂ) M)ᴴ = Qb M - fromBlocks 0 0 0 1 := by
    rw [conjTranspose_fromRows_eq_fromCols_conjTranspose, fromRows_mul, fromRows_mul_fromCols]
    unfold Qb
    rw [blocks_sub]
    congr 1 <;> simp
  rwa [e] at h

theorem physical_of_conj (V : Matrix (Fin N ⊕ Fin N) (Fin N ⊕ Fin N) ℝ) (hbar : ℝ) (hs : V.IsSymm)
    (h : (V.map Complex.ofReal - (Complex.I * (hbar / 2 : ℝ)) • omega N).PosSemidef) : Physical V hbar := by
  refine ⟨hs, ?_⟩
  have h' := h.transpose
  have e : V.map Complex.ofReal + (Complex.I * (hbar / 2 : ℝ)) • omega N = (V.map Complex.ofReal - (Complex.I * (hbar / 2 : ℝ)) • omega N)ᵀ := by
    rw [transpose_sub, transpose_smul, sub_eq_add_neg, ← smul_neg]
    congr 1
    · ext p q
      have := congrFun (congrFun hs p) q
      simp only [transpose_apply] at this
      simp [← this]
    · congr 1
      unfold omega
      rw [transpose_neg, J_transpose, neg_neg]
  rwa [e]

theorem covmat_isSymm (Q : ℕ → ℕ → ℂ) (hbar : ℝ) (hQ : IsHusimi N Q) : (phase N N (Covmat N Q hbar)).IsSymm := by
  ext p q
  exact Covmat_symm Q hbar hQ _ (quad_lt N q) _ (quad_lt N p)

theorem graph_physical (M : Matrix (Fin N) (Fin N) ℂ) (hM : Mᵀ = M) (hP : (1 - Mᴴ * M).PosDef) (Q : ℕ → ℕ → ℂ) (hQ : phase N N Q = (Bm M)⁻¹)
    (hbar : ℝ) (hh : 0 < hbar) : Physical (phase N N (Covmat N Q hbar)) hbar := by
  have hH := graph_husimi M hM Q hQ
  apply physical_of_conj _ _ (covmat_isSymm Q hbar hH)
  have h := (Qb_psd M hP).conjTranspose_mul_mul_same (Um N)
  rw [Matrix.mul_sub, Matrix.sub_mul, U_proj, ← Bm_inv M hP, ← hQ, ← Covmat_Q Q hbar hh hH, U_Q_U _ hbar hh (Covmat_symm Q hbar hH)] at h
  have h2 := h.smul (a := ((hbar / 2 : ℝ) : ℂ)) (Complex.zero_le_real.mpr (by positivity))
  have hc : ((hbar / 2 : ℝ) : ℂ) * ((2 / hbar : ℝ) : ℂ) = 1 := by
    have : (hbar : ℂ) ≠ 0 := by exact_mod_cast hh.ne'
    push_cast; field_simp
  have e : ((hbar / 2 : ℝ) : ℂ) • (((2 / hbar : ℝ) : ℂ) • (phase N N (Covmat N Q hbar)).map Complex.ofReal + 1 - (1 + Complex.I • omega N)) =
      (phase N N (Covmat N Q hbar)).map Complex.ofReal - (Complex.I * (hbar / 2 : ℝ)) • omega N := by
    rw [add_comm (1 : Matrix (Fin N ⊕ Fin N) (Fin N ⊕ Fin N) ℂ), add_sub_add_right_eq_sub, smul_sub, smul_smul, hc, one_smul, smul_smul, mul_comm Complex.I]
  rwa [e] at h2

theorem Um_det : (Um N).det ≠ 0 := by
  have := congrArg Matrix.det (U_conj (N := N))
  rw [det_mul, det_smul, det_one, mul_one] at this
  exact right_ne_zero_of_mul (this ▸ pow_ne_zero _ two_ne_zero)

theorem Bm_flip (M : Matrix (Fin N) (Fin N) ℂ) : (2 : ℂ) • 1 - Bm M = fromBlocks 1 0 0 (-1) * Bm M * fromBlocks 1 0 0 (-1) := by
  unfold Bm
  rw [fromBlocks_multiply, fromBlocks_multiply, ← fromBlocks_one, fromBlocks_smul, blocks_sub]
  congr 1
  · simp; rw [two_smul]; abel
  · simp
  · simp
  · simp; rw [two_smul]; abel

theorem graph_pure (M : Matrix (Fin N) (Fin N) ℂ) (hM : Mᵀ = M) (hP : (1 - Mᴴ * M).PosDef) (Q : ℕ → ℕ → ℂ) (hQ : phase N N Q = (Bm M)⁻¹)
    (hbar : ℝ) (hh : 0 < hbar) : ((2 / hbar) • phase N N (Covmat N Q hbar)).det = 1 := by
  have hH := graph_husimi M hM Q hQ
  have hU := U_Q_U (N := N) (Covmat N Q hbar) hbar hh (Covmat_symm Q hbar hH)
  rw [Covmat_Q Q hbar hh hH, hQ] at hU
  have hB : IsUnit (Bm M).det := isUnit_iff_ne_zero.mpr (Bm_det M hP)
  have hu : IsUnit (Um N).det := isUnit_iff_ne_zero.mpr Um_det
  have e1 : ((2 / hbar) • phase N N (Covmat N Q hbar)).map Complex.ofReal = (Um N)ᴴ * (((2 : ℂ) • 1 - Bm M) * (Bm M)⁻¹) * Um N - (Um N)ᴴ * ((1/2 : ℂ) • (((2 : ℂ) • 1 - Bm M) * (Bm M)⁻¹) - (1 / 2 : ℂ) • 1) * Um N - 1 + 0 := by
    rw [Matrix.sub_mul, Matrix.mul_nonsing_inv _ hB, smul_mul_assoc, Matrix.one_mul]
    have : (Um N)ᴴ * ((2 : ℂ) • (Bm M)⁻¹ - 1) * Um N - (Um N)ᴴ * ((1 / 2 : ℂ) • ((2 : ℂ) • (Bm M)⁻¹ - 1) - (1 / 2 : ℂ) • 1) * Um N = (Um N)ᴴ * (Bm M)⁻¹ * Um N := by
      rw [← Matrix.sub_mul, ← Matrix.mul_sub]
      congr 2
      module
    rw [this, hU, add_zero, add_sub_cancel_right]
    ext p q; simp
  have e2 : ((2 / hbar) • phase N N (Covmat N Q hbar)).map Complex.ofReal = (1 / 2 : ℂ) • ((Um N)ᴴ * (((2 : ℂ) • 1 - Bm M) * (Bm M)⁻¹) * Um N) := by
    rw [e1]
    generalize ((2 : ℂ) • 1 - Bm M) * (Bm M)⁻¹ = T
    rw [Matrix.mul_sub, Matrix.sub_mul, mul_smul_comm, mul_smul_comm, smul_mul_assoc, smul_mul_assoc, Matrix.mul_one, U_conj]
    module
  have e3 : (((2 / hbar) • phase N N (Covmat N Q hbar)).map Complex.ofReal).det = 1 := by
    have hz : (fromBlocks 1 0 0 (-1) : Matrix (Fin N ⊕ Fin N) (Fin N ⊕ Fin N) ℂ).det * (fromBlocks 1 0 0 (-1) : Matrix (Fin N ⊕ Fin N) (Fin N ⊕ Fin N) ℂ).det = 1 := by
      rw [← det_mul, fromBlocks_multiply]; simp
    have h4 : (1 / 2 : ℂ) ^ Fintype.card (Fin N ⊕ Fin N) * ((Um N)ᴴ.det * (Um N).det) = 1 := by
      rw [← det_mul, U_conj, det_smul, det_one, mul_one, ← mul_pow]; norm_num
    have h5 : (Bm M).det * ((Bm M)⁻¹).det = 1 := by rw [← det_mul, Matrix.mul_nonsing_inv _ hB, det_one]
    rw [e2, det_smul, det_mul, det_mul, det_mul, Bm_flip, det_mul, det_mul]
    linear_combination h4 * ((Bm M).det * ((Bm M)⁻¹).det) * ((fromBlocks 1 0 0 (-1) : Matrix (Fin N ⊕ Fin N) (Fin N ⊕ Fin N) ℂ).det * (fromBlocks 1 0 0 (-1) : Matrix (Fin N ⊕ Fin N) (Fin N ⊕ Fin N) ℂ).det) + h5 * ((fromBlocks 1 0 0 (-1) : Matrix (Fin N ⊕ Fin N) (Fin N ⊕ Fin N) ℂ).det * (fromBlocks 1 0 0 (-1) : Matrix (Fin N ⊕ Fin N) (Fin N ⊕ Fin N) ℂ).det) + hz
  have e4 := RingHom.map_det Complex.ofRealHom ((2 / hbar) • phase N N (Covmat N Q hbar))
  have : Complex.ofRealHom (((2 / hbar) • phase N N (Covmat N Q hbar)).det) = 1 := e4.trans e3
  exact Complex.ofReal_injective (this.trans Complex.ofReal_one.symm)

/-- the `A` matrix of the state is `conj M ⊕ M` -/
theorem graph_Amat (M : Matrix (Fin N) (Fin N) ℂ) (hM : Mᵀ = M) (hP : (1 - Mᴴ * M).PosDef) (Q : ℕ → ℕ → ℂ) (hQ : phase N N Q = (Bm M)⁻¹)
    (hbar : ℝ) (hh : 0 < hbar) : ∃ A, Amat N (Covmat N Q hbar) hbar = .ok A ∧ phase N N A = fromBlocks Mᴴ 0 0 M := by
  have hH := graph_husimi M hM Q hQ
  have hB : IsUnit (Bm M).det := isUnit_iff_ne_zero.mpr (Bm_det M hP)
  have hdet : (phase N N (Qmat N (Covmat N Q hbar) hbar)).det ≠ 0 := by
    rw [Covmat_Q Q hbar hh hH, hQ, det_nonsing_inv]; exact (IsUnit.ringInverse hB).ne_zero
  obtain ⟨A, h1, -, -, h2, -⟩ := Amat_correct N (Covmat N Q hbar) hbar (Covmat_symm Q hbar hH) hdet
  refine ⟨A, h1, ?_⟩
  rw [Covmat_Q Q hbar hh hH, hQ, nonsing_inv_nonsing_inv _ hB, phase_Xmat] at h2
  have h3 := congrArg (fun Y => Y * (fromBlocks 0 1 1 0 : Matrix (Fin N ⊕ Fin N) (Fin N ⊕ Fin N) ℂ)) h2
  simp only [Matrix.mul_assoc, Xmat_sq, Matrix.mul_one] at h3
  rw [h3]
  unfold Bm
  rw [← fromBlocks_one, blocks_sub, fromBlocks_multiply]
  congr 1 <;> simp

/-- mean photon number `tr (1 - Mᴴ M)⁻¹ - N` -/
theorem graph_mean (M : Matrix (Fin N) (Fin N) ℂ) (hP : (1 - Mᴴ * M).PosDef) (Q : ℕ → ℕ → ℂ) (hQ : phase N N Q = (Bm M)⁻¹)
    (hbar : ℝ) (hh : 0 < hbar) : ∃ v : List ℝ, photonNumberMeanVector { len := 2 * N, mu := fun _ => 0, cov := Covmat N Q hbar } hbar = .ok v ∧
      v.sum = ((1 - Mᴴ * M)⁻¹).trace.re - N := by
  obtain ⟨v, h1, h2⟩ := photonNumberMeanVector_sum N { len := 2 * N, mu := fun _ => 0, cov := Covmat N Q hbar } rfl hbar hh
  refine ⟨v, h1, h2.trans ?_⟩
  have e : ∀ f : ℕ → ℝ, ∑ i ∈ Finset.range (2 * N), f i = ∑ i ∈ Finset.range N, (f i + f (N + i)) := by
    intro f
    rw [two_mul, Finset.sum_range_add, Finset.sum_add_distrib]
  rw [e]
  have e2 : ∀ i ∈ Finset.range N, Covmat N Q hbar i i + Covmat N Q hbar (N + i) (N + i) = hbar * (2 * (Q i i).re - 1) := by
    intro i hi
    have := Finset.mem_range.mp hi
    simp only [Covmat, block, this, if_true, add_lt_iff_neg_left, not_lt_zero, if_false, Nat.add_sub_cancel_left, eye, Complex.sub_re, Complex.one_re]
    ring
  have e3 : ((1 - Mᴴ * M)⁻¹).trace.re = ∑ i ∈ Finset.range N, (Q i i).re := by
    rw [Matrix.trace, Complex.re_sum, Finset.sum_range]
    refine Finset.sum_congr rfl fun i _ => ?_
    have := congrFun (congrFun hQ (Sum.inl i)) (Sum.inl i)
    rw [Bm_inv M hP] at this
    simp only [phase, of_apply, Qb, fromBlocks_apply₁₁] at this
    rw [diag_apply, ← this]; rfl
  rw [Finset.sum_congr rfl e2, ← Finset.mul_sum, Finset.sum_sub_distrib, ← Finset.mul_sum, e3]
  simp
  field_simp
  ring

/-- the matrix built by `adj_to_qmat` and `_mean_clicks_adj` -/
theorem graph_phase (B : ℕ → ℕ → ℂ) (hM : (toMatrix N N B)ᵀ = toMatrix N N B) : phase N N (Verif.Model.Adj.graphInv N B) = Bm (toMatrix N N B) := by
  unfold Verif.Model.Adj.graphInv
  have : phase N N (fun i j => (eye i j : ℂ) - mmul (2 * N) (Xmat N) (block N N B (fun i j => 0 * B i j) (fun i j => 0 * B i j) fun i j => (starRingEnd ℂ) (B i j)) i j) =
      1 - phase N N (Xmat N) * phase N N (block N N B (fun i j => 0 * B i j) (fun i j => 0 * B i j) fun i j => (starRingEnd ℂ) (B i j)) := by
    rw [← phase_mmul N N N, ← phase_eye]; rfl
  rw [this, phase_Xmat, phase_block]
  unfold Bm
  rw [fromBlocks_multiply, ← fromBlocks_one, blocks_sub]
  congr 1
  · ext i j; simp [toMatrix]
  · rw [← map_conj_eq _ hM]; ext i j; simp [toMatrix]
  · ext i j; simp [toMatrix]
  · ext i j; simp [toMatrix]

theorem graph_npInv (B : ℕ → ℕ → ℂ) (hM : (toMatrix N N B)ᵀ = toMatrix N N B) (hP : (1 - (toMatrix N N B)ᴴ * toMatrix N N B).PosDef) :
    ∃ Q, npInv (2 * N) (Verif.Model.Adj.graphInv N B) = .ok Q ∧ phase N N Q = (Bm (toMatrix N N B))⁻¹ := by
  have e := graph_phase B hM
  obtain ⟨Q, h1, h2⟩ := npInv_phase N (Verif.Model.Adj.graphInv N B) (e ▸ Bm_det _ hP)
  exact ⟨Q, h1, by rw [h2, e]⟩

/-- at norm one there is no state -/
theorem graph_singular (B : ℕ → ℕ → ℂ) (hM : (toMatrix N N B)ᵀ = toMatrix N N B) (hP : (1 - (toMatrix N N B)ᴴ * toMatrix N N B).det = 0) :
    npInv (2 * N) (Verif.Model.Adj.graphInv N B) = .error .linAlgError := by
  unfold npInv
  rw [if_pos]
  rw [← phase_det, graph_phase B hM, Bm, det_fromBlocks_one₂₂, ← hP]
  congr 1
  simp

end Verif.Lemmas.Graph
