/-
C30, C31: conversions between the Wigner covariance matrix, the Husimi matrix and the `A` matrix.
-/
import Verif.Lemmas.Symplectic
import Verif.Model.Conversions
import Mathlib.LinearAlgebra.Matrix.Hermitian

set_option linter.unusedSectionVars false
set_option linter.unusedSimpArgs false

namespace Verif.Props
open Verif.Model Verif.Model.Symp Verif.Model.Conv Verif.Spec Verif.Lemmas.Symp Matrix

theorem eye_symm {K : Type} [Field K] (i j : ℕ) : (eye i j : K) = eye j i := by simp [eye, eq_comm]

/-- the four blocks of `Qmat` -/
theorem Qmat_xx (N : ℕ) (cov : ℕ → ℕ → ℝ) (hbar : ℝ) (i j : ℕ) (hi : i < N) (hj : j < N) :
    Qmat N cov hbar i j = ((cov i j * 2 / hbar + cov (N + i) (N + j) * 2 / hbar : ℝ)
      + Complex.I * (cov i (N + j) * 2 / hbar - cov j (N + i) * 2 / hbar : ℝ) - 2 * eye i j) / 4 + eye i j := by
  simp [Qmat, block, hi, hj]

theorem Qmat_px (N : ℕ) (cov : ℕ → ℕ → ℝ) (hbar : ℝ) (i j : ℕ) (hi : i < N) (hj : j < N) :
    Qmat N cov hbar (N + i) j = ((cov i j * 2 / hbar - cov (N + i) (N + j) * 2 / hbar : ℝ)
      + Complex.I * (cov i (N + j) * 2 / hbar + cov j (N + i) * 2 / hbar : ℝ)) / 4 := by
  have : N + i ≠ j := by omega
  simp [Qmat, block, hi, hj, eye, this]

theorem Qmat_xp (N : ℕ) (cov : ℕ → ℕ → ℝ) (hbar : ℝ) (i j : ℕ) (hi : i < N) (hj : j < N) :
    Qmat N cov hbar i (N + j) = (starRingEnd ℂ) (Qmat N cov hbar (N + i) j) := by
  have h1 : N + i ≠ j := by omega
  have h2 : i ≠ N + j := by omega
  simp [Qmat, block, hi, hj, eye, h1, h2]

theorem Qmat_pp (N : ℕ) (cov : ℕ → ℕ → ℝ) (hbar : ℝ) (i j : ℕ) (hi : i < N) (hj : j < N) :
    Qmat N cov hbar (N + i) (N + j) = (starRingEnd ℂ) (Qmat N cov hbar i j) := by
  have : (starRingEnd ℂ) (eye i j : ℂ) = eye i j := by unfold eye; split_ifs <;> simp
  have h2 : (eye (N + i) (N + j) : ℂ) = eye i j := by simp [eye]
  simp [Qmat, block, hi, hj, this, h2]

/-- C30: `Covmat` undoes `Qmat` on symmetric matrices (only the off-diagonal blocks need to be each other's transposes). -/
theorem Covmat_Qmat (N : ℕ) (cov : ℕ → ℕ → ℝ) (hbar : ℝ) (hh : 0 < hbar) (hsym : ∀ i < N, ∀ j < N, cov (N + i) j = cov j (N + i)) :
    ∀ i < 2 * N, ∀ j < 2 * N, Covmat N (Qmat N cov hbar) hbar i j = cov i j := by
  have hne : hbar ≠ 0 := hh.ne'
  have key : ∀ i < N, ∀ j < N, Covmat N (Qmat N cov hbar) hbar i j = cov i j ∧ Covmat N (Qmat N cov hbar) hbar i (N + j) = cov i (N + j) ∧
      Covmat N (Qmat N cov hbar) hbar (N + i) (N + j) = cov (N + i) (N + j) := by
    intro i hi j hj
    have e1 : ((eye i j : ℂ)).re = eye i j := by unfold eye; split_ifs <;> simp
    have e2 : ((eye i j : ℂ)).im = 0 := by unfold eye; split_ifs <;> simp
    simp only [Covmat, block, hi, hj, if_true, Nat.add_sub_cancel_left, add_lt_iff_neg_left, not_lt_zero, if_false, Qmat_xx N cov hbar i j hi hj,
      Qmat_px N cov hbar i j hi hj]
    refine ⟨?_, ?_, ?_⟩ <;> simp [e1, e2] <;> field_simp <;> ring
  intro i hi j hj
  by_cases h1 : i < N <;> by_cases h2 : j < N
  · exact (key i h1 j h2).1
  · have := (key i h1 (j - N) (by omega)).2.1
    rwa [Nat.add_sub_cancel' (by omega)] at this
  · have h3 := (key j h2 (i - N) (by omega)).2.1
    have h4 := hsym (i - N) (by omega) j h2
    rw [Nat.add_sub_cancel' (by omega)] at h3 h4
    rw [h4, ← h3]
    have h5 : ¬ i < N := h1
    simp only [Covmat, block, h5, h2, if_true, if_false, tr]
  · have := (key (i - N) (by omega) (j - N) (by omega)).2.2
    rwa [Nat.add_sub_cancel' (by omega), Nat.add_sub_cancel' (by omega)] at this

/-- the form of a Husimi matrix: Hermitian, and symmetric under exchanging the two halves together with conjugation -/
structure IsHusimi (N : ℕ) (Q : ℕ → ℕ → ℂ) : Prop where
  herm : ∀ i < 2 * N, ∀ j < 2 * N, Q j i = (starRingEnd ℂ) (Q i j)
  diag : ∀ i < N, ∀ j < N, Q (N + i) (N + j) = (starRingEnd ℂ) (Q i j)
  off : ∀ i < N, ∀ j < N, Q i (N + j) = (starRingEnd ℂ) (Q (N + i) j)

/-- C30: `Qmat` of a symmetric matrix has that form. -/
theorem Qmat_husimi (N : ℕ) (cov : ℕ → ℕ → ℝ) (hbar : ℝ) (hsym : ∀ i < 2 * N, ∀ j < 2 * N, cov i j = cov j i) : IsHusimi N (Qmat N cov hbar) := by
  have hxx : ∀ i < N, ∀ j < N, Qmat N cov hbar j i = (starRingEnd ℂ) (Qmat N cov hbar i j) := by
    intro i hi j hj
    have : (starRingEnd ℂ) (eye i j : ℂ) = eye i j := by unfold eye; split_ifs <;> simp
    rw [Qmat_xx N cov hbar i j hi hj, Qmat_xx N cov hbar j i hj hi, hsym j (by omega) i (by omega), hsym (N + j) (by omega) (N + i) (by omega),
      eye_symm j i]
    simp [this, map_ofNat]
    ring
  have hpx : ∀ i < N, ∀ j < N, Qmat N cov hbar (N + j) i = Qmat N cov hbar (N + i) j := by
    intro i hi j hj
    rw [Qmat_px N cov hbar i j hi hj, Qmat_px N cov hbar j i hj hi, hsym j (by omega) i (by omega), hsym (N + j) (by omega) (N + i) (by omega)]
    congr 3
    push_cast; ring
  refine ⟨?_, fun i hi j hj => Qmat_pp N cov hbar i j hi hj, fun i hi j hj => Qmat_xp N cov hbar i j hi hj⟩
  intro i hi j hj
  by_cases h1 : i < N <;> by_cases h2 : j < N
  · exact hxx i h1 j h2
  · obtain ⟨k, rfl⟩ : ∃ k, j = N + k := ⟨j - N, by omega⟩
    rw [Qmat_xp N cov hbar i k h1 (by omega), Complex.conj_conj, hpx i h1 k (by omega)]
  · obtain ⟨k, rfl⟩ : ∃ k, i = N + k := ⟨i - N, by omega⟩
    rw [Qmat_xp N cov hbar j k h2 (by omega), hpx k (by omega) j h2]
  · obtain ⟨k, rfl⟩ : ∃ k, j = N + k := ⟨j - N, by omega⟩
    obtain ⟨l, rfl⟩ : ∃ l, i = N + l := ⟨i - N, by omega⟩
    rw [Qmat_pp N cov hbar k l (by omega) (by omega), Qmat_pp N cov hbar l k (by omega) (by omega), hxx l (by omega) k (by omega)]

/-- C30: `Qmat` undoes `Covmat` on matrices of that form. -/
theorem Qmat_Covmat (N : ℕ) (Q : ℕ → ℕ → ℂ) (hbar : ℝ) (hh : 0 < hbar) (hQ : IsHusimi N Q) :
    ∀ i < 2 * N, ∀ j < 2 * N, Qmat N (Covmat N Q hbar) hbar i j = Q i j := by
  have hne : hbar ≠ 0 := hh.ne'
  have hre : ∀ i < N, ∀ j < N, (Q j i).re = (Q i j).re ∧ (Q j i).im = -(Q i j).im := by
    intro i hi j hj
    rw [hQ.herm i (by omega) j (by omega)]; simp
  have hM : ∀ i < N, ∀ j < N, Q (N + j) i = Q (N + i) j := by
    intro i hi j hj
    have := hQ.herm i (by omega) (N + j) (by omega)
    rw [this, hQ.off i hi j hj, Complex.conj_conj]
  have e1 : ∀ i j, ((eye i j : ℂ)).re = eye i j := by intro i j; unfold eye; split_ifs <;> simp
  have e2 : ∀ i j, ((eye i j : ℂ)).im = 0 := by intro i j; unfold eye; split_ifs <;> simp
  have kxx : ∀ i < N, ∀ j < N, Qmat N (Covmat N Q hbar) hbar i j = Q i j := by
    intro i hi j hj
    rw [Qmat_xx _ _ _ i j hi hj]
    simp only [Covmat, block, hi, hj, if_true, Nat.add_sub_cancel_left, add_lt_iff_neg_left, not_lt_zero, if_false]
    obtain ⟨h1, h2⟩ := hre i hi j hj
    rw [hM i hi j hj]
    apply Complex.ext <;> simp [e1, e2, h1, h2, eye_symm j i] <;> field_simp <;> ring
  have kpx : ∀ i < N, ∀ j < N, Qmat N (Covmat N Q hbar) hbar (N + i) j = Q (N + i) j := by
    intro i hi j hj
    rw [Qmat_px _ _ _ i j hi hj]
    simp only [Covmat, block, hi, hj, if_true, Nat.add_sub_cancel_left, add_lt_iff_neg_left, not_lt_zero, if_false]
    obtain ⟨h1, h2⟩ := hre i hi j hj
    rw [hM i hi j hj]
    apply Complex.ext <;> simp [e1, e2, h1, h2, eye_symm j i] <;> field_simp <;> ring
  intro i hi j hj
  by_cases h1 : i < N <;> by_cases h2 : j < N
  · exact kxx i h1 j h2
  · obtain ⟨k, rfl⟩ : ∃ k, j = N + k := ⟨j - N, by omega⟩
    rw [Qmat_xp _ _ _ i k h1 (by omega), kpx i h1 k (by omega), hQ.off i h1 k (by omega)]
  · obtain ⟨k, rfl⟩ : ∃ k, i = N + k := ⟨i - N, by omega⟩
    exact kpx k (by omega) j h2
  · obtain ⟨k, rfl⟩ : ∃ k, j = N + k := ⟨j - N, by omega⟩
    obtain ⟨l, rfl⟩ : ∃ l, i = N + l := ⟨i - N, by omega⟩
    rw [Qmat_pp _ _ _ l k (by omega) (by omega), kxx l (by omega) k (by omega), hQ.diag l (by omega) k (by omega)]

/-- C30: the entries of the complex displacement vector: amplitudes `(x_k + i p_k)/√(2ħ)` followed by their conjugates. -/
theorem complexToReal_entries (N : ℕ) (mu : ℕ → ℝ) (hbar : ℝ) (k : ℕ) (hk : k < N) :
    complexToReal N mu hbar k = amp N mu k / (Real.sqrt (2 * hbar) : ℝ) ∧
      complexToReal N mu hbar (N + k) = (starRingEnd ℂ) (complexToReal N mu hbar k) := by
  have : amp N mu k = mu k + Complex.I * mu (N + k) := by apply Complex.ext <;> simp [amp]
  simp [complexToReal, hk, this]

/-- C30: the two displacement conversions are inverse to each other. -/
theorem realToComplex_complexToReal (N : ℕ) (mu : ℕ → ℝ) (hbar : ℝ) (hh : 0 < hbar) :
    ∀ i < 2 * N, realToComplex N (complexToReal N mu hbar) hbar i = mu i := by
  have hs : Real.sqrt (2 * hbar) ≠ 0 := by positivity
  intro i hi
  by_cases h : i < N
  · simp only [realToComplex, h, if_true, complexToReal, Complex.div_ofReal_re]
    simp; field_simp
  · have h' : i - N < N := by omega
    simp only [realToComplex, h, if_false, complexToReal, h', if_true, Complex.div_ofReal_im, Nat.add_sub_cancel' (show N ≤ i by omega)]
    simp; field_simp

theorem complexToReal_realToComplex (N : ℕ) (beta : ℕ → ℂ) (hbar : ℝ) (hh : 0 < hbar) (hb : ∀ k < N, beta (N + k) = (starRingEnd ℂ) (beta k)) :
    ∀ i < 2 * N, complexToReal N (realToComplex N beta hbar) hbar i = beta i := by
  have hs : Real.sqrt (2 * hbar) ≠ 0 := by positivity
  have key : ∀ k < N, complexToReal N (realToComplex N beta hbar) hbar k = beta k := by
    intro k hk
    rw [(complexToReal_entries N _ hbar k hk).1]
    apply Complex.ext
    · rw [Complex.div_ofReal_re]; simp [amp, realToComplex, hk]; field_simp
    · rw [Complex.div_ofReal_im]; simp [amp, realToComplex]; field_simp
  intro i hi
  by_cases h : i < N
  · exact key i h
  · obtain ⟨k, rfl⟩ : ∃ k, i = N + k := ⟨i - N, by omega⟩
    rw [(complexToReal_entries N _ hbar k (by omega)).2, key k (by omega), hb k (by omega)]

/-! ### C31: the `A` matrix -/

/-- quadrature index as an element of `Fin (2N)` -/
noncomputable def quadEquiv (N : ℕ) : Fin N ⊕ Fin N ≃ Fin (2 * N) :=
  Equiv.ofBijective (fun p => ⟨quad N p, quad_lt N p⟩)
    ⟨fun p q h => quad_injective N (Fin.mk.inj h), fun i => by obtain ⟨p, hp⟩ := exists_quad N i i.2; exact ⟨p, Fin.ext hp⟩⟩

theorem phase_toMatrix {K : Type} (N : ℕ) (A : ℕ → ℕ → K) : phase N N A = (toMatrix (2 * N) (2 * N) A).submatrix (quadEquiv N) (quadEquiv N) := rfl

theorem phase_det {K : Type} [Field K] (N : ℕ) (A : ℕ → ℕ → K) : (phase N N A).det = (toMatrix (2 * N) (2 * N) A).det := by
  rw [phase_toMatrix, det_submatrix_equiv_self]

theorem npInv_phase (N : ℕ) (A : ℕ → ℕ → ℂ) (h : (phase N N A).det ≠ 0) : ∃ B, npInv (2 * N) A = .ok B ∧ phase N N B = (phase N N A)⁻¹ := by
  rw [phase_det] at h
  refine ⟨_, by rw [npInv, if_neg h], ?_⟩
  rw [phase_toMatrix N A, inv_submatrix_equiv]
  ext p q
  have h1 := quad_lt N p
  have h2 := quad_lt N q
  simp only [phase, of_apply, Verif.ofMatrix, h1, h2, and_self, dif_pos, submatrix_apply]
  rfl

theorem phase_Xmat {K : Type} [Field K] (N : ℕ) : phase N N (Xmat N : ℕ → ℕ → K) = fromBlocks 0 1 1 0 := by
  unfold Xmat
  rw [phase_block, toMatrix_eye]
  rfl

theorem Xmat_sq {K : Type} [Field K] (N : ℕ) : (fromBlocks 0 1 1 0 : Matrix (Fin N ⊕ Fin N) (Fin N ⊕ Fin N) K) * fromBlocks 0 1 1 0 = 1 := by
  rw [fromBlocks_multiply]; simp

theorem Xmat_conj (N : ℕ) : (fromBlocks 0 1 1 0 : Matrix (Fin N ⊕ Fin N) (Fin N ⊕ Fin N) ℂ).map (starRingEnd ℂ) = fromBlocks 0 1 1 0 := by
  rw [fromBlocks_map]
  congr 1 <;> ext i j <;> by_cases h : i = j <;> simp [h, one_apply]

theorem map_inv_conj {ι : Type} [Fintype ι] [DecidableEq ι] (Q : Matrix ι ι ℂ) : (Q⁻¹).map (starRingEnd ℂ) = (Q.map (starRingEnd ℂ))⁻¹ := by
  have h1 : ∀ M : Matrix ι ι ℂ, M.map (starRingEnd ℂ) = (Mᴴ)ᵀ := by intro M; ext i j; simp [conjTranspose_apply]
  rw [h1, h1, conjTranspose_nonsing_inv, transpose_nonsing_inv]

/-- matrix form of `IsHusimi` -/
theorem husimi_phase (N : ℕ) (Q : ℕ → ℕ → ℂ) (hQ : IsHusimi N Q) :
    (phase N N Q)ᵀ = (phase N N Q).map (starRingEnd ℂ) ∧
      (phase N N Q).map (starRingEnd ℂ) = fromBlocks 0 1 1 0 * phase N N Q * fromBlocks 0 1 1 0 := by
  constructor
  · ext p q
    exact hQ.herm _ (quad_lt N p) _ (quad_lt N q)
  · rw [phase_blocks, fromBlocks_multiply, fromBlocks_multiply, fromBlocks_map]
    simp only [Matrix.zero_mul, Matrix.one_mul, zero_add, add_zero, Matrix.mul_zero, Matrix.mul_one]
    congr 1 <;> ext i j <;> simp only [toMatrix, map_apply, of_apply]
    · exact (hQ.diag i i.2 j j.2).symm
    · rw [hQ.off i i.2 j j.2, Complex.conj_conj]
    · exact (hQ.off i i.2 j j.2).symm
    · rw [hQ.diag i i.2 j j.2, Complex.conj_conj]

/-- C31: for every Husimi matrix that is invertible, `A = X (1 - Q⁻¹)*` exists, is symmetric, has the blocks `[[B, C], [Cᵀ, B*]]` with `C`
Hermitian, and `Q⁻¹ = 1 - A X`, so that `Q` is recovered from it. -/
theorem AmatQ_correct (N : ℕ) (Q : ℕ → ℕ → ℂ) (hQ : IsHusimi N Q) (hdet : (phase N N Q).det ≠ 0) :
    ∃ A, AmatQ N Q = .ok A ∧ (phase N N A)ᵀ = phase N N A ∧
      (∀ i < N, ∀ j < N, A (N + i) (N + j) = (starRingEnd ℂ) (A i j) ∧ A (N + i) j = A j (N + i) ∧ A i (N + j) = (starRingEnd ℂ) (A j (N + i))) ∧
      phase N N A * phase N N (Xmat N) = 1 - (phase N N Q)⁻¹ ∧ phase N N Q = (1 - phase N N A * phase N N (Xmat N))⁻¹ := by
  obtain ⟨B, hB, hBp⟩ := npInv_phase N Q hdet
  obtain ⟨hT, hX⟩ := husimi_phase N Q hQ
  refine ⟨_, by rw [AmatQ, hB]; rfl, ?_⟩
  set A : ℕ → ℕ → ℂ := mmul (2 * N) (Xmat N) fun i j => (starRingEnd ℂ) (eye i j - B i j) with hAdef
  set X : Matrix (Fin N ⊕ Fin N) (Fin N ⊕ Fin N) ℂ := fromBlocks 0 1 1 0 with hXdef
  have hXX : X * X = 1 := Xmat_sq N
  have hXT : Xᵀ = X := by rw [hXdef, fromBlocks_transpose]; simp
  have hXinv : X⁻¹ = X := inv_eq_left_inv hXX
  have hA : phase N N A = X * (1 - ((phase N N Q)⁻¹).map (starRingEnd ℂ)) := by
    rw [hAdef, phase_mmul N N N, phase_Xmat]
    congr 1
    rw [← hBp]
    ext p q
    have : (1 : Matrix (Fin N ⊕ Fin N) (Fin N ⊕ Fin N) ℂ) p q = (starRingEnd ℂ) (eye (quad N p) (quad N q)) := by
      rw [← phase_eye]; simp only [phase, of_apply, eye]; split_ifs <;> simp
    simp only [phase, of_apply, Matrix.sub_apply, this, map_apply, map_sub]
  have hinv : ((phase N N Q)⁻¹).map (starRingEnd ℂ) = X * (phase N N Q)⁻¹ * X := by
    rw [map_inv_conj, hX, Matrix.mul_inv_rev, Matrix.mul_inv_rev, hXinv, Matrix.mul_assoc]
  have hA' : phase N N A = (1 - (phase N N Q)⁻¹) * X := by
    rw [hA, hinv, Matrix.mul_sub, Matrix.sub_mul, Matrix.mul_one, Matrix.one_mul, ← Matrix.mul_assoc, ← Matrix.mul_assoc, hXX, Matrix.one_mul]
  have hsym : (phase N N A)ᵀ = phase N N A := by
    rw [hA', transpose_mul, hXT, transpose_sub, transpose_one, transpose_nonsing_inv, hT, ← map_inv_conj, ← hA, hA']
  have hconj : (phase N N A).map (starRingEnd ℂ) = X * phase N N A * X := by
    have h1 : (phase N N A).map (starRingEnd ℂ) = X * (1 - (phase N N Q)⁻¹) := by
      rw [hA, Matrix.map_mul, Xmat_conj]
      congr 1
      ext p q
      simp only [map_apply, Matrix.sub_apply, map_sub, Complex.conj_conj]
      congr 1
      by_cases h : p = q <;> simp [one_apply, h]
    rw [h1, hA', Matrix.mul_assoc, Matrix.mul_assoc, hXX, Matrix.mul_one]
  have entry : ∀ i < N, ∀ j < N, A (N + i) (N + j) = (starRingEnd ℂ) (A i j) ∧ A (N + i) j = (starRingEnd ℂ) (A i (N + j)) := by
    intro i hi j hj
    have h := hconj
    rw [hXdef, phase_blocks, fromBlocks_multiply, fromBlocks_multiply, fromBlocks_map] at h
    simp only [Matrix.zero_mul, Matrix.one_mul, zero_add, add_zero, Matrix.mul_zero, Matrix.mul_one] at h
    obtain ⟨h1, h2, -, -⟩ := fromBlocks_inj.mp h
    exact ⟨(congrFun (congrFun h1 ⟨i, hi⟩) ⟨j, hj⟩).symm, (congrFun (congrFun h2 ⟨i, hi⟩) ⟨j, hj⟩).symm⟩
  have hAX : phase N N A * phase N N (Xmat N) = 1 - (phase N N Q)⁻¹ := by rw [hA', phase_Xmat, Matrix.mul_assoc, hXX, Matrix.mul_one]
  refine ⟨hsym, ?_, hAX, ?_⟩
  · intro i hi j hj
    have hs : A (N + i) j = A j (N + i) := congrFun (congrFun hsym (Sum.inl ⟨j, hj⟩)) (Sum.inr ⟨i, hi⟩)
    have h2 := (entry j hj i hi).2
    have hs' : A (N + j) i = A i (N + j) := congrFun (congrFun hsym (Sum.inl ⟨i, hi⟩)) (Sum.inr ⟨j, hj⟩)
    exact ⟨(entry i hi j hj).1, hs, by rw [← hs', h2]⟩
  · rw [hAX, sub_sub_cancel, nonsing_inv_nonsing_inv _ (isUnit_iff_ne_zero.mpr hdet)]

/-- C31: the same for a symmetric covariance matrix; a singular `Q` raises. -/
theorem Amat_correct (N : ℕ) (cov : ℕ → ℕ → ℝ) (hbar : ℝ) (hsym : ∀ i < 2 * N, ∀ j < 2 * N, cov i j = cov j i)
    (hdet : (phase N N (Qmat N cov hbar)).det ≠ 0) :
    ∃ A, Amat N cov hbar = .ok A ∧ (phase N N A)ᵀ = phase N N A ∧
      (∀ i < N, ∀ j < N, A (N + i) (N + j) = (starRingEnd ℂ) (A i j) ∧ A (N + i) j = A j (N + i) ∧ A i (N + j) = (starRingEnd ℂ) (A j (N + i))) ∧
      phase N N A * phase N N (Xmat N) = 1 - (phase N N (Qmat N cov hbar))⁻¹ ∧
      phase N N (Qmat N cov hbar) = (1 - phase N N A * phase N N (Xmat N))⁻¹ :=
  AmatQ_correct N _ (Qmat_husimi N cov hbar hsym) hdet

theorem Amat_singular (N : ℕ) (cov : ℕ → ℕ → ℝ) (hbar : ℝ) (hdet : (phase N N (Qmat N cov hbar)).det = 0) : Amat N cov hbar = .error .linAlgError := by
  rw [phase_det] at hdet
  rw [Amat, AmatQ, npInv, if_pos hdet]; rfl

/-- the vacuum: `Q = 1` -/
theorem Qmat_vacuum (N : ℕ) (hbar : ℝ) (hh : 0 < hbar) : phase N N (Qmat N (vacuumState N hbar).cov hbar) = 1 := by
  have hne : hbar ≠ 0 := hh.ne'
  rw [← phase_eye, phase_ext_iff]
  have e : ∀ i j, (vacuumState N hbar).cov i j * 2 / hbar = (eye i j : ℝ) := by intro i j; simp [vacuumState]; field_simp
  have e0 : ∀ i < N, ∀ j, (eye i (N + j) : ℝ) = 0 := by intro i hi j; simp [eye]; omega
  have e1 : ∀ i j, (eye (N + i) (N + j) : ℝ) = eye i j := by intro i j; simp [eye]
  have ec : ∀ i j, ((eye i j : ℝ) : ℂ) = eye i j := by intro i j; unfold eye; split_ifs <;> simp
  have ec' : ∀ i j, (starRingEnd ℂ) (eye i j : ℂ) = eye i j := by intro i j; unfold eye; split_ifs <;> simp
  have kxx : ∀ i < N, ∀ j < N, Qmat N (vacuumState N hbar).cov hbar i j = eye i j := by
    intro i hi j hj
    rw [Qmat_xx _ _ _ i j hi hj]
    simp only [e, e0 i hi, e0 j hj, e1]
    push_cast [ec]; ring
  have kpx : ∀ i < N, ∀ j < N, Qmat N (vacuumState N hbar).cov hbar (N + i) j = 0 := by
    intro i hi j hj
    rw [Qmat_px _ _ _ i j hi hj]
    simp only [e, e0 i hi, e0 j hj, e1]
    simp
  intro i hi j hj
  by_cases h1 : i < N <;> by_cases h2 : j < N
  · exact kxx i h1 j h2
  · obtain ⟨k, rfl⟩ : ∃ k, j = N + k := ⟨j - N, by omega⟩
    rw [Qmat_xp _ _ _ i k h1 (by omega), kpx i h1 k (by omega)]
    have : i ≠ N + k := by omega
    simp [eye, this]
  · obtain ⟨k, rfl⟩ : ∃ k, i = N + k := ⟨i - N, by omega⟩
    rw [kpx k (by omega) j h2]
    have : N + k ≠ j := by omega
    simp [eye, this]
  · obtain ⟨k, rfl⟩ : ∃ k, j = N + k := ⟨j - N, by omega⟩
    obtain ⟨l, rfl⟩ : ∃ l, i = N + l := ⟨i - N, by omega⟩
    rw [Qmat_pp _ _ _ l k (by omega) (by omega), kxx l (by omega) k (by omega), ec']
    simp [eye]

/-- C31: the `A` matrix of the vacuum is zero (this is also a case meeting the hypotheses of `Amat_correct`). -/
theorem Amat_vacuum (N : ℕ) (hbar : ℝ) (hh : 0 < hbar) :
    ∃ A, Amat N (vacuumState N hbar).cov hbar = .ok A ∧ ∀ i < 2 * N, ∀ j < 2 * N, A i j = 0 := by
  have hq := Qmat_vacuum N hbar hh
  obtain ⟨A, hA, -, -, h, -⟩ := Amat_correct N (vacuumState N hbar).cov hbar (by intro i _ j _; simp [vacuumState, eye_symm i j]) (by rw [hq]; simp)
  refine ⟨A, hA, ?_⟩
  rw [hq, inv_one, sub_self, phase_Xmat] at h
  have h0 : phase N N A = 0 := by
    have := congrArg (· * (fromBlocks 0 1 1 0 : Matrix (Fin N ⊕ Fin N) (Fin N ⊕ Fin N) ℂ)) h
    simpa [Matrix.mul_assoc, Xmat_sq] using this
  exact (phase_ext_iff N N A fun _ _ => 0).mp (by rw [h0]; rfl)

/-- a one-mode squeezed thermal state meets the hypotheses of the round trip -/
example : ∀ i < 2 * 1, ∀ j < 2 * 1, Covmat 1 (Qmat 1 (fun i j => if i = j then (i + 3 : ℝ) else 1 / 2) 2) 2 i j = if i = j then (i + 3 : ℝ) else 1 / 2 := by
  refine Covmat_Qmat 1 _ 2 (by norm_num) ?_
  intro i hi j hj
  obtain rfl : i = 0 := by omega
  obtain rfl : j = 0 := by omega
  norm_num

end Verif.Props
