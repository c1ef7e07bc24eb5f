/-
C48: the Bloch-Messiah decomposition.
-/
import Verif.Props.Takagi
import Verif.Props.Symplectic

set_option linter.unusedSectionVars false
set_option linter.unusedSimpArgs false

namespace Verif.Props
open Verif.Model Verif.Model.Symp Verif.Model.Dec Verif.Model.Checks Verif.Spec Verif.Lemmas Verif.Lemmas.Symp Matrix

variable {m l : Type*} [Fintype m] [DecidableEq m] [Fintype l] [DecidableEq l]

theorem posDef_symm {M : Matrix m m ℝ} (h : M.PosDef) : Mᵀ = M := by
  have := h.1; rwa [IsHermitian, conjTranspose_eq_transpose_of_trivial] at this

/-- `Δ S Δ` has non-negative trace for symmetric `Δ` and positive definite `S` -/
theorem trace_conj_nonneg (Δ S : Matrix m m ℝ) (hΔ : Δᵀ = Δ) (hS : S.PosDef) : 0 ≤ (Δ * S * Δ).trace := by
  have h := hS.posSemidef.mul_mul_conjTranspose_same Δ
  rw [conjTranspose_eq_transpose_of_trivial, hΔ] at h
  exact h.trace_nonneg

/-- a symmetric `Δ` with `tr(Δ S Δ) = 0` for a positive definite `S` vanishes -/
theorem eq_zero_of_trace (Δ S : Matrix m m ℝ) (hΔ : Δᵀ = Δ) (hS : S.PosDef) (h : (Δ * S * Δ).trace = 0) : Δ = 0 := by
  by_contra hne
  obtain ⟨i, hi⟩ : ∃ i, Δ i ≠ 0 := by
    by_contra hcon
    push Not at hcon
    exact hne (by ext i j; exact congrFun (hcon i) j)
  have hdiag : ∀ k, (Δ * S * Δ) k k = Δ k ⬝ᵥ (S *ᵥ Δ k) := by
    intro k
    rw [Matrix.mul_assoc, Matrix.mul_apply']
    congr 1
    ext a
    rw [Matrix.mul_apply']
    have : (fun j => Δ j k) = Δ k := by ext b; exact congrFun (congrFun hΔ k) b
    rw [this]
    rfl
  have hnn : ∀ k, 0 ≤ (Δ * S * Δ) k k := by
    intro k
    rw [hdiag]
    have := hS.posSemidef.dotProduct_mulVec_nonneg (Δ k)
    rwa [star_trivial] at this
  have hpos : 0 < (Δ * S * Δ) i i := by
    rw [hdiag]
    have := hS.dotProduct_mulVec_pos hi
    rwa [star_trivial] at this
  have : 0 < (Δ * S * Δ).trace := Finset.sum_pos' (fun k _ => hnn k) ⟨i, Finset.mem_univ i, hpos⟩
  linarith

/-- positive definite matrices with equal squares are equal -/
theorem posDef_sq_inj (X Y : Matrix m m ℝ) (hX : X.PosDef) (hY : Y.PosDef) (h : X * X = Y * Y) : X = Y := by
  have hs : (X - Y)ᵀ = X - Y := by rw [transpose_sub, posDef_symm hX, posDef_symm hY]
  have h0 : (X - Y) * (X + Y) + (X + Y) * (X - Y) = 0 := by
    simp only [Matrix.sub_mul, Matrix.mul_add, Matrix.add_mul, Matrix.mul_sub, h]; abel
  have h1 : ((X - Y) * (X + Y) * (X - Y)).trace = 0 := by
    have h5 : ((X - Y) * ((X - Y) * (X + Y))).trace + ((X - Y) * ((X + Y) * (X - Y))).trace = 0 := by
      rw [← trace_add, ← Matrix.mul_add, h0, Matrix.mul_zero, trace_zero]
    have h3 : ((X - Y) * ((X + Y) * (X - Y))).trace = ((X - Y) * (X + Y) * (X - Y)).trace := by rw [Matrix.mul_assoc]
    have h4 : ((X - Y) * ((X - Y) * (X + Y))).trace = ((X - Y) * (X + Y) * (X - Y)).trace := by rw [trace_mul_comm]
    rw [h3, h4] at h5
    linarith
  exact sub_eq_zero.mp (eq_zero_of_trace _ _ hs (hX.add hY) h1)

/-- positive definite matrices with equal `X - X⁻¹` are equal -/
theorem posDef_sub_inv_inj (X Y : Matrix m m ℝ) (hX : X.PosDef) (hY : Y.PosDef) (h : X - X⁻¹ = Y - Y⁻¹) : X = Y := by
  have hs : (X - Y)ᵀ = X - Y := by rw [transpose_sub, posDef_symm hX, posDef_symm hY]
  have hXi : X⁻¹ * X = 1 := nonsing_inv_mul _ (isUnit_iff_ne_zero.mpr hX.det_pos.ne')
  have hXi' : X * X⁻¹ = 1 := mul_nonsing_inv _ (isUnit_iff_ne_zero.mpr hX.det_pos.ne')
  have hYi : Y⁻¹ * Y = 1 := nonsing_inv_mul _ (isUnit_iff_ne_zero.mpr hY.det_pos.ne')
  have h1 : X - Y = X⁻¹ - Y⁻¹ := by
    have : X - Y - (X⁻¹ - Y⁻¹) = (X - X⁻¹) - (Y - Y⁻¹) := by abel
    rw [h, sub_self, sub_eq_zero] at this
    exact this
  have h2 : X * (X - Y) * Y = -(X - Y) := by
    conv_lhs => rw [h1]
    rw [Matrix.mul_sub, Matrix.sub_mul, hXi', Matrix.one_mul, Matrix.mul_assoc, hYi, Matrix.mul_one]; abel
  have h3 : (X - Y) * Y = -(X⁻¹ * (X - Y)) := by
    rw [← Matrix.mul_neg, ← h2, Matrix.mul_assoc X, ← Matrix.mul_assoc X⁻¹, hXi, Matrix.one_mul]
  have h4 : ((X - Y) * Y * (X - Y)).trace = -((X - Y) * X⁻¹ * (X - Y)).trace := by
    rw [h3, Matrix.neg_mul, trace_neg]
    congr 1
    rw [trace_mul_comm, ← Matrix.mul_assoc]
  have h5 := trace_conj_nonneg (X - Y) Y hs hY
  have h6 := trace_conj_nonneg (X - Y) X⁻¹ hs hX.inv
  exact sub_eq_zero.mp (eq_zero_of_trace _ _ hs hY (by linarith))

/-- the positive factor of a symplectic matrix: `P⁻¹ = J P Jᵀ` -/
theorem polar_symplectic (S P V : Matrix (l ⊕ l) (l ⊕ l) ℝ) (hS : S ∈ symplecticGroup l ℝ) (hP : P.PosDef) (hV : V * Vᵀ = 1) (h : P * V = S) :
    P⁻¹ = J l ℝ * P * (J l ℝ)ᵀ := by
  have hPt := posDef_symm hP
  have hPi : P * P⁻¹ = 1 := mul_nonsing_inv _ (isUnit_iff_ne_zero.mpr hP.det_pos.ne')
  have hPi' : P⁻¹ * P = 1 := nonsing_inv_mul _ (isUnit_iff_ne_zero.mpr hP.det_pos.ne')
  have hPP : P * P = S * Sᵀ := by
    rw [← h, transpose_mul, hPt]
    calc P * P = P * (V * Vᵀ) * P := by rw [hV, Matrix.mul_one]
      _ = _ := by simp only [Matrix.mul_assoc]
  have hJJ : J l ℝ * J l ℝ = -1 := J_squared l ℝ
  have hJt : (J l ℝ)ᵀ = -J l ℝ := J_transpose l ℝ
  have hJtJ : (J l ℝ)ᵀ * J l ℝ = 1 := by rw [hJt, Matrix.neg_mul, hJJ, neg_neg]
  have hG : P * P * J l ℝ * (P * P) = J l ℝ := by
    rw [hPP]
    have h1 := SymplecticGroup.mem_iff.mp hS
    have h2 := SymplecticGroup.mem_iff'.mp hS
    calc S * Sᵀ * J l ℝ * (S * Sᵀ) = S * (Sᵀ * J l ℝ * S) * Sᵀ := by simp only [Matrix.mul_assoc]
      _ = J l ℝ := by rw [h2, h1]
  symm
  apply posDef_sq_inj
  · have hJu : IsUnit (J l ℝ) := by
      rw [isUnit_iff_isUnit_det]
      exact isUnit_iff_ne_zero.mpr fun h0 => by
        have := congrArg det hJJ
        rw [det_mul, h0, mul_zero] at this
        have h3 : ((-1 : Matrix (l ⊕ l) (l ⊕ l) ℝ)).det ≠ 0 := by rw [det_neg, det_one]; simp
        exact h3 this.symm
    have := (IsUnit.posDef_star_right_conjugate_iff (x := P) hJu).mpr hP
    rwa [star_eq_conjTranspose, conjTranspose_eq_transpose_of_trivial] at this
  · exact hP.inv
  · have h1 : J l ℝ * P * (J l ℝ)ᵀ * (J l ℝ * P * (J l ℝ)ᵀ) = J l ℝ * (P * P) * (J l ℝ)ᵀ := by
      calc J l ℝ * P * (J l ℝ)ᵀ * (J l ℝ * P * (J l ℝ)ᵀ) = J l ℝ * P * ((J l ℝ)ᵀ * J l ℝ) * P * (J l ℝ)ᵀ := by simp only [Matrix.mul_assoc]
        _ = _ := by rw [hJtJ, Matrix.mul_one]; simp only [Matrix.mul_assoc]
    rw [h1]
    -- multiply by `P P`
    have h2 : P * P * (J l ℝ * (P * P) * (J l ℝ)ᵀ) = 1 := by
      calc P * P * (J l ℝ * (P * P) * (J l ℝ)ᵀ) = (P * P * J l ℝ * (P * P)) * (J l ℝ)ᵀ := by simp only [Matrix.mul_assoc]
        _ = 1 := by rw [hG, hJt, Matrix.mul_neg, hJJ, neg_neg]
    calc J l ℝ * (P * P) * (J l ℝ)ᵀ = P⁻¹ * (P⁻¹ * P) * P * (J l ℝ * (P * P) * (J l ℝ)ᵀ) := by rw [hPi', Matrix.mul_one, hPi', Matrix.one_mul]
      _ = P⁻¹ * P⁻¹ * (P * P * (J l ℝ * (P * P) * (J l ℝ)ᵀ)) := by simp only [Matrix.mul_assoc]
      _ = P⁻¹ * P⁻¹ := by rw [h2, Matrix.mul_one]

/-- `P - P⁻¹` from the blocks of `P` -/
theorem polar_blocks (A B C : Matrix l l ℝ) (h : (fromBlocks A B Bᵀ C)⁻¹ = J l ℝ * fromBlocks A B Bᵀ C * (J l ℝ)ᵀ) :
    fromBlocks A B Bᵀ C - (fromBlocks A B Bᵀ C)⁻¹ = fromBlocks (A - C) (B + Bᵀ) (B + Bᵀ) (-(A - C)) := by
  rw [h, J, fromBlocks_transpose, fromBlocks_multiply, fromBlocks_multiply, sub_eq_add_neg, fromBlocks_neg, fromBlocks_add]
  simp only [Matrix.mul_zero, Matrix.zero_mul, Matrix.mul_one, Matrix.one_mul, zero_add, add_zero, Matrix.mul_neg, Matrix.neg_mul, transpose_neg, transpose_one, transpose_zero,
    neg_neg]
  congr 1 <;> abel

/-- the real form of a Takagi factorisation -/
theorem takagi_realform (N : ℕ) (W : CArr) (L : ℕ → ℝ) (M : CArr)
    (h : toMatrix N N W * diagonal (fun i : Fin N => ((L i : ℝ) : ℂ)) * (toMatrix N N W)ᵀ = toMatrix N N M) :
    phase N N (interferometer N N W) * diagonal (Sum.elim (fun i : Fin N => L i) fun i : Fin N => -L i) * (phase N N (interferometer N N W))ᵀ =
      fromBlocks (toMatrix N N fun i j => (M i j).re) (toMatrix N N fun i j => (M i j).im) (toMatrix N N fun i j => (M i j).im) (-toMatrix N N fun i j => (M i j).re) := by
  set X := toMatrix N N fun i j => (W i j).re with hX
  set Y := toMatrix N N fun i j => (W i j).im with hY
  have hent : ∀ i j : Fin N, M i j = ∑ k : Fin N, W i k * (L k : ℂ) * W j k := by
    intro i j
    have := congrFun (congrFun h i) j
    rw [Matrix.mul_apply] at this
    simp only [mul_diagonal, transpose_apply, toMatrix, of_apply] at this
    exact this.symm
  have hre : (toMatrix N N fun i j => (M i j).re) = X * diagonal (fun i : Fin N => L i) * Xᵀ - Y * diagonal (fun i : Fin N => L i) * Yᵀ := by
    ext i j
    simp only [Matrix.sub_apply, Matrix.mul_apply (M := _ * _), mul_diagonal, transpose_apply]
    simp only [hX, hY, toMatrix, of_apply]
    rw [hent, Complex.re_sum, ← Finset.sum_sub_distrib]
    refine Finset.sum_congr rfl fun k _ => ?_
    simp only [Complex.mul_re, Complex.mul_im, Complex.ofReal_re, Complex.ofReal_im]; ring
  have him : (toMatrix N N fun i j => (M i j).im) = X * diagonal (fun i : Fin N => L i) * Yᵀ + Y * diagonal (fun i : Fin N => L i) * Xᵀ := by
    ext i j
    simp only [Matrix.add_apply, Matrix.mul_apply (M := _ * _), mul_diagonal, transpose_apply]
    simp only [hX, hY, toMatrix, of_apply]
    rw [hent, Complex.im_sum, ← Finset.sum_add_distrib]
    refine Finset.sum_congr rfl fun k _ => ?_
    simp only [Complex.mul_re, Complex.mul_im, Complex.ofReal_re, Complex.ofReal_im]; ring
  have hneg : diagonal (fun i : Fin N => -L i) = -diagonal (fun i : Fin N => L i) := by rw [diagonal_neg]
  rw [phase_interferometer, ← fromBlocks_diagonal, hneg, fromBlocks_transpose, fromBlocks_multiply, fromBlocks_multiply, hre, him, ← hX, ← hY]
  simp only [Matrix.mul_zero, Matrix.zero_mul, zero_add, add_zero, Matrix.mul_neg, Matrix.neg_mul, transpose_neg, neg_neg]
  congr 1 <;> abel

/-- a unitary matrix acts on phase space by an orthogonal matrix -/
theorem interferometer_orthogonal (N : ℕ) (W : CArr) (hW : toMatrix N N W ∈ unitaryGroup (Fin N) ℂ) :
    phase N N (interferometer N N W) * (phase N N (interferometer N N W))ᵀ = 1 := by
  have hS := (interferometer_symplectic_iff N W).mpr hW
  have h1 := SymplecticGroup.mem_iff.mp hS
  have hJJ : J (Fin N) ℝ * J (Fin N) ℝ = -1 := J_squared (Fin N) ℝ
  have hcomm : phase N N (interferometer N N W) * J (Fin N) ℝ = J (Fin N) ℝ * phase N N (interferometer N N W) := by
    rw [phase_interferometer, J, fromBlocks_multiply, fromBlocks_multiply]
    simp
  rw [hcomm] at h1
  have := congrArg (J (Fin N) ℝ * ·) h1
  simp only [← Matrix.mul_assoc, hJJ, Matrix.neg_mul, Matrix.one_mul, neg_inj] at this
  exact this

/-- the matrix identities behind the Bloch-Messiah decomposition -/
theorem blochmessiah_core (S P V O : Matrix (l ⊕ l) (l ⊕ l) ℝ) (L : l → ℝ) (hS : S ∈ symplecticGroup l ℝ) (hP : P.PosDef) (hV : V * Vᵀ = 1) (hPV : P * V = S)
    (hOs : O ∈ symplecticGroup l ℝ) (hO : O * Oᵀ = 1) :
    let s : l → ℝ := fun i => Real.sqrt (1 + (1 / 2 * L i) ^ 2)
    let D : Matrix (l ⊕ l) (l ⊕ l) ℝ := diagonal (Sum.elim (fun i => s i + 1 / 2 * L i) fun i => s i - 1 / 2 * L i)
    (∀ i, 0 < s i + 1 / 2 * L i) ∧ (∀ i, s i - 1 / 2 * L i = 1 / (s i + 1 / 2 * L i)) ∧ D ∈ symplecticGroup l ℝ ∧
      O * D * Oᵀ - (O * D * Oᵀ)⁻¹ = O * diagonal (Sum.elim L fun i => -L i) * Oᵀ ∧ (O * D * Oᵀ).PosDef ∧
      (P - P⁻¹ = O * diagonal (Sum.elim L fun i => -L i) * Oᵀ → O * D * (Oᵀ * V) = S ∧ (Oᵀ * V) ∈ symplecticGroup l ℝ ∧ (Oᵀ * V) ∈ orthogonalGroup (l ⊕ l) ℝ) := by
  intro s D
  have hsq : ∀ i, s i * s i = 1 + (1 / 2 * L i) ^ 2 := fun i => Real.mul_self_sqrt (by positivity)
  have hspos : ∀ i, 0 < s i := fun i => Real.sqrt_pos.mpr (by positivity)
  have habs : ∀ i, |1 / 2 * L i| < s i := fun i => abs_lt_of_sq_lt_sq (by nlinarith [hsq i]) (hspos i).le
  have h1 : ∀ i, 0 < s i + 1 / 2 * L i := fun i => by have := (abs_lt.mp (habs i)).1; linarith
  have h1' : ∀ i, 0 < s i - 1 / 2 * L i := fun i => by have := (abs_lt.mp (habs i)).2; linarith
  have h2 : ∀ i, (s i + 1 / 2 * L i) * (s i - 1 / 2 * L i) = 1 := fun i => by linear_combination hsq i
  have h3 : ∀ i, s i - 1 / 2 * L i = 1 / (s i + 1 / 2 * L i) := fun i => by rw [eq_div_iff (h1 i).ne', mul_comm]; exact h2 i
  have hO' : Oᵀ * O = 1 := mul_eq_one_comm.mp hO
  have hDs : D ∈ symplecticGroup l ℝ := by
    simp only [D]; rw [← fromBlocks_diagonal]
    apply symp_diag
    rw [diagonal_transpose, diagonal_mul_diagonal, ← diagonal_one]
    congr 1; funext i; exact h2 i
  let D' : Matrix (l ⊕ l) (l ⊕ l) ℝ := diagonal (Sum.elim (fun i => s i - 1 / 2 * L i) fun i => s i + 1 / 2 * L i)
  have hDD' : D * D' = 1 := by
    simp only [D, D']; rw [diagonal_mul_diagonal, ← diagonal_one]
    congr 1; funext p
    rcases p with p | p
    · simp only [Sum.elim_inl]; exact h2 p
    · simp only [Sum.elim_inr]; rw [mul_comm]; exact h2 p
  have hRinv : (O * D * Oᵀ)⁻¹ = O * D' * Oᵀ := by
    apply inv_eq_right_inv
    calc O * D * Oᵀ * (O * D' * Oᵀ) = O * D * (Oᵀ * O) * D' * Oᵀ := by simp only [Matrix.mul_assoc]
      _ = O * (D * D') * Oᵀ := by rw [hO', Matrix.mul_one]; simp only [Matrix.mul_assoc]
      _ = 1 := by rw [hDD', Matrix.mul_one, hO]
  have hdiff : O * D * Oᵀ - (O * D * Oᵀ)⁻¹ = O * diagonal (Sum.elim L fun i => -L i) * Oᵀ := by
    rw [hRinv, ← Matrix.sub_mul, ← Matrix.mul_sub]
    congr 2
    simp only [D, D']
    rw [diagonal_sub]
    congr 1; funext p
    rcases p with p | p <;> simp only [Sum.elim_inl, Sum.elim_inr] <;> ring
  have hDp : D.PosDef := by
    simp only [D]
    rw [posDef_diagonal_iff]
    rintro (p | p)
    · exact h1 p
    · exact h1' p
  have hRp : (O * D * Oᵀ).PosDef := by
    have hOu : IsUnit O := IsUnit.of_mul_eq_one Oᵀ hO
    have := (IsUnit.posDef_star_right_conjugate_iff (x := D) hOu).mpr hDp
    rwa [star_eq_conjTranspose, conjTranspose_eq_transpose_of_trivial] at this
  refine ⟨h1, h3, hDs, hdiff, hRp, fun hPL => ?_⟩
  have hPR : P = O * D * Oᵀ := posDef_sub_inv_inj P _ hP hRp (by rw [hPL, hdiff])
  have hprod : O * D * (Oᵀ * V) = S := by rw [← hPV, hPR]; simp only [Matrix.mul_assoc]
  have hOt : Oᵀ ∈ symplecticGroup l ℝ := SymplecticGroup.transpose_mem hOs
  have hD's : D' ∈ symplecticGroup l ℝ := by
    simp only [D']; rw [← fromBlocks_diagonal]
    apply symp_diag
    rw [diagonal_transpose, diagonal_mul_diagonal, ← diagonal_one]
    congr 1; funext i; rw [mul_comm]; exact h2 i
  refine ⟨hprod, ?_, ?_⟩
  · have e : Oᵀ * V = D' * (Oᵀ * S) := by
      rw [← hprod]
      calc Oᵀ * V = D' * D * (Oᵀ * V) := by rw [mul_eq_one_comm.mp hDD', Matrix.one_mul]
        _ = D' * ((Oᵀ * O) * D * (Oᵀ * V)) := by rw [hO', Matrix.one_mul]; simp only [Matrix.mul_assoc]
        _ = _ := by simp only [Matrix.mul_assoc]
    rw [e]
    exact mul_mem hD's (mul_mem hOt hS)
  · rw [mem_orthogonalGroup_iff]
    change Oᵀ * V * (Oᵀ * V)ᵀ = 1
    rw [transpose_mul, transpose_transpose]
    calc Oᵀ * V * (Vᵀ * O) = Oᵀ * (V * Vᵀ) * O := by simp only [Matrix.mul_assoc]
      _ = 1 := by rw [hV, Matrix.mul_one, hO']

/-- the complex symmetric matrix `A - C + i (B + Bᵀ)` of the blocks of the positive factor -/
noncomputable def bmMatrix (N : ℕ) (P : RArr) : CArr := fun i j => ((P i j - P (N + i) (N + j) : ℝ) : ℂ) + Complex.I * ((P i (N + j) + P j (N + i) : ℝ) : ℂ)

/-- what `blochmessiah` returns, given what `takagi` returns -/
theorem blochmessiah_run (lib : TakagiLib) (polar : ℕ → RArr → RArr × RArr) (hpol : PolarContract polar) (close : ℝ → ℝ → Bool) (hc : ∀ x, close x x = true)
    (N : ℕ) (S : RArr) (hS : IsSymp N S) (M' : CArr) (L : ℕ → ℝ) (W : CArr) (htk : takagi lib N N (bmMatrix N (polar (2 * N) S).2) true = .ok (L, W))
    (hT : IsTakagi N true M' L W) :
    ∃ O D Q, blochmessiah lib polar close (2 * N) (2 * N) S = .ok (O, D, Q) ∧ IsSymp N O ∧ IsSymp N D ∧ phase N N O ∈ orthogonalGroup (Fin N ⊕ Fin N) ℝ ∧
      (∃ d : Fin N → ℝ, (∀ i, 0 < d i) ∧ phase N N D = diagonal (Sum.elim d fun i => 1 / d i)) ∧
      (phase N N (polar (2 * N) S).2).PosDef ∧ (phase N N (polar (2 * N) S).2 - (phase N N (polar (2 * N) S).2)⁻¹ =
        fromBlocks (toMatrix N N fun i j => (bmMatrix N (polar (2 * N) S).2 i j).re) (toMatrix N N fun i j => (bmMatrix N (polar (2 * N) S).2 i j).im)
          (toMatrix N N fun i j => (bmMatrix N (polar (2 * N) S).2 i j).im) (-toMatrix N N fun i j => (bmMatrix N (polar (2 * N) S).2 i j).re)) ∧
      (phase N N O * phase N N D * (phase N N O)ᵀ - (phase N N O * phase N N D * (phase N N O)ᵀ)⁻¹ =
        fromBlocks (toMatrix N N fun i j => (M' i j).re) (toMatrix N N fun i j => (M' i j).im) (toMatrix N N fun i j => (M' i j).im) (-toMatrix N N fun i j => (M' i j).re)) ∧
      phase N N Q = (phase N N O)ᵀ * phase N N (polar (2 * N) S).1 ∧
      (toMatrix N N M' = toMatrix N N (bmMatrix N (polar (2 * N) S).2) →
        phase N N O * phase N N D * phase N N Q = phase N N S ∧ IsSymp N Q ∧ phase N N Q ∈ orthogonalGroup (Fin N ⊕ Fin N) ℝ) := by
  unfold blochmessiah
  rw [isSymplecticQ_of close hc N S hS]
  have hn : 2 * N / 2 = N := by omega
  simp only [not_true, if_false, hn]
  have hdet : (toMatrix (2 * N) (2 * N) S).det ≠ 0 := by
    rw [← phase_det]
    intro h0
    have := SymplecticGroup.symplectic_det hS
    rw [h0] at this
    exact not_isUnit_zero this
  obtain ⟨hV, hP, hPV⟩ := hpol (2 * N) S hdet
  set P := (polar (2 * N) S).2 with hPdef
  set V := (polar (2 * N) S).1 with hVdef
  have hM : (fun i j => ((P i j - P (N + i) (N + j) : ℝ) : ℂ) + Complex.I * ((P i (N + j) + P j (N + i) : ℝ) : ℂ)) = bmMatrix N P := rfl
  simp only [hM, bind, Except.bind, pure, Except.pure, htk]
  refine ⟨_, _, _, rfl, ?_⟩
  have hPp : (phase N N P).PosDef := (phase_posDef N P).mpr hP
  have hVp : phase N N V * (phase N N V)ᵀ = 1 := by
    rw [phase_toMatrix, transpose_submatrix, submatrix_mul_equiv]
    have : toMatrix (2 * N) (2 * N) V * (toMatrix (2 * N) (2 * N) V)ᵀ = 1 := (mem_orthogonalGroup_iff (Fin (2 * N)) ℝ).mp hV
    rw [this, submatrix_one_equiv]
  have hPVp : phase N N P * phase N N V = phase N N S := by
    rw [phase_toMatrix, phase_toMatrix, submatrix_mul_equiv, hPV]; rfl
  have hO : block N N (fun i j => (W i j).re) (fun i j => -(W i j).im) (fun i j => (W i j).im) (fun i j => (W i j).re) = interferometer N N W := rfl
  rw [hO, phase_mmul N N N, phase_tr]
  set O := interferometer N N W with hOdef
  have hOs : IsSymp N O := (interferometer_symplectic_iff N W).mpr hT.1
  have hOO : phase N N O * (phase N N O)ᵀ = 1 := interferometer_orthogonal N W hT.1
  have hOo : phase N N O ∈ orthogonalGroup (Fin N ⊕ Fin N) ℝ := (mem_orthogonalGroup_iff _ _).mpr hOO
  obtain ⟨c1, c2, c3, c4, c5, c6⟩ := blochmessiah_core (phase N N S) (phase N N P) (phase N N V) (phase N N O) (fun i => L i) hS hPp hVp hPVp hOs hOO
  have eD : phase N N (fun i j => if i = j then (if i < N then Real.sqrt (1 + (1 / 2 * L i) ^ 2) + 1 / 2 * L i
      else Real.sqrt (1 + (1 / 2 * L (i - N)) ^ 2) - 1 / 2 * L (i - N)) else 0) =
      diagonal (Sum.elim (fun i : Fin N => Real.sqrt (1 + (1 / 2 * L i) ^ 2) + 1 / 2 * L i) fun i : Fin N => Real.sqrt (1 + (1 / 2 * L i) ^ 2) - 1 / 2 * L i) := by
    ext p q
    rcases p with p | p <;> rcases q with q | q
    · simp only [phase, quad, of_apply, diagonal_apply, Sum.elim_inl, Sum.inl.injEq, Fin.ext_iff, p.2, if_true]
    · have := p.2; simp [phase, quad, diagonal_apply]; omega
    · have := q.2; simp [phase, quad, diagonal_apply]; omega
    · simp only [phase, quad, of_apply, diagonal_apply, Sum.elim_inr, Sum.inr.injEq, Fin.ext_iff, add_right_inj, Nat.add_sub_cancel_left]
      have : ¬ (N + (p : ℕ) < N) := by omega
      simp only [this, if_false]
  rw [show IsSymp N (fun i j => if i = j then (if i < N then Real.sqrt (1 + (1 / 2 * L i) ^ 2) + 1 / 2 * L i
      else Real.sqrt (1 + (1 / 2 * L (i - N)) ^ 2) - 1 / 2 * L (i - N)) else 0) ↔ _ ∈ symplecticGroup (Fin N) ℝ by unfold IsSymp; rw [eD]]
  rw [eD]
  have hreal := takagi_realform N W L M' hT.2.2.2
  have hsymP := posDef_symm hPp
  have hPm : phase N N P - (phase N N P)⁻¹ =
        fromBlocks (toMatrix N N fun i j => (bmMatrix N P i j).re) (toMatrix N N fun i j => (bmMatrix N P i j).im)
          (toMatrix N N fun i j => (bmMatrix N P i j).im) (-toMatrix N N fun i j => (bmMatrix N P i j).re) := by
    have hinv := polar_symplectic (phase N N S) (phase N N P) (phase N N V) hS hPp hVp hPVp
    have hblk : phase N N P = fromBlocks (toMatrix N N P) (toMatrix N N fun i j => P i (N + j)) (toMatrix N N fun i j => P i (N + j))ᵀ
        (toMatrix N N fun i j => P (N + i) (N + j)) := by
      rw [phase_fromBlocks]; congr 1
      ext i j
      exact (congrFun (congrFun hsymP (Sum.inl j)) (Sum.inr i))
    rw [hblk] at hinv ⊢
    rw [polar_blocks _ _ _ hinv]
    congr 1 <;> ext i j <;> simp [bmMatrix, toMatrix]
  refine ⟨hOs, c3, hOo, ⟨_, c1, ?_⟩, hPp, hPm, ?_, rfl, ?_⟩
  · congr 1; funext p; rcases p with p | p
    · rfl
    · simp only [Sum.elim_inr]; exact c2 p
  · rw [c4, ← hreal]
  · intro heq
    obtain ⟨f1, f2, f3⟩ := c6 (by
      rw [hPm, hreal]
      have e1 : (toMatrix N N fun i j => (bmMatrix N P i j).re) = toMatrix N N fun i j => (M' i j).re := by
        ext i j; exact (congrArg Complex.re (congrFun (congrFun heq i) j)).symm
      have e2 : (toMatrix N N fun i j => (bmMatrix N P i j).im) = toMatrix N N fun i j => (M' i j).im := by
        ext i j; exact (congrArg Complex.im (congrFun (congrFun heq i) j)).symm
      rw [e1, e2])
    refine ⟨f1, ?_, f3⟩
    unfold IsSymp; rw [phase_mmul N N N, phase_tr]; exact f2

theorem bmMatrix_symm (N : ℕ) (P : RArr) (hP : (phase N N P)ᵀ = phase N N P) : ∀ i < N, ∀ j < N, triuSym (bmMatrix N P) i j = bmMatrix N P i j := by
  intro i hi j hj
  unfold triuSym
  split_ifs with h
  · rfl
  · have h1 : P j i = P i j := congrFun (congrFun hP (Sum.inl ⟨i, hi⟩)) (Sum.inl ⟨j, hj⟩)
    have h2 : P (N + j) (N + i) = P (N + i) (N + j) := congrFun (congrFun hP (Sum.inr ⟨i, hi⟩)) (Sum.inr ⟨j, hj⟩)
    simp only [bmMatrix, h1, h2, add_comm (P j (N + i))]

/-- C48, in part: for a symplectic `S` of any size, `blochmessiah(S)` returns `(O, D, Q)` with `O D Q = S`, `O` and `Q` orthogonal symplectic, `D = diag(d, 1/d)`, `d > 0`.
Missing: the symplectic matrices whose positive factor has a matrix `A - C + i (B + Bᵀ)` on which `takagi` is wrong, namely a diagonal one that is not a real matrix times a
phase and whose diagonal is not of strictly descending modulus (`blochmessiah_wrong`). -/
theorem blochmessiah_correct_partial (lib : TakagiLib) (hl : TakagiContract lib) (polar : ℕ → RArr → RArr × RArr) (hpol : PolarContract polar) (close : ℝ → ℝ → Bool)
    (hc : ∀ x, close x x = true) (N : ℕ) (S : RArr) (hS : IsSymp N S)
    (hd : (∀ i < N, ∀ j < N, i ≠ j → bmMatrix N (polar (2 * N) S).2 i j = 0) → PhaseReal N (bmMatrix N (polar (2 * N) S).2) ∨
      ∀ i j, i < j → j < N → ‖bmMatrix N (polar (2 * N) S).2 j j‖ < ‖bmMatrix N (polar (2 * N) S).2 i i‖) :
    ∃ O D Q, blochmessiah lib polar close (2 * N) (2 * N) S = .ok (O, D, Q) ∧ phase N N O * phase N N D * phase N N Q = phase N N S ∧
      IsSymp N O ∧ phase N N O ∈ orthogonalGroup (Fin N ⊕ Fin N) ℝ ∧ IsSymp N Q ∧ phase N N Q ∈ orthogonalGroup (Fin N ⊕ Fin N) ℝ ∧
      ∃ d : Fin N → ℝ, (∀ i, 0 < d i) ∧ phase N N D = diagonal (Sum.elim d fun i => 1 / d i) := by
  have hdet : (toMatrix (2 * N) (2 * N) S).det ≠ 0 := by
    rw [← phase_det]
    intro h0
    have := SymplecticGroup.symplectic_det hS
    rw [h0] at this
    exact not_isUnit_zero this
  have hPs : (phase N N (polar (2 * N) S).2)ᵀ = phase N N (polar (2 * N) S).2 := posDef_symm ((phase_posDef N _).mpr (hpol (2 * N) S hdet).2.1)
  have hsym := bmMatrix_symm N _ hPs
  obtain ⟨L, W, htk, hT⟩ := takagi_correct_partial lib hl N (bmMatrix N (polar (2 * N) S).2) true (by
    intro h0
    rcases hd (fun i hi j hj hij => by rw [← hsym i hi j hj]; exact h0 i hi j hj hij) with ⟨c, x, hcx⟩ | h
    · exact Or.inl ⟨c, x, fun i hi j hj => by rw [hsym i hi j hj]; exact hcx i hi j hj⟩
    · exact Or.inr h)
  obtain ⟨O, D, Q, h1, h2, h3, h4, h5, _, _, _, _, h6⟩ := blochmessiah_run lib polar hpol close hc N S hS _ L W htk hT
  obtain ⟨g1, g2, g3⟩ := h6 (by ext i j; exact hsym i i.2 j j.2)
  exact ⟨O, D, Q, h1, g1, h2, h4, g2, g3, h5⟩

/-- C48: for a single mode `blochmessiah` is right on every symplectic matrix. -/
theorem blochmessiah_single_mode (lib : TakagiLib) (hl : TakagiContract lib) (polar : ℕ → RArr → RArr × RArr) (hpol : PolarContract polar) (close : ℝ → ℝ → Bool)
    (hc : ∀ x, close x x = true) (S : RArr) (hS : IsSymp 1 S) :
    ∃ O D Q, blochmessiah lib polar close 2 2 S = .ok (O, D, Q) ∧ phase 1 1 O * phase 1 1 D * phase 1 1 Q = phase 1 1 S ∧
      IsSymp 1 O ∧ phase 1 1 O ∈ orthogonalGroup (Fin 1 ⊕ Fin 1) ℝ ∧ IsSymp 1 Q ∧ phase 1 1 Q ∈ orthogonalGroup (Fin 1 ⊕ Fin 1) ℝ ∧
      ∃ d : Fin 1 → ℝ, (∀ i, 0 < d i) ∧ phase 1 1 D = diagonal (Sum.elim d fun i => 1 / d i) :=
  blochmessiah_correct_partial lib hl polar hpol close hc 1 S hS fun _ => Or.inl ⟨bmMatrix 1 (polar (2 * 1) S).2 0 0, fun _ _ => 1, fun i hi j hj => by
    have hi' : i = 0 := by omega
    have hj' : j = 0 := by omega
    subst hi' hj'; simp⟩

/-- C48: a matrix rejected by `is_symplectic` raises `ValueError`. -/
theorem blochmessiah_raises (lib : TakagiLib) (polar : ℕ → RArr → RArr × RArr) (close : ℝ → ℝ → Bool) (n m : ℕ) (S : RArr) (h : isSymplecticQ close n m S = false) :
    blochmessiah lib polar close n m S = .error .valueError := by
  unfold blochmessiah; simp [h]

/-- squeezing of mode 0 along `x` and of mode 1 along the diagonal: the positive symplectic matrix of `blochmessiah_wrong` -/
noncomputable def twoSqueezers : RArr := fun i j =>
  if i = 0 ∧ j = 0 then 2 else if i = 2 ∧ j = 2 then 1 / 2 else if (i = 1 ∧ j = 1) ∨ (i = 3 ∧ j = 3) then 5 / 3 else if (i = 1 ∧ j = 3) ∨ (i = 3 ∧ j = 1) then 4 / 3 else 0

/-- C48 (finding): for two single-mode squeezers, the second along a diagonal direction and stronger, `blochmessiah(S)` returns `(O, D, Q)` with `O D Q ≠ S`. -/
theorem blochmessiah_wrong (lib : TakagiLib) (hl : TakagiContract lib) (polar : ℕ → RArr → RArr × RArr) (hpol : PolarContract polar) (close : ℝ → ℝ → Bool)
    (hc : ∀ x, close x x = true) : IsSymp 2 twoSqueezers ∧
      ∃ O D Q, blochmessiah lib polar close 4 4 twoSqueezers = .ok (O, D, Q) ∧ phase 2 2 O * phase 2 2 D * phase 2 2 Q ≠ phase 2 2 twoSqueezers := by
  have hS : IsSymp 2 twoSqueezers := by
    unfold IsSymp
    rw [phase_fromBlocks, symp_block_iff]
    refine ⟨?_, ?_, ?_⟩ <;> ext i j <;> fin_cases i <;> fin_cases j <;> simp [toMatrix, twoSqueezers, Matrix.mul_apply, Fin.sum_univ_two] <;> norm_num
  refine ⟨hS, ?_⟩
  have hSp : (phase 2 2 twoSqueezers).PosDef := by
    refine PosDef.of_dotProduct_mulVec_pos ?_ fun x hx => ?_
    · ext p q; rcases p with p | p <;> rcases q with q | q <;> fin_cases p <;> fin_cases q <;> simp [phase, quad, twoSqueezers, conjTranspose_apply]
    · have e : star x ⬝ᵥ (phase 2 2 twoSqueezers *ᵥ x) = 2 * x (.inl 0) ^ 2 + 1 / 2 * x (.inr 0) ^ 2 + 4 / 3 * (x (.inl 1) + x (.inr 1)) ^ 2 +
          1 / 3 * x (.inl 1) ^ 2 + 1 / 3 * x (.inr 1) ^ 2 := by
        simp [dotProduct, mulVec, Fintype.sum_sum_type, Fin.sum_univ_two, phase, quad, twoSqueezers]; ring
      rw [e]
      have hpos : 0 < x (.inl 0) ^ 2 + x (.inr 0) ^ 2 + x (.inl 1) ^ 2 + x (.inr 1) ^ 2 := by
        by_contra hcon
        apply hx
        have h1 := sq_nonneg (x (.inl 0)); have h2 := sq_nonneg (x (.inr 0)); have h3 := sq_nonneg (x (.inl 1)); have h4 := sq_nonneg (x (.inr 1))
        have z1 : x (.inl 0) = 0 := pow_eq_zero_iff (two_ne_zero) |>.mp (by linarith)
        have z2 : x (.inr 0) = 0 := pow_eq_zero_iff (two_ne_zero) |>.mp (by linarith)
        have z3 : x (.inl 1) = 0 := pow_eq_zero_iff (two_ne_zero) |>.mp (by linarith)
        have z4 : x (.inr 1) = 0 := pow_eq_zero_iff (two_ne_zero) |>.mp (by linarith)
        funext p
        rcases p with p | p <;> fin_cases p <;> assumption
      nlinarith [sq_nonneg (x (.inl 1) + x (.inr 1)), sq_nonneg (x (.inl 0)), sq_nonneg (x (.inr 0)), sq_nonneg (x (.inl 1)), sq_nonneg (x (.inr 1))]
  have hSm : (toMatrix (2 * 2) (2 * 2) twoSqueezers).PosDef := (phase_posDef 2 _).mp hSp
  obtain ⟨hV, hP, hPV⟩ := hpol (2 * 2) twoSqueezers hSm.det_pos.ne'
  -- the polar factors are `S` itself and the identity
  have hPS : phase 2 2 (polar (2 * 2) twoSqueezers).2 = phase 2 2 twoSqueezers := by
    have e : toMatrix (2 * 2) (2 * 2) (polar (2 * 2) twoSqueezers).2 = toMatrix (2 * 2) (2 * 2) twoSqueezers := by
      apply posDef_sq_inj _ _ hP hSm
      have hVV : toMatrix (2 * 2) (2 * 2) (polar (2 * 2) twoSqueezers).1 * (toMatrix (2 * 2) (2 * 2) (polar (2 * 2) twoSqueezers).1)ᵀ = 1 :=
        (mem_orthogonalGroup_iff (Fin (2 * 2)) ℝ).mp hV
      have h1 : toMatrix (2 * 2) (2 * 2) twoSqueezers * (toMatrix (2 * 2) (2 * 2) twoSqueezers)ᵀ =
          toMatrix (2 * 2) (2 * 2) (polar (2 * 2) twoSqueezers).2 * toMatrix (2 * 2) (2 * 2) (polar (2 * 2) twoSqueezers).2 := by
        rw [← hPV, transpose_mul, posDef_symm hP]
        set P := toMatrix (2 * 2) (2 * 2) (polar (2 * 2) twoSqueezers).2
        set V := toMatrix (2 * 2) (2 * 2) (polar (2 * 2) twoSqueezers).1
        calc P * V * (Vᵀ * P) = P * (V * Vᵀ) * P := by simp only [Matrix.mul_assoc]
          _ = P * P := by rw [hVV, Matrix.mul_one]
      rw [posDef_symm hSm] at h1
      exact h1.symm
    rw [phase_toMatrix, e]; rfl
  have hent : ∀ i < 2 * 2, ∀ j < 2 * 2, (polar (2 * 2) twoSqueezers).2 i j = twoSqueezers i j := (phase_ext_iff 2 2 _ _).mp hPS
  obtain ⟨L, W, htk, hT⟩ := takagi_two lib hl (3 / 2) (8 / 3) (by norm_num) (by norm_num) (bmMatrix 2 (polar (2 * 2) twoSqueezers).2)
    (by simp only [bmMatrix]; rw [hent _ (by omega) _ (by omega), hent _ (by omega) _ (by omega), hent _ (by omega) _ (by omega)]; simp [twoSqueezers]; norm_num)
    (by simp only [bmMatrix]; rw [hent _ (by omega) _ (by omega), hent _ (by omega) _ (by omega), hent _ (by omega) _ (by omega), hent _ (by omega) _ (by omega)]; simp [twoSqueezers])
    (by simp only [bmMatrix]; rw [hent _ (by omega) _ (by omega), hent _ (by omega) _ (by omega), hent _ (by omega) _ (by omega)]; simp [twoSqueezers]; ring) true
  obtain ⟨O, D, Q, h1, h2, h3, h4, _, h5, h6, h7, h8, _⟩ := blochmessiah_run lib polar hpol close hc 2 twoSqueezers hS _ L W htk hT
  refine ⟨O, D, Q, h1, fun hprod => ?_⟩
  -- if the product were `S`, the positive factor would be `O D Oᵀ`
  have hOO : (phase 2 2 O) * (phase 2 2 O)ᵀ = 1 := (mem_orthogonalGroup_iff _ _).mp h4
  have hPVp : phase 2 2 (polar (2 * 2) twoSqueezers).2 * phase 2 2 (polar (2 * 2) twoSqueezers).1 = phase 2 2 twoSqueezers := by
    rw [phase_toMatrix, phase_toMatrix, submatrix_mul_equiv, hPV]; rfl
  have hVp : phase 2 2 (polar (2 * 2) twoSqueezers).1 * (phase 2 2 (polar (2 * 2) twoSqueezers).1)ᵀ = 1 := by
    rw [phase_toMatrix, transpose_submatrix, submatrix_mul_equiv]
    have : toMatrix (2 * 2) (2 * 2) (polar (2 * 2) twoSqueezers).1 * (toMatrix (2 * 2) (2 * 2) (polar (2 * 2) twoSqueezers).1)ᵀ = 1 := (mem_orthogonalGroup_iff (Fin (2 * 2)) ℝ).mp hV
    rw [this, submatrix_one_equiv]
  have hP' : phase 2 2 O * phase 2 2 D * (phase 2 2 O)ᵀ = phase 2 2 (polar (2 * 2) twoSqueezers).2 := by
    rw [h8, ← hPVp] at hprod
    have := congrArg (· * (phase 2 2 (polar (2 * 2) twoSqueezers).1)ᵀ) hprod
    simp only [Matrix.mul_assoc, hVp, Matrix.mul_one] at this
    rw [Matrix.mul_assoc]; exact this
  rw [hP', h6] at h7
  have := congrFun (congrFun h7 (Sum.inl 0)) (Sum.inl 0)
  rw [fromBlocks_apply₁₁, fromBlocks_apply₁₁] at this
  simp only [toMatrix, of_apply, bmMatrix] at this
  rw [hent _ (by simp) _ (by simp), hent _ (by simp) _ (by simp), hent _ (by simp) _ (by simp)] at this
  simp [twoSqueezers] at this
  norm_num at this

end Verif.Props
