/-
The contracts of Spec/LinAlg.lean can be met: for each of them there is a routine that satisfies it.  So the theorems about the decompositions
that assume the contracts are not vacuous; and the matrix decompositions they produce exist unconditionally.
-/
import Verif.Spec.LinAlg
import Mathlib.Analysis.Matrix.Spectrum
import Mathlib.Analysis.Matrix.Order
import Mathlib.Analysis.Matrix.PosDef
import Mathlib.Analysis.InnerProductSpace.GramSchmidtOrtho
import Mathlib.Data.Fin.Tuple.Sort
import Mathlib.Data.Fin.Rev
import Mathlib.Data.List.GetD
import Mathlib.Tactic.FieldSimp
import Mathlib.Tactic.Linarith
import Mathlib.Analysis.CStarAlgebra.Matrix
import Mathlib.Analysis.CStarAlgebra.ContinuousFunctionalCalculus.Basic
import Mathlib.Analysis.CStarAlgebra.ContinuousFunctionalCalculus.Unitary
import Mathlib.LinearAlgebra.Lagrange
import Mathlib.Analysis.SpecialFunctions.Pow.Complex
import Mathlib.Analysis.Complex.Polynomial.Basic
import Mathlib.Data.Real.StarOrdered

namespace Verif.Props
open Matrix Verif.Spec
open scoped ComplexOrder

section ext
variable {𝕜 : Type*} [RCLike 𝕜] {n : ℕ}

theorem toMatrix_ofMatrix' {K : Type*} {m n : ℕ} (A : Matrix (Fin m) (Fin n) K) (junk : ℕ → ℕ → K) : toMatrix m n (ofMatrix A junk) = A := by
  ext i j; simp [toMatrix, ofMatrix]

/-- the matrix whose columns are an orthonormal basis is unitary -/
theorem unitary_of_basis (b : OrthonormalBasis (Fin n) 𝕜 (EuclideanSpace 𝕜 (Fin n))) :
    (Matrix.of fun r i => (b i) r : Matrix (Fin n) (Fin n) 𝕜) ∈ unitaryGroup (Fin n) 𝕜 := by
  rw [mem_unitaryGroup_iff']
  ext i j
  have := orthonormal_iff_ite.mp b.orthonormal i j
  rw [PiLp.inner_apply] at this
  rw [star_eq_conjTranspose, mul_apply, one_apply, ← this]
  refine Finset.sum_congr rfl fun r _ => ?_
  simp [mul_comm]

/-- Columns `i ∈ s` of `B` are orthonormal: there is a unitary matrix with these columns. -/
theorem exists_unitary_extension (B : Matrix (Fin n) (Fin n) 𝕜) (s : Set (Fin n))
    (h : ∀ i ∈ s, ∀ j ∈ s, (Bᴴ * B) i j = if i = j then 1 else 0) :
    ∃ U ∈ unitaryGroup (Fin n) 𝕜, ∀ i ∈ s, ∀ r, U r i = B r i := by
  have hv : Orthonormal 𝕜 (s.domRestrict fun i => (WithLp.toLp 2 fun r => B r i : EuclideanSpace 𝕜 (Fin n))) := by
    rw [orthonormal_iff_ite]
    rintro ⟨i, hi⟩ ⟨j, hj⟩
    have := h i hi j hj
    rw [mul_apply] at this
    simp only [Set.domRestrict_apply, PiLp.inner_apply, Subtype.mk.injEq, ← this]
    refine Finset.sum_congr rfl fun r _ => ?_
    simp [mul_comm]
  obtain ⟨b, hb⟩ := hv.exists_orthonormalBasis_extension_of_card_eq (ι := Fin n) (by simp)
  refine ⟨_, unitary_of_basis b, fun i hi r => ?_⟩
  simp [hb i hi]

end ext

/-! ### sqrtm -/

theorem exists_sqrt {n : ℕ} (M : Matrix (Fin n) (Fin n) ℝ) (h : M.PosDef) : ∃ R : Matrix (Fin n) (Fin n) ℝ, R.PosDef ∧ R * R = M := by
  have hs := h.1.spectral_theorem
  set U := h.1.eigenvectorUnitary
  set d := h.1.eigenvalues
  have hd : ∀ i, 0 < d i := h.eigenvalues_pos
  have hU : (U : Matrix (Fin n) (Fin n) ℝ) * (U : Matrix (Fin n) (Fin n) ℝ)ᴴ = 1 := (mem_unitaryGroup_iff.mp U.2)
  have hU' : (U : Matrix (Fin n) (Fin n) ℝ)ᴴ * (U : Matrix (Fin n) (Fin n) ℝ) = 1 := (mem_unitaryGroup_iff'.mp U.2)
  refine ⟨(U : Matrix (Fin n) (Fin n) ℝ) * diagonal (fun i => Real.sqrt (d i)) * (U : Matrix (Fin n) (Fin n) ℝ)ᴴ, ?_, ?_⟩
  · have : IsUnit (U : Matrix (Fin n) (Fin n) ℝ) := ⟨⟨_, _, hU, hU'⟩, rfl⟩
    rw [← star_eq_conjTranspose, this.posDef_star_right_conjugate_iff]
    exact posDef_diagonal_iff.mpr fun i => Real.sqrt_pos.mpr (hd i)
  · conv_rhs => rw [hs]
    rw [Unitary.conjStarAlgAut_apply]
    calc _ = (U : Matrix (Fin n) (Fin n) ℝ) * diagonal (fun i => Real.sqrt (d i)) * ((U : Matrix (Fin n) (Fin n) ℝ)ᴴ * (U : Matrix (Fin n) (Fin n) ℝ)) *
          diagonal (fun i => Real.sqrt (d i)) * (U : Matrix (Fin n) (Fin n) ℝ)ᴴ := by simp only [Matrix.mul_assoc]
      _ = _ := by
        rw [hU', Matrix.mul_one, Matrix.mul_assoc (U : Matrix (Fin n) (Fin n) ℝ), diagonal_mul_diagonal]
        congr 3
        funext i
        simp [Real.mul_self_sqrt (hd i).le]

/-- `SqrtmContract` can be met. -/
theorem sqrtm_exists : ∃ sqrtm, SqrtmContract sqrtm := by
  have : ∀ n (M : RArr), ∃ R : RArr, (toMatrix n n M).PosDef → (toMatrix n n R).PosDef ∧ toMatrix n n R * toMatrix n n R = toMatrix n n M := by
    intro n M
    by_cases h : (toMatrix n n M).PosDef
    · obtain ⟨R, h1, h2⟩ := exists_sqrt _ h
      refine ⟨ofMatrix R fun _ _ => 0, fun _ => ?_⟩
      rw [toMatrix_ofMatrix']; exact ⟨h1, h2⟩
    · exact ⟨fun _ _ => 0, fun h' => absurd h' h⟩
  choose f hf using this
  exact ⟨f, hf⟩

/-! ### polar -/

/-- `PolarContract` can be met. -/
theorem polar_exists : ∃ polar, PolarContract polar := by
  have : ∀ n (S : RArr), ∃ VP : RArr × RArr, (toMatrix n n S).det ≠ 0 → toMatrix n n VP.1 ∈ orthogonalGroup (Fin n) ℝ ∧ (toMatrix n n VP.2).PosDef ∧
      toMatrix n n VP.2 * toMatrix n n VP.1 = toMatrix n n S := by
    intro n S
    by_cases h : (toMatrix n n S).det ≠ 0
    · set T := toMatrix n n S
      have hp : (T * Tᵀ).PosDef := by
        have hu : IsUnit T := (isUnit_iff_isUnit_det T).mpr (isUnit_iff_ne_zero.mpr h)
        have := (hu.posDef_star_right_conjugate_iff (x := 1)).mpr PosDef.one
        rwa [Matrix.mul_one, star_eq_conjTranspose, conjTranspose_eq_transpose_of_trivial] at this
      obtain ⟨P, hP, hPP⟩ := exists_sqrt _ hp
      have hPd : IsUnit P.det := isUnit_iff_ne_zero.mpr hP.det_pos.ne'
      have hPs : Pᵀ = P := by
        have := hP.1; rwa [IsHermitian, conjTranspose_eq_transpose_of_trivial] at this
      refine ⟨(ofMatrix (P⁻¹ * T) fun _ _ => 0, ofMatrix P fun _ _ => 0), fun _ => ?_⟩
      simp only [toMatrix_ofMatrix']
      refine ⟨?_, hP, ?_⟩
      · rw [mem_orthogonalGroup_iff]
        rw [transpose_mul, transpose_nonsing_inv, hPs]
        calc P⁻¹ * T * (Tᵀ * P⁻¹) = P⁻¹ * (T * Tᵀ) * P⁻¹ := by simp only [Matrix.mul_assoc]
          _ = (P⁻¹ * P) * (P * P⁻¹) := by rw [← hPP]; simp only [Matrix.mul_assoc]
          _ = 1 := by rw [nonsing_inv_mul P hPd, mul_nonsing_inv P hPd, Matrix.one_mul]
      · rw [← Matrix.mul_assoc, mul_nonsing_inv P hPd, Matrix.one_mul]
    · exact ⟨(fun _ _ => 0, fun _ _ => 0), fun h' => absurd h' h⟩
  choose f hf using this
  exact ⟨f, hf⟩

/-! ### qr -/

theorem exists_qr {𝕜 : Type*} [RCLike 𝕜] {n : ℕ} (M : Matrix (Fin n) (Fin n) 𝕜) : ∃ Q R : Matrix (Fin n) (Fin n) 𝕜, Q ∈ unitaryGroup (Fin n) 𝕜 ∧ (∀ i j, j < i → R i j = 0) ∧ Q * R = M := by
  let f : Fin n → EuclideanSpace 𝕜 (Fin n) := fun i => WithLp.toLp 2 fun r => M r i
  have hc : Module.finrank 𝕜 (EuclideanSpace 𝕜 (Fin n)) = Fintype.card (Fin n) := by simp
  let b := InnerProductSpace.gramSchmidtOrthonormalBasis hc f
  refine ⟨Matrix.of fun r i => (b i) r, Matrix.of fun j i => b.repr (f i) j, unitary_of_basis b, ?_, ?_⟩
  · intro i j hij
    exact InnerProductSpace.gramSchmidtOrthonormalBasis_inv_triangular' hc f hij
  · ext r i
    have := b.sum_repr (f i)
    have := congrArg (fun v : EuclideanSpace 𝕜 (Fin n) => v r) this
    simp only [WithLp.ofLp_sum, Finset.sum_apply, WithLp.ofLp_smul, Pi.smul_apply, smul_eq_mul] at this
    rw [mul_apply]
    simp only [of_apply]
    rw [show M r i = (f i) r from rfl, ← this]
    exact Finset.sum_congr rfl fun j _ => mul_comm _ _

/-- `QrContract` can be met. -/
theorem qr_exists : ∃ qr, QrContract qr := by
  have : ∀ n (M : RArr), ∃ QR : RArr × RArr, toMatrix n n QR.1 ∈ orthogonalGroup (Fin n) ℝ ∧ (∀ i < n, ∀ j < i, QR.2 i j = 0) ∧
      toMatrix n n QR.1 * toMatrix n n QR.2 = toMatrix n n M := by
    intro n M
    obtain ⟨Q, R, h1, h2, h3⟩ := exists_qr (toMatrix n n M)
    refine ⟨(ofMatrix Q fun _ _ => 0, ofMatrix R fun _ _ => 0), ?_⟩
    simp only [toMatrix_ofMatrix']
    refine ⟨h1, fun i hi j hj => ?_, h3⟩
    simp only [ofMatrix, hi, lt_trans hj hi, and_self, dite_true]
    exact h2 _ _ hj
  choose f hf using this
  exact ⟨f, hf⟩

/-! ### argsort and eigh -/

/-- `QrContractC` can be met. -/
theorem qrC_exists : ∃ qr, QrContractC qr := by
  have : ∀ n (M : CArr), ∃ QR : CArr × CArr, toMatrix n n QR.1 ∈ unitaryGroup (Fin n) ℂ ∧ (∀ i < n, ∀ j < i, QR.2 i j = 0) ∧
      toMatrix n n QR.1 * toMatrix n n QR.2 = toMatrix n n M := by
    intro n M
    obtain ⟨Q, R, h1, h2, h3⟩ := exists_qr (toMatrix n n M)
    refine ⟨(ofMatrix Q fun _ _ => 0, ofMatrix R fun _ _ => 0), ?_⟩
    simp only [toMatrix_ofMatrix']
    refine ⟨h1, fun i hi j hj => ?_, h3⟩
    simp only [ofMatrix, hi, lt_trans hj hi, and_self, dite_true]
    exact h2 _ _ hj
  choose f hf using this
  exact ⟨f, hf⟩

/-- `ArgsortContract` can be met. -/
theorem argsort_exists : ∃ argsort, ArgsortContract argsort := by
  refine ⟨fun n v i => if h : i < n then (Tuple.sort (fun k : Fin n => v k) ⟨i, h⟩ : ℕ) else 0, fun n v => ⟨?_, ?_, ?_⟩⟩
  · intro i hi; simp only [hi, dite_true]; exact Fin.is_lt _
  · intro i hi j hj h
    simp only [hi, hj, dite_true] at h
    have := (Tuple.sort (fun k : Fin n => v k)).injective (Fin.ext h)
    exact congrArg Fin.val this
  · intro i j hij hj
    have hi : i < n := lt_of_le_of_lt hij hj
    simp only [hi, hj, dite_true]
    exact Tuple.monotone_sort (fun k : Fin n => v k) (show (⟨i, hi⟩ : Fin n) ≤ ⟨j, hj⟩ from hij)

theorem exists_eigh {n : ℕ} {𝕜 : Type*} [RCLike 𝕜] (M : Matrix (Fin n) (Fin n) 𝕜) (h : M.IsHermitian) :
    ∃ (w : Fin n → ℝ) (U : Matrix (Fin n) (Fin n) 𝕜), U ∈ unitaryGroup (Fin n) 𝕜 ∧ Monotone w ∧ U * diagonal (fun i => (w i : 𝕜)) * Uᴴ = M := by
  set σ := Tuple.sort h.eigenvalues
  set V := (h.eigenvectorUnitary : Matrix (Fin n) (Fin n) 𝕜) with hV
  have hVV : Vᴴ * V = 1 := mem_unitaryGroup_iff'.mp h.eigenvectorUnitary.2
  refine ⟨fun i => h.eigenvalues (σ i), V.submatrix id σ, ?_, Tuple.monotone_sort h.eigenvalues, ?_⟩
  · rw [mem_unitaryGroup_iff', star_eq_conjTranspose, conjTranspose_submatrix, ← submatrix_mul _ _ _ id _ Function.bijective_id, hVV]
    ext i j; simp [one_apply]
  · have hs := h.spectral_theorem
    rw [Unitary.conjStarAlgAut_apply] at hs
    conv_rhs => rw [hs]
    ext i j
    simp only [Matrix.mul_assoc, star_eq_conjTranspose, ← hV]
    rw [mul_apply, mul_apply]
    simp only [diagonal_mul, conjTranspose_apply, submatrix_apply, id, Function.comp]
    exact Equiv.sum_comp σ fun k => V i k * ((h.eigenvalues k : 𝕜) * star (V j k))

/-- `EighContract` can be met. -/
theorem eigh_exists : ∃ eigh, EighContract eigh := by
  have : ∀ n (M : RArr), ∃ e : (ℕ → ℝ) × RArr, (toMatrix n n M).IsSymm → toMatrix n n e.2 ∈ orthogonalGroup (Fin n) ℝ ∧
      (∀ i j, i ≤ j → j < n → e.1 i ≤ e.1 j) ∧
      toMatrix n n e.2 * diagonal (fun i : Fin n => e.1 i) * (toMatrix n n e.2)ᵀ = toMatrix n n M := by
    intro n M
    by_cases h : (toMatrix n n M).IsSymm
    · obtain ⟨w, U, h1, h2, h3⟩ := exists_eigh (toMatrix n n M) (by rw [IsHermitian, conjTranspose_eq_transpose_of_trivial]; exact h)
      refine ⟨(fun i => if hi : i < n then w ⟨i, hi⟩ else 0, ofMatrix U fun _ _ => 0), fun _ => ?_⟩
      simp only [toMatrix_ofMatrix']
      refine ⟨h1, ?_, ?_⟩
      · intro i j hij hj
        have hi : i < n := lt_of_le_of_lt hij hj
        simp only [hi, hj, dite_true]
        exact h2 (show (⟨i, hi⟩ : Fin n) ≤ ⟨j, hj⟩ from hij)
      · rw [← h3, conjTranspose_eq_transpose_of_trivial]
        congr 3
        funext i; simp
    · exact ⟨(fun _ => 0, fun _ _ => 0), fun h' => absurd h' h⟩
  choose f hf using this
  exact ⟨f, hf⟩

/-! ### svd -/

theorem exists_svd {n : ℕ} (M : Matrix (Fin n) (Fin n) ℂ) : ∃ (U V : Matrix (Fin n) (Fin n) ℂ) (d : Fin n → ℝ),
    U ∈ unitaryGroup (Fin n) ℂ ∧ V ∈ unitaryGroup (Fin n) ℂ ∧ (∀ i, 0 ≤ d i) ∧ Antitone d ∧ U * diagonal (fun i => (d i : ℂ)) * V = M := by
  have hH := posSemidef_conjTranspose_mul_self M
  obtain ⟨w, W, hW, hw, hWM⟩ := exists_eigh (Mᴴ * M) hH.1
  have hWW : Wᴴ * W = 1 := mem_unitaryGroup_iff'.mp hW
  have hWW' : W * Wᴴ = 1 := mem_unitaryGroup_iff.mp hW
  have hdiag : Wᴴ * (Mᴴ * M) * W = diagonal (fun i => (w i : ℂ)) := by
    rw [← hWM]
    calc _ = (Wᴴ * W) * diagonal (fun i => (w i : ℂ)) * (Wᴴ * W) := by simp only [Matrix.mul_assoc]; rfl
      _ = _ := by rw [hWW, Matrix.one_mul, Matrix.mul_one]
  have hw0 : ∀ i, 0 ≤ w i := by
    intro i
    have h1 : (diagonal (fun i => (w i : ℂ))).PosSemidef := by
      rw [← hdiag]; exact hH.conjTranspose_mul_mul_same W
    have := posSemidef_diagonal_iff.mp h1 i
    exact_mod_cast this
  -- reverse the order
  let V := W.submatrix id Fin.rev
  let d : Fin n → ℝ := fun i => Real.sqrt (w i.rev)
  have hVV : Vᴴ * V = 1 := by
    rw [show V = W.submatrix id Fin.rev from rfl, conjTranspose_submatrix, ← submatrix_mul _ _ _ id _ Function.bijective_id, hWW]
    ext i j; simp [one_apply]
  have hVV' : V * Vᴴ = 1 := mul_eq_one_comm.mp hVV
  let B := M * V
  have hBB : Bᴴ * B = diagonal (fun i => ((d i : ℝ) : ℂ) * (d i : ℝ)) := by
    ext i j
    have := congrFun (congrFun hdiag i.rev) j.rev
    have e : (Bᴴ * B) i j = (Wᴴ * (Mᴴ * M) * W) i.rev j.rev := by
      have : Bᴴ * B = (Wᴴ * (Mᴴ * M) * W).submatrix Fin.rev Fin.rev := by
        rw [show B = (M * W).submatrix id Fin.rev from rfl, conjTranspose_submatrix, ← submatrix_mul _ _ _ id _ Function.bijective_id, conjTranspose_mul]
        simp only [Matrix.mul_assoc]
      rw [this]; rfl
    rw [e, this, diagonal_apply, diagonal_apply]
    simp only [Fin.rev_inj]
    split_ifs
    · rw [← Complex.ofReal_mul, Real.mul_self_sqrt (hw0 _)]
    · rfl
  let B' : Matrix (Fin n) (Fin n) ℂ := B * diagonal (fun i => (((d i)⁻¹ : ℝ) : ℂ))
  obtain ⟨U, hU, hUB⟩ := exists_unitary_extension B' {i | d i ≠ 0} (by
    intro i hi j _
    rw [show B'ᴴ * B' = diagonal (fun i => (((d i)⁻¹ : ℝ) : ℂ)) * (Bᴴ * B) * diagonal (fun i => (((d i)⁻¹ : ℝ) : ℂ)) from ?_]
    · rw [hBB, diagonal_mul_diagonal, diagonal_mul_diagonal, diagonal_apply]
      split_ifs with h
      · have : ((d i : ℝ) : ℂ) ≠ 0 := by exact_mod_cast hi
        push_cast; field_simp
      · rfl
    · rw [conjTranspose_mul, diagonal_conjTranspose]
      have : star (fun i => (((d i)⁻¹ : ℝ) : ℂ)) = fun i => (((d i)⁻¹ : ℝ) : ℂ) := by
        funext i; exact Complex.conj_ofReal _
      rw [this]; simp only [Matrix.mul_assoc, B'])
  refine ⟨U, Vᴴ, d, hU, ?_, fun i => Real.sqrt_nonneg _, ?_, ?_⟩
  · rw [mem_unitaryGroup_iff, star_eq_conjTranspose, conjTranspose_conjTranspose]; exact hVV
  · intro i j hij
    exact Real.sqrt_le_sqrt (hw (Fin.rev_le_rev.mpr hij))
  · have : U * diagonal (fun i => (d i : ℂ)) = B := by
      ext r i
      rw [mul_diagonal]
      by_cases h : d i = 0
      · have h0 : ∑ r, (starRingEnd ℂ) (B r i) * B r i = 0 := by
          have := congrFun (congrFun hBB i) i
          rw [mul_apply, diagonal_apply_eq, h] at this
          simpa using this
        have h1 : ∑ r, Complex.normSq (B r i) = 0 := by
          have e : ∑ r, (starRingEnd ℂ) (B r i) * B r i = ((∑ r, Complex.normSq (B r i) : ℝ) : ℂ) := by
            push_cast
            exact Finset.sum_congr rfl fun r _ => Complex.normSq_eq_conj_mul_self.symm
          rw [e] at h0; exact_mod_cast h0
        have h2 := (Finset.sum_eq_zero_iff_of_nonneg fun r _ => Complex.normSq_nonneg (B r i)).mp h1 r (Finset.mem_univ r)
        rw [h, Complex.normSq_eq_zero.mp h2]; simp
      · rw [hUB i h r]
        simp only [B', mul_diagonal]
        have : ((d i : ℝ) : ℂ) ≠ 0 := by exact_mod_cast h
        push_cast; field_simp
    rw [this]
    calc B * Vᴴ = M * (V * Vᴴ) := by simp only [B, Matrix.mul_assoc]
      _ = M := by rw [hVV', Matrix.mul_one]

/-- `SvdContract` can be met. -/
theorem svd_exists : ∃ svd, SvdContract svd := by
  have : ∀ n (M : CArr), ∃ s : CArr × (ℕ → ℝ) × CArr, toMatrix n n s.1 ∈ unitaryGroup (Fin n) ℂ ∧ toMatrix n n s.2.2 ∈ unitaryGroup (Fin n) ℂ ∧
      (∀ i < n, 0 ≤ s.2.1 i) ∧ (∀ i j, i ≤ j → j < n → s.2.1 j ≤ s.2.1 i) ∧
      toMatrix n n s.1 * diagonal (fun i : Fin n => ((s.2.1 i : ℝ) : ℂ)) * toMatrix n n s.2.2 = toMatrix n n M := by
    intro n M
    obtain ⟨U, V, d, h1, h2, h3, h4, h5⟩ := exists_svd (toMatrix n n M)
    refine ⟨(ofMatrix U fun _ _ => 0, fun i => if hi : i < n then d ⟨i, hi⟩ else 0, ofMatrix V fun _ _ => 0), ?_⟩
    simp only [toMatrix_ofMatrix']
    refine ⟨h1, h2, ?_, ?_, ?_⟩
    · intro i hi; simp only [hi, dite_true]; exact h3 _
    · intro i j hij hj
      have hi : i < n := lt_of_le_of_lt hij hj
      simp only [hi, hj, dite_true]
      exact h4 (show (⟨i, hi⟩ : Fin n) ≤ ⟨j, hj⟩ from hij)
    · rw [← h5]; congr 3; funext i; simp
  choose f hf using this
  exact ⟨f, hf⟩

/-! ### sqrtm of a unitary matrix -/

section cfc
open scoped Matrix.Norms.L2Operator

theorem exists_sqrt_unitary {n : ℕ} (M : Matrix (Fin n) (Fin n) ℂ) (h : M ∈ unitaryGroup (Fin n) ℂ) :
    ∃ R ∈ unitaryGroup (Fin n) ℂ, R * R = M ∧ ∃ p : Polynomial ℂ, R = Polynomial.aeval M p := by
  classical
  have hfin : (spectrum ℂ M).Finite := Matrix.finite_spectrum M
  have hn : IsStarNormal M := ⟨by
    have h1 := mem_unitaryGroup_iff.mp h
    have h2 := mem_unitaryGroup_iff'.mp h
    rw [commute_iff_eq, h1, h2]⟩
  let f : ℂ → ℂ := fun z => z ^ (1 / 2 : ℂ)
  let p : Polynomial ℂ := Lagrange.interpolate hfin.toFinset id f
  have hp : ∀ z ∈ spectrum ℂ M, p.eval z = f z := by
    intro z hz
    exact Lagrange.eval_interpolate_at_node f Function.injective_id.injOn (hfin.mem_toFinset.mpr hz)
  have hnorm : ∀ z ∈ spectrum ℂ M, ‖z‖ = 1 := by
    intro z hz
    have := spectrum.subset_circle_of_unitary (𝕜 := ℂ) (E := Matrix (Fin n) (Fin n) ℂ) (u := M) h hz
    simpa using this
  have hff : ∀ z, f z * f z = z := by
    intro z
    by_cases hz : z = 0
    · subst hz; simp [f]
    · simp only [f]; rw [← Complex.cpow_add _ _ hz]; norm_num
  have hcfc : Polynomial.aeval M p = cfc (fun z => p.eval z) M := (cfc_polynomial p M).symm
  refine ⟨Polynomial.aeval M p, ?_, ?_, p, rfl⟩
  · rw [hcfc]
    refine (cfc_unitary_iff (fun z => p.eval z) M).mpr ?_
    intro z hz
    rw [hp z hz]
    have h1 : ‖f z‖ * ‖f z‖ = 1 := by rw [← norm_mul, hff, hnorm z hz]
    have : star (f z) * f z = ((‖f z‖ * ‖f z‖ : ℝ) : ℂ) := by
      rw [Complex.norm_mul_self_eq_normSq, Complex.normSq_eq_conj_mul_self]; rfl
    rw [this, h1]; simp
  · rw [← map_mul, ← cfc_polynomial (p * p) M]
    have : cfc (fun z : ℂ => (p * p).eval z) M = cfc (fun z : ℂ => z) M := by
      apply cfc_congr
      intro z hz
      simp only [Polynomial.eval_mul]
      rw [hp z hz, hff]
    rw [this]; exact cfc_id' ℂ M

end cfc

/-- `SqrtmUnitaryContract` can be met. -/
theorem sqrtmUnitary_exists : ∃ sqrtm, SqrtmUnitaryContract sqrtm := by
  have : ∀ n (M : CArr), ∃ R : CArr, toMatrix n n M ∈ unitaryGroup (Fin n) ℂ → toMatrix n n R ∈ unitaryGroup (Fin n) ℂ ∧
      toMatrix n n R * toMatrix n n R = toMatrix n n M ∧ ∃ p : Polynomial ℂ, toMatrix n n R = Polynomial.aeval (toMatrix n n M) p := by
    intro n M
    by_cases h : toMatrix n n M ∈ unitaryGroup (Fin n) ℂ
    · obtain ⟨R, h1, h2⟩ := exists_sqrt_unitary _ h
      refine ⟨ofMatrix R fun _ _ => 0, fun _ => ?_⟩
      rw [toMatrix_ofMatrix']; exact ⟨h1, h2⟩
    · exact ⟨fun _ _ => 0, fun h' => absurd h' h⟩
  choose f hf using this
  exact ⟨f, hf⟩

/-! ### schur -/

theorem exists_schur : ∀ (n : ℕ) (A : Matrix (Fin n) (Fin n) ℝ), Aᵀ = -A → ∃ Z T : Matrix (Fin n) (Fin n) ℝ, Z ∈ orthogonalGroup (Fin n) ℝ ∧
    (∀ i j : Fin n, (j : ℕ) + 1 < i → T i j = 0) ∧ (∀ i j k : Fin n, (i : ℕ) + 1 = j → (j : ℕ) + 1 = k → T j i = 0 ∨ T k j = 0) ∧ Z * T * Zᵀ = A := by
  intro n
  induction n using Nat.strong_induction_on with
  | _ n ih =>
    intro A hA
    by_cases h0 : A = 0
    · subst h0
      exact ⟨1, 0, one_mem _, fun _ _ _ => rfl, fun _ _ _ _ _ => Or.inl rfl, by simp⟩
    by_cases hn : n < 2
    · refine ⟨1, A, one_mem _, fun i j h => ?_, fun i j k h1 h2 => ?_, by simp⟩
      · have := i.2; omega
      · have := k.2; omega
    obtain ⟨m, rfl⟩ : ∃ m, n = 2 + m := ⟨n - 2, by omega⟩
    -- an eigenvector of `Aᵀ A` with a positive eigenvalue
    have hH : (Aᵀ * A).IsHermitian := by
      rw [IsHermitian, conjTranspose_eq_transpose_of_trivial, transpose_mul, transpose_transpose]
    have hne : Aᵀ * A ≠ 0 := by
      intro h
      apply h0
      have := conjTranspose_mul_self_eq_zero (A := A)
      rw [conjTranspose_eq_transpose_of_trivial] at this
      exact this.mp h
    obtain ⟨i0, hi0⟩ : ∃ i, hH.eigenvalues i ≠ 0 := by
      by_contra hcon
      push Not at hcon
      exact hne (hH.eigenvalues_eq_zero_iff.mp (funext hcon))
    set μ := hH.eigenvalues i0 with hμ
    let v : Fin (2 + m) → ℝ := hH.eigenvectorBasis i0
    have hv : (Aᵀ * A) *ᵥ v = μ • v := hH.mulVec_eigenvectorBasis i0
    have hvv : v ⬝ᵥ v = 1 := by
      have := orthonormal_iff_ite.mp hH.eigenvectorBasis.orthonormal i0 i0
      rw [PiLp.inner_apply] at this
      simp only [if_true] at this
      rw [dotProduct, ← this]
      exact Finset.sum_congr rfl fun i _ => by simp [v, sq]
    have hAv : A *ᵥ v ⬝ᵥ A *ᵥ v = μ := by
      have : A *ᵥ v ⬝ᵥ A *ᵥ v = v ⬝ᵥ ((Aᵀ * A) *ᵥ v) := by
        rw [← mulVec_mulVec, dotProduct_mulVec v, vecMul_transpose]
      rw [this, hv, dotProduct_smul, hvv]; simp
    have hμ0 : 0 < μ := by
      refine lt_of_le_of_ne ?_ (Ne.symm hi0)
      rw [← hAv]; exact Finset.sum_nonneg fun i _ => mul_self_nonneg _
    set s := Real.sqrt μ with hs
    have hs0 : 0 < s := Real.sqrt_pos.mpr hμ0
    have hss : s * s = μ := Real.mul_self_sqrt hμ0.le
    let w : Fin (2 + m) → ℝ := s⁻¹ • (A *ᵥ v)
    have hww : w ⬝ᵥ w = 1 := by
      simp only [w, smul_dotProduct, dotProduct_smul, hAv, smul_eq_mul]
      rw [← hss]; field_simp
    have hskew : ∀ x : Fin (2 + m) → ℝ, x ⬝ᵥ A *ᵥ x = 0 := by
      intro x
      have h1 : x ⬝ᵥ A *ᵥ x = -(x ⬝ᵥ A *ᵥ x) := by
        conv_lhs => rw [dotProduct_mulVec, ← mulVec_transpose, hA, neg_mulVec, neg_dotProduct, dotProduct_comm]
      linarith
    have hvw : v ⬝ᵥ w = 0 := by
      simp only [w, dotProduct_smul, hskew v, smul_zero]
    have hAv' : A *ᵥ v = s • w := by
      simp only [w, smul_smul]; rw [mul_inv_cancel₀ hs0.ne', one_smul]
    have hAw : A *ᵥ w = -(s • v) := by
      have : A *ᵥ (A *ᵥ v) = -(μ • v) := by
        rw [← hv, mulVec_mulVec, hA, Matrix.neg_mul, neg_mulVec, neg_neg]
      simp only [w, mulVec_smul, this, smul_neg, smul_smul]
      congr 2
      rw [← hss]; field_simp
    let e : Fin 2 ⊕ Fin m ≃ Fin (2 + m) := finSumFinEquiv
    let B : Matrix (Fin (2 + m)) (Fin (2 + m)) ℝ := Matrix.of fun r i => if (i : ℕ) = 0 then v r else w r
    obtain ⟨Q, hQ, hQB⟩ := exists_unitary_extension B {i | (i : ℕ) < 2} (by
      intro i hi j hj
      have key : (Bᴴ * B) i j = (fun r => B r i) ⬝ᵥ (fun r => B r j) := by
        rw [mul_apply]; rfl
      rw [key]
      have hB : ∀ i : Fin (2 + m), (fun r => B r i) = if (i : ℕ) = 0 then v else w := by
        intro i; funext r; simp only [B, of_apply]; split_ifs <;> rfl
      rw [hB, hB]
      have hi' : (i : ℕ) < 2 := hi
      have hj' : (j : ℕ) < 2 := hj
      by_cases h1 : (i : ℕ) = 0 <;> by_cases h2 : (j : ℕ) = 0
      · have : i = j := Fin.ext (by omega)
        simp [h1, h2, hvv, this]
      · have : i ≠ j := fun h => h2 (by rw [← h]; exact h1)
        simp [h1, h2, hvw, this]
      · have : i ≠ j := fun h => h1 (by rw [h]; exact h2)
        simp [h1, h2, dotProduct_comm w v, hvw, this]
      · have : i = j := Fin.ext (by omega)
        simp [h2, hww, this])
    have hQQ : Qᵀ * Q = 1 := (mem_orthogonalGroup_iff' (Fin (2 + m)) ℝ).mp hQ
    have hQQ' : Q * Qᵀ = 1 := (mem_orthogonalGroup_iff (Fin (2 + m)) ℝ).mp hQ
    let T0 := Qᵀ * A * Q
    have hT0a : T0ᵀ = -T0 := by
      simp only [T0, transpose_mul, transpose_transpose, hA, Matrix.mul_assoc, Matrix.neg_mul, Matrix.mul_neg]
    have hcol0 : ∀ i j : Fin (2 + m), (j : ℕ) = 0 → T0 i j = if (i : ℕ) = 1 then s else 0 := by
      intro i j hj
      have hq : (fun r => Q r j) = v := by
        funext r; rw [hQB j (show (j : ℕ) < 2 by omega) r]; simp only [B, of_apply, hj]; simp
      have h1 : T0 i j = (Qᵀ *ᵥ (A *ᵥ fun r => Q r j)) i := by
        simp only [T0]; rw [mulVec_mulVec]; rfl
      rw [h1, hq, hAv', mulVec_smul]
      let k : Fin (2 + m) := ⟨1, by omega⟩
      have hk : w = fun r => Q r k := by
        funext r; rw [hQB k (show (1 : ℕ) < 2 by omega) r]; simp [B, k]
      have h2 : (Qᵀ *ᵥ w) i = (Qᵀ * Q) i k := by rw [hk]; rfl
      simp only [Pi.smul_apply, h2, hQQ, one_apply, smul_eq_mul]
      have : i = k ↔ (i : ℕ) = 1 := by rw [Fin.ext_iff]
      simp [this]
    have hcol1 : ∀ i j : Fin (2 + m), (j : ℕ) = 1 → T0 i j = if (i : ℕ) = 0 then -s else 0 := by
      intro i j hj
      have hq : (fun r => Q r j) = w := by
        funext r; rw [hQB j (show (j : ℕ) < 2 by omega) r]; simp only [B, of_apply, hj]; simp
      have h1 : T0 i j = (Qᵀ *ᵥ (A *ᵥ fun r => Q r j)) i := by
        simp only [T0]; rw [mulVec_mulVec]; rfl
      rw [h1, hq, hAw, mulVec_neg, mulVec_smul]
      let k : Fin (2 + m) := ⟨0, by omega⟩
      have hk : v = fun r => Q r k := by
        funext r; rw [hQB k (show (0 : ℕ) < 2 by omega) r]; simp [B, k]
      have h2 : (Qᵀ *ᵥ v) i = (Qᵀ * Q) i k := by rw [hk]; rfl
      simp only [Pi.neg_apply, Pi.smul_apply, h2, hQQ, one_apply, smul_eq_mul]
      have : i = k ↔ (i : ℕ) = 0 := by rw [Fin.ext_iff]
      simp only [this]; split_ifs <;> simp
    have hcol : ∀ i j : Fin (2 + m), (j : ℕ) < 2 → 2 ≤ (i : ℕ) → T0 i j = 0 := by
      intro i j hj hi
      rcases (by omega : (j : ℕ) = 0 ∨ (j : ℕ) = 1) with h | h
      · rw [hcol0 i j h, if_neg (by omega)]
      · rw [hcol1 i j h, if_neg (by omega)]
    have hsk : ∀ i j, T0 i j = -T0 j i := by
      intro i j
      have := congrFun (congrFun hT0a j) i
      simpa using this
    let G : Matrix (Fin 2) (Fin 2) ℝ := T0.submatrix (e ∘ Sum.inl) (e ∘ Sum.inl)
    let A' : Matrix (Fin m) (Fin m) ℝ := T0.submatrix (e ∘ Sum.inr) (e ∘ Sum.inr)
    have hblock : T0.submatrix e e = fromBlocks G 0 0 A' := by
      ext (i | i) (j | j)
      · rfl
      · show T0 (e (Sum.inl i)) (e (Sum.inr j)) = 0
        rw [hsk, hcol _ _ (by simp [e]; omega) (by simp [e]), neg_zero]
      · show T0 (e (Sum.inr i)) (e (Sum.inl j)) = 0
        exact hcol _ _ (by simp [e]; omega) (by simp [e])
      · rfl
    have hA' : A'ᵀ = -A' := by
      ext i j; exact hsk _ _
    obtain ⟨Z', T', hZ', h1', h2', h3'⟩ := ih m (by omega) A' hA'
    have hZZ : Z' * Z'ᵀ = 1 := (mem_orthogonalGroup_iff (Fin m) ℝ).mp hZ'
    let Z1 : Matrix (Fin (2 + m)) (Fin (2 + m)) ℝ := (fromBlocks (1 : Matrix (Fin 2) (Fin 2) ℝ) 0 0 Z').submatrix e.symm e.symm
    let T1 : Matrix (Fin (2 + m)) (Fin (2 + m)) ℝ := (fromBlocks G 0 0 T').submatrix e.symm e.symm
    have hT1 : ∀ a b, T1 (e a) (e b) = fromBlocks G 0 0 T' a b := fun a b => by simp [T1]
    have hZ1 : Z1 * Z1ᵀ = 1 := by
      simp only [Z1, transpose_submatrix, submatrix_mul_equiv, fromBlocks_transpose, fromBlocks_multiply]
      simp [hZZ]
    have hZT : Z1 * T1 * Z1ᵀ = T0 := by
      have : T0 = (fromBlocks G 0 0 A').submatrix e.symm e.symm := by
        rw [← hblock]; ext i j; simp
      rw [this]
      simp only [Z1, T1, transpose_submatrix, submatrix_mul_equiv, fromBlocks_transpose, fromBlocks_multiply]
      congr 1
      simp [← h3', Matrix.mul_assoc]
    refine ⟨Q * Z1, T1, ?_, ?_, ?_, ?_⟩
    · rw [mem_orthogonalGroup_iff, transpose_mul]
      calc Q * Z1 * (Z1ᵀ * Qᵀ) = Q * (Z1 * Z1ᵀ) * Qᵀ := by simp only [Matrix.mul_assoc]
        _ = 1 := by rw [hZ1, Matrix.mul_one, hQQ']
    · intro i j hij
      obtain ⟨a, rfl⟩ := e.surjective i
      obtain ⟨b, rfl⟩ := e.surjective j
      rw [hT1]
      rcases a with a | a <;> rcases b with b | b
      · simp [e] at hij; omega
      · rfl
      · rfl
      · exact h1' a b (by simp [e] at hij; omega)
    · intro i j k hij hjk
      obtain ⟨a, rfl⟩ := e.surjective i
      obtain ⟨b, rfl⟩ := e.surjective j
      obtain ⟨c, rfl⟩ := e.surjective k
      rw [hT1, hT1]
      rcases a with a | a <;> rcases b with b | b <;> rcases c with c | c
      · exfalso; simp [e] at hij hjk; omega
      · exact Or.inr rfl
      · exact Or.inl rfl
      · exact Or.inl rfl
      · exact Or.inl rfl
      · exact Or.inl rfl
      · exact Or.inr rfl
      · exact h2' a b c (by simp [e] at hij; omega) (by simp [e] at hjk; omega)
    · rw [transpose_mul]
      calc Q * Z1 * T1 * (Z1ᵀ * Qᵀ) = Q * (Z1 * T1 * Z1ᵀ) * Qᵀ := by simp only [Matrix.mul_assoc]
        _ = (Q * Qᵀ) * A * (Q * Qᵀ) := by rw [hZT]; simp only [T0, Matrix.mul_assoc]
        _ = A := by rw [hQQ', Matrix.one_mul, Matrix.mul_one]

/-- `SchurContract` can be met. -/
theorem schur_exists : ∃ schur, SchurContract schur := by
  have : ∀ n (M : RArr), ∃ TZ : RArr × RArr, (toMatrix n n M)ᵀ = -toMatrix n n M → toMatrix n n TZ.2 ∈ orthogonalGroup (Fin n) ℝ ∧
      (∀ i < n, ∀ j, j + 1 < i → TZ.1 i j = 0) ∧ (∀ i, i + 2 < n → TZ.1 (i + 1) i = 0 ∨ TZ.1 (i + 2) (i + 1) = 0) ∧
      toMatrix n n TZ.2 * toMatrix n n TZ.1 * (toMatrix n n TZ.2)ᵀ = toMatrix n n M := by
    intro n M
    by_cases h : (toMatrix n n M)ᵀ = -toMatrix n n M
    · obtain ⟨Z, T, h1, h2, h3, h4⟩ := exists_schur n _ h
      refine ⟨(ofMatrix T fun _ _ => 0, ofMatrix Z fun _ _ => 0), fun _ => ?_⟩
      simp only [toMatrix_ofMatrix']
      refine ⟨h1, ?_, ?_, h4⟩
      · intro i hi j hj
        simp only [ofMatrix, hi, (by omega : j < n), and_self, dite_true]
        exact h2 _ _ hj
      · intro i hi
        simp only [ofMatrix, hi, (by omega : i < n), (by omega : i + 1 < n), and_self, dite_true]
        exact h3 ⟨i, by omega⟩ ⟨i + 1, by omega⟩ ⟨i + 2, hi⟩ rfl rfl
    · exact ⟨(fun _ _ => 0, fun _ _ => 0), fun h' => absurd h' h⟩
  choose f hf using this
  exact ⟨f, hf⟩

/-! ### eigvals -/

/-- the roots of a real monic polynomial, real ones first, then the conjugate pairs -/
theorem exists_paired_roots (p : Polynomial ℝ) (hp : p.Monic) : ∃ (re up : List ℂ), re.length + 2 * up.length = p.natDegree ∧
    (∀ z ∈ re, z.im = 0) ∧ (∀ z ∈ up, 0 < z.im) ∧
    p.map Complex.ofRealHom = (re.map fun z => Polynomial.X - Polynomial.C z).prod *
      (up.map fun z => (Polynomial.X - Polynomial.C z) * (Polynomial.X - Polynomial.C ((starRingEnd ℂ) z))).prod := by
  classical
  set q := p.map Complex.ofRealHom with hq
  have hqm : q.Monic := hp.map _
  have hsplit : q.Splits := IsAlgClosed.splits q
  have hprod : (q.roots.map fun z => Polynomial.X - Polynomial.C z).prod = q := by
    have := hsplit.eq_prod_roots
    rw [hqm.leadingCoeff, Polynomial.C_1, one_mul] at this
    exact this.symm
  have hconj : q.roots.map (starRingEnd ℂ) = q.roots := by
    have h1 : q.map (starRingEnd ℂ) = q := by
      rw [hq, Polynomial.map_map]
      congr 1
      ext x; simp
    have := hsplit.roots_map (starRingEnd ℂ)
    rw [h1] at this
    exact this.symm
  let reM := q.roots.filter fun z => z.im = 0
  let upM := q.roots.filter fun z => 0 < z.im
  let loM := q.roots.filter fun z => z.im < 0
  have hlo : loM = upM.map (starRingEnd ℂ) := by
    simp only [loM, upM]
    conv_lhs => rw [← hconj]
    rw [Multiset.filter_map]
    congr 1
    apply Multiset.filter_congr
    intro z _
    simp
  have hsum : reM + (upM + loM) = q.roots := by
    have h1 := Multiset.filter_add_not (fun z : ℂ => z.im = 0) q.roots
    have h2 := Multiset.filter_add_not (fun z : ℂ => 0 < z.im) (q.roots.filter fun z => ¬ z.im = 0)
    rw [Multiset.filter_filter, Multiset.filter_filter] at h2
    have e1 : q.roots.filter (fun z => 0 < z.im ∧ ¬ z.im = 0) = upM :=
      Multiset.filter_congr fun z _ => ⟨fun h => h.1, fun h => ⟨h, ne_of_gt h⟩⟩
    have e2 : q.roots.filter (fun z => ¬ 0 < z.im ∧ ¬ z.im = 0) = loM :=
      Multiset.filter_congr fun z _ => ⟨fun h => lt_of_le_of_ne (not_lt.mp h.1) h.2, fun h => ⟨not_lt.mpr h.le, ne_of_lt h⟩⟩
    rw [e1, e2] at h2
    rw [h2]; exact h1
  refine ⟨reM.toList, upM.toList, ?_, ?_, ?_, ?_⟩
  · have hc : q.roots.card = q.natDegree := hsplit.natDegree_eq_card_roots.symm
    rw [← hsum, hlo] at hc
    simp only [Multiset.card_add, Multiset.card_map] at hc
    rw [Multiset.length_toList, Multiset.length_toList, ← Polynomial.natDegree_map (p := p) Complex.ofRealHom, ← hq, ← hc]
    ring
  · intro z hz
    exact (Multiset.mem_filter.mp (Multiset.mem_toList.mp hz)).2
  · intro z hz
    exact (Multiset.mem_filter.mp (Multiset.mem_toList.mp hz)).2
  · rw [List.prod_map_mul, ← Multiset.prod_coe, ← Multiset.prod_coe, ← Multiset.prod_coe, ← Multiset.map_coe, ← Multiset.map_coe, ← Multiset.map_coe,
      Multiset.coe_toList, Multiset.coe_toList]
    have : (upM.map fun z => Polynomial.X - Polynomial.C ((starRingEnd ℂ) z)).prod = (loM.map fun z => Polynomial.X - Polynomial.C z).prod := by
      rw [hlo, Multiset.map_map]; rfl
    rw [this, ← Multiset.prod_add, ← Multiset.prod_add, ← Multiset.map_add, ← Multiset.map_add, hsum, hprod]

theorem prod_range_two_mul {M : Type*} [CommMonoid M] (f : ℕ → M) (u : ℕ) : ∏ i ∈ Finset.range (2 * u), f i = ∏ k ∈ Finset.range u, f (2 * k) * f (2 * k + 1) := by
  induction u with
  | zero => simp
  | succ u ih =>
    rw [show 2 * (u + 1) = 2 * u + 1 + 1 by ring, Finset.prod_range_succ, Finset.prod_range_succ, Finset.prod_range_succ, ih, mul_assoc]

theorem prod_range_getD {α M : Type*} [CommMonoid M] (l : List α) (d : α) (f : α → M) : ∏ i ∈ Finset.range l.length, f (l.getD i d) = (l.map f).prod := by
  induction l with
  | nil => simp
  | cons a l ih => rw [List.length_cons, Finset.prod_range_succ', List.map_cons, List.prod_cons, ← ih, mul_comm]; rfl

/-- `EigvalsContract` can be met. -/
theorem eigvals_exists : ∃ eigvals, EigvalsContract eigvals := by
  have : ∀ n (M : RArr), ∃ ev : ℕ → ℂ,
      ((toMatrix n n M).map Complex.ofReal).charpoly = ∏ i ∈ Finset.range n, (Polynomial.X - Polynomial.C (ev i)) ∧
      ∃ pairs : List ℕ, (∀ i < n, (ev i).im = 0 ∨ i ∈ pairs ∨ ∃ j ∈ pairs, i = j + 1) ∧
        (∀ i ∈ pairs, i + 1 < n ∧ 0 < (ev i).im ∧ ev (i + 1) = (starRingEnd ℂ) (ev i)) ∧
        pairs.Pairwise fun i j => i + 1 < j ∨ j + 1 < i := by
    intro n M
    obtain ⟨re, up, hlen, hre, hup, hprod⟩ := exists_paired_roots (toMatrix n n M).charpoly (charpoly_monic _)
    have hdeg : (toMatrix n n M).charpoly.natDegree = n := by rw [charpoly_natDegree_eq_dim]; simp
    rw [hdeg] at hlen
    let r := re.length
    let u := up.length
    let ev : ℕ → ℂ := fun i => if i < r then re.getD i 0 else if (i - r) % 2 = 0 then up.getD ((i - r) / 2) 0 else (starRingEnd ℂ) (up.getD ((i - r) / 2) 0)
    have ev1 : ∀ i < r, ev i = re.getD i 0 := fun i hi => by simp only [ev, hi, if_true]
    have ev2 : ∀ k, ev (r + 2 * k) = up.getD k 0 := fun k => by
      simp only [ev]
      rw [if_neg (by omega), if_pos (by omega), show (r + 2 * k - r) / 2 = k by omega]
    have ev3 : ∀ k, ev (r + (2 * k + 1)) = (starRingEnd ℂ) (up.getD k 0) := fun k => by
      simp only [ev]
      rw [if_neg (by omega), if_neg (by omega), show (r + (2 * k + 1) - r) / 2 = k by omega]
    refine ⟨ev, ?_, (List.range u).map fun k => r + 2 * k, ?_, ?_, ?_⟩
    · have h1 : ((toMatrix n n M).map Complex.ofReal).charpoly = (toMatrix n n M).charpoly.map Complex.ofRealHom := charpoly_map (toMatrix n n M) Complex.ofRealHom
      rw [h1, hprod, ← hlen, Finset.prod_range_add, prod_range_two_mul]
      congr 1
      · rw [← prod_range_getD re 0]
        exact Finset.prod_congr rfl fun i hi => by rw [ev1 i (Finset.mem_range.mp hi)]
      · rw [← prod_range_getD up 0]
        exact Finset.prod_congr rfl fun k _ => by rw [ev2 k, ev3 k]
    · intro i hi
      by_cases h : i < r
      · left
        rw [ev1 i h]
        apply hre
        rw [List.getD_eq_getElem _ _ h]
        exact List.getElem_mem h
      · right
        have hk : (i - r) / 2 < u := by omega
        rcases Nat.mod_two_eq_zero_or_one (i - r) with h2 | h2
        · left
          exact List.mem_map.mpr ⟨(i - r) / 2, List.mem_range.mpr hk, by omega⟩
        · right
          exact ⟨r + 2 * ((i - r) / 2), List.mem_map.mpr ⟨(i - r) / 2, List.mem_range.mpr hk, rfl⟩, by omega⟩
    · intro i hi
      obtain ⟨k, hk, rfl⟩ := List.mem_map.mp hi
      have hk' : k < u := List.mem_range.mp hk
      refine ⟨by omega, ?_, ?_⟩
      · rw [ev2]
        apply hup
        rw [List.getD_eq_getElem _ _ hk']
        exact List.getElem_mem hk'
      · rw [ev2, show r + 2 * k + 1 = r + (2 * k + 1) by ring, ev3]
    · rw [List.pairwise_map]
      exact List.pairwise_lt_range.imp fun h => Or.inl (by omega)
  choose f hf using this
  exact ⟨f, hf⟩

end Verif.Props
