/-
C38, C62: the checks on covariance matrices decide the uncertainty relation, purity and classicality, and `find_classical_subsystem` returns
the largest classical prefix.
-/
import Verif.Model.GaussianChecks
import Verif.Model.Tolerance
import Verif.Spec.Physical
import Verif.Lemmas.Symplectic
import Verif.Props.SymplecticStates
import Verif.Props.Conversions
import Mathlib.Analysis.Matrix.PosDef
import Mathlib.Analysis.Matrix.Order

set_option linter.unusedSimpArgs false
set_option linter.unusedSectionVars false

namespace Verif.Props
open Verif Verif.Model Verif.Model.Symp Verif.Model.Checks Verif.Spec Verif.Lemmas.Symp
open Matrix Unitary
open scoped ComplexOrder

/-! ### eigenvalues -/

theorem posDef_shift_iff {n : Type*} [Fintype n] [DecidableEq n] {A : Matrix n n ℂ} (hA : A.IsHermitian) (t : ℝ) :
    (A + (t : ℂ) • (1 : Matrix n n ℂ)).PosDef ↔ ∀ i, -t < hA.eigenvalues i := by
  have h : A + (t : ℂ) • (1 : Matrix n n ℂ) = conjStarAlgAut ℂ _ hA.eigenvectorUnitary (diagonal fun i => ((hA.eigenvalues i + t : ℝ) : ℂ)) := by
    have h1 : (diagonal fun i => ((hA.eigenvalues i + t : ℝ) : ℂ)) = diagonal (RCLike.ofReal ∘ hA.eigenvalues) + (t : ℂ) • (1 : Matrix n n ℂ) := by
      rw [← diagonal_one, ← diagonal_smul, diagonal_add]
      congr 1
      funext i
      simp
    rw [h1, map_add, map_smul, map_one, ← hA.spectral_theorem]
  rw [h]
  simp only [conjStarAlgAut_apply]
  rw [isUnit_coe.posDef_star_right_conjugate_iff, posDef_diagonal_iff]
  refine forall_congr' fun i => ?_
  rw [Complex.zero_lt_real]
  constructor <;> intro h <;> linarith

/-- What the eigenvalue test decides: positive semidefinite up to the tolerance. -/
theorem nonnegEig_iff (n : ℕ) (A : ℕ → ℕ → ℂ) (atol : ℝ) : nonnegEig n A atol = true ↔
    if 0 < atol then (lowerHerm n A + (atol : ℂ) • 1).PosDef else (lowerHerm n A).PosSemidef := by
  unfold nonnegEig
  simp only [decide_eq_true_eq]
  split_ifs with ha
  · rw [posDef_shift_iff (lowerHerm_isHermitian n A)]
    refine forall_congr' fun i => ?_
    by_cases h : |(lowerHerm_isHermitian n A).eigenvalues i| < atol
    · simp [h, (abs_lt.mp h).1]
    · rw [if_neg h]
      rw [not_lt] at h
      rcases abs_cases ((lowerHerm_isHermitian n A).eigenvalues i) with ⟨h1, h2⟩ | ⟨h1, h2⟩
      · exact ⟨fun _ => by linarith, fun _ => h2⟩
      · exact ⟨fun h' => by linarith [h'], fun h' => by rw [h1] at h; linarith⟩
  · rw [(lowerHerm_isHermitian n A).posSemidef_iff_eigenvalues_nonneg]
    refine forall_congr' fun i => ?_
    have : ¬ |(lowerHerm_isHermitian n A).eigenvalues i| < atol := by
      intro h
      exact ha (lt_of_le_of_lt (abs_nonneg _) h)
    rw [if_neg this]
    exact Iff.rfl

theorem lowerHerm_eq (n : ℕ) (A : ℕ → ℕ → ℂ) (hA : (toMatrix n n A).IsHermitian) : lowerHerm n A = toMatrix n n A := by
  ext i j
  have := congrFun (congrFun hA i) j
  simp only [conjTranspose_apply, toMatrix, of_apply] at this
  simp only [lowerHerm, toMatrix, of_apply]
  split_ifs with h1 h2
  · rfl
  · subst h2
    have h3 : (starRingEnd ℂ) (A i i) = A i i := this
    exact Complex.conj_eq_iff_re.mp h3
  · exact this

theorem toMatrix_submatrix_quad {K : Type} (N : ℕ) (A : ℕ → ℕ → K) :
    (toMatrix (2 * N) (2 * N) A).submatrix (quadEquiv N) (quadEquiv N) = phase N N A := rfl

theorem posSemidef_phase (N : ℕ) (A : ℕ → ℕ → ℂ) : (toMatrix (2 * N) (2 * N) A).PosSemidef ↔ (phase N N A).PosSemidef := by
  rw [← toMatrix_submatrix_quad]
  exact (posSemidef_submatrix_equiv (quadEquiv N)).symm

theorem omega_eq (N : ℕ) : phase N N (sympmat N : ℕ → ℕ → ℂ) = omega N := phase_sympmat N

theorem phase_uncertainty (N : ℕ) (cov : ℕ → ℕ → ℝ) (hbar : ℝ) :
    phase N N (fun i j => (cov i j : ℂ) + 1 / 2 * Complex.I * hbar * sympmat N i j) =
      (phase N N cov).map Complex.ofReal + (Complex.I * (hbar / 2 : ℝ)) • omega N := by
  rw [← omega_eq]
  ext p q
  simp only [phase, of_apply, Matrix.add_apply, map_apply, Matrix.smul_apply, smul_eq_mul]
  push_cast
  ring

theorem omega_conjTranspose (N : ℕ) : (omega N)ᴴ = -omega N := by
  unfold omega Matrix.J
  ext p q
  rcases p with p | p <;> rcases q with q | q <;> simp [conjTranspose_apply, Matrix.one_apply, apply_ite, eq_comm]

theorem uncertainty_hermitian (N : ℕ) (V : Matrix (Fin N ⊕ Fin N) (Fin N ⊕ Fin N) ℝ) (hV : V.IsSymm) (hbar : ℝ) :
    (V.map Complex.ofReal + (Complex.I * (hbar / 2 : ℝ)) • omega N).IsHermitian := by
  unfold Matrix.IsHermitian
  rw [conjTranspose_add, conjTranspose_smul, omega_conjTranspose]
  congr 1
  · ext p q
    have := congrFun (congrFun hV p) q
    simp only [transpose_apply] at this
    simp [conjTranspose_apply, this]
  · rw [smul_neg, ← neg_smul]
    congr 1
    simp [Complex.conj_ofReal]

theorem isSymm_phase (N : ℕ) (cov : ℕ → ℕ → ℝ) : (phase N N cov).IsSymm ↔ ∀ i < 2 * N, ∀ j < 2 * N, cov i j = cov j i := by
  have := phase_ext_iff N N (tr cov) cov
  rw [phase_tr] at this
  refine this.trans ?_
  constructor
  · intro h i hi j hj; exact (h j hj i hi)
  · intro h i hi j hj; exact (h j hj i hi)

theorem hermitian_phase_iff (N : ℕ) (A : ℕ → ℕ → ℂ) (h : (phase N N A).IsHermitian) : (toMatrix (2 * N) (2 * N) A).IsHermitian := by
  rw [← toMatrix_submatrix_quad] at h
  have h2 := h.submatrix (quadEquiv N).symm
  simpa [submatrix_submatrix] using h2

/-- C62: with exact comparisons `is_valid_cov` accepts exactly the matrices that satisfy the uncertainty relation. -/
theorem isValidCov_exact (close : ℝ → ℝ → Bool) (hc : ∀ x y, close x y = true ↔ x = y) (n m : ℕ) (cov : ℕ → ℕ → ℝ) (hbar : ℝ) :
    isValidCov close n m cov hbar 0 = true ↔ n = m ∧ ∃ N, n = 2 * N ∧ Physical (phase N N cov) hbar := by
  unfold isValidCov
  by_cases hnm : n = m
  · subst hnm
    simp only [ne_eq, not_true, if_false, true_and]
    by_cases hsym : allClose2 close n n cov (tr cov) = true
    · simp only [hsym, not_true, if_false]
      rw [allClose2_iff] at hsym
      by_cases hev : n % 2 = 0
      · obtain ⟨N, rfl⟩ : ∃ N, n = 2 * N := ⟨n / 2, by omega⟩
        rw [if_neg (by omega), nonnegEig_iff, if_neg (lt_irrefl _), show 2 * N / 2 = N by omega]
        have hs : (phase N N cov).IsSymm := (isSymm_phase N cov).mpr fun i hi j hj => (hc _ _).mp (hsym i hi j hj)
        have hh := uncertainty_hermitian N _ hs hbar
        rw [← phase_uncertainty] at hh
        rw [lowerHerm_eq _ _ (hermitian_phase_iff N _ hh), posSemidef_phase, phase_uncertainty]
        constructor
        · intro h; exact ⟨N, rfl, hs, h⟩
        · rintro ⟨N', h, -, h2⟩
          obtain rfl : N = N' := by omega
          exact h2
      · rw [if_pos hev]
        simp only [Bool.false_eq_true, false_iff]
        rintro ⟨N, rfl, -⟩
        omega
    · simp only [hsym, not_false_iff, if_true, Bool.false_eq_true, false_iff]
      rintro ⟨N, rfl, hs, -⟩
      apply hsym
      rw [allClose2_iff]
      intro i hi j hj
      exact (hc _ _).mpr ((isSymm_phase N cov).mp hs i hi j hj)
  · simp [hnm]

theorem real_posSemidef_map {n : Type*} [Fintype n] [DecidableEq n] (M : Matrix n n ℝ) : (M.map Complex.ofReal).PosSemidef ↔ M.PosSemidef := by
  constructor
  · intro h
    refine Matrix.PosSemidef.of_dotProduct_mulVec_nonneg ?_ fun x => ?_
    · ext i j
      have := congrFun (congrFun h.1 i) j
      simpa [conjTranspose_apply] using this
    · have := h.dotProduct_mulVec_nonneg fun i => (x i : ℂ)
      have e : star (fun i => (x i : ℂ)) ⬝ᵥ (M.map Complex.ofReal) *ᵥ (fun i => (x i : ℂ)) = ((star x ⬝ᵥ M *ᵥ x : ℝ) : ℂ) := by
        simp only [dotProduct, mulVec, Pi.star_apply, map_apply, RCLike.star_def, Complex.conj_ofReal, star_trivial]
        push_cast
        rfl
      rw [e] at this
      exact Complex.zero_le_real.mp this
  · intro h
    obtain ⟨B, rfl⟩ : ∃ B : Matrix n n ℝ, M = Bᴴ * B := by
      open scoped MatrixOrder in
      obtain ⟨B, hB⟩ := CStarAlgebra.nonneg_iff_eq_star_mul_self.mp h.nonneg
      exact ⟨B, hB⟩
    have : (Bᴴ * B).map Complex.ofReal = (B.map Complex.ofReal)ᴴ * B.map Complex.ofReal := by
      ext i j
      simp [Matrix.mul_apply, conjTranspose_apply]
    rw [this]
    exact posSemidef_conjTranspose_mul_self _

/-- C62: with exact comparisons `is_classical_cov` accepts exactly the physical matrices with `V ≥ ħ/2`. -/
theorem isClassicalCov_exact (close : ℝ → ℝ → Bool) (hc : ∀ x y, close x y = true ↔ x = y) (n m : ℕ) (cov : ℕ → ℕ → ℝ) (hbar : ℝ) :
    isClassicalCov close n m cov hbar 0 = true ↔ n = m ∧ ∃ N, n = 2 * N ∧ Classical (phase N N cov) hbar := by
  unfold isClassicalCov
  by_cases hv : isValidCov close n m cov hbar 0 = true
  · rw [if_pos hv]
    obtain ⟨rfl, N, rfl, hp⟩ := (isValidCov_exact close hc n m cov hbar).mp hv
    rw [nonnegEig_iff, if_neg (lt_irrefl _)]
    have e : phase N N (fun i j => (cov i j : ℂ) - 1 / 2 * hbar * eye i j) =
        ((phase N N cov) - (hbar / 2) • (1 : Matrix (Fin N ⊕ Fin N) (Fin N ⊕ Fin N) ℝ)).map Complex.ofReal := by
      have h1 := phase_eye (K := ℂ) N
      ext p q
      have h2 := congrFun (congrFun h1 p) q
      simp only [phase, of_apply] at h2
      simp only [phase, of_apply, map_apply, Matrix.sub_apply, Matrix.smul_apply, smul_eq_mul, h2, Matrix.one_apply]
      push_cast
      split_ifs <;> simp <;> ring
    have hherm : (phase N N (fun i j => (cov i j : ℂ) - 1 / 2 * hbar * eye i j)).IsHermitian := by
      rw [e]
      have hs : ((phase N N cov) - (hbar / 2) • (1 : Matrix (Fin N ⊕ Fin N) (Fin N ⊕ Fin N) ℝ)).IsSymm := by
        unfold Matrix.IsSymm
        rw [transpose_sub, transpose_smul, transpose_one, hp.1.eq]
      ext p q
      have := congrFun (congrFun hs p) q
      simp only [transpose_apply] at this
      simp [conjTranspose_apply, ← this]
    rw [lowerHerm_eq _ _ (hermitian_phase_iff N _ hherm), posSemidef_phase, e, real_posSemidef_map]
    constructor
    · intro h; exact ⟨rfl, N, rfl, hp, h⟩
    · rintro ⟨-, N', h, -, h2⟩
      obtain rfl : N = N' := by omega
      exact h2
  · rw [if_neg hv]
    simp only [Bool.false_eq_true, false_iff]
    rintro ⟨rfl, N, rfl, hp, -⟩
    exact hv ((isValidCov_exact close hc _ _ cov hbar).mpr ⟨rfl, N, rfl, hp⟩)

/-- C62: with exact comparisons `is_pure_cov` accepts exactly the physical matrices with unit purity. -/
theorem isPureCov_exact (close : ℝ → ℝ → Bool) (hc : ∀ x y, close x y = true ↔ x = y) (n m : ℕ) (cov : ℕ → ℕ → ℝ) (hbar : ℝ) :
    isPureCov close n m cov hbar 0 = true ↔ n = m ∧ ∃ N, n = 2 * N ∧ Physical (phase N N cov) hbar ∧ ((2 / hbar) • phase N N cov).det = 1 := by
  unfold isPureCov
  have hdet : ∀ N, (toMatrix (2 * N) (2 * N) fun i j => 2 * cov i j / hbar).det = ((2 / hbar) • phase N N cov).det := by
    intro N
    rw [← det_submatrix_equiv_self (quadEquiv N), toMatrix_submatrix_quad]
    congr 1
    ext p q
    simp only [phase, of_apply, Matrix.smul_apply, smul_eq_mul]
    ring
  have hsq : ∀ x : ℝ, 1 / Real.sqrt x = 1 ↔ x = 1 := by
    intro x
    constructor
    · intro h
      have hs : Real.sqrt x = 1 := by
        have h0 : Real.sqrt x ≠ 0 := by
          intro h0; rw [h0] at h; simp at h
        field_simp at h
        exact h.symm
      rwa [Real.sqrt_eq_one] at hs
    · rintro rfl; simp
  by_cases hv : isValidCov close n m cov hbar 0 = true
  · rw [if_pos hv]
    obtain ⟨rfl, N, rfl, hp⟩ := (isValidCov_exact close hc n m cov hbar).mp hv
    simp only [hdet]
    constructor
    · intro h
      split_ifs at h with h1
      rw [hc, hsq] at h1
      exact ⟨trivial, N, rfl, hp, h1⟩
    · rintro ⟨-, N', h, -, h2⟩
      obtain rfl : N = N' := by omega
      rw [if_pos ((hc _ _).mpr ((hsq _).mpr h2))]
  · rw [if_neg hv]
    simp only [Bool.false_eq_true, false_iff]
    rintro ⟨rfl, N, rfl, hp, -⟩
    exact hv ((isValidCov_exact close hc _ _ cov hbar).mpr ⟨rfl, N, rfl, hp⟩)

/-! ### C38: subsystems -/

theorem nonnegEig_sub (n n' : ℕ) (A A' : ℕ → ℕ → ℂ) (f : ℕ → ℕ) (hf : ∀ i < n', f i < n) (hmono : ∀ i < n', ∀ j < n', f j < f i ↔ j < i)
    (hA : ∀ i < n', ∀ j < n', A' i j = A (f i) (f j)) (atol : ℝ) (h : nonnegEig n A atol = true) : nonnegEig n' A' atol = true := by
  rw [nonnegEig_iff] at h ⊢
  let e : Fin n' → Fin n := fun i => ⟨f i, hf i i.2⟩
  have he : Function.Injective e := by
    intro a b hab
    have hab' : f a = f b := congrArg Fin.val hab
    have h1 := hmono a a.2 b b.2
    have h2 := hmono b b.2 a a.2
    exact Fin.ext (by omega)
  have hl : lowerHerm n' A' = (lowerHerm n A).submatrix e e := by
    ext i j
    simp only [lowerHerm, submatrix_apply, of_apply]
    have h1 : ((e j : Fin n) : ℕ) < e i ↔ (j : ℕ) < i := hmono i i.2 j j.2
    have h2 : e i = e j ↔ i = j := he.eq_iff
    simp only [h1, h2, hA i i.2 j j.2, hA i i.2 i i.2, hA j j.2 i i.2]
    rfl
  split_ifs at h ⊢ with ha
  · have := h.submatrix he
    rw [hl]
    convert this using 1
    ext i j
    simp [Matrix.add_apply, Matrix.smul_apply, Matrix.one_apply, he.eq_iff]
  · rw [hl]
    exact h.submatrix e

/-- The covariance matrix of the first `k` of `N` modes. -/
def prefixCov {K : Type} (N k : ℕ) (cov : ℕ → ℕ → K) : ℕ → ℕ → K := fun i j =>
  cov (if i < k then i else N + (i - k)) (if j < k then j else N + (j - k))

theorem prefixCov_phase {K : Type} (N k : ℕ) (hk : k ≤ N) (cov : ℕ → ℕ → K) :
    phase k k (prefixCov N k cov) = (phase N N cov).submatrix (Sum.map (Fin.castLE hk) (Fin.castLE hk)) (Sum.map (Fin.castLE hk) (Fin.castLE hk)) := by
  ext p q
  rcases p with p | p <;> rcases q with q | q <;> simp [phase, prefixCov, quad]

theorem sympmat_prefix {K : Type} [Field K] (N k : ℕ) (hk : k ≤ N) (i j : ℕ) (hi : i < 2 * k) (hj : j < 2 * k) :
    (sympmat k : ℕ → ℕ → K) i j = (sympmat N : ℕ → ℕ → K) (if i < k then i else N + (i - k)) (if j < k then j else N + (j - k)) := by
  unfold sympmat block
  by_cases h1 : i < k <;> by_cases h2 : j < k
  · have h3 : i < N := by omega
    have h4 : j < N := by omega
    simp [h1, h2, h3, h4]
  · have h3 : i < N := by omega
    simp [h1, h2, h3]
  · have h4 : j < N := by omega
    simp [h1, h2, h4]
  · simp [h1, h2]

theorem prefix_mono (N k : ℕ) (hk : k ≤ N) (i j : ℕ) (hi : i < 2 * k) (hj : j < 2 * k) :
    (if j < k then j else N + (j - k)) < (if i < k then i else N + (i - k)) ↔ j < i := by
  split_ifs <;> omega

/-- Classicality, with any tolerance, is inherited by the first modes. -/
theorem isClassicalCov_prefix (close : ℝ → ℝ → Bool) (N k : ℕ) (hk : k ≤ N) (cov : ℕ → ℕ → ℝ) (hbar atol : ℝ)
    (h : isClassicalCov close (2 * N) (2 * N) cov hbar atol = true) :
    isClassicalCov close (2 * k) (2 * k) (prefixCov N k cov) hbar atol = true := by
  have hlt : ∀ i < 2 * k, (if i < k then i else N + (i - k)) < 2 * N := by
    intro i hi; split_ifs <;> omega
  unfold isClassicalCov at h ⊢
  split_ifs at h with hv
  unfold isValidCov at hv ⊢
  simp only [ne_eq, not_true, if_false, Nat.mul_mod_right] at hv ⊢
  split_ifs at hv with h1
  rw [allClose2_iff] at h1
  have hc : allClose2 close (2 * k) (2 * k) (prefixCov N k cov) (tr (prefixCov N k cov)) = true := by
    rw [allClose2_iff]
    intro i hi j hj
    exact h1 _ (hlt i hi) _ (hlt j hj)
  rw [hc]
  simp only [not_true, if_false]
  rw [show 2 * N / 2 = N by omega] at hv
  rw [show 2 * k / 2 = k by omega]
  have hvk := nonnegEig_sub (2 * N) (2 * k) _ (fun i j => ((prefixCov N k cov i j : ℝ) : ℂ) + 1 / 2 * Complex.I * hbar * sympmat k i j)
    (fun i => if i < k then i else N + (i - k)) hlt (fun i hi j hj => prefix_mono N k hk i j hi hj)
    (fun i hi j hj => by rw [sympmat_prefix N k hk i j hi hj]; rfl) atol hv
  rw [if_pos hvk]
  refine nonnegEig_sub (2 * N) (2 * k) _ _ (fun i => if i < k then i else N + (i - k)) hlt (fun i hi j hj => prefix_mono N k hk i j hi hj)
    (fun i hi j hj => ?_) atol h
  have he : (eye i j : ℂ) = eye (if i < k then i else N + (i - k)) (if j < k then j else N + (j - k)) := by
    have a := prefix_mono N k hk i j hi hj
    have b := prefix_mono N k hk j i hj hi
    unfold eye
    refine if_congr ?_ rfl rfl
    omega
  rw [he]
  rfl

theorem isClassicalCov_congr (close : ℝ → ℝ → Bool) (n : ℕ) (cov cov' : ℕ → ℕ → ℝ) (h : ∀ i < n, ∀ j < n, cov i j = cov' i j) (hbar atol : ℝ) :
    isClassicalCov close n n cov hbar atol = isClassicalCov close n n cov' hbar atol := by
  have key : ∀ cov cov' : ℕ → ℕ → ℝ, (∀ i < n, ∀ j < n, cov i j = cov' i j) → isClassicalCov close n n cov hbar atol = true →
      isClassicalCov close n n cov' hbar atol = true := by
    intro cov cov' h hcl
    unfold isClassicalCov at hcl ⊢
    split_ifs at hcl with hv
    unfold isValidCov at hv ⊢
    simp only [ne_eq, not_true, if_false] at hv ⊢
    split_ifs at hv with h1 h2
    rw [allClose2_iff] at h1
    have hc : allClose2 close n n cov' (tr cov') = true := by
      rw [allClose2_iff]
      intro i hi j hj
      have := h1 i hi j hj
      simp only [tr] at this ⊢
      rwa [h i hi j hj, h j hj i hi] at this
    simp only [hc, h2, not_true, if_false]
    rw [if_pos]
    · exact nonnegEig_sub n n _ _ id (fun i hi => hi) (fun i _ j _ => Iff.rfl) (fun i hi j hj => by simp only [id, h i hi j hj]) atol hcl
    · exact nonnegEig_sub n n _ _ id (fun i hi => hi) (fun i _ j _ => Iff.rfl) (fun i hi j hj => by simp only [id, h i hi j hj]) atol hv
  rw [Bool.eq_iff_iff]
  exact ⟨key cov cov' h, key cov' cov fun i hi j hj => (h i hi j hj).symm⟩

theorem reduced_prefix (N k : ℕ) (hk : k < N) (s : GState ℝ) (hs : s.len = 2 * N) :
    ∃ r, reducedGaussian s (List.range (k + 1)) = .ok r ∧ r.len = 2 * (k + 1) ∧
      ∀ i < 2 * (k + 1), ∀ j < 2 * (k + 1), r.cov i j = prefixCov N (k + 1) s.cov i j := by
  unfold reducedGaussian
  rw [hs, show 2 * N / 2 = N by omega]
  have hany : ((List.range (k + 1)).any fun x => decide (x > N)) = false := by
    rw [List.any_eq_false]
    intro x hx
    have := List.mem_range.mp hx
    simp; omega
  simp only [hany, Bool.false_eq_true, if_false, List.length_range]
  by_cases hkN : k + 1 = N
  · rw [if_pos hkN]
    refine ⟨s, rfl, by omega, fun i hi j hj => ?_⟩
    unfold prefixCov
    congr 1 <;> split_ifs <;> omega
  · rw [if_neg hkN]
    unfold gather
    rw [hs, show 2 * N / 2 = N by omega]
    have hany2 : ((List.range (k + 1) ++ (List.range (k + 1)).map (· + N)).any fun x => decide (x ≥ 2 * N)) = false := by
      rw [List.any_eq_false]
      intro x hx
      simp only [List.mem_append, List.mem_range, List.mem_map] at hx
      simp only [ge_iff_le, decide_eq_true_eq, not_le]
      rcases hx with h | ⟨y, h, rfl⟩ <;> omega
    have hne : List.range (k + 1) ≠ [] := by simp
    simp only [hany2, hne, Bool.false_eq_true, or_self, if_false]
    have hget : ∀ i < 2 * (k + 1), (List.range (k + 1) ++ (List.range (k + 1)).map (· + N)).getD i 0 = if i < k + 1 then i else N + (i - (k + 1)) := by
      intro i hi
      rw [List.getD_eq_getElem _ _ (by simp; omega), List.getElem_append]
      by_cases h : i < k + 1
      · simp [h]
      · simp [h]; omega
    refine ⟨_, rfl, by simp; omega, fun i hi j hj => ?_⟩
    simp only [hget i hi, hget j hj]
    rfl

/-- C38: `find_classical_subsystem` returns the largest `k` such that the first `k` modes pass the classicality test, for every tolerance. -/
theorem findClassicalSubsystem_correct (close : ℝ → ℝ → Bool) (N : ℕ) (cov : ℕ → ℕ → ℝ) (hbar atol : ℝ) :
    ∃ k ≤ N, findClassicalSubsystem close (2 * N) cov hbar atol = .ok k ∧
      isClassicalCov close (2 * k) (2 * k) (prefixCov N k cov) hbar atol = true ∧
      ∀ k', k < k' → k' ≤ N → isClassicalCov close (2 * k') (2 * k') (prefixCov N k' cov) hbar atol = false := by
  have hN : ∀ cov' : ℕ → ℕ → ℝ, isClassicalCov close (2 * N) (2 * N) (prefixCov N N cov') hbar atol = isClassicalCov close (2 * N) (2 * N) cov' hbar atol := by
    intro cov'
    refine isClassicalCov_congr close _ _ _ (fun i hi j hj => ?_) _ _
    unfold prefixCov
    congr 1 <;> split_ifs <;> omega
  unfold findClassicalSubsystem
  by_cases hcl : isClassicalCov close (2 * N) (2 * N) cov hbar atol = true
  · rw [if_pos hcl]
    refine ⟨N, le_rfl, ?_, by rw [hN]; exact hcl, fun k' h1 h2 => absurd h1 (by omega)⟩
    rw [show 2 * N / 2 = N by omega]
    rfl
  · rw [if_neg hcl]
    -- the loop, started at a classical prefix
    have loop : ∀ fuel k, k < N → N - k < fuel + 1 → isClassicalCov close (2 * k) (2 * k) (prefixCov N k cov) hbar atol = true →
        ∃ k' ≤ N, classicalLoop close { len := 2 * N, mu := fun _ => 0, cov := cov } hbar atol (fuel + 1) k = .ok k' ∧
          isClassicalCov close (2 * k') (2 * k') (prefixCov N k' cov) hbar atol = true ∧
          (isClassicalCov close (2 * (k' + 1)) (2 * (k' + 1)) (prefixCov N (k' + 1) cov) hbar atol = false ∧ k' < N) := by
      intro fuel
      induction fuel with
      | zero => intro k hk hfuel; omega
      | succ fuel ih =>
        intro k hk hfuel hpk
        obtain ⟨r, hr, hrl, hrc⟩ := reduced_prefix N k hk { len := 2 * N, mu := fun _ => 0, cov := cov } rfl
        rw [classicalLoop]
        simp only [hr, bind, Except.bind]
        have hcr : isClassicalCov close r.len r.len r.cov hbar atol =
            isClassicalCov close (2 * (k + 1)) (2 * (k + 1)) (prefixCov N (k + 1) cov) hbar atol := by
          rw [hrl]
          exact isClassicalCov_congr close _ _ _ hrc _ _
        rw [hcr]
        by_cases hk1 : isClassicalCov close (2 * (k + 1)) (2 * (k + 1)) (prefixCov N (k + 1) cov) hbar atol = true
        · rw [if_pos hk1]
          have hlt : k + 1 < N := by
            by_contra hcon
            have : k + 1 = N := by omega
            rw [this, hN] at hk1
            exact hcl hk1
          exact ih (k + 1) hlt (by omega) hk1
        · rw [if_neg hk1]
          exact ⟨k, hk.le, rfl, hpk, by simpa using hk1, hk⟩
    have h0 : isClassicalCov close (2 * 0) (2 * 0) (prefixCov N 0 cov) hbar atol = true := by
      unfold isClassicalCov isValidCov nonnegEig
      simp [allClose2_iff]
    have hpos : 0 < N := by
      rcases Nat.eq_zero_or_pos N with h | h
      · subst h
        rw [← hN] at hcl
        exact absurd h0 hcl
      · exact h
    obtain ⟨k, hk, hok, hclk, hk1, hkN⟩ := loop (2 * N) 0 hpos (by omega) h0
    refine ⟨k, hk, hok, hclk, fun k' h1 h2 => ?_⟩
    by_contra hcon
    rw [Bool.not_eq_false] at hcon
    have := isClassicalCov_prefix close k' (k + 1) (by omega) (prefixCov N k' cov) hbar atol hcon
    have e : ∀ i < 2 * (k + 1), ∀ j < 2 * (k + 1), prefixCov k' (k + 1) (prefixCov N k' cov) i j = prefixCov N (k + 1) cov i j := by
      intro i hi j hj
      unfold prefixCov
      congr 1 <;> split_ifs <;> omega
    rw [isClassicalCov_congr close _ _ _ e, hk1] at this
    exact absurd this (by simp)

/-- C38 with exact comparisons, in terms of the state: the first `k` modes are in a classical state, and no longer prefix is. -/
theorem findClassicalSubsystem_exact (close : ℝ → ℝ → Bool) (hc : ∀ x y, close x y = true ↔ x = y) (N : ℕ) (cov : ℕ → ℕ → ℝ) (hbar : ℝ) :
    ∃ k, findClassicalSubsystem close (2 * N) cov hbar 0 = .ok k ∧
      ∀ j (hj : j ≤ N), Classical ((phase N N cov).submatrix (Sum.map (Fin.castLE hj) (Fin.castLE hj)) (Sum.map (Fin.castLE hj) (Fin.castLE hj))) hbar ↔
        j ≤ k := by
  obtain ⟨k, hk, hok, h1, h2⟩ := findClassicalSubsystem_correct close N cov hbar 0
  refine ⟨k, hok, fun j hj => ?_⟩
  have hex : isClassicalCov close (2 * j) (2 * j) (prefixCov N j cov) hbar 0 = true ↔
      Classical ((phase N N cov).submatrix (Sum.map (Fin.castLE hj) (Fin.castLE hj)) (Sum.map (Fin.castLE hj) (Fin.castLE hj))) hbar := by
    rw [isClassicalCov_exact close hc, ← prefixCov_phase]
    constructor
    · rintro ⟨-, N', h, h'⟩
      obtain rfl : j = N' := by omega
      exact h'
    · intro h; exact ⟨rfl, j, rfl, h⟩
  rw [← hex]
  constructor
  · intro h
    by_contra hcon
    rw [h2 j (by omega) hj] at h
    exact absurd h (by simp)
  · intro hjk
    have := isClassicalCov_prefix close k j hjk (prefixCov N k cov) hbar 0 h1
    have e : ∀ a < 2 * j, ∀ b < 2 * j, prefixCov k j (prefixCov N k cov) a b = prefixCov N j cov a b := by
      intro a ha b hb
      unfold prefixCov
      congr 1 <;> split_ifs <;> omega
    rwa [isClassicalCov_congr close _ _ _ e] at this

end Verif.Props
