/-
C47: the pre-Iwasawa and Iwasawa decompositions.
-/
import Verif.Model.Decompositions
import Verif.Props.SymplecticStates
import Verif.Props.Conversions
import Verif.Lemmas.Symplectic
import Mathlib.Analysis.Matrix.PosDef
import Mathlib.Data.Real.StarOrdered

set_option linter.unusedSectionVars false
set_option linter.unusedSimpArgs false

namespace Verif.Props
open Verif.Model Verif.Model.Symp Verif.Model.Dec Verif.Spec Verif.Lemmas Verif.Lemmas.Symp Matrix

variable {N : ℕ}

/-- the block conditions for a symplectic matrix -/
theorem symp_block_iff {l : Type*} [Fintype l] [DecidableEq l] (A B C D : Matrix l l ℝ) :
    fromBlocks A B C D ∈ symplecticGroup l ℝ ↔ A * Bᵀ = B * Aᵀ ∧ A * Dᵀ - B * Cᵀ = 1 ∧ C * Dᵀ = D * Cᵀ := by
  rw [SymplecticGroup.mem_iff, J, fromBlocks_transpose, fromBlocks_multiply, fromBlocks_multiply, fromBlocks_inj]
  simp only [Matrix.mul_zero, Matrix.mul_one, zero_add, add_zero, Matrix.mul_neg, Matrix.neg_mul]
  constructor
  · rintro ⟨h1, h2, h3, h4⟩
    refine ⟨?_, ?_, ?_⟩
    · rw [← sub_eq_add_neg, sub_eq_zero] at h1; exact h1.symm
    · rw [← neg_inj, neg_sub, ← h2]; abel
    · rw [← sub_eq_add_neg, sub_eq_zero] at h4; exact h4.symm
  · rintro ⟨h1, h2, h3⟩
    refine ⟨by rw [h1]; abel, by rw [← h2]; abel, ?_, by rw [h3]; abel⟩
    have := congrArg Matrix.transpose h2
    rw [transpose_sub, transpose_mul, transpose_mul, transpose_transpose, transpose_transpose, transpose_one] at this
    rw [← this]; abel

theorem toMatrix_mmul {K : Type} [Field K] (a b c : ℕ) (A B : ℕ → ℕ → K) : toMatrix a c (mmul b A B) = toMatrix a b A * toMatrix b c B := by
  ext i j
  simp only [toMatrix, of_apply, mmul, dot_sum, Matrix.mul_apply]
  rw [Finset.sum_range]

theorem toMatrix_tr {K : Type} [Field K] (a b : ℕ) (A : ℕ → ℕ → K) : toMatrix a b (tr A) = (toMatrix b a A)ᵀ := rfl

theorem toMatrix_add {K : Type} [Field K] (a b : ℕ) (A B : ℕ → ℕ → K) : toMatrix a b (fun i j => A i j + B i j) = toMatrix a b A + toMatrix a b B := rfl

theorem toMatrix_ofMatrix {K : Type} [Zero K] (n : ℕ) (A : Matrix (Fin n) (Fin n) K) : toMatrix n n (Verif.ofMatrix A fun _ _ => 0) = A := by
  ext i j; simp [toMatrix, Verif.ofMatrix]

theorem npInvR_ok (n : ℕ) (A : RArr) (h : (toMatrix n n A).det ≠ 0) : ∃ B, npInvR n A = .ok B ∧ toMatrix n n B = (toMatrix n n A)⁻¹ :=
  ⟨_, by rw [npInvR, if_neg h], toMatrix_ofMatrix n _⟩

/-- the four blocks of an array -/
theorem phase_fromBlocks {K : Type} (N : ℕ) (S : ℕ → ℕ → K) : phase N N S = fromBlocks (toMatrix N N S) (toMatrix N N fun i j => S i (N + j))
    (toMatrix N N fun i j => S (N + i) j) (toMatrix N N fun i j => S (N + i) (N + j)) := by
  ext p q; rcases p with p | p <;> rcases q with q | q <;> rfl

theorem phase_block' {K : Type} [Field K] (N : ℕ) (a b c d : ℕ → ℕ → K) :
    phase N N (block N N a b c d) = fromBlocks (toMatrix N N a) (toMatrix N N b) (toMatrix N N c) (toMatrix N N d) := phase_block N N a b c d

/-- the matrix identities behind the pre-Iwasawa decomposition -/
theorem pre_iwasawa_core {l : Type*} [Fintype l] [DecidableEq l] (A B C D A0 : Matrix l l ℝ) (hS : fromBlocks A B C D ∈ symplecticGroup l ℝ) (hp : A0.PosDef)
    (hA0 : A0 * A0 = A * Aᵀ + B * Bᵀ) :
    let X := A0⁻¹ * A
    let Y := A0⁻¹ * B
    let C0 := (C * Aᵀ + D * Bᵀ) * A0⁻¹
    let E := fromBlocks 1 0 (C0 * A0⁻¹) 1
    let D' := fromBlocks A0 0 0 A0⁻¹
    let F := fromBlocks X Y (-Y) X
    E * D' * F = fromBlocks A B C D ∧ E ∈ symplecticGroup l ℝ ∧ D' ∈ symplecticGroup l ℝ ∧ F ∈ symplecticGroup l ℝ ∧ F ∈ orthogonalGroup (l ⊕ l) ℝ ∧
      (C0 * A0⁻¹).IsSymm := by
  intro X Y C0 E D' F
  obtain ⟨h1, h2, h3⟩ := (symp_block_iff A B C D).mp hS
  have hu : IsUnit A0.det := isUnit_iff_ne_zero.mpr hp.det_pos.ne'
  have hsym : A0ᵀ = A0 := by have := hp.1; rwa [IsHermitian, conjTranspose_eq_transpose_of_trivial] at this
  have hisym : A0⁻¹ᵀ = A0⁻¹ := by rw [transpose_nonsing_inv, hsym]
  have hi1 : A0 * A0⁻¹ = 1 := mul_nonsing_inv _ hu
  have hi2 : A0⁻¹ * A0 = 1 := nonsing_inv_mul _ hu
  have hXt : Xᵀ = Aᵀ * A0⁻¹ := by simp only [X]; rw [transpose_mul, hisym]
  have hYt : Yᵀ = Bᵀ * A0⁻¹ := by simp only [Y]; rw [transpose_mul, hisym]
  have hXX : X * Xᵀ + Y * Yᵀ = 1 := by
    rw [hXt, hYt]; simp only [X, Y]
    calc A0⁻¹ * A * (Aᵀ * A0⁻¹) + A0⁻¹ * B * (Bᵀ * A0⁻¹) = A0⁻¹ * (A * Aᵀ + B * Bᵀ) * A0⁻¹ := by
          simp only [Matrix.mul_add, Matrix.add_mul, Matrix.mul_assoc]
      _ = 1 := by rw [← hA0, ← Matrix.mul_assoc, hi2, Matrix.one_mul, hi1]
  have hXY : X * Yᵀ = Y * Xᵀ := by
    rw [hXt, hYt]; simp only [X, Y]
    calc A0⁻¹ * A * (Bᵀ * A0⁻¹) = A0⁻¹ * (A * Bᵀ) * A0⁻¹ := by simp only [Matrix.mul_assoc]
      _ = _ := by rw [h1]; simp only [Matrix.mul_assoc]
  have hFF : F * Fᵀ = 1 := by
    simp only [F]
    rw [fromBlocks_transpose, fromBlocks_multiply, ← fromBlocks_one]
    congr 1
    · rw [transpose_neg, Matrix.mul_neg, hXY]; abel
    · rw [Matrix.neg_mul, hXY]; abel
    · rw [transpose_neg, Matrix.neg_mul, Matrix.mul_neg, neg_neg, add_comm, hXX]
  have hFF' : Fᵀ * F = 1 := mul_eq_one_comm.mp hFF
  have hFo : F ∈ orthogonalGroup (l ⊕ l) ℝ := by rw [mem_orthogonalGroup_iff]; exact hFF
  have hFs : F ∈ symplecticGroup l ℝ := by
    simp only [F]
    rw [symp_block_iff]
    refine ⟨hXY, ?_, ?_⟩
    · rw [transpose_neg, Matrix.mul_neg, sub_neg_eq_add, hXX]
    · rw [transpose_neg, Matrix.mul_neg, Matrix.neg_mul, hXY]
  have hDs : D' ∈ symplecticGroup l ℝ := by
    simp only [D']
    rw [symp_block_iff]
    refine ⟨by simp, ?_, by simp⟩
    rw [hisym, hi1]; simp
  have hSF : fromBlocks A B C D * Fᵀ = E * D' := by
    simp only [F, E, D']
    rw [fromBlocks_transpose, fromBlocks_multiply, fromBlocks_multiply]
    congr 1
    · rw [hXt, hYt, ← Matrix.mul_assoc, ← Matrix.mul_assoc, ← Matrix.add_mul, ← hA0, Matrix.mul_assoc, hi1]; simp
    · rw [transpose_neg, hXt, hYt, Matrix.mul_neg, ← Matrix.mul_assoc, ← Matrix.mul_assoc, h1]; simp
    · rw [hXt, hYt, ← Matrix.mul_assoc, ← Matrix.mul_assoc, ← Matrix.add_mul, Matrix.mul_assoc C0, hi2]
      simp [C0]
    · rw [transpose_neg, hXt, hYt, Matrix.mul_neg, ← Matrix.mul_assoc, ← Matrix.mul_assoc, ← Matrix.neg_mul, ← Matrix.add_mul]
      have h5 : D * Aᵀ - C * Bᵀ = 1 := by
        have := congrArg Matrix.transpose h2
        rwa [transpose_sub, transpose_mul, transpose_mul, transpose_transpose, transpose_transpose, transpose_one] at this
      have : -(C * Bᵀ) + D * Aᵀ = 1 := by rw [← h5]; abel
      rw [this]; simp
  have hprod : E * D' * F = fromBlocks A B C D := by rw [← hSF, Matrix.mul_assoc, hFF', Matrix.mul_one]
  have hEs : E ∈ symplecticGroup l ℝ := by
    have e1 : E = fromBlocks A B C D * Fᵀ * fromBlocks A0⁻¹ 0 0 A0 := by
      rw [hSF, Matrix.mul_assoc]
      have : D' * fromBlocks A0⁻¹ 0 0 A0 = 1 := by
        simp only [D']; rw [fromBlocks_multiply, ← fromBlocks_one]; simp [hi1, hi2]
      rw [this, Matrix.mul_one]
    have hFt : Fᵀ ∈ symplecticGroup l ℝ := SymplecticGroup.transpose_mem hFs
    have hDi : fromBlocks A0⁻¹ 0 0 A0 ∈ symplecticGroup l ℝ := by
      rw [symp_block_iff]; refine ⟨by simp, ?_, by simp⟩
      rw [hsym, hi2]; simp
    rw [e1]
    exact mul_mem (mul_mem hS hFt) hDi
  refine ⟨hprod, hEs, hDs, hFs, hFo, ?_⟩
  have := ((symp_block_iff _ _ _ _).mp hEs).2.2
  rw [transpose_one, Matrix.mul_one, Matrix.one_mul] at this
  exact this.symm

theorem dotProduct_self_nonneg' {l : Type*} [Fintype l] (v : l → ℝ) : 0 ≤ v ⬝ᵥ v := Finset.sum_nonneg fun i _ => mul_self_nonneg (v i)

/-- `AAᵀ + BBᵀ` is positive definite for the upper blocks of a symplectic matrix -/
theorem upper_posDef {l : Type*} [Fintype l] [DecidableEq l] (A B C D : Matrix l l ℝ) (hS : fromBlocks A B C D ∈ symplecticGroup l ℝ) :
    (A * Aᵀ + B * Bᵀ).PosDef := by
  obtain ⟨h1, h2, h3⟩ := (symp_block_iff A B C D).mp hS
  have h4 : D * Aᵀ - C * Bᵀ = 1 := by
    have := congrArg Matrix.transpose h2
    rwa [transpose_sub, transpose_mul, transpose_mul, transpose_transpose, transpose_transpose, transpose_one] at this
  have hA : (A * Aᵀ).PosSemidef := by
    have := posSemidef_self_mul_conjTranspose A
    rwa [conjTranspose_eq_transpose_of_trivial] at this
  have hB : (B * Bᵀ).PosSemidef := by
    have := posSemidef_self_mul_conjTranspose B
    rwa [conjTranspose_eq_transpose_of_trivial] at this
  refine PosDef.of_dotProduct_mulVec_pos (hA.add hB).1 fun x hx => ?_
  rw [Matrix.add_mulVec, dotProduct_add]
  have e : ∀ M : Matrix l l ℝ, star x ⬝ᵥ ((M * Mᵀ) *ᵥ x) = (Mᵀ *ᵥ x) ⬝ᵥ (Mᵀ *ᵥ x) := by
    intro M
    rw [star_trivial, ← Matrix.mulVec_mulVec, Matrix.dotProduct_mulVec, ← Matrix.mulVec_transpose]
  rw [e, e]
  rcases (add_nonneg (dotProduct_self_nonneg' (Aᵀ *ᵥ x)) (dotProduct_self_nonneg' (Bᵀ *ᵥ x))).lt_or_eq with h | h
  · exact h
  · exfalso
    have ha : Aᵀ *ᵥ x = 0 := by
      rw [← dotProduct_self_eq_zero]
      have := dotProduct_self_nonneg' (Aᵀ *ᵥ x); have := dotProduct_self_nonneg' (Bᵀ *ᵥ x); linarith
    have hb : Bᵀ *ᵥ x = 0 := by
      rw [← dotProduct_self_eq_zero]
      have := dotProduct_self_nonneg' (Aᵀ *ᵥ x); have := dotProduct_self_nonneg' (Bᵀ *ᵥ x); linarith
    apply hx
    have := congrArg (· *ᵥ x) h4
    simp only [Matrix.sub_mulVec, ← Matrix.mulVec_mulVec, ha, hb, Matrix.mulVec_zero, sub_zero, Matrix.one_mulVec] at this
    exact this.symm

/-- C47: for every symplectic `S` of any size, `pre_iwasawa(S)` returns symplectic `E`, `D`, `F` with `E D F = S`, `E` lower block unitriangular with a symmetric
block, `D` block diagonal with mutually inverse positive definite blocks, `F` orthogonal. -/
theorem preIwasawa_correct (sqrtm : ℕ → RArr → RArr) (hsq : SqrtmContract sqrtm) (close : ℝ → ℝ → Bool) (hc : ∀ x, close x x = true) (N : ℕ) (S : RArr)
    (hS : IsSymp N S) : ∃ E D F, preIwasawa sqrtm close (2 * N) (2 * N) S = .ok (E, D, F) ∧ phase N N E * phase N N D * phase N N F = phase N N S ∧
      IsSymp N E ∧ IsSymp N D ∧ IsSymp N F ∧ phase N N F ∈ orthogonalGroup (Fin N ⊕ Fin N) ℝ ∧
      (∃ X : Matrix (Fin N) (Fin N) ℝ, X.IsSymm ∧ phase N N E = fromBlocks 1 0 X 1) ∧
      ∃ A0 : Matrix (Fin N) (Fin N) ℝ, A0.PosDef ∧ phase N N D = fromBlocks A0 0 0 A0⁻¹ ∧ toMatrix N N D = A0 := by
  unfold preIwasawa
  rw [isSymplecticQ_of close hc N S hS]
  have hn : 2 * N / 2 = N := by omega
  simp only [not_true, if_false, hn]
  have hS' : fromBlocks (toMatrix N N S) (toMatrix N N fun i j => S i (N + j)) (toMatrix N N fun i j => S (N + i) j) (toMatrix N N fun i j => S (N + i) (N + j)) ∈
      symplecticGroup (Fin N) ℝ := by rw [← phase_fromBlocks]; exact hS
  set A := toMatrix N N S with hA
  set B := toMatrix N N (fun i j => S i (N + j)) with hB
  set C := toMatrix N N (fun i j => S (N + i) j) with hC
  set D := toMatrix N N (fun i j => S (N + i) (N + j)) with hD
  have hG : toMatrix N N (fun i j => mmul N (fun i j => S i j) (tr fun i j => S i j) i j + mmul N (fun i j => S i (N + j)) (tr fun i j => S i (N + j)) i j) =
      A * Aᵀ + B * Bᵀ := by
    rw [toMatrix_add, toMatrix_mmul, toMatrix_mmul]; rfl
  obtain ⟨hp, hsq2⟩ := hsq N (fun i j => mmul N (fun i j => S i j) (tr fun i j => S i j) i j + mmul N (fun i j => S i (N + j)) (tr fun i j => S i (N + j)) i j)
    (by rw [hG]; exact upper_posDef A B C D hS')
  set A0a := sqrtm N (fun i j => mmul N (fun i j => S i j) (tr fun i j => S i j) i j + mmul N (fun i j => S i (N + j)) (tr fun i j => S i (N + j)) i j) with hA0a
  rw [hG] at hsq2
  have hp' : (toMatrix N N A0a).PosDef := hp
  obtain ⟨Ai, hAi, hAim⟩ := npInvR_ok N A0a hp'.det_pos.ne'
  simp only [bind, Except.bind, pure, Except.pure, hAi]
  refine ⟨_, _, _, rfl, ?_⟩
  have hcore := pre_iwasawa_core A B C D (toMatrix N N A0a) hS' hp hsq2
  have eE : ∀ Z : RArr, phase N N (block N N eye (fun _ _ => (0 : ℝ)) Z eye) = fromBlocks 1 0 (toMatrix N N Z) 1 := by
    intro Z; rw [phase_block', toMatrix_eye]; rfl
  have eD : phase N N (block N N A0a (fun _ _ => (0 : ℝ)) (fun _ _ => 0) Ai) = fromBlocks (toMatrix N N A0a) 0 0 (toMatrix N N A0a)⁻¹ := by
    rw [phase_block', hAim]; rfl
  have eF : phase N N (block N N (mmul N Ai fun i j => S i j) (mmul N Ai fun i j => S i (N + j)) (fun i j => -mmul N Ai (fun i j => S i (N + j)) i j) (mmul N Ai fun i j => S i j)) =
      fromBlocks ((toMatrix N N A0a)⁻¹ * A) ((toMatrix N N A0a)⁻¹ * B) (-((toMatrix N N A0a)⁻¹ * B)) ((toMatrix N N A0a)⁻¹ * A) := by
    rw [phase_block', toMatrix_mmul, toMatrix_mmul, hAim]
    have : toMatrix N N (fun i j => -mmul N Ai (fun i j => S i (N + j)) i j) = -((toMatrix N N A0a)⁻¹ * B) := by
      rw [← hAim, hB, ← toMatrix_mmul]; rfl
    rw [this]
  have eC : toMatrix N N (mmul N (mmul N (fun i j => mmul N (fun i j => S (N + i) j) (tr fun i j => S i j) i j +
      mmul N (fun i j => S (N + i) (N + j)) (tr fun i j => S i (N + j)) i j) Ai) Ai) = (C * Aᵀ + D * Bᵀ) * (toMatrix N N A0a)⁻¹ * (toMatrix N N A0a)⁻¹ := by
    rw [toMatrix_mmul, toMatrix_mmul, toMatrix_add, toMatrix_mmul, toMatrix_mmul, hAim]; rfl
  obtain ⟨c1, c2, c3, c4, c5, c6⟩ := hcore
  unfold IsSymp
  rw [eE, eD, eF, eC, phase_fromBlocks]
  refine ⟨c1, c2, c3, c4, c5, ⟨_, c6, rfl⟩, _, hp, rfl, ?_⟩
  ext i j
  simp [toMatrix, block]

/-- C47: a matrix rejected by `is_symplectic` raises `ValueError`. -/
theorem preIwasawa_raises (sqrtm : ℕ → RArr → RArr) (close : ℝ → ℝ → Bool) (n m : ℕ) (S : RArr) (h : isSymplecticQ close n m S = false) :
    preIwasawa sqrtm close n m S = .error .valueError := by
  unfold preIwasawa; simp [h]

theorem symp_diag {l : Type*} [Fintype l] [DecidableEq l] (P Q : Matrix l l ℝ) (h : P * Qᵀ = 1) : fromBlocks P 0 0 Q ∈ symplecticGroup l ℝ := by
  rw [symp_block_iff]; exact ⟨by simp, by rw [h]; simp, by simp⟩

theorem symp_diag_inj {l : Type*} [Fintype l] [DecidableEq l] (P Q Q' : Matrix l l ℝ) (h : P * Qᵀ = 1) (h' : P * Q'ᵀ = 1) : Q = Q' := by
  have e : Qᵀ = Q'ᵀ := by
    calc Qᵀ = Q'ᵀ * P * Qᵀ := by rw [mul_eq_one_comm.mp h', Matrix.one_mul]
      _ = Q'ᵀ := by rw [Matrix.mul_assoc, h, Matrix.mul_one]
  rw [← transpose_transpose Q, e, transpose_transpose]

/-- the matrix identities behind the Iwasawa decomposition: `A0 = q r` is split as unit lower triangular times positive diagonal times orthogonal -/
theorem iwasawa_core (N : ℕ) (A0 q r : Matrix (Fin N) (Fin N) ℝ) (hp : A0.PosDef) (hq : q ∈ orthogonalGroup (Fin N) ℝ) (hr : ∀ i j, j < i → r i j = 0)
    (hqr : q * r = A0) :
    let R' : Matrix (Fin N) (Fin N) ℝ := of fun i j => r j i * (1 / r j j)
    let Q' : Matrix (Fin N) (Fin N) ℝ := of fun i j => (if 0 < r i i then 1 else if r i i < 0 then -1 else 0) * q j i
    let d : Fin N → ℝ := fun i => |r i i|
    (∀ i, 0 < d i) ∧ (∀ i, R' i i = 1) ∧ (∀ i j, i < j → R' i j = 0) ∧ R'.det ≠ 0 ∧ Q' ∈ orthogonalGroup (Fin N) ℝ ∧
      fromBlocks R' 0 0 R'⁻¹ᵀ * diagonal (Sum.elim d fun i => 1 / d i) * fromBlocks Q' 0 0 Q' = fromBlocks A0 0 0 A0⁻¹ := by
  intro R' Q' d
  have hup : r.BlockTriangular id := fun i j h => hr i j h
  have hdet : r.det ≠ 0 := by
    intro h
    have := congrArg det hqr
    rw [det_mul, h, mul_zero] at this
    exact hp.det_pos.ne' this.symm
  have hrr : ∀ i, r i i ≠ 0 := by
    intro i h
    apply hdet
    rw [det_of_upperTriangular hup]
    exact Finset.prod_eq_zero (Finset.mem_univ i) h
  have hd : ∀ i, 0 < d i := fun i => abs_pos.mpr (hrr i)
  have hsym : A0ᵀ = A0 := by have := hp.1; rwa [IsHermitian, conjTranspose_eq_transpose_of_trivial] at this
  have h1 : ∀ i, R' i i = 1 := fun i => by simp only [R', of_apply]; rw [mul_one_div_cancel (hrr i)]
  have h0 : ∀ i j, i < j → R' i j = 0 := fun i j h => by simp only [R', of_apply]; rw [hr j i h, zero_mul]
  have hRdet : R'.det = 1 := by
    have : R'.BlockTriangular OrderDual.toDual := fun i j h => h0 i j h
    rw [det_of_lowerTriangular _ this]
    exact Finset.prod_eq_one fun i _ => h1 i
  let s : Fin N → ℝ := fun i => if 0 < r i i then 1 else if r i i < 0 then -1 else 0
  have hs : ∀ i, s i * s i = 1 := by
    intro i
    rcases lt_trichotomy (r i i) 0 with h | h | h
    · simp [s, h, not_lt.mpr h.le]
    · exact absurd h (hrr i)
    · simp [s, h]
  have hds : ∀ i, d i * s i = r i i := by
    intro i
    rcases lt_trichotomy (r i i) 0 with h | h | h
    · simp [s, d, h, not_lt.mpr h.le, abs_of_neg h]
    · exact absurd h (hrr i)
    · simp [s, d, h, abs_of_pos h]
  have hQ : Q' = diagonal s * qᵀ := by
    ext i j; rw [diagonal_mul]; rfl
  have hqq : qᵀ * q = 1 := by
    have := (mem_orthogonalGroup_iff' (Fin N) ℝ).mp hq; exact this
  have hQQ : Q' * Q'ᵀ = 1 := by
    rw [hQ, transpose_mul, diagonal_transpose, transpose_transpose]
    calc diagonal s * qᵀ * (q * diagonal s) = diagonal s * (qᵀ * q) * diagonal s := by simp only [Matrix.mul_assoc]
      _ = 1 := by rw [hqq, Matrix.mul_one, diagonal_mul_diagonal]; simp only [hs]; exact diagonal_one
  have hQo : Q' ∈ orthogonalGroup (Fin N) ℝ := by
    rw [mem_orthogonalGroup_iff]; exact hQQ
  have htop : R' * diagonal d * Q' = A0 := by
    rw [hQ, ← Matrix.mul_assoc, Matrix.mul_assoc R', diagonal_mul_diagonal]
    have e : R' * diagonal (fun i => d i * s i) = rᵀ := by
      ext i j; rw [mul_diagonal, hds]; simp only [R', of_apply, transpose_apply]
      rw [mul_assoc, one_div, inv_mul_cancel₀ (hrr j), mul_one]
    rw [e, ← transpose_mul, hqr, hsym]
  refine ⟨hd, h1, h0, by rw [hRdet]; exact one_ne_zero, hQo, ?_⟩
  have hR : R' * R'⁻¹ = 1 := mul_nonsing_inv _ (by rw [hRdet]; exact isUnit_one)
  have ediag : diagonal (Sum.elim d fun i => 1 / d i) = fromBlocks (diagonal d) 0 0 (diagonal fun i => 1 / d i) := by
    rw [fromBlocks_diagonal]
  rw [ediag, fromBlocks_multiply, fromBlocks_multiply]
  simp only [Matrix.mul_zero, Matrix.zero_mul, add_zero, zero_add, htop]
  congr 1
  apply symp_diag_inj A0
  · rw [← htop, transpose_mul, transpose_mul, diagonal_transpose, transpose_transpose]
    calc R' * diagonal d * Q' * (Q'ᵀ * (diagonal (fun i => 1 / d i) * R'⁻¹)) = R' * (diagonal d * (Q' * Q'ᵀ) * diagonal (fun i => 1 / d i)) * R'⁻¹ := by
          simp only [Matrix.mul_assoc]
      _ = 1 := by
          rw [hQQ, Matrix.mul_one, diagonal_mul_diagonal]
          have : (fun i => d i * (1 / d i)) = fun _ => (1 : ℝ) := by ext i; rw [mul_one_div_cancel (hd i).ne']
          rw [this, diagonal_one, Matrix.mul_one, hR]
  · rw [transpose_nonsing_inv, hsym]; exact mul_nonsing_inv _ (isUnit_iff_ne_zero.mpr hp.det_pos.ne')

/-- C47: for every symplectic `S` of any size, `iwasawa(S)` returns symplectic `E`, `D`, `F` with `E D F = S`: `E` lower block triangular with blocks `A`, `C`, `(A⁻¹)ᵀ`,
`Aᵀ C` symmetric and `A` unit lower triangular (the docstring says upper), `D = diag(d, 1/d)` with `d > 0`, `F` orthogonal. -/
theorem iwasawa_correct (sqrtm : ℕ → RArr → RArr) (hsq : SqrtmContract sqrtm) (qr : ℕ → RArr → RArr × RArr) (hqr : QrContract qr) (close : ℝ → ℝ → Bool)
    (hc : ∀ x, close x x = true) (N : ℕ) (S : RArr) (hS : IsSymp N S) :
    ∃ E D F, iwasawa sqrtm qr close (2 * N) (2 * N) S = .ok (E, D, F) ∧ phase N N E * phase N N D * phase N N F = phase N N S ∧
      IsSymp N E ∧ IsSymp N D ∧ IsSymp N F ∧ phase N N F ∈ orthogonalGroup (Fin N ⊕ Fin N) ℝ ∧
      (∃ d : Fin N → ℝ, (∀ i, 0 < d i) ∧ phase N N D = diagonal (Sum.elim d fun i => 1 / d i)) ∧
      ∃ A C : Matrix (Fin N) (Fin N) ℝ, (∀ i, A i i = 1) ∧ (∀ i j, i < j → A i j = 0) ∧ Aᵀ * C = Cᵀ * A ∧ phase N N E = fromBlocks A 0 C A⁻¹ᵀ := by
  obtain ⟨E, D, F, hpre, hprod, hE, hD, hF, hFo, ⟨X, hX, hEX⟩, A0, hA0, hD0, hDA⟩ := preIwasawa_correct sqrtm hsq close hc N S hS
  unfold iwasawa
  have hn : 2 * N / 2 = N := by omega
  obtain ⟨hq1, hq2, hq3⟩ := hqr N fun i j => D i j
  have hDA' : toMatrix N N (fun i j => D i j) = A0 := hDA
  rw [hDA'] at hq3
  set q := toMatrix N N (qr N fun i j => D i j).1 with hqdef
  set r := toMatrix N N (qr N fun i j => D i j).2 with hrdef
  obtain ⟨hd, h1, h0, hdet, hQo, hcore⟩ := iwasawa_core N A0 q r hA0 hq1 (fun i j h => hq2 i i.2 j h) hq3
  set R' : Matrix (Fin N) (Fin N) ℝ := of fun i j => r j i * (1 / r j j) with hR'
  set Q' : Matrix (Fin N) (Fin N) ℝ := of fun i j => (if 0 < r i i then 1 else if r i i < 0 then -1 else 0) * q j i with hQ'
  have eR : toMatrix N N (fun i j => tr (qr N fun i j => D i j).2 i j * (1 / tr (qr N fun i j => D i j).2 j j)) = R' := rfl
  obtain ⟨Ri, hRi, hRim⟩ := npInvR_ok N (fun i j => tr (qr N fun i j => D i j).2 i j * (1 / tr (qr N fun i j => D i j).2 j j)) (by rw [eR]; exact hdet)
  rw [eR] at hRim
  simp only [bind, Except.bind, pure, Except.pure, hpre, hn, hRi]
  refine ⟨_, _, _, rfl, ?_⟩
  have eOO : phase N N (block N N (fun i j => tr (qr N fun i j => D i j).2 i j * (1 / tr (qr N fun i j => D i j).2 j j)) (fun _ _ => 0) (fun _ _ => 0) (tr Ri)) =
      fromBlocks R' 0 0 R'⁻¹ᵀ := by
    rw [phase_block', eR, toMatrix_tr, hRim]; rfl
  have eAA : phase N N (block N N (fun i j => (if 0 < tr (qr N fun i j => D i j).2 i i then 1 else if tr (qr N fun i j => D i j).2 i i < 0 then -1 else 0) *
      tr (qr N fun i j => D i j).1 i j) (fun _ _ => (0 : ℝ)) (fun _ _ => 0) (fun i j => (if 0 < tr (qr N fun i j => D i j).2 i i then 1 else
        if tr (qr N fun i j => D i j).2 i i < 0 then -1 else 0) * tr (qr N fun i j => D i j).1 i j)) = fromBlocks Q' 0 0 Q' := by
    rw [phase_block']; rfl
  have eDD : phase N N (fun i j => if i = j then (if i < N then |tr (qr N fun i j => D i j).2 i i| else 1 / |tr (qr N fun i j => D i j).2 (i - N) (i - N)|) else 0) =
      diagonal (Sum.elim (fun i : Fin N => |r i i|) fun i : Fin N => 1 / |r i i|) := by
    ext p p'
    rcases p with p | p <;> rcases p' with p' | p'
    · simp only [phase, quad, of_apply, diagonal_apply, Sum.elim_inl, Sum.inl.injEq, Fin.ext_iff, p.2, if_true]; rfl
    · have := p.2; simp [phase, quad, diagonal_apply]; omega
    · have := p'.2; simp [phase, quad, diagonal_apply]; omega
    · simp only [phase, quad, of_apply, diagonal_apply, Sum.elim_inr, Sum.inr.injEq, Fin.ext_iff, add_right_inj, Nat.add_sub_cancel_left]
      have : ¬ (N + (p : ℕ) < N) := by omega
      simp only [this, if_false]; rfl
  have hRs : fromBlocks R' 0 0 R'⁻¹ᵀ ∈ symplecticGroup (Fin N) ℝ := symp_diag _ _ (by
    rw [transpose_transpose]; exact mul_nonsing_inv _ (isUnit_iff_ne_zero.mpr hdet))
  have hQQ : Q' * Q'ᵀ = 1 := by
    have := (mem_orthogonalGroup_iff (Fin N) ℝ).mp hQo; exact this
  have hQs : fromBlocks Q' 0 0 Q' ∈ symplecticGroup (Fin N) ℝ := symp_diag _ _ hQQ
  have hQoo : fromBlocks Q' 0 0 Q' ∈ orthogonalGroup (Fin N ⊕ Fin N) ℝ := by
    rw [mem_orthogonalGroup_iff, fromBlocks_transpose, fromBlocks_multiply, ← fromBlocks_one]
    simp [hQQ]
  have hDs : diagonal (Sum.elim (fun i : Fin N => |r i i|) fun i : Fin N => 1 / |r i i|) ∈ symplecticGroup (Fin N) ℝ := by
    rw [← fromBlocks_diagonal]
    apply symp_diag
    rw [diagonal_transpose, diagonal_mul_diagonal]
    have : (fun i : Fin N => |r i i| * (1 / |r i i|)) = fun _ => (1 : ℝ) := by ext i; rw [mul_one_div_cancel (hd i).ne']
    rw [this, diagonal_one]
  unfold IsSymp
  rw [phase_mmul, phase_mmul, eOO, eAA, eDD]
  have hEs := mul_mem hE hRs
  refine ⟨?_, hEs, hDs, mul_mem hQs hF, mul_mem hQoo hFo, ⟨_, hd, rfl⟩, R', X * R', h1, h0, ?_, ?_⟩
  · rw [← hprod, hD0, ← hcore]
    simp only [Matrix.mul_assoc]
  · rw [transpose_mul, hX.eq, Matrix.mul_assoc]
  · rw [hEX, fromBlocks_multiply]; simp

/-- C47: a matrix rejected by `is_symplectic` raises `ValueError`. -/
theorem iwasawa_raises (sqrtm : ℕ → RArr → RArr) (qr : ℕ → RArr → RArr × RArr) (close : ℝ → ℝ → Bool) (n m : ℕ) (S : RArr)
    (h : isSymplecticQ close n m S = false) : iwasawa sqrtm qr close n m S = .error .valueError := by
  unfold iwasawa; rw [preIwasawa_raises _ _ _ _ _ h]; rfl

end Verif.Props
