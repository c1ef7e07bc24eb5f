/- Householder reduction to Hessenberg form preserves the characteristic polynomial; power traces. -/
import Verif.Lemmas.LaBudde
import Verif.Lemmas.GenFun
import Mathlib.Analysis.RCLike.Basic
import Mathlib.LinearAlgebra.Matrix.ConjTranspose
import Mathlib.Tactic.FieldSimp
import Mathlib.Tactic.Positivity

set_option linter.unusedSectionVars false
set_option linter.unusedSimpArgs false

namespace Verif
open Model Matrix Finset

section loops
variable {K : Type} [Field K]

theorem forRange_sum (n : ℕ) (c : K) (g : ℕ → K) : forRange n c (fun l acc => acc + g l) = c + ∑ l ∈ range n, g l := by
  induction n with
  | zero => simp
  | succ n ih => rw [forRange_succ, ih, Finset.sum_range_succ, add_assoc]

theorem forRange_sub (n : ℕ) (c : K) (g : ℕ → K) : forRange n c (fun l acc => acc - g l) = c - ∑ l ∈ range n, g l := by
  induction n with
  | zero => simp
  | succ n ih => rw [forRange_succ, ih, Finset.sum_range_succ]; ring

/-- in-place update of a block, each cell once -/
theorem block_loop (I J r s : ℕ) (A : ℕ → ℕ → K) (F : ℕ → ℕ → K) :
    forRange I A (fun i A => forRange J A fun j A => upd2 A (r + i) (s + j) (A (r + i) (s + j) - F i j))
      = fun a b => if (r ≤ a ∧ a < r + I) ∧ (s ≤ b ∧ b < s + J) then A a b - F (a - r) (b - s) else A a b := by
  have inner : ∀ (i J : ℕ) (A : ℕ → ℕ → K), forRange J A (fun j A => upd2 A (r + i) (s + j) (A (r + i) (s + j) - F i j))
      = fun a b => if a = r + i ∧ (s ≤ b ∧ b < s + J) then A a b - F i (b - s) else A a b := by
    intro i J A
    induction J with
    | zero => funext a b; simp only [forRange_zero]; rw [if_neg (by omega)]
    | succ J ih =>
      rw [forRange_succ, ih]
      funext a b
      simp only [upd2]
      by_cases h : a = r + i ∧ b = s + J
      · obtain ⟨rfl, rfl⟩ := h
        rw [if_pos ⟨rfl, rfl⟩, if_neg (by omega), if_pos (by omega)]
        congr 2; omega
      · rw [if_neg h]
        by_cases h2 : a = r + i ∧ (s ≤ b ∧ b < s + J)
        · rw [if_pos h2, if_pos (by omega)]
        · rw [if_neg h2, if_neg (by omega)]
  induction I with
  | zero => funext a b; simp only [forRange_zero]; rw [if_neg (by omega)]
  | succ I ih =>
    rw [forRange_succ, ih, inner]
    funext a b
    by_cases h : a = r + I ∧ (s ≤ b ∧ b < s + J)
    · rw [if_pos h, if_neg (by omega), if_pos (by omega)]
      congr 2; omega
    · rw [if_neg h]
      by_cases h2 : (r ≤ a ∧ a < r + I) ∧ (s ≤ b ∧ b < s + J)
      · rw [if_pos h2, if_pos (by omega)]
      · rw [if_neg h2, if_neg (by omega)]

end loops

variable {K : Type} [RCLike K]

theorem normSq_eq (n : ℕ) (v : ℕ → K) : normSq n v = ∑ i ∈ range n, ‖v i‖ ^ 2 := by
  unfold normSq
  induction n with
  | zero => simp
  | succ n ih => rw [List.range_succ, List.foldl_append, ih, Finset.sum_range_succ]; simp

/-- the reflection vector as a vector of length `n` -/
def padV (n k : ℕ) (v : ℕ → K) : Fin n → K := fun i => if k ≤ (i : ℕ) then v (i - k) else 0

theorem sum_pad {M : Type*} [AddCommMonoid M] (n k : ℕ) (hk : k ≤ n) (g : Fin n → M) (h : ℕ → M)
    (h1 : ∀ i : Fin n, (i : ℕ) < k → g i = 0) (h2 : ∀ i : Fin n, k ≤ (i : ℕ) → g i = h (i - k)) :
    ∑ i, g i = ∑ l ∈ range (n - k), h l := by
  have : ∑ i : Fin n, g i = ∑ i ∈ range n, if k ≤ i then h (i - k) else 0 := by
    rw [← Fin.sum_univ_eq_sum_range (fun i => if k ≤ i then h (i - k) else 0) n]
    apply Finset.sum_congr rfl
    intro i _
    by_cases hi : k ≤ (i : ℕ)
    · rw [if_pos hi, h2 i hi]
    · rw [if_neg hi, h1 i (by omega)]
  rw [this]
  obtain ⟨d, rfl⟩ := Nat.exists_eq_add_of_le hk
  rw [Finset.sum_range_add, Finset.sum_eq_zero (fun i hi => by rw [if_neg]; have : i < k := by simpa using hi
                                                               omega), zero_add]
  simp

/-- The Householder reflector. -/
noncomputable def refl (n k : ℕ) (v : ℕ → K) : Matrix (Fin n) (Fin n) K :=
  1 - (2 / (normSq (n - k) v : K)) • vecMulVec (padV n k v) (star (padV n k v))

theorem star_dot_padV (n k : ℕ) (hk : k ≤ n) (v : ℕ → K) : star (padV n k v) ⬝ᵥ padV n k v = (normSq (n - k) v : K) := by
  rw [normSq_eq, dotProduct, sum_pad n k hk _ (fun l => ((‖v l‖ ^ 2 : ℝ) : K))]
  · push_cast; rfl
  · intro i hi; simp [padV, show ¬ k ≤ (i : ℕ) by omega]
  · intro i hi
    simp only [padV, hi, if_true, Pi.star_apply]
    rw [RCLike.star_def, RCLike.conj_mul]; push_cast; rfl

theorem refl_mul_self (n k : ℕ) (hk : k ≤ n) (v : ℕ → K) (h : normSq (n - k) v ≠ 0) : refl n k v * refl n k v = 1 := by
  unfold refl
  set w := padV n k v
  have hw := star_dot_padV n k hk v
  have hN : (normSq (n - k) v : K) ≠ 0 := by simpa using h
  set N : K := (normSq (n - k) v : K)
  rw [sub_mul, one_mul, mul_sub, mul_one, smul_mul_smul_comm, vecMulVec_mul_vecMulVec, hw, vecMulVec_smul, smul_smul]
  have : 2 / N * (2 / N) * N = 2 / N + 2 / N := by field_simp; norm_num
  rw [this, add_smul]
  abel

theorem applyHouseholder_eq (n : ℕ) (A : ℕ → ℕ → K) (v : ℕ → K) (k : ℕ) (hk1 : 1 ≤ k) (hk : k ≤ n)
    (h : normSq (n - k) v ≠ 0) (hz : ∀ a b, k ≤ a → a < n → b < k - 1 → A a b = 0) :
    toMatrix n n (applyHouseholder n A v k) = refl n k v * toMatrix n n A * refl n k v := by
  unfold applyHouseholder
  simp only [if_neg h]
  simp only [forRange_sum, zero_add]
  rw [block_loop (n - k) (n - k + 1) k (k - 1) A (fun i j => 2 * v i * (∑ l ∈ range (n - k), (starRingEnd K) (v l) * A (k + l) (k - 1 + j)) / (normSq (n - k) v : K))]
  set A1 : ℕ → ℕ → K := fun a b => if (k ≤ a ∧ a < k + (n - k)) ∧ (k - 1 ≤ b ∧ b < k - 1 + (n - k + 1)) then
      A a b - 2 * v (a - k) * (∑ l ∈ range (n - k), (starRingEnd K) (v l) * A (k + l) (k - 1 + (b - (k - 1)))) / (normSq (n - k) v : K)
    else A a b with hA1
  have loop2 := block_loop n (n - k) 0 k A1 (fun i j => 2 * (∑ l ∈ range (n - k), A1 i (k + l) * v l) * (starRingEnd K) (v j) / (normSq (n - k) v : K))
  simp only [Nat.zero_add] at loop2
  rw [loop2]
  have m1 : toMatrix n n A1 = refl n k v * toMatrix n n A := by
    ext a b
    have ha := a.2
    have hb := b.2
    have sumeq : (star (padV n k v) ᵥ* toMatrix n n A) b = ∑ l ∈ range (n - k), (starRingEnd K) (v l) * A (k + l) b := by
      rw [vecMul, dotProduct]
      apply sum_pad n k hk
      · intro i hi; simp [padV, show ¬ k ≤ (i : ℕ) by omega]
      · intro i hi
        simp only [padV, hi, if_true, Pi.star_apply, toMatrix, Matrix.of_apply, RCLike.star_def]
        rw [show k + ((i : ℕ) - k) = i by omega]
    rw [refl, sub_mul, one_mul, Matrix.sub_apply, Matrix.smul_mul, Matrix.smul_apply, vecMulVec_mul, vecMulVec_apply, sumeq]
    simp only [toMatrix, Matrix.of_apply, hA1, smul_eq_mul]
    by_cases h1 : k ≤ (a : ℕ)
    · by_cases h2 : k - 1 ≤ (b : ℕ)
      · rw [if_pos (by omega)]
        have : k - 1 + ((b : ℕ) - (k - 1)) = b := by omega
        rw [this]
        simp only [padV, h1, if_true]
        ring
      · rw [if_neg (by omega)]
        have : ∑ l ∈ range (n - k), (starRingEnd K) (v l) * A (k + l) b = 0 := by
          apply Finset.sum_eq_zero; intro l hl
          have : l < n - k := by simpa using hl
          rw [hz (k + l) b (by omega) (by omega) (by omega), mul_zero]
        rw [this]; ring
    · rw [if_neg (by omega)]
      simp [padV, h1]
  have m2 : ∀ B : ℕ → ℕ → K, toMatrix n n (fun a b => if (0 ≤ a ∧ a < n) ∧ k ≤ b ∧ b < k + (n - k) then
      B a b - 2 * (∑ l ∈ range (n - k), B (a - 0) (k + l) * v l) * (starRingEnd K) (v (b - k)) / (normSq (n - k) v : K) else B a b)
      = toMatrix n n B * refl n k v := by
    intro B
    ext a b
    have ha := a.2
    have hb := b.2
    have sumeq : (toMatrix n n B *ᵥ padV n k v) a = ∑ l ∈ range (n - k), B a (k + l) * v l := by
      rw [mulVec, dotProduct]
      apply sum_pad n k hk
      · intro i hi; simp [padV, show ¬ k ≤ (i : ℕ) by omega]
      · intro i hi
        simp only [padV, hi, if_true, toMatrix, Matrix.of_apply]
        rw [show k + ((i : ℕ) - k) = i by omega]
    rw [refl, mul_sub, mul_one, Matrix.sub_apply, Matrix.mul_smul, Matrix.smul_apply, mul_vecMulVec, vecMulVec_apply, sumeq]
    simp only [toMatrix, Matrix.of_apply, smul_eq_mul, Nat.sub_zero]
    by_cases h2 : k ≤ (b : ℕ)
    · rw [if_pos (by omega)]
      simp only [padV, h2, if_true, Pi.star_apply, RCLike.star_def]
      ring
    · rw [if_neg (by omega)]
      simp [padV, h2]
  rw [← m1, ← m2 A1]

/-- column `k-1` after the reflection -/
theorem reflection_annihilates (n : ℕ) (A : ℕ → ℕ → K) (k : ℕ) (hk : k < n) :
    (normSq (n - k) (getReflectionVector n A k) = 0 → ∀ l < n - k, A (k + l) (k - 1) = 0) ∧
    (normSq (n - k) (getReflectionVector n A k) ≠ 0 → ∀ l, 0 < l → l < n - k →
      A (k + l) (k - 1) - 2 / (normSq (n - k) (getReflectionVector n A k) : K) * (getReflectionVector n A k l *
        ∑ i ∈ range (n - k), (starRingEnd K) (getReflectionVector n A k i) * A (k + i) (k - 1)) = 0) := by
  set v := getReflectionVector n A k with hv
  set x : ℕ → K := fun i => A (k + i) (k - 1) with hx
  obtain ⟨N, hN⟩ : ∃ N, n - k = N + 1 := ⟨n - k - 1, by omega⟩
  set nx : ℝ := Real.sqrt (normSq (N + 1) x) with hnx
  have hns : normSq (N + 1) x = nx ^ 2 := by
    rw [hnx, Real.sq_sqrt]; rw [normSq_eq]; positivity
  have hnx0 : 0 ≤ nx := Real.sqrt_nonneg _
  have hxle : ‖x 0‖ ^ 2 ≤ nx ^ 2 := by
    rw [← hns, normSq_eq]
    exact Finset.single_le_sum (f := fun i => ‖x i‖ ^ 2) (fun i _ => by positivity) (by simp)
  have hvl : ∀ l, 0 < l → v l = x l := by
    intro l hl; simp only [hv, getReflectionVector]; rw [if_neg (by omega)]
  -- phase
  obtain ⟨ph, hph1, hph2, hv0⟩ : ∃ ph : K, ‖ph‖ = 1 ∧ x 0 = (‖x 0‖ : K) * ph ∧ v 0 = x 0 + (nx : K) * ph := by
    by_cases h0 : x 0 = 0
    · refine ⟨1, by simp, by simp [h0], ?_⟩
      simp only [hv, getReflectionVector, if_true, hN]
      rw [if_neg (not_not.2 h0)]; simp [hx, hnx]
    · have hne : (‖x 0‖ : K) ≠ 0 := by simpa using h0
      refine ⟨x 0 / (‖x 0‖ : K), ?_, ?_, ?_⟩
      · rw [norm_div, RCLike.norm_ofReal, abs_norm, div_self (by simpa using h0)]
      · field_simp
      · simp only [hv, getReflectionVector, if_true, hN]
        rw [if_pos h0]
  have hv0' : v 0 = ((‖x 0‖ + nx : ℝ) : K) * ph := by push_cast; linear_combination hv0 + hph2
  have hnv0 : ‖v 0‖ = ‖x 0‖ + nx := by
    rw [hv0', norm_mul, hph1, mul_one, RCLike.norm_ofReal, abs_of_nonneg (by positivity)]
  -- norm of v
  have hsumx : normSq (N + 1) x = ‖x 0‖ ^ 2 + ∑ i ∈ range N, ‖x (i + 1)‖ ^ 2 := by
    rw [normSq_eq, Finset.sum_range_succ', add_comm]
  have hnv : normSq (N + 1) v = 2 * (nx ^ 2 + nx * ‖x 0‖) := by
    have e : normSq (N + 1) v = ‖v 0‖ ^ 2 + ∑ i ∈ range N, ‖x (i + 1)‖ ^ 2 := by
      rw [normSq_eq, Finset.sum_range_succ', add_comm]
      exact congrArg (‖v 0‖ ^ 2 + ·) (Finset.sum_congr rfl fun i _ => by rw [hvl _ (by omega)])
    rw [e, hnv0]
    have := hsumx; rw [hns] at this
    linarith [this, show (‖x 0‖ + nx) ^ 2 = ‖x 0‖ ^ 2 + 2 * (nx * ‖x 0‖) + nx ^ 2 by ring]
  have hdot : ∑ i ∈ range (N + 1), (starRingEnd K) (v i) * x i = ((nx ^ 2 + nx * ‖x 0‖ : ℝ) : K) := by
    rw [Finset.sum_range_succ', hv0']
    have e1 : ∑ i ∈ range N, (starRingEnd K) (v (i + 1)) * x (i + 1) = ((∑ i ∈ range N, ‖x (i + 1)‖ ^ 2 : ℝ) : K) := by
      push_cast
      apply Finset.sum_congr rfl; intro i _
      rw [hvl _ (by omega), RCLike.conj_mul]
    have e2 : (starRingEnd K) (((‖x 0‖ + nx : ℝ) : K) * ph) * x 0 = (((‖x 0‖ + nx) * ‖x 0‖ : ℝ) : K) := by
      rw [map_mul, RCLike.conj_ofReal]
      have : (starRingEnd K) ph * ph = 1 := by rw [RCLike.conj_mul, hph1]; simp
      push_cast
      linear_combination ((‖x 0‖ : K) + nx) * (‖x 0‖ : K) * this + ((‖x 0‖ : K) + nx) * (starRingEnd K) ph * hph2
    rw [e1, e2, ← RCLike.ofReal_add]
    congr 1
    have := hsumx; rw [hns] at this
    linarith [this, show (‖x 0‖ + nx) * ‖x 0‖ = ‖x 0‖ ^ 2 + nx * ‖x 0‖ by ring]
  rw [hN]
  refine ⟨?_, ?_⟩
  · intro h0 l hl
    rw [hnv] at h0
    have : nx = 0 := by nlinarith [norm_nonneg (x 0), mul_nonneg hnx0 (norm_nonneg (x 0))]
    have h1 : normSq (N + 1) x = 0 := by rw [hns, this]; simp
    rw [normSq_eq, Finset.sum_eq_zero_iff_of_nonneg (fun i _ => by positivity)] at h1
    have := h1 l (by simpa using hl)
    have h2 : ‖x l‖ = 0 := by simpa using this
    exact norm_eq_zero.1 h2
  · intro h0 l hl0 hl
    rw [hdot, hvl l hl0]
    have hK : ((normSq (N + 1) v : ℝ) : K) ≠ 0 := by simpa using h0
    have : 2 / ((normSq (N + 1) v : ℝ) : K) * (x l * ((nx ^ 2 + nx * ‖x 0‖ : ℝ) : K)) = x l := by
      have e : ((normSq (N + 1) v : ℝ) : K) = 2 * ((nx ^ 2 + nx * ‖x 0‖ : ℝ) : K) := by rw [hnv]; push_cast; ring
      rw [e] at hK ⊢
      generalize ((nx ^ 2 + nx * ‖x 0‖ : ℝ) : K) = q at hK ⊢
      have hq : q ≠ 0 := right_ne_zero_of_mul hK
      field_simp
    rw [this]; exact sub_self _

/-- Householder reduction: Hessenberg form and the same characteristic polynomial. -/
theorem reduceToHessenberg_spec (n : ℕ) (A : ℕ → ℕ → K) :
    (∀ a < n, ∀ j, j + 1 < a → reduceToHessenberg n A a j = 0) ∧
      (toMatrix n n (reduceToHessenberg n A)).charpoly = (toMatrix n n A).charpoly := by
  rcases Nat.lt_or_ge n 2 with hn | hn
  · have : reduceToHessenberg n A = A := by
      unfold reduceToHessenberg; rw [forRange2_eq, show n - 1 - 1 = 0 by omega]; rfl
    rw [this]
    exact ⟨by intro a ha j hj; omega, rfl⟩
  have key := forRange2_inv (fun k (B : ℕ → ℕ → K) =>
      (∀ a < n, ∀ j, j < k - 1 → j + 1 < a → B a j = 0) ∧ (toMatrix n n B).charpoly = (toMatrix n n A).charpoly)
    (show 1 ≤ n - 1 by omega) A (fun i A => applyHouseholder n A (getReflectionVector n A i) i)
    ⟨by intro a ha j hj; omega, rfl⟩ ?_
  · refine ⟨fun a ha j hj => key.1 a ha j (by omega) hj, key.2⟩
  · intro k B hk1 hkn ⟨h1, h2⟩
    obtain ⟨z1, z2⟩ := reflection_annihilates n B k (by omega)
    by_cases hz : normSq (n - k) (getReflectionVector n B k) = 0
    · have e : applyHouseholder n B (getReflectionVector n B k) k = B := by
        unfold applyHouseholder; rw [if_pos hz]
      rw [e]
      refine ⟨?_, h2⟩
      intro a ha j hj hja
      by_cases hjk : j < k - 1
      · exact h1 a ha j hjk hja
      · have : j = k - 1 := by omega
        subst this
        have := z1 hz (a - k) (by omega)
        rwa [show k + (a - k) = a by omega] at this
    · have e := applyHouseholder_eq n B (getReflectionVector n B k) k hk1 (by omega) hz
        (fun a b ha han hb => h1 a han b hb (by omega))
      refine ⟨?_, ?_⟩
      · intro a ha j hj hja
        have hjn : j < n := by omega
        have e' := congrFun (congrFun e ⟨a, ha⟩) ⟨j, hjn⟩
        have e0 : toMatrix n n (applyHouseholder n B (getReflectionVector n B k) k) ⟨a, ha⟩ ⟨j, hjn⟩
            = applyHouseholder n B (getReflectionVector n B k) k a j := rfl
        rw [← e0, e']
        set v := getReflectionVector n B k
        -- right multiplication does not touch columns < k
        have er : (refl n k v * toMatrix n n B * refl n k v) ⟨a, ha⟩ ⟨j, hjn⟩ = (refl n k v * toMatrix n n B) ⟨a, ha⟩ ⟨j, hjn⟩ := by
          conv_lhs => rw [refl, mul_sub, mul_one, Matrix.sub_apply, Matrix.mul_smul, Matrix.smul_apply, mul_vecMulVec, vecMulVec_apply]
          have : star (padV n k v) ⟨j, hjn⟩ = 0 := by simp [padV, show ¬ k ≤ j by omega]
          rw [this]; simp; rfl
        rw [er, refl, sub_mul, one_mul, Matrix.sub_apply, Matrix.smul_mul, Matrix.smul_apply, vecMulVec_mul, vecMulVec_apply]
        have sumeq : (star (padV n k v) ᵥ* toMatrix n n B) ⟨j, hjn⟩ = ∑ l ∈ range (n - k), (starRingEnd K) (v l) * B (k + l) j := by
          rw [vecMul, dotProduct]
          apply sum_pad n k (by omega)
          · intro i hi; simp [padV, show ¬ k ≤ (i : ℕ) by omega]
          · intro i hi
            simp only [padV, hi, if_true, Pi.star_apply, toMatrix, Matrix.of_apply, RCLike.star_def]
            rw [show k + ((i : ℕ) - k) = i by omega]
        rw [sumeq]
        simp only [toMatrix, Matrix.of_apply, smul_eq_mul]
        by_cases hjk : j < k - 1
        · rw [h1 a ha j hjk hja]
          have : ∑ l ∈ range (n - k), (starRingEnd K) (v l) * B (k + l) j = 0 := by
            apply Finset.sum_eq_zero; intro l hl
            have : l < n - k := by simpa using hl
            rw [h1 (k + l) (by omega) j hjk (by omega), mul_zero]
          rw [this]; ring
        · have hjk' : j = k - 1 := by omega
          subst hjk'
          have := z2 hz (a - k) (by omega) (by omega)
          rw [show k + (a - k) = a by omega] at this
          have hp : padV n k v ⟨a, ha⟩ = v (a - k) := by simp [padV, show k ≤ a by omega]
          rw [hp]; exact this
      · rw [e, Matrix.charpoly_mul_comm, ← mul_assoc, refl_mul_self n k (by omega) _ hz, one_mul, h2]

/-- `charpoly(H)`: entry `t` is the coefficient of `λ^(n-1-t)`. -/
theorem charpoly_eq (n : ℕ) (H : ℕ → ℕ → K) (t : ℕ) (ht : t < n) :
    charpoly n H t = (toMatrix n n H).charpoly.coeff (n - 1 - t) := by
  obtain ⟨h1, h2⟩ := reduceToHessenberg_spec n H
  rw [Model.charpoly, charpolyHess_eq n _ h1 t ht, h2]

theorem trace_eq (m : ℕ) (A : ℕ → ℕ → K) : Model.trace m A = (toMatrix m m A).trace := by
  rw [Model.trace, foldl_add_range]; simp [Matrix.trace, toMatrix]

theorem matMul_eq (m : ℕ) (A H : ℕ → ℕ → K) : toMatrix m m (matMul m A H) = toMatrix m m A * toMatrix m m H := by
  ext i j; simp [matMul, dot_eq, toMatrix, Matrix.mul_apply, dotProduct]

/-- Cayley–Hamilton for traces. -/
theorem trace_pow_rec (m : ℕ) (M : Matrix (Fin m) (Fin m) K) (j : ℕ) (hj : m ≤ j) :
    (M ^ j).trace = - ∑ k ∈ range m, M.charpoly.coeff (m - 1 - k) * (M ^ (j - k - 1)).trace := by
  have hc := Matrix.aeval_self_charpoly M
  rw [Polynomial.aeval_eq_sum_range, Matrix.charpoly_natDegree_eq_dim, Fintype.card_fin, Finset.sum_range_succ] at hc
  have hm : M.charpoly.coeff m = 1 := by
    have := Matrix.charpoly_monic M
    rwa [Polynomial.Monic, Polynomial.leadingCoeff, Matrix.charpoly_natDegree_eq_dim, Fintype.card_fin] at this
  rw [hm, one_smul] at hc
  have h2 := congrArg (fun Z => (Z * M ^ (j - m)).trace) hc
  simp only [add_mul, zero_mul, Matrix.trace_add, Matrix.trace_zero, Finset.sum_mul, Matrix.trace_sum, smul_mul, Matrix.trace_smul,
    ← pow_add, smul_eq_mul] at h2
  rw [show m + (j - m) = j by omega] at h2
  rw [eq_neg_iff_add_eq_zero, add_comm, ← h2]
  congr 1
  rw [← Finset.sum_range_reflect]
  apply Finset.sum_congr rfl
  intro k hk
  have : k < m := by simpa using hk
  congr 2
  · congr 1; omega
  · congr 1; omega

/-- The list returned by `powertrace`. -/
theorem powertraceList_spec (m : ℕ) (H : ℕ → ℕ → K) (n : ℕ) :
    (∀ k < (powertraceList m H n).length, (powertraceList m H n).getD k 0 = ((toMatrix m m H) ^ k).trace) ∧
      n ≤ (powertraceList m H n).length := by
  set M := toMatrix m m H with hM
  have first := forRange_inv (fun i (st : List K × (ℕ → ℕ → K)) => st.1.length = i + 2 ∧ toMatrix m m st.2 = M ^ (i + 1) ∧
      ∀ k < st.1.length, st.1.getD k 0 = (M ^ k).trace) (min n m - 2) ([(m : K), Model.trace m H], H)
    (fun _ (st : List K × (ℕ → ℕ → K)) =>
      let A := matMul m st.2 H
      (st.1 ++ [Model.trace m A], A)) ⟨rfl, by simp [hM], ?_⟩ ?_
  · obtain ⟨a1, a2, a3⟩ := first
    unfold powertraceList
    dsimp only
    by_cases hnm : n ≤ m
    · rw [if_pos hnm]
      refine ⟨a3, ?_⟩
      rw [a1]; omega
    · rw [if_neg hnm]
      have second := forRange_inv (fun i (L : List K) => (∀ k < L.length, L.getD k 0 = (M ^ k).trace) ∧ m ≤ L.length ∧ min n m + i ≤ L.length)
        (n - min n m) _ (fun _ (pt : List K) => pt ++ [forRange m 0 fun k s => s - charpoly m H k * pt.getD (pt.length - k - 1) 0])
        ⟨a3, by rw [a1]; omega, by rw [a1]; omega⟩ ?_
      · refine ⟨second.1, ?_⟩
        have h3 : n ≤ min n m + (n - min n m) := by omega
        exact h3.trans second.2.2
      · intro i L hi ⟨b1, b2, b3⟩
        refine ⟨?_, by simp; omega, by simp; omega⟩
        intro k hk
        by_cases hkL : k < L.length
        · rw [List.getD_append _ _ _ _ hkL]; exact b1 k hkL
        · have : k = L.length := by simp at hk; omega
          subst this
          rw [List.getD_append_right _ _ _ _ le_rfl, Nat.sub_self]
          simp only [List.getD_cons_zero]
          rw [forRange_sub, zero_sub, trace_pow_rec m M _ b2]
          congr 1
          apply Finset.sum_congr rfl
          intro k hk
          have hk : k < m := by simpa using hk
          rw [charpoly_eq m H k hk, b1 _ (by omega)]
  · intro k hk
    have hk : k = 0 ∨ k = 1 := by simp at hk; omega
    rcases hk with rfl | rfl
    · simp
    · simp [trace_eq, hM]
  · intro i st hi ⟨b1, b2, b3⟩
    refine ⟨by simp [b1], by rw [matMul_eq, b2, ← pow_succ], ?_⟩
    intro k hk
    by_cases hkL : k < st.1.length
    · dsimp only; rw [List.getD_append _ _ _ _ hkL]; exact b3 k hkL
    · have : k = st.1.length := by simp at hk; omega
      subst this
      dsimp only
      rw [List.getD_append_right _ _ _ _ le_rfl, Nat.sub_self]
      simp only [List.getD_cons_zero]
      rw [trace_eq, matMul_eq, b2, b1, ← pow_succ]

/-- The contract used by the hafnian code. -/
theorem powertrace_PTSpec : PTSpec (powertrace : PowerTrace K) := by
  intro m H n k h1 h2
  obtain ⟨a, b⟩ := powertraceList_spec m H n
  exact a k (by omega)

end Verif
