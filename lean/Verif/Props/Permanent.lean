/-
Properties C01 and C02: `perm`, `perm_ryser`, `perm_bbfg`.
-/
import Verif.Lemmas.PermLoops
import Mathlib.Data.Rat.Defs
import Mathlib.LinearAlgebra.Matrix.Notation
import Mathlib.Tactic.NormNum

namespace Verif.Props

open Verif Verif.Model Finset

variable {K : Type} [Field K] [CharZero K]

/-- Specification: the permanent of a square matrix is the sum over permutations of the products of entries. -/
def permSpec {n : ℕ} (A : Matrix (Fin n) (Fin n) K) : K :=
  ∑ σ : Equiv.Perm (Fin n), ∏ i, A i (σ i)

omit [CharZero K] in
theorem permSpec_eq {n : ℕ} (A : Matrix (Fin n) (Fin n) K) : permSpec A = A.permanent := by
  rw [← Matrix.permanent_transpose]; rfl

omit [CharZero K] in
private theorem toMatrix_getD {n : ℕ} (A : Matrix (Fin n) (Fin n) K) (junk : ℕ → ℕ → Option K) :
    toMatrix n n (fun i j => ((if h : i < n ∧ j < n then some (A ⟨i, h.1⟩ ⟨j, h.2⟩) else junk i j) :
      Option K).getD 0) = A := by
  ext i j; simp [toMatrix]

/-- **C01** `perm(A, method)` is the permanent for every size and every method string. -/
theorem perm_correct {n : ℕ} (A : Matrix (Fin n) (Fin n) K) (junk : ℕ → ℕ → Option K) (method : String) :
    perm (PyObj.ofMatrix A junk) method = .ok (permSpec A) := by
  rw [permSpec_eq]
  unfold perm PyObj.ofMatrix
  simp only [ne_eq, not_true_eq_false, if_false]
  have hnan : ((List.range n).any fun i => (List.range n).any fun j =>
      (if h : i < n ∧ j < n then some (A ⟨i, h.1⟩ ⟨j, h.2⟩) else junk i j).isNone) = false := by
    rw [List.any_eq_false]
    intro i hi
    rw [Bool.not_eq_true, List.any_eq_false]
    intro j hj
    have hi' := List.mem_range.mp hi
    have hj' := List.mem_range.mp hj
    simp [hi', hj']
  rw [hnan]
  simp only [Bool.false_eq_true, if_false]
  rw [permRyser_eq, permBbfg_eq, toMatrix_getD, ite_self]
  split
  · rename_i h; subst h; simp [Matrix.permanent]
  split
  · rename_i _ h; subst h; simp [Matrix.permanent]
  split
  · rename_i _ _ h; subst h
    rw [← permSpec_eq]
    simp only [permSpec, Fin.prod_univ_two]
    congr 1
    rw [show (Finset.univ : Finset (Equiv.Perm (Fin 2))) = {1, Equiv.swap 0 1} by decide]
    rw [Finset.sum_pair (by decide)]
    simp
  split
  · rename_i _ _ _ h; subst h
    rw [← permSpec_eq]
    simp only [permSpec, Fin.prod_univ_three]
    congr 1
    rw [show (Finset.univ : Finset (Equiv.Perm (Fin 3))) = {1, Equiv.swap 0 1, Equiv.swap 0 2,
      Equiv.swap 1 2, Equiv.swap 0 1 * Equiv.swap 1 2, Equiv.swap 1 2 * Equiv.swap 0 1} by decide]
    rw [Finset.sum_insert (by decide), Finset.sum_insert (by decide), Finset.sum_insert (by decide),
      Finset.sum_insert (by decide), Finset.sum_pair (by decide)]
    rw [show (Equiv.swap 0 1 * Equiv.swap 1 2 : Equiv.Perm (Fin 3)) 0 = 1 by decide,
      show (Equiv.swap 0 1 * Equiv.swap 1 2 : Equiv.Perm (Fin 3)) 1 = 2 by decide,
      show (Equiv.swap 0 1 * Equiv.swap 1 2 : Equiv.Perm (Fin 3)) 2 = 0 by decide,
      show (Equiv.swap 1 2 * Equiv.swap 0 1 : Equiv.Perm (Fin 3)) 0 = 2 by decide,
      show (Equiv.swap 1 2 * Equiv.swap 0 1 : Equiv.Perm (Fin 3)) 1 = 0 by decide,
      show (Equiv.swap 1 2 * Equiv.swap 0 1 : Equiv.Perm (Fin 3)) 2 = 1 by decide,
      show (Equiv.swap 0 1 : Equiv.Perm (Fin 3)) 0 = 1 by decide,
      show (Equiv.swap 0 1 : Equiv.Perm (Fin 3)) 1 = 0 by decide,
      show (Equiv.swap 0 1 : Equiv.Perm (Fin 3)) 2 = 2 by decide,
      show (Equiv.swap 0 2 : Equiv.Perm (Fin 3)) 0 = 2 by decide,
      show (Equiv.swap 0 2 : Equiv.Perm (Fin 3)) 1 = 1 by decide,
      show (Equiv.swap 0 2 : Equiv.Perm (Fin 3)) 2 = 0 by decide,
      show (Equiv.swap 1 2 : Equiv.Perm (Fin 3)) 0 = 0 by decide,
      show (Equiv.swap 1 2 : Equiv.Perm (Fin 3)) 1 = 2 by decide,
      show (Equiv.swap 1 2 : Equiv.Perm (Fin 3)) 2 = 1 by decide]
    simp
    ring
  · rfl

/-- **C01** (error branches) a non-array raises `TypeError`. -/
theorem perm_not_array (method : String) : perm (PyObj.other : PyObj K) method = .error .typeError := rfl

/-- **C01** (error branches) `perm` succeeds on an array iff it is square and NaN free, and otherwise raises
`ValueError`. -/
theorem perm_raises_iff (r c : ℕ) (e : ℕ → ℕ → Option K) (method : String) :
    perm (.arr r c e) method = .error .valueError ↔
      (r ≠ c ∨ ∃ i < r, ∃ j < c, e i j = none) := by
  by_cases hrc : r = c
  · subst hrc
    by_cases hn : ∃ i < r, ∃ j < r, e i j = none
    · have : ((List.range r).any fun i => (List.range r).any fun j => (e i j).isNone) = true := by
        obtain ⟨i, hi, j, hj, h⟩ := hn
        simp only [List.any_eq_true, List.mem_range]
        exact ⟨i, hi, j, hj, by simp [h]⟩
      simp [perm, this, hn]
    · have hh : perm (.arr r r e) method = perm (PyObj.ofMatrix
          (Matrix.of fun (i j : Fin r) => (e i j).getD 0) e) method := by
        congr 1
        unfold PyObj.ofMatrix
        congr 1
        funext i j
        split
        · rename_i h
          push Not at hn
          have := hn i h.1 j h.2
          cases he : e i j
          · exact absurd he this
          · simp [he]
        · rfl
      rw [hh, perm_correct]
      simp only [ne_eq, not_true_eq_false, false_or, hn, iff_false]
      intro h; cases h
  · simp [perm, hrc]

/-- **C02** both formulas return the permanent on each square matrix (so they agree, and neither loop raises). -/
theorem perm_ryser_correct {n : ℕ} (A : Matrix (Fin n) (Fin n) K) (junk : ℕ → ℕ → K) :
    permRyser n (ofMatrix A junk) = .ok (permSpec A) := by
  rw [permRyser_eq, permSpec_eq]; congr 2; ext i j; simp [toMatrix, ofMatrix]

/-- **C02** -/
theorem perm_bbfg_correct {n : ℕ} (A : Matrix (Fin n) (Fin n) K) (junk : ℕ → ℕ → K) :
    permBbfg n (ofMatrix A junk) = .ok (permSpec A) := by
  rw [permBbfg_eq, permSpec_eq]; congr 2; ext i j; simp [toMatrix, ofMatrix]

/-- **C02** the two algorithms agree on every input, including junk. -/
theorem perm_ryser_eq_bbfg {n : ℕ} (M : ℕ → ℕ → K) : permRyser n M = permBbfg n M := by
  rw [permRyser_eq, permBbfg_eq]

/-- **C02** consecutive Gray codes below `2^n` differ in exactly one bit and its index is below `n`; the table
lookup returns that index. -/
theorem gray_lookup_succeeds {n k : ℕ} (hk : k + 1 < 2 ^ n) :
    ∃ t < n, (k ^^^ (k / 2)) ^^^ ((k + 1) ^^^ ((k + 1) / 2)) = 2 ^ t ∧
      pyIndex ((List.range n).map (2 ^ ·)) ((k ^^^ (k / 2)) ^^^ ((k + 1) ^^^ ((k + 1) / 2))) = .ok t := by
  obtain ⟨t, ht, hd⟩ := gray_step k
  have htn := step_index_lt hk hd
  refine ⟨t, htn, ht, ?_⟩
  have := idxOf_pows n t htn
  rw [← ht] at this
  exact this

/-! Non-vacuity: concrete evaluations of the model. -/
example : permSpec (!![1, 2; 3, 4] : Matrix (Fin 2) (Fin 2) ℚ) = 10 := by
  rw [permSpec]
  rw [show (Finset.univ : Finset (Equiv.Perm (Fin 2))) = {1, Equiv.swap 0 1} by decide]
  rw [Finset.sum_pair (by decide)]
  norm_num [Fin.prod_univ_two]

example : (2 : ℕ) + 1 < 2 ^ 2 := by norm_num

example : perm (PyObj.ofMatrix (!![1, 2; 3, 4] : Matrix (Fin 2) (Fin 2) ℚ) fun _ _ => none) "ryser"
    = .ok 10 := by
  simp [perm, PyObj.ofMatrix, List.range_succ]; norm_num

example : perm (.arr 1 2 (fun _ _ => some (1 : ℚ))) "bbfg" = .error .valueError := rfl

end Verif.Props
