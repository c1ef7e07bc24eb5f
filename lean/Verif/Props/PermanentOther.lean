/-
Property C16: `permanent_repeated`.
-/
import Verif.Model.PermanentOther
import Verif.Lemmas.PermL
import Verif.Props.Hafnian
import Verif.Props.Permanent

set_option linter.unusedSectionVars false
set_option linter.unusedSimpArgs false

namespace Verif.Props
open Verif Verif.Model

variable {K : Type} [RCLike K]

/-- **C16** for every square matrix `A` and every list `rpt` of repetitions (zeros included), `permanent_repeated(A, rpt)`
is the permanent of the matrix in which row `i` and column `i` of `A` are repeated `rpt[i]` times.
The hypothesis on the tolerance says that the "is the matrix zero" test of `hafnian_repeated` is right for `A`. -/
theorem permanentRepeated_correct {n : ℕ} (A : Matrix (Fin n) (Fin n) K) (junk : ℕ → ℕ → Option K)
    {rtol atol : ℝ} (hr : 0 ≤ rtol) (ha : 0 ≤ atol) (hz : A = 0 ∨ ∃ i j, atol < ‖A i j‖)
    (rpt : List ℕ) (hl : rpt.length = n) :
    permanentRepeated powertrace (isClose rtol atol) (PyObj.ofMatrix A junk) (rpt.map fun k : ℕ => (k : ℤ))
      = .ok (permSpec (Spec.repeatedMatrix (ofMatrix A fun _ _ => 0) rpt)) := by
  unfold permanentRepeated PyObj.ofMatrix
  simp only [ne_eq, not_true_eq_false, if_false]
  set B : ℕ → ℕ → Option K := fun i j =>
        if i < n then (if j < n then some 0 else
          if h : i < n ∧ (j - n) < n then some (A ⟨i, h.1⟩ ⟨j - n, h.2⟩) else junk i (j - n))
        else (if j < n then
          if h : j < n ∧ (i - n) < n then some (A ⟨j, h.1⟩ ⟨i - n, h.2⟩) else junk j (i - n) else some 0) with hB
  let a : ℕ → ℕ → K := ofMatrix A fun _ _ => 0
  let b : ℕ → ℕ → K := fun i j => if i < n then (if j < n then 0 else a i (j - n)) else (if j < n then a j (i - n) else 0)
  let Bm : Matrix (Fin (2 * n)) (Fin (2 * n)) K := Matrix.of fun i j => b i j
  have hBm : (PyObj.arr (2 * n) (2 * n) B : PyObj K) = PyObj.ofMatrix Bm B := by
    unfold PyObj.ofMatrix
    congr 1
    funext i j
    split
    · rename_i h
      have h1 : i - n < n ∨ i < n := by omega
      have h2 : j - n < n ∨ j < n := by omega
      simp only [hB, Bm, b, a, Matrix.of_apply, ofMatrix]
      split_ifs <;> first | rfl | omega
    · rfl
  have hsymm : Bm.IsSymm := by
    ext i j
    simp only [Matrix.transpose_apply, Bm, b, Matrix.of_apply]
    split_ifs <;> rfl
  rw [hBm, ← List.map_append]
  refine (hafnianRepeated_generic powertrace_PTSpec (isClose rtol atol) (isClose_refl hr ha) Bm hsymm B ?_ (rpt ++ rpt)
    (by simp [hl]; omega) none false true).trans ?_
  rotate_left
  · simp only [Bool.false_eq_true, if_false, spec_haf_repeated]
    congr 1
    rw [repeatedIndices_append, hl]
    set l := Spec.repeatedIndices rpt with hll
    have hlt : ∀ i ∈ l, i < n := fun i hi => hl ▸ repeatedIndices_lt hi
    have hen : ∀ i < 2 * n, ∀ j < 2 * n, entries Bm B i j = b i j := by
      intro i hi j hj
      rw [entries_lt Bm B hi hj]; rfl
    rw [lh_bipartite]
    · have hm := permL_map (entries Bm B) id (n + ·) l l
      rw [List.map_id] at hm
      refine hm.trans ?_
      rw [permL_congr (b := a), permSpec, Spec.repeatedMatrix]
      · exact permL_list a l
      · intro x hx y hy
        have := hlt x hx
        have := hlt y hy
        rw [hen _ (by simp only [id]; omega) _ (by omega)]
        simp only [b, id]
        rw [if_pos (by omega), if_neg (by omega)]
        congr 1; omega
    · intro x hx y hy
      have := hlt x hx
      have := hlt y hy
      rw [hen _ (by omega) _ (by omega)]
      simp only [b]
      rw [if_pos (by omega), if_pos (by omega)]
    · intro x hx y hy
      rw [List.mem_map] at hx hy
      obtain ⟨x, hx, rfl⟩ := hx
      obtain ⟨y, hy, rfl⟩ := hy
      have := hlt x hx
      have := hlt y hy
      rw [hen _ (by omega) _ (by omega)]
      simp only [b]
      rw [if_neg (by omega), if_neg (by omega)]
  · intro h
    rcases hz with hz | ⟨i, j, hij⟩
    · ext i j
      simp only [Bm, b, a, Matrix.of_apply, ofMatrix, hz]
      simp
    · exfalso
      have := h ⟨i, by omega⟩ ⟨n + j, by omega⟩
      simp only [isClose, Bm, b, a, Matrix.of_apply, ofMatrix] at this
      rw [if_pos i.2, if_neg (by omega)] at this
      simp at this
      linarith

/-- **C16** with tolerance 0 no hypothesis on the entries is needed. -/
theorem permanentRepeated_exact {n : ℕ} (A : Matrix (Fin n) (Fin n) K) (junk : ℕ → ℕ → Option K)
    (rpt : List ℕ) (hl : rpt.length = n) :
    permanentRepeated powertrace (isClose 0 0) (PyObj.ofMatrix A junk) (rpt.map fun k : ℕ => (k : ℤ))
      = .ok (permSpec (Spec.repeatedMatrix (ofMatrix A fun _ _ => 0) rpt)) := by
  apply permanentRepeated_correct A junk le_rfl le_rfl _ rpt hl
  by_cases h : A = 0
  · exact Or.inl h
  · right
    by_contra hc
    push Not at hc
    exact h (by ext i j; simpa using hc i j)

/-- **C16** a non-square array raises `ValueError`. -/
theorem permanentRepeated_nonsquare (close : K → K → Bool) (r c : ℕ) (h : c ≠ r) (e : ℕ → ℕ → Option K) (rpt : List ℤ) :
    permanentRepeated powertrace close (.arr r c e) rpt = .error .valueError := by
  simp [permanentRepeated, h]

/-- Non-vacuity: the default tolerances, a matrix with a repeated and a dropped row. -/
example : permanentRepeated powertrace (isClose 1e-5 1e-8) (PyObj.ofMatrix (!![1, 2; 3, 4] : Matrix (Fin 2) (Fin 2) ℂ)
      fun _ _ => none) [2, 0] = .ok 2 := by
  have h := permanentRepeated_correct (!![1, 2; 3, 4] : Matrix (Fin 2) (Fin 2) ℂ) (fun _ _ => none)
    (rtol := 1e-5) (atol := 1e-8) (by norm_num) (by norm_num) (Or.inr ⟨0, 0, by norm_num⟩) [2, 0] rfl
  refine h.trans ?_
  congr 1
  have : Spec.repeatedIndices [2, 0] = [0, 0] := by decide
  refine (permL_list (ofMatrix (!![1, 2; 3, 4] : Matrix (Fin 2) (Fin 2) ℂ) fun _ _ => 0) (Spec.repeatedIndices [2, 0])).symm.trans ?_
  rw [this]
  simp [permL, eSum_cons, ofMatrix]
  norm_num

end Verif.Props
