/-
Properties C08 (hafnian_sparse), C09 (hafnian_banded, bandwidth) and the `powerset` part of C60.
-/
import Verif.Lemmas.Banded
import Verif.Props.Hafnian

set_option linter.unusedSectionVars false
set_option linter.unusedSimpArgs false

namespace Verif.Props
open Verif Verif.Model

section generic
variable {K : Type} [Field K] [CharZero K]

/-! ### C60: powerset -/

/-- **C60** `powerset(s)` yields exactly the sub-tuples of `s` (order of `s` kept), each once when the elements of `s` are distinct, grouped by
size in increasing order, `2^n` in total. -/
theorem powerset_enumerates {α : Type*} (l : List α) :
    (∀ m, m ∈ powerset l ↔ m.Sublist l) ∧ (l.Nodup → (powerset l).Nodup) ∧
      ((powerset l).map List.length).Pairwise (· ≤ ·) ∧ (powerset l).length = 2 ^ l.length := by
  refine ⟨fun m => mem_powerset', powerset_nodup', ?_, ?_⟩
  · rw [List.pairwise_map]
    unfold powerset
    rw [List.pairwise_flatMap]
    refine ⟨?_, ?_⟩
    · intro r _
      refine List.pairwise_of_forall_mem_list ?_
      intro a ha b hb
      rw [(mem_combinations.mp ha).2, (mem_combinations.mp hb).2]
    · refine (List.pairwise_lt_range).imp ?_
      intro r r' h a ha b hb
      rw [(mem_combinations.mp ha).2, (mem_combinations.mp hb).2]; exact h.le
  · unfold powerset
    rw [List.length_flatMap]
    simp only [combinations_length]
    have := Nat.sum_range_choose l.length
    rw [← this]
    rfl

/-! ### C09 -/

/-- **C09** With an exact zero test `bandwidth(A)` is the least `w` such that the entries more than `w` above the diagonal vanish. -/
theorem bandwidth_correct (closeZero : K → Bool) (hz : ∀ x, closeZero x = true ↔ x = 0) (n : ℕ) (A : ℕ → ℕ → K) (w : ℕ) :
    (∀ i j, j < n → i + w < j → A i j = 0) ↔ bandwidth closeZero n A ≤ w := by
  unfold bandwidth
  set p : ℕ → Bool := fun i => !((List.range (n - i)).all fun k => closeZero (A k (k + i))) with hp
  have hpi : ∀ i, p i = false ↔ ∀ k, k + i < n → A k (k + i) = 0 := by
    intro i
    simp only [hp, Bool.not_eq_false', List.all_eq_true, List.mem_range, hz]
    constructor
    · intro h k hk; exact h k (by omega)
    · intro h k hk; exact h k (by omega)
  have hsort : ((List.range' 1 (n - 1)).reverse).Pairwise (· > ·) := by
    rw [List.pairwise_reverse]; exact List.pairwise_lt_range'
  cases hf : (List.range' 1 (n - 1)).reverse.find? p with
  | none =>
    simp only [Option.getD_none, Nat.zero_le, iff_true]
    rw [List.find?_eq_none] at hf
    intro i j hj hij
    have := hf (j - i) (by simp; omega)
    rw [Bool.not_eq_true, hpi] at this
    have := this i (by omega)
    rwa [show i + (j - i) = j by omega] at this
  | some b =>
    simp only [Option.getD_some]
    have hb := List.find?_some hf
    have hbm := List.mem_of_find?_eq_some hf
    constructor
    · intro h
      by_contra hlt
      have : p b = false := by
        rw [hpi]; intro k hk; exact h k (k + b) hk (by omega)
      rw [this] at hb; simp at hb
    · intro hbw i j hj hij
      rw [List.find?_eq_some_iff_append] at hf
      obtain ⟨_, l1, l2, he, hl1⟩ := hf
      have hm : j - i ∈ (List.range' 1 (n - 1)).reverse := by simp; omega
      rw [he] at hm hsort
      rcases List.mem_append.mp hm with h1 | h1
      · have := hl1 _ h1
        rw [Bool.not_eq_true', hpi] at this
        have := this i (by omega)
        rwa [show i + (j - i) = j by omega] at this
      · exfalso
        rw [List.pairwise_append] at hsort
        rcases List.mem_cons.mp h1 with h2 | h2
        · omega
        · have := (List.pairwise_cons.mp hsort.2.1).1 _ h2
          omega

end generic

section tol
variable {K : Type} [RCLike K]

/-- The value returned by `hafnian_banded` for whichever zero test its bandwidth computation uses: entries more than twice the computed
bandwidth from the diagonal are ignored, everything else is exact. -/
theorem hafnianBanded_value {n : ℕ} (hn : 0 < n) (A : Matrix (Fin n) (Fin n) K) (hA : A.IsSymm) (junk : ℕ → ℕ → Option K)
    (closeZero : K → Bool) (rtol atol : ℝ) (hr : 0 ≤ rtol) (ha : 0 ≤ atol) (loop : Bool) :
    ∃ w, w = bandwidth closeZero n (entries A junk) ∧
    hafnianBanded closeZero (isClose rtol atol) (PyObj.ofMatrix A junk) loop
      = .ok (if loop then Spec.lhaf (Matrix.of fun i j : Fin n => if (i : ℕ) ≤ j + 2 * w ∧ (j : ℕ) ≤ i + 2 * w then A i j else 0)
        else Spec.haf (Matrix.of fun i j : Fin n => if (i : ℕ) ≤ j + 2 * w ∧ (j : ℕ) ≤ i + 2 * w then A i j else 0)) := by
  refine ⟨_, rfl, ?_⟩
  unfold hafnianBanded
  rw [inputValidation_ok (isClose rtol atol) (isClose_refl hr ha) A hA junk]
  simp only [bind, Except.bind]
  rw [if_neg (by omega)]
  obtain ⟨d, h1, h2⟩ := banded_final
    (if loop then entries A junk else fun i j => entries A junk i j - diagDiag (entries A junk) i j)
    (bandwidth closeZero n (entries A junk)) n
  have h3 : (if loop then (entries A junk) 0 0 else (entries A junk) 0 0 - diagDiag (entries A junk) 0 0)
    = (if loop then entries A junk else fun i j => entries A junk i j - diagDiag (entries A junk) i j) 0 0 := by
    cases loop <;> rfl
  rw [h1]
  simp only [dictGet, h2]
  rw [bandVal_range]
  congr 1
  cases loop
  · simp only [Bool.false_eq_true, if_false]
    rw [spec_haf_eq_lhaf]
    congr 1
    ext i j
    simp only [Matrix.of_apply, diagDiag, Fin.ext_iff]
    by_cases hij : (i : ℕ) = j
    · simp [hij]
    · simp [hij, entries_fin]
  · simp only [if_true]
    congr 1
    ext i j
    simp [entries_fin]

/-- **C09** `hafnian_banded(A, loop)` is the (loop) hafnian for every symmetric matrix with at least one row, whatever its bandwidth (the zero
test inside `bandwidth` being exact). -/
theorem hafnianBanded_correct {n : ℕ} (hn : 0 < n) (A : Matrix (Fin n) (Fin n) K) (hA : A.IsSymm) (junk : ℕ → ℕ → Option K)
    (rtol atol : ℝ) (hr : 0 ≤ rtol) (ha : 0 ≤ atol) (loop : Bool) :
    hafnianBanded (fun x => isClose 0 0 x 0) (isClose rtol atol) (PyObj.ofMatrix A junk) loop
      = .ok (if loop then Spec.lhaf A else Spec.haf A) := by
  obtain ⟨w, hw, h⟩ := hafnianBanded_value hn A hA junk (fun x => isClose 0 0 x 0) rtol atol hr ha loop
  rw [h]
  have hb := (bandwidth_correct (fun x : K => isClose 0 0 x 0) (fun x => isClose_zero x 0) n (entries A junk) w).mpr hw.ge
  have e : (Matrix.of fun i j : Fin n => if (i : ℕ) ≤ j + 2 * w ∧ (j : ℕ) ≤ i + 2 * w then A i j else 0) = A := by
    ext i j
    simp only [Matrix.of_apply]
    split
    · rfl
    · rename_i hc
      rcases lt_or_ge ((i : ℕ) + w) j with h1 | h1
      · rw [← entries_fin A junk i j]; exact (hb i j j.2 h1).symm
      · have h2 : (j : ℕ) + w < i := by omega
        rw [← hA.apply i j, ← entries_fin A junk j i]; exact (hb j i i.2 h2).symm
  rw [e]

/-- An empty array makes `hafnian_banded` raise `IndexError` (it reads `A[0, 0]`). -/
theorem hafnianBanded_empty (A : Matrix (Fin 0) (Fin 0) K) (junk : ℕ → ℕ → Option K) (closeZero : K → Bool) (loop : Bool) :
    hafnianBanded closeZero (isClose 0 0) (PyObj.ofMatrix A junk) loop = .error .indexError := by
  unfold hafnianBanded
  rw [inputValidation_ok (isClose 0 0) (isClose_refl le_rfl le_rfl) A (by ext i; exact i.elim0) junk]
  rfl

/-- a tridiagonal matrix is a non-trivial instance -/
example : (0 < 5) ∧ (Matrix.of fun i j : Fin 5 => if (i : ℕ) ≤ j + 1 ∧ (j : ℕ) ≤ i + 1 then (1 : ℂ) else 0).IsSymm := by
  refine ⟨by norm_num, ?_⟩
  ext i j; simp [and_comm]

end tol

/-! ### C08 -/

section sparse
variable {K : Type} [Field K] [CharZero K]

/-- the submatrix on an index set, in increasing order -/
def subMatrix (A : ℕ → ℕ → K) (D : Finset ℕ) :
    Matrix (Fin (D.sort (· ≤ ·)).length) (Fin (D.sort (· ≤ ·)).length) K :=
  Matrix.of fun p q => A (D.sort (· ≤ ·))[p] (D.sort (· ≤ ·))[q]

/-- **C08** Every value `hafnian_sparse(A, D, loop)` can return, whichever elements `set.pop` removes and whatever the caches hold, is the
(loop) hafnian of the submatrix on the non-empty index set `D`; and it does return. The shortcut test `np.allclose(A, 0)` must not mistake a nonzero
matrix for zero. -/
theorem hafnianSparse_correct {n : ℕ} (A : Matrix (Fin n) (Fin n) K) (hA : A.IsSymm) (junk : ℕ → ℕ → K)
    (closeZero : K → Bool) (D : Option (Finset ℕ)) (loop : Bool)
    (hclose : (∀ i j : Fin n, (loop = true ∨ i ≠ j) → closeZero (A i j) = true) → ∀ i j : Fin n, (loop = true ∨ i ≠ j) → A i j = 0)
    (hD : ∀ i ∈ D.getD (Finset.range n), i < n) (hne : (D.getD (Finset.range n)).Nonempty) :
    (∀ v, HafnianSparse closeZero n (ofMatrix A junk) D loop v →
      v = if loop then Spec.lhaf (subMatrix (ofMatrix A junk) (D.getD (Finset.range n)))
        else Spec.haf (subMatrix (ofMatrix A junk) (D.getD (Finset.range n)))) ∧
    ∃ v, HafnianSparse closeZero n (ofMatrix A junk) D loop v := by
  set S := D.getD (Finset.range n) with hS
  set a := ofMatrix A junk with ha
  set B : ℕ → ℕ → K := if loop then a else fun i j => a i j - diagDiag a i j with hB
  have haij : ∀ i j : Fin n, a i j = A i j := by intro i j; simp [ha, ofMatrix]
  have hBij : ∀ i j : Fin n, B i j = if loop = true ∨ i ≠ j then A i j else 0 := by
    intro i j
    cases loop
    · simp only [hB, Bool.false_eq_true, if_false, diagDiag, haij, false_or, ne_eq, Fin.ext_iff]
      by_cases h : (i : ℕ) = j <;> simp [h]
    · simp [hB, haij]
  have hBsymm : ∀ i < n, ∀ j < n, B i j = B j i := by
    intro i hi j hj
    have h1 := hBij ⟨i, hi⟩ ⟨j, hj⟩
    have h2 := hBij ⟨j, hj⟩ ⟨i, hi⟩
    simp only at h1 h2
    rw [h1, h2, hA.apply]
    simp [eq_comm]
  have hval : lh (fun i => B i i) B (S.sort (· ≤ ·)) = if loop then Spec.lhaf (subMatrix a S) else Spec.haf (subMatrix a S) := by
    cases loop
    · simp only [Bool.false_eq_true, if_false]
      rw [subMatrix, spec_haf_list]
      apply lh_congr_nodup (Finset.sort_nodup _ _)
      · intro i _; simp [hB, diagDiag]
      · intro i _ j _ hij; simp [hB, diagDiag, hij]
    · simp only [if_true]
      have : subMatrix a S = Matrix.of fun p q : Fin (S.sort (· ≤ ·)).length =>
          if p = q then (fun i => a i i) (S.sort (· ≤ ·))[p] else a (S.sort (· ≤ ·))[p] (S.sort (· ≤ ·))[q] := by
        ext p q
        simp only [subMatrix, Matrix.of_apply]
        split
        · rename_i h; subst h; rfl
        · rfl
      rw [this]
      exact (spec_lhaf_list (fun i => a i i) a (S.sort (· ≤ ·))).symm
  have hzero : (∀ i < n, ∀ j < n, closeZero (B i j) = true) → ∀ i < n, ∀ j < n, B i j = 0 := by
    intro h
    have h1 := hclose (fun i j hij => by
      have := h i i.2 j j.2
      rw [hBij, if_pos hij] at this; exact this)
    intro i hi j hj
    have := hBij ⟨i, hi⟩ ⟨j, hj⟩
    simp only at this
    rw [this]
    split
    · exact h1 _ _ (by assumption)
    · rfl
  refine ⟨?_, ?_⟩
  · intro v hv
    cases hv with
    | zero h =>
      rw [← hval]
      have hB0 := hzero h
      obtain ⟨x, xs, hx⟩ : ∃ x xs, S.sort (· ≤ ·) = x :: xs := by
        cases hc : S.sort (· ≤ ·) with
        | nil =>
          have := congrArg List.length hc
          rw [Finset.length_sort, List.length_nil, Finset.card_eq_zero] at this
          exact absurd this hne.ne_empty
        | cons x xs => exact ⟨x, xs, rfl⟩
      have hmem : ∀ i ∈ x :: xs, i < n := by
        intro i hi; rw [← hx] at hi; exact hD i (by simpa using hi)
      have : lh (fun i => B i i) B (S.sort (· ≤ ·)) = lh (fun _ => 0) (fun _ _ => 0) (x :: xs) := by
        rw [hx]
        exact lh_congr (fun i hi => hB0 i (hmem i hi) i (hmem i hi)) fun i hi j hj => hB0 i (hmem i hi) j (hmem j hj)
      rw [this, lh_cons]
      simp [eSum_zero]
    | run h v hv => rw [← hval]; exact sparse_val hBsymm hv hD
  · by_cases h : ∀ i < n, ∀ j < n, closeZero (B i j) = true
    · exact ⟨0, .zero h⟩
    · classical
      obtain ⟨v, hv⟩ := sparse_exists n B (fun d => if hd : d.Nonempty then hd.choose else 0)
        (fun d hd => by simp only [hd, dif_pos]; exact hd.choose_spec) S
      exact ⟨v, .run h v hv⟩

/-- With an empty index set the zero matrix gives `0` although the hafnian of the empty matrix is `1`. -/
theorem hafnianSparse_empty_zero (closeZero : K → Bool) (hz : closeZero 0 = true) (n : ℕ) (loop : Bool) (v : K)
    (h : HafnianSparse closeZero n (fun _ _ => 0) (some ∅) loop v) :
    v = 0 ∧ Spec.lhaf (subMatrix (fun _ _ => (0 : K)) ∅) = 1 := by
  refine ⟨?_, ?_⟩
  · cases h with
    | zero => rfl
    | run h => exact absurd (fun i _ j _ => by cases loop <;> simp [diagDiag, hz]) h
  · have : ∀ l : List ℕ, l = [] → Spec.lhaf (Matrix.of fun _ _ : Fin l.length => (0 : K)) = 1 := by
      rintro l rfl
      rw [spec_lhaf_eq]; rfl
    exact this _ (Finset.sort_empty _)

example : ∃ (A : Matrix (Fin 3) (Fin 3) ℚ) (D : Finset ℕ), A.IsSymm ∧ D.Nonempty ∧ (∀ i ∈ D, i < 3) ∧ A 0 2 ≠ 0 :=
  ⟨Matrix.of fun i j => if i = j then 0 else 1, {0, 2}, by ext i j; simp [eq_comm], by simp, by simp, by simp⟩

end sparse

end Verif.Props
