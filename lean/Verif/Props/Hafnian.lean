/-
Properties C05, C06, C07, C10, C54, C55: `hafnian`, `hafnian_repeated`, `recursive_hafnian`, `input_validation`.
Specifications: `Verif/Spec/Matching.lean`.
-/
import Verif.Lemmas.HafFront
import Verif.Lemmas.RecHaf
import Verif.Lemmas.Householder
import Verif.Model.Tolerance
import Mathlib.Analysis.Complex.Basic
import Mathlib.LinearAlgebra.Matrix.Symmetric
import Mathlib.LinearAlgebra.Matrix.Notation
import Mathlib.Tactic.NormNum
import Mathlib.Tactic.FinCases

set_option linter.unusedSectionVars false
set_option linter.unusedSimpArgs false

namespace Verif.Props
open Verif Verif.Model

section generic
variable {K : Type} [Field K] [CharZero K]

/-- the entries that the code works with -/
def entries {n : ℕ} (A : Matrix (Fin n) (Fin n) K) (junk : ℕ → ℕ → Option K) : ℕ → ℕ → K := fun i j =>
  ((if h : i < n ∧ j < n then some (A ⟨i, h.1⟩ ⟨j, h.2⟩) else junk i j) : Option K).getD 0

theorem entries_fin {n : ℕ} (A : Matrix (Fin n) (Fin n) K) (junk : ℕ → ℕ → Option K) (i j : Fin n) :
    entries A junk i j = A i j := by simp [entries]

theorem entries_lt {n : ℕ} (A : Matrix (Fin n) (Fin n) K) (junk : ℕ → ℕ → Option K) {i j : ℕ} (hi : i < n) (hj : j < n) :
    entries A junk i j = A ⟨i, hi⟩ ⟨j, hj⟩ := by simp [entries, hi, hj]

theorem allClose2_eq_true (close : K → K → Bool) (r c : ℕ) (a b : ℕ → ℕ → K) :
    allClose2 close r c a b = true ↔ ∀ i < r, ∀ j < c, close (a i j) (b i j) = true := by
  simp [allClose2]

theorem inputValidation_ok (close : K → K → Bool) (hrefl : ∀ x, close x x = true) {n : ℕ} (A : Matrix (Fin n) (Fin n) K)
    (hA : A.IsSymm) (junk : ℕ → ℕ → Option K) :
    inputValidation close (PyObj.ofMatrix A junk) = .ok (n, entries A junk) := by
  unfold inputValidation PyObj.ofMatrix
  simp only [ne_eq, not_true_eq_false, if_false]
  have hnan : ((List.range n).any fun i => (List.range n).any fun j =>
      (if h : i < n ∧ j < n then some (A ⟨i, h.1⟩ ⟨j, h.2⟩) else junk i j).isNone) = false := by
    rw [List.any_eq_false]
    intro i hi
    rw [Bool.not_eq_true, List.any_eq_false]
    intro j hj
    simp [List.mem_range.mp hi, List.mem_range.mp hj]
  rw [hnan]
  simp only [Bool.false_eq_true, if_false]
  rw [if_pos]
  · rfl
  · rw [allClose2_eq_true]
    intro i hi j hj
    have : entries A junk i j = entries A junk j i := by
      rw [entries_lt A junk hi hj, entries_lt A junk hj hi]; exact (hA.apply _ _).symm
    unfold entries at this
    rw [this]; exact hrefl _

theorem entries_symm {n : ℕ} (A : Matrix (Fin n) (Fin n) K) (hA : A.IsSymm) (junk : ℕ → ℕ → Option K) :
    ∀ i < n, ∀ j < n, entries A junk i j = entries A junk j i := by
  intro i hi j hj
  rw [entries_lt A junk hi hj, entries_lt A junk hj hi]; exact (hA.apply _ _).symm

theorem lh_entries {n : ℕ} (A : Matrix (Fin n) (Fin n) K) (junk : ℕ → ℕ → Option K) (D : ℕ → K) (D' : Fin n → K) (hD : ∀ i : Fin n, D i = D' i) :
    lh D (entries A junk) (List.range n) = lh D' (fun i j => A i j) (List.finRange n) := by
  have : List.range n = (List.finRange n).map (fun i : Fin n => (i : ℕ)) := by
    apply List.ext_getElem <;> simp
  rw [this, lh_map]
  apply lh_congr
  · intro i _; exact hD i
  · intro i _ j _; exact entries_fin A junk i j

theorem spec_haf_entries {n : ℕ} (A : Matrix (Fin n) (Fin n) K) (junk : ℕ → ℕ → Option K) :
    Spec.haf A = lh (fun _ => 0) (entries A junk) (List.range n) := by
  rw [spec_haf_eq, lh_entries A junk _ (fun _ => 0) (fun _ => rfl)]

theorem spec_lhaf_entries {n : ℕ} (A : Matrix (Fin n) (Fin n) K) (junk : ℕ → ℕ → Option K) :
    Spec.lhaf A = lh (fun i => entries A junk i i) (entries A junk) (List.range n) := by
  rw [spec_lhaf_eq, lh_entries A junk _ (fun i => A i i) (fun i => entries_fin A junk i i)]

theorem lh_zero_offdiag {ι : Type*} (D : ι → K) (A : ι → ι → K) (l : List ι) (hl : l.Nodup)
    (h : ∀ i ∈ l, ∀ j ∈ l, i ≠ j → A i j = 0) : lh D A l = (l.map D).prod := by
  rw [lh_congr_nodup hl (fun _ _ => rfl) (A' := fun _ _ => 0) h]
  clear h hl
  induction l with
  | nil => simp [lh, lhN]
  | cons x xs ih =>
    rw [lh_cons, ih, List.map_cons, List.prod_cons]
    rw [eSum_congr (G := fun _ _ => 0) (by intros; simp), eSum_zero, add_zero]

theorem lh_zero_mat {ι : Type*} (D : ι → K) (l : List ι) : lh D (fun _ _ => 0) l = (l.map D).prod := by
  induction l with
  | nil => simp [lh, lhN]
  | cons x xs ih =>
    rw [lh_cons, ih, List.map_cons, List.prod_cons]
    rw [eSum_congr (G := fun _ _ => 0) (by intros; simp), eSum_zero, add_zero]

theorem range4 : List.range 4 = [0, 1, 2, 3] := rfl
theorem range3 : List.range 3 = [0, 1, 2] := rfl
theorem range2 : List.range 2 = [0, 1] := rfl

/-- Generic form: the shortcut for diagonal matrices is the only place where tolerances matter. -/
theorem hafnian_generic {pt : PowerTrace K} (hpt : PTSpec pt) (close : K → K → Bool) (hrefl : ∀ x, close x x = true)
    {n : ℕ} (A : Matrix (Fin n) (Fin n) K) (hA : A.IsSymm) (junk : ℕ → ℕ → Option K)
    (hdiag : (∀ i j : Fin n, close (if i = j then A i j else 0) (A i j) = true) → ∀ i j : Fin n, i ≠ j → A i j = 0)
    (loop : Bool) (method : String) (hm : method = "glynn" ∨ method = "inclexcl" ∨ method = "recursive") :
    hafnian pt close (PyObj.ofMatrix A junk) loop method = .ok (if loop then Spec.lhaf A else Spec.haf A) := by
  unfold hafnian
  rw [inputValidation_ok close hrefl A hA junk]
  have hsy := entries_symm A hA junk
  rw [spec_haf_entries A junk, spec_lhaf_entries A junk]
  have hd : allClose2 close n n (diagDiag (entries A junk)) (entries A junk) = true →
      ∀ i < n, ∀ j < n, i ≠ j → entries A junk i j = 0 := by
    intro h
    rw [allClose2_eq_true] at h
    have := hdiag (fun i j => by
      have := h i i.2 j j.2
      simp only [diagDiag, entries_fin] at this
      simpa [Fin.ext_iff] using this)
    intro i hi j hj hij
    rw [entries_lt A junk hi hj]
    exact this _ _ (by simpa [Fin.ext_iff] using hij)
  generalize entries A junk = a at *
  show (if n = 0 then _ else _) = _
  by_cases h0 : n = 0
  · subst h0; cases loop <;> simp [lh, lhN] <;> rfl
  rw [if_neg h0]
  by_cases hodd : n % 2 ≠ 0 ∧ loop = false
  · rw [if_pos hodd, hodd.2]
    rw [lh_odd_zero _ _ (by simp; omega)]; rfl
  rw [if_neg hodd]
  by_cases hdd : allClose2 close n n (diagDiag a) a = true
  · rw [if_pos hdd]
    have hz := hd hdd
    have e : ∀ D : ℕ → K, lh D a (List.range n) = ((List.range n).map D).prod := fun D =>
      lh_zero_offdiag D a _ List.nodup_range fun i hi j hj => hz i (by simpa using hi) j (by simpa using hj)
    rw [e, e]
    cases loop
    · have : ((List.range n).map fun _ => (0 : K)).prod = 0 := by
        apply List.prod_eq_zero; simp; exact h0
      rw [this]; rfl
    · rfl
  rw [if_neg hdd]
  by_cases h2 : n = 2
  · subst h2
    rw [if_pos rfl, range2]
    cases loop <;> simp [lh_cons, eSum_cons, lh, lhN] <;> first | rfl | (congr 1; ring)
  rw [if_neg h2]
  by_cases h3 : n = 3 ∧ loop = true
  · rw [if_pos h3]
    obtain ⟨rfl, rfl⟩ := h3
    rw [range3]
    simp only [lh_cons, eSum_cons, eSum_nil, if_true]
    simp only [lh, lhN, List.length_nil]
    show Except.ok _ = _
    congr 1
    ring
  rw [if_neg h3]
  by_cases h4 : n = 4
  · subst h4
    rw [if_pos rfl, range4]
    cases loop
    · simp only [lh_cons, eSum_cons, eSum_nil, Bool.false_eq_true, if_false]
      simp only [lh, lhN, List.length_nil]
      show Except.ok _ = _
      congr 1
      ring
    · simp only [lh_cons, eSum_cons, eSum_nil, if_true]
      simp only [lh, lhN, List.length_nil]
      show Except.ok _ = _
      congr 1
      ring
  rw [if_neg h4]
  cases loop
  · have heven : n % 2 = 0 := by
      by_contra h; exact hodd ⟨h, rfl⟩
    obtain ⟨p, rfl⟩ : ∃ p, n = 2 * p := ⟨n / 2, by omega⟩
    simp only [Bool.false_eq_true, if_false]
    rcases hm with rfl | rfl | rfl
    · simp only [show ¬ ("glynn" = "recursive") by decide, show ¬ ("glynn" = "inclexcl") by decide, if_false, if_true]
      exact hafFront_none hpt _ a hsy true
    · simp only [show ¬ ("inclexcl" = "recursive") by decide, if_false, if_true]
      exact hafFront_none hpt _ a hsy false
    · simp only [if_true]
      exact recursiveHafnian_eq p a hsy
  · simp only [if_true]
    exact loopHafnian_none hpt n a hsy true

theorem prod_repeated (m : ℕ → K) (rpt : List ℕ) :
    ((Spec.repeatedIndices rpt).map m).prod = ((List.range rpt.length).map fun i => m i ^ (rpt.getD i 0)).prod := by
  unfold Spec.repeatedIndices
  rw [List.map_flatMap]
  generalize List.range rpt.length = L
  induction L with
  | nil => rfl
  | cons x xs ih => rw [List.flatMap_cons, List.prod_append, ih, List.map_cons, List.prod_cons, List.map_replicate, List.prod_replicate]

theorem lh_zero_mat' {n : ℕ} (a : ℕ → ℕ → K) (D : ℕ → K) (l : List ℕ) (hl : ∀ i ∈ l, i < n) (hz : ∀ i < n, ∀ j < n, a i j = 0) :
    lh D a l = (l.map D).prod := by
  rw [lh_congr (A' := fun _ _ => 0) (fun _ _ => rfl) (fun i hi j hj => hz i (hl i hi) j (hl j hj)), lh_zero_mat]

/-- Generic form of `hafnian_repeated`; `mu` has the length of `A`. -/
theorem hafnianRepeated_generic {pt : PowerTrace K} (hpt : PTSpec pt) (close : K → K → Bool) (hrefl : ∀ x, close x x = true)
    {n : ℕ} (A : Matrix (Fin n) (Fin n) K) (hA : A.IsSymm) (junk : ℕ → ℕ → Option K)
    (hzero : (∀ i j : Fin n, close (A i j) 0 = true) → A = 0)
    (rpt : List ℕ) (hr : rpt.length = n) (mu : Option (ℕ → K)) (loop glynn : Bool) :
    hafnianRepeated pt close (PyObj.ofMatrix A junk) (rpt.map fun k : ℕ => (k : ℤ)) (mu.map fun m => (n, m)) loop glynn
      = .ok (if loop then Spec.lhaf (Spec.repeatedMatrixLoop (entries A junk) (mu.getD fun i => entries A junk i i) rpt)
          else Spec.haf (Spec.repeatedMatrix (entries A junk) rpt)) := by
  unfold hafnianRepeated
  rw [inputValidation_ok close hrefl A hA junk, spec_lhaf_repeated, spec_haf_repeated]
  have hsy := entries_symm A hA junk
  have hz : allClose2 close n n (entries A junk) (fun _ _ => 0) = true → ∀ i < n, ∀ j < n, entries A junk i j = 0 := by
    intro h
    rw [allClose2_eq_true] at h
    have := hzero (fun i j => by have := h i i.2 j j.2; simpa only [entries_fin] using this)
    intro i hi j hj
    rw [entries_lt A junk hi hj, this]; rfl
  generalize entries A junk = a at *
  have hnud : (rpt.map fun k : ℕ => (k : ℤ)).map Int.toNat = rpt := by
    rw [List.map_map]; exact List.map_id'' (fun k => Int.toNat_natCast k) rpt
  show (if _ then _ else _) = _
  simp only [List.length_map]
  rw [if_neg (by simpa using hr)]
  rw [if_neg (by simp)]
  rw [hnud]
  have hlen := repeatedIndices_length rpt
  have hlt : ∀ i ∈ Spec.repeatedIndices rpt, i < n := fun i hi => hr ▸ repeatedIndices_lt hi
  by_cases hall : rpt.all (· = 0) = true
  · rw [if_pos hall]
    have : rpt.sum = 0 := by
      rw [List.sum_eq_zero_iff]; simpa using hall
    have : Spec.repeatedIndices rpt = [] := List.eq_nil_of_length_eq_zero (by omega)
    rw [this]
    cases loop <;> rfl
  rw [if_neg hall]
  by_cases hodd : rpt.sum % 2 ≠ 0 ∧ loop = false
  · rw [if_pos hodd, hodd.2, lh_odd_zero _ _ (by omega)]; rfl
  rw [if_neg hodd]
  have hmu : (mu.map fun m => (n, m)).getD (n, fun i => a i i) = (n, mu.getD fun i => a i i) := by cases mu <;> rfl
  rw [hmu]
  dsimp only
  by_cases hzz : allClose2 close n n a (fun _ _ => 0) = true
  · rw [if_pos hzz]
    rw [lh_zero_mat' a _ _ hlt (hz hzz), lh_zero_mat' a _ _ hlt (hz hzz)]
    cases loop
    · have : ((Spec.repeatedIndices rpt).map fun _ => (0 : K)).prod = 0 := by
        apply List.prod_eq_zero
        simp only [List.mem_map, and_true, exists_eq_right]
        simp only [List.all_eq_true, not_forall, decide_eq_true_eq] at hall
        obtain ⟨x, hx, h⟩ := hall
        have h1 : 0 < rpt.sum := lt_of_lt_of_le (Nat.pos_of_ne_zero h) (List.single_le_sum (by simp) x hx)
        have h2 : Spec.repeatedIndices rpt ≠ [] := by
          intro h3; rw [h3] at hlen; simp at hlen; omega
        exact List.exists_mem_of_ne_nil _ h2 |>.imp fun i hi => hi
      rw [this]; rfl
    · rw [if_pos rfl, if_pos rfl, prod_repeated, hr]; rfl
  rw [if_neg hzz, if_neg (by simp)]
  cases loop
  · exact hafFront_eq hpt n a hsy rpt hr glynn
  · exact loopHafnian_eq hpt n a _ hsy rpt hr glynn

end generic

/-! ### Final statements over ℝ and ℂ, with the modelled `powertrace` and numpy's closeness test -/

section final
variable {K : Type} [RCLike K]

theorem isClose_refl {rtol atol : ℝ} (hr : 0 ≤ rtol) (ha : 0 ≤ atol) (x : K) : isClose rtol atol x x = true := by
  simp [isClose]; positivity

theorem isClose_zero (x y : K) : isClose 0 0 x y = true ↔ x = y := by
  simp [isClose, sub_eq_zero]

/-- **C05** for every size, every symmetric matrix and every documented method, `hafnian(A)` with tolerances 0 is the
sum over perfect matchings. -/
theorem hafnian_correct {n : ℕ} (A : Matrix (Fin n) (Fin n) K) (hA : A.IsSymm) (junk : ℕ → ℕ → Option K)
    (method : String) (hm : method = "glynn" ∨ method = "inclexcl" ∨ method = "recursive") :
    hafnian powertrace (isClose 0 0) (PyObj.ofMatrix A junk) false method = .ok (Spec.haf A) := by
  rw [hafnian_generic powertrace_PTSpec (isClose 0 0) (isClose_refl le_rfl le_rfl) A hA junk ?_ false method hm]
  · rfl
  · intro h i j hij
    have := h i j
    rw [isClose_zero, if_neg hij] at this
    exact this.symm

/-- **C06** the loop hafnian, same generality (even and odd sizes). -/
theorem hafnian_loop_correct {n : ℕ} (A : Matrix (Fin n) (Fin n) K) (hA : A.IsSymm) (junk : ℕ → ℕ → Option K)
    (method : String) (hm : method = "glynn" ∨ method = "inclexcl" ∨ method = "recursive") :
    hafnian powertrace (isClose 0 0) (PyObj.ofMatrix A junk) true method = .ok (Spec.lhaf A) := by
  rw [hafnian_generic powertrace_PTSpec (isClose 0 0) (isClose_refl le_rfl le_rfl) A hA junk ?_ true method hm]
  · rfl
  · intro h i j hij
    have := h i j
    rw [isClose_zero, if_neg hij] at this
    exact this.symm

/-- **C06** with zero diagonal the loop hafnian is the hafnian. -/
theorem hafnian_loop_zero_diag {n : ℕ} (A : Matrix (Fin n) (Fin n) K) (hA : A.IsSymm) (hd : ∀ i, A i i = 0)
    (junk : ℕ → ℕ → Option K) (method : String) (hm : method = "glynn" ∨ method = "inclexcl" ∨ method = "recursive") :
    hafnian powertrace (isClose 0 0) (PyObj.ofMatrix A junk) true method
      = hafnian powertrace (isClose 0 0) (PyObj.ofMatrix A junk) false method := by
  rw [hafnian_correct A hA junk method hm, hafnian_loop_correct A hA junk method hm, spec_haf_eq, spec_lhaf_eq]
  congr 1
  exact lh_congr (fun i _ => hd i) fun _ _ _ _ => rfl

/-- **C05/C06/C54** with arbitrary non-negative tolerances: exact unless the matrix is within tolerance of its diagonal
without being diagonal. -/
theorem hafnian_tolerance {n : ℕ} (rtol atol : ℝ) (hr : 0 ≤ rtol) (ha : 0 ≤ atol) (A : Matrix (Fin n) (Fin n) K) (hA : A.IsSymm)
    (junk : ℕ → ℕ → Option K)
    (hdiag : (∀ i j : Fin n, i ≠ j → ‖A i j‖ ≤ atol + rtol * ‖A i j‖) → ∀ i j : Fin n, i ≠ j → A i j = 0)
    (loop : Bool) (method : String) (hm : method = "glynn" ∨ method = "inclexcl" ∨ method = "recursive") :
    hafnian powertrace (isClose rtol atol) (PyObj.ofMatrix A junk) loop method
      = .ok (if loop then Spec.lhaf A else Spec.haf A) := by
  apply hafnian_generic powertrace_PTSpec (isClose rtol atol) (isClose_refl hr ha) A hA junk ?_ loop method hm
  intro h
  apply hdiag
  intro i j hij
  have := h i j
  rw [if_neg hij] at this
  simpa [isClose] using this

/-- **C54** what the shortcut does: a matrix of positive even size within tolerance of its diagonal gives hafnian 0 and
loop hafnian the product of the diagonal. -/
theorem hafnian_shortcut {n : ℕ} (hn : 0 < n) (hev : n % 2 = 0) (rtol atol : ℝ) (hr : 0 ≤ rtol) (ha : 0 ≤ atol)
    (A : Matrix (Fin n) (Fin n) K) (hA : A.IsSymm) (junk : ℕ → ℕ → Option K)
    (hd : ∀ i j : Fin n, i ≠ j → ‖A i j‖ ≤ atol + rtol * ‖A i j‖) (method : String) :
    hafnian powertrace (isClose rtol atol) (PyObj.ofMatrix A junk) false method = .ok 0 ∧
      hafnian powertrace (isClose rtol atol) (PyObj.ofMatrix A junk) true method = .ok (∏ i, A i i) := by
  have hc : allClose2 (isClose rtol atol) n n (diagDiag (entries A junk)) (entries A junk) = true := by
    rw [allClose2_eq_true]
    intro i hi j hj
    rw [diagDiag]
    by_cases hij : i = j
    · rw [if_pos hij]; exact isClose_refl hr ha _
    · rw [if_neg hij, entries_lt A junk hi hj]
      simpa [isClose] using hd ⟨i, hi⟩ ⟨j, hj⟩ (by simpa using hij)
  unfold hafnian
  rw [inputValidation_ok _ (isClose_refl hr ha) A hA junk]
  constructor
  · show (if n = 0 then _ else _) = _
    rw [if_neg (by omega), if_neg (by omega), if_pos hc]; rfl
  · show (if n = 0 then _ else _) = _
    rw [if_neg (by omega), if_neg (by simp), if_pos hc, if_pos rfl]
    show Except.ok _ = _
    congr 1
    have : List.range n = (List.finRange n).map (fun i : Fin n => (i : ℕ)) := by
      apply List.ext_getElem <;> simp
    rw [this, List.map_map, ← List.ofFn_eq_map, List.prod_ofFn]
    apply Finset.prod_congr rfl
    intro i _
    exact entries_fin A junk i i

/-- **C54** with numpy's default tolerances the hafnian of `[[0, 1e-9], [1e-9, 0]]` is returned as 0, not `1e-9`. -/
theorem hafnian_default_tolerance_wrong :
    ∃ A : Matrix (Fin 2) (Fin 2) ℂ, A.IsSymm ∧
      hafnian powertrace (isClose 1e-5 1e-8) (PyObj.ofMatrix A fun _ _ => none) false "glynn" = .ok 0 ∧ Spec.haf A ≠ 0 := by
  refine ⟨!![0, 1e-9; 1e-9, 0], ?_, ?_, ?_⟩
  · ext i j; fin_cases i <;> fin_cases j <;> simp
  · apply (hafnian_shortcut (by norm_num) (by norm_num) 1e-5 1e-8 (by norm_num) (by norm_num) _ _ _ _ _).1
    · ext i j; fin_cases i <;> fin_cases j <;> simp
    · intro i j hij
      fin_cases i <;> fin_cases j <;> simp at hij ⊢ <;> norm_num
  · rw [spec_haf_eq]
    simp only [List.finRange_succ, List.finRange_zero, List.map_cons, List.map_nil, lh_cons, eSum_cons, eSum_nil]
    simp only [lh, lhN, List.length_nil]
    norm_num

/-- **C07** `hafnian_repeated` equals the (loop) hafnian of the explicitly repeated matrix, for all repetitions
(including zeros), both formulas, optional loop weights. -/
theorem hafnianRepeated_correct {n : ℕ} (A : Matrix (Fin n) (Fin n) K) (hA : A.IsSymm) (junk : ℕ → ℕ → Option K)
    (rpt : List ℕ) (hr : rpt.length = n) (mu : Option (ℕ → K)) (loop glynn : Bool) :
    hafnianRepeated powertrace (isClose 0 0) (PyObj.ofMatrix A junk) (rpt.map fun k : ℕ => (k : ℤ)) (mu.map fun m => (n, m))
        loop glynn
      = .ok (if loop then Spec.lhaf (Spec.repeatedMatrixLoop (ofMatrix A fun _ _ => 0) (mu.getD fun i => ofMatrix A (fun _ _ => 0) i i) rpt)
          else Spec.haf (Spec.repeatedMatrix (ofMatrix A fun _ _ => 0) rpt)) := by
  have h := hafnianRepeated_generic powertrace_PTSpec (isClose 0 0) (isClose_refl le_rfl le_rfl) A hA junk
    (fun h => by
      ext i j
      have := h i j
      rw [isClose_zero] at this
      simpa using this) rpt hr mu loop glynn
  rw [h]
  have hlt : ∀ i ∈ Spec.repeatedIndices rpt, i < n := fun i hi => hr ▸ repeatedIndices_lt hi
  have e : ∀ i < n, ∀ j < n, entries A junk i j = ofMatrix A (fun _ _ => 0) i j := by
    intro i hi j hj; rw [entries_lt A junk hi hj]; simp [ofMatrix, hi, hj]
  rw [spec_lhaf_repeated, spec_haf_repeated, spec_lhaf_repeated, spec_haf_repeated]
  congr 2
  · apply lh_congr
    · intro i hi
      cases mu with
      | none => exact e i (hlt i hi) i (hlt i hi)
      | some m => rfl
    · intro i hi j hj; exact e i (hlt i hi) j (hlt j hj)
  · exact lh_congr (fun _ _ => rfl) fun i hi j hj => e i (hlt i hi) j (hlt j hj)

/-- **C07** negative repetitions or a wrong length raise `ValueError`. -/
theorem hafnianRepeated_raises {n : ℕ} (A : Matrix (Fin n) (Fin n) K) (hA : A.IsSymm) (junk : ℕ → ℕ → Option K)
    (rpt : List ℤ) (h : rpt.length ≠ n ∨ ∃ k ∈ rpt, k < 0) (mu : Option (ℕ × (ℕ → K))) (loop glynn : Bool) :
    hafnianRepeated powertrace (isClose 0 0) (PyObj.ofMatrix A junk) rpt mu loop glynn = .error .valueError := by
  unfold hafnianRepeated
  rw [inputValidation_ok _ (isClose_refl le_rfl le_rfl) A hA junk]
  show (if _ then _ else _) = _
  by_cases hl : rpt.length ≠ n
  · rw [if_pos hl]; rfl
  · rw [if_neg hl]
    obtain ⟨k, hk, hk0⟩ := h.resolve_left hl
    rw [if_pos (by rw [List.any_eq_true]; exact ⟨k, hk, by simpa using hk0⟩)]; rfl

/-- **C10** `recursive_hafnian` on every symmetric matrix of even size. -/
theorem recursiveHafnian_correct {F : Type} [Field F] (p : ℕ) (A : Matrix (Fin (2 * p)) (Fin (2 * p)) F) (hA : A.IsSymm)
    (junk : ℕ → ℕ → F) : recursiveHafnian (2 * p) (2 * p) (ofMatrix A junk) = .ok (Spec.haf A) := by
  rw [recursiveHafnian_eq]
  · rw [spec_haf_eq]
    have : List.range (2 * p) = (List.finRange (2 * p)).map (fun i : Fin (2 * p) => (i : ℕ)) := by
      apply List.ext_getElem <;> simp
    rw [this, lh_map]
    congr 1
    apply lh_congr (fun _ _ => rfl)
    intro i _ j _; simp [ofMatrix]
  · intro i hi j hj
    simp only [ofMatrix, hi, hj, and_self, dif_pos]
    exact (hA.apply _ _).symm

/-- **C10** odd or non-square shapes raise `ValueError`. -/
theorem recursiveHafnian_raises {F : Type} [Field F] (r c : ℕ) (A : ℕ → ℕ → F) (h : r ≠ c ∨ r % 2 = 1) :
    recursiveHafnian r c A = .error .valueError := by
  unfold recursiveHafnian
  by_cases hrc : r ≠ c
  · rw [if_pos hrc]
  · rw [if_neg hrc, if_pos (by have := h.resolve_left hrc; omega)]

/-- **C55** `input_validation` accepts exactly the square, NaN-free arrays that are symmetric within tolerance. -/
theorem inputValidation_accepts_iff (rtol atol : ℝ) (r c : ℕ) (e : ℕ → ℕ → Option K) :
    (∃ x, inputValidation (isClose rtol atol) (.arr r c e) = .ok x) ↔
      r = c ∧ (∀ i < r, ∀ j < c, e i j ≠ none) ∧
        ∀ i < r, ∀ j < r, ∀ x y, e i j = some x → e j i = some y → ‖x - y‖ ≤ atol + rtol * ‖y‖ := by
  unfold inputValidation
  by_cases hrc : r = c
  · subst hrc
    simp only [ne_eq, not_true_eq_false, if_false]
    by_cases hn : ∀ i < r, ∀ j < r, e i j ≠ none
    · have hany : ((List.range r).any fun i => (List.range r).any fun j => (e i j).isNone) = false := by
        rw [List.any_eq_false]
        intro i hi
        rw [Bool.not_eq_true, List.any_eq_false]
        intro j hj
        have := hn i (by simpa using hi) j (by simpa using hj)
        simpa [Option.isNone_iff_eq_none] using this
      rw [hany]
      simp only [Bool.false_eq_true, if_false, true_and]
      have key : allClose2 (isClose rtol atol) r r (fun i j => (e i j).getD 0) (fun i j => (e j i).getD 0) = true ↔
          ∀ i < r, ∀ j < r, ∀ x y, e i j = some x → e j i = some y → ‖x - y‖ ≤ atol + rtol * ‖y‖ := by
        rw [allClose2_eq_true]
        constructor
        · intro h i hi j hj x y hx hy
          have := h i hi j hj
          simpa [hx, hy, isClose] using this
        · intro h i hi j hj
          obtain ⟨x, hx⟩ := Option.ne_none_iff_exists'.1 (hn i hi j hj)
          obtain ⟨y, hy⟩ := Option.ne_none_iff_exists'.1 (hn j hj i hi)
          simpa [hx, hy, isClose] using h i hi j hj x y hx hy
      rw [← key]
      constructor
      · rintro ⟨x, hx⟩
        refine ⟨hn, ?_⟩
        by_contra hk
        rw [if_neg hk] at hx
        cases hx
      · rintro ⟨_, hk⟩
        rw [if_pos hk]
        exact ⟨_, rfl⟩
    · have hany : ((List.range r).any fun i => (List.range r).any fun j => (e i j).isNone) = true := by
        push Not at hn
        obtain ⟨i, hi, j, hj, h⟩ := hn
        simp only [List.any_eq_true, List.mem_range]
        exact ⟨i, hi, j, hj, by simp [h]⟩
      rw [hany]
      simp only [if_true, true_and]
      constructor
      · rintro ⟨x, hx⟩; cases hx
      · rintro ⟨h, _⟩; exact absurd h hn
  · simp only [ne_eq, hrc, not_false_eq_true, if_true, false_and, iff_false]
    rintro ⟨x, hx⟩; cases hx

/-- **C55** what it raises otherwise: `TypeError` for a non-array, `ValueError` in each other case. -/
theorem inputValidation_raises (rtol atol : ℝ) :
    inputValidation (isClose rtol atol) (PyObj.other : PyObj K) = .error .typeError ∧
    ∀ r c (e : ℕ → ℕ → Option K), (¬ ∃ x, inputValidation (isClose rtol atol) (.arr r c e) = .ok x) →
      inputValidation (isClose rtol atol) (.arr r c e) = .error .valueError := by
  refine ⟨rfl, ?_⟩
  intro r c e h
  unfold inputValidation at *
  dsimp only at *
  by_cases h1 : r ≠ c
  · rw [if_pos h1]
  · rw [if_neg h1] at h ⊢
    split_ifs at h ⊢ with h2 h3
    · rfl
    · exact absurd ⟨_, rfl⟩ h
    · rfl

/-! Non-vacuity. -/
example : (!![1, 2, 3; 2, 5, 6; 3, 6, 9] : Matrix (Fin 3) (Fin 3) ℂ).IsSymm := by
  ext i j; fin_cases i <;> fin_cases j <;> rfl

/-- a symmetric 6×6 matrix (the sieve is used) whose hafnian is not trivial: all ones gives 15 -/
example : hafnian powertrace (isClose 0 0) (PyObj.ofMatrix (Matrix.of fun _ _ : Fin 6 => (1 : ℂ)) fun _ _ => none) false "glynn"
    = .ok 15 := by
  rw [hafnian_correct _ (by ext i j; rfl) _ _ (Or.inl rfl), spec_haf_eq]
  simp only [List.finRange_succ, List.finRange_zero, List.map_cons, List.map_nil, lh_cons, eSum_cons, eSum_nil, Matrix.of_apply]
  simp only [lh, lhN, List.length_nil]
  norm_num

/-- repetitions: the 1×1 matrix `[2]` repeated four times has hafnian `3·2²` -/
example : hafnianRepeated powertrace (isClose 0 0) (PyObj.ofMatrix (Matrix.of fun _ _ : Fin 1 => (2 : ℂ)) fun _ _ => none) [4] none
    false true = .ok 12 := by
  have h := hafnianRepeated_correct (Matrix.of fun _ _ : Fin 1 => (2 : ℂ)) (by ext i j; rfl) (fun _ _ => none) [4] rfl none false true
  refine Eq.trans h ?_
  simp only [Bool.false_eq_true, if_false]
  rw [spec_haf_repeated]
  have : Spec.repeatedIndices [4] = [0, 0, 0, 0] := rfl
  rw [this]
  simp only [lh_cons, eSum_cons, eSum_nil, ofMatrix]
  simp only [lh, lhN, List.length_nil]
  norm_num

end final
end Verif.Props
