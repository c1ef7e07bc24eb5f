/-
C28, C29, C32, C33: reordering, symplecticity tests, reduction of Gaussian states, loss channels.
-/
import Verif.Props.Symplectic

set_option linter.unusedSectionVars false
set_option linter.unusedSimpArgs false

namespace Verif.Props
open Verif.Model Verif.Model.Symp Verif.Spec Verif.Lemmas.Symp Matrix

/-! ### C28: reordering -/

/-- same shape, same entries inside the shape -/
def SameArr {K : Type} : Arr K → Arr K → Prop
  | .vec n v, .vec n' v' => n = n' ∧ ∀ i < n, v i = v' i
  | .mat r c A, .mat r' c' A' => r = r' ∧ c = c' ∧ ∀ i < r, ∀ j < c, A i j = A' i j
  | _, _ => False

theorem ind_left (h i : ℕ) (hi : i < 2 * h) : indXxpp h (indXpxp h i) = i := by
  unfold indXxpp indXpxp
  have hh : 0 < h := by omega
  rcases Nat.mod_two_eq_zero_or_one i with e | e
  · rw [e, zero_mul, zero_add, Nat.mod_eq_of_lt (show i / 2 < h by omega), Nat.div_eq_of_lt (show i / 2 < h by omega)]; omega
  · rw [e, one_mul, Nat.add_mod_left, Nat.mod_eq_of_lt (show i / 2 < h by omega), Nat.add_div_left _ hh, Nat.div_eq_of_lt (show i / 2 < h by omega)]
    omega

theorem ind_right (h i : ℕ) (hi : i < 2 * h) : indXpxp h (indXxpp h i) = i := by
  unfold indXxpp indXpxp
  have hh : 0 < h := by omega
  have hd : i / h = if i < h then 0 else 1 := by
    split_ifs with c
    · exact Nat.div_eq_of_lt c
    · exact Nat.div_eq_of_lt_le (by omega) (by omega)
  have hm : i % h = if i < h then i else i - h := by
    split_ifs with c
    · exact Nat.mod_eq_of_lt c
    · rw [Nat.mod_eq_sub_mod (by omega), Nat.mod_eq_of_lt (by omega)]
  rw [hd, hm]
  split_ifs with c
  · rw [show (2 * i + 0) % 2 = 0 by omega]; omega
  · rw [show (2 * (i - h) + 1) % 2 = 1 by omega]; omega

theorem indXpxp_lt (h i : ℕ) (hi : i < 2 * h) : indXpxp h i < 2 * h := by
  unfold indXpxp
  rcases Nat.mod_two_eq_zero_or_one i with e | e <;> rw [e] <;> omega

theorem indXxpp_lt (h i : ℕ) (hi : i < 2 * h) : indXxpp h i < 2 * h := by
  unfold indXxpp
  have hh : 0 < h := by omega
  have := Nat.mod_lt i hh
  have : i / h < 2 := Nat.div_lt_of_lt_mul (by omega)
  omega

/-- C28: vectors: position `2k` of the result of `xxpp_to_xpxp` is `x_k` and position `2k+1` is `p_k`. -/
theorem xxppToXpxp_vec {K : Type} (h : ℕ) (v : ℕ → K) :
    ∃ w, xxppToXpxp (.vec (2 * h) v) = .ok (.vec (2 * h) w) ∧ ∀ k < h, w (2 * k) = v k ∧ w (2 * k + 1) = v (h + k) := by
  refine ⟨_, by simp [xxppToXpxp, reorder]; rfl, ?_⟩
  intro k hk
  have e1 : (2 * k) % 2 = 0 := by omega
  have e2 : (2 * k + 1) % 2 = 1 := by omega
  have e3 : (2 * k + 1) / 2 = k := by omega
  simp [indXpxp, e1, e2, e3]

/-- C28: matrices: both indices are reordered. -/
theorem xxppToXpxp_mat {K : Type} (h : ℕ) (A : ℕ → ℕ → K) :
    ∃ B, xxppToXpxp (.mat (2 * h) (2 * h) A) = .ok (.mat (2 * h) (2 * h) B) ∧ ∀ k < h, ∀ l < h, B (2 * k) (2 * l) = A k l ∧
      B (2 * k) (2 * l + 1) = A k (h + l) ∧ B (2 * k + 1) (2 * l) = A (h + k) l ∧ B (2 * k + 1) (2 * l + 1) = A (h + k) (h + l) := by
  refine ⟨_, by simp [xxppToXpxp, reorder]; rfl, ?_⟩
  intro k hk l hl
  have e1 : ∀ k, (2 * k) % 2 = 0 := by omega
  have e2 : ∀ k, (2 * k + 1) % 2 = 1 := by omega
  have e3 : ∀ k, (2 * k + 1) / 2 = k := by omega
  simp [indXpxp, e1, e2, e3]

/-- C28: the converse reading of `xpxp_to_xxpp`. -/
theorem xpxpToXxpp_vec {K : Type} (h : ℕ) (v : ℕ → K) :
    ∃ w, xpxpToXxpp (.vec (2 * h) v) = .ok (.vec (2 * h) w) ∧ ∀ k < h, w k = v (2 * k) ∧ w (h + k) = v (2 * k + 1) := by
  refine ⟨_, by simp [xpxpToXxpp, reorder]; rfl, ?_⟩
  intro k hk
  have hh : 0 < h := by omega
  simp [indXxpp, Nat.mod_eq_of_lt hk, Nat.div_eq_of_lt hk, Nat.add_div_left _ hh]

theorem xpxpToXxpp_mat {K : Type} (h : ℕ) (A : ℕ → ℕ → K) :
    ∃ B, xpxpToXxpp (.mat (2 * h) (2 * h) A) = .ok (.mat (2 * h) (2 * h) B) ∧ ∀ k < h, ∀ l < h, B k l = A (2 * k) (2 * l) ∧
      B k (h + l) = A (2 * k) (2 * l + 1) ∧ B (h + k) l = A (2 * k + 1) (2 * l) ∧ B (h + k) (h + l) = A (2 * k + 1) (2 * l + 1) := by
  refine ⟨_, by simp [xpxpToXxpp, reorder]; rfl, ?_⟩
  intro k hk l hl
  have hh : 0 < h := by omega
  simp [indXxpp, Nat.mod_eq_of_lt hk, Nat.div_eq_of_lt hk, Nat.mod_eq_of_lt hl, Nat.div_eq_of_lt hl, Nat.add_div_left _ hh]

/-- an array the reorderings accept: a vector of even length or a square matrix of even size -/
def EvenArr {K : Type} : Arr K → Prop
  | .vec n _ => n % 2 = 0
  | .mat r c _ => r % 2 = 0 ∧ r = c

/-- C28: round trip in both directions, for vectors and matrices. -/
theorem reorder_roundtrip {K : Type} (S : Arr K) (h : EvenArr S) :
    (∃ T U, xxppToXpxp S = .ok T ∧ xpxpToXxpp T = .ok U ∧ SameArr U S) ∧ (∃ T U, xpxpToXxpp S = .ok T ∧ xxppToXpxp T = .ok U ∧ SameArr U S) := by
  rcases S with ⟨n, v⟩ | ⟨r, c, A⟩
  · have hn : n % 2 = 0 := h
    have hl := fun i (hi : i < n) => ind_left (n / 2) i (by omega)
    have hr := fun i (hi : i < n) => ind_right (n / 2) i (by omega)
    refine ⟨⟨.vec n _, .vec n _, by simp [xxppToXpxp, reorder, hn]; rfl, by simp [xpxpToXxpp, reorder, hn]; rfl, ⟨rfl, ?_⟩⟩,
      ⟨.vec n _, .vec n _, by simp [xpxpToXxpp, reorder, hn]; rfl, by simp [xxppToXpxp, reorder, hn]; rfl, ⟨rfl, ?_⟩⟩⟩
    · intro i hi; exact congrArg v (hr i hi)
    · intro i hi; exact congrArg v (hl i hi)
  · obtain ⟨hn, rfl⟩ : r % 2 = 0 ∧ r = c := h
    have hl := fun i (hi : i < r) => ind_left (r / 2) i (by omega)
    have hr := fun i (hi : i < r) => ind_right (r / 2) i (by omega)
    refine ⟨⟨.mat r r _, .mat r r _, by simp [xxppToXpxp, reorder, hn]; rfl, by simp [xpxpToXxpp, reorder, hn]; rfl, ⟨rfl, rfl, ?_⟩⟩,
      ⟨.mat r r _, .mat r r _, by simp [xpxpToXxpp, reorder, hn]; rfl, by simp [xxppToXpxp, reorder, hn]; rfl, ⟨rfl, rfl, ?_⟩⟩⟩
    · intro i hi j hj; exact congrArg₂ A (hr i hi) (hr j hj)
    · intro i hi j hj; exact congrArg₂ A (hl i hi) (hl j hj)

/-- C28: the symplectic form of one ordering is sent to that of the other: `Ω` in the `xpxp` ordering pairs neighbours. -/
theorem reorder_omega {K : Type} [Field K] (h : ℕ) :
    ∃ B, xxppToXpxp (.mat (2 * h) (2 * h) (sympmat h : ℕ → ℕ → K)) = .ok (.mat (2 * h) (2 * h) B) ∧
      ∀ i < 2 * h, ∀ j < 2 * h, B i j = if i % 2 = 0 ∧ j = i + 1 then 1 else if j % 2 = 0 ∧ i = j + 1 then -1 else 0 := by
  obtain ⟨B, hB, hs⟩ := xxppToXpxp_mat h (sympmat h : ℕ → ℕ → K)
  refine ⟨B, hB, ?_⟩
  intro i hi j hj
  obtain ⟨h1, h2, h3, h4⟩ := hs (i / 2) (by omega) (j / 2) (by omega)
  have a1 : i / 2 < h := by omega
  have a2 : j / 2 < h := by omega
  have b1 : ¬ h + i / 2 < h := by omega
  have b2 : ¬ h + j / 2 < h := by omega
  rcases Nat.mod_two_eq_zero_or_one i with e | e <;> rcases Nat.mod_two_eq_zero_or_one j with f | f
  · rw [show 2 * (i / 2) = i by omega, show 2 * (j / 2) = j by omega] at h1
    rw [h1]
    have c1 : ¬ j = i + 1 := by omega
    have c2 : ¬ i = j + 1 := by omega
    simp [sympmat, block, a1, a2, c1, c2]
  · rw [show 2 * (i / 2) = i by omega, show 2 * (j / 2) + 1 = j by omega] at h2
    rw [h2]
    have c1 : (i / 2 = j / 2) ↔ j = i + 1 := by omega
    simp [sympmat, block, a1, b2, e, f, c1, eye]
  · rw [show 2 * (i / 2) + 1 = i by omega, show 2 * (j / 2) = j by omega] at h3
    rw [h3]
    have c1 : (i / 2 = j / 2) ↔ i = j + 1 := by omega
    simp only [sympmat, block, a2, b1, e, f, c1, eye, if_true, if_false, Nat.add_sub_cancel_left, true_and, one_ne_zero, false_and]
    split_ifs <;> simp
  · rw [show 2 * (i / 2) + 1 = i by omega, show 2 * (j / 2) + 1 = j by omega] at h4
    rw [h4]
    simp [sympmat, block, b1, b2, e, f]

/-- C28: everything else raises `ValueError`. -/
theorem reorder_raises {K : Type} (S : Arr K) (h : ¬ EvenArr S) : xxppToXpxp S = .error .valueError ∧ xpxpToXxpp S = .error .valueError := by
  rcases S with ⟨n, v⟩ | ⟨r, c, A⟩
  · have hn : n % 2 ≠ 0 := h
    simp [xxppToXpxp, xpxpToXxpp, reorder, hn]
  · have hn : ¬ (r % 2 = 0 ∧ r = c) := h
    by_cases h1 : r % 2 = 0
    · have h2 : r ≠ c := fun e => hn ⟨h1, e⟩
      simp [xxppToXpxp, xpxpToXxpp, reorder, h1, h2]
    · simp [xxppToXpxp, xpxpToXxpp, reorder, h1]

example : EvenArr (.mat 4 4 (fun i j => (i + 10 * j : ℤ))) ∧ ¬ EvenArr (.vec 3 (fun i => (i : ℤ))) := by simp [EvenArr]

/-! ### C32: the symplecticity tests -/

theorem close_zero (x y : ℝ) : isClose 0 0 x y = true ↔ x = y := by
  simp [isClose, sub_eq_zero]

theorem close_refl (rtol atol x : ℝ) (hr : 0 ≤ rtol) (ha : 0 ≤ atol) : isClose rtol atol x x = true := by
  simp [isClose]; positivity

theorem symp_iff' {K : Type} [Field K] (h : ℕ) (S : ℕ → ℕ → K) :
    IsSymp h S ↔ ∀ i < 2 * h, ∀ j < 2 * h, mmul (2 * h) (mmul (2 * h) (tr S) (sympmat h)) S i j = sympmat h i j := by
  rw [← phase_ext_iff, phase_mmul h h h, phase_mmul h h h, phase_tr, phase_sympmat, IsSymp, SymplecticGroup.mem_iff']
  simp only [Matrix.mul_neg, Matrix.neg_mul, neg_inj]

theorem isSymplectic_of {K : Type} [Field K] (close : K → K → Bool) (hc : ∀ x, close x x = true) (h : ℕ) (S : ℕ → ℕ → K) (hS : IsSymp h S) :
    isSymplectic close (2 * h) (2 * h) S = true := by
  have := (symp_iff' h S).mp hS
  simp only [isSymplectic, ne_eq, not_true_eq_false, if_false, Nat.mul_mod_right, Nat.mul_div_cancel_left h two_pos]
  rw [allClose2_iff]
  intro i hi j hj
  rw [this i hi j hj]; exact hc _

theorem isSymplectic_exact {K : Type} [Field K] (close : K → K → Bool) (hc : ∀ x y, close x y = true ↔ x = y) (n m : ℕ) (S : ℕ → ℕ → K) :
    isSymplectic close n m S = true ↔ n = m ∧ n % 2 = 0 ∧ IsSymp (n / 2) S := by
  unfold isSymplectic
  split_ifs with h1 h2
  · simp [h1]
  · simp [h2]
  · simp only [ne_eq, not_not] at h1 h2
    subst h1
    obtain ⟨h, rfl⟩ : ∃ h, n = 2 * h := ⟨n / 2, by omega⟩
    rw [allClose2_iff, Nat.mul_div_cancel_left h two_pos, symp_iff']
    simp [hc]

theorem symp_blocks {K : Type} [Field K] (h : ℕ) (S : ℕ → ℕ → K) :
    IsSymp h S ↔
      (∀ i < h, ∀ j < h, mmul h (tr fun i j => S i j) (fun i j => S (h + i) j) i j = mmul h (tr fun i j => S (h + i) j) (fun i j => S i j) i j) ∧
      (∀ i < h, ∀ j < h, mmul h (tr fun i j => S i (h + j)) (fun i j => S (h + i) (h + j)) i j
        = mmul h (tr fun i j => S (h + i) (h + j)) (fun i j => S i (h + j)) i j) ∧
      (∀ i < h, ∀ j < h, mmul h (tr fun i j => S i j) (fun i j => S (h + i) (h + j)) i j
        - mmul h (tr fun i j => S (h + i) j) (fun i j => S i (h + j)) i j = eye i j) := by
  have ext : ∀ A B : ℕ → ℕ → K, (∀ i < h, ∀ j < h, A i j = B i j) ↔ toMatrix h h A = toMatrix h h B := by
    intro A B
    constructor
    · intro e; ext i j; exact e i i.2 j j.2
    · intro e i hi j hj; exact congrFun (congrFun e ⟨i, hi⟩) ⟨j, hj⟩
  have mm : ∀ A B : ℕ → ℕ → K, toMatrix h h (mmul h A B) = toMatrix h h A * toMatrix h h B := by
    intro A B; ext i j; simp [toMatrix, mmul, dot_sum, mul_apply, Finset.sum_range]
  have tt : ∀ A : ℕ → ℕ → K, toMatrix h h (tr A) = (toMatrix h h A)ᵀ := fun A => rfl
  have ss : ∀ A B : ℕ → ℕ → K, toMatrix h h (fun i j => A i j - B i j) = toMatrix h h A - toMatrix h h B := fun A B => rfl
  rw [ext, ext, ext _ eye, ss, mm, mm, mm, mm, mm, mm, tt, tt, tt, tt, toMatrix_eye, IsSymp, SymplecticGroup.mem_iff', phase_blocks]
  generalize toMatrix h h S = A
  generalize (toMatrix h h fun i j => S i (h + j)) = B
  generalize (toMatrix h h fun i j => S (h + i) j) = C
  generalize (toMatrix h h fun i j => S (h + i) (h + j)) = D
  rw [J, fromBlocks_transpose, fromBlocks_multiply, fromBlocks_multiply, fromBlocks_inj]
  simp only [Matrix.mul_zero, Matrix.mul_one, zero_add, add_zero, Matrix.mul_neg, Matrix.neg_mul]
  constructor
  · rintro ⟨h1, h2, h3, h4⟩
    refine ⟨?_, ?_, ?_⟩
    · exact (eq_of_sub_eq_zero (by rw [sub_eq_add_neg]; exact h1)).symm
    · exact (eq_of_sub_eq_zero (by rw [sub_eq_add_neg]; exact h4)).symm
    · rw [← neg_inj, neg_sub, sub_eq_add_neg]; exact h2
  · rintro ⟨h1, h2, h3⟩
    have h3' := congrArg Matrix.transpose h3
    simp only [transpose_sub, transpose_mul, transpose_transpose, transpose_one] at h3'
    refine ⟨by rw [h1]; exact add_neg_cancel _, ?_, ?_, by rw [h2]; exact add_neg_cancel _⟩
    · rw [← h3]; abel
    · rw [← sub_eq_add_neg]; exact h3'

theorem isSymplecticQ_of {K : Type} [Field K] (close : K → K → Bool) (hc : ∀ x, close x x = true) (h : ℕ) (S : ℕ → ℕ → K) (hS : IsSymp h S) :
    isSymplecticQ close (2 * h) (2 * h) S = true := by
  obtain ⟨h1, h2, h3⟩ := (symp_blocks h S).mp hS
  simp only [isSymplecticQ, ne_eq, not_true_eq_false, if_false, Nat.mul_mod_right, Nat.mul_div_cancel_left h two_pos, Bool.and_eq_true]
  rw [allClose2_iff, allClose2_iff, allClose2_iff]
  refine ⟨⟨?_, ?_⟩, ?_⟩ <;> intro i hi j hj
  · rw [h1 i hi j hj]; exact hc _
  · rw [h2 i hi j hj]; exact hc _
  · rw [h3 i hi j hj]; exact hc _

theorem isSymplecticQ_exact {K : Type} [Field K] (close : K → K → Bool) (hc : ∀ x y, close x y = true ↔ x = y) (n m : ℕ) (S : ℕ → ℕ → K) :
    isSymplecticQ close n m S = true ↔ n = m ∧ n % 2 = 0 ∧ IsSymp (n / 2) S := by
  unfold isSymplecticQ
  split_ifs with h1 h2
  · simp [h1]
  · simp [h2]
  · simp only [ne_eq, not_not] at h1 h2
    subst h1
    obtain ⟨h, rfl⟩ : ∃ h, n = 2 * h := ⟨n / 2, by omega⟩
    simp only [Nat.mul_div_cancel_left h two_pos, Bool.and_eq_true]
    rw [allClose2_iff, allClose2_iff, allClose2_iff, symp_blocks]
    simp only [hc, and_assoc]
    simp

/-- C32: with zero tolerances each of the two tests accepts exactly the even square matrices with `S Ω Sᵀ = Ω`. -/
theorem isSymplectic_iff (n m : ℕ) (S : ℕ → ℕ → ℝ) :
    (isSymplectic (isClose 0 0) n m S = true ↔ n = m ∧ n % 2 = 0 ∧ IsSymp (n / 2) S) ∧
    (isSymplecticQ (isClose 0 0) n m S = true ↔ n = m ∧ n % 2 = 0 ∧ IsSymp (n / 2) S) :=
  ⟨isSymplectic_exact _ close_zero n m S, isSymplecticQ_exact _ close_zero n m S⟩

/-- C32: at every tolerance both accept every symplectic matrix. -/
theorem isSymplectic_accepts (rtol atol : ℝ) (hr : 0 ≤ rtol) (ha : 0 ≤ atol) (h : ℕ) (S : ℕ → ℕ → ℝ) (hS : IsSymp h S) :
    isSymplectic (isClose rtol atol) (2 * h) (2 * h) S = true ∧ isSymplecticQ (isClose rtol atol) (2 * h) (2 * h) S = true :=
  ⟨isSymplectic_of _ (fun x => close_refl rtol atol x hr ha) h S hS, isSymplecticQ_of _ (fun x => close_refl rtol atol x hr ha) h S hS⟩

/-- C32: at every tolerance both reject arrays that are not square or have odd size. -/
theorem isSymplectic_rejects (close : ℝ → ℝ → Bool) (n m : ℕ) (S : ℕ → ℕ → ℝ) (h : n ≠ m ∨ n % 2 ≠ 0) :
    isSymplectic close n m S = false ∧ isSymplecticQ close n m S = false := by
  unfold isSymplectic isSymplecticQ
  rcases h with h | h
  · simp [h]
  · by_cases h' : n ≠ m
    · simp [h']
    · simp [h', h]

/-- C32: the accepted matrices are closed under the product and contain the identity. -/
theorem isSymplectic_mul (n : ℕ) (S T : ℕ → ℕ → ℝ) (hS : isSymplectic (isClose 0 0) n n S = true) (hT : isSymplecticQ (isClose 0 0) n n T = true) :
    isSymplectic (isClose 0 0) n n (mmul n S T) = true ∧ isSymplecticQ (isClose 0 0) n n (mmul n S T) = true := by
  obtain ⟨-, h2, hS⟩ := (isSymplectic_iff n n S).1.mp hS
  obtain ⟨-, -, hT⟩ := (isSymplectic_iff n n T).2.mp hT
  obtain ⟨h, rfl⟩ : ∃ h, n = 2 * h := ⟨n / 2, by omega⟩
  rw [Nat.mul_div_cancel_left h two_pos] at hS hT
  apply isSymplectic_accepts 0 0 le_rfl le_rfl
  unfold IsSymp
  rw [phase_mmul h h h]
  exact Submonoid.mul_mem _ hS hT

/-- the products of gates are accepted -/
example (r phi theta : ℝ) : isSymplecticQ (isClose 0 0) 4 4 (mmul 4 (twoModeSqueezing r phi) (beamSplitter theta phi)) = true :=
  (isSymplectic_mul 4 _ _ (isSymplectic_accepts 0 0 le_rfl le_rfl 2 _ (twoModeSqueezing_symplectic r phi)).1
    (isSymplectic_accepts 0 0 le_rfl le_rfl 2 _ (beamSplitter_symplectic theta phi)).2).2

/-! ### C33: reduction -/

/-- the state of the listed modes, in the listed order, read off the whole state -/
structure IsReduction {K : Type} (N : ℕ) (s : GState K) (modes : List ℕ) (r : GState K) : Prop where
  len : r.len = 2 * modes.length
  mean : ∀ a < modes.length, r.mu a = s.mu (modes.getD a 0) ∧ r.mu (modes.length + a) = s.mu (N + modes.getD a 0)
  xx : ∀ a < modes.length, ∀ b < modes.length, r.cov a b = s.cov (modes.getD a 0) (modes.getD b 0)
  xp : ∀ a < modes.length, ∀ b < modes.length, r.cov a (modes.length + b) = s.cov (modes.getD a 0) (N + modes.getD b 0)
  px : ∀ a < modes.length, ∀ b < modes.length, r.cov (modes.length + a) b = s.cov (N + modes.getD a 0) (modes.getD b 0)
  pp : ∀ a < modes.length, ∀ b < modes.length, r.cov (modes.length + a) (modes.length + b) = s.cov (N + modes.getD a 0) (N + modes.getD b 0)

theorem range_reduction {K : Type} (N : ℕ) (s : GState K) (hs : s.len = 2 * N) : IsReduction N s (List.range N) s := by
  have g : ∀ a < N, (List.range N).getD a 0 = a := by
    intro a ha; rw [List.getD_eq_getElem _ _ (by simpa using ha)]; simp
  constructor <;> simp only [List.length_range]
  · exact hs
  · intro a ha; simp only [g a ha, and_self]
  all_goals intro a ha b hb; simp only [g a ha, g b hb]

theorem gather_reduction {K : Type} (N : ℕ) (s : GState K) (hs : s.len = 2 * N) (modes : List ℕ) (hne : modes ≠ []) (hb : ∀ m ∈ modes, m < N) :
    ∃ r, gather s modes = .ok r ∧ IsReduction N s modes r := by
  have hN : s.len / 2 = N := by omega
  have hany : ((modes ++ modes.map (· + N)).any fun x => decide (x ≥ s.len)) = false := by
    rw [List.any_eq_false]
    intro x hx
    rcases List.mem_append.mp hx with hx | hx
    · have := hb x hx; simp; omega
    · obtain ⟨y, hy, rfl⟩ := List.mem_map.mp hx
      have := hb y hy; simp; omega
  have g1 : ∀ a < modes.length, (modes ++ modes.map (· + N)).getD a 0 = modes.getD a 0 := by
    intro a ha
    rw [List.getD_append _ _ _ _ ha]
  have g2 : ∀ a < modes.length, (modes ++ modes.map (· + N)).getD (modes.length + a) 0 = N + modes.getD a 0 := by
    intro a ha
    rw [List.getD_append_right _ _ _ _ (by omega), Nat.add_sub_cancel_left, List.getD_eq_getElem _ _ (by simpa using ha),
      List.getElem_map, List.getD_eq_getElem _ _ ha, add_comm]
  refine ⟨_, by rw [gather]; simp only [hN, hany, hne, false_or, Bool.false_eq_true, if_false]; rfl, ?_⟩
  constructor
  · simp [two_mul]
  · intro a ha; exact ⟨congrArg s.mu (g1 a ha), congrArg s.mu (g2 a ha)⟩
  · intro a ha b hb; exact congrArg₂ s.cov (g1 a ha) (g1 b hb)
  · intro a ha b hb; exact congrArg₂ s.cov (g1 a ha) (g2 b hb)
  · intro a ha b hb; exact congrArg₂ s.cov (g2 a ha) (g1 b hb)
  · intro a ha b hb; exact congrArg₂ s.cov (g2 a ha) (g2 b hb)

/-- C33: `reduced_state` returns the means and covariances of the listed modes in the listed order. -/
theorem reducedState_eq {K : Type} (N : ℕ) (s : GState K) (hs : s.len = 2 * N) (modes : List ℕ) (hne : modes ≠ []) (hb : ∀ m ∈ modes, m < N) :
    ∃ r, reducedState s modes = .ok r ∧ IsReduction N s modes r := by
  have hN : s.len / 2 = N := by omega
  unfold reducedState
  simp only [hN]
  split_ifs with h1 h2
  · subst h1; exact ⟨s, rfl, range_reduction N s hs⟩
  · exfalso
    obtain ⟨m, hm, h⟩ := List.any_eq_true.mp h2
    have := hb m hm
    simp at h; omega
  · exact gather_reduction N s hs modes hne hb

/-- C33: reducing twice is reducing once by the composed list. -/
theorem reducedState_comp {K : Type} (N : ℕ) (s : GState K) (hs : s.len = 2 * N) (modes : List ℕ) (hb : ∀ m ∈ modes, m < N)
    (modes' : List ℕ) (hne' : modes' ≠ []) (hb' : ∀ m ∈ modes', m < modes.length) :
    ∃ r r', reducedState s modes = .ok r ∧ reducedState r modes' = .ok r' ∧ IsReduction N s (modes'.map fun m => modes.getD m 0) r' := by
  have hne : modes ≠ [] := by
    rintro rfl
    obtain ⟨a, ha⟩ := List.exists_mem_of_ne_nil _ hne'
    simpa using hb' a ha
  obtain ⟨r, hr, h1⟩ := reducedState_eq N s hs modes hne hb
  obtain ⟨r', hr', h2⟩ := reducedState_eq modes.length r h1.len modes' hne' hb'
  have g : ∀ a < modes'.length, modes'.getD a 0 < modes.length ∧ (modes'.map fun m => modes.getD m 0).getD a 0 = modes.getD (modes'.getD a 0) 0 := by
    intro a ha
    rw [List.getD_eq_getElem _ _ ha, List.getD_eq_getElem _ _ (by simpa using ha), List.getElem_map]
    exact ⟨hb' _ (List.getElem_mem _), rfl⟩
  refine ⟨r, r', hr, hr', ?_⟩
  constructor
  · simpa using h2.len
  all_goals simp only [List.length_map]
  · intro a ha
    obtain ⟨l, e⟩ := g a ha
    rw [e, (h2.mean a ha).1, (h2.mean a ha).2]
    exact h1.mean _ l
  · intro a ha b hb
    obtain ⟨l, e⟩ := g a ha
    obtain ⟨l', e'⟩ := g b hb
    rw [e, e', h2.xx a ha b hb, h1.xx _ l _ l']
  · intro a ha b hb
    obtain ⟨l, e⟩ := g a ha
    obtain ⟨l', e'⟩ := g b hb
    rw [e, e', h2.xp a ha b hb, h1.xp _ l _ l']
  · intro a ha b hb
    obtain ⟨l, e⟩ := g a ha
    obtain ⟨l', e'⟩ := g b hb
    rw [e, e', h2.px a ha b hb, h1.px _ l _ l']
  · intro a ha b hb
    obtain ⟨l, e⟩ := g a ha
    obtain ⟨l', e'⟩ := g b hb
    rw [e, e', h2.pp a ha b hb, h1.pp _ l _ l']

theorem gather_raises {K : Type} (N : ℕ) (s : GState K) (hs : s.len = 2 * N) (modes : List ℕ) (h : ∃ m ∈ modes, N ≤ m) :
    gather s modes = .error .indexError := by
  have hN : s.len / 2 = N := by omega
  obtain ⟨m, hm, hle⟩ := h
  have : ((modes ++ modes.map (· + N)).any fun x => decide (x ≥ s.len)) = true := by
    rw [List.any_eq_true]
    exact ⟨m + N, List.mem_append.mpr (Or.inr (List.mem_map.mpr ⟨m, hm, rfl⟩)), by simp; omega⟩
  unfold gather
  simp only [hN, this, or_true, if_true]

/-- C33: `reduced_state` raises on a mode out of range: `ValueError` if some mode exceeds `N`, `IndexError` if the largest one is `N`. -/
theorem reducedState_raises {K : Type} (N : ℕ) (s : GState K) (hs : s.len = 2 * N) (modes : List ℕ) (h : ∃ m ∈ modes, N ≤ m) :
    reducedState s modes = .error (if ∃ m ∈ modes, N < m then .valueError else .indexError) := by
  have hN : s.len / 2 = N := by omega
  have h1 : modes ≠ List.range N := by
    rintro rfl; obtain ⟨m, hm, hle⟩ := h; simp at hm; omega
  unfold reducedState
  simp only [hN, h1, if_false]
  by_cases h2 : ∃ m ∈ modes, N < m
  · have : (modes.any fun x => decide (x > N)) = true := by
      rw [List.any_eq_true]; obtain ⟨m, hm, hl⟩ := h2; exact ⟨m, hm, by simpa using hl⟩
    simp only [this, if_true, h2]
  · have : (modes.any fun x => decide (x > N)) = false := by
      rw [List.any_eq_false]; intro m hm; simp; by_contra hl; exact h2 ⟨m, hm, by omega⟩
    simp only [this, Bool.false_eq_true, if_false, h2]
    exact gather_raises N s hs modes h

/-- C33: `reduced_gaussian` is right for lists of a length different from `N`, and for the list of all modes in order.  Missing: other lists
of `N` modes (see `reducedGaussian_unpermuted`). -/
theorem reducedGaussian_partial {K : Type} (N : ℕ) (s : GState K) (hs : s.len = 2 * N) (modes : List ℕ) (hne : modes ≠ []) (hb : ∀ m ∈ modes, m < N)
    (h : modes.length ≠ N ∨ modes = List.range N) : ∃ r, reducedGaussian s modes = .ok r ∧ IsReduction N s modes r := by
  have hN : s.len / 2 = N := by omega
  unfold reducedGaussian
  simp only [hN]
  split_ifs with h1 h2
  · exfalso
    obtain ⟨m, hm, h⟩ := List.any_eq_true.mp h1
    have := hb m hm
    simp at h; omega
  · rcases h with h | rfl
    · exact absurd h2 h
    · exact ⟨s, rfl, range_reduction N s hs⟩
  · exact gather_reduction N s hs modes hne hb

/-- C33: `reduced_gaussian` raises on a mode larger than `N`, and on mode `N` unless the list has `N` elements. -/
theorem reducedGaussian_raises_partial {K : Type} (N : ℕ) (s : GState K) (hs : s.len = 2 * N) (modes : List ℕ)
    (h : (∃ m ∈ modes, N < m) ∨ (modes.length ≠ N ∧ ∃ m ∈ modes, N ≤ m)) : ∃ e, reducedGaussian s modes = .error e := by
  have hN : s.len / 2 = N := by omega
  unfold reducedGaussian
  simp only [hN]
  split_ifs with h1 h2
  · exact ⟨_, rfl⟩
  · exfalso
    rcases h with ⟨m, hm, hl⟩ | ⟨h, -⟩
    · exact h1 (List.any_eq_true.mpr ⟨m, hm, by simpa using hl⟩)
    · exact h h2
  · refine ⟨_, gather_raises N s hs modes ?_⟩
    rcases h with ⟨m, hm, hl⟩ | ⟨-, h⟩
    · exact ⟨m, hm, hl.le⟩
    · exact h

/-- the means of a two-mode state -/
def twoModes : GState ℚ := { len := 4, mu := fun i => i, cov := eye }

/-- C33 fails for `reduced_gaussian` with a permuted list of all modes: the state comes back unpermuted, and mode 2 of a two-mode state does
not raise. -/
theorem reducedGaussian_unpermuted :
    (∃ r, reducedGaussian twoModes [1, 0] = .ok r ∧ ¬ IsReduction 2 twoModes [1, 0] r) ∧ (∃ r, reducedGaussian twoModes [2, 2] = .ok r) := by
  refine ⟨⟨twoModes, by rw [reducedGaussian]; rfl, ?_⟩, twoModes, by rw [reducedGaussian]; rfl⟩
  intro h
  have := (h.mean 0 (by simp)).1
  norm_num [twoModes] at this

/-- the two reductions agree wherever `reduced_gaussian` is right; a concrete case -/
example : ∃ r r', reducedState twoModes [1, 0] = .ok r ∧ reducedState r [1] = .ok r' ∧ IsReduction 2 twoModes [0] r' :=
  reducedState_comp 2 twoModes rfl [1, 0] (by simp) [1] (by simp) (by simp)

/-! ### C29: loss and passive channels -/

/-- transmission factor of a quadrature -/
noncomputable def fac (N m : ℕ) (T : ℝ) (i : ℕ) : ℝ := if i = m ∨ i = m + N then Real.sqrt T else 1

/-- the state after a loss `T` on mode `m`: means and covariances of the mode scaled by `√T` for each quadrature, environment noise added -/
noncomputable def lossState (N : ℕ) (s : GState ℝ) (T : ℝ) (m : ℕ) (nbar hbar : ℝ) : GState ℝ where
  len := s.len
  mu i := fac N m T i * s.mu i
  cov i j := fac N m T i * s.cov i j * fac N m T j + if i = j ∧ (i = m ∨ i = m + N) then (1 - T) * (2 * nbar + 1) * hbar / 2 else 0

/-- C29: what `loss` computes, in one formula. -/
theorem loss_eq (N : ℕ) (s : GState ℝ) (hs : s.len = 2 * N) (T : ℝ) (hT : 0 ≤ T) (m : ℕ) (hm : m < N) (nbar hbar : ℝ) :
    loss s T m nbar hbar = .ok (lossState N s T m nbar hbar) := by
  have hN : s.len / 2 = N := by omega
  have hmN : m ≠ m + N := by omega
  have hN0 : N ≠ 0 := by omega
  unfold loss
  simp only [hN]
  rw [if_neg (by omega)]
  congr 1
  simp only [List.foldl_cons, List.foldl_nil, lossOne, lossState, GState.mk.injEq, true_and]
  refine ⟨?_, ?_⟩
  · funext i
    unfold fac
    by_cases h1 : i = m
    · subst h1; simp [Function.update_apply, hN0, hmN, mul_comm]
    · by_cases h2 : i = m + N
      · subst h2; simp [Function.update_apply, hN0, Ne.symm hmN, h1, mul_comm]
      · simp [Function.update_apply, hN0, h1, h2]
  · funext i j
    unfold fac upd2
    by_cases h1 : i = m <;> by_cases h2 : j = m
    · subst h1; subst h2; simp [Function.update_apply, hN0, hmN] <;> first | ring1 | exact Or.inl (by ring)
    · subst h1
      by_cases h3 : j = i + N
      · subst h3; simp [Function.update_apply, hN0, hmN, Ne.symm hmN] <;> first | ring1 | exact Or.inl (by ring)
      · simp [Function.update_apply, hN0, hmN, h2, h3, Ne.symm h2] <;> first | ring1 | exact Or.inl (by ring)
    · subst h2
      by_cases h3 : i = j + N
      · subst h3; simp [Function.update_apply, hN0, hmN, Ne.symm hmN] <;> first | ring1 | exact Or.inl (by ring)
      · simp [Function.update_apply, hN0, hmN, h1, h3]
    · by_cases h3 : i = m + N <;> by_cases h4 : j = m + N
      · subst h3; subst h4; simp [Function.update_apply, hN0, hmN, Ne.symm hmN] <;> first | ring1 | exact Or.inl (by ring)
      · subst h3; simp [Function.update_apply, hN0, h1, h2, h4, Ne.symm h4, hmN, Ne.symm hmN] <;> first | ring1 | exact Or.inl (by ring)
      · subst h4; simp [Function.update_apply, hN0, h1, h2, h3, hmN, Ne.symm hmN]
      · simp [Function.update_apply, hN0, h1, h2, h3, h4]

/-- C29: two losses on the same mode compose to one, with the transmissions multiplied (thermal noise included). -/
theorem loss_comp (N : ℕ) (s : GState ℝ) (hs : s.len = 2 * N) (T1 T2 : ℝ) (h1 : 0 ≤ T1) (h2 : 0 ≤ T2) (m : ℕ) (hm : m < N) (nbar hbar : ℝ) :
    ∃ s1 s2, loss s T1 m nbar hbar = .ok s1 ∧ loss s1 T2 m nbar hbar = .ok s2 ∧ loss s (T1 * T2) m nbar hbar = .ok s2 := by
  refine ⟨_, _, loss_eq N s hs T1 h1 m hm nbar hbar, loss_eq N _ (by exact hs) T2 h2 m hm nbar hbar, ?_⟩
  rw [loss_eq N s hs _ (mul_nonneg h1 h2) m hm nbar hbar]
  have hf : ∀ i, fac N m (T1 * T2) i = fac N m T2 i * fac N m T1 i := by
    intro i; unfold fac; split_ifs
    · rw [Real.sqrt_mul h1, mul_comm]
    · simp
  simp only [lossState, hf]
  congr 2
  · funext i; ring
  · funext i j
    by_cases h : i = j ∧ (i = m ∨ i = m + N)
    · obtain ⟨rfl, hi⟩ := h
      have : fac N m T2 i * fac N m T2 i = T2 := by unfold fac; rw [if_pos hi]; exact Real.mul_self_sqrt h2
      simp only [hi, true_and, if_true]
      linear_combination (norm := ring_nf) (-(1 - T1) * (2 * nbar + 1) * hbar / 2) * this
    · simp only [h, if_false]; ring

/-- C29: losses on different modes commute. -/
theorem loss_comm (N : ℕ) (s : GState ℝ) (hs : s.len = 2 * N) (T1 T2 : ℝ) (h1 : 0 ≤ T1) (h2 : 0 ≤ T2) (m k : ℕ) (hm : m < N) (hk : k < N)
    (hmk : m ≠ k) (nbar nbar' hbar : ℝ) :
    ∃ s1 s1' s2, loss s T1 m nbar hbar = .ok s1 ∧ loss s1 T2 k nbar' hbar = .ok s2 ∧ loss s T2 k nbar' hbar = .ok s1' ∧
      loss s1' T1 m nbar hbar = .ok s2 := by
  refine ⟨_, _, _, loss_eq N s hs T1 h1 m hm nbar hbar, loss_eq N _ (by exact hs) T2 h2 k hk nbar' hbar, loss_eq N s hs T2 h2 k hk nbar' hbar, ?_⟩
  rw [loss_eq N _ (by exact hs) T1 h1 m hm nbar hbar]
  simp only [lossState]
  congr 2
  · funext i; ring
  · funext i j
    by_cases hij : i = j
    · subst hij
      by_cases a : i = m ∨ i = m + N <;> by_cases b : i = k ∨ i = k + N
      · omega
      · have : fac N k T2 i = 1 := by unfold fac; rw [if_neg b]
        simp only [a, b, true_and, if_true, if_false, this]; ring
      · have : fac N m T1 i = 1 := by unfold fac; rw [if_neg a]
        simp only [a, b, true_and, if_true, if_false, this]; ring
      · simp only [a, b, true_and, if_false]; ring
    · simp only [hij, false_and, if_false]; ring

/-- C29: perfect transmission changes nothing. -/
theorem loss_one (N : ℕ) (s : GState ℝ) (hs : s.len = 2 * N) (m : ℕ) (hm : m < N) (nbar hbar : ℝ) : loss s 1 m nbar hbar = .ok s := by
  rw [loss_eq N s hs 1 zero_le_one m hm]
  have hf : ∀ i, fac N m 1 i = 1 := by intro i; simp [fac]
  simp [lossState, hf]

/-- C29: zero transmission leaves the mode in the thermal state of the environment (vacuum for `nbar = 0`), uncorrelated with the others,
and does not touch the other modes. -/
theorem loss_zero (N : ℕ) (s : GState ℝ) (hs : s.len = 2 * N) (m : ℕ) (hm : m < N) (nbar hbar : ℝ) :
    ∃ r, loss s 0 m nbar hbar = .ok r ∧ r.mu m = 0 ∧ r.mu (m + N) = 0 ∧ r.cov m m = (2 * nbar + 1) * hbar / 2 ∧
      r.cov (m + N) (m + N) = (2 * nbar + 1) * hbar / 2 ∧ (∀ j, j ≠ m → r.cov m j = 0 ∧ r.cov j m = 0) ∧
      (∀ j, j ≠ m + N → r.cov (m + N) j = 0 ∧ r.cov j (m + N) = 0) ∧
      (∀ i j, i ≠ m → i ≠ m + N → j ≠ m → j ≠ m + N → r.mu i = s.mu i ∧ r.cov i j = s.cov i j) := by
  have f1 : fac N m 0 m = 0 := by simp [fac]
  have f2 : fac N m 0 (m + N) = 0 := by simp [fac]
  refine ⟨_, loss_eq N s hs 0 le_rfl m hm nbar hbar, ?_⟩
  simp only [lossState, f1, f2, zero_mul, mul_zero, zero_add, sub_zero, one_mul, true_and, true_or, or_true, if_true]
  refine ⟨?_, ?_, ?_⟩
  · intro j hj; simp [hj, Ne.symm hj]
  · intro j hj; simp [hj, Ne.symm hj]
  · intro i j h1 h2 h3 h4
    have f3 : fac N m 0 i = 1 := by simp [fac, h1, h2]
    have f4 : fac N m 0 j = 1 := by simp [fac, h3, h4]
    simp [f3, f4, h1, h2]

theorem loss_raises (N : ℕ) (s : GState ℝ) (hs : s.len = 2 * N) (T : ℝ) (m : ℕ) (hm : N ≤ m) (nbar hbar : ℝ) :
    loss s T m nbar hbar = .error .indexError := by
  unfold loss
  simp only [show s.len / 2 = N by omega]
  rw [if_pos (by omega)]

/-- same number of entries, same means, same covariances -/
structure SameState {K : Type} (s t : GState K) : Prop where
  len : s.len = t.len
  mu : ∀ i < s.len, s.mu i = t.mu i
  cov : ∀ i < s.len, ∀ j < s.len, s.cov i j = t.cov i j

/-- matrix form of `passive_transformation` -/
theorem passive_phase (s : GState ℝ) (M N : ℕ) (T : ℕ → ℕ → ℂ) (hbar : ℝ) (hs : s.len = 2 * N) :
    ∃ r, passiveTransformation s M N T hbar = .ok r ∧ r.len = 2 * M ∧
      phaseVec M r.mu = phase M N (interferometer M N T) *ᵥ phaseVec N s.mu ∧
      phase M M r.cov = phase M N (interferometer M N T) * phase N N s.cov * (phase M N (interferometer M N T))ᵀ
        + (hbar / 2) • (1 - phase M N (interferometer M N T) * (phase M N (interferometer M N T))ᵀ) := by
  refine ⟨_, by unfold passiveTransformation; rw [if_neg (by omega)], rfl, ?_, ?_⟩
  · funext p
    simp only [phaseVec, mulVec, dotProduct, phase, of_apply, dot_sum]
    exact (sum_quad N fun j => interferometer M N T (quad M p) j * s.mu j).symm
  · have e : ∀ A B : ℕ → ℕ → ℝ, phase M M (fun i j => A i j + hbar / 2 * (eye i j - B i j)) = phase M M A + (hbar / 2) • (1 - phase M M B) := by
      intro A B; rw [← phase_eye]; ext p q; simp [phase]
    simp only [e]
    rw [phase_mmul M N M, phase_mmul M N N, phase_mmul M N M, phase_tr]

theorem same_of_phase (M : ℕ) (s t : GState ℝ) (h1 : s.len = 2 * M) (h2 : t.len = 2 * M) (hm : phaseVec M s.mu = phaseVec M t.mu)
    (hc : phase M M s.cov = phase M M t.cov) : SameState s t := by
  refine ⟨by omega, ?_, ?_⟩
  · intro i hi
    obtain ⟨p, rfl⟩ := exists_quad M i (by omega)
    exact congrFun hm p
  · intro i hi j hj
    exact (phase_ext_iff M M _ _).mp hc i (by omega) j (by omega)

theorem interferometer_mul (L M N : ℕ) (A B : ℕ → ℕ → ℂ) :
    phase L M (interferometer L M A) * phase M N (interferometer M N B)
      = phase L N (interferometer L N fun i j => ∑ k ∈ Finset.range M, A i k * B k j) := by
  rw [phase_interferometer, phase_interferometer, phase_interferometer, fromBlocks_multiply]
  congr 1 <;> ext i j <;>
    simp only [toMatrix, mul_apply, Matrix.add_apply, Matrix.neg_apply, of_apply, Finset.sum_range, Complex.re_sum, Complex.im_sum, Complex.mul_re,
      Complex.mul_im, ← Finset.sum_add_distrib, ← Finset.sum_neg_distrib] <;>
    exact Finset.sum_congr rfl fun k _ => by ring

/-- C29: passive transformations compose: first `T1` then `T2` is the transformation by the product `T2 T1`. -/
theorem passive_comp (L M N : ℕ) (s : GState ℝ) (hs : s.len = 2 * N) (T1 T2 : ℕ → ℕ → ℂ) (hbar : ℝ) :
    ∃ s1 s2 s12, passiveTransformation s M N T1 hbar = .ok s1 ∧ passiveTransformation s1 L M T2 hbar = .ok s2 ∧
      passiveTransformation s L N (fun i j => ∑ k ∈ Finset.range M, T2 i k * T1 k j) hbar = .ok s12 ∧ SameState s2 s12 := by
  obtain ⟨s1, e1, l1, m1, c1⟩ := passive_phase s M N T1 hbar hs
  obtain ⟨s2, e2, l2, m2, c2⟩ := passive_phase s1 L M T2 hbar l1
  obtain ⟨s12, e12, l12, m12, c12⟩ := passive_phase s L N (fun i j => ∑ k ∈ Finset.range M, T2 i k * T1 k j) hbar hs
  refine ⟨s1, s2, s12, e1, e2, e12, same_of_phase L s2 s12 l2 l12 ?_ ?_⟩
  · rw [m2, m1, m12, mulVec_mulVec, interferometer_mul]
  · rw [c2, c1, c12, ← interferometer_mul]
    simp only [Matrix.mul_add, Matrix.add_mul, Matrix.mul_smul, Matrix.smul_mul, Matrix.mul_sub, Matrix.sub_mul, transpose_mul, Matrix.mul_one,
      Matrix.mul_assoc, smul_sub]
    abel

/-- C29: the loss channel on one mode is the passive transformation by the diagonal matrix with `√T` in that place. -/
theorem loss_eq_passive (N : ℕ) (s : GState ℝ) (hs : s.len = 2 * N) (T : ℝ) (hT : 0 ≤ T) (m : ℕ) (hm : m < N) (hbar : ℝ) :
    ∃ r r', loss s T m 0 hbar = .ok r ∧
      passiveTransformation s N N (fun i j => if i = j then (if i = m then (Real.sqrt T : ℂ) else 1) else 0) hbar = .ok r' ∧ SameState r r' := by
  obtain ⟨r', e', l', m', c'⟩ := passive_phase s N N (fun i j => if i = j then (if i = m then (Real.sqrt T : ℂ) else 1) else 0) hbar hs
  refine ⟨_, r', loss_eq N s hs T hT m hm 0 hbar, e', same_of_phase N _ r' hs l' ?_ ?_⟩
  all_goals
    have hd : phase N N (interferometer N N fun i j => if i = j then (if i = m then (Real.sqrt T : ℂ) else 1) else 0)
        = diagonal fun p => fac N m T (quad N p) := by
      rw [phase_interferometer]
      ext (a | a) (b | b)
      · by_cases h : a = b
        · subst h
          have : ¬ (a : ℕ) = m + N := by omega
          by_cases h' : (a : ℕ) = m <;> simp [toMatrix, quad, fac, h', this]
          all_goals omega
        · have : ¬ (a : ℕ) = b := fun e => h (Fin.ext e)
          simp [toMatrix, this, h]
      · by_cases h : (a : ℕ) = b <;> by_cases h' : (a : ℕ) = m <;> simp [toMatrix, h, h'] <;> (try subst h') <;> simp_all
      · by_cases h : (a : ℕ) = b <;> by_cases h' : (a : ℕ) = m <;> simp [toMatrix, h, h'] <;> (try subst h') <;> simp_all
      · by_cases h : a = b
        · subst h
          have h1 : ¬ N + (a : ℕ) = m := by omega
          have h2 : N + (a : ℕ) = m + N ↔ (a : ℕ) = m := by omega
          by_cases h' : (a : ℕ) = m <;> simp [toMatrix, quad, fac, h1, h2, h']
          omega
        · have : ¬ (a : ℕ) = b := fun e => h (Fin.ext e)
          simp [toMatrix, this, h]
  · rw [m', hd]
    funext p
    simp [phaseVec, mulVec_diagonal, lossState]
  · rw [c', hd]
    ext p q
    simp only [diagonal_transpose, Matrix.add_apply, Matrix.smul_apply, Matrix.sub_apply, diagonal_mul_diagonal, smul_eq_mul, mul_diagonal, diagonal_mul]
    simp only [phase, of_apply, lossState]
    by_cases h : p = q
    · subst h
      have hq := quad_lt N p
      by_cases hi : quad N p = m ∨ quad N p = m + N
      · have : fac N m T (quad N p) * fac N m T (quad N p) = T := by unfold fac; rw [if_pos hi]; exact Real.mul_self_sqrt hT
        simp [hi, this]; ring
      · have : fac N m T (quad N p) = 1 := by unfold fac; rw [if_neg hi]
        simp [hi, this]
    · have : quad N p ≠ quad N q := fun e => h (quad_injective N e)
      simp [h, this]

/-- C29: a passive transformation by a unitary matrix is the interferometer: no noise is added. -/
theorem passive_unitary (n : ℕ) (s : GState ℝ) (hs : s.len = 2 * n) (U : ℕ → ℕ → ℂ) (hbar : ℝ) (hU : toMatrix n n U ∈ unitaryGroup (Fin n) ℂ) :
    ∃ r, passiveTransformation s n n U hbar = .ok r ∧ phaseVec n r.mu = phase n n (interferometer n n U) *ᵥ phaseVec n s.mu ∧
      phase n n r.cov = phase n n (interferometer n n U) * phase n n s.cov * (phase n n (interferometer n n U))ᵀ := by
  obtain ⟨r, e, l, m, c⟩ := passive_phase s n n U hbar hs
  have h : phase n n (interferometer n n U) * (phase n n (interferometer n n U))ᵀ = 1 := by
    obtain ⟨h1, h2⟩ := (unitary_iff n U).mp hU
    rw [phase_interferometer, fromBlocks_transpose, fromBlocks_multiply, ← fromBlocks_one, fromBlocks_inj]
    simp only [transpose_neg, Matrix.neg_mul, Matrix.mul_neg, neg_neg]
    refine ⟨h1, ?_, ?_, ?_⟩
    · rw [h2]; abel
    · rw [h2]; abel
    · rw [← h1]; abel
  exact ⟨r, e, m, by rw [c, h]; simp⟩

/-- C29: every passive transformation maps the vacuum to the vacuum. -/
theorem passive_vacuum (M N : ℕ) (T : ℕ → ℕ → ℂ) (hbar : ℝ) :
    ∃ r, passiveTransformation (vacuumState N hbar) M N T hbar = .ok r ∧ SameState r (vacuumState M hbar) := by
  have hv : ∀ n, phase n n (vacuumState n hbar).cov = (hbar / 2) • (1 : Matrix _ _ ℝ) := by
    intro n; rw [← phase_eye]; ext p q; simp [phase, vacuumState]; ring
  have hz : ∀ n, phaseVec n (vacuumState n hbar).mu = (0 : Fin n ⊕ Fin n → ℝ) := fun n => rfl
  obtain ⟨r, e, l, m, c⟩ := passive_phase (vacuumState N hbar) M N T hbar rfl
  refine ⟨r, e, same_of_phase M _ _ l rfl ?_ ?_⟩
  · rw [m, hz, hz, mulVec_zero]
  · rw [c, hv, hv]; simp only [Matrix.mul_smul, Matrix.smul_mul, Matrix.mul_one, smul_sub]; abel

theorem passive_raises (s : GState ℝ) (M N : ℕ) (T : ℕ → ℕ → ℂ) (hbar : ℝ) (h : s.len ≠ 2 * N) :
    passiveTransformation s M N T hbar = .error .valueError := by
  unfold passiveTransformation; rw [if_pos h]

example : ∃ s1 s2, loss (vacuumState 3 2) (1 / 2) 1 4 2 = .ok s1 ∧ loss s1 (1 / 3) 1 4 2 = .ok s2 ∧ loss (vacuumState 3 2) (1 / 2 * (1 / 3)) 1 4 2 = .ok s2 :=
  loss_comp 3 _ rfl _ _ (by norm_num) (by norm_num) 1 (by norm_num) 4 2

end Verif.Props
