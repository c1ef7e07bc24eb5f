/-
Properties C11 (hafnian_batched), C12 (hermite_multidimensional), C13 (its gradient) and C59 (interferometer).

Multi-indices and cutoffs are functions `Fin n → ℕ`; `List.ofFn k` is the Python tuple.
-/
import Verif.Lemmas.HermiteGrad
import Verif.Props.Hafnian
import Mathlib.Analysis.Complex.Basic

set_option linter.unusedSectionVars false
set_option linter.unusedSimpArgs false

namespace Verif.Props
open Verif Verif.Model

section generic
variable {K : Type} [Field K] [CharZero K]

/-- A vector as the model's array (junk beyond its length). -/
def vecEntries {n : ℕ} (y : Fin n → K) (junk : ℕ → K) : ℕ → K := fun i => if h : i < n then y ⟨i, h⟩ else junk i

/-- The vector of an optional argument (`None` is the zero vector). -/
def optVec {n : ℕ} (y : Option (Fin n → K)) : Fin n → K := y.getD 0

/-- The optional vector argument as the model's object. -/
def pyVec {n : ℕ} (y : Option (Fin n → K)) (junk : ℕ → K) : Option (ℕ × (ℕ → K)) := y.map fun v => (n, vecEntries v junk)

theorem vecEntries_fin {n : ℕ} (y : Fin n → K) (junk : ℕ → K) (i : Fin n) : vecEntries y junk i = y i := by simp [vecEntries]

theorem list_range_sum_fin {n : ℕ} (f : ℕ → K) : ((List.range n).map f).sum = ∑ j : Fin n, f j := by
  induction n with
  | zero => simp
  | succ n ih => rw [List.range_succ, List.map_append, List.sum_append, ih, Fin.sum_univ_castSucc]; simp

theorem ofFn_ne_zero {n : ℕ} {c : Fin n → ℕ} (hc : ∀ i, 0 < c i) : ∀ x ∈ List.ofFn c, x ≠ 0 := by
  intro x hx; obtain ⟨i, rfl⟩ := List.mem_ofFn.mp hx; exact (hc i).ne'

theorem ofFn_le {n : ℕ} {c : Fin n → ℕ} {B : ℕ} (hc : ∀ i, c i ≤ B) : ∀ x ∈ List.ofFn c, x ≤ B := by
  intro x hx; obtain ⟨i, rfl⟩ := List.mem_ofFn.mp hx; exact hc i

theorem ofFn_zero (n : ℕ) : List.ofFn (0 : Fin n → ℕ) = List.replicate n 0 := by
  apply getD_ext
  · simp
  · intro i
    rw [ofFn_getD]
    simp only [Pi.zero_apply, dite_eq_ite, ite_self, List.getD_eq_getElem?_getD, List.getElem?_replicate]
    split <;> rfl

/-- The vector the polynomial is evaluated at: `y` for the modified polynomials, `R y` for the standard ones. -/
def hermiteArg {n : ℕ} (R : Matrix (Fin n) (Fin n) K) (y : Option (Fin n → K)) (modified : Bool) : Fin n → K :=
  if modified then optVec y else fun i => ∑ j, R i j * optVec y j

/-- Normal form of a call on a symmetric matrix, a matching vector and positive cutoffs. -/
theorem hermite_call (sq : ℕ → K) (close : K → K → Bool) (hrefl : ∀ x, close x x = true) {n : ℕ} (R : Matrix (Fin n) (Fin n) K)
    (hR : R.IsSymm) (junk : ℕ → ℕ → Option K) (y : Option (Fin n → K)) (yjunk : ℕ → K) (C : K) (c : Fin n → ℕ) (hc : ∀ i, 0 < c i)
    (renorm makeTensor modified : Bool) :
    ∃ y' : ℕ → K, (∀ i : Fin n, y' i = hermiteArg R y modified i) ∧
      hermiteMultidimensional sq close (PyObj.ofMatrix R junk) (List.ofFn c) (pyVec y yjunk) C renorm makeTensor modified
        = .ok (let G := if renorm then hermiteFillRenorm sq (entries R junk) y' (List.ofFn c) (seedArray n C)
            else hermiteFill (entries R junk) y' (List.ofFn c) (seedArray n C)
          if makeTensor then .tensor (List.ofFn c) G else .flat ((ndindex (List.ofFn c)).map G)) := by
  unfold hermiteMultidimensional
  rw [inputValidation_ok close hrefl R hR junk]
  have hcut : ¬ ((List.ofFn c).length < n ∨ ((List.ofFn c).any (· = 0)) = true) := by
    rw [List.length_ofFn]
    rintro (h | h)
    · omega
    · obtain ⟨x, hx, h0⟩ := List.any_eq_true.mp h
      exact ofFn_ne_zero hc x hx (by simpa using h0)
  cases y with
  | none =>
    refine ⟨fun _ => 0, ?_, ?_⟩
    · intro i; cases modified <;> simp [hermiteArg, optVec]
    · simp only [pyVec, Option.map_none, bind, Except.bind, ne_eq, not_true_eq_false, if_false, hcut, pure, Except.pure]
      cases makeTensor <;> rfl
  | some v =>
    cases modified with
    | true =>
      refine ⟨vecEntries v yjunk, ?_, ?_⟩
      · intro i; simp [hermiteArg, optVec, vecEntries_fin]
      · simp only [pyVec, Option.map_some, bind, Except.bind, Bool.true_eq_false, false_and, if_false, ne_eq, not_true_eq_false,
          hcut, pure, Except.pure]
        cases makeTensor <;> rfl
    | false =>
      refine ⟨fun i => ((List.range n).map fun j => entries R junk i j * vecEntries v yjunk j).sum, ?_, ?_⟩
      · intro i
        simp [hermiteArg, optVec, list_range_sum_fin, vecEntries_fin, entries_fin]
      · simp only [pyVec, Option.map_some, bind, Except.bind, and_self, if_true, ne_eq, not_true_eq_false, if_false, hcut, pure,
          Except.pure]
        cases makeTensor <;> rfl

/-- **C12**, unnormalised array: for every symmetric `R`, every vector, seed, and positive cutoffs the call returns a tensor `H` of that shape
with `H[0] = C` and, for **every** mode `i` (not only the pivot the code uses),
`H[k + e_i] = y_i H[k] - ∑_j R_ij k_j H[k - e_j]` whenever `k + e_i` is below the cutoffs; the flattened form lists the same entries in
C order.  These equations determine every entry. -/
theorem hermite_recurrence (sq : ℕ → K) (close : K → K → Bool) (hrefl : ∀ x, close x x = true) {n : ℕ} (R : Matrix (Fin n) (Fin n) K)
    (hR : R.IsSymm) (junk : ℕ → ℕ → Option K) (y : Option (Fin n → K)) (yjunk : ℕ → K) (C : K) (c : Fin n → ℕ) (hc : ∀ i, 0 < c i)
    (modified : Bool) :
    ∃ H : MArr K,
      hermiteMultidimensional sq close (PyObj.ofMatrix R junk) (List.ofFn c) (pyVec y yjunk) C false true modified
        = .ok (.tensor (List.ofFn c) H) ∧
      hermiteMultidimensional sq close (PyObj.ofMatrix R junk) (List.ofFn c) (pyVec y yjunk) C false false modified
        = .ok (.flat ((ndindex (List.ofFn c)).map H)) ∧
      H (List.ofFn (0 : Fin n → ℕ)) = C ∧
      ∀ (k : Fin n → ℕ) (i : Fin n), (∀ a, (k + Pi.single i 1 : Fin n → ℕ) a < c a) →
        H (List.ofFn (k + Pi.single i 1)) = hermiteArg R y modified i * H (List.ofFn k)
          - ∑ j, R i j * (k j : K) * H (List.ofFn (k - Pi.single j 1)) := by
  obtain ⟨y1, hy1, e1⟩ := hermite_call sq close hrefl R hR junk y yjunk C c hc false true modified
  obtain ⟨y2, hy2, e2⟩ := hermite_call sq close hrefl R hR junk y yjunk C c hc false false modified
  have hval : ∀ k : Fin n → ℕ, (∀ i, k i < c i) → hermiteFill (entries R junk) y1 (List.ofFn c) (seedArray n C) (List.ofFn k)
      = C * herm (entries R junk) y1 (List.ofFn k) := fun k hk =>
    hermiteFill_eq _ _ _ (ofFn_ne_zero hc) C _ (by simp [seedArray]) _ ((mem_ndindex_ofFn k c).mpr hk)
  have h12 : ∀ k ∈ ndindex (List.ofFn c), hermiteFill (entries R junk) y2 (List.ofFn c) (seedArray n C) k
      = hermiteFill (entries R junk) y1 (List.ofFn c) (seedArray n C) k := by
    intro k hk
    rw [hermiteFill_eq _ _ _ (ofFn_ne_zero hc) C _ (by simp [seedArray]) k hk,
      hermiteFill_eq _ _ _ (ofFn_ne_zero hc) C _ (by simp [seedArray]) k hk]
    congr 1
    refine herm_congr (n := n) _ _ _ _ (fun _ _ _ _ => rfl) ?_ k ?_
    · intro i hi; rw [hy1 ⟨i, hi⟩, hy2 ⟨i, hi⟩]
    · have := (mem_ndindex.mp hk).length_eq; simpa using this
  refine ⟨_, e1, ?_, ?_, ?_⟩
  · rw [e2]
    simp only [Bool.false_eq_true, if_false]
    rw [List.map_congr_left h12]
  · simp only [Bool.false_eq_true, if_false]
    rw [hval 0 fun i => hc i, ofFn_zero, herm_zero, mul_one]
  · intro k i hk
    have hk' : ∀ a, k a < c a := fun a => lt_of_le_of_lt (by simp) (hk a)
    simp only [Bool.false_eq_true, if_false]
    rw [hval _ hk, hval _ hk', herm_pivot (entries R junk) y1 (entries_symm R hR junk), hy1, mul_sub, Finset.mul_sum]
    congr 1
    · ring
    · apply Finset.sum_congr rfl
      intro j _
      rw [hval (k - Pi.single j 1) fun a => lt_of_le_of_lt (Nat.sub_le _ _) (hk' a), entries_fin]
      ring

/-- **C12** closed form: each entry is the seed times the loop hafnian of `-R` repeated according to `k`, with the vector on the diagonal. -/
theorem hermite_value (sq : ℕ → K) (close : K → K → Bool) (hrefl : ∀ x, close x x = true) {n : ℕ} (R : Matrix (Fin n) (Fin n) K)
    (hR : R.IsSymm) (junk : ℕ → ℕ → Option K) (y : Option (Fin n → K)) (yjunk : ℕ → K) (C : K) (c : Fin n → ℕ) (hc : ∀ i, 0 < c i)
    (modified : Bool) :
    ∃ H : MArr K,
      hermiteMultidimensional sq close (PyObj.ofMatrix R junk) (List.ofFn c) (pyVec y yjunk) C false true modified
        = .ok (.tensor (List.ofFn c) H) ∧
      ∀ k : Fin n → ℕ, (∀ a, k a < c a) → H (List.ofFn k) = C * Spec.lhaf (Spec.repeatedMatrixLoop (entries (-R) fun _ _ => none)
        (vecEntries (hermiteArg R y modified) 0) (List.ofFn k)) := by
  obtain ⟨y1, hy1, e1⟩ := hermite_call sq close hrefl R hR junk y yjunk C c hc false true modified
  refine ⟨_, e1, ?_⟩
  intro k hk
  simp only [Bool.false_eq_true, if_false]
  rw [hermiteFill_eq _ _ _ (ofFn_ne_zero hc) C _ (by simp [seedArray]) _ ((mem_ndindex_ofFn k c).mpr hk), spec_lhaf_repeated]
  congr 1
  unfold herm
  apply lh_congr
  · intro i hi
    have := rep_ofFn_lt k hi
    rw [hy1 ⟨i, this⟩]; simp [vecEntries, this]
  · intro i hi j hj
    rw [entries_lt _ _ (rep_ofFn_lt k hi) (rep_ofFn_lt k hj), entries_lt _ _ (rep_ofFn_lt k hi) (rep_ofFn_lt k hj)]
    rfl

/-- **C12**, error branches: a vector of the wrong length raises `ValueError`, a cutoff `0` raises `IndexError`. -/
theorem hermite_raises (sq : ℕ → K) (close : K → K → Bool) (hrefl : ∀ x, close x x = true) {n : ℕ} (R : Matrix (Fin n) (Fin n) K)
    (hR : R.IsSymm) (junk : ℕ → ℕ → Option K) (C : K) (renorm makeTensor modified : Bool) :
    (∀ (cs : List ℕ) (m : ℕ) (v : ℕ → K), m ≠ n →
      hermiteMultidimensional sq close (PyObj.ofMatrix R junk) cs (some (m, v)) C renorm makeTensor modified = .error .valueError) ∧
    (∀ (cs : List ℕ) (v : Option (Fin n → K)) (vjunk : ℕ → K), 0 ∈ cs →
      hermiteMultidimensional sq close (PyObj.ofMatrix R junk) cs (pyVec v vjunk) C renorm makeTensor modified = .error .indexError) := by
  constructor
  · intro cs m v hm
    unfold hermiteMultidimensional
    rw [inputValidation_ok close hrefl R hR junk]
    simp only [bind, Except.bind, hm, and_false, if_false, ne_eq, not_false_eq_true, if_true]
    rfl
  · intro cs v vjunk h0
    unfold hermiteMultidimensional
    rw [inputValidation_ok close hrefl R hR junk]
    have hcut : (cs.length < n ∨ (cs.any (· = 0)) = true) := Or.inr (List.any_eq_true.mpr ⟨0, h0, by simp⟩)
    cases v with
    | none =>
      simp only [pyVec, Option.map_none, bind, Except.bind, ne_eq, not_true_eq_false, if_false]
      rw [if_pos hcut]; rfl
    | some v =>
      simp only [pyVec, Option.map_some, bind, Except.bind, ne_eq, and_true]
      cases modified
      · simp only [if_true, not_true_eq_false, if_false]
        rw [if_pos hcut]; rfl
      · simp only [Bool.true_eq_false, not_true_eq_false, if_false]
        rw [if_pos hcut]; rfl

/-- **C11** `hafnian_batched(A, cutoff, mu)[k]` is the loop hafnian of `A` with row/column `i` repeated `k_i` times and `mu` (zero if `None`) on the
diagonal, for all cutoffs and all multi-indices; without `mu` it is the hafnian of the repeated matrix. -/
theorem hafnianBatched_correct (sq : ℕ → K) (close closeD : K → K → Bool) (hrefl : ∀ x, close x x = true) (hreflD : ∀ x, closeD x x = true)
    {n : ℕ} (A : Matrix (Fin n) (Fin n) K)
    (hA : A.IsSymm) (junk : ℕ → ℕ → Option K) (mu : Option (Fin n → K)) (mujunk : ℕ → K) (c : Fin n → ℕ) (hc : ∀ i, 0 < c i) :
    ∃ H : MArr K, hafnianBatched sq close closeD (PyObj.ofMatrix A junk) (List.ofFn c) (pyVec mu mujunk) false true
        = .ok (.tensor (List.ofFn c) H) ∧
      (∀ k : Fin n → ℕ, (∀ a, k a < c a) → H (List.ofFn k) = Spec.lhaf (Spec.repeatedMatrixLoop (entries A fun _ _ => none)
        (vecEntries (optVec mu) 0) (List.ofFn k))) ∧
      (mu = none → ∀ k : Fin n → ℕ, (∀ a, k a < c a) →
        H (List.ofFn k) = Spec.haf (Spec.repeatedMatrix (entries A fun _ _ => none) (List.ofFn k))) := by
  have hneg : PyObj.neg (PyObj.ofMatrix A junk) = PyObj.ofMatrix (-A) fun i j => (junk i j).map fun x => -x := by
    unfold PyObj.neg PyObj.ofMatrix
    simp only
    congr 1
    funext i j
    split <;> simp
  obtain ⟨H, e, hv⟩ := hermite_value sq closeD hreflD (-A) (by rw [Matrix.IsSymm, Matrix.transpose_neg, hA]) (fun i j => (junk i j).map fun x => -x)
    (some (optVec mu)) (if mu = none then 0 else mujunk) 1 c hc true
  have hfirst : ∀ k : Fin n → ℕ, (∀ a, k a < c a) → H (List.ofFn k) = Spec.lhaf (Spec.repeatedMatrixLoop (entries A fun _ _ => none)
        (vecEntries (optVec mu) 0) (List.ofFn k)) := by
    intro k hk
    rw [hv k hk, one_mul]
    simp [hermiteArg, optVec]
  refine ⟨H, ?_, hfirst, ?_⟩
  · unfold hafnianBatched
    rw [inputValidation_ok close hrefl A hA junk]
    simp only [bind, Except.bind]
    rw [hneg, ← e]
    congr 1
    cases mu with
    | none =>
      simp only [pyVec, Option.map_none, Option.getD_none, Option.map_some, optVec, if_true]
      congr 2
      funext i; simp [vecEntries]
    | some v => simp [pyVec, optVec]
  · rintro rfl k hk
    rw [hfirst k hk, spec_lhaf_repeated, spec_haf_repeated]
    apply lh_congr
    · intro i _; simp [vecEntries, optVec]
    · intro i _ j _; rfl

/-- **C59** for a symmetric block anti-diagonal `R` the interferometer recursion returns `hermite_multidimensional(R)` at the zero vector, and the entries with
different photon numbers in the two halves are zero. -/
theorem interferometer_eq_hermite (sq : ℕ → K) (close : K → K → Bool) (hrefl : ∀ x, close x x = true) {n : ℕ}
    (R : Matrix (Fin (2 * n)) (Fin (2 * n)) K) (hR : R.IsSymm) (hblock : ∀ i j : Fin (2 * n), ((i : ℕ) < n ↔ (j : ℕ) < n) → R i j = 0)
    (junk : ℕ → ℕ → Option K) (cutoff : ℕ) (hc : 0 < cutoff) (C : K) (modified : Bool) :
    ∃ G H : MArr K, interferometer sq close (PyObj.ofMatrix R junk) cutoff C false = .ok (.tensor (List.replicate (2 * n) cutoff) G) ∧
      hermiteMultidimensional sq close (PyObj.ofMatrix R junk) (List.replicate (2 * n) cutoff) none C false true modified
        = .ok (.tensor (List.replicate (2 * n) cutoff) H) ∧
      (∀ k : Fin (2 * n) → ℕ, (∀ a, k a < cutoff) → G (List.ofFn k) = H (List.ofFn k)) ∧
      ∀ k : Fin (2 * n) → ℕ, (∀ a, k a < cutoff) →
        (∑ i : Fin (2 * n) with i.val < n, k i) ≠ (∑ i : Fin (2 * n) with n ≤ i.val, k i) → G (List.ofFn k) = 0 := by
  obtain ⟨y1, hy1, e1⟩ := hermite_call sq close hrefl R hR junk none 0 C (fun _ => cutoff) (fun _ => hc) false true modified
  have hrepl : List.ofFn (fun _ : Fin (2 * n) => cutoff) = List.replicate (2 * n) cutoff := List.ofFn_const _ _
  have hne : ∀ x ∈ List.replicate (2 * n) cutoff, x ≠ 0 := by
    intro x hx; rw [List.eq_of_mem_replicate hx]; omega
  have hblk : ∀ i j, i < 2 * n → j < 2 * n → (i < n ↔ j < n) → entries R junk i j = 0 := by
    intro i j hi hj h
    rw [entries_lt R junk hi hj]; exact hblock ⟨i, hi⟩ ⟨j, hj⟩ h
  have hmem : ∀ k : Fin (2 * n) → ℕ, (∀ a, k a < cutoff) → List.ofFn k ∈ ndindex (List.replicate (2 * n) cutoff) := by
    intro k hk; rw [← hrepl]; exact (mem_ndindex_ofFn k _).mpr hk
  have hG := interferometerFill_eq n (entries R junk) (List.replicate (2 * n) cutoff) (by simp) hne hblk C
  rw [hrepl] at e1
  refine ⟨interferometerFill (2 * n) (entries R junk) (List.replicate (2 * n) cutoff) (seedArray (2 * n) C), _, ?_, e1, ?_, ?_⟩
  · unfold interferometer
    rw [inputValidation_ok close hrefl R hR junk]
    simp only [bind, Except.bind]
    rw [if_neg (by omega)]
    rfl
  · intro k hk
    simp only [Bool.false_eq_true, if_false]
    rw [hG _ (hmem k hk), hermiteFill_eq _ _ _ hne C _ (by simp [seedArray]) _ (hmem k hk)]
    congr 1
    refine herm_congr (n := 2 * n) _ _ _ _ (fun _ _ _ _ => rfl) ?_ _ (by simp)
    intro i hi
    have := hy1 ⟨i, hi⟩
    rw [this]
    cases modified <;> simp [hermiteArg, optVec]
  · intro k hk hne'
    rw [hG _ (hmem k hk), herm_unbalanced n _ _ (by simp) hblk, mul_zero]
    intro hb
    apply hne'
    unfold balanced at hb
    have hhalf : 2 * n / 2 = n := by omega
    rw [hhalf] at hb
    have hlist : ∀ (s l : ℕ), s + l ≤ 2 * n → ((List.range' s l).map fun ii => (List.ofFn k).getD ii 0).sum
        = ∑ i : Fin (2 * n) with s ≤ i.val ∧ i.val < s + l, k i := by
      intro s l
      induction l with
      | zero =>
        intro _
        rw [Finset.sum_eq_zero]
        · simp
        · intro i hi; simp only [Finset.mem_filter] at hi; omega
      | succ l ih =>
        intro hsl
        rw [List.range'_1_concat, List.map_append, List.sum_append, ih (by omega)]
        have : (Finset.univ.filter fun i : Fin (2 * n) => s ≤ (i : ℕ) ∧ (i : ℕ) < s + (l + 1))
            = insert ⟨s + l, by omega⟩ (Finset.univ.filter fun i : Fin (2 * n) => s ≤ (i : ℕ) ∧ (i : ℕ) < s + l) := by
          ext i
          simp only [Finset.mem_filter, Finset.mem_univ, true_and, Finset.mem_insert, Fin.ext_iff]
          omega
        rw [this, Finset.sum_insert (by simp), add_comm]
        congr 1
        simp only [List.map_cons, List.map_nil, List.sum_cons, List.sum_nil, add_zero]
        rw [ofFn_getD, dif_pos (by omega)]
    have h1 := hlist 0 n (by omega)
    rw [← List.range_eq_range'] at h1
    rw [h1, hlist n (2 * n - n) (by omega)] at hb
    calc (∑ i : Fin (2 * n) with i.val < n, k i) = ∑ i : Fin (2 * n) with 0 ≤ i.val ∧ i.val < 0 + n, k i := by
          apply Finset.sum_congr _ fun _ _ => rfl
          ext i; simp
      _ = _ := hb
      _ = _ := by
          apply Finset.sum_congr _ fun _ _ => rfl
          ext i; simp only [Finset.mem_filter, Finset.mem_univ, true_and]; omega

end generic

/-! ### renormalised arrays and gradients -/

section rclike
variable {K : Type} [RCLike K]

/-- `sqrt(∏ k_i!)` -/
noncomputable def sqrtFact {n : ℕ} (k : Fin n → ℕ) : ℝ := Real.sqrt (∏ i, ((k i).factorial : ℝ))

/-- the exact square-root table -/
noncomputable def sqT (K : Type) [RCLike K] : ℕ → K := fun m => ((Real.sqrt m : ℝ) : K)

theorem sqT_ne (m : ℕ) (h : 0 < m) : sqT K m ≠ 0 := by
  unfold sqT
  rw [Ne, RCLike.ofReal_eq_zero, Real.sqrt_eq_zero (by positivity)]
  exact_mod_cast h.ne'

theorem sqT_sq (m : ℕ) : sqT K m * sqT K m = m := by
  unfold sqT
  rw [← RCLike.ofReal_mul, Real.mul_self_sqrt (by positivity)]; simp

theorem sqrtTable_lt (sjunk : ℕ → K) : ∀ m < 1000, sqrtTable sjunk m = sqT K m := by
  intro m hm; simp [sqrtTable, sqT, hm]

theorem sqFact_eq {n : ℕ} (k : Fin n → ℕ) : sqFact (sqT K) (List.ofFn k) = ((sqrtFact k : ℝ) : K) := by
  unfold sqFact sqrtFact
  rw [List.map_ofFn, List.prod_ofFn, Real.sqrt_prod _ (fun i _ => by positivity), RCLike.ofReal_prod]
  apply Finset.prod_congr rfl
  intro i _
  simp only [Function.comp]
  induction k i with
  | zero => simp
  | succ m ih =>
    rw [List.range_succ, List.map_append, List.prod_append, ih, Nat.factorial_succ]
    simp only [List.map_cons, List.map_nil, List.prod_cons, List.prod_nil, mul_one, sqT]
    rw [← RCLike.ofReal_mul, mul_comm (Real.sqrt _), ← Real.sqrt_mul (by positivity)]
    push_cast; rfl

/-- **C12**, renormalisation: for cutoffs up to 1000 (the size of the code's square-root table) the array with `renorm=True` is the unnormalised
array divided entrywise by `sqrt(∏ k_i!)`. -/
theorem hermite_renorm (sjunk : ℕ → K) (close : K → K → Bool) (hrefl : ∀ x, close x x = true) {n : ℕ} (R : Matrix (Fin n) (Fin n) K)
    (hR : R.IsSymm) (junk : ℕ → ℕ → Option K) (y : Option (Fin n → K)) (yjunk : ℕ → K) (C : K) (c : Fin n → ℕ) (hc : ∀ i, 0 < c i)
    (hc2 : ∀ i, c i ≤ 1000) (modified : Bool) :
    ∃ H H' : MArr K,
      hermiteMultidimensional (sqrtTable sjunk) close (PyObj.ofMatrix R junk) (List.ofFn c) (pyVec y yjunk) C false true modified
        = .ok (.tensor (List.ofFn c) H) ∧
      hermiteMultidimensional (sqrtTable sjunk) close (PyObj.ofMatrix R junk) (List.ofFn c) (pyVec y yjunk) C true true modified
        = .ok (.tensor (List.ofFn c) H') ∧
      ∀ k : Fin n → ℕ, (∀ a, k a < c a) → H' (List.ofFn k) = H (List.ofFn k) / ((sqrtFact k : ℝ) : K) := by
  obtain ⟨y1, hy1, e1⟩ := hermite_call (sqrtTable sjunk) close hrefl R hR junk y yjunk C c hc false true modified
  obtain ⟨y2, hy2, e2⟩ := hermite_call (sqrtTable sjunk) close hrefl R hR junk y yjunk C c hc true true modified
  refine ⟨_, _, e1, e2, ?_⟩
  intro k hk
  simp only [Bool.false_eq_true, if_false, if_true]
  rw [hermiteFillRenorm_congr (sqrtTable sjunk) (sqT K) 1000 (by norm_num) (sqrtTable_lt sjunk) _ _ _ (ofFn_le hc2),
    hermiteFillRenorm_eq (sqT K) sqT_ne sqT_sq _ _ _ (ofFn_ne_zero hc) C _ (by simp [seedArray]) _ ((mem_ndindex_ofFn k c).mpr hk),
    hermiteFill_eq _ _ _ (ofFn_ne_zero hc) C _ (by simp [seedArray]) _ ((mem_ndindex_ofFn k c).mpr hk), sqFact_eq]
  congr 2
  refine herm_congr (n := n) _ _ _ _ (fun _ _ _ _ => rfl) ?_ _ (by simp)
  intro i hi; rw [hy1 ⟨i, hi⟩, hy2 ⟨i, hi⟩]

/-- **C13** Let `R(t)`, `y(t)`, `C(t)` be a differentiable curve of symmetric matrices, vectors and seeds.  Call `hermite_multidimensional(R(t), cutoff, y(t), C(t),
modified=True)` and, with its result, `grad_hermite_multidimensional`; then along the curve each entry `k` of the array has derivative
`dG_dC[k] C' + ∑_ab dG_dR[k,a,b] R'_ab + ∑_a dG_dy[k,a] y'_a` (both normalisations; the code divides by `C`, so `C(t) ≠ 0`). -/
theorem grad_hermite_correct (sjunk : ℕ → K) (close : K → K → Bool) (hrefl : ∀ x, close x x = true) {n : ℕ}
    (R : K → Matrix (Fin n) (Fin n) K) (hR : ∀ u, (R u).IsSymm) (y : K → Fin n → K) (C : K → K)
    (R' : Matrix (Fin n) (Fin n) K) (y' : Fin n → K) (C' : K) (t : K)
    (hdR : ∀ a b, HasDerivAt (fun u => R u a b) (R' a b) t) (hdy : ∀ a, HasDerivAt (fun u => y u a) (y' a) t) (hdC : HasDerivAt C C' t)
    (hC : C t ≠ 0) (junk : ℕ → ℕ → Option K) (yjunk : ℕ → K) (c : Fin n → ℕ) (hc : ∀ i, 0 < c i) (hc2 : ∀ i, c i ≤ 1000) (renorm : Bool) :
    ∃ (G : K → MArr K) (dC : MArr K) (s : GradState K),
      (∀ u, hermiteMultidimensional (sqrtTable sjunk) close (PyObj.ofMatrix (R u) junk) (List.ofFn c) (pyVec (some (y u)) yjunk) (C u) renorm true
        true = .ok (.tensor (List.ofFn c) (G u))) ∧
      gradHermite (sqrtTable sjunk) (List.ofFn c) (G t) n n (entries (R t) junk) (vecEntries (y t) yjunk) (C t) renorm = .ok (dC, s) ∧
      ∀ k : Fin n → ℕ, (∀ a, k a < c a) →
        HasDerivAt (fun u => G u (List.ofFn k))
          (dC (List.ofFn k) * C' + ∑ a : Fin n, ∑ b : Fin n, s.dR (List.ofFn k) a b * R' a b + ∑ a : Fin n, s.dy (List.ofFn k) a * y' a) t := by
  -- the values
  set D : List ℕ → K := fun k => if renorm then sqFact (sqT K) k else 1 with hD
  set sqx : ℕ → K := if renorm then sqT K else fun m => (m : K) with hsqx
  set dv : ℕ → K := if renorm then sqT K else fun _ => 1 with hdv
  have hcall : ∀ u, ∃ Gu : MArr K,
      hermiteMultidimensional (sqrtTable sjunk) close (PyObj.ofMatrix (R u) junk) (List.ofFn c) (pyVec (some (y u)) yjunk) (C u) renorm true
        true = .ok (.tensor (List.ofFn c) Gu) ∧
      ∀ k ∈ ndindex (List.ofFn c), Gu k = C u * (herm (entries (R u) junk) (vecEntries (y u) yjunk) k / D k) := by
    intro u
    obtain ⟨y1, hy1, e1⟩ := hermite_call (sqrtTable sjunk) close hrefl (R u) (hR u) junk (some (y u)) yjunk (C u) c hc renorm true true
    refine ⟨_, e1, ?_⟩
    intro k hk
    have hl : k.length = n := by have := (mem_ndindex.mp hk).length_eq; simpa using this
    have hh : herm (entries (R u) junk) y1 k = herm (entries (R u) junk) (vecEntries (y u) yjunk) k := by
      refine herm_congr (n := n) _ _ _ _ (fun _ _ _ _ => rfl) ?_ _ hl
      intro i hi; rw [hy1 ⟨i, hi⟩]; simp [hermiteArg, optVec, vecEntries, hi]
    cases renorm with
    | true =>
      simp only [if_true, hD]
      rw [hermiteFillRenorm_congr (sqrtTable sjunk) (sqT K) 1000 (by norm_num) (sqrtTable_lt sjunk) _ _ _ (ofFn_le hc2),
        hermiteFillRenorm_eq (sqT K) sqT_ne sqT_sq _ _ _ (ofFn_ne_zero hc) (C u) _ (by simp [seedArray]) _ hk, hh, mul_div_assoc]
    | false =>
      simp only [Bool.false_eq_true, if_false, hD, div_one]
      rw [hermiteFill_eq _ _ _ (ofFn_ne_zero hc) (C u) _ (by simp [seedArray]) _ hk, hh]
  choose G hG1 hG2 using hcall
  let s0 : GradState K := { dR := fun _ _ _ => 0, dy := fun _ _ => 0 }
  let s := ((ndindex (List.ofFn c)).drop 1).foldl (gradStep sqx dv (entries (R t) junk) (vecEntries (y t) yjunk) (G t)) s0
  refine ⟨G, fun k => G t k / C t, s, hG1, ?_, ?_⟩
  · unfold gradHermite
    rw [if_neg (by simp)]
    cases renorm with
    | true =>
      simp only [if_true]
      show Except.ok (_, _) = Except.ok (_, _)
      congr 2
      exact gradStep_congr (sqrtTable sjunk) (sqT K) 1000 (by norm_num) (sqrtTable_lt sjunk) _ _ _ (ofFn_le hc2) _ _
    | false => rfl
  · intro k hk
    have hmem := (mem_ndindex_ofFn k c).mpr hk
    have hfun : (fun u => G u (List.ofFn k))
        = fun u => C u * (herm (entries (R u) junk) (vecEntries (y u) yjunk) (List.ofFn k) / D (List.ofFn k)) := by
      funext u; exact hG2 u _ hmem
    -- derivative of the seedless part, scaled by `C t`
    have hrec : ∀ (R0 : ℕ → ℕ → K) (y0 : ℕ → K) (idx : List ℕ), (∃ i, 0 < idx.getD i 0) →
        C t * (herm R0 y0 idx / D idx) = (y0 (firstPos idx) * (C t * (herm R0 y0 (decAt idx (firstPos idx)) / D (decAt idx (firstPos idx))))
        - ((removeAll (decAt idx (firstPos idx))).map fun lk =>
        sqx ((decAt idx (firstPos idx)).getD lk.1 0) * R0 (firstPos idx) lk.1 * (C t * (herm R0 y0 lk.2 / D lk.2))).sum)
          / dv (idx.getD (firstPos idx) 0) := by
      intro R0 y0 idx h
      have e : herm R0 y0 idx / D idx = (y0 (firstPos idx) * (herm R0 y0 (decAt idx (firstPos idx)) / D (decAt idx (firstPos idx)))
        - ((removeAll (decAt idx (firstPos idx))).map fun lk =>
        sqx ((decAt idx (firstPos idx)).getD lk.1 0) * R0 (firstPos idx) lk.1 * (herm R0 y0 lk.2 / D lk.2)).sum)
          / dv (idx.getD (firstPos idx) 0) := by
        cases renorm with
        | true =>
          simp only [hD, hsqx, hdv, if_true]
          exact herm_rec_renorm (sqT K) sqT_ne sqT_sq R0 y0 h
        | false =>
          simp only [hD, hsqx, hdv, Bool.false_eq_true, if_false, div_one]
          exact herm_rec R0 y0 h
      rw [e]
      have hsum : ((removeAll (decAt idx (firstPos idx))).map fun lk =>
          sqx ((decAt idx (firstPos idx)).getD lk.1 0) * R0 (firstPos idx) lk.1 * (C t * (herm R0 y0 lk.2 / D lk.2))).sum
          = C t * ((removeAll (decAt idx (firstPos idx))).map fun lk =>
        sqx ((decAt idx (firstPos idx)).getD lk.1 0) * R0 (firstPos idx) lk.1 * (herm R0 y0 lk.2 / D lk.2)).sum := by
        rw [← List.sum_map_mul_left]
        congr 1
        apply List.map_congr_left
        intro lk _; ring
      rw [hsum]
      ring
    have hD0 : ∀ (R0 : ℕ → ℕ → K) (y0 : ℕ → K), C t * (herm R0 y0 (List.replicate n 0) / D (List.replicate n 0)) = C t := by
      intro R0 y0
      rw [herm_zero]
      simp only [hD]
      split
      · rw [sqFact_zero]; simp
      · simp
    have hd := gradFill_hasDerivAt n sqx dv (by
        intro m hm
        simp only [hdv]
        split
        · exact sqT_ne m hm
        · exact one_ne_zero)
      (fun R0 y0 k => C t * (herm R0 y0 k / D k)) hrec (C t) hD0 (fun u => entries (R u) junk) (fun u => vecEntries (y u) yjunk)
      (fun a b => if h : a < n ∧ b < n then R' ⟨a, h.1⟩ ⟨b, h.2⟩ else 0) (fun a => if h : a < n then y' ⟨a, h⟩ else 0) t
      (by
        intro a ha b hb
        have e : (fun u => entries (R u) junk a b) = fun u => R u ⟨a, ha⟩ ⟨b, hb⟩ := by funext u; exact entries_lt _ _ ha hb
        rw [e]; simp only [ha, hb, and_self, dif_pos]; exact hdR _ _)
      (by
        intro a ha
        have e : (fun u => vecEntries (y u) yjunk a) = fun u => y u ⟨a, ha⟩ := by funext u; simp [vecEntries, ha]
        rw [e]; simp only [ha, dif_pos]; exact hdy _)
      (List.ofFn c) (by simp) (ofFn_ne_zero hc) (G t) (hG2 t) s0 rfl rfl _ hmem
    rw [hfun]
    -- multiply by C u / C t
    have hd2 : HasDerivAt (fun u => C u * ((C t)⁻¹ * (C t * (herm (entries (R u) junk) (vecEntries (y u) yjunk) (List.ofFn k) / D (List.ofFn k)))))
        _ t := hdC.fun_mul (hd.const_mul (C t)⁻¹)
    have hsimp : (fun u => C u * ((C t)⁻¹ * (C t * (herm (entries (R u) junk) (vecEntries (y u) yjunk) (List.ofFn k) / D (List.ofFn k)))))
        = fun u => C u * (herm (entries (R u) junk) (vecEntries (y u) yjunk) (List.ofFn k) / D (List.ofFn k)) := by
      funext u; rw [inv_mul_cancel_left₀ hC]
    rw [hsimp] at hd2
    refine hd2.congr_deriv ?_
    simp only
    rw [hG2 t _ hmem]
    have hlin : linForm n (fun a b => if h : a < n ∧ b < n then R' ⟨a, h.1⟩ ⟨b, h.2⟩ else 0) (fun a => if h : a < n then y' ⟨a, h⟩ else 0)
        (s.dR (List.ofFn k)) (s.dy (List.ofFn k))
        = ∑ a : Fin n, ∑ b : Fin n, s.dR (List.ofFn k) a b * R' a b + ∑ a : Fin n, s.dy (List.ofFn k) a * y' a := by
      unfold linForm
      rw [Finset.sum_range, Finset.sum_range]
      congr 1
      · apply Finset.sum_congr rfl
        intro a _
        rw [Finset.sum_range]
        apply Finset.sum_congr rfl
        intro b _
        simp
      · apply Finset.sum_congr rfl
        intro a _; simp
    show C' * _ + C t * ((C t)⁻¹ * linForm n _ _ (s.dR (List.ofFn k)) (s.dy (List.ofFn k))) = _
    rw [hlin, mul_inv_cancel_left₀ hC, inv_mul_cancel_left₀ hC, mul_div_cancel_left₀ _ hC]
    ring

/-- Non-vacuity: a complex symmetric matrix, cutoffs `(3, 2)` and a nonzero entry. -/
example : ∃ H : MArr ℂ, hafnianBatched (sqrtTable 0) (isClose 0 0) (isClose 0 0) (PyObj.ofMatrix (!![1, 2; 2, 3] : Matrix (Fin 2) (Fin 2) ℂ) fun _ _ => none)
    (List.ofFn ![3, 2]) (pyVec (some ![1, 1]) 0) false true = .ok (.tensor (List.ofFn ![3, 2]) H) := by
  obtain ⟨H, h, _⟩ := hafnianBatched_correct (sqrtTable 0) (isClose 0 0) (isClose 0 0) (isClose_refl le_rfl le_rfl) (isClose_refl le_rfl le_rfl)
    (!![1, 2; 2, 3] : Matrix (Fin 2) (Fin 2) ℂ) (by ext i j; fin_cases i <;> fin_cases j <;> rfl) (fun _ _ => none) (some ![1, 1]) 0 ![3, 2]
    (by intro i; fin_cases i <;> simp)
  exact ⟨H, h⟩

/-- Non-vacuity of the gradient theorem: the curve `R(t) = t`, `y(t) = t`, `C(t) = 1 + t` at `t = 1`. -/
example : ∃ (G : ℝ → MArr ℝ) (dC : MArr ℝ) (s : GradState ℝ),
    HasDerivAt (fun u => G u [2]) (dC [2] * 1 + ∑ _a : Fin 1, ∑ _b : Fin 1, s.dR [2] 0 0 * 1 + ∑ _a : Fin 1, s.dy [2] 0 * 1) 1 := by
  obtain ⟨G, dC, s, _, _, h⟩ := grad_hermite_correct (K := ℝ) (n := 1) 0 (isClose 0 0) (isClose_refl le_rfl le_rfl) (fun t => !![t])
    (by intro u; ext i j; fin_cases i; fin_cases j; rfl) (fun t => ![t]) (fun t => 1 + t) !![1] ![1] 1 1
    (by intro a b; fin_cases a; fin_cases b; simpa using hasDerivAt_id' (1 : ℝ)) (by intro a; fin_cases a; simpa using hasDerivAt_id' (1 : ℝ))
    (by simpa using (hasDerivAt_id' (1 : ℝ)).const_add 1) (by norm_num) (fun _ _ => none) 0 ![3] (by simp) (by simp) true
  exact ⟨G, dC, s, by simpa using h ![2] (by simp)⟩

end rclike
end Verif.Props
