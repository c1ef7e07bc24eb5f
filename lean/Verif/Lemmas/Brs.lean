/- The subset loops of `brs` and `ubrs`. -/
import Verif.Model.PermanentOther
import Verif.Lemmas.FockProb
import Verif.Lemmas.Sieve
import Verif.Lemmas.PermLoops

set_option linter.unusedSectionVars false

namespace Verif

open Finset Verif.Model

theorem foldlM_sum {K : Type} [CommRing K] (l : List ℕ) (f : ℕ → Except PyErr K) (c g : ℕ → K)
    (h : ∀ j ∈ l, f j = .ok (g j)) (t : K) :
    l.foldlM (fun total j => do
      let p ← f j
      pure (total + c j * p)) t = (.ok (t + (l.map fun j => c j * g j).sum) : Except PyErr K) := by
  induction l generalizing t with
  | nil => simp [pure, Except.pure]
  | cons j l ih =>
    rw [List.foldlM_cons, h j (by simp)]
    simp only [bind, Except.bind, pure, Except.pure] at ih ⊢
    rw [ih (fun j hj => h j (by simp [hj]))]
    simp [add_assoc]

variable {K : Type} [RCLike K]

/-- positions of the non-zero digits -/
def rowsOf (d : List ℕ) : List ℕ := (List.range d.length).filter fun i => d.getD i 0 ≠ 0

theorem keptRows_eq (m j : ℕ) : keptRows m j = rowsOf (findKeptEdges j (List.replicate m 1)) := rfl

theorem rowsOf_ofFn {m : ℕ} (κ : Fin m → ℕ) :
    rowsOf (List.ofFn κ) = ((List.finRange m).filter fun i => κ i ≠ 0).map Fin.val := by
  rw [rowsOf, List.length_ofFn, ← List.map_coe_finRange_eq_range, List.filter_map]
  congr 1
  apply List.filter_congr
  intro i _
  simp [List.getD_eq_getElem?_getD]

theorem rowsOf_length {m : ℕ} (κ : Fin m → ℕ) : (rowsOf (List.ofFn κ)).length = (univ.filter fun i => κ i ≠ 0).card := by
  rw [rowsOf_ofFn, List.length_map, ← List.toFinset_card_of_nodup ((List.nodup_finRange m).filter _)]
  congr 1; ext i; simp

theorem gramRows_rowsOf {m : ℕ} (A : ℕ → ℕ → K) (κ : Fin m → ℕ) :
    gramRows A (rowsOf (List.ofFn κ)) = gram (fun r : Fin m => A r) (univ.filter fun i => κ i ≠ 0) := by
  funext a b
  rw [gramRows, rowsOf_ofFn, List.map_map, gram, ← List.sum_toFinset _ ((List.nodup_finRange m).filter _)]
  apply Finset.sum_congr
  · ext i; simp
  · intro i _; rfl

/-- summing over bit vectors is summing over subsets -/
theorem sum_bits {m : ℕ} {R : Type*} [AddCommMonoid R] (G : Finset (Fin m) → R) :
    ∑ κ ∈ Fintype.piFinset (fun _ : Fin m => range 2), G (univ.filter fun i => κ i ≠ 0)
      = ∑ S : Finset (Fin m), G S := by
  refine Finset.sum_bij' (fun κ _ => univ.filter fun i => κ i ≠ 0) (fun S _ => fun i => if i ∈ S then 1 else 0)
    (fun κ _ => mem_univ _) ?_ ?_ ?_ (fun κ _ => rfl)
  · intro S _
    rw [Fintype.mem_piFinset]
    intro i
    simp only [mem_range]
    split <;> omega
  · intro κ hκ
    rw [Fintype.mem_piFinset] at hκ
    funext i
    have := hκ i
    simp only [mem_range, Finset.mem_filter, Finset.mem_univ, true_and] at this ⊢
    split <;> omega
  · intro S _; ext i; simp

theorem sum_keptRows {m : ℕ} (A : ℕ → ℕ → K) (G : ℕ → (ℕ → ℕ → K) → K) :
    ((List.range (2 ^ m)).map fun j => G (keptRows m j).length (gramRows A (keptRows m j))).sum
      = ∑ S : Finset (Fin m), G S.card (gram (fun r : Fin m => A r) S) := by
  have hr : List.replicate m 1 = List.ofFn (fun _ : Fin m => 1) := by simp
  have hb : boxSize (List.ofFn (fun _ : Fin m => 1)) = 2 ^ m := by rw [← hr]; simp [boxSize]
  have h := sum_fke (fun _ : Fin m => 1) (fun d => G (rowsOf d).length (gramRows A (rowsOf d)))
  rw [hb, ← hr] at h
  refine Eq.trans h ?_
  rw [← sum_bits (fun S : Finset (Fin m) => G S.card (gram (fun r : Fin m => A r) S))]
  refine Finset.sum_congr rfl fun κ _ => ?_
  rw [rowsOf_length, gramRows_rowsOf]

theorem neg_one_pow_mod (k : ℕ) : (-1 : K) ^ (k % 2) = (-1) ^ k := by
  conv_rhs => rw [← Nat.mod_add_div k 2, pow_add, pow_mul]
  simp

theorem permL_range {n : ℕ} (M : ℕ → ℕ → K) : (toMatrix n n M).permanent = permL M (List.range n) (List.range n) := by
  have h : List.range n = List.ofFn fun i : Fin n => (i : ℕ) := by
    rw [List.ofFn_eq_map, List.map_coe_finRange_eq_range]
  rw [h, permL_ofFn, ← Matrix.permanent_transpose]; rfl

theorem brs_eq (m n : ℕ) (A E : ℕ → ℕ → K) :
    brs m n A E = .ok (∑ S : Finset (Fin m), (-1) ^ (m - S.card) *
      permL (fun a b => gram (fun r : Fin m => A r) S a b + E a b) (List.range n) (List.range n)) := by
  unfold brs brsStep
  have := foldlM_sum (List.range (2 ^ m)) (fun j => permBbfg n (fun a b => gramRows A (keptRows m j) a b + E a b))
    (fun j => (-1 : K) ^ ((m - (keptRows m j).length) % 2))
    (fun j => (toMatrix n n (fun a b => gramRows A (keptRows m j) a b + E a b)).permanent) (fun j _ => permBbfg_eq _) 0
  refine this.trans ?_
  rw [zero_add]
  congr 1
  refine (sum_keptRows A (fun c g => (-1 : K) ^ ((m - c) % 2) * (toMatrix n n (fun a b => g a b + E a b)).permanent)).trans ?_
  refine Finset.sum_congr rfl fun S _ => ?_
  rw [neg_one_pow_mod, permL_range]

theorem gram_empty {m : ℕ} (W : Fin m → ℕ → K) : gram W ∅ = fun _ _ => 0 := by
  funext a b; simp [gram]

theorem fke_zero (rs : List ℕ) : findKeptEdges 0 rs = List.replicate rs.length 0 := by
  induction rs with
  | nil => rfl
  | cons r rs ih => rw [fke_cons, ih]; simp [List.replicate_succ]

theorem keptRows_zero (m : ℕ) : keptRows m 0 = [] := by
  rw [keptRows_eq, fke_zero, rowsOf]
  simp [List.getD_eq_getElem?_getD, List.getElem?_replicate]
  intro a ha; simp [ha]

theorem ubrs_eq (m n : ℕ) (A : ℕ → ℕ → K) :
    ubrs m n A = .ok (∑ S : Finset (Fin m), (-1) ^ (m - S.card) *
      permL (gram (fun r : Fin m => A r) S) (List.range n) (List.range n)
        - (-1) ^ m * permL (fun _ _ => 0) (List.range n) (List.range n)) := by
  unfold ubrs ubrsStep
  have := foldlM_sum ((List.range (2 ^ m - 1)).map (· + 1)) (fun j => permBbfg n (gramRows A (keptRows m j)))
    (fun j => (-1 : K) ^ ((m - (keptRows m j).length) % 2))
    (fun j => (toMatrix n n (gramRows A (keptRows m j))).permanent) (fun j _ => permBbfg_eq _) 0
  refine this.trans ?_
  rw [zero_add]
  congr 1
  have h := sum_keptRows (m := m) A (fun c g => (-1 : K) ^ ((m - c) % 2) * (toMatrix n n g).permanent)
  have hp : 2 ^ m = (2 ^ m - 1) + 1 := by have := Nat.one_le_two_pow (n := m); omega
  rw [hp, List.range_succ_eq_map, List.map_cons, List.sum_cons, keptRows_zero] at h
  have e : ∑ S : Finset (Fin m), (-1 : K) ^ (m - S.card) * permL (gram (fun r : Fin m => A r) S) (List.range n) (List.range n)
      = ∑ S : Finset (Fin m), (-1 : K) ^ ((m - S.card) % 2) * (toMatrix n n (gram (fun r : Fin m => A r) S)).permanent := by
    refine Finset.sum_congr rfl fun S _ => ?_
    rw [neg_one_pow_mod, permL_range]
  rw [e, ← h, List.length_nil, neg_one_pow_mod, permL_range]
  have hg : gramRows A [] = fun _ _ => 0 := by funext a b; simp [gramRows]
  rw [hg]
  simp only [Nat.sub_zero, List.map_map, Nat.succ_eq_add_one, Function.comp_def]
  ring

end Verif
