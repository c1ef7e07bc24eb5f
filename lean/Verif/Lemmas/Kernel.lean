/-
Product kernels acting on tensors.
-/
import Mathlib.Data.Matrix.Basic
import Mathlib.Data.Matrix.Mul
import Mathlib.Data.Real.Basic
import Mathlib.Data.Fintype.BigOperators
import Mathlib.Algebra.BigOperators.Fin
import Mathlib.Algebra.BigOperators.Ring.Finset

namespace Verif.Lemmas.Kernel

variable {m c : ℕ}

/-- the operator with kernel `∏ k, M k (i k) (j k)` -/
noncomputable def op (M : Fin m → Matrix (Fin c) (Fin c) ℝ) (p : (Fin m → Fin c) → ℝ) (j : Fin m → Fin c) : ℝ :=
  ∑ i : Fin m → Fin c, (∏ k, M k (i k) (j k)) * p i

theorem op_comp (M M' : Fin m → Matrix (Fin c) (Fin c) ℝ) (p : (Fin m → Fin c) → ℝ) :
    op M (op M' p) = op (fun k => M' k * M k) p := by
  funext j
  simp only [op, Matrix.mul_apply, Finset.mul_sum, Finset.prod_univ_sum, Fintype.piFinset_univ, Finset.sum_mul]
  rw [Finset.sum_comm]
  refine Finset.sum_congr rfl fun h _ => Finset.sum_congr rfl fun i _ => ?_
  rw [Finset.prod_mul_distrib]
  ring

theorem op_single (k : Fin m) (L : Matrix (Fin c) (Fin c) ℝ) (p : (Fin m → Fin c) → ℝ) (j : Fin m → Fin c) :
    op (Function.update (fun _ => 1) k L) p j = ∑ v : Fin c, L v (j k) * p (Function.update j k v) := by
  classical
  rw [op]
  have hinj : Function.Injective fun v : Fin c => Function.update j k v := Function.update_injective j k
  rw [← Finset.sum_subset (Finset.subset_univ (Finset.univ.image fun v : Fin c => Function.update j k v))]
  · rw [Finset.sum_image fun a _ b _ h => hinj h]
    refine Finset.sum_congr rfl fun v _ => ?_
    congr 1
    rw [Finset.prod_eq_single k]
    · simp
    · intro b _ hb
      simp [Function.update_of_ne hb]
    · simp
  · intro i _ hi
    have : ∃ b, b ≠ k ∧ i b ≠ j b := by
      by_contra hcon
      push Not at hcon
      refine hi (Finset.mem_image.mpr ⟨i k, Finset.mem_univ _, ?_⟩)
      funext b
      by_cases hb : b = k
      · subst hb; simp
      · simp [Function.update_of_ne hb, hcon b hb]
    obtain ⟨b, hb, hne⟩ := this
    rw [Finset.prod_eq_zero (Finset.mem_univ b), zero_mul]
    simp [Function.update_of_ne hb, Matrix.one_apply_ne hne]

theorem op_one (p : (Fin m → Fin c) → ℝ) : op (fun _ => 1) p = p := by
  funext j
  rw [op, Finset.sum_eq_single j]
  · simp
  · intro i _ hij
    obtain ⟨b, hb⟩ := Function.ne_iff.mp hij
    rw [Finset.prod_eq_zero (Finset.mem_univ b), zero_mul]
    simp [Matrix.one_apply_ne hb]
  · simp

/-- applying the kernels axis after axis -/
theorem op_fold (M : Fin m → Matrix (Fin c) (Fin c) ℝ) (p : (Fin m → Fin c) → ℝ) (q : ℕ → (Fin m → Fin c) → ℝ) (h0 : q 0 = p)
    (hs : ∀ k : Fin m, ∀ j, q (k + 1) j = ∑ v : Fin c, M k v (j k) * q k (Function.update j k v)) : q m = op M p := by
  classical
  have key : ∀ n, n ≤ m → q n = op (fun k => if (k : ℕ) < n then M k else 1) p := by
    intro n hn
    induction n with
    | zero => simp [h0, op_one]
    | succ n ih =>
      have hq : q (n + 1) = op (Function.update (fun _ => 1) ⟨n, hn⟩ (M ⟨n, hn⟩)) (q n) := by
        funext j
        rw [op_single]
        exact hs ⟨n, hn⟩ j
      rw [hq, ih (by omega), op_comp]
      congr 1
      funext k
      by_cases hk : k = ⟨n, hn⟩
      · subst hk; simp
      · rw [Function.update_of_ne hk]
        have hne : (k : ℕ) ≠ n := fun h => hk (Fin.ext h)
        by_cases hlt : (k : ℕ) < n
        · simp [hlt, Nat.lt_succ_of_lt hlt]
        · have : ¬ (k : ℕ) < n + 1 := by omega
          simp [hlt, this]
  rw [key m le_rfl]
  congr 1
  funext k
  simp [k.2]

/-- the total after a product kernel -/
theorem op_total (M : Fin m → Matrix (Fin c) (Fin c) ℝ) (p : (Fin m → Fin c) → ℝ) :
    ∑ j, op M p j = ∑ i, (∏ k, ∑ v, M k (i k) v) * p i := by
  simp only [op]
  rw [Finset.sum_comm]
  refine Finset.sum_congr rfl fun i _ => ?_
  rw [Finset.prod_univ_sum, Fintype.piFinset_univ, Finset.sum_mul]

end Verif.Lemmas.Kernel
