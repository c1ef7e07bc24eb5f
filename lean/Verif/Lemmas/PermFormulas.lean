/- Ryser's and Glynn's formulas for the permanent, over subsets. -/
import Mathlib.LinearAlgebra.Matrix.Permanent
import Mathlib.Algebra.BigOperators.Ring.Finset
import Mathlib.Algebra.CharZero.Defs
import Mathlib.Data.Fintype.Powerset
import Mathlib.Algebra.BigOperators.Pi
import Mathlib.Tactic.Ring
import Mathlib.Tactic.LinearCombination

namespace Verif

open Finset

variable {ι : Type*} [Fintype ι] [DecidableEq ι] {K : Type*} [CommRing K]

/-- permanent = Σ over all functions that are bijective. -/
theorem permanent_eq_sum_fun (M : Matrix ι ι K) :
    M.permanent = ∑ f : ι → ι, if Function.Bijective f then ∏ i, M (f i) i else 0 := by
  classical
  rw [← Finset.sum_filter, Matrix.permanent]
  refine Finset.sum_bij' (fun σ _ => (σ : ι → ι)) (fun f hf => Equiv.ofBijective f (by simpa using hf))
    ?_ ?_ ?_ ?_ ?_ <;> intros <;> simp

theorem prod_sum_subset (M : Matrix ι ι K) (c : ι → K) :
    ∏ i, ∑ r, c r * M r i = ∑ f : ι → ι, (∏ i, c (f i)) * ∏ i, M (f i) i := by
  rw [Finset.prod_univ_sum]
  simp [Finset.prod_mul_distrib]

/-- Σ_S (-1)^{|S|} ∏_i [f i ∈ S] is (-1)^n if f surjective and 0 otherwise. -/
theorem sum_sign_indicator (f : ι → ι) :
    ∑ S : Finset ι, (-1 : K) ^ S.card * ∏ i, (if f i ∈ S then (1 : K) else 0)
      = if Function.Surjective f then (-1) ^ Fintype.card ι else 0 := by
  classical
  by_cases hf : Function.Surjective f
  · rw [if_pos hf, Finset.sum_eq_single Finset.univ]
    · simp
    · intro S _ hS
      obtain ⟨r, hr⟩ : ∃ r, r ∉ S := by
        by_contra h; push Not at h; exact hS (Finset.eq_univ_iff_forall.mpr h)
      obtain ⟨i, hi⟩ := hf r
      rw [Finset.prod_eq_zero (Finset.mem_univ i) (by simp [hi, hr]), mul_zero]
    · simp
  · rw [if_neg hf]
    obtain ⟨r, hr⟩ : ∃ r, ∀ i, f i ≠ r := by
      unfold Function.Surjective at hf; push Not at hf; exact hf
    apply Finset.sum_involution (fun S _ => if r ∈ S then S.erase r else insert r S)
    · intro S _
      by_cases h : r ∈ S
      · simp only [h, if_true]
        have : ∀ i, (f i ∈ S.erase r) = (f i ∈ S) := by intro i; simp [hr i]
        simp only [this]
        have hc : S.card = (S.erase r).card + 1 := by rw [Finset.card_erase_add_one h]
        rw [hc]; ring
      · simp only [h, if_false]
        have : ∀ i, (f i ∈ insert r S) = (f i ∈ S) := by intro i; simp [hr i]
        simp only [this]
        rw [Finset.card_insert_of_notMem h]; ring
    · intro S _ _ h
      by_cases hS : r ∈ S
      · simp only [hS, if_true] at h
        have := congrArg (fun s => r ∈ s) h
        simp [hS] at this
      · simp only [hS, if_false] at h
        have := congrArg (fun s => r ∈ s) h
        simp [hS] at this
    · intro S _
      by_cases hS : r ∈ S
      · simp [hS]
      · simp [hS]
    · intro S _; exact Finset.mem_univ _

/-- Ryser. -/
theorem ryser_formula (M : Matrix ι ι K) :
    ∑ S : Finset ι, (-1 : K) ^ S.card * ∏ i, (-(∑ r ∈ S, M r i)) = M.permanent := by
  classical
  have h : ∀ S : Finset ι, ∀ i, ∑ r ∈ S, M r i = ∑ r, (if r ∈ S then (1:K) else 0) * M r i := by
    intro S i; simp [Finset.sum_ite_mem]
  have e : ∀ S : Finset ι, (-1 : K) ^ S.card * ∏ i, (-(∑ r ∈ S, M r i))
      = ∑ f : ι → ι, (-1 : K) ^ Fintype.card ι * (∏ i, M (f i) i) *
          ((-1 : K) ^ S.card * ∏ i, (if f i ∈ S then (1 : K) else 0)) := by
    intro S
    rw [Finset.prod_neg]
    simp only [h]
    rw [prod_sum_subset, Finset.mul_sum, Finset.mul_sum]
    refine Finset.sum_congr rfl fun f _ => ?_
    rw [Finset.card_univ]
    ring
  simp only [e]
  rw [Finset.sum_comm]
  simp only [← Finset.mul_sum, sum_sign_indicator]
  rw [permanent_eq_sum_fun]
  refine Finset.sum_congr rfl fun f _ => ?_
  by_cases hf : Function.Surjective f
  · have hb : Function.Bijective f := ⟨Finite.injective_iff_surjective.mpr hf, hf⟩
    rw [if_pos hf, if_pos hb]
    have : (-1 : K) ^ Fintype.card ι * (-1 : K) ^ Fintype.card ι = 1 := by
      rw [← mul_pow]; simp
    linear_combination (∏ i, M (f i) i) * this
  · have hb : ¬ Function.Bijective f := fun h => hf h.2
    rw [if_neg hf, if_neg hb, mul_zero]

/-- sign vector of a subset: -1 on S and +1 elsewhere -/
def delta (S : Finset ι) (r : ι) : K := if r ∈ S then -1 else 1

theorem sum_delta (f : ι → ι) :
    ∑ S : Finset ι, (-1 : K) ^ S.card * ∏ i, (delta S (f i) : K)
      = if Function.Bijective f then 2 ^ Fintype.card ι else 0 := by
  classical
  -- rewrite as product over r
  have e : ∀ S : Finset ι, (-1 : K) ^ S.card * ∏ i, (delta S (f i) : K)
      = (∏ r ∈ S, (-1 : K) ^ (1 + (univ.filter fun i => f i = r).card)) *
        ∏ r ∈ univ \ S, (1 : K) := by
    intro S
    rw [Finset.prod_const_one, mul_one]
    simp only [pow_add, pow_one]
    rw [Finset.prod_mul_distrib, Finset.prod_const]
    congr 1
    rw [← Finset.prod_fiberwise_of_maps_to (s := univ) (t := univ) (g := f) (fun _ _ => mem_univ _)]
    have h1 : ∀ r, ∏ i ∈ univ.filter (fun i => f i = r), (delta S (f i) : K)
        = if r ∈ S then (-1 : K) ^ (univ.filter fun i => f i = r).card else 1 := by
      intro r
      rw [Finset.prod_congr rfl (g := fun _ => (delta S r : K))]
      · rw [Finset.prod_const]; unfold delta; split <;> simp
      · intro i hi; simp at hi; rw [hi]
    simp only [h1]
    rw [Finset.prod_ite_mem]; simp
  simp only [e]
  have := Finset.prod_add (fun r => (-1 : K) ^ (1 + (univ.filter fun i => f i = r).card)) (fun _ => (1:K)) univ
  rw [Finset.powerset_univ] at this
  rw [← this]
  by_cases hb : Function.Bijective f
  · rw [if_pos hb]
    have : ∀ r, (univ.filter fun i => f i = r).card = 1 := by
      intro r
      rw [Finset.card_eq_one]
      obtain ⟨i, hi⟩ := hb.2 r
      refine ⟨i, ?_⟩
      ext j; simp
      constructor
      · intro h; exact hb.1 (h.trans hi.symm)
      · rintro rfl; exact hi
    simp only [this]
    norm_num [Finset.card_univ]
  · rw [if_neg hb]
    obtain ⟨r, hr⟩ : ∃ r, ∀ i, f i ≠ r := by
      have : ¬ Function.Surjective f := fun h => hb ⟨Finite.injective_iff_surjective.mpr h, h⟩
      unfold Function.Surjective at this; push Not at this; exact this
    apply Finset.prod_eq_zero (mem_univ r)
    have : (univ.filter fun i => f i = r) = ∅ := by
      ext i; simp [hr i]
    simp [this]

/-- Glynn, full range. -/
theorem glynn_full (M : Matrix ι ι K) :
    ∑ S : Finset ι, (-1 : K) ^ S.card * ∏ i, (∑ r, delta S r * M r i)
      = 2 ^ Fintype.card ι * M.permanent := by
  classical
  simp only [prod_sum_subset, Finset.mul_sum]
  rw [Finset.sum_comm]
  rw [permanent_eq_sum_fun, Finset.mul_sum]
  refine Finset.sum_congr rfl fun f _ => ?_
  simp only [← mul_assoc]
  rw [← Finset.sum_mul, sum_delta]
  split <;> simp

/-- Glynn, half range: subsets avoiding a fixed row. -/
theorem glynn_half [IsDomain K] [CharZero K] (M : Matrix ι ι K) (a : ι) :
    ∑ S ∈ univ.filter (fun S : Finset ι => a ∉ S), (-1 : K) ^ S.card * ∏ i, (∑ r, delta S r * M r i)
      = 2 ^ (Fintype.card ι - 1) * M.permanent := by
  classical
  have hfull := glynn_full M
  rw [← Finset.sum_filter_add_sum_filter_not univ (fun S : Finset ι => a ∉ S)] at hfull
  have hsym : ∑ S ∈ univ.filter (fun S : Finset ι => ¬ a ∉ S), (-1 : K) ^ S.card * ∏ i, (∑ r, delta S r * M r i)
      = ∑ S ∈ univ.filter (fun S : Finset ι => a ∉ S), (-1 : K) ^ S.card * ∏ i, (∑ r, delta S r * M r i) := by
    refine Finset.sum_bij' (fun S _ => Sᶜ) (fun S _ => Sᶜ) ?_ ?_ ?_ ?_ ?_
    · intro S hS; simpa using hS
    · intro S hS; simpa using hS
    · intros; simp
    · intros; simp
    · intro S _
      have h1 : ∀ r, (delta Sᶜ r : K) = - delta S r := by
        intro r; unfold delta; by_cases h : r ∈ S <;> simp [h]
      simp only [h1, neg_mul, Finset.sum_neg_distrib]
      rw [Finset.prod_neg, Finset.card_compl, Finset.card_univ]
      have hle : S.card ≤ Fintype.card ι := Finset.card_le_univ S
      rw [← mul_assoc, ← pow_add]
      congr 1
      have : Fintype.card ι - S.card + Fintype.card ι = 2 * (Fintype.card ι - S.card) + S.card := by omega
      rw [this, pow_add, pow_mul]; simp
  rw [hsym, ← two_mul] at hfull
  have hn : 0 < Fintype.card ι := Fintype.card_pos_iff.mpr ⟨a⟩
  obtain ⟨m, hm⟩ : ∃ m, Fintype.card ι = m + 1 := ⟨_, (Nat.succ_pred_eq_of_pos hn).symm⟩
  rw [hm] at hfull ⊢
  rw [pow_succ, mul_comm ((2:K) ^ m) 2, mul_assoc] at hfull
  simpa using mul_left_cancel₀ (two_ne_zero) hfull

end Verif
