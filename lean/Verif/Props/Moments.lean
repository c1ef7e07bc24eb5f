/-
C45: normal-ordering coefficients are Stirling numbers of the second kind, and the moments of photon numbers built on them are moments.
-/
import Verif.Props.PhotonNumber
import Verif.Lemmas.Banded
import Verif.Lemmas.PermL
import Verif.Lemmas.FockProb
import Mathlib.Combinatorics.Enumerative.Stirling
import Mathlib.Data.Nat.Choose.Sum
import Mathlib.LinearAlgebra.Basis.VectorSpace

set_option linter.unusedSectionVars false
set_option linter.unusedSimpArgs false

namespace Verif.Props
open Verif.Model Verif.Model.Symp Verif.Model.Conv Verif.Model.Means Verif.Spec Verif.Lemmas Verif.Lemmas.Symp Matrix

theorem coeff_sum (m k : ℕ) :
    coeffNormalOrdered m k = ∑ u ∈ Finset.range (k + 1), (-1 : ℂ) ^ (k - u) * (u : ℂ) ^ m / ((u.factorial : ℂ) * ((k - u).factorial : ℂ)) := by
  unfold coeffNormalOrdered
  rw [← List.sum_toFinset _ List.nodup_range, List.toFinset_range]
  exact Finset.sum_congr rfl fun u _ => by rw [one_div, mul_comm, div_eq_mul_inv]

theorem coeff_zero (k : ℕ) : coeffNormalOrdered 0 k = if k = 0 then 1 else 0 := by
  rw [coeff_sum]
  have h : ∀ u ∈ Finset.range (k + 1), (-1 : ℂ) ^ (k - u) * (u : ℂ) ^ 0 / ((u.factorial : ℂ) * ((k - u).factorial : ℂ))
      = (1 ^ u * (-1) ^ (k - u) * (k.choose u : ℂ)) * (k.factorial : ℂ)⁻¹ := by
    intro u hu
    have hu' : u ≤ k := by have := Finset.mem_range.mp hu; omega
    have hc : (k.choose u : ℂ) * u.factorial * (k - u).factorial = k.factorial := by exact_mod_cast Nat.choose_mul_factorial_mul_factorial hu'
    have h1 : (u.factorial : ℂ) ≠ 0 := by exact_mod_cast Nat.factorial_ne_zero u
    have h2 : ((k - u).factorial : ℂ) ≠ 0 := by exact_mod_cast Nat.factorial_ne_zero _
    have h3 : (k.factorial : ℂ) ≠ 0 := by exact_mod_cast Nat.factorial_ne_zero _
    rw [pow_zero, mul_one, one_pow, one_mul, div_eq_iff (mul_ne_zero h1 h2)]
    field_simp
    rw [← hc]
  rw [Finset.sum_congr rfl h, ← Finset.sum_mul, ← add_pow]
  by_cases hk : k = 0
  · subst hk; simp
  · rw [if_neg hk]; simp [hk]

theorem coeff_succ (m k : ℕ) : coeffNormalOrdered (m + 1) (k + 1) = (k + 1 : ℂ) * coeffNormalOrdered m (k + 1) + coeffNormalOrdered m k := by
  rw [coeff_sum, coeff_sum m (k + 1), coeff_sum m k, Finset.mul_sum]
  rw [Finset.sum_range_succ _ (k + 1), Finset.sum_range_succ (fun i => ((k : ℂ) + 1) * _) (k + 1)]
  have h : ∀ u ∈ Finset.range (k + 1), (-1 : ℂ) ^ (k + 1 - u) * (u : ℂ) ^ (m + 1) / ((u.factorial : ℂ) * ((k + 1 - u).factorial : ℂ))
      = ((k : ℂ) + 1) * ((-1 : ℂ) ^ (k + 1 - u) * (u : ℂ) ^ m / ((u.factorial : ℂ) * ((k + 1 - u).factorial : ℂ)))
        + (-1 : ℂ) ^ (k - u) * (u : ℂ) ^ m / ((u.factorial : ℂ) * ((k - u).factorial : ℂ)) := by
    intro u hu
    obtain ⟨d, rfl⟩ : ∃ d, k = u + d := ⟨k - u, by have := Finset.mem_range.mp hu; omega⟩
    rw [show u + d + 1 - u = d + 1 by omega, Nat.add_sub_cancel_left, Nat.factorial_succ]
    have h1 : (u.factorial : ℂ) ≠ 0 := by exact_mod_cast Nat.factorial_ne_zero u
    have h2 : (d.factorial : ℂ) ≠ 0 := by exact_mod_cast Nat.factorial_ne_zero _
    have h3 : (d : ℂ) + 1 ≠ 0 := by exact_mod_cast Nat.succ_ne_zero d
    push_cast
    field_simp
    ring
  rw [Finset.sum_congr rfl h, Finset.sum_add_distrib]
  have : (-1 : ℂ) ^ (k + 1 - (k + 1)) * ((k + 1 : ℕ) : ℂ) ^ (m + 1) / (((k + 1).factorial : ℂ) * ((k + 1 - (k + 1)).factorial : ℂ))
      = ((k : ℂ) + 1) * ((-1 : ℂ) ^ (k + 1 - (k + 1)) * ((k + 1 : ℕ) : ℂ) ^ m / (((k + 1).factorial : ℂ) * ((k + 1 - (k + 1)).factorial : ℂ))) := by
    push_cast; ring
  rw [this]
  ring

/-- C45: `_coeff_normal_ordered(m, k)` is the number of partitions of `m` objects into `k` blocks. -/
theorem coeffNormalOrdered_correct (m k : ℕ) : coeffNormalOrdered m k = (Nat.stirlingSecond m k : ℂ) := by
  induction m generalizing k with
  | zero =>
    rw [coeff_zero]
    cases k <;> simp [Nat.stirlingSecond]
  | succ m ih =>
    cases k with
    | zero => rw [coeff_sum]; simp [Nat.stirlingSecond]
    | succ k => rw [coeff_succ, ih, ih, Nat.stirlingSecond]; push_cast; ring

theorem pow_eq_sum_nat (n m : ℕ) : n ^ m = ∑ k ∈ Finset.range (m + 1), Nat.stirlingSecond m k * n.descFactorial k := by
  have hd : ∀ k, n * n.descFactorial k = n.descFactorial (k + 1) + k * n.descFactorial k := by
    intro k
    rw [Nat.descFactorial_succ]
    by_cases h : k ≤ n
    · rw [← add_mul, Nat.sub_add_cancel h]
    · rw [Nat.descFactorial_of_lt (by omega)]; simp
  induction m with
  | zero => simp [Nat.stirlingSecond]
  | succ m ih =>
    rw [pow_succ, ih, Finset.sum_mul, Finset.sum_range_succ' _ (m + 1)]
    have e1 : ∀ k, Nat.stirlingSecond m k * n.descFactorial k * n = Nat.stirlingSecond m k * n.descFactorial (k + 1) + k * Nat.stirlingSecond m k * n.descFactorial k := by
      intro k; rw [mul_assoc, mul_comm _ n, hd]; ring
    simp only [e1]
    rw [Finset.sum_add_distrib, Finset.sum_range_succ' (fun k => k * Nat.stirlingSecond m k * n.descFactorial k) m]
    have e2 : ∀ k, Nat.stirlingSecond (m + 1) (k + 1) * n.descFactorial (k + 1)
        = Nat.stirlingSecond m k * n.descFactorial (k + 1) + (k + 1) * Nat.stirlingSecond m (k + 1) * n.descFactorial (k + 1) := by
      intro k; rw [Nat.stirlingSecond]; ring
    simp only [e2]
    rw [Finset.sum_add_distrib, Finset.sum_range_succ (fun k => (k + 1) * Nat.stirlingSecond m (k + 1) * n.descFactorial (k + 1)) m,
      Nat.stirlingSecond_eq_zero_of_lt (Nat.lt_succ_self m)]
    simp [Nat.stirlingSecond]

/-- C45: the coefficients express powers of a number through its falling factorials. -/
theorem pow_eq_coeff_sum (n m : ℕ) : (n : ℂ) ^ m = ∑ k ∈ Finset.range (m + 1), coeffNormalOrdered m k * (n.descFactorial k : ℂ) := by
  have := pow_eq_sum_nat n m
  simp only [coeffNormalOrdered_correct]
  exact_mod_cast this

/-! ### Moments -/

theorem pyProduct_length {α : Type} (ls : List (List α)) (item : List α) (h : item ∈ pyProduct ls) : item.length = ls.length := by
  induction ls generalizing item with
  | nil => simp [pyProduct] at h; subst h; rfl
  | cons l ls ih =>
    simp only [pyProduct, List.mem_flatMap, List.mem_map] at h
    obtain ⟨a, -, t, ht, rfl⟩ := h
    rw [List.length_cons, List.length_cons, ih t ht]

theorem sum_flatMap' {R α : Type} [AddCommMonoid R] (l : List α) (f : α → List R) : (l.flatMap f).sum = (l.map fun a => (f a).sum).sum := by
  induction l with
  | nil => rfl
  | cons a l ih => rw [List.flatMap_cons, List.sum_append, ih, List.map_cons, List.sum_cons]

theorem list_sum_apply {R α : Type} [AddCommMonoid R] (l : List (α → R)) (a : α) : l.sum a = (l.map fun f => f a).sum := by
  induction l with
  | nil => rfl
  | cons f l ih => rw [List.sum_cons, Pi.add_apply, ih, List.map_cons, List.sum_cons]

theorem prod_sum_pyProduct {R α β : Type} [CommSemiring R] (idx : List β) (r : β → List α) (f : β → α → R) :
    (idx.map fun b => ((r b).map (f b)).sum).prod = ((pyProduct (idx.map r)).map fun item => ((idx.zip item).map fun p => f p.1 p.2).prod).sum := by
  induction idx with
  | nil => simp [pyProduct]
  | cons b idx ih =>
    rw [List.map_cons, List.prod_cons, ih, List.map_cons, pyProduct, List.map_flatMap, sum_flatMap']
    rw [← List.sum_map_mul_right]
    congr 1
    apply List.map_congr_left
    intro a _
    rw [List.map_map, ← List.sum_map_mul_left]
    congr 1

/-- write the values of a list of (position, value) pairs into a list -/
def setAll (z : List (ℕ × ℕ)) (r : List ℕ) : List ℕ := z.foldl (fun r p => r.set p.1 p.2) r

theorem setAll_length (z : List (ℕ × ℕ)) (r : List ℕ) : (setAll z r).length = r.length := by
  unfold setAll
  induction z generalizing r with
  | nil => rfl
  | cons p z ih => rw [List.foldl_cons, ih, List.length_set]

theorem setAll_getD (z : List (ℕ × ℕ)) (r : List ℕ) (hn : (z.map Prod.fst).Nodup) (hb : ∀ p ∈ z, p.1 < r.length) (x : ℕ) :
    (setAll z r).getD x 0 = if x ∈ z.map Prod.fst then (z.map fun p => if p.1 = x then p.2 else 0).sum else r.getD x 0 := by
  induction z generalizing r with
  | nil => simp [setAll]
  | cons p z ih =>
    rw [List.map_cons, List.nodup_cons] at hn
    have e : setAll (p :: z) r = setAll z (r.set p.1 p.2) := rfl
    rw [e, ih (r.set p.1 p.2) hn.2 (by intro q hq; rw [List.length_set]; exact hb q (by simp [hq]))]
    by_cases hx : x = p.1
    · subst hx
      rw [if_neg hn.1, if_pos (by simp)]
      rw [List.getD_eq_getElem _ _ (by rw [List.length_set]; exact hb p (by simp)), List.getElem_set_self, List.map_cons, List.sum_cons, if_pos rfl]
      have : (z.map fun q => if q.1 = p.1 then q.2 else 0).sum = 0 := by
        apply List.sum_eq_zero
        intro y hy
        obtain ⟨q, hq, rfl⟩ := List.mem_map.mp hy
        rw [if_neg]
        intro h
        exact hn.1 (h ▸ List.mem_map_of_mem hq)
      omega
    · have h1 : (x ∈ (p :: z).map Prod.fst) ↔ x ∈ z.map Prod.fst := by simp [hx]
      simp only [h1]
      simp only [List.map_cons, List.sum_cons, if_neg (Ne.symm hx), zero_add]
      have : (r.set p.1 p.2).getD x 0 = r.getD x 0 := by
        rw [List.getD_eq_getElem?_getD, List.getD_eq_getElem?_getD, List.getElem?_set_ne (Ne.symm hx)]
      rw [this]

theorem setAll_prod (N : ℕ) (n : ℕ → ℕ) (z : List (ℕ × ℕ)) (r : List ℕ) (hr : r.length = N) (hn : (z.map Prod.fst).Nodup) (hb : ∀ p ∈ z, p.1 < N)
    (h0 : ∀ p ∈ z, r.getD p.1 0 = 0) :
    ∏ j ∈ Finset.range N, ((n j).descFactorial ((setAll z r).getD j 0) : ℂ)
      = (∏ j ∈ Finset.range N, ((n j).descFactorial (r.getD j 0) : ℂ)) * (z.map fun p => ((n p.1).descFactorial p.2 : ℂ)).prod := by
  induction z generalizing r with
  | nil => simp [setAll]
  | cons p z ih =>
    rw [List.map_cons, List.nodup_cons] at hn
    have e : setAll (p :: z) r = setAll z (r.set p.1 p.2) := rfl
    have hp : p.1 < N := hb p (by simp)
    rw [e, ih (r.set p.1 p.2) (by rw [List.length_set, hr]) hn.2 (fun q hq => hb q (by simp [hq])) (fun q hq => by
      have hne : p.1 ≠ q.1 := fun h => hn.1 (h ▸ List.mem_map_of_mem hq)
      rw [List.getD_eq_getElem?_getD, List.getElem?_set_ne hne, ← List.getD_eq_getElem?_getD]
      exact h0 q (by simp [hq]))]
    rw [List.map_cons, List.prod_cons, ← mul_assoc]
    congr 1
    rw [← Finset.mul_prod_erase _ _ (Finset.mem_range.mpr hp), ← Finset.mul_prod_erase (Finset.range N) _ (Finset.mem_range.mpr hp)]
    rw [h0 p (by simp), Nat.descFactorial_zero, List.getD_eq_getElem _ _ (by rw [List.length_set, hr]; exact hp), List.getElem_set_self]
    rw [Nat.cast_one, one_mul, mul_comm]
    congr 1
    apply Finset.prod_congr rfl
    intro j hj
    have hne : p.1 ≠ j := (Finset.ne_of_mem_erase hj).symm
    rw [List.getD_eq_getElem?_getD, List.getElem?_set_ne hne, ← List.getD_eq_getElem?_getD]

theorem getD_replicate_zero (N x : ℕ) : (List.replicate N 0).getD x 0 = 0 := by
  by_cases h : x < N
  · rw [List.getD_eq_getElem _ _ (by simpa using h), List.getElem_replicate]
  · rw [List.getD_eq_default _ _ (by simpa using h)]

theorem setAll_zero_prod (N : ℕ) (n : ℕ → ℕ) (z : List (ℕ × ℕ)) (hn : (z.map Prod.fst).Nodup) (hb : ∀ p ∈ z, p.1 < N) :
    ∏ j ∈ Finset.range N, ((n j).descFactorial ((setAll z (List.replicate N 0)).getD j 0) : ℂ)
      = (z.map fun p => ((n p.1).descFactorial p.2 : ℂ)).prod := by
  rw [setAll_prod N n z _ (by simp) hn hb (fun p _ => getD_replicate_zero N _)]
  rw [Finset.prod_eq_one, one_mul]
  intro j _
  rw [getD_replicate_zero]; simp

/-- the normally ordered moment with the given exponents on a list of distinct modes is the corresponding factorial moment -/
theorem stats_setAll (N : ℕ) (mu : ℕ → ℝ) (cov : ℕ → ℕ → ℝ) (hbar : ℝ) (E : ((ℕ → ℕ) → ℂ) →ₗ[ℂ] ℂ) (hE : NumberStats N mu cov hbar E)
    (z : List (ℕ × ℕ)) (hn : (z.map Prod.fst).Nodup) (hb : ∀ p ∈ z, p.1 < N) :
    moment N mu cov hbar 1 (repeatedIndices (setAll z (List.replicate N 0) ++ setAll z (List.replicate N 0)))
      = E fun n => (z.map fun p => ((n p.1).descFactorial p.2 : ℂ)).prod := by
  rw [← hE _ (by rw [setAll_length, List.length_replicate])]
  congr 1
  funext n
  exact setAll_zero_prod N n z hn hb

theorem foldlM_sum' {K α : Type} [CommRing K] (l : List α) (f : K → α → Except PyErr K) (g : α → K)
    (h : ∀ a ∈ l, ∀ t, f t a = .ok (t + g a)) (t : K) : l.foldlM f t = (.ok (t + (l.map g).sum) : Except PyErr K) := by
  induction l generalizing t with
  | nil => simp [pure, Except.pure]
  | cons a l ih =>
    rw [List.foldlM_cons, h a (by simp)]
    simp only [bind, Except.bind]
    rw [ih fun b hb => h b (by simp [hb]), List.map_cons, List.sum_cons, add_assoc]

theorem foldl_range_getD {α β : Type} (l : List α) (d : α) (g : β → α → β) (t : β) :
    (List.range l.length).foldl (fun r i => g r (l.getD i d)) t = l.foldl g t := by
  have : l = (List.range l.length).map fun i => l.getD i d := by
    apply List.ext_getElem
    · simp
    · intro i h1 h2; rw [List.getElem_map, List.getElem_range, List.getD_eq_getElem _ _ h1]
  conv_rhs => rw [this, List.foldl_map]

/-- C45: `photon_number_moment` returns `⟨∏ n_j^{p_j}⟩` over its dictionary of modes and exponents, all exponents being positive. -/
theorem photonNumberMoment_partial (N : ℕ) (st : GState ℝ) (hs : st.len = 2 * N) (hsym : ∀ i < 2 * N, ∀ j < 2 * N, st.cov i j = st.cov j i) (hbar : ℝ)
    (E : ((ℕ → ℕ) → ℂ) →ₗ[ℂ] ℂ) (hE : NumberStats N st.mu st.cov hbar E) (indices : List (ℕ × ℕ)) (hn : (indices.map Prod.fst).Nodup)
    (hb : ∀ p ∈ indices, p.1 < N) (hp : ∀ p ∈ indices, p.2 ≠ 0) :
    photonNumberMoment isZero (isClose 0 0) st indices hbar = .ok (E fun n => (indices.map fun p => (n p.1 : ℂ) ^ p.2).prod) := by
  have hN : st.len / 2 = N := by omega
  unfold photonNumberMoment
  simp only [hN]
  set expansion := indices.map fun kv => (List.range kv.2).map fun i => coeffNormalOrdered kv.2 (1 + i) with hexp
  have hstep := foldlM_sum' (K := ℂ) (pyProduct (indices.map fun kv => List.range kv.2)) (fun net item => do
      if indices.any (·.1 ≥ N) then throw PyErr.indexError
      let rpt := (List.range indices.length).foldl (fun rpt i => rpt.set (indices.getD i (0, 0)).1 (item.getD i 0 + 1)) (List.replicate N 0)
      let prod := ((List.range item.length).map fun i => (expansion.getD i []).getD (item.getD i 0) 0).prod
      let e ← sOrdered isZero (isClose 0 0) st (rpt ++ rpt) hbar 1
      pure (net + prod * e))
    (fun item => ((indices.zip item).map fun p => coeffNormalOrdered p.1.2 (1 + p.2)).prod
      * E fun n => ((indices.zip item).map fun p => ((n p.1.1).descFactorial (1 + p.2) : ℂ)).prod) ?_ 0
  · rw [hstep]
    congr 1
    rw [zero_add]
    have hfun : (fun n : ℕ → ℕ => (indices.map fun p => (n p.1 : ℂ) ^ p.2).prod)
        = ((pyProduct (indices.map fun kv => List.range kv.2)).map fun item =>
            (((indices.zip item).map fun p => coeffNormalOrdered p.1.2 (1 + p.2)).prod : ℂ)
              • fun n : ℕ → ℕ => ((indices.zip item).map fun p => ((n p.1.1).descFactorial (1 + p.2) : ℂ)).prod).sum := by
      funext n
      have e1 : (indices.map fun p => (n p.1 : ℂ) ^ p.2)
          = indices.map fun p => ((List.range p.2).map fun k => coeffNormalOrdered p.2 (1 + k) * ((n p.1).descFactorial (1 + k) : ℂ)).sum := by
        apply List.map_congr_left
        intro p hp'
        rw [pow_eq_coeff_sum, Finset.sum_range_succ', ← List.sum_toFinset _ List.nodup_range, List.toFinset_range]
        have : coeffNormalOrdered p.2 0 = 0 := by
          rw [coeffNormalOrdered_correct]
          obtain ⟨q, hq⟩ := Nat.exists_eq_succ_of_ne_zero (hp p hp')
          rw [hq]; simp [Nat.stirlingSecond]
        rw [this, zero_mul, add_zero]
        exact Finset.sum_congr rfl fun k _ => by rw [add_comm 1 k]
      rw [e1, prod_sum_pyProduct indices (fun p => List.range p.2) fun p k => coeffNormalOrdered p.2 (1 + k) * ((n p.1).descFactorial (1 + k) : ℂ)]
      rw [list_sum_apply, List.map_map]
      congr 1
      apply List.map_congr_left
      intro item _
      simp only [Function.comp, Pi.smul_apply, smul_eq_mul, List.prod_map_mul]
    rw [hfun, map_list_sum, List.map_map]
    congr 1
    apply List.map_congr_left
    intro item _
    simp only [Function.comp, map_smul, smul_eq_mul]
  · intro item hitem t
    have hlen : item.length = indices.length := by rw [pyProduct_length _ _ hitem, List.length_map]
    have hany : ¬ (indices.any (·.1 ≥ N) = true) := by
      intro h
      obtain ⟨p, hp', h⟩ := List.any_eq_true.mp h
      have := hb p hp'
      simp only [decide_eq_true_eq] at h; omega
    simp only [if_neg hany]
    have hzl : (indices.zip item).length = indices.length := by rw [List.length_zip, hlen, min_self]
    have hz : ∀ i < indices.length, (indices.zip item).getD i ((0, 0), 0) = (indices.getD i (0, 0), item.getD i 0) := by
      intro i hi
      rw [List.getD_eq_getElem _ _ (by omega), List.getD_eq_getElem _ _ hi, List.getD_eq_getElem _ _ (by omega), List.getElem_zip]
    have hrpt : (List.range indices.length).foldl (fun rpt i => rpt.set (indices.getD i (0, 0)).1 (item.getD i 0 + 1)) (List.replicate N 0)
        = setAll ((indices.zip item).map fun p => (p.1.1, 1 + p.2)) (List.replicate N 0) := by
      unfold setAll
      rw [List.foldl_map, ← foldl_range_getD _ ((0, 0), 0), hzl]
      apply List.foldl_ext
      intro r i hi
      rw [hz i (List.mem_range.mp hi), add_comm 1]
    have hprod : ((List.range item.length).map fun i => (expansion.getD i []).getD (item.getD i 0) 0).prod
        = ((indices.zip item).map fun p => coeffNormalOrdered p.1.2 (1 + p.2)).prod := by
      congr 1
      have hmem : ∀ i (h1 : i < indices.length) (h2 : i < item.length), item[i] < (indices[i]).2 := by
        have gen : ∀ (idx : List (ℕ × ℕ)) (item : List ℕ), item ∈ pyProduct (idx.map fun kv => List.range kv.2) →
            ∀ i (h1 : i < idx.length) (h2 : i < item.length), item[i] < (idx[i]).2 := by
          intro idx
          induction idx with
          | nil => intro item _ i h1; simp at h1
          | cons b idx ih =>
            intro item h i h1 h2
            simp only [List.map_cons, pyProduct, List.mem_flatMap, List.mem_map] at h
            obtain ⟨a, ha, u, hu, rfl⟩ := h
            cases i with
            | zero => simpa using ha
            | succ i => simpa using ih u hu i (by simpa using h1) (by simpa using h2)
        exact gen indices item hitem
      apply List.ext_getElem
      · simp [hlen]
      · intro i h1 h2
        have h1' : i < item.length := by simpa using h1
        rw [List.getElem_map, List.getElem_range, List.getElem_map, List.getElem_zip, List.getD_eq_getElem item _ h1',
          List.getD_eq_getElem expansion _ (by simp [hexp]; omega)]
        simp only [hexp, List.getElem_map]
        rw [List.getD_eq_getElem _ _ (by simpa using hmem i (by omega) h1'), List.getElem_map, List.getElem_range]
    rw [hrpt, hprod]
    rw [sOrdered_correct N st hs hsym _ (by rw [List.length_append, setAll_length, List.length_replicate]; omega) hbar 1]
    simp only [bind, Except.bind, pure, Except.pure]
    rw [stats_setAll N st.mu st.cov hbar E hE]
    · simp only [List.map_map]; rfl
    · rw [List.map_map]
      have : (indices.zip item).map (Prod.fst ∘ fun p => (p.1.1, 1 + p.2)) = indices.map Prod.fst := by
        rw [show (Prod.fst ∘ fun p : (ℕ × ℕ) × ℕ => (p.1.1, 1 + p.2)) = Prod.fst ∘ Prod.fst from rfl, ← List.map_map, List.map_fst_zip (by omega)]
      rw [this]; exact hn
    · intro p hp'
      obtain ⟨q, hq, rfl⟩ := List.mem_map.mp hp'
      exact hb q.1 (List.of_mem_zip hq).1

/-- an exponent zero in the dictionary makes `photon_number_moment` return zero; the moment `⟨n_j^0⟩` is one -/
theorem photonNumberMoment_zero_exponent (N : ℕ) (st : GState ℝ) (hbar : ℝ)
    (E : ((ℕ → ℕ) → ℂ) →ₗ[ℂ] ℂ) (hE : NumberStats N st.mu st.cov hbar E) (j : ℕ) :
    photonNumberMoment isZero (isClose 0 0) st [(j, 0)] hbar = .ok 0 ∧ (E fun n => ([(j, 0)].map fun p : ℕ × ℕ => (n p.1 : ℂ) ^ p.2).prod) = 1 := by
  constructor
  · rfl
  · have := hE (List.replicate N 0) (by simp)
    have e : (fun n : ℕ → ℕ => ∏ i ∈ Finset.range N, ((n i).descFactorial ((List.replicate N 0).getD i 0) : ℂ))
        = fun n => ([(j, 0)].map fun p : ℕ × ℕ => (n p.1 : ℂ) ^ p.2).prod := by
      funext n
      rw [Finset.prod_eq_one]
      · simp
      · intro i _; rw [getD_replicate_zero]; simp
    rw [e] at this
    rw [this]
    have hr : repeatedIndices (List.replicate N 0 ++ List.replicate N 0) = [] := by
      unfold repeatedIndices
      rw [List.flatMap_eq_nil_iff]
      intro i _
      rw [List.replicate_append_replicate, getD_replicate_zero]; rfl
    rw [hr, moment_lh]; simp [lh, lhN]

/-- a mode beyond the last one is refused (all exponents being positive) -/
theorem photonNumberMoment_raises (N : ℕ) (st : GState ℝ) (hs : st.len = 2 * N) (hbar : ℝ) (indices : List (ℕ × ℕ))
    (hb : ∃ p ∈ indices, N ≤ p.1) (hp : ∀ p ∈ indices, p.2 ≠ 0) :
    photonNumberMoment isZero (isClose 0 0) st indices hbar = .error .indexError := by
  have hN : st.len / 2 = N := by omega
  have hne : pyProduct (indices.map fun kv => List.range kv.2) ≠ [] := by
    clear hb
    induction indices with
    | nil => simp [pyProduct]
    | cons p l ih =>
      have h1 := ih fun q hq => hp q (by simp [hq])
      obtain ⟨q, hq⟩ := Nat.exists_eq_succ_of_ne_zero (hp p (by simp))
      rw [List.map_cons, hq, pyProduct, Ne, List.flatMap_eq_nil_iff]
      intro h
      have := h 0 (List.mem_range.mpr (Nat.succ_pos _))
      exact h1 (List.map_eq_nil_iff.mp this)
  have hany : indices.any (·.1 ≥ N) = true := by
    obtain ⟨p, hp', h⟩ := hb
    exact List.any_eq_true.mpr ⟨p, hp', by simpa using h⟩
  obtain ⟨x, l, hxl⟩ := List.exists_cons_of_ne_nil hne
  unfold photonNumberMoment
  simp only [hN, hxl, List.foldlM_cons, hany, if_true]
  rfl

theorem stats_repeated (N : ℕ) (mu : ℕ → ℝ) (cov : ℕ → ℕ → ℝ) (hsym : ∀ i < 2 * N, ∀ j < 2 * N, cov i j = cov j i) (hbar : ℝ)
    (E : ((ℕ → ℕ) → ℂ) →ₗ[ℂ] ℂ) (hE : NumberStats N mu cov hbar E)
    (z : List (ℕ × ℕ)) (hn : (z.map Prod.fst).Nodup) (hb : ∀ p ∈ z, p.1 < N) :
    moment N mu cov hbar 1 ((z.flatMap fun p => List.replicate p.2 p.1) ++ (z.flatMap fun p => List.replicate p.2 (N + p.1)))
      = E fun n => (z.map fun p => ((n p.1).descFactorial p.2 : ℂ)).prod := by
  rw [← stats_setAll N mu cov hbar E hE z hn hb, moment_lh, moment_lh]
  have hlt : ∀ x ∈ (z.flatMap fun p => List.replicate p.2 p.1) ++ (z.flatMap fun p => List.replicate p.2 (N + p.1)), x < 2 * N := by
    intro x hx
    rw [List.mem_append, List.mem_flatMap, List.mem_flatMap] at hx
    rcases hx with ⟨p, hp, h⟩ | ⟨p, hp, h⟩ <;> rw [List.mem_replicate] at h <;> have := hb p hp <;> omega
  apply lh_perm_mem
  · intro i hi j hj
    exact ladderCov_symm N cov hbar 1 hsym i j (hlt i hi) (hlt j hj)
  · have hperm : (z.flatMap fun p => List.replicate p.2 p.1).Perm (repeatedIndices (setAll z (List.replicate N 0))) := by
      rw [List.perm_iff_count]
      intro x
      rw [count_repeated, setAll_getD z _ hn (by simpa using hb), List.count_flatMap, getD_replicate_zero]
      have e : (List.count x ∘ fun p : ℕ × ℕ => List.replicate p.2 p.1) = fun p => if p.1 = x then p.2 else 0 := by
        funext p; simp [List.count_replicate]
      rw [e]
      split_ifs with hx
      · rfl
      · apply List.sum_eq_zero
        intro y hy
        obtain ⟨q, hq, rfl⟩ := List.mem_map.mp hy
        rw [if_neg]
        rintro rfl
        exact hx (List.mem_map_of_mem hq)
    rw [repeatedIndices_append, setAll_length, List.length_replicate]
    apply List.Perm.append hperm
    have : (z.flatMap fun p => List.replicate p.2 (N + p.1)) = (z.flatMap fun p => List.replicate p.2 p.1).map (N + ·) := by
      rw [List.map_flatMap]
      apply List.flatMap_congr
      intro p _
      rw [List.map_replicate]
    rw [this]
    exact hperm.map _

/-- C51/C45: the mean and the second moments of the photon numbers are those of any expectation functional of the state. -/
theorem numberMean_stats (N : ℕ) (mu : ℕ → ℝ) (cov : ℕ → ℕ → ℝ) (hsym : ∀ i < 2 * N, ∀ j < 2 * N, cov i j = cov j i) (hbar : ℝ)
    (E : ((ℕ → ℕ) → ℂ) →ₗ[ℂ] ℂ) (hE : NumberStats N mu cov hbar E) (j : ℕ) (hj : j < N) :
    numberMean N mu cov hbar j = E fun n => (n j : ℂ) := by
  have := stats_repeated N mu cov hsym hbar E hE [(j, 1)] (by simp) (by simpa using hj)
  unfold numberMean
  simpa using this

theorem numberCorr_stats (N : ℕ) (mu : ℕ → ℝ) (cov : ℕ → ℕ → ℝ) (hsym : ∀ i < 2 * N, ∀ j < 2 * N, cov i j = cov j i) (hbar : ℝ)
    (E : ((ℕ → ℕ) → ℂ) →ₗ[ℂ] ℂ) (hE : NumberStats N mu cov hbar E) (j k : ℕ) (hj : j < N) (hk : k < N) :
    numberCorr N mu cov hbar j k = E fun n => (n j : ℂ) * (n k : ℂ) := by
  unfold numberCorr
  by_cases hjk : j = k
  · subst hjk
    rw [if_pos rfl]
    have h1 := stats_repeated N mu cov hsym hbar E hE [(j, 1)] (by simp) (by simpa using hj)
    have h2 := stats_repeated N mu cov hsym hbar E hE [(j, 2)] (by simp) (by simpa using hj)
    simp only [List.flatMap_cons, List.flatMap_nil, List.append_nil, List.replicate_succ, List.replicate_zero, List.cons_append, List.nil_append,
      List.map_cons, List.map_nil, List.prod_cons, List.prod_nil, mul_one] at h1 h2
    rw [h1, h2, ← map_add]
    congr 1
    funext n
    have := pow_eq_sum_nat (n j) 2
    simp only [Finset.sum_range_succ, Finset.sum_range_zero, Nat.stirlingSecond] at this
    have h' : n j * n j = (n j).descFactorial 2 + (n j).descFactorial 1 := by rw [← sq, this]; ring
    rw [Pi.add_apply]
    exact_mod_cast h'.symm
  · rw [if_neg hjk]
    have := stats_repeated N mu cov hsym hbar E hE [(j, 1), (k, 1)] (by simpa using hjk) (by simp [hj, hk])
    simpa using this

/-- C51: `photon_number_covar` is the covariance of the photon numbers under any expectation functional of the state. -/
theorem photonNumberCovar_stats (N : ℕ) (st : GState ℝ) (hs : st.len = 2 * N) (hsym : ∀ i < 2 * N, ∀ j < 2 * N, st.cov i j = st.cov j i) (hbar : ℝ)
    (hh : 0 < hbar) (E : ((ℕ → ℕ) → ℂ) →ₗ[ℂ] ℂ) (hE : NumberStats N st.mu st.cov hbar E) (j k : ℕ) (hj : j < N) (hk : k < N) :
    ∃ v : ℝ, photonNumberCovar st j k hbar = .ok v
      ∧ (v : ℂ) = (E fun n => (n j : ℂ) * (n k : ℂ)) - (E fun n => (n j : ℂ)) * E fun n => (n k : ℂ) := by
  obtain ⟨v, e, h⟩ := photonNumberCovar_correct N st hs hsym hbar hh j k hj hk
  refine ⟨v, e, ?_⟩
  rw [h, numberCorr_stats N _ _ hsym hbar E hE j k hj hk, numberMean_stats N _ _ hsym hbar E hE j hj, numberMean_stats N _ _ hsym hbar E hE k hk]

/-- C51: `photon_number_expectation` of distinct modes is the expectation of the product of their photon numbers. -/
theorem photonNumberExpectation_correct (N : ℕ) (st : GState ℝ) (hs : st.len = 2 * N) (hsym : ∀ i < 2 * N, ∀ j < 2 * N, st.cov i j = st.cov j i)
    (hbar : ℝ) (E : ((ℕ → ℕ) → ℂ) →ₗ[ℂ] ℂ) (hE : NumberStats N st.mu st.cov hbar E) (modes : List ℕ) (hn : modes.Nodup) (hb : ∀ m ∈ modes, m < N) :
    photonNumberExpectation isZero (isClose 0 0) st modes hbar = .ok (E fun n => (modes.map fun j => (n j : ℂ)).prod) := by
  have hN : st.len / 2 = N := by omega
  unfold photonNumberExpectation
  simp only [hN]
  rw [if_neg]
  · have hset : ∀ (l : List ℕ) (a : List ℕ), a.length = N → (∀ m ∈ l, m < N) →
        l.foldl (fun rpt i => (rpt.set i 1).set (i + N) 1) (a ++ a) = setAll (l.map fun m => (m, 1)) a ++ setAll (l.map fun m => (m, 1)) a := by
      intro l
      induction l with
      | nil => intro a _ _; rfl
      | cons m l ih =>
        intro a ha hl
        have hm : m < N := hl m (by simp)
        have : ((a ++ a).set m 1).set (m + N) 1 = a.set m 1 ++ a.set m 1 := by
          rw [List.set_append_left _ _ (by omega), List.set_append_right _ _ (by rw [List.length_set]; omega), List.length_set, ha,
            Nat.add_sub_cancel]
        rw [List.foldl_cons, this, ih (a.set m 1) (by rw [List.length_set, ha]) fun q hq => hl q (by simp [hq])]
        rfl
    have hz : List.replicate st.len 0 = List.replicate N 0 ++ List.replicate N 0 := by
      rw [List.replicate_append_replicate, hs, two_mul]
    unfold normalOrdered
    rw [hz, hset modes _ (by simp) hb, sOrdered_correct N st hs hsym _ (by rw [List.length_append, setAll_length, List.length_replicate]; omega),
      stats_setAll N _ _ hbar E hE]
    · simp only [List.map_map, Function.comp_def, Nat.descFactorial_one]
    · rw [List.map_map]; simpa [Function.comp_def] using hn
    · intro p hp
      obtain ⟨m, hm, rfl⟩ := List.mem_map.mp hp
      exact hb m hm
  · intro h
    obtain ⟨m, hm, h⟩ := List.any_eq_true.mp h
    have := hb m hm
    simp only [decide_eq_true_eq] at h; omega

theorem moment_reduced (N : ℕ) (st : GState ℝ) (modes : List ℕ) (hn : modes.Nodup) (hb : ∀ m ∈ modes, m < N) (r : GState ℝ)
    (hR : IsReduction N st modes r) (hbar s : ℝ) (item : List ℕ) (hi : item.length = modes.length) :
    moment modes.length r.mu r.cov hbar s (repeatedIndices (item ++ item))
      = moment N st.mu st.cov hbar s (((modes.zip item).flatMap fun p => List.replicate p.2 p.1)
          ++ ((modes.zip item).flatMap fun p => List.replicate p.2 (N + p.1))) := by
  rw [moment_lh, moment_lh]
  have hmap : (repeatedIndices (item ++ item)).map (indOf N modes) = ((modes.zip item).flatMap fun p => List.replicate p.2 p.1)
          ++ ((modes.zip item).flatMap fun p => List.replicate p.2 (N + p.1)) := by
    have hz : modes.zip item = (List.range item.length).map fun i => (modes.getD i 0, item.getD i 0) := by
      apply List.ext_getElem
      · simp [hi]
      · intro i h1 h2
        have h3 : i < item.length := by simpa using h2
        rw [List.getElem_zip, List.getElem_map, List.getElem_range, List.getD_eq_getElem _ _ (by omega), List.getD_eq_getElem _ _ h3]
    rw [repeatedIndices_append, List.map_append, List.map_map, hz]
    unfold repeatedIndices
    rw [List.map_flatMap, List.map_flatMap, List.flatMap_map, List.flatMap_map]
    congr 1
    · apply List.flatMap_congr
      intro i h
      rw [List.map_replicate, indOf_left N modes i (by have := List.mem_range.mp h; omega)]
    · apply List.flatMap_congr
      intro i h
      rw [List.map_replicate, Function.comp, hi, indOf_right N modes i (by have := List.mem_range.mp h; omega)]
  rw [← hmap, lh_map]
  have hlt : ∀ a ∈ repeatedIndices (item ++ item), a < 2 * modes.length := by
    intro a ha; have := repeatedIndices_lt ha; rw [List.length_append] at this; omega
  apply lh_congr
  · intro a ha
    exact ladderMean_reduced N st modes r hR hb hbar a (hlt a ha)
  · intro a ha b hb'
    exact ladderCov_reduced N st modes hn r hR hb hbar s a b (hlt a ha) (hlt b hb')

/-- C51: `photon_number_squared_expectation` of distinct modes is the expectation of the product of the squares of their photon numbers
(also when all modes are listed in another order, where `reduced_gaussian` returns the modes unpermuted). -/
theorem photonNumberSquared_correct (N : ℕ) (st : GState ℝ) (hs : st.len = 2 * N) (hsym : ∀ i < 2 * N, ∀ j < 2 * N, st.cov i j = st.cov j i)
    (hbar : ℝ) (E : ((ℕ → ℕ) → ℂ) →ₗ[ℂ] ℂ) (hE : NumberStats N st.mu st.cov hbar E) (modes : List ℕ) (hne : modes ≠ []) (hn : modes.Nodup)
    (hb : ∀ m ∈ modes, m < N) :
    photonNumberSquared isZero (isClose 0 0) st modes hbar = .ok (E fun n => (modes.map fun j => (n j : ℂ) ^ 2).prod) := by
  -- the modes the reduced state really lists
  obtain ⟨ms, r, hred, hR, hperm⟩ : ∃ ms r, reducedGaussian st modes = .ok r ∧ IsReduction N st ms r ∧ ms.Perm modes := by
    by_cases hl : modes.length = N
    · refine ⟨List.range N, st, ?_, range_reduction N st hs, ?_⟩
      · unfold reducedGaussian
        simp only [show st.len / 2 = N by omega]
        rw [if_neg, if_pos hl]
        intro h
        obtain ⟨m, hm, h⟩ := List.any_eq_true.mp h
        have := hb m hm
        simp only [decide_eq_true_eq] at h; omega
      · have hsub : modes.toFinset = Finset.range N := by
          apply Finset.eq_of_subset_of_card_le
          · intro m hm; exact Finset.mem_range.mpr (hb m (List.mem_toFinset.mp hm))
          · rw [Finset.card_range, List.toFinset_card_of_nodup hn, hl]
        refine (List.perm_ext_iff_of_nodup List.nodup_range hn).mpr fun m => ?_
        rw [← List.mem_toFinset (l := modes), hsub]; simp
    · obtain ⟨r, h1, h2⟩ := reducedGaussian_partial N st hs modes hne hb (Or.inl hl)
      exact ⟨modes, r, h1, h2, List.Perm.refl _⟩
  have hnm : ms.Nodup := (hperm.nodup_iff).mpr hn
  have hbm : ∀ m ∈ ms, m < N := fun m hm => hb m (hperm.mem_iff.mp hm)
  have hgoal : (fun n : ℕ → ℕ => (modes.map fun j => (n j : ℂ) ^ 2).prod) = fun n => (ms.map fun j => (n j : ℂ) ^ 2).prod := by
    funext n; exact ((hperm.map _).prod_eq).symm
  rw [hgoal]
  have hlen := hperm.length_eq
  unfold photonNumberSquared
  rw [hred]
  show (pyProduct (List.replicate modes.length [1, 2])).foldlM (fun (result : ℂ) (item : List ℕ) => (do
    let term ← normalOrdered isZero (isClose 0 0) r (item ++ item) hbar
    pure (result + term) : Except PyErr ℂ)) 0 = _
  have hrl : r.len = 2 * ms.length := hR.len
  have hrsym : ∀ i < 2 * ms.length, ∀ j < 2 * ms.length, r.cov i j = r.cov j i := by
    have hlt : ∀ a < ms.length, ms.getD a 0 < N := by
      intro a ha; rw [List.getD_eq_getElem _ _ ha]; exact hbm _ (List.getElem_mem _)
    intro i hi j hj
    by_cases h1 : i < ms.length <;> by_cases h2 : j < ms.length
    · rw [hR.xx i h1 j h2, hR.xx j h2 i h1, hsym]
      · have := hlt i h1; omega
      · have := hlt j h2; omega
    · obtain ⟨c, rfl⟩ : ∃ c, j = ms.length + c := ⟨j - ms.length, by omega⟩
      have hc : c < ms.length := by omega
      rw [hR.xp i h1 c hc, hR.px c hc i h1, hsym]
      · have := hlt i h1; omega
      · have := hlt c hc; omega
    · obtain ⟨c, rfl⟩ : ∃ c, i = ms.length + c := ⟨i - ms.length, by omega⟩
      have hc : c < ms.length := by omega
      rw [hR.px c hc j h2, hR.xp j h2 c hc, hsym]
      · have := hlt c hc; omega
      · have := hlt j h2; omega
    · obtain ⟨c, rfl⟩ : ∃ c, i = ms.length + c := ⟨i - ms.length, by omega⟩
      obtain ⟨d, rfl⟩ : ∃ d, j = ms.length + d := ⟨j - ms.length, by omega⟩
      have hc : c < ms.length := by omega
      have hd : d < ms.length := by omega
      rw [hR.pp c hc d hd, hR.pp d hd c hc, hsym]
      · have := hlt c hc; omega
      · have := hlt d hd; omega
  have hrep : List.replicate modes.length [1, 2] = ms.map fun _ => [1, 2] := by rw [List.map_const', hlen]
  rw [hrep]
  have hstep := foldlM_sum' (K := ℂ) (pyProduct (ms.map fun _ => [1, 2])) (fun (result : ℂ) (item : List ℕ) => (do
      let term ← normalOrdered isZero (isClose 0 0) r (item ++ item) hbar
      pure (result + term) : Except PyErr ℂ))
    (fun item => E fun n => ((ms.zip item).map fun p => ((n p.1).descFactorial p.2 : ℂ)).prod) ?_ 0
  · refine hstep.trans ?_
    congr 1
    rw [zero_add]
    have hfun : (fun n : ℕ → ℕ => (ms.map fun j => (n j : ℂ) ^ 2).prod)
        = ((pyProduct (ms.map fun _ => [1, 2])).map fun item => fun n : ℕ → ℕ => ((ms.zip item).map fun p => ((n p.1).descFactorial p.2 : ℂ)).prod).sum := by
      funext n
      have e1 : (ms.map fun j => (n j : ℂ) ^ 2) = ms.map fun j => (([1, 2] : List ℕ).map fun k => ((n j).descFactorial k : ℂ)).sum := by
        apply List.map_congr_left
        intro j _
        have := pow_eq_sum_nat (n j) 2
        simp only [Finset.sum_range_succ, Finset.sum_range_zero, Nat.stirlingSecond] at this
        have h' : n j ^ 2 = (n j).descFactorial 1 + (n j).descFactorial 2 := by rw [this]; ring
        simp only [List.map_cons, List.map_nil, List.sum_cons, List.sum_nil, add_zero]
        exact_mod_cast h'
      rw [e1, prod_sum_pyProduct ms (fun _ => [1, 2]) fun j k => ((n j).descFactorial k : ℂ), list_sum_apply, List.map_map]
      rfl
    rw [hfun, map_list_sum, List.map_map]
    rfl
  · intro item hitem t
    have hil : item.length = ms.length := by rw [pyProduct_length _ _ hitem, List.length_map]
    have hz1 : (ms.zip item).map Prod.fst = ms := List.map_fst_zip (by omega)
    have : normalOrdered isZero (isClose 0 0) r (item ++ item) hbar
        = .ok (E fun n => ((ms.zip item).map fun p => ((n p.1).descFactorial p.2 : ℂ)).prod) := by
      unfold normalOrdered
      rw [sOrdered_correct ms.length r hrl hrsym _ (by rw [List.length_append]; omega), moment_reduced N st ms hnm hbm r hR hbar 1 item hil,
        stats_repeated N st.mu st.cov hsym hbar E hE]
      · rw [hz1]; exact hnm
      · intro p hp; exact hbm _ (List.of_mem_zip hp).1
    simp only [this]
    rfl

/-- products of falling factorials with different exponents are linearly independent functions of the photon numbers -/
theorem descFactorial_independent (N : ℕ) :
    LinearIndependent ℂ fun (k : Fin N → ℕ) (n : ℕ → ℕ) => ∏ j : Fin N, ((n j).descFactorial (k j) : ℂ) := by
  classical
  rw [linearIndependent_iff']
  intro s g hg i hi
  by_contra hne
  obtain ⟨m, hm⟩ := (s.filter fun k => g k ≠ 0).exists_minimal ⟨i, Finset.mem_filter.mpr ⟨hi, hne⟩⟩
  have hms := Finset.mem_filter.mp hm.1
  have h := congrFun hg fun j => if h : j < N then m ⟨j, h⟩ else 0
  rw [Finset.sum_apply] at h
  simp only [Pi.smul_apply, smul_eq_mul, Pi.zero_apply, Fin.is_lt, dite_true, Fin.eta] at h
  rw [Finset.sum_eq_single m] at h
  · rcases mul_eq_zero.mp h with h | h
    · exact hms.2 h
    · rw [Finset.prod_eq_zero_iff] at h
      obtain ⟨j, -, h⟩ := h
      rw [Nat.descFactorial_self] at h
      exact Nat.factorial_ne_zero _ (by exact_mod_cast h)
  · intro k hk hkm
    by_cases h0 : g k = 0
    · rw [h0, zero_mul]
    · have : ¬ k ≤ m := fun hle => hkm (le_antisymm hle (hm.2 (Finset.mem_filter.mpr ⟨hk, h0⟩) hle))
      rw [Pi.le_def] at this
      push Not at this
      obtain ⟨j, hj⟩ := this
      rw [Finset.prod_eq_zero (Finset.mem_univ j), mul_zero]
      rw [Nat.descFactorial_of_lt hj, Nat.cast_zero]
  · intro h; exact absurd hms.1 h

/-- every state has an expectation functional, so that the theorems above are about something -/
theorem numberStats_exists (N : ℕ) (mu : ℕ → ℝ) (cov : ℕ → ℕ → ℝ) (hbar : ℝ) : ∃ E, NumberStats N mu cov hbar E := by
  have hli := descFactorial_independent N
  let c : (Fin N → ℕ) → ℂ := fun k => moment N mu cov hbar 1 (repeatedIndices (List.ofFn k ++ List.ofFn k))
  obtain ⟨E, hE⟩ := LinearMap.exists_extend ((Finsupp.linearCombination ℂ c).comp hli.repr)
  refine ⟨E, fun k hk => ?_⟩
  subst hk
  have hk : List.ofFn (fun j : Fin k.length => k.getD j 0) = k := by
    apply List.ext_getElem
    · simp
    · intro i h1 h2; rw [List.getElem_ofFn]; exact List.getD_eq_getElem _ _ h2
  set v := fun (k' : Fin k.length → ℕ) (n : ℕ → ℕ) => ∏ j : Fin k.length, ((n j).descFactorial (k' j) : ℂ) with hv
  have e : (fun n : ℕ → ℕ => ∏ j ∈ Finset.range k.length, ((n j).descFactorial (k.getD j 0) : ℂ)) = v fun j => k.getD j 0 := by
    funext n; rw [Finset.prod_range]
  rw [e]
  have hmem : v (fun j => k.getD j 0) ∈ Submodule.span ℂ (Set.range v) := Submodule.subset_span ⟨_, rfl⟩
  have := LinearMap.congr_fun hE ⟨_, hmem⟩
  simp only [LinearMap.comp_apply, Submodule.subtype_apply, LinearEquiv.coe_coe] at this
  rw [this, hli.repr_eq_single (fun j => k.getD j 0) ⟨_, hmem⟩ rfl, Finsupp.linearCombination_single, one_smul]
  simp only [c, hk]

/-- a displaced two-mode state -/
def exampleState : GState ℝ where
  len := 4
  mu := fun _ => 1
  cov := fun i j => if i = j then 3 else 1

/-- a non-trivial case of the theorems of this section -/
example : ∃ E : ((ℕ → ℕ) → ℂ) →ₗ[ℂ] ℂ,
    photonNumberMoment isZero (isClose 0 0) exampleState [(1, 3), (0, 2)] 2
      = .ok (E fun n => (n 1 : ℂ) ^ 3 * (n 0 : ℂ) ^ 2) := by
  obtain ⟨E, hE⟩ := numberStats_exists 2 exampleState.mu exampleState.cov 2
  refine ⟨E, ?_⟩
  rw [photonNumberMoment_partial 2 exampleState rfl (by intro i _ j _; simp only [exampleState, eq_comm]) 2 E hE _ (by simp) (by simp) (by simp)]
  simp

end Verif.Props
