/-
**C108** The errors returned by `grouped_click_probabilities` estimate the fluctuations of the returned probabilities.
-/
import Verif.Props.GroupedError
import Verif.Lemmas.ComplexGaussSq

set_option linter.style.longLine false

namespace Verif.Props
open Verif.Model Verif.Model.Symp Verif.Model.Disting Verif.Model.Grouped Verif.Lemmas Verif.Lemmas.Symp Verif.Lemmas.GInt Verif.Spec MeasureTheory ProbabilityTheory Matrix

/-- entry `i` of the list of the values of `φ` -/
noncomputable def valueAt {α : Type} (φ : α → ℝ) (l : List α) (i : ℕ) : ℝ := (l.map φ).getD i 0

/-- the mean of a quadratic polynomial in the values of independent samples -/
theorem repeatE_quad {α : Type} (p : Expect α) (φ : α → ℝ) (e q : ℝ) (hp : ∀ a b c, p (fun x => a + b * φ x + c * φ x ^ 2) = a + b * e + c * q) (m : ℕ) (a : ℝ) (b : ℕ → ℝ) (c : ℕ → ℕ → ℝ) :
    Law.repeatE p m (fun l => a + ∑ i ∈ Finset.range m, b i * valueAt φ l i + ∑ i ∈ Finset.range m, ∑ j ∈ Finset.range m, c i j * (valueAt φ l i * valueAt φ l j)) =
      a + ∑ i ∈ Finset.range m, b i * e + ∑ i ∈ Finset.range m, ∑ j ∈ Finset.range m, c i j * (if i = j then q else e * e) := by
  induction m generalizing a b c with
  | zero => simp [Law.repeatE, expect_pure]
  | succ m ih =>
    rw [Law.repeatE, expect_bind]
    simp only [expect_bind, expect_pure]
    have hx : ∀ x, Law.repeatE p m (fun l => a + ∑ i ∈ Finset.range (m + 1), b i * valueAt φ (x :: l) i + ∑ i ∈ Finset.range (m + 1), ∑ j ∈ Finset.range (m + 1), c i j * (valueAt φ (x :: l) i * valueAt φ (x :: l) j)) =
        (a + ∑ i ∈ Finset.range m, b (i + 1) * e + ∑ i ∈ Finset.range m, ∑ j ∈ Finset.range m, c (i + 1) (j + 1) * (if i = j then q else e * e)) +
          (b 0 + ∑ i ∈ Finset.range m, (c 0 (i + 1) + c (i + 1) 0) * e) * φ x + c 0 0 * φ x ^ 2 := fun x => by
      have h0 : ∀ l, valueAt φ (x :: l) 0 = φ x := fun l => rfl
      have hS : ∀ l i, valueAt φ (x :: l) (i + 1) = valueAt φ l i := fun l i => rfl
      have := ih (a + b 0 * φ x + c 0 0 * φ x ^ 2) (fun i => b (i + 1) + (c 0 (i + 1) + c (i + 1) 0) * φ x) fun i j => c (i + 1) (j + 1)
      rw [show (fun l => a + ∑ i ∈ Finset.range (m + 1), b i * valueAt φ (x :: l) i + ∑ i ∈ Finset.range (m + 1), ∑ j ∈ Finset.range (m + 1), c i j * (valueAt φ (x :: l) i * valueAt φ (x :: l) j)) =
        fun l => a + b 0 * φ x + c 0 0 * φ x ^ 2 + ∑ i ∈ Finset.range m, (b (i + 1) + (c 0 (i + 1) + c (i + 1) 0) * φ x) * valueAt φ l i +
          ∑ i ∈ Finset.range m, ∑ j ∈ Finset.range m, c (i + 1) (j + 1) * (valueAt φ l i * valueAt φ l j) from funext fun l => by
        simp only [Finset.sum_range_succ', h0, hS, Finset.sum_add_distrib, add_mul]
        have e1 : ∀ i, c 0 (i + 1) * φ x * valueAt φ l i = c 0 (i + 1) * (φ x * valueAt φ l i) := fun i => by ring
        have e2 : ∀ i, c (i + 1) 0 * φ x * valueAt φ l i = c (i + 1) 0 * (valueAt φ l i * φ x) := fun i => by ring
        simp only [e1, e2]
        ring, this]
      simp only [Finset.sum_add_distrib, add_mul, Finset.sum_mul]
      have e1 : ∀ i, c 0 (i + 1) * φ x * e = c 0 (i + 1) * e * φ x := fun i => by ring
      have e2 : ∀ i, c (i + 1) 0 * φ x * e = c (i + 1) 0 * e * φ x := fun i => by ring
      simp only [e1, e2]
      ring
    simp only [hx, hp]
    simp only [Finset.sum_range_succ', Finset.sum_add_distrib, add_mul, Finset.sum_mul, Nat.add_right_cancel_iff, Nat.add_eq_zero_iff, one_ne_zero, and_false, if_false, if_true,
      show ∀ i : ℕ, (0 = i + 1) = False from fun i => by simp, mul_assoc]
    ring

/-- the average of a group, as a sum over all samples -/
theorem groupAverage_eq {α : Type} (φ : α → ℝ) (spg G : ℕ) (hs : 0 < spg) (ws : List α) (hw : ws.length = spg * G) (g : ℕ) (hg : g < G) :
    groupAverage φ spg ws g = ∑ i ∈ Finset.range (spg * G), (if i / spg = g then 1 / (spg : ℝ) else 0) * valueAt φ ws i := by
  have key : ∀ (l : List ℝ) (s k : ℕ), s + k ≤ l.length → ((l.drop s).take k).sum = ∑ i ∈ Finset.Ico s (s + k), l.getD i 0 := by
    intro l s k
    induction k with
    | zero => simp
    | succ k ih =>
      intro h
      have hk : k < (l.drop s).length := by rw [List.length_drop]; omega
      rw [List.take_succ_eq_append_getElem hk, List.sum_append, ih (by omega), ← add_assoc, Finset.sum_Ico_succ_top (by omega), List.getElem_drop]
      simp [List.getD_eq_getElem?_getD, List.getElem?_eq_getElem (show s + k < l.length by omega)]
  have hb : (g + 1) * spg ≤ spg * G := by rw [mul_comm spg G]; exact Nat.mul_le_mul_right _ hg
  rw [groupAverage, List.map_take, List.map_drop, key _ _ _ (by rw [List.length_map, hw]; rw [Nat.add_mul, one_mul] at hb; exact hb)]
  rw [div_eq_mul_one_div, Finset.sum_mul]
  simp only [ite_mul, zero_mul]
  rw [← Finset.sum_filter]
  refine Finset.sum_congr ?_ fun i _ => mul_comm _ _
  ext i
  rw [Finset.mem_Ico, Finset.mem_filter, Finset.mem_range, Nat.div_eq_iff hs]
  rw [Nat.add_mul, one_mul] at hb
  rw [mul_comm g spg] at *
  omega

/-- a group has `spg` members -/
theorem card_group (spg G : ℕ) (hs : 0 < spg) (g : ℕ) (hg : g < G) : ((Finset.range (spg * G)).filter fun i => i / spg = g).card = spg := by
  have hb : (g + 1) * spg ≤ spg * G := by rw [mul_comm spg G]; exact Nat.mul_le_mul_right _ hg
  have : ((Finset.range (spg * G)).filter fun i => i / spg = g) = Finset.Ico (g * spg) (g * spg + spg) := by
    ext i
    rw [Finset.mem_Ico, Finset.mem_filter, Finset.mem_range, Nat.div_eq_iff hs]
    rw [Nat.add_mul, one_mul] at hb
    omega
  rw [this, Nat.card_Ico]
  omega

theorem sum_groups {α : Type} (φ : α → ℝ) (spg G : ℕ) (hs : 0 < spg) (ws : List α) (hw : ws.length = spg * G) :
    ∑ g ∈ Finset.range G, groupAverage φ spg ws g = ∑ i ∈ Finset.range (spg * G), 1 / (spg : ℝ) * valueAt φ ws i := by
  rw [Finset.sum_congr rfl fun g hg => groupAverage_eq φ spg G hs ws hw g (Finset.mem_range.mp hg), Finset.sum_comm]
  refine Finset.sum_congr rfl fun i hi => ?_
  rw [← Finset.sum_mul, Finset.sum_ite_eq, if_pos]
  rw [Finset.mem_range] at hi ⊢
  exact Nat.div_lt_of_lt_mul hi

theorem sum_groups_sq {α : Type} (φ : α → ℝ) (spg G : ℕ) (hs : 0 < spg) (ws : List α) (hw : ws.length = spg * G) :
    ∑ g ∈ Finset.range G, groupAverage φ spg ws g ^ 2 = ∑ i ∈ Finset.range (spg * G), ∑ j ∈ Finset.range (spg * G), (if i / spg = j / spg then 1 / (spg : ℝ) ^ 2 else 0) * (valueAt φ ws i * valueAt φ ws j) := by
  have e : ∀ g ∈ Finset.range G, groupAverage φ spg ws g ^ 2 = ∑ i ∈ Finset.range (spg * G), ∑ j ∈ Finset.range (spg * G), (if i / spg = g then (if i / spg = j / spg then 1 / (spg : ℝ) ^ 2 * (valueAt φ ws i * valueAt φ ws j) else 0) else 0) := fun g hg => by
    rw [groupAverage_eq φ spg G hs ws hw g (Finset.mem_range.mp hg), pow_two, Finset.sum_mul_sum]
    refine Finset.sum_congr rfl fun i _ => Finset.sum_congr rfl fun j _ => ?_
    by_cases hi : i / spg = g
    · by_cases hj : j / spg = g
      · rw [if_pos hi, if_pos hj, if_pos hi, if_pos (hi.trans hj.symm)]; ring
      · have hne : ¬ i / spg = j / spg := fun h => hj (h.symm.trans hi)
        rw [if_neg hj, if_pos hi, if_neg hne]
        simp
    · rw [if_neg hi, if_neg hi]; ring
  rw [Finset.sum_congr rfl e, Finset.sum_comm]
  refine Finset.sum_congr rfl fun i hi => ?_
  rw [Finset.sum_comm]
  refine Finset.sum_congr rfl fun j _ => ?_
  rw [Finset.sum_ite_eq, if_pos, ite_mul, zero_mul]
  rw [Finset.mem_range] at hi ⊢
  exact Nat.div_lt_of_lt_mul hi

/-- sums with a diagonal part -/
theorem sum_diag (m : ℕ) (c : ℕ → ℕ → ℝ) (q f : ℝ) :
    ∑ i ∈ Finset.range m, ∑ j ∈ Finset.range m, c i j * (if i = j then q else f) = (∑ i ∈ Finset.range m, ∑ j ∈ Finset.range m, c i j) * f + (∑ i ∈ Finset.range m, c i i) * (q - f) := by
  rw [Finset.sum_mul, Finset.sum_mul, ← Finset.sum_add_distrib]
  refine Finset.sum_congr rfl fun i hi => ?_
  have : ∀ j, c i j * (if i = j then q else f) = c i j * f + if i = j then c i j * (q - f) else 0 := fun j => by split_ifs <;> ring
  simp only [this]
  rw [Finset.sum_add_distrib, Finset.sum_ite_eq, if_pos hi, Finset.sum_mul]

/-- the mean square deviation of the mean of all samples -/
theorem mean_sq_dev {α : Type} (P : Expect α) (φ : α → ℝ) (e q : ℝ) (hp : ∀ a b c, P (fun x => a + b * φ x + c * φ x ^ 2) = a + b * e + c * q) (spg G : ℕ) (hs : 0 < spg) (hG : 0 < G) :
    Law.repeatE P (spg * G) (fun l => ((∑ g ∈ Finset.range G, groupAverage φ spg l g) / G - e) ^ 2) = (q - e * e) / (spg * G) := by
  have hs' : (spg : ℝ) ≠ 0 := by positivity
  have hG' : (G : ℝ) ≠ 0 := by positivity
  rw [repeatE_congr P (spg * G) _ (fun l => e ^ 2 + ∑ i ∈ Finset.range (spg * G), (-(2 * e) / (spg * G)) * valueAt φ l i +
    ∑ i ∈ Finset.range (spg * G), ∑ j ∈ Finset.range (spg * G), (1 / ((spg : ℝ) * G) ^ 2) * (valueAt φ l i * valueAt φ l j)) fun l hl => by
      rw [sum_groups φ spg G hs l hl, ← Finset.mul_sum, ← Finset.mul_sum]
      simp only [← Finset.mul_sum]
      rw [← Finset.sum_mul]
      field_simp
      ring, repeatE_quad P φ e q hp, sum_diag]
  simp only [Finset.sum_const, Finset.card_range, nsmul_eq_mul]
  push_cast
  field_simp
  ring

/-- the mean of the variance of the averages of the groups -/
theorem mean_group_variance {α : Type} (P : Expect α) (φ : α → ℝ) (e q : ℝ) (hp : ∀ a b c, P (fun x => a + b * φ x + c * φ x ^ 2) = a + b * e + c * q) (spg G : ℕ) (hs : 0 < spg) (hG : 0 < G) :
    Law.repeatE P (spg * G) (fun l => (∑ g ∈ Finset.range G, groupAverage φ spg l g ^ 2) / G - ((∑ g ∈ Finset.range G, groupAverage φ spg l g) / G) ^ 2) = (G - 1) * ((q - e * e) / (spg * G)) := by
  have hs' : (spg : ℝ) ≠ 0 := by positivity
  have hG' : (G : ℝ) ≠ 0 := by positivity
  set c : ℕ → ℕ → ℝ := fun i j => (if i / spg = j / spg then 1 / (spg : ℝ) ^ 2 else 0) / G - 1 / ((spg : ℝ) * G) ^ 2 with hc
  rw [repeatE_congr P (spg * G) _ (fun l => 0 + ∑ i ∈ Finset.range (spg * G), 0 * valueAt φ l i + ∑ i ∈ Finset.range (spg * G), ∑ j ∈ Finset.range (spg * G), c i j * (valueAt φ l i * valueAt φ l j)) fun l hl => by
      rw [sum_groups φ spg G hs l hl, sum_groups_sq φ spg G hs l hl]
      simp only [hc, sub_mul, Finset.sum_sub_distrib, zero_mul, Finset.sum_const_zero, zero_add]
      congr 1
      · simp only [Finset.sum_div]
        exact Finset.sum_congr rfl fun i _ => Finset.sum_congr rfl fun j _ => by ring
      · simp only [← Finset.mul_sum]
        rw [← Finset.sum_mul]
        field_simp, repeatE_quad P φ e q hp, sum_diag]
  have h1 : ∑ i ∈ Finset.range (spg * G), ∑ j ∈ Finset.range (spg * G), c i j = 0 := by
    have : ∀ i ∈ Finset.range (spg * G), ∑ j ∈ Finset.range (spg * G), c i j = 0 := fun i hi => by
      simp only [hc]
      rw [Finset.sum_sub_distrib, ← Finset.sum_div, Finset.sum_const, Finset.card_range, nsmul_eq_mul, ← Finset.sum_filter, Finset.sum_const, nsmul_eq_mul]
      have hcard := card_group spg G hs (i / spg) (Nat.div_lt_of_lt_mul (Finset.mem_range.mp hi))
      simp only [eq_comm (a := i / spg)]
      rw [hcard]
      push_cast
      field_simp
      ring
    exact Finset.sum_eq_zero this
  have h2 : ∑ i ∈ Finset.range (spg * G), c i i = (G - 1) / (spg * G) := by
    simp only [hc, if_true]
    rw [Finset.sum_const, Finset.card_range, nsmul_eq_mul]
    push_cast
    field_simp
  rw [h1, h2]
  simp only [zero_mul, Finset.sum_const_zero, add_zero, zero_add]
  ring

open scoped ComplexOrder in
/-- the first two moments of the contribution of one sample -/
theorem contribution_moments (N n : ℕ) (T : ℕ → ℕ → ℂ) (hT : (1 - toMatrix N n T * (toMatrix N n T)ᴴ).PosSemidef) (phn chn : ℕ → ℝ) (hv : ∀ k, -(1 / 2) < spread n phn chn k) (p : ℕ) (hp : p ≤ N) :
    ∃ e q, ∀ a b c, (do
        let wrp ← Law.normals n
        let wrm ← Law.normals n
        pure (wrp, wrm) : Expect ((ℕ → ℝ) × (ℕ → ℝ))) (fun w => a + b * contribution N n phn chn T w p + c * contribution N n phn chn T w p ^ 2) = a + b * e + c * q := by
  set W : (Fin n → ℝ) → ℕ → ℝ := fun z i => if h : i < n then z ⟨i, h⟩ else 0 with hWd
  have hW : ∀ z (i : Fin n), W z i = z i := fun z i => by rw [hWd]; simp
  set drp : ℕ → ℂ := fun i => ((1 / 2 * (phn i + chn i) : ℝ) : ℂ) ^ (1 / 2 : ℂ) with hdp
  set drm : ℕ → ℂ := fun i => ((1 / 2 * (phn i - chn i) : ℝ) : ℂ) ^ (1 / 2 : ℂ) with hdm
  set E : (Fin n ⊕ Fin n → ℝ) → ℕ → ℂ := fun z j => Complex.exp (-alphaAt n drp drm T (W fun k => z (Sum.inl k)) (W fun k => z (Sum.inr k)) j * betaAt n drp drm T (W fun k => z (Sum.inl k)) (W fun k => z (Sum.inr k)) j) with hE
  have hL2 : ∀ S ⊆ Finset.range N, MemLp (fun z => ∏ j ∈ S, E z j) 2 (stdNormal (Fin n ⊕ Fin n)) := fun S hS => by
    have hfun : (fun z : Fin n ⊕ Fin n → ℝ => ∏ j ∈ S, E z j) =
        fun z => Complex.exp (-∑ i, ∑ j, Sum.elim (fun k : Fin n => drp k) (fun k : Fin n => drm k) i * (z i : ℂ) * ((((rowsOf n T S)ᵀ * rowsOf n T S) i j : ℝ) : ℂ) *
          (Sum.elim (fun k : Fin n => drp k) (fun k : Fin n => drm k) j * (z j : ℂ))) := by
      funext z
      rw [← alpha_beta n T drp drm S z (W fun k => z (Sum.inl k)) (W fun k => z (Sum.inr k)) (fun i => hW (fun k => z (Sum.inl k)) i) (fun i => hW (fun k => z (Sum.inr k)) i), hE, ← Complex.exp_sum, ← Finset.sum_neg_distrib]
      simp only [neg_mul]
    rw [hfun]
    exact cgauss_memLp _ (rows_posSemidef n T S) (rows_le_one N n T hT S hS) (Sum.elim (fun k : Fin n => drp k) (fun k : Fin n => drm k)) (fun k => 1 / 2 * spread n phn chn k)
      (fun k => by
        rcases k with k | k
        · simp only [Sum.elim_inl, hdp, spread]
          rw [← Complex.cpow_nat_mul]
          norm_num
        · simp only [Sum.elim_inr, hdm, spread]
          rw [← Complex.cpow_nat_mul]
          norm_num)
      (fun k => by have := hv k; linarith)
  have hC : ∀ C ∈ (Finset.range N).powersetCard p, MemLp (fun z => patternWeight N (E z) C) 2 (stdNormal (Fin n ⊕ Fin n)) := fun C hC => by
    have hCs := (Finset.mem_powersetCard.mp hC).1
    have hZ : ∀ Z ∈ C.powerset, (Finset.range N \ C) ∪ Z ⊆ Finset.range N := fun Z hZ => Finset.union_subset Finset.sdiff_subset ((Finset.mem_powerset.mp hZ).trans hCs)
    have e : (fun z => patternWeight N (E z) C) = fun z => ∑ Z ∈ C.powerset, (-1) ^ Z.card * ∏ j ∈ (Finset.range N \ C) ∪ Z, E z j := funext fun z => patternWeight_expand N (E z) C hCs
    rw [e]
    exact memLp_finsetSum _ fun Z h => (hL2 _ (hZ Z h)).const_mul _
  have hφ : ∀ z : Fin n ⊕ Fin n → ℝ, contribution N n phn chn T (W (fun k => z (Sum.inl k)), W (fun k => z (Sum.inr k))) p = (∑ C ∈ (Finset.range N).powersetCard p, patternWeight N (E z) C).re :=
    fun z => contribution_eq N n phn chn T _ p hp drp drm hdp hdm
  have hm : MemLp (fun z : Fin n ⊕ Fin n → ℝ => contribution N n phn chn T (W (fun k => z (Sum.inl k)), W (fun k => z (Sum.inr k))) p) 2 (stdNormal (Fin n ⊕ Fin n)) := by
    simp only [hφ]
    exact (memLp_finsetSum _ hC).re
  have hi := hm.integrable (by norm_num)
  have hi2 := hm.integrable_sq
  refine ⟨∫ z, contribution N n phn chn T (W (fun k => z (Sum.inl k)), W (fun k => z (Sum.inr k))) p ∂stdNormal (Fin n ⊕ Fin n),
    ∫ z, contribution N n phn chn T (W (fun k => z (Sum.inl k)), W (fun k => z (Sum.inr k))) p ^ 2 ∂stdNormal (Fin n ⊕ Fin n), fun a b c => ?_⟩
  have hab : Integrable (fun z : Fin n ⊕ Fin n → ℝ => a + b * contribution N n phn chn T (W (fun k => z (Sum.inl k)), W (fun k => z (Sum.inr k))) p) (stdNormal (Fin n ⊕ Fin n)) :=
    (integrable_const a).add (hi.const_mul b)
  change ∫ x, ∫ y, a + b * contribution N n phn chn T (W x, W y) p + c * contribution N n phn chn T (W x, W y) p ^ 2 ∂stdNormal (Fin n) ∂stdNormal (Fin n) = _
  rw [normals_pair' n (fun x y => a + b * contribution N n phn chn T (W x, W y) p + c * contribution N n phn chn T (W x, W y) p ^ 2) (hab.add (hi2.const_mul c)),
    integral_add hab (hi2.const_mul c), integral_add (integrable_const a) (hi.const_mul b), integral_const_mul, integral_const_mul]
  simp

open scoped ComplexOrder in
/-- **C108** The mean of the square of the returned error is the mean square deviation of the returned probability from its mean, times the number of groups minus one. -/
theorem groupedClickProbabilities_error (N n : ℕ) (hn : n ≤ N) (T : ℕ → ℕ → ℂ) (hT : (1 - toMatrix N n T * (toMatrix N n T)ᴴ).PosSemidef) (phn chn : ℕ → ℝ)
    (hv : ∀ k < n, -(1 / 2) < phn k + chn k ∧ -(1 / 2) < phn k - chn k) (m groups : ℕ) (hg : 0 < groups) (hm : 0 < m) (hd : groups ∣ m) :
    ∃ E, groupedClickProbabilities phn chn N n T m groups = .ok E ∧ ∀ p, p ≤ N →
      E (fun res => res.2 p ^ 2) = (groups - 1) * E fun res => (res.1 p - E fun res => res.1 p) ^ 2 := by
  obtain ⟨spg, rfl⟩ := hd
  have hspg : 0 < spg := Nat.pos_of_mul_pos_left hm
  have hdiv : groups * spg / groups = spg := Nat.mul_div_cancel_left _ hg
  have hv' : ∀ k, -(1 / 2) < spread n phn chn k := fun k => by
    rcases k with k | k
    · exact (hv k k.2).1
    · exact (hv k k.2).2
  unfold groupedClickProbabilities
  dsimp only
  rw [if_neg hg.ne', max_eq_left hn, min_eq_right hn, if_neg (fun h => h.2 rfl), hdiv, if_neg (fun h => hspg.ne' h.2)]
  refine ⟨_, rfl, fun p hp => ?_⟩
  obtain ⟨e, q, hq⟩ := contribution_moments N n T hT phn chn hv' p hp
  simp only [expect_bind _ (fun ws => pure (groupedRun N n phn chn T groups ws)), expect_pure]
  rw [mul_comm groups spg]
  set φ : (ℕ → ℝ) × (ℕ → ℝ) → ℝ := fun w => contribution N n phn chn T w p with hφ
  have hmean : Law.repeatE (do
        let wrp ← Law.normals n
        let wrm ← Law.normals n
        pure (wrp, wrm) : Expect ((ℕ → ℝ) × (ℕ → ℝ))) (spg * groups) (fun x => (groupedRun N n phn chn T groups x).1 p) = e := by
    rw [repeatE_congr _ (spg * groups) _ (fun l => 0 + ∑ i ∈ Finset.range (spg * groups), (1 / ((spg : ℝ) * groups)) * valueAt φ l i +
      ∑ i ∈ Finset.range (spg * groups), ∑ j ∈ Finset.range (spg * groups), 0 * (valueAt φ l i * valueAt φ l j)) fun l hl => by
        rw [(groupedRun_error N n phn chn T groups spg hg hspg l hl p).1, sum_groups _ spg groups hspg l hl, Finset.sum_div]
        simp only [zero_mul, Finset.sum_const_zero, add_zero, zero_add]
        exact Finset.sum_congr rfl fun i _ => by rw [div_mul_eq_div_div_swap]; ring, repeatE_quad _ φ e q hq]
    simp only [Finset.sum_const, Finset.card_range, nsmul_eq_mul, zero_mul, mul_zero, add_zero, zero_add]
    push_cast
    have hs' : (spg : ℝ) ≠ 0 := by positivity
    have hG' : (groups : ℝ) ≠ 0 := by positivity
    field_simp
  rw [hmean]
  rw [repeatE_congr _ (spg * groups) _ _ fun l hl => show (groupedRun N n phn chn T groups l).2 p ^ 2 =
      (∑ g ∈ Finset.range groups, groupAverage φ spg l g ^ 2) / groups - ((∑ g ∈ Finset.range groups, groupAverage φ spg l g) / groups) ^ 2 by
    obtain ⟨h1, h2⟩ := groupedRun_error N n phn chn T groups spg hg hspg l hl p
    rw [h2, Real.sq_sqrt (by positivity), h1, variance_identity groups hg], mean_group_variance _ φ e q hq spg groups hspg hg]
  rw [repeatE_congr _ (spg * groups) (fun x => ((groupedRun N n phn chn T groups x).1 p - e) ^ 2) _ fun l hl => by
    rw [(groupedRun_error N n phn chn T groups spg hg hspg l hl p).1], mean_sq_dev _ φ e q hq spg groups hspg hg]

open scoped ComplexOrder in
/-- **C108** the same for squeezed vacua at the inputs -/
theorem groupedClickProbabilitiesSqueezed_error (N n : ℕ) (hn : n ≤ N) (T : ℕ → ℕ → ℂ) (hT : (1 - toMatrix N n T * (toMatrix N n T)ᴴ).PosSemidef) (inputSq : ℕ → ℝ)
    (m groups : ℕ) (hg : 0 < groups) (hm : 0 < m) (hd : groups ∣ m) :
    ∃ E, groupedClickProbabilitiesSqueezed inputSq N n T m groups = .ok E ∧ ∀ p, p ≤ N →
      E (fun res => res.2 p ^ 2) = (groups - 1) * E fun res => (res.1 p - E fun res => res.1 p) ^ 2 := by
  refine groupedClickProbabilities_error N n hn T hT _ _ (fun k hk => ?_) m groups hg hm hd
  have h := squeezed_spread n inputSq 1
  have h1 := congrFun h (Sum.inl ⟨k, hk⟩)
  have h2 := congrFun h (Sum.inr ⟨k, hk⟩)
  simp only [Sum.elim_inl, Sum.elim_inr, one_mul] at h1 h2
  have e1 := Real.exp_pos (2 * inputSq k)
  have e2 := Real.exp_pos (-(2 * inputSq k))
  constructor <;> linarith

open scoped ComplexOrder in
/-- the hypotheses are met: two squeezed vacua, three quarters of the light lost, six samples in three groups -/
example : ∃ E, groupedClickProbabilitiesSqueezed (fun _ => 1) 2 2 (fun i j => if i = j then 1 / 2 else 0) 6 3 = .ok E ∧
    E (fun res => res.2 1 ^ 2) = (3 - 1) * E fun res => (res.1 1 - E fun res => res.1 1) ^ 2 := by
  set T : ℕ → ℕ → ℂ := fun i j => if i = j then 1 / 2 else 0 with hT
  have hTm : toMatrix 2 2 T = (1 / 2 : ℂ) • 1 := by
    ext i j
    simp [toMatrix, hT, Matrix.one_apply, Fin.ext_iff]
  have hTp : (1 - toMatrix 2 2 T * (toMatrix 2 2 T)ᴴ).PosSemidef := by
    have : 1 - toMatrix 2 2 T * (toMatrix 2 2 T)ᴴ = (3 / 4 : ℂ) • 1 := by
      rw [hTm]
      ext i j
      by_cases h : i = j
      · subst h; simp; norm_num
      · simp [h]
    rw [this]
    exact PosSemidef.one.smul (by norm_num [Complex.le_def])
  obtain ⟨E, hE, h⟩ := groupedClickProbabilitiesSqueezed_error 2 2 le_rfl T hTp (fun _ => 1) 6 3 (by norm_num) (by norm_num) (by norm_num)
  exact ⟨E, hE, by exact_mod_cast h 1 (by norm_num)⟩

end Verif.Props
