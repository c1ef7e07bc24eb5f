/-
**C91** `grouped_click_probabilities` estimates the distribution of the number of clicks.
-/
import Verif.Model.GroupedClicks
import Verif.Lemmas.ComplexGauss
import Verif.Props.ThermalSampler
import Verif.Props.ThresholdFock

set_option linter.style.longLine false

namespace Verif.Props
open Verif.Model Verif.Model.Symp Verif.Model.Disting Verif.Model.Grouped Verif.Lemmas Verif.Lemmas.Symp Verif.Lemmas.GInt Verif.Spec MeasureTheory ProbabilityTheory Matrix

/-! #### the loop -/

theorem accLoop_snoc {α : Type} (phi : α → ℕ → ℝ) (spg : ℕ) (ws : List α) (w : α) (j : ℕ) (s : Acc) :
    accLoop phi spg (ws ++ [w]) j s = accStep phi spg (accLoop phi spg ws j s) (j + ws.length) w := by
  induction ws generalizing j s with
  | nil => rfl
  | cons v ws ih =>
    rw [List.cons_append, accLoop, accLoop, ih, List.length_cons]
    congr 1
    omega

/-- what the loop computes: only the complete groups count -/
theorem accLoop_spec {α : Type} (phi : α → ℕ → ℝ) (spg : ℕ) (h : 0 < spg) (ws : List α) (p : ℕ) :
    (accLoop phi spg ws 0 acc0).acc p = (ws.map fun w => phi w p).sum ∧
    (accLoop phi spg ws 0 acc0).fix p = ((ws.take (spg * (ws.length / spg))).map fun w => phi w p).sum ∧
    (accLoop phi spg ws 0 acc0).bcc p = ((ws.take (spg * (ws.length / spg))).map fun w => phi w p).sum / spg := by
  induction ws using List.reverseRecOn with
  | nil => simp [accLoop, acc0]
  | append_singleton ws w ih =>
    obtain ⟨h1, h2, h3⟩ := ih
    rw [accLoop_snoc, zero_add, List.length_append, List.length_singleton]
    unfold accStep
    by_cases hm : (ws.length + 1) % spg = 0
    · rw [if_pos hm]
      have e : spg * ((ws.length + 1) / spg) = ws.length + 1 := Nat.mul_div_cancel' (Nat.dvd_of_mod_eq_zero hm)
      have e2 : (ws ++ [w]).take (ws.length + 1) = ws ++ [w] := List.take_of_length_le (by simp)
      rw [e, e2, List.map_append, List.sum_append, ← h1]
      refine ⟨by simp, by simp, ?_⟩
      dsimp only
      rw [h3, h2]
      simp
      ring
    · rw [if_neg hm]
      have e : (ws.length + 1) / spg = ws.length / spg := by
        rw [Nat.succ_div, if_neg (fun hd => hm (Nat.mod_eq_zero_of_dvd hd)), add_zero]
      have e2 : (ws ++ [w]).take (spg * (ws.length / spg)) = ws.take (spg * (ws.length / spg)) := List.take_append_of_le_length (Nat.mul_div_le _ _)
      rw [e, e2]
      refine ⟨?_, h2, h3⟩
      rw [List.map_append, List.sum_append, ← h1]
      simp

/-! #### expectations of sums over independent samples -/

theorem repeatE_congr {α : Type} (p : Expect α) (m : ℕ) (f g : List α → ℝ) (h : ∀ l, l.length = m → f l = g l) : Law.repeatE p m f = Law.repeatE p m g := by
  induction m generalizing f g with
  | zero => exact h [] rfl
  | succ m ih =>
    rw [Law.repeatE, expect_bind, expect_bind]
    congr 1
    funext x
    rw [expect_bind, expect_bind]
    exact ih _ _ fun l hl => h (x :: l) (by rw [List.length_cons, hl])

theorem repeatE_affine {α : Type} (p : Expect α) (φ : α → ℝ) (e : ℝ) (hp : ∀ a b, p (fun x => a + b * φ x) = a + b * e) (m L : ℕ) (a b : ℝ) :
    Law.repeatE p m (fun l => a + b * ((l.take L).map φ).sum) = a + b * ((min L m : ℕ) * e) := by
  induction m generalizing a b L with
  | zero => simp [Law.repeatE, expect_pure]
  | succ m ih =>
    rw [Law.repeatE, expect_bind]
    simp only [expect_bind, expect_pure]
    cases L with
    | zero =>
      have := ih 0
      simp only [List.take_zero, List.map_nil, List.sum_nil, mul_zero, add_zero, Nat.zero_min, Nat.cast_zero, zero_mul] at this ⊢
      have h1 := this a 1
      simp only [h1]
      have h2 := hp a 0
      simpa using h2
    | succ L =>
      simp only [List.take_succ_cons, List.map_cons, List.sum_cons]
      have : ∀ x, Law.repeatE p m (fun l => a + b * (φ x + ((l.take L).map φ).sum)) = (a + b * ((min L m : ℕ) * e)) + b * φ x := fun x => by
        have := ih L (a + b * φ x) b
        rw [show (fun l : List α => a + b * (φ x + ((l.take L).map φ).sum)) = fun l => a + b * φ x + b * ((l.take L).map φ).sum from funext fun l => by ring, this]
        ring
      simp only [this, hp]
      rw [Nat.succ_min_succ]
      push_cast
      ring

/-! #### one sample -/

/-- orthogonality of the discrete Fourier modes -/
theorem dft_orth (N p m : ℕ) (hp : p ≤ N) (hm : m ≤ N) :
    ∑ q ∈ Finset.range (N + 1), fMat N (2 * Real.pi / (N + 1)) p q * Complex.exp (-Complex.I * q * ((2 * Real.pi / (N + 1) : ℝ) : ℂ)) ^ m = if p = m then 1 else 0 := by
  have hN : ((N : ℂ) + 1) ≠ 0 := by exact_mod_cast Nat.succ_ne_zero N
  set r : ℂ := Complex.exp (2 * Real.pi * Complex.I * (((p : ℤ) - m : ℤ) : ℂ) / ((N : ℂ) + 1)) with hr
  have e : ∀ q : ℕ, fMat N (2 * Real.pi / (N + 1)) p q * Complex.exp (-Complex.I * q * ((2 * Real.pi / (N + 1) : ℝ) : ℂ)) ^ m = 1 / ((N : ℂ) + 1) * r ^ q := fun q => by
    rw [fMat, ← Complex.exp_nat_mul, mul_assoc, ← Complex.exp_add, hr, ← Complex.exp_nat_mul]
    congr 2
    push_cast
    ring
  simp only [e]
  rw [← Finset.mul_sum]
  split_ifs with h
  · subst h
    have : r = 1 := by rw [hr]; simp
    rw [this]
    simp
    field_simp
  · have h1 : r ≠ 1 := by
      intro h1
      rw [hr, Complex.exp_eq_one_iff] at h1
      obtain ⟨k, hk⟩ := h1
      have h2 : (((p : ℤ) - m : ℤ) : ℂ) = k * ((N : ℂ) + 1) := by
        rw [div_eq_iff hN] at hk
        have : (2 * Real.pi * Complex.I : ℂ) ≠ 0 := Complex.two_pi_I_ne_zero
        apply mul_left_cancel₀ this
        rw [hk]; ring
      have h3 : (p : ℤ) - m = k * (N + 1) := by exact_mod_cast h2
      have hk0 : k = 0 := by
        by_contra hk0
        have : (N + 1 : ℤ) ≤ |k| * (N + 1) := by
          have := Int.one_le_abs hk0
          nlinarith
        have h4 : |(p : ℤ) - m| = |k| * (N + 1) := by rw [h3, abs_mul, abs_of_nonneg (by omega : (0 : ℤ) ≤ N + 1)]
        have h5 : |(p : ℤ) - m| ≤ N := abs_le.mpr ⟨by omega, by omega⟩
        omega
      rw [hk0, zero_mul] at h3
      omega
    have h2 : r ^ (N + 1) = 1 := by
      rw [hr, ← Complex.exp_nat_mul, Complex.exp_eq_one_iff]
      refine ⟨(p : ℤ) - m, ?_⟩
      push_cast
      field_simp
    have h3 := geom_sum_mul r (N + 1)
    rw [h2, sub_self] at h3
    rw [(mul_eq_zero.mp h3).resolve_right (sub_ne_zero.mpr h1), mul_zero]

/-- the weight of the click pattern `C` in a sample with the values `E j` of `exp(-α_j β_j)` -/
noncomputable def patternWeight (N : ℕ) (E : ℕ → ℂ) (C : Finset ℕ) : ℂ := (∏ j ∈ C, (1 - E j)) * ∏ j ∈ Finset.range N \ C, E j

theorem fourier_pattern (N p : ℕ) (hp : p ≤ N) (E : ℕ → ℂ) :
    ∑ q ∈ Finset.range (N + 1), fMat N (2 * Real.pi / (N + 1)) p q *
        ((List.range N).map fun j => E j + Complex.exp (-Complex.I * q * ((2 * Real.pi / (N + 1) : ℝ) : ℂ)) * (1 - E j)).prod =
      ∑ C ∈ (Finset.range N).powersetCard p, patternWeight N E C := by
  have e : ∀ q : ℕ, ((List.range N).map fun j => E j + Complex.exp (-Complex.I * q * ((2 * Real.pi / (N + 1) : ℝ) : ℂ)) * (1 - E j)).prod =
      ∑ C ∈ (Finset.range N).powerset, Complex.exp (-Complex.I * q * ((2 * Real.pi / (N + 1) : ℝ) : ℂ)) ^ C.card * patternWeight N E C := fun q => by
    rw [← List.prod_toFinset _ List.nodup_range, List.toFinset_range]
    simp only [add_comm (E _)]
    rw [Finset.prod_add]
    refine Finset.sum_congr rfl fun C _ => ?_
    rw [Finset.prod_mul_distrib, Finset.prod_const, patternWeight, mul_assoc]
  simp only [e, Finset.mul_sum]
  rw [Finset.sum_comm, Finset.powersetCard_eq_filter, Finset.sum_filter]
  refine Finset.sum_congr rfl fun C hC => ?_
  have hc : C.card ≤ N := by simpa using Finset.card_le_card (Finset.mem_powerset.mp hC)
  have h := dft_orth N p C.card hp hc
  rw [Finset.sum_congr rfl fun q _ => (mul_assoc (fMat N (2 * Real.pi / (N + 1)) p q) _ _).symm, ← Finset.sum_mul, h]
  by_cases hpc : p = C.card
  · rw [if_pos hpc, if_pos hpc.symm, one_mul]
  · rw [if_neg hpc, if_neg (Ne.symm hpc), zero_mul]

theorem pattern_total (N : ℕ) (E : ℕ → ℂ) : ∑ p ∈ Finset.range (N + 1), ∑ C ∈ (Finset.range N).powersetCard p, patternWeight N E C = 1 := by
  have h := Finset.sum_powerset (Finset.range N) fun C => patternWeight N E C
  rw [Finset.card_range] at h
  rw [← h]
  simp only [patternWeight]
  rw [← Finset.prod_add]
  simp

theorem patternWeight_expand (N : ℕ) (E : ℕ → ℂ) (C : Finset ℕ) (hC : C ⊆ Finset.range N) :
    patternWeight N E C = ∑ Z ∈ C.powerset, (-1) ^ Z.card * ∏ j ∈ (Finset.range N \ C) ∪ Z, E j := by
  have h : ∏ j ∈ C, (1 - E j) = ∑ Z ∈ C.powerset, (-1) ^ Z.card * ∏ j ∈ Z, E j := by
    have : ∀ j, 1 - E j = -E j + 1 := fun j => by ring
    simp only [this]
    rw [Finset.prod_add]
    refine Finset.sum_congr rfl fun Z _ => ?_
    rw [Finset.prod_const_one, mul_one, Finset.prod_neg]
  rw [patternWeight, h, Finset.sum_mul]
  refine Finset.sum_congr rfl fun Z hZ => ?_
  rw [Finset.prod_union (Finset.disjoint_left.mpr fun j hj hz => (Finset.mem_sdiff.mp hj).2 (Finset.mem_powerset.mp hZ hz))]
  ring

/-- the contribution of a sample, by click patterns -/
theorem contribution_eq (N n : ℕ) (phn chn : ℕ → ℝ) (T : ℕ → ℕ → ℂ) (w : (ℕ → ℝ) × (ℕ → ℝ)) (p : ℕ) (hp : p ≤ N) (drp drm : ℕ → ℂ)
    (hdp : drp = fun i => ((1 / 2 * (phn i + chn i) : ℝ) : ℂ) ^ (1 / 2 : ℂ)) (hdm : drm = fun i => ((1 / 2 * (phn i - chn i) : ℝ) : ℂ) ^ (1 / 2 : ℂ)) :
    contribution N n phn chn T w p = (∑ C ∈ (Finset.range N).powersetCard p, patternWeight N (fun j => Complex.exp (-alphaAt n drp drm T w.1 w.2 j * betaAt n drp drm T w.1 w.2 j)) C).re := by
  rw [← fourier_pattern N p hp, contribution, ← hdp, ← hdm]
  rfl

/-- **C91** in every run the contributions of a sample sum to one -/
theorem contribution_total (N n : ℕ) (phn chn : ℕ → ℝ) (T : ℕ → ℕ → ℂ) (w : (ℕ → ℝ) × (ℕ → ℝ)) : ∑ p ∈ Finset.range (N + 1), contribution N n phn chn T w p = 1 := by
  rw [Finset.sum_congr rfl fun p hp => contribution_eq N n phn chn T w p (Nat.lt_succ_iff.mp (Finset.mem_range.mp hp)) _ _ rfl rfl, ← Complex.re_sum, pattern_total, Complex.one_re]

/-- **C91** in every run the returned probabilities sum to the number of complete groups over the number of groups -/
theorem groupedRun_total (N n : ℕ) (phn chn : ℕ → ℝ) (T : ℕ → ℕ → ℂ) (numGroups : ℕ) (hg : 0 < numGroups) (ws : List ((ℕ → ℝ) × (ℕ → ℝ))) (hw : numGroups ≤ ws.length) :
    ∑ p ∈ Finset.range (N + 1), (groupedRun N n phn chn T numGroups ws).1 p = ((ws.length / (ws.length / numGroups) : ℕ) : ℝ) / numGroups := by
  have hs : 0 < ws.length / numGroups := Nat.div_pos hw hg
  simp only [groupedRun]
  rw [← Finset.sum_div]
  congr 1
  simp only [fun p => (accLoop_spec (contribution N n phn chn T) _ hs ws p).2.2]
  rw [← Finset.sum_div, div_eq_iff (by positivity)]
  have hsw : ∀ l : List ((ℕ → ℝ) × (ℕ → ℝ)), ∑ p ∈ Finset.range (N + 1), (l.map fun w => contribution N n phn chn T w p).sum = l.length := fun l => by
    induction l with
    | nil => simp
    | cons w l ih =>
      simp only [List.map_cons, List.sum_cons, List.length_cons]
      rw [Finset.sum_add_distrib, ih, contribution_total]
      push_cast; ring
  rw [hsw, List.length_take, min_eq_left (Nat.mul_div_le _ _)]
  push_cast
  ring

/-! #### the expectation of a sample -/

theorem normals_pair' (n : ℕ) (g : (Fin n → ℝ) → (Fin n → ℝ) → ℝ) (hg : Integrable (fun z : Fin n ⊕ Fin n → ℝ => g (fun k => z (Sum.inl k)) (fun k => z (Sum.inr k))) (stdNormal (Fin n ⊕ Fin n))) :
    ∫ x, ∫ y, g x y ∂stdNormal (Fin n) ∂stdNormal (Fin n) = ∫ z, g (fun k => z (Sum.inl k)) (fun k => z (Sum.inr k)) ∂stdNormal (Fin n ⊕ Fin n) := by
  have hp := measurePreserving_sumPiEquivProdPi (ι := Fin n) (ι' := Fin n) (X := fun _ => ℝ) (fun _ => ProbabilityTheory.gaussianReal 0 1)
  have hi : Integrable (fun p : (Fin n → ℝ) × (Fin n → ℝ) => g p.1 p.2) ((stdNormal (Fin n)).prod (stdNormal (Fin n))) :=
    (hp.integrable_comp_emb (MeasurableEquiv.measurableEmbedding _)).mp hg
  have := integral_prod _ hi
  rw [← this]
  have h2 := hp.integral_comp' (g := fun p : (Fin n → ℝ) × (Fin n → ℝ) => g p.1 p.2)
  exact h2.symm

/-- the rows of the modes in `S` of the interferometer -/
def rowsOf (n : ℕ) (T : ℕ → ℕ → ℂ) (S : Finset ℕ) : Matrix (S ⊕ S) (Fin n ⊕ Fin n) ℝ :=
  fromBlocks (Matrix.of fun (j : S) (i : Fin n) => (T j i).re) (-Matrix.of fun (j : S) (i : Fin n) => (T j i).im) (Matrix.of fun (j : S) (i : Fin n) => (T j i).im) (Matrix.of fun (j : S) (i : Fin n) => (T j i).re)

theorem alpha_beta (n : ℕ) (T : ℕ → ℕ → ℂ) (drp drm : ℕ → ℂ) (S : Finset ℕ) (z : Fin n ⊕ Fin n → ℝ) (wrp wrm : ℕ → ℝ) (hp : ∀ i : Fin n, wrp i = z (Sum.inl i)) (hm : ∀ i : Fin n, wrm i = z (Sum.inr i)) :
    ∑ j ∈ S, alphaAt n drp drm T wrp wrm j * betaAt n drp drm T wrp wrm j =
      ∑ i, ∑ j, Sum.elim (fun k : Fin n => drp k) (fun k : Fin n => drm k) i * (z i : ℂ) * ((((rowsOf n T S)ᵀ * rowsOf n T S) i j : ℝ) : ℂ) * (Sum.elim (fun k : Fin n => drp k) (fun k : Fin n => drm k) j * (z j : ℂ)) := by
  set v : Fin n ⊕ Fin n → ℂ := fun i => Sum.elim (fun k : Fin n => drp k) (fun k : Fin n => drm k) i * (z i : ℂ) with hv
  have h1 : ∑ i, ∑ j, v i * ((((rowsOf n T S)ᵀ * rowsOf n T S) i j : ℝ) : ℂ) * v j = ∑ q, (∑ i, ((rowsOf n T S q i : ℝ) : ℂ) * v i) ^ 2 := by
    simp only [Matrix.mul_apply, transpose_apply, sq, Finset.sum_mul_sum]
    push_cast
    simp only [Finset.mul_sum, Finset.sum_mul]
    rw [Finset.sum_congr rfl fun i _ => Finset.sum_comm, Finset.sum_comm]
    refine Finset.sum_congr rfl fun q _ => Finset.sum_congr rfl fun i _ => Finset.sum_congr rfl fun j _ => by ring
  rw [h1, Fintype.sum_sum_type, ← Finset.sum_add_distrib, ← Finset.sum_coe_sort]
  refine Finset.sum_congr rfl fun j _ => ?_
  have ha : alphaAt n drp drm T wrp wrm j = (∑ i, ((rowsOf n T S (Sum.inl j) i : ℝ) : ℂ) * v i) + Complex.I * ∑ i, ((rowsOf n T S (Sum.inr j) i : ℝ) : ℂ) * v i := by
    rw [alphaAt, Finset.sum_range, Fintype.sum_sum_type, Fintype.sum_sum_type, mul_add, Finset.mul_sum, Finset.mul_sum, ← Finset.sum_add_distrib, ← Finset.sum_add_distrib, ← Finset.sum_add_distrib]
    refine Finset.sum_congr rfl fun i _ => ?_
    simp only [rowsOf, fromBlocks_apply₁₁, fromBlocks_apply₁₂, fromBlocks_apply₂₁, fromBlocks_apply₂₂, Matrix.of_apply, Matrix.neg_apply, hv, Sum.elim_inl, Sum.elim_inr, hp, hm]
    rw [← Complex.re_add_im (T j i)]
    simp only [Complex.add_re, Complex.add_im, Complex.ofReal_re, Complex.ofReal_im, Complex.mul_re, Complex.mul_im, Complex.I_re, Complex.I_im]
    push_cast
    ring_nf
    simp only [Complex.I_sq]
    ring
  have hb : betaAt n drp drm T wrp wrm j = (∑ i, ((rowsOf n T S (Sum.inl j) i : ℝ) : ℂ) * v i) - Complex.I * ∑ i, ((rowsOf n T S (Sum.inr j) i : ℝ) : ℂ) * v i := by
    rw [betaAt, Finset.sum_range, Fintype.sum_sum_type, Fintype.sum_sum_type, mul_add, Finset.mul_sum, Finset.mul_sum, ← Finset.sum_add_distrib, ← Finset.sum_add_distrib, ← Finset.sum_sub_distrib]
    refine Finset.sum_congr rfl fun i _ => ?_
    simp only [rowsOf, fromBlocks_apply₁₁, fromBlocks_apply₁₂, fromBlocks_apply₂₁, fromBlocks_apply₂₂, Matrix.of_apply, Matrix.neg_apply, hv, Sum.elim_inl, Sum.elim_inr, hp, hm]
    have : (starRingEnd ℂ) (T j i) = ((T j i).re : ℂ) - (T j i).im * Complex.I := by
      apply Complex.ext <;> simp
    rw [this]
    push_cast
    ring_nf
    simp only [Complex.I_sq]
    ring
  rw [ha, hb]
  linear_combination (-(∑ i, ((rowsOf n T S (Sum.inr j) i : ℝ) : ℂ) * v i) ^ 2) * Complex.I_sq

open scoped ComplexOrder in
/-- a contraction shrinks vectors: from `1 - T T†` to `1 - T† T` -/
theorem contraction_swap {M N : ℕ} (A : Matrix (Fin M) (Fin N) ℂ) (h : (1 - A * Aᴴ).PosSemidef) : (1 - Aᴴ * A).PosSemidef := by
  haveI : Invertible (1 : Matrix (Fin M) (Fin M) ℂ) := invertibleOne
  haveI : Invertible (1 : Matrix (Fin N) (Fin N) ℂ) := invertibleOne
  have h1 := (PosDef.one (n := Fin M) (R := ℂ)).fromBlocks₁₁ A (1 : Matrix (Fin N) (Fin N) ℂ)
  have h2 := (PosDef.one (n := Fin N) (R := ℂ)).fromBlocks₂₂ (1 : Matrix (Fin M) (Fin M) ℂ) A
  rw [inv_one, Matrix.mul_one] at h1 h2
  exact h1.mp (h2.mpr h)

theorem rows_vec (n : ℕ) (T : ℕ → ℕ → ℂ) (S : Finset ℕ) (v : Fin n ⊕ Fin n → ℝ) :
    v ⬝ᵥ ((rowsOf n T S)ᵀ * rowsOf n T S) *ᵥ v = ∑ j ∈ S, Complex.normSq (∑ i : Fin n, T j i * ((v (Sum.inl i) : ℂ) + Complex.I * v (Sum.inr i))) := by
  rw [← mulVec_mulVec, dotProduct_mulVec, vecMul_transpose, dotProduct, Fintype.sum_sum_type, ← Finset.sum_add_distrib, ← Finset.sum_coe_sort S]
  refine Finset.sum_congr rfl fun j _ => ?_
  rw [Complex.normSq_apply, Complex.re_sum, Complex.im_sum]
  have e1 : (rowsOf n T S *ᵥ v) (Sum.inl j) = ∑ i : Fin n, (T j i * ((v (Sum.inl i) : ℂ) + Complex.I * v (Sum.inr i))).re := by
    rw [mulVec, dotProduct, Fintype.sum_sum_type, ← Finset.sum_add_distrib]
    refine Finset.sum_congr rfl fun i _ => ?_
    simp [rowsOf]
    ring
  have e2 : (rowsOf n T S *ᵥ v) (Sum.inr j) = ∑ i : Fin n, (T j i * ((v (Sum.inl i) : ℂ) + Complex.I * v (Sum.inr i))).im := by
    rw [mulVec, dotProduct, Fintype.sum_sum_type, ← Finset.sum_add_distrib]
    refine Finset.sum_congr rfl fun i _ => ?_
    simp [rowsOf]
    ring
  rw [e1, e2]

theorem rows_posSemidef (n : ℕ) (T : ℕ → ℕ → ℂ) (S : Finset ℕ) : ((rowsOf n T S)ᵀ * rowsOf n T S).PosSemidef := by
  have := posSemidef_conjTranspose_mul_self (rowsOf n T S)
  rwa [conjTranspose_eq_transpose_of_trivial] at this

open scoped ComplexOrder in
theorem rows_le_one (N n : ℕ) (T : ℕ → ℕ → ℂ) (hT : (1 - toMatrix N n T * (toMatrix N n T)ᴴ).PosSemidef) (S : Finset ℕ) (hS : S ⊆ Finset.range N) :
    (1 - (rowsOf n T S)ᵀ * rowsOf n T S).PosSemidef := by
  have h := contraction_swap _ hT
  rw [posSemidef_iff_dotProduct_mulVec] at h ⊢
  refine ⟨?_, fun v => ?_⟩
  · rw [IsHermitian, conjTranspose_eq_transpose_of_trivial, transpose_sub, transpose_one, transpose_mul, transpose_transpose]
  · rw [star_trivial, sub_mulVec, one_mulVec, dotProduct_sub, rows_vec]
    set u : Fin n → ℂ := fun i => (v (Sum.inl i) : ℂ) + Complex.I * v (Sum.inr i) with hu
    have h2 := (Complex.le_def.mp (h.2 u)).1
    rw [sub_mulVec, one_mulVec, dotProduct_sub, ← mulVec_mulVec, dotProduct_mulVec (star u), ← star_mulVec] at h2
    have e1 : (star u ⬝ᵥ u).re = v ⬝ᵥ v := by
      simp only [dotProduct, Fintype.sum_sum_type, Complex.re_sum, Pi.star_apply]
      rw [← Finset.sum_add_distrib]
      refine Finset.sum_congr rfl fun i _ => ?_
      simp [hu]
    have e2 : (star (toMatrix N n T *ᵥ u) ⬝ᵥ (toMatrix N n T *ᵥ u)).re = ∑ j ∈ Finset.range N, Complex.normSq (∑ i : Fin n, T j i * u i) := by
      rw [Finset.sum_range]
      simp only [dotProduct, Complex.re_sum, Pi.star_apply]
      refine Finset.sum_congr rfl fun j _ => ?_
      rw [← Complex.ofReal_re (Complex.normSq _), Complex.normSq_eq_conj_mul_self]
      rfl
    rw [Complex.sub_re, e1, e2, Complex.zero_re] at h2
    have h3 := Finset.sum_le_sum_of_subset_of_nonneg hS fun j _ _ => Complex.normSq_nonneg (∑ i : Fin n, T j i * u i)
    linarith

/-- the sum and difference correlations of the inputs -/
noncomputable def spread (n : ℕ) (phn chn : ℕ → ℝ) : Fin n ⊕ Fin n → ℝ := Sum.elim (fun k : Fin n => phn k + chn k) (fun k : Fin n => phn k - chn k)

open scoped ComplexOrder in
/-- the determinant in the vacuum probability of the modes in `S` of the transformed state -/
theorem grouped_vacProb (N n : ℕ) (T : ℕ → ℕ → ℂ) (phn chn : ℕ → ℝ) (hbar : ℝ) (hh : 0 < hbar) (s r : GState ℝ) (hs : s.len = 2 * n)
    (hcov : phase n n s.cov = diagonal fun k => hbar * (1 / 2 + spread n phn chn k)) (hr : passiveTransformation s N n T hbar = .ok r) (S : Finset ℕ) (hS : S ⊆ Finset.range N) :
    vacProb N r.cov hbar S = 1 / Real.sqrt (1 + diagonal (spread n phn chn) * ((rowsOf n T S)ᵀ * rowsOf n T S)).det := by
  obtain ⟨r', hr', -, -, hc⟩ := passive_phase s N n T hbar hs
  rw [hr] at hr'
  obtain rfl : r = r' := by injection hr'
  have hlt : ∀ j : S, (j : ℕ) < N := fun j => Finset.mem_range.mp (hS j.2)
  set P := phase N n (Symp.interferometer N n T) with hP
  set e : S ⊕ S → Fin N ⊕ Fin N := Sum.map (fun j => ⟨j, hlt j⟩) (fun j => ⟨j, hlt j⟩) with he
  have hei : Function.Injective e := Function.Injective.sumMap (fun a b h => Subtype.ext (by simpa using h)) (fun a b h => Subtype.ext (by simpa using h))
  have hq : ∀ p, modeQuad N S p = quad N (e p) := fun p => by cases p <;> rfl
  have hR : rowsOf n T S = P.submatrix e id := by
    rw [hP, phase_interferometer]
    ext p q
    rcases p with p | p <;> rcases q with q | q <;> simp [rowsOf, he, toMatrix]
  have key : (Matrix.of fun p q : S ⊕ S => (r.cov (modeQuad N S p) (modeQuad N S q) + if p = q then hbar / 2 else 0) / hbar) =
      1 + rowsOf n T S * (diagonal (spread n phn chn) * (rowsOf n T S)ᵀ) := by
    ext p q
    have h1 : r.cov (modeQuad N S p) (modeQuad N S q) = phase N N r.cov (e p) (e q) := by rw [hq, hq]; rfl
    have h2 : (rowsOf n T S * (diagonal (spread n phn chn) * (rowsOf n T S)ᵀ)) p q = (P * diagonal (spread n phn chn) * Pᵀ) (e p) (e q) := by
      rw [← Matrix.mul_assoc, hR]
      simp [Matrix.mul_apply]
    have h3 : P * phase n n s.cov * Pᵀ = (hbar / 2) • (P * Pᵀ) + hbar • (P * diagonal (spread n phn chn) * Pᵀ) := by
      have : phase n n s.cov = (hbar / 2) • 1 + hbar • diagonal (spread n phn chn) := by
        rw [hcov]
        ext i j
        by_cases hij : i = j
        · subst hij; simp; ring
        · simp [hij]
      rw [this, Matrix.mul_add, Matrix.add_mul, Matrix.mul_smul, Matrix.mul_smul, Matrix.smul_mul, Matrix.smul_mul, Matrix.mul_one]
    rw [Matrix.of_apply, h1, hc, h3, Matrix.add_apply (1 : Matrix (S ⊕ S) (S ⊕ S) ℝ), h2]
    simp only [Matrix.add_apply, Matrix.smul_apply, Matrix.sub_apply, smul_eq_mul, Matrix.one_apply, hei.eq_iff]
    split_ifs <;> field_simp <;> ring
  rw [vacProb, key, det_one_add_mul_comm, Matrix.mul_assoc]

open scoped ComplexOrder in
/-- the mean of `∏ exp(-α_j β_j)` over a set of modes is the probability that these modes are empty -/
theorem grouped_mean (N n : ℕ) (T : ℕ → ℕ → ℂ) (hT : (1 - toMatrix N n T * (toMatrix N n T)ᴴ).PosSemidef) (phn chn : ℕ → ℝ) (hbar : ℝ) (hh : 0 < hbar)
    (hv : ∀ k, -(1 / 2) ≤ spread n phn chn k) (s r : GState ℝ) (hs : s.len = 2 * n)
    (hcov : phase n n s.cov = diagonal fun k => hbar * (1 / 2 + spread n phn chn k)) (hr : passiveTransformation s N n T hbar = .ok r) (S : Finset ℕ) (hS : S ⊆ Finset.range N)
    (drp drm : ℕ → ℂ) (hdp : drp = fun i => ((1 / 2 * (phn i + chn i) : ℝ) : ℂ) ^ (1 / 2 : ℂ)) (hdm : drm = fun i => ((1 / 2 * (phn i - chn i) : ℝ) : ℂ) ^ (1 / 2 : ℂ))
    (W : (Fin n → ℝ) → ℕ → ℝ) (hW : ∀ z (i : Fin n), W z i = z i) :
    Integrable (fun z : Fin n ⊕ Fin n → ℝ => ∏ j ∈ S, Complex.exp (-alphaAt n drp drm T (W fun k => z (Sum.inl k)) (W fun k => z (Sum.inr k)) j * betaAt n drp drm T (W fun k => z (Sum.inl k)) (W fun k => z (Sum.inr k)) j)) (stdNormal (Fin n ⊕ Fin n)) ∧
    ∫ z : Fin n ⊕ Fin n → ℝ, ∏ j ∈ S, Complex.exp (-alphaAt n drp drm T (W fun k => z (Sum.inl k)) (W fun k => z (Sum.inr k)) j * betaAt n drp drm T (W fun k => z (Sum.inl k)) (W fun k => z (Sum.inr k)) j) ∂stdNormal (Fin n ⊕ Fin n) =
      ((vacProb N r.cov hbar S : ℝ) : ℂ) := by
  have hfun : (fun z : Fin n ⊕ Fin n → ℝ => ∏ j ∈ S, Complex.exp (-alphaAt n drp drm T (W fun k => z (Sum.inl k)) (W fun k => z (Sum.inr k)) j * betaAt n drp drm T (W fun k => z (Sum.inl k)) (W fun k => z (Sum.inr k)) j)) =
      fun z => Complex.exp (-∑ i, ∑ j, Sum.elim (fun k : Fin n => drp k) (fun k : Fin n => drm k) i * (z i : ℂ) * ((((rowsOf n T S)ᵀ * rowsOf n T S) i j : ℝ) : ℂ) *
        (Sum.elim (fun k : Fin n => drp k) (fun k : Fin n => drm k) j * (z j : ℂ))) := by
    funext z
    rw [← alpha_beta n T drp drm S z (W fun k => z (Sum.inl k)) (W fun k => z (Sum.inr k)) (fun i => hW _ i) (fun i => hW _ i), ← Complex.exp_sum, ← Finset.sum_neg_distrib]
    simp only [neg_mul]
  have h := cgauss_std _ (rows_posSemidef n T S) (rows_le_one N n T hT S hS) (Sum.elim (fun k : Fin n => drp k) (fun k : Fin n => drm k)) (fun k => 1 / 2 * spread n phn chn k)
    (fun k => by
      rcases k with k | k
      · simp only [Sum.elim_inl, hdp, spread]
        rw [← Complex.cpow_nat_mul]
        norm_num
      · simp only [Sum.elim_inr, hdm, spread]
        rw [← Complex.cpow_nat_mul]
        norm_num)
    (fun k => by have := hv k; linarith)
  have hD : (fun k => 2 * (1 / 2 * spread n phn chn k)) = spread n phn chn := funext fun k => by ring
  rw [hD] at h
  rw [grouped_vacProb N n T phn chn hbar hh s r hs hcov hr S hS]
  refine ⟨?_, ?_⟩
  · rw [hfun]; exact h.1
  · rw [hfun]; exact h.2.2

open scoped ComplexOrder in
/-- the mean of the contribution of one sample -/
theorem contribution_mean (N n : ℕ) (T : ℕ → ℕ → ℂ) (hT : (1 - toMatrix N n T * (toMatrix N n T)ᴴ).PosSemidef) (phn chn : ℕ → ℝ) (hbar : ℝ) (hh : 0 < hbar)
    (hv : ∀ k, -(1 / 2) ≤ spread n phn chn k) (s r : GState ℝ) (hs : s.len = 2 * n)
    (hcov : phase n n s.cov = diagonal fun k => hbar * (1 / 2 + spread n phn chn k)) (hr : passiveTransformation s N n T hbar = .ok r) (p : ℕ) (hp : p ≤ N) (a b : ℝ) :
    (do let wrp ← Law.normals n
        let wrm ← Law.normals n
        pure (wrp, wrm) : Expect ((ℕ → ℝ) × (ℕ → ℝ))) (fun w => a + b * contribution N n phn chn T w p) =
      a + b * ∑ C ∈ (Finset.range N).powersetCard p, clickProb N (fun _ => 0) r.cov hbar C := by
  set W : (Fin n → ℝ) → ℕ → ℝ := fun z i => if h : i < n then z ⟨i, h⟩ else 0 with hWd
  have hW : ∀ z (i : Fin n), W z i = z i := fun z i => by rw [hWd]; simp
  set drp : ℕ → ℂ := fun i => ((1 / 2 * (phn i + chn i) : ℝ) : ℂ) ^ (1 / 2 : ℂ) with hdp
  set drm : ℕ → ℂ := fun i => ((1 / 2 * (phn i - chn i) : ℝ) : ℂ) ^ (1 / 2 : ℂ) with hdm
  set E : (Fin n ⊕ Fin n → ℝ) → ℕ → ℂ := fun z j => Complex.exp (-alphaAt n drp drm T (W fun k => z (Sum.inl k)) (W fun k => z (Sum.inr k)) j * betaAt n drp drm T (W fun k => z (Sum.inl k)) (W fun k => z (Sum.inr k)) j) with hE
  have hmean : ∀ S ⊆ Finset.range N, Integrable (fun z => ∏ j ∈ S, E z j) (stdNormal (Fin n ⊕ Fin n)) ∧ ∫ z, ∏ j ∈ S, E z j ∂stdNormal (Fin n ⊕ Fin n) = ((vacProb N r.cov hbar S : ℝ) : ℂ) :=
    fun S hS => grouped_mean N n T hT phn chn hbar hh hv s r hs hcov hr S hS drp drm hdp hdm W hW
  have hC : ∀ C ∈ (Finset.range N).powersetCard p, Integrable (fun z => patternWeight N (E z) C) (stdNormal (Fin n ⊕ Fin n)) ∧
      ∫ z, patternWeight N (E z) C ∂stdNormal (Fin n ⊕ Fin n) = ((clickProb N (fun _ => 0) r.cov hbar C : ℝ) : ℂ) := fun C hC => by
    have hCs := (Finset.mem_powersetCard.mp hC).1
    have hZ : ∀ Z ∈ C.powerset, (Finset.range N \ C) ∪ Z ⊆ Finset.range N := fun Z hZ => Finset.union_subset Finset.sdiff_subset ((Finset.mem_powerset.mp hZ).trans hCs)
    have e : (fun z => patternWeight N (E z) C) = fun z => ∑ Z ∈ C.powerset, (-1) ^ Z.card * ∏ j ∈ (Finset.range N \ C) ∪ Z, E z j := funext fun z => patternWeight_expand N (E z) C hCs
    rw [e]
    refine ⟨integrable_finsetSum _ fun Z h => (hmean _ (hZ Z h)).1.const_mul _, ?_⟩
    rw [integral_finsetSum _ fun Z h => (hmean _ (hZ Z h)).1.const_mul _, clickProb]
    push_cast
    refine Finset.sum_congr rfl fun Z h => ?_
    rw [integral_const_mul, (hmean _ (hZ Z h)).2, expo_zero]
  have hφ : ∀ z : Fin n ⊕ Fin n → ℝ, contribution N n phn chn T (W (fun k => z (Sum.inl k)), W (fun k => z (Sum.inr k))) p = (∑ C ∈ (Finset.range N).powersetCard p, patternWeight N (E z) C).re :=
    fun z => contribution_eq N n phn chn T _ p hp drp drm hdp hdm
  have hi : Integrable (fun z => ∑ C ∈ (Finset.range N).powersetCard p, patternWeight N (E z) C) (stdNormal (Fin n ⊕ Fin n)) := integrable_finsetSum _ fun C h => (hC C h).1
  have hi' : Integrable (fun z => (∑ C ∈ (Finset.range N).powersetCard p, patternWeight N (E z) C).re) (stdNormal (Fin n ⊕ Fin n)) := hi.re
  have hval : ∫ z, (∑ C ∈ (Finset.range N).powersetCard p, patternWeight N (E z) C).re ∂stdNormal (Fin n ⊕ Fin n) = ∑ C ∈ (Finset.range N).powersetCard p, clickProb N (fun _ => 0) r.cov hbar C := by
    have h := integral_re hi
    have h2 : ∫ z, ∑ C ∈ (Finset.range N).powersetCard p, patternWeight N (E z) C ∂stdNormal (Fin n ⊕ Fin n) = ((∑ C ∈ (Finset.range N).powersetCard p, clickProb N (fun _ => 0) r.cov hbar C : ℝ) : ℂ) := by
      rw [integral_finsetSum _ fun C h => (hC C h).1]
      push_cast
      exact Finset.sum_congr rfl fun C h => (hC C h).2
    rw [h2] at h
    exact h
  change ∫ x, ∫ y, a + b * contribution N n phn chn T (W x, W y) p ∂stdNormal (Fin n) ∂stdNormal (Fin n) = _
  have hg : Integrable (fun z : Fin n ⊕ Fin n → ℝ => a + b * contribution N n phn chn T (W (fun k => z (Sum.inl k)), W (fun k => z (Sum.inr k))) p) (stdNormal (Fin n ⊕ Fin n)) := by
    simp only [hφ]
    exact (integrable_const a).add (hi'.const_mul b)
  rw [normals_pair' n (fun x y => a + b * contribution N n phn chn T (W x, W y) p) hg]
  simp only [hφ]
  rw [integral_add (integrable_const a) (hi'.const_mul b), integral_const_mul, hval]
  simp

open scoped ComplexOrder in
/-- **C91** for every loss-only or lossless network `T` with `n` inputs and `N ≥ n` outputs, every number of samples at least the number of groups, and every choice of input correlations with nonnegative variances:
`grouped_click_probabilities` returns estimates whose means are the probabilities of the numbers of clicks of the transformed state, times the number of complete groups over the number of groups. -/
theorem groupedClickProbabilities_mean (N n : ℕ) (hn : n ≤ N) (T : ℕ → ℕ → ℂ) (hT : (1 - toMatrix N n T * (toMatrix N n T)ᴴ).PosSemidef) (phn chn : ℕ → ℝ) (hbar : ℝ) (hh : 0 < hbar)
    (hv : ∀ k, -(1 / 2) ≤ spread n phn chn k) (s r : GState ℝ) (hs : s.len = 2 * n)
    (hcov : phase n n s.cov = diagonal fun k => hbar * (1 / 2 + spread n phn chn k)) (hr : passiveTransformation s N n T hbar = .ok r)
    (m groups : ℕ) (hg : 0 < groups) (hm : groups ≤ m) :
    ∃ E, groupedClickProbabilities phn chn N n T m groups = .ok E ∧ ∀ p, p ≤ N →
      E (fun res => res.1 p) = ((m / (m / groups) : ℕ) : ℝ) / groups * ∑ C ∈ (Finset.range N).powersetCard p, clickProb N (fun _ => 0) r.cov hbar C := by
  have hspg : 0 < m / groups := Nat.div_pos hm hg
  unfold groupedClickProbabilities
  dsimp only
  rw [if_neg hg.ne', max_eq_left hn, min_eq_right hn, if_neg (fun h => h.2 rfl), if_neg (fun h => hspg.ne' h.2)]
  refine ⟨_, rfl, fun p hp => ?_⟩
  rw [expect_bind]
  simp only [expect_pure]
  set e := ∑ C ∈ (Finset.range N).powersetCard p, clickProb N (fun _ => 0) r.cov hbar C with he
  rw [repeatE_congr _ m _ (fun l => 0 + (1 / ((m / groups : ℕ) * groups : ℝ)) * ((l.take (m / groups * (m / (m / groups)))).map fun w => contribution N n phn chn T w p).sum) fun l hl => by
    simp only [groupedRun]
    rw [hl, (accLoop_spec (contribution N n phn chn T) _ hspg l p).2.2, hl]
    rw [zero_add, div_div, one_div, inv_mul_eq_div]]
  rw [repeatE_affine _ (fun w => contribution N n phn chn T w p) e (fun a b => contribution_mean N n T hT phn chn hbar hh hv s r hs hcov hr p hp a b) m _ 0,
    min_eq_left (Nat.mul_div_le _ _)]
  have h1 : ((m / groups : ℕ) : ℝ) ≠ 0 := by exact_mod_cast hspg.ne'
  have h2 : (groups : ℝ) ≠ 0 := by exact_mod_cast hg.ne'
  push_cast
  generalize ((m / groups : ℕ) : ℝ) = x at h1 ⊢
  generalize ((m / (m / groups) : ℕ) : ℝ) = y
  field_simp
  ring

/-- the probability of `p` clicks is the sum of the photon-number probabilities of the outcomes with `p` nonempty modes -/
theorem click_count_fock {N : ℕ} {mu : ℕ → ℝ} {cov : ℕ → ℕ → ℝ} {hbar : ℝ} {ρ : (Fin N → ℕ) → (Fin N → ℕ) → ℂ} (hh : 0 < hbar) (hph : Physical (phase N N cov) hbar) (hρ : IsFockMatrix N mu cov hbar ρ) (p : ℕ) :
    HasSum (fun n : {n : Fin N → ℕ // (Finset.univ.filter fun k => 0 < n k).card = p} => (ρ n n).re) (∑ C ∈ (Finset.range N).powersetCard p, clickProb N mu cov hbar C) := by
  classical
  have h1 : ∀ C ∈ (Finset.range N).powersetCard p, HasSum (fun n : Fin N → ℕ => (ρ n n).re * if ∀ k : Fin N, 0 < n k ↔ (k : ℕ) ∈ C then 1 else 0) (clickProb N mu cov hbar C) := fun C hC =>
    (hasSum_restrict (fun n => (ρ n n).re) _ _).mp (clickProb_fock hh hph hρ C (Finset.mem_powersetCard.mp hC).1)
  have h2 := hasSum_sum h1
  refine (hasSum_restrict (fun n => (ρ n n).re) _ _).mpr ?_
  refine h2.congr_fun fun n => ?_
  rw [← Finset.mul_sum]
  congr 1
  set D : Finset ℕ := (Finset.univ.filter fun k : Fin N => 0 < n k).map Fin.valEmbedding with hD
  have hDr : D ⊆ Finset.range N := fun x hx => by
    obtain ⟨k, -, rfl⟩ := Finset.mem_map.mp hx
    exact Finset.mem_range.mpr k.2
  have hDm : ∀ k : Fin N, (k : ℕ) ∈ D ↔ 0 < n k := fun k => by
    rw [hD, Finset.mem_map]
    constructor
    · rintro ⟨k', hk', he⟩
      obtain rfl : k' = k := Fin.ext he
      exact (Finset.mem_filter.mp hk').2
    · exact fun h => ⟨k, Finset.mem_filter.mpr ⟨Finset.mem_univ _, h⟩, rfl⟩
  have hiff : ∀ C ∈ (Finset.range N).powersetCard p, ((∀ k : Fin N, 0 < n k ↔ (k : ℕ) ∈ C) ↔ C = D) := fun C hC => by
    constructor
    · intro h
      ext x
      by_cases hx : x < N
      · rw [← h ⟨x, hx⟩, ← hDm ⟨x, hx⟩]
      · exact ⟨fun hc => absurd (Finset.mem_range.mp ((Finset.mem_powersetCard.mp hC).1 hc)) hx, fun hc => absurd (Finset.mem_range.mp (hDr hc)) hx⟩
    · rintro rfl k
      exact (hDm k).symm
  rw [Finset.sum_congr rfl fun C hC => if_congr (hiff C hC) rfl rfl, Finset.sum_ite_eq']
  refine if_congr ?_ rfl rfl
  rw [Finset.mem_powersetCard, hD, Finset.card_map]
  exact ⟨fun h => ⟨hDr, h⟩, fun h => h.2⟩

open scoped ComplexOrder in
/-- **C91** when the number of groups divides the number of samples, the means of the returned estimates are the probabilities that exactly `p` of the modes of the transformed state are not empty -/
theorem groupedClickProbabilities_unbiased (N n : ℕ) (hn : n ≤ N) (T : ℕ → ℕ → ℂ) (hT : (1 - toMatrix N n T * (toMatrix N n T)ᴴ).PosSemidef) (phn chn : ℕ → ℝ) (hbar : ℝ) (hh : 0 < hbar)
    (s r : GState ℝ) (hs : s.len = 2 * n) (hph : Physical (phase n n s.cov) hbar) (hmu : ∀ i, s.mu i = 0)
    (hcov : phase n n s.cov = diagonal (Sum.elim (fun k : Fin n => hbar * (1 / 2 + (phn k + chn k))) (fun k : Fin n => hbar * (1 / 2 + (phn k - chn k))))) (hr : passiveTransformation s N n T hbar = .ok r)
    (ρ : (Fin N → ℕ) → (Fin N → ℕ) → ℂ) (hρ : IsFockMatrix N r.mu r.cov hbar ρ) (m groups : ℕ) (hg : 0 < groups) (hm : 0 < m) (hd : groups ∣ m) :
    ∃ E, groupedClickProbabilities phn chn N n T m groups = .ok E ∧ ∀ p, p ≤ N →
      HasSum (fun n : {n : Fin N → ℕ // (Finset.univ.filter fun k => 0 < n k).card = p} => (ρ n n).re) (E fun res => res.1 p) := by
  have hsp : phase n n s.cov = diagonal fun k => hbar * (1 / 2 + spread n phn chn k) := by
    rw [hcov]
    congr 1
    funext k
    rcases k with k | k <;> rfl
  have hv : ∀ k, -(1 / 2) ≤ spread n phn chn k := fun k => by
    have h := (physical_posDef _ hbar hh hph).diag_pos (i := k)
    rw [hsp, diagonal_apply_eq] at h
    have := (pos_iff_pos_of_mul_pos h).mp hh
    linarith
  obtain ⟨E, hE, hp⟩ := groupedClickProbabilities_mean N n hn T hT phn chn hbar hh hv s r hs hsp hr m groups hg (Nat.le_of_dvd hm hd)
  refine ⟨E, hE, fun p hpN => ?_⟩
  have hgr : m / (m / groups) = groups := Nat.div_div_self hd hm.ne'
  rw [hp p hpN, hgr, div_self (by exact_mod_cast hg.ne'), one_mul]
  have hphr := physical_passive N s r hs T hbar hh.le hT hph hr
  have hmur : phaseVec N r.mu = phaseVec N (fun _ => (0 : ℝ)) := by
    obtain ⟨r', hr', -, hm', -⟩ := passive_phase s N n T hbar hs
    rw [hr] at hr'
    obtain rfl : r = r' := by injection hr'
    rw [hm', show phaseVec n s.mu = 0 from funext fun k => hmu _, mulVec_zero]
    rfl
  have hρ' : IsFockMatrix N (fun _ => 0) r.cov hbar ρ := by
    rw [isFock_iff] at hρ ⊢
    rw [hmur] at hρ
    exact hρ
  exact click_count_fock hh hphr hρ' p

/-- the input correlations of squeezed vacua: `e^{±2r}/2` -/
theorem squeezed_spread (n : ℕ) (x : ℕ → ℝ) (hbar : ℝ) : (Sum.elim (fun k : Fin n => hbar * (1 / 2 + (Real.sinh (x k) ^ 2 + 1 / 2 * Real.sinh (2 * x k)))) (fun k : Fin n => hbar * (1 / 2 + (Real.sinh (x k) ^ 2 - 1 / 2 * Real.sinh (2 * x k))))) =
    Sum.elim (fun k : Fin n => hbar / 2 * Real.exp (2 * x k)) (fun k : Fin n => hbar / 2 * Real.exp (-(2 * x k))) := by
  have h1 : ∀ y : ℝ, Real.sinh y ^ 2 + 1 / 2 * Real.sinh (2 * y) = (Real.exp (2 * y) - 1) / 2 := fun y => by
    rw [Real.sinh_two_mul, two_mul y, Real.exp_add, ← Real.cosh_add_sinh]
    nlinarith [Real.cosh_sq y]
  have h2 : ∀ y : ℝ, Real.sinh y ^ 2 - 1 / 2 * Real.sinh (2 * y) = (Real.exp (-(2 * y)) - 1) / 2 := fun y => by
    have := h1 (-y)
    rw [Real.sinh_neg, mul_neg, Real.sinh_neg] at this
    rw [← this]; ring
  funext k
  rcases k with k | k
  · simp only [Sum.elim_inl, h1]; ring
  · simp only [Sum.elim_inr, h2]; ring

open scoped ComplexOrder in
/-- **C91** the same for `grouped_click_probabilities_squeezed`: the inputs are squeezed vacua with `x`-variance `ħ e^{2r}/2` and `p`-variance `ħ e^{-2r}/2` -/
theorem groupedClickProbabilitiesSqueezed_unbiased (N n : ℕ) (hn : n ≤ N) (T : ℕ → ℕ → ℂ) (hT : (1 - toMatrix N n T * (toMatrix N n T)ᴴ).PosSemidef) (inputSq : ℕ → ℝ) (hbar : ℝ) (hh : 0 < hbar)
    (s r : GState ℝ) (hs : s.len = 2 * n) (hph : Physical (phase n n s.cov) hbar) (hmu : ∀ i, s.mu i = 0)
    (hcov : phase n n s.cov = diagonal (Sum.elim (fun k : Fin n => hbar / 2 * Real.exp (2 * inputSq k)) (fun k : Fin n => hbar / 2 * Real.exp (-(2 * inputSq k))))) (hr : passiveTransformation s N n T hbar = .ok r)
    (ρ : (Fin N → ℕ) → (Fin N → ℕ) → ℂ) (hρ : IsFockMatrix N r.mu r.cov hbar ρ) (m groups : ℕ) (hg : 0 < groups) (hm : 0 < m) (hd : groups ∣ m) :
    ∃ E, groupedClickProbabilitiesSqueezed inputSq N n T m groups = .ok E ∧ ∀ p, p ≤ N →
      HasSum (fun n : {n : Fin N → ℕ // (Finset.univ.filter fun k => 0 < n k).card = p} => (ρ n n).re) (E fun res => res.1 p) :=
  groupedClickProbabilities_unbiased N n hn T hT (fun i => Real.sinh (inputSq i) ^ 2) (fun i => 1 / 2 * Real.sinh (2 * inputSq i)) hbar hh s r hs hph hmu (by rw [hcov, ← squeezed_spread]) hr ρ hρ m groups hg hm hd

/-- **C91** (negative) when the number of groups does not fit the number of samples the estimates are biased: with three samples in two groups they sum to 3/2 in every run -/
theorem groupedRun_not_normalised (N n : ℕ) (phn chn : ℕ → ℝ) (T : ℕ → ℕ → ℂ) (ws : List ((ℕ → ℝ) × (ℕ → ℝ))) (hw : ws.length = 3) :
    ∑ p ∈ Finset.range (N + 1), (groupedRun N n phn chn T 2 ws).1 p = 3 / 2 := by
  rw [groupedRun_total N n phn chn T 2 (by norm_num) ws (by omega), hw]
  norm_num

/-- **C91** the calls that raise: no groups, more groups than samples, more inputs than outputs -/
theorem groupedClickProbabilities_raises (phn chn : ℕ → ℝ) (r c : ℕ) (T : ℕ → ℕ → ℂ) (m groups : ℕ) :
    (groups = 0 → groupedClickProbabilities phn chn r c T m groups = .error .zeroDivision) ∧
    (0 < groups → 0 < m → r < c → groupedClickProbabilities phn chn r c T m groups = .error .valueError) ∧
    (0 < m → c ≤ r → m < groups → groupedClickProbabilities phn chn r c T m groups = .error .zeroDivision) := by
  unfold groupedClickProbabilities
  dsimp only
  refine ⟨fun h => by rw [if_pos h], fun h1 h2 h3 => ?_, fun h1 h2 h3 => ?_⟩
  · rw [if_neg h1.ne', if_pos ⟨h2.ne', by rw [min_eq_left h3.le]; exact h3.ne'⟩]
  · rw [if_neg (by omega), if_neg (fun h => h.2 (by rw [min_eq_right h2])), if_pos ⟨h1.ne', Nat.div_eq_of_lt h3⟩]

open scoped ComplexOrder in
/-- the hypotheses can be met: two squeezed inputs of a network that loses three quarters of the photons -/
example : ∃ E, groupedClickProbabilitiesSqueezed (fun _ => 1) 2 2 (fun i j => if i = j then 1 / 2 else 0) 6 3 = .ok E ∧ ∃ ρ : (Fin 2 → ℕ) → (Fin 2 → ℕ) → ℂ, ∀ p, p ≤ 2 →
    HasSum (fun n : {n : Fin 2 → ℕ // (Finset.univ.filter fun k => 0 < n k).card = p} => (ρ n n).re) (E fun res => res.1 p) := by
  obtain ⟨cov, hc⟩ := Verif.Lemmas.Heis.exists_cov (N := 2) (diagonal (Sum.elim (fun _ => 2 / 2 * Real.exp (2 * 1)) (fun _ => 2 / 2 * Real.exp (-(2 * 1)))))
  have hph : Physical (phase 2 2 cov) 2 := squeezed_physical (by norm_num) cov (-1) 1 (one_mem _) (by
    rw [hc, Matrix.one_mul, transpose_one, Matrix.mul_one]
    norm_num)
  set s : GState ℝ := ⟨4, fun _ => 0, cov⟩ with hs
  set T : ℕ → ℕ → ℂ := fun i j => if i = j then 1 / 2 else 0 with hT
  have hTm : toMatrix 2 2 T = (1 / 2 : ℂ) • 1 := by
    ext i j
    simp [toMatrix, hT, Matrix.one_apply, Fin.ext_iff]
  have hTp : (1 - toMatrix 2 2 T * (toMatrix 2 2 T)ᴴ).PosSemidef := by
    have : 1 - toMatrix 2 2 T * (toMatrix 2 2 T)ᴴ = (3 / 4 : ℂ) • 1 := by
      rw [hTm]
      ext i j
      by_cases h : i = j
      · subst h; simp; norm_num
      · simp [h]
    rw [this]
    exact PosSemidef.one.smul (by norm_num [Complex.le_def])
  obtain ⟨r, hr, -⟩ := passive_phase s 2 2 T 2 rfl
  have hphr := physical_passive 2 s r rfl T 2 (by norm_num) hTp hph hr
  obtain ⟨ρ, _, _, -, hρ, -⟩ := fock_gram (N := 2) r.mu (by norm_num) hphr
  obtain ⟨E, hE, h⟩ := groupedClickProbabilitiesSqueezed_unbiased 2 2 le_rfl T hTp (fun _ => 1) 2 (by norm_num) s r rfl hph (fun _ => rfl) hc hr ρ hρ 6 3 (by norm_num) (by norm_num) (by norm_num)
  exact ⟨E, hE, ρ, h⟩

end Verif.Props
