/-
Klein's inequality for a density matrix and the product of the marginals of its diagonal.
-/
import Verif.Props.FidelityMetric
import Verif.Props.Independent

set_option linter.unusedSectionVars false

namespace Verif.Lemmas.Klein

open Verif.Spec Verif.Props

noncomputable section

theorem hasSum_prod_nonneg {A B : Type} {F : A × B → ℝ} {G : A → ℝ} {t : ℝ} (h0 : ∀ x, 0 ≤ F x) (hF : ∀ a, HasSum (fun b => F (a, b)) (G a)) (hG : HasSum G t) : HasSum F t := by
  have hs : Summable F := by
    rw [summable_prod_of_nonneg h0]
    exact ⟨fun a => (hF a).summable, hG.summable.congr fun a => (hF a).tsum_eq.symm⟩
  have h := hs.hasSum.prod_fiberwise hF
  rw [hG.unique h]
  exact hs.hasSum

theorem klein_scalar {p r : ℝ} (hp : 0 ≤ p) (hr : 0 < r) : 0 ≤ p * -Real.log r - -(p * Real.log p) - p + r ∧ (p * -Real.log r - -(p * Real.log p) - p + r = 0 → p = r) := by
  rcases hp.eq_or_lt with rfl | hp
  · simp only [zero_mul, neg_zero, sub_zero, zero_add]
    exact ⟨hr.le, fun h => h.symm⟩
  · have e : p * -Real.log r - -(p * Real.log p) - p + r = p * ((r / p - 1) - Real.log (r / p)) := by
      rw [Real.log_div hr.ne' hp.ne']
      field_simp
      ring
    rw [e]
    refine ⟨mul_nonneg hp.le (sub_nonneg.mpr (Real.log_le_sub_one_of_pos (by positivity))), fun h => ?_⟩
    by_contra hne
    have h1 : r / p ≠ 1 := fun h1 => hne ((div_eq_one_iff_eq hp.ne').mp h1).symm
    have h2 := Real.log_lt_sub_one_of_pos (show 0 < r / p by positivity) h1
    have h3 := mul_pos hp (sub_pos.mpr h2)
    linarith

variable {I J X : Type} [DecidableEq I] [DecidableEq J] [DecidableEq X] {ρ : X → X → ℂ} {p : X → ℝ} {V : X → X → ℂ}

/-- the entropy of a density matrix is at most the sum of the entropies of the two marginals of its diagonal, with equality only for the product of the marginals -/
theorem entropy_marginals (e : X ≃ I × J) (h : IsSpectral ρ p V) (a : I → ℝ) (b : J → ℝ) (ha : ∀ i, HasSum (fun j => (ρ (e.symm (i, j)) (e.symm (i, j))).re) (a i))
    (hb : ∀ j, HasSum (fun i => (ρ (e.symm (i, j)) (e.symm (i, j))).re) (b j)) {s sa sb : ℝ} (hs : HasSum (fun m => -(p m * Real.log (p m))) s) (hsa : HasSum (fun i => -(a i * Real.log (a i))) sa)
    (hsb : HasSum (fun j => -(b j * Real.log (b j))) sb) : s ≤ sa + sb ∧ (s = sa + sb → ∀ x y, ρ x y = if x = y then ((a (e x).1 * b (e x).2 : ℝ) : ℂ) else 0) := by
  have hd : ∀ x, HasSum (fun k => ‖V x k‖ ^ 2 * p k) (ρ x x).re := fun x => by
    refine (Complex.hasSum_re (h.expand x x)).congr_fun fun k => ?_
    rw [Complex.mul_conj', ← Complex.ofReal_pow, ← Complex.ofReal_mul, Complex.ofReal_re, mul_comm]
  have hd0 : ∀ x, 0 ≤ (ρ x x).re := fun x => (hd x).nonneg fun k => mul_nonneg (by positivity) (h.nonneg k)
  have hrow : ∀ x, HasSum (fun k => ‖V x k‖ ^ 2) 1 := fun x => by
    have h1 := h.unitary.rows x x
    rw [if_pos rfl, ← Complex.ofReal_one] at h1
    refine Complex.hasSum_ofReal.mp (h1.congr_fun fun k => ?_)
    rw [Complex.conj_mul']; push_cast; rfl
  have hcol : ∀ k, HasSum (fun x => ‖V x k‖ ^ 2) 1 := fun k => by
    have h1 := h.unitary.cols k k
    rw [if_pos rfl, ← Complex.ofReal_one] at h1
    refine Complex.hasSum_ofReal.mp (h1.congr_fun fun x => ?_)
    rw [Complex.conj_mul']; push_cast; rfl
  have htr := e.symm.hasSum_iff.mpr (spectral_trace h)
  have hA1 : HasSum a 1 := htr.prod_fiberwise fun i => ha i
  have hB1 : HasSum b 1 := ((Equiv.prodComm J I).hasSum_iff.mpr htr).prod_fiberwise fun j => hb j
  have ha0 : ∀ i, 0 ≤ a i := fun i => (ha i).nonneg fun j => hd0 _
  have hb0 : ∀ j, 0 ≤ b j := fun j => (hb j).nonneg fun i => hd0 _
  have ha1 : ∀ i, a i ≤ 1 := fun i => le_hasSum hA1 i fun k _ => ha0 k
  have hb1 : ∀ j, b j ≤ 1 := fun j => le_hasSum hB1 j fun k _ => hb0 k
  have hda : ∀ x, (ρ x x).re ≤ a (e x).1 := fun x => by
    have := le_hasSum (ha (e x).1) (e x).2 fun k _ => hd0 _
    simpa using this
  have hdb : ∀ x, (ρ x x).re ≤ b (e x).2 := fun x => by
    have := le_hasSum (hb (e x).2) (e x).1 fun k _ => hd0 _
    simpa using this
  have hr1 : HasSum (fun x => a (e x).1 * b (e x).2) 1 := by
    have := hasSum_pair e hA1 hB1
    rwa [one_mul] at this
  have hr0 : ∀ x, 0 ≤ a (e x).1 * b (e x).2 := fun x => mul_nonneg (ha0 _) (hb0 _)
  have hlr : ∀ x, 0 ≤ -Real.log (a (e x).1 * b (e x).2) := fun x => neg_nonneg.mpr (Real.log_nonpos (hr0 x) (mul_le_one₀ (ha1 _) (hb0 _) (hb1 _)))
  have hz : ∀ x k, a (e x).1 * b (e x).2 = 0 → ‖V x k‖ ^ 2 * p k = 0 := fun x k h0 => by
    have h1 : (ρ x x).re = 0 := by
      rcases mul_eq_zero.mp h0 with h1 | h1
      · exact le_antisymm (h1 ▸ hda x) (hd0 x)
      · exact le_antisymm (h1 ▸ hdb x) (hd0 x)
    have h2 := hd x
    rw [h1] at h2
    exact congrFun ((hasSum_zero_iff_of_nonneg fun k => mul_nonneg (by positivity) (h.nonneg k)).mp h2) k
  have f1 : HasSum (fun y : X × X => ‖V y.2 y.1‖ ^ 2 * -(p y.1 * Real.log (p y.1))) s :=
    hasSum_prod_nonneg (fun y => mul_nonneg (by positivity) (neg_nonneg.mpr (Real.mul_log_nonpos (h.nonneg _) (spectral_le_one h _)))) (fun k => by
      have := (hcol k).mul_right (-(p k * Real.log (p k)))
      rwa [one_mul] at this) hs
  have f2 : HasSum (fun y : X × X => ‖V y.2 y.1‖ ^ 2 * p y.1) 1 :=
    hasSum_prod_nonneg (fun y => mul_nonneg (by positivity) (h.nonneg _)) (fun k => by
      have := (hcol k).mul_right (p k)
      rwa [one_mul] at this) h.total
  have f3 : HasSum (fun y : X × X => ‖V y.2 y.1‖ ^ 2 * (a (e y.2).1 * b (e y.2).2)) 1 := by
    refine (Equiv.prodComm X X).hasSum_iff.mp (hasSum_prod_nonneg (G := fun x => a (e x).1 * b (e x).2) (fun y => mul_nonneg (by positivity) (hr0 _)) (fun x => ?_) hr1)
    have := (hrow x).mul_right (a (e x).1 * b (e x).2)
    rwa [one_mul] at this
  have hda' : HasSum (fun x => (ρ x x).re * -Real.log (a (e x).1)) sa := by
    refine e.symm.hasSum_iff.mp (hasSum_prod_nonneg (G := fun i => -(a i * Real.log (a i))) (fun y => ?_) (fun i => ?_) hsa)
    · exact mul_nonneg (hd0 _) (neg_nonneg.mpr (Real.log_nonpos (ha0 _) (ha1 _)))
    · have := (ha i).mul_right (-Real.log (a i))
      rw [mul_neg] at this
      refine this.congr_fun fun j => ?_
      simp
  have hdb' : HasSum (fun x => (ρ x x).re * -Real.log (b (e x).2)) sb := by
    refine e.symm.hasSum_iff.mp ((Equiv.prodComm J I).hasSum_iff.mp (hasSum_prod_nonneg (G := fun j => -(b j * Real.log (b j))) (fun y => ?_) (fun j => ?_) hsb))
    · exact mul_nonneg (hd0 _) (neg_nonneg.mpr (Real.log_nonpos (hb0 _) (hb1 _)))
    · have := (hb j).mul_right (-Real.log (b j))
      rw [mul_neg] at this
      refine this.congr_fun fun i => ?_
      simp
  have f4 : HasSum (fun y : X × X => ‖V y.2 y.1‖ ^ 2 * (p y.1 * -Real.log (a (e y.2).1 * b (e y.2).2))) (sa + sb) := by
    refine (Equiv.prodComm X X).hasSum_iff.mp (hasSum_prod_nonneg (G := fun x => (ρ x x).re * -Real.log (a (e x).1 * b (e x).2)) (fun y => mul_nonneg (by positivity) (mul_nonneg (h.nonneg _) (hlr _))) (fun x => ?_) ?_)
    · refine ((hd x).mul_right (-Real.log (a (e x).1 * b (e x).2))).congr_fun fun k => ?_
      simp only [Function.comp_apply, Equiv.prodComm_apply, Prod.swap]
      ring
    · refine (hda'.add hdb').congr_fun fun x => ?_
      by_cases h0 : a (e x).1 * b (e x).2 = 0
      · have h1 : (ρ x x).re = 0 := by
          rcases mul_eq_zero.mp h0 with h1 | h1
          · exact le_antisymm (h1 ▸ hda x) (hd0 x)
          · exact le_antisymm (h1 ▸ hdb x) (hd0 x)
        rw [h1]; ring
      · rw [Real.log_mul (left_ne_zero_of_mul h0) (right_ne_zero_of_mul h0)]
        ring
  have ft := ((f4.sub f1).sub f2).add f3
  have hterm : ∀ y : X × X, 0 ≤ ‖V y.2 y.1‖ ^ 2 * (p y.1 * -Real.log (a (e y.2).1 * b (e y.2).2)) - ‖V y.2 y.1‖ ^ 2 * -(p y.1 * Real.log (p y.1)) - ‖V y.2 y.1‖ ^ 2 * p y.1 +
      ‖V y.2 y.1‖ ^ 2 * (a (e y.2).1 * b (e y.2).2) ∧ (‖V y.2 y.1‖ ^ 2 * (p y.1 * -Real.log (a (e y.2).1 * b (e y.2).2)) - ‖V y.2 y.1‖ ^ 2 * -(p y.1 * Real.log (p y.1)) - ‖V y.2 y.1‖ ^ 2 * p y.1 +
      ‖V y.2 y.1‖ ^ 2 * (a (e y.2).1 * b (e y.2).2) = 0 → V y.2 y.1 ≠ 0 → p y.1 = a (e y.2).1 * b (e y.2).2) := by
    rintro ⟨k, x⟩
    dsimp only
    rcases (hr0 x).eq_or_lt with h0 | h0
    · have h1 := hz x k h0.symm
      rcases mul_eq_zero.mp h1 with h2 | h2
      · rw [h2]
        simp only [zero_mul, sub_zero, add_zero, le_refl, true_and]
        intro _ h3
        exact absurd (norm_eq_zero.mp (pow_eq_zero_iff (two_ne_zero) |>.mp h2)) h3
      · rw [← h0, h2]
        simp
    · obtain ⟨k1, k2⟩ := klein_scalar (h.nonneg k) h0
      have e1 : ∀ P A B C D : ℝ, P * A - P * B - P * C + P * D = P * (A - B - C + D) := fun P A B C D => by ring
      rw [e1]
      refine ⟨mul_nonneg (by positivity) k1, fun h2 h3 => ?_⟩
      rcases mul_eq_zero.mp h2 with h4 | h4
      · exact absurd (norm_eq_zero.mp (pow_eq_zero_iff (two_ne_zero) |>.mp h4)) h3
      · exact k2 h4
  refine ⟨?_, fun heq x y => ?_⟩
  · have := ft.nonneg fun y => (hterm y).1
    linarith
  · have h0 : sa + sb - s - 1 + 1 = 0 := by rw [heq]; ring
    rw [h0] at ft
    have hall := (hasSum_zero_iff_of_nonneg fun y => (hterm y).1).mp ft
    have hk : ∀ k, V x k ≠ 0 → p k = a (e x).1 * b (e x).2 := fun k hk => (hterm (k, x)).2 (congrFun hall (k, x)) hk
    have h1 := (h.unitary.rows y x).mul_left ((a (e x).1 * b (e x).2 : ℝ) : ℂ)
    rw [mul_ite, mul_one, mul_zero] at h1
    have h2 := h.expand x y
    have h3 : HasSum (fun m => ((p m : ℝ) : ℂ) * (V x m * (starRingEnd ℂ) (V y m))) (if y = x then ((a (e x).1 * b (e x).2 : ℝ) : ℂ) else 0) := by
      refine h1.congr_fun fun k => ?_
      by_cases hv : V x k = 0
      · rw [hv]; ring
      · rw [hk k hv]; ring
    rw [h2.unique h3]
    simp only [eq_comm]

end

end Verif.Lemmas.Klein
