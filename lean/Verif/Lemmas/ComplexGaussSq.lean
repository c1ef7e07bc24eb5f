/-
Square integrability of complex Gaussian functions.
-/
import Verif.Lemmas.ComplexGauss
import Mathlib.MeasureTheory.Function.L2Space

set_option linter.style.longLine false

namespace Verif.Lemmas.GInt
open MeasureTheory ProbabilityTheory Matrix

variable {ι : Type} [Fintype ι] [DecidableEq ι]

theorem cgauss_memLp (G : Matrix ι ι ℝ) (hG : G.PosSemidef) (hG1 : (1 - G).PosSemidef) (Δ : ι → ℂ) (x : ι → ℝ) (hx : ∀ k, Δ k ^ 2 = (x k : ℂ)) (hx4 : ∀ k, -(1 / 4) < x k) :
    MemLp (fun z : ι → ℝ => Complex.exp (-∑ i, ∑ j, Δ i * (z i : ℂ) * (G i j : ℂ) * (Δ j * (z j : ℂ)))) 2 (stdNormal ι) := by
  have hm := (cgauss_std G hG hG1 Δ x hx fun k => (hx4 k).le).1.aestronglyMeasurable
  set a : ι → ℝ := fun k => (Δ k).re with ha
  set b : ι → ℝ := fun k => (Δ k).im with hb
  have hb4 : ∀ k, b k ^ 2 < 1 / 4 := fun k => by
    have h1 := congrArg Complex.re (hx k)
    have h2 := congrArg Complex.im (hx k)
    rw [pow_two, Complex.mul_re, Complex.ofReal_re] at h1
    rw [pow_two, Complex.mul_im, Complex.ofReal_im] at h2
    have h3 : a k * b k = 0 := by simp only [ha, hb]; linarith
    have h4 := hx4 k
    rcases mul_eq_zero.mp h3 with h | h
    · simp only [ha] at h
      simp only [hb]
      rw [h] at h1
      nlinarith
    · rw [h]; norm_num
  have hGnn : ∀ v : ι → ℝ, 0 ≤ v ⬝ᵥ G *ᵥ v := fun v => by
    have := (posSemidef_iff_dotProduct_mulVec.mp hG).2 v
    simpa using this
  have hGle : ∀ v : ι → ℝ, v ⬝ᵥ G *ᵥ v ≤ v ⬝ᵥ v := fun v => by
    have := (posSemidef_iff_dotProduct_mulVec.mp hG1).2 v
    rw [sub_mulVec, one_mulVec, dotProduct_sub] at this
    simpa using this
  have hre : ∀ z : ι → ℝ, -∑ k, b k ^ 2 * z k ^ 2 ≤ (∑ i, ∑ j, Δ i * (z i : ℂ) * (G i j : ℂ) * (Δ j * (z j : ℂ))).re := fun z => by
    have e : (∑ i, ∑ j, Δ i * (z i : ℂ) * (G i j : ℂ) * (Δ j * (z j : ℂ))).re = (fun k => a k * z k) ⬝ᵥ G *ᵥ (fun k => a k * z k) - (fun k => b k * z k) ⬝ᵥ G *ᵥ (fun k => b k * z k) := by
      simp only [Complex.re_sum, dotProduct, mulVec, Finset.mul_sum]
      rw [← Finset.sum_sub_distrib]
      refine Finset.sum_congr rfl fun i _ => ?_
      rw [← Finset.sum_sub_distrib]
      refine Finset.sum_congr rfl fun j _ => ?_
      simp only [Complex.mul_re, Complex.mul_im, Complex.ofReal_re, Complex.ofReal_im, ha, hb]
      ring
    have h1 := hGnn fun k => a k * z k
    have h2 := hGle fun k => b k * z k
    have h3 : (fun k => b k * z k) ⬝ᵥ (fun k => b k * z k) = ∑ k, b k ^ 2 * z k ^ 2 := Finset.sum_congr rfl fun k _ => by ring
    rw [e]
    linarith
  have hg : Integrable (fun z : ι → ℝ => Real.exp (2 * ∑ k, b k ^ 2 * z k ^ 2)) (stdNormal ι) := by
    rw [std_integrable_iff]
    have hk : ∀ k, Integrable fun y : ℝ => Real.exp (-(1 / 2 - 2 * b k ^ 2) * y ^ 2) := fun k => integrable_exp_neg_mul_sq (by have := hb4 k; linarith)
    have := (Integrable.fintype_prod hk).const_mul (1 / Real.sqrt (2 * Real.pi) ^ Fintype.card ι)
    refine this.congr (Filter.Eventually.of_forall fun z => ?_)
    simp only [smul_eq_mul]
    rw [← Real.exp_sum, div_mul_eq_mul_div, div_mul_eq_mul_div, one_mul, ← Real.exp_add]
    congr 2
    rw [dotProduct, ← Finset.sum_neg_distrib, Finset.sum_div, Finset.mul_sum, ← Finset.sum_add_distrib]
    exact Finset.sum_congr rfl fun k _ => by ring
  rw [memLp_two_iff_integrable_sq_norm hm]
  refine hg.mono' (hm.norm.pow 2) (Filter.Eventually.of_forall fun z => ?_)
  rw [Real.norm_of_nonneg (by positivity), Complex.norm_exp, ← Real.exp_nat_mul, Real.exp_le_exp, Complex.neg_re]
  have := hre z
  push_cast
  linarith

end Verif.Lemmas.GInt
