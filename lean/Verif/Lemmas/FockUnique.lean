/-
A function of `α` and `conj α` has at most one power series.
-/
import Verif.Lemmas.FockState
import Mathlib.Analysis.Analytic.Uniqueness
import Mathlib.Algebra.MvPolynomial.Funext
import Mathlib.Algebra.MvPolynomial.Monad

set_option linter.unusedSectionVars false

namespace Verif.Lemmas.FockS
open Finset MvPolynomial

/-- a power series in a real variable that vanishes identically has zero coefficients -/
theorem series_zero (a : ℕ → ℂ) (h : ∀ t : ℝ, HasSum (fun n => (t : ℂ) ^ n * a n) 0) : ∀ n, a n = 0 := by
  let p : FormalMultilinearSeries ℝ ℝ ℂ := fun n => ContinuousMultilinearMap.mkPiRing ℝ (Fin n) (a n)
  have hp : HasFPowerSeriesAt (0 : ℝ → ℂ) p 0 := by
    rw [hasFPowerSeriesAt_iff]
    refine Filter.Eventually.of_forall fun t => ?_
    have e : (fun n => t ^ n • p.coeff n) = fun n => (t : ℂ) ^ n * a n := by
      funext n
      simp only [FormalMultilinearSeries.coeff, p, ContinuousMultilinearMap.mkPiRing_apply, Pi.one_apply, Finset.prod_const_one, one_smul]
      rw [Complex.real_smul]; push_cast; rfl
    rw [e]
    exact h t
  have h0 := hp.eq_zero
  intro n
  have h1 : p n (fun _ => 1) = 0 := by rw [h0]; rfl
  simpa [p, ContinuousMultilinearMap.mkPiRing_apply] using h1

variable {N : ℕ}

/-- a polynomial that vanishes at all `(conj α, α)` is zero -/
theorem poly_zero (P : MvPolynomial (Fin N ⊕ Fin N) ℂ) (h : ∀ α : Fin N → ℂ, eval (Sum.elim (fun k => (starRingEnd ℂ) (α k)) α) P = 0) : P = 0 := by
  let σ : Fin N ⊕ Fin N → MvPolynomial (Fin N ⊕ Fin N) ℂ :=
    Sum.elim (fun k => X (Sum.inl k) - C Complex.I * X (Sum.inr k)) (fun k => X (Sum.inl k) + C Complex.I * X (Sum.inr k))
  have hev : ∀ y, eval y (bind₁ σ P) = eval (fun s => eval y (σ s)) P := by
    intro y
    rw [← MvPolynomial.coe_aeval_eq_eval, ← MvPolynomial.coe_aeval_eq_eval]
    exact MvPolynomial.aeval_bind₁ y σ P
  have hR : bind₁ σ P = 0 := by
    refine MvPolynomial.funext_set (fun _ => Set.range Complex.ofReal) (fun _ => Set.infinite_range_of_injective Complex.ofReal_injective) fun y hy => ?_
    rw [hev, map_zero]
    have hy' : ∀ s, ∃ t : ℝ, (t : ℂ) = y s := fun s => hy s (Set.mem_univ _)
    choose t ht using hy'
    rw [← h fun k => t (Sum.inl k) + Complex.I * t (Sum.inr k)]
    congr 1
    congr 1
    funext s
    rcases s with s | s
    · simp [σ, ← ht]; ring
    · simp [σ, ← ht]
  refine MvPolynomial.funext fun x => ?_
  rw [map_zero]
  have := hev (Sum.elim (fun k => (x (Sum.inl k) + x (Sum.inr k)) / 2) (fun k => (x (Sum.inr k) - x (Sum.inl k)) / (2 * Complex.I)))
  rw [hR, map_zero] at this
  rw [this]
  congr 1
  congr 1
  funext s
  have hI := Complex.I_ne_zero
  rcases s with s | s
  · simp [σ]; field_simp; ring
  · simp [σ]; field_simp; ring

theorem coeffs_zero (c : (Fin N ⊕ Fin N → ℕ) → ℂ)
    (h : ∀ α : Fin N → ℂ, HasSum (fun k => c k * ∏ s, Sum.elim (fun k => (starRingEnd ℂ) (α k)) α s ^ k s) 0) : ∀ k, c k = 0 := by
  let P : ℕ → MvPolynomial (Fin N ⊕ Fin N) ℂ := fun n => ∑ k ∈ piAntidiag univ n, monomial (Finsupp.equivFunOnFinite.symm k) (c k)
  have hP : ∀ n, P n = 0 := by
    intro n
    refine poly_zero _ fun α => ?_
    revert n
    have ev : ∀ n, eval (Sum.elim (fun k => (starRingEnd ℂ) (α k)) α) (P n) = ∑ k ∈ piAntidiag univ n, c k * ∏ s, Sum.elim (fun k => (starRingEnd ℂ) (α k)) α s ^ k s := by
      intro n
      simp only [P, map_sum, eval_monomial]
      refine Finset.sum_congr rfl fun k _ => ?_
      rw [Finsupp.prod_fintype _ _ (by simp)]
      rfl
    simp only [ev]
    refine series_zero _ fun t => ?_
    have h1 := h fun k => (t : ℂ) * α k
    rw [← GaussS.byDegree_comp (fun k : Fin N ⊕ Fin N → ℕ => c k * ∏ s, Sum.elim (fun k => (starRingEnd ℂ) ((t : ℂ) * α k)) (fun k => (t : ℂ) * α k) s ^ k s),
      GaussS.degree_inj.hasSum_iff (GaussS.byDegree_out _)] at h1
    have h2 := h1.prod_fiberwise fun n => GaussS.byDegree_fib _ n
    refine hasSum_of_eq h2 (fun n => ?_) rfl
    rw [Finset.mul_sum]
    refine Finset.sum_congr rfl fun k hk => ?_
    rw [mem_piAntidiag] at hk
    have : ∀ s, Sum.elim (fun k => (starRingEnd ℂ) ((t : ℂ) * α k)) (fun k => (t : ℂ) * α k) s = t * Sum.elim (fun k => (starRingEnd ℂ) (α k)) α s := by
      rintro (s | s) <;> simp
    simp only [this, mul_pow, Finset.prod_mul_distrib]
    rw [Finset.prod_pow_eq_pow_sum, hk.1]
    ring
  intro k
  have h1 := congrArg (coeff (Finsupp.equivFunOnFinite.symm k)) (hP (∑ s, k s))
  simp only [P, coeff_sum, coeff_monomial, EmbeddingLike.apply_eq_iff_eq, MvPolynomial.coeff_zero] at h1
  rw [Finset.sum_ite_eq' (piAntidiag univ (∑ s, k s)) k] at h1
  rw [if_pos (by rw [mem_piAntidiag]; simp)] at h1
  exact h1

end Verif.Lemmas.FockS

namespace Verif.Props
open Verif.Spec Verif.Lemmas.FockS

/-- **C69** the Husimi function of a state determines its matrix elements: there is at most one Fock matrix. -/
theorem fockMatrix_unique {N : ℕ} {mu : ℕ → ℝ} {cov : ℕ → ℕ → ℝ} {hbar : ℝ} {ρ ρ' : (Fin N → ℕ) → (Fin N → ℕ) → ℂ}
    (h : IsFockMatrix N mu cov hbar ρ) (h' : IsFockMatrix N mu cov hbar ρ') : ρ = ρ' := by
  have hf : ∀ i : Fin N → ℕ, (∏ k, ((Real.sqrt (i k).factorial : ℝ) : ℂ)) ≠ 0 := by
    intro i
    refine Finset.prod_ne_zero_iff.mpr fun k _ => ?_
    rw [Complex.ofReal_ne_zero]
    have : (0 : ℝ) < (i k).factorial := by exact_mod_cast Nat.factorial_pos _
    positivity
  have := coeffs_zero (N := N) (fun k => (ρ (fun a => k (Sum.inl a)) (fun a => k (Sum.inr a)) - ρ' (fun a => k (Sum.inl a)) (fun a => k (Sum.inr a)))
    / ((∏ a, ((Real.sqrt (k (Sum.inl a)).factorial : ℝ) : ℂ)) * ∏ a, ((Real.sqrt (k (Sum.inr a)).factorial : ℝ) : ℂ))) (fun α => by
      have h1 := (h α).sub (h' α)
      rw [sub_self, ← (Equiv.sumArrowEquivProdArrow (Fin N) (Fin N) ℕ).hasSum_iff] at h1
      refine hasSum_of_eq h1 (fun k => ?_) rfl
      simp only [Function.comp, Equiv.sumArrowEquivProdArrow_apply_fst, Equiv.sumArrowEquivProdArrow_apply_snd, cohAmp, Fintype.prod_sum_type, Sum.elim_inl, Sum.elim_inr]
      simp only [Equiv.sumArrowEquivProdArrow, Equiv.coe_fn_mk, Function.comp_def, Finset.prod_div_distrib, map_div₀, map_prod, map_pow, starRingEnd_self_apply, Complex.conj_ofReal]
      have a1 := hf fun a => k (Sum.inl a)
      have a2 := hf fun a => k (Sum.inr a)
      field_simp)
  funext i j
  have h1 := this (Sum.elim i j)
  simp only [Sum.elim_inl, Sum.elim_inr] at h1
  rw [div_eq_zero_iff] at h1
  rcases h1 with h1 | h1
  · exact sub_eq_zero.mp h1
  · exact absurd h1 (mul_ne_zero (hf i) (hf j))

end Verif.Props
