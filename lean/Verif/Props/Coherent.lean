/-
The density matrix of a coherent state.
-/
import Verif.Props.FockReduced
import Mathlib.Analysis.SpecialFunctions.Exponential

set_option linter.unusedSectionVars false

namespace Verif.Props
open Verif.Model Verif.Model.Symp Verif.Spec Verif.Lemmas Verif.Lemmas.Symp Verif.Lemmas.FPar Matrix

/-- sums over multi-indices of products -/
theorem hasSum_pi_prod {ι : Type} [Fintype ι] [DecidableEq ι] {f : ι → ℕ → ℂ} {a : ι → ℂ} (h : ∀ k, HasSum (f k) (a k)) :
    HasSum (fun n : ι → ℕ => ∏ k, f k (n k)) (∏ k, a k) := by
  have hs : Summable fun n : ι → ℕ => ∏ k, f k (n k) := by
    apply Summable.of_norm
    have := summable_pi (f := fun k n => ‖f k n‖) (fun k n => norm_nonneg _) fun k => (h k).summable.norm
    exact this.congr fun n => (norm_prod _ _).symm
  have ht : Filter.Tendsto (fun m : ℕ => Fintype.piFinset fun _ : ι => Finset.range m) Filter.atTop Filter.atTop := by
    apply Filter.tendsto_atTop_finset_of_monotone
    · intro a b hab
      exact Fintype.piFinset_subset _ _ fun _ => Finset.range_mono hab
    · intro n
      refine ⟨∑ k, n k + 1, ?_⟩
      rw [Fintype.mem_piFinset]
      intro k
      rw [Finset.mem_range]
      exact Nat.lt_succ_of_le (Finset.single_le_sum (fun _ _ => Nat.zero_le _) (Finset.mem_univ k))
  have h1 := hs.hasSum.comp ht
  have h2 : Filter.Tendsto (fun m : ℕ => ∏ k, ∑ n ∈ Finset.range m, f k n) Filter.atTop (nhds (∏ k, a k)) :=
    tendsto_finset_prod _ fun k _ => (h k).tendsto_sum_nat
  have h3 : (fun m : ℕ => ∏ k, ∑ n ∈ Finset.range m, f k n) = (fun S : Finset (ι → ℕ) => ∑ n ∈ S, ∏ k, f k (n k)) ∘ fun m : ℕ => Fintype.piFinset fun _ : ι => Finset.range m := by
    funext m
    simp only [Function.comp]
    rw [Finset.prod_univ_sum]
  rw [h3] at h2
  rw [← tendsto_nhds_unique h1 h2]
  exact hs.hasSum

/-- amplitudes of the coherent state with the given means -/
noncomputable def cohAlpha (N : ℕ) (mu : ℕ → ℝ) (hbar : ℝ) : Fin N → ℂ := fun k => ((mu k : ℝ) + Complex.I * (mu (N + k) : ℝ)) / (Real.sqrt (2 * hbar) : ℝ)

theorem coherent_husimi (N : ℕ) (mu : ℕ → ℝ) (hbar : ℝ) (hh : 0 < hbar) (α : Fin N → ℂ) :
    husimiFn N mu (vacuumState N hbar).cov hbar α = Real.exp (-∑ k, ‖α k - cohAlpha N mu hbar k‖ ^ 2) := by
  have hc : 0 < Real.sqrt (2 * hbar) := Real.sqrt_pos.mpr (by positivity)
  have hc2 : Real.sqrt (2 * hbar) * Real.sqrt (2 * hbar) = 2 * hbar := Real.mul_self_sqrt (by positivity)
  set c := Real.sqrt (2 * hbar) with hcd
  unfold husimiFn
  simp only [phase_vacuum]
  have hW : ((hbar / 2) • (1 : Matrix (Fin N ⊕ Fin N) (Fin N ⊕ Fin N) ℝ) + (hbar / 2) • 1) = hbar • 1 := by rw [← add_smul]; congr 1; ring
  have hWi : (hbar • (1 : Matrix (Fin N ⊕ Fin N) (Fin N ⊕ Fin N) ℝ))⁻¹ = hbar⁻¹ • 1 := by
    apply Matrix.inv_eq_right_inv
    rw [smul_mul_smul_comm, one_mul, mul_inv_cancel₀ hh.ne', one_smul]
  have hd : ((1 / hbar) • hbar • (1 : Matrix (Fin N ⊕ Fin N) (Fin N ⊕ Fin N) ℝ)).det = 1 := by
    rw [smul_smul, one_div_mul_cancel hh.ne', one_smul, det_one]
  rw [hW, hWi, hd, Real.sqrt_one, div_one, Matrix.smul_mulVec, Matrix.one_mulVec, dotProduct_smul]
  congr 1
  have hb : ∀ k : Fin N, mu k = c * (cohAlpha N mu hbar k).re ∧ mu (N + k) = c * (cohAlpha N mu hbar k).im := by
    intro k
    unfold cohAlpha
    rw [← hcd, Complex.div_ofReal_re, Complex.div_ofReal_im]
    simp only [Complex.add_re, Complex.ofReal_re, Complex.mul_re, Complex.I_re, Complex.I_im, Complex.ofReal_im, Complex.add_im, Complex.mul_im]
    constructor <;> field_simp <;> ring
  have hsum : (cohQuad hbar α - phaseVec N mu) ⬝ᵥ (cohQuad hbar α - phaseVec N mu) = 2 * hbar * ∑ k, ‖α k - cohAlpha N mu hbar k‖ ^ 2 := by
    rw [dotProduct, Fintype.sum_sum_type, Finset.mul_sum, ← Finset.sum_add_distrib]
    refine Finset.sum_congr rfl fun k _ => ?_
    have e1 : phaseVec N mu (Sum.inl k) = mu k := rfl
    have e2 : phaseVec N mu (Sum.inr k) = mu (N + k) := rfl
    simp only [Pi.sub_apply, cohQuad, Sum.elim_inl, Sum.elim_inr, e1, e2, (hb k).1, (hb k).2, ← hcd]
    rw [← Complex.normSq_eq_norm_sq, Complex.normSq_apply, Complex.sub_re, Complex.sub_im, ← hc2]
    ring
  rw [hsum, smul_eq_mul]
  field_simp

theorem cohAmp_fac {N : ℕ} (α β : Fin N → ℂ) (i : Fin N → ℕ) :
    cohAmp α i * (starRingEnd ℂ) (cohAmp β i) = ∏ k, ((starRingEnd ℂ) (α k) * β k) ^ i k / ((i k).factorial : ℂ) := by
  unfold cohAmp
  rw [map_prod, ← Finset.prod_mul_distrib]
  refine Finset.prod_congr rfl fun k _ => ?_
  have hsq : ((Real.sqrt (i k).factorial : ℝ) : ℂ) * ((Real.sqrt (i k).factorial : ℝ) : ℂ) = ((i k).factorial : ℂ) := by
    rw [← Complex.ofReal_mul, Real.mul_self_sqrt (by positivity)]
    norm_cast
  rw [map_div₀, map_pow, Complex.conj_conj, Complex.conj_ofReal, div_mul_div_comm, hsq, mul_pow]

theorem cohAmp_overlap {N : ℕ} (α β : Fin N → ℂ) :
    HasSum (fun i : Fin N → ℕ => cohAmp α i * (starRingEnd ℂ) (cohAmp β i)) (Complex.exp (∑ k, (starRingEnd ℂ) (α k) * β k)) := by
  have := hasSum_pi_prod (ι := Fin N) (f := fun k n => ((starRingEnd ℂ) (α k) * β k) ^ n / (n.factorial : ℂ)) (a := fun k => Complex.exp ((starRingEnd ℂ) (α k) * β k))
    fun k => by
      have := NormedSpace.expSeries_div_hasSum_exp ((starRingEnd ℂ) (α k) * β k)
      rwa [← Complex.exp_eq_exp_ℂ] at this
  rw [Complex.exp_sum]
  exact hs_eq this (cohAmp_fac α β) rfl

theorem hasSum_double {σ : Type} {f g : σ → ℂ} {s t : ℂ} (h1 : HasSum f s) (h2 : HasSum g t) (r : ℂ) : HasSum (fun p : σ × σ => r * (f p.1 * g p.2)) (r * (s * t)) := by
  have h3 : Summable fun p : σ × σ => f p.1 * g p.2 := summable_mul_of_summable_norm h1.summable.norm h2.summable.norm
  exact (HasSum.mul h1 h2 h3).mul_left r

theorem exp_conj_sum {N : ℕ} (α β : Fin N → ℂ) (r : ℝ) :
    (r : ℂ) * (Complex.exp (∑ k, (starRingEnd ℂ) (α k) * β k) * Complex.exp (∑ k, (starRingEnd ℂ) (β k) * α k)) =
      ((r * Real.exp (2 * (∑ k, (starRingEnd ℂ) (α k) * β k).re) : ℝ) : ℂ) := by
  have e : ∑ k, (starRingEnd ℂ) (β k) * α k = (starRingEnd ℂ) (∑ k, (starRingEnd ℂ) (α k) * β k) := by
    rw [map_sum]
    refine Finset.sum_congr rfl fun k _ => ?_
    rw [map_mul, Complex.conj_conj, mul_comm]
  rw [e, ← Complex.exp_add, Complex.add_conj, Complex.ofReal_mul r, Complex.ofReal_exp]

theorem cohAmp_double {N : ℕ} (α β : Fin N → ℂ) (r : ℝ) :
    HasSum (fun p : (Fin N → ℕ) × (Fin N → ℕ) => (r : ℂ) * ((cohAmp α p.1 * (starRingEnd ℂ) (cohAmp β p.1)) * (cohAmp β p.2 * (starRingEnd ℂ) (cohAmp α p.2))))
      ((r * Real.exp (2 * (∑ k, (starRingEnd ℂ) (α k) * β k).re) : ℝ) : ℂ) := by
  rw [← exp_conj_sum]
  exact hasSum_double (cohAmp_overlap α β) (cohAmp_overlap β α) r

/-- the density matrix of a coherent state: `ρ i j = e^{-|β|²} β^i/√i! conj(β^j/√j!)` -/
theorem coherent_fock (N : ℕ) (mu : ℕ → ℝ) (hbar : ℝ) (hh : 0 < hbar) :
    IsFockMatrix N mu (vacuumState N hbar).cov hbar fun i j =>
      (Real.exp (-∑ k, ‖cohAlpha N mu hbar k‖ ^ 2) : ℝ) * (starRingEnd ℂ) (cohAmp (cohAlpha N mu hbar) i) * cohAmp (cohAlpha N mu hbar) j := by
  intro α
  refine hs_eq (cohAmp_double α (cohAlpha N mu hbar) (Real.exp (-∑ k, ‖cohAlpha N mu hbar k‖ ^ 2))) (fun p => by ring) ?_
  rw [coherent_husimi N mu hbar hh α, ← Real.exp_add, ← Real.exp_add]
  generalize cohAlpha N mu hbar = β
  congr 2
  rw [Complex.re_sum, Finset.mul_sum, ← Finset.sum_neg_distrib, ← Finset.sum_neg_distrib, ← Finset.sum_add_distrib, ← Finset.sum_add_distrib]
  refine Finset.sum_congr rfl fun k _ => ?_
  rw [← Complex.normSq_eq_norm_sq, ← Complex.normSq_eq_norm_sq, Complex.normSq_apply, Complex.normSq_apply, Complex.normSq_apply, Complex.mul_re, Complex.conj_re, Complex.conj_im,
    Complex.sub_re, Complex.sub_im]
  ring

end Verif.Props
