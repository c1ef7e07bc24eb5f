/-
The chain rule for the outcome densities of a pure state.
-/
import Verif.Lemmas.ChainRule

set_option linter.style.longLine false
set_option linter.unusedSectionVars false

namespace Verif.Lemmas.Chain
open MeasureTheory Verif.Spec Verif.Lemmas.FockS Verif.Lemmas.GInt Verif.Lemmas.Outc

variable {N : ℕ}

theorem mixAmp_congr (m : ℕ) (n n' : ℕ → ℕ) (α α' : ℕ → ℂ) (hn : ∀ k < m, n k = n' k) (hα : ∀ k, m ≤ k → k < N → α k = α' k) (i : Fin N → ℕ) :
    mixAmp m n α i = mixAmp m n' α' i := by
  unfold mixAmp
  refine Finset.prod_congr rfl fun k _ => ?_
  by_cases h : (k : ℕ) < m
  · rw [if_pos h, if_pos h, hn k h]
  · rw [if_neg h, if_neg h, hα k (by omega) k.2]

theorem mixAmp_top (m : ℕ) (hm : N ≤ m) (n : ℕ → ℕ) (α : ℕ → ℂ) (i : Fin N → ℕ) : mixAmp m n α i = mixAmp N n α i := by
  unfold mixAmp
  exact Finset.prod_congr rfl fun k _ => by rw [if_pos (by omega), if_pos k.2]

theorem outcomeDensity_congr (ρ : (Fin N → ℕ) → (Fin N → ℕ) → ℂ) (m : ℕ) (n n' : ℕ → ℕ) (α α' : ℕ → ℂ) (hn : ∀ k < m, n k = n' k) (hα : ∀ k, m ≤ k → k < N → α k = α' k) :
    outcomeDensity ρ m n α = outcomeDensity ρ m n' α' := by
  unfold outcomeDensity
  congr 1
  exact tsum_congr fun p => by rw [mixAmp_congr m n n' α α' hn hα, mixAmp_congr m n n' α α' hn hα]

theorem mixAmp_measurable {X : Type} [MeasurableSpace X] (m : ℕ) (n : ℕ → ℕ) (α : X → ℕ → ℂ) (hα : ∀ k < N, Measurable fun x => α x k) (i : Fin N → ℕ) :
    Measurable fun x => mixAmp m n (α x) i := by
  unfold mixAmp
  refine Finset.measurable_prod _ fun k _ => ?_
  have h := hα k k.2
  split_ifs
  · exact measurable_const
  · exact measurable_const
  · have hc : Continuous fun z : ℂ => (((Real.exp (-Complex.normSq z / 2) : ℝ) : ℂ) * ((starRingEnd ℂ) z ^ i k / ((Real.sqrt (i k).factorial : ℝ) : ℂ))) := by
      have := Complex.continuous_normSq
      have := Complex.continuous_conj
      fun_prop
    exact hc.measurable.comp h

theorem hasSum_measurable {X J : Type} [MeasurableSpace X] [Countable J] (f : J → X → ℂ) (hf : ∀ j, Measurable (f j)) (F : X → ℂ) (h : ∀ x, HasSum (fun j => f j x) (F x)) : Measurable F := by
  refine measurable_of_tendsto_metrizable' (u := Filter.atTop) (f := fun (s : Finset J) x => ∑ j ∈ s, f j x) (fun s => Finset.measurable_fun_sum s fun j _ => hf j) ?_
  rw [tendsto_pi_nhds]
  exact fun x => h x

theorem outcomeDensity_measurable {X : Type} [MeasurableSpace X] (ρ : X → (Fin N → ℕ) → (Fin N → ℕ) → ℂ) (m : ℕ) (n : ℕ → ℕ) (α : X → ℕ → ℂ)
    (hρ : ∀ i j, Measurable fun x => ρ x i j) (hα : ∀ k < N, Measurable fun x => α x k)
    (hs : ∀ x, Summable fun p : (Fin N → ℕ) × (Fin N → ℕ) => mixAmp m n (α x) p.1 * ρ x p.1 p.2 * (starRingEnd ℂ) (mixAmp m n (α x) p.2)) :
    Measurable fun x => outcomeDensity (ρ x) m n (α x) := by
  unfold outcomeDensity
  refine Complex.measurable_re.comp (hasSum_measurable (fun (p : (Fin N → ℕ) × (Fin N → ℕ)) x => mixAmp m n (α x) p.1 * ρ x p.1 p.2 * (starRingEnd ℂ) (mixAmp m n (α x) p.2))
    (fun p => ?_) _ fun x => (hs x).hasSum)
  have h1 := mixAmp_measurable m n α hα p.1
  have h2 : Measurable fun x => (starRingEnd ℂ) (mixAmp m n (α x) p.2) := Complex.continuous_conj.measurable.comp (mixAmp_measurable m n α hα p.2)
  exact (h1.mul (hρ _ _)).mul h2

/-- amplitudes outside the modes do not matter -/
noncomputable def extC (a : Fin N → ℂ) (k : ℕ) : ℂ := if h : k < N then a ⟨k, h⟩ else 0

theorem extC_update (a : Fin N → ℂ) (k : Fin N) (z : ℂ) : extC (Function.update a k z) = Function.update (extC a) k z := by
  funext j
  unfold extC
  by_cases hj : j < N
  · rw [dif_pos hj]
    by_cases hk : j = k
    · subst hk
      simp
    · rw [Function.update_of_ne (fun h => hk (by rw [← h])), Function.update_of_ne hk, dif_pos hj]
  · rw [dif_neg hj, Function.update_of_ne (by omega), dif_neg hj]

variable (ψ : (Fin N → ℕ) → ℂ)

/-- the total weight of the photon numbers up to the cutoff -/
noncomputable def stepTotal (ρ : (Fin N → ℕ) → (Fin N → ℕ) → ℂ) (cutoff : ℕ) (n : ℕ → ℕ) (k : ℕ) (α : ℕ → ℂ) : ℝ :=
  ∑ j ∈ Finset.range (cutoff + 1), outcomeDensity ρ (k + 1) (Function.update n k j) α

/-- the probability of the photon number in one step -/
noncomputable def stepProb (ρ : (Fin N → ℕ) → (Fin N → ℕ) → ℂ) (cutoff : ℕ) (n : ℕ → ℕ) (k : ℕ) (α : ℕ → ℂ) : ℝ :=
  outcomeDensity ρ (k + 1) n α / stepTotal ρ cutoff n k α

theorem pure_summable (hψ : ∀ m ≤ N, ∀ n α, Summable fun i => mixAmp m n α i * ψ i) (m : ℕ) (n : ℕ → ℕ) (α : ℕ → ℂ) : Summable fun i => mixAmp m n α i * ψ i := by
  rcases le_total m N with h | h
  · exact hψ m h n α
  · refine (hψ N le_rfl n α).congr fun i => ?_
    rw [mixAmp_top m h]

theorem pure_nonneg (hψ : ∀ m ≤ N, ∀ n α, Summable fun i => mixAmp m n α i * ψ i) (m : ℕ) (n : ℕ → ℕ) (α : ℕ → ℂ) :
    0 ≤ outcomeDensity (fun i j => ψ i * (starRingEnd ℂ) (ψ j)) m n α := by
  rw [pure_density ψ m n α _ (pure_summable ψ hψ m n α).hasSum]
  exact Complex.normSq_nonneg _

theorem pure_le (hψ : ∀ m ≤ N, ∀ n α, Summable fun i => mixAmp m n α i * ψ i) (cutoff : ℕ) (n : ℕ → ℕ) (hn : ∀ k, n k ≤ cutoff) (k : ℕ) (α : ℕ → ℂ) :
    outcomeDensity (fun i j => ψ i * (starRingEnd ℂ) (ψ j)) (k + 1) n α ≤ stepTotal (fun i j => ψ i * (starRingEnd ℂ) (ψ j)) cutoff n k α := by
  unfold stepTotal
  have h := Finset.single_le_sum (f := fun j => outcomeDensity (fun i j => ψ i * (starRingEnd ℂ) (ψ j)) (k + 1) (Function.update n k j) α)
    (fun j _ => pure_nonneg ψ hψ (k + 1) (Function.update n k j) α) (Finset.mem_range.mpr (Nat.lt_succ_of_le (hn k)))
  simpa using h

/-- The chain rule for a pure state. -/
theorem pure_chain (hψ : ∀ m ≤ N, ∀ n α, Summable fun i => mixAmp m n α i * ψ i) (cutoff : ℕ) (n : ℕ → ℕ) (hn : ∀ k, n k ≤ cutoff) :
    ENNReal.ofReal (Real.pi ^ N * Complex.normSq (ψ fun k => n k)) ≤
      ∫⁻ a : Fin N → ℂ, ENNReal.ofReal (outcomeDensity (fun i j => ψ i * (starRingEnd ℂ) (ψ j)) 0 n (extC a)) *
        ∏ k : Fin N, ENNReal.ofReal (stepProb (fun i j => ψ i * (starRingEnd ℂ) (ψ j)) cutoff n k (extC a)) := by
  set ρ : (Fin N → ℕ) → (Fin N → ℕ) → ℂ := fun i j => ψ i * (starRingEnd ℂ) (ψ j) with hρ
  have hext : ∀ k < N, Measurable fun a : Fin N → ℂ => extC a k := by
    intro k hk
    unfold extC
    simp only [hk, dif_pos]
    fun_prop
  have hm : ∀ m n, Measurable fun a : Fin N → ℂ => outcomeDensity ρ m n (extC a) := by
    intro m n
    refine outcomeDensity_measurable (fun _ => ρ) m n extC (fun _ _ => measurable_const) hext fun a => ?_
    exact (pure_hasSum ψ m n (extC a) _ (pure_summable ψ hψ m n (extC a)).hasSum).summable
  have hS : ∀ k, Measurable fun a : Fin N → ℂ => stepTotal ρ cutoff n k (extC a) := by
    intro k
    unfold stepTotal
    exact Finset.measurable_fun_sum _ fun j _ => hm _ _
  have h := chain_rule (N := N) (fun k a => outcomeDensity ρ k n (extC a)) (fun k a => stepTotal ρ cutoff n k (extC a)) ?_ ?_ ?_ ?_ ?_ ?_ 0
  · refine le_trans (le_of_eq ?_) h
    congr 2
    have h1 : HasSum (fun i => mixAmp N n (extC (0 : Fin N → ℂ)) i * ψ i) (ψ fun k => n k) := by
      have h2 : ∀ i : Fin N → ℕ, mixAmp N n (extC (0 : Fin N → ℂ)) i = if i = fun k : Fin N => n k then 1 else 0 := by
        intro i
        unfold mixAmp
        split_ifs with hi
        · exact Finset.prod_eq_one fun k _ => by rw [if_pos k.2, if_pos (congrFun hi k)]
        · obtain ⟨k, hk⟩ := Function.ne_iff.mp hi
          exact Finset.prod_eq_zero (Finset.mem_univ k) (by rw [if_pos k.2, if_neg hk])
      refine hasSum_of_eq (hasSum_single (f := fun i => mixAmp N n (extC (0 : Fin N → ℂ)) i * ψ i) (fun k : Fin N => n k) fun i hi => by rw [h2, if_neg hi, zero_mul]) (fun _ => rfl) ?_
      beta_reduce
      rw [h2, if_pos rfl, one_mul]
    rw [hρ, pure_density ψ N n _ _ h1]
  · unfold chainF
    exact (ENNReal.measurable_ofReal.comp (hm _ _)).mul (Finset.measurable_fun_prod _ fun k _ => ENNReal.measurable_ofReal.comp ((hm _ _).div (hS _)))
  · intro j i a z hij
    rw [extC_update]
    refine outcomeDensity_congr ρ _ _ _ _ _ (fun _ _ => rfl) fun k hk _ => ?_
    rw [Function.update_of_ne (by omega)]
  · intro j i a z hij
    unfold stepTotal
    refine Finset.sum_congr rfl fun l _ => ?_
    rw [extC_update]
    refine outcomeDensity_congr ρ _ _ _ _ _ (fun _ _ => rfl) fun k hk _ => ?_
    rw [Function.update_of_ne (by omega)]
  · exact fun k a => pure_nonneg ψ hψ k n _
  · exact fun k a => pure_le ψ hψ cutoff n hn k _
  · intro k a
    have h := density_step ψ (fun m n α => ∑' i, mixAmp m n α i * ψ i) (fun m hm n α => (hψ m hm n α).hasSum) k n (extC a) (cutoff + 1)
    have e : ∀ m n α, Complex.normSq (∑' i, mixAmp m n α i * ψ i) = outcomeDensity ρ m n α := fun m n α =>
      (pure_density ψ m n α _ (pure_summable ψ hψ m n α).hasSum).symm
    simp only [e] at h
    refine h.trans (le_of_eq (lintegral_congr fun z => ?_))
    rw [extC_update]

end Verif.Lemmas.Chain
