/-
C89: the law of the samples of `hafnian_sample_graph_rank_one`.
-/
import Verif.Props.SamplerLaws
import Verif.Props.AdjacencyFock
import Verif.Lemmas.ChoiTensor
import Verif.Lemmas.TotalPhotons
import Mathlib.Data.Nat.Factorial.DoubleFactorial

set_option linter.style.longLine false
set_option linter.unusedVariables false

namespace Verif.Props
open scoped ComplexOrder
open Verif.Model Verif.Model.Symp Verif.Model.Conv Verif.Model.Disting Verif.Model.Dist Verif.Spec Verif.Lemmas Verif.Lemmas.Symp Verif.Lemmas.Heis Verif.Lemmas.FPar Verif.Lemmas.FockS Verif.Lemmas.Tot Verif.Lemmas.Graph Matrix

variable {N : ℕ} {hbar : ℝ}

theorem eSum_const_eq {σ : Type} (c : ℂ) (l : List σ) : eSum (fun _ _ => c) l = l.length * c := by
  induction l with
  | nil => simp
  | cons a l ih =>
    rw [eSum_cons]
    have : eSum (fun (_ : σ) (_ : List σ) => c) l = l.length * c := ih
    rw [this, List.length_cons]
    push_cast
    ring

/-- the hafnian of a matrix of rank one -/
theorem lh_rank_one {σ : Type} (c : ℂ) (G : σ → ℂ) (m : ℕ) : ∀ l : List σ, l.length = m →
    lh (fun _ => 0) (fun i j => c * G i * G j) l = if m % 2 = 0 then c ^ (m / 2) * ((m - 1).doubleFactorial : ℂ) * (l.map G).prod else 0 := by
  induction m using Nat.strong_induction_on with
  | _ m ih =>
    intro l hl
    rcases l with _ | ⟨x, xs⟩
    · obtain rfl : m = 0 := by simpa using hl.symm
      simp
    · rw [List.length_cons] at hl
      rw [lh_cons, zero_mul, zero_add]
      rcases Nat.lt_or_ge m 2 with h2 | h2
      · have : xs = [] := List.length_eq_zero_iff.mp (by omega)
        have hm : m = 1 := by omega
        rw [this, eSum_nil, if_neg (by omega)]
      · have hys : ∀ y ys, (y :: ys).Perm xs → c * G x * G y * lh (fun _ => 0) (fun i j => c * G i * G j) ys = if m % 2 = 0 then c ^ (m / 2) * ((m - 3).doubleFactorial : ℂ) * (G x * (xs.map G).prod) else 0 := by
          intro y ys hp
          have hlen : ys.length = m - 2 := by have := hp.length_eq; rw [List.length_cons] at this; omega
          have hprod : G y * (ys.map G).prod = (xs.map G).prod := by rw [← (hp.map G).prod_eq, List.map_cons, List.prod_cons]
          rw [ih (m - 2) (by omega) ys hlen]
          by_cases hm : m % 2 = 0
          · rw [if_pos (by omega), if_pos hm, ← hprod, show m / 2 = (m - 2) / 2 + 1 by omega, show m - 2 - 1 = m - 3 by omega, pow_succ]
            ring
          · rw [if_neg (by omega), if_neg hm, mul_zero]
        rw [eSum_congr' hys, eSum_const_eq]
        by_cases hm : m % 2 = 0
        · rw [if_pos hm, if_pos hm, List.map_cons, List.prod_cons, show xs.length = m - 1 by omega]
          have hd : ((m - 1).doubleFactorial : ℂ) = ((m - 1 : ℕ) : ℂ) * ((m - 3).doubleFactorial : ℂ) := by
            rcases Nat.lt_or_ge m 3 with h3 | h3
            · obtain rfl : m = 2 := by omega
              simp
            · obtain ⟨k, rfl⟩ := Nat.exists_eq_add_of_le h3
              rw [show 3 + k - 1 = k + 2 by omega, show 3 + k - 3 = k by omega, Nat.doubleFactorial_add_two]
              push_cast
              ring
          rw [hd]
          ring
        · rw [if_neg hm, if_neg hm, mul_zero]

theorem homog_rankFold (p : ℕ → ℝ) (l : List ℕ) (s : ℕ → ℕ) : Homog (l.foldlM (fun (sample : ℕ → ℕ) (_ : ℕ) => do
    let det ← Disting.choice N p
    pure (Function.update sample det (sample det + 1))) s : Expect (ℕ → ℕ)) :=
  homog_foldlM _ (fun b a => homog_bind _ _ (homog_choice _ _) fun x => homog_pure _) l s

/-- the multinomial coefficient: the recursion -/
theorem multinomial_step (p : Fin N → ℝ) (d : Fin N → ℕ) (m : ℕ) (hd : ∑ k, d k = m + 1) :
    ∑ j : Fin N, p j * (if 0 < d j then (m.factorial : ℝ) * ∏ k, p k ^ (d - Pi.single j 1 : Fin N → ℕ) k / ((d - Pi.single j 1 : Fin N → ℕ) k).factorial else 0) = ((m + 1).factorial : ℝ) * ∏ k, p k ^ d k / (d k).factorial := by
  have key : ∀ j : Fin N, p j * (if 0 < d j then (m.factorial : ℝ) * ∏ k, p k ^ (d - Pi.single j 1 : Fin N → ℕ) k / ((d - Pi.single j 1 : Fin N → ℕ) k).factorial else 0) = (d j : ℝ) * ((m.factorial : ℝ) * ∏ k, p k ^ d k / (d k).factorial) := by
    intro j
    by_cases hj : 0 < d j
    · rw [if_pos hj]
      have hs : (d - Pi.single j 1 : Fin N → ℕ) j = d j - 1 := by simp
      have hk : ∀ k ∈ Finset.univ.erase j, (d - Pi.single j 1 : Fin N → ℕ) k = d k := fun k hk => by simp [Pi.single_eq_of_ne (Finset.ne_of_mem_erase hk)]
      generalize (d - Pi.single j 1 : Fin N → ℕ) = e at hs hk ⊢
      rw [← Finset.mul_prod_erase _ (fun k => p k ^ d k / ((d k).factorial : ℝ)) (Finset.mem_univ j), ← Finset.mul_prod_erase _ (fun k => p k ^ e k / ((e k).factorial : ℝ)) (Finset.mem_univ j)]
      have he : ∏ k ∈ Finset.univ.erase j, p k ^ e k / ((e k).factorial : ℝ) = ∏ k ∈ Finset.univ.erase j, p k ^ d k / ((d k).factorial : ℝ) :=
        Finset.prod_congr rfl fun k h => by rw [hk k h]
      rw [he, hs]
      obtain ⟨e, he'⟩ : ∃ e, d j = e + 1 := ⟨d j - 1, by omega⟩
      rw [he', Nat.add_sub_cancel, Nat.factorial_succ, pow_succ]
      push_cast
      have := Nat.factorial_ne_zero e
      field_simp
    · have : d j = 0 := by omega
      rw [if_neg hj, this]
      simp
  simp only [key]
  rw [← Finset.sum_mul, ← Nat.cast_sum, hd, Nat.factorial_succ]
  push_cast
  ring

/-- the counts of `m` independent draws are multinomially distributed -/
theorem rankFold_law (p : ℕ → ℝ) (l : List ℕ) : ∀ (s : ℕ → ℕ) (t : Fin N → ℕ),
    (l.foldlM (fun (sample : ℕ → ℕ) (_ : ℕ) => do
      let det ← Disting.choice N p
      pure (Function.update sample det (sample det + 1))) s : Expect (ℕ → ℕ)) (fun o => if ∀ k : Fin N, o k = t k then 1 else 0) =
    if (∀ k : Fin N, s k ≤ t k) ∧ ∑ k : Fin N, (t k - s k) = l.length then (l.length.factorial : ℝ) * ∏ k : Fin N, p k ^ (t k - s k) / (t k - s k).factorial else 0 := by
  induction l with
  | nil =>
    intro s t
    rw [List.foldlM_nil, expect_pure]
    by_cases h : ∀ k : Fin N, s k = t k
    · rw [if_pos h, if_pos ⟨fun k => (h k).le, by simp [h]⟩]
      simp [h]
    · rw [if_neg h, if_neg]
      rintro ⟨h1, h2⟩
      rw [List.length_nil, Finset.sum_eq_zero_iff] at h2
      exact h fun k => by have := h2 k (Finset.mem_univ k); have := h1 k; omega
  | cons a l ih =>
    intro s t
    rw [List.foldlM_cons, expect_bind]
    have hs : ∀ f : (ℕ → ℕ) → ℝ, (do
        let det ← Disting.choice N p
        pure (Function.update s det (s det + 1)) : Expect (ℕ → ℕ)) f = ∑ j : Fin N, p j * f (Function.update s j (s j + 1)) := by
      intro f
      rw [expect_bind, Disting.choice, Finset.sum_range]
      rfl
    rw [hs]
    simp only [ih]
    have hu : ∀ (j k : Fin N), Function.update s (j : ℕ) (s j + 1) (k : ℕ) = s k + if k = j then 1 else 0 := by
      intro j k
      by_cases h : k = j
      · rw [h]; simp
      · rw [Function.update_of_ne (fun h' => h (Fin.ext h')), if_neg h, add_zero]
    by_cases h1 : ∀ k : Fin N, s k ≤ t k
    · by_cases h2 : ∑ k : Fin N, (t k - s k) = l.length + 1
      · rw [List.length_cons, if_pos ⟨h1, h2⟩, ← multinomial_step (fun k : Fin N => p k) (fun k => t k - s k) l.length h2]
        refine Finset.sum_congr rfl fun j _ => ?_
        congr 1
        have hsub : ∀ k : Fin N, t k - Function.update s (j : ℕ) (s j + 1) (k : ℕ) = ((fun k => t k - s k) - Pi.single j 1 : Fin N → ℕ) k := by
          intro k
          rw [hu, Pi.sub_apply, Pi.single_apply]
          omega
        simp only [hsub]
        refine if_congr ?_ rfl rfl
        constructor
        · rintro ⟨h3, -⟩
          have := h3 j
          rw [hu, if_pos rfl] at this
          omega
        · intro h3
          refine ⟨fun k => ?_, ?_⟩
          · rw [hu]
            split_ifs with hk
            · rw [hk]; omega
            · have := h1 k; omega
          · have : ∑ k, ((fun k => t k - s k) - Pi.single j 1 : Fin N → ℕ) k + ∑ k, (Pi.single j 1 : Fin N → ℕ) k = ∑ k : Fin N, (t k - s k) := by
              rw [← Finset.sum_add_distrib]
              refine Finset.sum_congr rfl fun k _ => ?_
              rw [Pi.sub_apply, Pi.single_apply]
              split_ifs with hk
              · rw [hk]; omega
              · omega
            rw [h2, Finset.sum_pi_single' j 1 Finset.univ, if_pos (Finset.mem_univ j)] at this
            omega
      · rw [List.length_cons, if_neg fun h => h2 h.2]
        refine Finset.sum_eq_zero fun j _ => ?_
        rw [if_neg, mul_zero]
        rintro ⟨h3, h4⟩
        refine h2 ?_
        rw [← h4]
        have : ∀ k : Fin N, t k - s k = (t k - Function.update s (j : ℕ) (s j + 1) (k : ℕ)) + if k = j then 1 else 0 := fun k => by
          have := h3 k
          rw [hu] at this ⊢
          omega
        rw [Finset.sum_congr rfl fun k _ => this k, Finset.sum_add_distrib]
        simp
    · rw [if_neg fun h => h1 h.1]
      refine Finset.sum_eq_zero fun j _ => ?_
      rw [if_neg, mul_zero]
      rintro ⟨h3, -⟩
      refine h1 fun k => ?_
      have := h3 k
      rw [hu] at this
      omega

/-- the weights of the negative binomial distribution, by double factorials -/
theorem nbinom_half (h : ℕ) (q : ℝ) : nbinomPmf h q (1 / 2) * ((2 * h).factorial : ℝ) = Real.sqrt q * (1 - q) ^ h * ((2 * h - 1).doubleFactorial : ℝ) ^ 2 := by
  have hasc : ∀ h : ℕ, (ascPochhammer ℝ h).eval (1 / 2) * 2 ^ h = ((2 * h - 1).doubleFactorial : ℝ) := by
    intro h
    induction h with
    | zero => simp
    | succ h ih =>
      rw [ascPochhammer_succ_eval, pow_succ]
      rcases h with _ | h
      · norm_num
      · rw [show 2 * (h + 1 + 1) - 1 = (2 * (h + 1) - 1) + 2 by omega, Nat.doubleFactorial_add_two, show 2 * (h + 1) - 1 + 2 = 2 * h + 3 by omega]
        push_cast
        rw [← ih]
        push_cast
        ring
  have hf : ((2 * h).factorial : ℝ) = 2 ^ h * h.factorial * ((2 * h - 1).doubleFactorial : ℝ) := by
    rcases h with _ | h
    · simp
    · rw [show 2 * (h + 1) = (2 * h + 1) + 1 by omega, Nat.factorial_eq_mul_doubleFactorial, show 2 * h + 1 + 1 = 2 * (h + 1) by omega, Nat.doubleFactorial_two_mul, show 2 * (h + 1) - 1 = 2 * h + 1 by omega]
      push_cast
      ring
  rw [nbinomPmf, gamma_coef _ (by norm_num), hf, ← Real.sqrt_eq_rpow, ← hasc h]
  have := Nat.factorial_ne_zero h
  field_simp

/-- `arcsinh` and `tanh` in the preparation -/
theorem tanh_arsinh (x : ℝ) (hx : 0 ≤ x) : Real.tanh (Real.arsinh (Real.sqrt x)) ^ 2 = x / (1 + x) := by
  rw [Real.tanh_eq_sinh_div_cosh, div_pow, Real.cosh_sq, Real.sinh_arsinh, Real.sq_sqrt hx, add_comm]

/-- **C89** the law of one sample of `hafnian_sample_graph_rank_one`: the pattern `n` has the probability `√(1-t²) |haf((c G Gᵀ)_n)|² / Π n_k!`, where `c` scales the adjacency matrix `G Gᵀ`, whose only singular value is `Σ|G|²`, such that
the mean photon number is `n_mean = t²/(1-t²)`, `t = c Σ|G|²` -/
theorem rankOneSample_law (G : ℕ → ℂ) (S : ℝ) (hS : S = ∑ k : Fin N, ‖G k‖ ^ 2) (hS0 : S ≠ 0) (nMean c : ℝ) (hc0 : 0 ≤ c) (hc1 : c * S < 1) (hmean : nMean = (c * S) ^ 2 / (1 - (c * S) ^ 2)) (n : Fin N → ℕ) :
    Law.rankOneSample N G nMean (fun row => if row = List.ofFn n then 1 else 0) =
      Real.sqrt (1 - (c * S) ^ 2) * ‖Spec.haf (repeatedMatrix (fun i j => (c : ℂ) * G i * G j) (List.ofFn n))‖ ^ 2 / ∏ k, ((n k).factorial : ℝ) := by
  have hSp : 0 < S := lt_of_le_of_ne (hS ▸ Finset.sum_nonneg fun k _ => sq_nonneg _) (Ne.symm hS0)
  have ht0 : 0 ≤ c * S := mul_nonneg hc0 hSp.le
  have ht2 : (c * S) ^ 2 < 1 := by nlinarith
  have hn0 : 0 ≤ nMean := by rw [hmean]; exact div_nonneg (sq_nonneg _) (by linarith)
  have htanh : Real.tanh (Real.arsinh (Real.sqrt nMean)) ^ 2 = (c * S) ^ 2 := by
    rw [tanh_arsinh _ hn0, hmean]
    have : 1 - (c * S) ^ 2 ≠ 0 := by linarith
    generalize (c * S) ^ 2 = w at this ⊢
    have h1 : 1 + w / (1 - w) = 1 / (1 - w) := by field_simp; ring
    rw [h1, div_div_div_cancel_right₀ this, div_one]
  have hnorm : ∑ i ∈ Finset.range N, ‖G i‖ ^ 2 = S := by rw [hS, Finset.sum_range]
  -- the program
  have hprog : Law.rankOneSample N G nMean (fun row => if row = List.ofFn n then 1 else 0) = ∑' h : ℕ, nbinomPmf h (1 - (c * S) ^ 2) (1 / 2) *
      (if ∑ k, n k = 2 * h then ((2 * h).factorial : ℝ) * ∏ k : Fin N, (‖G k‖ ^ 2 / S) ^ n k / (n k).factorial else 0) := by
    unfold Law.rankOneSample
    rw [expect_bind, htanh, hnorm, Law.negBinomial]
    refine tsum_congr fun h => ?_
    congr 1
    rw [expect_bind]
    have hrow : ∀ o : ℕ → ℕ, (pure ((List.range N).map o) : Expect (List ℕ)) (fun row => if row = List.ofFn n then 1 else 0) = if ∀ k : Fin N, o k = n k then 1 else 0 := by
      intro o
      rw [expect_pure]
      refine if_congr ?_ rfl rfl
      constructor
      · intro he k
        have := List.getElem_of_eq he (i := k) (by simp)
        simpa using this
      · intro he
        refine List.ext_getElem (by simp) fun i h1 h2 => ?_
        have hi : i < N := by simpa using h1
        simpa using he ⟨i, hi⟩
    simp only [hrow]
    rw [rankFold_law (fun i => ‖G i‖ ^ 2 / S)]
    simp
  rw [hprog, spec_haf_repeated, lh_rank_one (c : ℂ) G (∑ k, n k) _ (by rw [repeatedIndices_length, List.sum_ofFn]), rep_prod]
  by_cases hm : (∑ k, n k) % 2 = 0
  · obtain ⟨h, hh⟩ : ∃ h, ∑ k, n k = 2 * h := ⟨(∑ k, n k) / 2, by omega⟩
    rw [if_pos hm, tsum_eq_single h, if_pos hh, hh, Nat.mul_div_cancel_left _ (by norm_num), ← mul_assoc, nbinom_half]
    · rw [norm_mul, norm_mul, norm_pow, Complex.norm_real, Real.norm_of_nonneg hc0, Complex.norm_natCast, norm_prod, Finset.prod_div_distrib, sub_sub_cancel]
      have e1 : ∏ k : Fin N, (‖G k‖ ^ 2 / S) ^ n k = (∏ k : Fin N, ‖G k ^ n k‖) ^ 2 / S ^ (2 * h) := by
        rw [← hh, ← Finset.prod_pow_eq_pow_sum, ← Finset.prod_pow, ← Finset.prod_div_distrib]
        refine Finset.prod_congr rfl fun k _ => ?_
        rw [div_pow, norm_pow, ← pow_mul, ← pow_mul, mul_comm]
      rw [e1, mul_pow c S 2, mul_pow]
      have : S ^ (2 * h) ≠ 0 := pow_ne_zero _ hS0
      rw [← pow_mul S]
      field_simp
      ring
    · intro h' hne
      rw [if_neg (by omega), mul_zero]
  · rw [if_neg hm]
    have : ∀ h : ℕ, ¬ ∑ k, n k = 2 * h := fun h hh => hm (by omega)
    simp [this]

/-- **C89** the probability that `hafnian_sample_graph_rank_one` returns the patterns `ns` -/
theorem hafnianSampleGraphRankOne_prob (G : ℕ → ℂ) (S : ℝ) (hS : S = ∑ k : Fin N, ‖G k‖ ^ 2) (hS0 : S ≠ 0) (nMean c : ℝ) (hc0 : 0 ≤ c) (hc1 : c * S < 1) (hmean : nMean = (c * S) ^ 2 / (1 - (c * S) ^ 2))
    (ns : List (Fin N → ℕ)) :
    Law.hafnianSampleGraphRankOne N G nMean ns.length (fun rows => if rows = ns.map List.ofFn then 1 else 0) =
      (ns.map fun n => Real.sqrt (1 - (c * S) ^ 2) * ‖Spec.haf (repeatedMatrix (fun i j => (c : ℂ) * G i * G j) (List.ofFn n))‖ ^ 2 / ∏ k, ((n k).factorial : ℝ)).prod := by
  have hom : Homog (Law.rankOneSample N G nMean) := homog_bind _ _ (fun c g => by
    unfold Law.negBinomial
    rw [← tsum_mul_left]
    exact tsum_congr fun k => by ring) fun h => homog_bind _ _ (homog_rankFold _ _ _) fun o => homog_pure _
  have h := repeatE_independent _ hom ((ns.map List.ofFn).map fun c (l : List ℕ) => if l = c then (1 : ℝ) else 0)
  simp only [indicator_rows] at h
  rw [List.length_map, List.length_map] at h
  refine h.trans ?_
  rw [List.map_map, List.map_map]
  congr 1
  exact List.map_congr_left fun n _ => rankOneSample_law G S hS hS0 nMean c hc0 hc1 hmean n

theorem rankOne_posDef (G : ℕ → ℂ) (S : ℝ) (hS : S = ∑ k : Fin N, ‖G k‖ ^ 2) (c : ℝ) (hc0 : 0 ≤ c) (hc1 : c * S < 1) (M : Matrix (Fin N) (Fin N) ℂ) (hM : M = toMatrix N N fun i j => (c : ℂ) * G i * G j) :
    Mᵀ = M ∧ (1 - Mᴴ * M).PosDef ∧ (1 - Mᴴ * M).det = ((1 - (c * S) ^ 2 : ℝ) : ℂ) := by
  have hSp : 0 ≤ S := hS ▸ Finset.sum_nonneg fun k _ => sq_nonneg _
  have hMM : Mᴴ * M = vecMulVec (fun i : Fin N => ((c ^ 2 * S : ℝ) : ℂ) * (starRingEnd ℂ) (G i)) fun j : Fin N => G j := by
    ext i j
    rw [Matrix.mul_apply, vecMulVec_apply, hM, hS]
    simp only [conjTranspose_apply, toMatrix, Matrix.of_apply]
    have : ∀ k : Fin N, star ((c : ℂ) * G k * G i) * ((c : ℂ) * G k * G j) = (c : ℂ) ^ 2 * ((‖G k‖ ^ 2 : ℝ) : ℂ) * ((starRingEnd ℂ) (G i) * G j) := fun k => by
      have h : G k * (starRingEnd ℂ) (G k) = ((‖G k‖ ^ 2 : ℝ) : ℂ) := by rw [Complex.mul_conj, Complex.normSq_eq_norm_sq]
      rw [← h, ← starRingEnd_apply, map_mul, map_mul, Complex.conj_ofReal]
      ring
    simp only [this]
    rw [← Finset.sum_mul, ← Finset.mul_sum]
    push_cast
    ring
  have hH : (Mᴴ * M)ᴴ = Mᴴ * M := by rw [conjTranspose_mul, conjTranspose_conjTranspose]
  refine ⟨?_, ?_, ?_⟩
  · rw [hM]
    ext i j
    simp only [transpose_apply, toMatrix, Matrix.of_apply]
    ring
  · refine PosDef.of_dotProduct_mulVec_pos ?_ fun x hx => ?_
    · rw [IsHermitian, conjTranspose_sub, conjTranspose_one, hH]
    · rw [sub_mulVec, one_mulVec, dotProduct_sub, hMM]
      have h1 : star x ⬝ᵥ x = ((∑ k, ‖x k‖ ^ 2 : ℝ) : ℂ) := by
        rw [dotProduct]
        push_cast
        refine Finset.sum_congr rfl fun k _ => ?_
        rw [Pi.star_apply, ← starRingEnd_apply, mul_comm, Complex.mul_conj, Complex.normSq_eq_norm_sq]
        push_cast; rfl
      have h2 : star x ⬝ᵥ (vecMulVec (fun i : Fin N => ((c ^ 2 * S : ℝ) : ℂ) * (starRingEnd ℂ) (G i)) fun j : Fin N => G j) *ᵥ x = ((c ^ 2 * S * ‖∑ k : Fin N, G k * x k‖ ^ 2 : ℝ) : ℂ) := by
        have e1 : (vecMulVec (fun i : Fin N => ((c ^ 2 * S : ℝ) : ℂ) * (starRingEnd ℂ) (G i)) fun j : Fin N => G j) *ᵥ x = fun i : Fin N => ((c ^ 2 * S : ℝ) : ℂ) * (starRingEnd ℂ) (G i) * ∑ k : Fin N, G k * x k := by
          funext i
          rw [mulVec, dotProduct, Finset.mul_sum]
          refine Finset.sum_congr rfl fun k _ => ?_
          rw [vecMulVec_apply]
          ring
        have h : (starRingEnd ℂ) (∑ k : Fin N, G k * x k) * (∑ k : Fin N, G k * x k) = ((‖∑ k : Fin N, G k * x k‖ ^ 2 : ℝ) : ℂ) := by rw [mul_comm, Complex.mul_conj, Complex.normSq_eq_norm_sq]
        rw [e1, Complex.ofReal_mul (c ^ 2 * S) (‖_‖ ^ 2), ← h, map_sum, dotProduct, Finset.sum_mul, Finset.mul_sum]
        refine Finset.sum_congr rfl fun k _ => ?_
        rw [Pi.star_apply, ← starRingEnd_apply, map_mul]
        ring
      rw [h1, h2, ← Complex.ofReal_sub, Complex.zero_lt_real]
      have hcs : ‖∑ k : Fin N, G k * x k‖ ^ 2 ≤ S * ∑ k, ‖x k‖ ^ 2 := by
        have h3 : ‖∑ k : Fin N, G k * x k‖ ≤ ∑ k : Fin N, ‖G k‖ * ‖x k‖ := (norm_sum_le _ _).trans (Finset.sum_le_sum fun k _ => (norm_mul _ _).le)
        have h4 := Finset.sum_mul_sq_le_sq_mul_sq Finset.univ (fun k : Fin N => ‖G k‖) fun k => ‖x k‖
        rw [hS]
        exact (pow_le_pow_left₀ (norm_nonneg _) h3 2).trans h4
      have hxp : 0 < ∑ k, ‖x k‖ ^ 2 := by
        obtain ⟨k, hk⟩ := Function.ne_iff.mp hx
        exact Finset.sum_pos' (fun k _ => sq_nonneg _) ⟨k, Finset.mem_univ k, by have := norm_pos_iff.mpr hk; positivity⟩
      have ht : (c * S) ^ 2 < 1 := by have := mul_nonneg hc0 hSp; nlinarith
      have h5 : c ^ 2 * S * ‖∑ k : Fin N, G k * x k‖ ^ 2 ≤ c ^ 2 * S * (S * ∑ k, ‖x k‖ ^ 2) := mul_le_mul_of_nonneg_left hcs (mul_nonneg (sq_nonneg c) hSp)
      nlinarith
  · rw [hMM]
    have e : (1 : Matrix (Fin N) (Fin N) ℂ) - vecMulVec (fun i : Fin N => ((c ^ 2 * S : ℝ) : ℂ) * (starRingEnd ℂ) (G i)) (fun j : Fin N => G j) =
        1 - replicateCol Unit (fun i : Fin N => ((c ^ 2 * S : ℝ) : ℂ) * (starRingEnd ℂ) (G i)) * replicateRow Unit fun j : Fin N => G j := by
      rw [vecMulVec_eq Unit]
    rw [e, det_one_sub_mul_comm, det_unique]
    simp only [Matrix.sub_apply, Matrix.one_apply_eq, Matrix.mul_apply, replicateRow_apply, replicateCol_apply]
    have : ∀ k : Fin N, G k * (((c ^ 2 * S : ℝ) : ℂ) * (starRingEnd ℂ) (G k)) = ((c ^ 2 * S : ℝ) : ℂ) * ((‖G k‖ ^ 2 : ℝ) : ℂ) := fun k => by
      have h : G k * (starRingEnd ℂ) (G k) = ((‖G k‖ ^ 2 : ℝ) : ℂ) := by rw [Complex.mul_conj, Complex.normSq_eq_norm_sq]
      rw [← h]; ring
    simp only [this]
    rw [← Finset.mul_sum, ← Complex.ofReal_sum, ← hS]
    push_cast
    ring

/-- **C89** in terms of the state: the probability of the pattern `n` is `⟨n|ρ|n⟩`, where `ρ` is the pure Gaussian state encoding the adjacency matrix `c G Gᵀ` -/
theorem rankOneSample_state (hh : 0 < hbar) (G : ℕ → ℂ) (S : ℝ) (hS : S = ∑ k : Fin N, ‖G k‖ ^ 2) (hS0 : S ≠ 0) (nMean c : ℝ) (hc0 : 0 ≤ c) (hc1 : c * S < 1) (hmean : nMean = (c * S) ^ 2 / (1 - (c * S) ^ 2))
    (Q : ℕ → ℕ → ℂ) (hQ : phase N N Q = (Bm (toMatrix N N fun i j => (c : ℂ) * G i * G j))⁻¹) (ρ : (Fin N → ℕ) → (Fin N → ℕ) → ℂ) (hρ : IsFockMatrix N (fun _ => 0) (Covmat N Q hbar) hbar ρ) (n : Fin N → ℕ) :
    ((Law.rankOneSample N G nMean (fun row => if row = List.ofFn n then 1 else 0) : ℝ) : ℂ) = ρ n n := by
  obtain ⟨hsym, hpd, hdet⟩ := rankOne_posDef G S hS c hc0 hc1 _ rfl
  have hSp : 0 ≤ S := hS ▸ Finset.sum_nonneg fun k _ => sq_nonneg _
  have ht2 : (c * S) ^ 2 < 1 := by have := mul_nonneg hc0 hSp; nlinarith
  have hW : (Wmat N (Covmat N Q hbar) hbar).det = (1 - (c * S) ^ 2)⁻¹ := by
    have := graph_det _ hsym hpd Q hQ hbar hh
    rw [hdet, ← Complex.ofReal_inv] at this
    exact Complex.ofReal_injective this
  rw [graph_fock _ hsym hpd Q hQ hbar hh ρ hρ, rankOneSample_law G S hS hS0 nMean c hc0 hc1 hmean n, hW, Complex.mul_conj, Complex.normSq_eq_norm_sq, mul_assoc, Real.mul_self_sqrt (Finset.prod_nonneg fun k _ => by positivity),
    Real.sqrt_inv, ← Complex.ofReal_div]
  congr 1
  have : Real.sqrt (1 - (c * S) ^ 2) ≠ 0 := (Real.sqrt_pos.mpr (by linarith)).ne'
  rw [div_eq_div_iff (Finset.prod_ne_zero_iff.mpr fun k _ => by positivity) (mul_ne_zero (inv_ne_zero this) (Finset.prod_ne_zero_iff.mpr fun k _ => by positivity))]
  generalize Real.sqrt (1 - (c * S) ^ 2) = w at this ⊢
  field_simp

/-- a non-trivial case of the hypotheses -/
example : ∃ (G : ℕ → ℂ) (S c nMean : ℝ), S = ∑ k : Fin 2, ‖G k‖ ^ 2 ∧ S ≠ 0 ∧ 0 < c ∧ c * S < 1 ∧ nMean = (c * S) ^ 2 / (1 - (c * S) ^ 2) ∧ 0 < nMean := by
  refine ⟨fun k => if k = 0 then 1 else Complex.I, 2, 1 / 4, 1 / 3, ?_, by norm_num, by norm_num, by norm_num, by norm_num, by norm_num⟩
  simp [Fin.sum_univ_two]
  norm_num

end Verif.Props
