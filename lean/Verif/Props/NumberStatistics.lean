/-
C94: the photon-number statistics the library computes are those of the photon-number distribution of the density matrix.
-/
import Verif.Props.FockMoments
import Verif.Props.Cumulant
import Mathlib.LinearAlgebra.Basis.VectorSpace

set_option linter.unusedSectionVars false
set_option linter.unusedSimpArgs false

namespace Verif.Props
open Verif.Model Verif.Model.Symp Verif.Model.Conv Verif.Model.Means Verif.Spec Verif.Lemmas Verif.Lemmas.Symp Verif.Lemmas.FPar Verif.Lemmas.FockS Matrix

variable {N : ℕ} {hbar : ℝ}

/-- **C94** the factorial moments of the photon-number distribution of a Gaussian state (the diagonal of its density matrix) are the normally ordered moments given by Wick's theorem. -/
theorem factorial_moments (hh : 0 < hbar) (mu : ℕ → ℝ) (cov : ℕ → ℕ → ℝ) (hph : Physical (phase N N cov) hbar) (ρ : (Fin N → ℕ) → (Fin N → ℕ) → ℂ) (hρ : IsFockMatrix N mu cov hbar ρ) (m : Fin N → ℕ) :
    HasSum (fun n : Fin N → ℕ => (∏ k, ((n k).descFactorial (m k) : ℂ)) * ρ n n) (moment N mu cov hbar 1 (repeatedIndices (List.ofFn m ++ List.ofFn m))) := by
  have h := fock_moments hh mu cov hph ρ hρ m m
  rw [← Function.Injective.hasSum_iff (g := fun l : Fin N → ℕ => m + l) (add_right_injective m)]
  · refine hs_eq h (fun l => ?_) rfl
    rw [Function.comp_apply]
    congr 1
    rw [ladderWt, Complex.ofReal_prod]
    refine Finset.prod_congr rfl fun k _ => ?_
    have e : ((m k + l k).descFactorial (m k) : ℝ) = ((m k + l k).factorial : ℝ) / ((l k).factorial : ℝ) := by
      rw [eq_div_iff (by positivity)]
      have := Nat.factorial_mul_descFactorial (Nat.le_add_right (m k) (l k))
      rw [Nat.add_sub_cancel_left] at this
      rw [mul_comm]
      exact_mod_cast this
    rw [Real.sqrt_mul_self (by positivity), ← e, Complex.ofReal_natCast, Pi.add_apply]
  · intro n hn
    obtain ⟨k, hk⟩ : ∃ k, n k < m k := by
      by_contra hc
      push Not at hc
      exact hn ⟨n - m, funext fun k => by simp [hc k]⟩
    rw [Finset.prod_eq_zero (Finset.mem_univ k) (by rw [Nat.descFactorial_of_lt hk, Nat.cast_zero]), zero_mul]

/-- photon numbers of the modes `0, …, N-1` as a sequence -/
def numSeq (n : Fin N → ℕ) : ℕ → ℕ := fun k => if h : k < N then n ⟨k, h⟩ else 0

theorem numSeq_fin (n : Fin N → ℕ) (k : Fin N) : numSeq n k = n k := by simp [numSeq]

/-- polynomials of the photon numbers have expectation values -/
theorem number_summable (hh : 0 < hbar) (mu : ℕ → ℝ) (cov : ℕ → ℕ → ℝ) (hph : Physical (phase N N cov) hbar) (ρ : (Fin N → ℕ) → (Fin N → ℕ) → ℂ) (hρ : IsFockMatrix N mu cov hbar ρ) (e : Fin N → ℕ) :
    Summable fun n : Fin N → ℕ => (∏ k, (n k : ℂ) ^ e k) * ρ n n := by
  have h : ∀ n : Fin N → ℕ, (∏ k, (n k : ℂ) ^ e k) * ρ n n = ∑ m ∈ Fintype.piFinset fun k => Finset.range (e k + 1), (∏ k, coeffNormalOrdered (e k) (m k)) * ((∏ k, ((n k).descFactorial (m k) : ℂ)) * ρ n n) := by
    intro n
    simp only [pow_eq_coeff_sum]
    rw [Finset.prod_univ_sum, Finset.sum_mul]
    refine Finset.sum_congr rfl fun m _ => ?_
    rw [Finset.prod_mul_distrib, mul_assoc]
  simp only [h]
  exact summable_sum fun m _ => (factorial_moments hh mu cov hph ρ hρ m).summable.mul_left _

theorem number_summable_list (hh : 0 < hbar) (mu : ℕ → ℝ) (cov : ℕ → ℕ → ℝ) (hph : Physical (phase N N cov) hbar) (ρ : (Fin N → ℕ) → (Fin N → ℕ) → ℂ) (hρ : IsFockMatrix N mu cov hbar ρ) (L : List (ℕ × ℕ)) (hL : ∀ p ∈ L, p.1 < N) :
    Summable fun n : Fin N → ℕ => (L.map fun p => (numSeq n p.1 : ℂ) ^ p.2).prod * ρ n n := by
  obtain ⟨e, he⟩ : ∃ e : Fin N → ℕ, ∀ n : Fin N → ℕ, (L.map fun p => (numSeq n p.1 : ℂ) ^ p.2).prod = ∏ k, (n k : ℂ) ^ e k := by
    induction L with
    | nil => exact ⟨fun _ => 0, fun n => by simp⟩
    | cons p L ih =>
      obtain ⟨e, he⟩ := ih fun q hq => hL q (by simp [hq])
      have hp : p.1 < N := hL p (by simp)
      refine ⟨fun k => e k + if k = ⟨p.1, hp⟩ then p.2 else 0, fun n => ?_⟩
      rw [List.map_cons, List.prod_cons, he]
      simp only [pow_add, Finset.prod_mul_distrib, Finset.prod_pow_boole, pow_ite, pow_zero, Finset.prod_ite_eq', Finset.mem_univ, if_true]
      rw [mul_comm, numSeq, dif_pos hp]
  simp only [he]
  exact number_summable hh mu cov hph ρ hρ e

/-- the expectation functional of the photon-number distribution -/
theorem fock_stats (hh : 0 < hbar) (mu : ℕ → ℝ) (cov : ℕ → ℕ → ℝ) (hph : Physical (phase N N cov) hbar) (ρ : (Fin N → ℕ) → (Fin N → ℕ) → ℂ) (hρ : IsFockMatrix N mu cov hbar ρ) :
    ∃ E : ((ℕ → ℕ) → ℂ) →ₗ[ℂ] ℂ, NumberStats N mu cov hbar E ∧ ∀ f : (ℕ → ℕ) → ℂ, Summable (fun n : Fin N → ℕ => f (numSeq n) * ρ n n) → HasSum (fun n : Fin N → ℕ => f (numSeq n) * ρ n n) (E f) := by
  let W : Submodule ℂ ((ℕ → ℕ) → ℂ) :=
    { carrier := {f | Summable fun n : Fin N → ℕ => f (numSeq n) * ρ n n}
      add_mem' := fun {f g} hf hg => (hf.add hg).congr fun n => by rw [Pi.add_apply, add_mul]
      zero_mem' := summable_zero.congr fun n => by rw [Pi.zero_apply, zero_mul]
      smul_mem' := fun c f hf => (hf.mul_left c).congr fun n => by rw [Pi.smul_apply, smul_eq_mul, mul_assoc] }
  let T : W →ₗ[ℂ] ℂ :=
    { toFun := fun f => ∑' n : Fin N → ℕ, f.1 (numSeq n) * ρ n n
      map_add' := fun f g => by
        rw [← f.2.tsum_add g.2]
        exact tsum_congr fun n => add_mul _ _ _
      map_smul' := fun c f => by
        rw [RingHom.id_apply, smul_eq_mul, ← tsum_mul_left]
        exact tsum_congr fun n => mul_assoc _ _ _ }
  obtain ⟨E, hE⟩ := LinearMap.exists_extend T
  have hEf : ∀ f : (ℕ → ℕ) → ℂ, Summable (fun n : Fin N → ℕ => f (numSeq n) * ρ n n) → HasSum (fun n : Fin N → ℕ => f (numSeq n) * ρ n n) (E f) := by
    intro f hf
    have e : E f = T ⟨f, hf⟩ := by rw [← hE]; rfl
    rw [e]
    exact hf.hasSum
  refine ⟨E, fun k hk => ?_, hEf⟩
  have h := factorial_moments hh mu cov hph ρ hρ fun j : Fin N => k.getD j 0
  have hofn : List.ofFn (fun j : Fin N => k.getD j 0) = k := by
    subst hk
    exact List.ext_getElem (by simp) fun i h1 h2 => by simp
  rw [hofn] at h
  have e : ∀ n : Fin N → ℕ, (∏ j, ((n j).descFactorial (k.getD j 0) : ℂ)) * ρ n n = (∏ j ∈ Finset.range N, ((numSeq n j).descFactorial (k.getD j 0) : ℂ)) * ρ n n := fun n => by
    rw [Finset.prod_range]
    simp only [numSeq_fin]
  simp only [e] at h
  exact (hEf (fun n => ∏ j ∈ Finset.range N, ((n j).descFactorial (k.getD j 0) : ℂ)) h.summable).unique h

/-- `v` is the expectation value `Σ_n f(n) ⟨n|ρ|n⟩` of the function `f` of the photon numbers -/
def MeanOf (ρ : (Fin N → ℕ) → (Fin N → ℕ) → ℂ) (f : (Fin N → ℕ) → ℂ) (v : ℂ) : Prop := HasSum (fun n => f n * ρ n n) v

/-- **C94** `photon_number_moment` returns `Σ_n (∏_j n_j^{p_j}) p(n)` over the photon-number distribution `p(n) = ⟨n|ρ|n⟩` of the state, for positive exponents. -/
theorem photonNumberMoment_fock (hh : 0 < hbar) (st : GState ℝ) (hs : st.len = 2 * N) (hph : Physical (phase N N st.cov) hbar) (ρ : (Fin N → ℕ) → (Fin N → ℕ) → ℂ) (hρ : IsFockMatrix N st.mu st.cov hbar ρ)
    (indices : List (ℕ × ℕ)) (hn : (indices.map Prod.fst).Nodup) (hb : ∀ p ∈ indices, p.1 < N) (hp : ∀ p ∈ indices, p.2 ≠ 0) :
    ∃ v : ℂ, photonNumberMoment isZero (isClose 0 0) st indices hbar = .ok v ∧ MeanOf ρ (fun n => (indices.map fun p => (numSeq n p.1 : ℂ) ^ p.2).prod) v := by
  obtain ⟨E, hE, hEf⟩ := fock_stats hh st.mu st.cov hph ρ hρ
  have e := photonNumberMoment_partial N st hs (physical_sym hph) hbar E hE indices hn hb hp
  have h := number_summable_list hh st.mu st.cov hph ρ hρ indices hb
  have h2 := hEf fun n => (indices.map fun p => (n p.1 : ℂ) ^ p.2).prod
  beta_reduce at h2
  refine ⟨_, e, ?_⟩
  refine h2 ?_
  exact h

theorem number_summable_modes (hh : 0 < hbar) (mu : ℕ → ℝ) (cov : ℕ → ℕ → ℝ) (hph : Physical (phase N N cov) hbar) (ρ : (Fin N → ℕ) → (Fin N → ℕ) → ℂ) (hρ : IsFockMatrix N mu cov hbar ρ) (c : ℕ) (L : List ℕ) (hL : ∀ p ∈ L, p < N) :
    Summable fun n : Fin N → ℕ => (L.map fun p => (numSeq n p : ℂ) ^ c).prod * ρ n n := by
  have h := number_summable_list hh mu cov hph ρ hρ (L.map fun p => (p, c)) fun p hp => by
    obtain ⟨q, hq, rfl⟩ := List.mem_map.mp hp
    exact hL q hq
  refine h.congr fun n => ?_
  rw [List.map_map]
  rfl

/-- **C94** `photon_number_expectation` of distinct modes is `Σ_n (∏_j n_j) p(n)`. -/
theorem photonNumberExpectation_fock (hh : 0 < hbar) (st : GState ℝ) (hs : st.len = 2 * N) (hph : Physical (phase N N st.cov) hbar) (ρ : (Fin N → ℕ) → (Fin N → ℕ) → ℂ) (hρ : IsFockMatrix N st.mu st.cov hbar ρ)
    (modes : List ℕ) (hn : modes.Nodup) (hb : ∀ m ∈ modes, m < N) :
    ∃ v : ℂ, photonNumberExpectation isZero (isClose 0 0) st modes hbar = .ok v ∧ MeanOf ρ (fun n => (modes.map fun j => (numSeq n j : ℂ)).prod) v := by
  obtain ⟨E, hE, hEf⟩ := fock_stats hh st.mu st.cov hph ρ hρ
  refine ⟨_, photonNumberExpectation_correct N st hs (physical_sym hph) hbar E hE modes hn hb, hEf (fun n => (modes.map fun j => (n j : ℂ)).prod) ?_⟩
  simpa only [pow_one] using number_summable_modes hh st.mu st.cov hph ρ hρ 1 modes hb

/-- **C94** `photon_number_squared_expectation` of distinct modes is `Σ_n (∏_j n_j²) p(n)`. -/
theorem photonNumberSquared_fock (hh : 0 < hbar) (st : GState ℝ) (hs : st.len = 2 * N) (hph : Physical (phase N N st.cov) hbar) (ρ : (Fin N → ℕ) → (Fin N → ℕ) → ℂ) (hρ : IsFockMatrix N st.mu st.cov hbar ρ)
    (modes : List ℕ) (hne : modes ≠ []) (hn : modes.Nodup) (hb : ∀ m ∈ modes, m < N) :
    ∃ v : ℂ, photonNumberSquared isZero (isClose 0 0) st modes hbar = .ok v ∧ MeanOf ρ (fun n => (modes.map fun j => (numSeq n j : ℂ) ^ 2).prod) v := by
  obtain ⟨E, hE, hEf⟩ := fock_stats hh st.mu st.cov hph ρ hρ
  exact ⟨_, photonNumberSquared_correct N st hs (physical_sym hph) hbar E hE modes hne hn hb, hEf (fun n => (modes.map fun j => (n j : ℂ) ^ 2).prod) (number_summable_modes hh st.mu st.cov hph ρ hρ 2 modes hb)⟩

theorem numberMean_fock (hh : 0 < hbar) (mu : ℕ → ℝ) (cov : ℕ → ℕ → ℝ) (hph : Physical (phase N N cov) hbar) (ρ : (Fin N → ℕ) → (Fin N → ℕ) → ℂ) (hρ : IsFockMatrix N mu cov hbar ρ) (j : Fin N) :
    HasSum (fun n : Fin N → ℕ => (n j : ℂ) * ρ n n) (numberMean N mu cov hbar j) := by
  obtain ⟨E, hE, hEf⟩ := fock_stats hh mu cov hph ρ hρ
  rw [numberMean_stats N mu cov (physical_sym hph) hbar E hE j j.2]
  have h := hEf (fun n => (n j : ℂ)) (by simpa using number_summable_list hh mu cov hph ρ hρ [((j : ℕ), 1)] (by simp))
  simpa only [numSeq_fin] using h

theorem numberCorr_fock (hh : 0 < hbar) (mu : ℕ → ℝ) (cov : ℕ → ℕ → ℝ) (hph : Physical (phase N N cov) hbar) (ρ : (Fin N → ℕ) → (Fin N → ℕ) → ℂ) (hρ : IsFockMatrix N mu cov hbar ρ) (j k : Fin N) :
    HasSum (fun n : Fin N → ℕ => (n j : ℂ) * (n k : ℂ) * ρ n n) (numberCorr N mu cov hbar j k) := by
  obtain ⟨E, hE, hEf⟩ := fock_stats hh mu cov hph ρ hρ
  rw [numberCorr_stats N mu cov (physical_sym hph) hbar E hE j k j.2 k.2]
  have h := hEf (fun n => (n j : ℂ) * (n k : ℂ)) (by simpa using number_summable_list hh mu cov hph ρ hρ [((j : ℕ), 1), ((k : ℕ), 1)] (by simp))
  simpa only [numSeq_fin] using h

/-- **C94** `photon_number_mean` is `Σ_n n_j p(n)`. -/
theorem photonNumberMean_fock (hh : 0 < hbar) (st : GState ℝ) (hs : st.len = 2 * N) (hph : Physical (phase N N st.cov) hbar) (ρ : (Fin N → ℕ) → (Fin N → ℕ) → ℂ) (hρ : IsFockMatrix N st.mu st.cov hbar ρ)
    (j : Fin N) : ∃ v : ℝ, photonNumberMean st j hbar = .ok v ∧ HasSum (fun n : Fin N → ℕ => (n j : ℝ) * (ρ n n).re) v := by
  obtain ⟨v, e, h⟩ := photonNumberMean_correct N st hs (physical_sym hph) hbar hh j j.2
  refine ⟨v, e, ?_⟩
  have := Complex.hasSum_re (numberMean_fock hh st.mu st.cov hph ρ hρ j)
  rw [← h, Complex.ofReal_re] at this
  exact hs_eq this (fun n => by rw [← Complex.ofReal_natCast, Complex.re_ofReal_mul]) rfl

/-- **C94** `photon_number_covmat` (hence `photon_number_covar`) is the covariance matrix of the photon-number distribution: `Σ_n n_j n_k p(n) - (Σ_n n_j p(n)) (Σ_n n_k p(n))`, where `photon_number_mean_vector`
lists the means. -/
theorem photonNumberCovmat_fock (hh : 0 < hbar) (st : GState ℝ) (hs : st.len = 2 * N) (hph : Physical (phase N N st.cov) hbar) (ρ : (Fin N → ℕ) → (Fin N → ℕ) → ℂ) (hρ : IsFockMatrix N st.mu st.cov hbar ρ) :
    ∃ C m, photonNumberCovmat st hbar = .ok C ∧ photonNumberMeanVector st hbar = .ok m ∧ m.length = N ∧
      (∀ j : Fin N, HasSum (fun n : Fin N → ℕ => (n j : ℝ) * (ρ n n).re) (m.getD j 0)) ∧
      ∀ j k : Fin N, HasSum (fun n : Fin N → ℕ => (n j : ℝ) * (n k : ℝ) * (ρ n n).re) (C j k + m.getD j 0 * m.getD k 0) := by
  obtain ⟨C, eC, -, hC⟩ := photonNumberCovmat_correct N st hs (physical_sym hph) hbar hh
  obtain ⟨m, em, hm⟩ := photonNumberMeanVector_correct N st hs (physical_sym hph) hbar hh
  have hlen : m.length = N := by
    have := congrArg List.length hm
    simpa using this
  have hval : ∀ j : Fin N, ((m.getD j 0 : ℝ) : ℂ) = numberMean N st.mu st.cov hbar j := fun j => by
    have hj : (j : ℕ) < m.length := by rw [hlen]; exact j.2
    have h1 : (m.map (fun x : ℝ => (x : ℂ)))[(j : ℕ)]? = ((List.range N).map (numberMean N st.mu st.cov hbar))[(j : ℕ)]? := by rw [hm]
    rw [List.getElem?_map, List.getElem?_map, List.getElem?_range j.2, List.getElem?_eq_getElem hj] at h1
    rw [List.getD_eq_getElem _ _ hj]
    simpa using h1
  refine ⟨C, m, eC, em, hlen, fun j => ?_, fun j k => ?_⟩
  · have := Complex.hasSum_re (numberMean_fock hh st.mu st.cov hph ρ hρ j)
    rw [← hval, Complex.ofReal_re] at this
    exact hs_eq this (fun n => by rw [← Complex.ofReal_natCast, Complex.re_ofReal_mul]) rfl
  · have := Complex.hasSum_re (numberCorr_fock hh st.mu st.cov hph ρ hρ j k)
    have e : numberCorr N st.mu st.cov hbar j k = ((C j k + m.getD j 0 * m.getD k 0 : ℝ) : ℂ) := by
      rw [Complex.ofReal_add, Complex.ofReal_mul, hC j j.2 k k.2, hval, hval, sub_add_cancel]
    rw [e, Complex.ofReal_re] at this
    exact hs_eq this (fun n => by rw [← Complex.ofReal_natCast, ← Complex.ofReal_natCast, ← Complex.ofReal_mul, Complex.re_ofReal_mul]) rfl

/-- **C94** `photon_number_cumulant` is the joint cumulant of the photon numbers in the photon-number distribution of the state. -/
theorem photonNumberCumulant_fock (hh : 0 < hbar) (st : GState ℝ) (hs : st.len = 2 * N) (hph : Physical (phase N N st.cov) hbar) (ρ : (Fin N → ℕ) → (Fin N → ℕ) → ℂ) (hρ : IsFockMatrix N st.mu st.cov hbar ρ)
    (modes : List ℕ) (hne : modes ≠ []) (hb : ∀ m ∈ modes, m < N) :
    ∃ M : Finset (Fin modes.length) → ℂ, (∀ B, MeanOf ρ (fun n => ∏ i ∈ B, (numSeq n modes[i] : ℂ)) (M B)) ∧
      photonNumberCumulant isZero (isClose 0 0) st modes hbar
        = .ok (∑ Q : Finpartition (Finset.univ : Finset (Fin modes.length)), ((Q.parts.card - 1).factorial : ℂ) * (-1) ^ (Q.parts.card - 1) * ∏ B ∈ Q.parts, M B) := by
  obtain ⟨E, hE, hEf⟩ := fock_stats hh st.mu st.cov hph ρ hρ
  refine ⟨fun B => E fun n => ∏ i ∈ B, (n modes[i] : ℂ), fun B => hEf (fun n => ∏ i ∈ B, (n modes[i] : ℂ)) ?_, photonNumberCumulant_correct N st hs (physical_sym hph) hbar E hE modes hne hb⟩
  have h := number_summable_list hh st.mu st.cov hph ρ hρ (B.toList.map fun i => (modes[i], 1)) fun p hp => by
    obtain ⟨i, -, rfl⟩ := List.mem_map.mp hp
    exact hb _ (List.getElem_mem _)
  refine h.congr fun n => ?_
  rw [List.map_map]
  congr 1
  rw [← Finset.prod_map_toList]
  simp [Function.comp_def]

/-- the hypotheses are met: two modes in an entangled state -/
example : ∃ (st : GState ℝ) (ρ : (Fin 2 → ℕ) → (Fin 2 → ℕ) → ℂ), st.len = 2 * 2 ∧ Physical (phase 2 2 st.cov) 2 ∧ IsFockMatrix 2 st.mu st.cov 2 ρ := by
  have hph := (physical_iff_spectrum _ 2 (by norm_num) _ tmsExample_spec).mpr fun _ => by norm_num
  obtain ⟨ρ, _, _, -, hρ, -⟩ := fock_gram (N := 2) (fun k => (k : ℝ)) (by norm_num) hph
  exact ⟨⟨4, fun k => (k : ℝ), _⟩, ρ, rfl, hph, hρ⟩

end Verif.Props
