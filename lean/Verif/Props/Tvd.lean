/-
C74: `tvd_cutoff_bounds` bounds the total variation distance between the photon-number distribution and its truncations.
-/
import Verif.Props.FockReduced

set_option linter.unusedSectionVars false
set_option linter.unusedSimpArgs false

namespace Verif.Props
open Verif.Model Verif.Model.Symp Verif.Model.Conv Verif.Model.Fock Verif.Spec Verif.Lemmas Verif.Lemmas.Symp Verif.Lemmas.FPar Matrix

variable {N : ℕ} {cov : ℕ → ℕ → ℝ} {hbar : ℝ} {mu : ℕ → ℝ} {ρ : (Fin N → ℕ) → (Fin N → ℕ) → ℂ}

/-- the vacuum probability is positive -/
theorem fockMatrix_vacuum (hh : 0 < hbar) (hph : Physical (phase N N cov) hbar) (hρ : IsFockMatrix N mu cov hbar ρ) :
    ρ 0 0 = ((husimiFn N mu cov hbar 0 : ℝ) : ℂ) ∧ 0 < husimiFn N mu cov hbar 0 := by
  constructor
  · have h := hρ 0
    have hz : ∀ i : Fin N → ℕ, i ≠ 0 → cohAmp (0 : Fin N → ℂ) i = 0 := by
      intro i hi
      obtain ⟨k, hk⟩ : ∃ k, i k ≠ 0 := by
        by_contra h0
        push Not at h0
        exact hi (funext h0)
      refine Finset.prod_eq_zero (Finset.mem_univ k) ?_
      simp [hk]
    have h1 := hasSum_single (f := fun p : (Fin N → ℕ) × (Fin N → ℕ) => cohAmp (0 : Fin N → ℂ) p.1 * ρ p.1 p.2 * (starRingEnd ℂ) (cohAmp (0 : Fin N → ℂ) p.2))
      (0, 0) (by
        rintro ⟨i, j⟩ hij
        by_cases hi : i = 0
        · have hj : j ≠ 0 := fun hj => hij (by rw [hi, hj])
          simp [hz j hj]
        · simp [hz i hi])
    have h2 := h1.unique h
    simpa [cohAmp] using h2
  · unfold husimiFn
    have hd := ((fock_W_posDef hph hh).smul (one_div_pos.mpr hh)).det_pos
    have := Real.sqrt_pos.mpr hd
    positivity

theorem tail_hasSum {σ : Type} {p : σ → ℝ} {A : ℝ} (hp : HasSum p A) (c : σ → ℕ) (q : ℕ → ℝ) (hq : ∀ m, HasSum (fun n : {n // c n = m} => p n) (q m)) (k : ℕ) :
    HasSum (fun n : {n // k < c n} => p n) (A - ∑ m ∈ Finset.range (k + 1), q m) := by
  classical
  have h1 : ∀ m ∈ Finset.range (k + 1), HasSum (Set.indicator {n | c n = m} p) (q m) := fun m _ => hasSum_subtype_iff_indicator.mp (hq m)
  have h2 := hp.sub (hasSum_sum h1)
  have h3 : HasSum (Set.indicator {n | k < c n} p) (A - ∑ m ∈ Finset.range (k + 1), q m) := by
    refine hs_eq h2 (fun n => ?_) rfl
    by_cases hn : k < c n
    · have e : ∑ m ∈ Finset.range (k + 1), Set.indicator {n | c n = m} p n = 0 := by
        refine Finset.sum_eq_zero fun m hm => ?_
        rw [Set.indicator_of_notMem]
        intro h
        have h' : c n = m := h
        rw [Finset.mem_range] at hm
        omega
      rw [e, sub_zero, Set.indicator_of_mem (show n ∈ {n | k < c n} from hn)]
    · have e : ∑ m ∈ Finset.range (k + 1), Set.indicator {n | c n = m} p n = p n := by
        rw [Finset.sum_eq_single (c n)]
        · exact Set.indicator_of_mem (show n ∈ {x | c x = c n} from rfl) p
        · intro m _ hm
          exact Set.indicator_of_notMem (show n ∉ {x | c x = m} from fun h => hm (Eq.symm h)) p
        · intro h
          rw [Finset.mem_range] at h
          omega
      rw [e, sub_self, Set.indicator_of_notMem (show n ∉ {n | k < c n} from hn)]
  exact hasSum_subtype_iff_indicator.mpr h3

/-- distance of a distribution from its truncation, and the union bound -/
theorem tvDist_truncated {p : (Fin N → ℕ) → ℝ} (hp : HasSum p 1) (h0 : ∀ n, 0 ≤ p n) (hv : 0 < p 0) (k : ℕ) (b : Fin N → ℝ)
    (hb : ∀ i, HasSum (fun n : {n : Fin N → ℕ // k < n i} => p n) (b i)) :
    tvDist p (truncated p k) = ∑' n : {n : Fin N → ℕ // ∃ i, k < n i}, p n ∧ tvDist p (truncated p k) ≤ ∑ i, b i := by
  classical
  let B : Set (Fin N → ℕ) := {n | ∀ i, n i ≤ k}
  have hc : {n : Fin N → ℕ | ∃ i, k < n i} = Bᶜ := by
    ext n
    simp [B]
  have hsB : Summable fun n : B => p n := hp.summable.subtype B
  have hsC : Summable fun n : (Bᶜ : Set _) => p n := hp.summable.subtype Bᶜ
  set P := ∑' n : B, p n with hP
  set Q := ∑' n : (Bᶜ : Set _), p n with hQ
  have hPQ : P + Q = 1 := by
    rw [hP, hQ, hp.summable.tsum_subtype_add_tsum_subtype_compl B]
    exact hp.tsum_eq
  have hP0 : 0 < P := hsB.tsum_pos (fun n => h0 n) ⟨0, fun i => Nat.zero_le _⟩ hv
  have hQ0 : 0 ≤ Q := tsum_nonneg fun n => h0 n
  have hdiff : ∀ n, |p n - truncated p k n| = (Q / P) * Set.indicator B p n + Set.indicator Bᶜ p n := by
    intro n
    by_cases hn : n ∈ B
    · have hn' : ∀ i, n i ≤ k := hn
      have e : truncated p k n = p n / P := by
        unfold truncated
        rw [if_pos hn', hP]
        rfl
      rw [e, Set.indicator_of_mem hn, Set.indicator_of_notMem (show n ∉ Bᶜ from fun h => h hn), add_zero]
      have : p n - p n / P = -((Q / P) * p n) := by
        field_simp
        linear_combination p n * hPQ
      rw [this, abs_neg, abs_of_nonneg (mul_nonneg (div_nonneg hQ0 hP0.le) (h0 n))]
    · have hn' : ¬ ∀ i, n i ≤ k := hn
      have e : truncated p k n = 0 := by
        unfold truncated
        rw [if_neg hn']
      rw [e, Set.indicator_of_notMem hn, Set.indicator_of_mem (show n ∈ Bᶜ from hn), mul_zero, zero_add, sub_zero, abs_of_nonneg (h0 n)]
  have h1 : HasSum (Set.indicator B p) P := hasSum_subtype_iff_indicator.mp hsB.hasSum
  have h2 : HasSum (Set.indicator Bᶜ p) Q := hasSum_subtype_iff_indicator.mp hsC.hasSum
  have ht : tvDist p (truncated p k) = Q := by
    unfold tvDist
    rw [show (fun n => |p n - truncated p k n|) = fun n => (Q / P) * Set.indicator B p n + Set.indicator Bᶜ p n from funext hdiff,
      ((h1.mul_left (Q / P)).add h2).tsum_eq]
    field_simp
    ring
  have hQ' : Q = ∑' n : {n : Fin N → ℕ // ∃ i, k < n i}, p n := by
    rw [hQ, ← hc]
    rfl
  refine ⟨ht.trans hQ', ?_⟩
  rw [ht]
  have h3 : HasSum (fun n => ∑ i, Set.indicator {n : Fin N → ℕ | k < n i} p n) (∑ i, b i) :=
    hasSum_sum fun i _ => hasSum_subtype_iff_indicator.mp (hb i)
  refine hasSum_le (fun n => ?_) h2 h3
  have hnn : ∀ i ∈ Finset.univ, 0 ≤ Set.indicator {n : Fin N → ℕ | k < n i} p n := fun i _ => Set.indicator_nonneg (fun n _ => h0 n) n
  by_cases hn : n ∈ B
  · rw [Set.indicator_of_notMem (show n ∉ Bᶜ from fun h => h hn)]
    exact Finset.sum_nonneg hnn
  · rw [Set.indicator_of_mem (show n ∈ Bᶜ from hn)]
    have hn' : n ∈ {n : Fin N → ℕ | ∃ i, k < n i} := by rw [hc]; exact hn
    obtain ⟨i, hi⟩ := hn'
    calc p n = Set.indicator {n : Fin N → ℕ | k < n i} p n := (Set.indicator_of_mem (show n ∈ {n : Fin N → ℕ | k < n i} from hi) p).symm
      _ ≤ _ := Finset.single_le_sum hnn (Finset.mem_univ i)

/-- C74. For every physical state, `tvd_cutoff_bounds` returns an array whose entry `k` is the sum over the modes of the probability of more than `k` photons in the
mode, and this number is an upper bound of the total variation distance between the photon-number distribution of the state and its restriction to at most `k`
photons per mode. -/
theorem tvdCutoffBounds_correct {sjunk : ℕ → ℂ} (closeR : ℝ → ℝ → Bool) (s : GState ℝ) (hs : s.len = 2 * N) (zeroMu : ℕ → Bool)
    (hz : ∀ i < N, zeroMu i = true → s.mu i = 0 ∧ s.mu (N + i) = 0) (cutoff : ℕ) (hc : 0 < cutoff) (hc2 : cutoff ≤ 1000) (hbar atol : ℝ) (hh : 0 < hbar)
    (hph : Physical (phase N N s.cov) hbar) (checkValid : Bool) (hv : checkValid = true → Checks.isValidCov closeR s.len s.len s.cov hbar atol = true) :
    ∃ (ρ : (Fin N → ℕ) → (Fin N → ℕ) → ℂ) (bounds : ℕ → ℝ), IsFockMatrix N s.mu s.cov hbar ρ ∧
      tvdCutoffBounds (sqrtTable sjunk) (isClose 0 0) closeR s zeroMu cutoff hbar atol checkValid = .ok bounds ∧
      ∀ k < cutoff, bounds k = ∑ i, (∑' n : {n : Fin N → ℕ // k < n i}, (ρ n n).re) ∧
        tvDist (fun n => (ρ n n).re) (truncated (fun n => (ρ n n).re) k) ≤ bounds k := by
  obtain ⟨ρ, pref, P, -, hρ, -⟩ := fock_gram (N := N) s.mu hh hph
  have hpsd := fock_isPsd hh hph hρ
  have htr := (isFock_iff.mp hρ).trace hpsd (fock_W_posDef hph hh) hh
  -- one mode
  have hone : ∀ i : Fin N, ∃ (r : GState ℝ) (T : MArr ℂ), reducedState s [(i : ℕ)] = .ok r ∧
      densityMatrixAll (sqrtTable sjunk) (isClose 0 0) 1 r.mu r.cov (zeroMu i) cutoff hbar = .ok T ∧
      ∀ m < cutoff, HasSum (fun n : {n : Fin N → ℕ // n i = m} => (ρ n n).re) (T [m, m]).re := by
    intro i
    have hb : ∀ m ∈ [(i : ℕ)], m < N := by simp
    obtain ⟨r, hr, hred⟩ := reducedState_eq N s hs [(i : ℕ)] (by simp) hb
    obtain ⟨ρ', hphr, hρ', hpt⟩ := reduction_trace s r [(i : ℕ)] (by simp) hb hred hh hph hρ
    obtain ⟨ρ'', T, hρ'', hT, hTv⟩ := densityMatrixAll_correct (N := 1) (sjunk := sjunk) r.mu r.cov hbar hh hphr (zeroMu i) (by
      intro h a ha
      have hm := hred.mean 0 (by simp)
      have hzi := hz i i.2 h
      simp only [List.length_singleton, List.getD_cons_zero] at hm
      have : a = 0 ∨ a = 1 := by omega
      rcases this with rfl | rfl
      · rw [hm.1, hzi.1]
      · have := hm.2
        rw [add_zero] at this
        rw [this, hzi.2]) cutoff hc hc2
    obtain rfl : ρ' = ρ'' := fockMatrix_unique hρ' hρ''
    refine ⟨r, T, hr, hT, fun m hm => ?_⟩
    have hd := hTv (fun _ => m) (fun _ => m) (fun _ => hm) (fun _ => hm)
    have e : ((List.finRange 1).flatMap fun k : Fin 1 => [(fun _ : Fin 1 => m) k, (fun _ : Fin 1 => m) k]) = [m, m] := rfl
    rw [e] at hd
    rw [hd]
    have hmar := partialTrace_marginal hpt (fun _ => m)
    have hre := Complex.hasSum_re hmar
    let E : {n : Fin N → ℕ // n i = m} ≃ {n : Fin N → ℕ // (n ∘ fun a : Fin 1 => (⟨[(i : ℕ)][a], hb _ (List.getElem_mem _)⟩ : Fin N)) = fun _ => m} :=
      Equiv.subtypeEquivRight fun n => by
        constructor
        · intro h
          funext a
          fin_cases a
          exact h
        · intro h
          exact congrFun h 0
    exact E.hasSum_iff.mpr hre
  choose! r T hr hT hm using hone
  have htail : ∀ (i : Fin N), ∀ k < cutoff, HasSum (fun n : {n : Fin N → ℕ // k < n i} => (ρ n n).re) (1 - ∑ m ∈ Finset.range (k + 1), (T i [m, m]).re) := by
    intro i k hk
    have hsub : Summable fun n => (ρ n n).re := htr.summable
    have := tail_hasSum htr (fun n => n i) (fun m => ∑' n : {n : Fin N → ℕ // n i = m}, (ρ n n).re) (fun m => (hsub.subtype {n : Fin N → ℕ | n i = m}).hasSum) k
    refine hs_eq this (fun n => rfl) ?_
    congr 1
    refine Finset.sum_congr rfl fun m hmm => ?_
    rw [Finset.mem_range] at hmm
    exact (hm i m (by omega)).tsum_eq.symm
  refine ⟨ρ, fun k => ∑ i : Fin N, (1 - ∑ m ∈ Finset.range (k + 1), (T i [m, m]).re), hρ, ?_, fun k hk => ⟨?_, ?_⟩⟩
  · unfold tvdCutoffBounds
    have hif : (checkValid && !(Checks.isValidCov closeR s.len s.len s.cov hbar atol)) = false := by
      cases hcv : checkValid
      · rfl
      · rw [hv hcv]; rfl
    rw [hif, if_neg (by simp), show s.len / 2 = N by omega]
    have key : ∀ n ≤ N, (List.range n).foldlM (fun (bounds : ℕ → ℝ) i => do
        let r ← reducedState s [i]
        let rho ← densityMatrixAll (sqrtTable sjunk) (isClose 0 0) 1 r.mu r.cov (zeroMu i) cutoff hbar
        pure fun k => bounds k + (1 - ((List.range (k + 1)).map fun n => (rho [n, n]).re).sum)) (fun _ => 0) =
        (Except.ok (fun k => ∑ i : Fin N, if (i : ℕ) < n then (1 - ∑ m ∈ Finset.range (k + 1), (T i [m, m]).re) else 0) : Except PyErr (ℕ → ℝ)) := by
      intro n
      induction n with
      | zero =>
        intro _
        simp [pure, Except.pure]
      | succ n ih =>
        intro hn
        rw [List.range_succ, List.foldlM_append, ih (by omega)]
        have h1 := hr ⟨n, by omega⟩
        have h2 := hT ⟨n, by omega⟩
        simp only [List.foldlM_cons, List.foldlM_nil, bind, Except.bind, pure, Except.pure]
        simp only at h1 h2
        rw [h1]
        dsimp only
        rw [h2]
        dsimp only
        congr 1
        funext k
        have hsum : ((List.range (k + 1)).map fun m => (T ⟨n, by omega⟩ [m, m]).re).sum = ∑ m ∈ Finset.range (k + 1), (T ⟨n, by omega⟩ [m, m]).re := by
          rw [← List.sum_toFinset _ List.nodup_range, List.toFinset_range]
        rw [hsum]
        have hsplit : ∀ i : Fin N, (if (i : ℕ) < n + 1 then (1 - ∑ m ∈ Finset.range (k + 1), (T i [m, m]).re) else 0) =
            (if (i : ℕ) < n then (1 - ∑ m ∈ Finset.range (k + 1), (T i [m, m]).re) else 0) +
              (if i = (⟨n, by omega⟩ : Fin N) then (1 - ∑ m ∈ Finset.range (k + 1), (T i [m, m]).re) else 0) := by
          intro i
          rcases lt_trichotomy (i : ℕ) n with h | h | h
          · rw [if_pos (by omega), if_pos h, if_neg (by rw [Fin.ext_iff]; simp; omega), add_zero]
          · rw [if_pos (by omega), if_neg (by omega), if_pos (Fin.ext h), zero_add]
          · rw [if_neg (by omega), if_neg (by omega), if_neg (by rw [Fin.ext_iff]; simp; omega), add_zero]
        simp only [hsplit, Finset.sum_add_distrib, Finset.sum_ite_eq', Finset.mem_univ, if_true]
    rw [key N le_rfl]
    congr 1
    funext k
    exact Finset.sum_congr rfl fun i _ => if_pos i.2
  · exact Finset.sum_congr rfl fun i _ => (htail i k hk).tsum_eq.symm
  · have hvac := fockMatrix_vacuum hh hph hρ
    exact (tvDist_truncated htr (fun n => (hpsd.diag n).1) (by rw [hvac.1, Complex.ofReal_re]; exact hvac.2) k _ fun i => htail i k hk).2

/-- the hypotheses hold for a coherent state of two modes -/
example {sjunk : ℕ → ℂ} (closeR : ℝ → ℝ → Bool) : ∃ (ρ : (Fin 2 → ℕ) → (Fin 2 → ℕ) → ℂ) (bounds : ℕ → ℝ),
    IsFockMatrix 2 (fun i => if i = 0 then 3 else 0) (vacuumState 2 2).cov 2 ρ ∧
    tvdCutoffBounds (sqrtTable sjunk) (isClose 0 0) closeR { len := 4, mu := fun i => if i = 0 then 3 else 0, cov := (vacuumState 2 (2 : ℝ)).cov } (fun i => i = 1) 7 2 0 false =
      .ok bounds ∧
    ∀ k < 7, bounds k = ∑ i, (∑' n : {n : Fin 2 → ℕ // k < n i}, (ρ n n).re) ∧
        tvDist (fun n => (ρ n n).re) (truncated (fun n => (ρ n n).re) k) ≤ bounds k :=
  tvdCutoffBounds_correct closeR { len := 4, mu := fun i => if i = 0 then 3 else 0, cov := (vacuumState 2 (2 : ℝ)).cov } rfl (fun i => i = 1)
    (by intro i hi h; simp at h; subst h; simp) 7 (by norm_num) (by norm_num) 2 0 (by norm_num) (physical_vacuum 2 2 (by norm_num)).1 false (by simp)

end Verif.Props
