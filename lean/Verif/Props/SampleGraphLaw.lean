/-
C95: the rows that `hafnian_sample_graph` returns.
-/
import Verif.Props.SampleStateLaw
import Verif.Props.AdjacencyFock
import Verif.Model.SampleGraphs

set_option linter.style.longLine false
set_option linter.unusedSectionVars false
set_option linter.unusedSimpArgs false

namespace Verif.Props
open Verif.Model Verif.Model.Symp Verif.Model.Conv Verif.Model.Means Verif.Model.Smp Verif.Model.Dec Verif.Model.Checks Verif.Spec Verif.Lemmas Verif.Lemmas.Symp
  Verif.Lemmas.FockS Verif.Lemmas.Outc Verif.Lemmas.Chain Verif.Lemmas.GInt Verif.Lemmas.Rej Matrix MeasureTheory

/-- the symplectic eigenvalues of a pure state -/
theorem pure_spectrum {N : ℕ} (V : Matrix (Fin N ⊕ Fin N) (Fin N ⊕ Fin N) ℝ) (hph : Physical V 2) (hd : V.det = 1) (ν : Fin N → ℝ) (h : SympSpectrum V ν) (i : Fin N) :
    ν i = 1 := by
  have h1 := (physical_iff_spectrum V 2 (by norm_num) ν h).mp hph
  obtain ⟨hp, S, hS, e⟩ := h
  rw [e, det_mul, det_mul, det_transpose, SymplecticGroup.det_eq_one hS, one_mul, mul_one, det_diagonal, Fintype.prod_sum_type] at hd
  simp only [Sum.elim_inl, Sum.elim_inr] at hd
  have h2 : ∀ j, 1 ≤ ν j := fun j => by have := h1 j; norm_num at this; exact this
  have h3 : ∏ j, ν j = 1 := by
    have : 0 < ∏ j, ν j := Finset.prod_pos fun j _ => hp j
    nlinarith
  have h4 : ∏ j, ν j = ν i * ∏ j ∈ Finset.univ.erase i, ν j := (Finset.mul_prod_erase _ _ (Finset.mem_univ i)).symm
  have h5 : 1 ≤ ∏ j ∈ Finset.univ.erase i, ν j := Finset.prod_induction ν (fun z => 1 ≤ z) (fun a b ha hb => by nlinarith) le_rfl fun j _ => h2 j
  have := h2 i
  rw [h3] at h4
  nlinarith

/-- the random numbers for which `hafnian_sample_graph` ends and returns the rows `ts` -/
def returnsGraphRows (alib : Adj.Lib) (lib : Lib) (n : ℕ) (A : CArr) (nMean : ℝ) (cutoff maxPhotons : ℕ) (ts : List (Fin n → ℕ)) : Set (ℕ → RoundDraws n) :=
  {ω | ∃ fuel k, hafnianSampleGraph alib (withStream lib ω) fuel n n A nMean ts.length cutoff maxPhotons 0 = .ok (ts.map List.ofFn, k)}

/-- the weight of the pattern `t`: `|haf(M_t)|² / t!`, where `M_t` repeats row and column `k` of `M` `t_k` times -/
noncomputable def graphWeight {n : ℕ} (M : CArr) (t : Fin n → ℕ) : ℝ :=
  ‖Spec.haf (repeatedMatrix M (List.ofFn t))‖ ^ 2 / ∏ k, ((t k).factorial : ℝ)

theorem hafnianSampleGraph_run (alib : Adj.Lib) (lib : Lib) (fuel n m : ℕ) (A : CArr) (nMean : ℝ) (samples cutoff maxPhotons : ℕ) (Q : CArr) (hQ : Adj.adjToQmat alib n m A nMean = .ok Q) :
    hafnianSampleGraph alib lib fuel n m A nMean samples cutoff maxPhotons =
      hafnianSampleState lib fuel (.arr (2 * n) (2 * n) fun i j => some (Covmat n Q 2 i j)) samples (fun _ => 0) 2 cutoff maxPhotons := by
  unfold hafnianSampleGraph
  rw [hQ]
  rfl

theorem hafnianSampleGraph_raises (alib : Adj.Lib) (lib : Lib) (fuel n m : ℕ) (A : CArr) (nMean : ℝ) (samples cutoff maxPhotons c : ℕ) (e : PyErr) (h : Adj.adjToQmat alib n m A nMean = .error e) :
    hafnianSampleGraph alib lib fuel n m A nMean samples cutoff maxPhotons c = .error e := by
  unfold hafnianSampleGraph
  rw [h]
  rfl

/-- C95: for every symmetric `A` whose largest singular value exceeds `1e-7`, every admissible mean photon number, every largest photon number and every list of rows
with at most that many photons, the probability that `hafnian_sample_graph` returns these rows tends, as the cutoff grows, to the product over the rows of
`|haf((xA)_t)|²/t! / Σ_m |haf((xA)_m)|²/m!`, the sum over the patterns with at most `max_photons` photons: the rows are independent samples of the distribution of
the graph conditioned on the photon number.  `x` is the scaling of `adj_scaling`. -/
theorem hafnianSampleGraph_limit (alib : Adj.Lib) (hsvd : SvdContract alib.svd) (hroot : RootContract alib.rootScalar) (lib : Lib) (hl : GoodSampler lib) (htol : 0 ≤ lib.tol)
    (n : ℕ) (hn : 0 < n) (A : CArr) (hA : ∀ i < n, ∀ j < n, A i j = A j i) (nMean : ℝ) (hs : 1e-7 < (alib.svd n A).2.1 0) (h0 : 0 ≤ nMean)
    (hmax : nMean ≤ 499 ∨ nMean ≤ reach ((alib.svd n A).2.1 0)) (maxPhotons : ℕ) (ts : List (Fin n → ℕ)) (hts : ts ≠ []) (htp : ∀ t ∈ ts, ∑ i, t i ≤ maxPhotons) :
    ∃ x, Adj.adjScaling alib n A nMean = .ok x ∧
      Filter.Tendsto (fun cutoff => (streamLaw n).real (returnsGraphRows alib lib n A nMean cutoff maxPhotons ts)) Filter.atTop
        (nhds (ts.map fun t => graphWeight (fun a b => (x : ℂ) * A a b) t / ∑' m : {m : Fin n → ℕ // ∑ i, m i ≤ maxPhotons}, graphWeight (fun a b => (x : ℂ) * A a b) m.1).prod) := by
  obtain ⟨x, Q, hx, hQ, hx0, -, -, hst, -⟩ := adjToQmat_correct alib hsvd hroot n hn A hA nMean hs h0 hmax
  obtain ⟨x', Q', hx', hQ', hfock⟩ := adjToQmat_fock alib hsvd hroot n hn A hA nMean hs h0 hmax
  obtain rfl : x = x' := Except.ok.inj (hx.symm.trans hx')
  obtain rfl : Q = Q' := Except.ok.inj (hQ.symm.trans hQ')
  obtain ⟨hph, hdet, -, -⟩ := hst 2 (by norm_num)
  rw [div_self (by norm_num), one_smul] at hdet
  obtain ⟨ρ, _, _, -, hρ, -⟩ := fock_gram (N := n) (fun _ => 0) (by norm_num : (0 : ℝ) < 2) hph
  have hF := hfock 2 (by norm_num) ρ hρ
  set P : ℝ := ∏ k ∈ Finset.range n, Real.sqrt (1 - (x * (alib.svd n A).2.1 k) ^ 2) with hP
  have hd : ∀ t, (ρ t t).re = P * graphWeight (fun a b => (x : ℂ) * A a b) t := by
    intro t
    rw [hF t t, Complex.mul_conj, Real.mul_self_sqrt (Finset.prod_nonneg fun _ _ => Nat.cast_nonneg _), ← Complex.ofReal_mul, ← Complex.ofReal_div, Complex.ofReal_re, graphWeight,
      Complex.normSq_eq_norm_sq, mul_div_assoc]
  have hP0 : P ≠ 0 := by
    intro h
    obtain ⟨h1, h2⟩ := fockMatrix_vacuum (by norm_num) hph hρ
    have h3 := hd 0
    rw [h, zero_mul, h1, Complex.ofReal_re] at h3
    exact h2.ne' h3
  refine ⟨x, hx, ?_⟩
  have hlim := hafnianSampleState_limit lib hl htol n hn.ne' (fun _ => 0) (Covmat n Q 2) hph (fun ν hν i => Or.inl (pure_spectrum _ hph hdet ν hν i)) maxPhotons ρ hρ ts hts htp
  have e1 : ∀ cutoff, returnsGraphRows alib lib n A nMean cutoff maxPhotons ts = returnsRows lib n (fun _ => 0) (Covmat n Q 2) cutoff maxPhotons ts := by
    intro cutoff
    unfold returnsGraphRows returnsRows
    simp only [hafnianSampleGraph_run alib _ _ n n A nMean _ cutoff maxPhotons Q hQ]
  simp only [e1]
  have e2 : (fun t : Fin n → ℕ => (ρ t t).re / ∑' m : {m : Fin n → ℕ // ∑ i, m i ≤ maxPhotons}, (ρ m m).re) = fun t =>
      graphWeight (fun a b => (x : ℂ) * A a b) t / ∑' m : {m : Fin n → ℕ // ∑ i, m i ≤ maxPhotons}, graphWeight (fun a b => (x : ℂ) * A a b) m.1 := by
    funext t
    simp only [hd]
    rw [tsum_mul_left, mul_div_mul_left _ _ hP0]
  rw [e2] at hlim
  exact hlim

/-- C95: `hafnian_sample_graph` of an array that is not square raises `ValueError`; with `parallel=True` on macOS it raises `NotImplementedError`. -/
theorem hafnianSampleGraph_nonsquare (alib : Adj.Lib) (lib : Lib) (libs : ℕ → Lib) (fuel n m : ℕ) (h : n ≠ m) (A : CArr) (nMean : ℝ) (samples cutoff maxPhotons c : ℕ) :
    hafnianSampleGraph alib lib fuel n m A nMean samples cutoff maxPhotons c = .error .valueError ∧
      hafnianSampleGraphParallel alib libs fuel false n m A nMean samples cutoff maxPhotons = .error .valueError ∧
      hafnianSampleGraphParallel alib libs fuel true n m A nMean samples cutoff maxPhotons = .error .notImplemented := by
  have h1 := adjToQmat_nonsquare alib n m h A nMean
  refine ⟨hafnianSampleGraph_raises _ _ _ _ _ _ _ _ _ _ _ _ h1, ?_, rfl⟩
  unfold hafnianSampleGraphParallel
  rw [h1]
  rfl

/-- A concrete case: one edge, mean photon number 3, at most 6 photons: the row with two photons in each mode, and the row without photons. -/
example : ∃ (alib : Adj.Lib) (lib : Lib) (x : ℝ), Adj.adjScaling alib 2 (fun i j => if i = j then 0 else 1) 3 = .ok x ∧
    Filter.Tendsto (fun cutoff => (streamLaw 2).real (returnsGraphRows alib lib 2 (fun i j => if i = j then 0 else 1) 3 cutoff 6 [![2, 2], ![0, 0]])) Filter.atTop
      (nhds (([![2, 2], ![0, 0]] : List (Fin 2 → ℕ)).map fun t => graphWeight (fun a b => (x : ℂ) * if a = b then 0 else 1) t /
        ∑' m : {m : Fin 2 → ℕ // ∑ i, m i ≤ 6}, graphWeight (fun a b => (x : ℂ) * if a = b then 0 else 1) m.1).prod) := by
  obtain ⟨alib, h1, -, h3⟩ := adjLib_exists
  obtain ⟨lib0, hl0, -⟩ := goodSampler_exists exampleLib
  have hl : GoodSampler { lib0 with tol := 1 } := ⟨hl0.1, hl0.2, hl0.3, hl0.4⟩
  have hs := entry_le_singular alib.svd h1 2 (fun i j => if i = j then 0 else 1) 0 1 (by norm_num) (by norm_num)
  obtain ⟨x, hx, hlim⟩ := hafnianSampleGraph_limit alib h1 h3 _ hl (by norm_num) 2 (by norm_num) (fun i j => if i = j then 0 else 1) (fun i _ j _ => by simp [eq_comm]) 3
    (by norm_num at hs ⊢; linarith) (by norm_num) (Or.inl (by norm_num)) 6 [![2, 2], ![0, 0]] (by simp) (by simp)
  exact ⟨alib, _, x, hx, hlim⟩

end Verif.Props
