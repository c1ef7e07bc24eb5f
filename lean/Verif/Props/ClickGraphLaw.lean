/-
C96: the rows that `torontonian_sample_graph` returns.
-/
import Verif.Props.ClickSampleLaw
import Verif.Props.SampleGraphLaw

set_option linter.style.longLine false
set_option linter.unusedSectionVars false
set_option linter.unusedSimpArgs false

namespace Verif.Props
open Verif.Model Verif.Model.Symp Verif.Model.Conv Verif.Model.Means Verif.Model.Smp Verif.Model.Dec Verif.Model.Checks Verif.Spec Verif.Lemmas Verif.Lemmas.Symp
  Verif.Lemmas.FockS Verif.Lemmas.Outc Verif.Lemmas.Chain Verif.Lemmas.GInt Verif.Lemmas.Rej Matrix MeasureTheory

/-- the random numbers for which `torontonian_sample_graph` with `fanout = 1` ends and returns the rows `cs` -/
def returnsGraphClickRows (alib : Adj.Lib) (lib : Lib) (n : ℕ) (A : CArr) (nMean : ℝ) (cutoff maxPhotons : ℕ) (cs : List (Fin n → ℕ)) : Set (ℕ → Call n) :=
  {ω | ∃ fuel k, torontonianSampleGraph alib (withCalls lib ω) fuel n n A nMean cs.length maxPhotons 1 cutoff 0 = .ok (cs.map List.ofFn, k)}

theorem torontonianSampleGraph_run (alib : Adj.Lib) (lib : Lib) (fuel n m : ℕ) (A : CArr) (nMean : ℝ) (samples maxPhotons fanout cutoff : ℕ) (Q : CArr) (hQ : Adj.adjToQmat alib n m A nMean = .ok Q) :
    torontonianSampleGraph alib lib fuel n m A nMean samples maxPhotons fanout cutoff =
      torontonianSampleState lib fuel (.arr (2 * n) (2 * n) fun i j => some (Covmat n Q 2 i j)) samples (fun _ => 0) 2 maxPhotons fanout cutoff := by
  unfold torontonianSampleGraph
  rw [hQ]
  rfl

theorem torontonianSampleGraph_raises (alib : Adj.Lib) (lib : Lib) (fuel n m : ℕ) (A : CArr) (nMean : ℝ) (samples maxPhotons fanout cutoff c : ℕ) (e : PyErr) (h : Adj.adjToQmat alib n m A nMean = .error e) :
    torontonianSampleGraph alib lib fuel n m A nMean samples maxPhotons fanout cutoff c = .error e := by
  unfold torontonianSampleGraph
  rw [h]
  rfl

/-- C96: for every symmetric `A` whose largest singular value exceeds `1e-7`, every admissible mean photon number, every largest number of clicks and every list of click
patterns with at most that many clicks, the probability that `torontonian_sample_graph` with `fanout = 1` returns these rows tends, as the cutoff grows, to the product over
the rows `c` of `Σ_t |haf((xA)_t)|²/t!` over the photon numbers `t` that give the clicks `c`, divided by the same sum over the photon numbers that give at most `max_photons` clicks.
`x` is the scaling of `adj_scaling`. -/
theorem torontonianSampleGraph_limit (alib : Adj.Lib) (hsvd : SvdContract alib.svd) (hroot : RootContract alib.rootScalar) (lib : Lib) (hl : GoodSampler lib) (htol : 0 ≤ lib.tol)
    (n : ℕ) (hn : 0 < n) (A : CArr) (hA : ∀ i < n, ∀ j < n, A i j = A j i) (nMean : ℝ) (hs : 1e-7 < (alib.svd n A).2.1 0) (h0 : 0 ≤ nMean)
    (hmax : nMean ≤ 499 ∨ nMean ≤ reach ((alib.svd n A).2.1 0)) (maxPhotons : ℕ) (cs : List (Fin n → ℕ)) (hcs : cs ≠ []) (hc01 : ∀ c ∈ cs, ∀ i, c i = 0 ∨ c i = 1)
    (hcm : ∀ c ∈ cs, ∑ i, c i ≤ maxPhotons) :
    ∃ x, Adj.adjScaling alib n A nMean = .ok x ∧
      Filter.Tendsto (fun cutoff => (callsLaw n).real (returnsGraphClickRows alib lib n A nMean cutoff maxPhotons cs)) Filter.atTop
        (nhds (cs.map fun c => (∑' t : {t : Fin n → ℕ // ∀ i, 0 < t i ↔ c i = 1}, graphWeight (fun a b => (x : ℂ) * A a b) t.1) /
          ∑' t : {t : Fin n → ℕ // (Finset.univ.filter fun i => 0 < t i).card ≤ maxPhotons}, graphWeight (fun a b => (x : ℂ) * A a b) t.1).prod) := by
  obtain ⟨x, Q, hx, hQ, hx0, -, -, hst, -⟩ := adjToQmat_correct alib hsvd hroot n hn A hA nMean hs h0 hmax
  obtain ⟨x', Q', hx', hQ', hfock⟩ := adjToQmat_fock alib hsvd hroot n hn A hA nMean hs h0 hmax
  obtain rfl : x = x' := Except.ok.inj (hx.symm.trans hx')
  obtain rfl : Q = Q' := Except.ok.inj (hQ.symm.trans hQ')
  obtain ⟨hph, hdet, -, -⟩ := hst 2 (by norm_num)
  rw [div_self (by norm_num), one_smul] at hdet
  obtain ⟨ρ, _, _, -, hρ, -⟩ := fock_gram (N := n) (fun _ => 0) (by norm_num : (0 : ℝ) < 2) hph
  have hF := hfock 2 (by norm_num) ρ hρ
  set P : ℝ := ∏ k ∈ Finset.range n, Real.sqrt (1 - (x * (alib.svd n A).2.1 k) ^ 2) with hP
  have hd : ∀ t, (ρ t t).re = P * graphWeight (fun a b => (x : ℂ) * A a b) t := by
    intro t
    rw [hF t t, Complex.mul_conj, Real.mul_self_sqrt (Finset.prod_nonneg fun _ _ => Nat.cast_nonneg _), ← Complex.ofReal_mul, ← Complex.ofReal_div, Complex.ofReal_re, graphWeight,
      Complex.normSq_eq_norm_sq, mul_div_assoc]
  have hP0 : P ≠ 0 := by
    intro h
    obtain ⟨h1, h2⟩ := fockMatrix_vacuum (by norm_num) hph hρ
    have h3 := hd 0
    rw [h, zero_mul, h1, Complex.ofReal_re] at h3
    exact h2.ne' h3
  refine ⟨x, hx, ?_⟩
  have hlim := torontonianSampleState_limit lib hl htol n hn.ne' (fun _ => 0) (Covmat n Q 2) hph (fun ν hν i => Or.inl (pure_spectrum _ hph hdet ν hν i)) maxPhotons ρ hρ cs hcs hc01 hcm
  have e1 : ∀ cutoff, returnsGraphClickRows alib lib n A nMean cutoff maxPhotons cs = returnsClickRows lib n (fun _ => 0) (Covmat n Q 2) cutoff maxPhotons cs := by
    intro cutoff
    unfold returnsGraphClickRows returnsClickRows
    simp only [torontonianSampleGraph_run alib _ _ n n A nMean _ maxPhotons 1 cutoff Q hQ]
  simp only [e1]
  have e3 : fewClicks ρ maxPhotons = P * ∑' t : {t : Fin n → ℕ // (Finset.univ.filter fun i => 0 < t i).card ≤ maxPhotons}, graphWeight (fun a b => (x : ℂ) * A a b) t.1 := by
    unfold fewClicks
    simp only [hd]
    rw [tsum_mul_left]
    congr 1
    refine (Equiv.subtypeEquivRight fun t => ?_).tsum_eq (fun t : {t : Fin n → ℕ // (Finset.univ.filter fun i => 0 < t i).card ≤ maxPhotons} => graphWeight (fun a b => (x : ℂ) * A a b) t.1)
    simp only [clk, Finset.card_filter]
  have e2 : (fun c : Fin n → ℕ => (∑' t : {t : Fin n → ℕ // ∀ i, 0 < t i ↔ c i = 1}, (ρ t t).re) / fewClicks ρ maxPhotons) = fun c =>
      (∑' t : {t : Fin n → ℕ // ∀ i, 0 < t i ↔ c i = 1}, graphWeight (fun a b => (x : ℂ) * A a b) t.1) /
        ∑' t : {t : Fin n → ℕ // (Finset.univ.filter fun i => 0 < t i).card ≤ maxPhotons}, graphWeight (fun a b => (x : ℂ) * A a b) t.1 := by
    funext c
    rw [e3]
    simp only [hd]
    rw [tsum_mul_left, mul_div_mul_left _ _ hP0]
  rw [e2] at hlim
  exact hlim

/-- C96: `torontonian_sample_graph` of an array that is not square raises `ValueError`; with `parallel=True` on macOS it raises `NotImplementedError`. -/
theorem torontonianSampleGraph_nonsquare (alib : Adj.Lib) (lib : Lib) (libs : ℕ → Lib) (fuel n m : ℕ) (h : n ≠ m) (A : CArr) (nMean : ℝ) (samples maxPhotons fanout cutoff c : ℕ) :
    torontonianSampleGraph alib lib fuel n m A nMean samples maxPhotons fanout cutoff c = .error .valueError ∧
      torontonianSampleGraphParallel alib libs fuel false n m A nMean samples maxPhotons fanout cutoff = .error .valueError ∧
      torontonianSampleGraphParallel alib libs fuel true n m A nMean samples maxPhotons fanout cutoff = .error .notImplemented := by
  have h1 := adjToQmat_nonsquare alib n m h A nMean
  refine ⟨torontonianSampleGraph_raises _ _ _ _ _ _ _ _ _ _ _ _ _ h1, ?_, rfl⟩
  unfold torontonianSampleGraphParallel
  rw [h1]
  rfl

/-- A concrete case: one edge, mean photon number 3: a row with both clicks, and the row without clicks. -/
example : ∃ (alib : Adj.Lib) (lib : Lib) (x : ℝ), Adj.adjScaling alib 2 (fun i j => if i = j then 0 else 1) 3 = .ok x ∧
    Filter.Tendsto (fun cutoff => (callsLaw 2).real (returnsGraphClickRows alib lib 2 (fun i j => if i = j then 0 else 1) 3 cutoff 30 [![1, 1], ![0, 0]])) Filter.atTop
      (nhds (([![1, 1], ![0, 0]] : List (Fin 2 → ℕ)).map fun c => (∑' t : {t : Fin 2 → ℕ // ∀ i, 0 < t i ↔ c i = 1}, graphWeight (fun a b => (x : ℂ) * if a = b then 0 else 1) t.1) /
        ∑' t : {t : Fin 2 → ℕ // (Finset.univ.filter fun i => 0 < t i).card ≤ 30}, graphWeight (fun a b => (x : ℂ) * if a = b then 0 else 1) t.1).prod) := by
  obtain ⟨alib, h1, -, h3⟩ := adjLib_exists
  obtain ⟨lib0, hl0, -⟩ := goodSampler_exists exampleLib
  have hl : GoodSampler { lib0 with tol := 1 } := ⟨hl0.1, hl0.2, hl0.3, hl0.4⟩
  have hs := entry_le_singular alib.svd h1 2 (fun i j => if i = j then 0 else 1) 0 1 (by norm_num) (by norm_num)
  obtain ⟨x, hx, hlim⟩ := torontonianSampleGraph_limit alib h1 h3 _ hl (by norm_num) 2 (by norm_num) (fun i j => if i = j then 0 else 1) (fun i _ j _ => by simp [eq_comm]) 3
    (by norm_num at hs ⊢; linarith) (by norm_num) (Or.inl (by norm_num)) 30 [![1, 1], ![0, 0]] (by simp) (by simp [Fin.forall_fin_two]) (by simp)
  exact ⟨alib, _, x, hx, hlim⟩

end Verif.Props
