/-
Model of thewalrus/quantum/means_and_variances.py.  Gaussian states are `GState ℝ` (number of entries of the vector of means, means, covariance
matrix of that size); mode numbers are natural numbers.  `click_cumulant` is in Model/ClickCumulant.lean.
-/
import Verif.Model.Conversions
import Verif.Model.Charpoly
import Mathlib.Analysis.Complex.Basic

namespace Verif.Model.Means
open Verif.Model Verif.Model.Symp Verif.Model.Conv

noncomputable section

/-- `photon_number_mean`, thewalrus/quantum/means_and_variances.py:31-48. -/
def photonNumberMean (s : GState ℝ) (j : ℕ) (hbar : ℝ) : Except PyErr ℝ :=
  let N := s.len / 2
  if j + N ≥ s.len then .error .indexError
  else .ok ((s.mu j ^ 2 + s.mu (j + N) ^ 2 + s.cov j j + s.cov (j + N) (j + N) - hbar) / (2 * hbar))

/-- `photon_number_mean_vector`, thewalrus/quantum/means_and_variances.py:51-66. -/
def photonNumberMeanVector (s : GState ℝ) (hbar : ℝ) : Except PyErr (List ℝ) :=
  (List.range (s.len / 2)).mapM fun j => photonNumberMean s j hbar

/-- `photon_number_covar`, thewalrus/quantum/means_and_variances.py:69-123. -/
def photonNumberCovar (s : GState ℝ) (j k : ℕ) (hbar : ℝ) : Except PyErr ℝ := do
  if j = k then
    let r ← reducedGaussian s [j]
    let trace := ((List.range r.len).map fun i => r.cov i i).sum
    let term1 := 1 / 2 * trace ^ 2 - (toMatrix r.len r.len r.cov).det
    let term2 := dot r.len (fun b => dot r.len r.mu fun a => r.cov a b) r.mu
    pure ((term1 + term2) / hbar ^ 2 - 1 / 4)
  else
    let r ← reducedGaussian s [j, k]
    let term1 := r.cov 0 1 ^ 2 + r.cov 0 3 ^ 2 + r.cov 2 1 ^ 2 + r.cov 2 3 ^ 2
    let term2 := r.cov 0 1 * r.mu 0 * r.mu 1 + r.cov 2 1 * r.mu 1 * r.mu 2 + r.cov 0 3 * r.mu 0 * r.mu 3 + r.cov 2 3 * r.mu 2 * r.mu 3
    pure ((term1 + 2 * term2) / (2 * hbar ^ 2))

/-- `photon_number_covmat`, thewalrus/quantum/means_and_variances.py:126-146. -/
def photonNumberCovmat (s : GState ℝ) (hbar : ℝ) : Except PyErr (ℕ → ℕ → ℝ) :=
  (List.range (s.len / 2)).foldlM (fun C i => (List.range (i + 1)).foldlM (fun C j => do
    let v ← photonNumberCovar s i j hbar
    pure (upd2 (upd2 C i j v) j i v)) C) fun _ _ => 0

/-- `s_ordered_expectation`, thewalrus/quantum/means_and_variances.py:212-249.  `rpt` is a list of natural numbers (so that
`np.allclose(rpt, 0)` holds exactly for a list of zeros); a list shorter than `2M` raises `ValueError` (numpy refuses to add the two halves;
the exception is a list whose second half broadcasts, which is not modelled); `closeMu` is the `np.allclose(mu, 0)` test on each entry,
`close` the one inside `hafnian`. -/
def sOrdered (closeMu : ℝ → Bool) (close : ℂ → ℂ → Bool) (st : GState ℝ) (rpt : List ℕ) (hbar s : ℝ) : Except PyErr ℂ := do
  if rpt.all (· = 0) then pure 1
  else
    let M := st.len / 2
    if rpt.length < 2 * M then .error .valueError
    else
      let modes := (List.range M).filter fun k => rpt.getD k 0 + rpt.getD (M + k) 0 ≠ 0
      let r ← reducedGaussian st modes
      let ind := modes ++ modes.map (· + M)
      let rpt' := ind.map fun i => rpt.getD i 0
      let alpha := complexToReal (r.len / 2) r.mu hbar
      let n := r.len
      let Q := Qmat (n / 2) r.cov hbar
      let V := mmul n (fun i j => Q i j - (((1 / 2 : ℝ) * (s + 1) : ℝ) : ℂ) * eye i j) (Xmat (n / 2))
      let A := reduction2 V rpt'
      if (List.range n).all fun i => closeMu (r.mu i) then
        hafnian powertrace close (.arr A.1 A.1 fun i j => some (A.2 i j)) false "glynn"
      else
        let d := (reduction1 (fun i => (starRingEnd ℂ) (alpha i)) rpt').2
        hafnian powertrace close (.arr A.1 A.1 fun i j => some (if i = j then d i else A.2 i j)) true "glynn"

/-- `normal_ordered_expectation`, thewalrus/quantum/means_and_variances.py:195-209. -/
def normalOrdered (closeMu : ℝ → Bool) (close : ℂ → ℂ → Bool) (st : GState ℝ) (rpt : List ℕ) (hbar : ℝ) : Except PyErr ℂ :=
  sOrdered closeMu close st rpt hbar 1

/-- `photon_number_expectation`, thewalrus/quantum/means_and_variances.py:149-168. -/
def photonNumberExpectation (closeMu : ℝ → Bool) (close : ℂ → ℂ → Bool) (st : GState ℝ) (modes : List ℕ) (hbar : ℝ) : Except PyErr ℂ :=
  let M := st.len / 2
  if modes.any (· + M ≥ st.len) then .error .indexError
  else
    let rpt := modes.foldl (fun rpt i => (rpt.set i 1).set (i + M) 1) (List.replicate st.len 0)
    normalOrdered closeMu close st rpt hbar

/-- `itertools.product(*lists)`: the last list varies fastest. -/
def pyProduct {α : Type} : List (List α) → List (List α)
  | [] => [[]]
  | l :: ls => l.flatMap fun a => (pyProduct ls).map (a :: ·)

/-- `photon_number_squared_expectation`, thewalrus/quantum/means_and_variances.py:171-192. -/
def photonNumberSquared (closeMu : ℝ → Bool) (close : ℂ → ℂ → Bool) (st : GState ℝ) (modes : List ℕ) (hbar : ℝ) : Except PyErr ℂ := do
  let r ← reducedGaussian st modes
  (pyProduct (List.replicate modes.length [1, 2])).foldlM (fun result item => do
    let term ← normalOrdered closeMu close r (item ++ item) hbar
    pure (result + term)) 0

/-- `_coeff_normal_ordered`, thewalrus/quantum/means_and_variances.py:309-326. -/
def coeffNormalOrdered (m k : ℕ) : ℂ :=
  ((List.range (k + 1)).map fun mu => (1 / ((mu.factorial : ℂ) * ((k - mu).factorial : ℂ))) * ((-1) ^ (k - mu) * (mu : ℂ) ^ m)).sum

/-- `photon_number_moment`, thewalrus/quantum/means_and_variances.py:329-367.  The dictionary is the list of its items (distinct keys);
`np.real_if_close` of the result, which drops a negligible imaginary part, is not modelled. -/
def photonNumberMoment (closeMu : ℝ → Bool) (close : ℂ → ℂ → Bool) (st : GState ℝ) (indices : List (ℕ × ℕ)) (hbar : ℝ) : Except PyErr ℂ :=
  let N := st.len / 2
  let expansion := indices.map fun kv => (List.range kv.2).map fun i => coeffNormalOrdered kv.2 (1 + i)
  (pyProduct (indices.map fun kv => List.range kv.2)).foldlM (fun net item => do
    if indices.any (·.1 ≥ N) then throw .indexError
    let rpt := (List.range indices.length).foldl (fun rpt i => rpt.set (indices.getD i (0, 0)).1 (item.getD i 0 + 1)) (List.replicate N 0)
    let prod := ((List.range item.length).map fun i => (expansion.getD i []).getD (item.getD i 0) 0).prod
    let e ← sOrdered closeMu close st (rpt ++ rpt) hbar 1
    pure (net + prod * e)) 0

/-- The inner loop of `partition`, thewalrus/quantum/means_and_variances.py:387-390: put `first` into each block in turn, then into a block
of its own. -/
def partitionStep {α : Type} (first : α) (smaller : List (List α)) : List (List (List α)) :=
  ((List.range smaller.length).map fun n => smaller.take n ++ [first :: smaller.getD n []] ++ smaller.drop (n + 1)) ++ [[first] :: smaller]

/-- `partition`, thewalrus/quantum/means_and_variances.py:370-390: the list of what the generator yields.  The empty collection raises
`IndexError` on the first request. -/
def partition {α : Type} : List α → Except PyErr (List (List (List α)))
  | [] => .error .indexError
  | [a] => .ok [[[a]]]
  | a :: b :: l => do
    let s ← partition (b :: l)
    pure (s.flatMap (partitionStep a))

/-- `_list_to_freq_dict`, thewalrus/quantum/means_and_variances.py:392-401: in the order of first occurrence (the order of a Python set is
unspecified and does not matter). -/
def listToFreq (words : List ℕ) : List (ℕ × ℕ) := words.dedup.map fun i => (i, words.count i)

/-- `photon_number_cumulant`, thewalrus/quantum/means_and_variances.py:404-428. -/
def photonNumberCumulant (closeMu : ℝ → Bool) (close : ℂ → ℂ → Bool) (st : GState ℝ) (modes : List ℕ) (hbar : ℝ) : Except PyErr ℂ := do
  let ps ← partition modes
  ps.foldlM (fun kappa pi => do
    let term0 : ℂ := ((pi.length - 1).factorial : ℂ) * (-1) ^ (pi.length - 1)
    let term ← pi.foldlM (fun term B => do
      let m ← photonNumberMoment closeMu close st (listToFreq B) hbar
      pure (term * m)) term0
    pure (kappa + term)) 0

/-- the determinant of the `Q` matrix of mode `i`, thewalrus/quantum/means_and_variances.py:269 and 291 -/
def vacDet (N : ℕ) (Q : ℕ → ℕ → ℂ) (i : ℕ) : ℝ := (Q i i * Q (i + N) (i + N) - Q (i + N) i * Q i (i + N)).re

/-- `mean_clicks`, thewalrus/quantum/means_and_variances.py:252-271; `cov` is `2N × 2N`. -/
def meanClicks (N : ℕ) (cov : ℕ → ℕ → ℝ) (hbar : ℝ) : ℝ :=
  let Q := Qmat N cov hbar
  forRange N (N : ℝ) fun i meanc => meanc - 1 / Real.sqrt (vacDet N Q i)

/-- `variance_clicks`, thewalrus/quantum/means_and_variances.py:274-306; `cov` is `2N × 2N`. -/
def varianceClicks (N : ℕ) (cov : ℕ → ℕ → ℝ) (hbar : ℝ) : Except PyErr ℝ := do
  let Q := Qmat N cov hbar
  let vac : ℕ → ℝ := fun i => 1 / Real.sqrt (vacDet N Q i)
  let term1 := ((List.range N).map fun i => vac i * (1 - vac i)).sum
  let term2 ← (List.range N).foldlM (fun t i => (List.range i).foldlM (fun t j => do
    let r ← reducedGaussian (K := ℂ) { len := 2 * N, mu := fun _ => 0, cov := Q } [i, j]
    let p := 1 / Real.sqrt (toMatrix r.len r.len r.cov).det.re
    pure (t + (p - vac i * vac j))) t) (0 : ℝ)
  pure (term1 + 2 * term2)

end

end Verif.Model.Means
