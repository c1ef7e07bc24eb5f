/-
Model of thewalrus/samples.py.

The random generator of numpy is an arbitrary family of outcomes: `lib.normal k`, `lib.uniform k`, … is what the `k`-th call to the generator
uses when it is a call of that kind.  A function that draws random numbers starts with some number of calls already made and returns its result
and the number of calls made, or raises.  The linear-algebra routines are parameters too (contracts in Spec/LinAlg.lean, Spec/Torontonian.lean).
-/
import Verif.Model.Decompositions
import Verif.Model.Means
import Verif.Model.Batch
import Mathlib.Data.Nat.Factorial.Basic

namespace Verif.Model.Smp
open Verif.Model Verif.Model.Symp Verif.Model.Conv Verif.Model.Means Verif.Model.Dec Verif.Model.Checks Verif.Spec

noncomputable section

/-- The routines called. -/
structure Lib where
  /-- the vector that `np.random.normal(size=…)` returns -/
  normal : ℕ → ℕ → ℝ
  /-- the number between 0 and 1 that `np.random.choice` draws -/
  uniform : ℕ → ℝ
  /-- the integer that `np.random.negative_binomial` returns -/
  negBinomial : ℕ → ℕ
  /-- the rows that `np.random.multivariate_normal` returns -/
  multivariateNormal : ℕ → RArr
  /-- the array that `np.random.poisson` of an array of rates returns -/
  poisson : ℕ → RArr → ℕ → ℕ → ℕ
  sqrtm : ℕ → RArr → RArr
  schur : ℕ → RArr → RArr × RArr
  close : ℝ → ℝ → Bool
  chol : ℕ → RArr → Except PyErr RArr
  /-- the tolerance of `np.random.choice` on the sum of the probabilities -/
  tol : ℝ

/-- A computation that draws random numbers and can raise. -/
abbrev Rand (α : Type) := StateT ℕ (Except PyErr) α

/-- raise an exception -/
def raise {α : Type} (e : PyErr) : Rand α := fun _ => .error e

/-- a computation without random numbers -/
def lift {α : Type} (x : Except PyErr α) : Rand α := fun k => x.map fun a => (a, k)

/-- `np.random.normal(size=…)` -/
def normal (lib : Lib) : Rand (ℕ → ℝ) := fun k => .ok (lib.normal k, k + 1)

/-- `np.random.negative_binomial(0.5, q, 1)[0]` -/
def negBinomial (lib : Lib) : Rand ℕ := fun k => .ok (lib.negBinomial k, k + 1)

/-- the cumulative sums of `p` divided by the last one -/
def cdf (p : List ℝ) : List ℝ := (List.range p.length).map fun i => (p.take (i + 1)).sum / p.sum

/-- `cdf.searchsorted(u, side='right')`: the number of entries that are at most `u`. -/
def searchRight (c : List ℝ) (u : ℝ) : ℕ := c.countP fun x => decide (x ≤ u)

/-- `np.random.choice(np.arange(size), p=p)`: numpy checks the probabilities, and looks a uniform random number up in the cumulative sums. -/
def choice (lib : Lib) (size : ℕ) (p : List ℝ) : Rand ℕ := fun k =>
  if size = 0 ∨ p.length ≠ size ∨ (∃ x ∈ p, x < 0) ∨ lib.tol < |p.sum - 1| then .error .valueError
  else .ok (searchRight (cdf p) (lib.uniform k), k + 1)

/-- `decompose_cov`, thewalrus/samples.py:95-117, for an `n × n` array: the elementwise square root of the diagonal matrix whose entries of
absolute value less than 1e-10 were set to zero.  (The square root of a negative number, which can only remain for an unphysical `cov`, would be NaN;
here it is 0.) -/
def decomposeCov (lib : Lib) (n : ℕ) (cov : RArr) (hbar : ℝ) : Except PyErr (RArr × RArr) := do
  let m := n / 2
  let (D, S) ← williamson lib.sqrtm lib.schur lib.close n n cov
  let T : RArr := mmul (2 * m) (fun i j => hbar / 2 * S i j) (tr S)
  let DmI : RArr := fun i j => D i j - hbar / 2 * eye i j
  let DmI' : RArr := fun i j => if |DmI i j| < 1e-10 then 0 else DmI i j
  let sqrtW := mmul (2 * m) S fun i j => Real.sqrt (DmI' i j)
  pure (T, sqrtW)

/-- `mu_to_alpha`, thewalrus/samples.py:120-137. -/
def muToAlpha (len : ℕ) (mu : ℕ → ℝ) (hbar : ℝ) : ℕ → ℂ :=
  fun i => ((mu i : ℂ) + Complex.I * (mu (len / 2 + i) : ℂ)) / (Real.sqrt (2 * hbar) : ℝ)

/-- `invert_permutation`, thewalrus/samples.py:140-154: `s[p] = np.arange(p.size)` on an array with arbitrary entries. -/
def invertPermutation (junk : ℕ → ℕ) (p : List ℕ) : Except PyErr (List ℕ) :=
  if ∃ x ∈ p, p.length ≤ x then .error .indexError
  else .ok ((List.range p.length).map (forRange p.length junk fun i s => Function.update s (p.getD i 0) i))

/-- comparison of the pairs in `sorted(zip(means, range(len(means))))` -/
def pairLe (a b : ℝ × ℕ) : Bool := decide (a.1 < b.1 ∨ (a.1 = b.1 ∧ a.2 ≤ b.2))

/-- `photon_means_order`, thewalrus/samples.py:157-175. -/
def photonMeansOrder (s : GState ℝ) : Except PyErr (List ℕ) := do
  let means ← photonNumberMeanVector s 2
  pure (((means.zip (List.range means.length)).mergeSort pairLe).map (·.2))

/-- `get_heterodyne_fanout`, thewalrus/samples.py:178-202, for `M` modes; row `j` is the unitary discrete Fourier transform of
`(alpha[j], noise, …, noise)`; a row without entries has no entry 0. -/
def getHeterodyneFanout (lib : Lib) (M : ℕ) (alpha : ℕ → ℂ) (fanout : ℕ) : Rand (ℕ → ℕ → ℂ) :=
  (List.range M).foldlM (fun af j => if fanout = 0 then raise .indexError else do
    let x ← normal lib
    let y ← normal lib
    let alphaJ : ℕ → ℂ := fun l => if l = 0 then alpha j else (x (l - 1) : ℂ) + Complex.I * (y (l - 1) : ℂ)
    let row : ℕ → ℂ := fun k => ((List.range fanout).map fun l =>
      alphaJ l * Complex.exp (-2 * Real.pi * Complex.I * k * l / fanout)).sum / (Real.sqrt fanout : ℝ)
    pure (Function.update af j row)) fun _ _ => 0

/-- the weights of line 250 and `probs` of thewalrus/samples.py:467: squared moduli over factorials -/
def weights (cutoff : ℕ) (lhafs : List ℂ) : List ℝ :=
  (List.range (cutoff + 1)).map fun k => Complex.normSq (lhafs.getD k 0) / k.factorial

/-- division by the sum and `np.random.choice`: if the sum is zero the probabilities are NaN, and numpy raises `ValueError` -/
def chooseNormalised (lib : Lib) (cutoff : ℕ) (probs : List ℝ) : Rand ℕ :=
  if probs.sum = 0 then raise .valueError else choice lib (cutoff + 1) (probs.map fun x => x / probs.sum)

/-- one round of the loop of `generate_hafnian_sample`, thewalrus/samples.py:246-256, on `(gamma, det_pattern)` -/
def hafnianStep (lib : Lib) (B : CArr) (het : ℕ → ℂ) (cutoff : ℕ) (st : (ℕ → ℂ) × (ℕ → ℕ)) (mode : ℕ) : Rand ((ℕ → ℂ) × (ℕ → ℕ)) := do
  let m := mode + 1
  let gamma : ℕ → ℂ := fun i => st.1 i - het mode * B i mode
  let lhafs ← lift (loopHafnianBatch powertrace m m B m gamma ((List.range mode).map st.2) cutoff true)
  let outcome ← chooseNormalised lib cutoff (weights cutoff lhafs)
  pure (gamma, Function.update st.2 mode outcome)

/-- a state with the modes taken in the order `order` (`mu[oo]`, `cov[np.ix_(oo, oo)]`) -/
def reorder (s : GState ℝ) (order : List ℕ) : GState ℝ :=
  let M := s.len / 2
  let oo := order ++ order.map (· + M)
  { len := s.len, mu := fun i => s.mu (oo.getD i 0), cov := fun i j => s.cov (oo.getD i 0) (oo.getD j 0) }

/-- what lines 233-245 of thewalrus/samples.py compute before the loop from the reordered state: `(B, heterodyne_alpha, gamma)` -/
def hafnianPrepare (lib : Lib) (s : GState ℝ) (hbar : ℝ) : Rand (CArr × (ℕ → ℂ) × (ℕ → ℂ)) := do
  let M := s.len / 2
  let (T, sqrtW) ← lift (decomposeCov lib s.len s.cov hbar)
  let chol ← lift (lib.chol (2 * M) fun i j => T i j + eye i j)
  let B ← lift (Amat M T 2)
  let x ← normal lib
  let pureMu : ℕ → ℝ := fun i => s.mu i + dot (2 * M) (sqrtW i) x
  let pureAlpha := muToAlpha (2 * M) pureMu hbar
  let y ← normal lib
  let hetMu : ℕ → ℝ := fun i => pureMu i + dot (2 * M) (chol i) y
  let het := muToAlpha (2 * M) hetMu hbar
  let gamma : ℕ → ℂ := fun i => (starRingEnd ℂ) (pureAlpha i) + dot M (B i) fun j => het j - pureAlpha j
  pure (B, het, gamma)

/-- `generate_hafnian_sample`, thewalrus/samples.py:204-261, for a vector of means of length `s.len` (zero if `mean` is None) and a square
covariance matrix of that size; `none` is the return value -1.  (With no modes `order` is an array of floating point numbers, which cannot be an
index.) -/
def generateHafnianSample (lib : Lib) (s : GState ℝ) (hbar : ℝ) (cutoff maxPhotons : ℕ) : Rand (Option (List ℕ)) := do
  let M := s.len / 2
  if M = 0 then raise .indexError
  else
    let order ← lift (photonMeansOrder s)
    let orderInv ← lift (invertPermutation (fun _ => 0) order)
    let (B, het, gamma) ← hafnianPrepare lib (reorder s order) hbar
    let st ← (List.range M).foldlM (hafnianStep lib B het cutoff) (gamma, fun _ => 0)
    let pattern := orderInv.map st.2
    if pattern.getLastD 0 = cutoff then pure none
    else if pattern.sum > maxPhotons then pure none
    else pure (some pattern)

/-- the `while` loop of `_hafnian_sample` and `_torontonian_sample`, thewalrus/samples.py:311-322, 530-539: `fuel` rounds at most, and the
exception `outOfFuel` if the loop has not ended by then -/
def collect (gen : Rand (Option (List ℕ))) : ℕ → ℕ → List (List ℕ) → Rand (List (List ℕ))
  | 0, j, acc => if j = 0 then pure acc else raise .outOfFuel
  | fuel + 1, j, acc =>
    if j = 0 then pure acc
    else do
      let r ← gen
      match r with
      | some x => collect gen fuel (j - 1) (acc ++ [x])
      | none => collect gen fuel j acc

/-- `np.vstack` of a list of rows: it raises on the empty list -/
def vstack (rows : List (List ℕ)) : Rand (List (List ℕ)) := if rows = [] then raise .valueError else pure rows

/-- a covariance matrix argument: something else, or an array with a shape; `none` is NaN -/
def covChecks (cov : PyObj ℝ) : Except PyErr (ℕ × RArr) :=
  match cov with
  | .other => .error .typeError
  | .arr rows cols e =>
    if rows ≠ cols then .error .valueError
    else if ∃ i < rows, ∃ j < cols, e i j = none then .error .valueError
    else .ok (rows, fun i j => (e i j).getD 0)

/-- `_hafnian_sample`, thewalrus/samples.py:264-324 (`mean` is a vector of as many entries as `cov` has rows, zero if it is None). -/
def hafnianSample (lib : Lib) (fuel : ℕ) (cov : PyObj ℝ) (samples : ℕ) (mean : ℕ → ℝ) (hbar : ℝ) (cutoff maxPhotons : ℕ) : Rand (List (List ℕ)) := do
  let (n, c) ← lift (covChecks cov)
  let rows ← collect (generateHafnianSample lib { len := n, mu := mean, cov := c } hbar cutoff maxPhotons) fuel samples []
  vstack rows

/-- the results of `samples` tasks that each return one row, in the order of submission; task `i` sees the generator `libs i` -/
def tasks (task : Lib → Rand (List (List ℕ))) (libs : ℕ → Lib) (samples : ℕ) : Except PyErr (List (List ℕ)) := do
  let rs ← (List.range samples).mapM fun i => (task (libs i) 0).map (·.1)
  if rs.flatten = [] then .error .valueError else pure rs.flatten

/-- `hafnian_sample_state`, thewalrus/samples.py:327-369, with `parallel=False`. -/
def hafnianSampleState (lib : Lib) (fuel : ℕ) (cov : PyObj ℝ) (samples : ℕ) (mean : ℕ → ℝ) (hbar : ℝ) (cutoff maxPhotons : ℕ) : Rand (List (List ℕ)) :=
  hafnianSample lib fuel cov samples mean hbar cutoff maxPhotons

/-- `hafnian_sample_state`, thewalrus/samples.py:327-369, with `parallel=True`: `darwin` is `sys.platform == "darwin"`; the threads share one
generator, so that the numbers that a task sees depend on the schedule: they are arbitrary. -/
def hafnianSampleStateParallel (libs : ℕ → Lib) (fuel : ℕ) (darwin : Bool) (cov : PyObj ℝ) (samples : ℕ) (mean : ℕ → ℝ) (hbar : ℝ)
    (cutoff maxPhotons : ℕ) : Except PyErr (List (List ℕ)) :=
  if darwin then .error .notImplemented
  else tasks (fun lib => hafnianSample lib fuel cov 1 mean hbar cutoff maxPhotons) libs samples

/-- the inner loop over the fanout channels, thewalrus/samples.py:469-477: `(gamma, det_pattern[mode], click)` of the channels `k, k+1, …` -/
def fanoutLoop (lib : Lib) (cutoff : ℕ) (gammaFanout : ℕ → ℕ → ℂ) (lhafs : List (List ℂ)) : List ℕ → (ℕ → ℂ) → Rand ((ℕ → ℂ) × ℕ × ℕ)
  | [], gamma => pure (gamma, 0, 0)
  | k :: ks, _ => do
    let outcome ← chooseNormalised lib cutoff (weights cutoff (lhafs.getD k []))
    if outcome > 0 then pure (gammaFanout k, outcome, 1)
    else fanoutLoop lib cutoff gammaFanout lhafs ks (gammaFanout k)

/-- one round of the loop of `generate_torontonian_sample`, thewalrus/samples.py:457-479, on `(gamma, det_pattern, click_pattern)`; `none` is the
early return of -1 -/
def torontonianStep (lib : Lib) (B : CArr) (hetFanout : ℕ → ℕ → ℂ) (cutoff fanout maxPhotons : ℕ) (orderInv : List ℕ)
    (st : Option ((ℕ → ℂ) × (ℕ → ℕ) × (ℕ → ℕ))) (mode : ℕ) : Rand (Option ((ℕ → ℂ) × (ℕ → ℕ) × (ℕ → ℕ))) :=
  match st with
  | none => pure none
  | some (gamma, det, clicks) => do
    let gammaFanout : ℕ → ℕ → ℂ := forRange2 1 fanout (fun k i => if k = 0 then gamma i - hetFanout mode 0 * B i mode else 0) fun k gf =>
      Function.update gf k fun i => gf (k - 1) i - hetFanout mode k * B i mode
    let lhafs ← lift (loopHafnianBatchGamma powertrace (mode + 1) (mode + 1) B fanout (mode + 1) gammaFanout ((List.range mode).map det) cutoff true)
    let (gamma', outcome, click) ← fanoutLoop lib cutoff gammaFanout lhafs (List.range fanout) gamma
    let det' := Function.update det mode (det mode + outcome)
    let clicks' := if click = 1 then Function.update clicks mode 1 else clicks
    if (orderInv.map clicks').sum > maxPhotons then pure none else pure (some (gamma', det', clicks'))

/-- `generate_torontonian_sample`, thewalrus/samples.py:407-481. (With `fanout = 0` the array `B` is not a number, but the function raises in
`get_heterodyne_fanout` before it is used.) -/
def generateTorontonianSample (lib : Lib) (s : GState ℝ) (hbar : ℝ) (maxPhotons fanout cutoff : ℕ) : Rand (Option (List ℕ)) := do
  let M := s.len / 2
  if M = 0 then raise .indexError
  else
    let order ← lift (photonMeansOrder s)
    let orderInv ← lift (invertPermutation (fun _ => 0) order)
    let s' := reorder s order
    let (T, sqrtW) ← lift (decomposeCov lib s'.len s'.cov hbar)
    let chol ← lift (lib.chol (2 * M) fun i j => T i j + eye i j)
    let A ← lift (Amat M T 2)
    let B : CArr := fun i j => A i j / fanout
    let x ← normal lib
    let pureMu : ℕ → ℝ := fun i => s'.mu i + dot (2 * M) (sqrtW i) x
    let pureAlpha := muToAlpha (2 * M) pureMu hbar
    let y ← normal lib
    let hetMu : ℕ → ℝ := fun i => pureMu i + dot (2 * M) (chol i) y
    let het := muToAlpha (2 * M) hetMu hbar
    let hetFanout ← getHeterodyneFanout lib M het fanout
    let hetSum : ℕ → ℂ := fun j => ((List.range fanout).map (hetFanout j)).sum
    let rf : ℂ := (Real.sqrt fanout : ℝ)
    let gamma : ℕ → ℂ := fun i => (starRingEnd ℂ) (pureAlpha i) / rf + dot M (B i) fun j => hetSum j - rf * pureAlpha j
    let st ← (List.range M).foldlM (torontonianStep lib B hetFanout cutoff fanout maxPhotons orderInv) (some (gamma, fun _ => 0, fun _ => 0))
    pure (st.map fun t => orderInv.map t.2.2)

/-- `_torontonian_sample`, thewalrus/samples.py:484-541. -/
def torontonianSample (lib : Lib) (fuel : ℕ) (cov : PyObj ℝ) (samples : ℕ) (mu : ℕ → ℝ) (hbar : ℝ) (maxPhotons fanout cutoff : ℕ) : Rand (List (List ℕ)) := do
  let (n, c) ← lift (covChecks cov)
  let rows ← collect (generateTorontonianSample lib { len := n, mu := mu, cov := c } hbar maxPhotons fanout cutoff) fuel samples []
  vstack rows

/-- `torontonian_sample_state`, thewalrus/samples.py:544-588, with `parallel=False` (its own check of the type is the first one of
`_torontonian_sample`). -/
def torontonianSampleState (lib : Lib) (fuel : ℕ) (cov : PyObj ℝ) (samples : ℕ) (mu : ℕ → ℝ) (hbar : ℝ) (maxPhotons fanout cutoff : ℕ) : Rand (List (List ℕ)) :=
  torontonianSample lib fuel cov samples mu hbar maxPhotons fanout cutoff

/-- `torontonian_sample_state`, thewalrus/samples.py:544-588, with `parallel=True`: the type is checked before the platform. -/
def torontonianSampleStateParallel (libs : ℕ → Lib) (fuel : ℕ) (darwin : Bool) (cov : PyObj ℝ) (samples : ℕ) (mu : ℕ → ℝ) (hbar : ℝ)
    (maxPhotons fanout cutoff : ℕ) : Except PyErr (List (List ℕ)) :=
  match cov with
  | .other => .error .typeError
  | .arr .. =>
    if darwin then .error .notImplemented
    else tasks (fun lib => torontonianSample lib fuel cov 1 mu hbar maxPhotons fanout cutoff) libs samples

/-- `hafnian_sample_classical_state`, thewalrus/samples.py:625-657, for an `n × m` array; `mean` is None or a vector with its length; the result
is an array of shape `(samples, n // 2)`. -/
def hafnianSampleClassical (lib : Lib) (n m : ℕ) (cov : RArr) (samples : ℕ) (mean : Option (ℕ × (ℕ → ℝ))) (hbar atol : ℝ) : Rand (List (List ℕ)) :=
  if ¬ isClassicalCov lib.close n m cov hbar atol then raise .valueError
  else if mean.any (fun v => v.1 ≠ n) then raise .valueError
  else fun k =>
    let R := lib.multivariateNormal k
    let N := n / 2
    let alpha : ℕ → ℕ → ℂ := fun s j => (1 / (Real.sqrt (2 * hbar) : ℝ) : ℂ) * ((R s j : ℂ) + Complex.I * (R s (N + j) : ℂ))
    let P := lib.poisson (k + 1) fun s j => ‖alpha s j‖ ^ 2
    .ok ((List.range samples).map fun s => (List.range N).map (P s), k + 2)

/-- `torontonian_sample_classical_state`, thewalrus/samples.py:660-680. -/
def torontonianSampleClassical (lib : Lib) (n m : ℕ) (cov : RArr) (samples : ℕ) (mean : Option (ℕ × (ℕ → ℝ))) (hbar atol : ℝ) : Rand (List (List ℕ)) := do
  let h ← hafnianSampleClassical lib n m cov samples mean hbar atol
  pure (h.map fun row => row.map fun x => if x > 0 then 1 else 0)

/-! #### photon_number_sampler -/

/-- all multi-indices of an array of the given shape, in the order of `flatten()` -/
def multiIndices : List ℕ → List (List ℕ)
  | [] => [[]]
  | d :: ds => (List.range d).flatMap fun i => (multiIndices ds).map fun r => i :: r

/-- `np.unravel_index(idx, dims)` for an index within the array: the digits, the last one running fastest -/
def unravel : List ℕ → ℕ → List ℕ
  | [], _ => []
  | _ :: ds, idx => (idx / ds.prod) :: unravel ds (idx % ds.prod)

/-- `photon_number_sampler`, thewalrus/samples.py:683-717, for an array of the given shape; `marker` is `none` if `out_of_bounds is False`; a sample
is a pattern or the marker. -/
def photonNumberSampler {μ : Type} (lib : Lib) (shape : List ℕ) (P : List ℕ → ℝ) (numSamples : ℕ) (marker : Option μ) : Rand (List (List ℕ ⊕ μ)) :=
  match shape with
  | [] => raise .indexError
  | cutoff :: _ =>
    let numModes := shape.length
    let flat := (multiIndices shape).map P
    let sumP := flat.sum
    let total := cutoff ^ numModes
    let dims := List.replicate numModes cutoff
    match marker with
    | none =>
      (List.range numSamples).foldlM (fun acc _ => do
        if sumP = 0 then raise .valueError
        else
          let idx ← choice lib total (flat.map fun x => x / sumP)
          pure (acc ++ [Sum.inl (unravel dims idx)])) []
    | some out =>
      (List.range numSamples).foldlM (fun acc _ => do
        let idx ← choice lib (1 + total) (flat ++ [1 - sumP])
        pure (acc ++ [if idx = total then Sum.inr out else Sum.inl (unravel dims idx)])) []

/-! #### rank-one graphs -/

/-- The detector that a photon goes to, `np.random.choice(range(len(ps)), p=ps)` with `ps /= np.sum(ps)` before, thewalrus/samples.py:747-750:
for a zero sum the probabilities are not numbers and `choice` refuses them. -/
def pick (lib : Lib) (len : ℕ) (ps : List ℝ) : Rand ℕ :=
  if ps.sum = 0 then raise .valueError else choice lib len (ps.map fun x => x / ps.sum)

/-- `_hafnian_sample_graph_rank_one`, thewalrus/samples.py:732-752, for a vector of `len` entries: `np.random.negative_binomial` gives half the
number of photons. -/
def hafnianSampleRankOne (lib : Lib) (len : ℕ) (G : ℕ → ℂ) : Rand (List ℕ) := do
  let half ← negBinomial lib
  let total := 2 * half
  let ps := (List.range len).map fun i => ‖G i‖ ^ 2
  let sample ← (List.range total).foldlM (fun (sample : ℕ → ℕ) _ => do
    let det ← pick lib len ps
    pure (Function.update sample det (sample det + 1))) (fun _ => 0)
  pure ((List.range len).map sample)

/-- `hafnian_sample_graph_rank_one`, thewalrus/samples.py:755-768. -/
def hafnianSampleGraphRankOne (lib : Lib) (len : ℕ) (G : ℕ → ℂ) (samples : ℕ) : Rand (List (List ℕ)) :=
  (List.range samples).mapM fun _ => hafnianSampleRankOne lib len G

end

end Verif.Model.Smp
