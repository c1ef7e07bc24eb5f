/-
Model of thewalrus/quantum/distinguishable_squeezers.py.  Real numbers in place of floats.  A random program is modelled by its expectation functional: it assigns to every real function of the outcome
the expected value; `np.random.choice` and `np.random.binomial` are the functionals of the distributions they draw from, consecutive calls being independent.
-/
import Verif.Model.PhotonDistributions

set_option linter.style.longLine false

namespace Verif.Model.Disting
open Verif.Model.Dist

noncomputable section

/-- `number_means`, distinguishable_squeezers.py:60-75 (`n = len(rs)`). -/
def numberMeans (n : ℕ) (T : ℕ → ℕ → ℂ) (rs : ℕ → ℝ) (i : ℕ) : ℝ := ∑ k ∈ Finset.range n, (Real.sinh (rs k) * ‖T i k‖) ^ 2

/-- `number_cov`, distinguishable_squeezers.py:78-93 (`T` an `n × n` array). -/
def numberCov (n : ℕ) (T : ℕ → ℕ → ℂ) (rs : ℕ → ℝ) (i j : ℕ) : ℝ :=
  let absT := fun i k => ‖T i k‖ ^ 2
  let covN := ∑ k ∈ Finset.range n, absT i k * Real.sinh (rs k) ^ 4 * absT j k
  let covM := ∑ k ∈ Finset.range n, absT i k * (1 / 2 * Real.sinh (2 * rs k)) ^ 2 * absT j k
  covN + covM + if i = j then numberMeans n T rs i else 0

/-- A random program, by the expected values of the functions of its result. -/
def Expect (α : Type) : Type := (α → ℝ) → ℝ

instance : Monad Expect where
  pure x := fun f => f x
  bind m k := fun f => m fun x => k x f

/-- `np.random.choice(np.arange(size), p=p)` -/
def choice (size : ℕ) (p : ℕ → ℝ) : Expect ℕ := fun f => ∑ i ∈ Finset.range size, p i * f i

/-- `np.random.choice(np.arange(size), p=p, size=m)`: `m` independent draws -/
def choices (size : ℕ) (p : ℕ → ℝ) : ℕ → Expect (List ℕ)
  | 0 => pure []
  | m + 1 => do
    let x ← choice size p
    let l ← choices size p m
    pure (x :: l)

/-- `np.random.binomial(n, p)` -/
def binomial (n : ℕ) (p : ℝ) : Expect ℕ := fun f => ∑ k ∈ Finset.range (n + 1), (n.choose k : ℝ) * p ^ k * (1 - p) ^ (n - k) * f k

/-- the body of the loop over the input modes, distinguishable_squeezers.py:49-55 -/
def sourceStep (M : ℕ) (detection : ℕ → ℝ) (probs pn : ℕ → ℕ → ℝ) (cutoff : ℕ) (output : ℕ → ℕ) (i : ℕ) : Expect (ℕ → ℕ) := do
  let n ← choice cutoff (pn i)
  let nDetected ← binomial n (min 1 (detection i))
  if nDetected > 0 then do
    let outputModes ← choices M (probs i) nDetected
    pure fun j => output j + outputModes.count j
  else pure output

/-- One pass of the outer loop of `sample`, distinguishable_squeezers.py:45-57, with the preparation of lines 36-44. -/
def sampleOne (M : ℕ) (T : ℕ → ℕ → ℂ) (rs : ℕ → ℝ) (cutoff : ℕ) : Expect (ℕ → ℕ) :=
  let abs2T := fun i j => (T i j * (starRingEnd ℂ) (T i j)).re
  let detection := fun i => ∑ a ∈ Finset.range M, abs2T a i
  let probs := fun i a => abs2T a i / detection i
  let p := fun i => squeezedStateDistribution (rs i) cutoff 1
  let pn := fun i n => p i n / ∑ m ∈ Finset.range cutoff, p i m
  (List.range M).foldlM (sourceStep M detection probs pn cutoff) fun _ => 0

/-- `sample`, distinguishable_squeezers.py:23-57: `n_samples` rows. -/
def sample (M : ℕ) (T : ℕ → ℕ → ℂ) (rs : ℕ → ℝ) (cutoff : ℕ) : ℕ → Expect (List (ℕ → ℕ))
  | 0 => pure []
  | nSamples + 1 => do
    let x ← sampleOne M T rs cutoff
    let l ← sample M T rs cutoff nSamples
    pure (x :: l)

end

end Verif.Model.Disting
