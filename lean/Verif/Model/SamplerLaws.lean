/-
Models of the samplers for classical states, thermal states and rank-one graphs as random programs.  As in Model/Distinguishable.lean a random program is modelled by its expectation functional: it assigns to
every real function of the outcome the expected value.  Real numbers in place of floats.  `np.random.normal` draws from products of standard normal distributions, `np.random.poisson` and
`np.random.negative_binomial` from the distributions with the documented weights, consecutive draws being independent.
-/
import Verif.Model.Distinguishable
import Verif.Model.GaussianChecks
import Mathlib.Probability.Distributions.Gaussian.Real
import Mathlib.MeasureTheory.Constructions.Pi
import Mathlib.Analysis.SpecialFunctions.Arsinh

set_option linter.style.longLine false

namespace Verif.Model.Law
open Verif.Model.Disting Verif.Model.Dist Verif.Model.Checks MeasureTheory

noncomputable section

/-- `n` independent standard normal variables -/
def normals (n : ℕ) : Expect (ℕ → ℝ) := fun f => ∫ z : Fin n → ℝ, f (fun i => if h : i < n then z ⟨i, h⟩ else 0) ∂(Measure.pi fun _ => ProbabilityTheory.gaussianReal 0 1)

/-- `np.random.multivariate_normal(mean, C)`: NumPy factors `C = F Fᵀ` and returns `mean + F z` with independent standard normal variables `z`; `factor` is the factorisation. -/
def multivariateNormal (factor : ℕ → (ℕ → ℕ → ℝ) → ℕ → ℕ → ℝ) (n : ℕ) (mean : ℕ → ℝ) (C : ℕ → ℕ → ℝ) : Expect (ℕ → ℝ) := do
  let z ← normals n
  pure fun i => mean i + ∑ k ∈ Finset.range n, factor n C i k * z k

/-- `np.random.poisson(lam)` -/
def poisson (lam : ℝ) : Expect ℕ := fun f => ∑' k : ℕ, Real.exp (-lam) * lam ^ k / k.factorial * f k

/-- `np.random.negative_binomial(r, q)` -/
def negBinomial (r q : ℝ) : Expect ℕ := fun f => ∑' k : ℕ, nbinomPmf k q r * f k

/-- `m` independent runs of a random program -/
def repeatE {α : Type} (p : Expect α) : ℕ → Expect (List α)
  | 0 => pure []
  | m + 1 => do
    let x ← p
    let l ← repeatE p m
    pure (x :: l)

/-- a random program for each entry of a list -/
def mapE {α β : Type} (p : α → Expect β) : List α → Expect (List β)
  | [] => pure []
  | a :: l => do
    let x ← p a
    let r ← mapE p l
    pure (x :: r)

/-- the rates `np.abs(alpha) ** 2` of one row of `R`, thewalrus/samples.py:654-656 -/
def rates (N : ℕ) (hbar : ℝ) (R : ℕ → ℝ) : List ℝ :=
  (List.range N).map fun j => ‖(1 / (Real.sqrt (2 * hbar) : ℝ) : ℂ) * ((R j : ℂ) + Complex.I * (R (N + j) : ℂ))‖ ^ 2

/-- `hafnian_sample_classical_state`, thewalrus/samples.py:625-657, for an `n × m` array; `mean` is None or a vector with its length; the result is an array of shape `(samples, n // 2)`.  All the normal
variables are drawn before the Poisson variables. -/
def hafnianSampleClassical (factor : ℕ → (ℕ → ℕ → ℝ) → ℕ → ℕ → ℝ) (close : ℝ → ℝ → Bool) (n m : ℕ) (cov : ℕ → ℕ → ℝ) (samples : ℕ) (mean : Option (ℕ × (ℕ → ℝ))) (hbar atol : ℝ) :
    Except PyErr (Expect (List (List ℕ))) :=
  if ¬ isClassicalCov close n m cov hbar atol then .error .valueError
  else if mean.any (fun v => v.1 ≠ n) then .error .valueError
  else
    let mu : ℕ → ℝ := mean.elim (fun _ => 0) fun v => v.2
    .ok do
      let R ← repeatE (multivariateNormal factor n mu fun i j => cov i j - 1 / 2 * hbar * if i = j then 1 else 0) samples
      mapE (fun row => mapE poisson (rates (n / 2) hbar row)) R

/-- `torontonian_sample_classical_state`, thewalrus/samples.py:660-680. -/
def torontonianSampleClassical (factor : ℕ → (ℕ → ℕ → ℝ) → ℕ → ℕ → ℝ) (close : ℝ → ℝ → Bool) (n m : ℕ) (cov : ℕ → ℕ → ℝ) (samples : ℕ) (mean : Option (ℕ × (ℕ → ℝ))) (hbar atol : ℝ) :
    Except PyErr (Expect (List (List ℕ))) :=
  (hafnianSampleClassical factor close n m cov samples mean hbar atol).map fun p => do
    let h ← p
    pure (h.map fun row => row.map fun x => if x > 0 then 1 else 0)

/-- One sample of `generate_thermal_samples`, thewalrus/csamples.py:170-176, for `n` parameters and an `n × n` array `O`; `np.random.normal(0, np.sqrt(rs))` is a vector of independent normal variables with the
standard deviations `√rs`. -/
def thermalSample (n : ℕ) (ls : ℕ → ℝ) (O : ℕ → ℕ → ℝ) : Expect (List ℕ) := do
  let rs : ℕ → ℝ := fun k => 1 / 2 * ls k / (1 - ls k)
  let x ← normals n
  let y ← normals n
  let alpha : ℕ → ℂ := fun j => ∑ k ∈ Finset.range n, (O j k : ℂ) * (((Real.sqrt (rs k) * x k : ℝ) : ℂ) + Complex.I * ((Real.sqrt (rs k) * y k : ℝ) : ℂ))
  mapE poisson ((List.range n).map fun j => ‖alpha j‖ ^ 2)

/-- `generate_thermal_samples`, thewalrus/csamples.py:158-177. -/
def generateThermalSamples (n : ℕ) (ls : ℕ → ℝ) (O : ℕ → ℕ → ℝ) (numSamples : ℕ) : Expect (List (List ℕ)) := repeatE (thermalSample n ls O) numSamples

/-- `_hafnian_sample_graph_rank_one`, thewalrus/samples.py:732-752, for a vector with `n` entries which are not all zero. -/
def rankOneSample (n : ℕ) (G : ℕ → ℂ) (nMean : ℝ) : Expect (List ℕ) := do
  let s := Real.arsinh (Real.sqrt nMean)
  let q := 1 - Real.tanh s ^ 2
  let half ← negBinomial (1 / 2) q
  let total := 2 * half
  let norm := ∑ i ∈ Finset.range n, ‖G i‖ ^ 2
  let sample ← (List.range total).foldlM (fun (sample : ℕ → ℕ) _ => do
    let det ← Disting.choice n fun i => ‖G i‖ ^ 2 / norm
    pure (Function.update sample det (sample det + 1))) (fun _ => 0)
  pure ((List.range n).map sample)

/-- `hafnian_sample_graph_rank_one`, thewalrus/samples.py:755-768. -/
def hafnianSampleGraphRankOne (n : ℕ) (G : ℕ → ℂ) (nMean : ℝ) (samples : ℕ) : Expect (List (List ℕ)) := repeatE (rankOneSample n G nMean) samples

end

end Verif.Model.Law
