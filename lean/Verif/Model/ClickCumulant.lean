/-
Model of `click_cumulant`, thewalrus/quantum/means_and_variances.py.
-/
import Verif.Model.Torontonian
import Verif.Model.Means

namespace Verif.Model.Tor
open Verif.Model Verif.Model.Symp Verif.Model.Means

noncomputable section

/-- a factor of `click_cumulant`, thewalrus/quantum/means_and_variances.py:450-453: the probability that all modes of the block click; `ord` lists the elements of the set of the
block in an order that Python does not specify. -/
def clickBlock (chol : ℕ → (ℕ → ℕ → ℂ) → Except PyErr (ℕ → ℕ → ℂ)) (closeMu : ℝ → Bool) (ord : List ℕ → List ℕ) (st : GState ℝ) (hbar : ℝ) (B : List ℕ) : Except PyErr ℂ := do
  let B' := ord B
  let red ← reducedGaussian st B'
  thresholdProb chol closeMu red (B'.map fun _ => 1) hbar

/-- `click_cumulant`, thewalrus/quantum/means_and_variances.py:431-457. -/
def clickCumulant (chol : ℕ → (ℕ → ℕ → ℂ) → Except PyErr (ℕ → ℕ → ℂ)) (closeMu : ℝ → Bool) (ord : List ℕ → List ℕ) (st : GState ℝ) (modes : List ℕ) (hbar : ℝ) : Except PyErr ℂ := do
  let ps ← partition modes
  ps.foldlM (fun kappa pi => do
    let term0 : ℂ := ((pi.length - 1).factorial : ℂ) * (-1) ^ (pi.length - 1)
    let term ← pi.foldlM (fun term B => do
      let summand ← clickBlock chol closeMu ord st hbar B
      pure (term * summand)) term0
    pure (kappa + term)) 0

end

end Verif.Model.Tor
