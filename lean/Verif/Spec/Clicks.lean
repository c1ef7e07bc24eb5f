/-
Specification vocabulary: the click distribution of threshold detectors on a zero-mean Gaussian state.
-/
import Mathlib.LinearAlgebra.Matrix.Determinant.Basic
import Mathlib.Analysis.SpecialFunctions.Sqrt
import Mathlib.Algebra.Module.LinearMap.Defs

namespace Verif.Spec

/-- the quadratures of the modes in `S`, in an `N`-mode state -/
def modeQuad (N : ℕ) (S : Finset ℕ) : S ⊕ S → ℕ := Sum.elim (fun k => (k : ℕ)) (fun k => N + k)

/-- Probability that none of the modes in `S` holds a photon, in the zero-mean Gaussian state with covariance matrix `cov`:
`1/√det((V_S + ħ/2)/ħ)` for the covariance matrix `V_S` of the modes in `S`. -/
noncomputable def vacProb (N : ℕ) (cov : ℕ → ℕ → ℝ) (hbar : ℝ) (S : Finset ℕ) : ℝ :=
  1 / Real.sqrt (Matrix.det (Matrix.of fun p q : S ⊕ S => (cov (modeQuad N S p) (modeQuad N S q) + if p = q then hbar / 2 else 0) / hbar))

/-- `E` is an expectation functional for the clicks: a linear functional on functions of the click pattern (`b j = true`: detector `j`
clicks) that gives every event "none of the detectors in `S` clicks" its probability. -/
def ClickStats (N : ℕ) (cov : ℕ → ℕ → ℝ) (hbar : ℝ) (E : ((ℕ → Bool) → ℝ) →ₗ[ℝ] ℝ) : Prop :=
  ∀ S : Finset ℕ, S ⊆ Finset.range N → E (fun b => if ∀ j ∈ S, b j = false then 1 else 0) = vacProb N cov hbar S

/-- the number of clicks -/
def clicks (N : ℕ) (b : ℕ → Bool) : ℝ := ∑ j ∈ Finset.range N, if b j then 1 else 0

end Verif.Spec
