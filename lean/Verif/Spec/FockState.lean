/-
Specification of the density matrix of a Gaussian state in the Fock basis.  The Gaussian state with means `mu` and covariance matrix `cov`
(ordering `x_0, …, p_0, …`, commutators `[x, p] = iħ`) is the state whose Husimi function `⟨α|ρ|α⟩` is the Gaussian `husimiFn`.  With
`|α⟩ = e^{-|α|²/2} Σ_n α^n/√n! |n⟩`, the numbers `ρ i j = ⟨i|ρ|j⟩` satisfy `e^{|α|²} ⟨α|ρ|α⟩ = Σ_{i,j} ρ i j conj(α)^i α^j / √(i! j!)`, and they are
determined by this identity (`Verif.Props.fockMatrix_unique`).
-/
import Verif.Spec.PhaseSpace
import Mathlib.LinearAlgebra.Matrix.NonsingularInverse
import Mathlib.Analysis.SpecialFunctions.Exp
import Mathlib.Analysis.SpecialFunctions.Sqrt
import Mathlib.Topology.Algebra.InfiniteSum.Basic

namespace Verif.Spec
open Matrix

noncomputable section

/-- Quadratures of the coherent state `|α⟩`: `x_k = √(2ħ) Re α_k`, `p_k = √(2ħ) Im α_k`. -/
def cohQuad {N : ℕ} (hbar : ℝ) (α : Fin N → ℂ) : Fin N ⊕ Fin N → ℝ :=
  Sum.elim (fun k => Real.sqrt (2 * hbar) * (α k).re) (fun k => Real.sqrt (2 * hbar) * (α k).im)

/-- The Husimi function `⟨α|ρ|α⟩` of the Gaussian state: with `d` the difference of the means, `exp(-½ dᵀ (V + ħ/2)⁻¹ d) / √det((V + ħ/2)/ħ)`. -/
def husimiFn (N : ℕ) (mu : ℕ → ℝ) (cov : ℕ → ℕ → ℝ) (hbar : ℝ) (α : Fin N → ℂ) : ℝ :=
  let W : Matrix (Fin N ⊕ Fin N) (Fin N ⊕ Fin N) ℝ := phase N N cov + (hbar / 2) • 1
  let d := cohQuad hbar α - phaseVec N mu
  Real.exp (-(d ⬝ᵥ W⁻¹ *ᵥ d) / 2) / Real.sqrt ((1 / hbar) • W).det

/-- `conj(α)^i / √i!` over all modes: the amplitude `⟨α|i⟩`, up to the factor `e^{-|α|²/2}`. -/
def cohAmp {N : ℕ} (α : Fin N → ℂ) (i : Fin N → ℕ) : ℂ := ∏ k, (starRingEnd ℂ) (α k) ^ i k / (Real.sqrt (i k).factorial : ℝ)

/-- `ρ i j` is the matrix element `⟨i|ρ|j⟩` of the Gaussian state, for all occupation numbers `i` and `j`. -/
def IsFockMatrix (N : ℕ) (mu : ℕ → ℝ) (cov : ℕ → ℕ → ℝ) (hbar : ℝ) (ρ : (Fin N → ℕ) → (Fin N → ℕ) → ℂ) : Prop :=
  ∀ α : Fin N → ℂ, HasSum (fun p : (Fin N → ℕ) × (Fin N → ℕ) => cohAmp α p.1 * ρ p.1 p.2 * (starRingEnd ℂ) (cohAmp α p.2))
    ((Real.exp (∑ k, Complex.normSq (α k)) * husimiFn N mu cov hbar α : ℝ) : ℂ)

/-- The reduced density matrix of the modes `f 0, …, f (M - 1)`, in this order: `ρ' i j` is the sum of the matrix elements `ρ p q` over all `p`, `q` which restrict to
`i`, `j` on the listed modes and coincide on the other modes. -/
def IsPartialTrace {M N : ℕ} (f : Fin M → Fin N) (ρ : (Fin N → ℕ) → (Fin N → ℕ) → ℂ) (ρ' : (Fin M → ℕ) → (Fin M → ℕ) → ℂ) : Prop :=
  ∀ i j : Fin M → ℕ, HasSum
    (fun x : {x : (Fin N → ℕ) × (Fin N → ℕ) // x.1 ∘ f = i ∧ x.2 ∘ f = j ∧ ∀ k, k ∉ Set.range f → x.1 k = x.2 k} => ρ x.1.1 x.1.2) (ρ' i j)

end

end Verif.Spec

namespace Verif.Spec

noncomputable section

/-- Total variation distance of two functions on a countable set. -/
def tvDist {σ : Type} (p q : σ → ℝ) : ℝ := (1 / 2) * ∑' n, |p n - q n|

/-- The distribution `p` restricted to at most `k` photons in each mode, and renormalised. -/
def truncated {N : ℕ} (p : (Fin N → ℕ) → ℝ) (k : ℕ) (n : Fin N → ℕ) : ℝ :=
  open Classical in if ∀ i, n i ≤ k then p n / ∑' n' : {n' : Fin N → ℕ // ∀ i, n' i ≤ k}, p n' else 0

end

end Verif.Spec
