/-
Specification of the outcomes of a measurement that counts the photons of the first `m` modes and measures the others by heterodyne detection.
-/
import Verif.Spec.FockState
import Mathlib.Topology.Algebra.InfiniteSum.Defs

namespace Verif.Spec

noncomputable section

/-- The amplitude `⟨n_0, …, n_{m-1}, α_m, …, α_{N-1}|i⟩` between photon numbers `n` in the first `m` modes and coherent states `α` in the others, and the Fock state
`i`: `⟨n|i⟩ = δ`, `⟨α|i⟩ = e^{-|α|²/2} conj(α)^i / √i!`. -/
def mixAmp {N : ℕ} (m : ℕ) (n : ℕ → ℕ) (α : ℕ → ℂ) (i : Fin N → ℕ) : ℂ :=
  ∏ k : Fin N, if (k : ℕ) < m then (if i k = n k then 1 else 0)
    else (Real.exp (-Complex.normSq (α k) / 2) : ℝ) * ((starRingEnd ℂ) (α k) ^ i k / (Real.sqrt (i k).factorial : ℝ))

/-- The Born rule: the probability (density) `⟨n, α|ρ|n, α⟩` of the photon numbers `n` in the first `m` modes and the heterodyne outcomes `α` in the others (up
to a factor `π` for each of these). -/
def outcomeDensity {N : ℕ} (ρ : (Fin N → ℕ) → (Fin N → ℕ) → ℂ) (m : ℕ) (n : ℕ → ℕ) (α : ℕ → ℂ) : ℝ :=
  (∑' p : (Fin N → ℕ) × (Fin N → ℕ), mixAmp m n α p.1 * ρ p.1 p.2 * (starRingEnd ℂ) (mixAmp m n α p.2)).re

end

end Verif.Spec
