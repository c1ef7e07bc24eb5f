/-
Specification of the measurement behind the sampler for threshold detectors: every mode is split evenly over `F` channels, the photons of some channels are
counted and the other channels are measured by heterodyne detection.
-/
import Verif.Spec.FockState
import Mathlib.Topology.Algebra.InfiniteSum.Defs

namespace Verif.Spec

noncomputable section

/-- The amplitude of finding the photons of the modes distributed over the channels as `i`: `N` photons of a mode go to the channels with amplitude
`√(N! / ∏ i_k!) (1/√F)^N`. -/
def splitAmp {M F : ℕ} (i : Fin M → Fin F → ℕ) : ℝ :=
  ∏ j, Real.sqrt ((∑ k, i j k).factorial / ∏ k, ((i j k).factorial : ℝ)) / Real.sqrt F ^ (∑ k, i j k)

/-- The density matrix of the channels, when the modes are in the state `ρ`. -/
def splitState {M : ℕ} (F : ℕ) (ρ : (Fin M → ℕ) → (Fin M → ℕ) → ℂ) (i i' : Fin M → Fin F → ℕ) : ℂ :=
  (splitAmp i : ℂ) * ρ (fun j => ∑ k, i j k) (fun j => ∑ k, i' j k) * (splitAmp i' : ℂ)

/-- The amplitude between photon numbers `n` in the first `cnt j` channels of mode `j` (for all `j`) and coherent states `α` in the others, and the Fock
state `i` of the channels. -/
def channelAmp {M F : ℕ} (cnt : ℕ → ℕ) (n : ℕ → ℕ → ℕ) (α : ℕ → ℕ → ℂ) (i : Fin M → Fin F → ℕ) : ℂ :=
  ∏ j : Fin M, ∏ k : Fin F, if (k : ℕ) < cnt j then (if i j k = n j k then 1 else 0)
    else (Real.exp (-Complex.normSq (α j k) / 2) : ℝ) * ((starRingEnd ℂ) (α j k) ^ i j k / (Real.sqrt (i j k).factorial : ℝ))

/-- The Born rule: the probability (density) of the photon numbers `n` in the first `cnt j` channels of each mode `j` and the heterodyne outcomes `α` in the
other channels (up to a factor `π` for each of these). -/
def channelDensity {M F : ℕ} (ρ : (Fin M → Fin F → ℕ) → (Fin M → Fin F → ℕ) → ℂ) (cnt : ℕ → ℕ) (n : ℕ → ℕ → ℕ) (α : ℕ → ℕ → ℂ) : ℝ :=
  (∑' p : (Fin M → Fin F → ℕ) × (Fin M → Fin F → ℕ), channelAmp cnt n α p.1 * ρ p.1 p.2 * (starRingEnd ℂ) (channelAmp cnt n α p.2)).re

end

end Verif.Spec
