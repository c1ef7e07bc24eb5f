/-
Specification for the marginals of a photon-number distribution.
-/
import Verif.Spec.FockState

namespace Verif.Spec

/-- The number of entries of the tuple `t` smaller than the one at position `a`: the position of this entry in the sorted tuple. -/
def rankIn (t : List ℕ) (a : ℕ) : ℕ := (t.filter (· < t.getD a 0)).length

/-- `P` is the array of marginal probabilities of the modes `t`, in this order, up to `cutoff`: `P[x]` is the probability of `x a` photons in the mode `t a`, for all
`a`, in the distribution `p` of the photon numbers of `N` modes. -/
def IsMarginal {N : ℕ} (p : (Fin N → ℕ) → ℝ) (t : List ℕ) (cutoff : ℕ) (P : List ℕ → ℝ) : Prop :=
  ∀ x : ℕ → ℕ, (∀ a < t.length, x a < cutoff) →
    HasSum (fun n : {n : Fin N → ℕ // ∀ (k : Fin N) (a : ℕ), a < t.length → t.getD a 0 = k → n k = x a} => p n) (P ((List.range t.length).map x))

end Verif.Spec
