/-
Specification of photon loss and of added noise photons acting on a photon-number distribution.

A distribution over `m` modes with fewer than `c` photons per mode is a function of `i : Fin m → Fin c`.
-/
import Mathlib.Data.Real.Basic
import Mathlib.Data.Fintype.BigOperators
import Mathlib.Algebra.BigOperators.Fin

namespace Verif.Spec

/-- The probability that `j` out of `i` photons survive when each survives independently with probability `η`. -/
def survive (η : ℝ) (i j : ℕ) : ℝ := (i.choose j : ℝ) * η ^ j * (1 - η) ^ (i - j)

/-- The distribution of the surviving photons when the photons of mode `k` survive independently with probability `η k`. -/
noncomputable def lossy {m c : ℕ} (η : Fin m → ℝ) (p : (Fin m → Fin c) → ℝ) (j : Fin m → Fin c) : ℝ :=
  ∑ i : Fin m → Fin c, (∏ k, survive (η k) (i k) (j k)) * p i

/-- The distribution of the sum of the photon numbers and of independent numbers of noise photons (`ν k n`: probability of `n` noise photons in
mode `k`). -/
noncomputable def noisy {m c : ℕ} (ν : Fin m → ℕ → ℝ) (p : (Fin m → Fin c) → ℝ) (j : Fin m → Fin c) : ℝ :=
  ∑ i : Fin m → Fin c, (∏ k, if (i k : ℕ) ≤ j k then ν k (j k - i k) else 0) * p i

end Verif.Spec
