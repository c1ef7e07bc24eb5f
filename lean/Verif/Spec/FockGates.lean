/-
Specification of the Fock representation of a Gaussian gate: its entries are loop hafnians of the repeated matrix of the gate.
-/
import Verif.Spec.Matching
import Mathlib.Analysis.Complex.Basic
import Mathlib.Data.Real.Sqrt
import Mathlib.Data.List.OfFn
import Mathlib.Data.Nat.Factorial.Basic
import Mathlib.Analysis.SpecialFunctions.Trigonometric.Basic
import Mathlib.Analysis.Complex.Trigonometric

namespace Verif.Spec

/-- The amplitude with `k i` photons in the `i`-th index of the gate with vacuum amplitude `c`, matrix `R` and vector `y`:
`c lhaf(R_k, y_k) / √(∏ k_i!)`, where row and column `i` are repeated `k i` times and the diagonal is replaced by the repeated `y`. -/
noncomputable def fockAmp {d : ℕ} (c : ℂ) (R : Matrix (Fin d) (Fin d) ℂ) (y : Fin d → ℂ) (k : Fin d → ℕ) : ℂ :=
  c * lhaf (repeatedMatrixLoop (fun i j => if h : i < d ∧ j < d then R ⟨i, h.1⟩ ⟨j, h.2⟩ else 0) (fun i => if h : i < d then y ⟨i, h⟩ else 0) (List.ofFn k)) /
    ((Real.sqrt (∏ i, ((k i).factorial : ℝ)) : ℝ) : ℂ)

/-- The square root of a photon number. -/
noncomputable def root (n : ℕ) : ℂ := ((Real.sqrt n : ℝ) : ℂ)

/-- The matrix elements `⟨m|D|n⟩` of the displacement by `α`: `D` has the vacuum amplitude `exp(-|α|²/2)`, `a D = D (a + α)` and `D a† = (a† - ᾱ) D`. -/
structure IsDisplacement (α : ℂ) (D : ℕ → ℕ → ℂ) : Prop where
  vac : D 0 0 = ((Real.exp (-‖α‖ ^ 2 / 2) : ℝ) : ℂ)
  ann : ∀ m n, root (m + 1) * D (m + 1) n = root n * D m (n - 1) + α * D m n
  cre : ∀ m n, root (n + 1) * D m (n + 1) = root m * D (m - 1) n - (starRingEnd ℂ) α * D m n

/-- The matrix elements `⟨m|S|n⟩` of the squeezing by `r` with phase `e = exp(iθ)`: `S` has the vacuum amplitude `1/√cosh r`,
`a S = S (cosh r a - e sinh r a†)` and `S a† = (cosh r a† + ē sinh r a) S`. -/
structure IsSqueezing (r : ℝ) (e : ℂ) (S : ℕ → ℕ → ℂ) : Prop where
  vac : S 0 0 = ((1 / Real.sqrt (Real.cosh r) : ℝ) : ℂ)
  ann : ∀ m n, root (m + 1) * S (m + 1) n =
    (Real.cosh r : ℂ) * (root n * S m (n - 1)) - e * (Real.sinh r : ℂ) * (root (n + 1) * S m (n + 1))
  cre : ∀ m n, root (n + 1) * S m (n + 1) =
    (Real.cosh r : ℂ) * (root m * S (m - 1) n) + (starRingEnd ℂ) e * (Real.sinh r : ℂ) * (root (m + 1) * S (m + 1) n)

/-- The matrix elements `⟨m n|S|p q⟩` of the two-mode squeezing by `r` with phase `e = exp(iθ)`: vacuum amplitude `1/cosh r`,
`a₁ S = S (cosh r a₁ + e sinh r a₂†)`, `a₂ S = S (cosh r a₂ + e sinh r a₁†)` and the two adjoint relations
`S a₁† = (cosh r a₁† - ē sinh r a₂) S`, `S a₂† = (cosh r a₂† - ē sinh r a₁) S`. -/
structure IsTwoModeSqueezing (r : ℝ) (e : ℂ) (Z : ℕ → ℕ → ℕ → ℕ → ℂ) : Prop where
  vac : Z 0 0 0 0 = ((1 / Real.cosh r : ℝ) : ℂ)
  ann1 : ∀ m n p q, root (m + 1) * Z (m + 1) n p q =
    (Real.cosh r : ℂ) * (root p * Z m n (p - 1) q) + e * (Real.sinh r : ℂ) * (root (q + 1) * Z m n p (q + 1))
  ann2 : ∀ m n p q, root (n + 1) * Z m (n + 1) p q =
    (Real.cosh r : ℂ) * (root q * Z m n p (q - 1)) + e * (Real.sinh r : ℂ) * (root (p + 1) * Z m n (p + 1) q)
  cre1 : ∀ m n p q, root (p + 1) * Z m n (p + 1) q =
    (Real.cosh r : ℂ) * (root m * Z (m - 1) n p q) - (starRingEnd ℂ) e * (Real.sinh r : ℂ) * (root (n + 1) * Z m (n + 1) p q)
  cre2 : ∀ m n p q, root (q + 1) * Z m n p (q + 1) =
    (Real.cosh r : ℂ) * (root n * Z m (n - 1) p q) - (starRingEnd ℂ) e * (Real.sinh r : ℂ) * (root (m + 1) * Z (m + 1) n p q)

/-- The matrix elements `⟨m n|V|p q⟩` of the interferometer with the 2×2 matrix `U`: `V` preserves the vacuum, `a_i V = V Σ_j U i j a_j` and
`V a_j† = (Σ_i U i j a_i†) V`. -/
structure IsInterferometer2 (U : Matrix (Fin 2) (Fin 2) ℂ) (Z : ℕ → ℕ → ℕ → ℕ → ℂ) : Prop where
  vac : Z 0 0 0 0 = 1
  ann1 : ∀ m n p q, root (m + 1) * Z (m + 1) n p q =
    U 0 0 * (root p * Z m n (p - 1) q) + U 0 1 * (root q * Z m n p (q - 1))
  ann2 : ∀ m n p q, root (n + 1) * Z m (n + 1) p q =
    U 1 0 * (root p * Z m n (p - 1) q) + U 1 1 * (root q * Z m n p (q - 1))
  cre1 : ∀ m n p q, root (p + 1) * Z m n (p + 1) q =
    U 0 0 * (root m * Z (m - 1) n p q) + U 1 0 * (root n * Z m (n - 1) p q)
  cre2 : ∀ m n p q, root (q + 1) * Z m n p (q + 1) =
    U 0 1 * (root m * Z (m - 1) n p q) + U 1 1 * (root n * Z m (n - 1) p q)

/-- The 2×2 matrix of the beamsplitter. -/
noncomputable def beamsplitterU (theta phi : ℝ) : Matrix (Fin 2) (Fin 2) ℂ :=
  !![(Real.cos theta : ℂ), -(Complex.exp (-(Complex.I * phi)) * (Real.sin theta : ℂ)); Complex.exp (Complex.I * phi) * (Real.sin theta : ℂ), (Real.cos theta : ℂ)]

/-- The 2×2 matrix of the Mach-Zehnder interferometer: a phase `phi` on the first mode, a symmetric beamsplitter, a phase `theta` on the first mode, and the
symmetric beamsplitter again. -/
noncomputable def mzgateU (theta phi : ℝ) : Matrix (Fin 2) (Fin 2) ℂ :=
  let B : Matrix (Fin 2) (Fin 2) ℂ := ((1 / Real.sqrt 2 : ℝ) : ℂ) • !![1, Complex.I; Complex.I, 1]
  B * !![Complex.exp (Complex.I * theta), 0; 0, 1] * B * !![Complex.exp (Complex.I * phi), 0; 0, 1]

end Verif.Spec
