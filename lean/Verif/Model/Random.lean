/-
Model of thewalrus/random.py.  The generator of numpy is an arbitrary sequence of arrays: `rng k` is what the `k`-th call to
`np.random.randn` or `np.random.random` returns (a vector is the first row).  A function of the module is a computation that starts with some
number of calls already made, and returns its result and the number of calls made; `none` stands for an array that contains NaN (0/0 in the
phases; NaN is inherited by every product).  `scipy.linalg.qr` is a parameter (contracts in Spec/LinAlg.lean).
-/
import Verif.Model.Symplectic
import Verif.Spec.LinAlg

namespace Verif.Model.Rnd
open Verif.Model Verif.Model.Symp Verif.Spec

noncomputable section

/-- A computation that draws random numbers. -/
abbrev Rand (α : Type) := StateT ℕ Option α

/-- The routines called: the generator and `scipy.linalg.qr` of real and of complex arrays. -/
structure Lib where
  rng : ℕ → RArr
  qr : ℕ → RArr → RArr × RArr
  qrc : ℕ → CArr → CArr × CArr

/-- `np.random.randn(…)` and `np.random.random(…)` -/
def randn (lib : Lib) : Rand RArr := fun k => some (lib.rng k, k + 1)

/-- an array with NaN entries -/
def nan {α : Type} : Rand α := fun _ => none

/-- `randnc`, thewalrus/random.py:46-48: the real parts are drawn first -/
def randnc (lib : Lib) : Rand CArr := do
  let a ← randn lib
  let b ← randn lib
  pure fun i j => (a i j : ℂ) + Complex.I * (b i j : ℂ)

/-- the phases and the columns, thewalrus/random.py:140-143, for the factors of a real array -/
def fixPhaseR (N : ℕ) (f : RArr × RArr) : Rand CArr :=
  if ∃ i < N, f.2 i i = 0 then nan else pure fun i j => ((f.1 i j * (f.2 j j / |f.2 j j|) : ℝ) : ℂ)

/-- the phases and the columns, thewalrus/random.py:140-143, for the factors of a complex array -/
def fixPhaseC (N : ℕ) (f : CArr × CArr) : Rand CArr :=
  if ∃ i < N, f.2 i i = 0 then nan else pure fun i j => f.1 i j * (f.2 j j / (‖f.2 j j‖ : ℂ))

/-- `random_interferometer`, thewalrus/random.py:124-143. -/
def randomInterferometer (lib : Lib) (N : ℕ) (real : Bool) : Rand CArr :=
  if real then do
    let z ← randn lib
    fixPhaseR N (lib.qr N z)
  else do
    let z ← randnc lib
    fixPhaseC N (lib.qrc N fun i j => z i j / (Real.sqrt 2 : ℂ))

/-- `random_symplectic`, thewalrus/random.py:84-121. -/
def randomSymplectic (lib : Lib) (N : ℕ) (passive blockDiag : Bool) (scale : ℝ) : Rand RArr := do
  let U ← randomInterferometer lib N blockDiag
  let O := block N N (fun i j => (U i j).re) (fun i j => -(U i j).im) (fun i j => (U i j).im) (fun i j => (U i j).re)
  if passive then pure O
  else
    let U ← randomInterferometer lib N blockDiag
    let P := block N N (fun i j => (U i j).re) (fun i j => -(U i j).im) (fun i j => (U i j).im) (fun i j => (U i j).re)
    let c ← randnc lib
    let r : ℕ → ℝ := fun i => scale * ‖c 0 i‖
    let Sq : RArr := fun i j => if i = j then (if i < N then Real.exp (-r i) else Real.exp (r (i - N))) else 0
    pure (mmul (2 * N) (mmul (2 * N) O Sq) P)

/-- `random_covariance`, thewalrus/random.py:51-81. -/
def randomCovariance (lib : Lib) (N : ℕ) (hbar : ℝ) (pureState blockDiag : Bool) : Rand RArr := do
  let S ← randomSymplectic lib N false blockDiag 1
  if pureState then pure (mmul (2 * N) (fun i j => hbar / 2 * S i j) (tr S))
  else
    let u ← randn lib
    let nbar : ℕ → ℝ := fun i => 2 * |u 0 i| + 1
    let Vth : RArr := fun i j => if i = j then hbar / 2 * (if i < N then nbar i else nbar (i - N)) else 0
    pure (mmul (2 * N) (mmul (2 * N) S Vth) (tr S))

/-- `scipy.linalg.block_diag(*blocks)` of square arrays given with their sizes: the size of the result and its entries.  (Of no arrays at all
scipy returns an array of shape (1, 0).) -/
def blockDiag : List (ℕ × CArr) → ℕ × CArr
  | [] => (0, fun _ _ => 0)
  | (n, A) :: rest => (n + (blockDiag rest).1, block n n A (fun _ _ => 0) (fun _ _ => 0) (blockDiag rest).2)

/-- `[random_interferometer(s, real=real) for _ in range(c)]`, with their sizes -/
def interferometers (lib : Lib) (s : ℕ) (real : Bool) : ℕ → Rand (List (ℕ × CArr))
  | 0 => pure []
  | c + 1 => do
    let U ← randomInterferometer lib s real
    let rest ← interferometers lib s real c
    pure ((s, U) :: rest)

/-- `random_block_interferometer`, thewalrus/random.py:146-172: the size of the result and its entries; for `N = 0` and `top_one = False` the
shape returned is not square, see `blockDiag`. -/
def randomBlockInterferometer (lib : Lib) (N : ℕ) (topOne real : Bool) : Rand (ℕ × CArr) :=
  if N % 2 = 0 then
    if topOne then do
      let u2s ← interferometers lib 2 real (N / 2 - 1)
      let u0 ← randomInterferometer lib 1 real
      let u1 ← randomInterferometer lib 1 real
      pure (blockDiag ((1, u0) :: u2s ++ [(1, u1)]))
    else do
      let u2s ← interferometers lib 2 real (N / 2)
      pure (blockDiag u2s)
  else do
    let u2s ← interferometers lib 2 real ((N - 1) / 2)
    let u0 ← randomInterferometer lib 1 real
    if topOne then pure (blockDiag ((1, u0) :: u2s)) else pure (blockDiag (u2s ++ [(1, u0)]))

/-- the loop of `random_banded_interferometer`, thewalrus/random.py:193-195, with the current value of `top_one_init` -/
def bandedLoop (lib : Lib) (N : ℕ) (real : Bool) : ℕ → Bool → CArr → Rand CArr
  | 0, _, U => pure U
  | w + 1, topOne, U => do
    let B ← randomBlockInterferometer lib N topOne real
    bandedLoop lib N real w (!topOne) (mmul N U B.2)

/-- `random_banded_interferometer`, thewalrus/random.py:175-196. -/
def randomBandedInterferometer (lib : Lib) (N w : ℕ) (topOneInit real : Bool) : Except PyErr (Rand CArr) :=
  if N < w + 1 then .error .valueError
  else if N = w + 1 then .ok (randomInterferometer lib N real)
  else .ok do
    let us ← interferometers lib 1 real N
    bandedLoop lib N real w topOneInit (blockDiag us).2

end

end Verif.Model.Rnd
