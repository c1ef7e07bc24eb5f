/-
Model of thewalrus/fock_gradients.py.  Arithmetic is exact over ℂ (the `dtype` argument is ignored); an array is a total function of its
indices, of which the ones below `cutoff` count.  A negative index counts from the end, as in Python and Numba; where the index is out of bounds even so
(`T[m - 2, n]` for cutoff 1, thewalrus/fock_gradients.py:174) Numba reads unchecked memory, and the model reads an arbitrary value of the total function.
-/
import Verif.Model.HafnianCore
import Mathlib.Analysis.SpecialFunctions.Trigonometric.Basic
import Mathlib.Analysis.Complex.Trigonometric

namespace Verif.Model.FG
open Verif.Model

noncomputable section

/-- An index of an axis of length `c`: negative ones count from the end. -/
def ix (c : ℕ) (i : ℤ) : ℕ := (if i < 0 then i + c else i).toNat

/-- `np.sqrt(np.arange(cutoff, dtype=dtype))[i]` -/
def sqA (i : ℕ) : ℂ := ((Real.sqrt i : ℝ) : ℂ)

/-- a two-dimensional array -/
abbrev Arr2 := ℕ → ℕ → ℂ

/-- a four-dimensional array -/
abbrev Arr4 := ℕ → ℕ → ℕ → ℕ → ℂ

/-- assignment to an entry of a four-dimensional array -/
def upd4 (Z : Arr4) (m n p q : ℕ) (v : ℂ) : Arr4 := fun m' n' p' q' => if m' = m ∧ n' = n ∧ p' = p ∧ q' = q then v else Z m' n' p' q'

/-- `np.exp(1j * t)` -/
def ei (t : ℝ) : ℂ := Complex.exp (Complex.I * t)

/-- `1.0 / np.cosh(r)` -/
def sech (r : ℝ) : ℝ := 1 / Real.cosh r

/-- `displacement`, thewalrus/fock_gradients.py:60-72. -/
def displacement (r phi : ℝ) (cutoff : ℕ) : Arr2 :=
  let mu0 : ℂ := r * ei phi
  let mu1 : ℂ := -r * ei (-phi)
  let D : Arr2 := fun _ _ => 0
  let D := upd2 D 0 0 ((Real.exp (-0.5 * r ^ 2) : ℝ) : ℂ)
  let D := forRange2 1 cutoff D fun m D => upd2 D m 0 (mu0 / sqA m * D (m - 1) 0)
  forRange cutoff D fun m D => forRange2 1 cutoff D fun n D =>
    upd2 D m n (mu1 / sqA n * D m (n - 1) + sqA m / sqA n * D (ix cutoff ((m : ℤ) - 1)) (n - 1))

/-- `grad_displacement`, thewalrus/fock_gradients.py:87-104; `cutoff` is `T.shape[0]`. -/
def gradDisplacement (cutoff : ℕ) (T : Arr2) (r phi : ℝ) : Arr2 × Arr2 :=
  let e := ei phi
  let ec := ei (-phi)
  let alpha : ℂ := r * e
  let alphac : ℂ := r * ec
  let z : Arr2 := fun _ _ => 0
  forRange cutoff (z, z) fun m g => forRange cutoff g fun n g =>
    (upd2 g.1 m n (-r * T m n + sqA m * e * T (ix cutoff ((m : ℤ) - 1)) n - sqA n * ec * T m (ix cutoff ((n : ℤ) - 1))),
      upd2 g.2 m n (sqA m * Complex.I * alpha * T (ix cutoff ((m : ℤ) - 1)) n + sqA n * Complex.I * alphac * T m (ix cutoff ((n : ℤ) - 1))))

/-- `squeezing`, thewalrus/fock_gradients.py:120-143; `range(2, cutoff, 2)` is `2 + 2 j` for `j < (cutoff - 1) / 2`. -/
def squeezing (r theta : ℝ) (cutoff : ℕ) : Arr2 :=
  let et : ℂ := ei theta * (Real.tanh r : ℂ)
  let sechr : ℂ := (sech r : ℂ)
  let R00 : ℂ := -et
  let R01 : ℂ := sechr
  let R11 : ℂ := (starRingEnd ℂ) et
  let S : Arr2 := fun _ _ => 0
  let S := upd2 S 0 0 ((Real.sqrt (sech r) : ℝ) : ℂ)
  let S := forRange ((cutoff - 1) / 2) S fun j S => upd2 S (2 + 2 * j) 0 (sqA (2 + 2 * j - 1) / sqA (2 + 2 * j) * R00 * S (2 + 2 * j - 2) 0)
  forRange cutoff S fun m S => forRange2 1 cutoff S fun n S =>
    if (m + n) % 2 = 0 then
      upd2 S m n (sqA (n - 1) / sqA n * R11 * S m (ix cutoff ((n : ℤ) - 2)) + sqA m / sqA n * R01 * S (ix cutoff ((m : ℤ) - 1)) (n - 1))
    else S

/-- `grad_squeezing`, thewalrus/fock_gradients.py:158-182. -/
def gradSqueezing (cutoff : ℕ) (T : Arr2) (r phi : ℝ) : Arr2 × Arr2 :=
  let sechr : ℂ := (sech r : ℂ)
  let tanhr : ℂ := (Real.tanh r : ℂ)
  let e := ei phi
  let ec := ei (-phi)
  let z : Arr2 := fun _ _ => 0
  forRange cutoff (z, z) fun m g => forRange cutoff g fun n g =>
    (upd2 g.1 m n
      (-0.5 * tanhr * T m n - sechr * tanhr * sqA m * sqA n * T (ix cutoff ((m : ℤ) - 1)) (ix cutoff ((n : ℤ) - 1))
        - 0.5 * e * sechr ^ 2 * sqA m * sqA (ix cutoff ((m : ℤ) - 1)) * T (ix cutoff ((m : ℤ) - 2)) n
        + 0.5 * ec * sechr ^ 2 * sqA n * sqA (ix cutoff ((n : ℤ) - 1)) * T m (ix cutoff ((n : ℤ) - 2))),
      upd2 g.2 m n
        (-(0.5 * Complex.I) * e * tanhr * sqA m * sqA (ix cutoff ((m : ℤ) - 1)) * T (ix cutoff ((m : ℤ) - 2)) n
          - 0.5 * Complex.I * ec * tanhr * sqA n * sqA (ix cutoff ((n : ℤ) - 1)) * T m (ix cutoff ((n : ℤ) - 2))))

/-- `two_mode_squeezing`, thewalrus/fock_gradients.py:199-236.  The matrix of the source is negated as there. -/
def twoModeSqueezing (r theta : ℝ) (cutoff : ℕ) : Arr4 :=
  let sc : ℂ := (sech r : ℂ)
  let eiptr : ℂ := ei (-theta) * (Real.tanh r : ℂ)
  let R01 : ℂ := -(-(starRingEnd ℂ) eiptr)
  let R02 : ℂ := -(-sc)
  let R13 : ℂ := -(-sc)
  let R23 : ℂ := -eiptr
  let Z : Arr4 := fun _ _ _ _ => 0
  let Z := upd4 Z 0 0 0 0 sc
  let Z := forRange2 1 cutoff Z fun n Z => upd4 Z n n 0 0 (R01 * Z (n - 1) (n - 1) 0 0)
  let Z := forRange cutoff Z fun m Z => forRange m Z fun n Z =>
    let p := m - n
    if 0 < p ∧ p < cutoff then upd4 Z m n p 0 (R02 * sqA m / sqA p * Z (ix cutoff ((m : ℤ) - 1)) n (p - 1) 0) else Z
  forRange cutoff Z fun m Z => forRange cutoff Z fun n Z => forRange cutoff Z fun p Z =>
    let q : ℤ := (p : ℤ) - ((m : ℤ) - n)
    if 0 < q ∧ q < cutoff then
      upd4 Z m n p q.toNat (R13 * sqA n / sqA q.toNat * Z m (ix cutoff ((n : ℤ) - 1)) p (q.toNat - 1)
        + R23 * sqA p / sqA q.toNat * Z m n (ix cutoff ((p : ℤ) - 1)) (q.toNat - 1))
    else Z

/-- `grad_two_mode_squeezing`, thewalrus/fock_gradients.py:252-301. -/
def gradTwoModeSqueezing (cutoff : ℕ) (T : Arr4) (r theta : ℝ) : Arr4 × Arr4 :=
  let sechr : ℂ := (sech r : ℂ)
  let tanhr : ℂ := (Real.tanh r : ℂ)
  let e := ei theta
  let ec := ei (-theta)
  let z : Arr4 := fun _ _ _ _ => 0
  let g := (upd4 z 0 0 0 0 (-sechr * tanhr), z)
  let g := forRange2 1 cutoff g fun n g =>
    (upd4 g.1 n n 0 0 (-tanhr * T n n 0 0 + sqA n * sqA n * e * sechr ^ 2 * T (n - 1) (n - 1) 0 0),
      upd4 g.2 n n 0 0 (Complex.I * e * tanhr * sqA n * sqA n * T (n - 1) (n - 1) 0 0))
  let g := forRange cutoff g fun m g => forRange m g fun n g =>
    let p := m - n
    if 0 < p ∧ p < cutoff then
      (upd4 g.1 m n p 0
        (-tanhr * T m n p 0 + sqA m * sqA n * e * sechr ^ 2 * T (ix cutoff ((m : ℤ) - 1)) (ix cutoff ((n : ℤ) - 1)) p 0
          - tanhr * sechr * sqA m * sqA p * T (ix cutoff ((m : ℤ) - 1)) n (p - 1) 0),
        upd4 g.2 m n p 0 (Complex.I * e * tanhr * sqA m * sqA n * T (ix cutoff ((m : ℤ) - 1)) (ix cutoff ((n : ℤ) - 1)) p 0))
    else g
  forRange cutoff g fun m g => forRange cutoff g fun n g => forRange cutoff g fun p g => forRange cutoff g fun q g =>
    (upd4 g.1 m n p q
      (-tanhr * T m n p q
        + sqA m * sqA n * e * sechr ^ 2 * T (ix cutoff ((m : ℤ) - 1)) (ix cutoff ((n : ℤ) - 1)) p q
        - tanhr * sechr * sqA m * sqA p * T (ix cutoff ((m : ℤ) - 1)) n (ix cutoff ((p : ℤ) - 1)) q
        - tanhr * sechr * sqA n * sqA q * T m (ix cutoff ((n : ℤ) - 1)) p (ix cutoff ((q : ℤ) - 1))
        - sqA p * sqA q * ec * sechr ^ 2 * T m n (ix cutoff ((p : ℤ) - 1)) (ix cutoff ((q : ℤ) - 1))),
      upd4 g.2 m n p q
        (Complex.I * e * tanhr * sqA m * sqA n * T (ix cutoff ((m : ℤ) - 1)) (ix cutoff ((n : ℤ) - 1)) p q
          + Complex.I * ec * tanhr * sqA p * sqA q * T m n (ix cutoff ((p : ℤ) - 1)) (ix cutoff ((q : ℤ) - 1))))

/-- The two loops shared by `beamsplitter` and `mzgate`, thewalrus/fock_gradients.py:329-352 and 433-456 (the same text). -/
def interferometerLoops (R02 R03 R12 R13 : ℂ) (cutoff : ℕ) : Arr4 :=
  let Z : Arr4 := fun _ _ _ _ => 0
  let Z := upd4 Z 0 0 0 0 1
  let Z := forRange cutoff Z fun m Z => forRange (cutoff - m) Z fun n Z =>
    let p := m + n
    if 0 < p ∧ p < cutoff then
      upd4 Z m n p 0 (R02 * sqA m / sqA p * Z (ix cutoff ((m : ℤ) - 1)) n (p - 1) 0
        + R12 * sqA n / sqA p * Z m (ix cutoff ((n : ℤ) - 1)) (p - 1) 0)
    else Z
  forRange cutoff Z fun m Z => forRange cutoff Z fun n Z => forRange cutoff Z fun p Z =>
    let q : ℤ := (m : ℤ) + n - p
    if 0 < q ∧ q < cutoff then
      upd4 Z m n p q.toNat (R03 * sqA m / sqA q.toNat * Z (ix cutoff ((m : ℤ) - 1)) n p (q.toNat - 1)
        + R13 * sqA n / sqA q.toNat * Z m (ix cutoff ((n : ℤ) - 1)) p (q.toNat - 1))
    else Z

/-- `beamsplitter`, thewalrus/fock_gradients.py:317-352. -/
def beamsplitter (theta phi : ℝ) (cutoff : ℕ) : Arr4 :=
  let ct : ℂ := (Real.cos theta : ℂ)
  let st : ℂ := (Real.sin theta : ℂ) * ei phi
  interferometerLoops ct (-(starRingEnd ℂ) st) st ct cutoff

/-- `grad_beamsplitter`, thewalrus/fock_gradients.py:367-405. -/
def gradBeamsplitter (cutoff : ℕ) (T : Arr4) (theta phi : ℝ) : Arr4 × Arr4 :=
  let ct : ℂ := (Real.cos theta : ℂ)
  let st : ℂ := (Real.sin theta : ℂ)
  let e := ei phi
  let ec := ei (-phi)
  let z : Arr4 := fun _ _ _ _ => 0
  let g := forRange cutoff (z, z) fun m g => forRange (cutoff - m) g fun n g =>
    let p := m + n
    if 0 < p ∧ p < cutoff then
      (upd4 g.1 m n p 0
        (-sqA m * sqA p * st * T (ix cutoff ((m : ℤ) - 1)) n (p - 1) 0 + sqA n * sqA p * e * ct * T m (ix cutoff ((n : ℤ) - 1)) (p - 1) 0),
        upd4 g.2 m n p 0 (Complex.I * sqA n * sqA p * e * st * T m (ix cutoff ((n : ℤ) - 1)) (p - 1) 0))
    else g
  forRange cutoff g fun m g => forRange cutoff g fun n g => forRange cutoff g fun p g =>
    let q : ℤ := (m : ℤ) + n - p
    if 0 < q ∧ q < cutoff then
      (upd4 g.1 m n p q.toNat
        (-sqA m * sqA p * st * T (ix cutoff ((m : ℤ) - 1)) n (ix cutoff ((p : ℤ) - 1)) q.toNat
          - sqA n * sqA q.toNat * st * T m (ix cutoff ((n : ℤ) - 1)) p (q.toNat - 1)
          + sqA n * sqA p * e * ct * T m (ix cutoff ((n : ℤ) - 1)) (ix cutoff ((p : ℤ) - 1)) q.toNat
          - sqA m * sqA q.toNat * ec * ct * T (ix cutoff ((m : ℤ) - 1)) n p (q.toNat - 1)),
        upd4 g.2 m n p q.toNat
          (Complex.I * sqA n * sqA p * e * st * T m (ix cutoff ((n : ℤ) - 1)) (ix cutoff ((p : ℤ) - 1)) q.toNat
            + Complex.I * sqA m * sqA q.toNat * ec * st * T (ix cutoff ((m : ℤ) - 1)) n p (q.toNat - 1)))
    else g

/-- `mzgate`, thewalrus/fock_gradients.py:421-456. -/
def mzgate (theta phi : ℝ) (cutoff : ℕ) : Arr4 :=
  let v := ei theta
  let u := ei phi
  interferometerLoops (0.5 * (u * (v - 1))) (0.5 * (Complex.I * (1 + v))) (0.5 * (Complex.I * u * (1 + v))) (0.5 * (1 - v)) cutoff

/-- `grad_mzgate`, thewalrus/fock_gradients.py:471-510. -/
def gradMzgate (cutoff : ℕ) (T : Arr4) (theta phi : ℝ) : Arr4 × Arr4 :=
  let v := ei theta
  let u := ei phi
  let z : Arr4 := fun _ _ _ _ => 0
  let g := forRange cutoff (z, z) fun m g => forRange (cutoff - m) g fun n g =>
    let p := m + n
    if 0 < p ∧ p < cutoff then
      (upd4 g.1 m n p 0
        (Complex.I * 0.5 * u * v * sqA m * sqA p * T (ix cutoff ((m : ℤ) - 1)) n (p - 1) 0
          - 0.5 * u * v * sqA n * sqA p * T m (ix cutoff ((n : ℤ) - 1)) (p - 1) 0),
        upd4 g.2 m n p 0
          ((Complex.I * 0.5 * u * v - Complex.I * 0.5 * u) * sqA m * sqA p * T (ix cutoff ((m : ℤ) - 1)) n (p - 1) 0
            - (0.5 * u + 0.5 * u * v) * sqA n * sqA p * T m (ix cutoff ((n : ℤ) - 1)) (p - 1) 0))
    else g
  forRange cutoff g fun m g => forRange cutoff g fun n g => forRange cutoff g fun p g =>
    let q : ℤ := (m : ℤ) + n - p
    if 0 < q ∧ q < cutoff then
      (upd4 g.1 m n p q.toNat
        (Complex.I * 0.5 * u * v * sqA m * sqA p * T (ix cutoff ((m : ℤ) - 1)) n (ix cutoff ((p : ℤ) - 1)) q.toNat
          - 0.5 * u * v * sqA n * sqA p * T m (ix cutoff ((n : ℤ) - 1)) (ix cutoff ((p : ℤ) - 1)) q.toNat
          - 0.5 * v * sqA m * sqA q.toNat * T (ix cutoff ((m : ℤ) - 1)) n p (q.toNat - 1)
          - Complex.I * 0.5 * v * sqA n * sqA q.toNat * T m (ix cutoff ((n : ℤ) - 1)) p (q.toNat - 1)),
        upd4 g.2 m n p q.toNat
          ((Complex.I * 0.5 * u * v - Complex.I * 0.5 * u) * sqA m * sqA p * T (ix cutoff ((m : ℤ) - 1)) n (ix cutoff ((p : ℤ) - 1)) q.toNat
            - (0.5 * u + 0.5 * u * v) * sqA n * sqA p * T m (ix cutoff ((n : ℤ) - 1)) (ix cutoff ((p : ℤ) - 1)) q.toNat))
    else g

end

end Verif.Model.FG
