/-
Model of thewalrus/_torontonian.py: tor, ltor, the recursive and non-recursive implementations, and threshold_detection_prob.
All arrays have complex dtype here (for real dtype the conjugations are trivial and a negative radicand gives `nan` instead of an imaginary
root; the theorems only concern positive radicands).
-/
import Verif.Model.Conversions
import Verif.Model.PermanentOther
import Verif.Model.HafnianOther
import Mathlib.Analysis.SpecialFunctions.Pow.Complex
import Mathlib.Analysis.SpecialFunctions.Exp

namespace Verif.Model.Tor
open Verif.Model.Symp Verif.Model.Conv

noncomputable section

/-- `np.sqrt` on complex numbers: the principal branch. -/
def csqrt (z : ℂ) : ℂ := z ^ (1 / 2 : ℂ)

/-- A Python argument where a 2-d array is expected (no NaN entries). -/
inductive Mat2
  | other
  | arr (rows cols : ℕ) (entry : ℕ → ℕ → ℂ)

/-- A Python argument where a 1-d array is expected. -/
inductive Vec1
  | other
  | arr (len : ℕ) (entry : ℕ → ℂ)

/-- `tor_input_checks`, thewalrus/_torontonian.py:23-44: `loops = none` is Python's `None`; returns the size and the entries. -/
def torInputChecks (A : Mat2) (loops : Option Vec1) : Except PyErr (ℕ × (ℕ → ℕ → ℂ) × (ℕ → ℂ)) :=
  match A with
  | .other => .error .typeError
  | .arr r c e =>
    if r ≠ c then .error .valueError
    else if r % 2 ≠ 0 then .error .valueError
    else match loops with
      | none => .ok (r, e, fun _ => 0)
      | some .other => .error .typeError
      | some (.arr l g) => if r ≠ l then .error .valueError else .ok (r, e, g)

/-- `np.concatenate((kept_modes, kept_modes + N))` as an index function, thewalrus/_torontonian.py:147, 397: `k` kept modes. -/
def keptIdx (N : ℕ) (kept : List ℕ) (a : ℕ) : ℕ := if a < kept.length then kept.getD a 0 else kept.getD (a - kept.length) 0 + N

/-- Body of the `prange` loop of `numba_tor`, thewalrus/_torontonian.py:141-152. -/
def torStep (N : ℕ) (O : ℕ → ℕ → ℂ) (j : ℕ) (total : ℂ) : ℂ :=
  let X := keptRows N j
  let lenX := X.length
  let plusminus : ℂ := (-1) ^ ((((N % 2 : ℕ) : ℤ) - ((lenX % 2 : ℕ) : ℤ)) % 2).toNat
  let M := toMatrix (2 * lenX) (2 * lenX) fun a b => eye a b - O (keptIdx N X a) (keptIdx N X b)
  total + plusminus / csqrt ((M.det.re : ℝ) : ℂ)

/-- `numba_tor`, thewalrus/_torontonian.py:121-154, executed sequentially. -/
def numbaTor (dim : ℕ) (O : ℕ → ℕ → ℂ) : ℂ :=
  let N := dim / 2
  (List.range (2 ^ N)).foldl (fun total j => torStep N O j total) 0

/-- Body of the `prange` loop of `numba_ltor`, thewalrus/_torontonian.py:391-410. -/
def ltorStep (N : ℕ) (O : ℕ → ℕ → ℂ) (gamma : ℕ → ℂ) (j : ℕ) (total : ℂ) : Except PyErr ℂ := do
  let X := keptRows N j
  let lenX := X.length
  let plusminus : ℂ := (-1) ^ ((((N % 2 : ℕ) : ℤ) - ((lenX % 2 : ℕ) : ℤ)) % 2).toNat
  let M : ℕ → ℕ → ℂ := fun a b => eye a b - O (keptIdx N X a) (keptIdx N X b)
  let Minv ← npInv (2 * lenX) M
  let gX : ℕ → ℂ := fun a => gamma (keptIdx N X a)
  let top := Complex.exp ((1 / 2) * dot (2 * lenX) (fun b => dot (2 * lenX) gX fun a => Minv a b) fun b => (starRingEnd ℂ) (gX b))
  pure (total + plusminus * top / csqrt (((toMatrix (2 * lenX) (2 * lenX) M).det.re : ℝ) : ℂ))

/-- `numba_ltor`, thewalrus/_torontonian.py:369-412, executed sequentially. -/
def numbaLtor (dim : ℕ) (O : ℕ → ℕ → ℂ) (gamma : ℕ → ℂ) : Except PyErr ℂ :=
  let N := dim / 2
  (List.range (2 ^ N)).foldlM (fun total j => ltorStep N O gamma j total) 0

/-- `quad_cholesky`, thewalrus/_torontonian.py:157-186: `len` is `len(mat)`. -/
def quadCholesky (L : ℕ → ℕ → ℂ) (Z : List ℕ) (idx len : ℕ) (mat : ℕ → ℕ → ℂ) : ℕ → ℕ → ℂ :=
  forRange2 idx len (fun i j => L (Z.getD i 0) (Z.getD j 0)) fun i Ls =>
    let Ls := forRange2 idx i Ls fun j Ls =>
      let z := forRange j 0 fun k z => z + Ls i k * (starRingEnd ℂ) (Ls j k)
      upd2 Ls i j ((mat i j - z) / Ls j j)
    let z := forRange i 0 fun k z => z + Ls i k * (starRingEnd ℂ) (Ls i k)
    upd2 Ls i i (((csqrt (mat i i - z)).re : ℝ) : ℂ)

/-- `np.concatenate((np.arange(idx), np.arange(idx + 2, nm * 2)), axis=0)`, thewalrus/_torontonian.py:216, 303. -/
def dropPair (idx nm : ℕ) : List ℕ := List.range idx ++ List.range' (idx + 2) (2 * nm - (idx + 2))

/-- `np.square(np.prod(np.diag(Ls)))` of a `d × d` array, thewalrus/_torontonian.py:221, 246, 307, 340. -/
def sqDiag (d : ℕ) (L : ℕ → ℕ → ℂ) : ℂ := (((List.range d).map fun i => L i i).prod) ^ 2

/-- the index `start` of `recursiveTor`, `recursiveLTor`, thewalrus/_torontonian.py:208-211, 296-299. -/
def startOf (modes : List ℕ) : ℕ := if modes.length = 0 then 0 else modes.getLastD 0 + 1

/-- `recursiveTor`, thewalrus/_torontonian.py:189-224: `len` is `len(A)`; `fuel` bounds the recursion depth (the theorems hold for every fuel
above `n`). -/
def recursiveTor : ℕ → (ℕ → ℕ → ℂ) → List ℕ → ℕ → (ℕ → ℕ → ℂ) → ℕ → ℂ
  | 0, _, _, _, _, _ => 0
  | fuel + 1, L, modes, len, A, n =>
    forRange2 (startOf modes) n 0 fun i tot =>
      let nextModes := modes ++ [i]
      let nm := len / 2
      let idx := (i - modes.length) * 2
      let Z := dropPair idx nm
      let nm' := nm - 1
      let Az : ℕ → ℕ → ℂ := fun a b => A (Z.getD a 0) (Z.getD b 0)
      let Ls := quadCholesky L Z idx (2 * nm') fun a b => eye a b - Az a b
      let det := sqDiag (2 * nm') Ls
      tot + ((-1) ^ nextModes.length / csqrt det + recursiveTor fuel Ls nextModes (2 * nm') Az n)

/-- the interleaving index `Z` of `rec_torontonian`, thewalrus/_torontonian.py:241-243, 334-336: `Z[0::2] = arange(n)`, `Z[1::2] = arange(n, 2n)`. -/
def interleave (n a : ℕ) : ℕ := if a % 2 = 0 then a / 2 else n + a / 2

/-- `rec_torontonian`, thewalrus/_torontonian.py:227-247; `chol` is `np.linalg.cholesky` (first argument: the size). -/
def recTorontonian (chol : ℕ → (ℕ → ℕ → ℂ) → Except PyErr (ℕ → ℕ → ℂ)) (dim : ℕ) (A : ℕ → ℕ → ℂ) : Except PyErr ℂ := do
  let n := dim / 2
  let A' : ℕ → ℕ → ℂ := fun a b => A (interleave n a) (interleave n b)
  let L ← chol (2 * n) fun a b => eye a b - A' a b
  pure (1 / csqrt (sqDiag (2 * n) L) + recursiveTor (n + 1) L [] (2 * n) A' n)

/-- `solve_triangular`, thewalrus/_torontonian.py:250-272. -/
def solveTriangular (n : ℕ) (L : ℕ → ℕ → ℂ) (y : ℕ → ℂ) : ℕ → ℂ :=
  forRange n y fun j x =>
    if x j = 0 then x
    else
      let x := Function.update x j (x j / L j j)
      let temp := x j
      forRange2 (j + 1) n x fun i x => Function.update x i (x i - temp * L i j)

/-- `x.conj().T @ x` of a vector. -/
def normSq1 (d : ℕ) (x : ℕ → ℂ) : ℂ := dot d (fun a => (starRingEnd ℂ) (x a)) x

/-- `recursiveLTor`, thewalrus/_torontonian.py:275-314. -/
def recursiveLTor : ℕ → (ℕ → ℕ → ℂ) → List ℕ → ℕ → (ℕ → ℕ → ℂ) → ℕ → (ℕ → ℂ) → ℂ
  | 0, _, _, _, _, _, _ => 0
  | fuel + 1, L, modes, len, A, n, gammaL =>
    forRange2 (startOf modes) n 0 fun i tot =>
      let nextModes := modes ++ [i]
      let nm := len / 2
      let idx := (i - modes.length) * 2
      let Z := dropPair idx nm
      let nm' := nm - 1
      let Az : ℕ → ℕ → ℂ := fun a b => A (Z.getD a 0) (Z.getD b 0)
      let Ls := quadCholesky L Z idx (2 * nm') fun a b => eye a b - Az a b
      let det := sqDiag (2 * nm') Ls
      let gammaX : ℕ → ℂ := fun a => gammaL (Z.getD a 0)
      let Lsinv := solveTriangular (2 * nm') Ls fun a => (starRingEnd ℂ) (gammaX a)
      let lc := normSq1 (2 * nm') Lsinv
      tot + ((-1) ^ nextModes.length * Complex.exp (1 / 2 * lc) / csqrt det + recursiveLTor fuel Ls nextModes (2 * nm') Az n gammaX)

/-- `rec_ltorontonian`, thewalrus/_torontonian.py:317-345. -/
def recLtorontonian (chol : ℕ → (ℕ → ℕ → ℂ) → Except PyErr (ℕ → ℕ → ℂ)) (dim : ℕ) (A : ℕ → ℕ → ℂ) (gamma : ℕ → ℂ) : Except PyErr ℂ := do
  let n := dim / 2
  let A' : ℕ → ℕ → ℂ := fun a b => A (interleave n a) (interleave n b)
  let gamma' : ℕ → ℂ := fun a => gamma (interleave n a)
  let L ← chol (2 * n) fun a b => eye a b - A' a b
  let Ls := solveTriangular (2 * n) L fun a => (starRingEnd ℂ) (gamma' a)
  let lc := normSq1 (2 * n) Ls
  pure (Complex.exp (1 / 2 * lc) / csqrt (sqDiag (2 * n) L) + recursiveLTor (n + 1) L [] (2 * n) A' n gamma')

/-- `tor`, thewalrus/_torontonian.py:47-58. -/
def tor (chol : ℕ → (ℕ → ℕ → ℂ) → Except PyErr (ℕ → ℕ → ℂ)) (A : Mat2) (recursive : Bool) : Except PyErr ℂ := do
  let r ← torInputChecks A none
  if recursive then recTorontonian chol r.1 r.2.1 else .ok (numbaTor r.1 r.2.1)

/-- `ltor`, thewalrus/_torontonian.py:61-74. -/
def ltor (chol : ℕ → (ℕ → ℕ → ℂ) → Except PyErr (ℕ → ℕ → ℂ)) (A : Mat2) (gamma : Vec1) (recursive : Bool) : Except PyErr ℂ := do
  let r ← torInputChecks A (some gamma)
  if recursive then recLtorontonian chol r.1 r.2.1 r.2.2 else numbaLtor r.1 r.2.1 r.2.2

/-- `numba_vac_prob`, thewalrus/_torontonian.py:348-366, for `dim`-dimensional arrays. -/
def numbaVacProb (dim : ℕ) (alpha : ℕ → ℂ) (sigma : ℕ → ℕ → ℂ) : Except PyErr ℝ := do
  let inv ← npInv dim sigma
  let e := Complex.exp (dot dim (fun b => dot dim (fun a => -(1 / 2) * (starRingEnd ℂ) (alpha a)) fun a => inv a b) alpha)
  pure (((e.re : ℝ) : ℂ) / csqrt (toMatrix dim dim sigma).det).re

/-- `reduced_gaussian`, thewalrus/quantum/conversions.py:22-52, called with an integer index array (`np.where(...)[0]`): unlike for a list, the
empty array is a valid index. -/
def reducedGaussianInt (s : GState ℂ) (modes : List ℕ) : Except PyErr (GState ℂ) :=
  if modes = [] ∧ s.len / 2 ≠ 0 then .ok { len := 0, mu := fun _ => 0, cov := fun _ _ => 0 } else reducedGaussian s modes

/-- `threshold_detection_prob`, thewalrus/_torontonian.py:77-120: `closeMu x` is `np.isclose(x, 0)`; `det_pattern` is a list of non-negative
integers (one per mode, otherwise the index arrays run out of range and numpy raises). -/
def thresholdProb (chol : ℕ → (ℕ → ℕ → ℂ) → Except PyErr (ℕ → ℕ → ℂ)) (closeMu : ℝ → Bool) (s : GState ℝ) (pattern : List ℕ) (hbar : ℝ) : Except PyErr ℂ :=
  let n := s.len / 2
  if (List.range s.len).all fun i => closeMu (s.mu i) then do
    let Q := Qmat n s.cov hbar
    let Qinv ← npInv (2 * n) Q
    let O : ℕ → ℕ → ℂ := fun a b => eye a b - Qinv a b
    let Os := reduction2 O (pattern ++ pattern)
    let t ← tor chol (.arr Os.1 Os.1 Os.2) true
    pure (t / csqrt (toMatrix (2 * n) (2 * n) Q).det)
  else do
    let alpha : ℕ → ℂ := fun a =>
      (if a < n then (s.mu a : ℂ) + Complex.I * s.mu (n + a) else (s.mu (a - n) : ℂ) - Complex.I * s.mu (n + (a - n))) / (Real.sqrt (2 * hbar) : ℝ)
    let sigma : ℕ → ℕ → ℂ := fun a b => (starRingEnd ℂ) (Qmat n s.cov hbar a b)
    let invSigma ← npInv (2 * n) sigma
    let O : ℕ → ℕ → ℂ := fun a b => eye a b - invSigma a b
    let gamma : ℕ → ℂ := fun a => (starRingEnd ℂ) (dot (2 * n) (invSigma a) alpha)
    let red ← reducedGaussianInt { len := 2 * n, mu := gamma, cov := O } ((List.range pattern.length).filter fun i => pattern.getD i 0 = 1)
    let vp ← numbaVacProb (2 * n) alpha sigma
    let lt ← numbaLtor red.len red.cov red.mu
    pure ((vp * lt.re : ℝ) : ℂ)

end

end Verif.Model.Tor
