/-
Model of the stochastic approximation of the hafnian (`approx=True`), as a random program (see Model/SamplerLaws.lean): it is modelled by its expectation functional.
-/
import Verif.Model.SamplerLaws
import Verif.Model.Hafnian
import Mathlib.LinearAlgebra.Matrix.Determinant.Basic

set_option linter.style.longLine false

namespace Verif.Model.Law
open Verif.Model.Disting

noncomputable section

/-- the loop of `_one_det`, thewalrus/_hafnian.py:1062-1065, for an `n × n` array: `g` are the normal variables in the order in which they are drawn, `empty` the arbitrary content of `np.empty_like` -/
def oneDetFill (n : ℕ) (B : ℕ → ℕ → ℝ) (g : ℕ → ℝ) (empty : ℕ → ℕ → ℝ) : ℕ → ℕ → ℝ :=
  forRange n empty fun i mat => forRange n mat fun j mat =>
    let mat := upd2 mat i j (B i j * g (n * i + j))
    upd2 mat j i (-mat i j)

/-- `_one_det`, thewalrus/_hafnian.py:1048-1066; the determinant is Mathlib's. -/
def oneDet (n : ℕ) (B : ℕ → ℕ → ℝ) (empty : ℕ → ℕ → ℝ) : Expect ℝ := do
  let g ← normals (n * n)
  pure (Matrix.det (Matrix.of fun i j : Fin n => oneDetFill n B g empty i j))

/-- `hafnian_approx`, thewalrus/_hafnian.py:1069-1087.  The content of `np.empty_like` is the same in each call (its entries are all overwritten). -/
def hafnianApprox (n : ℕ) (A : ℕ → ℕ → ℝ) (numSamples : ℕ) (empty : ℕ → ℕ → ℝ) : Expect ℝ := do
  let dets ← repeatE (oneDet n (fun i j => Real.sqrt (A i j)) empty) numSamples
  pure (dets.sum / (numSamples : ℝ))

/-- `hafnian` with `approx=True`, thewalrus/_hafnian.py:757-811, for real arrays.  (`method` is not used on this path.) -/
def hafnianApproxFront (close : ℝ → ℝ → Bool) (A : PyObj ℝ) (loop : Bool) (numSamples : ℕ) (empty : ℕ → ℕ → ℝ) : Except PyErr (Expect ℝ) := do
  let (n, a) ← inputValidation close A
  if n = 0 then pure (pure 1)
  else if n % 2 ≠ 0 ∧ loop = false then pure (pure 0)
  else if allClose2 close n n (diagDiag a) a then
    if loop then pure (pure (((List.range n).map fun i => a i i).prod)) else pure (pure 0)
  else if n = 2 then
    if loop then pure (pure (a 0 1 + a 0 0 * a 1 1)) else pure (pure (a 0 1))
  else if n = 3 ∧ loop = true then
    pure (pure (a 0 0 * a 1 2 + a 1 1 * a 0 2 + a 2 2 * a 0 1 + a 0 0 * a 1 1 * a 2 2))
  else if n = 4 then
    if loop then
      pure (pure (a 0 1 * a 2 3 + a 0 2 * a 1 3 + a 0 3 * a 1 2
        + a 0 0 * a 1 1 * a 2 3 + a 0 1 * a 2 2 * a 3 3 + a 0 2 * a 1 1 * a 3 3
        + a 0 0 * a 2 2 * a 1 3 + a 0 0 * a 3 3 * a 1 2 + a 0 3 * a 1 1 * a 2 2
        + a 0 0 * a 1 1 * a 2 2 * a 3 3))
    else pure (pure (a 0 1 * a 2 3 + a 0 2 * a 1 3 + a 0 3 * a 1 2))
  else if (List.range n).any (fun i => (List.range n).any fun j => decide (a i j < 0)) then .error .valueError
  else pure (hafnianApprox n a numSamples empty)

end

end Verif.Model.Law
