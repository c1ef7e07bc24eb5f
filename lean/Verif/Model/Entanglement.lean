/-
Model of thewalrus/quantum/entanglement.py.
-/
import Verif.Model.Decompositions
import Mathlib.Analysis.SpecialFunctions.Log.Basic

namespace Verif.Model.Ent
open Verif.Model Verif.Model.Symp Verif.Model.Checks Verif.Model.Dec Verif.Spec

/-- A Python object where an integer is expected: an `int`, or anything else (numpy integers are not instances of `int`). -/
inductive PyInt
  | int (z : ℤ)
  | other
  deriving DecidableEq

/-- The argument `modes_A`: `None`, an `int`, a `range`, `list`, `tuple` or array with its items, or an object of another type. -/
inductive ModesArg
  | none
  | int (z : ℤ)
  | seq (items : List PyInt)
  | other

/-- `not isinstance(mode, int) or mode < 0 or mode > M - 1`, thewalrus/quantum/entanglement.py:43. -/
def badMode (M : ℕ) : PyInt → Bool
  | .other => true
  | .int z => decide (z < 0 ∨ z > (M : ℤ) - 1)

/-- the integer value of an item that passed the check -/
def PyInt.toNat : PyInt → ℕ
  | .other => 0
  | .int z => z.toNat

/-- `get_partition`, thewalrus/quantum/entanglement.py:24-57. -/
def getPartition (modesA : ModesArg) (split : Option PyInt) (M : ℕ) : Except PyErr (List ℕ) :=
  match modesA with
  | .other => .error .typeError
  | .int z => if badMode M (.int z) then .error .valueError else .ok [z.toNat]
  | .seq items => if items.any (badMode M) then .error .valueError else .ok (items.map PyInt.toNat)
  | .none =>
    match split with
    | none => .error .typeError
    | some .other => .error .valueError
    | some (.int z) => if z > (M : ℤ) - 1 then .error .valueError else .ok (List.range z.toNat)

noncomputable section

/-- `vonneumann_entropy`, thewalrus/quantum/entanglement.py:60-86, for an `n × m` array; `close` is the elementwise test of `np.allclose` and
`np.isclose`, `atol` the tolerance of `is_valid_cov`.  The symplectic eigenvalues are real numbers stored in a complex array. -/
def vonneumannEntropy (eigvals : ℕ → RArr → ℕ → ℂ) (close : ℝ → ℝ → Bool) (atol : ℝ) (n m : ℕ) (cov : RArr) (hbar : ℝ) : Except PyErr ℝ :=
  if ¬ isValidCov close n m cov hbar atol then .error .valueError
  else
    let cov' : RArr := fun i j => cov i j / (hbar / 2)
    let nus := (symplecticEigenvals eigvals n cov').map Complex.re
    .ok (nus.foldl (fun S nu =>
      if ¬ close nu 1 then S + ((nu + 1) / 2 * Real.log ((nu + 1) / 2) - (nu - 1) / 2 * Real.log ((nu - 1) / 2)) else S) 0)

/-- `entanglement_entropy`, thewalrus/quantum/entanglement.py:89-117, for an `n × m` array. -/
def entanglementEntropy (eigvals : ℕ → RArr → ℕ → ℂ) (close : ℝ → ℝ → Bool) (atol : ℝ) (n m : ℕ) (cov : RArr) (modesA : ModesArg) (split : Option PyInt)
    (hbar : ℝ) : Except PyErr ℝ :=
  if ¬ isPureCov close n m cov hbar atol then .error .valueError
  else do
    let cov' : RArr := fun i j => cov i j / (hbar / 2)
    let M := n / 2
    let modes ← getPartition modesA split M
    let r ← reducedGaussian { len := 2 * M, mu := fun _ => 0, cov := cov' } modes
    vonneumannEntropy eigvals close atol r.len r.len r.cov 2

/-- `log_negativity`, thewalrus/quantum/entanglement.py:120-149, for an `n × m` array. -/
def logNegativity (eigvals : ℕ → RArr → ℕ → ℂ) (close : ℝ → ℝ → Bool) (atol : ℝ) (n m : ℕ) (cov : RArr) (modesA : ModesArg) (split : Option PyInt)
    (hbar : ℝ) : Except PyErr ℝ :=
  if ¬ isValidCov close n m cov hbar atol then .error .valueError
  else do
    let cov' : RArr := fun i j => cov i j / (hbar / 2)
    let M := n / 2
    let modes ← getPartition modesA split M
    let S : ℕ → ℝ := fun i => if i < M then 1 else if i - M ∈ modes then -1 else 1
    let tilde : RArr := fun i j => S i * cov' i j * S j
    let nus := (symplecticEigenvals eigvals n tilde).map Complex.re
    pure ((nus.filter fun nu => nu < 1).map fun nu => -Real.log nu).sum

end

end Verif.Model.Ent
