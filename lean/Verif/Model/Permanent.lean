/-
Model of thewalrus/_permanent.py: perm, perm_ryser, perm_bbfg.
-/
import Verif.Py
import Mathlib.Algebra.BigOperators.Group.Finset.Basic

namespace Verif.Model

variable {K : Type} [Field K]

/-- `np.prod(v)` of a vector of length `n`. -/
def npProd (n : ℕ) (v : ℕ → K) : K := (List.range n).foldl (fun acc i => acc * v i) 1

/-- `list.index(x)`: position of the first occurrence; raises `ValueError` when absent. -/
def pyIndex (l : List ℕ) (x : ℕ) : Except PyErr ℕ :=
  match l.idxOf? x with
  | some i => .ok i
  | none => .error .valueError

/-- `(old > new) - (old < new)` on integers. -/
def direction (old new : ℕ) : ℤ := (if old > new then 1 else 0) - (if old < new then 1 else 0)

/-- Loop state of `perm_ryser` / `perm_bbfg`: running total, row combination, previous Gray code, sign. -/
structure GrayState (K : Type) where
  total : K
  rowComb : ℕ → K
  old : ℕ
  sign : K

/-- Body of the loop of `perm_ryser`, thewalrus/_permanent.py:113-125.
`bin_index ^ (bin_index // 2)` is `Nat.xor`. -/
def ryserBody (n : ℕ) (M : ℕ → ℕ → K) (k : ℕ) (s : GrayState K) : Except PyErr (GrayState K) := do
  let numLoops := 2 ^ n
  let binIndex := (k + 1) % numLoops
  let reduced := npProd n s.rowComb
  let total := s.total + s.sign * reduced
  let newGrey := binIndex ^^^ (binIndex / 2)
  let greyDiff := s.old ^^^ newGrey
  let idx ← pyIndex ((List.range n).map (2 ^ ·)) greyDiff
  let d := direction s.old newGrey
  pure { total := total
         rowComb := fun i => s.rowComb i + M idx i * (d : K)
         old := newGrey
         sign := -s.sign }

/-- `perm_ryser`, thewalrus/_permanent.py:87-127. -/
def permRyser (n : ℕ) (M : ℕ → ℕ → K) : Except PyErr K :=
  if n = 0 then .ok 1 else do
    let s ← (List.range (2 ^ n)).foldlM (fun s k => ryserBody n M k s)
      { total := 0, rowComb := fun _ => 0, old := 0, sign := 1 }
    pure s.total

/-- Body of the loop of `perm_bbfg`, thewalrus/_permanent.py:156-167. -/
def bbfgBody (n : ℕ) (M : ℕ → ℕ → K) (binIndex : ℕ) (s : GrayState K) : Except PyErr (GrayState K) := do
  let reduced := npProd n s.rowComb
  let total := s.total + s.sign * reduced
  let newGray := binIndex ^^^ (binIndex / 2)
  let grayDiff := s.old ^^^ newGray
  let idx ← pyIndex ((List.range n).map (2 ^ ·)) grayDiff
  let d := 2 * direction s.old newGray
  pure { total := total
         rowComb := fun i => s.rowComb i + M idx i * (d : K)
         old := newGray
         sign := -s.sign }

/-- `perm_bbfg`, thewalrus/_permanent.py:131-168.  `np.sum(M, 0)` is the vector of column sums. -/
def permBbfg (n : ℕ) (M : ℕ → ℕ → K) : Except PyErr K :=
  if n = 0 then .ok 1 else do
    let numLoops := 2 ^ (n - 1)
    let s ← ((List.range numLoops).map (· + 1)).foldlM (fun s b => bbfgBody n M b s)
      { total := 0
        rowComb := fun i => (List.range n).foldl (fun acc r => acc + M r i) 0
        old := 0
        sign := 1 }
    pure (s.total / (numLoops : K))

/-- `perm`, thewalrus/_permanent.py:34-83: argument checks, explicit formulas for n ≤ 3, then the
method switch (`isRyser = method != "bbfg"`). -/
def perm (A : PyObj K) (method : String) : Except PyErr K :=
  match A with
  | .other => .error .typeError
  | .arr rows cols e =>
    if rows ≠ cols then .error .valueError
    else if (List.range rows).any (fun i => (List.range cols).any fun j => (e i j).isNone) then
      .error .valueError
    else
      let a : ℕ → ℕ → K := fun i j => (e i j).getD 0
      if rows = 0 then .ok 1
      else if rows = 1 then .ok (a 0 0)
      else if rows = 2 then .ok (a 0 0 * a 1 1 + a 0 1 * a 1 0)
      else if rows = 3 then
        .ok (a 0 2 * a 1 1 * a 2 0
          + a 0 1 * a 1 2 * a 2 0
          + a 0 2 * a 1 0 * a 2 1
          + a 0 0 * a 1 2 * a 2 1
          + a 0 1 * a 1 0 * a 2 2
          + a 0 0 * a 1 1 * a 2 2)
      else if method ≠ "bbfg" then permRyser rows a
      else permBbfg rows a

end Verif.Model
