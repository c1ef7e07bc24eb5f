/-
Model of the rest of thewalrus/_permanent.py: permanent_repeated, brs, ubrs, fock_prob, fock_threshold_prob.
-/
import Verif.Model.Permanent
import Verif.Model.Hafnian
import Verif.Model.Tolerance
import Mathlib.Data.Nat.Factorial.Basic

namespace Verif.Model

/-- `permanent_repeated`, thewalrus/_permanent.py:171-195.  `np.hstack([A.T, O])` needs `A.shape[1] == A.shape[0]`,
otherwise numpy raises `ValueError`; an object without `.shape` raises `AttributeError`.  `rpt * 2` is list repetition
(`rpt` is a list). `close` stands for `np.allclose` with the default tolerances of `hafnian_repeated`, whose default
`glynn` is `True`. -/
def permanentRepeated {K : Type} [Field K] (pt : PowerTrace K) (close : K → K → Bool) (A : PyObj K) (rpt : List ℤ) :
    Except PyErr K :=
  match A with
  | .other => .error .attributeError
  | .arr n c e =>
    if c ≠ n then .error .valueError
    else
      let B : ℕ → ℕ → Option K := fun i j =>
        if i < n then (if j < n then some 0 else e i (j - n))
        else (if j < n then e j (i - n) else some 0)
      hafnianRepeated pt close (.arr (2 * n) (2 * n) B) (rpt ++ rpt) none false true

section
variable {K : Type} [RCLike K]

/-- `np.where(find_kept_edges(j, ones) != 0)[0]`, thewalrus/_permanent.py:220, 245. -/
def keptRows (m j : ℕ) : List ℕ :=
  let d := findKeptEdges j (List.replicate m 1)
  (List.range d.length).filter fun i => d.getD i 0 ≠ 0

/-- `Ay.conj().T @ Ay` with `Ay = A[rows, :]`. -/
def gramRows (A : ℕ → ℕ → K) (rows : List ℕ) (a b : ℕ) : K :=
  (rows.map fun i => star (A i a) * A i b).sum

/-- Body of the `prange` loop of `brs`, thewalrus/_permanent.py:219-222. -/
def brsStep (m n : ℕ) (A E : ℕ → ℕ → K) (j : ℕ) (total : K) : Except PyErr K := do
  let rows := keptRows m j
  let plusminus : K := (-1) ^ ((m - rows.length) % 2)
  let p ← permBbfg n (fun a b => gramRows A rows a b + E a b)
  pure (total + plusminus * p)

/-- `brs`, thewalrus/_permanent.py:197-223, executed sequentially. -/
def brs (m n : ℕ) (A E : ℕ → ℕ → K) : Except PyErr K :=
  (List.range (2 ^ m)).foldlM (fun total j => brsStep m n A E j total) 0

/-- Body of the `prange` loop of `ubrs`, thewalrus/_permanent.py:245-248. -/
def ubrsStep (m n : ℕ) (A : ℕ → ℕ → K) (j : ℕ) (total : K) : Except PyErr K := do
  let rows := keptRows m j
  let plusminus : K := (-1) ^ ((m - rows.length) % 2)
  let p ← permBbfg n (gramRows A rows)
  pure (total + plusminus * p)

/-- `ubrs`, thewalrus/_permanent.py:227-249, executed sequentially: the loop starts at 1. -/
def ubrs (m n : ℕ) (A : ℕ → ℕ → K) : Except PyErr K :=
  ((List.range (2 ^ m - 1)).map (· + 1)).foldlM (fun total j => ubrsStep m n A j total) 0

/-- `list(chain(*[[i] * j for i, j in enumerate(n) if j > 0]))`, thewalrus/_permanent.py:270-271, 305. -/
def modesList (n : List ℕ) : List ℕ :=
  (((List.range n.length).filter fun i => n.getD i 0 > 0).map fun i => List.replicate (n.getD i 0) i).flatten

/-- `np.prod(factorial(n), dtype=np.float64)`. -/
def facProd (n : List ℕ) : ℝ := (n.map fun k => (k.factorial : ℝ)).foldl (· * ·) 1

/-- `fock_prob`, thewalrus/_permanent.py:252-279.  `U` is an array of shape `rows × cols` without NaN entries; fancy
indexing out of range raises `IndexError`.  Occupation numbers are natural numbers. -/
noncomputable def fockProb (n m : List ℕ) (rows cols : ℕ) (U : ℕ → ℕ → K) : Except PyErr ℝ := do
  if n.sum ≠ m.sum then throw .valueError
  else
    let inModes := modesList n
    let outModes := modesList m
    if outModes.any (· ≥ rows) || inModes.any (· ≥ cols) then throw .indexError
    else
      let p ← perm (.arr outModes.length inModes.length fun i j => some (U (outModes.getD i 0) (inModes.getD j 0))) "bbfg"
      pure (‖p‖ ^ 2 / (facProd n * facProd m))

/-- `fock_threshold_prob`, thewalrus/_permanent.py:282-321.  `T` has shape `mo × mi` and no NaN entries. -/
noncomputable def fockThresholdProb (n d : List ℕ) (mo mi : ℕ) (T : ℕ → ℕ → K) : Except PyErr ℝ := do
  if n.length ≠ mi then throw .valueError
  else if d.length ≠ mo then throw .valueError
  else if mo > mi then throw .valueError
  else
    let fac := facProd n
    let inModes := modesList n
    let C := (List.range d.length).filter fun i => d.getD i 0 > 0
    let A : ℕ → ℕ → K := fun i j => T (C.getD i 0) (inModes.getD j 0)
    let E : ℕ → ℕ → K := fun a b => (if a = b then 1 else 0) - gramRows T (List.range mo) a b
    if allClose2 (isClose 1e-5 1e-8) mi mi E (fun _ _ => 0) then do
      let u ← ubrs C.length inModes.length A
      pure (RCLike.re u / fac)
    else do
      let u ← brs C.length inModes.length A (fun i j => E (inModes.getD i 0) (inModes.getD j 0))
      pure (RCLike.re u / fac)

end

end Verif.Model
