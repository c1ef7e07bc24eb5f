/-
Model of thewalrus/_hafnian.py: powerset, bandwidth, hafnian_banded, hafnian_sparse.
-/
import Verif.Model.Hafnian
import Mathlib.Data.Finset.Basic
import Mathlib.Algebra.BigOperators.Group.Finset.Basic

namespace Verif.Model

/-- `itertools.combinations(l, r)` in its documented (lexicographic by position) order. -/
def combinations {α : Type*} : ℕ → List α → List (List α)
  | 0, _ => [[]]
  | _ + 1, [] => []
  | r + 1, x :: xs => (combinations r xs).map (x :: ·) ++ combinations (r + 1) xs

/-- `powerset`, thewalrus/_hafnian.py:685-694. -/
def powerset {α : Type*} (l : List α) : List (List α) :=
  (List.range (l.length + 1)).flatMap fun r => combinations r l

variable {K : Type} [Field K]

/-- `bandwidth`, thewalrus/_hafnian.py:667-682: first `i` in `n-1, ..., 1` whose superdiagonal is not close to zero, else `0`.
`closeZero x` is `np.isclose(x, 0)` (default tolerances in the code). -/
def bandwidth (closeZero : K → Bool) (n : ℕ) (A : ℕ → ℕ → K) : ℕ :=
  ((List.range' 1 (n - 1)).reverse.find? fun i => !((List.range (n - i)).all fun k => closeZero (A k (k + i)))).getD 0

/-- The dictionary of `hafnian_banded` with tuples as keys. -/
abbrev TupleDict (K : Type) := List ℕ → Option K

/-- `loop_haf[key]`: a missing key raises `KeyError` -/
def dictGet (d : TupleDict K) (key : List ℕ) : Except PyErr K := match d key with
  | some x => .ok x
  | none => .error .keyError

/-- `loop_haf[lower_end + D] = sum(A[i-1, t-1] * loop_haf[...] for i in D)` unless the key is there already;
thewalrus/_hafnian.py:965-972.  A missing key raises `KeyError`. -/
def bandedStep (A : ℕ → ℕ → K) (t : ℕ) (lower : List ℕ) (d : TupleDict K) (D : List ℕ) : Except PyErr (TupleDict K) :=
  if (d (lower ++ D)).isSome then .ok d
  else do
    let v ← D.foldlM (fun (s : K) i =>
      (dictGet d ((lower ++ D).filter fun item => item ≠ i ∧ item ≠ t)).map fun x => s + A (i - 1) (t - 1) * x) 0
    pure fun key => if key = lower ++ D then some v else d key

/-- `lower_end` at step `t`: the numbers `1, ..., t-2w-1` (empty if that is not positive); thewalrus/_hafnian.py:955-958. -/
def bandedLower (w t : ℕ) : List ℕ := List.range' 1 (t - 2 * w - 1)

/-- `diff` at step `t`: the numbers `1..t` not in `lower_end`; thewalrus/_hafnian.py:959-960.  CPython iterates a set of consecutive
small integers in ascending order. -/
def bandedDiff (w t : ℕ) : List ℕ := (List.range' 1 t).filter fun x => x ∉ bandedLower w t

/-- one pass of the outer loop, thewalrus/_hafnian.py:954-972 -/
def bandedOuter (A : ℕ → ℕ → K) (w : ℕ) (d : TupleDict K) (t : ℕ) : Except PyErr (TupleDict K) :=
  (powerset (bandedDiff w t)).foldlM (bandedStep A t (bandedLower w t)) d

/-- `hafnian_banded`, thewalrus/_hafnian.py:935-974.  `closeZero` is the default-tolerance test inside `bandwidth`, `close` the
one of `input_validation`. -/
def hafnianBanded (closeZero : K → Bool) (close : K → K → Bool) (M : PyObj K) (loop : Bool) : Except PyErr K := do
  let (n, a) ← inputValidation close M
  let w := bandwidth closeZero n a
  let A := if loop then a else fun i j => a i j - diagDiag a i j
  if n = 0 then throw .indexError      -- `A[0, 0]` of an empty array
  else
    let d0 : TupleDict K := fun key => if key = [] then some 1 else if key = [1] then some (A 0 0) else none
    let d ← (List.range' 1 n).foldlM (bandedOuter A w) d0
    dictGet d (List.range' 1 n)

open Classical in
/-- Big-step semantics of the inner recursive function `lhaf` of `hafnian_sparse`, thewalrus/_hafnian.py:852-858, on frozen sets of
row numbers.  `set.pop` removes an arbitrary element `k`; the values `w i` of the recursive calls are any values the
recursion can return (a cached result of an equal set is one of these), so the relation covers each pop order and
each state of the two `lru_cache`s. -/
inductive LhafVal (n : ℕ) (A : ℕ → ℕ → K) : Finset ℕ → K → Prop
  | empty : LhafVal n A ∅ 1
  | pop (d : Finset ℕ) (k : ℕ) (hk : k ∈ d) (w : ℕ → K)
      (hw : ∀ i ∈ d, i < n → A k i ≠ 0 → LhafVal n A ((d.erase k).erase i) (w i)) :
      LhafVal n A d (∑ i ∈ d.filter (fun i => i < n ∧ A k i ≠ 0), A i k * w i)

/-- Big-step semantics of `hafnian_sparse(A, D, loop)`, thewalrus/_hafnian.py:813-861, for an `n × n` array and a set `D` of row
numbers (`D = None` is the set of all).  `closeZero x` is `np.isclose(x, 0)`. -/
inductive HafnianSparse (closeZero : K → Bool) (n : ℕ) (a : ℕ → ℕ → K) (D : Option (Finset ℕ)) (loop : Bool) : K → Prop
  | zero (h : ∀ i < n, ∀ j < n, closeZero ((if loop then a else fun i j => a i j - diagDiag a i j) i j) = true) :
      HafnianSparse closeZero n a D loop 0
  | run (h : ¬ ∀ i < n, ∀ j < n, closeZero ((if loop then a else fun i j => a i j - diagDiag a i j) i j) = true) (v : K)
      (hv : LhafVal n (if loop then a else fun i j => a i j - diagDiag a i j) (D.getD (Finset.range n)) v) :
      HafnianSparse closeZero n a D loop v

end Verif.Model
