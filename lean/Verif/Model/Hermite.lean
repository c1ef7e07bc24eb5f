/-
Model of thewalrus/_hermite_multidimensional.py.  A multidimensional array is a shape (list of cutoffs) and a total function on
multi-indices (lists of naturals); values outside the shape are arbitrary.  `np.real_if_close` is the identity (exact arithmetic).
-/
import Verif.Model.Hafnian
import Mathlib.Analysis.RCLike.Basic
import Mathlib.Analysis.SpecialFunctions.Pow.NNReal

namespace Verif.Model

/-- `np.ndindex(*shape)`: all multi-indices in C order (last index fastest). -/
def ndindex : List ℕ → List (List ℕ)
  | [] => [[]]
  | c :: cs => (List.range c).flatMap fun k => (ndindex cs).map (k :: ·)

/-- `i = 0; for i, val in enumerate(idx): if val > 0: break`: position of the first positive entry (last position if none);
thewalrus/_hermite_multidimensional.py:265-268. -/
def firstPos (idx : List ℕ) : ℕ :=
  if idx.findIdx (· > 0) < idx.length then idx.findIdx (· > 0) else idx.length - 1

/-- `dec`, thewalrus/_hermite_multidimensional.py:219-229. -/
def decAt (t : List ℕ) (i : ℕ) : List ℕ := t.set i (t.getD i 0 - 1)

/-- `remove`, thewalrus/_hermite_multidimensional.py:232-244. -/
def removeAll (p : List ℕ) : List (ℕ × List ℕ) :=
  ((List.range p.length).filter fun i => p.getD i 0 > 0).map fun i => (i, decAt p i)

/-- An array indexed by multi-indices. -/
abbrev MArr (K : Type) := List ℕ → K

section field
variable {K : Type} [Field K]

/-- body of the loop of `_hermite_multidimensional`, thewalrus/_hermite_multidimensional.py:293-302 -/
def hermiteStep (R : ℕ → ℕ → K) (y : ℕ → K) (G : MArr K) (idx : List ℕ) : MArr K :=
  let i := firstPos idx
  let ki := decAt idx i
  let u := (removeAll ki).foldl (fun u lk => u - (ki.getD lk.1 0 : K) * R i lk.1 * G lk.2) (y i * G ki)
  Function.update G idx u

/-- `_hermite_multidimensional`, thewalrus/_hermite_multidimensional.py:278-303. -/
def hermiteFill (R : ℕ → ℕ → K) (y : ℕ → K) (shape : List ℕ) (G : MArr K) : MArr K :=
  ((ndindex shape).drop 1).foldl (hermiteStep R y) G

/-- body of the loop of `_hermite_multidimensional_renorm`, thewalrus/_hermite_multidimensional.py:265-274; `sq` is the table `SQRT`. -/
def hermiteStepRenorm (sq : ℕ → K) (R : ℕ → ℕ → K) (y : ℕ → K) (G : MArr K) (idx : List ℕ) : MArr K :=
  let i := firstPos idx
  let ki := decAt idx i
  let u := (removeAll ki).foldl (fun u lk => u - sq (ki.getD lk.1 0) * R i lk.1 * G lk.2) (y i * G ki)
  Function.update G idx (u / sq (idx.getD i 0))

/-- `_hermite_multidimensional_renorm`, thewalrus/_hermite_multidimensional.py:250-275. -/
def hermiteFillRenorm (sq : ℕ → K) (R : ℕ → ℕ → K) (y : ℕ → K) (shape : List ℕ) (G : MArr K) : MArr K :=
  ((ndindex shape).drop 1).foldl (hermiteStepRenorm sq R y) G

/-- body of the loop of `_interferometer`, thewalrus/_hermite_multidimensional.py:364-381.  `num_modes = dim / 2` is used as the bound of `range`,
i.e. truncated. -/
def interferometerStep (dim : ℕ) (R : ℕ → ℕ → K) (G : MArr K) (idx : List ℕ) : MArr K :=
  let bran := ((List.range (dim / 2)).map fun ii => idx.getD ii 0).sum
  let ketn := ((List.range' (dim / 2) (dim - dim / 2)).map fun ii => idx.getD ii 0).sum
  if bran = ketn then
    let i := firstPos idx
    let ki := decAt idx i
    let u := (removeAll ki).foldl (fun u lk => u - (ki.getD lk.1 0 : K) * R i lk.1 * G lk.2) 0
    Function.update G idx u
  else G

/-- `_interferometer`, thewalrus/_hermite_multidimensional.py:346-383. -/
def interferometerFill (dim : ℕ) (R : ℕ → ℕ → K) (shape : List ℕ) (G : MArr K) : MArr K :=
  ((ndindex shape).drop 1).foldl (interferometerStep dim R) G

/-- body of the loop of `_interferometer_renorm`, thewalrus/_hermite_multidimensional.py:324-341 -/
def interferometerStepRenorm (sq : ℕ → K) (dim : ℕ) (R : ℕ → ℕ → K) (G : MArr K) (idx : List ℕ) : MArr K :=
  let bran := ((List.range (dim / 2)).map fun ii => idx.getD ii 0).sum
  let ketn := ((List.range' (dim / 2) (dim - dim / 2)).map fun ii => idx.getD ii 0).sum
  if bran = ketn then
    let i := firstPos idx
    let ki := decAt idx i
    let u := (removeAll ki).foldl (fun u lk => u - sq (ki.getD lk.1 0) * R i lk.1 * G lk.2) 0
    Function.update G idx (u / sq (idx.getD i 0))
  else G

/-- `_interferometer_renorm`, thewalrus/_hermite_multidimensional.py:306-343. -/
def interferometerFillRenorm (sq : ℕ → K) (dim : ℕ) (R : ℕ → ℕ → K) (shape : List ℕ) (G : MArr K) : MArr K :=
  ((ndindex shape).drop 1).foldl (interferometerStepRenorm sq dim R) G

/-- `np.zeros(cutoffs)` with `array[(0,) * n] = C`, thewalrus/_hermite_multidimensional.py:89-91. -/
def seedArray (n : ℕ) (C : K) : MArr K := fun k => if k = List.replicate n 0 then C else 0

/-- A returned array: a tensor with its shape, or the flattened list. -/
inductive HermiteOut (K : Type)
  | tensor (shape : List ℕ) (G : MArr K)
  | flat (l : List K)

/-- `hermite_multidimensional`, thewalrus/_hermite_multidimensional.py:26-106.  `y` is `None` or a vector with its length; `cutoffs` is the tuple of
cutoffs (an integer cutoff is the constant tuple).  A cutoff `0` makes the seed assignment raise; a tuple of fewer than `n` cutoffs too;
a tuple of more than `n` cutoffs is not modelled (precondition of the theorems).  `close` is the tolerance test of `input_validation`. -/
def hermiteMultidimensional (sq : ℕ → K) (close : K → K → Bool) (R : PyObj K) (cutoffs : List ℕ) (y : Option (ℕ × (ℕ → K))) (C : K)
    (renorm makeTensor modified : Bool) : Except PyErr (HermiteOut K) := do
  let (n, r) ← inputValidation close R
  let y' : ℕ × (ℕ → K) := match y with
    | none => (n, fun _ => 0)
    | some (m, v) => if modified = false ∧ m = n then (m, fun i => ((List.range n).map fun j => r i j * v j).sum) else (m, v)
  if y'.1 ≠ n then throw .valueError
  else if cutoffs.length < n ∨ cutoffs.any (· = 0) then throw .indexError
  else
    let values := if renorm then hermiteFillRenorm sq r y'.2 cutoffs (seedArray n C) else hermiteFill r y'.2 cutoffs (seedArray n C)
    if makeTensor then pure (.tensor cutoffs values) else pure (.flat ((ndindex cutoffs).map values))

/-- `interferometer`, thewalrus/_hermite_multidimensional.py:114-169, for an integer cutoff (a tuple cutoff with `make_tensor` is reshaped with
`cutoff * np.ones`, not modelled). -/
def interferometer (sq : ℕ → K) (close : K → K → Bool) (R : PyObj K) (cutoff : ℕ) (C : K) (renorm : Bool) :
    Except PyErr (HermiteOut K) := do
  let (n, r) ← inputValidation close R
  if cutoff = 0 ∧ n ≠ 0 then throw .indexError
  else
    let shape := List.replicate n cutoff
    let values := if renorm then interferometerFillRenorm sq n r shape (seedArray n C) else interferometerFill n r shape (seedArray n C)
    pure (.tensor shape values)

/-- negation of a Python array -/
def PyObj.neg : PyObj K → PyObj K
  | .other => .other
  | .arr r c e => .arr r c fun i j => (e i j).map fun x => -x

/-- `hafnian_batched`, thewalrus/_hermite_multidimensional.py:173-216. -/
def hafnianBatched (sq : ℕ → K) (close closeDefault : K → K → Bool) (A : PyObj K) (cutoffs : List ℕ) (mu : Option (ℕ × (ℕ → K)))
    (renorm makeTensor : Bool) : Except PyErr (HermiteOut K) := do
  let (n, _) ← inputValidation close A
  let mu := mu.getD (n, fun _ => 0)
  hermiteMultidimensional sq closeDefault (PyObj.neg A) cutoffs (some mu) 1 renorm makeTensor true

/-- State of the gradient loops: `dG_dR[idx][a, b]` and `dG_dy[idx][a]`. -/
structure GradState (K : Type) where
  dR : List ℕ → ℕ → ℕ → K
  dy : List ℕ → ℕ → K

/-- body of the loop of `_grad_hermite_multidimensional`, thewalrus/_hermite_multidimensional.py:474-488; `coef m` is `m` there and `SQRT[m]` in the
renormalised variant (:438-452), which also divides by `SQRT[idx[i]]`. -/
def gradStep (coef : ℕ → K) (div : ℕ → K) (R : ℕ → ℕ → K) (y : ℕ → K) (G : MArr K) (s : GradState K) (idx : List ℕ) : GradState K :=
  let i := firstPos idx
  let ki := decAt idx i
  let dy0 : ℕ → K := fun a => y i * s.dy ki a
  let dy1 : ℕ → K := Function.update dy0 i (dy0 i + G ki)
  let dR0 : ℕ → ℕ → K := fun a b => y i * s.dR ki a b
  let p := (removeAll ki).foldl (fun (p : (ℕ → K) × (ℕ → ℕ → K)) lk =>
    let c := coef (ki.getD lk.1 0)
    let dy : ℕ → K := fun a => p.1 a - c * s.dy lk.2 a * R i lk.1
    let dR : ℕ → ℕ → K := fun a b => p.2 a b - c * R i lk.1 * s.dR lk.2 a b
    let dR' : ℕ → ℕ → K := fun a b => if a = i ∧ b = lk.1 then dR a b - c * G lk.2 else dR a b
    (dy, dR')) (dy1, dR0)
  { dR := Function.update s.dR idx fun a b => p.2 a b / div (idx.getD i 0)
    dy := Function.update s.dy idx fun a => p.1 a / div (idx.getD i 0) }

/-- `grad_hermite_multidimensional`, thewalrus/_hermite_multidimensional.py:386-417: `dG_dC`, `dG_dR`, `dG_dy`.  `n`, `m` are the sizes of `R` and `y`. -/
def gradHermite (sq : ℕ → K) (shape : List ℕ) (G : MArr K) (n m : ℕ) (R : ℕ → ℕ → K) (y : ℕ → K) (C : K) (renorm : Bool) :
    Except PyErr (MArr K × GradState K) :=
  if m ≠ n then .error .valueError
  else
    let s0 : GradState K := { dR := fun _ _ _ => 0, dy := fun _ _ => 0 }
    let step := if renorm then gradStep sq sq R y G else gradStep (fun m => (m : K)) (fun _ => 1) R y G
    .ok (fun k => G k / C, ((ndindex shape).drop 1).foldl step s0)

end field

/-- The table `SQRT = np.sqrt(np.arange(1000))`, thewalrus/_hermite_multidimensional.py:247; reading beyond it is out of bounds (arbitrary value). -/
noncomputable def sqrtTable {K : Type} [RCLike K] (junk : ℕ → K) (m : ℕ) : K :=
  if m < 1000 then ((Real.sqrt m : ℝ) : K) else junk m

end Verif.Model
