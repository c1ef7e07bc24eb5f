/-
Model of thewalrus/decompositions.py.  The routines of numpy.linalg and scipy.linalg are parameters (their contracts are in Spec/LinAlg.lean).
-/
import Verif.Model.GaussianChecks
import Verif.Model.Torontonian
import Verif.Spec.LinAlg
import Mathlib.Analysis.SpecialFunctions.Complex.Arg

namespace Verif.Model.Dec
open Verif.Model Verif.Model.Symp Verif.Model.Checks Verif.Spec

noncomputable section

/-- `np.linalg.inv` of a real array (entries outside the array are zero). -/
def npInvR (n : ℕ) (A : RArr) : Except PyErr RArr :=
  if (toMatrix n n A).det = 0 then .error .linAlgError else .ok (Verif.ofMatrix (toMatrix n n A)⁻¹ fun _ _ => 0)

/-- `np.all(np.linalg.eigvalsh(V) > 0)`, thewalrus/decompositions.py:80-82. -/
def allPosEig (n : ℕ) (V : RArr) : Bool :=
  decide (∀ i, 0 < (lowerHerm_isHermitian n fun i j => (V i j : ℂ)).eigenvalues i)

/-- the loop building `perm`, thewalrus/decompositions.py:93-96 -/
def swapPerm (n : ℕ) (a : RArr) : ℕ → ℕ :=
  forRange n (fun i => i) fun i perm =>
    if a (2 * i) (2 * i + 1) ≤ 0 then Function.update (Function.update perm (2 * i) (perm (2 * i + 1))) (2 * i + 1) (perm (2 * i)) else perm

/-- `williamson`, thewalrus/decompositions.py:52-105, for an `n × m` array. -/
def williamson (sqrtm : ℕ → RArr → RArr) (schur : ℕ → RArr → RArr × RArr) (close : ℝ → ℝ → Bool) (n m : ℕ) (V : RArr) : Except PyErr (RArr × RArr) :=
  if n ≠ m then .error .valueError
  else if ¬ allClose2 close n n V (tr V) then .error .valueError
  else if n % 2 ≠ 0 then .error .valueError
  else
    let h := n / 2
    let omega : RArr := sympmat h
    if ¬ allPosEig n V then .error .valueError
    else do
      let M12 := sqrtm n V
      let Mm12 ← npInvR n M12
      let Gamma := mmul n (mmul n Mm12 omega) Mm12
      let aO := schur n Gamma
      let perm := swapPerm h aO.1
      let perm' : ℕ → ℕ := fun j => if j < h then perm (2 * j) else perm (2 * (j - h) + 1)
      let O : RArr := fun i j => aO.2 i (perm' j)
      let phi : ℕ → ℝ := fun i => |aO.1 (2 * i) (2 * i + 1)|
      let dd : ℕ → ℝ := fun j => if j < h then 1 / phi j else 1 / phi (j - h)
      let ddsqrt : ℕ → ℝ := fun j => 1 / Real.sqrt (dd j)
      let S : RArr := fun i j => mmul n M12 O i j * ddsqrt j
      pure (fun i j => if i = j then dd i else 0, S)

/-- `symplectic_eigenvals`, thewalrus/decompositions.py:108-119: the returned entries (`real_if_close` only changes the dtype of an array
whose imaginary parts vanish). -/
def symplecticEigenvals (eigvals : ℕ → RArr → ℕ → ℂ) (n : ℕ) (cov : RArr) : List ℂ :=
  let M := n / 2
  let ev := eigvals n (mmul n (sympmat M) cov)
  (List.range ((n + 1) / 2)).map fun i => -Complex.I * ev (2 * i)

/-- `np.triu(A) + np.triu(A, k=1).T`, thewalrus/decompositions.py:181. -/
def triuSym {K : Type} (A : ℕ → ℕ → K) : ℕ → ℕ → K := fun i j => if i ≤ j then A i j else A j i

/-- The numerical routines and elementwise tests that `takagi` calls: `tiny x` is the test of `np.real_if_close` on an imaginary part,
`closeZ` and `closeD` the elementwise tests of `np.allclose(A, 0)` and `np.allclose(A, np.diag(np.diag(A)), rtol=rtol)`. -/
structure TakagiLib where
  eigh : ℕ → RArr → (ℕ → ℝ) × RArr
  argsort : ℕ → (ℕ → ℝ) → ℕ → ℕ
  svd : ℕ → CArr → CArr × (ℕ → ℝ) × CArr
  sqrtm : ℕ → CArr → CArr
  tiny : ℝ → Bool
  closeZ : ℂ → ℂ → Bool
  closeD : ℂ → ℂ → Bool

/-- the real branch, thewalrus/decompositions.py:188-201, for a real array; the `n × n` array has been symmetrised -/
def takagiReal (lib : TakagiLib) (n : ℕ) (A : RArr) (svdOrder : Bool) : (ℕ → ℝ) × CArr :=
  let e := lib.eigh n A
  let vals : ℕ → ℝ := fun i => |e.1 i|
  let signs : ℕ → ℝ := fun i => if 0 ≤ e.1 i then (-1) ^ 2 else (-1) ^ 1
  let phases : ℕ → ℂ := fun i => Tor.csqrt (signs i : ℝ)
  let Uc : CArr := fun i j => (e.2 i j : ℂ) * phases j
  let perm := lib.argsort n vals
  let perm' : ℕ → ℕ := if svdOrder then fun i => perm (n - 1 - i) else perm
  (fun i => vals (perm' i), fun i j => Uc i (perm' j))

/-- `np.real_if_close(A)` is real: thewalrus/decompositions.py:183, 187 and 207-208 -/
def isRealIfClose (tiny : ℝ → Bool) (n : ℕ) (A : CArr) : Bool :=
  (List.range n).all fun i => (List.range n).all fun j => tiny (A i j).im

/-- `np.argmax(np.abs(A))` with `np.unravel_index`: the first position, row by row, of an entry of largest modulus,
thewalrus/decompositions.py:204. -/
def argmaxAbs (n : ℕ) (A : CArr) : ℕ × ℕ :=
  (List.range (n * n)).foldl (fun best k => if ‖A best.1 best.2‖ < ‖A (k / n) (k % n)‖ then (k / n, k % n) else best) (0, 0)

/-- the diagonal branch, thewalrus/decompositions.py:213-224 -/
def takagiDiag (lib : TakagiLib) (n : ℕ) (A : CArr) (svdOrder : Bool) : (ℕ → ℝ) × CArr :=
  let idx := lib.argsort n fun i => ‖A i i‖
  let d : ℕ → ℂ := fun i => A (idx i) (idx i)
  let l : ℕ → ℝ := fun i => ‖A (idx i) (idx i)‖
  let U : CArr := fun i j => if i = j then Complex.exp (Complex.I * (1 / 2) * Complex.arg (d i)) else 0
  let U' : CArr := fun i j => U (n - 1 - i) j
  if svdOrder then (fun i => l (n - 1 - i), fun i j => U' i (n - 1 - j)) else (l, U')

/-- `takagi` of a real array, called by the phase branch, thewalrus/decompositions.py:209 (`np.real_if_close` leaves a real array alone). -/
def takagiOfReal (lib : TakagiLib) (n : ℕ) (A : RArr) (svdOrder : Bool) : (ℕ → ℝ) × CArr :=
  let A := triuSym A
  if allClose2 lib.closeZ n n (fun i j => (A i j : ℂ)) (fun _ _ => 0) then (fun _ => 0, eye) else takagiReal lib n A svdOrder

/-- `takagi`, thewalrus/decompositions.py:157-230, for an `n × m` array. -/
def takagi (lib : TakagiLib) (n m : ℕ) (A : CArr) (svdOrder : Bool) : Except PyErr ((ℕ → ℝ) × CArr) :=
  if n ≠ m then .error .valueError
  else
    let A := triuSym A
    let real := isRealIfClose lib.tiny n A
    let A : CArr := if real then fun i j => ((A i j).re : ℂ) else A
    if allClose2 lib.closeZ n n A (fun _ _ => 0) then .ok (fun _ => 0, eye)
    else if real then .ok (takagiReal lib n (fun i j => (A i j).re) svdOrder)
    else
      let pos := argmaxAbs n A
      let phi := Complex.arg (A pos.1 pos.2)
      let Amr : CArr := fun i j => Complex.exp (-Complex.I * phi) * A i j
      if isRealIfClose lib.tiny n Amr then
        let r := takagiOfReal lib n (fun i j => (Amr i j).re) svdOrder
        .ok (r.1, fun i j => r.2 i j * Complex.exp (Complex.I * phi / 2))
      else if allClose2 lib.closeD n n A (fun i j => if i = j then A i i else 0) then .ok (takagiDiag lib n A svdOrder)
      else
        let s := lib.svd n A
        let W := lib.sqrtm n fun i j => mmul n s.2.2 (fun a b => (starRingEnd ℂ) (s.1 a b)) j i
        let U := mmul n s.1 W
        if svdOrder then .ok (s.2.1, U) else .ok (fun i => s.2.1 (n - 1 - i), fun i j => U i (n - 1 - j))

/-- `blochmessiah`, thewalrus/decompositions.py:122-154, for an `n × m` array. -/
def blochmessiah (lib : TakagiLib) (polar : ℕ → RArr → RArr × RArr) (close : ℝ → ℝ → Bool) (n m : ℕ) (S : RArr) : Except PyErr (RArr × RArr × RArr) :=
  if ¬ isSymplecticQ close n m S then .error .valueError
  else do
    let N := n / 2
    let VP := polar n S
    let A : RArr := fun i j => VP.2 i j
    let B : RArr := fun i j => VP.2 i (N + j)
    let C : RArr := fun i j => VP.2 (N + i) (N + j)
    let M : CArr := fun i j => ((A i j - C i j : ℝ) : ℂ) + Complex.I * ((B i j + B j i : ℝ) : ℂ)
    let LW ← takagi lib N N M true
    let Lam : ℕ → ℝ := fun i => 1 / 2 * LW.1 i
    let O : RArr := block N N (fun i j => (LW.2 i j).re) (fun i j => -(LW.2 i j).im) (fun i j => (LW.2 i j).im) (fun i j => (LW.2 i j).re)
    let Q := mmul n (tr O) VP.1
    let s : ℕ → ℝ := fun i => Real.sqrt (1 + Lam i ^ 2)
    let d : ℕ → ℝ := fun i => if i < N then s i + Lam i else s (i - N) - Lam (i - N)
    pure (O, fun i j => if i = j then d i else 0, Q)

/-- `pre_iwasawa`, thewalrus/decompositions.py:233-269, for an `n × m` array. -/
def preIwasawa (sqrtm : ℕ → RArr → RArr) (close : ℝ → ℝ → Bool) (n m : ℕ) (S : RArr) : Except PyErr (RArr × RArr × RArr) :=
  if ¬ isSymplecticQ close n m S then .error .valueError
  else do
    let N := n / 2
    let zerom : RArr := fun _ _ => 0
    let A : RArr := fun i j => S i j
    let B : RArr := fun i j => S i (N + j)
    let C : RArr := fun i j => S (N + i) j
    let D : RArr := fun i j => S (N + i) (N + j)
    let A0 := sqrtm N fun i j => mmul N A (tr A) i j + mmul N B (tr B) i j
    let A0inv ← npInvR N A0
    let X := mmul N A0inv A
    let Y := mmul N A0inv B
    let C0 := mmul N (fun i j => mmul N C (tr A) i j + mmul N D (tr B) i j) A0inv
    pure (block N N eye zerom (mmul N C0 A0inv) eye, block N N A0 zerom zerom A0inv, block N N X Y (fun i j => -Y i j) X)

/-- `iwasawa`, thewalrus/decompositions.py:272-300, for an `n × m` array. -/
def iwasawa (sqrtm : ℕ → RArr → RArr) (qr : ℕ → RArr → RArr × RArr) (close : ℝ → ℝ → Bool) (n m : ℕ) (S : RArr) : Except PyErr (RArr × RArr × RArr) := do
  let EDF ← preIwasawa sqrtm close n m S
  let N := n / 2
  let DNN : RArr := fun i j => EDF.2.1 i j
  let QR := qr N DNN
  let R := tr QR.2
  let Q := tr QR.1
  let dR : ℕ → ℝ := fun i => R i i
  let dd : ℕ → ℝ := fun i => |dR i|
  let ds : ℕ → ℝ := fun i => if 0 < dR i then 1 else if dR i < 0 then -1 else 0
  let R' : RArr := fun i j => R i j * (1 / dR j)
  let Rinv ← npInvR N R'
  let RinvT := tr Rinv
  let DD : RArr := fun i j => if i = j then (if i < N then dd i else 1 / dd (i - N)) else 0
  let zerom : RArr := fun _ _ => 0
  let OO := block N N R' zerom zerom RinvT
  let Q' : RArr := fun i j => ds i * Q i j
  let AA := block N N Q' zerom zerom Q'
  pure (mmul n EDF.1 OO, DD, mmul n AA EDF.2.2)

end

end Verif.Model.Dec
