/-
Model of thewalrus/charpoly.py over ℝ or ℂ (`RCLike`), exact arithmetic.
Arrays are total functions: the out-of-bounds stores that `_charpoly` performs for 0×0 and 1×1 inputs (undefined
behaviour under numba) write to cells that nothing reads.
-/
import Verif.Model.HafnianCore
import Mathlib.Analysis.RCLike.Basic

namespace Verif.Model

open scoped Classical

variable {K : Type} [RCLike K]

/-- `np.linalg.norm(v)**2` for a vector of length `n`. -/
noncomputable def normSq (n : ℕ) (v : ℕ → K) : ℝ := (List.range n).foldl (fun acc i => acc + ‖v i‖ ^ 2) 0

/-- `get_reflection_vector`, thewalrus/charpoly.py:43-73; result has length `size - k`. -/
noncomputable def getReflectionVector (size : ℕ) (M : ℕ → ℕ → K) (k : ℕ) : ℕ → K :=
  let col : ℕ → K := fun i => M (k + i) (k - 1)
  let sigma0 : K := ((Real.sqrt (normSq (size - k) col) : ℝ) : K)
  let sigma : K := if col 0 ≠ 0 then sigma0 * (col 0 / ((‖col 0‖ : ℝ) : K)) else sigma0
  fun i => if i = 0 then col i + sigma else col i

/-- `apply_householder`, thewalrus/charpoly.py:77-111 (in-place update returned). -/
noncomputable def applyHouseholder (size : ℕ) (A : ℕ → ℕ → K) (v : ℕ → K) (k : ℕ) : ℕ → ℕ → K :=
  let sizeH := size - k
  let nv : ℝ := normSq sizeH v
  if nv = 0 then A
  else
    let vHA : ℕ → K := fun j => forRange sizeH 0 fun l acc => acc + (starRingEnd K) (v l) * A (k + l) (k - 1 + j)
    let A1 := forRange sizeH A fun i A => forRange (size - k + 1) A fun j A =>
      upd2 A (k + i) (k - 1 + j) (A (k + i) (k - 1 + j) - 2 * v i * vHA j / (nv : K))
    let Av : ℕ → K := fun i => forRange sizeH 0 fun l acc => acc + A1 i (k + l) * v l
    forRange size A1 fun i A => forRange sizeH A fun j A =>
      upd2 A i (k + j) (A i (k + j) - 2 * Av i * (starRingEnd K) (v j) / (nv : K))

/-- `reduce_matrix_to_hessenberg`, thewalrus/charpoly.py:115-127. -/
noncomputable def reduceToHessenberg (size : ℕ) (A : ℕ → ℕ → K) : ℕ → ℕ → K :=
  forRange2 1 (size - 1) A fun i A => applyHouseholder size A (getReflectionVector size A i) i

end Verif.Model

namespace Verif.Model

variable {K : Type} [Field K]

/-- `beta`, thewalrus/charpoly.py:131-142 (1-based). -/
def beta (H : ℕ → ℕ → K) (i : ℕ) : K := H (i - 1) (i - 2)
/-- `alpha`, thewalrus/charpoly.py:146-157 (1-based). -/
def alpha (H : ℕ → ℕ → K) (i : ℕ) : K := H (i - 1) (i - 1)
/-- `hij`, thewalrus/charpoly.py:161-173 (1-based). -/
def hij (H : ℕ → ℕ → K) (i j : ℕ) : K := H (i - 1) (j - 1)

/-- `beta_prod` of the loops `for bm in range(i, i - m, -1)`. -/
def betaProd (H : ℕ → ℕ → K) (i m : ℕ) : K := forRange m 1 fun t p => p * beta H (i - t)

/-- `suma` of the loops `for m in range(1, j - 1)`; `c` is indexed from 0 (`mlo` lowers both indices). -/
def sumaLoop (H c : ℕ → ℕ → K) (i j : ℕ) : K :=
  forRange2 1 (j - 1) 0 fun m s => s + hij H (i - m) i * betaProd H i m * c (i - m - 1 - 1) (j - m - 1 - 1)

/-- Body of the `j` loops of `_charpoly` (thewalrus/charpoly.py:227-246 and 267-290 are the same). -/
def charpolyEntry (H : ℕ → ℕ → K) (c : ℕ → ℕ → K) (i j : ℕ) : K :=
  c (i - 1 - 1) (j - 1) - alpha H i * c (i - 1 - 1) (j - 1 - 1) - sumaLoop H c i j
    - hij H (i - j + 1) i * betaProd H i (j - 1)

/-- `_charpoly`, thewalrus/charpoly.py:197-293: entry `t` of the returned list is `c[n-1, t]`. -/
def charpolyHess (n : ℕ) (H : ℕ → ℕ → K) (k : ℕ) : ℕ → K :=
  let c : ℕ → ℕ → K := fun _ _ => 0
  let c := upd2 c 0 0 (-alpha H 1)
  let c := upd2 c 1 0 (c 0 0 - alpha H 2)
  let c := upd2 c 1 1 (alpha H 1 * alpha H 2 - hij H 1 2 * beta H 2)
  let c := forRange2 3 (k + 1) c fun i c =>
    let c := upd2 c (i - 1) 0 (c (i - 1 - 1) 0 - alpha H i)
    let c := forRange2 2 i c fun j c => upd2 c (i - 1) (j - 1) (charpolyEntry H c i j)
    upd2 c (i - 1) (i - 1) (-alpha H i * c (i - 1 - 1) (i - 1 - 1) - sumaLoop H c i i - hij H 1 i * betaProd H i (i - 1))
  let c := forRange2 (k + 1) (n + 1) c fun i c =>
    let c := upd2 c (i - 1) 0 (c (i - 1 - 1) 0 - alpha H i)
    if k ≥ 2 then forRange2 2 (k + 1) c fun j c => upd2 c (i - 1) (j - 1) (charpolyEntry H c i j) else c
  fun t => c (n - 1) t

end Verif.Model

namespace Verif.Model

variable {K : Type} [RCLike K]

/-- `charpoly`, thewalrus/charpoly.py:297-310: entry `t < n` of the returned list. -/
noncomputable def charpoly (n : ℕ) (H : ℕ → ℕ → K) : ℕ → K := charpolyHess n (reduceToHessenberg n H) n

/-- `np.trace` -/
def trace (m : ℕ) (A : ℕ → ℕ → K) : K := (List.range m).foldl (fun acc i => acc + A i i) 0

/-- `A @ H` -/
def matMul (m : ℕ) (A H : ℕ → ℕ → K) : ℕ → ℕ → K := fun i j => dot m (A i) fun l => H l j

/-- `powertrace`, thewalrus/charpoly.py:314-340, as the returned list. -/
noncomputable def powertraceList (m : ℕ) (H : ℕ → ℕ → K) (n : ℕ) : List K :=
  let minVal := min n m
  let st := forRange (minVal - 2) ([(m : K), trace m H], H) fun _ (st : List K × (ℕ → ℕ → K)) =>
    let A := matMul m st.2 H
    (st.1 ++ [trace m A], A)
  if n ≤ m then st.1
  else
    let cp := charpoly m H
    forRange (n - minVal) st.1 fun _ pt =>
      pt ++ [forRange m 0 fun k s => s - cp k * pt.getD (pt.length - k - 1) 0]

/-- The array returned by `powertrace`, as an entry function. -/
noncomputable def powertrace : PowerTrace K := fun m H n k => (powertraceList m H n).getD k 0

end Verif.Model
