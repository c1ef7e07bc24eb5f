/-
Model of thewalrus/_hafnian.py: index helpers, generating functions and the sieve loops.
`charpoly.powertrace` is a parameter here (`pt m H n` is the array returned for the `m × m` matrix `H`);
`Verif/Model/Charpoly.lean` models it and it is plugged in for the final statements.
-/
import Verif.Py

namespace Verif.Model

variable {K : Type} [Field K]

/-- Type of `charpoly.powertrace`: size, matrix, order ↦ array. -/
abbrev PowerTrace (K : Type) := ℕ → (ℕ → ℕ → K) → ℕ → ℕ → K

/-- Store into a 2-d array. -/
def upd2 (a : ℕ → ℕ → K) (i j : ℕ) (v : K) : ℕ → ℕ → K :=
  fun i' j' => if i' = i ∧ j' = j then v else a i' j'

/-- `nb_binom`, thewalrus/_hafnian.py:27-45 (for non-negative arguments, the only ones used). -/
def nbBinom (n k : ℕ) : ℕ :=
  if k > n then 0
  else if k = 0 ∨ k = n then 1
  else forRange (min k (n - k)) 1 fun i binom => (binom * (n - i)) / (i + 1)

/-- `precompute_binoms`, thewalrus/_hafnian.py:49-62: a `(max_binom+1)²` table, zero elsewhere. -/
def precomputeBinoms (maxBinom : ℕ) : ℕ → ℕ → ℕ :=
  forRange (maxBinom + 1) (fun _ _ => 0) fun i b =>
    forRange (maxBinom + 1) b fun j b i' j' => if i' = i ∧ j' = j then nbBinom i j else b i' j'

/-- `find_kept_edges`, thewalrus/_hafnian.py:163-180: digits of `j` in mixed radix `reps[i]+1`, the last entry
being the least significant. -/
def findKeptEdges (j : ℕ) (reps : List ℕ) : List ℕ :=
  let bases := reps.map (· + 1)
  let st := bases.reverse.foldl (fun (s : List ℕ × ℕ) base => (s.1 ++ [s.2 % base], s.2 / base)) ([], j)
  st.1.reverse

/-- State of the polynomial accumulation: the two-row buffer `comb` and the index `count` of the current row. -/
structure Comb (K : Type) where
  count : ℕ
  comb : ℕ → ℕ → K

/-- The common part of the loop bodies of `f`, `f_loop`, `f_loop_odd` (thewalrus/_hafnian.py:203-209, 237-243,
278-284): switch rows, copy, then add `comb[1-count, k-i*j-1]*powfactor`.
`jmax` is the upper bound of the `j` loop, `top` is the number of columns minus one. -/
def combStep (top jmax i : ℕ) (factor : K) (s : Comb K) : Comb K :=
  let count := 1 - s.count
  let comb0 : ℕ → ℕ → K := fun r k => if r = count then s.comb (1 - count) k else s.comb r k
  let st := forRange2 1 (jmax + 1) (comb0, (1 : K)) fun j st =>
    let powfactor := st.2 * (factor / (j : K))
    let comb := forRange2 (i * j + 1) (top + 2) st.1 fun k c =>
      upd2 c count (k - 1) (c count (k - 1) + c (1 - count) (k - i * j - 1) * powfactor)
    (comb, powfactor)
  { count := count, comb := st.1 }

/-- Initial buffer: zeros with `comb[0,0] = 1`. -/
def combInit : Comb K := { count := 0, comb := upd2 (fun _ _ => 0) 0 0 1 }

/-- `f`, thewalrus/_hafnian.py:184-209; `m` is the size of `A`. -/
def f (pt : PowerTrace K) (m : ℕ) (A : ℕ → ℕ → K) (n : ℕ) : ℕ → K :=
  let powtrace := pt m A (n / 2 + 1)
  let s := forRange2 1 (n / 2 + 1) combInit fun i s =>
    combStep (n / 2) (n / (2 * i)) i (powtrace i / ((2 * i : ℕ) : K)) s
  s.comb s.count

/-- vector · vector, length `m` -/
def dot (m : ℕ) (u v : ℕ → K) : K := (List.range m).foldl (fun acc i => acc + u i * v i) 0
/-- row vector times matrix -/
def vecMat (m : ℕ) (u : ℕ → K) (A : ℕ → ℕ → K) : ℕ → K := fun j => dot m u fun i => A i j
/-- matrix times vector -/
def matVec (m : ℕ) (A : ℕ → ℕ → K) (v : ℕ → K) : ℕ → K := fun i => dot m (A i) v

/-- `f_loop`, thewalrus/_hafnian.py:213-243. `XD_S` is updated each iteration. -/
def fLoop (pt : PowerTrace K) (m : ℕ) (AX AX_S : ℕ → ℕ → K) (XD_S D_S : ℕ → K) (n : ℕ) : ℕ → K :=
  let powtrace := pt m AX (n / 2 + 1)
  let st := forRange2 1 (n / 2 + 1) (combInit, XD_S) fun i (st : Comb K × (ℕ → K)) =>
    let factor := powtrace i / ((2 * i : ℕ) : K) + dot m st.2 D_S / 2
    let XD := vecMat m st.2 AX_S
    (combStep (n / 2) (n / (2 * i)) i factor st.1, XD)
  st.1.comb st.1.count

/-- `f_loop_odd`, thewalrus/_hafnian.py:247-286. `D_S` is updated at odd `i ≥ 3`. -/
def fLoopOdd (pt : PowerTrace K) (m : ℕ) (AX AX_S : ℕ → ℕ → K) (XD_S D_S : ℕ → K) (n : ℕ) (oddloop : K)
    (oddVX_S : ℕ → K) : ℕ → K :=
  let powtrace := pt m AX (n / 2 + 1)
  let st := forRange2 1 (n + 1) (combInit, D_S) fun i (st : Comb K × (ℕ → K)) =>
    let fd : K × (ℕ → K) :=
      if i = 1 then (oddloop, st.2)
      else if i % 2 = 0 then (powtrace (i / 2) / (i : K) + dot m XD_S st.2 / 2, st.2)
      else (dot m oddVX_S st.2, matVec m AX_S st.2)
    (combStep n (n / i) i fd.1 st.1, fd.2)
  st.1.comb st.1.count

/-- `np.where(z != 0)[0]` for `z = concatenate((kept, kept))` (integers). -/
def nonzeroRows (kept : List ℤ) : List ℕ :=
  (List.range (kept ++ kept).length).filter fun i => (kept ++ kept).getD i 0 ≠ 0

/-- `kept_edges[np.where(kept_edges != 0)]`. -/
def keptNonzero (kept : List ℤ) : List ℤ := kept.filter (· ≠ 0)

/-- `AX_nonzero`, thewalrus/_hafnian.py:300-311 (and 332-343): rows/columns with non-zero weight, halves of the
columns swapped and scaled by the weights.  Result is `len(nonzero_rows)` square. -/
def getAXS (kept : List ℤ) (A : ℕ → ℕ → K) : ℕ → ℕ → K :=
  let rows := nonzeroRows kept
  let ne := rows.length / 2
  let kn := keptNonzero kept
  let Anz : ℕ → ℕ → K := fun i j => A (rows.getD i 0) (rows.getD j 0)
  fun i j => if j < ne then ((kn.getD j 0 : ℤ) : K) * Anz i (ne + j) else ((kn.getD (j - ne) 0 : ℤ) : K) * Anz i (j - ne)

/-- `D_nonzero`, thewalrus/_hafnian.py:345. -/
def getDS (kept : List ℤ) (D : ℕ → K) : ℕ → K := fun i => D ((nonzeroRows kept).getD i 0)

/-- `XD_nonzero` (lines 347-349), and with `oddV` in place of `D` `oddVX_nonzero` (lines 351-355). -/
def getXDS (kept : List ℤ) (D : ℕ → K) : ℕ → K :=
  let rows := nonzeroRows kept
  let ne := rows.length / 2
  let kn := keptNonzero kept
  let Dnz := getDS kept D
  fun j => if j < ne then ((kn.getD j 0 : ℤ) : K) * Dnz (ne + j) else ((kn.getD (j - ne) 0 : ℤ) : K) * Dnz (j - ne)

/-- Number of sieve steps, thewalrus/_hafnian.py:435-438 / 539-542 (`half` = `glynn` and no odd loop). -/
def sieveSteps (edgeReps : List ℕ) (half : Bool) : ℕ :=
  if half then ((edgeReps.headD 0 + 2) / 2) * ((edgeReps.tail.map (· + 1)).prod)
  else (edgeReps.map (· + 1)).prod

/-- `binom_prod`, thewalrus/_hafnian.py:452-454. -/
def binomProd (edgeReps kept : List ℕ) : K :=
  let binoms := precomputeBinoms (edgeReps.foldl max 0 + 1)
  forRange edgeReps.length 1 fun i b => b * (binoms (edgeReps.getD i 0) (kept.getD i 0) : K)

/-- `kept_edges` after the optional `2*kept_edges - edge_reps`. -/
def keptWeights (glynn : Bool) (edgeReps kept : List ℕ) : List ℤ :=
  if glynn then List.zipWith (fun k r : ℕ => 2 * (k : ℤ) - (r : ℤ)) kept edgeReps else List.map (fun k : ℕ => (k : ℤ)) kept

/-- Body of the `prange` loop of `_calc_hafnian`, thewalrus/_hafnian.py:444-462.  (`edge_sum ≤ N//2`, so the exponent `N//2 - edge_sum` is a natural
number.) -/
def hafnianStep (pt : PowerTrace K) (A : ℕ → ℕ → K) (edgeReps : List ℕ) (glynn : Bool) (j : ℕ) (H : K) : K :=
  let N := 2 * edgeReps.sum
  let kept := findKeptEdges j edgeReps
  let edgeSum := kept.sum
  let bp : K := binomProd edgeReps kept
  let w := keptWeights glynn edgeReps kept
  let AXS := getAXS w A
  let prefac0 := (-1 : K) ^ (N / 2 - edgeSum) * bp
  let prefac := if glynn ∧ w.headD 0 = 0 then prefac0 * (1 / 2) else prefac0
  H + prefac * f pt (nonzeroRows w).length AXS N (N / 2)

/-- The final scaling of `_calc_hafnian`, thewalrus/_hafnian.py:464-467. -/
def hafnianScale (edgeReps : List ℕ) (glynn : Bool) (H : K) : K :=
  if glynn then H * (1 / 2) ^ (2 * edgeReps.sum / 2 - 1) else H

/-- `_calc_hafnian`, thewalrus/_hafnian.py:417-467, executed sequentially.  `A` is `2·len(edge_reps)` square. -/
def calcHafnian (pt : PowerTrace K) (A : ℕ → ℕ → K) (edgeReps : List ℕ) (glynn : Bool) : K :=
  hafnianScale edgeReps glynn (forRange (sieveSteps edgeReps glynn) 0 (hafnianStep pt A edgeReps glynn))

/-- Body of the `prange` loop of `_calc_loop_hafnian`, thewalrus/_hafnian.py:547-569. -/
def loopHafnianStep (pt : PowerTrace K) (A : ℕ → ℕ → K) (D : ℕ → K) (edgeReps : List ℕ)
    (odd : Option (K × (ℕ → K))) (glynn : Bool) (j : ℕ) (H : K) : K :=
  let N := 2 * edgeReps.sum + (if odd.isSome then 1 else 0)
  let kept := findKeptEdges j edgeReps
  let edgeSum := kept.sum
  let bp : K := binomProd edgeReps kept
  let w := keptWeights glynn edgeReps kept
  let m := (nonzeroRows w).length
  let AXS := getAXS w A
  let XDS := getXDS w D
  let DS := getDS w D
  let prefac0 := (-1 : K) ^ (N / 2 - edgeSum) * bp
  match odd with
  | some (oddloop, oddV) =>
    H + prefac0 * fLoopOdd pt m AXS AXS XDS DS N oddloop (getXDS w oddV) N
  | none =>
    let prefac := if glynn ∧ w.headD 0 = 0 then prefac0 * (1 / 2) else prefac0
    H + prefac * fLoop pt m AXS AXS XDS DS N (N / 2)

/-- The final scaling of `_calc_loop_hafnian`, thewalrus/_hafnian.py:571-577. -/
def loopHafnianScale (edgeReps : List ℕ) (odd : Option (K × (ℕ → K))) (glynn : Bool) (H : K) : K :=
  let N := 2 * edgeReps.sum + (if odd.isSome then 1 else 0)
  if glynn then
    (if odd.isNone then H * (1 / 2) ^ (N / 2 - 1) else H * (1 / 2) ^ (N / 2))
  else H

/-- `_calc_loop_hafnian`, thewalrus/_hafnian.py:513-577, executed sequentially.  `odd = some (oddloop, oddV)` when there is a self-edge. -/
def calcLoopHafnian (pt : PowerTrace K) (A : ℕ → ℕ → K) (D : ℕ → K) (edgeReps : List ℕ)
    (odd : Option (K × (ℕ → K))) (glynn : Bool) : K :=
  loopHafnianScale edgeReps odd glynn
    (forRange (sieveSteps edgeReps (glynn && odd.isNone)) 0 (loopHafnianStep pt A D edgeReps odd glynn))

end Verif.Model
