/-
Model of thewalrus/loop_hafnian_batch.py and thewalrus/loop_hafnian_batch_gamma.py.
`numba.prange` loops are modelled as sequential loops (see the schedule-independence theorems for the reductions).
-/
import Verif.Model.Hafnian

namespace Verif.Model

variable {K : Type} [Field K]

/-- `binom_prod`, thewalrus/loop_hafnian_batch.py:93-95: the factors `1..len-1`. -/
def batchBinomProd (maxBinom : ℕ) (edgeReps kept : List ℕ) : K :=
  forRange2 1 edgeReps.length 1 fun i b => b * (precomputeBinoms maxBinom (edgeReps.getD i 0) (kept.getD i 0) : K)

/-- The body of the sieve loop of `_calc_loop_hafnian_batch_even`, thewalrus/loop_hafnian_batch.py:85-117: the array `Hnew` of iteration `j`.
`kept_edges[0] ≤ N_det // 2` in the inner loop, so the exponent of the sign is a natural number. -/
def batchEvenStep (pt : PowerTrace K) (A : ℕ → ℕ → K) (D : ℕ → K) (fixedEdgeReps : List ℕ) (batchMax oddCutoff : ℕ) (glynn : Bool)
    (j : ℕ) : ℕ → K :=
  let oddloop := D 0
  let oddV := A 0
  let Nfixed := 2 * fixedEdgeReps.sum
  let Nmax := Nfixed + 2 * batchMax + oddCutoff
  let edgeReps := batchMax :: fixedEdgeReps
  let maxBinom := edgeReps.foldl max 0 + oddCutoff
  let kept := findKeptEdges j edgeReps
  let edgesSum := kept.sum
  let bp : K := batchBinomProd maxBinom edgeReps kept
  let delta := keptWeights glynn edgeReps kept
  let m := (nonzeroRows delta).length
  let AXS := getAXS delta A
  let XDS := getXDS delta D
  let DS := getDS delta D
  let oddVXS := getXDS delta oddV
  let fEven := fLoop pt m AXS AXS XDS DS Nmax
  let fOdd := fLoopOdd pt m AXS AXS XDS DS Nmax oddloop oddVXS
  forRange2 (2 * kept.getD 0 0) (2 * batchMax + oddCutoff + 1) (fun _ => 0) fun Ndet Hnew =>
    let N := Nfixed + Ndet
    let plusMinus := (-1 : K) ^ (N / 2 - edgesSum)
    let ndbp : K := (precomputeBinoms maxBinom (Ndet / 2) (kept.getD 0 0) : K) * bp
    if Ndet % 2 = 0 then Function.update Hnew Ndet (Hnew Ndet + ndbp * plusMinus * fEven (N / 2))
    else Function.update Hnew Ndet (Hnew Ndet + ndbp * plusMinus * fOdd N)

/-- `_calc_loop_hafnian_batch_even`, thewalrus/loop_hafnian_batch.py:49-124: the array `H_batch` (length `2*batch_max + odd_cutoff + 1`). -/
def calcBatchEven (pt : PowerTrace K) (A : ℕ → ℕ → K) (D : ℕ → K) (fixedEdgeReps : List ℕ) (batchMax oddCutoff : ℕ) (glynn : Bool) :
    ℕ → K :=
  let steps := ((batchMax :: fixedEdgeReps).map (· + 1)).prod
  let H : ℕ → K := forRange steps (fun _ => 0) fun j H i =>
    H i + batchEvenStep pt A D fixedEdgeReps batchMax oddCutoff glynn j i
  if glynn then fun i => H i * (1 / 2) ^ ((2 * fixedEdgeReps.sum + i) / 2) else H

/-- Contribution to `H_batch[0]` of iteration `j` of `_calc_loop_hafnian_batch_odd`, thewalrus/loop_hafnian_batch.py:184-188. -/
def batchOddZero (pt : PowerTrace K) (A : ℕ → ℕ → K) (D : ℕ → K) (fixedEdgeReps : List ℕ) (batchMax evenCutoff : ℕ) (glynn : Bool)
    (j : ℕ) : K :=
  let Nfixed := 2 * fixedEdgeReps.sum + 1
  let edgeReps := batchMax :: 1 :: fixedEdgeReps
  let maxBinom := edgeReps.foldl max 0 + evenCutoff
  let kept := findKeptEdges j edgeReps
  let edgesSum := kept.sum
  let bp : K := batchBinomProd maxBinom edgeReps kept
  let delta := keptWeights glynn edgeReps kept
  let m := (nonzeroRows delta).length
  if kept.getD 0 0 = 0 ∧ kept.getD 1 0 = 0 then
    let plusMinus := (-1 : K) ^ (Nfixed / 2 - edgesSum)
    bp * plusMinus * fLoopOdd pt m (getAXS delta A) (getAXS delta A) (getXDS delta D) (getDS delta D) Nfixed (D 1) (getXDS delta (A 1)) Nfixed
  else 0

/-- The array `Hnew` of iteration `j` of `_calc_loop_hafnian_batch_odd`, thewalrus/loop_hafnian_batch.py:167-203. -/
def batchOddStep (pt : PowerTrace K) (A : ℕ → ℕ → K) (D : ℕ → K) (fixedEdgeReps : List ℕ) (batchMax evenCutoff : ℕ) (glynn : Bool)
    (j : ℕ) : ℕ → K :=
  let oddloop := D 0
  let oddV := A 0
  let Nfixed := 2 * fixedEdgeReps.sum + 1
  let Nmax := Nfixed + 2 * batchMax + evenCutoff + 1
  let edgeReps := batchMax :: 1 :: fixedEdgeReps
  let maxBinom := edgeReps.foldl max 0 + evenCutoff
  let kept := findKeptEdges j edgeReps
  let edgesSum := kept.sum
  let bp : K := batchBinomProd maxBinom edgeReps kept
  let delta := keptWeights glynn edgeReps kept
  let m := (nonzeroRows delta).length
  let AXS := getAXS delta A
  let XDS := getXDS delta D
  let DS := getDS delta D
  let oddVXS := getXDS delta oddV
  let fEven := fLoop pt m AXS AXS XDS DS Nmax
  let fOdd := fLoopOdd pt m AXS AXS XDS DS Nmax oddloop oddVXS
  forRange2 (2 * kept.getD 0 0 + 1) (2 * batchMax + evenCutoff + 2) (fun _ => 0) fun Ndet Hnew =>
    let N := Nfixed + Ndet
    let plusMinus := (-1 : K) ^ (N / 2 - edgesSum)
    let ndbp : K := (precomputeBinoms maxBinom ((Ndet - 1) / 2) (kept.getD 0 0) : K) * bp
    if N % 2 = 0 then Function.update Hnew Ndet (Hnew Ndet + ndbp * plusMinus * fEven (N / 2))
    else Function.update Hnew Ndet (Hnew Ndet + ndbp * plusMinus * fOdd N)

/-- The updates of `H_batch` in iteration `j` of `_calc_loop_hafnian_batch_odd`, thewalrus/loop_hafnian_batch.py:185, 204. -/
def batchOddBody (pt : PowerTrace K) (A : ℕ → ℕ → K) (D : ℕ → K) (fixedEdgeReps : List ℕ) (batchMax evenCutoff : ℕ) (glynn : Bool)
    (j : ℕ) (H : ℕ → K) : ℕ → K :=
  let H0 := Function.update H 0 (H 0 + batchOddZero pt A D fixedEdgeReps batchMax evenCutoff glynn j)
  fun i => H0 i + batchOddStep pt A D fixedEdgeReps batchMax evenCutoff glynn j i

/-- `_calc_loop_hafnian_batch_odd`, thewalrus/loop_hafnian_batch.py:127-210: the array `H_batch` (length `2*batch_max + even_cutoff + 2`). -/
def calcBatchOdd (pt : PowerTrace K) (A : ℕ → ℕ → K) (D : ℕ → K) (fixedEdgeReps : List ℕ) (batchMax evenCutoff : ℕ) (glynn : Bool) :
    ℕ → K :=
  let steps := ((batchMax :: 1 :: fixedEdgeReps).map (· + 1)).prod
  let H : ℕ → K := forRange steps (fun _ => 0) (batchOddBody pt A D fixedEdgeReps batchMax evenCutoff glynn)
  if glynn then fun i => H i * (1 / 2) ^ ((2 * fixedEdgeReps.sum + 1 + i) / 2) else H

/-- `add_batch_edges_even`, thewalrus/loop_hafnian_batch.py:213-234. -/
def addBatchEdgesEven (fixedEdges : List ℕ) : List ℕ :=
  if fixedEdges.length = 0 then [0, 0]
  else
    let n := fixedEdges.length
    let new := fixedEdges.foldl max 0 + 1
    [new] ++ fixedEdges.take (n / 2) ++ [new] ++ fixedEdges.drop (n / 2)

/-- `add_batch_edges_odd`, thewalrus/loop_hafnian_batch.py:237-261. -/
def addBatchEdgesOdd (fixedEdges : List ℕ) (oddmode : ℕ) : List ℕ :=
  if fixedEdges.length = 0 then [1, oddmode, 1, 1]
  else
    let n := fixedEdges.length
    let new := max (fixedEdges.foldl max 0) oddmode + 1
    [new, oddmode] ++ fixedEdges.take (n / 2) ++ [new, new] ++ fixedEdges.drop (n / 2)

/-- `nz = np.nonzero(list(fixed_reps) + [1])[0]`, thewalrus/loop_hafnian_batch.py:284. -/
def batchNz (fixedReps : List ℕ) : List ℕ :=
  (List.range (fixedReps.length + 1)).filter fun i => (fixedReps ++ [1]).getD i 0 ≠ 0

/-- `loop_hafnian_batch`, thewalrus/loop_hafnian_batch.py:264-307.  `A` is `rows × cols`, `D` has length `dl`.  The result is the list of array
entries.  In the odd case with `N_cutoff = 0` the code computes `batch_max = -1`, so that the number of sieve steps is `0` and the array of
length `1` stays zero. -/
def loopHafnianBatch (pt : PowerTrace K) (rows cols : ℕ) (A : ℕ → ℕ → K) (dl : ℕ) (D : ℕ → K) (fixedReps : List ℕ) (Ncutoff : ℕ)
    (glynn : Bool) : Except PyErr (List K) :=
  if cols ≠ rows then .error .assertionError
  else if dl ≠ rows then .error .assertionError
  else if fixedReps.length + 1 ≠ rows then .error .assertionError
  else do
    let nz := batchNz fixedReps
    let Anz : ℕ → ℕ → K := fun i j => A (nz.getD i 0) (nz.getD j 0)
    let Dnz : ℕ → K := fun i => D (nz.getD i 0)
    let fixedNz := (nz.dropLast).map fun i => fixedReps.getD i 0
    let (fixedEdges, fixedMReps, oddmode) ← matchedReps fixedNz
    match oddmode with
    | none =>
      let edges := addBatchEdgesEven fixedEdges
      let Ax : ℕ → ℕ → K := fun i j => Anz (edges.getD i 0) (edges.getD j 0)
      let Dx : ℕ → K := fun i => Dnz (edges.getD i 0)
      let H := calcBatchEven pt Ax Dx fixedMReps (Ncutoff / 2) (Ncutoff % 2) glynn
      pure ((List.range (2 * (Ncutoff / 2) + Ncutoff % 2 + 1)).map H)
    | some o =>
      let edges := addBatchEdgesOdd fixedEdges o
      let Ax : ℕ → ℕ → K := fun i j => Anz (edges.getD i 0) (edges.getD j 0)
      let Dx : ℕ → K := fun i => Dnz (edges.getD i 0)
      if Ncutoff = 0 then pure [0]
      else
        let batchMax := (Ncutoff - 1) / 2
        let evenCutoff := 1 - Ncutoff % 2
        let H := calcBatchOdd pt Ax Dx fixedMReps batchMax evenCutoff glynn
        pure ((List.range (2 * batchMax + evenCutoff + 2)).map H)

/-! #### loop_hafnian_batch_gamma -/

/-- Row `k` of `Hnew` of iteration `j` of `_calc_loop_hafnian_batch_gamma_even`, thewalrus/loop_hafnian_batch_gamma.py:87-118: `AX_S` and `oddVX_S` come from
`get_submatrices(delta, A, D[0, :], oddV)`, `XD_S`, `D_S` from `get_Dsubmatrices(delta, D[k, :])`. -/
def gammaEvenStep (pt : PowerTrace K) (A : ℕ → ℕ → K) (D : ℕ → ℕ → K) (fixedEdgeReps : List ℕ) (batchMax oddCutoff : ℕ) (glynn : Bool)
    (j : ℕ) (nD : ℕ) : ℕ → ℕ → K :=
  let oddV := A 0
  let Nfixed := 2 * fixedEdgeReps.sum
  let Nmax := Nfixed + 2 * batchMax + oddCutoff
  let edgeReps := batchMax :: fixedEdgeReps
  let maxBinom := edgeReps.foldl max 0 + oddCutoff
  let kept := findKeptEdges j edgeReps
  let edgesSum := kept.sum
  let bp : K := batchBinomProd maxBinom edgeReps kept
  let delta := keptWeights glynn edgeReps kept
  let m := (nonzeroRows delta).length
  let AXS := getAXS delta A
  let oddVXS := getXDS delta oddV
  forRange nD (fun _ _ => 0) fun k Hnew =>
    let XDS := getXDS delta (D k)
    let DS := getDS delta (D k)
    let fEven := fLoop pt m AXS AXS XDS DS Nmax
    let fOdd := fLoopOdd pt m AXS AXS XDS DS Nmax (D k 0) oddVXS
    forRange2 (2 * kept.getD 0 0) (2 * batchMax + oddCutoff + 1) Hnew fun Ndet Hnew =>
      let N := Nfixed + Ndet
      let plusMinus := (-1 : K) ^ (N / 2 - edgesSum)
      let ndbp : K := (precomputeBinoms maxBinom (Ndet / 2) (kept.getD 0 0) : K) * bp
      if Ndet % 2 = 0 then upd2 Hnew k Ndet (Hnew k Ndet + ndbp * plusMinus * fEven (N / 2))
      else upd2 Hnew k Ndet (Hnew k Ndet + ndbp * plusMinus * fOdd N)

/-- `_calc_loop_hafnian_batch_gamma_even`, thewalrus/loop_hafnian_batch_gamma.py:50-125. -/
def calcGammaEven (pt : PowerTrace K) (A : ℕ → ℕ → K) (nD : ℕ) (D : ℕ → ℕ → K) (fixedEdgeReps : List ℕ) (batchMax oddCutoff : ℕ)
    (glynn : Bool) : ℕ → ℕ → K :=
  let steps := ((batchMax :: fixedEdgeReps).map (· + 1)).prod
  let H : ℕ → ℕ → K := forRange steps (fun _ _ => 0) fun j H k i =>
    H k i + gammaEvenStep pt A D fixedEdgeReps batchMax oddCutoff glynn j nD k i
  if glynn then fun k i => H k i * (1 / 2) ^ ((2 * fixedEdgeReps.sum + i) / 2) else H

/-- `Hnew` of iteration `j` of `_calc_loop_hafnian_batch_gamma_odd`, thewalrus/loop_hafnian_batch_gamma.py:170-214. -/
def gammaOddStep (pt : PowerTrace K) (A : ℕ → ℕ → K) (D : ℕ → ℕ → K) (fixedEdgeReps : List ℕ) (batchMax evenCutoff : ℕ) (glynn : Bool)
    (j : ℕ) (nD : ℕ) : ℕ → ℕ → K :=
  let oddV := A 0
  let Nfixed := 2 * fixedEdgeReps.sum + 1
  let Nmax := Nfixed + 2 * batchMax + evenCutoff + 1
  let edgeReps := batchMax :: 1 :: fixedEdgeReps
  let maxBinom := edgeReps.foldl max 0 + evenCutoff
  let kept := findKeptEdges j edgeReps
  let edgesSum := kept.sum
  let bp : K := batchBinomProd maxBinom edgeReps kept
  let delta := keptWeights glynn edgeReps kept
  let m := (nonzeroRows delta).length
  let AXS := getAXS delta A
  let oddVXS := getXDS delta oddV
  forRange nD (fun _ _ => 0) fun k Hnew =>
    let XDS := getXDS delta (D k)
    let DS := getDS delta (D k)
    let Hnew := if kept.getD 0 0 = 0 ∧ kept.getD 1 0 = 0 then
        let plusMinus := (-1 : K) ^ (Nfixed / 2 - edgesSum)
        let f := fLoopOdd pt m AXS AXS XDS DS Nfixed (D k 1) (getXDS delta (A 1)) Nfixed
        upd2 Hnew k 0 (Hnew k 0 + bp * plusMinus * f)
      else Hnew
    let fEven := fLoop pt m AXS AXS XDS DS Nmax
    let fOdd := fLoopOdd pt m AXS AXS XDS DS Nmax (D k 0) oddVXS
    forRange2 (2 * kept.getD 0 0 + 1) (2 * batchMax + evenCutoff + 2) Hnew fun Ndet Hnew =>
      let N := Nfixed + Ndet
      let plusMinus := (-1 : K) ^ (N / 2 - edgesSum)
      let ndbp : K := (precomputeBinoms maxBinom ((Ndet - 1) / 2) (kept.getD 0 0) : K) * bp
      if N % 2 = 0 then upd2 Hnew k Ndet (Hnew k Ndet + ndbp * plusMinus * fEven (N / 2))
      else upd2 Hnew k Ndet (Hnew k Ndet + ndbp * plusMinus * fOdd N)

/-- `_calc_loop_hafnian_batch_gamma_odd`, thewalrus/loop_hafnian_batch_gamma.py:128-222. -/
def calcGammaOdd (pt : PowerTrace K) (A : ℕ → ℕ → K) (nD : ℕ) (D : ℕ → ℕ → K) (fixedEdgeReps : List ℕ) (batchMax evenCutoff : ℕ)
    (glynn : Bool) : ℕ → ℕ → K :=
  let steps := ((batchMax :: 1 :: fixedEdgeReps).map (· + 1)).prod
  let H : ℕ → ℕ → K := forRange steps (fun _ _ => 0) fun j H k i =>
    H k i + gammaOddStep pt A D fixedEdgeReps batchMax evenCutoff glynn j nD k i
  if glynn then fun k i => H k i * (1 / 2) ^ ((2 * fixedEdgeReps.sum + 1 + i) / 2) else H

/-- `loop_hafnian_batch_gamma`, thewalrus/loop_hafnian_batch_gamma.py:225-271.  `D` is `nD × dl`.  The result is the list of rows. -/
def loopHafnianBatchGamma (pt : PowerTrace K) (rows cols : ℕ) (A : ℕ → ℕ → K) (nD dl : ℕ) (D : ℕ → ℕ → K) (fixedReps : List ℕ) (Ncutoff : ℕ)
    (glynn : Bool) : Except PyErr (List (List K)) :=
  if cols ≠ rows then .error .assertionError
  else if dl ≠ rows then .error .assertionError
  else if fixedReps.length + 1 ≠ rows then .error .assertionError
  else do
    let nz := batchNz fixedReps
    let Anz : ℕ → ℕ → K := fun i j => A (nz.getD i 0) (nz.getD j 0)
    let Dnz : ℕ → ℕ → K := fun k i => D k (nz.getD i 0)
    let fixedNz := (nz.dropLast).map fun i => fixedReps.getD i 0
    let (fixedEdges, fixedMReps, oddmode) ← matchedReps fixedNz
    match oddmode with
    | none =>
      let edges := addBatchEdgesEven fixedEdges
      let Ax : ℕ → ℕ → K := fun i j => Anz (edges.getD i 0) (edges.getD j 0)
      let Dx : ℕ → ℕ → K := fun k i => Dnz k (edges.getD i 0)
      let H := calcGammaEven pt Ax nD Dx fixedMReps (Ncutoff / 2) (Ncutoff % 2) glynn
      pure ((List.range nD).map fun k => (List.range (2 * (Ncutoff / 2) + Ncutoff % 2 + 1)).map (H k))
    | some o =>
      let edges := addBatchEdgesOdd fixedEdges o
      let Ax : ℕ → ℕ → K := fun i j => Anz (edges.getD i 0) (edges.getD j 0)
      let Dx : ℕ → ℕ → K := fun k i => Dnz k (edges.getD i 0)
      if Ncutoff = 0 then pure ((List.range nD).map fun _ => [0])
      else
        let batchMax := (Ncutoff - 1) / 2
        let evenCutoff := 1 - Ncutoff % 2
        let H := calcGammaOdd pt Ax nD Dx fixedMReps batchMax evenCutoff glynn
        pure ((List.range nD).map fun k => (List.range (2 * batchMax + evenCutoff + 2)).map (H k))

end Verif.Model
