/-
Model of thewalrus/symplectic.py.  An array is its shape together with a total entry function (values outside the shape are arbitrary);
mode numbers are natural numbers (negative Python indices are not modelled); dense arrays only (the sparse branch of `expand` stores the same
entries).
-/
import Verif.Model.Hafnian
import Verif.Model.Tolerance
import Mathlib.Analysis.Complex.Trigonometric
import Mathlib.Analysis.SpecialFunctions.Sqrt

namespace Verif.Model.Symp

section generic
variable {K : Type} [Field K]

/-- `np.identity` -/
def eye : ℕ → ℕ → K := fun i j => if i = j then 1 else 0

/-- `np.block([[a, b], [c, d]])` where `a` is `r × s`. -/
def block (r s : ℕ) (a b c d : ℕ → ℕ → K) : ℕ → ℕ → K := fun i j =>
  if i < r then (if j < s then a i j else b i (j - s)) else (if j < s then c (i - r) j else d (i - r) (j - s))

/-- `A @ B` with inner dimension `m` -/
def mmul (m : ℕ) (A B : ℕ → ℕ → K) : ℕ → ℕ → K := fun i j => dot m (A i) fun l => B l j

/-- `A.T` -/
def tr (A : ℕ → ℕ → K) : ℕ → ℕ → K := fun i j => A j i

/-- `A[ri.reshape(-1,1), ci.reshape(1,-1)] = B`: one store per position, row by row. -/
def scatter (A : ℕ → ℕ → K) (ri ci : List ℕ) (B : ℕ → ℕ → K) : ℕ → ℕ → K :=
  forRange ri.length A fun a A => forRange ci.length A fun b A => upd2 A (ri.getD a 0) (ci.getD b 0) (B a b)

/-- The single-mode stores of `expand`, thewalrus/symplectic.py:103-106. -/
def expandOne (S : ℕ → ℕ → K) (N : ℕ) (S2 : ℕ → ℕ → K) (m : ℕ) : ℕ → ℕ → K :=
  upd2 (upd2 (upd2 (upd2 S2 m m (S 0 0)) (m + N) (m + N) (S 1 1)) m (m + N) (S 0 1)) (m + N) m (S 1 0)

/-- `expand`, thewalrus/symplectic.py:71-115; `S` is `rows × rows`.  For `M ≥ 2` numpy refuses to broadcast the blocks of `S` unless
`len(modes) == M` (an odd number of rows makes the lower blocks larger than that). -/
def expand (rows : ℕ) (S : ℕ → ℕ → K) (modes : List ℕ) (N : ℕ) : Except PyErr (ℕ → ℕ → K) :=
  let M := rows / 2
  if M = 1 then
    if modes.any (· ≥ N) then .error .indexError
    else .ok (modes.foldl (expandOne S N) eye)
  else if modes.length ≠ M ∨ rows - M ≠ M then .error .valueError
  else if modes.any (· ≥ N) then .error .indexError
  else
    let wN := modes.map (· + N)
    let S2 := scatter eye modes modes fun a b => S a b
    let S2 := scatter S2 wN wN fun a b => S (M + a) (M + b)
    let S2 := scatter S2 modes wN fun a b => S a (M + b)
    let S2 := scatter S2 wN modes fun a b => S (M + a) b
    .ok S2

/-- `expand_passive`, thewalrus/symplectic.py:137-159; `T` is `rows × cols`. -/
def expandPassive (rows cols : ℕ) (T : ℕ → ℕ → K) (modes : List ℕ) (N : ℕ) : Except PyErr (ℕ → ℕ → K) :=
  if rows ≠ cols then .error .valueError
  else if modes.length ≠ rows then .error .valueError
  else if modes.any (· ≥ N) then .error .indexError
  else .ok (scatter eye modes modes T)

/-- A Gaussian state as the functions below return it: number of entries of the vector of means, means, covariance matrix. -/
structure GState (K : Type) where
  len : ℕ
  mu : ℕ → K
  cov : ℕ → ℕ → K

/-- `mu[ind]`, `cov[rows, cols]` with `ind = concatenate([modes, modes + N])`; an index beyond the array raises `IndexError`, and so does
the empty list (`np.array([])` has floating point entries);
thewalrus/symplectic.py:188-192, thewalrus/quantum/conversions.py:48-52. -/
def gather (s : GState K) (modes : List ℕ) : Except PyErr (GState K) :=
  let N := s.len / 2
  let ind := modes ++ modes.map (· + N)
  if modes = [] ∨ ind.any (· ≥ s.len) then .error .indexError
  else .ok { len := ind.length, mu := fun i => s.mu (ind.getD i 0), cov := fun i j => s.cov (ind.getD i 0) (ind.getD j 0) }

/-- `reduced_state`, thewalrus/symplectic.py:162-192 (an integer argument is the one-element list). -/
def reducedState (s : GState K) (modes : List ℕ) : Except PyErr (GState K) :=
  let N := s.len / 2
  if modes = List.range N then .ok s
  else if modes.any (· > N) then .error .valueError
  else gather s modes

/-- `reduced_gaussian`, thewalrus/quantum/conversions.py:22-52: the whole state is returned as soon as the list has `N` elements. -/
def reducedGaussian (s : GState K) (modes : List ℕ) : Except PyErr (GState K) :=
  let N := s.len / 2
  if modes.any (· > N) then .error .valueError
  else if modes.length = N then .ok s
  else gather s modes

/-- `vacuum_state`, thewalrus/symplectic.py:195-209. -/
def vacuumState (modes : ℕ) (hbar : K) : GState K :=
  { len := 2 * modes, mu := fun _ => 0, cov := fun i j => eye i j * hbar / 2 }

/-- `sympmat`, thewalrus/symplectic.py:408-421. -/
def sympmat (N : ℕ) : ℕ → ℕ → K := block N N (fun _ _ => 0) eye (fun i j => -eye i j) (fun _ _ => 0)

/-- `ind` of `xxpp_to_xpxp`, thewalrus/symplectic.py:460: `np.arange(2n).reshape(2, -1).T.flatten()`. -/
def indXpxp (n i : ℕ) : ℕ := (i % 2) * n + i / 2

/-- `ind` of `xpxp_to_xxpp`, thewalrus/symplectic.py:486: `np.arange(2n).reshape(-1, 2).T.flatten()`. -/
def indXxpp (n i : ℕ) : ℕ := 2 * (i % n) + i / n

/-- A vector or a matrix. -/
inductive Arr (K : Type)
  | vec (n : ℕ) (v : ℕ → K)
  | mat (r c : ℕ) (A : ℕ → ℕ → K)

/-- The common body of the two reorderings, thewalrus/symplectic.py:453-467 and 479-493. -/
def reorder (ind : ℕ → ℕ → ℕ) : Arr K → Except PyErr (Arr K)
  | .vec n v => if n % 2 ≠ 0 then .error .valueError else .ok (.vec n fun i => v (ind (n / 2) i))
  | .mat r c A =>
    if r % 2 ≠ 0 then .error .valueError
    else if r ≠ c then .error .valueError
    else .ok (.mat r c fun i j => A (ind (r / 2) i) (ind (r / 2) j))

/-- `xxpp_to_xpxp`, thewalrus/symplectic.py:444-467. -/
def xxppToXpxp (S : Arr K) : Except PyErr (Arr K) := reorder indXpxp S

/-- `xpxp_to_xxpp`, thewalrus/symplectic.py:470-493. -/
def xpxpToXxpp (S : Arr K) : Except PyErr (Arr K) := reorder indXxpp S

/-- `symplectic.is_symplectic`, thewalrus/symplectic.py:424-441. -/
def isSymplectic (close : K → K → Bool) (n m : ℕ) (S : ℕ → ℕ → K) : Bool :=
  if n ≠ m then false
  else if n % 2 ≠ 0 then false
  else
    let Omega : ℕ → ℕ → K := sympmat (n / 2)
    allClose2 close n n (mmul n (mmul n (tr S) Omega) S) Omega

/-- `quantum.is_symplectic`, thewalrus/quantum/gaussian_checks.py:164-192. -/
def isSymplecticQ (close : K → K → Bool) (n m : ℕ) (S : ℕ → ℕ → K) : Bool :=
  if n ≠ m then false
  else if n % 2 ≠ 0 then false
  else
    let h := n / 2
    let A : ℕ → ℕ → K := fun i j => S i j
    let B : ℕ → ℕ → K := fun i j => S i (h + j)
    let C : ℕ → ℕ → K := fun i j => S (h + i) j
    let D : ℕ → ℕ → K := fun i j => S (h + i) (h + j)
    allClose2 close h h (mmul h (tr A) C) (mmul h (tr C) A)
      && allClose2 close h h (mmul h (tr B) D) (mmul h (tr D) B)
      && allClose2 close h h (fun i j => mmul h (tr A) D i j - mmul h (tr C) B i j) eye

end generic

noncomputable section

/-- `expand_vector`, thewalrus/symplectic.py:118-134. -/
def expandVector (alpha : ℂ) (mode N : ℕ) (hbar : ℝ) : Except PyErr (ℕ → ℝ) :=
  if mode ≥ N then .error .indexError
  else .ok (Function.update (Function.update (fun _ => 0) mode (Real.sqrt (2 * hbar) * alpha.re)) (N + mode) (Real.sqrt (2 * hbar) * alpha.im))

/-- The stores of one iteration of `squeezing`, thewalrus/symplectic.py:241-245. -/
def squeezeOne (M : ℕ) (S : ℕ → ℕ → ℝ) (i : ℕ) (r phi : ℝ) : ℕ → ℕ → ℝ :=
  let S := upd2 S i i (Real.cosh r - Real.sinh r * Real.cos phi)
  let S := upd2 S i (i + M) (-Real.sinh r * Real.sin phi)
  let S := upd2 S (i + M) i (-Real.sinh r * Real.sin phi)
  upd2 S (i + M) (i + M) (Real.cosh r + Real.sinh r * Real.cos phi)

/-- `squeezing`, thewalrus/symplectic.py:212-247; `phi = None` means zeros.  `zip` stops at the shorter list. -/
def squeezing (r : List ℝ) (phi : Option (List ℝ)) : ℕ → ℕ → ℝ :=
  let phi := phi.getD (List.replicate r.length 0)
  forRange (min r.length phi.length) eye fun i S => squeezeOne r.length S i (r.getD i 0) (phi.getD i 0)

/-- A literal 4×4 array. -/
def lit4 (l : List (List ℝ)) : ℕ → ℕ → ℝ := fun i j => (l.getD i []).getD j 0

/-- `two_mode_squeezing`, thewalrus/symplectic.py:250-276. -/
def twoModeSqueezing (r phi : ℝ) : ℕ → ℕ → ℝ :=
  let cp := Real.cos phi
  let sp := Real.sin phi
  let ch := Real.cosh r
  let sh := Real.sinh r
  lit4 [[ch, cp * sh, 0, sp * sh], [cp * sh, ch, sp * sh, 0], [0, sp * sh, ch, -cp * sh], [sp * sh, 0, -cp * sh, ch]]

/-- `interferometer`, thewalrus/symplectic.py:279-292, for an `r × c` array. -/
def interferometer (r c : ℕ) (U : ℕ → ℕ → ℂ) : ℕ → ℕ → ℝ :=
  block r c (fun i j => (U i j).re) (fun i j => -(U i j).im) (fun i j => (U i j).im) (fun i j => (U i j).re)

/-- `passive_transformation`, thewalrus/symplectic.py:295-318; `T` is `M × N`; numpy raises `ValueError` unless the state has `N` modes. -/
def passiveTransformation (s : GState ℝ) (M N : ℕ) (T : ℕ → ℕ → ℂ) (hbar : ℝ) : Except PyErr (GState ℝ) :=
  if s.len ≠ 2 * N then .error .valueError
  else
    let P := interferometer M N T
    let PPt := mmul (2 * N) P (tr P)
    let L : ℕ → ℕ → ℝ := fun i j => (hbar / 2) * (eye i j - PPt i j)
    let PVPt := mmul (2 * N) (mmul (2 * N) P s.cov) (tr P)
    .ok { len := 2 * M, mu := fun i => dot (2 * N) (P i) s.mu, cov := fun i j => PVPt i j + L i j }

/-- One pass of the loop of `loss`, thewalrus/symplectic.py:343-347. -/
def lossOne (T nbar hbar : ℝ) (s : GState ℝ) (m : ℕ) : GState ℝ :=
  let mu := Function.update s.mu m (s.mu m * Real.sqrt T)
  let cov : ℕ → ℕ → ℝ := fun i j => if i = m then s.cov i j * Real.sqrt T else s.cov i j
  let cov : ℕ → ℕ → ℝ := fun i j => if j = m then cov i j * Real.sqrt T else cov i j
  let cov := upd2 cov m m (cov m m + (1 - T) * (2 * nbar + 1) * hbar / 2)
  { len := s.len, mu := mu, cov := cov }

/-- `loss`, thewalrus/symplectic.py:322-349. -/
def loss (s : GState ℝ) (T : ℝ) (mode : ℕ) (nbar hbar : ℝ) : Except PyErr (GState ℝ) :=
  let N := s.len / 2
  if mode + N ≥ s.len then .error .indexError
  else .ok ([mode, mode + N].foldl (lossOne T nbar hbar) s)

/-- `mean_photon_number`, thewalrus/symplectic.py:354-368 (one mode): expectation value and variance. -/
def meanPhotonNumber (s : GState ℝ) (hbar : ℝ) : ℝ × ℝ :=
  let trC := s.cov 0 0 + s.cov 1 1
  let CC := mmul 2 s.cov s.cov
  ((trC + dot 2 s.mu s.mu) / (2 * hbar) - 1 / 2,
   (CC 0 0 + CC 1 1 + dot 2 (fun j => dot 2 (fun i => 2 * s.mu i) fun i => s.cov i j) s.mu) / (2 * hbar ^ 2) - 1 / 4)

/-- `beam_splitter`, thewalrus/symplectic.py:371-391. -/
def beamSplitter (theta phi : ℝ) : ℕ → ℕ → ℝ :=
  let ct : ℂ := (Real.cos theta : ℝ)
  let st : ℂ := (Real.sin theta : ℝ)
  let eip : ℂ := (Real.cos phi : ℝ) + Complex.I * (Real.sin phi : ℝ)
  interferometer 2 2 fun i j =>
    if i = 0 then (if j = 0 then ct else -(starRingEnd ℂ) eip * st) else (if j = 0 then eip * st else ct)

/-- `rotation`, thewalrus/symplectic.py:394-405. -/
def rotation (theta : ℝ) : ℕ → ℕ → ℝ :=
  interferometer 1 1 fun i j => eye i j * ((Real.cos theta : ℝ) + Complex.I * (Real.sin theta : ℝ))

end

end Verif.Model.Symp
