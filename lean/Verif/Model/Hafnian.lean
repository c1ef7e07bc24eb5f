/-
Model of thewalrus/_hafnian.py: pairing of repeated vertices, front ends.
`close a b` stands for the elementwise test of `np.isclose(a, b, rtol, atol)` with the tolerances passed by the
caller; `Verif/Model/Tolerance.lean` gives the concrete test over the complex numbers.
-/
import Verif.Py
import Verif.Model.HafnianCore

namespace Verif.Model

variable {K : Type} [Field K]

/-- Python's order on `(rep, index)` tuples, descending (`reverse=True`): `a` may stand before `b`. -/
def geLex (a b : ℕ × ℕ) : Bool := a.1 > b.1 || (a.1 == b.1 && a.2 ≥ b.2)

/-- The `while` loop of `matched_reps`, thewalrus/_hafnian.py:118-148.  `l` is the list of `(reps, x)` pairs, the
edges are accumulated in order as `(x_A, x_B, reps)`.  The first argument is fuel. -/
def matchLoop : ℕ → List (ℕ × ℕ) → List (ℕ × ℕ × ℕ) → Except PyErr (List (ℕ × ℕ × ℕ) × List (ℕ × ℕ))
  | 0, _, _ => .error .outOfFuel
  | fuel + 1, l, edges =>
    if l.length > 1 ∨ (l.length = 1 ∧ (l.headD (0, 0)).1 > 1) then
      match l.mergeSort geLex with
      | [] => .error .indexError
      | (r0, x0) :: rest =>
        match rest with
        | [] =>
          let e := edges ++ [(x0, x0, r0 / 2)]
          if r0 % 2 = 0 then matchLoop fuel rest e else matchLoop fuel ((1, x0) :: rest) e
        | (r1, x1) :: rest' =>
          if r0 > r1 * 2 then
            let e := edges ++ [(x0, x0, r0 / 2)]
            if r0 % 2 = 0 then matchLoop fuel rest e else matchLoop fuel ((1, x0) :: rest) e
          else
            let e := edges ++ [(x0, x1, r1)]
            if r0 > r1 then matchLoop fuel ((r0 - r1, x0) :: rest') e else matchLoop fuel rest' e
    else .ok (edges, l)

/-- `matched_reps`, thewalrus/_hafnian.py:81-160: `(x, edge_reps, oddmode)`. -/
def matchedReps (reps : List ℕ) : Except PyErr (List ℕ × List ℕ × Option ℕ) :=
  if reps.sum = 0 then .ok ([], [], none)
  else do
    let l := (reps.zip (List.range reps.length)).mergeSort geLex
    let l := l.filter fun p => p.1 > 0
    let (edges, l) ← matchLoop (reps.sum + 1) l []
    let odd := match l with
      | [p] => some p.2
      | _ => none
    pure (edges.map (·.1) ++ edges.map (·.2.1), edges.map (·.2.2), odd)

/-- `_haf`, thewalrus/_hafnian.py:470-510.  `n` is the size of `A`; `reps = none` is Python's `None`. -/
def hafFront (pt : PowerTrace K) (n : ℕ) (A : ℕ → ℕ → K) (reps : Option (List ℕ)) (glynn : Bool) : Except PyErr K :=
  let reps := reps.getD (List.replicate n 1)
  let N := reps.sum
  if N = 0 then .ok 1
  else if N % 2 = 1 then .ok 0
  else if n ≠ reps.length then .error .assertionError
  else do
    let (x, edgeReps, _) ← matchedReps reps
    let Ax : ℕ → ℕ → K := fun i j => A (x.getD i 0) (x.getD j 0)
    pure (calcHafnian pt Ax edgeReps glynn)

/-- `loop_hafnian`, thewalrus/_hafnian.py:580-628.  `D = none` means the diagonal of `A`; otherwise length and
entries. -/
def loopHafnian (pt : PowerTrace K) (n : ℕ) (A : ℕ → ℕ → K) (D : Option (ℕ × (ℕ → K))) (reps : Option (List ℕ))
    (glynn : Bool) : Except PyErr K :=
  let reps := reps.getD (List.replicate n 1)
  let (dl, D) := D.getD (n, fun i => A i i)
  let N := reps.sum
  if N = 0 then .ok 1
  else if N = 1 then .ok (D (reps.idxOf 1))
  else if n ≠ reps.length then .error .assertionError
  else if dl ≠ n then .error .assertionError
  else do
    let (x, edgeReps, oddmode) ← matchedReps reps
    let Ax : ℕ → ℕ → K := fun i j => A (x.getD i 0) (x.getD j 0)
    let Dx : ℕ → K := fun i => D (x.getD i 0)
    let odd := oddmode.map fun o => (D o, fun i => A o (x.getD i 0))
    pure (calcLoopHafnian pt Ax Dx edgeReps odd glynn)

/-- `np.allclose(a, b)` for `r × c` arrays. -/
def allClose2 (close : K → K → Bool) (r c : ℕ) (a b : ℕ → ℕ → K) : Bool :=
  (List.range r).all fun i => (List.range c).all fun j => close (a i j) (b i j)

/-- `input_validation`, thewalrus/_hafnian.py:631-665.  On success the entries are returned (the code returns `True`
and goes on using `A`). -/
def inputValidation (close : K → K → Bool) (A : PyObj K) : Except PyErr (ℕ × (ℕ → ℕ → K)) :=
  match A with
  | .other => .error .typeError
  | .arr rows cols e =>
    if rows ≠ cols then .error .valueError
    else if (List.range rows).any (fun i => (List.range cols).any fun j => (e i j).isNone) then .error .valueError
    else
      let a : ℕ → ℕ → K := fun i j => (e i j).getD 0
      if allClose2 close rows cols a (fun i j => a j i) then .ok (rows, a) else .error .valueError

/-- `np.diag(np.diag(A))` -/
def diagDiag (a : ℕ → ℕ → K) : ℕ → ℕ → K := fun i j => if i = j then a i j else 0

/-! #### recursive algorithm -/

/-- Body `e[u+v+1] += g[u]*b[0][v]` of `solve`, thewalrus/_hafnian.py:1029-1031. -/
def polyAcc (n : ℕ) (e0 g h : ℕ → K) : ℕ → K :=
  forRange n e0 fun u e => forRange (n - u) e fun v e => fun i => if i = u + v + 1 then e i + g u * h v else e i

/-- `solve`, thewalrus/_hafnian.py:1002-1041, with `s = 2*m`.  `b i` is row `i` of the edge array (row `j(j-1)/2+k`
is the polynomial of edge `{j,k}`, `k<j`), `c` is rebuilt for each call. -/
def solve (n : ℕ) : (m : ℕ) → (b : ℕ → ℕ → K) → (w : K) → (g : ℕ → K) → K
  | 0, _, w, g => w * g n
  | m + 1, b, w, g =>
    -- c[i] = b[(j+1)(j+2)/2+k+2], i running; s - 2 = 2*m
    let st := forRange2 1 (2 * m) ((fun _ _ => 0 : ℕ → ℕ → K), 0) fun j st =>
      forRange j st fun k (st : (ℕ → ℕ → K) × ℕ) =>
        (fun r => if r = st.2 then b ((j + 1) * (j + 2) / 2 + k + 2) else st.1 r, st.2 + 1)
    let c := st.1
    let h := solve n m c (-w) g
    let e := polyAcc n g g (b 0)
    let c' := forRange2 1 (2 * m) c fun j c =>
      forRange j c fun k c =>
        let r := j * (j - 1) / 2 + k
        let new := forRange n (c r) fun u row => forRange (n - u) row fun v row => fun i =>
          if i = u + v + 1 then
            row i + (b ((j + 1) * (j + 2) / 2) u * b ((k + 1) * (k + 2) / 2 + 1) v
              + b ((k + 1) * (k + 2) / 2) u * b ((j + 1) * (j + 2) / 2 + 1) v)
          else row i
        fun r' => if r' = r then new else c r'
    h + solve n m c' w e

/-- `recursive_hafnian`, thewalrus/_hafnian.py:966-999; shape is `rows × cols`. -/
def recursiveHafnian (rows cols : ℕ) (A : ℕ → ℕ → K) : Except PyErr K :=
  if rows ≠ cols then .error .valueError
  else if rows % 2 ≠ 0 then .error .valueError
  else
    let n := rows / 2
    let z := forRange2 1 (2 * n) (fun _ _ => (0 : K)) fun j z =>
      forRange j z fun k z => upd2 z (j * (j - 1) / 2 + k) 0 (A j k)
    .ok (solve n n z 1 (fun i => if i = 0 then 1 else 0))

/-! #### user-facing functions -/

/-- `hafnian`, thewalrus/_hafnian.py:719-823, with `approx=False` (the Monte-Carlo branch is not modelled).
`method` other than `glynn`/`inclexcl` leaves the local variable `glynn` unbound. -/
def hafnian (pt : PowerTrace K) (close : K → K → Bool) (A : PyObj K) (loop : Bool) (method : String) : Except PyErr K := do
  let (n, a) ← inputValidation close A
  let glynn : Option Bool := if method = "inclexcl" then some false else if method = "glynn" then some true else none
  if n = 0 then pure 1
  else if n % 2 ≠ 0 ∧ loop = false then pure 0
  else if allClose2 close n n (diagDiag a) a then
    if loop then pure (((List.range n).map fun i => a i i).prod) else pure 0
  else if n = 2 then
    if loop then pure (a 0 1 + a 0 0 * a 1 1) else pure (a 0 1)
  else if n = 3 ∧ loop = true then
    pure (a 0 0 * a 1 2 + a 1 1 * a 0 2 + a 2 2 * a 0 1 + a 0 0 * a 1 1 * a 2 2)
  else if n = 4 then
    if loop then
      pure (a 0 1 * a 2 3 + a 0 2 * a 1 3 + a 0 3 * a 1 2
        + a 0 0 * a 1 1 * a 2 3 + a 0 1 * a 2 2 * a 3 3 + a 0 2 * a 1 1 * a 3 3
        + a 0 0 * a 2 2 * a 1 3 + a 0 0 * a 3 3 * a 1 2 + a 0 3 * a 1 1 * a 2 2
        + a 0 0 * a 1 1 * a 2 2 * a 3 3)
    else pure (a 0 1 * a 2 3 + a 0 2 * a 1 3 + a 0 3 * a 1 2)
  else if loop then loopHafnian pt n a none none true
  else if method = "recursive" then recursiveHafnian n n a
  else
    match glynn with
    | none => .error .unboundLocalError
    | some g => hafFront pt n a none g

/-- `reduction`, thewalrus/_hafnian.py:699-717: `rows` list. -/
def reductionRows (rpt : List ℕ) : List ℕ :=
  ((List.range rpt.length).map fun idx => List.replicate (rpt.getD idx 0) idx).flatten

/-- `reduction` of a matrix: size and entries. -/
def reduction2 (A : ℕ → ℕ → K) (rpt : List ℕ) : ℕ × (ℕ → ℕ → K) :=
  let rows := reductionRows rpt
  (rows.length, fun i j => A (rows.getD i 0) (rows.getD j 0))

/-- `reduction` of a vector. -/
def reduction1 (v : ℕ → K) (rpt : List ℕ) : ℕ × (ℕ → K) :=
  let rows := reductionRows rpt
  (rows.length, fun i => v (rows.getD i 0))

/-- `hafnian_repeated`, thewalrus/_hafnian.py:869-945.  `rpt` is a list of integers (a non-integer entry raises
`ValueError` just like a negative one: not modelled); `mu = none` is Python's `None`. -/
def hafnianRepeated (pt : PowerTrace K) (close : K → K → Bool) (A : PyObj K) (rpt : List ℤ)
    (mu : Option (ℕ × (ℕ → K))) (loop glynn : Bool) : Except PyErr K := do
  let (n, a) ← inputValidation close A
  if rpt.length ≠ n then throw .valueError
  else if rpt.any (· < 0) then throw .valueError
  else
    let nud := rpt.map Int.toNat
    if nud.all (· = 0) then pure 1
    else if nud.sum % 2 ≠ 0 ∧ loop = false then pure 0
    else
      let (ml, m) := mu.getD (n, fun i => a i i)
      if allClose2 close n n a (fun _ _ => 0) then
        if loop then
          -- np.prod(mu**rpt): broadcasting fails unless the lengths agree or one of them is 1
          if ml = n then pure (((List.range n).map fun i => m i ^ (nud.getD i 0)).prod)
          else if ml = 1 then pure (((List.range n).map fun i => m 0 ^ (nud.getD i 0)).prod)
          else if n = 1 then pure (((List.range ml).map fun i => m i ^ (nud.getD 0 0)).prod)
          else throw .valueError
        else pure 0
      else if ml ≠ n then throw .valueError
      else if loop then loopHafnian pt n a (some (ml, m)) (some nud) glynn
      else hafFront pt n a (some nud) glynn

end Verif.Model
