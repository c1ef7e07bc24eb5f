/-
Model of thewalrus/_montrealer.py and of the montrealer part of thewalrus/reference.py.
-/
import Verif.Model.Torontonian
import Verif.Model.Charpoly

namespace Verif.Model.Mtl
open Verif.Model Verif.Model.Symp Verif.Model.Conv Verif.Model.Tor

/-- The `while` loop of `dec2bin`, thewalrus/_montrealer.py:30-33: `written` digits have been stored (`counter` is `-1 - written`); the store raises
if there are no more places.  `fuel` bounds the number of rounds. -/
def dec2binLoop (n : ℕ) : ℕ → ℕ → (ℕ → ℕ) → ℕ → Except PyErr (ℕ → ℕ)
  | 0, _, digits, nn => if nn ≥ 1 then .error .outOfFuel else .ok digits
  | fuel + 1, written, digits, nn =>
    if nn ≥ 1 then
      if n ≤ written then .error .indexError
      else dec2binLoop n fuel (written + 1) (Function.update digits (n - 1 - written) (nn % 2)) (nn / 2)
    else .ok digits

/-- `dec2bin`, thewalrus/_montrealer.py:17-34, with the bounds check of numpy (the compiled function has none, but is only called with `num < 2**n`). -/
def dec2bin (num n : ℕ) : Except PyErr (List ℕ) := do
  let digits ← dec2binLoop n num 0 (fun _ => 0) num
  pure ((List.range n).filter fun i => digits i ≠ 0)

/-- `np.concatenate((pos, n + pos))`, thewalrus/_montrealer.py:53, 96. -/
def both (n : ℕ) (pos : List ℕ) : List ℕ := pos ++ pos.map (n + ·)

/-- `nb_ix(Sigma, idx, idx)`, thewalrus/_hafnian.py (entries of the rows and columns listed). -/
def sub (Sigma : ℕ → ℕ → ℂ) (idx : List ℕ) : ℕ → ℕ → ℂ := fun a b => Sigma (idx.getD a 0) (idx.getD b 0)

/-- `montrealer`, thewalrus/_montrealer.py:38-57, for an array of `dim` rows, executed sequentially. -/
noncomputable def montrealer (dim : ℕ) (Sigma : ℕ → ℕ → ℂ) : Except PyErr ℂ := do
  let n := dim / 2
  let val ← (List.range (2 ^ n)).foldlM (fun (val : ℂ) p => do
    let pos ← dec2bin p n
    let idx := both n pos
    let sign : ℂ := (-1) ^ (pos.length + 1)
    pure (val + sign * (powertraceList idx.length (sub Sigma idx) (n + 1)).getLastD 0)) 0
  if n = 0 then .error .zeroDivision else pure ((-1) ^ (n + 1) * val / (2 * n))

/-- `power_loop`, thewalrus/_montrealer.py:61-75, for vectors of `d` entries. -/
noncomputable def powerLoop (d : ℕ) (Sigma : ℕ → ℕ → ℂ) (zeta : ℕ → ℂ) (n : ℕ) : ℂ :=
  let vec := forRange (n - 1) zeta fun _ vec => matVec d Sigma vec
  dot d (fun i => (starRingEnd ℂ) (zeta i)) vec

/-- `lmontrealer`, thewalrus/_montrealer.py:79-102, executed sequentially. -/
noncomputable def lmontrealer (dim : ℕ) (Sigma : ℕ → ℕ → ℂ) (zeta : ℕ → ℂ) : Except PyErr ℂ := do
  let n := dim / 2
  let st ← (List.range (2 ^ n)).foldlM (fun (st : ℂ × ℂ) p => do
    let pos ← dec2bin p n
    let idx := both n pos
    let sign : ℂ := (-1) ^ (pos.length + 1)
    pure (st.1 + sign * (powertraceList idx.length (sub Sigma idx) (n + 1)).getLastD 0,
      st.2 + sign * powerLoop idx.length (sub Sigma idx) (fun a => zeta (idx.getD a 0)) n)) (0, 0)
  if n = 0 then .error .zeroDivision else pure ((-1) ^ (n + 1) * (st.1 / (2 * n) + st.2 / 2))

/-- `lmtl`, thewalrus/_montrealer.py:105-119. -/
noncomputable def lmtl (A : Mat2) (zeta : Vec1) : Except PyErr ℂ := do
  let r ← torInputChecks A (some zeta)
  lmontrealer r.1 (mmul r.1 (Xmat (r.1 / 2)) r.2.1) r.2.2

/-- `mtl`, thewalrus/_montrealer.py:122-135. -/
noncomputable def mtl (A : Mat2) : Except PyErr ℂ := do
  let r ← torInputChecks A none
  montrealer r.1 (mmul r.1 (Xmat (r.1 / 2)) r.2.1)

end Verif.Model.Mtl

namespace Verif.Model.Reference

/-- An assignment `d[k] = v` to a dictionary, as a list of its items in order. -/
def dictSet {α β : Type} [DecidableEq α] (d : List (α × β)) (k : α) (v : β) : List (α × β) :=
  if d.any (fun p => decide (p.1 = k)) then d.map fun p => if p.1 = k then (k, v) else p else d ++ [(k, v)]

/-- `d[k]` -/
def dictGet {α β : Type} [DecidableEq α] (d : List (α × β)) (k : α) : Except PyErr β :=
  match d.find? fun p => decide (p.1 = k) with
  | some p => .ok p.2
  | none => .error .keyError

/-- `l[i]` -/
def listGet {α : Type} (l : List α) (i : ℕ) : Except PyErr α :=
  match l[i]? with
  | some x => .ok x
  | none => .error .indexError

/-- The loop of lines 300-302 of thewalrus/reference.py: exchange the entries `i` of the two lists where the bit string has a 1. -/
def swapLoop (bit : List ℕ) (b0 b1 : List ℕ) : List ℕ × List ℕ :=
  (List.range bit.length).foldl (fun (b : List ℕ × List ℕ) i =>
    if bit.getD i 0 ≠ 0 then (b.1.set i (b.2.getD i 0), b.2.set i (b.1.getD i 0)) else b) (b0, b1)

/-- `mapper`, thewalrus/reference.py:287-309. -/
def mapper (perm bit objects : List ℕ) : Except PyErr (List (ℕ × ℕ)) := do
  let m := bit.length
  let b := swapLoop bit (List.range m) (List.range' m m)
  let first ← (0 :: perm).mapM (listGet b.1)
  let second ← (0 :: perm).mapM (listGet b.2)
  let blist := first ++ second
  let dico := (List.range blist.length).foldl (fun d i => dictSet d (blist.getD i 0) (i + 1)) ([] : List (ℕ × ℕ))
  let keys := List.range (m - 1) ++ [m]
  let vals := List.range' (m + 1) (m - 1) ++ [m - 1]
  (keys.zip vals).foldlM (fun d p => do
    let i ← dictGet dico p.1
    let a ← listGet objects (i - 1)
    let j ← dictGet dico p.2
    let c ← listGet objects (j - 1)
    pure (dictSet d a c)) []

/-- `bitstrings`, thewalrus/reference.py:312-322, as lists of digits; `product(…, repeat=-1)` raises. -/
def bitstrings (n : ℕ) : Except PyErr (List (List ℕ)) :=
  if n = 0 then .error .valueError
  else .ok (((List.range (n - 1)).foldl (fun (acc : List (List ℕ)) _ => acc.flatMap fun s => [s ++ [0], s ++ [1]]) [[]]).map (0 :: ·))

/-- `itertools.permutations(l)`: the choices of a first entry in order, each followed by the permutations of the rest. -/
def permutations : ℕ → List ℕ → List (List ℕ)
  | 0, _ => [[]]
  | n + 1, l => (List.range l.length).flatMap fun i => (permutations n (l.eraseIdx i)).map (l.getD i 0 :: ·)

/-- `rpmp`, thewalrus/reference.py:325-344, as the list of yielded values. -/
def rpmp (s : List ℕ) : Except PyErr (List (List (ℕ × ℕ))) := do
  let m := s.length / 2
  let bits ← bitstrings m
  ((permutations (m - 1) (List.range' 1 (m - 1))).flatMap fun p => bits.map fun b => (p, b)).mapM fun x => mapper x.1 x.2 s

/-- `splitter`, thewalrus/reference.py:347-365, as the list of yielded values. -/
def splitter (elem : List (ℕ × ℕ)) : List (List (ℕ × ℕ)) :=
  elem :: (List.range elem.length).map fun i =>
    let e := elem.getD i (0, 0)
    [(e.2, e.2)] ++ elem.drop (i + 1) ++ elem.take i ++ [(e.1, e.1)]

/-- `rspm`, thewalrus/reference.py:368-378. -/
def rspm (s : List ℕ) : Except PyErr (List (List (ℕ × ℕ))) := do
  let gen ← rpmp s
  pure (gen.flatMap splitter)

/-- `mtl`, thewalrus/reference.py:381-402, for an array of `n` rows and `cols` columns. -/
def mtl {K : Type} [Field K] (n cols : ℕ) (A : ℕ → ℕ → K) (loop : Bool) : Except PyErr K := do
  let perm ← if loop then rspm (List.range n) else rpmp (List.range n)
  perm.foldlM (fun (netSum : K) s => do
    let netProd ← s.foldlM (fun (netProd : K) a => if a.1 < n ∧ a.2 < cols then .ok (netProd * A a.1 a.2) else .error .indexError) 1
    pure (netSum + netProd)) 0

end Verif.Model.Reference
