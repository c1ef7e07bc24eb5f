/-
Model of thewalrus/reference.py: partitions into singles and pairs, the matching iterators, the reference hafnian,
telephone numbers, and the memoising decorator.
-/
import Verif.Py

namespace Verif.Model.Reference

/-- A value yielded by `partitions`: a bare tuple of labels, or a tuple of tuples (`isinstance(p[0], tuple)`). -/
inductive Part
  | bare (t : List ℕ)
  | nested (l : List (List ℕ))
  deriving DecidableEq, Repr

/-- `((item),) + p` if `isinstance(p[0], tuple)` else `(item, p)`; thewalrus/reference.py:158-161 and 171-174. -/
def consPart (item : List ℕ) : Part → Part
  | .nested l => .nested (item :: l)
  | .bare t => .nested [item, t]

/-- `partitions`, thewalrus/reference.py:128-174, as the list of yielded values in order (labels are integers).  The
memoising decorator is treated in `Memo` below; it does not change the values. -/
def partitions (s : List ℕ) (singles pairs : Bool) : List Part :=
  if s.length = 2 then
    (if singles then [.nested [[s.getD 0 0], [s.getD 1 0]]] else []) ++ (if pairs then [.bare s] else [])
  else
    (if singles then
      if _h : s.length > 1 then (partitions (s.drop 1) singles pairs).map (consPart [s.getD 0 0]) else [.bare s]
     else []) ++
    (if pairs then
      if _h : s.length > 0 then
        (List.range' 1 (s.length - 1)).flatMap fun idx1 =>
          (partitions ((s.take idx1).drop 1 ++ s.drop (idx1 + 1)) singles pairs).map (consPart [s.getD 0 0, s.getD idx1 0])
      else []
     else [])
termination_by s.length
decreasing_by
  · simp; omega
  · simp; omega

/-- `clone_if_single` on a tuple, thewalrus/reference.py:205-211. -/
def cloneIfSingle (x : List ℕ) : List ℕ := match x with
  | [a] => [a, a]
  | x => x

/-- `spm`, thewalrus/reference.py:195-214.  On a bare tuple `len(i)` of an integer raises `TypeError`. -/
def spm (s : List ℕ) : Except PyErr (List (List (List ℕ))) :=
  (partitions s true true).mapM fun p => match p with
    | .nested l => .ok (l.map cloneIfSingle)
    | .bare [] => .ok []
    | .bare _ => .error .typeError

/-- `pmp`, thewalrus/reference.py:217-226. -/
def pmp (s : List ℕ) : List Part := partitions s false true

variable {K : Type} [Field K]

/-- `M[j]` for a tuple `j` of two indices (other lengths raise). -/
def idx2 (M : ℕ → ℕ → K) : List ℕ → Except PyErr K
  | [i, j] => .ok (M i j)
  | _ => .error .indexError

/-- `for j in i: result = result * M[j]` for one matching. -/
def matchProd (M : ℕ → ℕ → K) (l : List (List ℕ)) : Except PyErr K :=
  l.foldlM (fun r j => (idx2 M j).map (r * ·)) 1

/-- `hafnian`, thewalrus/reference.py:229-288. -/
def hafnian (rows cols : ℕ) (M : ℕ → ℕ → K) (loop : Bool) : Except PyErr K :=
  if rows ≠ cols then .error .valueError
  else if rows = 0 then .ok 1
  else if rows = 1 then (if loop then .ok (M 0 0) else .ok 0)
  else if rows = 2 then (if loop then .ok (M 0 1 + M 0 0 * M 1 1) else .ok (M 0 1))
  else do
    let iter ← if loop then spm (List.range rows)
      else (pmp (List.range rows)).mapM fun p => match p with
        | .nested l => .ok l
        | .bare t => .ok (t.map fun i => [i])   -- iterating a bare tuple gives integers: `M[i]` is a row (not a scalar)
    iter.foldlM (fun tot i => (matchProd M i).map (tot + ·)) 0

/-- `T`, thewalrus/reference.py:177-192 (telephone numbers). -/
def T : ℕ → ℕ
  | 0 => 1
  | 1 => 1
  | n + 2 => T (n + 1) + (n + 1) * T n

/-! #### `LimitedSizeDict` and `memoized` -/

/-- `LimitedSizeDict`, thewalrus/reference.py:72-90: insertion-ordered entries and the limit (`None` = no limit). -/
structure LimitedDict (α β : Type) where
  entries : List (α × β)
  sizeLimit : Option ℕ

variable {α β : Type} [DecidableEq α]

/-- `_check_size_limit`: pop oldest entries while there are too many. -/
def LimitedDict.check (d : LimitedDict α β) : LimitedDict α β :=
  match d.sizeLimit with
  | none => d
  | some n => { d with entries := d.entries.drop (d.entries.length - n) }

/-- dictionary lookup -/
def LimitedDict.get? (d : LimitedDict α β) (k : α) : Option β := (d.entries.find? fun p : α × β => decide (p.1 = k)).map (·.2)

/-- `__setitem__`: overwrite in place or append, then check the limit. -/
def LimitedDict.set (d : LimitedDict α β) (k : α) (v : β) : LimitedDict α β :=
  (if d.entries.any (fun p : α × β => decide (p.1 = k)) then
    { d with entries := d.entries.map fun p : α × β => if p.1 = k then (k, v) else p }
   else { d with entries := d.entries ++ [(k, v)] }).check

/-- `LimitedSizeDict(maxsize=maxsize)` as called in `memoized`, thewalrus/reference.py:111: the keyword is
`maxsize`, not `size_limit`, so `size_limit` is `None` and an ordinary entry with the string key `"maxsize"` is made.
Keys are either that string (`none`) or an argument tuple (`some a`). -/
def memoCacheInit (_maxsize : ℕ) (marker : β) : LimitedDict (Option α) β :=
  { entries := [(none, marker)], sizeLimit := none }

/-- A cached or returned object: a plain value, or an iterator over a list with a position. -/
inductive Obj (γ : Type)
  | value (v : γ)
  | iter (items : List γ) (pos : ℕ)

/-- One call `ret(*args)` of a memoised function, thewalrus/reference.py:113-123: new cache and returned object.
`f a` is what the undecorated function returns (a value or a fresh generator).  The last `cache[args]` lookups can
raise `KeyError` if the entry was evicted by its own insertion. -/
def memoCall {γ : Type} (f : α → Obj γ) (cache : LimitedDict (Option α) (Obj γ)) (a : α) :
    Except PyErr (LimitedDict (Option α) (Obj γ) × Obj γ) :=
  let cache := if (cache.get? (some a)).isNone then cache.set (some a) (f a) else cache
  match cache.get? (some a) with
  | none => .error .keyError
  | some (.iter items pos) =>
    -- tee: two independent iterators at the same position
    .ok (cache.set (some a) (.iter items pos), .iter items pos)
  | some (.value v) => .ok (cache, .value v)

/-- What a client of a memoised function does: call it, or advance an iterator it got from an earlier call (iterators are
numbered in the order of the calls that returned them; calls returning plain values also take a number). -/
inductive MemoOp (α : Type)
  | call (a : α)
  | next (i : ℕ)

/-- What the client sees: a plain value, "got an iterator", an item, or the end of the iterator / no such iterator. -/
inductive MemoOut (γ : Type)
  | val (v : γ)
  | gotIter
  | item (v : γ)
  | stop
  deriving DecidableEq, Repr

/-- advance iterator number `i` in a list of handed-out objects -/
def advance {γ : Type} (hs : List (Obj γ)) (i : ℕ) : List (Obj γ) × MemoOut γ :=
  match hs[i]? with
  | some (.iter items pos) => match items[pos]? with
    | some v => (hs.set i (.iter items (pos + 1)), .item v)
    | none => (hs, .stop)
  | _ => (hs, .stop)

/-- what the client sees of a returned object -/
def seen {γ : Type} : Obj γ → MemoOut γ
  | .value v => .val v
  | .iter _ _ => .gotIter

/-- The memoised function (thewalrus/reference.py:111-125) under a history of client operations: final cache, handed-out
objects and the outputs. -/
def runMemo {γ : Type} (f : α → Obj γ) : LimitedDict (Option α) (Obj γ) → List (Obj γ) → List (MemoOp α) →
    Except PyErr (LimitedDict (Option α) (Obj γ) × List (MemoOut γ))
  | c, _, [] => .ok (c, [])
  | c, hs, .call a :: ops => do
    let (c', o) ← memoCall f c a
    let (c'', outs) ← runMemo f c' (hs ++ [o]) ops
    pure (c'', seen o :: outs)
  | c, hs, .next i :: ops => do
    let (c'', outs) ← runMemo f c (advance hs i).1 ops
    pure (c'', (advance hs i).2 :: outs)

end Verif.Model.Reference
