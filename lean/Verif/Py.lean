/-
Python-level primitives used by the model: errors, array-like objects and loops.
-/
import Mathlib.Algebra.Field.Basic
import Mathlib.Data.Matrix.Basic

namespace Verif

/-- Exceptions that the modelled code can raise. -/
inductive PyErr
  | typeError | valueError | indexError | keyError | unboundLocalError | assertionError
  | attributeError | zeroDivision | notImplemented | linAlgError | runtimeError
  /-- not a Python exception: the model's loop fuel ran out (theorems show this never happens) -/
  | outOfFuel
  deriving DecidableEq, Repr

/-- A Python argument where the code expects a 2-d `np.ndarray`: either some object that is not an array,
or an array with a shape and entries; `none` is a NaN entry.  Entries outside the shape are arbitrary. -/
inductive PyObj (K : Type)
  | other : PyObj K
  | arr (rows cols : ℕ) (entry : ℕ → ℕ → Option K) : PyObj K

/-- The array object holding a Mathlib matrix (out-of-range entries: arbitrary junk `junk`). -/
def PyObj.ofMatrix {K : Type} {m n : ℕ} (A : Matrix (Fin m) (Fin n) K) (junk : ℕ → ℕ → Option K) :
    PyObj K :=
  .arr m n fun i j => if h : i < m ∧ j < n then some (A ⟨i, h.1⟩ ⟨j, h.2⟩) else junk i j

/-- The raw entry function of a Mathlib matrix, with arbitrary junk outside the shape. -/
def ofMatrix {K : Type*} {m n : ℕ} (A : Matrix (Fin m) (Fin n) K) (junk : ℕ → ℕ → K) : ℕ → ℕ → K :=
  fun i j => if h : i < m ∧ j < n then A ⟨i, h.1⟩ ⟨j, h.2⟩ else junk i j

/-- View the `m × n` corner of an entry function as a Mathlib matrix. -/
def toMatrix {K : Type*} (m n : ℕ) (a : ℕ → ℕ → K) : Matrix (Fin m) (Fin n) K :=
  Matrix.of fun i j => a i j

/-- `for i in range(n): s = body(i, s)`. -/
def forRange {σ : Type*} (n : ℕ) (s : σ) (body : ℕ → σ → σ) : σ :=
  (List.range n).foldl (fun s i => body i s) s

/-- `for i in range(a, b): s = body(i, s)`. -/
def forRange2 {σ : Type*} (a b : ℕ) (s : σ) (body : ℕ → σ → σ) : σ :=
  (List.range (b - a)).foldl (fun s i => body (a + i) s) s

@[simp] theorem forRange_zero {σ : Type*} (s : σ) (body : ℕ → σ → σ) : forRange 0 s body = s := rfl

theorem forRange_succ {σ : Type*} (n : ℕ) (s : σ) (body : ℕ → σ → σ) :
    forRange (n + 1) s body = body n (forRange n s body) := by
  simp [forRange, List.range_succ]

theorem forRange2_eq {σ : Type*} (a b : ℕ) (s : σ) (body : ℕ → σ → σ) :
    forRange2 a b s body = forRange (b - a) s (fun i => body (a + i)) := rfl

theorem forRange2_self {σ : Type*} (a : ℕ) (s : σ) (body : ℕ → σ → σ) :
    forRange2 a a s body = s := by simp [forRange2]

theorem forRange2_succ {σ : Type*} {a b : ℕ} (h : a ≤ b) (s : σ) (body : ℕ → σ → σ) :
    forRange2 a (b + 1) s body = body b (forRange2 a b s body) := by
  have : b + 1 - a = (b - a) + 1 := by omega
  simp only [forRange2_eq, this, forRange_succ]
  congr 1; omega

/-- Loop invariant rule. -/
theorem forRange_inv {σ : Type*} (P : ℕ → σ → Prop) (n : ℕ) (s : σ) (body : ℕ → σ → σ)
    (h0 : P 0 s) (hs : ∀ i s, i < n → P i s → P (i + 1) (body i s)) : P n (forRange n s body) := by
  induction n with
  | zero => simpa
  | succ n ih =>
    rw [forRange_succ]
    exact hs _ _ (Nat.lt_succ_self n) (ih (fun i s hi => hs i s (by omega)))

theorem forRange2_inv {σ : Type*} (P : ℕ → σ → Prop) {a b : ℕ} (hab : a ≤ b) (s : σ)
    (body : ℕ → σ → σ)
    (h0 : P a s) (hs : ∀ i s, a ≤ i → i < b → P i s → P (i + 1) (body i s)) :
    P b (forRange2 a b s body) := by
  have := forRange_inv (fun i s => P (a + i) s) (b - a) s (fun i => body (a + i)) (by simpa using h0)
    (fun i s hi h => hs (a + i) s (by omega) (by omega) h)
  rw [forRange2_eq]
  have e : a + (b - a) = b := by omega
  rwa [e] at this

end Verif
