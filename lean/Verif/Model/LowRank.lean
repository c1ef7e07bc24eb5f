/-
Model of thewalrus/_low_rank_haf.py.

A sympy expression in the symbols `x0, x1, …` built with `+` and `*` is the polynomial it denotes (`expand` does not change it), and `coeff` of a
product of powers of the symbols in an expanded polynomial that is homogeneous of the degree of that product is the coefficient of the monomial.
`fuel` is the recursion limit of the interpreter; reaching it raises `RecursionError`, a `RuntimeError`.
-/
import Verif.Py
import Mathlib.Algebra.MvPolynomial.Basic
import Mathlib.Data.Nat.Factorial.DoubleFactorial

namespace Verif.Model.LowRank

noncomputable section

/-- `partitions`, thewalrus/_low_rank_haf.py:25-48 (the cache of lru_cache returns the value of an earlier call; no caller changes it). -/
def partitions : ℕ → ℤ → ℕ → Except PyErr (List (List ℕ))
  | 0, _, _ => .error .runtimeError
  | fuel + 1, r, n =>
    if r = 1 then .ok [[n]]
    else
      (List.range (n + 1)).foldlM (fun newCombos firstVal => do
        let rest ← partitions fuel (r - 1) (n - firstVal)
        pure (newCombos ++ rest.map fun p => [firstVal] ++ p)) []

/-- `scipy.special.factorial2(z, extend="complex")` at the odd integers `z ≥ -1` (its value at -1 is 1), the only arguments used. -/
def factorial2 (K : Type) [Field K] (z : ℤ) : K := (z.toNat.doubleFactorial : K)

variable {K : Type} [Field K]

/-- the polynomial of lines 72-78 after `n` rounds -/
def poly (n r : ℕ) (G : ℕ → ℕ → K) : MvPolynomial ℕ K :=
  forRange n 1 fun k p => p * forRange r 0 fun j term => term + MvPolynomial.C (G k j) * MvPolynomial.X j

/-- the exponents of the monomial of lines 83-86, for the list `c` -/
def exponents (c : List ℕ) : ℕ →₀ ℕ :=
  forRange c.length 0 fun i m => m + Finsupp.single i (2 * c.getD i 0)

/-- the factor `facts` of lines 84-87 -/
def facts (c : List ℕ) : K :=
  forRange c.length 1 fun i f => f * factorial2 K (2 * (c.getD i 0 : ℤ) - 1)

/-- `low_rank_hafnian`, thewalrus/_low_rank_haf.py:51-89, for an array of shape `(n, r)`. With `n = 0` and `r ≥ 2` the variable `poly` is still
the Python integer 1, which has no attribute `coeff`. -/
def lowRankHafnian (fuel n r : ℕ) (G : ℕ → ℕ → K) : Except PyErr K :=
  if n % 2 ≠ 0 then .ok 0
  else if r = 1 then .ok (factorial2 K ((n : ℤ) - 1) * forRange n 1 fun k p => p * G k 0)
  else do
    let comb ← partitions fuel r (n / 2)
    comb.foldlM (fun hafVal c =>
      if n = 0 then .error .attributeError
      else .ok (hafVal + (poly n r G).coeff (exponents c) * facts c)) 0

end

end Verif.Model.LowRank
