/-
Specification of the montrealer and the loop montrealer.

The `2n` vertices are `0, …, 2n-1`, and vertex `i < n` is the partner of vertex `n + i`.  The montrealer sums over the perfect matchings that, together
with the edges between partners, form a connected graph (a single cycle); the loop montrealer over the matchings with loops that do.
-/
import Mathlib.Algebra.BigOperators.Group.Finset.Basic
import Mathlib.Data.Fintype.Perm
import Mathlib.Data.Matrix.Basic
import Mathlib.Logic.Relation

namespace Verif.Spec

/-- The partner of vertex `i`: `i + n` for `i < n`, otherwise `i - n`. -/
def partner {n : ℕ} (i : Fin (2 * n)) : Fin (2 * n) := if h : (i : ℕ) < n then ⟨i + n, by omega⟩ else ⟨i - n, by omega⟩

/-- One can go from every vertex to every other along edges of the matching `σ` and edges between partners. -/
def Connected {n : ℕ} (σ : Equiv.Perm (Fin (2 * n))) : Prop :=
  ∀ i j, Relation.ReflTransGen (fun a b => b = σ a ∨ b = partner a) i j

/-- `e` lists the matching `σ` of the objects `s`: every edge and every loop once, as a pair of objects. -/
def Lists {n : ℕ} (s : List ℕ) (σ : Equiv.Perm (Fin (2 * n))) (e : List (ℕ × ℕ)) : Prop :=
  ∃ R : List (Fin (2 * n)), R.Nodup ∧ (∀ i, i ∈ R ∨ σ i ∈ R) ∧ (∀ i ∈ R, σ i ∈ R → σ i = i) ∧
    e = R.map fun i : Fin (2 * n) => (s.getD i 0, s.getD (σ i) 0)

variable {K : Type*} [CommSemiring K]

open Classical in
/-- Sum over the perfect matchings that are connected through partners. -/
noncomputable def mtl {n : ℕ} (A : Matrix (Fin (2 * n)) (Fin (2 * n)) K) : K :=
  ∑ σ : Equiv.Perm (Fin (2 * n)) with (∀ i, σ (σ i) = i) ∧ (∀ i, σ i ≠ i) ∧ Connected σ,
    ∏ i : Fin (2 * n) with i < σ i, A i (σ i)

open Classical in
/-- Sum over the matchings with loops that are connected through partners; `D i` is the weight of the loop at `i`. -/
noncomputable def lmtl {n : ℕ} (A : Matrix (Fin (2 * n)) (Fin (2 * n)) K) (D : Fin (2 * n) → K) : K :=
  ∑ σ : Equiv.Perm (Fin (2 * n)) with (∀ i, σ (σ i) = i) ∧ Connected σ,
    (∏ i : Fin (2 * n) with i < σ i, A i (σ i)) * ∏ i : Fin (2 * n) with σ i = i, D i

end Verif.Spec
