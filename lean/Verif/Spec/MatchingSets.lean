/-
Specification of matchings as sets of edges (an edge is an unordered pair; `s(i, i)` is a loop).
-/
import Mathlib.Data.Sym.Sym2

namespace Verif.Spec

/-- A matching with loops of the vertex set `V`: a set of edges inside `V` such that each vertex is in exactly one edge. -/
def IsLoopMatching (V : Finset ℕ) (E : Finset (Sym2 ℕ)) : Prop :=
  (∀ e ∈ E, ∀ v ∈ e, v ∈ V) ∧ ∀ v ∈ V, ∃! e, e ∈ E ∧ v ∈ e

/-- A perfect matching: no loop. -/
def IsPerfectMatching (V : Finset ℕ) (E : Finset (Sym2 ℕ)) : Prop :=
  IsLoopMatching V E ∧ ∀ e ∈ E, ¬ e.IsDiag

/-- The edge written as a two-element tuple `(i, j)`. -/
def tupleEdge (t : List ℕ) : Sym2 ℕ := s(t.getD 0 0, t.getD 1 0)

/-- The set of edges written as a tuple of two-element tuples. -/
def tupleEdges (l : List (List ℕ)) : Finset (Sym2 ℕ) := (l.map tupleEdge).toFinset

end Verif.Spec
