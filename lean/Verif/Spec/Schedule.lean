/-
Semantics of `numba.prange` loops with a reduction variable: the iterations are distributed over threads, each thread runs its iterations one after the
other on a private accumulator that starts at zero, the threads are interleaved arbitrarily, and at the end the private accumulators are added up in any
order.
-/
import Verif.Py
import Mathlib.Logic.Relation
import Mathlib.Data.List.Perm.Basic
import Mathlib.Algebra.BigOperators.Group.List.Basic

namespace Verif.Spec
open Verif

/-- A state of a parallel loop: for each thread the iterations it still has to run and its private accumulator. -/
abbrev ParState (σ : Type) := List (List ℕ × σ)

/-- One thread runs its next iteration. -/
inductive ParStep {σ : Type} (body : ℕ → σ → Except PyErr σ) : ParState σ → ParState σ → Prop
  | run (before after : ParState σ) (j : ℕ) (todo : List ℕ) (s s' : σ) (h : body j s = .ok s') :
      ParStep body (before ++ (j :: todo, s) :: after) (before ++ (todo, s') :: after)

/-- `ParallelFor iters body r`: some parallel execution of the loop over the iterations `iters` ends with the result `r`: either all iterations are run and
the private accumulators are added up in some order, or after some steps an iteration raises. -/
inductive ParallelFor {σ : Type} [AddCommMonoid σ] (iters : List ℕ) (body : ℕ → σ → Except PyErr σ) : Except PyErr σ → Prop
  | done (chunks : List (List ℕ)) (hc : chunks.flatten.Perm iters) (st : ParState σ)
      (hrun : Relation.ReflTransGen (ParStep body) (chunks.map fun c => (c, 0)) st) (hend : ∀ t ∈ st, t.1 = [])
      (order : List σ) (hord : order.Perm (st.map Prod.snd)) : ParallelFor iters body (.ok (order.foldl (· + ·) 0))
  | raise (chunks : List (List ℕ)) (hc : chunks.flatten.Perm iters) (st : ParState σ)
      (hrun : Relation.ReflTransGen (ParStep body) (chunks.map fun c => (c, 0)) st)
      (t : List ℕ × σ) (ht : t ∈ st) (j : ℕ) (todo : List ℕ) (hj : t.1 = j :: todo) (e : PyErr) (he : body j t.2 = .error e) :
      ParallelFor iters body (.error e)

/-- One memory access of threads that share one accumulator without a reduction: `total += x` is a read into a local variable followed by a write. -/
inductive SharedStep : (List (List ℤ × Option ℤ) × ℤ) → (List (List ℤ × Option ℤ) × ℤ) → Prop
  | read (before after) (x : ℤ) (todo : List ℤ) (total : ℤ) :
      SharedStep (before ++ (x :: todo, none) :: after, total) (before ++ (x :: todo, some total) :: after, total)
  | write (before after) (x old : ℤ) (todo : List ℤ) (total : ℤ) :
      SharedStep (before ++ (x :: todo, some old) :: after, total) (before ++ (todo, none) :: after, old + x)

end Verif.Spec
