/-
Model of `n_body_marginals`, thewalrus/quantum/fock_tensors.py:616-688.
-/
import Verif.Model.FockTensors
import Mathlib.Data.List.Sort

namespace Verif.Model.Fock
open Verif.Model.Symp

noncomputable section

/-- `list(OrderedDict.fromkeys(ind))`: the distinct elements in the order of their first occurrence; thewalrus/quantum/fock_tensors.py:684. -/
def fromKeys (ind : List ℕ) : List ℕ := ind.foldl (fun keys x => if x ∈ keys then keys else keys ++ [x]) []

/-- `np.argsort(u)`: positions in increasing order of the entries (`u` has distinct entries, so that the sorting algorithm does not matter);
thewalrus/quantum/fock_tensors.py:685. -/
def argsort (u : List ℕ) : List ℕ := (List.range u.length).insertionSort fun a b => u.getD a 0 ≤ u.getD b 0

/-- The list of arrays of marginals: `marginal[acc][modes]` is an array of photon-number probabilities. -/
abbrev Marg := ℕ → List ℕ → MArr ℝ

/-- One iteration of the loop over `ind`, thewalrus/quantum/fock_tensors.py:675-686.  `setOrder ind` is `list(set(ind))`, whose order is up to the Python
interpreter.  `probabilities` is called with its default tolerance `atol` and without parallelism. -/
def marginalStep (sq : ℕ → ℂ) (close : ℂ → ℂ → Bool) (closeR : ℝ → ℝ → Bool) (setOrder : List ℕ → List ℕ) (s : GState ℝ) (cutoff : ℕ) (hbar atol : ℝ)
    (marginal : Marg) (ind : List ℕ) : Except PyErr Marg :=
  let modes := setOrder ind
  let acc := modes.length - 1
  if ind = ind.insertionSort (· ≤ ·) then do
    let sub ← reducedState s modes
    let p ← probabilities sq close closeR (sub.len / 2) sub.mu sub.cov cutoff false hbar atol
    pure (Function.update marginal acc (Function.update (marginal acc) modes p))
  else
    let usrt := fromKeys ind
    let perm := argsort usrt
    .ok (Function.update marginal acc (Function.update (marginal acc) usrt (transposeT perm (marginal acc modes))))

/-- `n_body_marginals`, thewalrus/quantum/fock_tensors.py:616-688, for a vector of `s.len` means and an `r × c` covariance matrix; all entries of the returned arrays
start as zero.  `product(range(M), repeat=n)` enumerates the index tuples in lexicographic order. -/
def nBodyMarginals (sq : ℕ → ℂ) (close : ℂ → ℂ → Bool) (closeR : ℝ → ℝ → Bool) (setOrder : List ℕ → List ℕ) (s : GState ℝ) (r c cutoff n : ℕ)
    (hbar atol : ℝ) : Except PyErr Marg :=
  if ¬ (r = s.len ∧ c = s.len) then .error .valueError
  else if s.len % 2 ≠ 0 then .error .valueError
  else if s.len / 2 < n then .error .valueError
  else (ndindex (List.replicate n (s.len / 2))).foldlM (marginalStep sq close closeR setOrder s cutoff hbar atol) fun _ _ _ => 0

end

end Verif.Model.Fock
