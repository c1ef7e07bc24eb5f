/-
Model of the samplers for graphs in thewalrus/samples.py.
-/
import Verif.Model.Samples
import Verif.Model.Adjacency

namespace Verif.Model.Smp
open Verif.Model Verif.Model.Symp Verif.Model.Conv Verif.Model.Means Verif.Model.Dec Verif.Model.Checks Verif.Spec

noncomputable section

/-- `hafnian_sample_graph`, thewalrus/samples.py:372-399, with `parallel=False`, for an `n × m` array; `gen_Qmat_from_graph` is `adj_to_qmat` with a warning
(thewalrus/quantum/__init__.py:256-274). -/
def hafnianSampleGraph (alib : Adj.Lib) (lib : Lib) (fuel n m : ℕ) (A : CArr) (nMean : ℝ) (samples cutoff maxPhotons : ℕ) : Rand (List (List ℕ)) := do
  let Q ← lift (Adj.adjToQmat alib n m A nMean)
  hafnianSampleState lib fuel (.arr (2 * n) (2 * n) fun i j => some (Covmat n Q 2 i j)) samples (fun _ => 0) 2 cutoff maxPhotons

/-- `hafnian_sample_graph`, thewalrus/samples.py:372-399, with `parallel=True`. -/
def hafnianSampleGraphParallel (alib : Adj.Lib) (libs : ℕ → Lib) (fuel : ℕ) (darwin : Bool) (n m : ℕ) (A : CArr) (nMean : ℝ) (samples cutoff maxPhotons : ℕ) : Except PyErr (List (List ℕ)) :=
  if darwin then .error .notImplemented
  else do
    let Q ← Adj.adjToQmat alib n m A nMean
    hafnianSampleStateParallel libs fuel darwin (.arr (2 * n) (2 * n) fun i j => some (Covmat n Q 2 i j)) samples (fun _ => 0) 2 cutoff maxPhotons

/-- `torontonian_sample_graph`, thewalrus/samples.py:591-621, with `parallel=False`, for an `n × m` array. -/
def torontonianSampleGraph (alib : Adj.Lib) (lib : Lib) (fuel n m : ℕ) (A : CArr) (nMean : ℝ) (samples maxPhotons fanout cutoff : ℕ) : Rand (List (List ℕ)) := do
  let Q ← lift (Adj.adjToQmat alib n m A nMean)
  torontonianSampleState lib fuel (.arr (2 * n) (2 * n) fun i j => some (Covmat n Q 2 i j)) samples (fun _ => 0) 2 maxPhotons fanout cutoff

/-- `torontonian_sample_graph`, thewalrus/samples.py:591-621, with `parallel=True`. -/
def torontonianSampleGraphParallel (alib : Adj.Lib) (libs : ℕ → Lib) (fuel : ℕ) (darwin : Bool) (n m : ℕ) (A : CArr) (nMean : ℝ) (samples maxPhotons fanout cutoff : ℕ) : Except PyErr (List (List ℕ)) :=
  if darwin then .error .notImplemented
  else do
    let Q ← Adj.adjToQmat alib n m A nMean
    torontonianSampleStateParallel libs fuel darwin (.arr (2 * n) (2 * n) fun i j => some (Covmat n Q 2 i j)) samples (fun _ => 0) 2 maxPhotons fanout cutoff

end

end Verif.Model.Smp
