/-
Model of the loss and noise functions of thewalrus/quantum/fock_tensors.py.  A tensor with `m` axes is a function of the list of its `m`
indices; all axes have the same length `cutoff` (`probs_shape[0]`), other shapes are not modelled.
-/
import Verif.Model.Hafnian
import Mathlib.Data.Real.Basic

namespace Verif.Model.Loss

noncomputable section

/-- `loss_mat`, thewalrus/quantum/fock_tensors.py:433-459. -/
def lossMat (eta : ℝ) (cutoff : ℕ) : Except PyErr (ℕ → ℕ → ℝ) :=
  if eta < 0 ∨ eta > 1 then .error .valueError
  else if eta = 1 then .ok fun i j => if i = j then 1 else 0
  else
    let mu := 1 - eta
    let lm : ℕ → ℕ → ℝ := fun i j => if i < cutoff ∧ j = 0 then mu ^ i else 0
    .ok (forRange cutoff lm fun i lm => forRange2 1 (i + 1) lm fun j lm =>
      upd2 lm i j (lm i (j - 1) * (eta / mu) * ((i : ℝ) - j + 1) / j))

/-- A subscript label of `np.einsum`: a letter, or one of the axes of the ellipsis. -/
inductive Label
  | letter (c : Char)
  | dots (k : ℕ)
  deriving DecidableEq

/-- The summation over the labels that are contracted, each running over `range(cutoff)`. -/
def sumLabels (cutoff : ℕ) : List Label → (Label → ℕ) → ((Label → ℕ) → ℝ) → ℝ
  | [], env, f => f env
  | l :: ls, env, f => ((List.range cutoff).map fun v => sumLabels cutoff ls (Function.update env l v) f).sum

/-- `np.einsum` of two operands with subscripts `la`, `lb` and explicit output subscripts `lo`; all axes have length `cutoff`.  A label that
occurs twice in the output raises `ValueError`; labels that do not occur in the output are summed. -/
def einsum (cutoff : ℕ) (la lb lo : List Label) (A B : List ℕ → ℝ) : Except PyErr (List ℕ → ℝ) :=
  if ¬ lo.Nodup then .error .valueError
  else
    let contracted := (la ++ lb).dedup.filter fun l => l ∉ lo
    .ok fun idx => sumLabels cutoff contracted (fun l => idx.getD (lo.idxOf l) 0) fun env => A (la.map env) * B (lb.map env)

/-- `"abcdefghijklmnopqrstuvwxyz"` -/
def alphabet : List Char := "abcdefghijklmnopqrstuvwxyz".toList

/-- One pass of the loop of `update_probabilities_with_loss`, thewalrus/quantum/fock_tensors.py:482-488, for axis `i` of a tensor with `m`
axes: the subscripts are `"ij,{}i...->{}j..."` with the first `i` letters of the alphabet. -/
def lossAxis (m cutoff i : ℕ) (eta : ℝ) (probs : List ℕ → ℝ) : Except PyErr (List ℕ → ℝ) := do
  let pre := (alphabet.take i).map Label.letter
  let ell := (List.range (m - (pre.length + 1))).map Label.dots
  let lm ← lossMat eta cutoff
  einsum cutoff [.letter 'i', .letter 'j'] (pre ++ [.letter 'i'] ++ ell) (pre ++ [.letter 'j'] ++ ell)
    (fun l => lm (l.getD 0 0) (l.getD 1 0)) probs

/-- `update_probabilities_with_loss`, thewalrus/quantum/fock_tensors.py:462-489; `m` is the number of axes.  With no axes `probs_shape[0]`
raises `IndexError`. -/
def updateLoss (m cutoff : ℕ) (etas : List ℝ) (probs : List ℕ → ℝ) : Except PyErr (List ℕ → ℝ) :=
  if m ≠ etas.length then .error .valueError
  else if m = 0 then .error .indexError
  else (List.range m).foldlM (fun probs i => lossAxis m cutoff i (etas.getD i 0) probs) probs

/-- `_update_1d`, thewalrus/quantum/fock_tensors.py:492-507: the convolution along the first axis. -/
def update1d (probs : List ℕ → ℝ) (oneD : List ℝ) (cutoff : ℕ) : List ℕ → ℝ :=
  forRange cutoff (fun _ => 0) fun i newD => forRange (min (i + 1) oneD.length) newD fun j newD idx =>
    if idx.head? = some i then newD idx + probs ((i - j) :: idx.tail) * oneD.getD j 0 else newD idx

/-- `np.transpose(probs, axes)`: axis `a` of the result is axis `axes[a]` of the argument. -/
def transpose (axes : List ℕ) (probs : List ℕ → ℝ) : List ℕ → ℝ :=
  fun idx => probs ((List.range axes.length).map fun b => idx.getD (axes.idxOf b) 0)

/-- `update_probabilities_with_noise`, thewalrus/quantum/fock_tensors.py:510-537. -/
def updateNoise (m cutoff : ℕ) (noise : List (List ℝ)) (probs : List ℕ → ℝ) : Except PyErr (List ℕ → ℝ) :=
  if m = 0 then .error .indexError
  else if m ≠ noise.length then .error .valueError
  else .ok (forRange m probs fun k probs =>
    let perm := ((List.range m).set 0 k).set k 0
    transpose perm (update1d (transpose perm probs) (noise.getD k []) cutoff))

end

end Verif.Model.Loss
