/-
Model of thewalrus/grouped_click_probabilities.py.  Real and complex numbers in place of floats.  The random generator (seeded by the caller's seed) is idealised: it delivers independent standard normal
variables.  The loop is modelled as a function of the variables drawn, so that statements can also be made about every single run.
-/
import Verif.Model.SamplerLaws
import Verif.Spec.PhaseSpace

set_option linter.style.longLine false

namespace Verif.Model.Grouped
open Verif.Model Verif.Model.Disting Verif.Model.Law

noncomputable section

/-- `alpha`, thewalrus/grouped_click_probabilities.py:43: entry `j` of `t_matrix @ (drp * wrp + 1j * drm * wrm)` for `n` inputs -/
def alphaAt (n : ℕ) (drp drm : ℕ → ℂ) (T : ℕ → ℕ → ℂ) (wrp wrm : ℕ → ℝ) (j : ℕ) : ℂ :=
  ∑ i ∈ Finset.range n, T j i * (drp i * (wrp i : ℂ) + Complex.I * drm i * (wrm i : ℂ))

/-- `beta`, thewalrus/grouped_click_probabilities.py:44 -/
def betaAt (n : ℕ) (drp drm : ℕ → ℂ) (T : ℕ → ℕ → ℂ) (wrp wrm : ℕ → ℝ) (j : ℕ) : ℂ :=
  ∑ i ∈ Finset.range n, (starRingEnd ℂ) (T j i) * (drp i * (wrp i : ℂ) - Complex.I * drm i * (wrm i : ℂ))

/-- `gth[k]`, thewalrus/grouped_click_probabilities.py:46-49, for `N` modes -/
def gthAt (N : ℕ) (delta : ℝ) (alpha beta : ℕ → ℂ) (k : ℕ) : ℂ :=
  ((List.range N).map fun j => Complex.exp (-alpha j * beta j) + Complex.exp (-Complex.I * k * delta) * (1 - Complex.exp (-alpha j * beta j))).prod

/-- `f_mat`, thewalrus/grouped_click_probabilities.py:30-35 -/
def fMat (N : ℕ) (delta : ℝ) (p q : ℕ) : ℂ := 1 / ((N : ℂ) + 1) * Complex.exp (Complex.I * q * p * delta)

/-- the contribution `(f_mat @ gth).real` of one sample, thewalrus/grouped_click_probabilities.py:41-50 -/
def contribution (N n : ℕ) (phn chn : ℕ → ℝ) (T : ℕ → ℕ → ℂ) (w : (ℕ → ℝ) × (ℕ → ℝ)) (p : ℕ) : ℝ :=
  let drp : ℕ → ℂ := fun i => ((1 / 2 * (phn i + chn i) : ℝ) : ℂ) ^ (1 / 2 : ℂ)
  let drm : ℕ → ℂ := fun i => ((1 / 2 * (phn i - chn i) : ℝ) : ℂ) ^ (1 / 2 : ℂ)
  let delta : ℝ := 2 * Real.pi / (N + 1)
  let gth := gthAt N delta (alphaAt n drp drm T w.1 w.2) (betaAt n drp drm T w.1 w.2)
  (∑ q ∈ Finset.range (N + 1), fMat N delta p q * gth q).re

/-- the local variables `acc`, `bcc`, `qcc`, `fix` -/
structure Acc where
  /-- `acc` -/
  acc : ℕ → ℝ
  /-- `bcc` -/
  bcc : ℕ → ℝ
  /-- `qcc` -/
  qcc : ℕ → ℝ
  /-- `fix` -/
  fix : ℕ → ℝ

/-- the body of the loop over the samples, thewalrus/grouped_click_probabilities.py:40-54; `spg` is `samp_per_group`, `phi` the contribution of a sample -/
def accStep {α : Type} (phi : α → ℕ → ℝ) (spg : ℕ) (s : Acc) (j : ℕ) (w : α) : Acc :=
  let acc : ℕ → ℝ := fun p => s.acc p + phi w p
  if (j + 1) % spg = 0 then
    { acc := acc, bcc := fun p => s.bcc p + (acc p - s.fix p) / spg, qcc := fun p => s.qcc p + ((acc p - s.fix p) / spg) ^ 2, fix := acc }
  else { s with acc := acc }

/-- the loop over the samples; the variables of sample `j` are the entry `j` of the list -/
def accLoop {α : Type} (phi : α → ℕ → ℝ) (spg : ℕ) : List α → ℕ → Acc → Acc
  | [], _, s => s
  | w :: ws, j, s => accLoop phi spg ws (j + 1) (accStep phi spg s j w)

/-- the initial values, thewalrus/grouped_click_probabilities.py:36-39 -/
def acc0 : Acc := { acc := fun _ => 0, bcc := fun _ => 0, qcc := fun _ => 0, fix := fun _ => 0 }

/-- the result of a run in which the variables `ws` were drawn, thewalrus/grouped_click_probabilities.py:36-55 (`x ** 0.5` of a negative number is NaN, here 0) -/
def groupedRun (N n : ℕ) (phn chn : ℕ → ℝ) (T : ℕ → ℕ → ℂ) (numGroups : ℕ) (ws : List ((ℕ → ℝ) × (ℕ → ℝ))) : (ℕ → ℝ) × (ℕ → ℝ) :=
  let s := accLoop (contribution N n phn chn T) (ws.length / numGroups) ws 0 acc0
  (fun p => s.bcc p / numGroups, fun p => Real.sqrt (s.qcc p / numGroups - (s.bcc p / numGroups) ^ 2))

/-- `grouped_click_probabilities`, thewalrus/grouped_click_probabilities.py:9-55, for an `r × c` array.  The product `t_matrix @ v` raises `ValueError` unless `c = min(r, c)`; integer division by zero raises
`ZeroDivisionError`. -/
def groupedClickProbabilities (phn chn : ℕ → ℝ) (r c : ℕ) (T : ℕ → ℕ → ℂ) (numSamples numGroups : ℕ) : Except PyErr (Expect ((ℕ → ℝ) × (ℕ → ℝ))) :=
  let numModes := max r c
  let numInput := min r c
  if numGroups = 0 then .error .zeroDivision
  else if numSamples ≠ 0 ∧ c ≠ numInput then .error .valueError
  else if numSamples ≠ 0 ∧ numSamples / numGroups = 0 then .error .zeroDivision
  else .ok do
    let ws ← repeatE (do
      let wrp ← normals numInput
      let wrm ← normals numInput
      pure (wrp, wrm)) numSamples
    pure (groupedRun numModes numInput phn chn T numGroups ws)

/-- `grouped_click_probabilities_squeezed`, thewalrus/grouped_click_probabilities.py:58-75. -/
def groupedClickProbabilitiesSqueezed (inputSq : ℕ → ℝ) (r c : ℕ) (T : ℕ → ℕ → ℂ) (numSamples numGroups : ℕ) : Except PyErr (Expect ((ℕ → ℝ) × (ℕ → ℝ))) :=
  groupedClickProbabilities (fun i => Real.sinh (inputSq i) ^ 2) (fun i => 1 / 2 * Real.sinh (2 * inputSq i)) r c T numSamples numGroups

end

end Verif.Model.Grouped
