/-
Contract of `scipy.optimize.root_scalar` with a bracket (method `brentq`), in exact arithmetic.
-/
import Verif.Py
import Mathlib.Topology.Order.IntermediateValue
import Mathlib.Topology.Instances.Real.Lemmas
import Mathlib.Topology.Order.Basic

namespace Verif.Spec

/-- `root_scalar(f, bracket=(a, b))` returns the flag `converged` and the root.  It raises `ValueError` if `f` has the same sign at both ends of the bracket; otherwise
it shrinks the bracket and returns a point of it where `f` changes sign: in every neighbourhood of it `f` takes non-positive and non-negative values. -/
def RootContract (rootScalar : (ℝ → ℝ) → ℝ → ℝ → Except PyErr (Bool × ℝ)) : Prop :=
  ∀ (f : ℝ → ℝ) (a b : ℝ), a ≤ b → (0 < f a * f b → rootScalar f a b = .error .valueError) ∧
    (f a * f b ≤ 0 → ∃ r, rootScalar f a b = .ok (true, r) ∧ a ≤ r ∧ r ≤ b ∧
      ∀ ε > 0, ∃ u v, a ≤ u ∧ u ≤ b ∧ |u - r| < ε ∧ a ≤ v ∧ v ≤ b ∧ |v - r| < ε ∧ f u ≤ 0 ∧ 0 ≤ f v)

theorem sign_change (f : ℝ → ℝ) (a b : ℝ) (hab : a ≤ b) (ha : f a ≤ 0) (hb : 0 ≤ f b) :
    ∃ r, a ≤ r ∧ r ≤ b ∧ ∀ ε > 0, ∃ u v, a ≤ u ∧ u ≤ b ∧ |u - r| < ε ∧ a ≤ v ∧ v ≤ b ∧ |v - r| < ε ∧ f u ≤ 0 ∧ 0 ≤ f v := by
  set S : Set ℝ := {x | a ≤ x ∧ x ≤ b ∧ f x ≤ 0} with hS
  have hne : S.Nonempty := ⟨a, le_rfl, hab, ha⟩
  have hbd : BddAbove S := ⟨b, fun x hx => hx.2.1⟩
  have h1 : a ≤ sSup S := le_csSup hbd ⟨le_rfl, hab, ha⟩
  have h2 : sSup S ≤ b := csSup_le hne fun x hx => hx.2.1
  refine ⟨sSup S, h1, h2, fun ε hε => ?_⟩
  obtain ⟨u, hu, hlt⟩ := exists_lt_of_lt_csSup hne (show sSup S - ε < sSup S by linarith)
  have hu2 : u ≤ sSup S := le_csSup hbd hu
  have hv : ∃ v, a ≤ v ∧ v ≤ b ∧ |v - sSup S| < ε ∧ 0 ≤ f v := by
    rcases h2.eq_or_lt with h | h
    · exact ⟨b, hab, le_rfl, by rw [h, sub_self, abs_zero]; exact hε, hb⟩
    · refine ⟨min b (sSup S + ε / 2), le_min hab (by linarith), min_le_left _ _, ?_, ?_⟩
      · have h3 : sSup S < min b (sSup S + ε / 2) := lt_min h (by linarith)
        have h4 : min b (sSup S + ε / 2) ≤ sSup S + ε / 2 := min_le_right _ _
        rw [abs_lt]; constructor <;> linarith
      · by_contra hc
        have h3 : sSup S < min b (sSup S + ε / 2) := lt_min h (by linarith)
        have := le_csSup hbd (show min b (sSup S + ε / 2) ∈ S from ⟨by linarith, min_le_left _ _, (not_le.mp hc).le⟩)
        linarith
  obtain ⟨v, v1, v2, v3, v4⟩ := hv
  exact ⟨u, v, hu.1, hu.2.1, by rw [abs_lt]; constructor <;> linarith, v1, v2, v3, hu.2.2, v4⟩

/-- The contract can be met. -/
theorem root_exists : ∃ rootScalar, RootContract rootScalar := by
  classical
  refine ⟨fun f a b => if 0 < f a * f b then .error .valueError else
    if h : ∃ r, a ≤ r ∧ r ≤ b ∧ ∀ ε > 0, ∃ u v, a ≤ u ∧ u ≤ b ∧ |u - r| < ε ∧ a ≤ v ∧ v ≤ b ∧ |v - r| < ε ∧ f u ≤ 0 ∧ 0 ≤ f v then .ok (true, h.choose)
    else .ok (false, a), ?_⟩
  intro f a b hab
  refine ⟨fun h => if_pos h, fun h => ?_⟩
  have hr : ∃ r, a ≤ r ∧ r ≤ b ∧ ∀ ε > 0, ∃ u v, a ≤ u ∧ u ≤ b ∧ |u - r| < ε ∧ a ≤ v ∧ v ≤ b ∧ |v - r| < ε ∧ f u ≤ 0 ∧ 0 ≤ f v := by
    rcases mul_nonpos_iff.mp h with ⟨h1, h2⟩ | ⟨h1, h2⟩
    · obtain ⟨r, r1, r2, r3⟩ := sign_change (fun x => -f x) a b hab (by simpa using h1) (by simpa using h2)
      refine ⟨r, r1, r2, fun ε hε => ?_⟩
      obtain ⟨u, v, u1, u2, u3, v1, v2, v3, fu, fv⟩ := r3 ε hε
      exact ⟨v, u, v1, v2, v3, u1, u2, u3, by simpa using fv, by simpa using fu⟩
    · exact sign_change f a b hab h1 h2
  refine ⟨hr.choose, ?_, hr.choose_spec⟩
  simp only [if_neg (not_lt.mpr h), dif_pos hr]

/-- at a point where the function is continuous (within the bracket), the change of sign is a zero -/
theorem zero_of_signs (f : ℝ → ℝ) (a b r : ℝ) (hc : ContinuousWithinAt f (Set.Icc a b) r)
    (h : ∀ ε > 0, ∃ u v, a ≤ u ∧ u ≤ b ∧ |u - r| < ε ∧ a ≤ v ∧ v ≤ b ∧ |v - r| < ε ∧ f u ≤ 0 ∧ 0 ≤ f v) : f r = 0 := by
  rw [Metric.continuousWithinAt_iff] at hc
  by_contra hne
  obtain ⟨δ, hδ, hcl⟩ := hc |f r| (abs_pos.mpr hne)
  obtain ⟨u, v, u1, u2, u3, v1, v2, v3, fu, fv⟩ := h δ hδ
  have a1 := hcl ⟨u1, u2⟩ (by rw [Real.dist_eq]; exact u3)
  have a2 := hcl ⟨v1, v2⟩ (by rw [Real.dist_eq]; exact v3)
  rw [Real.dist_eq, abs_lt] at a1 a2
  rcases lt_or_gt_of_ne hne with h0 | h0
  · rw [abs_of_neg h0] at a1 a2; linarith
  · rw [abs_of_pos h0] at a1 a2; linarith

end Verif.Spec
