/-
Matchings connected through partners, and walks that visit every pair of partners once.
-/
import Mathlib.Algebra.BigOperators.Group.Finset.Basic
import Mathlib.Algebra.BigOperators.Ring.Finset
import Mathlib.Data.Fintype.Perm
import Mathlib.Data.Fintype.BigOperators
import Mathlib.Dynamics.PeriodicPts.Defs
import Mathlib.Dynamics.PeriodicPts.Lemmas
import Mathlib.GroupTheory.Perm.Basic
import Mathlib.Logic.Relation
import Mathlib.Logic.Equiv.Fin.Basic
import Mathlib.Logic.Equiv.Fin.Rotate
import Mathlib.Tactic

namespace Verif.Lemmas.Dih
open Finset Equiv

set_option linter.unusedSectionVars false

variable {V : Type*} [Fintype V] [DecidableEq V]

/-- connectedness by two involutions -/
def Conn (σ τ : Perm V) : Prop := ∀ i j, Relation.ReflTransGen (fun a b => b = σ a ∨ b = τ a) i j

/-- the vertices of a walk and their partners -/
def spread {n : ℕ} (τ : Perm V) (w : Fin n → V) : Fin n × Bool → V := fun x => if x.2 then τ (w x.1) else w x.1

/-- The walk meets every pair of partners at most once. -/
def Good {n : ℕ} (τ : Perm V) (w : Fin n → V) : Prop := Function.Injective (spread τ w)

section rho
variable (σ τ : Perm V) (hσ : ∀ v, σ (σ v) = v) (hτ : ∀ v, τ (τ v) = v)
include hσ hτ

theorem tau_zpow (k : ℤ) (v : V) : τ (((σ * τ) ^ k) v) = ((σ * τ) ^ (-k)) (τ v) := by
  have h1 : σ * σ = 1 := Perm.ext hσ
  have h2 : τ * τ = 1 := Perm.ext hτ
  have h3 : τ⁻¹ = τ := inv_eq_of_mul_eq_one_left h2
  have h4 : σ⁻¹ = σ := inv_eq_of_mul_eq_one_left h1
  have : τ * (σ * τ) ^ k = (σ * τ) ^ (-k) * τ := by
    have h := conj_zpow (i := k) (a := τ) (b := σ * τ)
    rw [h3] at h
    have e : τ * (σ * τ) * τ = (σ * τ)⁻¹ := by rw [mul_inv_rev, h3, h4, mul_assoc, mul_assoc, h2, mul_one]
    rw [e, inv_zpow'] at h
    rw [h, mul_assoc, h2, mul_one]
  exact congrArg (fun p : Perm V => p v) this

theorem reach_zpow (v x : V) (h : Relation.ReflTransGen (fun a b => b = σ a ∨ b = τ a) v x) :
    (∃ k : ℤ, x = ((σ * τ) ^ k) v) ∨ ∃ k : ℤ, x = τ (((σ * τ) ^ k) v) := by
  induction h with
  | refl => left; exact ⟨0, by simp⟩
  | tail _ hbc ih =>
    rename_i b c
    rcases hbc with rfl | rfl
    · rcases ih with ⟨k, rfl⟩ | ⟨k, rfl⟩
      · right
        refine ⟨k - 1, ?_⟩
        rw [tau_zpow σ τ hσ hτ, show -(k - 1) = 1 + -k by ring, zpow_add, zpow_one, Perm.mul_apply, ← tau_zpow σ τ hσ hτ, Perm.mul_apply, hτ]
      · left
        refine ⟨1 + k, ?_⟩
        rw [zpow_add, zpow_one]; rfl
    · rcases ih with ⟨k, rfl⟩ | ⟨k, rfl⟩
      · right; exact ⟨k, rfl⟩
      · left; exact ⟨k, hτ _⟩

/-- without fixed points, a vertex and its partner are not on the same orbit -/
theorem not_same_orbit (hσ' : ∀ v, σ v ≠ v) (hτ' : ∀ v, τ v ≠ v) (v : V) (k : ℤ) : τ v ≠ ((σ * τ) ^ k) v := by
  intro h
  rcases Int.even_or_odd' k with ⟨j, rfl | rfl⟩
  · apply hτ' (((σ * τ) ^ j) v)
    rw [tau_zpow σ τ hσ hτ, h, ← Perm.mul_apply, ← zpow_add]
    congr 2; ring
  · apply hσ' (τ (((σ * τ) ^ j) v))
    have : σ (τ (((σ * τ) ^ j) v)) = ((σ * τ) ^ (1 + j)) v := by rw [zpow_add, zpow_one]; rfl
    rw [this, tau_zpow σ τ hσ hτ, h, ← Perm.mul_apply, ← zpow_add]
    congr 2; ring

end rho

theorem zpow_mod_period (ρ : Perm V) (v : V) (k : ℤ) :
    ∃ j < Function.minimalPeriod ρ v, (ρ ^ k) v = (ρ ^ j) v := by
  have hp : 0 < Function.minimalPeriod ρ v := Function.minimalPeriod_pos_of_mem_periodicPts (ρ.injective.mem_periodicPts v)
  have h := MulAction.zpow_smul_mod_minimalPeriod ρ v k
  have e : Function.minimalPeriod (ρ • ·) v = Function.minimalPeriod ρ v := rfl
  rw [e] at h
  have h0 := Int.emod_nonneg k (b := (Function.minimalPeriod ρ v : ℤ)) (by omega)
  have h1 := Int.emod_lt_of_pos k (b := (Function.minimalPeriod ρ v : ℤ)) (by omega)
  refine ⟨(k % (Function.minimalPeriod ρ v : ℤ)).toNat, by omega, ?_⟩
  rw [← zpow_natCast, Int.toNat_of_nonneg h0]
  exact h.symm

theorem pow_inj_period (ρ : Perm V) (v : V) {i j : ℕ} (hi : i < Function.minimalPeriod ρ v) (hj : j < Function.minimalPeriod ρ v)
    (h : (ρ ^ i) v = (ρ ^ j) v) : i = j := by
  rw [← Perm.iterate_eq_pow, ← Perm.iterate_eq_pow] at h
  exact Function.iterate_injOn_Iio_minimalPeriod hi hj h

section walks
variable (σ τ : Perm V) (hσ : ∀ v, σ (σ v) = v) (hτ : ∀ v, τ (τ v) = v) (hτ' : ∀ v, τ v ≠ v) (hc : Conn σ τ)
  (n : ℕ) (hcard : Fintype.card V = 2 * n)
include hσ hτ hτ' hc hcard

theorem period_cyc (hσ' : ∀ v, σ v ≠ v) (v : V) : Function.minimalPeriod (σ * τ) v = n := by
  set p := Function.minimalPeriod (σ * τ) v with hp
  have hb : Function.Bijective (fun x : Fin p × Bool => if x.2 then τ (((σ * τ) ^ (x.1 : ℕ)) v) else ((σ * τ) ^ (x.1 : ℕ)) v) := by
    constructor
    · rintro ⟨i, b⟩ ⟨j, c⟩ h
      have hn : ∀ i j : ℕ, τ (((σ * τ) ^ i) v) ≠ ((σ * τ) ^ j) v := by
        intro i j he
        rw [← zpow_natCast, tau_zpow σ τ hσ hτ] at he
        apply not_same_orbit σ τ hσ hτ hσ' hτ' v (i + j)
        rw [zpow_add, Perm.mul_apply, zpow_natCast _ j, ← he, ← Perm.mul_apply, ← zpow_add]
        simp
      cases b <;> cases c
      · simp only [Bool.false_eq_true, if_false] at h
        have := pow_inj_period _ v i.2 j.2 h
        exact Prod.ext (Fin.ext this) rfl
      · exact absurd h.symm (hn _ _)
      · exact absurd h (hn _ _)
      · simp only [if_true] at h
        have := pow_inj_period _ v i.2 j.2 (τ.injective h)
        exact Prod.ext (Fin.ext this) rfl
    · intro x
      rcases reach_zpow σ τ hσ hτ v x (hc v x) with ⟨k, rfl⟩ | ⟨k, rfl⟩
      · obtain ⟨j, hj, e⟩ := zpow_mod_period (σ * τ) v k
        exact ⟨(⟨j, hj⟩, false), by simp [e]⟩
      · obtain ⟨j, hj, e⟩ := zpow_mod_period (σ * τ) v k
        exact ⟨(⟨j, hj⟩, true), by simp [e]⟩
  have := Fintype.card_of_bijective hb
  rw [Fintype.card_prod, Fintype.card_fin, Fintype.card_bool, hcard] at this
  omega

theorem good_cyc (hσ' : ∀ v, σ v ≠ v) (v : V) : Good τ (fun k : Fin n => ((σ * τ) ^ (k : ℕ)) v) := by
  have hp := period_cyc σ τ hσ hτ hτ' hc n hcard hσ' v
  have hn : ∀ i j : ℕ, τ (((σ * τ) ^ i) v) ≠ ((σ * τ) ^ j) v := by
    intro i j he
    rw [← zpow_natCast, tau_zpow σ τ hσ hτ] at he
    apply not_same_orbit σ τ hσ hτ hσ' hτ' v (i + j)
    rw [zpow_add, Perm.mul_apply, zpow_natCast _ j, ← he, ← Perm.mul_apply, ← zpow_add]
    simp
  rintro ⟨i, b⟩ ⟨j, c⟩ h
  unfold spread at h
  cases b <;> cases c
  · simp only [Bool.false_eq_true, if_false] at h
    exact Prod.ext (Fin.ext (pow_inj_period _ v (by rw [hp]; exact i.2) (by rw [hp]; exact j.2) h)) rfl
  · exact absurd h.symm (hn _ _)
  · exact absurd h (hn _ _)
  · simp only [if_true] at h
    exact Prod.ext (Fin.ext (pow_inj_period _ v (by rw [hp]; exact i.2) (by rw [hp]; exact j.2) (τ.injective h))) rfl

theorem period_path (v : V) (hv : σ v = v) : Function.minimalPeriod (σ * τ) v = 2 * n := by
  set p := Function.minimalPeriod (σ * τ) v with hp
  have hb : Function.Bijective (fun x : Fin p => ((σ * τ) ^ (x : ℕ)) v) := by
    constructor
    · intro i j h
      exact Fin.ext (pow_inj_period _ v i.2 j.2 h)
    · intro x
      have hτv : τ v = ((σ * τ) ^ (-1 : ℤ)) v := by
        rw [zpow_neg_one, Perm.eq_inv_iff_eq]
        rw [Perm.mul_apply, hτ, hv]
      have : ∃ k : ℤ, x = ((σ * τ) ^ k) v := by
        rcases reach_zpow σ τ hσ hτ v x (hc v x) with h | ⟨k, rfl⟩
        · exact h
        · refine ⟨-k + -1, ?_⟩
          rw [tau_zpow σ τ hσ hτ, hτv, ← Perm.mul_apply, ← zpow_add]
      obtain ⟨k, rfl⟩ := this
      obtain ⟨j, hj, e⟩ := zpow_mod_period (σ * τ) v k
      exact ⟨⟨j, hj⟩, e.symm⟩
  have := Fintype.card_of_bijective hb
  rw [Fintype.card_fin, hcard] at this
  exact this

theorem tau_path (v : V) (hv : σ v = v) (i : ℕ) (hi : i < 2 * n) : τ (((σ * τ) ^ i) v) = ((σ * τ) ^ (2 * n - 1 - i)) v := by
  have hp := period_path σ τ hσ hτ hτ' hc n hcard v hv
  have hper : ((σ * τ) ^ (2 * n)) v = v := by
    have := Function.isPeriodicPt_minimalPeriod (σ * τ) v
    rw [hp] at this
    rw [← Perm.iterate_eq_pow]; exact this
  have hτv : τ v = ((σ * τ) ^ (-1 : ℤ)) v := by
    rw [zpow_neg_one, Perm.eq_inv_iff_eq, Perm.mul_apply, hτ, hv]
  rw [← zpow_natCast, tau_zpow σ τ hσ hτ, hτv, ← Perm.mul_apply, ← zpow_add, ← zpow_natCast _ (2 * n - 1 - i)]
  conv_lhs => rw [← hper]
  rw [← zpow_natCast, ← Perm.mul_apply, ← zpow_add]
  congr 2
  push_cast [show i ≤ 2 * n - 1 by omega, show 1 ≤ 2 * n by omega]
  ring

theorem good_path (v : V) (hv : σ v = v) : Good τ (fun k : Fin n => ((σ * τ) ^ (k : ℕ)) v) := by
  have hp := period_path σ τ hσ hτ hτ' hc n hcard v hv
  have key : ∀ i j : ℕ, i < n → j < n → τ (((σ * τ) ^ i) v) ≠ ((σ * τ) ^ j) v := by
    intro i j hi hj he
    rw [tau_path σ τ hσ hτ hτ' hc n hcard v hv i (by omega)] at he
    have := pow_inj_period _ v (by rw [hp]; omega) (by rw [hp]; omega) he
    omega
  rintro ⟨i, b⟩ ⟨j, c⟩ h
  unfold spread at h
  have := i.2
  have := j.2
  cases b <;> cases c
  · simp only [Bool.false_eq_true, if_false] at h
    exact Prod.ext (Fin.ext (pow_inj_period _ v (by rw [hp]; omega) (by rw [hp]; omega) h)) rfl
  · exact absurd h.symm (key _ _ j.2 i.2)
  · exact absurd h (key _ _ i.2 j.2)
  · simp only [if_true] at h
    exact Prod.ext (Fin.ext (pow_inj_period _ v (by rw [hp]; omega) (by rw [hp]; omega) (τ.injective h))) rfl

end walks

/-! #### From walks to matchings -/

section back
variable (τ : Perm V) (hτ : ∀ v, τ (τ v) = v) {m : ℕ} (hcard : Fintype.card V = 2 * (m + 1))

/-- the enumeration of the vertices by a walk that meets every pair of partners once -/
noncomputable def enum {n : ℕ} (w : Fin n → V) (hw : Good τ w) (hcard : Fintype.card V = 2 * n) : Fin n × Bool ≃ V :=
  Equiv.ofBijective (spread τ w) ((Fintype.bijective_iff_injective_and_card _).mpr ⟨hw, by
    rw [Fintype.card_prod, Fintype.card_fin, Fintype.card_bool, hcard, mul_comm]⟩)

theorem enum_apply {n : ℕ} (w : Fin n → V) (hw : Good τ w) (hcard : Fintype.card V = 2 * n) (x : Fin n × Bool) :
    enum τ w hw hcard x = spread τ w x := rfl

/-- every vertex is on the walk or the partner of one on the walk -/
theorem good_cover {n : ℕ} (w : Fin n → V) (hw : Good τ w) (hcard : Fintype.card V = 2 * n) (v : V) : (∃ k, v = w k) ∨ ∃ k, v = τ (w k) := by
  obtain ⟨⟨k, b⟩, rfl⟩ := (enum τ w hw hcard).surjective v
  cases b
  · left; exact ⟨k, by simp [enum_apply, spread]⟩
  · right; exact ⟨k, by simp [enum_apply, spread]⟩

/-- The matching of a closed walk. -/
def CycRel (σ : Perm V) (w : Fin (m + 1) → V) : Prop := ∀ k, σ (τ (w k)) = w (k + 1)

/-- The matching with loops of an open walk. -/
def PathRel (σ : Perm V) (w : Fin (m + 1) → V) : Prop :=
  σ (w 0) = w 0 ∧ (∀ k : Fin m, σ (τ (w k.castSucc)) = w k.succ) ∧ σ (τ (w (Fin.last m))) = τ (w (Fin.last m))

/-- the model matching of a cycle -/
def cyc0 (m : ℕ) : Perm (Fin (m + 1) × Bool) where
  toFun x := if x.2 then (x.1 + 1, false) else (x.1 - 1, true)
  invFun x := if x.2 then (x.1 + 1, false) else (x.1 - 1, true)
  left_inv := by rintro ⟨k, b⟩; cases b <;> simp
  right_inv := by rintro ⟨k, b⟩; cases b <;> simp

/-- the model matching of a path -/
def path0 (m : ℕ) (x : Fin (m + 1) × Bool) : Fin (m + 1) × Bool :=
  if x.2 then (if x.1 = Fin.last m then x else (x.1 + 1, false)) else (if x.1 = 0 then x else (x.1 - 1, true))

theorem fin_add_one_eq_zero {m : ℕ} (k : Fin (m + 1)) : k + 1 = 0 ↔ k = Fin.last m := by
  rw [← Fin.last_add_one m]
  exact add_left_inj 1

theorem fin_sub_one_eq_last {m : ℕ} (k : Fin (m + 1)) : k - 1 = Fin.last m ↔ k = 0 := by
  rw [sub_eq_iff_eq_add, Fin.last_add_one]

theorem path0_invol (m : ℕ) : Function.Involutive (path0 m) := by
  rintro ⟨k, b⟩
  cases b
  · by_cases h : k = 0
    · subst h; simp [path0]
    · have : ¬ k - 1 = Fin.last m := by rwa [fin_sub_one_eq_last]
      simp [path0, h, this]
  · by_cases h : k = Fin.last m
    · subst h; simp [path0]
    · have : ¬ k + 1 = 0 := by rwa [fin_add_one_eq_zero]
      simp [path0, h, this]

include hτ hcard

theorem cyc_exists (w : Fin (m + 1) → V) (hw : Good τ w) :
    ∃ σ : Perm V, (∀ v, σ (σ v) = v) ∧ (∀ v, σ v ≠ v) ∧ CycRel τ σ w := by
  set E := enum τ w hw hcard
  refine ⟨E.permCongr (cyc0 m), ?_, ?_, ?_⟩
  · intro v
    simp only [Equiv.permCongr_apply, Equiv.symm_apply_apply]
    conv_rhs => rw [← E.apply_symm_apply v]
    congr 1
    obtain ⟨k, b⟩ := E.symm v
    cases b <;> simp [cyc0]
  · intro v h
    rw [Equiv.permCongr_apply, ← Equiv.eq_symm_apply] at h
    generalize E.symm v = x at h
    obtain ⟨k, b⟩ := x
    cases b <;> simp [cyc0] at h
  · intro k
    have h1 : τ (w k) = E (k, true) := by simp [E, enum_apply, spread]
    rw [h1, Equiv.permCongr_apply, Equiv.symm_apply_apply]
    simp [cyc0, E, enum_apply, spread]

theorem path_exists (w : Fin (m + 1) → V) (hw : Good τ w) :
    ∃ σ : Perm V, (∀ v, σ (σ v) = v) ∧ PathRel τ σ w := by
  set E := enum τ w hw hcard
  have hE0 : ∀ k, E (k, false) = w k := fun k => by simp [E, enum_apply, spread]
  have hE1 : ∀ k, E (k, true) = τ (w k) := fun k => by simp [E, enum_apply, spread]
  refine ⟨E.permCongr (path0_invol m).toPerm, ?_, ?_, ?_, ?_⟩
  · intro v
    simp only [Equiv.permCongr_apply, Equiv.symm_apply_apply, Function.Involutive.coe_toPerm, path0_invol m _, Equiv.apply_symm_apply]
  · rw [← hE0, Equiv.permCongr_apply, Equiv.symm_apply_apply]
    simp [path0]
  · intro k
    rw [← hE1, Equiv.permCongr_apply, Equiv.symm_apply_apply, ← hE0]
    have : ¬ k.castSucc = Fin.last m := Fin.castSucc_ne_last k
    simp [path0, this]
  · rw [← hE1, Equiv.permCongr_apply, Equiv.symm_apply_apply]
    simp [path0]

theorem cyc_unique (w : Fin (m + 1) → V) (hw : Good τ w) (σ σ' : Perm V) (hσ : ∀ v, σ (σ v) = v) (hσ' : ∀ v, σ' (σ' v) = v)
    (h : CycRel τ σ w) (h' : CycRel τ σ' w) : σ = σ' := by
  refine Perm.ext fun v => ?_
  rcases good_cover τ w hw hcard v with ⟨k, rfl⟩ | ⟨k, rfl⟩
  · have h1 := h (k - 1)
    have h2 := h' (k - 1)
    rw [sub_add_cancel] at h1 h2
    rw [← h1, hσ, h1, ← h2, hσ']
  · rw [h, h']

theorem path_unique (w : Fin (m + 1) → V) (hw : Good τ w) (σ σ' : Perm V) (hσ : ∀ v, σ (σ v) = v) (hσ' : ∀ v, σ' (σ' v) = v)
    (h : PathRel τ σ w) (h' : PathRel τ σ' w) : σ = σ' := by
  refine Perm.ext fun v => ?_
  rcases good_cover τ w hw hcard v with ⟨k, rfl⟩ | ⟨k, rfl⟩
  · induction k using Fin.cases with
    | zero => rw [h.1, h'.1]
    | succ k =>
      have h1 := h.2.1 k
      have h2 := h'.2.1 k
      rw [← h1, hσ, h1, ← h2, hσ']
  · induction k using Fin.lastCases with
    | last => rw [h.2.2, h'.2.2]
    | cast k => rw [h.2.1, h'.2.1]

theorem conn_of_steps (w : Fin (m + 1) → V) (hw : Good τ w) (σ : Perm V) (hσ : ∀ v, σ (σ v) = v)
    (h : ∀ k : Fin m, σ (τ (w k.castSucc)) = w k.succ) : Conn σ τ := by
  have hsymm : Std.Symm fun a b : V => b = σ a ∨ b = τ a := ⟨by
    rintro a b (rfl | rfl)
    · left; rw [hσ]
    · right; rw [hτ]⟩
  have h0 : ∀ k, Relation.ReflTransGen (fun a b => b = σ a ∨ b = τ a) (w 0) (w k) := by
    intro k
    induction k using Fin.induction with
    | zero => exact .refl
    | succ k ih => exact (ih.tail (Or.inr rfl)).tail (Or.inl (h k).symm)
  have h1 : ∀ v, Relation.ReflTransGen (fun a b => b = σ a ∨ b = τ a) (w 0) v := by
    intro v
    rcases good_cover τ w hw hcard v with ⟨k, rfl⟩ | ⟨k, rfl⟩
    · exact h0 k
    · exact (h0 k).tail (Or.inr rfl)
  intro i j
  exact ((Relation.ReflTransGen.symmetric (r := fun a b : V => b = σ a ∨ b = τ a)).symm _ _ (h1 i)).trans (h1 j)

theorem conn_cyc (w : Fin (m + 1) → V) (hw : Good τ w) (σ : Perm V) (hσ : ∀ v, σ (σ v) = v) (h : CycRel τ σ w) : Conn σ τ :=
  conn_of_steps τ hτ hcard w hw σ hσ fun k => by rw [h, Fin.coeSucc_eq_succ]

theorem conn_path (w : Fin (m + 1) → V) (hw : Good τ w) (σ : Perm V) (hσ : ∀ v, σ (σ v) = v) (h : PathRel τ σ w) : Conn σ τ :=
  conn_of_steps τ hτ hcard w hw σ hσ h.2.1

/-- a walk is determined by its matching and its first vertex -/
theorem walk_pow (w : Fin (m + 1) → V) (σ : Perm V) (h : ∀ k : Fin m, σ (τ (w k.castSucc)) = w k.succ) (k : Fin (m + 1)) :
    w k = ((σ * τ) ^ (k : ℕ)) (w 0) := by
  induction k using Fin.induction with
  | zero => rfl
  | succ k ih =>
    rw [← h, ih, Fin.val_succ, Fin.val_castSucc, pow_succ']
    rfl

variable (hτ' : ∀ v, τ v ≠ v)
include hτ'

theorem cycRel_of_conn (σ : Perm V) (hσ : ∀ v, σ (σ v) = v) (hf : ∀ v, σ v ≠ v) (hc : Conn σ τ) (v : V) :
    CycRel τ σ fun k : Fin (m + 1) => ((σ * τ) ^ (k : ℕ)) v := by
  intro k
  beta_reduce
  have hp := period_cyc σ τ hσ hτ hτ' hc (m + 1) hcard hf v
  induction k using Fin.lastCases with
  | last =>
    have : ((σ * τ) ^ (m + 1)) v = v := by
      have := Function.isPeriodicPt_minimalPeriod (σ * τ) v
      rw [hp] at this
      rw [← Perm.iterate_eq_pow]; exact this
    rw [Fin.last_add_one, Fin.val_last, Fin.val_zero, pow_zero, Perm.one_apply]
    rw [pow_succ'] at this
    exact this
  | cast k =>
    rw [Fin.coeSucc_eq_succ, Fin.val_succ, Fin.val_castSucc, pow_succ']
    rfl

theorem pathRel_of_conn (σ : Perm V) (hσ : ∀ v, σ (σ v) = v) (hc : Conn σ τ) (v : V) (hv : σ v = v) :
    PathRel τ σ fun k : Fin (m + 1) => ((σ * τ) ^ (k : ℕ)) v := by
  refine ⟨by simpa using hv, ?_, ?_⟩
  · intro k
    beta_reduce
    rw [Fin.val_succ, Fin.val_castSucc, pow_succ']
    rfl
  · beta_reduce
    rw [Fin.val_last]
    have h1 : σ (τ (((σ * τ) ^ m) v)) = ((σ * τ) ^ (m + 1)) v := by rw [pow_succ']; rfl
    rw [h1, tau_path σ τ hσ hτ hτ' hc (m + 1) hcard v hv m (by omega)]
    congr 2; omega

/-- A connected matching with a loop has exactly two. -/
theorem two_loops (σ : Perm V) (hσ : ∀ v, σ (σ v) = v) (hc : Conn σ τ) (v : V) (hv : σ v = v) : (univ.filter fun x => σ x = x).card = 2 := by
  have hw := good_path σ τ hσ hτ hτ' hc (m + 1) hcard v hv
  have hr := pathRel_of_conn τ hτ hcard hτ' σ hσ hc v hv
  set w := fun k : Fin (m + 1) => ((σ * τ) ^ (k : ℕ)) v
  have hne : w 0 ≠ τ (w (Fin.last m)) := fun e => by
    have := @hw (0, false) (Fin.last m, true) (by simpa [spread] using e)
    simp at this
  have : (univ.filter fun x => σ x = x) = {w 0, τ (w (Fin.last m))} := by
    ext x
    simp only [mem_filter, mem_univ, true_and, mem_insert, mem_singleton]
    constructor
    · intro hx
      rcases good_cover τ w hw hcard x with ⟨k, rfl⟩ | ⟨k, rfl⟩
      · induction k using Fin.cases with
        | zero => left; rfl
        | succ k =>
          exfalso
          rw [← hr.2.1, hσ] at hx
          rw [hr.2.1] at hx
          have := @hw (k.castSucc, true) (k.succ, false) (by simpa [spread] using hx)
          simp at this
      · induction k using Fin.lastCases with
        | last => right; rfl
        | cast k =>
          exfalso
          rw [hr.2.1] at hx
          have := @hw (k.castSucc, true) (k.succ, false) (by simpa [spread] using hx.symm)
          simp at this
    · rintro (rfl | rfl)
      · exact hr.1
      · exact hr.2.2
  rw [this, card_pair hne]

open Classical in
/-- Sums over closed walks from `v` are sums over connected perfect matchings. -/
theorem sum_cyc {K : Type*} [AddCommMonoid K] (v : V) (f : (Fin (m + 1) → V) → K) (G : Perm V → K)
    (h : ∀ w σ, Good τ w → w 0 = v → (∀ x, σ (σ x) = x) → (∀ x, σ x ≠ x) → CycRel τ σ w → f w = G σ) :
    ∑ w : Fin (m + 1) → V with Good τ w ∧ w 0 = v, f w =
      ∑ σ : Perm V with (∀ x, σ (σ x) = x) ∧ (∀ x, σ x ≠ x) ∧ Conn σ τ, G σ := by
  symm
  refine Finset.sum_bij' (fun σ _ => fun k : Fin (m + 1) => ((σ * τ) ^ (k : ℕ)) v)
    (fun w hw => (cyc_exists τ hτ hcard w (by simpa using (mem_filter.mp hw).2.1)).choose) ?_ ?_ ?_ ?_ ?_
  · intro σ hs
    obtain ⟨-, h1, h2, h3⟩ := mem_filter.mp hs
    exact mem_filter.mpr ⟨mem_univ _, good_cyc σ τ h1 hτ hτ' h3 (m + 1) hcard h2 v, by simp⟩
  · intro w hw
    obtain ⟨-, h1, h2⟩ := mem_filter.mp hw
    obtain ⟨g1, g2, g3⟩ := (cyc_exists τ hτ hcard w h1).choose_spec
    exact mem_filter.mpr ⟨mem_univ _, g1, g2, conn_cyc τ hτ hcard w h1 _ g1 g3⟩
  · intro σ hs
    obtain ⟨-, h1, h2, h3⟩ := mem_filter.mp hs
    have hw := good_cyc σ τ h1 hτ hτ' h3 (m + 1) hcard h2 v
    obtain ⟨g1, g2, g3⟩ := (cyc_exists τ hτ hcard _ hw).choose_spec
    exact cyc_unique τ hτ hcard _ hw _ _ g1 h1 g3 (cycRel_of_conn τ hτ hcard hτ' σ h1 h2 h3 v)
  · intro w hw
    obtain ⟨-, h1, h2⟩ := mem_filter.mp hw
    obtain ⟨g1, g2, g3⟩ := (cyc_exists τ hτ hcard w h1).choose_spec
    funext k
    have := walk_pow τ hτ hcard w _ (fun k => by rw [g3, Fin.coeSucc_eq_succ]) k
    rw [h2] at this
    exact this.symm
  · intro σ hs
    obtain ⟨-, h1, h2, h3⟩ := mem_filter.mp hs
    exact (h _ σ (good_cyc σ τ h1 hτ hτ' h3 (m + 1) hcard h2 v) (by simp) h1 h2 (cycRel_of_conn τ hτ hcard hτ' σ h1 h2 h3 v)).symm

open Classical in
/-- Sums over open walks are sums over connected matchings with loops, twice. -/
theorem sum_path {K : Type*} [AddCommMonoid K] (f : (Fin (m + 1) → V) → K) (G : Perm V → K)
    (h : ∀ w σ, Good τ w → (∀ x, σ (σ x) = x) → PathRel τ σ w → f w = G σ) :
    ∑ w : Fin (m + 1) → V with Good τ w, f w =
      2 • ∑ σ : Perm V with (∀ x, σ (σ x) = x) ∧ (∃ x, σ x = x) ∧ Conn σ τ, G σ := by
  have h2 : 2 • ∑ σ : Perm V with (∀ x, σ (σ x) = x) ∧ (∃ x, σ x = x) ∧ Conn σ τ, G σ =
      ∑ p ∈ (univ.filter fun σ : Perm V => (∀ x, σ (σ x) = x) ∧ (∃ x, σ x = x) ∧ Conn σ τ).sigma fun σ => univ.filter fun x => σ x = x, G p.1 := by
    rw [Finset.sum_sigma, Finset.smul_sum]
    refine Finset.sum_congr rfl fun σ hs => ?_
    obtain ⟨-, h1, ⟨x, hx⟩, h3⟩ := mem_filter.mp hs
    dsimp only
    rw [Finset.sum_const, two_loops τ hτ hcard hτ' σ h1 h3 x hx]
  rw [h2]
  symm
  refine Finset.sum_bij' (fun p _ => fun k : Fin (m + 1) => ((p.1 * τ) ^ (k : ℕ)) p.2)
    (fun w hw => ⟨(path_exists τ hτ hcard w (by simpa using (mem_filter.mp hw).2)).choose, w 0⟩) ?_ ?_ ?_ ?_ ?_
  · rintro ⟨σ, v⟩ hs
    obtain ⟨hs1, hs2⟩ := mem_sigma.mp hs
    obtain ⟨-, h1, -, h3⟩ := mem_filter.mp hs1
    exact mem_filter.mpr ⟨mem_univ _, good_path σ τ h1 hτ hτ' h3 (m + 1) hcard v (mem_filter.mp hs2).2⟩
  · intro w hw
    obtain ⟨-, h1⟩ := mem_filter.mp hw
    obtain ⟨g1, g3⟩ := (path_exists τ hτ hcard w h1).choose_spec
    exact mem_sigma.mpr ⟨mem_filter.mpr ⟨mem_univ _, g1, ⟨_, g3.1⟩, conn_path τ hτ hcard w h1 _ g1 g3⟩, mem_filter.mpr ⟨mem_univ _, g3.1⟩⟩
  · rintro ⟨σ, v⟩ hs
    obtain ⟨hs1, hs2⟩ := mem_sigma.mp hs
    obtain ⟨-, h1, -, h3⟩ := mem_filter.mp hs1
    have hv := (mem_filter.mp hs2).2
    have hw := good_path σ τ h1 hτ hτ' h3 (m + 1) hcard v hv
    obtain ⟨g1, g3⟩ := (path_exists τ hτ hcard _ hw).choose_spec
    have := path_unique τ hτ hcard _ hw _ _ g1 h1 g3 (pathRel_of_conn τ hτ hcard hτ' σ h1 h3 v hv)
    refine Sigma.ext this (by simp)
  · intro w hw
    obtain ⟨-, h1⟩ := mem_filter.mp hw
    obtain ⟨g1, g3⟩ := (path_exists τ hτ hcard w h1).choose_spec
    funext k
    exact (walk_pow τ hτ hcard w _ g3.2.1 k).symm
  · rintro ⟨σ, v⟩ hs
    obtain ⟨hs1, hs2⟩ := mem_sigma.mp hs
    obtain ⟨-, h1, -, h3⟩ := mem_filter.mp hs1
    have hv := (mem_filter.mp hs2).2
    exact (h _ σ (good_path σ τ h1 hτ hτ' h3 (m + 1) hcard v hv) h1 (pathRel_of_conn τ hτ hcard hτ' σ h1 h3 v hv)).symm

end back

end Verif.Lemmas.Dih
