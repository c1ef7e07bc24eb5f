/-
The generating function of loop hafnians in some of the indices: summing over the multiplicities of the indices `c, c + 1, …` with weights `z^k / k!` replaces
the loop weights by `γ + A z` and produces a Gaussian factor.
-/
import Verif.Lemmas.GaussSeries
import Verif.Lemmas.FockState
import Verif.Lemmas.PermL

set_option linter.unusedSectionVars false
set_option linter.unusedSimpArgs false

namespace Verif.Lemmas.PSer
open Verif.Model Verif.Spec Verif.Lemmas Verif.Lemmas.GaussS Verif.Lemmas.FockS

variable {r : ℕ}

/-- sums over a list with one element removed -/
theorem eSum_hasSum {σ : Type} (F : σ → ℕ → List ℕ → ℂ) (G : ℕ → List ℕ → ℂ) (l : List ℕ)
    (h : ∀ y ys, (y :: ys).Perm l → HasSum (fun k => F k y ys) (G y ys)) : HasSum (fun k => eSum (F k) l) (eSum G l) := by
  induction l generalizing F G with
  | nil => simp only [eSum_nil]; exact hasSum_zero
  | cons x xs ih =>
    simp only [eSum_cons]
    refine (h x xs (List.Perm.refl _)).add (ih (fun k y ys => F k y (x :: ys)) (fun y ys => G y (x :: ys)) fun y ys hp => h y (x :: ys) ?_)
    exact (List.Perm.swap x y ys).trans (hp.cons x)

theorem decAt_ofFn (k : Fin r → ℕ) (j : Fin r) : decAt (List.ofFn k) j = List.ofFn (k - Pi.single j 1) := by
  apply List.ext_getElem
  · simp [decAt]
  · intro i h1 h2
    simp only [decAt, List.length_set, List.length_ofFn] at h1 h2 ⊢
    rw [List.getElem_set]
    by_cases e : (j : ℕ) = i
    · subst e; simp [List.getD_eq_getElem?_getD]
    · rw [if_neg e]
      have : (⟨i, by simpa using h2⟩ : Fin r) ≠ j := fun h => e (by rw [← h])
      simp [Pi.single_apply, this]

/-- a shifted sum -/
theorem shift_hasSum (g : (Fin r → ℕ) → ℂ) (z : Fin r → ℂ) (j : Fin r) (s : ℂ) (h : HasSum (fun k => g k * mono z k) s) :
    HasSum (fun k => (k j : ℂ) * g (k - Pi.single j 1) * mono z k) (z j * s) := by
  have hinj : Function.Injective fun k : Fin r → ℕ => k + Pi.single j 1 := fun a b h => add_right_cancel h
  rw [← hinj.hasSum_iff]
  · refine hasSum_of_eq (h.mul_left (z j)) (fun k => ?_) rfl
    have hm := mono_succ z k j
    have h1 : (k + Pi.single j 1 - Pi.single j 1 : Fin r → ℕ) = k := by funext i; simp
    have h2 : (((k + Pi.single j 1 : Fin r → ℕ) j : ℕ) : ℂ) = (k j : ℂ) + 1 := by simp
    simp only [Function.comp]
    rw [h1, h2]
    linear_combination g k * hm
  · intro k hk
    by_cases h0 : k j = 0
    · simp [h0]
    · exfalso
      apply hk
      refine ⟨k - Pi.single j 1, ?_⟩
      funext i
      by_cases e : i = j
      · subst e; simp; omega
      · simp [Pi.single_apply, e]

/-- the shifted indices -/
def shiftRep (c : ℕ) (k : Fin r → ℕ) : List ℕ := (repeatedIndices (List.ofFn k)).map (c + ·)

theorem eSum_shiftRep (F : ℕ → List ℕ → ℂ) (c : ℕ) (k : Fin r → ℕ) :
    eSum F (shiftRep c k) = ∑ j : Fin r, (k j : ℂ) * F (c + j) (shiftRep c (k - Pi.single j 1)) := by
  unfold shiftRep
  rw [eSum_map, eSum_rep, List.length_ofFn, Finset.sum_range]
  refine Finset.sum_congr rfl fun j _ => ?_
  rw [decAt_ofFn]
  congr 2
  simp [List.getD_eq_getElem?_getD]

theorem partial_hasSum (A : ℕ → ℕ → ℂ) (γ : ℕ → ℂ) (c : ℕ) (hA : ∀ i < r, ∀ j < r, A (c + i) (c + j) = A (c + j) (c + i)) (z : Fin r → ℂ) (L : List ℕ) :
    HasSum (fun k : Fin r → ℕ => lh γ A (L ++ shiftRep c k) * mono z k)
      (Complex.exp (qd (fun i j => A (c + i) (c + j)) z / 2 + ln (fun i => γ (c + i)) z) * lh (fun i => γ i + ∑ j : Fin r, A i (c + j) * z j) A L) := by
  induction hn : L.length using Nat.strong_induction_on generalizing L with
  | _ n ih =>
    cases L with
    | nil =>
      have := gauss_hasSum isExp_complex (fun i j => A (c + i) (c + j)) hA (fun i => γ (c + i)) z
      refine hasSum_of_eq this (fun k => ?_) (by rw [lh_nil, mul_one])
      congr 1
      rw [List.nil_append, shiftRep, lh_map]
      unfold H herm
      simp only [neg_neg]
      rfl
    | cons x L =>
      simp only [List.length_cons] at hn
      have h1 := (ih L.length (by omega) L rfl).mul_left (γ x)
      have h2 := eSum_hasSum (fun (k : Fin r → ℕ) y ys => A x y * lh γ A (ys ++ shiftRep c k) * mono z k)
        (fun y ys => A x y * (Complex.exp (qd (fun i j => A (c + i) (c + j)) z / 2 + ln (fun i => γ (c + i)) z) *
          lh (fun i => γ i + ∑ j : Fin r, A i (c + j) * z j) A ys)) L (fun y ys hp => by
            have hl := hp.length_eq
            simp only [List.length_cons] at hl
            refine hasSum_of_eq ((ih ys.length (by omega) ys rfl).mul_left (A x y)) (fun k => by ring) rfl)
      have h3 : HasSum (fun k : Fin r → ℕ => ∑ j : Fin r, A x (c + j) * ((k j : ℂ) * lh γ A (L ++ shiftRep c (k - Pi.single j 1)) * mono z k))
          (∑ j : Fin r, A x (c + j) * (z j * (Complex.exp (qd (fun i j => A (c + i) (c + j)) z / 2 + ln (fun i => γ (c + i)) z) *
            lh (fun i => γ i + ∑ j : Fin r, A i (c + j) * z j) A L))) :=
        hasSum_sum fun j _ => (shift_hasSum (fun k => lh γ A (L ++ shiftRep c k)) z j _ (ih L.length (by omega) L rfl)).mul_left _
      refine hasSum_of_eq ((h1.add h2).add h3) (fun k => ?_) ?_
      · rw [List.cons_append, lh_cons, eSum_append, eSum_shiftRep]
        have e : eSum (fun y ys => A x y * lh γ A (ys ++ shiftRep c k)) L * mono z k
            = eSum (fun y ys => A x y * lh γ A (ys ++ shiftRep c k) * mono z k) L := by
          rw [mul_comm, ← eSum_mul_left]
          exact eSum_congr' fun y ys _ => by ring
        rw [← e, add_mul, add_mul, Finset.sum_mul, ← add_assoc]
        congr 1
        · ring
        · exact Finset.sum_congr rfl fun j _ => by ring
      · rw [lh_cons, mul_add, ← eSum_mul_left]
        have e : ∀ (E l : ℂ), ∑ j : Fin r, A x (c + j) * (z j * (E * l)) = (∑ j : Fin r, A x (c + j) * z j) * (E * l) := by
          intro E l; rw [Finset.sum_mul]; exact Finset.sum_congr rfl fun j _ => by ring
        have e2 : ∀ (E : ℂ) (f : List ℕ → ℂ), eSum (fun y ys => A x y * (E * f ys)) L = eSum (fun y ys => E * (A x y * f ys)) L :=
          fun E f => eSum_congr' fun y ys _ => by ring
        rw [e, e2]
        ring

end Verif.Lemmas.PSer
