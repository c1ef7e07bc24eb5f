/- The permanent of a rectangular selection, as a sum over removals, and the hafnian of a bipartite matrix. -/
import Verif.Lemmas.Lhaf
import Verif.Lemmas.MatchedReps
import Mathlib.GroupTheory.Perm.Fin
import Mathlib.Data.Fintype.Perm
import Mathlib.Data.List.OfFn

namespace Verif

open Finset

variable {ι κ : Type*} {K : Type*} [CommRing K]

/-- Sum over all ways of matching the list `L` with the list `R` one to one. -/
def permL (a : ι → κ → K) : List ι → List κ → K
  | [], [] => 1
  | [], _ :: _ => 0
  | x :: L, R => eSum (fun y ys => a x y * permL a L ys) R

theorem eSum_append (F : ι → List ι → K) (L R : List ι) :
    eSum F (L ++ R) = eSum (fun y ys => F y (ys ++ R)) L + eSum (fun y ys => F y (L ++ ys)) R := by
  induction L generalizing F with
  | nil => simp
  | cons x L ih => rw [List.cons_append, eSum_cons, eSum_cons, ih]; simp [add_assoc]

theorem eSum_ofFn {n : ℕ} (F : ι → List ι → K) (g : Fin (n + 1) → ι) :
    eSum F (List.ofFn g) = ∑ p, F (g p) (List.ofFn fun i => g (p.succAbove i)) := by
  induction n generalizing F with
  | zero => simp [eSum_cons]
  | succ n ih =>
    rw [List.ofFn_succ, eSum_cons, ih, Fin.sum_univ_succ (f := fun p => F (g p) (List.ofFn fun i => g (p.succAbove i)))]
    refine congrArg₂ (fun a b : K => a + b) rfl (Finset.sum_congr rfl fun p _ => ?_)
    congr 1
    rw [List.ofFn_succ (f := fun i => g (p.succ.succAbove i))]
    simp

/-- Permutations of `Fin (n+1)` by the image of `0`. -/
theorem sum_perm_succ {n : ℕ} (F : (Fin (n + 1) → Fin (n + 1)) → K) :
    ∑ σ : Equiv.Perm (Fin (n + 1)), F σ
      = ∑ p : Fin (n + 1), ∑ e : Equiv.Perm (Fin n), F (Fin.cons p fun i => p.succAbove (e i)) := by
  rw [← Equiv.sum_comp Equiv.Perm.decomposeFin.symm, Fintype.sum_prod_type]
  refine Finset.sum_congr rfl fun p _ => ?_
  have key : ∃ c : Equiv.Perm (Fin n), ∀ j, Equiv.swap 0 p j.succ = p.succAbove (c j) := by
    refine Fin.cases ⟨1, fun j => by simp⟩ (fun i => ⟨i.cycleRange, fun j => ?_⟩) p
    rw [Fin.succAbove_cycleRange]
  obtain ⟨c, hc⟩ := key
  rw [← Equiv.sum_comp (Equiv.mulLeft c) (fun e : Equiv.Perm (Fin n) => F (Fin.cons p fun i => p.succAbove (e i)))]
  refine Finset.sum_congr rfl fun e _ => ?_
  congr 1
  funext i
  refine Fin.cases ?_ (fun i => ?_) i
  · simp
  · simp [hc]

theorem permL_ofFn {n : ℕ} (a : ι → κ → K) (f : Fin n → ι) (g : Fin n → κ) :
    permL a (List.ofFn f) (List.ofFn g) = ∑ σ : Equiv.Perm (Fin n), ∏ i, a (f i) (g (σ i)) := by
  induction n with
  | zero => simp [permL]
  | succ n ih =>
    rw [List.ofFn_succ, permL, eSum_ofFn, sum_perm_succ (fun σ => ∏ i, a (f i) (g (σ i)))]
    refine Finset.sum_congr rfl fun p _ => ?_
    rw [ih, Finset.mul_sum]
    refine Finset.sum_congr rfl fun e _ => ?_
    rw [Fin.prod_univ_succ]
    simp

theorem lh_zero_on (B : ι → ι → K) (R : List ι) (hR : ∀ x ∈ R, ∀ y ∈ R, B x y = 0) :
    lh (fun _ => 0) B R = permL B [] R := by
  cases R with
  | nil => rfl
  | cons x R =>
    rw [lh_cons, permL, zero_mul, zero_add]
    rw [eSum_congr' (G := fun _ _ => 0)]
    · exact eSum_zero _
    · intro y ys h
      rw [hR x (by simp) y (by simp [← h.mem_iff]), zero_mul]

/-- Hafnian of a bipartite weight: only left-right edges. -/
theorem lh_bipartite (B : ι → ι → K) (L R : List ι) (hL : ∀ x ∈ L, ∀ y ∈ L, B x y = 0)
    (hR : ∀ x ∈ R, ∀ y ∈ R, B x y = 0) : lh (fun _ => 0) B (L ++ R) = permL B L R := by
  induction L generalizing R with
  | nil => exact lh_zero_on B R hR
  | cons x L ih =>
    rw [List.cons_append, lh_cons, zero_mul, zero_add, eSum_append, permL]
    rw [eSum_congr' (l := L) (G := fun _ _ => 0)]
    · rw [eSum_zero, zero_add]
      apply eSum_congr'
      intro y ys h
      rw [ih _ (fun a ha b hb => hL a (by simp [ha]) b (by simp [hb]))]
      intro a ha b hb
      exact hR a (h.subset (by simp [ha])) b (h.subset (by simp [hb]))
    · intro y ys h
      rw [hL x (by simp) y (by simp [← h.mem_iff]), zero_mul]

theorem permL_map {ι' κ' : Type*} (a : ι → κ → K) (u : ι' → ι) (v : κ' → κ) (L : List ι') (R : List κ') :
    permL a (L.map u) (R.map v) = permL (fun i j => a (u i) (v j)) L R := by
  induction L generalizing R with
  | nil => cases R <;> rfl
  | cons x L ih =>
    simp only [List.map_cons, permL, eSum_map]
    apply eSum_congr
    intro y ys _
    rw [ih]

theorem permL_congr {a b : ι → κ → K} {L : List ι} {R : List κ} (h : ∀ x ∈ L, ∀ y ∈ R, a x y = b x y) :
    permL a L R = permL b L R := by
  induction L generalizing R with
  | nil => cases R <;> rfl
  | cons x L ih =>
    simp only [permL]
    apply eSum_congr'
    intro y ys hp
    rw [h x (by simp) y (hp.subset (by simp)), ih]
    intro x' hx' y' hy'
    exact h x' (by simp [hx']) y' (hp.subset (by simp [hy']))

theorem permL_list (a : ι → ι → K) (l : List ι) :
    permL a l l = ∑ σ : Equiv.Perm (Fin l.length), ∏ i, a l[i] l[σ i] := by
  have h : l = List.ofFn fun i : Fin l.length => l[i] := by
    simp
  conv_lhs => rw [h]
  exact permL_ofFn a _ _

theorem repeatedIndices_append (r s : List ℕ) :
    Spec.repeatedIndices (r ++ s) = Spec.repeatedIndices r ++ (Spec.repeatedIndices s).map (r.length + ·) := by
  rw [Spec.repeatedIndices, Spec.repeatedIndices, Spec.repeatedIndices, List.length_append, List.range_add,
    List.flatMap_append, List.map_flatMap, List.flatMap_map]
  congr 1
  · apply List.flatMap_congr
    intro i hi
    have hi : i < r.length := by simpa using hi
    simp [List.getD_eq_getElem?_getD, List.getElem?_append, hi]
  · apply List.flatMap_congr
    intro i hi
    simp [List.getD_eq_getElem?_getD, List.getElem?_append]

end Verif
