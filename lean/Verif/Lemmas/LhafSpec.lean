/- The list recursion computes the sum over involutions of `Verif.Spec`. -/
import Verif.Spec.Matching
import Verif.Lemmas.Lhaf
import Mathlib.Data.List.FinRange
import Mathlib.Algebra.BigOperators.Fin

namespace Verif

open Finset

variable {ι : Type*} {K : Type*} [CommRing K]

theorem eSum_nodup [DecidableEq ι] (F : ι → List ι → K) (l : List ι) (h : l.Nodup) :
    eSum F l = ∑ y ∈ l.toFinset, F y (l.erase y) := by
  induction l generalizing F with
  | nil => simp
  | cons x xs ih =>
    rw [List.nodup_cons] at h
    rw [eSum_cons, ih _ h.2, List.toFinset_cons, Finset.sum_insert (by simpa using h.1), List.erase_cons_head]
    congr 1
    refine Finset.sum_congr rfl fun y hy => ?_
    have : x ≠ y := by rintro rfl; exact h.1 (by simpa using hy)
    rw [List.erase_cons_tail (by simpa using this)]

section inv
variable [Fintype ι] [LinearOrder ι]

/-- involutions supported in `s` -/
def invs (s : Finset ι) : Finset (Equiv.Perm ι) :=
  univ.filter fun σ => (∀ i, σ (σ i) = i) ∧ ∀ i, i ∉ s → σ i = i

def invWt (M : ι → ι → K) (s : Finset ι) (σ : Equiv.Perm ι) : K :=
  ∏ i ∈ s, if i ≤ σ i then M i (σ i) else 1

def invSum (M : ι → ι → K) (s : Finset ι) : K := ∑ σ ∈ invs s, invWt M s σ

theorem invSum_empty (M : ι → ι → K) : invSum M ∅ = 1 := by
  have : invs (∅ : Finset ι) = {1} := by
    ext σ
    simp only [invs, mem_filter, mem_univ, true_and, notMem_empty, not_false_eq_true, forall_const, mem_singleton]
    constructor
    · rintro ⟨_, h⟩; ext i; simp [h]
    · rintro rfl; simp
  simp [invSum, this, invWt]

theorem invSum_insert (M : ι → ι → K) (x : ι) (s : Finset ι) (hx : ∀ y ∈ s, x < y) :
    invSum M (insert x s) = M x x * invSum M s + ∑ y ∈ s, M x y * invSum M (s.erase y) := by
  have hxs : x ∉ s := fun h => lt_irrefl _ (hx x h)
  unfold invSum
  rw [← Finset.sum_fiberwise_of_maps_to (s := invs (insert x s)) (t := insert x s) (g := fun σ => σ x)]
  · rw [Finset.sum_insert hxs]
    congr 1
    · -- fixed point at x
      have : (invs (insert x s)).filter (fun σ => σ x = x) = invs s := by
        ext σ
        simp only [invs, mem_filter, mem_univ, true_and, mem_insert, not_or]
        constructor
        · rintro ⟨⟨h1, h2⟩, h3⟩
          refine ⟨h1, fun i hi => ?_⟩
          by_cases hix : i = x
          · subst hix; exact h3
          · exact h2 i ⟨hix, hi⟩
        · rintro ⟨h1, h2⟩
          exact ⟨⟨h1, fun i hi => h2 i hi.2⟩, h2 x hxs⟩
      rw [this, Finset.mul_sum]
      refine Finset.sum_congr rfl fun σ hσ => ?_
      have hfix : σ x = x := by
        simp only [invs, mem_filter] at hσ; exact hσ.2.2 x hxs
      unfold invWt
      rw [Finset.prod_insert hxs, hfix]; simp
    · refine Finset.sum_congr rfl fun y hy => ?_
      have hxy : x ≠ y := (hx y hy).ne
      rw [Finset.mul_sum]
      refine Finset.sum_bij' (fun σ _ => Equiv.swap x y * σ) (fun σ _ => Equiv.swap x y * σ) ?_ ?_ ?_ ?_ ?_
      · intro σ hσ
        simp only [invs, mem_filter, mem_univ, true_and, mem_insert, not_or] at hσ ⊢
        obtain ⟨⟨h1, h2⟩, h3⟩ := hσ
        have h4 : σ y = x := by rw [← h3, h1]
        have h5 : ∀ i, i ≠ x → i ≠ y → Equiv.swap x y (σ i) = σ i := by
          intro i hix hiy
          apply Equiv.swap_apply_of_ne_of_ne
          · intro h; apply hiy; rw [← h1 i, h, h3]
          · intro h; apply hix; rw [← h1 i, h, h4]
        constructor
        · intro i
          by_cases hix : i = x
          · subst hix; simp [h3]
          by_cases hiy : i = y
          · subst hiy; simp [h4]
          · simp only [Equiv.Perm.mul_apply]
            rw [h5 i hix hiy, h1, Equiv.swap_apply_of_ne_of_ne hix hiy]
        · intro i hi
          simp only [mem_erase, not_and] at hi
          by_cases hix : i = x
          · subst hix; simp [h3]
          by_cases hiy : i = y
          · subst hiy; simp [h4]
          · simp only [Equiv.Perm.mul_apply]
            rw [h5 i hix hiy]; exact h2 i ⟨hix, hi hiy⟩
      · intro σ hσ
        simp only [invs, mem_filter, mem_univ, true_and, mem_insert, not_or] at hσ ⊢
        obtain ⟨h1, h2⟩ := hσ
        have h3 : σ x = x := h2 x (by simp [hxs])
        have h4 : σ y = y := h2 y (by simp)
        have h5 : ∀ i, i ≠ x → i ≠ y → Equiv.swap x y (σ i) = σ i := by
          intro i hix hiy
          apply Equiv.swap_apply_of_ne_of_ne
          · intro h; apply hix; rw [← h1 i, h, h3]
          · intro h; apply hiy; rw [← h1 i, h, h4]
        refine ⟨⟨?_, ?_⟩, by simp [h3]⟩
        · intro i
          by_cases hix : i = x
          · subst hix; simp [h3, h4]
          by_cases hiy : i = y
          · subst hiy; simp [h3, h4]
          · simp only [Equiv.Perm.mul_apply]
            rw [h5 i hix hiy, h1, Equiv.swap_apply_of_ne_of_ne hix hiy]
        · rintro i ⟨hix, hi⟩
          have hiy : i ≠ y := by rintro rfl; exact hi hy
          simp only [Equiv.Perm.mul_apply]
          rw [h5 i hix hiy]; exact h2 i (by simp [hi])
      · intro σ _; simp [← mul_assoc, Equiv.swap_mul_self]
      · intro σ _; simp [← mul_assoc, Equiv.swap_mul_self]
      · intro σ hσ
        simp only [invs, mem_filter, mem_univ, true_and, mem_insert, not_or] at hσ
        obtain ⟨⟨h1, h2⟩, h3⟩ := hσ
        have h4 : σ y = x := by rw [← h3, h1]
        unfold invWt
        rw [Finset.prod_insert hxs, h3, if_pos (hx y hy).le, ← Finset.mul_prod_erase s _ hy, h4,
          if_neg (not_le.mpr (hx y hy)), one_mul]
        congr 1
        refine Finset.prod_congr rfl fun i hi => ?_
        simp only [mem_erase] at hi
        have hix : i ≠ x := by rintro rfl; exact hxs hi.2
        have : Equiv.swap x y (σ i) = σ i := by
          apply Equiv.swap_apply_of_ne_of_ne
          · intro h; apply hi.1; rw [← h1 i, h, h3]
          · intro h; apply hix; rw [← h1 i, h, h4]
        simp only [Equiv.Perm.mul_apply, this]
  · intro σ hσ
    simp only [invs, mem_filter, mem_univ, true_and] at hσ
    by_contra h
    by_cases hs : σ x ∈ insert x s
    · exact h hs
    · have := hσ.2 _ hs
      rw [hσ.1] at this
      rw [← this] at hs
      simp at hs

theorem lh_eq_invSum (M : ι → ι → K) (l : List ι) (hl : l.Pairwise (· < ·)) :
    lh (fun i => M i i) M l = invSum M l.toFinset := by
  induction hn : l.length using Nat.strong_induction_on generalizing l with
  | _ n ih =>
    cases l with
    | nil => simp [invSum_empty]
    | cons x xs =>
      rw [List.pairwise_cons] at hl
      have hnd : xs.Nodup := hl.2.imp (fun h => ne_of_lt h)
      simp only [List.length_cons] at hn
      rw [lh_cons, List.toFinset_cons, invSum_insert _ _ _ (by simpa using hl.1),
        ih xs.length (by omega) xs hl.2 rfl, eSum_nodup _ _ hnd]
      congr 1
      refine Finset.sum_congr rfl fun y hy => ?_
      have hy' : y ∈ xs := by simpa using hy
      have hlen := List.length_erase_of_mem hy'
      have hpos : 0 < xs.length := List.length_pos_of_mem hy'
      rw [ih (xs.erase y).length (by omega) _ (hl.2.sublist (List.erase_sublist ..)) rfl]
      congr 2
      ext z
      simp [hnd.mem_erase_iff]

end inv

/-- the spec's loop hafnian is the list recursion on `0, …, n-1` -/
theorem spec_lhaf_eq {n : ℕ} (M : Matrix (Fin n) (Fin n) K) :
    Spec.lhaf M = lh (fun i => M i i) (fun i j => M i j) (List.finRange n) := by
  refine Eq.trans ?_ (lh_eq_invSum (fun i j => M i j) _ (List.pairwise_lt_finRange n)).symm
  have : (List.finRange n).toFinset = univ := by ext i; simp
  rw [this]
  unfold Spec.lhaf invSum
  have h : (univ.filter fun σ : Equiv.Perm (Fin n) => ∀ i, σ (σ i) = i) = invs univ := by
    ext σ; simp [invs]
  rw [h]
  refine Finset.sum_congr rfl fun σ _ => ?_
  rw [invWt, Finset.prod_filter]

theorem spec_haf_eq_lhaf {n : ℕ} (M : Matrix (Fin n) (Fin n) K) :
    Spec.haf M = Spec.lhaf (Matrix.of fun i j => if i = j then 0 else M i j) := by
  unfold Spec.haf Spec.lhaf
  rw [← Finset.sum_filter_add_sum_filter_not (univ.filter fun σ : Equiv.Perm (Fin n) => ∀ i, σ (σ i) = i)
    (fun σ => ∀ i, σ i ≠ i)]
  rw [Finset.filter_filter]
  have h2 : ∑ σ ∈ (univ.filter fun σ : Equiv.Perm (Fin n) => ∀ i, σ (σ i) = i).filter (fun σ => ¬ ∀ i, σ i ≠ i),
      ∏ i : Fin n with i ≤ σ i, (Matrix.of fun i j => if i = j then 0 else M i j) i (σ i) = 0 := by
    apply Finset.sum_eq_zero
    intro σ hσ
    simp only [mem_filter, mem_univ, true_and, not_forall, not_not] at hσ
    obtain ⟨_, i, hi⟩ := hσ
    apply Finset.prod_eq_zero (i := i)
    · simp [hi]
    · simp [hi]
  rw [h2, add_zero]
  refine Finset.sum_congr rfl fun σ hσ => ?_
  simp only [mem_filter, mem_univ, true_and] at hσ
  have h3 : (univ.filter fun i : Fin n => i < σ i) = univ.filter fun i : Fin n => i ≤ σ i := by
    ext i
    simp only [mem_filter, mem_univ, true_and]
    exact ⟨le_of_lt, fun h => lt_of_le_of_ne h (hσ.2 i).symm⟩
  rw [h3]
  refine Finset.prod_congr rfl fun i _ => ?_
  simp [(hσ.2 i).symm]

theorem lh_congr_nodup {D D' : ι → K} {A A' : ι → ι → K} {l : List ι} (hl : l.Nodup)
    (hD : ∀ i ∈ l, D i = D' i) (hA : ∀ i ∈ l, ∀ j ∈ l, i ≠ j → A i j = A' i j) :
    lh D A l = lh D' A' l := by
  induction h : l.length using Nat.strong_induction_on generalizing l with
  | _ n ih =>
    cases l with
    | nil => rfl
    | cons x xs =>
      simp only [List.length_cons] at h
      have hl' := List.nodup_cons.mp hl
      rw [lh_cons, lh_cons, hD x (by simp), ih xs.length (by omega) hl'.2 (fun i hi => hD i (by simp [hi]))
        (fun i hi j hj => hA i (by simp [hi]) j (by simp [hj])) rfl]
      congr 1
      apply eSum_congr'
      intro y ys hy
      have hm : ∀ z ∈ y :: ys, z ∈ x :: xs := fun z hz => List.mem_cons_of_mem _ (hy.mem_iff.mp hz)
      have hlen := hy.length_eq
      simp only [List.length_cons] at hlen
      have hxy : x ≠ y := by
        rintro rfl; exact hl'.1 (hy.mem_iff.mp (by simp))
      have hnd : ys.Nodup := (List.nodup_cons.mp (hy.nodup_iff.mpr hl'.2)).2
      rw [hA x (by simp) y (hm y (by simp)) hxy, ih ys.length (by omega) hnd
        (fun i hi => hD i (hm i (by simp [hi])))
        (fun i hi j hj => hA i (hm i (by simp [hi])) j (hm j (by simp [hj]))) rfl]

theorem spec_haf_eq {n : ℕ} (M : Matrix (Fin n) (Fin n) K) :
    Spec.haf M = lh (fun _ => 0) (fun i j => M i j) (List.finRange n) := by
  rw [spec_haf_eq_lhaf, spec_lhaf_eq]
  apply lh_congr_nodup (List.nodup_finRange n)
  · intro i _; simp
  · intro i _ j _ hij; simp [hij]

theorem map_finRange_get (l : List ι) : (List.finRange l.length).map (fun i => l[i]) = l := by
  apply List.ext_getElem <;> simp

/-- repeated matrices -/
theorem spec_lhaf_list (D : ι → K) (A : ι → ι → K) (l : List ι) :
    Spec.lhaf (Matrix.of fun p q : Fin l.length => if p = q then D l[p] else A l[p] l[q]) = lh D A l := by
  rw [spec_lhaf_eq]
  conv_rhs => rw [← map_finRange_get l]
  rw [lh_map]
  apply lh_congr_nodup (List.nodup_finRange _)
  · intro i _; simp
  · intro i _ j _ hij; simp [hij]

theorem spec_haf_list (A : ι → ι → K) (l : List ι) :
    Spec.haf (Matrix.of fun p q : Fin l.length => A l[p] l[q]) = lh (fun _ => 0) A l := by
  rw [spec_haf_eq]
  conv_rhs => rw [← map_finRange_get l]
  rw [lh_map]
  apply lh_congr_nodup (List.nodup_finRange _)
  · intro i _; simp
  · intro i _ j _ hij; simp

theorem spec_lhaf_repeated (A : ℕ → ℕ → K) (mu : ℕ → K) (rpt : List ℕ) :
    Spec.lhaf (Spec.repeatedMatrixLoop A mu rpt) = lh mu A (Spec.repeatedIndices rpt) :=
  spec_lhaf_list mu A _

theorem spec_haf_repeated (A : ℕ → ℕ → K) (rpt : List ℕ) :
    Spec.haf (Spec.repeatedMatrix A rpt) = lh (fun _ => 0) A (Spec.repeatedIndices rpt) :=
  spec_haf_list A _

end Verif
