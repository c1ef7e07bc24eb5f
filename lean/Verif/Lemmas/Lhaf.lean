/- The loop hafnian of a list of indices, by expansion along the first one. -/
import Mathlib.Algebra.BigOperators.Group.List.Basic
import Mathlib.Algebra.BigOperators.Ring.List
import Mathlib.Data.List.Perm.Basic
import Mathlib.Data.Fintype.BigOperators
import Mathlib.Data.Multiset.Count
import Mathlib.Tactic.Ring
import Mathlib.Tactic.LinearCombination

namespace Verif

variable {ι κ : Type*} {K : Type*} [CommRing K]

/-- Sum of `F y rest` over all ways to remove one element `y` of the list. -/
def eSum (F : ι → List ι → K) : List ι → K
  | [] => 0
  | x :: xs => F x xs + eSum (fun y ys => F y (x :: ys)) xs

@[simp] theorem eSum_nil (F : ι → List ι → K) : eSum F [] = 0 := rfl
theorem eSum_cons (F : ι → List ι → K) (x xs) :
    eSum F (x :: xs) = F x xs + eSum (fun y ys => F y (x :: ys)) xs := rfl

theorem eSum_congr {F G : ι → List ι → K} {l : List ι}
    (h : ∀ y ys, ys.length + 1 = l.length → F y ys = G y ys) : eSum F l = eSum G l := by
  induction l generalizing F G with
  | nil => rfl
  | cons x xs ih =>
    rw [eSum_cons, eSum_cons, h x xs rfl]
    congr 1
    exact ih fun y ys hy => h y (x :: ys) (by simp; omega)

/-- stronger congruence: the removed element together with the rest is a permutation of the list -/
theorem eSum_congr' {F G : ι → List ι → K} {l : List ι}
    (h : ∀ y ys, (y :: ys).Perm l → F y ys = G y ys) : eSum F l = eSum G l := by
  induction l generalizing F G with
  | nil => rfl
  | cons x xs ih =>
    rw [eSum_cons, eSum_cons, h x xs (List.Perm.refl _)]
    congr 1
    exact ih fun y ys hy => h y (x :: ys) ((List.Perm.swap x y ys).trans (hy.cons x))

theorem eSum_add (F G : ι → List ι → K) (l : List ι) :
    eSum (fun y ys => F y ys + G y ys) l = eSum F l + eSum G l := by
  induction l generalizing F G with
  | nil => simp
  | cons x xs ih => rw [eSum_cons, eSum_cons, eSum_cons, ih]; ring

theorem eSum_mul_left (c : K) (F : ι → List ι → K) (l : List ι) :
    eSum (fun y ys => c * F y ys) l = c * eSum F l := by
  induction l generalizing F with
  | nil => simp
  | cons x xs ih => rw [eSum_cons, eSum_cons, ih]; ring

theorem eSum_zero (l : List ι) : eSum (fun _ _ => (0 : K)) l = 0 := by
  induction l with
  | nil => rfl
  | cons x xs ih => rw [eSum_cons, ih]; ring

theorem eSum_map (g : κ → ι) (F : ι → List ι → K) (l : List κ) :
    eSum F (l.map g) = eSum (fun y ys => F (g y) (ys.map g)) l := by
  induction l generalizing F with
  | nil => rfl
  | cons x xs ih => simp [eSum_cons, ih]

/-- Removing two elements in either order. -/
theorem eSum_swap (G : ι → ι → List ι → K) (l : List ι) :
    eSum (fun y ys => eSum (fun z zs => G y z zs) ys) l
      = eSum (fun y ys => eSum (fun z zs => G z y zs) ys) l := by
  induction l generalizing G with
  | nil => rfl
  | cons x xs ih =>
    simp only [eSum_cons, eSum_add]
    rw [ih (fun y z zs => G y z (x :: zs))]
    ring

theorem eSum_perm {F : ι → List ι → K} {l l' : List ι} (hp : l.Perm l')
    (hF : ∀ y ys ys', ys.length + 1 = l.length → ys.Perm ys' → F y ys = F y ys') :
    eSum F l = eSum F l' := by
  induction hp generalizing F with
  | nil => rfl
  | cons x h ih =>
    rw [eSum_cons, eSum_cons, hF x _ _ rfl h]
    congr 1
    exact ih fun y ys ys' hy hp => hF _ _ _ (by simp; omega) (hp.cons x)
  | swap x y l =>
    simp only [eSum_cons]
    rw [← add_assoc, ← add_assoc, add_comm (F y _)]
    congr 1
    apply eSum_congr
    intro z zs hz
    exact hF _ _ _ (by simp; omega) (List.Perm.swap _ _ _)
  | trans h1 h2 ih1 ih2 =>
    rw [ih1 hF]
    exact ih2 fun y ys ys' hy => hF y ys ys' (by rw [hy, h1.length_eq])

/-- Fuelled loop hafnian of a list. -/
def lhN (D : ι → K) (A : ι → ι → K) : ℕ → List ι → K
  | 0, _ => 1
  | _ + 1, [] => 1
  | n + 1, x :: xs => D x * lhN D A n xs + eSum (fun y ys => A x y * lhN D A n ys) xs

/-- Loop hafnian of the matrix indexed by the entries of a list: off-diagonal weights `A`, loop weights `D`. -/
def lh (D : ι → K) (A : ι → ι → K) (l : List ι) : K := lhN D A l.length l

theorem lhN_eq (D : ι → K) (A : ι → ι → K) (n : ℕ) (l : List ι) (h : l.length ≤ n) :
    lhN D A n l = lh D A l := by
  induction n using Nat.strong_induction_on generalizing l with
  | _ n ih =>
    cases l with
    | nil => cases n <;> rfl
    | cons x xs =>
      cases n with
      | zero => simp at h
      | succ n =>
        simp only [List.length_cons] at h
        simp only [lh, List.length_cons, lhN]
        rw [ih n (by omega) xs (by omega)]
        congr 1
        apply eSum_congr
        intro y ys hy
        rw [ih n (by omega) ys (by omega)]
        rw [ih xs.length (by omega) ys (by omega)]

@[simp] theorem lh_nil (D : ι → K) (A : ι → ι → K) : lh D A [] = 1 := rfl

theorem lh_cons (D : ι → K) (A : ι → ι → K) (x : ι) (xs : List ι) :
    lh D A (x :: xs) = D x * lh D A xs + eSum (fun y ys => A x y * lh D A ys) xs := by
  simp only [lh, List.length_cons, lhN]
  congr 1
  apply eSum_congr
  intro y ys hy
  rw [lhN_eq _ _ _ _ (by omega), lh]

theorem lh_map (D : ι → K) (A : ι → ι → K) (g : κ → ι) (l : List κ) :
    lh D A (l.map g) = lh (D ∘ g) (fun i j => A (g i) (g j)) l := by
  induction h : l.length using Nat.strong_induction_on generalizing l with
  | _ n ih =>
    cases l with
    | nil => rfl
    | cons x xs =>
      simp only [List.length_cons] at h
      rw [List.map_cons, lh_cons, lh_cons, ih xs.length (by omega) xs rfl, eSum_map]
      congr 1
      apply eSum_congr
      intro y ys hy
      rw [ih ys.length (by omega) ys rfl]

theorem lh_congr {D D' : ι → K} {A A' : ι → ι → K} {l : List ι}
    (hD : ∀ i ∈ l, D i = D' i) (hA : ∀ i ∈ l, ∀ j ∈ l, A i j = A' i j) : lh D A l = lh D' A' l := by
  induction h : l.length using Nat.strong_induction_on generalizing l with
  | _ n ih =>
    cases l with
    | nil => rfl
    | cons x xs =>
      simp only [List.length_cons] at h
      rw [lh_cons, lh_cons, hD x (by simp), ih xs.length (by omega) (fun i hi => hD i (by simp [hi]))
        (fun i hi j hj => hA i (by simp [hi]) j (by simp [hj])) rfl]
      congr 1
      apply eSum_congr'
      intro y ys hy
      have hm : ∀ z ∈ y :: ys, z ∈ x :: xs := fun z hz => List.mem_cons_of_mem _ (hy.mem_iff.mp hz)
      have hl := hy.length_eq
      simp only [List.length_cons] at hl
      rw [hA x (by simp) y (hm y (by simp)), ih ys.length (by omega) (fun i hi => hD i (hm i (by simp [hi])))
        (fun i hi j hj => hA i (hm i (by simp [hi])) j (hm j (by simp [hj]))) rfl]

/-- The loop hafnian does not depend on the order of the vertices. -/
theorem lh_perm (D : ι → K) (A : ι → ι → K) (hA : ∀ i j, A i j = A j i) {l l' : List ι} (hp : l.Perm l') :
    lh D A l = lh D A l' := by
  induction hn : l.length using Nat.strong_induction_on generalizing l l' with
  | _ n ih =>
    induction hp with
    | nil => rfl
    | @cons x l₁ l₂ h _ =>
      simp only [List.length_cons] at hn
      rw [lh_cons, lh_cons, ih l₁.length (by omega) h rfl]
      congr 1
      apply eSum_perm h
      intro y ys ys' hy hp
      rw [ih ys.length (by omega) hp rfl]
    | swap x y l =>
      simp only [List.length_cons] at hn
      rw [lh_cons D A y (x :: l), lh_cons D A x (y :: l), lh_cons D A x l, lh_cons D A y l, eSum_cons, eSum_cons]
      have e1 : ∀ a b : ι, eSum (fun z zs => A a z * lh D A (b :: zs)) l
          = D b * eSum (fun z zs => A a z * lh D A zs) l
            + eSum (fun z zs => eSum (fun u us => A a z * (A b u * lh D A us)) zs) l := by
        intro a b
        rw [← eSum_mul_left, ← eSum_add]
        apply eSum_congr
        intro z zs _
        rw [lh_cons, eSum_mul_left]
        ring
      rw [e1, e1, eSum_swap, hA x y]
      have e2 : eSum (fun z zs => eSum (fun u us => A y u * (A x z * lh D A us)) zs) l
        = eSum (fun z zs => eSum (fun u us => A x z * (A y u * lh D A us)) zs) l := by
        apply eSum_congr; intro z zs _; apply eSum_congr; intro u us _; ring
      rw [e2]
      ring
    | trans h1 h2 ih1 ih2 =>
      rw [ih1 hn, ih2 (by rw [← h1.length_eq]; exact hn)]

/-- Collect the erasure sum by value. -/
theorem eSum_count [Fintype ι] [DecidableEq ι] {F : ι → List ι → K}
    (hF : ∀ y ys ys', ys.Perm ys' → F y ys = F y ys') (l : List ι) :
    eSum F l = ∑ j, (l.count j : K) * F j (l.erase j) := by
  induction l generalizing F with
  | nil => simp
  | cons x xs ih =>
    rw [eSum_cons, ih (fun y ys ys' h => hF y _ _ (h.cons x))]
    rw [← Finset.sum_erase_add _ _ (Finset.mem_univ x),
      ← Finset.sum_erase_add (a := x) _ (fun j => ((x :: xs).count j : K) * F j ((x :: xs).erase j)) (Finset.mem_univ x)]
    have h1 : ∑ j ∈ Finset.univ.erase x, (xs.count j : K) * F j (x :: xs.erase j)
        = ∑ j ∈ Finset.univ.erase x, ((x :: xs).count j : K) * F j ((x :: xs).erase j) := by
      refine Finset.sum_congr rfl fun j hj => ?_
      have hj : j ≠ x := by simpa using hj
      rw [List.count_cons_of_ne hj.symm, List.erase_cons_tail (by simpa using hj.symm)]
    rw [h1]
    have h2 : F x xs + (xs.count x : K) * F x (x :: xs.erase x)
        = ((x :: xs).count x : K) * F x ((x :: xs).erase x) := by
      rw [List.count_cons_self, List.erase_cons_head]
      by_cases hx : x ∈ xs
      · rw [hF x _ _ (List.perm_cons_erase hx).symm]; push_cast; ring
      · rw [List.count_eq_zero_of_not_mem hx]; push_cast; ring
    rw [← h2]; ring

end Verif
