/- Further lemmas for the Hermite arrays: arbitrary pivots, the square-root table, and derivatives. -/
import Verif.Lemmas.Hermite
import Verif.Lemmas.Banded

namespace Verif.Model

set_option linter.unusedSectionVars false
set_option linter.unusedSimpArgs false

open Spec (repeatedIndices)
open Props (repeatedIndices_count repeatedIndices_sorted)

section
variable {K : Type} [Field K]

/-! ### multi-indices as functions -/

theorem ofFn_getD {n : ℕ} (k : Fin n → ℕ) (i : ℕ) : (List.ofFn k).getD i 0 = if h : i < n then k ⟨i, h⟩ else 0 := by
  by_cases h : i < n
  · rw [List.getD_eq_getElem _ _ (by simpa using h)]; simp [h]
  · rw [List.getD_eq_default _ _ (by simpa using h)]; simp [h]

theorem getD_ext {a b : List ℕ} (hl : a.length = b.length) (h : ∀ i, a.getD i 0 = b.getD i 0) : a = b := by
  apply List.ext_getElem hl
  intro i h1 h2
  have := h i
  rwa [List.getD_eq_getElem _ _ h1, List.getD_eq_getElem _ _ h2] at this

theorem decAt_ofFn {n : ℕ} (k : Fin n → ℕ) (i : Fin n) : decAt (List.ofFn k) i = List.ofFn (k - Pi.single i 1) := by
  apply getD_ext
  · simp [decAt_length]
  · intro j
    rw [decAt_getD, ofFn_getD, ofFn_getD]
    by_cases hj : j < n
    · simp only [hj, dif_pos, Pi.sub_apply, Pi.single_apply]
      congr 1
      by_cases h : (i : ℕ) = j
      · subst h; simp
      · rw [if_neg h, if_neg]; intro h2; apply h; rw [← h2]
    · simp [hj]

theorem mem_ndindex_ofFn {n : ℕ} (k c : Fin n → ℕ) : List.ofFn k ∈ ndindex (List.ofFn c) ↔ ∀ i, k i < c i := by
  rw [mem_ndindex, List.forall₂_iff_get]
  constructor
  · rintro ⟨_, h⟩ i
    have := h i (by simp) (by simp)
    simpa using this
  · intro h
    refine ⟨by simp, ?_⟩
    intro i h1 h2
    have := h ⟨i, by simpa using h1⟩
    simpa using this

theorem rep_succ_perm {n : ℕ} (k : Fin n → ℕ) (i : Fin n) :
    (repeatedIndices (List.ofFn (k + Pi.single i 1))).Perm ((i : ℕ) :: repeatedIndices (List.ofFn k)) := by
  rw [List.perm_iff_count]
  intro a
  rw [List.count_cons, repeatedIndices_count, repeatedIndices_count, ofFn_getD, ofFn_getD]
  by_cases ha : a < n
  · simp only [ha, dif_pos, Pi.add_apply, Pi.single_apply]
    congr 1
    by_cases h : (i : ℕ) = a
    · subst h; simp
    · rw [if_neg]
      · simp [h]
      · intro h2; apply h; rw [← h2]
  · have : (i : ℕ) ≠ a := fun h => ha (h ▸ i.2)
    simp [ha, this]

theorem rep_ofFn_lt {n : ℕ} (k : Fin n → ℕ) {x : ℕ} (h : x ∈ repeatedIndices (List.ofFn k)) : x < n := by
  have := repeatedIndices_lt h
  simpa using this

theorem herm_pivot {n : ℕ} (R : ℕ → ℕ → K) (y : ℕ → K) (hR : ∀ i < n, ∀ j < n, R i j = R j i) (k : Fin n → ℕ) (i : Fin n) :
    herm R y (List.ofFn (k + Pi.single i 1)) = y i * herm R y (List.ofFn k)
      - ∑ j : Fin n, R i j * (k j : K) * herm R y (List.ofFn (k - Pi.single j 1)) := by
  unfold herm
  have hsymm : ∀ a ∈ repeatedIndices (List.ofFn (k + Pi.single i 1)), ∀ b ∈ repeatedIndices (List.ofFn (k + Pi.single i 1)),
      -R a b = -R b a := fun a ha b hb => by rw [hR a (rep_ofFn_lt _ ha) b (rep_ofFn_lt _ hb)]
  rw [lh_perm_mem y _ hsymm (rep_succ_perm k i), lh_cons, eSum_rep, sub_eq_add_neg, ← Finset.sum_neg_distrib, List.length_ofFn,
    Finset.sum_range]
  congr 1
  apply Finset.sum_congr rfl
  intro j _
  rw [decAt_ofFn, ofFn_getD]
  simp only [j.2, dif_pos, Fin.eta]
  ring

/-! ### congruences -/

theorem herm_congr {n : ℕ} (R R' : ℕ → ℕ → K) (y y' : ℕ → K) (hR : ∀ i < n, ∀ j < n, R i j = R' i j) (hy : ∀ i < n, y i = y' i)
    (k : List ℕ) (hk : k.length = n) : herm R y k = herm R' y' k := by
  unfold herm
  apply lh_congr
  · intro i hi; exact hy i (hk ▸ repeatedIndices_lt hi)
  · intro i hi j hj; rw [hR i (hk ▸ repeatedIndices_lt hi) j (hk ▸ repeatedIndices_lt hj)]

theorem foldl_congr_mem' {α β : Type*} {f g : β → α → β} (l : List α) (h : ∀ b, ∀ a ∈ l, f b a = g b a) (b : β) :
    l.foldl f b = l.foldl g b := by
  induction l generalizing b with
  | nil => rfl
  | cons a l ih =>
    rw [List.foldl_cons, List.foldl_cons, h b a (by simp), ih fun b a ha => h b a (by simp [ha])]

theorem getD_lt_of_mem {shape idx : List ℕ} {B : ℕ} (hB : 0 < B) (hs : ∀ c ∈ shape, c ≤ B) (h : idx ∈ ndindex shape) (i : ℕ) :
    idx.getD i 0 < B := by
  have hf := mem_ndindex.mp h
  by_cases hi : i < idx.length
  · rw [List.getD_eq_getElem _ _ hi]
    rw [List.forall₂_iff_get] at hf
    have := hf.2 i hi (hf.1 ▸ hi)
    have h2 := hs (shape[i]'(hf.1 ▸ hi)) (List.getElem_mem _)
    simp only [List.get_eq_getElem] at this
    omega
  · rw [List.getD_eq_default _ _ (by omega)]; exact hB

theorem hermiteFillRenorm_congr (sq sq' : ℕ → K) (B : ℕ) (hB : 0 < B) (h : ∀ m < B, sq m = sq' m) (R : ℕ → ℕ → K) (y : ℕ → K)
    (shape : List ℕ) (hs : ∀ c ∈ shape, c ≤ B) (G : MArr K) :
    hermiteFillRenorm sq R y shape G = hermiteFillRenorm sq' R y shape G := by
  unfold hermiteFillRenorm
  apply foldl_congr_mem'
  intro G idx hidx
  have hm := List.mem_of_mem_drop hidx
  unfold hermiteStepRenorm
  simp only
  rw [h _ (getD_lt_of_mem hB hs hm _)]
  congr 2
  apply foldl_congr_mem'
  intro u lk _
  rw [h]
  rw [decAt_getD]
  have := getD_lt_of_mem hB hs hm lk.1
  omega

theorem interferometerFillRenorm_congr (sq sq' : ℕ → K) (B : ℕ) (hB : 0 < B) (h : ∀ m < B, sq m = sq' m) (dim : ℕ) (R : ℕ → ℕ → K)
    (shape : List ℕ) (hs : ∀ c ∈ shape, c ≤ B) (G : MArr K) :
    interferometerFillRenorm sq dim R shape G = interferometerFillRenorm sq' dim R shape G := by
  unfold interferometerFillRenorm
  apply foldl_congr_mem'
  intro G idx hidx
  have hm := List.mem_of_mem_drop hidx
  unfold interferometerStepRenorm
  simp only
  split
  · rw [h _ (getD_lt_of_mem hB hs hm _)]
    congr 2
    apply foldl_congr_mem'
    intro u lk _
    rw [h]
    rw [decAt_getD]
    have := getD_lt_of_mem hB hs hm lk.1
    omega
  · rfl

theorem gradStep_congr (sq sq' : ℕ → K) (B : ℕ) (hB : 0 < B) (h : ∀ m < B, sq m = sq' m) (R : ℕ → ℕ → K) (y : ℕ → K)
    (shape : List ℕ) (hs : ∀ c ∈ shape, c ≤ B) (G : MArr K) (s : GradState K) :
    ((ndindex shape).drop 1).foldl (gradStep sq sq R y G) s = ((ndindex shape).drop 1).foldl (gradStep sq' sq' R y G) s := by
  apply foldl_congr_mem'
  intro s idx hidx
  have hm := List.mem_of_mem_drop hidx
  unfold gradStep
  simp only
  rw [h _ (getD_lt_of_mem hB hs hm _)]
  have : ∀ (p0 : (ℕ → K) × (ℕ → ℕ → K)), (removeAll (decAt idx (firstPos idx))).foldl (fun (p : (ℕ → K) × (ℕ → ℕ → K)) lk =>
      (fun a => p.1 a - sq ((decAt idx (firstPos idx)).getD lk.1 0) * s.dy lk.2 a * R (firstPos idx) lk.1,
        fun a b => if a = firstPos idx ∧ b = lk.1
          then p.2 a b - sq ((decAt idx (firstPos idx)).getD lk.1 0) * R (firstPos idx) lk.1 * s.dR lk.2 a b
            - sq ((decAt idx (firstPos idx)).getD lk.1 0) * G lk.2
          else p.2 a b - sq ((decAt idx (firstPos idx)).getD lk.1 0) * R (firstPos idx) lk.1 * s.dR lk.2 a b)) p0
      = (removeAll (decAt idx (firstPos idx))).foldl (fun (p : (ℕ → K) × (ℕ → ℕ → K)) lk =>
      (fun a => p.1 a - sq' ((decAt idx (firstPos idx)).getD lk.1 0) * s.dy lk.2 a * R (firstPos idx) lk.1,
        fun a b => if a = firstPos idx ∧ b = lk.1
          then p.2 a b - sq' ((decAt idx (firstPos idx)).getD lk.1 0) * R (firstPos idx) lk.1 * s.dR lk.2 a b
            - sq' ((decAt idx (firstPos idx)).getD lk.1 0) * G lk.2
          else p.2 a b - sq' ((decAt idx (firstPos idx)).getD lk.1 0) * R (firstPos idx) lk.1 * s.dR lk.2 a b)) p0 := by
    intro p0
    apply foldl_congr_mem'
    intro u lk _
    rw [h]
    rw [decAt_getD]
    have := getD_lt_of_mem hB hs hm lk.1
    omega
  rw [this]

/-- recurrence of the renormalised values -/
theorem herm_rec_renorm (sq : ℕ → K) (hsq : ∀ m, 0 < m → sq m ≠ 0) (hsq2 : ∀ m, sq m * sq m = m) (R : ℕ → ℕ → K) (y : ℕ → K)
    {idx : List ℕ} (h : ∃ i, 0 < idx.getD i 0) :
    herm R y idx / sqFact sq idx = (y (firstPos idx) * (herm R y (decAt idx (firstPos idx)) / sqFact sq (decAt idx (firstPos idx)))
      - ((removeAll (decAt idx (firstPos idx))).map fun lk =>
        sq ((decAt idx (firstPos idx)).getD lk.1 0) * R (firstPos idx) lk.1 * (herm R y lk.2 / sqFact sq lk.2)).sum)
      / sq (idx.getD (firstPos idx) 0) := by
  obtain ⟨f1, f2, f3⟩ := firstPos_spec h
  rw [herm_rec R y h, sqFact_decAt sq idx _ f2]
  have hS := sqFact_ne_zero sq hsq (decAt idx (firstPos idx))
  have hq := hsq _ f2
  set S := sqFact sq (decAt idx (firstPos idx)) with hSdef
  have hterm : ((removeAll (decAt idx (firstPos idx))).map fun lk =>
      sq ((decAt idx (firstPos idx)).getD lk.1 0) * R (firstPos idx) lk.1 * (herm R y lk.2 / sqFact sq lk.2)).sum
      = (1 / S) * ((removeAll (decAt idx (firstPos idx))).map fun lk =>
      ((decAt idx (firstPos idx)).getD lk.1 0 : K) * R (firstPos idx) lk.1 * herm R y lk.2).sum := by
    rw [← List.sum_map_mul_left]
    congr 1
    apply List.map_congr_left
    intro lk hlk
    obtain ⟨j, hj, rfl⟩ := List.mem_map.mp hlk
    have hj' : 0 < (decAt idx (firstPos idx)).getD j 0 := by simpa using (List.mem_filter.mp hj).2
    have e := sqFact_decAt sq (decAt idx (firstPos idx)) j hj'
    have hS2 := sqFact_ne_zero sq hsq (decAt (decAt idx (firstPos idx)) j)
    have hqj := hsq _ hj'
    rw [hSdef, e, ← hsq2 ((decAt idx (firstPos idx)).getD j 0)]
    field_simp
  rw [hterm]
  field_simp

/-! ### derivatives -/

theorem foldl_dy (l : List (ℕ × List ℕ)) (f : ℕ × List ℕ → ℕ → K) (g : (ℕ → ℕ → K) → ℕ × List ℕ → (ℕ → ℕ → K))
    (p : (ℕ → K) × (ℕ → ℕ → K)) (a : ℕ) :
    (l.foldl (fun (p : (ℕ → K) × (ℕ → ℕ → K)) lk => (fun a => p.1 a - f lk a, g p.2 lk)) p).1 a = p.1 a - (l.map fun lk => f lk a).sum := by
  induction l generalizing p with
  | nil => simp
  | cons x l ih => rw [List.foldl_cons, ih, List.map_cons, List.sum_cons]; ring

theorem foldl_dR (l : List (ℕ × List ℕ)) (f : (ℕ → K) → ℕ × List ℕ → (ℕ → K)) (g : ℕ × List ℕ → ℕ → ℕ → K) (h : ℕ × List ℕ → ℕ → ℕ → K)
    (c : ℕ × List ℕ → ℕ → ℕ → Prop) [∀ lk a b, Decidable (c lk a b)]
    (p : (ℕ → K) × (ℕ → ℕ → K)) (a b : ℕ) :
    (l.foldl (fun (p : (ℕ → K) × (ℕ → ℕ → K)) lk => (f p.1 lk,
      fun a b => if c lk a b then p.2 a b - g lk a b - h lk a b else p.2 a b - g lk a b)) p).2 a b
      = p.2 a b - (l.map fun lk => g lk a b + if c lk a b then h lk a b else 0).sum := by
  induction l generalizing p with
  | nil => simp
  | cons x l ih =>
    rw [List.foldl_cons, ih, List.map_cons, List.sum_cons]
    simp only
    split <;> ring

theorem gradStep_dy (coef div : ℕ → K) (R : ℕ → ℕ → K) (y : ℕ → K) (G : MArr K) (s : GradState K) (idx : List ℕ) (a : ℕ) :
    (gradStep coef div R y G s idx).dy idx a = (y (firstPos idx) * s.dy (decAt idx (firstPos idx)) a
        + (if a = firstPos idx then G (decAt idx (firstPos idx)) else 0)
        - ((removeAll (decAt idx (firstPos idx))).map fun lk =>
          coef ((decAt idx (firstPos idx)).getD lk.1 0) * s.dy lk.2 a * R (firstPos idx) lk.1).sum) / div (idx.getD (firstPos idx) 0) := by
  unfold gradStep
  simp only [Function.update_self]
  congr 1
  rw [foldl_dy (removeAll (decAt idx (firstPos idx)))
    (fun lk a => coef ((decAt idx (firstPos idx)).getD lk.1 0) * s.dy lk.2 a * R (firstPos idx) lk.1)
    (fun p2 lk => fun a b => if a = firstPos idx ∧ b = lk.1 then p2 a b - coef ((decAt idx (firstPos idx)).getD lk.1 0) * R (firstPos idx) lk.1 * s.dR lk.2 a b
            - coef ((decAt idx (firstPos idx)).getD lk.1 0) * G lk.2 else p2 a b - coef ((decAt idx (firstPos idx)).getD lk.1 0) * R (firstPos idx) lk.1 * s.dR lk.2 a b)]
  congr 1
  simp only [Function.update_apply]
  split
  · rename_i h; rw [h]
  · ring

theorem gradStep_dR (coef div : ℕ → K) (R : ℕ → ℕ → K) (y : ℕ → K) (G : MArr K) (s : GradState K) (idx : List ℕ) (a b : ℕ) :
    (gradStep coef div R y G s idx).dR idx a b = (y (firstPos idx) * s.dR (decAt idx (firstPos idx)) a b
        - ((removeAll (decAt idx (firstPos idx))).map fun lk =>
          coef ((decAt idx (firstPos idx)).getD lk.1 0) * R (firstPos idx) lk.1 * s.dR lk.2 a b
          + if a = firstPos idx ∧ b = lk.1 then coef ((decAt idx (firstPos idx)).getD lk.1 0) * G lk.2 else 0).sum)
        / div (idx.getD (firstPos idx) 0) := by
  unfold gradStep
  simp only [Function.update_self]
  congr 1
  rw [foldl_dR (removeAll (decAt idx (firstPos idx)))
    (fun p1 lk => fun a => p1 a - coef ((decAt idx (firstPos idx)).getD lk.1 0) * s.dy lk.2 a * R (firstPos idx) lk.1)
    (fun lk a b => coef ((decAt idx (firstPos idx)).getD lk.1 0) * R (firstPos idx) lk.1 * s.dR lk.2 a b)
    (fun lk a b => coef ((decAt idx (firstPos idx)).getD lk.1 0) * G lk.2)
    (fun lk a b => a = firstPos idx ∧ b = lk.1)]

end

section deriv
variable {K : Type} [NontriviallyNormedField K]

theorem hasDerivAt_list_sum {α : Type*} (l : List α) (f : α → K → K) (f' : α → K) (t : K) (h : ∀ a ∈ l, HasDerivAt (f a) (f' a) t) :
    HasDerivAt (fun x => (l.map fun a => f a x).sum) (l.map f').sum t := by
  induction l with
  | nil => simpa using hasDerivAt_const t (0 : K)
  | cons a l ih =>
    simp only [List.map_cons, List.sum_cons]
    exact (h a (by simp)).fun_add (ih fun a ha => h a (by simp [ha]))

/-- the linear form `∑ dR[a,b] R'[a,b] + ∑ dy[a] y'[a]` -/
def linForm (n : ℕ) (R' : ℕ → ℕ → K) (y' : ℕ → K) (dR : ℕ → ℕ → K) (dy : ℕ → K) : K :=
  (∑ a ∈ Finset.range n, ∑ b ∈ Finset.range n, dR a b * R' a b) + ∑ a ∈ Finset.range n, dy a * y' a

theorem linForm_add (n : ℕ) (R' : ℕ → ℕ → K) (y' : ℕ → K) (dR1 dR2 : ℕ → ℕ → K) (dy1 dy2 : ℕ → K) :
    linForm n R' y' (fun a b => dR1 a b + dR2 a b) (fun a => dy1 a + dy2 a) = linForm n R' y' dR1 dy1 + linForm n R' y' dR2 dy2 := by
  unfold linForm
  simp only [add_mul, Finset.sum_add_distrib]
  ring

theorem linForm_smul (n : ℕ) (R' : ℕ → ℕ → K) (y' : ℕ → K) (c : K) (dR : ℕ → ℕ → K) (dy : ℕ → K) :
    linForm n R' y' (fun a b => c * dR a b) (fun a => c * dy a) = c * linForm n R' y' dR dy := by
  unfold linForm
  simp only [mul_assoc, ← Finset.mul_sum]
  ring

theorem linForm_sum {α : Type*} (n : ℕ) (R' : ℕ → ℕ → K) (y' : ℕ → K) (l : List α) (dR : α → ℕ → ℕ → K) (dy : α → ℕ → K) :
    linForm n R' y' (fun a b => (l.map fun x => dR x a b).sum) (fun a => (l.map fun x => dy x a).sum)
      = (l.map fun x => linForm n R' y' (dR x) (dy x)).sum := by
  induction l with
  | nil => simp [linForm]
  | cons x l ih =>
    simp only [List.map_cons, List.sum_cons]
    rw [linForm_add, ih]

theorem linForm_single (n : ℕ) (R' : ℕ → ℕ → K) (y' : ℕ → K) (i l : ℕ) (hi : i < n) (hl : l < n) (c d : K) :
    linForm n R' y' (fun a b => if a = i ∧ b = l then c else 0) (fun a => if a = i then d else 0) = c * R' i l + d * y' i := by
  unfold linForm
  congr 1
  · rw [Finset.sum_eq_single i]
    · rw [Finset.sum_eq_single l]
      · simp
      · intro b _ hb; simp [hb]
      · intro h; exact absurd (Finset.mem_range.mpr hl) h
    · intro a _ ha; simp [ha]
    · intro h; exact absurd (Finset.mem_range.mpr hi) h
  · rw [Finset.sum_eq_single i]
    · simp
    · intro b _ hb; simp [hb]
    · intro h; exact absurd (Finset.mem_range.mpr hi) h

/-- Generic gradient theorem: if the values satisfy the recurrence with coefficients `coef`, `div` at every `(R, y)`, the loop of the gradient
computes the derivative along any curve. -/
theorem gradFill_hasDerivAt (n : ℕ) (coef div : ℕ → K) (hdiv : ∀ m, 0 < m → div m ≠ 0)
    (H : (ℕ → ℕ → K) → (ℕ → K) → List ℕ → K)
    (hrec : ∀ R y idx, (∃ i, 0 < idx.getD i 0) → H R y idx = (y (firstPos idx) * H R y (decAt idx (firstPos idx))
      - ((removeAll (decAt idx (firstPos idx))).map fun lk =>
        coef ((decAt idx (firstPos idx)).getD lk.1 0) * R (firstPos idx) lk.1 * H R y lk.2).sum) / div (idx.getD (firstPos idx) 0))
    (C : K) (h0 : ∀ R y, H R y (List.replicate n 0) = C)
    (Rc : K → ℕ → ℕ → K) (yc : K → ℕ → K) (R' : ℕ → ℕ → K) (y' : ℕ → K) (t : K)
    (hRc : ∀ a < n, ∀ b < n, HasDerivAt (fun u => Rc u a b) (R' a b) t) (hyc : ∀ a < n, HasDerivAt (fun u => yc u a) (y' a) t)
    (shape : List ℕ) (hlen : shape.length = n) (hs : ∀ c ∈ shape, c ≠ 0) (G : MArr K) (hG : ∀ k ∈ ndindex shape, G k = H (Rc t) (yc t) k)
    (s0 : GradState K) (hs0R : s0.dR (List.replicate n 0) = fun _ _ => 0) (hs0y : s0.dy (List.replicate n 0) = fun _ => 0) :
    ∀ k ∈ ndindex shape, HasDerivAt (fun u => H (Rc u) (yc u) k)
      (linForm n R' y' ((((ndindex shape).drop 1).foldl (gradStep coef div (Rc t) (yc t) G) s0).dR k)
        ((((ndindex shape).drop 1).foldl (gradStep coef div (Rc t) (yc t) G) s0).dy k)) t := by
  obtain ⟨rest, hr⟩ := ndindex_head shape hs
  have hpw := ndindex_pairwise shape
  rw [hr] at hpw
  intro k hk
  have key := fill_spec (S := GradState K) (V := Prop)
    (fun s k => HasDerivAt (fun u => H (Rc u) (yc u) k) (linForm n R' y' (s.dR k) (s.dy k)) t)
    (gradStep coef div (Rc t) (yc t) G) s0 (fun _ => True) _ rest hpw ?_ ?_ ?_ k (hr ▸ hk)
  · rw [hr, List.drop_one, List.tail_cons]
    exact of_eq_true key
  · apply eq_true
    rw [hlen, hs0R, hs0y]
    simp only [h0]
    have : linForm n R' y' (fun _ _ => 0) (fun _ => 0) = 0 := by simp [linForm]
    rw [this]
    exact hasDerivAt_const t C
  · intro s idx k hk
    simp only [gradStep, Function.update_of_ne hk]
  · intro s idx hidx _ hdep
    apply eq_true
    obtain ⟨d1, d2⟩ := deps_ok hr hidx (rd := fun k => HasDerivAt (fun u => H (Rc u) (yc u) k) (linForm n R' y' (s.dR k) (s.dy k)) t)
      (spec := fun _ => True) hdep
    obtain ⟨g1, g2⟩ := deps_ok hr hidx (rd := G) (spec := fun k => H (Rc t) (yc t) k) (fun k hk _ _ => hG k (hr ▸ hk))
    have d1 := of_eq_true d1
    have d2 := fun lk hlk => of_eq_true (d2 lk hlk)
    have hnz := nonzero_of_mem_rest hr hidx
    obtain ⟨f1, f2, f3⟩ := firstPos_spec hnz
    have hm : idx ∈ ndindex shape := by rw [hr]; simp [hidx]
    have hil := (mem_ndindex.mp hm).length_eq
    have hin : firstPos idx < n := by omega
    have hlk : ∀ lk ∈ removeAll (decAt idx (firstPos idx)), lk.1 < n := by
      intro lk h
      obtain ⟨j, hj, rfl⟩ := List.mem_map.mp h
      have := List.mem_range.mp (List.mem_filter.mp hj).1
      rw [decAt_length] at this
      show j < n
      omega
    have hfun : (fun u => H (Rc u) (yc u) idx) = fun u => (yc u (firstPos idx) * H (Rc u) (yc u) (decAt idx (firstPos idx))
      - ((removeAll (decAt idx (firstPos idx))).map fun lk =>
        coef ((decAt idx (firstPos idx)).getD lk.1 0) * Rc u (firstPos idx) lk.1 * H (Rc u) (yc u) lk.2).sum)
        / div (idx.getD (firstPos idx) 0) := by
      funext u; exact hrec _ _ _ hnz
    rw [hfun]
    have hd : HasDerivAt (fun u => (yc u (firstPos idx) * H (Rc u) (yc u) (decAt idx (firstPos idx))
      - ((removeAll (decAt idx (firstPos idx))).map fun lk =>
        coef ((decAt idx (firstPos idx)).getD lk.1 0) * Rc u (firstPos idx) lk.1 * H (Rc u) (yc u) lk.2).sum)
        / div (idx.getD (firstPos idx) 0)) ((y' (firstPos idx) * H (Rc t) (yc t) (decAt idx (firstPos idx))
          + yc t (firstPos idx) * linForm n R' y' (s.dR (decAt idx (firstPos idx))) (s.dy (decAt idx (firstPos idx)))
          - ((removeAll (decAt idx (firstPos idx))).map fun lk =>
            coef ((decAt idx (firstPos idx)).getD lk.1 0) * R' (firstPos idx) lk.1 * H (Rc t) (yc t) lk.2
            + coef ((decAt idx (firstPos idx)).getD lk.1 0) * Rc t (firstPos idx) lk.1 * linForm n R' y' (s.dR lk.2) (s.dy lk.2)).sum)
          / div (idx.getD (firstPos idx) 0)) t := by
      have hM : HasDerivAt (fun u => yc u (firstPos idx) * H (Rc u) (yc u) (decAt idx (firstPos idx)))
          (y' (firstPos idx) * H (Rc t) (yc t) (decAt idx (firstPos idx))
          + yc t (firstPos idx) * linForm n R' y' (s.dR (decAt idx (firstPos idx))) (s.dy (decAt idx (firstPos idx)))) t :=
        (hyc _ hin).fun_mul d1
      have hS := hasDerivAt_list_sum (removeAll (decAt idx (firstPos idx)))
        (fun lk u => coef ((decAt idx (firstPos idx)).getD lk.1 0) * Rc u (firstPos idx) lk.1 * H (Rc u) (yc u) lk.2)
        (fun lk => coef ((decAt idx (firstPos idx)).getD lk.1 0) * R' (firstPos idx) lk.1 * H (Rc t) (yc t) lk.2
            + coef ((decAt idx (firstPos idx)).getD lk.1 0) * Rc t (firstPos idx) lk.1 * linForm n R' y' (s.dR lk.2) (s.dy lk.2)) t
        (fun lk hl => ((hRc _ hin _ (hlk lk hl)).const_mul _).fun_mul (d2 lk hl))
      exact (hM.fun_sub hS).div_const _
    refine hd.congr_deriv ?_
    have e1 : (gradStep coef div (Rc t) (yc t) G s idx).dR idx = fun a b => (1 / div (idx.getD (firstPos idx) 0)) *
        ((yc t (firstPos idx) * s.dR (decAt idx (firstPos idx)) a b + (if a = firstPos idx ∧ b = firstPos idx then (0 : K) else 0))
        + (-1) * ((removeAll (decAt idx (firstPos idx))).map fun lk =>
          coef ((decAt idx (firstPos idx)).getD lk.1 0) * Rc t (firstPos idx) lk.1 * s.dR lk.2 a b
          + if a = firstPos idx ∧ b = lk.1 then coef ((decAt idx (firstPos idx)).getD lk.1 0) * H (Rc t) (yc t) lk.2 else 0).sum) := by
      funext a b
      rw [gradStep_dR]
      have : ((removeAll (decAt idx (firstPos idx))).map fun lk =>
          coef ((decAt idx (firstPos idx)).getD lk.1 0) * Rc t (firstPos idx) lk.1 * s.dR lk.2 a b
          + if a = firstPos idx ∧ b = lk.1 then coef ((decAt idx (firstPos idx)).getD lk.1 0) * G lk.2 else 0)
          = ((removeAll (decAt idx (firstPos idx))).map fun lk =>
          coef ((decAt idx (firstPos idx)).getD lk.1 0) * Rc t (firstPos idx) lk.1 * s.dR lk.2 a b
          + if a = firstPos idx ∧ b = lk.1 then coef ((decAt idx (firstPos idx)).getD lk.1 0) * H (Rc t) (yc t) lk.2 else 0) := by
        apply List.map_congr_left
        intro lk hl; rw [g2 lk hl]
      rw [this]
      simp only [ite_self]
      ring
    have e2 : (gradStep coef div (Rc t) (yc t) G s idx).dy idx = fun a => (1 / div (idx.getD (firstPos idx) 0)) *
        ((yc t (firstPos idx) * s.dy (decAt idx (firstPos idx)) a
          + (if a = firstPos idx then H (Rc t) (yc t) (decAt idx (firstPos idx)) else 0))
        + (-1) * ((removeAll (decAt idx (firstPos idx))).map fun lk =>
          coef ((decAt idx (firstPos idx)).getD lk.1 0) * Rc t (firstPos idx) lk.1 * s.dy lk.2 a
          + if a = firstPos idx then (0 : K) else 0).sum) := by
      funext a
      rw [gradStep_dy, g1]
      simp only [ite_self, add_zero]
      have : ((removeAll (decAt idx (firstPos idx))).map fun lk =>
          coef ((decAt idx (firstPos idx)).getD lk.1 0) * s.dy lk.2 a * Rc t (firstPos idx) lk.1)
          = ((removeAll (decAt idx (firstPos idx))).map fun lk =>
          coef ((decAt idx (firstPos idx)).getD lk.1 0) * Rc t (firstPos idx) lk.1 * s.dy lk.2 a) := by
        apply List.map_congr_left
        intro lk hl; ring
      rw [this]
      ring
    rw [e1, e2, linForm_smul, linForm_add, linForm_add, linForm_smul, linForm_smul, linForm_single _ _ _ _ _ hin hin, linForm_sum]
    have e3 : ((removeAll (decAt idx (firstPos idx))).map fun lk => linForm n R' y'
          (fun a b => coef ((decAt idx (firstPos idx)).getD lk.1 0) * Rc t (firstPos idx) lk.1 * s.dR lk.2 a b
          + if a = firstPos idx ∧ b = lk.1 then coef ((decAt idx (firstPos idx)).getD lk.1 0) * H (Rc t) (yc t) lk.2 else 0)
          (fun a => coef ((decAt idx (firstPos idx)).getD lk.1 0) * Rc t (firstPos idx) lk.1 * s.dy lk.2 a
          + if a = firstPos idx then (0 : K) else 0))
        = ((removeAll (decAt idx (firstPos idx))).map fun lk =>
          coef ((decAt idx (firstPos idx)).getD lk.1 0) * R' (firstPos idx) lk.1 * H (Rc t) (yc t) lk.2
            + coef ((decAt idx (firstPos idx)).getD lk.1 0) * Rc t (firstPos idx) lk.1 * linForm n R' y' (s.dR lk.2) (s.dy lk.2)) := by
      apply List.map_congr_left
      intro lk hl
      rw [linForm_add, linForm_smul, linForm_single _ _ _ _ _ hin (hlk lk hl)]
      ring
    rw [e3]
    ring

end deriv
end Verif.Model
