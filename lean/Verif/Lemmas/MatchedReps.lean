/- `matched_reps` returns a pairing of the multiset of repeated vertices. -/
import Verif.Model.Hafnian
import Verif.Spec.Matching
import Mathlib.Data.List.Perm.Basic
import Mathlib.Data.List.Sort

set_option linter.unusedSectionVars false
set_option linter.unusedSimpArgs false

namespace Verif
open Model

/-- vertices with multiplicity of a `(reps, x)` list -/
def vl (l : List (ℕ × ℕ)) : List ℕ := l.flatMap fun p => List.replicate p.1 p.2
/-- end points with multiplicity of an edge list -/
def el (l : List (ℕ × ℕ × ℕ)) : List ℕ := l.flatMap fun p => List.replicate p.2.2 p.1 ++ List.replicate p.2.2 p.2.1

theorem vl_cons (p : ℕ × ℕ) (l) : vl (p :: l) = List.replicate p.1 p.2 ++ vl l := by simp [vl]
theorem el_append (l l') : el (l ++ l') = el l ++ el l' := by simp [el]
theorem el_single (a b r : ℕ) : el [(a, b, r)] = List.replicate r a ++ List.replicate r b := by simp [el]

theorem vl_perm {l l' : List (ℕ × ℕ)} (h : l.Perm l') : (vl l).Perm (vl l') := List.Perm.flatMap_right _ h

theorem geLex_total (a b : ℕ × ℕ) : (geLex a b || geLex b a) = true := by
  simp only [geLex, Bool.or_eq_true, Bool.and_eq_true, decide_eq_true_eq, beq_iff_eq]; omega

theorem geLex_trans (a b c : ℕ × ℕ) : geLex a b = true → geLex b c = true → geLex a c = true := by
  simp only [geLex, Bool.or_eq_true, Bool.and_eq_true, decide_eq_true_eq, beq_iff_eq]; omega

theorem count_step_self_even (r x : ℕ) (h : r % 2 = 0) (R : List ℕ) (El : List ℕ) :
    (El ++ (List.replicate (r / 2) x ++ List.replicate (r / 2) x) ++ R).Perm (El ++ (List.replicate r x ++ R)) := by
  rw [← List.replicate_add, show r / 2 + r / 2 = r by omega, List.append_assoc]

theorem count_step_self_odd (r x : ℕ) (h : ¬ r % 2 = 0) (R : List ℕ) (El : List ℕ) :
    (El ++ (List.replicate (r / 2) x ++ List.replicate (r / 2) x) ++ (List.replicate 1 x ++ R)).Perm (El ++ (List.replicate r x ++ R)) := by
  rw [← List.replicate_add, List.append_assoc, ← List.append_assoc (List.replicate _ x) (List.replicate 1 x),
    ← List.replicate_add, show r / 2 + r / 2 + 1 = r by omega]

theorem matchLoop_spec (fuel : ℕ) (l : List (ℕ × ℕ)) (edges : List (ℕ × ℕ × ℕ)) (hl : ∀ p ∈ l, 0 < p.1)
    (he : ∀ p ∈ edges, 0 < p.2.2) (hf : (l.map (·.1)).sum < fuel) :
    ∃ edges' l', matchLoop fuel l edges = .ok (edges', l') ∧ (el edges' ++ vl l').Perm (el edges ++ vl l) ∧
      (l' = [] ∨ ∃ x, l' = [(1, x)]) ∧ (∀ p ∈ edges', 0 < p.2.2) := by
  induction fuel generalizing l edges with
  | zero => omega
  | succ fuel ih =>
    unfold matchLoop
    by_cases hc : l.length > 1 ∨ (l.length = 1 ∧ (l.headD (0, 0)).1 > 1)
    · rw [if_pos hc]
      have hp := List.mergeSort_perm l geLex
      have hsorted := List.pairwise_mergeSort geLex_trans geLex_total l
      have hsum : ((l.mergeSort geLex).map (·.1)).sum = (l.map (·.1)).sum := (hp.map _).sum_eq
      have hpos : ∀ p ∈ l.mergeSort geLex, 0 < p.1 := fun p h => hl p (hp.mem_iff.1 h)
      have hvl := vl_perm hp
      have hlen := hp.length_eq
      have hhead : l.length = 1 → l.mergeSort geLex = l := by
        intro h1
        match l, h1 with
        | [a], _ => simp
      generalize l.mergeSort geLex = L at *
      match L with
      | [] => simp at hlen; omega
      | [(r0, x0)] =>
        simp only
        have hl1 : l.length = 1 := by simpa using hlen.symm
        have hL := hhead hl1
        have hr0 : r0 > 1 := by
          rcases hc with hc | hc
          · omega
          · rw [← hL] at hc; simpa using hc.2
        have hs : (l.map (·.1)).sum = r0 := by rw [← hsum]; simp
        by_cases hpar : r0 % 2 = 0
        · rw [if_pos hpar]
          obtain ⟨e', l', h1, h2, h3, h4⟩ := ih [] (edges ++ [(x0, x0, r0 / 2)]) (by simp)
            (by intro p hp; rcases List.mem_append.1 hp with hp | hp
                · exact he p hp
                · simp at hp; subst hp; simp; omega) (by simp; omega)
          refine ⟨e', l', h1, h2.trans ?_, h3, h4⟩
          refine List.Perm.trans ?_ (hvl.append_left (el edges))
          rw [el_append, el_single, vl_cons]
          exact count_step_self_even r0 x0 hpar _ _
        · rw [if_neg hpar]
          obtain ⟨e', l', h1, h2, h3, h4⟩ := ih [(1, x0)] (edges ++ [(x0, x0, r0 / 2)]) (by simp)
            (by intro p hp; rcases List.mem_append.1 hp with hp | hp
                · exact he p hp
                · simp at hp; subst hp; simp; omega) (by simp; omega)
          refine ⟨e', l', h1, h2.trans ?_, h3, h4⟩
          refine List.Perm.trans ?_ (hvl.append_left (el edges))
          rw [el_append, el_single, vl_cons, vl_cons]
          exact count_step_self_odd r0 x0 hpar _ _
      | (r0, x0) :: (r1, x1) :: rest =>
        simp only
        have hs : (l.map (·.1)).sum = r0 + (r1 + (rest.map (·.1)).sum) := by rw [← hsum]; simp
        have hr0 : 0 < r0 := hpos (r0, x0) (by simp)
        have hr1 : 0 < r1 := hpos (r1, x1) (by simp)
        have hrest : ∀ p ∈ rest, 0 < p.1 := fun p h => hpos p (by simp [h])
        by_cases hbig : r0 > r1 * 2
        · rw [if_pos hbig]
          by_cases hpar : r0 % 2 = 0
          · rw [if_pos hpar]
            obtain ⟨e', l', h1, h2, h3, h4⟩ := ih ((r1, x1) :: rest) (edges ++ [(x0, x0, r0 / 2)])
              (by intro p hp; exact hpos p (List.mem_cons_of_mem _ hp))
              (by intro p hp; rcases List.mem_append.1 hp with hp | hp
                  · exact he p hp
                  · simp at hp; subst hp; simp; omega) (by simp; omega)
            refine ⟨e', l', h1, h2.trans ?_, h3, h4⟩
            refine List.Perm.trans ?_ (hvl.append_left (el edges))
            rw [el_append, el_single, vl_cons (r0, x0)]
            exact count_step_self_even r0 x0 hpar _ _
          · rw [if_neg hpar]
            obtain ⟨e', l', h1, h2, h3, h4⟩ := ih ((1, x0) :: (r1, x1) :: rest) (edges ++ [(x0, x0, r0 / 2)])
              (by intro p hp
                  rcases List.mem_cons.1 hp with rfl | hp
                  · simp
                  · exact hpos p (List.mem_cons_of_mem _ hp))
              (by intro p hp; rcases List.mem_append.1 hp with hp | hp
                  · exact he p hp
                  · simp at hp; subst hp; simp; omega) (by simp; omega)
            refine ⟨e', l', h1, h2.trans ?_, h3, h4⟩
            refine List.Perm.trans ?_ (hvl.append_left (el edges))
            rw [el_append, el_single, vl_cons (r0, x0), vl_cons (1, x0)]
            exact count_step_self_odd r0 x0 hpar _ _
        · rw [if_neg hbig]
          have hge : r1 ≤ r0 := by
            have := List.rel_of_pairwise_cons hsorted (a' := (r1, x1)) (by simp)
            simp only [geLex, Bool.or_eq_true, Bool.and_eq_true, decide_eq_true_eq, beq_iff_eq] at this; omega
          by_cases hgt : r0 > r1
          · rw [if_pos hgt]
            obtain ⟨e', l', h1, h2, h3, h4⟩ := ih ((r0 - r1, x0) :: rest) (edges ++ [(x0, x1, r1)])
              (by intro p hp
                  rcases List.mem_cons.1 hp with rfl | hp
                  · simp; omega
                  · exact hrest p hp)
              (by intro p hp; rcases List.mem_append.1 hp with hp | hp
                  · exact he p hp
                  · simp at hp; subst hp; simpa) (by simp; omega)
            refine ⟨e', l', h1, h2.trans ?_, h3, h4⟩
            refine List.Perm.trans ?_ (hvl.append_left (el edges))
            rw [el_append, el_single, vl_cons (r0, x0), vl_cons (r1, x1), vl_cons]
            rw [List.perm_iff_count]
            intro a
            simp only [List.count_append, List.count_replicate]
            split <;> split <;> omega
          · rw [if_neg hgt]
            have : r0 = r1 := by omega
            subst this
            obtain ⟨e', l', h1, h2, h3, h4⟩ := ih rest (edges ++ [(x0, x1, r0)]) hrest
              (by intro p hp; rcases List.mem_append.1 hp with hp | hp
                  · exact he p hp
                  · simp at hp; subst hp; simpa) (by omega)
            refine ⟨e', l', h1, h2.trans ?_, h3, h4⟩
            refine List.Perm.trans ?_ (hvl.append_left (el edges))
            rw [el_append, el_single, vl_cons (r0, x0), vl_cons (r0, x1)]
            simp only [List.append_assoc]
            exact List.Perm.refl _
    · rw [if_neg hc]
      refine ⟨edges, l, rfl, List.Perm.refl _, ?_, he⟩
      push Not at hc
      obtain ⟨h1, h2⟩ := hc
      match l, h1 with
      | [], _ => left; rfl
      | [p], _ =>
        right
        have := h2 rfl
        have hp := hl p (by simp)
        simp at this
        exact ⟨p.2, by rw [show (1 : ℕ) = p.1 by omega]⟩

theorem filter_pos_vl (l : List (ℕ × ℕ)) : vl (l.filter fun p => p.1 > 0) = vl l := by
  induction l with
  | nil => rfl
  | cons p l ih =>
    rw [List.filter_cons, vl_cons]
    split
    · rw [vl_cons, ih]
    · rename_i h
      have : p.1 = 0 := by simpa using h
      rw [ih, this]; simp

theorem vl_zip_range (reps : List ℕ) : vl (reps.zip (List.range reps.length)) = Spec.repeatedIndices reps := by
  have : reps.zip (List.range reps.length) = (List.range reps.length).map fun i => (reps.getD i 0, i) := by
    apply List.ext_getElem
    · simp
    · intro i h1 h2
      have : i < reps.length := by simpa using h2
      simp [List.getD_eq_getElem?_getD, this]
  rw [this, vl, List.flatMap_map]; rfl

/-- Specification of the result of `matched_reps`. -/
theorem matchedReps_spec (reps : List ℕ) :
    ∃ edges odd, matchedReps reps = .ok (edges.map (·.1) ++ edges.map (·.2.1), edges.map (·.2.2), odd) ∧
      (el edges ++ odd.toList).Perm (Spec.repeatedIndices reps) ∧ (∀ p ∈ edges, 0 < p.2.2) := by
  unfold matchedReps
  by_cases h0 : reps.sum = 0
  · rw [if_pos h0]
    refine ⟨[], none, rfl, ?_, by simp⟩
    have : Spec.repeatedIndices reps = [] := by
      rw [Spec.repeatedIndices, List.flatMap_eq_nil_iff]
      intro i hi
      have hi : i < reps.length := by simpa using hi
      have : reps.getD i 0 = 0 := by
        have := List.sum_eq_zero_iff.1 h0 (reps[i]) (List.getElem_mem hi)
        simp [List.getD_eq_getElem?_getD, hi, this]
      rw [this]; rfl
    rw [this]; simp [el]
  · rw [if_neg h0]
    set l0 := ((reps.zip (List.range reps.length)).mergeSort geLex).filter fun p => p.1 > 0 with hl0
    have hvl : (vl l0).Perm (Spec.repeatedIndices reps) := by
      rw [hl0, filter_pos_vl, ← vl_zip_range]
      exact vl_perm (List.mergeSort_perm _ _)
    have hsum : (l0.map (·.1)).sum = reps.sum := by
      have h1 : ∀ l : List (ℕ × ℕ), ((l.filter fun p => p.1 > 0).map (·.1)).sum = (l.map (·.1)).sum := by
        intro l
        induction l with
        | nil => rfl
        | cons p l ih =>
          rw [List.filter_cons]
          split
          · simp [ih]
          · rename_i h
            have : p.1 = 0 := by simpa using h
            simp [ih, this]
      rw [hl0, h1, ((List.mergeSort_perm _ _).map _).sum_eq]
      rw [List.map_fst_zip]; simp
    obtain ⟨e', l', h1, h2, h3, h4⟩ := matchLoop_spec (reps.sum + 1) l0 [] (by
      intro p hp; rw [hl0, List.mem_filter] at hp; simpa using hp.2) (by simp) (by omega)
    have hvl0 : (el [] ++ vl l0).Perm (Spec.repeatedIndices reps) := by simpa [el] using hvl
    rcases h3 with rfl | ⟨x, rfl⟩
    · refine ⟨e', none, ?_, ?_, h4⟩
      · simp only [← hl0, h1]; rfl
      · simpa [vl] using h2.trans hvl0
    · refine ⟨e', some x, ?_, ?_, h4⟩
      · simp only [← hl0, h1]; rfl
      · simpa [vl] using h2.trans hvl0

theorem repeatedIndices_length (reps : List ℕ) : (Spec.repeatedIndices reps).length = reps.sum := by
  rw [Spec.repeatedIndices, List.length_flatMap]
  simp only [List.length_replicate]
  congr 1
  apply List.ext_getElem
  · simp
  · intro i h1 h2; simp [List.getD_eq_getElem?_getD, h2]

theorem repeatedIndices_lt {reps : List ℕ} {i : ℕ} (h : i ∈ Spec.repeatedIndices reps) : i < reps.length := by
  rw [Spec.repeatedIndices, List.mem_flatMap] at h
  obtain ⟨j, hj, h⟩ := h
  rw [List.mem_replicate] at h
  rw [h.2]; simpa using hj

theorem el_length (edges : List (ℕ × ℕ × ℕ)) : (el edges).length = 2 * (edges.map (·.2.2)).sum := by
  induction edges with
  | nil => rfl
  | cons p l ih =>
    have : el (p :: l) = el [p] ++ el l := el_append [p] l
    rw [this, List.length_append, ih]
    have : el [p] = List.replicate p.2.2 p.1 ++ List.replicate p.2.2 p.2.1 := el_single p.1 p.2.1 p.2.2
    rw [this]; simp; ring

end Verif
