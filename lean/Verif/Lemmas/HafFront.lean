/- `_haf` and `loop_hafnian` compute the (loop) hafnian of the repeated matrix. -/
import Verif.Lemmas.Sieve
import Verif.Lemmas.MatchedReps
import Verif.Lemmas.LhafSpec

set_option linter.unusedSectionVars false
set_option linter.unusedSimpArgs false

namespace Verif
open Model

section odd
variable {ι : Type*} {K : Type*} [CommRing K]

theorem lh_odd_zero (A : ι → ι → K) (l : List ι) (h : l.length % 2 = 1) : lh (fun _ => 0) A l = 0 := by
  induction hn : l.length using Nat.strong_induction_on generalizing l with
  | _ n ih =>
    cases l with
    | nil => simp at h
    | cons x xs =>
      rw [lh_cons, zero_mul, zero_add]
      rw [eSum_congr (G := fun _ _ => 0), eSum_zero]
      intro y ys hy
      rw [ih ys.length (by simp at hn; omega) ys (by simp at h; omega) rfl, mul_zero]

end odd

variable {K : Type} [Field K] [CharZero K]

section label
variable (edges : List (ℕ × ℕ × ℕ)) (o : ℕ)

/-- original vertex of an instance vertex -/
def vlabel : Vtx edges.length → ℕ
  | none => o
  | some (.inl e) => (edges[e]).1
  | some (.inr e) => (edges[e]).2.1

def erep (e : Fin edges.length) : ℕ := (edges[e]).2.2

theorem erep_ofFn : edges.map (·.2.2) = List.ofFn (erep edges) := by
  apply List.ext_getElem
  · simp
  · intro i h1 h2; simp [erep]

theorem edgeList_label : (edgeList (erep edges)).map (vlabel edges o) = el edges := by
  rw [edgeList, List.map_flatMap, el]
  conv_rhs => rw [← map_finRange_get edges, List.flatMap_map]
  apply List.flatMap_congr
  intro e _
  simp [vlabel, erep]

theorem getD_pos (a : Fin edges.length ⊕ Fin edges.length) :
    (edges.map (·.1) ++ edges.map (·.2.1)).getD (pos a) 0 = vlabel edges o (some a) := by
  rcases a with e | e
  · simp [pos, vlabel, List.getD_eq_getElem?_getD, List.getElem?_append_left]
  · simp [pos, vlabel, List.getD_eq_getElem?_getD, List.getElem?_append_right]

end label

/-- entries outside the matrix replaced by zero -/
def A0 (n : ℕ) (A : ℕ → ℕ → K) : ℕ → ℕ → K := fun i j => if i < n ∧ j < n then A i j else 0

theorem A0_symm (n : ℕ) (A : ℕ → ℕ → K) (hs : ∀ i < n, ∀ j < n, A i j = A j i) (i j : ℕ) : A0 n A i j = A0 n A j i := by
  unfold A0
  by_cases h : i < n ∧ j < n
  · rw [if_pos h, if_pos h.symm, hs i h.1 j h.2]
  · rw [if_neg h, if_neg (fun h' => h h'.symm)]

theorem lh_A0 (n : ℕ) (D : ℕ → K) (A : ℕ → ℕ → K) (l : List ℕ) (hl : ∀ i ∈ l, i < n) : lh D (A0 n A) l = lh D A l :=
  lh_congr (fun _ _ => rfl) fun i hi j hj => by simp [A0, hl i hi, hl j hj]

theorem el_mem_left {edges : List (ℕ × ℕ × ℕ)} (h : ∀ p ∈ edges, 0 < p.2.2) {p} (hp : p ∈ edges) : p.1 ∈ el edges := by
  rw [el, List.mem_flatMap]; exact ⟨p, hp, by simp [(h p hp).ne']⟩
theorem el_mem_right {edges : List (ℕ × ℕ × ℕ)} (h : ∀ p ∈ edges, 0 < p.2.2) {p} (hp : p ∈ edges) : p.2.1 ∈ el edges := by
  rw [el, List.mem_flatMap]; exact ⟨p, hp, by simp [(h p hp).ne']⟩

theorem vlabel_lt (n : ℕ) {edges : List (ℕ × ℕ × ℕ)} (h : ∀ p ∈ edges, 0 < p.2.2) (hlt : ∀ i ∈ el edges, i < n) (o : ℕ)
    (a : Fin edges.length ⊕ Fin edges.length) : vlabel edges o (some a) < n := by
  rcases a with e | e
  · exact hlt _ (el_mem_left h (List.getElem_mem e.2))
  · exact hlt _ (el_mem_right h (List.getElem_mem e.2))

/-- `_haf`. -/
theorem hafFront_eq {pt : PowerTrace K} (hpt : PTSpec pt) (n : ℕ) (A : ℕ → ℕ → K)
    (hs : ∀ i < n, ∀ j < n, A i j = A j i) (reps : List ℕ) (hn : reps.length = n) (g : Bool) :
    hafFront pt n A (some reps) g = .ok (lh (fun _ => 0) A (Spec.repeatedIndices reps)) := by
  have hlen := repeatedIndices_length reps
  simp only [hafFront, Option.getD_some]
  by_cases h0 : reps.sum = 0
  · rw [if_pos h0]
    have : Spec.repeatedIndices reps = [] := List.eq_nil_of_length_eq_zero (by omega)
    rw [this]; rfl
  · rw [if_neg h0]
    by_cases h1 : reps.sum % 2 = 1
    · rw [if_pos h1, lh_odd_zero _ _ (by omega)]
    · rw [if_neg h1, if_neg (by omega)]
      obtain ⟨edges, odd, hm, hp, hpos⟩ := matchedReps_spec reps
      rw [hm]
      have hodd : odd = none := by
        have h2 := hp.length_eq
        rw [List.length_append, el_length, hlen] at h2
        cases odd with
        | none => rfl
        | some o => simp at h2; omega
      subst hodd
      have hp' : (el edges).Perm (Spec.repeatedIndices reps) := by simpa using hp
      have hlt : ∀ i ∈ el edges, i < n := fun i hi => hn ▸ repeatedIndices_lt (hp'.mem_iff.1 hi)
      have hE : (edges.map (·.2.2)).sum = reps.sum / 2 := by
        have := hp'.length_eq; rw [el_length, hlen] at this; omega
      have hr : ∑ e, erep edges e = reps.sum / 2 := by rw [← List.sum_ofFn, ← erep_ofFn, hE]
      have hEpos : 0 < edges.length := by
        rcases Nat.eq_zero_or_pos edges.length with h | h
        · rw [List.length_eq_zero_iff] at h; subst h; simp at hE; omega
        · exact h
      show Except.ok _ = _
      congr 1
      rw [erep_ofFn]
      rw [calcHafnian_eq (fun i j => A ((edges.map (·.1) ++ edges.map (·.2.1)).getD i 0) ((edges.map (·.1) ++ edges.map (·.2.1)).getD j 0))
        (Matrix.of fun a b => A0 n A (vlabel edges 0 a) (vlabel edges 0 b)) ?_ (fun a b => A0_symm n A hs _ _) hpt
        (erep edges) hEpos (by omega) g]
      · have := lh_map (fun _ => (0 : K)) (A0 n A) (vlabel edges 0) (edgeList (erep edges))
        have e2 : lh (fun _ => 0) (Matrix.of fun a b => A0 n A (vlabel edges 0 a) (vlabel edges 0 b)) (edgeList (erep edges))
            = lh (fun _ => 0) (A0 n A) (el edges) := by rw [← edgeList_label edges 0, this]; rfl
        rw [e2, lh_perm _ _ (A0_symm n A hs) hp', lh_A0]
        intro i hi; exact hn ▸ repeatedIndices_lt hi
      · intro a b
        rw [getD_pos edges 0, getD_pos edges 0]
        simp only [Matrix.of_apply, A0, vlabel_lt n hpos hlt 0 a, vlabel_lt n hpos hlt 0 b, and_self, if_true]

/-- `loop_hafnian`. -/
theorem loopHafnian_eq {pt : PowerTrace K} (hpt : PTSpec pt) (n : ℕ) (A : ℕ → ℕ → K) (D : ℕ → K)
    (hs : ∀ i < n, ∀ j < n, A i j = A j i) (reps : List ℕ) (hn : reps.length = n) (g : Bool) :
    loopHafnian pt n A (some (n, D)) (some reps) g = .ok (lh D A (Spec.repeatedIndices reps)) := by
  have hlen := repeatedIndices_length reps
  simp only [loopHafnian, Option.getD_some]
  by_cases h0 : reps.sum = 0
  · rw [if_pos h0]
    have : Spec.repeatedIndices reps = [] := List.eq_nil_of_length_eq_zero (by omega)
    rw [this]; rfl
  · rw [if_neg h0]
    by_cases h1 : reps.sum = 1
    · rw [if_pos h1]
      have hl1 : (Spec.repeatedIndices reps).length = 1 := by omega
      obtain ⟨v, hv⟩ := List.length_eq_one_iff.1 hl1
      have hmem : v ∈ Spec.repeatedIndices reps := by rw [hv]; simp
      have hvlt := repeatedIndices_lt hmem
      have hcount : ∀ i < reps.length, (Spec.repeatedIndices reps).count i = reps.getD i 0 := by
        intro i hi
        rw [Spec.repeatedIndices, List.count_flatMap]
        have : ∀ m, i < m → ((List.range m).map (List.count i ∘ fun j => List.replicate (reps.getD j 0) j)).sum = reps.getD i 0 := by
          intro m hm
          induction m with
          | zero => omega
          | succ m ih =>
            rw [List.range_succ, List.map_append, List.sum_append]
            rcases Nat.lt_or_ge i m with h | h
            · rw [ih h]
              have : m ≠ i := by omega
              simp [List.count_replicate, this]
            · have : i = m := by omega
              subst this
              have hz : ((List.range i).map (List.count i ∘ fun j => List.replicate (reps.getD j 0) j)).sum = 0 := by
                apply List.sum_eq_zero
                intro y hy
                rw [List.mem_map] at hy
                obtain ⟨j, hj, rfl⟩ := hy
                have : j ≠ i := by have : j < i := by simpa using hj
                                   omega
                simp [List.count_replicate, this]
              rw [hz]; simp
        exact this _ hi
      have hidx : reps.idxOf 1 = v := by
        have h2 : reps[v] = 1 := by
          have := hcount v hvlt
          rw [hv] at this
          simp [List.getD_eq_getElem?_getD, hvlt] at this
          exact this.symm
        have hm1 : (1 : ℕ) ∈ reps := h2 ▸ List.getElem_mem hvlt
        have hlt := List.idxOf_lt_length_of_mem hm1
        have h3 : reps[reps.idxOf 1] = 1 := List.getElem_idxOf hlt
        have h4 := hcount _ hlt
        rw [hv] at h4
        have h5 : reps.getD (reps.idxOf 1) 0 = 1 := by simp [List.getD_eq_getElem?_getD, hlt, h3]
        rw [h5] at h4
        have : List.count (List.idxOf 1 reps) [v] ≠ 0 := by omega
        have := List.count_pos_iff.1 (Nat.pos_of_ne_zero this)
        simpa using this
      rw [hidx, hv]
      simp [lh_cons]
    · rw [if_neg h1, if_neg (by omega), if_neg (by simp)]
      obtain ⟨edges, odd, hm, hp, hpos⟩ := matchedReps_spec reps
      rw [hm]
      have hltall : ∀ i ∈ el edges ++ odd.toList, i < n := fun i hi => hn ▸ repeatedIndices_lt (hp.mem_iff.1 hi)
      have hlt : ∀ i ∈ el edges, i < n := fun i hi => hltall i (by simp [hi])
      have hE : 2 * (edges.map (·.2.2)).sum + odd.toList.length = reps.sum := by
        have := hp.length_eq; rw [List.length_append, el_length, hlen] at this; exact this
      have hr : ∑ e, erep edges e = (edges.map (·.2.2)).sum := by rw [← List.sum_ofFn, ← erep_ofFn]
      have hol : odd.toList.length ≤ 1 := by cases odd <;> simp
      have hEpos : 0 < edges.length := by
        rcases Nat.eq_zero_or_pos edges.length with h | h
        · rw [List.length_eq_zero_iff] at h; subst h; simp at hE; omega
        · exact h
      show Except.ok _ = _
      congr 1
      rw [erep_ofFn]
      have hAx : ∀ (o : ℕ) (a b : Fin edges.length ⊕ Fin edges.length), (Matrix.of fun a b => A0 n A (vlabel edges o a) (vlabel edges o b)) (some a) (some b)
          = (fun i j => A ((edges.map (·.1) ++ edges.map (·.2.1)).getD i 0) ((edges.map (·.1) ++ edges.map (·.2.1)).getD j 0)) (pos a) (pos b) := by
        intro o a b
        simp only [getD_pos edges o]
        simp only [Matrix.of_apply, A0, vlabel_lt n hpos hlt o a, vlabel_lt n hpos hlt o b, and_self, if_true]
      have hDx : ∀ (o : ℕ) (a : Fin edges.length ⊕ Fin edges.length), (D ∘ vlabel edges o) (some a)
          = (fun i => D ((edges.map (·.1) ++ edges.map (·.2.1)).getD i 0)) (pos a) := by
        intro o a
        simp only [getD_pos edges o]; rfl
      cases odd with
      | none =>
        have hp' : (el edges).Perm (Spec.repeatedIndices reps) := by simpa using hp
        simp only [Option.map_none]
        rw [calcLoopHafnian_even _ _ (Matrix.of fun a b => A0 n A (vlabel edges 0 a) (vlabel edges 0 b)) (hAx 0) (fun a b => A0_symm n A hs _ _) (D ∘ vlabel edges 0) (hDx 0) hpt
          (erep edges) hEpos (by simp at hE; omega) g]
        have := lh_map D (A0 n A) (vlabel edges 0) (edgeList (erep edges))
        have e2 : lh (D ∘ vlabel edges 0) (Matrix.of fun a b => A0 n A (vlabel edges 0 a) (vlabel edges 0 b)) (edgeList (erep edges))
            = lh D (A0 n A) (el edges) := by rw [← edgeList_label edges 0, this]; rfl
        rw [e2, lh_perm _ _ (A0_symm n A hs) hp', lh_A0]
        intro i hi; exact hn ▸ repeatedIndices_lt hi
      | some o =>
        have hp' : (o :: el edges).Perm (Spec.repeatedIndices reps) := by
          refine List.Perm.trans ?_ hp
          simpa using (List.perm_append_singleton o (el edges)).symm
        have holt : o < n := hltall o (by simp)
        simp only [Option.map_some]
        rw [calcLoopHafnian_odd _ _ (Matrix.of fun a b => A0 n A (vlabel edges o a) (vlabel edges o b)) (hAx o) (fun a b => A0_symm n A hs _ _) (D ∘ vlabel edges o) (hDx o) hpt
          (erep edges) g]
        · have := lh_map D (A0 n A) (vlabel edges o) (none :: edgeList (erep edges))
          rw [List.map_cons, edgeList_label] at this
          have e2 : lh (D ∘ vlabel edges o) (Matrix.of fun a b => A0 n A (vlabel edges o a) (vlabel edges o b)) (none :: edgeList (erep edges))
              = lh D (A0 n A) (o :: el edges) := by
            have e3 : vlabel edges o none = o := rfl
            rw [e3] at this; rw [this]; rfl
          rw [e2, lh_perm _ _ (A0_symm n A hs) hp', lh_A0]
          intro i hi; exact hn ▸ repeatedIndices_lt hi
        · rfl
        · intro a
          simp only [getD_pos edges o]
          have e3 : vlabel edges o none = o := rfl
          simp only [Matrix.of_apply, A0, e3, vlabel_lt n hpos hlt o a, holt, and_self, if_true]

theorem repeatedIndices_ones (n : ℕ) : Spec.repeatedIndices (List.replicate n 1) = List.range n := by
  rw [Spec.repeatedIndices, List.length_replicate]
  have : ∀ i ∈ List.range n, List.replicate ((List.replicate n 1).getD i 0) i = [i] := by
    intro i hi
    have hi : i < n := by simpa using hi
    have : (List.replicate n 1).getD i 0 = 1 := by simp [List.getD_eq_getElem?_getD, hi]
    rw [this]; rfl
  rw [List.flatMap_congr this]; simp

theorem hafFront_none {pt : PowerTrace K} (hpt : PTSpec pt) (n : ℕ) (A : ℕ → ℕ → K)
    (hs : ∀ i < n, ∀ j < n, A i j = A j i) (g : Bool) :
    hafFront pt n A none g = .ok (lh (fun _ => 0) A (List.range n)) := by
  have := hafFront_eq hpt n A hs (List.replicate n 1) (by simp) g
  rw [repeatedIndices_ones] at this
  rw [← this]; rfl

theorem loopHafnian_none {pt : PowerTrace K} (hpt : PTSpec pt) (n : ℕ) (A : ℕ → ℕ → K)
    (hs : ∀ i < n, ∀ j < n, A i j = A j i) (g : Bool) :
    loopHafnian pt n A none none g = .ok (lh (fun i => A i i) A (List.range n)) := by
  have := loopHafnian_eq hpt n A (fun i => A i i) hs (List.replicate n 1) (by simp) g
  rw [repeatedIndices_ones] at this
  rw [← this]; rfl

end Verif
