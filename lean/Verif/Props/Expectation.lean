/-
C61, C51: expectation values of ordered products of ladder operators, photon-number means and covariances.
-/
import Verif.Props.Hafnian
import Verif.Props.HafnianHelpers
import Verif.Props.Conversions
import Verif.Props.SymplecticStates
import Verif.Model.Means
import Verif.Spec.Ladder

set_option linter.unusedSectionVars false
set_option linter.unusedSimpArgs false

namespace Verif.Props
open Verif.Model Verif.Model.Symp Verif.Model.Conv Verif.Model.Means Verif.Spec Verif.Lemmas Verif.Lemmas.Symp Matrix

theorem hafnian_arr (n : ℕ) (A : ℕ → ℕ → ℂ) (hA : ∀ i < n, ∀ j < n, A i j = A j i) (loop : Bool) :
    hafnian powertrace (isClose 0 0) (.arr n n fun i j => some (A i j)) loop "glynn"
      = .ok (lh (fun i => if loop then A i i else 0) A (List.range n)) := by
  have e : (PyObj.arr n n fun i j => some (A i j)) = PyObj.ofMatrix (toMatrix n n A) fun i j => some (A i j) := by
    unfold PyObj.ofMatrix
    congr 1
    funext i j
    split_ifs <;> rfl
  have hS : (toMatrix n n A).IsSymm := by
    ext i j; exact hA j j.2 i i.2
  have hent : ∀ i < n, ∀ j < n, entries (toMatrix n n A) (fun i j => some (A i j)) i j = A i j := by
    intro i hi j hj
    rw [entries_lt _ _ hi hj]; rfl
  rw [e]
  cases loop
  · rw [hafnian_correct _ hS _ _ (Or.inl rfl), spec_haf_entries _ fun i j => some (A i j)]
    congr 1
    apply lh_congr
    · intro i _; simp
    · intro i hi j hj; exact hent i (List.mem_range.mp hi) j (List.mem_range.mp hj)
  · rw [hafnian_loop_correct _ hS _ _ (Or.inl rfl), spec_lhaf_entries _ fun i j => some (A i j)]
    congr 1
    apply lh_congr
    · intro i hi; simp only [if_true]; exact hent i (List.mem_range.mp hi) i (List.mem_range.mp hi)
    · intro i hi j hj; exact hent i (List.mem_range.mp hi) j (List.mem_range.mp hj)

theorem mmul_Xmat {K : Type} [Field K] (N : ℕ) (M : ℕ → ℕ → K) (i j : ℕ) (hj : j < 2 * N) :
    mmul (2 * N) M (Xmat N) i j = if j < N then M i (N + j) else M i (j - N) := by
  unfold mmul
  rw [dot_sum]
  have hX : ∀ l < 2 * N, (Xmat N : ℕ → ℕ → K) l j = if l = (if j < N then N + j else j - N) then 1 else 0 := by
    intro l hl
    unfold Xmat block eye
    by_cases h1 : l < N <;> by_cases h2 : j < N <;> simp only [h1, h2, if_true, if_false]
    · rw [if_neg (by omega)]
    · have : l - N = j ↔ l = N + j := by omega
      simp only [this]
    · rw [if_neg (by omega)]
  rw [Finset.sum_congr rfl (fun l hl => by rw [hX l (Finset.mem_range.mp hl)])]
  simp only [mul_ite, mul_one, mul_zero, Finset.sum_ite_eq', Finset.mem_range]
  split_ifs <;> first | rfl | omega

/-- the matrix `(Q - (s+1)/2) X` of the code is the matrix of covariances of the ladder operators -/
theorem code_ladderCov (N : ℕ) (cov : ℕ → ℕ → ℝ) (hbar s : ℝ) (hsym : ∀ i < 2 * N, ∀ j < 2 * N, cov i j = cov j i) (i j : ℕ) (hi : i < 2 * N)
    (hj : j < 2 * N) :
    mmul (2 * N) (fun i j => Qmat N cov hbar i j - (((1 / 2 : ℝ) * (s + 1) : ℝ) : ℂ) * eye i j) (Xmat N) i j = ladderCov N cov hbar s i j := by
  rw [mmul_Xmat N _ i j hj]
  have ke : ∀ i j, (eye i j : ℂ) = kd i j := fun i j => rfl
  have e1 : ∀ i j, (kd i j).re = if i = j then 1 else 0 := by intro i j; unfold kd; split_ifs <;> simp
  have e2 : ∀ i j, (kd i j).im = 0 := by intro i j; unfold kd; split_ifs <;> simp
  unfold ladderCov
  by_cases h1 : i < N <;> by_cases h2 : j < N <;> simp only [h1, h2, if_true, if_false]
  · rw [Qmat_xp N cov hbar i j h1 h2, Qmat_px N cov hbar i j h1 h2]
    have : (eye i (N + j) : ℂ) = 0 := by unfold eye; rw [if_neg (by omega)]
    rw [this, mul_zero, sub_zero]
    congr 1
    unfold covPair
    apply Complex.ext
    · rw [Complex.div_ofReal_re]; simp; ring
    · rw [Complex.div_ofReal_im]; simp; ring
  · obtain ⟨k, rfl⟩ : ∃ k, j = N + k := ⟨j - N, by omega⟩
    rw [Nat.add_sub_cancel_left, Qmat_xx N cov hbar i k h1 (by omega), ke]
    unfold covNumber
    apply Complex.ext
    · rw [Complex.sub_re (_ / _), Complex.div_ofReal_re]; by_cases hik : i = k <;> simp [e1, e2, hik] <;> ring
    · rw [Complex.sub_im (_ / _), Complex.div_ofReal_im]; simp [e1, e2]; ring
  · obtain ⟨k, rfl⟩ : ∃ k, i = N + k := ⟨i - N, by omega⟩
    rw [Nat.add_sub_cancel_left, Qmat_pp N cov hbar k j (by omega) h2, Qmat_xx N cov hbar k j (by omega) h2]
    have : (eye (N + k) (N + j) : ℂ) = kd j k := by unfold eye kd; simp [eq_comm]
    rw [this, ke]
    have hkd : kd k j = kd j k := by unfold kd; simp [eq_comm]
    rw [hkd]
    unfold covNumber
    rw [hsym k (by omega) j (by omega), hsym (N + k) (by omega) (N + j) (by omega)]
    apply Complex.ext
    · rw [Complex.sub_re _ (_ * _), Complex.sub_re (_ / (_ : ℂ)), Complex.div_ofReal_re, Complex.conj_re]
      by_cases hjk : j = k <;> simp [e1, e2, hjk] <;> ring
    · rw [Complex.sub_im _ (_ * _), Complex.sub_im (_ / (_ : ℂ)), Complex.div_ofReal_im, Complex.conj_im]
      simp [e1, e2]; ring
  · obtain ⟨k, rfl⟩ : ∃ k, i = N + k := ⟨i - N, by omega⟩
    obtain ⟨l, rfl⟩ : ∃ l, j = N + l := ⟨j - N, by omega⟩
    rw [Nat.add_sub_cancel_left, Nat.add_sub_cancel_left, Qmat_px N cov hbar k l (by omega) (by omega)]
    have : (eye (N + k) l : ℂ) = 0 := by unfold eye; rw [if_neg (by omega)]
    rw [this, mul_zero, sub_zero]
    unfold covPair
    apply Complex.ext
    · rw [Complex.div_ofReal_re]; simp; ring
    · rw [Complex.div_ofReal_im]; simp; ring

theorem ladderCov_symm (N : ℕ) (cov : ℕ → ℕ → ℝ) (hbar s : ℝ) (hsym : ∀ i < 2 * N, ∀ j < 2 * N, cov i j = cov j i) (i j : ℕ) (hi : i < 2 * N)
    (hj : j < 2 * N) : ladderCov N cov hbar s i j = ladderCov N cov hbar s j i := by
  have hp : ∀ a < N, ∀ b < N, covPair N cov hbar a b = covPair N cov hbar b a := by
    intro a ha b hb
    unfold covPair
    rw [hsym a (by omega) b (by omega), hsym (N + a) (by omega) (N + b) (by omega), add_comm (cov a (N + b))]
  unfold ladderCov
  by_cases h1 : i < N <;> by_cases h2 : j < N <;> simp only [h1, h2, if_true, if_false]
  · rw [hp i h1 j h2]
  · exact hp _ (by omega) _ (by omega)

theorem code_ladderMean (N : ℕ) (mu : ℕ → ℝ) (hbar : ℝ) (i : ℕ) : (starRingEnd ℂ) (complexToReal N mu hbar i) = ladderMean N mu hbar i := by
  unfold complexToReal ladderMean
  split_ifs with h
  · apply Complex.ext
    · rw [Complex.conj_re, Complex.div_ofReal_re, Complex.div_ofReal_re]; simp
    · rw [Complex.conj_im, Complex.div_ofReal_im, Complex.div_ofReal_im]; simp; ring
  · rw [Complex.conj_conj]
    apply Complex.ext
    · rw [Complex.div_ofReal_re, Complex.div_ofReal_re]; simp
    · rw [Complex.div_ofReal_im, Complex.div_ofReal_im]; simp

/-- quadrature index in the whole state of quadrature `a` of the reduced one -/
def indOf (N : ℕ) (modes : List ℕ) (a : ℕ) : ℕ := (modes ++ modes.map (· + N)).getD a 0

theorem indOf_left (N : ℕ) (modes : List ℕ) (a : ℕ) (ha : a < modes.length) : indOf N modes a = modes.getD a 0 := by
  unfold indOf; rw [List.getD_append _ _ _ _ ha]

theorem indOf_right (N : ℕ) (modes : List ℕ) (a : ℕ) (ha : a < modes.length) : indOf N modes (modes.length + a) = N + modes.getD a 0 := by
  unfold indOf
  rw [List.getD_append_right _ _ _ _ (by omega), Nat.add_sub_cancel_left, List.getD_eq_getElem _ _ (by simpa using ha), List.getElem_map,
    List.getD_eq_getElem _ _ ha, add_comm]

theorem ladderMean_reduced (N : ℕ) (s : GState ℝ) (modes : List ℕ) (r : GState ℝ) (h : IsReduction N s modes r) (hb : ∀ m ∈ modes, m < N) (hbar : ℝ)
    (a : ℕ) (ha : a < 2 * modes.length) : ladderMean modes.length r.mu hbar a = ladderMean N s.mu hbar (indOf N modes a) := by
  have hlt : ∀ a < modes.length, modes.getD a 0 < N := by
    intro a ha; rw [List.getD_eq_getElem _ _ ha]; exact hb _ (List.getElem_mem _)
  unfold ladderMean
  by_cases h1 : a < modes.length
  · rw [if_pos h1, indOf_left N modes a h1, if_pos (hlt a h1), (h.mean a h1).1, (h.mean a h1).2]
  · obtain ⟨b, rfl⟩ : ∃ b, a = modes.length + b := ⟨a - modes.length, by omega⟩
    have hb' : b < modes.length := by omega
    rw [if_neg h1, indOf_right N modes b hb', if_neg (by omega), Nat.add_sub_cancel_left, Nat.add_sub_cancel_left, (h.mean b hb').1, (h.mean b hb').2]

theorem ladderCov_reduced (N : ℕ) (s : GState ℝ) (modes : List ℕ) (hn : modes.Nodup) (r : GState ℝ) (h : IsReduction N s modes r)
    (hb : ∀ m ∈ modes, m < N) (hbar sp : ℝ) (a b : ℕ) (ha : a < 2 * modes.length) (hb' : b < 2 * modes.length) :
    ladderCov modes.length r.cov hbar sp a b = ladderCov N s.cov hbar sp (indOf N modes a) (indOf N modes b) := by
  have hlt : ∀ a < modes.length, modes.getD a 0 < N := by
    intro a ha; rw [List.getD_eq_getElem _ _ ha]; exact hb _ (List.getElem_mem _)
  have hkd : ∀ a < modes.length, ∀ b < modes.length, kd (modes.getD a 0) (modes.getD b 0) = kd a b := by
    intro a ha b hb
    rw [List.getD_eq_getElem _ _ ha, List.getD_eq_getElem _ _ hb]
    unfold kd
    simp only [hn.getElem_inj_iff]
  have hp : ∀ a < modes.length, ∀ b < modes.length, covPair modes.length r.cov hbar a b = covPair N s.cov hbar (modes.getD a 0) (modes.getD b 0) := by
    intro a ha b hb
    unfold covPair
    rw [h.xx a ha b hb, h.pp a ha b hb, h.xp a ha b hb, h.xp b hb a ha]
  have hnum : ∀ a < modes.length, ∀ b < modes.length,
      covNumber modes.length r.cov hbar sp a b = covNumber N s.cov hbar sp (modes.getD a 0) (modes.getD b 0) := by
    intro a ha b hb
    unfold covNumber
    rw [h.xx a ha b hb, h.pp a ha b hb, h.xp a ha b hb, h.xp b hb a ha, hkd a ha b hb]
  unfold ladderCov
  by_cases h1 : a < modes.length <;> by_cases h2 : b < modes.length
  · rw [indOf_left N modes a h1, indOf_left N modes b h2, if_pos h1, if_pos h2, if_pos (hlt a h1), if_pos (hlt b h2), hp a h1 b h2]
  · obtain ⟨c, rfl⟩ : ∃ c, b = modes.length + c := ⟨b - modes.length, by omega⟩
    have hc : c < modes.length := by omega
    rw [indOf_left N modes a h1, indOf_right N modes c hc, if_pos h1, if_neg h2, if_pos (hlt a h1), if_neg (by omega), Nat.add_sub_cancel_left,
      Nat.add_sub_cancel_left, hnum a h1 c hc]
  · obtain ⟨c, rfl⟩ : ∃ c, a = modes.length + c := ⟨a - modes.length, by omega⟩
    have hc : c < modes.length := by omega
    rw [indOf_left N modes b h2, indOf_right N modes c hc, if_neg h1, if_pos h2, if_neg (by omega), if_pos (hlt b h2), Nat.add_sub_cancel_left,
      Nat.add_sub_cancel_left, hnum b h2 c hc]
  · obtain ⟨c, rfl⟩ : ∃ c, a = modes.length + c := ⟨a - modes.length, by omega⟩
    obtain ⟨d, rfl⟩ : ∃ d, b = modes.length + d := ⟨b - modes.length, by omega⟩
    have hc : c < modes.length := by omega
    have hd : d < modes.length := by omega
    rw [indOf_right N modes c hc, indOf_right N modes d hd, if_neg h1, if_neg h2, if_neg (by omega), if_neg (by omega), Nat.add_sub_cancel_left,
      Nat.add_sub_cancel_left, Nat.add_sub_cancel_left, Nat.add_sub_cancel_left, hp c hc d hd]

theorem flatMap_filter_of_nil {α β : Type} (l : List α) (p : α → Bool) (f : α → List β) (h : ∀ a ∈ l, p a = false → f a = []) :
    (l.filter p).flatMap f = l.flatMap f := by
  induction l with
  | nil => rfl
  | cons a l ih =>
    rw [List.filter_cons, List.flatMap_cons]
    have := ih fun b hb => h b (List.mem_cons_of_mem _ hb)
    cases hp : p a
    · simp only [Bool.false_eq_true, if_false]; rw [this, h a (List.mem_cons_self ..) hp]; rfl
    · simp only [if_true, List.flatMap_cons, this]

/-- dropping the modes that do not occur does not change the list of operators -/
theorem repeated_reduced (N : ℕ) (rpt : List ℕ) (hr : rpt.length = 2 * N) (modes : List ℕ)
    (hm : modes = (List.range N).filter fun k => rpt.getD k 0 + rpt.getD (N + k) 0 ≠ 0) :
    (repeatedIndices ((modes ++ modes.map (· + N)).map fun i => rpt.getD i 0)).map (indOf N modes) = repeatedIndices rpt := by
  set ind := modes ++ modes.map (· + N) with hind
  have h1 : (repeatedIndices (ind.map fun i => rpt.getD i 0)).map (indOf N modes) = ind.flatMap fun i => List.replicate (rpt.getD i 0) i := by
    unfold repeatedIndices
    rw [List.map_flatMap, List.length_map]
    have e2 : (List.range ind.length).map (indOf N modes) = ind := by
      apply List.ext_getElem
      · simp
      · intro i h1 h2
        rw [List.getElem_map, List.getElem_range, indOf, ← hind, List.getD_eq_getElem _ _ h2]
    conv_rhs => rw [← e2, List.flatMap_map]
    apply List.flatMap_congr
    intro i hi
    have hi' : i < ind.length := List.mem_range.mp hi
    rw [List.map_replicate]
    congr 1
    rw [List.getD_eq_getElem _ _ (by simpa using hi'), List.getElem_map, indOf, ← hind, List.getD_eq_getElem _ _ hi']
  rw [h1]
  unfold repeatedIndices
  rw [hr, two_mul, List.range_add, hind, List.flatMap_append, List.flatMap_append, List.flatMap_map, List.flatMap_map, hm]
  congr 1
  · apply flatMap_filter_of_nil
    intro a _ ha
    simp only [ne_eq, decide_not, Bool.not_eq_false', decide_eq_true_eq] at ha
    rw [show rpt.getD a 0 = 0 by omega]; rfl
  · rw [flatMap_filter_of_nil]
    · apply List.flatMap_congr; intro a _; rw [add_comm]
    · intro a _ ha
      simp only [ne_eq, decide_not, Bool.not_eq_false', decide_eq_true_eq] at ha
      rw [add_comm a N, show rpt.getD (N + a) 0 = 0 by omega]; rfl

theorem moment_lh (N : ℕ) (mu : ℕ → ℝ) (cov : ℕ → ℕ → ℝ) (hbar s : ℝ) (ops : List ℕ) :
    moment N mu cov hbar s ops = lh (ladderMean N mu hbar) (ladderCov N cov hbar s) ops := spec_lhaf_list _ _ _

/-- exact comparison with zero -/
noncomputable def isZero (x : ℝ) : Bool := isClose 0 0 x 0

/-- C61: `s_ordered_expectation` is the sum over all ways of pairing up the operators of the product, leaving some unpaired: each pair
contributes its covariance in the given ordering, each unpaired operator its mean (the moments of a Gaussian state, by Wick's theorem). -/
theorem sOrdered_correct (N : ℕ) (st : GState ℝ) (hs : st.len = 2 * N) (hsym : ∀ i < 2 * N, ∀ j < 2 * N, st.cov i j = st.cov j i) (rpt : List ℕ)
    (hr : rpt.length = 2 * N) (hbar s : ℝ) :
    sOrdered isZero (isClose 0 0) st rpt hbar s
      = .ok (moment N st.mu st.cov hbar s (repeatedIndices rpt)) := by
  have hN : st.len / 2 = N := by omega
  rw [moment_lh]
  unfold sOrdered
  by_cases h0 : rpt.all (· = 0) = true
  · rw [if_pos h0]
    have : repeatedIndices rpt = [] := by
      unfold repeatedIndices
      rw [List.flatMap_eq_nil_iff]
      intro i hi
      have hi' := List.mem_range.mp hi
      rw [List.getD_eq_getElem _ _ hi']
      have := List.all_eq_true.mp h0 _ (List.getElem_mem hi')
      simp only [decide_eq_true_eq] at this
      rw [this]; rfl
    rw [this]
    simp [lh, lhN, pure, Except.pure]
  · rw [if_neg h0]
    simp only [hN]
    rw [if_neg (by omega)]
    set modes := (List.range N).filter fun k => rpt.getD k 0 + rpt.getD (N + k) 0 ≠ 0 with hmodes
    have hb : ∀ m ∈ modes, m < N := fun m hm => List.mem_range.mp (List.mem_filter.mp hm).1
    have hnd : modes.Nodup := List.nodup_range.filter _
    have hne : modes ≠ [] := by
      intro h
      apply h0
      rw [List.all_eq_true]
      intro x hx
      obtain ⟨i, hi, rfl⟩ := List.getElem_of_mem hx
      have hz : ∀ k < N, rpt.getD k 0 + rpt.getD (N + k) 0 = 0 := by
        intro k hk
        by_contra hc
        have : k ∈ modes := List.mem_filter.mpr ⟨List.mem_range.mpr hk, decide_eq_true hc⟩
        rw [h] at this; simp at this
      have e : rpt[i] = rpt.getD i 0 := (List.getD_eq_getElem _ _ hi).symm
      rw [e]
      by_cases hiN : i < N
      · have := hz i hiN; simp only [decide_eq_true_eq]; omega
      · have := hz (i - N) (by omega)
        rw [Nat.add_sub_cancel' (by omega)] at this
        simp only [decide_eq_true_eq]; omega
    have hcase : modes.length ≠ N ∨ modes = List.range N := by
      by_cases h : modes.length = N
      · right
        apply List.filter_eq_self.mpr
        have : ((List.range N).filter fun k => rpt.getD k 0 + rpt.getD (N + k) 0 ≠ 0).length = (List.range N).length := by
          rw [← hmodes, h, List.length_range]
        exact List.length_filter_eq_length_iff.mp this
      · left; exact h
    obtain ⟨r, hred, hR⟩ := reducedGaussian_partial N st hs modes hne hb hcase
    rw [hred]
    simp only [bind, Except.bind]
    have hlen : r.len = 2 * modes.length := hR.len
    have hhalf : r.len / 2 = modes.length := by omega
    set k := modes.length with hk
    simp only [hlen, hhalf, Nat.mul_div_cancel_left k two_pos]
    have hrsym : ∀ i < 2 * k, ∀ j < 2 * k, r.cov i j = r.cov j i := by
      have hlt : ∀ a < k, modes.getD a 0 < N := by
        intro a ha; rw [List.getD_eq_getElem _ _ ha]; exact hb _ (List.getElem_mem _)
      intro i hi j hj
      by_cases h1 : i < k <;> by_cases h2 : j < k
      · rw [hR.xx i h1 j h2, hR.xx j h2 i h1, hsym]
        · have := hlt i h1; omega
        · have := hlt j h2; omega
      · obtain ⟨c, rfl⟩ : ∃ c, j = k + c := ⟨j - k, by omega⟩
        have hc : c < k := by omega
        rw [hR.xp i h1 c hc, hR.px c hc i h1, hsym]
        · have := hlt i h1; omega
        · have := hlt c hc; omega
      · obtain ⟨c, rfl⟩ : ∃ c, i = k + c := ⟨i - k, by omega⟩
        have hc : c < k := by omega
        rw [hR.px c hc j h2, hR.xp j h2 c hc, hsym]
        · have := hlt c hc; omega
        · have := hlt j h2; omega
      · obtain ⟨c, rfl⟩ : ∃ c, i = k + c := ⟨i - k, by omega⟩
        obtain ⟨d, rfl⟩ : ∃ d, j = k + d := ⟨j - k, by omega⟩
        have hc : c < k := by omega
        have hd : d < k := by omega
        rw [hR.pp c hc d hd, hR.pp d hd c hc, hsym]
        · have := hlt c hc; omega
        · have := hlt d hd; omega
    set rpt' := (modes ++ modes.map (· + N)).map fun i => rpt.getD i 0 with hrpt'
    have hrl : rpt'.length = 2 * k := by simp [hrpt', two_mul, hk]
    have hrows : reductionRows rpt' = repeatedIndices rpt' := by
      unfold reductionRows repeatedIndices; rw [List.flatMap_def]
    have hrow : ∀ i < (reductionRows rpt').length, (reductionRows rpt').getD i 0 < 2 * k := by
      have h : ∀ x ∈ reductionRows rpt', x < 2 * k := by
        rw [hrows]; intro x hx; have := repeatedIndices_lt hx; omega
      intro i hi
      rw [List.getD_eq_getElem _ _ hi]
      exact h _ (List.getElem_mem hi)
    have hmap : (List.range (reductionRows rpt').length).map (fun i => (reductionRows rpt').getD i 0) = repeatedIndices rpt' := by
      rw [← hrows]
      apply List.ext_getElem
      · simp
      · intro i h1 h2; rw [List.getElem_map, List.getElem_range, List.getD_eq_getElem _ _ h2]
    have hV := fun i hi j hj => code_ladderCov k r.cov hbar s hrsym i j hi hj
    have hVs := fun i hi j hj => ladderCov_symm k r.cov hbar s hrsym i j hi hj
    -- both branches give the loop hafnian over the reduced operators
    have target : lh (ladderMean k r.mu hbar) (ladderCov k r.cov hbar s) (repeatedIndices rpt')
        = lh (ladderMean N st.mu hbar) (ladderCov N st.cov hbar s) (repeatedIndices rpt) := by
      rw [← repeated_reduced N rpt hr modes hmodes, lh_map]
      apply lh_congr
      · intro a ha
        exact ladderMean_reduced N st modes r hR hb hbar a (by have := repeatedIndices_lt ha; omega)
      · intro a ha b hb'
        exact ladderCov_reduced N st modes hnd r hR hb hbar s a b (by have := repeatedIndices_lt ha; omega)
          (by have := repeatedIndices_lt hb'; omega)
    rw [← target]
    simp only [reduction2, reduction1]
    split_ifs with hz
    · rw [hafnian_arr]
      · congr 1
        simp only [Bool.false_eq_true, if_false]
        rw [← hmap, lh_map]
        apply lh_congr
        · intro a ha
          have ha' := hrow a (List.mem_range.mp ha)
          have hmu : ∀ i < 2 * k, r.mu i = 0 := by
            intro i hi
            have := List.all_eq_true.mp hz i (List.mem_range.mpr hi)
            exact (close_zero _ _).mp this
          show (0 : ℂ) = ladderMean k r.mu hbar ((reductionRows rpt').getD a 0)
          unfold ladderMean
          split_ifs with hl
          · rw [hmu _ (by omega), hmu _ (by omega), neg_zero]
            rw [show (⟨0, 0⟩ : ℂ) = 0 from rfl, zero_div]
          · rw [hmu _ (by omega), hmu _ (by omega)]
            rw [show (⟨0, 0⟩ : ℂ) = 0 from rfl, zero_div]
        · intro a ha b hb'
          exact hV _ (hrow a (List.mem_range.mp ha)) _ (hrow b (List.mem_range.mp hb'))
      · intro i hi j hj
        rw [hV _ (hrow i hi) _ (hrow j hj), hV _ (hrow j hj) _ (hrow i hi), hVs _ (hrow i hi) _ (hrow j hj)]
    · rw [hafnian_arr]
      · congr 1
        simp only [if_true]
        rw [← hmap, lh_map]
        apply lh_congr_nodup List.nodup_range
        · intro a ha; exact code_ladderMean k r.mu hbar _
        · intro a ha b hb' hab
          rw [if_neg hab]
          exact hV _ (hrow a (List.mem_range.mp ha)) _ (hrow b (List.mem_range.mp hb'))
      · intro i hi j hj
        by_cases hij : i = j
        · subst hij; rfl
        · rw [if_neg hij, if_neg (Ne.symm hij)]
          rw [hV _ (hrow i hi) _ (hrow j hj), hV _ (hrow j hj) _ (hrow i hi), hVs _ (hrow i hi) _ (hrow j hj)]

end Verif.Props
