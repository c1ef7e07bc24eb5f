/- Sums of squared permanents over output patterns. -/
import Verif.Lemmas.PermL
import Mathlib.Algebra.Order.Antidiag.Pi
import Mathlib.Data.Nat.Choose.Multinomial
import Mathlib.Algebra.MvPolynomial.Basic
import Mathlib.Analysis.RCLike.Basic
import Mathlib.GroupTheory.Perm.DomMulAct
import Mathlib.Algebra.Star.BigOperators

namespace Verif

open Finset

section hist
variable {N M : ℕ}

/-- How many times each value is taken. -/
def hist (t : Fin N → Fin M) (i : Fin M) : ℕ := (univ.filter fun k => t k = i).card

theorem hist_mem (t : Fin N → Fin M) : hist t ∈ piAntidiag (univ : Finset (Fin M)) N := by
  rw [mem_piAntidiag]
  refine ⟨?_, fun _ _ => mem_univ _⟩
  have := Finset.card_eq_sum_card_fiberwise (f := t) (s := univ) (t := univ) (fun _ _ => mem_univ _)
  refine Eq.trans ?_ (this.symm.trans (by simp))
  rfl

open MvPolynomial in
theorem card_hist (m : Fin M → ℕ) (hm : m ∈ piAntidiag (univ : Finset (Fin M)) N) :
    (univ.filter fun t : Fin N → Fin M => hist t = m).card = Nat.multinomial univ m := by
  have h := sum_pow_eq_sum_piAntidiag (univ : Finset (Fin M)) (fun i => (X i : MvPolynomial (Fin M) ℕ)) N
  have h1 : (∑ i : Fin M, (X i : MvPolynomial (Fin M) ℕ)) ^ N
      = ∑ t : Fin N → Fin M, monomial (Finsupp.equivFunOnFinite.symm (hist t)) 1 := by
    have : (∑ i : Fin M, (X i : MvPolynomial (Fin M) ℕ)) ^ N = ∏ _k : Fin N, ∑ i : Fin M, (X i : MvPolynomial (Fin M) ℕ) := by
      simp
    rw [this, Finset.prod_univ_sum, Fintype.piFinset_univ]
    refine Finset.sum_congr rfl fun t _ => ?_
    rw [monomial_eq, C_1, one_mul, Finsupp.prod_fintype _ _ (fun i => by simp)]
    rw [← Finset.prod_fiberwise_of_maps_to (s := univ) (t := univ) (g := t) (fun _ _ => mem_univ _)]
    refine Finset.prod_congr rfl fun i _ => ?_
    rw [Finset.prod_congr rfl (g := fun _ => (X i : MvPolynomial (Fin M) ℕ))]
    · rw [Finset.prod_const]; rfl
    · intro k hk
      rw [(Finset.mem_filter.mp hk).2]
  have h2 : ∀ k : Fin M → ℕ, (∏ i, (X i : MvPolynomial (Fin M) ℕ) ^ k i) = monomial (Finsupp.equivFunOnFinite.symm k) 1 := by
    intro k
    rw [monomial_eq, C_1, one_mul, Finsupp.prod_fintype _ _ (fun i => by simp)]
    rfl
  rw [h1] at h
  have h3 := congrArg (coeff (Finsupp.equivFunOnFinite.symm m)) h
  simp only [coeff_sum, h2, coeff_monomial, ← map_natCast (C : ℕ →+* MvPolynomial (Fin M) ℕ), coeff_C_mul,
    Equiv.apply_eq_iff_eq, Nat.cast_id] at h3
  rw [Finset.card_filter, h3]
  rw [Finset.sum_eq_single_of_mem m hm]
  · simp
  · intro b _ hb; simp [hb]

theorem sum_hist {R : Type*} [Semiring R] (Φ : (Fin M → ℕ) → R) :
    ∑ t : Fin N → Fin M, Φ (hist t)
      = ∑ m ∈ piAntidiag (univ : Finset (Fin M)) N, (Nat.multinomial univ m : R) * Φ m := by
  rw [← Finset.sum_fiberwise_of_maps_to (s := univ) (t := piAntidiag (univ : Finset (Fin M)) N) (g := hist)
    (fun t _ => hist_mem t)]
  refine Finset.sum_congr rfl fun m hm => ?_
  rw [← card_hist m hm, Finset.sum_congr rfl (g := fun _ => Φ m), Finset.sum_const, nsmul_eq_mul]
  intro t ht
  rw [(Finset.mem_filter.mp ht).2]

theorem count_ofFn (t : Fin N → Fin M) (i : Fin M) : (List.ofFn t).count i = hist t i := by
  rw [List.count_eq_countP, List.countP_eq_length_filter, List.ofFn_eq_map, List.filter_map, List.length_map, hist,
    ← List.toFinset_card_of_nodup ((List.nodup_finRange N).filter _)]
  congr 1
  ext k; simp

theorem count_repeated (m : List ℕ) (i : ℕ) : (Spec.repeatedIndices m).count i = m.getD i 0 := by
  rw [Spec.repeatedIndices, List.count_flatMap]
  simp only [Function.comp_def, List.count_replicate]
  by_cases hi : i < m.length
  · simp only [beq_iff_eq]
    have : (List.map (fun x => if x = i then m.getD x 0 else 0) (List.range m.length)).sum
        = ∑ x ∈ range m.length, if x = i then m.getD x 0 else 0 := rfl
    rw [this, Finset.sum_ite_eq', if_pos (by simpa using hi)]
  · rw [List.getD_eq_default _ _ (by omega), List.sum_eq_zero]
    intro x hx
    simp only [List.mem_map, List.mem_range] at hx
    obtain ⟨a, ha, rfl⟩ := hx
    rw [if_neg]
    simp; omega

/-- a function's values are a rearrangement of the sorted list with the same histogram -/
theorem ofFn_perm_repeated (t : Fin N → Fin M) :
    (List.ofFn fun k => (t k : ℕ)).Perm (Spec.repeatedIndices (List.ofFn (hist t))) := by
  rw [List.perm_iff_count]
  intro a
  rw [count_repeated]
  have : (List.ofFn fun k => (t k : ℕ)) = (List.ofFn t).map Fin.val := by rw [List.map_ofFn]; rfl
  by_cases ha : a < M
  · rw [this]
    have := List.count_map_of_injective (List.ofFn t) Fin.val Fin.val_injective ⟨a, ha⟩
    simp only at this
    rw [this, count_ofFn]
    simp [List.getD_eq_getElem?_getD, ha]
  · rw [List.getD_eq_default _ _ (by simp; omega), List.count_eq_zero]
    intro h
    rw [List.mem_ofFn] at h
    obtain ⟨k, hk⟩ := h
    have := (t k).2
    omega

end hist

theorem permL_perm_left {ι κ K : Type*} [CommRing K] (a : ι → κ → K) {L L' : List ι} (h : L.Perm L') (R : List κ) :
    permL a L R = permL a L' R := by
  induction h generalizing R with
  | nil => rfl
  | cons x _ ih => simp only [permL]; exact eSum_congr fun y ys _ => by rw [ih]
  | swap x y l =>
    simp only [permL]
    have e : ∀ u v : ι, eSum (fun y ys => a u y * eSum (fun z zs => a v z * permL a l zs) ys) R
        = eSum (fun y ys => eSum (fun z zs => a u y * (a v z * permL a l zs)) ys) R :=
      fun u v => eSum_congr fun y ys _ => (eSum_mul_left _ _ _).symm
    rw [e, e, eSum_swap]
    apply eSum_congr; intro p ps _
    apply eSum_congr; intro q qs _
    ring
  | trans _ _ ih1 ih2 => rw [ih1, ih2]

section gram
variable {K : Type*} [RCLike K] {N M : ℕ}

/-- Gram matrix of the rows in `S`. -/
def gram (W : Fin M → ℕ → K) (S : Finset (Fin M)) (a b : ℕ) : K := ∑ r ∈ S, star (W r a) * W r b

theorem sum_sq_perm (W : Fin M → ℕ → K) (S : Finset (Fin M)) (s : Fin N → ℕ) :
    ∑ t ∈ Fintype.piFinset (fun _ : Fin N => S),
        star (∑ σ : Equiv.Perm (Fin N), ∏ i, W (t i) (s (σ i))) * (∑ σ : Equiv.Perm (Fin N), ∏ i, W (t i) (s (σ i)))
      = (N.factorial : K) * ∑ σ : Equiv.Perm (Fin N), ∏ i, gram W S (s i) (s (σ i)) := by
  have h1 : ∀ t : Fin N → Fin M,
      star (∑ σ : Equiv.Perm (Fin N), ∏ i, W (t i) (s (σ i))) * (∑ σ : Equiv.Perm (Fin N), ∏ i, W (t i) (s (σ i)))
        = ∑ τ : Equiv.Perm (Fin N), ∑ σ : Equiv.Perm (Fin N), ∏ i, (star (W (t i) (s (τ i))) * W (t i) (s (σ i))) := by
    intro t
    rw [star_sum, Finset.sum_mul_sum]
    refine Finset.sum_congr rfl fun τ _ => Finset.sum_congr rfl fun σ _ => ?_
    rw [star_prod, Finset.prod_mul_distrib]
  simp only [h1]
  rw [Finset.sum_comm]
  have h2 : ∀ τ : Equiv.Perm (Fin N),
      ∑ t ∈ Fintype.piFinset (fun _ : Fin N => S), ∑ σ : Equiv.Perm (Fin N),
          ∏ i, (star (W (t i) (s (τ i))) * W (t i) (s (σ i)))
        = ∑ σ : Equiv.Perm (Fin N), ∏ i, gram W S (s i) (s (σ i)) := by
    intro τ
    rw [Finset.sum_comm, ← Equiv.sum_comp (Equiv.mulRight τ)]
    refine Finset.sum_congr rfl fun σ _ => ?_
    rw [← Equiv.prod_comp τ (fun i => gram W S (s i) (s (σ i)))]
    exact (Finset.prod_univ_sum (fun _ => S) fun i r => star (W r (s (τ i))) * W r (s (σ (τ i)))).symm
  simp only [h2]
  rw [Finset.sum_const, Finset.card_univ, Fintype.card_perm, Fintype.card_fin, nsmul_eq_mul]

/-- The pattern weights with support in `S` sum to the permanent of the Gram matrix of the rows in `S`. -/
theorem sum_patterns (W : ℕ → ℕ → K) (S : Finset (Fin M)) (L : List ℕ) :
    ((∑ m ∈ (piAntidiag (univ : Finset (Fin M)) L.length).filter (fun m => ∀ i, m i ≠ 0 → i ∈ S),
        ‖permL W (Spec.repeatedIndices (List.ofFn m)) L‖ ^ 2 / (∏ i, ((m i).factorial : ℝ)) : ℝ) : K)
      = permL (gram (fun r : Fin M => W r) S) L L := by
  have hs := sum_sq_perm (fun r : Fin M => W r) S (fun i : Fin L.length => L[i])
  have hL : L = List.ofFn fun i : Fin L.length => L[i] := by simp
  have hP : ∀ t : Fin L.length → Fin M,
      (∑ σ : Equiv.Perm (Fin L.length), ∏ i, W (t i) (L[σ i]))
        = permL W (Spec.repeatedIndices (List.ofFn (hist t))) L := by
    intro t
    rw [← permL_perm_left W (ofFn_perm_repeated t)]
    conv_rhs => arg 3; rw [hL]
    exact (permL_ofFn W (fun k => (t k : ℕ)) _).symm
  have hG : ∑ σ : Equiv.Perm (Fin L.length), ∏ i, gram (fun r : Fin M => W r) S (L[i]) (L[σ i])
      = permL (gram (fun r : Fin M => W r) S) L L := (permL_list _ L).symm
  simp only [Fin.getElem_fin] at hs hP hG
  rw [hG] at hs
  have hsum : ∑ t ∈ Fintype.piFinset (fun _ : Fin L.length => S),
        star (∑ σ : Equiv.Perm (Fin L.length), ∏ i, W (t i) (L[(σ i : ℕ)])) * (∑ σ : Equiv.Perm (Fin L.length), ∏ i, W (t i) (L[(σ i : ℕ)]))
      = ((∑ t : Fin L.length → Fin M, (if ∀ i, hist t i ≠ 0 → i ∈ S then
          ‖permL W (Spec.repeatedIndices (List.ofFn (hist t))) L‖ ^ 2 else 0) : ℝ) : K) := by
    rw [← Finset.sum_filter, RCLike.ofReal_sum]
    apply Finset.sum_congr
    · ext t
      simp only [Fintype.mem_piFinset, Finset.mem_filter, Finset.mem_univ, true_and, hist, ne_eq, Finset.card_eq_zero]
      constructor
      · intro h i hi
        obtain ⟨k, hk⟩ := Finset.nonempty_iff_ne_empty.mpr hi
        rw [← (Finset.mem_filter.mp hk).2]; exact h k
      · intro h k
        apply h
        exact Finset.ne_empty_of_mem (a := k) (by simp)
    · intro t _
      rw [hP, RCLike.star_def, RCLike.conj_mul, RCLike.ofReal_pow]
  rw [hsum, sum_hist (fun m => if ∀ i, m i ≠ 0 → i ∈ S then ‖permL W (Spec.repeatedIndices (List.ofFn m)) L‖ ^ 2 else 0)] at hs
  have hN : ((L.length.factorial : ℕ) : K) ≠ 0 := by exact_mod_cast L.length.factorial_ne_zero
  apply mul_left_cancel₀ hN
  rw [← hs, ← RCLike.ofReal_natCast, ← RCLike.ofReal_mul, Finset.mul_sum, Finset.sum_filter]
  congr 1
  refine Finset.sum_congr rfl fun m hm => ?_
  have hspec := Nat.multinomial_spec univ m
  rw [(mem_piAntidiag.mp hm).1] at hspec
  have hspec' : (∏ i, ((m i).factorial : ℝ)) * (Nat.multinomial univ m : ℝ) = (L.length.factorial : ℝ) := by
    exact_mod_cast hspec
  have hne : (∏ i, ((m i).factorial : ℝ)) ≠ 0 := Finset.prod_ne_zero_iff.mpr fun i _ => by
    exact_mod_cast (m i).factorial_ne_zero
  split_ifs
  · rw [← hspec']; field_simp
  · simp

end gram

/-- The permanent of the repeated identity matrix counts the rearrangements that keep the list. -/
theorem permL_delta {K : Type*} [CommRing K] (n : List ℕ) :
    permL (fun a b : ℕ => if a = b then (1 : K) else 0) (Spec.repeatedIndices n) (Spec.repeatedIndices n)
      = ((n.map fun k => k.factorial).prod : ℕ) := by
  rw [permL_list]
  set l := Spec.repeatedIndices n with hl
  let f : Fin l.length → Fin n.length := fun i => ⟨l[i], repeatedIndices_lt (reps := n) (List.getElem_mem (l := l) _)⟩
  have h1 : ∀ σ : Equiv.Perm (Fin l.length), (∏ i, if l[i] = l[σ i] then (1 : K) else 0) = if f ∘ σ = f then 1 else 0 := by
    intro σ
    rw [Finset.prod_ite_zero, Finset.prod_const_one]
    congr 1
    simp only [Finset.mem_univ, forall_true_left, eq_iff_iff, funext_iff, Function.comp, f, Fin.ext_iff]
    exact ⟨fun h i => (h i).symm, fun h i => (h i).symm⟩
  simp only [h1]
  rw [← Finset.sum_filter, Finset.sum_const, nsmul_eq_mul, mul_one]
  congr 1
  have := DomMulAct.stabilizer_card f
  rw [Fintype.card_subtype] at this
  rw [this]
  have h2 : (n.map fun k => k.factorial).prod = ∏ i : Fin n.length, (n[i]).factorial := by
    conv_lhs => rw [← List.ofFn_getElem (xs := n)]
    rw [List.map_ofFn, List.prod_ofFn]; rfl
  rw [h2]
  refine Finset.prod_congr rfl fun i _ => ?_
  congr 1
  rw [Fintype.card_subtype]
  have h3 := count_ofFn f i
  rw [hist] at h3
  rw [← h3]
  have h4 : (List.ofFn f).map Fin.val = l := by
    rw [List.map_ofFn]; simp [f, Function.comp_def]
  have h5 := List.count_map_of_injective (List.ofFn f) Fin.val Fin.val_injective i
  rw [h4] at h5
  rw [← h5, hl, count_repeated]
  simp [List.getD_eq_getElem?_getD]

end Verif
