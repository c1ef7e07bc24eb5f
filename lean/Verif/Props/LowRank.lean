/-
C21, C22: hafnians of low-rank matrices.
-/
import Verif.Model.LowRank
import Verif.Lemmas.Wick
import Verif.Lemmas.LhafSpec
import Mathlib.Algebra.MvPolynomial.Rename
import Mathlib.RingTheory.MvPolynomial.Homogeneous
import Mathlib.Combinatorics.Enumerative.DoubleCounting
import Mathlib.Algebra.Order.Antidiag.Pi
import Mathlib.Data.List.GetD
import Mathlib.Tactic

set_option linter.unusedSectionVars false
set_option linter.unusedSimpArgs false

namespace Verif.Props
open Verif.Model.LowRank Finset MvPolynomial

/-! ### partitions -/

/-- The list that `partitions r n` returns, `r ≥ 1` -/
def parts : ℕ → ℕ → List (List ℕ)
  | 0, n => [[n]]
  | r + 1, n => (List.range (n + 1)).flatMap fun f => (parts r (n - f)).map fun p => f :: p

theorem foldlM_append_list {α β : Type} (f : α → Except PyErr (List β)) (g : α → List β) (l : List α)
    (h : ∀ x ∈ l, f x = .ok (g x)) (acc : List β) :
    l.foldlM (fun a x => do let r ← f x; pure (a ++ r)) acc = .ok (acc ++ l.flatMap g) := by
  induction l generalizing acc with
  | nil => simp [pure, Except.pure]
  | cons x xs ih =>
    rw [List.foldlM_cons, h x (by simp)]
    show List.foldlM (fun a x => do let r ← f x; pure (a ++ r)) (acc ++ g x) xs = _
    rw [ih (fun y hy => h y (by simp [hy]))]
    simp

theorem partitions_ok (fuel r n : ℕ) (h : r + 1 ≤ fuel) : partitions fuel ((r + 1 : ℕ) : ℤ) n = .ok (parts r n) := by
  induction r generalizing fuel n with
  | zero =>
    obtain ⟨f, rfl⟩ : ∃ f, fuel = f + 1 := ⟨fuel - 1, by omega⟩
    simp [partitions, parts]
  | succ r ih =>
    obtain ⟨f, rfl⟩ : ∃ f, fuel = f + 1 := ⟨fuel - 1, by omega⟩
    rw [partitions, if_neg (by push_cast; omega)]
    have e : (((r + 1 + 1 : ℕ) : ℤ) - 1) = ((r + 1 : ℕ) : ℤ) := by push_cast; ring
    rw [e]
    have := foldlM_append_list (fun x => (partitions f ((r + 1 : ℕ) : ℤ) (n - x)).map fun L => L.map fun p => [x] ++ p)
      (fun x => (parts r (n - x)).map fun p => x :: p) (List.range (n + 1)) (fun x _ => by
        rw [ih f (n - x) (by omega)]; rfl) []
    rw [parts]
    simp only [List.nil_append] at this
    rw [← this]
    congr 1
    funext a x
    cases partitions f ((r + 1 : ℕ) : ℤ) (n - x) <;> rfl

theorem mem_parts (r n : ℕ) (t : List ℕ) : t ∈ parts r n ↔ t.length = r + 1 ∧ t.sum = n := by
  induction r generalizing n t with
  | zero =>
    rw [parts, List.mem_singleton]
    constructor
    · rintro rfl; simp
    · rintro ⟨h1, h2⟩
      obtain ⟨a, rfl⟩ := List.length_eq_one_iff.mp h1
      simpa using h2
  | succ r ih =>
    simp only [parts, List.mem_flatMap, List.mem_range, List.mem_map]
    constructor
    · rintro ⟨f, hf, p, hp, rfl⟩
      obtain ⟨h1, h2⟩ := (ih _ _).mp hp
      simp [h1, h2]; omega
    · rintro ⟨h1, h2⟩
      cases t with
      | nil => simp at h1
      | cons f p =>
        simp at h1 h2
        exact ⟨f, by omega, p, (ih _ _).mpr ⟨h1, by omega⟩, rfl⟩

theorem nodup_parts (r n : ℕ) : (parts r n).Nodup := by
  induction r generalizing n with
  | zero => simp [parts]
  | succ r ih =>
    rw [parts, List.nodup_flatMap]
    refine ⟨fun f _ => (ih _).map fun p q h => by simpa using h, ?_⟩
    refine List.nodup_range.imp fun {a b} hab => ?_
    simp only [Function.onFun]
    intro x hx hy
    simp only [List.mem_map] at hx hy
    obtain ⟨p, _, rfl⟩ := hx
    obtain ⟨q, _, h⟩ := hy
    simp at h
    exact hab h.1.symm

theorem length_parts (r n : ℕ) : (parts r n).length = (n + r).choose r := by
  induction r generalizing n with
  | zero => simp [parts]
  | succ r ih =>
    rw [parts, List.length_flatMap]
    simp only [List.length_map, ih]
    rw [← List.sum_toFinset _ List.nodup_range]
    rw [show (List.range (n + 1)).toFinset = Finset.range (n + 1) by ext; simp]
    rw [← Finset.sum_range_reflect]
    have : ∀ j ∈ Finset.range (n + 1), (n - (n + 1 - 1 - j) + r).choose r = (j + r).choose r := by
      intro j hj
      rw [Finset.mem_range] at hj
      congr 2; omega
    rw [Finset.sum_congr rfl this]
    exact Nat.sum_range_add_choose n r

/-- C22: for at least one part and a recursion limit that is not reached, `partitions(r, n)` returns a list of all `r`-tuples of non-negative
integers with sum `n`, each exactly once, `(n + r - 1 choose r - 1)` of them. -/
theorem partitions_correct (fuel r n : ℕ) (hr : 1 ≤ r) (hf : r ≤ fuel) :
    ∃ L, partitions fuel r n = .ok L ∧ L.Nodup ∧ (∀ t, t ∈ L ↔ t.length = r ∧ t.sum = n) ∧ L.length = (n + r - 1).choose (r - 1) := by
  obtain ⟨r, rfl⟩ : ∃ s, r = s + 1 := ⟨r - 1, by omega⟩
  exact ⟨_, partitions_ok fuel r n hf, nodup_parts r n, mem_parts r n, length_parts r n⟩

/-- C22: with no parts the recursion does not end: the recursion limit is reached, whatever it is. -/
theorem partitions_zero (fuel n : ℕ) (r : ℤ) (hr : r ≤ 0) : partitions fuel r n = .error .runtimeError := by
  induction fuel generalizing r n with
  | zero => rfl
  | succ f ih =>
    rw [partitions, if_neg (by omega), List.range_succ_eq_map, List.foldlM_cons, ih _ _ (by omega)]
    rfl

/-- Two parts of three. -/
example : ∃ L, partitions 2 2 3 = .ok L ∧ L.length = 4 ∧ [1, 2] ∈ L := by
  obtain ⟨L, h1, _, h2, h3⟩ := partitions_correct 2 2 3 (by norm_num) (by norm_num)
  exact ⟨L, h1, by rw [h3]; decide, by rw [h2]; simp⟩

/-! ### low_rank_hafnian -/

section haf
variable {K : Type} [Field K] {r : ℕ}

/-- the linear form of row `k` -/
noncomputable def lin (r : ℕ) (G : ℕ → ℕ → K) (k : ℕ) : MvPolynomial (Fin r) K := ∑ j : Fin r, C (G k j) * X j

/-- independent standard Gaussian variables: the expectation value of a polynomial -/
noncomputable def gaussE (r : ℕ) : MvPolynomial (Fin r) K →ₗ[K] K := wick (fun _ => 0) fun i j => if i = j then 1 else 0

theorem gaussE_X (i : Fin r) (p : MvPolynomial (Fin r) K) : gaussE r (X i * p) = gaussE r (pderiv i p) := by
  unfold gaussE
  rw [wick_X_mul _ _ (fun i j => by simp [eq_comm])]
  simp

theorem pderiv_lin (G : ℕ → ℕ → K) (i : Fin r) (k : ℕ) : pderiv i (lin r G k) = C (G k i) := by
  simp only [lin, map_sum, pderiv_C_mul, pderiv_X]
  rw [Finset.sum_eq_single i]
  · simp [Algebra.smul_def]
  · intro j _ hj; simp [Pi.single_apply, hj.symm]
  · simp

theorem pderiv_prod (G : ℕ → ℕ → K) (i : Fin r) (l : List ℕ) :
    pderiv i (l.map (lin r G)).prod = eSum (fun y ys => C (G y i) * (ys.map (lin r G)).prod) l := by
  induction l with
  | nil => simp
  | cons x xs ih =>
    rw [List.map_cons, List.prod_cons, Derivation.leibniz, ih, pderiv_lin, eSum_cons, smul_eq_mul, smul_eq_mul, ← eSum_mul_left, add_comm]
    congr 1
    · ring
    · refine eSum_congr fun y ys _ => ?_
      rw [List.map_cons, List.prod_cons]; ring

theorem gaussE_eSum (F : ℕ → List ℕ → MvPolynomial (Fin r) K) (l : List ℕ) :
    gaussE r (eSum F l) = eSum (fun y ys => gaussE r (F y ys)) l := by
  induction l generalizing F with
  | nil => simp
  | cons x xs ih => rw [eSum_cons, map_add, ih, eSum_cons]

theorem eSum_sum' {α : Type} (s : Finset α) (F : α → ℕ → List ℕ → K) (l : List ℕ) :
    ∑ a ∈ s, eSum (F a) l = eSum (fun y ys => ∑ a ∈ s, F a y ys) l := by
  induction l generalizing F with
  | nil => simp
  | cons x xs ih => simp only [eSum_cons, Finset.sum_add_distrib, ih]

theorem gaussE_C (c : K) (p : MvPolynomial (Fin r) K) : gaussE r (C c * p) = c * gaussE r p := by
  rw [← smul_eq_C_mul, map_smul, smul_eq_mul]

theorem gaussE_lin (G : ℕ → ℕ → K) (l : List ℕ) :
    gaussE r (l.map (lin r G)).prod = lh (fun _ => 0) (fun k k' => ∑ j : Fin r, G k j * G k' j) l := by
  induction hn : l.length using Nat.strong_induction_on generalizing l with
  | _ n ih =>
    cases l with
    | nil => simp [gaussE, wick_one]
    | cons x xs =>
      rw [List.map_cons, List.prod_cons, lh_cons, lin, Finset.sum_mul, map_sum]
      simp only [mul_assoc, gaussE_C, gaussE_X, pderiv_prod, gaussE_eSum]
      simp only [← eSum_mul_left]
      rw [eSum_sum', zero_mul, zero_add]
      refine eSum_congr fun y ys hy => ?_
      rw [ih ys.length (by simp at hn; omega) ys rfl, Finset.sum_mul]
      refine Finset.sum_congr rfl fun j _ => ?_
      ring

/-- the moment of a monomial -/
def mom (r : ℕ) (s : Fin r →₀ ℕ) : ℕ := ∏ j, if s j % 2 = 0 then (s j - 1).doubleFactorial else 0

theorem gaussE_monomial (s : Fin r →₀ ℕ) : gaussE r (monomial s (1 : K)) = (mom r s : K) := by
  induction hn : s.degree using Nat.strong_induction_on generalizing s with
  | _ n ih =>
    by_cases hs : s = 0
    · subst hs
      have : (monomial 0 1 : MvPolynomial (Fin r) K) = 1 := rfl
      rw [this, gaussE, wick_one]
      simp [mom]
    · obtain ⟨i, hi⟩ : ∃ i, s i ≠ 0 := by
        by_contra h
        push Not at h
        exact hs (Finsupp.ext h)
      have e1 : (monomial s 1 : MvPolynomial (Fin r) K) = X i * monomial (s - Finsupp.single i 1) 1 := by
        have : Finsupp.single i 1 + (s - Finsupp.single i 1) = s := by
          ext j
          by_cases hj : j = i
          · subst hj
            simp only [Finsupp.coe_add, Finsupp.coe_tsub, Pi.add_apply, Pi.sub_apply, Finsupp.single_eq_same]
            omega
          · simp [Finsupp.single_apply, Ne.symm hj]
        rw [X, monomial_mul, mul_one, this]
      rw [e1, gaussE_X, pderiv_monomial, one_mul]
      set t := s - Finsupp.single i 1 - Finsupp.single i 1 with ht
      have ti : t i = s i - 1 - 1 := by simp [ht]
      have tj : ∀ j, j ≠ i → t j = s j := fun j hj => by simp [ht, Finsupp.single_apply, Ne.symm hj]
      have e2 : (monomial t ((((s - Finsupp.single i 1 : Fin r →₀ ℕ) i : ℕ)) : K)) = C (((s i - 1 : ℕ)) : K) * monomial t 1 := by
        rw [C_mul_monomial, mul_one]; simp
      rw [e2, gaussE_C]
      by_cases h1 : s i = 1
      · rw [h1]
        simp only [Nat.sub_self, Nat.cast_zero, zero_mul]
        rw [mom, Finset.prod_eq_zero (Finset.mem_univ i) (by simp [h1]), Nat.cast_zero]
      · have hd : t.degree < n := by
          rw [← hn]
          simp only [Finsupp.degree_eq_sum]
          refine Finset.sum_lt_sum (fun j _ => ?_) ⟨i, Finset.mem_univ _, by omega⟩
          by_cases hj : j = i
          · subst hj; omega
          · rw [tj j hj]
        rw [ih _ hd t rfl, mom, mom, ← Nat.cast_mul]
        congr 1
        rw [← Finset.mul_prod_erase _ _ (Finset.mem_univ i), ← Finset.mul_prod_erase _ _ (Finset.mem_univ i), ← mul_assoc]
        congr 1
        · rw [ti]
          by_cases h2 : s i % 2 = 0
          · rw [if_pos h2, if_pos (by omega)]
            obtain ⟨m, hm⟩ : ∃ m, s i = m + 1 + 1 := ⟨s i - 2, by omega⟩
            rw [hm]
            simp only [Nat.add_sub_cancel]
            cases m with
            | zero => simp
            | succ m => rw [Nat.doubleFactorial_add_two]; simp
          · rw [if_neg h2, if_neg (by omega), mul_zero]
        · refine Finset.prod_congr rfl fun j hj => ?_
          rw [tj j (Finset.ne_of_mem_erase hj)]

theorem gaussE_eq_sum (p : MvPolynomial (Fin r) K) : gaussE r p = ∑ s ∈ p.support, p.coeff s * (mom r s : K) := by
  conv_lhs => rw [p.as_sum]
  rw [map_sum]
  refine Finset.sum_congr rfl fun s _ => ?_
  rw [← gaussE_monomial, ← gaussE_C, C_mul_monomial, mul_one]

/-- the exponents of the monomial of a list -/
noncomputable def lrExpo (r : ℕ) (c : List ℕ) : Fin r →₀ ℕ := Finsupp.equivFunOnFinite.symm fun j => 2 * c.getD j 0

theorem expo_inj {c d : List ℕ} (hc : c.length = r) (hd : d.length = r) (h : lrExpo r c = lrExpo r d) : c = d := by
  apply List.ext_getElem (by omega)
  intro i h1 h2
  have := DFunLike.congr_fun h ⟨i, by omega⟩
  simp only [lrExpo, Finsupp.equivFunOnFinite_symm_apply_apply] at this
  rw [List.getD_eq_getElem _ _ h1, List.getD_eq_getElem _ _ h2] at this
  omega

theorem sum_getD (c : List ℕ) (hc : c.length = r) : ∑ j : Fin r, c.getD j 0 = c.sum := by
  subst hc
  rw [← List.sum_ofFn]
  congr 1
  apply List.ext_getElem <;> simp

theorem gaussE_parts (p : MvPolynomial (Fin (r + 1)) K) (n : ℕ) (hp : p.IsHomogeneous (2 * n)) :
    gaussE (r + 1) p = ((parts r n).map fun c => p.coeff (lrExpo (r + 1) c) * (mom (r + 1) (lrExpo (r + 1) c) : K)).sum := by
  classical
  rw [gaussE_eq_sum, ← List.sum_toFinset _ (nodup_parts r n)]
  rw [← Finset.sum_image (s := (parts r n).toFinset) (g := lrExpo (r + 1)) (f := fun s => p.coeff s * (mom (r + 1) s : K))]
  · apply Finset.sum_congr_of_eq_on_inter
    · intro s hs hns
      by_cases ha : ∀ j, s j % 2 = 0
      · exfalso
        apply hns
        rw [Finset.mem_image]
        refine ⟨List.ofFn fun j => s j / 2, ?_, ?_⟩
        · rw [List.mem_toFinset, mem_parts]
          refine ⟨by simp, ?_⟩
          rw [List.sum_ofFn]
          have hd : s.degree = 2 * n := by
            by_contra h
            exact (mem_support_iff.mp hs) (hp.coeff_eq_zero h)
          rw [Finsupp.degree_eq_sum] at hd
          have : ∑ j, s j = 2 * ∑ j, s j / 2 := by
            rw [Finset.mul_sum]
            exact Finset.sum_congr rfl fun j _ => by have := ha j; omega
          omega
        · ext j
          simp only [lrExpo, Finsupp.equivFunOnFinite_symm_apply_apply]
          rw [List.getD_eq_getElem _ _ (by simp; omega), List.getElem_ofFn]
          show 2 * (s j / 2) = s j
          have := ha j; omega
      · push Not at ha
        obtain ⟨j, hj⟩ := ha
        rw [mom, Finset.prod_eq_zero (Finset.mem_univ j) (by simp [hj])]
        simp
    · intro s _ hns
      rw [notMem_support_iff.mp hns, zero_mul]
    · intro _ _ _; rfl
  · intro c hc d hd h
    simp only [List.coe_toFinset, Set.mem_ofPred_eq, mem_parts] at hc hd
    exact expo_inj hc.1 hd.1 h

theorem gaussE_odd (p : MvPolynomial (Fin r) K) (n : ℕ) (hn : n % 2 = 1) (hp : p.IsHomogeneous n) : gaussE r p = 0 := by
  rw [gaussE_eq_sum]
  refine Finset.sum_eq_zero fun s hs => ?_
  have hd : s.degree = n := by
    by_contra h
    exact (mem_support_iff.mp hs) (hp.coeff_eq_zero h)
  by_cases ha : ∀ j, s j % 2 = 0
  · exfalso
    rw [Finsupp.degree_eq_sum] at hd
    have : ∑ j, s j = 2 * ∑ j, s j / 2 := by
      rw [Finset.mul_sum]
      exact Finset.sum_congr rfl fun j _ => by have := ha j; omega
    omega
  · push Not at ha
    obtain ⟨j, hj⟩ := ha
    rw [mom, Finset.prod_eq_zero (Finset.mem_univ j) (by simp [hj])]
    simp

theorem lin_homogeneous (G : ℕ → ℕ → K) (k : ℕ) : (lin r G k).IsHomogeneous 1 :=
  IsHomogeneous.sum _ _ _ fun j _ => by simpa using (isHomogeneous_C (Fin r) (G k j)).mul (isHomogeneous_X K j)

theorem prod_homogeneous (G : ℕ → ℕ → K) (l : List ℕ) : (l.map (lin r G)).prod.IsHomogeneous l.length := by
  induction l with
  | nil => exact isHomogeneous_one _ _
  | cons x xs ih =>
    rw [List.map_cons, List.prod_cons, List.length_cons, add_comm]
    exact (lin_homogeneous G x).mul ih

theorem poly_rename (G : ℕ → ℕ → K) (n : ℕ) :
    poly n r G = rename (fun j : Fin r => (j : ℕ)) ((List.range n).map (lin r G)).prod := by
  have hterm : ∀ k m (hm : m ≤ r), (forRange m 0 fun j term => term + C (G k j) * X j : MvPolynomial ℕ K)
      = ∑ j ∈ Finset.range m, C (G k j) * X j := by
    intro k m hm
    induction m with
    | zero => simp
    | succ m ih => rw [forRange_succ, ih (by omega), Finset.sum_range_succ]
  induction n with
  | zero => simp [poly]
  | succ n ih =>
    rw [poly, forRange_succ]
    rw [poly] at ih
    rw [ih, List.range_succ, List.map_append, List.prod_append, map_mul, hterm n r le_rfl]
    simp only [List.map_cons, List.map_nil, List.prod_cons, List.prod_nil, mul_one, lin, map_sum, map_mul, rename_C, rename_X]
    rw [Finset.sum_range]

theorem exponents_eq (c : List ℕ) (hc : c.length = r) :
    exponents c = (lrExpo r c).mapDomain (fun j : Fin r => (j : ℕ)) := by
  have h1 : ∀ m (i : ℕ), (forRange m (0 : ℕ →₀ ℕ) fun i f => f + Finsupp.single i (2 * c.getD i 0)) i = if i < m then 2 * c.getD i 0 else 0 := by
    intro m i
    induction m with
    | zero => simp
    | succ m ih =>
      rw [forRange_succ, Finsupp.add_apply, ih, Finsupp.single_apply]
      by_cases h : m = i
      · subst h; simp
      · by_cases h2 : i < m
        · rw [if_pos h2, if_neg h, if_pos (by omega), add_zero]
        · rw [if_neg h2, if_neg h, if_neg (by omega), add_zero]
  ext i
  rw [exponents, h1]
  by_cases hi : i < r
  · rw [if_pos (by omega)]
    have := Finsupp.mapDomain_apply (f := fun j : Fin r => (j : ℕ)) Fin.val_injective (lrExpo r c) ⟨i, hi⟩
    simp only at this
    rw [this]
    simp [lrExpo]
  · rw [if_neg (by omega), Finsupp.mapDomain_of_notMem_range]
    rintro ⟨j, rfl⟩
    exact hi j.2

theorem facts_eq (c : List ℕ) (hc : c.length = r) : (facts c : K) = (mom r (lrExpo r c) : K) := by
  have h1 : ∀ m, (forRange m 1 fun i f => f * factorial2 K (2 * (c.getD i 0 : ℤ) - 1))
      = ∏ i ∈ Finset.range m, factorial2 K (2 * (c.getD i 0 : ℤ) - 1) := by
    intro m
    induction m with
    | zero => simp
    | succ m ih => rw [forRange_succ, ih, Finset.prod_range_succ]
  rw [facts, h1, hc, Finset.prod_range, mom, Nat.cast_prod]
  refine Finset.prod_congr rfl fun j _ => ?_
  simp only [lrExpo, Finsupp.equivFunOnFinite_symm_apply_apply, factorial2]
  rw [if_pos (by omega)]
  congr 2
  omega

theorem haf_gram (n : ℕ) (G : Matrix (Fin n) (Fin r) K) (junk : ℕ → ℕ → K) :
    Spec.haf (G * G.transpose) = gaussE r ((List.range n).map (lin r (ofMatrix G junk))).prod := by
  rw [gaussE_lin, spec_haf_eq, ← List.map_coe_finRange_eq_range, lh_map]
  apply lh_congr
  · intro i _; rfl
  · intro i _ j _
    simp [Matrix.mul_apply, ofMatrix]

/-- C21: for every matrix `G` with at least one column (and, unless it has exactly one column, at least one row; and fewer columns than the
recursion limit), `low_rank_hafnian(G)` is the hafnian of `G Gᵀ`. -/
theorem lowRankHafnian_correct (fuel n : ℕ) (hr : 1 ≤ r) (hf : r ≤ fuel) (hn : 1 ≤ n ∨ r = 1) (G : Matrix (Fin n) (Fin r) K)
    (junk : ℕ → ℕ → K) :
    lowRankHafnian fuel n r (ofMatrix G junk) = .ok (Spec.haf (G * G.transpose)) := by
  rw [haf_gram n G junk]
  set g := ofMatrix G junk with hg
  have hom := prod_homogeneous (r := r) g (List.range n)
  rw [List.length_range] at hom
  rw [lowRankHafnian]
  by_cases h2 : n % 2 = 0
  · rw [if_neg (by omega)]
    obtain ⟨r, rfl⟩ : ∃ s, r = s + 1 := ⟨r - 1, by omega⟩
    have hom' : (((List.range n).map (lin (r + 1) g)).prod).IsHomogeneous (2 * (n / 2)) := by
      rwa [show 2 * (n / 2) = n by omega]
    have key := gaussE_parts _ (n / 2) hom'
    have e3 : ∀ c ∈ parts r (n / 2), (((List.range n).map (lin (r + 1) g)).prod).coeff (lrExpo (r + 1) c) * (mom (r + 1) (lrExpo (r + 1) c) : K)
        = (poly n (r + 1) g).coeff (exponents c) * facts c := by
      intro c hc
      have hl := ((mem_parts _ _ _).mp hc).1
      rw [facts_eq c hl, exponents_eq c hl, poly_rename, coeff_rename_mapDomain _ Fin.val_injective]
    by_cases h1 : r + 1 = 1
    · rw [if_pos h1]
      obtain rfl : r = 0 := by omega
      rw [key]
      simp only [parts, List.map_cons, List.map_nil, List.sum_cons, List.sum_nil, add_zero]
      congr 1
      have e4 : ∀ n, ((List.range n).map (lin 1 g)).prod = monomial (Finsupp.single 0 n) (forRange n 1 fun k p => p * g k 0) := by
        intro n
        induction n with
        | zero => simp
        | succ n ih =>
          rw [List.range_succ, List.map_append, List.prod_append, ih, forRange_succ]
          simp only [List.map_cons, List.map_nil, List.prod_cons, List.prod_nil, mul_one, lin, Finset.univ_unique, Fin.default_eq_zero,
            Fin.isValue, Finset.sum_singleton, Fin.val_zero]
          rw [X, C_mul_monomial, monomial_mul, mul_one, ← Finsupp.single_add]
      rw [e4]
      have e5 : lrExpo 1 [n / 2] = Finsupp.single 0 n := by
        refine Finsupp.ext fun j => ?_
        obtain rfl : j = 0 := Subsingleton.elim _ _
        simp [lrExpo]; omega
      rw [e5, coeff_monomial, if_pos rfl, mul_comm]
      congr 1
      simp [mom, h2, factorial2]
    · rw [if_neg h1, partitions_ok fuel r (n / 2) hf, key]
      show List.foldlM _ 0 (parts r (n / 2)) = _
      have e6 : ∀ (L : List (List ℕ)) (acc : K), L.foldlM (fun hafVal c =>
          if n = 0 then .error .attributeError else .ok (hafVal + (poly n (r + 1) g).coeff (exponents c) * facts c)) acc
          = (.ok (acc + (L.map fun c => (poly n (r + 1) g).coeff (exponents c) * facts c).sum) : Except PyErr K) := by
        intro L
        induction L with
        | nil => intro acc; simp [pure, Except.pure]
        | cons c L ih =>
          intro acc
          rw [List.foldlM_cons, if_neg (by omega)]
          simp only [bind, Except.bind]
          rw [ih, List.map_cons, List.sum_cons, add_assoc]
      rw [e6, zero_add]
      congr 2
      exact (List.map_congr_left e3).symm
  · rw [if_pos h2, gaussE_odd _ n (by omega) hom]

/-- C21: a matrix without rows and with at least two columns makes `low_rank_hafnian` raise (the hafnian is 1). -/
theorem lowRankHafnian_empty (fuel : ℕ) (hr : 2 ≤ r) (hf : r ≤ fuel) (g : ℕ → ℕ → K) :
    lowRankHafnian fuel 0 r g = .error .attributeError := by
  obtain ⟨r, rfl⟩ : ∃ s, r = s + 1 := ⟨r - 1, by omega⟩
  rw [lowRankHafnian, if_neg (by norm_num), if_neg (by omega), partitions_ok fuel r (0 / 2) hf]
  show List.foldlM _ 0 (parts r 0) = _
  have h : parts r 0 ≠ [] := by
    intro h
    have := length_parts r 0
    rw [h] at this
    simp at this
  obtain ⟨c, L, e⟩ := List.exists_cons_of_ne_nil h
  rw [e, List.foldlM_cons, if_pos rfl]
  rfl

/-- C21: a matrix without columns makes it raise when the number of rows is even. -/
theorem lowRankHafnian_noColumns (fuel n : ℕ) (hn : n % 2 = 0) (g : ℕ → ℕ → K) :
    lowRankHafnian fuel n 0 g = .error .runtimeError := by
  rw [lowRankHafnian, if_neg (by omega), if_neg (by norm_num)]
  show (partitions fuel ((0 : ℕ) : ℤ) (n / 2)).bind _ = _
  rw [partitions_zero fuel (n / 2) _ (by norm_num)]
  rfl

end haf

/-- A 4 × 2 matrix of integers: the hafnian of its Gram matrix. -/
example : lowRankHafnian 2 4 2 (ofMatrix (Matrix.of ![![(1 : ℚ), 0], ![0, 1], ![1, 1], ![1, 2]]) (fun _ _ => 5))
    = .ok (Spec.haf ((Matrix.of ![![(1 : ℚ), 0], ![0, 1], ![1, 1], ![1, 2]]) * (Matrix.of ![![(1 : ℚ), 0], ![0, 1], ![1, 1], ![1, 2]]).transpose)) :=
  lowRankHafnian_correct 2 4 (by norm_num) (by norm_num) (Or.inl (by norm_num)) _ _

end Verif.Props
