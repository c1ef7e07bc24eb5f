/-
**C90** `hafnian_approx` is an unbiased estimator of the hafnian.
-/
import Verif.Model.HafnianApprox
import Verif.Props.Hafnian
import Verif.Props.SamplerLaws
import Mathlib.GroupTheory.Perm.Cycle.Type
import Mathlib.MeasureTheory.Integral.Pi

set_option linter.style.longLine false

namespace Verif.Props
open Verif.Model Verif.Model.Disting Verif.Lemmas Verif.Lemmas.GInt MeasureTheory ProbabilityTheory

/-- the entries of the random matrix -/
theorem oneDetFill_eq (n : ℕ) (B : ℕ → ℕ → ℝ) (g : ℕ → ℝ) (empty : ℕ → ℕ → ℝ) (i j : ℕ) (hi : i < n) (hj : j < n) :
    Law.oneDetFill n B g empty i j = if j < i then B i j * g (n * i + j) else -(B j i * g (n * j + i)) := by
  unfold Law.oneDetFill
  refine forRange_inv (fun m (mat : ℕ → ℕ → ℝ) => ∀ i j, i < m → j < m → mat i j = if j < i then B i j * g (n * i + j) else -(B j i * g (n * j + i))) n empty _ (fun i j h => by omega) (fun m mat hm h => ?_) i j hi hj
  obtain ⟨h1, h2⟩ := forRange_inv (fun k (mat' : ℕ → ℕ → ℝ) => (∀ i j, i ≠ m → j ≠ m → mat' i j = mat i j) ∧
      ∀ j < k, mat' m j = (if j < m ∨ m < j then B m j * g (n * m + j) else -(B m j * g (n * m + j))) ∧ mat' j m = -(B m j * g (n * m + j))) n mat
    (fun j mat => upd2 (upd2 mat m j (B m j * g (n * m + j))) j m (-upd2 mat m j (B m j * g (n * m + j)) m j)) ⟨fun _ _ _ _ => rfl, fun j h => by omega⟩ (fun k mat' hk ⟨h1, h2⟩ => by
      refine ⟨fun i j hi hj => ?_, fun j hj => ?_⟩
      · rw [← h1 i j hi hj]
        simp [upd2, hi, hj]
      · rcases Nat.lt_succ_iff_lt_or_eq.mp hj with hjk | rfl
        · obtain ⟨e1, e2⟩ := h2 j hjk
          by_cases hkm : k = m
          · subst hkm
            constructor
            · rw [← e1]; simp only [upd2]; rw [if_neg (by omega), if_neg (by omega)]
            · rw [← e2]; simp only [upd2]; rw [if_neg (by omega), if_neg (by omega)]
          · by_cases hjm : j = m
            · subst hjm
              have : j ≠ k := fun h => hkm h.symm
              constructor
              · rw [← e1]; simp [upd2, this]
              · rw [← e2]; simp [upd2, this]
            · have : j ≠ k := by omega
              constructor
              · rw [← e1]; simp [upd2, this, hjm]
              · rw [← e2]; simp [upd2, this, hjm]
        · by_cases hjm : j = m
          · subst hjm; simp [upd2]
          · have : j < m ∨ m < j := by omega
            simp [upd2, this, hjm, Ne.symm hjm])
  intro i j hi hj
  change forRange n mat (fun j mat => upd2 (upd2 mat m j (B m j * g (n * m + j))) j m (-upd2 mat m j (B m j * g (n * m + j)) m j)) i j = _
  by_cases him : i = m
  · subst him
    rw [(h2 j (by omega)).1]
    by_cases hji : j < i
    · rw [if_pos (Or.inl hji), if_pos hji]
    · have : j = i := by omega
      subst this
      rw [if_neg (by omega), if_neg hji]
  · by_cases hjm : j = m
    · subst hjm
      rw [(h2 i (by omega)).2, if_neg (by omega)]
    · rw [h1 i j him hjm]
      exact h i j (by omega) (by omega)

/-- moments of the standard normal distribution -/
theorem normal_int (k : ℕ) : Integrable (fun x : ℝ => x ^ k) (gaussianReal 0 1) := by
  have := (memLp_id_gaussianReal (μ := 0) (v := 1) (k : NNReal)).integrable_norm_pow'
  simp only [id, norm_pow] at this
  refine this.mono (by fun_prop) (Filter.Eventually.of_forall fun x => by simp)

theorem normal_one : ∫ x : ℝ, x ^ 1 ∂gaussianReal 0 1 = 0 := by
  simp only [pow_one]
  exact integral_id_gaussianReal

theorem normal_two : ∫ x : ℝ, x ^ 2 ∂gaussianReal 0 1 = 1 := by
  have h := variance_fun_id_gaussianReal (μ := 0) (v := 1)
  rw [variance_eq_integral (by fun_prop)] at h
  simpa [integral_id_gaussianReal] using h

variable {n : ℕ} {κ : Type} [Fintype κ] [DecidableEq κ]

theorem prod_count (e : Fin n → κ) (z : κ → ℝ) : ∏ i, z (e i) = ∏ k, z k ^ (Finset.univ.filter fun i => e i = k).card := by
  rw [← Finset.prod_fiberwise_of_maps_to (g := e) (t := Finset.univ) (fun i _ => Finset.mem_univ _)]
  refine Finset.prod_congr rfl fun k _ => ?_
  rw [Finset.prod_congr rfl (g := fun _ => z k) fun i hi => by rw [(Finset.mem_filter.mp hi).2], Finset.prod_const]

theorem normal_monomial_integrable (e : Fin n → κ) : Integrable (fun z : κ → ℝ => ∏ i, z (e i)) (stdNormal κ) := by
  simp only [prod_count]
  exact Integrable.fintype_prod fun k => normal_int _

/-- a product of standard normal variables in which one occurs once has mean 0 -/
theorem normal_monomial_zero (e : Fin n → κ) (i : Fin n) (hi : ∀ j, e j = e i → j = i) : ∫ z, ∏ i, z (e i) ∂stdNormal κ = 0 := by
  simp only [prod_count]
  rw [stdNormal, integral_fintype_prod_eq_prod (fun k x => x ^ (Finset.univ.filter fun i => e i = k).card)]
  refine Finset.prod_eq_zero (Finset.mem_univ (e i)) ?_
  have : (Finset.univ.filter fun j => e j = e i) = {i} := by
    ext j
    simp only [Finset.mem_filter, Finset.mem_univ, true_and, Finset.mem_singleton]
    exact ⟨hi j, fun h => h ▸ rfl⟩
  rw [this, Finset.card_singleton]
  exact normal_one

/-- a product of standard normal variables each of which occurs twice has mean 1 -/
theorem normal_monomial_one (e : Fin n → κ) (h : ∀ i, (Finset.univ.filter fun j => e j = e i).card = 2) : ∫ z, ∏ i, z (e i) ∂stdNormal κ = 1 := by
  simp only [prod_count]
  rw [stdNormal, integral_fintype_prod_eq_prod (fun k x => x ^ (Finset.univ.filter fun i => e i = k).card)]
  refine Finset.prod_eq_one fun k _ => ?_
  by_cases hk : ∃ i, e i = k
  · obtain ⟨i, rfl⟩ := hk
    rw [h i]
    exact normal_two
  · rw [Finset.filter_false_of_mem fun i _ => fun hi => hk ⟨i, hi⟩, Finset.card_empty]
    simp

omit [Fintype κ] [DecidableEq κ] in
/-- the sign of a matching and its weights -/
theorem matching_sign (σ : Equiv.Perm (Fin n)) (h1 : ∀ i, σ (σ i) = i) (h2 : ∀ i, σ i ≠ i) (c : Fin n → Fin n → ℝ) (A : Fin n → Fin n → ℝ) (hc : ∀ i j, i < j → c i j * c j i = -A i j) :
    ((Equiv.Perm.sign σ : ℤ) : ℝ) * ∏ i, c i (σ i) = ∏ i : Fin n with i < σ i, A i (σ i) := by
  classical
  have hsplit : ∀ i, ¬ i < σ i ↔ σ i < i := fun i => by
    have := h2 i
    rw [not_lt, le_iff_lt_or_eq]
    exact ⟨fun h => h.resolve_right this, Or.inl⟩
  have hre : ∏ i : Fin n with ¬ i < σ i, c i (σ i) = ∏ i : Fin n with i < σ i, c (σ i) i := by
    refine Finset.prod_bij' (fun i _ => σ i) (fun i _ => σ i) ?_ ?_ ?_ ?_ ?_
    · intro i hi
      simp only [Finset.mem_filter, Finset.mem_univ, true_and, h1] at hi ⊢
      exact (hsplit i).mp hi
    · intro i hi
      simp only [Finset.mem_filter, Finset.mem_univ, true_and, h1] at hi ⊢
      exact not_lt.mpr hi.le
    · intro i _; exact h1 i
    · intro i _; exact h1 i
    · intro i _; rw [h1]
  have hcard : (Finset.univ.filter fun i : Fin n => ¬ i < σ i).card = (Finset.univ.filter fun i : Fin n => i < σ i).card := by
    refine Finset.card_bij' (fun i _ => σ i) (fun i _ => σ i) ?_ ?_ ?_ ?_
    · intro i hi
      simp only [Finset.mem_filter, Finset.mem_univ, true_and, h1] at hi ⊢
      exact (hsplit i).mp hi
    · intro i hi
      simp only [Finset.mem_filter, Finset.mem_univ, true_and, h1] at hi ⊢
      exact not_lt.mpr hi.le
    · intro i _; exact h1 i
    · intro i _; exact h1 i
  have hn := Finset.card_filter_add_card_filter_not (s := (Finset.univ : Finset (Fin n))) fun i => i < σ i
  rw [hcard, Finset.card_univ] at hn
  have hs : Equiv.Perm.sign σ = (-1) ^ (Finset.univ.filter fun i : Fin n => i < σ i).card := by
    rw [Equiv.Perm.sign_of_pow_two_eq_one (by ext i; simp [pow_two, h1])]
    have : Fintype.card (Function.fixedPoints σ) = 0 := by
      rw [Fintype.card_eq_zero_iff]
      exact ⟨fun x => h2 x.1 x.2⟩
    rw [this]
    congr 1
    omega
  rw [← Finset.prod_filter_mul_prod_filter_not Finset.univ fun i => i < σ i, hre, ← Finset.prod_mul_distrib,
    Finset.prod_congr rfl (g := fun i => (-1) * A i (σ i)) fun i hi => by rw [hc i (σ i) (Finset.mem_filter.mp hi).2]; ring, Finset.prod_mul_distrib, Finset.prod_const, hs]
  push_cast
  rw [← mul_assoc, ← mul_pow]
  norm_num

/-- the expected determinant -/
theorem expected_det (e : Fin n → Fin n → κ) (he : ∀ i j i' j', e i j = e i' j' ↔ (i = i' ∧ j = j') ∨ (i = j' ∧ j = i')) (c : Fin n → Fin n → ℝ) (A : Matrix (Fin n) (Fin n) ℝ) (hc : ∀ i j, i < j → c i j * c j i = -A i j) :
    Integrable (fun z : κ → ℝ => (Matrix.of fun i j => c i j * z (e i j)).det) (stdNormal κ) ∧ ∫ z, (Matrix.of fun i j => c i j * z (e i j)).det ∂stdNormal κ = Spec.haf A := by
  have hd : ∀ z : κ → ℝ, (Matrix.of fun i j => c i j * z (e i j)).det = ∑ σ : Equiv.Perm (Fin n), (((Equiv.Perm.sign σ : ℤ) : ℝ) * ∏ i, c i (σ i)) * ∏ i, z (e i (σ i)) := fun z => by
    rw [← Matrix.det_transpose, Matrix.det_apply']
    refine Finset.sum_congr rfl fun σ _ => ?_
    rw [mul_assoc, ← Finset.prod_mul_distrib]
    rfl
  have hi : ∀ σ : Equiv.Perm (Fin n), Integrable (fun z : κ → ℝ => (((Equiv.Perm.sign σ : ℤ) : ℝ) * ∏ i, c i (σ i)) * ∏ i, z (e i (σ i))) (stdNormal κ) := fun σ =>
    (normal_monomial_integrable fun i => e i (σ i)).const_mul _
  simp only [hd]
  refine ⟨integrable_finsetSum _ fun σ _ => hi σ, ?_⟩
  rw [integral_finsetSum _ fun σ _ => hi σ, Spec.haf, Finset.sum_filter]
  refine Finset.sum_congr rfl fun σ _ => ?_
  rw [integral_const_mul]
  split_ifs with h
  · rw [normal_monomial_one (fun i => e i (σ i)) fun i => ?_, mul_one]
    · exact matching_sign σ h.1 h.2 c A hc
    · have : (Finset.univ.filter fun j => e j (σ j) = e i (σ i)) = {i, σ i} := by
        ext j
        simp only [Finset.mem_filter, Finset.mem_univ, true_and, Finset.mem_insert, Finset.mem_singleton, he]
        constructor
        · rintro (h | h)
          · exact Or.inl h.1
          · exact Or.inr h.1
        · rintro (rfl | rfl)
          · exact Or.inl ⟨rfl, rfl⟩
          · exact Or.inr ⟨rfl, h.1 i⟩
      rw [this, Finset.card_pair (h.2 i).symm]
  · rw [not_and_or] at h
    have : ∃ i, ∀ j, e j (σ j) = e i (σ i) → j = i := by
      by_cases hf : ∃ i, σ i = i
      · obtain ⟨i, hi⟩ := hf
        refine ⟨i, fun j hj => ?_⟩
        rw [he, hi] at hj
        rcases hj with h | h <;> exact h.1
      · push Not at hf
        rcases h with h | h
        · push Not at h
          obtain ⟨i, hi⟩ := h
          refine ⟨i, fun j hj => ?_⟩
          rw [he] at hj
          rcases hj with h | h
          · exact h.1
          · exact absurd (h.1 ▸ h.2) hi
        · exact absurd hf h
    obtain ⟨i, hi⟩ := this
    rw [normal_monomial_zero (fun i => e i (σ i)) i hi, mul_zero]

/-- **C90** one determinant: it is integrable and its expected value is the hafnian of the matrix of squares -/
theorem oneDet_mean (B : ℕ → ℕ → ℝ) (hB : ∀ i j, i < n → j < n → B i j = B j i) (empty : ℕ → ℕ → ℝ) (a b : ℝ) :
    Law.oneDet n B empty (fun x => a + b * x) = a + b * Spec.haf (Matrix.of fun i j : Fin n => B i j ^ 2) := by
  classical
  obtain ⟨hi, hv⟩ := expected_det (n := n) (κ := Fin (n * n)) (fun i j => finProdFinEquiv (max i j, min i j)) (fun i j i' j' => by
      rw [EmbeddingLike.apply_eq_iff_eq, Prod.mk.injEq]
      simp only [Fin.ext_iff, Fin.coe_max, Fin.coe_min]
      omega)
    (fun i j => if j < i then B i j else -B j i) (Matrix.of fun i j : Fin n => B i j ^ 2) (fun i j hij => by
      simp only [hij, if_neg (not_lt.mpr hij.le), if_true, Matrix.of_apply]
      rw [hB i j i.2 j.2]; ring)
  have hd : ∀ z : Fin (n * n) → ℝ, Matrix.det (Matrix.of fun i j : Fin n => Law.oneDetFill n B (fun i => if h : i < n * n then z ⟨i, h⟩ else 0) empty i j) =
      (Matrix.of fun i j : Fin n => (if j < i then B i j else -B j i) * z (finProdFinEquiv (max i j, min i j))).det := fun z => by
    congr 1
    ext i j
    rw [Matrix.of_apply, Matrix.of_apply, oneDetFill_eq n B _ empty i j i.2 j.2]
    have hlt : ∀ i j : Fin n, n * (i : ℕ) + j < n * n := fun i j => by
      have := (finProdFinEquiv (i, j)).2
      rw [finProdFinEquiv_apply_val] at this
      simpa [add_comm] using this
    have hz : ∀ i j : Fin n, (if h : n * (i : ℕ) + j < n * n then z ⟨n * (i : ℕ) + j, h⟩ else 0) = z (finProdFinEquiv (i, j)) := fun i j => by
      rw [dif_pos (hlt i j)]
      congr 1
      exact Fin.ext (by rw [finProdFinEquiv_apply_val]; simp [add_comm])
    by_cases h : j < i
    · have h' : (j : ℕ) < i := h
      rw [if_pos h', if_pos h, hz, max_eq_left h.le, min_eq_right h.le]
    · have h' : ¬ (j : ℕ) < i := h
      rw [if_neg h', if_neg h, hz, max_eq_right (not_lt.mp h), min_eq_left (not_lt.mp h)]
      ring
  unfold Law.oneDet
  rw [expect_bind]
  simp only [expect_pure, Law.normals, hd]
  change ∫ z, _ ∂stdNormal (Fin (n * n)) = _
  rw [integral_add (integrable_const _) (hi.const_mul b), integral_const_mul, hv, integral_const]
  simp

/-- **C90** the average of the determinants: every affine function of it has the expected value it should, in particular the estimate is unbiased -/
theorem hafnianApprox_mean (A : ℕ → ℕ → ℝ) (hA : ∀ i j, i < n → j < n → A i j = A j i) (h0 : ∀ i j, i < n → j < n → 0 ≤ A i j) (empty : ℕ → ℕ → ℝ) (m : ℕ) (hm : 0 < m) :
    Law.hafnianApprox n A m empty id = Spec.haf (Matrix.of fun i j : Fin n => A i j) := by
  have hB : (Matrix.of fun i j : Fin n => Real.sqrt (A i j) ^ 2) = Matrix.of fun i j : Fin n => A i j := by
    ext i j
    exact Real.sq_sqrt (h0 i j i.2 j.2)
  have hs := fun a b => oneDet_mean (n := n) (fun i j => Real.sqrt (A i j)) (fun i j hi hj => by rw [hA i j hi hj]) empty a b
  rw [hB] at hs
  have key : ∀ (m : ℕ) (a b : ℝ), Law.repeatE (Law.oneDet n (fun i j => Real.sqrt (A i j)) empty) m (fun l => a + b * l.sum) = a + b * (m * Spec.haf (Matrix.of fun i j : Fin n => A i j)) := by
    intro m
    induction m with
    | zero => intro a b; simp [Law.repeatE, expect_pure]
    | succ m ih =>
      intro a b
      rw [Law.repeatE, expect_bind]
      simp only [expect_bind, expect_pure, List.sum_cons]
      have : ∀ x : ℝ, Law.repeatE (Law.oneDet n (fun i j => Real.sqrt (A i j)) empty) m (fun l => a + b * (x + l.sum)) = (a + b * (m * Spec.haf (Matrix.of fun i j : Fin n => A i j))) + b * x := fun x => by
        have := ih (a + b * x) b
        rw [show (fun l : List ℝ => a + b * (x + l.sum)) = fun l => a + b * x + b * l.sum from funext fun l => by ring, this]
        ring
      simp only [this, hs]
      push_cast
      ring
  have h := key m 0 (1 / m)
  unfold Law.hafnianApprox
  rw [expect_bind]
  simp only [expect_pure, id]
  rw [show (fun l : List ℝ => l.sum / (m : ℝ)) = fun l : List ℝ => 0 + 1 / (m : ℝ) * l.sum from funext fun l => by rw [zero_add, one_div, div_eq_mul_inv, mul_comm], h]
  have : (m : ℝ) ≠ 0 := by positivity
  rw [zero_add, ← mul_assoc, one_div, inv_mul_cancel₀ this, one_mul]

/-- the front end: small and diagonal matrices are answered as without `approx`, otherwise negative entries are refused -/
theorem approxFront_eq (close : ℝ → ℝ → Bool) (hrefl : ∀ x, close x x = true) (A : Matrix (Fin n) (Fin n) ℝ) (hA : A.IsSymm) (junk : ℕ → ℕ → Option ℝ) (loop : Bool) (m : ℕ) (empty : ℕ → ℕ → ℝ) :
    Law.hafnianApproxFront close (PyObj.ofMatrix A junk) loop m empty =
      if n ≤ 2 ∨ n = 4 ∨ (n % 2 ≠ 0 ∧ loop = false) ∨ allClose2 close n n (diagDiag (entries A junk)) (entries A junk) = true ∨ (n = 3 ∧ loop = true) then
        (hafnian powertrace close (PyObj.ofMatrix A junk) loop "glynn").map pure
      else if (List.range n).any (fun i => (List.range n).any fun j => decide (entries A junk i j < 0)) then .error .valueError
      else .ok (Law.hafnianApprox n (entries A junk) m empty) := by
  unfold Law.hafnianApproxFront hafnian
  rw [inputValidation_ok close hrefl A hA junk]
  have h1d : n = 1 → allClose2 close n n (diagDiag (entries A junk)) (entries A junk) = true := fun h => by
    subst h
    rw [allClose2_eq_true]
    intro i hi j hj
    obtain rfl : i = 0 := by omega
    obtain rfl : j = 0 := by omega
    exact hrefl _
  generalize entries A junk = a at *
  show (if n = 0 then _ else _) = _
  by_cases h0 : n = 0
  · rw [if_pos h0, if_pos (show n ≤ 2 ∨ n = 4 ∨ (n % 2 ≠ 0 ∧ loop = false) ∨ allClose2 close n n (diagDiag a) a = true ∨ (n = 3 ∧ loop = true) from Or.inl (by omega))]
    simp only [bind, Except.bind]
    rw [if_pos h0]; rfl
  rw [if_neg h0]
  by_cases hodd : n % 2 ≠ 0 ∧ loop = false
  · rw [if_pos hodd, if_pos (show n ≤ 2 ∨ n = 4 ∨ (n % 2 ≠ 0 ∧ loop = false) ∨ allClose2 close n n (diagDiag a) a = true ∨ (n = 3 ∧ loop = true) by tauto)]
    simp only [bind, Except.bind]
    rw [if_neg h0, if_pos hodd]; rfl
  rw [if_neg hodd]
  by_cases hdd : allClose2 close n n (diagDiag a) a = true
  · rw [if_pos hdd, if_pos (show n ≤ 2 ∨ n = 4 ∨ (n % 2 ≠ 0 ∧ loop = false) ∨ allClose2 close n n (diagDiag a) a = true ∨ (n = 3 ∧ loop = true) by tauto)]
    simp only [bind, Except.bind]
    rw [if_neg h0, if_neg hodd, if_pos hdd]
    cases loop <;> rfl
  rw [if_neg hdd]
  by_cases h2 : n = 2
  · rw [if_pos h2, if_pos (show n ≤ 2 ∨ n = 4 ∨ (n % 2 ≠ 0 ∧ loop = false) ∨ allClose2 close n n (diagDiag a) a = true ∨ (n = 3 ∧ loop = true) from Or.inl (by omega))]
    simp only [bind, Except.bind]
    rw [if_neg h0, if_neg hodd, if_neg hdd, if_pos h2]
    cases loop <;> rfl
  rw [if_neg h2]
  by_cases h3 : n = 3 ∧ loop = true
  · rw [if_pos h3, if_pos (show n ≤ 2 ∨ n = 4 ∨ (n % 2 ≠ 0 ∧ loop = false) ∨ allClose2 close n n (diagDiag a) a = true ∨ (n = 3 ∧ loop = true) by tauto)]
    simp only [bind, Except.bind]
    rw [if_neg h0, if_neg hodd, if_neg hdd, if_neg h2, if_pos h3]; rfl
  rw [if_neg h3]
  by_cases h4 : n = 4
  · rw [if_pos h4, if_pos (show n ≤ 2 ∨ n = 4 ∨ (n % 2 ≠ 0 ∧ loop = false) ∨ allClose2 close n n (diagDiag a) a = true ∨ (n = 3 ∧ loop = true) by tauto)]
    simp only [bind, Except.bind]
    rw [if_neg h0, if_neg hodd, if_neg hdd, if_neg h2, if_neg h3, if_pos h4]
    cases loop <;> rfl
  rw [if_neg h4, if_neg (show ¬ (n ≤ 2 ∨ n = 4 ∨ (n % 2 ≠ 0 ∧ loop = false) ∨ allClose2 close n n (diagDiag a) a = true ∨ (n = 3 ∧ loop = true)) by
    rintro (h | h | h | h | h)
    · have : n = 1 := by omega
      exact hdd (h1d this)
    · exact h4 h
    · exact hodd h
    · exact hdd h
    · exact h3 h)]
  rfl

/-- **C90** `hafnian(A, approx=True, num_samples=m)` of a symmetric matrix with non-negative entries: whatever the branch, the expected value of the result is the hafnian -/
theorem hafnianApproxFront_correct (A : Matrix (Fin n) (Fin n) ℝ) (hA : A.IsSymm) (hpos : ∀ i j, 0 ≤ A i j) (junk : ℕ → ℕ → Option ℝ) (m : ℕ) (hm : 0 < m) (empty : ℕ → ℕ → ℝ) :
    ∃ E, Law.hafnianApproxFront (isClose 0 0) (PyObj.ofMatrix A junk) false m empty = .ok E ∧ E id = Spec.haf A := by
  rw [approxFront_eq (isClose 0 0) (isClose_refl le_rfl le_rfl) A hA junk, hafnian_correct A hA junk "glynn" (Or.inl rfl)]
  split
  · exact ⟨_, rfl, rfl⟩
  split
  · rename_i h2
    rw [List.any_eq_true] at h2
    obtain ⟨i, hi, h2⟩ := h2
    rw [List.any_eq_true] at h2
    obtain ⟨j, hj, h2⟩ := h2
    rw [entries_lt A junk (List.mem_range.mp hi) (List.mem_range.mp hj)] at h2
    exact absurd (hpos _ _) (not_le.mpr (by simpa using h2))
  · refine ⟨_, rfl, ?_⟩
    rw [hafnianApprox_mean (entries A junk) (fun i j hi hj => entries_symm A hA junk i hi j hj) (fun i j hi hj => by rw [entries_lt A junk hi hj]; exact hpos _ _) empty m hm]
    congr 1
    ext i j
    exact entries_fin A junk i j

/-- **C90** a negative entry off the diagonal is refused for even sizes from six on -/
theorem hafnianApproxFront_raises (A : Matrix (Fin n) (Fin n) ℝ) (hA : A.IsSymm) (hn : 6 ≤ n) (he : n % 2 = 0) (i j : Fin n) (hij : i ≠ j) (hneg : A i j < 0) (junk : ℕ → ℕ → Option ℝ) (loop : Bool) (m : ℕ) (empty : ℕ → ℕ → ℝ) :
    Law.hafnianApproxFront (isClose 0 0) (PyObj.ofMatrix A junk) loop m empty = .error .valueError := by
  rw [approxFront_eq (isClose 0 0) (isClose_refl le_rfl le_rfl) A hA junk, if_neg, if_pos]
  · rw [List.any_eq_true]
    refine ⟨i, List.mem_range.mpr i.2, ?_⟩
    rw [List.any_eq_true]
    refine ⟨j, List.mem_range.mpr j.2, ?_⟩
    rw [entries_fin]
    simpa using hneg
  · rintro (h | h | h | h | h)
    · omega
    · omega
    · omega
    · rw [allClose2_eq_true] at h
      have := h i i.2 j j.2
      rw [isClose_zero, diagDiag, if_neg (fun h => hij (Fin.ext h)), entries_fin] at this
      exact hneg.ne this.symm
    · omega

/-- **C90** finding: with `loop=True` the estimate is still that of the hafnian without loops -/
theorem hafnianApproxFront_loop (A : Matrix (Fin n) (Fin n) ℝ) (hA : A.IsSymm) (hpos : ∀ i j, 0 ≤ A i j) (hn : 5 ≤ n) (i j : Fin n) (hij : i ≠ j) (hne : A i j ≠ 0) (junk : ℕ → ℕ → Option ℝ) (m : ℕ) (hm : 0 < m) (empty : ℕ → ℕ → ℝ) :
    ∃ E, Law.hafnianApproxFront (isClose 0 0) (PyObj.ofMatrix A junk) true m empty = .ok E ∧ E id = Spec.haf A := by
  rw [approxFront_eq (isClose 0 0) (isClose_refl le_rfl le_rfl) A hA junk, if_neg, if_neg]
  · refine ⟨_, rfl, ?_⟩
    rw [hafnianApprox_mean (entries A junk) (fun i j hi hj => entries_symm A hA junk i hi j hj) (fun i j hi hj => by rw [entries_lt A junk hi hj]; exact hpos _ _) empty m hm]
    congr 1
    ext i j
    exact entries_fin A junk i j
  · intro h2
    rw [List.any_eq_true] at h2
    obtain ⟨i, hi, h2⟩ := h2
    rw [List.any_eq_true] at h2
    obtain ⟨j, hj, h2⟩ := h2
    rw [entries_lt A junk (List.mem_range.mp hi) (List.mem_range.mp hj)] at h2
    exact absurd (hpos _ _) (not_le.mpr (by simpa using h2))
  · rintro (h | h | h | h | h)
    · omega
    · omega
    · simp at h
    · rw [allClose2_eq_true] at h
      have := h i i.2 j j.2
      rw [isClose_zero, diagDiag, if_neg (fun h => hij (Fin.ext h)), entries_fin] at this
      exact hne this.symm
    · omega

/-- a non-trivial case of the hypotheses: the complete graph on six vertices -/
example : (Matrix.of fun i j : Fin 6 => if i = j then (0 : ℝ) else 1).IsSymm ∧ ∀ i j, 0 ≤ (Matrix.of fun i j : Fin 6 => if i = j then (0 : ℝ) else 1) i j :=
  ⟨by ext i j; simp [eq_comm], fun i j => by rw [Matrix.of_apply]; split_ifs <;> norm_num⟩

end Verif.Props
