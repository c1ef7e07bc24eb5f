/-
The montrealer as a sum over walks.
-/
import Verif.Lemmas.Dihedral
import Verif.Lemmas.Householder
import Verif.Model.Montrealer
import Verif.Spec.Montrealer
import Verif.Props.Torontonian

namespace Verif.Lemmas.Mtl
open Finset Equiv Verif.Model Verif.Model.Mtl Verif.Lemmas.Dih Verif.Spec

set_option linter.unusedSectionVars false

/-! #### dec2bin -/

theorem two_pow_testBit (n i : ℕ) : n / 2 ^ i % 2 ≠ 0 ↔ n.testBit i = true := by
  rw [Nat.testBit_eq_decide_div_mod_eq]
  simp

theorem dec2binLoop_ok (n fuel written : ℕ) (digits : ℕ → ℕ) (nn : ℕ) (hf : nn ≤ fuel) (hn : nn < 2 ^ (n - written)) (hw : written ≤ n) :
    ∃ d, dec2binLoop n fuel written digits nn = .ok d ∧
      ∀ i < n, d i = if n - 1 - i < written then digits i else if nn / 2 ^ (n - 1 - i - written) % 2 = 0 ∧ nn < 2 ^ (n - 1 - i - written) then digits i
        else nn / 2 ^ (n - 1 - i - written) % 2 := by
  induction fuel generalizing written digits nn with
  | zero =>
    obtain rfl : nn = 0 := by omega
    exact ⟨digits, by simp [dec2binLoop], fun i hi => by simp⟩
  | succ fuel ih =>
    by_cases h0 : nn ≥ 1
    · have hwn : written < n := by
        by_contra hc
        obtain rfl : written = n := by omega
        simp at hn; omega
      obtain ⟨d, hd, hd'⟩ := ih (written + 1) (Function.update digits (n - 1 - written) (nn % 2)) (nn / 2) (by omega)
        (by
          have : 2 ^ (n - written) = 2 * 2 ^ (n - (written + 1)) := by rw [← pow_succ']; congr 1; omega
          omega) (by omega)
      refine ⟨d, by rw [dec2binLoop, if_pos h0, if_neg (by omega), hd], fun i hi => ?_⟩
      rw [hd' i hi]
      by_cases h1 : n - 1 - i < written
      · rw [if_pos (by omega), if_pos h1, Function.update_of_ne (by omega)]
      · rw [if_neg h1]
        by_cases h2 : n - 1 - i = written
        · rw [if_pos (by omega)]
          have : i = n - 1 - written := by omega
          rw [this, Function.update_self, show n - 1 - (n - 1 - written) - written = 0 by omega]
          rw [if_neg (by simp; omega)]; simp
        · rw [if_neg (by omega), Function.update_of_ne (by omega)]
          have e : n - 1 - i - written = n - 1 - i - (written + 1) + 1 := by omega
          rw [e, pow_succ', ← Nat.div_div_eq_div_mul]
          have e2 : nn / 2 < 2 ^ (n - 1 - i - (written + 1)) ↔ nn < 2 * 2 ^ (n - 1 - i - (written + 1)) := by omega
          simp only [e2]
    · obtain rfl : nn = 0 := by omega
      exact ⟨digits, by simp [dec2binLoop], fun i hi => by simp⟩

/-- `dec2bin` returns the positions of the set bits, the most significant bit first. -/
theorem dec2bin_eq (num n : ℕ) (h : num < 2 ^ n) : dec2bin num n = .ok ((List.range n).filter fun i => num.testBit (n - 1 - i)) := by
  obtain ⟨d, hd, hd'⟩ := dec2binLoop_ok n num 0 (fun _ => 0) num le_rfl (by simpa using h) (by omega)
  unfold dec2bin
  rw [hd]
  simp only [bind, Except.bind, pure, Except.pure, Except.ok.injEq]
  refine List.filter_congr fun i hi => ?_
  rw [List.mem_range] at hi
  have := hd' i hi
  simp only [Nat.not_lt_zero, if_false, Nat.sub_zero] at this
  have e : d i = num / 2 ^ (n - 1 - i) % 2 := by
    rw [this]; split_ifs with h3
    · exact h3.1.symm
    · rfl
  rw [e, Nat.testBit_eq_decide_div_mod_eq]
  have := Nat.mod_two_eq_zero_or_one (num / 2 ^ (n - 1 - i))
  rcases this with h4 | h4 <;> simp [h4]

theorem dec2bin_error (num n : ℕ) (h : 2 ^ n ≤ num) : dec2bin num n = .error .indexError := by
  have key : ∀ fuel written digits nn, nn ≤ fuel → written ≤ n → 2 ^ (n - written) ≤ nn → dec2binLoop n fuel written digits nn = .error .indexError := by
    intro fuel
    induction fuel with
    | zero =>
      intro w d nn h1 h2 h3
      have := Nat.one_le_two_pow (n := n - w)
      omega
    | succ fuel ih =>
      intro w d nn h1 h2 h3
      have := Nat.one_le_two_pow (n := n - w)
      rw [dec2binLoop, if_pos (by omega)]
      split_ifs with h4
      · rfl
      · apply ih _ _ _ (by omega) (by omega)
        have : 2 ^ (n - w) = 2 * 2 ^ (n - (w + 1)) := by rw [← pow_succ']; congr 1; omega
        omega
  unfold dec2bin
  rw [key num 0 _ num le_rfl (by omega) (by simpa using h)]
  rfl

/-- the subsets of the modes, as finsets -/
def bitSet (n p : ℕ) : Finset ℕ := (Finset.range n).filter fun i => p.testBit (n - 1 - i)

theorem dec2bin_toFinset (num n : ℕ) : ((List.range n).filter fun i => num.testBit (n - 1 - i)).toFinset = bitSet n num := by
  ext; simp [bitSet]

theorem sum_bitSet (n : ℕ) {R : Type*} [AddCommMonoid R] (F : Finset ℕ → R) :
    ((List.range (2 ^ n)).map fun p => F (bitSet n p)).sum = ∑ S ∈ (Finset.range n).powerset, F S := by
  rw [← List.sum_toFinset _ List.nodup_range]
  refine Finset.sum_bij (fun p _ => bitSet n p) ?_ ?_ ?_ (fun _ _ => rfl)
  · intro p _; exact Finset.mem_powerset.mpr (Finset.filter_subset _ _)
  · intro p hp q hq h
    simp only [List.mem_toFinset, List.mem_range] at hp hq
    apply Nat.eq_of_testBit_eq
    intro i
    by_cases hi : i < n
    · have := congrArg (n - 1 - i ∈ ·) h
      simp only [bitSet, Finset.mem_filter, Finset.mem_range, eq_iff_iff] at this
      rw [show n - 1 - (n - 1 - i) = i by omega] at this
      have h1 : n - 1 - i < n := by omega
      simp only [h1, true_and] at this
      exact Bool.eq_iff_iff.mpr this
    · rw [Nat.testBit_lt_two_pow (lt_of_lt_of_le hp (Nat.pow_le_pow_right (by omega) (by omega))),
        Nat.testBit_lt_two_pow (lt_of_lt_of_le hq (Nat.pow_le_pow_right (by omega) (by omega)))]
  · intro S hS
    rw [Finset.mem_powerset] at hS
    refine ⟨Nat.ofBits (fun i : Fin n => decide (n - 1 - (i : ℕ) ∈ S)), ?_, ?_⟩
    · simp [Nat.ofBits_lt_two_pow]
    · ext i
      simp only [bitSet, Finset.mem_filter, Finset.mem_range]
      constructor
      · rintro ⟨hi, h⟩
        rw [Nat.testBit_ofBits_lt _ _ (by omega)] at h
        simp only [decide_eq_true_eq] at h
        rwa [show n - 1 - (n - 1 - i) = i by omega] at h
      · intro hi
        have := Finset.mem_range.mp (hS hi)
        refine ⟨this, ?_⟩
        rw [Nat.testBit_ofBits_lt _ _ (by omega)]
        simp only [decide_eq_true_eq]
        rwa [show n - 1 - (n - 1 - i) = i by omega]

/-! #### Walks -/

/-- the product of the steps of a walk -/
def steps {W K : Type*} [CommMonoid K] {m : ℕ} (M : W → W → K) (w : Fin (m + 1) → W) : K := ∏ k : Fin m, M (w k.castSucc) (w k.succ)

theorem sum_walks {W K : Type*} [Fintype W] [DecidableEq W] [CommRing K] (m : ℕ) (M : Matrix W W K) (g : W → W → K) :
    ∑ w : Fin (m + 1) → W, steps M w * g (w 0) (w (Fin.last m)) = ∑ u, ∑ v, (M ^ m) u v * g u v := by
  induction m generalizing g with
  | zero =>
    simp only [steps, Finset.univ_eq_empty, Finset.prod_empty, one_mul, pow_zero, Matrix.one_apply, ite_mul, zero_mul, Finset.sum_ite_eq, Finset.mem_univ, if_true]
    rw [← (Equiv.funUnique (Fin 1) W).symm.sum_comp]
    rfl
  | succ m ih =>
    rw [← (Fin.consEquiv fun _ => W).sum_comp, Fintype.sum_prod_type]
    refine Finset.sum_congr rfl fun u _ => ?_
    have := ih (fun x y => M u x * g u y)
    have e : ∀ w : Fin (m + 1) → W, steps M (Fin.consEquiv (fun _ => W) (u, w)) * g (Fin.consEquiv (fun _ => W) (u, w) 0) (Fin.consEquiv (fun _ => W) (u, w) (Fin.last (m + 1)))
        = steps M w * (M u (w 0) * g u (w (Fin.last m))) := by
      intro w
      simp only [Fin.consEquiv_apply, steps, Fin.prod_univ_succ (n := m), Fin.castSucc_zero, Fin.cons_zero, Fin.cons_succ, ← Fin.succ_castSucc]
      rw [show Fin.last (m + 1) = (Fin.last m).succ from rfl, Fin.cons_succ]
      ring
    simp only [e]
    rw [this, pow_succ']
    simp only [Matrix.mul_apply, Finset.sum_mul]
    rw [Finset.sum_comm]
    refine Finset.sum_congr rfl fun y _ => Finset.sum_congr rfl fun x _ => by ring

open Classical in
theorem sum_subwalks {W V K : Type*} [Fintype W] [Fintype V] [AddCommMonoid K] {k : ℕ} (e : W → V) (he : Function.Injective e) (F : (Fin k → V) → K) :
    ∑ w : Fin k → W, F (e ∘ w) = ∑ w : Fin k → V with (∀ i, w i ∈ Set.range e), F w := by
  have hinj : Function.Injective (fun w : Fin k → W => e ∘ w) := fun a b h => funext fun i => he (congrFun h i)
  rw [← Finset.sum_image (f := F) (g := fun w : Fin k → W => e ∘ w) (s := univ) (fun a _ b _ h => hinj h)]
  refine Finset.sum_congr ?_ fun _ _ => rfl
  ext w
  simp only [Finset.mem_image, Finset.mem_univ, true_and, Finset.mem_filter]
  constructor
  · rintro ⟨a, rfl⟩ i; exact ⟨a i, rfl⟩
  · intro h
    choose a ha using h
    exact ⟨a, funext ha⟩

/-! #### Weights -/

theorem prod_edges {V K : Type*} [Fintype V] [LinearOrder V] [CommMonoid K] (σ : Perm V) (hσ : ∀ v, σ (σ v) = v) (A : V → V → K)
    (hA : ∀ i j, A i j = A j i) (R : Finset V) (hR : ∀ i ∈ R, σ i ≠ i ∧ σ i ∉ R) (hc : ∀ i, σ i ≠ i → i ∈ R ∨ σ i ∈ R) :
    ∏ i : V with i < σ i, A i (σ i) = ∏ i ∈ R, A i (σ i) := by
  classical
  refine Finset.prod_bij' (fun i _ => if i ∈ R then i else σ i) (fun r _ => if r < σ r then r else σ r) ?_ ?_ ?_ ?_ ?_
  · intro i hi
    have := (mem_filter.mp hi).2
    split_ifs with h
    · exact h
    · exact (hc i (ne_of_gt this)).resolve_left h
  · intro r hr
    split_ifs with h
    · exact mem_filter.mpr ⟨mem_univ _, h⟩
    · refine mem_filter.mpr ⟨mem_univ _, ?_⟩
      rw [hσ]
      exact lt_of_le_of_ne (not_lt.mp h) (hR r hr).1
  · intro i hi
    have := (mem_filter.mp hi).2
    by_cases h : i ∈ R
    · simp [h, this]
    · simp [h, hσ, not_lt.mpr this.le]
  · intro r hr
    by_cases h : r < σ r
    · simp [h, hr]
    · simp [h, (hR r hr).2, hσ]
  · intro i hi
    split_ifs with h
    · rfl
    · rw [hσ, hA]

section weights
variable {K : Type*} [CommMonoid K] {V : Type*} [Fintype V] [LinearOrder V] (τ : Perm V) {m : ℕ} (hcard : Fintype.card V = 2 * (m + 1))
  (A : V → V → K) (hA : ∀ i j, A i j = A j i) (w : Fin (m + 1) → V) (hw : Good τ w) (σ : Perm V) (hσ : ∀ v, σ (σ v) = v)

include hcard hA hw hσ

theorem weight_cyc (h : CycRel τ σ w) :
    steps (fun u v => A (τ u) v) w * A (τ (w (Fin.last m))) (w 0) = ∏ i : V with i < σ i, A i (σ i) := by
  have hinj : Function.Injective fun k => τ (w k) := fun i j hij => by
    have := @hw (i, true) (j, true) (by simpa [spread] using hij)
    exact (Prod.ext_iff.mp this).1
  have hnot : ∀ i j, w i ≠ τ (w j) := fun i j hij => by
    have := @hw (i, false) (j, true) (by simpa [spread] using hij)
    simp at this
  rw [prod_edges σ hσ A hA (univ.image fun k => τ (w k)), Finset.prod_image fun a _ b _ hab => hinj hab]
  · simp only [h _]
    rw [Fin.prod_univ_castSucc, Fin.last_add_one]
    congr 1
    refine Finset.prod_congr rfl fun k _ => ?_
    rw [Fin.coeSucc_eq_succ]
  · intro i hi
    obtain ⟨k, -, rfl⟩ := mem_image.mp hi
    simp only [h _]
    refine ⟨hnot _ _, fun hc => ?_⟩
    obtain ⟨j, -, hj⟩ := mem_image.mp hc
    exact hnot _ _ hj.symm
  · intro i _
    rcases good_cover τ w hw hcard i with ⟨k, rfl⟩ | ⟨k, rfl⟩
    · right
      have := h (k - 1)
      rw [sub_add_cancel] at this
      rw [← this, hσ]
      exact mem_image_of_mem _ (mem_univ _)
    · left; exact mem_image_of_mem _ (mem_univ _)

theorem weight_path (D : V → K) (h : PathRel τ σ w) :
    steps (fun u v => A (τ u) v) w * (D (w 0) * D (τ (w (Fin.last m)))) =
      (∏ i : V with i < σ i, A i (σ i)) * ∏ i : V with σ i = i, D i := by
  have hinj : Function.Injective fun k : Fin m => τ (w k.castSucc) := fun i j hij => by
    have := @hw (i.castSucc, true) (j.castSucc, true) (by simpa [spread] using hij)
    simpa using this
  have hnot : ∀ i j, w i ≠ τ (w j) := fun i j hij => by
    have := @hw (i, false) (j, true) (by simpa [spread] using hij)
    simp at this
  congr 1
  · rw [prod_edges σ hσ A hA (univ.image fun k : Fin m => τ (w k.castSucc)), Finset.prod_image fun a _ b _ hab => hinj hab]
    · exact Finset.prod_congr rfl fun k _ => by rw [h.2.1]
    · intro i hi
      obtain ⟨k, -, rfl⟩ := mem_image.mp hi
      rw [h.2.1]
      refine ⟨hnot _ _, fun hc => ?_⟩
      obtain ⟨j, -, hj⟩ := mem_image.mp hc
      exact hnot _ _ hj.symm
    · intro i hi
      rcases good_cover τ w hw hcard i with ⟨k, rfl⟩ | ⟨k, rfl⟩
      · right
        induction k using Fin.cases with
        | zero => exact absurd h.1 hi
        | succ k =>
          rw [← h.2.1, hσ]
          exact mem_image_of_mem _ (mem_univ _)
      · left
        induction k using Fin.lastCases with
        | last => exact absurd h.2.2 hi
        | cast k => exact mem_image_of_mem _ (mem_univ _)
  · have : (univ.filter fun x => σ x = x) = {w 0, τ (w (Fin.last m))} := by
      ext x
      simp only [mem_filter, mem_univ, true_and, mem_insert, mem_singleton]
      constructor
      · intro hx
        rcases good_cover τ w hw hcard x with ⟨k, rfl⟩ | ⟨k, rfl⟩
        · induction k using Fin.cases with
          | zero => left; rfl
          | succ k =>
            exfalso
            rw [← h.2.1, hσ, h.2.1] at hx
            exact hnot _ _ hx.symm
        · induction k using Fin.lastCases with
          | last => right; rfl
          | cast k =>
            exfalso
            rw [h.2.1] at hx
            exact hnot _ _ hx
      · rintro (rfl | rfl)
        · exact h.1
        · exact h.2.2
    rw [this, Finset.prod_pair (hnot _ _)]

end weights

/-! #### Partners -/

theorem partner_partner {n : ℕ} (i : Fin (2 * n)) : partner (partner i) = i := by
  have := i.2
  apply Fin.ext
  unfold partner
  by_cases h : (i : ℕ) < n
  · simp [h]
  · simp only [h, dite_false]
    have h2 : (i : ℕ) - n < n := by omega
    simp only [h2, dite_true]; omega

theorem partner_ne {n : ℕ} (i : Fin (2 * n)) : partner i ≠ i := by
  have := i.2
  intro h
  have := congrArg Fin.val h
  unfold partner at this
  split_ifs at this <;> simp at this <;> omega

/-- the partner map as a permutation -/
def tau (n : ℕ) : Perm (Fin (2 * n)) := Function.Involutive.toPerm partner partner_partner

@[simp] theorem tau_apply {n : ℕ} (i : Fin (2 * n)) : tau n i = partner i := rfl

theorem connected_iff {n : ℕ} (σ : Perm (Fin (2 * n))) : Connected σ ↔ Conn σ (tau n) := Iff.rfl

theorem partner_mod {n : ℕ} (i : Fin (2 * n)) : (partner i : ℕ) % n = (i : ℕ) % n := by
  have := i.2
  unfold partner
  by_cases h : (i : ℕ) < n
  · simp [h]
  · simp only [h, dite_false]
    rw [← Nat.mod_eq_sub_mod (by omega)]

theorem eq_or_partner {n : ℕ} (i j : Fin (2 * n)) (h : (i : ℕ) % n = (j : ℕ) % n) : i = j ∨ i = partner j := by
  have hi := i.2
  have hj := j.2
  have key : ∀ x : ℕ, x < 2 * n → x % n = if x < n then x else x - n := by
    intro x hx
    split_ifs with h1
    · exact Nat.mod_eq_of_lt h1
    · rw [Nat.mod_eq_sub_mod (by omega), Nat.mod_eq_of_lt (by omega)]
  rw [key _ hi, key _ hj] at h
  rw [Fin.ext_iff, Fin.ext_iff]
  unfold partner
  split_ifs at h with h1 h2 h2
  · left; exact h
  · right; simp [h2]; omega
  · right; simp [h2]; omega
  · left; omega

/-- A walk meets every pair of partners once if it visits all modes. -/
theorem good_iff {m : ℕ} (w : Fin (m + 1) → Fin (2 * (m + 1))) :
    Good (tau (m + 1)) w ↔ Finset.range (m + 1) ⊆ univ.image fun k => ((w k : ℕ) % (m + 1)) := by
  have hsub : (univ.image fun k => ((w k : ℕ) % (m + 1))) ⊆ Finset.range (m + 1) := by
    intro x hx
    obtain ⟨k, -, rfl⟩ := mem_image.mp hx
    exact Finset.mem_range.mpr (Nat.mod_lt _ (by omega))
  have hcardinj : (Finset.range (m + 1) ⊆ univ.image fun k => ((w k : ℕ) % (m + 1))) ↔ Function.Injective fun k => ((w k : ℕ) % (m + 1)) := by
    constructor
    · intro h
      have h1 : (univ.image fun k => ((w k : ℕ) % (m + 1))).card = (univ : Finset (Fin (m + 1))).card := by
        rw [Finset.Subset.antisymm hsub h]; simp
      intro a b hab
      exact Finset.card_image_iff.mp h1 (by simp) (by simp) hab
    · intro h
      rw [Finset.eq_of_subset_of_card_le hsub]
      rw [Finset.card_image_of_injective _ h]; simp
  rw [hcardinj]
  constructor
  · intro h a b hab
    rcases eq_or_partner _ _ hab with e | e
    · have := @h (a, false) (b, false) (by simpa [spread] using e)
      simpa using this
    · have := @h (a, false) (b, true) (by simpa [spread] using e)
      simp at this
  · rintro h ⟨a, b⟩ ⟨c, d⟩ he
    have hm : ((w a : ℕ) % (m + 1)) = (w c : ℕ) % (m + 1) := by
      have := congrArg (fun x : Fin (2 * (m + 1)) => (x : ℕ) % (m + 1)) he
      unfold spread at this
      cases b <;> cases d <;> simpa [partner_mod] using this
    obtain rfl := h hm
    cases b <;> cases d
    · rfl
    · simp [spread] at he; exact absurd he.symm (partner_ne _)
    · simp [spread] at he; exact absurd he (partner_ne _)
    · rfl

/-! #### Inclusion–exclusion over the modes -/

theorem incl_excl_sets {K : Type*} [CommRing K] (R T : Finset ℕ) (hT : T ⊆ R) :
    ∑ S ∈ R.powerset, (-1 : K) ^ S.card * (if T ⊆ S then 1 else 0) = if R ⊆ T then (-1) ^ R.card else 0 := by
  have h := Finset.prod_add (fun _ : ℕ => (-1 : K)) (fun i => if i ∈ T then 0 else 1) R
  have h1 : ∀ i, (-1 : K) + (if i ∈ T then 0 else 1) = if i ∈ T then -1 else 0 := by intro i; split <;> norm_num
  simp only [h1] at h
  rw [Finset.prod_ite_zero, Finset.prod_const] at h
  rw [if_congr (show R ⊆ T ↔ ∀ i ∈ R, i ∈ T from Iff.rfl) rfl rfl, h]
  refine Finset.sum_congr rfl fun S hS => ?_
  rw [Finset.prod_const]
  congr 1
  have h2 : ∀ i, (if i ∈ T then (0 : K) else 1) = if i ∉ T then 1 else 0 := by intro i; split_ifs <;> rfl
  simp only [h2]
  rw [Finset.prod_ite_zero, Finset.prod_const_one]
  refine if_congr ?_ rfl rfl
  constructor
  · intro h3 i hi hiT
    exact (Finset.mem_sdiff.mp hi).2 (h3 hiT)
  · intro h3 i hi
    by_contra hn
    exact h3 i (Finset.mem_sdiff.mpr ⟨hT hi, hn⟩) hi

open Classical in
theorem incl_excl_walks {m : ℕ} (F : (Fin (m + 1) → Fin (2 * (m + 1))) → ℂ) :
    ∑ S ∈ (Finset.range (m + 1)).powerset, (-1 : ℂ) ^ (S.card + 1) *
        ∑ w : Fin (m + 1) → Fin (2 * (m + 1)) with (∀ i, (w i : ℕ) % (m + 1) ∈ S), F w =
      (-1) ^ (m + 1 + 1) * ∑ w : Fin (m + 1) → Fin (2 * (m + 1)) with Good (tau (m + 1)) w, F w := by
  simp only [Finset.mul_sum, Finset.sum_filter]
  rw [Finset.sum_comm]
  refine Finset.sum_congr rfl fun w _ => ?_
  have h := incl_excl_sets (K := ℂ) (Finset.range (m + 1)) (univ.image fun k => ((w k : ℕ) % (m + 1))) (by
    intro x hx
    obtain ⟨k, -, rfl⟩ := mem_image.mp hx
    exact Finset.mem_range.mpr (Nat.mod_lt _ (by omega)))
  have e : ∀ S : Finset ℕ, (∀ i, (w i : ℕ) % (m + 1) ∈ S) ↔ (univ.image fun k => ((w k : ℕ) % (m + 1))) ⊆ S := by
    intro S
    rw [Finset.image_subset_iff]; simp
  have e1 : ∀ S : Finset ℕ, (-1 : ℂ) ^ (S.card + 1) * (if ∀ i, (w i : ℕ) % (m + 1) ∈ S then F w else 0) =
      (-F w) * ((-1) ^ S.card * if (univ.image fun k => ((w k : ℕ) % (m + 1))) ⊆ S then 1 else 0) := by
    intro S
    rw [if_congr (e S) rfl rfl]
    split_ifs <;> ring
  simp only [e1]
  rw [← Finset.mul_sum, h, if_congr (good_iff w) rfl rfl, Finset.card_range]
  split_ifs <;> ring

/-! #### One term of the fast sum -/

theorem powertraceList_length (d : ℕ) (H : ℕ → ℕ → ℂ) (n : ℕ) (hd : 2 ≤ d) (hn : 2 ≤ n) : (powertraceList d H n).length = n := by
  have first : ∀ k, (forRange k (([(d : ℂ), Model.trace d H], H) : List ℂ × (ℕ → ℕ → ℂ)) fun _ st =>
      let A := matMul d st.2 H
      (st.1 ++ [Model.trace d A], A)).1.length = k + 2 := by
    intro k
    induction k with
    | zero => rfl
    | succ k ih =>
      rw [forRange_succ]
      simp only [List.length_append, List.length_singleton, ih]
  have second : ∀ (cp : ℕ → ℂ) (l : List ℂ) (k : ℕ), (forRange k l fun _ pt =>
      pt ++ [forRange d 0 fun k s => s - cp k * pt.getD (pt.length - k - 1) 0]).length = l.length + k := by
    intro cp l k
    induction k with
    | zero => rfl
    | succ k ih => rw [forRange_succ, List.length_append, ih]; simp; omega
  unfold powertraceList
  dsimp only
  split_ifs with h
  · rw [first]; omega
  · rw [second, first]; omega

/-- the last power trace that the code takes -/
theorem powertrace_last (d : ℕ) (H : ℕ → ℕ → ℂ) (n : ℕ) (hd : d ≠ 1) (hn : 1 ≤ n) :
    (powertraceList d H (n + 1)).getLastD 0 = ((toMatrix d d H) ^ n).trace := by
  obtain ⟨h1, h2⟩ := powertraceList_spec d H (n + 1)
  have hne : (powertraceList d H (n + 1)).length ≠ 0 := by omega
  have hl : (powertraceList d H (n + 1)).getLastD 0 = (powertraceList d H (n + 1)).getD ((powertraceList d H (n + 1)).length - 1) 0 := by
    rw [List.getLastD_eq_getLast?, List.getLast?_eq_getElem?, List.getD_eq_getElem?_getD]
  rw [hl, h1 _ (by omega)]
  rcases Nat.eq_zero_or_pos d with rfl | hpos
  · simp [Matrix.trace]
  · rw [powertraceList_length d H (n + 1) (by omega) (by omega)]
    simp

section term
variable {m : ℕ} (P : List ℕ) (hP : P.Nodup) (hlt : ∀ x ∈ P, x < m + 1)

include hP hlt

theorem both_lt (a : ℕ) (ha : a < (both (m + 1) P).length) : (both (m + 1) P).getD a 0 < 2 * (m + 1) := by
  rw [List.getD_eq_getElem _ _ ha]
  have := List.getElem_mem ha
  rcases List.mem_append.mp this with h | h
  · have := hlt _ h; omega
  · obtain ⟨x, hx, e⟩ := List.mem_map.mp h
    have := hlt _ hx; omega

/-- the positions of the submatrix -/
def place (a : Fin (both (m + 1) P).length) : Fin (2 * (m + 1)) := ⟨(both (m + 1) P).getD a 0, both_lt P hP hlt a a.2⟩

theorem both_nodup : (both (m + 1) P).Nodup := by
  refine List.nodup_append.mpr ⟨hP, (List.nodup_map_iff (fun a b h => by simpa using h)).mpr hP, ?_⟩
  intro a ha b hb e
  obtain ⟨x, hx, rfl⟩ := List.mem_map.mp hb
  have := hlt _ ha
  omega

theorem place_inj : Function.Injective (place P hP hlt) := by
  intro a b h
  have := congrArg Fin.val h
  simp only [place] at this
  rw [List.getD_eq_getElem _ _ a.2, List.getD_eq_getElem _ _ b.2] at this
  exact Fin.ext ((both_nodup P hP hlt).getElem_inj_iff.mp this)

theorem mem_range_place (v : Fin (2 * (m + 1))) : v ∈ Set.range (place P hP hlt) ↔ (v : ℕ) % (m + 1) ∈ P.toFinset := by
  have hv := v.2
  have hmem : v ∈ Set.range (place P hP hlt) ↔ (v : ℕ) ∈ both (m + 1) P := by
    constructor
    · rintro ⟨a, rfl⟩
      simp only [place]
      rw [List.getD_eq_getElem _ _ a.2]
      exact List.getElem_mem _
    · intro h
      obtain ⟨a, ha, e⟩ := List.getElem_of_mem h
      refine ⟨⟨a, ha⟩, Fin.ext ?_⟩
      simp only [place]
      rw [List.getD_eq_getElem _ _ ha, e]
  rw [hmem, List.mem_toFinset]
  unfold both
  rw [List.mem_append, List.mem_map]
  by_cases h : (v : ℕ) < m + 1
  · rw [Nat.mod_eq_of_lt h]
    constructor
    · rintro (h1 | ⟨x, hx, e⟩)
      · exact h1
      · omega
    · exact Or.inl
  · rw [Nat.mod_eq_sub_mod (by omega), Nat.mod_eq_of_lt (by omega)]
    constructor
    · rintro (h1 | ⟨x, hx, e⟩)
      · have := hlt _ h1; omega
      · rwa [← e, Nat.add_sub_cancel_left]
    · intro h1; right; exact ⟨_, h1, by omega⟩

theorem sub_eq (Sigma : ℕ → ℕ → ℂ) :
    toMatrix (both (m + 1) P).length (both (m + 1) P).length (sub Sigma (both (m + 1) P)) =
      (toMatrix (2 * (m + 1)) (2 * (m + 1)) Sigma).submatrix (place P hP hlt) (place P hP hlt) := rfl

open Classical in
/-- a sum over the powers of the submatrix is a sum over the walks on the listed modes -/
theorem sub_walks (Sigma : ℕ → ℕ → ℂ) (g : Fin (2 * (m + 1)) → Fin (2 * (m + 1)) → ℂ) :
    ∑ u, ∑ v, ((toMatrix (both (m + 1) P).length (both (m + 1) P).length (sub Sigma (both (m + 1) P))) ^ m) u v * g (place P hP hlt u) (place P hP hlt v) =
      ∑ w : Fin (m + 1) → Fin (2 * (m + 1)) with (∀ i, (w i : ℕ) % (m + 1) ∈ P.toFinset),
        steps (fun u v : Fin (2 * (m + 1)) => Sigma u v) w * g (w 0) (w (Fin.last m)) := by
  rw [← sum_walks m _ fun u v => g (place P hP hlt u) (place P hP hlt v)]
  have := sum_subwalks (place P hP hlt) (place_inj P hP hlt) (k := m + 1)
    (fun w => steps (fun u v : Fin (2 * (m + 1)) => Sigma u v) w * g (w 0) (w (Fin.last m)))
  simp only [mem_range_place P hP hlt] at this
  rw [← this]
  rfl

open Classical in
theorem trace_walks (Sigma : ℕ → ℕ → ℂ) :
    (powertraceList (both (m + 1) P).length (sub Sigma (both (m + 1) P)) (m + 1 + 1)).getLastD 0 =
      ∑ w : Fin (m + 1) → Fin (2 * (m + 1)) with (∀ i, (w i : ℕ) % (m + 1) ∈ P.toFinset),
        steps (fun u v : Fin (2 * (m + 1)) => Sigma u v) w * Sigma (w (Fin.last m)) (w 0) := by
  rw [powertrace_last _ _ _ (by simp [both]; omega) (by omega), pow_succ, Matrix.trace,
    ← sub_walks P hP hlt Sigma fun u v : Fin (2 * (m + 1)) => Sigma v u]
  refine Finset.sum_congr rfl fun u _ => ?_
  rw [Matrix.diag_apply, Matrix.mul_apply]
  rfl

theorem forRange_matVec (d : ℕ) (H : ℕ → ℕ → ℂ) (z : ℕ → ℂ) (k : ℕ) (i : Fin d) :
    (forRange k z fun _ v => matVec d H v) i = ∑ j : Fin d, ((toMatrix d d H) ^ k) i j * z j := by
  induction k generalizing i with
  | zero => simp [Matrix.one_apply]
  | succ k ih =>
    rw [forRange_succ, matVec, dot_eq, pow_succ', dotProduct]
    simp only [ih, Matrix.mul_apply, Finset.sum_mul, Finset.mul_sum]
    rw [Finset.sum_comm]
    refine Finset.sum_congr rfl fun j _ => Finset.sum_congr rfl fun x _ => ?_
    rw [mul_assoc]; rfl

open Classical in
theorem powerLoop_walks (Sigma : ℕ → ℕ → ℂ) (zeta : ℕ → ℂ) :
    powerLoop (both (m + 1) P).length (sub Sigma (both (m + 1) P)) (fun a => zeta ((both (m + 1) P).getD a 0)) (m + 1) =
      ∑ w : Fin (m + 1) → Fin (2 * (m + 1)) with (∀ i, (w i : ℕ) % (m + 1) ∈ P.toFinset),
        steps (fun u v : Fin (2 * (m + 1)) => Sigma u v) w * ((starRingEnd ℂ) (zeta (w 0)) * zeta (w (Fin.last m))) := by
  rw [← sub_walks P hP hlt Sigma fun u v : Fin (2 * (m + 1)) => (starRingEnd ℂ) (zeta u) * zeta v]
  unfold powerLoop
  dsimp only
  rw [dot_eq, Nat.add_sub_cancel, dotProduct]
  refine Finset.sum_congr rfl fun u _ => ?_
  rw [forRange_matVec P hP hlt, Finset.mul_sum]
  refine Finset.sum_congr rfl fun v _ => ?_
  simp only [place]
  ring

end term

end Verif.Lemmas.Mtl
