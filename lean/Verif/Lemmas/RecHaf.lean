/- Correctness of the recursive hafnian: the recursion equals `z^m` times the hafnian up to higher order. -/
import Verif.Lemmas.Lhaf
import Verif.Model.Hafnian
import Mathlib.Algebra.Polynomial.Eval.Degree
import Mathlib.Algebra.Polynomial.Div
import Mathlib.RingTheory.PowerSeries.Basic
import Mathlib.Tactic.Ring
import Mathlib.Tactic.LinearCombination

set_option linter.unusedSectionVars false
set_option linter.unusedSimpArgs false

namespace Verif
open Model

section abstract
variable {R : Type*} [CommRing R]

/-- remaining matrix after contracting the pair `{0,1}` -/
def contract (z : R) (B : ℕ → ℕ → R) : ℕ → ℕ → R := fun j k =>
  B (j + 2) (k + 2) + z * (B 0 (j + 2) * B 1 (k + 2) + B 0 (k + 2) * B 1 (j + 2))

/-- exact form of `solve` -/
def recS (z : R) : ℕ → (ℕ → ℕ → R) → R
  | 0, _ => 1
  | m + 1, B => -recS z m (fun j k => B (j + 2) (k + 2)) + (1 + z * B 0 1) * recS z m (contract z B)

theorem recS_map {R' : Type*} [CommRing R'] (φ : R →+* R') (z : R) (m : ℕ) (B : ℕ → ℕ → R) :
    φ (recS z m B) = recS (φ z) m (fun j k => φ (B j k)) := by
  induction m generalizing B with
  | zero => simp [recS]
  | succ m ih =>
    simp only [recS, map_add, map_neg, map_mul, map_one, ih]
    congr 3
    funext j k; simp [contract]

theorem eSum_ringHom {ι : Type*} {R' : Type*} [CommRing R'] (φ : R →+* R') (F : ι → List ι → R) (l : List ι) :
    φ (eSum F l) = eSum (fun y ys => φ (F y ys)) l := by
  induction l generalizing F with
  | nil => simp
  | cons x xs ih => simp [eSum_cons, ih]

theorem lh_ringHom {ι : Type*} {R' : Type*} [CommRing R'] (φ : R →+* R') (D : ι → R) (A : ι → ι → R) (l : List ι) :
    φ (lh D A l) = lh (fun i => φ (D i)) (fun i j => φ (A i j)) l := by
  induction hn : l.length using Nat.strong_induction_on generalizing l with
  | _ n ih =>
    cases l with
    | nil => simp [lh, lhN]
    | cons x xs =>
      have hlen : xs.length + 1 = n := by simpa using hn
      rw [lh_cons, lh_cons, map_add, map_mul, eSum_ringHom, ih xs.length (by omega) xs rfl]
      congr 1
      apply eSum_congr
      intro y ys hy
      rw [map_mul, ih ys.length (by omega) ys rfl]

theorem dvd_eSum_sub {ι : Type*} (d : R) {F G : ι → List ι → R} {l : List ι}
    (h : ∀ y ys, ys.length + 1 = l.length → d ∣ F y ys - G y ys) : d ∣ eSum F l - eSum G l := by
  induction l generalizing F G with
  | nil => simp
  | cons x xs ih =>
    rw [eSum_cons, eSum_cons, add_sub_add_comm]
    exact dvd_add (h x xs rfl) (ih fun y ys hy => h y (x :: ys) (by simp; omega))

/-- first-order term of the hafnian in the direction `u vᵀ + v uᵀ` -/
def hafT {ι : Type*} (u v : ι → R) (C : ι → ι → R) (l : List ι) : R :=
  eSum (fun y ys => u y * eSum (fun w ws => v w * lh (fun _ => 0) C ws) ys) l

theorem hafT_cons {ι : Type*} (u v : ι → R) (C : ι → ι → R) (x : ι) (xs : List ι) :
    hafT u v C (x :: xs) = eSum (fun y ys => (u x * v y + u y * v x) * lh (fun _ => 0) C ys) xs
      + eSum (fun y ys => C x y * hafT u v C ys) xs := by
  unfold hafT
  rw [eSum_cons]
  simp only [eSum_cons, lh_cons, zero_mul, zero_add, mul_add, eSum_add, add_mul]
  have e1 : u x * eSum (fun w ws => v w * lh (fun _ => 0) C ws) xs = eSum (fun y ys => u x * v y * lh (fun _ => 0) C ys) xs := by
    rw [← eSum_mul_left]; congr 1; funext y ys; ring
  have e2 : eSum (fun y ys => u y * (v x * lh (fun _ => 0) C ys)) xs = eSum (fun y ys => u y * v x * lh (fun _ => 0) C ys) xs := by
    congr 1; funext y ys; ring
  rw [e1, e2, add_assoc]
  congr 2
  -- triple sums
  simp only [← eSum_mul_left]
  have s1 : eSum (fun y ys => eSum (fun w ws => eSum (fun t ts => u y * (v w * (C x t * lh (fun _ => 0) C ts))) ws) ys) xs
      = eSum (fun y ys => eSum (fun t ts => eSum (fun w ws => u y * (v w * (C x t * lh (fun _ => 0) C ws))) ts) ys) xs := by
    apply eSum_congr; intro y ys _
    exact eSum_swap (fun w t ts => u y * (v w * (C x t * lh (fun _ => 0) C ts))) ys
  have s2 := eSum_swap (fun y t ts => eSum (fun w ws => u y * (v w * (C x t * lh (fun _ => 0) C ws))) ts) xs
  rw [s1, s2]
  apply eSum_congr; intro y ys _
  apply eSum_congr; intro w ws _
  apply eSum_congr; intro t ts _
  ring

theorem hafT_first_order {ι : Type*} (z : R) (u v : ι → R) (C : ι → ι → R) (l : List ι) :
    z ^ 2 ∣ lh (fun _ => 0) (fun j k => C j k + z * (u j * v k + u k * v j)) l
      - (lh (fun _ => 0) C l + z * hafT u v C l) := by
  induction hn : l.length using Nat.strong_induction_on generalizing l with
  | _ n ih =>
    cases l with
    | nil => simp [lh, lhN, hafT]
    | cons x xs =>
      have hlen : xs.length + 1 = n := by simpa using hn
      rw [lh_cons, lh_cons, hafT_cons, zero_mul, zero_mul, zero_add, zero_add, mul_add, ← eSum_mul_left, ← eSum_mul_left,
        ← eSum_add, ← eSum_add]
      apply dvd_eSum_sub
      intro y ys hy
      obtain ⟨q, hq⟩ := ih ys.length (by omega) ys rfl
      rw [sub_eq_iff_eq_add] at hq
      rw [hq]
      exact ⟨(C x y + z * (u x * v y + u y * v x)) * q + (u x * v y + u y * v x) * hafT u v C ys, by ring⟩

theorem range_two_add (m : ℕ) : List.range (2 * (m + 1)) = 0 :: 1 :: (List.range (2 * m)).map (· + 2) := by
  rw [show 2 * (m + 1) = (2 * m + 1) + 1 by ring, List.range_succ_eq_map, List.range_succ_eq_map]
  simp

theorem lh_range_succ (B : ℕ → ℕ → R) (m : ℕ) :
    lh (fun _ => 0) B (List.range (2 * (m + 1))) =
      B 0 1 * lh (fun _ => 0) (fun j k => B (j + 2) (k + 2)) (List.range (2 * m))
      + hafT (fun j => B 0 (j + 2)) (fun j => B 1 (j + 2)) (fun j k => B (j + 2) (k + 2)) (List.range (2 * m)) := by
  rw [range_two_add, lh_cons, zero_mul, zero_add, eSum_cons]
  congr 1
  · rw [lh_map]; rfl
  · rw [eSum_map, hafT]
    apply eSum_congr; intro y ys _
    rw [lh_cons, zero_mul, zero_add, eSum_map]
    congr 1
    apply eSum_congr; intro w ws _
    rw [lh_map]; rfl

end abstract

theorem recS_spec (m : ℕ) : ∀ {R : Type} [CommRing R] (z : R) (B : ℕ → ℕ → R),
    z ^ (m + 1) ∣ recS z m B - z ^ m * lh (fun _ => 0) B (List.range (2 * m)) := by
  induction m with
  | zero => intro R _ z B; simp [recS, lh, lhN]
  | succ m ih =>
    intro R _ z B
    open Polynomial in
    set C : ℕ → ℕ → R := fun j k => B (j + 2) (k + 2) with hC
    set u : ℕ → R := fun j => B 0 (j + 2) with hu
    set v : ℕ → R := fun j => B 1 (j + 2) with hv
    -- the polynomial family
    obtain ⟨Q, hQ⟩ := ih (Polynomial.C z : Polynomial R)
      (fun j k => Polynomial.C (C j k) + Polynomial.X * (Polynomial.C (u j) * Polynomial.C (v k) + Polynomial.C (u k) * Polynomial.C (v j)))
    have at_ : ∀ t : R, recS z m (fun j k => C j k + t * (u j * v k + u k * v j))
        = z ^ m * lh (fun _ => 0) (fun j k => C j k + t * (u j * v k + u k * v j)) (List.range (2 * m)) + z ^ (m + 1) * Q.eval t := by
      intro t
      have := congrArg (Polynomial.evalRingHom t) hQ
      rw [map_sub, map_mul, recS_map, lh_ringHom, map_mul, map_pow, map_pow] at this
      simp only [Polynomial.coe_evalRingHom, Polynomial.eval_C, Polynomial.eval_add, Polynomial.eval_mul, Polynomial.eval_X,
        Polynomial.eval_zero, map_zero] at this
      rw [← this]; ring
    have h0 := at_ 0
    simp only [zero_mul, add_zero] at h0
    have hz := at_ z
    have hcz : contract z B = fun j k => C j k + z * (u j * v k + u k * v j) := rfl
    obtain ⟨q1, hq1⟩ := hafT_first_order z u v C (List.range (2 * m))
    obtain ⟨q2, hq2⟩ : z ∣ Q.eval z - Q.eval 0 := by simpa using Polynomial.sub_dvd_eval_sub z 0 Q
    rw [recS, hcz, lh_range_succ, ← hC, ← hu, ← hv]
    change z ^ (m + 1 + 1) ∣ -recS z m C + _ - _
    have h0' : recS z m C = z ^ m * lh (fun _ => 0) C (List.range (2 * m)) + z ^ (m + 1) * Q.eval 0 := h0
    rw [h0', hz]
    rw [sub_eq_iff_eq_add] at hq1 hq2
    rw [hq1, hq2]
    refine ⟨q1 + q2 + B 0 1 * (hafT u v C (List.range (2 * m)) + z * q1 + z * q2 + Q.eval 0), ?_⟩
    ring

section solve
variable {K : Type} [Field K]
open PowerSeries

theorem tri_succ (j : ℕ) : (j + 1) * j / 2 = j * (j - 1) / 2 + j := by
  cases j with
  | zero => simp
  | succ j =>
    have : (j + 1 + 1) * (j + 1) = (j + 1) * j + (j + 1) * 2 := by ring
    rw [this, Nat.add_mul_div_right _ _ (by norm_num)]; simp

theorem tri_lt {j j' k k' : ℕ} (hj : j < j') (hk : k < j) : j * (j - 1) / 2 + k < j' * (j' - 1) / 2 + k' := by
  have : ∀ d, j * (j - 1) / 2 + j ≤ (j + 1 + d) * (j + d) / 2 := by
    intro d
    induction d with
    | zero => simpa using (tri_succ j).ge
    | succ d ih =>
      have := tri_succ (j + 1 + d)
      have e : j + 1 + d - 1 = j + d := by omega
      rw [e] at this
      have e2 : (j + 1 + (d + 1)) * (j + (d + 1)) = (j + 1 + d + 1) * (j + 1 + d) := by ring
      rw [e2, this]; omega
  obtain ⟨d, rfl⟩ := Nat.exists_eq_add_of_le hj
  have h := this d
  have e : j.succ + d - 1 = j + d := by omega
  rw [e]
  have e2 : j.succ + d = j + 1 + d := by omega
  rw [e2]; omega

theorem tri_inj {j j' k k' : ℕ} (hk : k < j) (hk' : k' < j') (h : j * (j - 1) / 2 + k = j' * (j' - 1) / 2 + k') :
    j = j' ∧ k = k' := by
  rcases Nat.lt_trichotomy j j' with hh | hh | hh
  · have := tri_lt (k' := k') hh hk; omega
  · subst hh; exact ⟨rfl, by omega⟩
  · have := tri_lt (k' := k) hh hk'; omega

/-- the copy loop of `solve` -/
theorem copy_loop (b : ℕ → ℕ → K) (s : ℕ) (hs : 1 ≤ s) :
    let st := forRange2 1 s ((fun _ _ => 0 : ℕ → ℕ → K), 0) fun j st =>
      forRange j st fun k (st : (ℕ → ℕ → K) × ℕ) =>
        (fun r => if r = st.2 then b ((j + 1) * (j + 2) / 2 + k + 2) else st.1 r, st.2 + 1)
    ∀ j k, k < j → j < s → st.1 (j * (j - 1) / 2 + k) = b ((j + 1) * (j + 2) / 2 + k + 2) := by
  have key := forRange2_inv (fun s (st : (ℕ → ℕ → K) × ℕ) => st.2 = s * (s - 1) / 2 ∧
      ∀ j k, k < j → j < s → st.1 (j * (j - 1) / 2 + k) = b ((j + 1) * (j + 2) / 2 + k + 2)) hs
    ((fun _ _ => 0 : ℕ → ℕ → K), 0) (fun j st =>
      forRange j st fun k (st : (ℕ → ℕ → K) × ℕ) =>
        (fun r => if r = st.2 then b ((j + 1) * (j + 2) / 2 + k + 2) else st.1 r, st.2 + 1))
    ⟨by simp, by intro j k h1 h2; omega⟩ ?_
  · exact key.2
  · intro i st hi1 hi2 ⟨h1, h2⟩
    have inner := forRange_inv (fun k' (st' : (ℕ → ℕ → K) × ℕ) => st'.2 = i * (i - 1) / 2 + k' ∧
        (∀ j k, k < j → j < i → st'.1 (j * (j - 1) / 2 + k) = b ((j + 1) * (j + 2) / 2 + k + 2)) ∧
        (∀ k < k', st'.1 (i * (i - 1) / 2 + k) = b ((i + 1) * (i + 2) / 2 + k + 2))) i st
      (fun k (st : (ℕ → ℕ → K) × ℕ) =>
        (fun r => if r = st.2 then b ((i + 1) * (i + 2) / 2 + k + 2) else st.1 r, st.2 + 1))
      ⟨by simpa using h1, h2, by intro k hk; omega⟩ ?_
    · obtain ⟨a1, a2, a3⟩ := inner
      refine ⟨?_, ?_⟩
      · rw [a1]; have := tri_succ i; rw [Nat.add_sub_cancel]; omega
      · intro j k hk hj
        rcases Nat.lt_succ_iff_lt_or_eq.1 hj with h | h
        · exact a2 j k hk h
        · subst h; exact a3 k hk
    · intro k st' hk ⟨a1, a2, a3⟩
      refine ⟨by simp [a1, add_assoc], ?_, ?_⟩
      · intro j k' hk' hj
        have := tri_lt (k' := k) hj hk'
        simp only [a1]
        rw [if_neg (by omega)]
        exact a2 j k' hk' hj
      · intro k' hk'
        simp only [a1]
        rcases Nat.lt_succ_iff_lt_or_eq.1 hk' with h | h
        · rw [if_neg (by omega)]; exact a3 k' h
        · subst h; rw [if_pos rfl]

/-- `row[u+v+1] += F u v`: the result. -/
theorem conv_loop (n : ℕ) (e0 : ℕ → K) (F : ℕ → ℕ → K) (i : ℕ) :
    forRange n e0 (fun u e => forRange (n - u) e fun v e => fun i => if i = u + v + 1 then e i + F u v else e i) i
      = e0 i + if 1 ≤ i ∧ i ≤ n then ∑ u ∈ Finset.range i, F u (i - 1 - u) else 0 := by
  have inner : ∀ (u V : ℕ) (e : ℕ → K) (i : ℕ), forRange V e (fun v e => fun i => if i = u + v + 1 then e i + F u v else e i) i
      = e i + if u + 1 ≤ i ∧ i ≤ u + V then F u (i - 1 - u) else 0 := by
    intro u V e i
    induction V generalizing i with
    | zero => simp only [forRange_zero, Nat.add_zero]; rw [if_neg (by omega), add_zero]
    | succ V ih =>
      rw [forRange_succ]
      rw [ih]
      by_cases h : i = u + V + 1
      · subst h
        rw [if_pos rfl, if_neg (by omega), if_pos (by omega), add_zero]
        congr 2; omega
      · rw [if_neg h]
        congr 1
        by_cases h2 : u + 1 ≤ i ∧ i ≤ u + V
        · rw [if_pos h2, if_pos (by omega)]
        · rw [if_neg h2, if_neg (by omega)]
  have outer : ∀ U, U ≤ n → ∀ i, forRange U e0 (fun u e => forRange (n - u) e fun v e => fun i => if i = u + v + 1 then e i + F u v else e i) i
      = e0 i + if i ≤ n then ∑ u ∈ Finset.range U, if u + 1 ≤ i then F u (i - 1 - u) else 0 else 0 := by
    intro U hU i
    induction U with
    | zero => simp
    | succ U ih =>
      rw [forRange_succ, inner, ih (by omega), Finset.sum_range_succ]
      by_cases h : i ≤ n
      · rw [if_pos h, if_pos h]
        by_cases h2 : U + 1 ≤ i
        · rw [if_pos ⟨h2, by omega⟩, if_pos h2, add_assoc]
        · rw [if_neg (by omega), if_neg h2, add_assoc]
      · rw [if_neg h, if_neg h, if_neg (by omega), add_zero]
  rw [outer n le_rfl]
  congr 1
  by_cases h : i ≤ n
  · rw [if_pos h]
    by_cases h1 : 1 ≤ i
    · rw [if_pos ⟨h1, h⟩, ← Finset.sum_filter]
      apply Finset.sum_congr _ (fun _ _ => rfl)
      ext u; simp; omega
    · rw [if_neg (by omega)]
      apply Finset.sum_eq_zero; intro u _; rw [if_neg (by omega)]
  · rw [if_neg h, if_neg (by omega)]

theorem coeff_X_mul_mul (p q : K⟦X⟧) (i : ℕ) :
    coeff i (X * (p * q)) = if 1 ≤ i then ∑ u ∈ Finset.range i, coeff u p * coeff (i - 1 - u) q else 0 := by
  cases i with
  | zero => simp
  | succ i =>
    rw [coeff_succ_X_mul, coeff_mul, if_pos (by omega), Finset.Nat.sum_antidiagonal_eq_sum_range_succ (fun x y => coeff x p * coeff y q)]
    simp

/-- The row update loop. -/
theorem row_loop (c : ℕ → ℕ → K) (s : ℕ) (hs : 1 ≤ s) (upd : ℕ → ℕ → (ℕ → K) → (ℕ → K)) :
    ∀ j k, k < j → j < s →
      forRange2 1 s c (fun j c => forRange j c fun k c =>
        fun r' => if r' = j * (j - 1) / 2 + k then upd j k (c (j * (j - 1) / 2 + k)) else c r') (j * (j - 1) / 2 + k)
      = upd j k (c (j * (j - 1) / 2 + k)) := by
  have key := forRange2_inv (fun s (c' : ℕ → ℕ → K) =>
      (∀ j k, k < j → j < s → c' (j * (j - 1) / 2 + k) = upd j k (c (j * (j - 1) / 2 + k))) ∧
      (∀ j k, k < j → s ≤ j → c' (j * (j - 1) / 2 + k) = c (j * (j - 1) / 2 + k))) hs c
    (fun j c => forRange j c fun k c =>
        fun r' => if r' = j * (j - 1) / 2 + k then upd j k (c (j * (j - 1) / 2 + k)) else c r')
    ⟨by intro j k h1 h2; omega, by intros; rfl⟩ ?_
  · exact key.1
  · intro i c1 hi1 hi2 ⟨h1, h2⟩
    have inner := forRange_inv (fun K' (c' : ℕ → ℕ → K) =>
        (∀ j k, k < j → j < i ∨ (j = i ∧ k < K') → c' (j * (j - 1) / 2 + k) = upd j k (c (j * (j - 1) / 2 + k))) ∧
        (∀ j k, k < j → i < j ∨ (j = i ∧ K' ≤ k) → c' (j * (j - 1) / 2 + k) = c (j * (j - 1) / 2 + k))) i c1
      (fun k c => fun r' => if r' = i * (i - 1) / 2 + k then upd i k (c (i * (i - 1) / 2 + k)) else c r')
      ⟨?_, ?_⟩ ?_
    · refine ⟨fun j k hk hj => inner.1 j k hk (by omega), fun j k hk hj => inner.2 j k hk (by omega)⟩
    · intro j k hk hj; exact h1 j k hk (by omega)
    · intro j k hk hj; exact h2 j k hk (by omega)
    · intro k0 c' hk0 ⟨a1, a2⟩
      refine ⟨?_, ?_⟩
      · intro j k hk hj
        by_cases h : j = i ∧ k = k0
        · obtain ⟨rfl, rfl⟩ := h
          simp only [if_true]
          rw [a2 j k hk (by omega)]
        · have : j * (j - 1) / 2 + k ≠ i * (i - 1) / 2 + k0 := fun e => h (tri_inj hk hk0 e)
          simp only [if_neg this]
          exact a1 j k hk (by omega)
      · intro j k hk hj
        have : j * (j - 1) / 2 + k ≠ i * (i - 1) / 2 + k0 := fun e => by have := tri_inj hk hk0 e; omega
        simp only [if_neg this]
        exact a2 j k hk (by omega)

theorem solve_eq (n : ℕ) (m : ℕ) : ∀ (b : ℕ → ℕ → K) (B : ℕ → ℕ → K⟦X⟧) (w : K) (g : ℕ → K) (G : K⟦X⟧),
    (∀ j k, k < j → j < 2 * m → ∀ i ≤ n, coeff i (B k j) = b (j * (j - 1) / 2 + k) i) →
    (∀ i ≤ n, coeff i G = g i) →
    solve n m b w g = coeff n (PowerSeries.C w * G * recS X m B) := by
  induction m with
  | zero =>
    intro b B w g G hB hG
    rw [solve, recS, mul_one, coeff_C_mul, hG n le_rfl]
  | succ m ih =>
    intro b B w g G hB hG
    have row : ∀ j, (j + 1) * (j + 2) / 2 = (j + 2) * (j + 2 - 1) / 2 := by
      intro j; rw [mul_comm]; rfl
    have tri0 : ∀ j k, k < j → j < 2 * m → ∀ i ≤ n, coeff i (B (k + 2) (j + 2)) = b ((j + 1) * (j + 2) / 2 + k + 2) i := by
      intro j k hk hj i hi
      rw [row, add_assoc]; exact hB _ _ (by omega) (by omega) i hi
    rw [solve]
    rcases Nat.eq_zero_or_pos m with hm | hm
    · subst hm
      rw [ih _ (fun j k => B (j + 2) (k + 2)) (-w) g G (by intro j k h1 h2; omega) hG]
      rw [ih _ (contract X B) w (polyAcc n g g (b 0)) (G * (1 + X * B 0 1)) (by intro j k h1 h2; omega) ?_]
      · rw [← map_add, show recS X _ B = -recS X _ (fun j k => B (j + 2) (k + 2)) + (1 + X * B 0 1) * recS X _ (contract X B) from rfl, map_neg]; congr 1; ring
      · intro i hi
        rw [polyAcc, conv_loop, mul_add, mul_one, map_add, hG i hi, show G * (X * B 0 1) = X * (G * B 0 1) by ring, coeff_X_mul_mul]
        congr 1
        by_cases h1 : 1 ≤ i
        · rw [if_pos h1, if_pos ⟨h1, hi⟩]
          apply Finset.sum_congr rfl
          intro u hu
          have hu : u < i := by simpa using hu
          rw [hG u (by omega), hB 1 0 (by omega) (by omega) _ (by omega)]
        · rw [if_neg h1, if_neg (by omega)]
    have hcopy := copy_loop b (2 * m) (by omega)
    dsimp only at hcopy
    rw [ih _ (fun j k => B (j + 2) (k + 2)) (-w) g G (fun j k hk hj i hi => by rw [hcopy j k hk hj]; exact tri0 j k hk hj i hi) hG]
    rw [ih _ (contract X B) w (polyAcc n g g (b 0)) (G * (1 + X * B 0 1)) ?_ ?_]
    · rw [← map_add, show recS X _ B = -recS X _ (fun j k => B (j + 2) (k + 2)) + (1 + X * B 0 1) * recS X _ (contract X B) from rfl, map_neg]; congr 1; ring
    · intro j k hk hj i hi
      have := row_loop (forRange2 1 (2 * m) ((fun _ _ => 0 : ℕ → ℕ → K), 0) fun j st =>
          forRange j st fun k (st : (ℕ → ℕ → K) × ℕ) =>
            (fun r => if r = st.2 then b ((j + 1) * (j + 2) / 2 + k + 2) else st.1 r, st.2 + 1)).1 (2 * m) (by omega)
        (fun j k row => forRange n row fun u row => forRange (n - u) row fun v row => fun i =>
          if i = u + v + 1 then
            row i + (b ((j + 1) * (j + 2) / 2) u * b ((k + 1) * (k + 2) / 2 + 1) v
              + b ((k + 1) * (k + 2) / 2) u * b ((j + 1) * (j + 2) / 2 + 1) v)
          else row i) j k hk hj
      refine Eq.trans ?_ (congrFun this i).symm
      rw [conv_loop n _ (fun u v => b ((j + 1) * (j + 2) / 2) u * b ((k + 1) * (k + 2) / 2 + 1) v
              + b ((k + 1) * (k + 2) / 2) u * b ((j + 1) * (j + 2) / 2 + 1) v)]
      rw [hcopy j k hk hj, contract, map_add, tri0 j k hk hj i hi, mul_add X, map_add, coeff_X_mul_mul, coeff_X_mul_mul]
      congr 1
      by_cases h1 : 1 ≤ i
      · rw [if_pos h1, if_pos h1, if_pos ⟨h1, hi⟩, add_comm, ← Finset.sum_add_distrib]
        apply Finset.sum_congr rfl
        intro u hu
        have hu : u < i := by simpa using hu
        have r0 : ∀ j < 2 * m, ∀ i ≤ n, coeff i (B 0 (j + 2)) = b ((j + 1) * (j + 2) / 2) i := by
          intro j hj i hi; rw [row]; exact hB (j + 2) 0 (by omega) (by omega) i hi
        have r1 : ∀ j < 2 * m, ∀ i ≤ n, coeff i (B 1 (j + 2)) = b ((j + 1) * (j + 2) / 2 + 1) i := by
          intro j hj i hi; rw [row]; exact hB (j + 2) 1 (by omega) (by omega) i hi
        rw [r0 j hj u (by omega), r1 k (by omega) _ (by omega), r0 k (by omega) u (by omega), r1 j hj _ (by omega)]
      · rw [if_neg h1, if_neg h1, if_neg (by omega), add_zero]
    · intro i hi
      rw [polyAcc, conv_loop, mul_add, mul_one, map_add, hG i hi, show G * (X * B 0 1) = X * (G * B 0 1) by ring, coeff_X_mul_mul]
      congr 1
      by_cases h1 : 1 ≤ i
      · rw [if_pos h1, if_pos ⟨h1, hi⟩]
        apply Finset.sum_congr rfl
        intro u hu
        have hu : u < i := by simpa using hu
        rw [hG u (by omega), hB 1 0 (by omega) (by omega) _ (by omega)]
      · rw [if_neg h1, if_neg (by omega)]

/-- `recursive_hafnian` on an even-sized square array. -/
theorem recursiveHafnian_eq (n : ℕ) (A : ℕ → ℕ → K) (hs : ∀ i < 2 * n, ∀ j < 2 * n, A i j = A j i) :
    recursiveHafnian (2 * n) (2 * n) A = .ok (lh (fun _ => 0) A (List.range (2 * n))) := by
  have e2 : 2 * n / 2 = n := by omega
  simp only [recursiveHafnian, ne_eq, not_true_eq_false, if_false, e2, Nat.mul_mod_right]
  congr 1
  have hz : ∀ j k, k < j → j < 2 * n →
      forRange2 1 (2 * n) (fun _ _ => (0 : K)) (fun j z =>
        forRange j z fun k z => upd2 z (j * (j - 1) / 2 + k) 0 (A j k)) (j * (j - 1) / 2 + k)
      = fun i => if i = 0 then A j k else 0 := by
    intro j k hk hj
    have := row_loop (fun _ _ => (0 : K)) (2 * n) (by omega) (fun j k row => fun i => if i = 0 then A j k else row i) j k hk hj
    rw [← this]
    have e : (fun (j : ℕ) (z : ℕ → ℕ → K) => forRange j z fun k z => upd2 z (j * (j - 1) / 2 + k) 0 (A j k))
        = fun j c => forRange j c fun k c r' =>
          if r' = j * (j - 1) / 2 + k then fun i => if i = 0 then A j k else c (j * (j - 1) / 2 + k) i else c r' := by
      funext j z
      congr 1
      funext k z
      funext r i
      simp only [upd2]
      by_cases h : r = j * (j - 1) / 2 + k
      · subst h; by_cases h0 : i = 0 <;> simp [h0]
      · simp [h]
    rw [e]
  rw [solve_eq n n _ (fun k j => PowerSeries.C (A j k)) 1 _ 1]
  · obtain ⟨q, hq⟩ := recS_spec n (X : K⟦X⟧) (fun k j => PowerSeries.C (A j k))
    rw [sub_eq_iff_eq_add] at hq
    rw [hq, map_one, one_mul, one_mul, map_add, coeff_X_pow_mul', if_neg (by omega), zero_add, coeff_X_pow_mul', if_pos le_rfl,
      Nat.sub_self, coeff_zero_eq_constantCoeff_apply, lh_ringHom]
    simp only [map_zero, constantCoeff_C]
    apply lh_congr (fun _ _ => rfl)
    intro i hi j hj
    exact hs _ (by simpa using hj) _ (by simpa using hi)
  · intro j k hk hj i hi
    rw [hz j k hk hj, coeff_C]
  · intro i _
    rw [coeff_one]

end solve
end Verif
