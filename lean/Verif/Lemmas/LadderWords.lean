/-
Products of ladder operators: commutation, and the corresponding rule for sums over pairings.
-/
import Verif.Spec.LadderWords
import Verif.Lemmas.Lhaf
import Verif.Lemmas.PermL
import Verif.Lemmas.Hermite

set_option linter.unusedSectionVars false
set_option linter.unusedSimpArgs false

namespace Verif.Lemmas.Word
open Verif Verif.Spec Verif.Lemmas

/-! ### Pairings of an ordered list -/

theorem lh_swap {ι K : Type*} [CommRing K] (D : ι → K) (C : ι → ι → K) (x y : ι) (n : ℕ) : ∀ u v : List ι, u.length + v.length = n →
    lh D C (u ++ x :: y :: v) = lh D C (u ++ y :: x :: v) + (C x y - C y x) * lh D C (u ++ v) := by
  induction n using Nat.strong_induction_on with
  | _ n ih =>
    intro u v hn
    cases u with
    | nil =>
      simp only [List.nil_append, lh_cons, eSum_cons]
      have h1 : ∀ a b : ι, eSum (fun z zs => C a z * (D b * lh D C zs + eSum (fun w ws => C b w * lh D C ws) zs)) v = D b * eSum (fun z zs => C a z * lh D C zs) v + eSum (fun z zs => eSum (fun w ws => C a z * (C b w * lh D C ws)) zs) v := by
        intro a b
        rw [← eSum_mul_left, ← eSum_add]
        refine eSum_congr fun z zs _ => ?_
        rw [eSum_mul_left]
        ring
      rw [h1 x y, h1 y x, eSum_swap (fun z w ws => C y z * (C x w * lh D C ws))]
      have h2 : eSum (fun z zs => eSum (fun w ws => C y w * (C x z * lh D C ws)) zs) v = eSum (fun z zs => eSum (fun w ws => C x z * (C y w * lh D C ws)) zs) v := by
        refine eSum_congr fun z zs _ => eSum_congr fun w ws _ => ?_
        ring
      rw [h2]
      ring
    | cons a u =>
      simp only [List.length_cons] at hn
      simp only [List.cons_append, lh_cons, eSum_append, eSum_cons]
      rw [ih (u.length + v.length) (by omega) u v rfl]
      have e1 : eSum (fun z zs => C a z * lh D C (zs ++ x :: y :: v)) u = eSum (fun z zs => C a z * lh D C (zs ++ y :: x :: v)) u + (C x y - C y x) * eSum (fun z zs => C a z * lh D C (zs ++ v)) u := by
        rw [← eSum_mul_left, ← eSum_add]
        refine eSum_congr fun z zs hz => ?_
        rw [ih (zs.length + v.length) (by omega) zs v rfl]
        ring
      have e2 : eSum (fun z zs => C a z * lh D C (u ++ x :: y :: zs)) v = eSum (fun z zs => C a z * lh D C (u ++ y :: x :: zs)) v + (C x y - C y x) * eSum (fun z zs => C a z * lh D C (u ++ zs)) v := by
        rw [← eSum_mul_left, ← eSum_add]
        refine eSum_congr fun z zs hz => ?_
        rw [ih (u.length + zs.length) (by omega) u zs rfl]
        ring
      rw [e1, e2]
      ring

theorem eSum_congr_pw {ι K : Type*} [CommRing K] {F G : ι → List ι → K} {l : List ι} (h : ∀ y ys, y ∈ l → ys.Sublist l → ys.length + 1 = l.length → F y ys = G y ys) : eSum F l = eSum G l := by
  induction l generalizing F G with
  | nil => rfl
  | cons x xs ih =>
    rw [eSum_cons, eSum_cons, h x xs (by simp) (List.sublist_cons_self _ _) (by simp)]
    congr 1
    exact ih fun y ys hy hs hl => h y (x :: ys) (by simp [hy]) (hs.cons₂ x) (by simp; omega)

theorem lh_congr_pw {ι K : Type*} [CommRing K] {D : ι → K} {C C' : ι → ι → K} {l : List ι} (h : l.Pairwise fun x y => C x y = C' x y) : lh D C l = lh D C' l := by
  induction hn : l.length using Nat.strong_induction_on generalizing l with
  | _ n ih =>
    cases l with
    | nil => rfl
    | cons x xs =>
      simp only [List.length_cons] at hn
      rw [List.pairwise_cons] at h
      rw [lh_cons, lh_cons, ih xs.length (by omega) h.2 rfl]
      congr 1
      refine eSum_congr_pw fun y ys hy hs hl => ?_
      rw [h.1 y hy, ih ys.length (by omega) (h.2.sublist hs) rfl]

/-! ### Ladder operators -/

variable {N : ℕ}

theorem ladderAct_add (x : ℕ) (ψ φ : (Fin N → ℕ) → ℂ) : ladderAct x (ψ + φ) = ladderAct x ψ + ladderAct x φ := by
  funext n
  simp only [ladderAct, Pi.add_apply]
  split_ifs <;> ring

theorem ladderAct_smul (x : ℕ) (c : ℂ) (ψ : (Fin N → ℕ) → ℂ) : ladderAct x (c • ψ) = c • ladderAct x ψ := by
  funext n
  simp only [ladderAct, Pi.smul_apply, smul_eq_mul]
  split_ifs <;> ring

theorem wordAct_add (u : List ℕ) (ψ φ : (Fin N → ℕ) → ℂ) : wordAct u (ψ + φ) = wordAct u ψ + wordAct u φ := by
  induction u with
  | nil => rfl
  | cons x u ih => rw [wordAct, List.foldr_cons, ← wordAct, ih, ladderAct_add]; rfl

theorem wordAct_smul (u : List ℕ) (c : ℂ) (ψ : (Fin N → ℕ) → ℂ) : wordAct u (c • ψ) = c • wordAct u ψ := by
  induction u with
  | nil => rfl
  | cons x u ih => rw [wordAct, List.foldr_cons, ← wordAct, ih, ladderAct_smul]; rfl

theorem wordAct_append (u v : List ℕ) (ψ : (Fin N → ℕ) → ℂ) : wordAct (u ++ v) ψ = wordAct u (wordAct v ψ) := List.foldr_append

/-- the commutator of two ladder operators -/
noncomputable def comm (N x y : ℕ) : ℂ := if y < N ∧ x = N + y then 1 else if x < N ∧ y = N + x then -1 else 0

theorem sqrt_sub (n : ℕ) : (Real.sqrt n : ℂ) * (Real.sqrt ((n - 1 : ℕ) + 1) : ℂ) = n := by
  rcases n with _ | n
  · simp
  · have : ((n + 1 - 1 : ℕ) : ℝ) + 1 = ((n + 1 : ℕ) : ℝ) := by simp
    rw [this, ← Complex.ofReal_mul, Real.mul_self_sqrt (by positivity)]
    simp

theorem cre_act (k : Fin N) (ψ : (Fin N → ℕ) → ℂ) (n : Fin N → ℕ) : ladderAct (k : ℕ) ψ n = (Real.sqrt (n k) : ℂ) * ψ (n - Pi.single k 1) := by
  simp [ladderAct]

theorem ann_act (k : Fin N) (ψ : (Fin N → ℕ) → ℂ) (n : Fin N → ℕ) : ladderAct (N + k) ψ n = (Real.sqrt (n k + 1) : ℂ) * ψ (n + Pi.single k 1) := by
  have h : ¬ N + (k : ℕ) < N := by omega
  have h2 : N + (k : ℕ) - N = k := by omega
  simp only [ladderAct, dif_neg h, h2, dif_pos k.2]

theorem cre_cre (j k : Fin N) (ψ : (Fin N → ℕ) → ℂ) : ladderAct (j : ℕ) (ladderAct (k : ℕ) ψ) = ladderAct (k : ℕ) (ladderAct (j : ℕ) ψ) := by
  funext n
  by_cases hjk : j = k
  · rw [hjk]
  · rw [cre_act, cre_act, cre_act, cre_act, Pi.sub_apply, Pi.sub_apply, Pi.single_eq_of_ne hjk, Pi.single_eq_of_ne (Ne.symm hjk), Nat.sub_zero, Nat.sub_zero]
    have : n - Pi.single j 1 - Pi.single k 1 = n - Pi.single k 1 - Pi.single j 1 := funext fun x => Nat.sub_right_comm _ _ _
    rw [this]
    ring

theorem ann_ann (j k : Fin N) (ψ : (Fin N → ℕ) → ℂ) : ladderAct (N + j) (ladderAct (N + k) ψ) = ladderAct (N + k) (ladderAct (N + j) ψ) := by
  funext n
  by_cases hjk : j = k
  · rw [hjk]
  · rw [ann_act, ann_act, ann_act, ann_act, Pi.add_apply, Pi.add_apply, Pi.single_eq_of_ne hjk, Pi.single_eq_of_ne (Ne.symm hjk), add_zero, add_zero, add_right_comm]
    ring

theorem ann_cre (j k : Fin N) (ψ : (Fin N → ℕ) → ℂ) : ladderAct (N + j) (ladderAct (k : ℕ) ψ) = ladderAct (k : ℕ) (ladderAct (N + j) ψ) + (if j = k then (1 : ℂ) else 0) • ψ := by
  funext n
  rw [Pi.add_apply, Pi.smul_apply, smul_eq_mul, ann_act, cre_act, cre_act, ann_act, Pi.add_apply, Pi.sub_apply]
  by_cases hjk : j = k
  · subst hjk
    have e0 : n + Pi.single j 1 - Pi.single j 1 = n := funext fun x => Nat.add_sub_cancel _ _
    rw [Pi.single_eq_same, if_pos rfl, e0, one_mul]
    have h1 : (Real.sqrt (n j + 1) : ℂ) * (Real.sqrt ((n j + 1 : ℕ) : ℝ) : ℂ) = n j + 1 := by
      rw [← Complex.ofReal_mul, Nat.cast_add, Nat.cast_one, Real.mul_self_sqrt (by positivity), Complex.ofReal_add, Complex.ofReal_natCast, Complex.ofReal_one]
    have h2 := sqrt_sub (n j)
    rcases hn : n j with _ | m
    · rw [hn] at h1
      rw [← mul_assoc, h1]
      simp
    · have e : n - Pi.single j 1 + Pi.single j 1 = n := by
        funext x
        by_cases hx : x = j
        · subst hx; simp; omega
        · simp [hx]
      rw [e, ← hn, ← mul_assoc, ← mul_assoc, h1, h2]
      ring
  · rw [Pi.single_eq_of_ne hjk, Pi.single_eq_of_ne (Ne.symm hjk), if_neg hjk, zero_mul, add_zero, add_zero, Nat.sub_zero]
    have e : n + Pi.single j 1 - Pi.single k 1 = n - Pi.single k 1 + Pi.single j 1 := by
      funext x
      by_cases hx : x = j
      · subst hx; simp [hjk]
      · simp [hx]
    rw [e]
    ring

theorem comm_act (x y : ℕ) (hx : x < 2 * N) (hy : y < 2 * N) (ψ : (Fin N → ℕ) → ℂ) : ladderAct x (ladderAct y ψ) = ladderAct y (ladderAct x ψ) + comm N x y • ψ := by
  have hidx : ∀ z, z < 2 * N → (∃ k : Fin N, z = k) ∨ ∃ k : Fin N, z = N + k := fun z hz => by
    by_cases h : z < N
    · exact Or.inl ⟨⟨z, h⟩, rfl⟩
    · exact Or.inr ⟨⟨z - N, by omega⟩, by simp; omega⟩
  rcases hidx x hx with ⟨j, rfl⟩ | ⟨j, rfl⟩ <;> rcases hidx y hy with ⟨k, rfl⟩ | ⟨k, rfl⟩
  · rw [comm, if_neg (by omega), if_neg (by omega), zero_smul, add_zero, cre_cre]
  · rw [ann_cre, comm]
    have h0 : ¬ (N + (k : ℕ) < N ∧ (j : ℕ) = N + (N + k)) := by omega
    rw [if_neg h0]
    by_cases hjk : k = j
    · subst hjk
      rw [if_pos rfl, if_pos ⟨k.2, rfl⟩]
      simp
    · have : ¬ ((j : ℕ) < N ∧ N + (k : ℕ) = N + j) := fun h => hjk (Fin.ext (by omega))
      rw [if_neg hjk, if_neg this]
      simp
  · rw [ann_cre, comm]
    by_cases hjk : j = k
    · subst hjk
      rw [if_pos rfl, if_pos ⟨j.2, rfl⟩]
    · have : ¬ ((k : ℕ) < N ∧ N + (j : ℕ) = N + k) := fun h => hjk (Fin.ext (by omega))
      rw [if_neg hjk, if_neg this, if_neg (by omega)]
  · rw [comm, if_neg (by omega), if_neg (by omega), zero_smul, add_zero, ann_ann]

theorem word_swap (u v : List ℕ) (x y : ℕ) (hx : x < 2 * N) (hy : y < 2 * N) (ψ : (Fin N → ℕ) → ℂ) :
    wordAct (u ++ x :: y :: v) ψ = wordAct (u ++ y :: x :: v) ψ + comm N x y • wordAct (u ++ v) ψ := by
  rw [wordAct_append, wordAct_append, wordAct_append, ← wordAct_smul, ← wordAct_add]
  exact congrArg (wordAct u) (comm_act x y hx hy (wordAct v ψ))

/-- creation operators in the modes of the list -/
theorem word_cre (w : List (Fin N)) (ψ : (Fin N → ℕ) → ℂ) (n : Fin N → ℕ) :
    wordAct (w.map fun k : Fin N => (k : ℕ)) ψ n = (∏ k, Real.sqrt ((n k).descFactorial (w.count k) : ℝ) : ℝ) * ψ (n - fun k => w.count k) := by
  induction w generalizing n with
  | nil => simp [wordAct]; rfl
  | cons x w ih =>
    rw [List.map_cons, wordAct, List.foldr_cons, ← wordAct, cre_act, ih, ← mul_assoc, ← Complex.ofReal_mul]
    congr 2
    · rw [← Finset.mul_prod_erase _ _ (Finset.mem_univ x), ← Finset.mul_prod_erase (a := x) _ (fun k => Real.sqrt ((n k).descFactorial ((x :: w).count k) : ℝ)) (Finset.mem_univ x), ← mul_assoc]
      congr 1
      · rw [← Real.sqrt_mul (by positivity), List.count_cons_self, Pi.sub_apply, Pi.single_eq_same]
        congr 1
        rcases hn : n x with _ | m
        · simp
        · rw [Nat.succ_descFactorial_succ]; push_cast; simp
      · refine Finset.prod_congr rfl fun k hk => ?_
        have hk := Finset.ne_of_mem_erase hk
        rw [Pi.sub_apply, Pi.single_eq_of_ne hk, Nat.sub_zero, List.count_cons_of_ne (Ne.symm hk)]
    · funext k
      rw [Pi.sub_apply, Pi.sub_apply, Pi.sub_apply, Nat.sub_sub]
      by_cases hk : k = x
      · subst hk; rw [Pi.single_eq_same, List.count_cons_self, add_comm]
      · rw [Pi.single_eq_of_ne hk, zero_add, List.count_cons_of_ne (Ne.symm hk)]

/-- annihilation operators in the modes of the list -/
theorem word_ann (w : List (Fin N)) (ψ : (Fin N → ℕ) → ℂ) (n : Fin N → ℕ) :
    wordAct (w.map fun k : Fin N => N + (k : ℕ)) ψ n = (∏ k, Real.sqrt (((n k + w.count k).factorial : ℝ) / ((n k).factorial : ℝ)) : ℝ) * ψ (n + fun k => w.count k) := by
  induction w generalizing n with
  | nil =>
    have : ∀ k, ((n k).factorial : ℝ) ≠ 0 := fun k => by positivity
    have e : (n + fun _ => 0) = n := by funext k; simp
    simp [wordAct, this]
    rw [e]
  | cons x w ih =>
    rw [List.map_cons, wordAct, List.foldr_cons, ← wordAct, ann_act, ih, ← mul_assoc, ← Complex.ofReal_mul]
    congr 2
    · rw [← Finset.mul_prod_erase _ _ (Finset.mem_univ x), ← Finset.mul_prod_erase (a := x) _ (fun k => Real.sqrt (((n k + (x :: w).count k).factorial : ℝ) / ((n k).factorial : ℝ))) (Finset.mem_univ x), ← mul_assoc]
      congr 1
      · rw [← Real.sqrt_mul (by positivity), List.count_cons_self, Pi.add_apply, Pi.single_eq_same, Nat.factorial_succ, add_right_comm, add_assoc (n x)]
        congr 1
        push_cast
        have : ((n x).factorial : ℝ) ≠ 0 := by positivity
        have : (n x : ℝ) + 1 ≠ 0 := by positivity
        field_simp
      · refine Finset.prod_congr rfl fun k hk => ?_
        have hk := Finset.ne_of_mem_erase hk
        rw [Pi.add_apply, Pi.single_eq_of_ne hk, add_zero, List.count_cons_of_ne (Ne.symm hk)]
    · funext k
      rw [Pi.add_apply, Pi.add_apply, Pi.add_apply, add_assoc]
      by_cases hk : k = x
      · subst hk; rw [Pi.single_eq_same, List.count_cons_self, add_comm 1]
      · rw [Pi.single_eq_of_ne hk, zero_add, List.count_cons_of_ne (Ne.symm hk)]

end Verif.Lemmas.Word
