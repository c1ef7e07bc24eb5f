/-
C18: the montrealer and the loop montrealer.  C60: dec2bin.
-/
import Verif.Lemmas.Montrealer

namespace Verif.Props
open Finset Equiv Verif.Model Verif.Model.Mtl Verif.Model.Tor Verif.Lemmas.Dih Verif.Lemmas.Mtl

/-- C60: `dec2bin` lists the positions of the digits 1 of the expansion of `num` with `n` binary digits, in order. -/
theorem dec2bin_correct (num n : ℕ) (h : num < 2 ^ n) :
    ∃ pos, dec2bin num n = .ok pos ∧ pos.Pairwise (· < ·) ∧ (∀ i ∈ pos, i < n) ∧ num = (pos.map fun i => 2 ^ (n - 1 - i)).sum := by
  refine ⟨_, dec2bin_eq num n h, List.pairwise_lt_range.filter _, fun i hi => by simpa using (List.mem_filter.mp hi).1, ?_⟩
  have : ∀ n num, num < 2 ^ n → num = (((List.range n).filter fun i => num.testBit (n - 1 - i)).map fun i => 2 ^ (n - 1 - i)).sum := by
    intro n
    induction n with
    | zero => intro num h; simp at h; simp [h]
    | succ n ih =>
      intro num h
      have e : ∀ i ∈ List.range n, num.testBit (n + 1 - 1 - i) = (num / 2).testBit (n - 1 - i) := by
        intro i hi
        rw [List.mem_range] at hi
        rw [show n + 1 - 1 - i = (n - 1 - i) + 1 by omega, Nat.testBit_succ]
      have h2 := ih (num / 2) (by rw [pow_succ] at h; omega)
      rw [List.range_succ, List.filter_append, List.map_append, List.sum_append, List.filter_congr e]
      have e2 : (((List.range n).filter fun i => (num / 2).testBit (n - 1 - i)).map fun i => 2 ^ (n + 1 - 1 - i)) =
          (((List.range n).filter fun i => (num / 2).testBit (n - 1 - i)).map fun i => 2 * 2 ^ (n - 1 - i)) := by
        refine List.map_congr_left fun i hi => ?_
        have := List.mem_range.mp (List.mem_filter.mp hi).1
        rw [← pow_succ']; congr 1; omega
      rw [e2, List.sum_map_mul_left, ← h2]
      have e3 : (List.filter (fun i => num.testBit (n + 1 - 1 - i)) [n]).map (fun i => 2 ^ (n + 1 - 1 - i)) = if num % 2 = 1 then [1] else [] := by
        by_cases hb : num % 2 = 1
        · simp [Nat.testBit_zero, hb]
        · simp [Nat.testBit_zero, hb]
      rw [e3]
      split_ifs with hb <;> simp <;> omega
  exact this n num h

/-- C60: too large a number. -/
theorem dec2bin_raises (num n : ℕ) (h : 2 ^ n ≤ num) : dec2bin num n = .error .indexError := dec2bin_error num n h

/-- the entries of `Xmat(n) @ A` -/
theorem xmat_mul (m : ℕ) (A : Matrix (Fin (2 * (m + 1))) (Fin (2 * (m + 1))) ℂ) (junk : ℕ → ℕ → ℂ) (u v : Fin (2 * (m + 1))) :
    Symp.mmul (2 * (m + 1)) (Conv.Xmat (2 * (m + 1) / 2)) (ofMatrix A junk) u v = A (tau (m + 1) u) v := by
  have hu := u.2
  have hv := v.2
  rw [show 2 * (m + 1) / 2 = m + 1 by omega]
  unfold Symp.mmul
  rw [dot_eq, dotProduct, Finset.sum_eq_single (tau (m + 1) u)]
  · have : Conv.Xmat (K := ℂ) (m + 1) u (tau (m + 1) u : Fin (2 * (m + 1))) = 1 := by
      simp only [tau_apply, Spec.partner, Conv.Xmat, Symp.block, Symp.eye]
      by_cases h : (u : ℕ) < m + 1
      · simp [h]; omega
      · have h2 : (u : ℕ) - (m + 1) < m + 1 := by omega
        simp [h, h2]
    rw [this, one_mul]
    simp [ofMatrix]
  · intro x _ hx
    have : Conv.Xmat (K := ℂ) (m + 1) u x = 0 := by
      have hx2 := x.2
      have hne : (x : ℕ) ≠ (Spec.partner u : Fin (2 * (m + 1))) := fun h => hx (Fin.ext h)
      simp only [Spec.partner] at hne
      simp only [Conv.Xmat, Symp.block, Symp.eye]
      by_cases h : (u : ℕ) < m + 1
      · rw [dif_pos h] at hne
        simp only at hne
        rw [if_pos h]
        split_ifs with h1 h2
        · rfl
        · omega
        · rfl
      · rw [dif_neg h] at hne
        simp only at hne
        rw [if_neg h]
        split_ifs with h1 h2
        · omega
        · rfl
        · rfl
    rw [this, zero_mul]
  · intro h; exact absurd (mem_univ _) h

theorem pos_facts (n p : ℕ) :
    ((List.range n).filter fun i => p.testBit (n - 1 - i)).Nodup ∧ (∀ x ∈ (List.range n).filter fun i => p.testBit (n - 1 - i), x < n) ∧
      ((List.range n).filter fun i => p.testBit (n - 1 - i)).length = (bitSet n p).card := by
  have hnd := (List.nodup_range (n := n)).filter fun i => p.testBit (n - 1 - i)
  refine ⟨hnd, fun x hx => by simpa using (List.mem_filter.mp hx).1, ?_⟩
  rw [← dec2bin_toFinset, List.toFinset_card_of_nodup hnd]

open Classical in
/-- the sum that `montrealer` computes -/
theorem val_eq (m : ℕ) (F : List ℕ → ℂ) (G : (Fin (m + 1) → Fin (2 * (m + 1))) → ℂ)
    (h : ∀ P : List ℕ, P.Nodup → (∀ x ∈ P, x < m + 1) → F P =
      ∑ w : Fin (m + 1) → Fin (2 * (m + 1)) with (∀ i, (w i : ℕ) % (m + 1) ∈ P.toFinset), G w) :
    ((List.range (2 ^ (m + 1))).map fun p => (-1 : ℂ) ^ (((List.range (m + 1)).filter fun i => p.testBit (m + 1 - 1 - i)).length + 1) *
        F ((List.range (m + 1)).filter fun i => p.testBit (m + 1 - 1 - i))).sum =
      (-1) ^ (m + 1 + 1) * ∑ w : Fin (m + 1) → Fin (2 * (m + 1)) with Good (tau (m + 1)) w, G w := by
  rw [← incl_excl_walks, ← sum_bitSet]
  congr 1
  refine List.map_congr_left fun p _ => ?_
  obtain ⟨h1, h2, h3⟩ := pos_facts (m + 1) p
  rw [h3, h _ h1 h2, dec2bin_toFinset]

theorem card_V (m : ℕ) : Fintype.card (Fin (2 * (m + 1))) = 2 * (m + 1) := Fintype.card_fin _

open Classical in
/-- closed walks that meet every mode, from any vertex -/
theorem sum_good_cyc {m : ℕ} (A : Matrix (Fin (2 * (m + 1))) (Fin (2 * (m + 1))) ℂ) (hA : A.IsSymm) :
    ∑ w : Fin (m + 1) → Fin (2 * (m + 1)) with Good (tau (m + 1)) w,
      steps (fun u v => A (tau (m + 1) u) v) w * A (tau (m + 1) (w (Fin.last m))) (w 0) = (2 * (m + 1) : ℕ) * Spec.mtl A := by
  have h1 : ∀ v : Fin (2 * (m + 1)), ∑ w : Fin (m + 1) → Fin (2 * (m + 1)) with Good (tau (m + 1)) w ∧ w 0 = v,
      steps (fun u v => A (tau (m + 1) u) v) w * A (tau (m + 1) (w (Fin.last m))) (w 0) = Spec.mtl A := by
    intro v
    rw [sum_cyc (tau (m + 1)) partner_partner (card_V m) partner_ne v _ (fun σ => ∏ i : Fin (2 * (m + 1)) with i < σ i, A i (σ i))]
    · unfold Spec.mtl
      simp only [connected_iff]
      refine Finset.sum_congr ?_ fun σ _ => ?_
      · ext σ; simp only [mem_filter]
      · refine Finset.prod_congr ?_ fun _ _ => rfl
        ext i; simp only [mem_filter]
    · intro w σ hw _ hσ _ hr
      exact weight_cyc (tau (m + 1)) (card_V m) A (fun i j => hA.apply j i) w hw σ hσ hr
  have h2 := Finset.sum_fiberwise (univ.filter fun w : Fin (m + 1) → Fin (2 * (m + 1)) => Good (tau (m + 1)) w) (fun w => w 0)
    (fun w => steps (fun u v => A (tau (m + 1) u) v) w * A (tau (m + 1) (w (Fin.last m))) (w 0))
  rw [← h2]
  simp only [Finset.filter_filter, h1, Finset.sum_const, Finset.card_univ, Fintype.card_fin, nsmul_eq_mul]

open Classical in
theorem lmtl_split {K : Type*} [CommRing K] {n : ℕ} (A : Matrix (Fin (2 * n)) (Fin (2 * n)) K) (D : Fin (2 * n) → K) :
    Spec.lmtl A D = Spec.mtl A +
      ∑ σ : Perm (Fin (2 * n)) with (∀ x, σ (σ x) = x) ∧ (∃ x, σ x = x) ∧ Conn σ (tau n),
        (∏ i : Fin (2 * n) with i < σ i, A i (σ i)) * ∏ i : Fin (2 * n) with σ i = i, D i := by
  unfold Spec.lmtl Spec.mtl
  rw [← Finset.sum_filter_add_sum_filter_not _ (fun σ : Perm (Fin (2 * n)) => ∀ x, σ x ≠ x), Finset.filter_filter, Finset.filter_filter]
  congr 1
  · have : (univ.filter fun σ : Perm (Fin (2 * n)) => ((∀ i, σ (σ i) = i) ∧ Spec.Connected σ) ∧ ∀ x, σ x ≠ x) =
        univ.filter fun σ : Perm (Fin (2 * n)) => (∀ i, σ (σ i) = i) ∧ (∀ i, σ i ≠ i) ∧ Spec.Connected σ := by
      ext σ; simp only [mem_filter, mem_univ, true_and]; tauto
    rw [this]
    refine Finset.sum_congr rfl fun σ hs => ?_
    have h2 := (mem_filter.mp hs).2.2.1
    rw [Finset.filter_false_of_mem (fun x _ => h2 x), Finset.prod_empty, mul_one]
  · refine Finset.sum_congr ?_ fun _ _ => rfl
    ext σ
    simp only [mem_filter, mem_univ, true_and, connected_iff, ne_eq, not_forall, not_not]
    tauto

open Classical in
/-- open walks that meet every mode -/
theorem sum_good_path {m : ℕ} (A : Matrix (Fin (2 * (m + 1))) (Fin (2 * (m + 1))) ℂ) (hA : A.IsSymm) (D : Fin (2 * (m + 1)) → ℂ) :
    ∑ w : Fin (m + 1) → Fin (2 * (m + 1)) with Good (tau (m + 1)) w,
      steps (fun u v => A (tau (m + 1) u) v) w * (D (w 0) * D (tau (m + 1) (w (Fin.last m)))) = 2 * (Spec.lmtl A D - Spec.mtl A) := by
  rw [sum_path (tau (m + 1)) partner_partner (card_V m) partner_ne _
    (fun σ => (∏ i : Fin (2 * (m + 1)) with i < σ i, A i (σ i)) * ∏ i : Fin (2 * (m + 1)) with σ i = i, D i), lmtl_split, add_sub_cancel_left,
    nsmul_eq_mul]
  · rw [Nat.cast_two]
    congr 1
    refine Finset.sum_congr ?_ fun σ _ => ?_
    · ext σ; simp only [mem_filter]
    · congr 1
  · intro w σ hw hσ hr
    exact weight_path (tau (m + 1)) (card_V m) A (fun i j => hA.apply j i) w hw σ hσ D hr

theorem foldlM_pair {α : Type} (l : List α) (f g : α → ℂ) (body : ℂ × ℂ → α → Except PyErr (ℂ × ℂ)) (h : ∀ x ∈ l, ∀ s, body s x = .ok (s.1 + f x, s.2 + g x))
    (s : ℂ × ℂ) : l.foldlM body s = .ok (s.1 + (l.map f).sum, s.2 + (l.map g).sum) := by
  induction l generalizing s with
  | nil => simp [pure, Except.pure]
  | cons x xs ih =>
    rw [List.foldlM_cons, h x (by simp)]
    simp only [bind, Except.bind]
    rw [ih fun y hy => h y (by simp [hy])]
    simp [add_assoc]

theorem foldlM_one {α : Type} (l : List α) (f : α → ℂ) (body : ℂ → α → Except PyErr ℂ) (h : ∀ x ∈ l, ∀ s, body s x = .ok (s + f x)) (s : ℂ) :
    l.foldlM body s = .ok (s + (l.map f).sum) := by
  induction l generalizing s with
  | nil => simp [pure, Except.pure]
  | cons x xs ih =>
    rw [List.foldlM_cons, h x (by simp)]
    simp only [bind, Except.bind]
    rw [ih fun y hy => h y (by simp [hy])]
    simp [add_assoc]

/-- C18: `mtl(A)` is the sum over the perfect matchings that are connected through partners, for every symmetric matrix of every even size. -/
theorem mtl_correct {n : ℕ} (hn : 0 < n) (A : Matrix (Fin (2 * n)) (Fin (2 * n)) ℂ) (hA : A.IsSymm) (junk : ℕ → ℕ → ℂ) :
    Mtl.mtl (.arr (2 * n) (2 * n) (ofMatrix A junk)) = .ok (Spec.mtl A) := by
  obtain ⟨m, rfl⟩ : ∃ m, n = m + 1 := ⟨n - 1, by omega⟩
  unfold Mtl.mtl torInputChecks
  simp only [ne_eq, not_true_eq_false, if_false, Nat.mul_mod_right, bind, Except.bind]
  set Sigma := Symp.mmul (2 * (m + 1)) (Conv.Xmat (2 * (m + 1) / 2)) (ofMatrix A junk) with hS
  unfold montrealer
  rw [show 2 * (m + 1) / 2 = m + 1 by omega]
  dsimp only
  rw [foldlM_one _ (fun p => (-1 : ℂ) ^ (((List.range (m + 1)).filter fun i => p.testBit (m + 1 - 1 - i)).length + 1) *
    (fun P => (powertraceList (both (m + 1) P).length (sub Sigma (both (m + 1) P)) (m + 1 + 1)).getLastD 0)
      ((List.range (m + 1)).filter fun i => p.testBit (m + 1 - 1 - i)))]
  · rw [val_eq m _ _ fun P h1 h2 => trace_walks P h1 h2 Sigma]
    simp only [bind, Except.bind, pure, Except.pure]
    rw [if_neg (by omega)]
    have e : ∀ u v : Fin (2 * (m + 1)), Sigma u v = A (tau (m + 1) u) v := fun u v => xmat_mul m A junk u v
    simp only [e]
    rw [sum_good_cyc A hA]
    have h1 : ((m : ℂ) + 1) ≠ 0 := by exact_mod_cast Nat.succ_ne_zero m
    have h2 : ((-1 : ℂ) ^ (m + 1 + 1)) * ((-1) ^ (m + 1 + 1)) = 1 := by rw [← mul_pow]; simp
    congr 1
    push_cast
    rw [zero_add]
    have h3 : ∀ a c : ℂ, c * c = 1 → c * (c * (2 * ((m : ℂ) + 1) * a)) / (2 * ((m : ℂ) + 1)) = a := by
      intro a c hc
      rw [← mul_assoc, hc]; field_simp
    exact h3 _ _ h2
  · intro p hp s
    rw [dec2bin_eq p _ (List.mem_range.mp hp)]
    rfl

/-- C18: `lmtl(A, zeta)` for a displacement vector of the form (beta, conj(beta)) is the sum over the matchings with loops that are connected through
partners, where the loop at `i` has weight `conj(zeta[i])`. -/
theorem lmtl_correct {n : ℕ} (hn : 0 < n) (A : Matrix (Fin (2 * n)) (Fin (2 * n)) ℂ) (hA : A.IsSymm) (junk : ℕ → ℕ → ℂ) (zeta : ℕ → ℂ)
    (hz : ∀ i < n, zeta (n + i) = (starRingEnd ℂ) (zeta i)) :
    Mtl.lmtl (.arr (2 * n) (2 * n) (ofMatrix A junk)) (.arr (2 * n) zeta) = .ok (Spec.lmtl A fun i => (starRingEnd ℂ) (zeta i)) := by
  obtain ⟨m, rfl⟩ : ∃ m, n = m + 1 := ⟨n - 1, by omega⟩
  unfold Mtl.lmtl torInputChecks
  simp only [ne_eq, not_true_eq_false, if_false, Nat.mul_mod_right, bind, Except.bind]
  set Sigma := Symp.mmul (2 * (m + 1)) (Conv.Xmat (2 * (m + 1) / 2)) (ofMatrix A junk) with hS
  unfold lmontrealer
  rw [show 2 * (m + 1) / 2 = m + 1 by omega]
  dsimp only
  rw [foldlM_pair _ (fun p => (-1 : ℂ) ^ (((List.range (m + 1)).filter fun i => p.testBit (m + 1 - 1 - i)).length + 1) *
    (fun P => (powertraceList (both (m + 1) P).length (sub Sigma (both (m + 1) P)) (m + 1 + 1)).getLastD 0)
      ((List.range (m + 1)).filter fun i => p.testBit (m + 1 - 1 - i)))
    (fun p => (-1 : ℂ) ^ (((List.range (m + 1)).filter fun i => p.testBit (m + 1 - 1 - i)).length + 1) *
    (fun P => powerLoop (both (m + 1) P).length (sub Sigma (both (m + 1) P)) (fun a => zeta ((both (m + 1) P).getD a 0)) (m + 1))
      ((List.range (m + 1)).filter fun i => p.testBit (m + 1 - 1 - i)))]
  · rw [val_eq m _ _ fun P h1 h2 => trace_walks P h1 h2 Sigma, val_eq m _ _ fun P h1 h2 => powerLoop_walks P h1 h2 Sigma zeta]
    simp only [bind, Except.bind, pure, Except.pure]
    rw [if_neg (by omega)]
    have e : ∀ u v : Fin (2 * (m + 1)), Sigma u v = A (tau (m + 1) u) v := fun u v => xmat_mul m A junk u v
    have ez : ∀ v : Fin (2 * (m + 1)), zeta v = (starRingEnd ℂ) (zeta (tau (m + 1) v : Fin (2 * (m + 1)))) := by
      intro v
      have hv := v.2
      simp only [tau_apply, Spec.partner]
      by_cases h : (v : ℕ) < m + 1
      · rw [dif_pos h]
        simp only
        rw [show (v : ℕ) + (m + 1) = m + 1 + v from Nat.add_comm _ _, hz _ h, Complex.conj_conj]
      · rw [dif_neg h]
        simp only
        rw [← hz _ (by omega)]
        congr 1; omega
    simp only [e]
    have e2 : ∀ w : Fin (m + 1) → Fin (2 * (m + 1)), (starRingEnd ℂ) (zeta (w 0)) * zeta (w (Fin.last m)) =
        (fun i : Fin (2 * (m + 1)) => (starRingEnd ℂ) (zeta i)) (w 0) * (fun i : Fin (2 * (m + 1)) => (starRingEnd ℂ) (zeta i)) (tau (m + 1) (w (Fin.last m))) := by
      intro w
      rw [ez (w (Fin.last m))]
    simp only [e2]
    rw [sum_good_cyc A hA, sum_good_path A hA fun i : Fin (2 * (m + 1)) => (starRingEnd ℂ) (zeta i)]
    have h1 : ((m : ℂ) + 1) ≠ 0 := by exact_mod_cast Nat.succ_ne_zero m
    have h2 : ((-1 : ℂ) ^ (m + 1 + 1)) * ((-1) ^ (m + 1 + 1)) = 1 := by rw [← mul_pow]; simp
    congr 1
    push_cast
    rw [zero_add, zero_add]
    have h3 : ∀ a b c : ℂ, c * c = 1 → c * (c * (2 * ((m : ℂ) + 1) * a) / (2 * ((m : ℂ) + 1)) + c * (2 * (b - a)) / 2) = b := by
      intro a b c hc
      field_simp
      rw [show c ^ 2 = 1 by rw [sq, hc]]
      ring
    exact h3 _ _ _ h2
  · intro p hp s
    rw [dec2bin_eq p _ (List.mem_range.mp hp)]
    rfl

end Verif.Props
