/- The batched sieve of `loop_hafnian_batch`. -/
import Verif.Model.Batch
import Verif.Lemmas.HafFront

set_option linter.unusedSectionVars false
set_option linter.unusedSimpArgs false

namespace Verif
open Model Finset

section generic
variable {K : Type} [Field K]

/-- writing each slot of an array once -/
theorem forRange2_slots (a b : ℕ) (v : ℕ → K) (body : ℕ → (ℕ → K) → ℕ → K) (H0 : ℕ → K)
    (hb : ∀ n H, body n H = Function.update H n (H n + v n)) (i : ℕ) :
    forRange2 a b H0 body i = H0 i + if a ≤ i ∧ i < b then v i else 0 := by
  rcases Nat.le_total a b with hab | hab
  · have := forRange2_inv (fun n H => ∀ i, H i = H0 i + if a ≤ i ∧ i < n then v i else 0) hab H0 body
      (by intro i; rw [if_neg (by omega), add_zero])
      (by
        intro n H h1 h2 hH i
        rw [hb]
        by_cases e : i = n
        · subst e
          rw [Function.update_self, hH, if_neg (by omega), if_pos (by omega), add_zero]
        · rw [Function.update_of_ne e, hH]
          congr 1
          have : (a ≤ i ∧ i < n) ↔ (a ≤ i ∧ i < n + 1) := by omega
          simp only [this])
    exact this i
  · have : b - a = 0 := by omega
    rw [forRange2_eq, this, forRange_zero, if_neg (by omega), add_zero]

theorem forRange_pointwise_sum (n : ℕ) (s : ℕ → ℕ → K) (body : ℕ → (ℕ → K) → ℕ → K) (H0 : ℕ → K) (i : ℕ)
    (hb : ∀ j H, body j H i = H i + s j i) :
    forRange n H0 body i = H0 i + ∑ j ∈ range n, s j i := by
  induction n with
  | zero => simp
  | succ n ih => rw [forRange_succ, hb, ih, Finset.sum_range_succ, add_assoc]

end generic

section core
variable {K : Type} [Field K] [CharZero K] {E : ℕ}

/-- A sieve over the box of `r` that uses only the sub-box of `r'`. -/
theorem sub_sieve (g : Bool) (r r' : Fin E → ℕ) (hle : ∀ e, r' e ≤ r e) (P : List ℕ → Prop) [DecidablePred P] (wt' : List ℕ → K)
    (hP : ∀ κ : Fin E → ℕ, (∀ e, κ e ≤ r e) → (P (List.ofFn κ) ↔ ∀ e, κ e ≤ r' e))
    (hw : ∀ κ : Fin E → ℕ, (∀ e, κ e ≤ r' e) →
      wt' (List.ofFn κ) = (∏ e, ((r' e).choose (κ e) : K)) * (-1 : K) ^ ((∑ e, r' e) - ∑ e, κ e))
    (F : (Fin E → K) → K) (val : List ℤ → K)
    (hval : ∀ κ : Fin E → ℕ, val (keptWeights g (List.ofFn r) (List.ofFn κ)) = F (fun e => sAlpha K g * (κ e : K) + sBeta g r e)) :
    ∑ j ∈ range (boxSize (List.ofFn r)), (if P (findKeptEdges j (List.ofFn r)) then
        wt' (findKeptEdges j (List.ofFn r)) * val (keptWeights g (List.ofFn r) (findKeptEdges j (List.ofFn r))) else 0)
      = fdSum r' (sAlpha K g) (sBeta g r) F := by
  rw [sum_fke r (fun l => if P l then wt' l * val (keptWeights g (List.ofFn r) l) else 0), fdSum]
  have hsub : Fintype.piFinset (fun e => range (r' e + 1)) ⊆ Fintype.piFinset (fun e => range (r e + 1)) := by
    apply Fintype.piFinset_subset
    intro e k hk
    have := hle e
    simp at *; omega
  rw [← Finset.sum_subset hsub]
  · refine Finset.sum_congr rfl fun κ hκ => ?_
    rw [Fintype.mem_piFinset] at hκ
    have h' : ∀ e, κ e ≤ r' e := fun e => by have := hκ e; simp at this; omega
    have hr : ∀ e, κ e ≤ r e := fun e => (h' e).trans (hle e)
    rw [if_pos ((hP κ hr).2 h'), hw κ h', hval, sign_eq r' κ h', Finset.prod_mul_distrib]
    ring
  · intro κ hκ hn
    rw [Fintype.mem_piFinset] at hκ hn
    have hr : ∀ e, κ e ≤ r e := fun e => by have := hκ e; simp at this; omega
    rw [if_neg]
    rw [hP κ hr]
    intro h; apply hn; intro e; have := h e; simp; omega

theorem batchBinomProd_eq (M : ℕ) (r κ : Fin (E + 1) → ℕ) (h : ∀ e : Fin E, κ e.succ ≤ r e.succ) (hM : ∀ e, r e ≤ M) :
    (batchBinomProd M (List.ofFn r) (List.ofFn κ) : K) = ∏ e : Fin E, ((r e.succ).choose (κ e.succ) : K) := by
  have key : ∀ m, m ≤ E → forRange m (1 : K) (fun i b => b *
      (precomputeBinoms M ((List.ofFn r).getD (1 + i) 0) ((List.ofFn κ).getD (1 + i) 0) : K))
      = ∏ i ∈ range m, if h : i < E then ((r (Fin.succ ⟨i, h⟩)).choose (κ (Fin.succ ⟨i, h⟩)) : K) else 1 := by
    intro m hm
    induction m with
    | zero => simp
    | succ m ih =>
      rw [forRange_succ, ih (by omega), Finset.prod_range_succ, dif_pos (by omega)]
      congr 1
      have h1 : (List.ofFn r).getD (1 + m) 0 = r (Fin.succ ⟨m, by omega⟩) := by
        rw [List.getD_eq_getElem?_getD]; simp [show m < E by omega, Nat.add_comm 1 m]
      have h2 : (List.ofFn κ).getD (1 + m) 0 = κ (Fin.succ ⟨m, by omega⟩) := by
        rw [List.getD_eq_getElem?_getD]; simp [show m < E by omega, Nat.add_comm 1 m]
      rw [h1, h2, precomputeBinoms_eq, if_pos]
      exact ⟨hM _, (h _).trans (hM _)⟩
  simp only [batchBinomProd, List.length_ofFn, forRange2_eq, Nat.add_sub_cancel]
  rw [key E le_rfl, ← Fin.prod_univ_eq_prod_range (fun i => if h : i < E then ((r (Fin.succ ⟨i, h⟩)).choose (κ (Fin.succ ⟨i, h⟩)) : K) else 1)]
  simp

theorem getD_ofFn_zero (κ : Fin (E + 1) → ℕ) : (List.ofFn κ).getD 0 0 = κ 0 := by simp [List.ofFn_succ]
theorem getD_ofFn_one (κ : Fin (E + 2) → ℕ) : (List.ofFn κ).getD 1 0 = κ 1 := by
  simp [List.ofFn_succ]

theorem cons_tail_prod (b : ℕ) (r κ : Fin (E + 1) → ℕ) :
    ∏ e, (((Fin.cons b (Fin.tail r) : Fin (E + 1) → ℕ) e).choose (κ e) : K)
      = (b.choose (κ 0) : K) * ∏ e : Fin E, ((r e.succ).choose (κ e.succ) : K) := by
  rw [Fin.prod_univ_succ]; simp [Fin.tail]

variable (A : ℕ → ℕ → K) (D : ℕ → K) (A' : Matrix (Vtx E) (Vtx E) K)
    (hA : ∀ a b, A' (some a) (some b) = A (pos a) (pos b)) (hs : ∀ a b, A' a b = A' b a)
    (D' : Vtx E → K) (hD : ∀ a, D' (some a) = D (pos a))

/-- the value of the finite difference of the loop polynomials with glynn factor -/
theorem fd_even_value (hs : ∀ a b, A' a b = A' b a) (g : Bool) (r r' : Fin E → ℕ) :
    fdSum r' (sAlpha K g) (sBeta g r) (fun w => cW D' A' (QQ w) (∑ e, r' e)) * (if g then (1 / 2) ^ (∑ e, r' e) else 1)
      = lh D' A' (edgeList r') := by
  have hl : wick D' A' ((edgeList r').map MvPolynomial.X).prod = lh D' A' (edgeList r') :=
    wick_list (K := K) D' (fun a b => A' a b) hs (edgeList r')
  rw [fdSum_cW, edgeList_prod, hl]
  cases g
  · simp [sAlpha]
  · simp only [sAlpha, if_true]
    rw [one_div, inv_pow]
    have h2 : (2 : K) ≠ 0 := by norm_num
    field_simp

theorem fd_odd_value (hs : ∀ a b, A' a b = A' b a) (g : Bool) (r r' : Fin E → ℕ) (N : ℕ) (hN : 2 * (∑ e, r' e) + 1 ≤ N) :
    fdSum r' (sAlpha K g) (sBeta g r) (fun w => oddE A' D' N w (2 * (∑ e, r' e) + 1)) * (if g then (1 / 2) ^ (∑ e, r' e) else 1)
      = lh D' A' (none :: edgeList r') := by
  have hl : wick D' A' (MvPolynomial.X none * ((edgeList r').map MvPolynomial.X).prod) = lh D' A' (none :: edgeList r') := by
    have := wick_list (K := K) D' (fun a b => A' a b) hs (none :: edgeList r')
    rwa [List.map_cons, List.prod_cons] at this
  set n := ∑ e, r' e with hn
  have hp : PolyLt n (fun w => oddE A' D' N w (2 * n + 1) - gW D' A' (QQ w) n none) := by
    have := oddE_main D' hs N (2 * n + 1) hN
    have e1 : (2 * n + 1) % 2 = 1 := by omega
    have e2 : (2 * n + 1) / 2 = n := by omega
    simp only [e1, e2, one_ne_zero, if_false] at this
    refine this.congr fun w => ?_
    rw [gW_sum hs (QQ_isQuad w)]
    congr 1
    rw [Finset.sum_apply]
    refine Finset.sum_congr rfl fun j _ => ?_
    simp [odFac, mul_comm]
  have h0 := fdSum_polyLt (r := r') (α := sAlpha K g) (β := sBeta g r) hp hn.le
  have e : (fun w => oddE A' D' N w (2 * n + 1))
      = fun w => (oddE A' D' N w (2 * n + 1) - gW D' A' (QQ w) n none) + gW D' A' (QQ w) n none := by
    funext w; ring
  rw [e, fdSum_add, h0, zero_add, hn, fdSum_gW, edgeList_prod, hl]
  cases g
  · simp [sAlpha]
  · simp only [sAlpha, if_true]
    rw [one_div, inv_pow]
    have h2 : (2 : K) ≠ 0 := by norm_num
    field_simp

end core

section calcs
variable {K : Type} [Field K] [CharZero K] {E : ℕ}

theorem ofFn_cons' {n : ℕ} (b : ℕ) (fx : Fin n → ℕ) : b :: List.ofFn fx = List.ofFn (Fin.cons b fx : Fin (n + 1) → ℕ) := by
  rw [List.ofFn_succ]; simp

theorem sum_cons' {n : ℕ} (b : ℕ) (fx : Fin n → ℕ) : ∑ e, (Fin.cons b fx : Fin (n + 1) → ℕ) e = b + ∑ e, fx e := by
  rw [Fin.sum_univ_succ]; simp

/-- `_calc_loop_hafnian_batch_even`. -/
theorem calcBatchEven_eq (A : ℕ → ℕ → K) (D : ℕ → K) (A' : Matrix (Vtx (E + 1)) (Vtx (E + 1)) K)
    (hA : ∀ a b, A' (some a) (some b) = A (pos a) (pos b)) (hs : ∀ a b, A' a b = A' b a)
    (D' : Vtx (E + 1) → K) (hD : ∀ a, D' (some a) = D (pos a)) (hD0 : D' none = D 0)
    (hV : ∀ a, A' none (some a) = A 0 (pos a)) {pt : PowerTrace K} (hpt : PTSpec pt)
    (fx : Fin E → ℕ) (bm oc : ℕ) (hoc : oc ≤ 1) (g : Bool) (i : ℕ) (hi : i ≤ 2 * bm + oc) :
    calcBatchEven pt A D (List.ofFn fx) bm oc g i
      = if i % 2 = 0 then lh D' A' (edgeList (Fin.cons (i / 2) fx : Fin (E + 1) → ℕ))
        else lh D' A' (none :: edgeList (Fin.cons (i / 2) fx : Fin (E + 1) → ℕ)) := by
  set r : Fin (E + 1) → ℕ := Fin.cons bm fx with hr
  set r' : Fin (E + 1) → ℕ := Fin.cons (i / 2) fx with hr'
  have hlist : bm :: List.ofFn fx = List.ofFn r := ofFn_cons' _ _
  have hle : ∀ e, r' e ≤ r e := by
    intro e
    refine Fin.cases ?_ (fun e => ?_) e
    · simp [hr, hr']; omega
    · simp [hr, hr']
  have hfxs : (List.ofFn fx).sum = ∑ e, fx e := List.sum_ofFn
  have hS : ∑ e, r' e = i / 2 + ∑ e, fx e := sum_cons' _ _
  have hN2 : (2 * (List.ofFn fx).sum + i) / 2 = ∑ e, r' e := by rw [hS, hfxs]; omega
  set M := (List.ofFn r).foldl max 0 + oc with hMdef
  have hM0 : ∀ e, r e ≤ (List.ofFn r).foldl max 0 := fun e => foldl_max_le _ _ _ (Or.inl (by rw [List.mem_ofFn]; exact ⟨_, rfl⟩))
  have hM : ∀ e, r e ≤ M := fun e => (hM0 e).trans (Nat.le_add_right _ _)
  have hiM : i / 2 ≤ M := by have := hM 0; simp [hr] at this; omega
  have hw : ∀ κ : Fin (E + 1) → ℕ, (∀ e, κ e ≤ r' e) →
      (precomputeBinoms M (i / 2) ((List.ofFn κ).getD 0 0) : K) * batchBinomProd M (List.ofFn r) (List.ofFn κ)
        * (-1 : K) ^ ((∑ e, r' e) - (List.ofFn κ).sum)
      = (∏ e, ((r' e).choose (κ e) : K)) * (-1 : K) ^ ((∑ e, r' e) - ∑ e, κ e) := by
    intro κ hκ
    have h0 : κ 0 ≤ i / 2 := by have := hκ 0; simpa [hr'] using this
    rw [List.sum_ofFn, getD_ofFn_zero, precomputeBinoms_eq, if_pos ⟨hiM, h0.trans hiM⟩,
      batchBinomProd_eq M r κ (fun e => by have := hκ e.succ; simpa [hr, hr'] using this) hM, Fin.prod_univ_succ (fun e => ((r' e).choose (κ e) : K))]
    simp [hr, hr']
  have hP : ∀ κ : Fin (E + 1) → ℕ, (∀ e, κ e ≤ r e) → ((List.ofFn κ).getD 0 0 ≤ i / 2 ↔ ∀ e, κ e ≤ r' e) := by
    intro κ hκ
    rw [getD_ofFn_zero]
    constructor
    · intro h e
      refine Fin.cases ?_ (fun e => ?_) e
      · simpa [hr'] using h
      · have := hκ e.succ; simpa [hr, hr'] using this
    · intro h; have := h 0; simpa [hr'] using this
  have hsum : calcBatchEven pt A D (List.ofFn fx) bm oc g i
      = (∑ j ∈ range (boxSize (List.ofFn r)), batchEvenStep pt A D (List.ofFn fx) bm oc g j i) * (if g then (1 / 2) ^ (∑ e, r' e) else 1) := by
    have hf := forRange_pointwise_sum (boxSize (List.ofFn r)) (batchEvenStep pt A D (List.ofFn fx) bm oc g)
      (fun j H i => H i + batchEvenStep pt A D (List.ofFn fx) bm oc g j i) (fun _ => 0) i (fun _ _ => rfl)
    unfold calcBatchEven
    rw [hlist]
    cases g
    · simp only [Bool.false_eq_true, if_false, mul_one]
      rw [zero_add] at hf; exact hf
    · simp only [if_true]
      rw [zero_add] at hf
      rw [← hf, hN2]; rfl
  rw [hsum]
  set Nmax := 2 * (List.ofFn fx).sum + 2 * bm + oc with hNmax
  have hcond : ∀ k : ℕ, (2 * k ≤ i ∧ i < 2 * bm + oc + 1) ↔ k ≤ i / 2 := by intro k; omega
  by_cases hpar : i % 2 = 0
  · rw [if_pos hpar]
    have hval : ∀ κ : Fin (E + 1) → ℕ, (fun l => fLoop pt (nonzeroRows l).length (getAXS l A) (getAXS l A) (getXDS l D) (getDS l D) Nmax (∑ e, r' e))
        (keptWeights g (List.ofFn r) (List.ofFn κ)) = (fun w => cW D' A' (QQ w) (∑ e, r' e)) (fun e => sAlpha K g * (κ e : K) + sBeta g r e) := by
      intro κ
      exact fLoop_master' _ (keptWeights_length g r κ) _ (wt_keptWeights g r κ) A D A' D' hA hD hs hpt _ _ (by rw [hS, hNmax, hfxs]; omega)
    have := sub_sieve g r r' hle (fun l => l.getD 0 0 ≤ i / 2)
      (fun l => (precomputeBinoms M (i / 2) (l.getD 0 0) : K) * batchBinomProd M (List.ofFn r) l * (-1 : K) ^ ((∑ e, r' e) - l.sum))
      hP hw (fun w => cW D' A' (QQ w) (∑ e, r' e)) (fun l => fLoop pt (nonzeroRows l).length (getAXS l A) (getAXS l A) (getXDS l D) (getDS l D) Nmax (∑ e, r' e)) hval
    rw [← fd_even_value A' D' hs g r r', ← this]
    congr 1
    refine Finset.sum_congr rfl fun j _ => ?_
    simp only [batchEvenStep]
    rw [forRange2_slots _ _ (fun n => (precomputeBinoms M (n / 2) ((findKeptEdges j (List.ofFn r)).getD 0 0) : K)
        * batchBinomProd M (List.ofFn r) (findKeptEdges j (List.ofFn r))
        * (-1 : K) ^ ((2 * (List.ofFn fx).sum + n) / 2 - (findKeptEdges j (List.ofFn r)).sum) *
        (if n % 2 = 0 then fLoop pt (nonzeroRows (keptWeights g (List.ofFn r) (findKeptEdges j (List.ofFn r)))).length (getAXS (keptWeights g (List.ofFn r) (findKeptEdges j (List.ofFn r))) A) (getAXS (keptWeights g (List.ofFn r) (findKeptEdges j (List.ofFn r))) A) (getXDS (keptWeights g (List.ofFn r) (findKeptEdges j (List.ofFn r))) D) (getDS (keptWeights g (List.ofFn r) (findKeptEdges j (List.ofFn r))) D) Nmax ((2 * (List.ofFn fx).sum + n) / 2)
         else fLoopOdd pt (nonzeroRows (keptWeights g (List.ofFn r) (findKeptEdges j (List.ofFn r)))).length (getAXS (keptWeights g (List.ofFn r) (findKeptEdges j (List.ofFn r))) A) (getAXS (keptWeights g (List.ofFn r) (findKeptEdges j (List.ofFn r))) A) (getXDS (keptWeights g (List.ofFn r) (findKeptEdges j (List.ofFn r))) D) (getDS (keptWeights g (List.ofFn r) (findKeptEdges j (List.ofFn r))) D) Nmax (D 0) (getXDS (keptWeights g (List.ofFn r) (findKeptEdges j (List.ofFn r))) (A 0)) (2 * (List.ofFn fx).sum + n)))]
    · rw [zero_add, hlist]
      simp only [hcond, hN2, hpar, if_true]
    · intro n H
      rw [hlist]
      split <;> rfl
  · rw [if_neg hpar]
    have hN1 : 2 * (List.ofFn fx).sum + i = 2 * (∑ e, r' e) + 1 := by rw [hS, hfxs]; omega
    have hval : ∀ κ : Fin (E + 1) → ℕ, (fun l => fLoopOdd pt (nonzeroRows l).length (getAXS l A) (getAXS l A) (getXDS l D) (getDS l D) Nmax (D 0) (getXDS l (A 0)) (2 * (∑ e, r' e) + 1))
        (keptWeights g (List.ofFn r) (List.ofFn κ)) = (fun w => oddE A' D' Nmax w (2 * (∑ e, r' e) + 1)) (fun e => sAlpha K g * (κ e : K) + sBeta g r e) := by
      intro κ
      exact fLoopOdd_master' _ (keptWeights_length g r κ) _ (wt_keptWeights g r κ) A D (A 0) (D 0) A' D' hA hD hD0 hV hpt _ _ (by rw [hS, hNmax, hfxs]; omega)
    have := sub_sieve g r r' hle (fun l => l.getD 0 0 ≤ i / 2)
      (fun l => (precomputeBinoms M (i / 2) (l.getD 0 0) : K) * batchBinomProd M (List.ofFn r) l * (-1 : K) ^ ((∑ e, r' e) - l.sum))
      hP hw (fun w => oddE A' D' Nmax w (2 * (∑ e, r' e) + 1)) (fun l => fLoopOdd pt (nonzeroRows l).length (getAXS l A) (getAXS l A) (getXDS l D) (getDS l D) Nmax (D 0) (getXDS l (A 0)) (2 * (∑ e, r' e) + 1)) hval
    rw [← fd_odd_value A' D' hs g r r' Nmax (by rw [hS, hNmax, hfxs]; omega), ← this]
    congr 1
    refine Finset.sum_congr rfl fun j _ => ?_
    simp only [batchEvenStep]
    rw [forRange2_slots _ _ (fun n => (precomputeBinoms M (n / 2) ((findKeptEdges j (List.ofFn r)).getD 0 0) : K)
        * batchBinomProd M (List.ofFn r) (findKeptEdges j (List.ofFn r))
        * (-1 : K) ^ ((2 * (List.ofFn fx).sum + n) / 2 - (findKeptEdges j (List.ofFn r)).sum) *
        (if n % 2 = 0 then fLoop pt (nonzeroRows (keptWeights g (List.ofFn r) (findKeptEdges j (List.ofFn r)))).length (getAXS (keptWeights g (List.ofFn r) (findKeptEdges j (List.ofFn r))) A) (getAXS (keptWeights g (List.ofFn r) (findKeptEdges j (List.ofFn r))) A) (getXDS (keptWeights g (List.ofFn r) (findKeptEdges j (List.ofFn r))) D) (getDS (keptWeights g (List.ofFn r) (findKeptEdges j (List.ofFn r))) D) Nmax ((2 * (List.ofFn fx).sum + n) / 2)
         else fLoopOdd pt (nonzeroRows (keptWeights g (List.ofFn r) (findKeptEdges j (List.ofFn r)))).length (getAXS (keptWeights g (List.ofFn r) (findKeptEdges j (List.ofFn r))) A) (getAXS (keptWeights g (List.ofFn r) (findKeptEdges j (List.ofFn r))) A) (getXDS (keptWeights g (List.ofFn r) (findKeptEdges j (List.ofFn r))) D) (getDS (keptWeights g (List.ofFn r) (findKeptEdges j (List.ofFn r))) D) Nmax (D 0) (getXDS (keptWeights g (List.ofFn r) (findKeptEdges j (List.ofFn r))) (A 0)) (2 * (List.ofFn fx).sum + n)))]
    · rw [zero_add, hlist]
      simp only [hcond, hN2, hpar, if_false]
      rw [hN1]
    · intro n H
      rw [hlist]
      split <;> rfl

/-- `_calc_loop_hafnian_batch_odd`, entries from 1 on. -/
theorem calcBatchOdd_eq (A : ℕ → ℕ → K) (D : ℕ → K) (A' : Matrix (Vtx (E + 2)) (Vtx (E + 2)) K)
    (hA : ∀ a b, A' (some a) (some b) = A (pos a) (pos b)) (hs : ∀ a b, A' a b = A' b a)
    (D' : Vtx (E + 2) → K) (hD : ∀ a, D' (some a) = D (pos a)) (hD0 : D' none = D 0)
    (hV : ∀ a, A' none (some a) = A 0 (pos a)) {pt : PowerTrace K} (hpt : PTSpec pt)
    (fx : Fin E → ℕ) (bm ec : ℕ) (hoc : ec ≤ 1) (g : Bool) (i : ℕ) (hi0 : 1 ≤ i) (hi : i ≤ 2 * bm + ec + 1) :
    calcBatchOdd pt A D (List.ofFn fx) bm ec g i
      = if i % 2 = 1 then lh D' A' (edgeList (Fin.cons ((i - 1) / 2) (Fin.cons 1 fx : Fin (E + 1) → ℕ) : Fin (E + 2) → ℕ))
        else lh D' A' (none :: edgeList (Fin.cons ((i - 1) / 2) (Fin.cons 1 fx : Fin (E + 1) → ℕ) : Fin (E + 2) → ℕ)) := by
  set fx1 : Fin (E + 1) → ℕ := Fin.cons 1 fx with hfx1
  set r : Fin (E + 2) → ℕ := Fin.cons bm fx1 with hr
  set r' : Fin (E + 2) → ℕ := Fin.cons ((i - 1) / 2) fx1 with hr'
  have hlist : bm :: 1 :: List.ofFn fx = List.ofFn r := by rw [ofFn_cons', ofFn_cons']
  have hle : ∀ e, r' e ≤ r e := by
    intro e
    refine Fin.cases ?_ (fun e => ?_) e
    · simp [hr, hr']; omega
    · simp [hr, hr']
  have hfxs : (List.ofFn fx).sum = ∑ e, fx e := List.sum_ofFn
  have hS : ∑ e, r' e = (i - 1) / 2 + (1 + ∑ e, fx e) := by rw [hr', sum_cons', hfx1, sum_cons']
  have hN2 : (2 * (List.ofFn fx).sum + 1 + i) / 2 = ∑ e, r' e := by rw [hS, hfxs]; omega
  set M := (List.ofFn r).foldl max 0 + ec with hMdef
  have hM0 : ∀ e, r e ≤ (List.ofFn r).foldl max 0 := fun e => foldl_max_le _ _ _ (Or.inl (by rw [List.mem_ofFn]; exact ⟨_, rfl⟩))
  have hM : ∀ e, r e ≤ M := fun e => (hM0 e).trans (Nat.le_add_right _ _)
  have hiM : (i - 1) / 2 ≤ M := by have := hM 0; simp [hr] at this; omega
  have hw : ∀ κ : Fin (E + 2) → ℕ, (∀ e, κ e ≤ r' e) →
      (precomputeBinoms M ((i - 1) / 2) ((List.ofFn κ).getD 0 0) : K) * batchBinomProd M (List.ofFn r) (List.ofFn κ)
        * (-1 : K) ^ ((∑ e, r' e) - (List.ofFn κ).sum)
      = (∏ e, ((r' e).choose (κ e) : K)) * (-1 : K) ^ ((∑ e, r' e) - ∑ e, κ e) := by
    intro κ hκ
    have h0 : κ 0 ≤ (i - 1) / 2 := by have := hκ 0; simpa [hr'] using this
    rw [List.sum_ofFn, getD_ofFn_zero, precomputeBinoms_eq, if_pos ⟨hiM, h0.trans hiM⟩,
      batchBinomProd_eq M r κ (fun e => by have := hκ e.succ; simpa [hr, hr'] using this) hM, Fin.prod_univ_succ (fun e => ((r' e).choose (κ e) : K))]
    simp [hr, hr']
  have hP : ∀ κ : Fin (E + 2) → ℕ, (∀ e, κ e ≤ r e) → ((List.ofFn κ).getD 0 0 ≤ (i - 1) / 2 ↔ ∀ e, κ e ≤ r' e) := by
    intro κ hκ
    rw [getD_ofFn_zero]
    constructor
    · intro h e
      refine Fin.cases ?_ (fun e => ?_) e
      · simpa [hr'] using h
      · have := hκ e.succ; simpa [hr, hr'] using this
    · intro h; have := h 0; simpa [hr'] using this
  have hsum : calcBatchOdd pt A D (List.ofFn fx) bm ec g i
      = (∑ j ∈ range (boxSize (List.ofFn r)), batchOddStep pt A D (List.ofFn fx) bm ec g j i) * (if g then (1 / 2) ^ (∑ e, r' e) else 1) := by
    have hf := forRange_pointwise_sum (boxSize (List.ofFn r)) (batchOddStep pt A D (List.ofFn fx) bm ec g)
      (fun j H i => Function.update H 0 (H 0 + batchOddZero pt A D (List.ofFn fx) bm ec g j) i + batchOddStep pt A D (List.ofFn fx) bm ec g j i) (fun _ => 0) i
      (fun j H => by
        rw [Function.update_of_ne (by omega : i ≠ 0)])
    unfold calcBatchOdd batchOddBody
    rw [hlist]
    cases g
    · simp only [Bool.false_eq_true, if_false, mul_one]
      rw [zero_add] at hf; exact hf
    · simp only [if_true]
      rw [zero_add] at hf
      rw [← hf, hN2]; rfl
  rw [hsum]
  set Nmax := 2 * (List.ofFn fx).sum + 1 + 2 * bm + ec + 1 with hNmax
  have hcond : ∀ k : ℕ, (2 * k + 1 ≤ i ∧ i < 2 * bm + ec + 2) ↔ k ≤ (i - 1) / 2 := by intro k; omega
  by_cases hpar : i % 2 = 1
  · rw [if_pos hpar]
    have hpar' : (2 * (List.ofFn fx).sum + 1 + i) % 2 = 0 := by omega
    have hval : ∀ κ : Fin (E + 2) → ℕ, (fun l => fLoop pt (nonzeroRows l).length (getAXS l A) (getAXS l A) (getXDS l D) (getDS l D) Nmax (∑ e, r' e))
        (keptWeights g (List.ofFn r) (List.ofFn κ)) = (fun w => cW D' A' (QQ w) (∑ e, r' e)) (fun e => sAlpha K g * (κ e : K) + sBeta g r e) := by
      intro κ
      exact fLoop_master' _ (keptWeights_length g r κ) _ (wt_keptWeights g r κ) A D A' D' hA hD hs hpt _ _ (by rw [hS, hNmax, hfxs]; omega)
    have := sub_sieve g r r' hle (fun l => l.getD 0 0 ≤ (i - 1) / 2)
      (fun l => (precomputeBinoms M ((i - 1) / 2) (l.getD 0 0) : K) * batchBinomProd M (List.ofFn r) l * (-1 : K) ^ ((∑ e, r' e) - l.sum))
      hP hw (fun w => cW D' A' (QQ w) (∑ e, r' e)) (fun l => fLoop pt (nonzeroRows l).length (getAXS l A) (getAXS l A) (getXDS l D) (getDS l D) Nmax (∑ e, r' e)) hval
    rw [← fd_even_value A' D' hs g r r', ← this]
    congr 1
    refine Finset.sum_congr rfl fun j _ => ?_
    simp only [batchOddStep]
    rw [forRange2_slots _ _ (fun n => (precomputeBinoms M ((n - 1) / 2) ((findKeptEdges j (List.ofFn r)).getD 0 0) : K)
        * batchBinomProd M (List.ofFn r) (findKeptEdges j (List.ofFn r))
        * (-1 : K) ^ ((2 * (List.ofFn fx).sum + 1 + n) / 2 - (findKeptEdges j (List.ofFn r)).sum) *
        (if (2 * (List.ofFn fx).sum + 1 + n) % 2 = 0 then fLoop pt (nonzeroRows (keptWeights g (List.ofFn r) (findKeptEdges j (List.ofFn r)))).length (getAXS (keptWeights g (List.ofFn r) (findKeptEdges j (List.ofFn r))) A) (getAXS (keptWeights g (List.ofFn r) (findKeptEdges j (List.ofFn r))) A) (getXDS (keptWeights g (List.ofFn r) (findKeptEdges j (List.ofFn r))) D) (getDS (keptWeights g (List.ofFn r) (findKeptEdges j (List.ofFn r))) D) Nmax ((2 * (List.ofFn fx).sum + 1 + n) / 2)
         else fLoopOdd pt (nonzeroRows (keptWeights g (List.ofFn r) (findKeptEdges j (List.ofFn r)))).length (getAXS (keptWeights g (List.ofFn r) (findKeptEdges j (List.ofFn r))) A) (getAXS (keptWeights g (List.ofFn r) (findKeptEdges j (List.ofFn r))) A) (getXDS (keptWeights g (List.ofFn r) (findKeptEdges j (List.ofFn r))) D) (getDS (keptWeights g (List.ofFn r) (findKeptEdges j (List.ofFn r))) D) Nmax (D 0) (getXDS (keptWeights g (List.ofFn r) (findKeptEdges j (List.ofFn r))) (A 0)) (2 * (List.ofFn fx).sum + 1 + n)))]
    · rw [zero_add, hlist]
      simp only [hcond, hN2, hpar', if_true]
    · intro n H
      rw [hlist]
      split <;> rfl
  · rw [if_neg hpar]
    have hpar' : ¬ (2 * (List.ofFn fx).sum + 1 + i) % 2 = 0 := by omega
    have hN1 : 2 * (List.ofFn fx).sum + 1 + i = 2 * (∑ e, r' e) + 1 := by rw [hS, hfxs]; omega
    have hval : ∀ κ : Fin (E + 2) → ℕ, (fun l => fLoopOdd pt (nonzeroRows l).length (getAXS l A) (getAXS l A) (getXDS l D) (getDS l D) Nmax (D 0) (getXDS l (A 0)) (2 * (∑ e, r' e) + 1))
        (keptWeights g (List.ofFn r) (List.ofFn κ)) = (fun w => oddE A' D' Nmax w (2 * (∑ e, r' e) + 1)) (fun e => sAlpha K g * (κ e : K) + sBeta g r e) := by
      intro κ
      exact fLoopOdd_master' _ (keptWeights_length g r κ) _ (wt_keptWeights g r κ) A D (A 0) (D 0) A' D' hA hD hD0 hV hpt _ _ (by rw [hS, hNmax, hfxs]; omega)
    have := sub_sieve g r r' hle (fun l => l.getD 0 0 ≤ (i - 1) / 2)
      (fun l => (precomputeBinoms M ((i - 1) / 2) (l.getD 0 0) : K) * batchBinomProd M (List.ofFn r) l * (-1 : K) ^ ((∑ e, r' e) - l.sum))
      hP hw (fun w => oddE A' D' Nmax w (2 * (∑ e, r' e) + 1)) (fun l => fLoopOdd pt (nonzeroRows l).length (getAXS l A) (getAXS l A) (getXDS l D) (getDS l D) Nmax (D 0) (getXDS l (A 0)) (2 * (∑ e, r' e) + 1)) hval
    rw [← fd_odd_value A' D' hs g r r' Nmax (by rw [hS, hNmax, hfxs]; omega), ← this]
    congr 1
    refine Finset.sum_congr rfl fun j _ => ?_
    simp only [batchOddStep]
    rw [forRange2_slots _ _ (fun n => (precomputeBinoms M ((n - 1) / 2) ((findKeptEdges j (List.ofFn r)).getD 0 0) : K)
        * batchBinomProd M (List.ofFn r) (findKeptEdges j (List.ofFn r))
        * (-1 : K) ^ ((2 * (List.ofFn fx).sum + 1 + n) / 2 - (findKeptEdges j (List.ofFn r)).sum) *
        (if (2 * (List.ofFn fx).sum + 1 + n) % 2 = 0 then fLoop pt (nonzeroRows (keptWeights g (List.ofFn r) (findKeptEdges j (List.ofFn r)))).length (getAXS (keptWeights g (List.ofFn r) (findKeptEdges j (List.ofFn r))) A) (getAXS (keptWeights g (List.ofFn r) (findKeptEdges j (List.ofFn r))) A) (getXDS (keptWeights g (List.ofFn r) (findKeptEdges j (List.ofFn r))) D) (getDS (keptWeights g (List.ofFn r) (findKeptEdges j (List.ofFn r))) D) Nmax ((2 * (List.ofFn fx).sum + 1 + n) / 2)
         else fLoopOdd pt (nonzeroRows (keptWeights g (List.ofFn r) (findKeptEdges j (List.ofFn r)))).length (getAXS (keptWeights g (List.ofFn r) (findKeptEdges j (List.ofFn r))) A) (getAXS (keptWeights g (List.ofFn r) (findKeptEdges j (List.ofFn r))) A) (getXDS (keptWeights g (List.ofFn r) (findKeptEdges j (List.ofFn r))) D) (getDS (keptWeights g (List.ofFn r) (findKeptEdges j (List.ofFn r))) D) Nmax (D 0) (getXDS (keptWeights g (List.ofFn r) (findKeptEdges j (List.ofFn r))) (A 0)) (2 * (List.ofFn fx).sum + 1 + n)))]
    · rw [zero_add, hlist]
      simp only [hcond, hN2, hpar', if_false]
      rw [hN1]
    · intro n H
      rw [hlist]
      split <;> rfl

/-- `_calc_loop_hafnian_batch_odd`, entry 0. -/
theorem calcBatchOdd_zero (A : ℕ → ℕ → K) (D : ℕ → K) (A' : Matrix (Vtx (E + 2)) (Vtx (E + 2)) K)
    (hA : ∀ a b, A' (some a) (some b) = A (pos a) (pos b)) (hs : ∀ a b, A' a b = A' b a)
    (D' : Vtx (E + 2) → K) (hD : ∀ a, D' (some a) = D (pos a)) (hD0 : D' none = D 1)
    (hV : ∀ a, A' none (some a) = A 1 (pos a)) {pt : PowerTrace K} (hpt : PTSpec pt)
    (fx : Fin E → ℕ) (bm ec : ℕ) (g : Bool) :
    calcBatchOdd pt A D (List.ofFn fx) bm ec g 0
      = lh D' A' (none :: edgeList (Fin.cons 0 (Fin.cons 0 fx : Fin (E + 1) → ℕ) : Fin (E + 2) → ℕ)) := by
  set r : Fin (E + 2) → ℕ := Fin.cons bm (Fin.cons 1 fx : Fin (E + 1) → ℕ) with hr
  set r' : Fin (E + 2) → ℕ := Fin.cons 0 (Fin.cons 0 fx : Fin (E + 1) → ℕ) with hr'
  have hlist : bm :: 1 :: List.ofFn fx = List.ofFn r := by rw [ofFn_cons', ofFn_cons']
  have hle : ∀ e, r' e ≤ r e := by
    intro e
    refine Fin.cases ?_ (fun e => Fin.cases ?_ (fun e => ?_) e) e
    · simp [hr, hr']
    · simp [hr, hr']
    · simp [hr, hr']
  have hfxs : (List.ofFn fx).sum = ∑ e, fx e := List.sum_ofFn
  have hS : ∑ e, r' e = ∑ e, fx e := by rw [hr', sum_cons', sum_cons']; omega
  have hN2 : (2 * (List.ofFn fx).sum + 1) / 2 = ∑ e, r' e := by rw [hS, hfxs]; omega
  have hN1 : 2 * (List.ofFn fx).sum + 1 = 2 * (∑ e, r' e) + 1 := by rw [hS, hfxs]
  set M := (List.ofFn r).foldl max 0 + ec with hMdef
  have hM0 : ∀ e, r e ≤ (List.ofFn r).foldl max 0 := fun e => foldl_max_le _ _ _ (Or.inl (by rw [List.mem_ofFn]; exact ⟨_, rfl⟩))
  have hM : ∀ e, r e ≤ M := fun e => (hM0 e).trans (Nat.le_add_right _ _)
  have hw : ∀ κ : Fin (E + 2) → ℕ, (∀ e, κ e ≤ r' e) →
      batchBinomProd M (List.ofFn r) (List.ofFn κ) * (-1 : K) ^ ((∑ e, r' e) - (List.ofFn κ).sum)
      = (∏ e, ((r' e).choose (κ e) : K)) * (-1 : K) ^ ((∑ e, r' e) - ∑ e, κ e) := by
    intro κ hκ
    have h0 : κ 0 = 0 := by have := hκ 0; simpa [hr'] using this
    have h1 : κ 1 = 0 := by have := hκ 1; simpa [hr'] using this
    rw [List.sum_ofFn, batchBinomProd_eq M r κ (fun e => (hκ e.succ).trans (hle e.succ)) hM, Fin.prod_univ_succ, Fin.prod_univ_succ,
      Fin.prod_univ_succ (fun i : Fin (E + 1) => ((r' i.succ).choose (κ i.succ) : K))]
    simp [hr, hr', h0, h1]
  have hP : ∀ κ : Fin (E + 2) → ℕ, (∀ e, κ e ≤ r e) → (((List.ofFn κ).getD 0 0 = 0 ∧ (List.ofFn κ).getD 1 0 = 0) ↔ ∀ e, κ e ≤ r' e) := by
    intro κ hκ
    rw [getD_ofFn_zero, getD_ofFn_one]
    constructor
    · intro h e
      refine Fin.cases ?_ (fun e => Fin.cases ?_ (fun e => ?_) e) e
      · simpa [hr'] using h.1
      · simpa [hr'] using h.2
      · have := hκ e.succ.succ; simpa [hr, hr'] using this
    · intro h; have h0 := h 0; have h1 := h 1
      constructor
      · simpa [hr'] using h0
      · simpa [hr'] using h1
  have hstep0 : ∀ j, batchOddStep pt A D (List.ofFn fx) bm ec g j 0 = 0 := by
    intro j
    simp only [batchOddStep]
    have : ∀ (a b : ℕ) (body : ℕ → (ℕ → K) → ℕ → K), (∀ n H, n ≠ 0 → body n H 0 = H 0) → 1 ≤ a → forRange2 a b (fun _ => 0) body 0 = 0 := by
      intro a b body hb ha
      rcases Nat.le_total a b with hab | hab
      · exact forRange2_inv (fun _ H => H 0 = 0) hab (fun _ => (0 : K)) body rfl (fun n H h1 _ hH => by rw [hb n H (by omega), hH])
      · rw [forRange2_eq, show b - a = 0 by omega]; rfl
    apply this
    · intro n H hn
      split
      · rw [Function.update_of_ne (Ne.symm hn)]
      · rw [Function.update_of_ne (Ne.symm hn)]
    · omega
  have hsum : calcBatchOdd pt A D (List.ofFn fx) bm ec g 0
      = (∑ j ∈ range (boxSize (List.ofFn r)), batchOddZero pt A D (List.ofFn fx) bm ec g j) * (if g then (1 / 2) ^ (∑ e, r' e) else 1) := by
    have hf := forRange_pointwise_sum (boxSize (List.ofFn r)) (fun j _ => batchOddZero pt A D (List.ofFn fx) bm ec g j)
      (fun j H i => Function.update H 0 (H 0 + batchOddZero pt A D (List.ofFn fx) bm ec g j) i + batchOddStep pt A D (List.ofFn fx) bm ec g j i) (fun _ => 0) 0
      (fun j H => by
        rw [Function.update_self, hstep0, add_zero])
    unfold calcBatchOdd batchOddBody
    rw [hlist]
    cases g
    · simp only [Bool.false_eq_true, if_false, mul_one]
      rw [zero_add] at hf; exact hf
    · simp only [if_true]
      rw [zero_add] at hf
      rw [← hf, ← hN2]; rfl
  rw [hsum]
  have hval : ∀ κ : Fin (E + 2) → ℕ, (fun l => fLoopOdd pt (nonzeroRows l).length (getAXS l A) (getAXS l A) (getXDS l D) (getDS l D) (2 * (∑ e, r' e) + 1) (D 1) (getXDS l (A 1)) (2 * (∑ e, r' e) + 1))
      (keptWeights g (List.ofFn r) (List.ofFn κ)) = (fun w => oddE A' D' (2 * (∑ e, r' e) + 1) w (2 * (∑ e, r' e) + 1)) (fun e => sAlpha K g * (κ e : K) + sBeta g r e) := by
    intro κ
    exact fLoopOdd_master' _ (keptWeights_length g r κ) _ (wt_keptWeights g r κ) A D (A 1) (D 1) A' D' hA hD hD0 hV hpt _ _ le_rfl
  have := sub_sieve g r r' hle (fun l => l.getD 0 0 = 0 ∧ l.getD 1 0 = 0)
    (fun l => batchBinomProd M (List.ofFn r) l * (-1 : K) ^ ((∑ e, r' e) - l.sum))
    hP hw (fun w => oddE A' D' (2 * (∑ e, r' e) + 1) w (2 * (∑ e, r' e) + 1)) (fun l => fLoopOdd pt (nonzeroRows l).length (getAXS l A) (getAXS l A) (getXDS l D) (getDS l D) (2 * (∑ e, r' e) + 1) (D 1) (getXDS l (A 1)) (2 * (∑ e, r' e) + 1)) hval
  rw [← fd_odd_value A' D' hs g r r' _ le_rfl, ← this]
  congr 1
  refine Finset.sum_congr rfl fun j _ => ?_
  simp only [batchOddZero]
  rw [hlist, hN2, hN1]

end calcs
end Verif
