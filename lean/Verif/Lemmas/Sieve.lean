/- The sieve loops: mixed-radix enumeration, binomial tables, half-range symmetry. -/
import Verif.Lemmas.OddLoop
import Mathlib.Data.Nat.Choose.Basic
import Mathlib.Data.List.OfFn

set_option linter.unusedSectionVars false
set_option linter.unusedSimpArgs false

namespace Verif
open Model Finset

/-! ### binomials -/

theorem nbBinom_eq (n k : ℕ) : nbBinom n k = n.choose k := by
  unfold nbBinom
  split
  · rename_i h; rw [Nat.choose_eq_zero_of_lt h]
  · rename_i h
    split
    · rename_i h2
      rcases h2 with rfl | rfl <;> simp
    · rename_i h2
      have key : ∀ m, m ≤ n → forRange m 1 (fun i binom => (binom * (n - i)) / (i + 1)) = n.choose m := by
        intro m hm
        induction m with
        | zero => simp
        | succ m ih =>
          rw [forRange_succ, ih (by omega)]
          apply Nat.div_eq_of_eq_mul_left (Nat.succ_pos m)
          rw [← Nat.choose_succ_right_eq]
      rw [key _ (by omega)]
      rcases Nat.le_total k (n - k) with h3 | h3
      · rw [Nat.min_eq_left h3]
      · rw [Nat.min_eq_right h3, Nat.choose_symm (by omega)]

theorem precomputeBinoms_eq (m i j : ℕ) :
    precomputeBinoms m i j = if i ≤ m ∧ j ≤ m then i.choose j else 0 := by
  have inner : ∀ (i : ℕ) (b : ℕ → ℕ → ℕ) (J : ℕ), forRange J b (fun j b i' j' => if i' = i ∧ j' = j then nbBinom i j else b i' j')
      = fun i' j' => if i' = i ∧ j' < J then i.choose j' else b i' j' := by
    intro i b J
    induction J with
    | zero => funext i' j'; simp
    | succ J ih =>
      rw [forRange_succ, ih]
      funext i' j'
      by_cases h1 : i' = i
      · by_cases h2 : j' = J
        · subst h2; simp [h1, nbBinom_eq]
        · have : j' < J + 1 ↔ j' < J := by omega
          simp [h1, h2, this]
      · simp [h1]
  have outer : ∀ I, forRange I (fun _ _ => 0) (fun i b => forRange (m + 1) b fun j b i' j' => if i' = i ∧ j' = j then nbBinom i j else b i' j')
      = fun i' j' => if i' < I ∧ j' ≤ m then i'.choose j' else 0 := by
    intro I
    induction I with
    | zero => funext i' j'; simp
    | succ I ih =>
      rw [forRange_succ, ih, inner]
      funext i' j'
      have e : j' < m + 1 ↔ j' ≤ m := by omega
      by_cases h1 : i' = I
      · subst h1; simp [e]
      · have : i' < I + 1 ↔ i' < I := by omega
        simp [h1, this]
  rw [precomputeBinoms, outer]
  have : i < m + 1 ↔ i ≤ m := by omega
  simp [this]

/-! ### find_kept_edges -/

def digitsL : List ℕ → ℕ → List ℕ
  | [], _ => []
  | b :: bs, j => j % b :: digitsL bs (j / b)

theorem foldl_digits (bs : List ℕ) (acc : List ℕ) (j : ℕ) :
    bs.foldl (fun (s : List ℕ × ℕ) base => (s.1 ++ [s.2 % base], s.2 / base)) (acc, j)
      = (acc ++ digitsL bs j, j / bs.prod) := by
  induction bs generalizing acc j with
  | nil => simp [digitsL]
  | cons b bs ih => simp [ih, digitsL, Nat.div_div_eq_div_mul]

theorem digitsL_append (l : List ℕ) (b j : ℕ) : digitsL (l ++ [b]) j = digitsL l j ++ [(j / l.prod) % b] := by
  induction l generalizing j with
  | nil => simp [digitsL]
  | cons a l ih => simp [digitsL, ih, Nat.div_div_eq_div_mul]

/-- Size of the box. -/
def boxSize (rs : List ℕ) : ℕ := (rs.map (· + 1)).prod

theorem boxSize_pos (rs : List ℕ) : 0 < boxSize rs := by
  induction rs with
  | nil => simp [boxSize]
  | cons r rs ih => simp only [boxSize, List.map_cons, List.prod_cons] at *; positivity

theorem fke_nil (j : ℕ) : findKeptEdges j [] = [] := rfl

theorem fke_cons (j r : ℕ) (rs : List ℕ) :
    findKeptEdges j (r :: rs) = (j / boxSize rs) % (r + 1) :: findKeptEdges j rs := by
  simp only [findKeptEdges, foldl_digits, List.nil_append, List.map_cons, List.reverse_cons, digitsL_append,
    List.reverse_append, List.reverse_nil, List.singleton_append]
  rw [List.prod_reverse]; rfl

theorem fke_length (j : ℕ) (rs : List ℕ) : (findKeptEdges j rs).length = rs.length := by
  induction rs with
  | nil => simp [fke_nil]
  | cons r rs ih => simp [fke_cons, ih]

theorem fke_add (k j : ℕ) (rs : List ℕ) : findKeptEdges (k * boxSize rs + j) rs = findKeptEdges j rs := by
  induction rs generalizing k j with
  | nil => rfl
  | cons r rs ih =>
    have hb : boxSize (r :: rs) = (r + 1) * boxSize rs := by simp [boxSize]
    have e : k * boxSize (r :: rs) + j = (k * (r + 1)) * boxSize rs + j := by rw [hb]; ring
    rw [fke_cons, fke_cons, e, ih]
    congr 1
    rw [add_comm, Nat.add_mul_div_right _ _ (boxSize_pos rs), Nat.add_mul_mod_self_right]

theorem sum_fke_cons {K : Type*} [AddCommMonoid K] (r : ℕ) (rs : List ℕ) (c : ℕ) (hc : c ≤ r + 1) (G : List ℕ → K) :
    ∑ j ∈ range (c * boxSize rs), G (findKeptEdges j (r :: rs))
      = ∑ k ∈ range c, ∑ j ∈ range (boxSize rs), G (k :: findKeptEdges j rs) := by
  induction c with
  | zero => simp
  | succ c ih =>
    rw [Nat.succ_mul, Finset.sum_range_add, ih (by omega), Finset.sum_range_succ]
    congr 1
    refine Finset.sum_congr rfl fun j hj => ?_
    have hj : j < boxSize rs := by simpa using hj
    rw [fke_cons, fke_add]
    congr 2
    rw [Nat.add_comm, Nat.add_mul_div_right _ _ (boxSize_pos rs), Nat.div_eq_of_lt hj, Nat.zero_add, Nat.mod_eq_of_lt (by omega)]

theorem sum_piFinset_succ {K : Type*} [AddCommMonoid K] {E : ℕ} (r : Fin (E + 1) → ℕ) (G : (Fin (E + 1) → ℕ) → K) :
    ∑ κ ∈ Fintype.piFinset (fun e => range (r e + 1)), G κ
      = ∑ k ∈ range (r 0 + 1), ∑ κ ∈ Fintype.piFinset (fun e : Fin E => range (r e.succ + 1)), G (Fin.cons k κ) := by
  rw [← Finset.sum_product']
  refine Finset.sum_nbij' (fun κ => (κ 0, fun e => κ e.succ)) (fun p => Fin.cons p.1 p.2) ?_ ?_ ?_ ?_ ?_
  · intro κ hκ
    rw [Fintype.mem_piFinset] at hκ
    rw [Finset.mem_product, Fintype.mem_piFinset]
    exact ⟨hκ 0, fun e => hκ e.succ⟩
  · intro p hp
    rw [Finset.mem_product, Fintype.mem_piFinset] at hp
    rw [Fintype.mem_piFinset]
    intro e
    refine Fin.cases ?_ (fun e => ?_) e
    · exact hp.1
    · exact hp.2 e
  · intro κ _; exact Fin.cons_self_tail κ
  · intro p _; rfl
  · intro κ _; congr 1; exact (Fin.cons_self_tail κ).symm

/-- The sieve index runs through the whole box. -/
theorem sum_fke {K : Type*} [AddCommMonoid K] {E : ℕ} (r : Fin E → ℕ) (G : List ℕ → K) :
    ∑ j ∈ range (boxSize (List.ofFn r)), G (findKeptEdges j (List.ofFn r))
      = ∑ κ ∈ Fintype.piFinset (fun e => range (r e + 1)), G (List.ofFn κ) := by
  induction E generalizing G with
  | zero => simp [boxSize, fke_nil]
  | succ E ih =>
    rw [sum_piFinset_succ, List.ofFn_succ]
    have hb : boxSize (r 0 :: List.ofFn fun i : Fin E => r i.succ) = (r 0 + 1) * boxSize (List.ofFn fun i : Fin E => r i.succ) := by
      simp [boxSize]
    rw [hb, sum_fke_cons _ _ _ le_rfl]
    refine Finset.sum_congr rfl fun k _ => ?_
    rw [ih (fun i => r i.succ) (fun l => G (k :: l))]
    refine Finset.sum_congr rfl fun κ _ => ?_
    rw [List.ofFn_succ]; rfl

theorem forRange_add_sum {K : Type*} [AddCommMonoid K] (n : ℕ) (c : K) (g : ℕ → K) :
    forRange n c (fun j H => H + g j) = c + ∑ j ∈ range n, g j := by
  induction n with
  | zero => simp
  | succ n ih => rw [forRange_succ, ih, Finset.sum_range_succ, add_assoc]

section terms
variable {K : Type} [Field K] [CharZero K] {E : ℕ}

theorem foldl_max_le (l : List ℕ) (a b : ℕ) (h : b ∈ l ∨ b ≤ a) : b ≤ l.foldl max a := by
  induction l generalizing a with
  | nil => rcases h with h | h <;> simp_all
  | cons x xs ih =>
    simp only [List.foldl_cons]
    apply ih
    rcases h with h | h
    · rcases List.mem_cons.1 h with rfl | h
      · right; exact le_max_right _ _
      · left; exact h
    · right; exact h.trans (le_max_left _ _)

theorem binomProd_eq (r κ : Fin E → ℕ) (h : ∀ e, κ e ≤ r e) :
    (binomProd (List.ofFn r) (List.ofFn κ) : K) = ∏ e, ((r e).choose (κ e) : K) := by
  have key : ∀ m, m ≤ E → forRange m (1 : K) (fun i b => b *
      (precomputeBinoms ((List.ofFn r).foldl max 0 + 1) ((List.ofFn r).getD i 0) ((List.ofFn κ).getD i 0) : K))
      = ∏ i ∈ range m, if h : i < E then ((r ⟨i, h⟩).choose (κ ⟨i, h⟩) : K) else 1 := by
    intro m hm
    induction m with
    | zero => simp
    | succ m ih =>
      rw [forRange_succ, ih (by omega), Finset.prod_range_succ, dif_pos (by omega)]
      congr 1
      have h1 : (List.ofFn r).getD m 0 = r ⟨m, by omega⟩ := by
        rw [List.getD_eq_getElem?_getD]; simp [show m < E by omega]
      have h2 : (List.ofFn κ).getD m 0 = κ ⟨m, by omega⟩ := by
        rw [List.getD_eq_getElem?_getD]; simp [show m < E by omega]
      rw [h1, h2, precomputeBinoms_eq, if_pos]
      have h3 : r ⟨m, by omega⟩ ≤ (List.ofFn r).foldl max 0 := foldl_max_le _ _ _ (Or.inl (by
        rw [List.mem_ofFn]; exact ⟨_, rfl⟩))
      have h4 := h ⟨m, by omega⟩
      omega
  simp only [binomProd, List.length_ofFn]
  rw [key E le_rfl, ← Fin.prod_univ_eq_prod_range (fun i => if h : i < E then ((r ⟨i, h⟩).choose (κ ⟨i, h⟩) : K) else 1)]
  simp

theorem sign_eq (r κ : Fin E → ℕ) (h : ∀ e, κ e ≤ r e) :
    ((-1 : K) ^ ((∑ e, r e) - ∑ e, κ e)) = ∏ e, (-1 : K) ^ (r e - κ e) := by
  rw [Finset.prod_pow_eq_pow_sum, ← Finset.sum_tsub_distrib]
  intro e _; exact h e

theorem keptWeights_length (g : Bool) (r κ : Fin E → ℕ) : (keptWeights g (List.ofFn r) (List.ofFn κ)).length = E := by
  cases g <;> simp [keptWeights]

theorem keptWeights_get (g : Bool) (r κ : Fin E → ℕ) (e : Fin E) :
    (keptWeights g (List.ofFn r) (List.ofFn κ)).getD e 0 = if g then 2 * (κ e : ℤ) - r e else κ e := by
  cases g
  · simp [keptWeights, List.getD_eq_getElem?_getD]
  · simp [keptWeights, List.getD_eq_getElem?_getD, List.getElem?_zipWith]

/-- Shift parameters of the two sieves. -/
def sAlpha (K : Type) [Field K] (g : Bool) : K := if g then 2 else 1
def sBeta (g : Bool) (r : Fin E → ℕ) : Fin E → K := fun e => if g then -(r e : K) else 0

theorem wt_keptWeights (g : Bool) (r κ : Fin E → ℕ) (e : Fin E) :
    (((keptWeights g (List.ofFn r) (List.ofFn κ)).getD e 0 : ℤ) : K) = sAlpha K g * (κ e : K) + sBeta g r e := by
  rw [keptWeights_get]
  cases g <;> simp [sAlpha, sBeta] <;> ring

/-- Restatement of the master theorems for a list of known length. -/
theorem fLoop_master' (l : List ℤ) (hl : l.length = E) (w : Fin E → K) (hw : ∀ e : Fin E, ((l.getD e 0 : ℤ) : K) = w e)
    (A : ℕ → ℕ → K) (D : ℕ → K) (A' : Matrix (Vtx E) (Vtx E) K) (D' : Vtx E → K)
    (hA : ∀ a b, A' (some a) (some b) = A (pos a) (pos b))
    (hD : ∀ a, D' (some a) = D (pos a)) (hs : ∀ a b, A' a b = A' b a) {pt : PowerTrace K} (hpt : PTSpec pt)
    (n k : ℕ) (hk : k ≤ n / 2) :
    fLoop pt (nonzeroRows l).length (getAXS l A) (getAXS l A) (getXDS l D) (getDS l D) n k = cW D' A' (QQ w) k := by
  subst hl
  have : w = wt K l := by funext e; exact (hw e).symm
  rw [this]
  exact fLoop_master l A D A' D' hA hs hpt hD n k hk

theorem f_master' (l : List ℤ) (hl : l.length = E) (w : Fin E → K) (hw : ∀ e : Fin E, ((l.getD e 0 : ℤ) : K) = w e)
    (A : ℕ → ℕ → K) (A' : Matrix (Vtx E) (Vtx E) K)
    (hA : ∀ a b, A' (some a) (some b) = A (pos a) (pos b))
    (hs : ∀ a b, A' a b = A' b a) {pt : PowerTrace K} (hpt : PTSpec pt)
    (n k : ℕ) (hk : k ≤ n / 2) :
    f pt (nonzeroRows l).length (getAXS l A) n k = cW (fun _ => 0) A' (QQ w) k := by
  subst hl
  have : w = wt K l := by funext e; exact (hw e).symm
  rw [this]
  exact f_master l A A' hA hs hpt n k hk

theorem fLoopOdd_master' (l : List ℤ) (hl : l.length = E) (w : Fin E → K) (hw : ∀ e : Fin E, ((l.getD e 0 : ℤ) : K) = w e)
    (A : ℕ → ℕ → K) (D oddV : ℕ → K) (oddloop : K) (A' : Matrix (Vtx E) (Vtx E) K) (D' : Vtx E → K)
    (hA : ∀ a b, A' (some a) (some b) = A (pos a) (pos b))
    (hD : ∀ a, D' (some a) = D (pos a)) (hD0 : D' none = oddloop) (hV : ∀ a, A' none (some a) = oddV (pos a))
    {pt : PowerTrace K} (hpt : PTSpec pt) (n k : ℕ) (hk : k ≤ n) :
    fLoopOdd pt (nonzeroRows l).length (getAXS l A) (getAXS l A) (getXDS l D) (getDS l D) n oddloop
      (getXDS l oddV) k = oddE A' D' n w k := by
  subst hl
  have : w = wt K l := by funext e; exact (hw e).symm
  rw [this]
  exact fLoopOdd_master l A D oddV oddloop A' D' hA hD hD0 hV hpt n k hk

/-- The full-range sieve is a finite difference. -/
theorem full_sieve (g : Bool) (r : Fin E → ℕ) (F : (Fin E → K) → K) (val : List ℤ → K)
    (hval : ∀ κ : Fin E → ℕ, val (keptWeights g (List.ofFn r) (List.ofFn κ)) = F (fun e => sAlpha K g * (κ e : K) + sBeta g r e)) :
    ∑ j ∈ range (boxSize (List.ofFn r)), (-1 : K) ^ ((List.ofFn r).sum - (findKeptEdges j (List.ofFn r)).sum)
        * binomProd (List.ofFn r) (findKeptEdges j (List.ofFn r)) * val (keptWeights g (List.ofFn r) (findKeptEdges j (List.ofFn r)))
      = fdSum r (sAlpha K g) (sBeta g r) F := by
  rw [sum_fke r (fun l => (-1 : K) ^ ((List.ofFn r).sum - l.sum) * binomProd (List.ofFn r) l * val (keptWeights g (List.ofFn r) l)), fdSum]
  refine Finset.sum_congr rfl fun κ hκ => ?_
  rw [Fintype.mem_piFinset] at hκ
  have hle : ∀ e, κ e ≤ r e := fun e => by have := hκ e; simp at this; omega
  rw [List.sum_ofFn, List.sum_ofFn, sign_eq r κ hle, binomProd_eq r κ hle, hval, Finset.prod_mul_distrib]

/-- The half-range sieve (with the factor ½ on the central slice) is half the finite difference, for
functions of the parity of `Σ r`. -/
theorem half_sieve (r : Fin (E + 1) → ℕ) (F : (Fin (E + 1) → K) → K)
    (hF : ∀ w, F (fun e => - w e) = (-1) ^ (∑ e, r e) * F w) (val : List ℤ → K)
    (hval : ∀ κ : Fin (E + 1) → ℕ, val (keptWeights true (List.ofFn r) (List.ofFn κ)) = F (fun e => sAlpha K true * (κ e : K) + sBeta true r e)) :
    ∑ j ∈ range (sieveSteps (List.ofFn r) true),
        (if (keptWeights true (List.ofFn r) (findKeptEdges j (List.ofFn r))).headD 0 = 0 then
          (-1 : K) ^ ((List.ofFn r).sum - (findKeptEdges j (List.ofFn r)).sum) * binomProd (List.ofFn r) (findKeptEdges j (List.ofFn r)) * (1 / 2)
        else (-1 : K) ^ ((List.ofFn r).sum - (findKeptEdges j (List.ofFn r)).sum) * binomProd (List.ofFn r) (findKeptEdges j (List.ofFn r)))
         * val (keptWeights true (List.ofFn r) (findKeptEdges j (List.ofFn r)))
      = fdSum r (sAlpha K true) (sBeta true r) F * (1 / 2) := by
  set T : (Fin (E + 1) → ℕ) → K := fun κ => (∏ e, ((-1 : K) ^ (r e - κ e) * ((r e).choose (κ e) : K))) * F (fun e => sAlpha K true * (κ e : K) + sBeta true r e) with hT
  -- symmetry
  have hsym : ∀ κ : Fin (E + 1) → ℕ, (∀ e, κ e ≤ r e) → T (fun e => r e - κ e) = T κ := by
    intro κ hκ
    have h1 : (fun e => sAlpha K true * ((r e - κ e : ℕ) : K) + sBeta true r e) = fun e => - (sAlpha K true * (κ e : K) + sBeta true r e) := by
      funext e
      rw [Nat.cast_sub (hκ e)]
      simp [sAlpha, sBeta]; ring
    have h2 : ∏ e, ((-1 : K) ^ (r e - (r e - κ e)) * ((r e).choose (r e - κ e) : K))
        = (-1) ^ (∑ e, r e) * ∏ e, ((-1 : K) ^ (r e - κ e) * ((r e).choose (κ e) : K)) := by
      rw [← Finset.prod_pow_eq_pow_sum, ← Finset.prod_mul_distrib]
      refine Finset.prod_congr rfl fun e _ => ?_
      rw [Nat.choose_symm (hκ e), ← mul_assoc, ← pow_add]
      congr 1
      have e1 : r e - (r e - κ e) = κ e := by have := hκ e; omega
      have e2 : r e + (r e - κ e) = κ e + 2 * (r e - κ e) := by have := hκ e; omega
      rw [e1, e2, pow_add, pow_mul]; simp
    simp only [hT]
    rw [h1, hF, h2]
    have : ((-1 : K) ^ (∑ e, r e)) * (-1) ^ (∑ e, r e) = 1 := by rw [← mul_pow]; simp
    linear_combination (∏ e, ((-1 : K) ^ (r e - κ e) * ((r e).choose (κ e) : K))) * F (fun e => sAlpha K true * (κ e : K) + sBeta true r e) * this
  set S : ℕ → K := fun k => ∑ κ ∈ Fintype.piFinset (fun e : Fin E => range (r e.succ + 1)), T (Fin.cons k κ) with hS
  have hSsym : ∀ k ≤ r 0, S (r 0 - k) = S k := by
    intro k hk
    simp only [hS]
    refine Finset.sum_nbij' (fun κ e => r e.succ - κ e) (fun κ e => r e.succ - κ e) ?_ ?_ ?_ ?_ ?_
    · intro κ hκ; rw [Fintype.mem_piFinset] at *; intro e; simp
    · intro κ hκ; rw [Fintype.mem_piFinset] at *; intro e; simp
    · intro κ hκ; rw [Fintype.mem_piFinset] at hκ; funext e; have := hκ e; simp at this; simp; omega
    · intro κ hκ; rw [Fintype.mem_piFinset] at hκ; funext e; have := hκ e; simp at this; simp; omega
    · intro κ hκ
      rw [Fintype.mem_piFinset] at hκ
      have hle : ∀ e, κ e ≤ r e.succ := fun e => by have := hκ e; simp at this; omega
      rw [← hsym (Fin.cons k fun e => r e.succ - κ e)]
      · congr 1
        funext e
        refine Fin.cases ?_ (fun e => ?_) e
        · simp
        · simp; have := hle e; omega
      · intro e
        refine Fin.cases ?_ (fun e => ?_) e
        · simpa using hk
        · simp
  have hfull : fdSum r (sAlpha K true) (sBeta true r) F = ∑ k ∈ range (r 0 + 1), S k := by
    rw [fdSum, sum_piFinset_succ]
  -- the half sum
  set h' : ℕ → K := fun k => if k < (r 0 + 2) / 2 then (if 2 * k = r 0 then 1 / 2 else 1) else 0 with hh'
  have hh1 : ∀ k ≤ r 0, h' k + h' (r 0 - k) = 1 := by
    intro k hk
    simp only [hh']
    have h2ne : (2 : K) ≠ 0 := by norm_num
    rcases Nat.lt_trichotomy (2 * k) (r 0) with h | h | h
    · rw [if_pos (by omega), if_neg (by omega), if_neg (by omega), add_zero]
    · rw [if_pos (by omega), if_pos h, if_pos (by omega), if_pos (by omega)]; field_simp; norm_num
    · rw [if_neg (by omega), if_pos (by omega), if_neg (by omega), zero_add]
  have hhalf : ∑ k ∈ range ((r 0 + 2) / 2), h' k * S k = (∑ k ∈ range (r 0 + 1), S k) * (1 / 2) := by
    have e1 : ∑ k ∈ range ((r 0 + 2) / 2), h' k * S k = ∑ k ∈ range (r 0 + 1), h' k * S k := by
      apply Finset.sum_subset
      · intro k hk; simp at *; omega
      · intro k _ hk
        simp only [hh']
        rw [if_neg (by simpa using hk), zero_mul]
    have e2 : ∑ k ∈ range (r 0 + 1), h' (r 0 - k) * S k = ∑ k ∈ range (r 0 + 1), h' k * S k := by
      rw [← Finset.sum_range_reflect (fun k => h' k * S k)]
      refine Finset.sum_congr rfl fun k hk => ?_
      have hk : k < r 0 + 1 := by simpa using hk
      rw [show r 0 + 1 - 1 - k = r 0 - k by omega, hSsym k (by omega)]
    have e3 : ∑ k ∈ range (r 0 + 1), S k = ∑ k ∈ range (r 0 + 1), h' k * S k + ∑ k ∈ range (r 0 + 1), h' (r 0 - k) * S k := by
      rw [← Finset.sum_add_distrib]
      refine Finset.sum_congr rfl fun k hk => ?_
      have hk : k < r 0 + 1 := by simpa using hk
      rw [← add_mul, hh1 k (by omega), one_mul]
    rw [e1, e3, e2]
    have h2ne : (2 : K) ≠ 0 := by norm_num
    field_simp; ring
  rw [hfull, ← hhalf]
  have hsteps : sieveSteps (List.ofFn r) true = ((r 0 + 2) / 2) * boxSize (List.ofFn fun i : Fin E => r i.succ) := by
    simp [sieveSteps, boxSize, List.ofFn_succ]
  rw [hsteps]
  set G : List ℕ → K := fun l => (if (keptWeights true (List.ofFn r) l).headD 0 = 0 then
          (-1 : K) ^ ((List.ofFn r).sum - l.sum) * binomProd (List.ofFn r) l * (1 / 2)
        else (-1 : K) ^ ((List.ofFn r).sum - l.sum) * binomProd (List.ofFn r) l)
         * val (keptWeights true (List.ofFn r) l) with hG
  have hsum := sum_fke_cons (r 0) (List.ofFn fun i : Fin E => r i.succ) ((r 0 + 2) / 2) (by omega) G
  rw [← List.ofFn_succ] at hsum
  rw [hsum]
  refine Finset.sum_congr rfl fun k hk => ?_
  have hk : k < (r 0 + 2) / 2 := by simpa using hk
  rw [sum_fke (fun i : Fin E => r i.succ) (fun l => G (k :: l)), Finset.mul_sum]
  refine Finset.sum_congr rfl fun κ hκ => ?_
  rw [Fintype.mem_piFinset] at hκ
  have hle : ∀ e : Fin (E + 1), (Fin.cons k κ : Fin (E + 1) → ℕ) e ≤ r e := by
    intro e
    refine Fin.cases ?_ (fun e => ?_) e
    · simp; omega
    · have := hκ e; simp at this; simp; omega
  have hcons : (k :: List.ofFn κ) = List.ofFn (Fin.cons k κ : Fin (E + 1) → ℕ) := by rw [List.ofFn_succ]; rfl
  have hhead : (keptWeights true (List.ofFn r) (List.ofFn (Fin.cons k κ : Fin (E + 1) → ℕ))).headD 0 = 2 * (k : ℤ) - r 0 := by
    rw [List.ofFn_succ, List.ofFn_succ]; simp [keptWeights]
  rw [hcons]
  simp only [hG, hh', hT]
  rw [hhead, if_pos hk, List.sum_ofFn, List.sum_ofFn, sign_eq r _ hle, binomProd_eq r _ hle, hval, Finset.prod_mul_distrib]
  by_cases h2 : 2 * k = r 0
  · rw [if_pos (by omega), if_pos h2]; ring
  · rw [if_neg (by omega), if_neg h2]; ring

/-- parity of `c_n` in the weights -/
theorem cW_neg (D' : Vtx E → K) (A' : Matrix (Vtx E) (Vtx E) K) (w : Fin E → K) (n : ℕ) :
    cW D' A' (QQ (fun e => - w e)) n = (-1) ^ n * cW D' A' (QQ w) n := by
  have : QQ (fun e => - w e) = - QQ w := by simp [QQ]
  rw [cW, this, neg_pow, cW]
  have e : ((-1 : MvPolynomial (Vtx E) K) ^ n * QQ w ^ n) = (-1 : K) ^ n • (QQ w ^ n) := by
    rw [MvPolynomial.smul_eq_C_mul]; simp
  rw [e, map_smul, smul_eq_mul, mul_div_assoc]

/-- Value of the finite difference of `c_n`. -/
theorem fdSum_cW (D' : Vtx E → K) (A' : Matrix (Vtx E) (Vtx E) K) (r : Fin E → ℕ) (α : K) (β : Fin E → K) :
    fdSum r α β (fun w => cW D' A' (QQ w) (∑ e, r e))
      = α ^ (∑ e, r e) * wick D' A' (∏ e, (MvPolynomial.X (some (.inl e)) * MvPolynomial.X (some (.inr e))) ^ r e) := by
  have h := fdSum_linear_pow (wick D' A') (fun e => (MvPolynomial.X (some (.inl e)) * MvPolynomial.X (some (.inr e)) : MvPolynomial (Vtx E) K)) r α β
  have hn : ((∑ e, r e).factorial : K) ≠ 0 := by exact_mod_cast Nat.factorial_ne_zero _
  have e1 : (fun w => cW D' A' (QQ w) (∑ e, r e)) = fun w : Fin E → K => ((∑ e, r e).factorial : K)⁻¹ * wick D' A' ((∑ e, w e • (MvPolynomial.X (some (.inl e)) * MvPolynomial.X (some (.inr e)))) ^ (∑ e, r e)) := by
    funext w; rw [cW, QQ, div_eq_inv_mul]
  rw [e1, fdSum_const_mul, h]
  field_simp

theorem fdSum_gW (D' : Vtx E → K) (A' : Matrix (Vtx E) (Vtx E) K) (r : Fin E → ℕ) (α : K) (β : Fin E → K) :
    fdSum r α β (fun w => gW D' A' (QQ w) (∑ e, r e) none)
      = α ^ (∑ e, r e) * wick D' A' (MvPolynomial.X none * ∏ e, (MvPolynomial.X (some (.inl e)) * MvPolynomial.X (some (.inr e))) ^ r e) := by
  have h := fdSum_linear_pow ((wick D' A').comp (LinearMap.mulLeft K (MvPolynomial.X none))) (fun e => (MvPolynomial.X (some (.inl e)) * MvPolynomial.X (some (.inr e)) : MvPolynomial (Vtx E) K)) r α β
  have hn : ((∑ e, r e).factorial : K) ≠ 0 := by exact_mod_cast Nat.factorial_ne_zero _
  have e1 : (fun w => gW D' A' (QQ w) (∑ e, r e) none) = fun w : Fin E → K => ((∑ e, r e).factorial : K)⁻¹ *
      ((wick D' A').comp (LinearMap.mulLeft K (MvPolynomial.X none))) ((∑ e, w e • (MvPolynomial.X (some (.inl e)) * MvPolynomial.X (some (.inr e)))) ^ (∑ e, r e)) := by
    funext w; rw [gW, QQ, div_eq_inv_mul]; rfl
  rw [e1, fdSum_const_mul, h]
  simp only [LinearMap.comp_apply, LinearMap.mulLeft_apply]
  field_simp

/-- The list of vertices of the repeated edges. -/
def edgeList (r : Fin E → ℕ) : List (Vtx E) :=
  ((List.finRange E).flatMap fun e => List.replicate (r e) (some (.inl e)) ++ List.replicate (r e) (some (.inr e)))

theorem edgeList_prod (r : Fin E → ℕ) :
    (∏ e, (MvPolynomial.X (some (.inl e)) * MvPolynomial.X (some (.inr e))) ^ r e : MvPolynomial (Vtx E) K)
      = ((edgeList r).map MvPolynomial.X).prod := by
  rw [← List.prod_ofFn, List.ofFn_eq_map]
  simp only [edgeList]
  induction List.finRange E with
  | nil => simp
  | cons e es ih =>
    rw [List.map_cons, List.prod_cons, ih, List.flatMap_cons, List.map_append, List.prod_append]
    congr 1
    rw [List.map_append, List.prod_append, List.map_replicate, List.map_replicate, List.prod_replicate, List.prod_replicate, mul_pow]

end terms

section calcs
variable {K : Type} [Field K] [CharZero K] {E : ℕ}
variable (A : ℕ → ℕ → K) (D : ℕ → K) (A' : Matrix (Vtx E) (Vtx E) K)
    (hA : ∀ a b, A' (some a) (some b) = A (pos a) (pos b)) (hs : ∀ a b, A' a b = A' b a)

theorem sieveSteps_false (rs : List ℕ) : sieveSteps rs false = boxSize rs := by simp [sieveSteps, boxSize]

include hA hs in
/-- `_calc_hafnian` is the hafnian of the multigraph given by the repeated edges' end points. -/
theorem calcHafnian_eq {pt : PowerTrace K} (hpt : PTSpec pt) (r : Fin E → ℕ) (hE : 0 < E) (hr : 0 < ∑ e, r e) (g : Bool) :
    calcHafnian pt A (List.ofFn r) g = lh (fun _ => 0) A' (edgeList r) := by
  have hN : 2 * (List.ofFn r).sum / 2 = (List.ofFn r).sum := by omega
  have hsum : (List.ofFn r).sum = ∑ e, r e := List.sum_ofFn
  have hval : ∀ κ : Fin E → ℕ, f pt (nonzeroRows (keptWeights g (List.ofFn r) (List.ofFn κ))).length
      (getAXS (keptWeights g (List.ofFn r) (List.ofFn κ)) A) (2 * (List.ofFn r).sum) (2 * (List.ofFn r).sum / 2)
      = cW (fun _ => 0) A' (QQ fun e => sAlpha K g * (κ e : K) + sBeta g r e) (∑ e, r e) := by
    intro κ
    rw [f_master' _ (keptWeights_length g r κ) _ (wt_keptWeights g r κ) A A' hA hs hpt _ _ le_rfl, hN, hsum]
  have hlist := wick_list (K := K) (fun _ => 0) (fun a b => A' a b) hs (edgeList r)
  have h2 : (2 : K) ≠ 0 := by norm_num
  cases g
  · delta calcHafnian hafnianStep
    simp only [hafnianScale, Bool.false_eq_true, false_and, if_false]
    rw [forRange_add_sum, zero_add, sieveSteps_false]
    have := full_sieve false r (fun w => cW (fun _ => 0) A' (QQ w) (∑ e, r e))
      (fun l => f pt (nonzeroRows l).length (getAXS l A) (2 * (List.ofFn r).sum) (2 * (List.ofFn r).sum / 2)) hval
    simp only [hN] at this ⊢
    rw [this, fdSum_cW, edgeList_prod]
    simp only [sAlpha, Bool.false_eq_true, if_false, one_pow, one_mul]
    exact hlist
  · obtain ⟨E', rfl⟩ : ∃ E', E = E' + 1 := ⟨E - 1, by omega⟩
    delta calcHafnian hafnianStep
    simp only [hafnianScale, true_and, if_true]
    rw [forRange_add_sum, zero_add]
    have := half_sieve r (fun w => cW (fun _ => 0) A' (QQ w) (∑ e, r e)) (fun w => cW_neg _ _ w _)
      (fun l => f pt (nonzeroRows l).length (getAXS l A) (2 * (List.ofFn r).sum) (2 * (List.ofFn r).sum / 2)) hval
    simp only [hN] at this ⊢
    rw [this, fdSum_cW, edgeList_prod]
    simp only [sAlpha, if_true]
    have hl : wick (fun _ => 0) A' ((edgeList r).map MvPolynomial.X).prod = lh (fun _ => 0) A' (edgeList r) := hlist
    rw [hl, hsum]
    obtain ⟨p, hp⟩ : ∃ p, ∑ e, r e = p + 1 := ⟨∑ e, r e - 1, by omega⟩
    rw [hp, Nat.add_sub_cancel, pow_succ, one_div, inv_pow]
    field_simp

variable (D' : Vtx E → K) (hD : ∀ a, D' (some a) = D (pos a))

include hA hs hD in
/-- `_calc_loop_hafnian` without a self-edge. -/
theorem calcLoopHafnian_even {pt : PowerTrace K} (hpt : PTSpec pt) (r : Fin E → ℕ) (hE : 0 < E) (hr : 0 < ∑ e, r e) (g : Bool) :
    calcLoopHafnian pt A D (List.ofFn r) none g = lh D' A' (edgeList r) := by
  have hN : 2 * (List.ofFn r).sum / 2 = (List.ofFn r).sum := by omega
  have hsum : (List.ofFn r).sum = ∑ e, r e := List.sum_ofFn
  have hval : ∀ κ : Fin E → ℕ, fLoop pt (nonzeroRows (keptWeights g (List.ofFn r) (List.ofFn κ))).length
      (getAXS (keptWeights g (List.ofFn r) (List.ofFn κ)) A) (getAXS (keptWeights g (List.ofFn r) (List.ofFn κ)) A)
      (getXDS (keptWeights g (List.ofFn r) (List.ofFn κ)) D) (getDS (keptWeights g (List.ofFn r) (List.ofFn κ)) D)
      (2 * (List.ofFn r).sum) (2 * (List.ofFn r).sum / 2)
      = cW D' A' (QQ fun e => sAlpha K g * (κ e : K) + sBeta g r e) (∑ e, r e) := by
    intro κ
    rw [fLoop_master' _ (keptWeights_length g r κ) _ (wt_keptWeights g r κ) A D A' D' hA hD hs hpt _ _ le_rfl, hN, hsum]
  have hl : wick D' A' ((edgeList r).map MvPolynomial.X).prod = lh D' A' (edgeList r) :=
    wick_list (K := K) D' (fun a b => A' a b) hs (edgeList r)
  have h2 : (2 : K) ≠ 0 := by norm_num
  cases g
  · delta calcLoopHafnian loopHafnianStep
    simp only [loopHafnianScale, Bool.false_eq_true, false_and, if_false, Option.isNone_none, Option.isSome_none, Bool.and_true, Nat.add_zero]
    rw [forRange_add_sum, zero_add, sieveSteps_false]
    have := full_sieve false r (fun w => cW D' A' (QQ w) (∑ e, r e))
      (fun l => fLoop pt (nonzeroRows l).length (getAXS l A) (getAXS l A) (getXDS l D) (getDS l D) (2 * (List.ofFn r).sum) (2 * (List.ofFn r).sum / 2)) hval
    simp only [hN] at this ⊢
    rw [this, fdSum_cW, edgeList_prod]
    simp only [sAlpha, Bool.false_eq_true, if_false, one_pow, one_mul]
    exact hl
  · obtain ⟨E', rfl⟩ : ∃ E', E = E' + 1 := ⟨E - 1, by omega⟩
    delta calcLoopHafnian loopHafnianStep
    simp only [loopHafnianScale, true_and, if_true, Bool.false_eq_true, if_false, Option.isNone_none, Option.isSome_none, Bool.and_true, Nat.add_zero]
    rw [forRange_add_sum, zero_add]
    have := half_sieve r (fun w => cW D' A' (QQ w) (∑ e, r e)) (fun w => cW_neg _ _ w _)
      (fun l => fLoop pt (nonzeroRows l).length (getAXS l A) (getAXS l A) (getXDS l D) (getDS l D) (2 * (List.ofFn r).sum) (2 * (List.ofFn r).sum / 2)) hval
    simp only [hN] at this ⊢
    rw [this, fdSum_cW, edgeList_prod]
    simp only [sAlpha, if_true]
    rw [hl, hsum]
    obtain ⟨p, hp⟩ : ∃ p, ∑ e, r e = p + 1 := ⟨∑ e, r e - 1, by omega⟩
    rw [hp, Nat.add_sub_cancel, pow_succ, one_div, inv_pow]
    field_simp

include hA hs hD in
/-- `_calc_loop_hafnian` with a self-edge. -/
theorem calcLoopHafnian_odd {pt : PowerTrace K} (hpt : PTSpec pt) (r : Fin E → ℕ) (g : Bool) (oddloop : K) (oddV : ℕ → K)
    (hD0 : D' none = oddloop) (hV : ∀ a, A' none (some a) = oddV (pos a)) :
    calcLoopHafnian pt A D (List.ofFn r) (some (oddloop, oddV)) g = lh D' A' (none :: edgeList r) := by
  have hN : (2 * (List.ofFn r).sum + 1) / 2 = (List.ofFn r).sum := by omega
  have hsum : (List.ofFn r).sum = ∑ e, r e := List.sum_ofFn
  have hval : ∀ κ : Fin E → ℕ, fLoopOdd pt (nonzeroRows (keptWeights g (List.ofFn r) (List.ofFn κ))).length
      (getAXS (keptWeights g (List.ofFn r) (List.ofFn κ)) A) (getAXS (keptWeights g (List.ofFn r) (List.ofFn κ)) A)
      (getXDS (keptWeights g (List.ofFn r) (List.ofFn κ)) D) (getDS (keptWeights g (List.ofFn r) (List.ofFn κ)) D)
      (2 * (List.ofFn r).sum + 1) oddloop (getXDS (keptWeights g (List.ofFn r) (List.ofFn κ)) oddV) (2 * (List.ofFn r).sum + 1)
      = oddE A' D' (2 * (∑ e, r e) + 1) (fun e => sAlpha K g * (κ e : K) + sBeta g r e) (2 * (∑ e, r e) + 1) := by
    intro κ
    rw [fLoopOdd_master' _ (keptWeights_length g r κ) _ (wt_keptWeights g r κ) A D oddV oddloop A' D' hA hD hD0 hV hpt _ _ le_rfl, hsum]
  have hl : wick D' A' (MvPolynomial.X none * ((edgeList r).map MvPolynomial.X).prod) = lh D' A' (none :: edgeList r) := by
    have := wick_list (K := K) D' (fun a b => A' a b) hs (none :: edgeList r)
    rwa [List.map_cons, List.prod_cons] at this
  have h2 : (2 : K) ≠ 0 := by norm_num
  have hfd : fdSum r (sAlpha K g) (sBeta g r) (fun w => oddE A' D' (2 * (∑ e, r e) + 1) w (2 * (∑ e, r e) + 1))
      = sAlpha K g ^ (∑ e, r e) * lh D' A' (none :: edgeList r) := by
    have h0 := fdSum_polyLt (r := r) (α := sAlpha K g) (β := sBeta g r) (oddE_gW D' hs (∑ e, r e)) le_rfl
    have e : (fun w => oddE A' D' (2 * (∑ e, r e) + 1) w (2 * (∑ e, r e) + 1))
        = fun w => (oddE A' D' (2 * (∑ e, r e) + 1) w (2 * (∑ e, r e) + 1) - gW D' A' (QQ w) (∑ e, r e) none) + gW D' A' (QQ w) (∑ e, r e) none := by
      funext w; ring
    rw [e, fdSum_add, h0, zero_add, fdSum_gW, edgeList_prod, hl]
  have hfs := full_sieve g r (fun w => oddE A' D' (2 * (∑ e, r e) + 1) w (2 * (∑ e, r e) + 1))
    (fun l => fLoopOdd pt (nonzeroRows l).length (getAXS l A) (getAXS l A) (getXDS l D) (getDS l D) (2 * (List.ofFn r).sum + 1) oddloop (getXDS l oddV) (2 * (List.ofFn r).sum + 1)) hval
  rw [hfd] at hfs
  delta calcLoopHafnian loopHafnianStep
  simp only [loopHafnianScale, Option.isNone_some, Option.isSome_some, Bool.and_false, if_true, Bool.false_eq_true, if_false]
  rw [forRange_add_sum, zero_add, sieveSteps_false, hN, hfs, hsum]
  cases g
  · simp [sAlpha]
  · simp only [sAlpha, if_true]
    rw [one_div, inv_pow]
    field_simp

end calcs
end Verif
