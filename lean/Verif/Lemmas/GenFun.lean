/- The generating functions `f`, `f_loop`, `f_loop_odd` evaluated on the compressed matrices of one sieve step. -/
import Verif.Model.HafnianCore
import Verif.Lemmas.Series
import Verif.Lemmas.Compress
import Verif.Lemmas.Master
import Mathlib.Algebra.BigOperators.Fin
import Mathlib.Data.Fintype.BigOperators

set_option linter.unusedSectionVars false
set_option linter.unusedSimpArgs false

namespace Verif
open Model Matrix Finset

section plain
variable {K : Type} [Field K]

theorem foldl_add_range (m : ℕ) (g : ℕ → K) (c : K) :
    (List.range m).foldl (fun acc i => acc + g i) c = c + ∑ i : Fin m, g i := by
  induction m with
  | zero => simp
  | succ m ih => rw [List.range_succ, List.foldl_append, ih, Fin.sum_univ_castSucc]; simp [add_assoc]

theorem dot_eq (m : ℕ) (u v : ℕ → K) : dot m u v = (fun i : Fin m => u i) ⬝ᵥ (fun i : Fin m => v i) := by
  rw [dot, foldl_add_range]; simp [dotProduct]

theorem vecMat_eq (m : ℕ) (u : ℕ → K) (A : ℕ → ℕ → K) :
    (fun j : Fin m => vecMat m u A j) = (fun i : Fin m => u i) ᵥ* toMatrix m m A := by
  funext j; simp [vecMat, dot_eq, vecMul, toMatrix, dotProduct]

theorem matVec_eq (m : ℕ) (u : ℕ → K) (A : ℕ → ℕ → K) :
    (fun j : Fin m => matVec m A u j) = toMatrix m m A *ᵥ (fun i : Fin m => u i) := by
  funext j; simp [matVec, dot_eq, mulVec, toMatrix, dotProduct]

/-- Contract of `powertrace`: entry `k < n` of the returned array is the trace of the `k`-th power. -/
def PTSpec (pt : PowerTrace K) : Prop :=
  ∀ m H n k, 1 ≤ k → k < n → pt m H n k = ((toMatrix m m H) ^ k).trace

variable [CharZero K]

/-- `f` is the truncated exponential of the power traces. -/
theorem f_eq {pt : PowerTrace K} (hpt : PTSpec pt) (m : ℕ) (A : ℕ → ℕ → K) (n k : ℕ) (hk : k ≤ n / 2) :
    f pt m A n k = PowerSeries.coeff k (expProd (fun i => ((toMatrix m m A) ^ i).trace / ((2 * i : ℕ) : K)) (n / 2)) := by
  have hc : ∀ (r : Comb K × Unit) , r.1.comb r.1.count k = r.1.comb r.1.count k := fun _ => rfl
  have := comb_loop (fun i => ((toMatrix m m A) ^ i).trace / ((2 * i : ℕ) : K)) (n / 2) (n / 2)
    (fun i => n / (2 * i)) (fun i _ _ => by rw [Nat.div_div_eq_div_mul]) ()
    (fun _ s => s) (fun i _ => pt m A (n / 2 + 1) i / ((2 * i : ℕ) : K)) (fun _ => ()) rfl
    (fun _ _ _ => rfl) (fun i h1 h2 => by rw [hpt _ _ _ _ h1 (by omega)]) k hk
  rw [← this]
  have e : ∀ N : ℕ, forRange N ((combInit : Comb K), ()) (fun i st =>
        (combStep (n / 2) (n / (2 * (1 + i))) (1 + i) (pt m A (n / 2 + 1) (1 + i) / ((2 * (1 + i) : ℕ) : K)) st.1, st.2))
      = (forRange N (combInit : Comb K) (fun i s =>
        combStep (n / 2) (n / (2 * (1 + i))) (1 + i) (pt m A (n / 2 + 1) (1 + i) / ((2 * (1 + i) : ℕ) : K)) s), ()) := by
    intro N
    induction N with
    | zero => rfl
    | succ N ih => rw [forRange_succ, forRange_succ, ih]
  simp only [f, forRange2_eq]
  rw [e]

/-- `f_loop` is the truncated exponential of power traces plus loop terms. -/
theorem fLoop_eq {pt : PowerTrace K} (hpt : PTSpec pt) (m : ℕ) (AX : ℕ → ℕ → K) (XD DS : ℕ → K) (n k : ℕ) (hk : k ≤ n / 2) :
    fLoop pt m AX AX XD DS n k = PowerSeries.coeff k (expProd (fun i =>
      ((toMatrix m m AX) ^ i).trace / ((2 * i : ℕ) : K)
        + ((fun i : Fin m => XD i) ⬝ᵥ ((toMatrix m m AX) ^ (i - 1) *ᵥ (fun i : Fin m => DS i))) / 2) (n / 2)) := by
  let stAt : ℕ → (ℕ → K) := fun i => (fun v => vecMat m v AX)^[i - 1] XD
  have hst : ∀ i, (fun j : Fin m => stAt (i + 1) j) = (fun j : Fin m => XD j) ᵥ* (toMatrix m m AX) ^ i := by
    intro i
    simp only [stAt, Nat.add_sub_cancel]
    induction i with
    | zero => simp
    | succ i ih => rw [Function.iterate_succ_apply', vecMat_eq, ih, vecMul_vecMul, pow_succ]
  have := comb_loop (fun i =>
      ((toMatrix m m AX) ^ i).trace / ((2 * i : ℕ) : K)
        + ((fun i : Fin m => XD i) ⬝ᵥ ((toMatrix m m AX) ^ (i - 1) *ᵥ (fun i : Fin m => DS i))) / 2) (n / 2) (n / 2)
    (fun i => n / (2 * i)) (fun i _ _ => by rw [Nat.div_div_eq_div_mul]) XD
    (fun _ s => vecMat m s AX) (fun i st => pt m AX (n / 2 + 1) i / ((2 * i : ℕ) : K) + dot m st DS / 2) stAt rfl
    (fun i h _ => by
      obtain ⟨i, rfl⟩ : ∃ i', i = i' + 1 := ⟨i - 1, by omega⟩
      simp only [stAt, Nat.add_sub_cancel]
      rw [Function.iterate_succ_apply'])
    (fun i h1 h2 => by
      obtain ⟨i, rfl⟩ : ∃ i', i = i' + 1 := ⟨i - 1, by omega⟩
      rw [hpt _ _ _ _ h1 (by omega), dot_eq, hst, Nat.add_sub_cancel, dotProduct_mulVec]) k hk
  rw [← this]
  rfl

/-- Factors of `f_loop_odd`. -/
def oddFac (m : ℕ) (AX : ℕ → ℕ → K) (XD DS : ℕ → K) (oddloop : K) (oddVX : ℕ → K) (i : ℕ) : K :=
  if i = 1 then oddloop
  else if i % 2 = 0 then ((toMatrix m m AX) ^ (i / 2)).trace / (i : K)
        + ((fun i : Fin m => XD i) ⬝ᵥ ((toMatrix m m AX) ^ (i / 2 - 1) *ᵥ (fun i : Fin m => DS i))) / 2
  else (fun i : Fin m => oddVX i) ⬝ᵥ ((toMatrix m m AX) ^ (i / 2 - 1) *ᵥ (fun i : Fin m => DS i))

theorem fLoopOdd_eq {pt : PowerTrace K} (hpt : PTSpec pt) (m : ℕ) (AX : ℕ → ℕ → K) (XD DS : ℕ → K) (n k : ℕ)
    (oddloop : K) (oddVX : ℕ → K) (hk : k ≤ n) :
    fLoopOdd pt m AX AX XD DS n oddloop oddVX k = PowerSeries.coeff k (expProd (oddFac m AX XD DS oddloop oddVX) n) := by
  let stAt : ℕ → (ℕ → K) := fun i => (fun v => matVec m AX v)^[(i - 2) / 2] DS
  have hst : ∀ i, (fun j : Fin m => stAt i j) = (toMatrix m m AX) ^ ((i - 2) / 2) *ᵥ (fun j : Fin m => DS j) := by
    intro i
    simp only [stAt]
    induction (i - 2) / 2 with
    | zero => simp
    | succ i ih => rw [Function.iterate_succ_apply', matVec_eq, ih, mulVec_mulVec, pow_succ']
  have := comb_loop (oddFac m AX XD DS oddloop oddVX) n n
    (fun i => n / i) (fun i _ _ => le_rfl) DS
    (fun i s => if i = 1 then s else if i % 2 = 0 then s else matVec m AX s)
    (fun i st => if i = 1 then oddloop
      else if i % 2 = 0 then pt m AX (n / 2 + 1) (i / 2) / (i : K) + dot m XD st / 2
      else dot m oddVX st) stAt rfl
    (fun i h _ => by
      simp only [stAt]
      by_cases h1 : i = 1
      · subst h1; rfl
      · rw [if_neg h1]
        by_cases h2 : i % 2 = 0
        · rw [if_pos h2]
          have : (i + 1 - 2) / 2 = (i - 2) / 2 := by omega
          rw [this]
        · rw [if_neg h2]
          have : (i + 1 - 2) / 2 = (i - 2) / 2 + 1 := by omega
          rw [this, Function.iterate_succ_apply'])
    (fun i h1 h2 => by
      simp only [oddFac]
      by_cases h1 : i = 1
      · rw [if_pos h1, if_pos h1]
      · rw [if_neg h1, if_neg h1]
        have e : (i - 2) / 2 = i / 2 - 1 := by omega
        by_cases h2 : i % 2 = 0
        · rw [if_pos h2, if_pos h2, hpt _ _ _ _ (by omega) (by omega), dot_eq, hst, e]
        · rw [if_neg h2, if_neg h2, dot_eq, hst, e]) k hk
  rw [← this]
  simp only [fLoopOdd]
  have e : (fun i (st : Comb K × (ℕ → K)) =>
      let fd : K × (ℕ → K) :=
        if i = 1 then (oddloop, st.2)
        else if i % 2 = 0 then (pt m AX (n / 2 + 1) (i / 2) / (i : K) + dot m XD st.2 / 2, st.2)
        else (dot m oddVX st.2, matVec m AX st.2)
      (combStep n (n / i) i fd.1 st.1, fd.2)) = fun i st => (combStep n (n / i) i (if i = 1 then oddloop
      else if i % 2 = 0 then pt m AX (n / 2 + 1) (i / 2) / (i : K) + dot m XD st.2 / 2
      else dot m oddVX st.2) st.1, if i = 1 then st.2 else if i % 2 = 0 then st.2 else matVec m AX st.2) := by
    funext i st
    by_cases h1 : i = 1
    · simp [h1]
    · by_cases h2 : i % 2 = 0 <;> simp [h1, h2]
  simp only [e]

end plain

/-! ### One sieve step in terms of the full (uncompressed) matrices -/

/-- Vertices of one instance: two ends for each edge, plus one extra (unpaired) vertex. -/
abbrev Vtx (E : ℕ) := Option (Fin E ⊕ Fin E)

/-- Position of a paired vertex in the reordered matrix. -/
def pos {E : ℕ} : Fin E ⊕ Fin E → ℕ := Sum.elim (fun e => e) (fun e => E + e)

section weights
variable {K : Type} [Field K] {E : ℕ}

/-- Weighted swap matrix. -/
def WW (w : Fin E → K) : Matrix (Vtx E) (Vtx E) K
  | some (.inl e), some (.inr e') => if e = e' then w e else 0
  | some (.inr e), some (.inl e') => if e = e' then w e else 0
  | _, _ => 0

/-- The quadratic form `Σ_e w_e x_e y_e`. -/
noncomputable def QQ (w : Fin E → K) : MvPolynomial (Vtx E) K :=
  ∑ e, w e • (MvPolynomial.X (some (.inl e)) * MvPolynomial.X (some (.inr e)))

theorem WW_symm (w : Fin E → K) (a b : Vtx E) : WW w a b = WW w b a := by
  rcases a with _ | (a | a) <;> rcases b with _ | (b | b) <;> simp only [WW]
  · by_cases h : a = b
    · subst h; simp
    · rw [if_neg h, if_neg (Ne.symm h)]
  · by_cases h : a = b
    · subst h; simp
    · rw [if_neg h, if_neg (Ne.symm h)]

theorem sum_vtx {M : Type*} [AddCommMonoid M] (g : Vtx E → M) :
    ∑ a, g a = g none + (∑ e, g (some (.inl e)) + ∑ e, g (some (.inr e))) := by
  rw [Fintype.sum_option, Fintype.sum_sum_type]

theorem QQ_isQuad [CharZero K] (w : Fin E → K) : IsQuad (WW w) (QQ w) := by
  have hd : ∀ j, (∑ k, MvPolynomial.C (WW w j k) * MvPolynomial.X k : MvPolynomial (Vtx E) K)
      = match j with
        | none => 0
        | some (.inl e) => MvPolynomial.C (w e) * MvPolynomial.X (some (.inr e))
        | some (.inr e) => MvPolynomial.C (w e) * MvPolynomial.X (some (.inl e)) := by
    intro j
    rw [sum_vtx]
    rcases j with _ | (j | j)
    · simp [WW]
    · simp only [WW]
      rw [Finset.sum_eq_single j (f := fun e => MvPolynomial.C (if j = e then w j else 0) * MvPolynomial.X (some (Sum.inr e)))]
      · simp
      · intro b _ hb; simp [Ne.symm hb]
      · simp
    · simp only [WW]
      rw [Finset.sum_eq_single j (f := fun e => MvPolynomial.C (if j = e then w j else 0) * MvPolynomial.X (some (Sum.inl e)))]
      · simp
      · intro b _ hb; simp [Ne.symm hb]
      · simp
  constructor
  · intro j
    rw [hd j, QQ, map_sum]
    have h1 : ∀ e, MvPolynomial.pderiv j (w e • (MvPolynomial.X (some (.inl e)) * MvPolynomial.X (some (.inr e))) : MvPolynomial (Vtx E) K)
        = (if j = some (.inl e) then MvPolynomial.C (w e) * MvPolynomial.X (some (.inr e)) else 0)
          + (if j = some (.inr e) then MvPolynomial.C (w e) * MvPolynomial.X (some (.inl e)) else 0) := by
      intro e
      rw [Derivation.map_smul, Derivation.leibniz, MvPolynomial.pderiv_X, MvPolynomial.pderiv_X, MvPolynomial.smul_eq_C_mul]
      simp only [Pi.single_apply, smul_eq_mul]
      rcases j with _ | (j | j)
      · simp
      · by_cases h : j = e
        · subst h; simp
        · simp [h, Ne.symm h]
      · by_cases h : j = e
        · subst h; simp
        · simp [h, Ne.symm h]
    simp only [h1, Finset.sum_add_distrib]
    rcases j with _ | (j | j)
    · simp
    · simp
    · simp
  · rw [sum_vtx]
    simp only [hd, QQ, Finset.mul_sum, mul_zero, zero_add, ← Finset.sum_add_distrib, MvPolynomial.smul_eq_C_mul]
    refine Finset.sum_congr rfl fun e _ => ?_
    have : (MvPolynomial.C 2 : MvPolynomial (Vtx E) K) = 2 := map_ofNat _ 2
    rw [this]; ring

/-- Column of `A·W`. -/
theorem mul_WW_apply (A : Matrix (Vtx E) (Vtx E) K) (w : Fin E → K) (a b : Vtx E) :
    (A * WW w) a b = match b with
      | none => 0
      | some (.inl e) => A a (some (.inr e)) * w e
      | some (.inr e) => A a (some (.inl e)) * w e := by
  rw [mul_apply, sum_vtx]
  rcases b with _ | (b | b)
  · simp [WW]
  · simp [WW]
  · simp [WW]

theorem WW_mulVec_apply (w : Fin E → K) (v : Vtx E → K) (a : Vtx E) :
    (WW w *ᵥ v) a = match a with
      | none => 0
      | some (.inl e) => w e * v (some (.inr e))
      | some (.inr e) => w e * v (some (.inl e)) := by
  rw [mulVec, dotProduct, sum_vtx]
  rcases a with _ | (a | a)
  · simp [WW]
  · simp [WW]
  · simp [WW]

end weights

section rows
variable {K : Type} [Field K]

/-- indices of non-zero weights -/
def suppL (kept : List ℤ) : List ℕ := (List.range kept.length).filter fun i => kept.getD i 0 ≠ 0

theorem suppL_lt (kept : List ℤ) {i : ℕ} (h : i ∈ suppL kept) : i < kept.length := by
  simp only [suppL, List.mem_filter, List.mem_range] at h; exact h.1

theorem nonzeroRows_eq (kept : List ℤ) : nonzeroRows kept = suppL kept ++ (suppL kept).map (kept.length + ·) := by
  simp only [nonzeroRows, suppL, List.length_append, List.range_add, List.filter_append, List.filter_map]
  congr 1
  · apply List.filter_congr
    intro x hx
    have hx : x < kept.length := by simpa using hx
    simp [List.getD_eq_getElem?_getD, List.getElem?_append_left hx]
  · congr 1
    apply List.filter_congr
    intro x hx
    have hx : x < kept.length := by simpa using hx
    simp [List.getD_eq_getElem?_getD, Function.comp, List.getElem?_append_right]

theorem keptNonzero_eq (kept : List ℤ) : keptNonzero kept = (suppL kept).map (kept.getD · 0) := by
  have h : kept = (List.range kept.length).map (kept.getD · 0) := by
    apply List.ext_getElem
    · simp
    · intro i h1 h2; simp [List.getD_eq_getElem?_getD, h1]
  conv_lhs => rw [keptNonzero, h, List.filter_map]
  rfl

theorem nonzeroRows_length (kept : List ℤ) : (nonzeroRows kept).length = 2 * (suppL kept).length := by
  rw [nonzeroRows_eq]; simp; ring

theorem nonzeroRows_length_half (kept : List ℤ) : (nonzeroRows kept).length / 2 = (suppL kept).length := by
  rw [nonzeroRows_length]; omega

theorem rows_left (kept : List ℤ) {j : ℕ} (hj : j < (suppL kept).length) :
    (nonzeroRows kept).getD j 0 = (suppL kept)[j] := by
  rw [nonzeroRows_eq, List.getD_eq_getElem?_getD, List.getElem?_append_left hj]; simp [hj]

theorem rows_right (kept : List ℤ) {j : ℕ} (hj : j < (suppL kept).length) :
    (nonzeroRows kept).getD ((suppL kept).length + j) 0 = kept.length + (suppL kept)[j] := by
  rw [nonzeroRows_eq, List.getD_eq_getElem?_getD, List.getElem?_append_right (by omega)]; simp [hj]

theorem rows_right' (kept : List ℤ) {i : ℕ} (h : ¬ i < (suppL kept).length) (hi : i - (suppL kept).length < (suppL kept).length) :
    (nonzeroRows kept).getD i 0 = kept.length + (suppL kept)[i - (suppL kept).length] := by
  rw [← rows_right kept hi]; congr 1; omega

theorem kn_get (kept : List ℤ) {j : ℕ} (hj : j < (suppL kept).length) :
    (keptNonzero kept).getD j 0 = kept.getD (suppL kept)[j] 0 := by
  rw [keptNonzero_eq, List.getD_eq_getElem?_getD]; simp [hj]

/-- The vertex that a compressed index stands for. -/
def vtxOf (kept : List ℤ) (i : Fin (nonzeroRows kept).length) : Vtx kept.length :=
  if h : (i : ℕ) < (suppL kept).length then
    some (.inl ⟨(suppL kept)[(i : ℕ)], suppL_lt kept (List.getElem_mem h)⟩)
  else
    have h' : (i : ℕ) - (suppL kept).length < (suppL kept).length := by
      have := i.2.trans_eq (nonzeroRows_length kept); omega
    some (.inr ⟨(suppL kept)[(i : ℕ) - (suppL kept).length], suppL_lt kept (List.getElem_mem h')⟩)

theorem suppL_nodup (kept : List ℤ) : (suppL kept).Nodup := List.Nodup.filter _ List.nodup_range

theorem vtxOf_injective (kept : List ℤ) : Function.Injective (vtxOf kept) := by
  intro i j h
  have hi := i.2.trans_eq (nonzeroRows_length kept)
  have hj := j.2.trans_eq (nonzeroRows_length kept)
  unfold vtxOf at h
  by_cases h1 : (i : ℕ) < (suppL kept).length <;> by_cases h2 : (j : ℕ) < (suppL kept).length
  · rw [dif_pos h1, dif_pos h2] at h
    simp only [Option.some.injEq, Sum.inl.injEq, Fin.mk.injEq] at h
    exact Fin.ext ((suppL_nodup kept).getElem_inj_iff.1 h)
  · rw [dif_pos h1, dif_neg h2] at h; simp at h
  · rw [dif_neg h1, dif_pos h2] at h; simp at h
  · rw [dif_neg h1, dif_neg h2] at h
    simp only [Option.some.injEq, Sum.inr.injEq, Fin.mk.injEq] at h
    have := (suppL_nodup kept).getElem_inj_iff.1 h
    exact Fin.ext (by omega)

/-- Weights of a sieve step as field elements. -/
def wt (K : Type) [Field K] (kept : List ℤ) : Fin kept.length → K := fun e => ((kept.getD e 0 : ℤ) : K)

theorem vtxOf_range_left (kept : List ℤ) (e : Fin kept.length) (he : kept.getD e 0 ≠ 0) :
    some (.inl e) ∈ Set.range (vtxOf kept) := by
  have hm : (e : ℕ) ∈ suppL kept := by simp only [suppL, List.mem_filter, List.mem_range]; exact ⟨e.2, by simpa using he⟩
  obtain ⟨j, hj, hje⟩ := List.getElem_of_mem hm
  refine ⟨⟨j, by rw [nonzeroRows_length]; omega⟩, ?_⟩
  rw [vtxOf, dif_pos hj]; simp [hje]

theorem vtxOf_range_right (kept : List ℤ) (e : Fin kept.length) (he : kept.getD e 0 ≠ 0) :
    some (.inr e) ∈ Set.range (vtxOf kept) := by
  have hm : (e : ℕ) ∈ suppL kept := by simp only [suppL, List.mem_filter, List.mem_range]; exact ⟨e.2, by simpa using he⟩
  obtain ⟨j, hj, hje⟩ := List.getElem_of_mem hm
  refine ⟨⟨(suppL kept).length + j, by rw [nonzeroRows_length]; omega⟩, ?_⟩
  rw [vtxOf, dif_neg (by simp)]; simp [hje]

theorem AW_zero_col (kept : List ℤ) (A' : Matrix (Vtx kept.length) (Vtx kept.length) K) (a b : Vtx kept.length)
    (hb : b ∉ Set.range (vtxOf kept)) : (A' * WW (wt K kept)) a b = 0 := by
  rw [mul_WW_apply]
  rcases b with _ | (b | b)
  · rfl
  · by_cases h : kept.getD b 0 = 0
    · simp only [wt, h]; simp
    · exact absurd (vtxOf_range_left kept b h) hb
  · by_cases h : kept.getD b 0 = 0
    · simp only [wt, h]; simp
    · exact absurd (vtxOf_range_right kept b h) hb

theorem Wv_zero (kept : List ℤ) (v : Vtx kept.length → K) (b : Vtx kept.length)
    (hb : b ∉ Set.range (vtxOf kept)) : (WW (wt K kept) *ᵥ v) b = 0 := by
  rw [WW_mulVec_apply]
  rcases b with _ | (b | b)
  · rfl
  · by_cases h : kept.getD b 0 = 0
    · simp only [wt, h]; simp
    · exact absurd (vtxOf_range_left kept b h) hb
  · by_cases h : kept.getD b 0 = 0
    · simp only [wt, h]; simp
    · exact absurd (vtxOf_range_right kept b h) hb

/-- the model's vectors, in terms of vertices -/
theorem getDS_eq (kept : List ℤ) (D : ℕ → K) (D' : Vtx kept.length → K) (hD : ∀ a, D' (some a) = D (pos a)) :
    (fun i : Fin (nonzeroRows kept).length => getDS kept D i) = D' ∘ vtxOf kept := by
  funext i
  have hi := i.2.trans_eq (nonzeroRows_length kept)
  simp only [getDS, Function.comp, vtxOf]
  by_cases h : (i : ℕ) < (suppL kept).length
  · rw [dif_pos h, rows_left kept h, hD]; rfl
  · rw [dif_neg h, hD]
    rw [rows_right' kept h (by omega)]
    simp [pos]

theorem getXDS_eq (kept : List ℤ) (D : ℕ → K) (D' : Vtx kept.length → K) (hD : ∀ a, D' (some a) = D (pos a)) :
    (fun i : Fin (nonzeroRows kept).length => getXDS kept D i) = (WW (wt K kept) *ᵥ D') ∘ vtxOf kept := by
  funext i
  have hi := i.2.trans_eq (nonzeroRows_length kept)
  simp only [getXDS, Function.comp, vtxOf, getDS, nonzeroRows_length_half]
  by_cases h : (i : ℕ) < (suppL kept).length
  · rw [dif_pos h, if_pos h, WW_mulVec_apply, rows_right kept h, kn_get kept h]
    simp only [hD, wt, pos, Sum.elim_inr]
  · rw [dif_neg h, if_neg h, WW_mulVec_apply, rows_left kept (by omega), kn_get kept (by omega)]
    simp only [hD, wt, pos, Sum.elim_inl]

theorem getAXS_eq (kept : List ℤ) (A : ℕ → ℕ → K) (A' : Matrix (Vtx kept.length) (Vtx kept.length) K)
    (hA : ∀ a b, A' (some a) (some b) = A (pos a) (pos b)) :
    toMatrix (nonzeroRows kept).length (nonzeroRows kept).length (getAXS kept A)
      = (A' * WW (wt K kept)).submatrix (vtxOf kept) (vtxOf kept) := by
  ext i j
  have hrow : ∀ D0 : ℕ → ℕ, D0 = D0 := fun _ => rfl
  have h := congrFun (getXDS_eq kept (fun p => A ((nonzeroRows kept).getD i 0) p)
    (fun v => match v with | none => 0 | some a => A ((nonzeroRows kept).getD i 0) (pos a)) (fun a => rfl)) j
  have e1 : getAXS kept A i j = getXDS kept (fun p => A ((nonzeroRows kept).getD i 0) p) j := rfl
  rw [toMatrix, Matrix.of_apply, e1, h, submatrix_apply, mul_WW_apply, Function.comp, WW_mulVec_apply]
  have hr : ∀ b, A' (vtxOf kept i) (some b) = A ((nonzeroRows kept).getD i 0) (pos b) := by
    intro b
    have hi := i.2.trans_eq (nonzeroRows_length kept)
    unfold vtxOf
    by_cases h : (i : ℕ) < (suppL kept).length
    · rw [dif_pos h, rows_left kept h, hA]; rfl
    · rw [dif_neg h, hA]
      rw [rows_right' kept h (by omega)]
      simp [pos]
  rcases vtxOf kept j with _ | (b | b)
  · rfl
  · simp only [hr]; ring
  · simp only [hr]; ring

end rows

section master
variable {K : Type} [Field K] [CharZero K]

variable (kept : List ℤ) (A : ℕ → ℕ → K) (D : ℕ → K) (A' : Matrix (Vtx kept.length) (Vtx kept.length) K)
  (D' : Vtx kept.length → K) (hA : ∀ a b, A' (some a) (some b) = A (pos a) (pos b))
  (hD : ∀ a, D' (some a) = D (pos a)) (hs : ∀ a b, A' a b = A' b a)

include hA hs
/-- The value of one term of the loop sieve (even case). -/
theorem fLoop_master {pt : PowerTrace K} (hpt : PTSpec pt) (hD : ∀ a, D' (some a) = D (pos a)) (n k : ℕ) (hk : k ≤ n / 2) :
    fLoop pt (nonzeroRows kept).length (getAXS kept A) (getAXS kept A) (getXDS kept D) (getDS kept D) n k
      = cW D' A' (QQ (wt K kept)) k := by
  rw [fLoop_eq hpt _ _ _ _ _ _ hk]
  set a : ℕ → K := fun i => _ with ha
  refine recurrence_unique a (fun k => PowerSeries.coeff k (expProd a (n / 2))) (fun k => cW D' A' (QQ (wt K kept)) k) (n / 2)
    ?_ (fun k hk => expProd_recurrence a _ k hk) ?_ k hk
  · rw [expProd_coeff_zero, cW_zero]
  · intro k hk
    rw [cW_recurrence hs (WW_symm _) (QQ_isQuad _)]
    refine Finset.sum_congr rfl fun s _ => ?_
    rw [compress_trace (vtxOf kept) (vtxOf_injective kept) _ (AW_zero_col kept A'),
      compress_dot (vtxOf kept) (vtxOf_injective kept) _ _ (Wv_zero kept D'),
      compress_mulVec (vtxOf kept) (vtxOf_injective kept) _ (AW_zero_col kept A'),
      ← getAXS_eq kept A A' hA, ← getXDS_eq kept D D' hD, ← getDS_eq kept D D' hD]
    simp only [ha, Nat.add_sub_cancel]
    have h1 : ((s : K) + 1) ≠ 0 := by exact_mod_cast Nat.succ_ne_zero s
    push_cast
    field_simp

/-- The value of one term of the plain sieve. -/
theorem f_master {pt : PowerTrace K} (hpt : PTSpec pt) (n k : ℕ) (hk : k ≤ n / 2) :
    f pt (nonzeroRows kept).length (getAXS kept A) n k = cW (fun _ => 0) A' (QQ (wt K kept)) k := by
  have := fLoop_master kept A (fun _ => 0) A' (fun _ => 0) hA hs hpt (fun _ => rfl) n k hk
  rw [← this, f_eq hpt _ _ _ _ hk, fLoop_eq hpt _ _ _ _ _ _ hk]
  congr 2
  funext i
  have : (fun j : Fin (nonzeroRows kept).length => getDS kept (fun _ => (0 : K)) j) = 0 := by funext j; rfl
  rw [this, mulVec_zero, dotProduct_zero, zero_div, add_zero]

end master

end Verif
