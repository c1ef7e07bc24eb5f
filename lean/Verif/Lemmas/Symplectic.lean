/- Lemmas about phase-space arrays: block form, embeddings, the gates. -/
import Verif.Model.Symplectic
import Verif.Spec.PhaseSpace
import Verif.Lemmas.GenFun

set_option linter.unusedSectionVars false
set_option linter.unusedSimpArgs false

namespace Verif.Lemmas.Symp
open Verif.Model Verif.Model.Symp Verif.Spec Matrix

section generic
variable {K : Type} [Field K]

theorem sum_quad {R : Type*} [AddCommMonoid R] (N : ℕ) (f : ℕ → R) :
    ∑ p : Fin N ⊕ Fin N, f (quad N p) = ∑ i ∈ Finset.range (2 * N), f i := by
  rw [Fintype.sum_sum_type, two_mul, Finset.sum_range_add, Finset.sum_range, Finset.sum_range]
  rfl

theorem quad_lt (N : ℕ) (p : Fin N ⊕ Fin N) : quad N p < 2 * N := by
  rcases p with k | k <;> simp [quad] <;> omega

theorem quad_injective (N : ℕ) : Function.Injective (quad N) := by
  rintro (a | a) (b | b) h <;> simp [quad] at h ⊢ <;> first | omega | exact Fin.ext (by omega)

theorem exists_quad (N i : ℕ) (h : i < 2 * N) : ∃ p, quad N p = i := by
  by_cases hi : i < N
  · exact ⟨Sum.inl ⟨i, hi⟩, rfl⟩
  · exact ⟨Sum.inr ⟨i - N, by omega⟩, by simp [quad]; omega⟩

theorem dot_sum (m : ℕ) (u v : ℕ → K) : dot m u v = ∑ i ∈ Finset.range m, u i * v i := by
  unfold dot
  rw [foldl_add_range, zero_add, Finset.sum_range]

theorem phase_mmul (M N P : ℕ) (A B : ℕ → ℕ → K) : phase M P (mmul (2 * N) A B) = phase M N A * phase N P B := by
  ext p q
  rw [mul_apply]
  simp only [phase, of_apply, mmul, dot_sum]
  rw [← sum_quad N (fun i => A (quad M p) i * B i (quad P q))]

theorem phase_tr (M N : ℕ) (A : ℕ → ℕ → K) : phase M N (tr A) = (phase N M A)ᵀ := rfl

theorem phase_eye (N : ℕ) : phase N N (eye : ℕ → ℕ → K) = 1 := by
  ext p q
  by_cases h : p = q
  · subst h; simp [phase, eye]
  · rw [one_apply_ne h]
    simp [phase, eye, (quad_injective N).ne h]

theorem phase_block (M N : ℕ) (a b c d : ℕ → ℕ → K) :
    phase M N (block M N a b c d) = fromBlocks (toMatrix M N a) (toMatrix M N b) (toMatrix M N c) (toMatrix M N d) := by
  ext (p | p) (q | q) <;> simp [phase, block, quad, toMatrix]

theorem phase_blocks (M N : ℕ) (A : ℕ → ℕ → K) :
    phase M N A = fromBlocks (toMatrix M N A) (toMatrix M N fun i j => A i (N + j)) (toMatrix M N fun i j => A (M + i) j)
      (toMatrix M N fun i j => A (M + i) (N + j)) := by
  ext (p | p) (q | q) <;> simp [phase, quad, toMatrix]

theorem toMatrix_eye (N : ℕ) : toMatrix N N (eye : ℕ → ℕ → K) = 1 := by
  ext i j
  by_cases h : i = j
  · subst h; simp [toMatrix, eye]
  · rw [one_apply_ne h]; simp [toMatrix, eye]; exact fun h' => h (Fin.ext h')

theorem phase_sympmat (N : ℕ) : phase N N (sympmat N : ℕ → ℕ → K) = -J (Fin N) K := by
  unfold sympmat
  rw [phase_block, J, fromBlocks_neg]
  have h0 : toMatrix N N (fun _ _ => (0 : K)) = 0 := rfl
  have h1 : toMatrix N N (fun i j => -(eye i j : K)) = -1 := by rw [← toMatrix_eye]; rfl
  rw [h0, h1, toMatrix_eye]
  simp

theorem allClose2_iff (n m : ℕ) (close : K → K → Bool) (a b : ℕ → ℕ → K) :
    allClose2 close n m a b = true ↔ ∀ i < n, ∀ j < m, close (a i j) (b i j) = true := by
  simp [allClose2, List.all_eq_true]

theorem phase_ext_iff (M N : ℕ) (A B : ℕ → ℕ → K) : phase M N A = phase M N B ↔ ∀ i < 2 * M, ∀ j < 2 * N, A i j = B i j := by
  constructor
  · intro h i hi j hj
    obtain ⟨p, rfl⟩ := exists_quad M i hi
    obtain ⟨q, rfl⟩ := exists_quad N j hj
    exact congrFun (congrFun h p) q
  · intro h
    ext p q
    exact h _ (quad_lt M p) _ (quad_lt N q)

/-! #### embeddings -/

variable {ι κ : Type*} [Fintype ι] [DecidableEq ι] [Fintype κ] [DecidableEq κ]

/-- 0/1 matrix of an injection -/
def inj {K : Type} [Field K] (f : ι → κ) : Matrix κ ι K := of fun k i => if f i = k then 1 else 0

/-- `1 + P (S - 1) Pᵀ` -/
def embed (f : ι → κ) (S : Matrix ι ι K) : Matrix κ κ K := 1 + inj f * (S - 1) * (inj f)ᵀ

theorem inj_transpose_mul (f : ι → κ) (hf : Function.Injective f) : (inj f : Matrix κ ι K)ᵀ * (inj f : Matrix κ ι K) = 1 := by
  ext i j
  simp only [mul_apply, transpose_apply, inj, of_apply, one_apply, ite_mul, one_mul, zero_mul]
  rw [Finset.sum_ite_eq]
  simp [hf.eq_iff, eq_comm]

theorem inj_mul_apply (f : ι → κ) (hf : Function.Injective f) (X : Matrix ι ι K) (i j : ι) :
    ((inj f : Matrix κ ι K) * X * (inj f : Matrix κ ι K)ᵀ : Matrix κ κ K) (f i) (f j) = X i j := by
  simp only [mul_apply, transpose_apply, inj, of_apply]
  simp [hf.eq_iff]

theorem inj_mul_apply_left (f : ι → κ) (X : Matrix ι ι K) (k l : κ) (hk : ∀ i, f i ≠ k) :
    ((inj f : Matrix κ ι K) * X * (inj f : Matrix κ ι K)ᵀ : Matrix κ κ K) k l = 0 := by
  simp only [mul_apply, transpose_apply, inj, of_apply]
  simp [hk]

theorem inj_mul_apply_right (f : ι → κ) (X : Matrix ι ι K) (k l : κ) (hl : ∀ i, f i ≠ l) :
    ((inj f : Matrix κ ι K) * X * (inj f : Matrix κ ι K)ᵀ : Matrix κ κ K) k l = 0 := by
  simp only [mul_apply, transpose_apply, inj, of_apply]
  simp [hl]

theorem embed_apply (f : ι → κ) (hf : Function.Injective f) (S : Matrix ι ι K) (i j : ι) : embed f S (f i) (f j) = S i j := by
  simp only [embed, Matrix.add_apply, inj_mul_apply f hf, Matrix.sub_apply]
  by_cases h : i = j
  · subst h; simp
  · simp [one_apply_ne h, one_apply_ne (hf.ne h)]

theorem embed_apply_left (f : ι → κ) (S : Matrix ι ι K) (k l : κ) (hk : ∀ i, f i ≠ k) : embed f S k l = (1 : Matrix κ κ K) k l := by
  simp [embed, inj_mul_apply_left f _ k l hk]

theorem embed_apply_right (f : ι → κ) (S : Matrix ι ι K) (k l : κ) (hl : ∀ i, f i ≠ l) : embed f S k l = (1 : Matrix κ κ K) k l := by
  simp [embed, inj_mul_apply_right f _ k l hl]

theorem embed_one (f : ι → κ) : embed f (1 : Matrix ι ι K) = 1 := by simp [embed]

theorem sand {ι' : Type*} [Fintype ι'] (P : Matrix κ ι K) (Q : Matrix ι κ K) (P' : Matrix κ ι' K) (Q' : Matrix ι' κ K)
    (X : Matrix ι ι K) (Y : Matrix ι' ι' K) : P * X * Q * (P' * Y * Q') = P * X * (Q * P') * Y * Q' := by
  simp only [Matrix.mul_assoc]

theorem embed_mul (f : ι → κ) (hf : Function.Injective f) (S T : Matrix ι ι K) : embed f (S * T) = embed f S * embed f T := by
  have h := inj_transpose_mul (K := K) f hf
  have e : inj f * (S - 1) * (inj f)ᵀ * (inj f * (T - 1) * (inj f)ᵀ) = inj f * ((S - 1) * (T - 1)) * (inj f)ᵀ := by
    rw [sand, h]; simp only [Matrix.mul_assoc, Matrix.one_mul]
  simp only [embed, Matrix.add_mul, Matrix.mul_add, Matrix.one_mul, Matrix.mul_one, e]
  have : S * T - 1 = (S - 1) + (T - 1) + (S - 1) * (T - 1) := by
    simp only [Matrix.sub_mul, Matrix.mul_sub, Matrix.one_mul, Matrix.mul_one]; abel
  rw [this]
  simp only [Matrix.mul_add, Matrix.add_mul]
  abel

theorem embed_transpose (f : ι → κ) (S : Matrix ι ι K) : (embed f S)ᵀ = embed f Sᵀ := by
  simp [embed, Matrix.transpose_mul, Matrix.mul_assoc]

theorem embed_congr (f : ι → κ) (hf : Function.Injective f) (S : Matrix ι ι K) (M : Matrix κ κ K)
    (h1 : ∀ i j, M (f i) (f j) = S i j) (h2 : ∀ k l, (∀ i, f i ≠ k) → M k l = (1 : Matrix κ κ K) k l)
    (h3 : ∀ k l, (∀ i, f i ≠ l) → M k l = (1 : Matrix κ κ K) k l) : M = embed f S := by
  ext k l
  by_cases hk : ∃ i, f i = k
  · obtain ⟨i, rfl⟩ := hk
    by_cases hl : ∃ j, f j = l
    · obtain ⟨j, rfl⟩ := hl
      rw [h1, embed_apply f hf]
    · push Not at hl
      rw [h3 _ _ hl, embed_apply_right f _ _ _ hl]
  · push Not at hk
    rw [h2 _ _ hk, embed_apply_left f _ _ _ hk]

/-- embeddings of matrices on disjoint index sets commute -/
theorem embed_comm {ι' : Type*} [Fintype ι'] [DecidableEq ι'] (f : ι → κ) (g : ι' → κ) (h : ∀ i j, f i ≠ g j) (S : Matrix ι ι K)
    (T : Matrix ι' ι' K) : embed f S * embed g T = embed g T * embed f S := by
  have h1 : (inj f : Matrix κ ι K)ᵀ * (inj g : Matrix κ ι' K) = 0 := by
    ext i j
    simp only [mul_apply, transpose_apply, inj, of_apply, ite_mul, one_mul, zero_mul, Matrix.zero_apply]
    rw [Finset.sum_ite_eq]
    simp [(h i j).symm]
  have h2 : (inj g : Matrix κ ι' K)ᵀ * (inj f : Matrix κ ι K) = 0 := by
    have := congrArg Matrix.transpose h1
    simpa [Matrix.transpose_mul] using this
  have e1 : (inj f : Matrix κ ι K) * (S - 1) * (inj f : Matrix κ ι K)ᵀ * ((inj g : Matrix κ ι' K) * (T - 1) * (inj g : Matrix κ ι' K)ᵀ) = 0 := by
    rw [sand, h1]; simp
  have e2 : (inj g : Matrix κ ι' K) * (T - 1) * (inj g : Matrix κ ι' K)ᵀ * ((inj f : Matrix κ ι K) * (S - 1) * (inj f : Matrix κ ι K)ᵀ) = 0 := by
    rw [sand, h2]; simp
  simp only [embed, Matrix.add_mul, Matrix.mul_add, Matrix.one_mul, Matrix.mul_one, e1, e2]
  abel

/-- both quadratures of the selected modes -/
def both {α β : Type*} (w : α → β) : α ⊕ α → β ⊕ β := Sum.map w w

theorem both_injective {α β : Type*} (w : α → β) (hw : Function.Injective w) : Function.Injective (both w) :=
  Sum.map_injective.mpr ⟨hw, hw⟩

theorem J_inj (w : ι → κ) : J κ K * inj (both w) = inj (both w) * J ι K := by
  have : (inj (both w) : Matrix _ _ K) = fromBlocks (inj w) 0 0 (inj w) := by
    ext (k | k) (i | i) <;> simp [inj, both]
  rw [this, J, J, fromBlocks_multiply, fromBlocks_multiply]
  simp

theorem embed_symp (w : ι → κ) (hw : Function.Injective w) (S : Matrix (ι ⊕ ι) (ι ⊕ ι) K)
    (hS : S ∈ symplecticGroup ι K) : embed (both w) S ∈ symplecticGroup κ K := by
  rw [SymplecticGroup.mem_iff] at hS ⊢
  rw [embed_transpose]
  have h := inj_transpose_mul (K := K) (both w) (both_injective w hw)
  have hj := J_inj (K := K) w
  have e : J κ K * embed (both w) Sᵀ = J κ K + inj (both w) * (J ι K * (Sᵀ - 1)) * (inj (both w))ᵀ := by
    rw [embed, Matrix.mul_add, Matrix.mul_one, ← Matrix.mul_assoc, ← Matrix.mul_assoc, hj]
    simp only [Matrix.mul_assoc]
  have hj' : (inj (both w))ᵀ * J κ K = J ι K * (inj (both w))ᵀ := by
    have := congrArg Matrix.transpose hj
    simpa [Matrix.transpose_mul, J_transpose] using this
  rw [Matrix.mul_assoc, e, embed, Matrix.add_mul, Matrix.one_mul, Matrix.mul_add]
  have e1 : inj (both w) * (S - 1) * (inj (both w))ᵀ * J κ K = inj (both w) * ((S - 1) * J ι K) * (inj (both w))ᵀ := by
    rw [Matrix.mul_assoc, hj']; simp only [Matrix.mul_assoc]
  have e2 : inj (both w) * (S - 1) * (inj (both w))ᵀ * (inj (both w) * (J ι K * (Sᵀ - 1)) * (inj (both w))ᵀ)
      = inj (both w) * ((S - 1) * (J ι K * (Sᵀ - 1))) * (inj (both w))ᵀ := by
    rw [sand, h]; simp only [Matrix.mul_assoc, Matrix.one_mul]
  rw [e1, e2]
  have e3 : (J ι K * (Sᵀ - 1)) + ((S - 1) * J ι K + (S - 1) * (J ι K * (Sᵀ - 1))) = 0 := by
    have : S * (J ι K * Sᵀ) = J ι K := by rw [← Matrix.mul_assoc]; exact hS
    simp only [Matrix.mul_sub, Matrix.sub_mul, Matrix.mul_one, Matrix.one_mul, this]
    abel
  calc _ = J κ K + inj (both w) * ((J ι K * (Sᵀ - 1)) + ((S - 1) * J ι K + (S - 1) * (J ι K * (Sᵀ - 1))))
        * (inj (both w))ᵀ := by
        simp only [Matrix.mul_add, Matrix.add_mul]; abel
    _ = _ := by rw [e3]; simp

/-! #### scatter -/

theorem scatter_inner (A : ℕ → ℕ → K) (i : ℕ) (ci : List ℕ) (hc : ci.Nodup) (B : ℕ → K) (n : ℕ) (hn : n ≤ ci.length) (i' j' : ℕ) :
    forRange n A (fun b A => upd2 A i (ci.getD b 0) (B b)) i' j'
      = if i' = i ∧ ci.idxOf j' < n then B (ci.idxOf j') else A i' j' := by
  induction n with
  | zero => simp
  | succ n ih =>
    rw [forRange_succ, upd2, ih (by omega)]
    have hget : ci.getD n 0 = ci[n] := List.getD_eq_getElem _ _ (by omega)
    have key : j' = ci.getD n 0 ↔ ci.idxOf j' = n := by
      rw [hget]
      constructor
      · rintro rfl; exact hc.idxOf_getElem n (by omega)
      · intro h; subst h; exact (List.getElem_idxOf (by omega)).symm
    by_cases h1 : i' = i
    · by_cases h2 : j' = ci.getD n 0
      · rw [if_pos ⟨h1, h2⟩, if_pos ⟨h1, by rw [key.mp h2]; omega⟩, key.mp h2]
      · have : ci.idxOf j' ≠ n := fun h => h2 (key.mpr h)
        rw [if_neg (fun h => h2 h.2)]
        by_cases h3 : ci.idxOf j' < n
        · rw [if_pos ⟨h1, h3⟩, if_pos ⟨h1, by omega⟩]
        · rw [if_neg (fun h => h3 h.2), if_neg (fun h => h3 (by omega))]
    · simp [h1]

theorem scatter_apply (A : ℕ → ℕ → K) (ri ci : List ℕ) (hr : ri.Nodup) (hc : ci.Nodup) (B : ℕ → ℕ → K) (i j : ℕ) :
    scatter A ri ci B i j = if i ∈ ri ∧ j ∈ ci then B (ri.idxOf i) (ci.idxOf j) else A i j := by
  have main : ∀ n, n ≤ ri.length → forRange n A (fun a A => forRange ci.length A fun b A => upd2 A (ri.getD a 0) (ci.getD b 0) (B a b)) i j
      = if ri.idxOf i < n ∧ j ∈ ci then B (ri.idxOf i) (ci.idxOf j) else A i j := by
    intro n
    induction n with
    | zero => simp
    | succ n ih =>
      intro hn
      rw [forRange_succ, scatter_inner _ _ _ hc (B n) _ le_rfl, ih (by omega)]
      have hget : ri.getD n 0 = ri[n] := List.getD_eq_getElem _ _ (by omega)
      have key : i = ri.getD n 0 ↔ ri.idxOf i = n := by
        rw [hget]
        constructor
        · rintro rfl; exact hr.idxOf_getElem n (by omega)
        · intro h; subst h; exact (List.getElem_idxOf (by omega)).symm
      simp only [List.idxOf_lt_length_iff]
      by_cases h2 : j ∈ ci
      · by_cases h1 : i = ri.getD n 0
        · rw [if_pos ⟨h1, h2⟩, key.mp h1, if_pos ⟨by omega, h2⟩]
        · have : ri.idxOf i ≠ n := fun h => h1 (key.mpr h)
          rw [if_neg (fun h => h1 h.1)]
          by_cases h3 : ri.idxOf i < n
          · rw [if_pos ⟨h3, h2⟩, if_pos ⟨by omega, h2⟩]
          · rw [if_neg (fun h => h3 h.1), if_neg (fun h => h3 (by omega))]
      · simp [h2]
  rw [scatter, main _ le_rfl]
  simp only [List.idxOf_lt_length_iff]

theorem mem_map_add (l : List ℕ) (N i : ℕ) : i ∈ l.map (· + N) ↔ N ≤ i ∧ i - N ∈ l := by
  simp only [List.mem_map]
  constructor
  · rintro ⟨a, ha, rfl⟩; simp [ha]
  · rintro ⟨h, h'⟩; exact ⟨i - N, h', by omega⟩

theorem idxOf_map_add (l : List ℕ) (N i : ℕ) : (l.map (· + N)).idxOf (i + N) = l.idxOf i := by
  induction l with
  | nil => rfl
  | cons a l ih =>
    simp only [List.map_cons, List.idxOf_cons, ih]
    by_cases h : a = i
    · simp [h]
    · have : a + N ≠ i + N := by omega
      simp [beq_eq_false_iff_ne.mpr h, beq_eq_false_iff_ne.mpr this]

/-- closed form of the multi-mode branch of `expand` -/
theorem expand_multi (M : ℕ) (hM : M ≠ 1) (S : ℕ → ℕ → K) (modes : List ℕ) (N : ℕ) (hl : modes.length = M) (hn : modes.Nodup)
    (hb : ∀ m ∈ modes, m < N) :
    ∃ out, expand (2 * M) S modes N = .ok out ∧
      phase N N out = embed (both fun a : Fin M => (⟨modes[(a : ℕ)]'(by omega), hb _ (List.getElem_mem _)⟩ : Fin N)) (phase M M S) := by
  have hany : (modes.any fun x => decide (x ≥ N)) = false := by
    rw [List.any_eq_false]; intro x hx; have := hb x hx; simpa using this
  have e1 : 2 * M / 2 = M := by omega
  refine ⟨scatter (scatter (scatter (scatter eye modes modes fun a b => S a b) (modes.map (· + N)) (modes.map (· + N)) fun a b => S (M + a) (M + b))
      modes (modes.map (· + N)) fun a b => S a (M + b)) (modes.map (· + N)) modes fun a b => S (M + a) b, ?_, ?_⟩
  · unfold expand
    simp only [e1, hM, if_false, hl, ne_eq, not_true_eq_false, false_or]
    rw [if_neg (by omega), if_neg (by rw [hany]; simp)]
  · have hw : Function.Injective fun a : Fin M => (⟨modes[(a : ℕ)]'(by omega), hb _ (List.getElem_mem _)⟩ : Fin N) := by
      intro a b h
      have := (List.Nodup.getElem_inj_iff hn).mp (Fin.mk.inj h)
      exact Fin.ext this
    have hnN : (modes.map (· + N)).Nodup := hn.map (fun a b h => by simpa using h)
    have hidx : ∀ a : Fin M, modes.idxOf (modes[(a : ℕ)]'(by omega)) = a := fun a => hn.idxOf_getElem a _
    have hnot : ∀ k : Fin N, (∀ a : Fin M, (⟨modes[(a : ℕ)]'(by omega), hb _ (List.getElem_mem _)⟩ : Fin N) ≠ k) → (k : ℕ) ∉ modes := by
      intro k hk hmem
      obtain ⟨a, ha, e⟩ := List.getElem_of_mem hmem
      exact hk ⟨a, by omega⟩ (Fin.ext e)
    apply embed_congr _ (both_injective _ hw)
    · rintro (a | a) (b | b) <;>
        simp only [phase, of_apply, both, Sum.map_inl, Sum.map_inr, quad, Sum.elim_inl, Sum.elim_inr, scatter_apply _ _ _ hn hn, scatter_apply _ _ _ hnN hn,
          scatter_apply _ _ _ hn hnN, scatter_apply _ _ _ hnN hnN, mem_map_add]
      · have ha := hb _ (List.getElem_mem (l := modes) (n := a) (by omega))
        have hb' := hb _ (List.getElem_mem (l := modes) (n := b) (by omega))
        simp [not_le.mpr ha, not_le.mpr hb', hidx]
      · have ha := hb _ (List.getElem_mem (l := modes) (n := a) (by omega))
        simp only [add_comm N, idxOf_map_add, hidx]
        simp [not_le.mpr ha]
      · have hb' := hb _ (List.getElem_mem (l := modes) (n := b) (by omega))
        simp only [add_comm N, idxOf_map_add, hidx]
        simp [not_le.mpr hb']
      · simp only [add_comm N, idxOf_map_add, hidx]
        have h1 : ∀ x : ℕ, x + N ∉ modes := fun x h => by have := hb _ h; omega
        simp [h1]
    · intro k l hk
      have hk' : ∀ q, (k = Sum.inl q ∨ k = Sum.inr q) → (q : ℕ) ∉ modes := by
        rintro q (rfl | rfl)
        · exact hnot q fun a h => hk (Sum.inl a) (by simp [both, h])
        · exact hnot q fun a h => hk (Sum.inr a) (by simp [both, h])
      rw [← phase_eye]
      rcases k with q | q
      · have h1 := hk' q (Or.inl rfl)
        simp only [phase, of_apply, quad, Sum.elim_inl, scatter_apply _ _ _ hn hn, scatter_apply _ _ _ hnN hn, scatter_apply _ _ _ hn hnN,
          scatter_apply _ _ _ hnN hnN, mem_map_add]
        simp [h1, not_le.mpr q.2]
      · have h1 := hk' q (Or.inr rfl)
        have h2 : N + (q : ℕ) ∉ modes := fun h => by have := hb _ h; omega
        simp only [phase, of_apply, quad, Sum.elim_inr, scatter_apply _ _ _ hn hn, scatter_apply _ _ _ hnN hn, scatter_apply _ _ _ hn hnN,
          scatter_apply _ _ _ hnN hnN, mem_map_add]
        simp [h1, h2]
    · intro k l hk
      have hk' : ∀ q, (l = Sum.inl q ∨ l = Sum.inr q) → (q : ℕ) ∉ modes := by
        rintro q (rfl | rfl)
        · exact hnot q fun a h => hk (Sum.inl a) (by simp [both, h])
        · exact hnot q fun a h => hk (Sum.inr a) (by simp [both, h])
      rw [← phase_eye]
      rcases l with q | q
      · have h1 := hk' q (Or.inl rfl)
        simp only [phase, of_apply, quad, Sum.elim_inl, scatter_apply _ _ _ hn hn, scatter_apply _ _ _ hnN hn, scatter_apply _ _ _ hn hnN,
          scatter_apply _ _ _ hnN hnN, mem_map_add]
        simp [h1, not_le.mpr q.2]
      · have h1 := hk' q (Or.inr rfl)
        have h2 : N + (q : ℕ) ∉ modes := fun h => by have := hb _ h; omega
        simp only [phase, of_apply, quad, Sum.elim_inr, scatter_apply _ _ _ hn hn, scatter_apply _ _ _ hnN hn, scatter_apply _ _ _ hn hnN,
          scatter_apply _ _ _ hnN hnN, mem_map_add]
        simp [h1, h2]

/-- the single-mode matrix acting on each mode of a set -/
def copies (ι : Type*) [DecidableEq ι] (S : ℕ → ℕ → K) : Matrix (ι ⊕ ι) (ι ⊕ ι) K :=
  fromBlocks (S 0 0 • 1) (S 0 1 • 1) (S 1 0 • 1) (S 1 1 • 1)

theorem copies_mul (S T : ℕ → ℕ → K) : copies ι (mmul 2 S T) = copies ι S * copies ι T := by
  have : ∀ i j, mmul 2 S T i j = S i 0 * T 0 j + S i 1 * T 1 j := by
    intro i j; simp [mmul, dot_sum, Finset.sum_range_succ]
  simp only [copies, fromBlocks_multiply, this]
  congr 1 <;> simp only [add_smul, smul_mul_smul_comm, Matrix.mul_one]

theorem copies_eye : copies ι (eye : ℕ → ℕ → K) = 1 := by
  simp [copies, eye]

theorem copies_symp (S : ℕ → ℕ → K) (h : S 0 0 * S 1 1 - S 0 1 * S 1 0 = 1) : copies ι S ∈ symplecticGroup ι K := by
  rw [SymplecticGroup.mem_iff, copies, J, fromBlocks_transpose, fromBlocks_multiply, fromBlocks_multiply]
  have h' : S 0 1 * S 1 0 - S 0 0 * S 1 1 = -1 := by linear_combination -h
  congr 1
  · simp [smul_smul, mul_comm]
  · simp only [transpose_smul, transpose_one, Matrix.mul_zero, Matrix.mul_one, zero_add, Matrix.mul_neg, add_zero, smul_mul_smul_comm, Matrix.neg_mul]
    rw [← sub_eq_add_neg, ← sub_smul, h', neg_smul, one_smul]
  · simp only [transpose_smul, transpose_one, Matrix.mul_zero, Matrix.mul_one, zero_add, Matrix.mul_neg, add_zero, smul_mul_smul_comm, Matrix.neg_mul]
    rw [← sub_eq_add_neg, ← sub_smul]
    have : S 1 1 * S 0 0 - S 1 0 * S 0 1 = 1 := by linear_combination h
    rw [this, one_smul]
  · simp [smul_smul, mul_comm]

theorem symp_one_det (S : ℕ → ℕ → K) (h : phase 1 1 S ∈ symplecticGroup (Fin 1) K) : S 0 0 * S 1 1 - S 0 1 * S 1 0 = 1 := by
  rw [SymplecticGroup.mem_iff] at h
  have := congrFun (congrFun h (Sum.inr 0)) (Sum.inl 0)
  simp [J, mul_apply, phase, quad, Fintype.sum_sum_type] at this
  linear_combination this

theorem expandOne_fold (S : ℕ → ℕ → K) (N : ℕ) (modes : List ℕ) (hb : ∀ m ∈ modes, m < N) (i j : ℕ) :
    modes.foldl (expandOne S N) eye i j
      = if i ∈ modes ∧ j = i then S 0 0 else if N ≤ i ∧ i - N ∈ modes ∧ j = i then S 1 1
        else if i ∈ modes ∧ j = i + N then S 0 1 else if N ≤ i ∧ i - N ∈ modes ∧ i = j + N then S 1 0 else eye i j := by
  induction modes using List.reverseRecOn with
  | nil => simp
  | append_singleton l m ih =>
    have hm := hb m (by simp)
    have ih := ih (fun x hx => hb x (by simp [hx]))
    have hl : ∀ x ∈ l, x < N := fun x hx => hb x (by simp [hx])
    rw [List.foldl_append, List.foldl_cons, List.foldl_nil]
    simp only [expandOne, upd2, ih, List.mem_append, List.mem_singleton]
    by_cases h1 : i = m + N ∧ j = m
    · obtain ⟨rfl, rfl⟩ := h1
      have : j + N ∉ l := fun h => by have := hl _ h; omega
      have h0 : N ≠ 0 := by omega
      simp [this, h0]
    by_cases h2 : i = m ∧ j = m + N
    · obtain ⟨rfl, rfl⟩ := h2
      have h0 : N ≠ 0 := by omega
      have h3 : ¬ N ≤ i := by omega
      have h4 : i ≠ i + N := by omega
      simp [h0, h3, h4]
    by_cases h3 : i = m + N ∧ j = m + N
    · obtain ⟨rfl, rfl⟩ := h3
      have : m + N ∉ l := fun h => by have := hl _ h; omega
      have h0 : N ≠ 0 := by omega
      simp [this, h0]
    by_cases h4 : i = m ∧ j = m
    · obtain ⟨rfl, rfl⟩ := h4
      have h0 : N ≠ 0 := by omega
      simp [h0]
    rw [if_neg h1, if_neg h2, if_neg h3, if_neg h4]
    have c1 : ((i ∈ l ∨ i = m) ∧ j = i) ↔ (i ∈ l ∧ j = i) := by
      constructor
      · rintro ⟨h | h, h'⟩
        · exact ⟨h, h'⟩
        · exact absurd ⟨h, h'.trans h⟩ h4
      · rintro ⟨h, h'⟩; exact ⟨Or.inl h, h'⟩
    have c2 : (N ≤ i ∧ (i - N ∈ l ∨ i - N = m) ∧ j = i) ↔ (N ≤ i ∧ i - N ∈ l ∧ j = i) := by
      constructor
      · rintro ⟨h0, h | h, h'⟩
        · exact ⟨h0, h, h'⟩
        · exact absurd ⟨by omega, by omega⟩ h3
      · rintro ⟨h0, h, h'⟩; exact ⟨h0, Or.inl h, h'⟩
    have c3 : ((i ∈ l ∨ i = m) ∧ j = i + N) ↔ (i ∈ l ∧ j = i + N) := by
      constructor
      · rintro ⟨h | h, h'⟩
        · exact ⟨h, h'⟩
        · exact absurd ⟨h, by omega⟩ h2
      · rintro ⟨h, h'⟩; exact ⟨Or.inl h, h'⟩
    have c4 : (N ≤ i ∧ (i - N ∈ l ∨ i - N = m) ∧ i = j + N) ↔ (N ≤ i ∧ i - N ∈ l ∧ i = j + N) := by
      constructor
      · rintro ⟨h0, h | h, h'⟩
        · exact ⟨h0, h, h'⟩
        · exact absurd ⟨by omega, by omega⟩ h1
      · rintro ⟨h0, h, h'⟩; exact ⟨h0, Or.inl h, h'⟩
    simp only [c1, c2, c3, c4]

/-- closed form of the single-mode branch of `expand` -/
theorem expand_single (S : ℕ → ℕ → K) (modes : List ℕ) (N : ℕ) (hb : ∀ m ∈ modes, m < N) :
    ∃ out, expand 2 S modes N = .ok out ∧
      phase N N out = embed (both (Subtype.val : {k : Fin N // (k : ℕ) ∈ modes} → Fin N)) (copies _ S) := by
  have hany : (modes.any fun x => decide (x ≥ N)) = false := by
    rw [List.any_eq_false]; intro x hx; have := hb x hx; simpa using this
  refine ⟨modes.foldl (expandOne S N) eye, ?_, ?_⟩
  · simp [expand, hany]
  · apply embed_congr _ (both_injective _ Subtype.val_injective)
    · rintro (⟨a, ha⟩ | ⟨a, ha⟩) (⟨b, hb'⟩ | ⟨b, hb'⟩) <;>
        simp only [phase, of_apply, both, Sum.map_inl, Sum.map_inr, quad, Sum.elim_inl, Sum.elim_inr, expandOne_fold S N modes hb, copies,
          fromBlocks_apply₁₁, fromBlocks_apply₁₂, fromBlocks_apply₂₁, fromBlocks_apply₂₂, Matrix.smul_apply, one_apply, Subtype.mk.injEq, smul_eq_mul, Fin.ext_iff]
      · have h1 : ¬ N ≤ (a : ℕ) := by omega
        have h2 : ¬ (b : ℕ) = a + N := by omega
        simp only [ha, true_and, h1, false_and, if_false, h2, eye]
        by_cases h : (a : ℕ) = b
        · simp [h]
        · simp [h, Ne.symm h]
      · have h1 : ¬ N ≤ (a : ℕ) := by omega
        have h2 : ¬ (N + b : ℕ) = a := by omega
        have h3 : (a : ℕ) ≠ N + b := by omega
        simp only [ha, true_and, h1, false_and, if_false, h2, eye]
        by_cases h : (a : ℕ) = b
        · simp [h, add_comm]
        · have : ¬ (N + b : ℕ) = a + N := by omega
          simp [h, this, h3]
      · have h1 : N + (a : ℕ) ∉ modes := fun h => by have := hb _ h; omega
        have h2 : (b : ℕ) ≠ N + a := by omega
        have h3 : N + (a : ℕ) ≠ b := by omega
        simp only [h1, false_and, if_false, Nat.le_add_right, Nat.add_sub_cancel_left, ha, true_and, h2, eye]
        by_cases h : (a : ℕ) = b
        · simp [h, add_comm]
        · have : ¬ (N + a : ℕ) = b + N := by omega
          simp [h, this, h3]
      · have h1 : N + (a : ℕ) ∉ modes := fun h => by have := hb _ h; omega
        simp only [h1, false_and, if_false, Nat.le_add_right, Nat.add_sub_cancel_left, ha, true_and, eye]
        have h4 : ¬ (N + a : ℕ) = N + b + N := by omega
        by_cases h : (a : ℕ) = b
        · simp [h]
        · simp [h, Ne.symm h, h4]
    · intro k l hk
      rw [← phase_eye]
      have hk' : ∀ q, (k = Sum.inl q ∨ k = Sum.inr q) → (q : ℕ) ∉ modes := by
        rintro q (rfl | rfl) hq
        · exact hk (Sum.inl ⟨q, hq⟩) rfl
        · exact hk (Sum.inr ⟨q, hq⟩) rfl
      rcases k with q | q
      · have h1 := hk' q (Or.inl rfl)
        simp [phase, of_apply, quad, expandOne_fold S N modes hb, h1, not_le.mpr q.2]
      · have h1 := hk' q (Or.inr rfl)
        have h2 : N + (q : ℕ) ∉ modes := fun h => by have := hb _ h; omega
        simp [phase, of_apply, quad, expandOne_fold S N modes hb, h1, h2]
    · intro k l hk
      rw [← phase_eye]
      have hk' : ∀ q, (l = Sum.inl q ∨ l = Sum.inr q) → (q : ℕ) ∉ modes := by
        rintro q (rfl | rfl) hq
        · exact hk (Sum.inl ⟨q, hq⟩) rfl
        · exact hk (Sum.inr ⟨q, hq⟩) rfl
      simp only [phase, of_apply, expandOne_fold S N modes hb]
      rcases l with q | q
      · have h1 := hk' q (Or.inl rfl)
        rw [show quad N (Sum.inl q) = (q : ℕ) from rfl]
        generalize quad N k = x
        split_ifs with c1 c2 c3 c4
        · exact absurd (c1.2 ▸ c1.1) h1
        · omega
        · omega
        · exact absurd (by have := c4.2.1; rw [c4.2.2] at this; simpa using this) h1
        · rfl
      · have h1 := hk' q (Or.inr rfl)
        have h2 : N + (q : ℕ) ∉ modes := fun h => by have := hb _ h; omega
        rw [show quad N (Sum.inr q) = N + (q : ℕ) from rfl]
        generalize quad N k = x
        split_ifs with c1 c2 c3 c4
        · exact absurd (c1.2 ▸ c1.1) h2
        · exact absurd (by have := c2.2.1; rw [← c2.2.2] at this; simpa using this) h1
        · exact absurd (by have := c3.1; rwa [show x = (q : ℕ) by omega] at this) h1
        · have := hb _ c4.2.1; omega
        · rfl

end generic

end Verif.Lemmas.Symp
