/-
C19: the recursive and the non-recursive (loop) torontonian both equal the sum over sets of modes.
-/
import Verif.Lemmas.Cholesky
import Verif.Lemmas.Brs
import Verif.Props.Clicks

set_option linter.unusedSectionVars false
set_option linter.unusedSimpArgs false

namespace Verif.Props
open Verif.Model Verif.Model.Symp Verif.Model.Conv Verif.Model.Tor Verif.Spec Verif.Lemmas Verif.Lemmas.Symp Verif.Lemmas.Chol Matrix
open scoped ComplexOrder

/-! ### Index arrays and blocks -/

/-- the array indexed by `f` is the block of `S` if `f` lists the quadratures of `S` -/
theorem block_transfer (n d : ℕ) (A : ℕ → ℕ → ℂ) (S : Finset ℕ) (f : ℕ → ℕ) (e : Fin d ≃ S ⊕ S) (he : ∀ a : Fin d, modeQuad n S (e a) = f a) :
    toMatrix d d (fun a b => eye a b - A (f a) (f b)) = (1 - modeBlock n A S).submatrix e e := by
  ext a b
  simp only [toMatrix, of_apply, submatrix_apply, Matrix.sub_apply, modeBlock, he, Matrix.one_apply, e.injective.eq_iff, eye, Fin.ext_iff]

/-- blocks of a positive definite array are positive definite -/
theorem modeBlock_posDef (n : ℕ) (A : ℕ → ℕ → ℂ) (hA : (1 - phase n n A).PosDef) (S : Finset ℕ) (hS : S ⊆ Finset.range n) :
    (1 - modeBlock n A S).PosDef := by
  let g : S ⊕ S → Fin n ⊕ Fin n := Sum.map (fun k => ⟨k, Finset.mem_range.mp (hS k.2)⟩) fun k => ⟨k, Finset.mem_range.mp (hS k.2)⟩
  have hg : Function.Injective g := by
    apply Function.Injective.sumMap
    · intro a b h
      exact Subtype.ext (by simpa using h)
    · intro a b h
      exact Subtype.ext (by simpa using h)
  have hq : ∀ p, quad n (g p) = modeQuad n S p := by
    rintro (p | p) <;> rfl
  have := hA.submatrix (e := g) hg
  convert this using 1
  ext p q
  simp only [modeBlock, Matrix.sub_apply, of_apply, submatrix_apply, phase, hq, Matrix.one_apply, hg.eq_iff]

theorem det_re_pos {m : Type*} [Fintype m] [DecidableEq m] (M : Matrix m m ℂ) (hM : M.PosDef) : 0 < M.det.re ∧ M.det = (M.det.re : ℝ) := by
  have := hM.det_pos
  rw [Complex.lt_def] at this
  exact ⟨this.1, Complex.ext rfl (by simpa using this.2.symm)⟩

theorem toFinset_card {K : List ℕ} (hK : K.Nodup) : K.toFinset.card = K.length := List.toFinset_card_of_nodup hK

/-- the concatenated index array of `numba_tor` lists the quadratures -/
theorem keptIdx_equiv (n : ℕ) (K : List ℕ) (hK : K.Nodup) :
    ∃ e : Fin (2 * K.length) ≃ K.toFinset ⊕ K.toFinset, ∀ a : Fin (2 * K.length), modeQuad n K.toFinset (e a) = keptIdx n K a := by
  have hmem : ∀ a < K.length, K.getD a 0 ∈ K.toFinset := fun a ha => by
    rw [List.getD_eq_getElem _ _ ha]; exact List.mem_toFinset.mpr (List.getElem_mem _)
  let f : Fin (2 * K.length) → K.toFinset ⊕ K.toFinset := fun a =>
    if h : (a : ℕ) < K.length then Sum.inl ⟨K.getD a 0, hmem _ h⟩ else Sum.inr ⟨K.getD (a - K.length) 0, hmem _ (by omega)⟩
  have hf : Function.Injective f := by
    intro a b hab
    simp only [f] at hab
    have hinj : ∀ x y, x < K.length → y < K.length → K.getD x 0 = K.getD y 0 → x = y := by
      intro x y hx hy h
      rw [List.getD_eq_getElem _ _ hx, List.getD_eq_getElem _ _ hy] at h
      exact (List.Nodup.getElem_inj_iff hK).mp h
    apply Fin.ext
    by_cases h1 : (a : ℕ) < K.length <;> by_cases h2 : (b : ℕ) < K.length
    · rw [dif_pos h1, dif_pos h2] at hab
      exact hinj _ _ h1 h2 (by simpa using hab)
    · rw [dif_pos h1, dif_neg h2] at hab; exact absurd hab (by simp)
    · rw [dif_neg h1, dif_pos h2] at hab; exact absurd hab (by simp)
    · rw [dif_neg h1, dif_neg h2] at hab
      have := hinj (a - K.length) (b - K.length) (by omega) (by omega) (by simpa using hab)
      omega
  have hb : Function.Bijective f := by
    rw [Fintype.bijective_iff_injective_and_card]
    refine ⟨hf, ?_⟩
    rw [Fintype.card_fin, Fintype.card_sum, Fintype.card_coe, toFinset_card hK]; omega
  refine ⟨Equiv.ofBijective f hb, fun a => ?_⟩
  simp only [Equiv.ofBijective_apply, f, keptIdx]
  by_cases h : (a : ℕ) < K.length
  · rw [dif_pos h, if_pos h]; rfl
  · rw [dif_neg h, if_neg h, add_comm]; rfl

/-- the interleaved index array of the recursive algorithm: quadratures of the `a/2`-th kept mode -/
def pairIdx (n : ℕ) (K : List ℕ) (a : ℕ) : ℕ := if a % 2 = 0 then K.getD (a / 2) 0 else n + K.getD (a / 2) 0

theorem pairIdx_equiv (n : ℕ) (K : List ℕ) (hK : K.Nodup) :
    ∃ e : Fin (2 * K.length) ≃ K.toFinset ⊕ K.toFinset, ∀ a : Fin (2 * K.length), modeQuad n K.toFinset (e a) = pairIdx n K a := by
  have hmem : ∀ a < K.length, K.getD a 0 ∈ K.toFinset := fun a ha => by
    rw [List.getD_eq_getElem _ _ ha]; exact List.mem_toFinset.mpr (List.getElem_mem _)
  let f : Fin (2 * K.length) → K.toFinset ⊕ K.toFinset := fun a =>
    if (a : ℕ) % 2 = 0 then Sum.inl ⟨K.getD (a / 2) 0, hmem _ (by omega)⟩ else Sum.inr ⟨K.getD (a / 2) 0, hmem _ (by omega)⟩
  have hf : Function.Injective f := by
    intro a b hab
    simp only [f] at hab
    have hinj : ∀ x y, x < K.length → y < K.length → K.getD x 0 = K.getD y 0 → x = y := by
      intro x y hx hy h
      rw [List.getD_eq_getElem _ _ hx, List.getD_eq_getElem _ _ hy] at h
      exact (List.Nodup.getElem_inj_iff hK).mp h
    apply Fin.ext
    by_cases h1 : (a : ℕ) % 2 = 0 <;> by_cases h2 : (b : ℕ) % 2 = 0
    · rw [if_pos h1, if_pos h2] at hab
      have := hinj (a / 2) (b / 2) (by omega) (by omega) (by simpa using hab)
      omega
    · rw [if_pos h1, if_neg h2] at hab; exact absurd hab (by simp)
    · rw [if_neg h1, if_pos h2] at hab; exact absurd hab (by simp)
    · rw [if_neg h1, if_neg h2] at hab
      have := hinj (a / 2) (b / 2) (by omega) (by omega) (by simpa using hab)
      omega
  have hb : Function.Bijective f := by
    rw [Fintype.bijective_iff_injective_and_card]
    refine ⟨hf, ?_⟩
    rw [Fintype.card_fin, Fintype.card_sum, Fintype.card_coe, toFinset_card hK]; omega
  refine ⟨Equiv.ofBijective f hb, fun a => ?_⟩
  simp only [Equiv.ofBijective_apply, f, pairIdx]
  by_cases h : (a : ℕ) % 2 = 0
  · rw [if_pos h, if_pos h]; rfl
  · rw [if_neg h, if_neg h]; rfl

/-! ### The non-recursive algorithm -/

theorem foldl_add_list {α : Type} (l : List α) (g : α → ℂ) (c : ℂ) : l.foldl (fun t a => t + g a) c = c + (l.map g).sum := by
  induction l generalizing c with
  | nil => simp
  | cons a l ih => rw [List.foldl_cons, ih, List.map_cons, List.sum_cons, add_assoc]

theorem foldlM_add_list {α : Type} (l : List α) (f : ℂ → α → Except PyErr ℂ) (g : α → ℂ)
    (h : ∀ a ∈ l, ∀ t, f t a = .ok (t + g a)) (t : ℂ) : l.foldlM f t = (.ok (t + (l.map g).sum) : Except PyErr ℂ) := by
  induction l generalizing t with
  | nil => simp [pure, Except.pure]
  | cons a l ih =>
    rw [List.foldlM_cons, h a (by simp)]
    simp only [bind, Except.bind]
    rw [ih fun b hb => h b (by simp [hb]), List.map_cons, List.sum_cons, add_assoc]


theorem keptRows_nodup (n j : ℕ) : (keptRows n j).Nodup := List.nodup_range.filter _

theorem sum_kept (n : ℕ) {R : Type*} [AddCommMonoid R] (F : Finset ℕ → R) :
    ((List.range (2 ^ n)).map fun j => F (keptRows n j).toFinset).sum = ∑ S ∈ (Finset.range n).powerset, F S := by
  have hr : List.replicate n 1 = List.ofFn (fun _ : Fin n => 1) := by simp
  have hb : boxSize (List.ofFn (fun _ : Fin n => 1)) = 2 ^ n := by rw [← hr]; simp [boxSize]
  have h := sum_fke (fun _ : Fin n => 1) (fun d => F (rowsOf d).toFinset)
  rw [hb, ← hr] at h
  refine Eq.trans h ?_
  have e : ∀ κ : Fin n → ℕ, (rowsOf (List.ofFn κ)).toFinset = (Finset.univ.filter fun i => κ i ≠ 0).map Fin.valEmbedding := by
    intro κ
    rw [rowsOf_ofFn]
    ext x
    simp
  simp only [e]
  rw [sum_bits (fun S : Finset (Fin n) => F (S.map Fin.valEmbedding))]
  refine Finset.sum_bij' (fun S _ => S.map Fin.valEmbedding) (fun S hS => S.attachFin fun x hx => Finset.mem_range.mp (Finset.mem_powerset.mp hS hx)) ?_ ?_ ?_ ?_ ?_
  · intro S _
    rw [Finset.mem_powerset]
    intro x hx
    simp only [Finset.mem_map, Fin.valEmbedding_apply] at hx
    obtain ⟨y, -, rfl⟩ := hx
    exact Finset.mem_range.mpr y.2
  · intro S _
    exact Finset.mem_univ _
  · intro S _
    ext x
    simp only [Finset.mem_attachFin, Finset.mem_map, Fin.valEmbedding_apply]
    constructor
    · rintro ⟨y, hy, e⟩
      rwa [Fin.ext e] at hy
    · intro hx
      exact ⟨x, hx, rfl⟩
  · intro S hS
    ext x
    simp only [Finset.mem_map, Fin.valEmbedding_apply, Finset.mem_attachFin]
    constructor
    · rintro ⟨y, hy, rfl⟩; exact hy
    · intro hx
      exact ⟨⟨x, Finset.mem_range.mp (Finset.mem_powerset.mp hS hx)⟩, hx, rfl⟩
  · intro S _; rfl

theorem keptRows_subset (n j : ℕ) : (keptRows n j).toFinset ⊆ Finset.range n := by
  intro x hx
  rw [List.mem_toFinset, keptRows] at hx
  have := List.mem_range.mp (List.mem_filter.mp hx).1
  rw [fke_length, List.length_replicate] at this
  exact Finset.mem_range.mpr this

theorem sign_eq (n k : ℕ) (hk : k ≤ n) : ((-1 : ℂ)) ^ ((((n % 2 : ℕ) : ℤ) - ((k % 2 : ℕ) : ℤ)) % 2).toNat = (-1) ^ (n - k) := by
  have : ((((n % 2 : ℕ) : ℤ) - ((k % 2 : ℕ) : ℤ)) % 2).toNat = (n - k) % 2 := by omega
  rw [this, neg_one_pow_mod]

/-- C19: the non-recursive torontonian is the sum over sets of modes. -/
theorem numbaTor_correct (n : ℕ) (A : ℕ → ℕ → ℂ) (hA : (1 - phase n n A).PosDef) : numbaTor (2 * n) A = torontonian n A := by
  unfold numbaTor torStep torontonian
  have hn : 2 * n / 2 = n := by omega
  rw [hn]
  dsimp only
  rw [foldl_add_list]
  rw [zero_add, ← sum_kept n]
  congr 1
  apply List.map_congr_left
  intro j _
  obtain ⟨e, he⟩ := keptIdx_equiv n (keptRows n j) (keptRows_nodup n j)
  have hsub := keptRows_subset n j
  have hle : (keptRows n j).length ≤ n := by
    rw [← toFinset_card (keptRows_nodup n j)]
    simpa using Finset.card_le_card hsub
  rw [block_transfer n _ A _ _ e he, det_submatrix_equiv_self, sign_eq n _ hle, toFinset_card (keptRows_nodup n j)]
  have hp := det_re_pos _ (modeBlock_posDef n A hA _ hsub)
  rw [csqrt_ofReal _ hp.1.le]

/-- C19: the non-recursive loop torontonian is the sum over sets of modes. -/
theorem numbaLtor_correct (n : ℕ) (A : ℕ → ℕ → ℂ) (gamma : ℕ → ℂ) (hA : (1 - phase n n A).PosDef) :
    numbaLtor (2 * n) A gamma = .ok (loopTorontonian n A gamma) := by
  unfold numbaLtor ltorStep loopTorontonian
  have hn : 2 * n / 2 = n := by omega
  rw [hn]
  dsimp only
  rw [foldlM_add_list (List.range (2 ^ n)) _ (fun j =>
    (-1) ^ (n - (keptRows n j).toFinset.card) * Complex.exp (1 / 2 * (modeVec n gamma (keptRows n j).toFinset ⬝ᵥ
      (1 - modeBlock n A (keptRows n j).toFinset)⁻¹ *ᵥ fun p => (starRingEnd ℂ) (modeVec n gamma (keptRows n j).toFinset p)))
      / (Real.sqrt (1 - modeBlock n A (keptRows n j).toFinset).det.re : ℝ))]
  · rw [zero_add, ← sum_kept n]
  · intro j _ t
    obtain ⟨e, he⟩ := keptIdx_equiv n (keptRows n j) (keptRows_nodup n j)
    have hsub := keptRows_subset n j
    have hle : (keptRows n j).length ≤ n := by
      rw [← toFinset_card (keptRows_nodup n j)]
      simpa using Finset.card_le_card hsub
    have hp := det_re_pos _ (modeBlock_posDef n A hA _ hsub)
    have hb := block_transfer n _ A _ _ e he
    have hdet : (toMatrix (2 * (keptRows n j).length) (2 * (keptRows n j).length) fun a b => eye a b - A (keptIdx n (keptRows n j) a) (keptIdx n (keptRows n j) b)).det =
        (1 - modeBlock n A (keptRows n j).toFinset).det := by
      rw [hb, det_submatrix_equiv_self]
    have hne : (1 - modeBlock n A (keptRows n j).toFinset).det ≠ 0 := by
      rw [hp.2]; exact_mod_cast hp.1.ne'
    rw [npInv, if_neg (by rw [hdet]; exact hne)]
    simp only [bind, Except.bind, pure, Except.pure]
    rw [hdet, sign_eq n _ hle, csqrt_ofReal _ hp.1.le, toFinset_card (keptRows_nodup n j)]
    congr 6
    rw [dot_eq]
    have hinv : ∀ a b : Fin (2 * (keptRows n j).length), Verif.ofMatrix (toMatrix (2 * (keptRows n j).length) (2 * (keptRows n j).length) fun a b =>
        eye a b - A (keptIdx n (keptRows n j) a) (keptIdx n (keptRows n j) b))⁻¹ (fun _ _ => 0) a b = (1 - modeBlock n A (keptRows n j).toFinset)⁻¹ (e a) (e b) := by
      intro a b
      rw [hb, inv_submatrix_equiv]
      simp [Verif.ofMatrix]
    rw [Matrix.dotProduct_mulVec]
    simp only [dotProduct, vecMul, dot_eq, hinv, modeVec]
    rw [← e.sum_comp]
    refine Finset.sum_congr rfl fun b _ => ?_
    rw [he b, ← e.sum_comp]
    congr 1
    refine Finset.sum_congr rfl fun a _ => ?_
    rw [he a]

/-! ### The recursive algorithm -/

/-- Expanding over the first removed element. -/
theorem remove_expand (n : ℕ) (m st : ℕ) (h : st + m = n) (F : Finset ℕ → ℂ) :
    F (Finset.Ico st n) + ∑ i ∈ Finset.Ico st n, ∑ R ∈ (Finset.Ico (i + 1) n).powerset, (-1) ^ (n - i - R.card) * F (Finset.Ico st i ∪ R) =
      ∑ R ∈ (Finset.Ico st n).powerset, (-1) ^ (n - st - R.card) * F R := by
  induction m generalizing st F with
  | zero =>
    obtain rfl : st = n := by omega
    simp
  | succ m ih =>
    have hins : Finset.Ico st n = insert st (Finset.Ico (st + 1) n) := by
      ext x; simp only [Finset.mem_Ico, Finset.mem_insert]; omega
    have hnot : st ∉ Finset.Ico (st + 1) n := by simp
    have hih := ih (st + 1) (by omega) (fun R => F (insert st R))
    rw [hins, Finset.sum_insert hnot, Finset.sum_powerset_insert hnot]
    have h1 : ∀ i ∈ Finset.Ico (st + 1) n, ∀ R : Finset ℕ, Finset.Ico st i ∪ R = insert st (Finset.Ico (st + 1) i ∪ R) := by
      intro i hi R
      have := Finset.mem_Ico.mp hi
      ext x; simp only [Finset.mem_union, Finset.mem_Ico, Finset.mem_insert]
      by_cases hxR : x ∈ R
      · simp [hxR]
      · simp only [hxR, or_false]; omega
    have h2 : ∑ i ∈ Finset.Ico (st + 1) n, ∑ R ∈ (Finset.Ico (i + 1) n).powerset, (-1) ^ (n - i - R.card) * F (Finset.Ico st i ∪ R) =
        ∑ i ∈ Finset.Ico (st + 1) n, ∑ R ∈ (Finset.Ico (i + 1) n).powerset, (-1) ^ (n - i - R.card) * F (insert st (Finset.Ico (st + 1) i ∪ R)) :=
      Finset.sum_congr rfl fun i hi => Finset.sum_congr rfl fun R _ => by rw [h1 i hi R]
    rw [h2]
    have h3 : ∑ R ∈ (Finset.Ico (st + 1) n).powerset, (-1) ^ (n - st - (insert st R).card) * F (insert st R) =
        ∑ R ∈ (Finset.Ico (st + 1) n).powerset, (-1) ^ (n - (st + 1) - R.card) * F (insert st R) := by
      refine Finset.sum_congr rfl fun R hR => ?_
      have hs := Finset.mem_powerset.mp hR
      rw [Finset.card_insert_of_notMem fun h => hnot (hs h)]
      congr 2
      omega
    rw [h3, ← hih]
    simp only [Finset.Ico_self, Finset.empty_union]
    ring

/-- the summand of the loop torontonian -/
noncomputable def ltorTerm (n : ℕ) (A : ℕ → ℕ → ℂ) (gamma : ℕ → ℂ) (S : Finset ℕ) : ℂ :=
  Complex.exp (1 / 2 * (modeVec n gamma S ⬝ᵥ (1 - modeBlock n A S)⁻¹ *ᵥ fun p => (starRingEnd ℂ) (modeVec n gamma S p))) /
    (Real.sqrt (1 - modeBlock n A S).det.re : ℝ)

theorem loopTorontonian_term (n : ℕ) (A : ℕ → ℕ → ℂ) (gamma : ℕ → ℂ) :
    loopTorontonian n A gamma = ∑ S ∈ (Finset.range n).powerset, (-1) ^ (n - S.card) * ltorTerm n A gamma S := by
  refine Finset.sum_congr rfl fun S _ => ?_
  rw [ltorTerm, mul_div_assoc]

theorem pair_posDef (n : ℕ) (A : ℕ → ℕ → ℂ) (hA : (1 - phase n n A).PosDef) (K : List ℕ) (hK : K.Nodup) (hKn : ∀ x ∈ K, x < n) (B : ℕ → ℕ → ℂ)
    (hB : ∀ a < 2 * K.length, ∀ b < 2 * K.length, B a b = A (pairIdx n K a) (pairIdx n K b)) :
    (toMatrix (2 * K.length) (2 * K.length) fun a b => eye a b - B a b).PosDef := by
  obtain ⟨e, he⟩ := pairIdx_equiv n K hK
  have hc : (toMatrix (2 * K.length) (2 * K.length) fun a b => eye a b - B a b) = (1 - modeBlock n A K.toFinset).submatrix e e := by
    rw [← block_transfer n _ A _ _ e he]
    ext a b
    simp only [toMatrix, of_apply]
    rw [hB a a.2 b b.2]
  rw [hc]
  exact (modeBlock_posDef n A hA _ fun x hx => Finset.mem_range.mpr (hKn x (List.mem_toFinset.mp hx))).submatrix e.injective

/-- the summand computed from the Cholesky factor -/
theorem chol_term (n : ℕ) (A : ℕ → ℕ → ℂ) (gamma : ℕ → ℂ) (hA : (1 - phase n n A).PosDef) (K : List ℕ) (hK : K.Nodup) (hKn : ∀ x ∈ K, x < n) (B L : ℕ → ℕ → ℂ)
    (g : ℕ → ℂ) (hB : ∀ a < 2 * K.length, ∀ b < 2 * K.length, B a b = A (pairIdx n K a) (pairIdx n K b)) (hg : ∀ a < 2 * K.length, g a = gamma (pairIdx n K a))
    (hL : IsChol (2 * K.length) (fun a b => eye a b - B a b) L) :
    Complex.exp (1 / 2 * normSq1 (2 * K.length) (solveTriangular (2 * K.length) L fun a => (starRingEnd ℂ) (g a))) / csqrt (sqDiag (2 * K.length) L) =
      ltorTerm n A gamma K.toFinset := by
  obtain ⟨e, he⟩ := pairIdx_equiv n K hK
  have hherm := (pair_posDef n A hA K hK hKn B hB).1
  have hc : (toMatrix (2 * K.length) (2 * K.length) fun a b => eye a b - B a b) = (1 - modeBlock n A K.toFinset).submatrix e e := by
    rw [← block_transfer n _ A _ _ e he]
    ext a b
    simp only [toMatrix, of_apply]
    rw [hB a a.2 b b.2]
  rw [hL.det hherm, hL.quad hherm, hc, det_submatrix_equiv_self, ltorTerm, inv_submatrix_equiv]
  congr 3
  have h1 : (fun i : Fin (2 * K.length) => (starRingEnd ℂ) (g i)) = (fun p => (starRingEnd ℂ) (modeVec n gamma K.toFinset p)) ∘ e := by
    funext i
    simp only [Function.comp, modeVec]
    rw [he i, hg i i.2]
  have h2 : (fun i : Fin (2 * K.length) => (starRingEnd ℂ) ((starRingEnd ℂ) (g i))) = modeVec n gamma K.toFinset ∘ e := by
    funext i
    simp only [Function.comp, modeVec, Complex.conj_conj]
    rw [he i, hg i i.2]
  rw [h1, h2, submatrix_mulVec_equiv, Function.comp_assoc, e.self_comp_symm, Function.comp_id]
  simp only [dotProduct, Function.comp]
  exact e.sum_comp fun p => modeVec n gamma K.toFinset p * ((1 - modeBlock n A K.toFinset)⁻¹ *ᵥ fun p => (starRingEnd ℂ) (modeVec n gamma K.toFinset p)) p

theorem dropPair_getD (idx nm a : ℕ) (hidx : idx + 2 ≤ 2 * nm) (ha : a < 2 * (nm - 1)) : (dropPair idx nm).getD a 0 = if a < idx then a else a + 2 := by
  unfold dropPair
  split_ifs with h
  · rw [List.getD_append _ _ _ _ (by simpa using h), List.getD_eq_getElem _ _ (by simpa using h), List.getElem_range]
  · rw [List.getD_append_right _ _ _ _ (by simpa using h), List.length_range, List.getD_eq_getElem _ _ (by simp; omega), List.getElem_range']
    omega

theorem pairIdx_drop (n : ℕ) (q t : List ℕ) (i a : ℕ) (ha : a < 2 * (q ++ t).length) :
    pairIdx n (q ++ i :: t) ((dropPair (q.length * 2) (q ++ i :: t).length).getD a 0) = pairIdx n (q ++ t) a := by
  have hl : (q ++ i :: t).length = q.length + t.length + 1 := by simp; omega
  have hl' : (q ++ t).length = q.length + t.length := by simp
  rw [dropPair_getD _ _ _ (by omega) (by omega)]
  unfold pairIdx
  by_cases h : a < q.length * 2
  · rw [if_pos h, List.getD_append _ _ _ _ (by omega), List.getD_append _ _ _ _ (by omega)]
  · have e1 : (a + 2) % 2 = a % 2 := by omega
    have e2 : (a + 2) / 2 = a / 2 + 1 := by omega
    rw [if_neg h, e1, e2, List.getD_append_right _ _ _ _ (by omega), List.getD_append_right _ _ _ _ (by omega)]
    have e3 : a / 2 + 1 - q.length = (a / 2 - q.length) + 1 := by omega
    rw [e3, List.getD_cons_succ]

theorem forRange2_add (a b : ℕ) (f : ℕ → ℂ) : forRange2 a b 0 (fun i t => t + f i) = ∑ i ∈ Finset.Ico a b, f i := by
  rw [forRange2_eq, Finset.sum_Ico_eq_sum_range, ← forRange_addsum]

theorem startOf_concat (modes : List ℕ) (i : ℕ) : startOf (modes ++ [i]) = i + 1 := by
  simp [startOf]

/-- the recursive calls: all ways to remove further modes -/
theorem recursiveLTor_eq (n : ℕ) (A : ℕ → ℕ → ℂ) (gamma : ℕ → ℂ) (hA : (1 - phase n n A).PosDef) :
    ∀ (fuel : ℕ) (p modes : List ℕ) (L B : ℕ → ℕ → ℂ) (g : ℕ → ℂ), startOf modes ≤ n → n - startOf modes < fuel →
      modes.length + p.length = startOf modes → p.Nodup → (∀ x ∈ p, x < startOf modes) →
      (∀ a < 2 * (p ++ List.range' (startOf modes) (n - startOf modes)).length, ∀ b < 2 * (p ++ List.range' (startOf modes) (n - startOf modes)).length,
        B a b = A (pairIdx n (p ++ List.range' (startOf modes) (n - startOf modes)) a) (pairIdx n (p ++ List.range' (startOf modes) (n - startOf modes)) b)) →
      (∀ a < 2 * (p ++ List.range' (startOf modes) (n - startOf modes)).length, g a = gamma (pairIdx n (p ++ List.range' (startOf modes) (n - startOf modes)) a)) →
      IsChol (2 * (p ++ List.range' (startOf modes) (n - startOf modes)).length) (fun a b => eye a b - B a b) L →
      (-1) ^ modes.length * ltorTerm n A gamma (p.toFinset ∪ Finset.Ico (startOf modes) n) +
        recursiveLTor fuel L modes (2 * (p ++ List.range' (startOf modes) (n - startOf modes)).length) B n g =
      (-1) ^ modes.length * ∑ R ∈ (Finset.Ico (startOf modes) n).powerset, (-1) ^ (n - startOf modes - R.card) * ltorTerm n A gamma (p.toFinset ∪ R) := by
  intro fuel
  induction fuel with
  | zero => intro p modes L B g h1 h2; omega
  | succ fuel ih =>
    intro p modes L B g hst hfuel hlen hnod hlt hB hg hL
    set st := startOf modes with hstdef
    set K := p ++ List.range' st (n - st) with hK
    have hKlen : K.length = n - modes.length := by
      rw [hK, List.length_append, List.length_range']; omega
    rw [recursiveLTor]
    rw [forRange2_add]
    rw [← remove_expand n (n - st) st (by omega) fun R => ltorTerm n A gamma (p.toFinset ∪ R), mul_add, Finset.mul_sum]
    congr 1
    refine Finset.sum_congr rfl fun i hi => ?_
    obtain ⟨hi1, hi2⟩ := Finset.mem_Ico.mp hi
    -- the modes kept after removing `i`
    set q := p ++ List.range' st (i - st) with hq
    set t := List.range' (i + 1) (n - (i + 1)) with ht
    have hqlen : q.length = i - modes.length := by
      rw [hq, List.length_append, List.length_range']; omega
    have hKq : K = q ++ i :: t := by
      rw [hK, hq, ht, List.append_assoc]
      congr 1
      have e1 : n - st = (i - st) + (n - (i + 1) + 1) := by omega
      rw [e1, ← List.range'_append_1, List.range'_succ]
      congr 2
      · omega
      · congr 1; omega
    have hK' : K.length = (q ++ t).length + 1 := by rw [hKq]; simp; omega
    have hdiv : 2 * K.length / 2 = K.length := by omega
    have hsub1 : K.length - 1 = (q ++ t).length := by omega
    have hidx : (i - modes.length) * 2 = q.length * 2 := by rw [hqlen]
    have hnodK : (q ++ i :: t).Nodup := by
      rw [← hKq, hK, List.nodup_append]
      refine ⟨hnod, List.nodup_range', ?_⟩
      intro x hx y hy hxy
      rw [List.mem_range'_1] at hy
      have := hlt x hx
      omega
    have hKn : ∀ x ∈ q ++ i :: t, x < n := by
      intro x hx
      rw [← hKq, hK, List.mem_append, List.mem_range'_1] at hx
      rcases hx with hx | hx
      · have := hlt x hx; omega
      · omega
    have hnodqt : (q ++ t).Nodup := List.Nodup.sublist (List.Sublist.append_left (List.sublist_cons_self i t) q) hnodK
    have hqtn : ∀ x ∈ q ++ t, x < n := fun x hx => hKn x (by
      rw [List.mem_append] at hx ⊢
      rcases hx with hx | hx
      · exact Or.inl hx
      · exact Or.inr (List.mem_cons_of_mem _ hx))
    simp only [hdiv, hsub1, hidx]
    rw [hKq] at hB hg hL ⊢
    set Z := dropPair (q.length * 2) (q ++ i :: t).length with hZ
    have hl1 : (q ++ i :: t).length = (q ++ t).length + 1 := by simp; omega
    have hqle : q.length ≤ (q ++ t).length := by simp
    have hZv : ∀ a < 2 * (q ++ t).length, Z.getD a 0 = if a < q.length * 2 then a else a + 2 := fun a ha =>
      dropPair_getD _ _ _ (by omega) (by omega)
    have hZlt : ∀ a < 2 * (q ++ t).length, Z.getD a 0 < 2 * (q ++ i :: t).length := by
      intro a ha
      rw [hZv a ha]
      split_ifs <;> omega
    have hBz : ∀ a < 2 * (q ++ t).length, ∀ b < 2 * (q ++ t).length, B (Z.getD a 0) (Z.getD b 0) = A (pairIdx n (q ++ t) a) (pairIdx n (q ++ t) b) := by
      intro a ha b hb
      rw [hB _ (hZlt a ha) _ (hZlt b hb), pairIdx_drop n q t i a ha, pairIdx_drop n q t i b hb]
    have hgz : ∀ a < 2 * (q ++ t).length, g (Z.getD a 0) = gamma (pairIdx n (q ++ t) a) := by
      intro a ha
      rw [hg _ (hZlt a ha), pairIdx_drop n q t i a ha]
    have hposZ := pair_posDef n A hA (q ++ t) hnodqt hqtn (fun a b => B (Z.getD a 0) (Z.getD b 0)) hBz
    have hcholZ : IsChol (2 * (q ++ t).length) (fun a b => eye a b - B (Z.getD a 0) (Z.getD b 0))
        (quadCholesky L Z (q.length * 2) (2 * (q ++ t).length) fun a b => eye a b - B (Z.getD a 0) (Z.getD b 0)) := by
      refine quadCholesky_correct _ _ _ _ _ _ Z hL (by omega) ?_ hZlt ?_ ?_ hposZ
      · intro a ha
        rw [hZv a (by omega), if_pos ha]
      · intro a ha b hb hab
        rw [hZv a ha, hZv b hb]
        split_ifs <;> omega
      · intro a ha b hb
        have hinj : Z.getD a 0 = Z.getD b 0 ↔ a = b := by
          rw [hZv a ha, hZv b hb]
          split_ifs <;> omega
        simp only [eye, hinj]
    rw [mul_div_assoc, chol_term n A gamma hA (q ++ t) hnodqt hqtn _ _ (fun a => g (Z.getD a 0)) hBz hgz hcholZ]
    have hst' : startOf (modes ++ [i]) = i + 1 := startOf_concat modes i
    have hfin := ih q (modes ++ [i]) (quadCholesky L Z (q.length * 2) (2 * (q ++ t).length) fun a b => eye a b - B (Z.getD a 0) (Z.getD b 0))
      (fun a b => B (Z.getD a 0) (Z.getD b 0)) (fun a => g (Z.getD a 0))
    rw [hst'] at hfin
    have hqn : q.Nodup := (List.nodup_append.mp hnodK).1
    have hmem : ∀ x ∈ q, x < i + 1 := by
      intro x hx
      rw [hq, List.mem_append, List.mem_range'_1] at hx
      rcases hx with hx | hx
      · have := hlt x hx; omega
      · omega
    have hfin := hfin (by omega) (by omega) (by rw [List.length_append, List.length_singleton, hqlen]; omega) hqn hmem hBz hgz hcholZ
    have hset : q.toFinset = p.toFinset ∪ Finset.Ico st i := by
      rw [hq, List.toFinset_append]
      congr 1
      ext x
      rw [List.mem_toFinset, List.mem_range'_1, Finset.mem_Ico]
      omega
    have hset2 : (q ++ t).toFinset = q.toFinset ∪ Finset.Ico (i + 1) n := by
      rw [List.toFinset_append]
      congr 1
      ext x
      rw [ht, List.mem_toFinset, List.mem_range'_1, Finset.mem_Ico]
      omega
    rw [hset2]
    refine hfin.trans ?_
    rw [Finset.mul_sum, Finset.mul_sum]
    refine Finset.sum_congr rfl fun R hR => ?_
    have hRc : R.card ≤ n - (i + 1) := by
      have := Finset.card_le_card (Finset.mem_powerset.mp hR)
      rwa [Nat.card_Ico] at this
    rw [hset, Finset.union_assoc, List.length_append, List.length_singleton]
    have e1 : n - i - R.card = (n - (i + 1) - R.card) + 1 := by omega
    rw [e1, pow_succ, pow_succ]
    ring

theorem posDef_contract (d : ℕ) (M : ℕ → ℕ → ℂ) (h : (toMatrix d d M).PosDef) :
    (∀ x : Fin d → ℂ, x ≠ 0 → 0 < (∑ i : Fin d, ∑ j : Fin d, (starRingEnd ℂ) (x i) * M i j * x j).re) ∧
      ∀ i < d, ∀ j < d, M i j = (starRingEnd ℂ) (M j i) := by
  constructor
  · intro x hx
    have h0 := h.dotProduct_mulVec_pos hx
    have e : star x ⬝ᵥ (toMatrix d d M *ᵥ x) = ∑ i : Fin d, ∑ j : Fin d, (starRingEnd ℂ) (x i) * M i j * x j := by
      simp only [dotProduct, mulVec, toMatrix, of_apply, Pi.star_apply, Finset.mul_sum]
      refine Finset.sum_congr rfl fun i _ => Finset.sum_congr rfl fun j _ => ?_
      rw [← mul_assoc]; rfl
    rw [e, Complex.lt_def] at h0
    exact h0.1
  · intro i hi j hj
    have := congrFun (congrFun h.1 ⟨i, hi⟩) ⟨j, hj⟩
    simpa [toMatrix, conjTranspose_apply] using this.symm

theorem contract_posDef (d : ℕ) (M : ℕ → ℕ → ℂ) (h1 : ∀ x : Fin d → ℂ, x ≠ 0 → 0 < (∑ i : Fin d, ∑ j : Fin d, (starRingEnd ℂ) (x i) * M i j * x j).re)
    (h2 : ∀ i < d, ∀ j < d, M i j = (starRingEnd ℂ) (M j i)) : (toMatrix d d M).PosDef := by
  have hH : (toMatrix d d M).IsHermitian := by
    refine Matrix.IsHermitian.ext fun i j => ?_
    exact (h2 i i.2 j j.2).symm
  refine PosDef.of_dotProduct_mulVec_pos hH fun x hx => ?_
  have h := h1 x hx
  have e : star x ⬝ᵥ (toMatrix d d M *ᵥ x) = ∑ i : Fin d, ∑ j : Fin d, (starRingEnd ℂ) (x i) * M i j * x j := by
    simp only [dotProduct, mulVec, toMatrix, of_apply, Pi.star_apply, Finset.mul_sum]
    refine Finset.sum_congr rfl fun i _ => Finset.sum_congr rfl fun j _ => ?_
    rw [← mul_assoc]; rfl
  have him : (star x ⬝ᵥ (toMatrix d d M *ᵥ x)).im = 0 := hH.im_star_dotProduct_mulVec_self x
  rw [Complex.lt_def, e]
  rw [e] at him
  exact ⟨h, by simp [him]⟩

/-- the contract of `np.linalg.cholesky` can be met -/
theorem cholesky_contract : CholeskyContract (E := PyErr) fun d M => .ok (quadCholesky (fun _ _ => 0) (List.range d) 0 d M) := by
  intro d M h1 h2
  have hpos := contract_posDef d M h1 h2
  have hc := cholesky_exists d M hpos
  refine ⟨_, rfl, hc.lower, hc.diag, ?_⟩
  intro i hi j hj
  have := congrFun (congrFun (hc.mul hpos.1) ⟨i, hi⟩) ⟨j, hj⟩
  rw [Matrix.mul_apply] at this
  simpa [toMatrix, conjTranspose_apply] using this

theorem interleave_pairIdx (n a : ℕ) (ha : a < 2 * n) : interleave n a = pairIdx n (List.range n) a := by
  unfold interleave pairIdx
  rw [List.getD_eq_getElem _ _ (by simp; omega), List.getElem_range]

variable {chol : ℕ → (ℕ → ℕ → ℂ) → Except PyErr (ℕ → ℕ → ℂ)}

/-- C19: the recursive loop torontonian is the sum over sets of modes. -/
theorem recLtorontonian_correct (hchol : CholeskyContract chol) (n : ℕ) (A : ℕ → ℕ → ℂ) (gamma : ℕ → ℂ) (hA : (1 - phase n n A).PosDef) :
    recLtorontonian chol (2 * n) A gamma = .ok (loopTorontonian n A gamma) := by
  unfold recLtorontonian
  have hn : 2 * n / 2 = n := by omega
  rw [hn]
  dsimp only
  have hlen : (List.range n).length = n := List.length_range
  have hB : ∀ a < 2 * (List.range n).length, ∀ b < 2 * (List.range n).length,
      A (interleave n a) (interleave n b) = A (pairIdx n (List.range n) a) (pairIdx n (List.range n) b) := by
    intro a ha b hb
    rw [hlen] at ha hb
    rw [interleave_pairIdx n a ha, interleave_pairIdx n b hb]
  have hg : ∀ a < 2 * (List.range n).length, gamma (interleave n a) = gamma (pairIdx n (List.range n) a) := by
    intro a ha
    rw [hlen] at ha
    rw [interleave_pairIdx n a ha]
  have hpos := pair_posDef n A hA (List.range n) List.nodup_range (fun x hx => List.mem_range.mp hx) (fun a b => A (interleave n a) (interleave n b)) hB
  rw [hlen] at hpos
  obtain ⟨c1, c2⟩ := posDef_contract _ _ hpos
  obtain ⟨L, hL, l1, l2, l3⟩ := hchol (2 * n) (fun a b => eye a b - A (interleave n a) (interleave n b)) c1 c2
  have hch : IsChol (2 * n) (fun a b => eye a b - A (interleave n a) (interleave n b)) L := isChol_of_mul l1 l2 l3
  rw [hL]
  simp only [bind, Except.bind, pure, Except.pure]
  congr 1
  have hterm := chol_term n A gamma hA (List.range n) List.nodup_range (fun x hx => List.mem_range.mp hx) (fun a b => A (interleave n a) (interleave n b)) L
    (fun a => gamma (interleave n a)) hB hg (by rw [hlen]; exact hch)
  rw [hlen] at hterm
  rw [hterm]
  have hst : startOf [] = 0 := rfl
  have hmain := recursiveLTor_eq n A gamma hA (n + 1) [] [] L (fun a b => A (interleave n a) (interleave n b)) (fun a => gamma (interleave n a))
  simp only [hst, Nat.sub_zero, List.nil_append, ← List.range_eq_range', hlen] at hmain hB hg
  have hmain := hmain (Nat.zero_le _) (by omega) rfl List.nodup_nil (by simp) hB hg hch
  simp only [List.length_nil, pow_zero, one_mul, List.toFinset_nil, Finset.empty_union, Nat.sub_zero, ← Finset.range_eq_Ico] at hmain
  rw [loopTorontonian_term, ← hmain, List.toFinset_range]

theorem solveTriangular_zero (d : ℕ) (L : ℕ → ℕ → ℂ) : solveTriangular d L (fun _ => 0) = fun _ => 0 := by
  unfold solveTriangular
  refine forRange_inv (fun _ (x : ℕ → ℂ) => x = fun _ => 0) d _ _ rfl ?_
  intro j x _ hx
  subst hx
  simp

theorem normSq1_zero (d : ℕ) : normSq1 d (fun _ => 0) = 0 := by
  rw [normSq1, dot_eq]
  simp [dotProduct]

theorem recursiveTor_eq_loop (fuel : ℕ) : ∀ (L : ℕ → ℕ → ℂ) (modes : List ℕ) (len : ℕ) (A : ℕ → ℕ → ℂ) (n : ℕ),
    recursiveTor fuel L modes len A n = recursiveLTor fuel L modes len A n fun _ => 0 := by
  induction fuel with
  | zero => intros; rfl
  | succ fuel ih =>
    intro L modes len A n
    rw [recursiveTor, recursiveLTor]
    simp only [map_zero, solveTriangular_zero, normSq1_zero, mul_zero, Complex.exp_zero, mul_one, ih]

theorem torontonian_eq_loop (n : ℕ) (A : ℕ → ℕ → ℂ) : torontonian n A = loopTorontonian n A fun _ => 0 := by
  unfold torontonian loopTorontonian
  refine Finset.sum_congr rfl fun S _ => ?_
  have : modeVec n (fun _ => (0 : ℂ)) S = 0 := rfl
  rw [this, zero_dotProduct, mul_zero, Complex.exp_zero, mul_one]

/-- C19: the recursive torontonian is the sum over sets of modes. -/
theorem recTorontonian_correct (hchol : CholeskyContract chol) (n : ℕ) (A : ℕ → ℕ → ℂ) (hA : (1 - phase n n A).PosDef) :
    recTorontonian chol (2 * n) A = .ok (torontonian n A) := by
  rw [torontonian_eq_loop, ← recLtorontonian_correct hchol n A (fun _ => 0) hA]
  unfold recTorontonian recLtorontonian
  simp only [recursiveTor_eq_loop, map_zero, solveTriangular_zero, normSq1_zero, mul_zero, Complex.exp_zero]

/-- C19: with either value of `recursive`, `tor` returns the torontonian `∑_S (-1)^(n-|S|)/√det(1 - A_S)`, for every number of modes and every `A`
with `1 - A` positive definite. -/
theorem tor_correct (hchol : CholeskyContract chol) (n : ℕ) (A : ℕ → ℕ → ℂ) (hA : (1 - phase n n A).PosDef) (recursive : Bool) :
    tor chol (.arr (2 * n) (2 * n) A) recursive = .ok (torontonian n A) := by
  unfold tor torInputChecks
  simp only [ne_eq, not_true, if_false, Nat.mul_mod_right]
  simp only [bind, Except.bind]
  cases recursive
  · simp only [Bool.false_eq_true, if_false, numbaTor_correct n A hA]
  · simp only [if_true, recTorontonian_correct hchol n A hA]

/-- C19: with either value of `recursive`, `ltor` returns the loop torontonian. -/
theorem ltor_correct (hchol : CholeskyContract chol) (n : ℕ) (A : ℕ → ℕ → ℂ) (gamma : ℕ → ℂ) (hA : (1 - phase n n A).PosDef) (recursive : Bool) :
    ltor chol (.arr (2 * n) (2 * n) A) (.arr (2 * n) gamma) recursive = .ok (loopTorontonian n A gamma) := by
  unfold ltor torInputChecks
  simp only [ne_eq, not_true, if_false, Nat.mul_mod_right]
  simp only [bind, Except.bind]
  cases recursive
  · simp only [Bool.false_eq_true, if_false, numbaLtor_correct n A gamma hA]
  · simp only [if_true, recLtorontonian_correct hchol n A gamma hA]

/-- C55: the input checks of `tor` and `ltor`. -/
theorem tor_raises (A : ℕ → ℕ → ℂ) (gamma : ℕ → ℂ) (recursive : Bool) :
    tor chol .other recursive = .error .typeError ∧
    (∀ r c, r ≠ c → tor chol (.arr r c A) recursive = .error .valueError) ∧
    (∀ n, tor chol (.arr (2 * n + 1) (2 * n + 1) A) recursive = .error .valueError) ∧
    ltor chol .other (.arr 0 gamma) recursive = .error .typeError ∧
    (∀ r c l, r ≠ c → ltor chol (.arr r c A) (.arr l gamma) recursive = .error .valueError) ∧
    (∀ n l, ltor chol (.arr (2 * n + 1) (2 * n + 1) A) (.arr l gamma) recursive = .error .valueError) ∧
    (∀ n, ltor chol (.arr (2 * n) (2 * n) A) .other recursive = .error .typeError) ∧
    (∀ n l, 2 * n ≠ l → ltor chol (.arr (2 * n) (2 * n) A) (.arr l gamma) recursive = .error .valueError) := by
  refine ⟨rfl, ?_, ?_, rfl, ?_, ?_, ?_, ?_⟩
  · intro r c h; simp [tor, torInputChecks, h, bind, Except.bind]
  · intro n; simp [tor, torInputChecks, bind, Except.bind]
  · intro r c l h; simp [ltor, torInputChecks, h, bind, Except.bind]
  · intro n l; simp [ltor, torInputChecks, bind, Except.bind]
  · intro n; simp [ltor, torInputChecks, bind, Except.bind]
  · intro n l h; simp [ltor, torInputChecks, h, bind, Except.bind]

/-- the hypothesis of the torontonian theorems holds for every array with `A = t` on the diagonal and `0` elsewhere, `t < 1` -/
theorem scalar_posDef (n : ℕ) (t : ℝ) (ht : t < 1) : (1 - phase n n fun i j => if i = j then (t : ℂ) else 0).PosDef := by
  have e : (1 - phase n n fun i j => if i = j then (t : ℂ) else 0) = diagonal fun _ : Fin n ⊕ Fin n => (((1 - t : ℝ)) : ℂ) := by
    ext p q
    have hq : (quad n p = quad n q) ↔ p = q := ⟨fun h => quad_injective n h, fun h => by rw [h]⟩
    by_cases h : p = q
    · subst h; simp [phase]
    · rw [Matrix.sub_apply, Matrix.one_apply_ne h, diagonal_apply_ne _ h]
      simp [phase, hq, h]
  rw [e, posDef_diagonal_iff]
  intro _
  rw [Complex.lt_def]
  exact ⟨by simpa using ht, by simp⟩

/-- a concrete instance: two modes, `A = ½·1`, the Cholesky routine of the file -/
example (recursive : Bool) : tor (fun d M => .ok (quadCholesky (fun _ _ => 0) (List.range d) 0 d M)) (.arr 4 4 fun i j => if i = j then ((1 / 2 : ℝ) : ℂ) else 0) recursive
    = .ok (torontonian 2 fun i j => if i = j then ((1 / 2 : ℝ) : ℂ) else 0) :=
  tor_correct cholesky_contract 2 _ (scalar_posDef 2 (1 / 2) (by norm_num)) recursive

end Verif.Props
