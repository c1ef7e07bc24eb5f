/-
C77: rescaling an adjacency matrix for thermal and squashed sampling.
-/
import Verif.Props.Adjacency
import Verif.Props.GaussianChecks

namespace Verif.Props
open Verif.Model Verif.Model.Symp Verif.Model.Adj Verif.Spec Verif.Lemmas Verif.Lemmas.Symp Matrix

theorem meanPhotonThermal_eq (n : ℕ) (scale x : ℝ) (vals : ℕ → ℝ) :
    meanPhotonThermal n scale x vals = ∑ i ∈ Finset.range n, scale * x * vals i / (1 - scale * x * vals i) := by
  unfold meanPhotonThermal
  rw [← List.sum_toFinset _ List.nodup_range, List.toFinset_range]

theorem meanPhotonThermal_continuous (n : ℕ) (scale : ℝ) (hsc : 0 ≤ scale) (vals : ℕ → ℝ) (hv : ∀ i < n, 0 ≤ vals i) (b : ℝ) (hb : ∀ i < n, scale * b * vals i < 1) (c : ℝ) :
    ContinuousOn (fun x => meanPhotonThermal n scale x vals - c) (Set.Icc 0 b) := by
  simp only [meanPhotonThermal_eq]
  refine ContinuousOn.sub (continuousOn_finsetSum _ fun i hi => ?_) continuousOn_const
  have hin := Finset.mem_range.mp hi
  refine ContinuousOn.div (by fun_prop) (by fun_prop) ?_
  intro x hx
  have h1 : scale * x * vals i ≤ scale * b * vals i := mul_le_mul_of_nonneg_right (mul_le_mul_of_nonneg_left hx.2 hsc) (hv i hin)
  have h3 := hb i hin
  linarith

theorem meanPhotonThermal_mono (n : ℕ) (scale : ℝ) (hsc : 0 < scale) (vals : ℕ → ℝ) (hv : ∀ i < n, 0 ≤ vals i) (x y : ℝ) (hxy : x < y)
    (hy : ∀ i < n, scale * y * vals i < 1) (i0 : ℕ) (hi0 : i0 < n) (hpos : 0 < vals i0) : meanPhotonThermal n scale x vals < meanPhotonThermal n scale y vals := by
  rw [meanPhotonThermal_eq, meanPhotonThermal_eq]
  have key : ∀ i < n, scale * x * vals i ≤ scale * y * vals i := fun i hi => mul_le_mul_of_nonneg_right (mul_le_mul_of_nonneg_left hxy.le hsc.le) (hv i hi)
  refine Finset.sum_lt_sum ?_ ⟨i0, Finset.mem_range.mpr hi0, ?_⟩
  · intro i hi
    have h1 := key i (Finset.mem_range.mp hi)
    have h2 := hy i (Finset.mem_range.mp hi)
    rw [div_le_div_iff₀ (by linarith) (by linarith)]
    nlinarith
  · have h1 : scale * x * vals i0 < scale * y * vals i0 := mul_lt_mul_of_pos_right (mul_lt_mul_of_pos_left hxy hsc) hpos
    have h2 := hy i0 hi0
    rw [div_lt_div_iff₀ (by linarith) (by linarith)]
    nlinarith

/-- C77: for every symmetric real matrix whose eigenvalues are zero or at least `atol`, and every mean photon number up to `scale λ_max / atol`, both functions return the
eigenvalues and eigenvectors of `x A` for a non-negative `x`: `O diag(l) Oᵀ = x A`, and the thermal occupation numbers `scale l / (1 - scale l)` add up to `n_mean`; with
a non-zero matrix no other `x` below `1/(scale λ_max)` has this property. -/
theorem rescale_correct (lib : Lib) (heigh : EighContract lib.eigh) (hroot : RootContract lib.rootScalar) (close : ℝ → ℝ → Bool) (hclose : ∀ a, close a a = true)
    (n : ℕ) (hn : 0 < n) (A : RArr) (hA : ∀ i < n, ∀ j < n, A i j = A j i) (nMean scale atol : ℝ) (hsc : 0 < scale) (hat : 0 < atol) (c1 c2 : Bool)
    (heig : ∀ i < n, (lib.eigh n A).1 i = 0 ∨ atol ≤ (lib.eigh n A).1 i) (h0 : 0 ≤ nMean) (hmax : nMean ≤ scale * (lib.eigh n A).1 (n - 1) / atol) :
    ∃ x l O, rescaleAdjacencyMatrix lib close n A nMean scale c1 c2 atol = .ok (l, O) ∧ 0 ≤ x ∧ (∀ i < n, 0 ≤ l i ∧ scale * l i < 1) ∧
      toMatrix n n O ∈ orthogonalGroup (Fin n) ℝ ∧ toMatrix n n O * diagonal (fun i : Fin n => l i) * (toMatrix n n O)ᵀ = x • toMatrix n n A ∧
      ∑ i ∈ Finset.range n, scale * l i / (1 - scale * l i) = nMean ∧
      (0 < (lib.eigh n A).1 (n - 1) → ∀ y, 0 ≤ y → scale * y * (lib.eigh n A).1 (n - 1) < 1 →
        ∑ i ∈ Finset.range n, scale * (y * (lib.eigh n A).1 i) / (1 - scale * (y * (lib.eigh n A).1 i)) = nMean → y = x) := by
  have hsymm : (toMatrix n n A).IsSymm := by
    ext i j; simp only [transpose_apply, toMatrix, of_apply]; exact hA j j.2 i i.2
  obtain ⟨hO, hasc, he⟩ := heigh n A hsymm
  set w := (lib.eigh n A).1 with hw
  have hnn : ∀ i < n, 0 ≤ w i := fun i hi => (heig i hi).elim (fun h => h.ge) fun h => by linarith
  have hcut : ∀ i < n, (if |w i| < atol then 0 else w i) = w i := by
    intro i hi
    rcases heig i hi with h | h
    · rw [h]; simp
    · rw [if_neg]; rw [abs_of_nonneg (hnn i hi)]; linarith
  set ls : ℕ → ℝ := fun i => if |w i| < atol then 0 else w i with hls
  have hlsw : ∀ i < n, ls i = w i := hcut
  have hlast : ls (n - 1) = w (n - 1) := hlsw _ (by omega)
  have hl0 : 0 ≤ w (n - 1) := hnn _ (by omega)
  set b : ℝ := 1 / (atol + scale * ls (n - 1)) with hb
  have hden : 0 < atol + scale * w (n - 1) := by positivity
  have hb0 : 0 < b := by rw [hb, hlast]; positivity
  have hbl : ∀ i < n, scale * b * ls i < 1 := by
    intro i hi
    have h1 := hasc i (n - 1) (by omega) (by omega)
    rw [hlsw i hi, hb, hlast, mul_one_div, div_mul_eq_mul_div, div_lt_one hden]
    nlinarith
  have hf0 : meanPhotonThermal n scale 0 ls = 0 := by rw [meanPhotonThermal_eq]; simp
  have hfb : nMean ≤ meanPhotonThermal n scale b ls := by
    rw [meanPhotonThermal_eq]
    refine hmax.trans ?_
    have h1 : scale * w (n - 1) / atol = scale * b * ls (n - 1) / (1 - scale * b * ls (n - 1)) := by
      have h2 : 1 - scale * b * ls (n - 1) ≠ 0 := by have := hbl (n - 1) (by omega); linarith
      rw [div_eq_div_iff hat.ne' h2, hb, hlast]
      field_simp
      ring
    rw [h1]
    refine Finset.single_le_sum (f := fun i => scale * b * ls i / (1 - scale * b * ls i)) (fun i hi => ?_) (Finset.mem_range.mpr (by omega))
    have hin := Finset.mem_range.mp hi
    have h3 := hbl i hin
    have h4 : 0 ≤ scale * b * ls i := by rw [hlsw i hin]; exact mul_nonneg (mul_nonneg hsc.le hb0.le) (hnn i hin)
    exact div_nonneg h4 (by linarith)
  obtain ⟨r, hr, hr0, hrb, hsign⟩ := (hroot (fun x => meanPhotonThermal n scale x ls - nMean) 0 b hb0.le).2 (by
    simp only [hf0]
    nlinarith)
  have hnls : ∀ i < n, 0 ≤ ls i := fun i hi => by rw [hlsw i hi]; exact hnn i hi
  have hz := zero_of_signs _ 0 b r (meanPhotonThermal_continuous n scale hsc.le ls hnls b hbl nMean r ⟨hr0, hrb⟩) hsign
  have hrun : rescaleAdjacencyMatrix lib close n A nMean scale c1 c2 atol = .ok (fun i => r * ls i, (lib.eigh n A).2) := by
    unfold rescaleAdjacencyMatrix
    have h1 : (c2 && !allClose2 close n n A (tr A)) = false := by
      have : allClose2 close n n A (tr A) = true := by
        unfold allClose2
        simp only [List.all_eq_true, List.mem_range]
        intro i hi j hj
        unfold tr
        rw [hA i hi j hj]; exact hclose _
      rw [this]; simp
    have h2 : (c1 && !(List.range n).all (fun i => decide (ls i ≥ 0))) = false := by
      have : (List.range n).all (fun i => decide (ls i ≥ 0)) = true := by
        simp only [List.all_eq_true, List.mem_range, decide_eq_true_eq]
        intro i hi; exact hnls i hi
      rw [this]; simp
    simp only [← hw, ← hls]
    rw [h1, h2]
    simp only [Bool.false_eq_true, if_false, if_neg hn.ne', bind, Except.bind, pure, Except.pure]
    rw [← hb, hr]
    rfl
  have hrl : ∀ i < n, scale * (r * ls i) < 1 := fun i hi => by
    refine lt_of_le_of_lt ?_ (hbl i hi)
    rw [mul_assoc scale b]
    exact mul_le_mul_of_nonneg_left (mul_le_mul_of_nonneg_right hrb (hnls i hi)) hsc.le
  refine ⟨r, _, _, hrun, hr0, fun i hi => ⟨mul_nonneg hr0 (hnls i hi), hrl i hi⟩, hO, ?_, ?_, ?_⟩
  · have e : (diagonal fun i : Fin n => r * ls i) = r • diagonal fun i : Fin n => w i := by
      rw [← diagonal_smul]; congr 1; ext i; simp [hlsw i i.2]
    rw [e, mul_smul_comm, smul_mul_assoc, he]
  · rw [meanPhotonThermal_eq] at hz
    rw [sub_eq_zero] at hz
    rw [← hz]
    exact Finset.sum_congr rfl fun i _ => by simp only [mul_assoc]
  · intro hpos y hy0 hy1 hym
    have e : meanPhotonThermal n scale y ls = nMean := by
      rw [meanPhotonThermal_eq, ← hym]
      exact Finset.sum_congr rfl fun i hi => by rw [hlsw i (Finset.mem_range.mp hi), mul_assoc]
    have hyb : ∀ i < n, scale * y * ls i < 1 := fun i hi => by
      rw [hlsw i hi]
      exact lt_of_le_of_lt (mul_le_mul_of_nonneg_left (hasc i (n - 1) (by omega) (by omega)) (mul_nonneg hsc.le hy0)) hy1
    have hp : 0 < ls (n - 1) := by rw [hlast]; exact hpos
    rcases lt_trichotomy y r with h | h | h
    · have := meanPhotonThermal_mono n scale hsc ls hnls y r h (fun i hi => by rw [mul_assoc]; exact hrl i hi) (n - 1) (by omega) hp
      linarith
    · exact h
    · have := meanPhotonThermal_mono n scale hsc ls hnls r y h hyb (n - 1) (by omega) hp
      linarith

/-- C77: refused with an assertion: a matrix that is not symmetric, a matrix with a negative eigenvalue. -/
theorem rescale_raises (lib : Lib) (close : ℝ → ℝ → Bool) (n : ℕ) (A : RArr) (nMean scale atol : ℝ) (c1 : Bool) :
    (∀ i < n, ∀ j < n, close (A i j) (A j i) = false → rescaleAdjacencyMatrix lib close n A nMean scale c1 true atol = .error .assertionError) ∧
    (∀ i < n, 0 < atol → (lib.eigh n A).1 i ≤ -atol → ∀ c2, rescaleAdjacencyMatrix lib close n A nMean scale true c2 atol = .error .assertionError) := by
  constructor
  · intro i hi j hj h
    unfold rescaleAdjacencyMatrix
    have : allClose2 close n n A (tr A) = false := by
      rw [Bool.eq_false_iff]
      intro hc
      unfold allClose2 at hc
      simp only [List.all_eq_true, List.mem_range] at hc
      have := hc i hi j hj
      unfold tr at this
      rw [h] at this
      exact absurd this (by simp)
    simp only [this, Bool.not_false, Bool.and_true, if_true]
    rfl
  · intro i hi hat h c2
    unfold rescaleAdjacencyMatrix
    have hall : (List.range n).all (fun i => decide ((if |(lib.eigh n A).1 i| < atol then 0 else (lib.eigh n A).1 i) ≥ 0)) = false := by
      rw [Bool.eq_false_iff]
      intro hc
      simp only [List.all_eq_true, List.mem_range, decide_eq_true_eq] at hc
      have := hc i hi
      rw [if_neg (by rw [abs_of_nonpos (by linarith)]; linarith)] at this
      linarith
    simp only [hall, Bool.not_false, Bool.and_true, if_true]
    split_ifs <;> rfl

/-- the thermal version is the case `scale = 1` -/
theorem rescaleThermal_eq (lib : Lib) (close : ℝ → ℝ → Bool) (n : ℕ) (A : RArr) (nMean atol : ℝ) (c1 c2 : Bool) :
    rescaleAdjacencyMatrixThermal lib close n A nMean c1 c2 atol = rescaleAdjacencyMatrix lib close n A nMean 1 c1 c2 atol := rfl

/-- A concrete case: the identity matrix of two modes, mean photon number 3. -/
example : ∃ (lib : Lib) (x : ℝ) (l : ℕ → ℝ) (O : RArr), rescaleAdjacencyMatrixThermal lib (fun a b => decide (a = b)) 2 eye 3 true true 1e-8 = .ok (l, O) ∧ 0 ≤ x ∧
    ∑ i ∈ Finset.range 2, 1 * l i / (1 - 1 * l i) = 3 := by
  obtain ⟨lib, -, h2, h3⟩ := adjLib_exists
  have hs : (toMatrix 2 2 (eye : RArr)).IsSymm := by rw [toMatrix_eye]; exact transpose_one
  obtain ⟨hO, hasc, he⟩ := h2 2 eye hs
  have hone : ∀ i : Fin 2, (lib.eigh 2 eye).1 i = 1 := by
    intro i
    have hO1 : (toMatrix 2 2 (lib.eigh 2 eye).2)ᵀ * toMatrix 2 2 (lib.eigh 2 eye).2 = 1 := (mem_orthogonalGroup_iff' _ _).mp hO
    have : (diagonal fun i : Fin 2 => (lib.eigh 2 eye).1 i) = 1 := by
      calc (diagonal fun i : Fin 2 => (lib.eigh 2 eye).1 i)
          = ((toMatrix 2 2 (lib.eigh 2 eye).2)ᵀ * toMatrix 2 2 (lib.eigh 2 eye).2) * (diagonal fun i : Fin 2 => (lib.eigh 2 eye).1 i) *
              ((toMatrix 2 2 (lib.eigh 2 eye).2)ᵀ * toMatrix 2 2 (lib.eigh 2 eye).2) := by rw [hO1, Matrix.one_mul, Matrix.mul_one]
        _ = (toMatrix 2 2 (lib.eigh 2 eye).2)ᵀ * (toMatrix 2 2 (lib.eigh 2 eye).2 * (diagonal fun i : Fin 2 => (lib.eigh 2 eye).1 i) *
              (toMatrix 2 2 (lib.eigh 2 eye).2)ᵀ) * toMatrix 2 2 (lib.eigh 2 eye).2 := by simp only [Matrix.mul_assoc]
        _ = 1 := by rw [he, toMatrix_eye, Matrix.mul_one, hO1]
    have h4 := congrFun (congrFun this i) i
    simpa using h4
  have h0 := hone 0
  have h1 := hone 1
  simp only [Fin.isValue, Fin.val_zero, Fin.val_one] at h0 h1
  obtain ⟨x, l, O, hr, hx, -, -, -, hm, -⟩ := rescale_correct lib h2 h3 (fun a b => decide (a = b)) (by simp) 2 (by norm_num) eye (fun i _ j _ => eye_symm i j) 3 1 1e-8
    (by norm_num) (by norm_num) true true (fun i hi => by
      right
      have : i = 0 ∨ i = 1 := by omega
      rcases this with rfl | rfl
      · rw [h0]; norm_num
      · rw [h1]; norm_num) (by norm_num) (by rw [h1]; norm_num)
  exact ⟨lib, x, l, O, hr, hx, hm⟩

end Verif.Props
