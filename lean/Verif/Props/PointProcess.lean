/-
C97: the thermal point process: rescaling and sampling together, and the derivatives handed to the root finder.
-/
import Verif.Props.ThermalSampler
import Verif.Props.Rescale
import Verif.Props.NumberStatistics
import Verif.Model.AdjacencyGrad

set_option linter.style.longLine false
set_option linter.unusedSectionVars false
set_option linter.unusedSimpArgs false

namespace Verif.Props
open Verif.Model Verif.Model.Symp Verif.Model.Conv Verif.Model.Means Verif.Model.Disting Verif.Spec Verif.Lemmas Verif.Lemmas.Symp Verif.Lemmas.Heis Verif.Lemmas.FPar Verif.Lemmas.FockS Verif.Lemmas.GInt Matrix MeasureTheory

/-- the derivative of a sum over `range n` -/
theorem hasDerivAt_list_sum (n : ℕ) (f f' : ℕ → ℝ → ℝ) (x : ℝ) (h : ∀ i < n, HasDerivAt (f i) (f' i x) x) :
    HasDerivAt (fun y => ((List.range n).map fun i => f i y).sum) ((List.range n).map fun i => f' i x).sum x := by
  have e : ∀ g : ℕ → ℝ, ((List.range n).map g).sum = ∑ i ∈ Finset.range n, g i := fun g => by
    rw [← List.sum_toFinset _ List.nodup_range, List.toFinset_range]
  simp only [e]
  exact HasDerivAt.fun_sum fun i hi => h i (Finset.mem_range.mp hi)

/-- **C97** `grad_mean_photon_number` of `adj_scaling` is the derivative of the mean photon number with respect to the scaling, wherever `x ≠ 0` and the mean is defined. -/
theorem gradMeanPhotonNumber_correct (n : ℕ) (x : ℝ) (vals : ℕ → ℝ) (hx : x ≠ 0) (h : ∀ i < n, (x * vals i) ^ 2 ≠ 1) :
    HasDerivAt (fun y => Adj.meanPhotonNumber n y vals) (Adj.gradMeanPhotonNumber n x vals) x := by
  unfold Adj.meanPhotonNumber Adj.gradMeanPhotonNumber
  refine (hasDerivAt_list_sum n (fun i y => (y * vals i) ^ 2 / (1 - (y * vals i) ^ 2)) (fun i y => 2 / y * (vals i * y / (1 - (vals i * y) ^ 2)) ^ 2) x fun i hi => ?_).congr_deriv (by
    rw [List.sum_map_mul_left])
  have h1 : 1 - (x * vals i) ^ 2 ≠ 0 := fun h0 => h i hi (by linarith)
  have hd : HasDerivAt (fun y : ℝ => (y * vals i) ^ 2) (2 * x * vals i ^ 2) x := by
    have := (((hasDerivAt_id x).mul_const (vals i)).pow 2)
    refine this.congr_deriv ?_
    simp
    ring
  refine (hd.fun_div (hd.const_sub 1) h1).congr_deriv ?_
  rw [mul_comm (vals i) x]
  field_simp
  ring

/-- **C97** `grad_mean_photon_number` of `rescale_adjacency_matrix` is the derivative of the mean photon number with respect to the scaling, wherever the mean is defined. -/
theorem gradMeanPhotonThermal_correct (n : ℕ) (scale x : ℝ) (vals : ℕ → ℝ) (h : ∀ i < n, scale * x * vals i ≠ 1) :
    HasDerivAt (fun y => Adj.meanPhotonThermal n scale y vals) (Adj.gradMeanPhotonThermal n scale x vals) x := by
  unfold Adj.meanPhotonThermal Adj.gradMeanPhotonThermal
  refine hasDerivAt_list_sum n (fun i y => scale * y * vals i / (1 - scale * y * vals i)) (fun i y => scale * vals i / (1 - scale * y * vals i) ^ 2) x fun i hi => ?_
  have h1 : 1 - scale * x * vals i ≠ 0 := fun h0 => h i hi (by linarith)
  have hd : HasDerivAt (fun y : ℝ => scale * y * vals i) (scale * vals i) x := by
    refine (((hasDerivAt_id x).const_mul scale).mul_const (vals i)).congr_deriv ?_
    simp
  refine (hd.fun_div (hd.const_sub 1) h1).congr_deriv ?_
  field_simp
  ring

/-- the weight `det(1 - M) per(M_t) / t!` of the pattern `t`, where `M_t` repeats row and column `k` of `M` `t_k` times -/
noncomputable def permWeight {n : ℕ} (M : ℕ → ℕ → ℝ) (t : Fin n → ℕ) : ℝ :=
  (1 - toMatrix n n M).det * (repeatedMatrix M (List.ofFn t)).permanent / ∏ k, ((t k).factorial : ℝ)

/-- **C97** For every positive semidefinite matrix `A` and every admissible mean photon number, the point patterns drawn by `generate_thermal_samples` with the output of
`rescale_adjacency_matrix_thermal(A, n_mean)` are independent, each pattern `t` with probability `det(1 - xA) per((xA)_t)/t!` for a scaling `x ≥ 0`; these numbers are nonnegative, sum to one, and
the mean of the total number of points is `n_mean`. -/
theorem thermal_point_process (lib : Adj.Lib) (heigh : EighContract lib.eigh) (hroot : RootContract lib.rootScalar) (close : ℝ → ℝ → Bool) (hclose : ∀ a, close a a = true)
    (n : ℕ) (hn : 0 < n) (A : RArr) (hA : ∀ i < n, ∀ j < n, A i j = A j i) (nMean atol : ℝ) (hat : 0 < atol) (c1 c2 : Bool)
    (heig : ∀ i < n, (lib.eigh n A).1 i = 0 ∨ atol ≤ (lib.eigh n A).1 i) (h0 : 0 ≤ nMean) (hmax : nMean ≤ (lib.eigh n A).1 (n - 1) / atol) :
    ∃ (x : ℝ) (l : ℕ → ℝ) (O : RArr), Adj.rescaleAdjacencyMatrixThermal lib close n A nMean c1 c2 atol = .ok (l, O) ∧ 0 ≤ x ∧
      (∀ ts : List (Fin n → ℕ), Law.generateThermalSamples n l O ts.length (fun rows => if rows = ts.map List.ofFn then 1 else 0) =
        (ts.map fun t => permWeight (fun i j => x * A i j) t).prod) ∧
      (∀ t : Fin n → ℕ, 0 ≤ permWeight (fun i j => x * A i j) t) ∧ HasSum (fun t : Fin n → ℕ => permWeight (fun i j => x * A i j) t) 1 ∧
      HasSum (fun t : Fin n → ℕ => ((∑ i, t i : ℕ) : ℝ) * permWeight (fun i j => x * A i j) t) nMean := by
  obtain ⟨x, l, O, hr, hx, hl, hO, hOA, hm, -⟩ := rescale_correct lib heigh hroot close hclose n hn A hA nMean 1 atol (by norm_num) hat c1 c2 heig h0 (by rw [one_mul]; exact hmax)
  have hls : ∀ k < n, 0 ≤ l k ∧ l k < 1 := fun k hk => ⟨(hl k hk).1, by have := (hl k hk).2; linarith⟩
  have ha : toMatrix n n (fun i j => x * A i j) = toMatrix n n O * diagonal (fun k : Fin n => l k) * (toMatrix n n O)ᵀ := by
    rw [hOA]; ext i j; simp [toMatrix]
  have hdet : (1 - toMatrix n n fun i j => x * A i j).det = ∏ k : Fin n, (1 - l k) := by
    have h1 : toMatrix n n O * (toMatrix n n O)ᵀ = 1 := (mem_orthogonalGroup_iff _ _).mp hO
    have e : (1 - toMatrix n n fun i j => x * A i j) = toMatrix n n O * diagonal (fun k : Fin n => 1 - l k) * (toMatrix n n O)ᵀ := by
      rw [ha, show (diagonal fun k : Fin n => 1 - l k) = 1 - diagonal fun k : Fin n => l k by
        rw [← diagonal_one, diagonal_sub], Matrix.mul_sub, Matrix.sub_mul, Matrix.mul_one, h1]
    rw [e, det_mul, det_mul, mul_right_comm, ← det_mul, h1, det_one, one_mul, det_diagonal]
  have hh : (0 : ℝ) < 2 := by norm_num
  obtain ⟨cov, hcov⟩ := exists_cov (N := n) ((2 / 2 : ℝ) • 1 + (2 : ℝ) • fromBlocks (thermalK n l O) 0 0 (thermalK n l O))
  have hph := (thermal_classical hh l hls O cov hcov).1
  obtain ⟨ρ, _, _, -, hρ, -⟩ := fock_gram (N := n) (fun _ => 0) hh hph
  have hw : ∀ t : Fin n → ℕ, (ρ t t).re = permWeight (fun i j => x * A i j) t := fun t => by
    rw [thermal_perm hh l hls O hO cov hcov ρ hρ _ ha t, Complex.ofReal_re, permWeight, hdet]
  refine ⟨x, l, O, hr, hx, fun ts => ?_, fun t => ?_, ?_, ?_⟩
  · rw [generateThermalSamples_prob l hls O hO _ ha ts]
    simp only [permWeight, hdet]
  · rw [← hw]; exact ((fock_isPsd hh hph hρ).diag t).1
  · have := Complex.hasSum_re (fockMatrix_trace hh hph hρ)
    simp only [hw, Complex.one_re] at this
    exact this
  · have hone : ∀ j : Fin n, HasSum (fun t : Fin n → ℕ => (t j : ℝ) * permWeight (fun i j => x * A i j) t) (thermalK n l O j j) := by
      intro j
      obtain ⟨v, e, hv⟩ := photonNumberMean_fock hh ⟨2 * n, fun _ => 0, cov⟩ rfl hph ρ hρ j
      simp only [hw] at hv
      have hv2 : v = thermalK n l O j j := by
        unfold photonNumberMean at e
        dsimp only at e
        have hj := j.2
        have h2 : 2 * n / 2 = n := by omega
        rw [h2, if_neg (by omega), Except.ok.injEq] at e
        have c1 : cov j j = 1 + 2 * thermalK n l O j j := by
          have := congrFun (congrFun hcov (Sum.inl j)) (Sum.inl j)
          simpa [phase, quad] using this
        have c2 : cov (j + n) (j + n) = 1 + 2 * thermalK n l O j j := by
          have := congrFun (congrFun hcov (Sum.inr j)) (Sum.inr j)
          rw [add_comm (j : ℕ) n]
          simpa [phase, quad] using this
        rw [c1, c2] at e
        rw [← e]
        ring
      rw [← hv2]
      exact hv
    have hs := hasSum_sum (s := Finset.univ) fun j _ => hone j
    have htr : ∑ j : Fin n, thermalK n l O j j = nMean := by
      change (thermalK n l O).trace = nMean
      have h1 : (toMatrix n n O)ᵀ * toMatrix n n O = 1 := (mem_orthogonalGroup_iff' _ _).mp hO
      rw [thermalK, Matrix.trace_mul_cycle, h1, Matrix.one_mul, Matrix.trace_diagonal, ← hm, Finset.sum_range]
      simp only [one_mul]
    rw [htr] at hs
    refine hs_eq hs (fun t => ?_) rfl
    rw [Nat.cast_sum, Finset.sum_mul]

/-- A concrete case: two sites, `A` the identity, on average three points; and the derivative at `x = 1/2`. -/
example : (∃ (lib : Adj.Lib) (x : ℝ) (l : ℕ → ℝ) (O : RArr), Adj.rescaleAdjacencyMatrixThermal lib (fun a b => decide (a = b)) 2 eye 3 true true 1e-8 = .ok (l, O) ∧
      HasSum (fun t : Fin 2 → ℕ => ((∑ i, t i : ℕ) : ℝ) * permWeight (fun i j => x * eye i j) t) 3) ∧
    HasDerivAt (fun y => Adj.meanPhotonNumber 2 y fun i => if i = 0 then 1 else 1 / 2) (Adj.gradMeanPhotonNumber 2 (1 / 2) fun i => if i = 0 then 1 else 1 / 2) (1 / 2) := by
  constructor
  · obtain ⟨lib, -, h2, h3⟩ := adjLib_exists
    have hs : (toMatrix 2 2 (eye : RArr)).IsSymm := by rw [toMatrix_eye]; exact transpose_one
    obtain ⟨hO, hasc, he⟩ := h2 2 eye hs
    have hone : ∀ i : Fin 2, (lib.eigh 2 eye).1 i = 1 := by
      intro i
      have hO1 : (toMatrix 2 2 (lib.eigh 2 eye).2)ᵀ * toMatrix 2 2 (lib.eigh 2 eye).2 = 1 := (mem_orthogonalGroup_iff' _ _).mp hO
      have : (diagonal fun i : Fin 2 => (lib.eigh 2 eye).1 i) = 1 := by
        calc (diagonal fun i : Fin 2 => (lib.eigh 2 eye).1 i)
            = ((toMatrix 2 2 (lib.eigh 2 eye).2)ᵀ * toMatrix 2 2 (lib.eigh 2 eye).2) * (diagonal fun i : Fin 2 => (lib.eigh 2 eye).1 i) *
                ((toMatrix 2 2 (lib.eigh 2 eye).2)ᵀ * toMatrix 2 2 (lib.eigh 2 eye).2) := by rw [hO1, Matrix.one_mul, Matrix.mul_one]
          _ = (toMatrix 2 2 (lib.eigh 2 eye).2)ᵀ * (toMatrix 2 2 (lib.eigh 2 eye).2 * (diagonal fun i : Fin 2 => (lib.eigh 2 eye).1 i) *
                (toMatrix 2 2 (lib.eigh 2 eye).2)ᵀ) * toMatrix 2 2 (lib.eigh 2 eye).2 := by simp only [Matrix.mul_assoc]
          _ = 1 := by rw [he, toMatrix_eye, Matrix.mul_one, hO1]
      have h4 := congrFun (congrFun this i) i
      simpa using h4
    have h0 := hone 0
    have h1 := hone 1
    simp only [Fin.isValue, Fin.val_zero, Fin.val_one] at h0 h1
    obtain ⟨x, l, O, hr, -, -, -, -, hm⟩ := thermal_point_process lib h2 h3 (fun a b => decide (a = b)) (by simp) 2 (by norm_num) eye (fun i _ j _ => eye_symm i j) 3 1e-8
      (by norm_num) true true (fun i hi => by
        right
        have : i = 0 ∨ i = 1 := by omega
        rcases this with rfl | rfl
        · rw [h0]; norm_num
        · rw [h1]; norm_num) (by norm_num) (by rw [h1]; norm_num)
    exact ⟨lib, x, l, O, hr, hm⟩
  · refine gradMeanPhotonNumber_correct 2 _ _ (by norm_num) fun i _ => ?_
    split_ifs <;> norm_num

end Verif.Props
