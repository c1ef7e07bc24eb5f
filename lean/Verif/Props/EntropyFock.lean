/-
C65, C66: `vonneumann_entropy` is the entropy of the eigenvalues of the density matrix.
-/
import Verif.Props.GaussianEvolution
import Verif.Spec.FockEntropy

set_option linter.unusedSectionVars false
set_option linter.unusedSimpArgs false

namespace Verif.Props
open Verif.Model Verif.Model.Symp Verif.Model.Conv Verif.Model.Fock Verif.Model.Ent Verif.Model.Dec Verif.Spec Verif.Lemmas Verif.Lemmas.Symp Verif.Lemmas.Heis Verif.Lemmas.FPar Matrix

/-- the entropy of the photon-number distribution of a thermal state -/
theorem thermal_shannon (n : ℝ) (h : 0 ≤ n) : HasSum (fun k => -(thermalProb n k * Real.log (thermalProb n k))) (thermalEntropy n) := by
  rcases h.eq_or_lt with rfl | hn
  · have : ∀ k, -(thermalProb 0 k * Real.log (thermalProb 0 k)) = 0 := by
      intro k
      unfold thermalProb
      rcases k with _ | k <;> simp
    rw [funext this, thermalEntropy_zero]
    exact hasSum_zero
  have h1 : 0 < n + 1 := by linarith
  have hlt : n / (n + 1) < 1 := by rw [div_lt_one h1]; linarith
  have hl : ∀ k, Real.log (thermalProb n k) = k * Real.log n - (k + 1) * Real.log (n + 1) := by
    intro k
    rw [thermalProb, Real.log_div (by positivity) (by positivity), Real.log_pow, Real.log_pow]
    push_cast; ring
  have hm := hasSum_coe_mul_geometric_of_norm_lt_one (𝕜 := ℝ) (r := n / (n + 1)) (by rwa [Real.norm_of_nonneg (by positivity)])
  have hm2 := hm.mul_left (1 / (n + 1))
  have e : 1 / (n + 1) * (n / (n + 1) / (1 - n / (n + 1)) ^ 2) = n := by
    have : 1 - n / (n + 1) = 1 / (n + 1) := by field_simp; ring
    rw [this]; field_simp
  rw [e] at hm2
  have hm3 : HasSum (fun k : ℕ => (k : ℝ) * thermalProb n k) n := by
    refine hm2.congr_fun fun k => ?_
    rw [thermalProb, div_pow, pow_succ]; field_simp
  have hm4 := (hm3.mul_right (Real.log (n + 1) - Real.log n)).add ((thermalProb_sum n h).mul_right (Real.log (n + 1)))
  have e2 : n * (Real.log (n + 1) - Real.log n) + 1 * Real.log (n + 1) = thermalEntropy n := by unfold thermalEntropy; ring
  rw [e2] at hm4
  refine hm4.congr_fun fun k => ?_
  rw [hl k]; ring

/-- `-q log q` of a product -/
theorem negMulLog_prod {ι : Type} [Fintype ι] [DecidableEq ι] (q : ι → ℝ) : -((∏ k, q k) * Real.log (∏ k, q k)) = ∑ k', ∏ k, if k = k' then -(q k * Real.log (q k)) else q k := by
  by_cases h0 : ∀ k, q k ≠ 0
  · rw [Real.log_prod fun k _ => h0 k, Finset.mul_sum, ← Finset.sum_neg_distrib]
    refine Finset.sum_congr rfl fun k' _ => ?_
    rw [← Finset.mul_prod_erase _ _ (Finset.mem_univ k'), ← Finset.mul_prod_erase Finset.univ (fun k => if k = k' then -(q k * Real.log (q k)) else q k) (Finset.mem_univ k'), if_pos rfl,
      Finset.prod_congr rfl fun k hk => if_neg (Finset.ne_of_mem_erase hk)]
    ring
  · push Not at h0
    obtain ⟨k0, hk0⟩ := h0
    rw [Finset.prod_eq_zero (Finset.mem_univ k0) hk0, zero_mul, neg_zero, Finset.sum_eq_zero]
    intro k' _
    refine Finset.prod_eq_zero (Finset.mem_univ k0) ?_
    rw [hk0]; simp

theorem thermal_shannon_pi {l : ℕ} (n : Fin l → ℝ) (h : ∀ k, 0 ≤ n k) :
    HasSum (fun m : Fin l → ℕ => -((∏ k, thermalProb (n k) (m k)) * Real.log (∏ k, thermalProb (n k) (m k)))) (∑ k, thermalEntropy (n k)) := by
  have h1 : ∀ k', HasSum (fun m : Fin l → ℕ => ∏ k, if k = k' then -(thermalProb (n k) (m k) * Real.log (thermalProb (n k) (m k))) else thermalProb (n k) (m k)) (thermalEntropy (n k')) := by
    intro k'
    have h2 := hasSum_pi_prod (ι := Fin l) (f := fun k m => ((if k = k' then -(thermalProb (n k) m * Real.log (thermalProb (n k) m)) else thermalProb (n k) m : ℝ) : ℂ))
      (a := fun k => ((if k = k' then thermalEntropy (n k) else 1 : ℝ) : ℂ)) fun k => by
        rw [Complex.hasSum_ofReal]
        by_cases hk : k = k'
        · simp only [if_pos hk]; exact thermal_shannon (n k) (h k)
        · simp only [if_neg hk]; exact thermalProb_sum (n k) (h k)
    rw [← Complex.ofReal_prod, Finset.prod_ite_eq' Finset.univ k' (fun k => thermalEntropy (n k)), if_pos (Finset.mem_univ k')] at h2
    refine Complex.hasSum_ofReal.mp (h2.congr_fun fun m => ?_)
    push_cast; rfl
  refine (hasSum_sum fun k' _ => h1 k').congr_fun fun m => ?_
  exact negMulLog_prod fun k => thermalProb (n k) (m k)

section unique
variable {I : Type} [DecidableEq I] {ρ : I → I → ℂ} {p q : I → ℝ} {V W : I → I → ℂ}

/-- the adjoint matrix -/
theorem tsum_adj (hV : IsUnitaryFock V) (m b : I) : ∑' x, (starRingEnd ℂ) (V x m) * V x b = if m = b then 1 else 0 := (hV.cols m b).tsum_eq

/-- eigenvectors of different eigenvalues are orthogonal -/
theorem spectral_overlap (h : IsSpectral ρ p V) (h' : IsSpectral ρ q W) (m n : I) : (p m : ℂ) * ∑' x, (starRingEnd ℂ) (V x m) * W x n = q n * ∑' x, (starRingEnd ℂ) (V x m) * W x n := by
  have hVa := adjoint_unitary h.unitary
  have hWa := adjoint_unitary h'.unitary
  have ec : (starRingEnd ℂ) (∑' x, (starRingEnd ℂ) (W x n) * V x m) = ∑' x, (starRingEnd ℂ) (V x m) * W x n := by
    rw [Complex.conj_tsum]
    refine tsum_congr fun x => ?_
    rw [map_mul, Complex.conj_conj, mul_comm]
  have e1 := mixture_mul₂ hVa hWa h.unitary p h.nonneg h.total.summable ρ h.expand m n ((p m : ℂ) * ∑' x, (starRingEnd ℂ) (V x m) * W x n) (by
    have hs := hasSum_ite_eq m ((p m : ℂ) * ∑' x, (starRingEnd ℂ) (V x m) * W x n)
    refine hs.congr_fun fun b => ?_
    rw [tsum_adj h.unitary m b]
    by_cases hb : b = m
    · subst hb
      rw [if_pos rfl, if_pos rfl, one_mul, ec]
    · rw [if_neg hb, if_neg (Ne.symm hb), zero_mul, mul_zero])
  have e2 := mixture_mul₂ hVa hWa h'.unitary q h'.nonneg h'.total.summable ρ h'.expand m n ((q n : ℂ) * ∑' x, (starRingEnd ℂ) (V x m) * W x n) (by
    have hs := hasSum_ite_eq n ((q n : ℂ) * ∑' x, (starRingEnd ℂ) (V x m) * W x n)
    refine hs.congr_fun fun b => ?_
    rw [tsum_adj h'.unitary n b]
    by_cases hb : b = n
    · subst hb
      rw [if_pos rfl, if_pos rfl, map_one, mul_one]
    · rw [if_neg hb, if_neg (Ne.symm hb), map_zero, mul_zero, mul_zero])
  exact e1.unique e2

/-- squared overlaps of two orthonormal bases sum to one -/
theorem overlap_sum (hV : IsUnitaryFock V) (hW : IsUnitaryFock W) :
    (∀ m, HasSum (fun n => ‖∑' x, (starRingEnd ℂ) (V x m) * W x n‖ ^ 2) 1) ∧ ∀ n, HasSum (fun m => ‖∑' x, (starRingEnd ℂ) (V x m) * W x n‖ ^ 2) 1 := by
  have h := mul_unitary (adjoint_unitary hV) hW
  refine ⟨fun m => ?_, fun n => ?_⟩
  · have h1 := h.rows m m
    rw [if_pos rfl, ← Complex.ofReal_one] at h1
    refine Complex.hasSum_ofReal.mp (h1.congr_fun fun n => ?_)
    rw [Complex.conj_mul']; push_cast; rfl
  · have h1 := h.cols n n
    rw [if_pos rfl, ← Complex.ofReal_one] at h1
    refine Complex.hasSum_ofReal.mp (h1.congr_fun fun n => ?_)
    rw [Complex.conj_mul']; push_cast; rfl

/-- a doubly stochastic matrix that intertwines two functions -/
theorem doubly_sum (B : I → I → ℝ) (hB : ∀ m n, 0 ≤ B m n) (o1 : ∀ m, HasSum (fun n => B m n) 1) (o2 : ∀ n, HasSum (fun m => B m n) 1) (f g : I → ℝ) (hf : ∀ m, 0 ≤ f m)
    (hfg : ∀ m n, B m n * f m = B m n * g n) (s t : ℝ) (hs : HasSum f s) (ht : HasSum g t) : s = t := by
  have hx : ∀ m, HasSum (fun n => B m n * f m) (f m) := fun m => by
    have := (o1 m).mul_right (f m)
    rwa [one_mul] at this
  have hx2 : (fun m => ∑' n, B m n * f m) = f := funext fun m => (hx m).tsum_eq
  have hsum : Summable fun y : I × I => B y.1 y.2 * f y.1 := by
    refine (summable_prod_of_nonneg (f := fun y : I × I => B y.1 y.2 * f y.1) fun y => mul_nonneg (hB _ _) (hf _)).mpr ⟨fun m => (hx m).summable, ?_⟩
    show Summable (fun m => ∑' n, B m n * f m)
    rw [hx2]
    exact hs.summable
  have hT := hsum.hasSum
  have e1 := hT.prod_fiberwise (g := f) hx
  have e2 := ((Equiv.prodComm I I).hasSum_iff.mpr hT).prod_fiberwise (g := g) fun n => by
    have := (o2 n).mul_right (g n)
    rw [one_mul] at this
    exact this.congr_fun fun m => hfg m n
  exact (e1.unique hs).symm.trans (e2.unique ht)

/-- sums of a function of the eigenvalues are determined by the density matrix -/
theorem spectral_sum (h : IsSpectral ρ p V) (h' : IsSpectral ρ q W) (f : ℝ → ℝ) (hf : ∀ m, 0 ≤ f (p m)) (s t : ℝ) (hs : HasSum (fun m => f (p m)) s) (ht : HasSum (fun n => f (q n)) t) : s = t := by
  obtain ⟨o1, o2⟩ := overlap_sum h.unitary h'.unitary
  refine doubly_sum (fun m n => ‖∑' x, (starRingEnd ℂ) (V x m) * W x n‖ ^ 2) (fun m n => by positivity) o1 o2 (fun m => f (p m)) (fun n => f (q n)) hf (fun m n => ?_) s t hs ht
  have e := spectral_overlap h h' m n
  by_cases h0 : ∑' x, (starRingEnd ℂ) (V x m) * W x n = 0
  · rw [h0]; simp
  · have := mul_right_cancel₀ h0 e
    rw [Complex.ofReal_inj.mp this]

/-- the entropy is determined by the density matrix -/
theorem entropy_unique {s t : ℝ} (h : HasEntropy ρ s) (h' : HasEntropy ρ t) : s = t := by
  obtain ⟨p, V, h1, h2⟩ := h
  obtain ⟨q, W, h3, h4⟩ := h'
  refine spectral_sum h1 h3 (fun x => -(x * Real.log x)) (fun m => ?_) s t h2 h4
  have hle : p m ≤ 1 := le_hasSum h1.total m fun k _ => h1.nonneg k
  have := Real.mul_log_nonpos (h1.nonneg m) hle
  linarith

end unique

variable {N : ℕ}

/-- the entropy of a Gaussian state is the sum of the entropies of thermal states -/
theorem gaussian_entropy (mu : ℕ → ℝ) (cov : ℕ → ℕ → ℝ) (hbar : ℝ) (hh : 0 < hbar) (ν : Fin N → ℝ) (hν : ∀ k, 1 ≤ ν k) (hsp : SympSpectrum ((2 / hbar) • phase N N cov) ν)
    (ρ : (Fin N → ℕ) → (Fin N → ℕ) → ℂ) (hρ : IsFockMatrix N mu cov hbar ρ) : HasEntropy ρ (∑ i, thermalEntropy ((ν i - 1) / 2)) := by
  obtain ⟨-, T, hT, hTν⟩ := hsp
  have hcovT : phase N N cov = (hbar / 2) • (T * diagonal (Sum.elim ν ν) * Tᵀ) := by
    rw [← hTν, smul_smul]
    have : hbar / 2 * (2 / hbar) = 1 := by field_simp
    rw [this, one_smul]
  obtain ⟨V, hV⟩ := gaussianUnitary_exists hT (fun k => complexToReal N mu hbar k)
  have hn : ∀ k, 0 ≤ (ν k - 1) / 2 := fun k => by linarith [hν k]
  refine ⟨fun m => ∏ k, thermalProb ((ν k - 1) / 2) (m k), V, ⟨hV.unitary, ?_, fun m => Finset.prod_nonneg fun k _ => thermalProb_nonneg _ (hn k) _, thermal_summable _ hn⟩,
    thermal_shannon_pi _ hn⟩
  exact gaussian_thermal hT hV hbar hh ν hν mu cov hcovT (mean_amp hh fun _ => rfl) ρ hρ

/-- **C65** `vonneumann_entropy` of a physical covariance matrix returns `- Tr ρ log ρ`, for the density matrix `ρ` of any Gaussian state with this covariance matrix. -/
theorem vonneumannEntropy_fock (eigvals : ℕ → RArr → ℕ → ℂ) (he : EigvalsContract eigvals) (close : ℝ → ℝ → Bool) (hc : ∀ x y, close x y = true ↔ x = y) (mu : ℕ → ℝ) (cov : RArr) (hbar : ℝ)
    (hh : 0 < hbar) (hph : Physical (phase N N cov) hbar) (ρ : (Fin N → ℕ) → (Fin N → ℕ) → ℂ) (hρ : IsFockMatrix N mu cov hbar ρ) :
    ∃ s, vonneumannEntropy eigvals close 0 (2 * N) (2 * N) cov hbar = .ok s ∧ HasEntropy ρ s := by
  obtain ⟨ν, hsp, hν⟩ := sympSpectrum_physical _ hbar hh hph
  exact ⟨_, vonneumannEntropy_correct eigvals he close hc cov hbar hph ν hsp, gaussian_entropy mu cov hbar hh ν hν hsp ρ hρ⟩

/-- **C66** `entanglement_entropy` of a pure state returns the entropy of the reduced density matrix of the listed modes. -/
theorem entanglementEntropy_fock (eigvals : ℕ → RArr → ℕ → ℂ) (he : EigvalsContract eigvals) (close : ℝ → ℝ → Bool) (hc : ∀ x y, close x y = true ↔ x = y) (mu : ℕ → ℝ) (cov : RArr) (hbar : ℝ)
    (hh : 0 < hbar) (hph : Physical (phase N N cov) hbar) (hpure : ((2 / hbar) • phase N N cov).det = 1) (a : ModesArg) (sp : Option PyInt) (l : List ℕ)
    (hl : getPartition a sp N = .ok l) (hne : l ≠ []) (hlen : l.length ≠ N) (hnd : l.Nodup) (ρ : (Fin N → ℕ) → (Fin N → ℕ) → ℂ) (hρ : IsFockMatrix N mu cov hbar ρ) :
    ∃ s ρ', entanglementEntropy eigvals close 0 (2 * N) (2 * N) cov a sp hbar = .ok s ∧
      IsPartialTrace (fun a : Fin l.length => ⟨l[a], getPartition_range _ _ _ _ hl _ (List.getElem_mem _)⟩) ρ ρ' ∧ HasEntropy ρ' s := by
  have h := entanglementEntropy_correct eigvals he close hc cov hbar hh hph hpure a sp l hl hne hlen hnd
  dsimp only at h
  obtain ⟨ν, hsp, hν, hr⟩ := h
  have hfe : (fun a : Fin l.length => (⟨l.getD a 0, getPartition_range _ _ _ _ hl _ (by rw [List.getD_eq_getElem _ _ a.2]; exact List.getElem_mem _)⟩ : Fin N)) =
      fun a : Fin l.length => ⟨l[a], getPartition_range _ _ _ _ hl _ (List.getElem_mem _)⟩ := by
    funext a
    exact Fin.ext (List.getD_eq_getElem _ _ a.2)
  rw [hfe] at hsp
  generalize hf : (fun a : Fin l.length => (⟨l[a], getPartition_range _ _ _ _ hl _ (List.getElem_mem _)⟩ : Fin N)) = f at *
  have hinj : Function.Injective f := by
    intro x y hxy
    rw [← hf] at hxy
    exact Fin.ext ((hnd.getElem_inj_iff).mp (congrArg Fin.val hxy))
  obtain ⟨ρ', h1, h2⟩ := fock_partialTrace f hinj hh hph hρ
  obtain ⟨cov', hcov'⟩ := exists_cov ((phase N N cov).submatrix (Sum.map f f) (Sum.map f f))
  obtain ⟨mu', hmu'⟩ : ∃ mu', phaseVec l.length mu' = resV (phaseVec N mu) f :=
    ⟨fun x => if hx : x < 2 * l.length then resV (phaseVec N mu) f ((quadEquiv l.length).symm ⟨x, hx⟩) else 0, funext fun p => by
      have e : (⟨quad l.length p, quad_lt l.length p⟩ : Fin (2 * l.length)) = quadEquiv l.length p := rfl
      simp [phaseVec, quad_lt, e]⟩
  have hmapinj : Function.Injective (Sum.map f f) := Sum.map_injective.mpr ⟨hinj, hinj⟩
  have h3 : IsFockMatrix l.length mu' cov' hbar ρ' := by
    rw [isFock_iff, hcov', hmu']
    have e2 : (phase N N cov).submatrix (Sum.map f f) (Sum.map f f) + (hbar / 2) • 1 = resM (phase N N cov + (hbar / 2) • 1) f := by
      unfold resM
      ext p q
      simp only [Matrix.add_apply, Matrix.submatrix_apply, Matrix.smul_apply, Matrix.one_apply, hmapinj.eq_iff]
    rw [e2]
    exact h2
  refine ⟨_, ρ', hr, h1, gaussian_entropy mu' cov' hbar hh ν hν ?_ ρ' h3⟩
  rw [hcov']
  exact hsp

/-- the hypotheses of `vonneumannEntropy_fock` and `entanglementEntropy_fock` hold for the two-mode squeezed vacuum -/
example (eigvals : ℕ → RArr → ℕ → ℂ) (he : EigvalsContract eigvals) (close : ℝ → ℝ → Bool) (hc : ∀ x y, close x y = true ↔ x = y) :
    ∃ ρ s, IsFockMatrix 2 (fun _ => 0) tmsExample 2 ρ ∧ vonneumannEntropy eigvals close 0 4 4 tmsExample 2 = .ok s ∧ HasEntropy ρ s := by
  have hph : Physical (phase 2 2 tmsExample) 2 := (physical_iff_spectrum _ 2 (by norm_num) _ tmsExample_spec).mpr fun _ => by norm_num
  obtain ⟨ρ, pref, P, -, hρ, -⟩ := fock_gram (N := 2) (fun _ => 0) (by norm_num : (0 : ℝ) < 2) hph
  obtain ⟨s, h1, h2⟩ := vonneumannEntropy_fock eigvals he close hc (fun _ => 0) tmsExample 2 (by norm_num) hph ρ hρ
  exact ⟨ρ, s, hρ, h1, h2⟩

end Verif.Props
