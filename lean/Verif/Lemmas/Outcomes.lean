/-
Outcomes of photon counting and heterodyne detection on pure Gaussian states.
-/
import Verif.Spec.Outcomes
import Verif.Lemmas.PartialSeries
import Mathlib.Analysis.Complex.Basic

set_option linter.unusedSectionVars false
set_option linter.unusedSimpArgs false

namespace Verif.Lemmas.Outc
open Verif.Model Verif.Spec Verif.Lemmas Verif.Lemmas.GaussS Verif.Lemmas.FockS Verif.Lemmas.PSer

/-- the loop weights that remain when the modes `m, …, N - 1` are projected on coherent states -/
noncomputable def gammaRest (A : ℕ → ℕ → ℂ) (γ α : ℕ → ℂ) (m N : ℕ) (i : ℕ) : ℂ := γ i + ∑ j ∈ Finset.Ico m N, A i j * α j

theorem mixAmp_append {m r : ℕ} (n : ℕ → ℕ) (α : ℕ → ℂ) (k : Fin r → ℕ) :
    mixAmp m n α (Fin.append (fun i : Fin m => n i) k) = (∏ j : Fin r, (Real.exp (-Complex.normSq (α (m + j)) / 2) : ℝ)) *
      (starRingEnd ℂ) (∏ j : Fin r, α (m + j) ^ k j) / (Real.sqrt (∏ j : Fin r, ((k j).factorial : ℝ)) : ℝ) := by
  unfold mixAmp
  rw [Fin.prod_univ_add]
  have h1 : ∀ i : Fin m, (if ((Fin.castAdd r i : Fin (m + r)) : ℕ) < m then
      (if Fin.append (fun i : Fin m => n i) k (Fin.castAdd r i) = n (Fin.castAdd r i : Fin (m + r)) then (1 : ℂ) else 0)
      else (Real.exp (-Complex.normSq (α (Fin.castAdd r i : Fin (m + r))) / 2) : ℝ) *
        ((starRingEnd ℂ) (α (Fin.castAdd r i : Fin (m + r))) ^ Fin.append (fun i : Fin m => n i) k (Fin.castAdd r i) /
          (Real.sqrt (Fin.append (fun i : Fin m => n i) k (Fin.castAdd r i)).factorial : ℝ))) = 1 := by
    intro i; simp
  have h2 : ∀ j : Fin r, (if ((Fin.natAdd m j : Fin (m + r)) : ℕ) < m then
      (if Fin.append (fun i : Fin m => n i) k (Fin.natAdd m j) = n (Fin.natAdd m j : Fin (m + r)) then (1 : ℂ) else 0)
      else (Real.exp (-Complex.normSq (α (Fin.natAdd m j : Fin (m + r))) / 2) : ℝ) *
        ((starRingEnd ℂ) (α (Fin.natAdd m j : Fin (m + r))) ^ Fin.append (fun i : Fin m => n i) k (Fin.natAdd m j) /
          (Real.sqrt (Fin.append (fun i : Fin m => n i) k (Fin.natAdd m j)).factorial : ℝ))) =
        (Real.exp (-Complex.normSq (α (m + j)) / 2) : ℝ) * ((starRingEnd ℂ) (α (m + j) ^ k j) / (Real.sqrt (k j).factorial : ℝ)) := by
    intro j
    rw [if_neg (by simp)]
    simp
  rw [Finset.prod_congr rfl fun i _ => h1 i, Finset.prod_congr rfl fun j _ => h2 j, Finset.prod_const_one, one_mul, Finset.prod_mul_distrib,
    Finset.prod_div_distrib, map_prod, Real.sqrt_eq_rpow, ← Real.finsetProd_rpow _ _ (fun _ _ => by positivity)]
  push_cast
  simp only [Real.sqrt_eq_rpow, mul_div_assoc]

theorem mixAmp_zero {m r : ℕ} (n : ℕ → ℕ) (α : ℕ → ℂ) (a : Fin (m + r) → ℕ)
    (h : a ∉ Set.range fun k : Fin r → ℕ => Fin.append (fun i : Fin m => n i) k) : mixAmp m n α a = 0 := by
  by_contra hne
  apply h
  refine ⟨fun j => a (Fin.natAdd m j), ?_⟩
  unfold mixAmp at hne
  rw [← ne_eq, Finset.prod_ne_zero_iff] at hne
  funext i
  refine Fin.addCases (fun i => ?_) (fun j => ?_) i
  · have := hne (Fin.castAdd r i) (Finset.mem_univ _)
    rw [if_pos (by simp)] at this
    beta_reduce
    rw [Fin.append_left]
    by_contra h2
    rw [if_neg (fun e => h2 (by rw [e]; rfl))] at this
    exact this rfl
  · beta_reduce; rw [Fin.append_right]

theorem ofFn_append {m r : ℕ} (n : ℕ → ℕ) (k : Fin r → ℕ) :
    List.ofFn (Fin.append (fun i : Fin m => n i) k) = (List.range m).map n ++ List.ofFn k := by
  rw [List.ofFn_fin_append]
  congr 1
  rw [List.ofFn_eq_map]
  apply List.ext_getElem <;> simp

/-- The Gaussian factor of the projection of the modes `m, …, m + r - 1` on coherent states. -/
noncomputable def gaussFactor (A : ℕ → ℕ → ℂ) (γ α : ℕ → ℂ) (m r : ℕ) : ℂ :=
  Complex.exp (qd (fun i j => A (m + i) (m + j)) (fun j : Fin r => α (m + j)) / 2 + ln (fun i => γ (m + i)) (fun j : Fin r => α (m + j)))

theorem mix_term {m r : ℕ} (A : ℕ → ℕ → ℂ) (γ : ℕ → ℂ) (n : ℕ → ℕ) (α : ℕ → ℂ) (k : Fin r → ℕ) :
    mixAmp m n α (Fin.append (fun i : Fin m => n i) k) *
      ((starRingEnd ℂ) (lh γ A (repeatedIndices (List.ofFn (Fin.append (fun i : Fin m => n i) k)))) /
        (Real.sqrt (∏ i, ((Fin.append (fun i : Fin m => n i) k i).factorial : ℝ)) : ℝ)) =
    (∏ j : Fin r, (Real.exp (-Complex.normSq (α (m + j)) / 2) : ℝ)) / (Real.sqrt (∏ i : Fin m, ((n i).factorial : ℝ)) : ℝ) *
      (starRingEnd ℂ) (lh γ A (repeatedIndices ((List.range m).map n) ++ shiftRep m k) * mono (fun j : Fin r => α (m + j)) k) := by
  rw [mixAmp_append, ofFn_append, repeatedIndices_append, List.length_map, List.length_range, Fin.prod_univ_add]
  simp only [Fin.append_left, Fin.append_right]
  rw [Real.sqrt_mul (by positivity), map_mul]
  unfold shiftRep mono
  rw [Finset.prod_div_distrib, map_div₀]
  have h3 : (starRingEnd ℂ) (∏ j : Fin r, ((k j).factorial : ℂ)) =
      ((Real.sqrt (∏ j : Fin r, ((k j).factorial : ℝ)) : ℝ) : ℂ) * ((Real.sqrt (∏ j : Fin r, ((k j).factorial : ℝ)) : ℝ) : ℂ) := by
    rw [← Complex.ofReal_mul, Real.mul_self_sqrt (by positivity)]
    push_cast
    rw [map_prod]
    simp
  rw [h3]
  have h4 : ((Real.sqrt (∏ j : Fin r, ((k j).factorial : ℝ)) : ℝ) : ℂ) ≠ 0 := by
    rw [Complex.ofReal_ne_zero]; exact (Real.sqrt_pos.mpr (by positivity)).ne'
  have h5 : ((Real.sqrt (∏ i : Fin m, ((n i).factorial : ℝ)) : ℝ) : ℂ) ≠ 0 := by
    rw [Complex.ofReal_ne_zero]; exact (Real.sqrt_pos.mpr (by positivity)).ne'
  push_cast
  field_simp

theorem mix_hasSum {m r : ℕ} (A : ℕ → ℕ → ℂ) (γ : ℕ → ℂ) (hA : ∀ i < m + r, ∀ j < m + r, A i j = A j i) (n : ℕ → ℕ) (α : ℕ → ℂ) :
    HasSum (fun a : Fin (m + r) → ℕ => mixAmp m n α a *
        ((starRingEnd ℂ) (lh γ A (repeatedIndices (List.ofFn a))) / (Real.sqrt (∏ i, ((a i).factorial : ℝ)) : ℝ)))
      ((∏ j : Fin r, (Real.exp (-Complex.normSq (α (m + j)) / 2) : ℝ)) / (Real.sqrt (∏ i : Fin m, ((n i).factorial : ℝ)) : ℝ) *
        (starRingEnd ℂ) (gaussFactor A γ α m r * lh (gammaRest A γ α m (m + r)) A (repeatedIndices ((List.range m).map n)))) := by
  have hinj : Function.Injective fun k : Fin r → ℕ => (Fin.append (fun i : Fin m => n i) k : Fin (m + r) → ℕ) := by
    intro k k' h
    funext j
    have := congrFun h (Fin.natAdd m j)
    simpa using this
  rw [← hinj.hasSum_iff fun a ha => by rw [mixAmp_zero n α a ha, zero_mul]]
  have h1 := partial_hasSum A γ m (r := r) (fun i hi j hj => hA _ (by omega) _ (by omega)) (fun j : Fin r => α (m + j)) (repeatedIndices ((List.range m).map n))
  have h2 := Complex.hasSum_conj'.mpr h1
  refine hasSum_of_eq (h2.mul_left (((∏ j : Fin r, (Real.exp (-Complex.normSq (α (m + j)) / 2) : ℝ) : ℝ) : ℂ) / (Real.sqrt (∏ i : Fin m, ((n i).factorial : ℝ)) : ℝ)))
    (fun k => mix_term A γ n α k) ?_
  congr 3
  refine congrArg (fun g => lh g A (repeatedIndices ((List.range m).map n))) ?_
  funext i
  unfold gammaRest
  rw [Finset.sum_Ico_eq_sum_range, Nat.add_sub_cancel_left, Finset.sum_range]

end Verif.Lemmas.Outc

namespace Verif.Lemmas.Outc
open Verif.Model Verif.Spec Verif.Lemmas Verif.Lemmas.GaussS Verif.Lemmas.FockS Verif.Lemmas.PSer

theorem sq_hasSum {σ : Type} (f : σ → ℂ) (c : ℂ) (h : HasSum f c) : HasSum (fun p : σ × σ => f p.1 * (starRingEnd ℂ) (f p.2)) ((Complex.normSq c : ℝ) : ℂ) := by
  have h' : HasSum (fun x => (starRingEnd ℂ) (f x)) ((starRingEnd ℂ) c) := Complex.hasSum_conj'.mpr h
  have h1 : Summable fun x => ‖f x‖ := summable_norm_iff.mpr h.summable
  have h2 : Summable fun x => ‖(starRingEnd ℂ) (f x)‖ := summable_norm_iff.mpr h'.summable
  have h3 : Summable fun p : σ × σ => f p.1 * (starRingEnd ℂ) (f p.2) := summable_mul_of_summable_norm (R := ℂ) (f := f) (g := fun x => (starRingEnd ℂ) (f x)) h1 h2
  exact hasSum_of_eq (h.mul h' h3) (fun _ => rfl) (Complex.mul_conj c).symm

theorem pure_hasSum {N : ℕ} (ψ : (Fin N → ℕ) → ℂ) (m : ℕ) (n : ℕ → ℕ) (α : ℕ → ℂ) (c : ℂ) (h : HasSum (fun a => mixAmp m n α a * ψ a) c) :
    HasSum (fun p : (Fin N → ℕ) × (Fin N → ℕ) => mixAmp m n α p.1 * (ψ p.1 * (starRingEnd ℂ) (ψ p.2)) * (starRingEnd ℂ) (mixAmp m n α p.2))
      ((Complex.normSq c : ℝ) : ℂ) := by
  refine hasSum_of_eq (sq_hasSum _ c h) (fun p => ?_) rfl
  rw [map_mul]
  ring

theorem pure_density {N : ℕ} (ψ : (Fin N → ℕ) → ℂ) (m : ℕ) (n : ℕ → ℕ) (α : ℕ → ℂ) (c : ℂ) (h : HasSum (fun a => mixAmp m n α a * ψ a) c) :
    outcomeDensity (fun i j => ψ i * (starRingEnd ℂ) (ψ j)) m n α = Complex.normSq c := by
  unfold outcomeDensity
  rw [(pure_hasSum ψ m n α c h).tsum_eq, Complex.ofReal_re]

/-- the constant in the densities of the outcomes -/
noncomputable def densConst (A : ℕ → ℕ → ℂ) (γ α : ℕ → ℂ) (e : ℂ) (m r : ℕ) : ℝ :=
  Complex.normSq e * (∏ j : Fin r, Real.exp (-Complex.normSq (α (m + j)) / 2)) ^ 2 * Complex.normSq (gaussFactor A γ α m r)

theorem densConst_pos (A : ℕ → ℕ → ℂ) (γ α : ℕ → ℂ) (e : ℂ) (he : e ≠ 0) (m r : ℕ) : 0 < densConst A γ α e m r := by
  unfold densConst gaussFactor
  have h1 := Complex.normSq_pos.mpr he
  have h2 : 0 < (∏ j : Fin r, Real.exp (-Complex.normSq (α (m + j)) / 2)) := Finset.prod_pos fun _ _ => Real.exp_pos _
  have h3 := Complex.normSq_pos.mpr (Complex.exp_ne_zero
    (qd (fun i j => A (m + i) (m + j)) (fun j : Fin r => α (m + j)) / 2 + ln (fun i => γ (m + i)) (fun j : Fin r => α (m + j))))
  positivity

/-- The Born rule for a pure Gaussian state: photon numbers in the first `m` modes and heterodyne outcomes in the others. -/
theorem pure_outcome {N m r : ℕ} (hN : N = m + r) (A : ℕ → ℕ → ℂ) (γ : ℕ → ℂ) (hA : ∀ i < N, ∀ j < N, A i j = A j i) (e : ℂ) (ψ : (Fin N → ℕ) → ℂ)
    (hψ : ∀ a, ψ a = e * ((starRingEnd ℂ) (lh γ A (repeatedIndices (List.ofFn a))) / (Real.sqrt (∏ i, ((a i).factorial : ℝ)) : ℝ)))
    (n : ℕ → ℕ) (α : ℕ → ℂ) :
    outcomeDensity (fun i j => ψ i * (starRingEnd ℂ) (ψ j)) m n α =
      densConst A γ α e m r * (Complex.normSq (lh (gammaRest A γ α m N) A (repeatedIndices ((List.range m).map n))) / ∏ i : Fin m, ((n i).factorial : ℝ)) := by
  subst hN
  have h := (mix_hasSum (r := r) A γ hA n α).mul_left e
  have h1 : HasSum (fun a : Fin (m + r) → ℕ => mixAmp m n α a * ψ a) _ := hasSum_of_eq h (fun a => by rw [hψ]; ring) rfl
  rw [pure_density ψ m n α _ h1]
  rw [Complex.normSq_mul, Complex.normSq_mul, Complex.normSq_div, Complex.normSq_conj, Complex.normSq_mul, Complex.normSq_ofReal, Complex.normSq_ofReal,
    Real.mul_self_sqrt (by positivity)]
  unfold densConst
  ring

end Verif.Lemmas.Outc
