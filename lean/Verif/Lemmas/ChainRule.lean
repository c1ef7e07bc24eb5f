/-
The chain rule of the photon-number sampler: replacing the heterodyne outcomes of the modes, one after the other, by photon numbers drawn with their Born
probabilities.
-/
import Verif.Lemmas.Bargmann
import Verif.Lemmas.Outcomes
import Mathlib.MeasureTheory.Integral.Marginal

set_option linter.style.longLine false
set_option linter.unusedSectionVars false

namespace Verif.Lemmas.Chain
open MeasureTheory Verif.Spec Verif.Lemmas.FockS Verif.Lemmas.GInt Verif.Lemmas.Outc

/-! #### The abstract chain rule -/

variable {N : ℕ} (D : ℕ → (Fin N → ℂ) → ℝ) (S : ℕ → (Fin N → ℂ) → ℝ)

/-- the integrand: the density of the heterodyne outcomes times the probabilities of the photon numbers -/
noncomputable def chainF (a : Fin N → ℂ) : ENNReal := ENNReal.ofReal (D 0 a) * ∏ j : Fin N, ENNReal.ofReal (D (j + 1) a / S j a)

theorem chain_step (hmeas : Measurable (chainF D S))
    (hD : ∀ (j : ℕ) (i : Fin N) (a : Fin N → ℂ) (z : ℂ), (i : ℕ) ≤ j → D (j + 1) (Function.update a i z) = D (j + 1) a)
    (hS : ∀ (j : ℕ) (i : Fin N) (a : Fin N → ℂ) (z : ℂ), (i : ℕ) ≤ j → S j (Function.update a i z) = S j a)
    (h0 : ∀ k a, 0 ≤ D k a) (hle : ∀ k a, D (k + 1) a ≤ S k a)
    (hint : ∀ (k : Fin N) a, ENNReal.ofReal (Real.pi * S k a) ≤ ∫⁻ z, ENNReal.ofReal (D k (Function.update a k z)))
    (k : ℕ) (hk : k ≤ N) (a : Fin N → ℂ) :
    ENNReal.ofReal (Real.pi ^ k * D k a) * ∏ j : Fin N, (if (j : ℕ) < k then 1 else ENNReal.ofReal (D (j + 1) a / S j a)) ≤
      (∫⋯∫⁻_(Finset.univ.filter fun i : Fin N => (i : ℕ) < k), chainF D S ∂fun _ => volume) a := by
  induction k generalizing a with
  | zero =>
    have : (Finset.univ.filter fun i : Fin N => (i : ℕ) < 0) = ∅ := by ext i; simp
    rw [this, lmarginal_empty]
    simp [chainF]
  | succ k ih =>
    have hkN : k < N := hk
    have hins : (Finset.univ.filter fun i : Fin N => (i : ℕ) < k + 1) = insert ⟨k, hkN⟩ (Finset.univ.filter fun i : Fin N => (i : ℕ) < k) := by
      ext i
      simp only [Finset.mem_filter, Finset.mem_univ, true_and, Finset.mem_insert, Fin.ext_iff]
      omega
    rw [hins, lmarginal_insert _ hmeas (by simp)]
    have h1 : ∀ z, ENNReal.ofReal (Real.pi ^ k * D k (Function.update a ⟨k, hkN⟩ z)) *
        ∏ j : Fin N, (if (j : ℕ) < k then 1 else ENNReal.ofReal (D (j + 1) a / S j a)) ≤
        (∫⋯∫⁻_(Finset.univ.filter fun i : Fin N => (i : ℕ) < k), chainF D S ∂fun _ => volume) (Function.update a ⟨k, hkN⟩ z) := by
      intro z
      refine le_trans (le_of_eq ?_) (ih hkN.le (Function.update a ⟨k, hkN⟩ z))
      congr 1
      refine Finset.prod_congr rfl fun j _ => ?_
      by_cases hj : (j : ℕ) < k
      · rw [if_pos hj, if_pos hj]
      · rw [if_neg hj, if_neg hj, hD j ⟨k, hkN⟩ a z (by simpa using hj), hS j ⟨k, hkN⟩ a z (by simpa using hj)]
    refine le_trans ?_ (lintegral_mono h1)
    have hfin : ∏ j : Fin N, (if (j : ℕ) < k then 1 else ENNReal.ofReal (D (j + 1) a / S j a)) ≠ ⊤ := by
      refine ENNReal.prod_ne_top fun j _ => ?_
      split_ifs
      · exact ENNReal.one_ne_top
      · exact ENNReal.ofReal_ne_top
    rw [lintegral_mul_const' _ _ hfin]
    have h2 : ∀ z, ENNReal.ofReal (Real.pi ^ k * D k (Function.update a ⟨k, hkN⟩ z)) = ENNReal.ofReal (Real.pi ^ k) * ENNReal.ofReal (D k (Function.update a ⟨k, hkN⟩ z)) :=
      fun z => ENNReal.ofReal_mul (by positivity)
    rw [lintegral_congr h2, lintegral_const_mul' _ _ ENNReal.ofReal_ne_top]
    have h3 : ∏ j : Fin N, (if (j : ℕ) < k then 1 else ENNReal.ofReal (D (j + 1) a / S j a)) =
        ENNReal.ofReal (D (k + 1) a / S k a) * ∏ j : Fin N, (if (j : ℕ) < k + 1 then 1 else ENNReal.ofReal (D (j + 1) a / S j a)) := by
      rw [← Finset.mul_prod_erase Finset.univ _ (Finset.mem_univ (⟨k, hkN⟩ : Fin N)),
        ← Finset.mul_prod_erase Finset.univ (fun j : Fin N => if (j : ℕ) < k + 1 then 1 else ENNReal.ofReal (D (j + 1) a / S j a)) (Finset.mem_univ (⟨k, hkN⟩ : Fin N))]
      rw [if_neg (show ¬ ((⟨k, hkN⟩ : Fin N) : ℕ) < k by simp), if_pos (show ((⟨k, hkN⟩ : Fin N) : ℕ) < k + 1 by simp), one_mul]
      congr 1
      refine Finset.prod_congr rfl fun j hj => ?_
      have hne : (j : ℕ) ≠ k := fun h => (Finset.mem_erase.mp hj).1 (Fin.ext h)
      refine if_congr ?_ rfl rfl
      omega
    rw [h3, ← mul_assoc]
    refine mul_le_mul_left ?_ _
    have h4 := hint ⟨k, hkN⟩ a
    refine le_trans ?_ (mul_le_mul_left (mul_le_mul_right h4 (ENNReal.ofReal (Real.pi ^ k))) _)
    have hpos : 0 ≤ S k a := (h0 (k + 1) a).trans (hle k a)
    rw [← ENNReal.ofReal_mul (by positivity), ← ENNReal.ofReal_mul (by positivity)]
    refine ENNReal.ofReal_le_ofReal (le_of_eq ?_)
    dsimp only
    rcases hpos.eq_or_lt with h | h
    · have : D (k + 1) a = 0 := le_antisymm ((hle k a).trans h.symm.le) (h0 _ _)
      rw [this, ← h]; simp
    · rw [pow_succ, mul_assoc, mul_assoc, mul_assoc, mul_div_cancel₀ _ h.ne']

/-- the chain rule -/
theorem chain_rule (hmeas : Measurable (chainF D S))
    (hD : ∀ (j : ℕ) (i : Fin N) (a : Fin N → ℂ) (z : ℂ), (i : ℕ) ≤ j → D (j + 1) (Function.update a i z) = D (j + 1) a)
    (hS : ∀ (j : ℕ) (i : Fin N) (a : Fin N → ℂ) (z : ℂ), (i : ℕ) ≤ j → S j (Function.update a i z) = S j a)
    (h0 : ∀ k a, 0 ≤ D k a) (hle : ∀ k a, D (k + 1) a ≤ S k a)
    (hint : ∀ (k : Fin N) a, ENNReal.ofReal (Real.pi * S k a) ≤ ∫⁻ z, ENNReal.ofReal (D k (Function.update a k z))) (a : Fin N → ℂ) :
    ENNReal.ofReal (Real.pi ^ N * D N a) ≤ ∫⁻ a, chainF D S a := by
  have h := chain_step D S hmeas hD hS h0 hle hint N le_rfl a
  have hu : (Finset.univ.filter fun i : Fin N => (i : ℕ) < N) = Finset.univ := by ext i; simp
  rw [hu, lmarginal_univ] at h
  refine le_trans (le_of_eq ?_) h
  rw [Finset.prod_congr rfl fun j _ => if_pos j.2, Finset.prod_const_one, mul_one]

/-! #### One mode: from the heterodyne outcome to the photon number -/

theorem mix_step (k : Fin N) (n : ℕ → ℕ) (α : ℕ → ℂ) (z : ℂ) (i : Fin N → ℕ) :
    mixAmp k n (Function.update α k z) i = ((Real.exp (-Complex.normSq z / 2) : ℝ) : ℂ) * ((starRingEnd ℂ) z ^ i k / ((Real.sqrt (i k).factorial : ℝ) : ℂ)) *
      mixAmp (k + 1) (Function.update n k (i k)) α i := by
  unfold mixAmp
  rw [← Finset.mul_prod_erase Finset.univ _ (Finset.mem_univ k), ← Finset.mul_prod_erase Finset.univ (fun l : Fin N => if (l : ℕ) < k + 1 then
    (if i l = Function.update n k (i k) l then (1 : ℂ) else 0) else _) (Finset.mem_univ k)]
  rw [if_neg (lt_irrefl _), if_pos (Nat.lt_succ_self _), Function.update_self, Function.update_self, if_pos rfl, one_mul]
  congr 1
  refine Finset.prod_congr rfl fun l hl => ?_
  have hne : (l : ℕ) ≠ k := fun h => (Finset.mem_erase.mp hl).1 (Fin.ext h)
  rw [Function.update_of_ne hne, Function.update_of_ne hne]
  refine if_congr ?_ rfl rfl
  omega

theorem mixAmp_ne (k : Fin N) (n : ℕ → ℕ) (α : ℕ → ℂ) (j : ℕ) (i : Fin N → ℕ) (h : i k ≠ j) : mixAmp (k + 1) (Function.update n k j) α i = 0 := by
  unfold mixAmp
  refine Finset.prod_eq_zero (Finset.mem_univ k) ?_
  rw [if_pos (Nat.lt_succ_self _), Function.update_self, if_neg h]

theorem fibre_hasSum {I : Type} (g : I → ℕ) (f : I → ℂ) (s : ℂ) (h : HasSum f s) (c : ℕ → ℂ) (hc : ∀ j, HasSum (fun i => if g i = j then f i else 0) (c j)) : HasSum c s := by
  have h1 := (Equiv.sigmaFiberEquiv g).hasSum_iff.mpr h
  refine h1.sigma fun j => ?_
  have h2 := hc j
  have hinj : Function.Injective (fun x : {i // g i = j} => (x : I)) := Subtype.val_injective
  rw [← hinj.hasSum_iff] at h2
  · exact hasSum_of_eq h2 (fun x => by simp [Equiv.sigmaFiberEquiv, x.2]) rfl
  · intro x hx
    rw [if_neg]
    intro hj
    exact hx ⟨⟨x, hj⟩, rfl⟩

variable (ψ : (Fin N → ℕ) → ℂ) (c : ℕ → (ℕ → ℕ) → (ℕ → ℂ) → ℂ)

theorem amp_series (hc : ∀ m ≤ N, ∀ n α, HasSum (fun i => mixAmp m n α i * ψ i) (c m n α)) (k : Fin N) (n : ℕ → ℕ) (α : ℕ → ℂ) (z : ℂ) :
    HasSum (fun j => (c (k + 1) (Function.update n k j) α / ((Real.sqrt j.factorial : ℝ) : ℂ)) * (starRingEnd ℂ) z ^ j)
      (((Real.exp (Complex.normSq z / 2) : ℝ) : ℂ) * c k n (Function.update α k z)) := by
  have he : ((Real.exp (Complex.normSq z / 2) : ℝ) : ℂ) * ((Real.exp (-Complex.normSq z / 2) : ℝ) : ℂ) = 1 := by
    rw [← Complex.ofReal_mul, ← Real.exp_add]
    rw [show Complex.normSq z / 2 + -Complex.normSq z / 2 = 0 by ring, Real.exp_zero, Complex.ofReal_one]
  refine fibre_hasSum (fun i : Fin N → ℕ => i k) _ _ ((hc k k.2.le n (Function.update α k z)).mul_left ((Real.exp (Complex.normSq z / 2) : ℝ) : ℂ)) _ fun j => ?_
  have h1 := (hc (k + 1) k.2 (Function.update n k j) α).mul_left ((1 / ((Real.sqrt j.factorial : ℝ) : ℂ)) * (starRingEnd ℂ) z ^ j)
  refine hasSum_of_eq h1 (fun i => ?_) (by ring)
  by_cases hj : i k = j
  · rw [if_pos hj, mix_step, hj]
    linear_combination ((starRingEnd ℂ) z ^ j / ((Real.sqrt j.factorial : ℝ) : ℂ)) * mixAmp (↑k + 1) (Function.update n k j) α i * ψ i * he
  · rw [if_neg hj, mixAmp_ne k n α j i hj]; ring

theorem density_step (hc : ∀ m ≤ N, ∀ n α, HasSum (fun i => mixAmp m n α i * ψ i) (c m n α)) (k : Fin N) (n : ℕ → ℕ) (α : ℕ → ℂ) (cut : ℕ) :
    ENNReal.ofReal (Real.pi * ∑ j ∈ Finset.range cut, Complex.normSq (c (k + 1) (Function.update n k j) α)) ≤
      ∫⁻ z, ENNReal.ofReal (Complex.normSq (c k n (Function.update α k z))) := by
  have h := plane_bessel (amp_series ψ c hc k n α) cut
  refine le_trans (le_of_eq ?_) (h.trans (le_of_eq ?_))
  · congr 2
    refine Finset.sum_congr rfl fun j _ => ?_
    rw [Complex.normSq_div, Complex.normSq_ofReal, Real.mul_self_sqrt (by positivity)]
    have : ((j.factorial : ℕ) : ℝ) ≠ 0 := by positivity
    field_simp
  · refine lintegral_congr fun z => ?_
    congr 1
    rw [Complex.normSq_mul, Complex.normSq_ofReal, ← Real.exp_add, add_halves]
    unfold gw
    rw [mul_right_comm, ← Real.exp_add]
    simp

end Verif.Lemmas.Chain
