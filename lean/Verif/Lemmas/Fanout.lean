/-
The Born rule for a pure Gaussian state whose modes are split evenly over channels.
-/
import Verif.Lemmas.Outcomes
import Verif.Lemmas.FockProb
import Verif.Lemmas.Banded
import Verif.Spec.Fanout

namespace Verif.Lemmas.Fan
open Verif Verif.Model Verif.Spec Verif.Lemmas Verif.Lemmas.Outc

theorem lh_homog {ι K : Type*} [CommRing K] (c : K) (D : ι → K) (A : ι → ι → K) (l : List ι) :
    lh (fun i => c * D i) (fun i j => c ^ 2 * A i j) l = c ^ l.length * lh D A l := by
  induction h : l.length using Nat.strong_induction_on generalizing l with
  | _ n ih =>
    cases l with
    | nil => simp at h; subst h; simp [lh, lhN]
    | cons x xs =>
      simp only [List.length_cons] at h
      rw [lh_cons, lh_cons, ih xs.length (by omega) xs rfl, mul_add, ← h, ← eSum_mul_left]
      congr 1
      · ring
      · apply eSum_congr
        intro y ys hy
        rw [ih ys.length (by omega) ys rfl, ← hy]
        ring

theorem perm_totals {N M : ℕ} (f : Fin N → Fin M) (a : Fin N → ℕ) (g : ℕ → ℕ) (hg : ∀ x : Fin N, g x = f x) :
    ((repeatedIndices (List.ofFn a)).map g).Perm (repeatedIndices (List.ofFn fun j => ∑ x, if f x = j then a x else 0)) := by
  rw [List.perm_iff_count]
  intro j
  rw [count_repeated]
  have h1 : (List.map g (repeatedIndices (List.ofFn a))).count j = ∑ x : Fin N, if g x = j then a x else 0 := by
    rw [repeatedIndices, List.map_flatMap, List.count_flatMap, List.length_ofFn, ← List.sum_toFinset _ List.nodup_range, List.toFinset_range, Finset.sum_range]
    refine Finset.sum_congr rfl fun x _ => ?_
    simp only [Function.comp_apply, List.map_replicate, List.count_replicate, beq_iff_eq]
    rw [List.getD_eq_getElem _ _ (by simp), List.getElem_ofFn]
  rw [h1]
  by_cases hj : j < M
  · rw [List.getD_eq_getElem _ _ (by simpa using hj), List.getElem_ofFn]
    refine Finset.sum_congr rfl fun x _ => ?_
    refine if_congr ?_ rfl rfl
    rw [hg, Fin.ext_iff]
  · rw [List.getD_eq_default _ _ (by simpa using hj)]
    refine Finset.sum_eq_zero fun x _ => ?_
    rw [if_neg]
    rw [hg]
    have := (f x).2
    omega

section
variable {M F m r : ℕ}

/-- the channels in the order of an enumeration -/
def flat (e : Fin (m + r) ≃ Fin M × Fin F) : (Fin (m + r) → ℕ) ≃ (Fin M → Fin F → ℕ) :=
  (Equiv.arrowCongr e (Equiv.refl ℕ)).trans (Equiv.curry _ _ _)

theorem flat_apply (e : Fin (m + r) ≃ Fin M × Fin F) (a : Fin (m + r) → ℕ) (j : Fin M) (k : Fin F) : flat e a j k = a (e.symm (j, k)) := rfl

/-- a function of the channels as a function of their numbers -/
def along {α : Type} (e : Fin (m + r) ≃ Fin M × Fin F) (d : α) (f : ℕ → ℕ → α) (x : ℕ) : α := if h : x < m + r then f (e ⟨x, h⟩).1 (e ⟨x, h⟩).2 else d

theorem along_fin {α : Type} (e : Fin (m + r) ≃ Fin M × Fin F) (d : α) (f : ℕ → ℕ → α) (x : Fin (m + r)) : along e d f x = f (e x).1 (e x).2 := by
  simp [along]

theorem channelAmp_flat (e : Fin (m + r) ≃ Fin M × Fin F) (cnt : ℕ → ℕ) (hcnt : ∀ x, ((e x).2 : ℕ) < cnt (e x).1 ↔ (x : ℕ) < m) (n : ℕ → ℕ → ℕ) (α : ℕ → ℕ → ℂ) (a : Fin (m + r) → ℕ) :
    channelAmp cnt n α (flat e a) = mixAmp m (along e 0 n) (along e 0 α) a := by
  unfold channelAmp mixAmp
  rw [← Finset.prod_product']
  rw [Finset.univ_product_univ, ← e.prod_comp]
  refine Finset.prod_congr rfl fun x _ => ?_
  simp only [flat_apply, along_fin, Prod.mk.eta, Equiv.symm_apply_apply, hcnt]

theorem channelDensity_flat (e : Fin (m + r) ≃ Fin M × Fin F) (ρ : (Fin M → Fin F → ℕ) → (Fin M → Fin F → ℕ) → ℂ) (cnt : ℕ → ℕ)
    (hcnt : ∀ x, ((e x).2 : ℕ) < cnt (e x).1 ↔ (x : ℕ) < m) (n : ℕ → ℕ → ℕ) (α : ℕ → ℕ → ℂ) :
    channelDensity ρ cnt n α = outcomeDensity (fun a b => ρ (flat e a) (flat e b)) m (along e 0 n) (along e 0 α) := by
  unfold channelDensity outcomeDensity
  congr 1
  rw [← ((flat e).prodCongr (flat e)).tsum_eq]
  refine tsum_congr fun p => ?_
  simp only [Equiv.prodCongr_apply, Prod.map_fst, Prod.map_snd, channelAmp_flat e cnt hcnt]

/-- the sum over the photons of a mode -/
theorem flat_total (e : Fin (m + r) ≃ Fin M × Fin F) (a : Fin (m + r) → ℕ) (j : Fin M) : ∑ k, flat e a j k = ∑ x, if (e x).1 = j then a x else 0 := by
  rw [← e.symm.sum_comp, Fintype.sum_prod_type]
  simp only [Equiv.apply_symm_apply]
  rw [Finset.sum_comm]
  refine Finset.sum_congr rfl fun k _ => ?_
  rw [Finset.sum_ite_eq' Finset.univ j, if_pos (Finset.mem_univ _), flat_apply]

theorem flat_prod (e : Fin (m + r) ≃ Fin M × Fin F) (a : Fin (m + r) → ℕ) : ∏ j, ∏ k, ((flat e a j k).factorial : ℝ) = ∏ x, ((a x).factorial : ℝ) := by
  rw [← Fintype.prod_prod_type' (fun j k => ((flat e a j k).factorial : ℝ)), ← e.prod_comp]
  refine Finset.prod_congr rfl fun x _ => ?_
  rw [flat_apply, Prod.mk.eta, Equiv.symm_apply_apply]

theorem splitAmp_eq (i : Fin M → Fin F → ℕ) : splitAmp i * (Real.sqrt (∏ j, (((∑ k, i j k).factorial : ℕ) : ℝ)))⁻¹ =
    (Real.sqrt F)⁻¹ ^ (∑ j, ∑ k, i j k) * (Real.sqrt (∏ j, ∏ k, ((i j k).factorial : ℝ)))⁻¹ := by
  unfold splitAmp
  rw [Finset.prod_div_distrib]
  have h1 : ∀ j : Fin M, Real.sqrt ((((∑ k, i j k).factorial : ℕ) : ℝ) / ∏ k, ((i j k).factorial : ℝ)) =
      Real.sqrt (((∑ k, i j k).factorial : ℕ) : ℝ) * (Real.sqrt (∏ k, ((i j k).factorial : ℝ)))⁻¹ := fun j => by
    rw [Real.sqrt_div (by positivity), div_eq_mul_inv]
  simp only [h1]
  rw [Finset.prod_mul_distrib, Real.sqrt_prod _ (fun j _ => by positivity), Real.sqrt_prod _ (fun j _ => by positivity), Finset.prod_inv_distrib, Finset.prod_pow_eq_pow_sum]
  have h2 : (∏ j : Fin M, Real.sqrt (((∑ k, i j k).factorial : ℕ) : ℝ)) ≠ 0 := by positivity
  rw [inv_pow]
  field_simp

/-- The amplitudes of the channels of a pure Gaussian state are again those of a pure Gaussian state. -/
theorem split_wave (hF : F ≠ 0) (e : Fin (m + r) ≃ Fin M × Fin F) (A : ℕ → ℕ → ℂ) (hA : ∀ i < M, ∀ j < M, A i j = A j i) (γ : ℕ → ℂ) (c : ℂ) (ψ : (Fin M → ℕ) → ℂ)
    (hψ : ∀ a, ψ a = c * ((starRingEnd ℂ) (lh γ A (repeatedIndices (List.ofFn a))) / (Real.sqrt (∏ i, ((a i).factorial : ℝ)) : ℝ))) (a : Fin (m + r) → ℕ) :
    (splitAmp (flat e a) : ℂ) * ψ (fun j => ∑ k, flat e a j k) =
      c * ((starRingEnd ℂ) (lh (along e 0 fun j _ => γ j / (Real.sqrt F : ℝ)) (fun x y => along e 0 (fun j _ => along e 0 (fun j' _ => A j j' / F) y) x)
        (repeatedIndices (List.ofFn a))) / (Real.sqrt (∏ i, ((a i).factorial : ℝ)) : ℝ)) := by
  set s : ℂ := ((Real.sqrt F : ℝ) : ℂ) with hs
  have hs2 : s ^ 2 = F := by
    rw [hs, ← Complex.ofReal_pow, Real.sq_sqrt (by positivity)]; simp
  have hlt : ∀ i ∈ repeatedIndices (List.ofFn a), i < m + r := fun i hi => by simpa using repeatedIndices_lt hi
  have h1 : lh (along e 0 fun j _ => γ j / s) (fun x y => along e 0 (fun j _ => along e 0 (fun j' _ => A j j' / F) y) x) (repeatedIndices (List.ofFn a)) =
      lh (fun j => s⁻¹ * γ j) (fun j j' => s⁻¹ ^ 2 * A j j') ((repeatedIndices (List.ofFn a)).map (along e 0 fun j _ => j)) := by
    rw [lh_map]
    apply lh_congr
    · intro i hi
      have := hlt i hi
      simp only [along, dif_pos this, Function.comp_apply]
      ring
    · intro i hi i' hi'
      have := hlt i hi
      have := hlt i' hi'
      simp only [along, dif_pos (hlt i hi), dif_pos (hlt i' hi'), inv_pow, hs2]
      ring
  have hlen : (repeatedIndices (List.ofFn fun j => ∑ x, if (e x).1 = j then a x else 0)).length = ∑ j, ∑ k, flat e a j k := by
    rw [repeatedIndices_length, List.sum_ofFn]
    exact Finset.sum_congr rfl fun j _ => (flat_total e a j).symm
  have htot : (fun j => ∑ k, flat e a j k) = fun j => ∑ x, if (e x).1 = j then a x else 0 := funext fun j => flat_total e a j
  have hperm := perm_totals (fun x => (e x).1) a (along e 0 fun j _ => j) fun x => along_fin e 0 _ x
  have hmem : ∀ i ∈ (repeatedIndices (List.ofFn a)).map (along e 0 fun j _ => j), i < M := by
    intro i hi
    obtain ⟨x, hx, rfl⟩ := List.mem_map.mp hi
    rw [along, dif_pos (hlt x hx)]
    exact (e ⟨x, hlt x hx⟩).1.2
  rw [h1, lh_perm_mem _ _ (fun i hi j hj => by rw [hA i (hmem i hi) j (hmem j hj)]) hperm, lh_homog, hψ, hlen, htot]
  have h2 := splitAmp_eq (flat e a)
  simp only [flat_prod] at h2
  have h4 := congrArg (fun t : ℝ => (t : ℂ)) h2
  simp only [Complex.ofReal_mul, Complex.ofReal_inv, Complex.ofReal_pow, flat_total] at h4
  rw [map_mul, map_pow, map_inv₀, Complex.conj_ofReal, div_eq_mul_inv, div_eq_mul_inv]
  simp only [flat_total]
  linear_combination c * (starRingEnd ℂ) (lh γ A (repeatedIndices (List.ofFn fun j => ∑ x, if (e x).1 = j then a x else 0))) * h4

theorem enum_exists (D : Fin M × Fin F → Prop) [DecidablePred D] : ∃ (m r : ℕ) (e : Fin (m + r) ≃ Fin M × Fin F), ∀ x, D (e x) ↔ (x : ℕ) < m := by
  refine ⟨Fintype.card {p // D p}, Fintype.card {p // ¬ D p}, finSumFinEquiv.symm.trans
    ((Equiv.sumCongr (Fintype.equivFin _).symm (Fintype.equivFin _).symm).trans (Equiv.sumCompl D)), fun x => ?_⟩
  refine Fin.addCases (fun a => ?_) (fun b => ?_) x
  · simp only [Equiv.trans_apply, finSumFinEquiv_symm_apply_castAdd, Equiv.sumCongr_apply, Sum.map_inl, Equiv.sumCompl_apply_inl, Fin.val_castAdd, Fin.is_lt, iff_true]
    exact ((Fintype.equivFin {p // D p}).symm a).2
  · simp only [Equiv.trans_apply, finSumFinEquiv_symm_apply_natAdd, Equiv.sumCongr_apply, Sum.map_inr, Equiv.sumCompl_apply_inr, Fin.val_natAdd]
    exact ⟨fun h => absurd h ((Fintype.equivFin {p // ¬ D p}).symm b).2, fun h => by omega⟩

theorem sum_first {V : Type*} [AddCommMonoid V] (e : Fin (m + r) ≃ Fin M × Fin F) (D : Fin M × Fin F → Prop) [DecidablePred D] (he : ∀ x, D (e x) ↔ (x : ℕ) < m) (h : Fin M × Fin F → V) :
    ∑ x : Fin m, h (e (Fin.castAdd r x)) = ∑ p, if D p then h p else 0 := by
  rw [← e.sum_comp, Fin.sum_univ_add]
  have h1 : ∀ x : Fin r, (if D (e (Fin.natAdd m x)) then h (e (Fin.natAdd m x)) else 0) = 0 := fun x => if_neg (by rw [he]; simp)
  have h2 : ∀ x : Fin m, (if D (e (Fin.castAdd r x)) then h (e (Fin.castAdd r x)) else 0) = h (e (Fin.castAdd r x)) := fun x => if_pos (by rw [he]; simp)
  simp only [h1, h2, Finset.sum_const_zero, add_zero]

theorem sum_last {V : Type*} [AddCommMonoid V] (e : Fin (m + r) ≃ Fin M × Fin F) (D : Fin M × Fin F → Prop) [DecidablePred D] (he : ∀ x, D (e x) ↔ (x : ℕ) < m) (h : Fin M × Fin F → V) :
    ∑ x : Fin r, h (e (Fin.natAdd m x)) = ∑ p, if D p then 0 else h p := by
  rw [← e.sum_comp, Fin.sum_univ_add]
  have h1 : ∀ x : Fin r, (if D (e (Fin.natAdd m x)) then 0 else h (e (Fin.natAdd m x))) = h (e (Fin.natAdd m x)) := fun x => if_neg (by rw [he]; simp)
  have h2 : ∀ x : Fin m, (if D (e (Fin.castAdd r x)) then 0 else h (e (Fin.castAdd r x))) = 0 := fun x => if_pos (by rw [he]; simp)
  simp only [h1, h2, Finset.sum_const_zero, zero_add]

theorem prod_first (e : Fin (m + r) ≃ Fin M × Fin F) (D : Fin M × Fin F → Prop) [DecidablePred D] (he : ∀ x, D (e x) ↔ (x : ℕ) < m) (h : Fin M × Fin F → ℝ) :
    ∏ x : Fin m, h (e (Fin.castAdd r x)) = ∏ p, if D p then h p else 1 := by
  rw [← e.prod_comp, Fin.prod_univ_add]
  have h1 : ∀ x : Fin r, (if D (e (Fin.natAdd m x)) then h (e (Fin.natAdd m x)) else 1) = 1 := fun x => if_neg (by rw [he]; simp)
  have h2 : ∀ x : Fin m, (if D (e (Fin.castAdd r x)) then h (e (Fin.castAdd r x)) else 1) = h (e (Fin.castAdd r x)) := fun x => if_pos (by rw [he]; simp)
  simp only [h1, h2, Finset.prod_const_one, mul_one]

/-- The loop weights that remain when the channels that are not counted are projected on coherent states. -/
noncomputable def fanGamma (A : ℕ → ℕ → ℂ) (γ : ℕ → ℂ) (M F : ℕ) (cnt : ℕ → ℕ) (α : ℕ → ℕ → ℂ) (i : ℕ) : ℂ :=
  γ i / (Real.sqrt F : ℝ) + ∑ j ∈ Finset.range M, A i j / F * ∑ k ∈ Finset.Ico (cnt j) F, α j k

/-- The Born rule for a pure Gaussian state whose modes are split over channels. -/
theorem fan_outcome (hF : F ≠ 0) (A : ℕ → ℕ → ℂ) (hA : ∀ i < M, ∀ j < M, A i j = A j i) (γ : ℕ → ℂ) (c : ℂ) (hc : c ≠ 0) (ψ : (Fin M → ℕ) → ℂ)
    (hψ : ∀ a, ψ a = c * ((starRingEnd ℂ) (lh γ A (repeatedIndices (List.ofFn a))) / (Real.sqrt (∏ i, ((a i).factorial : ℝ)) : ℝ)))
    (cnt : ℕ → ℕ) (hcnt : ∀ j < M, cnt j ≤ F) (α : ℕ → ℕ → ℂ) :
    ∃ C > 0, ∀ n : ℕ → ℕ → ℕ, channelDensity (splitState F fun i j => ψ i * (starRingEnd ℂ) (ψ j)) cnt n α =
      C * (Complex.normSq (lh (fanGamma A γ M F cnt α) (fun i j => A i j / F) (repeatedIndices ((List.range M).map fun j => ∑ k ∈ Finset.range (cnt j), n j k))) /
        ∏ j ∈ Finset.range M, ∏ k ∈ Finset.range (cnt j), ((n j k).factorial : ℝ)) := by
  obtain ⟨m, r, e, he⟩ := enum_exists (M := M) (F := F) fun p => (p.2 : ℕ) < cnt p.1
  set A' : ℕ → ℕ → ℂ := fun x y => along e 0 (fun j _ => along e 0 (fun j' _ => A j j' / F) y) x with hA'
  set γ' : ℕ → ℂ := along e 0 fun j _ => γ j / (Real.sqrt F : ℝ) with hγ'
  have hAs : ∀ i < m + r, ∀ j < m + r, A' i j = A' j i := fun i hi j hj => by
    simp only [hA', along, dif_pos hi, dif_pos hj]
    rw [hA _ (e _).1.2 _ (e _).1.2]
  refine ⟨densConst A' γ' (along e 0 α) c m r, densConst_pos _ _ _ _ hc _ _, fun n => ?_⟩
  rw [channelDensity_flat e _ cnt he n α]
  have h1 : (fun a b => splitState F (fun i j => ψ i * (starRingEnd ℂ) (ψ j)) (flat e a) (flat e b)) =
      fun a b => ((splitAmp (flat e a) : ℂ) * ψ (fun j => ∑ k, flat e a j k)) * (starRingEnd ℂ) ((splitAmp (flat e b) : ℂ) * ψ (fun j => ∑ k, flat e b j k)) := by
    funext a b
    rw [splitState, map_mul, Complex.conj_ofReal]
    ring
  rw [h1, pure_outcome rfl A' γ' hAs c (fun a => (splitAmp (flat e a) : ℂ) * ψ (fun j => ∑ k, flat e a j k)) (split_wave hF e A hA γ c ψ hψ) (along e 0 n) (along e 0 α)]
  have hlist : (List.range m).map (along e 0 n) = List.ofFn fun x : Fin m => n (e (Fin.castAdd r x)).1 (e (Fin.castAdd r x)).2 := by
    apply List.ext_getElem
    · simp
    · intro x h1 h2
      simp only [List.length_map, List.length_range] at h1
      simp only [List.getElem_map, List.getElem_range, List.getElem_ofFn]
      exact along_fin e 0 n (Fin.castAdd r ⟨x, h1⟩)
  have htot : ∀ j : Fin M, (∑ x : Fin m, if (e (Fin.castAdd r x)).1 = j then n (e (Fin.castAdd r x)).1 (e (Fin.castAdd r x)).2 else 0) = ∑ k ∈ Finset.range (cnt j), n j k := by
    intro j
    rw [sum_first e (fun p => (p.2 : ℕ) < cnt p.1) he fun p => if p.1 = j then n p.1 p.2 else 0, Fintype.sum_prod_type, Finset.sum_eq_single j]
    · simp only [if_true]
      rw [Fin.sum_univ_eq_sum_range (fun k => if k < cnt j then n j k else 0) F, ← Finset.sum_filter]
      congr 1
      ext k
      simp only [Finset.mem_filter, Finset.mem_range]
      have := hcnt j j.2
      omega
    · intro j' _ hj'
      simp [hj']
    · simp
  have hprod : ∏ i : Fin m, ((along e 0 n i).factorial : ℝ) = ∏ j ∈ Finset.range M, ∏ k ∈ Finset.range (cnt j), ((n j k).factorial : ℝ) := by
    have h2 : ∀ i : Fin m, ((along e 0 n i).factorial : ℝ) = ((n (e (Fin.castAdd r i)).1 (e (Fin.castAdd r i)).2).factorial : ℝ) := fun i => by
      rw [← along_fin e 0 n (Fin.castAdd r i)]; rfl
    simp only [h2]
    rw [prod_first e (fun p => (p.2 : ℕ) < cnt p.1) he fun p => ((n p.1 p.2).factorial : ℝ), Fintype.prod_prod_type, Finset.prod_range]
    refine Finset.prod_congr rfl fun j _ => ?_
    rw [Fin.prod_univ_eq_prod_range (fun k => if k < cnt j then ((n j k).factorial : ℝ) else 1) F, ← Finset.prod_filter]
    congr 1
    ext k
    simp only [Finset.mem_filter, Finset.mem_range]
    have := hcnt j j.2
    omega
  rw [hprod]
  congr 3
  have hperm := perm_totals (fun x : Fin m => (e (Fin.castAdd r x)).1) (fun x : Fin m => n (e (Fin.castAdd r x)).1 (e (Fin.castAdd r x)).2) (along e 0 fun j _ => j)
    fun x => along_fin e 0 (fun j _ => j) (Fin.castAdd r x)
  simp only [htot] at hperm
  have hlist2 : (List.ofFn fun j : Fin M => ∑ k ∈ Finset.range (cnt j), n j k) = (List.range M).map fun j => ∑ k ∈ Finset.range (cnt j), n j k := by
    apply List.ext_getElem <;> simp
  rw [hlist2, ← hlist] at hperm
  have hlt : ∀ i ∈ repeatedIndices ((List.range m).map (along e 0 n)), i < m + r := fun i hi => by
    have := repeatedIndices_lt hi
    simp at this
    omega
  have hmem : ∀ i ∈ (repeatedIndices ((List.range m).map (along e 0 n))).map (along e 0 fun j _ => j), i < M := by
    intro i hi
    obtain ⟨x, hx, rfl⟩ := List.mem_map.mp hi
    rw [along, dif_pos (hlt x hx)]
    exact (e ⟨x, hlt x hx⟩).1.2
  rw [← lh_perm_mem _ _ (fun i hi j hj => by rw [hA i (hmem i hi) j (hmem j hj)]) hperm, lh_map]
  apply lh_congr
  · intro i hi
    have h3 := hlt i hi
    rw [gammaRest, Function.comp_apply, fanGamma]
    have hj : along e 0 (fun j _ => j) i = (e ⟨i, h3⟩).1 := dif_pos h3
    have hγi : γ' i = γ (e ⟨i, h3⟩).1 / (Real.sqrt F : ℝ) := dif_pos h3
    rw [hj, hγi]
    congr 1
    rw [Finset.sum_Ico_eq_sum_range, Nat.add_sub_cancel_left, Finset.sum_range]
    have h4 : ∀ y : Fin r, A' i (m + y) * along e 0 α (m + y) = A (e ⟨i, h3⟩).1 (e (Fin.natAdd m y)).1 / F * α (e (Fin.natAdd m y)).1 (e (Fin.natAdd m y)).2 := fun y => by
      have h5 : m + (y : ℕ) < m + r := by have := y.2; omega
      simp only [hA', along, dif_pos h3, dif_pos h5]
      rfl
    have h6 : ∀ y : Fin r, A' i (m + y) * along e 0 α (m + y) = (fun p : Fin M × Fin F => A (e ⟨i, h3⟩).1 p.1 / F * α p.1 p.2) (e (Fin.natAdd m y)) := h4
    have h7 := sum_last e (fun p => (p.2 : ℕ) < cnt p.1) he fun p : Fin M × Fin F => A (e ⟨i, h3⟩).1 p.1 / F * α p.1 p.2
    rw [Finset.sum_congr rfl fun y _ => h6 y, h7, Fintype.sum_prod_type, Finset.sum_range]
    refine Finset.sum_congr rfl fun j _ => ?_
    rw [Finset.mul_sum, Fin.sum_univ_eq_sum_range (fun k => if k < cnt j then 0 else A (e ⟨i, h3⟩).1 j / F * α j k) F]
    have h8 : ∀ k, (if k < cnt j then 0 else A (e ⟨i, h3⟩).1 j / F * α j k) = if ¬ k < cnt j then A (e ⟨i, h3⟩).1 j / F * α j k else 0 := fun k => by
      split_ifs <;> rfl
    simp only [h8]
    rw [← Finset.sum_filter]
    congr 1
    ext k
    simp only [Finset.mem_filter, Finset.mem_range, Finset.mem_Ico]
    omega
  · intro i hi i' hi'
    simp only [hA', along, dif_pos (hlt i hi), dif_pos (hlt i' hi')]
end

end Verif.Lemmas.Fan
