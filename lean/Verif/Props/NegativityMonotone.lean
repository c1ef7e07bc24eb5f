/-
C107: the logarithmic negativity does not increase when modes are discarded.
-/
import Verif.Lemmas.Klein
import Verif.Props.TraceNorm
import Verif.Props.FidelityMonotone

set_option linter.unusedSectionVars false

namespace Verif.Props

open Matrix Verif.Spec Verif.Model Verif.Model.Symp Verif.Model.Ent Verif.Lemmas Verif.Lemmas.Symp Verif.Lemmas.FPar Verif.Lemmas.FTr Verif.Lemmas.Heis Verif.Lemmas.Klein

open scoped ComplexOrder

noncomputable section

section abstract

variable {E : Type} [NormedAddCommGroup E] [InnerProductSpace ℂ E] [CompleteSpace E] {I B C : Type}

/-- a sum of rank-one operators -/
theorem exists_mixture (w : B → ℝ) (v : B → E) (hs : Summable fun b => |w b| * ‖v b‖ ^ 2) :
    ∃ T : E →L[ℂ] E, ∀ x y, HasSum (fun b => (w b : ℂ) * (inner ℂ x (v b) * inner ℂ (v b) y)) (inner ℂ x (T y)) := by
  have hA : Summable fun b => (w b : ℂ) • (innerSL ℂ (v b)).smulRight (v b) := by
    refine Summable.of_norm (hs.congr fun b => ?_)
    rw [norm_smul, ContinuousLinearMap.norm_smulRight_apply, innerSL_apply_norm, Complex.norm_real, Real.norm_eq_abs, pow_two]
  refine ⟨∑' b, (w b : ℂ) • (innerSL ℂ (v b)).smulRight (v b), fun x y => ?_⟩
  have h1 := ((hA.hasSum.mapL (ContinuousLinearMap.apply ℂ E y)).mapL (innerSL ℂ x))
  refine h1.congr_fun fun b => ?_
  change (w b : ℂ) * (inner ℂ x (v b) * inner ℂ (v b) y) = inner ℂ x ((w b : ℂ) • (inner ℂ (v b) y : ℂ) • v b)
  rw [inner_smul_right, inner_smul_right]
  ring

/-- two sums of rank-one operators with the same matrix elements have the same expectation values -/
theorem mixture_eq (b₀ : HilbertBasis I ℂ E) (w : B → ℝ) (v : B → E) (hs : Summable fun b => |w b| * ‖v b‖ ^ 2) (w' : C → ℝ) (v' : C → E) (hs' : Summable fun b => |w' b| * ‖v' b‖ ^ 2) (ρ : I → I → ℂ)
    (h : ∀ i j, HasSum (fun b => (w b : ℂ) * (inner ℂ (b₀ i) (v b) * inner ℂ (v b) (b₀ j))) (ρ i j)) (h' : ∀ i j, HasSum (fun b => (w' b : ℂ) * (inner ℂ (b₀ i) (v' b) * inner ℂ (v' b) (b₀ j))) (ρ i j)) (x : E) :
    ∃ z : ℝ, HasSum (fun b => w b * ‖inner ℂ (v b) x‖ ^ 2) z ∧ HasSum (fun b => w' b * ‖inner ℂ (v' b) x‖ ^ 2) z := by
  obtain ⟨T, hT⟩ := exists_mixture w v hs
  obtain ⟨T', hT'⟩ := exists_mixture w' v' hs'
  have hTT : T = T' := by
    refine ContinuousLinearMap.ext_on (Submodule.dense_iff_topologicalClosure_eq_top.mpr b₀.dense_span) ?_
    rintro _ ⟨j, rfl⟩
    apply b₀.repr.injective
    refine lp.ext (funext fun i => ?_)
    rw [b₀.repr_apply_apply, b₀.repr_apply_apply, (hT _ _).unique (h i j), (hT' _ _).unique (h' i j)]
  have key : ∀ {D : Type} (u : D → ℝ) (y : D → E), (∀ x z, HasSum (fun b => (u b : ℂ) * (inner ℂ x (y b) * inner ℂ (y b) z)) (inner ℂ x (T z))) → HasSum (fun b => u b * ‖inner ℂ (y b) x‖ ^ 2) (inner ℂ x (T x)).re :=
    fun u y hu => by
      refine (Complex.hasSum_re (hu x x)).congr_fun fun b => ?_
      rw [← inner_conj_symm x (y b), Complex.conj_mul', ← Complex.ofReal_pow, ← Complex.ofReal_mul, Complex.ofReal_re]
  exact ⟨_, key w v hT, key w' v' (hTT ▸ hT')⟩

end abstract

section trace

variable {I J X : Type} [DecidableEq I] [DecidableEq J] [DecidableEq X] {M : X → X → ℂ} {M' : I → I → ℂ}

/-- the partial trace does not increase the trace norm -/
theorem traceNorm_partial (e : X ≃ I × J) (hM' : ∀ i i', HasSum (fun j => M (e.symm (i, j)) (e.symm (i', j))) (M' i i')) {s t : ℝ} (h : HasTraceNorm M t) (h' : HasTraceNorm M' s) : s ≤ t := by
  obtain ⟨p, V, hV, hp, ht⟩ := h
  obtain ⟨q, W, hW, hq, hs⟩ := h'
  have hcol : ∀ m, HasSum (fun x => ‖V x m‖ ^ 2) 1 := fun m => by
    have h1 := hV.cols m m
    rw [if_pos rfl, ← Complex.ofReal_one] at h1
    refine Complex.hasSum_ofReal.mp (h1.congr_fun fun x => ?_)
    rw [Complex.conj_mul']; push_cast; rfl
  have hcol' : ∀ m, HasSum (fun y : J × I => ‖V (e.symm (y.2, y.1)) m‖ ^ 2) 1 := fun m => (Equiv.prodComm J I).hasSum_iff.mpr (e.symm.hasSum_iff.mpr (hcol m))
  have hin : ∀ m j, Summable fun i => ‖V (e.symm (i, j)) m‖ ^ 2 := fun m j => (hcol' m).summable.prod_factor j
  let v : X × J → L2 I := fun b => toL2 (fun i => V (e.symm (i, b.2)) b.1) (hin b.1 b.2)
  have hvn : ∀ b, HasSum (fun i => ‖V (e.symm (i, b.2)) b.1‖ ^ 2) (‖v b‖ ^ 2) := fun b => by
    have h1 := lp.hasSum_inner (𝕜 := ℂ) (v b) (v b)
    rw [inner_self_eq_norm_sq_to_K, ← RCLike.ofReal_pow] at h1
    refine Complex.hasSum_ofReal.mp (h1.congr_fun fun i => ?_)
    rw [inner_self_eq_norm_sq_to_K]
    simp [v, toL2_apply]
  have hb : HasSum (fun b : X × J => |p b.1| * ‖v b‖ ^ 2) t := by
    refine hasSum_prod_nonneg (fun b => by positivity) (fun m => ?_) ht
    have h1 := ((hcol' m).prod_fiberwise fun j => hvn (m, j)).mul_left |p m|
    rwa [mul_one] at h1
  let b₀ : HilbertBasis I ℂ (L2 I) := default
  have hb₀ : ∀ (u : L2 I) i, inner ℂ (b₀ i) u = u i := fun u i => by
    rw [← b₀.repr_apply_apply]; rfl
  obtain ⟨bW, hbW⟩ := exists_basis hW
  have hmix : ∀ i i', HasSum (fun b : X × J => (p b.1 : ℂ) * (inner ℂ (b₀ i) (v b) * inner ℂ (v b) (b₀ i'))) (M' i i') := fun i i' => by
    have hs : Summable fun b : X × J => (p b.1 : ℂ) * (inner ℂ (b₀ i) (v b) * inner ℂ (v b) (b₀ i')) := by
      refine Summable.of_norm_bounded hb.summable fun b => ?_
      rw [norm_mul, norm_mul, Complex.norm_real, Real.norm_eq_abs, pow_two, norm_inner_symm (v b)]
      have hn : ∀ k, ‖(inner ℂ (b₀ k) (v b) : ℂ)‖ ≤ ‖v b‖ := fun k => by
        refine (norm_inner_le_norm _ _).trans ?_
        rw [b₀.orthonormal.1 k, one_mul]
      exact mul_le_mul_of_nonneg_left (mul_le_mul (hn i) (hn i') (norm_nonneg _) (norm_nonneg _)) (abs_nonneg _)
    have h1 := ((Equiv.prodComm J X).hasSum_iff.mpr hs.hasSum).prod_fiberwise (g := fun j => M (e.symm (i, j)) (e.symm (i', j))) fun j => by
      refine (hp _ _).congr_fun fun m => ?_
      simp only [Function.comp_apply, Equiv.prodComm_apply, Prod.swap]
      rw [← inner_conj_symm (v (m, j)) (b₀ i'), hb₀, hb₀]
      simp [v, toL2_apply]
    rw [(hM' i i').unique h1]
    exact hs.hasSum
  have hmixW : ∀ i i', HasSum (fun k => (q k : ℂ) * (inner ℂ (b₀ i) (bW k) * inner ℂ (bW k) (b₀ i'))) (M' i i') := fun i i' => by
    refine (hq i i').congr_fun fun k => ?_
    rw [← inner_conj_symm (bW k) (b₀ i'), hb₀, hb₀, hbW, hbW]
  have hqs : Summable fun k => |q k| * ‖bW k‖ ^ 2 := by
    refine hs.summable.congr fun k => ?_
    rw [bW.orthonormal.1 k]; ring
  have hqk : ∀ k, HasSum (fun b : X × J => p b.1 * ‖inner ℂ (v b) (bW k)‖ ^ 2) (q k) := fun k => by
    obtain ⟨z, h1, h2⟩ := mixture_eq b₀ (fun b : X × J => p b.1) v hb.summable q bW hqs M' hmix hmixW (bW k)
    have h3 : HasSum (fun l => q l * ‖inner ℂ (bW l) (bW k)‖ ^ 2) (q k) := by
      refine hs_eq (hasSum_ite_eq k (q k)) (fun l => ?_) rfl
      have h4 := orthonormal_iff_ite.mp bW.orthonormal l k
      rw [h4]
      by_cases hl : l = k
      · simp [hl]
      · simp [hl]
    rw [h3.unique h2]
    exact h1
  have hfull : HasSum (fun y : (X × J) × I => |p y.1.1| * ‖inner ℂ (v y.1) (bW y.2)‖ ^ 2) t := by
    refine hasSum_prod_nonneg (fun y => by positivity) (fun b => ?_) hb
    refine HasSum.mul_left _ ?_
    have h1 := bW.hasSum_inner_mul_inner (v b) (v b)
    rw [inner_self_eq_norm_sq_to_K, ← RCLike.ofReal_pow] at h1
    refine Complex.hasSum_ofReal.mp (h1.congr_fun fun k => ?_)
    rw [← inner_conj_symm (bW k) (v b), Complex.mul_conj', Complex.ofReal_pow]
  have hsw := (Equiv.prodComm I (X × J)).hasSum_iff.mpr hfull
  have hfib : ∀ k, Summable fun b : X × J => |p b.1| * ‖inner ℂ (v b) (bW k)‖ ^ 2 := fun k => hsw.summable.prod_factor k
  refine hasSum_le (fun k => ?_) hs (hsw.prod_fiberwise fun k => (hfib k).hasSum)
  rw [← (hqk k).tsum_eq, ← Real.norm_eq_abs]
  refine (norm_tsum_le_tsum_norm ?_).trans_eq (tsum_congr fun b => ?_)
  · refine (hfib k).congr fun b => ?_
    rw [norm_mul, Real.norm_eq_abs, Real.norm_of_nonneg (by positivity)]
  · rw [norm_mul, Real.norm_eq_abs, Real.norm_of_nonneg (by positivity)]

end trace

section gaussian

variable {N M : ℕ} {hbar : ℝ}

/-- the partial transpose of the modes that are kept -/
theorem occSplit_swap (f : Fin M → Fin N) (hf : Function.Injective f) (A : Finset (Fin N)) (A' : Finset (Fin M)) (hA : ∀ k, k ∈ A' ↔ f k ∈ A) (i i' : Fin M → ℕ) (j : {k : Fin N // k ∉ Set.range f} → ℕ) :
    (fun k => if k ∈ A then (occSplit f hf).symm (i', j) k else (occSplit f hf).symm (i, j) k) = (occSplit f hf).symm (fun k => if k ∈ A' then i' k else i k, j) := by
  have h1 : ∀ i k, (occSplit f hf).symm (i, j) (f k) = i k := fun i k => congrFun (congrArg Prod.fst ((occSplit f hf).apply_symm_apply (i, j))) k
  have h2 : ∀ i (k : {k : Fin N // k ∉ Set.range f}), (occSplit f hf).symm (i, j) k = j k := fun i k => congrFun (congrArg Prod.snd ((occSplit f hf).apply_symm_apply (i, j))) k
  funext k
  by_cases hk : k ∈ Set.range f
  · obtain ⟨k, rfl⟩ := hk
    rw [h1, h1, h1]
    simp only [hA]
  · rw [h2 _ ⟨k, hk⟩, h2 _ ⟨k, hk⟩, h2 _ ⟨k, hk⟩, ite_self]

variable (eigvals : ℕ → RArr → ℕ → ℂ) (he : EigvalsContract eigvals) (close : ℝ → ℝ → Bool) (hc : ∀ x y, close x y = true ↔ x = y)

include he hc

/-- the logarithmic negativity does not increase when modes are discarded -/
theorem logNegativity_restrict (hh : 0 < hbar) (f : Fin M → Fin N) (hf : Function.Injective f) (cov c : RArr) (hph : Physical (phase N N cov) hbar) (hcv : phase M M c = resM (phase N N cov) f) (a a' : ModesArg)
    (sp sp' : Option PyInt) (l l' : List ℕ) (hl : getPartition a sp N = .ok l) (hl' : getPartition a' sp' M = .ok l') (hm : ∀ k : Fin M, (k : ℕ) ∈ l' ↔ (f k : ℕ) ∈ l) :
    ∃ r r', logNegativity eigvals close 0 (2 * N) (2 * N) cov a sp hbar = .ok r ∧ logNegativity eigvals close 0 (2 * M) (2 * M) c a' sp' hbar = .ok r' ∧ r' ≤ r := by
  obtain ⟨ρ, _, _, -, hρ, -⟩ := fock_gram (N := N) 0 hh hph
  obtain ⟨hpc, ρ', hρ', ht⟩ := fock_restrict hh f hf (m := 0) (c := c) hph (by ext p; rcases p with p | p <;> rfl) hcv hρ
  obtain ⟨r, hr, -⟩ := logNegativity_zero_iff eigvals he close hc cov hbar hh hph a sp l hl
  obtain ⟨r', hr', -⟩ := logNegativity_zero_iff eigvals he close hc c hbar hh hpc a' sp' l' hl'
  refine ⟨r, r', hr, hr', Real.exp_le_exp.mp (traceNorm_partial (occSplit f hf) (fun i i' => ?_) ((logNegativity_traceNorm eigvals he close hc 0 cov hbar hh hph a sp l hl ρ hρ r).mp hr)
    ((logNegativity_traceNorm eigvals he close hc 0 c hbar hh hpc a' sp' l' hl' ρ' hρ' r').mp hr'))⟩
  have hA : ∀ k : Fin M, k ∈ (modeSet l' : Finset (Fin M)) ↔ f k ∈ (modeSet l : Finset (Fin N)) := fun k => by simpa [modeSet] using hm k
  refine (ht _ _).congr_fun fun j => ?_
  rw [fockTranspose, occSplit_swap f hf _ _ hA i i' j, occSplit_swap f hf _ _ hA i' i j]

/-- **C107** `log_negativity` of the state returned by `reduced_state` for a list of distinct modes is at most the logarithmic negativity of the state, for the partition of the modes that are kept -/
theorem logNegativity_reduced (hh : 0 < hbar) (s : GState ℝ) (hs : s.len = 2 * N) (hps : Physical (phase N N s.cov) hbar) (modes : List ℕ) (hne : modes ≠ []) (hn : modes.Nodup) (hb : ∀ m ∈ modes, m < N)
    (a a' : ModesArg) (sp sp' : Option PyInt) (l l' : List ℕ) (hl : getPartition a sp N = .ok l) (hl' : getPartition a' sp' modes.length = .ok l') (hm : ∀ k (hk : k < modes.length), k ∈ l' ↔ modes[k] ∈ l) :
    ∃ s' r r', reducedState s modes = .ok s' ∧ logNegativity eigvals close 0 (2 * N) (2 * N) s.cov a sp hbar = .ok r ∧
      logNegativity eigvals close 0 (2 * modes.length) (2 * modes.length) s'.cov a' sp' hbar = .ok r' ∧ r' ≤ r := by
  obtain ⟨s', hs', hrs⟩ := reducedState_eq N s hs modes hne hb
  obtain ⟨f, hf, hfa, -, c1⟩ := reduction_restrict s s' modes hn hb hrs
  obtain ⟨r, r', h⟩ := logNegativity_restrict eigvals he close hc hh f hf s.cov s'.cov hps c1 a a' sp sp' l l' hl hl' fun k => by rw [hfa]; exact hm k k.2
  exact ⟨s', r, r', hs', h⟩

/-- **C107** `loss` on a mode, with any thermal environment, does not increase the logarithmic negativity -/
theorem logNegativity_loss (hh : 0 < hbar) (s : GState ℝ) (hs : s.len = 2 * N) (hps : Physical (phase N N s.cov) hbar) (T nbar : ℝ) (h0 : 0 ≤ T) (h1 : T ≤ 1) (hn : 0 ≤ nbar) (m : Fin N) (a : ModesArg)
    (sp : Option PyInt) (l : List ℕ) (hl : getPartition a sp N = .ok l) :
    ∃ s' r r', loss s T m nbar hbar = .ok s' ∧ logNegativity eigvals close 0 (2 * N) (2 * N) s.cov a sp hbar = .ok r ∧ logNegativity eigvals close 0 (2 * N) (2 * N) s'.cov a sp hbar = .ok r' ∧ r' ≤ r := by
  obtain ⟨cov₂, hcov₂⟩ := exists_cov (N := 1) (((2 * nbar + 1) * hbar / 2) • 1)
  obtain ⟨mu₂, hmu₂⟩ := exists_phaseVec (N := 1) 0
  have hpe := (thermal_fock hh nbar hn mu₂ cov₂ hmu₂ hcov₂).1
  obtain ⟨j, hj⟩ := independent_exists N 1 s ⟨2, mu₂, cov₂⟩
  have hlt := getPartition_range a sp N l hl
  let l₂ : List ℕ := if (m : ℕ) ∈ l then [0] else []
  let l₁ : List ℕ := if (m : ℕ) ∈ l then N :: l else l
  have hl₂ : getPartition (.seq (l₂.map fun m : ℕ => PyInt.int (m : ℤ))) none 1 = .ok l₂ := (getPartition_ok_iff _ _ _ _).mpr (Or.inr (Or.inl ⟨rfl, fun k hk => by
    simp only [l₂] at hk
    split_ifs at hk <;> simp at hk
    omega⟩))
  have hmem : ∀ k, k ∈ l₁ ↔ (k = N ∧ (m : ℕ) ∈ l) ∨ k ∈ l := fun k => by
    simp only [l₁]
    split_ifs with h <;> simp [h]
  have hl₁ : getPartition (.seq (l₁.map fun m : ℕ => PyInt.int (m : ℤ))) none (N + 1) = .ok l₁ := (getPartition_ok_iff _ _ _ _).mpr (Or.inr (Or.inl ⟨rfl, fun k hk => by
    rcases (hmem k).mp hk with ⟨rfl, -⟩ | h
    · omega
    · have := hlt k h; omega⟩))
  have e1 : ∀ k < N, k ∈ l₁ ↔ k ∈ l := fun k hk => by
    rw [hmem]
    constructor
    · rintro (⟨h, -⟩ | h)
      · omega
      · exact h
    · exact .inr
  have e2 : ∀ k < 1, N + k ∈ l₁ ↔ k ∈ l₂ := fun k hk => by
    obtain rfl : k = 0 := by omega
    rw [hmem]
    have : N ∉ l := fun h => by have := hlt N h; omega
    simp only [l₂]
    split_ifs with h <;> simp [h, this]
  obtain ⟨r, z, hr, hz, hrz⟩ := logNegativity_additive eigvals he close hc hj hbar hh hps hpe _ a _ none sp none l₁ l l₂ hl₁ hl hl₂ e1 e2
  have hz0 : z = 0 := by
    have h2 := logNegativity_separable eigvals he close hc cov₂ hbar hh hpe _ none l₂ hl₂ _ hpe (fun p q hpq => by
      have e : Sum.elim id id p = Sum.elim id id q := Subsingleton.elim (α := Fin 1) _ _
      rw [e] at hpq
      tauto) (by rw [sub_self]; exact PosSemidef.zero)
    exact Except.ok.inj (hz.symm.trans h2)
  rw [hz0, add_zero] at hrz
  have pj := independent_physical hj hbar hps hpe
  obtain ⟨S, hSe⟩ : ∃ S, S = embed (both (lossModes m)) (phase 2 2 (Symp.beamSplitter (Real.arccos (Real.sqrt T)) 0)) := ⟨_, rfl⟩
  have hS : S ∈ symplecticGroup (Fin (N + 1)) ℝ := hSe ▸ embed_symp _ (lossModes_injective m) _ (beamSplitter_symplectic _ _)
  obtain ⟨cj, hcj⟩ := exists_cov (S * phase (N + 1) (N + 1) j.cov * Sᵀ)
  have hside : ∀ x : Fin 2, (lossModes m x ∈ (modeSet l₁ : Finset (Fin (N + 1))) ↔ (m : ℕ) ∈ l) := fun x => by
    fin_cases x
    · simpa [lossModes, modeSet] using e1 m m.2
    · have : N ∉ l := fun h => by have := hlt N h; omega
      simp [lossModes, modeSet, hmem, this]
  have hloc : Uncorrelated (modeSet l₁) S := fun p q hpq => by
    have hne : p ≠ q := fun h => by rw [h] at hpq; tauto
    rw [hSe, embed, Matrix.add_apply, Matrix.one_apply_ne hne, zero_add, Matrix.mul_apply]
    refine Finset.sum_eq_zero fun y _ => ?_
    by_cases hq : both (lossModes m) y = q
    · rw [Matrix.mul_apply, Finset.sum_mul]
      refine Finset.sum_eq_zero fun x _ => ?_
      by_cases hp : both (lossModes m) x = p
      · exfalso
        have hs : ∀ x : Fin 2 ⊕ Fin 2, Sum.elim id id (both (lossModes m) x) ∈ (modeSet l₁ : Finset (Fin (N + 1))) ↔ (m : ℕ) ∈ l := fun x => by
          rcases x with x | x <;> exact hside x
        rw [← hp, ← hq, hs, hs] at hpq
        tauto
      · simp [inj, hp, Ne.symm hp]
    · simp [inj, hq, Ne.symm hq]
  have hinv := logNegativity_local eigvals he close hc j.cov cj hbar hh pj _ none l₁ hl₁ S hS hloc hcj
  have hmom := loss_moments (hbar := hbar) s T nbar h0 h1 m j.mu j.cov (by rw [independent_mean hj, hmu₂]) (by rw [independent_cov hj, hcov₂]) S hSe
  obtain ⟨r₂, r', hr₂, hr', hle⟩ := logNegativity_restrict eigvals he close hc hh Fin.castSucc (Fin.castSucc_injective N) cj (lossState N s T m nbar hbar).cov (by rw [hcj]; exact physical_symplectic _ _ hbar pj hS)
    (by rw [hcj]; exact hmom.2.symm) _ a none sp l₁ l hl₁ hl fun k => (e1 k k.2).symm
  rw [hinv, hrz] at hr₂
  exact ⟨_, r, r', loss_eq N s hs T h0 m m.2 nbar hbar, hr, hr', (Except.ok.inj hr₂) ▸ hle⟩

/-- the hypotheses hold for a two-mode squeezed vacuum, whose logarithmic negativity is positive and becomes zero when all light of a mode is lost -/
example : ∃ (s' : GState ℝ) (r : ℝ), loss ⟨4, fun _ => 0, tmsExample⟩ 0 0 0 2 = .ok s' ∧ logNegativity eigvals close 0 4 4 tmsExample .none (some (.int 1)) 2 = .ok r ∧ 0 < r ∧
    logNegativity eigvals close 0 4 4 s'.cov .none (some (.int 1)) 2 = .ok 0 := by
  have hp : Physical (phase 2 2 tmsExample) 2 := (physical_iff_spectrum _ 2 (by norm_num) _ tmsExample_spec).mpr fun _ => by norm_num
  obtain ⟨s', r, r', h1, h2, h3, -⟩ := logNegativity_loss (N := 2) eigvals he close hc (by norm_num) ⟨4, fun _ => 0, tmsExample⟩ rfl hp 0 0 le_rfl zero_le_one le_rfl 0 .none (some (.int 1)) [0] (by decide)
  have e1 := h1.symm.trans (loss_eq 2 ⟨4, fun _ => 0, tmsExample⟩ rfl 0 le_rfl 0 (by norm_num) 0 2)
  obtain rfl := Except.ok.inj e1
  refine ⟨_, r, h1, h2, ?_, ?_⟩
  · rw [← Except.ok.inj ((logNegativity_tms eigvals he close hc).symm.trans h2)]
    exact Real.log_pos (by norm_num)
  · have hp' := physical_loss (N := 2) _ _ rfl 0 0 2 le_rfl zero_le_one le_rfl (by norm_num) _ (by norm_num) hp h1
    refine logNegativity_separable eigvals he close hc _ 2 (by norm_num) hp' _ _ [0] (by decide) _ hp' (fun p q hpq => ?_) (by rw [sub_self]; exact PosSemidef.zero)
    rcases p with p | p <;> rcases q with q | q <;> fin_cases p <;> fin_cases q <;> simp [modeSet] at hpq <;> simp [lossState, phase, quad, fac]

end gaussian

end

end Verif.Props
