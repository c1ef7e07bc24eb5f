/-
C104: independent systems.
-/
import Verif.Spec.Independent
import Verif.Props.LossFock
import Verif.Props.FidelityLaws

namespace Verif.Props

open Matrix Verif.Spec Verif.Model Verif.Model.Symp Verif.Model.Ent Verif.Model.Fid Verif.Lemmas Verif.Lemmas.Symp Verif.Lemmas.FPar Verif.Lemmas.FTr Verif.Lemmas.Heis

noncomputable section

variable {N M : ℕ} {s s₁ s₂ : GState ℝ}

theorem quad_first (p : Fin N ⊕ Fin N) : firstQuad N M (quad N p) = quad (N + M) (Sum.map (Fin.castAdd M) (Fin.castAdd M) p) := by
  rcases p with p | p <;> simp [firstQuad, quad]
  omega

theorem quad_second (p : Fin M ⊕ Fin M) : secondQuad N M (quad M p) = quad (N + M) (Sum.map (Fin.natAdd N) (Fin.natAdd N) p) := by
  rcases p with p | p <;> simp [secondQuad, quad]
  omega

theorem quad_lt (p : Fin N ⊕ Fin N) : quad N p < 2 * N := by
  rcases p with p | p <;> simp [quad] <;> omega

theorem independent_mean (h : Independent N M s s₁ s₂) : resV (phaseVec (N + M) s.mu) finSumFinEquiv = prodV (phaseVec N s₁.mu) (phaseVec M s₂.mu) := by
  funext p
  obtain ⟨p, rfl⟩ := (shuf (Fin N) (Fin M)).surjective p
  rcases p with p | p
  · have := h.mean₁ _ (quad_lt p)
    rw [quad_first] at this
    rcases p with p | p <;> simpa [resV, prodV, shuf, phaseVec] using this
  · have := h.mean₂ _ (quad_lt p)
    rw [quad_second] at this
    rcases p with p | p <;> simpa [resV, prodV, shuf, phaseVec] using this

theorem independent_cov (h : Independent N M s s₁ s₂) : resM (phase (N + M) (N + M) s.cov) finSumFinEquiv = prodM (phase N N s₁.cov) (phase M M s₂.cov) := by
  ext p q
  obtain ⟨p, rfl⟩ := (shuf (Fin N) (Fin M)).surjective p
  obtain ⟨q, rfl⟩ := (shuf (Fin N) (Fin M)).surjective q
  rcases p with p | p <;> rcases q with q | q
  · have := h.cov₁ _ (quad_lt p) _ (quad_lt q)
    rw [quad_first, quad_first] at this
    rcases p with p | p <;> rcases q with q | q <;> simpa [resM, prodM, shuf, phase] using this
  · have := (h.cross _ (quad_lt p) _ (quad_lt q)).1
    rw [quad_first, quad_second] at this
    rcases p with p | p <;> rcases q with q | q <;> simpa [resM, prodM, shuf, phase] using this
  · have := (h.cross _ (quad_lt q) _ (quad_lt p)).2
    rw [quad_first, quad_second] at this
    rcases p with p | p <;> rcases q with q | q <;> simpa [resM, prodM, shuf, phase] using this
  · have := h.cov₂ _ (quad_lt p) _ (quad_lt q)
    rw [quad_second, quad_second] at this
    rcases p with p | p <;> rcases q with q | q <;> simpa [resM, prodM, shuf, phase] using this

/-- the matrix of `N + M` modes that acts as `A` on the first `N` and as `B` on the last `M` modes -/
def joint (A : Matrix (Fin N ⊕ Fin N) (Fin N ⊕ Fin N) ℝ) (B : Matrix (Fin M ⊕ Fin M) (Fin M ⊕ Fin M) ℝ) : Matrix (Fin (N + M) ⊕ Fin (N + M)) (Fin (N + M) ⊕ Fin (N + M)) ℝ :=
  resM (prodM A B) finSumFinEquiv.symm

/-- the index of `joint` -/
def jIdx (N M : ℕ) : Fin (N + M) ⊕ Fin (N + M) ≃ (Fin N ⊕ Fin N) ⊕ (Fin M ⊕ Fin M) :=
  (Equiv.sumCongr finSumFinEquiv.symm finSumFinEquiv.symm).trans (shuf (Fin N) (Fin M)).symm

theorem joint_eq (A : Matrix (Fin N ⊕ Fin N) (Fin N ⊕ Fin N) ℝ) (B : Matrix (Fin M ⊕ Fin M) (Fin M ⊕ Fin M) ℝ) :
    joint A B = (fromBlocks A 0 0 B).submatrix (jIdx N M) (jIdx N M) := rfl

theorem joint_mul (A A' : Matrix (Fin N ⊕ Fin N) (Fin N ⊕ Fin N) ℝ) (B B' : Matrix (Fin M ⊕ Fin M) (Fin M ⊕ Fin M) ℝ) : joint A B * joint A' B' = joint (A * A') (B * B') := by
  simp only [joint_eq]
  rw [submatrix_mul_equiv, fromBlocks_multiply]
  simp

theorem joint_tr (A : Matrix (Fin N ⊕ Fin N) (Fin N ⊕ Fin N) ℝ) (B : Matrix (Fin M ⊕ Fin M) (Fin M ⊕ Fin M) ℝ) : (joint A B)ᵀ = joint Aᵀ Bᵀ := by
  simp only [joint_eq, transpose_submatrix, fromBlocks_transpose, transpose_zero]

theorem joint_J : joint (J (Fin N) ℝ) (J (Fin M) ℝ) = J (Fin (N + M)) ℝ := by
  ext p q
  obtain ⟨p, rfl⟩ := (Equiv.sumCongr finSumFinEquiv finSumFinEquiv).surjective p
  obtain ⟨q, rfl⟩ := (Equiv.sumCongr finSumFinEquiv finSumFinEquiv).surjective q
  rcases p with (p | p) | (p | p) <;> rcases q with (q | q) | (q | q) <;> simp [joint_eq, jIdx, shuf, Matrix.J, Matrix.one_apply, Fin.ext_iff] <;> omega

theorem joint_symp {S : Matrix (Fin N ⊕ Fin N) (Fin N ⊕ Fin N) ℝ} {T : Matrix (Fin M ⊕ Fin M) (Fin M ⊕ Fin M) ℝ} (hS : S ∈ symplecticGroup (Fin N) ℝ) (hT : T ∈ symplecticGroup (Fin M) ℝ) :
    joint S T ∈ symplecticGroup (Fin (N + M)) ℝ := by
  rw [SymplecticGroup.mem_iff] at hS hT ⊢
  rw [← joint_J, joint_tr, joint_mul, joint_mul, hS, hT]

theorem joint_diag (ν : Fin N → ℝ) (κ : Fin M → ℝ) : joint (diagonal (Sum.elim ν ν)) (diagonal (Sum.elim κ κ)) = diagonal (Sum.elim (Fin.append ν κ) (Fin.append ν κ)) := by
  ext p q
  obtain ⟨p, rfl⟩ := (Equiv.sumCongr finSumFinEquiv finSumFinEquiv).surjective p
  obtain ⟨q, rfl⟩ := (Equiv.sumCongr finSumFinEquiv finSumFinEquiv).surjective q
  rcases p with (p | p) | (p | p) <;> rcases q with (q | q) | (q | q) <;> simp [joint_eq, jIdx, shuf, diagonal_apply, Fin.ext_iff] <;> omega

/-- the symplectic eigenvalues of two independent systems -/
theorem sympSpectrum_joint {A : Matrix (Fin N ⊕ Fin N) (Fin N ⊕ Fin N) ℝ} {B : Matrix (Fin M ⊕ Fin M) (Fin M ⊕ Fin M) ℝ} {ν : Fin N → ℝ} {κ : Fin M → ℝ} (hA : SympSpectrum A ν) (hB : SympSpectrum B κ) :
    SympSpectrum (joint A B) (Fin.append ν κ) := by
  obtain ⟨hp, S, hS, e⟩ := hA
  obtain ⟨hp', T, hT, e'⟩ := hB
  refine ⟨fun i => ?_, joint S T, joint_symp hS hT, ?_⟩
  · induction i using Fin.addCases with
    | left i => simpa using hp i
    | right i => simpa using hp' i
  · rw [← joint_diag, joint_tr, joint_mul, joint_mul, ← e, ← e']

theorem joint_smul (c : ℝ) (A : Matrix (Fin N ⊕ Fin N) (Fin N ⊕ Fin N) ℝ) (B : Matrix (Fin M ⊕ Fin M) (Fin M ⊕ Fin M) ℝ) : joint (c • A) (c • B) = c • joint A B := by
  have : fromBlocks (c • A) 0 0 (c • B) = c • fromBlocks A 0 0 B := by rw [fromBlocks_smul, smul_zero, smul_zero]
  rw [joint_eq, joint_eq, this]
  rfl

theorem independent_joint (h : Independent N M s s₁ s₂) : phase (N + M) (N + M) s.cov = joint (phase N N s₁.cov) (phase M M s₂.cov) := by
  rw [joint, ← independent_cov h]
  ext p q
  rcases p with p | p <;> rcases q with q | q <;> simp [resM]

theorem independent_physical (h : Independent N M s s₁ s₂) (hbar : ℝ) (h1 : Physical (phase N N s₁.cov) hbar) (h2 : Physical (phase M M s₂.cov) hbar) : Physical (phase (N + M) (N + M) s.cov) hbar :=
  product_physical h1 h2 _ (independent_cov h)

/-- **C104** the entropy of two independent systems is the sum of their entropies -/
theorem entropy_additive (eigvals : ℕ → RArr → ℕ → ℂ) (he : EigvalsContract eigvals) (close : ℝ → ℝ → Bool) (hc : ∀ x y, close x y = true ↔ x = y) (h : Independent N M s s₁ s₂) (hbar : ℝ) (hh : 0 < hbar)
    (h1 : Physical (phase N N s₁.cov) hbar) (h2 : Physical (phase M M s₂.cov) hbar) :
    ∃ a b, vonneumannEntropy eigvals close 0 (2 * N) (2 * N) s₁.cov hbar = .ok a ∧ vonneumannEntropy eigvals close 0 (2 * M) (2 * M) s₂.cov hbar = .ok b ∧
      vonneumannEntropy eigvals close 0 (2 * (N + M)) (2 * (N + M)) s.cov hbar = .ok (a + b) := by
  obtain ⟨ν, hν, -⟩ := sympSpectrum_physical _ hbar hh h1
  obtain ⟨κ, hκ, -⟩ := sympSpectrum_physical _ hbar hh h2
  refine ⟨_, _, vonneumannEntropy_correct eigvals he close hc _ hbar h1 ν hν, vonneumannEntropy_correct eigvals he close hc _ hbar h2 κ hκ, ?_⟩
  have hj := sympSpectrum_joint hν hκ
  rw [joint_smul, ← independent_joint h] at hj
  rw [vonneumannEntropy_correct eigvals he close hc _ hbar (independent_physical h hbar h1 h2) _ hj, Fin.sum_univ_add]
  simp

theorem joint_partialTranspose (A : Finset (Fin N)) (B : Finset (Fin M)) (C : Finset (Fin (N + M))) (hA : ∀ k : Fin N, Fin.castAdd M k ∈ C ↔ k ∈ A) (hB : ∀ k : Fin M, Fin.natAdd N k ∈ C ↔ k ∈ B)
    (V : Matrix (Fin N ⊕ Fin N) (Fin N ⊕ Fin N) ℝ) (W : Matrix (Fin M ⊕ Fin M) (Fin M ⊕ Fin M) ℝ) : partialTranspose C (joint V W) = joint (partialTranspose A V) (partialTranspose B W) := by
  ext p q
  obtain ⟨p, rfl⟩ := (Equiv.sumCongr finSumFinEquiv finSumFinEquiv).surjective p
  obtain ⟨q, rfl⟩ := (Equiv.sumCongr finSumFinEquiv finSumFinEquiv).surjective q
  rcases p with (p | p) | (p | p) <;> rcases q with (q | q) | (q | q) <;> simp [joint_eq, jIdx, shuf, partialTranspose, hA, hB]

/-- **C104** the logarithmic negativity of two independent systems is the sum of their logarithmic negativities -/
theorem logNegativity_additive (eigvals : ℕ → RArr → ℕ → ℂ) (he : EigvalsContract eigvals) (close : ℝ → ℝ → Bool) (hc : ∀ x y, close x y = true ↔ x = y) (h : Independent N M s s₁ s₂) (hbar : ℝ) (hh : 0 < hbar)
    (h1 : Physical (phase N N s₁.cov) hbar) (h2 : Physical (phase M M s₂.cov) hbar) (m m₁ m₂ : ModesArg) (sp sp₁ sp₂ : Option PyInt) (l l₁ l₂ : List ℕ) (hl : getPartition m sp (N + M) = .ok l)
    (hl₁ : getPartition m₁ sp₁ N = .ok l₁) (hl₂ : getPartition m₂ sp₂ M = .ok l₂) (hm₁ : ∀ k < N, k ∈ l ↔ k ∈ l₁) (hm₂ : ∀ k < M, N + k ∈ l ↔ k ∈ l₂) :
    ∃ a b, logNegativity eigvals close 0 (2 * N) (2 * N) s₁.cov m₁ sp₁ hbar = .ok a ∧ logNegativity eigvals close 0 (2 * M) (2 * M) s₂.cov m₂ sp₂ hbar = .ok b ∧
      logNegativity eigvals close 0 (2 * (N + M)) (2 * (N + M)) s.cov m sp hbar = .ok (a + b) := by
  have hV : ∀ {K : ℕ} (A : Finset (Fin K)) (V : Matrix (Fin K ⊕ Fin K) (Fin K ⊕ Fin K) ℝ), Physical V hbar → ∃ ν, SympSpectrum (partialTranspose A ((2 / hbar) • V)) ν := fun A V hp =>
    sympSpectrum_exists _ (partialTranspose_posDef A _ ((physical_posDef V hbar hh hp).smul (by positivity)))
  obtain ⟨ν, hν⟩ := hV (modeSet l₁) _ h1
  obtain ⟨κ, hκ⟩ := hV (modeSet l₂) _ h2
  refine ⟨_, _, logNegativity_correct eigvals he close hc _ hbar h1 _ _ l₁ hl₁ ν hν, logNegativity_correct eigvals he close hc _ hbar h2 _ _ l₂ hl₂ κ hκ, ?_⟩
  have hj := sympSpectrum_joint hν hκ
  rw [← joint_partialTranspose _ _ (modeSet l) (fun k => by simpa [modeSet] using hm₁ k k.2) (fun k => by simpa [modeSet] using hm₂ k k.2), joint_smul, ← independent_joint h] at hj
  rw [logNegativity_correct eigvals he close hc _ hbar (independent_physical h hbar h1 h2) _ _ l hl _ hj, Fin.sum_univ_add]
  simp

section Product

variable {I K L : Type} [DecidableEq I] [DecidableEq K] [DecidableEq L] (e : L ≃ I × K)

theorem hasSum_pair {𝕜 : Type} [RCLike 𝕜] {A B C : Type} (e : C ≃ A × B) {f : A → 𝕜} {g : B → 𝕜} {a b : 𝕜} (hf : HasSum f a) (hg : HasSum g b) : HasSum (fun x => f (e x).1 * g (e x).2) (a * b) := by
  have h := hf.mul hg (summable_mul_of_summable_norm hf.summable.norm hg.summable.norm)
  exact (e.hasSum_iff (f := fun x : A × B => f x.1 * g x.2)).mpr h

theorem pair_one (j k : L) : (if (e j).1 = (e k).1 then (1 : ℂ) else 0) * (if (e j).2 = (e k).2 then 1 else 0) = if j = k then 1 else 0 := by
  by_cases h : j = k
  · simp [h]
  · have : ¬ ((e j).1 = (e k).1 ∧ (e j).2 = (e k).2) := fun h' => h (e.injective (Prod.ext h'.1 h'.2))
    rw [if_neg h]
    split_ifs <;> simp_all

variable {U : I → I → ℂ} {V : K → K → ℂ}

theorem unitary_pair (hU : IsUnitaryFock U) (hV : IsUnitaryFock V) : IsUnitaryFock fun x y : L => U (e x).1 (e y).1 * V (e x).2 (e y).2 := by
  refine ⟨fun j k => ?_, fun j k => ?_⟩
  · have h := hasSum_pair e (hU.cols (e j).1 (e k).1) (hV.cols (e j).2 (e k).2)
    rw [pair_one e j k] at h
    refine h.congr_fun fun x => ?_
    rw [map_mul]; ring
  · have h := hasSum_pair e (hU.rows (e j).1 (e k).1) (hV.rows (e j).2 (e k).2)
    rw [pair_one e j k] at h
    refine h.congr_fun fun x => ?_
    rw [map_mul]; ring

theorem spectral_pair {ρ : I → I → ℂ} {σ : K → K → ℂ} {p : I → ℝ} {q : K → ℝ} (hρ : IsSpectral ρ p U) (hσ : IsSpectral σ q V) :
    IsSpectral (fun x y : L => ρ (e x).1 (e y).1 * σ (e x).2 (e y).2) (fun x => p (e x).1 * q (e x).2) fun x y : L => U (e x).1 (e y).1 * V (e x).2 (e y).2 where
  unitary := unitary_pair e hρ.unitary hσ.unitary
  expand i j := by
    refine (hasSum_pair e (hρ.expand (e i).1 (e j).1) (hσ.expand (e i).2 (e j).2)).congr_fun fun x => ?_
    rw [map_mul]; push_cast; ring
  nonneg m := mul_nonneg (hρ.nonneg _) (hσ.nonneg _)
  total := by
    have h := hasSum_pair e hρ.total hσ.total
    rwa [one_mul] at h

/-- the index pairs of a product -/
def pairPairs : L × L ≃ (I × I) × (K × K) := (e.prodCongr e).trans (Equiv.prodProdProdComm I K I K)

/-- **C104** the fidelity of product states is the product of the fidelities -/
theorem hasFidelity_product {ρ σ : I → I → ℂ} {ρ' σ' : K → K → ℂ} {F F' : ℝ} (h : HasFidelity ρ σ F) (h' : HasFidelity ρ' σ' F') :
    HasFidelity (fun x y : L => ρ (e x).1 (e y).1 * ρ' (e x).2 (e y).2) (fun x y : L => σ (e x).1 (e y).1 * σ' (e x).2 (e y).2) (F * F') := by
  obtain ⟨p, V, s, q, W, t, hs, hσ, hW, hq, hx, ht, rfl⟩ := h
  obtain ⟨p', V', s', q', W', t', hs', hσ', hW', hq', hx', ht', rfl⟩ := h'
  refine ⟨_, _, fun x y : L => s (e x).1 (e y).1 * s' (e x).2 (e y).2, fun x => q (e x).1 * q' (e x).2, fun x y : L => W (e x).1 (e y).1 * W' (e x).2 (e y).2, t * t', spectral_pair e hs hs', fun m n => ?_,
    unitary_pair e hW hW', fun k => mul_nonneg (hq _) (hq' _), fun m n => ?_, ?_, by ring⟩
  · refine (hasSum_pair (pairPairs e) (hσ (e m).1 (e n).1) (hσ' (e m).2 (e n).2)).congr_fun fun x => ?_
    show _ = ((starRingEnd ℂ) (V (e x.1).1 (e m).1) * σ (e x.1).1 (e x.2).1 * V (e x.2).1 (e n).1) * ((starRingEnd ℂ) (V' (e x.1).2 (e m).2) * σ' (e x.1).2 (e x.2).2 * V' (e x.2).2 (e n).2)
    rw [map_mul]; ring
  · have hg := hasSum_pair e (hx (e m).1 (e n).1) (hx' (e m).2 (e n).2)
    have hr : ∀ m : L, ((Real.sqrt (p (e m).1 * p' (e m).2) : ℝ) : ℂ) = (Real.sqrt (p (e m).1) : ℂ) * (Real.sqrt (p' (e m).2) : ℂ) := fun m => by
      rw [Real.sqrt_mul (hs.nonneg _)]; push_cast; rfl
    rw [hr, hr, show (Real.sqrt (p (e m).1) : ℂ) * (Real.sqrt (p' (e m).2) : ℂ) * (s (e m).1 (e n).1 * s' (e m).2 (e n).2) * ((Real.sqrt (p (e n).1) : ℂ) * (Real.sqrt (p' (e n).2) : ℂ)) =
      (Real.sqrt (p (e m).1) : ℂ) * s (e m).1 (e n).1 * (Real.sqrt (p (e n).1) : ℂ) * ((Real.sqrt (p' (e m).2) : ℂ) * s' (e m).2 (e n).2 * (Real.sqrt (p' (e n).2) : ℂ)) by ring]
    refine hg.congr_fun fun x => ?_
    rw [map_mul]; push_cast; ring
  · refine (hasSum_pair e ht ht').congr_fun fun x => ?_
    rw [Real.sqrt_mul (hq _)]

end Product

/-- the occupation numbers of the two systems -/
def occPair (N M : ℕ) : (Fin (N + M) → ℕ) ≃ (Fin N → ℕ) × (Fin M → ℕ) := (Fin.appendEquiv N M).symm

theorem occPair_fst (n : Fin (N + M) → ℕ) : (occPair N M n).1 = fun k => n (Fin.castAdd M k) := rfl

theorem occPair_snd (n : Fin (N + M) → ℕ) : (occPair N M n).2 = fun k => n (Fin.natAdd N k) := rfl

/-- **C104** the density matrix of two independent systems is the product of their density matrices -/
theorem fock_independent (h : Independent N M s s₁ s₂) (hbar : ℝ) (hh : 0 < hbar) (h1 : Physical (phase N N s₁.cov) hbar) (h2 : Physical (phase M M s₂.cov) hbar)
    {ρ₁ : (Fin N → ℕ) → (Fin N → ℕ) → ℂ} {ρ₂ : (Fin M → ℕ) → (Fin M → ℕ) → ℂ} (f1 : IsFockMatrix N s₁.mu s₁.cov hbar ρ₁) (f2 : IsFockMatrix M s₂.mu s₂.cov hbar ρ₂) :
    IsFockMatrix (N + M) s.mu s.cov hbar fun i j => ρ₁ (fun k => i (Fin.castAdd M k)) (fun k => j (Fin.castAdd M k)) * ρ₂ (fun k => i (Fin.natAdd N k)) (fun k => j (Fin.natAdd N k)) :=
  product_fock hh h1 h2 (independent_mean h) (independent_cov h) f1 f2

/-- **C104** the fidelity of two pairs of independent systems is the product of their fidelities -/
theorem fidelity_multiplicative {sqrtm : ℕ → RArr → RArr} (hsq : SqrtmDiagContract sqrtm) (close : ℝ → ℝ → Bool) (hc : ∀ x, close x 0 = true → x = 0) {t t₁ t₂ : GState ℝ} (h : Independent N M s s₁ s₂)
    (h' : Independent N M t t₁ t₂) (hbar : ℝ) (hh : 0 < hbar) (h1 : Physical (phase N N s₁.cov) hbar) (h2 : Physical (phase M M s₂.cov) hbar) (h1' : Physical (phase N N t₁.cov) hbar)
    (h2' : Physical (phase M M t₂.cov) hbar) :
    ∃ F G, fidelity sqrtm close (2 * N) s₁.mu (2 * N) (2 * N) s₁.cov (2 * N) t₁.mu (2 * N) (2 * N) t₁.cov hbar = .ok F ∧
      fidelity sqrtm close (2 * M) s₂.mu (2 * M) (2 * M) s₂.cov (2 * M) t₂.mu (2 * M) (2 * M) t₂.cov hbar = .ok G ∧
      fidelity sqrtm close (2 * (N + M)) s.mu (2 * (N + M)) (2 * (N + M)) s.cov (2 * (N + M)) t.mu (2 * (N + M)) (2 * (N + M)) t.cov hbar = .ok (F * G) := by
  obtain ⟨ρ₁, _, _, -, f1, -⟩ := fock_gram (N := N) s₁.mu hh h1
  obtain ⟨ρ₂, _, _, -, f2, -⟩ := fock_gram (N := M) s₂.mu hh h2
  obtain ⟨σ₁, _, _, -, g1, -⟩ := fock_gram (N := N) t₁.mu hh h1'
  obtain ⟨σ₂, _, _, -, g2, -⟩ := fock_gram (N := M) t₂.mu hh h2'
  obtain ⟨F, hF, -⟩ := fidelity_range hsq close hc s₁.mu t₁.mu s₁.cov t₁.cov hbar hh h1 h1'
  obtain ⟨G, hG, -⟩ := fidelity_range hsq close hc s₂.mu t₂.mu s₂.cov t₂.cov hbar hh h2 h2'
  refine ⟨F, G, hF, hG, ?_⟩
  have k1 := (fidelity_correct hsq close hc s₁.mu t₁.mu s₁.cov t₁.cov hbar hh h1 h1' ρ₁ σ₁ f1 g1 F).mp hF
  have k2 := (fidelity_correct hsq close hc s₂.mu t₂.mu s₂.cov t₂.cov hbar hh h2 h2' ρ₂ σ₂ f2 g2 G).mp hG
  exact (fidelity_correct hsq close hc s.mu t.mu s.cov t.cov hbar hh (independent_physical h hbar h1 h2) (independent_physical h' hbar h1' h2') _ _ (fock_independent h hbar hh h1 h2 f1 f2)
    (fock_independent h' hbar hh h1' h2' g1 g2) (F * G)).mpr (hasFidelity_product (occPair N M) k1 k2)

/-- any two states can be put side by side -/
theorem independent_exists (N M : ℕ) (s₁ s₂ : GState ℝ) : ∃ s, Independent N M s s₁ s₂ := by
  let d : ℕ → ℕ ⊕ ℕ := fun i => if i < N then .inl i else if i < N + M then .inr (i - N) else if i < N + M + N then .inl (i - M) else .inr (i - 2 * N)
  have d1 : ∀ i < 2 * N, d (firstQuad N M i) = .inl i := fun i hi => by
    simp only [d, firstQuad]
    split_ifs <;> first | rfl | omega | (congr 1; omega)
  have d2 : ∀ j < 2 * M, d (secondQuad N M j) = .inr j := fun j hj => by
    simp only [d, secondQuad]
    split_ifs <;> first | rfl | omega | (congr 1; omega)
  refine ⟨⟨2 * (N + M), fun i => Sum.elim s₁.mu s₂.mu (d i), fun i j => match d i, d j with
    | .inl a, .inl b => s₁.cov a b
    | .inr a, .inr b => s₂.cov a b
    | _, _ => 0⟩, fun i hi => ?_, fun j hj => ?_, fun i hi i' hi' => ?_, fun j hj j' hj' => ?_, fun i hi j hj => ⟨?_, ?_⟩⟩
  · simp [d1 i hi]
  · simp [d2 j hj]
  · simp [d1 i hi, d1 i' hi']
  · simp [d2 j hj, d2 j' hj']
  · simp [d1 i hi, d2 j hj]
  · simp [d1 i hi, d2 j hj]

/-- the hypotheses hold for a two-mode squeezed vacuum beside a displaced vacuum, whose fidelity with two copies of the vacuum factorises -/
example (sqrtm : ℕ → RArr → RArr) (hs : SqrtmDiagContract sqrtm) (close : ℝ → ℝ → Bool) (hc : ∀ x, close x 0 = true → x = 0) :
    ∃ (s t : GState ℝ) (F G : ℝ), Independent 2 1 s ⟨4, fun _ => 0, tmsExample⟩ ⟨2, fun _ => 1, (vacuumState 1 2).cov⟩ ∧ Independent 2 1 t (vacuumState 2 2) (vacuumState 1 2) ∧
      fidelity sqrtm close 6 s.mu 6 6 s.cov 6 t.mu 6 6 t.cov 2 = .ok (F * G) ∧ 0 < F ∧ F < 1 := by
  have hp1 : Physical (phase 2 2 tmsExample) 2 := (physical_iff_spectrum _ 2 (by norm_num) _ tmsExample_spec).mpr fun _ => by norm_num
  have hp2 := (physical_vacuum 2 2 (by norm_num)).1
  have hp3 := (physical_vacuum 1 2 (by norm_num)).1
  obtain ⟨s, hs'⟩ := independent_exists 2 1 ⟨4, fun _ => 0, tmsExample⟩ ⟨2, fun _ => 1, (vacuumState 1 2).cov⟩
  obtain ⟨t, ht⟩ := independent_exists 2 1 (vacuumState 2 2) (vacuumState 1 2)
  obtain ⟨F, G, hF, hG, h⟩ := fidelity_multiplicative hs close hc hs' ht 2 (by norm_num) hp1 hp3 hp2 hp3
  refine ⟨s, t, F, G, hs', ht, h, ?_⟩
  obtain ⟨F', hF', hpos, hle, hone⟩ := fidelity_range (N := 2) hs close hc (fun _ => 0) (vacuumState 2 2).mu tmsExample (vacuumState 2 2).cov 2 (by norm_num) hp1 hp2
  have e : F = F' := Except.ok.inj (hF.symm.trans hF')
  refine ⟨e ▸ hpos, lt_of_le_of_ne (e ▸ hle) fun h1 => ?_⟩
  have h2 := congrFun (congrFun (hone.mp (e ▸ h1)).2 (.inl 0)) (.inl 1)
  simp [phase, quad, tmsExample, vacuumState, eye] at h2

end

end Verif.Props
