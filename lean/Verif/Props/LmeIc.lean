import Verif.Props.LmeLoss

/-!
# Information criteria of the mixed-effects oracles: C65, C66, C67
-/

open Matrix

namespace Verif

variable {p q : ℕ}

/-- Correlation matrix of the observations of a group, written from the marginal covariance. -/
noncomputable def groupCorr (g : LmeGroup p q) (gamma : Vec ℝ q) : Matrix (Fin g.n) (Fin g.n) ℝ :=
  Matrix.of fun i j =>
    margCov g gamma i j / (Real.sqrt (margCov g gamma i i) * Real.sqrt (margCov g gamma j j))

/-- Effective sample size `∑ 1ᵀ C⁻¹ 1` over the groups. -/
noncomputable def effSize (D : List (LmeGroup p q)) (gamma : Vec ℝ q) : ℝ :=
  (D.map fun g => ∑ i, ∑ j, (groupCorr g gamma)⁻¹ i j).sum

section corr

variable {g : LmeGroup p q} {gamma : Vec ℝ q}

theorem margCov_diag_pos (h : (margCov g gamma).PosDef) (i : Fin g.n) : 0 < margCov g gamma i i := h.diag_pos

theorem groupCorr_eq (g : LmeGroup p q) (gamma : Vec ℝ q) :
    groupCorr g gamma = diagonal (fun i => (Real.sqrt (margCov g gamma i i))⁻¹) * margCov g gamma
      * diagonal (fun i => (Real.sqrt (margCov g gamma i i))⁻¹) := by
  ext i j
  rw [Matrix.mul_diagonal, Matrix.diagonal_mul]
  simp only [groupCorr, Matrix.of_apply, div_eq_mul_inv, mul_inv]
  ring

theorem sqrt_diag_pos (h : (margCov g gamma).PosDef) (i : Fin g.n) : 0 < Real.sqrt (margCov g gamma i i) :=
  Real.sqrt_pos.2 (margCov_diag_pos h i)

theorem groupCorr_isUnit (h : (margCov g gamma).PosDef) : IsUnit (groupCorr g gamma).det := by
  rw [groupCorr_eq, Matrix.det_mul, Matrix.det_mul, Matrix.det_diagonal, isUnit_iff_ne_zero]
  have h1 : (∏ i, (Real.sqrt (margCov g gamma i i))⁻¹) ≠ 0 :=
    Finset.prod_ne_zero_iff.2 fun i _ => (inv_pos.2 (sqrt_diag_pos h i)).ne'
  exact mul_ne_zero (mul_ne_zero h1 h.det_pos.ne') h1

theorem groupCorr_symm (g : LmeGroup p q) (gamma : Vec ℝ q) : (groupCorr g gamma)ᵀ = groupCorr g gamma := by
  rw [groupCorr_eq]
  simp only [Matrix.transpose_mul, Matrix.diagonal_transpose, margCov_isSymm, Matrix.mul_assoc]

theorem groupCorr_diag (h : (margCov g gamma).PosDef) (i : Fin g.n) : groupCorr g gamma i i = 1 := by
  simp only [groupCorr, Matrix.of_apply]
  rw [Real.mul_self_sqrt (margCov_diag_pos h i).le]
  exact div_self (margCov_diag_pos h i).ne'

theorem groupCorr_nonneg (h : (margCov g gamma).PosDef) (w : Fin g.n → ℝ) :
    0 ≤ w ⬝ᵥ (groupCorr g gamma *ᵥ w) := by
  have e : w ⬝ᵥ (groupCorr g gamma *ᵥ w)
      = (diagonal (fun i => (Real.sqrt (margCov g gamma i i))⁻¹) *ᵥ w)
        ⬝ᵥ (margCov g gamma *ᵥ (diagonal (fun i => (Real.sqrt (margCov g gamma i i))⁻¹) *ᵥ w)) := by
    have := conj_quad (diagonal (fun i => (Real.sqrt (margCov g gamma i i))⁻¹)) (margCov g gamma) w
    rw [Matrix.diagonal_transpose] at this
    rw [groupCorr_eq]
    exact this
  rw [e]
  simpa using h.posSemidef.dotProduct_mulVec_nonneg (diagonal (fun i => (Real.sqrt (margCov g gamma i i))⁻¹) *ᵥ w)

/-- `1ᵀ C⁻¹ 1 ≥ 1` for a correlation matrix of at least one observation. -/
theorem one_le_effTerm (h : (margCov g gamma).PosDef) (hn : 0 < g.n) :
    1 ≤ ∑ i, ∑ j, (groupCorr g gamma)⁻¹ i j := by
  obtain ⟨C, hC⟩ : ∃ C, C = groupCorr g gamma := ⟨_, rfl⟩
  have hu : IsUnit C.det := hC ▸ groupCorr_isUnit h
  have hs : Cᵀ = C := hC ▸ groupCorr_symm g gamma
  have hd : C ⟨0, hn⟩ ⟨0, hn⟩ = 1 := hC ▸ groupCorr_diag h ⟨0, hn⟩
  rw [← hC]
  obtain ⟨v, hv⟩ : ∃ v : Fin g.n → ℝ, v = C⁻¹ *ᵥ 1 := ⟨_, rfl⟩
  have hCv : C *ᵥ v = 1 := by
    rw [hv, Matrix.mulVec_mulVec, Matrix.mul_nonsing_inv _ hu, Matrix.one_mulVec]
  have hsum : ∑ i, ∑ j, C⁻¹ i j = 1 ⬝ᵥ v := by
    rw [hv]
    simp [dotProduct, Matrix.mulVec]
  obtain ⟨e, he⟩ : ∃ e : Fin g.n → ℝ, e = Pi.single ⟨0, hn⟩ 1 := ⟨_, rfl⟩
  have key : 0 ≤ (e - v) ⬝ᵥ (C *ᵥ (e - v)) := hC ▸ groupCorr_nonneg h (e - v)
  have h1 : v ⬝ᵥ (C *ᵥ e) = 1 ⬝ᵥ e := by
    rw [Matrix.dotProduct_mulVec, ← Matrix.mulVec_transpose, hs, hCv]
  have h2 : e ⬝ᵥ (C *ᵥ e) = 1 := by
    rw [he, Matrix.mulVec_single_one, single_one_dotProduct]
    exact hd
  have h3 : (1 : Fin g.n → ℝ) ⬝ᵥ e = 1 := by rw [he, dotProduct_single_one]; rfl
  have h4 : e ⬝ᵥ (1 : Fin g.n → ℝ) = 1 := by rw [dotProduct_comm]; exact h3
  rw [Matrix.mulVec_sub, hCv, sub_dotProduct, dotProduct_sub, dotProduct_sub, h1, h2, h3, h4,
    dotProduct_comm v 1] at key
  rw [hsum]
  linarith

theorem corrMatrix_eq (h : (margCov g gamma).PosDef) :
    corrMatrix (lmeFact gamma g).el = groupCorr g gamma := by
  have e : (lmeFact gamma g).el * ((lmeFact gamma g).el)ᵀ = margCov g gamma := by
    have := (cholFactor_spec (exists_isCholesky h)).mul_transpose
    rw [← lmeOmega_eq] at this
    exact this.trans (lmeOmega_eq g gamma)
  unfold corrMatrix groupCorr
  rw [e]
  rfl

theorem nEffTerm_eq (h : (margCov g gamma).PosDef) :
    nEffTerm (lmeFact gamma g) = .ok (∑ i, ∑ j, (groupCorr g gamma)⁻¹ i j) := by
  have e : npInv (groupCorr g gamma) = .ok (groupCorr g gamma)⁻¹ := by
    unfold npInv
    rw [if_pos (groupCorr_isUnit h)]
  unfold nEffTerm
  rw [corrMatrix_eq h]
  change (npInv (groupCorr g gamma) >>= _) = _
  rw [e]
  rfl

end corr

theorem lmeNEff_eq {D : List (LmeGroup p q)} {gamma : Vec ℝ q} (hd : InDomain D gamma) :
    lmeNEff (D.map (lmeFact gamma)) = .ok (effSize D gamma) := by
  have h : (D.map (lmeFact gamma)).mapM nEffTerm
      = .ok (D.map fun g => ∑ i, ∑ j, (groupCorr g gamma)⁻¹ i j) := by
    induction D with
    | nil => rfl
    | cons g D ih =>
      rw [List.map_cons, List.mapM_cons, nEffTerm_eq (hd g List.mem_cons_self),
        ih fun g' hg' => hd g' (List.mem_cons_of_mem _ hg')]
      rfl
  unfold lmeNEff
  rw [h]
  rfl

/-! ## C67 -/

/-- **C67**: for all groups with at least one observation each, positive observation variances and nonnegative `gamma`
(or any `gamma` in the domain), the effective sample size is computed without exception and is at least the number of
groups.  Without random effects (`gamma = 0`) it is the number of observations. -/
theorem C67_effective_sample_size (D : List (LmeGroup p q)) (gamma : Vec ℝ q) (hn : ∀ g ∈ D, 0 < g.n)
    (hdom : InDomain D gamma ∨ PosVar D ∧ ∀ j, 0 ≤ gamma j) :
    ∃ fs m, lmeRecalculate D gamma = .ok fs ∧ lmeNEff fs = .ok m ∧ (D.length : ℝ) ≤ m ∧
      (gamma = 0 → m = ((D.map fun g => g.n).sum : ℕ)) := by
  have hd : InDomain D gamma := hdom.elim id fun h => inDomain_of_nonneg h.1 h.2
  refine ⟨_, _, lmeRecalculate_ok.2 ⟨hd, rfl⟩, lmeNEff_eq hd, ?_, ?_⟩
  · unfold effSize
    clear hdom
    induction D with
    | nil => simp
    | cons g D ih =>
      have h1 := one_le_effTerm (hd g List.mem_cons_self) (hn g List.mem_cons_self)
      have h2 := ih (fun g' hg' => hn g' (List.mem_cons_of_mem _ hg')) (fun g' hg' => hd g' (List.mem_cons_of_mem _ hg'))
      rw [List.map_cons, List.sum_cons, List.length_cons]
      push_cast
      linarith
  · rintro rfl
    unfold effSize
    clear hdom hn
    induction D with
    | nil => simp
    | cons g D ih =>
      rw [List.map_cons, List.map_cons, List.sum_cons, List.sum_cons,
        ih fun g' hg' => hd g' (List.mem_cons_of_mem _ hg')]
      push_cast
      congr 1
      have e : groupCorr g (0 : Vec ℝ q) = 1 := by
        have hc : margCov g (0 : Vec ℝ q) = diagonal g.l := by
          unfold margCov
          have : diagonal (0 : Vec ℝ q) = (0 : Matrix (Fin q) (Fin q) ℝ) := Matrix.diagonal_zero
          rw [this, Matrix.mul_zero, Matrix.zero_mul, zero_add]
        have hg := hd g List.mem_cons_self
        ext i j
        by_cases hij : i = j
        · subst hij
          rw [groupCorr_diag hg, Matrix.one_apply_eq]
        · rw [Matrix.one_apply_ne hij]
          simp only [groupCorr, Matrix.of_apply, hc, Matrix.diagonal_apply_ne _ hij, zero_div]
      rw [e, inv_one]
      simp [Matrix.one_apply]

/-- C67 on a concrete problem. -/
example : ∃ fs m, lmeRecalculate [exGroup] ![1] = .ok fs ∧ lmeNEff fs = .ok m ∧ (1 : ℝ) ≤ m := by
  obtain ⟨fs, m, h1, h2, h3, -⟩ := C67_effective_sample_size [exGroup] ![1]
    (by intro g hg; rw [List.mem_singleton] at hg; subst hg; exact two_pos)
    (Or.inr ⟨exGroup_posVar, by intro j; fin_cases j; simp⟩)
  exact ⟨fs, m, h1, h2, by simpa using h3⟩

/-! ## Counting parameters -/

theorem countGe_zero {n : ℕ} (v : Vec ℝ n) : countGe 0 v = n := by
  unfold countGe
  rw [Finset.filter_true_of_mem fun i _ => abs_nonneg (v i)]
  simp

/-- With a positive tolerance below all nonzero entries the count is right. -/
theorem countGe_eq {n : ℕ} {tol : ℝ} {v : Vec ℝ n} (ht : 0 < tol) (h : ∀ i, v i ≠ 0 → tol ≤ |v i|) :
    countGe tol v = numNonzero v := by
  classical
  unfold countGe numNonzero
  rw [Set.ncard_eq_toFinset_card']
  congr 1
  rw [Set.toFinset_setOf]
  refine Finset.filter_congr fun i _ => ⟨fun hi h0 => ?_, h i⟩
  rw [h0, abs_zero] at hi
  linarith

theorem lmeJonesBic_eq {D : List (LmeGroup p q)} {P : LmeInstPrior ℝ p q} {gamma : Vec ℝ q} (hd : InDomain D gamma)
    (tol : ℝ) (beta : Vec ℝ p) : lmeJonesBic D P tol beta gamma
      = .ok (2 * (marginalNLL D beta gamma + P.loss beta gamma)
        + ((countGe tol beta : ℝ) + countGe tol gamma) * Real.log (effSize D gamma)) := by
  unfold lmeJonesBic jonesBody
  rw [lmeRecalculate_ok.2 ⟨hd, rfl⟩, lmeLoss_ok.2 ⟨hd, rfl⟩]
  change (lmeNEff (D.map (lmeFact gamma)) >>= _) = _
  rw [lmeNEff_eq hd]
  rfl

theorem lmeMullerHui_eq {D : List (LmeGroup p q)} {P : LmeInstPrior ℝ p q} {gamma : Vec ℝ q} (hd : InDomain D gamma)
    (tol : ℝ) (beta : Vec ℝ p) : lmeMullerHui D P tol beta gamma
      = .ok (2 / (lmeNumObs D : ℝ) * (marginalNLL D beta gamma + P.loss beta gamma)
        + 1 / (lmeNumObs D : ℝ) * Real.log D.length * countGe tol beta
        + 2 / (lmeNumObs D : ℝ) * countGe tol gamma) := by
  unfold lmeMullerHui mullerHuiBody
  rw [lmeRecalculate_ok.2 ⟨hd, rfl⟩, lmeLoss_ok.2 ⟨hd, rfl⟩]
  rfl

theorem lmeVaida_marg_eq {D : List (LmeGroup p q)} {P : LmeInstPrior ℝ p q} {gamma : Vec ℝ q} (hd : InDomain D gamma)
    (tol : ℝ) (beta : Vec ℝ p) : lmeVaida D P tol true beta gamma
      = .ok (2 * (marginalNLL D beta gamma + P.loss beta gamma)
        + 2 * (if 0 < (lmeNumObs D : ℝ) - countGe tol beta - countGe tol gamma - 1
            then (lmeNumObs D : ℝ) / ((lmeNumObs D : ℝ) - countGe tol beta - countGe tol gamma - 1) else 1)
          * ((countGe tol beta : ℝ) + countGe tol gamma)) := by
  unfold lmeVaida vaidaBody
  rw [lmeLoss_ok.2 ⟨hd, rfl⟩]
  rfl

/-! ## C65 -/

/-- **C65**: the criteria of the SR3 oracle are those of the plain oracle, for every relaxation constants, including
which exceptions are raised; and in the domain of the likelihood the two closed-form ones are the textbook
formulas with the likelihood that is not relaxed. -/
theorem C65_sr3_criteria (D : List (LmeGroup p q)) (P : LmeInstPrior ℝ p q) (S : Sr3Params) (tol : ℝ) (beta : Vec ℝ p)
    (gamma : Vec ℝ q) :
    lmeSr3JonesBic D P S tol beta gamma = lmeJonesBic D P tol beta gamma ∧
    lmeSr3MullerHui D P S tol beta gamma = lmeMullerHui D P tol beta gamma ∧
    (∀ marginalized, lmeSr3Vaida D P S tol marginalized beta gamma = lmeVaida D P tol marginalized beta gamma) ∧
    (InDomain D gamma →
      lmeSr3JonesBic D P S tol beta gamma = .ok (2 * (marginalNLL D beta gamma + P.loss beta gamma)
        + ((Nat.card {i // tol ≤ |beta i|} : ℝ) + Nat.card {j // tol ≤ |gamma j|}) * Real.log (effSize D gamma)) ∧
      lmeSr3MullerHui D P S tol beta gamma
        = .ok (2 / ((D.map fun g => g.n).sum : ℕ) * (marginalNLL D beta gamma + P.loss beta gamma)
          + 1 / ((D.map fun g => g.n).sum : ℕ) * Real.log D.length * Nat.card {i // tol ≤ |beta i|}
          + 2 / ((D.map fun g => g.n).sum : ℕ) * Nat.card {j // tol ≤ |gamma j|})) := by
  classical
  have hc : ∀ {n : ℕ} (v : Vec ℝ n), Nat.card {i // tol ≤ |v i|} = countGe tol v := by
    intro n v
    unfold countGe
    rw [Nat.card_eq_fintype_card, Fintype.card_subtype]
  refine ⟨rfl, rfl, fun _ => rfl, fun hd => ?_⟩
  rw [hc, hc]
  exact ⟨lmeJonesBic_eq hd tol beta, lmeMullerHui_eq hd tol beta⟩

/-- C65 on a concrete problem. -/
example : ∃ v, lmeSr3JonesBic [exGroup] .nonInformative ⟨40, 40⟩ 0.01 ![1] ![1] = .ok v ∧
    lmeJonesBic [exGroup] .nonInformative 0.01 ![1] ![1] = .ok v := by
  have hd : InDomain [exGroup] ![1] := inDomain_of_nonneg exGroup_posVar (by intro j; fin_cases j; simp)
  have h := C65_sr3_criteria [exGroup] .nonInformative ⟨40, 40⟩ 0.01 ![1] ![1]
  exact ⟨_, (h.2.2.2 hd).1, h.1 ▸ (h.2.2.2 hd).1⟩

end Verif
