import Verif.Lemmas.Cholesky
import Verif.Spec.Lme
import Verif.Props.LmeGenerate

/-!
# The oracle's formulas in terms of `Ω⁻¹`
-/

open Matrix

namespace Verif

variable {p q : ℕ}

theorem lmeOmega_eq (g : LmeGroup p q) (gamma : Vec ℝ q) : lmeOmega g gamma = margCov g gamma := by
  unfold lmeOmega margCov
  by_cases h : 0 < q
  · rw [if_pos h, add_comm]
  · rw [if_neg h, add_comm]
    have : q = 0 := by omega
    subst this
    have e : g.z * diagonal gamma * g.zᵀ = 0 := by
      ext i j
      rw [Matrix.mul_apply]
      exact Finset.sum_eq_zero fun k _ => k.elim0
    rw [e]

theorem margCov_isSymm (g : LmeGroup p q) (gamma : Vec ℝ q) : (margCov g gamma)ᵀ = margCov g gamma := by
  unfold margCov
  simp only [Matrix.transpose_add, Matrix.transpose_mul, Matrix.transpose_transpose,
    Matrix.diagonal_transpose, Matrix.mul_assoc]

/-- Nonnegative variances and positive observation variances give a positive definite covariance. -/
theorem margCov_posDef (g : LmeGroup p q) (gamma : Vec ℝ q) (hl : ∀ i, 0 < g.l i) (hg : ∀ j, 0 ≤ gamma j) :
    (margCov g gamma).PosDef := by
  unfold margCov
  refine Matrix.PosDef.posSemidef_add ?_ (PosDef.diagonal hl)
  have := (PosSemidef.diagonal (n := Fin q) (d := gamma) hg).mul_mul_conjTranspose_same g.z
  simpa [conjTranspose_eq_transpose_of_trivial] using this

theorem inDomain_of_nonneg {D : List (LmeGroup p q)} {gamma : Vec ℝ q} (hD : PosVar D)
    (hg : ∀ j, 0 ≤ gamma j) : InDomain D gamma :=
  fun g hgD => margCov_posDef g gamma (hD g hgD) hg

/-- The factored group. -/
noncomputable def lmeFact (gamma : Vec ℝ q) (g : LmeGroup p q) : LmeFactored p q :=
  ⟨g, cholFactor (lmeOmega g gamma), lmeElInv g gamma⟩

theorem lmeFactor_ok {gamma : Vec ℝ q} {g : LmeGroup p q} {f : LmeFactored p q} :
    lmeFactor gamma g = .ok f ↔ (margCov g gamma).PosDef ∧ f = lmeFact gamma g := by
  unfold lmeFactor
  rw [ebind_ok]
  constructor
  · rintro ⟨a, h1, h2⟩
    rw [npCholesky_ok, lmeOmega_eq] at h1
    obtain ⟨hp, rfl⟩ := h1
    cases h2
    exact ⟨hp, by simp only [lmeFact, lmeElInv, lmeOmega_eq]⟩
  · rintro ⟨hp, rfl⟩
    exact ⟨cholFactor (lmeOmega g gamma), npCholesky_ok.2 ⟨by rwa [lmeOmega_eq], rfl⟩, rfl⟩

theorem mapM_ok_iff {α β : Type*} {f : α → Except PyErr β} {P : α → Prop} {h : α → β}
    (hf : ∀ a b, f a = .ok b ↔ P a ∧ b = h a) (l : List α) (r : List β) :
    l.mapM f = .ok r ↔ (∀ a ∈ l, P a) ∧ r = l.map h := by
  induction l generalizing r with
  | nil =>
    simp only [List.mapM_nil, List.not_mem_nil, false_imp_iff, implies_true, true_and, List.map_nil]
    exact ⟨fun e => by cases e; rfl, fun e => by rw [e]; rfl⟩
  | cons a l ih =>
    rw [List.mapM_cons, ebind_ok]
    constructor
    · rintro ⟨b, h1, h2⟩
      rw [ebind_ok] at h2
      obtain ⟨bs, h3, h4⟩ := h2
      obtain ⟨hPa, rfl⟩ := (hf a b).1 h1
      obtain ⟨hPl, rfl⟩ := (ih bs).1 h3
      cases h4
      refine ⟨?_, rfl⟩
      intro c hc
      rcases List.mem_cons.1 hc with rfl | hc
      · exact hPa
      · exact hPl c hc
    · rintro ⟨hP, rfl⟩
      refine ⟨h a, (hf a _).2 ⟨hP a (List.mem_cons_self), rfl⟩, ?_⟩
      rw [ebind_ok]
      exact ⟨l.map h, (ih _).2 ⟨fun c hc => hP c (List.mem_cons_of_mem _ hc), rfl⟩, rfl⟩

theorem lmeRecalculate_ok {D : List (LmeGroup p q)} {gamma : Vec ℝ q} {fs : List (LmeFactored p q)} :
    lmeRecalculate D gamma = .ok fs ↔ InDomain D gamma ∧ fs = D.map (lmeFact gamma) :=
  mapM_ok_iff (fun _ _ => lmeFactor_ok) D fs

/-- Outside the domain the factorisation raises. -/
theorem lmeRecalculate_error {D : List (LmeGroup p q)} {gamma : Vec ℝ q} (hd : ¬ InDomain D gamma) :
    lmeRecalculate D gamma = .error .linAlgError := by
  unfold lmeRecalculate
  unfold InDomain at hd
  induction D with
  | nil => exact absurd (fun g hg => absurd hg List.not_mem_nil) hd
  | cons g D ih =>
    rw [List.mapM_cons]
    by_cases h1 : (margCov g gamma).PosDef
    · have e1 : lmeFactor gamma g = .ok (lmeFact gamma g) := lmeFactor_ok.2 ⟨h1, rfl⟩
      have e2 := ih fun hD => hd fun g' hg' => by
        rcases List.mem_cons.1 hg' with rfl | hg'
        · exact h1
        · exact hD g' hg'
      rw [e1, e2]; rfl
    · have e1 : lmeFactor gamma g = .error .linAlgError := by
        unfold lmeFactor npCholesky
        rw [if_neg]
        · rfl
        · rwa [exists_isCholesky_iff, lmeOmega_eq]
      rw [e1]; rfl

theorem lmeElInv_mul {g : LmeGroup p q} {gamma : Vec ℝ q} (h : (margCov g gamma).PosDef) :
    (lmeElInv g gamma)ᵀ * lmeElInv g gamma = (margCov g gamma)⁻¹ := by
  have := (cholFactor_spec (exists_isCholesky h)).invT_mul_inv
  unfold lmeElInv
  rwa [lmeOmega_eq]

theorem xi_eq_residual (g : LmeGroup p q) (beta : Vec ℝ p) : g.xi beta = residual g beta := by
  funext i
  simp only [LmeGroup.xi, residual, Pi.sub_apply, Matrix.mulVec, dotProduct]

/-- `(E A)ᵀ (E b) = Aᵀ (Eᵀ E) b`. -/
theorem elT_mulVec {n m : ℕ} (E : Matrix (Fin n) (Fin n) ℝ) (A : Matrix (Fin n) (Fin m) ℝ) (b : Fin n → ℝ) :
    (E * A)ᵀ *ᵥ (E *ᵥ b) = Aᵀ *ᵥ ((Eᵀ * E) *ᵥ b) := by
  rw [Matrix.transpose_mul, Matrix.mulVec_mulVec, Matrix.mulVec_mulVec]
  simp only [Matrix.mul_assoc]

theorem elT_mul {n m k : ℕ} (E : Matrix (Fin n) (Fin n) ℝ) (A : Matrix (Fin n) (Fin m) ℝ)
    (B : Matrix (Fin n) (Fin k) ℝ) : (E * A)ᵀ * (E * B) = Aᵀ * (Eᵀ * E) * B := by
  rw [Matrix.transpose_mul]
  simp only [Matrix.mul_assoc]

theorem sum_sq_mulVec {n : ℕ} (E : Matrix (Fin n) (Fin n) ℝ) (b : Fin n → ℝ) :
    ∑ i, (E *ᵥ b) i ^ 2 = b ⬝ᵥ ((Eᵀ * E) *ᵥ b) := by
  have : ∑ i, (E *ᵥ b) i ^ 2 = (E *ᵥ b) ⬝ᵥ (E *ᵥ b) := by
    simp only [dotProduct, sq]
  rw [this, ← Matrix.mulVec_mulVec, Matrix.dotProduct_mulVec b, Matrix.vecMul_transpose]

section terms
variable {g : LmeGroup p q} {gamma : Vec ℝ q} (h : (margCov g gamma).PosDef)
include h

theorem lossTerm_eq (beta : Vec ℝ p) : lossTerm beta (lmeFact gamma g) = groupNLL g beta gamma := by
  have h1 : ∑ i, Real.log (lmeElInv g gamma i i) = -(1 / 2 * Real.log (margCov g gamma).det) := by
    have := (cholFactor_spec (exists_isCholesky h)).sum_log
    unfold lmeElInv
    rwa [lmeOmega_eq]
  unfold groupNLL
  change 1 / 2 * ∑ i, (lmeElInv g gamma *ᵥ g.xi beta) i ^ 2 - ∑ i, Real.log (lmeElInv g gamma i i) = _
  rw [h1, sum_sq_mulVec, lmeElInv_mul h, xi_eq_residual]
  ring

theorem gradBetaTerm_eq (beta : Vec ℝ p) :
    gradBetaTerm beta (lmeFact gamma g) = -(g.xᵀ *ᵥ ((margCov g gamma)⁻¹ *ᵥ residual g beta)) := by
  change -((lmeElInv g gamma * g.x)ᵀ *ᵥ (lmeElInv g gamma *ᵥ g.xi beta)) = _
  rw [elT_mulVec, lmeElInv_mul h, xi_eq_residual]

theorem hessBetaTerm_eq : hessBetaTerm (lmeFact gamma g) = g.xᵀ * (margCov g gamma)⁻¹ * g.x := by
  change (lmeElInv g gamma * g.x)ᵀ * (lmeElInv g gamma * g.x) = _
  rw [elT_mul, lmeElInv_mul h]

theorem tailTerm_eq : tailTerm (lmeFact gamma g) = g.xᵀ *ᵥ ((margCov g gamma)⁻¹ *ᵥ g.y) := by
  change (lmeElInv g gamma * g.x)ᵀ *ᵥ (lmeElInv g gamma *ᵥ g.y) = _
  rw [elT_mulVec, lmeElInv_mul h]

theorem elZZ_eq : elZZ (lmeFact gamma g) = g.zᵀ * (margCov g gamma)⁻¹ * g.z := by
  change (lmeElInv g gamma * g.z)ᵀ * (lmeElInv g gamma * g.z) = _
  rw [elT_mul, lmeElInv_mul h]

theorem elZXi_eq (beta : Vec ℝ p) :
    elZXi beta (lmeFact gamma g) = g.zᵀ *ᵥ ((margCov g gamma)⁻¹ *ᵥ residual g beta) := by
  change (lmeElInv g gamma * g.z)ᵀ *ᵥ (lmeElInv g gamma *ᵥ g.xi beta) = _
  rw [elT_mulVec, lmeElInv_mul h, xi_eq_residual]

theorem gradGammaTerm_eq (beta : Vec ℝ p) (j : Fin q) :
    gradGammaTerm beta (lmeFact gamma g) j = 1 / 2 * (g.zᵀ * (margCov g gamma)⁻¹ * g.z) j j
      - 1 / 2 * (g.zᵀ *ᵥ ((margCov g gamma)⁻¹ *ᵥ residual g beta)) j ^ 2 := by
  have h1 : ∑ i, (lmeElInv g gamma * g.z) i j ^ 2 = (g.zᵀ * (margCov g gamma)⁻¹ * g.z) j j := by
    rw [← lmeElInv_mul h, ← elT_mul, Matrix.mul_apply]
    simp only [Matrix.transpose_apply, sq]
  have h2 := elZXi_eq h beta
  have h2' := congrFun h2 j
  change 1 / 2 * ∑ i, (lmeElInv g gamma * g.z) i j ^ 2 - 1 / 2 * elZXi beta (lmeFact gamma g) j ^ 2 = _
  rw [h1, h2']

theorem hessBetaGammaTerm_apply (beta : Vec ℝ p) (j : Fin q) (i : Fin p) :
    hessBetaGammaTerm beta (lmeFact gamma g) j i =
      (g.zᵀ *ᵥ ((margCov g gamma)⁻¹ *ᵥ residual g beta)) j * (g.zᵀ * (margCov g gamma)⁻¹ * g.x) j i := by
  change (diagonal (elZXi beta (lmeFact gamma g)) *
    ((lmeElInv g gamma * g.z)ᵀ * (lmeElInv g gamma * g.x))) j i = _
  rw [elZXi_eq h, Matrix.diagonal_mul, elT_mul, lmeElInv_mul h]

end terms

/-- Evaluation lemma for `loss`. -/
theorem lmeLoss_ok {D : List (LmeGroup p q)} {P : LmeInstPrior ℝ p q} {beta : Vec ℝ p} {gamma : Vec ℝ q}
    {v : ℝ} : lmeLoss D P beta gamma = .ok v ↔
      InDomain D gamma ∧ v = marginalNLL D beta gamma + P.loss beta gamma := by
  unfold lmeLoss
  rw [ebind_ok]
  have key : InDomain D gamma → ((D.map (lmeFact gamma)).map (lossTerm beta)).sum
      = marginalNLL D beta gamma := by
    intro hd
    unfold marginalNLL
    rw [List.map_map]
    congr 1
    exact List.map_congr_left fun g hg => lossTerm_eq (hd g hg) beta
  constructor
  · rintro ⟨fs, h1, h2⟩
    obtain ⟨hd, rfl⟩ := lmeRecalculate_ok.1 h1
    cases h2
    exact ⟨hd, by rw [key hd]⟩
  · rintro ⟨hd, rfl⟩
    refine ⟨_, lmeRecalculate_ok.2 ⟨hd, rfl⟩, ?_⟩
    rw [key hd]; rfl

/-- Generic evaluation lemma for methods of the shape "sum over factored groups, then post-process". -/
theorem recalc_bind_ok {α : Type} {D : List (LmeGroup p q)} {gamma : Vec ℝ q}
    {F : List (LmeFactored p q) → α} {v : α} :
    (lmeRecalculate D gamma >>= fun fs => (pure (F fs) : Except PyErr α)) = .ok v ↔
      InDomain D gamma ∧ v = F (D.map (lmeFact gamma)) := by
  rw [ebind_ok]
  constructor
  · rintro ⟨fs, h1, h2⟩
    obtain ⟨hd, rfl⟩ := lmeRecalculate_ok.1 h1
    cases h2
    exact ⟨hd, rfl⟩
  · rintro ⟨hd, rfl⟩
    exact ⟨_, lmeRecalculate_ok.2 ⟨hd, rfl⟩, rfl⟩

theorem sum_map_fact {M : Type*} [AddCommMonoid M] {D : List (LmeGroup p q)} {gamma : Vec ℝ q}
    (hd : InDomain D gamma) (t : LmeFactored p q → M) (s : LmeGroup p q → M)
    (hts : ∀ g, (margCov g gamma).PosDef → t (lmeFact gamma g) = s g) :
    ((D.map (lmeFact gamma)).map t).sum = (D.map s).sum := by
  rw [List.map_map]
  congr 1
  exact List.map_congr_left fun g hg => hts g (hd g hg)

theorem lmeGradientBeta_ok {D : List (LmeGroup p q)} {P : LmeInstPrior ℝ p q} {beta : Vec ℝ p}
    {gamma : Vec ℝ q} {v : Vec ℝ p} : lmeGradientBeta D P beta gamma = .ok v ↔
      InDomain D gamma ∧ v = (D.map fun g => -(g.xᵀ *ᵥ ((margCov g gamma)⁻¹ *ᵥ residual g beta))).sum
        + P.gradientBeta beta gamma := by
  unfold lmeGradientBeta
  rw [recalc_bind_ok (F := fun fs => (fs.map (gradBetaTerm beta)).sum + P.gradientBeta beta gamma)]
  refine and_congr_right fun hd => ?_
  rw [sum_map_fact hd _ _ fun g h => gradBetaTerm_eq h beta]

theorem lmeHessianBeta_ok {D : List (LmeGroup p q)} {P : LmeInstPrior ℝ p q}
    {gamma : Vec ℝ q} {v : Matrix (Fin p) (Fin p) ℝ} : lmeHessianBeta D P gamma = .ok v ↔
      InDomain D gamma ∧ v = (D.map fun g => g.xᵀ * (margCov g gamma)⁻¹ * g.x).sum + P.hessianBeta := by
  unfold lmeHessianBeta
  rw [recalc_bind_ok (F := fun fs => (fs.map hessBetaTerm).sum + P.hessianBeta)]
  refine and_congr_right fun hd => ?_
  rw [sum_map_fact hd _ _ fun g h => hessBetaTerm_eq h]

theorem lmeKernelTail_ok {D : List (LmeGroup p q)} {gamma : Vec ℝ q}
    {v : Matrix (Fin p) (Fin p) ℝ × Vec ℝ p} : lmeKernelTail D gamma = .ok v ↔
      InDomain D gamma ∧ v = ((D.map fun g => g.xᵀ * (margCov g gamma)⁻¹ * g.x).sum,
        (D.map fun g => g.xᵀ *ᵥ ((margCov g gamma)⁻¹ *ᵥ g.y)).sum) := by
  unfold lmeKernelTail
  rw [recalc_bind_ok (F := fun fs => ((fs.map hessBetaTerm).sum, (fs.map tailTerm).sum))]
  refine and_congr_right fun hd => ?_
  rw [sum_map_fact hd _ _ fun g h => hessBetaTerm_eq h, sum_map_fact hd _ _ fun g h => tailTerm_eq h]

theorem lmeGradientGamma_ok {D : List (LmeGroup p q)} {P : LmeInstPrior ℝ p q} {beta : Vec ℝ p}
    {gamma : Vec ℝ q} {v : Vec ℝ q} : lmeGradientGamma D P beta gamma = .ok v ↔
      InDomain D gamma ∧ v = (D.map fun g => fun j => 1 / 2 * (g.zᵀ * (margCov g gamma)⁻¹ * g.z) j j
        - 1 / 2 * (g.zᵀ *ᵥ ((margCov g gamma)⁻¹ *ᵥ residual g beta)) j ^ 2).sum
        + P.gradientGamma beta gamma := by
  unfold lmeGradientGamma
  rw [recalc_bind_ok (F := fun fs => (fs.map (gradGammaTerm beta)).sum + P.gradientGamma beta gamma)]
  refine and_congr_right fun hd => ?_
  rw [sum_map_fact hd _ _ fun g h => funext (gradGammaTerm_eq h beta)]

end Verif
