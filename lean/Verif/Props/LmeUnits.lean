import Verif.Props.LmeBlup
import Verif.Props.LmeIc
import Mathlib.Analysis.SpecialFunctions.Log.Basic

/-!
# Mixed models and the units of measurement (C132)

Measuring the target in another unit (`y` becomes `c y`, the observation variances become `c² l`) and the covariates in
other units (column `i` of the fixed effects is multiplied by `s i`, column `j` of the random effects by `t j`) must
only change the units of what the oracle returns.
-/

namespace Verif

open Matrix

/-- A change of units: factors of the fixed-effect columns, of the random-effect columns and of the target. -/
structure UnitChange (p q : ℕ) where
  s : Vec ℝ p
  t : Vec ℝ q
  c : ℝ
  hs : ∀ i, s i ≠ 0
  ht : ∀ j, t j ≠ 0
  hc : 0 < c

namespace UnitChange

variable {p q : ℕ} (U : UnitChange p q)

/-- The data of a group in the new units. -/
@[reducible] def group (g : LmeGroup p q) : LmeGroup p q where
  n := g.n
  x := g.x * diagonal U.s
  y := U.c • g.y
  z := g.z * diagonal U.t
  l := U.c ^ 2 • g.l

/-- Fixed effects in the new units. -/
noncomputable def beta (b : Vec ℝ p) : Vec ℝ p := fun i => U.c * b i / U.s i

/-- Variances of the random effects in the new units. -/
noncomputable def gamma (g : Vec ℝ q) : Vec ℝ q := fun j => U.c ^ 2 * g j / U.t j ^ 2

/-- Random effects in the new units. -/
noncomputable def effects (u : Vec ℝ q) : Vec ℝ q := fun j => U.c * u j / U.t j

theorem c2_pos : 0 < U.c ^ 2 := pow_pos U.hc 2

theorem beta_injective : Function.Injective U.beta := by
  intro a b h
  funext i
  have h1 := congrFun h i
  simp only [beta] at h1
  rw [div_left_inj' (U.hs i)] at h1
  exact mul_left_cancel₀ U.hc.ne' h1

theorem beta_surjective : Function.Surjective U.beta := by
  intro b
  refine ⟨fun i => b i * U.s i / U.c, ?_⟩
  funext i
  have := U.hs i
  have := U.hc.ne'
  simp only [beta]
  field_simp

theorem gamma_surjective : Function.Surjective U.gamma := by
  intro b
  refine ⟨fun i => b i * U.t i ^ 2 / U.c ^ 2, ?_⟩
  funext i
  have := U.ht i
  have := U.hc.ne'
  simp only [gamma]
  field_simp

theorem gamma_nonneg {g : Vec ℝ q} (j : Fin q) : 0 ≤ U.gamma g j ↔ 0 ≤ g j := by
  have h : U.gamma g j = (U.c ^ 2 / U.t j ^ 2) * g j := by simp only [gamma]; ring
  have h2 : 0 < U.c ^ 2 / U.t j ^ 2 := div_pos U.c2_pos (pow_pos_of_ne (U.ht j))
  rw [h]
  constructor
  · intro h3
    exact nonneg_of_mul_nonneg_right h3 h2
  · exact mul_nonneg h2.le
where
  pow_pos_of_ne {a : ℝ} (h : a ≠ 0) : 0 < a ^ 2 := by positivity

theorem margCov (g : LmeGroup p q) (gam : Vec ℝ q) :
    Verif.margCov (U.group g) (U.gamma gam) = U.c ^ 2 • Verif.margCov g gam := by
  have e : ∀ (h : LmeGroup p q) (w : Vec ℝ q) (i k : Fin h.n),
      Verif.margCov h w i k = ∑ j, h.z i j * w j * h.z k j + if i = k then h.l i else 0 := by
    intro h w i k
    unfold Verif.margCov
    rw [Matrix.add_apply, Matrix.mul_apply, Matrix.diagonal_apply]
    simp only [Matrix.mul_diagonal, Matrix.transpose_apply]
  ext i k
  rw [Matrix.smul_apply, e g, smul_eq_mul, mul_add, Finset.mul_sum]
  refine (e (U.group g) _ i k).trans ?_
  congr 1
  · refine Finset.sum_congr rfl fun j _ => ?_
    have := U.ht j
    simp only [gamma, Matrix.mul_diagonal]
    field_simp
  · split_ifs <;> simp

theorem residual (g : LmeGroup p q) (b : Vec ℝ p) :
    Verif.residual (U.group g) (U.beta b) = U.c • Verif.residual g b := by
  funext i
  simp only [Verif.residual, Matrix.mul_diagonal, Pi.smul_apply, smul_eq_mul, mul_sub, Finset.mul_sum]
  congr 1
  refine Finset.sum_congr rfl fun k _ => ?_
  have := U.hs k
  simp only [beta]
  field_simp

theorem margCov_inv (g : LmeGroup p q) {gam : Vec ℝ q} (h : (Verif.margCov g gam).PosDef) :
    (Verif.margCov (U.group g) (U.gamma gam))⁻¹ = (U.c ^ 2)⁻¹ • (Verif.margCov g gam)⁻¹ := by
  rw [U.margCov]
  refine Matrix.inv_eq_right_inv ?_
  rw [Matrix.smul_mul, Matrix.mul_smul, smul_smul, mul_inv_cancel₀ U.c2_pos.ne', one_smul,
    Matrix.mul_nonsing_inv _ h.det_pos.ne'.isUnit]

theorem posDef (g : LmeGroup p q) (gam : Vec ℝ q) :
    (Verif.margCov (U.group g) (U.gamma gam)).PosDef ↔ (Verif.margCov g gam).PosDef := by
  rw [U.margCov]
  constructor
  · intro h
    have h2 := h.smul (inv_pos.2 U.c2_pos)
    rwa [smul_smul, inv_mul_cancel₀ U.c2_pos.ne', one_smul] at h2
  · intro h
    exact h.smul U.c2_pos

theorem inDomain (D : List (LmeGroup p q)) (gam : Vec ℝ q) : InDomain (D.map U.group) (U.gamma gam) ↔ InDomain D gam := by
  unfold InDomain
  simp only [List.forall_mem_map, U.posDef]

theorem posVar {D : List (LmeGroup p q)} (h : PosVar D) : PosVar (D.map U.group) := by
  unfold PosVar
  simp only [List.forall_mem_map]
  exact fun g hg i => mul_pos U.c2_pos (h g hg i)

theorem solved (g : LmeGroup p q) (b : Vec ℝ p) {gam : Vec ℝ q} (h : (Verif.margCov g gam).PosDef) :
    (Verif.margCov (U.group g) (U.gamma gam))⁻¹ *ᵥ Verif.residual (U.group g) (U.beta b)
      = U.c⁻¹ • ((Verif.margCov g gam)⁻¹ *ᵥ Verif.residual g b) := by
  rw [U.margCov_inv g h, U.residual, Matrix.smul_mulVec, Matrix.mulVec_smul, smul_smul]
  congr 1
  have := U.hc.ne'
  field_simp

theorem groupNLL (g : LmeGroup p q) (b : Vec ℝ p) {gam : Vec ℝ q} (h : (Verif.margCov g gam).PosDef) :
    Verif.groupNLL (U.group g) (U.beta b) (U.gamma gam) = Verif.groupNLL g b gam + g.n * Real.log U.c := by
  have h1 : Verif.residual (U.group g) (U.beta b) ⬝ᵥ ((Verif.margCov (U.group g) (U.gamma gam))⁻¹ *ᵥ Verif.residual (U.group g) (U.beta b))
      = Verif.residual g b ⬝ᵥ ((Verif.margCov g gam)⁻¹ *ᵥ Verif.residual g b) := by
    rw [U.solved g b h, U.residual, smul_dotProduct, dotProduct_smul, smul_smul, mul_inv_cancel₀ U.hc.ne', one_smul]
  have h2 : Real.log (Verif.margCov (U.group g) (U.gamma gam)).det = 2 * (g.n * Real.log U.c) + Real.log (Verif.margCov g gam).det := by
    rw [U.margCov, Matrix.det_smul, Fintype.card_fin, Real.log_mul (pow_pos U.c2_pos _).ne' h.det_pos.ne', Real.log_pow, Real.log_pow]
    push_cast
    ring
  unfold Verif.groupNLL
  rw [h1, h2]
  ring

theorem numObs (D : List (LmeGroup p q)) : lmeNumObs (D.map U.group) = lmeNumObs D := by
  unfold lmeNumObs
  rw [List.map_map]
  rfl

theorem marginalNLL {D : List (LmeGroup p q)} (b : Vec ℝ p) {gam : Vec ℝ q} (hd : InDomain D gam) :
    Verif.marginalNLL (D.map U.group) (U.beta b) (U.gamma gam) = Verif.marginalNLL D b gam + lmeNumObs D * Real.log U.c := by
  unfold Verif.marginalNLL lmeNumObs
  induction D with
  | nil => simp
  | cons g D ih =>
    simp only [List.map_cons, List.sum_cons]
    rw [ih fun g' hg' => hd g' (List.mem_cons_of_mem _ hg'), U.groupNLL g b (hd g List.mem_cons_self)]
    push_cast
    ring

theorem lmeLoss_error {D : List (LmeGroup p q)} {P : LmeInstPrior ℝ p q} {b : Vec ℝ p} {gam : Vec ℝ q} (hd : ¬ InDomain D gam) :
    lmeLoss D P b gam = .error .linAlgError := by
  unfold lmeLoss
  rw [lmeRecalculate_error hd]
  rfl

end UnitChange

variable {p q : ℕ}

/-! ## The likelihood -/

/-- **C132**, likelihood: in the new units the oracle's loss is the old one plus `N log c` (`N` observations), with the same
exceptions, so that minimisers correspond. -/
theorem C132_loss (U : UnitChange p q) (D : List (LmeGroup p q)) (b : Vec ℝ p) (gam : Vec ℝ q) :
    lmeLoss (D.map U.group) .nonInformative (U.beta b) (U.gamma gam)
      = (lmeLoss D .nonInformative b gam).map (· + ((D.map fun g => g.n).sum : ℕ) * Real.log U.c) := by
  by_cases hd : InDomain D gam
  · rw [lmeLoss_ok.2 ⟨hd, rfl⟩, lmeLoss_ok.2 ⟨(U.inDomain D gam).2 hd, rfl⟩, U.marginalNLL b hd]
    simp [Except.map, LmeInstPrior.loss, lmeNumObs]
  · rw [UnitChange.lmeLoss_error hd, UnitChange.lmeLoss_error (mt (U.inDomain D gam).1 hd)]
    rfl

/-- Minimisers of the likelihood over nonnegative variances correspond. -/
theorem C132_minimisers (U : UnitChange p q) (D : List (LmeGroup p q)) (b : Vec ℝ p) (gam : Vec ℝ q) :
    (∃ v, lmeLoss (D.map U.group) .nonInformative (U.beta b) (U.gamma gam) = .ok v ∧ (∀ j, 0 ≤ U.gamma gam j) ∧
      ∀ b' gam' v', (∀ j, 0 ≤ gam' j) → lmeLoss (D.map U.group) .nonInformative b' gam' = .ok v' → v ≤ v') ↔
    (∃ v, lmeLoss D .nonInformative b gam = .ok v ∧ (∀ j, 0 ≤ gam j) ∧
      ∀ b' gam' v', (∀ j, 0 ≤ gam' j) → lmeLoss D .nonInformative b' gam' = .ok v' → v ≤ v') := by
  set C : ℝ := ((D.map fun g => g.n).sum : ℕ) * Real.log U.c
  have key : ∀ b gam v, lmeLoss (D.map U.group) .nonInformative (U.beta b) (U.gamma gam) = .ok (v + C) ↔
      lmeLoss D .nonInformative b gam = .ok v := by
    intro b gam v
    rw [C132_loss]
    cases lmeLoss D .nonInformative b gam with
    | error e => simp [Except.map]
    | ok w =>
      simp only [Except.map, Except.ok.injEq]
      exact add_left_inj C
  constructor
  · rintro ⟨v, h1, h2, h3⟩
    refine ⟨v - C, (key b gam _).1 (by rw [h1, sub_add_cancel]), fun j => (U.gamma_nonneg j).1 (h2 j), fun b' gam' v' hg hv => ?_⟩
    have := h3 (U.beta b') (U.gamma gam') (v' + C) (fun j => (U.gamma_nonneg j).2 (hg j)) ((key _ _ _).2 hv)
    linarith
  · rintro ⟨v, h1, h2, h3⟩
    refine ⟨v + C, (key b gam _).2 h1, fun j => (U.gamma_nonneg j).2 (h2 j), fun b' gam' v' hg hv => ?_⟩
    obtain ⟨b0, rfl⟩ := U.beta_surjective b'
    obtain ⟨g0, rfl⟩ := U.gamma_surjective gam'
    have := h3 b0 g0 (v' - C) (fun j => (U.gamma_nonneg j).1 (hg j)) ((key _ _ _).1 (by rw [hv, sub_add_cancel]))
    linarith

/-! ## Gradients -/

/-- **C132**, gradients: the derivatives are in the reciprocal units of the parameters; in particular stationary points
correspond. -/
theorem C132_gradient (U : UnitChange p q) (D : List (LmeGroup p q)) (b : Vec ℝ p) (gam : Vec ℝ q) :
    lmeGradientBeta (D.map U.group) .nonInformative (U.beta b) (U.gamma gam)
      = (lmeGradientBeta D .nonInformative b gam).map (fun v i => U.s i / U.c * v i) ∧
    lmeGradientGamma (D.map U.group) .nonInformative (U.beta b) (U.gamma gam)
      = (lmeGradientGamma D .nonInformative b gam).map (fun v j => U.t j ^ 2 / U.c ^ 2 * v j) := by
  by_cases hd : InDomain D gam
  · have hd' := (U.inDomain D gam).2 hd
    have hc := U.hc.ne'
    rw [lmeGradientBeta_ok.2 ⟨hd, rfl⟩, lmeGradientBeta_ok.2 ⟨hd', rfl⟩, lmeGradientGamma_ok.2 ⟨hd, rfl⟩, lmeGradientGamma_ok.2 ⟨hd', rfl⟩]
    simp only [Except.map, LmeInstPrior.gradientBeta, LmeInstPrior.gradientGamma, add_zero, Except.ok.injEq, List.map_map]
    constructor
    · clear hd'
      induction D with
      | nil => funext i; simp
      | cons g D ih =>
        funext i
        have h1 := congrFun (ih fun g' hg' => hd g' (List.mem_cons_of_mem _ hg')) i
        simp only [List.map_cons, List.sum_cons, Pi.add_apply, Function.comp_apply] at h1 ⊢
        rw [h1, mul_add]
        congr 1
        rw [U.solved g b (hd g List.mem_cons_self), Matrix.mulVec_smul, Pi.neg_apply, Pi.neg_apply, Pi.smul_apply, smul_eq_mul]
        simp only [Matrix.mulVec, dotProduct, Matrix.transpose_apply, Matrix.mul_diagonal, Finset.mul_sum, mul_neg, neg_inj]
        refine Finset.sum_congr rfl fun k _ => ?_
        field_simp
    · clear hd'
      induction D with
      | nil => funext i; simp
      | cons g D ih =>
        funext j
        have h1 := congrFun (ih fun g' hg' => hd g' (List.mem_cons_of_mem _ hg')) j
        simp only [List.map_cons, List.sum_cons, Pi.add_apply, Function.comp_apply] at h1 ⊢
        rw [h1, mul_add]
        congr 1
        rw [U.solved g b (hd g List.mem_cons_self), U.margCov_inv g (hd g List.mem_cons_self), Matrix.transpose_mul, Matrix.diagonal_transpose, Matrix.mulVec_smul,
          ← Matrix.mulVec_mulVec, Pi.smul_apply, Matrix.mulVec_diagonal, Matrix.mul_smul, Matrix.smul_mul,
          Matrix.mul_assoc (diagonal U.t), Matrix.mul_assoc (diagonal U.t), ← Matrix.mul_assoc (_ * _) g.z, Matrix.smul_apply, Matrix.diagonal_mul,
          Matrix.mul_diagonal, smul_eq_mul, smul_eq_mul]
        field_simp
  · have hd' := mt (U.inDomain D gam).1 hd
    unfold lmeGradientBeta lmeGradientGamma
    rw [lmeRecalculate_error hd, lmeRecalculate_error hd']
    exact ⟨rfl, rfl⟩

/-! ## Optimal fixed effects -/

theorem UnitChange.kernelTail (U : UnitChange p q) {D : List (LmeGroup p q)} {gam : Vec ℝ q} (hd : InDomain D gam) :
    lmeKernelTail (D.map U.group) (U.gamma gam) = .ok
      ((U.c ^ 2)⁻¹ • (diagonal U.s * (D.map fun g => g.xᵀ * (Verif.margCov g gam)⁻¹ * g.x).sum * diagonal U.s),
        U.c⁻¹ • (diagonal U.s *ᵥ (D.map fun g => g.xᵀ *ᵥ ((Verif.margCov g gam)⁻¹ *ᵥ g.y)).sum)) := by
  have hc := U.hc.ne'
  refine lmeKernelTail_ok.2 ⟨(U.inDomain D gam).2 hd, ?_⟩
  rw [List.map_map, List.map_map, Prod.mk.injEq]
  constructor
  · induction D with
    | nil => simp
    | cons g D ih =>
      simp only [List.map_cons, List.sum_cons]
      rw [← ih fun g' hg' => hd g' (List.mem_cons_of_mem _ hg'), Matrix.mul_add, Matrix.add_mul, smul_add]
      congr 1
      simp only [Function.comp_apply]
      rw [U.margCov_inv g (hd g List.mem_cons_self), Matrix.transpose_mul, Matrix.diagonal_transpose, Matrix.mul_smul, Matrix.smul_mul]
      simp only [Matrix.mul_assoc]
  · induction D with
    | nil => simp
    | cons g D ih =>
      simp only [List.map_cons, List.sum_cons]
      rw [← ih fun g' hg' => hd g' (List.mem_cons_of_mem _ hg'), Matrix.mulVec_add, smul_add]
      congr 1
      simp only [Function.comp_apply]
      rw [U.margCov_inv g (hd g List.mem_cons_self), Matrix.transpose_mul, Matrix.diagonal_transpose, Matrix.smul_mulVec,
        Matrix.mulVec_smul, Matrix.mulVec_smul, Matrix.mulVec_smul, smul_smul, ← Matrix.mulVec_mulVec]
      congr 1
      field_simp

/-- **C132**, fixed effects: the optimal fixed effects for given variances change by their units, with the same exceptions. -/
theorem C132_optimal_beta (U : UnitChange p q) (D : List (LmeGroup p q)) (gam : Vec ℝ q) :
    lmeOptimalBeta (D.map U.group) (U.gamma gam) = (lmeOptimalBeta D gam).map U.beta := by
  by_cases hd : InDomain D gam
  · unfold lmeOptimalBeta
    rw [U.kernelTail hd, lmeKernelTail_ok.2 ⟨hd, rfl⟩]
    set A := (D.map fun g => g.xᵀ * (margCov g gam)⁻¹ * g.x).sum
    set w := (D.map fun g => g.xᵀ *ᵥ ((margCov g gam)⁻¹ *ᵥ g.y)).sum
    change npSolve _ _ = (npSolve A w).map U.beta
    have hc := U.hc.ne'
    have hdet : ((U.c ^ 2)⁻¹ • (diagonal U.s * A * diagonal U.s)).det = ((U.c ^ 2)⁻¹ ^ p * (∏ i, U.s i) ^ 2) * A.det := by
      rw [Matrix.det_smul, Matrix.det_mul, Matrix.det_mul, Matrix.det_diagonal, Fintype.card_fin]
      ring
    have hne : ((U.c ^ 2)⁻¹ ^ p * (∏ i, U.s i) ^ 2) ≠ 0 :=
      mul_ne_zero (pow_ne_zero _ (inv_ne_zero U.c2_pos.ne')) (pow_ne_zero _ (Finset.prod_ne_zero_iff.2 fun i _ => U.hs i))
    by_cases hA : IsUnit A.det
    · obtain ⟨v, hv⟩ : ∃ v, npSolve A w = .ok v := ⟨_, if_pos hA⟩
      rw [hv]
      refine npSolve_ok.2 ⟨?_, ?_⟩
      · rw [hdet]
        exact (isUnit_iff_ne_zero.2 hne).mul hA
      · obtain ⟨-, hw⟩ := npSolve_ok.1 hv
        rw [← hw]
        have hb : diagonal U.s *ᵥ U.beta v = U.c • v := by
          funext i
          have := U.hs i
          rw [Matrix.mulVec_diagonal, Pi.smul_apply, smul_eq_mul]
          simp only [UnitChange.beta]
          field_simp
        rw [Matrix.smul_mulVec, ← Matrix.mulVec_mulVec, hb, Matrix.mulVec_smul, smul_smul, ← Matrix.mulVec_mulVec]
        congr 1
        field_simp
    · unfold npSolve
      rw [if_neg hA, if_neg]
      · rfl
      · rw [hdet, isUnit_iff_ne_zero]
        rw [isUnit_iff_ne_zero, not_not] at hA
        rw [hA, mul_zero]
        exact fun h => h rfl
  · unfold lmeOptimalBeta lmeKernelTail
    rw [lmeRecalculate_error hd, lmeRecalculate_error (mt (U.inDomain D gam).1 hd)]
    rfl

/-! ## Information criteria -/

theorem UnitChange.groupCorr (U : UnitChange p q) (g : LmeGroup p q) (gam : Vec ℝ q) :
    Verif.groupCorr (U.group g) (U.gamma gam) = Verif.groupCorr g gam := by
  unfold Verif.groupCorr
  rw [U.margCov]
  ext i j
  simp only [of_apply, Matrix.smul_apply, smul_eq_mul]
  rw [Real.sqrt_mul U.c2_pos.le, Real.sqrt_mul U.c2_pos.le, Real.sqrt_sq U.hc.le]
  have := U.hc.ne'
  rw [show U.c * √(Verif.margCov g gam i i) * (U.c * √(Verif.margCov g gam j j))
    = U.c ^ 2 * (√(Verif.margCov g gam i i) * √(Verif.margCov g gam j j)) by ring, mul_div_mul_left _ _ U.c2_pos.ne']

theorem UnitChange.effSize (U : UnitChange p q) (D : List (LmeGroup p q)) (gam : Vec ℝ q) :
    Verif.effSize (D.map U.group) (U.gamma gam) = Verif.effSize D gam := by
  unfold Verif.effSize
  rw [List.map_map]
  congr 1
  refine List.map_congr_left fun g _ => ?_
  simp only [Function.comp_apply]
  rw [U.groupCorr]

/-- **C132**, criteria: when the change of units does not move a coefficient across the tolerance, the information criteria
change by a constant which depends on the data only, so that models are ranked alike. -/
theorem C132_criteria (U : UnitChange p q) (D : List (LmeGroup p q)) (tol : ℝ) (b : Vec ℝ p) (gam : Vec ℝ q)
    (hd : InDomain D gam) (hb : ∀ i, tol ≤ |U.beta b i| ↔ tol ≤ |b i|) (hg : ∀ j, tol ≤ |U.gamma gam j| ↔ tol ≤ |gam j|) :
    lmeJonesBic (D.map U.group) .nonInformative tol (U.beta b) (U.gamma gam)
      = (lmeJonesBic D .nonInformative tol b gam).map (· + 2 * (((D.map fun g => g.n).sum : ℕ) * Real.log U.c)) ∧
    lmeMullerHui (D.map U.group) .nonInformative tol (U.beta b) (U.gamma gam)
      = (lmeMullerHui D .nonInformative tol b gam).map
        (· + 2 / ((D.map fun g => g.n).sum : ℕ) * (((D.map fun g => g.n).sum : ℕ) * Real.log U.c)) ∧
    lmeVaida (D.map U.group) .nonInformative tol true (U.beta b) (U.gamma gam)
      = (lmeVaida D .nonInformative tol true b gam).map (· + 2 * (((D.map fun g => g.n).sum : ℕ) * Real.log U.c)) := by
  have hd' := (U.inDomain D gam).2 hd
  have e1 : countGe tol (U.beta b) = countGe tol b := by unfold countGe; simp only [hb]
  have e2 : countGe tol (U.gamma gam) = countGe tol gam := by unfold countGe; simp only [hg]
  refine ⟨?_, ?_, ?_⟩
  · rw [lmeJonesBic_eq hd, lmeJonesBic_eq hd', U.effSize, U.marginalNLL b hd, e1, e2]
    simp only [Except.map, LmeInstPrior.loss, lmeNumObs, Except.ok.injEq]
    ring
  · rw [lmeMullerHui_eq hd, lmeMullerHui_eq hd', U.numObs, U.marginalNLL b hd, e1, e2, List.length_map]
    simp only [Except.map, LmeInstPrior.loss, lmeNumObs, Except.ok.injEq]
    ring
  · rw [lmeVaida_marg_eq hd, lmeVaida_marg_eq hd', U.numObs, U.marginalNLL b hd, e1, e2]
    simp only [Except.map, LmeInstPrior.loss, lmeNumObs, Except.ok.injEq]
    ring

/-! ## Random effects -/

theorem UnitChange.blup (U : UnitChange p q) (g : LmeGroup p q) (b : Vec ℝ p) {gam : Vec ℝ q} (h : (Verif.margCov g gam).PosDef) :
    Verif.blup (U.group g) (U.beta b) (U.gamma gam) = U.effects (Verif.blup g b gam) := by
  funext j
  have hc := U.hc.ne'
  have := U.ht j
  rw [blup_apply, U.solved g b h, Matrix.mulVec_smul, Pi.smul_apply, smul_eq_mul]
  simp only [effects]
  rw [blup_apply]
  have e : ((U.group g).zᵀ *ᵥ ((Verif.margCov g gam)⁻¹ *ᵥ Verif.residual g b)) j
      = U.t j * (g.zᵀ *ᵥ ((Verif.margCov g gam)⁻¹ *ᵥ Verif.residual g b)) j := by
    simp only [Matrix.mulVec, dotProduct, Matrix.transpose_apply, Matrix.mul_diagonal, Finset.mul_sum]
    refine Finset.sum_congr rfl fun k _ => ?_
    ring
  rw [e]
  simp only [gamma]
  field_simp

/-- **C132**, random effects (partial): random effects and fitted values change by their units as long as every variance is
either zero or above `1e-10` in the old and in the new units.
Missing: variances in between, for which the statement is false (`C132_mask_violated`). -/
theorem C132_random_effects_partial (U : UnitChange p q) (D : List (LmeGroup p q)) (hD : PosVar D) (b : Vec ℝ p) (gam : Vec ℝ q)
    (hm : MaskExact gam) (hm' : MaskExact (U.gamma gam)) :
    ∃ us, lmeRandomEffects D b gam = .ok us ∧
      lmeRandomEffects (D.map U.group) (U.beta b) (U.gamma gam) = .ok (us.map U.effects) ∧
      List.Forall₂ (fun g u => (U.group g).x *ᵥ U.beta b + (U.group g).z *ᵥ U.effects u = U.c • (g.x *ᵥ b + g.z *ᵥ u)) D us := by
  refine ⟨_, lmeRandomEffects_eq hD hm b, ?_, ?_⟩
  · rw [lmeRandomEffects_eq (U.posVar hD) hm', List.map_map, List.map_map]
    congr 1
    refine List.map_congr_left fun g hg => ?_
    exact U.blup g b (inDomain_of_nonneg hD hm.nonneg g hg)
  · rw [List.forall₂_map_right_iff, List.forall₂_same]
    intro g _
    funext i
    simp only [Pi.add_apply, Pi.smul_apply, smul_eq_mul, Matrix.mulVec, dotProduct, Matrix.mul_diagonal, mul_add, Finset.mul_sum]
    congr 1
    · refine Finset.sum_congr rfl fun k _ => ?_
      have := U.hs k
      simp only [UnitChange.beta]
      field_simp
    · refine Finset.sum_congr rfl fun k _ => ?_
      have := U.ht k
      simp only [UnitChange.effects]
      field_simp

/-! ## Violations: absolute thresholds -/

/-- All variances at most `1e-10`: the random effects are returned as zero. -/
theorem lmeRandomEffect_tiny (g : LmeGroup p q) (b : Vec ℝ p) {gam : Vec ℝ q} (h : ∀ j, |gam j| ≤ 1e-10) : lmeRandomEffect g b gam = .ok 0 := by
  classical
  have : IsEmpty (LmeMask gam) := ⟨fun j => absurd j.2 (not_lt.2 (h j.1))⟩
  unfold lmeRandomEffect npSolve
  rw [if_pos (by rw [Matrix.det_isEmpty]; exact isUnit_one)]
  change Except.ok _ = _
  congr 1
  funext j
  unfold scatterMask
  rw [dif_neg (not_lt.2 (h j))]
  rfl

/-- One group with one observation. -/
noncomputable def unitGroup : LmeGroup 1 1 := ⟨1, !![0], ![1], !![1], ![1e-9]⟩

theorem unitGroup_posVar : PosVar [unitGroup] := by
  intro g hg i
  rw [List.mem_singleton] at hg
  subst hg
  change Fin 1 at i
  fin_cases i
  change (0 : ℝ) < 1e-9
  norm_num

/-- The target in a unit ten times as large. -/
noncomputable def tenfold : UnitChange 1 1 := ⟨fun _ => 1, fun _ => 1, 1 / 10, fun _ => one_ne_zero, fun _ => one_ne_zero, by norm_num⟩

theorem margCov_unitGroup : margCov unitGroup ![1e-9] = !![2e-9] := by
  have h : (!![1] : Matrix (Fin 1) (Fin 1) ℝ) * diagonal ![1e-9] * (!![1] : Matrix (Fin 1) (Fin 1) ℝ)ᵀ + diagonal ![1e-9] = !![2e-9] := by
    ext i j
    fin_cases i
    fin_cases j
    rw [Matrix.add_apply, Matrix.mul_apply]
    simp only [Matrix.mul_diagonal]
    simp
    norm_num
  exact h

/-- **C132 is false** for small variances: here the random effect is `1/2` in the old units and `0`, instead of `1/20`, in the new ones. -/
theorem C132_mask_violated :
    ∃ (D : List (LmeGroup 1 1)) (U : UnitChange 1 1) (b : Vec ℝ 1) (gam : Vec ℝ 1), PosVar D ∧ (∀ j, 0 < gam j) ∧
      lmeRandomEffects D b gam = .ok [![1 / 2]] ∧
      lmeRandomEffects (D.map U.group) (U.beta b) (U.gamma gam) = .ok [![0]] ∧ U.effects ![1 / 2] = ![1 / 20] := by
  refine ⟨[unitGroup], tenfold, 0, ![1e-9], unitGroup_posVar, ?_, ?_, ?_, ?_⟩
  · intro j
    fin_cases j
    change (0 : ℝ) < 1e-9
    norm_num
  · rw [lmeRandomEffects_eq unitGroup_posVar (by intro j; fin_cases j; right; change (1e-10 : ℝ) < 1e-9; norm_num)]
    congr 1
    rw [List.map_singleton]
    congr 1
    funext j
    fin_cases j
    rw [blup_apply, margCov_unitGroup]
    have hi : (!![2e-9] : Matrix (Fin 1) (Fin 1) ℝ)⁻¹ = !![5e8] := by
      refine Matrix.inv_eq_right_inv ?_
      ext i j
      fin_cases i
      fin_cases j
      simp [Matrix.mul_apply]
      norm_num
    have hr : residual unitGroup 0 = ![1] := by
      funext i
      change Fin 1 at i
      fin_cases i
      simp [residual, unitGroup]
    rw [hr]
    change (1e-9 : ℝ) * ((!![1] : Matrix (Fin 1) (Fin 1) ℝ)ᵀ *ᵥ ((!![2e-9] : Matrix (Fin 1) (Fin 1) ℝ)⁻¹ *ᵥ ![1])) 0 = 1 / 2
    rw [hi]
    simp [Matrix.mulVec, dotProduct]
    norm_num
  · have hs : ∀ j, |tenfold.gamma ![1e-9] j| ≤ 1e-10 := by
      intro j
      fin_cases j
      simp [UnitChange.gamma, tenfold]
      norm_num
    have hd : InDomain ([unitGroup].map tenfold.group) (tenfold.gamma ![1e-9]) :=
      (tenfold.inDomain _ _).2 (inDomain_of_nonneg unitGroup_posVar (by intro j; fin_cases j; change (0 : ℝ) ≤ 1e-9; norm_num))
    unfold lmeRandomEffects
    rw [lmeRecalculate_ok.2 ⟨hd, rfl⟩]
    change List.mapM (fun g => lmeRandomEffect g (tenfold.beta 0) (tenfold.gamma ![1e-9])) [tenfold.group unitGroup] = _
    rw [List.mapM_cons, lmeRandomEffect_tiny _ _ hs]
    change Except.ok [(0 : Vec ℝ 1)] = _
    congr 2
    funext j
    fin_cases j
    rfl
  · funext j
    fin_cases j
    simp [UnitChange.effects, tenfold]
    norm_num

/-- **C132 is false** for the criteria with a positive tolerance: the variance `1` is counted in the old units and not in the new
ones, so that the criterion does not change by the constant `2/N (N log c)` of the data. -/
theorem C132_tolerance_violated :
    ∃ (D : List (LmeGroup 1 1)) (U : UnitChange 1 1) (b : Vec ℝ 1) (gam : Vec ℝ 1) (v v' : ℝ), PosVar D ∧ (∀ j, 0 < gam j) ∧
      lmeMullerHui D .nonInformative (1 / 2) b gam = .ok v ∧
      lmeMullerHui (D.map U.group) .nonInformative (1 / 2) (U.beta b) (U.gamma gam) = .ok v' ∧
      v' = v + 2 / ((D.map fun g => g.n).sum : ℕ) * (((D.map fun g => g.n).sum : ℕ) * Real.log U.c) - 2 := by
  have hn : ∀ j : Fin 1, (0 : ℝ) < (![1] : Vec ℝ 1) j := by
    intro j
    fin_cases j
    exact one_pos
  have hd : InDomain [unitGroup] ![1] := inDomain_of_nonneg unitGroup_posVar fun j => (hn j).le
  have e1 : countGe (1 / 2) (![1] : Vec ℝ 1) = 1 := by
    unfold countGe
    rw [Finset.filter_true_of_mem]
    · rfl
    · intro j _
      fin_cases j
      norm_num
  have e2 : countGe (1 / 2) (tenfold.gamma ![1]) = 0 := by
    unfold countGe
    rw [Finset.card_eq_zero, Finset.filter_eq_empty_iff]
    intro j _
    fin_cases j
    simp [UnitChange.gamma, tenfold]
    norm_num
  have e3 : countGe (1 / 2) (tenfold.beta 0) = 0 := by
    unfold countGe
    rw [Finset.card_eq_zero, Finset.filter_eq_empty_iff]
    intro j _
    simp [UnitChange.beta]
  have e4 : countGe (1 / 2) (0 : Vec ℝ 1) = 0 := by
    unfold countGe
    rw [Finset.card_eq_zero, Finset.filter_eq_empty_iff]
    intro j _
    simp
  refine ⟨[unitGroup], tenfold, 0, ![1], _, _, unitGroup_posVar, hn, lmeMullerHui_eq hd _ _, lmeMullerHui_eq ((tenfold.inDomain _ _).2 hd) _ _, ?_⟩
  rw [tenfold.marginalNLL 0 hd, tenfold.numObs, e1, e2, e3, e4]
  have hN : lmeNumObs [unitGroup] = 1 := rfl
  have hN' : (List.map (fun g : LmeGroup 1 1 => g.n) [unitGroup]).sum = 1 := rfl
  rw [hN, hN']
  simp [LmeInstPrior.loss]
  ring

/-! ## A concrete case -/

/-- Metres to centimetres for the target and the covariate, on a group with two observations. -/
noncomputable def toCm : UnitChange 1 1 := ⟨fun _ => 100, fun _ => 1, 100, fun _ => by norm_num, fun _ => one_ne_zero, by norm_num⟩

example : ∃ v, lmeLoss [exGroup] .nonInformative ![1] ![1] = .ok v ∧
    lmeLoss [toCm.group exGroup] .nonInformative (toCm.beta ![1]) (toCm.gamma ![1]) = .ok (v + (2 : ℕ) * Real.log 100) := by
  have hd : InDomain [exGroup] ![1] := inDomain_of_nonneg exGroup_posVar (by intro j; fin_cases j; exact zero_le_one)
  refine ⟨_, lmeLoss_ok.2 ⟨hd, rfl⟩, ?_⟩
  have h := C132_loss toCm [exGroup] ![1] ![1]
  rw [lmeLoss_ok.2 ⟨hd, rfl⟩] at h
  exact h

/-- The hypotheses of the statements on criteria and random effects hold for it. -/
example : InDomain [exGroup] ![1] ∧ (∀ i, (1 / 2 : ℝ) ≤ |toCm.beta ![1] i| ↔ (1 / 2 : ℝ) ≤ |(![1] : Vec ℝ 1) i|) ∧
    (∀ j, (1 / 2 : ℝ) ≤ |toCm.gamma ![1] j| ↔ (1 / 2 : ℝ) ≤ |(![1] : Vec ℝ 1) j|) ∧ MaskExact (![1] : Vec ℝ 1) ∧ MaskExact (toCm.gamma ![1]) := by
  refine ⟨inDomain_of_nonneg exGroup_posVar (by intro j; fin_cases j; exact zero_le_one), ?_, ?_, ?_, ?_⟩
  · intro i
    fin_cases i
    simp [UnitChange.beta, toCm]
  · intro i
    fin_cases i
    simp [UnitChange.gamma, toCm]
    norm_num
  · intro i
    fin_cases i
    right
    norm_num
  · intro i
    fin_cases i
    right
    simp [UnitChange.gamma, toCm]
    norm_num

end Verif
