import Mathlib.Analysis.Matrix.Order
import Mathlib.LinearAlgebra.Matrix.Notation
import Mathlib.Tactic.FinCases
import Mathlib.Tactic.NormNum
import Verif.Lemmas.LmeOracle
import Verif.Lemmas.QuadForm
import Verif.Props.Priors

/-!
# C54, C55, C58: the loss of the mixed-effects oracle and its behaviour in the fixed effects
-/

open Matrix

namespace Verif

variable {p q : ℕ}

/-- A prior attached to a mixed-effects oracle that some successful instantiation can have produced. -/
def LmeInstPrior.Reachable : LmeInstPrior ℝ p q → Prop
  | .nonInformative => True
  | .gaussian b g => (∃ (params : PriorParams ℝ) (cols : List String) (h : cols.length = p),
      gaussInstantiate params cols = .ok (h ▸ b)) ∧
      ∃ (params : PriorParams ℝ) (cols : List String) (h : cols.length = q),
        gaussInstantiate params cols = .ok (h ▸ g)

theorem LmeInstPrior.expansion_beta (P : LmeInstPrior ℝ p q) (hP : P.Reachable) (gamma : Vec ℝ q) :
    QuadraticExpansion (fun b => P.loss b gamma) (fun b => P.gradientBeta b gamma) P.hessianBeta ∧
      NonnegForm P.hessianBeta := by
  cases P with
  | nonInformative =>
    refine ⟨fun x h => ?_, fun h => ?_⟩
    · simp [LmeInstPrior.loss, LmeInstPrior.gradientBeta, LmeInstPrior.hessianBeta]
    · simp [LmeInstPrior.hessianBeta]
  | gaussian b g =>
    obtain ⟨⟨params, cols, rfl, hi⟩, -⟩ := hP
    have h := C27_prior_derivatives params cols b hi
    refine ⟨fun x l => ?_, h.2.1⟩
    have e := h.1 x l
    simp only [LmeInstPrior.loss, LmeInstPrior.gradientBeta, LmeInstPrior.hessianBeta]
    rw [e]; ring

theorem LmeInstPrior.expansion_gamma (P : LmeInstPrior ℝ p q) (hP : P.Reachable) (beta : Vec ℝ p) :
    QuadraticExpansion (fun c => P.loss beta c) (fun c => P.gradientGamma beta c) P.hessianGamma ∧
      NonnegForm P.hessianGamma := by
  cases P with
  | nonInformative =>
    refine ⟨fun x h => ?_, fun h => ?_⟩
    · simp [LmeInstPrior.loss, LmeInstPrior.gradientGamma, LmeInstPrior.hessianGamma]
    · simp [LmeInstPrior.hessianGamma]
  | gaussian b g =>
    obtain ⟨-, params, cols, rfl, hi⟩ := hP
    have h := C27_prior_derivatives params cols g hi
    refine ⟨fun x l => ?_, h.2.1⟩
    have e := h.1 x l
    simp only [LmeInstPrior.loss, LmeInstPrior.gradientGamma, LmeInstPrior.hessianGamma]
    rw [e]; ring

/-- The one-group problem used in the examples: two observations `y = (1, 3)`, one fixed effect with
features `(1, 2)`, one random effect with features `(1, 1)`, observation variances `(1, 2)`. -/
def exGroup : LmeGroup 1 1 := ⟨2, !![1; 2], ![1, 3], !![1; 1], ![1, 2]⟩

theorem exGroup_posVar : PosVar [exGroup] := by
  intro g hg i
  rw [List.mem_singleton] at hg
  subst hg
  change Fin 2 at i
  fin_cases i
  · exact one_pos
  · exact two_pos

/-! ## C54 -/

/-- **C54**: for every list of groups with positive observation variances, every prior, all fixed effects and
all nonnegative variances the oracle evaluates (no exception), and the value is the marginal negative
log-likelihood plus the prior; more generally it evaluates exactly on the domain of the likelihood, and raises
`LinAlgError` outside. -/
theorem C54_loss_is_marginal_likelihood (D : List (LmeGroup p q)) (P : LmeInstPrior ℝ p q) (beta : Vec ℝ p)
    (gamma : Vec ℝ q) :
    (PosVar D → (∀ j, 0 ≤ gamma j) →
      lmeLoss D P beta gamma = .ok ((D.map fun g =>
        1 / 2 * (residual g beta ⬝ᵥ ((g.z * diagonal gamma * g.zᵀ + diagonal g.l)⁻¹ *ᵥ residual g beta))
          + 1 / 2 * Real.log (g.z * diagonal gamma * g.zᵀ + diagonal g.l).det).sum + P.loss beta gamma)) ∧
    (∀ v, lmeLoss D P beta gamma = .ok v ↔
      InDomain D gamma ∧ v = marginalNLL D beta gamma + P.loss beta gamma) ∧
    (¬ InDomain D gamma → lmeLoss D P beta gamma = .error .linAlgError) := by
  refine ⟨fun hD hg => lmeLoss_ok.2 ⟨inDomain_of_nonneg hD hg, rfl⟩, fun v => lmeLoss_ok, fun hd => ?_⟩
  have := lmeRecalculate_error hd
  unfold lmeLoss
  rw [this]
  rfl

/-- C54 on a concrete problem. -/
example : ∃ v, lmeLoss [exGroup] .nonInformative ![1] ![1] = .ok v ∧
    v = marginalNLL [exGroup] ![1] ![1] + 0 :=
  ⟨_, (C54_loss_is_marginal_likelihood [exGroup] .nonInformative ![1] ![1]).1 exGroup_posVar
    (by intro j; fin_cases j; simp), rfl⟩

/-! ## C55 -/

theorem margCov_inv_symm (g : LmeGroup p q) (gamma : Vec ℝ q) :
    ((margCov g gamma)⁻¹)ᵀ = (margCov g gamma)⁻¹ := by
  rw [Matrix.transpose_nonsing_inv, margCov_isSymm]

theorem residual_eq (g : LmeGroup p q) (beta : Vec ℝ p) : residual g beta = g.y - g.x *ᵥ beta := by
  funext i
  simp only [residual, Pi.sub_apply, Matrix.mulVec, dotProduct]

theorem groupNLL_expansion (g : LmeGroup p q) (gamma : Vec ℝ q) :
    QuadraticExpansion (fun b => groupNLL g b gamma)
      (fun b => -(g.xᵀ *ᵥ ((margCov g gamma)⁻¹ *ᵥ residual g b))) (g.xᵀ * (margCov g gamma)⁻¹ * g.x) := by
  have := quadraticExpansion_residual (two_ne_zero) g.x g.y _ (margCov_inv_symm g gamma)
    (1 / 2 * Real.log (margCov g gamma).det)
  simpa only [groupNLL, residual_eq] using this

/-- The marginal likelihood is an exact quadratic in the fixed effects. -/
theorem marginalNLL_expansion (D : List (LmeGroup p q)) (gamma : Vec ℝ q) :
    QuadraticExpansion (fun b => marginalNLL D b gamma)
      (fun b => (D.map fun g => -(g.xᵀ *ᵥ ((margCov g gamma)⁻¹ *ᵥ residual g b))).sum)
      (D.map fun g => g.xᵀ * (margCov g gamma)⁻¹ * g.x).sum :=
  QuadraticExpansion.list_sum D fun g _ => groupNLL_expansion g gamma

theorem NonnegForm.add {n : ℕ} {H H' : Matrix (Fin n) (Fin n) ℝ} (h : NonnegForm H) (h' : NonnegForm H') :
    NonnegForm (H + H') := by
  intro x
  have h1 := h x
  have h2 := h' x
  rw [quadSum_eq] at *
  rw [Matrix.add_mulVec, dotProduct_add]
  exact add_nonneg h1 h2

theorem NonnegForm.list_sum {ι : Type*} {n : ℕ} (l : List ι) {H : ι → Matrix (Fin n) (Fin n) ℝ}
    (h : ∀ a ∈ l, NonnegForm (H a)) : NonnegForm (l.map H).sum := by
  induction l with
  | nil => intro x; simp
  | cons a l ih =>
    rw [List.map_cons, List.sum_cons]
    exact (h a List.mem_cons_self).add (ih fun b hb => h b (List.mem_cons_of_mem _ hb))

theorem conj_quad {n m : ℕ} (A : Matrix (Fin n) (Fin m) ℝ) (M : Matrix (Fin n) (Fin n) ℝ) (h : Fin m → ℝ) :
    h ⬝ᵥ ((Aᵀ * M * A) *ᵥ h) = (A *ᵥ h) ⬝ᵥ (M *ᵥ (A *ᵥ h)) := by
  rw [Matrix.mul_assoc, ← Matrix.mulVec_mulVec, ← Matrix.mulVec_mulVec, Matrix.dotProduct_mulVec h,
    Matrix.vecMul_transpose]

theorem posDef_inv_nonneg {n : ℕ} {A : Matrix (Fin n) (Fin n) ℝ} (h : A.PosDef) (v : Fin n → ℝ) :
    0 ≤ v ⬝ᵥ (A⁻¹ *ᵥ v) := by
  have := h.inv.posSemidef.dotProduct_mulVec_nonneg v
  simpa using this

theorem kernel_nonneg {D : List (LmeGroup p q)} {gamma : Vec ℝ q} (hd : InDomain D gamma) :
    NonnegForm (D.map fun g => g.xᵀ * (margCov g gamma)⁻¹ * g.x).sum := by
  refine NonnegForm.list_sum D fun g hg x => ?_
  rw [quadSum_eq, conj_quad]
  exact posDef_inv_nonneg (hd g hg) _

theorem kernel_symm (D : List (LmeGroup p q)) (gamma : Vec ℝ q) :
    ((D.map fun g => g.xᵀ * (margCov g gamma)⁻¹ * g.x).sum)ᵀ
      = (D.map fun g => g.xᵀ * (margCov g gamma)⁻¹ * g.x).sum := by
  rw [list_sum_transpose]
  congr 1
  refine List.map_congr_left fun g _ => ?_
  rw [Matrix.transpose_mul, Matrix.transpose_mul, Matrix.transpose_transpose, margCov_inv_symm,
    Matrix.mul_assoc]

theorem LmeInstPrior.hessianBeta_symm (P : LmeInstPrior ℝ p q) : P.hessianBetaᵀ = P.hessianBeta := by
  cases P <;> simp [LmeInstPrior.hessianBeta, GaussState.hessian]

theorem LmeInstPrior.hessianGamma_symm (P : LmeInstPrior ℝ p q) : P.hessianGammaᵀ = P.hessianGamma := by
  cases P <;> simp [LmeInstPrior.hessianGamma, GaussState.hessian]

/-- **C55**: at every `gamma` in the domain (in particular every nonnegative one) loss, gradient and Hessian in
the fixed effects evaluate, for every reachable prior; the loss is an exact quadratic with that gradient and
Hessian, and the Hessian is positive semidefinite and symmetric.  The same for the SR3 oracle with `lb ≥ 0`. -/
theorem C55_beta_derivatives (D : List (LmeGroup p q)) (P : LmeInstPrior ℝ p q) (hP : P.Reachable)
    (S : Sr3Params) (gamma : Vec ℝ q) (hd : InDomain D gamma) (tbeta : Vec ℝ p) (tgamma : Vec ℝ q) :
    (∃ (f : Vec ℝ p → ℝ) (G : Vec ℝ p → Vec ℝ p) (H : Matrix (Fin p) (Fin p) ℝ),
      (∀ b, lmeLoss D P b gamma = .ok (f b)) ∧ (∀ b, lmeGradientBeta D P b gamma = .ok (G b)) ∧
      lmeHessianBeta D P gamma = .ok H ∧ QuadraticExpansion f G H ∧ Hᵀ = H ∧ NonnegForm H) ∧
    (∃ (f : Vec ℝ p → ℝ) (G : Vec ℝ p → Vec ℝ p) (H : Matrix (Fin p) (Fin p) ℝ),
      (∀ b, lmeSr3Loss D P S b gamma tbeta tgamma = .ok (f b)) ∧
      (∀ b, lmeSr3GradientBeta D P S b gamma tbeta = .ok (G b)) ∧
      lmeSr3HessianBeta D P S gamma = .ok H ∧ QuadraticExpansion f G H ∧ Hᵀ = H ∧
      (0 ≤ S.lb → NonnegForm H)) := by
  obtain ⟨hPe, hPn⟩ := P.expansion_beta hP gamma
  have hexp := (marginalNLL_expansion D gamma).add hPe
  have hnn := (kernel_nonneg hd).add hPn
  have l1 : ∀ b, lmeLoss D P b gamma = .ok (marginalNLL D b gamma + P.loss b gamma) :=
    fun b => lmeLoss_ok.2 ⟨hd, rfl⟩
  have l2 : ∀ b, lmeGradientBeta D P b gamma = .ok _ := fun b => lmeGradientBeta_ok.2 ⟨hd, rfl⟩
  have l3 : lmeHessianBeta D P gamma = .ok _ := lmeHessianBeta_ok.2 ⟨hd, rfl⟩
  have hsy : ((D.map fun g => g.xᵀ * (margCov g gamma)⁻¹ * g.x).sum + P.hessianBeta)ᵀ
      = (D.map fun g => g.xᵀ * (margCov g gamma)⁻¹ * g.x).sum + P.hessianBeta := by
    rw [Matrix.transpose_add, kernel_symm, P.hessianBeta_symm]
  refine ⟨⟨_, _, _, l1, l2, l3, hexp, hsy, hnn⟩, ?_⟩
  refine ⟨fun b => marginalNLL D b gamma + P.loss b gamma + S.lb / 2 * ∑ i, (b i - tbeta i) ^ 2 +
      S.lg / 2 * ∑ j, (gamma j - tgamma j) ^ 2,
    fun b => (D.map fun g => -(g.xᵀ *ᵥ ((margCov g gamma)⁻¹ *ᵥ residual g b))).sum + P.gradientBeta b gamma
      + S.lb • (b - tbeta),
    (D.map fun g => g.xᵀ * (margCov g gamma)⁻¹ * g.x).sum + P.hessianBeta + S.lb • (1 : Matrix _ _ ℝ),
    ?_, ?_, ?_, ?_, ?_, ?_⟩
  · intro b; unfold lmeSr3Loss; rw [l1]; rfl
  · intro b; unfold lmeSr3GradientBeta; rw [l2]; rfl
  · unfold lmeSr3HessianBeta; rw [l3]; rfl
  · have h1 := hexp.add (quadraticExpansion_sqDist two_ne_zero S.lb tbeta)
    have h2 := h1.add (QuadraticExpansion.zero (S.lg / 2 * ∑ j, (gamma j - tgamma j) ^ 2))
    simpa only [add_zero] using h2
  · rw [Matrix.transpose_add, hsy, Matrix.transpose_smul, Matrix.transpose_one]
  · intro hl
    refine hnn.add fun x => ?_
    rw [quadSum_eq, Matrix.smul_mulVec, Matrix.one_mulVec, dotProduct_smul, smul_eq_mul]
    refine mul_nonneg hl ?_
    simp only [dotProduct]
    exact Finset.sum_nonneg fun i _ => mul_self_nonneg _

/-- C55 on a concrete problem: the Hessian exists and is a genuine `1 × 1` matrix. -/
example : ∃ H, lmeHessianBeta [exGroup] .nonInformative ![1] = .ok H ∧ NonnegForm H := by
  obtain ⟨⟨f, G, H, -, -, h3, -, -, h5⟩, -⟩ := C55_beta_derivatives [exGroup] .nonInformative trivial ⟨1, 1⟩ ![1]
    (inDomain_of_nonneg exGroup_posVar (by intro j; fin_cases j; simp)) 0 0
  exact ⟨H, h3, h5⟩

/-! ## C58 -/

theorem npSolve_ok {ι : Type*} [Fintype ι] [DecidableEq ι] {a : Matrix ι ι ℝ} {b v : ι → ℝ} :
    npSolve a b = .ok v ↔ IsUnit a.det ∧ a *ᵥ v = b := by
  unfold npSolve
  by_cases h : IsUnit a.det
  · rw [if_pos h]
    constructor
    · intro e
      cases e
      refine ⟨h, ?_⟩
      rw [Matrix.mulVec_mulVec, Matrix.mul_nonsing_inv _ h, Matrix.one_mulVec]
    · rintro ⟨-, rfl⟩
      rw [Matrix.mulVec_mulVec, Matrix.nonsing_inv_mul _ h, Matrix.one_mulVec]
  · rw [if_neg h]
    constructor
    · intro e; cases e
    · rintro ⟨h', -⟩; exact absurd h' h

/-- Gradient of the likelihood in the fixed effects as `kernel β - tail`. -/
theorem gradBeta_kernel_tail (D : List (LmeGroup p q)) (gamma : Vec ℝ q) (b : Vec ℝ p) :
    (D.map fun g => -(g.xᵀ *ᵥ ((margCov g gamma)⁻¹ *ᵥ residual g b))).sum =
      (D.map fun g => g.xᵀ * (margCov g gamma)⁻¹ * g.x).sum *ᵥ b
        - (D.map fun g => g.xᵀ *ᵥ ((margCov g gamma)⁻¹ *ᵥ g.y)).sum := by
  induction D with
  | nil => simp
  | cons g D ih =>
    simp only [List.map_cons, List.sum_cons]
    rw [ih, Matrix.add_mulVec, residual_eq, Matrix.mulVec_sub, Matrix.mulVec_sub,
      ← Matrix.mulVec_mulVec, ← Matrix.mulVec_mulVec]
    abel

/-- **C58**, what holds: whenever `optimal_beta(gamma)` returns, its value is the unique minimiser over all
`beta` of the likelihood part of the loss, hence of the loss of an oracle without prior; and the SR3 version
(with `lb > 0` it always returns) is the unique minimiser of the relaxed loss without prior.
Missing: oracles with a prior (false, see `C58_prior_violated`). -/
theorem C58_optimal_beta_partial (D : List (LmeGroup p q)) (gamma : Vec ℝ q) (hd : InDomain D gamma) :
    (∀ b, lmeOptimalBeta D gamma = .ok b → ∀ b', b' ≠ b → ∃ v v',
      lmeLoss D .nonInformative b gamma = .ok v ∧ lmeLoss D .nonInformative b' gamma = .ok v' ∧ v < v') ∧
    (∀ (S : Sr3Params) (tbeta : Vec ℝ p) (tgamma : Vec ℝ q), 0 < S.lb →
      ∃ b, lmeSr3OptimalBeta D S gamma tbeta = .ok b ∧ ∀ b', b' ≠ b → ∃ v v',
        lmeSr3Loss D .nonInformative S b gamma tbeta tgamma = .ok v ∧
        lmeSr3Loss D .nonInformative S b' gamma tbeta tgamma = .ok v' ∧ v < v') := by
  set A := (D.map fun g => g.xᵀ * (margCov g gamma)⁻¹ * g.x).sum with hA
  set t := (D.map fun g => g.xᵀ *ᵥ ((margCov g gamma)⁻¹ *ᵥ g.y)).sum with ht
  have hAsymm : Aᵀ = A := by
    rw [hA, list_sum_transpose]
    congr 1
    refine List.map_congr_left fun g _ => ?_
    rw [Matrix.transpose_mul, Matrix.transpose_mul, Matrix.transpose_transpose, margCov_inv_symm,
      Matrix.mul_assoc]
  have hAnn := kernel_nonneg hd
  rw [← hA] at hAnn
  have hApsd : A.PosSemidef := by
    refine PosSemidef.of_dotProduct_mulVec_nonneg ?_ fun x => ?_
    · rw [Matrix.IsHermitian, conjTranspose_eq_transpose_of_trivial, hAsymm]
    · have := hAnn x
      rw [quadSum_eq] at this
      simpa using this
  have kt : lmeKernelTail D gamma = .ok (A, t) := lmeKernelTail_ok.2 ⟨hd, rfl⟩
  -- strictness for a nonsingular positive semidefinite matrix
  have strict : ∀ {M : Matrix (Fin p) (Fin p) ℝ}, M.PosSemidef → IsUnit M.det → ∀ h : Vec ℝ p, h ≠ 0 →
      0 < h ⬝ᵥ (M *ᵥ h) := by
    intro M hM hu h hh
    have := (hM.posDef_iff_isUnit).2 ((Matrix.isUnit_iff_isUnit_det M).2 hu)
    simpa using this.dotProduct_mulVec_pos hh
  constructor
  · intro b hb b' hne
    unfold lmeOptimalBeta at hb
    rw [ebind_ok] at hb
    obtain ⟨a, h1, h2⟩ := hb
    rw [kt] at h1
    cases h1
    obtain ⟨hu, hs⟩ := npSolve_ok.1 h2
    simp only at hu hs
    refine ⟨_, _, lmeLoss_ok.2 ⟨hd, rfl⟩, lmeLoss_ok.2 ⟨hd, rfl⟩, ?_⟩
    have e := quadraticExpansion_iff.1 (marginalNLL_expansion D gamma) b (b' - b)
    rw [gradBeta_kernel_tail, ← hA, ← ht, hs, sub_self, zero_dotProduct,
      show b + (b' - b) = b' by abel] at e
    have := strict hApsd hu (b' - b) (sub_ne_zero.2 hne)
    simp only [LmeInstPrior.loss]
    rw [e]
    linarith
  · intro S tbeta tgamma hlb
    have hM : (S.lb • (1 : Matrix (Fin p) (Fin p) ℝ) + A).PosDef := by
      refine Matrix.PosDef.add_posSemidef ?_ hApsd
      exact PosDef.one.smul hlb
    have hu : IsUnit (S.lb • (1 : Matrix (Fin p) (Fin p) ℝ) + A).det :=
      (Matrix.isUnit_iff_isUnit_det _).1 hM.isUnit
    obtain ⟨b, hb⟩ : ∃ b, npSolve (S.lb • (1 : Matrix (Fin p) (Fin p) ℝ) + A) (S.lb • tbeta + t) = .ok b := by
      unfold npSolve; rw [if_pos hu]; exact ⟨_, rfl⟩
    refine ⟨b, ?_, ?_⟩
    · unfold lmeSr3OptimalBeta
      rw [ebind_ok]
      exact ⟨_, kt, hb⟩
    · intro b' hne
      have hs := (npSolve_ok.1 hb).2
      have l1 : ∀ c : Vec ℝ p, lmeLoss D .nonInformative c gamma = .ok (marginalNLL D c gamma + 0) :=
        fun c => lmeLoss_ok.2 ⟨hd, rfl⟩
      refine ⟨_, _, by unfold lmeSr3Loss; rw [l1]; rfl, by unfold lmeSr3Loss; rw [l1]; rfl, ?_⟩
      have e := quadraticExpansion_iff.1 ((marginalNLL_expansion D gamma).add
        (quadraticExpansion_sqDist two_ne_zero S.lb tbeta)) b (b' - b)
      have hgrad : (A *ᵥ b - t) + S.lb • (b - tbeta) = 0 := by
        rw [Matrix.add_mulVec, Matrix.smul_mulVec, Matrix.one_mulVec] at hs
        rw [smul_sub]
        have : A *ᵥ b = S.lb • tbeta + t - S.lb • b := by rw [← hs]; abel
        rw [this]; abel
      rw [gradBeta_kernel_tail, ← hA, ← ht, hgrad, zero_dotProduct, show b + (b' - b) = b' by abel] at e
      have hM' : (A + S.lb • (1 : Matrix (Fin p) (Fin p) ℝ)).PosDef := by rwa [add_comm]
      have := hM'.dotProduct_mulVec_pos (sub_ne_zero.2 hne)
      simp only [star_trivial] at this
      linarith

/-- **C58 is violated by the code for oracles with a prior**: `optimal_beta` ignores the prior, so whenever
the prior's gradient is not zero at the returned value, that value does not minimise the loss. -/
theorem C58_prior_violated (D : List (LmeGroup p q)) (P : LmeInstPrior ℝ p q) (hP : P.Reachable)
    (gamma : Vec ℝ q) (b : Vec ℝ p) (hb : lmeOptimalBeta D gamma = .ok b) (hne : P.gradientBeta b gamma ≠ 0) :
    ∃ b' v v', lmeLoss D P b gamma = .ok v ∧ lmeLoss D P b' gamma = .ok v' ∧ v' < v := by
  unfold lmeOptimalBeta at hb
  rw [ebind_ok] at hb
  obtain ⟨a, h1, h2⟩ := hb
  obtain ⟨hd, rfl⟩ := lmeKernelTail_ok.1 h1
  obtain ⟨hu, hs⟩ := npSolve_ok.1 h2
  simp only at hu hs
  have hexp := (marginalNLL_expansion D gamma).add (P.expansion_beta hP gamma).1
  have : (D.map fun g => -(g.xᵀ *ᵥ ((margCov g gamma)⁻¹ *ᵥ residual g b))).sum + P.gradientBeta b gamma ≠ 0 := by
    rwa [gradBeta_kernel_tail, hs, sub_self, zero_add]
  obtain ⟨b', h⟩ := hexp.lt_of_not_stationary this
  exact ⟨b', _, _, lmeLoss_ok.2 ⟨hd, rfl⟩, lmeLoss_ok.2 ⟨hd, rfl⟩, h⟩

/-- One group with one observation `y = 1`, feature `1`, no random effect to speak of (`z = 0`), unit variance. -/
def exOne : LmeGroup 1 1 := ⟨1, !![1], ![1], !![0], ![1]⟩

theorem exOne_posVar : PosVar [exOne] := by
  intro g hg i
  rw [List.mem_singleton] at hg
  subst hg
  change Fin 1 at i
  fin_cases i
  exact one_pos

theorem exOne_cov (gamma : Vec ℝ 1) : margCov exOne gamma = 1 := by
  have key : ((!![0] : Matrix (Fin 1) (Fin 1) ℝ) * diagonal gamma * (!![0] : Matrix (Fin 1) (Fin 1) ℝ)ᵀ
      + diagonal ![1] : Matrix (Fin 1) (Fin 1) ℝ) = 1 := by
    ext i j
    fin_cases i; fin_cases j
    simp [Matrix.mul_apply, Matrix.mulVec, Matrix.vecMul, dotProduct]
  exact key

theorem exOne_optimalBeta : lmeOptimalBeta [exOne] ![0] = .ok ![1] := by
  unfold lmeOptimalBeta
  rw [ebind_ok]
  refine ⟨_, lmeKernelTail_ok.2 ⟨inDomain_of_nonneg exOne_posVar (by intro j; fin_cases j; simp), rfl⟩, ?_⟩
  rw [npSolve_ok]
  simp only [List.map_cons, List.map_nil, List.sum_cons, List.sum_nil, add_zero, exOne_cov, inv_one,
    Matrix.mul_one, Matrix.one_mulVec]
  constructor
  · rw [Matrix.det_fin_one]
    have key : IsUnit (((!![1] : Matrix (Fin 1) (Fin 1) ℝ)ᵀ * (!![1] : Matrix (Fin 1) (Fin 1) ℝ)) 0 0) := by
      simp [Matrix.mul_apply]
    exact key
  · have key : ((!![1] : Matrix (Fin 1) (Fin 1) ℝ)ᵀ * (!![1] : Matrix (Fin 1) (Fin 1) ℝ)) *ᵥ ![1]
        = (!![1] : Matrix (Fin 1) (Fin 1) ℝ)ᵀ *ᵥ ![1] := by
      funext i
      fin_cases i
      simp [Matrix.mul_apply, Matrix.mulVec, dotProduct]
    exact key

/-- A prior on the fixed effect with mean 0 and parameter 1, as produced by `instantiate`. -/
noncomputable def exPrior : LmeInstPrior ℝ 1 1 := .gaussian ⟨![0], ![1], ![1]⟩ ⟨![0], ![1], ![0]⟩

theorem exPrior_reachable : exPrior.Reachable := by
  refine ⟨⟨[("a", (0, 1))], ["a"], rfl, ?_⟩, ⟨[("a", (0, 0))], ["a"], rfl, ?_⟩⟩
  · simp [gaussInstantiate, collect, priorEntry, PriorParams.getD]
    change Except.ok _ = _
    congr 2 <;> funext i <;> fin_cases i <;> rfl
  · simp [gaussInstantiate, collect, priorEntry, PriorParams.getD]
    change Except.ok _ = _
    congr 2 <;> funext i <;> fin_cases i <;> rfl

/-- C58's violation on a concrete problem: `optimal_beta` returns 1 whatever the prior, and 1 is not the
minimiser of the penalised loss. -/
example : lmeOptimalBeta [exOne] ![0] = .ok ![1] ∧ ∃ b' v v', lmeLoss [exOne] exPrior ![1] ![0] = .ok v ∧
    lmeLoss [exOne] exPrior b' ![0] = .ok v' ∧ v' < v := by
  refine ⟨exOne_optimalBeta, C58_prior_violated _ _ exPrior_reachable _ _ exOne_optimalBeta fun h => ?_⟩
  have := congrFun h 0
  simp [exPrior, LmeInstPrior.gradientBeta, GaussState.gradient] at this

/-- C58's positive part on the same problem. -/
example : ∃ v v', lmeLoss [exOne] .nonInformative ![1] ![0] = .ok v ∧
    lmeLoss [exOne] .nonInformative ![3] ![0] = .ok v' ∧ v < v' :=
  (C58_optimal_beta_partial [exOne] ![0] (inDomain_of_nonneg exOne_posVar (by intro j; fin_cases j; simp))).1
    _ exOne_optimalBeta _ (fun h => by have := congrFun h 0; norm_num at this)

end Verif
