import Mathlib.Analysis.Calculus.FDeriv.Mul
import Mathlib.Analysis.Calculus.FDeriv.Prod
import Mathlib.Analysis.Calculus.Deriv.Inv
import Mathlib.Analysis.SpecialFunctions.Log.Deriv
import Verif.Props.LmeConvex

/-!
# C112: the inner solver follows descent directions of the barrier function
-/

open Matrix Filter Topology

namespace Verif

variable {p q : ℕ}

section diff

variable {E : Type} [NormedAddCommGroup E] [NormedSpace ℝ E] {n : ℕ}

theorem differentiableAt_det {M : E → Matrix (Fin n) (Fin n) ℝ} {w : E} (h : ∀ i j, DifferentiableAt ℝ (fun w => M w i j) w) :
    DifferentiableAt ℝ (fun w => (M w).det) w := by
  simp only [Matrix.det_apply]
  refine DifferentiableAt.fun_sum fun σ _ => ?_
  refine DifferentiableAt.const_smul ?_ _
  exact (HasFDerivAt.finsetProd (u := Finset.univ) (g := fun i w => M w (σ i) i) fun i _ => (h (σ i) i).hasFDerivAt).differentiableAt

theorem differentiableAt_inv {M : E → Matrix (Fin n) (Fin n) ℝ} {w : E} (h : ∀ i j, DifferentiableAt ℝ (fun w => M w i j) w)
    (hne : (M w).det ≠ 0) (i j : Fin n) : DifferentiableAt ℝ (fun w => (M w)⁻¹ i j) w := by
  simp only [Matrix.inv_def, Matrix.smul_apply, Ring.inverse_eq_inv', Matrix.adjugate_apply, smul_eq_mul]
  refine DifferentiableAt.fun_mul ((differentiableAt_det h).fun_inv hne) (differentiableAt_det fun a b => ?_)
  by_cases hab : a = j
  · subst hab
    simp only [Matrix.updateRow_self]
    exact differentiableAt_const _
  · simp only [Matrix.updateRow_ne hab]
    exact h a b

theorem differentiableAt_list_sum {ι : Type*} (l : List ι) {f : ι → E → ℝ} {w : E} (h : ∀ a ∈ l, DifferentiableAt ℝ (f a) w) :
    DifferentiableAt ℝ (fun w => (l.map fun a => f a w).sum) w := by
  induction l with
  | nil => simp
  | cons a l ih =>
    simp only [List.map_cons, List.sum_cons]
    exact (h a List.mem_cons_self).fun_add (ih fun b hb => h b (List.mem_cons_of_mem _ hb))

end diff

theorem sum_single_smul {n : ℕ} (d : Vec ℝ n) : d = ∑ i, d i • (Pi.single i (1 : ℝ) : Vec ℝ n) := by
  funext k
  rw [Finset.sum_apply, Finset.sum_eq_single k]
  · simp
  · intro b _ hb
    simp [hb.symm]
  · intro h; exact absurd (Finset.mem_univ _) h

/-- A function of the fixed effects and the variances that is jointly differentiable has the derivative given by its partial derivatives. -/
theorem hasFDerivAt_of_partials {f : Vec ℝ p × Vec ℝ q → ℝ} {beta : Vec ℝ p} {gamma : Vec ℝ q} {gb : Vec ℝ p} {gg : Vec ℝ q} (hf : DifferentiableAt ℝ f (beta, gamma))
    (h1 : ∀ i, HasDerivAt (fun t => f (beta + Pi.single i t, gamma)) (gb i) 0) (h2 : ∀ j, HasDerivAt (fun t => f (beta, gamma + Pi.single j t)) (gg j) 0) :
    ∃ L : (Vec ℝ p × Vec ℝ q) →L[ℝ] ℝ, HasFDerivAt f L (beta, gamma) ∧ ∀ d, L d = ∑ i, gb i * d.1 i + ∑ j, gg j * d.2 j := by
  refine ⟨_, hf.hasFDerivAt, fun d => ?_⟩
  obtain ⟨L, hL⟩ : ∃ L, L = fderiv ℝ f (beta, gamma) := ⟨_, rfl⟩
  have hfL : HasFDerivAt f L (beta, gamma) := hL ▸ hf.hasFDerivAt
  rw [← hL]
  have line : ∀ d : Vec ℝ p × Vec ℝ q, HasDerivAt (fun t : ℝ => f ((beta, gamma) + t • d)) (L d) 0 := by
    intro d
    have hl : HasDerivAt (fun t : ℝ => (beta, gamma) + t • d) d 0 := by
      have := ((hasDerivAt_id (0 : ℝ)).smul_const d).const_add ((beta, gamma) : Vec ℝ p × Vec ℝ q)
      simpa using this
    have hfL' : HasFDerivAt f L ((beta, gamma) + (0 : ℝ) • d) := by simpa using hfL
    exact hfL'.comp_hasDerivAt 0 hl
  have e1 : ∀ i, L (Pi.single i 1, 0) = gb i := by
    intro i
    refine (line _).unique ?_
    have : (fun t : ℝ => f ((beta, gamma) + t • ((Pi.single i 1, 0) : Vec ℝ p × Vec ℝ q))) = fun t => f (beta + Pi.single i t, gamma) := by
      funext t
      congr 1
      refine Prod.ext ?_ ?_
      · change beta + t • (Pi.single i 1 : Vec ℝ p) = _
        rw [← Pi.single_smul, smul_eq_mul, mul_one]
      · change gamma + t • (0 : Vec ℝ q) = _
        rw [smul_zero, add_zero]
    rw [this]
    exact h1 i
  have e2 : ∀ j, L (0, Pi.single j 1) = gg j := by
    intro j
    refine (line _).unique ?_
    have : (fun t : ℝ => f ((beta, gamma) + t • ((0, Pi.single j 1) : Vec ℝ p × Vec ℝ q))) = fun t => f (beta, gamma + Pi.single j t) := by
      funext t
      congr 1
      refine Prod.ext ?_ ?_
      · change beta + t • (0 : Vec ℝ p) = _
        rw [smul_zero, add_zero]
      · change gamma + t • (Pi.single j 1 : Vec ℝ q) = _
        rw [← Pi.single_smul, smul_eq_mul, mul_one]
    rw [this]
    exact h2 j
  have hd : d = ∑ i, d.1 i • ((Pi.single i 1, 0) : Vec ℝ p × Vec ℝ q) + ∑ j, d.2 j • ((0, Pi.single j 1) : Vec ℝ p × Vec ℝ q) := by
    refine Prod.ext ?_ ?_
    · rw [Prod.fst_add, Prod.fst_sum, Prod.fst_sum]
      simp only [Prod.smul_fst, smul_zero, Finset.sum_const_zero, add_zero]
      exact sum_single_smul d.1
    · rw [Prod.snd_add, Prod.snd_sum, Prod.snd_sum]
      simp only [Prod.smul_snd, smul_zero, Finset.sum_const_zero, zero_add]
      exact sum_single_smul d.2
  conv_lhs => rw [hd]
  rw [map_add, map_sum, map_sum]
  simp only [map_smul, smul_eq_mul, e1, e2]
  congr 1
  · exact Finset.sum_congr rfl fun i _ => mul_comm _ _
  · exact Finset.sum_congr rfl fun i _ => mul_comm _ _

theorem margCov_apply (g : LmeGroup p q) (gamma : Vec ℝ q) (a b : Fin g.n) :
    margCov g gamma a b = ∑ k, g.z a k * gamma k * g.z b k + (diagonal g.l : Matrix (Fin g.n) (Fin g.n) ℝ) a b := by
  rw [margCov, Matrix.add_apply, Matrix.mul_apply]
  simp only [Matrix.mul_diagonal, Matrix.transpose_apply]

theorem margCov_diff (g : LmeGroup p q) (w : Vec ℝ p × Vec ℝ q) (a b : Fin g.n) : DifferentiableAt ℝ (fun w : Vec ℝ p × Vec ℝ q => margCov g w.2 a b) w := by
  simp only [margCov_apply]
  fun_prop

theorem margCov_inv_diff {g : LmeGroup p q} {w : Vec ℝ p × Vec ℝ q} (h : (margCov g w.2).PosDef) (a b : Fin g.n) :
    DifferentiableAt ℝ (fun w : Vec ℝ p × Vec ℝ q => (margCov g w.2)⁻¹ a b) w :=
  differentiableAt_inv (margCov_diff g w) (posDef_det_unit h).ne_zero a b

theorem residual_diff (g : LmeGroup p q) (w : Vec ℝ p × Vec ℝ q) (a : Fin g.n) : DifferentiableAt ℝ (fun w : Vec ℝ p × Vec ℝ q => residual g w.1 a) w := by
  simp only [residual]
  fun_prop

theorem invR_diff {g : LmeGroup p q} {w : Vec ℝ p × Vec ℝ q} (h : (margCov g w.2).PosDef) (u : Fin g.n → ℝ) :
    DifferentiableAt ℝ (fun w : Vec ℝ p × Vec ℝ q => u ⬝ᵥ ((margCov g w.2)⁻¹ *ᵥ residual g w.1)) w := by
  simp only [dotProduct, Matrix.mulVec]
  refine DifferentiableAt.fun_sum fun a _ => DifferentiableAt.const_mul ?_ _
  exact DifferentiableAt.fun_sum fun b _ => (margCov_inv_diff h a b).fun_mul (residual_diff g w b)

theorem groupNLL_diff {g : LmeGroup p q} {w : Vec ℝ p × Vec ℝ q} (h : (margCov g w.2).PosDef) : DifferentiableAt ℝ (fun w : Vec ℝ p × Vec ℝ q => groupNLL g w.1 w.2) w := by
  unfold groupNLL
  refine DifferentiableAt.fun_add (DifferentiableAt.const_mul ?_ _) (DifferentiableAt.const_mul ?_ _)
  · simp only [dotProduct, Matrix.mulVec]
    refine DifferentiableAt.fun_sum fun a _ => (residual_diff g w a).fun_mul ?_
    exact DifferentiableAt.fun_sum fun b _ => (margCov_inv_diff h a b).fun_mul (residual_diff g w b)
  · exact (differentiableAt_det (margCov_diff g w)).log (posDef_det_unit h).ne_zero

theorem nllGradGamma_diff {g : LmeGroup p q} {w : Vec ℝ p × Vec ℝ q} (h : (margCov g w.2).PosDef) (j : Fin q) :
    DifferentiableAt ℝ (fun w : Vec ℝ p × Vec ℝ q => nllGradGamma g w.1 w.2 j) w := by
  unfold nllGradGamma
  simp only [zT_form, zT_vec]
  refine DifferentiableAt.fun_sub (DifferentiableAt.const_mul ?_ _) (DifferentiableAt.const_mul ((invR_diff h _).fun_pow 2) _)
  simp only [dotProduct, Matrix.mulVec]
  refine DifferentiableAt.fun_sum fun a _ => DifferentiableAt.const_mul ?_ _
  exact DifferentiableAt.fun_sum fun b _ => (margCov_inv_diff h a b).mul_const _

theorem xTx_form (g : LmeGroup p q) (M : Matrix (Fin g.n) (Fin g.n) ℝ) (i k : Fin p) : (g.xᵀ * M * g.x) i k = g.xcol i ⬝ᵥ (M *ᵥ g.xcol k) := by
  rw [Matrix.mul_assoc, Matrix.mul_apply]
  rfl

theorem prior_gradBeta_deriv (P : LmeInstPrior ℝ p q) (beta : Vec ℝ p) (gamma : Vec ℝ q) (j k : Fin p) :
    HasDerivAt (fun t => P.gradientBeta (beta + Pi.single k t) gamma j) (P.hessianBeta j k) 0 := by
  cases P with
  | nonInformative =>
    simpa [LmeInstPrior.gradientBeta, LmeInstPrior.hessianBeta] using hasDerivAt_const (0 : ℝ) (0 : ℝ)
  | gaussian b g =>
    simp only [LmeInstPrior.gradientBeta, LmeInstPrior.hessianBeta, GaussState.gradient, GaussState.hessian,
      Pi.add_apply]
    by_cases hjk : j = k
    · subst hjk
      simp only [Pi.single_eq_same, Matrix.diagonal_apply_eq]
      have := (((hasDerivAt_id (0 : ℝ)).const_add (beta j)).sub_const (b.means j)).const_mul
        (b.weights j * (1 / b.stds j))
      simpa using this
    · simp only [Pi.single_eq_of_ne hjk, Matrix.diagonal_apply_ne _ hjk]
      exact hasDerivAt_const _ _

theorem gradBeta_deriv_beta {D : List (LmeGroup p q)} {gamma : Vec ℝ q} (P : LmeInstPrior ℝ p q) (beta : Vec ℝ p) (i k : Fin p) {H : Matrix (Fin p) (Fin p) ℝ}
    (hH : H = (D.map fun g => g.xᵀ * (margCov g gamma)⁻¹ * g.x).sum + P.hessianBeta) :
    HasDerivAt (fun t => (D.map fun g => -(g.xcol i ⬝ᵥ ((margCov g gamma)⁻¹ *ᵥ residual g (beta + Pi.single k t)))).sum
      + P.gradientBeta (beta + Pi.single k t) gamma i) (H i k) 0 := by
  have h1 := hasDerivAt_list_sum D
    (f := fun g t => -(g.xcol i ⬝ᵥ ((margCov g gamma)⁻¹ *ᵥ residual g (beta + Pi.single k t))))
    (f' := fun g => (g.xᵀ * (margCov g gamma)⁻¹ * g.x) i k) (x := 0) fun g hg => by
      have e : (fun t => -(g.xcol i ⬝ᵥ ((margCov g gamma)⁻¹ *ᵥ residual g (beta + Pi.single k t)))) = fun t =>
          -(g.xcol i ⬝ᵥ ((margCov g gamma)⁻¹ *ᵥ residual g beta)) + t * (g.xᵀ * (margCov g gamma)⁻¹ * g.x) i k := by
        funext t
        rw [residual_add_single, Matrix.mulVec_sub, dotProduct_sub, Matrix.mulVec_smul, dotProduct_smul, smul_eq_mul, xTx_form]
        ring
      rw [e]
      simpa using ((hasDerivAt_id (0 : ℝ)).mul_const ((g.xᵀ * (margCov g gamma)⁻¹ * g.x) i k)).const_add (-(g.xcol i ⬝ᵥ ((margCov g gamma)⁻¹ *ᵥ residual g beta)))
  have h2 := h1.fun_add (prior_gradBeta_deriv P beta gamma i k)
  have e : H i k = (D.map fun g => (g.xᵀ * (margCov g gamma)⁻¹ * g.x) i k).sum + P.hessianBeta i k := by
    rw [hH, Matrix.add_apply, list_sum_matrix_apply]
  rw [e]
  exact h2

theorem prior_diff (P : LmeInstPrior ℝ p q) (w : Vec ℝ p × Vec ℝ q) : DifferentiableAt ℝ (fun w : Vec ℝ p × Vec ℝ q => P.loss w.1 w.2) w ∧
    (∀ i, DifferentiableAt ℝ (fun w : Vec ℝ p × Vec ℝ q => P.gradientBeta w.1 w.2 i) w) ∧ ∀ j, DifferentiableAt ℝ (fun w : Vec ℝ p × Vec ℝ q => P.gradientGamma w.1 w.2 j) w := by
  cases P with
  | nonInformative => exact ⟨differentiableAt_const _, fun _ => differentiableAt_const _, fun _ => differentiableAt_const _⟩
  | gaussian b g =>
    simp only [LmeInstPrior.loss, LmeInstPrior.gradientBeta, LmeInstPrior.gradientGamma, GaussState.loss, GaussState.gradient]
    refine ⟨?_, fun i => ?_, fun j => ?_⟩ <;> fun_prop

/-- The domain of the likelihood is open. -/
theorem inDomain_nhds {D : List (LmeGroup p q)} (hD : PosVar D) {beta : Vec ℝ p} {gamma : Vec ℝ q} (hg : ∀ j, 0 < gamma j) :
    ∀ᶠ w : Vec ℝ p × Vec ℝ q in 𝓝 (beta, gamma), InDomain D w.2 := by
  have h : ∀ᶠ w : Vec ℝ p × Vec ℝ q in 𝓝 (beta, gamma), ∀ j, 0 < w.2 j := by
    refine Filter.eventually_all.2 fun j => ?_
    have : ContinuousAt (fun w : Vec ℝ p × Vec ℝ q => w.2 j) (beta, gamma) := by fun_prop
    exact this.eventually (lt_mem_nhds (hg j))
  filter_upwards [h] with w hw
  exact inDomain_of_nonneg hD fun j => (hw j).le

/-- The relaxed loss minus the logarithmic barrier, and its gradient. -/
theorem barrier_hasFDerivAt {D : List (LmeGroup p q)} (hD : PosVar D) {P : LmeInstPrior ℝ p q} (hP : P.Reachable) {S : Sr3Params} {beta tbeta : Vec ℝ p} {gamma tgamma : Vec ℝ q}
    (hg : ∀ j, 0 < gamma j) (mu : ℝ) {gb : Vec ℝ p} {gg : Vec ℝ q} (hb : lmeSr3GradientBeta D P S beta gamma tbeta = .ok gb) (hgg : lmeSr3GradientGamma D P S beta gamma tgamma = .ok gg) :
    ∃ L : (Vec ℝ p × Vec ℝ q) →L[ℝ] ℝ, HasFDerivAt (fun w : Vec ℝ p × Vec ℝ q => lmeRelaxedLoss D P S w.1 w.2 tbeta tgamma - mu * ∑ j, Real.log (w.2 j)) L (beta, gamma) ∧
      ∀ d, L d = ∑ i, gb i * d.1 i + ∑ j, (gg j - mu / gamma j) * d.2 j := by
  have hd : InDomain D gamma := inDomain_of_nonneg hD fun j => (hg j).le
  refine hasFDerivAt_of_partials (gb := gb) (gg := fun j => gg j - mu / gamma j) ?_ ?_ ?_
  · refine DifferentiableAt.fun_sub ?_ (DifferentiableAt.const_mul (DifferentiableAt.fun_sum fun j _ => DifferentiableAt.log ?_ (hg j).ne') _)
    · unfold lmeRelaxedLoss
      refine DifferentiableAt.fun_add (DifferentiableAt.fun_add (DifferentiableAt.fun_add ?_ (prior_diff P _).1) ?_) ?_
      · unfold marginalNLL
        exact differentiableAt_list_sum D fun g hgD => groupNLL_diff (w := (beta, gamma)) (hd g hgD)
      · fun_prop
      · fun_prop
    · fun_prop
  · intro i
    obtain ⟨-, f, G, H, k1, k2, -, k4, -⟩ := C55_beta_derivatives D P hP S gamma hd tbeta tgamma
    rw [k2] at hb
    cases hb
    have h := (k4.hasDerivAt beta i).sub_const (mu * ∑ j, Real.log (gamma j))
    have e : f = fun b => lmeRelaxedLoss D P S b gamma tbeta tgamma := by
      funext b
      have := k1 b
      rw [lmeSr3Loss_ok hd] at this
      exact (Except.ok.inj this).symm
    rw [e] at h
    exact h
  · intro j
    obtain ⟨-, G, k1, k2⟩ := C56_gradient_gamma D P hP S beta tbeta gamma tgamma (Or.inl hd)
    rw [k1] at hgg
    cases hgg
    obtain ⟨f, hf, hf'⟩ := k2 j
    have hlog : HasDerivAt (fun t : ℝ => ∑ k, Real.log ((gamma + Pi.single j t : Vec ℝ q) k)) (∑ k : Fin q, if k = j then 1 / gamma j else 0) 0 := by
      refine HasDerivAt.fun_sum fun k _ => ?_
      by_cases hk : k = j
      · subst hk
        simp only [Pi.add_apply, Pi.single_eq_same, if_true]
        have h1 : HasDerivAt (fun t : ℝ => gamma k + t) 1 0 := (hasDerivAt_id (0 : ℝ)).const_add _
        have := h1.log (by simpa using (hg k).ne')
        simpa using this
      · simp only [Pi.add_apply, Pi.single_eq_of_ne hk, if_neg hk]
        exact hasDerivAt_const _ _
    rw [Finset.sum_ite_eq' , if_pos (Finset.mem_univ _)] at hlog
    have h2 := (hf'.congr_of_eventuallyEq (f₁ := fun t => lmeRelaxedLoss D P S beta (gamma + Pi.single j t) tbeta tgamma) ?_).fun_sub (hlog.const_mul mu)
    · rw [mul_one_div] at h2
      exact h2
    · filter_upwards [hf, inDomain_eventually hd j] with t h1 h2
      rw [lmeSr3Loss_ok h2] at h1
      exact Except.ok.inj h1

theorem ipJac_form {D : List (LmeGroup p q)} (hD : PosVar D) {P : LmeInstPrior ℝ p q} (hP : P.Reachable) {s : IpState p q} (hg : ∀ j, 0 ≤ s.gamma j) (hlg : 0 ≤ s.S.lg)
    {dF : Matrix (Fin q ⊕ (Fin p ⊕ Fin q)) (Fin q ⊕ (Fin p ⊕ Fin q)) ℝ} (hJ : ipJac D P .positivePart s = .ok dF) :
    ∃ (hb : Matrix (Fin p) (Fin p) ℝ) (hbg : Matrix (Fin p) (Fin q) ℝ) (hgm : Matrix (Fin q) (Fin q) ℝ),
      dF = fromBlocks (diagonal s.gamma) (fromCols 0 (diagonal s.v)) (fromRows 0 (-1)) (fromBlocks hb hbg hbgᵀ hgm) ∧
      ∀ (b : Vec ℝ p) (d : Vec ℝ q), s.S.lb * (b ⬝ᵥ b) ≤ b ⬝ᵥ (hb *ᵥ b) + 2 * (b ⬝ᵥ (hbg *ᵥ d)) + d ⬝ᵥ (hgm *ᵥ d) := by
  have hd := inDomain_of_nonneg hD hg
  have h1 : lmeHessianBeta D P s.gamma = .ok _ := lmeHessianBeta_ok.2 ⟨hd, rfl⟩
  have h2 : lmeHessianBetaGamma D P s.beta s.gamma = .ok _ := lmeHessianBetaGamma_ok.2 ⟨hd, rfl⟩
  have h3 : lmeHessianGamma D P .positivePart s.beta s.gamma = .ok _ := lmeHessianGamma_ok.2 ⟨hd, rfl⟩
  have hz : P.hessianBetaGamma = 0 := by cases P <;> rfl
  rw [hz, add_zero] at h2
  unfold ipJac lmeSr3HessianBeta lmeSr3HessianGamma at hJ
  rw [h1, h2, h3] at hJ
  cases hJ
  refine ⟨_, _, _, rfl, fun b d => ?_⟩
  have key := list_joint hd s.beta b d
  have kb := (P.expansion_beta hP s.gamma).2 b
  have kg := (P.expansion_gamma hP s.beta).2 d
  rw [quadSum_eq] at kb kg
  have hdd : 0 ≤ d ⬝ᵥ d := Finset.sum_nonneg fun i _ => mul_self_nonneg _
  rw [transpose_dot]
  simp only [Matrix.add_mulVec, dotProduct_add, Matrix.smul_mulVec, Matrix.one_mulVec, dotProduct_smul, smul_eq_mul]
  simp only [Matrix.smul_mulVec, dotProduct_smul, smul_eq_mul] at key
  nlinarith [mul_nonneg hlg hdd]

/-- **C112**: with positive noise, a Gaussian or non-informative prior, `lb > 0`, `lg ≥ 0`, the default Hessian and no line search, every pass of the loop of the SR3 inner solver from positive multipliers and
variances moves `(beta, gamma)` in a direction of strict descent of the barrier function, the relaxed loss minus `mu` times the sum of the logarithms of the variances, unless `(beta, gamma)` is a stationary point
of that function; then it does not move. -/
theorem C112_descent (D : List (LmeGroup p q)) (hD : PosVar D) (P : LmeInstPrior ℝ p q) (hP : P.Reachable) (c : IpCfg p q) (hk : c.kind = .positivePart) (hl : c.lineSearch = none)
    (s s' : IpState p q) (hv : ∀ j, 0 < s.v j) (hg : ∀ j, 0 < s.gamma j) (hlb : 0 < s.S.lb) (hlg : 0 ≤ s.S.lg) (F : Fin q ⊕ (Fin p ⊕ Fin q) → ℝ) (hF : ipF D P s = .ok F)
    (hs : ipStep D P c s F = .ok s') :
    ∃ (f : Vec ℝ p × Vec ℝ q → ℝ) (L : (Vec ℝ p × Vec ℝ q) →L[ℝ] ℝ),
      (∀ᶠ w : Vec ℝ p × Vec ℝ q in 𝓝 (s.beta, s.gamma), ∃ l, lmeSr3Loss D P s.S w.1 w.2 s.tbeta s.tgamma = .ok l ∧ f w = l - s.mu * ∑ j, Real.log (w.2 j)) ∧
      HasFDerivAt f L (s.beta, s.gamma) ∧ (L ≠ 0 → L (s'.beta - s.beta, s'.gamma - s.gamma) < 0) ∧ (L = 0 → s'.beta = s.beta ∧ s'.gamma = s.gamma) := by
  have hF' := hF
  unfold ipF at hF'
  obtain ⟨gb, hgb, hF'⟩ := ebind_ok.1 hF'
  obtain ⟨gg, hgg, hF'⟩ := ebind_ok.1 hF'
  cases hF'
  obtain ⟨L, hL, hLd⟩ := barrier_hasFDerivAt hD hP hg s.mu hgb hgg
  obtain ⟨dF, d, step, e1, e2, e3, -, e5, e6, -⟩ := ipStep_ok hs
  obtain ⟨m, hm, hm0, -⟩ := C63_any_direction s.v s.gamma (fun j => d (.inl j)) (fun j => d (.inr (.inr j))) hv hg
  unfold ipStepLen at e3
  rw [hl, ← hm] at e3
  cases e3
  rw [hk] at e1
  obtain ⟨hb, hbg, hgm, rfl, hQ⟩ := ipJac_form hD hP (fun j => (hg j).le) hlg e1
  obtain ⟨hu, hd⟩ := npSolve_ok.1 e2
  rw [ipJac_rows] at hd
  obtain ⟨dv, hdv⟩ : ∃ dv : Vec ℝ q, dv = fun j => d (.inl j) := ⟨_, rfl⟩
  obtain ⟨db, hdb⟩ : ∃ db : Vec ℝ p, db = fun i => d (.inr (.inl i)) := ⟨_, rfl⟩
  obtain ⟨dg, hdg⟩ : ∃ dg : Vec ℝ q, dg = fun j => d (.inr (.inr j)) := ⟨_, rfl⟩
  rw [← hdb, ← hdg] at hd
  rw [← hdb] at e5
  rw [← hdg] at e6
  have r1 : ∀ j, s.gamma j * dv j + s.v j * dg j = -(s.v j * s.gamma j - s.mu) := fun j => by
    have := congrFun hd (.inl j)
    simpa [hdv, hdg] using this
  have r2 : hb *ᵥ db + hbg *ᵥ dg = -gb := by
    funext i
    exact congrFun hd (.inr (.inl i))
  have r3 : ∀ j, -dv j + (hbgᵀ *ᵥ db + hgm *ᵥ dg) j = -(gg j - s.v j) := by
    intro j
    rw [hdv]
    exact congrFun hd (.inr (.inr j))
  have r4 : ∀ j, gg j - s.mu / s.gamma j = -((hbgᵀ *ᵥ db + hgm *ᵥ dg) j + s.v j / s.gamma j * dg j) := by
    intro j
    have h1 := r1 j
    have h3 := r3 j
    have hgj := (hg j).ne'
    have h4 : dv j = s.mu / s.gamma j - s.v j - s.v j / s.gamma j * dg j := by
      field_simp
      linarith
    rw [h4] at h3
    linarith
  have hval : L (db, dg) = -(db ⬝ᵥ (hb *ᵥ db) + 2 * (db ⬝ᵥ (hbg *ᵥ dg)) + dg ⬝ᵥ (hgm *ᵥ dg) + ∑ j, s.v j / s.gamma j * dg j ^ 2) := by
    rw [hLd]
    have k1 : ∑ i, gb i * (db, dg).1 i = -(db ⬝ᵥ (hb *ᵥ db) + db ⬝ᵥ (hbg *ᵥ dg)) := by
      rw [← dotProduct_add, r2, dotProduct_neg, neg_neg, dotProduct_comm]
      rfl
    have k2 : ∑ j, (gg j - s.mu / s.gamma j) * (db, dg).2 j = -(db ⬝ᵥ (hbg *ᵥ dg) + dg ⬝ᵥ (hgm *ᵥ dg) + ∑ j, s.v j / s.gamma j * dg j ^ 2) := by
      rw [← transpose_dot, ← dotProduct_add]
      simp only [dotProduct]
      rw [← Finset.sum_add_distrib, ← Finset.sum_neg_distrib]
      refine Finset.sum_congr rfl fun j _ => ?_
      rw [r4]
      ring
    rw [k1, k2]
    ring
  have hsum : 0 ≤ ∑ j, s.v j / s.gamma j * dg j ^ 2 := Finset.sum_nonneg fun j _ => mul_nonneg (div_pos (hv j) (hg j)).le (sq_nonneg _)
  have hbb : 0 ≤ db ⬝ᵥ db := Finset.sum_nonneg fun i _ => mul_self_nonneg _
  have hq := hQ db dg
  have hlbb := mul_nonneg hlb.le hbb
  have hzero : 0 ≤ L (db, dg) → db = 0 ∧ dg = 0 := by
    intro h
    rw [hval] at h
    have h1 : s.S.lb * (db ⬝ᵥ db) = 0 := by linarith
    have h2 : ∑ j, s.v j / s.gamma j * dg j ^ 2 = 0 := by linarith
    refine ⟨dotProduct_self_eq_zero.1 ((mul_eq_zero.1 h1).resolve_left hlb.ne'), ?_⟩
    funext j
    have := (Finset.sum_eq_zero_iff_of_nonneg fun j _ => mul_nonneg (div_pos (hv j) (hg j)).le (sq_nonneg (dg j))).1 h2 j (Finset.mem_univ j)
    exact pow_eq_zero_iff two_ne_zero |>.1 ((mul_eq_zero.1 this).resolve_left (div_pos (hv j) (hg j)).ne')
  have hmove : ((s'.beta - s.beta, s'.gamma - s.gamma) : Vec ℝ p × Vec ℝ q) = (0.99 * m) • (db, dg) := by
    rw [e5, e6]
    simp
  refine ⟨_, L, ?_, hL, ?_, ?_⟩
  · filter_upwards [inDomain_nhds hD hg] with w hw
    exact ⟨_, lmeSr3Loss_ok hw, rfl⟩
  · intro hne
    rw [hmove, map_smul, smul_eq_mul]
    refine mul_neg_of_pos_of_neg (by positivity) ?_
    by_contra hnn
    obtain ⟨z1, z2⟩ := hzero (not_lt.1 hnn)
    refine hne ?_
    refine ContinuousLinearMap.ext fun w => ?_
    have g1 : gb = 0 := by
      rw [z1, z2, Matrix.mulVec_zero, Matrix.mulVec_zero, add_zero] at r2
      exact neg_eq_zero.1 r2.symm
    have g2 : ∀ j, gg j - s.mu / s.gamma j = 0 := fun j => by
      rw [r4 j, z1, z2, Matrix.mulVec_zero, Matrix.mulVec_zero]
      simp
    rw [hLd, g1]
    simp [g2]
  · intro h0
    obtain ⟨z1, z2⟩ := hzero (by rw [h0]; simp)
    rw [e5, e6, z1, z2]
    simp

/-- **C112**, the matrix of the Newton step: with positive noise, at positive variances and any multipliers, the matrix `dF` with the full Hessian is the derivative of the residual `F` in `(v, beta, gamma)`; the matrix the
solver uses differs from it by a positive semidefinite matrix in the block of the variances only. -/
theorem C112_jacobian (D : List (LmeGroup p q)) (hD : PosVar D) (P : LmeInstPrior ℝ p q) (hP : P.Reachable) (s : IpState p q) (hg : ∀ j, 0 < s.gamma j) :
    ∃ (J Q : Matrix (Fin q ⊕ (Fin p ⊕ Fin q)) (Fin q ⊕ (Fin p ⊕ Fin q)) ℝ) (E : Matrix (Fin q) (Fin q) ℝ), ipJac D P .full s = .ok J ∧ ipJac D P .positivePart s = .ok Q ∧
      NonnegForm E ∧ (∀ d : Fin q ⊕ (Fin p ⊕ Fin q) → ℝ, Q *ᵥ d - J *ᵥ d = Sum.elim (fun _ => 0) (Sum.elim (fun _ => 0) (E *ᵥ fun j => d (.inr (.inr j))))) ∧
      ∀ a : Fin q ⊕ (Fin p ⊕ Fin q), ∃ (f : Vec ℝ q × (Vec ℝ p × Vec ℝ q) → ℝ) (L : (Vec ℝ q × (Vec ℝ p × Vec ℝ q)) →L[ℝ] ℝ),
        (∀ᶠ w : Vec ℝ q × (Vec ℝ p × Vec ℝ q) in 𝓝 (s.v, (s.beta, s.gamma)), ∃ F, ipF D P { s with v := w.1, beta := w.2.1, gamma := w.2.2 } = .ok F ∧ f w = F a) ∧
        HasFDerivAt f L (s.v, (s.beta, s.gamma)) ∧ ∀ d, L d = (J *ᵥ Sum.elim d.1 (Sum.elim d.2.1 d.2.2)) a := by
  have hd : InDomain D s.gamma := inDomain_of_nonneg hD fun j => (hg j).le
  have h1 : lmeHessianBeta D P s.gamma = .ok _ := lmeHessianBeta_ok.2 ⟨hd, rfl⟩
  have h2 : lmeHessianBetaGamma D P s.beta s.gamma = .ok _ := lmeHessianBetaGamma_ok.2 ⟨hd, rfl⟩
  have h3 : ∀ k, lmeHessianGamma D P k s.beta s.gamma = .ok _ := fun k => lmeHessianGamma_ok.2 ⟨hd, rfl⟩
  obtain ⟨hb, hhb⟩ : ∃ hb, hb = (D.map fun g => g.xᵀ * (margCov g s.gamma)⁻¹ * g.x).sum + P.hessianBeta := ⟨_, rfl⟩
  obtain ⟨hbg, hhbg⟩ : ∃ hbg, hbg = ((D.map fun g => hessBGSpec g s.beta s.gamma).sum)ᵀ + P.hessianBetaGamma := ⟨_, rfl⟩
  obtain ⟨hgm, hhg⟩ : ∃ hgm : HessKind → Matrix (Fin q) (Fin q) ℝ, hgm = fun k => (1 / 2 : ℝ) • (D.map fun g => hessGammaSpec k g s.beta s.gamma).sum + P.hessianGamma := ⟨_, rfl⟩
  rw [← hhb] at h1
  rw [← hhbg] at h2
  have h3' : ∀ k, lmeHessianGamma D P k s.beta s.gamma = .ok (hgm k) := fun k => by rw [h3 k, hhg]
  have hJ : ∀ k, ipJac D P k s = .ok (fromBlocks (diagonal s.gamma) (fromCols 0 (diagonal s.v)) (fromRows 0 (-1)) (fromBlocks (hb + s.S.lb • 1) hbg hbgᵀ (hgm k + s.S.lg • 1))) := by
    intro k
    unfold ipJac lmeSr3HessianBeta lmeSr3HessianGamma
    rw [h1, h2, h3' k]
    rfl
  have hev : ∀ᶠ w : Vec ℝ q × (Vec ℝ p × Vec ℝ q) in 𝓝 (s.v, (s.beta, s.gamma)), InDomain D w.2.2 := by
    have : ContinuousAt (fun w : Vec ℝ q × (Vec ℝ p × Vec ℝ q) => w.2) (s.v, (s.beta, s.gamma)) := by fun_prop
    exact this.eventually (inDomain_nhds hD hg)
  obtain ⟨Fb, hFb⟩ : ∃ Fb : Fin p → Vec ℝ p × Vec ℝ q → ℝ, Fb = fun i w => (D.map fun g => -(g.xcol i ⬝ᵥ ((margCov g w.2)⁻¹ *ᵥ residual g w.1))).sum + P.gradientBeta w.1 w.2 i
    + s.S.lb * (w.1 i - s.tbeta i) := ⟨_, rfl⟩
  obtain ⟨Fg, hFg⟩ : ∃ Fg : Fin q → Vec ℝ p × Vec ℝ q → ℝ, Fg = fun j w => (D.map fun g => nllGradGamma g w.1 w.2 j).sum + P.gradientGamma w.1 w.2 j
    + s.S.lg * (w.2 j - s.tgamma j) := ⟨_, rfl⟩
  have hval : ∀ w : Vec ℝ q × (Vec ℝ p × Vec ℝ q), InDomain D w.2.2 → ipF D P { s with v := w.1, beta := w.2.1, gamma := w.2.2 }
      = .ok (Sum.elim (fun j => w.1 j * w.2.2 j - s.mu) (Sum.elim (fun i => Fb i w.2) fun j => Fg j w.2 - w.1 j)) := by
    intro w hw
    obtain ⟨gb, k1, k2⟩ := gradBeta_eval hw P w.2.1
    obtain ⟨gg, k3, k4⟩ := gradGamma_eval hw P w.2.1
    unfold ipF lmeSr3GradientBeta lmeSr3GradientGamma
    simp only
    rw [k1, k3]
    change Except.ok _ = _
    congr 2
    congr 1
    · funext i
      change gb i + s.S.lb * (w.2.1 i - s.tbeta i) = _
      rw [k2, hFb]
    · funext j
      change gg j + s.S.lg * (w.2.2 j - s.tgamma j) - w.1 j = _
      rw [k4, hFg]
  have dlin : ∀ {n : ℕ} (x t : Vec ℝ n) (c : ℝ) (i k : Fin n), HasDerivAt (fun u => c * ((x + Pi.single k u : Vec ℝ n) i - t i)) ((c • (1 : Matrix (Fin n) (Fin n) ℝ)) i k) 0 := by
    intro n x t c i k
    rw [Matrix.smul_apply, smul_eq_mul]
    refine HasDerivAt.const_mul _ (HasDerivAt.sub_const _ ?_)
    by_cases hik : i = k
    · subst hik
      simp only [Pi.add_apply, Pi.single_eq_same, Matrix.one_apply_eq]
      exact (hasDerivAt_id (0 : ℝ)).const_add _
    · simp only [Pi.add_apply, Pi.single_eq_of_ne hik, Matrix.one_apply_ne hik]
      exact hasDerivAt_const _ _
  have hFbd : ∀ i, ∃ L : (Vec ℝ p × Vec ℝ q) →L[ℝ] ℝ, HasFDerivAt (Fb i) L (s.beta, s.gamma) ∧ ∀ d, L d = ∑ k, (hb + s.S.lb • 1) i k * d.1 k + ∑ j, hbg i j * d.2 j := by
    intro i
    refine hasFDerivAt_of_partials ?_ ?_ ?_
    · rw [hFb]
      refine DifferentiableAt.fun_add (DifferentiableAt.fun_add ?_ ((prior_diff P _).2.1 i)) (by fun_prop)
      exact differentiableAt_list_sum D fun g hgD => (invR_diff (w := (s.beta, s.gamma)) (hd g hgD) _).fun_neg
    · intro k
      rw [hFb, Matrix.add_apply]
      exact (gradBeta_deriv_beta P s.beta i k hhb).fun_add (dlin s.beta s.tbeta s.S.lb i k)
    · intro k
      rw [hFb]
      exact (gradBeta_deriv_gamma hd P s.beta i k hhbg).add_const (s.S.lb * (s.beta i - s.tbeta i))
  have hFgd : ∀ i, ∃ L : (Vec ℝ p × Vec ℝ q) →L[ℝ] ℝ, HasFDerivAt (Fg i) L (s.beta, s.gamma) ∧ ∀ d, L d = ∑ k, hbgᵀ i k * d.1 k + ∑ j, (hgm .full + s.S.lg • 1) i j * d.2 j := by
    intro i
    refine hasFDerivAt_of_partials ?_ ?_ ?_
    · rw [hFg]
      refine DifferentiableAt.fun_add (DifferentiableAt.fun_add ?_ ((prior_diff P _).2.2 i)) (by fun_prop)
      exact differentiableAt_list_sum D fun g hgD => nllGradGamma_diff (w := (s.beta, s.gamma)) (hd g hgD) i
    · intro k
      rw [hFg]
      exact (gradGamma_deriv_beta P s.beta k i hhbg).add_const (s.S.lg * (s.gamma i - s.tgamma i))
    · intro k
      rw [hFg, Matrix.add_apply]
      exact (gradGamma_deriv hd P s.beta i k (by rw [hhg])).fun_add (dlin s.gamma s.tgamma s.S.lg i k)
  obtain ⟨F', E', Q', k1, k2, k3, -, -, -, -, k8, -⟩ := C57_hessian_gamma D P hP s.beta s.gamma (Or.inl hd)
  have k1' : F' = hgm .full := by
    have := h3' .full
    exact Except.ok.inj (k1.symm.trans this)
  have k3' : Q' = hgm .positivePart := by
    have := h3' .positivePart
    exact Except.ok.inj ((k3 true).symm.trans this)
  rw [k1', k3'] at k8
  refine ⟨_, _, hgm .positivePart - hgm .full, hJ .full, hJ .positivePart, k8, fun d => ?_, fun a => ?_⟩
  · rw [ipJac_rows, ipJac_rows]
    funext a
    rcases a with j | i | j
    · simp
    · simp
    · simp only [Pi.sub_apply, Sum.elim_inr, Matrix.add_mulVec, Matrix.sub_mulVec, Pi.add_apply]
      ring
  · have pr : ∀ j : Fin q, ∃ A B : (Vec ℝ q × (Vec ℝ p × Vec ℝ q)) →L[ℝ] ℝ, (∀ d, A d = d.1 j) ∧ (∀ d, B d = d.2.2 j) ∧
        HasFDerivAt (fun w : Vec ℝ q × (Vec ℝ p × Vec ℝ q) => w.1 j) A (s.v, (s.beta, s.gamma)) ∧ HasFDerivAt (fun w : Vec ℝ q × (Vec ℝ p × Vec ℝ q) => w.2.2 j) B (s.v, (s.beta, s.gamma)) := by
      intro j
      refine ⟨(ContinuousLinearMap.proj (R := ℝ) (φ := fun _ : Fin q => ℝ) j).comp (ContinuousLinearMap.fst ℝ (Vec ℝ q) (Vec ℝ p × Vec ℝ q)),
        (ContinuousLinearMap.proj (R := ℝ) (φ := fun _ : Fin q => ℝ) j).comp ((ContinuousLinearMap.snd ℝ (Vec ℝ p) (Vec ℝ q)).comp (ContinuousLinearMap.snd ℝ (Vec ℝ q) (Vec ℝ p × Vec ℝ q))),
        fun d => rfl, fun d => rfl, ?_, ?_⟩
      · exact ContinuousLinearMap.hasFDerivAt ((ContinuousLinearMap.proj (R := ℝ) (φ := fun _ : Fin q => ℝ) j).comp (ContinuousLinearMap.fst ℝ (Vec ℝ q) (Vec ℝ p × Vec ℝ q)))
      · exact ContinuousLinearMap.hasFDerivAt ((ContinuousLinearMap.proj (R := ℝ) (φ := fun _ : Fin q => ℝ) j).comp
          ((ContinuousLinearMap.snd ℝ (Vec ℝ p) (Vec ℝ q)).comp (ContinuousLinearMap.snd ℝ (Vec ℝ q) (Vec ℝ p × Vec ℝ q))))
    rcases a with j | i | j
    · obtain ⟨A, B, eA, eB, hA, hB⟩ := pr j
      refine ⟨fun w => w.1 j * w.2.2 j - s.mu, s.v j • B
          + s.gamma j • A, ?_, ?_, ?_⟩
      · filter_upwards [hev] with w hw
        exact ⟨_, hval w hw, rfl⟩
      · refine HasFDerivAt.sub_const _ ?_
        exact HasFDerivAt.fun_mul (x := (s.v, (s.beta, s.gamma))) (c := fun w : Vec ℝ q × (Vec ℝ p × Vec ℝ q) => w.1 j) (d := fun w => w.2.2 j)
          hA
          hB
      · intro d
        rw [ipJac_rows]
        change s.v j * B d + s.gamma j * A d = s.gamma j * d.1 j + s.v j * d.2.2 j
        rw [eA, eB]
        ring
    · obtain ⟨L, hL, hLd⟩ := hFbd i
      refine ⟨fun w => Fb i w.2, L ∘L ContinuousLinearMap.snd ℝ (Vec ℝ q) (Vec ℝ p × Vec ℝ q), ?_, ?_, ?_⟩
      · filter_upwards [hev] with w hw
        exact ⟨_, hval w hw, rfl⟩
      · exact HasFDerivAt.comp (s.v, (s.beta, s.gamma)) (g := Fb i) (f := fun w : Vec ℝ q × (Vec ℝ p × Vec ℝ q) => w.2) hL hasFDerivAt_snd
      · intro d
        rw [ipJac_rows]
        exact hLd d.2
    · obtain ⟨A, B, eA, eB, hA, hB⟩ := pr j
      obtain ⟨L, hL, hLd⟩ := hFgd j
      refine ⟨fun w => Fg j w.2 - w.1 j, L ∘L ContinuousLinearMap.snd ℝ (Vec ℝ q) (Vec ℝ p × Vec ℝ q)
          - A, ?_, ?_, ?_⟩
      · filter_upwards [hev] with w hw
        exact ⟨_, hval w hw, rfl⟩
      · exact (HasFDerivAt.comp (s.v, (s.beta, s.gamma)) (g := Fg j) (f := fun w : Vec ℝ q × (Vec ℝ p × Vec ℝ q) => w.2) hL hasFDerivAt_snd).fun_sub
          hA
      · intro d
        rw [ipJac_rows]
        change L d.2 - A d = -d.1 j + (∑ k, hbgᵀ j k * d.2.1 k + ∑ k, (hgm .full + s.S.lg • 1) j k * d.2.2 k)
        rw [hLd, eA]
        ring

/-- Non-vacuity: the first pass of the inner solver on one observation, with the default settings. -/
example (y : ℝ) : ∃ F s', ipF [obsGroup y] .nonInformative (ipInit (defaultCfg 0 1) ⟨⟨1, 1⟩, none⟩ ![] ![1] ![] ![0]) = .ok F ∧
    ipStep [obsGroup y] .nonInformative (defaultCfg 0 1) (ipInit (defaultCfg 0 1) ⟨⟨1, 1⟩, none⟩ ![] ![1] ![] ![0]) F = .ok s' := by
  have hg : ∀ j, 0 ≤ (ipInit (defaultCfg 0 1) (⟨⟨1, 1⟩, none⟩ : IpOracle 0 1) ![] ![1] ![] ![0]).gamma j := by
    intro j
    fin_cases j
    simp [ipInit, ipStart, defaultCfg]
  obtain ⟨F, hF⟩ := ipF_total (obsGroup_posVar y) (P := .nonInformative) trivial hg
  obtain ⟨s', hs, -⟩ := ipStep_total (obsGroup_posVar y) (P := .nonInformative) trivial (defaultCfg_default 0 1) (F := F)
    (s := ipInit (defaultCfg 0 1) (⟨⟨1, 1⟩, none⟩ : IpOracle 0 1) ![] ![1] ![] ![0]) (fun j => one_pos) hg one_pos zero_le_one
  exact ⟨F, s', hF, hs⟩

end Verif
