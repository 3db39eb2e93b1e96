import Verif.Props.LmeGamma

/-!
# C57: second derivatives of the mixed-effects oracle involving the variances
-/

open Matrix Filter Topology

namespace Verif

variable {p q : ℕ}

/-- `Zᵀ Ω⁻¹ Z`. -/
noncomputable def zInvZ (g : LmeGroup p q) (gamma : Vec ℝ q) : Matrix (Fin q) (Fin q) ℝ :=
  g.zᵀ * (margCov g gamma)⁻¹ * g.z

/-- `Zᵀ Ω⁻¹ (y - X β)`. -/
noncomputable def zInvR (g : LmeGroup p q) (beta : Vec ℝ p) (gamma : Vec ℝ q) : Vec ℝ q :=
  g.zᵀ *ᵥ ((margCov g gamma)⁻¹ *ᵥ residual g beta)

/-- Twice the contribution of a group to `hessian_gamma`. -/
noncomputable def hessGammaSpec (kind : HessKind) (g : LmeGroup p q) (beta : Vec ℝ p) (gamma : Vec ℝ q) :
    Matrix (Fin q) (Fin q) ℝ := Matrix.of fun j k =>
  match kind with
  | .positivePart => 2 * (zInvR g beta gamma j * zInvR g beta gamma k) * zInvZ g gamma j k
  | .expected => zInvZ g gamma j k * zInvZ g gamma j k
  | .full => (-zInvZ g gamma j k + 2 * (zInvR g beta gamma j * zInvR g beta gamma k)) * zInvZ g gamma j k

theorem hessGammaTerm_eq {g : LmeGroup p q} {gamma : Vec ℝ q} (h : (margCov g gamma).PosDef) (kind : HessKind)
    (beta : Vec ℝ p) : hessGammaTerm kind beta (lmeFact gamma g) = hessGammaSpec kind g beta gamma := by
  ext j k
  cases kind <;>
  simp only [hessGammaTerm, hessGammaSpec, elZZ_eq h, elZXi_eq h, Matrix.hadamard_apply, Matrix.add_apply,
    Matrix.neg_apply, Matrix.smul_apply, vecMulVec_apply, Matrix.of_apply, zInvZ, zInvR] <;>
  simp only [nsmul_eq_mul, Nat.cast_ofNat]

theorem lmeHessianGamma_ok {D : List (LmeGroup p q)} {P : LmeInstPrior ℝ p q} {kind : HessKind}
    {beta : Vec ℝ p} {gamma : Vec ℝ q} {v : Matrix (Fin q) (Fin q) ℝ} :
    lmeHessianGamma D P kind beta gamma = .ok v ↔
      InDomain D gamma ∧ v = (1 / 2 : ℝ) • (D.map fun g => hessGammaSpec kind g beta gamma).sum
        + P.hessianGamma := by
  unfold lmeHessianGamma
  rw [recalc_bind_ok (F := fun fs => (1 / 2 : ℝ) • (fs.map (hessGammaTerm kind beta)).sum + P.hessianGamma)]
  refine and_congr_right fun hd => ?_
  rw [sum_map_fact hd _ _ fun g h => hessGammaTerm_eq h kind beta]

/-- `Xᵀ Ω⁻¹ Z` weighted by the residuals: contribution of a group to `hessian_beta_gamma`. -/
noncomputable def hessBGSpec (g : LmeGroup p q) (beta : Vec ℝ p) (gamma : Vec ℝ q) :
    Matrix (Fin q) (Fin p) ℝ := Matrix.of fun j i =>
  zInvR g beta gamma j * (g.zᵀ * (margCov g gamma)⁻¹ * g.x) j i

theorem lmeHessianBetaGamma_ok {D : List (LmeGroup p q)} {P : LmeInstPrior ℝ p q}
    {beta : Vec ℝ p} {gamma : Vec ℝ q} {v : Matrix (Fin p) (Fin q) ℝ} :
    lmeHessianBetaGamma D P beta gamma = .ok v ↔
      InDomain D gamma ∧ v = ((D.map fun g => hessBGSpec g beta gamma).sum)ᵀ + P.hessianBetaGamma := by
  unfold lmeHessianBetaGamma
  rw [recalc_bind_ok (F := fun fs => ((fs.map (hessBetaGammaTerm beta)).sum)ᵀ + P.hessianBetaGamma)]
  refine and_congr_right fun hd => ?_
  rw [sum_map_fact hd _ _ fun g h => Matrix.ext fun j i => hessBetaGammaTerm_apply h beta j i]
  rfl

theorem zInvZ_symm (g : LmeGroup p q) (gamma : Vec ℝ q) (j k : Fin q) :
    zInvZ g gamma j k = zInvZ g gamma k j := by
  have : (zInvZ g gamma)ᵀ = zInvZ g gamma := by
    unfold zInvZ
    rw [Matrix.transpose_mul, Matrix.transpose_mul, Matrix.transpose_transpose, margCov_inv_symm,
      Matrix.mul_assoc]
  exact congrFun (congrFun this k) j

theorem zInvZ_deriv {g : LmeGroup p q} {gamma : Vec ℝ q} (h : (margCov g gamma).PosDef) (i j k : Fin q) :
    HasDerivAt (fun t => zInvZ g (gamma + Pi.single k t) i j)
      (-(zInvZ g gamma k i * zInvZ g gamma k j)) 0 := by
  have h1 := hasDerivAt_inv_form h (g.zcol k) (g.zcol i) (g.zcol j)
  simp only [zInvZ, zT_form, margCov_add_single]
  exact h1

theorem zInvR_deriv {g : LmeGroup p q} {gamma : Vec ℝ q} (h : (margCov g gamma).PosDef) (beta : Vec ℝ p)
    (i k : Fin q) : HasDerivAt (fun t => zInvR g beta (gamma + Pi.single k t) i)
      (-(zInvZ g gamma k i * zInvR g beta gamma k)) 0 := by
  have h1 := hasDerivAt_inv_form h (g.zcol k) (g.zcol i) (residual g beta)
  simp only [zInvZ, zInvR, zT_form, zT_vec, margCov_add_single]
  exact h1

theorem nllGradGamma_deriv {g : LmeGroup p q} {gamma : Vec ℝ q} (h : (margCov g gamma).PosDef)
    (beta : Vec ℝ p) (j k : Fin q) : HasDerivAt (fun t => nllGradGamma g beta (gamma + Pi.single k t) j)
      (1 / 2 * hessGammaSpec .full g beta gamma j k) 0 := by
  have h1 := (zInvZ_deriv h j j k).const_mul (1 / 2)
  have h2 := ((zInvR_deriv h beta j k).fun_pow 2).const_mul (1 / 2)
  have h3 := h1.fun_sub h2
  have e : (fun t => nllGradGamma g beta (gamma + Pi.single k t) j) = fun t =>
      1 / 2 * zInvZ g (gamma + Pi.single k t) j j - 1 / 2 * zInvR g beta (gamma + Pi.single k t) j ^ 2 := rfl
  rw [e]
  convert! h3 using 1
  simp only [hessGammaSpec, Matrix.of_apply, zInvZ_symm g gamma k j, Pi.single_zero, add_zero]
  push_cast
  ring

theorem prior_gradGamma_deriv (P : LmeInstPrior ℝ p q) (beta : Vec ℝ p) (gamma : Vec ℝ q) (j k : Fin q) :
    HasDerivAt (fun t => P.gradientGamma beta (gamma + Pi.single k t) j) (P.hessianGamma j k) 0 := by
  cases P with
  | nonInformative =>
    simpa [LmeInstPrior.gradientGamma, LmeInstPrior.hessianGamma] using hasDerivAt_const (0 : ℝ) (0 : ℝ)
  | gaussian b g =>
    simp only [LmeInstPrior.gradientGamma, LmeInstPrior.hessianGamma, GaussState.gradient, GaussState.hessian,
      Pi.add_apply]
    by_cases hjk : j = k
    · subst hjk
      simp only [Pi.single_eq_same, Matrix.diagonal_apply_eq]
      have := (((hasDerivAt_id (0 : ℝ)).const_add (gamma j)).sub_const (g.means j)).const_mul
        (g.weights j * (1 / g.stds j))
      simpa using this
    · simp only [Pi.single_eq_of_ne hjk, Matrix.diagonal_apply_ne _ hjk]
      exact hasDerivAt_const _ _

theorem gradGamma_deriv {D : List (LmeGroup p q)} {gamma : Vec ℝ q} (hd : InDomain D gamma)
    (P : LmeInstPrior ℝ p q) (beta : Vec ℝ p) (j k : Fin q) {H : Matrix (Fin q) (Fin q) ℝ}
    (hH : H = (1 / 2 : ℝ) • (D.map fun g => hessGammaSpec .full g beta gamma).sum + P.hessianGamma) :
    HasDerivAt (fun t => (D.map fun g => nllGradGamma g beta (gamma + Pi.single k t) j).sum
      + P.gradientGamma beta (gamma + Pi.single k t) j) (H j k) 0 := by
  have h0 : ∀ g ∈ D, HasDerivAt (fun t => nllGradGamma g beta (gamma + Pi.single k t) j)
      (1 / 2 * hessGammaSpec .full g beta gamma j k) 0 := by
    intro g hg
    have hpd : (margCov g gamma).PosDef := hd g hg
    exact nllGradGamma_deriv hpd beta j k
  have h1 := hasDerivAt_list_sum D h0
  have h2 := h1.fun_add (prior_gradGamma_deriv P beta gamma j k)
  have e : H j k = (D.map fun g => 1 / 2 * hessGammaSpec .full g beta gamma j k).sum
      + P.hessianGamma j k := by
    rw [hH, Matrix.add_apply, Matrix.smul_apply, list_sum_matrix_apply, List.sum_map_mul_left, smul_eq_mul]
  rw [e]
  exact h2

theorem gradBeta_deriv_gamma {D : List (LmeGroup p q)} {gamma : Vec ℝ q} (hd : InDomain D gamma)
    (P : LmeInstPrior ℝ p q) (beta : Vec ℝ p) (i : Fin p) (k : Fin q) {M : Matrix (Fin p) (Fin q) ℝ}
    (hM : M = ((D.map fun g => hessBGSpec g beta gamma).sum)ᵀ + P.hessianBetaGamma) :
    HasDerivAt (fun t => (D.map fun g =>
        -(g.xcol i ⬝ᵥ ((margCov g (gamma + Pi.single k t))⁻¹ *ᵥ residual g beta))).sum
      + P.gradientBeta beta (gamma + Pi.single k t) i) (M i k) 0 := by
  have h1 := hasDerivAt_list_sum D
    (f := fun g t => -(g.xcol i ⬝ᵥ ((margCov g (gamma + Pi.single k t))⁻¹ *ᵥ residual g beta)))
    (f' := fun g => hessBGSpec g beta gamma k i) fun g hg => by
      have h := (hasDerivAt_inv_form (show (margCov g gamma).PosDef from hd g hg) (g.zcol k) (g.xcol i)
        (residual g beta)).fun_neg
      simp only [margCov_add_single]
      convert! h using 1
      simp only [hessBGSpec, Matrix.of_apply, zTx_form, zInvR, zT_vec]
      ring
  have hP : HasDerivAt (fun t => P.gradientBeta beta (gamma + Pi.single k t) i) 0 0 := by
    cases P <;> exact hasDerivAt_const _ _
  have h2 := h1.fun_add hP
  have e : M i k = (D.map fun g => hessBGSpec g beta gamma k i).sum + 0 := by
    rw [hM, Matrix.add_apply, Matrix.transpose_apply, list_sum_matrix_apply]
    rfl
  rw [e]
  exact h2

theorem residual_add_single (g : LmeGroup p q) (beta : Vec ℝ p) (i : Fin p) (t : ℝ) :
    residual g (beta + Pi.single i t) = residual g beta - t • g.xcol i := by
  rw [residual_eq, residual_eq, Matrix.mulVec_add, Matrix.mulVec_single]
  funext r
  simp [LmeGroup.xcol, mul_comm]
  ring

theorem gradGamma_deriv_beta {D : List (LmeGroup p q)} {gamma : Vec ℝ q}
    (P : LmeInstPrior ℝ p q) (beta : Vec ℝ p) (i : Fin p) (k : Fin q) {M : Matrix (Fin p) (Fin q) ℝ}
    (hM : M = ((D.map fun g => hessBGSpec g beta gamma).sum)ᵀ + P.hessianBetaGamma) :
    HasDerivAt (fun t => (D.map fun g => nllGradGamma g (beta + Pi.single i t) gamma k).sum
      + P.gradientGamma (beta + Pi.single i t) gamma k) (M i k) 0 := by
  have h1 := hasDerivAt_list_sum D
    (f := fun g t => nllGradGamma g (beta + Pi.single i t) gamma k)
    (f' := fun g => hessBGSpec g beta gamma k i) (x := 0) fun g hg => by
      set c := g.zcol k ⬝ᵥ ((margCov g gamma)⁻¹ *ᵥ g.xcol i) with hc
      have e : (fun t => nllGradGamma g (beta + Pi.single i t) gamma k) = fun t =>
          1 / 2 * zInvZ g gamma k k - 1 / 2 * (zInvR g beta gamma k - t * c) ^ 2 := by
        funext t
        simp only [nllGradGamma, zInvZ, zInvR, zT_vec]
        rw [residual_add_single, Matrix.mulVec_sub, dotProduct_sub, Matrix.mulVec_smul, dotProduct_smul,
          smul_eq_mul, hc]
      rw [e]
      have h2 := ((((hasDerivAt_id (0 : ℝ)).mul_const c).const_sub (zInvR g beta gamma k)).fun_pow 2).const_mul
        (1 / 2)
      have h3 := h2.const_sub (1 / 2 * zInvZ g gamma k k)
      convert! h3 using 1
      simp only [hessBGSpec, Matrix.of_apply, zTx_form, ← hc, id]
      push_cast
      ring
  have hP : HasDerivAt (fun t => P.gradientGamma (beta + Pi.single i t) gamma k) 0 0 := by
    cases P <;> exact hasDerivAt_const _ _
  have h2 := h1.fun_add hP
  have e : M i k = (D.map fun g => hessBGSpec g beta gamma k i).sum + 0 := by
    rw [hM, Matrix.add_apply, Matrix.transpose_apply, list_sum_matrix_apply]
    rfl
  rw [e]
  exact h2

theorem gradGamma_eval {D : List (LmeGroup p q)} {gamma : Vec ℝ q} (hd : InDomain D gamma)
    (P : LmeInstPrior ℝ p q) (beta : Vec ℝ p) : ∃ G : Vec ℝ q, lmeGradientGamma D P beta gamma = .ok G ∧
      ∀ j, G j = (D.map fun g => nllGradGamma g beta gamma j).sum + P.gradientGamma beta gamma j := by
  refine ⟨_, lmeGradientGamma_ok'.2 ⟨hd, rfl⟩, fun j => ?_⟩
  rw [Pi.add_apply]
  congr 1
  exact list_sum_apply D _ j

theorem gradBeta_eval {D : List (LmeGroup p q)} {gamma : Vec ℝ q} (hd : InDomain D gamma)
    (P : LmeInstPrior ℝ p q) (beta : Vec ℝ p) : ∃ G : Vec ℝ p, lmeGradientBeta D P beta gamma = .ok G ∧
      ∀ i, G i = (D.map fun g => -(g.xcol i ⬝ᵥ ((margCov g gamma)⁻¹ *ᵥ residual g beta))).sum
        + P.gradientBeta beta gamma i := by
  refine ⟨_, lmeGradientBeta_ok.2 ⟨hd, rfl⟩, fun j => ?_⟩
  rw [Pi.add_apply]
  congr 1
  exact list_sum_apply D _ j

theorem zInvZ_posSemidef {g : LmeGroup p q} {gamma : Vec ℝ q} (h : (margCov g gamma).PosDef) :
    (zInvZ g gamma).PosSemidef := by
  refine PosSemidef.of_dotProduct_mulVec_nonneg ?_ fun x => ?_
  · rw [Matrix.IsHermitian, conjTranspose_eq_transpose_of_trivial]
    ext j k
    rw [Matrix.transpose_apply, zInvZ_symm]
  · rw [star_trivial, zInvZ, conj_quad]
    exact posDef_inv_nonneg h _

theorem hessGammaSpec_nonneg {g : LmeGroup p q} {gamma : Vec ℝ q} (h : (margCov g gamma).PosDef)
    (kind : HessKind) (hk : kind ≠ .full) (beta : Vec ℝ p) : NonnegForm (hessGammaSpec kind g beta gamma) := by
  cases kind with
  | full => exact absurd rfl hk
  | positivePart =>
    intro x
    have h1 := (zInvZ_posSemidef h).dotProduct_mulVec_nonneg fun j => x j * zInvR g beta gamma j
    rw [star_trivial, ← quadSum_eq] at h1
    have e : ∑ i, ∑ j, x i * hessGammaSpec .positivePart g beta gamma i j * x j =
        2 * ∑ i, ∑ j, x i * zInvR g beta gamma i * zInvZ g gamma i j * (x j * zInvR g beta gamma j) := by
      rw [Finset.mul_sum]
      refine Finset.sum_congr rfl fun i _ => ?_
      rw [Finset.mul_sum]
      refine Finset.sum_congr rfl fun j _ => ?_
      simp only [hessGammaSpec, Matrix.of_apply]
      ring
    rw [e]
    exact mul_nonneg zero_le_two h1
  | expected =>
    intro x
    have h1 := ((zInvZ_posSemidef h).hadamard (zInvZ_posSemidef h)).dotProduct_mulVec_nonneg x
    rw [star_trivial] at h1
    rw [quadSum_eq]
    exact h1

theorem hessGammaSpec_symm (kind : HessKind) (g : LmeGroup p q) (beta : Vec ℝ p) (gamma : Vec ℝ q) :
    (hessGammaSpec kind g beta gamma)ᵀ = hessGammaSpec kind g beta gamma := by
  ext j k
  cases kind <;> simp only [hessGammaSpec, Matrix.transpose_apply, Matrix.of_apply, zInvZ_symm g gamma k j] <;>
    ring

theorem NonnegForm.smul {n : ℕ} {H : Matrix (Fin n) (Fin n) ℝ} (h : NonnegForm H) {c : ℝ} (hc : 0 ≤ c) :
    NonnegForm (c • H) := by
  intro x
  have := h x
  rw [quadSum_eq] at *
  rw [Matrix.smul_mulVec, dotProduct_smul, smul_eq_mul]
  exact mul_nonneg hc this

theorem nonnegForm_one (n : ℕ) : NonnegForm (1 : Matrix (Fin n) (Fin n) ℝ) := by
  intro x
  rw [quadSum_eq, Matrix.one_mulVec]
  simp only [dotProduct]
  exact Finset.sum_nonneg fun i _ => mul_self_nonneg _

/-- **C57, Hessian in the variances**: at every `gamma` in the domain (in particular every nonnegative one)
`hessian_gamma` evaluates for every combination of its flags.  The full version is symmetric and its entry
`(j, k)` is the partial derivative in `gamma_k` of entry `j` of `gradient_gamma`, which evaluates for all small
changes of `gamma_k`; the version with `take_only_positive_part=True` (which wins over the other flag) is
symmetric, positive semidefinite, and exceeds the full one by a positive semidefinite matrix, namely the
expected version without its prior; the expected version has entries `1/2 Σ (z_jᵀ Ω⁻¹ z_k)²` plus the prior and
is positive semidefinite. -/
theorem C57_hessian_gamma (D : List (LmeGroup p q)) (P : LmeInstPrior ℝ p q) (hP : P.Reachable)
    (beta : Vec ℝ p) (gamma : Vec ℝ q) (hdom : InDomain D gamma ∨ (PosVar D ∧ ∀ j, 0 ≤ gamma j)) :
    ∃ F E Q : Matrix (Fin q) (Fin q) ℝ,
      lmeHessianGamma D P (.ofFlags false false) beta gamma = .ok F ∧
      lmeHessianGamma D P (.ofFlags false true) beta gamma = .ok E ∧
      (∀ b, lmeHessianGamma D P (.ofFlags true b) beta gamma = .ok Q) ∧
      Fᵀ = F ∧
      (∀ j k : Fin q, ∃ f : ℝ → ℝ, (∀ᶠ t in 𝓝 (0 : ℝ), ∃ G : Vec ℝ q,
        lmeGradientGamma D P beta (gamma + Pi.single k t) = .ok G ∧ f t = G j) ∧ HasDerivAt f (F j k) 0) ∧
      Qᵀ = Q ∧ NonnegForm Q ∧ NonnegForm (Q - F) ∧ Q - F = E - P.hessianGamma ∧
      NonnegForm E ∧ ∀ j k, E j k = 1 / 2 * (D.map fun g =>
        (∑ a, ∑ b, g.z a j * (g.z * diagonal gamma * g.zᵀ + diagonal g.l)⁻¹ a b * g.z b k) ^ 2).sum
          + P.hessianGamma j k := by
  have hd : InDomain D gamma := hdom.elim id fun h => inDomain_of_nonneg h.1 h.2
  obtain ⟨S, hS⟩ : ∃ S : HessKind → Matrix (Fin q) (Fin q) ℝ,
      S = fun k => (1 / 2 : ℝ) • (D.map fun g => hessGammaSpec k g beta gamma).sum := ⟨_, rfl⟩
  have ok : ∀ k, lmeHessianGamma D P k beta gamma = .ok (S k + P.hessianGamma) := fun k => by
    rw [hS]; exact lmeHessianGamma_ok.2 ⟨hd, rfl⟩
  have hPn := (P.expansion_gamma hP beta).2
  have sym : ∀ k, (S k + P.hessianGamma)ᵀ = S k + P.hessianGamma := fun k => by
    rw [Matrix.transpose_add, P.hessianGamma_symm, hS]
    simp only
    rw [Matrix.transpose_smul, list_sum_transpose]
    congr 3
    exact List.map_congr_left fun g _ => hessGammaSpec_symm k g beta gamma
  have nn : ∀ k, k ≠ .full → NonnegForm (S k) := fun k hk => by
    rw [hS]
    exact (NonnegForm.list_sum D fun g hg => hessGammaSpec_nonneg (hd g hg) k hk beta).smul (by norm_num)
  have diff : S .positivePart = S .full + S .expected := by
    rw [hS]
    simp only
    rw [← smul_add]
    congr 1
    ext j k
    rw [Matrix.add_apply, list_sum_matrix_apply, list_sum_matrix_apply, list_sum_matrix_apply,
      ← List.sum_map_add]
    congr 1
    refine List.map_congr_left fun g _ => ?_
    simp only [hessGammaSpec, Matrix.of_apply]
    ring
  refine ⟨_, _, _, ok .full, ok .expected, fun b => ok .positivePart, sym _, fun j k => ?_, sym _,
    (nn _ (by decide)).add hPn, ?_, ?_, (nn _ (by decide)).add hPn, ?_⟩
  · refine ⟨_, ?_, gradGamma_deriv hd P beta j k (by rw [hS])⟩
    filter_upwards [inDomain_eventually hd k] with t ht
    obtain ⟨G, h1, h2⟩ := gradGamma_eval ht P beta
    exact ⟨G, h1, (h2 j).symm⟩
  · rw [diff, show S .full + S .expected + P.hessianGamma - (S .full + P.hessianGamma) = S .expected by abel]
    exact nn _ (by decide)
  · rw [diff]; abel
  · intro j k
    rw [Matrix.add_apply, hS]
    simp only
    rw [Matrix.smul_apply, list_sum_matrix_apply, smul_eq_mul]
    congr 2
    refine congrArg _ (List.map_congr_left fun g _ => ?_)
    have e : zInvZ g gamma j k
        = ∑ a, ∑ b, g.z a j * (g.z * diagonal gamma * g.zᵀ + diagonal g.l)⁻¹ a b * g.z b k := by
      rw [zInvZ, zT_form]
      change ∑ a, g.z a j * (∑ b, (margCov g gamma)⁻¹ a b * g.z b k) = _
      refine Finset.sum_congr rfl fun a _ => ?_
      rw [Finset.mul_sum]
      refine Finset.sum_congr rfl fun b _ => ?_
      rw [mul_assoc]
      rfl
    rw [← e]
    simp only [hessGammaSpec, Matrix.of_apply, sq]

/-- **C57, mixed derivatives**: `hessian_beta_gamma` evaluates on the domain; its entry `(i, k)` is both the
partial derivative in `gamma_k` of entry `i` of `gradient_beta` and the partial derivative in `beta_i` of entry
`k` of `gradient_gamma`. -/
theorem C57_hessian_beta_gamma (D : List (LmeGroup p q)) (P : LmeInstPrior ℝ p q)
    (beta : Vec ℝ p) (gamma : Vec ℝ q) (hdom : InDomain D gamma ∨ (PosVar D ∧ ∀ j, 0 ≤ gamma j)) :
    ∃ M : Matrix (Fin p) (Fin q) ℝ, lmeHessianBetaGamma D P beta gamma = .ok M ∧ ∀ (i : Fin p) (k : Fin q),
      (∃ f : ℝ → ℝ, (∀ᶠ t in 𝓝 (0 : ℝ), ∃ G : Vec ℝ p,
        lmeGradientBeta D P beta (gamma + Pi.single k t) = .ok G ∧ f t = G i) ∧ HasDerivAt f (M i k) 0) ∧
      (∃ f : ℝ → ℝ, (∀ t, ∃ G : Vec ℝ q,
        lmeGradientGamma D P (beta + Pi.single i t) gamma = .ok G ∧ f t = G k) ∧ HasDerivAt f (M i k) 0) := by
  have hd : InDomain D gamma := hdom.elim id fun h => inDomain_of_nonneg h.1 h.2
  refine ⟨_, lmeHessianBetaGamma_ok.2 ⟨hd, rfl⟩, fun i k => ⟨?_, ?_⟩⟩
  · refine ⟨_, ?_, gradBeta_deriv_gamma hd P beta i k rfl⟩
    filter_upwards [inDomain_eventually hd k] with t ht
    obtain ⟨G, h1, h2⟩ := gradBeta_eval ht P beta
    exact ⟨G, h1, (h2 i).symm⟩
  · refine ⟨_, fun t => ?_, gradGamma_deriv_beta P beta i k rfl⟩
    obtain ⟨G, h1, h2⟩ := gradGamma_eval hd P (beta + Pi.single i t)
    exact ⟨G, h1, (h2 k).symm⟩

/-- **C57 for the SR3 oracle**: its `hessian_gamma` (the full version) has as entry `(j, k)` the partial
derivative in `gamma_k` of entry `j` of its own `gradient_gamma`; the positive-part version is positive
semidefinite for `lg ≥ 0`. -/
theorem C57_sr3_hessian_gamma (D : List (LmeGroup p q)) (P : LmeInstPrior ℝ p q) (hP : P.Reachable)
    (S : Sr3Params) (beta : Vec ℝ p) (gamma tgamma : Vec ℝ q)
    (hdom : InDomain D gamma ∨ (PosVar D ∧ ∀ j, 0 ≤ gamma j)) :
    ∃ F Q : Matrix (Fin q) (Fin q) ℝ,
      lmeSr3HessianGamma D P S (.ofFlags false false) beta gamma = .ok F ∧
      (∀ b, lmeSr3HessianGamma D P S (.ofFlags true b) beta gamma = .ok Q) ∧
      (∀ j k : Fin q, ∃ f : ℝ → ℝ, (∀ᶠ t in 𝓝 (0 : ℝ), ∃ G : Vec ℝ q,
        lmeSr3GradientGamma D P S beta (gamma + Pi.single k t) tgamma = .ok G ∧ f t = G j) ∧
        HasDerivAt f (F j k) 0) ∧
      Qᵀ = Q ∧ (0 ≤ S.lg → NonnegForm Q) := by
  obtain ⟨F, E, Q, h1, h2, h3, h4, h5, h6, h7, -⟩ := C57_hessian_gamma D P hP beta gamma hdom
  refine ⟨F + S.lg • (1 : Matrix _ _ ℝ), Q + S.lg • (1 : Matrix _ _ ℝ), ?_, fun b => ?_, fun j k => ?_, ?_, ?_⟩
  · unfold lmeSr3HessianGamma; rw [h1]; rfl
  · unfold lmeSr3HessianGamma; rw [h3]; rfl
  · obtain ⟨f, hf, hd⟩ := h5 j k
    refine ⟨fun t => f t + S.lg * ((gamma + Pi.single k t : Vec ℝ q) j - tgamma j), ?_, ?_⟩
    · filter_upwards [hf] with t ht
      obtain ⟨G, hG, e⟩ := ht
      refine ⟨G + S.lg • (gamma + Pi.single k t - tgamma), ?_, ?_⟩
      · unfold lmeSr3GradientGamma; rw [hG]; rfl
      · rw [e]; rfl
    · have hq : HasDerivAt (fun t => S.lg * ((gamma + Pi.single k t : Vec ℝ q) j - tgamma j))
          ((S.lg • (1 : Matrix (Fin q) (Fin q) ℝ)) j k) 0 := by
        simp only [Pi.add_apply, Matrix.smul_apply, smul_eq_mul]
        by_cases hjk : j = k
        · subst hjk
          simp only [Pi.single_eq_same, Matrix.one_apply_eq]
          exact (((hasDerivAt_id (0 : ℝ)).const_add (gamma j)).sub_const (tgamma j)).const_mul S.lg
        · simp only [Pi.single_eq_of_ne hjk, Matrix.one_apply_ne hjk, mul_zero]
          exact hasDerivAt_const _ _
      rw [Matrix.add_apply]
      exact hd.fun_add hq
  · rw [Matrix.transpose_add, h6, Matrix.transpose_smul, Matrix.transpose_one]
  · intro hl
    exact h7.add ((nonnegForm_one q).smul hl)

/-- C57 on the concrete problem of `exGroup` (any nonnegative variance). -/
example : ∃ H, lmeHessianGamma [exGroup] .nonInformative (.ofFlags true false) ![1] ![1] = .ok H ∧
    NonnegForm H := by
  obtain ⟨F, E, Q, -, -, h3, -, -, -, h7, -⟩ := C57_hessian_gamma [exGroup] .nonInformative trivial ![1] ![1]
    (.inr ⟨exGroup_posVar, by intro j; fin_cases j; simp⟩)
  exact ⟨Q, h3 false, h7⟩

end Verif
