import Verif.Props.LmePrecision

/-!
# C209: a stronger relaxation pulls the coefficients to the relaxed ones
-/

open Matrix

namespace Verif

variable {p q m n : ℕ}

/-- The SR3 fixed effects satisfy their normal equations. -/
theorem sr3Beta_normal {D : List (LmeGroup p q)} {S : Sr3Params} {gamma : Vec ℝ q} {t b : Vec ℝ p} (h : lmeSr3OptimalBeta D S gamma t = .ok b) :
    (S.lb • (1 : Matrix (Fin p) (Fin p) ℝ) + (D.map fun g => g.xᵀ * (margCov g gamma)⁻¹ * g.x).sum) *ᵥ b
      = S.lb • t + (D.map fun g => g.xᵀ *ᵥ ((margCov g gamma)⁻¹ *ᵥ g.y)).sum := by
  unfold lmeSr3OptimalBeta at h
  obtain ⟨kt, h1, h2⟩ := ebind_ok.1 h
  obtain ⟨-, rfl⟩ := lmeKernelTail_ok.1 h1
  exact (npSolve_ok.1 h2).2

/-- **C209**, mixed models: the SR3 `optimal_beta` with the larger of two relaxation constants is at most as far from the relaxed fixed effects and its loss is not
smaller. For every list of groups with positive observation variances, nonnegative variances and relaxed fixed effects. -/
theorem C209_pull (D : List (LmeGroup p q)) (hD : PosVar D) (gamma : Vec ℝ q) (hg : ∀ j, 0 ≤ gamma j) (S S' : Sr3Params) (hS : 0 < S.lb) (hSS : S.lb ≤ S'.lb) (tbeta : Vec ℝ p) :
    ∃ b b' v v', lmeSr3OptimalBeta D S gamma tbeta = .ok b ∧ lmeSr3OptimalBeta D S' gamma tbeta = .ok b' ∧
      lmeLoss D .nonInformative b gamma = .ok v ∧ lmeLoss D .nonInformative b' gamma = .ok v' ∧
      ∑ i, (b' i - tbeta i) ^ 2 ≤ ∑ i, (b i - tbeta i) ^ 2 ∧ v ≤ v' := by
  have hd := inDomain_of_nonneg hD hg
  obtain ⟨b, hb, hmin⟩ := (C58_optimal_beta_partial D gamma hd).2 S tbeta gamma hS
  obtain ⟨b', hb', hmin'⟩ := (C58_optimal_beta_partial D gamma hd).2 S' tbeta gamma (hS.trans_le hSS)
  have hv : lmeLoss D .nonInformative b gamma = .ok _ := lmeLoss_ok.2 ⟨hd, rfl⟩
  have hv' : lmeLoss D .nonInformative b' gamma = .ok _ := lmeLoss_ok.2 ⟨hd, rfl⟩
  refine ⟨b, b', _, _, hb, hb', hv, hv', ?_⟩
  by_cases hbb : b' = b
  · rw [hbb]
    exact ⟨le_rfl, le_rfl⟩
  · obtain ⟨w, w', h1, h2, hlt⟩ := hmin b' hbb
    obtain ⟨u, u', h3, h4, hlt'⟩ := hmin' b (Ne.symm hbb)
    unfold lmeSr3Loss at h1 h2 h3 h4
    rw [hv] at h1 h4
    rw [hv'] at h2 h3
    have e1 := Except.ok.inj h1
    have e2 := Except.ok.inj h2
    have e3 := Except.ok.inj h3
    have e4 := Except.ok.inj h4
    rcases hSS.eq_or_lt with heq | hlt2
    · rw [← e1, ← e2] at hlt
      rw [← e3, ← e4, ← heq] at hlt'
      linarith
    · have := path_gap (f1 := marginalNLL D b gamma + (LmeInstPrior.nonInformative : LmeInstPrior ℝ p q).loss b gamma) (f2 := marginalNLL D b' gamma + (LmeInstPrior.nonInformative : LmeInstPrior ℝ p q).loss b' gamma)
        (h1 := ∑ i, (b i - tbeta i) ^ 2) (h2 := ∑ i, (b' i - tbeta i) ^ 2) (lam1 := S.lb / 2) (lam2 := S'.lb / 2) (e1 := 0) (e2 := 0) (by linarith) (by linarith) (by linarith) (by linarith)
      constructor
      · simpa using this.1
      · simpa using this.2

/-- **C209**, mixed models: the SR3 `optimal_beta` depends on the relaxed fixed effects without amplification. -/
theorem C209_nonexpansive (D : List (LmeGroup p q)) (hD : PosVar D) (gamma : Vec ℝ q) (hg : ∀ j, 0 ≤ gamma j) (S : Sr3Params) (hS : 0 < S.lb) (t t' : Vec ℝ p) :
    ∃ b b', lmeSr3OptimalBeta D S gamma t = .ok b ∧ lmeSr3OptimalBeta D S gamma t' = .ok b' ∧ ∑ i, (b i - b' i) ^ 2 ≤ ∑ i, (t i - t' i) ^ 2 := by
  have hd := inDomain_of_nonneg hD hg
  obtain ⟨b, hb, -⟩ := (C58_optimal_beta_partial D gamma hd).2 S t gamma hS
  obtain ⟨b', hb', -⟩ := (C58_optimal_beta_partial D gamma hd).2 S t' gamma hS
  refine ⟨b, b', hb, hb', ?_⟩
  have e : (S.lb • (1 : Matrix (Fin p) (Fin p) ℝ) + (D.map fun g => g.xᵀ * (margCov g gamma)⁻¹ * g.x).sum) *ᵥ (b - b') = S.lb • (t - t') := by
    rw [Matrix.mulVec_sub, sr3Beta_normal hb, sr3Beta_normal hb', smul_sub]
    abel
  have e2 := congrArg (fun w => (b - b') ⬝ᵥ w) e
  simp only [Matrix.add_mulVec, dotProduct_add, Matrix.smul_mulVec, Matrix.one_mulVec, dotProduct_smul, smul_eq_mul, kernel_form] at e2
  have hnn : 0 ≤ (D.map fun g => (g.x *ᵥ (b - b')) ⬝ᵥ ((margCov g gamma)⁻¹ *ᵥ (g.x *ᵥ (b - b')))).sum := by
    refine List.sum_nonneg fun v hv => ?_
    obtain ⟨g, hgD, rfl⟩ := List.mem_map.1 hv
    exact posDef_inv_nonneg (hd g hgD) _
  have h1 : (b - b') ⬝ᵥ (b - b') ≤ (b - b') ⬝ᵥ (t - t') := by
    have : S.lb * ((b - b') ⬝ᵥ (b - b')) ≤ S.lb * ((b - b') ⬝ᵥ (t - t')) := by linarith
    exact le_of_mul_le_mul_left this hS
  have h2 : 2 * ((b - b') ⬝ᵥ (t - t')) ≤ (b - b') ⬝ᵥ (b - b') + (t - t') ⬝ᵥ (t - t') := by
    simp only [dotProduct]
    rw [Finset.mul_sum, ← Finset.sum_add_distrib]
    exact Finset.sum_le_sum fun i _ => by nlinarith [sq_nonneg ((b - b') i - (t - t') i)]
  have e3 : ∀ a c : Vec ℝ p, ∑ i, (a i - c i) ^ 2 = (a - c) ⬝ᵥ (a - c) := fun a c => Finset.sum_congr rfl fun i _ => by
    rw [Pi.sub_apply, sq]
  rw [e3, e3]
  linarith

/-- **C209**, linear models: the inner coefficients `(AᵀA + el)⁻¹(Aᵀb + el w)` of the practical mode with the larger of two relaxation weights are at most as far from the relaxed ones and
their sum of squared residuals is not smaller. -/
theorem C209_linear (A : Matrix (Fin m) (Fin n) ℝ) (b : Vec ℝ m) (el el' : ℝ) (hel : 0 < el) (hle : el ≤ el') (w : Vec ℝ n) :
    ∑ i, (sr3Inner A b 1 el' w i - w i) ^ 2 ≤ ∑ i, (sr3Inner A b 1 el w i - w i) ^ 2 ∧
    ∑ i, ((A *ᵥ sr3Inner A b 1 el w) i - b i) ^ 2 ≤ ∑ i, ((A *ᵥ sr3Inner A b 1 el' w) i - b i) ^ 2 := by
  rcases hle.eq_or_lt with rfl | hlt
  · exact ⟨le_rfl, le_rfl⟩
  have hmin : ∀ lam, 0 < lam → ∀ x, relaxedLoss A b lam (sr3Inner A b 1 lam w) w ≤ relaxedLoss A b lam x w := by
    intro lam hlam x
    obtain ⟨h1, h2⟩ := C32_value_is_partial_min A b lam hlam w
    have hy : sr3Inner A b 1 lam w = (Aᵀ * A + lam • 1)⁻¹ *ᵥ (Aᵀ *ᵥ b + lam • w) := by
      simp [sr3Inner, sr3HInv, sr3H]
    rw [(h2 _).2 hy]
    exact h1 x
  have H1 := hmin el hel (sr3Inner A b 1 el' w)
  have H2 := hmin el' (hel.trans hlt) (sr3Inner A b 1 el w)
  unfold relaxedLoss leastSquares at H1 H2
  have := path_gap (f1 := ∑ i, ((A *ᵥ sr3Inner A b 1 el w) i - b i) ^ 2) (f2 := ∑ i, ((A *ᵥ sr3Inner A b 1 el' w) i - b i) ^ 2)
    (h1 := ∑ i, (sr3Inner A b 1 el w i - w i) ^ 2) (h2 := ∑ i, (sr3Inner A b 1 el' w i - w i) ^ 2) (lam1 := el) (lam2 := el') (e1 := 0) (e2 := 0) hel.le hlt
    (by simp only [Matrix.mulVec, dotProduct]; linarith) (by simp only [Matrix.mulVec, dotProduct]; linarith)
  constructor
  · simpa using this.1
  · simpa using this.2

/-- The hypotheses are met: one group, relaxation constants one and three, relaxed fixed effect five. -/
example : ∃ b b' v v', lmeSr3OptimalBeta [exGroup] ⟨1, 1⟩ ![1] ![5] = .ok b ∧ lmeSr3OptimalBeta [exGroup] ⟨3, 1⟩ ![1] ![5] = .ok b' ∧
    lmeLoss [exGroup] .nonInformative b ![1] = .ok v ∧ lmeLoss [exGroup] .nonInformative b' ![1] = .ok v' ∧
    ∑ i, (b' i - (![5] : Vec ℝ 1) i) ^ 2 ≤ ∑ i, (b i - (![5] : Vec ℝ 1) i) ^ 2 ∧ v ≤ v' :=
  C209_pull [exGroup] exGroup_posVar ![1] (fun j => by fin_cases j; norm_num) ⟨1, 1⟩ ⟨3, 1⟩ one_pos (by norm_num) ![5]

example : ∃ b b', lmeSr3OptimalBeta [exGroup] ⟨1, 1⟩ ![1] ![5] = .ok b ∧ lmeSr3OptimalBeta [exGroup] ⟨1, 1⟩ ![1] ![2] = .ok b' ∧
    ∑ i, (b i - b' i) ^ 2 ≤ ∑ i, ((![5] : Vec ℝ 1) i - (![2] : Vec ℝ 1) i) ^ 2 :=
  C209_nonexpansive [exGroup] exGroup_posVar ![1] (fun j => by fin_cases j; norm_num) ⟨1, 1⟩ one_pos ![5] ![2]

/-- One observation `2` with feature `1`, relaxed coefficient `0`, weights `1` and `3`. -/
example : ∑ i, (sr3Inner (!![1] : Matrix (Fin 1) (Fin 1) ℝ) ![2] 1 3 ![0] i - (![0] : Vec ℝ 1) i) ^ 2
    ≤ ∑ i, (sr3Inner (!![1] : Matrix (Fin 1) (Fin 1) ℝ) ![2] 1 1 ![0] i - (![0] : Vec ℝ 1) i) ^ 2 :=
  (C209_linear !![1] ![2] 1 3 one_pos (by norm_num) ![0]).1

end Verif
