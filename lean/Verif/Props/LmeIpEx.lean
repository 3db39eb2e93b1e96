import Verif.Props.LmeIpLog
import Verif.Props.LmeConvex
import Verif.Props.LmeWarm

/-!
# Cases meeting the hypotheses of C179 and C180
-/

open Matrix

namespace Verif

/-- One row: group 0, covariate 1, observation variance 1. -/
def obsTab : Matrix (Fin 1) (Fin 3) ℝ := !![0, 1, 1]

/-- The problem read from it, with the observation 0. -/
def obsProblem : LmeProblem ℝ where
  fixedFeatures := [[[]]]
  randomFeatures := [.rows [[1]]]
  obsVars := [[1]]
  groupLabels := [0]
  interceptLabel := none
  columnLabels := ["group", "random", "variance"]
  orderOfObjects := [0]
  answers := some [[0]]
  feColumns := none
  reColumns := none
  feWeights := []
  reWeights := [1]

theorem obsProblem_read : lmeFromXY obsTab (some ![0]) none ["group", "random", "variance"] false false none none = .ok obsProblem := by
  obtain ⟨P, hP⟩ := lmeFromXY_succeeds obsTab (some ![0]) none ["group", "random", "variance"] false false none none 0 2 (by decide) (by decide) rfl (by decide)
    (by simp) (by intro r; fin_cases r; simp [obsTab]) (by intro r; fin_cases r; exact ⟨0, by simp [obsTab]⟩) (.inl rfl) (by simp) _ _ rfl rfl
  rw [hP]
  obtain ⟨g, v, feW, reW, hg, hv, -, -, -, -, -, -, hfe, hre, rfl⟩ := lmeFromXY_ok _ _ _ _ _ _ _ _ _ hP
  have e1 : (labelIdx ["group", "random", "variance"] (· = GROUP) : List (Fin 3)) = [0] := by decide
  have e2 : (labelIdx ["group", "random", "variance"] (· = VARIANCE) : List (Fin 3)) = [2] := by decide
  have e3 : (labelIdx ["group", "random", "variance"] isFixed : List (Fin 3)) = [] := by decide
  have e4 : (labelIdx ["group", "random", "variance"] isRandom : List (Fin 3)) = [1] := by decide
  obtain rfl : (0 : Fin 3) = g := by rw [e1] at hg; exact (List.cons.inj hg).1
  obtain rfl : (2 : Fin 3) = v := by rw [e2] at hv; exact (List.cons.inj hv).1
  rw [e3] at hfe ⊢
  rw [e4] at hre ⊢
  have u : uniqueLabels (fun r => obsTab r 0) = [0] := by
    unfold uniqueLabels
    have : (Finset.univ.image fun r => obsTab r 0) = {0} := by
      ext z
      simp [obsTab, eq_comm]
    rw [this, Finset.sort_singleton]
  have r : groupRows (fun r => obsTab r 0) 0 = [0] := by
    unfold groupRows
    simp [obsTab]
    rfl
  rw [u]
  cases hfe
  cases hre
  simp only [List.map_cons, List.map_nil, r, List.flatMap_cons, List.flatMap_nil, Option.map_some]
  simp [designRow, obsTab, obsProblem, interceptLabelOf, namesOf]

theorem obsProblem_groups : lmeGroups obsProblem = .ok [obsGroup 0] := by
  have h : lmeGroupOf 0 1 [[]] [0] [[1]] [1] = .ok (obsGroup 0) := by
    unfold lmeGroupOf
    rw [if_pos (by simp)]
    congr 1
    unfold obsGroup
    change LmeGroup.mk 1 _ _ _ _ = LmeGroup.mk 1 _ _ _ _
    congr 1
    · ext i j
      exact j.elim0
    · funext i
      fin_cases i
      rfl
    · ext i j
      fin_cases i
      fin_cases j
      rfl
    · funext i
      fin_cases i
      rfl
  change (do
    let a ← lmeGroupOf 0 1 [[]] [0] [[1]] [1]
    return [a]) = _
  rw [h]
  rfl

theorem obs_residual (b : Vec ℝ 0) : residual (obsGroup 0) b = (0 : Vec ℝ 1) := by
  obtain rfl : b = ![] := Subsingleton.elim _ _
  exact obsGroup_residual 0

theorem obs_cov {g : Vec ℝ 1} (hg : 0 ≤ g 0) : (margCov (obsGroup 0) g)⁻¹ = (diagonal fun _ => (g 0 + 1)⁻¹ : Matrix (Fin 1) (Fin 1) ℝ) := by
  obtain ⟨t, rfl⟩ : ∃ t, g = ![t] := ⟨g 0, by funext i; fin_cases i; rfl⟩
  exact (congrArg _ (obsGroup_cov 0 t)).trans (obsGroup_inv hg)

theorem obs_zInvR (b : Vec ℝ 0) (g : Vec ℝ 1) (j : Fin 1) : zInvR (obsGroup 0) b g j = 0 := by
  unfold zInvR
  rw [obs_residual]
  have : (margCov (obsGroup 0) g)⁻¹ *ᵥ (0 : Vec ℝ 1) = 0 := Matrix.mulVec_zero _
  rw [this]
  simp

theorem obs_ipF (s : IpState 0 1) (hg : 0 ≤ s.gamma 0) :
    ∃ F, ipF [obsGroup 0] .nonInformative s = .ok F ∧ F (.inl 0) = s.v 0 * s.gamma 0 - s.mu ∧
      F (.inr (.inr 0)) = 1 / 2 * (s.gamma 0 + 1)⁻¹ + s.S.lg * (s.gamma 0 - s.tgamma 0) - s.v 0 := by
  have hdom : InDomain [obsGroup 0] s.gamma := inDomain_of_nonneg (obsGroup_posVar 0) fun j => by fin_cases j; exact hg
  unfold ipF lmeSr3GradientBeta lmeSr3GradientGamma
  rw [lmeGradientBeta_ok.2 ⟨hdom, rfl⟩, lmeGradientGamma_ok'.2 ⟨hdom, rfl⟩]
  refine ⟨_, rfl, rfl, ?_⟩
  simp only [Sum.elim_inr, List.map_cons, List.map_nil, List.sum_cons, List.sum_nil, add_zero, Pi.sub_apply, Pi.add_apply, Pi.smul_apply, smul_eq_mul]
  have h : nllGradGamma (obsGroup 0) s.beta s.gamma 0 = 1 / 2 * (s.gamma 0 + 1)⁻¹ := by
    have h2 : ((Matrix.of fun _ _ => 1 : Matrix (Fin 1) (Fin 1) ℝ)ᵀ * (diagonal fun _ => (s.gamma 0 + 1)⁻¹ : Matrix (Fin 1) (Fin 1) ℝ) * (Matrix.of fun _ _ => 1 : Matrix (Fin 1) (Fin 1) ℝ)) 0 0
        = (s.gamma 0 + 1)⁻¹ := by
      simp [Matrix.mul_apply]
    have h3 : ((obsGroup 0).zᵀ * (margCov (obsGroup 0) s.gamma)⁻¹ * (obsGroup 0).z) 0 0 = (s.gamma 0 + 1)⁻¹ :=
      (congrArg (fun A : Matrix (Fin 1) (Fin 1) ℝ => ((Matrix.of fun _ _ => 1 : Matrix (Fin 1) (Fin 1) ℝ)ᵀ * A * (Matrix.of fun _ _ => 1 : Matrix (Fin 1) (Fin 1) ℝ)) 0 0) (obs_cov hg)).trans h2
    have h4 : ((obsGroup 0).zᵀ *ᵥ ((margCov (obsGroup 0) s.gamma)⁻¹ *ᵥ residual (obsGroup 0) s.beta)) 0 = 0 := obs_zInvR _ _ _
    unfold nllGradGamma
    rw [h3, h4]
    ring
  have h0 : (LmeInstPrior.nonInformative : LmeInstPrior ℝ 0 1).gradientGamma s.beta s.gamma 0 = 0 := rfl
  rw [h, h0]
  ring

theorem obs_ipJac (s : IpState 0 1) (hg : 0 ≤ s.gamma 0) :
    ∃ dF, ipJac [obsGroup 0] .nonInformative .positivePart s = .ok dF ∧ ∀ d, (dF *ᵥ d) (.inl 0) = s.gamma 0 * d (.inl 0) + s.v 0 * d (.inr (.inr 0)) ∧
      (dF *ᵥ d) (.inr (.inr 0)) = - d (.inl 0) + s.S.lg * d (.inr (.inr 0)) := by
  have hdom : InDomain [obsGroup 0] s.gamma := inDomain_of_nonneg (obsGroup_posVar 0) fun j => by fin_cases j; exact hg
  unfold ipJac lmeSr3HessianBeta lmeSr3HessianGamma
  rw [lmeHessianBeta_ok.2 ⟨hdom, rfl⟩, lmeHessianBetaGamma_ok.2 ⟨hdom, rfl⟩, lmeHessianGamma_ok.2 ⟨hdom, rfl⟩]
  refine ⟨_, rfl, fun d => ⟨?_, ?_⟩⟩
  · simp [Matrix.mulVec, dotProduct, Fintype.sum_sum_type]
  · have h0 : (LmeInstPrior.nonInformative : LmeInstPrior ℝ 0 1).hessianGamma = 0 := rfl
    have h1 : hessGammaSpec .positivePart (obsGroup 0) s.beta s.gamma 0 0 = 0 := by
      simp [hessGammaSpec, obs_zInvR]
    simp [Matrix.mulVec, dotProduct, Fintype.sum_sum_type, h0, h1]

/-- Settings for which one pass of the inner method is enough. -/
noncomputable def obsSr3 : LmeSr3Cfg := ⟨1 / 10, true, 1, 1, 1, false, true, true, 1 / 2⟩

/-- A practical SR3 L1 model with them. -/
noncomputable def obsModel : LmeModelCfg := exModel (some obsSr3) 100 (.l1 (1 / 2))

/-- The initial variance. -/
noncomputable def obsArgs : LmeFitArgs := ⟨none, some [3 / 5], false, none, none⟩

theorem obsModel_robust : obsModel.Robust :=
  exModel_robust _ (fun s hs => by cases hs; exact ⟨by norm_num [obsSr3], rfl⟩) _ _ (show (0 : ℝ) ≤ 1 / 2 by norm_num) (by intro _ _ _ h; cases h)

/-- The fit returns. -/
theorem obsModel_fit : ∃ L c, lmeFitProblemLog obsModel none obsProblem obsArgs = (.ok L, c) := by
  obtain ⟨L', c, h, -⟩ := C83_fit_problem_returns obsModel obsModel_robust none obsTab ![0] none ["group", "random", "variance"] false false none none obsProblem obsProblem_read
    (by
      intro v hv r
      fin_cases r
      fin_cases v <;> simp [obsTab] at hv ⊢) ⟨_, rfl⟩ obsArgs (by intro b hb; cases hb)
    (by
      intro g hg
      cases hg
      refine ⟨by decide, fun v hv => ?_⟩
      rw [List.mem_singleton.1 hv]
      norm_num) (by
      rintro w rfl
      exact ⟨by decide, fun v hv => by cases hv⟩) (by
      rintro w rfl
      exact ⟨by decide, fun v hv => .inr (List.mem_singleton.1 hv)⟩)
  obtain ⟨L, hL⟩ := C179_returns obsModel obsSr3 rfl rfl rfl obsModel_robust.keys (by simp [obsModel, exModel]) rfl none obsProblem [obsGroup 0] obsProblem_groups (obsGroup_posVar 0)
    obsArgs (by
      intro v hv
      rw [List.mem_singleton.1 hv]
      norm_num) L' _ h
  exact ⟨L, _, hL⟩

/-- The inner method makes one pass from there and ends below the tolerance. -/
theorem obs_run (c : IpCfg 0 1) (c1 : c.nIter = 1) (c2 : c.tol = 1) (c3 : c.kind = .positivePart) (c4 : c.warmStart = false) (c5 : c.target = 1 / 2) (c6 : c.muDecay = 1 / 2)
    (c7 : c.lineSearch = none) (c8 : c.increaseLambdas = false) (prox) (c9 : c.reg = some prox) (c10 : c.updateProxEvery = 1)
    (hprox : ∀ b g t, 0 ≤ g 0 → prox c.proxStepLen (b, g) = .ok t → 0 ≤ t.2 0 ∧ t.2 0 ≤ g 0) (b0 : Vec ℝ 0) (g0 : Vec ℝ 1) (hg0 : g0 0 = 3 / 5) (T : List (IpState 0 1)) (sI : IpState 0 1)
    (F : Fin 1 ⊕ (Fin 0 ⊕ Fin 1) → ℝ)
    (t1 : IpPasses [obsGroup 0] .nonInformative c (ipInit c ⟨⟨1 / 10, 1 / 10⟩, none⟩ ((2 : ℝ) • b0) ((2 : ℝ) • g0) b0 g0) T sI) (t2 : ipF [obsGroup 0] .nonInformative sI = .ok F)
    (t9 : ipLoop [obsGroup 0] .nonInformative c (ipInit c ⟨⟨1 / 10, 1 / 10⟩, none⟩ ((2 : ℝ) • b0) ((2 : ℝ) • g0) b0 g0) = .ok sI) (t10 : sI.iteration = T.length) :
    npNorm F < 1 ∧ sI.mu < 1 ∧ tightened c T ≠ [] := by
  obtain ⟨s0, hs0⟩ : ∃ s0 : IpState 0 1, s0 = ipInit c ⟨⟨1 / 10, 1 / 10⟩, none⟩ ((2 : ℝ) • b0) ((2 : ℝ) • g0) b0 g0 := ⟨_, rfl⟩
  rw [← hs0] at t1 t9
  have e1 : s0.v 0 = 1 := by rw [hs0]; rfl
  have e2 : s0.gamma 0 = 6 / 5 := by
    rw [hs0]
    unfold ipInit ipStart
    simp only [c4, Bool.false_eq_true, if_false, Pi.smul_apply, smul_eq_mul, hg0]
    norm_num
  have e3 : s0.tgamma 0 = 3 / 5 := by rw [hs0]; exact hg0
  have e4 : s0.mu = 3 / 25 := by
    rw [hs0]
    unfold ipInit ipStart
    simp only [c4, Bool.false_eq_true, if_false, Pi.smul_apply, smul_eq_mul, Fin.sum_univ_one, hg0]
    norm_num
  have e5 : s0.S = ⟨1 / 10, 1 / 10⟩ := by rw [hs0]; rfl
  have e6 : s0.iteration = 0 := by rw [hs0]; rfl
  have e7 : s0.prev = none := by rw [hs0]; rfl
  have e8 : s0.stepLen = 1 := by rw [hs0]; rfl
  clear hs0
  obtain ⟨F0, f1, f2, f3⟩ := obs_ipF s0 (by rw [e2]; norm_num)
  rw [e1, e2, e4] at f2
  rw [e1, e2, e3, e5] at f3
  -- it does not stop there
  obtain ⟨F0', f1', g2, h0⟩ : ∃ F0', ipF [obsGroup 0] .nonInformative s0 = .ok F0' ∧ ipStep [obsGroup 0] .nonInformative c s0 F0' = .ok sI ∧ T = [sI] := by
    unfold ipLoop at t9
    rw [dif_pos ⟨by rw [e8]; norm_num, by rw [e6, c1]; norm_num⟩, f1] at t9
    simp only at t9
    rw [if_pos] at t9
    · cases hs : ipStep [obsGroup 0] .nonInformative c s0 F0 with
      | error e => rw [hs] at t9; cases t9
      | ok s1 =>
        rw [hs] at t9
        simp only at t9
        unfold ipLoop at t9
        rw [dif_neg (by simp [e6, c1])] at t9
        have e : { s1 with iteration := s0.iteration + 1 } = s1 := by
          rw [← (ipStep_prev hs).2.1]
        rw [e] at t9
        cases t9
        refine ⟨F0, f1, hs, ?_⟩
        have h1 : sI.iteration = 1 := by rw [(ipStep_prev hs).2.1, e6]
        rw [h1] at t10
        obtain ⟨y, rfl⟩ := List.length_eq_one_iff.1 t10.symm
        obtain ⟨-, t1⟩ := t1
        obtain rfl : y = sI := t1
        rfl
    · refine ⟨.inl ?_, ?_⟩
      · have := (le_abs_self _).trans (coord_le_npNorm F0 (.inl 0))
        rw [f2] at this
        rw [c2]
        refine lt_of_lt_of_le ?_ this
        norm_num
      · unfold ipMoved
        rw [e7]
        trivial
  obtain rfl : F0 = F0' := Except.ok.inj (f1.symm.trans f1')
  have g3 := g2
  subst h0
  -- the pass
  unfold ipStep at g2
  obtain ⟨dF, h1, g2⟩ := ebind_ok.1 g2
  obtain ⟨d, h2, g2⟩ := ebind_ok.1 g2
  obtain ⟨step, h3, g2⟩ := ebind_ok.1 g2
  obtain ⟨dF', h1', hJ⟩ := obs_ipJac s0 (by rw [e2]; norm_num)
  rw [c3] at h1
  obtain rfl : dF = dF' := Except.ok.inj (h1.symm.trans h1')
  obtain ⟨-, h2⟩ := npSolve_ok.1 h2
  obtain ⟨k1, k2⟩ := hJ d
  rw [h2, Pi.neg_apply, f2, e1, e2] at k1
  rw [h2, Pi.neg_apply, f3, e5] at k2
  have hdg : d (.inr (.inr 0)) = -(309 / 1540) := by norm_num at k1 k2; linarith
  have hdv : d (.inl 0) = -(2257 / 3080) := by norm_num at k1 k2; linarith
  have hmax : maxStepLen (stepPairs s0.v (fun j => d (.inl j)) ++ stepPairs s0.gamma fun j => d (.inr (.inr j))) = 1 := by
    classical
    refine le_antisymm (maxStepLen_le_one _) (le_foldr_min le_rfl fun a ha => ?_)
    obtain ⟨e, he, rfl⟩ := List.mem_map.1 ha
    obtain ⟨he, -⟩ := List.mem_filter.1 he
    rcases List.mem_append.1 he with he | he
    · obtain ⟨j, rfl⟩ := List.mem_ofFn.1 he
      fin_cases j
      simp only [Fin.zero_eta, e1, hdv]
      norm_num
    · obtain ⟨j, rfl⟩ := List.mem_ofFn.1 he
      fin_cases j
      simp only [Fin.zero_eta, e2, hdg]
      norm_num
  unfold ipStepLen at h3
  rw [c7] at h3
  simp only at h3
  rw [hmax] at h3
  have hstep : step = 0.99 * 1 := (Except.ok.inj h3).symm
  have hv : sI.v 0 = s0.v 0 + step * d (.inl 0) ∧ sI.gamma 0 = s0.gamma 0 + step * d (.inr (.inr 0)) ∧ sI.S = s0.S := by
    dsimp only at g2
    split_ifs at g2 with hc h8
    · cases g2
      exact ⟨rfl, rfl, rfl⟩
    · rw [c8] at h8
      cases h8
    · obtain ⟨t, -, g2⟩ := ebind_ok.1 g2
      cases g2
      exact ⟨rfl, rfl, rfl⟩
  obtain ⟨hv, hg, hS⟩ := hv
  rw [hstep, hdv, e1] at hv
  rw [hstep, hdg, e2] at hg
  rw [e5] at hS
  norm_num at hv hg
  have hnc : ¬ ipCorrects c sI := by
    unfold ipCorrects npNorm dotProduct
    simp only [Fin.sum_univ_one, Nat.cast_one, div_one, sub_self]
    rw [c5, hv, hg]
    norm_num
  rcases ipStep_corrects g3 with ⟨hc, -⟩ | ⟨-, hmu, hp, -⟩
  · exact absurd hc hnc
  unfold ipProx at hp
  rw [c9] at hp
  simp only at hp
  rw [if_pos ⟨by rw [c10]; norm_num, by rw [c10]; exact Int.emod_one _⟩] at hp
  obtain ⟨p1, p2⟩ := hprox _ _ _ (by rw [hg]; norm_num) hp
  simp only at p1 p2
  unfold dotProduct at hmu
  rw [c6, Fin.sum_univ_one, hv, hg] at hmu
  norm_num at hmu
  obtain ⟨F1, q1, q2, q3⟩ := obs_ipF sI (by rw [hg]; norm_num)
  obtain rfl : F = F1 := Except.ok.inj (t2.symm.trans q1)
  refine ⟨?_, ?_, ?_⟩
  · unfold npNorm
    rw [Real.sqrt_lt' one_pos]
    simp only [Fintype.sum_sum_type, Fin.sum_univ_one, Finset.univ_eq_empty, Finset.sum_empty, zero_add]
    rw [hg] at p2
    rw [q2, q3, hv, hg, hmu, hS]
    norm_num at p2 ⊢
    nlinarith
  · rw [hmu]
    norm_num
  · intro h
    have : sI ∈ tightened c [sI] := mem_tightened.2 ⟨List.mem_singleton_self _, hnc⟩
    rw [h] at this
    cases this

/-- It makes one pass, logs one value of `mu` and a good stopping reason. -/
theorem obsModel_good (L : Logger (PyVal ℝ (obsProblem.numFixed + obsProblem.numRandom))) (c : LmeState) (h : lmeFitProblemLog obsModel none obsProblem obsArgs = (.ok L, c)) :
    L.get "good_stopping_reason" = .ok (.atom (.bool true)) ∧ L.get "mu" ≠ .ok (.list []) := by
  obtain ⟨m, Pr, w, base, D, b0, g0, x, L1, coef, hm, hPr, hw, hbase, hD, hb0, hg0, hopt, hcr, -, -, -, -⟩ := lmeFitLog_spec h
  obtain rfl : D = [obsGroup 0] := Except.ok.inj (hD.symm.trans obsProblem_groups)
  obtain rfl : (.nonInformative : LmeInstPrior ℝ 0 1) = Pr := Except.ok.inj hPr
  obtain ⟨bg, hbg, -, -, hrun⟩ := lmeOptimizeLog_spec (s := obsSr3) rfl rfl rfl obsModel_robust.keys hopt
  obtain ⟨T, sI, F, t1, t2, -, -, -, ⟨bo, t6, t6'⟩, t7, -, t9, t10⟩ := hrun (by decide)
  rw [lmeLogCriteria_other hcr (by decide), lmeLogCriteria_other hcr (by decide), t6, t7]
  unfold lmeInitialize at hbg
  rw [if_neg (by simp [obsModel, exModel])] at hbg
  cases hbg
  have hg0' : g0 (0 : Fin 1) = 3 / 5 := by
    have := asVec_ok.1 hg0
    change List.ofFn g0 = [3 / 5] at this
    exact (List.cons.inj this).1
  cases hbase
  have hw' : ∀ i, w i = 1 := by
    intro i
    rcases LmeReg.weights_mem hw with ⟨h0, -⟩ | ⟨hlen, hw'⟩
    · cases h0
    · change List.ofFn w = [1] at hw'
      have : w i ∈ List.ofFn w := List.mem_ofFn.2 ⟨i, rfl⟩
      rw [hw'] at this
      exact List.mem_singleton.1 this
  have hprox : ∀ (b : Vec ℝ 0) (g : Vec ℝ 1) t, 0 ≤ g 0 →
      (((wrapReg 0 1 obsModel.elasticEps (l1Regularizer (1 / 2) (some w))).prox (joinX b g) 1).map fun x => (xBeta x, xGamma x)) = .ok t → 0 ≤ t.2 0 ∧ t.2 0 ≤ g 0 := by
    intro b g t hg ht
    rw [wrapReg_prox_eq] at ht
    have hz : t.2 0 = soft (1 / (1 + 1 * obsModel.elasticEps) * 1 * (1 / 2)) (g 0 / (1 + 1 * obsModel.elasticEps)) := by
      rw [← Except.ok.inj ht, ← hw' (Fin.natAdd 0 (0 : Fin 1))]
      simp only [xBeta, xGamma, joinX, Fin.append_right, max_eq_left hg]
      rfl
    have hq1 : (0 : ℝ) < 1 + 1 * obsModel.elasticEps := by norm_num [obsModel, exModel]
    obtain ⟨z1, -, -, z4⟩ := soft_step one_pos (by norm_num) zero_le_one hq1 hz
    refine ⟨z4 hg, ?_⟩
    rcases (z4 hg).lt_or_eq with h0 | h0
    · have := z1 h0
      have h2 : (1 : ℝ) ≤ 1 + 1 * obsModel.elasticEps := by norm_num [obsModel, exModel]
      nlinarith
    · rw [← h0]
      exact hg
  obtain ⟨r1, r2, r3⟩ := obs_run (obsSr3.ipPractical (wrapReg 0 1 obsModel.elasticEps _)) rfl rfl rfl rfl rfl (by norm_num [LmeSr3Cfg.ipPractical, LmeSr3Cfg.ip]) rfl rfl _ rfl rfl
    hprox b0 g0 hg0' T sI F t1 t2 t9 t10
  refine ⟨?_, fun h => r3 ?_⟩
  · rw [t6'.2 ⟨r1, r2⟩]
  · have := LVal.list.inj (Except.ok.inj h)
    exact List.map_eq_nil_iff.1 this

/-- C179: the fit of `obsModel` made one pass and logged one value of `mu`. -/
example : ∃ L c, lmeFitProblemLog obsModel none obsProblem obsArgs = (.ok L, c) ∧ (∃ L', lmeFitProblem obsModel none obsProblem obsArgs = (.ok L', c)) ∧
    L.get "good_stopping_reason" = .ok (.atom (.bool true)) ∧ L.get "mu" ≠ .ok (.list []) := by
  obtain ⟨L, c, h⟩ := obsModel_fit
  obtain ⟨L', h', -⟩ := C179_same obsModel obsSr3 rfl rfl rfl obsModel_robust.keys none obsProblem obsArgs L c h
  exact ⟨L, c, h, ⟨L', h'⟩, obsModel_good L c h⟩

/-- C180: all hypotheses hold for the fit of `obsModel`. -/
example : ∃ (coef : LmeCoef) (tg gamma v Gg : ℝ), (lmeFitProblemLog obsModel none obsProblem obsArgs).2 = some coef ∧ coef.gamma = [tg] ∧ 0 < gamma ∧ 0 < v ∧ v * gamma < 2 ∧
    (0 < tg → |Gg - v + 1 / 10 * (1e-4 * tg + 1 / 2 * 1)| ≤ 1) := by
  obtain ⟨L, c, h⟩ := obsModel_fit
  obtain ⟨h1, h2⟩ := obsModel_good L c h
  obtain ⟨coef, tb, b, beta, Gb, tg, g, gamma, v, Gg, k1, k2, k3, k4, k5, -, -, -, k9⟩ := C180_l1 obsModel obsSr3 (1 / 2) rfl (by norm_num) (by norm_num [obsModel, exModel]) rfl
    (by norm_num [obsSr3]) rfl rfl rfl (by simp [obsModel, exModel]) rfl obsModel_robust.keys none obsProblem obsArgs [obsGroup 0] obsProblem_groups (obsGroup_posVar 0) (by decide)
    (by
      intro v hv
      rw [List.mem_singleton.1 hv]
      norm_num) (fun i => i.elim0) (fun _ => 1) rfl rfl (fun i => i.elim0) (fun _ => zero_le_one) L c h h1 h2
  obtain ⟨-, rfl⟩ := k4 rfl (by norm_num [obsSr3])
  obtain ⟨-, m2, m3, m4⟩ := k5 (0 : Fin 1)
  refine ⟨coef, tg (0 : Fin 1), g (0 : Fin 1), v (0 : Fin 1), Gg (0 : Fin 1), ?_, k3, m2, m3, ?_, fun h0 => ?_⟩
  · rw [h]
    exact k1
  · have e : 2 * obsSr3.tolOracle = 2 := by norm_num [obsSr3]
    rw [e] at m4
    exact m4
  · have := (k9 (0 : Fin 1)).1 h0
    rw [sub_self, abs_zero, mul_zero, add_zero] at this
    exact this

/-- C179, no random effects: a practical fit with default settings that returns without any of the four entries. -/
example (y : Vec ℝ 2) : ∃ P L c, lmeFromXY exTab (some y) none ["group", "fixed", "fixed", "variance"] false false none none = .ok P ∧
    lmeFitProblemLog (exModel (some (exSr3 true)) 100 (.l1 2)) none P {} = (.ok L, c) ∧ L.get "iteration" = .error .keyError := by
  obtain ⟨P, hP⟩ := exFixed_ok y
  have hM := exModel_robust (some (exSr3 true)) (by
      intro s hs
      cases hs
      exact ⟨by norm_num [exSr3], rfl⟩) 100 (.l1 2) exL1 (by intro _ _ _ h; cases h)
  have hpos : ∀ v : Fin 4, ["group", "fixed", "fixed", "variance"][(v : ℕ)]? = some "variance" → ∀ r, 0 < exTab r v := by
    intro v hv r
    fin_cases v
    · exact absurd hv (by decide)
    · exact absurd hv (by decide)
    · exact absurd hv (by decide)
    · fin_cases r <;> simp [exTab]
  obtain ⟨g, v, feW, reW, -, -, -, -, -, -, -, -, hfe, hre, hPe⟩ := lmeFromXY_ok _ _ _ _ _ _ _ _ _ hP
  cases hfe
  cases hre
  have hq : P.numRandom = 0 := by rw [hPe]; rfl
  have w1 : P.feWeights = [1, 1] := by rw [hPe]; rfl
  have w2 : P.reWeights = [] := by rw [hPe]; rfl
  have hfe : ∀ w, P.feWeights = w → w.length = fixedCount ["group", "fixed", "fixed", "variance"] false ∧ ∀ v ∈ w, v = 0 ∨ v = 1 := by
    rintro w rfl
    rw [w1]
    exact ⟨by decide, fun v hv => .inr (by simpa using hv)⟩
  have hre : ∀ w, P.reWeights = w → w.length = randomCount ["group", "fixed", "fixed", "variance"] false ∧ ∀ v ∈ w, v = 0 ∨ v = 1 := by
    rintro w rfl
    rw [w2]
    exact ⟨by decide, fun v hv => by cases hv⟩
  obtain ⟨L', c, h, -⟩ := C83_fit_problem_returns _ hM none exTab y none _ false false none none P hP hpos ⟨_, rfl⟩ {} (by intro b hb; cases hb) (by intro b hb; cases hb) hfe hre
  obtain ⟨D, -, -, -, -, hD, hDp, -⟩ := lmeFitCore_total _ hM.toSturdy none exTab y none _ false false none none P hP hpos ⟨_, rfl⟩ {} (by intro b hb; cases hb) (by intro b hb; cases hb) hfe hre
    (by intro h; simp [exModel] at h)
  obtain ⟨L, hL⟩ := C179_returns _ (exSr3 true) rfl rfl rfl hM.keys (by simp [exModel]) rfl none P D hD hDp {} (by
    intro v hv
    rw [hq] at hv
    cases hv) L' _ h
  refine ⟨P, L, _, hP, hL, ?_⟩
  rw [C179_no_random_violated _ (exSr3 true) rfl rfl rfl hM.keys none P hq {} L _ hL "iteration" (by decide)]
  rw [if_neg (by change _ ∉ ["converged", "loss", "jones_bic", "muller_ic"]; decide)]

/-- C179, a list of keys: the model of the example above with the keys `["converged"]` as a list. -/
example : ∃ e, (lmeFitProblemLog { obsModel with loggerKind := .list, loggerKeys := ["converged"] } none obsProblem obsArgs).1 = .error e :=
  C179_list_violated _ obsSr3 rfl rfl (by simp) none obsProblem (by decide) obsArgs (by decide)

end Verif
