import Verif.Props.LmeIpEx
import Verif.Props.LmeSr3Folded
import Verif.Props.LmeL0Stop

/-!
# C183: practical SR3 fits with CAD, SCAD and L0 penalties and a good stopping reason
-/

open Matrix

namespace Verif

theorem except_map_ok {α β : Type*} {f : α → β} {e : Except PyErr α} {t : β} (h : e.map f = .ok t) : ∃ z, e = .ok z ∧ f z = t := by
  cases e with
  | error e => cases h
  | ok z => exact ⟨z, rfl, Except.ok.inj h⟩

/-- What a practical SR3 fit with a good stopping reason leaves: the result is the projection, with step 1, of positive variances and their fixed effects, and the residual of the inner method is below the tolerance. -/
theorem lmePracFit_inner (M : LmeModelCfg) (s : LmeSr3Cfg) (hreg : M.reg.Admissible) (hne' : M.reg ≠ .dummy) (heps : 0 ≤ M.elasticEps) (hsr : M.sr3 = some s) (hell : 0 ≤ s.ell)
    (hprac : s.practical = true) (hev : s.updateProxEvery = 1) (hpr : M.prior = none) (hinit : M.initializer ≠ some "EM") (hk : M.loggerKind = .tuple) (hn : M.loggerKeys.Nodup)
    (st : LmeState) (P : LmeProblem ℝ) (a : LmeFitArgs)
    (D : List (LmeGroup P.numFixed P.numRandom)) (hD : lmeGroups P = .ok D) (hpos : PosVar D) (hq : P.numRandom ≠ 0)
    (hg0p : ∀ v ∈ a.gamma.getD (List.replicate P.numRandom 1), 0 < v)
    (wb : Vec ℝ P.numFixed) (wg : Vec ℝ P.numRandom) (hwb : List.ofFn wb = a.feWeights.getD P.feWeights) (hwg : List.ofFn wg = a.reWeights.getD P.reWeights)
    (hwb0 : ∀ i, 0 ≤ wb i) (hwg0 : ∀ j, 0 ≤ wg j)
    (Lf : Logger (PyVal ℝ (P.numFixed + P.numRandom))) (c : LmeState) (h : lmeFitProblemLog M st P a = (.ok Lf, c))
    (hgood : Lf.get "good_stopping_reason" = .ok (.atom (.bool true))) (hmu : Lf.get "mu" ≠ .ok (.list [])) :
    ∃ (coef : LmeCoef) (tb b beta Gb : Vec ℝ P.numFixed) (tg g gamma v Gg : Vec ℝ P.numRandom) (m : List ℤ)
      (base : Regularizer ℝ (P.numFixed + P.numRandom)),
      c = some coef ∧ coef.beta = List.ofFn tb ∧ coef.gamma = List.ofFn tg ∧ (P.numRandom = 1 → 0 ≤ s.target → b = beta ∧ g = gamma) ∧
      (∀ j, 0 ≤ tg j ∧ 0 < gamma j ∧ 0 < v j ∧ v j * gamma j < 2 * s.tolOracle) ∧
      (∀ i, HasDerivAt (fun τ => marginalNLL D (beta + Pi.single i τ) gamma) (Gb i) 0) ∧
      (∀ j, HasDerivAt (fun τ => marginalNLL D beta (gamma + Pi.single j τ)) (Gg j) 0) ∧
      betaToGammaMap P = .ok m ∧ M.reg.build P.numFixed P.numRandom m (joinX wb wg) = .ok base ∧ (∀ j, 0 < g j) ∧
      base.prox (joinX (fun i => (tb i - 1 * (tb i - b i)) / (1 + 1 * M.elasticEps)) fun j => max (tg j - 1 * (tg j - g j)) 0 / (1 + 1 * M.elasticEps)) (1 / (1 + 1 * M.elasticEps)) = .ok (joinX tb tg) ∧
      (∀ i, |Gb i - s.ell * (tb i - b i)| ≤ s.tolOracle + s.ell * |beta i - b i|) ∧ ∀ j, |Gg j - v j - s.ell * (tg j - g j)| ≤ s.tolOracle + s.ell * |gamma j - g j| := by
  obtain ⟨m, Pr, w, base, D', b0, g0, x, L1, coef, hm, hPr, hw, hbase, hD', hb0, hg0, hopt, hcr, hc, hcb, hcg, -⟩ := lmeFitLog_spec h
  obtain rfl : D' = D := Except.ok.inj (hD'.symm.trans hD)
  have hPn : Pr = .nonInformative := by
    rw [hpr] at hPr
    exact (Except.ok.inj hPr).symm
  subst hPn
  obtain ⟨bg, hbg, -, -, hrun⟩ := lmeOptimizeLog_spec hsr hprac hk hn hopt
  obtain ⟨T, sI, F, t1, t2, t3, t4, -, ⟨bo, t6, t6'⟩, t7, -⟩ := hrun hq
  unfold lmeInitialize at hbg
  rw [if_neg hinit] at hbg
  cases hbg
  rw [lmeLogCriteria_other hcr (by decide)] at hgood hmu
  rw [t6] at hgood
  cases hgood
  obtain ⟨hF, hmuT⟩ := t6'.1 rfl
  have hstart : lmeStart st P a = (a.beta.getD (List.replicate P.numFixed 1), a.gamma.getD (List.replicate P.numRandom 1)) := by
    unfold lmeStart
    simp only [sklearnCheckTruth, Bool.and_false, Bool.false_eq_true, if_false]
    cases st <;> rfl
  have hg0' : ∀ j, 0 < g0 j := by
    intro j
    have e : List.ofFn g0 = a.gamma.getD (List.replicate P.numRandom 1) := by
      have := asVec_ok.1 hg0
      rwa [hstart] at this
    refine hg0p _ ?_
    rw [← e]
    exact List.mem_ofFn.2 ⟨j, rfl⟩
  obtain ⟨kT, kv, kg, kS⟩ := t1.keep rfl rfl (fun _ => one_pos) (by
    intro j
    change 0 < (ipStart _ _ _ _).2 j
    unfold ipStart
    split_ifs <;> exact mul_pos (by norm_num) (hg0' j))
  replace kS : sI.S = ⟨s.ell, s.ell⟩ := kS
  have hnt : tightened (s.ipPractical (wrapReg P.numFixed P.numRandom M.elasticEps base)) T ≠ [] := by
    intro he
    rw [he] at t7
    exact hmu t7
  obtain ⟨y, hyT, hy, hyr⟩ := (t1.last_prox (prox := fun step bg => (((wrapReg P.numFixed P.numRandom M.elasticEps base).prox (joinX bg.1 bg.2) step).map fun x => (xBeta x, xGamma x)))
    rfl hev).2 hnt
  -- the prox
  have hW : w = joinX wb wg := by
    rcases LmeReg.weights_mem hw with ⟨h0, -⟩ | ⟨hlen, hw'⟩
    · exact absurd h0 hne'
    · refine List.ofFn_injective (hw'.trans ?_)
      unfold joinX
      rw [List.ofFn_fin_append, ← hwb, ← hwg, List.take_of_length_le (by simp)]
  subst hW
  have hw0 : ∀ i, 0 ≤ joinX wb wg i := by
    intro i
    refine Fin.addCases (fun i => ?_) (fun j => ?_) i
    · simpa only [joinX, Fin.append_left] using hwb0 i
    · simpa only [joinX, Fin.append_right] using hwg0 j
  have hq1 : (0 : ℝ) < 1 + 1 * M.elasticEps := by linarith
  have hpx : base.prox (joinX (fun i => (sI.tbeta i - 1 * (sI.tbeta i - y.beta i)) / (1 + 1 * M.elasticEps)) fun j => max (sI.tgamma j - 1 * (sI.tgamma j - y.gamma j)) 0 / (1 + 1 * M.elasticEps))
      (1 / (1 + 1 * M.elasticEps)) = .ok (joinX sI.tbeta sI.tgamma) := by
    change ((wrapReg P.numFixed P.numRandom M.elasticEps _).prox (joinX y.beta y.gamma) 1).map _ = _ at hy
    rw [wrapReg_prox_eq] at hy
    obtain ⟨z, hz, hz'⟩ : ∃ z, base.prox (joinX (fun i => joinX y.beta y.gamma (Fin.castAdd _ i) / (1 + 1 * M.elasticEps)) fun j => max (joinX y.beta y.gamma (Fin.natAdd _ j)) 0 / (1 + 1 * M.elasticEps))
        (1 / (1 + 1 * M.elasticEps)) = .ok z ∧ (xBeta z, xGamma z) = (sI.tbeta, sI.tgamma) := by
      obtain ⟨z, h1, h2⟩ := except_map_ok hy
      exact ⟨z, h1, h2⟩
    obtain ⟨e1, e2⟩ := Prod.mk.inj hz'
    rw [← e1, ← e2, show joinX (xBeta z) (xGamma z) = z from Fin.append_castAdd_natAdd, ← hz]
    congr 2
    · funext i
      rw [one_mul, sub_sub_cancel, joinX, Fin.append_left]
    · funext j
      rw [one_mul, sub_sub_cancel, joinX, Fin.append_right]
  have htg : ∀ j, 0 ≤ sI.tgamma j := by
    intro j
    have := LibReg.nonneg (LmeReg.build_lib hreg hw0 hbase) (div_nonneg zero_le_one hq1.le) hpx (Fin.natAdd _ j) (by
      rw [joinX, Fin.append_right]
      exact div_nonneg (le_max_right _ _) hq1.le)
    rwa [joinX, Fin.append_right] at this
  -- the residual
  have hdom := inDomain_of_nonneg hpos fun j => (kg j).le
  obtain ⟨Gb, hGb⟩ : ∃ Gb : Vec ℝ P.numFixed, Gb = (D'.map fun g => -(g.xᵀ *ᵥ ((margCov g sI.gamma)⁻¹ *ᵥ residual g sI.beta))).sum := ⟨_, rfl⟩
  obtain ⟨Gg, hGg⟩ : ∃ Gg : Vec ℝ P.numRandom, Gg = (D'.map fun g => nllGradGamma g sI.beta sI.gamma).sum := ⟨_, rfl⟩
  have hFe : ipF D' .nonInformative sI = .ok (Sum.elim (fun j => sI.v j * sI.gamma j - sI.mu)
      (Sum.elim (Gb + s.ell • (sI.beta - sI.tbeta)) (Gg + s.ell • (sI.gamma - sI.tgamma) - sI.v))) := by
    unfold ipF lmeSr3GradientBeta lmeSr3GradientGamma
    have h1 : lmeGradientBeta D' .nonInformative sI.beta sI.gamma = .ok Gb := lmeGradientBeta_ok.2 ⟨hdom, by rw [hGb]; exact (add_zero _).symm⟩
    have h2 : lmeGradientGamma D' .nonInformative sI.beta sI.gamma = .ok Gg := lmeGradientGamma_ok'.2 ⟨hdom, by rw [hGg]; exact (add_zero _).symm⟩
    rw [h1, h2, kS]
    rfl
  obtain rfl := Except.ok.inj (t2.symm.trans hFe)
  refine ⟨coef, sI.tbeta, y.beta, sI.beta, Gb, sI.tgamma, y.gamma, sI.gamma, sI.v, Gg, m, base, hc, by rw [hcb, t3], by rw [hcg, t4], fun h1 ht => ?_, fun j => ⟨htg j, kg j, kv j, ?_⟩, fun i => ?_, fun j => ?_,
    hm, hbase, (kT y hyT).2, hpx, fun i => ?_, fun j => ?_⟩
  · have : y = sI := by
      refine hyr fun z hz => ?_
      obtain ⟨z1, z2⟩ := kT z hz
      unfold ipCorrects
      have h0 : npNorm (fun j => z.gamma j * z.v j - (z.gamma ⬝ᵥ z.v) / P.numRandom) = 0 := by
        unfold npNorm
        have : ∀ j, z.gamma j * z.v j - (z.gamma ⬝ᵥ z.v) / P.numRandom = 0 := by
          intro j
          have hj : ∀ i, i = j := fun i => Fin.ext (by omega)
          unfold dotProduct
          rw [Finset.sum_eq_single j (fun i _ hi => absurd (hj i) hi) (fun hj => absurd (Finset.mem_univ _) hj), show (P.numRandom : ℝ) = 1 from by exact_mod_cast h1]
          simp
        simp [this]
      rw [h0, not_lt]
      have h2 : 0 ≤ z.gamma ⬝ᵥ z.v := Finset.sum_nonneg fun j _ => (mul_pos (z2 j) (z1 j)).le
      exact div_nonneg (mul_nonneg ht h2) (Nat.cast_nonneg _)
    rw [this]
    exact ⟨rfl, rfl⟩
  · have hr := (coord_le_npNorm _ (.inl j)).trans_lt hF
    simp only [Sum.elim_inl] at hr
    have := (abs_lt.1 hr).2
    linarith
  · rw [hGb]
    exact (marginalNLL_expansion D' sI.gamma).hasDerivAt sI.beta i
  · rw [hGg, list_sum_apply]
    exact marginalNLL_deriv hdom sI.beta j
  · have hr : |Gb i + s.ell * (sI.beta i - sI.tbeta i)| ≤ s.tolOracle := by
      have := (coord_le_npNorm _ (.inr (.inl i))).trans hF.le
      exact this
    have ha : |s.ell * (sI.beta i - y.beta i)| = s.ell * |sI.beta i - y.beta i| := by rw [abs_mul, abs_of_nonneg hell]
    rw [← ha, show Gb i - s.ell * (sI.tbeta i - y.beta i) = (Gb i + s.ell * (sI.beta i - sI.tbeta i)) - s.ell * (sI.beta i - y.beta i) by ring]
    exact (abs_sub _ _).trans (add_le_add_left hr _)
  · have hr : |Gg j + s.ell * (sI.gamma j - sI.tgamma j) - sI.v j| ≤ s.tolOracle := by
      have := (coord_le_npNorm _ (.inr (.inr j))).trans hF.le
      exact this
    have ha : |s.ell * (sI.gamma j - y.gamma j)| = s.ell * |sI.gamma j - y.gamma j| := by rw [abs_mul, abs_of_nonneg hell]
    rw [← ha, show Gg j - sI.v j - s.ell * (sI.tgamma j - y.gamma j) = (Gg j + s.ell * (sI.gamma j - sI.tgamma j) - sI.v j) - s.ell * (sI.gamma j - y.gamma j) by ring]
    exact (abs_sub _ _).trans (add_le_add_left hr _)

theorem scaled_stat {G H X e r : ℝ} (h1 : H + X = 0) (h2 : |G - e * H| ≤ r) : |G + e * X| ≤ r := by
  rwa [show G + e * X = G - e * H by rw [show X = -H by linarith]; ring]

theorem scaled_zero {G H X e r : ℝ} (he : 0 ≤ e) (h1 : |H| ≤ X) (h2 : |G - e * H| ≤ r) : |G| ≤ e * X + r := by
  have h3 := abs_add_le (e * H) (G - e * H)
  rw [add_sub_cancel, abs_mul, abs_of_nonneg he] at h3
  have := mul_le_mul_of_nonneg_left h1 he
  linarith

theorem scaled_low {G H X e r : ℝ} (he : 0 ≤ e) (h1 : -X ≤ H) (h2 : |G - e * H| ≤ r) : -(e * X) - r ≤ G := by
  have h3 := (abs_le.1 h2).1
  have := mul_le_mul_of_nonneg_left h1 he
  linarith

/-- **C183** (CAD): let a practical SR3 CAD mixed-effects model (without prior and EM initializer, projecting in every pass) be fitted from positive variances to data with positive observation variances, and
let the fit log `good_stopping_reason = True` and at least one value of `mu`. With `tb, tg` the result, there are coefficients `beta, gamma > 0` and multipliers `v > 0` (the last ones of the inner method)
and `b, g` (those after the last projection, equal to `beta, gamma` if there is one random effect) such that, with the derivatives `Gb, Gg` of the negative log-likelihood at `beta, gamma`, up to the
tolerance of the oracle plus `ell |beta - b|` and `ell |gamma - g|` and with `v gamma` below twice the tolerance:
every coefficient `x` beyond `rho` has `G + ell eps x = 0` (`G` less the multiplier for variances), every other nonzero one `G + ell (eps x + lam w sign(x)) = 0`; every zero fixed effect
`|Gb| ≤ ell lam w`, every zero variance `Gg - v ≥ -ell lam w`. -/
theorem C183_cad (M : LmeModelCfg) (s : LmeSr3Cfg) (rho lam : ℝ) (hreg : M.reg = .cad rho lam) (hlam : 0 ≤ lam) (heps : 0 ≤ M.elasticEps) (hsr : M.sr3 = some s) (hell : 0 ≤ s.ell)
    (hprac : s.practical = true) (hev : s.updateProxEvery = 1) (hpr : M.prior = none) (hinit : M.initializer ≠ some "EM") (hk : M.loggerKind = .tuple) (hn : M.loggerKeys.Nodup)
    (st : LmeState) (P : LmeProblem ℝ) (a : LmeFitArgs)
    (D : List (LmeGroup P.numFixed P.numRandom)) (hD : lmeGroups P = .ok D) (hpos : PosVar D) (hq : P.numRandom ≠ 0)
    (hg0p : ∀ v ∈ a.gamma.getD (List.replicate P.numRandom 1), 0 < v)
    (wb : Vec ℝ P.numFixed) (wg : Vec ℝ P.numRandom) (hwb : List.ofFn wb = a.feWeights.getD P.feWeights) (hwg : List.ofFn wg = a.reWeights.getD P.reWeights)
    (hwb0 : ∀ i, 0 ≤ wb i) (hwg0 : ∀ j, 0 ≤ wg j)
    (Lf : Logger (PyVal ℝ (P.numFixed + P.numRandom))) (c : LmeState) (h : lmeFitProblemLog M st P a = (.ok Lf, c))
    (hgood : Lf.get "good_stopping_reason" = .ok (.atom (.bool true))) (hmu : Lf.get "mu" ≠ .ok (.list [])) :
    ∃ (coef : LmeCoef) (tb b beta Gb : Vec ℝ P.numFixed) (tg g gamma v Gg : Vec ℝ P.numRandom),
      c = some coef ∧ coef.beta = List.ofFn tb ∧ coef.gamma = List.ofFn tg ∧ (P.numRandom = 1 → 0 ≤ s.target → b = beta ∧ g = gamma) ∧
      (∀ j, 0 ≤ tg j ∧ 0 < gamma j ∧ 0 < v j ∧ v j * gamma j < 2 * s.tolOracle) ∧
      (∀ i, HasDerivAt (fun τ => marginalNLL D (beta + Pi.single i τ) gamma) (Gb i) 0) ∧
      (∀ j, HasDerivAt (fun τ => marginalNLL D beta (gamma + Pi.single j τ)) (Gg j) 0) ∧
      (∀ i, (rho < |tb i| → |Gb i + s.ell * (M.elasticEps * tb i)| ≤ s.tolOracle + s.ell * |beta i - b i|) ∧ (0 < tb i → tb i ≤ rho → |Gb i + s.ell * (M.elasticEps * tb i + lam * wb i)| ≤ s.tolOracle + s.ell * |beta i - b i|) ∧
        (tb i < 0 → -rho ≤ tb i → |Gb i + s.ell * (M.elasticEps * tb i - lam * wb i)| ≤ s.tolOracle + s.ell * |beta i - b i|) ∧ (tb i = 0 → |Gb i| ≤ s.ell * (lam * wb i) + (s.tolOracle + s.ell * |beta i - b i|))) ∧
      ∀ j, (0 < tg j → rho < tg j → |Gg j - v j + s.ell * (M.elasticEps * tg j)| ≤ s.tolOracle + s.ell * |gamma j - g j|) ∧ (0 < tg j → tg j ≤ rho → |Gg j - v j + s.ell * (M.elasticEps * tg j + lam * wg j)| ≤ s.tolOracle + s.ell * |gamma j - g j|) ∧
        (tg j = 0 → -(s.ell * (lam * wg j)) - (s.tolOracle + s.ell * |gamma j - g j|) ≤ Gg j - v j) := by
  obtain ⟨coef, tb, b, beta, Gb, tg, g, gamma, v, Gg, mm, base, c1, c2, c3, c4, c5, c6, c7, hmm, hbase, hgp, hpx, hGb, hGg⟩ :=
    lmePracFit_inner M s (by rw [hreg]; exact hlam) (by rw [hreg]; simp) heps hsr hell hprac hev hpr hinit hk hn st P a D hD hpos hq hg0p wb wg hwb hwg hwb0 hwg0 Lf c h hgood hmu
  refine ⟨coef, tb, b, beta, Gb, tg, g, gamma, v, Gg, c1, c2, c3, c4, c5, c6, c7, fun i => ?_, fun j => ?_⟩
  · have hz : tb i = if |(tb i - 1 * (tb i - b i)) / (1 + 1 * M.elasticEps)| ≤ rho ∧ 0 < wb i then soft (wb i * (1 / (1 + 1 * M.elasticEps)) * lam) ((tb i - 1 * (tb i - b i)) / (1 + 1 * M.elasticEps))
        else (tb i - 1 * (tb i - b i)) / (1 + 1 * M.elasticEps) := by
      rw [hreg] at hbase
      cases hbase
      have := congrFun (Except.ok.inj hpx) (Fin.castAdd _ i)
      simp only [joinX, Fin.append_left] at this
      exact this.symm
    obtain ⟨h1, h2, h3, h4, -⟩ := cadLme_step one_pos hlam (hwb0 i) (by linarith) hz
    refine ⟨fun hi => scaled_stat ?_ (hGb i), fun hi hi' => scaled_stat ?_ (hGb i), fun hi hi' => scaled_stat ?_ (hGb i), fun hi => scaled_zero hell ?_ (hGb i)⟩
    · have := h1 hi
      linarith
    · have := h2 hi hi'
      linarith
    · have := h3 hi hi'
      linarith
    · have := h4 hi
      rw [hi] at this ⊢
      rwa [one_mul, one_mul, show (0 : ℝ) - (0 - b i) = b i by ring, ← abs_neg, show -b i = 0 - b i by ring] at this
  · have hz : tg j = if |max (tg j - 1 * (tg j - g j)) 0 / (1 + 1 * M.elasticEps)| ≤ rho ∧ 0 < wg j then soft (wg j * (1 / (1 + 1 * M.elasticEps)) * lam) (max (tg j - 1 * (tg j - g j)) 0 / (1 + 1 * M.elasticEps))
        else max (tg j - 1 * (tg j - g j)) 0 / (1 + 1 * M.elasticEps) := by
      rw [hreg] at hbase
      cases hbase
      have := congrFun (Except.ok.inj hpx) (Fin.natAdd _ j)
      simp only [joinX, Fin.append_right] at this
      exact this.symm
    rw [one_mul (tg j - g j), sub_sub_cancel, max_eq_left (hgp j).le] at hz
    obtain ⟨h1, h2, -, h4, -⟩ := cadLme_step one_pos hlam (hwg0 j) (by linarith) hz
    refine ⟨fun hj hj' => scaled_stat ?_ (hGg j), fun hj hj' => scaled_stat ?_ (hGg j), fun hj => scaled_low hell ?_ (hGg j)⟩
    · have := h1 (by rwa [abs_of_pos hj])
      linarith
    · have := h2 hj hj'
      linarith
    · have := (abs_le.1 (h4 hj)).2
      rw [hj]
      linarith

/-- **C183** (SCAD): let a practical SR3 SCAD mixed-effects model (without prior and EM initializer, projecting in every pass) be fitted from positive variances to data with positive observation variances, and
let the fit log `good_stopping_reason = True` and at least one value of `mu`. With `tb, tg` the result, there are coefficients `beta, gamma > 0` and multipliers `v > 0` (the last ones of the inner method)
and `b, g` (those after the last projection, equal to `beta, gamma` if there is one random effect) such that, with the derivatives `Gb, Gg` of the negative log-likelihood at `beta, gamma`, up to the
tolerance of the oracle plus `ell |beta - b|` and `ell |gamma - g|` and with `v gamma` below twice the tolerance:
with `m a` the slope of the SCAD penalty at distance `a` from zero (`sigma` up to `sigma`, then falling linearly, zero from `rho sigma` on) every nonzero coefficient `x` has
`G + ell (eps x + lam w m(|x|) sign(x)) = 0` (`G` less the multiplier for variances), every zero fixed effect `|Gb| ≤ ell lam w sigma`, every zero variance `Gg - v ≥ -ell lam w sigma`. As the projections
use the step 1, `lam w < rho - 1` is needed. -/
theorem C183_scad (M : LmeModelCfg) (s : LmeSr3Cfg) (rho sigma lam : ℝ) (hreg : M.reg = .scad rho sigma lam) (hrho : 1 < rho) (hsig : 0 ≤ sigma) (hlam : 0 ≤ lam) (heps : 0 ≤ M.elasticEps) (hsr : M.sr3 = some s) (hell : 0 ≤ s.ell)
    (hprac : s.practical = true) (hev : s.updateProxEvery = 1) (hpr : M.prior = none) (hinit : M.initializer ≠ some "EM") (hk : M.loggerKind = .tuple) (hn : M.loggerKeys.Nodup)
    (st : LmeState) (P : LmeProblem ℝ) (a : LmeFitArgs)
    (D : List (LmeGroup P.numFixed P.numRandom)) (hD : lmeGroups P = .ok D) (hpos : PosVar D) (hq : P.numRandom ≠ 0)
    (hg0p : ∀ v ∈ a.gamma.getD (List.replicate P.numRandom 1), 0 < v)
    (wb : Vec ℝ P.numFixed) (wg : Vec ℝ P.numRandom) (hwb : List.ofFn wb = a.feWeights.getD P.feWeights) (hwg : List.ofFn wg = a.reWeights.getD P.reWeights)
    (hwb0 : ∀ i, 0 ≤ wb i) (hwg0 : ∀ j, 0 ≤ wg j)
    (hsb : ∀ i, lam * wb i < rho - 1) (hsg : ∀ j, lam * wg j < rho - 1)
    (m : ℝ → ℝ) (hm : ∀ a, m a = if a ≤ sigma then sigma else if a ≤ rho * sigma then (rho * sigma - a) / (rho - 1) else 0)
    (Lf : Logger (PyVal ℝ (P.numFixed + P.numRandom))) (c : LmeState) (h : lmeFitProblemLog M st P a = (.ok Lf, c))
    (hgood : Lf.get "good_stopping_reason" = .ok (.atom (.bool true))) (hmu : Lf.get "mu" ≠ .ok (.list [])) :
    ∃ (coef : LmeCoef) (tb b beta Gb : Vec ℝ P.numFixed) (tg g gamma v Gg : Vec ℝ P.numRandom),
      c = some coef ∧ coef.beta = List.ofFn tb ∧ coef.gamma = List.ofFn tg ∧ (P.numRandom = 1 → 0 ≤ s.target → b = beta ∧ g = gamma) ∧
      (∀ j, 0 ≤ tg j ∧ 0 < gamma j ∧ 0 < v j ∧ v j * gamma j < 2 * s.tolOracle) ∧
      (∀ i, HasDerivAt (fun τ => marginalNLL D (beta + Pi.single i τ) gamma) (Gb i) 0) ∧
      (∀ j, HasDerivAt (fun τ => marginalNLL D beta (gamma + Pi.single j τ)) (Gg j) 0) ∧
      (∀ i, (0 < tb i → |Gb i + s.ell * (M.elasticEps * tb i + lam * wb i * m (tb i))| ≤ s.tolOracle + s.ell * |beta i - b i|) ∧ (tb i < 0 → |Gb i + s.ell * (M.elasticEps * tb i - lam * wb i * m (-tb i))| ≤ s.tolOracle + s.ell * |beta i - b i|) ∧
        (tb i = 0 → |Gb i| ≤ s.ell * (lam * wb i * sigma) + (s.tolOracle + s.ell * |beta i - b i|))) ∧
      ∀ j, (0 < tg j → |Gg j - v j + s.ell * (M.elasticEps * tg j + lam * wg j * m (tg j))| ≤ s.tolOracle + s.ell * |gamma j - g j|) ∧ (tg j = 0 → -(s.ell * (lam * wg j * sigma)) - (s.tolOracle + s.ell * |gamma j - g j|) ≤ Gg j - v j) := by
  obtain rfl : m = scadTaper rho sigma := funext fun a => hm a
  obtain ⟨coef, tb, b, beta, Gb, tg, g, gamma, v, Gg, mm, base, c1, c2, c3, c4, c5, c6, c7, hmm, hbase, hgp, hpx, hGb, hGg⟩ :=
    lmePracFit_inner M s (by rw [hreg]; exact ⟨hrho, hsig, hlam⟩) (by rw [hreg]; simp) heps hsr hell hprac hev hpr hinit hk hn st P a D hD hpos hq hg0p wb wg hwb hwg hwb0 hwg0 Lf c h hgood hmu
  rw [hreg] at hbase
  unfold LmeReg.build scadInit at hbase
  simp only at hbase
  rw [if_pos hrho] at hbase
  cases hbase
  have hpx' := (collect_ok_iff _ _).1 hpx
  have hq1 : 1 ≤ 1 + 1 * M.elasticEps := by linarith
  refine ⟨coef, tb, b, beta, Gb, tg, g, gamma, v, Gg, c1, c2, c3, c4, c5, c6, c7, fun i => ?_, fun j => ?_⟩
  · have hz := hpx' (Fin.castAdd _ i)
    simp only [joinX, Fin.append_left, weightsOrOnes, Option.getD_some] at hz
    obtain ⟨h1, h2, h3⟩ := scadLme_step hrho hsig one_pos hlam (hwb0 i) hq1 (by rw [one_mul]; exact hsb i) hz
    refine ⟨fun hi => scaled_stat ?_ (hGb i), fun hi => scaled_stat ?_ (hGb i), fun hi => scaled_zero hell ?_ (hGb i)⟩
    · have := h1 hi
      linarith
    · have := h2 hi
      linarith
    · have := h3 hi
      rw [hi] at this ⊢
      rwa [one_mul, one_mul, show (0 : ℝ) - (0 - b i) = b i by ring, ← abs_neg, show -b i = 0 - b i by ring] at this
  · have hz := hpx' (Fin.natAdd _ j)
    simp only [joinX, Fin.append_right, weightsOrOnes, Option.getD_some] at hz
    rw [one_mul (tg j - g j), sub_sub_cancel, max_eq_left (hgp j).le] at hz
    obtain ⟨h1, -, h3⟩ := scadLme_step hrho hsig one_pos hlam (hwg0 j) hq1 (by rw [one_mul]; exact hsg j) hz
    refine ⟨fun hj => scaled_stat ?_ (hGg j), fun hj => scaled_low hell ?_ (hGg j)⟩
    · have := h1 hj
      linarith
    · have := (abs_le.1 (h3 hj)).2
      rw [hj]
      linarith

/-- **C183** (L0): let a practical SR3 L0 mixed-effects model (without prior and EM initializer, projecting in every pass) be fitted from positive variances to data with positive observation variances, and
let the fit log `good_stopping_reason = True` and at least one value of `mu`. With `tb, tg` the result, there are coefficients `beta, gamma > 0` and multipliers `v > 0` (the last ones of the inner method)
and `b, g` (those after the last projection, equal to `beta, gamma` if there is one random effect) such that, with the derivatives `Gb, Gg` of the negative log-likelihood at `beta, gamma`, up to the
tolerance of the oracle plus `ell |beta - b|` and `ell |gamma - g|` and with `v gamma` below twice the tolerance:
fixed effects — `Gb + ell eps x = 0` for every nonzero effect `x` and every effect with weight zero, and for all of them if the budget is not used up; for every zero effect `|Gb| ≤ ell (1 + eps) |x|` for
all penalised nonzero effects `x`; variances — `Gg - v + ell eps x = 0` for every positive one; `≥ 0` for those with weight zero; and for zero variances all of whose fixed effects are nonzero
`Gg - v ≥ -ell (1 + eps) x` for all penalised positive variances `x`, and `Gg - v ≥ 0` if the budget is not used up. -/
theorem C183_l0 (M : LmeModelCfg) (s : LmeSr3Cfg) (nb ng : Option ℤ) (sort : NpSort) (hreg : M.reg = .l0 nb ng sort) (heps : 0 ≤ M.elasticEps) (hsr : M.sr3 = some s) (hell : 0 ≤ s.ell)
    (hprac : s.practical = true) (hev : s.updateProxEvery = 1) (hpr : M.prior = none) (hinit : M.initializer ≠ some "EM") (hk : M.loggerKind = .tuple) (hn : M.loggerKeys.Nodup)
    (st : LmeState) (P : LmeProblem ℝ) (a : LmeFitArgs)
    (D : List (LmeGroup P.numFixed P.numRandom)) (hD : lmeGroups P = .ok D) (hpos : PosVar D) (hq : P.numRandom ≠ 0)
    (hg0p : ∀ v ∈ a.gamma.getD (List.replicate P.numRandom 1), 0 < v)
    (wb : Vec ℝ P.numFixed) (wg : Vec ℝ P.numRandom) (hwb : List.ofFn wb = a.feWeights.getD P.feWeights) (hwg : List.ofFn wg = a.reWeights.getD P.reWeights)
    (hwb0 : ∀ i, 0 ≤ wb i) (hwg0 : ∀ j, 0 ≤ wg j)
    (m : List ℤ) (hm : betaToGammaMap P = .ok m)
    (Lf : Logger (PyVal ℝ (P.numFixed + P.numRandom))) (c : LmeState) (h : lmeFitProblemLog M st P a = (.ok Lf, c))
    (hgood : Lf.get "good_stopping_reason" = .ok (.atom (.bool true))) (hmu : Lf.get "mu" ≠ .ok (.list [])) :
    ∃ (coef : LmeCoef) (tb b beta Gb : Vec ℝ P.numFixed) (tg g gamma v Gg : Vec ℝ P.numRandom),
      c = some coef ∧ coef.beta = List.ofFn tb ∧ coef.gamma = List.ofFn tg ∧ (P.numRandom = 1 → 0 ≤ s.target → b = beta ∧ g = gamma) ∧
      (∀ j, 0 ≤ tg j ∧ 0 < gamma j ∧ 0 < v j ∧ v j * gamma j < 2 * s.tolOracle) ∧
      (∀ i, HasDerivAt (fun τ => marginalNLL D (beta + Pi.single i τ) gamma) (Gb i) 0) ∧
      (∀ j, HasDerivAt (fun τ => marginalNLL D beta (gamma + Pi.single j τ)) (Gg j) 0) ∧
      (∀ i, (tb i ≠ 0 ∨ wb i = 0 → |Gb i + s.ell * (M.elasticEps * tb i)| ≤ s.tolOracle + s.ell * |beta i - b i|) ∧
        (tb i = 0 → ∀ k, wb k ≠ 0 → tb k ≠ 0 → |Gb i| ≤ s.ell * ((1 + M.elasticEps) * |tb k|) + (s.tolOracle + s.ell * |beta i - b i|)) ∧
        ((∀ n, nb = some n → (Set.ncard {k | wb k ≠ 0 ∧ tb k ≠ 0} : ℤ) + Set.ncard {k | wb k = 0} < n) → |Gb i + s.ell * (M.elasticEps * tb i)| ≤ s.tolOracle + s.ell * |beta i - b i|)) ∧
      ∀ j, (0 < tg j → |Gg j - v j + s.ell * (M.elasticEps * tg j)| ≤ s.tolOracle + s.ell * |gamma j - g j|) ∧ (wg j = 0 → -(s.tolOracle + s.ell * |gamma j - g j|) ≤ Gg j - v j + s.ell * (M.elasticEps * tg j)) ∧
        (tg j = 0 → (∀ i : Fin P.numFixed, m[(i : ℕ)]? = some ((j : ℕ) : ℤ) → tb i ≠ 0) →
          (∀ k, wg k ≠ 0 → 0 < tg k → -(s.ell * ((1 + M.elasticEps) * tg k)) - (s.tolOracle + s.ell * |gamma j - g j|) ≤ Gg j - v j) ∧
          ((∀ n, ng = some n → (Set.ncard {k | wg k ≠ 0 ∧ tg k ≠ 0} : ℤ) + Set.ncard {k | wg k = 0} < n) → -(s.tolOracle + s.ell * |gamma j - g j|) ≤ Gg j - v j)) := by
  obtain ⟨coef, tb, b, beta, Gb, tg, g, gamma, v, Gg, mm, base, c1, c2, c3, c4, c5, c6, c7, hmm, hbase, hgp, hpx, hGb, hGg⟩ :=
    lmePracFit_inner M s (by rw [hreg]; exact trivial) (by rw [hreg]; simp) heps hsr hell hprac hev hpr hinit hk hn st P a D hD hpos hq hg0p wb wg hwb hwg hwb0 hwg0 Lf c h hgood hmu
  obtain rfl : m = mm := Except.ok.inj (hm.symm.trans hmm)
  rw [hreg] at hbase
  cases hbase
  obtain ⟨hB, hG⟩ := l0Lme_step (δ := 0) heps one_pos (fun i => by rw [sub_self, abs_zero]) (fun j => by rw [sub_self, abs_zero]) hpx
  simp only [add_zero, div_one, sub_zero, neg_zero] at hB hG
  refine ⟨coef, tb, b, beta, Gb, tg, g, gamma, v, Gg, c1, c2, c3, c4, c5, c6, c7, fun i => ?_, fun j => ?_⟩
  · obtain ⟨h1, h2, h3⟩ := hB i
    exact ⟨fun hi => scaled_stat (abs_nonpos_iff.1 (h1 hi)) (hGb i), fun hi k hk hk0 => scaled_zero hell (h2 hi k hk hk0) (hGb i), fun hn => scaled_stat (abs_nonpos_iff.1 (h3 hn)) (hGb i)⟩
  · obtain ⟨h1, h2, h3⟩ := hG j
    refine ⟨fun hj => scaled_stat (abs_nonpos_iff.1 (h1 hj)) (hGg j), fun hj => ?_, fun hj hl => ⟨fun k hk hk0 => scaled_low hell ((h3 hj hl).1 k hk hk0) (hGg j), fun hn => ?_⟩⟩
    · have h4 := mul_nonneg hell (h2 hj)
      have h5 := (abs_le.1 (hGg j)).1
      linarith
    · have h4 := mul_nonneg hell ((h3 hj hl).2 hn)
      have h5 := (abs_le.1 (hGg j)).1
      linarith

/-- The practical SR3 model of the cases of C179 and C180 with any penalty. -/
noncomputable def obsFold (reg : LmeReg) : LmeModelCfg := exModel (some obsSr3) 100 reg

theorem obsFold_robust {reg : LmeReg} (hr : reg.Admissible) (hstep : reg.StepOk 1e-4 1) : (obsFold reg).Robust where
  adm := ⟨hr, by norm_num [obsFold, exModel], (fun s hs => by cases hs), fun s h => by cases h; norm_num [obsSr3]⟩
  init := by simp [obsFold, exModel]
  kind := rfl
  keys := by change ["converged", "loss", "jones_bic", "muller_ic"].Nodup; decide
  vaida := by change _ ∉ ["converged", "loss", "jones_bic", "muller_ic"]; decide
  flip := fun h => absurd h (by change _ ∉ ["converged", "loss", "jones_bic", "muller_ic"]; decide)
  sr3 := fun s h => by cases h; exact ⟨by norm_num [obsSr3], rfl⟩
  scad := fun t ht => by
    change t = 1 at ht
    rw [ht]
    exact hstep

/-- Its projection keeps the variance between zero and its value. -/
theorem obsFold_prox {reg : LmeReg} (hr : reg.Admissible)
    (hsh : ∀ (m : List ℤ) (base : Regularizer ℝ (0 + 1)) (tb b : Vec ℝ 0) (tg g : Vec ℝ 1), reg.build 0 1 m (joinX (fun _ => 1) fun _ => 1) = .ok base → 0 ≤ g 0 →
      base.prox (joinX (fun i => (tb i - 1 * (tb i - b i)) / (1 + 1 * 1e-4)) fun j => max (tg j - 1 * (tg j - g j)) 0 / (1 + 1 * 1e-4)) (1 / (1 + 1 * 1e-4)) = .ok (joinX tb tg) → 0 < tg 0 → tg 0 ≤ g 0)
    (m : List ℤ) (base : Regularizer ℝ (0 + 1)) (hbase : reg.build 0 1 m (joinX (fun _ => 1) fun _ => 1) = .ok base) (b : Vec ℝ 0) (g : Vec ℝ 1) (t : Vec ℝ 0 × Vec ℝ 1) (hg : 0 ≤ g 0)
    (ht : (((wrapReg 0 1 (obsFold reg).elasticEps base).prox (joinX b g) 1).map fun x => (xBeta x, xGamma x)) = .ok t) : 0 ≤ t.2 0 ∧ t.2 0 ≤ g 0 := by
  have hlib : LibReg base := LmeReg.build_lib hr (fun i => by
    refine Fin.addCases (fun i => i.elim0) (fun j => ?_) i
    rw [joinX, Fin.append_right]
    exact zero_le_one) hbase
  rw [wrapReg_prox_eq] at ht
  obtain ⟨z, h1, h2⟩ := except_map_ok ht
  have hz : base.prox (joinX (fun i => (xBeta z i - 1 * (xBeta z i - b i)) / (1 + 1 * 1e-4)) fun j => max (xGamma z j - 1 * (xGamma z j - g j)) 0 / (1 + 1 * 1e-4)) (1 / (1 + 1 * 1e-4))
      = .ok (joinX (xBeta z) (xGamma z)) := by
    rw [show joinX (xBeta z) (xGamma z) = z from Fin.append_castAdd_natAdd, ← h1]
    congr 2
    · funext i
      exact i.elim0
    · funext j
      rw [one_mul, sub_sub_cancel, joinX, xGamma, Fin.append_right]
      rfl
  have h3 : 0 ≤ t.2 0 := by
    rw [← h2]
    have := LibReg.nonneg hlib (by norm_num) hz (Fin.natAdd 0 (0 : Fin 1)) (by
      rw [joinX, Fin.append_right]
      exact div_nonneg (le_max_right _ _) (by norm_num))
    rwa [joinX, Fin.append_right] at this
  refine ⟨h3, ?_⟩
  rcases h3.lt_or_eq with h0 | h0
  · rw [← h2] at h0 ⊢
    exact hsh m base (xBeta z) b (xGamma z) g hbase hg hz h0
  · rw [← h0]
    exact hg

/-- The fit returns, makes one pass, logs one value of `mu` and a good stopping reason. -/
theorem obsFold_good (reg : LmeReg) (hr : reg.Admissible) (hstep : reg.StepOk 1e-4 1) (hne : reg ≠ .dummy)
    (hsh : ∀ (m : List ℤ) (base : Regularizer ℝ (0 + 1)) (tb b : Vec ℝ 0) (tg g : Vec ℝ 1), reg.build 0 1 m (joinX (fun _ => 1) fun _ => 1) = .ok base → 0 ≤ g 0 →
      base.prox (joinX (fun i => (tb i - 1 * (tb i - b i)) / (1 + 1 * 1e-4)) fun j => max (tg j - 1 * (tg j - g j)) 0 / (1 + 1 * 1e-4)) (1 / (1 + 1 * 1e-4)) = .ok (joinX tb tg) → 0 < tg 0 → tg 0 ≤ g 0) :
    ∃ L c, lmeFitProblemLog (obsFold reg) none obsProblem obsArgs = (.ok L, c) ∧ L.get "good_stopping_reason" = .ok (.atom (.bool true)) ∧ L.get "mu" ≠ .ok (.list []) := by
  have hM := obsFold_robust hr hstep
  obtain ⟨L', c, h, -⟩ := C83_fit_problem_returns (obsFold reg) hM none obsTab ![0] none ["group", "random", "variance"] false false none none obsProblem obsProblem_read
    (by
      intro v hv r
      fin_cases r
      fin_cases v <;> simp [obsTab] at hv ⊢) ⟨_, rfl⟩ obsArgs (by intro b hb; cases hb)
    (by
      intro g hg
      cases hg
      refine ⟨by decide, fun v hv => ?_⟩
      rw [List.mem_singleton.1 hv]
      norm_num) (by
      rintro w rfl
      exact ⟨by decide, fun v hv => by cases hv⟩) (by
      rintro w rfl
      exact ⟨by decide, fun v hv => .inr (List.mem_singleton.1 hv)⟩)
  obtain ⟨L, hL⟩ := C179_returns (obsFold reg) obsSr3 rfl rfl rfl hM.keys (by simp [obsFold, exModel]) rfl none obsProblem [obsGroup 0] obsProblem_groups (obsGroup_posVar 0)
    obsArgs (by
      intro v hv
      rw [List.mem_singleton.1 hv]
      norm_num) L' _ h
  refine ⟨L, _, hL, ?_⟩
  obtain ⟨m, Pr, w, base, D, b0, g0, x, L1, coef, hm, hPr, hw, hbase, hD, hb0, hg0, hopt, hcr, -, -, -, -⟩ := lmeFitLog_spec hL
  obtain rfl : D = [obsGroup 0] := Except.ok.inj (hD.symm.trans obsProblem_groups)
  obtain rfl : (.nonInformative : LmeInstPrior ℝ 0 1) = Pr := Except.ok.inj hPr
  obtain ⟨bg, hbg, -, -, hrun⟩ := lmeOptimizeLog_spec (s := obsSr3) rfl rfl rfl hM.keys hopt
  obtain ⟨T, sI, F, t1, t2, -, -, -, ⟨bo, t6, t6'⟩, t7, -, t9, t10⟩ := hrun (by decide)
  rw [lmeLogCriteria_other hcr (by decide), lmeLogCriteria_other hcr (by decide), t6, t7]
  unfold lmeInitialize at hbg
  rw [if_neg (by simp [obsFold, exModel])] at hbg
  cases hbg
  have hg0' : g0 (0 : Fin 1) = 3 / 5 := by
    have := asVec_ok.1 hg0
    change List.ofFn g0 = [3 / 5] at this
    exact (List.cons.inj this).1
  have hw' : w = joinX (fun _ : Fin 0 => (1 : ℝ)) (fun _ : Fin 1 => (1 : ℝ)) := by
    rcases LmeReg.weights_mem hw with ⟨h0, -⟩ | ⟨hlen, hw'⟩
    · exact absurd h0 hne
    · exact List.ofFn_injective hw'
  obtain ⟨r1, r2, r3⟩ := obs_run (obsSr3.ipPractical (wrapReg 0 1 (obsFold reg).elasticEps _)) rfl rfl rfl rfl rfl (by norm_num [LmeSr3Cfg.ipPractical, LmeSr3Cfg.ip]) rfl rfl _ rfl rfl
    (obsFold_prox hr hsh m base (by rw [← hw']; exact hbase)) b0 g0 hg0' T sI F t1 t2 t9 t10
  refine ⟨?_, fun h => r3 ?_⟩
  · rw [t6'.2 ⟨r1, r2⟩]
  · have := LVal.list.inj (Except.ok.inj h)
    exact List.map_eq_nil_iff.1 this

/-- C183: a practical CAD fit with a good stopping reason. -/
example : ∃ (coef : LmeCoef) (tg gamma v Gg : ℝ), (lmeFitProblemLog (obsFold (.cad (1 / 2) (1 / 2))) none obsProblem obsArgs).2 = some coef ∧ coef.gamma = [tg] ∧ 0 < gamma ∧ 0 < v ∧ v * gamma < 2 ∧
    (0 < tg → 1 / 2 < tg → |Gg - v + 1 / 10 * (1e-4 * tg)| ≤ 1) := by
  obtain ⟨L, c, h, h1, h2⟩ := obsFold_good (.cad (1 / 2) (1 / 2)) (show (0 : ℝ) ≤ 1 / 2 by norm_num) trivial (by simp) (by
    intro m base tb b tg g hbase hg hz h0
    cases hbase
    have hz' := congrFun (Except.ok.inj hz) (Fin.natAdd 0 (0 : Fin 1))
    simp only [joinX, Fin.append_right] at hz'
    obtain ⟨k1, k2, -⟩ := cadLme_step (t := 1) (lam := 1 / 2) (u := 1) (q1 := 1 + 1 * 1e-4) (rho := 1 / 2) one_pos (by norm_num) zero_le_one (by norm_num) hz'.symm
    rw [one_mul (tg 0 - g 0), sub_sub_cancel, max_eq_left hg] at k1 k2
    by_cases hle : tg 0 ≤ 1 / 2
    · have := k2 h0 hle
      norm_num at this
      linarith
    · have := k1 (by rw [abs_of_pos h0]; linarith)
      norm_num at this
      linarith)
  obtain ⟨coef, tb, b, beta, Gb, tg, g, gamma, v, Gg, k1, k2, k3, k4, k5, -, -, -, k9⟩ := C183_cad (obsFold _) obsSr3 (1 / 2) (1 / 2) rfl (by norm_num) (by norm_num [obsFold, exModel]) rfl
    (by norm_num [obsSr3]) rfl rfl rfl (by simp [obsFold, exModel]) rfl (obsFold_robust (reg := .cad (1 / 2) (1 / 2)) (show (0 : ℝ) ≤ 1 / 2 by norm_num) trivial).keys none obsProblem obsArgs [obsGroup 0]
    obsProblem_groups (obsGroup_posVar 0) (by decide)
    (by
      intro v hv
      rw [List.mem_singleton.1 hv]
      norm_num) (fun i => i.elim0) (fun _ => 1) rfl rfl (fun i => i.elim0) (fun _ => zero_le_one) L c h h1 h2
  obtain ⟨-, rfl⟩ := k4 rfl (by norm_num [obsSr3])
  obtain ⟨-, m2, m3, m4⟩ := k5 (0 : Fin 1)
  refine ⟨coef, tg (0 : Fin 1), g (0 : Fin 1), v (0 : Fin 1), Gg (0 : Fin 1), ?_, k3, m2, m3, ?_, fun h0 h0' => ?_⟩
  · rw [h]
    exact k1
  · have e : 2 * obsSr3.tolOracle = 2 := by norm_num [obsSr3]
    rw [e] at m4
    exact m4
  · have := (k9 (0 : Fin 1)).1 h0 h0'
    rw [sub_self, abs_zero, mul_zero, add_zero] at this
    exact this

/-- C183: a practical SCAD fit with a good stopping reason. -/
example : ∃ (coef : LmeCoef) (tg gamma v Gg : ℝ), (lmeFitProblemLog (obsFold (.scad 3 1 (1 / 2))) none obsProblem obsArgs).2 = some coef ∧ coef.gamma = [tg] ∧ 0 < gamma ∧ 0 < v ∧ v * gamma < 2 ∧
    (0 < tg → tg ≤ 1 → |Gg - v + 1 / 10 * (1e-4 * tg + 1 / 2 * 1 * 1)| ≤ 1) := by
  have hadm : (LmeReg.scad 3 1 (1 / 2)).Admissible := ⟨by norm_num, by norm_num, by norm_num⟩
  have hstep : (LmeReg.scad 3 1 (1 / 2)).StepOk 1e-4 1 := show (1 : ℝ) / (1 + 1 * 1e-4) * (1 / 2) ≠ 3 - 1 by norm_num
  obtain ⟨L, c, h, h1, h2⟩ := obsFold_good (.scad 3 1 (1 / 2)) hadm hstep (by simp) (by
    intro m base tb b tg g hbase hg hz h0
    unfold LmeReg.build scadInit at hbase
    simp only at hbase
    rw [if_pos (by norm_num)] at hbase
    cases hbase
    have hz' := (collect_ok_iff _ _).1 hz (Fin.natAdd 0 (0 : Fin 1))
    simp only [joinX, Fin.append_right, weightsOrOnes, Option.getD_some] at hz'
    obtain ⟨k1, -⟩ := scadLme_step (t := 1) (lam := 1 / 2) (u := 1) (q1 := 1 + 1 * 1e-4) (rho := 3) (sigma := 1) (by norm_num) zero_le_one one_pos (by norm_num) zero_le_one (by norm_num) (by norm_num) hz'
    rw [one_mul (tg 0 - g 0), sub_sub_cancel, max_eq_left hg] at k1
    have h3 := k1 h0
    have h4 := scadTaper_nonneg (rho := 3) (sigma := 1) (by norm_num) zero_le_one (tg 0)
    norm_num at h3
    linarith)
  obtain ⟨coef, tb, b, beta, Gb, tg, g, gamma, v, Gg, k1, k2, k3, k4, k5, -, -, -, k9⟩ := C183_scad (obsFold _) obsSr3 3 1 (1 / 2) rfl (by norm_num) zero_le_one (by norm_num) (by norm_num [obsFold, exModel]) rfl
    (by norm_num [obsSr3]) rfl rfl rfl (by simp [obsFold, exModel]) rfl (obsFold_robust hadm hstep).keys none obsProblem obsArgs [obsGroup 0]
    obsProblem_groups (obsGroup_posVar 0) (by decide)
    (by
      intro v hv
      rw [List.mem_singleton.1 hv]
      norm_num) (fun i => i.elim0) (fun _ => 1) rfl rfl (fun i => i.elim0) (fun _ => zero_le_one) (fun i => i.elim0) (fun _ => by norm_num) _ (fun a => rfl) L c h h1 h2
  obtain ⟨-, rfl⟩ := k4 rfl (by norm_num [obsSr3])
  obtain ⟨-, m2, m3, m4⟩ := k5 (0 : Fin 1)
  refine ⟨coef, tg (0 : Fin 1), g (0 : Fin 1), v (0 : Fin 1), Gg (0 : Fin 1), ?_, k3, m2, m3, ?_, fun h0 h0' => ?_⟩
  · rw [h]
    exact k1
  · have e : 2 * obsSr3.tolOracle = 2 := by norm_num [obsSr3]
    rw [e] at m4
    exact m4
  · have := (k9 (0 : Fin 1)).1 h0
    rw [sub_self, abs_zero, mul_zero, add_zero, if_pos h0'] at this
    exact this

/-- C183: a practical L0 fit (budget one) with a good stopping reason. -/
example : ∃ (coef : LmeCoef) (tg gamma v Gg : ℝ), (lmeFitProblemLog (obsFold (.l0 none (some 1) exSort)) none obsProblem obsArgs).2 = some coef ∧ coef.gamma = [tg] ∧ 0 < gamma ∧ 0 < v ∧ v * gamma < 2 ∧
    (0 < tg → |Gg - v + 1 / 10 * (1e-4 * tg)| ≤ 1) := by
  obtain ⟨L, c, h, h1, h2⟩ := obsFold_good (.l0 none (some 1) exSort) trivial trivial (by simp) (by
    intro m base tb b tg g hbase hg hz h0
    cases hbase
    obtain ⟨-, hG⟩ := l0Lme_step (δ := 0) (eps := 1e-4) (by norm_num) one_pos (fun i => by rw [sub_self, abs_zero]) (fun j => by rw [sub_self, abs_zero]) hz
    have := (hG 0).1 h0
    rw [zero_div] at this
    have := abs_nonpos_iff.1 this
    linarith)
  obtain ⟨coef, tb, b, beta, Gb, tg, g, gamma, v, Gg, k1, k2, k3, k4, k5, -, -, -, k9⟩ := C183_l0 (obsFold _) obsSr3 none (some 1) exSort rfl (by norm_num [obsFold, exModel]) rfl
    (by norm_num [obsSr3]) rfl rfl rfl (by simp [obsFold, exModel]) rfl (obsFold_robust (reg := .l0 none (some 1) exSort) trivial trivial).keys none obsProblem obsArgs [obsGroup 0]
    obsProblem_groups (obsGroup_posVar 0) (by decide)
    (by
      intro v hv
      rw [List.mem_singleton.1 hv]
      norm_num) (fun i => i.elim0) (fun _ => 1) rfl rfl (fun i => i.elim0) (fun _ => zero_le_one) _ rfl L c h h1 h2
  obtain ⟨-, rfl⟩ := k4 rfl (by norm_num [obsSr3])
  obtain ⟨-, m2, m3, m4⟩ := k5 (0 : Fin 1)
  refine ⟨coef, tg (0 : Fin 1), g (0 : Fin 1), v (0 : Fin 1), Gg (0 : Fin 1), ?_, k3, m2, m3, ?_, fun h0 => ?_⟩
  · rw [h]
    exact k1
  · have e : 2 * obsSr3.tolOracle = 2 := by norm_num [obsSr3]
    rw [e] at m4
    exact m4
  · have := (k9 (0 : Fin 1)).1 h0
    rw [sub_self, abs_zero, mul_zero, add_zero] at this
    exact this

end Verif
