import Verif.Props.LmeDescent

/-!
# C100 for the CAD penalty
-/

open Matrix

namespace Verif

/-- A proximal gradient step of the CAD penalty from `rho`, which minimises the loss plus the elastic term, with weight 3: the step leaves `rho`
although the penalty is capped all along. -/
theorem cad_step {rho lam eps t s : ℝ} (hl0 : 0 < lam) (hr : 0 < rho) (heps : 0 ≤ eps) (ht : 0 < t) (hts : t ≤ s) (hs : 9 * s * lam ≤ 2 * rho)
    {X0 X1 : Vec ℝ (1 + 0)} (hX0 : X0 0 = rho) {gb : Vec ℝ 1} {gg : Vec ℝ 0} (hgb : gb 0 = -(eps * rho)) {w : Vec ℝ (1 + 0)} (hw : w 0 = 3)
    (h : (wrapReg 1 0 eps (cadRegularizer rho lam (some w))).prox (fun j => X0 j - t * joinX gb gg j) t = .ok X1) :
    rho ≤ 3 * |X1 0| ∧
    1 / 2 * (rho + eps * rho - rho) ^ 2 + eps / 2 * rho ^ 2 < 1 / 2 * (rho + eps * rho - X1 0) ^ 2 + eps / 2 * X1 0 ^ 2 := by
  have hc : 0 < 1 + t * eps := by positivity
  have hj : joinX gb gg (0 : Fin (1 + 0)) = -(eps * rho) := by rw [← hgb]; rfl
  obtain ⟨a, ha⟩ : ∃ a, a = t / (1 + t * eps) := ⟨_, rfl⟩
  have ha0 : 0 < a := by rw [ha]; positivity
  have hat : a ≤ t := by
    rw [ha]
    exact div_le_self ht.le (by have := mul_nonneg ht.le heps; linarith)
  have hal : 9 * (a * lam) ≤ 2 * rho := by
    have : a * lam ≤ s * lam := mul_le_mul_of_nonneg_right (hat.trans hts) hl0.le
    linarith
  have hal0 : 0 < a * lam := mul_pos ha0 hl0
  have hX1 : X1 0 = rho - 3 * (a * lam) := by
    unfold wrapReg positiveQuadrant elastic cadRegularizer at h
    simp only [Except.ok.injEq] at h
    rw [← h]
    simp only [positiveMask]
    simp only [hX0, hj, hw]
    have e1 : (rho - t * -(eps * rho)) / (1 + t * eps) = rho := by
      field_simp; ring
    simp only [Fin.coe_ofNat_eq_mod, Nat.zero_mod, decide_false, if_false, Nat.reduceLeDiff, Bool.false_eq_true]
    rw [e1, ← ha, if_pos ⟨(abs_of_pos hr).le, by norm_num⟩]
    unfold soft clip0
    rw [max_eq_left (by linarith), max_eq_right (by linarith)]
    ring
  rw [hX1]
  refine ⟨by rw [abs_of_pos (by linarith)]; linarith, ?_⟩
  nlinarith [mul_pos hal0 hal0, mul_nonneg heps (mul_pos hal0 hal0).le]

theorem cad_increase {rho lam eps y s : ℝ} (hl0 : 0 < lam) (hr : 0 < rho) (heps : 0 ≤ eps) (hy : y = rho + eps * rho) {F R : ℕ} (hF : F = 1) (hR : R = 0)
    {t : ℝ} (ht : 0 < t) (hts : t ≤ s) (hs : 9 * s * lam ≤ 2 * rho)
    {X0 X1 w : Vec ℝ (F + R)} (hw : List.ofFn w = [3]) {b0 : Vec ℝ F} {g0 : Vec ℝ R}
    (hb0 : List.ofFn b0 = [rho]) (hX0 : X0 = joinX b0 g0) {gb : Vec ℝ F} {gg : Vec ℝ R}
    (hgb : lmeGradientBeta [oneGroup y F R] .nonInformative (xBeta X0) (xGamma X0) = .ok gb)
    (h : (wrapReg F R eps (cadRegularizer rho lam (some w))).prox (fun j => X0 j - t * joinX gb gg j) t = .ok X1) {v0 v1 : ℝ}
    {g0' g1' : WithTop ℝ} (hv0 : lmeLoss [oneGroup y F R] .nonInformative (xBeta X0) (xGamma X0) = .ok v0)
    (hv1 : lmeLoss [oneGroup y F R] .nonInformative (xBeta X1) (xGamma X1) = .ok v1)
    (hg0 : (wrapReg F R eps (cadRegularizer rho lam (some w))).value X0 = .ok g0')
    (hg1 : (wrapReg F R eps (cadRegularizer rho lam (some w))).value X1 = .ok g1') :
    (v0 : WithTop ℝ) + g0' < (v1 : WithTop ℝ) + g1' := by
  subst hF hR hy
  obtain ⟨-, rfl⟩ := lmeLoss_ok.1 hv0
  obtain ⟨-, rfl⟩ := lmeLoss_ok.1 hv1
  have hw0 : w 0 = 3 := by simpa using hw
  have hb : b0 0 = rho := by simpa using hb0
  have hX : X0 0 = rho := by rw [hX0, ← hb]; rfl
  have hxb : ∀ X : Vec ℝ (1 + 0), xBeta X 0 = X 0 := fun X => rfl
  have hgb' : gb 0 = -(eps * rho) := by rw [gradientBeta_one hgb, hxb, hX]; ring
  obtain ⟨hcap, hlt⟩ := cad_step hl0 hr heps ht hts hs hX hgb' hw0 h
  have hval : ∀ X : Vec ℝ (1 + 0), rho ≤ 3 * |X 0| → (wrapReg 1 0 eps (cadRegularizer rho lam (some w))).value X
      = .ok ((eps / 2 * X 0 ^ 2 + lam * rho : ℝ) : WithTop ℝ) := by
    intro X hX
    rw [wrapReg_value_eq (h := fun i u => lam * min (w i * |u|) rho) fun u => by rw [← Finset.mul_sum]; rfl]
    unfold fullPenalty
    rw [if_neg (by rintro ⟨j, -⟩; exact j.elim0)]
    congr 2
    change eps / 2 * ∑ i : Fin 1, X i ^ 2 + ∑ i : Fin 1, lam * min (w i * |X i|) rho = _
    simp [hw0, min_eq_right hX]
  rw [hval _ (by rw [hX, abs_of_pos hr]; linarith)] at hg0
  rw [hval _ hcap] at hg1
  cases hg0
  cases hg1
  rw [marginalNLL_one, marginalNLL_one, hxb, hxb, hX]
  rw [← WithTop.coe_add, ← WithTop.coe_add, WithTop.coe_lt_coe]
  simp only [LmeInstPrior.loss]
  linarith

/-- **C100** fails for the CAD penalty with weights: for every plain model with line search and steps not too long for the threshold there is a problem, a start and
a weight 3 whose fit logs, right at the first iteration, a loss larger than the initial one (`CADRegularizer.value` caps `weights * |x|`,
whereas prox compares `|x|` with `rho`, `regularizers.py:521-522`, `540-544`). -/
theorem C100_cad_weights_violated (M : LmeModelCfg) (rho lam : ℝ) (hl0 : 0 < lam) (hr0 : 0 < rho) (hs : 9 * M.step * lam ≤ 2 * rho)
    (hreg : M.reg = .cad rho lam) (hM : M.Robust)
    (hsr : M.sr3 = none) (hls : M.stepping = "line-search") (hpr : M.prior = none) (hit : 0 < M.maxIter)
    (hloss : "loss" ∈ M.loggerKeys) :
    ∃ (x : Matrix (Fin 1) (Fin 3) ℝ) (y : Vec ℝ 1) (P : LmeProblem ℝ) (L : Logger (PyVal ℝ (P.numFixed + P.numRandom))) (c : LmeCoef)
      (losses : List (WithTop ℝ)) (h1 : 1 < losses.length),
      lmeFromXY x (some y) none ["group", "fixed", "variance"] false false none none = .ok P ∧
      lmeFitProblem M none P { beta := some [rho], feWeights := some [3] } = (.ok L, some c) ∧
      L.get "loss" = .ok (.list (losses.map PyVal.num)) ∧ losses[0] < losses[1] := by
  have heps := hM.adm.eps
  obtain ⟨x, hx⟩ : ∃ x : Matrix (Fin 1) (Fin 3) ℝ, x = !![0, 1, 1] := ⟨_, rfl⟩
  obtain ⟨y, hy⟩ : ∃ y : Vec ℝ 1, y = fun _ => rho + M.elasticEps * rho := ⟨_, rfl⟩
  obtain ⟨P, hP⟩ : ∃ P, lmeFromXY x (some y) none ["group", "fixed", "variance"] false false none none = .ok P :=
    lmeFromXY_succeeds x (some y) none _ false false none none 0 2 (by decide) (by decide) rfl (by decide)
      (by simp) (by intro r; fin_cases r; simp [hx]) (by intro r; fin_cases r; exact ⟨0, by simp [hx]⟩) (.inl rfl) (by simp) _ _ rfl rfl
  obtain ⟨_, _, feW, reW, -, -, hlen, -, -, -, -, -, hf, hr, hPe⟩ := lmeFromXY_ok x (some y) none _
    false false none none P hP
  have e2 : P.reWeights = [] := by rw [hPe]; cases hr; rfl
  obtain ⟨L, c, hfit, -, -⟩ := C83_fit_problem_returns_weights M hM none x y none _ false false none none P hP
    (by
      intro v hv r
      fin_cases v
      · exact absurd hv (by decide)
      · exact absurd hv (by decide)
      · fin_cases r; simp [hx]) ⟨.nonInformative, by rw [hpr]; rfl⟩ { beta := some [rho], feWeights := some [3] }
    (by rintro b hb; cases hb; rfl) (by simp)
    (by
      rintro w rfl
      refine ⟨rfl, fun v hv => ?_⟩
      have hv : v ∈ [(3 : ℝ)] := hv
      rw [List.mem_singleton.1 hv, hreg]
      exact ⟨by norm_num, fun _ _ _ h => by cases h⟩)
    (by rintro w rfl; simp only [Option.getD_none, e2]; exact ⟨rfl, by simp⟩)
  have hF := numFixed_eq P false false (by rw [hPe])
  have hR := numRandom_eq P false false (by rw [hPe])
  have hcl : P.columnLabels = ["group", "fixed", "variance"] := by rw [hPe]
  rw [hcl] at hF hR
  have hF : P.numFixed = 1 := hF.trans (by decide)
  have hR : P.numRandom = 0 := hR.trans (by decide)
  obtain ⟨coef, D, Pr, w, m, base, k, X, v, g, t, -, -, -, -, -, hD, hPr, hww, hbase, hv, hl, hs', hnn, h0, hst, hk⟩ :=
    lme_ls hM.adm hsr hls hM.kind hM.keys hloss (by simp [e2]) hfit
  obtain ⟨b0, g0, hb0, -, hX0⟩ := h0 fun h => hM.init h hsr
  have hk0 := hk (by omega) hit
  obtain ⟨gr, vr, hgr, hvr, hgl, hD'⟩ := lmeGroups_table hP
  have hD' := hD.symm.trans hD'
  cases hPr.symm.trans (show lmePriorFor M.prior P = .ok .nonInformative by rw [hpr]; rfl)
  rw [hreg] at hbase hww
  cases hbase
  have hww := asVec_ok.1 hww
  have hb0 := asVec_ok.1 hb0
  obtain ⟨gb, gg, hgb, ht, hts, hprox, -⟩ := hst 0 hk0
  have hv0 := hv 0 (by omega)
  have hv1 := hv 1 (by omega)
  have hgr : gr = 0 := by
    have : labelIdx (p := 3) ["group", "fixed", "variance"] (· = GROUP) = [0] := by decide
    rw [this] at hgr
    simpa using hgr.symm
  have hvr : vr = 2 := by
    have : labelIdx (p := 3) ["group", "fixed", "variance"] (· = VARIANCE) = [2] := by decide
    rw [this] at hvr
    simpa using hvr.symm
  subst hgr hvr hx hy
  rw [one_table hF hR] at hD'
  cases hD'
  refine ⟨_, _, P, L, c, (List.range (k + 1)).map fun i => (v i : WithTop ℝ) + g i, by simpa using hk0, hP, hfit,
    by rw [hl]; simp [Function.comp_def], ?_⟩
  simp only [List.getElem_map, List.getElem_range]
  exact cad_increase hl0 hr0 heps rfl hF hR ht hts hs (by rw [hww]; simp [e2]) hb0 hX0 hgb hprox hv0.1 hv1.1 hv0.2.2 hv1.2.2

/-- Non-vacuity: the default step is short enough for the threshold 5 and strength 1. -/
example : ∃ (x : Matrix (Fin 1) (Fin 3) ℝ) (y : Vec ℝ 1) (P : LmeProblem ℝ) (L : Logger (PyVal ℝ (P.numFixed + P.numRandom)))
    (c : LmeCoef) (losses : List (WithTop ℝ)) (h1 : 1 < losses.length),
    lmeFromXY x (some y) none ["group", "fixed", "variance"] false false none none = .ok P ∧
    lmeFitProblem (stepModel (.cad 5 1)) none P { beta := some [5], feWeights := some [3] } = (.ok L, some c) ∧
    L.get "loss" = .ok (.list (losses.map PyVal.num)) ∧ losses[0] < losses[1] :=
  C100_cad_weights_violated _ 5 1 (by norm_num) (by norm_num) (by norm_num [stepModel, exModel, LmeModelCfg.step, LmeReg.lam?]) rfl
    (stepModel_robust _ (by norm_num [LmeReg.Admissible]) (by simp)) rfl rfl rfl (by norm_num [stepModel, exModel])
    (by change _ ∈ ["converged", "loss", "step_len"]; decide)

/-- The same with weight 1, from slightly below `rho` to the same distance above it: prox keeps the point, not charging the penalty that has been added. -/
theorem cad_cross {rho lam eps s d y : ℝ} (heps : 0 ≤ eps) (hs : 0 < s) (hd0 : 0 < d) (hdr : d < rho)
    (hd : d * (2 * eps + 4 / s) < lam) (hy : y = rho - d + (eps * (rho + d) + 2 * d / s))
    {X0 X1 : Vec ℝ (1 + 0)} (hX0 : X0 0 = rho - d) {gb : Vec ℝ 1} {gg : Vec ℝ 0} (hgb : gb 0 = -(y - (rho - d))) {w : Vec ℝ (1 + 0)} (hw : w 0 = 1)
    (h : (wrapReg 1 0 eps (cadRegularizer rho lam (some w))).prox (fun j => X0 j - s * joinX gb gg j) s = .ok X1) :
    X1 0 = rho + d ∧ 1 / 2 * (y - (rho - d)) ^ 2 + (eps / 2 * (rho - d) ^ 2 + lam * (rho - d)) <
      1 / 2 * (y - X1 0) ^ 2 + (eps / 2 * X1 0 ^ 2 + lam * rho) := by
  have hc : 0 < 1 + s * eps := by positivity
  have hj : joinX gb gg (0 : Fin (1 + 0)) = -(y - (rho - d)) := by rw [← hgb]; rfl
  have hX1 : X1 0 = rho + d := by
    unfold wrapReg positiveQuadrant elastic cadRegularizer at h
    simp only [Except.ok.injEq] at h
    rw [← h]
    simp only [positiveMask]
    simp only [hX0, hj, hw]
    have e1 : (rho - d - s * -(y - (rho - d))) / (1 + s * eps) = rho + d := by
      rw [hy]
      field_simp
      ring
    simp only [Fin.coe_ofNat_eq_mod, Nat.zero_mod, decide_false, if_false, Nat.reduceLeDiff, Bool.false_eq_true]
    rw [e1, if_neg]
    rintro ⟨h1, -⟩
    rw [abs_of_pos (by linarith)] at h1
    linarith
  refine ⟨hX1, ?_⟩
  rw [hX1, hy]
  obtain ⟨c, hc⟩ : ∃ c, c = 2 * d / s := ⟨_, rfl⟩
  have h1 : d * (2 * eps + 4 / s) = 2 * eps * d + 2 * c := by rw [hc]; ring
  rw [h1] at hd
  rw [← hc]
  nlinarith [mul_pos hd0 (sub_pos.2 hd), mul_pos hd0 hd0]

theorem cad_cross_increase {rho lam eps s d y : ℝ} (heps : 0 ≤ eps) (hs : 0 < s) (hs1 : s ≤ 1) (hd0 : 0 < d) (hdr : d < rho)
    (hd : d * (2 * eps + 4 / s) < lam) (hy : y = rho - d + (eps * (rho + d) + 2 * d / s)) {F R : ℕ} (hF : F = 1) (hR : R = 0)
    {t : ℝ} {X0 X1 w : Vec ℝ (F + R)} (hw : List.ofFn w = [1]) {b0 : Vec ℝ F} {g0 : Vec ℝ R}
    (hb0 : List.ofFn b0 = [rho - d]) (hX0 : X0 = joinX b0 g0) {gb : Vec ℝ F} {gg : Vec ℝ R}
    (hgb : lmeGradientBeta [oneGroup y F R] .nonInformative (xBeta X0) (xGamma X0) = .ok gb)
    (h : (wrapReg F R eps (cadRegularizer rho lam (some w))).prox (fun j => X0 j - t * joinX gb gg j) t = .ok X1) {v0 v1 : ℝ}
    (hfirst : t = s ∨ ∃ z, (wrapReg F R eps (cadRegularizer rho lam (some w))).prox (fun j => X0 j - s * joinX gb gg j) s = .ok z ∧
      lmeLoss [oneGroup y F R] .nonInformative (xBeta z) (xGamma z) = .ok (lossOrZero [oneGroup y F R] .nonInformative z) ∧
      ¬ SufficientDecrease (lossOrZero [oneGroup y F R] .nonInformative) (-joinX gb gg) s X0 z)
    {g0' g1' : WithTop ℝ} (hv0 : lmeLoss [oneGroup y F R] .nonInformative (xBeta X0) (xGamma X0) = .ok v0)
    (hv00 : v0 = lossOrZero [oneGroup y F R] .nonInformative X0)
    (hv1 : lmeLoss [oneGroup y F R] .nonInformative (xBeta X1) (xGamma X1) = .ok v1)
    (hg0 : (wrapReg F R eps (cadRegularizer rho lam (some w))).value X0 = .ok g0')
    (hg1 : (wrapReg F R eps (cadRegularizer rho lam (some w))).value X1 = .ok g1') :
    (v0 : WithTop ℝ) + g0' < (v1 : WithTop ℝ) + g1' := by
  subst hF hR
  have hw0 : w 0 = 1 := by simpa using hw
  have hb : b0 0 = rho - d := by simpa using hb0
  have hX : X0 0 = rho - d := by rw [hX0, ← hb]; rfl
  have hxb : ∀ X : Vec ℝ (1 + 0), xBeta X 0 = X 0 := fun X => rfl
  have hgb' : gb 0 = -(y - (rho - d)) := by rw [gradientBeta_one hgb, hxb, hX]
  have hj : joinX gb gg (0 : Fin (1 + 0)) = -(y - (rho - d)) := by rw [← hgb']; rfl
  have hq : ∀ {X : Vec ℝ (1 + 0)} {v : ℝ}, lmeLoss [oneGroup y 1 0] .nonInformative (xBeta X) (xGamma X) = .ok v → v = 1 / 2 * (y - X 0) ^ 2 := by
    intro X v hv
    obtain ⟨-, rfl⟩ := lmeLoss_ok.1 hv
    rw [marginalNLL_one, hxb]
    simp [LmeInstPrior.loss]
  have ht : t = s := by
    refine hfirst.resolve_right ?_
    rintro ⟨z, -, hz, hn⟩
    apply hn
    unfold SufficientDecrease
    rw [hq hz, ← hv00, hq hv0, hX]
    have e1 : ∑ i, (-joinX gb gg) i * (z i - X0 i) = (y - (rho - d)) * (z 0 - (rho - d)) := by
      change ∑ i : Fin 1, (-joinX gb gg) i * (z i - X0 i) = _
      rw [Fin.sum_univ_one]
      change -joinX gb gg 0 * (z 0 - X0 0) = _
      rw [hj, hX]; ring
    have e2 : ∑ i, (z i - X0 i) ^ 2 = (z 0 - (rho - d)) ^ 2 := by
      change ∑ i : Fin 1, (z i - X0 i) ^ 2 = _
      rw [Fin.sum_univ_one]
      change (z 0 - X0 0) ^ 2 = _
      rw [hX]
    rw [e1, e2]
    have e3 : (z 0 - (rho - d)) ^ 2 / 2 ≤ (z 0 - (rho - d)) ^ 2 / (2 * s) :=
      div_le_div_of_nonneg_left (sq_nonneg _) (by positivity) (by linarith)
    linarith
  subst ht
  obtain ⟨hX1, hlt⟩ := cad_cross heps hs hd0 hdr hd hy hX hgb' hw0 h
  have hval : ∀ X : Vec ℝ (1 + 0), (wrapReg 1 0 eps (cadRegularizer rho lam (some w))).value X
      = .ok ((eps / 2 * X 0 ^ 2 + lam * min |X 0| rho : ℝ) : WithTop ℝ) := by
    intro X
    rw [wrapReg_value_eq (h := fun i u => lam * min (w i * |u|) rho) fun u => by rw [← Finset.mul_sum]; rfl]
    unfold fullPenalty
    rw [if_neg (by rintro ⟨j, -⟩; exact j.elim0)]
    congr 2
    change eps / 2 * ∑ i : Fin 1, X i ^ 2 + ∑ i : Fin 1, lam * min (w i * |X i|) rho = _
    simp [hw0]
  rw [hval] at hg0 hg1
  cases hg0
  cases hg1
  rw [hq hv0, hq hv1, ← WithTop.coe_add, ← WithTop.coe_add, WithTop.coe_lt_coe]
  rw [hX1] at hlt ⊢
  rw [hX, abs_of_pos (by linarith), abs_of_pos (by linarith), min_eq_left (by linarith), min_eq_right (by linarith)]
  exact hlt

/-- **C100** fails for the CAD penalty: for every plain model with line search and steps of at most 1 (the default is `1 / (lam + 1)`) there is a problem and a start
whose fit with the default weights logs, right at the first iteration, a loss larger than the initial one (`CADRegularizer.prox` keeps every point beyond `rho`,
`regularizers.py:540-548`, also where soft thresholding is cheaper). -/
theorem C100_cad_violated (M : LmeModelCfg) (rho lam : ℝ) (hl0 : 0 < lam) (hr0 : 0 < rho) (hs : M.step ≤ 1)
    (hreg : M.reg = .cad rho lam) (hM : M.Robust)
    (hsr : M.sr3 = none) (hls : M.stepping = "line-search") (hpr : M.prior = none) (hit : 0 < M.maxIter)
    (hloss : "loss" ∈ M.loggerKeys) :
    ∃ (x : Matrix (Fin 1) (Fin 3) ℝ) (y : Vec ℝ 1) (P : LmeProblem ℝ) (L : Logger (PyVal ℝ (P.numFixed + P.numRandom))) (c : LmeCoef)
      (losses : List (WithTop ℝ)) (start : ℝ) (h1 : 1 < losses.length),
      lmeFromXY x (some y) none ["group", "fixed", "variance"] false false none none = .ok P ∧
      lmeFitProblem M none P { beta := some [start] } = (.ok L, some c) ∧
      L.get "loss" = .ok (.list (losses.map PyVal.num)) ∧ losses[0] < losses[1] := by
  have heps := hM.adm.eps
  have hs0 : 0 < M.step := hM.adm.step_pos
  obtain ⟨d, hd0, hdr, hd⟩ : ∃ d, 0 < d ∧ d < rho ∧ d * (2 * M.elasticEps + 4 / M.step) < lam := by
    have hb : 0 < 2 * M.elasticEps + 4 / M.step := by positivity
    refine ⟨min (rho / 2) (lam / (2 * (2 * M.elasticEps + 4 / M.step))), by positivity, ?_, ?_⟩
    · exact (min_le_left _ _).trans_lt (by linarith)
    · refine (mul_le_mul_of_nonneg_right (min_le_right _ _) hb.le).trans_lt ?_
      rw [div_mul_eq_mul_div, div_lt_iff₀ (by positivity)]
      nlinarith
  obtain ⟨x, hx⟩ : ∃ x : Matrix (Fin 1) (Fin 3) ℝ, x = !![0, 1, 1] := ⟨_, rfl⟩
  obtain ⟨y, hy⟩ : ∃ y : Vec ℝ 1, y = fun _ => rho - d + (M.elasticEps * (rho + d) + 2 * d / M.step) := ⟨_, rfl⟩
  obtain ⟨P, hP⟩ : ∃ P, lmeFromXY x (some y) none ["group", "fixed", "variance"] false false none none = .ok P :=
    lmeFromXY_succeeds x (some y) none _ false false none none 0 2 (by decide) (by decide) rfl (by decide)
      (by simp) (by intro r; fin_cases r; simp [hx]) (by intro r; fin_cases r; exact ⟨0, by simp [hx]⟩) (.inl rfl) (by simp) _ _ rfl rfl
  obtain ⟨_, _, feW, reW, -, -, hlen, -, -, -, -, -, hf, hr, hPe⟩ := lmeFromXY_ok x (some y) none _
    false false none none P hP
  have e1 : P.feWeights = [1] := by rw [hPe]; cases hf; rfl
  have e2 : P.reWeights = [] := by rw [hPe]; cases hr; rfl
  obtain ⟨L, c, hfit, -, -⟩ := C83_fit_problem_returns M hM none x y none _ false false none none P hP
    (by
      intro v hv r
      fin_cases v
      · exact absurd hv (by decide)
      · exact absurd hv (by decide)
      · fin_cases r; simp [hx]) ⟨.nonInformative, by rw [hpr]; rfl⟩ { beta := some [rho - d] }
    (by rintro b hb; cases hb; rfl) (by simp)
    (by rintro w rfl; simp only [Option.getD_none, e1]; exact ⟨rfl, by simp⟩)
    (by rintro w rfl; simp only [Option.getD_none, e2]; exact ⟨rfl, by simp⟩)
  have hF := numFixed_eq P false false (by rw [hPe])
  have hR := numRandom_eq P false false (by rw [hPe])
  have hcl : P.columnLabels = ["group", "fixed", "variance"] := by rw [hPe]
  rw [hcl] at hF hR
  have hF : P.numFixed = 1 := hF.trans (by decide)
  have hR : P.numRandom = 0 := hR.trans (by decide)
  obtain ⟨coef, D, Pr, w, m, base, k, X, v, g, t, -, -, -, -, -, hD, hPr, hww, hbase, hv, hl, hs', hnn, h0, hst, hk⟩ :=
    lme_ls hM.adm hsr hls hM.kind hM.keys hloss (by simp [e1, e2]) hfit
  obtain ⟨b0, g0, hb0, -, hX0⟩ := h0 fun h => hM.init h hsr
  have hk0 := hk (by omega) hit
  obtain ⟨gr, vr, hgr, hvr, hgl, hD'⟩ := lmeGroups_table hP
  have hD' := hD.symm.trans hD'
  cases hPr.symm.trans (show lmePriorFor M.prior P = .ok .nonInformative by rw [hpr]; rfl)
  rw [hreg] at hbase hww
  cases hbase
  have hww := asVec_ok.1 hww
  have hb0 := asVec_ok.1 hb0
  obtain ⟨gb, gg, hgb, ht, hts, hprox, -, hfirst⟩ := hst 0 hk0
  have hv0 := hv 0 (by omega)
  have hv1 := hv 1 (by omega)
  have hgr : gr = 0 := by
    have : labelIdx (p := 3) ["group", "fixed", "variance"] (· = GROUP) = [0] := by decide
    rw [this] at hgr
    simpa using hgr.symm
  have hvr : vr = 2 := by
    have : labelIdx (p := 3) ["group", "fixed", "variance"] (· = VARIANCE) = [2] := by decide
    rw [this] at hvr
    simpa using hvr.symm
  subst hgr hvr hx hy
  rw [one_table hF hR] at hD'
  cases hD'
  refine ⟨_, _, P, L, c, (List.range (k + 1)).map fun i => (v i : WithTop ℝ) + g i, rho - d, by simpa using hk0, hP, hfit,
    by rw [hl]; simp [Function.comp_def], ?_⟩
  simp only [List.getElem_map, List.getElem_range]
  exact cad_cross_increase heps hs0 hs hd0 hdr hd rfl hF hR (by rw [hww]; simp [e1, e2]) hb0 hX0 hgb hprox hfirst hv0.1 hv0.2.1 hv1.1 hv0.2.2 hv1.2.2

/-- Non-vacuity: default settings, threshold 2 and strength 1. -/
example : ∃ (x : Matrix (Fin 1) (Fin 3) ℝ) (y : Vec ℝ 1) (P : LmeProblem ℝ) (L : Logger (PyVal ℝ (P.numFixed + P.numRandom)))
    (c : LmeCoef) (losses : List (WithTop ℝ)) (start : ℝ) (h1 : 1 < losses.length),
    lmeFromXY x (some y) none ["group", "fixed", "variance"] false false none none = .ok P ∧
    lmeFitProblem (stepModel (.cad 2 1)) none P { beta := some [start] } = (.ok L, some c) ∧
    L.get "loss" = .ok (.list (losses.map PyVal.num)) ∧ losses[0] < losses[1] :=
  C100_cad_violated _ 2 1 (by norm_num) (by norm_num) (by norm_num [stepModel, exModel, LmeModelCfg.step, LmeReg.lam?]) rfl
    (stepModel_robust _ (by norm_num [LmeReg.Admissible]) (by simp)) rfl rfl rfl (by norm_num [stepModel, exModel])
    (by change _ ∈ ["converged", "loss", "step_len"]; decide)

/-- **C100** for the CAD penalty with weights 0 and 1: in every successful fit of a plain model with line search the logged loss does not increase at an iteration
(longer than `1e-14`) after which no penalised coefficient lies in the band of width `t lam / 2` beyond `rho`. Missing: the band (`C100_cad_violated`) and other weights
(`C100_cad_weights_violated`). -/
theorem C100_cad_partial (M : LmeModelCfg) (rho lam : ℝ) (hr0 : 0 ≤ rho) (hreg : M.reg = .cad rho lam) (hM : M.Admissible) (hsr : M.sr3 = none)
    (hls : M.stepping = "line-search") (hkind : M.loggerKind = .tuple) (hk : M.loggerKeys.Nodup)
    (hloss : "loss" ∈ M.loggerKeys) (hsl : "step_len" ∈ M.loggerKeys) (st : LmeState) (P : LmeProblem ℝ) (a : LmeFitArgs)
    (hw : ∀ v ∈ a.feWeights.getD P.feWeights ++ a.reWeights.getD P.reWeights, v = 0 ∨ v = 1)
    (c : LmeState) (L : Logger (PyVal ℝ (P.numFixed + P.numRandom))) (h : lmeFitProblem M st P a = (.ok L, c)) :
    ∃ (coef : LmeCoef) (w : Vec ℝ (P.numFixed + P.numRandom)) (k : ℕ) (X : ℕ → Vec ℝ (P.numFixed + P.numRandom)) (losses : List (WithTop ℝ)) (steps : List ℝ),
      c = some coef ∧ coef.beta = List.ofFn (xBeta (X k)) ∧ coef.gamma = List.ofFn (xGamma (X k)) ∧
      List.ofFn w = a.feWeights.getD P.feWeights ++ a.reWeights.getD P.reWeights ∧
      L.get "loss" = .ok (.list (losses.map PyVal.num)) ∧
      L.get "step_len" = .ok (.list (steps.map fun t : ℝ => PyVal.num (t : WithTop ℝ))) ∧ losses.length = k + 1 ∧ steps.length = k ∧
      ∀ i (hi : i < steps.length) (h0 : i < losses.length) (h1 : i + 1 < losses.length),
        (∀ j, w j = 1 → ¬ (rho < |X (i + 1) j| ∧ |X (i + 1) j| < rho + steps[i] * lam / 2)) →
        losses[i + 1] ≤ losses[i] ∨ steps[i] ≤ 1 / 10 ^ 14 := by
  obtain ⟨coef, D, Pr, w, m, base, k, X, v, g, t, hc, -, hwn, hb, hg, hD, hPr, hww, hbase, hv, hl, hs, hnn, h0, hst, hk0⟩ :=
    lme_ls hM hsr hls hkind hk hloss (fun v hv => by rcases hw v hv with h | h <;> rw [h] <;> norm_num) h
  have hadm := hM.reg
  rw [hreg] at hbase hww hadm
  cases hbase
  have hww := asVec_ok.1 hww
  have hw01 : ∀ i, w i = 0 ∨ w i = 1 := fun i => hw _ (hww ▸ List.mem_ofFn.2 ⟨i, rfl⟩)
  have hl0 : 0 ≤ lam := hadm
  refine ⟨coef, w, k, X, (List.range (k + 1)).map fun i => (v i : WithTop ℝ) + g i, (List.range k).map t, hc, hb, hg, hww,
    by rw [hl]; simp [Function.comp_def], by rw [hs hsl]; simp [Function.comp_def], by simp, by simp, fun i hi h0 h1 => ?_⟩
  simp only [List.length_map, List.length_range] at hi
  simp only [List.getElem_map, List.getElem_range]
  intro hband
  obtain ⟨gb, gg, -, ht, hts, hp, hsd, -⟩ := hst i hi
  have hval : ∀ u, (wrapReg P.numFixed P.numRandom M.elasticEps (cadRegularizer rho lam (some w))).value u =
      .ok (fullPenalty _ _ M.elasticEps (fun i u => lam * min (w i * |u|) rho) u) :=
    fun u => wrapReg_value_eq (fun u => by rw [← Finset.mul_sum]; rfl) u
  have hg : ∀ i ≤ k, g i = fullPenalty _ _ M.elasticEps (fun i u => lam * min (w i * |u|) rho) (X i) := fun i hi =>
    Except.ok.inj ((hv i hi).2.2.symm.trans (hval _))
  rw [(hv i hi.le).2.1, (hv (i + 1) hi).2.1, hg i hi.le, hg (i + 1) hi]
  refine step_descent ht (wrapReg_prox_min hM.eps ht (fun j a b hab => ?_) ?_ hp) hsd
  · exact mul_le_mul_of_nonneg_left (min_le_min_right _ (mul_le_mul_of_nonneg_left hab (hwn j))) hl0
  · have h1 : (1 : ℝ) ≤ 1 + t i * M.elasticEps := by
      have := mul_nonneg ht.le hM.eps
      linarith
    obtain ⟨y, hy⟩ : ∃ y : Vec ℝ (P.numFixed + P.numRandom), y = fun j => (if positiveMask P.numFixed P.numRandom j = true
        then clip0 (X i j - t i * joinX gb gg j) else X i j - t i * joinX gb gg j) / (1 + t i * M.elasticEps) := ⟨_, rfl⟩
    have hle : t i / (1 + t i * M.elasticEps) ≤ t i := div_le_self ht.le h1
    have hXy : ∀ j, X (i + 1) j = if |y j| ≤ rho ∧ 0 < w j then soft (w j * (t i / (1 + t i * M.elasticEps)) * lam) (y j) else y j := by
      intro j
      rw [hy]
      unfold wrapReg positiveQuadrant elastic cadRegularizer at hp
      simp only [Except.ok.injEq] at hp
      rw [← hp]
    rw [← hy]
    obtain ⟨g', hg', z, hz, hex⟩ := (C05_cad_exact_partial rho lam (t i / (1 + t i * M.elasticEps)) y hr0 hl0 (div_nonneg ht.le (by linarith))).1 w hw01 (by
      intro j hj
      by_contra hn
      push Not at hn
      apply hband j hj
      rw [hXy j, if_neg fun h => absurd h.1 (not_le.2 hn.1)]
      refine ⟨hn.1, hn.2.trans_le ?_⟩
      have := mul_le_mul_of_nonneg_right hle hl0
      linarith)
    refine ⟨z, hz, ?_⟩
    have : g' = fun u => ((∑ i, lam * min (w i * |u i|) rho : ℝ) : WithTop ℝ) := by
      funext u
      have h2 : (cadRegularizer rho lam (some w)).value u = .ok ((∑ i, lam * min (w i * |u i|) rho : ℝ) : WithTop ℝ) := by
        rw [← Finset.mul_sum]; rfl
      exact Except.ok.inj ((hg' u).symm.trans h2)
    rwa [this] at hex

/-- Non-vacuity of the partial statement: the example problem fitted with CAD. -/
example : ∃ (P : LmeProblem ℝ) (L : Logger (PyVal ℝ (P.numFixed + P.numRandom))) (c : LmeCoef) (losses : List (WithTop ℝ)),
    lmeFitProblem (stepModel (.cad 2 1)) none P {} = (.ok L, some c) ∧ L.get "loss" = .ok (.list (losses.map PyVal.num)) := by
  have hr : (LmeReg.cad 2 1).Admissible := by norm_num [LmeReg.Admissible]
  have hs : ∀ rho sigma lam, LmeReg.cad 2 1 ≠ .scad rho sigma lam := by simp
  have hR := stepModel_robust _ hr hs
  obtain ⟨P, L, c, hP, e1, e2, h⟩ := stepModel_fit _ hr hs
  obtain ⟨coef, w, k, X, losses, steps, -, -, -, -, h1, -⟩ := C100_cad_partial _ 2 1 (by norm_num) rfl hR.adm rfl rfl rfl hR.keys
    (by change _ ∈ ["converged", "loss", "step_len"]; decide) (by change _ ∈ ["converged", "loss", "step_len"]; decide)
    none P {} (by simp [e1, e2]) _ L h
  exact ⟨P, L, c, losses, h, h1⟩

end Verif
