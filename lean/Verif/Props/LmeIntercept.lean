import Verif.Props.LmeCounts
import Verif.Props.LmeColumns

/-!
# Intercepts and the relaxed update of the practical mode: properties C91, C92 and C95
-/

namespace Verif

open Matrix

noncomputable section

variable {N k p q : ℕ}

/-! ## C91: the intercept is regularized -/

/-- **C91** is violated: `from_x_y` attaches a weight of one to every effect, so the code that exempts the intercept
(`lme/models.py:203-206`) is never reached. An L0 model with no budget for fixed effects sets all of them to zero,
the intercept (the first one) included, on every table. -/
theorem C91_intercept_violated (M : LmeModelCfg) (ng : Option ℤ) (sort : NpSort) (hreg : M.reg = .l0 (some 0) ng sort)
    (hpgd : ∀ s, M.sr3 = some s → s.practical = false) (hmax : 1 ≤ M.maxIter) (st : LmeState)
    (x : Matrix (Fin N) (Fin k) ℝ) (y : Vec ℝ N) (labels : List String) (fri : Bool)
    (columns mustRe : Option (List String)) (a : LmeFitArgs) (ha : a.feWeights = none) (c : LmeCoef)
    (h : lmeFit M st x y (some labels) true fri columns none mustRe a = (.ok (), some c)) :
    c.beta.head? = some 0 ∧ ∀ v ∈ c.beta, v = 0 := by
  obtain ⟨P, c', vec, L0, hP, hc, hcore⟩ := lmeFit_ok h
  cases hc
  obtain ⟨_, _, feW, reW, -, -, hlen, -, -, -, -, -, hf, -, hPe⟩ :=
    lmeFromXY_ok x (some y) columns labels true fri none mustRe P hP
  rw [regWeightsOf_none] at hf
  have hw : P.feWeights = List.replicate (fixedCount labels true) 1 := by
    rw [hPe, fixedCount_eq, ← labelIdx_length labels hlen]
    exact (Except.ok.inj hf).symm
  have hb := (C74_l0 M (some 0) ng sort hreg hpgd hmax st x y labels true fri columns none mustRe a c P hP
    (by rw [ha, Option.getD_none, hw, List.length_replicate]) h).1 0 rfl
  rw [ha, Option.getD_none, hw, List.countP_replicate] at hb
  have h0 : c.beta.countP (· ≠ 0) = 0 := by
    simp at hb
    simpa using hb
  rw [List.countP_eq_zero] at h0
  have hall : ∀ v ∈ c.beta, v = 0 := fun v hv => by simpa using h0 v hv
  obtain ⟨c', hc', hcons, -⟩ := C82_fit_consistent M st x y labels true fri columns none mustRe a _ h
  cases hc'
  have hl : c.beta.length = fixedCount labels true := hcons.1
  have : 0 < c.beta.length := by rw [hl]; unfold fixedCount; simp
  refine ⟨?_, hall⟩
  cases hb : c.beta with
  | nil => rw [hb] at this; simp at this
  | cons v vs => rw [hb] at hall; simp [hall v (by simp)]

/-- The example table with an intercept: both fixed effects of an L0 model are zero. -/
example (sort : NpSort) : ∃ c, lmeFit (exModel none 100 (.l0 (some 0) (some 1) sort)) none exTab ![26, 20] (some exTabLabels) true false
    none none none {} = (.ok (), some c) ∧ c.beta.length = 2 ∧ ∀ v ∈ c.beta, v = 0 := by
  obtain ⟨P, hP⟩ := exTab_ok' true false ![26, 20]
  obtain ⟨c, hc, -⟩ := C83_fit_returns _ (exModel_robust none (by simp) 100 (.l0 (some 0) (some 1) sort) trivial (by simp)) rfl none exTab
    ![26, 20] exTabLabels true false P hP exTab_positive none none (by simp) (by simp) false
  obtain ⟨c', h', hcons, -⟩ := C82_fit_consistent _ _ _ _ _ _ _ _ _ _ _ _ hc
  cases h'
  exact ⟨c, hc, hcons.1, (C91_intercept_violated _ (some 1) sort rfl (by simp [exModel]) (by simp [exModel]) none _ _ _ _ _ _ _ rfl c hc).2⟩

/-- A prox of any of the regularizers leaves an effect with weight zero alone, up to the factor of the elastic term. -/
theorem build_untouched (r : LmeReg) (m : List ℤ) (w : Vec ℝ (p + q)) (base : Regularizer ℝ (p + q))
    (hb : r.build p q m w = .ok base) (eps alpha : ℝ) (x z : Vec ℝ (p + q)) (hz : (wrapReg p q eps base).prox x alpha = .ok z)
    (i : Fin p) (hi : w (Fin.castAdd q i) = 0) :
    z (Fin.castAdd q i) = x (Fin.castAdd q i) / (1 + alpha * eps) := by
  have hm : positiveMask p q (Fin.castAdd q i) = false := by simp [positiveMask]
  unfold wrapReg positiveQuadrant elastic at hz
  simp only at hz
  have key : ∀ y : Vec ℝ (p + q), ∀ t, base.prox y t = .ok z → z (Fin.castAdd q i) = y (Fin.castAdd q i) := by
    intro y t h
    cases r with
    | dummy => cases hb; cases h; rfl
    | l0 nb ng sort =>
      cases hb
      obtain ⟨kb, kg, e⟩ : ∃ kb kg, (⟨nb, ng, false⟩ : L0LmeCfg).instantiate p q = ⟨some kb, some kg, false⟩ := by
        unfold L0LmeCfg.instantiate
        cases nb <;> cases ng <;> exact ⟨_, _, rfl⟩
      rw [e] at h
      obtain ⟨z', hz', -, -, hu, -⟩ := C14_l0lme_budget_hierarchy kb kg false (fun i => mapEntry q m i)
        ⟨xBeta w, xGamma w, sort.sub p (xBeta w), sort.sub q (xGamma w)⟩ (sort.all p) y t
      cases hz'.symm.trans h
      exact hu i hi
    | l1 lam => cases hb; exact (C11_weight_zero_untouched w _ hi lam 0 0 t y z).1 h
    | cad rho lam => cases hb; exact (C11_weight_zero_untouched w _ hi lam rho 0 t y z).2.1 h
    | scad rho sigma lam =>
      unfold LmeReg.build scadInit at hb
      simp only at hb
      split_ifs at hb
      · cases hb; exact (C11_weight_zero_untouched w _ hi lam rho sigma t y z).2.2.1 h
      · cases hb
  rw [key _ _ hz]
  simp [hm]

/-- The part of **C91** that holds: with `must_include_fe` naming `intercept` (and column names given) the fixed
intercept has weight zero; the prox of every model then leaves it alone up to the factor of the elastic term. Missing:
the default, where the weight is one (`C91_intercept_violated`). -/
theorem C91_intercept_partial (x : Matrix (Fin N) (Fin k) ℝ) (y : Option (Vec ℝ N)) (cols labels : List String) (fri : Bool)
    (hc : cols.length = k) (must : List String) (hm : "intercept" ∈ must) (mustRe : Option (List String)) (P : LmeProblem ℝ)
    (h : lmeFromXY x y (some cols) labels true fri (some must) mustRe = .ok P) :
    P.feWeights.head? = some 0 ∧ P.feWeights.length = P.numFixed ∧
    ∀ (r : LmeReg) (m : List ℤ) (w : Vec ℝ (P.numFixed + P.numRandom)) (reW : List ℝ) (base : Regularizer ℝ (P.numFixed + P.numRandom)),
      r ≠ .dummy → r.weights P.numFixed P.numRandom (P.feWeights ++ reW) = .ok w → r.build P.numFixed P.numRandom m w = .ok base →
      ∀ (eps alpha : ℝ) (x z : Vec ℝ (P.numFixed + P.numRandom)), (wrapReg P.numFixed P.numRandom eps base).prox x alpha = .ok z →
        ∀ i : Fin P.numFixed, i.val = 0 → xBeta z i = xBeta x i / (1 + alpha * eps) := by
  obtain ⟨g, v, feW, reW, hg, hv, hlen, -, -, -, -, -, hfe, -, hPe⟩ := lmeFromXY_ok x y _ labels true fri _ mustRe P h
  have hF := numFixed_eq P true fri (by rw [hPe])
  have hcl : P.columnLabels = labels := by rw [hPe]
  have hw : P.feWeights = feW := by rw [hPe]
  have := regWeightsOf_cons must must (List.ne_nil_of_mem hm) labels cols hlen hc isFixed _ feW hfe
  rw [if_pos hm] at this
  have hhead : P.feWeights.head? = some 0 := by rw [hw, this]; rfl
  refine ⟨hhead, ?_, ?_⟩
  · rw [hw, this, ← names_idx labels cols hlen hc, hF, hcl]
    simp [labelIdx_length labels hlen]
  · intro r m w reW' base hr hws hb eps alpha x' z hz i hi
    refine build_untouched r m w base hb eps alpha x' z hz i ?_
    have hl : ∀ (hh : (Fin.castAdd P.numRandom i).val < (P.feWeights ++ reW').length), (P.feWeights ++ reW')[(Fin.castAdd P.numRandom i).val] = 0 := by
      rw [hw, this]
      intro hh
      simp [hi]
    cases r with
    | dummy => exact absurd rfl hr
    | l0 =>
      unfold LmeReg.weights at hws
      simp only at hws
      split_ifs at hws with hh
      · cases hws
        exact hl _
    | scad =>
      unfold LmeReg.weights at hws
      simp only at hws
      split_ifs at hws with hh
      · cases hws
        exact hl _
    | l1 =>
      unfold LmeReg.weights asVec at hws
      simp only at hws
      split_ifs at hws with hh
      · cases hws
        exact hl _
    | cad =>
      unfold LmeReg.weights asVec at hws
      simp only at hws
      split_ifs at hws with hh
      · cases hws
        exact hl _

/-- The example table with column names and a must-include list. -/
example : ∃ P, lmeFromXY exTab (some ![26, 20]) (some ["g", "a", "b", "v"]) exTabLabels true true (some ["intercept"]) none = .ok P ∧
    P.feWeights.head? = some 0 := by
  have hP : ∃ P, lmeFromXY exTab (some ![26, 20]) (some ["g", "a", "b", "v"]) exTabLabels true true (some ["intercept"]) none = .ok P := by
    refine lmeFromXY_succeeds exTab (some ![26, 20]) (some ["g", "a", "b", "v"]) exTabLabels true true (some ["intercept"]) none 0 3
      (by decide) (by decide) rfl (by decide) (by simp) ?_ ?_ (by simp) (by simp) [0, 1] [1, 1] ?_ ?_
    · intro r; fin_cases r <;> simp [exTab]
    · intro r; fin_cases r
      · exact ⟨1, by simp [exTab]⟩
      · exact ⟨0, by simp [exTab]⟩
    · have : labelIdx (p := 4) exTabLabels isFixed = [1] := by decide
      rw [this]
      simp [regWeightsOf]
    · have : labelIdx (p := 4) exTabLabels isRandom = [2] := by decide
      rw [this]
      rfl
  obtain ⟨P, hP⟩ := hP
  exact ⟨P, hP, (C91_intercept_partial exTab _ _ _ _ rfl ["intercept"] (by simp) _ P hP).1⟩

/-! ## C92: the step of the relaxed update -/

/-- Objective of the relaxed variables in the SR3 problem: distance to the coefficients with factor `ell`, and penalty. -/
def relaxedObjective {n : ℕ} (ell lam : ℝ) (b t : Vec ℝ n) : ℝ := ell / 2 * ∑ i, (t i - b i) ^ 2 + lam * ∑ i, |t i|

/-- Value of the relaxed fixed effects after an update by the practical mode with an L1 penalty. -/
theorem practical_tbeta (s : LmeSr3Cfg) (lam : ℝ) (iteration : ℕ) (hup : 0 < s.updateProxEvery)
    (hit : (iteration : ℤ) % s.updateProxEvery = 0) (beta : Vec ℝ p) (gamma : Vec ℝ q) (old : Vec ℝ p × Vec ℝ q) :
    ∃ tg, ipProx (s.ipPractical (wrapReg p q 0 (l1Regularizer lam (some fun _ => 1)))) iteration beta gamma old =
      .ok (fun i => soft lam (beta i), tg) := by
  unfold ipProx LmeSr3Cfg.ipPractical
  simp only
  rw [if_pos ⟨hup, hit⟩]
  obtain ⟨z, hz, hb⟩ : ∃ z, (wrapReg p q 0 (l1Regularizer lam (some fun _ => 1))).prox (joinX beta gamma) 1 = .ok z ∧
      xBeta z = fun i => soft lam (beta i) := by
    refine ⟨_, rfl, ?_⟩
    funext i
    simp [xBeta, joinX, positiveMask, not_le.2 i.2]
  rw [hz]
  exact ⟨xGamma z, by rw [← hb]; rfl⟩

/-- The one-dimensional inequality behind the relaxed update, with the factor `ell`. -/
theorem soft_strong_scaled (ell lam x u : ℝ) (hell : 0 < ell) (hlam : 0 ≤ lam) :
    ell / 2 * (soft (lam / ell) x - x) ^ 2 + lam * |soft (lam / ell) x| + ell / 2 * (u - soft (lam / ell) x) ^ 2 ≤
      ell / 2 * (u - x) ^ 2 + lam * |u| := by
  have h := mul_le_mul_of_nonneg_left (soft_strong (lam / ell) x u (by positivity)) hell.le
  have e : ∀ v : ℝ, ell * (lam / ell * v) = lam * v := fun v => by field_simp
  have e1 := e |soft (lam / ell) x|
  have e2 := e |u|
  rw [mul_add, mul_add, mul_add, e1, e2] at h
  linarith

/-- **C92** is violated: with `ell ≠ 1` the update of the practical mode does not minimise the objective in the relaxed
variables, at every point at which one coefficient exceeds both thresholds. -/
theorem C92_prox_violated (s : LmeSr3Cfg) (hell : 0 < s.ell) (h1 : s.ell ≠ 1) (lam : ℝ) (hlam : 0 < lam) (iteration : ℕ)
    (hup : 0 < s.updateProxEvery) (hit : (iteration : ℤ) % s.updateProxEvery = 0) (beta : Vec ℝ p) (gamma : Vec ℝ q)
    (old : Vec ℝ p × Vec ℝ q) (i : Fin p) (hi : lam ≤ |beta i|) (hi' : lam / s.ell ≤ |beta i|) :
    ∃ tb tg, ipProx (s.ipPractical (wrapReg p q 0 (l1Regularizer lam (some fun _ => 1)))) iteration beta gamma old = .ok (tb, tg) ∧
      ∃ t, relaxedObjective s.ell lam beta t < relaxedObjective s.ell lam beta tb := by
  obtain ⟨tg, h⟩ := practical_tbeta s lam iteration hup hit beta gamma old
  refine ⟨_, tg, h, Function.update (fun i => soft lam (beta i)) i (soft (lam / s.ell) (beta i)), ?_⟩
  unfold relaxedObjective
  have e1 : ∀ t : Vec ℝ p, s.ell / 2 * ∑ i, (t i - beta i) ^ 2 + lam * ∑ i, |t i| =
      ∑ i, (s.ell / 2 * (t i - beta i) ^ 2 + lam * |t i|) := by
    intro t
    rw [Finset.sum_add_distrib, Finset.mul_sum, Finset.mul_sum]
  rw [e1, e1]
  refine Finset.sum_lt_sum (fun j _ => ?_) ⟨i, Finset.mem_univ i, ?_⟩
  · by_cases hj : j = i
    · subst hj
      rw [Function.update_self]
      have := soft_strong_scaled s.ell lam (beta j) (soft lam (beta j)) hell hlam.le
      have h3 := mul_nonneg hell.le (sq_nonneg (soft lam (beta j) - soft (lam / s.ell) (beta j)))
      linarith
    · rw [Function.update_of_ne hj]
  · rw [Function.update_self]
    have hne : soft lam (beta i) ≠ soft (lam / s.ell) (beta i) := by
      have hlt : lam ≠ lam / s.ell := by
        intro hc
        rw [eq_div_iff hell.ne'] at hc
        exact h1 (mul_left_cancel₀ hlam.ne' (hc.trans (mul_one _).symm))
      have hp : 0 < lam / s.ell := by positivity
      rcases le_or_gt 0 (beta i) with hb | hb
      · rw [abs_of_nonneg hb] at hi hi'
        rcases soft_cases (beta i) hlam.le with ⟨g1, e⟩ | ⟨g1, e⟩ | ⟨g1, e⟩ <;>
        rcases soft_cases (beta i) hp.le with ⟨g2, e'⟩ | ⟨g2, e'⟩ | ⟨g2, e'⟩ <;> rw [e, e'] <;>
        (intro hc; first | exact hlt (by linarith) | exact hlt (by rw [abs_le] at *; linarith))
      · rw [abs_of_neg hb] at hi hi'
        rcases soft_cases (beta i) hlam.le with ⟨g1, e⟩ | ⟨g1, e⟩ | ⟨g1, e⟩ <;>
        rcases soft_cases (beta i) hp.le with ⟨g2, e'⟩ | ⟨g2, e'⟩ | ⟨g2, e'⟩ <;> rw [e, e'] <;>
        (intro hc; first | exact hlt (by linarith) | exact hlt (by rw [abs_le] at *; linarith))
    have := soft_strong_scaled s.ell lam (beta i) (soft lam (beta i)) hell hlam.le
    have hsq : 0 < (soft lam (beta i) - soft (lam / s.ell) (beta i)) ^ 2 := by
      have := sub_ne_zero.2 hne
      positivity
    have h3 := mul_pos hell hsq
    linarith

/-- The default `ell = 40` and `lam = 2` at coefficient 3. -/
example (old : Vec ℝ 1 × Vec ℝ 1) : ∃ tb tg, ipProx ((exSr3 true).ipPractical (wrapReg 1 1 0 (l1Regularizer 2 (some fun _ => 1)))) 1 ![3] ![1] old =
      .ok (tb, tg) ∧ ∃ t, relaxedObjective 40 2 ![3] t < relaxedObjective 40 2 ![3] tb :=
  C92_prox_violated (exSr3 true) (by norm_num [exSr3]) (by norm_num [exSr3]) 2 (by norm_num) 1 (by norm_num [exSr3]) (by simp [exSr3])
    ![3] ![1] old 0 (by norm_num) (by norm_num [exSr3])

/-- The part of **C92** that holds: with `ell = 1` the relaxed fixed effects are the only minimiser. Missing: other values
of `ell` (the default is 40). -/
theorem C92_prox_partial (s : LmeSr3Cfg) (hell : s.ell = 1) (lam : ℝ) (hlam : 0 ≤ lam) (iteration : ℕ)
    (hup : 0 < s.updateProxEvery) (hit : (iteration : ℤ) % s.updateProxEvery = 0) (beta : Vec ℝ p) (gamma : Vec ℝ q)
    (old : Vec ℝ p × Vec ℝ q) :
    ∃ tb tg, ipProx (s.ipPractical (wrapReg p q 0 (l1Regularizer lam (some fun _ => 1)))) iteration beta gamma old = .ok (tb, tg) ∧
      ∀ t, t ≠ tb → relaxedObjective s.ell lam beta tb < relaxedObjective s.ell lam beta t := by
  obtain ⟨tg, h⟩ := practical_tbeta s lam iteration hup hit beta gamma old
  refine ⟨_, tg, h, fun t ht => ?_⟩
  obtain ⟨i, hi⟩ := Function.ne_iff.1 ht
  unfold relaxedObjective
  rw [hell]
  have e1 : ∀ t : Vec ℝ p, (1 : ℝ) / 2 * ∑ i, (t i - beta i) ^ 2 + lam * ∑ i, |t i| =
      ∑ i, (1 / 2 * (t i - beta i) ^ 2 + lam * |t i|) := by
    intro t
    rw [Finset.sum_add_distrib, Finset.mul_sum, Finset.mul_sum]
  rw [e1, e1]
  refine Finset.sum_lt_sum (fun j _ => ?_) ⟨i, Finset.mem_univ i, ?_⟩
  · have := soft_strong lam (beta j) (t j) hlam
    have := sq_nonneg (t j - soft lam (beta j))
    linarith
  · have := soft_strong lam (beta i) (t i) hlam
    have h2 : 0 < (t i - soft lam (beta i)) ^ 2 := by
      have := sub_ne_zero.2 hi
      positivity
    linarith

example (old : Vec ℝ 1 × Vec ℝ 1) : ∃ tb tg, ipProx (({ exSr3 true with ell := 1 } : LmeSr3Cfg).ipPractical
      (wrapReg 1 1 0 (l1Regularizer 2 (some fun _ => 1)))) 1 ![3] ![1] old = .ok (tb, tg) ∧
      ∀ t, t ≠ tb → relaxedObjective 1 2 ![3] tb < relaxedObjective 1 2 ![3] t :=
  C92_prox_partial _ rfl 2 (by norm_num) 1 (by norm_num [exSr3]) (by simp [exSr3]) ![3] ![1] old

/-! ## C95: criteria of models with an intercept -/

/-- **C95** is violated: `get_information_criterion` raises for every model fitted with a fixed intercept, whatever the
criterion, the table it is evaluated on being the training table. -/
theorem C95_intercept_violated (M : LmeModelCfg) (st : LmeState) (x : Matrix (Fin N) (Fin k) ℝ) (y : Vec ℝ N)
    (labels : List String) (fri : Bool) (columns mustFe mustRe : Option (List String)) (a : LmeFitArgs) (st' : LmeState)
    (h : lmeFit M st x y (some labels) true fri columns mustFe mustRe a = (.ok (), st')) (y' : Vec ℝ N) (ic : String) :
    ∃ e, lmeGetIC st' x y' (some labels) ic = .error e := by
  obtain ⟨c, rfl, hcons, -⟩ := C82_fit_consistent M st x y labels true fri columns mustFe mustRe a _ h
  cases hr : lmeGetIC (some c) x y' (some labels) ic with
  | error e => exact ⟨e, rfl⟩
  | ok r =>
    exfalso
    unfold lmeGetIC at hr
    obtain ⟨P, hP, hr⟩ := ebind_ok.1 hr
    simp only at hP
    obtain ⟨_, _, _, _, -, -, hlen, -, -, -, -, -, -, -, hPe⟩ := lmeFromXY_ok x (some y') none labels false false none none P hP
    have hF := numFixed_eq P false false (by rw [hPe])
    have hcl : P.columnLabels = labels := by rw [hPe]
    rw [hcl, ← fixedCount_eq] at hF
    by_cases hic : ic = "muller_ic" ∨ ic = "vaida_aic" ∨ ic = "jones_bic"
    · rw [if_pos hic] at hr
      obtain ⟨D, -, hr⟩ := ebind_ok.1 hr
      obtain ⟨beta, hb, hr⟩ := ebind_ok.1 hr
      have h1 := congrArg List.length (asVec_ok.1 hb)
      rw [List.length_ofFn, hcons.1, hF] at h1
      simp [fixedCount] at h1
    · rw [if_neg hic] at hr
      cases hr

/-- The part of **C95** that holds: without intercepts the criteria of Jones and of Mueller and Hui are returned, for
every model with nonnegative variances fitted to a table with positive observation variances. Missing: intercepts
(`C95_intercept_violated`), the AIC, and the counts of parameters (C66). -/
theorem C95_no_intercept_partial (M : LmeModelCfg) (st : LmeState) (x : Matrix (Fin N) (Fin k) ℝ) (y : Vec ℝ N)
    (labels : List String) (columns mustFe mustRe : Option (List String)) (a : LmeFitArgs) (c : LmeCoef)
    (h : lmeFit M st x y (some labels) false false columns mustFe mustRe a = (.ok (), some c)) (hg : ∀ v ∈ c.gamma, 0 ≤ v)
    (P : LmeProblem ℝ) (hP : lmeFromXY x (some y) none labels false false none none = .ok P)
    (hpos : ∀ v : Fin k, labels[(v : ℕ)]? = some "variance" → ∀ r, 0 < x r v) :
    (∃ r, lmeGetIC (some c) x y (some labels) "jones_bic" = .ok r) ∧ ∃ r, lmeGetIC (some c) x y (some labels) "muller_ic" = .ok r := by
  obtain ⟨c', hc, hcons, hgl, -⟩ := C82_fit_consistent M st x y labels false false columns mustFe mustRe a _ h
  cases hc
  obtain ⟨_, _, _, _, -, -, hlen, -, -, -, -, -, -, -, hPe⟩ := lmeFromXY_ok x (some y) none labels false false none none P hP
  have hF := numFixed_eq P false false (by rw [hPe])
  have hR := numRandom_eq P false false (by rw [hPe])
  have hcl : P.columnLabels = labels := by rw [hPe]
  rw [hcl, ← fixedCount_eq] at hF
  rw [hcl, ← randomCount_eq] at hR
  have hb : asVec P.numFixed c.beta = .ok fun i => c.beta[i.1]'(by rw [hcons.1, ← hF]; exact i.2) := by
    unfold asVec
    rw [dif_pos (by rw [hcons.1, hF])]
  have hg' : asVec P.numRandom c.gamma = .ok fun i => c.gamma[i.1]'(by rw [hgl, ← hR]; exact i.2) := by
    unfold asVec
    rw [dif_pos (by rw [hgl, hR])]
  obtain ⟨D, j, m, -, hj, hm, -⟩ := C66_get_ic_violated x y labels P hP hpos c _ _ (asVec_ok.1 hb).symm (asVec_ok.1 hg').symm
    (fun i => hg _ (List.getElem_mem _))
  exact ⟨⟨j, hj⟩, m, hm⟩

/-- The example table: a lasso model has a criterion without intercept and none with it. -/
example : (∃ c, lmeFit (exModel none 100 (.l1 2)) none exTab ![26, 20] (some exTabLabels) true false none none none {} = (.ok (), some c) ∧
      ∃ e, lmeGetIC (some c) exTab ![26, 20] (some exTabLabels) "muller_ic" = .error e) ∧
    ∃ c, lmeFit (exModel none 100 (.l1 2)) none exTab ![26, 20] (some exTabLabels) false false none none none {} = (.ok (), some c) ∧
      ∃ r, lmeGetIC (some c) exTab ![26, 20] (some exTabLabels) "muller_ic" = .ok r := by
  have hfit := fun ffi P hP => C83_fit_returns _ (exModel_robust none (by simp) 100 (.l1 2) exL1 (by simp)) rfl none exTab
    ![26, 20] exTabLabels ffi false P hP exTab_positive none none (by simp) (by simp) false
  constructor
  · obtain ⟨P, hP⟩ := exTab_ok' true false ![26, 20]
    obtain ⟨c, hc, -⟩ := hfit true P hP
    exact ⟨c, hc, C95_intercept_violated _ _ _ _ _ _ _ _ _ _ _ hc _ _⟩
  · obtain ⟨P, hP⟩ := exTab_ok' false false ![26, 20]
    obtain ⟨c, hc, hg⟩ := hfit false P hP
    exact ⟨c, hc, (C95_no_intercept_partial _ _ _ _ _ _ _ _ _ c hc hg P hP exTab_positive).2⟩

end

end Verif
