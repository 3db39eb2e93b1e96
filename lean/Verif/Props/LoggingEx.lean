import Verif.Props.Logging
import Verif.Props.LmeIpEx
import Verif.Props.Exact

/-!
# C188: practical models with the log of the inner method, and the violation for warm starts
-/

open Matrix

namespace Verif

/-- **C188 for practical models**, whose inner method logs as well: two fits by the same practical SR3 model that differ in the (distinct) keys of the log
and both return leave the same coefficients and random effects. -/
theorem C188_practical (M : LmeModelCfg) (s : LmeSr3Cfg) (hs : M.sr3 = some s) (hpr : s.practical = true) (l1 l2 : List String) (hl1 : l1.Nodup) (hl2 : l2.Nodup)
    (st : LmeState) (P : LmeProblem ℝ) (a : LmeFitArgs) (L1 L2 : Logger (PyVal ℝ (P.numFixed + P.numRandom))) (c1 c2 : LmeState)
    (h1 : lmeFitProblemLog (M.logging .tuple l1) st P a = (.ok L1, c1)) (h2 : lmeFitProblemLog (M.logging .tuple l2) st P a = (.ok L2, c2)) : c1 = c2 := by
  obtain ⟨L1', e1, -⟩ := C179_same (M.logging .tuple l1) s hs hpr rfl hl1 st P a L1 c1 h1
  obtain ⟨L2', e2, -⟩ := C179_same (M.logging .tuple l2) s hs hpr rfl hl2 st P a L2 c2 h2
  have hq : ∀ l, (M.logging .tuple l).QuietLog := fun l t ht => .inl (by
    have : t = s := Option.some.inj (ht.symm.trans hs)
    rw [this]; exact hpr)
  obtain ⟨L, e, -⟩ := C188_mixed_partial _ (hq l1) st P a L1' (by rw [e1])
  obtain ⟨L', e', -⟩ := C188_mixed_partial _ (hq l2) st P a L2' (by rw [e2])
  rw [e1] at e
  rw [e2] at e'
  change lmeFitProblem (M.logging .tuple []) st P a = _ at e e'
  rw [e] at e'
  exact (Prod.ext_iff.1 e').2

/-- SR3 settings with one pass of the inner method per evaluation; the warm start is the default. -/
noncomputable def warmSr3 : LmeSr3Cfg := ⟨1, false, 1, 1e-5, 1, true, true, true, 1 / 2⟩

/-- An SR3 model without penalty and with one iteration of the solver, which logs `keys`. -/
noncomputable def warmModel (keys : List String) : LmeModelCfg where
  sr3 := some warmSr3
  tol := 1e-5
  maxIter := 1
  stepping := "fixed"
  fixedStepLen := none
  initializer := none
  prior := none
  elasticEps := 1e-4
  reg := .dummy
  loggerKind := .tuple
  loggerKeys := keys

theorem warm_plain : (warmSr3.ip 0 1).Plain := ⟨rfl, rfl, rfl, rfl⟩

/-- One call of the inner method at the relaxed variance 1 from a variance between 1 and 2: the variance decreases, and
does not fall below 1 if it was 2. -/
theorem warm_find (o o' : IpOracle 0 1) (hS : o.S = ⟨1, 1⟩) (b tb : Vec ℝ 0) (g tg : Vec ℝ 1) (htg : tg 0 = 1)
    (h1 : 1 ≤ (ipStart (warmSr3.ip 0 1) o b g).2 0) (r : IpResult 0 1)
    (h : lmeFindIp [obsGroup 0] .nonInformative (warmSr3.ip 0 1) o b g tb tg = .ok (r, o')) :
    r.gamma 0 < (ipStart (warmSr3.ip 0 1) o b g).2 0 ∧ ((ipStart (warmSr3.ip 0 1) o b g).2 0 = 2 → 1 ≤ r.gamma 0) ∧
      o'.S = ⟨1, 1⟩ ∧ o'.warm = some (r.beta, r.gamma) := by
  unfold lmeFindIp at h
  rw [if_neg (by decide)] at h
  obtain ⟨sI, t9, h⟩ := ebind_ok.1 h
  cases h
  have hSI : sI.S = o.S := (ipLoop_relaxed rfl rfl t9).2.2
  obtain ⟨g0, hg0⟩ : ∃ g0, g0 = (ipStart (warmSr3.ip 0 1) o b g).2 0 := ⟨_, rfl⟩
  rw [← hg0] at h1 ⊢
  obtain ⟨step, dg, hs0, hs1, hd, hg⟩ : ∃ step dg : ℝ, 0 < step ∧ step ≤ 99 / 100 ∧
      (g0 + 1) * dg = g0 * (1 / 10 - (1 / 2 * (g0 + 1)⁻¹ + (g0 - 1))) ∧ sI.gamma 0 = g0 + step * dg := by
    obtain ⟨s0, hs0⟩ : ∃ s0 : IpState 0 1, s0 = ipInit (warmSr3.ip 0 1) o b g tb tg := ⟨_, rfl⟩
    rw [← hs0] at t9
    have e1 : s0.v 0 = 1 := by rw [hs0]; rfl
    have e2 : s0.gamma 0 = g0 := by rw [hs0, hg0]; rfl
    have e3 : s0.tgamma 0 = 1 := by rw [hs0]; exact htg
    have e4 : s0.mu = 1 / 10 * g0 := by
      rw [hs0, hg0]
      unfold ipInit
      simp only [Fin.sum_univ_one]
      norm_num
    have e5 : s0.S = ⟨1, 1⟩ := by rw [hs0]; exact hS
    have e6 : s0.iteration = 0 := by rw [hs0]; rfl
    have e7 : s0.prev = none := by rw [hs0]; rfl
    have e8 : s0.stepLen = 1 := by rw [hs0]; rfl
    have ev : ∀ j, 0 < s0.v j := fun j => by rw [Subsingleton.elim j 0, e1]; exact one_pos
    clear hs0
    obtain ⟨F0, f1, f2, f3⟩ := obs_ipF s0 (by rw [e2]; linarith)
    rw [e1, e2, e4] at f2
    rw [e1, e2, e3, e5] at f3
    have g2 : ipStep [obsGroup 0] .nonInformative (warmSr3.ip 0 1) s0 F0 = .ok sI := by
      unfold ipLoop at t9
      rw [dif_pos ⟨by rw [e8]; norm_num, by rw [e6]; norm_num [LmeSr3Cfg.ip, warmSr3]⟩, f1] at t9
      simp only at t9
      rw [if_pos] at t9
      · cases hs : ipStep [obsGroup 0] .nonInformative (warmSr3.ip 0 1) s0 F0 with
        | error e => rw [hs] at t9; cases t9
        | ok s1 =>
          rw [hs] at t9
          simp only at t9
          unfold ipLoop at t9
          rw [dif_neg (by simp [e6, LmeSr3Cfg.ip, warmSr3])] at t9
          have e : { s1 with iteration := s0.iteration + 1 } = s1 := by
            rw [← (ipStep_prev hs).2.1]
          rw [e] at t9
          exact t9
      · refine ⟨.inr ?_, ?_⟩
        · rw [e4]
          norm_num [LmeSr3Cfg.ip, warmSr3]
          linarith
        · unfold ipMoved
          rw [e7]
          trivial
    unfold ipStep at g2
    obtain ⟨dF, k1, g2⟩ := ebind_ok.1 g2
    obtain ⟨d, k2, g2⟩ := ebind_ok.1 g2
    obtain ⟨step, k3, g2⟩ := ebind_ok.1 g2
    obtain ⟨dF', k1', hJ⟩ := obs_ipJac s0 (by rw [e2]; linarith)
    obtain rfl : dF = dF' := Except.ok.inj (k1.symm.trans k1')
    obtain ⟨-, k2⟩ := npSolve_ok.1 k2
    obtain ⟨m1, m2⟩ := hJ d
    rw [k2, Pi.neg_apply, f2, e1, e2] at m1
    rw [k2, Pi.neg_apply, f3, e5] at m2
    have hpos : 0 < maxStepLen (stepPairs s0.v (fun j => d (.inl j)) ++ stepPairs s0.gamma fun j => d (.inr (.inr j))) := by
      refine maxStepLen_pos fun e he => ?_
      rcases List.mem_append.1 he with he | he
      · obtain ⟨j, rfl⟩ := List.mem_ofFn.1 he
        exact ev j
      · obtain ⟨j, rfl⟩ := List.mem_ofFn.1 he
        fin_cases j
        change 0 < s0.gamma 0
        rw [e2]
        linarith
    have hle := maxStepLen_le_one (stepPairs s0.v (fun j => d (.inl j)) ++ stepPairs s0.gamma fun j => d (.inr (.inr j)))
    have hstep : step = 0.99 * maxStepLen (stepPairs s0.v (fun j => d (.inl j)) ++ stepPairs s0.gamma fun j => d (.inr (.inr j))) := (Except.ok.inj k3).symm
    have hgam : sI.gamma 0 = s0.gamma 0 + step * d (.inr (.inr 0)) := by
      dsimp only at g2
      split_ifs at g2 with hc h8
      · cases g2
        rfl
      · cases h8
      · obtain ⟨t, -, g2⟩ := ebind_ok.1 g2
        cases g2
        rfl
    refine ⟨step, d (.inr (.inr 0)), ?_, ?_, ?_, ?_⟩
    · rw [hstep]
      positivity
    · rw [hstep]
      norm_num
      linarith
    · dsimp only at m1 m2
      have : d (.inl 0) = d (.inr (.inr 0)) + (1 / 2 * (g0 + 1)⁻¹ + 1 * (g0 - 1) - 1) := by linarith
      rw [this] at m1
      linear_combination -m1
    · rw [hgam, e2]
  have hneg : dg < 0 := by
    by_contra hn
    have h2 : (1 : ℝ) / 10 - (1 / 2 * (g0 + 1)⁻¹ + (g0 - 1)) < 0 := by
      have h3 : 0 < g0 + 1 := by linarith
      have h4 : 1 / 2 * (g0 + 1)⁻¹ + (g0 - 1) - 1 / 10 = (1 / 2 + (g0 - 1 - 1 / 10) * (g0 + 1)) / (g0 + 1) := by
        field_simp
        ring
      have h5 : 0 < (1 / 2 + (g0 - 1 - 1 / 10) * (g0 + 1)) / (g0 + 1) := div_pos (by nlinarith) h3
      linarith
    have h6 := mul_neg_of_pos_of_neg (show 0 < g0 by linarith) h2
    rw [← hd] at h6
    have := mul_nonneg (show 0 ≤ g0 + 1 by linarith) (not_lt.1 hn)
    linarith
  refine ⟨?_, fun h2 => ?_, hSI.trans hS, rfl⟩
  · change sI.gamma 0 < g0
    rw [hg]
    nlinarith
  · change 1 ≤ sI.gamma 0
    rw [hg]
    rw [h2] at hd ⊢
    norm_num at hd
    nlinarith

/-- The run of the solver: one gradient at the start, in the state the first log leaves. -/
theorem warm_run (keys : List String) (hk : keys = [] ∨ keys = ["loss"]) (b : Vec ℝ 0) (g : Vec ℝ 1) (hg : g 0 = 1) (x : Vec ℝ (0 + 1)) (L : Logger (PyVal ℝ (0 + 1)))
    (h : lmeOptimize (warmModel keys) [obsGroup 0] .nonInformative (wrapReg 0 1 (warmModel keys).elasticEps dummyRegularizer) b g = .ok (x, L)) :
    ∃ r1 o1, lmeFindIp [obsGroup 0] .nonInformative (warmSr3.ip 0 1) ⟨⟨1, 1⟩, none⟩ ((2 : ℝ) • b) ((2 : ℝ) • g) b g = .ok (r1, o1) ∧
      ((keys = [] ∧ xGamma x 0 = max (r1.gamma 0) 0 / (1 + 1e-4)) ∨
        ∃ r2 o2, keys = ["loss"] ∧ lmeFindIp [obsGroup 0] .nonInformative (warmSr3.ip 0 1) o1 ((2 : ℝ) • b) ((2 : ℝ) • g) b g = .ok (r2, o2) ∧
          xGamma x 0 = max (r2.gamma 0) 0 / (1 + 1e-4)) := by
  unfold lmeOptimize at h
  obtain ⟨bg, hbg, h⟩ := ebind_ok.1 h
  unfold lmeInitialize at hbg
  rw [if_neg (by simp [warmModel])] at hbg
  cases hbg
  obtain ⟨⟨⟨x', L'⟩, s'⟩, hr, h⟩ := ebind_ok.1 h
  cases h
  rw [if_neg (by simp [warmSr3])] at hr
  unfold pgdOptimize at hr
  obtain ⟨L0, o0, hL0, hr⟩ := bind_ok.1 hr
  obtain ⟨⟨x1, it, Ll⟩, s2, h2, hr⟩ := bind_ok.1 hr
  obtain ⟨L1, s3, h3, hr⟩ := bind_ok.1 hr
  obtain ⟨L2, s4, h4, hr⟩ := bind_ok.1 hr
  cases hr
  -- the pass
  have hpass : ∃ r o2, lmeFindIp [obsGroup 0] .nonInformative (warmSr3.ip 0 1) o0 ((2 : ℝ) • b) ((2 : ℝ) • g) b g = .ok (r, o2) ∧ (o0.S = ⟨1, 1⟩ → o2.S = ⟨1, 1⟩) ∧
      (o2.S = ⟨1, 1⟩ → xGamma x1 0 = max (r.gamma 0) 0 / (1 + 1e-4)) := by
    rw [pgdLoop.eq_def, dif_pos ⟨.inl (by decide), by norm_num [LmeModelCfg.solver, warmModel]⟩] at h2
    obtain ⟨⟨y, Ly⟩, s5, h5, h2⟩ := bind_ok.1 h2
    rw [pgdLoop.eq_def, dif_neg (by norm_num [LmeModelCfg.solver, warmModel])] at h2
    cases h2
    unfold pgdBody at h5
    obtain ⟨gr, s6, h6, h5⟩ := bind_ok.1 h5
    obtain ⟨st, s7, h7, h5⟩ := bind_ok.1 h5
    obtain ⟨z, s8, h8, h5⟩ := bind_ok.1 h5
    obtain ⟨L9, s9, h9, h5⟩ := bind_ok.1 h5
    cases h5
    unfold chooseStep at h7
    rw [if_neg (by simp [LmeModelCfg.solver, warmModel])] at h7
    cases h7
    have e8 := (call_state h8).1
    change (lmeSr3GradientValueFunction [obsGroup 0] .nonInformative (warmSr3.ip 0 1) o0 (xBeta (joinX b g)) (xGamma (joinX b g))).map _ = _ at h6
    rw [xBeta_join, xGamma_join] at h6
    unfold lmeSr3GradientValueFunction at h6
    cases hf : lmeFindIp [obsGroup 0] .nonInformative (warmSr3.ip 0 1) o0 ((2 : ℝ) • b) ((2 : ℝ) • g) b g with
    | error e => rw [hf] at h6; cases h6
    | ok r =>
      rw [hf] at h6
      cases h6
      refine ⟨r.1, r.2, rfl, fun hS => ?_, fun hS => ?_⟩
      · exact (lmeFindIp_relaxed warm_plain (show _ = Except.ok (r.1, r.2) from hf)).2.2.trans hS
      · rw [wrapReg_prox_eq] at e8
        have e9 := Except.ok.inj e8
        change xGamma y 0 = _
        rw [← e9, xGamma_join]
        have hst : (warmModel keys).solver.fixedStepLen = 1 := by norm_num [LmeModelCfg.solver, LmeModelCfg.step, warmModel, warmSr3]
        have e : xGamma (joinX b g + (1 : ℝ) • -joinX (-(r.2.S.lb • (r.1.beta - b))) (-(r.2.S.lg • (r.1.gamma - g)))) 0 = r.1.gamma 0 := by
          have h1 : ∀ y y' : Vec ℝ (0 + 1), xGamma (y + (1 : ℝ) • -y') 0 = xGamma y 0 - xGamma y' 0 := fun y y' => by
            simp only [xGamma, Pi.add_apply, Pi.smul_apply, Pi.neg_apply, smul_eq_mul]
            ring
          rw [h1, xGamma_join, xGamma_join, hS]
          simp only [Pi.neg_apply, Pi.smul_apply, Pi.sub_apply, smul_eq_mul]
          ring
        simp only [hst]
        rw [e]
        norm_num [warmModel]
  obtain ⟨r, o2, hf, hS, hx⟩ := hpass
  rcases hk with rfl | rfl
  · have : (warmModel []).loggerKeys = [] := rfl
    have h0 := (logBlock_noLog (lmeSr3Oracle [obsGroup 0] .nonInformative (warmSr3.ip 0 1)) (wrapReg 0 1 (warmModel []).elasticEps dummyRegularizer) (joinX b g)
      (localsInit (joinX b g)) (⟨⟨1, 1⟩, none⟩ : IpOracle 0 1)).symm.trans hL0
    cases h0
    exact ⟨r, o2, hf, .inl ⟨rfl, hx (hS rfl)⟩⟩
  · unfold logBlock at hL0
    obtain ⟨l, s1, h1, hL0⟩ := bind_ok.1 hL0
    rw [if_pos (show "loss" ∈ (Logger.init (V := PyVal ℝ (0 + 1)) (warmModel ["loss"]).loggerKind (warmModel ["loss"]).loggerKeys).keys from List.mem_singleton_self _)] at h1
    obtain ⟨l', s5, h5, h1⟩ := bind_ok.1 h1
    cases h1
    rw [if_pos (show (Logger.init (V := PyVal ℝ (0 + 1)) (warmModel ["loss"]).loggerKind (warmModel ["loss"]).loggerKeys).keys.length > 0 from one_pos)] at hL0
    obtain ⟨-, rfl⟩ := call_state hL0
    unfold lossAt at h5
    obtain ⟨f, s6, h6, h5⟩ := bind_ok.1 h5
    obtain ⟨v, s7, h7, h5⟩ := bind_ok.1 h5
    cases h5
    obtain ⟨-, rfl⟩ := call_state h7
    change lmeSr3ValueFunction [obsGroup 0] .nonInformative (warmSr3.ip 0 1) ⟨⟨1, 1⟩, none⟩ (xBeta (joinX b g)) (xGamma (joinX b g)) = _ at h6
    rw [xBeta_join, xGamma_join] at h6
    unfold lmeSr3ValueFunction at h6
    obtain ⟨⟨r1, o1⟩, hf1, h6⟩ := ebind_ok.1 h6
    obtain ⟨l2, -, h6⟩ := ebind_ok.1 h6
    cases h6
    exact ⟨r1, _, hf1, .inr ⟨r, o2, rfl, hf, hx (hS (lmeFindIp_relaxed warm_plain hf1).2.2)⟩⟩

theorem warmModel_robust (keys : List String) (hk : keys = [] ∨ keys = ["loss"]) : (warmModel keys).Robust where
  adm := ⟨trivial, by norm_num [warmModel], (fun s h => by cases h), fun s hs => by cases hs; norm_num [warmSr3]⟩
  init := by simp [warmModel]
  kind := rfl
  keys := by rcases hk with rfl | rfl <;> simp [warmModel]
  vaida := by rcases hk with rfl | rfl <;> simp [warmModel]
  flip := by rcases hk with rfl | rfl <;> simp [warmModel]
  sr3 := fun s hs => by cases hs; exact ⟨by norm_num [warmSr3], rfl⟩
  scad := fun t _ => trivial

/-- The fits return, and the variance is that of the run. -/
theorem warm_fit (keys : List String) (hk : keys = [] ∨ keys = ["loss"]) : ∃ L c x L', lmeFitProblem (warmModel keys) none obsProblem {} = (.ok L, some c) ∧
    c.gamma = [xGamma (p := 0) (q := 1) x 0] ∧
    lmeOptimize (warmModel keys) [obsGroup 0] .nonInformative (wrapReg 0 1 (warmModel keys).elasticEps dummyRegularizer) ![] ![1] = .ok (x, L') := by
  obtain ⟨L, c, h, -⟩ := C83_fit_problem_returns (warmModel keys) (warmModel_robust keys hk) none obsTab ![0] none ["group", "random", "variance"] false false none none obsProblem obsProblem_read
    (by
      intro v hv r
      fin_cases r
      fin_cases v <;> simp [obsTab] at hv ⊢) ⟨_, rfl⟩ {} (by intro b hb; cases hb)
    (by intro g hg; cases hg) (by
      rintro w rfl
      exact ⟨by decide, fun v hv => by cases hv⟩) (by
      rintro w rfl
      exact ⟨by decide, fun v hv => .inr (List.mem_singleton.1 hv)⟩)
  have h' := h
  unfold lmeFitProblem at h'
  cases hc : lmeFitCore (warmModel keys) none obsProblem {} with
  | error e => rw [hc] at h'; cases h'
  | ok r =>
    rw [hc] at h'
    have hcr : r.1 = c := Option.some.inj (Prod.ext_iff.1 h').2
    unfold lmeFitCore at hc
    obtain ⟨m, hm, hc⟩ := ebind_ok.1 hc
    obtain ⟨Pr, hPr, hc⟩ := ebind_ok.1 hc
    obtain ⟨w, hw, hc⟩ := ebind_ok.1 hc
    obtain ⟨base, hb, hc⟩ := ebind_ok.1 hc
    obtain ⟨D, hD, hc⟩ := ebind_ok.1 hc
    obtain ⟨beta, hbe, hc⟩ := ebind_ok.1 hc
    obtain ⟨gamma, hga, hc⟩ := ebind_ok.1 hc
    obtain ⟨⟨x, Lx⟩, ho, hc⟩ := ebind_ok.1 hc
    obtain ⟨us, hus, hc⟩ := ebind_ok.1 hc
    obtain ⟨per, hper, hc⟩ := ebind_ok.1 hc
    have hfin := Except.ok.inj hc
    obtain rfl : D = [obsGroup 0] := Except.ok.inj (hD.symm.trans obsProblem_groups)
    obtain rfl : (.nonInformative : LmeInstPrior ℝ 0 1) = Pr := Except.ok.inj hPr
    cases hb
    refine ⟨L, c, x, Lx, h, ?_, ?_⟩
    · rw [← hcr, ← hfin]
      exact List.ofFn_succ.trans (by rw [List.ofFn_zero]; rfl)
    · have e1 : beta = (![] : Vec ℝ 0) := funext fun i => i.elim0
      have e2 : gamma = (![1] : Vec ℝ 1) := by
        have := asVec_ok.1 hga
        change List.ofFn gamma = [1] at this
        funext i
        obtain rfl : i = (0 : Fin 1) := Subsingleton.elim (α := Fin 1) _ _
        exact (List.cons.inj this).1
      rw [e1, e2] at ho
      exact ho

/-- **C188 is violated** by SR3 models with the default `warm_start_oracle=True`: asking for the loss in the log changes the
fitted variance. (Each evaluation of the value function moves the point from which the next evaluation of the
gradient starts its inner method.) -/
theorem C188_violated : ∃ (M : LmeModelCfg) (x : Matrix (Fin 1) (Fin 3) ℝ) (y : Vec ℝ 1) (P : LmeProblem ℝ) (L1 L2 : Logger (PyVal ℝ (P.numFixed + P.numRandom))) (c1 c2 : LmeCoef),
    M.Robust ∧ (∃ s, M.sr3 = some s ∧ s.warmStartOracle = true) ∧
    lmeFromXY x (some y) none ["group", "random", "variance"] false false none none = .ok P ∧
    lmeFitProblem (M.logging .tuple []) none P {} = (.ok L1, some c1) ∧ lmeFitProblem (M.logging .tuple ["loss"]) none P {} = (.ok L2, some c2) ∧ c1.gamma ≠ c2.gamma := by
  obtain ⟨L1, c1, x1, L1', h1, g1, o1⟩ := warm_fit [] (.inl rfl)
  obtain ⟨L2, c2, x2, L2', h2, g2, o2⟩ := warm_fit ["loss"] (.inr rfl)
  refine ⟨warmModel [], obsTab, ![0], obsProblem, L1, L2, c1, c2, warmModel_robust [] (.inl rfl), ⟨_, rfl, rfl⟩, obsProblem_read, h1, h2, ?_⟩
  rw [g1, g2]
  obtain ⟨r1, s1, f1, (⟨-, e1⟩ | ⟨r, s, h, -⟩)⟩ := warm_run [] (.inl rfl) _ _ rfl _ _ o1
  swap
  · cases h
  obtain ⟨r1', s1', f1', (⟨h, -⟩ | ⟨r2, s2, -, f2, e2⟩)⟩ := warm_run ["loss"] (.inr rfl) _ _ rfl _ _ o2
  · cases h
  rw [f1] at f1'
  cases f1'
  have hst : (ipStart (warmSr3.ip 0 1) ⟨⟨1, 1⟩, none⟩ ((2 : ℝ) • ![]) ((2 : ℝ) • ![1])).2 0 = 2 := by
    change (2 : ℝ) * 1 = 2
    norm_num
  obtain ⟨-, a1, a2, a3⟩ := warm_find _ _ rfl _ _ _ _ rfl (by rw [hst]; norm_num) _ f1
  have a1 := a1 hst
  have hst2 : (ipStart (warmSr3.ip 0 1) s1 ((2 : ℝ) • ![]) ((2 : ℝ) • ![1])).2 0 = r1.gamma 0 := by
    unfold ipStart
    rw [if_pos (show (warmSr3.ip 0 1).warmStart = true from rfl), a3]
    rfl
  obtain ⟨b1, -⟩ := warm_find _ _ a2 _ _ _ _ rfl (by rw [hst2]; exact a1) _ f2
  rw [hst2] at b1
  intro h
  have h := (List.cons.inj h).1
  rw [e1, e2] at h
  have hm : max (r2.gamma 0) 0 < max (r1.gamma 0) 0 := by
    rw [max_eq_left (show (0 : ℝ) ≤ r1.gamma 0 by linarith)]
    exact max_lt b1 (by linarith)
  have := div_lt_div_of_pos_right hm (show (0 : ℝ) < 1 + 1e-4 by norm_num)
  linarith

/-- The lasso fits every problem to the same coefficients with and without a log of losses and criteria. -/
example (P : LinProblem ℝ) : ∃ x L L0, linFit (exL1Model.logging .tuple ["loss", "aic"]) P none false none = .ok (x, L) ∧
    linFit (exL1Model.logging .tuple []) P none false none = .ok (x, L0) := by
  obtain ⟨x, L, h⟩ := linFit_plain_returns (exL1Model.logging .tuple ["loss", "aic"]) rfl rfl rfl (by simp [LinModelCfg.logging])
    (fun n w x => ((l1Regularizer 1 (some w)).value x).toOption.getD 0)
    (fun n w x => by simp [LinModelCfg.logging, exL1Model, l1Regularizer, Except.toOption])
    (fun n w y t => by simp [LinModelCfg.logging, exL1Model, l1Regularizer]) P none false none
  obtain ⟨L0, h0, -⟩ := C188_linear _ P none false none x L h
  exact ⟨x, L, L0, h, h0⟩

/-- The L1 models (plain, and SR3 without warm starts) that log the loss and two criteria fit `obsProblem` as those that
log nothing. -/
example (sr3 : Option LmeSr3Cfg) (hs : sr3 = none ∨ sr3 = some (exSr3 false) ∨ sr3 = some (exSr3 true)) :
    ∃ L L0 c, lmeFitProblem (exModel sr3 100 (.l1 2)) none obsProblem {} = (.ok L, some c) ∧
      lmeFitProblem ((exModel sr3 100 (.l1 2)).logging .tuple []) none obsProblem {} = (.ok L0, some c) := by
  obtain ⟨L, c, h, -⟩ := C83_fit_problem_returns (exModel sr3 100 (.l1 2)) (exModel_robust _ (by
      rintro s rfl
      rcases hs with h | h | h
      · cases h
      · cases h; exact ⟨by norm_num [exSr3], rfl⟩
      · cases h; exact ⟨by norm_num [exSr3], rfl⟩) _ _ exL1 (by intro _ _ _ h; cases h)) none obsTab ![0] none ["group", "random", "variance"] false false none none
    obsProblem obsProblem_read
    (by
      intro v hv r
      fin_cases r
      fin_cases v <;> simp [obsTab] at hv ⊢) ⟨_, rfl⟩ {} (by intro b hb; cases hb)
    (by intro g hg; cases hg) (by
      rintro w rfl
      exact ⟨by decide, fun v hv => by cases hv⟩) (by
      rintro w rfl
      exact ⟨by decide, fun v hv => .inr (List.mem_singleton.1 hv)⟩)
  obtain ⟨L0, h0, -⟩ := C188_mixed_partial (exModel sr3 100 (.l1 2)) (by
      intro s h
      rcases hs with rfl | rfl | rfl <;> cases h
      exacts [.inr rfl, .inl rfl]) none obsProblem {} L (by rw [h])
  exact ⟨L, L0, c, h, by rw [h0, h]⟩

end Verif
