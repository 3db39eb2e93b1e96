import Verif.Props.LmeL0Stop
import Verif.Props.LmePractical

/-!
# C169: converged SR3 mixed-effects fits are stationary up to their tolerance and the residual of the inner solver
-/

open Matrix

namespace Verif

section Solver

variable {n : ℕ} {σ : Type} {o : Oracle ℝ n σ} {R : Regularizer ℝ n}

/-- The last pass of a converged run of the proximal gradient solver, with what is known of the oracle's state: `Q` holds for all points, `I` for all states after the first call of the oracle. -/
theorem pgdOptimize_last (Q : Vec ℝ n → Prop) (I : σ → Prop) {cfg : PGDCfg ℝ} {x0 x : Vec ℝ n} {L Lf : Logger (PyVal ℝ n)} {s0 s' : σ}
    (hval : ∀ x s v s', Q x → I s ∨ (x = x0 ∧ s = s0) → o.value x s = .ok (v, s') → I s')
    (hgrad : ∀ x s g s', Q x → I s ∨ (x = x0 ∧ s = s0) → o.grad x s = .ok (g, s') → I s' ∧
      ∀ step z, 0 < step → R.prox (x + step • -g) step = .ok z → Q z)
    (hstep : 0 < cfg.fixedStepLen) (hx0 : Q x0) (hn : 0 < n) (h : pgdOptimize o R cfg x0 L s0 = .ok ((x, Lf), s')) (hconv : Lf.get "converged" = .ok (.atom (.bool true))) :
    ∃ xp s1 g s2 t s3, Q xp ∧ (I s1 ∨ (xp = x0 ∧ s1 = s0)) ∧ o.grad xp s1 = .ok (g, s2) ∧ chooseStep o R cfg xp (-g) s2 = .ok (t, s3) ∧
      R.prox (fun i => xp i - t * g i) t = .ok x ∧ 0 ≤ cfg.tol ∧ normSq (x - xp) ≤ cfg.tol ^ 2 ∧ Q x := by
  have hlog : ∀ {L L' : Logger (PyVal ℝ n)} {x : Vec ℝ n} {vars s s'}, Q x → I s ∨ (x = x0 ∧ s = s0) →
      logBlock o R L x vars s = .ok (L', s') → I s' ∨ s' = s := by
    intro L L' x vars s s' hx hs h
    unfold logBlock at h
    obtain ⟨l, s1, h1, h⟩ := bind_ok.1 h
    have hs1 : I s1 ∨ s1 = s := by
      split_ifs at h1 with hk
      · obtain ⟨l', s2, h2, h6⟩ := bind_ok.1 h1
        cases h6
        unfold lossAt at h2
        obtain ⟨f, s3, h3, h7⟩ := bind_ok.1 h2
        obtain ⟨g, s4, h4, h5⟩ := bind_ok.1 h7
        obtain ⟨-, rfl⟩ := callReg_ok.1 h4
        cases h5
        exact .inl (hval _ _ _ _ hx hs h3)
      · cases h1
        exact .inr rfl
    split_ifs at h with hk
    · obtain ⟨-, rfl⟩ := callReg_ok.1 h
      exact hs1
    · cases h
      exact hs1
  have hline : ∀ {x d : Vec ℝ n} {step}, Q x → (∀ step z, 0 < step → R.prox (x + step • d) step = .ok z → Q z) → ∀ {s r s'}, I s →
      lineSearch o R x d step s = .ok (r, s') → I s' := by
    intro x d step hx hz
    induction step using lineSearch.induct (K := ℝ) with
    | case1 step hstep ih =>
      intro s r s' hs h
      rw [lineSearch, dif_pos hstep] at h
      obtain ⟨z, s1, h1, h⟩ := bind_ok.1 h
      obtain ⟨fz, s2, h2, h4⟩ := bind_ok.1 h
      obtain ⟨fx, s3, h3, h5⟩ := bind_ok.1 h4
      obtain ⟨h1', rfl⟩ := callReg_ok.1 h1
      have hs3 := hval _ _ _ _ hx (.inl (hval _ _ _ _ (hz _ _ (lt_trans (by norm_num) hstep) h1') (.inl hs) h2)) h3
      split_ifs at h5
      · cases h5; exact hs3
      · exact ih hs3 h5
    | case2 step hstep =>
      intro s r s' hs h
      rw [lineSearch, dif_neg hstep] at h
      cases h
      exact hs
  have hloop : ∀ (x : Vec ℝ n) (xprev : Option (Vec ℝ n)) (it : ℕ) (L : Logger (PyVal ℝ n)), Q x → ∀ s r s', I s ∨ (x = x0 ∧ s = s0) →
      (∀ y, xprev = some y → ∃ s1 g s2 t s3, Q y ∧ (I s1 ∨ (y = x0 ∧ s1 = s0)) ∧ o.grad y s1 = .ok (g, s2) ∧ chooseStep o R cfg y (-g) s2 = .ok (t, s3) ∧
        R.prox (fun i => y i - t * g i) t = .ok x) →
      pgdLoop o R cfg x0 x xprev it L s = .ok (r, s') → (r.2.1 : ℤ) < cfg.maxIter →
      ∃ xp s1 g s2 t s3, Q xp ∧ (I s1 ∨ (xp = x0 ∧ s1 = s0)) ∧ o.grad xp s1 = .ok (g, s2) ∧ chooseStep o R cfg xp (-g) s2 = .ok (t, s3) ∧
        R.prox (fun i => xp i - t * g i) t = .ok r.1 ∧ 0 ≤ cfg.tol ∧ normSq (r.1 - xp) ≤ cfg.tol ^ 2 ∧ Q r.1 := by
    intro x xprev it L
    induction x, xprev, it, L using pgdLoop.induct (cfg := cfg) with
    | case1 x xprev it L hgd ih =>
      intro hx s r s' hs _ h hlt
      rw [pgdLoop, dif_pos hgd] at h
      obtain ⟨⟨x1, L1⟩, s1, hb, h⟩ := bind_ok.1 h
      obtain ⟨g, s2, t, s3, h2, h3, h6, h5⟩ := pgdBody_ok _ _ _ _ _ _ _ _ _ _ _ hb
      obtain ⟨hs2, hprox⟩ := hgrad _ _ _ _ hx hs h2
      have hs3 : I s3 := by
        have h3' := h3
        unfold chooseStep at h3'
        split_ifs at h3'
        · exact hline hx hprox hs2 h3'
        · cases h3'; exact hs2
      have hx' := hprox t x1 (chooseStep_pos _ _ _ _ _ _ _ _ hstep h3) (by rw [← h6]; congr 1; funext i; simp only [Pi.add_apply, Pi.smul_apply, Pi.neg_apply, smul_eq_mul]; ring)
      have hs1 : I s1 := by
        rcases hlog hx' (.inl hs3) h5 with h7 | h7
        · exact h7
        · rw [h7]; exact hs3
      exact ih (x1, L1) hx' _ _ _ (.inl hs1) (fun y hy => by cases hy; exact ⟨s, g, s2, t, s3, hx, hs, h2, h3, h6⟩) h hlt
    | case2 x xprev it L hgd =>
      intro hx s r s' hs hp h hlt
      rw [pgdLoop, dif_neg hgd] at h
      cases h
      have hfar : ¬ farApart cfg.tol xprev x := fun hf => hgd ⟨hf, hlt⟩
      cases xprev with
      | none => exact absurd (Or.inl hn) hfar
      | some y =>
        obtain ⟨s1, g, s2, t, s3, h1, h2, h3, h4, h5⟩ := hp y rfl
        simp only [farApart, not_or, not_lt] at hfar
        exact ⟨y, s1, g, s2, t, s3, h1, h2, h3, h4, h5, hfar.1, hfar.2, hx⟩
  unfold pgdOptimize at h
  obtain ⟨L0, s1, h1, h⟩ := bind_ok.1 h
  obtain ⟨r, s2, h2, h⟩ := bind_ok.1 h
  obtain ⟨L1, s3, h3, h5⟩ := bind_ok.1 h
  obtain ⟨L2, s4, h4, h6⟩ := bind_ok.1 h5
  obtain ⟨hcv, rfl⟩ := callReg_ok.1 h3
  obtain ⟨hit, rfl⟩ := callReg_ok.1 h4
  cases h6
  rw [(Logger.add_get hit).2 _ (by decide), (Logger.add_get hcv).1] at hconv
  refine hloop _ _ _ _ hx0 _ _ _ ?_ (fun y hy => by cases hy) h2 (by simpa using hconv)
  rcases hlog hx0 (.inr ⟨rfl, rfl⟩) h1 with h7 | h7
  · exact .inl h7
  · exact .inr ⟨rfl, h7⟩

end Solver

section Inner

variable {p q : ℕ}

/-- Multipliers stay positive and variances nonnegative in the inner solver without line search. -/
theorem ipLoop_signs {D : List (LmeGroup p q)} {P : LmeInstPrior ℝ p q} {c : IpCfg p q} (hls : c.lineSearch = none) {s r : IpState p q} (hv : ∀ j, 0 < s.v j) (hg : ∀ j, 0 ≤ s.gamma j)
    (h : ipLoop D P c s = .ok r) : (∀ j, 0 < r.v j) ∧ (∀ j, 0 ≤ r.gamma j) ∧ ((∀ j, 0 < s.gamma j) → s.stepLen ≠ 0 → (∀ j, 0 < r.gamma j) ∧ r.stepLen ≠ 0) := by
  refine ipLoop_inv D P c (fun a => (∀ j, 0 < a.v j) ∧ (∀ j, 0 ≤ a.gamma j) ∧ ((∀ j, 0 < s.gamma j) → s.stepLen ≠ 0 → (∀ j, 0 < a.gamma j) ∧ a.stepLen ≠ 0)) ?_ _ _ r rfl ⟨hv, hg, fun a b => ⟨a, b⟩⟩ h
  rintro a F a' ⟨h1, h2, h3⟩ - - hst
  obtain ⟨dF, d, step, -, -, hl, ev, -, eg, es, -⟩ := ipStep_ok hst
  unfold ipStepLen at hl
  rw [hls] at hl
  set l := stepPairs a.v (fun j => d (.inl j)) ++ stepPairs a.gamma (fun j => d (.inr (.inr j))) with hl'
  have hstep : step = 0.99 * maxStepLen l := (Except.ok.inj hl).symm
  have hm : 0 ≤ maxStepLen l := by
    refine maxStepLen_nonneg fun e he => ?_
    rw [hl', List.mem_append] at he
    exact he.elim (stepPairs_forall (Q := (0 ≤ ·)) (fun j => (h1 j).le) e) (stepPairs_forall (Q := (0 ≤ ·)) h2 e)
  have key : ∀ {x y : ℝ}, (x, y) ∈ l → 0 < x → 0 < x + step * y := by
    intro x y hmem hx
    rw [hstep]
    rcases lt_or_ge y 0 with hn | hn
    · have := maxStepLen_le hmem hn
      nlinarith
    · have h0 : 0 ≤ 0.99 * maxStepLen l * y := by positivity
      linarith
  have mv : ∀ j, (a.v j, d (.inl j)) ∈ l := fun j => List.mem_append_left _ (mem_stepPairs a.v (fun j => d (.inl j)) j)
  have mg : ∀ j, (a.gamma j, d (.inr (.inr j))) ∈ l := fun j => List.mem_append_right _ (mem_stepPairs a.gamma (fun j => d (.inr (.inr j))) j)
  change (∀ j, 0 < a'.v j) ∧ (∀ j, 0 ≤ a'.gamma j) ∧ (_ → _ → (∀ j, 0 < a'.gamma j) ∧ a'.stepLen ≠ 0)
  rw [ev, eg, es]
  refine ⟨fun j => key (mv j) (h1 j), fun j => ?_, fun h k => ⟨fun j => key (mg j) ((h3 h k).1 j), ?_⟩⟩
  · exact step_nonneg (mg j) (h2 j) (by rw [hstep]; positivity) (by rw [hstep]; linarith)
  · have : 0 < maxStepLen l := maxStepLen_pos fun e he => by
      rw [hl', List.mem_append] at he
      exact he.elim (stepPairs_forall (Q := (0 < ·)) h1 e) (stepPairs_forall (Q := (0 < ·)) (h3 h k).1 e)
    rw [hstep]
    positivity

/-- What is known of the SR3 oracle after a call. -/
def IpOracle.Kept (s : LmeSr3Cfg) (o : IpOracle p q) : Prop :=
  o.S = ⟨s.ell, s.ell⟩ ∧ (∀ bg, o.warm = some bg → ∀ j, 0 ≤ bg.2 j) ∧ (s.warmStartOracle = true → ∃ bg, o.warm = some bg ∧ ∀ j, 0 < bg.2 j)

/-- A call of the inner solver by the SR3 oracle. -/
theorem lmeFindIp_kept {D : List (LmeGroup p q)} {P : LmeInstPrior ℝ p q} {s : LmeSr3Cfg} (hq : q ≠ 0) {o o' : IpOracle p q} {x0 x : Vec ℝ (p + q)} (hx : ∀ j, 0 ≤ xGamma x j)
    (hx0 : ∀ j, 0 < xGamma x0 j) (ho : o.Kept s ∨ (x = x0 ∧ o = ⟨⟨s.ell, s.ell⟩, none⟩)) {r : IpResult p q}
    (h : lmeFindIp D P (s.ip p q) o ((2 : ℝ) • xBeta x) ((2 : ℝ) • xGamma x) (xBeta x) (xGamma x) = .ok (r, o')) :
    o'.Kept s ∧ o.S = ⟨s.ell, s.ell⟩ ∧ (∀ j, 0 ≤ (ipStart (s.ip p q) o ((2 : ℝ) • xBeta x) ((2 : ℝ) • xGamma x)).2 j) ∧
      (s.warmStartOracle = true → ∀ j, 0 < (ipStart (s.ip p q) o ((2 : ℝ) • xBeta x) ((2 : ℝ) • xGamma x)).2 j) := by
  have hS : o.S = ⟨s.ell, s.ell⟩ := by
    rcases ho with ho | ⟨-, ho⟩
    · exact ho.1
    · rw [ho]
  have h2 : ∀ {y : Vec ℝ (p + q)} {j}, 0 ≤ xGamma y j → 0 ≤ ((2 : ℝ) • xGamma y) j := fun h => mul_nonneg (by norm_num) h
  have h0 : ∀ j, 0 ≤ (ipStart (s.ip p q) o ((2 : ℝ) • xBeta x) ((2 : ℝ) • xGamma x)).2 j := by
    unfold ipStart
    split_ifs
    · cases hw : o.warm with
      | none => exact fun j => h2 (hx j)
      | some bg =>
        rcases ho with ho | ⟨-, ho⟩
        · exact ho.2.1 bg hw
        · rw [ho] at hw
          cases hw
    · exact fun j => h2 (hx j)
  have h1 : s.warmStartOracle = true → ∀ j, 0 < (ipStart (s.ip p q) o ((2 : ℝ) • xBeta x) ((2 : ℝ) • xGamma x)).2 j := by
    intro hw
    unfold ipStart
    rw [if_pos (show (s.ip p q).warmStart = true from hw)]
    rcases ho with ho | ⟨rfl, rfl⟩
    · obtain ⟨bg, e, hbg⟩ := ho.2.2 hw
      rw [e]
      exact hbg
    · exact fun j => mul_pos (by norm_num) (hx0 j)
  refine ⟨?_, hS, h0, h1⟩
  unfold lmeFindIp at h
  rw [if_neg hq] at h
  obtain ⟨a, ha, h⟩ := ebind_ok.1 h
  cases h
  obtain ⟨-, g1, g2⟩ := ipLoop_signs (c := s.ip p q) rfl (fun _ => one_pos) h0 ha
  refine ⟨(ipLoop_relaxed (c := s.ip p q) rfl rfl ha).2.2.trans hS, fun bg hbg => ?_, fun hw => ?_⟩
  · simp only at hbg
    split_ifs at hbg with hw
    · cases hbg
      exact g1
    · rcases ho with ho | ⟨-, ho⟩
      · exact ho.2.1 bg hbg
      · rw [ho] at hbg
        cases hbg
  · refine ⟨(a.beta, a.gamma), ?_, (g2 (h1 hw) one_ne_zero).1⟩
    exact if_pos hw

end Inner

/-- The last step of a converged SR3 fit (not practical, without prior, from positive variances, without the EM initializer). -/
theorem lmeSr3Fit_last {M : LmeModelCfg} {s : LmeSr3Cfg} (hs : 0 < M.step) (hsr : M.sr3 = some s) (hprac : s.practical = false) (hpr : M.prior = none) (hinit : M.initializer ≠ some "EM")
    {st : LmeState} {P : LmeProblem ℝ} {a : LmeFitArgs} {D : List (LmeGroup P.numFixed P.numRandom)} (hD : lmeGroups P = .ok D) (hq : P.numRandom ≠ 0)
    {g0 : Vec ℝ P.numRandom} (hg0 : List.ofFn g0 = a.gamma.getD (List.replicate P.numRandom 1)) (hg0p : ∀ j, 0 < g0 j)
    (hprox : ∀ m w base y t z, M.reg.weights P.numFixed P.numRandom (a.feWeights.getD P.feWeights ++ a.reWeights.getD P.reWeights) = .ok w → M.reg.build P.numFixed P.numRandom m w = .ok base →
      0 < t → (wrapReg P.numFixed P.numRandom M.elasticEps base).prox y t = .ok z → ∀ j, 0 ≤ xGamma z j)
    {Lf : Logger (PyVal ℝ (P.numFixed + P.numRandom))} {c : LmeState} (h : lmeFitProblem M st P a = (.ok Lf, c)) (hconv : Lf.get "converged" = .ok (.atom (.bool true))) :
    ∃ (m : List ℤ) (w : Vec ℝ (P.numFixed + P.numRandom)) (base : Regularizer ℝ (P.numFixed + P.numRandom)) (x xp : Vec ℝ (P.numFixed + P.numRandom)) (t : ℝ) (coef : LmeCoef)
      (o o' : IpOracle P.numFixed P.numRandom) (r : IpResult P.numFixed P.numRandom),
      betaToGammaMap P = .ok m ∧ M.reg.weights P.numFixed P.numRandom (a.feWeights.getD P.feWeights ++ a.reWeights.getD P.reWeights) = .ok w ∧
      M.reg.build P.numFixed P.numRandom m w = .ok base ∧ c = some coef ∧ coef.beta = List.ofFn (xBeta x) ∧ coef.gamma = List.ofFn (xGamma x) ∧
      0 < t ∧ t ≤ M.step ∧ (M.stepping ≠ "line-search" → t = M.step) ∧ 0 ≤ M.tol ∧ ∑ i, (x i - xp i) ^ 2 ≤ M.tol ^ 2 ∧ (∀ j, 0 ≤ xGamma x j) ∧
      lmeFindIp D .nonInformative (s.ip _ _) o ((2 : ℝ) • xBeta xp) ((2 : ℝ) • xGamma xp) (xBeta xp) (xGamma xp) = .ok (r, o') ∧ o.S = ⟨s.ell, s.ell⟩ ∧
      (∀ j, 0 ≤ (ipStart (s.ip _ _) o ((2 : ℝ) • xBeta xp) ((2 : ℝ) • xGamma xp)).2 j) ∧
      (s.warmStartOracle = true → ∀ j, 0 < (ipStart (s.ip _ _) o ((2 : ℝ) • xBeta xp) ((2 : ℝ) • xGamma xp)).2 j) ∧
      (wrapReg P.numFixed P.numRandom M.elasticEps base).prox
        (fun i => xp i - t * joinX (-(s.ell • (r.beta - xBeta xp))) (-(s.ell • (r.gamma - xGamma xp))) i) t = .ok x := by
  unfold lmeFitProblem at h
  split at h
  · cases h
  rename_i r hr
  obtain ⟨coef, x, L0⟩ := r
  simp only [Prod.mk.injEq] at h
  obtain ⟨h, hc⟩ := h
  obtain ⟨D1, -, h⟩ := ebind_ok.1 h
  obtain ⟨Pr, -, h⟩ := ebind_ok.1 h
  obtain ⟨m, Pr', w, base, D', b0, g0', us, per, hm, hPr', hw, hbase, hD', -, hg0', hopt, -, -, hcoef⟩ := lmeFitCore_ok hr
  cases hD.symm.trans hD'
  have hPn : Pr' = .nonInformative := by
    rw [hpr] at hPr'
    exact (Except.ok.inj hPr').symm
  subst hPn
  have hstart : lmeStart st P a = (a.beta.getD (List.replicate P.numFixed 1), a.gamma.getD (List.replicate P.numRandom 1)) := by
    unfold lmeStart
    simp only [sklearnCheckTruth, Bool.and_false, Bool.false_eq_true, if_false]
    cases st <;> rfl
  rw [hstart] at hg0'
  obtain rfl : g0' = g0 := List.ofFn_injective ((asVec_ok.1 hg0').trans hg0.symm)
  rw [lmeLogCriteria_other h (by decide)] at hconv
  unfold lmeOptimize at hopt
  simp only [hsr] at hopt
  obtain ⟨bg, hbg, hopt⟩ := ebind_ok.1 hopt
  obtain ⟨⟨⟨x', L'⟩, u⟩, hrun, hopt⟩ := ebind_ok.1 hopt
  cases hopt
  unfold lmeInitialize at hbg
  rw [if_neg hinit] at hbg
  cases hbg
  rw [hprac] at hrun
  simp only [Bool.false_eq_true, if_false] at hrun
  have hx0 : ∀ j, 0 < xGamma (joinX b0 g0') j := fun j => by rw [xGamma_join]; exact hg0p j
  have hmap : ∀ {y : Vec ℝ (P.numFixed + P.numRandom)} {o o' : IpOracle P.numFixed P.numRandom} {g}, (lmeSr3Oracle D .nonInformative (s.ip _ _)).grad y o = .ok (g, o') →
      ∃ r, lmeFindIp D .nonInformative (s.ip _ _) o ((2 : ℝ) • xBeta y) ((2 : ℝ) • xGamma y) (xBeta y) (xGamma y) = .ok (r, o') ∧
        g = joinX (-(o'.S.lb • (r.beta - xBeta y))) (-(o'.S.lg • (r.gamma - xGamma y))) := by
    intro y o o' g hg
    change (lmeSr3GradientValueFunction D .nonInformative (s.ip _ _) o (xBeta y) (xGamma y)).map _ = _ at hg
    unfold lmeSr3GradientValueFunction at hg
    cases hf : lmeFindIp D .nonInformative (s.ip _ _) o ((2 : ℝ) • xBeta y) ((2 : ℝ) • xGamma y) (xBeta y) (xGamma y) with
    | error e => rw [hf] at hg; cases hg
    | ok r =>
      rw [hf] at hg
      cases hg
      exact ⟨_, rfl, rfl⟩
  obtain ⟨xp, o, g, o2, t, o3, hxp, ho, hgr, hch, hpx, htol, hsq, hxn⟩ := pgdOptimize_last (fun y => ∀ j, 0 ≤ xGamma y j) (IpOracle.Kept s)
    (fun y o v o' hy ho hv => by
      change lmeSr3ValueFunction D .nonInformative (s.ip _ _) o (xBeta y) (xGamma y) = _ at hv
      unfold lmeSr3ValueFunction at hv
      obtain ⟨⟨r, o1⟩, hf, hv⟩ := ebind_ok.1 hv
      obtain ⟨l, -, hv⟩ := ebind_ok.1 hv
      cases hv
      exact (lmeFindIp_kept hq hy hx0 ho hf).1)
    (fun y o g o' hy ho hg => by
      obtain ⟨r, hf, -⟩ := hmap hg
      exact ⟨(lmeFindIp_kept hq hy hx0 ho hf).1, fun step z hst hz => hprox _ _ _ _ _ _ hw hbase hst hz⟩)
    (show 0 < M.solver.fixedStepLen from hs) (fun j => (hx0 j).le) (by omega) hrun hconv
  obtain ⟨r, hf, hge⟩ := hmap hgr
  obtain ⟨k1, k2, k3, k4⟩ := lmeFindIp_kept hq hxp hx0 ho hf
  rw [k1.1] at hge
  rw [hge] at hpx
  refine ⟨m, w, base, x, xp, t, coef, o, o2, r, hm, hw, hbase, hc.symm, by rw [hcoef], by rw [hcoef], chooseStep_pos _ _ _ _ _ _ _ _ hs hch, ?_, fun hne => ?_, htol, hsq, hxn, hf, k2, k3, k4, hpx⟩
  · unfold chooseStep at hch
    split_ifs at hch
    · obtain ⟨j, rfl⟩ := lineSearch_pow _ _ _ _ _ _ _ _ hch
      exact div_le_self hs.le (one_le_pow₀ one_le_two)
    · exact (pure_ok.1 hch).1.ge
  unfold chooseStep at hch
  rw [if_neg (show M.solver.stepping ≠ "line-search" from hne)] at hch
  exact (pure_ok.1 hch).1.symm

theorem coord_le_npNorm {ι : Type*} [Fintype ι] (x : ι → ℝ) (i : ι) : |x i| ≤ npNorm x := by
  rw [← Real.sqrt_sq_eq_abs]
  exact Real.sqrt_le_sqrt (Finset.single_le_sum (f := fun i => x i ^ 2) (fun i _ => sq_nonneg _) (Finset.mem_univ i))

/-- The L1 prox in one coordinate: what `z = soft(t u lam / q1, v / q1)` says of `v`. -/
theorem soft_step {t lam u q1 v z : ℝ} (ht : 0 < t) (hlam : 0 ≤ lam) (hu : 0 ≤ u) (hq1 : 0 < q1) (hz : z = soft (t / q1 * u * lam) (v / q1)) :
    (0 < z → z * q1 + t * (lam * u) = v) ∧ (z < 0 → z * q1 - t * (lam * u) = v) ∧ (z = 0 → |v| ≤ t * (lam * u)) ∧ (0 ≤ v → 0 ≤ z) := by
  have hτ : 0 ≤ t / q1 * u * lam := by positivity
  have e1 : v / q1 * q1 = v := div_mul_cancel₀ _ hq1.ne'
  have e2 : t / q1 * u * lam * q1 = t * (lam * u) := by field_simp
  rcases soft_cases (v / q1) hτ with ⟨h1, h2⟩ | ⟨h1, h2⟩ | ⟨h1, h2⟩
  · have hz' : z = v / q1 - t / q1 * u * lam := hz.trans h2
    have hz0 : 0 < z := by linarith
    refine ⟨fun _ => ?_, fun h3 => absurd h3 (by linarith), fun h3 => absurd h3 hz0.ne', fun _ => hz0.le⟩
    rw [hz', sub_mul, e1, e2]
    ring
  · have hz' : z = v / q1 + t / q1 * u * lam := hz.trans h2
    have hz0 : z < 0 := by linarith
    refine ⟨fun h3 => absurd h3 (by linarith), fun _ => ?_, fun h3 => absurd h3 hz0.ne, fun hv => absurd (div_nonneg hv hq1.le) (by linarith)⟩
    rw [hz', add_mul, e1, e2]
    ring
  · have hz' : z = 0 := hz.trans h2
    refine ⟨fun h3 => absurd h3 (by linarith), fun h3 => absurd h3 (by linarith), fun _ => ?_, fun _ => hz'.ge⟩
    rw [← e1, ← e2, abs_mul, abs_of_pos hq1]
    exact mul_le_mul_of_nonneg_right h1 hq1.le

/-- **C169**: let an SR3 L1 mixed-effects model (not practical, without prior and EM initializer) be fitted from positive variances to data with positive observation variances, and let the fit log
`converged = True`. With `b, g` the result, `t` the last step (the step length of the model unless it is searched) and `b', g'` the point before it, at distance at most `tol`: the inner solver was called
at `b', g'` and ended in a state `sI` with coefficients `beta, gamma ≥ 0`, multipliers `v > 0` and barrier parameter `mu`. Let `Gb, Gg` be the derivatives of the negative log-likelihood at `beta, gamma`
and `r` the norm of the residual: the system `v gamma = mu`, `Gb + ell (beta - b') = 0`, `Gg + ell (gamma - g') = v`. Then, up to `tol / t + r`, the optimality conditions of the penalised likelihood
hold with the penalty at `b, g`:
`Gb + eps b + lam w sign(b) = 0` at the nonzero fixed effects and `|Gb| ≤ lam w` at the zero ones, `Gg - v + eps g + lam w = 0` at the positive variances and `Gg - v ≥ -lam w` at the zero ones.
If the inner solver keeps its warm start (default), it stopped because its iterations were used up, or `r` and `mu` are at most its tolerance, or its last pass moved by at most its tolerance. -/
theorem C169_l1 (M : LmeModelCfg) (s : LmeSr3Cfg) (lam : ℝ) (hreg : M.reg = .l1 lam) (hlam : 0 ≤ lam) (heps : 0 ≤ M.elasticEps) (hs : 0 < M.step) (hsr : M.sr3 = some s)
    (hprac : s.practical = false) (hpr : M.prior = none) (hinit : M.initializer ≠ some "EM") (st : LmeState) (P : LmeProblem ℝ) (a : LmeFitArgs)
    (D : List (LmeGroup P.numFixed P.numRandom)) (hD : lmeGroups P = .ok D) (hpos : PosVar D) (hq : P.numRandom ≠ 0)
    (g0 : Vec ℝ P.numRandom) (hg0 : List.ofFn g0 = a.gamma.getD (List.replicate P.numRandom 1)) (hg0p : ∀ j, 0 < g0 j)
    (wb : Vec ℝ P.numFixed) (wg : Vec ℝ P.numRandom) (hwb : List.ofFn wb = a.feWeights.getD P.feWeights) (hwg : List.ofFn wg = a.reWeights.getD P.reWeights)
    (hwb0 : ∀ i, 0 ≤ wb i) (hwg0 : ∀ j, 0 ≤ wg j)
    (Lf : Logger (PyVal ℝ (P.numFixed + P.numRandom))) (c : LmeState) (h : lmeFitProblem M st P a = (.ok Lf, c)) (hconv : Lf.get "converged" = .ok (.atom (.bool true))) :
    ∃ (coef : LmeCoef) (b b' : Vec ℝ P.numFixed) (g g' : Vec ℝ P.numRandom) (t : ℝ) (o : IpOracle P.numFixed P.numRandom) (sI : IpState P.numFixed P.numRandom) (Gb : Vec ℝ P.numFixed)
      (Gg : Vec ℝ P.numRandom) (r : ℝ),
      c = some coef ∧ coef.beta = List.ofFn b ∧ coef.gamma = List.ofFn g ∧ 0 < t ∧ (M.stepping ≠ "line-search" → t = M.step) ∧
      ∑ i, (b i - b' i) ^ 2 + ∑ j, (g j - g' j) ^ 2 ≤ M.tol ^ 2 ∧ (∀ j, 0 ≤ g j) ∧
      ipLoop D .nonInformative (s.ip _ _) (ipInit (s.ip _ _) o ((2 : ℝ) • b') ((2 : ℝ) • g') b' g') = .ok sI ∧ (∀ j, 0 ≤ sI.gamma j) ∧ (∀ j, 0 < sI.v j) ∧
      (∀ i, HasDerivAt (fun τ => marginalNLL D (sI.beta + Pi.single i τ) sI.gamma) (Gb i) 0) ∧
      (∀ j, HasDerivAt (fun τ => marginalNLL D sI.beta (sI.gamma + Pi.single j τ)) (Gg j) 0) ∧
      r = √(∑ j, (sI.v j * sI.gamma j - sI.mu) ^ 2 + (∑ i, (Gb i + s.ell * (sI.beta i - b' i)) ^ 2 + ∑ j, (Gg j + s.ell * (sI.gamma j - g' j) - sI.v j) ^ 2)) ∧
      (s.warmStartOracle = true → s.maxIterOracle ≤ sI.iteration ∨ (r ≤ s.tolOracle ∧ sI.mu ≤ s.tolOracle) ∨
        ∃ pb pg ptb ptg, sI.prev = some (pb, pg, ptb, ptg) ∧ npNorm (sI.beta - pb) ≤ s.tolOracle ∧ npNorm (sI.gamma - pg) ≤ s.tolOracle) ∧
      (∀ i, (0 < b i → |Gb i + M.elasticEps * b i + lam * wb i| ≤ M.tol / t + r) ∧ (b i < 0 → |Gb i + M.elasticEps * b i - lam * wb i| ≤ M.tol / t + r) ∧
        (b i = 0 → |Gb i| ≤ lam * wb i + (M.tol / t + r))) ∧
      ∀ j, (0 < g j → |Gg j - sI.v j + M.elasticEps * g j + lam * wg j| ≤ M.tol / t + r) ∧ (g j = 0 → -(lam * wg j) - (M.tol / t + r) ≤ Gg j - sI.v j) := by
  have hW : ∀ w, M.reg.weights P.numFixed P.numRandom (a.feWeights.getD P.feWeights ++ a.reWeights.getD P.reWeights) = .ok w → w = joinX wb wg := by
    intro w hw
    rcases LmeReg.weights_mem hw with ⟨h0, -⟩ | ⟨hlen, hw'⟩
    · rw [hreg] at h0
      cases h0
    · refine List.ofFn_injective (hw'.trans ?_)
      unfold joinX
      rw [List.ofFn_fin_append, ← hwb, ← hwg, List.take_of_length_le (by simp)]
  have hB : ∀ {m w base y t z}, M.reg.weights P.numFixed P.numRandom (a.feWeights.getD P.feWeights ++ a.reWeights.getD P.reWeights) = .ok w → M.reg.build P.numFixed P.numRandom m w = .ok base →
      (wrapReg P.numFixed P.numRandom M.elasticEps base).prox y t = .ok z → (∀ i, xBeta z i = soft (t / (1 + t * M.elasticEps) * wb i * lam) (xBeta y i / (1 + t * M.elasticEps))) ∧
      ∀ j, xGamma z j = soft (t / (1 + t * M.elasticEps) * wg j * lam) (max (xGamma y j) 0 / (1 + t * M.elasticEps)) := by
    intro m w base y t z hw hbase hz
    obtain rfl := hW w hw
    rw [hreg] at hbase
    cases hbase
    rw [wrapReg_prox_eq] at hz
    have hz' := Except.ok.inj hz
    refine ⟨fun i => ?_, fun j => ?_⟩
    · have := congrFun hz' (Fin.castAdd _ i)
      simp only [joinX, Fin.append_left] at this
      exact this.symm
    · have := congrFun hz' (Fin.natAdd _ j)
      simp only [joinX, Fin.append_right] at this
      exact this.symm
  have hq1 : ∀ {t : ℝ}, 0 < t → 0 < 1 + t * M.elasticEps := fun ht => by positivity
  obtain ⟨m, w, base, x, xp, t, coef, o, o', R, -, hw, hbase, hc, hcb, hcg, ht, -, hts, htol, hsq, hxn, hf, hoS, hst0, hst1, hpx⟩ := lmeSr3Fit_last hs hsr hprac hpr hinit hD hq hg0 hg0p
    (fun m w base y t z hw hbase ht hz j => by
      have := (soft_step ht hlam (hwg0 j) (hq1 ht) ((hB hw hbase hz).2 j)).2.2.2 (le_max_right _ _)
      exact this) h hconv
  obtain ⟨hxb, hxg⟩ := hB hw hbase hpx
  unfold lmeFindIp at hf
  rw [if_neg hq] at hf
  obtain ⟨sI, hsI, hf⟩ := ebind_ok.1 hf
  cases hf
  obtain ⟨hv, hg, hgp⟩ := ipLoop_signs (c := s.ip _ _) rfl (fun _ => one_pos) hst0 hsI
  obtain ⟨etb, etg, eS⟩ := ipLoop_relaxed (c := s.ip _ _) rfl rfl hsI
  have eS' : sI.S = ⟨s.ell, s.ell⟩ := eS.trans hoS
  have hdom := inDomain_of_nonneg hpos hg
  obtain ⟨Gb, hGb⟩ : ∃ Gb : Vec ℝ P.numFixed, Gb = (D.map fun g => -(g.xᵀ *ᵥ ((margCov g sI.gamma)⁻¹ *ᵥ residual g sI.beta))).sum := ⟨_, rfl⟩
  obtain ⟨Gg, hGg⟩ : ∃ Gg : Vec ℝ P.numRandom, Gg = (D.map fun g => nllGradGamma g sI.beta sI.gamma).sum := ⟨_, rfl⟩
  have hF : ipF D .nonInformative sI = .ok (Sum.elim (fun j => sI.v j * sI.gamma j - sI.mu)
      (Sum.elim (Gb + s.ell • (sI.beta - xBeta xp)) (Gg + s.ell • (sI.gamma - xGamma xp) - sI.v))) := by
    unfold ipF lmeSr3GradientBeta lmeSr3GradientGamma
    have h1 : lmeGradientBeta D .nonInformative sI.beta sI.gamma = .ok Gb := lmeGradientBeta_ok.2 ⟨hdom, by rw [hGb]; exact (add_zero _).symm⟩
    have h2 : lmeGradientGamma D .nonInformative sI.beta sI.gamma = .ok Gg := lmeGradientGamma_ok'.2 ⟨hdom, by rw [hGg]; exact (add_zero _).symm⟩
    rw [h1, h2, etb, etg, eS']
    rfl
  set F : Fin P.numRandom ⊕ (Fin P.numFixed ⊕ Fin P.numRandom) → ℝ := Sum.elim (fun j => sI.v j * sI.gamma j - sI.mu)
      (Sum.elim (Gb + s.ell • (sI.beta - xBeta xp)) (Gg + s.ell • (sI.gamma - xGamma xp) - sI.v)) with hFdef
  have hd : ∀ i, |x i - xp i| ≤ M.tol := by
    intro i
    refine abs_le_of_sq_le_sq ?_ htol
    exact (Finset.single_le_sum (f := fun i => (x i - xp i) ^ 2) (fun i _ => sq_nonneg _) (Finset.mem_univ i)).trans hsq
  refine ⟨coef, xBeta x, xBeta xp, xGamma x, xGamma xp, t, o, sI, Gb, Gg, npNorm F, hc, hcb, hcg, ht, hts, ?_, hxn, hsI, hg, hv, fun i => ?_, fun j => ?_, ?_, fun hws => ?_, fun i => ?_, fun j => ?_⟩
  · rw [Fin.sum_univ_add] at hsq
    exact hsq
  · rw [hGb]
    exact (marginalNLL_expansion D sI.gamma).hasDerivAt sI.beta i
  · rw [hGg, list_sum_apply]
    exact marginalNLL_deriv hdom sI.beta j
  · unfold npNorm
    rw [Fintype.sum_sum_type, Fintype.sum_sum_type]
    rfl
  · rcases ipLoop_exit D _ _ _ _ sI rfl hsI with h1 | h1 | ⟨F', hF', h1⟩
    · exact absurd h1 (hgp (hst1 hws) one_ne_zero).2
    · exact .inl h1
    · cases hF.symm.trans hF'
      by_cases h2 : (s.ip P.numFixed P.numRandom).tol < npNorm F ∨ (s.ip P.numFixed P.numRandom).tol < sI.mu
      · refine .inr (.inr ?_)
        have h3 : ¬ ipMoved (s.ip P.numFixed P.numRandom).tol sI := fun h3 => h1 ⟨h2, h3⟩
        unfold ipMoved at h3
        split at h3
        · exact absurd trivial h3
        · rename_i pb pg ptb ptg hprev
          push Not at h3
          exact ⟨pb, pg, ptb, ptg, hprev, h3.2.2.1, h3.2.2.2.1⟩
      · push Not at h2
        exact .inr (.inl h2)
  · have hr : |Gb i + s.ell * (sI.beta i - xBeta xp i)| ≤ npNorm F := coord_le_npNorm F (.inr (.inl i))
    have hy : xBeta (fun i => xp i - t * joinX (-(s.ell • (sI.beta - xBeta xp))) (-(s.ell • (sI.gamma - xGamma xp))) i) i = xBeta xp i - t * -(s.ell * (sI.beta i - xBeta xp i)) := by
      simp [xBeta, joinX]
    have hz := hxb i
    rw [hy] at hz
    obtain ⟨h1, h2, h3, -⟩ := soft_step ht hlam (hwb0 i) (hq1 ht) hz
    have hdi : |xBeta x i - xBeta xp i| ≤ M.tol := hd (Fin.castAdd _ i)
    refine ⟨fun hb => ?_, fun hb => ?_, fun hb => ?_⟩
    · have := step_coord (l := lam * wb i) ht hdi (h1 hb)
      refine le_trans ?_ (add_le_add this hr)
      refine le_trans (le_of_eq ?_) (abs_add_le _ _)
      congr 1
      ring
    · have := step_coord (eps := M.elasticEps) (l := -(lam * wb i)) ht hdi (by rw [← h2 hb]; ring)
      refine le_trans ?_ (add_le_add this hr)
      refine le_trans (le_of_eq ?_) (abs_add_le _ _)
      congr 1
      ring
    · have := step_zero (δ := M.tol) ht (by rwa [hb] at hdi) (h3 hb)
      rw [← add_assoc]
      refine le_trans ?_ (add_le_add this hr)
      refine le_trans (le_of_eq ?_) (abs_add_le _ _)
      congr 1
      ring
  · have hr : |Gg j + s.ell * (sI.gamma j - xGamma xp j) - sI.v j| ≤ npNorm F := coord_le_npNorm F (.inr (.inr j))
    have hy : xGamma (fun i => xp i - t * joinX (-(s.ell • (sI.beta - xBeta xp))) (-(s.ell • (sI.gamma - xGamma xp))) i) j = xGamma xp j - t * -(s.ell * (sI.gamma j - xGamma xp j)) := by
      simp [xGamma, joinX]
    have hz := hxg j
    rw [hy] at hz
    obtain ⟨h1, -, h3, -⟩ := soft_step ht hlam (hwg0 j) (hq1 ht) hz
    have hdj : |xGamma x j - xGamma xp j| ≤ M.tol := hd (Fin.natAdd _ j)
    refine ⟨fun hb => ?_, fun hb => ?_⟩
    · have hp : 0 < max (xGamma xp j - t * -(s.ell * (sI.gamma j - xGamma xp j))) 0 := by
        rw [← h1 hb]
        have := hq1 ht
        have : 0 ≤ t * (lam * wg j) := mul_nonneg ht.le (mul_nonneg hlam (hwg0 j))
        positivity
      have hm : max (xGamma xp j - t * -(s.ell * (sI.gamma j - xGamma xp j))) 0 = xGamma xp j - t * -(s.ell * (sI.gamma j - xGamma xp j)) := by
        refine max_eq_left ?_
        by_contra hc
        rw [max_eq_right (not_le.1 hc).le] at hp
        exact lt_irrefl _ hp
      have := step_coord (l := lam * wg j) ht hdj (by rw [h1 hb, hm])
      refine le_trans ?_ (add_le_add this hr)
      refine le_trans (le_of_eq ?_) (abs_add_le _ _)
      congr 1
      ring
    · have h4 := h3 hb
      rw [abs_of_nonneg (le_max_right _ _)] at h4
      have h5 := step_zero_up (δ := M.tol) ht (by rwa [hb] at hdj) ((le_max_left _ _).trans h4)
      have h6 := (abs_le.1 hr).1
      linarith

/-- A run with fixed steps and without logged losses whose first step moves by at most the tolerance has converged. -/
theorem pgdOptimize_first {n : ℕ} {σ : Type} {o : Oracle ℝ n σ} {R : Regularizer ℝ n} {cfg : PGDCfg ℝ} (hst : cfg.stepping ≠ "line-search") (hit : 2 ≤ cfg.maxIter) (htol : 0 ≤ cfg.tol)
    {x0 x : Vec ℝ n} {L Lf : Logger (PyVal ℝ n)} (hL : "loss" ∉ L.keys) {s0 s' : σ}
    (hmove : ∀ g s1 x1, o.grad x0 s0 = .ok (g, s1) → R.prox (fun i => x0 i - cfg.fixedStepLen * g i) cfg.fixedStepLen = .ok x1 → normSq (x1 - x0) ≤ cfg.tol ^ 2)
    (h : pgdOptimize o R cfg x0 L s0 = .ok ((x, Lf), s')) : Lf.get "converged" = .ok (.atom (.bool true)) := by
  unfold pgdOptimize at h
  obtain ⟨L0, s1, h1, h⟩ := bind_ok.1 h
  obtain ⟨r, s2, h2, h⟩ := bind_ok.1 h
  obtain ⟨L1, s3, h3, h5⟩ := bind_ok.1 h
  obtain ⟨L2, s4, h4, h6⟩ := bind_ok.1 h5
  obtain ⟨hcv, rfl⟩ := callReg_ok.1 h3
  obtain ⟨hit', rfl⟩ := callReg_ok.1 h4
  cases h6
  rw [(Logger.add_get hit').2 _ (by decide), (Logger.add_get hcv).1]
  have hs1 : s1 = s0 := by
    unfold logBlock at h1
    rw [if_neg hL] at h1
    obtain ⟨l, s5, h7, h1⟩ := bind_ok.1 h1
    obtain ⟨-, rfl⟩ := pure_ok.1 h7
    split_ifs at h1
    · exact (callReg_ok.1 h1).2
    · exact (pure_ok.1 h1).2.symm
  subst hs1
  have hr : r.2.1 < 2 := by
    rw [pgdLoop] at h2
    split_ifs at h2 with hg
    · obtain ⟨⟨x1, L5⟩, s5, hb, h2⟩ := bind_ok.1 h2
      obtain ⟨g, s6, t, s7, h8, h9, h10, -⟩ := pgdBody_ok _ _ _ _ _ _ _ _ _ _ _ hb
      unfold chooseStep at h9
      rw [if_neg hst] at h9
      obtain ⟨rfl, -⟩ := pure_ok.1 h9
      have hm := hmove _ _ _ h8 h10
      rw [pgdLoop, dif_neg] at h2
      · obtain ⟨h2, -⟩ := pure_ok.1 h2
        rw [← h2]
        exact Nat.lt_succ_self 1
      · rintro ⟨hf, -⟩
        rcases hf with hf | hf
        · exact absurd hf (not_lt.2 htol)
        · exact absurd hf (not_lt.2 hm)
    · obtain ⟨h2, -⟩ := pure_ok.1 h2
      rw [← h2]
      exact Nat.zero_lt_two
  have : (r.2.1 : ℤ) < cfg.maxIter := lt_of_lt_of_le (by exact_mod_cast hr) hit
  simp [this]

/-- An SR3 L1 model with fixed steps, the warm start of the inner solver and no logged losses. -/
noncomputable def sr3Lasso (tol : ℝ) : LmeModelCfg :=
  { exModel (some { exSr3 false with warmStartOracle := true }) 1000 (.l1 2) with stepping := "fixed", tol := tol, loggerKeys := ["converged"] }

theorem sr3Lasso_robust (tol : ℝ) : (sr3Lasso tol).Robust where
  adm := ⟨show (0 : ℝ) ≤ 2 by norm_num, by norm_num [sr3Lasso, exModel], (fun s hs => by cases hs), fun s h => by cases h; norm_num [exSr3]⟩
  init := by simp [sr3Lasso, exModel]
  kind := rfl
  keys := by change ["converged"].Nodup; decide
  vaida := by change _ ∉ ["converged"]; decide
  flip := fun h => absurd h (by change _ ∉ ["converged"]; decide)
  sr3 := fun s h => by cases h; exact ⟨by norm_num [exSr3], rfl⟩
  scad := fun _ _ => trivial

/-- An SR3 fit with fixed steps and without logged losses whose first step moves by at most the tolerance has converged. -/
theorem lmeSr3Fit_first {M : LmeModelCfg} {s : LmeSr3Cfg} (hst : M.stepping ≠ "line-search") (hsr : M.sr3 = some s) (hprac : s.practical = false) (hpr : M.prior = none) (hinit : M.initializer ≠ some "EM")
    (hit : 2 ≤ M.maxIter) (hloss : "loss" ∉ M.loggerKeys) {st : LmeState}
    {P : LmeProblem ℝ} {a : LmeFitArgs} {D : List (LmeGroup P.numFixed P.numRandom)} (hD : lmeGroups P = .ok D) {b0 : Vec ℝ P.numFixed} {g0 : Vec ℝ P.numRandom}
    (hb : List.ofFn b0 = a.beta.getD (List.replicate P.numFixed 1)) (hg : List.ofFn g0 = a.gamma.getD (List.replicate P.numRandom 1)) (htol : 0 ≤ M.tol)
    (hmove : ∀ m w base x1 g o, betaToGammaMap P = .ok m → M.reg.weights P.numFixed P.numRandom (a.feWeights.getD P.feWeights ++ a.reWeights.getD P.reWeights) = .ok w → M.reg.build P.numFixed P.numRandom m w = .ok base →
      (lmeSr3Oracle D .nonInformative (s.ip _ _)).grad (joinX b0 g0) ⟨⟨s.ell, s.ell⟩, none⟩ = .ok (g, o) →
      (wrapReg P.numFixed P.numRandom M.elasticEps base).prox (fun i => joinX b0 g0 i - M.step * g i) M.step = .ok x1 → normSq (x1 - joinX b0 g0) ≤ M.tol ^ 2)
    {Lf : Logger (PyVal ℝ (P.numFixed + P.numRandom))} {c : LmeState} (h : lmeFitProblem M st P a = (.ok Lf, c)) : Lf.get "converged" = .ok (.atom (.bool true)) := by
  unfold lmeFitProblem at h
  split at h
  · cases h
  rename_i r hr
  obtain ⟨coef, x, L0⟩ := r
  simp only [Prod.mk.injEq] at h
  obtain ⟨h, hc⟩ := h
  obtain ⟨D1, -, h⟩ := ebind_ok.1 h
  obtain ⟨Pr, -, h⟩ := ebind_ok.1 h
  obtain ⟨m, Pr', w, base, D', b0', g0', us, per, hm, hPr', hw, hbase, hD', hb0', hg0', hopt, -, -, hcoef⟩ := lmeFitCore_ok hr
  cases hD.symm.trans hD'
  have hstart : lmeStart st P a = (a.beta.getD (List.replicate P.numFixed 1), a.gamma.getD (List.replicate P.numRandom 1)) := by
    unfold lmeStart
    simp only [sklearnCheckTruth, Bool.and_false, Bool.false_eq_true, if_false]
    cases st <;> rfl
  rw [hstart] at hb0' hg0'
  obtain rfl : b0' = b0 := List.ofFn_injective ((asVec_ok.1 hb0').trans hb.symm)
  obtain rfl : g0' = g0 := List.ofFn_injective ((asVec_ok.1 hg0').trans hg.symm)
  have hPn : Pr' = .nonInformative := by
    rw [hpr] at hPr'
    exact (Except.ok.inj hPr').symm
  subst hPn
  rw [lmeLogCriteria_other h (by decide)]
  unfold lmeOptimize at hopt
  simp only [hsr] at hopt
  obtain ⟨bg, hbg, hopt⟩ := ebind_ok.1 hopt
  obtain ⟨⟨⟨x', L'⟩, u⟩, hrun, hopt⟩ := ebind_ok.1 hopt
  cases hopt
  unfold lmeInitialize at hbg
  rw [if_neg hinit] at hbg
  cases hbg
  rw [hprac] at hrun
  simp only [Bool.false_eq_true, if_false] at hrun
  exact pgdOptimize_first (cfg := M.solver) hst hit htol hloss (fun g o x1 h1 h2 => hmove m w base x1 g o hm hw hbase h1 h2) hrun

/-- Non-vacuity of C169: the example table, with two fixed and two random effects, is fitted with an SR3 L1 model from the default start, with a tolerance that the first step meets; the fit converges and
the conditions of C169 hold with the residual of its inner solver. -/
example : ∃ (P : LmeProblem ℝ) (D : List (LmeGroup P.numFixed P.numRandom)) (tol : ℝ) (Lf : Logger (PyVal ℝ (P.numFixed + P.numRandom))) (c : LmeCoef)
    (b b' Gb : Vec ℝ P.numFixed) (g' Gg : Vec ℝ P.numRandom) (o : IpOracle P.numFixed P.numRandom) (sI : IpState P.numFixed P.numRandom) (r : ℝ), lmeFromXY exTab (some ![26, 20]) none exTabLabels true true none none = .ok P ∧ lmeGroups P = .ok D ∧
    lmeFitProblem (sr3Lasso tol) none P {} = (.ok Lf, some c) ∧ Lf.get "converged" = .ok (.atom (.bool true)) ∧ P.numFixed = 2 ∧ P.numRandom = 2 ∧ c.beta = List.ofFn b ∧
    ipLoop D .nonInformative (LmeSr3Cfg.ip { exSr3 false with warmStartOracle := true } _ _) (ipInit (LmeSr3Cfg.ip { exSr3 false with warmStartOracle := true } _ _) o ((2 : ℝ) • b') ((2 : ℝ) • g') b' g') = .ok sI ∧
    r = √(∑ j, (sI.v j * sI.gamma j - sI.mu) ^ 2 + (∑ i, (Gb i + 40 * (sI.beta i - b' i)) ^ 2 + ∑ j, (Gg j + 40 * (sI.gamma j - g' j) - sI.v j) ^ 2)) ∧
    (∀ j, HasDerivAt (fun τ => marginalNLL D sI.beta (sI.gamma + Pi.single j τ)) (Gg j) 0) ∧
    (∀ i, HasDerivAt (fun τ => marginalNLL D (sI.beta + Pi.single i τ) sI.gamma) (Gb i) 0) ∧ ∀ i, 0 < b i → |Gb i + 1e-4 * b i + 2 * 1| ≤ tol / (1 / 40) + r := by
  obtain ⟨P, hP⟩ := exTab_ok' true true ![26, 20]
  obtain ⟨_, _, feW, reW, -, -, hlen, -, -, -, -, -, hf, hr', hPe⟩ := lmeFromXY_ok exTab (some ![26, 20]) none exTabLabels
    true true none none P hP
  have e1 : P.feWeights = [1, 1] := by rw [hPe]; cases hf; rfl
  have e2 : P.reWeights = [1, 1] := by rw [hPe]; cases hr'; rfl
  have hF : P.numFixed = 2 := (numFixed_eq P true true (by rw [hPe])).trans (by rw [show P.columnLabels = exTabLabels by rw [hPe]]; decide)
  have hR : P.numRandom = 2 := (numRandom_eq P true true (by rw [hPe])).trans (by rw [show P.columnLabels = exTabLabels by rw [hPe]]; decide)
  obtain ⟨gr, v, -, hv, -, hD⟩ := lmeGroups_table hP
  obtain ⟨D, hDe⟩ : ∃ D, D = (uniqueLabels fun r => exTab r gr).map (tableGroup exTab ![26, 20] exTabLabels true true gr v P.numFixed P.numRandom) := ⟨_, rfl⟩
  rw [← hDe] at hD
  have hDp : PosVar D := by
    have hvl : v = 3 := by
      have h3 : labelIdx (p := 4) exTabLabels (· = VARIANCE) = [3] := by decide
      rw [h3] at hv
      exact (List.singleton_injective hv).symm
    intro g hg i
    rw [hDe] at hg
    obtain ⟨l, -, rfl⟩ := List.mem_map.1 hg
    exact exTab_positive v (by rw [hvl]; rfl) _
  have hone : ∀ n : ℕ, List.ofFn (fun _ : Fin n => (1 : ℝ)) = List.replicate n 1 := fun n => List.ofFn_const n 1
  have hwb : List.ofFn (fun _ : Fin P.numFixed => (1 : ℝ)) = P.feWeights := by rw [e1, hF, hone]; rfl
  have hwg : List.ofFn (fun _ : Fin P.numRandom => (1 : ℝ)) = P.reWeights := by rw [e2, hR, hone]; rfl
  -- the first step
  obtain ⟨s, hs⟩ : ∃ s : LmeSr3Cfg, s = { exSr3 false with warmStartOracle := true } := ⟨_, rfl⟩
  obtain ⟨x0, hx0⟩ : ∃ x0 : Vec ℝ (P.numFixed + P.numRandom), x0 = joinX (fun _ => 1) (fun _ => 1) := ⟨_, rfl⟩
  obtain ⟨w, hw⟩ : ∃ w : Vec ℝ (P.numFixed + P.numRandom), w = joinX (fun _ => 1) (fun _ => 1) := ⟨_, rfl⟩
  obtain ⟨T, hT⟩ : ∃ T : ℝ, ∀ x1 g o, (lmeSr3Oracle D .nonInformative (s.ip _ _)).grad x0 ⟨⟨s.ell, s.ell⟩, none⟩ = .ok (g, o) →
      (wrapReg P.numFixed P.numRandom 1e-4 (l1Regularizer 2 (some w))).prox (fun i => x0 i - 1 / 40 * g i) (1 / 40) = .ok x1 → normSq (x1 - x0) ≤ T := by
    by_cases hex : ∃ x1 g o, (lmeSr3Oracle D .nonInformative (s.ip _ _)).grad x0 ⟨⟨s.ell, s.ell⟩, none⟩ = .ok (g, o) ∧
        (wrapReg P.numFixed P.numRandom 1e-4 (l1Regularizer 2 (some w))).prox (fun i => x0 i - 1 / 40 * g i) (1 / 40) = .ok x1
    · obtain ⟨x1, g, o, h1, h2⟩ := hex
      refine ⟨normSq (x1 - x0), fun x1' g' o' h3 h4 => ?_⟩
      cases h1.symm.trans h3
      cases h2.symm.trans h4
      exact le_rfl
    · exact ⟨0, fun x1 g o h1 h2 => absurd ⟨x1, g, o, h1, h2⟩ hex⟩
  obtain ⟨tol, htol⟩ : ∃ tol, tol = √(max T 0) := ⟨_, rfl⟩
  obtain ⟨Lf, c, hfit, -, -⟩ := C83_fit_problem_returns (sr3Lasso tol) (sr3Lasso_robust tol) none exTab ![26, 20] none exTabLabels true true none none P hP exTab_positive ⟨.nonInformative, rfl⟩ {}
    (by simp) (by simp) (by rintro w rfl; simp only [Option.getD_none, e1]; exact ⟨rfl, by simp⟩) (by rintro w rfl; simp only [Option.getD_none, e2]; exact ⟨rfl, by simp⟩)
  have hstep : (sr3Lasso tol).step = 1 / 40 := by
    unfold LmeModelCfg.step sr3Lasso exModel
    simp only [exSr3]
    norm_num
  have hconv := lmeSr3Fit_first (M := sr3Lasso tol) (s := s) (by simp [sr3Lasso]) (by rw [hs]; rfl) (by rw [hs]; rfl) rfl (by simp [sr3Lasso, exModel]) (by norm_num [sr3Lasso, exModel])
    (by change "loss" ∉ ["converged"]; decide) hD (b0 := fun _ => 1) (g0 := fun _ => 1) (hone _) (hone _)
    (by rw [show (sr3Lasso tol).tol = tol from rfl, htol]; exact Real.sqrt_nonneg _) (fun m w' base x1 g o _ hw' hbase hg hpx => by
      obtain rfl : w' = w := by
        rcases LmeReg.weights_mem hw' with ⟨h0, -⟩ | ⟨hlen, hw'⟩
        · cases h0
        · refine List.ofFn_injective (hw'.trans ?_)
          rw [hw]
          unfold joinX
          rw [List.ofFn_fin_append, hwb, hwg]
          change List.take _ (P.feWeights ++ P.reWeights) = _
          rw [List.take_of_length_le (by rw [e1, e2, hF, hR]; simp)]
      cases hbase
      rw [hstep, ← hx0] at hpx
      rw [← hx0] at hg
      rw [← hx0, show (sr3Lasso tol).tol = tol from rfl, htol, Real.sq_sqrt (le_max_right _ _)]
      exact (hT x1 g o hg hpx).trans (le_max_left _ _)) hfit
  obtain ⟨coef, b, b', g, g', t, o, sI, Gb, Gg, r, hc, hb, -, -, ht, -, -, hloop, -, -, hGb, hGg, hr, -, hopt, -⟩ := C169_l1 (sr3Lasso tol) s 2 rfl (by norm_num) (by norm_num [sr3Lasso, exModel])
    (by rw [hstep]; norm_num) (by rw [hs]; rfl) (by rw [hs]; rfl) rfl (by simp [sr3Lasso, exModel]) none P {} D hD hDp (by omega) (fun _ => 1) (hone _) (fun _ => one_pos)
    (fun _ => 1) (fun _ => 1) hwb hwg (fun _ => zero_le_one) (fun _ => zero_le_one) Lf (some c) hfit hconv
  cases hc
  have hts : t = 1 / 40 := (ht (by simp [sr3Lasso])).trans hstep
  subst hts
  subst hs
  exact ⟨P, D, tol, Lf, c, b, b', Gb, g', Gg, o, sI, r, hP, hD, hfit, hconv, hF, hR, hb, hloop, hr, hGg, hGb, fun i => (hopt i).1⟩

end Verif
