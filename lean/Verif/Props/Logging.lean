import Verif.Lemmas.SolverQuiet
import Verif.Props.LinModels
import Verif.Props.LmeTrap

/-!
# Asking for a log does not change the fit: C188
-/

namespace Verif

open Matrix

/-- The model with another collection of log keys. -/
def LinModelCfg.logging (M : LinModelCfg) (kind : KeyColl) (keys : List String) : LinModelCfg :=
  { M with loggerKind := kind, loggerKeys := keys }

/-- The model with another collection of log keys. -/
def LmeModelCfg.logging (M : LmeModelCfg) (kind : KeyColl) (keys : List String) : LmeModelCfg :=
  { M with loggerKind := kind, loggerKeys := keys }

theorem logIC_dict {n : ℕ} {L L' : Logger (PyVal ℝ n)} {a b : ℝ} (h : logIC L a b = .ok L') {k : String} (ha : k ≠ "aic") (hb : k ≠ "bic") :
    L'.dict k = L.dict k := by
  have h0 : ((if "aic" ∈ L.keys then L.add "aic" (.atom (.num (a : WithTop ℝ))) else .ok L) >>= fun L1 : Logger (PyVal ℝ n) =>
      if "bic" ∈ L1.keys then L1.add "bic" (.atom (.num (b : WithTop ℝ))) else .ok L1) = .ok L' := by
    rw [← h]
    unfold logIC
    split_ifs <;> rfl
  obtain ⟨L1, h1, h⟩ := except_bind_ok.1 h0
  have e1 : L1.dict k = L.dict k := by
    split_ifs at h1
    · rw [add_dict h1, Function.update_of_ne ha]
    · cases h1; rfl
  rw [← e1]
  split_ifs at h
  · rw [add_dict h, Function.update_of_ne hb]
  · cases h; rfl

theorem logIC_none {n : ℕ} {L : Logger (PyVal ℝ n)} {a b : ℝ} (ha : "aic" ∉ L.keys) (hb : "bic" ∉ L.keys) : logIC L a b = .ok L := by
  unfold logIC
  rw [if_neg ha]
  change (if "bic" ∈ L.keys then _ else _) = _
  rw [if_neg hb]

theorem get_eq {V : Type} {L L' : Logger V} {k : String} (h : L.dict k = L'.dict k) : L.get k = L'.get k := by
  unfold Logger.get
  rw [h]

theorem unit_quiet {n : ℕ} (o : Oracle ℝ n Unit) : Quiet o := fun _ _ _ _ _ => rfl

/-- **C188 for the linear models**: if a fit returns, then the fit of the same data by the same model without log keys
returns, with the same coefficients, the same convergence flag and, unless it is practical, the same number of
iterations. -/
theorem C188_linear (M : LinModelCfg) (P : LinProblem ℝ) (x0 : Option (Vec ℝ P.n)) (warm : Bool) (w : Option (Vec ℝ P.n)) (x : Vec ℝ P.n)
    (L : Logger (PyVal ℝ P.n)) (h : linFit M P x0 warm w = .ok (x, L)) :
    ∃ L0, linFit (M.logging .tuple []) P x0 warm w = .ok (x, L0) ∧ L0.get "converged" = L.get "converged" ∧
      ((∀ el, M.sr3 ≠ some (el, true)) → L0.get "iteration" = L.get "iteration") := by
  unfold linFit at h
  obtain ⟨sr3, tol, maxIter, stepping, fixedStepLen, prior, loggerKind, loggerKeys, regularizer⟩ := M
  unfold linFit LinModelCfg.logging
  cases sr3 with
  | none =>
    obtain ⟨pr, hpr, h⟩ := except_bind_ok.1 h
    obtain ⟨⟨⟨y, Ly⟩, sy⟩, hy, h⟩ := except_bind_ok.1 h
    obtain ⟨Lz, hL, h⟩ := except_bind_ok.1 h
    cases h
    obtain ⟨conv, it, hq, e1, e2⟩ := pgdOptimize_quiet (unit_quiet _) hy
    refine ⟨_, except_bind_ok.2 ⟨pr, hpr, except_bind_ok.2 ⟨_, hq, except_bind_ok.2 ⟨_, logIC_none (show "aic" ∉ ["converged", "iteration"] by decide) (show "bic" ∉ ["converged", "iteration"] by decide), rfl⟩⟩⟩, get_eq ?_, fun _ => get_eq ?_⟩
    · rw [logIC_dict hL (by decide) (by decide), e1]
      rfl
    · rw [logIC_dict hL (by decide) (by decide), e2]
      rfl
  | some e =>
    obtain ⟨el, practical⟩ := e
    cases prior with
    | gaussian p => cases h
    | none =>
      simp only at h ⊢
      by_cases hd : (sr3H P.a P.c el).det = 0
      · rw [if_pos hd] at h; cases h
      rw [if_neg hd] at h ⊢
      obtain ⟨⟨⟨y, Ly⟩, sy⟩, hy, h⟩ := except_bind_ok.1 h
      obtain ⟨Lz, hL, h⟩ := except_bind_ok.1 h
      cases h
      cases practical with
      | true =>
        rw [if_pos rfl] at hy ⊢
        obtain ⟨s1, L1, hq, hk, e1, e2⟩ := fakeOptimize_quiet hy
        refine ⟨L1, except_bind_ok.2 ⟨_, hq, except_bind_ok.2 ⟨_, logIC_none (show "aic" ∉ L1.keys by rw [hk]; decide) (show "bic" ∉ L1.keys by rw [hk]; decide), rfl⟩⟩, get_eq ?_, fun hp => absurd rfl (hp el)⟩
        rw [logIC_dict hL (by decide) (by decide), e1, e2]
      | false =>
        rw [if_neg (by decide)] at hy ⊢
        obtain ⟨conv, it, hq, e1, e2⟩ := pgdOptimize_quiet (unit_quiet _) hy
        refine ⟨_, except_bind_ok.2 ⟨_, hq, except_bind_ok.2 ⟨_, logIC_none (show "aic" ∉ ["converged", "iteration"] by decide) (show "bic" ∉ ["converged", "iteration"] by decide), rfl⟩⟩, get_eq ?_, fun _ => get_eq ?_⟩
        · rw [logIC_dict hL (by decide) (by decide), e1]
          rfl
        · rw [logIC_dict hL (by decide) (by decide), e2]
          rfl

/-- **C188**: two fits that differ in the log keys only, and both return, give the same coefficients and flag. -/
theorem C188_linear_two (M : LinModelCfg) (k1 k2 : KeyColl) (l1 l2 : List String) (P : LinProblem ℝ) (x0 : Option (Vec ℝ P.n)) (warm : Bool)
    (w : Option (Vec ℝ P.n)) (x1 x2 : Vec ℝ P.n) (L1 L2 : Logger (PyVal ℝ P.n)) (h1 : linFit (M.logging k1 l1) P x0 warm w = .ok (x1, L1))
    (h2 : linFit (M.logging k2 l2) P x0 warm w = .ok (x2, L2)) : x1 = x2 ∧ L1.get "converged" = L2.get "converged" := by
  obtain ⟨L, e, hc, -⟩ := C188_linear _ P x0 warm w x1 L1 h1
  obtain ⟨L', e', hc', -⟩ := C188_linear _ P x0 warm w x2 L2 h2
  change linFit (M.logging .tuple []) P x0 warm w = _ at e e'
  rw [e] at e'
  cases e'
  exact ⟨rfl, hc.symm.trans hc'⟩

/-! ## Mixed-effects models -/

section
variable {p q : ℕ}

/-- Without warm starts the evaluation of the SR3 value function leaves the oracle as it is. -/
theorem sr3_quiet (D : List (LmeGroup p q)) (P : LmeInstPrior ℝ p q) (c : IpCfg p q) (hr : c.reg = none) (hi : c.increaseLambdas = false)
    (hw : c.warmStart = false) : Quiet (lmeSr3Oracle D P c) := by
  intro x s v s' h
  change lmeSr3ValueFunction D P c s (xBeta x) (xGamma x) = _ at h
  unfold lmeSr3ValueFunction at h
  obtain ⟨⟨r, o1⟩, h1, h⟩ := ebind_ok.1 h
  obtain ⟨l, -, h⟩ := ebind_ok.1 h
  cases h
  unfold lmeFindIp at h1
  by_cases hq : q = 0
  · rw [if_pos hq] at h1
    obtain ⟨b, -, h1⟩ := ebind_ok.1 h1
    cases h1
    rfl
  · rw [if_neg hq] at h1
    obtain ⟨t, ht, h1⟩ := ebind_ok.1 h1
    cases h1
    have e := (ipLoop_relaxed hr hi ht).2.2
    rw [hw]
    change IpOracle.mk t.S _ = s
    rw [e]
    rfl

/-- The models for which the claim holds: plain, practical, and SR3 models without warm starts of the inner solver. -/
def LmeModelCfg.QuietLog (M : LmeModelCfg) : Prop := ∀ s, M.sr3 = some s → s.practical = true ∨ s.warmStartOracle = false

theorem lmeOptimize_quiet {M : LmeModelCfg} (hM : M.QuietLog) {D : List (LmeGroup p q)} {Pr : LmeInstPrior ℝ p q} {R : Regularizer ℝ (p + q)}
    {beta : Vec ℝ p} {gamma : Vec ℝ q} {x : Vec ℝ (p + q)} {L : Logger (PyVal ℝ (p + q))} (h : lmeOptimize M D Pr R beta gamma = .ok (x, L)) :
    ∃ L0, lmeOptimize (M.logging .tuple []) D Pr R beta gamma = .ok (x, L0) ∧ (∀ k ∈ L0.keys, k = "converged" ∨ k = "iteration") ∧
      L0.dict "converged" = L.dict "converged" ∧ ((∀ s, M.sr3 = some s → s.practical = false) → L0.dict "iteration" = L.dict "iteration") := by
  obtain ⟨sr3, tol, maxIter, stepping, fixedStepLen, initializer, prior, elasticEps, reg, loggerKind, loggerKeys⟩ := M
  unfold lmeOptimize at h ⊢
  unfold LmeModelCfg.logging
  cases sr3 with
  | none =>
    obtain ⟨bg, hbg, h⟩ := ebind_ok.1 h
    obtain ⟨⟨⟨y, Ly⟩, sy⟩, hy, h⟩ := ebind_ok.1 h
    cases h
    obtain ⟨conv, it, hq, e1, e2⟩ := pgdOptimize_quiet (unit_quiet _) hy
    exact ⟨_, ebind_ok.2 ⟨_, hbg, ebind_ok.2 ⟨_, hq, rfl⟩⟩, fun k hk => by simpa [flagsOnly] using hk, e1.symm, fun _ => e2.symm⟩
  | some s =>
    obtain ⟨bg, hbg, h⟩ := ebind_ok.1 h
    obtain ⟨⟨⟨y, Ly⟩, sy⟩, hy, h⟩ := ebind_ok.1 h
    cases h
    by_cases hp : s.practical = true
    · rw [if_pos hp] at hy
      obtain ⟨s1, L1, hq, hk, e1, e2⟩ := fakeOptimize_quiet hy
      refine ⟨L1, ebind_ok.2 ⟨_, hbg, ebind_ok.2 ⟨((x, L1), s1), ?_, rfl⟩⟩, fun k hk' => ?_, e1.trans e2.symm, fun h => ?_⟩
      · rw [if_pos hp]
        exact hq
      · rw [hk] at hk'
        exact .inl (by simpa using hk')
      · rw [h s rfl] at hp
        cases hp
    · rw [if_neg hp] at hy
      obtain ⟨conv, it, hq, e1, e2⟩ := pgdOptimize_quiet (sr3_quiet D Pr (s.ip p q) rfl rfl ((hM s rfl).resolve_left hp)) hy
      refine ⟨flagsOnly conv it, ebind_ok.2 ⟨_, hbg, ebind_ok.2 ⟨((x, flagsOnly conv it), sy), ?_, rfl⟩⟩, fun k hk => by simpa [flagsOnly] using hk, e1.symm, fun _ => e2.symm⟩
      rw [if_neg hp]
      exact hq

theorem logIf_dict {n : ℕ} {L L' : Logger (PyVal ℝ n)} {key k : String} {v : Except PyErr (PyVal ℝ n)} (h : logIf L key v = .ok L')
    (hk : k ≠ key) : L'.dict k = L.dict k := by
  unfold logIf at h
  split_ifs at h
  · obtain ⟨r, -, h⟩ := ebind_ok.1 h
    rw [add_dict h, Function.update_of_ne hk]
  · cases h
    rfl

theorem logIf_none {n : ℕ} {L : Logger (PyVal ℝ n)} {key : String} {v : Except PyErr (PyVal ℝ n)} (hk : key ∉ L.keys) : logIf L key v = .ok L := by
  unfold logIf
  rw [if_neg hk]

/-- **C188 for the mixed-effects models**, part that holds: plain models, practical SR3 models, and SR3 models with
`warm_start_oracle=False`. If `fit_problem` returns then the same call on the same model without log keys returns and
leaves the same `coef_` (which holds all coefficients and random effects), the same convergence flag and, unless
the model is practical, the same number of iterations. Missing: SR3 models with the default
`warm_start_oracle=True`, see `C188_violated`. -/
theorem C188_mixed_partial (M : LmeModelCfg) (hM : M.QuietLog) (st : LmeState) (P : LmeProblem ℝ) (a : LmeFitArgs)
    (L : Logger (PyVal ℝ (P.numFixed + P.numRandom))) (h : (lmeFitProblem M st P a).1 = .ok L) :
    ∃ L0, lmeFitProblem (M.logging .tuple []) st P a = (.ok L0, (lmeFitProblem M st P a).2) ∧
      L0.get "converged" = L.get "converged" ∧
      ((∀ s, M.sr3 = some s → s.practical = false) → L0.get "iteration" = L.get "iteration") := by
  unfold lmeFitProblem at h ⊢
  cases hc : lmeFitCore M st P a with
  | error e => rw [hc] at h; cases h
  | ok r =>
    rw [hc] at h
    simp only at h ⊢
    unfold lmeFitCore at hc
    obtain ⟨m, hm, hc⟩ := ebind_ok.1 hc
    obtain ⟨Pr, hPr, hc⟩ := ebind_ok.1 hc
    obtain ⟨w, hw, hc⟩ := ebind_ok.1 hc
    obtain ⟨base, hb, hc⟩ := ebind_ok.1 hc
    obtain ⟨D, hD, hc⟩ := ebind_ok.1 hc
    obtain ⟨beta, hbe, hc⟩ := ebind_ok.1 hc
    obtain ⟨gamma, hga, hc⟩ := ebind_ok.1 hc
    obtain ⟨⟨x, Lx⟩, ho, hc⟩ := ebind_ok.1 hc
    obtain ⟨us, hus, hc⟩ := ebind_ok.1 hc
    obtain ⟨per, hper, hc⟩ := ebind_ok.1 hc
    cases hc
    obtain ⟨L0, ho0, hk, e1, e2⟩ := lmeOptimize_quiet hM ho
    have hcore : lmeFitCore (M.logging .tuple []) st P a = .ok (⟨List.ofFn (xBeta x), List.ofFn (xGamma x), us.map (fun u => List.ofFn u), P.groupLabels,
        per.map (·.2)⟩, x, L0) := by
      unfold lmeFitCore
      exact ebind_ok.2 ⟨m, hm, ebind_ok.2 ⟨Pr, hPr, ebind_ok.2 ⟨w, hw, ebind_ok.2 ⟨base, hb, ebind_ok.2 ⟨D, hD, ebind_ok.2 ⟨beta, hbe, ebind_ok.2 ⟨gamma, hga,
        ebind_ok.2 ⟨(x, L0), ho0, ebind_ok.2 ⟨us, hus, ebind_ok.2 ⟨per, hper, rfl⟩⟩⟩⟩⟩⟩⟩⟩⟩⟩
    rw [hcore]
    simp only
    refine ⟨L0, Prod.ext (ebind_ok.2 ⟨D, hD, ebind_ok.2 ⟨Pr, hPr, ?_⟩⟩) rfl, ?_⟩
    · have hno : ∀ key : String, key ≠ "converged" → key ≠ "iteration" → key ∉ L0.keys := fun key h1 h2 hkey => (hk key hkey).elim h1 h2
      unfold lmeLogCriteria
      rw [logIf_none (hno _ (by decide) (by decide))]
      refine ebind_ok.2 ⟨L0, rfl, ?_⟩
      refine ebind_ok.2 ⟨L0, logIf_none (hno _ (by decide) (by decide)), ?_⟩
      refine ebind_ok.2 ⟨L0, logIf_none (hno _ (by decide) (by decide)), ?_⟩
      refine ebind_ok.2 ⟨L0, logIf_none (hno _ (by decide) (by decide)), ?_⟩
      exact logIf_none (hno _ (by decide) (by decide))
    · obtain ⟨D', hD', h⟩ := ebind_ok.1 h
      obtain ⟨Pr', hPr', h⟩ := ebind_ok.1 h
      unfold lmeLogCriteria at h
      obtain ⟨L1, h1, h⟩ := ebind_ok.1 h
      obtain ⟨L2, h2, h⟩ := ebind_ok.1 h
      obtain ⟨L3, h3, h⟩ := ebind_ok.1 h
      obtain ⟨L4, h4, h⟩ := ebind_ok.1 h
      have hd : ∀ k, k = "converged" ∨ k = "iteration" → L.dict k = Lx.dict k := by
        rintro k (rfl | rfl)
        all_goals
          rw [logIf_dict h (by decide), logIf_dict h4 (by decide), logIf_dict h3 (by decide), logIf_dict h2 (by decide), logIf_dict h1 (by decide)]
      exact ⟨get_eq (e1.trans (hd _ (.inl rfl)).symm), fun hp => get_eq ((e2 hp).trans (hd _ (.inr rfl)).symm)⟩

end

end Verif
