import Verif.Props.Exact
import Verif.Props.LmeAic
import Verif.Props.LmeWarm
import Verif.Lemmas.LmeSelect

/-!
# C99: the criteria in the log of a mixed-effects fit
-/

open Matrix

namespace Verif

variable {p q : ℕ}

/-- What the logging after a fit leaves in the logger. -/
theorem lmeLogCriteria_get {n : ℕ} {tol : ℝ} {D : List (LmeGroup p q)} {Pr : LmeInstPrior ℝ p q}
    {hess : Except PyErr (Matrix (Fin p) (Fin p) ℝ)} {beta : Vec ℝ p} {gamma : Vec ℝ q} {L L' : Logger (PyVal ℝ n)}
    (h : lmeLogCriteria tol D Pr hess beta gamma L = .ok L') :
    ("vaida_aic" ∈ L.keys → ∃ r, lmeVaida D Pr (Real.sqrt tol) false beta gamma = .ok r ∧
      L'.get "vaida_aic" = .ok (.atom (.num (r : WithTop ℝ)))) ∧
    ("vaida_aic_marginalized" ∈ L.keys → ∃ r, lmeVaida D Pr (Real.sqrt tol) true beta gamma = .ok r ∧
      L'.get "vaida_aic_marginalized" = .ok (.atom (.num (r : WithTop ℝ)))) ∧
    ("jones_bic" ∈ L.keys → ∃ r, lmeJonesBic D Pr (Real.sqrt tol) beta gamma = .ok r ∧
      L'.get "jones_bic" = .ok (.atom (.num (r : WithTop ℝ)))) ∧
    ("muller_ic" ∈ L.keys → ∃ r, lmeMullerHui D Pr (Real.sqrt tol) beta gamma = .ok r ∧
      L'.get "muller_ic" = .ok (.atom (.num (r : WithTop ℝ)))) ∧
    ("flip_probabilities_beta" ∈ L.keys → ∃ r, lmeFlipProbabilities hess beta = .ok r ∧
      L'.get "flip_probabilities_beta" = .ok (.atom (.arr (List.ofFn r)))) := by
  unfold lmeLogCriteria at h
  obtain ⟨L1, h1, h⟩ := ebind_ok.1 h
  obtain ⟨L2, h2, h⟩ := ebind_ok.1 h
  obtain ⟨L3, h3, h⟩ := ebind_ok.1 h
  obtain ⟨L4, h4, h⟩ := ebind_ok.1 h
  obtain ⟨k1, d1, e1⟩ := logIf_keys h1
  obtain ⟨k2, d2, e2⟩ := logIf_keys h2
  obtain ⟨k3, d3, e3⟩ := logIf_keys h3
  obtain ⟨k4, d4, e4⟩ := logIf_keys h4
  obtain ⟨k5, d5, e5⟩ := logIf_keys h
  refine ⟨fun hk => ?_, fun hk => ?_, fun hk => ?_, fun hk => ?_, fun hk => ?_⟩
  · obtain ⟨v, hv, e⟩ := e1 hk
    obtain ⟨r, hr, rfl⟩ := criterion_eq hv
    refine ⟨r, hr, ?_⟩
    unfold Logger.get
    rw [d5 _ (by decide), d4 _ (by decide), d3 _ (by decide), d2 _ (by decide), e]
  · obtain ⟨v, hv, e⟩ := e2 (by rw [k1]; exact hk)
    obtain ⟨r, hr, rfl⟩ := criterion_eq hv
    refine ⟨r, hr, ?_⟩
    unfold Logger.get
    rw [d5 _ (by decide), d4 _ (by decide), d3 _ (by decide), e]
  · obtain ⟨v, hv, e⟩ := e3 (by rw [k2, k1]; exact hk)
    obtain ⟨r, hr, rfl⟩ := criterion_eq hv
    refine ⟨r, hr, ?_⟩
    unfold Logger.get
    rw [d5 _ (by decide), d4 _ (by decide), e]
  · obtain ⟨v, hv, e⟩ := e4 (by rw [k3, k2, k1]; exact hk)
    obtain ⟨r, hr, rfl⟩ := criterion_eq hv
    refine ⟨r, hr, ?_⟩
    unfold Logger.get
    rw [d5 _ (by decide), e]
  · obtain ⟨v, hv, e⟩ := e5 (by rw [k4, k3, k2, k1]; exact hk)
    cases hf : lmeFlipProbabilities hess beta with
    | error err => rw [hf] at hv; cases hv
    | ok r =>
      rw [hf] at hv
      refine ⟨r, rfl, ?_⟩
      unfold Logger.get
      rw [e, ← Except.ok.inj hv]

theorem lmeLogCriteria_other {n : ℕ} {tol : ℝ} {D : List (LmeGroup p q)} {Pr : LmeInstPrior ℝ p q}
    {hess : Except PyErr (Matrix (Fin p) (Fin p) ℝ)} {beta : Vec ℝ p} {gamma : Vec ℝ q} {L L' : Logger (PyVal ℝ n)}
    (h : lmeLogCriteria tol D Pr hess beta gamma L = .ok L') {k : String}
    (hk : k ∉ ["vaida_aic", "vaida_aic_marginalized", "jones_bic", "muller_ic", "flip_probabilities_beta"]) :
    L'.get k = L.get k := by
  simp only [List.mem_cons, List.not_mem_nil, or_false, not_or] at hk
  obtain ⟨n1, n2, n3, n4, n5⟩ := hk
  unfold lmeLogCriteria at h
  obtain ⟨L1, h1, h⟩ := ebind_ok.1 h
  obtain ⟨L2, h2, h⟩ := ebind_ok.1 h
  obtain ⟨L3, h3, h⟩ := ebind_ok.1 h
  obtain ⟨L4, h4, h⟩ := ebind_ok.1 h
  unfold Logger.get
  rw [(logIf_keys h).2.1 k n5, (logIf_keys h4).2.1 k n4, (logIf_keys h3).2.1 k n3, (logIf_keys h2).2.1 k n2,
    (logIf_keys h1).2.1 k n1]

theorem lmeOptimize_keys {M : LmeModelCfg} {D : List (LmeGroup p q)} {Pr : LmeInstPrior ℝ p q} {R : Regularizer ℝ (p + q)}
    {beta : Vec ℝ p} {gamma : Vec ℝ q} {x : Vec ℝ (p + q)} {L : Logger (PyVal ℝ (p + q))}
    (h : lmeOptimize M D Pr R beta gamma = .ok (x, L)) : ∀ k ∈ M.loggerKeys, k ∈ L.keys := by
  unfold lmeOptimize at h
  simp only at h
  split at h
  · obtain ⟨bg, -, h⟩ := ebind_ok.1 h
    obtain ⟨⟨⟨x', L'⟩, u⟩, hr, h⟩ := ebind_ok.1 h
    cases h
    exact fun k hk => pgdOptimize_keys hr k hk
  · rename_i s hs
    obtain ⟨bg, -, h⟩ := ebind_ok.1 h
    obtain ⟨⟨⟨x', L'⟩, u⟩, hr, h⟩ := ebind_ok.1 h
    cases h
    split_ifs at hr
    · exact fun k hk => fakeOptimize_keys hr k hk
    · exact fun k hk => pgdOptimize_keys hr k hk

/-- **C99**: after every successful `fit_problem` (any model class, regularizer, prior, initializer, state and arguments)
the entries of the log for the information criteria and for the flip probabilities, if asked for, are those of the
coefficients returned: the likelihood and the prior are taken at them, and those counted are at least `sqrt(tol)` in
absolute value, where `tol` is the tolerance of the solver (`1e-4` for the practical one). -/
theorem C99_logged (M : LmeModelCfg) (st : LmeState) (P : LmeProblem ℝ) (a : LmeFitArgs) (c : LmeState)
    (L : Logger (PyVal ℝ (P.numFixed + P.numRandom))) (h : lmeFitProblem M st P a = (.ok L, c)) :
    ∃ (coef : LmeCoef) (D : List (LmeGroup P.numFixed P.numRandom)) (Pr : LmeInstPrior ℝ P.numFixed P.numRandom)
      (beta : Vec ℝ P.numFixed) (gamma : Vec ℝ P.numRandom) (tol : ℝ),
      c = some coef ∧ coef.beta = List.ofFn beta ∧ coef.gamma = List.ofFn gamma ∧
      lmeGroups P = .ok D ∧ lmePriorFor M.prior P = .ok Pr ∧ InDomain D gamma ∧
      tol = (if ∃ s, M.sr3 = some s ∧ s.practical = true then 1e-4 else M.tol) ∧
      let n : ℝ := ((D.map fun g => g.n).sum : ℕ)
      let k : ℝ := Nat.card {i // Real.sqrt tol ≤ |beta i|}
      let l : ℝ := Nat.card {j // Real.sqrt tol ≤ |gamma j|}
      let nll : ℝ := marginalNLL D beta gamma + Pr.loss beta gamma
      ("jones_bic" ∈ M.loggerKeys →
        L.get "jones_bic" = .ok (.atom (.num ((2 * nll + (k + l) * Real.log (effSize D gamma) : ℝ) : WithTop ℝ)))) ∧
      ("muller_ic" ∈ M.loggerKeys →
        L.get "muller_ic" = .ok (.atom (.num ((2 / n * nll + 1 / n * Real.log D.length * k + 2 / n * l : ℝ) : WithTop ℝ)))) ∧
      ("vaida_aic_marginalized" ∈ M.loggerKeys → L.get "vaida_aic_marginalized" =
        .ok (.atom (.num ((2 * nll + 2 * (if 0 < n - k - l - 1 then n / (n - k - l - 1) else 1) * (k + l) : ℝ) : WithTop ℝ)))) ∧
      ("vaida_aic" ∈ M.loggerKeys → n - k - 2 ≠ 0 ∧ n - k ≠ 0 ∧ ∃ rho w, lmeDdf D gamma = .ok rho ∧ lmeDemarginalizedLoss D Pr beta gamma = .ok w ∧
        L.get "vaida_aic" = .ok (.atom (.num ((2 * w + 2 * (n / (n - k - 2) * (rho - (rho - k) / (n - k))) * (k + l) : ℝ)
          : WithTop ℝ)))) ∧
      ("flip_probabilities_beta" ∈ M.loggerKeys → ∃ f : Vec ℝ P.numFixed,
        (M.sr3 = none → lmeFlipProbabilities (lmeHessianBeta D Pr gamma) beta = .ok f) ∧
        (∀ s, M.sr3 = some s → lmeFlipProbabilities (lmeSr3HessianBeta D Pr ⟨s.ell, s.ell⟩ gamma) beta = .ok f) ∧
        L.get "flip_probabilities_beta" = .ok (.atom (.arr (List.ofFn f)))) := by
  classical
  unfold lmeFitProblem at h
  split at h
  · cases h
  rename_i r hr
  obtain ⟨coef, x, L0⟩ := r
  simp only [Prod.mk.injEq] at h
  obtain ⟨h, hc⟩ := h
  obtain ⟨D, hD, h⟩ := ebind_ok.1 h
  obtain ⟨Pr, hPr, h⟩ := ebind_ok.1 h
  obtain ⟨m, Pr', w, base, D', b0, g0, us, per, -, -, -, -, hD', -, -, hopt, hus, -, hcoef⟩ := lmeFitCore_ok hr
  cases hD.symm.trans hD'
  have hd := (lmeRandomEffects_ok.1 hus).1
  have hkeys := lmeOptimize_keys hopt
  have htol : M.solverTol = (if ∃ s, M.sr3 = some s ∧ s.practical = true then 1e-4 else M.tol) := by
    unfold LmeModelCfg.solverTol
    cases hs : M.sr3 with
    | none => simp
    | some s => simp
  have hcard : ∀ {n : ℕ} (v : Vec ℝ n), Nat.card {i // Real.sqrt M.solverTol ≤ |v i|} = countGe (Real.sqrt M.solverTol) v := by
    intro n v
    unfold countGe
    rw [Nat.card_eq_fintype_card, Fintype.card_subtype]
  obtain ⟨e1, e2, e3, e4, e5⟩ := lmeLogCriteria_get h
  refine ⟨coef, D, Pr, xBeta x, xGamma x, M.solverTol, hc.symm, by rw [hcoef], by rw [hcoef], hD, hPr, hd, htol, ?_⟩
  simp only [hcard]
  refine ⟨fun hk => ?_, fun hk => ?_, fun hk => ?_, fun hk => ?_, fun hk => ?_⟩
  · obtain ⟨v, hv, e⟩ := e3 (hkeys _ hk)
    rw [lmeJonesBic_eq hd] at hv
    rw [e, ← Except.ok.inj hv]
  · obtain ⟨v, hv, e⟩ := e4 (hkeys _ hk)
    rw [lmeMullerHui_eq hd] at hv
    rw [e, ← Except.ok.inj hv]
    rfl
  · obtain ⟨v, hv, e⟩ := e2 (hkeys _ hk)
    rw [lmeVaida_marg_eq hd] at hv
    rw [e, ← Except.ok.inj hv]
    rfl
  · obtain ⟨v, hv, e⟩ := e1 (hkeys _ hk)
    obtain ⟨h0, rho, w, h1, h2, rfl⟩ := lmeVaida_cond_ok.1 hv
    exact ⟨h0.1, h0.2, rho, w, h1, h2, e⟩
  · obtain ⟨f, hf, e⟩ := e5 (hkeys _ hk)
    unfold LmeModelCfg.hessian at hf
    refine ⟨f, fun hs => by rw [hs] at hf; exact hf, fun s hs => by rw [hs] at hf; exact hf, e⟩

/-- Non-vacuity of C99: fitting the example problem with a practical SR3 model logs the BIC that counts the coefficients
of size at least `sqrt(1e-4) = 0.01`. -/
example : ∃ (P : LmeProblem ℝ) (L : Logger (PyVal ℝ (P.numFixed + P.numRandom))) (coef : LmeCoef)
    (D : List (LmeGroup P.numFixed P.numRandom)) (beta : Vec ℝ P.numFixed) (gamma : Vec ℝ P.numRandom),
    lmeFromXY exTab (some ![26, 20]) none exTabLabels true true none none = .ok P ∧
    lmeFitProblem (exModel (some (exSr3 true)) 100 (.l1 2)) none P {} = (.ok L, some coef) ∧ lmeGroups P = .ok D ∧
    coef.beta = List.ofFn beta ∧ coef.gamma = List.ofFn gamma ∧
    L.get "jones_bic" = .ok (.atom (.num ((2 * marginalNLL D beta gamma +
      ((Nat.card {i // 0.01 ≤ |beta i|} : ℝ) + Nat.card {j // 0.01 ≤ |gamma j|}) * Real.log (effSize D gamma) : ℝ)
        : WithTop ℝ))) := by
  obtain ⟨P, hP⟩ := exTab_ok' true true ![26, 20]
  obtain ⟨_, _, feW, reW, -, -, hlen, -, -, -, -, -, hf, hr, hPe⟩ := lmeFromXY_ok exTab (some ![26, 20]) none exTabLabels
    true true none none P hP
  have e1 : P.feWeights = [1, 1] := by rw [hPe]; cases hf; rfl
  have e2 : P.reWeights = [1, 1] := by rw [hPe]; cases hr; rfl
  obtain ⟨L, c, h1, -, -⟩ := C83_fit_problem_returns _ (exModel_robust (some (exSr3 true)) (by
      rintro s h; cases h; exact ⟨by norm_num [exSr3], rfl⟩) 100 (.l1 2) exL1 (by simp)) none exTab ![26, 20] none
    exTabLabels true true none none P hP exTab_positive ⟨.nonInformative, rfl⟩ {} (by simp) (by simp)
    (by rintro w rfl; simp only [Option.getD_none, e1]; exact ⟨rfl, by simp⟩)
    (by rintro w rfl; simp only [Option.getD_none, e2]; exact ⟨rfl, by simp⟩)
  obtain ⟨coef, D, Pr, beta, gamma, tol, h2, hb, hg, hD, hPr, -, ht, hj, -⟩ := C99_logged _ _ _ _ _ _ h1
  cases h2
  cases hPr
  have : Real.sqrt tol = 0.01 := by
    rw [ht, if_pos ⟨exSr3 true, rfl, rfl⟩, show (1e-4 : ℝ) = 0.01 ^ 2 by norm_num]
    exact Real.sqrt_sq (by norm_num)
  refine ⟨P, L, c, D, beta, gamma, hP, h1, hD, hb, hg, ?_⟩
  have := hj (by change _ ∈ ["converged", "loss", "jones_bic", "muller_ic"]; decide)
  simp_all [LmeInstPrior.loss]

end Verif
