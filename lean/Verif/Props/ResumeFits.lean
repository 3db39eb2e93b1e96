import Verif.Props.Resume
import Verif.Props.LinSession
import Verif.Props.LinConverge
import Verif.Props.LmeLogged
import Verif.Props.LmeGenFit
import Verif.Props.LmeClasses

/-!
# C185: interrupted fits can be resumed
-/

namespace Verif

/-- With a negative tolerance the budget is used up. -/
theorem negative_tol {n : ℕ} {o : Oracle ℝ n Unit} {R : Regularizer ℝ n} {cfg : PGDCfg ℝ} (ht : cfg.tol < 0) {x0 x : Vec ℝ n} {L Lf : Logger (PyVal ℝ n)} {m : ℕ} (hm : cfg.maxIter = m)
    (h : pgdOptimize o R cfg x0 L () = .ok ((x, Lf), ())) : Lf.get "iteration" = .ok (.atom (.int m)) := by
  obtain ⟨k, X, Ls, s1, L1, -, -, -, hc, hi, -, hg, hend⟩ := pgdOptimize_trace o R cfg x0 L (fun _ _ _ _ => True) (fun _ _ _ _ _ _ _ _ => trivial) _ _ _ _ h
  have hfar : ∀ (xp : Option (Vec ℝ n)) (z : Vec ℝ n), farApart cfg.tol xp z := by
    intro xp z
    cases xp with
    | none => exact .inr ht
    | some y => exact .inl ht
  obtain rfl : k = m := by
    unfold guardAt at hend hg
    have h1 : ¬ ((0 + k : ℕ) : ℤ) < cfg.maxIter := fun h2 => hend ⟨hfar _ _, h2⟩
    rw [hm] at h1
    rcases Nat.eq_zero_or_pos k with rfl | hk
    · push_cast at h1
      omega
    · have := (hg (k - 1) (by omega)).2
      rw [hm] at this
      push_cast at this h1
      omega
  exact (Logger.add_get hi).1

/-- **C185** for linear models with the proximal gradient solver (all but the practical SR3 ones): let a fit return the coefficients `x` after `N` iterations.  For every `k < N` the fit with
`max_iter_solver = k` returns after `k` iterations, not converged, and a fit that starts from its coefficients (`warm_start` with `x0`) with the remaining budget returns the same coefficients `x`
after `N - k` iterations, with the same flag `converged`. -/
theorem C185_linear (M : LinModelCfg) (hsr : ∀ el, M.sr3 ≠ some (el, true)) (hkind : M.loggerKind = .tuple) (hkeys : M.loggerKeys.Nodup) (P : LinProblem ℝ) (x0 : Option (Vec ℝ P.n)) (warm : Bool)
    (w : Option (Vec ℝ P.n)) (x : Vec ℝ P.n) (Lf : Logger (PyVal ℝ P.n)) (N k : ℕ) (h : linFit M P x0 warm w = .ok (x, Lf)) (hN : Lf.get "iteration" = .ok (.atom (.int N))) (hkN : k < N) :
    ∃ x1 L1 L2, linFit { M with maxIter := k } P x0 warm w = .ok (x1, L1) ∧ linFit { M with maxIter := M.maxIter - k } P (some x1) true w = .ok (x, L2) ∧
      L1.get "iteration" = .ok (.atom (.int k)) ∧ L1.get "converged" = .ok (.atom (.bool false)) ∧
      L2.get "iteration" = .ok (.atom (.int (N - k))) ∧ L2.get "converged" = Lf.get "converged" := by
  have key : ∀ (o : Oracle ℝ P.n Unit) (A B : Vec ℝ P.n → ℝ), (do
        let r ← pgdOptimize o (M.regularizer P.n (w.getD fun _ => 1)) M.solver (if warm then x0.getD (fun _ => 1) else fun _ => 1) (Logger.init M.loggerKind M.loggerKeys) ()
        let L' ← logIC r.1.2 (A r.1.1) (B r.1.1)
        return (r.1.1, L') : Except PyErr (Vec ℝ P.n × Logger (PyVal ℝ P.n))) = .ok (x, Lf) →
      ∃ x1 L1 L2, (do
        let r ← pgdOptimize o (M.regularizer P.n (w.getD fun _ => 1)) { M.solver with maxIter := k } (if warm then x0.getD (fun _ => 1) else fun _ => 1) (Logger.init M.loggerKind M.loggerKeys) ()
        let L' ← logIC r.1.2 (A r.1.1) (B r.1.1)
        return (r.1.1, L') : Except PyErr (Vec ℝ P.n × Logger (PyVal ℝ P.n))) = .ok (x1, L1) ∧ (do
        let r ← pgdOptimize o (M.regularizer P.n (w.getD fun _ => 1)) { M.solver with maxIter := M.maxIter - k } x1 (Logger.init M.loggerKind M.loggerKeys) ()
        let L' ← logIC r.1.2 (A r.1.1) (B r.1.1)
        return (r.1.1, L') : Except PyErr (Vec ℝ P.n × Logger (PyVal ℝ P.n))) = .ok (x, L2) ∧
        L1.get "iteration" = .ok (.atom (.int k)) ∧ L1.get "converged" = .ok (.atom (.bool false)) ∧
        L2.get "iteration" = .ok (.atom (.int (N - k))) ∧ L2.get "converged" = Lf.get "converged" := by
    intro o A B h
    obtain ⟨⟨⟨xr, Lr⟩, _⟩, h1, h⟩ := except_bind_ok.1 h
    obtain ⟨L', h2, h⟩ := except_bind_ok.1 h
    cases h
    rw [logIC_keeps _ _ _ _ h2 _ (by decide) (by decide)] at hN ⊢
    rw [hkind] at h1 ⊢
    obtain ⟨x1, L1, L2, a1, a2, a3, a4, a5, a6, -⟩ := C185_solver o _ M.solver _ _ M.loggerKeys hkeys Lr N k h1 hN hkN
    obtain ⟨M1, m1⟩ := logIC_ok L1 (A x1) (B x1)
    obtain ⟨M2, m2⟩ := logIC_ok L2 (A _) (B _)
    refine ⟨x1, M1, M2, except_bind_ok.2 ⟨_, a1, except_bind_ok.2 ⟨M1, m1, rfl⟩⟩, except_bind_ok.2 ⟨_, a2, except_bind_ok.2 ⟨M2, m2, rfl⟩⟩, ?_, ?_, ?_, ?_⟩
    · rw [logIC_keeps _ _ _ _ m1 _ (by decide) (by decide), a3]
    · rw [logIC_keeps _ _ _ _ m1 _ (by decide) (by decide), a4]
    · rw [logIC_keeps _ _ _ _ m2 _ (by decide) (by decide), a5]
    · rw [logIC_keeps _ _ _ _ m2 _ (by decide) (by decide), a6]
  obtain ⟨sr3, tol, maxIter, stepping, fsl, prior, kind, keys, reg⟩ := M
  unfold linFit at h
  dsimp only at h
  cases sr3 with
  | none =>
    obtain ⟨prior, hp, h⟩ := except_bind_ok.1 h
    obtain ⟨x1, L1, L2, a1, a2, a3⟩ := key _ _ _ h
    exact ⟨x1, L1, L2, except_bind_ok.2 ⟨prior, hp, a1⟩, except_bind_ok.2 ⟨prior, hp, a2⟩, a3⟩
  | some s =>
    obtain ⟨el, practical⟩ := s
    cases practical with
    | true => exact absurd rfl (hsr el)
    | false =>
      cases prior with
      | gaussian params => cases h
      | none =>
        dsimp only at h
        by_cases hd : (sr3H P.a P.c el).det = 0
        · rw [if_pos hd] at h; cases h
        · rw [if_neg hd] at h
          obtain ⟨x1, L1, L2, a1, a2, a3⟩ := key _ _ _ h
          refine ⟨x1, L1, L2, ?_, ?_, a3⟩
          · unfold linFit
            dsimp only
            rw [if_neg hd]
            exact a1
          · unfold linFit
            dsimp only
            rw [if_neg hd]
            exact a2

/-- A case: the simple linear model with a negative tolerance makes all its 1000 iterations; it may be interrupted after 400. -/
example : ∃ x1 x L1 L2 Lf, linFit { linClass .dummy false {} with tol := -1, maxIter := 1000 } oneFeature none false none = .ok (x, Lf) ∧
    linFit { linClass .dummy false {} with tol := -1, maxIter := 400 } oneFeature none false none = .ok (x1, L1) ∧
    linFit { linClass .dummy false {} with tol := -1, maxIter := 1000 - 400 } oneFeature (some x1) true none = .ok (x, L2) := by
  obtain ⟨x, Lf, h⟩ := linFit_plain_returns { linClass .dummy false {} with tol := -1, maxIter := 1000 } rfl rfl rfl (by simp [linClass]) (fun _ _ _ => 0) (fun _ _ _ => rfl)
    (fun _ _ _ _ => ⟨_, rfl⟩) oneFeature none false none
  have hN : Lf.get "iteration" = .ok (.atom (.int 1000)) := by
    have h2 := h
    unfold linFit at h2
    obtain ⟨prior, -, h2⟩ := except_bind_ok.1 h2
    obtain ⟨⟨⟨xr, Lr⟩, _⟩, h3, h2⟩ := except_bind_ok.1 h2
    obtain ⟨L', h4, h2⟩ := except_bind_ok.1 h2
    cases h2
    rw [logIC_keeps _ _ _ _ h4 _ (by decide) (by decide)]
    exact negative_tol (by norm_num [LinModelCfg.solver]) rfl h3
  obtain ⟨x1, L1, L2, a1, a2, -⟩ := C185_linear { linClass .dummy false {} with tol := -1, maxIter := 1000 } (by rintro el ⟨⟩) rfl (by simp [linClass]) oneFeature none false none x Lf 1000 400 h hN (by norm_num)
  exact ⟨x1, x, L1, L2, Lf, h, a1, a2⟩

/-- **C185** for the plain mixed-effects models without the initializer `EM`: let a fit assign the coefficients `c` after `N` iterations.  If for `k < N` the fit with `max_iter_solver = k` assigns
coefficients `c1`, then a fit with these as initial parameters and the remaining budget, by this model or a new one, assigns `c`; if it returns its log then the log tells `N - k` iterations and the
same flag `converged`. -/
theorem C185_mixed (M : LmeModelCfg) (hs : M.sr3 = none) (hinit : M.initializer ≠ some "EM") (hkind : M.loggerKind = .tuple) (hkeys : M.loggerKeys.Nodup) (st st' : LmeState) (P : LmeProblem ℝ)
    (a : LmeFitArgs) (Lf : Logger (PyVal ℝ (P.numFixed + P.numRandom))) (c c1 : LmeCoef) (N k : ℕ) (h : lmeFitProblem M st P a = (.ok Lf, some c))
    (hN : Lf.get "iteration" = .ok (.atom (.int N))) (hkN : k < N) (h1 : (lmeFitProblem { M with maxIter := k } none P a).2 = some c1) :
    (lmeFitProblem { M with maxIter := M.maxIter - k } st' P { a with beta := some c1.beta, gamma := some c1.gamma }).2 = some c ∧
    (∀ L1, (lmeFitProblem { M with maxIter := k } none P a).1 = .ok L1 → L1.get "iteration" = .ok (.atom (.int k)) ∧ L1.get "converged" = .ok (.atom (.bool false))) ∧
    ∀ L2, (lmeFitProblem { M with maxIter := M.maxIter - k } st' P { a with beta := some c1.beta, gamma := some c1.gamma }).1 = .ok L2 →
      L2.get "iteration" = .ok (.atom (.int (N - k))) ∧ L2.get "converged" = Lf.get "converged" := by
  obtain ⟨sr3, tol, maxIter, stepping, fsl, init, prior, eps, reg, kind, keys⟩ := M
  dsimp only at hs hinit hkind
  subst hs hkind
  have start : ∀ (st : LmeState) (a : LmeFitArgs), lmeStart st P a = (a.beta.getD (List.replicate P.numFixed 1), a.gamma.getD (List.replicate P.numRandom 1)) := by
    intro st a
    unfold lmeStart
    cases st with
    | none => rfl
    | some c => simp [sklearnCheckTruth]
  -- the three runs of the solver
  unfold lmeFitProblem at h
  cases hc : lmeFitCore ⟨none, tol, maxIter, stepping, fsl, init, prior, eps, reg, .tuple, keys⟩ st P a with
  | error e => rw [hc] at h; cases h
  | ok r =>
  obtain ⟨cf, x, L⟩ := r
  rw [hc] at h
  simp only [Prod.mk.injEq, Option.some.injEq] at h
  obtain ⟨hl, rfl⟩ := h
  obtain ⟨D', hD', hl⟩ := ebind_ok.1 hl
  obtain ⟨Pr', hPr', hl⟩ := ebind_ok.1 hl
  rw [lmeLogCriteria_other hl (by decide)] at hN
  rw [lmeLogCriteria_other hl (by decide)]
  obtain ⟨m, Pr, w, base, D, beta, gamma, us, per, q1, q2, q3, q4, q5, q6, q7, q8, q9, q10, rfl⟩ := lmeFitCore_ok hc
  cases hc1 : lmeFitCore ⟨none, tol, k, stepping, fsl, init, prior, eps, reg, .tuple, keys⟩ none P a with
  | error e => unfold lmeFitProblem at h1; rw [hc1] at h1; cases h1
  | ok r1 =>
  obtain ⟨cf1, x1, L1⟩ := r1
  have e1 : cf1 = c1 := by
    unfold lmeFitProblem at h1
    rw [hc1] at h1
    exact Option.some.inj h1
  subst e1
  obtain ⟨m', Pr'', w', base', D'', beta', gamma', us', per', p1, p2, p3, p4, p5, p6, p7, p8, p9, p10, rfl⟩ := lmeFitCore_ok hc1
  rw [start] at p6 p7 q6 q7
  cases q1.symm.trans p1
  cases q2.symm.trans p2
  cases q3.symm.trans p3
  cases q4.symm.trans p4
  cases q5.symm.trans p5
  cases q6.symm.trans p6
  cases q7.symm.trans p7
  have opt : ∀ (mi : ℤ) (b : Vec ℝ P.numFixed) (g : Vec ℝ P.numRandom) (R : Regularizer ℝ (P.numFixed + P.numRandom)),
      lmeOptimize ⟨none, tol, mi, stepping, fsl, init, prior, eps, reg, .tuple, keys⟩ D Pr R b g =
        (pgdOptimize (lmeOracle D Pr) R { LmeModelCfg.solver ⟨none, tol, maxIter, stepping, fsl, init, prior, eps, reg, .tuple, keys⟩ with maxIter := mi } (joinX b g) (Logger.init .tuple keys) () >>=
          fun r => pure r.1) := by
    intro mi b g R
    unfold lmeOptimize lmeInitialize
    rw [if_neg hinit]
    rfl
  rw [opt] at q8 p8
  obtain ⟨⟨⟨y, Ly⟩, _⟩, q8, ey⟩ := ebind_ok.1 q8
  cases ey
  obtain ⟨⟨⟨y1, Ly1⟩, _⟩, p8, ey⟩ := ebind_ok.1 p8
  cases ey
  obtain ⟨z, M1, M2, a1, a2, a3, a4, a5, a6, -⟩ := C185_solver _ _ _ _ _ keys hkeys _ N k q8 hN hkN
  cases a1.symm.trans p8
  have core : lmeFitCore ⟨none, tol, maxIter - k, stepping, fsl, init, prior, eps, reg, .tuple, keys⟩ st' P
      { a with beta := some (List.ofFn (xBeta x1)), gamma := some (List.ofFn (xGamma x1)) } =
      .ok (⟨List.ofFn (xBeta x), List.ofFn (xGamma x), us.map (fun u => List.ofFn u), P.groupLabels, per.map (·.2)⟩, x, M2) := by
    unfold lmeFitCore
    refine ebind_ok.2 ⟨m, q1, ebind_ok.2 ⟨Pr, q2, ebind_ok.2 ⟨w, q3, ebind_ok.2 ⟨base, q4, ebind_ok.2 ⟨D, q5, ebind_ok.2 ⟨xBeta x1, ?_, ebind_ok.2 ⟨xGamma x1, ?_, ebind_ok.2 ⟨(x, M2), ?_,
      ebind_ok.2 ⟨us, q9, ebind_ok.2 ⟨per, q10, rfl⟩⟩⟩⟩⟩⟩⟩⟩⟩⟩
    · rw [start]; exact asVec_ok.2 rfl
    · rw [start]; exact asVec_ok.2 rfl
    · rw [opt, show joinX (xBeta x1) (xGamma x1) = x1 from Fin.append_castAdd_natAdd]
      exact ebind_ok.2 ⟨_, a2, rfl⟩
  refine ⟨?_, ?_, ?_⟩
  · unfold lmeFitProblem
    rw [core]
  · intro L1 hL1
    unfold lmeFitProblem at hL1
    rw [hc1] at hL1
    obtain ⟨D2, -, hL1⟩ := ebind_ok.1 hL1
    obtain ⟨Pr2, -, hL1⟩ := ebind_ok.1 hL1
    rw [lmeLogCriteria_other hL1 (by decide), lmeLogCriteria_other hL1 (by decide)]
    exact ⟨a3, a4⟩
  · intro L2 hL2
    unfold lmeFitProblem at hL2
    rw [core] at hL2
    obtain ⟨D2, -, hL2⟩ := ebind_ok.1 hL2
    obtain ⟨Pr2, -, hL2⟩ := ebind_ok.1 hL2
    rw [lmeLogCriteria_other hL2 (by decide), lmeLogCriteria_other hL2 (by decide)]
    exact ⟨a5, a6⟩

/-- The budget does not matter for the other hyperparameters. -/
theorem robust_maxIter {M : LmeModelCfg} (h : M.Robust) (i : ℤ) : ({ M with maxIter := i } : LmeModelCfg).Robust :=
  ⟨⟨⟨h.adm.1, h.adm.2, h.adm.3, h.adm.4⟩, h.kind, h.keys, h.sr3, h.scad⟩, h.init, h.vaida, h.flip⟩

/-- **C185** for tables: with hyperparameters that cannot fail, the interrupted fit and the resumed one return. -/
theorem C185_table {n l : ℕ} (M : LmeModelCfg) (hM : M.Robust) (hs : M.sr3 = none) (st st' : LmeState) (x : Matrix (Fin n) (Fin l) ℝ) (y : Vec ℝ n) (columns : Option (List String))
    (labels : List String) (ffi fri : Bool) (mustFe mustRe : Option (List String)) (P : LmeProblem ℝ) (hP : lmeFromXY x (some y) columns labels ffi fri mustFe mustRe = .ok P)
    (hpos : ∀ v : Fin l, labels[(v : ℕ)]? = some "variance" → ∀ r, 0 < x r v) (hprior : ∃ Pr, lmePriorFor M.prior P = .ok Pr) (a : LmeFitArgs)
    (hb0 : ∀ b, a.beta = some b → b.length = fixedCount labels ffi) (hg0 : ∀ g, a.gamma = some g → g.length = randomCount labels fri ∧ ∀ v ∈ g, 0 ≤ v)
    (hfe : ∀ w, a.feWeights.getD P.feWeights = w → w.length = fixedCount labels ffi ∧ ∀ v ∈ w, M.reg.WeightOk v)
    (hre : ∀ w, a.reWeights.getD P.reWeights = w → w.length = randomCount labels fri ∧ ∀ v ∈ w, M.reg.WeightOk v) (Lf : Logger (PyVal ℝ (P.numFixed + P.numRandom))) (c : LmeCoef) (N k : ℕ)
    (h : lmeFitProblem M st P a = (.ok Lf, some c)) (hN : Lf.get "iteration" = .ok (.atom (.int N))) (hkN : k < N) :
    ∃ L1 c1 L2, lmeFitProblem { M with maxIter := k } none P a = (.ok L1, some c1) ∧
      lmeFitProblem { M with maxIter := M.maxIter - k } st' P { a with beta := some c1.beta, gamma := some c1.gamma } = (.ok L2, some c) ∧
      L1.get "iteration" = .ok (.atom (.int k)) ∧ L1.get "converged" = .ok (.atom (.bool false)) ∧
      L2.get "iteration" = .ok (.atom (.int (N - k))) ∧ L2.get "converged" = Lf.get "converged" := by
  obtain ⟨L1, c1, h1, hg1, -⟩ := C83_fit_problem_returns_weights { M with maxIter := k } (robust_maxIter hM _) none x y columns labels ffi fri mustFe mustRe P hP hpos hprior a hb0 hg0 hfe hre
  obtain ⟨e2, e3, e4⟩ := C185_mixed M hs (fun hi => hM.init hi hs) hM.kind hM.keys st st' P a Lf c c1 N k h hN hkN (by rw [h1])
  have hlen : c1.beta.length = fixedCount labels ffi ∧ c1.gamma.length = randomCount labels fri := by
    obtain ⟨coef, v, L0, hc, hcore⟩ := lmeFitProblem_ok h1
    cases hc
    obtain ⟨m, Pr, w, base, D, beta, gamma, us, per, q1, q2, q3, q4, q5, q6, q7, q8, q9, q10, rfl⟩ := lmeFitCore_ok hcore
    obtain ⟨_, _, feW, reW, -, -, hlen, -, -, -, -, -, -, -, hPe⟩ := lmeFromXY_ok x (some y) columns labels ffi fri mustFe mustRe P hP
    have hnF : P.numFixed = fixedCount labels ffi := by
      have hcl : P.columnLabels = labels := by rw [hPe]
      rw [numFixed_eq P ffi fri (by rw [hPe]), fixedCount_eq, hcl]
    have hnR : P.numRandom = randomCount labels fri := by
      have hcl : P.columnLabels = labels := by rw [hPe]
      rw [numRandom_eq P ffi fri (by rw [hPe]), randomCount_eq, hcl]
    exact ⟨by simp [hnF], by simp [hnR]⟩
  obtain ⟨L2, c2, h2, -, -⟩ := C83_fit_problem_returns_weights { M with maxIter := M.maxIter - k } (robust_maxIter hM _) st' x y columns labels ffi fri mustFe mustRe P hP hpos hprior
    { a with beta := some c1.beta, gamma := some c1.gamma } (fun b hb => by cases hb; exact hlen.1) (fun g hg => by cases hg; exact ⟨hlen.2, hg1⟩) hfe hre
  rw [h2] at e2
  cases e2
  exact ⟨L1, c1, L2, h1, h2, (e3 L1 (by rw [h1])).1, (e3 L1 (by rw [h1])).2, (e4 L2 (by rw [h2])).1, (e4 L2 (by rw [h2])).2⟩

/-- A case: every plain class with its defaults and a negative tolerance on the example table, interrupted after 400 of its iterations. -/
example (sort : NpSort) (cl : LmeClassName) : ∃ (P : LmeProblem ℝ) (L1 L2 Lf : Logger (PyVal ℝ (P.numFixed + P.numRandom))) (c c1 : LmeCoef),
    lmeFitProblem { lmeDefaultModel sort cl false with tol := -1, maxIter := 1000 } none P {} = (.ok Lf, some c) ∧
    lmeFitProblem { lmeDefaultModel sort cl false with tol := -1, maxIter := 400 } none P {} = (.ok L1, some c1) ∧
    lmeFitProblem { lmeDefaultModel sort cl false with tol := -1, maxIter := 600 } none P { beta := some c1.beta, gamma := some c1.gamma } = (.ok L2, some c) := by
  obtain ⟨P, hP⟩ := exTab_ok' true true ![26, 20]
  obtain ⟨_, _, feW, reW, -, -, hlen, -, -, -, -, -, hf, hr', hPe⟩ := lmeFromXY_ok exTab (some ![26, 20]) none exTabLabels
    true true none none P hP
  have e1 : P.feWeights = [1, 1] := by rw [hPe]; cases hf; rfl
  have e2 : P.reWeights = [1, 1] := by rw [hPe]; cases hr'; rfl
  have hM0 := lmeDefaultModel_robust sort cl false
  have hM : ({ lmeDefaultModel sort cl false with tol := -1, maxIter := 1000 } : LmeModelCfg).Robust :=
    ⟨⟨⟨hM0.adm.1, hM0.adm.2, hM0.adm.3, hM0.adm.4⟩, hM0.kind, hM0.keys, hM0.sr3, hM0.scad⟩, hM0.init, hM0.vaida, hM0.flip⟩
  have hs : ({ lmeDefaultModel sort cl false with tol := -1, maxIter := 1000 } : LmeModelCfg).sr3 = none := by cases cl <;> rfl
  have hpr : ({ lmeDefaultModel sort cl false with tol := -1, maxIter := 1000 } : LmeModelCfg).prior = none := by cases cl <;> rfl
  have hw1 : ∀ w, ({} : LmeFitArgs).feWeights.getD P.feWeights = w → w.length = fixedCount exTabLabels true ∧ ∀ v ∈ w, v = 0 ∨ v = 1 := by
    rintro w rfl
    simp only [Option.getD_none, e1]
    exact ⟨rfl, by simp⟩
  have hw2 : ∀ w, ({} : LmeFitArgs).reWeights.getD P.reWeights = w → w.length = randomCount exTabLabels true ∧ ∀ v ∈ w, v = 0 ∨ v = 1 := by
    rintro w rfl
    simp only [Option.getD_none, e2]
    exact ⟨rfl, by simp⟩
  obtain ⟨Lf, c, h, -, -⟩ := C83_fit_problem_returns _ hM none exTab ![26, 20] none
    exTabLabels true true none none P hP exTab_positive ⟨.nonInformative, by rw [hpr]; rfl⟩ {} (by simp) (by simp) hw1 hw2
  have hN : Lf.get "iteration" = .ok (.atom (.int 1000)) := by
    have h2 := h
    unfold lmeFitProblem at h2
    split at h2
    · cases h2
    · rename_i r hc
      obtain ⟨cf, x, L⟩ := r
      simp only [Prod.mk.injEq, Option.some.injEq] at h2
      obtain ⟨D', hD', hl⟩ := ebind_ok.1 h2.1
      obtain ⟨Pr', hPr', hl⟩ := ebind_ok.1 hl
      rw [lmeLogCriteria_other hl (by decide)]
      obtain ⟨m, Pr, w, base, D, beta, gamma, us, per, q1, q2, q3, q4, q5, q6, q7, q8, -⟩ := lmeFitCore_ok hc
      unfold lmeOptimize at q8
      rw [hs] at q8
      obtain ⟨bg, -, q8⟩ := ebind_ok.1 q8
      obtain ⟨⟨⟨y, Ly⟩, _⟩, q8, ey⟩ := ebind_ok.1 q8
      cases ey
      exact negative_tol (by norm_num [LmeModelCfg.solver]) rfl q8
  obtain ⟨L1, c1, L2, a1, a2, -⟩ := C185_table _ hM hs none none exTab ![26, 20] none exTabLabels true true none none P hP exTab_positive ⟨.nonInformative, by rw [hpr]; rfl⟩ {} (by simp) (by simp)
    (fun w hw => ⟨(hw1 w hw).1, fun v hv => LmeReg.weightOk_of ((hw1 w hw).2 v hv)⟩) (fun w hw => ⟨(hw2 w hw).1, fun v hv => LmeReg.weightOk_of ((hw2 w hw).2 v hv)⟩) Lf c 1000 400 h hN (by norm_num)
  exact ⟨P, L1, L2, Lf, c, c1, h, a1, a2⟩

end Verif
