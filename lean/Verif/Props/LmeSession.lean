import Verif.Model.LmeSession
import Verif.Spec.Arrays
import Verif.Props.LmeIdentified
import Verif.Props.LmeLogged

/-!
# Mixed-model objects: the estimator protocol (C140)
-/

namespace Verif

open Matrix

variable {p q N k : ℕ}

/-! ## The keys of the log -/

theorem Logger.add_keys_sub {V : Type*} {L L' : Logger V} {key : String} {v : LVal V} (h : L.add key v = .ok L') : ∀ j ∈ L'.keys, j ∈ L.keys ∨ j = key := by
  unfold Logger.add at h
  dsimp only at h
  split_ifs at h
  · cases h; exact fun j hj => .inl hj
  · split at h
    · cases h
      intro j hj
      rcases List.mem_append.1 hj with hj | hj
      · exact .inl hj
      · exact .inr (List.mem_singleton.1 hj)
    · cases h

/-- The solvers add only `converged` and `iteration` to the keys of the log. -/
theorem lmeOptimize_keys_sub {M : LmeModelCfg} {D : List (LmeGroup p q)} {Pr : LmeInstPrior ℝ p q} {R : Regularizer ℝ (p + q)}
    {beta : Vec ℝ p} {gamma : Vec ℝ q} {x : Vec ℝ (p + q)} {L : Logger (PyVal ℝ (p + q))}
    (h : lmeOptimize M D Pr R beta gamma = .ok (x, L)) : ∀ j ∈ L.keys, j ∈ M.loggerKeys ∨ j = "converged" ∨ j = "iteration" := by
  have hp : ∀ {σ : Type} {o : Oracle ℝ (p + q) σ} {cfg : PGDCfg ℝ} {x0 x : Vec ℝ (p + q)} {L L' : Logger (PyVal ℝ (p + q))} {s s' : σ},
      pgdOptimize o R cfg x0 L s = .ok ((x, L'), s') → ∀ j ∈ L'.keys, j ∈ L.keys ∨ j = "converged" ∨ j = "iteration" := by
    intro σ o cfg x0 x L L' s s' h j hj
    unfold pgdOptimize at h
    obtain ⟨L0, s1, h0, h⟩ := bind_ok.1 h
    obtain ⟨r, s2, hr, h⟩ := bind_ok.1 h
    obtain ⟨L1, s3, h1, h⟩ := bind_ok.1 h
    obtain ⟨L2, s4, h2, h⟩ := bind_ok.1 h
    obtain ⟨he, -⟩ := pure_ok.1 h
    cases he
    rcases Logger.add_keys_sub (callReg_ok.1 h2).1 j hj with hj | hj
    · rcases Logger.add_keys_sub (callReg_ok.1 h1).1 j hj with hj | hj
      · rw [pgdLoop_keys _ _ _ _ _ _ _ hr, logBlock_keepKeys h0] at hj
        exact .inl hj
      · exact .inr (.inl hj)
    · exact .inr (.inr hj)
  have hfake : ∀ {σ : Type} {o : Oracle ℝ (p + q) σ} {f : Vec ℝ (p + q) → PyM σ (Vec ℝ (p + q))} {x0 x : Vec ℝ (p + q)} {L L' : Logger (PyVal ℝ (p + q))} {s s' : σ},
      fakeOptimize o f R x0 L s = .ok ((x, L'), s') → ∀ j ∈ L'.keys, j ∈ L.keys ∨ j = "converged" ∨ j = "iteration" := by
    intro σ o f x0 x L L' s s' h j hj
    unfold fakeOptimize at h
    obtain ⟨z, s1, -, h⟩ := bind_ok.1 h
    obtain ⟨L1, s2, h1, h⟩ := bind_ok.1 h
    obtain ⟨L2, s3, h2, h⟩ := bind_ok.1 h
    obtain ⟨he, -⟩ := pure_ok.1 h
    cases he
    rcases Logger.add_keys_sub (callReg_ok.1 h2).1 j hj with hj | hj
    · refine .inl ?_
      split_ifs at h1 with hl
      · obtain ⟨l, s4, -, h1⟩ := bind_ok.1 h1
        rcases Logger.add_keys_sub (callReg_ok.1 h1).1 j hj with hj | rfl
        · exact hj
        · exact hl
      · obtain ⟨he, -⟩ := pure_ok.1 h1
        rwa [he]
    · exact .inr (.inl hj)
  unfold lmeOptimize at h
  simp only at h
  split at h
  · obtain ⟨bg, -, h⟩ := ebind_ok.1 h
    obtain ⟨⟨⟨x', L'⟩, u⟩, hr, h⟩ := ebind_ok.1 h
    cases h
    exact fun k hk => hp hr k hk
  · rename_i s hs
    obtain ⟨bg, -, h⟩ := ebind_ok.1 h
    obtain ⟨⟨⟨x', L'⟩, u⟩, hr, h⟩ := ebind_ok.1 h
    cases h
    split_ifs at hr
    · exact fun k hk => hfake hr k hk
    · exact fun k hk => hp hr k hk

/-! ## Criteria that cannot fail -/

theorem logIf_ok' {n : ℕ} (L : Logger (PyVal ℝ n)) (key : String) (v : Except PyErr (PyVal ℝ n))
    (hv : key ∈ L.keys → ∃ r, v = .ok r) : ∃ L', logIf L key v = .ok L' ∧ L'.keys = L.keys := by
  unfold logIf
  by_cases hk : key ∈ L.keys
  · obtain ⟨r, rfl⟩ := hv hk
    rw [if_pos hk]
    refine ⟨{ L with dict := Function.update L.dict key (some (.atom r)) }, ?_, rfl⟩
    change L.add key (.atom r) = _
    unfold Logger.add
    simp only [if_pos hk]
  · rw [if_neg hk]
    exact ⟨L, rfl, rfl⟩

/-- Whatever the logger, the criteria before the flip probabilities are logged when the conditional one, if asked for, evaluates. -/
theorem lmeLogCriteria_reduce {n : ℕ} (tol : ℝ) {D : List (LmeGroup p q)} (Pr : LmeInstPrior ℝ p q)
    (hess : Except PyErr (Matrix (Fin p) (Fin p) ℝ)) (beta : Vec ℝ p) {gamma : Vec ℝ q} (hd : InDomain D gamma)
    (L : Logger (PyVal ℝ n)) (hv : "vaida_aic" ∈ L.keys → ∃ r, lmeVaida D Pr (Real.sqrt tol) false beta gamma = .ok r) :
    ∃ L', L'.keys = L.keys ∧ lmeLogCriteria tol D Pr hess beta gamma L =
      logIf L' "flip_probabilities_beta" ((lmeFlipProbabilities hess beta).map fun v => .arr (List.ofFn v)) := by
  obtain ⟨L1, h1, k1⟩ := logIf_ok' L "vaida_aic" (criterion (lmeVaida D Pr (Real.sqrt tol) false beta gamma))
    fun h => criterion_ok (hv h)
  obtain ⟨L2, h2, k2⟩ := logIf_ok' L1 "vaida_aic_marginalized" (criterion (lmeVaida D Pr (Real.sqrt tol) true beta gamma))
    fun _ => criterion_ok ⟨_, lmeVaida_marg_eq hd _ _⟩
  obtain ⟨L3, h3, k3⟩ := logIf_ok' L2 "jones_bic" (criterion (lmeJonesBic D Pr (Real.sqrt tol) beta gamma))
    fun _ => criterion_ok ⟨_, lmeJonesBic_eq hd _ _⟩
  obtain ⟨L4, h4, k4⟩ := logIf_ok' L3 "muller_ic" (criterion (lmeMullerHui D Pr (Real.sqrt tol) beta gamma))
    fun _ => criterion_ok ⟨_, lmeMullerHui_eq hd _ _⟩
  refine ⟨L4, by rw [k4, k3, k2, k1], ?_⟩
  unfold lmeLogCriteria
  rw [h1]
  change (logIf L1 "vaida_aic_marginalized" _ >>= _) = _
  rw [h2]
  change (logIf L2 "jones_bic" _ >>= _) = _
  rw [h3]
  change (logIf L3 "muller_ic" _ >>= _) = _
  rw [h4]
  rfl

/-- Models whose logging after the fit cannot raise: no conditional criterion, flip probabilities for SR3 models only. -/
def LmeModelCfg.SafeKeys (M : LmeModelCfg) : Prop :=
  "vaida_aic" ∉ M.loggerKeys ∧ ("flip_probabilities_beta" ∈ M.loggerKeys → ∃ s, M.sr3 = some s ∧ 0 < s.ell)

/-- With such keys a fit that raises leaves the coefficients alone. -/
theorem lmeFitProblem_keeps {M : LmeModelCfg} (hM : M.SafeKeys) (st : LmeState) (P : LmeProblem ℝ) (a : LmeFitArgs) {e : PyErr}
    (h : (lmeFitProblem M st P a).1 = .error e) : (lmeFitProblem M st P a).2 = st := by
  cases hc : lmeFitCore M st P a with
  | error e' => unfold lmeFitProblem; rw [hc]
  | ok r =>
    exfalso
    obtain ⟨coef, x, L⟩ := r
    obtain ⟨m, Pr, w, base, D, b0, g0, us, per, -, hPr, -, -, hD, -, -, hopt, hus, -, -⟩ := lmeFitCore_ok hc
    have hd := (lmeRandomEffects_ok.1 hus).1
    have hk := lmeOptimize_keys_sub hopt
    have hk' : ∀ key, key ∈ L.keys → key ≠ "converged" → key ≠ "iteration" → key ∈ M.loggerKeys := fun key h h1 h2 => by
      rcases hk _ h with h | h | h
      · exact h
      · exact absurd h h1
      · exact absurd h h2
    obtain ⟨L', hL', he⟩ := lmeLogCriteria_reduce M.solverTol Pr (M.hessian D Pr (xGamma x)) (xBeta x) hd L
      fun h => absurd (hk' _ h (by decide) (by decide)) hM.1
    obtain ⟨L'', h'', -⟩ := logIf_ok' L' "flip_probabilities_beta" ((lmeFlipProbabilities (M.hessian D Pr (xGamma x)) (xBeta x)).map fun v => .arr (List.ofFn v)) (by
      intro hf
      rw [hL'] at hf
      obtain ⟨s, hs, hell⟩ := hM.2 (hk' _ hf (by decide) (by decide))
      unfold LmeModelCfg.hessian
      rw [hs]
      simp only
      rw [sr3_flip_ok (lmePriorFor_reachable hPr) hd hell]
      exact ⟨_, rfl⟩)
    have : (lmeFitProblem M st P a).1 = .ok L'' := by
      unfold lmeFitProblem
      rw [hc]
      exact ebind_ok.2 ⟨D, hD, ebind_ok.2 ⟨Pr, hPr, by rw [he, h'']⟩⟩
    rw [this] at h
    cases h

/-- A fit does not look at the previous coefficients. -/
theorem lmeFitProblem_state (M : LmeModelCfg) (st st' : LmeState) (P : LmeProblem ℝ) (a : LmeFitArgs) :
    (lmeFitProblem M st P a).1 = (lmeFitProblem M st' P a).1 ∧
    (∀ L, (lmeFitProblem M st P a).1 = .ok L → lmeFitProblem M st P a = lmeFitProblem M st' P a) := by
  have h : lmeFitCore M st P a = lmeFitCore M st' P a := lmeFitCore_state M st st' P a a.warmStart
  unfold lmeFitProblem
  rw [h]
  cases lmeFitCore M st' P a with
  | error e => exact ⟨rfl, fun L h => by cases h⟩
  | ok r => exact ⟨rfl, fun L h => rfl⟩

/-! ## C140 -/

/-- The problem `fit` makes of checked arrays. -/
noncomputable def problemOf (x : RawX) (b : Vec ℝ x.m) (labels : Option (List String)) (ffi fri : Bool) (columns mustFe mustRe : Option (List String)) : Except PyErr (LmeProblem ℝ) :=
  match labels with
  | some l => lmeFromXY x.matrix (some b) columns l ffi fri mustFe mustRe
  | none => lmeFromXYDefault x.matrix (some b) columns ffi fri mustFe mustRe

theorem lmeFitXY_eq (M : LmeModelCfg) (s : LmeObject) (x : RawX) (y : RawY) (labels : Option (List String)) (ffi fri : Bool)
    (columns mustFe mustRe : Option (List String)) (a : LmeFitArgs) (h : CheckedXY x y) :
    lmeFitXY M s x y labels ffi fri columns mustFe mustRe a = match problemOf x (y.vec x.m) labels ffi fri columns mustFe mustRe with
      | .error e => (.error e, s)
      | .ok P => lmeFitObject M s P a := by
  unfold lmeFitXY
  rw [if_pos h]
  rfl

/-- **C140 (partial)**: invalid arrays raise `ValueError` and change nothing. A fit that returns was given valid arrays; the object then holds the coefficients that `lmeFit` computes from exactly these
numbers, a complete log, and the number of features, counting an intercept, and they are the same whatever was fitted before; from then on `predict` is that of these coefficients, and `ValueError` for
invalid tables. A new object raises `NotFittedError`. A fit that raises keeps coefficients and number of features if the keys are safe.
Missing: the same without the last condition; `C140_half_updated_violated` shows that the code violates it. -/
theorem C140_protocol_partial (M : LmeModelCfg) (s : LmeObject) (x : RawX) (y : RawY) (labels : Option (List String)) (ffi fri : Bool)
    (columns mustFe mustRe : Option (List String)) (a : LmeFitArgs) :
    (¬ GoodData x y → lmeFitXY M s x y labels ffi fri columns mustFe mustRe a = (.error .valueError, s)) ∧
    (∀ e, ("vaida_aic" ∉ M.loggerKeys ∧ ("flip_probabilities_beta" ∈ M.loggerKeys → ∃ t, M.sr3 = some t ∧ 0 < t.ell)) →
      (lmeFitXY M s x y labels ffi fri columns mustFe mustRe a).1 = .error e →
      (lmeFitXY M s x y labels ffi fri columns mustFe mustRe a).2.coef = s.coef ∧ (lmeFitXY M s x y labels ffi fri columns mustFe mustRe a).2.nFeatures = s.nFeatures) ∧
    ((lmeFitXY M s x y labels ffi fri columns mustFe mustRe a).1 = .ok () → GoodData x y ∧ ∃ (c : LmeCoef) (n m : ℕ) (L : Logger (PyVal ℝ n)) (b : Vec ℝ x.m),
      (∀ (i : Fin x.m) h, y.e ⟨i, h⟩ 0 = some (b i)) ∧
      lmeFit M none (of fun i j => (x.e i j).getD 0) b labels ffi fri columns mustFe mustRe a = (.ok (), some c) ∧
      (∀ s', lmeFitXY M s' x y labels ffi fri columns mustFe mustRe a = (.ok (), ⟨some c, .complete n L, some m⟩)) ∧
      (∀ l, labels = some l → m = (l.filter fun t => t = "fixed" ∨ t = "random" ∨ t = "fixed+random").length + if ffi ∨ fri then 1 else 0) ∧
      ∀ (x' : RawX) (labels' : Option (List String)) (ffi' fri' : Bool),
        (¬ GoodTable x' → lmePredictXY (lmeFitXY M s x y labels ffi fri columns mustFe mustRe a).2 x' labels' ffi' fri' = .error .valueError) ∧
        (GoodTable x' → lmePredictXY (lmeFitXY M s x y labels ffi fri columns mustFe mustRe a).2 x' labels' ffi' fri' =
          lmePredict (some c) (of fun i j => (x'.e i j).getD 0) labels' ffi' fri')) ∧
    (∀ (x' : RawX) (labels' : Option (List String)) (ffi' fri' : Bool), lmePredictXY LmeObject.new x' labels' ffi' fri' = .error .notFitted) := by
  simp only [goodData_iff, goodTable_iff]
  refine ⟨fun hv => if_neg hv, fun e hM he => ?_, fun hok => ?_, fun _ _ _ _ => rfl⟩
  · by_cases hv : CheckedXY x y
    · rw [lmeFitXY_eq M s x y labels ffi fri columns mustFe mustRe a hv] at he ⊢
      cases hP : problemOf x (y.vec x.m) labels ffi fri columns mustFe mustRe with
      | error e => exact ⟨rfl, rfl⟩
      | ok P =>
        rw [hP] at he
        simp only at he ⊢
        unfold lmeFitObject at he ⊢
        have hk : ∀ e, (lmeFitProblem M s.coef P a).1 = .error e → (lmeFitProblem M s.coef P a).2 = s.coef := fun e he => lmeFitProblem_keeps hM _ _ _ he
        generalize lmeFitProblem M s.coef P a = r at he hk
        obtain ⟨r1, r2⟩ := r
        cases r1 with
        | error e' => exact ⟨hk e' rfl, rfl⟩
        | ok L => cases he
    · unfold lmeFitXY
      rw [if_neg hv]
      exact ⟨rfl, rfl⟩
  · by_cases hv : CheckedXY x y
    · rw [lmeFitXY_eq M s x y labels ffi fri columns mustFe mustRe a hv] at hok
      cases hP : problemOf x (y.vec x.m) labels ffi fri columns mustFe mustRe with
      | error e => rw [hP] at hok; cases hok
      | ok P =>
        rw [hP] at hok
        simp only at hok
        unfold lmeFitObject at hok
        cases hr : lmeFitProblem M s.coef P a with
        | mk r1 r2 =>
          cases r1 with
          | error e => rw [hr] at hok; cases hok
          | ok L =>
            obtain ⟨c, v, L0, rfl, -⟩ := lmeFitProblem_ok hr
            have hall : ∀ st, lmeFitProblem M st P a = (.ok L, some c) := fun st => by
              rw [← hr]
              exact ((lmeFitProblem_state M s.coef st P a).2 L (by rw [hr])).symm
            have hobj : ∀ s', lmeFitXY M s' x y labels ffi fri columns mustFe mustRe a = (.ok (), ⟨some c, .complete _ L, some P.numFeatures⟩) := by
              intro s'
              rw [lmeFitXY_eq M s' x y labels ffi fri columns mustFe mustRe a hv, hP]
              simp only
              unfold lmeFitObject
              rw [hall]
            refine ⟨hv, c, _, P.numFeatures, L, y.vec x.m, fun i h' => ?_, ?_, hobj, ?_, fun x' labels' ffi' fri' => ?_⟩
            · unfold RawY.vec
              rw [dif_pos h']
              obtain ⟨t, ht⟩ := Option.ne_none_iff_exists'.1 (hv.2.2.2 ⟨i, h'⟩)
              rw [ht]
              rfl
            · have h2 : ∀ e, e = Except.ok P → (match e with
                  | .error e => (.error e, none)
                  | .ok P => ((lmeFitProblem M none P a).1.map fun _ => (), (lmeFitProblem M none P a).2) : Except PyErr Unit × LmeState) = (.ok (), some c) := by
                rintro _ rfl
                simp only
                rw [hall]
                rfl
              exact h2 _ hP
            · rintro l rfl
              obtain ⟨_, _, _, _, -, -, -, -, -, -, -, -, -, -, hPe⟩ := lmeFromXY_ok _ _ _ _ _ _ _ _ P hP
              have h1 : P.columnLabels = l := by rw [hPe]
              have h2 : P.interceptLabel = interceptLabelOf ffi fri := by rw [hPe]
              unfold LmeProblem.numFeatures
              rw [h1, h2, List.countP_eq_length_filter]
              congr 1
              cases ffi <;> cases fri <;> rfl
            · rw [hobj]
              unfold lmePredictXY
              exact ⟨fun h => if_neg h, fun h => if_pos h⟩
    · unfold lmeFitXY at hok
      rw [if_neg hv] at hok
      cases hok

theorem npInv_error {ι : Type*} [Fintype ι] [DecidableEq ι] {a : Matrix ι ι ℝ} (h : ¬ IsUnit a.det) : npInv a = .error .linAlgError := by
  unfold npInv
  rw [if_neg h]

/-- The logging after the fit raises when the fixed columns are dependent and the conditional criterion, or the flip probabilities of a plain model without a prior, are asked for. -/
theorem lmeLogCriteria_dependent {n : ℕ} (tol : ℝ) {D : List (LmeGroup p q)} (hD : PosVar D) (Pr : LmeInstPrior ℝ p q)
    (hess : Except PyErr (Matrix (Fin p) (Fin p) ℝ)) (beta : Vec ℝ p) {gamma : Vec ℝ q} (hg : ∀ j, 0 ≤ gamma j)
    (hu : ¬ IsUnit ((D.map (lmeFact gamma)).map hessBetaTerm).sum.det) (L : Logger (PyVal ℝ n))
    (hk : "vaida_aic" ∈ L.keys ∨ "flip_probabilities_beta" ∈ L.keys ∧ hess = lmeHessianBeta D .nonInformative gamma) :
    lmeLogCriteria tol D Pr hess beta gamma L = .error .linAlgError := by
  have hd := inDomain_of_nonneg hD hg
  by_cases hv : "vaida_aic" ∈ L.keys
  · have h1 : lmeVaida D Pr (Real.sqrt tol) false beta gamma = .error .linAlgError := by
      unfold lmeVaida vaidaBody lmeDdf lmeHatMatrix
      rw [lmeRecalculate_ok.2 ⟨hd, rfl⟩]
      change ((npInv ((D.map (lmeFact gamma)).map hessBetaTerm).sum >>= _) >>= _) >>= _ = _
      rw [npInv_error hu]
      rfl
    unfold lmeLogCriteria logIf
    rw [if_pos hv, h1]
    rfl
  · obtain ⟨hf, rfl⟩ := hk.resolve_left hv
    obtain ⟨L', hL', he⟩ := lmeLogCriteria_reduce tol Pr (lmeHessianBeta D .nonInformative gamma) beta hd L fun h => absurd h hv
    rw [he]
    unfold logIf
    rw [if_pos (by rw [hL']; exact hf)]
    have h1 : lmeFlipProbabilities (lmeHessianBeta D .nonInformative gamma) beta = .error .linAlgError := by
      unfold lmeFlipProbabilities lmeHessianBeta
      rw [lmeRecalculate_ok.2 ⟨hd, rfl⟩]
      change (npInv (((D.map (lmeFact gamma)).map hessBetaTerm).sum + (0 : Matrix (Fin p) (Fin p) ℝ)) >>= _) = _
      rw [add_zero, npInv_error hu]
      rfl
    rw [h1]
    rfl

/-- **C140** is violated: on every table with positive observation variances and linearly dependent fixed columns, a model (with admissible hyperparameters, no prior, and the EM initializer for SR3 only)
that logs the conditional criterion, or a plain one that logs the flip probabilities, raises `LinAlgError`, but only after it has replaced the coefficients: whatever the object
was fitted to before, it keeps the number of features of that fit and predicts with the coefficients of the fit that failed. -/
theorem C140_half_updated_violated (M : LmeModelCfg) (hM : M.Sturdy) (hprior : M.prior = none) (hinit : M.initializer = some "EM" → M.sr3 ≠ none)
    (hkey : "vaida_aic" ∈ M.loggerKeys ∨ "flip_probabilities_beta" ∈ M.loggerKeys ∧ M.sr3 = none)
    (s : LmeObject) (x : RawX) (y : RawY) (hxy : GoodData x y) (labels : List String) (ffi fri : Bool) (P : LmeProblem ℝ)
    (hP : lmeFromXY (of fun i j => (x.e i j).getD 0) (some (y.vec x.m)) none labels ffi fri none none = .ok P)
    (hpos : ∀ v : Fin x.n, labels[(v : ℕ)]? = some "variance" → ∀ r, ∃ t, x.e r v = some t ∧ 0 < t)
    (hdep : ¬ IndependentColumns labels ffi (of fun i j => (x.e i j).getD 0)) :
    ∃ c : LmeCoef, lmeFitXY M s x y (some labels) ffi fri none none none {} = (.error .linAlgError, ⟨some c, .abandoned, s.nFeatures⟩) ∧
      c.beta.length = fixedCount labels ffi ∧ c.groupLabels = P.groupLabels := by
  rw [goodData_iff] at hxy
  obtain ⟨_, _, feW, reW, -, -, hlen, -, -, -, -, -, hf, hr, hPe⟩ := lmeFromXY_ok _ _ _ _ _ _ _ _ P hP
  have hones : ∀ (n m : ℕ), n = m → ∀ w : List ℝ, List.replicate n 1 = w → w.length = m ∧ ∀ v ∈ w, v = 0 ∨ v = 1 := by
    rintro n _ rfl w rfl
    exact ⟨by simp, fun v hv => .inr (List.eq_of_mem_replicate hv)⟩
  obtain ⟨D, Pr, coef, vec, L, hD, hDpos, hprior', hPr, hcore, hcg, hvec, hL, hkeys, hkeys'⟩ := lmeFitCore_total M hM s.coef _ _ none labels ffi fri none none P hP
    (fun v hv r => by
      obtain ⟨t, ht, h⟩ := hpos v hv r
      rw [of_apply, ht]
      exact h) ⟨.nonInformative, by rw [hprior]; rfl⟩ {} (by simp) (by simp) (by
      have e : P.feWeights = feW := by rw [hPe]
      rw [e]
      cases hf
      exact hones _ _ (by rw [fixedCount_eq, labelIdx_length labels hlen])) (by
      have e : P.reWeights = reW := by rw [hPe]
      rw [e]
      cases hr
      exact hones _ _ (by rw [randomCount_eq, labelIdx_length labels hlen])) fun h1 h2 => absurd h2 (hinit h1)
  have hu : ¬ IsUnit ((D.map (lmeFact (xGamma vec))).map hessBetaTerm).sum.det := fun h => hdep ((table_independent hP hD).1 ((kernel_unit_iff hDpos hvec).1 h))
  have hlog := lmeLogCriteria_dependent M.solverTol hDpos Pr (M.hessian D Pr (xGamma vec)) (xBeta vec) hvec hu L (by
    rcases hkey with h | ⟨h, hs⟩
    · exact .inl (hkeys' _ h)
    · refine .inr ⟨hkeys' _ h, ?_⟩
      unfold LmeModelCfg.hessian
      rw [hs]
      rw [hprior] at hprior'
      cases hprior'
      rfl)
  have hfit : lmeFitProblem M s.coef P {} = (.error .linAlgError, some coef) := by
    unfold lmeFitProblem
    rw [hcore]
    simp only [hD, hprior']
    exact congrArg (·, some coef) hlog
  obtain ⟨m, _, w, base, _, b0, g0, us, per, -, -, -, -, -, -, -, -, -, -, hc⟩ := lmeFitCore_ok hcore
  refine ⟨coef, ?_, ?_, by rw [hc]⟩
  · rw [lmeFitXY_eq M s x y (some labels) ffi fri none none none {} hxy]
    have : problemOf x (y.vec x.m) (some labels) ffi fri none none none = .ok P := hP
    rw [this]
    simp only
    unfold lmeFitObject
    rw [hfit]
  · have hF := numFixed_eq P ffi fri (by rw [hPe])
    have hcl : P.columnLabels = labels := by rw [hPe]
    rw [hcl, ← fixedCount_eq] at hF
    rw [hc]
    simp [hF]

/-- Two observations with a constant covariate, as an array. -/
noncomputable def exRawX : RawX := ⟨2, 4, fun i j => some (exTab i j)⟩

/-- Their targets. -/
noncomputable def exRawY : RawY := ⟨2, none, fun i _ => some (![26, 20] i)⟩

theorem exRaw_good : GoodData exRawX exRawY :=
  ⟨⟨⟨(0 : Fin 2), trivial⟩, ⟨(0 : Fin 4), trivial⟩, fun i j => ⟨_, rfl⟩⟩, rfl, rfl, fun i => ⟨_, rfl⟩⟩

/-- The keys of the model log the flip probabilities. -/
noncomputable def exFlipModel : LmeModelCfg := { exModel none 100 (.l1 2) with loggerKeys := ["loss", "flip_probabilities_beta"] }

/-- Non-vacuity of the violation: the covariate is constant and an intercept is fitted. An object fitted before to something with one feature ends up with three coefficients. -/
example (old : LmeCoef) (L : LoggerAttr) : ∃ c : LmeCoef,
    lmeFitXY exFlipModel ⟨some old, L, some 1⟩ exRawX exRawY (some ["group", "fixed", "fixed", "variance"]) true false none none none {} =
      (.error .linAlgError, ⟨some c, .abandoned, some 1⟩) ∧ c.beta.length = 3 := by
  have hP : ∃ P, lmeFromXY (of fun i j => (exRawX.e i j).getD 0) (some (exRawY.vec exRawX.m)) none ["group", "fixed", "fixed", "variance"] true false none none = .ok P := by
    refine lmeFromXY_succeeds exTab (some (exRawY.vec 2)) none ["group", "fixed", "fixed", "variance"] true false none none 0 3 (by decide) (by decide) rfl (by decide)
      (by simp) ?_ ?_ (.inl rfl) (by simp) _ _ rfl rfl
    · intro r; fin_cases r <;> simp [exTab]
    · intro r; fin_cases r
      · exact ⟨1, by simp [exTab]⟩
      · exact ⟨0, by simp [exTab]⟩
  obtain ⟨P, hP⟩ := hP
  have h := (exModel_robust none (by simp) 100 (.l1 2) exL1 (by simp)).toSturdy
  obtain ⟨c, h1, h2, -⟩ := C140_half_updated_violated exFlipModel
    { adm := ⟨h.adm.1, h.adm.2, h.adm.3, h.adm.4⟩, kind := h.kind, keys := by change ["loss", "flip_probabilities_beta"].Nodup; decide, sr3 := h.sr3, scad := h.scad }
    rfl (fun h => by cases h) (.inr ⟨by change _ ∈ ["loss", "flip_probabilities_beta"]; decide, rfl⟩) ⟨some old, L, some 1⟩ exRawX exRawY exRaw_good
    ["group", "fixed", "fixed", "variance"] true false P hP (fun v hv r => by
      refine ⟨_, rfl, ?_⟩
      have key : ∀ v : Fin 4, ["group", "fixed", "fixed", "variance"][(v : ℕ)]? = some "variance" → ∀ r : Fin 2, 0 < exTab r v := by
        intro v hv r
        fin_cases v
        · exact absurd hv (by decide)
        · exact absurd hv (by decide)
        · exact absurd hv (by decide)
        · fin_cases r <;> simp [exTab]
      exact key v hv r) (fun hi => by
      have := hi [1, 0, -1] (by decide) (fun r => by
        change sumProd (fixedEntries _ true exTab r) _ = 0
        revert r
        change ∀ r : Fin 2, _
        intro r
        fin_cases r <;> simp [sumProd, fixedEntries, exTab, List.ofFn_succ]) 1 (by simp)
      norm_num at this)
  exact ⟨c, h1, h2.trans (by decide)⟩

/-- Non-vacuity of the protocol: with the default keys the same object is fitted, and predicts. -/
example (s : LmeObject) : ∃ (c : LmeCoef) (n : ℕ) (L : Logger (PyVal ℝ n)), lmeFitXY (exModel none 100 (.l1 2)) s exRawX exRawY (some exTabLabels) true true none none none {} =
    (.ok (), ⟨some c, .complete n L, some 3⟩) := by
  have hok : (lmeFitXY (exModel none 100 (.l1 2)) s exRawX exRawY (some exTabLabels) true true none none none {}).1 = .ok () := by
    obtain ⟨P, hP⟩ := exTab_ok' true true (exRawY.vec 2)
    obtain ⟨c, hc, -⟩ := C83_fit_returns _ (exModel_robust none (by simp) 100 (.l1 2) exL1 (by simp)) rfl s.coef exTab
      (exRawY.vec 2) exTabLabels true true P hP exTab_positive none none (by simp) (by simp) false
    unfold lmeFit at hc
    simp only [hP] at hc
    rw [lmeFitXY_eq _ s exRawX exRawY _ true true none none none {} (goodData_iff.1 exRaw_good)]
    have : problemOf exRawX (exRawY.vec exRawX.m) (some exTabLabels) true true none none none = .ok P := hP
    rw [this]
    simp only
    unfold lmeFitObject
    generalize lmeFitProblem (exModel none 100 (.l1 2)) s.coef P {} = r at hc
    obtain ⟨r1, r2⟩ := r
    cases r1 with
    | error e => cases hc
    | ok L => rfl
  obtain ⟨-, -, h, -⟩ := C140_protocol_partial (exModel none 100 (.l1 2)) s exRawX exRawY (some exTabLabels) true true none none none {}
  obtain ⟨-, c, n, m, L, b, -, -, h1, h2, -⟩ := h hok
  have : m = 3 := (h2 _ rfl).trans (by decide)
  subst this
  exact ⟨c, n, L, h1 s⟩

end Verif
