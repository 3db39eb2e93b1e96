import Verif.Props.LmeGenLaw
import Verif.Props.LmeClasses
import Verif.Props.LmeFitTotal
import Verif.Props.LmeGenTable
import Verif.Props.LmeGenNames

/-!
# C170: generated problems can be fitted and predicted
-/

open Matrix

namespace Verif

/-- `fit_problem` for a problem whose groups, map and sizes are known: it returns, and the coefficients have the sizes of the problem. -/
theorem lmeFitProblem_total (M : LmeModelCfg) (hM : M.Robust) (st : LmeState) (P : LmeProblem ℝ) (D : List (LmeGroup P.numFixed P.numRandom)) (hD : lmeGroups P = .ok D) (hDpos : PosVar D)
    (m : List ℤ) (hm : betaToGammaMap P = .ok m) (hprior : ∃ Pr, lmePriorFor M.prior P = .ok Pr) (a : LmeFitArgs)
    (hcount : (P.interceptLabel.getD "" :: P.columnLabels).countP isFixed = P.numFixed ∧ (P.interceptLabel.getD "" :: P.columnLabels).countP isRandom = P.numRandom)
    (hb0 : ∀ b, a.beta = some b → b.length = P.numFixed) (hg0 : ∀ g, a.gamma = some g → g.length = P.numRandom ∧ ∀ v ∈ g, 0 ≤ v)
    (hfe : (a.feWeights.getD P.feWeights).length = P.numFixed ∧ ∀ v ∈ a.feWeights.getD P.feWeights, M.reg.WeightOk v)
    (hre : (a.reWeights.getD P.reWeights).length = P.numRandom ∧ ∀ v ∈ a.reWeights.getD P.reWeights, M.reg.WeightOk v) :
    ∃ L c, lmeFitProblem M st P a = (.ok L, some c) ∧ (∀ v ∈ c.gamma, 0 ≤ v) ∧ c.beta.length = P.numFixed ∧ c.gamma.length = P.numRandom ∧ c.randomEffects.length = D.length ∧
      (∀ u ∈ c.randomEffects, u.length = P.numRandom) ∧ c.groupLabels = P.groupLabels := by
  obtain ⟨hfl, hf01⟩ := hfe
  obtain ⟨hrl, hr01⟩ := hre
  obtain ⟨w, hwd, hw01⟩ : ∃ w, M.reg.weights P.numFixed P.numRandom
      (a.feWeights.getD P.feWeights ++ a.reWeights.getD P.reWeights) = .ok w ∧ ∀ i, M.reg.WeightOk (w i) := by
    obtain ⟨w, hw, h⟩ := M.reg.weights_ok (p := P.numFixed) (q := P.numRandom)
      (ws := a.feWeights.getD P.feWeights ++ a.reWeights.getD P.reWeights) (by rw [List.length_append, hfl, hrl])
    refine ⟨w, hw, fun i => ?_⟩
    rcases h with ⟨-, rfl⟩ | h
    · exact LmeReg.weightOk_of (.inl rfl)
    · have hmem : w i ∈ a.feWeights.getD P.feWeights ++ a.reWeights.getD P.reWeights := h ▸ List.mem_ofFn.2 ⟨i, rfl⟩
      rcases List.mem_append.1 hmem with h | h
      · exact hf01 _ h
      · exact hr01 _ h
  have hstart : lmeStart st P a = (a.beta.getD (List.replicate P.numFixed 1), a.gamma.getD (List.replicate P.numRandom 1)) := by
    unfold lmeStart
    simp only [sklearnCheckTruth, Bool.and_false, Bool.false_eq_true, if_false]
    cases st <;> rfl
  have hbeta : ∃ b, asVec P.numFixed (lmeStart st P a).1 = .ok b := by
    unfold asVec
    rw [dif_pos]
    · exact ⟨_, rfl⟩
    · rw [hstart]
      cases h : a.beta with
      | none => simp
      | some b => simpa using hb0 b h
  have hgamma : ∃ c, asVec P.numRandom (lmeStart st P a).2 = .ok c ∧ ∀ j, 0 ≤ c j := by
    have h1 : (lmeStart st P a).2.length = P.numRandom ∧ ∀ v ∈ (lmeStart st P a).2, 0 ≤ v := by
      rw [hstart]
      cases h : a.gamma with
      | none =>
        refine ⟨by simp, fun v hv => ?_⟩
        have h1 : v = 1 := List.eq_of_mem_replicate (n := P.numRandom) hv
        rw [h1]
        norm_num
      | some b =>
        obtain ⟨e1, e2⟩ := hg0 b h
        exact ⟨by simpa using e1, fun v hv => e2 v (by simpa using hv)⟩
    unfold asVec
    rw [dif_pos h1.1]
    exact ⟨_, rfl, fun j => h1.2 _ (List.getElem_mem _)⟩
  obtain ⟨b, hb⟩ := hbeta
  obtain ⟨c, hc, hc0⟩ := hgamma
  obtain ⟨base, hbase⟩ := LmeReg.build_ok (p := P.numFixed) (q := P.numRandom) hM.adm.reg m w
  obtain ⟨Pr, hprior⟩ := hprior
  have hPr := lmePriorFor_reachable hprior
  obtain ⟨vec, L, hopt, hvec, hL, hkeys, hkeys'⟩ := lmeOptimize_total hM.toSturdy hDpos hw01 hbase hPr b hc0 (fun h1 h2 => absurd h2 (hM.init h1))
  obtain ⟨us, hus⟩ := lmeRandomEffects_total hDpos (xBeta vec) hvec
  have hper : ∃ per, getPerGroupCoefficients (List.ofFn (xBeta vec)) (us.map fun u => ((), List.ofFn u))
      (P.interceptLabel.getD "" :: P.columnLabels) = .ok per := by
    have eF : (fun l : String => decide (l = "fixed" ∨ l = "fixed+random")) = isFixed := by funext l; simp [isFixed, FIXED, FIXED_RANDOM]
    have eR : (fun l : String => decide (l = "random" ∨ l = "fixed+random")) = isRandom := by funext l; simp [isRandom, RANDOM, FIXED_RANDOM]
    obtain ⟨per, hper, -⟩ := C50_per_group (List.ofFn (xBeta vec)) (us.map fun u => ((), List.ofFn u))
      (P.interceptLabel.getD "" :: P.columnLabels) (by rw [eF, hcount.1]; simp) (by
        intro lu hlu
        obtain ⟨u, -, rfl⟩ := List.mem_map.1 hlu
        rw [eR, hcount.2]
        simp)
    exact ⟨per, hper⟩
  obtain ⟨per, hper⟩ := hper
  have hcore : lmeFitCore M st P a = .ok (⟨List.ofFn (xBeta vec), List.ofFn (xGamma vec), us.map (fun u => List.ofFn u),
      P.groupLabels, per.map (·.2)⟩, vec, L) := by
    unfold lmeFitCore
    exact ebind_ok.2 ⟨m, hm, ebind_ok.2 ⟨_, hprior, ebind_ok.2 ⟨w, hwd, ebind_ok.2 ⟨base, hbase, ebind_ok.2 ⟨D, hD,
      ebind_ok.2 ⟨b, hb, ebind_ok.2 ⟨c, hc, ebind_ok.2 ⟨(vec, L), hopt, ebind_ok.2 ⟨us, hus, ebind_ok.2 ⟨per, hper, rfl⟩⟩⟩⟩⟩⟩⟩⟩⟩⟩
  obtain ⟨L', hL', hLk⟩ := lmeLogCriteria_total M.solverTol hDpos Pr (M.hessian D Pr (xGamma vec)) (xBeta vec) hvec hL (by
    intro h
    rcases hkeys _ h with h | h | h
    · exact absurd h hM.vaida
    · exact absurd h (by decide)
    · exact absurd h (by decide)) (by
    intro h
    have hk : "flip_probabilities_beta" ∈ M.loggerKeys := by
      rcases hkeys _ h with h | h | h
      · exact h
      · exact absurd h (by decide)
      · exact absurd h (by decide)
    obtain ⟨s, hs⟩ := Option.ne_none_iff_exists'.1 (hM.flip hk)
    unfold LmeModelCfg.hessian
    rw [hs]
    exact ⟨_, sr3_flip_ok hPr (inDomain_of_nonneg hDpos hvec) (hM.sr3 s hs).1 (xBeta vec)⟩)
  have hfit : lmeFitProblem M st P a = (.ok L', some ⟨List.ofFn (xBeta vec), List.ofFn (xGamma vec), us.map (fun u => List.ofFn u), P.groupLabels, per.map (·.2)⟩) := by
    unfold lmeFitProblem
    rw [hcore]
    simp only [Prod.mk.injEq, and_true]
    exact ebind_ok.2 ⟨D, hD, ebind_ok.2 ⟨_, hprior, hL'⟩⟩
  refine ⟨L', _, hfit, fun v hv => ?_, by simp, by simp, ?_, fun u hu => ?_, rfl⟩
  · simp only [List.mem_ofFn] at hv
    obtain ⟨j, rfl⟩ := hv
    exact hvec j
  · simp only [List.length_map]
    exact lmeRandomEffects_length hus
  · obtain ⟨u, -, rfl⟩ := List.mem_map.1 hu
    simp

/-- The groups of a generated problem. -/
theorem generated_lmeGroups {c : GenCfg ℝ} {draws : List (GenDraw ℝ)} (herr : ∀ d ∈ draws, d.errors.length = d.rows.length) (hrand : genNum c.labels isRandom c.fri ≠ 0)
    {P : LmeProblem ℝ} {cs : List (ℕ × List ℝ)} (h : lmeGenerate c draws = .ok (P, cs)) (hpos : ∀ v ∈ P.obsVars, ∀ x ∈ v, 0 < x) :
    ∃ D, lmeGroups P = .ok D ∧ PosVar D ∧ D.length = draws.length := by
  obtain ⟨hF, hb, gs, hgs, -, hP⟩ := (lmeGenerate_ok c _ _ _).1 h
  obtain ⟨hn1, hn2⟩ := gen_numFixed (c := c) (P := P) (by rw [hP]) (by rw [hP])
  have key : ∀ (ds : List (GenDraw ℝ)) (start i : ℕ) (gs : List (GenGroup ℝ)) (sizes : List ℕ), (∀ d ∈ ds, d.errors.length = d.rows.length) → genGroups c sizes start i ds = .ok gs →
      (∀ v ∈ gs.map GenGroup.obsVars, ∀ x ∈ v, 0 < x) →
      ∃ D : List (LmeGroup P.numFixed P.numRandom), (((gs.map GenGroup.fixed).zip (gs.map GenGroup.answers)).zip ((gs.map GenGroup.random).zip (gs.map GenGroup.obsVars))).mapM (fun g =>
        g.2.1.toRows >>= fun z => lmeGroupOf P.numFixed P.numRandom g.1.1 g.1.2 z g.2.2) = .ok D ∧ PosVar D ∧ D.length = ds.length := by
    intro ds
    induction ds with
    | nil =>
      intro start i gs sizes _ h _
      cases h
      exact ⟨[], rfl, (fun g hg => absurd hg List.not_mem_nil), rfl⟩
    | cons d ds ih =>
      intro start i gs sizes he h hv
      obtain ⟨-, -, -, h4⟩ := genGroups_data c _ _ _ _ _ h
      obtain ⟨var, vars, ans, rest, -, h2, h3, h5, rfl⟩ := (genGroups_cons ..).1 h
      obtain ⟨D, hD, hDp, hDl⟩ := ih _ _ _ _ (fun d' hd => he d' (List.mem_cons_of_mem _ hd)) h5 fun v hv' => hv v (by rw [List.map_cons]; exact List.mem_cons_of_mem _ hv')
      have hvl : vars.length = d.rows.length := by
        rw [List.map_cons] at h4
        exact (List.forall₂_cons.1 h4).1
      obtain ⟨h6, -⟩ := mapM_zip_getD (he d List.mem_cons_self) h3
      obtain ⟨G, hg, hGl⟩ : ∃ G, lmeGroupOf P.numFixed P.numRandom (d.rows.map (genRow c.labels isFixed c.ffi)) ans (d.rows.map (genRow c.labels isRandom c.fri)) vars = .ok G ∧ ∀ i, 0 < G.l i := by
        refine ⟨_, lmeGroupOf_eq (n := d.rows.length) (by simp) h6 (by simp) hvl
          (fun r hr => by obtain ⟨a, -, rfl⟩ := List.mem_map.1 hr; rw [hn1]; exact genRow_length _ _ _ _ hF)
          (fun r hr => by obtain ⟨a, -, rfl⟩ := List.mem_map.1 hr; rw [hn2]; exact genRow_length _ _ _ _ hrand), fun i => ?_⟩
        have hi : (i : ℕ) < vars.length := by rw [hvl]; exact i.2
        change 0 < vars.getD i 0
        rw [List.getD_eq_getElem?_getD, List.getElem?_eq_getElem hi, Option.getD_some]
        exact hv vars (by rw [List.map_cons]; exact List.mem_cons_self) _ (List.getElem_mem hi)
      refine ⟨G :: D, ?_, ?_, ?_⟩
      · rw [if_neg hrand]
        simp only [List.map_cons, List.zip_cons_cons, List.mapM_cons]
        change (lmeGroupOf P.numFixed P.numRandom (d.rows.map (genRow c.labels isFixed c.ffi)) ans (d.rows.map (genRow c.labels isRandom c.fri)) vars >>= _) = _
        rw [hg]
        simp only [bind, Except.bind] at hD ⊢
        rw [hD]
        rfl
      · intro g hg' i
        rcases List.mem_cons.1 hg' with rfl | hg'
        · exact hGl i
        · exact hDp g hg' i
      · rw [List.length_cons, hDl, List.length_cons]
  obtain ⟨D, hD, hDp, hDl⟩ := key draws 0 0 gs _ herr hgs (by
    have := hpos
    rw [hP] at this
    exact this)
  refine ⟨D, ?_, hDp, hDl⟩
  have e1 : P.answers = some (gs.map GenGroup.answers) := by rw [hP]
  have e2 : P.fixedFeatures = gs.map GenGroup.fixed := by rw [hP]
  have e3 : P.randomFeatures = gs.map GenGroup.random := by rw [hP]
  have e4 : P.obsVars = gs.map GenGroup.obsVars := by rw [hP]
  unfold lmeGroups
  rw [e1]
  simp only
  rw [e2, e3, e4]
  exact hD

theorem gen_map {c : GenCfg ℝ} {P : LmeProblem ℝ} (h1 : P.columnLabels = GROUP :: (c.labels ++ [VARIANCE])) (h2 : P.interceptLabel = interceptLabelOf c.ffi c.fri) :
    (∃ m, betaToGammaMap P = .ok m) ∧ (P.interceptLabel.getD "" :: P.columnLabels).countP isFixed = P.numFixed ∧ (P.interceptLabel.getD "" :: P.columnLabels).countP isRandom = P.numRandom := by
  have hF := numFixed_eq P c.ffi c.fri h2
  have hR := numRandom_eq P c.ffi c.fri h2
  refine ⟨⟨_, mapLoop_eq _ _ _ _ ?_⟩, ?_, ?_⟩
  · rw [List.length_replicate, hF, List.countP_append, zero_add, add_comm]
    congr 1
    rw [h2]
    cases c.ffi <;> cases c.fri <;> decide
  · rw [hF, h2, List.countP_cons]
    cases c.ffi <;> cases c.fri <;> rfl
  · rw [hR, h2, List.countP_cons]
    cases c.ffi <;> cases c.fri <;> rfl

theorem labelPositions_range (n i : ℕ) (hi : i < n) : labelPositions ((List.range n).map fun k : ℕ => (k : ℝ)) i = [i] := by
  unfold labelPositions
  rw [List.length_map, List.length_range]
  have h : ∀ k, k < n → (((List.range n).map fun k : ℕ => (k : ℝ)).getD k 0 = (i : ℝ) ↔ k = i) := by
    intro k hk
    rw [List.getD_eq_getElem?_getD, List.getElem?_eq_getElem (by simpa using hk), Option.getD_some]
    simp
  rw [List.filter_congr (q := fun k => decide (k = i)) (fun k hk => by
    have := h k (List.mem_range.1 hk)
    exact decide_eq_decide.2 this)]
  clear h
  induction n with
  | zero => omega
  | succ n ih =>
    rw [List.range_succ, List.filter_append]
    rcases Nat.lt_succ_iff_lt_or_eq.1 hi with h | rfl
    · rw [ih h]
      simp [Nat.ne_of_gt h]
    · rw [List.filter_eq_nil_iff.2 (fun k hk => by simpa using Nat.ne_of_lt (List.mem_range.1 hk))]
      simp

theorem rowsDot_dotL (rows : List (List ℝ)) (v : List ℝ) (h : ∀ r ∈ rows, r.length = v.length) : rowsDot rows v = .ok (rows.map fun r => dotL r v) := by
  unfold rowsDot
  induction rows with
  | nil => rfl
  | cons r rows ih =>
    rw [List.mapM_cons, ih fun r hr => h r (List.mem_cons_of_mem _ hr)]
    have : listDot r v = .ok (dotL r v) := by
      unfold listDot
      rw [if_pos (h r List.mem_cons_self)]
      rfl
    rw [this]
    rfl

/-- **C170**, what holds: a problem generated with at least one random effect and positive observation variances is fitted by every model with documented hyperparameters (see `Robust`; default weights,
no prior or a Gaussian prior on named effects) from every start of the right sizes with nonnegative variances; the model then predicts the generated problem: one number per generated row, in the order of generation, the intercepts and
the row's fixed and random features times the fitted coefficients and the effects of the group. (Missing: problems without random effects, `C170_no_random_violated`.) -/
theorem C170_generated_partial (M : LmeModelCfg) (hM : M.Robust) (st : LmeState) (c : GenCfg ℝ)
    (hprior : ∀ fe re, M.prior = some (fe, re) →
      (∀ name mean std, (name, (mean, std)) ∈ fe → 0 ≤ std ∧ ((c.ffi = true ∧ name = "intercept") ∨
        ∃ i : ℕ, (c.labels[i]? = some "fixed" ∨ c.labels[i]? = some "fixed+random") ∧ name = "x" ++ toString i)) ∧
      ∀ name mean std, (name, (mean, std)) ∈ re → 0 ≤ std ∧ ((c.fri = true ∧ name = "intercept") ∨
        ∃ i : ℕ, (c.labels[i]? = some "random" ∨ c.labels[i]? = some "fixed+random") ∧ name = "x" ++ toString i))
    (draws : List (GenDraw ℝ)) (hne : draws ≠ [])
    (hrows : ∀ d ∈ draws, ∀ row ∈ d.rows, row.length = c.labels.length) (herr : ∀ d ∈ draws, d.errors.length = d.rows.length)
    (hrand : c.fri = true ∨ "random" ∈ c.labels ∨ "fixed+random" ∈ c.labels) (P : LmeProblem ℝ) (cs : List (ℕ × List ℝ)) (h : lmeGenerate c draws = .ok (P, cs))
    (hpos : ∀ v ∈ P.obsVars, ∀ x ∈ v, 0 < x) (beta0 gamma0 : Option (List ℝ)) (hb0 : ∀ b, beta0 = some b → b.length = c.beta.length)
    (hg0 : ∀ g, gamma0 = some g → g.length = c.labels.countP (fun l => l = "random" ∨ l = "fixed+random") + (if c.fri then 1 else 0) ∧ ∀ v ∈ g, 0 ≤ v) (warm : Bool) :
    ∃ L coef, lmeFitProblem M st P ⟨beta0, gamma0, warm, none, none⟩ = (.ok L, some coef) ∧ (∀ v ∈ coef.gamma, 0 ≤ v) ∧ coef.beta.length = c.beta.length ∧
      coef.randomEffects.length = draws.length ∧
      lmePredictProblem (some coef) P = .ok ((draws.zip coef.randomEffects).map fun du => du.1.rows.map fun row =>
        (List.zipWith (· * ·) ((if c.ffi then [1] else []) ++ ((c.labels.zip row).filter fun lr => lr.1 = "fixed" ∨ lr.1 = "fixed+random").map Prod.snd) coef.beta).sum
          + (List.zipWith (· * ·) ((if c.fri then [1] else []) ++ ((c.labels.zip row).filter fun lr => lr.1 = "random" ∨ lr.1 = "fixed+random").map Prod.snd) du.2).sum).flatten := by
  have eF : (fun l : String => decide (l = "fixed" ∨ l = "fixed+random")) = isFixed := by funext l; simp [isFixed, FIXED, FIXED_RANDOM]
  have eR : (fun l : String => decide (l = "random" ∨ l = "fixed+random")) = isRandom := by funext l; simp [isRandom, RANDOM, FIXED_RANDOM]
  have hR : genNum c.labels isRandom c.fri ≠ 0 := by
    rw [genNum_eq]
    rcases hrand with h1 | h1 | h1
    · rw [h1]; simp
    · have := List.countP_pos_iff.2 ⟨_, h1, isRandom_RANDOM⟩
      omega
    · have := List.countP_pos_iff.2 ⟨_, h1, isRandom_FIXED_RANDOM⟩
      omega
  obtain ⟨D, hD, hDp, hDl⟩ := generated_lmeGroups herr hR h hpos
  obtain ⟨hF, hb, gs, hgs, -, hP⟩ := (lmeGenerate_ok c _ _ _).1 h
  obtain ⟨hn1, hn2⟩ := gen_numFixed (c := c) (P := P) (by rw [hP]) (by rw [hP])
  obtain ⟨⟨m, hm⟩, hcount⟩ := gen_map (c := c) (P := P) (by rw [hP]) (by rw [hP])
  have e1 : P.feWeights = List.replicate P.numFixed 1 := by rw [hn1, hP]
  have e2 : P.reWeights = List.replicate P.numRandom 1 := by rw [hn2, hP]
  have hpr : ∃ Pr, lmePriorFor M.prior P = .ok Pr := by
    cases hp : M.prior with
    | none => exact ⟨_, rfl⟩
    | some fr => exact C172_prior_ok c draws hrand P cs h fr.1 fr.2 (hprior _ _ hp).1 (hprior _ _ hp).2
  obtain ⟨L, coef, hfit, hnn, l1, -, l3, l4, l5⟩ := lmeFitProblem_total M hM st P D hD hDp m hm hpr ⟨beta0, gamma0, warm, none, none⟩ hcount
    (fun b hb' => by rw [hb0 b hb', hb, hn1]) (fun g hg' => ⟨by rw [(hg0 g hg').1, eR, hn2, genNum_eq], (hg0 g hg').2⟩)
    (by simp only [Option.getD_none]; rw [e1]; exact ⟨by simp, fun v hv => LmeReg.weightOk_of (.inr (List.eq_of_mem_replicate hv))⟩)
    (by simp only [Option.getD_none]; rw [e2]; exact ⟨by simp, fun v hv => LmeReg.weightOk_of (.inr (List.eq_of_mem_replicate hv))⟩)
  refine ⟨L, coef, hfit, hnn, by rw [l1, hn1, hb], by rw [l3, hDl], ?_⟩
  obtain ⟨d1, d2, -, -⟩ := genGroups_data c _ _ _ _ _ hgs
  have e3 : P.fixedFeatures = draws.map fun d => d.rows.map (genRow c.labels isFixed c.ffi) := by rw [hP]; exact d1
  have e4 : P.randomFeatures = (draws.map fun d => d.rows.map (genRow c.labels isRandom c.fri)).map .rows := by rw [hP]; exact d2 hR
  have e5 : P.groupLabels = (List.range draws.length).map fun i : ℕ => (i : ℝ) := by rw [hP]
  unfold lmePredictProblem
  simp only
  rw [if_neg (by rw [l1]; simp), if_neg (by
    rintro ⟨u, hu, hne'⟩
    exact hne' (l4 u (List.mem_of_mem_head? hu)).symm)]
  have key : ∀ (ds : List (GenDraw ℝ)) (us pre : List (List ℝ)), (∀ d ∈ ds, ∀ row ∈ d.rows, row.length = c.labels.length) → us.length = ds.length → coef.randomEffects = pre ++ us →
      (((List.range' pre.length ds.length).map fun i : ℕ => (i : ℝ)).zip ((ds.map fun d => d.rows.map (genRow c.labels isFixed c.ffi)).zip
        ((ds.map fun d => d.rows.map (genRow c.labels isRandom c.fri)).map RandomDesign.rows))).mapM (fun g => lmePredictGroup coef P.numRandom g.1 g.2.1 g.2.2) =
      .ok ((ds.zip us).map fun du => du.1.rows.map fun row => dotL ((if c.ffi then [1] else []) ++ selectBy isFixed c.labels row) coef.beta
        + dotL ((if c.fri then [1] else []) ++ selectBy isRandom c.labels row) du.2) := by
    intro ds
    induction ds with
    | nil => intro us pre _ _ _; rfl
    | cons d ds ih =>
      intro us pre hr hl he
      cases us with
      | nil => cases hl
      | cons u us =>
        have hul : u.length = P.numRandom := l4 u (by rw [he]; simp)
        have ih' := ih us (pre ++ [u]) (fun d' hd => hr d' (List.mem_cons_of_mem _ hd)) (by simpa using hl) (by rw [he]; simp)
        rw [List.length_append, List.length_singleton] at ih'
        have hi : pre.length < draws.length := by
          rw [← hDl, ← l3, he]
          simp
        have hgrp : lmePredictGroup coef P.numRandom (pre.length : ℝ) (d.rows.map (genRow c.labels isFixed c.ffi)) (.rows (d.rows.map (genRow c.labels isRandom c.fri))) =
            .ok (d.rows.map fun row => dotL ((if c.ffi then [1] else []) ++ selectBy isFixed c.labels row) coef.beta + dotL ((if c.fri then [1] else []) ++ selectBy isRandom c.labels row) u) := by
          unfold lmePredictGroup
          rw [l5, e5, labelPositions_range _ _ hi, rowsDot_dotL _ _ (by
            intro r hr'
            obtain ⟨a, -, rfl⟩ := List.mem_map.1 hr'
            rw [genRow_length _ _ _ _ hF, l1, hn1])]
          have ht : takeIdx coef.randomEffects [pre.length] = .ok [u] := by
            unfold takeIdx
            rw [he]
            simp [List.mapM_cons, pure, Except.pure, bind, Except.bind]
          have hz : rowsDot (d.rows.map (genRow c.labels isRandom c.fri)) [u].flatten = .ok ((d.rows.map (genRow c.labels isRandom c.fri)).map fun r => dotL r u) := by
            rw [List.flatten_singleton]
            refine rowsDot_dotL _ _ ?_
            intro r hr'
            obtain ⟨a, -, rfl⟩ := List.mem_map.1 hr'
            rw [genRow_length _ _ _ _ hR, hul, hn2]
          refine ebind_ok.2 ⟨_, rfl, ?_⟩
          rw [if_pos (show P.numRandom > 0 by rw [hn2]; omega)]
          refine (ebind_ok.2 ⟨_, ht, ebind_ok.2 ⟨_, rfl, ebind_ok.2 ⟨_, hz, ?_⟩⟩⟩)
          rw [if_pos (by simp)]
          change Except.ok _ = _
          congr 1
          rw [List.map_map, List.map_map, List.zipWith_map, List.zipWith_self]
          refine List.map_congr_left fun row hrow => ?_
          have hlen := hr d List.mem_cons_self row hrow
          simp only [Function.comp]
          rw [genRow_eq' _ _ _ _ hlen hF, genRow_eq' _ _ _ _ hlen hR]
        simp only [List.length_cons, List.range'_succ, List.map_cons, List.zip_cons_cons, List.mapM_cons]
        rw [hgrp]
        simp only [bind, Except.bind] at ih' ⊢
        rw [ih']
        rfl
  have hk := key draws coef.randomEffects [] hrows (by rw [l3, hDl]) rfl
  rw [List.length_nil, ← List.range_eq_range', ← e3, ← e4, ← e5] at hk
  rw [hk]
  change (if _ then _ else _) = _
  rw [if_neg]
  · change Except.ok _ = _
    have eF' : ∀ l : String, decide (l = "fixed" ∨ l = "fixed+random") = isFixed l := congrFun eF
    have eR' : ∀ l : String, decide (l = "random" ∨ l = "fixed+random") = isRandom l := congrFun eR
    simp only [dotL, selectBy, eF', eR']
  · intro h0
    have := congrArg List.length h0
    rw [List.length_map, List.length_zip, l3, hDl, min_self] at this
    exact hne (List.length_eq_zero_iff.1 this)

/-- **C170 is violated** without random effects: whatever the model and its arguments, fitting a generated problem without random effects raises (the random design of each group is the number 0). -/
theorem C170_no_random_violated (M : LmeModelCfg) (st : LmeState) (a : LmeFitArgs) (c : GenCfg ℝ) (draws : List (GenDraw ℝ)) (hne : draws ≠ []) (hfri : c.fri = false) (hlab : ∀ l ∈ c.labels, l = "fixed")
    (P : LmeProblem ℝ) (cs : List (ℕ × List ℝ)) (h : lmeGenerate c draws = .ok (P, cs)) : ∃ e, lmeFitProblem M st P a = (.error e, st) := by
  obtain ⟨hn, hbeta, gs, hgs, hcs, hP⟩ := (lmeGenerate_ok c draws P cs).1 h
  obtain ⟨d1, -, d3, -⟩ := genGroups_data c _ _ _ _ _ hgs
  have hn2 : genNum c.labels isRandom c.fri = 0 := by
    rw [genNum_eq, hfri, List.countP_eq_zero.2]
    · rfl
    · intro l hl
      rw [hlab l hl]
      decide
  have hPa : P.answers = some (gs.map GenGroup.answers) := by rw [hP]
  have hPf : P.fixedFeatures = gs.map GenGroup.fixed := by rw [hP]
  have hPr : P.randomFeatures = gs.map GenGroup.random := by rw [hP]
  have hPo : P.obsVars = gs.map GenGroup.obsVars := by rw [hP]
  have hD : ∀ D, lmeGroups P ≠ .ok D := by
    intro D hD
    unfold lmeGroups at hD
    rw [hPa, hPf, hPr, hPo] at hD
    simp only at hD
    cases draws with
    | nil => exact hne rfl
    | cons d ds =>
      obtain ⟨var, vars, ans, rest, -, -, -, -, rfl⟩ := (genGroups_cons ..).1 hgs
      rw [if_pos hn2] at hD
      simp only [List.map_cons, List.zip_cons_cons, List.mapM_cons] at hD
      obtain ⟨G, hG, -⟩ := ebind_ok.1 hD
      obtain ⟨z, hz, -⟩ := ebind_ok.1 hG
      cases hz
  unfold lmeFitProblem
  cases hcore : lmeFitCore M st P a with
  | error e => exact ⟨e, rfl⟩
  | ok r =>
    obtain ⟨coef, x, L0⟩ := r
    obtain ⟨m, Pr', w, base, D', b0, g0', us, per, -, -, -, -, hD', -⟩ := lmeFitCore_ok hcore
    exact absurd hD' (hD D')

/-- The prior does not matter for the other hyperparameters. -/
theorem robust_prior {M : LmeModelCfg} (h : M.Robust) (prior : Option (PriorParams ℝ × PriorParams ℝ)) : ({ M with prior := prior } : LmeModelCfg).Robust :=
  ⟨⟨⟨h.adm.1, h.adm.2, h.adm.3, h.adm.4⟩, h.kind, h.keys, h.sr3, h.scad⟩, h.init, h.vaida, h.flip⟩

/-- Non-vacuity of C170: every model class with its defaults, without a prior or with a Gaussian prior on both effects of the feature, fits and predicts a generated problem with two groups; a generated
problem without random effects exists too. -/
example (sort : NpSort) (cl : LmeClassName) (sr3 : Bool) (prior : Option (PriorParams ℝ × PriorParams ℝ)) (hprior : prior = none ∨ prior = some ([("x0", (1, 1))], [("x0", (0, 2))])) :
    ∃ P cs L coef, lmeGenerate (⟨["fixed+random"], false, false, .scalar 1, [2]⟩ : GenCfg ℝ) [⟨[[3], [4]], [5], [1, 2]⟩, ⟨[[7]], [1], [0]⟩] = .ok (P, cs) ∧
    lmeFitProblem { lmeDefaultModel sort cl sr3 with prior := prior } none P ⟨none, none, false, none, none⟩ = (.ok L, some coef) ∧
    ∃ p, lmePredictProblem (some coef) P = .ok p ∧ p.length = 3 := by
  have h3 : genNum ["fixed+random"] isRandom false = 1 := by decide
  have h1 : ∀ x : ℝ, genRow ["fixed+random"] isFixed false [x] = [x] := fun x => by simp [genRow, isFixed, FIXED, FIXED_RANDOM, List.range_succ]
  have h2 : ∀ x : ℝ, genRow ["fixed+random"] isRandom false [x] = [x] := fun x => by simp [genRow, isRandom, RANDOM, FIXED_RANDOM, List.range_succ]
  have hgs : genGroups (⟨["fixed+random"], false, false, .scalar 1, [2]⟩ : GenCfg ℝ) [2, 1] 0 0 [⟨[[3], [4]], [5], [1, 2]⟩, ⟨[[7]], [1], [0]⟩] =
      .ok [⟨[[3], [4]], .rows [[3], [4]], [22, 30], [1, 1]⟩, ⟨[[7]], .rows [[7]], [21], [1]⟩] := by
    rw [genGroups_cons]
    refine ⟨_, _, [22, 30], [⟨[[7]], .rows [[7]], [21], [1]⟩], rfl, rfl, ?_, ?_, ?_⟩
    · simp only [List.zip_cons_cons, List.zip_nil_right, List.mapM_cons, List.mapM_nil, genAnswer, genRandomPart, h1, h2, h3, listDot]
      simp [bind, Except.bind, pure, Except.pure]
      norm_num
    · rw [genGroups_cons]
      refine ⟨_, _, [21], _, rfl, rfl, ?_, rfl, ?_⟩
      · simp only [List.zip_cons_cons, List.zip_nil_right, List.mapM_cons, List.mapM_nil, genAnswer, genRandomPart, h1, h2, h3, listDot]
        simp [bind, Except.bind, pure, Except.pure]
        norm_num
      · simp [h1, h2, h3]
    · simp [h1, h2, h3]
  have hgen := (lmeGenerate_ok (⟨["fixed+random"], false, false, .scalar 1, [2]⟩ : GenCfg ℝ) [⟨[[3], [4]], [5], [1, 2]⟩, ⟨[[7]], [1], [0]⟩] _ _).2 ⟨by decide, by decide, _, hgs, rfl, rfl⟩
  obtain ⟨L, coef, hfit, -, -, hl, hp⟩ := C170_generated_partial { lmeDefaultModel sort cl sr3 with prior := prior } (robust_prior (lmeDefaultModel_robust sort cl sr3) prior) none _ (by
    intro fe re hp
    have hp' : prior = some (fe, re) := hp
    rcases hprior with h0 | h0
    · rw [h0] at hp'
      cases hp'
    · rw [h0] at hp'
      cases hp'
      constructor <;>
      · intro name mean std hm
        simp only [List.mem_cons, Prod.mk.injEq, List.not_mem_nil, or_false] at hm
        obtain ⟨rfl, rfl, rfl⟩ := hm
        exact ⟨by norm_num, .inr ⟨0, .inr rfl, rfl⟩⟩) _ (by simp) (by simp) (by simp) (.inr (.inr (by simp))) _ _ hgen
    (by simp) none none (by simp) (by simp) false
  refine ⟨_, _, L, coef, hgen, hfit, _, hp, ?_⟩
  match hc : coef.randomEffects, hl with
  | [u, v], _ => rfl

example : ∃ P cs, lmeGenerate (⟨["fixed"], false, false, .scalar 1, [2]⟩ : GenCfg ℝ) [⟨[[3], [4]], [], [1, 2]⟩] = .ok (P, cs) ∧ ∀ M st a, ∃ e, lmeFitProblem M st P a = (.error e, st) := by
  have h3 : genNum ["fixed"] isRandom false = 0 := by decide
  have h1 : ∀ x : ℝ, genRow ["fixed"] isFixed false [x] = [x] := fun x => by simp [genRow, isFixed, FIXED, FIXED_RANDOM, List.range_succ]
  have hgs : genGroups (⟨["fixed"], false, false, .scalar 1, [2]⟩ : GenCfg ℝ) [2] 0 0 [⟨[[3], [4]], [], [1, 2]⟩] = .ok [⟨[[3], [4]], .zeroDim, [7, 10], [1, 1]⟩] := by
    rw [genGroups_cons]
    refine ⟨_, _, [7, 10], _, rfl, rfl, ?_, rfl, ?_⟩
    · simp only [List.zip_cons_cons, List.zip_nil_right, List.mapM_cons, List.mapM_nil, genAnswer, genRandomPart, h1, h3, listDot]
      simp [bind, Except.bind, pure, Except.pure]
      norm_num
    · simp [h1, h3]
  have hgen := (lmeGenerate_ok (⟨["fixed"], false, false, .scalar 1, [2]⟩ : GenCfg ℝ) [⟨[[3], [4]], [], [1, 2]⟩] _ _).2 ⟨by decide, by decide, _, hgs, rfl, rfl⟩
  exact ⟨_, _, hgen, fun M st a => C170_no_random_violated M st a _ _ (by simp) rfl (by simp) _ _ hgen⟩

end Verif
