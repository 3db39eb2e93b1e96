import Verif.Props.Sr3Solver
import Verif.Props.LinModels
import Verif.Lemmas.LmeOracle
import Verif.Props.Priors
import Verif.Props.Wrappers

/-!
# Values of the L0 penalties, list logging, alignment of the mixed-model prior and the flag of the practical solver

Theorems added after wrong variants of the corresponding definitions had survived (`/verif/seeded/LOG.jsonl`).
-/

namespace Verif

open Matrix

variable {K : Type*} [Field K] [LinearOrder K] [IsStrictOrderedRing K]

/-! ## C01, C14: values of the L0 penalties -/

/-- **C01**, value: the penalty is `0` for vectors with at most `k` nonzero entries and infinite for all others, so the
result of `prox` has penalty `0` (for `k ≥ 0`). -/
theorem C01_l0_value {n : ℕ} (k : ℤ) (as : ArgSort (Fin n) K) (ws : Option (L0Weights K n)) (x : Vec K n) :
    ((numNonzero x : ℤ) ≤ k → (l0Regularizer (some k) as ws).value x = .ok 0) ∧
    (k < numNonzero x → (l0Regularizer (some k) as ws).value x = .ok ⊤) ∧
    (0 ≤ k → ∀ alpha b, (l0Regularizer (some k) as none).prox x alpha = .ok b →
      (l0Regularizer (some k) as none).value b = .ok 0) := by
  have h0 : ∀ ws : Option (L0Weights K n), ∀ x : Vec K n, (numNonzero x : ℤ) ≤ k →
      (l0Regularizer (some k) as ws).value x = .ok 0 := by
    intro ws x h
    rw [numNonzero_eq] at h
    simp only [l0Regularizer]
    rw [if_neg (not_lt.2 h)]
  refine ⟨h0 ws x, fun h => ?_, fun hk alpha b hb => h0 none b ?_⟩
  · rw [numNonzero_eq] at h
    simp only [l0Regularizer]
    rw [if_pos h]
  · obtain ⟨b', hb', -, hn, -⟩ := C01_l0_prox_best_sparse k as x alpha
    cases hb'.symm.trans hb
    rwa [max_eq_left hk] at hn

/-- A vector with two nonzero entries has penalty `0` for `k = 2` and is infeasible for `k = 1`. -/
example (as : ArgSort (Fin 3) ℚ) : (l0Regularizer (some 2) as none).value ![1, 0, 2] = .ok 0 ∧
    (l0Regularizer (some 1) as none).value ![1, 0, 2] = .ok ⊤ := by
  have h : numNonzero (![1, 0, 2] : Vec ℚ 3) = 2 := by
    have : {i | (![1, 0, 2] : Vec ℚ 3) i ≠ 0} = {0, 2} := by
      ext i; fin_cases i <;> simp
    rw [numNonzero, this, Set.ncard_pair (by decide)]
  exact ⟨(C01_l0_value 2 as none _).1 (by rw [h]; rfl), (C01_l0_value 1 as none _).2.1 (by rw [h]; norm_num)⟩

/-- **C14**, value: the mixed-model penalty is `0` exactly if the total number of nonzero effects is within the sum of
the budgets, else infinite. -/
theorem C14_l0lme_value {p q : ℕ} (kb kg : ℤ) (indep : Bool) (b2g : Fin p → Option (Fin q)) (ws : Option (L0LmeWeights K p q))
    (asAll : ArgSort (Fin p) K) (x : Vec K (p + q)) :
    ((numNonzero x : ℤ) ≤ kb + kg → (l0LmeRegularizer ⟨some kb, some kg, indep⟩ b2g ws asAll).value x = .ok 0) ∧
    (kb + kg < numNonzero x → (l0LmeRegularizer ⟨some kb, some kg, indep⟩ b2g ws asAll).value x = .ok ⊤) := by
  simp only [numNonzero_eq, l0LmeRegularizer]
  exact ⟨fun h => if_neg (not_lt.2 h), fun h => if_pos h⟩

example (b2g : Fin 1 → Option (Fin 1)) (asAll : ArgSort (Fin 1) ℚ) :
    (l0LmeRegularizer ⟨some 1, some 0, true⟩ b2g none asAll).value ![1, 2] = .ok ⊤ := by
  refine (C14_l0lme_value 1 0 true b2g none asAll _).2 ?_
  have : {i | (![1, 2] : Vec ℚ 2) i ≠ 0} = {0, 1} := by
    ext i; fin_cases i <;> simp
  rw [numNonzero, this, Set.ncard_pair (by decide)]
  norm_num

/-! ## C24: appending lists -/

/-- **C24**, what does hold for lists: `append` of a list to a key that holds a list extends it, and touches nothing
else. Missing: absent keys (`C24_append_violated`). -/
theorem C24_append_list_partial {V : Type*} [Add V] (L : Logger V) (key : String) (l l' : List V) (h : L.get key = .ok (.list l)) :
    ∃ L', L.append key (.list l') = .ok L' ∧ L'.get key = .ok (.list (l ++ l')) ∧ L'.keys = L.keys ∧
      ∀ k, k ≠ key → L'.get k = L.get k := by
  unfold Logger.get at h
  cases hk : L.dict key with
  | none => rw [hk] at h; cases h
  | some v =>
    rw [hk] at h
    cases h
    refine ⟨{ L with dict := Function.update L.dict key (some (.list (l ++ l'))) }, ?_, ?_, rfl, fun k hne => ?_⟩
    · simp [Logger.append, hk, LVal.iadd, bind, Except.bind, pure, Except.pure]
    · simp [Logger.get]
    · simp [Logger.get, Function.update, hne]

example : ∃ L', (Logger.init (V := ℤ) .tuple ["loss"]).append "loss" (.list [1]) = .ok L' ∧ L'.get "loss" = .ok (.list [1]) := by
  obtain ⟨L', h, h', -⟩ := C24_append_list_partial (Logger.init (V := ℤ) .tuple ["loss"]) "loss" [] [1] rfl
  exact ⟨L', h, h'⟩

/-! ## C26, C29: the mixed-model prior -/

/-- **C26** for mixed models: a new `GaussianPriorLME` can be instantiated exactly if both dictionaries fit their own
columns; then the prior of the fixed effects uses the fixed-effect dictionary and columns, that of the variances the
random-effect dictionary and columns. -/
theorem C26_lme_alignment (fe re : PriorParams K) (fc rc : List String) (hf : fc ≠ []) (hr : rc ≠ []) :
    (((LmePrior.init fe re).instantiate (some fc) (some rc)).1 = .ok () ↔ fe.Fits fc ∧ re.Fits rc) ∧
    (((LmePrior.init fe re).instantiate (some fc) (some rc)).1 = .ok () →
      ∃ (b : GaussState K fc.length) (g : GaussState K rc.length),
        ((LmePrior.init fe re).instantiate (some fc) (some rc)).2.beta = some ⟨_, b⟩ ∧
        ((LmePrior.init fe re).instantiate (some fc) (some rc)).2.gamma = some ⟨_, g⟩ ∧
        ∀ beta gamma, (LmeInstPrior.gaussian b g).loss beta gamma =
          ∑ i : Fin fc.length, columnPenalty id fe fc[i] (beta i) + ∑ j : Fin rc.length, columnPenalty id re rc[j] (gamma j)) := by
  have hfe := (C26_instantiate_iff fe fc).1
  have hre := (C26_instantiate_iff re rc).1
  have hall : fe.Fits fc → fe.all (fun kv => decide (kv.1 ∈ fc)) = true := fun h =>
    List.all_eq_true.2 fun kv hkv => decide_eq_true (h.1 kv.1 kv.2 hkv)
  have key : ∀ b g, gaussInstantiate fe fc = .ok b → gaussInstantiate re rc = .ok g →
      (LmePrior.init fe re).instantiate (some fc) (some rc) =
        (.ok (), { LmePrior.init fe re with beta := some ⟨_, b⟩, gamma := some ⟨_, g⟩ }) := by
    intro b g hb hg
    have ha := hall (hfe.1 ⟨b, hb⟩)
    simp [LmePrior.instantiate, LmePrior.init, hf, hr, ha, gaussInstantiateArg, hb, hg, Except.map]
  have hiff : ((LmePrior.init fe re).instantiate (some fc) (some rc)).1 = .ok () ↔ fe.Fits fc ∧ re.Fits rc := by
    constructor
    · intro h
      unfold LmePrior.instantiate at h
      simp only [LmePrior.init, hf, hr, or_self, if_false] at h
      split_ifs at h with ha
      cases hb : gaussInstantiate fe fc with
      | error e => simp [gaussInstantiateArg, hb, Except.map] at h
      | ok b =>
        cases hg : gaussInstantiate re rc with
        | error e => simp [gaussInstantiateArg, hb, hg, Except.map] at h
        | ok g => exact ⟨hfe.1 ⟨b, hb⟩, hre.1 ⟨g, hg⟩⟩
    · rintro ⟨h1, h2⟩
      obtain ⟨b, hb⟩ := hfe.2 h1
      obtain ⟨g, hg⟩ := hre.2 h2
      rw [key b g hb hg]
  refine ⟨hiff, fun h => ?_⟩
  obtain ⟨h1, h2⟩ := hiff.1 h
  obtain ⟨b, hb⟩ := hfe.2 h1
  obtain ⟨g, hg⟩ := hre.2 h2
  rw [key b g hb hg]
  refine ⟨b, g, rfl, rfl, fun beta gamma => ?_⟩
  rw [← (C26_alignment fe fc b hb).1, ← (C26_alignment re rc g hg).1]
  rfl

/-- A prior on one fixed effect and on the variance of another column. -/
example : ((LmePrior.init (K := ℚ) [("time", (1, 2))] [("age", (0, 1))]).instantiate (some ["time", "age"]) (some ["age"])).1 = .ok () := by
  refine (C26_lme_alignment _ _ _ _ (by simp) (by simp)).1.2 ⟨⟨?_, ?_⟩, ⟨?_, ?_⟩⟩
  · intro n ms h; simp at h; simp [h.1]
  · intro label hl mean std h
    simp only [List.lookup] at h
    split at h
    · cases h; norm_num
    · cases h
  · intro n ms h; simp at h; simp [h.1]
  · intro label hl mean std h
    simp only [List.lookup] at h
    split at h
    · cases h; norm_num
    · cases h

/-- **C29**, what does hold: `forget` removes the instantiated state of both inner priors whatever happened before.
Missing: the prior can then be instantiated again (false, see `C29_reuse_violated`). -/
theorem C29_forget_partial (p : LmePrior K) : p.forget.beta = none ∧ p.forget.gamma = none := ⟨rfl, rfl⟩

example : ∃ b, ((LmePrior.init (K := ℚ) [] []).instantiate (some ["time"]) (some ["age"])).2.beta = some b :=
  let ⟨_, _, h, _⟩ := (C26_lme_alignment (K := ℚ) [] [] ["time"] ["age"] (by simp) (by simp)).2
    ((C26_lme_alignment _ _ _ _ (by simp) (by simp)).1.2 ⟨⟨by simp, by simp [List.lookup]⟩, ⟨by simp, by simp [List.lookup]⟩⟩)
  ⟨_, h⟩

/-! ## C38: what is logged -/

theorem Logger.add_keys {V : Type*} {L L' : Logger V} {k : String} {v : LVal V} (h : L.add k v = .ok L') :
    (∀ j ∈ L.keys, j ∈ L'.keys) ∧ L'.dict = Function.update L.dict k (some v) := by
  unfold Logger.add at h
  simp only at h
  split_ifs at h
  · cases h; exact ⟨fun j hj => hj, rfl⟩
  · split at h
    · cases h; exact ⟨fun j hj => List.mem_append_left _ hj, rfl⟩
    · cases h

theorem Logger.log_keys {V : Type*} {L L' : Logger V} {f : String → Option V} (h : L.log f = .ok L') : L'.keys = L.keys := by
  unfold Logger.log at h
  cases hd : L.keys.foldlM (Logger.logKey f) L.dict with
  | error e => rw [hd] at h; cases h
  | ok d => rw [hd] at h; cases h; rfl

section
variable {F : Type} [Field F] [LinearOrder F] [IsStrictOrderedRing F] [FloorSemiring F] {n : ℕ} {σ : Type}

theorem logBlock_keepKeys {o : Oracle F n σ} {R : Regularizer F n} {L L' : Logger (PyVal F n)} {x : Vec F n} {vars : String → Option (PyVal F n)}
    {s s' : σ} (h : logBlock o R L x vars s = .ok (L', s')) : L'.keys = L.keys := by
  unfold logBlock at h
  obtain ⟨loss, s1, -, h⟩ := bind_ok.1 h
  split_ifs at h
  · exact Logger.log_keys (callReg_ok.1 h).1
  · obtain ⟨he, -⟩ := pure_ok.1 h
    rw [← he]

theorem pgdLoop_keys {o : Oracle F n σ} {R : Regularizer F n} {cfg : PGDCfg F} {x0 : Vec F n} (x : Vec F n) (xprev : Option (Vec F n))
    (it : ℕ) (L : Logger (PyVal F n)) (s s' : σ) (r : Vec F n × ℕ × Logger (PyVal F n)) (h : pgdLoop o R cfg x0 x xprev it L s = .ok (r, s')) :
    r.2.2.keys = L.keys := by
  induction x, xprev, it, L using pgdLoop.induct (cfg := cfg) generalizing s with
  | case1 x xprev it L hg ih =>
    rw [pgdLoop, dif_pos hg] at h
    obtain ⟨⟨x', L'⟩, s1, hb, h⟩ := bind_ok.1 h
    rw [ih (x', L') s1 h]
    unfold pgdBody at hb
    obtain ⟨g, s2, -, hb⟩ := bind_ok.1 hb
    obtain ⟨st, s3, -, hb⟩ := bind_ok.1 hb
    obtain ⟨z, s4, -, hb⟩ := bind_ok.1 hb
    obtain ⟨L2, s5, hL, hb⟩ := bind_ok.1 hb
    obtain ⟨he, -⟩ := pure_ok.1 hb
    cases he
    exact logBlock_keepKeys hL
  | case2 x xprev it L hg =>
    rw [pgdLoop, dif_neg hg] at h
    obtain ⟨he, -⟩ := pure_ok.1 h
    rw [← he]

theorem pgdOptimize_keys {o : Oracle F n σ} {R : Regularizer F n} {cfg : PGDCfg F} {x0 x : Vec F n} {L L' : Logger (PyVal F n)} {s s' : σ}
    (h : pgdOptimize o R cfg x0 L s = .ok ((x, L'), s')) : ∀ k ∈ L.keys, k ∈ L'.keys := by
  unfold pgdOptimize at h
  obtain ⟨L0, s1, h0, h⟩ := bind_ok.1 h
  obtain ⟨r, s2, hr, h⟩ := bind_ok.1 h
  obtain ⟨L1, s3, h1, h⟩ := bind_ok.1 h
  obtain ⟨L2, s4, h2, h⟩ := bind_ok.1 h
  obtain ⟨he, -⟩ := pure_ok.1 h
  cases he
  intro k hk
  refine (Logger.add_keys (callReg_ok.1 h2).1).1 k ((Logger.add_keys (callReg_ok.1 h1).1).1 k ?_)
  rw [pgdLoop_keys _ _ _ _ _ _ _ hr, logBlock_keepKeys h0]
  exact hk

theorem fakeOptimize_keys {o : Oracle F n σ} {f : Vec F n → PyM σ (Vec F n)} {R : Regularizer F n} {x0 x : Vec F n} {L L' : Logger (PyVal F n)} {s s' : σ}
    (h : fakeOptimize o f R x0 L s = .ok ((x, L'), s')) : ∀ k ∈ L.keys, k ∈ L'.keys := by
  unfold fakeOptimize at h
  obtain ⟨z, s1, -, h⟩ := bind_ok.1 h
  obtain ⟨L1, s2, h1, h⟩ := bind_ok.1 h
  obtain ⟨L2, s3, h2, h⟩ := bind_ok.1 h
  obtain ⟨he, -⟩ := pure_ok.1 h
  cases he
  intro k hk
  refine (Logger.add_keys (callReg_ok.1 h2).1).1 k ?_
  split_ifs at h1
  · obtain ⟨l, s4, -, h1⟩ := bind_ok.1 h1
    exact (Logger.add_keys (callReg_ok.1 h1).1).1 k hk
  · obtain ⟨he, -⟩ := pure_ok.1 h1
    rwa [← he]

end

theorem logIC_get {n : ℕ} {L L' : Logger (PyVal ℝ n)} {aic bic : ℝ} (h : logIC L aic bic = .ok L') :
    ("aic" ∈ L.keys → L'.get "aic" = .ok (.atom (.num (aic : WithTop ℝ)))) ∧
    ("bic" ∈ L.keys → L'.get "bic" = .ok (.atom (.num (bic : WithTop ℝ)))) := by
  have h0 : (if "aic" ∈ L.keys then L.add "aic" (.atom (.num (aic : WithTop ℝ))) else .ok L) >>= (fun L1 : Logger (PyVal ℝ n) =>
      if "bic" ∈ L1.keys then L1.add "bic" (.atom (.num (bic : WithTop ℝ))) else .ok L1) = .ok L' := by
    rw [← h]
    unfold logIC
    simp only
    split_ifs <;> rfl
  obtain ⟨L1, h1, h⟩ := ebind_ok.1 h0
  have h2 : (∀ j ∈ L.keys, j ∈ L1.keys) ∧ ("aic" ∈ L.keys → L1.dict "aic" = some (.atom (.num (aic : WithTop ℝ)))) := by
    split_ifs at h1 with hk
    · obtain ⟨ha, hb⟩ := Logger.add_keys h1
      exact ⟨ha, fun _ => by rw [hb]; simp⟩
    · cases h1
      exact ⟨fun j hj => hj, fun hc => absurd hc hk⟩
  split_ifs at h with hk
  · obtain ⟨ha, hb⟩ := Logger.add_keys h
    refine ⟨fun hc => ?_, fun _ => ?_⟩
    · simp [Logger.get, hb, h2.2 hc]
    · simp [Logger.get, hb]
  · cases h
    exact ⟨fun hc => by simp [Logger.get, h2.2 hc], fun hc => absurd (h2.1 _ hc) hk⟩

/-- **C38**, fitted models: after every successful fit of a linear model (plain with any prior, SR3 or practical SR3) the
criteria in the logger, if asked for, are those of the returned coefficients. -/
theorem C38_logged (M : LinModelCfg) (P : LinProblem ℝ) (x0 : Option (Vec ℝ P.n)) (warm : Bool) (w : Option (Vec ℝ P.n))
    (x : Vec ℝ P.n) (L : Logger (PyVal ℝ P.n)) (h : linFit M P x0 warm w = .ok (x, L)) :
    ∃ prior : InstPrior ℝ P.n, (M.sr3 = none → linOracleInstantiate M.prior P = .ok prior) ∧ (M.sr3 ≠ none → prior = .nonInformative) ∧
      ("aic" ∈ M.loggerKeys → L.get "aic" =
        .ok (.atom (.num ((leastSquares P.a P.b x + prior.loss x + 2 * numNonzero x : ℝ) : WithTop ℝ)))) ∧
      ("bic" ∈ M.loggerKeys → L.get "bic" =
        .ok (.atom (.num ((leastSquares P.a P.b x + prior.loss x + Real.log P.m * numNonzero x : ℝ) : WithTop ℝ)))) := by
  unfold linFit at h
  simp only at h
  split at h
  · rename_i hs
    obtain ⟨prior, hp, h⟩ := ebind_ok.1 h
    obtain ⟨⟨⟨x', L1⟩, u⟩, hr, h⟩ := ebind_ok.1 h
    obtain ⟨L2, hl, h⟩ := ebind_ok.1 h
    cases h
    obtain ⟨h1, h2⟩ := logIC_get hl
    obtain ⟨e1, e2, -, -⟩ := C38_information_criteria P.a P.b prior x'
    refine ⟨prior, fun _ => hp, fun hc => absurd hs hc, fun hk => ?_, fun hk => ?_⟩
    · rw [h1 (pgdOptimize_keys hr _ hk)]; simp only [e1]
    · rw [h2 (pgdOptimize_keys hr _ hk)]; simp only [e2]
  · rename_i el practical hs
    split at h
    · cases h
    · by_cases hdet : (sr3H P.a P.c el).det = 0
      · rw [if_pos hdet] at h; cases h
      rw [if_neg hdet] at h
      have main : ∃ L1 : Logger (PyVal ℝ P.n), (∀ k ∈ M.loggerKeys, k ∈ L1.keys) ∧ logIC L1 (sr3Aic P.a P.b x) (sr3Bic P.a P.b x) = .ok L := by
        cases practical
        · rw [if_neg (by simp)] at h
          obtain ⟨⟨⟨x', L1⟩, u⟩, hr, h⟩ := ebind_ok.1 h
          obtain ⟨L2, hl, h⟩ := ebind_ok.1 h
          cases h
          exact ⟨L1, fun k hk => pgdOptimize_keys hr k hk, hl⟩
        · rw [if_pos rfl] at h
          obtain ⟨⟨⟨x', L1⟩, u⟩, hr, h⟩ := ebind_ok.1 h
          obtain ⟨L2, hl, h⟩ := ebind_ok.1 h
          cases h
          exact ⟨L1, fun k hk => fakeOptimize_keys hr k hk, hl⟩
      obtain ⟨L1, hk, hl⟩ := main
      obtain ⟨h1, h2⟩ := logIC_get hl
      obtain ⟨-, -, e1, e2⟩ := C38_information_criteria P.a P.b .nonInformative x
      have h0 : (InstPrior.nonInformative : InstPrior ℝ P.n).loss x = 0 := rfl
      refine ⟨.nonInformative, fun hc => absurd (hs.symm.trans hc) (by simp), fun _ => rfl, fun hc => ?_, fun hc => ?_⟩
      · rw [h1 (hk _ hc)]; simp only [e1, h0, add_zero]
      · rw [h2 (hk _ hc)]; simp only [e2, h0, add_zero]

/-- A lasso model asked for `aic`, on every problem. -/
example (P : LinProblem ℝ) : ∃ x L, linFit { exL1Model with loggerKeys := ["loss", "aic"] } P none false none = .ok (x, L) ∧
    L.get "aic" = .ok (.atom (.num ((leastSquares P.a P.b x + 2 * numNonzero x : ℝ) : WithTop ℝ))) := by
  obtain ⟨x, L, h⟩ := linFit_plain_returns { exL1Model with loggerKeys := ["loss", "aic"] } rfl rfl rfl (by simp)
    (fun n w x => ((l1Regularizer 1 (some w)).value x).toOption.getD 0)
    (fun n w x => by simp [exL1Model, l1Regularizer, Except.toOption])
    (fun n w y t => by simp [exL1Model, l1Regularizer]) P none false none
  obtain ⟨prior, hp, -, ha, -⟩ := C38_logged _ P none false none x L h
  refine ⟨x, L, h, ?_⟩
  rw [ha (by simp)]
  cases hp rfl
  change Except.ok (LVal.atom (PyVal.num ((leastSquares P.a P.b x + 0 + 2 * numNonzero x : ℝ) : WithTop ℝ))) = _
  rw [add_zero]

/-! ## C41 -/

/-- **C41** is violated for one feature too: the zero matrix is replaced by the identity. -/
theorem C41_zero_violated {m : ℕ} (a : Matrix (Fin m) (Fin 1) K) (b : Vec K m) (w : Option (Vec K 1)) :
    linProblemInit a b (some 0) w = .ok ⟨m, 1, a, b, 1, w, .none⟩ := by
  simp [linProblemInit, arrayTruth]

example : linProblemInit (!![1; 2] : Matrix (Fin 2) (Fin 1) ℚ) ![1, 1] (some 0) none ≠ .ok ⟨2, 1, !![1; 2], ![1, 1], 0, none, .none⟩ := by
  rw [C41_zero_violated]
  simp

/-! ## C90: the flag of the practical solver -/

/-- **C90** is violated: every run of the practical solver that returns reports convergence, whatever the oracle did. -/
theorem C90_always_true_violated {F : Type} [Field F] [LinearOrder F] [IsStrictOrderedRing F] {n : ℕ} {σ : Type} (o : Oracle F n σ)
    (f : Vec F n → PyM σ (Vec F n)) (R : Regularizer F n) (x0 x : Vec F n) (L L' : Logger (PyVal F n)) (s s' : σ) (h : fakeOptimize o f R x0 L s = .ok ((x, L'), s')) :
    L'.get "converged" = .ok (.atom (.bool true)) := by
  unfold fakeOptimize at h
  obtain ⟨z, s1, -, h⟩ := bind_ok.1 h
  obtain ⟨L1, s2, -, h⟩ := bind_ok.1 h
  obtain ⟨L2, s3, h2, h⟩ := bind_ok.1 h
  obtain ⟨he, -⟩ := pure_ok.1 h
  cases he
  have h2 := (callReg_ok.1 h2).1
  unfold Logger.add at h2
  simp only at h2
  split_ifs at h2
  · cases h2
    simp [Logger.get]
  · split at h2
    · cases h2
      simp [Logger.get]
    · cases h2

/-- **C90** is violated: with an iteration budget of `0` the practical SR3 model makes no step at all, on any data and
with any regularizer, and still reports `converged = True`. -/
theorem C90_flag_violated (M : LinModelCfg) (el : ℝ) (hel : el ≠ 0) (hM : M.sr3 = some (el, true)) (hpr : M.prior = .none) (hk : M.loggerKind = .tuple)
    (hkeys : M.loggerKeys = ["converged"]) (hit : M.maxIter = 0) (P : LinProblem ℝ) (hdet : (sr3H P.a P.c el).det ≠ 0) (w : Option (Vec ℝ P.n)) :
    ∃ L, linFit M P none false w = .ok (fun _ => 1, L) ∧ L.get "converged" = .ok (.atom (.bool true)) := by
  have hloop : ∀ R : Regularizer ℝ P.n, findOptimalParameters P.a P.b P.c el R M.tol M.maxIter (fun _ => 1) = .ok fun _ => 1 := by
    intro R
    rw [findOptimalParameters_eq _ _ _ hel, practicalLoop, dif_neg (by simp [hit])]
    rfl
  refine ⟨⟨.tuple, ["converged"], Function.update (fun _ => none) "converged" (some (.atom (.bool true)))⟩, ?_, by simp [Logger.get]⟩
  have hf : ∀ R : Regularizer ℝ P.n, fakeOptimize (sr3Oracle P.a P.b P.c el false)
      (fun x => callReg (findOptimalParameters P.a P.b P.c el R M.tol M.maxIter x)) R (fun _ => 1)
      (Logger.init M.loggerKind M.loggerKeys) () =
      .ok (((fun _ => 1), ⟨.tuple, ["converged"], Function.update (fun _ => none) "converged" (some (.atom (.bool true)))⟩), ()) := by
    intro R
    unfold fakeOptimize
    refine bind_ok.2 ⟨fun _ => 1, (), callReg_ok.2 ⟨hloop R, rfl⟩, ?_⟩
    refine bind_ok.2 ⟨Logger.init M.loggerKind M.loggerKeys, (), ?_, ?_⟩
    · rw [if_neg (by simp [hkeys, Logger.init])]
      rfl
    refine bind_ok.2 ⟨_, (), callReg_ok.2 ⟨?_, rfl⟩, rfl⟩
    simp only [Logger.add, Logger.init, hk, hkeys, List.mem_singleton, if_true]
    congr 2
    funext k
    by_cases hk : k = "converged" <;> simp [hk, Function.update]
  unfold linFit
  simp only [hM, hpr, if_neg hdet, if_true, Bool.false_eq_true, if_false]
  rw [hf]
  simp [logIC, bind, Except.bind, pure, Except.pure]

/-- The practical model with default constants and any regularizer, on one observation. -/
example (reg : (n : ℕ) → Vec ℝ n → Regularizer ℝ n) (P : LinProblem ℝ) (hP : P = ⟨1, 1, 1, ![5], 1, none, .none⟩) :
    ∃ L : Logger (PyVal ℝ P.n), linFit ⟨some (1, true), 1 / 100000, 0, "fixed", none, .none, .tuple, ["converged"], reg⟩ P none false none =
      .ok (fun _ => 1, L) ∧ L.get "converged" = .ok (.atom (.bool true)) := by
  subst hP
  exact C90_flag_violated _ 1 one_ne_zero rfl rfl rfl rfl rfl _ (by simp [sr3H]) none

/-- The part of **C90** that holds: if the regularizer is the exact prox of a nonnegative penalty, then with a large
enough iteration budget the practical solver returns the vector of a `PGDSolver` run whose (honest, C17) flag is `True`.
Missing: smaller budgets, where the flag is `True` as well. -/
theorem C90_flag_partial {m n : ℕ} (A : Matrix (Fin m) (Fin n) ℝ) (b : Vec ℝ m) (lam : ℝ) (hlam : 0 < lam) (R : Regularizer ℝ n)
    (g : Vec ℝ n → WithTop ℝ) (hg : ∀ x, R.value x = .ok (g x)) (hg0 : ∀ x, 0 ≤ g x)
    (hp : ∀ y, ∃ z, R.prox y (1 / lam) = .ok z ∧ IsProxOf g (1 / lam) y z) (tol : ℝ) (htol : 0 < tol) (x0 : Vec ℝ n)
    (L : Logger (PyVal ℝ n)) (hL : L.Good) :
    ∃ N : ℕ, ∀ maxIter : ℤ, N ≤ maxIter → ∃ x Lf, findOptimalParameters A b 1 lam R tol maxIter x0 = .ok x ∧
      pgdOptimize (sr3Oracle A b 1 lam false) R ⟨tol, maxIter, "fixed", 1 / lam⟩ x0 L () = .ok ((x, Lf), ()) ∧
      Lf.get "converged" = .ok (.atom (.bool true)) := by
  obtain ⟨N, hN⟩ := C36_sr3_converges A b lam hlam R g hg hg0 hp tol htol x0 L hL
  refine ⟨N, fun maxIter hmax => ?_⟩
  obtain ⟨x, Lf, h, hc⟩ := hN maxIter hmax "fixed"
  exact ⟨x, Lf, C35_practical_of_pgd A b lam hlam R tol maxIter "fixed" x0 x L Lf () () h, h, hc⟩

/-- Without a penalty on two columns. -/
example : ∃ N : ℕ, ∀ maxIter : ℤ, N ≤ maxIter →
    ∃ x, findOptimalParameters (!![1, 0; 2, 1] : Matrix (Fin 2) (Fin 2) ℝ) ![1, 3] 1 2 dummyRegularizer (1 / 100) maxIter ![1, 1] = .ok x := by
  obtain ⟨N, hN⟩ := C90_flag_partial !![1, 0; 2, 1] ![1, 3] 2 (by norm_num) dummyRegularizer (fun _ => 0) (fun _ => rfl) (fun _ => le_rfl)
    (fun y => ⟨y, rfl, 0, rfl, fun u gu hu => by
      have : gu = 0 := WithTop.coe_eq_zero.1 hu.symm
      subst this
      have := normSq_nonneg (u - y)
      have h0 : normSq (y - y) = 0 := by simp [normSq]
      rw [h0]
      norm_num
      linarith⟩) (1 / 100) (by norm_num) ![1, 1] (Logger.init .tuple ["converged"]) (Logger.good_init _ (by simp))
  exact ⟨N, fun k hk => let ⟨x, _, h, _⟩ := hN k hk; ⟨x, h⟩⟩

end Verif
