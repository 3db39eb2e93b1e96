import Verif.Props.LinModels
import Verif.Lemmas.Linear

/-!
# Linear SR3 models with a relaxation weight that is not positive: C145

The constructors accept every `el`, and `linear/models.py:319` treats `el == 0` explicitly.
-/

namespace Verif

open Matrix

variable {m n : ℕ}

theorem sr3F_zero (A : Matrix (Fin m) (Fin n) ℝ) (c : Matrix (Fin n) (Fin n) ℝ) : sr3F A c 0 = 0 := by
  unfold sr3F
  rw [zero_smul, Real.sqrt_zero, zero_smul]
  ext i j
  cases i <;> rfl

theorem sr3Gradient_zero (A : Matrix (Fin m) (Fin n) ℝ) (b : Vec ℝ m) (c : Matrix (Fin n) (Fin n) ℝ) (w : Vec ℝ n) : sr3Gradient A b c 0 w = 0 := by
  unfold sr3Gradient
  rw [sr3F_zero, transpose_zero, zero_mulVec]

theorem sr3Value_zero (A : Matrix (Fin m) (Fin n) ℝ) (b : Vec ℝ m) (c : Matrix (Fin n) (Fin n) ℝ) (w v : Vec ℝ n) : sr3Value A b c 0 w = sr3Value A b c 0 v := by
  unfold sr3Value
  rw [sr3F_zero, zero_mulVec, zero_mulVec]

/-- With `lam = 0` a step of the solver applies the prox to the current point: the data play no role. -/
theorem sr3_zero_body (A : Matrix (Fin m) (Fin n) ℝ) (b : Vec ℝ m) (c : Matrix (Fin n) (Fin n) ℝ) (R : Regularizer ℝ n) (cfg : PGDCfg ℝ)
    (x0 x x' : Vec ℝ n) (it : ℕ) (L L' : Logger (PyVal ℝ n)) (s s' : Unit)
    (h : pgdBody (sr3Oracle A b c 0 false) R cfg x0 x it L s = .ok ((x', L'), s')) : R.prox x cfg.fixedStepLen = .ok x' := by
  obtain ⟨g, s1, step, s2, hg, hst, hp, -⟩ := pgdBody_ok _ _ _ _ _ _ _ _ _ _ _ h
  have hg' : (sr3Gradient A b c 0 x, s) = (g, s1) := Except.ok.inj ((sr3Oracle_grad A b c le_rfl x s).symm.trans hg)
  obtain ⟨rfl, -⟩ := Prod.mk.inj hg'
  rw [sr3Gradient_zero] at hst hp
  have hx : (fun i => x i - step * (0 : Vec ℝ n) i) = x := by
    funext i
    rw [Pi.zero_apply, mul_zero, sub_zero]
  rw [hx] at hp
  have hstep : step = cfg.fixedStepLen := by
    unfold chooseStep at hst
    split_ifs at hst with hls
    · rw [lineSearch.eq_def] at hst
      split_ifs at hst with hpos
      · obtain ⟨z, s3, -, hst⟩ := bind_ok.1 hst
        obtain ⟨fz, s4, hfz, hst⟩ := bind_ok.1 hst
        obtain ⟨fx, s5, hfx, hst⟩ := bind_ok.1 hst
        rw [sr3Oracle_value A b c le_rfl] at hfz hfx
        cases hfz
        cases hfx
        rw [if_pos] at hst
        · exact (pure_ok.1 hst).1.symm
        · unfold Accept
          rw [sr3Value_zero A b c z x]
          have h0 : dot (-0 : Vec ℝ n) (z - x) = 0 := by simp [dot]
          rw [h0, sub_zero]
          have hs0 : 0 < cfg.fixedStepLen := lt_trans (by positivity) hpos
          have : 0 ≤ 1 / (2 * cfg.fixedStepLen) * normSq (z - x) := mul_nonneg (by positivity) (normSq_nonneg _)
          linarith
      · exact (pure_ok.1 hst).1.symm
    · exact (pure_ok.1 hst).1.symm
  rw [← hstep]
  exact hp

/-- Two traces of the same deterministic step with the same stopping rule end in the same point. -/
theorem trace_unique {cfg : PGDCfg ℝ} (step : Vec ℝ n → Except PyErr (Vec ℝ n)) {X X' : ℕ → Vec ℝ n} {k k' : ℕ} (h0 : X 0 = X' 0)
    (hs : ∀ i < k, step (X i) = .ok (X (i + 1))) (hs' : ∀ i < k', step (X' i) = .ok (X' (i + 1)))
    (hg : ∀ i < k, guardAt cfg X 0 i none) (hg' : ∀ i < k', guardAt cfg X' 0 i none) (he : ¬ guardAt cfg X 0 k none) (he' : ¬ guardAt cfg X' 0 k' none) : X k = X' k' := by
  have hX : ∀ i, i ≤ k → i ≤ k' → X i = X' i := by
    intro i
    induction i with
    | zero => exact fun _ _ => h0
    | succ i ih =>
      intro h1 h2
      have e := ih (by omega) (by omega)
      have a := hs i (by omega)
      have b := hs' i (by omega)
      rw [e, b] at a
      exact (Except.ok.inj a).symm
  have hguard : ∀ i, i ≤ k → i ≤ k' → (guardAt cfg X 0 i none ↔ guardAt cfg X' 0 i none) := by
    intro i h1 h2
    unfold guardAt
    cases i with
    | zero => simp only [h0]
    | succ i => simp only [hX i (by omega) (by omega), hX (i + 1) h1 h2]
  rcases lt_trichotomy k k' with h | h | h
  · exact absurd ((hguard k le_rfl h.le).2 (hg' k h)) he
  · rw [← h]
    exact hX k le_rfl h.le
  · exact absurd ((hguard k' h.le le_rfl).1 (hg k' h)) he'

/-- The fit of a model that is not practical, as a run of the solver. -/
theorem linFit_sr3_run {M : LinModelCfg} {el : ℝ} (hM : M.sr3 = some (el, false)) {P : LinProblem ℝ} {x0 : Option (Vec ℝ P.n)} {warm : Bool} {w : Option (Vec ℝ P.n)} {x : Vec ℝ P.n}
    {L : Logger (PyVal ℝ P.n)} (h : linFit M P x0 warm w = .ok (x, L)) :
    ∃ L' s', pgdOptimize (sr3Oracle P.a P.b P.c el false) (M.regularizer P.n (w.getD fun _ => 1)) M.solver (if warm then x0.getD fun _ => 1 else fun _ => 1)
      (Logger.init M.loggerKind M.loggerKeys) () = .ok ((x, L'), s') := by
  unfold linFit at h
  simp only [hM] at h
  cases hpr : M.prior with
  | gaussian p => simp only [hpr] at h; cases h
  | none =>
    simp only [hpr] at h
    by_cases hd : (sr3H P.a P.c el).det = 0
    · rw [if_pos hd] at h; cases h
    rw [if_neg hd] at h
    simp only [Bool.false_eq_true, if_false] at h
    obtain ⟨⟨⟨y, Ly⟩, sy⟩, hy, h⟩ := except_bind_ok.1 h
    obtain ⟨Lz, -, h⟩ := except_bind_ok.1 h
    cases h
    exact ⟨Ly, sy, hy⟩

/-- **C145 fails for `el = 0`**: the coefficients fitted by an SR3 model of any class that is not practical do not depend on the target: fits of the same table with two
different targets (and the same other arguments) give the same coefficients, whatever the regularizer, the stepping, the start and the tolerance. -/
theorem C145_zero_violated (M : LinModelCfg) (hM : M.sr3 = some (0, false)) (P : LinProblem ℝ) (b' : Vec ℝ P.m) (x0 : Option (Vec ℝ P.n)) (warm : Bool)
    (w : Option (Vec ℝ P.n)) (x x' : Vec ℝ P.n) (L L' : Logger (PyVal ℝ P.n)) (h : linFit M P x0 warm w = .ok (x, L)) (h' : linFit M { P with b := b' } x0 warm w = .ok (x', L')) :
    x = x' := by
  obtain ⟨L1, s1, h1⟩ := linFit_sr3_run hM h
  obtain ⟨L2, s2, h2⟩ := linFit_sr3_run (P := { P with b := b' }) hM h'
  obtain ⟨k, X, Ls, _, _, -, e0, ek, -, -, hs, hg, he⟩ := pgdOptimize_trace _ _ _ _ _
    (fun x _ x' _ => (M.regularizer P.n (w.getD fun _ => 1)).prox x M.solver.fixedStepLen = .ok x')
    (fun x it L s x' L' s' hb => sr3_zero_body P.a P.b P.c _ _ _ x x' it L L' s s' hb) _ _ _ _ h1
  obtain ⟨k', X', Ls', _, _, -, e0', ek', -, -, hs', hg', he'⟩ := pgdOptimize_trace _ _ _ _ _
    (fun x _ x' _ => (M.regularizer P.n (w.getD fun _ => 1)).prox x M.solver.fixedStepLen = .ok x')
    (fun x it L s x' L' s' hb => sr3_zero_body P.a b' P.c _ _ _ x x' it L L' s s' hb) _ _ _ _ h2
  rw [← ek, ← ek']
  exact trace_unique (fun x => (M.regularizer P.n (w.getD fun _ => 1)).prox x M.solver.fixedStepLen) (e0.trans e0'.symm) hs hs' hg hg' he he'

/-- **C145 fails for `el = 0`**, without penalty: on every table with independent columns the model returns the vector it started from. -/
theorem C145_start_violated (M : LinModelCfg) (hM : M.sr3 = some (0, false)) (hpr : M.prior = .none) (hk : M.loggerKind = .tuple) (hks : M.loggerKeys.Nodup)
    (hR : ∀ n w, M.regularizer n w = dummyRegularizer) (P : LinProblem ℝ) (hd : (P.aᵀ * P.a).det ≠ 0) (x0 : Option (Vec ℝ P.n)) (w : Option (Vec ℝ P.n)) :
    ∃ L, linFit M P x0 false w = .ok (fun _ => 1, L) := by
  have hx : ∀ x L, linFit M P x0 false w = .ok (x, L) → x = fun _ => 1 := by
    intro x L h
    obtain ⟨L1, s1, h1⟩ := linFit_sr3_run hM h
    rw [hR] at h1
    obtain ⟨k, X, Ls, _, _, -, e0, ek, -, -, hs, -, -⟩ := pgdOptimize_trace _ _ _ _ _ (fun x _ x' _ => x = x')
      (fun x it L s x' L' s' hb => Except.ok.inj (sr3_zero_body P.a P.b P.c dummyRegularizer _ _ x x' it L L' s s' hb)) _ _ _ _ h1
    have : ∀ i ≤ k, X i = X 0 := by
      intro i
      induction i with
      | zero => exact fun _ => rfl
      | succ i ih => exact fun hi => (hs i (by omega)).symm.trans (ih (by omega))
    rw [← ek, this k le_rfl, e0]
    simp
  have hL : (Logger.init M.loggerKind M.loggerKeys : Logger (PyVal ℝ P.n)).Good := by rw [hk]; exact Logger.good_init _ hks
  obtain ⟨x, Lf, s', h⟩ := C16_returns (sr3Oracle P.a P.b P.c 0 false) dummyRegularizer (sr3Value P.a P.b P.c 0) (sr3Gradient P.a P.b P.c 0) (fun _ => 0)
    (fun x s => ⟨s, sr3Oracle_value P.a P.b P.c le_rfl x s⟩) (fun x s => ⟨s, sr3Oracle_grad P.a P.b P.c le_rfl x s⟩) (fun _ => rfl) (fun y t => ⟨y, rfl⟩) M.solver (fun _ => 1)
    (Logger.init M.loggerKind M.loggerKeys) hL ()
  obtain ⟨L', hL'⟩ := logIC_ok Lf (sr3Aic P.a P.b x) (sr3Bic P.a P.b x)
  have hfit : linFit M P x0 false w = .ok (x, L') := by
    unfold linFit
    have hd' : (sr3H P.a P.c 0).det ≠ 0 := by
      unfold sr3H
      rwa [zero_smul, add_zero]
    simp only [hM, hpr, hR, if_neg hd', Bool.false_eq_true, if_false]
    exact except_bind_ok.2 ⟨_, h, except_bind_ok.2 ⟨_, hL', rfl⟩⟩
  exact ⟨L', by rw [hfit, hx x L' hfit]⟩

/-- Non-vacuity: the model with default arguments and `el = 0` returns `1` on the single observation `y = 1 · x`, for every `y`
(so both hypotheses of `C145_zero_violated` are met for any two targets). -/
example (y : ℝ) (P : LinProblem ℝ) (hP : P = ⟨1, 1, 1, ![y], 1, none, .none⟩) :
    ∃ L, linFit ⟨some (0, false), 1 / 10 ^ 5, 1000, "line-search", none, .none, .tuple, ["converged"], fun _ _ => dummyRegularizer⟩ P none false none = .ok (fun _ => 1, L) := by
  subst hP
  exact C145_start_violated _ rfl rfl rfl (by simp) (fun _ _ => rfl) _ (by simp) none none

/-- **C145 fails for `el = 0`**, practical models: every fit of a table with independent columns raises `ZeroDivisionError`. -/
theorem C145_practical_violated (M : LinModelCfg) (hM : M.sr3 = some (0, true)) (hpr : M.prior = .none) (P : LinProblem ℝ) (hd : (P.aᵀ * P.a).det ≠ 0)
    (x0 : Option (Vec ℝ P.n)) (warm : Bool) (w : Option (Vec ℝ P.n)) : linFit M P x0 warm w = .error .zeroDivision := by
  unfold linFit
  have hd' : (sr3H P.a P.c 0).det ≠ 0 := by
    unfold sr3H
    rwa [zero_smul, add_zero]
  simp only [hM, hpr, if_neg hd', if_true]
  unfold fakeOptimize
  simp only [findOptimalParameters, if_true]
  rfl

/-- Non-vacuity: one observation. -/
example (P : LinProblem ℝ) (hP : P = ⟨1, 1, 1, ![5], 1, none, .none⟩) :
    linFit ⟨some (0, true), 1 / 10 ^ 5, 1000, "line-search", none, .none, .tuple, ["converged"], fun _ _ => dummyRegularizer⟩ P none false none = .error .zeroDivision := by
  subst hP
  exact C145_practical_violated _ rfl rfl _ (by simp) none false none

/-- **C145 fails for `el < 0`**: whenever the matrix can be inverted, the loss of every fit with at least one feature and one iteration is NaN. -/
theorem C145_negative_violated (M : LinModelCfg) (el : ℝ) (hel : el < 0) (hM : M.sr3 = some (el, false)) (hpr : M.prior = .none) (hit : 1 ≤ M.maxIter) (hk : M.loggerKind = .tuple)
    (hks : M.loggerKeys.Nodup) (P : LinProblem ℝ) (hn : 0 < P.n) (hd : (P.aᵀ * P.a + el • (P.c * P.c)).det ≠ 0) (x0 : Option (Vec ℝ P.n)) (warm : Bool) (w : Option (Vec ℝ P.n)) :
    linFit M P x0 warm w = .error .nan := by
  have hval : ∀ x s, (sr3Oracle P.a P.b P.c el false).value x s = .error .nan := by
    intro x s
    simp [sr3Oracle, hel, hn]
  have hgrad : ∀ x s, (sr3Oracle P.a P.b P.c el false).grad x s = .error .nan := by
    intro x s
    simp [sr3Oracle, hel, hn]
  unfold linFit
  have hd' : (sr3H P.a P.c el).det ≠ 0 := hd
  simp only [hM, hpr, if_neg hd', Bool.false_eq_true, if_false]
  set R := M.regularizer P.n (w.getD fun _ => 1)
  set st : Vec ℝ P.n := if warm then x0.getD fun _ => 1 else fun _ => 1
  suffices hs : pgdOptimize (sr3Oracle P.a P.b P.c el false) R M.solver st (Logger.init M.loggerKind M.loggerKeys) () = .error .nan by
    rw [hs]; rfl
  have hloop : ∀ (L : Logger (PyVal ℝ P.n)) s, pgdLoop (sr3Oracle P.a P.b P.c el false) R M.solver st st none 0 L s = .error .nan := by
    intro L s
    have hg : farApart M.solver.tol none st ∧ ((0 : ℕ) : ℤ) < M.solver.maxIter := ⟨.inl hn, by simp only [LinModelCfg.solver]; push_cast; omega⟩
    rw [pgdLoop, dif_pos hg]
    unfold pgdBody
    change ((((sr3Oracle P.a P.b P.c el false).grad st s) >>= fun r => _) >>= fun r => _) = _
    rw [hgrad]
    rfl
  unfold pgdOptimize
  by_cases hl : "loss" ∈ (Logger.init M.loggerKind M.loggerKeys : Logger (PyVal ℝ P.n)).keys
  · have : logBlock (sr3Oracle P.a P.b P.c el false) R (Logger.init M.loggerKind M.loggerKeys) st (localsInit st) () = .error .nan := by
      unfold logBlock
      simp only [hl, if_true]
      change ((((sr3Oracle P.a P.b P.c el false).value st () >>= fun r => _) >>= fun r => _) >>= fun r => _) = _
      rw [hval]
      rfl
    change (logBlock _ _ _ _ _ () >>= fun r => _) = _
    rw [this]
    rfl
  · have hL : (Logger.init M.loggerKind M.loggerKeys : Logger (PyVal ℝ P.n)).Good := by rw [hk]; exact Logger.good_init _ hks
    have : ∃ L0, logBlock (sr3Oracle P.a P.b P.c el false) R (Logger.init M.loggerKind M.loggerKeys) st (localsInit st) () = .ok (L0, ()) := by
      unfold logBlock
      simp only [hl, if_false]
      obtain ⟨L', hL', -⟩ := hL.log (fun k => if k = "loss" then none else localsInit st k)
      by_cases hlen : (Logger.init M.loggerKind M.loggerKeys : Logger (PyVal ℝ P.n)).keys.length > 0
      · refine ⟨L', bind_ok.2 ⟨none, (), rfl, ?_⟩⟩
        rw [if_pos hlen]
        exact callReg_ok.2 ⟨hL', rfl⟩
      · refine ⟨Logger.init M.loggerKind M.loggerKeys, bind_ok.2 ⟨none, (), rfl, ?_⟩⟩
        rw [if_neg hlen]
        rfl
    obtain ⟨L0, h0⟩ := this
    change (logBlock _ _ _ _ _ () >>= fun r => _) = _
    rw [h0]
    change (pgdLoop _ _ _ _ _ _ _ _ _ >>= fun r => _) = _
    rw [hloop]
    rfl

/-- Non-vacuity: `el = -2` on one observation. -/
example (P : LinProblem ℝ) (hP : P = ⟨1, 1, 1, ![5], 1, none, .none⟩) :
    linFit ⟨some (-2, false), 1 / 10 ^ 5, 1000, "line-search", none, .none, .tuple, ["converged"], fun _ _ => dummyRegularizer⟩ P none false none = .error .nan := by
  subst hP
  exact C145_negative_violated _ (-2) (by norm_num) rfl rfl (by norm_num) rfl (by simp) _ one_pos (by norm_num [Matrix.det_fin_one]) none false none

/-- What does hold of **C145**: for `el > 0` a vector is left unchanged by a step of the practical loop without penalty (and by a gradient step of the other models) if and only if it is a least-squares
solution. Missing: `el ≤ 0` (false, above). -/
theorem C145_positive_partial (A : Matrix (Fin m) (Fin n) ℝ) (b : Vec ℝ m) (el : ℝ) (hel : 0 < el) (x : Vec ℝ n) :
    (sr3Inner A b 1 el x = x ↔ Aᵀ *ᵥ (A *ᵥ x - b) = 0) ∧ (sr3Gradient A b 1 el x = 0 ↔ Aᵀ *ᵥ (A *ᵥ x - b) = 0) := by
  have h1 : sr3Inner A b 1 el x = x ↔ Aᵀ *ᵥ (A *ᵥ x - b) = 0 := by
    have hH := sr3H_mulVec_inv A el hel (Aᵀ *ᵥ b + el • ((1 : Matrix (Fin n) (Fin n) ℝ)ᵀ *ᵥ x))
    change sr3H A 1 el *ᵥ sr3Inner A b 1 el x = _ at hH
    rw [transpose_one, one_mulVec] at hH
    constructor
    · intro h
      rw [h, sr3H_one_mulVec] at hH
      rw [mulVec_sub, sub_eq_zero]
      exact add_right_cancel hH
    · intro h
      rw [mulVec_sub, sub_eq_zero] at h
      have e : sr3H A 1 el *ᵥ (sr3Inner A b 1 el x - x) = 0 := by
        rw [mulVec_sub, hH, sr3H_one_mulVec, h, sub_self]
      by_contra hne
      exact sr3H_one_det A el hel (Matrix.exists_mulVec_eq_zero_iff.1 ⟨_, sub_ne_zero.2 hne, e⟩)
  refine ⟨h1, ?_⟩
  rw [← h1, sr3Gradient_eq A b el hel]
  rw [smul_eq_zero, or_iff_right hel.ne', sub_eq_zero]
  exact eq_comm

/-- Non-vacuity: for `A = 1`, `b = 5` the only fixed point is `5`. -/
example (x : Vec ℝ 1) : sr3Inner (1 : Matrix (Fin 1) (Fin 1) ℝ) ![5] 1 2 x = x ↔ x = ![5] := by
  rw [(C145_positive_partial 1 ![5] 2 two_pos x).1, one_mulVec, transpose_one, one_mulVec, sub_eq_zero]

end Verif
