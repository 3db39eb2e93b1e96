import Verif.Props.LinConverge
import Verif.Props.Exact

/-!
# Linear models: information criteria on request, noise levels, generated data (C106-C108)
-/

namespace Verif

open Matrix

variable {m n : ℕ}

/-! ## C106 -/

/-- The criterion of a given name, written out: half the squared residual plus `2 k` or `log(m) k`, with `k` nonzero coefficients. -/
def IsCriterion (A : Matrix (Fin m) (Fin n) ℝ) (y : Vec ℝ m) (x : Vec ℝ n) (ic : String) (v : ℝ) : Prop :=
  (ic = "aic" ∧ v = (∑ i, ((∑ j, A i j * x j) - y i) ^ 2) / 2 + 2 * numNonzero x) ∨
  (ic = "bic" ∧ v = (∑ i, ((∑ j, A i j * x j) - y i) ^ 2) / 2 + Real.log m * numNonzero x)

/-- **C106**, the value: for fitted coefficients of matching length `get_information_criterion` returns `v` exactly when `v` is the criterion of that name; everything else raises:
`NotFittedError` before the first fit, `ValueError` for other names and other lengths. -/
theorem C106_criterion (sr3 : Bool) (A : Matrix (Fin m) (Fin n) ℝ) (y : Vec ℝ m) (ic : String) :
    linGetIC sr3 none A y ic = .error .notFitted ∧
    (∀ (x : Vec ℝ n) (v : ℝ), linGetIC sr3 (some ⟨n, x⟩) A y ic = .ok v ↔ IsCriterion A y x ic v) ∧
    (∀ x : Vec ℝ n, ic ≠ "aic" → ic ≠ "bic" → linGetIC sr3 (some ⟨n, x⟩) A y ic = .error .valueError) ∧
    (∀ (k : ℕ) (x : Vec ℝ k), k ≠ n → linGetIC sr3 (some ⟨k, x⟩) A y ic = .error .valueError) := by
  have hdet : (sr3H A 1 1).det ≠ 0 := sr3H_one_det A 1 one_pos
  refine ⟨rfl, fun x v => ?_, fun x h1 h2 => ?_, fun k x hk => ?_⟩
  · obtain ⟨h1, h2, h3, h4⟩ := C38_information_criteria A y .nonInformative x
    have e : (InstPrior.nonInformative : InstPrior ℝ n).loss x = 0 := rfl
    rw [e, add_zero] at h1 h2
    change (if sr3 = true ∧ (sr3H A 1 1).det = 0 then _ else if ic = "aic" then _ else _) = _ ↔ _
    rw [if_neg (fun h => hdet h.2)]
    by_cases ha : ic = "aic"
    · subst ha
      have hb : ¬("aic" = "bic") := by decide
      simp only [if_true, IsCriterion, true_and, hb, false_and, or_false, dite_true]
      rw [h1, h3, ite_self, Except.ok.injEq, eq_comm]
      rfl
    · by_cases hb : ic = "bic"
      · subst hb
        simp only [if_true, IsCriterion, true_and, ha, false_and, false_or, dite_true, if_false]
        rw [h2, h4, ite_self, Except.ok.injEq, eq_comm]
        rfl
      · simp only [ha, hb, if_false, IsCriterion, false_and, or_false, reduceCtorEq]
  · change (if sr3 = true ∧ (sr3H A 1 1).det = 0 then _ else if ic = "aic" then _ else _) = _
    rw [if_neg (fun h => hdet h.2), if_neg h1, if_neg h2]
  · change (if sr3 = true ∧ (sr3H A 1 1).det = 0 then _ else if ic = "aic" then (if h : k = n then _ else _) else if ic = "bic" then (if h : k = n then _ else _) else _) = _
    rw [if_neg (fun h => hdet h.2), dif_neg hk, dif_neg hk]
    split_ifs <;> rfl

/-- **C106**, after a fit: asked for on the training data, the criteria are those the fit has logged. -/
theorem C106_logged (M : LinModelCfg) (st : LinState) (P : LinProblem ℝ) (x0 : Option (Vec ℝ P.n)) (warm : Bool) (w : Option (Vec ℝ P.n)) (ic : String)
    (hic : ic = "aic" ∨ ic = "bic") (hk : ic ∈ M.loggerKeys) (x : Vec ℝ P.n) (L : Logger (PyVal ℝ P.n)) (h : linFit M P x0 warm w = .ok (x, L)) :
    ∃ v : ℝ, linGetIC M.sr3.isSome (linFitCall M st P x0 warm w).2 P.a P.b ic = .ok v ∧ L.get ic = .ok (.atom (.num (v : WithTop ℝ))) := by
  obtain ⟨prior, hp, hp', ha, hb⟩ := C38_logged M P x0 warm w x L h
  have hpr : prior.loss x = 0 := by
    cases hs : M.sr3 with
    | none =>
      have := hp hs
      cases hM : M.prior with
      | none => rw [hM] at this; cases this; rfl
      | gaussian params => rw [hM, C30_linear_prior_violated] at this; cases this
    | some e => rw [hp' (by rw [hs]; simp)]; rfl
  have hst : (linFitCall M st P x0 warm w).2 = some ⟨P.n, x⟩ := by simp only [linFitCall, h]
  rw [hst]
  have key := (C106_criterion M.sr3.isSome P.a P.b ic).2.1 x
  rcases hic with rfl | rfl
  · exact ⟨_, (key _).2 (Or.inl ⟨rfl, rfl⟩), by rw [ha hk, hpr, add_zero]; rfl⟩
  · exact ⟨_, (key _).2 (Or.inr ⟨rfl, rfl⟩), by rw [hb hk, hpr, add_zero]; rfl⟩

/-- Non-vacuity of C106: one observation `3`, one feature `1`, coefficient `1`: the AIC is `(1 - 3)²/2 + 2 = 4`; and fits that log the criteria exist for every problem. -/
example : linGetIC true (some ⟨1, fun _ => 1⟩) (Matrix.of fun _ _ => 1 : Matrix (Fin 1) (Fin 1) ℝ) (fun _ => 3) "aic" = .ok 4 := by
  refine ((C106_criterion _ _ _ _).2.1 _ _).2 ?_
  have : numNonzero (fun _ : Fin 1 => (1 : ℝ)) = 1 := by simp [numNonzero]
  exact Or.inl ⟨rfl, by rw [this]; norm_num⟩

example (P : LinProblem ℝ) : ∃ x L, linFit { fixedModel 5 with loggerKeys := ["aic", "bic"] } P none false none = .ok (x, L) :=
  linFit_plain_returns _ rfl rfl rfl (by simp) (fun _ _ _ => 0) (fun _ _ _ => rfl) (fun _ _ y _ => ⟨y, rfl⟩) P none false none

/-! ## C107 -/

/-- The weighted least squares objective for independent noise with standard deviations `s`. -/
noncomputable def weightedSquares (A : Matrix (Fin m) (Fin n) ℝ) (b s : Vec ℝ m) (x : Vec ℝ n) : ℝ :=
  (∑ i, (((∑ j, A i j * x j) - b i) / s i) ^ 2) / 2

/-- **C107** is violated: two problems differing only in the noise levels of their observations have the same fits with every model, although no coefficients are best for both (targets `0` and `1`
of which the first, respectively the second, is ten times more precise). -/
theorem C107_obs_std_violated :
    (∀ (M : LinModelCfg) {m n : ℕ} (a : Matrix (Fin m) (Fin n) ℝ) (b : Vec ℝ m) (c : Matrix (Fin n) (Fin n) ℝ) (r : Option (Vec ℝ n)) (s s' : StdArg ℝ m)
      (x0 : Option (Vec ℝ n)) (warm : Bool) (w : Option (Vec ℝ n)), linFit M ⟨m, n, a, b, c, r, s⟩ x0 warm w = linFit M ⟨m, n, a, b, c, r, s'⟩ x0 warm w) ∧
    (∀ (m n : ℕ) (a : Matrix (Fin m) (Fin n) ℝ) (b s : Vec ℝ m), linProblemInit a b none none (.array s) = .ok ⟨m, n, a, b, 1, none, .array s⟩) ∧
    ¬ ∃ x : Vec ℝ 1, (∀ u : Vec ℝ 1, weightedSquares (fun _ _ => 1 : Matrix (Fin 2) (Fin 1) ℝ) ![0, 1] ![1, 10] x ≤ weightedSquares (fun _ _ => 1) ![0, 1] ![1, 10] u) ∧
      ∀ u : Vec ℝ 1, weightedSquares (fun _ _ => 1 : Matrix (Fin 2) (Fin 1) ℝ) ![0, 1] ![10, 1] x ≤ weightedSquares (fun _ _ => 1) ![0, 1] ![10, 1] u := by
  refine ⟨fun _ _ _ _ _ _ _ _ _ _ _ _ => rfl, fun _ _ _ _ _ => rfl, ?_⟩
  rintro ⟨x, h1, h2⟩
  have e1 := h1 fun _ => 1 / 101
  have e2 := h2 fun _ => 100 / 101
  simp only [weightedSquares, Fin.sum_univ_two, Fin.sum_univ_one, Matrix.cons_val_zero, Matrix.cons_val_one] at e1 e2
  nlinarith [sq_nonneg (x 0 - 1 / 101), sq_nonneg (x 0 - 100 / 101)]

/-- **C107**, what does hold: when all observations are equally precise, ignoring the noise level is harmless: weighted and unweighted least squares order all coefficients in the same way. Missing:
different noise levels (false, see `C107_obs_std_violated`). -/
theorem C107_obs_std_partial (A : Matrix (Fin m) (Fin n) ℝ) (b : Vec ℝ m) (s : ℝ) (hs : s ≠ 0) (x u : Vec ℝ n) :
    linLoss A b .nonInformative x ≤ linLoss A b .nonInformative u ↔ weightedSquares A b (fun _ => s) x ≤ weightedSquares A b (fun _ => s) u := by
  have key : ∀ x : Vec ℝ n, weightedSquares A b (fun _ => s) x = linLoss A b .nonInformative x / s ^ 2 := by
    intro x
    have e : linLoss A b .nonInformative x = leastSquares A b x := by rw [linLoss, half_normSq]; exact add_zero _
    rw [e, weightedSquares, leastSquares]
    simp only [div_pow]
    rw [← Finset.sum_div]
    ring
  rw [key, key]
  have : 0 < s ^ 2 := by positivity
  exact (div_le_div_iff_of_pos_right this).symm

example : linLoss (fun _ _ => 1 : Matrix (Fin 1) (Fin 1) ℝ) (fun _ => 3) .nonInformative (fun _ => 3) ≤
    linLoss (fun _ _ => 1 : Matrix (Fin 1) (Fin 1) ℝ) (fun _ => 3) .nonInformative (fun _ => 1) :=
  (C107_obs_std_partial _ _ 2 two_ne_zero _ _).2 (by norm_num [weightedSquares])

/-! ## C108 -/

/-- **C108**, the data: a generated problem has the drawn design with first column `1`, the observations `A x + obs_std * noise` for the true coefficients `x` (drawn when not given) and weights `1`. -/
theorem C108_generated (u : Matrix (Fin m) (Fin n) ℝ) (trueX : Option (Vec ℝ n)) (xr : Vec ℝ n) (std z : Vec ℝ m) (hn : 0 < n) :
    ∃ (A : Matrix (Fin m) (Fin n) ℝ) (b : Vec ℝ m), linGenerate u trueX xr std z = .ok ⟨m, n, A, b, 1, some fun _ => 1, .none⟩ ∧
      (∀ i, A i ⟨0, hn⟩ = 1) ∧ (∀ i (j : Fin n), 0 < j.1 → A i j = u i j) ∧
      ((∀ i j, u i j ∈ Set.Ico 0 1) → ∀ i j, A i j ∈ Set.Icc 0 1) ∧
      ∀ x, (trueX = some x ∨ trueX = none ∧ x = xr) → ∀ i, b i = (∑ j, A i j * x j) + std i * z i := by
  refine ⟨_, _, if_neg hn.ne', fun i => by simp, fun i j hj => by simp [hj.ne'], fun hu i j => ?_, fun x hx i => ?_⟩
  · change (if j.1 = 0 then (1 : ℝ) else u i j) ∈ _
    split_ifs
    · exact ⟨zero_le_one, le_rfl⟩
    · exact ⟨(hu i j).1, (hu i j).2.le⟩
  · have : trueX.getD xr = x := by
      rcases hx with rfl | ⟨rfl, rfl⟩ <;> rfl
    simp only [this]
    rfl

/-- **C108**, the fit: on a problem generated without noise, a model without penalty and with line search returns for large budgets with `converged = True`, and whenever it does, its predictions are the
true ones up to the tolerance: `‖A (x̂ - x)‖² ≤ (tol² + 2 tol ‖x̂ - x‖) / min(s, 1 / (2 m n))`. -/
theorem C108_recovery (M : LinModelCfg) (hs : M.sr3 = none) (hpr : M.prior = .none) (hk : M.loggerKind = .tuple) (hks : M.loggerKeys.Nodup)
    (hreg : ∀ n w, M.regularizer n w = dummyRegularizer) (hst : M.stepping = "line-search") (hstep : 0 < M.step) (htol : 0 < M.tol)
    (u : Matrix (Fin m) (Fin n) ℝ) (hu : ∀ i j, u i j ∈ Set.Ico 0 1) (x : Vec ℝ n) (xr : Vec ℝ n) (z : Vec ℝ m) (hm : 0 < m) (hn : 0 < n) (hmn : (m * n : ℝ) ≤ 10 ^ 14) :
    ∃ A b, linGenerate u (some x) xr (fun _ => 0) z = .ok ⟨m, n, A, b, 1, some fun _ => 1, .none⟩ ∧
      (1 + M.step * (∑ i, (∑ j, A i j * (1 - x j)) ^ 2) / M.tol ^ 2 < M.maxIter →
        ∃ xh Lf, linFit M ⟨m, n, A, b, 1, some fun _ => 1, .none⟩ none false none = .ok (xh, Lf) ∧ Lf.get "converged" = .ok (.atom (.bool true))) ∧
      ∀ (xh : Vec ℝ n) (Lf : Logger (PyVal ℝ n)), linFit M ⟨m, n, A, b, 1, some fun _ => 1, .none⟩ none false none = .ok (xh, Lf) →
        Lf.get "converged" = .ok (.atom (.bool true)) →
        ∑ i, (∑ j, A i j * (xh j - x j)) ^ 2 ≤ (M.tol ^ 2 + 2 * M.tol * √(∑ j, (xh j - x j) ^ 2)) / min M.step (1 / (2 * (m * n))) := by
  obtain ⟨A, b, hg, -, -, hA, hb⟩ := C108_generated u (some x) xr (fun _ => 0) z hn
  have hb : ∀ i, b i = ∑ j, A i j * x j := fun i => by rw [hb x (Or.inl rfl) i]; ring
  have hA := hA hu
  have hL : ∀ h : Vec ℝ n, ∑ r, (∑ j, A r j * h j) ^ 2 ≤ (m * n : ℝ) * ∑ j, h j ^ 2 := by
    intro h
    refine (frobenius_bound A h).trans (mul_le_mul_of_nonneg_right ?_ (Finset.sum_nonneg fun j _ => sq_nonneg _))
    calc ∑ r, ∑ j, A r j ^ 2 ≤ ∑ r : Fin m, ∑ j : Fin n, (1 : ℝ) :=
          Finset.sum_le_sum fun r _ => Finset.sum_le_sum fun j _ => pow_le_one₀ (hA r j).1 (hA r j).2
      _ = m * n := by simp
  have hmn0 : (0 : ℝ) < m * n := by positivity
  have hr : StepRule M.solver (m * n : ℝ) := by
    refine ⟨hstep, hmn0, ?_⟩
    rw [if_pos (by exact hst)]
    exact hmn
  have hfl : stepFloor M.solver (m * n : ℝ) = min M.step (1 / (2 * (m * n))) := if_pos hst
  have hobj : ∀ v w : Vec ℝ n, lassoObjective A b 0 w v = (∑ i, (∑ j, A i j * (v j - x j)) ^ 2) / 2 := by
    intro v w
    rw [lassoObjective, zero_mul, add_zero]
    congr 1
    refine Finset.sum_congr rfl fun i _ => ?_
    rw [hb, ← Finset.sum_sub_distrib]
    congr 1
    exact Finset.sum_congr rfl fun j _ => by ring
  refine ⟨A, b, hg, fun hmax => ?_, fun xh Lf hf hc => ?_⟩
  · refine C104_converges M hs hpr hk hks ⟨m, n, A, b, 1, some fun _ => 1, .none⟩ none false none 0 (Or.inl ⟨hreg _ _, rfl⟩) (m * n) hL hr htol ?_
    simp only [hobj]
    refine lt_of_eq_of_lt ?_ hmax
    simp only [fitStart]
    norm_num
    ring
  · have h := C102_accuracy M hs ⟨m, n, A, b, 1, some fun _ => 1, .none⟩ hn none false none 0 (Or.inl ⟨hreg _ _, rfl⟩) (m * n) hL hr xh Lf hf hc x
    simp only [hobj, sub_self, mul_zero, Finset.sum_const_zero] at h
    rw [hfl] at h
    have hz : ∑ _i : Fin m, (0 : ℝ) ^ 2 = 0 := by simp
    rw [hz, zero_div, zero_add] at h
    have e : (M.tol ^ 2 + 2 * M.tol * √(∑ j, (xh j - x j) ^ 2)) / min M.step (1 / (2 * (m * n))) =
        2 * ((M.tol ^ 2 / 2 + M.tol * √(∑ j, (xh j - x j) ^ 2)) / min M.step (1 / (2 * (m * n)))) := by ring
    rw [e]
    linarith

/-- Non-vacuity of C108: `SimpleLinearModel` with its default step and tolerance meets the hypotheses on the model. -/
example (N : ℕ) : let M : LinModelCfg := { fixedModel N with stepping := "line-search" }
    M.sr3 = none ∧ M.stepping = "line-search" ∧ 0 < M.step ∧ 0 < M.tol := by
  refine ⟨rfl, rfl, ?_, ?_⟩ <;> norm_num [fixedModel, LinModelCfg.step]

end Verif
