import Verif.Props.LinReorder
import Verif.Props.LinConverge
import Verif.Props.LinColumns
import Verif.Props.ResumeFits
import Verif.Lemmas.SolverOffset

/-!
# C186: linear fits read the data only through their cross products
-/

namespace Verif

open Matrix

variable {m m' n : ℕ}

theorem normSq_cross (A : Matrix (Fin m) (Fin n) ℝ) (b : Vec ℝ m) (x : Vec ℝ n) : normSq (A *ᵥ x - b) = x ⬝ᵥ ((Aᵀ * A) *ᵥ x) - 2 * (x ⬝ᵥ (Aᵀ *ᵥ b)) + normSq b := by
  have h : ∀ v : Vec ℝ m, normSq v = v ⬝ᵥ v := fun v => by simp [normSq, dotProduct, sq]
  have h1 : x ⬝ᵥ ((Aᵀ * A) *ᵥ x) = (A *ᵥ x) ⬝ᵥ (A *ᵥ x) := by
    rw [← Matrix.mulVec_mulVec, Matrix.dotProduct_mulVec, Matrix.vecMul_transpose]
  have h2 : x ⬝ᵥ (Aᵀ *ᵥ b) = (A *ᵥ x) ⬝ᵥ b := by
    rw [Matrix.dotProduct_mulVec, Matrix.vecMul_transpose]
  rw [h, h, h1, h2, sub_dotProduct, dotProduct_sub, dotProduct_sub, dotProduct_comm b (A *ᵥ x)]
  ring

section
variable {A : Matrix (Fin m) (Fin n) ℝ} {b : Vec ℝ m} {A' : Matrix (Fin m') (Fin n) ℝ} {b' : Vec ℝ m'} (hA : A'ᵀ * A' = Aᵀ * A) (hab : A'ᵀ *ᵥ b' = Aᵀ *ᵥ b) (hb : normSq b' = normSq b)
include hA hab

theorem gradient_cross (x : Vec ℝ n) : A'ᵀ *ᵥ (A' *ᵥ x - b') = Aᵀ *ᵥ (A *ᵥ x - b) := by
  rw [mulVec_sub, mulVec_sub, mulVec_mulVec, mulVec_mulVec, hA, hab]

omit hab in
theorem sr3H_cross (c : Matrix (Fin n) (Fin n) ℝ) (lam : ℝ) : sr3H A' c lam = sr3H A c lam := by
  unfold sr3H
  rw [hA]

theorem sr3Inner_cross (c : Matrix (Fin n) (Fin n) ℝ) (lam : ℝ) : sr3Inner A' b' c lam = sr3Inner A b c lam := by
  funext x
  unfold sr3Inner sr3HInv
  rw [sr3H_cross hA, hab]

include hb

theorem linLoss_cross (P : InstPrior ℝ n) (x : Vec ℝ n) : linLoss A' b' P x = linLoss A b P x := by
  unfold linLoss
  rw [normSq_cross, normSq_cross, hA, hab, hb]

theorem linOracle_cross (P : InstPrior ℝ n) : linOracle A' b' P = linOracle A b P := by
  unfold linOracle linValueFunction linGradientValueFunction linGradient
  congr 1
  · funext x s
    rw [linLoss_cross hA hab hb]
  · funext x s
    rw [gradient_cross hA hab]

omit hA hab hb in
theorem sr3_residual_split (A : Matrix (Fin m) (Fin n) ℝ) (b : Vec ℝ m) (c : Matrix (Fin n) (Fin n) ℝ) (lam : ℝ) (w : Vec ℝ n) :
    sr3F A c lam *ᵥ w - sr3G A c lam *ᵥ b = Sum.elim (A *ᵥ sr3Inner A b c lam w - b) (Real.sqrt lam • (w - c *ᵥ sr3Inner A b c lam w)) := by
  have h : sr3Inner A b c lam w = sr3HInv A c lam *ᵥ (Aᵀ *ᵥ b) + lam • (sr3HInv A c lam *ᵥ (cᵀ *ᵥ w)) := by
    unfold sr3Inner
    rw [mulVec_add, mulVec_smul]
  rw [h]
  unfold sr3F sr3G
  rw [fromRows_mulVec, fromRows_mulVec]
  funext i
  cases i with
  | inl i =>
    simp only [Pi.sub_apply, Sum.elim_inl, Matrix.smul_mulVec, Matrix.sub_mulVec, Matrix.one_mulVec, Matrix.mulVec_add, Matrix.mulVec_smul, ← Matrix.mulVec_mulVec, Pi.add_apply, Pi.smul_apply]
    ring
  | inr i =>
    simp only [Pi.sub_apply, Sum.elim_inr, Matrix.smul_mulVec, Matrix.sub_mulVec, Matrix.one_mulVec, Matrix.mulVec_add, Matrix.mulVec_smul, ← Matrix.mulVec_mulVec, Pi.add_apply, Pi.smul_apply, smul_eq_mul]
    ring

omit hb in
theorem sr3Gradient_cross (c : Matrix (Fin n) (Fin n) ℝ) (lam : ℝ) (x : Vec ℝ n) : sr3Gradient A' b' c lam x = sr3Gradient A b c lam x := by
  unfold sr3Gradient
  have key : ∀ {k : ℕ} (B : Matrix (Fin k) (Fin n) ℝ) (u : Vec ℝ k) (v : Vec ℝ n), (sr3F B c lam)ᵀ *ᵥ Sum.elim u v =
      (lam • (c * (sr3HInv B c lam)ᵀ)) *ᵥ (Bᵀ *ᵥ u) + (Real.sqrt lam • (1 - lam • (c * sr3HInv B c lam * cᵀ)))ᵀ *ᵥ v := by
    intro k B u v
    unfold sr3F
    rw [transpose_fromRows, fromCols_mulVec_sumElim, transpose_smul, transpose_mul, transpose_mul, transpose_transpose, mulVec_mulVec, Matrix.smul_mul, ← Matrix.mul_assoc]
  have hi : sr3HInv A' c lam = sr3HInv A c lam := by
    unfold sr3HInv
    rw [sr3H_cross hA]
  rw [sr3_residual_split, sr3_residual_split, key, key, hi, gradient_cross hA hab, sr3Inner_cross hA hab]

theorem sr3Oracle_cross (c : Matrix (Fin n) (Fin n) ℝ) (lam : ℝ) (practical : Bool) : sr3Oracle A' b' c lam practical = sr3Oracle A b c lam practical := by
  have hs : ∀ {k : ℕ} (u : Vec ℝ k) (v : Vec ℝ n), normSq (Sum.elim u v) = normSq u + normSq v := by
    intro k u v
    simp [normSq, Fintype.sum_sum_type]
  unfold sr3Oracle sr3Value sr3Gradient
  congr 1
  · funext x s
    rw [sr3_residual_split, sr3_residual_split, hs, hs, normSq_cross, normSq_cross, hA, hab, hb, sr3Inner_cross hA hab]
  · funext x s
    have hg := sr3Gradient_cross hA hab c lam x
    unfold sr3Gradient at hg
    rw [hg]

omit hb in
theorem practicalLoop_cross (c : Matrix (Fin n) (Fin n) ℝ) (lam : ℝ) (R : Regularizer ℝ n) (tol : ℝ) (maxIter : ℤ) (x : Vec ℝ n) (xprev : Option (Vec ℝ n)) (iteration : ℕ) :
    practicalLoop A' b' c lam R tol maxIter x xprev iteration = practicalLoop A b c lam R tol maxIter x xprev iteration := by
  generalize hk : (maxIter - iteration).toNat = k
  induction k using Nat.strong_induction_on generalizing x xprev iteration with
  | _ k ih =>
    rw [practicalLoop, practicalLoop.eq_def A b, sr3Inner_cross hA hab]
    split_ifs with h
    · congr 1
      funext x'
      exact ih _ (by omega) x' _ _ rfl
    · rfl

end

theorem logIC_bic {L L1 L2 : Logger (PyVal ℝ n)} {a b b2 : ℝ} (h1 : logIC L a b = .ok L1) (h2 : logIC L a b2 = .ok L2) (key : String) (hk : key ≠ "bic") : L2.get key = L1.get key := by
  rw [logIC_eq] at h1 h2
  obtain ⟨M1, a1, h1⟩ := except_bind_ok.1 h1
  obtain ⟨M2, a2, h2⟩ := except_bind_ok.1 h2
  cases a1.symm.trans a2
  have e : ∀ {Z : Logger (PyVal ℝ n)} {v : ℝ}, (if "bic" ∈ M1.keys then M1.add "bic" (.atom (.num (v : WithTop ℝ))) else .ok M1) = .ok Z → Z.get key = M1.get key := by
    intro Z v h
    split_ifs at h
    · exact (Logger.add_get h).2 key hk
    · cases h; rfl
  rw [e h1, e h2]

/-- **C186**: the fit of a linear model, plain or SR3, practical or not, with every prior, regularizer, solver setting and set of logged quantities, depends on the features `A` and the answers `b` only
through `AᵀA`, `Aᵀb` and `bᵀb`: a problem with other observations, possibly of another number, but the same cross products has the same coefficients and, except for the entry `bic`, the same log; or
the same exception.  With as many observations the log is the same. -/
theorem C186_cross_products (M : LinModelCfg) (a : Matrix (Fin m) (Fin n) ℝ) (b : Vec ℝ m) (a' : Matrix (Fin m') (Fin n) ℝ) (b' : Vec ℝ m') (c : Matrix (Fin n) (Fin n) ℝ) (w : Option (Vec ℝ n))
    (std : StdArg ℝ m) (std' : StdArg ℝ m') (hA : a'ᵀ * a' = aᵀ * a) (hab : a'ᵀ *ᵥ b' = aᵀ *ᵥ b) (hb : b' ⬝ᵥ b' = b ⬝ᵥ b) (x0 : Option (Vec ℝ n)) (warm : Bool) (weights : Option (Vec ℝ n)) :
    (∀ x L, linFit M ⟨m, n, a, b, c, w, std⟩ x0 warm weights = .ok (x, L) →
      ∃ L' : Logger (PyVal ℝ n), linFit M ⟨m', n, a', b', c, w, std'⟩ x0 warm weights = .ok (x, L') ∧ (∀ key ≠ "bic", L'.get key = L.get key) ∧ (m' = m → L' = L)) ∧
    (∀ e, linFit M ⟨m, n, a, b, c, w, std⟩ x0 warm weights = .error e → linFit M ⟨m', n, a', b', c, w, std'⟩ x0 warm weights = .error e) := by
  have hb2 : normSq b' = normSq b := by
    have h : ∀ {k : ℕ} (v : Vec ℝ k), normSq v = v ⬝ᵥ v := fun v => by simp [normSq, dotProduct, sq]
    rw [h, h, hb]
  have key : ∀ (F : Except PyErr ((Vec ℝ n × Logger (PyVal ℝ n)) × Unit)) (A : Vec ℝ n → ℝ) (B B' : Vec ℝ n → ℝ), (m' = m → B' = B) →
      (∀ (x : Vec ℝ n) (L : Logger (PyVal ℝ n)), (do let r ← F; let L' ← logIC r.1.2 (A r.1.1) (B r.1.1); return (r.1.1, L')) = .ok (x, L) →
        ∃ L' : Logger (PyVal ℝ n), (do let r ← F; let L' ← logIC r.1.2 (A r.1.1) (B' r.1.1); return (r.1.1, L')) = .ok (x, L') ∧ (∀ key ≠ "bic", L'.get key = L.get key) ∧ (m' = m → L' = L)) ∧
      (∀ e, (do let r ← F; let L' ← logIC r.1.2 (A r.1.1) (B r.1.1); return (r.1.1, L') : Except PyErr (Vec ℝ n × Logger (PyVal ℝ n))) = .error e →
        (do let r ← F; let L' ← logIC r.1.2 (A r.1.1) (B' r.1.1); return (r.1.1, L') : Except PyErr (Vec ℝ n × Logger (PyVal ℝ n))) = .error e) := by
    intro F A B B' hB
    refine ⟨?_, ?_⟩
    · intro x L h
      obtain ⟨⟨⟨xr, Lr⟩, _⟩, h1, h⟩ := except_bind_ok.1 h
      obtain ⟨L1, h2, h⟩ := except_bind_ok.1 h
      cases h
      obtain ⟨L2, h3⟩ := logIC_ok Lr (A xr) (B' xr)
      refine ⟨L2, except_bind_ok.2 ⟨_, h1, except_bind_ok.2 ⟨L2, h3, rfl⟩⟩, fun k hk => logIC_bic h2 h3 k hk, fun e => ?_⟩
      rw [hB e] at h3
      exact Except.ok.inj (h3.symm.trans h2)
    · intro e h
      cases F with
      | error e' => exact h
      | ok r =>
        obtain ⟨L1, h2⟩ := logIC_ok r.1.2 (A r.1.1) (B r.1.1)
        have h3 : (do let L' ← logIC r.1.2 (A r.1.1) (B r.1.1); return (r.1.1, L') : Except PyErr (Vec ℝ n × Logger (PyVal ℝ n))) = .error e := h
        rw [h2] at h3
        cases h3
  have hlog : ∀ x : Vec ℝ n, linLoss a' b' .nonInformative x = linLoss a b .nonInformative x := fun x => linLoss_cross hA hab hb2 _ x
  unfold linFit
  dsimp only
  cases M.sr3 with
  | none =>
    dsimp only
    have hi : linOracleInstantiate M.prior (⟨m', n, a', b', c, w, std'⟩ : LinProblem ℝ) = linOracleInstantiate M.prior ⟨m, n, a, b, c, w, std⟩ := rfl
    rw [hi]
    cases linOracleInstantiate M.prior (⟨m, n, a, b, c, w, std⟩ : LinProblem ℝ) with
    | error e => exact ⟨fun x L h => (by cases h), fun e h => h⟩
    | ok prior =>
      have e1 : ∀ prior : InstPrior ℝ n, linAic a' b' prior = linAic a b prior := by
        intro prior
        funext x
        unfold linAic
        rw [linLoss_cross hA hab hb2]
      have := key (pgdOptimize (linOracle a b prior) (M.regularizer n (weights.getD fun _ => 1)) M.solver (if warm then x0.getD (fun _ => 1) else fun _ => 1) (Logger.init M.loggerKind M.loggerKeys) ())
        (linAic a b prior) (linBic a b prior) (linBic a' b' prior) (by
          rintro rfl
          funext x
          unfold linBic
          rw [linLoss_cross hA hab hb2])
      simp only [e1, linOracle_cross hA hab hb2]
      exact this
  | some s =>
    obtain ⟨el, practical⟩ := s
    dsimp only
    cases M.prior with
    | gaussian params => exact ⟨fun x L h => (by cases h), fun e h => h⟩
    | none =>
      dsimp only
      rw [sr3H_cross hA]
      by_cases hd : (sr3H a c el).det = 0
      · rw [if_pos hd, if_pos hd]
        exact ⟨fun x L h => (by cases h), fun e h => h⟩
      · rw [if_neg hd, if_neg hd]
        have e1 : sr3Aic a' b' = sr3Aic a b := by
          funext x
          unfold sr3Aic
          rw [hlog]
        have e2 : ∀ R : Regularizer ℝ n, findOptimalParameters a' b' c el R M.tol M.maxIter = findOptimalParameters a b c el R M.tol M.maxIter := by
          intro R
          funext x
          unfold findOptimalParameters
          rw [practicalLoop_cross hA hab]
        rw [sr3Oracle_cross hA hab hb2, e1, e2]
        exact key _ (sr3Aic a b) (sr3Bic a b) (sr3Bic a' b') (by
          rintro rfl
          funext x
          unfold sr3Bic
          rw [hlog])

/-- A case of C186: two observations of the feature 1 with the answers 2 and 4, and the same turned by 45 degrees: features √2 and 0, answers 3√2 and √2; every linear model gives the same fit. -/
example (M : LinModelCfg) (x : Vec ℝ 1) (L : Logger (PyVal ℝ 1)) (h : linFit M ⟨2, 1, !![1; 1], ![2, 4], 1, none, .none⟩ none false none = .ok (x, L)) :
    linFit M ⟨2, 1, !![Real.sqrt 2; 0], ![3 * Real.sqrt 2, Real.sqrt 2], 1, none, .none⟩ none false none = .ok (x, L) := by
  have h2 : Real.sqrt 2 * Real.sqrt 2 = 2 := Real.mul_self_sqrt (by norm_num)
  obtain ⟨L', h1, -, h3⟩ := (C186_cross_products M !![1; 1] ![2, 4] !![Real.sqrt 2; 0] ![3 * Real.sqrt 2, Real.sqrt 2] 1 none .none .none
    (by ext i j; fin_cases i; fin_cases j; simp [Matrix.mul_apply, h2]; norm_num)
    (by funext i; fin_cases i; simp [Matrix.mulVec, dotProduct]; nlinarith)
    (by simp [dotProduct]; nlinarith) none false none).1 x L h
  rw [h1, h3 rfl]

/-- A case of C186 with another number of observations: an observation with features 0 and answer 0 adds nothing. -/
example (M : LinModelCfg) (x : Vec ℝ 1) (L : Logger (PyVal ℝ 1)) (h : linFit M ⟨1, 1, !![1], ![2], 1, none, .none⟩ none false none = .ok (x, L)) :
    ∃ L', linFit M ⟨2, 1, !![1; 0], ![2, 0], 1, none, .none⟩ none false none = .ok (x, L') ∧ L'.get "loss" = L.get "loss" := by
  obtain ⟨L', h1, h2, -⟩ := (C186_cross_products M !![1] ![2] !![1; 0] ![2, 0] 1 none .none .none
    (by ext i j; fin_cases i; fin_cases j; simp [Matrix.mul_apply])
    (by funext i; fin_cases i; simp [Matrix.mulVec, dotProduct])
    (by simp [dotProduct]) none false none).1 x L h
  exact ⟨L', h1, h2 _ (by decide)⟩

theorem mapKey_get {c : ℝ} {key : String} (hk : key ≠ "loss") (L : Logger (PyVal ℝ n)) : (L.mapKey (raiseVal c)).get key = L.get key := by
  have h : raiseVal (n := n) c key = id := by
    funext v
    cases v with
    | num v => exact if_neg hk
    | _ => rfl
  have hd : (L.mapKey (raiseVal c)).dict key = L.dict key := by
    change (L.dict key).map (LVal.mapVal (raiseVal c key)) = _
    rw [h]
    cases L.dict key with
    | none => rfl
    | some v => cases v <;> simp [LVal.mapVal]
  unfold Logger.get
  rw [hd]

theorem linRaises {a : Matrix (Fin m) (Fin n) ℝ} {b : Vec ℝ m} {a' : Matrix (Fin m') (Fin n) ℝ} {b' : Vec ℝ m'} (hA : a'ᵀ * a' = aᵀ * a) (hab : a'ᵀ *ᵥ b' = aᵀ *ᵥ b) (P : InstPrior ℝ n) :
    Raises (1 / 2 * (normSq b' - normSq b)) (linOracle a b P) (linOracle a' b' P) where
  value x s := by
    change Except.ok (linLoss a' b' P x, s) = Except.ok (linLoss a b P x + _, s)
    unfold linLoss
    rw [normSq_cross, normSq_cross, hA, hab]
    congr 2
    ring
  grad x s := by
    change Except.ok (linGradient a' b' P x, s) = Except.ok (linGradient a b P x, s)
    unfold linGradient
    rw [gradient_cross hA hab]

theorem sr3Raises {a : Matrix (Fin m) (Fin n) ℝ} {b : Vec ℝ m} {a' : Matrix (Fin m') (Fin n) ℝ} {b' : Vec ℝ m'} (hA : a'ᵀ * a' = aᵀ * a) (hab : a'ᵀ *ᵥ b' = aᵀ *ᵥ b)
    (c : Matrix (Fin n) (Fin n) ℝ) (lam : ℝ) : Raises (1 / 2 * (normSq b' - normSq b)) (sr3Oracle a b c lam false) (sr3Oracle a' b' c lam false) where
  value x s := by
    have hs : ∀ {k : ℕ} (u : Vec ℝ k) (v : Vec ℝ n), normSq (Sum.elim u v) = normSq u + normSq v := by
      intro k u v
      simp [normSq, Fintype.sum_sum_type]
    have hv : sr3Value a' b' c lam x = sr3Value a b c lam x + 1 / 2 * (normSq b' - normSq b) := by
      unfold sr3Value
      rw [sr3_residual_split, sr3_residual_split, hs, hs, normSq_cross, normSq_cross, hA, hab, sr3Inner_cross hA hab]
      ring
    change (if lam < 0 ∧ 0 < n then _ else _) = Except.map _ (if lam < 0 ∧ 0 < n then _ else _)
    split_ifs
    · rfl
    · rw [hv]
      rfl
  grad x s := by
    have hg : sr3Gradient a' b' c lam x = sr3Gradient a b c lam x := sr3Gradient_cross hA hab c lam x
    change (if lam < 0 ∧ 0 < n then _ else _) = Except.map _ (if lam < 0 ∧ 0 < n then _ else _)
    split_ifs
    · rfl
    · rw [hg]
      rfl

/-- **C186**, coefficients: `AᵀA` and `Aᵀb` alone determine the coefficients, the exceptions, and the log except for the losses and the criteria. -/
theorem C186_coefficients (M : LinModelCfg) (a : Matrix (Fin m) (Fin n) ℝ) (b : Vec ℝ m) (a' : Matrix (Fin m') (Fin n) ℝ) (b' : Vec ℝ m') (c : Matrix (Fin n) (Fin n) ℝ) (w : Option (Vec ℝ n))
    (std : StdArg ℝ m) (std' : StdArg ℝ m') (hA : a'ᵀ * a' = aᵀ * a) (hab : a'ᵀ *ᵥ b' = aᵀ *ᵥ b) (x0 : Option (Vec ℝ n)) (warm : Bool) (weights : Option (Vec ℝ n)) :
    (∀ x L, linFit M ⟨m, n, a, b, c, w, std⟩ x0 warm weights = .ok (x, L) →
      ∃ L' : Logger (PyVal ℝ n), linFit M ⟨m', n, a', b', c, w, std'⟩ x0 warm weights = .ok (x, L') ∧ ∀ key, key ≠ "loss" → key ≠ "aic" → key ≠ "bic" → L'.get key = L.get key) ∧
    (∀ e, linFit M ⟨m, n, a, b, c, w, std⟩ x0 warm weights = .error e → linFit M ⟨m', n, a', b', c, w, std'⟩ x0 warm weights = .error e) := by
  have key : ∀ (F F' : PyM Unit (Vec ℝ n × Logger (PyVal ℝ n))) (c : ℝ) (A B A' B' : Vec ℝ n → ℝ), Sim id (fun r => (r.1, r.2.mapKey (raiseVal c))) F F' →
      (∀ (x : Vec ℝ n) (L : Logger (PyVal ℝ n)), (do let r ← F (); let L' ← logIC r.1.2 (A r.1.1) (B r.1.1); return (r.1.1, L')) = .ok (x, L) →
        ∃ L' : Logger (PyVal ℝ n), (do let r ← F' (); let L' ← logIC r.1.2 (A' r.1.1) (B' r.1.1); return (r.1.1, L')) = .ok (x, L') ∧
          ∀ key, key ≠ "loss" → key ≠ "aic" → key ≠ "bic" → L'.get key = L.get key) ∧
      (∀ e, (do let r ← F (); let L' ← logIC r.1.2 (A r.1.1) (B r.1.1); return (r.1.1, L') : Except PyErr (Vec ℝ n × Logger (PyVal ℝ n))) = .error e →
        (do let r ← F' (); let L' ← logIC r.1.2 (A' r.1.1) (B' r.1.1); return (r.1.1, L') : Except PyErr (Vec ℝ n × Logger (PyVal ℝ n))) = .error e) := by
    intro F F' c A B A' B' hS
    have hS := hS ()
    refine ⟨?_, ?_⟩
    · intro x L h
      obtain ⟨⟨⟨xr, Lr⟩, _⟩, h1, h⟩ := except_bind_ok.1 h
      obtain ⟨L1, h2, h⟩ := except_bind_ok.1 h
      cases h
      rw [h1] at hS
      obtain ⟨L2, h3⟩ := logIC_ok (Lr.mapKey (raiseVal c)) (A' xr) (B' xr)
      refine ⟨L2, except_bind_ok.2 ⟨_, hS, except_bind_ok.2 ⟨L2, h3, rfl⟩⟩, fun k hk1 hk2 hk3 => ?_⟩
      rw [logIC_keeps _ _ _ _ h3 k hk2 hk3, logIC_keeps _ _ _ _ h2 k hk2 hk3, mapKey_get hk1]
    · intro e h
      cases hF : F () with
      | error e' =>
        rw [hF] at hS h
        change F' () = .error e' at hS
        rw [hS]
        exact h
      | ok r =>
        rw [hF] at h
        obtain ⟨L1, h2⟩ := logIC_ok r.1.2 (A r.1.1) (B r.1.1)
        have h3 : (do let L' ← logIC r.1.2 (A r.1.1) (B r.1.1); return (r.1.1, L') : Except PyErr (Vec ℝ n × Logger (PyVal ℝ n))) = .error e := h
        rw [h2] at h3
        cases h3
  have init : ∀ c : ℝ, (Logger.init M.loggerKind M.loggerKeys : Logger (PyVal ℝ n)) = (Logger.init M.loggerKind M.loggerKeys : Logger (PyVal ℝ n)).mapKey (raiseVal c) :=
    fun c => (Logger.mapKey_init _ _ _).symm
  unfold linFit
  dsimp only
  cases M.sr3 with
  | none =>
    dsimp only
    have hi : linOracleInstantiate M.prior (⟨m', n, a', b', c, w, std'⟩ : LinProblem ℝ) = linOracleInstantiate M.prior ⟨m, n, a, b, c, w, std⟩ := rfl
    rw [hi]
    cases linOracleInstantiate M.prior (⟨m, n, a, b, c, w, std⟩ : LinProblem ℝ) with
    | error e => exact ⟨fun x L h => (by cases h), fun e h => h⟩
    | ok prior =>
      have hS := (linRaises hA hab prior).pgdOptimize (M.regularizer n (weights.getD fun _ => 1)) M.solver (if warm then x0.getD (fun _ => 1) else fun _ => 1) (Logger.init M.loggerKind M.loggerKeys)
      rw [← init] at hS
      exact key _ _ _ (linAic a b prior) (linBic a b prior) (linAic a' b' prior) (linBic a' b' prior) hS
  | some s =>
    obtain ⟨el, practical⟩ := s
    dsimp only
    cases M.prior with
    | gaussian params => exact ⟨fun x L h => (by cases h), fun e h => h⟩
    | none =>
      dsimp only
      rw [sr3H_cross hA]
      by_cases hd : (sr3H a c el).det = 0
      · rw [if_pos hd, if_pos hd]
        exact ⟨fun x L h => (by cases h), fun e h => h⟩
      · rw [if_neg hd, if_neg hd]
        have e2 : ∀ R : Regularizer ℝ n, findOptimalParameters a' b' c el R M.tol M.maxIter = findOptimalParameters a b c el R M.tol M.maxIter := by
          intro R
          funext x
          unfold findOptimalParameters
          rw [practicalLoop_cross hA hab]
        rw [e2]
        cases practical with
        | true =>
          have hS := (sr3Raises hA hab c el).fakeOptimize (M.regularizer n (weights.getD fun _ => 1))
            (opt := fun x => callReg (findOptimalParameters a b c el (M.regularizer n (weights.getD fun _ => 1)) M.tol M.maxIter x))
            (opt' := fun x => callReg (findOptimalParameters a b c el (M.regularizer n (weights.getD fun _ => 1)) M.tol M.maxIter x)) (fun x => Sim.call (φ := id) (by
              cases findOptimalParameters a b c el (M.regularizer n (weights.getD fun _ => 1)) M.tol M.maxIter x <;> rfl))
            (if warm then x0.getD (fun _ => 1) else fun _ => 1) (Logger.init M.loggerKind M.loggerKeys)
          rw [← init] at hS
          exact key _ _ _ (sr3Aic a b) (sr3Bic a b) (sr3Aic a' b') (sr3Bic a' b') hS
        | false =>
          have hS := (sr3Raises hA hab c el).pgdOptimize (M.regularizer n (weights.getD fun _ => 1)) M.solver (if warm then x0.getD (fun _ => 1) else fun _ => 1) (Logger.init M.loggerKind M.loggerKeys)
          rw [← init] at hS
          exact key _ _ _ (sr3Aic a b) (sr3Bic a b) (sr3Aic a' b') (sr3Bic a' b') hS

/-- A case of C186: two observations of the feature 1 with the answers 2 and 4 can be replaced by one observation of the feature √2 with the answer 3√2. -/
example (M : LinModelCfg) (x : Vec ℝ 1) (L : Logger (PyVal ℝ 1)) (h : linFit M ⟨2, 1, !![1; 1], ![2, 4], 1, none, .none⟩ none false none = .ok (x, L)) :
    ∃ L', linFit M ⟨1, 1, !![Real.sqrt 2], ![3 * Real.sqrt 2], 1, none, .none⟩ none false none = .ok (x, L') ∧ L'.get "converged" = L.get "converged" := by
  have h2 : Real.sqrt 2 * Real.sqrt 2 = 2 := Real.mul_self_sqrt (by norm_num)
  obtain ⟨L', h1, h3⟩ := (C186_coefficients M !![1; 1] ![2, 4] !![Real.sqrt 2] ![3 * Real.sqrt 2] 1 none .none .none
    (by ext i j; fin_cases i; fin_cases j; simp [Matrix.mul_apply, h2]; norm_num)
    (by funext i; fin_cases i; simp [Matrix.mulVec, dotProduct]; nlinarith) none false none).1 x L h
  exact ⟨L', h1, h3 _ (by decide) (by decide) (by decide)⟩

end Verif
