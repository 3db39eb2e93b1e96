import Verif.Lemmas.SolverMap
import Verif.Props.LinReorder

/-!
# Linear fits and changes of the features: properties C122 and C123
-/

namespace Verif

open Matrix

variable {m n : ℕ}

/-! ## Orthogonal changes of the features -/

section Turn
variable {T : Matrix (Fin n) (Fin n) ℝ} {δ : ℝ}

theorem dot_eq_dotProduct (x y : Vec ℝ n) : dot x y = x ⬝ᵥ y := rfl

theorem normSq_eq_dotProduct {ι : Type*} [Fintype ι] (x : ι → ℝ) : normSq x = x ⬝ᵥ x := by
  unfold normSq dotProduct
  simp only [pow_two]

theorem turn_dot {ι : Type*} [Fintype ι] [DecidableEq ι] {S : Matrix ι ι ℝ} (hS : S * Sᵀ = 1) (x y : ι → ℝ) : S *ᵥ x ⬝ᵥ S *ᵥ y = x ⬝ᵥ y := by
  have h := mul_eq_one_comm.1 hS
  rw [dotProduct_mulVec, vecMul_mulVec, h, vecMul_one]

theorem turn_residual (hT : T * Tᵀ = 1) (A : Matrix (Fin m) (Fin n) ℝ) (b : Vec ℝ m) (x : Vec ℝ n) : (δ • (A * Tᵀ)) *ᵥ (T *ᵥ x) - δ • b = δ • (A *ᵥ x - b) := by
  have h := mul_eq_one_comm.1 hT
  rw [smul_mulVec, mulVec_mulVec, Matrix.mul_assoc, h, Matrix.mul_one, smul_sub]

theorem linLoss_turn (hT : T * Tᵀ = 1) (hδ : δ * δ = 1) (A : Matrix (Fin m) (Fin n) ℝ) (b : Vec ℝ m) (x : Vec ℝ n) :
    linLoss (δ • (A * Tᵀ)) (δ • b) .nonInformative (T *ᵥ x) = linLoss A b .nonInformative x := by
  unfold linLoss
  rw [turn_residual hT, normSq_eq_dotProduct, normSq_eq_dotProduct, smul_dotProduct, dotProduct_smul, smul_smul, hδ, one_smul]
  rfl

theorem linGradient_turn (hT : T * Tᵀ = 1) (hδ : δ * δ = 1) (A : Matrix (Fin m) (Fin n) ℝ) (b : Vec ℝ m) (x : Vec ℝ n) :
    linGradient (δ • (A * Tᵀ)) (δ • b) .nonInformative (T *ᵥ x) = T *ᵥ linGradient A b .nonInformative x := by
  unfold linGradient
  rw [turn_residual hT, transpose_smul, transpose_mul, transpose_transpose, smul_mulVec, mulVec_smul, smul_smul, hδ, one_smul, mulVec_add, mulVec_mulVec]
  congr 1
  exact (mulVec_zero T).symm

theorem sr3H_turn (hT : T * Tᵀ = 1) (hδ : δ * δ = 1) (A : Matrix (Fin m) (Fin n) ℝ) (c : Matrix (Fin n) (Fin n) ℝ) (lam : ℝ) :
    sr3H (δ • (A * Tᵀ)) (T * c * Tᵀ) lam = T * sr3H A c lam * Tᵀ := by
  have h := mul_eq_one_comm.1 hT
  unfold sr3H
  rw [transpose_smul, transpose_mul, transpose_transpose, Matrix.smul_mul, Matrix.mul_smul, smul_smul, hδ, one_smul, Matrix.mul_add, Matrix.add_mul, Matrix.mul_smul,
    Matrix.smul_mul]
  congr 1
  · simp only [Matrix.mul_assoc]
  · congr 1
    simp only [Matrix.mul_assoc]
    rw [← Matrix.mul_assoc Tᵀ T, h, Matrix.one_mul]

theorem sr3H_turn_det (hT : T * Tᵀ = 1) (hδ : δ * δ = 1) (A : Matrix (Fin m) (Fin n) ℝ) (c : Matrix (Fin n) (Fin n) ℝ) (lam : ℝ) :
    (sr3H (δ • (A * Tᵀ)) (T * c * Tᵀ) lam).det = (sr3H A c lam).det := by
  have h : T.det * Tᵀ.det = 1 := by rw [← det_mul, hT, det_one]
  rw [sr3H_turn hT hδ, det_mul, det_mul, mul_right_comm, h, one_mul]

theorem sr3HInv_turn (hT : T * Tᵀ = 1) (hδ : δ * δ = 1) (A : Matrix (Fin m) (Fin n) ℝ) (c : Matrix (Fin n) (Fin n) ℝ) (lam : ℝ) :
    sr3HInv (δ • (A * Tᵀ)) (T * c * Tᵀ) lam = T * sr3HInv A c lam * Tᵀ := by
  have h1 : T⁻¹ = Tᵀ := inv_eq_right_inv hT
  have h2 : Tᵀ⁻¹ = T := inv_eq_left_inv hT
  unfold sr3HInv
  rw [sr3H_turn hT hδ, Matrix.mul_inv_rev, Matrix.mul_inv_rev, h1, h2, Matrix.mul_assoc]

theorem sr3Inner_turn (hT : T * Tᵀ = 1) (hδ : δ * δ = 1) (A : Matrix (Fin m) (Fin n) ℝ) (b : Vec ℝ m) (c : Matrix (Fin n) (Fin n) ℝ) (lam : ℝ) (x : Vec ℝ n) :
    sr3Inner (δ • (A * Tᵀ)) (δ • b) (T * c * Tᵀ) lam (T *ᵥ x) = T *ᵥ sr3Inner A b c lam x := by
  have h := mul_eq_one_comm.1 hT
  have e1 : (δ • (A * Tᵀ))ᵀ *ᵥ (δ • b) = T *ᵥ (Aᵀ *ᵥ b) := by
    rw [transpose_smul, transpose_mul, transpose_transpose, smul_mulVec, mulVec_smul, smul_smul, hδ, one_smul, mulVec_mulVec]
  have e2 : (T * c * Tᵀ)ᵀ *ᵥ (T *ᵥ x) = T *ᵥ (cᵀ *ᵥ x) := by
    rw [transpose_mul, transpose_mul, transpose_transpose, mulVec_mulVec, mulVec_mulVec, Matrix.mul_assoc, Matrix.mul_assoc, h, Matrix.mul_one]
  unfold sr3Inner
  rw [sr3HInv_turn hT hδ, e1, e2, ← mulVec_smul, ← mulVec_add, mulVec_mulVec, mulVec_mulVec, Matrix.mul_assoc, h, Matrix.mul_one]

/-- The change of the stacked residual. -/
def stackTurn (T : Matrix (Fin n) (Fin n) ℝ) (δ : ℝ) (m : ℕ) : Matrix (Fin m ⊕ Fin n) (Fin m ⊕ Fin n) ℝ := fromBlocks (δ • 1) 0 0 T

theorem stackTurn_orth (hT : T * Tᵀ = 1) (hδ : δ * δ = 1) : stackTurn T δ m * (stackTurn T δ m)ᵀ = 1 := by
  unfold stackTurn
  rw [fromBlocks_transpose, fromBlocks_multiply, hT]
  simp [smul_smul, hδ]

theorem sr3F_turn (hT : T * Tᵀ = 1) (hδ : δ * δ = 1) (A : Matrix (Fin m) (Fin n) ℝ) (c : Matrix (Fin n) (Fin n) ℝ) (lam : ℝ) :
    sr3F (δ • (A * Tᵀ)) (T * c * Tᵀ) lam = stackTurn T δ m * sr3F A c lam * Tᵀ := by
  have h := mul_eq_one_comm.1 hT
  have e : ∀ Y : Matrix (Fin n) (Fin n) ℝ, Tᵀ * (T * Y) = Y := fun Y => by rw [← Matrix.mul_assoc, h, Matrix.one_mul]
  have e1 : lam • ((δ • (A * Tᵀ)) * (T * sr3HInv A c lam * Tᵀ) * (T * c * Tᵀ)ᵀ) = (δ • lam • (A * sr3HInv A c lam * cᵀ)) * Tᵀ := by
    simp only [transpose_mul, transpose_transpose, Matrix.smul_mul, Matrix.mul_assoc, e]
    rw [smul_comm]
  have e2 : Real.sqrt lam • (1 - lam • ((T * c * Tᵀ) * (T * sr3HInv A c lam * Tᵀ) * (T * c * Tᵀ)ᵀ)) = T * (Real.sqrt lam • (1 - lam • (c * sr3HInv A c lam * cᵀ))) * Tᵀ := by
    simp only [transpose_mul, transpose_transpose, Matrix.smul_mul, Matrix.mul_smul, Matrix.mul_sub, Matrix.sub_mul, Matrix.mul_one, Matrix.mul_assoc, e, hT]
  unfold sr3F stackTurn
  rw [sr3HInv_turn hT hδ, fromBlocks_mul_fromRows, fromRows_mul, e1, e2, Matrix.zero_mul, Matrix.zero_mul, add_zero, zero_add, Matrix.smul_mul δ 1, Matrix.one_mul]

theorem sr3G_turn (hT : T * Tᵀ = 1) (hδ : δ * δ = 1) (A : Matrix (Fin m) (Fin n) ℝ) (c : Matrix (Fin n) (Fin n) ℝ) (lam : ℝ) (b : Vec ℝ m) :
    sr3G (δ • (A * Tᵀ)) (T * c * Tᵀ) lam *ᵥ (δ • b) = stackTurn T δ m *ᵥ (sr3G A c lam *ᵥ b) := by
  have h := mul_eq_one_comm.1 hT
  have e : ∀ {k : ℕ} (Y : Matrix (Fin n) (Fin k) ℝ), Tᵀ * (T * Y) = Y := fun Y => by rw [← Matrix.mul_assoc, h, Matrix.one_mul]
  have e1 : δ • (1 - (δ • (A * Tᵀ)) * (T * sr3HInv A c lam * Tᵀ) * (δ • (A * Tᵀ))ᵀ) = δ • (1 - A * sr3HInv A c lam * Aᵀ) := by
    simp only [transpose_mul, transpose_smul, transpose_transpose, Matrix.smul_mul, Matrix.mul_smul, Matrix.mul_assoc, e]
    rw [smul_smul, hδ, one_smul]
  have e2 : δ • Real.sqrt lam • ((T * c * Tᵀ) * (T * sr3HInv A c lam * Tᵀ) * (δ • (A * Tᵀ))ᵀ) = T * (Real.sqrt lam • (c * sr3HInv A c lam * Aᵀ)) := by
    simp only [transpose_mul, transpose_smul, transpose_transpose, Matrix.mul_smul, Matrix.mul_assoc, e]
    rw [smul_comm (Real.sqrt lam) δ, smul_smul, hδ, one_smul]
  have e3 : ∀ {k : ℕ} (U : Matrix (Fin m) (Fin k) ℝ) (V : Matrix (Fin n) (Fin k) ℝ), δ • fromRows U V = fromRows (δ • U) (δ • V) := by
    intro k U V
    ext i j
    cases i <;> rfl
  unfold sr3G stackTurn
  rw [sr3HInv_turn hT hδ, mulVec_mulVec, fromBlocks_mul_fromRows, mulVec_smul, ← smul_mulVec, e3, e1, e2, Matrix.zero_mul, Matrix.zero_mul, add_zero, zero_add,
    Matrix.smul_mul δ 1, Matrix.one_mul]

theorem sr3_residual_turn (hT : T * Tᵀ = 1) (hδ : δ * δ = 1) (A : Matrix (Fin m) (Fin n) ℝ) (b : Vec ℝ m) (c : Matrix (Fin n) (Fin n) ℝ) (lam : ℝ) (w : Vec ℝ n) :
    sr3F (δ • (A * Tᵀ)) (T * c * Tᵀ) lam *ᵥ (T *ᵥ w) - sr3G (δ • (A * Tᵀ)) (T * c * Tᵀ) lam *ᵥ (δ • b) = stackTurn T δ m *ᵥ (sr3F A c lam *ᵥ w - sr3G A c lam *ᵥ b) := by
  have h := mul_eq_one_comm.1 hT
  rw [sr3G_turn hT hδ, sr3F_turn hT hδ, mulVec_mulVec, Matrix.mul_assoc, h, Matrix.mul_one, ← mulVec_mulVec, mulVec_sub]

theorem sr3Value_turn (hT : T * Tᵀ = 1) (hδ : δ * δ = 1) (A : Matrix (Fin m) (Fin n) ℝ) (b : Vec ℝ m) (c : Matrix (Fin n) (Fin n) ℝ) (lam : ℝ) (w : Vec ℝ n) :
    sr3Value (δ • (A * Tᵀ)) (δ • b) (T * c * Tᵀ) lam (T *ᵥ w) = sr3Value A b c lam w := by
  unfold sr3Value
  rw [sr3_residual_turn hT hδ, normSq_eq_dotProduct, turn_dot (stackTurn_orth hT hδ), normSq_eq_dotProduct]

theorem sr3Gradient_turn (hT : T * Tᵀ = 1) (hδ : δ * δ = 1) (A : Matrix (Fin m) (Fin n) ℝ) (b : Vec ℝ m) (c : Matrix (Fin n) (Fin n) ℝ) (lam : ℝ) (w : Vec ℝ n) :
    sr3Gradient (δ • (A * Tᵀ)) (δ • b) (T * c * Tᵀ) lam (T *ᵥ w) = T *ᵥ sr3Gradient A b c lam w := by
  have h := mul_eq_one_comm.1 (stackTurn_orth (m := m) hT hδ)
  unfold sr3Gradient
  rw [sr3_residual_turn hT hδ, sr3F_turn hT hδ, transpose_mul, transpose_mul, transpose_transpose, mulVec_mulVec, mulVec_mulVec, Matrix.mul_assoc, Matrix.mul_assoc, h,
    Matrix.mul_one]

theorem practicalLoop_turn (hT : T * Tᵀ = 1) (hδ : δ * δ = 1) (A : Matrix (Fin m) (Fin n) ℝ) (b : Vec ℝ m) (c : Matrix (Fin n) (Fin n) ℝ) (lam : ℝ) {R R' : Regularizer ℝ n}
    (hp : ∀ y t, R'.prox (T *ᵥ y) t = (R.prox y t).map (T *ᵥ ·)) (tol : ℝ) (maxIter : ℤ) (x : Vec ℝ n) (xprev : Option (Vec ℝ n)) (it : ℕ) :
    practicalLoop (δ • (A * Tᵀ)) (δ • b) (T * c * Tᵀ) lam R' tol maxIter (T *ᵥ x) (xprev.map (T *ᵥ ·)) it = (practicalLoop A b c lam R tol maxIter x xprev it).map (T *ᵥ ·) := by
  generalize hk : (maxIter - it).toNat = k
  induction k using Nat.strong_induction_on generalizing x xprev it with
  | _ k ih =>
    rw [practicalLoop, practicalLoop.eq_def A b, sr3Inner_turn hT hδ, hp]
    have hf : farApart tol (xprev.map (T *ᵥ ·)) (T *ᵥ x) ↔ farApart tol xprev x := by
      cases xprev with
      | none => rfl
      | some y =>
        change _ ∨ _ < normSq (T *ᵥ x - T *ᵥ y) ↔ _ ∨ _ < normSq (x - y)
        rw [← mulVec_sub, normSq_eq_dotProduct, turn_dot hT, normSq_eq_dotProduct]
    simp only [hf]
    split_ifs with h
    · cases R.prox (sr3Inner A b c lam x) (1 / lam) with
      | error e => rfl
      | ok x' => exact ih _ (by omega) x' (some x) (it + 1) rfl
    · rfl

theorem turn_transforms (hT : T * Tᵀ = 1) {R R' : Regularizer ℝ n} (hp : ∀ y t, R'.prox (T *ᵥ y) t = (R.prox y t).map (T *ᵥ ·)) (hv : ∀ x, R'.value (T *ᵥ x) = R.value x)
    {o o' : Oracle ℝ n Unit} (h1 : ∀ x, Sim id id (o.value x) (o'.value (T *ᵥ x))) (h2 : ∀ x, Sim id (T *ᵥ ·) (o.grad x) (o'.grad (T *ᵥ x))) :
    Transforms (T *ᵥ ·) id o o' R R' where
  dim := Iff.rfl
  add := mulVec_add T
  smul := fun t x => mulVec_smul T t x
  dot := turn_dot hT
  value := h1
  grad := h2
  prox := hp
  pen := hv

/-- The part of `linFit` before the criteria are logged. -/
noncomputable def linSolve (M : LinModelCfg) (A : Matrix (Fin m) (Fin n) ℝ) (b : Vec ℝ m) (c : Matrix (Fin n) (Fin n) ℝ) (R : Regularizer ℝ n) (start : Vec ℝ n) :
    Except PyErr (Vec ℝ n × Logger (PyVal ℝ n)) :=
  let L : Logger (PyVal ℝ n) := Logger.init M.loggerKind M.loggerKeys
  match M.sr3, M.prior with
  | none, .gaussian _ => .error .typeError
  | none, .none => (pgdOptimize (linOracle A b .nonInformative) R M.solver start L ()).map (·.1)
  | some _, .gaussian _ => .error .assertionError
  | some (el, practical), .none =>
    if (sr3H A c el).det = 0 then .error .linAlgError
    else (if practical then fakeOptimize (sr3Oracle A b c el false) (fun x => callReg (findOptimalParameters A b c el R M.tol M.maxIter x)) R start L ()
          else pgdOptimize (sr3Oracle A b c el false) R M.solver start L ()).map (·.1)

theorem linFit_eq_solve (M : LinModelCfg) (P : LinProblem ℝ) (x0 : Option (Vec ℝ P.n)) (warmStart : Bool) (weights : Option (Vec ℝ P.n)) :
    linFit M P x0 warmStart weights = (do
      let r ← linSolve M P.a P.b P.c (M.regularizer P.n (weights.getD fun _ => 1)) (if warmStart then x0.getD fun _ => 1 else fun _ => 1)
      let L ← logIC r.2 (sr3Aic P.a P.b r.1) (sr3Bic P.a P.b r.1)
      return (r.1, L)) := by
  unfold linFit linSolve
  simp only
  generalize M.regularizer P.n (weights.getD fun _ => 1) = R
  generalize (if warmStart then x0.getD fun _ => 1 else fun _ => 1 : Vec ℝ P.n) = start
  cases hs : M.sr3 with
  | none =>
    cases hp : M.prior with
    | gaussian g => rfl
    | none =>
      simp only
      change (pgdOptimize (linOracle P.a P.b .nonInformative) R M.solver start (Logger.init M.loggerKind M.loggerKeys) () >>= fun r => _) = _
      cases pgdOptimize (linOracle P.a P.b .nonInformative) R M.solver start (Logger.init M.loggerKind M.loggerKeys) () with
      | error e => rfl
      | ok r => rfl
  | some s =>
    obtain ⟨el, practical⟩ := s
    cases hp : M.prior with
    | gaussian g => rfl
    | none =>
      simp only
      split_ifs with h1 h2
      · rfl
      · cases fakeOptimize (sr3Oracle P.a P.b P.c el false) (fun x => callReg (findOptimalParameters P.a P.b P.c el R M.tol M.maxIter x)) R start
          (Logger.init M.loggerKind M.loggerKeys) () with
        | error e => rfl
        | ok r => rfl
      · cases pgdOptimize (sr3Oracle P.a P.b P.c el false) R M.solver start (Logger.init M.loggerKind M.loggerKeys) () with
        | error e => rfl
        | ok r => rfl

theorem linSolve_turn (M : LinModelCfg) (A : Matrix (Fin m) (Fin n) ℝ) (b : Vec ℝ m) (c : Matrix (Fin n) (Fin n) ℝ) (hT : T * Tᵀ = 1) (hδ : δ * δ = 1) {R R' : Regularizer ℝ n}
    (hp : ∀ y t, R'.prox (T *ᵥ y) t = (R.prox y t).map (T *ᵥ ·)) (hv : ∀ x, R'.value (T *ᵥ x) = R.value x) (start : Vec ℝ n) :
    linSolve M (δ • (A * Tᵀ)) (δ • b) (T * c * Tᵀ) R' (T *ᵥ start) = (linSolve M A b c R start).map fun r => (T *ᵥ r.1, r.2.mapVal (PyVal.mapVec (T *ᵥ ·))) := by
  unfold linSolve
  have hL : (Logger.init M.loggerKind M.loggerKeys : Logger (PyVal ℝ n)) = (Logger.init M.loggerKind M.loggerKeys : Logger (PyVal ℝ n)).mapVal (PyVal.mapVec (T *ᵥ ·)) :=
    (Logger.mapVal_init _ _ _).symm
  cases hs : M.sr3 with
  | none =>
    cases hpr : M.prior with
    | gaussian g => rfl
    | none =>
      simp only
      have t : Transforms (T *ᵥ ·) id (linOracle A b .nonInformative) (linOracle (δ • (A * Tᵀ)) (δ • b) .nonInformative) R R' :=
        turn_transforms hT hp hv (fun x s => congrArg (fun v => Except.ok (v, s)) (linLoss_turn hT hδ A b x))
          (fun x s => congrArg (fun v => Except.ok (v, s)) (linGradient_turn hT hδ A b x))
      have key := t.pgdOptimize M.solver start (Logger.init M.loggerKind M.loggerKeys) ()
      rw [← hL] at key
      change (pgdOptimize (linOracle (δ • (A * Tᵀ)) (δ • b) .nonInformative) R' M.solver (T *ᵥ start) (Logger.init M.loggerKind M.loggerKeys) (id ())).map _ = _
      rw [key]
      cases pgdOptimize (linOracle A b .nonInformative) R M.solver start (Logger.init M.loggerKind M.loggerKeys) () with
      | error e => rfl
      | ok r => rfl
  | some s =>
    obtain ⟨el, practical⟩ := s
    cases hpr : M.prior with
    | gaussian g => rfl
    | none =>
      simp only
      have hd : (sr3H (δ • (A * Tᵀ)) (T * c * Tᵀ) el).det = (sr3H A c el).det := sr3H_turn_det hT hδ A c el
      rw [hd]
      have t : Transforms (T *ᵥ ·) id (sr3Oracle A b c el false) (sr3Oracle (δ • (A * Tᵀ)) (δ • b) (T * c * Tᵀ) el false) R R' :=
        turn_transforms hT hp hv (fun x s => by
            simp only [sr3Oracle, sr3Value_turn hT hδ A b c el x, Bool.false_eq_true, if_false]
            split_ifs <;> rfl)
          (fun x s => by
            simp only [sr3Oracle, sr3Gradient_turn hT hδ A b c el x, Bool.false_eq_true, if_false]
            split_ifs <;> rfl)
      split_ifs with h1 h2
      · rfl
      · have key := t.fakeOptimize (opt := fun x => callReg (findOptimalParameters A b c el R M.tol M.maxIter x))
          (opt' := fun x => callReg (findOptimalParameters (δ • (A * Tᵀ)) (δ • b) (T * c * Tᵀ) el R' M.tol M.maxIter x))
          (fun x => Sim.call (by
            have := practicalLoop_turn hT hδ A b c el hp M.tol M.maxIter x none 0
            unfold findOptimalParameters
            split_ifs
            · rfl
            · exact this)) start (Logger.init M.loggerKind M.loggerKeys) ()
        rw [← hL] at key
        change (fakeOptimize (sr3Oracle (δ • (A * Tᵀ)) (δ • b) (T * c * Tᵀ) el false)
          (fun x => callReg (findOptimalParameters (δ • (A * Tᵀ)) (δ • b) (T * c * Tᵀ) el R' M.tol M.maxIter x)) R' (T *ᵥ start)
          (Logger.init M.loggerKind M.loggerKeys) (id ())).map _ = _
        rw [key]
        cases fakeOptimize (sr3Oracle A b c el false) (fun x => callReg (findOptimalParameters A b c el R M.tol M.maxIter x)) R start
          (Logger.init M.loggerKind M.loggerKeys) () with
        | error e => rfl
        | ok r => rfl
      · have key := t.pgdOptimize M.solver start (Logger.init M.loggerKind M.loggerKeys) ()
        rw [← hL] at key
        change (pgdOptimize (sr3Oracle (δ • (A * Tᵀ)) (δ • b) (T * c * Tᵀ) el false) R' M.solver (T *ᵥ start) (Logger.init M.loggerKind M.loggerKeys) (id ())).map _ = _
        rw [key]
        cases pgdOptimize (sr3Oracle A b c el false) R M.solver start (Logger.init M.loggerKind M.loggerKeys) () with
        | error e => rfl
        | ok r => rfl

theorem logIC_eq (L : Logger (PyVal ℝ n)) (aic bic : ℝ) : logIC L aic bic = (if "aic" ∈ L.keys then L.add "aic" (.atom (.num (aic : WithTop ℝ))) else .ok L) >>= fun L1 =>
    if "bic" ∈ L1.keys then L1.add "bic" (.atom (.num (bic : WithTop ℝ))) else .ok L1 := by
  unfold logIC
  split_ifs <;> rfl

theorem logIC_map {n' : ℕ} (f : Vec ℝ n → Vec ℝ n') (L : Logger (PyVal ℝ n)) (aic bic : ℝ) :
    logIC (L.mapVal (PyVal.mapVec f)) aic bic = (logIC L aic bic).map (Logger.mapVal (PyVal.mapVec f)) := by
  rw [logIC_eq, logIC_eq]
  have h1 : (if "aic" ∈ (L.mapVal (PyVal.mapVec f)).keys then (L.mapVal (PyVal.mapVec f)).add "aic" (.atom (.num (aic : WithTop ℝ))) else .ok (L.mapVal (PyVal.mapVec f))) =
      (if "aic" ∈ L.keys then L.add "aic" (.atom (.num (aic : WithTop ℝ))) else .ok L).map (Logger.mapVal (PyVal.mapVec f)) := by
    change (if "aic" ∈ L.keys then _ else _) = _
    split_ifs
    · rw [← Logger.add_map]
      rfl
    · rfl
  rw [h1]
  cases (if "aic" ∈ L.keys then L.add "aic" (.atom (.num (aic : WithTop ℝ))) else .ok L) with
  | error e => rfl
  | ok L1 =>
    change (if "bic" ∈ L1.keys then _ else _) = Except.map _ (if "bic" ∈ L1.keys then _ else _)
    split_ifs
    · rw [← Logger.add_map]
      rfl
    · rfl

/-- Whether the criteria can be logged does not depend on their values. -/
theorem logIC_values (L : Logger (PyVal ℝ n)) (aic bic aic' bic' : ℝ) : (logIC L aic bic).map (fun _ => ()) = (logIC L aic' bic').map fun _ => () := by
  have h : ∀ (L L' : Logger (PyVal ℝ n)) key v v', L.keys = L'.keys → L.kind = L'.kind →
      (L.add key v).map (fun L => (L.keys, L.kind)) = (L'.add key v').map fun L => (L.keys, L.kind) := by
    intro L L' key v v' e1 e2
    obtain ⟨kind, keys, d⟩ := L
    obtain ⟨kind', keys', d'⟩ := L'
    cases e1
    cases e2
    by_cases hk : key ∈ keys
    · simp only [Logger.add, if_pos hk]
      rfl
    · simp only [Logger.add, if_neg hk]
      cases kind <;> rfl
  rw [logIC_eq, logIC_eq]
  have h1 : (if "aic" ∈ L.keys then L.add "aic" (.atom (.num (aic : WithTop ℝ))) else .ok L).map (fun L => (L.keys, L.kind)) =
      (if "aic" ∈ L.keys then L.add "aic" (.atom (.num (aic' : WithTop ℝ))) else .ok L).map (fun L => (L.keys, L.kind)) := by
    split_ifs
    · exact h L L _ _ _ rfl rfl
    · rfl
  revert h1
  cases (if "aic" ∈ L.keys then L.add "aic" (.atom (.num (aic : WithTop ℝ))) else .ok L) with
  | error e =>
    cases (if "aic" ∈ L.keys then L.add "aic" (.atom (.num (aic' : WithTop ℝ))) else .ok L) with
    | error e' =>
      intro h1
      cases h1
      rfl
    | ok L' => intro h1; cases h1
  | ok L1 =>
    cases (if "aic" ∈ L.keys then L.add "aic" (.atom (.num (aic' : WithTop ℝ))) else .ok L) with
    | error e' => intro h1; cases h1
    | ok L1' =>
      intro h1
      have e : (L1.keys, L1.kind) = (L1'.keys, L1'.kind) := by
        simpa [Except.map] using h1
      simp only [Prod.mk.injEq] at e
      change Except.map _ (if "bic" ∈ L1.keys then _ else _) = Except.map _ (if "bic" ∈ L1'.keys then _ else _)
      rw [← e.1]
      split_ifs
      · have := h L1 L1' "bic" (.atom (.num (bic : WithTop ℝ))) (.atom (.num (bic' : WithTop ℝ))) e.1 e.2
        revert this
        cases L1.add "bic" (.atom (.num (bic : WithTop ℝ))) <;> cases L1'.add "bic" (.atom (.num (bic' : WithTop ℝ))) <;> intro h <;>
          first
          | rfl
          | (cases h; rfl)
          | cases h
      · rfl

/-- Fits of a turned problem, with any regularizers that are turned into each other. -/
theorem linFit_turn (M : LinModelCfg) {A A' : Matrix (Fin m) (Fin n) ℝ} {b b' : Vec ℝ m} {c c' : Matrix (Fin n) (Fin n) ℝ} (rw : Option (Vec ℝ n)) (std : StdArg ℝ m)
    (hT : T * Tᵀ = 1) (hδ : δ * δ = 1) (hA : A' = δ • (A * Tᵀ)) (hb : b' = δ • b) (hc : c' = T * c * Tᵀ) {w w' : Option (Vec ℝ n)}
    (hp : ∀ y t, (M.regularizer n (w'.getD fun _ => 1)).prox (T *ᵥ y) t = ((M.regularizer n (w.getD fun _ => 1)).prox y t).map (T *ᵥ ·))
    (hv : ∀ x, (M.regularizer n (w'.getD fun _ => 1)).value (T *ᵥ x) = (M.regularizer n (w.getD fun _ => 1)).value x) {x0 x0' : Option (Vec ℝ n)} {warmStart : Bool}
    (hx : (if warmStart then x0'.getD fun _ => 1 else fun _ => 1) = T *ᵥ (if warmStart then x0.getD fun _ => 1 else fun _ => 1)) :
    (linFit M ⟨m, n, A', b', c', rw, std⟩ x0' warmStart w').map (·.1) = (linFit M ⟨m, n, A, b, c, rw, std⟩ x0 warmStart w).map (fun r => T *ᵥ r.1) ∧
    ((∀ x : Vec ℝ n, nnzCount (T *ᵥ x) = nnzCount x) → linFit M ⟨m, n, A', b', c', rw, std⟩ x0' warmStart w' =
      (linFit M ⟨m, n, A, b, c, rw, std⟩ x0 warmStart w).map fun r => (T *ᵥ r.1, r.2.mapVal (PyVal.mapVec (T *ᵥ ·)))) := by
  subst hA hb hc
  have key := linSolve_turn M A b c hT hδ hp hv (if warmStart then x0.getD fun _ => 1 else fun _ => 1)
  rw [← hx] at key
  have e1 := linFit_eq_solve M ⟨m, n, δ • (A * Tᵀ), δ • b, T * c * Tᵀ, rw, std⟩ x0' warmStart w'
  have e2 := linFit_eq_solve M ⟨m, n, A, b, c, rw, std⟩ x0 warmStart w
  simp only at e1 e2
  rw [e1, e2]
  rw [key]
  cases linSolve M A b c (M.regularizer n (w.getD fun _ => 1)) (if warmStart then x0.getD fun _ => 1 else fun _ => 1) with
  | error e => exact ⟨rfl, fun _ => rfl⟩
  | ok r =>
    constructor
    · change ((logIC (r.2.mapVal (PyVal.mapVec (T *ᵥ ·))) _ _ >>= fun L => pure (T *ᵥ r.1, L)) : Except PyErr _).map _ =
        (logIC r.2 (sr3Aic A b r.1) (sr3Bic A b r.1) >>= fun L => pure (r.1, L)).map _
      rw [logIC_map]
      have h := logIC_values r.2 (sr3Aic (δ • (A * Tᵀ)) (δ • b) (T *ᵥ r.1)) (sr3Bic (δ • (A * Tᵀ)) (δ • b) (T *ᵥ r.1)) (sr3Aic A b r.1) (sr3Bic A b r.1)
      revert h
      change Except.map _ (logIC r.2 (sr3Aic (δ • (A * Tᵀ)) (δ • b) (T *ᵥ r.1)) (sr3Bic (δ • (A * Tᵀ)) (δ • b) (T *ᵥ r.1))) = _ →
        Except.map _ (Except.map _ (logIC r.2 (sr3Aic (δ • (A * Tᵀ)) (δ • b) (T *ᵥ r.1)) (sr3Bic (δ • (A * Tᵀ)) (δ • b) (T *ᵥ r.1))) >>= fun L => _) = _
      cases logIC r.2 (sr3Aic (δ • (A * Tᵀ)) (δ • b) (T *ᵥ r.1)) (sr3Bic (δ • (A * Tᵀ)) (δ • b) (T *ᵥ r.1)) <;>
        cases logIC r.2 (sr3Aic A b r.1) (sr3Bic A b r.1) <;> intro h <;> cases h <;> rfl
    · intro hn
      have e1 : sr3Aic (δ • (A * Tᵀ)) (δ • b) (T *ᵥ r.1) = sr3Aic A b r.1 := by
        unfold sr3Aic
        rw [hn]
        congr 1
        exact linLoss_turn hT hδ A b r.1
      have e2 : sr3Bic (δ • (A * Tᵀ)) (δ • b) (T *ᵥ r.1) = sr3Bic A b r.1 := by
        unfold sr3Bic
        rw [hn]
        congr 1
        exact linLoss_turn hT hδ A b r.1
      change ((logIC (r.2.mapVal (PyVal.mapVec (T *ᵥ ·))) (sr3Aic (δ • (A * Tᵀ)) (δ • b) (T *ᵥ r.1)) (sr3Bic (δ • (A * Tᵀ)) (δ • b) (T *ᵥ r.1))) >>=
        fun L => pure (T *ᵥ r.1, L) : Except PyErr _) = _
      rw [e1, e2, logIC_map]
      change _ = Except.map _ (logIC r.2 (sr3Aic A b r.1) (sr3Bic A b r.1) >>= fun L => pure (r.1, L))
      cases logIC r.2 (sr3Aic A b r.1) (sr3Bic A b r.1) <;> rfl

end Turn

/-! ## Reordered features and reversed signs -/

section Signed
variable {σ : Equiv.Perm (Fin n)} {ε : Fin n → ℝ}

/-- The matrix which reorders the coordinates and multiplies them by signs. -/
def signedPerm (σ : Equiv.Perm (Fin n)) (ε : Fin n → ℝ) : Matrix (Fin n) (Fin n) ℝ := Matrix.of fun i j => if j = σ i then ε i else 0

theorem signedPerm_mulVec (x : Vec ℝ n) : signedPerm σ ε *ᵥ x = fun i => ε i * x (σ i) := by
  funext i
  simp [signedPerm, mulVec, dotProduct]

theorem sign_sq (hε : ∀ i, ε i = 1 ∨ ε i = -1) (i : Fin n) : ε i * ε i = 1 := by
  rcases hε i with h | h <;> rw [h] <;> norm_num

theorem signedPerm_orth (hε : ∀ i, ε i = 1 ∨ ε i = -1) : signedPerm σ ε * (signedPerm σ ε)ᵀ = 1 := by
  ext i j
  rw [Matrix.mul_apply, Matrix.one_apply]
  simp only [signedPerm, Matrix.of_apply, Matrix.transpose_apply, ite_mul, zero_mul, Finset.sum_ite_eq', Finset.mem_univ, if_true]
  by_cases h : i = j
  · subst h
    simp [sign_sq hε]
  · simp [h]

theorem abs_sign (hε : ∀ i, ε i = 1 ∨ ε i = -1) (i : Fin n) (t : ℝ) : |ε i * t| = |t| := by
  rcases hε i with h | h <;> rw [h] <;> simp

theorem nnzCount_signed (hε : ∀ i, ε i = 1 ∨ ε i = -1) (x : Vec ℝ n) : nnzCount (fun i => ε i * x (σ i)) = nnzCount x := by
  unfold nnzCount
  refine Fintype.card_congr (Equiv.subtypeEquiv σ fun i => ?_)
  rcases hε i with h | h <;> simp [h]

theorem soft_sign (hε : ∀ i, ε i = 1 ∨ ε i = -1) (i : Fin n) (t x : ℝ) : soft t (ε i * x) = ε i * soft t x := by
  rcases hε i with h | h <;> rw [h]
  · rw [one_mul, one_mul]
  · rw [neg_one_mul, neg_one_mul, soft_neg]

theorem scadProx1_sign (hε : ∀ i, ε i = 1 ∨ ε i = -1) (i : Fin n) (rho sigma w ae x : ℝ) :
    scadProx1 rho sigma w ae (ε i * x) = (scadProx1 rho sigma w ae x).map (ε i * ·) := by
  unfold scadProx1
  rw [abs_sign hε, soft_sign hε]
  have hs : npSign (ε i * x) = ε i * npSign x := by
    rcases hε i with h | h <;> rw [h]
    · rw [one_mul, one_mul]
    · rw [neg_one_mul, neg_one_mul, npSign_neg]
  rw [hs]
  split_ifs
  · rfl
  · rfl
  · rfl
  · change Except.ok _ = Except.ok _
    congr 1
    ring
  · rfl

theorem scadProx1_error {rho sigma w ae x : ℝ} {e : PyErr} (h : scadProx1 rho sigma w ae x = .error e) : e = .nan := by
  unfold scadProx1 at h
  split_ifs at h
  cases h
  rfl

theorem collect_error {f : Fin n → Except PyErr ℝ} (hf : ∀ i e, f i = .error e → e = .nan) : (∃ z, collect f = .ok z) ∨ collect f = .error .nan := by
  induction n with
  | zero => exact .inl ⟨_, rfl⟩
  | succ n ih =>
    unfold collect
    cases h0 : f 0 with
    | error e => rw [hf 0 e h0]; exact .inr rfl
    | ok a =>
      rcases ih (f := fun i => f i.succ) (fun i e => hf i.succ e) with ⟨z, hz⟩ | hz
      · exact .inl ⟨_, by rw [hz]; rfl⟩
      · exact .inr (by rw [hz]; rfl)

theorem collect_signed (hε : ∀ i, ε i = 1 ∨ ε i = -1) {f g : Fin n → Except PyErr ℝ} (hf : ∀ i e, f i = .error e → e = .nan) (hg : ∀ i, g i = (f (σ i)).map (ε i * ·)) :
    collect g = (collect f).map fun x i => ε i * x (σ i) := by
  have hge : ∀ i e, g i = .error e → e = .nan := by
    intro i e h
    rw [hg] at h
    cases h1 : f (σ i) with
    | error e' => rw [h1] at h; cases h; exact hf _ _ h1
    | ok v => rw [h1] at h; cases h
  rcases collect_error hf with ⟨z, hz⟩ | hz
  · rw [hz]
    refine (collect_ok_iff _ _).2 fun i => ?_
    rw [hg, (collect_ok_iff _ _).1 hz]
    rfl
  · rw [hz]
    rcases collect_error hge with ⟨z, hz'⟩ | hz'
    · exfalso
      have h1 : collect f = .ok fun i => ε (σ.symm i) * z (σ.symm i) := by
        refine (collect_ok_iff _ _).2 fun i => ?_
        have h2 := (collect_ok_iff _ _).1 hz' (σ.symm i)
        rw [hg, Equiv.apply_symm_apply] at h2
        cases h3 : f i with
        | error e => rw [h3] at h2; cases h2
        | ok v =>
          rw [h3] at h2
          have h4 : ε (σ.symm i) * v = z (σ.symm i) := by simpa [Except.map] using h2
          rw [← h4, ← mul_assoc, sign_sq hε, one_mul]
      rw [h1] at hz
      cases hz
    · rw [hz']
      rfl

theorem takeOnlyKMax_sign {ι : Type*} [Fintype ι] (as : ArgSort ι ℝ) {ε : ι → ℝ} (hε : ∀ i, ε i = 1 ∨ ε i = -1) (x : ι → ℝ) (k : ℤ) :
    takeOnlyKMax as (fun i => ε i * x i) k = fun i => ε i * takeOnlyKMax as x k i := by
  have h : (fun j => |ε j * x j|) = fun j => |x j| := by
    funext j
    rcases hε j with h | h <;> rw [h] <;> simp
  unfold takeOnlyKMax
  rw [h]
  split_ifs
  · funext i
    simp only
    split_ifs
    · rfl
    · exact (mul_zero _).symm
  · funext i
    exact (mul_zero _).symm

theorem maskedKMax_sign {ι : Type*} [Fintype ι] (mask : ι → Bool) (as : ArgSort {i // mask i = true} ℝ) {ε : ι → ℝ} (hε : ∀ i, ε i = 1 ∨ ε i = -1) (x : ι → ℝ) (k : ℤ) :
    maskedKMax mask as (fun i => ε i * x i) k = fun i => ε i * maskedKMax mask as x k i := by
  unfold maskedKMax
  funext i
  split_ifs with h
  · exact congrFun (takeOnlyKMax_sign as (ε := fun j => ε j.1) (fun j => hε j.1) (fun j => x j.1) _) ⟨i, h⟩
  · rfl

/-- The penalties of the linear classes commute with reordering of the coordinates (together with the weights) and changes of signs; L0 with changes of signs. -/
theorem LinPenalty.signed (pen : LinPenalty) (hε : ∀ i, ε i = 1 ∨ ε i = -1) (hl0 : ∀ nnz sort, pen = .l0 nnz sort → σ = 1) (w : Vec ℝ n) :
    (∀ y t, (pen.build n (w ∘ σ)).prox (fun i => ε i * y (σ i)) t = ((pen.build n w).prox y t).map fun x i => ε i * x (σ i)) ∧
    ∀ x, (pen.build n (w ∘ σ)).value (fun i => ε i * x (σ i)) = (pen.build n w).value x := by
  cases pen with
  | dummy => exact ⟨fun _ _ => rfl, fun _ => rfl⟩
  | l0 nnz sort =>
    cases hl0 nnz sort rfl
    refine ⟨fun y t => congrArg Except.ok (maskedKMax_sign _ _ hε y _), fun x => ?_⟩
    change (match nnz with | none => _ | some k => _) = (match nnz with | none => _ | some k => _)
    rw [nnzCount_signed (σ := 1) hε x]
  | l1 lam =>
    refine ⟨fun y t => congrArg Except.ok (funext fun i => soft_sign hε i _ _), fun x => ?_⟩
    change Except.ok _ = Except.ok _
    congr 2
    simp only [abs_sign hε]
    exact Equiv.sum_comp σ fun i => w i * |x i|
  | cad lam rho =>
    refine ⟨fun y t => congrArg Except.ok (funext fun i => ?_), fun x => ?_⟩
    · change (if _ then _ else _) = _ * (if _ then _ else _)
      rw [abs_sign hε, soft_sign hε]
      simp only [Function.comp_apply]
      split_ifs <;> rfl
    · change Except.ok _ = Except.ok _
      congr 3
      simp only [abs_sign hε]
      exact Equiv.sum_comp σ fun i => min (w i * |x i|) rho
  | scad lam rho sigma =>
    refine ⟨fun y t => collect_signed hε (fun i e h => scadProx1_error h) fun i => scadProx1_sign hε i _ _ _ _ _, fun x => ?_⟩
    change Except.ok _ = Except.ok _
    congr 3
    have h : ∀ i, scadTerm rho sigma (w (σ i)) (ε i * x (σ i)) = scadTerm rho sigma (w (σ i)) (x (σ i)) := by
      intro i
      unfold scadTerm
      rw [abs_sign hε, mul_pow, pow_two (ε i), sign_sq hε, one_mul]
    exact (Finset.sum_congr rfl fun i _ => h i).trans (Equiv.sum_comp σ fun i => scadTerm rho sigma (w i) (x i))

end Signed

/-- **C122**: the order and the signs of the features do not matter for linear models. For every linear class, plain or SR3, practical or not, all constructor
arguments, every problem, start and weights: reordering the features (with their weights and start) by `σ` and multiplying them by signs `ε` reorders the coefficients and
multiplies them by the signs; `δ = -1` reverses the signs of features and answers in addition, which changes nothing (with `ε = -1` as well: reversing the
answers alone reverses the coefficients). The log is the same up to the same changes of the logged
vectors, and the same exceptions are raised. The default start consists of ones, so that changes of signs need an explicit start. L0 is restricted to changes of signs, because the
order in which numpy sorts equal values is not specified. -/
theorem C122_features_linear (pen : LinPenalty) (sr3 : Bool) (a : LinArgs) (A : Matrix (Fin m) (Fin n) ℝ) (b : Vec ℝ m) (rw : Option (Vec ℝ n)) (std : StdArg ℝ m)
    (x0 : Option (Vec ℝ n)) (warm : Bool) (w : Option (Vec ℝ n)) (σ : Equiv.Perm (Fin n)) (ε : Fin n → ℝ) (hε : ∀ i, ε i = 1 ∨ ε i = -1) (δ : ℝ) (hδ : δ = 1 ∨ δ = -1)
    (hl0 : ∀ nnz sort, pen = .l0 nnz sort → σ = 1) (hstart : (∀ i, ε i = 1) ∨ (warm = true ∧ x0.isSome)) :
    linClassFit pen sr3 a ⟨m, n, Matrix.of fun r i => δ * ε i * A r (σ i), fun r => δ * b r, 1, rw, std⟩ (x0.map fun x i => ε i * x (σ i)) warm (w.map (· ∘ σ)) =
      (linClassFit pen sr3 a ⟨m, n, A, b, 1, rw, std⟩ x0 warm w).map fun r => (fun i => ε i * r.1 (σ i), r.2.mapVal (PyVal.mapVec fun x i => ε i * x (σ i))) := by
  have hT := signedPerm_orth (σ := σ) hε
  have hd : δ * δ = 1 := by rcases hδ with h | h <;> rw [h] <;> norm_num
  have hf : (signedPerm σ ε *ᵥ ·) = fun (x : Vec ℝ n) i => ε i * x (σ i) := funext fun x => signedPerm_mulVec x
  have hw : (w.map (· ∘ σ)).getD (fun _ => 1) = w.getD (fun _ => 1) ∘ σ := by cases w <;> rfl
  obtain ⟨hp, hv⟩ := pen.signed hε hl0 (w.getD fun _ => 1)
  have hx : (if warm then (x0.map fun x i => ε i * x (σ i)).getD fun _ => 1 else fun _ => 1) = signedPerm σ ε *ᵥ (if warm then x0.getD fun _ => 1 else fun _ => 1) := by
    rw [signedPerm_mulVec]
    rcases hstart with h | ⟨h1, h2⟩
    · cases warm <;> cases x0 <;> simp [h]
    · obtain ⟨x, rfl⟩ := Option.isSome_iff_exists.1 h2
      subst h1
      rfl
  have eA : Matrix.of (fun r i => δ * ε i * A r (σ i)) = δ • (A * (signedPerm σ ε)ᵀ) := by
    ext r i
    have : (A * (signedPerm σ ε)ᵀ) r i = (signedPerm σ ε *ᵥ A r) i := by
      rw [Matrix.mul_apply]
      unfold mulVec dotProduct
      exact Finset.sum_congr rfl fun j _ => mul_comm _ _
    change _ = δ * _
    rw [this, signedPerm_mulVec]
    simp only [Matrix.of_apply, mul_assoc]
  have ec : (1 : Matrix (Fin n) (Fin n) ℝ) = signedPerm σ ε * 1 * (signedPerm σ ε)ᵀ := by rw [Matrix.mul_one, hT]
  have key := (linFit_turn (linClass pen sr3 a) (A := A) (b := b) (b' := fun r => δ * b r) (c := 1) rw std hT hd eA rfl ec (w := w) (w' := w.map (· ∘ σ))
    (x0 := x0) (x0' := x0.map fun x i => ε i * x (σ i)) (warmStart := warm)
    (fun y t => by
      rw [hw, hf, signedPerm_mulVec]
      exact hp y t)
    (fun x => by
      rw [hw, signedPerm_mulVec]
      exact hv x) hx).2 (fun x => by rw [signedPerm_mulVec, nnzCount_signed hε])
  rw [hf] at key
  unfold linClassFit
  cases pen.check with
  | error e => rfl
  | ok u =>
    refine Eq.trans key ?_
    simp only [signedPerm_mulVec]
    rfl

/-- Non-vacuity of C122: the fit of `LinearSCADModel(lam=1)` to two features returns, and the fit with the features exchanged returns the exchanged coefficients. -/
example (A : Matrix (Fin 3) (Fin 2) ℝ) (b : Vec ℝ 3) : ∃ x L L', linClassFit (.scad 1 (37 / 10) 1) false {} ⟨3, 2, A, b, 1, none, .none⟩ none false none = .ok (x, L) ∧
    linClassFit (.scad 1 (37 / 10) 1) false {} ⟨3, 2, Matrix.of fun r => ![A r 1, A r 0], b, 1, none, .none⟩ none false none = .ok (![x 1, x 0], L') := by
  obtain ⟨x, L, h⟩ := C110_strength_partial 1 zero_le_one false (by norm_num) (.scad 1 (37 / 10) 1) (by simp [strengthPenalties]) false ⟨3, 2, A, b, 1, none, .none⟩ rfl none false
  have key := C122_features_linear (.scad 1 (37 / 10) 1) false {} A b none .none none false none (Equiv.swap 0 1) (fun _ => 1) (fun _ => .inl rfl) 1 (.inl rfl)
    (by intro _ _ h; cases h) (.inl fun _ => rfl)
  rw [h] at key
  have e1 : (Matrix.of fun r i => 1 * 1 * A r (Equiv.swap 0 1 i)) = Matrix.of fun r => ![A r 1, A r 0] := by
    ext i j
    fin_cases j <;> simp
  have e2 : (fun i => 1 * b i) = b := by
    funext i
    simp
  have e3 : (fun i => 1 * x (Equiv.swap 0 1 i)) = ![x 1, x 0] := by
    funext i
    fin_cases i <;> simp
  rw [e1, e2] at key
  exact ⟨x, L, L.mapVal (PyVal.mapVec fun x i => 1 * x (Equiv.swap 0 1 i)), h, key.trans (congrArg (fun v => Except.ok (v, _)) e3)⟩

/-- **C123**: fits without penalty see the features only through the distances: for the simple linear models, plain and SR3, practical or not, with all settings, replacing the features by
orthogonal combinations of them (`T * Tᵀ = 1`, the start changed alike) changes the coefficients alike, and the predictions for new data, given in the new features, not at all; the same
exceptions are raised. -/
theorem C123_rotation (sr3 : Bool) (a : LinArgs) (A : Matrix (Fin m) (Fin n) ℝ) (b : Vec ℝ m) (rw : Option (Vec ℝ n)) (std : StdArg ℝ m) (x0 : Vec ℝ n) (w : Option (Vec ℝ n))
    (T : Matrix (Fin n) (Fin n) ℝ) (hT : T * Tᵀ = 1) :
    (linClassFit .dummy sr3 a ⟨m, n, A * Tᵀ, b, 1, rw, std⟩ (some (T *ᵥ x0)) true w).map (·.1) =
      (linClassFit .dummy sr3 a ⟨m, n, A, b, 1, rw, std⟩ (some x0) true w).map (fun r => T *ᵥ r.1) ∧
    ∀ r r', linClassFit .dummy sr3 a ⟨m, n, A, b, 1, rw, std⟩ (some x0) true w = .ok r → linClassFit .dummy sr3 a ⟨m, n, A * Tᵀ, b, 1, rw, std⟩ (some (T *ᵥ x0)) true w = .ok r' →
      ∀ {m' : ℕ} (B : Matrix (Fin m') (Fin n) ℝ), linPredict (some ⟨n, r'.1⟩) (B * Tᵀ) = linPredict (some ⟨n, r.1⟩) B := by
  have key : (linClassFit .dummy sr3 a ⟨m, n, A * Tᵀ, b, 1, rw, std⟩ (some (T *ᵥ x0)) true w).map (·.1) =
      (linClassFit .dummy sr3 a ⟨m, n, A, b, 1, rw, std⟩ (some x0) true w).map (fun r => T *ᵥ r.1) :=
    (linFit_turn (linClass .dummy sr3 a) (A := A) (b := b) (c := 1) (δ := 1) rw std hT (one_mul 1) (one_smul _ _).symm (one_smul _ _).symm (by rw [Matrix.mul_one, hT]) (w := w) (w' := w)
      (x0 := some x0) (x0' := some (T *ᵥ x0)) (warmStart := true) (fun y t => rfl) (fun x => rfl) rfl).1
  refine ⟨key, fun r r' h h' m' B => ?_⟩
  rw [h, h'] at key
  have e : r'.1 = T *ᵥ r.1 := by simpa [Except.map] using key
  unfold linPredict
  simp only [dite_true]
  rw [e, mulVec_mulVec, Matrix.mul_assoc, mul_eq_one_comm.1 hT, Matrix.mul_one]

/-- Non-vacuity of C123: a rotation of the plane; the fits return. -/
example (A : Matrix (Fin 3) (Fin 2) ℝ) (b : Vec ℝ 3) : (!![3 / 5, -4 / 5; 4 / 5, 3 / 5] : Matrix (Fin 2) (Fin 2) ℝ) * (!![3 / 5, -4 / 5; 4 / 5, 3 / 5])ᵀ = 1 ∧
    ∃ x L, linClassFit .dummy true {} ⟨3, 2, A, b, 1, none, .none⟩ (some ![1, 2]) true none = .ok (x, L) := by
  refine ⟨?_, C110_returns_partial .dummy true {} rfl rfl (by simp) (fun _ => one_pos) ⟨3, 2, A, b, 1, none, .none⟩ rfl _ _ none trivial⟩
  ext i j
  fin_cases i <;> fin_cases j <;> norm_num [Matrix.mul_apply, Fin.sum_univ_two, Matrix.one_apply]

end Verif
