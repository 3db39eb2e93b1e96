import Verif.Lemmas.SolverShift
import Verif.Props.LinColumns

/-!
# Unpenalised linear fits follow the answers: first part of property C184
-/

namespace Verif

open Matrix

variable {m n : ℕ}

theorem shift_residual (A : Matrix (Fin m) (Fin n) ℝ) (b : Vec ℝ m) (c x : Vec ℝ n) : A *ᵥ (x + c) - (b + A *ᵥ c) = A *ᵥ x - b := by
  rw [mulVec_add]
  abel

theorem linLoss_shift (A : Matrix (Fin m) (Fin n) ℝ) (b : Vec ℝ m) (c x : Vec ℝ n) :
    linLoss A (b + A *ᵥ c) .nonInformative (x + c) = linLoss A b .nonInformative x := by
  unfold linLoss
  rw [shift_residual]
  rfl

theorem linGradient_shift (A : Matrix (Fin m) (Fin n) ℝ) (b : Vec ℝ m) (c x : Vec ℝ n) :
    linGradient A (b + A *ᵥ c) .nonInformative (x + c) = linGradient A b .nonInformative x := by
  unfold linGradient
  rw [shift_residual]
  rfl

theorem sr3Inner_shift (A : Matrix (Fin m) (Fin n) ℝ) (b : Vec ℝ m) (lam : ℝ) (hd : (sr3H A 1 lam).det ≠ 0) (c x : Vec ℝ n) :
    sr3Inner A (b + A *ᵥ c) 1 lam (x + c) = sr3Inner A b 1 lam x + c := by
  have h : sr3HInv A 1 lam *ᵥ (sr3H A 1 lam *ᵥ c) = c := by
    unfold sr3HInv
    rw [mulVec_mulVec, nonsing_inv_mul _ (isUnit_iff_ne_zero.2 hd), one_mulVec]
  have e : sr3H A 1 lam *ᵥ c = Aᵀ *ᵥ (A *ᵥ c) + lam • c := by
    unfold sr3H
    rw [add_mulVec, mul_one, smul_mulVec, one_mulVec, mulVec_mulVec]
  unfold sr3Inner
  rw [transpose_one, one_mulVec, one_mulVec, mulVec_add Aᵀ, smul_add,
    show Aᵀ *ᵥ b + Aᵀ *ᵥ (A *ᵥ c) + (lam • x + lam • c) = (Aᵀ *ᵥ b + lam • x) + (Aᵀ *ᵥ (A *ᵥ c) + lam • c) by abel, mulVec_add, ← e, h]

theorem sr3_residual_shift (A : Matrix (Fin m) (Fin n) ℝ) (b : Vec ℝ m) (lam : ℝ) (hd : (sr3H A 1 lam).det ≠ 0) (c w : Vec ℝ n) :
    sr3F A 1 lam *ᵥ (w + c) - sr3G A 1 lam *ᵥ (b + A *ᵥ c) = sr3F A 1 lam *ᵥ w - sr3G A 1 lam *ᵥ b := by
  rw [sr3_residual, sr3_residual, sr3Inner_shift A b lam hd, shift_residual, add_sub_add_right_eq_sub]

theorem practicalLoop_shift (A : Matrix (Fin m) (Fin n) ℝ) (b : Vec ℝ m) (lam : ℝ) (hd : (sr3H A 1 lam).det ≠ 0) (tol : ℝ) (maxIter : ℤ) (c x : Vec ℝ n)
    (xprev : Option (Vec ℝ n)) (it : ℕ) :
    practicalLoop A (b + A *ᵥ c) 1 lam dummyRegularizer tol maxIter (x + c) (xprev.map (· + c)) it =
      (practicalLoop A b 1 lam dummyRegularizer tol maxIter x xprev it).map (· + c) := by
  generalize hk : (maxIter - it).toNat = k
  induction k using Nat.strong_induction_on generalizing x xprev it with
  | _ k ih =>
    rw [practicalLoop, practicalLoop.eq_def A b, sr3Inner_shift A b lam hd]
    have hf : farApart tol (xprev.map (· + c)) (x + c) ↔ farApart tol xprev x := by
      cases xprev with
      | none => rfl
      | some y =>
        change _ ∨ _ < normSq (x + c - (y + c)) ↔ _ ∨ _ < normSq (x - y)
        rw [add_sub_add_right_eq_sub]
    simp only [hf]
    split_ifs with h
    · exact ih _ (by omega) _ (some x) (it + 1) rfl
    · rfl

theorem shift_moves (c : Vec ℝ n) {o o' : Oracle ℝ n Unit} (h1 : ∀ x, Sim id id (o.value x) (o'.value (x + c))) (h2 : ∀ x, Sim id id (o.grad x) (o'.grad (x + c))) :
    Moves (· + c) id id o o' dummyRegularizer dummyRegularizer where
  dim := Iff.rfl
  add := fun x y => add_right_comm x y c
  smul := fun _ _ => rfl
  dot := fun _ _ => rfl
  value := h1
  grad := h2
  prox := fun _ _ => rfl
  pen := fun _ => rfl

theorem linSolve_shift (M : LinModelCfg) (A : Matrix (Fin m) (Fin n) ℝ) (b : Vec ℝ m) (c start : Vec ℝ n) :
    linSolve M A (b + A *ᵥ c) 1 dummyRegularizer (start + c) =
      (linSolve M A b 1 dummyRegularizer start).map fun r => (r.1 + c, r.2.mapKey (moveVal (· + c) id)) := by
  unfold linSolve
  have hL : (Logger.init M.loggerKind M.loggerKeys : Logger (PyVal ℝ n)) = (Logger.init M.loggerKind M.loggerKeys : Logger (PyVal ℝ n)).mapKey (moveVal (· + c) id) :=
    (Logger.mapKey_init _ _ _).symm
  cases hs : M.sr3 with
  | none =>
    cases hpr : M.prior with
    | gaussian g => rfl
    | none =>
      simp only
      have t : Moves (· + c) id id (linOracle A b .nonInformative) (linOracle A (b + A *ᵥ c) .nonInformative) dummyRegularizer dummyRegularizer :=
        shift_moves c (fun x s => congrArg (fun v => Except.ok (v, s)) (linLoss_shift A b c x)) (fun x s => congrArg (fun v => Except.ok (v, s)) (linGradient_shift A b c x))
      have key := t.pgdOptimize M.solver start (Logger.init M.loggerKind M.loggerKeys) ()
      rw [← hL] at key
      change (pgdOptimize (linOracle A (b + A *ᵥ c) .nonInformative) dummyRegularizer M.solver (start + c) (Logger.init M.loggerKind M.loggerKeys) (id ())).map _ = _
      rw [key]
      cases pgdOptimize (linOracle A b .nonInformative) dummyRegularizer M.solver start (Logger.init M.loggerKind M.loggerKeys) () with
      | error e => rfl
      | ok r => rfl
  | some s =>
    obtain ⟨el, practical⟩ := s
    cases hpr : M.prior with
    | gaussian g => rfl
    | none =>
      simp only
      split_ifs with h1 h2
      · rfl
      all_goals
        have t : Moves (· + c) id id (sr3Oracle A b 1 el false) (sr3Oracle A (b + A *ᵥ c) 1 el false) dummyRegularizer dummyRegularizer :=
          shift_moves c (fun x s => by
              simp only [sr3Oracle, sr3Value, sr3_residual_shift A b el h1 c x, Bool.false_eq_true, if_false]
              split_ifs <;> rfl)
            (fun x s => by
              simp only [sr3Oracle, sr3Gradient, sr3_residual_shift A b el h1 c x, Bool.false_eq_true, if_false]
              split_ifs <;> rfl)
      · have key := t.fakeOptimize (opt := fun x => callReg (findOptimalParameters A b 1 el dummyRegularizer M.tol M.maxIter x))
          (opt' := fun x => callReg (findOptimalParameters A (b + A *ᵥ c) 1 el dummyRegularizer M.tol M.maxIter x))
          (fun x => Sim.call (by
            have := practicalLoop_shift A b el h1 M.tol M.maxIter c x none 0
            unfold findOptimalParameters
            split_ifs
            · rfl
            · exact this)) start (Logger.init M.loggerKind M.loggerKeys) ()
        rw [← hL] at key
        change (fakeOptimize (sr3Oracle A (b + A *ᵥ c) 1 el false)
          (fun x => callReg (findOptimalParameters A (b + A *ᵥ c) 1 el dummyRegularizer M.tol M.maxIter x)) dummyRegularizer (start + c)
          (Logger.init M.loggerKind M.loggerKeys) (id ())).map _ = _
        rw [key]
        cases fakeOptimize (sr3Oracle A b 1 el false) (fun x => callReg (findOptimalParameters A b 1 el dummyRegularizer M.tol M.maxIter x)) dummyRegularizer start
          (Logger.init M.loggerKind M.loggerKeys) () with
        | error e => rfl
        | ok r => rfl
      · have key := t.pgdOptimize M.solver start (Logger.init M.loggerKind M.loggerKeys) ()
        rw [← hL] at key
        change (pgdOptimize (sr3Oracle A (b + A *ᵥ c) 1 el false) dummyRegularizer M.solver (start + c) (Logger.init M.loggerKind M.loggerKeys) (id ())).map _ = _
        rw [key]
        cases pgdOptimize (sr3Oracle A b 1 el false) dummyRegularizer M.solver start (Logger.init M.loggerKind M.loggerKeys) () with
        | error e => rfl
        | ok r => rfl

/-- The keys that are not the criteria are logged alike. -/
theorem logIC_mapKey (f : String → PyVal ℝ n → PyVal ℝ n) (hf : ∀ v : WithTop ℝ, f "aic" (.num v) = .num v ∧ f "bic" (.num v) = .num v) (L : Logger (PyVal ℝ n)) (aic bic : ℝ) :
    logIC (L.mapKey f) aic bic = (logIC L aic bic).map (Logger.mapKey f) := by
  rw [logIC_eq, logIC_eq]
  have h1 : (if "aic" ∈ (L.mapKey f).keys then (L.mapKey f).add "aic" (.atom (.num (aic : WithTop ℝ))) else .ok (L.mapKey f)) =
      (if "aic" ∈ L.keys then L.add "aic" (.atom (.num (aic : WithTop ℝ))) else .ok L).map (Logger.mapKey f) := by
    change (if "aic" ∈ L.keys then _ else _) = _
    split_ifs
    · rw [← Logger.add_mapKey, LVal.mapVal, (hf _).1]
    · rfl
  rw [h1]
  cases (if "aic" ∈ L.keys then L.add "aic" (.atom (.num (aic : WithTop ℝ))) else .ok L) with
  | error e => rfl
  | ok L1 =>
    change (if "bic" ∈ L1.keys then _ else _) = Except.map _ (if "bic" ∈ L1.keys then _ else _)
    split_ifs
    · rw [← Logger.add_mapKey, LVal.mapVal, (hf _).2]
    · rfl

/-- **C184**, linear part: fits without penalty follow the answers. For the simple linear models, plain and SR3, practical or not, with all settings: adding to the answers any combination
`A c` of the features (and `c` to the start) adds exactly `c` to the fitted coefficients, hence the same combination of the features to the predictions; the same exceptions are raised. -/
theorem C184_linear (sr3 : Bool) (a : LinArgs) (A : Matrix (Fin m) (Fin n) ℝ) (b : Vec ℝ m) (rw : Option (Vec ℝ n)) (std : StdArg ℝ m) (x0 : Vec ℝ n) (w : Option (Vec ℝ n))
    (c : Vec ℝ n) :
    (linClassFit .dummy sr3 a ⟨m, n, A, b + A *ᵥ c, 1, rw, std⟩ (some (x0 + c)) true w).map (·.1) =
      (linClassFit .dummy sr3 a ⟨m, n, A, b, 1, rw, std⟩ (some x0) true w).map (fun r => r.1 + c) ∧
    ∀ r r', linClassFit .dummy sr3 a ⟨m, n, A, b, 1, rw, std⟩ (some x0) true w = .ok r →
      linClassFit .dummy sr3 a ⟨m, n, A, b + A *ᵥ c, 1, rw, std⟩ (some (x0 + c)) true w = .ok r' →
      ∀ {m' : ℕ} (B : Matrix (Fin m') (Fin n) ℝ), linPredict (some ⟨n, r'.1⟩) B = (linPredict (some ⟨n, r.1⟩) B).map (· + B *ᵥ c) := by
  have key : (linClassFit .dummy sr3 a ⟨m, n, A, b + A *ᵥ c, 1, rw, std⟩ (some (x0 + c)) true w).map (·.1) =
      (linClassFit .dummy sr3 a ⟨m, n, A, b, 1, rw, std⟩ (some x0) true w).map (fun r => r.1 + c) := by
    have e1 := linFit_eq_solve (linClass .dummy sr3 a) ⟨m, n, A, b + A *ᵥ c, 1, rw, std⟩ (some (x0 + c)) true w
    have e2 := linFit_eq_solve (linClass .dummy sr3 a) ⟨m, n, A, b, 1, rw, std⟩ (some x0) true w
    have key := linSolve_shift (linClass .dummy sr3 a) A b c x0
    change (linFit (linClass .dummy sr3 a) ⟨m, n, A, b + A *ᵥ c, 1, rw, std⟩ (some (x0 + c)) true w).map (·.1) =
      (linFit (linClass .dummy sr3 a) ⟨m, n, A, b, 1, rw, std⟩ (some x0) true w).map (fun r => r.1 + c)
    rw [e1, e2]
    change ((linSolve (linClass .dummy sr3 a) A (b + A *ᵥ c) 1 dummyRegularizer (x0 + c) >>= fun r =>
      logIC r.2 (sr3Aic A (b + A *ᵥ c) r.1) (sr3Bic A (b + A *ᵥ c) r.1) >>= fun L => pure (r.1, L)) : Except PyErr _).map _ =
      (linSolve (linClass .dummy sr3 a) A b 1 dummyRegularizer x0 >>= fun r => logIC r.2 (sr3Aic A b r.1) (sr3Bic A b r.1) >>= fun L => pure (r.1, L)).map _
    rw [key]
    cases linSolve (linClass .dummy sr3 a) A b 1 dummyRegularizer x0 with
    | error e => rfl
    | ok r =>
      change ((logIC (r.2.mapKey (moveVal (· + c) id)) (sr3Aic A (b + A *ᵥ c) (r.1 + c)) (sr3Bic A (b + A *ᵥ c) (r.1 + c)) >>= fun L => pure (r.1 + c, L)) : Except PyErr _).map _ =
        (logIC r.2 (sr3Aic A b r.1) (sr3Bic A b r.1) >>= fun L => pure (r.1, L)).map _
      rw [logIC_mapKey _ fun v => ⟨rfl, rfl⟩]
      have h := logIC_values r.2 (sr3Aic A (b + A *ᵥ c) (r.1 + c)) (sr3Bic A (b + A *ᵥ c) (r.1 + c)) (sr3Aic A b r.1) (sr3Bic A b r.1)
      revert h
      cases logIC r.2 (sr3Aic A (b + A *ᵥ c) (r.1 + c)) (sr3Bic A (b + A *ᵥ c) (r.1 + c)) <;>
        cases logIC r.2 (sr3Aic A b r.1) (sr3Bic A b r.1) <;> intro h <;> cases h <;> rfl
  refine ⟨key, fun r r' h h' m' B => ?_⟩
  rw [h, h'] at key
  have e : r'.1 = r.1 + c := by simpa [Except.map] using key
  unfold linPredict
  simp only [dite_true]
  rw [e, mulVec_add]
  rfl

/-- Non-vacuity of C184: the fits return and differ by the given combination. -/
example (A : Matrix (Fin 3) (Fin 2) ℝ) (b : Vec ℝ 3) : ∃ x L L', linClassFit .dummy true {} ⟨3, 2, A, b, 1, none, .none⟩ (some ![1, 2]) true none = .ok (x, L) ∧
    linClassFit .dummy true {} ⟨3, 2, A, b + A *ᵥ ![5, -7], 1, none, .none⟩ (some ![6, -5]) true none = .ok (![x 0 + 5, x 1 - 7], L') := by
  obtain ⟨x, L, h⟩ := C110_returns_partial .dummy true {} rfl rfl (by simp) (fun _ => one_pos) ⟨3, 2, A, b, 1, none, .none⟩ rfl (some ![1, 2]) true none trivial
  obtain ⟨x', L', h'⟩ := C110_returns_partial .dummy true {} rfl rfl (by simp) (fun _ => one_pos) ⟨3, 2, A, b + A *ᵥ ![5, -7], 1, none, .none⟩ rfl (some ![6, -5]) true none trivial
  have key := (C184_linear true {} A b none .none ![1, 2] none ![5, -7]).1
  have e0 : (![1, 2] + ![5, -7] : Vec ℝ 2) = ![6, -5] := by
    funext i
    fin_cases i <;> norm_num
  rw [e0, h, h'] at key
  have e : x' = x + ![5, -7] := by simpa [Except.map] using key
  refine ⟨x, L, L', h, h'.trans ?_⟩
  rw [e]
  congr 2
  funext i
  fin_cases i
  · rfl
  · exact (sub_eq_add_neg _ _).symm

end Verif
