import Verif.Props.Floats
import Verif.Lemmas.Solver
import Mathlib.Algebra.BigOperators.Fin

/-!
# The floating-point model with exact arithmetic is the exact model (C130)
-/

namespace Verif

open Matrix

/-- An array of finite floats. -/
def liftV {n : ℕ} (x : Vec ℝ n) : Vec Flt n := fun i => .fin (x i)

theorem exact_ofReal (r : ℝ) : exactArith.ofReal r = .fin r := by
  unfold FArith.ofReal
  rw [if_pos]
  · rfl
  · exact le_top

theorem exact_sum {n : ℕ} (v : Vec ℝ n) : exactArith.sum n (liftV v) = .fin (∑ i, v i) := by
  show foldSum _ n _ = _
  induction n with
  | zero => simp only [foldSum, Finset.univ_eq_empty, Finset.sum_empty]; rfl
  | succ n ih =>
    cases n with
    | zero =>
      show liftV v 0 = Flt.fin (∑ i : Fin 1, v i)
      rw [Fin.sum_univ_one]
      rfl
    | succ n =>
      rw [foldSum, Fin.sum_univ_castSucc]
      have := ih fun i => v i.castSucc
      unfold liftV at this ⊢
      rw [this]
      exact exact_ofReal _

theorem exact_dot {n : ℕ} (x y : Vec ℝ n) : exactArith.dot (liftV x) (liftV y) = .fin (dot x y) := by
  unfold FArith.dot dot
  rw [← exact_sum]
  refine congrArg _ (funext fun i => ?_)
  exact exact_ofReal _

theorem exact_norm {n : ℕ} (x : Vec ℝ n) : exactArith.norm (liftV x) = .fin (Real.sqrt (normSq x)) := by
  unfold FArith.norm
  rw [exact_dot]
  have h : dot x x = normSq x := by
    unfold dot normSq
    exact Finset.sum_congr rfl fun i _ => (sq (x i)).symm
  have h0 : 0 ≤ normSq x := Finset.sum_nonneg fun i _ => sq_nonneg _
  rw [h]
  show (if normSq x < 0 then _ else _) = _
  rw [if_neg (by linarith)]
  exact exact_ofReal _

theorem exact_sub {n : ℕ} (x y : Vec ℝ n) : (fun i => exactArith.sub (liftV x i) (liftV y i)) = liftV (x - y) := by
  funext i
  show exactArith.ofReal (x i + -y i) = _
  rw [exact_ofReal]
  show Flt.fin _ = Flt.fin (x i - y i)
  rw [sub_eq_add_neg]

theorem exact_move {n : ℕ} (x d : Vec ℝ n) (s : ℝ) : flMove exactArith (liftV x) (liftV d) s = liftV (x + s • d) := by
  funext i
  show exactArith.add (.fin (x i)) (exactArith.ofReal (s * d i)) = _
  rw [exact_ofReal]
  exact exact_ofReal _

/-- A problem of the exact model: methods without internal state that do not raise. -/
structure PureProblem (n : ℕ) where
  value : Vec ℝ n → ℝ
  grad : Vec ℝ n → Vec ℝ n
  prox : Vec ℝ n → ℝ → Vec ℝ n

/-- The oracle of such a problem. -/
def PureProblem.oracle {n : ℕ} (Q : PureProblem n) : Oracle ℝ n Unit := ⟨fun x => pure (Q.value x), fun x => pure (Q.grad x)⟩

/-- Its regularizer. -/
def PureProblem.reg {n : ℕ} (Q : PureProblem n) : Regularizer ℝ n := ⟨fun _ => .ok 0, fun x s => .ok (Q.prox x s)⟩

/-- `P` computes on finite floats what `Q` computes on numbers. -/
structure Computes {n : ℕ} (P : FlProblem n) (Q : PureProblem n) : Prop where
  value : ∀ x, P.value (liftV x) = .fin (Q.value x)
  grad : ∀ x, P.grad (liftV x) = liftV (Q.grad x)
  prox : ∀ x s, P.prox (liftV x) (.fin s) = liftV (Q.prox x s)

variable {n : ℕ} {P : FlProblem n} {Q : PureProblem n} (h : Computes P Q)

include h

theorem exact_accept (x d : Vec ℝ n) (s : ℝ) (hs : 0 < s) (z : Vec ℝ n) :
    flAccept exactArith P (liftV x) (liftV d) (liftV z) s ↔ Accept (Q.value z) (Q.value x) x d z s := by
  unfold flAccept Accept
  simp only [exact_sub, exact_dot, exact_norm, h.value]
  have h0 : 0 ≤ normSq (z - x) := Finset.sum_nonneg fun i _ => sq_nonneg _
  have e1 : exactArith.sub (.fin (Q.value x)) (.fin (dot d (z - x))) = .fin (Q.value x - dot d (z - x)) := by
    show exactArith.ofReal _ = _
    rw [exact_ofReal]
    congr 1
  have e2 : exactArith.mul (.fin 2) (.fin s) = .fin (2 * s) := exact_ofReal _
  have e3 : exactArith.div 1 (.fin (2 * s)) = .fin (1 / (2 * s)) := by
    show (if 2 * s = 0 then _ else _) = _
    rw [if_neg (by linarith)]
    exact exact_ofReal _
  have e4 : exactArith.mul (.fin (Real.sqrt (normSq (z - x)))) (.fin (Real.sqrt (normSq (z - x)))) = .fin (normSq (z - x)) := by
    show exactArith.ofReal _ = _
    rw [Real.mul_self_sqrt h0, exact_ofReal]
  have e5 : exactArith.mul (.fin (1 / (2 * s))) (.fin (normSq (z - x))) = .fin (1 / (2 * s) * normSq (z - x)) := exact_ofReal _
  have e6 : exactArith.add (.fin (Q.value x - dot d (z - x))) (.fin (1 / (2 * s) * normSq (z - x))) = .fin (Q.value x - dot d (z - x) + 1 / (2 * s) * normSq (z - x)) :=
    exact_ofReal _
  rw [e1, e2, e3, e4, e5, e6]
  exact Iff.rfl

theorem exact_lineSearch (x d : Vec ℝ n) (s : ℝ) : lineSearch Q.oracle Q.reg x d s () = .ok (flLineSearch exactArith P (liftV x) (liftV d) s, ()) := by
  induction hm : ⌈s * 10 ^ 14⌉₊ using Nat.strong_induction_on generalizing s with
  | _ m ih =>
    rw [lineSearch, flLineSearch]
    have hr : exactArith.rnd (1 / 10 ^ 14) = 1 / 10 ^ 14 := rfl
    by_cases hs : s > 1 / 10 ^ 14
    · have hs' : exactArith.rnd (1 / 10 ^ 14) < s := by rw [hr]; exact hs
      have hpos : 0 < s := lt_trans (by positivity) hs
      rw [dif_pos hs, dif_pos hs', exact_move, h.prox]
      have key := exact_accept h x d s hpos (Q.prox (x + s • d) s)
      show (if Accept (Q.value (Q.prox (x + s • d) s)) (Q.value x) x d (Q.prox (x + s • d) s) s then (pure s : PyM Unit ℝ) else _) () = _
      by_cases ha : Accept (Q.value (Q.prox (x + s • d) s)) (Q.value x) x d (Q.prox (x + s • d) s) s
      · rw [if_pos ha, if_pos (key.2 ha)]; rfl
      · rw [if_neg ha, if_neg fun hc => ha (key.1 hc)]
        refine ih _ ?_ _ rfl
        rw [← hm]
        exact halving_lt s hs
    · rw [dif_neg hs, dif_neg (by rw [hr]; exact hs)]; rfl

theorem exact_body (cfg : PGDCfg ℝ) (x0 x : Vec ℝ n) (it : ℕ) (L : Logger (PyVal ℝ n)) (hL : L.keys = []) :
    ∃ x', pgdBody Q.oracle Q.reg cfg x0 x it L () = .ok ((x', L), ()) ∧
      flBody exactArith P ⟨.fin cfg.tol, cfg.maxIter, cfg.stepping, cfg.fixedStepLen⟩ (liftV x) = liftV x' := by
  have hneg : (fun i => (P.grad (liftV x) i).neg) = liftV (-Q.grad x) := by
    rw [h.grad]; rfl
  have hlog : ∀ vars y, logBlock Q.oracle Q.reg L y vars () = .ok (L, ()) := by
    intro vars y
    unfold logBlock
    simp [hL]
    rfl
  unfold flBody
  simp only [hneg]
  by_cases hc : cfg.stepping = "line-search"
  · rw [if_pos hc, exact_move, h.prox]
    refine ⟨_, ?_, rfl⟩
    have hch : ∀ d, chooseStep Q.oracle Q.reg cfg x d = lineSearch Q.oracle Q.reg x d cfg.fixedStepLen := fun d => by unfold chooseStep; rw [if_pos hc]
    unfold pgdBody
    simp only [hch]
    show Except.bind (lineSearch Q.oracle Q.reg x (-Q.grad x) cfg.fixedStepLen ()) _ = _
    rw [exact_lineSearch h]
    show Except.bind (logBlock Q.oracle Q.reg L _ _ ()) _ = _
    rw [hlog]
    rfl
  · rw [if_neg hc, exact_move, h.prox]
    refine ⟨_, ?_, rfl⟩
    have hch : ∀ d, chooseStep Q.oracle Q.reg cfg x d = pure cfg.fixedStepLen := fun d => by unfold chooseStep; rw [if_neg hc]
    unfold pgdBody
    simp only [hch]
    show Except.bind (logBlock Q.oracle Q.reg L _ _ ()) _ = _
    rw [hlog]
    rfl

/-- The configuration of the exact model as a configuration of the float model. -/
def PGDCfg.toFl (cfg : PGDCfg ℝ) : FlCfg := ⟨.fin cfg.tol, cfg.maxIter, cfg.stepping, cfg.fixedStepLen⟩

omit h in
theorem exact_far (cfg : PGDCfg ℝ) (x y : Vec ℝ n) : flFar exactArith cfg.toFl (liftV x) (liftV y) ↔ farApart cfg.tol (some y) x := by
  unfold flFar farApart
  rw [exact_sub, exact_norm]
  show cfg.tol < _ ↔ _
  have h0 : 0 ≤ normSq (x - y) := Finset.sum_nonneg fun i _ => sq_nonneg _
  rcases lt_or_ge cfg.tol 0 with ht | ht
  · exact ⟨fun _ => .inl ht, fun _ => lt_of_lt_of_le ht (Real.sqrt_nonneg _)⟩
  · rw [Real.lt_sqrt ht]
    exact ⟨.inr, fun h => h.resolve_left (by linarith)⟩

omit h in
theorem exact_far_start (cfg : PGDCfg ℝ) (x : Vec ℝ n) : flFar exactArith cfg.toFl (liftV x) (fun _ => .pinf) ↔ farApart cfg.tol none x := by
  unfold flFar farApart FArith.norm FArith.dot
  show cfg.toFl.tol.lt _ ↔ 0 < n ∨ cfg.tol < 0
  rcases Nat.eq_zero_or_pos n with rfl | hn
  · have e : exactArith.sum 0 (fun i => exactArith.mul (exactArith.sub (liftV x i) .pinf) (exactArith.sub (liftV x i) .pinf)) = .fin 0 := rfl
    rw [e]
    show cfg.toFl.tol.lt (if (0 : ℝ) < 0 then _ else _) ↔ _
    rw [if_neg (lt_irrefl _), Real.sqrt_zero, exact_ofReal]
    exact ⟨.inr, fun h => h.resolve_left (lt_irrefl 0)⟩
  · have e : exactArith.sum n (fun i => exactArith.mul (exactArith.sub (liftV x i) .pinf) (exactArith.sub (liftV x i) .pinf)) = .pinf :=
      exactArith.sum_pinf _ _ (fun i => trivial) ⟨⟨0, hn⟩, rfl⟩
    rw [e]
    exact ⟨fun _ => .inl hn, fun _ => trivial⟩

theorem exact_loop (cfg : PGDCfg ℝ) (x0 : Vec ℝ n) (L : Logger (PyVal ℝ n)) (hL : L.keys = []) :
    ∀ (m it : ℕ) (x : Vec ℝ n) (xprev : Option (Vec ℝ n)) (yprev : Vec Flt n), (cfg.maxIter - it).toNat = m →
      (flFar exactArith cfg.toFl (liftV x) yprev ↔ farApart cfg.tol xprev x) →
      ∃ x' it', pgdLoop Q.oracle Q.reg cfg x0 x xprev it L () = .ok ((x', it', L), ()) ∧ flLoop exactArith P cfg.toFl (liftV x) yprev it = (liftV x', it') := by
  intro m
  induction m with
  | zero =>
    intro it x xprev yprev hm _
    refine ⟨x, it, ?_, ?_⟩
    · rw [pgdLoop, dif_neg (by omega)]; rfl
    · have : ¬ (it : ℤ) < cfg.toFl.maxIter := by
        show ¬ (it : ℤ) < cfg.maxIter
        omega
      rw [flLoop, dif_neg fun h => this h.2]
  | succ m ih =>
    intro it x xprev yprev hm hf
    by_cases hc : farApart cfg.tol xprev x ∧ (it : ℤ) < cfg.maxIter
    · obtain ⟨x1, h1, h2⟩ := exact_body h cfg x0 x it L hL
      obtain ⟨x', it', h3, h4⟩ := ih (it + 1) x1 (some x) (liftV x) (by push_cast; omega) (exact_far cfg x1 x)
      refine ⟨x', it', ?_, ?_⟩
      · rw [pgdLoop, dif_pos hc]
        show Except.bind (pgdBody Q.oracle Q.reg cfg x0 x it L ()) _ = _
        rw [h1]
        exact h3
      · have hb : flBody exactArith P cfg.toFl (liftV x) = liftV x1 := h2
        rw [flLoop, dif_pos (show _ ∧ (it : ℤ) < cfg.toFl.maxIter from ⟨hf.2 hc.1, hc.2⟩), hb]
        exact h4
    · refine ⟨x, it, ?_, ?_⟩
      · rw [pgdLoop, dif_neg hc]; rfl
      · rw [flLoop, dif_neg fun hh : _ ∧ (it : ℤ) < cfg.toFl.maxIter => hc ⟨hf.1 hh.1, hh.2⟩]

/-- **C130 (the float model against the exact one).** With exact arithmetic the float solver is the solver of the exact model: the same point, the same `iteration`, the same `converged`. -/
theorem C130_exact (cfg : PGDCfg ℝ) (x0 : Vec ℝ n) :
    ∃ x L', pgdOptimize Q.oracle Q.reg cfg x0 (Logger.init .tuple []) () = .ok ((x, L'), ()) ∧
      (flOptimize exactArith P cfg.toFl (liftV x0)).x = liftV x ∧
      L'.get "converged" = .ok (.atom (.bool (flOptimize exactArith P cfg.toFl (liftV x0)).converged)) ∧
      L'.get "iteration" = .ok (.atom (.int (flOptimize exactArith P cfg.toFl (liftV x0)).iteration)) := by
  obtain ⟨x, it, h1, h2⟩ := exact_loop h cfg x0 (Logger.init .tuple []) rfl _ 0 x0 none (fun _ => .pinf) rfl (exact_far_start cfg x0)
  have hlog : logBlock Q.oracle Q.reg (Logger.init .tuple [] : Logger (PyVal ℝ n)) x0 (localsInit x0) () = .ok (Logger.init .tuple [], ()) := by
    unfold logBlock
    simp [Logger.init]
    rfl
  have hr : flOptimize exactArith P cfg.toFl (liftV x0) = ⟨liftV x, it, decide ((it : ℤ) < cfg.maxIter)⟩ := by
    unfold flOptimize
    rw [h2]
    rfl
  rw [hr]
  refine ⟨x, ⟨.tuple, ["converged", "iteration"], Function.update (Function.update (Logger.init .tuple [] : Logger (PyVal ℝ n)).dict "converged"
    (some (.atom (.bool (decide ((it : ℤ) < cfg.maxIter)))))) "iteration" (some (.atom (.int it)))⟩, ?_, rfl, ?_, ?_⟩
  · unfold pgdOptimize
    refine bind_ok.2 ⟨_, _, hlog, bind_ok.2 ⟨_, _, h1, ?_⟩⟩
    rfl
  · simp [Logger.get]
  · simp [Logger.get]

omit h in
/-- The loss and the gradient of the float linear model compute those of the exact one. -/
theorem exact_linear {m : ℕ} (a : Matrix (Fin m) (Fin n) ℝ) (b : Vec ℝ m) :
    Computes (⟨flLinLoss exactArith (fun i => liftV (a i)) (liftV b), flLinGradient exactArith (fun i => liftV (a i)) (liftV b), flDummy⟩ : FlProblem n)
      ⟨linLoss a b .nonInformative, linGradient a b .nonInformative, fun x _ => x⟩ := by
  have hres : ∀ x : Vec ℝ n, flResidual exactArith (fun i => liftV (a i)) (liftV b) (liftV x) = liftV (a *ᵥ x - b) := by
    intro x
    rw [← exact_sub]
    funext i
    unfold flResidual
    rw [exact_dot]
    rfl
  refine ⟨fun x => ?_, fun x => ?_, fun x s => rfl⟩
  · have h0 : 0 ≤ normSq (a *ᵥ x - b) := Finset.sum_nonneg fun i _ => sq_nonneg _
    show flLinLoss exactArith _ _ (liftV x) = _
    unfold flLinLoss
    rw [hres, exact_norm, exact_ofReal]
    show exactArith.add (exactArith.mul _ (exactArith.ofReal _)) _ = _
    rw [Real.mul_self_sqrt h0, exact_ofReal]
    show exactArith.add (exactArith.ofReal _) _ = _
    rw [exact_ofReal]
    show exactArith.ofReal _ = _
    rw [exact_ofReal]
    rfl
  · funext j
    show flLinGradient exactArith _ _ (liftV x) j = _
    unfold flLinGradient
    rw [hres, show (fun i => liftV (a i) j) = liftV (fun i => a i j) from rfl, exact_dot]
    show exactArith.ofReal _ = _
    rw [exact_ofReal]
    rfl

omit h in
/-- The float model of `SimpleLinearModel.fit` with exact arithmetic is the exact fit, for every data matrix. -/
example (a : Matrix (Fin 3) (Fin 2) ℝ) (b : Vec ℝ 3) :
    ∃ x L', pgdOptimize (PureProblem.oracle ⟨linLoss a b .nonInformative, linGradient a b .nonInformative, fun x _ => x⟩)
        (PureProblem.reg ⟨linLoss a b .nonInformative, linGradient a b .nonInformative, fun x _ => x⟩) ⟨1 / 10 ^ 5, 1000, "line-search", 5 / 100⟩ (fun _ => 1) (Logger.init .tuple []) () =
          .ok ((x, L'), ()) ∧
      (flSimpleFit exactArith (fun i => liftV (a i)) (liftV b) ⟨.fin (1 / 10 ^ 5), 1000, "line-search", 5 / 100⟩).x = liftV x := by
  obtain ⟨x, L', h1, h2, -⟩ := C130_exact (exact_linear a b) ⟨1 / 10 ^ 5, 1000, "line-search", 5 / 100⟩ (fun _ => 1)
  exact ⟨x, L', h1, h2⟩

omit h in
/-- **C130 (the float model of `SimpleLinearModel.fit` against the exact one).** With exact arithmetic it is the run of the exact model, with the oracle and the regularizer of the plain linear model,
for every data matrix and all settings: the same coefficients and the same flag `converged`. -/
theorem C130_simple_fit {m : ℕ} (a : Matrix (Fin m) (Fin n) ℝ) (b : Vec ℝ m) (cfg : PGDCfg ℝ) :
    ∃ x L', pgdOptimize (linOracle a b .nonInformative) dummyRegularizer cfg (fun _ => 1) (Logger.init .tuple []) () = .ok ((x, L'), ()) ∧
      (flSimpleFit exactArith (fun i => liftV (a i)) (liftV b) cfg.toFl).x = liftV x ∧
      L'.get "converged" = .ok (.atom (.bool (flSimpleFit exactArith (fun i => liftV (a i)) (liftV b) cfg.toFl).converged)) := by
  obtain ⟨x, L', h1, h2, h3, -⟩ := C130_exact (exact_linear a b) cfg (fun _ => 1)
  exact ⟨x, L', h1, h2, h3⟩

end Verif
