import Verif.Lemmas.Solver
import Verif.Props.Wrappers
import Mathlib.Data.Rat.Floor
import Mathlib.Tactic.FinCases

/-!
# Properties of the proximal gradient solver: C16–C22
-/

namespace Verif

variable {K : Type} [Field K] [LinearOrder K] [IsStrictOrderedRing K] [FloorSemiring K] {n : ℕ} {σ : Type}

/-! ## C16: iteration counts -/

/-- Run a computation beside a counter it does not touch. -/
def liftC {α : Type} (m : PyM σ α) : PyM (σ × ℕ) α := fun s => (m s.1).map fun r => (r.1, (r.2, s.2))

theorem liftC_bind {α β : Type} (m : PyM σ α) (f : α → PyM σ β) : liftC (m >>= f) = liftC m >>= fun a => liftC (f a) := by
  funext s
  show Except.map _ (m s.1 >>= fun p => f p.1 p.2) = (liftC m s >>= fun p => liftC (f p.1) p.2)
  unfold liftC
  cases m s.1 with
  | error e => rfl
  | ok r => rfl

theorem liftC_pure {α : Type} (a : α) : liftC (pure a : PyM σ α) = pure a := rfl

theorem liftC_callReg {α : Type} (r : Except PyErr α) : liftC (callReg r : PyM σ α) = callReg r := by
  funext s
  cases r <;> rfl

omit [IsStrictOrderedRing K] [FloorSemiring K] in
theorem counted_value (o : Oracle K n σ) (x : Vec K n) : o.counted.value x = liftC (o.value x) := rfl

theorem counted_lineSearch (o : Oracle K n σ) (R : Regularizer K n) (x d : Vec K n) (step : K) :
    lineSearch o.counted R x d step = liftC (lineSearch o R x d step) := by
  induction step using lineSearch.induct (K := K) with
  | case1 step hstep ih =>
    rw [lineSearch.eq_def o.counted R x d step, dif_pos hstep, lineSearch.eq_def o R x d step, dif_pos hstep]
    simp only [liftC_bind, liftC_callReg, counted_value]
    congr 1; funext z; congr 1; funext fz; congr 1; funext fx
    split_ifs
    · rfl
    · exact ih
  | case2 step hstep =>
    rw [lineSearch.eq_def o.counted R x d step, dif_neg hstep, lineSearch.eq_def o R x d step, dif_neg hstep, liftC_pure]

theorem counted_chooseStep (o : Oracle K n σ) (R : Regularizer K n) (cfg : PGDCfg K) (x d : Vec K n) :
    chooseStep o.counted R cfg x d = liftC (chooseStep o R cfg x d) := by
  unfold chooseStep
  split_ifs
  · exact counted_lineSearch _ _ _ _ _
  · rfl

omit [IsStrictOrderedRing K] [FloorSemiring K] in
theorem counted_logBlock (o : Oracle K n σ) (R : Regularizer K n) (L : Logger (PyVal K n)) (x : Vec K n)
    (vars : String → Option (PyVal K n)) : logBlock o.counted R L x vars = liftC (logBlock o R L x vars) := by
  unfold logBlock
  rw [liftC_bind]
  congr 1
  · split_ifs
    · unfold lossAt
      simp only [liftC_bind, liftC_callReg, counted_value, liftC_pure, bind_assoc, pure_bind]
    · rfl
  · funext l
    split_ifs
    · rw [liftC_callReg]
    · rfl

theorem counted_body (o : Oracle K n σ) (R : Regularizer K n) (cfg : PGDCfg K) (x0 x : Vec K n) (it : ℕ) (L : Logger (PyVal K n))
    (s : σ) (c : ℕ) : pgdBody o.counted R cfg x0 x it L (s, c) =
      (pgdBody o R cfg x0 x it L s).map fun r => (r.1, (r.2, c + 1)) := by
  have h : pgdBody o.counted R cfg x0 x it L = o.counted.grad x >>= fun g => liftC (do
      let step ← chooseStep o R cfg x (-g)
      let x' ← callReg (R.prox (x + step • (-g)) step)
      let L' ← logBlock o R L x' (localsIter x0 x (-g) (x + step • (-g)) x' step (it + 1))
      return (x', L')) := by
    unfold pgdBody
    congr 1; funext g
    simp only [liftC_bind, liftC_callReg, counted_logBlock, counted_chooseStep, liftC_pure]
  rw [h]
  unfold pgdBody
  simp only [bind, StateT.bind, Oracle.counted]
  cases o.grad x s with
  | error e => rfl
  | ok r => rfl

theorem counted_loop (o : Oracle K n σ) (R : Regularizer K n) (cfg : PGDCfg K) (x0 x : Vec K n) (xprev : Option (Vec K n)) (it : ℕ)
    (L : Logger (PyVal K n)) (s : σ) (c : ℕ) (hc : it ≤ c) :
    pgdLoop o.counted R cfg x0 x xprev it L (s, c) =
      (pgdLoop o R cfg x0 x xprev it L s).map fun r => (r.1, (r.2, c - it + r.1.2.1)) := by
  induction x, xprev, it, L using pgdLoop.induct (cfg := cfg) generalizing s c with
  | case1 x xprev it L hg ih =>
    rw [pgdLoop.eq_def o.counted, dif_pos hg, pgdLoop.eq_def o, dif_pos hg]
    show (pgdBody o.counted R cfg x0 x it L (s, c) >>= fun p => pgdLoop o.counted R cfg x0 p.1.1 (some x) (it + 1) p.1.2 p.2) =
      Except.map _ (pgdBody o R cfg x0 x it L s >>= fun p => pgdLoop o R cfg x0 p.1.1 (some x) (it + 1) p.1.2 p.2)
    rw [counted_body]
    cases pgdBody o R cfg x0 x it L s with
    | error e => rfl
    | ok r =>
      obtain ⟨⟨x', L'⟩, s'⟩ := r
      have := ih (x', L') s' (c + 1) (by omega)
      rw [show c + 1 - (it + 1) = c - it by omega] at this
      exact this
  | case2 x xprev it L hg =>
    rw [pgdLoop.eq_def o.counted, dif_neg hg, pgdLoop.eq_def o, dif_neg hg]
    show Except.ok ((x, it, L), (s, c)) = Except.ok ((x, it, L), (s, c - it + it))
    rw [Nat.sub_add_cancel hc]

/-- The counter is transparent: it does not change what `optimize` does, and ends up increased by the number of passes. -/
theorem counted_optimize (o : Oracle K n σ) (R : Regularizer K n) (cfg : PGDCfg K) (x0 : Vec K n) (L : Logger (PyVal K n)) (s s' : σ)
    (c c' : ℕ) (x : Vec K n) (Lf : Logger (PyVal K n))
    (h : pgdOptimize o.counted R cfg x0 L (s, c) = .ok ((x, Lf), (s', c'))) :
    pgdOptimize o R cfg x0 L s = .ok ((x, Lf), s') ∧
    ∃ k : ℕ, c' = c + k ∧ Lf.get "iteration" = .ok (.atom (.int k)) := by
  unfold pgdOptimize at h
  obtain ⟨L0, ⟨s1, c1⟩, hL0, h⟩ := bind_ok.1 h
  obtain ⟨⟨xr, itr, Lr⟩, ⟨s2, c2⟩, hloop, h⟩ := bind_ok.1 h
  obtain ⟨L1, s3, hL1, h⟩ := bind_ok.1 h
  obtain ⟨L2, s4, hL2, h⟩ := bind_ok.1 h
  obtain ⟨he, hs⟩ := pure_ok.1 h
  obtain ⟨rfl, rfl⟩ := Prod.mk.inj he
  subst hs
  obtain ⟨hA1, rfl⟩ := callReg_ok.1 hL1
  obtain ⟨hA2, he2⟩ := callReg_ok.1 hL2
  obtain ⟨rfl, rfl⟩ := Prod.mk.inj he2
  rw [counted_logBlock] at hL0
  rw [counted_loop _ _ _ _ _ _ _ _ _ _ (Nat.zero_le _)] at hloop
  unfold liftC at hL0
  cases hlb : logBlock o R L x0 (localsInit x0) s with
  | error e => rw [hlb] at hL0; cases hL0
  | ok r =>
    rw [hlb] at hL0
    simp only [Except.map, Except.ok.injEq, Prod.mk.injEq] at hL0
    obtain ⟨rfl, rfl, rfl⟩ := hL0
    cases hlp : pgdLoop o R cfg x0 x0 none 0 r.1 r.2 with
    | error e => rw [hlp] at hloop; cases hloop
    | ok q =>
      rw [hlp] at hloop
      simp only [Except.map, Except.ok.injEq, Prod.mk.injEq] at hloop
      obtain ⟨hq, rfl, rfl⟩ := hloop
      refine ⟨?_, itr, by rw [hq]; simp, (Logger.add_get hA2).1⟩
      unfold pgdOptimize
      refine bind_ok.2 ⟨r.1, r.2, hlb, bind_ok.2 ⟨(xr, itr, Lr), q.2, by rw [hlp, ← hq], ?_⟩⟩
      exact bind_ok.2 ⟨L1, _, callReg_ok.2 ⟨hA1, rfl⟩, bind_ok.2 ⟨L2, _, callReg_ok.2 ⟨hA2, rfl⟩, rfl⟩⟩

/-- **C16.** Attach a counter of gradient evaluations to any oracle. Whenever `optimize` returns, the recorded `iteration` is exactly the number of
prox-gradient steps made (gradient evaluations), and it does not exceed `max_iter`. (That `optimize` always stops is the well-foundedness of the model's
loops; see also `C16_returns`.) -/
theorem C16_iterations_counted (o : Oracle K n σ) (R : Regularizer K n) (cfg : PGDCfg K) (x0 : Vec K n) (L : Logger (PyVal K n)) (s s' : σ)
    (c c' : ℕ) (x : Vec K n) (Lf : Logger (PyVal K n))
    (h : pgdOptimize o.counted R cfg x0 L (s, c) = .ok ((x, Lf), (s', c'))) :
    c ≤ c' ∧ ((c' - c : ℕ) : ℤ) ≤ max cfg.maxIter 0 ∧ Lf.get "iteration" = .ok (.atom (.int (c' - c))) := by
  obtain ⟨h1, k, rfl, hk⟩ := counted_optimize _ _ _ _ _ _ _ _ _ _ _ h
  obtain ⟨k', X, Ls, s1, L1, _, _, _, _, hit, _, hguards, _⟩ := pgdOptimize_trace o R cfg x0 L (fun _ _ _ _ => True)
    (fun _ _ _ _ _ _ _ _ => trivial) s s' x Lf h1
  have hkk : k' = k := by
    have := (Logger.add_get hit).1
    rw [hk] at this
    simpa using this.symm
  subst hkk
  refine ⟨by omega, ?_, by rw [Nat.add_sub_cancel_left]; exact hk⟩
  rw [Nat.add_sub_cancel_left]
  cases k' with
  | zero => simp
  | succ j =>
    have := (hguards j (by omega)).2
    push_cast at this ⊢
    omega

/-- A value of the logger the solver can use: tuple of distinct keys. -/
theorem logBlock_returns (o : Oracle K n σ) (R : Regularizer K n) (f : Vec K n → K) (g : Vec K n → WithTop K) (hf : o.Values f)
    (hg : ∀ x, R.value x = .ok (g x)) (L : Logger (PyVal K n)) (hL : L.Good) (x : Vec K n) (vars : String → Option (PyVal K n)) (s : σ) :
    ∃ L' s', logBlock o R L x vars s = .ok (L', s') ∧ L'.Good ∧ L'.keys = L.keys ∧
      ("loss" ∈ L.keys → L'.dict "loss" = (L.dict "loss").map (logEffect (some (PyVal.num ((f x : WithTop K) + g x))))) := by
  unfold logBlock
  by_cases hl : "loss" ∈ L.keys
  · simp only [hl, if_true]
    obtain ⟨s', hs'⟩ := hf x s
    have hpos : L.keys.length > 0 := List.length_pos_of_mem hl
    simp only [hpos, if_true]
    obtain ⟨L', h1, h2, h3, h4⟩ := hL.log fun k => if k = "loss" then some (PyVal.num ((f x : WithTop K) + g x)) else vars k
    refine ⟨L', s', ?_, h2, h3, fun _ => ?_⟩
    · refine bind_ok.2 ⟨some (PyVal.num ((f x : WithTop K) + g x)), s', ?_, callReg_ok.2 ⟨h1, rfl⟩⟩
      refine bind_ok.2 ⟨(f x : WithTop K) + g x, s', ?_, rfl⟩
      exact bind_ok.2 ⟨f x, s', hs', bind_ok.2 ⟨g x, s', callReg_ok.2 ⟨hg x, rfl⟩, rfl⟩⟩
    · rw [h4]; simp
  · simp only [hl, if_false]
    split_ifs with hpos
    · obtain ⟨L', h1, h2, h3, h4⟩ := hL.log fun k => if k = "loss" then none else vars k
      exact ⟨L', s, bind_ok.2 ⟨none, s, rfl, callReg_ok.2 ⟨h1, rfl⟩⟩, h2, h3, fun h => absurd h (by simp)⟩
    · exact ⟨L, s, bind_ok.2 ⟨none, s, rfl, rfl⟩, hL, rfl, fun h => absurd h (by simp)⟩

theorem lineSearch_returns (o : Oracle K n σ) (R : Regularizer K n) (f : Vec K n → K) (hf : o.Values f)
    (hp : ∀ y t, ∃ z, R.prox y t = .ok z) (x d : Vec K n) (step : K) (s : σ) :
    ∃ t s', lineSearch o R x d step s = .ok (t, s') := by
  induction step using lineSearch.induct (K := K) generalizing s with
  | case1 step hstep ih =>
    rw [lineSearch, dif_pos hstep]
    obtain ⟨z, hz⟩ := hp (x + step • d) step
    obtain ⟨s1, h1⟩ := hf z s
    obtain ⟨s2, h2⟩ := hf x s1
    by_cases hacc : Accept (f z) (f x) x d z step
    · exact ⟨step, s2, bind_ok.2 ⟨z, s, callReg_ok.2 ⟨hz, rfl⟩, bind_ok.2 ⟨_, s1, h1, bind_ok.2 ⟨_, s2, h2, by rw [if_pos hacc]; rfl⟩⟩⟩⟩
    · obtain ⟨t, s', hh⟩ := ih s2
      exact ⟨t, s', bind_ok.2 ⟨z, s, callReg_ok.2 ⟨hz, rfl⟩, bind_ok.2 ⟨_, s1, h1, bind_ok.2 ⟨_, s2, h2, by rw [if_neg hacc]; exact hh⟩⟩⟩⟩
  | case2 step hstep =>
    rw [lineSearch, dif_neg hstep]
    exact ⟨step, s, rfl⟩

/-- **C16**, the run always ends with a result: for an oracle and a regularizer that do not raise and a logger with a tuple of distinct keys. -/
theorem C16_returns (o : Oracle K n σ) (R : Regularizer K n) (f : Vec K n → K) (gr : Vec K n → Vec K n) (g : Vec K n → WithTop K)
    (hf : o.Values f) (hgr : o.Grads gr) (hg : ∀ x, R.value x = .ok (g x)) (hp : ∀ y t, ∃ z, R.prox y t = .ok z)
    (cfg : PGDCfg K) (x0 : Vec K n) (L : Logger (PyVal K n)) (hL : L.Good) (s : σ) :
    ∃ x Lf s', pgdOptimize o R cfg x0 L s = .ok ((x, Lf), s') := by
  have hloop : ∀ (x : Vec K n) (xprev : Option (Vec K n)) (it : ℕ) (L : Logger (PyVal K n)), L.Good → ∀ s,
      ∃ r s', pgdLoop o R cfg x0 x xprev it L s = .ok (r, s') ∧ r.2.2.Good := by
    intro x xprev it L
    induction x, xprev, it, L using pgdLoop.induct (cfg := cfg) with
    | case1 x xprev it L hgd ih =>
      intro hL s
      rw [pgdLoop, dif_pos hgd]
      obtain ⟨s1, h1⟩ := hgr x s
      have hst : ∃ t s2, chooseStep o R cfg x (-(gr x)) s1 = .ok (t, s2) := by
        unfold chooseStep
        split_ifs
        · exact lineSearch_returns o R f hf hp _ _ _ _
        · exact ⟨_, _, rfl⟩
      obtain ⟨t, s2, h2⟩ := hst
      obtain ⟨x', hx'⟩ := hp (x + t • -(gr x)) t
      obtain ⟨L', s3, h3, hL', _⟩ := logBlock_returns o R f g hf hg L hL x'
        (localsIter x0 x (-(gr x)) (x + t • -(gr x)) x' t (it + 1)) s2
      have hb : pgdBody o R cfg x0 x it L s = .ok ((x', L'), s3) := by
        unfold pgdBody
        exact bind_ok.2 ⟨_, s1, h1, bind_ok.2 ⟨t, s2, h2, bind_ok.2 ⟨x', s2, callReg_ok.2 ⟨hx', rfl⟩, bind_ok.2 ⟨L', s3, h3, rfl⟩⟩⟩⟩
      obtain ⟨r, s', hr, hrg⟩ := ih (x', L') hL' s3
      exact ⟨r, s', bind_ok.2 ⟨_, _, hb, hr⟩, hrg⟩
    | case2 x xprev it L hgd =>
      intro hL s
      rw [pgdLoop, dif_neg hgd]
      exact ⟨_, s, rfl, hL⟩
  obtain ⟨L0, s0, h0, hL0, _⟩ := logBlock_returns o R f g hf hg L hL x0 (localsInit x0) s
  obtain ⟨r, s1, h1, hr⟩ := hloop x0 none 0 L0 hL0 s0
  obtain ⟨L1, h2, hL1, _⟩ := hr.add "converged" (.atom (.bool (decide ((r.2.1 : ℤ) < cfg.maxIter))))
  obtain ⟨L2, h3, _⟩ := hL1.add "iteration" (.atom (.int r.2.1))
  refine ⟨r.1, L2, s1, ?_⟩
  unfold pgdOptimize
  exact bind_ok.2 ⟨L0, s0, h0, bind_ok.2 ⟨r, s1, h1, bind_ok.2 ⟨L1, s1, callReg_ok.2 ⟨h2, rfl⟩,
    bind_ok.2 ⟨L2, s1, callReg_ok.2 ⟨h3, rfl⟩, rfl⟩⟩⟩⟩

/-- The example used below: `f(x) = x²/2` in one variable, no regularizer. -/
def exOracle : Oracle ℚ 1 Unit := Oracle.ofFun (fun x => x 0 ^ 2 / 2) (fun x => x)

theorem exOracle_values : exOracle.Values (fun x => x 0 ^ 2 / 2) := fun _ s => ⟨s, rfl⟩
theorem exOracle_grads : exOracle.Grads (fun x => x) := fun _ s => ⟨s, rfl⟩

/-- Non-vacuity of C16: `optimize` with line search returns on a concrete oracle (and then `C16_iterations_counted` applies). -/
example : ∃ x Lf s', pgdOptimize exOracle dummyRegularizer ⟨1/1000, 100, "line-search", 4⟩ ![3] (Logger.init .tuple ["loss"]) () =
    .ok ((x, Lf), s') :=
  C16_returns exOracle dummyRegularizer _ _ (fun _ => 0) exOracle_values exOracle_grads (fun _ => rfl) (fun y _ => ⟨y, rfl⟩) _ _ _
    (Logger.good_init _ (by simp)) ()

/-! ## C17: the convergence flag -/

/-- **C17.** The recorded flag is honest: `converged = True` (on a non-empty parameter vector) means that the returned point was reached by a
prox-gradient step no longer than `tol`; `converged = False` is reported only if `max_iter` steps were made. -/
theorem C17_converged_flag (o : Oracle K n σ) (R : Regularizer K n) (cfg : PGDCfg K) (x0 : Vec K n) (L : Logger (PyVal K n)) (s s' : σ)
    (x : Vec K n) (Lf : Logger (PyVal K n)) (h : pgdOptimize o R cfg x0 L s = .ok ((x, Lf), s')) :
    ∃ (b : Bool) (k : ℕ), Lf.get "converged" = .ok (.atom (.bool b)) ∧ Lf.get "iteration" = .ok (.atom (.int k)) ∧
      (b = true → 0 < n → ∃ xprev step, ProxGradStep o R step xprev x ∧ DistLE cfg.tol x xprev) ∧
      (b = false → cfg.maxIter ≤ k) := by
  obtain ⟨k, X, Ls, s1, L1, hl0, h0, hk, hc, hit, hsteps, hguards, hend⟩ := pgdOptimize_trace o R cfg x0 L
    (fun x _ x' _ => ∃ step, ProxGradStep o R step x x')
    (fun x it L s x' L' s' hb => by
      obtain ⟨g, s1, step, s2, hg, _, hp, _⟩ := pgdBody_ok _ _ _ _ _ _ _ _ _ _ _ hb
      exact ⟨step, s, g, s1, hg, hp⟩) s s' x Lf h
  refine ⟨decide ((k : ℤ) < cfg.maxIter), k, ?_, (Logger.add_get hit).1, ?_, ?_⟩
  · rw [(Logger.add_get hit).2 _ (by decide)]; exact (Logger.add_get hc).1
  · intro hb hn
    have hb := of_decide_eq_true hb
    have hfar : ¬ farApart cfg.tol (match k with | 0 => none | j + 1 => some (X j)) (X k) := fun hf => hend ⟨hf, by simpa using hb⟩
    cases k with
    | zero => exact absurd (Or.inl hn) hfar
    | succ j =>
      obtain ⟨step, hst⟩ := hsteps j (by omega)
      rw [hk] at hst
      refine ⟨X j, step, hst, ?_⟩
      simp only [farApart, not_or, not_lt] at hfar
      rw [hk] at hfar
      exact hfar
  · intro hb
    simpa using hb

/-- Non-vacuity of C17: see the run of C16; here is a point where the flag's premise can hold: `n = 1`. -/
example : ∃ x Lf s', pgdOptimize exOracle dummyRegularizer ⟨1/1000, 100, "fixed", 1⟩ ![3] (Logger.init .tuple []) () = .ok ((x, Lf), s') :=
  C16_returns exOracle dummyRegularizer _ _ (fun _ => 0) exOracle_values exOracle_grads (fun _ => rfl) (fun y _ => ⟨y, rfl⟩) _ _ _
    (Logger.good_init _ (by simp)) ()

/-! ## C18: the result is a prox output -/

/-- **C18.** If at least one iteration is allowed and the parameter vector is not empty, the returned point is an output of `prox` (with a positive
step if `fixed_step_len` is positive), whatever the oracle answers. -/
theorem C18_result_is_prox_output (o : Oracle K n σ) (R : Regularizer K n) (cfg : PGDCfg K) (x0 : Vec K n) (L : Logger (PyVal K n))
    (s s' : σ) (x : Vec K n) (Lf : Logger (PyVal K n)) (h : pgdOptimize o R cfg x0 L s = .ok ((x, Lf), s'))
    (hn : 0 < n) (hmax : 1 ≤ cfg.maxIter) :
    ∃ y step, R.prox y step = .ok x ∧ (0 < cfg.fixedStepLen → 0 < step) := by
  obtain ⟨k, X, Ls, s1, L1, hl0, h0, hk, hc, hit, hsteps, hguards, hend⟩ := pgdOptimize_trace o R cfg x0 L
    (fun _ _ x' _ => ∃ y step, R.prox y step = .ok x' ∧ (0 < cfg.fixedStepLen → 0 < step))
    (fun x it L s x' L' s' hb => by
      obtain ⟨g, s1, step, s2, hg, hst, hp, _⟩ := pgdBody_ok _ _ _ _ _ _ _ _ _ _ _ hb
      exact ⟨_, step, hp, fun hpos => chooseStep_pos _ _ _ _ _ _ _ _ hpos hst⟩) s s' x Lf h
  cases k with
  | zero => exact absurd ⟨Or.inl hn, by simp; omega⟩ hend
  | succ j =>
    have := hsteps j (by omega)
    rw [hk] at this
    exact this

/-- **C18**, consequence: every set containing all prox outputs (for positive steps) contains the result. -/
theorem C18_invariant_sets (o : Oracle K n σ) (R : Regularizer K n) (cfg : PGDCfg K) (x0 : Vec K n) (L : Logger (PyVal K n))
    (s s' : σ) (x : Vec K n) (Lf : Logger (PyVal K n)) (h : pgdOptimize o R cfg x0 L s = .ok ((x, Lf), s'))
    (hn : 0 < n) (hmax : 1 ≤ cfg.maxIter) (hstep : 0 < cfg.fixedStepLen) (S : Set (Vec K n))
    (hS : ∀ y step z, 0 < step → R.prox y step = .ok z → z ∈ S) : x ∈ S := by
  obtain ⟨y, step, hp, hpos⟩ := C18_result_is_prox_output o R cfg x0 L s s' x Lf h hn hmax
  exact hS y step x (hpos hstep) hp

/-- Non-vacuity of C18: a set which is not everything and contains all prox outputs: the positive quadrant. -/
example : (∀ (y : Vec ℚ (1 + 1)) (step : ℚ) z, 0 < step → (positiveQuadrant (positiveMask 1 1) none).prox y step = .ok z →
    z ∈ {z : Vec ℚ (1 + 1) | 0 ≤ z (Fin.natAdd 1 0)}) ∧ (fun _ => -1) ∉ {z : Vec ℚ (1 + 1) | 0 ≤ z (Fin.natAdd 1 0)} :=
  ⟨fun y step z hs h => (C09_positive_quadrant none (by simp) y z step hs.le h).1 0, by simp⟩

/-! ## C19: line search -/

/-- **C19.** The line search returns `step/2^j` for the least `j` at which the trial step is sufficiently decreasing or at most `1e-14`; such a `j`
always exists. -/
theorem C19_line_search (o : Oracle K n σ) (R : Regularizer K n) (f : Vec K n → K) (hf : o.Values f)
    (prox : Vec K n → K → Vec K n) (hp : ∀ y t, R.prox y t = .ok (prox y t)) (x d : Vec K n) (step : K) (s : σ) :
    ∃ (j : ℕ) (s' : σ), lineSearch o R x d step s = .ok (step / 2 ^ j, s') ∧
      (SufficientDecrease f d (step / 2 ^ j) x (prox (fun i => x i + step / 2 ^ j * d i) (step / 2 ^ j)) ∨ step / 2 ^ j ≤ 1 / 10 ^ 14) ∧
      ∀ i < j, ¬ SufficientDecrease f d (step / 2 ^ i) x (prox (fun l => x l + step / 2 ^ i * d l) (step / 2 ^ i)) ∧
        1 / 10 ^ 14 < step / 2 ^ i := by
  induction step using lineSearch.induct (K := K) generalizing s with
  | case1 step hstep ih =>
    rw [lineSearch, dif_pos hstep]
    have hmv : x + step • d = fun i => x i + step * d i := by funext i; simp
    obtain ⟨s1, h1⟩ := hf (prox (x + step • d) step) s
    obtain ⟨s2, h2⟩ := hf x s1
    by_cases hacc : Accept (f (prox (x + step • d) step)) (f x) x d (prox (x + step • d) step) step
    · refine ⟨0, s2, ?_, ?_, by simp⟩
      · refine bind_ok.2 ⟨_, s, callReg_ok.2 ⟨hp _ _, rfl⟩, bind_ok.2 ⟨_, s1, h1, bind_ok.2 ⟨_, s2, h2, ?_⟩⟩⟩
        rw [if_pos hacc, pow_zero, div_one]; rfl
      · left
        rw [pow_zero, div_one, ← hmv]
        exact (accept_iff f x d _ step).1 hacc
    · obtain ⟨j, s', hr, hacc', hmin⟩ := ih s2
      have hdiv : ∀ i : ℕ, step * (1 / 2) / 2 ^ i = step / 2 ^ (i + 1) := fun i => by rw [pow_succ]; field_simp
      simp only [hdiv] at hr hacc' hmin
      refine ⟨j + 1, s', ?_, hacc', ?_⟩
      · refine bind_ok.2 ⟨_, s, callReg_ok.2 ⟨hp _ _, rfl⟩, bind_ok.2 ⟨_, s1, h1, bind_ok.2 ⟨_, s2, h2, ?_⟩⟩⟩
        rw [if_neg hacc]; exact hr
      · intro i hi
        cases i with
        | zero =>
          rw [pow_zero, div_one, ← hmv]
          exact ⟨fun hc => hacc ((accept_iff f x d _ step).2 hc), hstep⟩
        | succ i => exact hmin i (by omega)
  | case2 step hstep =>
    rw [lineSearch, dif_neg hstep]
    exact ⟨0, s, by rw [pow_zero, div_one]; rfl, Or.inr (by rw [pow_zero, div_one]; exact not_lt.1 hstep), by simp⟩

/-- Non-vacuity of C19: the step `4` is too long for `f(x) = x²/2` at `x = 3` (the trial point is `-9`), so the search does halve. -/
example : ¬ SufficientDecrease (fun x : Vec ℚ 1 => x 0 ^ 2 / 2) ![-3] 4 ![3] ![-9] ∧
    SufficientDecrease (fun x : Vec ℚ 1 => x 0 ^ 2 / 2) ![-3] 1 ![3] ![0] := by
  constructor <;> simp [SufficientDecrease] <;> norm_num

/-! ## C25, seen from the solver -/

omit [IsStrictOrderedRing K] [FloorSemiring K] in
/-- The logging block never changes the container of keys. -/
theorem logBlock_keys (o : Oracle K n σ) (R : Regularizer K n) (L L' : Logger (PyVal K n)) (x : Vec K n)
    (vars : String → Option (PyVal K n)) (s s' : σ) (h : logBlock o R L x vars s = .ok (L', s')) : L'.kind = L.kind ∧ L'.keys = L.keys := by
  unfold logBlock at h
  obtain ⟨l, s1, _, h⟩ := bind_ok.1 h
  split_ifs at h
  · obtain ⟨h1, _⟩ := callReg_ok.1 h
    unfold Logger.log at h1
    cases hd : L.keys.foldlM (Logger.logKey fun k => if k = "loss" then l else vars k) L.dict with
    | error e => rw [hd] at h1; cases h1
    | ok d => rw [hd] at h1; cases h1; exact ⟨rfl, rfl⟩
  · obtain ⟨rfl, _⟩ := pure_ok.1 h
    exact ⟨rfl, rfl⟩

/-- **C25 is violated by the code**, as a user sees it: with a list or a set of logger keys that does not already contain both `"converged"` and
`"iteration"`, no optimisation ever returns, whatever the oracle, the regularizer and the settings. -/
theorem C25_solver_violated (o : Oracle K n σ) (R : Regularizer K n) (cfg : PGDCfg K) (x0 : Vec K n) (L : Logger (PyVal K n))
    (hkind : L.kind ≠ .tuple) (hkeys : "converged" ∉ L.keys ∨ "iteration" ∉ L.keys) (s : σ) :
    ∃ e, pgdOptimize o R cfg x0 L s = .error e := by
  cases h : pgdOptimize o R cfg x0 L s with
  | error e => exact ⟨e, rfl⟩
  | ok r =>
    exfalso
    obtain ⟨⟨xf, Lf⟩, s'⟩ := r
    obtain ⟨k, X, Ls, s1, L1, h0, -, -, hc, hi, hP, -, -⟩ := pgdOptimize_trace o R cfg x0 L
      (fun _ La _ Lb => Lb.kind = La.kind ∧ Lb.keys = La.keys)
      (fun x it La s x' Lb s' hb => by
        obtain ⟨g, t1, step, t2, -, -, -, hl⟩ := pgdBody_ok o R cfg x0 x it La s s' x' Lb hb
        exact logBlock_keys o R La Lb _ _ _ _ hl) s s' xf Lf h
    have hall : ∀ i ≤ k, (Ls i).kind = L.kind ∧ (Ls i).keys = L.keys := by
      intro i
      induction i with
      | zero => exact fun _ => logBlock_keys o R L _ _ _ _ _ h0
      | succ i ih =>
        intro hi
        have h1 := hP i (by omega)
        have h2 := ih (by omega)
        exact ⟨h1.1.trans h2.1, h1.2.trans h2.2⟩
    have hadd : ∀ (La Lb : Logger (PyVal K n)) (key : String) (v : LVal (PyVal K n)), La.kind ≠ .tuple → La.add key v = .ok Lb →
        key ∈ La.keys ∧ Lb.kind = La.kind ∧ Lb.keys = La.keys := by
      intro La Lb key v hk ha
      unfold Logger.add at ha
      dsimp only at ha
      split_ifs at ha with hm
      · cases ha; exact ⟨hm, rfl, rfl⟩
      · split at ha
        · next hkd => exact absurd hkd hk
        · cases ha
    obtain ⟨hk1, hk2⟩ := hall k le_rfl
    obtain ⟨a1, a2, a3⟩ := hadd _ _ _ _ (by rw [hk1]; exact hkind) hc
    obtain ⟨b1, -, -⟩ := hadd _ _ _ _ (by rw [a2, hk1]; exact hkind) hi
    rw [hk2] at a1
    rw [a3, hk2] at b1
    exact hkeys.elim (fun h => h a1) (fun h => h b1)

/-- Non-vacuity: the annotated type `Set` with the default key. -/
example : (Logger.init .set ["converged"] : Logger (PyVal ℚ 1)).kind ≠ .tuple ∧
    "iteration" ∉ (Logger.init .set ["converged"] : Logger (PyVal ℚ 1)).keys := by
  simp [Logger.init]

end Verif
