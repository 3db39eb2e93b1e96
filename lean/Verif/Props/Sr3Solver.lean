import Verif.Props.Linear
import Verif.Props.Descent

/-!
# SR3 linear models and the solver: C34, C35, C36
-/

namespace Verif

open Matrix

variable {m n : ℕ}

/-! ## C34: no backtracking -/

theorem sr3Oracle_value (A : Matrix (Fin m) (Fin n) ℝ) (b : Vec ℝ m) (c : Matrix (Fin n) (Fin n) ℝ) {lam : ℝ} (hlam : 0 ≤ lam) (x : Vec ℝ n) (s : Unit) :
    (sr3Oracle A b c lam false).value x s = .ok (sr3Value A b c lam x, s) := by
  simp [sr3Oracle, hlam]

theorem sr3Oracle_grad (A : Matrix (Fin m) (Fin n) ℝ) (b : Vec ℝ m) (c : Matrix (Fin n) (Fin n) ℝ) {lam : ℝ} (hlam : 0 ≤ lam) (x : Vec ℝ n) (s : Unit) :
    (sr3Oracle A b c lam false).grad x s = .ok (sr3Gradient A b c lam x, s) := by
  simp [sr3Oracle, hlam]

theorem findOptimalParameters_eq {K : Type} [Field K] [LinearOrder K] (A : Matrix (Fin m) (Fin n) K) (b : Vec K m) (c : Matrix (Fin n) (Fin n) K) {lam : K} (hlam : lam ≠ 0)
    (R : Regularizer K n) (tol : K) (maxIter : ℤ) (x0 : Vec K n) :
    findOptimalParameters A b c lam R tol maxIter x0 = practicalLoop A b c lam R tol maxIter x0 none 0 := by
  unfold findOptimalParameters
  rw [if_neg hlam]

/-- The acceptance test of the line search holds for every trial point at step `1/lam`. -/
theorem sr3_accept (A : Matrix (Fin m) (Fin n) ℝ) (b : Vec ℝ m) (lam : ℝ) (hlam : 0 < lam) (x z : Vec ℝ n) :
    Accept (sr3Value A b 1 lam z) (sr3Value A b 1 lam x) x (-(sr3Gradient A b 1 lam x)) z (1 / lam) := by
  obtain ⟨q, -, hq, hexp⟩ := (C33_gradient_exact_smooth A b lam hlam).1
  have h1 := hexp x (z - x)
  rw [add_sub_cancel] at h1
  have h2 := (hq (z - x)).2
  unfold Accept dot normSq
  rw [h1]
  have e1 : 1 / (2 * (1 / lam)) = lam / 2 := by field_simp
  rw [e1]
  simp only [Pi.neg_apply, neg_mul, Finset.sum_neg_distrib, sub_neg_eq_add]
  linarith

/-- **C34**, one line search: started at `1/lam` it returns `1/lam`, whatever the regularizer does (as long as its prox does not raise). -/
theorem C34_accepts_immediately (A : Matrix (Fin m) (Fin n) ℝ) (b : Vec ℝ m) (lam : ℝ) (hlam : 0 < lam) (R : Regularizer ℝ n) (x z : Vec ℝ n)
    (hz : R.prox (x + (1 / lam) • (-(sr3Gradient A b 1 lam x))) (1 / lam) = .ok z) :
    lineSearch (sr3Oracle A b 1 lam false) R x (-(sr3Gradient A b 1 lam x)) (1 / lam) () = .ok (1 / lam, ()) := by
  rw [lineSearch.eq_def]
  split_ifs with h
  · refine bind_ok.2 ⟨z, (), callReg_ok.2 ⟨hz, rfl⟩, ?_⟩
    refine bind_ok.2 ⟨_, (), sr3Oracle_value A b 1 hlam.le z (), ?_⟩
    refine bind_ok.2 ⟨_, (), sr3Oracle_value A b 1 hlam.le x (), ?_⟩
    rw [if_pos (sr3_accept A b lam hlam x z)]
    rfl
  · rfl

theorem sr3_body_stepping (A : Matrix (Fin m) (Fin n) ℝ) (b : Vec ℝ m) (lam : ℝ) (hlam : 0 < lam) (R : Regularizer ℝ n) (tol : ℝ) (maxIter : ℤ)
    (stepping stepping' : String) (x0 x : Vec ℝ n) (it : ℕ) (L : Logger (PyVal ℝ n)) :
    pgdBody (sr3Oracle A b 1 lam false) R ⟨tol, maxIter, stepping, 1 / lam⟩ x0 x it L =
      pgdBody (sr3Oracle A b 1 lam false) R ⟨tol, maxIter, stepping', 1 / lam⟩ x0 x it L := by
  have key : ∀ st : String, pgdBody (sr3Oracle A b 1 lam false) R ⟨tol, maxIter, st, 1 / lam⟩ x0 x it L = fun _ =>
      (match R.prox (x + (1 / lam) • (-(sr3Gradient A b 1 lam x))) (1 / lam) with
      | .error e => .error e
      | .ok z => (logBlock (sr3Oracle A b 1 lam false) R L z (localsIter x0 x (-(sr3Gradient A b 1 lam x))
          (x + (1 / lam) • (-(sr3Gradient A b 1 lam x))) z (1 / lam) (it + 1)) ()).map fun r => ((z, r.1), r.2)) := by
    intro st
    funext s
    cases hp : R.prox (x + (1 / lam) • (-(sr3Gradient A b 1 lam x))) (1 / lam) with
    | error e =>
      have hc : chooseStep (sr3Oracle A b 1 lam false) R ⟨tol, maxIter, st, 1 / lam⟩ x (-(sr3Gradient A b 1 lam x)) () = .error e ∨
          chooseStep (sr3Oracle A b 1 lam false) R ⟨tol, maxIter, st, 1 / lam⟩ x (-(sr3Gradient A b 1 lam x)) () = .ok (1 / lam, ()) := by
        unfold chooseStep
        dsimp only
        split_ifs
        · rw [lineSearch.eq_def]
          split_ifs
          · left
            simp only [bind, StateT.bind, Except.bind, callReg, hp, Except.map]
          · right; rfl
        · right; rfl
      have hg : (sr3Oracle A b 1 lam false).grad x () = .ok (sr3Gradient A b 1 lam x, ()) := sr3Oracle_grad A b 1 hlam.le x ()
      simp only [pgdBody, bind, StateT.bind, Except.bind]
      rcases hc with hc | hc
      · simp only [hg, hc]
      · simp only [hg, hc, callReg, hp, Except.map]
    | ok z =>
      have hc : chooseStep (sr3Oracle A b 1 lam false) R ⟨tol, maxIter, st, 1 / lam⟩ x (-(sr3Gradient A b 1 lam x)) () = .ok (1 / lam, ()) := by
        unfold chooseStep
        dsimp only
        split_ifs
        · exact C34_accepts_immediately A b lam hlam R x z hp
        · rfl
      have hg : (sr3Oracle A b 1 lam false).grad x () = .ok (sr3Gradient A b 1 lam x, ()) := sr3Oracle_grad A b 1 hlam.le x ()
      simp only [pgdBody, bind, StateT.bind, Except.bind]
      simp only [hg, hc, callReg, hp, Except.map]
      cases logBlock (sr3Oracle A b 1 lam false) R L z _ () <;> rfl
  rw [key, key]

theorem sr3_loop_stepping (A : Matrix (Fin m) (Fin n) ℝ) (b : Vec ℝ m) (lam : ℝ) (hlam : 0 < lam) (R : Regularizer ℝ n) (tol : ℝ) (maxIter : ℤ)
    (stepping stepping' : String) (x0 x : Vec ℝ n) (xprev : Option (Vec ℝ n)) (it : ℕ) (L : Logger (PyVal ℝ n)) :
    pgdLoop (sr3Oracle A b 1 lam false) R ⟨tol, maxIter, stepping, 1 / lam⟩ x0 x xprev it L =
      pgdLoop (sr3Oracle A b 1 lam false) R ⟨tol, maxIter, stepping', 1 / lam⟩ x0 x xprev it L := by
  induction x, xprev, it, L using pgdLoop.induct (cfg := (⟨tol, maxIter, stepping, 1 / lam⟩ : PGDCfg ℝ)) with
  | case1 x xprev it L hg ih =>
    rw [pgdLoop.eq_def _ _ _ _ _ _ it, dif_pos hg, pgdLoop.eq_def _ _ ⟨tol, maxIter, stepping', 1 / lam⟩ _ _ _ it, dif_pos hg,
      sr3_body_stepping A b lam hlam R tol maxIter stepping stepping']
    congr 1
    funext r
    exact ih r
  | case2 x xprev it L hg =>
    rw [pgdLoop.eq_def _ _ _ _ _ _ it, dif_neg hg, pgdLoop.eq_def _ _ ⟨tol, maxIter, stepping', 1 / lam⟩ _ _ _ it, dif_neg hg]

/-- **C34**, the whole run: with step `1/lam` every stepping policy gives the same result (point, log or exception). -/
theorem C34_stepping_irrelevant (A : Matrix (Fin m) (Fin n) ℝ) (b : Vec ℝ m) (lam : ℝ) (hlam : 0 < lam) (R : Regularizer ℝ n) (tol : ℝ) (maxIter : ℤ)
    (stepping stepping' : String) (x0 : Vec ℝ n) (L : Logger (PyVal ℝ n)) :
    pgdOptimize (sr3Oracle A b 1 lam false) R ⟨tol, maxIter, stepping, 1 / lam⟩ x0 L =
      pgdOptimize (sr3Oracle A b 1 lam false) R ⟨tol, maxIter, stepping', 1 / lam⟩ x0 L := by
  unfold pgdOptimize
  congr 1
  funext L0
  rw [sr3_loop_stepping A b lam hlam R tol maxIter stepping stepping']

/-- **C34** for the models: an SR3 model with `el > 0` and no explicit step length is fitted identically under line search and fixed stepping. -/
theorem C34_fit (M : LinModelCfg) (el : ℝ) (practical : Bool) (hel : 0 < el) (hM : M.sr3 = some (el, practical)) (hstep : M.fixedStepLen = none)
    (a : Matrix (Fin m) (Fin n) ℝ) (b : Vec ℝ m) (rw' : Option (Vec ℝ n)) (P : LinProblem ℝ) (hP : linProblemInit a b none rw' = .ok P)
    (x0 : Option (Vec ℝ P.n)) (warm : Bool) (w : Option (Vec ℝ P.n)) (stepping : String) :
    linFit { M with stepping := stepping } P x0 warm w = linFit M P x0 warm w := by
  cases hP
  obtain ⟨sr3, tol, maxIter, st, fsl, prior, lk, lks, reg⟩ := M
  simp only at hM hstep
  subst hM hstep
  have hs : ∀ st : String, LinModelCfg.step ⟨some (el, practical), tol, maxIter, st, none, prior, lk, lks, reg⟩ = 1 / el := by
    intro st
    simp [LinModelCfg.step, hel.ne']
  unfold linFit
  simp only [LinModelCfg.solver, hs]
  simp only [C34_stepping_irrelevant a b el hel _ tol maxIter stepping st]

/-- Non-vacuity of C34: a regularizer whose prox does not raise, on real data. -/
example (x : Vec ℝ 2) : ∃ z, (l1Regularizer (1 : ℝ) none).prox
    (x + (1 / 2 : ℝ) • (-(sr3Gradient (1 : Matrix (Fin 2) (Fin 2) ℝ) ![1, 2] 1 2 x))) (1 / 2) = .ok z := ⟨_, rfl⟩

/-! ## C35: practical mode -/

/-- The plain gradient step of length `1/lam` lands on the minimiser of the inner problem. -/
theorem sr3_move (A : Matrix (Fin m) (Fin n) ℝ) (b : Vec ℝ m) (lam : ℝ) (hlam : 0 < lam) (x : Vec ℝ n) :
    (fun i => x i - 1 / lam * sr3Gradient A b 1 lam x i) = sr3Inner A b 1 lam x := by
  funext i
  rw [sr3Gradient_eq A b lam hlam]
  simp only [Pi.smul_apply, Pi.sub_apply, smul_eq_mul]
  field_simp
  ring

theorem sr3_body_point (A : Matrix (Fin m) (Fin n) ℝ) (b : Vec ℝ m) (lam : ℝ) (hlam : 0 < lam) (R : Regularizer ℝ n) (tol : ℝ) (maxIter : ℤ)
    (x0 x x' : Vec ℝ n) (it : ℕ) (L L' : Logger (PyVal ℝ n)) (s s' : Unit)
    (h : pgdBody (sr3Oracle A b 1 lam false) R ⟨tol, maxIter, "fixed", 1 / lam⟩ x0 x it L s = .ok ((x', L'), s')) :
    R.prox (sr3Inner A b 1 lam x) (1 / lam) = .ok x' := by
  obtain ⟨g, s1, step, s2, hg, hst, hp, -⟩ := pgdBody_ok _ _ _ _ _ _ _ _ _ _ _ h
  have hg' : (sr3Gradient A b 1 lam x, s) = (g, s1) := Except.ok.inj ((sr3Oracle_grad A b 1 hlam.le x s).symm.trans hg)
  obtain ⟨rfl, -⟩ := Prod.mk.inj hg'
  have : step = 1 / lam := by
    unfold chooseStep at hst
    rw [if_neg (by simp)] at hst
    exact (pure_ok.1 hst).1.symm
  subst this
  rwa [sr3_move A b lam hlam] at hp

theorem sr3_loop_practical (A : Matrix (Fin m) (Fin n) ℝ) (b : Vec ℝ m) (lam : ℝ) (hlam : 0 < lam) (R : Regularizer ℝ n) (tol : ℝ) (maxIter : ℤ)
    (x0 x : Vec ℝ n) (xprev : Option (Vec ℝ n)) (it : ℕ) (L : Logger (PyVal ℝ n)) (s : Unit) (r : Vec ℝ n × ℕ × Logger (PyVal ℝ n)) (s' : Unit)
    (h : pgdLoop (sr3Oracle A b 1 lam false) R ⟨tol, maxIter, "fixed", 1 / lam⟩ x0 x xprev it L s = .ok (r, s')) :
    practicalLoop A b 1 lam R tol maxIter x xprev it = .ok r.1 := by
  induction x, xprev, it, L using pgdLoop.induct (cfg := (⟨tol, maxIter, "fixed", 1 / lam⟩ : PGDCfg ℝ)) generalizing s with
  | case1 x xprev it L hg ih =>
    rw [pgdLoop, dif_pos hg] at h
    obtain ⟨⟨x', L'⟩, s1, hb, h⟩ := bind_ok.1 h
    have hp := sr3_body_point A b lam hlam R tol maxIter x0 x x' it L L' s s1 hb
    rw [practicalLoop, dif_pos hg, hp]
    exact ih (x', L') s1 h
  | case2 x xprev it L hg =>
    rw [pgdLoop, dif_neg hg] at h
    obtain ⟨rfl, -⟩ := pure_ok.1 h
    rw [practicalLoop, dif_neg hg]
    rfl

theorem sr3_body_returns (A : Matrix (Fin m) (Fin n) ℝ) (b : Vec ℝ m) (lam : ℝ) (hlam : 0 < lam) (R : Regularizer ℝ n)
    (g : Vec ℝ n → WithTop ℝ) (hg : ∀ x, R.value x = .ok (g x)) (tol : ℝ) (maxIter : ℤ)
    (x0 x x' : Vec ℝ n) (it : ℕ) (L : Logger (PyVal ℝ n)) (hL : L.Good) (hp : R.prox (sr3Inner A b 1 lam x) (1 / lam) = .ok x') :
    ∃ L', pgdBody (sr3Oracle A b 1 lam false) R ⟨tol, maxIter, "fixed", 1 / lam⟩ x0 x it L () = .ok ((x', L'), ()) ∧ L'.Good := by
  have hf : (sr3Oracle A b 1 lam false).Values (sr3Value A b 1 lam) := fun x s => ⟨s, sr3Oracle_value A b 1 hlam.le x s⟩
  obtain ⟨L', s', hl, hgood, -, -⟩ := logBlock_returns _ R _ g hf hg L hL x'
    (localsIter x0 x (-(sr3Gradient A b 1 lam x)) (x + (1 / lam) • (-(sr3Gradient A b 1 lam x))) x' (1 / lam) (it + 1)) ()
  refine ⟨L', ?_, hgood⟩
  unfold pgdBody
  refine bind_ok.2 ⟨sr3Gradient A b 1 lam x, (), sr3Oracle_grad A b 1 hlam.le x (), ?_⟩
  refine bind_ok.2 ⟨1 / lam, (), rfl, ?_⟩
  refine bind_ok.2 ⟨x', (), callReg_ok.2 ⟨?_, rfl⟩, ?_⟩
  · rw [move_eq, sr3_move A b lam hlam, hp]
  · refine bind_ok.2 ⟨L', s', hl, ?_⟩
    rfl

theorem practical_loop_sr3 (A : Matrix (Fin m) (Fin n) ℝ) (b : Vec ℝ m) (lam : ℝ) (hlam : 0 < lam) (R : Regularizer ℝ n)
    (g : Vec ℝ n → WithTop ℝ) (hg : ∀ x, R.value x = .ok (g x)) (tol : ℝ) (maxIter : ℤ)
    (x0 x : Vec ℝ n) (xprev : Option (Vec ℝ n)) (it : ℕ) (L : Logger (PyVal ℝ n)) (hL : L.Good) (xf : Vec ℝ n)
    (h : practicalLoop A b 1 lam R tol maxIter x xprev it = .ok xf) :
    ∃ itf Lf, pgdLoop (sr3Oracle A b 1 lam false) R ⟨tol, maxIter, "fixed", 1 / lam⟩ x0 x xprev it L () = .ok ((xf, itf, Lf), ()) ∧ Lf.Good := by
  induction x, xprev, it, L using pgdLoop.induct (cfg := (⟨tol, maxIter, "fixed", 1 / lam⟩ : PGDCfg ℝ)) with
  | case1 x xprev it L hgd ih =>
    rw [practicalLoop, dif_pos hgd] at h
    cases hp : R.prox (sr3Inner A b 1 lam x) (1 / lam) with
    | error e => rw [hp] at h; cases h
    | ok x' =>
      rw [hp] at h
      obtain ⟨L', hb, hL'⟩ := sr3_body_returns A b lam hlam R g hg tol maxIter x0 x x' it L hL hp
      obtain ⟨itf, Lf, hl, hgood⟩ := ih (x', L') hL' h
      refine ⟨itf, Lf, ?_, hgood⟩
      rw [pgdLoop, dif_pos hgd]
      exact bind_ok.2 ⟨(x', L'), (), hb, hl⟩
  | case2 x xprev it L hgd =>
    rw [practicalLoop, dif_neg hgd] at h
    cases h
    exact ⟨it, L, by rw [pgdLoop, dif_neg hgd]; rfl, hL⟩

/-- **C35**, one direction: whatever plain PGD (any stepping policy, step `1/lam`) returns, `find_optimal_parameters` returns the same vector. -/
theorem C35_practical_of_pgd (A : Matrix (Fin m) (Fin n) ℝ) (b : Vec ℝ m) (lam : ℝ) (hlam : 0 < lam) (R : Regularizer ℝ n) (tol : ℝ) (maxIter : ℤ)
    (stepping : String) (x0 x : Vec ℝ n) (L L' : Logger (PyVal ℝ n)) (s s' : Unit)
    (h : pgdOptimize (sr3Oracle A b 1 lam false) R ⟨tol, maxIter, stepping, 1 / lam⟩ x0 L s = .ok ((x, L'), s')) :
    findOptimalParameters A b 1 lam R tol maxIter x0 = .ok x := by
  rw [C34_stepping_irrelevant A b lam hlam R tol maxIter stepping "fixed"] at h
  unfold pgdOptimize at h
  obtain ⟨L0, s1, -, h⟩ := bind_ok.1 h
  obtain ⟨r, s2, hloop, h⟩ := bind_ok.1 h
  obtain ⟨L1, s3, -, h⟩ := bind_ok.1 h
  obtain ⟨L2, s4, -, h⟩ := bind_ok.1 h
  obtain ⟨he, -⟩ := pure_ok.1 h
  cases he
  rw [findOptimalParameters_eq A b 1 hlam.ne']
  exact sr3_loop_practical A b lam hlam R tol maxIter x0 x0 none 0 L0 s1 r s2 hloop

/-- **C35**, the other direction: whatever `find_optimal_parameters` returns, plain PGD returns the same vector (with a healthy logger and a regularizer whose `value` does not
raise, so that logging cannot fail). -/
theorem C35_pgd_of_practical (A : Matrix (Fin m) (Fin n) ℝ) (b : Vec ℝ m) (lam : ℝ) (hlam : 0 < lam) (R : Regularizer ℝ n)
    (g : Vec ℝ n → WithTop ℝ) (hg : ∀ x, R.value x = .ok (g x)) (tol : ℝ) (maxIter : ℤ)
    (stepping : String) (x0 x : Vec ℝ n) (L : Logger (PyVal ℝ n)) (hL : L.Good)
    (h : findOptimalParameters A b 1 lam R tol maxIter x0 = .ok x) :
    ∃ L', pgdOptimize (sr3Oracle A b 1 lam false) R ⟨tol, maxIter, stepping, 1 / lam⟩ x0 L () = .ok ((x, L'), ()) := by
  rw [C34_stepping_irrelevant A b lam hlam R tol maxIter stepping "fixed"]
  rw [findOptimalParameters_eq A b 1 hlam.ne'] at h
  have hf : (sr3Oracle A b 1 lam false).Values (sr3Value A b 1 lam) := fun x s => ⟨s, sr3Oracle_value A b 1 hlam.le x s⟩
  obtain ⟨L0, s', hl, hgood, -, -⟩ := logBlock_returns _ R _ g hf hg L hL x0 (localsInit x0) ()
  obtain ⟨itf, Lf, hloop, hgood2⟩ := practical_loop_sr3 A b lam hlam R g hg tol maxIter x0 x0 none 0 L0 hgood x h
  obtain ⟨L1, h1, hg1, -⟩ := hgood2.add "converged" (.atom (.bool (decide ((itf : ℤ) < maxIter))))
  obtain ⟨L2, h2, -, -⟩ := hg1.add "iteration" (.atom (.int itf))
  refine ⟨L2, ?_⟩
  unfold pgdOptimize
  refine bind_ok.2 ⟨L0, s', hl, ?_⟩
  refine bind_ok.2 ⟨(x, itf, Lf), (), hloop, ?_⟩
  refine bind_ok.2 ⟨L1, (), callReg_ok.2 ⟨h1, rfl⟩, ?_⟩
  refine bind_ok.2 ⟨L2, (), callReg_ok.2 ⟨h2, rfl⟩, ?_⟩
  rfl

theorem except_bind_ok {α β : Type} {x : Except PyErr α} {f : α → Except PyErr β} {r : β} : (x >>= f) = .ok r ↔ ∃ a, x = .ok a ∧ f a = .ok r := by
  cases x <;> simp [bind, Except.bind]

/-- **C35** for the models: the practical and the plain SR3 model with the same hyperparameters (`el > 0`, default step) fit the same coefficients. -/
theorem C35_fit (M : LinModelCfg) (el : ℝ) (hel : 0 < el) (hstep : M.fixedStepLen = none)
    (a : Matrix (Fin m) (Fin n) ℝ) (b : Vec ℝ m) (rw' : Option (Vec ℝ n)) (P : LinProblem ℝ) (hP : linProblemInit a b none rw' = .ok P)
    (x0 : Option (Vec ℝ P.n)) (warm : Bool) (w : Option (Vec ℝ P.n)) (x x' : Vec ℝ P.n) (L L' : Logger (PyVal ℝ P.n))
    (h : linFit { M with sr3 := some (el, false) } P x0 warm w = .ok (x, L))
    (h' : linFit { M with sr3 := some (el, true) } P x0 warm w = .ok (x', L')) : x = x' := by
  cases hP
  obtain ⟨sr3, tol, maxIter, st, fsl, prior, lk, lks, reg⟩ := M
  simp only at hstep
  subst hstep
  have hs : ∀ pr : Bool, LinModelCfg.step ⟨some (el, pr), tol, maxIter, st, none, prior, lk, lks, reg⟩ = 1 / el := by
    intro st
    simp [LinModelCfg.step, hel.ne']
  unfold linFit at h h'
  simp only [LinModelCfg.solver, hs] at h h'
  cases prior with
  | gaussian params => cases h
  | none =>
    by_cases hdet : (sr3H a 1 el).det = 0
    · rw [if_pos hdet] at h; cases h
    rw [if_neg hdet] at h h'
    simp only [Bool.false_eq_true, if_false, if_true] at h h'
    obtain ⟨⟨⟨y, Ly⟩, sy⟩, hy, h⟩ := except_bind_ok.1 h
    obtain ⟨Lz, -, h⟩ := except_bind_ok.1 h
    cases h
    obtain ⟨⟨⟨y', Ly'⟩, sy'⟩, hy', h'⟩ := except_bind_ok.1 h'
    obtain ⟨Lz', -, h'⟩ := except_bind_ok.1 h'
    cases h'
    have h1 := C35_practical_of_pgd a b el hel _ tol maxIter st _ y _ _ _ _ hy
    unfold fakeOptimize at hy'
    obtain ⟨z, s1, hz, hy'⟩ := bind_ok.1 hy'
    obtain ⟨L1, s2, -, hy'⟩ := bind_ok.1 hy'
    obtain ⟨L2, s3, -, hy'⟩ := bind_ok.1 hy'
    obtain ⟨he, -⟩ := pure_ok.1 hy'
    cases he
    have h2 := (callReg_ok.1 hz).1
    exact Except.ok.inj (h1.symm.trans h2)

/-- Non-vacuity of C35: the practical loop returns a vector on concrete data. -/
example : ∃ x, findOptimalParameters (1 : Matrix (Fin 1) (Fin 1) ℝ) ![1] 1 1 (dummyRegularizer) (1 / 10) 1 ![3] = .ok x := by
  rw [findOptimalParameters_eq _ _ _ one_ne_zero, practicalLoop]
  split_ifs
  · simp only [dummyRegularizer, bind, Except.bind]
    rw [practicalLoop, dif_neg (by simp)]
    exact ⟨_, rfl⟩
  · exact ⟨_, rfl⟩

/-! ## C36: convergence -/

/-- `‖Aᵀ v‖² ≤ (∑ A_ij²) ‖v‖²`. -/
theorem normSq_transpose_mulVec_le (A : Matrix (Fin m) (Fin n) ℝ) (v : Vec ℝ m) :
    normSq (Aᵀ *ᵥ v) ≤ (∑ i, ∑ j, A i j ^ 2) * normSq v := by
  unfold normSq
  rw [Finset.sum_comm, Finset.sum_mul]
  refine Finset.sum_le_sum fun j _ => ?_
  exact Finset.sum_mul_sq_le_sq_mul_sq Finset.univ (fun i => A i j) v

/-- `‖H u‖² ≤ C uᵀHu`. -/
theorem sr3H_normSq_le (A : Matrix (Fin m) (Fin n) ℝ) (lam : ℝ) (hlam : 0 < lam) (u : Vec ℝ n) :
    normSq (sr3H A 1 lam *ᵥ u) ≤ 2 * ((∑ i, ∑ j, A i j ^ 2) + lam) * (normSq (A *ᵥ u) + lam * normSq u) := by
  set M := ∑ i, ∑ j, A i j ^ 2 with hM
  have hM0 : 0 ≤ M := Finset.sum_nonneg fun i _ => Finset.sum_nonneg fun j _ => sq_nonneg _
  have h1 := normSq_transpose_mulVec_le A (A *ᵥ u)
  rw [← hM] at h1
  have h2 : normSq (Aᵀ *ᵥ (A *ᵥ u) + lam • u) ≤ 2 * normSq (Aᵀ *ᵥ (A *ᵥ u)) + 2 * (lam ^ 2 * normSq u) := by
    have e := normSq_nonneg (Aᵀ *ᵥ (A *ᵥ u) - lam • u)
    rw [sub_eq_add_neg, normSq_add, normSq_neg, dotProduct_neg] at e
    rw [normSq_add]
    rw [normSq_smul] at e ⊢
    linarith
  rw [sr3H_one_mulVec]
  have h3 := normSq_nonneg (A *ᵥ u)
  have h4 := normSq_nonneg u
  have h5 : 0 ≤ M * (lam * normSq u) := by positivity
  have h6 : 0 ≤ lam * normSq (A *ᵥ u) := by positivity
  nlinarith

/-- Every exact prox step decreases the objective by a fixed multiple of the squared move. -/
theorem sr3_descent (A : Matrix (Fin m) (Fin n) ℝ) (b : Vec ℝ m) (lam : ℝ) (hlam : 0 < lam) (g : Vec ℝ n → WithTop ℝ) (x z : Vec ℝ n) (gx gz : ℝ)
    (hx : g x = gx) (hgz : g z = gz) (hz : IsProxOf g (1 / lam) (sr3Inner A b 1 lam x) z) :
    sr3Value A b 1 lam z + gz + lam ^ 2 / (4 * ((∑ i, ∑ j, A i j ^ 2) + lam)) * normSq (z - x) ≤ sr3Value A b 1 lam x + gx := by
  set M := ∑ i, ∑ j, A i j ^ 2 with hM
  have hM0 : 0 ≤ M := Finset.sum_nonneg fun i _ => Finset.sum_nonneg fun j _ => sq_nonneg _
  obtain ⟨gz', hgz', hmin⟩ := hz
  rw [hgz] at hgz'
  obtain rfl := WithTop.coe_inj.1 hgz'
  have h1 := hmin x gx hx
  set y := sr3Inner A b 1 lam x with hy
  set y' := sr3Inner A b 1 lam z with hy'
  have hs := sr3Loss_split A b lam hlam y z
  rw [← hy'] at hs
  rw [sr3Value_eq_loss A b lam hlam z, sr3Value_eq_loss A b lam hlam x, ← hy, ← hy']
  have hu : sr3H A 1 lam *ᵥ (y - y') = lam • (x - z) := by
    rw [mulVec_sub, hy, hy']
    unfold sr3Inner
    rw [sr3H_mulVec_inv A lam hlam, sr3H_mulVec_inv A lam hlam, transpose_one, one_mulVec, one_mulVec]
    rw [smul_sub]; abel
  have hC := sr3H_normSq_le A lam hlam (y - y')
  rw [hu, normSq_smul, ← hM, normSq_sub_comm x z] at hC
  have h2 : lam ^ 2 / (4 * (M + lam)) * normSq (z - x) ≤ 1 / 2 * (normSq (A *ᵥ (y - y')) + lam * normSq (y - y')) := by
    rw [div_mul_eq_mul_div, div_le_iff₀ (by positivity)]
    linarith
  have h3 : gz + lam / 2 * normSq (z - y) ≤ gx + lam / 2 * normSq (x - y) := by
    have := mul_le_mul_of_nonneg_left h1 hlam.le
    have e : ∀ p q : ℝ, lam * (1 / lam * p + q / 2) = p + lam / 2 * q := by intro p q; field_simp
    rwa [e, e] at this
  have e1 : sr3Loss A b 1 lam y z = 1 / 2 * normSq (A *ᵥ y - b) + lam / 2 * normSq (z - y) := by
    unfold sr3Loss; rw [one_mulVec, normSq_sub_comm y z]
  have e2 : sr3Loss A b 1 lam y x = 1 / 2 * normSq (A *ᵥ y - b) + lam / 2 * normSq (x - y) := by
    unfold sr3Loss; rw [one_mulVec, normSq_sub_comm y x]
  rw [e2]
  rw [e1] at hs
  linarith

theorem sr3Value_nonneg (A : Matrix (Fin m) (Fin n) ℝ) (b : Vec ℝ m) (lam : ℝ) (w : Vec ℝ n) : 0 ≤ sr3Value A b 1 lam w :=
  mul_nonneg (by norm_num) (normSq_nonneg _)

theorem practicalLoop_returns (A : Matrix (Fin m) (Fin n) ℝ) (b : Vec ℝ m) (lam : ℝ) (R : Regularizer ℝ n)
    (hp : ∀ y, ∃ z, R.prox y (1 / lam) = .ok z) (tol : ℝ) (maxIter : ℤ) (x : Vec ℝ n) (xprev : Option (Vec ℝ n)) (it : ℕ) :
    ∃ xf, practicalLoop A b 1 lam R tol maxIter x xprev it = .ok xf := by
  induction x, xprev, it using practicalLoop.induct (tol := tol) (maxIter := maxIter) with
  | case1 x xprev it hg ih =>
    obtain ⟨z, hz⟩ := hp (sr3Inner A b 1 lam x)
    rw [practicalLoop, dif_pos hg, hz]
    exact ih z
  | case2 x xprev it hg =>
    rw [practicalLoop, dif_neg hg]
    exact ⟨x, rfl⟩

/-- **C36**: for every data set, `el > 0`, tolerance `> 0`, starting point (even one with infinite penalty) and every regularizer - convex or not - whose prox is an exact minimiser of its non-negative value, there is an
iteration budget from which on every run returns and reports `converged = True` (with any stepping policy). -/
theorem C36_sr3_converges (A : Matrix (Fin m) (Fin n) ℝ) (b : Vec ℝ m) (lam : ℝ) (hlam : 0 < lam) (R : Regularizer ℝ n)
    (g : Vec ℝ n → WithTop ℝ) (hg : ∀ x, R.value x = .ok (g x)) (hg0 : ∀ x, 0 ≤ g x)
    (hp : ∀ y, ∃ z, R.prox y (1 / lam) = .ok z ∧ IsProxOf g (1 / lam) y z) (tol : ℝ) (htol : 0 < tol) (x0 : Vec ℝ n)
    (L : Logger (PyVal ℝ n)) (hL : L.Good) :
    ∃ N : ℕ, ∀ maxIter : ℤ, N ≤ maxIter → ∀ stepping : String, ∃ x Lf,
      pgdOptimize (sr3Oracle A b 1 lam false) R ⟨tol, maxIter, stepping, 1 / lam⟩ x0 L () = .ok ((x, Lf), ()) ∧
      Lf.get "converged" = .ok (.atom (.bool true)) := by
  obtain ⟨z1, hz1, gz1, hgz1, hmin1⟩ := hp (sr3Inner A b 1 lam x0)
  set c := lam ^ 2 / (4 * ((∑ i, ∑ j, A i j ^ 2) + lam)) with hc
  have hM0 : 0 ≤ ∑ i, ∑ j, A i j ^ 2 := Finset.sum_nonneg fun i _ => Finset.sum_nonneg fun j _ => sq_nonneg _
  have hc0 : 0 < c := by positivity
  have hct : 0 < c * tol ^ 2 := by positivity
  refine ⟨⌈(sr3Value A b 1 lam z1 + gz1) / (c * tol ^ 2)⌉₊ + 4, fun maxIter hmax stepping => ?_⟩
  obtain ⟨xf, hxf⟩ := practicalLoop_returns A b lam R (fun y => (hp y).imp fun z h => h.1) tol maxIter x0 none 0
  obtain ⟨Lf, hopt⟩ := C35_pgd_of_practical A b lam hlam R g hg tol maxIter stepping x0 xf L hL (by rw [findOptimalParameters_eq A b 1 hlam.ne']; exact hxf)
  refine ⟨xf, Lf, hopt, ?_⟩
  rw [C34_stepping_irrelevant A b lam hlam R tol maxIter stepping "fixed"] at hopt
  obtain ⟨k, X, Ls, s1, L1, -, h0, hk, hcv, hit, hsteps, hguards, hend⟩ := pgdOptimize_trace _ R ⟨tol, maxIter, "fixed", 1 / lam⟩ x0 L
    (fun x _ x' _ => R.prox (sr3Inner A b 1 lam x) (1 / lam) = .ok x')
    (fun x it L s x' L' s' hb => sr3_body_point A b lam hlam R tol maxIter x0 x x' it L L' s s' hb) () () xf Lf hopt
  have hprox : ∀ i < k, IsProxOf g (1 / lam) (sr3Inner A b 1 lam (X i)) (X (i + 1)) := by
    intro i hi
    obtain ⟨z, hz, hex⟩ := hp (sr3Inner A b 1 lam (X i))
    rw [hsteps i hi] at hz
    cases hz
    exact hex
  have hfin : ∀ i, 1 ≤ i → i ≤ k → ∃ gi : ℝ, g (X i) = gi ∧ 0 ≤ gi := by
    intro i h1 h2
    obtain ⟨j, rfl⟩ : ∃ j, i = j + 1 := ⟨i - 1, by omega⟩
    obtain ⟨gz, hgz, -⟩ := hprox j (by omega)
    refine ⟨gz, hgz, ?_⟩
    have := hg0 (X (j + 1))
    rw [hgz] at this
    exact_mod_cast this
  have henergy : ∀ i, i + 1 < k → ∀ gi : ℝ, g (X (i + 1)) = gi →
      (i : ℝ) * (c * tol ^ 2) + (sr3Value A b 1 lam (X (i + 1)) + gi) ≤ sr3Value A b 1 lam z1 + gz1 := by
    intro i
    induction i with
    | zero =>
      intro hik gi hgi
      have : X 1 = z1 := by
        have h1 := hsteps 0 (by omega)
        rw [h0, hz1] at h1
        exact (Except.ok.inj h1).symm
      simp only [Nat.zero_add] at hgi ⊢
      rw [this] at hgi ⊢
      rw [hgz1] at hgi
      rw [WithTop.coe_inj.1 hgi]
      simp
    | succ i ih =>
      intro hik gi hgi
      obtain ⟨gp, hgp, -⟩ := hfin (i + 1) (by omega) (by omega)
      have h1 := ih (by omega) gp hgp
      have h2 := sr3_descent A b lam hlam g (X (i + 1)) (X (i + 2)) gp gi hgp hgi (hprox (i + 1) (by omega))
      have h3 := (hguards (i + 2) (by omega)).1
      have h4 : tol ^ 2 < normSq (X (i + 2) - X (i + 1)) := by
        rcases h3 with h3 | h3
        · exact absurd h3 (not_lt.2 htol.le)
        · exact h3
      rw [← hc] at h2
      have h5 := mul_le_mul_of_nonneg_left h4.le hc0.le
      push_cast
      change _ + (sr3Value A b 1 lam (X (i + 2)) + gi) ≤ _
      linarith
  have hkb : k < ⌈(sr3Value A b 1 lam z1 + gz1) / (c * tol ^ 2)⌉₊ + 4 := by
    by_contra hcon
    push Not at hcon
    obtain ⟨gi, hgi, hgi0⟩ := hfin (k - 1) (by omega) (by omega)
    have h1 := henergy (k - 2) (by omega) gi (by rw [show k - 2 + 1 = k - 1 by omega]; exact hgi)
    have h2 := sr3Value_nonneg A b lam (X (k - 2 + 1))
    have h3 : ((k - 2 : ℕ) : ℝ) * (c * tol ^ 2) ≤ sr3Value A b 1 lam z1 + gz1 := by linarith
    rw [← le_div_iff₀ hct] at h3
    have h4 := Nat.le_ceil ((sr3Value A b 1 lam z1 + gz1) / (c * tol ^ 2))
    have h5 : ((k - 2 : ℕ) : ℝ) ≤ (⌈(sr3Value A b 1 lam z1 + gz1) / (c * tol ^ 2)⌉₊ : ℝ) := h3.trans h4
    have h6 : k - 2 ≤ ⌈(sr3Value A b 1 lam z1 + gz1) / (c * tol ^ 2)⌉₊ := by exact_mod_cast h5
    omega
  have hlt : (k : ℤ) < maxIter := by omega
  rw [(Logger.add_get hit).2 _ (by decide), (Logger.add_get hcv).1]
  simp [hlt]

/-- Non-vacuity of C36: the nonconvex L0 regularizer (with any sort) meets the hypotheses, and so does the start at all ones, whose penalty is infinite. -/
example (as : ArgSort (Fin 3) ℝ) : ∃ N : ℕ, ∀ maxIter : ℤ, N ≤ maxIter → ∃ x Lf,
    pgdOptimize (sr3Oracle (1 : Matrix (Fin 3) (Fin 3) ℝ) ![1, 2, 3] 1 2 false) (l0Regularizer (some 1) as none) ⟨1 / 100, maxIter, "line-search", 1 / 2⟩ ![1, 1, 1]
      (Logger.init .tuple ["loss"]) () = .ok ((x, Lf), ()) ∧ Lf.get "converged" = .ok (.atom (.bool true)) := by
  obtain ⟨N, hN⟩ := C36_sr3_converges (1 : Matrix (Fin 3) (Fin 3) ℝ) ![1, 2, 3] 2 (by norm_num) (l0Regularizer (some 1) as none)
    (fun x => if (nnzCount x : ℤ) > 1 then ⊤ else 0) (fun x => by simp only [l0Regularizer]; split_ifs <;> rfl)
    (fun x => by split_ifs <;> simp) (fun y => by
      obtain ⟨b, hb, -, hnnz, -, hbest, -⟩ := C01_l0_prox_best_sparse (K := ℝ) 1 as y (1 / 2)
      have hk : ∀ x : Vec ℝ 3, nnzCount x = numNonzero x := by
        intro x
        unfold nnzCount numNonzero
        rw [← Nat.card_eq_fintype_card]
        exact rfl
      refine ⟨b, hb, 0, ?_, fun u gu hu => ?_⟩
      · change (if (nnzCount b : ℤ) > 1 then (⊤ : WithTop ℝ) else 0) = _
        rw [if_neg]; · rfl
        rw [hk]; simpa using hnnz
      · simp only at hu
        split_ifs at hu with h
        · exact absurd hu.symm WithTop.coe_ne_top
        · have : gu = 0 := WithTop.coe_eq_zero.1 hu.symm
          subst this
          have := hbest u (by rw [← hk]; simpa using h)
          simp only [normSq, Pi.sub_apply]
          linarith)
    (1 / 100) (by norm_num) ![1, 1, 1] (Logger.init .tuple ["loss"]) (Logger.good_init _ (by simp))
  exact ⟨N, fun maxIter h => hN maxIter h _⟩

end Verif
