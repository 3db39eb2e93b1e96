import Verif.Model.LinClasses
import Verif.Props.LinExtra

/-!
# The classes of linear models (C109, C110)
-/

namespace Verif

open Matrix

section
variable {K : Type} [Field K] [LinearOrder K] [IsStrictOrderedRing K] [FloorSemiring K] {n : ℕ} {σ : Type}

/-! ## Runs depend on the regularizer only through its prox, and its value when the loss is logged -/

/-- The two regularizers have the same prox for all step lengths a line search can try. -/
def SameProx (R R' : Regularizer K n) (step : K) : Prop := ∀ (j : ℕ) (y : Vec K n), R.prox y (step * (1 / 2) ^ j) = R'.prox y (step * (1 / 2) ^ j)

omit [IsStrictOrderedRing K] [FloorSemiring K] in
theorem SameProx.of_eq {R R' : Regularizer K n} (h : R.prox = R'.prox) (step : K) : SameProx R R' step := fun _ _ => by rw [h]

theorem lineSearch_congr (o : Oracle K n σ) {R R' : Regularizer K n} (x d : Vec K n) (step : K) (hp : SameProx R R' step) :
    lineSearch o R x d step = lineSearch o R' x d step := by
  induction step using lineSearch.induct (K := K) with
  | case1 step hstep ih =>
    conv_lhs => rw [lineSearch, dif_pos hstep]
    conv_rhs => rw [lineSearch, dif_pos hstep]
    have h0 := hp 0 (x + step • d)
    rw [pow_zero, mul_one] at h0
    rw [h0, ih fun j y => by have := hp (j + 1) y; rwa [pow_succ', ← mul_assoc] at this]
  | case2 step hstep =>
    conv_lhs => rw [lineSearch, dif_neg hstep]
    conv_rhs => rw [lineSearch, dif_neg hstep]

theorem chooseStep_congr (o : Oracle K n σ) {R R' : Regularizer K n} (cfg : PGDCfg K) (hp : SameProx R R' cfg.fixedStepLen) (x d : Vec K n) :
    chooseStep o R cfg x d = chooseStep o R' cfg x d := by
  unfold chooseStep
  rw [lineSearch_congr o x d _ hp]

theorem chooseStep_dyadic (o : Oracle K n σ) (R : Regularizer K n) (cfg : PGDCfg K) (x d : Vec K n) (s s' : σ) (t : K)
    (h : chooseStep o R cfg x d s = .ok (t, s')) : ∃ j : ℕ, t = cfg.fixedStepLen * (1 / 2) ^ j := by
  unfold chooseStep at h
  split_ifs at h
  · obtain ⟨j, rfl⟩ := lineSearch_pow o R x d _ s s' t h
    exact ⟨j, by rw [one_div, inv_pow, div_eq_mul_inv]⟩
  · obtain ⟨rfl, _⟩ := pure_ok.1 h
    exact ⟨0, by simp⟩

omit [LinearOrder K] [IsStrictOrderedRing K] [FloorSemiring K] in
theorem logBlock_congr (o : Oracle K n σ) (R R' : Regularizer K n) (L : Logger (PyVal K n)) (hl : R.value = R'.value ∨ "loss" ∉ L.keys) (x : Vec K n)
    (vars : String → Option (PyVal K n)) : logBlock o R L x vars = logBlock o R' L x vars := by
  unfold logBlock lossAt
  rcases hl with hl | hl
  · rw [hl]
  · simp only [hl, if_false]

theorem bind_congr_ok {α β : Type} {m : PyM σ α} {f f' : α → PyM σ β} {s : σ} (h : ∀ a s', m s = .ok (a, s') → f a s' = f' a s') :
    (m >>= f) s = (m >>= f') s := by
  show (m s >>= fun r => f r.1 r.2) = (m s >>= fun r => f' r.1 r.2)
  cases hm : m s with
  | error e => rfl
  | ok r => exact h r.1 r.2 hm

theorem exc_bind_error {α β : Type} {m : Except PyErr α} {f : α → Except PyErr β} {e : PyErr} (h : m = .error e) : (m >>= f) = .error e := by
  rw [h]
  rfl

theorem pym_bind_error {α β : Type} {m : PyM σ α} {f : α → PyM σ β} {s : σ} {e : PyErr} (h : m s = .error e) : (m >>= f) s = .error e := by
  show (m s >>= fun r => f r.1 r.2) = _
  rw [h]
  rfl

theorem pym_bind_ok {α β : Type} {m : PyM σ α} {f : α → PyM σ β} {s s' : σ} {a : α} (h : m s = .ok (a, s')) : (m >>= f) s = f a s' := by
  show (m s >>= fun r => f r.1 r.2) = _
  rw [h]
  rfl

theorem pgdLoop_congr (o : Oracle K n σ) {R R' : Regularizer K n} (cfg : PGDCfg K) (hp : SameProx R R' cfg.fixedStepLen) (x0 x : Vec K n) (xprev : Option (Vec K n))
    (it : ℕ) (L : Logger (PyVal K n)) (hl : R.value = R'.value ∨ "loss" ∉ L.keys) (s : σ) :
    pgdLoop o R cfg x0 x xprev it L s = pgdLoop o R' cfg x0 x xprev it L s := by
  induction x, xprev, it, L using pgdLoop.induct (cfg := cfg) generalizing s with
  | case1 x xprev it L hg ih =>
    conv_lhs => rw [pgdLoop, dif_pos hg]
    conv_rhs => rw [pgdLoop, dif_pos hg]
    have hb : pgdBody o R cfg x0 x it L s = pgdBody o R' cfg x0 x it L s := by
      unfold pgdBody
      refine bind_congr_ok fun g s1 _ => ?_
      rw [chooseStep_congr o cfg hp]
      refine bind_congr_ok fun t s2 ht => ?_
      obtain ⟨j, rfl⟩ := chooseStep_dyadic _ _ _ _ _ _ _ _ ht
      rw [hp]
      simp only [logBlock_congr o R R' L hl]
    show (pgdBody o R cfg x0 x it L s >>= fun r => pgdLoop o R cfg x0 r.1.1 (some x) (it + 1) r.1.2 r.2) =
      (pgdBody o R' cfg x0 x it L s >>= fun r => pgdLoop o R' cfg x0 r.1.1 (some x) (it + 1) r.1.2 r.2)
    rw [hb]
    cases h : pgdBody o R' cfg x0 x it L s with
    | error e => rfl
    | ok r =>
      obtain ⟨⟨x', L'⟩, s'⟩ := r
      obtain ⟨_, _, _, _, _, _, _, hL⟩ := pgdBody_ok _ _ _ _ _ _ _ _ _ _ _ h
      exact ih (x', L') (by rw [(logBlock_keys _ _ _ _ _ _ _ _ hL).2]; exact hl) s'
  | case2 x xprev it L hg =>
    conv_lhs => rw [pgdLoop, dif_neg hg]
    conv_rhs => rw [pgdLoop, dif_neg hg]

theorem pgdOptimize_congr (o : Oracle K n σ) {R R' : Regularizer K n} (cfg : PGDCfg K) (hp : SameProx R R' cfg.fixedStepLen) (x0 : Vec K n) (L : Logger (PyVal K n))
    (hl : R.value = R'.value ∨ "loss" ∉ L.keys) (s : σ) : pgdOptimize o R cfg x0 L s = pgdOptimize o R' cfg x0 L s := by
  unfold pgdOptimize
  rw [logBlock_congr o R R' L hl]
  refine bind_congr_ok fun L0 s0 h => ?_
  have := pgdLoop_congr o cfg hp x0 x0 none 0 L0 (by rw [(logBlock_keys _ _ _ _ _ _ _ _ h).2]; exact hl) s0
  show (pgdLoop o R cfg x0 x0 none 0 L0 s0 >>= fun r => _) = (pgdLoop o R' cfg x0 x0 none 0 L0 s0 >>= fun r => _)
  rw [this]

theorem practicalLoop_congr {m : ℕ} (A : Matrix (Fin m) (Fin n) K) (b : Vec K m) (c : Matrix (Fin n) (Fin n) K) (lam : K) {R R' : Regularizer K n} (hp : ∀ y, R.prox y (1 / lam) = R'.prox y (1 / lam)) (tol : K)
    (maxIter : ℤ) (x : Vec K n) (xprev : Option (Vec K n)) (it : ℕ) : practicalLoop A b c lam R tol maxIter x xprev it = practicalLoop A b c lam R' tol maxIter x xprev it := by
  induction x, xprev, it using practicalLoop.induct (tol := tol) (maxIter := maxIter) with
  | case1 x xprev it hg ih =>
    conv_lhs => rw [practicalLoop, dif_pos hg]
    conv_rhs => rw [practicalLoop, dif_pos hg]
    rw [hp]
    simp only [ih]
  | case2 x xprev it hg =>
    conv_lhs => rw [practicalLoop, dif_neg hg]
    conv_rhs => rw [practicalLoop, dif_neg hg]

theorem practicalLoop_total {m : ℕ} (A : Matrix (Fin m) (Fin n) K) (b : Vec K m) (c : Matrix (Fin n) (Fin n) K) (lam : K) (R : Regularizer K n)
    (hp : ∀ y t, ∃ z, R.prox y t = .ok z) (tol : K) (maxIter : ℤ) (x : Vec K n) (xprev : Option (Vec K n)) (it : ℕ) :
    ∃ z, practicalLoop A b c lam R tol maxIter x xprev it = .ok z := by
  induction x, xprev, it using practicalLoop.induct (tol := tol) (maxIter := maxIter) with
  | case1 x xprev it hg ih =>
    rw [practicalLoop, dif_pos hg]
    obtain ⟨z, hz⟩ := hp (sr3Inner A b c lam x) (1 / lam)
    rw [hz]
    exact ih z
  | case2 x xprev it hg =>
    rw [practicalLoop, dif_neg hg]
    exact ⟨x, rfl⟩

/-- Whatever is logged, two runs that return give the same point, for an oracle without state. -/
theorem pgdOptimize_same (o : Oracle K n Unit) {R R' : Regularizer K n} (hp : R.prox = R'.prox) (cfg : PGDCfg K) (x0 : Vec K n) (L L' : Logger (PyVal K n))
    (x x' : Vec K n) (Lf Lf' : Logger (PyVal K n)) (s s' : Unit) (h : pgdOptimize o R cfg x0 L () = .ok ((x, Lf), s))
    (h' : pgdOptimize o R' cfg x0 L' () = .ok ((x', Lf'), s')) : x = x' := by
  let St : Vec K n → Vec K n → Prop := fun x x' => ∃ g t, o.grad x () = .ok (g, ()) ∧ chooseStep o R cfg x (-g) () = .ok (t, ()) ∧
    R.prox (fun i => x i - t * g i) t = .ok x'
  have hSt : ∀ x a b, St x a → St x b → a = b := by
    rintro x a b ⟨g, t, h1, h2, h3⟩ ⟨g', t', h1', h2', h3'⟩
    rw [h1] at h1'; cases h1'
    rw [h2] at h2'; cases h2'
    rw [h3] at h3'; cases h3'
    rfl
  obtain ⟨k, X, Ls, s1, L1, -, h0, hk, -, -, hsteps, hg, he⟩ := pgdOptimize_trace o R cfg x0 L (fun x _ x' _ => St x x')
    (fun x it L s x' L' s' hb => by
      obtain ⟨g, s1, t, s2, h1, h2, h3, -⟩ := pgdBody_ok _ _ _ _ _ _ _ _ _ _ _ hb
      exact ⟨g, t, h1, h2, h3⟩) _ _ _ _ h
  obtain ⟨k', X', Ls', s1', L1', -, h0', hk', -, -, hsteps', hg', he'⟩ := pgdOptimize_trace o R' cfg x0 L' (fun x _ x' _ => St x x')
    (fun x it L s x' L' s' hb => by
      obtain ⟨g, s1, t, s2, h1, h2, h3, -⟩ := pgdBody_ok _ _ _ _ _ _ _ _ _ _ _ hb
      exact ⟨g, t, h1, by rw [chooseStep_congr o cfg (.of_eq hp _)]; exact h2, by rw [hp]; exact h3⟩) _ _ _ _ h'
  have hX : ∀ i, i ≤ k → i ≤ k' → X i = X' i := by
    intro i
    induction i with
    | zero => intro _ _; rw [h0, h0']
    | succ i ih =>
      intro h1 h2
      have e := ih (by omega) (by omega)
      exact hSt (X i) _ _ (hsteps i (by omega)) (by rw [e]; exact hsteps' i (by omega))
  have hguard : ∀ i, i ≤ k → i ≤ k' → (guardAt cfg X 0 i none ↔ guardAt cfg X' 0 i none) := by
    intro i h1 h2
    unfold guardAt
    rw [hX i h1 h2]
    cases i with
    | zero => rfl
    | succ i => simp only [hX i (by omega) (by omega)]
  have hkk : k = k' := by
    rcases lt_trichotomy k k' with hlt | heq | hlt
    · exact absurd ((hguard k le_rfl hlt.le).2 (hg' k hlt)) he
    · exact heq
    · exact absurd ((hguard k' hlt.le le_rfl).1 (hg k' hlt)) he'
  subst hkk
  rw [← hk, ← hk']
  exact hX k le_rfl le_rfl

end

/-! ## C109 -/

/-- The penalty does nothing: its prox returns its argument. -/
def LinPenalty.Off (pen : LinPenalty) : Prop :=
  match pen with
  | .dummy => True
  | .l0 nnz _ => nnz = none
  | .l1 lam => lam = 0
  | .cad lam _ => lam = 0
  | .scad lam rho _ => lam = 0 ∧ 1 < rho

theorem maskedKMax_full {n : ℕ} (mask : Fin n → Bool) (as : ArgSort {i // mask i = true} ℝ) (x : Vec ℝ n) : maskedKMax mask as x n = x := by
  have hcard : (nnzOn mask x : ℤ) ≤ max ((n : ℤ) - (Set.ncard {i | mask i = false} : ℤ)) 0 := by
    refine le_max_of_le_left ?_
    have h1 : nnzOn mask x + Set.ncard {i | mask i = false} ≤ n := by
      unfold nnzOn
      rw [← Set.ncard_union_eq _ (Set.toFinite _) (Set.toFinite _)]
      · exact (Set.ncard_le_card _).trans (by simp)
      · refine Set.disjoint_left.2 fun i hi hi' => ?_
        rw [Set.mem_ofPred_eq] at hi hi'
        rw [hi'] at hi
        exact absurd hi.1 (by simp)
    omega
  have h := maskedKMax_best mask as x n x (fun _ _ => rfl) hcard
  simp only [sub_self] at h
  have h0 : ∑ i, (maskedKMax mask as x n i - x i) ^ 2 = 0 := le_antisymm (h.trans (by simp)) (Finset.sum_nonneg fun i _ => sq_nonneg _)
  funext i
  have := (Finset.sum_eq_zero_iff_of_nonneg fun i _ => sq_nonneg _).1 h0 i (Finset.mem_univ _)
  have := pow_eq_zero_iff two_ne_zero |>.1 this
  linarith

theorem LinPenalty.Off.prox {pen : LinPenalty} (h : pen.Off) {n : ℕ} (w : Vec ℝ n) : (pen.build n w).prox = (dummyRegularizer : Regularizer ℝ n).prox := by
  funext y t
  cases pen with
  | dummy => rfl
  | l0 nnz sort => cases h; exact congrArg Except.ok (maskedKMax_full _ _ y)
  | l1 lam =>
    cases h
    show Except.ok _ = Except.ok _
    congr 1; funext i; rw [mul_zero, soft_zero]
  | cad lam rho =>
    cases h
    show Except.ok _ = Except.ok _
    congr 1; funext i; rw [mul_zero, soft_zero, ite_self]
  | scad lam rho sigma =>
    obtain ⟨rfl, hr⟩ := h
    show collect _ = Except.ok y
    refine (collect_ok_iff _ _).2 fun i => ?_
    rw [mul_zero, zero_mul]
    unfold scadProx1
    have h1 : rho - 1 ≠ 0 := by linarith
    rw [sub_zero, if_neg h1, mul_zero, mul_zero, soft_zero, sub_zero, mul_div_cancel_left₀ _ h1]
    simp only [ite_self]

theorem LinPenalty.Off.check {pen : LinPenalty} (h : pen.Off) : pen.check = .ok () := by
  cases pen with
  | scad lam rho sigma => exact if_pos h.2
  | _ => rfl

theorem linClassFit_plain (pen : LinPenalty) (a : LinArgs) (hch : pen.check = .ok ()) (hpr : a.prior = .none) (P : LinProblem ℝ) (x0 : Option (Vec ℝ P.n)) (warm : Bool)
    (w : Option (Vec ℝ P.n)) : linClassFit pen false a P x0 warm w = (do
      let r ← pgdOptimize (linOracle P.a P.b .nonInformative) (pen.build P.n (w.getD fun _ => 1)) (linClass pen false a).solver (fitStart x0 warm) (Logger.init a.loggerKind a.loggerKeys) ()
      let L' ← logIC r.1.2 (linAic P.a P.b .nonInformative r.1.1) (linBic P.a P.b .nonInformative r.1.1)
      return (r.1.1, L')) := by
  unfold linClassFit
  rw [hch]
  show linFit (linClass pen false a) P x0 warm w = _
  unfold linFit
  simp only [linClass, Bool.false_eq_true, if_false, hpr, linOracleInstantiate]
  rfl

theorem linClassFit_sr3 (pen : LinPenalty) (a : LinArgs) (hch : pen.check = .ok ()) (hpr : a.prior = .none) (P : LinProblem ℝ) (hd : (sr3H P.a P.c a.el).det ≠ 0)
    (x0 : Option (Vec ℝ P.n)) (warm : Bool) (w : Option (Vec ℝ P.n)) : linClassFit pen true a P x0 warm w = (do
      let r ← (if a.practical then
          fakeOptimize (sr3Oracle P.a P.b P.c a.el false) (fun x => callReg (findOptimalParameters P.a P.b P.c a.el (pen.build P.n (w.getD fun _ => 1)) a.tol a.maxIter x))
            (pen.build P.n (w.getD fun _ => 1)) (fitStart x0 warm) (Logger.init a.loggerKind a.loggerKeys) ()
        else pgdOptimize (sr3Oracle P.a P.b P.c a.el false) (pen.build P.n (w.getD fun _ => 1)) (linClass pen true a).solver (fitStart x0 warm)
          (Logger.init a.loggerKind a.loggerKeys) ())
      let L' ← logIC r.1.2 (sr3Aic P.a P.b r.1.1) (sr3Bic P.a P.b r.1.1)
      return (r.1.1, L')) := by
  unfold linClassFit
  rw [hch]
  show linFit (linClass pen true a) P x0 warm w = _
  unfold linFit
  simp only [linClass, if_true, hpr, hd, if_false]
  rfl

/-- **C109** is violated: `LinearL0Model` and `LinearL0ModelSR3` with their default budget `nnz=None` raise `TypeError` on every problem as soon as the loss is logged. -/
theorem C109_defaults_violated (sort : NpSort) (sr3 : Bool) (a : LinArgs) (hel : 0 < a.el) (hpr : a.prior = .none) (hloss : "loss" ∈ a.loggerKeys)
    (P : LinProblem ℝ) (hc : P.c = 1) (x0 : Option (Vec ℝ P.n)) (warm : Bool) (w : Option (Vec ℝ P.n)) :
    linClassFit (.l0 none sort) sr3 a P x0 warm w = .error .typeError := by
  set R := (LinPenalty.l0 none sort).build P.n (w.getD fun _ => 1) with hR
  have hmem : "loss" ∈ (Logger.init a.loggerKind a.loggerKeys : Logger (PyVal ℝ P.n)).keys := hloss
  have hloss : ∀ (o : Oracle ℝ P.n Unit) (f : Vec ℝ P.n → ℝ), (∀ x, o.value x () = .ok (f x, ())) → ∀ x, lossAt o R x () = .error .typeError := by
    intro o f ho x
    unfold lossAt
    show (o.value x () >>= fun r => _) = _
    rw [ho]
    rfl
  have hlog : ∀ (o : Oracle ℝ P.n Unit) (f : Vec ℝ P.n → ℝ), (∀ x, o.value x () = .ok (f x, ())) → ∀ x cfg,
      pgdOptimize o R cfg x (Logger.init a.loggerKind a.loggerKeys) () = .error .typeError := by
    intro o f ho x cfg
    have h1 : logBlock o R (Logger.init a.loggerKind a.loggerKeys) x (localsInit x) () = .error .typeError := by
      unfold logBlock
      simp only [hmem, if_true]
      show ((lossAt o R x () >>= fun r => _) >>= fun r => _) = _
      rw [hloss o f ho x]
      rfl
    unfold pgdOptimize
    show (logBlock o R _ x (localsInit x) () >>= fun r => _) = _
    rw [h1]
    rfl
  cases sr3 with
  | false =>
    rw [linClassFit_plain _ _ rfl hpr, ← hR, hlog (linOracle P.a P.b .nonInformative) _ (fun x => rfl)]
    rfl
  | true =>
    rw [linClassFit_sr3 _ _ rfl hpr _ (by rw [hc]; exact sr3H_one_det _ _ hel), ← hR]
    cases a.practical with
    | false =>
      rw [if_neg (by simp), hlog (sr3Oracle P.a P.b P.c a.el false) (sr3Value P.a P.b P.c a.el) (fun x => sr3Oracle_value _ _ _ hel.le x ())]
      rfl
    | true =>
      rw [if_pos rfl]
      obtain ⟨z, hz⟩ := practicalLoop_total P.a P.b P.c a.el R (fun y t => ⟨_, rfl⟩) a.tol a.maxIter (fitStart x0 warm) none 0
      have hfake : fakeOptimize (sr3Oracle P.a P.b P.c a.el false) (fun x => callReg (findOptimalParameters P.a P.b P.c a.el R a.tol a.maxIter x)) R (fitStart x0 warm)
          (Logger.init a.loggerKind a.loggerKeys) () = .error .typeError := by
        unfold fakeOptimize
        refine (pym_bind_ok (callReg_ok.2 ⟨(findOptimalParameters_eq _ _ _ hel.ne' _ _ _ _).trans hz, rfl⟩)).trans (pym_bind_error ?_)
        simp only [hmem, if_true]
        exact pym_bind_error (hloss _ (sr3Value P.a P.b P.c a.el) (fun x => sr3Oracle_value _ _ _ hel.le x ()) z)
      rw [hfake]
      rfl

/-- **C109**, when the loss is not logged: models of every class with the penalty switched off (as it is by default) do exactly what `SimpleLinearModel` or `SimpleLinearModelSR3` with the same
arguments does. Missing: L0 models with logged losses (false, see `C109_defaults_violated`). -/
theorem C109_defaults_partial (pen : LinPenalty) (hoff : pen.Off) (sr3 : Bool) (a : LinArgs) (hpr : a.prior = .none) (hloss : "loss" ∉ a.loggerKeys)
    (P : LinProblem ℝ) (hd : sr3 = true → (sr3H P.a P.c a.el).det ≠ 0) (x0 : Option (Vec ℝ P.n)) (warm : Bool) (w : Option (Vec ℝ P.n)) :
    linClassFit pen sr3 a P x0 warm w = linClassFit .dummy sr3 a P x0 warm w := by
  have hp := hoff.prox (w.getD fun _ => 1)
  have hl : "loss" ∉ (Logger.init a.loggerKind a.loggerKeys : Logger (PyVal ℝ P.n)).keys := hloss
  cases sr3 with
  | false =>
    rw [linClassFit_plain pen a hoff.check hpr, linClassFit_plain .dummy a rfl hpr,
      pgdOptimize_congr _ (R := pen.build P.n _) (R' := LinPenalty.dummy.build P.n _) _ (.of_eq hp _) _ _ (Or.inr hl)]
    rfl
  | true =>
    rw [linClassFit_sr3 pen a hoff.check hpr P (hd rfl), linClassFit_sr3 .dummy a rfl hpr P (hd rfl)]
    cases a.practical with
    | false =>
      rw [if_neg (by simp), if_neg (by simp), pgdOptimize_congr _ (R := pen.build P.n _) (R' := LinPenalty.dummy.build P.n _) _ (.of_eq hp _) _ _ (Or.inr hl)]
      rfl
    | true =>
      have hf : ∀ x : Vec ℝ P.n, findOptimalParameters P.a P.b P.c a.el (pen.build P.n (w.getD fun _ => 1)) a.tol a.maxIter x =
          findOptimalParameters P.a P.b P.c a.el (LinPenalty.dummy.build P.n (w.getD fun _ => 1)) a.tol a.maxIter x :=
        fun x => by
          unfold findOptimalParameters
          rw [practicalLoop_congr P.a P.b P.c a.el (R' := LinPenalty.dummy.build P.n (w.getD fun _ => 1)) (fun y => by rw [hp]; rfl) a.tol a.maxIter x none 0]
      simp only [if_true, hf, fakeOptimize, hl, if_false]

/-! ## C110 -/

/-- The arguments of the class are admissible for this fit: SCAD needs `rho > 1` and, for all weights, steps different from `(rho - 1) / (lam * w)` (the first step and its halves, or the step
`1/el` of the practical mode), L0 needs a budget when the loss is logged. -/
def LinPenalty.Admissible (pen : LinPenalty) (sr3 : Bool) (a : LinArgs) {n : ℕ} (w : Vec ℝ n) : Prop :=
  match pen with
  | .l0 nnz _ => nnz ≠ none ∨ "loss" ∉ a.loggerKeys
  | .scad lam rho _ => 1 < rho ∧ ((sr3 && a.practical) = false → ∀ (j : ℕ) i, (linClass pen sr3 a).step * (1 / 2) ^ j * lam * w i ≠ rho - 1) ∧
      ((sr3 && a.practical) = true → ∀ i, 1 / a.el * lam * w i ≠ rho - 1)
  | _ => True

theorem scad_prox_total {n : ℕ} (lam rho sigma t : ℝ) (w : Vec ℝ n) (ht : ∀ i, t * lam * w i ≠ rho - 1) (y : Vec ℝ n) :
    ∃ z, (scadRegularizer rho sigma lam (some w)).prox y t = .ok z := by
  have : ∀ i, ∃ z, scadProx1 rho sigma (w i) (t * lam * w i) (y i) = .ok z := by
    intro i
    unfold scadProx1
    have h := ht i
    rw [if_neg (show ¬ rho - 1 - t * lam * w i = 0 by intro h0; exact h (by linarith))]
    split_ifs <;> exact ⟨_, rfl⟩
  choose z hz using this
  exact ⟨z, (collect_ok_iff _ _).2 hz⟩

/-- The regularizer with all exceptions removed. -/
noncomputable def Regularizer.tame {n : ℕ} (R : Regularizer ℝ n) : Regularizer ℝ n where
  value := fun x => match R.value x with | .ok v => .ok v | .error _ => .ok 0
  prox := fun y t => match R.prox y t with | .ok z => .ok z | .error _ => .ok y

theorem Regularizer.tame_prox {n : ℕ} {R : Regularizer ℝ n} {y : Vec ℝ n} {t : ℝ} (h : ∃ z, R.prox y t = .ok z) : R.tame.prox y t = R.prox y t := by
  obtain ⟨z, hz⟩ := h
  simp only [Regularizer.tame, hz]

theorem Regularizer.tame_total {n : ℕ} (R : Regularizer ℝ n) (y : Vec ℝ n) (t : ℝ) : ∃ z, R.tame.prox y t = .ok z := by
  unfold Regularizer.tame
  cases h : R.prox y t with
  | ok z => exact ⟨z, by simp only [h]⟩
  | error e => exact ⟨y, by simp only [h]⟩

theorem Regularizer.tame_value {n : ℕ} (R : Regularizer ℝ n) : ∃ g : Vec ℝ n → WithTop ℝ, ∀ x, R.tame.value x = .ok (g x) := by
  refine ⟨fun x => match R.value x with | .ok v => v | .error _ => 0, fun x => ?_⟩
  unfold Regularizer.tame
  cases h : R.value x with
  | ok z => simp only [h]
  | error e => simp only [h]

theorem Regularizer.tame_value_eq {n : ℕ} {R : Regularizer ℝ n} (h : ∀ x, ∃ v, R.value x = .ok v) : R.value = R.tame.value := by
  funext x
  obtain ⟨v, hv⟩ := h x
  simp only [Regularizer.tame, hv]

theorem pgd_returns_on {n : ℕ} (o : Oracle ℝ n Unit) (R : Regularizer ℝ n) (f : Vec ℝ n → ℝ) (gr : Vec ℝ n → Vec ℝ n) (hf : ∀ x, o.value x () = .ok (f x, ()))
    (hgr : ∀ x, o.grad x () = .ok (gr x, ())) (cfg : PGDCfg ℝ) (hp : ∀ (j : ℕ) y, ∃ z, R.prox y (cfg.fixedStepLen * (1 / 2) ^ j) = .ok z)
    (x0 : Vec ℝ n) (L : Logger (PyVal ℝ n)) (hL : L.Good) (hv : (∀ x, ∃ v, R.value x = .ok v) ∨ "loss" ∉ L.keys) :
    ∃ x Lf, pgdOptimize o R cfg x0 L () = .ok ((x, Lf), ()) := by
  obtain ⟨g, hg⟩ := R.tame_value
  obtain ⟨x, Lf, s', h⟩ := C16_returns o R.tame f gr g (fun x s => ⟨s, hf x⟩) (fun x s => ⟨s, hgr x⟩) hg R.tame_total cfg x0 L hL ()
  refine ⟨x, Lf, ?_⟩
  rw [pgdOptimize_congr o cfg (fun j y => (R.tame_prox (hp j y)).symm) x0 L (hv.imp Regularizer.tame_value_eq id)]
  exact h

theorem practical_returns_on {m n : ℕ} (A : Matrix (Fin m) (Fin n) ℝ) (b : Vec ℝ m) (c : Matrix (Fin n) (Fin n) ℝ) (lam : ℝ) (hlam : lam ≠ 0) (R : Regularizer ℝ n)
    (hp : ∀ y, ∃ z, R.prox y (1 / lam) = .ok z) (tol : ℝ) (maxIter : ℤ) (o : Oracle ℝ n Unit) (f : Vec ℝ n → ℝ) (hf : ∀ x, o.value x () = .ok (f x, ()))
    (x0 : Vec ℝ n) (L : Logger (PyVal ℝ n)) (hL : L.Good) (hv : (∀ x, ∃ v, R.value x = .ok v) ∨ "loss" ∉ L.keys) :
    ∃ x Lf, fakeOptimize o (fun x => callReg (findOptimalParameters A b c lam R tol maxIter x)) R x0 L () = .ok ((x, Lf), ()) := by
  obtain ⟨x, hx⟩ := practicalLoop_total A b c lam R.tame R.tame_total tol maxIter x0 none 0
  rw [practicalLoop_congr A b c lam (R' := R) (fun y => R.tame_prox (hp y))] at hx
  have h1 : callReg (findOptimalParameters A b c lam R tol maxIter x0) () = .ok (x, ()) := callReg_ok.2 ⟨(findOptimalParameters_eq A b c hlam R tol maxIter x0).trans hx, rfl⟩
  unfold fakeOptimize
  by_cases hl : "loss" ∈ L.keys
  · obtain ⟨v, hv⟩ := (hv.resolve_right (fun h => h hl)) x
    obtain ⟨L1, hL1, hg1, -⟩ := hL.add "loss" (.atom (.num ((f x : WithTop ℝ) + v)))
    obtain ⟨L2, hL2, -⟩ := hg1.add "converged" (.atom (.bool true))
    refine ⟨x, L2, bind_ok.2 ⟨_, _, h1, ?_⟩⟩
    simp only [hl, if_true]
    refine bind_ok.2 ⟨L1, (), bind_ok.2 ⟨_, _, ?_, callReg_ok.2 ⟨hL1, rfl⟩⟩, bind_ok.2 ⟨L2, (), callReg_ok.2 ⟨hL2, rfl⟩, rfl⟩⟩
    exact bind_ok.2 ⟨_, _, hf x, bind_ok.2 ⟨_, _, callReg_ok.2 ⟨hv, rfl⟩, rfl⟩⟩
  · obtain ⟨L2, hL2, -⟩ := hL.add "converged" (.atom (.bool true))
    refine ⟨x, L2, bind_ok.2 ⟨_, _, h1, ?_⟩⟩
    simp only [hl, if_false]
    exact bind_ok.2 ⟨L, (), rfl, bind_ok.2 ⟨L2, (), callReg_ok.2 ⟨hL2, rfl⟩, rfl⟩⟩

/-- **C110**, what does hold: with admissible arguments (see `LinPenalty.Admissible`), without a prior and with distinct logger keys in a tuple, every class fits every problem: `fit_problem` returns.
Missing: SCAD with steps that hit the division by zero (false, see `C110_scad_violated`), Gaussian priors (false, C30) and other containers of keys (false, C25). -/
theorem C110_returns_partial (pen : LinPenalty) (sr3 : Bool) (a : LinArgs) (hpr : a.prior = .none) (hk : a.loggerKind = .tuple) (hks : a.loggerKeys.Nodup)
    (hel : sr3 = true → 0 < a.el) (P : LinProblem ℝ) (hc : P.c = 1) (x0 : Option (Vec ℝ P.n)) (warm : Bool) (w : Option (Vec ℝ P.n))
    (hadm : pen.Admissible sr3 a (w.getD fun _ => 1)) : ∃ x L, linClassFit pen sr3 a P x0 warm w = .ok (x, L) := by
  have hch : pen.check = .ok () := by
    cases pen with
    | scad lam rho sigma => exact if_pos hadm.1
    | _ => rfl
  have hL : (Logger.init a.loggerKind a.loggerKeys : Logger (PyVal ℝ P.n)).Good := by rw [hk]; exact Logger.good_init _ hks
  have hv : (∀ x, ∃ v, (pen.build P.n (w.getD fun _ => 1)).value x = .ok v) ∨ "loss" ∉ (Logger.init a.loggerKind a.loggerKeys : Logger (PyVal ℝ P.n)).keys := by
    cases pen with
    | l0 nnz sort =>
      refine hadm.imp (fun h x => ?_) id
      obtain ⟨k, rfl⟩ := Option.ne_none_iff_exists'.1 h
      show ∃ v, (if (nnzCount x : ℤ) > k then Except.ok ⊤ else Except.ok 0) = Except.ok v
      split_ifs <;> exact ⟨_, rfl⟩
    | _ => exact Or.inl fun x => ⟨_, rfl⟩
  have hp : (sr3 && a.practical) = false → ∀ (j : ℕ) y,
      ∃ z, (pen.build P.n (w.getD fun _ => 1)).prox y ((linClass pen sr3 a).solver.fixedStepLen * (1 / 2) ^ j) = .ok z := by
    intro hsp j y
    cases pen with
    | scad lam rho sigma => exact scad_prox_total lam rho sigma _ _ (hadm.2.1 hsp j) y
    | _ => exact ⟨_, rfl⟩
  have hp' : (sr3 && a.practical) = true → ∀ y, ∃ z, (pen.build P.n (w.getD fun _ => 1)).prox y (1 / a.el) = .ok z := by
    intro hsp y
    cases pen with
    | scad lam rho sigma => exact scad_prox_total lam rho sigma _ _ (hadm.2.2 hsp) y
    | _ => exact ⟨_, rfl⟩
  cases sr3 with
  | false =>
    rw [linClassFit_plain pen a hch hpr]
    obtain ⟨x, Lf, h⟩ := pgd_returns_on (linOracle P.a P.b .nonInformative) _ _ _ (fun x => rfl) (fun x => rfl) (linClass pen false a).solver (hp rfl) (fitStart x0 warm) _ hL hv
    obtain ⟨L', hL'⟩ := logIC_ok Lf (linAic P.a P.b .nonInformative x) (linBic P.a P.b .nonInformative x)
    exact ⟨x, L', except_bind_ok.2 ⟨_, h, except_bind_ok.2 ⟨_, hL', rfl⟩⟩⟩
  | true =>
    rw [linClassFit_sr3 pen a hch hpr P (by rw [hc]; exact sr3H_one_det _ _ (hel rfl))]
    by_cases hprac : a.practical = true
    · rw [if_pos hprac]
      obtain ⟨x, Lf, h⟩ := practical_returns_on P.a P.b P.c a.el (hel rfl).ne' _ (hp' (by simp [hprac])) a.tol a.maxIter (sr3Oracle P.a P.b P.c a.el false) (sr3Value P.a P.b P.c a.el)
        (fun x => sr3Oracle_value _ _ _ (hel rfl).le x ()) (fitStart x0 warm) _ hL hv
      obtain ⟨L', hL'⟩ := logIC_ok Lf (sr3Aic P.a P.b x) (sr3Bic P.a P.b x)
      exact ⟨x, L', except_bind_ok.2 ⟨_, h, except_bind_ok.2 ⟨_, hL', rfl⟩⟩⟩
    · rw [if_neg hprac]
      obtain ⟨x, Lf, h⟩ := pgd_returns_on (sr3Oracle P.a P.b P.c a.el false) _ (sr3Value P.a P.b P.c a.el) (sr3Gradient P.a P.b P.c a.el) (fun x => sr3Oracle_value _ _ _ (hel rfl).le x ())
        (fun x => sr3Oracle_grad _ _ _ (hel rfl).le x ())
        (linClass pen true a).solver (hp (by simpa using hprac)) (fitStart x0 warm) _ hL hv
      obtain ⟨L', hL'⟩ := logIC_ok Lf (sr3Aic P.a P.b x) (sr3Bic P.a P.b x)
      exact ⟨x, L', except_bind_ok.2 ⟨_, h, except_bind_ok.2 ⟨_, hL', rfl⟩⟩⟩

/-- **C109**, whatever is logged: L1, CAD and SCAD models with strength `0` return, and find the coefficients of the model without penalty. -/
theorem C109_coefficients_partial (pen : LinPenalty) (hoff : pen.Off) (hl0 : ∀ nnz sort, pen ≠ .l0 nnz sort) (sr3 : Bool) (a : LinArgs) (hel : sr3 = true → 0 < a.el)
    (hpr : a.prior = .none) (hk : a.loggerKind = .tuple) (hks : a.loggerKeys.Nodup)
    (P : LinProblem ℝ) (hc : P.c = 1) (x0 : Option (Vec ℝ P.n)) (warm : Bool) (w : Option (Vec ℝ P.n)) :
    ∃ x L L', linClassFit pen sr3 a P x0 warm w = .ok (x, L) ∧ linClassFit .dummy sr3 a P x0 warm w = .ok (x, L') := by
  have hadm : pen.Admissible sr3 a (w.getD fun _ => 1) := by
    cases pen with
    | l0 nnz sort => exact absurd rfl (hl0 nnz sort)
    | scad lam rho sigma =>
      obtain ⟨rfl, h1⟩ := hoff
      exact ⟨h1, fun _ j i => by rw [mul_zero, zero_mul]; linarith, fun _ i => by rw [mul_zero, zero_mul]; linarith⟩
    | _ => trivial
  obtain ⟨x, L, h⟩ := C110_returns_partial pen sr3 a hpr hk hks hel P hc x0 warm w hadm
  obtain ⟨x', L', h'⟩ := C110_returns_partial .dummy sr3 a hpr hk hks hel P hc x0 warm w trivial
  have hp := hoff.prox (w.getD fun _ => 1)
  suffices x = x' by subst this; exact ⟨x, L, L', h, h'⟩
  cases sr3 with
  | false =>
    rw [linClassFit_plain _ a hoff.check hpr] at h
    rw [linClassFit_plain _ a rfl hpr] at h'
    obtain ⟨⟨⟨y, Ly⟩, sy⟩, hy, h⟩ := except_bind_ok.1 h
    obtain ⟨⟨⟨y', Ly'⟩, sy'⟩, hy', h'⟩ := except_bind_ok.1 h'
    obtain ⟨_, _, h⟩ := except_bind_ok.1 h
    obtain ⟨_, _, h'⟩ := except_bind_ok.1 h'
    cases h; cases h'
    exact pgdOptimize_same _ (R := pen.build P.n _) (R' := LinPenalty.dummy.build P.n _) hp _ _ _ _ _ _ _ _ _ _ hy hy'
  | true =>
    have hd : (sr3H P.a P.c a.el).det ≠ 0 := by rw [hc]; exact sr3H_one_det _ _ (hel rfl)
    rw [linClassFit_sr3 _ a hoff.check hpr P hd] at h
    rw [linClassFit_sr3 _ a rfl hpr P hd] at h'
    obtain ⟨⟨⟨y, Ly⟩, sy⟩, hy, h⟩ := except_bind_ok.1 h
    obtain ⟨⟨⟨y', Ly'⟩, sy'⟩, hy', h'⟩ := except_bind_ok.1 h'
    obtain ⟨_, _, h⟩ := except_bind_ok.1 h
    obtain ⟨_, _, h'⟩ := except_bind_ok.1 h'
    cases h; cases h'
    by_cases hprac : a.practical = true
    · rw [if_pos hprac] at hy hy'
      unfold fakeOptimize at hy hy'
      obtain ⟨z, s1, hz, hy⟩ := bind_ok.1 hy
      obtain ⟨z', s1', hz', hy'⟩ := bind_ok.1 hy'
      obtain ⟨_, _, _, hy⟩ := bind_ok.1 hy
      obtain ⟨_, _, _, hy'⟩ := bind_ok.1 hy'
      obtain ⟨_, _, _, hy⟩ := bind_ok.1 hy
      obtain ⟨_, _, _, hy'⟩ := bind_ok.1 hy'
      cases hy; cases hy'
      have e1 := (callReg_ok.1 hz).1
      have e2 := (callReg_ok.1 hz').1
      rw [findOptimalParameters_eq _ _ _ (hel rfl).ne'] at e1 e2
      rw [practicalLoop_congr _ _ _ _ (R' := LinPenalty.dummy.build P.n (w.getD fun _ => 1)) (fun y => by rw [hp]; rfl), e2] at e1
      cases e1
      rfl
    · rw [if_neg hprac] at hy hy'
      exact pgdOptimize_same _ (R := pen.build P.n _) (R' := LinPenalty.dummy.build P.n _) hp _ _ _ _ _ _ _ _ _ _ hy hy'

/-- Non-vacuity of C109 and C110: the penalties of the default constructors are switched off, and the default arguments meet the other hypotheses. -/
example (sort : NpSort) (sr3 : Bool) : (∀ pen ∈ defaultPenalties sort sr3, pen.Off) ∧ "loss" ∉ ({} : LinArgs).loggerKeys ∧ ({} : LinArgs).loggerKeys.Nodup ∧
    (∀ pen ∈ defaultPenalties sort sr3, 0 < (linClass pen sr3 {}).step) ∧ 0 < ({} : LinArgs).el := by
  refine ⟨?_, by simp, by simp, ?_, by norm_num⟩
  · simp only [defaultPenalties, strengthPenalties, List.mem_cons, List.not_mem_nil, or_false]
    rintro pen (rfl | rfl | rfl | rfl)
    · rfl
    · rfl
    · rfl
    · refine ⟨rfl, ?_⟩
      split_ifs <;> norm_num
  · intro pen _
    cases sr3 <;> norm_num [linClass, LinModelCfg.step]

/-- **C110** is violated: `LinearSCADModel(lam=1, rho=2, sigma=1, stepping="fixed", fixed_step_len=1)` divides zero by zero in its first iteration on the problem with one feature `1` and target `2`
(all the numbers involved are small integers, so rounding plays no role). -/
theorem C110_scad_violated : linClassFit (.scad 1 2 1) false { stepping := "fixed", fixedStepLen := some 1 }
    ⟨1, 1, Matrix.of fun _ _ => 1, fun _ => 2, 1, none, .none⟩ none false none = .error .nan := by
  have hch : (LinPenalty.scad 1 2 1).check = .ok () := if_pos (by norm_num)
  rw [linClassFit_plain _ _ hch rfl]
  have hgood : (Logger.init ({} : LinArgs).loggerKind ({} : LinArgs).loggerKeys : Logger (PyVal ℝ 1)).Good := Logger.good_init _ (by simp)
  have hopt : pgdOptimize (linOracle (Matrix.of fun _ _ => 1 : Matrix (Fin 1) (Fin 1) ℝ) (fun _ => 2) .nonInformative) ((LinPenalty.scad 1 2 1).build 1 fun _ => 1)
      (linClass (.scad 1 2 1) false { stepping := "fixed", fixedStepLen := some 1 }).solver (fitStart none false) (Logger.init .tuple ["converged"]) () = .error .nan := by
    unfold pgdOptimize
    obtain ⟨L', hL', -⟩ := hgood.log fun k => if k = "loss" then none else localsInit (fitStart none false) k
    have hlog : logBlock (linOracle (Matrix.of fun _ _ => 1 : Matrix (Fin 1) (Fin 1) ℝ) (fun _ => 2) .nonInformative) ((LinPenalty.scad 1 2 1).build 1 fun _ => 1)
        (Logger.init .tuple ["converged"]) (fitStart none false) (localsInit (fitStart none false)) () = .ok (L', ()) := by
      unfold logBlock
      have hn : "loss" ∉ (Logger.init .tuple ["converged"] : Logger (PyVal ℝ 1)).keys := by simp [Logger.init]
      have hp : (Logger.init .tuple ["converged"] : Logger (PyVal ℝ 1)).keys.length > 0 := by simp [Logger.init]
      simp only [hn, if_false, hp, if_true]
      exact bind_ok.2 ⟨none, (), rfl, callReg_ok.2 ⟨hL', rfl⟩⟩
    refine (pym_bind_ok hlog).trans (pym_bind_error ?_)
    rw [pgdLoop, dif_pos ⟨Or.inl one_pos, by norm_num [linClass, LinModelCfg.solver]⟩]
    refine pym_bind_error ?_
    unfold pgdBody
    refine (pym_bind_ok (s' := ()) rfl).trans ?_
    refine (pym_bind_ok (a := 1) (s' := ()) ?_).trans (pym_bind_error ?_)
    · unfold chooseStep
      norm_num [linClass, LinModelCfg.solver, LinModelCfg.step]
      rfl
    · have hy : (fitStart none false : Vec ℝ 1) + (1 : ℝ) • -linGradientValueFunction (Matrix.of fun _ _ => 1 : Matrix (Fin 1) (Fin 1) ℝ) (fun _ => 2) .nonInformative (fitStart none false) =
          fun _ => 2 := by
        funext i
        simp [linGradientValueFunction, linGradient, fitStart, InstPrior.gradient, Matrix.mulVec, dotProduct]
      rw [hy]
      show callReg (collect fun i => scadProx1 2 1 1 (1 * 1 * 1) 2) () = _
      norm_num [scadProx1, collect]
      rfl
  exact exc_bind_error hopt

/-- Non-vacuity of `C110_returns_partial`: SCAD with strength `100`, where the first steps are larger than `(rho - 1) / lam`. -/
example (P : LinProblem ℝ) : (LinPenalty.scad 100 (37 / 10) 1).Admissible false {} (fun _ : Fin P.n => 1) := by
  refine ⟨by norm_num, fun _ j i => ?_, fun h => by simp at h⟩
  have : (linClass (.scad 100 (37 / 10) 1) false {}).step = 1 / 20 := by norm_num [linClass, LinModelCfg.step]
  rw [this]
  intro h
  rcases j with _ | j
  · norm_num at h
  · have : (1 / 2 : ℝ) ^ j ≤ 1 := pow_le_one₀ (by norm_num) (by norm_num)
    rw [pow_succ] at h
    linarith

/-- **C110** for users who only choose the strength: L1, CAD and SCAD models whose other arguments are the defaults return for all strengths up to `54` (plain) or `1` (SR3, excluded). -/
theorem C110_strength_partial (lam : ℝ) (h0 : 0 ≤ lam) (sr3 : Bool) (hlam : lam < if sr3 then 1 else 54) (pen : LinPenalty) (hpen : pen ∈ strengthPenalties lam sr3)
    (practical : Bool) (P : LinProblem ℝ) (hc : P.c = 1) (x0 : Option (Vec ℝ P.n)) (warm : Bool) :
    ∃ x L, linClassFit pen sr3 { practical := practical } P x0 warm none = .ok (x, L) := by
  refine C110_returns_partial pen sr3 _ rfl rfl (by simp) (fun _ => one_pos) P hc x0 warm none ?_
  simp only [strengthPenalties, List.mem_cons, List.not_mem_nil, or_false] at hpen
  rcases hpen with rfl | rfl | rfl
  · trivial
  · trivial
  · have hp : ∀ j : ℕ, (1 / 2 : ℝ) ^ j * lam ≤ lam := fun j => mul_le_of_le_one_left h0 (pow_le_one₀ (by norm_num) (by norm_num))
    cases sr3 with
    | false =>
      simp only [Bool.false_eq_true, if_false] at hlam
      refine ⟨by norm_num, fun _ j i => ?_, fun h => by simp at h⟩
      have : (linClass (.scad lam (if false = true then 2 else 37 / 10) 1) false { practical := practical }).step = 1 / 20 := by norm_num [linClass, LinModelCfg.step]
      rw [this, Option.getD_none, if_neg (by simp), mul_one, mul_assoc]
      have := hp j
      intro h
      linarith
    | true =>
      simp only [if_true] at hlam
      refine ⟨by norm_num, fun _ j i => ?_, fun _ i => ?_⟩
      · have : (linClass (.scad lam (if true = true then 2 else 37 / 10) 1) true { practical := practical }).step = 1 := by norm_num [linClass, LinModelCfg.step]
        rw [this, Option.getD_none, if_pos rfl, mul_one, one_mul]
        have := hp j
        intro h
        linarith
      · rw [Option.getD_none, if_pos rfl]
        intro h
        norm_num at h
        linarith

/-- Non-vacuity: `LinearSCADModel(lam=50)`, for every problem. -/
example (P : LinProblem ℝ) (hc : P.c = 1) : ∃ x L, linClassFit (.scad 50 (37 / 10) 1) false {} P none false none = .ok (x, L) :=
  C110_strength_partial 50 (by norm_num) false (by norm_num) _ (by simp [strengthPenalties]) false P hc none false

/-- **C110** is violated by SR3 as well, and the bound of `C110_strength_partial` is sharp: `LinearSCADModelSR3(lam=1, practical=True)`, all other arguments being the defaults,
divides zero by zero on the problem with one feature `1` and target `3`. -/
theorem C110_strength_violated : ∃ pen ∈ strengthPenalties 1 true, linClassFit pen true { practical := true }
    ⟨1, 1, Matrix.of fun _ _ => 1, fun _ => 3, 1, none, .none⟩ none false none = .error .nan := by
  refine ⟨.scad 1 2 1, by simp [strengthPenalties], ?_⟩
  have hch : (LinPenalty.scad 1 2 1).check = .ok () := if_pos (by norm_num)
  have hd : (sr3H (Matrix.of fun _ _ => 1 : Matrix (Fin 1) (Fin 1) ℝ) 1 1).det ≠ 0 := sr3H_one_det _ _ one_pos
  rw [linClassFit_sr3 (.scad 1 2 1) { practical := true } hch rfl ⟨1, 1, Matrix.of fun _ _ => 1, fun _ => 3, 1, none, .none⟩ hd none false none]
  refine exc_bind_error ?_
  rw [if_pos rfl]
  unfold fakeOptimize
  refine pym_bind_error ?_
  have key : findOptimalParameters (Matrix.of fun _ _ => 1 : Matrix (Fin 1) (Fin 1) ℝ) (fun _ => 3) 1 1 ((LinPenalty.scad 1 2 1).build 1 fun _ => 1) (1 / 10 ^ 5) 1000
      (fitStart none false) = .error .nan := by
    rw [findOptimalParameters_eq _ _ _ one_ne_zero, practicalLoop, dif_pos ⟨Or.inl one_pos, by norm_num⟩]
    refine exc_bind_error ?_
    have hy : sr3Inner (Matrix.of fun _ _ => 1 : Matrix (Fin 1) (Fin 1) ℝ) (fun _ => 3) 1 1 (fitStart none false) = fun _ => 2 := by
      have hv : (Matrix.of fun _ _ => 1 : Matrix (Fin 1) (Fin 1) ℝ)ᵀ *ᵥ (fun _ => 3) + (1 : ℝ) • ((1 : Matrix (Fin 1) (Fin 1) ℝ)ᵀ *ᵥ fitStart none false) =
          sr3H (Matrix.of fun _ _ => 1 : Matrix (Fin 1) (Fin 1) ℝ) 1 1 *ᵥ fun _ => 2 := by
        funext i
        obtain rfl := Subsingleton.elim i 0
        simp [sr3H, fitStart, Matrix.mulVec, dotProduct, Matrix.mul_apply]
        norm_num
      unfold sr3Inner sr3HInv
      rw [hv, Matrix.mulVec_mulVec, Matrix.nonsing_inv_mul _ (isUnit_iff_ne_zero.2 hd), Matrix.one_mulVec]
    rw [hy]
    show (collect fun i => scadProx1 2 1 1 (1 / 1 * 1 * 1) 2) = _
    norm_num [scadProx1, collect]
    rfl
  exact congrArg (Except.map fun a => (a, ())) key

/-- **C102** for the default arguments: if a fit of `SimpleLinearModel()` or `LinearL1Model(lam)` reports convergence, its objective exceeds the objective at any point `u` by at most
`(1e-10 / 2 + 1e-5 ‖x - u‖) / min (1/20) (1/(2 L))`. -/
theorem C102_default_accuracy (lam : ℝ) (hlam : 0 ≤ lam) (pen : LinPenalty) (hpen : (pen = .dummy ∧ lam = 0) ∨ pen = .l1 lam) (P : LinProblem ℝ) (hn : 0 < P.n)
    (L : ℝ) (hL0 : 0 < L) (hL1 : L ≤ 10 ^ 14) (hL : ∀ h : Vec ℝ P.n, ∑ r, (∑ j, P.a r j * h j) ^ 2 ≤ L * ∑ j, h j ^ 2)
    (x : Vec ℝ P.n) (Lf : Logger (PyVal ℝ P.n)) (h : linClassFit pen false {} P none false none = .ok (x, Lf)) (hc : Lf.get "converged" = .ok (.atom (.bool true)))
    (u : Vec ℝ P.n) :
    lassoObjective P.a P.b lam (fun _ => 1) x ≤ lassoObjective P.a P.b lam (fun _ => 1) u +
      (1e-10 / 2 + 1e-5 * √(∑ j, (x j - u j) ^ 2)) / min (1 / 20) (1 / (2 * L)) := by
  have hstep : (linClass pen false {}).solver.fixedStepLen = 1 / 20 := by
    show (linClass pen false {}).step = _
    norm_num [linClass, LinModelCfg.step]
  obtain ⟨_, -, h⟩ := ebind_ok.1 h
  have := C102_accuracy (linClass pen false {}) rfl P hn none false none lam
    (by rcases hpen with ⟨rfl, rfl⟩ | rfl
        · exact .inl ⟨rfl, rfl⟩
        · exact .inr ⟨rfl, hlam, fun _ => one_pos.le⟩) L hL
    ⟨by rw [hstep]; norm_num, hL0, by rw [if_pos (show (linClass pen false {}).solver.stepping = "line-search" from rfl)]; exact hL1⟩ x Lf h hc u
  unfold stepFloor at this
  rw [if_pos (show (linClass pen false {}).solver.stepping = "line-search" from rfl), hstep] at this
  have h5 : (linClass pen false {}).tol = 1e-5 := by norm_num [linClass]
  rw [h5] at this
  norm_num at this ⊢
  exact this

/-- Non-vacuity: a problem with one feature (`L = 1`). -/
example (h : Vec ℝ 1) : ∑ r : Fin 1, (∑ j, (1 : Matrix (Fin 1) (Fin 1) ℝ) r j * h j) ^ 2 ≤ 1 * ∑ j, h j ^ 2 := by simp

end Verif
