import Verif.Model.Linear
import Mathlib.Analysis.SpecialFunctions.Log.Base

/-!
# The solver and the regularizers in floating-point arithmetic

The other model files compute with exact numbers. Here `PGDSolver.optimize` (`solvers.py:54-122`), the gradient and loss of `LinearOracle` (`linear/oracles.py:55-135`) and the
proximal operators of `regularizers.py` are modelled once more, with a rounding after every operation, with overflow to infinity and with NaN. The format is a parameter:
`FArith` records the facts about IEEE rounding that the proofs use; binary64 and binary32 with any of the rounding modes symmetric around zero satisfy them. Simplifications: zeros
carry no sign (no modelled operation divides by a zero whose sign matters), and the order of the additions inside `dot`, `norm` and matrix products is unspecified (`FArith.sum`).
-/

namespace Verif

/-- A `numpy.float64`: a number, an infinity or a NaN. -/
inductive Flt where
  | fin (r : ℝ)
  | pinf
  | ninf
  | nan

namespace Flt

/-- The literal `0`. -/
instance : Zero Flt := ⟨.fin 0⟩
/-- The literal `1`. -/
instance : One Flt := ⟨.fin 1⟩

/-- `-x`, without rounding (`solvers.py:91`, `regularizers.py:456-458`). -/
def neg : Flt → Flt
  | fin r => fin (-r)
  | pinf => ninf
  | ninf => pinf
  | nan => nan

/-- `x < y`, false as soon as one side is a NaN (all comparisons of `solvers.py:88-99` and `regularizers.py`). -/
def lt : Flt → Flt → Prop
  | fin a, fin b => a < b
  | fin _, pinf => True
  | ninf, fin _ => True
  | ninf, pinf => True
  | _, _ => False

/-- `x <= y`, false as soon as one side is a NaN (`solvers.py:98`, `regularizers.py:540`). -/
def le : Flt → Flt → Prop
  | fin a, fin b => a ≤ b
  | fin _, pinf => True
  | ninf, fin _ => True
  | ninf, pinf => True
  | pinf, pinf => True
  | ninf, ninf => True
  | _, _ => False

/-- `np.abs` (`regularizers.py:107, 540`). -/
noncomputable def abs : Flt → Flt
  | fin r => fin |r|
  | pinf => pinf
  | ninf => pinf
  | nan => nan

/-- `x.clip(0, None)` (`regularizers.py:455-458, 542-547, 715`): NaN stays NaN. -/
noncomputable def clip0 : Flt → Flt
  | fin r => fin (max r 0)
  | pinf => pinf
  | ninf => fin 0
  | nan => nan

end Flt

/-- A floating-point format. `rnd` is the rounding to the format with an unbounded exponent, `big` the largest number (`⊤`: no overflow), `sum` the summation of numpy and BLAS, whose
order is not specified. Contract: rounding is monotone, symmetric, keeps the format's own numbers (among them 1 and `big`) and has a relative error of at most one percent from `1e-15`
on. (binary64 has `2⁻⁵³` for all numbers of its normal range, binary32 has `2⁻²⁴`.) A sum
of one number is this number, and a sum of numbers that are not negative is neither negative nor a NaN, and infinite
if one of them is. -/
structure FArith where
  rnd : ℝ → ℝ
  big : WithTop ℝ
  sum : (n : ℕ) → (Fin n → Flt) → Flt
  mono : Monotone rnd
  idem : ∀ r, rnd (rnd r) = rnd r
  odd : ∀ r, rnd (-r) = -rnd r
  one : rnd 1 = 1
  one_le_big : 1 ≤ big
  rnd_le_big : ∀ r : ℝ, (|r| : ℝ) ≤ big → ((|rnd r| : ℝ) : WithTop ℝ) ≤ big
  rel : ∀ r, 1 / 10 ^ 15 ≤ |r| → |rnd r - r| ≤ |r| / 100
  sum_one : ∀ v, sum 1 v = v 0
  sum_nonneg : ∀ n v, (∀ i, Flt.le 0 (v i)) → Flt.le 0 (sum n v)
  sum_pinf : ∀ n v, (∀ i, Flt.le 0 (v i)) → (∃ i, v i = .pinf) → sum n v = .pinf

namespace FArith

variable (A : FArith)

open Classical in
/-- The float nearest to an exact result: rounded, or infinite on overflow. -/
noncomputable def ofReal (r : ℝ) : Flt :=
  if ((|A.rnd r| : ℝ) : WithTop ℝ) ≤ A.big then .fin (A.rnd r) else if 0 < A.rnd r then .pinf else .ninf

/-- `x + y` (IEEE addition). -/
noncomputable def add : Flt → Flt → Flt
  | .fin a, .fin b => A.ofReal (a + b)
  | .nan, _ => .nan
  | _, .nan => .nan
  | .pinf, .ninf => .nan
  | .ninf, .pinf => .nan
  | .pinf, _ => .pinf
  | _, .pinf => .pinf
  | .ninf, _ => .ninf
  | _, .ninf => .ninf

/-- `x - y` (IEEE subtraction). -/
noncomputable def sub (x y : Flt) : Flt := A.add x y.neg

/-- An infinity with the sign of `r`; `inf * 0` is a NaN. -/
noncomputable def infTimes (r : ℝ) : Flt := if 0 < r then .pinf else if r < 0 then .ninf else .nan

/-- `x * y` (IEEE multiplication). -/
noncomputable def mul : Flt → Flt → Flt
  | .fin a, .fin b => A.ofReal (a * b)
  | .nan, _ => .nan
  | _, .nan => .nan
  | .pinf, .fin b => infTimes b
  | .fin a, .pinf => infTimes a
  | .ninf, .fin b => infTimes (-b)
  | .fin a, .ninf => infTimes (-a)
  | .pinf, .pinf => .pinf
  | .ninf, .ninf => .pinf
  | .pinf, .ninf => .ninf
  | .ninf, .pinf => .ninf

/-- `x / y` (IEEE division; a zero divisor counts as positive zero). -/
noncomputable def div : Flt → Flt → Flt
  | .nan, _ => .nan
  | _, .nan => .nan
  | .fin a, .fin b => if b = 0 then infTimes a else A.ofReal (a / b)
  | .fin _, _ => .fin 0
  | .pinf, .fin b => if b < 0 then .ninf else .pinf
  | .ninf, .fin b => if b < 0 then .pinf else .ninf
  | _, _ => .nan

/-- `np.sqrt`. -/
noncomputable def sqrt : Flt → Flt
  | .fin a => if a < 0 then .nan else A.ofReal (Real.sqrt a)
  | .pinf => .pinf
  | _ => .nan

variable {m n : ℕ}

/-- `x.dot(y)` (`solvers.py:98`, `linear/oracles.py:69, 85`). -/
noncomputable def dot (x y : Vec Flt n) : Flt := A.sum n fun i => A.mul (x i) (y i)

/-- `np.linalg.norm(x)`: the square root of `x.dot(x)` (`solvers.py:88, 99`). -/
noncomputable def norm (x : Vec Flt n) : Flt := A.sqrt (A.dot x x)

end FArith

section
variable (A : FArith) {m n : ℕ}

/-! ### Proximal operators -/

/-- One coordinate of `L1Regularizer.prox`: `(x - t).clip(0, None) - (- x - t).clip(0, None)` (`regularizers.py:455-458`, the same in 542-547). -/
noncomputable def flSoft (t x : Flt) : Flt := A.sub (A.sub x t).clip0 (A.sub x.neg t).clip0

/-- `L1Regularizer.prox` (`regularizers.py:439-458`), products from left to right. -/
noncomputable def flL1 (lam : Flt) (weights : Option (Vec Flt n)) (x : Vec Flt n) (alpha : Flt) : Vec Flt n :=
  match weights with
  | some w => fun i => flSoft A (A.mul (A.mul alpha (w i)) lam) (x i)
  | none => fun i => flSoft A (A.mul alpha lam) (x i)

open Classical in
/-- `CADRegularizer.prox` (`regularizers.py:523-548`), products from left to right. -/
noncomputable def flCad (rho lam : Flt) (weights : Option (Vec Flt n)) (x : Vec Flt n) (alpha : Flt) : Vec Flt n :=
  match weights with
  | some w => fun i => if (x i).abs.le rho ∧ Flt.lt 0 (w i) then flSoft A (A.mul (A.mul (w i) alpha) lam) (x i) else x i
  | none => fun i => if (x i).abs.le rho then flSoft A (A.mul alpha lam) (x i) else x i

/-- `_take_only_k_max` (`regularizers.py:105-109`). `rank v` is the permutation that `np.abs(v).argsort()` computes, as the position of every entry; which one it is (ties,
NaN) does not matter here. `[-k:]` are the positions from `n - k` on. -/
def flKMax (rank : Vec Flt n → Equiv.Perm (Fin n)) (x : Vec Flt n) (k : ℤ) : Vec Flt n := fun i =>
  if 0 < k ∧ (n : ℤ) - k ≤ (rank x i).val then x i else 0

/-- `L0Regularizer.prox` without weights (`regularizers.py:174-189`). -/
def flL0 (rank : Vec Flt n → Equiv.Perm (Fin n)) (nnz : Option ℤ) (x : Vec Flt n) (_alpha : Flt) : Vec Flt n := flKMax rank x (nnz.getD n)

/-- `DummyRegularizer.prox` (`regularizers.py:676-691`). -/
def flDummy (x : Vec Flt n) (_alpha : Flt) : Vec Flt n := x

/-- `PositiveQuadrantRegularizer.prox` (`regularizers.py:713-719`). -/
noncomputable def flPositive (pos : Fin n → Bool) (other : Option (Vec Flt n → Flt → Vec Flt n)) (x : Vec Flt n) (alpha : Flt) : Vec Flt n :=
  let y : Vec Flt n := fun i => if pos i = true then (x i).clip0 else x i
  match other with
  | some r => r y alpha
  | none => y

/-- `ElasticRegularizer.prox` (`regularizers.py:739-743`). -/
noncomputable def flElastic (eps : Flt) (other : Option (Vec Flt n → Flt → Vec Flt n)) (x : Vec Flt n) (alpha : Flt) : Vec Flt n :=
  let den := A.add 1 (A.mul alpha eps)
  match other with
  | some r => r (fun i => A.div (x i) den) (A.div alpha den)
  | none => fun i => A.div (x i) den

/-! ### The solver -/

/-- What `PGDSolver.optimize` uses: `oracle.value_function`, `oracle.gradient_value_function` (`solvers.py:91, 98`) and `regularizer.prox` (`solvers.py:97, 110`), as functions of floats
(no internal state, no exceptions). -/
structure FlProblem (n : ℕ) where
  value : Vec Flt n → Flt
  grad : Vec Flt n → Vec Flt n
  prox : Vec Flt n → Flt → Vec Flt n

/-- Attributes of `PGDSolver` (`solvers.py:49-52`); the step length is a finite float (with an infinite one the line search never ends). -/
structure FlCfg where
  tol : Flt
  maxIter : ℤ
  stepping : String
  fixedStepLen : ℝ

/-- `y = x + step_len * direction` (`solvers.py:96, 109`). -/
noncomputable def flMove (x d : Vec Flt n) (step : ℝ) : Vec Flt n := fun i => A.add (x i) (A.mul (.fin step) (d i))

/-- The line-search acceptance test (`solvers.py:98-99`). -/
noncomputable def flAccept (P : FlProblem n) (x d z : Vec Flt n) (step : ℝ) : Prop :=
  let dz : Vec Flt n := fun i => A.sub (z i) (x i)
  (P.value z).le (A.add (A.sub (P.value x) (A.dot d dz)) (A.mul (A.div 1 (A.mul (.fin 2) (.fin step))) (A.mul (A.norm dz) (A.norm dz))))

/-- Termination of the float line search: the rounded half of a step above the threshold is at most three quarters of it. -/
theorem fl_halving (step : ℝ) (h : A.rnd (1 / 10 ^ 14) < step) :
    ⌈Real.logb (4 / 3) (A.rnd (step * (1 / 2)) * 10 ^ 15)⌉₊ < ⌈Real.logb (4 / 3) (step * 10 ^ 15)⌉₊ := by
  have h14 := A.rel (1 / 10 ^ 14) (by rw [abs_of_pos (by norm_num)]; norm_num)
  rw [abs_of_pos (show (0 : ℝ) < 1 / 10 ^ 14 by norm_num), abs_le] at h14
  have hs : 99 / 10 ^ 16 < step := by
    have := h14.1
    norm_num at this h ⊢
    linarith
  have hhalf := A.rel (step * (1 / 2)) (by rw [abs_of_pos (by norm_num at hs ⊢; linarith)]; norm_num at hs ⊢; linarith)
  have hspos : 0 < step := by norm_num at hs; linarith
  rw [abs_of_pos (show 0 < step * (1 / 2) by positivity), abs_le] at hhalf
  have hle : A.rnd (step * (1 / 2)) ≤ 3 / 4 * step := by linarith [hhalf.2]
  have hpos : 0 < A.rnd (step * (1 / 2)) := by linarith [hhalf.1]
  have h1 : Real.logb (4 / 3) (A.rnd (step * (1 / 2)) * 10 ^ 15) ≤ Real.logb (4 / 3) (step * 10 ^ 15) - 1 := by
    have : Real.logb (4 / 3) (step * 10 ^ 15) - 1 = Real.logb (4 / 3) (3 / 4 * step * 10 ^ 15) := by
      have e : (3 / 4 * step * 10 ^ 15 : ℝ) = step * 10 ^ 15 / (4 / 3) := by ring
      rw [e, Real.logb_div (by positivity) (by norm_num), Real.logb_self_eq_one (by norm_num)]
    rw [this]
    exact Real.logb_le_logb_of_le (by norm_num) (by positivity) (by nlinarith)
  have h2 : 0 < Real.logb (4 / 3) (step * 10 ^ 15) := Real.logb_pos (by norm_num) (by norm_num at hs ⊢; linarith)
  rw [Nat.lt_ceil]
  rcases le_or_gt (Real.logb (4 / 3) (A.rnd (step * (1 / 2)) * 10 ^ 15)) 0 with h0 | h0
  · rw [Nat.ceil_eq_zero.2 h0]
    simpa using h2
  · have := Nat.ceil_lt_add_one h0.le
    linarith

open Classical in
/-- The inner `while step_len > 1e-14` loop (`solvers.py:95-102`); returns the final `step_len`. Halving a finite float cannot overflow. -/
noncomputable def flLineSearch (P : FlProblem n) (x d : Vec Flt n) (step : ℝ) : ℝ :=
  if h : A.rnd (1 / 10 ^ 14) < step then
    if flAccept A P x d (P.prox (flMove A x d step) (.fin step)) step then step
    else flLineSearch P x d (A.rnd (step * (1 / 2)))
  else step
termination_by ⌈Real.logb (4 / 3) (step * 10 ^ 15)⌉₊
decreasing_by exact fl_halving A step h

/-- One pass through the body of the main loop (`solvers.py:89-111`). -/
noncomputable def flBody (P : FlProblem n) (cfg : FlCfg) (x : Vec Flt n) : Vec Flt n :=
  let d : Vec Flt n := fun i => (P.grad x i).neg
  let step := if cfg.stepping = "line-search" then flLineSearch A P x d cfg.fixedStepLen else cfg.fixedStepLen
  P.prox (flMove A x d step) (.fin step)

/-- The test `np.linalg.norm(x - x_prev) > self.tol` (`solvers.py:88`). -/
noncomputable def flFar (cfg : FlCfg) (x xprev : Vec Flt n) : Prop := cfg.tol.lt (A.norm fun i => A.sub (x i) (xprev i))

open Classical in
/-- The main loop (`solvers.py:88-117`), without the logging. -/
noncomputable def flLoop (P : FlProblem n) (cfg : FlCfg) (x xprev : Vec Flt n) (iteration : ℕ) : Vec Flt n × ℕ :=
  if h : flFar A cfg x xprev ∧ (iteration : ℤ) < cfg.maxIter then flLoop P cfg (flBody A P cfg x) x (iteration + 1)
  else (x, iteration)
termination_by (cfg.maxIter - iteration).toNat
decreasing_by omega

/-- What the solver leaves: the point and the logged `iteration` and `converged` (`solvers.py:119-122`). -/
structure FlResult (n : ℕ) where
  x : Vec Flt n
  iteration : ℕ
  converged : Bool

/-- `PGDSolver.optimize` (`solvers.py:77-122`); `x_prev = np.infty` at the start (line 79). -/
noncomputable def flOptimize (P : FlProblem n) (cfg : FlCfg) (x0 : Vec Flt n) : FlResult n :=
  let r := flLoop A P cfg x0 (fun _ => .pinf) 0
  ⟨r.1, r.2, decide ((r.2 : ℤ) < cfg.maxIter)⟩

/-! ### The linear model -/

/-- The residual `a.dot(x) - b` (`linear/oracles.py:69, 85`). -/
noncomputable def flResidual (a : Fin m → Fin n → Flt) (b : Vec Flt m) (x : Vec Flt n) : Vec Flt m := fun i => A.sub (A.dot (a i) x) (b i)

/-- `LinearOracle.loss` without a prior (`linear/oracles.py:69`; `NonInformativePrior.loss` is 0, `priors.py:177`). -/
noncomputable def flLinLoss (a : Fin m → Fin n → Flt) (b : Vec Flt m) (x : Vec Flt n) : Flt :=
  A.add (A.mul (A.ofReal (1 / 2)) (A.mul (A.norm (flResidual A a b x)) (A.norm (flResidual A a b x)))) 0

/-- `LinearOracle.gradient` without a prior (`linear/oracles.py:85`; `NonInformativePrior.gradient` is 0, `priors.py:188`). -/
noncomputable def flLinGradient (a : Fin m → Fin n → Flt) (b : Vec Flt m) (x : Vec Flt n) : Vec Flt n := fun j =>
  A.add (A.dot (fun i => a i j) (flResidual A a b x)) 0

/-- `SimpleLinearModel.fit` (`linear/models.py:78-136, 208-254`), the solver call: start at ones, no regularizer. The fitted model keeps the returned point as `coef_["x"]` and
`converged` in its logger. -/
noncomputable def flSimpleFit (a : Fin m → Fin n → Flt) (b : Vec Flt m) (cfg : FlCfg) : FlResult n :=
  flOptimize A ⟨flLinLoss A a b, flLinGradient A a b, flDummy⟩ cfg fun _ => 1

end

end Verif
