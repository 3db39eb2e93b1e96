import Verif.Model.Regularizers
import Verif.Model.Logger
import Mathlib.Algebra.Order.Floor.Semiring
import Mathlib.Data.Real.Archimedean
import Mathlib.Algebra.Order.Round
import Mathlib.Tactic.Linarith
import Mathlib.Tactic.Ring
import Mathlib.Tactic.Positivity
import Mathlib.Tactic.FieldSimp
import Mathlib.Tactic.NormNum

/-!
# Model of `src/pysr3/solvers.py`

The oracle is an arbitrary object with internal state `σ` (caches, warm starts, even nondeterminism: `σ` may contain a tape of future answers) whose
methods may raise. The while loops of the code are while loops here (well-founded recursion): the termination proofs belong to the model.
-/

namespace Verif

/-- Effects of an oracle method: it may change the oracle's attributes (`σ`) and may raise. -/
abbrev PyM (σ : Type) (α : Type) := StateT σ (Except PyErr) α

/-- The methods of an oracle the solver calls: `value_function` and `gradient_value_function`
(`linear/oracles.py:103-135, 269-302`, `lme/oracles.py:693-724, 1299-1338`). -/
structure Oracle (K : Type) (n : ℕ) (σ : Type) where
  value : Vec K n → PyM σ K
  grad : Vec K n → PyM σ (Vec K n)

/-- Dot product of numpy vectors. -/
def dot {K : Type*} [Field K] {n : ℕ} (x y : Vec K n) : K := ∑ i, x i * y i

/-- Objects the solver puts into the logger (`logger.log(locals())`, `logger.add(...)`). -/
inductive PyVal (K : Type*) (n : ℕ) where
  | vec (v : Vec K n)
  | num (v : WithTop K)
  | int (v : ℕ)
  | bool (v : Bool)
  | obj (name : String)
  | arr (l : List K)

/-- Attributes of `PGDSolver` (`solvers.py:33-52`). -/
structure PGDCfg (K : Type*) where
  tol : K
  maxIter : ℤ
  stepping : String
  fixedStepLen : K

variable {K : Type} [Field K] [LinearOrder K] {n : ℕ} {σ : Type}

/-- Lift a regularizer call into the solver's effects (regularizers do not touch the oracle). -/
def callReg {α : Type} (r : Except PyErr α) : PyM σ α := fun s => r.map fun a => (a, s)

/-- The line-search acceptance test (`solvers.py:98-99`) for trial point `z`, with `fz`, `fx` the two values returned by the oracle. -/
def Accept (fz fx : K) (x d z : Vec K n) (step : K) : Prop :=
  fz ≤ fx - dot d (z - x) + 1 / (2 * step) * normSq (z - x)

instance (fz fx : K) (x d z : Vec K n) (step : K) : Decidable (Accept fz fx x d z step) := by unfold Accept; infer_instance

section
variable [IsStrictOrderedRing K] [FloorSemiring K]

/-- Halving decreases the measure. -/
theorem halving_lt (step : K) (h : step > 1 / 10 ^ 14) : ⌈step * (1 / 2) * 10 ^ 14⌉₊ < ⌈step * 10 ^ 14⌉₊ := by
  have hs : 1 < step * 10 ^ 14 := by
    have := mul_lt_mul_of_pos_right h (show (0 : K) < 10 ^ 14 by positivity)
    rwa [one_div, inv_mul_cancel₀ (by positivity)] at this
  rw [show step * (1 / 2) * 10 ^ 14 = step * 10 ^ 14 / 2 by ring]
  set t := step * 10 ^ 14
  rw [Nat.lt_ceil]
  rcases le_or_gt t 2 with h2 | h2
  · have : ⌈t / 2⌉₊ ≤ 1 := Nat.ceil_le.2 (by push_cast; linarith)
    have h3 : ((⌈t / 2⌉₊ : ℕ) : K) ≤ 1 := by exact_mod_cast this
    linarith
  · have : (⌈t / 2⌉₊ : K) < t / 2 + 1 := Nat.ceil_lt_add_one (by linarith)
    linarith

/-- The inner `while step_len > 1e-14` loop (`solvers.py:95-102`); returns the final `step_len`. -/
def lineSearch [IsStrictOrderedRing K] [FloorSemiring K] (o : Oracle K n σ) (R : Regularizer K n) (x d : Vec K n) (step : K) : PyM σ K :=
  if h : step > 1 / 10 ^ 14 then do
    let z ← callReg (R.prox (x + step • d) step)
    let fz ← o.value z
    let fx ← o.value x
    if Accept fz fx x d z step then return step
    else lineSearch o R x d (step * (1 / 2))
  else return step
termination_by ⌈step * 10 ^ 14⌉₊
decreasing_by exact halving_lt step h

/-- The choice of the step length (`solvers.py:93-107`). -/
def chooseStep (o : Oracle K n σ) (R : Regularizer K n) (cfg : PGDCfg K) (x d : Vec K n) : PyM σ K :=
  if cfg.stepping = "line-search" then lineSearch o R x d cfg.fixedStepLen
  else return cfg.fixedStepLen

/-- `loss = oracle.value_function(x) + regularizer.value(x)` (`solvers.py:83, 114, 190`). -/
def lossAt (o : Oracle K n σ) (R : Regularizer K n) (x : Vec K n) : PyM σ (WithTop K) := do
  let f ← o.value x
  let g ← callReg (R.value x)
  return (f : WithTop K) + g

/-- The guarded logging block (`solvers.py:82-86, 113-117`). `vars` are the local variables besides `loss`. The local `z` (last trial point of a
line search) is not included. -/
def logBlock (o : Oracle K n σ) (R : Regularizer K n) (L : Logger (PyVal K n)) (x : Vec K n) (vars : String → Option (PyVal K n)) :
    PyM σ (Logger (PyVal K n)) := do
  let loss : Option (PyVal K n) ←
    (if "loss" ∈ L.keys then do
      let l ← lossAt o R x
      return some (PyVal.num l)
    else return none : PyM σ (Option (PyVal K n)))
  if L.keys.length > 0 then callReg (L.log fun k => if k = "loss" then loss else vars k)
  else return L

/-- The local variables at the first logging point (`solvers.py:86`). -/
def localsInit (x0 : Vec K n) : String → Option (PyVal K n) := fun k =>
  if k = "x" ∨ k = "x0" then some (.vec x0) else if k = "x_prev" then some (.num ⊤) else if k = "iteration" then some (.int 0)
  else if k = "self" ∨ k = "oracle" ∨ k = "regularizer" ∨ k = "logger" then some (.obj k) else none

/-- The local variables at the logging point inside the loop (`solvers.py:117`). -/
def localsIter (x0 xprev d y x : Vec K n) (step : K) (iteration : ℕ) : String → Option (PyVal K n) := fun k =>
  if k = "x_prev" then some (.vec xprev) else if k = "direction" then some (.vec d) else if k = "step_len" then some (.num (step : WithTop K))
  else if k = "y" then some (.vec y) else if k = "x" then some (.vec x) else if k = "iteration" then some (.int iteration)
  else localsInit x0 k

/-- One pass through the body of the main loop (`solvers.py:89-117`): returns the new point and the logger. -/
def pgdBody (o : Oracle K n σ) (R : Regularizer K n) (cfg : PGDCfg K) (x0 x : Vec K n) (iteration : ℕ) (L : Logger (PyVal K n)) :
    PyM σ (Vec K n × Logger (PyVal K n)) := do
  let g ← o.grad x
  let d : Vec K n := -g
  let step ← chooseStep o R cfg x d
  let y := x + step • d
  let x' ← callReg (R.prox y step)
  let L' ← logBlock o R L x' (localsIter x0 x d y x' step (iteration + 1))
  return (x', L')

/-- The test `np.linalg.norm(x - x_prev) > self.tol` (`solvers.py:88`). `x_prev` is `np.infty` (`none`) before the first pass: then the
norm is infinite, unless the vectors are empty. `‖v‖ > tol` is written without square roots. -/
def farApart (tol : K) (xprev : Option (Vec K n)) (x : Vec K n) : Prop :=
  match xprev with
  | none => 0 < n ∨ tol < 0
  | some y => tol < 0 ∨ tol ^ 2 < normSq (x - y)

instance (tol : K) (xprev : Option (Vec K n)) (x : Vec K n) : Decidable (farApart tol xprev x) := by
  unfold farApart; cases xprev <;> infer_instance

/-- The main loop (`solvers.py:88-117`). -/
def pgdLoop (o : Oracle K n σ) (R : Regularizer K n) (cfg : PGDCfg K) (x0 x : Vec K n) (xprev : Option (Vec K n)) (iteration : ℕ)
    (L : Logger (PyVal K n)) : PyM σ (Vec K n × ℕ × Logger (PyVal K n)) :=
  if h : farApart cfg.tol xprev x ∧ (iteration : ℤ) < cfg.maxIter then do
    let r ← pgdBody o R cfg x0 x iteration L
    pgdLoop o R cfg x0 r.1 (some x) (iteration + 1) r.2
  else return (x, iteration, L)
termination_by (cfg.maxIter - iteration).toNat
decreasing_by omega

/-- `PGDSolver.optimize` (`solvers.py:54-122`). The guard `if not oracle` is not modelled (an oracle is always given); the logger is an
argument (the default `None` has no `keys` and fails at line 82). -/
def pgdOptimize (o : Oracle K n σ) (R : Regularizer K n) (cfg : PGDCfg K) (x0 : Vec K n) (L : Logger (PyVal K n)) :
    PyM σ (Vec K n × Logger (PyVal K n)) := do
  let L0 ← logBlock o R L x0 (localsInit x0)
  let r ← pgdLoop o R cfg x0 x0 none 0 L0
  let L1 ← callReg (r.2.2.add "converged" (.atom (.bool (decide ((r.2.1 : ℤ) < cfg.maxIter)))))
  let L2 ← callReg (L1.add "iteration" (.atom (.int r.2.1)))
  return (r.1, L2)

/-- `FakePGDSolver.optimize` (`solvers.py:153-194`), with `find_optimal_parameters` of the oracle as a parameter. -/
def fakeOptimize (o : Oracle K n σ) (findOptimal : Vec K n → PyM σ (Vec K n)) (R : Regularizer K n) (x0 : Vec K n)
    (L : Logger (PyVal K n)) : PyM σ (Vec K n × Logger (PyVal K n)) := do
  let x ← findOptimal x0
  let L1 ← (if "loss" ∈ L.keys then do
      let l ← lossAt o R x
      callReg (L.add "loss" (.atom (.num l)))
    else return L : PyM σ (Logger (PyVal K n)))
  let L2 ← callReg (L1.add "converged" (.atom (.bool true)))
  return (x, L2)

end

end Verif
