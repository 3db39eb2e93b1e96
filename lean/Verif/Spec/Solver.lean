import Verif.Model.Solvers

/-!
# Specification vocabulary for the solver

Executions are described by the sequence of points visited; nothing here refers to the loops of the model.
-/

namespace Verif

variable {K : Type} [Field K] [LinearOrder K] {n : ℕ} {σ : Type}

/-- `x'` arises from `x` by one proximal gradient step of length `step`: the prox of the point moved against some gradient the oracle returned at
`x`. -/
def ProxGradStep (o : Oracle K n σ) (R : Regularizer K n) (step : K) (x x' : Vec K n) : Prop :=
  ∃ s g s', o.grad x s = .ok (g, s') ∧ R.prox (fun i => x i - step * g i) step = .ok x'

/-- `‖x - y‖ ≤ tol` without square roots. -/
def DistLE (tol : K) (x y : Vec K n) : Prop := 0 ≤ tol ∧ ∑ i, (x i - y i) ^ 2 ≤ tol ^ 2

/-- The oracle's `value_function` computes `f` in every state (it may cache, but never changes its mind nor raises). -/
def Oracle.Values (o : Oracle K n σ) (f : Vec K n → K) : Prop := ∀ x s, ∃ s', o.value x s = .ok (f x, s')

/-- The oracle's `gradient_value_function` computes `g` in every state. -/
def Oracle.Grads (o : Oracle K n σ) (g : Vec K n → Vec K n) : Prop := ∀ x s, ∃ s', o.grad x s = .ok (g x, s')

/-- An oracle without state. -/
def Oracle.ofFun (f : Vec K n → K) (g : Vec K n → Vec K n) : Oracle K n Unit where
  value := fun x s => .ok (f x, s)
  grad := fun x s => .ok (g x, s)

/-- The oracle with a counter of `gradient_value_function` calls added to its state. -/
def Oracle.counted (o : Oracle K n σ) : Oracle K n (σ × ℕ) where
  value := fun x s => (o.value x s.1).map fun r => (r.1, (r.2, s.2))
  grad := fun x s => (o.grad x s.1).map fun r => (r.1, (r.2, s.2 + 1))

/-- Sufficient decrease of the smooth part for the move from `x` to `z` along direction `d` with step `step`. -/
def SufficientDecrease (f : Vec K n → K) (d : Vec K n) (step : K) (x z : Vec K n) : Prop :=
  f z ≤ f x - (∑ i, d i * (z i - x i)) + (∑ i, (z i - x i) ^ 2) / (2 * step)

end Verif
