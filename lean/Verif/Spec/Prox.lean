import Verif.Model.Regularizers
import Mathlib.Data.Set.Card

/-!
# Specification of proximal operators (independent of the model's code)
-/

namespace Verif

variable {K : Type*} [Field K] [LinearOrder K] {n : ℕ}

/-- `z` minimises `alpha * g(u) + 1/2 (u - x)^2` over all numbers `u`. -/
def IsProx1 (g : K → K) (alpha x z : K) : Prop :=
  ∀ u, alpha * g z + (z - x) ^ 2 / 2 ≤ alpha * g u + (u - x) ^ 2 / 2

/-- `z` is the unique minimiser of `alpha * g(u) + 1/2 (u - x)^2`. -/
def IsUniqueProx1 (g : K → K) (alpha x z : K) : Prop :=
  ∀ u, u ≠ z → alpha * g z + (z - x) ^ 2 / 2 < alpha * g u + (u - x) ^ 2 / 2

/-- `z` has a finite penalty and minimises `alpha * g(u) + 1/2 ||u - x||^2` over all vectors `u` (those with infinite penalty lose
anyway). -/
def IsProxOf (g : Vec K n → WithTop K) (alpha : K) (x z : Vec K n) : Prop :=
  ∃ gz : K, g z = gz ∧ ∀ (u : Vec K n) (gu : K), g u = gu →
    alpha * gz + normSq (z - x) / 2 ≤ alpha * gu + normSq (u - x) / 2

/-- `z` is the only minimiser. -/
def IsUniqueProxOf (g : Vec K n → WithTop K) (alpha : K) (x z : Vec K n) : Prop :=
  ∃ gz : K, g z = gz ∧ ∀ (u : Vec K n) (gu : K), u ≠ z → g u = gu →
    alpha * gz + normSq (z - x) / 2 < alpha * gu + normSq (u - x) / 2

/-- The weighted absolute-value penalty `lam * sum_i w_i |z_i|`. -/
def l1Penalty (lam : K) (w : Vec K n) (z : Vec K n) : WithTop K := ((lam * ∑ i, w i * |z i| : K) : WithTop K)

/-- The number of nonzero entries of a vector, as a set cardinality. -/
noncomputable def numNonzero {ι : Type*} (x : ι → K) : ℕ := Set.ncard {i | x i ≠ 0}

/-- Number of nonzero entries among the positions selected by `mask`. -/
noncomputable def nnzOn {ι : Type*} (mask : ι → Bool) (x : ι → K) : ℕ := Set.ncard {i | mask i = true ∧ x i ≠ 0}

/-- The regularizer object `R` is *exact* at `(x, alpha)`: its `value` never fails, its `prox` does not fail, and what `prox` returns
minimises `alpha * value(u) + 1/2 ||u - x||^2`. -/
def Regularizer.ExactAt (R : Regularizer K n) (alpha : K) (x : Vec K n) : Prop :=
  ∃ g : Vec K n → WithTop K, (∀ u, R.value u = .ok (g u)) ∧ ∃ z, R.prox x alpha = .ok z ∧ IsProxOf g alpha x z

/-- As `ExactAt`, and the minimiser is unique. -/
def Regularizer.UniquelyExactAt (R : Regularizer K n) (alpha : K) (x : Vec K n) : Prop :=
  ∃ g : Vec K n → WithTop K, (∀ u, R.value u = .ok (g u)) ∧ ∃ z, R.prox x alpha = .ok z ∧ IsUniqueProxOf g alpha x z

/-- `g` is the (finite) value of `R`; it is non-negative, vanishes at the origin and does not decrease when absolute values grow
(so it only depends on them). -/
def Regularizer.WellShaped (R : Regularizer K n) (g : Vec K n → K) : Prop :=
  (∀ u, R.value u = .ok (g u : WithTop K)) ∧ (∀ u, 0 ≤ g u) ∧ g 0 = 0 ∧
    ∀ u v : Vec K n, (∀ i, |u i| ≤ |v i|) → g u ≤ g v

end Verif
