import Mathlib.Algebra.Order.Field.Basic
import Mathlib.Data.Matrix.Mul
import Mathlib.Data.Fintype.Card
import Mathlib.Order.WithBot

/-!
# Shared vocabulary of the model

* Python exceptions are values of `PyErr`; a function that may raise returns `Except PyErr _`.
* `float64` is modelled by a linearly ordered field `K` (exact arithmetic); `nan` is the pseudo-exception
  "a NaN was produced", raised at the only places where the modelled code computes `0/0`.
* numpy vectors of length `n` are functions `Fin n → K`.
* `np.inf` as a penalty is `⊤ : WithTop K`.
-/

namespace Verif

/-- Python exceptions raised (explicitly or implicitly) by the modelled code. -/
inductive PyErr
  | valueError | typeError | assertionError | keyError | indexError | attributeError
  | zeroDivision | linAlgError | notFitted | nan
  deriving DecidableEq, Repr

/-- `Verif.Vec K n` is a numpy vector of length `n`. -/
abbrev Vec (K : Type*) (n : ℕ) := Fin n → K

section
variable {K : Type*} [Field K]

/-- `np.linalg.norm(x) ** 2` (exact arithmetic), as used in `solvers.py:98-99`, `regularizers.py:733`. -/
def normSq {ι : Type*} [Fintype ι] (x : ι → K) : K := ∑ i, x i ^ 2

variable [LinearOrder K]

/-- numpy's `.clip(0, None)` on one entry, as used throughout `regularizers.py`. -/
def clip0 (x : K) : K := max x 0

end

end Verif
