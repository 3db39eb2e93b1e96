import Verif.Model.Regularizers

/-!
# The regularizers the library builds

Inductive description of the admissible regularizer objects (hyperparameters as documented), used to quantify over "every regularizer of the
library".
-/

namespace Verif

variable {K : Type*} [Field K] [LinearOrder K]

/-- The base penalties with admissible hyperparameters; `ae`-regimes of SCAD are not restricted. -/
inductive BaseReg : {n : ℕ} → Regularizer K n → Prop
  | dummy {n : ℕ} : BaseReg (dummyRegularizer : Regularizer K n)
  | l0 {n : ℕ} (nnz : Option ℤ) (asAll : ArgSort (Fin n) K) (ws : Option (L0Weights K n)) : BaseReg (l0Regularizer nnz asAll ws)
  | l0lme {p q : ℕ} (c : L0LmeCfg) (b2g : Fin p → Option (Fin q)) (ws : Option (L0LmeWeights K p q)) (asAll : ArgSort (Fin p) K) :
      BaseReg (l0LmeRegularizer c b2g ws asAll)
  | l1 {n : ℕ} (lam : K) (w : Option (Vec K n)) : 0 ≤ lam → (∀ i, 0 ≤ weightsOrOnes w i) → BaseReg (l1Regularizer lam w)
  | cad {n : ℕ} (rho lam : K) (w : Option (Vec K n)) : 0 ≤ lam → (∀ i, 0 ≤ weightsOrOnes w i) → BaseReg (cadRegularizer rho lam w)
  | scad {n : ℕ} (rho sigma lam : K) (w : Option (Vec K n)) : 1 < rho → 0 ≤ sigma → 0 ≤ lam → (∀ i, 0 ≤ weightsOrOnes w i) →
      BaseReg (scadRegularizer rho sigma lam w)

/-- Base penalties, possibly inside elastic wrappers (any nesting). -/
inductive LibReg : {n : ℕ} → Regularizer K n → Prop
  | base {n : ℕ} {R : Regularizer K n} : BaseReg R → LibReg R
  | elastic {n : ℕ} (eps : K) {R : Regularizer K n} : 0 ≤ eps → LibReg R → LibReg (elastic eps (some R))
  | ridge {n : ℕ} (eps : K) : 0 ≤ eps → LibReg (elastic eps none : Regularizer K n)

end Verif
