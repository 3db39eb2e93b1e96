import Verif.Model.LmeOracle

/-!
# Model of the stacked parameter vector of `LinearLMEOracle` (`/repo/src/pysr3/lme/oracles.py:614-724, 1251-1297`)

Numpy arrays are lists here, because the code slices them.
-/

open Matrix

namespace Verif

noncomputable section

variable {p q : ℕ}

/-- `x_to_beta_gamma(x)` (`lme/oracles.py:627-629`); slices of numpy arrays stop at the end of the array. -/
def xToBetaGamma (p q : ℕ) (x : List ℝ) : List ℝ × List ℝ := (x.take p, (x.take (p + q)).drop p)

/-- `beta_gamma_to_x(beta, gamma)` (`lme/oracles.py:647`). -/
def betaGammaToX (beta gamma : List ℝ) : List ℝ := beta ++ gamma

/-- An array used where one of length `n` is needed: the matrix products of the evaluations raise `ValueError`
for other lengths (`lme/oracles.py:158, 188`).  Simplification: for an empty `gamma` and `q > 0` the loss would be
that without random effects. -/
def asVec (n : ℕ) (x : List ℝ) : Except PyErr (Vec ℝ n) :=
  if h : x.length = n then .ok fun i => x[i.1] else .error .valueError

/-- `LinearLMEOracle.joint_loss(x)` (`lme/oracles.py:666-667`); also `value_function` (`lme/oracles.py:709`). -/
def lmeJointLoss (D : List (LmeGroup p q)) (P : LmeInstPrior ℝ p q) (x : List ℝ) : Except PyErr ℝ := do
  let bg := xToBetaGamma p q x
  let beta ← asVec p bg.1
  let gamma ← asVec q bg.2
  lmeLoss D P beta gamma

/-- Assignment of the two blocks into `np.zeros(len(x))` (`lme/oracles.py:686-690, 1293-1297`). -/
def stackGradient (gb : Vec ℝ p) (gg : Vec ℝ q) (len : ℕ) : List ℝ :=
  List.ofFn gb ++ List.ofFn gg ++ List.replicate (len - (p + q)) 0

/-- `LinearLMEOracle.joint_gradient(x)` (`lme/oracles.py:685-691`); also `gradient_value_function`
(`lme/oracles.py:724`). -/
def lmeJointGradient (D : List (LmeGroup p q)) (P : LmeInstPrior ℝ p q) (x : List ℝ) :
    Except PyErr (List ℝ) := do
  let bg := xToBetaGamma p q x
  let beta ← asVec p bg.1
  let gamma ← asVec q bg.2
  let gb ← lmeGradientBeta D P beta gamma
  let gg ← lmeGradientGamma D P beta gamma
  return stackGradient gb gg x.length

/-- `LinearLMEOracleSR3.joint_loss(x, w)` (`lme/oracles.py:1272-1274`). -/
def lmeSr3JointLoss (D : List (LmeGroup p q)) (P : LmeInstPrior ℝ p q) (S : Sr3Params) (x w : List ℝ) :
    Except PyErr ℝ := do
  let bg := xToBetaGamma p q x
  let tbg := xToBetaGamma p q w
  let beta ← asVec p bg.1
  let gamma ← asVec q bg.2
  let tbeta ← asVec p tbg.1
  let tgamma ← asVec q tbg.2
  lmeSr3Loss D P S beta gamma tbeta tgamma

/-- `LinearLMEOracleSR3.joint_gradient(x, tbeta, tgamma)` (`lme/oracles.py:1292-1297`). -/
def lmeSr3JointGradient (D : List (LmeGroup p q)) (P : LmeInstPrior ℝ p q) (S : Sr3Params) (x : List ℝ)
    (tbeta tgamma : List ℝ) : Except PyErr (List ℝ) := do
  let bg := xToBetaGamma p q x
  let beta ← asVec p bg.1
  let gamma ← asVec q bg.2
  let tb ← asVec p tbeta
  let tg ← asVec q tgamma
  let gb ← lmeSr3GradientBeta D P S beta gamma tb
  let gg ← lmeSr3GradientGamma D P S beta gamma tg
  return stackGradient gb gg x.length

end

end Verif
