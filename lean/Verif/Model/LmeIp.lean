import Mathlib.Analysis.SpecialFunctions.Pow.Real
import Mathlib.Data.Matrix.ColumnRowPartitioned
import Verif.Model.LmeOracle

/-!
# Model of the iterative inner solvers of the mixed-effects oracles (`/repo/src/pysr3/lme/oracles.py:287-408, 1299-1517`)

The scipy line searches are parameters: a function that gets the number of the iteration and the upper bound
`max_step_len` and returns the step (or raises).  What scipy promises (`bounds`) is stated where it is used.
The stacked vectors `x = [v, g]` and `x = [v, beta, gamma]` are kept as their parts, and functions on the index type
`Fin q ⊕ (Fin p ⊕ Fin q)` where the code needs them stacked.
-/

open Matrix

namespace Verif

noncomputable section

variable {p q : ℕ}

/-- `np.linalg.norm` of a vector (`lme/oracles.py:313, 386, 1450-1454, 1485, 1503-1504`). -/
def npNorm {ι : Type*} [Fintype ι] (x : ι → ℝ) : ℝ := Real.sqrt (∑ i, x i ^ 2)

open Classical in
/-- `min(1, 1 if len(ind_neg_dir) == 0 else np.min(-x[ind_neg_dir] / direction[ind_neg_dir]))` where `ind_neg_dir` are
the positions of the list with negative direction (`lme/oracles.py:314-315, 391-392, 1465-1467`); the list holds the
pairs `(x_i, direction_i)` of the positions looked at. -/
def maxStepLen (l : List (ℝ × ℝ)) : ℝ :=
  ((l.filter fun e => e.2 < 0).map fun e => -e.1 / e.2).foldr min 1

open Classical in
/-- `x[x <= 1e-18] = 0` (`lme/oracles.py:325, 401`). -/
def killZeros {ι : Type*} (x : ι → ℝ) : ι → ℝ := fun i => if x i ≤ 1e-18 then 0 else x i

open Classical in
/-- `direction[(direction < 0) & (x == 0.0)] = 0` (`lme/oracles.py:310, 329, 390`). -/
def projectDirection {ι : Type*} (x d : ι → ℝ) : ι → ℝ := fun i => if d i < 0 ∧ x i = 0 then 0 else d i

/-- A line search: iteration number and upper bound to step length. -/
abbrev LineSearch := ℕ → ℝ → Except PyErr ℝ

/-- Pairs of values and directions of a vector. -/
def stepPairs {n : ℕ} (x d : Vec ℝ n) : List (ℝ × ℝ) := List.ofFn fun i => (x i, d i)

/-! ## `optimal_gamma_pgd` -/

/-- Local variables of `optimal_gamma_pgd` (`lme/oracles.py:306-310`). -/
structure PgdState (q : ℕ) where
  gamma : Vec ℝ q
  direction : Vec ℝ q
  stepLen : ℝ
  iteration : ℕ

/-- `-self.gradient_gamma(beta, gamma, **kwargs)`, projected (`lme/oracles.py:308-310, 327-329`); `grad` is
`self.gradient_gamma(beta, ·, **kwargs)`. -/
def pgdDirection (grad : Vec ℝ q → Except PyErr (Vec ℝ q)) (gamma : Vec ℝ q) : Except PyErr (Vec ℝ q) := do
  let g ← grad gamma
  return projectDirection gamma (-g)

open Classical in
/-- The loop of `optimal_gamma_pgd` (`lme/oracles.py:313-332`). -/
def pgdGammaLoop (grad : Vec ℝ q → Except PyErr (Vec ℝ q)) (ls : LineSearch) (nIter : ℤ) (tol : ℝ)
    (s : PgdState q) : Except PyErr (PgdState q) :=
  if _ : 0 < s.stepLen ∧ (s.iteration : ℤ) < nIter ∧ tol < npNorm s.direction then
    match ls s.iteration (maxStepLen (stepPairs s.gamma s.direction)) with
    | .error e => .error e
    | .ok step =>
      let gamma := killZeros (s.gamma + step • s.direction)
      match pgdDirection grad gamma with
      | .error e => .error e
      | .ok d => pgdGammaLoop grad ls nIter tol ⟨gamma, d, step, s.iteration + 1⟩
  else .ok s
termination_by (nIter - s.iteration).toNat
decreasing_by simp_wf; omega

/-- `optimal_gamma_pgd(beta, gamma)` (`lme/oracles.py:306-332`), with the number of iterations. -/
def lmeOptimalGammaPgd (grad : Vec ℝ q → Except PyErr (Vec ℝ q)) (ls : LineSearch) (nIter : ℤ) (tol : ℝ)
    (gamma : Vec ℝ q) : Except PyErr (Vec ℝ q × ℕ) := do
  let d ← pgdDirection grad gamma
  let s ← pgdGammaLoop grad ls nIter tol ⟨gamma, d, 1, 0⟩
  return (s.gamma, s.iteration)

/-! ## `optimal_gamma_ip` -/

/-- Local variables of `optimal_gamma_ip` (`lme/oracles.py:376-381`): `x = [v, g]`. -/
structure IpGammaState (q : ℕ) where
  v : Vec ℝ q
  gamma : Vec ℝ q
  mu : ℝ
  stepLen : ℝ
  iteration : ℕ

/-- `F(x, mu)` (`lme/oracles.py:358-365`). -/
def ipGammaF (grad : Vec ℝ q → Except PyErr (Vec ℝ q)) (v g : Vec ℝ q) (mu : ℝ) :
    Except PyErr (Fin q ⊕ Fin q → ℝ) := do
  let gr ← grad g
  return Sum.elim (fun j => v j * g j - mu) (gr - v)

/-- `dF(x)` (`lme/oracles.py:367-374`); `hess` is `self.hessian_gamma(beta, ·, take_only_positive_part=True)`. -/
def ipGammaJac (hess : Vec ℝ q → Except PyErr (Matrix (Fin q) (Fin q) ℝ)) (v g : Vec ℝ q) :
    Except PyErr (Matrix (Fin q ⊕ Fin q) (Fin q ⊕ Fin q) ℝ) := do
  let h ← hess g
  return fromBlocks (diagonal g) (diagonal v) (-1) h

/-- One pass of the loop (`lme/oracles.py:387-405`); `F_current` is the value computed by the loop condition.
`loss` is `self.loss(beta, ·)`; only whether it raises matters. -/
def ipGammaStep (grad : Vec ℝ q → Except PyErr (Vec ℝ q)) (hess : Vec ℝ q → Except PyErr (Matrix (Fin q) (Fin q) ℝ))
    (loss : Vec ℝ q → Except PyErr ℝ) (ls : LineSearch) (s : IpGammaState q) (F : Fin q ⊕ Fin q → ℝ) :
    Except PyErr (IpGammaState q) := do
  let dF ← ipGammaJac hess s.v s.gamma
  let d ← npSolve dF (-F)
  let d := projectDirection (Sum.elim s.v s.gamma) d
  let maxStep := maxStepLen (stepPairs s.v (d ∘ Sum.inl) ++ stepPairs s.gamma (d ∘ Sum.inr))
  let step ← ls s.iteration maxStep
  let v := killZeros (s.v + step • (d ∘ Sum.inl))
  let gamma := killZeros (s.gamma + step • (d ∘ Sum.inr))
  let mu := 0.1 * (v ⬝ᵥ gamma) / q
  let _ ← loss gamma
  let _ ← ipGammaF grad v gamma mu
  return ⟨v, gamma, mu, step, s.iteration + 1⟩

open Classical in
/-- The loop of `optimal_gamma_ip` (`lme/oracles.py:386-408`). -/
def ipGammaLoop (grad : Vec ℝ q → Except PyErr (Vec ℝ q)) (hess : Vec ℝ q → Except PyErr (Matrix (Fin q) (Fin q) ℝ))
    (loss : Vec ℝ q → Except PyErr ℝ) (ls : LineSearch) (nIter : ℤ) (tol : ℝ) (s : IpGammaState q) :
    Except PyErr (IpGammaState q) :=
  if _ : s.stepLen ≠ 0 ∧ (s.iteration : ℤ) < nIter then
    match ipGammaF grad s.v s.gamma s.mu with
    | .error e => .error e
    | .ok F =>
      if tol < npNorm F then
        match ipGammaStep grad hess loss ls s F with
        | .error e => .error e
        | .ok s' => ipGammaLoop grad hess loss ls nIter tol { s' with iteration := s.iteration + 1 }
      else .ok s
  else .ok s
termination_by (nIter - s.iteration).toNat
decreasing_by simp_wf; omega

/-- `optimal_gamma_ip(beta, gamma)` (`lme/oracles.py:353-408`): the final local variables. The returned value is the
field `gamma`.  Simplification: for an empty `gamma` the code computes `0 / 0 = nan` here, the model 0; the loop
is not entered in either case. -/
def lmeOptimalGammaIp (grad : Vec ℝ q → Except PyErr (Vec ℝ q))
    (hess : Vec ℝ q → Except PyErr (Matrix (Fin q) (Fin q) ℝ)) (loss : Vec ℝ q → Except PyErr ℝ) (ls : LineSearch)
    (nIter : ℤ) (tol : ℝ) (gamma : Vec ℝ q) : Except PyErr (IpGammaState q) :=
  ipGammaLoop grad hess loss ls nIter tol ⟨fun _ => 1, gamma, (∑ j, gamma j) / q, 1, 0⟩

/-- `optimal_gamma(beta, gamma, method)` of the plain oracle (`lme/oracles.py:410-433`). -/
def lmeOptimalGamma (D : List (LmeGroup p q)) (P : LmeInstPrior ℝ p q) (ls : LineSearch) (nIter : ℤ) (tol : ℝ)
    (method : String) (beta : Vec ℝ p) (gamma : Vec ℝ q) : Except PyErr (Vec ℝ q) :=
  if method = "pgd" then do
    let r ← lmeOptimalGammaPgd (lmeGradientGamma D P beta) ls nIter tol gamma
    return r.1
  else if method = "ip" then do
    let r ← lmeOptimalGammaIp (lmeGradientGamma D P beta) (lmeHessianGamma D P .positivePart beta)
      (lmeLoss D P beta) ls nIter tol gamma
    return r.gamma
  else .error .valueError

/-! ## `find_optimal_parameters_ip` of the SR3 oracle -/

/-- Attributes of `LinearLMEOracleSR3` that do not change, and keyword arguments of `find_optimal_parameters_ip`
(`lme/oracles.py:1080-1102, 1385-1389`).  `reg` is `regularizer.prox` on the stacked vector, with the step length as
first argument. -/
structure IpCfg (p q : ℕ) where
  nIter : ℤ
  tol : ℝ
  warmStart : Bool
  kind : HessKind
  target : ℝ
  muDecay : ℝ
  lineSearch : Option LineSearch
  reg : Option (ℝ → Vec ℝ p × Vec ℝ q → Except PyErr (Vec ℝ p × Vec ℝ q))
  increaseLambdas : Bool
  proxStepLen : ℝ
  updateProxEvery : ℤ

/-- Attributes of `LinearLMEOracleSR3` that the method changes: `lb`, `lg`, and the dictionary `warm_start_ip`, whose two
entries are always written together (`lme/oracles.py:1096-1099, 1501-1502, 1509-1511`). -/
structure IpOracle (p q : ℕ) where
  S : Sr3Params
  warm : Option (Vec ℝ p × Vec ℝ q)

/-- Local variables of `find_optimal_parameters_ip` (`lme/oracles.py:1399-1411, 1437-1442`): `x = [v, beta, gamma]`;
`prev` holds the four `prev_*` variables, `none` for the initial `np.infty`. -/
structure IpState (p q : ℕ) where
  v : Vec ℝ q
  beta : Vec ℝ p
  gamma : Vec ℝ q
  tbeta : Vec ℝ p
  tgamma : Vec ℝ q
  mu : ℝ
  stepLen : ℝ
  iteration : ℕ
  prev : Option (Vec ℝ p × Vec ℝ q × Vec ℝ p × Vec ℝ q)
  conv : Bool
  S : Sr3Params

/-- `F(x, mu)` (`lme/oracles.py:1413-1421`). -/
def ipF (D : List (LmeGroup p q)) (P : LmeInstPrior ℝ p q) (s : IpState p q) :
    Except PyErr (Fin q ⊕ (Fin p ⊕ Fin q) → ℝ) := do
  let gb ← lmeSr3GradientBeta D P s.S s.beta s.gamma s.tbeta
  let gg ← lmeSr3GradientGamma D P s.S s.beta s.gamma s.tgamma
  return Sum.elim (fun j => s.v j * s.gamma j - s.mu) (Sum.elim gb (gg - s.v))

/-- `dF(x)` (`lme/oracles.py:1423-1435`). -/
def ipJac (D : List (LmeGroup p q)) (P : LmeInstPrior ℝ p q) (kind : HessKind) (s : IpState p q) :
    Except PyErr (Matrix (Fin q ⊕ (Fin p ⊕ Fin q)) (Fin q ⊕ (Fin p ⊕ Fin q)) ℝ) := do
  let hb ← lmeSr3HessianBeta D P s.S s.gamma
  let hbg ← lmeHessianBetaGamma D P s.beta s.gamma
  let hg ← lmeSr3HessianGamma D P s.S kind s.beta s.gamma
  return fromBlocks (diagonal s.gamma) (fromCols 0 (diagonal s.v)) (fromRows 0 (-1)) (fromBlocks hb hbg hbgᵀ hg)

open Classical in
/-- The part of the loop condition on the change of the variables (`lme/oracles.py:1451-1455`). The norm of a nonempty
vector minus `np.infty` is infinite. -/
def ipMoved (tol : ℝ) (s : IpState p q) : Prop :=
  match s.prev with
  | none => True
  | some (pb, pg, ptb, ptg) => tol < npNorm (s.tbeta - ptb) ∨ tol < npNorm (s.tgamma - ptg) ∨
      tol < npNorm (s.beta - pb) ∨ tol < npNorm (s.gamma - pg) ∨ s.conv = true

/-- The step length (`lme/oracles.py:1469-1476`). -/
def ipStepLen (c : IpCfg p q) (iteration : ℕ) (maxStep : ℝ) : Except PyErr ℝ :=
  match c.lineSearch with
  | some ls => ls iteration maxStep
  | none => .ok (0.99 * maxStep)

open Classical in
/-- The projection step (`lme/oracles.py:1495-1497`); `iteration` has already been increased. -/
def ipProx (c : IpCfg p q) (iteration : ℕ) (beta : Vec ℝ p) (gamma : Vec ℝ q) (old : Vec ℝ p × Vec ℝ q) :
    Except PyErr (Vec ℝ p × Vec ℝ q) :=
  match c.reg with
  | some prox => if 0 < c.updateProxEvery ∧ (iteration : ℤ) % c.updateProxEvery = 0 then
      prox c.proxStepLen (beta, gamma) else .ok old
  | none => .ok old

open Classical in
/-- One pass of the loop (`lme/oracles.py:1456-1507`); `F` is the value `F(x, mu)` already computed by the loop
condition. -/
def ipStep (D : List (LmeGroup p q)) (P : LmeInstPrior ℝ p q) (c : IpCfg p q) (s : IpState p q)
    (F : Fin q ⊕ (Fin p ⊕ Fin q) → ℝ) : Except PyErr (IpState p q) := do
  let dF ← ipJac D P c.kind s
  let d ← npSolve dF (-F)
  let dv : Vec ℝ q := fun j => d (.inl j)
  let db : Vec ℝ p := fun i => d (.inr (.inl i))
  let dg : Vec ℝ q := fun j => d (.inr (.inr j))
  let maxStep := maxStepLen (stepPairs s.v dv ++ stepPairs s.gamma dg)
  let step ← ipStepLen c s.iteration maxStep
  let v := s.v + step • dv
  let beta := s.beta + step • db
  let gamma := s.gamma + step • dg
  let prev := some (s.beta, s.gamma, s.tbeta, s.tgamma)
  if c.target * (gamma ⬝ᵥ v) / q < npNorm (fun j => gamma j * v j - (gamma ⬝ᵥ v) / q) then
    return { s with v := v, beta := beta, gamma := gamma, stepLen := step, iteration := s.iteration + 1, prev := prev }
  else
    let t ← ipProx c (s.iteration + 1) beta gamma (s.tbeta, s.tgamma)
    let S : Sr3Params := if c.increaseLambdas then ⟨1.2 * (1 + s.S.lb), 1.2 * (1 + s.S.lg)⟩ else s.S
    let conv := if c.increaseLambdas then
      decide (npNorm (beta - t.1) < c.tol ∨ npNorm (gamma - t.2) < c.tol) else s.conv
    return { v := v, beta := beta, gamma := gamma, tbeta := t.1, tgamma := t.2, mu := c.muDecay * (v ⬝ᵥ gamma) / q,
             stepLen := step, iteration := s.iteration + 1, prev := prev, conv := conv, S := S }

open Classical in
/-- The loop (`lme/oracles.py:1448-1507`). -/
def ipLoop (D : List (LmeGroup p q)) (P : LmeInstPrior ℝ p q) (c : IpCfg p q) (s : IpState p q) :
    Except PyErr (IpState p q) :=
  if _ : s.stepLen ≠ 0 ∧ (s.iteration : ℤ) < c.nIter then
    match ipF D P s with
    | .error e => .error e
    | .ok F =>
      if (c.tol < npNorm F ∨ c.tol < s.mu) ∧ ipMoved c.tol s then
        match ipStep D P c s F with
        | .error e => .error e
        | .ok s' => ipLoop D P c { s' with iteration := s.iteration + 1 }
      else .ok s
  else .ok s
termination_by (c.nIter - s.iteration).toNat
decreasing_by simp_wf; omega

/-- The starting point: the arguments, or those of the last call (`lme/oracles.py:1401-1403`). -/
def ipStart (c : IpCfg p q) (o : IpOracle p q) (beta : Vec ℝ p) (gamma : Vec ℝ q) : Vec ℝ p × Vec ℝ q :=
  if c.warmStart then o.warm.getD (beta, gamma) else (beta, gamma)

/-- The local variables before the loop (`lme/oracles.py:1399-1411, 1437-1442`). -/
def ipInit (c : IpCfg p q) (o : IpOracle p q) (beta : Vec ℝ p) (gamma : Vec ℝ q) (tbeta : Vec ℝ p)
    (tgamma : Vec ℝ q) : IpState p q :=
  let bg := ipStart c o beta gamma
  { v := fun _ => 1, beta := bg.1, gamma := bg.2, tbeta := tbeta, tgamma := tgamma,
    mu := 0.1 * (∑ j, bg.2 j) / q, stepLen := 1, iteration := 0, prev := none, conv := false, S := o.S }

/-- The result of `find_optimal_parameters_ip`: `beta, gamma, tbeta, tgamma` (`lme/oracles.py:1394, 1517`). -/
structure IpResult (p q : ℕ) where
  beta : Vec ℝ p
  gamma : Vec ℝ q
  tbeta : Vec ℝ p
  tgamma : Vec ℝ q

/-- `find_optimal_parameters_ip(beta, gamma, tbeta, tgamma, ...)` (`lme/oracles.py:1385-1517`) on an oracle with
attributes `o`: the result and the attributes afterwards. The logger is left out here, `lmeFindIpLog` has it. -/
def lmeFindIp (D : List (LmeGroup p q)) (P : LmeInstPrior ℝ p q) (c : IpCfg p q) (o : IpOracle p q)
    (beta : Vec ℝ p) (gamma : Vec ℝ q) (tbeta : Vec ℝ p) (tgamma : Vec ℝ q) :
    Except PyErr (IpResult p q × IpOracle p q) :=
  if q = 0 then do
    let b ← lmeSr3OptimalBeta D o.S tgamma tbeta
    return (⟨b, tgamma, tbeta, tgamma⟩, o)
  else do
    let s ← ipLoop D P c (ipInit c o beta gamma tbeta tgamma)
    return (⟨s.beta, s.gamma, s.tbeta, s.tgamma⟩,
      ⟨s.S, if c.warmStart then some (s.beta, s.gamma) else o.warm⟩)

/-- `LinearLMEOracleSR3.value_function(w)` (`lme/oracles.py:1314-1317`), `w` given by its parts. -/
def lmeSr3ValueFunction (D : List (LmeGroup p q)) (P : LmeInstPrior ℝ p q) (c : IpCfg p q) (o : IpOracle p q)
    (tbeta : Vec ℝ p) (tgamma : Vec ℝ q) : Except PyErr (ℝ × IpOracle p q) := do
  let r ← lmeFindIp D P c o ((2 : ℝ) • tbeta) ((2 : ℝ) • tgamma) tbeta tgamma
  let v ← lmeSr3Loss D P r.2.S r.1.beta r.1.gamma r.1.tbeta r.1.tgamma
  return (v, r.2)

/-- `LinearLMEOracleSR3.gradient_value_function(w)` (`lme/oracles.py:1332-1338`), as its two parts. -/
def lmeSr3GradientValueFunction (D : List (LmeGroup p q)) (P : LmeInstPrior ℝ p q) (c : IpCfg p q) (o : IpOracle p q)
    (tbeta : Vec ℝ p) (tgamma : Vec ℝ q) : Except PyErr ((Vec ℝ p × Vec ℝ q) × IpOracle p q) := do
  let r ← lmeFindIp D P c o ((2 : ℝ) • tbeta) ((2 : ℝ) • tgamma) tbeta tgamma
  return ((-(r.2.S.lb • (r.1.beta - tbeta)), -(r.2.S.lg • (r.1.gamma - tgamma))), r.2)

/-- `LinearLMEOracleSR3.find_optimal_parameters(w, ...)` (`lme/oracles.py:1371-1383`), as its two parts. -/
def lmeSr3FindOptimal (D : List (LmeGroup p q)) (P : LmeInstPrior ℝ p q) (c : IpCfg p q) (o : IpOracle p q)
    (tbeta : Vec ℝ p) (tgamma : Vec ℝ q) : Except PyErr ((Vec ℝ p × Vec ℝ q) × IpOracle p q) := do
  let r ← lmeFindIp D P c o ((2 : ℝ) • tbeta) ((2 : ℝ) • tgamma) tbeta tgamma
  return ((r.1.tbeta, r.1.tgamma), r.2)

end

end Verif
