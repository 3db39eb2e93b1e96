import Verif.Model.Priors

/-!
# Gaussian priors with numpy's broadcasting (`src/pysr3/priors.py`)

`Model/Priors.lean` indexes a prior by its columns and applies it to vectors with one entry per column. Here the arrays are lists, as numpy sees them, and
the vector of coefficients may have another length than the list of names.
-/

namespace Verif

variable {K : Type*} [Field K] [LinearOrder K]

/-- numpy's broadcasting along one axis: equal lengths entry by entry, a single entry against all entries, otherwise `ValueError`. -/
def npBroadcast {α β γ : Type*} (f : α → β → Except PyErr γ) (a : List α) (b : List β) : Except PyErr (List γ) :=
  if a.length = b.length then (a.zip b).mapM fun xy => f xy.1 xy.2
  else match a, b with
    | [x], b => b.mapM (f x)
    | a, [y] => a.mapM fun x => f x y
    | _, _ => .error .valueError

/-- A binary operation on one-dimensional arrays. -/
def npVec (f : K → K → K) (a b : List K) : Except PyErr (List K) := npBroadcast (fun x y => .ok (f x y)) a b

/-- A binary operation on two-dimensional arrays. -/
def npMat (f : K → K → K) (a b : List (List K)) : Except PyErr (List (List K)) := npBroadcast (npVec f) a b

/-- `np.diag` of a one-dimensional array. -/
def npDiag (d : List K) : List (List K) := (List.range d.length).map fun i => (List.range d.length).map fun j => if i = j then d.getD i 0 else 0

/-- The arrays of an instantiated `GaussianPrior` (`priors.py:76-78`). -/
structure GaussArr (K : Type*) where
  means : List K
  stds : List K
  weights : List K

/-- `GaussianPrior.instantiate` (`priors.py:63-78`). -/
def gaussArr (params : PriorParams K) (cols : List String) : Except PyErr (GaussArr K) :=
  if params.all (fun kv => decide (kv.1 ∈ cols)) then do
    let es ← cols.mapM (priorEntry params)
    return ⟨es.map fun e => e.1, es.map fun e => e.2.1, es.map fun e => e.2.2⟩
  else .error .assertionError

/-- `GaussianPrior.loss` (`priors.py:105`). -/
def GaussArr.loss (st : GaussArr K) (x : List K) : Except PyErr K := do
  let c ← npVec (· * ·) st.weights (st.stds.map fun s => 1 / (2 * s))
  let d ← npVec (· - ·) x st.means
  let t ← npVec (· * ·) c (d.map (· ^ 2))
  return t.sum

/-- `GaussianPrior.gradient` (`priors.py:120`). -/
def GaussArr.gradient (st : GaussArr K) (x : List K) : Except PyErr (List K) := do
  let c ← npVec (· * ·) st.weights (st.stds.map fun s => 1 / s)
  let d ← npVec (· - ·) x st.means
  npVec (· * ·) c d

/-- `GaussianPrior.hessian` (`priors.py:130`). -/
def GaussArr.hessian (st : GaussArr K) : Except PyErr (List (List K)) := do
  let c ← npVec (· * ·) st.weights (st.stds.map fun s => 1 / s)
  return npDiag c

/-- The gradient of an oracle with its prior (`lme/oracles.py:242, 457`). -/
def GaussArr.addGradient (st : GaussArr K) (g x : List K) : Except PyErr (List K) := do
  npVec (· + ·) g (← st.gradient x)

/-- The Hessian of an oracle with its prior (`lme/oracles.py:285, 481`). -/
def GaussArr.addHessian (st : GaussArr K) (H : List (List K)) : Except PyErr (List (List K)) := do
  npMat (· + ·) H (← st.hessian)

end Verif
