import Verif.Model.LmeModels
import Mathlib.Analysis.SpecialFunctions.Pow.Real

/-!
# Model of the covariate selection (`/repo/src/pysr3/lme/model_selectors.py`)

Writing the result to `sel_covs.yaml`, printing it and creating the output folder are not modelled: the selected names
are the result.
-/

namespace Verif

noncomputable section

/-! ## Dictionaries of covariates -/

/-- A dictionary of covariates (`lme/model_selectors.py:24-25`) by its entries `fixed_effects` and `random_effects`;
`isDefault` tells whether it is a `defaultdict(list)`. Other entries are never looked at. -/
structure CovDict where
  fixed : Option (List String)
  random : Option (List String)
  isDefault : Bool

/-- `defaultdict(list)` (`lme/model_selectors.py:62-63`). -/
def CovDict.fresh : CovDict := ⟨none, none, true⟩

/-- The two keys (`lme/model_selectors.py:64`). -/
inductive CovKey where
  | fixed
  | random

/-- The entry of a key (`lme/model_selectors.py:65`). -/
def CovDict.entry (d : CovDict) : CovKey → Option (List String)
  | .fixed => d.fixed
  | .random => d.random

/-- `d[key] = l` (`lme/model_selectors.py:65`). -/
def CovDict.set (d : CovDict) (k : CovKey) (l : List String) : CovDict :=
  match k with
  | .fixed => { d with fixed := some l }
  | .random => { d with random := some l }

/-- `d[key]` (`lme/model_selectors.py:65`): a `defaultdict` inserts an empty list for a missing key, other dictionaries
raise `KeyError`. -/
def CovDict.subscript (d : CovDict) (k : CovKey) : Except PyErr (List String) × CovDict :=
  match d.entry k with
  | some l => (.ok l, d)
  | none => if d.isDefault then (.ok [], d.set k []) else (.error .keyError, d)

/-- `list({*a, *b})` (`lme/model_selectors.py:65`): the order of a set is not specified (it changes from run to run with
the hash seed), so it is a parameter. -/
structure SetOrder where
  toList : List String → List String
  nodup : ∀ l, (toList l).Nodup
  mem : ∀ l s, s ∈ toList l ↔ s ∈ l

/-- One turn of the loop over the keys (`lme/model_selectors.py:65`), with the two dictionaries afterwards. -/
def mergeKey (S : SetOrder) (k : CovKey) (covs pre : CovDict) : Except PyErr Unit × CovDict × CovDict :=
  match covs.subscript k with
  | (.error e, covs) => (.error e, covs, pre)
  | (.ok a, covs) =>
    match pre.subscript k with
    | (.error e, pre) => (.error e, covs, pre)
    | (.ok b, pre) => (.ok (), covs.set k (S.toList (a ++ b)), pre)

/-- The loop over the keys (`lme/model_selectors.py:64-65`). -/
def mergeCovs (S : SetOrder) (covs pre : CovDict) : Except PyErr Unit × CovDict × CovDict :=
  match mergeKey S .fixed covs pre with
  | (.error e, r) => (.error e, r)
  | (.ok _, covs, pre) => mergeKey S .random covs pre

/-! ## The grid of models -/

/-- The settings all plain models of the grid share: the defaults of their constructors (`lme/models.py:736-747,
936-946, 1111-1122, 1294-1306`) and the logger keys (`lme/model_selectors.py:92`). -/
def gridPlain (reg : LmeReg) : LmeModelCfg where
  sr3 := none
  tol := 1e-5
  maxIter := 10000
  stepping := "line-search"
  fixedStepLen := none
  initializer := some "None"
  prior := none
  elasticEps := 1e-4
  reg := reg
  loggerKind := .tuple
  loggerKeys := ["converged", "jones_bic"]

/-- The settings all SR3 models of the grid share (`lme/models.py:828-848, 1009-1028, 1188-1208, 1375-1396`);
`maxIter` is 1000 for L0 and 10000 for the others. -/
def gridSr3 (maxIter : ℤ) (reg : LmeReg) : LmeModelCfg where
  sr3 := some
    { ell := 40
      practical := false
      updateProxEvery := 1
      tolOracle := 1e-5
      maxIterOracle := maxIter
      warmStartOracle := true
      takeOnlyPositivePart := true
      takeExpectedValue := false
      target := 0.5 }
  tol := 1e-5
  maxIter := maxIter
  stepping := "fixed"
  fixedStepLen := none
  initializer := some "None"
  prior := none
  elasticEps := 1e-4
  reg := reg
  loggerKind := .tuple
  loggerKeys := ["converged", "jones_bic"]

/-- The budgets of the L0 grid (`lme/model_selectors.py:133-135`): `p` in `range(1, num_fixed)`, `q` in
`range(1, num_random)` with `p >= q`, `p` in the outer loop. -/
def l0Grid (numFixed numRandom : ℕ) : List (ℤ × ℤ) :=
  (List.range' 1 (numFixed - 1)).flatMap fun p : ℕ =>
    ((List.range' 1 (numRandom - 1)).filter fun q : ℕ => q ≤ p).map fun q : ℕ => ((p : ℤ), (q : ℤ))

/-- `np.logspace(start=-4, stop=5, num=100)` (`lme/model_selectors.py:138`). -/
def lamGrid : List ℝ := (List.range 100).map fun i : ℕ => (10 : ℝ) ^ (-4 + 9 * (i : ℝ) / 99)

/-- `get_model` (`lme/model_selectors.py:114-152`) applied to the grid: the models in the order in which they are
tried. `sort` is numpy's sorting used by the L0 regularizers. -/
def gridModels (sort : NpSort) (name : String) (numFixed numRandom : ℕ) : Except PyErr (List LmeModelCfg) :=
  if name = "L0" then
    .ok ((l0Grid numFixed numRandom).map fun b => gridPlain (.l0 (some b.1) (some b.2) sort))
  else if name = "L0_SR3" then
    .ok ((l0Grid numFixed numRandom).map fun b => gridSr3 1000 (.l0 (some b.1) (some b.2) sort))
  else if name = "L1" then .ok (lamGrid.map fun lam => gridPlain (.l1 lam))
  else if name = "L1_SR3" then .ok (lamGrid.map fun lam => gridSr3 10000 (.l1 lam))
  else if name = "CAD" then .ok (lamGrid.map fun lam => gridPlain (.cad 0.3 lam))
  else if name = "CAD_SR3" then .ok (lamGrid.map fun lam => gridSr3 10000 (.cad 0.3 lam))
  else if name = "SCAD" then .ok (lamGrid.map fun lam => gridPlain (.scad 3.7 0.5 lam))
  else if name = "SCAD_SR3" then .ok (lamGrid.map fun lam => gridSr3 10000 (.scad 3.7 0.5 lam))
  else .error .valueError

/-! ## The search -/

/-- A stored object as a number that can be compared with `best_score` (`lme/model_selectors.py:94-95`); comparing a
list or another object with a float is a `TypeError`. -/
def scoreOf {n : ℕ} : LVal (PyVal ℝ n) → Except PyErr (WithTop ℝ)
  | .atom (.num v) => .ok v
  | _ => .error .typeError

/-- Fitting a new model to the problem and reading its score (`lme/model_selectors.py:92-94`); the result is the score
and the fitted coefficients. -/
def fitAndScore (P : LmeProblem ℝ) (M : LmeModelCfg) : Except PyErr (WithTop ℝ × LmeState) :=
  match lmeFitProblem M none P {} with
  | (.error e, _) => .error e
  | (.ok L, c) => do
    let v ← L.get "jones_bic"
    let s ← scoreOf v
    return (s, c)

/-- The loop over the grid (`lme/model_selectors.py:89-97`): the state is the score and the coefficients of the best
model. -/
def searchLoop {M C : Type} (fit : M → Except PyErr (WithTop ℝ × Option C)) :
    List M → WithTop ℝ × Option C → Except PyErr (WithTop ℝ × Option C)
  | [], best => .ok best
  | m :: ms, best => do
    let r ← fit m
    searchLoop fit ms (if r.1 < best.1 then r else best)

/-- The names whose coefficients are at least `1e-2` in absolute value (`lme/model_selectors.py:100-105`); `zip` stops at
the end of the shorter list, and cannot iterate over `None`. -/
def namesAbove (names : Option (List String)) (coefs : List ℝ) : Except PyErr (List String) := by
  classical exact
    match names with
    | none => .error .typeError
    | some l => .ok (((l.zip coefs).filter fun lc => decide (1e-2 ≤ |lc.2|)).map Prod.fst)

/-- From the problem to the selected covariates (`lme/model_selectors.py:88-105`). `best_model.coef_` of `None` is an
`AttributeError`. -/
def selectOn (sort : NpSort) (name : String) (P : LmeProblem ℝ) : Except PyErr (List String × List String) := do
  let Ms ← gridModels sort name P.numFixed P.numRandom
  let best ← searchLoop (fitAndScore P) Ms (⊤, none)
  match best.2 with
  | none => .error .attributeError
  | some c => do
    let fe ← namesAbove P.feColumns c.beta
    let re ← namesAbove P.reColumns c.gamma
    return (fe, re)

/-- `select_covariates` (`lme/model_selectors.py:20-111`) for a dataframe with the columns `header`: the selected fixed
and random effects, and the dictionaries of the caller afterwards (`none` where the caller passed none). -/
def selectCovariates {N : ℕ} (S : SetOrder) (sort : NpSort) (header : List String) (col : String → Vec ℝ N)
    (target variance group : String) (covs pre : Option CovDict) (name : String) :
    Except PyErr (List String × List String) × Option CovDict × Option CovDict :=
  match mergeCovs S (covs.getD .fresh) (pre.getD .fresh) with
  | (.error e, c, p) => (.error e, covs.map fun _ => c, pre.map fun _ => p)
  | (.ok _, c, p) =>
    ((do
      if ¬ ([target, variance, group] ++ c.fixed.getD [] ++ c.random.getD []).all (· ∈ header) then .error .valueError
      let P ← lmeFromDataframe header col (c.fixed.getD []) (c.random.getD []) group variance target
        (p.fixed.getD []) (p.random.getD [])
      selectOn sort name P), covs.map fun _ => c, pre.map fun _ => p)

end

end Verif
