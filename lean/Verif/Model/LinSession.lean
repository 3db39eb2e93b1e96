import Verif.Model.Linear

/-!
# Model of linear model objects: `fit(x, y)`, `predict(x)` and the fitted attributes (`src/pysr3/linear/models.py`)

Arrays are as the caller passes them: the entries may be NaN or infinite, the target may have two dimensions, the starting point may have any length.
-/

namespace Verif

open Matrix

/-- A two-dimensional array of numbers handed to `fit` or `predict`; `none` stands for NaN or an infinity. -/
structure RawX where
  m : ℕ
  n : ℕ
  e : Fin m → Fin n → Option ℝ

/-- A target handed to `fit`: `cols = none` for a one-dimensional array, else the number of columns. -/
structure RawY where
  k : ℕ
  cols : Option ℕ
  e : Fin k → ℕ → Option ℝ

/-- What `check_array` of sklearn accepts (`linear/models.py:163`): rows, columns, finite entries. -/
def RawX.Valid (x : RawX) : Prop := 0 < x.m ∧ 0 < x.n ∧ ∀ i j, x.e i j ≠ none

/-- What `check_X_y` of sklearn accepts (`linear/models.py:68`): a valid table and a target with one column, finite entries and one entry per row. -/
def CheckedXY (x : RawX) (y : RawY) : Prop := x.Valid ∧ y.k = x.m ∧ (y.cols = none ∨ y.cols = some 1) ∧ ∀ i, y.e i 0 ≠ none

/-- `np.array(x)` for a checked table (`linear/models.py:69, 164`). -/
noncomputable def RawX.matrix (x : RawX) : Matrix (Fin x.m) (Fin x.n) ℝ := of fun i j => (x.e i j).getD 0

/-- `np.array(y)`, `y[:, 0]` for a checked target (`linear/models.py:70-73`). -/
noncomputable def RawY.vec (y : RawY) (m : ℕ) : Vec ℝ m := fun i => if h : i.1 < y.k then (y.e ⟨i.1, h⟩ 0).getD 0 else 0

/-- The attribute `logger_` of a model object: missing, a logger, or a logger that was being filled when `fit_problem` raised. -/
inductive LoggerAttr where
  | missing
  | complete (n : ℕ) (L : Logger (PyVal ℝ n))
  | abandoned

/-- The fitted attributes `coef_`, `logger_` and `n_features_in_` of a model object (`linear/models.py:121-133`). -/
structure LinObject where
  coef : LinState
  logger : LoggerAttr
  nFeatures : Option ℕ

/-- A model object after the constructor (`linear/models.py:27, 239-246`). -/
def LinObject.new : LinObject := ⟨none, .missing, none⟩

/-- What may raise before the logger is made (`linear/models.py:107-113`): `instantiate` of the oracle. -/
noncomputable def linPrepare (M : LinModelCfg) (P : LinProblem ℝ) : Except PyErr Unit :=
  match M.sr3 with
  | none => (linOracleInstantiate M.prior P).map fun _ => ()
  | some (el, _) =>
    match M.prior with
    | .gaussian _ => .error .assertionError
    | .none => if (sr3H P.a P.c el).det = 0 then .error .linAlgError else .ok ()

/-- The oracle as the solver sees it when the starting point has the wrong length: every product with the data raises `ValueError`. -/
def shapeOracle (k : ℕ) : Oracle ℝ k Unit := ⟨fun _ _ => .error .valueError, fun _ _ => .error .valueError⟩

/-- `solver.optimize` from a starting point of the wrong length (`linear/models.py:123`, `solvers.py:76-122, 176-194`, `linear/oracles.py:327-338`). -/
noncomputable def shapeOptimize (M : LinModelCfg) {k : ℕ} (v : Vec ℝ k) : Except PyErr (Vec ℝ k × Logger (PyVal ℝ k)) := do
  let L : Logger (PyVal ℝ k) := Logger.init M.loggerKind M.loggerKeys
  let r ← (match M.sr3 with
    | some (_, true) => fakeOptimize (shapeOracle k) (fun x => if farApart M.tol none x ∧ 0 < M.maxIter then fun _ => .error .valueError else pure x) dummyRegularizer v L ()
    | _ => pgdOptimize (shapeOracle k) dummyRegularizer M.solver v L ())
  return r.1

/-- `LinearModel.fit_problem` on a model object (`linear/models.py:78-135`): `initial_parameters.get("x0", x)` is read only with `warm_start`, the logger replaces the old one before the solver
runs, `coef_` is assigned when it returns, and `n_features_in_` at the end.  An error `nan` is not an exception of the code (it goes on with NaN): nothing is claimed for it. -/
noncomputable def linFitObject (M : LinModelCfg) (s : LinObject) (P : LinProblem ℝ) (x0 : Option (Σ k, Vec ℝ k)) (warm : Bool) (w : Option (Vec ℝ P.n)) :
    Except PyErr Unit × LinObject :=
  match linPrepare M P with
  | .error e => (.error e, s)
  | .ok _ =>
    let regular (v : Option (Vec ℝ P.n)) : Except PyErr Unit × LinObject :=
      match linFit M P v warm w with
      | .error e => (.error e, { s with logger := .abandoned })
      | .ok r => (.ok (), ⟨some ⟨P.n, r.1⟩, .complete P.n r.2, some P.n⟩)
    match warm, x0 with
    | true, some ⟨k, v⟩ =>
      if h : k = P.n then regular (some (h ▸ v))
      else
        match shapeOptimize M v with
        | .error e => (.error e, { s with logger := .abandoned })
        | .ok r =>
          if "aic" ∈ M.loggerKeys ∨ "bic" ∈ M.loggerKeys then (.error .valueError, { s with coef := some ⟨k, r.1⟩, logger := .abandoned })
          else (.ok (), ⟨some ⟨k, r.1⟩, .complete k r.2, some P.n⟩)
    | _, _ => regular none

/-- The problem made by `LinearProblem.from_x_y(x=x, y=y)` (`linear/models.py:74, 165`, `linear/problems.py:96`). -/
noncomputable def RawX.problem (x : RawX) (b : Vec ℝ x.m) : LinProblem ℝ := ⟨x.m, x.n, x.matrix, b, 1, none, .none⟩

open Classical in
/-- `LinearModel.fit(x, y, initial_parameters, warm_start, regularization_weights)` (`linear/models.py:68-76`). -/
noncomputable def linFitXY (M : LinModelCfg) (s : LinObject) (x : RawX) (y : RawY) (x0 : Option (Σ k, Vec ℝ k)) (warm : Bool) (w : Option (Vec ℝ x.n)) :
    Except PyErr Unit × LinObject :=
  if CheckedXY x y then linFitObject M s (x.problem (y.vec x.m)) x0 warm w else (.error .valueError, s)

open Classical in
/-- `LinearModel.predict(x)` (`linear/models.py:162-166, 186-194, 204-205`). -/
noncomputable def linPredictXY (s : LinObject) (x : RawX) : Except PyErr (Vec ℝ x.m) :=
  match s.coef with
  | none => .error .notFitted
  | some _ => if x.Valid then linPredict s.coef x.matrix else .error .valueError

end Verif
