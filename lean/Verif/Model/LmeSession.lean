import Verif.Model.LinSession
import Verif.Model.LmeModels

/-!
# Model of mixed-model objects: `fit(x, y)`, `predict(x)` and the fitted attributes (`src/pysr3/lme/models.py`)

Arrays are as the caller passes them, with entries that may be NaN or infinite (`RawX`, `RawY`).
-/

namespace Verif

open Matrix

/-- The fitted attributes `coef_`, `logger_` and `n_features_in_` of a mixed-model object (`lme/models.py:240, 251-257, 272`). -/
structure LmeObject where
  coef : LmeState
  logger : LoggerAttr
  nFeatures : Option ℕ

/-- A model object after the constructor (`lme/models.py:57-69`). -/
def LmeObject.new : LmeObject := ⟨none, .missing, none⟩

/-- `self.num_features` (`lme/problems.py:139-140`). -/
def LmeProblem.numFeatures {K : Type*} (P : LmeProblem K) : ℕ :=
  P.columnLabels.countP (fun l => l = FIXED ∨ l = RANDOM ∨ l = FIXED_RANDOM) + if P.interceptLabel.isSome then 1 else 0

/-- `fit_problem` on a model object (`lme/models.py:201-274`): `coef_` is assigned before the criteria are logged, `n_features_in_` at the end. Simplification: when an exception is
raised, the attribute `logger_` is the old logger or one that was being filled; the model says `abandoned` in both cases, and nothing is claimed for it. -/
noncomputable def lmeFitObject (M : LmeModelCfg) (s : LmeObject) (P : LmeProblem ℝ) (a : LmeFitArgs) : Except PyErr Unit × LmeObject :=
  match lmeFitProblem M s.coef P a with
  | (.error e, st) => (.error e, ⟨st, .abandoned, s.nFeatures⟩)
  | (.ok L, st) => (.ok (), ⟨st, .complete _ L, some P.numFeatures⟩)

open Classical in
/-- `fit(x, y, columns_labels, ...)` of a model object (`lme/models.py:145-156`); `columns_labels=None` is `labels = none`. -/
noncomputable def lmeFitXY (M : LmeModelCfg) (s : LmeObject) (x : RawX) (y : RawY) (labels : Option (List String)) (ffi fri : Bool)
    (columns mustFe mustRe : Option (List String)) (a : LmeFitArgs) : Except PyErr Unit × LmeObject :=
  if CheckedXY x y then
    match (match labels with
      | some l => lmeFromXY x.matrix (some (y.vec x.m)) columns l ffi fri mustFe mustRe
      | none => lmeFromXYDefault x.matrix (some (y.vec x.m)) columns ffi fri mustFe mustRe) with
    | .error e => (.error e, s)
    | .ok P => lmeFitObject M s P a
  else (.error .valueError, s)

open Classical in
/-- `predict(x, columns_labels, ...)` of a model object (`lme/models.py:311-316, 431-432`). -/
noncomputable def lmePredictXY (s : LmeObject) (x : RawX) (labels : Option (List String)) (ffi fri : Bool) : Except PyErr (List ℝ) :=
  match s.coef with
  | none => .error .notFitted
  | some _ => if x.Valid then lmePredict s.coef x.matrix labels ffi fri else .error .valueError

end Verif
