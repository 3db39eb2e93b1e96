import Verif.Model.LmeProblem

/-!
# Model of `to_dataframe` and of `from_dataframe` on frames with repeated column names

`lmeFromDataframe` (`Model/LmeProblem.lean`) assumes that the names of the columns are different. The frames written by `to_dataframe` carry the *roles* of the columns as their names, so names repeat as soon as a problem has two
columns of the same role. Here a frame is the list of its columns with their names, and `data[names]` takes, for every name in the list, all columns of this name (pandas).
-/

namespace Verif

section
variable {K : Type*} [Field K] [LinearOrder K]

/-- A data frame of numbers: its number of rows and its columns with their names (`pd.DataFrame`, used in `lme/problems.py:747, 826-830`). -/
structure Frame (K : Type*) where
  /-- Number of rows. -/
  size : ℕ
  /-- Names and columns. -/
  columns : List (String × Vec K size)

/-- `data.columns` (`lme/problems.py:789, 801`). -/
def Frame.header (F : Frame K) : List String := F.columns.map Prod.fst

/-- All columns of one name, in order. -/
def Frame.named (F : Frame K) (name : String) : List (Vec K F.size) := (F.columns.filter fun c => c.1 = name).map Prod.snd

/-- `data[names]` for a list of names (`lme/problems.py:814`): for every name all columns of this name. -/
def Frame.select (F : Frame K) (names : List String) : List (Vec K F.size) := names.flatMap F.named

/-- `LMEProblem.to_dataframe` (`lme/problems.py:826-830`): the table of `to_x_y` with the labels as column names, and a column `target`.
(`to_x_y` returns rows with one entry per label, and no label is `target`, so that the assignment of line 829 appends a column.) -/
def lmeToDataframe (P : LmeProblem K) : Except PyErr (Frame K) :=
  match toXY P with
  | .error e => .error e
  | .ok (x, y, labels) => .ok {
      size := x.length
      columns := (labels.mapIdx fun j l => (l, fun i : Fin x.length => (x[i]).getD j 0)) ++ [("target", fun i : Fin x.length => y.getD i 0)] }

/-- `LMEProblem.from_dataframe` (`lme/problems.py:747-823`) for frames whose column names may repeat: `data[columns]` then has more columns than `columns` has names, and `data[target]` is a table unless exactly one column has
this name (`check_X_y` at line 595 then raises `ValueError`). -/
noncomputable def lmeFromFrame (F : Frame K) (fixedEffects randomEffects : List String) (groups variance target : String) (notRegFe notRegRe : List String) : Except PyErr (LmeProblem K) :=
  if ¬ (fixedEffects ++ randomEffects ++ [groups, variance, target] ++ notRegFe ++ notRegRe).all (· ∈ F.header) then .error .valueError
  else if ¬ notRegFe.all (· ∈ fixedEffects) then .error .valueError
  else if ¬ notRegRe.all (· ∈ randomEffects) then .error .valueError
  else
    let sel := dataframeColumns F.header fixedEffects randomEffects
    let names := groups :: (sel.map Prod.fst ++ [variance])
    let cols := F.select names
    match F.named target with
    | [y] => lmeFromXY (p := cols.length) (Matrix.of fun i j => cols[j] i) (some y) (some names) (GROUP :: (sel.map Prod.snd ++ [VARIANCE]))
        (INTERCEPT ∈ fixedEffects) (INTERCEPT ∈ randomEffects) (some notRegFe) (some notRegRe)
    | _ => .error .valueError

end

end Verif
