import Verif.Model.Basic
import Mathlib.Data.Finset.Sort
import Mathlib.Data.Fintype.Basic
import Mathlib.Data.List.FinRange
import Mathlib.Algebra.BigOperators.Group.List.Basic

/-!
# Model of `src/pysr3/lme/problems.py`

Input matrices are Mathlib matrices; the per-group matrices a problem stores are lists of rows (their numbers of rows and columns are computed by the code, so they are data, not types).
Data are finite numbers (no NaN), and arrays have the documented shapes (a target has one entry per row).
-/

namespace Verif

/-- Column roles (`lme/problems.py:30-35`). -/
abbrev GROUP : String := "group"
/-- `lme/problems.py:31`. -/
abbrev INTERCEPT : String := "intercept"
/-- `lme/problems.py:32`. -/
abbrev VARIANCE : String := "variance"
/-- `lme/problems.py:33`. -/
abbrev FIXED : String := "fixed"
/-- `lme/problems.py:34`. -/
abbrev RANDOM : String := "random"
/-- `lme/problems.py:35`. -/
abbrev FIXED_RANDOM : String := "fixed+random"

/-- A per-group random design: a matrix given by its rows, or the zero-dimensional array `np.array(0)` that `generate` stores when there are no random effects (`lme/problems.py:453`). -/
inductive RandomDesign (K : Type*) where
  | zeroDim
  | rows (r : List (List K))

/-- Attributes of an `LMEProblem` (`lme/problems.py:126-149`). -/
structure LmeProblem (K : Type*) where
  fixedFeatures : List (List (List K))
  randomFeatures : List (RandomDesign K)
  obsVars : List (List K)
  groupLabels : List K
  interceptLabel : Option String
  columnLabels : List String
  orderOfObjects : List ℕ
  answers : Option (List (List K))
  feColumns : Option (List String)
  reColumns : Option (List String)
  feWeights : List K
  reWeights : List K

/-- `self.groups_sizes` (`lme/problems.py:131`). -/
def LmeProblem.groupsSizes {K : Type*} (P : LmeProblem K) : List ℕ := P.fixedFeatures.map List.length

/-- `self.num_groups` (`lme/problems.py:132`). -/
def LmeProblem.numGroups {K : Type*} (P : LmeProblem K) : ℕ := P.groupsSizes.length

/-- `self.num_obs` (`lme/problems.py:133`). -/
def LmeProblem.numObs {K : Type*} (P : LmeProblem K) : ℕ := P.groupsSizes.sum

/-- `self.num_fixed_features` (`lme/problems.py:141-142`). -/
def LmeProblem.numFixed {K : Type*} (P : LmeProblem K) : ℕ :=
  P.columnLabels.countP (fun l => l = FIXED ∨ l = FIXED_RANDOM) +
    if P.interceptLabel = some FIXED ∨ P.interceptLabel = some FIXED_RANDOM then 1 else 0

/-- `self.num_random_features` (`lme/problems.py:143-144`). -/
def LmeProblem.numRandom {K : Type*} (P : LmeProblem K) : ℕ :=
  P.columnLabels.countP (fun l => l = RANDOM ∨ l = FIXED_RANDOM) +
    if P.interceptLabel = some RANDOM ∨ P.interceptLabel = some FIXED_RANDOM then 1 else 0

/-- The intercept label (`lme/problems.py:491-498` and `637-644`). -/
def interceptLabelOf (fitFixed fitRandom : Bool) : Option String :=
  match fitFixed, fitRandom with
  | true, true => some FIXED_RANDOM
  | false, true => some RANDOM
  | true, false => some FIXED
  | false, false => none

/-! ## `from_x_y` -/

/-- Positions of the columns whose label satisfies a test (`lme/problems.py:601-610`). The list of labels has one entry per column at this point. -/
def labelIdx {p : ℕ} (labels : List String) (test : String → Bool) : List (Fin p) :=
  (List.finRange p).filter fun i => test (labels.getD i "")

/-- Test for fixed effects (`lme/problems.py:609`). -/
def isFixed (l : String) : Bool := l = FIXED || l = FIXED_RANDOM

/-- Test for random effects (`lme/problems.py:610`). -/
def isRandom (l : String) : Bool := l = RANDOM || l = FIXED_RANDOM

/-- Test for allowed labels (`lme/problems.py:596-598`). -/
def isKnown (l : String) : Bool := l = GROUP || l = VARIANCE || l = FIXED || l = RANDOM || l = FIXED_RANDOM

/-- The regularization weights (`lme/problems.py:623-635`): `must` is the must-include list, `interceptIn` the list in which the intercept is looked up (for the random effects the code looks it up in the list
of the *fixed* effects, and `in None` is a `TypeError`). -/
def regWeightsOf {K : Type*} [Field K] (must interceptIn : Option (List String)) (columns : Option (List String)) (idx : List ℕ) (num : ℕ) : Except PyErr (List K) :=
  match must with
  | none => .ok (List.replicate num 1)
  | some [] => .ok (List.replicate num 1)
  | some (m :: ms) =>
    match interceptIn with
    | none => .error .typeError
    | some inc =>
      match columns with
      | none => .error .valueError
      | some cols =>
        if idx.all (· < cols.length) then
          .ok ((if INTERCEPT ∈ inc then 0 else 1) :: idx.map fun i => if cols.getD i "" ∈ m :: ms then 0 else 1)
        else .error .indexError

/-- The names of the selected columns (`lme/problems.py:646-647`). -/
def namesOf (columns : Option (List String)) (idx : List ℕ) : Option (List String) :=
  match columns with
  | none => none
  | some [] => none
  | some (c :: cs) => some (idx.map fun i => (c :: cs).getD i "")

section
variable {K : Type*} [Field K] [LinearOrder K]

/-- The label is a whole number, so that sklearn's `unique_labels` accepts the column (`type_of_target` is not `continuous`). -/
def IntValued (v : K) : Prop := ∃ z : ℤ, (z : K) = v

/-- `unique_labels` (`lme/problems.py:612`): the different labels in increasing order. -/
def uniqueLabels {N : ℕ} (v : Vec K N) : List K := (Finset.univ.image v).sort

/-- Rows of a group in input order (`lme/problems.py:665-666`). -/
def groupRows {N : ℕ} (v : Vec K N) (label : K) : List (Fin N) := (List.finRange N).filter fun r => v r = label

/-- One row of a design matrix: optional leading one, then the selected columns (`lme/problems.py:667-680`). -/
def designRow {N p : ℕ} (x : Matrix (Fin N) (Fin p) K) (intercept : Bool) (idx : List (Fin p)) (r : Fin N) : List K :=
  (if intercept then [1] else []) ++ idx.map (x r)

/-- The body of `from_x_y` once the group column `g` and the variance column `v` are known (`lme/problems.py:607-687`). -/
noncomputable def fromXYCore {N p : ℕ} (x : Matrix (Fin N) (Fin p) K) (y : Option (Vec K N)) (columns : Option (List String)) (labels : List String) (ffi fri : Bool)
    (mustFe mustRe : Option (List String)) (g v : Fin p) : Except PyErr (LmeProblem K) :=
  open Classical in
  if ∃ r, x r v = 0 then .error .assertionError
  else if ¬ ∀ r, IntValued (x r g) then .error .valueError
  else if columns ≠ none ∧ columns ≠ some [] ∧ (columns.getD []).length ≠ p then .error .assertionError
  else if (mustFe ≠ none ∨ mustRe ≠ none) ∧ columns = none then .error .valueError
  else
    let fIdx : List (Fin p) := labelIdx labels isFixed
    let rIdx : List (Fin p) := labelIdx labels isRandom
    match regWeightsOf mustFe mustFe columns (fIdx.map Fin.val) (fIdx.length + ffi.toNat) with
    | .error e => .error e
    | .ok feW =>
      match regWeightsOf mustRe mustFe columns (rIdx.map Fin.val) (rIdx.length + fri.toNat) with
      | .error e => .error e
      | .ok reW =>
        let groups := uniqueLabels (fun r => x r g)
        let rowsOf := groupRows (fun r => x r g)
        .ok {
          fixedFeatures := groups.map fun l => (rowsOf l).map (designRow x ffi fIdx)
          randomFeatures := groups.map fun l => .rows ((rowsOf l).map (designRow x fri rIdx))
          obsVars := groups.map fun l => (rowsOf l).map fun r => x r v
          groupLabels := groups
          interceptLabel := interceptLabelOf ffi fri
          columnLabels := labels
          orderOfObjects := (groups.flatMap rowsOf).map Fin.val
          answers := y.map fun t => groups.map fun l => (rowsOf l).map t
          feColumns := namesOf columns (fIdx.map Fin.val)
          reColumns := namesOf columns (rIdx.map Fin.val)
          feWeights := feW
          reWeights := reW }

/-- `LMEProblem.from_x_y` with `columns_labels` given (`lme/problems.py:531-687`). `check_X_y` (line 595) rejects arrays without rows or columns. -/
noncomputable def lmeFromXY {N p : ℕ} (x : Matrix (Fin N) (Fin p) K) (y : Option (Vec K N)) (columns : Option (List String)) (labels : List String) (ffi fri : Bool)
    (mustFe mustRe : Option (List String)) : Except PyErr (LmeProblem K) :=
  if y.isSome ∧ (N = 0 ∨ p = 0) then .error .valueError
  else if ¬ labels.all isKnown then .error .assertionError
  else if labels.length ≠ p then .error .assertionError
  else
    match labelIdx (p := p) labels (· = GROUP) with
    | [g] =>
      match labelIdx (p := p) labels (· = VARIANCE) with
      | [v] => fromXYCore x y columns labels ffi fri mustFe mustRe g v
      | _ => .error .assertionError
    | _ => .error .assertionError

/-- `LMEProblem.from_x_y` without `columns_labels` (`lme/problems.py:588-592`): one group, all columns fixed, unit variances. -/
noncomputable def lmeFromXYDefault {N p : ℕ} (x : Matrix (Fin N) (Fin p) K) (y : Option (Vec K N)) (columns : Option (List String)) (ffi fri : Bool)
    (mustFe mustRe : Option (List String)) : Except PyErr (LmeProblem K) :=
  lmeFromXY (p := p + 2) (Matrix.of fun i => Fin.cons 0 (Fin.snoc (x i) 1)) y columns (GROUP :: (List.replicate p FIXED ++ [VARIANCE])) ffi fri mustFe mustRe

/-! ## `to_x_y` -/

/-- One row of `untitled_data` (`lme/problems.py:710-736`); the code fills column by column, this is the same table row by row. `f` and `z` are the row's entries of the fixed and random
designs, `fc` and `rc` the two counters; a counter past the end is an `IndexError`. -/
def fillRow (g v : K) (f z : List K) : List String → ℕ → ℕ → Except PyErr (List K)
  | [], _, _ => .ok []
  | l :: ls, fc, rc =>
    if l = GROUP then (fillRow g v f z ls fc rc).map (g :: ·)
    else if l = FIXED then
      match f[fc]? with
      | none => .error .indexError
      | some a => (fillRow g v f z ls (fc + 1) rc).map (a :: ·)
    else if l = RANDOM then
      match z[rc]? with
      | none => .error .indexError
      | some a => (fillRow g v f z ls fc (rc + 1)).map (a :: ·)
    else if l = FIXED_RANDOM then
      match f[fc]? with
      | none => .error .indexError
      | some a => (fillRow g v f z ls (fc + 1) (rc + 1)).map (a :: ·)
    else if l = VARIANCE then (fillRow g v f z ls fc rc).map (v :: ·)
    else (fillRow g v f z ls fc rc).map ((0 : K) :: ·)

/-- `ndarray.argsort()` of a list of numbers (`lme/problems.py:738, 743`); it is only applied to lists of different numbers, where the result does not depend on the sorting algorithm. -/
def argsortNat (l : List ℕ) : List ℕ := (List.range l.length).mergeSort fun a b => l.getD a 0 ≤ l.getD b 0

/-- Rows of the random designs, concatenated (`lme/problems.py:705`); numpy refuses zero-dimensional arrays. -/
def concatRandom : List (RandomDesign K) → Except PyErr (List (List K))
  | [] => .ok []
  | .zeroDim :: _ => .error .valueError
  | .rows r :: rest => (concatRandom rest).map (r ++ ·)

/-- Fancy indexing with a list of positions. -/
def takeIdx {α : Type*} (l : List α) (idx : List ℕ) : Except PyErr (List α) :=
  idx.mapM fun i => match l[i]? with
    | none => .error .indexError
    | some a => .ok a

/-- Row `(g, v, f, z)` of the table built in `to_x_y`. -/
def tableRow (P : LmeProblem K) (r : K × K × List K × List K) : Except PyErr (List K) :=
  fillRow r.1 r.2.1 r.2.2.1 r.2.2.2 P.columnLabels
    (if P.interceptLabel = some FIXED ∨ P.interceptLabel = some FIXED_RANDOM then 1 else 0)
    (if P.interceptLabel = some RANDOM ∨ P.interceptLabel = some FIXED_RANDOM then 1 else 0)

/-- `LMEProblem.to_x_y` (`lme/problems.py:689-744`); `np.concatenate` of an empty list of arrays is a `ValueError`; without answers the last indexing is a `TypeError`. -/
def toXY (P : LmeProblem K) : Except PyErr (List (List K) × List K × List String) :=
  if P.fixedFeatures = [] then .error .valueError
  else do
    let allGroups := (P.groupLabels.zip P.groupsSizes).flatMap fun gs => List.replicate gs.2 gs.1
    let allFixed := P.fixedFeatures.flatten
    let allRandom ← concatRandom P.randomFeatures
    let allVars := P.obsVars.flatten
    let rows ← (allGroups.zip (allVars.zip (allFixed.zip allRandom))).mapM (tableRow P)
    let x ← takeIdx rows (argsortNat P.orderOfObjects)
    match P.answers with
    | none => .error .typeError
    | some a => do
      let y ← takeIdx a.flatten (argsortNat P.orderOfObjects)
      return (x, y, P.columnLabels)

/-! ## Iteration -/

/-- The iterator protocol of a problem: the position is an attribute of the problem itself (`lme/problems.py:151-184`). -/
inductive IterOp where
  | iter
  | next

/-- What one protocol call answers. -/
inductive IterOut where
  | self
  | group (j : ℕ)
  | stop
  | attributeError
deriving DecidableEq

/-- One call of `__iter__` / `__next__` on a problem with `m` groups (`lme/problems.py:159-160, 175-184`); `none` is a position that was never set. -/
def iterStep (m : ℕ) (pos : Option ℕ) : IterOp → IterOut × Option ℕ
  | .iter => (.self, some 0)
  | .next =>
    match pos with
    | none => (.attributeError, none)
    | some j => if j < m then (.group j, some (j + 1)) else (.stop, some j)

/-- A sequence of protocol calls, with the answers. -/
def iterRun (m : ℕ) (pos : Option ℕ) : List IterOp → List IterOut × Option ℕ
  | [] => ([], pos)
  | op :: ops =>
    let r := iterStep m pos op
    let rest := iterRun m r.2 ops
    (r.1 :: rest.1, rest.2)

/-! ## Per-group coefficients -/

/-- One vector of `get_per_group_coefficients` (`lme/problems.py:929-947`). -/
def perGroupCoefs (beta u : List K) : List String → ℕ → ℕ → Except PyErr (List K)
  | [], _, _ => .ok []
  | l :: ls, fc, rc =>
    if l = FIXED then
      match beta[fc]? with
      | none => .error .indexError
      | some b => (perGroupCoefs beta u ls (fc + 1) rc).map (b :: ·)
    else if l = RANDOM then
      match u[rc]? with
      | none => .error .indexError
      | some c => (perGroupCoefs beta u ls fc (rc + 1)).map (c :: ·)
    else if l = FIXED_RANDOM then
      match beta[fc]? with
      | none => .error .indexError
      | some b =>
        match u[rc]? with
        | none => .error .indexError
        | some c => (perGroupCoefs beta u ls (fc + 1) (rc + 1)).map ((b + c) :: ·)
    else (perGroupCoefs beta u ls fc rc).map (0 :: ·)

/-- `get_per_group_coefficients` for a list of labelled random effects (`lme/problems.py:893-951`). -/
def getPerGroupCoefficients {G : Type*} (beta : List K) (randomEffects : List (G × List K)) (labels : List String) : Except PyErr (List (G × List K)) :=
  match randomEffects with
  | [] => .ok []
  | (l, u) :: rest =>
    match perGroupCoefs beta u labels 0 0 with
    | .error e => .error e
    | .ok c => (getPerGroupCoefficients beta rest labels).map ((l, c) :: ·)

/-! ## `generate` -/

/-- The argument `obs_var` (`lme/problems.py:456-467`). -/
inductive ObsVar (K : Type*) where
  | scalar (v : K)
  | array (a : List K)

/-- The variance selected for group `i` (`lme/problems.py:456-467`): note the slice `obs_var[start:group_size]`. -/
def genVariance (obsVar : ObsVar K) (sizes : List ℕ) (start size i : ℕ) : Except PyErr (ObsVar K) :=
  match obsVar with
  | .scalar v => .ok (.scalar v)
  | .array a =>
    if a.length = sizes.sum then .ok (.array ((a.take size).drop start))
    else if a.length = sizes.length then
      match a[i]? with
      | none => .error .indexError
      | some v => .ok (.scalar v)
    else .error .valueError

/-- Broadcasting of a variance to the size of a group, as required by `np.random.normal(scale=..., size=group_size)` and `np.ones(group_size) * ...` (`lme/problems.py:470, 484`). -/
def broadcastVar (size : ℕ) : ObsVar K → Except PyErr (List K)
  | .scalar v => .ok (List.replicate size v)
  | .array a =>
    if a.length = size then .ok a
    else match a with
      | [v] => .ok (List.replicate size v)
      | _ => .error .valueError

/-- What the random generator delivered for one group: feature rows (after missing values and outliers were applied), random effects and measurement errors. -/
structure GenDraw (K : Type*) where
  rows : List (List K)
  u : List K
  errors : List K

/-- Arguments of `generate` that reach the deterministic part; group sizes are those of the drawn rows. -/
structure GenCfg (K : Type*) where
  labels : List String
  ffi : Bool
  fri : Bool
  obsVar : ObsVar K
  beta : List K

/-- `a.dot(b)` for vectors. -/
def listDot (a b : List K) : Except PyErr K := if a.length = b.length then .ok (List.zipWith (· * ·) a b).sum else .error .valueError

/-- A row of the fixed or random design (`lme/problems.py:431-445`). -/
def genRow (labels : List String) (test : String → Bool) (intercept : Bool) (row : List K) : List K :=
  let idx := (List.range labels.length).filter fun i => test (labels.getD i "")
  if idx = [] then [1] else (if intercept then [1] else []) ++ idx.map fun i => row.getD i 0

/-- Number of effects (`lme/problems.py:341-342`). -/
def genNum (labels : List String) (test : String → Bool) (intercept : Bool) : ℕ :=
  ((List.range labels.length).filter fun i => test (labels.getD i "")).length + if intercept then 1 else 0

/-- The part of an answer due to the random effects (`lme/problems.py:439-454, 471`). -/
def genRandomPart (c : GenCfg K) (u : List K) (row : List K) : Except PyErr K :=
  if genNum c.labels isRandom c.fri = 0 then .ok 0 else listDot (genRow c.labels isRandom c.fri row) u

/-- Answers of one object (`lme/problems.py:471`). -/
def genAnswer (c : GenCfg K) (u : List K) (row : List K) (e : K) : Except PyErr K := do
  let a ← listDot (genRow c.labels isFixed c.ffi row) c.beta
  let b ← genRandomPart c u row
  return a + b + e

/-- One group of the generated problem. -/
structure GenGroup (K : Type*) where
  fixed : List (List K)
  random : RandomDesign K
  answers : List K
  obsVars : List K

/-- The loop over groups (`lme/problems.py:417-486`). -/
def genGroups (c : GenCfg K) (sizes : List ℕ) : ℕ → ℕ → List (GenDraw K) → Except PyErr (List (GenGroup K))
  | _, _, [] => .ok []
  | start, i, d :: ds => do
    let var ← genVariance c.obsVar sizes start d.rows.length i
    let vars ← broadcastVar d.rows.length var
    let ans ← (d.rows.zip d.errors).mapM fun re => genAnswer c d.u re.1 re.2
    let rest ← genGroups c sizes (start + d.rows.length) (i + 1) ds
    return ⟨d.rows.map (genRow c.labels isFixed c.ffi),
      if genNum c.labels isRandom c.fri = 0 then .zeroDim else .rows (d.rows.map (genRow c.labels isRandom c.fri)), ans, vars⟩ :: rest

/-- The names of the fixed or random effects of a generated problem (`lme/problems.py:336-339, 502-503`). -/
def genNames (labels : List String) (test : String → Bool) (intercept : Bool) : List String :=
  (if intercept then [INTERCEPT] else []) ++ ((List.range labels.length).filter fun i => test (labels.getD i "")).map fun i => "x" ++ toString i

/-- `LMEProblem.generate` after the random draws (`lme/problems.py:322-528`): the problem and the true per-group coefficients. -/
def lmeGenerate (c : GenCfg K) (draws : List (GenDraw K)) : Except PyErr (LmeProblem K × List (ℕ × List K)) :=
  if genNum c.labels isFixed c.ffi = 0 then .error .valueError
  else if c.beta.length ≠ genNum c.labels isFixed c.ffi then .error .assertionError
  else do
    let sizes := draws.map fun d => d.rows.length
    let gs ← genGroups c sizes 0 0 draws
    let labels := GROUP :: (c.labels ++ [VARIANCE])
    let coefs ← getPerGroupCoefficients c.beta (draws.mapIdx fun i d => (i, d.u)) labels
    return ({
      fixedFeatures := gs.map GenGroup.fixed
      randomFeatures := gs.map GenGroup.random
      obsVars := gs.map GenGroup.obsVars
      groupLabels := (List.range draws.length).map fun (i : ℕ) => (i : K)
      interceptLabel := interceptLabelOf c.ffi c.fri
      columnLabels := labels
      orderOfObjects := List.range sizes.sum
      answers := some (gs.map GenGroup.answers)
      feColumns := some (genNames c.labels isFixed c.ffi)
      reColumns := some (genNames c.labels isRandom c.fri)
      feWeights := List.replicate (genNum c.labels isFixed c.ffi) 1
      reWeights := List.replicate (genNum c.labels isRandom c.fri) 1 }, coefs)

/-! ## `from_dataframe` -/

/-- The columns selected from a dataframe and their labels (`lme/problems.py:797-812`). -/
def dataframeColumns (header fixedEffects randomEffects : List String) : List (String × String) :=
  (header.filter fun e => decide (e ∈ fixedEffects ∨ e ∈ randomEffects) && decide (e ≠ INTERCEPT)).map fun e =>
    (e, if e ∈ fixedEffects ∧ e ∈ randomEffects then FIXED_RANDOM else if e ∈ randomEffects then RANDOM else FIXED)

/-- The call of `from_x_y` at the end of `from_dataframe`, with the selected columns and their labels (`lme/problems.py:811-823`). `col` gives the column of a name. -/
noncomputable def lmeFromSelected {N : ℕ} (sel : List (String × String)) (col : String → Vec K N) (groups variance target : String) (ffi fri : Bool) (notRegFe notRegRe : List String) :
    Except PyErr (LmeProblem K) :=
  lmeFromXY (p := (groups :: (sel.map Prod.fst ++ [variance])).length) (Matrix.of fun i j => col (groups :: (sel.map Prod.fst ++ [variance]))[j] i) (some (col target))
    (some (groups :: (sel.map Prod.fst ++ [variance]))) (GROUP :: (sel.map Prod.snd ++ [VARIANCE])) ffi fri (some notRegFe) (some notRegRe)

/-- `LMEProblem.from_dataframe` (`lme/problems.py:747-823`). `col` gives the column of a name in the header (names in the header are different, so that `data[columns]` has one column per name). -/
noncomputable def lmeFromDataframe {N : ℕ} (header : List String) (col : String → Vec K N) (fixedEffects randomEffects : List String) (groups variance target : String)
    (notRegFe notRegRe : List String) : Except PyErr (LmeProblem K) :=
  if ¬ (fixedEffects ++ randomEffects ++ [groups, variance, target] ++ notRegFe ++ notRegRe).all (· ∈ header) then .error .valueError
  else if ¬ notRegFe.all (· ∈ fixedEffects) then .error .valueError
  else if ¬ notRegRe.all (· ∈ randomEffects) then .error .valueError
  else
    lmeFromSelected (dataframeColumns header fixedEffects randomEffects) col groups variance target
      (INTERCEPT ∈ fixedEffects) (INTERCEPT ∈ randomEffects) notRegFe notRegRe

end

end Verif
