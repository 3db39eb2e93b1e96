import Verif.Model.LinSession
import Verif.Model.LmeProblem
import Mathlib.Algebra.Order.Floor.Ring

/-!
# Model of the cross-validation splitter `LMEStratifiedShuffleSplit` (`src/pysr3/lme/problems.py:835-890`)

`StratifiedShuffleSplit` of sklearn is modelled by its algorithm; its random choices are arbitrary: a split is a relation.  Proportions are exact.
-/

namespace Verif

/-- `np.where([label == GROUP for label in self.columns_labels])[0]` (`lme/problems.py:886`). -/
def groupColumns (labels : List String) : List ℕ := (List.range labels.length).filter fun j => labels.getD j "" = GROUP

/-- A row of `x[:, group_column]` (`lme/problems.py:887`): the class of the row.  sklearn joins the entries to one string; here they stay a list. -/
def splitClass (x : RawX) (cols : List ℕ) (i : Fin x.m) : List (Option ℝ) := cols.map fun j => if h : j < x.n then x.e i ⟨j, h⟩ else none

open Classical in
/-- `np.unique(y)` in sklearn's splitter (called at `lme/problems.py:887`). -/
noncomputable def splitClasses (x : RawX) (cols : List ℕ) : Finset (List (Option ℝ)) := Finset.univ.image (splitClass x cols)

open Classical in
/-- `class_indices` of sklearn's splitter (called at `lme/problems.py:887`): the rows of a class. -/
noncomputable def classRows (x : RawX) (cols : List ℕ) (c : List (Option ℝ)) : List (Fin x.m) := (List.finRange x.m).filter fun i => splitClass x cols i = c

/-- `_approximate_mode(class_counts, n_draws, rng)` of sklearn (called at `lme/problems.py:887`): shares rounded down, and the missing draws given to classes with the largest remainders; ties are
broken at random.  `total` is the sum of the counts; remainders are multiplied by it. -/
def IsApproxMode {κ : Type*} [DecidableEq κ] (cls : Finset κ) (counts : κ → ℕ) (draws : ℕ) (k : κ → ℕ) : Prop :=
  let total := ∑ c ∈ cls, counts c
  ∃ S ⊆ cls, S.card + ∑ c ∈ cls, counts c * draws / total = draws ∧
    (∀ c ∈ S, ∀ d ∈ cls, d ∉ S → counts d * draws % total ≤ counts c * draws % total) ∧
    ∀ c ∈ cls, k c = counts c * draws / total + if c ∈ S then 1 else 0

/-- `n_test` of `_validate_shuffle_split` of sklearn for `test_size` between 0 and 1 (`lme/problems.py:885`). -/
noncomputable def splitTest (ts : ℝ) (m : ℕ) : ℕ := ⌈ts * m⌉₊

/-- `n_train`: everything else (`lme/problems.py:885`). -/
noncomputable def splitTrain (ts : ℝ) (m : ℕ) : ℕ := m - splitTest ts m

open Classical in
/-- What raises in `LMEStratifiedShuffleSplit.split` (`lme/problems.py:884-887`): the arrays, a group label beyond the columns, no group label, the test size, a class with one row, parts smaller than
the number of classes.  (Some of these are raised when the first split is asked for.) -/
noncomputable def splitCheck (labels : List String) (ts : ℝ) (x : RawX) (y : RawY) : Except PyErr Unit :=
  if ¬ CheckedXY x y then .error .valueError
  else if ∃ j ∈ groupColumns labels, x.n ≤ j then .error .indexError
  else if groupColumns labels = [] then .error .valueError
  else if ts ≤ 0 ∨ 1 ≤ ts then .error .valueError
  else if splitTrain ts x.m = 0 then .error .valueError
  else if ∃ c ∈ splitClasses x (groupColumns labels), (classRows x (groupColumns labels) c).length < 2 then .error .valueError
  else if splitTrain ts x.m < (splitClasses x (groupColumns labels)).card then .error .valueError
  else if splitTest ts x.m < (splitClasses x (groupColumns labels)).card then .error .valueError
  else .ok ()

open Classical in
/-- One split of `StratifiedShuffleSplit` (`lme/problems.py:887`): the rows of every class are permuted, the first ones go to the training part, the next ones to the test part, and both parts are
permuted. -/
def IsSplit (x : RawX) (cols : List ℕ) (ts : ℝ) (train test : List (Fin x.m)) : Prop :=
  ∃ (n t : List (Option ℝ) → ℕ) (perm : List (Option ℝ) → List (Fin x.m)),
    IsApproxMode (splitClasses x cols) (fun c => (classRows x cols c).length) (splitTrain ts x.m) n ∧
    IsApproxMode (splitClasses x cols) (fun c => (classRows x cols c).length - n c) (splitTest ts x.m) t ∧
    (∀ c, (perm c).Perm (classRows x cols c)) ∧
    train.Perm ((splitClasses x cols).toList.flatMap fun c => (perm c).take (n c)) ∧
    test.Perm ((splitClasses x cols).toList.flatMap fun c => ((perm c).drop (n c)).take (t c))

/-- `LMEStratifiedShuffleSplit(columns_labels, random_state, test_size, n_splits).split(x, y)` (`lme/problems.py:868-887`), all splits taken: the possible outcomes. -/
def LmeSplits (labels : List String) (ts : ℝ) (nSplits : ℕ) (x : RawX) (y : RawY) (out : Except PyErr (List (List (Fin x.m) × List (Fin x.m)))) : Prop :=
  match splitCheck labels ts x y with
  | .error e => out = .error e
  | .ok _ => ∃ l : List (List (Fin x.m) × List (Fin x.m)), out = .ok l ∧ l.length = nSplits ∧ ∀ s ∈ l, IsSplit x (groupColumns labels) ts s.1 s.2

/-- `get_n_splits` (`lme/problems.py:889-890`). -/
def lmeGetNSplits (nSplits : ℕ) : ℕ := nSplits

end Verif
