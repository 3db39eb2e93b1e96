import Verif.Model.LmeProblem

/-!
# The arguments of `LMEProblem.generate` (`/repo/src/pysr3/lme/problems.py:186-528`)

`Model/LmeProblem.lean` starts where all arguments are known and all random numbers are drawn (`lmeGenerate`). Here is the way from the arguments of the
call to that point, and the dictionary of true parameters. What numpy's random generator delivers is an arbitrary input `GenRand`.
-/

namespace Verif

variable {K : Type*} [Field K] [LinearOrder K]

/-- The argument `true_random_effects` (`lme/problems.py:195, 263-265`): pairs of a group label and its effects, or a two-dimensional array (by its rows). -/
inductive TrueEffects (K : Type*) where
  | pairs (l : List (ℕ × List K))
  | array (rows : List (List K))

/-- Arguments of `generate` (`lme/problems.py:187-204`). Of the covariance matrix of the features only the shape matters here. -/
structure GenArgs (K : Type*) where
  sizes : Option (List (Option ℕ)) := none
  labels : Option (List String) := none
  ffi : Bool := false
  fri : Bool := false
  covariance : Option (ℕ × ℕ) := none
  obsVar : ObsVar K
  beta : Option (List K) := none
  gamma : Option (List K) := none
  trueEffects : Option (TrueEffects K) := none
  chanceMissing : K
  chanceOutlier : K

/-- What the random generator delivers (`lme/problems.py:328-330, 348, 354, 377-384, 394-408, 423-428, 448, 470`). `labels n` are the labels drawn for `n` features, `beta n` and `gamma n`
coefficients drawn, `sizes i`, `features i`, `mask i`, `effects i`, `errors i` what is drawn for group `i`. Simplification: the column of ones the code stores in place of the features when there
are none (line 410), which no design matrix uses, is a table with empty rows. -/
structure GenRand (K : Type*) where
  numFeatures : ℕ
  labels : ℕ → List String
  beta : ℕ → List K
  gamma : ℕ → List K
  numGroups : ℕ
  sizes : ℕ → ℕ
  features : ℕ → List (List K)
  mask : ℕ → List (List K)
  effects : ℕ → List K
  errors : ℕ → List K

/-- The problem and the true parameters (`lme/problems.py:505-528`), and the caller's list of group sizes after the call. -/
structure GenOut (K : Type*) where
  problem : LmeProblem K
  beta : List K
  gamma : List K
  perGroup : List (ℕ × List K)
  trueGroupLabels : List ℕ
  randomEffects : List (ℕ × List K)
  errors : List (List K)
  trueRmse : K
  callerSizes : Option (List (Option ℕ))

/-- The labels of the features (`lme/problems.py:324-330`). -/
def GenArgs.labelsOf (a : GenArgs K) (r : GenRand K) : List String :=
  match a.labels with
  | some l => l
  | none => r.labels (match a.covariance with
    | some s => s.1
    | none => r.numFeatures)

/-- The sizes of the groups (`lme/problems.py:376-385`). -/
def GenArgs.sizesOf (a : GenArgs K) (r : GenRand K) : List ℕ :=
  match a.sizes with
  | none => (List.range r.numGroups).map r.sizes
  | some l => l.mapIdx fun i s => s.getD (r.sizes i)

/-- The caller's list of group sizes after the call: entries `None` are overwritten (`lme/problems.py:383-384`). -/
def GenArgs.callerSizesOf (a : GenArgs K) (r : GenRand K) : Option (List (Option ℕ)) :=
  a.sizes.map fun l => l.mapIdx fun i s => some (s.getD (r.sizes i))

/-- `dict(pairs).get(label)` (`lme/problems.py:447`): the last pair counts. -/
def dictGet (l : List (ℕ × List K)) (label : ℕ) : Option (List K) := l.reverse.lookup label

/-- The random effects of group `i` when there are random effects (`lme/problems.py:446-450`). `dict` of an array takes each row for a pair of a key and a value and raises `ValueError` for rows of
another length. Simplification: when a key equals the label of the group, the effects are a single number, which is then multiplied with the design matrix; the model takes this to raise. -/
def GenArgs.effectsOf (a : GenArgs K) (r : GenRand K) (i : ℕ) : Except PyErr (List K) :=
  match a.trueEffects with
  | none => .ok (r.effects i)
  | some (.pairs l) => .ok ((dictGet l i).getD (r.effects i))
  | some (.array rows) =>
    if rows.all fun row => decide (row.length = 2) then
      if rows.any fun row => decide (row.getD 0 0 = (i : K)) then .error .valueError else .ok (r.effects i)
    else .error .valueError

/-- `group_features *= missing_and_outliers_mask` (`lme/problems.py:429`): the features of group `i` as everything after this line sees them. -/
def GenRand.masked (r : GenRand K) (i : ℕ) : List (List K) := List.zipWith (List.zipWith (· * ·)) (r.features i) (r.mask i)

/-- The draws of group `i` as the rest of the loop uses them (`lme/problems.py:417-471`); `np.random.choice` raises `ValueError` for negative probabilities. Without random effects
`random_effects` is `np.array(0)` (line 454), which `get_per_group_coefficients` does not read. -/
def GenArgs.drawOf (a : GenArgs K) (r : GenRand K) (i : ℕ) : Except PyErr (GenDraw K) :=
  if a.chanceMissing < 0 ∨ a.chanceOutlier < 0 ∨ 1 - a.chanceMissing - a.chanceOutlier < 0 then .error .valueError
  else if genNum (a.labelsOf r) isRandom a.fri = 0 then .ok ⟨r.masked i, [], r.errors i⟩
  else (a.effectsOf r i).map fun u => ⟨r.masked i, u, r.errors i⟩

/-- `LMEProblem.generate` (`lme/problems.py:318-528`). Left out: the seed, `as_x_y` (see `genTable`), `return_true_model_coefficients` (it only drops the second result), the choice of the
distribution of the features. -/
def genCall (a : GenArgs K) (r : GenRand K) : Except PyErr (GenOut K) :=
  let labels := a.labelsOf r
  let p := genNum labels isFixed a.ffi
  let q := genNum labels isRandom a.fri
  if labels = [] ∧ a.ffi = false ∧ a.fri = false then .error .valueError
  else if p = 0 then .error .valueError
  else
    let beta := a.beta.getD (r.beta p)
    let gamma := a.gamma.getD (r.gamma q)
    if beta.length ≠ p then .error .assertionError
    else if gamma.length ≠ q then .error .assertionError
    else if a.covariance ≠ none ∧ a.covariance ≠ some (labels.length, labels.length) then .error .assertionError
    else do
      let sizes := a.sizesOf r
      let draws ← (List.range sizes.length).mapM (a.drawOf r)
      let res ← lmeGenerate ⟨labels, a.ffi, a.fri, a.obsVar, beta⟩ draws
      return {
        problem := res.1
        beta := beta
        gamma := gamma
        perGroup := res.2
        trueGroupLabels := (List.range sizes.length).flatMap fun i => List.replicate (sizes.getD i 0) i
        randomEffects := draws.mapIdx fun i d => (i, d.u)
        errors := draws.map GenDraw.errors
        trueRmse := (draws.map fun d => (d.errors.map (· ^ 2)).sum).sum
        callerSizes := a.callerSizesOf r }

/-- `generate(..., as_x_y=True)` (`lme/problems.py:511`): the first result is the table. -/
def genTable (a : GenArgs K) (r : GenRand K) : Except PyErr (List (List K) × List K × List String) := do
  toXY (← genCall a r).problem

/-- The shapes and values numpy's generator promises for the calls in `generate` (`lme/problems.py:328-330, 348, 354, 394-408, 423-428, 450, 470`): labels are drawn from the three roles, a mask has
the entries 0, 1 and `mult` (`outlier_multiplier`), and an entry of probability zero never occurs. -/
structure GenRand.Fits (r : GenRand K) (a : GenArgs K) (mult : K) : Prop where
  labels : ∀ n, (r.labels n).length = n ∧ ∀ l ∈ r.labels n, l = FIXED ∨ l = RANDOM ∨ l = FIXED_RANDOM
  beta : ∀ n, (r.beta n).length = n
  gamma : ∀ n, (r.gamma n).length = n
  features : ∀ i < (a.sizesOf r).length, (r.features i).length = (a.sizesOf r).getD i 0 ∧ ∀ row ∈ r.features i, row.length = (a.labelsOf r).length
  mask : ∀ i < (a.sizesOf r).length, (r.mask i).length = (a.sizesOf r).getD i 0 ∧ ∀ row ∈ r.mask i, row.length = (a.labelsOf r).length ∧
    ∀ m ∈ row, m = 0 ∧ a.chanceMissing ≠ 0 ∨ m = 1 ∨ m = mult ∧ a.chanceOutlier ≠ 0
  effects : ∀ i < (a.sizesOf r).length, (r.effects i).length = (a.labelsOf r).countP (fun l => l = RANDOM ∨ l = FIXED_RANDOM) + if a.fri then 1 else 0
  errors : ∀ i < (a.sizesOf r).length, (r.errors i).length = (a.sizesOf r).getD i 0

end Verif
