import Verif.Model.LmeModels

/-!
# What fitted mixed-effects models should predict
-/

namespace Verif

noncomputable section

/-- The entries of a table row which are fixed effects, with the intercept's one in front. -/
def fixedEntries {N c : ℕ} (labels : List String) (ffi : Bool) (x : Matrix (Fin N) (Fin c) ℝ) (r : Fin N) : List ℝ :=
  (if ffi then [1] else []) ++
    ((labels.zip (List.ofFn (x r))).filter fun lv => lv.1 = "fixed" ∨ lv.1 = "fixed+random").map Prod.snd

/-- The entries of a table row which are random effects, with the intercept's one in front. -/
def randomEntries {N c : ℕ} (labels : List String) (fri : Bool) (x : Matrix (Fin N) (Fin c) ℝ) (r : Fin N) : List ℝ :=
  (if fri then [1] else []) ++
    ((labels.zip (List.ofFn (x r))).filter fun lv => lv.1 = "random" ∨ lv.1 = "fixed+random").map Prod.snd

/-- Number of fixed effects for given labels. -/
def fixedCount (labels : List String) (ffi : Bool) : ℕ :=
  (labels.filter fun l => l = "fixed" ∨ l = "fixed+random").length + if ffi then 1 else 0

/-- Number of random effects for given labels. -/
def randomCount (labels : List String) (fri : Bool) : ℕ :=
  (labels.filter fun l => l = "random" ∨ l = "fixed+random").length + if fri then 1 else 0

/-- Inner product of lists. -/
def sumProd (a b : List ℝ) : ℝ := (List.zipWith (· * ·) a b).sum

/-- Fitted coefficients of a model with `p` fixed and `q` random effects: one vector of random effects for each of
the different training groups. -/
structure LmeCoef.Consistent (c : LmeCoef) (p q : ℕ) : Prop where
  beta : c.beta.length = p
  labels : c.groupLabels.Nodup
  groups : c.randomEffects.length = c.groupLabels.length
  effects : ∀ u ∈ c.randomEffects, u.length = q

/-- The random effects of a group. -/
def LmeCoef.effectsOf (c : LmeCoef) (label : ℝ) : List ℝ :=
  (((c.groupLabels.zip c.randomEffects).find? fun e => e.1 = label).map Prod.snd).getD []

/-- The prediction for a row: fixed effects plus the random effects of the row's group, `g` being the column of
group labels. -/
def rowPrediction (c : LmeCoef) {N k : ℕ} (labels : List String) (ffi fri : Bool) (x : Matrix (Fin N) (Fin k) ℝ)
    (g : Fin k) (r : Fin N) : ℝ :=
  sumProd (fixedEntries labels ffi x r) c.beta + sumProd (randomEntries labels fri x r) (c.effectsOf (x r g))

end

end Verif
