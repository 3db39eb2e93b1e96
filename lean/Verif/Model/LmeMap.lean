import Verif.Model.LmeProblem

/-!
# Model of the fixed-to-random map of `LinearLMEOracle.instantiate` (`/repo/src/pysr3/lme/oracles.py:95-113`)
-/

namespace Verif

/-- The loop over the labels (`lme/oracles.py:99-112`), with the counters and the array as state. The array has
`num_fixed_features` entries; writing past its end raises `IndexError`. Simplification: the entries are integers,
the code stores them as floats. -/
def mapLoop : List String → ℕ → ℕ → List ℤ → Except PyErr (List ℤ)
  | [], _, _, m => .ok m
  | l :: ls, b, g, m =>
    if l = FIXED then
      if b < m.length then mapLoop ls (b + 1) g (m.set b (-1)) else .error .indexError
    else if l = RANDOM then mapLoop ls b (g + 1) m
    else if l = FIXED_RANDOM then
      if b < m.length then mapLoop ls (b + 1) (g + 1) (m.set b g) else .error .indexError
    else mapLoop ls b g m

/-- `beta_to_gamma_map` after `instantiate(problem)` (`lme/oracles.py:95-113`); labels are not empty strings, so
`if self.problem.intercept_label` tests for `None`. -/
def betaToGammaMap {K : Type*} (P : LmeProblem K) : Except PyErr (List ℤ) :=
  mapLoop (P.interceptLabel.toList ++ P.columnLabels) 0 0 (List.replicate P.numFixed 0)

end Verif
