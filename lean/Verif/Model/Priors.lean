import Verif.Model.Regularizers
import Mathlib.Data.Matrix.Diagonal

/-!
# Model of `src/pysr3/priors.py` and `src/pysr3/lme/priors.py`
-/

namespace Verif

variable {K : Type*} [Field K] [LinearOrder K]

/-- The dictionary `{"name": (mean, std), ...}` of a prior (`priors.py:35-44`), in insertion order; `dict.get` is `List.lookup`. -/
abbrev PriorParams (K : Type*) := List (String × (K × K))

/-- `params.get(label, (0, 0))` (`priors.py:71`). -/
def PriorParams.getD (params : PriorParams K) (label : String) : K × K := (params.lookup label).getD (0, 0)

/-- The attributes `means`, `stds`, `weights` of an instantiated `GaussianPrior` (`priors.py:76-78`), for `n` columns. -/
structure GaussState (K : Type*) (n : ℕ) where
  means : Vec K n
  stds : Vec K n
  weights : Vec K n

/-- The body of the loop in `GaussianPrior.instantiate` (`priors.py:71-75`). -/
def priorEntry (params : PriorParams K) (label : String) : Except PyErr (K × K × K) :=
  let ms := params.getD label
  if 0 ≤ ms.2 then .ok (ms.1, (if 0 < ms.2 then ms.2 else 1), (if 0 < ms.2 then 1 else 0))
  else .error .assertionError

/-- `GaussianPrior.instantiate` with a list of column names (`priors.py:49-78`). The state is indexed by the columns, so `means.shape`
is `len(problem_columns)`. -/
def gaussInstantiate (params : PriorParams K) (cols : List String) : Except PyErr (GaussState K cols.length) :=
  if params.all (fun kv => decide (kv.1 ∈ cols)) then do
    let es ← collect fun i : Fin cols.length => priorEntry params cols[i]
    return ⟨fun i => (es i).1, fun i => (es i).2.1, fun i => (es i).2.2⟩
  else .error .assertionError

/-- What a caller may pass as `problem_columns`: a list of names, or an object that supports neither `in` nor iteration. -/
inductive ColumnsArg where
  | names (l : List String)
  | opaqueObject

/-- `GaussianPrior.instantiate` with an arbitrary argument (`priors.py:63, 70`): on an object without `__contains__`/`__iter__` the test `key in obj`
(some parameter) or the loop `for label in obj` (no parameter) raises `TypeError`. -/
def gaussInstantiateArg (params : PriorParams K) : ColumnsArg → Except PyErr (Σ n, GaussState K n)
  | .names l => (gaussInstantiate params l).map fun st => ⟨_, st⟩
  | .opaqueObject => .error .typeError

/-- `GaussianPrior.loss` (`priors.py:105`). -/
def GaussState.loss {n : ℕ} (st : GaussState K n) (x : Vec K n) : K :=
  ∑ i, st.weights i * (1 / (2 * st.stds i)) * (x i - st.means i) ^ 2

/-- `GaussianPrior.gradient` (`priors.py:120`). -/
def GaussState.gradient {n : ℕ} (st : GaussState K n) (x : Vec K n) : Vec K n :=
  fun i => st.weights i * (1 / st.stds i) * (x i - st.means i)

/-- `GaussianPrior.hessian` (`priors.py:130`). -/
def GaussState.hessian {n : ℕ} (st : GaussState K n) : Matrix (Fin n) (Fin n) K :=
  Matrix.diagonal fun i => st.weights i * (1 / st.stds i)

/-- A prior attached to an oracle after instantiation: `NonInformativePrior` (`priors.py:133-199`, all methods return `0`) or a Gaussian one. -/
inductive InstPrior (K : Type*) (n : ℕ) where
  | nonInformative
  | gaussian (st : GaussState K n)

/-- `prior.loss` (`priors.py:105, 177`). -/
def InstPrior.loss {n : ℕ} : InstPrior K n → Vec K n → K
  | .nonInformative, _ => 0
  | .gaussian st, x => st.loss x

/-- `prior.gradient` (`priors.py:120, 188`; the scalar `0` is broadcast when it is added to a vector). -/
def InstPrior.gradient {n : ℕ} : InstPrior K n → Vec K n → Vec K n
  | .nonInformative, _ => 0
  | .gaussian st, x => st.gradient x

/-- `prior.hessian` (`priors.py:130, 199`). -/
def InstPrior.hessian {n : ℕ} : InstPrior K n → Matrix (Fin n) (Fin n) K
  | .nonInformative => 0
  | .gaussian st => st.hessian

/-! ## Mixed-model prior -/

/-- State of a `GaussianPriorLME` (`lme/priors.py:24-27`): its own references to the dictionaries (`None` after `forget`), the dictionaries held by the two
inner `GaussianPrior`s, and the inner priors' instantiated states. -/
structure LmePrior (K : Type*) where
  feParams : Option (PriorParams K)
  reParams : Option (PriorParams K)
  betaParams : PriorParams K
  gammaParams : PriorParams K
  beta : Option (Σ n, GaussState K n)
  gamma : Option (Σ n, GaussState K n)

/-- `GaussianPriorLME.__init__` (`lme/priors.py:12-27`). -/
def LmePrior.init (fe re : PriorParams K) : LmePrior K := ⟨some fe, some re, fe, re, none, none⟩

/-- `GaussianPriorLME.instantiate` (`lme/priors.py:29-49`); `fixed`, `random` are the problem's column lists (`None` when it has none). Line 45 repeats the check of
line 43 on the fixed effects. The state is returned also when an exception is raised (the first inner prior may already be instantiated). -/
def LmePrior.instantiate (p : LmePrior K) (fixed random : Option (List String)) : Except PyErr Unit × LmePrior K :=
  match fixed, random with
  | some fc, some rc =>
    if fc = [] ∨ rc = [] then (.error .assertionError, p)
    else
      match p.feParams with
      | none => (.error .attributeError, p)
      | some fe =>
        if fe.all (fun kv => decide (kv.1 ∈ fc)) then
          match gaussInstantiateArg p.betaParams (.names fc) with
          | .error e => (.error e, p)
          | .ok b =>
            match gaussInstantiateArg p.gammaParams (.names rc) with
            | .error e => (.error e, { p with beta := some b })
            | .ok g => (.ok (), { p with beta := some b, gamma := some g })
        else (.error .assertionError, p)
  | _, _ => (.error .assertionError, p)

/-- `GaussianPriorLME.forget` (`lme/priors.py:51-62`). -/
def LmePrior.forget (p : LmePrior K) : LmePrior K := { p with feParams := none, reParams := none, beta := none, gamma := none }

/-- The prior of a mixed-effects oracle after instantiation: `NonInformativePriorLME` (`lme/priors.py:170-311`, all methods return `0`) or the two inner priors
of a `GaussianPriorLME`. -/
inductive LmeInstPrior (K : Type*) (n k : ℕ) where
  | nonInformative
  | gaussian (b : GaussState K n) (g : GaussState K k)

variable {n k : ℕ}

/-- `prior.loss(beta, gamma)` (`lme/priors.py:80, 221`). -/
def LmeInstPrior.loss : LmeInstPrior K n k → Vec K n → Vec K k → K
  | .nonInformative, _, _ => 0
  | .gaussian b g, beta, gamma => b.loss beta + g.loss gamma

/-- `prior.gradient_beta(beta, gamma)` (`lme/priors.py:95, 239`). -/
def LmeInstPrior.gradientBeta : LmeInstPrior K n k → Vec K n → Vec K k → Vec K n
  | .nonInformative, _, _ => 0
  | .gaussian b _, beta, _ => b.gradient beta

/-- `prior.gradient_gamma(beta, gamma)` (`lme/priors.py:113, 257`). -/
def LmeInstPrior.gradientGamma : LmeInstPrior K n k → Vec K n → Vec K k → Vec K k
  | .nonInformative, _, _ => 0
  | .gaussian _ g, _, gamma => g.gradient gamma

/-- `prior.hessian_beta(beta, gamma)` (`lme/priors.py:131, 275`). -/
def LmeInstPrior.hessianBeta : LmeInstPrior K n k → Matrix (Fin n) (Fin n) K
  | .nonInformative => 0
  | .gaussian b _ => b.hessian

/-- `prior.hessian_gamma(beta, gamma)` (`lme/priors.py:149, 293`). -/
def LmeInstPrior.hessianGamma : LmeInstPrior K n k → Matrix (Fin k) (Fin k) K
  | .nonInformative => 0
  | .gaussian _ g => g.hessian

/-- `prior.hessian_beta_gamma(beta, gamma)` (`lme/priors.py:167, 311`): always `0`. -/
def LmeInstPrior.hessianBetaGamma : LmeInstPrior K n k → Matrix (Fin n) (Fin k) K
  | _ => 0

end Verif
