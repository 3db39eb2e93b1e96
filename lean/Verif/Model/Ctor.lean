import Verif.Model.LinClasses
import Verif.Model.LmeClasses

/-!
# Model of the constructors of `src/pysr3/linear/models.py` and `src/pysr3/lme/models.py`

An `__init__` of these files has a signature with defaults, at most one call `super().__init__(name=local, ...)` and assignments `self.name = local`. `Ctor` is the
table of one such method and `construct` runs it. `getParams`, `cloneModel` and `setParams` are the methods the classes inherit from
scikit-learn's `BaseEstimator` (`linear/models.py:16`, `lme/models.py:36`), which read the signature of `__init__`.
`linInstantiate` and `lmeInstantiate` are the methods `instantiate`, which read the attributes.
-/

noncomputable section

namespace Verif

/-- The values that occur as arguments of the constructors (`linear/models.py:209-216, 271-280`, `lme/models.py:440-449, 576-594`). -/
inductive Arg where
  | none
  | bool (b : Bool)
  | int (z : ℤ)
  | num (r : ℝ)
  | str (s : String)
  | keys (kind : KeyColl) (l : List String)
  /-- `GaussianPrior(params)` (`priors.py:35-47`). -/
  | linPrior (params : PriorParams ℝ)
  /-- `GaussianPriorLME(fe_params, re_params)` (`lme/priors.py:12-24`). -/
  | lmePrior (fe re : PriorParams ℝ)

/-- An `__init__`: parameters with defaults, whether it has `**kwargs`, the keyword arguments of `super().__init__` as pairs (keyword, local name), and the
assignments `self.name = local` as pairs (name, local), for example `linear/models.py:349-389`. -/
inductive Ctor where
  | base (params : List (String × Arg)) (varKw : Bool) (assigns : List (String × String))
  | derived (params : List (String × Arg)) (varKw : Bool) (superArgs : List (String × String)) (super : Ctor) (assigns : List (String × String))

/-- The signature without `self` and `**kwargs` (for example `linear/models.py:349-357`). -/
def Ctor.params : Ctor → List (String × Arg)
  | .base params _ _ => params
  | .derived params _ _ _ _ => params

/-- Whether the signature ends in `**kwargs` (for example `linear/models.py:357`). -/
def Ctor.varKw : Ctor → Bool
  | .base _ b _ => b
  | .derived _ b _ _ _ => b

/-- The `__dict__` of an object. -/
abbrev Attrs := String → Option Arg

/-- A local variable of `__init__`: the argument or the default (for example `linear/models.py:349-357`). -/
def Ctor.local (c : Ctor) (kw : List (String × Arg)) (name : String) : Option Arg :=
  if name ∈ c.params.map Prod.fst then (kw.lookup name).or (c.params.lookup name) else none

/-- `self.name = local` one after the other (for example `linear/models.py:241-246`). A name which is not a parameter would be a `NameError`; the model
raises `KeyError`, theorem `C136_get_params` shows that this does not happen. -/
def assignAll (loc : String → Option Arg) (self : Attrs) : List (String × String) → Except PyErr Attrs
  | [] => .ok self
  | (name, l) :: rest => match loc l with
    | some v => assignAll loc (Function.update self name (some v)) rest
    | none => .error .keyError

/-- The keyword arguments of `super().__init__(name=local, ...)` (for example `linear/models.py:383-388`). -/
def evalArgs (loc : String → Option Arg) : List (String × String) → Except PyErr (List (String × Arg))
  | [] => .ok []
  | (name, l) :: rest => match loc l with
    | some v => do
      let vs ← evalArgs loc rest
      return (name, v) :: vs
    | none => .error .keyError

/-- A call `cls(**kw)` on the object `self` (for example `linear/models.py:349-389`): Python's `TypeError` for an unknown keyword when there is no `**kwargs`, then `super().__init__`, then the assignments. -/
def construct : Ctor → List (String × Arg) → Attrs → Except PyErr Attrs
  | .base params varKw assigns, kw, self =>
    if varKw = false ∧ ¬ ∀ e ∈ kw, e.1 ∈ params.map Prod.fst then .error .typeError
    else assignAll ((Ctor.base params varKw assigns).local kw) self assigns
  | .derived params varKw superArgs super assigns, kw, self =>
    if varKw = false ∧ ¬ ∀ e ∈ kw, e.1 ∈ params.map Prod.fst then .error .typeError
    else do
      let args ← evalArgs ((Ctor.derived params varKw superArgs super assigns).local kw) superArgs
      let self ← construct super args self
      assignAll ((Ctor.derived params varKw superArgs super assigns).local kw) self assigns

/-- The object before `__init__` has no attributes. -/
def freshAttrs : Attrs := fun _ => none

/-- `BaseEstimator.get_params` of scikit-learn: `getattr(self, name)` for the names in the signature of `__init__` (inherited, `linear/models.py:16`, `lme/models.py:36`). -/
def getParams (c : Ctor) (self : Attrs) : Except PyErr (List (String × Arg)) :=
  (c.params.map Prod.fst).mapM fun name => match self name with
    | some v => .ok (name, v)
    | none => .error .attributeError

/-- `sklearn.base.clone(model)`: a new object of the class made from `get_params` (scikit-learn's model selection, for models inheriting from `BaseEstimator`, `linear/models.py:16`,
`lme/models.py:36`). The values are deep-copied there. -/
def cloneModel (c : Ctor) (self : Attrs) : Except PyErr Attrs := do
  let kw ← getParams c self
  construct c kw freshAttrs

/-- `BaseEstimator.set_params(**kw)` of scikit-learn (inherited, `linear/models.py:16`, `lme/models.py:36`): one name after the other, `ValueError` for a name which is not in the signature; the
attributes set before stay. Simplification: names with a double underscore (parameters of nested estimators) are treated as any other name. -/
def setParams (c : Ctor) (self : Attrs) : List (String × Arg) → Attrs × Option PyErr
  | [] => (self, none)
  | (name, v) :: rest =>
    if name ∈ c.params.map Prod.fst then setParams c (Function.update self name (some v)) rest
    else (self, some .valueError)

/-! ## The constructors of the classes -/

/-- `LinearModel.__init__` (`linear/models.py:18-18, 27-27`). -/
def ctorLinearModel : Ctor :=
  .base [("logger_keys", .none)]
    false
    [("logger_keys", "logger_keys")]

/-- `SimpleLinearModel.__init__` (`linear/models.py:209-216, 240-246`). -/
def ctorSimpleLinearModel : Ctor :=
  .derived [("tol_solver", .num (1 / 100000)), ("max_iter_solver", .int 1000), ("stepping", .str "line-search"), ("logger_keys", .keys .tuple ["converged"]), ("fixed_step_len", .none),
      ("prior", .none)]
    true
    [] ctorLinearModel
    [("tol_solver", "tol_solver"), ("max_iter_solver", "max_iter_solver"), ("stepping", "stepping"), ("logger_keys", "logger_keys"), ("fixed_step_len", "fixed_step_len"), ("prior", "prior")]

/-- `SimpleLinearModelSR3.__init__` (`linear/models.py:271-280, 308-316`). -/
def ctorSimpleLinearModelSR3 : Ctor :=
  .derived [("el", .num 1), ("tol_solver", .num (1 / 100000)), ("max_iter_solver", .int 1000), ("stepping", .str "line-search"), ("logger_keys", .keys .tuple ["converged"]),
      ("fixed_step_len", .none), ("prior", .none), ("practical", .bool false)]
    true
    [] ctorLinearModel
    [("el", "el"), ("tol_solver", "tol_solver"), ("max_iter_solver", "max_iter_solver"), ("stepping", "stepping"), ("logger_keys", "logger_keys"), ("fixed_step_len", "fixed_step_len"),
      ("practical", "practical"), ("prior", "prior")]

/-- `LinearL0Model.__init__` (`linear/models.py:349-357, 383-389`). -/
def ctorLinearL0Model : Ctor :=
  .derived [("nnz", .none), ("tol_solver", .num (1 / 100000)), ("max_iter_solver", .int 1000), ("stepping", .str "line-search"), ("logger_keys", .keys .tuple ["converged"]),
      ("fixed_step_len", .none), ("prior", .none)]
    true
    [("tol_solver", "tol_solver"), ("max_iter_solver", "max_iter_solver"), ("stepping", "stepping"), ("logger_keys", "logger_keys"), ("fixed_step_len", "fixed_step_len"),
      ("prior", "prior")] ctorSimpleLinearModel
    [("nnz", "nnz")]

/-- `LinearL0ModelSR3.__init__` (`linear/models.py:557-567, 595-603`). -/
def ctorLinearL0ModelSR3 : Ctor :=
  .derived [("nnz", .none), ("el", .num 1), ("tol_solver", .num (1 / 100000)), ("max_iter_solver", .int 1000), ("stepping", .str "line-search"), ("logger_keys", .keys .tuple ["converged"]),
      ("fixed_step_len", .none), ("prior", .none), ("practical", .bool false)]
    true
    [("el", "el"), ("tol_solver", "tol_solver"), ("max_iter_solver", "max_iter_solver"), ("stepping", "stepping"), ("logger_keys", "logger_keys"),
      ("fixed_step_len", "fixed_step_len"), ("prior", "prior"), ("practical", "practical")] ctorSimpleLinearModelSR3
    [("nnz", "nnz")]

/-- `LinearL1Model.__init__` (`linear/models.py:398-406, 432-438`). -/
def ctorLinearL1Model : Ctor :=
  .derived [("lam", .int 0), ("tol_solver", .num (1 / 100000)), ("max_iter_solver", .int 1000), ("stepping", .str "line-search"), ("logger_keys", .keys .tuple ["converged"]),
      ("fixed_step_len", .none), ("prior", .none)]
    true
    [("tol_solver", "tol_solver"), ("max_iter_solver", "max_iter_solver"), ("stepping", "stepping"), ("logger_keys", "logger_keys"), ("fixed_step_len", "fixed_step_len"),
      ("prior", "prior")] ctorSimpleLinearModel
    [("lam", "lam")]

/-- `LinearL1ModelSR3.__init__` (`linear/models.py:612-622, 650-658`). -/
def ctorLinearL1ModelSR3 : Ctor :=
  .derived [("lam", .num 0), ("el", .num 1), ("tol_solver", .num (1 / 100000)), ("max_iter_solver", .int 1000), ("stepping", .str "line-search"), ("logger_keys", .keys .tuple ["converged"]),
      ("fixed_step_len", .none), ("prior", .none), ("practical", .bool false)]
    true
    [("el", "el"), ("tol_solver", "tol_solver"), ("max_iter_solver", "max_iter_solver"), ("stepping", "stepping"), ("logger_keys", "logger_keys"),
      ("fixed_step_len", "fixed_step_len"), ("prior", "prior"), ("practical", "practical")] ctorSimpleLinearModelSR3
    [("lam", "lam")]

/-- `LinearCADModel.__init__` (`linear/models.py:447-456, 484-491`). -/
def ctorLinearCADModel : Ctor :=
  .derived [("lam", .num 0), ("rho", .num 1), ("tol_solver", .num (1 / 100000)), ("max_iter_solver", .int 1000), ("stepping", .str "line-search"),
      ("logger_keys", .keys .tuple ["converged"]), ("fixed_step_len", .none), ("prior", .none)]
    true
    [("tol_solver", "tol_solver"), ("max_iter_solver", "max_iter_solver"), ("stepping", "stepping"), ("logger_keys", "logger_keys"), ("fixed_step_len", "fixed_step_len"),
      ("prior", "prior")] ctorSimpleLinearModel
    [("lam", "lam"), ("rho", "rho")]

/-- `LinearCADModelSR3.__init__` (`linear/models.py:667-678, 708-717`). -/
def ctorLinearCADModelSR3 : Ctor :=
  .derived [("lam", .num 0), ("rho", .num 1), ("el", .num 1), ("tol_solver", .num (1 / 100000)), ("max_iter_solver", .int 1000), ("stepping", .str "line-search"),
      ("logger_keys", .keys .tuple ["converged"]), ("fixed_step_len", .none), ("prior", .none), ("practical", .bool false)]
    true
    [("el", "el"), ("tol_solver", "tol_solver"), ("max_iter_solver", "max_iter_solver"), ("stepping", "stepping"), ("logger_keys", "logger_keys"),
      ("fixed_step_len", "fixed_step_len"), ("prior", "prior"), ("practical", "practical")] ctorSimpleLinearModelSR3
    [("lam", "lam"), ("rho", "rho")]

/-- `LinearSCADModel.__init__` (`linear/models.py:500-510, 540-548`). -/
def ctorLinearSCADModel : Ctor :=
  .derived [("lam", .num 0), ("rho", .num (37 / 10)), ("sigma", .num 1), ("tol_solver", .num (1 / 100000)), ("max_iter_solver", .int 1000), ("stepping", .str "line-search"),
      ("logger_keys", .keys .tuple ["converged"]), ("fixed_step_len", .none), ("prior", .none)]
    true
    [("tol_solver", "tol_solver"), ("max_iter_solver", "max_iter_solver"), ("stepping", "stepping"), ("logger_keys", "logger_keys"), ("fixed_step_len", "fixed_step_len"),
      ("prior", "prior")] ctorSimpleLinearModel
    [("lam", "lam"), ("rho", "rho"), ("sigma", "sigma")]

/-- `LinearSCADModelSR3.__init__` (`linear/models.py:726-738, 770-780`). -/
def ctorLinearSCADModelSR3 : Ctor :=
  .derived [("lam", .num 0), ("rho", .num 2), ("sigma", .num 1), ("el", .num 1), ("tol_solver", .num (1 / 100000)), ("max_iter_solver", .int 1000), ("stepping", .str "line-search"),
      ("logger_keys", .keys .tuple ["converged"]), ("fixed_step_len", .none), ("prior", .none), ("practical", .bool false)]
    true
    [("el", "el"), ("tol_solver", "tol_solver"), ("max_iter_solver", "max_iter_solver"), ("stepping", "stepping"), ("logger_keys", "logger_keys"),
      ("fixed_step_len", "fixed_step_len"), ("prior", "prior"), ("practical", "practical")] ctorSimpleLinearModelSR3
    [("lam", "lam"), ("rho", "rho"), ("sigma", "sigma")]

/-- `LMEModel.__init__` (`lme/models.py:57-57, 68-69`). -/
def ctorLMEModel : Ctor :=
  .base [("logger_keys", .keys .tuple ["converged", "iteration"]), ("initializer", .str "None")]
    false
    [("logger_keys", "logger_keys"), ("initializer", "initializer")]

/-- `SimpleLMEModel.__init__` (`lme/models.py:440-449, 477-484`). -/
def ctorSimpleLMEModel : Ctor :=
  .derived [("tol_solver", .num (1 / 100000)), ("initializer", .str "None"), ("max_iter_solver", .int 1000), ("stepping", .str "line-search"), ("elastic_eps", .num (1 / 10000)),
      ("logger_keys", .keys .tuple ["converged"]), ("fixed_step_len", .none), ("prior", .none)]
    true
    [("initializer", "initializer"), ("logger_keys", "logger_keys")] ctorLMEModel
    [("tol_solver", "tol_solver"), ("max_iter_solver", "max_iter_solver"), ("stepping", "stepping"), ("logger_keys", "logger_keys"), ("fixed_step_len", "fixed_step_len"),
      ("prior", "prior"), ("elastic_eps", "elastic_eps")]

/-- `SimpleLMEModelSR3.__init__` (`lme/models.py:576-594, 637-653`). -/
def ctorSimpleLMEModelSR3 : Ctor :=
  .derived [("tol_oracle", .num (1 / 100000)), ("tol_solver", .num (1 / 100000)), ("initializer", .str "None"), ("max_iter_oracle", .int 10000), ("max_iter_solver", .int 10000),
      ("stepping", .str "fixed"), ("ell", .int 40), ("elastic_eps", .num (1 / 10000)), ("central_path_neighbourhood_target", .num (1 / 2)), ("logger_keys", .keys .tuple ["converged"]),
      ("warm_start_oracle", .bool true), ("practical", .bool false), ("update_prox_every", .int 1), ("fixed_step_len", .none), ("take_only_positive_part", .bool true),
      ("take_expected_value", .bool false), ("prior", .none)]
    true
    [("initializer", "initializer"), ("logger_keys", "logger_keys")] ctorLMEModel
    [("tol_oracle", "tol_oracle"), ("tol_solver", "tol_solver"), ("max_iter_oracle", "max_iter_oracle"), ("max_iter_solver", "max_iter_solver"), ("stepping", "stepping"),
      ("logger_keys", "logger_keys"), ("fixed_step_len", "fixed_step_len"), ("warm_start_oracle", "warm_start_oracle"), ("prior", "prior"), ("ell", "ell"),
      ("elastic_eps", "elastic_eps"), ("practical", "practical"), ("take_only_positive_part", "take_only_positive_part"), ("take_expected_value", "take_expected_value"),
      ("update_prox_every", "update_prox_every"), ("central_path_neighbourhood_target", "central_path_neighbourhood_target")]

/-- `L0LmeModel.__init__` (`lme/models.py:736-747, 779-788`). -/
def ctorL0LmeModel : Ctor :=
  .derived [("tol_solver", .num (1 / 100000)), ("initializer", .str "None"), ("max_iter_solver", .int 10000), ("stepping", .str "line-search"), ("nnz_tbeta", .none), ("nnz_tgamma", .none),
      ("elastic_eps", .num (1 / 10000)), ("logger_keys", .keys .tuple ["converged"]), ("fixed_step_len", .none), ("prior", .none)]
    true
    [("tol_solver", "tol_solver"), ("initializer", "initializer"), ("max_iter_solver", "max_iter_solver"), ("stepping", "stepping"), ("elastic_eps", "elastic_eps"),
      ("logger_keys", "logger_keys"), ("fixed_step_len", "fixed_step_len"), ("prior", "prior")] ctorSimpleLMEModel
    [("nnz_tbeta", "nnz_tbeta"), ("nnz_tgamma", "nnz_tgamma")]

/-- `L0LmeModelSR3.__init__` (`lme/models.py:828-848, 894-912`). -/
def ctorL0LmeModelSR3 : Ctor :=
  .derived [("tol_oracle", .num (1 / 100000)), ("tol_solver", .num (1 / 100000)), ("initializer", .str "None"), ("max_iter_oracle", .int 1000), ("max_iter_solver", .int 1000),
      ("stepping", .str "fixed"), ("ell", .int 40), ("elastic_eps", .num (1 / 10000)), ("central_path_neighbourhood_target", .num (1 / 2)), ("nnz_tbeta", .int 1),
      ("nnz_tgamma", .int 1), ("logger_keys", .keys .tuple ["converged"]), ("warm_start_oracle", .bool true), ("practical", .bool false), ("take_only_positive_part", .bool true),
      ("take_expected_value", .bool false), ("update_prox_every", .int 1), ("fixed_step_len", .none), ("prior", .none)]
    true
    [("tol_oracle", "tol_oracle"), ("tol_solver", "tol_solver"), ("initializer", "initializer"), ("max_iter_oracle", "max_iter_oracle"), ("max_iter_solver", "max_iter_solver"),
      ("stepping", "stepping"), ("warm_start_oracle", "warm_start_oracle"), ("practical", "practical"), ("take_only_positive_part", "take_only_positive_part"),
      ("take_expected_value", "take_expected_value"), ("update_prox_every", "update_prox_every"), ("logger_keys", "logger_keys"), ("fixed_step_len", "fixed_step_len"), ("ell", "ell"),
      ("elastic_eps", "elastic_eps"), ("central_path_neighbourhood_target", "central_path_neighbourhood_target"), ("prior", "prior")] ctorSimpleLMEModelSR3
    [("nnz_tbeta", "nnz_tbeta"), ("nnz_tgamma", "nnz_tgamma")]

/-- `L1LmeModel.__init__` (`lme/models.py:936-946, 976-984`). -/
def ctorL1LmeModel : Ctor :=
  .derived [("tol_solver", .num (1 / 100000)), ("initializer", .str "None"), ("max_iter_solver", .int 10000), ("stepping", .str "line-search"), ("lam", .int 0),
      ("elastic_eps", .num (1 / 10000)), ("logger_keys", .keys .tuple ["converged"]), ("fixed_step_len", .none), ("prior", .none)]
    true
    [("tol_solver", "tol_solver"), ("initializer", "initializer"), ("max_iter_solver", "max_iter_solver"), ("stepping", "stepping"), ("logger_keys", "logger_keys"),
      ("fixed_step_len", "fixed_step_len"), ("elastic_eps", "elastic_eps"), ("prior", "prior")] ctorSimpleLMEModel
    [("lam", "lam")]

/-- `L1LmeModelSR3.__init__` (`lme/models.py:1009-1028, 1072-1089`). -/
def ctorL1LmeModelSR3 : Ctor :=
  .derived [("tol_oracle", .num (1 / 100000)), ("tol_solver", .num (1 / 100000)), ("initializer", .str "None"), ("max_iter_oracle", .int 10000), ("max_iter_solver", .int 10000),
      ("stepping", .str "fixed"), ("ell", .int 40), ("elastic_eps", .num (1 / 10000)), ("lam", .int 1), ("logger_keys", .keys .tuple ["converged"]), ("warm_start_oracle", .bool true),
      ("practical", .bool false), ("take_only_positive_part", .bool true), ("take_expected_value", .bool false), ("update_prox_every", .int 1),
      ("central_path_neighbourhood_target", .num (1 / 2)), ("fixed_step_len", .none), ("prior", .none)]
    true
    [("tol_oracle", "tol_oracle"), ("tol_solver", "tol_solver"), ("initializer", "initializer"), ("max_iter_oracle", "max_iter_oracle"), ("max_iter_solver", "max_iter_solver"),
      ("stepping", "stepping"), ("warm_start_oracle", "warm_start_oracle"), ("practical", "practical"), ("take_only_positive_part", "take_only_positive_part"),
      ("central_path_neighbourhood_target", "central_path_neighbourhood_target"), ("take_expected_value", "take_expected_value"), ("update_prox_every", "update_prox_every"),
      ("logger_keys", "logger_keys"), ("fixed_step_len", "fixed_step_len"), ("ell", "ell"), ("elastic_eps", "elastic_eps"), ("prior", "prior")] ctorSimpleLMEModelSR3
    [("lam", "lam")]

/-- `CADLmeModel.__init__` (`lme/models.py:1111-1122, 1154-1163`). -/
def ctorCADLmeModel : Ctor :=
  .derived [("tol_solver", .num (1 / 100000)), ("initializer", .str "None"), ("max_iter_solver", .int 10000), ("stepping", .str "line-search"), ("rho", .num (3 / 10)), ("lam", .num 1),
      ("elastic_eps", .num (1 / 10000)), ("logger_keys", .keys .tuple ["converged"]), ("fixed_step_len", .none), ("prior", .none)]
    true
    [("tol_solver", "tol_solver"), ("initializer", "initializer"), ("max_iter_solver", "max_iter_solver"), ("stepping", "stepping"), ("logger_keys", "logger_keys"),
      ("fixed_step_len", "fixed_step_len"), ("elastic_eps", "elastic_eps"), ("prior", "prior")] ctorSimpleLMEModel
    [("lam", "lam"), ("rho", "rho")]

/-- `CADLmeModelSR3.__init__` (`lme/models.py:1188-1208, 1254-1272`). -/
def ctorCADLmeModelSR3 : Ctor :=
  .derived [("tol_oracle", .num (1 / 100000)), ("tol_solver", .num (1 / 100000)), ("initializer", .str "None"), ("max_iter_oracle", .int 10000), ("max_iter_solver", .int 10000),
      ("stepping", .str "fixed"), ("ell", .num 40), ("rho", .num (3 / 10)), ("lam", .num 1), ("elastic_eps", .num (1 / 10000)), ("central_path_neighbourhood_target", .num (1 / 2)),
      ("logger_keys", .keys .tuple ["converged"]), ("warm_start_oracle", .bool true), ("practical", .bool false), ("take_only_positive_part", .bool true),
      ("take_expected_value", .bool false), ("update_prox_every", .int 1), ("fixed_step_len", .none), ("prior", .none)]
    true
    [("tol_oracle", "tol_oracle"), ("tol_solver", "tol_solver"), ("initializer", "initializer"), ("max_iter_oracle", "max_iter_oracle"), ("max_iter_solver", "max_iter_solver"),
      ("stepping", "stepping"), ("warm_start_oracle", "warm_start_oracle"), ("practical", "practical"), ("take_only_positive_part", "take_only_positive_part"),
      ("take_expected_value", "take_expected_value"), ("update_prox_every", "update_prox_every"), ("logger_keys", "logger_keys"), ("fixed_step_len", "fixed_step_len"), ("ell", "ell"),
      ("elastic_eps", "elastic_eps"), ("central_path_neighbourhood_target", "central_path_neighbourhood_target"), ("prior", "prior")] ctorSimpleLMEModelSR3
    [("lam", "lam"), ("rho", "rho")]

/-- `SCADLmeModel.__init__` (`lme/models.py:1294-1306, 1340-1350`). -/
def ctorSCADLmeModel : Ctor :=
  .derived [("tol_solver", .num (1 / 100000)), ("initializer", .str "None"), ("max_iter_solver", .int 10000), ("stepping", .str "line-search"), ("rho", .num (37 / 10)),
      ("sigma", .num (1 / 2)), ("lam", .num 1), ("elastic_eps", .num (1 / 10000)), ("logger_keys", .keys .tuple ["converged"]), ("fixed_step_len", .none), ("prior", .none)]
    true
    [("tol_solver", "tol_solver"), ("initializer", "initializer"), ("max_iter_solver", "max_iter_solver"), ("stepping", "stepping"), ("logger_keys", "logger_keys"),
      ("fixed_step_len", "fixed_step_len"), ("elastic_eps", "elastic_eps"), ("prior", "prior")] ctorSimpleLMEModel
    [("lam", "lam"), ("rho", "rho"), ("sigma", "sigma")]

/-- `SCADLmeModelSR3.__init__` (`lme/models.py:1375-1396, 1444-1463`). -/
def ctorSCADLmeModelSR3 : Ctor :=
  .derived [("tol_oracle", .num (1 / 100000)), ("tol_solver", .num (1 / 100000)), ("initializer", .str "None"), ("max_iter_oracle", .int 10000), ("max_iter_solver", .int 10000),
      ("stepping", .str "fixed"), ("ell", .num 40), ("rho", .num (37 / 10)), ("sigma", .num (1 / 2)), ("lam", .num 1), ("elastic_eps", .num (1 / 10000)),
      ("central_path_neighbourhood_target", .num (1 / 2)), ("logger_keys", .keys .tuple ["converged"]), ("warm_start_oracle", .bool true), ("practical", .bool false),
      ("take_only_positive_part", .bool true), ("take_expected_value", .bool false), ("update_prox_every", .int 1), ("fixed_step_len", .none), ("prior", .none)]
    true
    [("tol_oracle", "tol_oracle"), ("tol_solver", "tol_solver"), ("initializer", "initializer"), ("max_iter_oracle", "max_iter_oracle"), ("max_iter_solver", "max_iter_solver"),
      ("stepping", "stepping"), ("warm_start_oracle", "warm_start_oracle"), ("practical", "practical"), ("take_only_positive_part", "take_only_positive_part"),
      ("take_expected_value", "take_expected_value"), ("update_prox_every", "update_prox_every"), ("logger_keys", "logger_keys"), ("fixed_step_len", "fixed_step_len"), ("ell", "ell"),
      ("elastic_eps", "elastic_eps"), ("central_path_neighbourhood_target", "central_path_neighbourhood_target"), ("prior", "prior")] ctorSimpleLMEModelSR3
    [("lam", "lam"), ("rho", "rho"), ("sigma", "sigma")]

/-- The classes of `linear/models.py` (`205, 267, 348, 397, 446, 499, 556, 611, 666, 725`). -/
def linCtor : LmeClassName → Bool → Ctor
  | .simple, false => ctorSimpleLinearModel
  | .simple, true => ctorSimpleLinearModelSR3
  | .l0, false => ctorLinearL0Model
  | .l0, true => ctorLinearL0ModelSR3
  | .l1, false => ctorLinearL1Model
  | .l1, true => ctorLinearL1ModelSR3
  | .cad, false => ctorLinearCADModel
  | .cad, true => ctorLinearCADModelSR3
  | .scad, false => ctorLinearSCADModel
  | .scad, true => ctorLinearSCADModelSR3

/-- The classes of `lme/models.py` (`435, 548, 730, 800, 931, 1004, 1106, 1183, 1289, 1370`). -/
def lmeCtor : LmeClassName → Bool → Ctor
  | .simple, false => ctorSimpleLMEModel
  | .simple, true => ctorSimpleLMEModelSR3
  | .l0, false => ctorL0LmeModel
  | .l0, true => ctorL0LmeModelSR3
  | .l1, false => ctorL1LmeModel
  | .l1, true => ctorL1LmeModelSR3
  | .cad, false => ctorCADLmeModel
  | .cad, true => ctorCADLmeModelSR3
  | .scad, false => ctorSCADLmeModel
  | .scad, true => ctorSCADLmeModelSR3

/-! ## `instantiate` -/

/-- `self.name` (for example `linear/models.py:249`). -/
def Attrs.get (self : Attrs) (name : String) : Except PyErr Arg := match self name with
  | some v => .ok v
  | none => .error .attributeError

/-- A value used as a real number. Simplification: in the code a wrong type raises its `TypeError` where the value is used; here it is raised when it is read. The same holds for the next definitions. -/
def Arg.toNum : Arg → Except PyErr ℝ
  | .num r => .ok r
  | .int z => .ok z
  | _ => .error .typeError

/-- A value used as an integer (`linear/models.py:252`). -/
def Arg.toInt : Arg → Except PyErr ℤ
  | .int z => .ok z
  | _ => .error .typeError

/-- A value used as an integer or `None` (`linear/models.py:393`). -/
def Arg.toInt? : Arg → Except PyErr (Option ℤ)
  | .int z => .ok (some z)
  | .none => .ok Option.none
  | _ => .error .typeError

/-- A value used as a number or `None` (`linear/models.py:254`). -/
def Arg.toNum? : Arg → Except PyErr (Option ℝ)
  | .none => .ok Option.none
  | .num r => .ok (some r)
  | .int z => .ok (some z)
  | _ => .error .typeError

/-- A value used as a string (`linear/models.py:253`). -/
def Arg.toStr : Arg → Except PyErr String
  | .str s => .ok s
  | _ => .error .typeError

/-- A value used as a string or `None` (`lme/models.py:235`). -/
def Arg.toStr? : Arg → Except PyErr (Option String)
  | .str s => .ok (some s)
  | .none => .ok Option.none
  | _ => .error .typeError

/-- A value used as a truth value (`linear/models.py:320`). -/
def Arg.toBool : Arg → Except PyErr Bool
  | .bool b => .ok b
  | _ => .error .typeError

/-- A value used as a collection of keys (`linear/models.py:122`). -/
def Arg.toKeys : Arg → Except PyErr (KeyColl × List String)
  | .keys kind l => .ok (kind, l)
  | _ => .error .typeError

/-- A value used as the prior of a linear model (`linear/models.py:249`). -/
def Arg.toLinPrior : Arg → Except PyErr (PriorArg ℝ)
  | .none => .ok .none
  | .linPrior params => .ok (.gaussian params)
  | _ => .error .typeError

/-- A value used as the prior of a mixed model (`lme/models.py:494`). -/
def Arg.toLmePrior : Arg → Except PyErr (Option (PriorParams ℝ × PriorParams ℝ))
  | .none => .ok Option.none
  | .lmePrior fe re => .ok (some (fe, re))
  | _ => .error .typeError

/-- The regularizer of `instantiate` of a linear model (`linear/models.py:250, 332, 393, 442, 495, 552, 607, 662, 721, 784`). -/
def linPenaltyOf (sort : NpSort) (self : Attrs) : LmeClassName → Except PyErr LinPenalty
  | .simple => .ok .dummy
  | .l0 => do
    let nnz ← (← self.get "nnz").toInt?
    return .l0 nnz sort
  | .l1 => do
    let lam ← (← self.get "lam").toNum
    return .l1 lam
  | .cad => do
    let lam ← (← self.get "lam").toNum
    let rho ← (← self.get "rho").toNum
    return .cad lam rho
  | .scad => do
    let lam ← (← self.get "lam").toNum
    let rho ← (← self.get "rho").toNum
    let sigma ← (← self.get "sigma").toNum
    return .scad lam rho sigma

/-- `el` and `practical` (`linear/models.py:319-320, 330`). -/
def linSr3Of (self : Attrs) : Bool → Except PyErr (Option (ℝ × Bool))
  | false => .ok none
  | true => do
    let el ← (← self.get "el").toNum
    let practical ← (← self.get "practical").toBool
    return some (el, practical)

/-- `instantiate` of a linear model (`linear/models.py:248-255, 318-333, 391-394, 440-443, 493-496, 550-553, 605-608, 660-663, 719-722, 782-785`) together with the
attribute `logger_keys` read by `fit_problem` (`linear/models.py:122`). -/
def linInstantiate (sort : NpSort) (k : LmeClassName) (sr3 : Bool) (self : Attrs) : Except PyErr LinModelCfg := do
  let sr ← linSr3Of self sr3
  let tol ← (← self.get "tol_solver").toNum
  let maxIter ← (← self.get "max_iter_solver").toInt
  let stepping ← (← self.get "stepping").toStr
  let step ← (← self.get "fixed_step_len").toNum?
  let prior ← (← self.get "prior").toLinPrior
  let pen ← linPenaltyOf sort self k
  let keys ← (← self.get "logger_keys").toKeys
  return {
    sr3 := sr
    tol := tol
    maxIter := maxIter
    stepping := stepping
    fixedStepLen := step
    prior := prior
    loggerKind := keys.1
    loggerKeys := keys.2
    regularizer := fun n w => pen.build n w }

/-- The innermost regularizer of `instantiate` of a mixed model (`lme/models.py:495, 681, 792, 924, 998, 1100, 1177, 1283, 1364, 1474`). -/
def lmeRegOf (sort : NpSort) (self : Attrs) : LmeClassName → Except PyErr LmeReg
  | .simple => .ok .dummy
  | .l0 => do
    let nb ← (← self.get "nnz_tbeta").toInt?
    let ng ← (← self.get "nnz_tgamma").toInt?
    return .l0 nb ng sort
  | .l1 => do
    let lam ← (← self.get "lam").toNum
    return .l1 lam
  | .cad => do
    let rho ← (← self.get "rho").toNum
    let lam ← (← self.get "lam").toNum
    return .cad rho lam
  | .scad => do
    let rho ← (← self.get "rho").toNum
    let sigma ← (← self.get "sigma").toNum
    let lam ← (← self.get "lam").toNum
    return .scad rho sigma lam

/-- What `SimpleLMEModelSR3.instantiate` reads for the oracle and the practical solver (`lme/models.py:663-680`). -/
def lmeSr3Of (self : Attrs) : Bool → Except PyErr (Option LmeSr3Cfg)
  | false => .ok none
  | true => do
    let ell ← (← self.get "ell").toNum
    let practical ← (← self.get "practical").toBool
    let every ← (← self.get "update_prox_every").toInt
    let tolOracle ← (← self.get "tol_oracle").toNum
    let maxIterOracle ← (← self.get "max_iter_oracle").toInt
    let warm ← (← self.get "warm_start_oracle").toBool
    let positive ← (← self.get "take_only_positive_part").toBool
    let expected ← (← self.get "take_expected_value").toBool
    let target ← (← self.get "central_path_neighbourhood_target").toNum
    return some {
      ell := ell
      practical := practical
      updateProxEvery := every
      tolOracle := tolOracle
      maxIterOracle := maxIterOracle
      warmStartOracle := warm
      takeOnlyPositivePart := positive
      takeExpectedValue := expected
      target := target }

/-- `instantiate` of a mixed model (`lme/models.py:486-502, 655-684, 790-797, 914-928, 986-1001, 1091-1103, 1165-1180, 1274-1286, 1352-1367, 1465-1477`) together with the attributes `logger_keys` and
`initializer` read by `fit_problem` (`lme/models.py:240, 235`). -/
def lmeInstantiate (sort : NpSort) (k : LmeClassName) (sr3 : Bool) (self : Attrs) : Except PyErr LmeModelCfg := do
  let sr ← lmeSr3Of self sr3
  let tol ← (← self.get "tol_solver").toNum
  let maxIter ← (← self.get "max_iter_solver").toInt
  let stepping ← (← self.get "stepping").toStr
  let step ← (← self.get "fixed_step_len").toNum?
  let initializer ← (← self.get "initializer").toStr?
  let prior ← (← self.get "prior").toLmePrior
  let eps ← (← self.get "elastic_eps").toNum
  let reg ← lmeRegOf sort self k
  let keys ← (← self.get "logger_keys").toKeys
  return {
    sr3 := sr
    tol := tol
    maxIter := maxIter
    stepping := stepping
    fixedStepLen := step
    initializer := initializer
    prior := prior
    elasticEps := eps
    reg := reg
    loggerKind := keys.1
    loggerKeys := keys.2 }

end Verif
