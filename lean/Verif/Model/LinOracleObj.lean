import Verif.Model.Linear

/-!
# Model of the oracle objects of `src/pysr3/linear/oracles.py`: attaching a problem, forgetting it, evaluating

The functions of `Model/Linear.lean` are those of an oracle with a problem attached. Here the attributes of the objects are part of the state, and points may have any length.
`lam` is not negative (numpy's square root of a negative number is NaN).
-/

namespace Verif

open Matrix

/-- A one-dimensional array. -/
abbrev SomeVec := Σ n, Vec ℝ n

/-! ## `LinearOracle` -/

/-- The attributes of a `LinearOracle` (`linear/oracles.py:28-29`). A `GaussianPrior` never leaves its initial state, in which its arrays are `None`: `instantiate` raises (C30). -/
structure LinOracleObj where
  problem : Option (LinProblem ℝ)
  prior : PriorArg ℝ

/-- `LinearOracle(problem, prior)` (`linear/oracles.py:17-29`). -/
def LinOracleObj.init (problem : Option (LinProblem ℝ)) (prior : PriorArg ℝ) : LinOracleObj := ⟨problem, prior⟩

/-- `LinearOracle.instantiate(problem)` (`linear/oracles.py:45-46`): the problem is attached before the prior may raise. -/
noncomputable def LinOracleObj.instantiate (o : LinOracleObj) (P : LinProblem ℝ) : Except PyErr Unit × LinOracleObj :=
  ((linOracleInstantiate o.prior P).map fun _ => (), { o with problem := some P })

/-- `LinearOracle.forget()` (`linear/oracles.py:52-53`, `priors.py:88-90, 165`). -/
def LinOracleObj.forget (o : LinOracleObj) : LinOracleObj := { o with problem := none }

/-- An evaluation (`linear/oracles.py:69, 85, 101`): `None` has no attribute `a` (`AttributeError`), `a.dot(x)` raises `ValueError` for a point of another length, a Gaussian prior
multiplies `None` (`TypeError`). -/
noncomputable def LinOracleObj.eval {α : Type} (o : LinOracleObj) (x : SomeVec) (f : (P : LinProblem ℝ) → Vec ℝ P.n → α) : Except PyErr α :=
  match o.problem with
  | none => .error .attributeError
  | some P =>
    if h : x.1 = P.n then
      match o.prior with
      | .none => .ok (f P (h ▸ x.2))
      | .gaussian _ => .error .typeError
    else .error .valueError

/-- `LinearOracle.loss(x)` and `value_function(x)` (`linear/oracles.py:69, 118`). -/
noncomputable def LinOracleObj.loss (o : LinOracleObj) (x : SomeVec) : Except PyErr ℝ := o.eval x fun P v => linLoss P.a P.b .nonInformative v

/-- `LinearOracle.gradient(x)` and `gradient_value_function(x)` (`linear/oracles.py:85, 135`). -/
noncomputable def LinOracleObj.gradient (o : LinOracleObj) (x : SomeVec) : Except PyErr SomeVec := o.eval x fun P v => ⟨P.n, linGradient P.a P.b .nonInformative v⟩

/-! ## `LinearOracleSR3` -/

/-- The matrices which `LinearOracleSR3.instantiate` computes (`linear/oracles.py:229-236`): `h_inv`, `ab`, and, unless the oracle is practical, `f_matrix` and `g`. The attributes `h_matrix` and
`g_matrix` are not read by any method. -/
structure Sr3Cache where
  m : ℕ
  n : ℕ
  hInv : Matrix (Fin n) (Fin n) ℝ
  ab : Vec ℝ n
  fg : Option (Matrix (Fin m ⊕ Fin n) (Fin n) ℝ × (Fin m ⊕ Fin n → ℝ))

/-- The attributes of a `LinearOracleSR3` (`linear/oracles.py:198-208`). -/
structure Sr3OracleObj where
  lam : ℝ
  practical : Bool
  problem : Option (LinProblem ℝ)
  cache : Option Sr3Cache

/-- `LinearOracleSR3(problem, lam, practical)` (`linear/oracles.py:198-208`). -/
def Sr3OracleObj.init (problem : Option (LinProblem ℝ)) (lam : ℝ) (practical : Bool) : Sr3OracleObj := ⟨lam, practical, problem, none⟩

/-- The matrices of a problem (`linear/oracles.py:229-236`). -/
noncomputable def Sr3Cache.of (lam : ℝ) (practical : Bool) (P : LinProblem ℝ) : Sr3Cache :=
  ⟨P.m, P.n, sr3HInv P.a P.c lam, P.aᵀ *ᵥ P.b, if practical then none else some (sr3F P.a P.c lam, sr3G P.a P.c lam *ᵥ P.b)⟩

open Classical in
/-- `LinearOracleSR3.instantiate(problem)` (`linear/oracles.py:224-236`): `np.linalg.inv` raises `LinAlgError` after the problem has been attached. -/
noncomputable def Sr3OracleObj.instantiate (o : Sr3OracleObj) (P : LinProblem ℝ) : Except PyErr Unit × Sr3OracleObj :=
  if (sr3H P.a P.c o.lam).det = 0 then (.error .linAlgError, { o with problem := some P })
  else (.ok (), { o with problem := some P, cache := some (.of o.lam o.practical P) })

/-- `LinearOracleSR3.forget()` (`linear/oracles.py:242-248`). -/
def Sr3OracleObj.forget (o : Sr3OracleObj) : Sr3OracleObj := { o with problem := none, cache := none }

/-- `u - w` for one-dimensional arrays with numpy's broadcasting, and the squared norm of it (`linear/oracles.py:267`). -/
noncomputable def normSqDiff {n : ℕ} (u : Vec ℝ n) (w : SomeVec) : Except PyErr ℝ :=
  if h : w.1 = n then .ok (normSq (u - h ▸ w.2))
  else if h : w.1 = 1 then .ok (normSq fun i => u i - w.2 (Fin.cast h.symm 0))
  else if h : n = 1 then .ok (normSq fun i => u (Fin.cast h.symm 0) - w.2 i)
  else .error .valueError

/-- `LinearOracleSR3.loss(x, w)` (`linear/oracles.py:266-267`). -/
noncomputable def Sr3OracleObj.loss (o : Sr3OracleObj) (x w : SomeVec) : Except PyErr ℝ :=
  match o.problem with
  | none => .error .attributeError
  | some P =>
    if h : x.1 = P.n then do
      let d ← normSqDiff (P.c *ᵥ (h ▸ x.2)) w
      return 1 / 2 * normSq (P.a *ᵥ (h ▸ x.2) - P.b) + o.lam / 2 * d
    else .error .valueError

/-- `LinearOracleSR3.value_function(w)` (`linear/oracles.py:283-284`); for a negative `lam` the matrices hold NaN (`linear/oracles.py:233, 235`). -/
noncomputable def Sr3OracleObj.valueFunction (o : Sr3OracleObj) (w : SomeVec) : Except PyErr ℝ :=
  if o.practical then .error .assertionError
  else
    match o.cache with
    | none => .error .attributeError
    | some C =>
      match C.fg with
      | none => .error .attributeError
      | some (F, g) =>
        if h : w.1 = C.n then
          if o.lam < 0 ∧ 0 < C.n then .error .nan else .ok (1 / 2 * normSq (F *ᵥ (h ▸ w.2) - g))
        else .error .valueError

/-- `LinearOracleSR3.gradient_value_function(w)` (`linear/oracles.py:301-302`); NaN for a negative `lam`, as above. -/
noncomputable def Sr3OracleObj.gradientValueFunction (o : Sr3OracleObj) (w : SomeVec) : Except PyErr SomeVec :=
  if o.practical then .error .assertionError
  else
    match o.cache with
    | none => .error .attributeError
    | some C =>
      match C.fg with
      | none => .error .attributeError
      | some (F, g) =>
        if h : w.1 = C.n then
          if o.lam < 0 ∧ 0 < C.n then .error .nan else .ok ⟨C.n, Fᵀ *ᵥ (F *ᵥ (h ▸ w.2) - g)⟩
        else .error .valueError

/-- `LinearOracleSR3.aic(x)` (`linear/oracles.py:354-356`): a new plain oracle with the attached problem. -/
noncomputable def Sr3OracleObj.aic (o : Sr3OracleObj) (x : SomeVec) : Except PyErr ℝ := do
  let l ← (LinOracleObj.init o.problem .none).loss x
  return l + 2 * (nnzCount x.2 : ℝ)

/-- `LinearOracleSR3.bic(x)` (`linear/oracles.py:372-374`). -/
noncomputable def Sr3OracleObj.bic (o : Sr3OracleObj) (x : SomeVec) : Except PyErr ℝ := do
  let l ← (LinOracleObj.init o.problem .none).loss x
  match o.problem with
  | none => .error .attributeError
  | some P => return l + Real.log P.m * (nnzCount x.2 : ℝ)

/-! ## Histories -/

/-- What a caller does with an oracle between evaluations: `instantiate` (exceptions are caught) and `forget`. -/
inductive OracleOp where
  | instantiate (P : LinProblem ℝ)
  | forget

/-- One call on an SR3 oracle (`linear/oracles.py:224-248`). -/
noncomputable def Sr3OracleObj.step (o : Sr3OracleObj) : OracleOp → Sr3OracleObj
  | .instantiate P => (o.instantiate P).2
  | .forget => o.forget

/-- A history of calls. -/
noncomputable def Sr3OracleObj.run (o : Sr3OracleObj) (ops : List OracleOp) : Sr3OracleObj := ops.foldl Sr3OracleObj.step o

/-- One call on a plain oracle (`linear/oracles.py:45-53`). -/
noncomputable def LinOracleObj.step (o : LinOracleObj) : OracleOp → LinOracleObj
  | .instantiate P => (o.instantiate P).2
  | .forget => o.forget

/-- A history of calls. -/
noncomputable def LinOracleObj.run (o : LinOracleObj) (ops : List OracleOp) : LinOracleObj := ops.foldl LinOracleObj.step o

end Verif
