import Verif.Model.Linear
import Verif.Model.LmeModels

/-!
# Model of the classes of `src/pysr3/linear/models.py`

The ten classes differ in their regularizer and in whether they are SR3 models; the rest of the constructor arguments is shared.
-/

namespace Verif

/-- The regularizer made by `instantiate` of a linear model class (`linear/models.py:250, 332, 393, 442, 495, 552, 607, 662, 721, 784`). -/
inductive LinPenalty where
  /-- `SimpleLinearModel`, `SimpleLinearModelSR3`. -/
  | dummy
  /-- `LinearL0Model`, `LinearL0ModelSR3`. -/
  | l0 (nnz : Option ℤ) (sort : NpSort)
  /-- `LinearL1Model`, `LinearL1ModelSR3`. -/
  | l1 (lam : ℝ)
  /-- `LinearCADModel`, `LinearCADModelSR3`. -/
  | cad (lam rho : ℝ)
  /-- `LinearSCADModel`, `LinearSCADModelSR3`. -/
  | scad (lam rho sigma : ℝ)

/-- The regularizer with the weights attached (`linear/models.py:113`, `regularizers.py:126-147, 398-407, 482-492, 575-585`). -/
noncomputable def LinPenalty.build (n : ℕ) (w : Vec ℝ n) : LinPenalty → Regularizer ℝ n
  | .dummy => dummyRegularizer
  | .l0 nnz sort => l0Regularizer nnz (sort.all n) (some ⟨w, sort.sub n w⟩)
  | .l1 lam => l1Regularizer lam (some w)
  | .cad lam rho => cadRegularizer rho lam (some w)
  | .scad lam rho sigma => scadRegularizer rho sigma lam (some w)

/-- The shared constructor arguments with their defaults (`linear/models.py:209-216, 271-280` and the same lines of the derived classes); `el` and `practical` are only there for SR3. -/
structure LinArgs where
  el : ℝ := 1
  tol : ℝ := 1 / 10 ^ 5
  maxIter : ℤ := 1000
  stepping : String := "line-search"
  loggerKind : KeyColl := .tuple
  loggerKeys : List String := ["converged"]
  fixedStepLen : Option ℝ := none
  prior : PriorArg ℝ := .none
  practical : Bool := false

/-- The object made by the constructor of a class (`linear/models.py:240-246, 308-316, 383-389, 595-603, ...`). -/
noncomputable def linClass (pen : LinPenalty) (sr3 : Bool) (a : LinArgs) : LinModelCfg where
  sr3 := if sr3 then some (a.el, a.practical) else none
  tol := a.tol
  maxIter := a.maxIter
  stepping := a.stepping
  fixedStepLen := a.fixedStepLen
  prior := a.prior
  loggerKind := a.loggerKind
  loggerKeys := a.loggerKeys
  regularizer := fun n w => pen.build n w

/-- The `assert rho > 1` of `SCADRegularizer.__init__` (`regularizers.py:569`). -/
noncomputable def LinPenalty.check : LinPenalty → Except PyErr Unit
  | .scad _ rho _ => if rho > 1 then .ok () else .error .assertionError
  | _ => .ok ()

/-- `fit_problem` of a model of a given class (`linear/models.py:109-135`): `self.instantiate()` makes the regularizer before anything else can raise another exception. -/
noncomputable def linClassFit (pen : LinPenalty) (sr3 : Bool) (a : LinArgs) (P : LinProblem ℝ) (x0 : Option (Vec ℝ P.n)) (warm : Bool) (w : Option (Vec ℝ P.n)) :
    Except PyErr (Vec ℝ P.n × Logger (PyVal ℝ P.n)) := do
  pen.check
  linFit (linClass pen sr3 a) P x0 warm w

/-- The penalties of the L1, CAD and SCAD classes when only the strength is given: `rho=1` for CAD, `rho=3.7` (plain) or `rho=2` (SR3) and `sigma=1` for SCAD
(`linear/models.py:399, 448-449, 501-503, 613, 668-669, 727-729`). -/
noncomputable def strengthPenalties (lam : ℝ) (sr3 : Bool) : List LinPenalty :=
  [.l1 lam, .cad lam 1, .scad lam (if sr3 then 2 else 37 / 10) 1]

/-- The penalties of the classes for their default arguments: `nnz=None`, `lam=0` and the above (`linear/models.py:350, 399, 448, 501, 558, 613, 668, 727`). -/
noncomputable def defaultPenalties (sort : NpSort) (sr3 : Bool) : List LinPenalty :=
  .l0 none sort :: strengthPenalties 0 sr3

end Verif
