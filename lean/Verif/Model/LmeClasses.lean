import Verif.Model.LmeSelect

/-!
# Model of the classes of `src/pysr3/lme/models.py`

The ten classes differ in their regularizer, in whether they are SR3 models and in the defaults of their constructors.
-/

noncomputable section

namespace Verif

/-- The five penalties there are classes for (`lme/models.py:435, 730, 931, 1106, 1289` and, for SR3, `548, 800, 1004,
1183, 1370`). -/
inductive LmeClassName where
  | simple
  | l0
  | l1
  | cad
  | scad

/-- The regularizer made by a constructor called without arguments (`lme/models.py:495, 681, 741-742, 838-839, 941, 1018,
1116-1117, 1196-1197, 1299-1301, 1383-1385`). -/
def LmeClassName.defaultReg (sort : NpSort) (sr3 : Bool) : LmeClassName → LmeReg
  | .simple => .dummy
  | .l0 => if sr3 then .l0 (some 1) (some 1) sort else .l0 none none sort
  | .l1 => if sr3 then .l1 1 else .l1 0
  | .cad => .cad 0.3 1
  | .scad => .scad 3.7 0.5 1

/-- The default `max_iter_solver`, for SR3 also the default `max_iter_oracle` (`lme/models.py:443, 580-581, 739, 832-833,
939, 1013-1014, 1114, 1192-1193, 1297, 1379-1380`). -/
def LmeClassName.maxIter (sr3 : Bool) : LmeClassName → ℤ
  | .simple => if sr3 then 10000 else 1000
  | .l0 => if sr3 then 1000 else 10000
  | _ => 10000

/-- The object made by a constructor called without arguments (`lme/models.py:440-449, 576-593, 736-746, 828-847, 936-945,
1009-1027, 1111-1121, 1188-1207, 1294-1305, 1375-1395`). -/
def lmeDefaultModel (sort : NpSort) (k : LmeClassName) (sr3 : Bool) : LmeModelCfg where
  sr3 := if sr3 then some
    { ell := 40
      practical := false
      updateProxEvery := 1
      tolOracle := 1e-5
      maxIterOracle := k.maxIter true
      warmStartOracle := true
      takeOnlyPositivePart := true
      takeExpectedValue := false
      target := 0.5 } else none
  tol := 1e-5
  maxIter := k.maxIter sr3
  stepping := if sr3 then "fixed" else "line-search"
  fixedStepLen := none
  initializer := some "None"
  prior := none
  elasticEps := 1e-4
  reg := k.defaultReg sort sr3
  loggerKind := .tuple
  loggerKeys := ["converged"]

end Verif
