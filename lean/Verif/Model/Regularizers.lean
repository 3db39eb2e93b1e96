import Verif.Model.Basic
import Mathlib.Data.Fintype.EquivFin
import Mathlib.Algebra.BigOperators.Fin
import Mathlib.Algebra.Order.Monoid.WithTop
import Mathlib.Data.Sign.Defs

/-!
# Model of `src/pysr3/regularizers.py`

A regularizer *object* is the record of its two methods `value` and `prox`, with the hyperparameters and the
attached weights as arguments of the function building the record. Weight vectors and points have the same length by
typing (numpy would raise a broadcasting error otherwise; the assembly of weight vectors, where the length can go wrong, is
modelled on lists in `Model/LmeProblem.lean`).
-/

namespace Verif

variable {K : Type*} [Field K] [LinearOrder K]

/-- The methods of a regularizer object: `Regularizer.value`, `Regularizer.prox` (`regularizers.py:56-86`). -/
structure Regularizer (K : Type*) (n : ℕ) where
  value : Vec K n → Except PyErr (WithTop K)
  prox : Vec K n → K → Except PyErr (Vec K n)

/-- Contract of `ndarray.argsort()` (numpy's default, unstable sort): positions in ascending order of value, ties in any order.
`perm v r` is the index of the entry of rank `r`. The index type is the set of positions of the array
(a subtype when the array is a masked copy `x[mask]`). -/
structure ArgSort (ι : Type*) [Fintype ι] (K : Type*) [LinearOrder K] where
  perm : (ι → K) → (Fin (Fintype.card ι) ≃ ι)
  sorted : ∀ v, Monotone (v ∘ perm v)

/-- `_take_only_k_max(x, k)`, `regularizers.py:89-110`:
`b = zeros; if k > 0: idx = abs(x).argsort()[-k:]; b[idx] = x[idx]`.
The slice `[-k:]` of an array of length `m` is the ranks `r` with `m - k ≤ r` (all of them if `k ≥ m`). -/
def takeOnlyKMax {ι : Type*} [Fintype ι] (as : ArgSort ι K) (x : ι → K) (k : ℤ) : ι → K :=
  if 0 < k then
    fun i => if (Fintype.card ι : ℤ) - k ≤ ((as.perm (fun j => |x j|)).symm i : ℕ) then x i else 0
  else fun _ => 0

/-- `weights.astype(bool)`, `regularizers.py:147, 260-261`: positions taking part in the selection. -/
def participation {ι : Type*} (w : ι → K) (i : ι) : Bool := decide (w i ≠ 0)

/-- The masked assignment shared by `L0Regularizer.prox` (`regularizers.py:178-187`) and `L0RegularizerLME.optimal_tbeta`
(`regularizers.py:297-306`), `optimal_tgamma` (`regularizers.py:335-337`):
`result = copy(x); result[mask] = _take_only_k_max(x[mask], nnz - sum(~mask))`. -/
def maskedKMax {ι : Type*} [Fintype ι] (mask : ι → Bool) (as : ArgSort {i // mask i = true} K)
    (x : ι → K) (nnz : ℤ) : ι → K :=
  fun i =>
    if h : mask i = true then
      takeOnlyKMax as (fun j => x j.1) (nnz - (Fintype.card {i // mask i = false} : ℤ)) ⟨i, h⟩
    else x i

/-- `sum(x != 0)`, `regularizers.py:202, 373`. -/
def nnzCount {ι : Type*} [Fintype ι] (x : ι → K) : ℕ := Fintype.card {i // x i ≠ 0}

section
variable {n : ℕ}

/-- Weights attached to an `L0Regularizer`, with the sort routine used on the masked array. -/
structure L0Weights (K : Type*) [Field K] [LinearOrder K] (n : ℕ) where
  w : Vec K n
  as : ArgSort {i // participation w i = true} K

/-- `L0Regularizer` (`regularizers.py:113-206`). `nnz` is the constructor argument; `ws` the weights attached by `instantiate`
(`none` before `instantiate`, or after `forget`), `asAll` the sort used when there are no weights.
`value` compares `k > self.nnz`, a `TypeError` for `nnz=None`. -/
def l0Regularizer (nnz : Option ℤ) (asAll : ArgSort (Fin n) K) (ws : Option (L0Weights K n)) : Regularizer K n where
  value := fun x =>
    match nnz with
    | none => .error .typeError
    | some k => if (nnzCount x : ℤ) > k then .ok ⊤ else .ok 0
  prox := fun x _alpha =>
    let m : ℤ := match nnz with
      | none => n
      | some k => k
    match ws with
    | some ws => .ok (maskedKMax (participation ws.w) ws.as x m)
    | none => .ok (takeOnlyKMax asAll x m)

/-- One coordinate of `L1Regularizer.prox` with threshold `t`: `(x - t).clip(0, None) - (-x - t).clip(0, None)`,
`regularizers.py:455-458`; the same expression appears in `CADRegularizer.prox` (541-547) and `SCADRegularizer.prox` (652). -/
def soft (t x : K) : K := clip0 (x - t) - clip0 (-x - t)

/-- `L1Regularizer` (`regularizers.py:379-458`). With weights, `value` is `weights.dot(abs(x))` (no `lam`), line 436. -/
def l1Regularizer (lam : K) (weights : Option (Vec K n)) : Regularizer K n where
  value := fun x =>
    match weights with
    | some w => .ok ((∑ i, w i * |x i| : K) : WithTop K)
    | none => .ok ((lam * ∑ i, |x i| : K) : WithTop K)
  prox := fun x alpha =>
    match weights with
    | some w => .ok fun i => soft (alpha * w i * lam) (x i)
    | none => .ok fun i => soft (alpha * lam) (x i)

/-- `CADRegularizer` (`regularizers.py:461-548`). -/
def cadRegularizer (rho lam : K) (weights : Option (Vec K n)) : Regularizer K n where
  value := fun x =>
    match weights with
    | some w => .ok ((lam * ∑ i, min (w i * |x i|) rho : K) : WithTop K)
    | none => .ok ((lam * ∑ i, min (|x i|) rho : K) : WithTop K)
  prox := fun x alpha =>
    match weights with
    | some w => .ok fun i => if |x i| ≤ rho ∧ 0 < w i then soft (w i * alpha * lam) (x i) else x i
    | none => .ok fun i => if |x i| ≤ rho then soft (alpha * lam) (x i) else x i

/-- One summand of `SCADRegularizer.value` without the factor `lam` (`regularizers.py:617-623`). -/
def scadTerm (rho sigma w x : K) : K :=
  if |x| < sigma then w * sigma * |x|
  else if sigma ≤ |x| ∧ |x| ≤ rho * sigma then
    w * (-x ^ 2 + 2 * rho * sigma * |x| - sigma ^ 2) / (2 * (rho - 1))
  else w * sigma ^ 2 * (rho + 1) / 2

/-- `np.sign`. -/
def npSign (x : K) : K := if 0 < x then 1 else if x < 0 then -1 else 0

/-- One coordinate of `SCADRegularizer.prox` (`regularizers.py:641-652`), with `ae = alpha * lam * w`. The division by
`rho - 1 - ae` is a numpy division: when the divisor is zero the result is a NaN (0/0), modelled by `PyErr.nan`. -/
def scadProx1 (rho sigma w ae x : K) : Except PyErr K :=
  if w = 0 then .ok x
  else if |x| > max rho (1 + ae) * sigma then .ok x
  else if sigma * (1 + ae) ≤ |x| ∧ |x| ≤ max rho (1 + ae) * sigma then
    if rho - 1 - ae = 0 then .error .nan
    else .ok (((rho - 1) * x - npSign x * rho * sigma * ae) / (rho - 1 - ae))
  else .ok (soft (sigma * ae) x)

/-- Collect the coordinates of a vector computed by a loop; the first exceptional coordinate makes the result exceptional
(for `PyErr.nan`: the vector contains a NaN). -/
def collect : {n : ℕ} → (Fin n → Except PyErr K) → Except PyErr (Vec K n)
  | 0, _ => .ok Fin.elim0
  | _ + 1, f => do
    let a ← f 0
    let r ← collect fun i => f i.succ
    return Fin.cons a r

/-- The weights seen by the loops of `SCADRegularizer`: `self.weights if not None else np.ones(x.shape)`. -/
def weightsOrOnes (weights : Option (Vec K n)) : Vec K n := weights.getD fun _ => 1

/-- `SCADRegularizer` (`regularizers.py:551-653`). The constructor's `assert rho > 1` is `scadInit` below. -/
def scadRegularizer (rho sigma lam : K) (weights : Option (Vec K n)) : Regularizer K n where
  value := fun x => .ok ((lam * ∑ i, scadTerm rho sigma (weightsOrOnes weights i) (x i) : K) : WithTop K)
  prox := fun x alpha =>
    collect fun i => scadProx1 rho sigma (weightsOrOnes weights i) (alpha * lam * weightsOrOnes weights i) (x i)

/-- `SCADRegularizer.__init__` (`regularizers.py:556-573`): `assert rho > 1`. -/
def scadInit (rho sigma lam : K) : Except PyErr (Option (Vec K n) → Regularizer K n) :=
  if rho > 1 then .ok (scadRegularizer rho sigma lam) else .error .assertionError

/-- `DummyRegularizer` (`regularizers.py:656-691`). -/
def dummyRegularizer : Regularizer K n where
  value := fun _ => .ok 0
  prox := fun x _ => .ok x

/-- `PositiveQuadrantRegularizer` (`regularizers.py:694-719`); `pos` are the positive coordinates set by `instantiate`
(`False` for fixed effects, `True` for random effects); `other` is the wrapped, already instantiated regularizer. -/
def positiveQuadrant (pos : Fin n → Bool) (other : Option (Regularizer K n)) : Regularizer K n where
  value := fun x =>
    let y : WithTop K := if ∃ i, pos i = true ∧ x i < 0 then ⊤ else 0
    match other with
    | some r => do return y + (← r.value x)
    | none => .ok y
  prox := fun x alpha =>
    let y : Vec K n := fun i => if pos i = true then clip0 (x i) else x i
    match other with
    | some r => r.prox y alpha
    | none => .ok y

/-- The mask built by `PositiveQuadrantRegularizer.instantiate` (`regularizers.py:700-702`):
`[False] * num_fixed + [True] * num_random`. -/
def positiveMask (p q : ℕ) : Fin (p + q) → Bool := fun i => decide (p ≤ i.val)

/-- `ElasticRegularizer` (`regularizers.py:722-743`). -/
def elastic (eps : K) (other : Option (Regularizer K n)) : Regularizer K n where
  value := fun x =>
    let y : WithTop K := ((eps / 2 * normSq x : K) : WithTop K)
    match other with
    | some r => do return y + (← r.value x)
    | none => .ok y
  prox := fun x alpha =>
    match other with
    | some r => r.prox (fun i => x i / (1 + alpha * eps)) (alpha / (1 + alpha * eps))
    | none => .ok fun i => x i / (1 + alpha * eps)

end

/-! ### `L0RegularizerLME` (`regularizers.py:208-376`) -/

/-- The constructor arguments of `L0RegularizerLME` that persist over `instantiate`/`forget` (`regularizers.py:214-241`). -/
structure L0LmeCfg where
  nnzTbeta : Option ℤ
  nnzTgamma : Option ℤ
  independent : Bool

/-- `L0RegularizerLME.instantiate` on the persistent fields (`regularizers.py:262-265`): a budget of `None` is *replaced* by the number of
fixed (random) effects of the problem being attached. `p`, `q` are `len(beta_weights)`, `len(gamma_weights)`. -/
def L0LmeCfg.instantiate (c : L0LmeCfg) (p q : ℕ) : L0LmeCfg :=
  { c with nnzTbeta := some (c.nnzTbeta.getD p), nnzTgamma := some (c.nnzTgamma.getD q) }

/-- `L0RegularizerLME.forget` on the persistent fields (`regularizers.py:267-278`): the budgets are left as they are. -/
def L0LmeCfg.forget (c : L0LmeCfg) : L0LmeCfg := c

/-- Problem-dependent data attached by `L0RegularizerLME.instantiate` (`regularizers.py:257-261`): the weights split by
`oracle.x_to_beta_gamma`, and the sort routines used on the masked arrays. -/
structure L0LmeWeights (K : Type*) [Field K] [LinearOrder K] (p q : ℕ) where
  wb : Vec K p
  wg : Vec K q
  asB : ArgSort {i // participation wb i = true} K
  asG : ArgSort {i // participation wg i = true} K

/-- `LinearLMEOracle.x_to_beta_gamma` (`lme/oracles.py:614-630`), first component. -/
def xBeta {p q : ℕ} (x : Vec K (p + q)) : Vec K p := fun i => x (Fin.castAdd q i)

/-- `LinearLMEOracle.x_to_beta_gamma` (`lme/oracles.py:614-630`), second component. -/
def xGamma {p q : ℕ} (x : Vec K (p + q)) : Vec K q := fun i => x (Fin.natAdd p i)

/-- `LinearLMEOracle.beta_gamma_to_x` (`lme/oracles.py:632-647`): `np.concatenate([beta, gamma])`. -/
def joinX {p q : ℕ} (beta : Vec K p) (gamma : Vec K q) : Vec K (p + q) := Fin.append beta gamma

/-- `L0RegularizerLME.optimal_tbeta` (`regularizers.py:280-306`). A budget of `None` makes the arithmetic/comparison fail. -/
def optimalTbeta {p q : ℕ} (c : L0LmeCfg) (ws : Option (L0LmeWeights K p q)) (asAll : ArgSort (Fin p) K)
    (beta : Vec K p) : Except PyErr (Vec K p) :=
  match c.nnzTbeta with
  | none => .error .typeError
  | some k =>
    match ws with
    | some ws => .ok (maskedKMax (participation ws.wb) ws.asB beta k)
    | none => .ok (takeOnlyKMax asAll beta k)

/-- `L0RegularizerLME.optimal_tgamma` (`regularizers.py:308-338`). `b2g` is `oracle.beta_to_gamma_map` (`none` stands for the entry `-1`).
Without weights the participation mask is `None` and `~None` is a `TypeError`. -/
def optimalTgamma {p q : ℕ} (c : L0LmeCfg) (b2g : Fin p → Option (Fin q)) (ws : Option (L0LmeWeights K p q))
    (tbeta : Vec K p) (gamma : Vec K q) : Except PyErr (Vec K q) :=
  match ws with
  | none => .error .typeError
  | some ws =>
    let tgamma : Vec K q :=
      if c.independent = false then
        fun i => if (∃ j, tbeta j = 0 ∧ b2g j = some i) ∧ participation ws.wg i = true then 0 else gamma i
      else gamma
    match c.nnzTgamma with
    | none => .error .typeError
    | some k => .ok (maskedKMax (participation ws.wg) ws.asG tgamma k)

/-- `L0RegularizerLME` as a regularizer object (`regularizers.py:340-376`). -/
def l0LmeRegularizer {p q : ℕ} (c : L0LmeCfg) (b2g : Fin p → Option (Fin q)) (ws : Option (L0LmeWeights K p q))
    (asAll : ArgSort (Fin p) K) : Regularizer K (p + q) where
  value := fun x =>
    match c.nnzTbeta, c.nnzTgamma with
    | some kb, some kg => if (nnzCount x : ℤ) > kb + kg then .ok ⊤ else .ok 0
    | _, _ => .error .typeError
  prox := fun x _alpha => do
    let tbeta ← optimalTbeta c ws asAll (xBeta x)
    let tgamma ← optimalTgamma c b2g ws tbeta (xGamma x)
    return joinX tbeta tgamma

end Verif
