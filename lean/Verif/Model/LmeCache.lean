import Verif.Model.LmeOracle

/-!
# Model of the factor cache of `LinearLMEOracle` (`/repo/src/pysr3/lme/oracles.py:46-164`)

The attributes `problem`, `gamma`, `omega_cholesky`, `omega_cholesky_inv` and the way `instantiate`, `forget` and
`_recalculate_cholesky` change them.  Line 163 stores a *reference* to the caller's array (`self.gamma = gamma`), so
arrays live in a heap: a reference is a natural number, the heap gives its present value.
-/

open Matrix

namespace Verif

noncomputable section

/-- A problem with its numbers of fixed and random features. -/
abbrev CacheProblem := (pq : ℕ × ℕ) × List (LmeGroup pq.1 pq.2)

/-- One element of `omega_cholesky` with the corresponding element of `omega_cholesky_inv`
(`lme/oracles.py:161-162`). -/
abbrev CacheFactor := (n : ℕ) × (Matrix (Fin n) (Fin n) ℝ × Matrix (Fin n) (Fin n) ℝ)

/-- The attributes of the oracle which make up the cache (`lme/oracles.py:67, 70-72`). -/
structure LmeCache where
  problem : Option CacheProblem
  /-- reference held in `self.gamma`, `none` for Python's `None` -/
  gamma : Option ℕ
  factors : List CacheFactor

/-- `LinearLMEOracle.__init__` without a problem (`lme/oracles.py:67-72`). -/
def LmeCache.init : LmeCache := ⟨none, none, []⟩

/-- `instantiate(problem)` (`lme/oracles.py:95-113`): only the problem is replaced, the cache is kept. -/
def LmeCache.instantiate (s : LmeCache) (D : CacheProblem) : LmeCache := { s with problem := some D }

/-- `forget()` (`lme/oracles.py:123-127`). -/
def LmeCache.forget (_ : LmeCache) : LmeCache := ⟨none, none, []⟩

/-- `(a != b).any()` for two one-dimensional arrays: entrywise for equal lengths, broadcast if one of them has
length 1, `ValueError` otherwise (`lme/oracles.py:150`). -/
def npNeAny (a b : List ℝ) : Except PyErr Bool := by
  classical exact
    if a.length = b.length then .ok (decide (a ≠ b))
    else match a, b with
      | [x], _ => .ok (decide (∃ y ∈ b, x ≠ y))
      | _, [y] => .ok (decide (∃ x ∈ a, x ≠ y))
      | _, _ => .error .valueError

/-- The test of line 150; `(None != gamma).any()` is true unless `gamma` is empty. -/
def LmeCache.changed (heap : ℕ → List ℝ) (s : LmeCache) (r : ℕ) : Except PyErr Bool :=
  match s.gamma with
  | none => .ok true
  | some r' => do
    let b ← npNeAny (heap r') (heap r)
    return b || (heap r).isEmpty

/-- `omega` of a group for an array of any length (`lme/oracles.py:153, 156-158`): the empty array adds nothing,
a wrong length makes `z.dot(gamma_mat)` raise `ValueError`. -/
def cacheOmega {p q : ℕ} (g : LmeGroup p q) (gamma : List ℝ) :
    Except PyErr (Matrix (Fin g.n) (Fin g.n) ℝ) :=
  if gamma = [] then .ok (diagonal g.l)
  else if h : gamma.length = q then .ok (lmeOmega g fun j => gamma[j])
  else .error .valueError

/-- The loop of `_recalculate_cholesky` (`lme/oracles.py:155-162`), with the lists filled so far. -/
def cacheLoop {p q : ℕ} (gamma : List ℝ) :
    List (LmeGroup p q) → List CacheFactor → Except PyErr Unit × List CacheFactor
  | [], acc => (.ok (), acc)
  | g :: gs, acc =>
    match (do npCholesky (← cacheOmega g gamma) : Except PyErr (Matrix (Fin g.n) (Fin g.n) ℝ)) with
    | .error e => (.error e, acc)
    | .ok el => cacheLoop gamma gs (acc ++ [⟨g.n, el, trtriInv el⟩])

/-- `_recalculate_cholesky(gamma)` (`lme/oracles.py:150-164`) for the array `r`. -/
def LmeCache.recalculate (heap : ℕ → List ℝ) (s : LmeCache) (r : ℕ) : Except PyErr Unit × LmeCache :=
  match s.changed heap r with
  | .error e => (.error e, s)
  | .ok false => (.ok (), s)
  | .ok true =>
    match s.problem with
    | none => (.error .typeError, { s with factors := [] })
    | some D =>
      match cacheLoop (heap r) D.2 [] with
      | (.error e, fs) => (.error e, { s with factors := fs })
      | (.ok (), fs) => (.ok (), { s with gamma := some r, factors := fs })

/-- `zip(self.problem, self.omega_cholesky, self.omega_cholesky_inv)` as all evaluations use it
(`lme/oracles.py:187, 238, 270, 454, 478, 606, 760, ...`): `zip` stops at the shorter list; a factor of the wrong
size makes the first product raise `ValueError`. -/
def cacheZip {p q : ℕ} : List (LmeGroup p q) → List CacheFactor → Except PyErr (List (LmeFactored p q))
  | g :: gs, f :: fs =>
    if h : f.1 = g.n then do
      let rest ← cacheZip gs fs
      return ⟨g, h ▸ f.2.1, h ▸ f.2.2⟩ :: rest
    else .error .valueError
  | _, _ => .ok []

/-- What a caller can do with an oracle and its arrays. -/
inductive CacheOp
  /-- `oracle.instantiate(problem)` -/
  | instantiate (D : CacheProblem)
  /-- `oracle.forget()` -/
  | forget
  /-- any evaluation at the array `r`; all of them start with `_recalculate_cholesky` -/
  | eval (r : ℕ)
  /-- assignment into the array `r` by the caller -/
  | write (r : ℕ) (v : List ℝ)

/-- One operation (`lme/oracles.py:81, 115, 130`), with the exception it raises. -/
def CacheOp.run (hs : (ℕ → List ℝ) × LmeCache) :
    CacheOp → Except PyErr Unit × ((ℕ → List ℝ) × LmeCache)
  | .instantiate D => (.ok (), hs.1, hs.2.instantiate D)
  | .forget => (.ok (), hs.1, hs.2.forget)
  | .eval r => ((hs.2.recalculate hs.1 r).1, hs.1, (hs.2.recalculate hs.1 r).2)
  | .write r v => (.ok (), Function.update hs.1 r v, hs.2)

/-- A sequence of operations; exceptions are caught by the caller, who carries on
(`lme/oracles.py:81, 115, 130`). -/
def runCacheOps (hs : (ℕ → List ℝ) × LmeCache) : List CacheOp → (ℕ → List ℝ) × LmeCache
  | [] => hs
  | op :: ops => runCacheOps (op.run hs).2 ops

end

end Verif
