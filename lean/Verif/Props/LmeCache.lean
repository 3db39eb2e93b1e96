import Mathlib.LinearAlgebra.Matrix.Notation
import Mathlib.Tactic.FinCases
import Mathlib.Tactic.NormNum
import Verif.Model.LmeCache
import Verif.Lemmas.LmeOracle

/-!
# C60: the cache of Cholesky factors
-/

open Matrix

namespace Verif

/-! ## Specification -/

/-- The entries of an array of length `q` as a vector. -/
def vecOf {q : ℕ} (gamma : List ℝ) (h : gamma.length = q) : Vec ℝ q := fun j => gamma[j.1]

/-- `fs` are the factors of the problem `D` at `gamma`: for every group, in order, the Cholesky factor of its
marginal covariance and the inverse of that factor. -/
def FactorsRight (D : CacheProblem) (gamma : List ℝ) (fs : List CacheFactor) : Prop :=
  ∃ h : gamma.length = D.1.2, List.Forall₂ (fun g f => ∃ L : Matrix (Fin g.n) (Fin g.n) ℝ,
    IsCholesky L (margCov g (vecOf gamma h)) ∧ f = ⟨g.n, L, L⁻¹⟩) D.2 fs

/-- The problem attached after a history: the last one passed to `instantiate` since the last `forget`. -/
def attachedBy : List CacheOp → Option CacheProblem → Option CacheProblem
  | [], a => a
  | .instantiate D :: ops, _ => attachedBy ops (some D)
  | .forget :: ops, _ => attachedBy ops none
  | _ :: ops, a => attachedBy ops a

/-- A disciplined history, `used` being the arrays at which the oracle was successfully evaluated since the last
`forget` and `a` the attached problem: a problem is attached only when nothing was evaluated since the last
`forget`; the caller does not assign into arrays at which the oracle was evaluated; evaluations happen with a
problem attached and an array of the right length; and an evaluation may only raise while nothing was
evaluated since the last `forget`. -/
def Disciplined : List ℕ → Option CacheProblem → (ℕ → List ℝ) × LmeCache → List CacheOp → Prop
  | _, _, _, [] => True
  | used, _, hs, .instantiate D :: ops =>
    used = [] ∧ Disciplined used (some D) (CacheOp.run hs (.instantiate D)).2 ops
  | _, _, hs, .forget :: ops => Disciplined [] none (CacheOp.run hs .forget).2 ops
  | used, a, hs, .write r v :: ops => r ∉ used ∧ Disciplined used a (CacheOp.run hs (.write r v)).2 ops
  | used, a, hs, .eval r :: ops =>
    (∃ D, a = some D ∧ (hs.1 r).length = D.1.2) ∧
    (((CacheOp.run hs (.eval r)).1 = .ok () ∧ Disciplined (r :: used) a (CacheOp.run hs (.eval r)).2 ops) ∨
     (used = [] ∧ (CacheOp.run hs (.eval r)).1 ≠ .ok () ∧
        Disciplined used a (CacheOp.run hs (.eval r)).2 ops))

/-! ## Lemmas -/

variable {p q : ℕ}

theorem cacheOmega_eq (g : LmeGroup p q) (gamma : List ℝ) (h : gamma.length = q) :
    cacheOmega g gamma = .ok (lmeOmega g (vecOf gamma h)) := by
  unfold cacheOmega
  by_cases h0 : gamma = []
  · rw [if_pos h0]
    have hq : ¬ 0 < q := by rw [h0] at h; simp only [List.length_nil] at h; omega
    unfold lmeOmega
    rw [if_neg hq, add_zero]
  · rw [if_neg h0, dif_pos h]
    rfl

/-- The factor entry of a group. -/
noncomputable def cacheEntry (gamma : Vec ℝ q) (g : LmeGroup p q) : CacheFactor :=
  ⟨g.n, cholFactor (lmeOmega g gamma), trtriInv (cholFactor (lmeOmega g gamma))⟩

theorem cacheLoop_spec (gamma : List ℝ) (h : gamma.length = q) (D : List (LmeGroup p q))
    (acc : List CacheFactor) :
    (InDomain D (vecOf gamma h) ∧
      cacheLoop gamma D acc = (.ok (), acc ++ D.map (cacheEntry (vecOf gamma h)))) ∨
    (¬ InDomain D (vecOf gamma h) ∧ (cacheLoop gamma D acc).1 = .error .linAlgError) := by
  induction D generalizing acc with
  | nil =>
    left
    exact ⟨fun g hg => absurd hg List.not_mem_nil, by simp [cacheLoop]⟩
  | cons g D ih =>
    rw [cacheLoop, cacheOmega_eq g gamma h]
    by_cases h1 : (margCov g (vecOf gamma h)).PosDef
    · have e : npCholesky (lmeOmega g (vecOf gamma h)) = .ok (cholFactor (lmeOmega g (vecOf gamma h))) :=
        npCholesky_ok.2 ⟨by rwa [lmeOmega_eq], rfl⟩
      have e2 : (do npCholesky (← (Except.ok (lmeOmega g (vecOf gamma h)) : Except PyErr _)))
          = Except.ok (cholFactor (lmeOmega g (vecOf gamma h))) := e
      rw [e2]
      rcases ih (acc ++ [cacheEntry (vecOf gamma h) g]) with ⟨hd, he⟩ | ⟨hd, he⟩
      · left
        refine ⟨fun g' hg' => ?_, ?_⟩
        · rcases List.mem_cons.1 hg' with rfl | hg'
          · exact h1
          · exact hd g' hg'
        · simp only [List.map_cons]
          rw [← List.append_cons] at he
          exact he
      · right
        exact ⟨fun hd' => hd fun g' hg' => hd' g' (List.mem_cons_of_mem _ hg'), he⟩
    · right
      refine ⟨fun hd => h1 (hd g List.mem_cons_self), ?_⟩
      have e : npCholesky (lmeOmega g (vecOf gamma h)) = .error .linAlgError := by
        unfold npCholesky
        rw [if_neg (by rwa [exists_isCholesky_iff, lmeOmega_eq])]
      have e2 : (do npCholesky (← (Except.ok (lmeOmega g (vecOf gamma h)) : Except PyErr _)))
          = Except.error .linAlgError := e
      rw [e2]

theorem cacheZip_entries (D : List (LmeGroup p q)) (gamma : Vec ℝ q) :
    cacheZip D (D.map (cacheEntry gamma)) = .ok (D.map (lmeFact gamma)) := by
  induction D with
  | nil => rfl
  | cons g D ih =>
    rw [List.map_cons, cacheZip, ih]
    rw [dif_pos (show (cacheEntry gamma g).1 = g.n from rfl)]
    rfl

theorem factorsRight_entries {D : CacheProblem} {gamma : List ℝ} (h : gamma.length = D.1.2)
    (hd : InDomain D.2 (vecOf gamma h)) :
    FactorsRight D gamma (D.2.map (cacheEntry (vecOf gamma h))) := by
  refine ⟨h, ?_⟩
  rw [List.forall₂_map_right_iff, List.forall₂_same]
  intro g hg
  refine ⟨cholFactor (lmeOmega g (vecOf gamma h)), ?_, ?_⟩
  · rw [lmeOmega_eq]
    exact cholFactor_spec (exists_isCholesky (hd g hg))
  · unfold cacheEntry
    rw [trtriInv_eq]

/-- The invariant: an occupied cache holds the factors of the attached problem at the present value of the
array it refers to, which is one of the arrays used. -/
def CacheInv (used : List ℕ) (a : Option CacheProblem) (hs : (ℕ → List ℝ) × LmeCache) : Prop :=
  hs.2.problem = a ∧ (used = [] → hs.2.gamma = none) ∧ ∀ r, hs.2.gamma = some r → r ∈ used ∧ ∃ D, a = some D ∧
    ∃ h : (hs.1 r).length = D.1.2, InDomain D.2 (vecOf (hs.1 r) h) ∧
      hs.2.factors = D.2.map (cacheEntry (vecOf (hs.1 r) h))

/-- One evaluation from a state satisfying the invariant. -/
theorem recalculate_inv {used : List ℕ} {a : Option CacheProblem} {heap : ℕ → List ℝ} {s : LmeCache}
    (hI : CacheInv used a (heap, s)) {r : ℕ} {D : CacheProblem} (hD : a = some D)
    (h : (heap r).length = D.1.2) :
    (InDomain D.2 (vecOf (heap r) h) ∧ (s.recalculate heap r).1 = .ok () ∧
      (s.recalculate heap r).2.factors = D.2.map (cacheEntry (vecOf (heap r) h)) ∧
      (s.recalculate heap r).2.problem = some D ∧
      ∃ r', (s.recalculate heap r).2.gamma = some r' ∧ heap r' = heap r ∧ (r' = r ∨ r' ∈ used)) ∨
    (¬ InDomain D.2 (vecOf (heap r) h) ∧ (s.recalculate heap r).1 = .error .linAlgError ∧
      (s.recalculate heap r).2.problem = some D ∧ (s.recalculate heap r).2.gamma = s.gamma) := by
  obtain ⟨hp, hu, hc⟩ := hI
  simp only at hp hu hc
  subst hD
  have recompute : s.changed heap r = .ok true →
      (InDomain D.2 (vecOf (heap r) h) ∧ (s.recalculate heap r).1 = .ok () ∧
      (s.recalculate heap r).2.factors = D.2.map (cacheEntry (vecOf (heap r) h)) ∧
      (s.recalculate heap r).2.problem = some D ∧
      ∃ r', (s.recalculate heap r).2.gamma = some r' ∧ heap r' = heap r ∧ (r' = r ∨ r' ∈ used)) ∨
      (¬ InDomain D.2 (vecOf (heap r) h) ∧ (s.recalculate heap r).1 = .error .linAlgError ∧
        (s.recalculate heap r).2.problem = some D ∧ (s.recalculate heap r).2.gamma = s.gamma) := by
    intro hch
    have hr : s.recalculate heap r = match cacheLoop (heap r) D.2 [] with
        | (.error e, fs) => (.error e, { s with factors := fs })
        | (.ok (), fs) => (.ok (), { s with gamma := some r, factors := fs }) := by
      unfold LmeCache.recalculate
      rw [hch, hp]
      rfl
    rcases cacheLoop_spec (heap r) h D.2 [] with ⟨hd, e⟩ | ⟨hd, e⟩
    · left
      rw [e, List.nil_append] at hr
      rw [hr]
      exact ⟨hd, rfl, rfl, hp, r, rfl, rfl, .inl rfl⟩
    · right
      refine ⟨hd, ?_⟩
      revert hr
      generalize cacheLoop (heap r) D.2 [] = c at e
      obtain ⟨c1, c2⟩ := c
      simp only at e
      subst e
      intro hr
      rw [hr]
      exact ⟨rfl, hp, rfl⟩
  cases hg : s.gamma with
  | none =>
    have := recompute (by unfold LmeCache.changed; rw [hg])
    rwa [hg] at this
  | some r' =>
    obtain ⟨hr', D', hD', h', hd', hf⟩ := hc r' hg
    cases hD'
    have hlen : (heap r').length = (heap r).length := h'.trans h.symm
    have hne : npNeAny (heap r') (heap r) = .ok (decide (heap r' ≠ heap r)) := by
      unfold npNeAny
      rw [if_pos hlen]
    by_cases hsame : heap r' = heap r ∧ heap r ≠ []
    · left
      have hch : s.changed heap r = .ok false := by
        unfold LmeCache.changed
        rw [hg]
        have e : npNeAny (heap r') (heap r) = .ok false := by
          rw [hne]
          congr 1
          rw [decide_eq_false_iff_not, not_not]
          exact hsame.1
        simp only [e]
        change Except.ok (false || (heap r).isEmpty) = _
        rw [Bool.false_or, List.isEmpty_eq_false_iff.2 hsame.2]
      have hr : s.recalculate heap r = (.ok (), s) := by
        unfold LmeCache.recalculate
        rw [hch]
      have hvec : vecOf (heap r') h' = vecOf (heap r) h := by
        funext j
        simp only [vecOf, hsame.1]
      rw [hvec] at hd' hf
      rw [hr]
      exact ⟨hd', rfl, hf, hp, r', hg, hsame.1, .inr hr'⟩
    · have hch : s.changed heap r = .ok true := by
        unfold LmeCache.changed
        rw [hg]
        simp only [hne]
        change Except.ok (decide (heap r' ≠ heap r) || (heap r).isEmpty) = _
        congr 1
        rw [Bool.or_eq_true, decide_eq_true_eq, List.isEmpty_iff]
        by_cases h1 : heap r' = heap r
        · right
          by_contra h2
          exact hsame ⟨h1, h2⟩
        · exact .inl h1
      have := recompute hch
      rwa [hg] at this

/-- The invariant along disciplined histories. -/
theorem cacheInv_run (ops : List CacheOp) : ∀ (used : List ℕ) (a : Option CacheProblem)
    (hs : (ℕ → List ℝ) × LmeCache), CacheInv used a hs → Disciplined used a hs ops →
    ∃ used', CacheInv used' (attachedBy ops a) (runCacheOps hs ops) := by
  induction ops with
  | nil => exact fun used a hs hI _ => ⟨used, hI⟩
  | cons op ops ih =>
    intro used a hs hI hdisc
    obtain ⟨heap, s⟩ := hs
    cases op with
    | instantiate D =>
      obtain ⟨hu, hrest⟩ := hdisc
      refine ih used (some D) _ ⟨rfl, fun h => hI.2.1 h, fun r hr => ?_⟩ hrest
      have := hI.2.1 hu
      change s.gamma = some r at hr
      rw [this] at hr
      cases hr
    | forget =>
      refine ih [] none _ ⟨rfl, fun _ => rfl, fun r hr => ?_⟩ hdisc
      cases hr
    | write r v =>
      obtain ⟨hr, hrest⟩ := hdisc
      refine ih used a _ ⟨hI.1, hI.2.1, fun r' hr' => ?_⟩ hrest
      obtain ⟨h1, D, h2, h3, h4, h5⟩ := hI.2.2 r' hr'
      have hne : r' ≠ r := fun e => hr (e ▸ h1)
      have e : Function.update heap r v r' = heap r' := Function.update_of_ne hne _ _
      have gen : ∀ l, l = heap r' → ∃ h : l.length = D.1.2, InDomain D.2 (vecOf l h) ∧
          s.factors = D.2.map (cacheEntry (vecOf l h)) := by
        rintro _ rfl
        exact ⟨h3, h4, h5⟩
      exact ⟨h1, D, h2, gen _ e⟩
    | eval r =>
      obtain ⟨⟨D, hD, hlen⟩, hcase⟩ := hdisc
      have hrec := recalculate_inv hI hD hlen
      rcases hcase with ⟨hok, hrest⟩ | ⟨hu, hbad, hrest⟩
      · rcases hrec with ⟨hd, -, hf, hp, r', hg, hsame, hr'⟩ | ⟨-, he, -⟩
        · refine ih (r :: used) a _ ⟨hp.trans hD.symm, fun h => ?_, fun r'' hr'' => ?_⟩ hrest
          · cases h
          · have e1 : (s.recalculate heap r).2.gamma = some r'' := hr''
            rw [hg] at e1
            cases e1
            refine ⟨?_, D, hD, ?_⟩
            · rcases hr' with rfl | hr'
              · exact List.mem_cons_self
              · exact List.mem_cons_of_mem _ hr'
            · have gen : ∀ l, l = heap r → ∃ h : l.length = D.1.2, InDomain D.2 (vecOf l h) ∧
                  (s.recalculate heap r).2.factors = D.2.map (cacheEntry (vecOf l h)) := by
                rintro _ rfl
                exact ⟨hlen, hd, hf⟩
              exact gen _ hsame
        · have : (s.recalculate heap r).1 = .ok () := hok
          rw [he] at this
          cases this
      · rcases hrec with ⟨-, hok, -⟩ | ⟨-, -, hp, hg⟩
        · exact absurd hok hbad
        · refine ih used a _ ⟨hp.trans hD.symm, fun h => ?_, fun r'' hr'' => ?_⟩ hrest
          · change (s.recalculate heap r).2.gamma = none
            rw [hg]
            exact hI.2.1 h
          · have e1 : (s.recalculate heap r).2.gamma = some r'' := hr''
            rw [hg, hI.2.1 hu] at e1
            cases e1

/-! ## C60 -/

/-- **C60**, what holds: after every disciplined history from a fresh oracle, an evaluation at any array `r` of
the right length for the attached problem `D` finds the factors of `D` at the present value of `r`: it raises
exactly when the factorisation does, and otherwise the cached factors are the Cholesky factors of the marginal
covariances and their inverses, and what the evaluations iterate over is exactly what a recomputation from
scratch would give.  Missing: histories which re-attach a problem without `forget`, assign into an array in
use, or continue after an exception (false, see the three theorems below). -/
theorem C60_cache_partial (heap : ℕ → List ℝ) (ops : List CacheOp)
    (hdisc : Disciplined [] none (heap, .init) ops) (D : CacheProblem) (hD : attachedBy ops none = some D)
    (r : ℕ) (hr : ((runCacheOps (heap, .init) ops).1 r).length = D.1.2) :
    let hs := runCacheOps (heap, .init) ops
    let out := (CacheOp.eval r).run hs
    (out.1 = (lmeRecalculate D.2 (vecOf (hs.1 r) hr)).map fun _ => ()) ∧
    (out.1 = .ok () → FactorsRight D (hs.1 r) out.2.2.factors ∧
      cacheZip D.2 out.2.2.factors = lmeRecalculate D.2 (vecOf (hs.1 r) hr)) := by
  intro hs out
  obtain ⟨used, hI⟩ := cacheInv_run ops [] none (heap, .init)
    ⟨rfl, fun _ => rfl, fun r hr => by cases hr⟩ hdisc
  rw [hD] at hI
  rcases recalculate_inv (heap := hs.1) (s := hs.2) hI rfl hr with ⟨hd, hok, hf, -⟩ | ⟨hd, he, -⟩
  · have e := lmeRecalculate_ok.2 ⟨hd, rfl⟩
    refine ⟨?_, fun _ => ⟨?_, ?_⟩⟩
    · rw [e]; exact hok
    · change FactorsRight D (hs.1 r) (hs.2.recalculate hs.1 r).2.factors
      rw [hf]
      exact factorsRight_entries hr hd
    · change cacheZip D.2 (hs.2.recalculate hs.1 r).2.factors = _
      rw [hf, e]
      exact cacheZip_entries _ _
  · refine ⟨?_, fun h => ?_⟩
    · have : lmeRecalculate D.2 (vecOf (hs.1 r) hr) = .error .linAlgError := lmeRecalculate_error hd
      rw [this]
      exact he
    · have : (hs.2.recalculate hs.1 r).1 = .ok () := h
      rw [he] at this
      cases this

/-- An evaluation at the array the cache refers to never recomputes. -/
theorem recalculate_same {heap : ℕ → List ℝ} {s : LmeCache} {r : ℕ} (hg : s.gamma = some r)
    (hne : heap r ≠ []) : s.recalculate heap r = (.ok (), s) := by
  have e : npNeAny (heap r) (heap r) = .ok false := by
    unfold npNeAny
    rw [if_pos rfl]
    congr 1
    rw [decide_eq_false_iff_not, not_not]
  have hch : s.changed heap r = .ok false := by
    unfold LmeCache.changed
    rw [hg]
    simp only [e]
    change Except.ok (false || (heap r).isEmpty) = _
    rw [Bool.false_or, List.isEmpty_eq_false_iff.2 hne]
  unfold LmeCache.recalculate
  rw [hch]

/-- The first evaluation after attaching a problem to a fresh oracle. -/
theorem recalculate_fresh {heap : ℕ → List ℝ} {D : CacheProblem} {r : ℕ} (h : (heap r).length = D.1.2)
    (hd : InDomain D.2 (vecOf (heap r) h)) :
    LmeCache.recalculate heap (LmeCache.init.instantiate D) r =
      (.ok (), ⟨some D, some r, D.2.map (cacheEntry (vecOf (heap r) h))⟩) := by
  rcases cacheLoop_spec (heap r) h D.2 [] with ⟨-, e⟩ | ⟨hd', -⟩
  · rw [List.nil_append] at e
    unfold LmeCache.recalculate LmeCache.instantiate
    simp only [LmeCache.changed, LmeCache.init, e]
  · exact absurd hd hd'

/-- One group with one observation `0`, no fixed effect, one random effect with feature `1`, observation
variance `l`. -/
def exCache (l : ℝ) : CacheProblem := ⟨(0, 1), [⟨1, 0, ![0], !![1], ![l]⟩]⟩

theorem exCache_cov (l : ℝ) (gamma : Vec ℝ 1) :
    margCov (⟨1, 0, ![0], !![1], ![l]⟩ : LmeGroup 0 1) gamma = !![gamma 0 + l] := by
  have key : (!![1] : Matrix (Fin 1) (Fin 1) ℝ) * diagonal gamma * (!![1] : Matrix (Fin 1) (Fin 1) ℝ)ᵀ
      + diagonal (![l] : Fin 1 → ℝ) = !![gamma 0 + l] := by
    ext i j
    fin_cases i; fin_cases j
    simp [Matrix.mul_apply, Matrix.vecMul, dotProduct]
  exact key

theorem posDef_one_iff (a : ℝ) : (!![a] : Matrix (Fin 1) (Fin 1) ℝ).PosDef ↔ 0 < a := by
  constructor
  · intro h
    have := h.dotProduct_mulVec_pos (x := ![1]) (by intro h; simpa using congrFun h 0)
    simpa [Matrix.mulVec, dotProduct] using this
  · intro h
    refine PosDef.of_dotProduct_mulVec_pos ?_ fun x hx => ?_
    · rw [Matrix.IsHermitian, conjTranspose_eq_transpose_of_trivial]
      ext i j; fin_cases i; fin_cases j; rfl
    · have hx0 : x 0 ≠ 0 := fun h0 => hx (funext fun i => by fin_cases i; exact h0)
      have : 0 < x 0 * (a * x 0) := by
        have := mul_pos h (mul_self_pos.2 hx0)
        nlinarith
      simpa [Matrix.mulVec, dotProduct] using this

theorem exCache_domain (l : ℝ) (gamma : Vec ℝ 1) : InDomain (exCache l).2 gamma ↔ 0 < gamma 0 + l := by
  constructor
  · intro h
    have := h _ (List.mem_singleton.2 rfl)
    exact (posDef_one_iff _).1 ((congrArg (fun A : Matrix (Fin 1) (Fin 1) ℝ => A.PosDef) (exCache_cov l gamma)).mp this)
  · intro h g hg
    rw [List.mem_singleton.1 hg]
    exact (congrArg (fun A : Matrix (Fin 1) (Fin 1) ℝ => A.PosDef) (exCache_cov l gamma)).mpr
      ((posDef_one_iff _).2 h)

/-- The factors of a one-observation problem determine its marginal variance. -/
theorem exCache_factors {l l' a a' : ℝ} {fs : List CacheFactor} (h : FactorsRight (exCache l) [a] fs)
    (h' : FactorsRight (exCache l') [a'] fs) : a + l = a' + l' := by
  obtain ⟨h1, h2⟩ := h
  obtain ⟨h3, h4⟩ := h'
  obtain ⟨f, hf, rfl⟩ : ∃ f, (∃ L : Matrix (Fin 1) (Fin 1) ℝ, IsCholesky L (!![a + l]) ∧ f = ⟨1, L, L⁻¹⟩) ∧
      fs = [f] := by
    cases h2 with
    | cons hx hr =>
      cases hr
      obtain ⟨L, hL, rfl⟩ := hx
      exact ⟨_, ⟨L, (congrArg (IsCholesky (n := 1) L) (exCache_cov l (vecOf [a] rfl))).mp hL, rfl⟩, rfl⟩
  obtain ⟨L, hL, rfl⟩ := hf
  cases h4 with
  | cons hx hr =>
    obtain ⟨L', hL', e⟩ := hx
    have hL'2 : IsCholesky (n := 1) L' (!![a' + l']) :=
      (congrArg (IsCholesky (n := 1) L') (exCache_cov l' (vecOf [a'] rfl))).mp hL'
    have e' : (⟨1, L, L⁻¹⟩ : CacheFactor) = ⟨1, L', L'⁻¹⟩ := e
    simp only [Sigma.mk.injEq, heq_eq_eq, Prod.mk.injEq, true_and] at e'
    rw [← e'.1] at hL'2
    have := hL.mul_transpose.symm.trans hL'2.mul_transpose
    have := congrFun (congrFun this 0) 0
    simpa using this

/-- Two arrays, `[1]` and `[-2]`. -/
def exHeap : ℕ → List ℝ := fun r => if r = 0 then [1] else [-2]

/-- C60 on a concrete disciplined history: attach, evaluate, detach, attach another problem, evaluate. -/
example : FactorsRight (exCache 3) [1]
    ((CacheOp.eval 0).run (runCacheOps (exHeap, .init)
      [.instantiate (exCache 1), .eval 0, .forget, .instantiate (exCache 3)])).2.2.factors := by
  have hd : InDomain (exCache 1).2 (vecOf (exHeap 0) rfl) :=
    (exCache_domain 1 _).2 (by change (0 : ℝ) < 1 + 1; norm_num)
  have hfr : LmeCache.recalculate exHeap (LmeCache.init.instantiate (exCache 1)) 0 = _ :=
    recalculate_fresh (D := exCache 1) rfl hd
  have hC := C60_cache_partial exHeap [.instantiate (exCache 1), .eval 0, .forget, .instantiate (exCache 3)]
    ⟨rfl, ⟨exCache 1, rfl, rfl⟩, .inl ⟨by
      change (LmeCache.recalculate exHeap (LmeCache.init.instantiate (exCache 1)) 0).1 = _
      rw [hfr], rfl, trivial⟩⟩ (exCache 3) rfl 0 rfl
  refine (hC.2 ?_).1
  exact hC.1.trans (congrArg (Except.map fun _ => ())
    (lmeRecalculate_ok.2 ⟨(exCache_domain 3 _).2 (by change (0 : ℝ) < 1 + 3; norm_num), rfl⟩))

/-- **C60 is violated by the code** when a problem is attached without `forget`: for all problems `D₁`, `D₂` and
every nonempty array at which `D₁` was evaluated, evaluating at that array after attaching `D₂` still uses the
factors of `D₁`; with one observation of variance 1 and of variance 3 these are wrong for `D₂`. -/
theorem C60_reattach_violated :
    (∀ (heap : ℕ → List ℝ) (r : ℕ) (D₁ D₂ : CacheProblem) (h : (heap r).length = D₁.1.2), heap r ≠ [] →
      InDomain D₁.2 (vecOf (heap r) h) →
      let out := (CacheOp.eval r).run (runCacheOps (heap, .init) [.instantiate D₁, .eval r, .instantiate D₂])
      out.1 = .ok () ∧ out.2.2.problem = some D₂ ∧ FactorsRight D₁ (heap r) out.2.2.factors) ∧
    (let out := (CacheOp.eval 0).run (runCacheOps (exHeap, .init)
        [.instantiate (exCache 1), .eval 0, .instantiate (exCache 3)]);
      out.1 = .ok () ∧ ¬ FactorsRight (exCache 3) [1] out.2.2.factors) := by
  have gen : ∀ (heap : ℕ → List ℝ) (r : ℕ) (D₁ D₂ : CacheProblem) (h : (heap r).length = D₁.1.2), heap r ≠ [] →
      InDomain D₁.2 (vecOf (heap r) h) →
      let out := (CacheOp.eval r).run (runCacheOps (heap, .init) [.instantiate D₁, .eval r, .instantiate D₂])
      out.1 = .ok () ∧ out.2.2.problem = some D₂ ∧ FactorsRight D₁ (heap r) out.2.2.factors := by
    intro heap r D₁ D₂ h hne hd
    have h1 : runCacheOps (heap, .init) [.instantiate D₁, .eval r, .instantiate D₂] =
        (heap, ⟨some D₂, some r, D₁.2.map (cacheEntry (vecOf (heap r) h))⟩) := by
      simp only [runCacheOps, CacheOp.run, recalculate_fresh h hd]
      rfl
    rw [h1]
    simp only [CacheOp.run]
    rw [recalculate_same rfl hne]
    exact ⟨rfl, rfl, factorsRight_entries h hd⟩
  refine ⟨gen, ?_⟩
  have := gen exHeap 0 (exCache 1) (exCache 3) rfl (by simp [exHeap])
    ((exCache_domain 1 _).2 (by change (0 : ℝ) < 1 + 1; norm_num))
  refine ⟨this.1, fun h => ?_⟩
  have := exCache_factors this.2.2 h
  norm_num at this

/-- **C60 is violated by the code** when the caller changes an array in place: the cache keeps a reference, so the
comparison with the changed array finds no difference and the factors of the old value are used. -/
theorem C60_inplace_violated :
    let out := (CacheOp.eval 0).run (runCacheOps (exHeap, .init) [.instantiate (exCache 1), .eval 0, .write 0 [3]])
    out.1 = .ok () ∧ out.2.1 0 = [3] ∧ FactorsRight (exCache 1) [1] out.2.2.factors ∧
      ¬ FactorsRight (exCache 1) (out.2.1 0) out.2.2.factors := by
  have hd : InDomain (exCache 1).2 (vecOf (exHeap 0) rfl) :=
    (exCache_domain 1 _).2 (by change (0 : ℝ) < 1 + 1; norm_num)
  have h1 : runCacheOps (exHeap, .init) [.instantiate (exCache 1), .eval 0, .write 0 [3]] =
      (Function.update exHeap 0 [3], ⟨some (exCache 1), some 0,
        (exCache 1).2.map (cacheEntry (vecOf (exHeap 0) rfl))⟩) := by
    simp only [runCacheOps, CacheOp.run, recalculate_fresh (D := exCache 1) (r := 0) rfl hd]
    rfl
  rw [h1]
  simp only [CacheOp.run]
  have hu : Function.update exHeap 0 [3] 0 = [3] := Function.update_self ..
  rw [recalculate_same rfl (by rw [hu]; simp), hu]
  have hF : FactorsRight (exCache 1) [1] ((exCache 1).2.map (cacheEntry (vecOf (exHeap 0) rfl))) :=
    factorsRight_entries (D := exCache 1) (gamma := [1]) rfl hd
  refine ⟨rfl, rfl, hF, fun h => ?_⟩
  have := exCache_factors hF h
  norm_num at this

/-- **C60 is violated by the code** after an exception: an evaluation at `[-2]` (outside the domain) raises
`LinAlgError` after the lists of factors were emptied, but `self.gamma` still refers to the previous array
`[1]`; the next evaluation at `[1]` then finds an empty list of factors for a problem with one group, and does
not raise. -/
theorem C60_exception_violated :
    let hs := runCacheOps (exHeap, .init) [.instantiate (exCache 1), .eval 0]
    let mid := (CacheOp.eval 1).run hs
    let out := (CacheOp.eval 0).run mid.2
    mid.1 = .error .linAlgError ∧ out.1 = .ok () ∧ out.2.2.factors = [] ∧
      ¬ FactorsRight (exCache 1) [1] out.2.2.factors ∧ cacheZip (exCache 1).2 out.2.2.factors = .ok [] := by
  have hd : InDomain (exCache 1).2 (vecOf (exHeap 0) rfl) :=
    (exCache_domain 1 _).2 (by change (0 : ℝ) < 1 + 1; norm_num)
  have h1 : runCacheOps (exHeap, .init) [.instantiate (exCache 1), .eval 0] =
      (exHeap, ⟨some (exCache 1), some 0, (exCache 1).2.map (cacheEntry (vecOf (exHeap 0) rfl))⟩) := by
    simp only [runCacheOps, CacheOp.run, recalculate_fresh (D := exCache 1) (r := 0) rfl hd]
    rfl
  have hloop : cacheLoop (exHeap 1) (exCache 1).2 [] = (.error .linAlgError, []) := by
    have hnd : ¬ (margCov (⟨1, 0, ![0], !![1], ![1]⟩ : LmeGroup 0 1) (vecOf (exHeap 1) rfl)).PosDef := by
      rw [exCache_cov, posDef_one_iff]
      change ¬ (0 : ℝ) < -2 + 1
      norm_num
    have hc : cacheOmega (⟨1, 0, ![0], !![1], ![1]⟩ : LmeGroup 0 1) (exHeap 1) = .ok (lmeOmega
        (⟨1, 0, ![0], !![1], ![1]⟩ : LmeGroup 0 1) (vecOf (exHeap 1) rfl)) := cacheOmega_eq _ _ rfl
    change cacheLoop (p := 0) (q := 1) (exHeap 1) [(⟨1, 0, ![0], !![1], ![1]⟩ : LmeGroup 0 1)] [] = _
    rw [cacheLoop, hc]
    have e2 : (do npCholesky (← (Except.ok (lmeOmega (⟨1, 0, ![0], !![1], ![1]⟩ : LmeGroup 0 1)
        (vecOf (exHeap 1) rfl)) : Except PyErr _))) = Except.error .linAlgError := by
      change npCholesky _ = _
      unfold npCholesky
      rw [if_neg (by rwa [exists_isCholesky_iff, lmeOmega_eq])]
    rw [e2]
  have hmid : LmeCache.recalculate exHeap ⟨some (exCache 1), some 0,
      (exCache 1).2.map (cacheEntry (vecOf (exHeap 0) rfl))⟩ 1 =
      (.error .linAlgError, ⟨some (exCache 1), some 0, []⟩) := by
    have e : npNeAny (exHeap 0) (exHeap 1) = .ok true := by
      unfold npNeAny
      rw [if_pos (show (exHeap 0).length = (exHeap 1).length from rfl)]
      congr 1
      rw [decide_eq_true_eq]
      intro h
      have h' : ([1] : List ℝ) = [-2] := h
      rw [List.cons.injEq] at h'
      norm_num at h'
    have hch : LmeCache.changed exHeap ⟨some (exCache 1), some 0,
        (exCache 1).2.map (cacheEntry (vecOf (exHeap 0) rfl))⟩ 1 = .ok true := by
      unfold LmeCache.changed
      simp only [e]
      rfl
    unfold LmeCache.recalculate
    rw [hch]
    simp only [hloop]
  rw [h1]
  simp only [CacheOp.run, hmid]
  rw [recalculate_same rfl (by simp [exHeap])]
  refine ⟨trivial, rfl, rfl, fun h => ?_, rfl⟩
  obtain ⟨h1, h2⟩ := h
  cases h2

/-- The loop stops at the first group whose matrix has no Cholesky factor and keeps the factors computed so far. -/
theorem cacheLoop_fail (gamma : List ℝ) (h : gamma.length = q) (D : List (LmeGroup p q)) (acc : List CacheFactor) (hd : ¬ InDomain D (vecOf gamma h)) :
    ∃ pre g post, D = pre ++ g :: post ∧ InDomain pre (vecOf gamma h) ∧ ¬ (margCov g (vecOf gamma h)).PosDef ∧
      cacheLoop gamma D acc = (.error .linAlgError, acc ++ pre.map (cacheEntry (vecOf gamma h))) := by
  induction D generalizing acc with
  | nil => exact absurd (fun g hg => absurd hg List.not_mem_nil) hd
  | cons g D ih =>
    rw [cacheLoop, cacheOmega_eq g gamma h]
    by_cases h1 : (margCov g (vecOf gamma h)).PosDef
    · have e : npCholesky (lmeOmega g (vecOf gamma h)) = .ok (cholFactor (lmeOmega g (vecOf gamma h))) :=
        npCholesky_ok.2 ⟨by rwa [lmeOmega_eq], rfl⟩
      have e2 : (do npCholesky (← (Except.ok (lmeOmega g (vecOf gamma h)) : Except PyErr _)))
          = Except.ok (cholFactor (lmeOmega g (vecOf gamma h))) := e
      rw [e2]
      obtain ⟨pre, g', post, rfl, hpre, hg', he⟩ := ih (acc ++ [cacheEntry (vecOf gamma h) g]) fun hD => hd fun g' hg' => by
        rcases List.mem_cons.1 hg' with rfl | hg'
        · exact h1
        · exact hD g' hg'
      refine ⟨g :: pre, g', post, rfl, fun k hk => ?_, hg', ?_⟩
      · rcases List.mem_cons.1 hk with rfl | hk
        · exact h1
        · exact hpre k hk
      · rw [List.map_cons]
        rw [← List.append_cons] at he
        exact he
    · refine ⟨[], g, D, rfl, fun g hg => absurd hg List.not_mem_nil, h1, ?_⟩
      have e : npCholesky (lmeOmega g (vecOf gamma h)) = .error .linAlgError := by
        unfold npCholesky
        rw [if_neg (by rwa [exists_isCholesky_iff, lmeOmega_eq])]
      have e2 : (do npCholesky (← (Except.ok (lmeOmega g (vecOf gamma h)) : Except PyErr _)))
          = Except.error .linAlgError := e
      rw [e2]
      simp

/-- **C60**, the state after an exception: an evaluation outside the domain raises `LinAlgError` and leaves the factors of the groups before the first one that fails, at the new array, while the reference to
the array of the last success is kept; the next evaluation at that array (nonempty) returns without recomputing anything, so it uses the factors of the wrong array for the first groups and ignores the rest. -/
theorem C60_after_exception (heap : ℕ → List ℝ) (s : LmeCache) (D : CacheProblem) (hD : s.problem = some D) (r r0 : ℕ) (hr0 : s.gamma = some r0) (hne : heap r0 ≠ []) (hr : heap r0 ≠ heap r)
    (hlen0 : (heap r0).length = D.1.2) (h : (heap r).length = D.1.2) (hd : ¬ InDomain D.2 (vecOf (heap r) h)) :
    ∃ pre g post, D.2 = pre ++ g :: post ∧ ¬ (margCov g (vecOf (heap r) h)).PosDef ∧ (s.recalculate heap r).1 = .error .linAlgError ∧
      FactorsRight ⟨D.1, pre⟩ (heap r) (s.recalculate heap r).2.factors ∧ (s.recalculate heap r).2.problem = some D ∧
      (s.recalculate heap r).2.recalculate heap r0 = (.ok (), (s.recalculate heap r).2) := by
  obtain ⟨pre, g, post, hD2, hpre, hg, he⟩ := cacheLoop_fail (heap r) h D.2 [] hd
  have hch : s.changed heap r = .ok true := by
    unfold LmeCache.changed
    rw [hr0]
    have e : npNeAny (heap r0) (heap r) = .ok true := by
      unfold npNeAny
      rw [if_pos (hlen0.trans h.symm)]
      congr 1
      rw [decide_eq_true_eq]
      exact hr
    simp only [e]
    rfl
  have hre : s.recalculate heap r = (.error .linAlgError, { s with factors := pre.map (cacheEntry (vecOf (heap r) h)) }) := by
    unfold LmeCache.recalculate
    rw [hch, hD]
    simp only [he, List.nil_append]
  refine ⟨pre, g, post, hD2, hg, by rw [hre], ?_, by rw [hre]; exact hD, ?_⟩
  · rw [hre]
    exact factorsRight_entries (D := ⟨D.1, pre⟩) h hpre
  · rw [hre]
    exact recalculate_same hr0 hne

/-- Two groups with one observation each and the variances `3` and `1`: at `[-2]` the first covariance is `1`, the second `-1`. After the exception the factor of the first group at `[-2]` is kept. -/
example : ∃ f, ((CacheOp.eval 1).run (exHeap, ⟨some ⟨(0, 1), [⟨1, 0, ![0], !![1], ![3]⟩, ⟨1, 0, ![0], !![1], ![1]⟩]⟩, some 0, []⟩)).2.2.factors = [f] ∧
    FactorsRight (exCache 3) [-2] [f] := by
  have hnd : ¬ InDomain (p := 0) (q := 1) [⟨1, 0, ![0], !![1], ![3]⟩, ⟨1, 0, ![0], !![1], ![1]⟩] (vecOf (exHeap 1) rfl) := fun hd => by
    have h1 := hd ⟨1, 0, ![0], !![1], ![1]⟩ (by simp)
    rw [exCache_cov, posDef_one_iff] at h1
    have h2 : (0 : ℝ) < -2 + 1 := h1
    norm_num at h2
  obtain ⟨pre, g, post, hD, hg, -, hF, -⟩ := C60_after_exception exHeap ⟨some ⟨(0, 1), [⟨1, 0, ![0], !![1], ![3]⟩, ⟨1, 0, ![0], !![1], ![1]⟩]⟩, some 0, []⟩ _ rfl 1 0 rfl (by simp [exHeap])
    (by
      intro h
      have h' : ([1] : List ℝ) = [-2] := h
      rw [List.cons.injEq] at h'
      norm_num at h') rfl rfl hnd
  have hpre : pre = [⟨1, 0, ![0], !![1], ![3]⟩] := by
    cases pre with
    | nil =>
      obtain ⟨h1, -⟩ := List.cons.inj hD
      rw [← h1] at hg
      refine absurd ?_ hg
      have := (exCache_domain 3 (vecOf (exHeap 1) rfl)).2 (by change (0 : ℝ) < -2 + 3; norm_num)
      exact this _ (List.mem_singleton_self _)
    | cons a pre =>
      obtain ⟨h1, h2⟩ := List.cons.inj hD
      cases pre with
      | nil => rw [h1]
      | cons b pre =>
        obtain ⟨-, h3⟩ := List.cons.inj h2
        cases pre <;> cases h3
  rw [hpre] at hF
  obtain ⟨h1, h2⟩ := hF
  cases hf : (LmeCache.recalculate exHeap ⟨some ⟨(0, 1), [⟨1, 0, ![0], !![1], ![3]⟩, ⟨1, 0, ![0], !![1], ![1]⟩]⟩, some 0, []⟩ 1).2.factors with
  | nil => rw [hf] at h2; cases h2
  | cons f fs =>
    rw [hf] at h2
    obtain ⟨h3, h4⟩ := List.forall₂_cons.1 h2
    cases h4
    exact ⟨f, hf, h1, List.forall₂_cons.2 ⟨h3, .nil⟩⟩

end Verif
