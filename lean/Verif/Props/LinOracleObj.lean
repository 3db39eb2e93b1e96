import Verif.Model.LinOracleObj
import Verif.Props.Linear
import Mathlib.LinearAlgebra.Matrix.PosDef
import Mathlib.Analysis.Matrix.PosDef

/-!
# Linear oracle objects and the problem attached to them (C141)
-/

namespace Verif

open Matrix

/-! ## Plain oracles -/

theorem LinOracleObj.run_append (o : LinOracleObj) (ops : List OracleOp) (op : OracleOp) : o.run (ops ++ [op]) = (o.run ops).step op := by
  unfold LinOracleObj.run
  rw [List.foldl_append]
  rfl

theorem LinOracleObj.run_prior (o : LinOracleObj) (ops : List OracleOp) : (o.run ops).prior = o.prior := by
  induction ops using List.reverseRecOn with
  | nil => rfl
  | append_singleton ops op ih =>
    rw [o.run_append]
    cases op with
    | instantiate P => exact ih
    | forget => exact ih

/-- **C141 (plain oracles)**: whatever was done with the oracle before, after `instantiate(P)` (which never raises without a prior) its loss and gradient are those of `P`, with `ValueError` for points of
another length; after `forget` every evaluation raises `AttributeError`; an oracle constructed with its problem evaluates the same way. With a Gaussian prior no evaluation ever returns. -/
theorem C141_plain (o : LinOracleObj) (ops : List OracleOp) (P : LinProblem ℝ) :
    (o.prior = .none → ((o.run ops).instantiate P).1 = .ok () ∧
      ∀ o', (o' = o.run (ops ++ [.instantiate P]) ∨ o' = LinOracleObj.init (some P) .none) →
        (∀ x : Vec ℝ P.n, o'.loss ⟨P.n, x⟩ = .ok (1 / 2 * ∑ i, (∑ j, P.a i j * x j - P.b i) ^ 2) ∧
          o'.gradient ⟨P.n, x⟩ = .ok ⟨P.n, fun k => ∑ i, P.a i k * (∑ j, P.a i j * x j - P.b i)⟩) ∧
        ∀ x : SomeVec, x.1 ≠ P.n → o'.loss x = .error .valueError ∧ o'.gradient x = .error .valueError) ∧
    (∀ x, (o.run (ops ++ [.forget])).loss x = .error .attributeError ∧ (o.run (ops ++ [.forget])).gradient x = .error .attributeError) ∧
    (∀ params, o.prior = .gaussian params → ∀ (x : SomeVec), (∃ e, (o.run ops).loss x = .error e) ∧ ∃ e, (o.run ops).gradient x = .error e) := by
  refine ⟨fun hp => ⟨?_, fun o' ho' => ?_⟩, fun x => ?_, fun params hp x => ?_⟩
  · unfold LinOracleObj.instantiate
    rw [o.run_prior, hp]
    rfl
  · have h1 : o'.problem = some P ∧ o'.prior = .none := by
      rcases ho' with rfl | rfl
      · rw [o.run_append]
        exact ⟨rfl, (o.run_prior ops).trans hp⟩
      · exact ⟨rfl, rfl⟩
    obtain ⟨q, r⟩ := o'
    obtain ⟨rfl, rfl⟩ := h1
    refine ⟨fun x => ?_, fun x hx => ?_⟩
    · unfold LinOracleObj.loss LinOracleObj.gradient LinOracleObj.eval
      simp only [dif_pos]
      constructor
      · simp [linLoss, InstPrior.loss, normSq, mulVec, dotProduct]
      · congr 2
        funext k
        simp [linGradient, InstPrior.gradient, mulVec, dotProduct]
    · unfold LinOracleObj.loss LinOracleObj.gradient LinOracleObj.eval
      simp only [dif_neg hx, and_self]
  · rw [o.run_append]
    exact ⟨rfl, rfl⟩
  · have h := (o.run_prior ops).trans hp
    generalize o.run ops = o' at h
    obtain ⟨q, r⟩ := o'
    obtain rfl : r = _ := h
    have key : ∀ {α : Type} (f : (P : LinProblem ℝ) → Vec ℝ P.n → α), ∃ e, LinOracleObj.eval ⟨q, .gaussian params⟩ x f = .error e := by
      intro α f
      unfold LinOracleObj.eval
      cases q with
      | none => exact ⟨_, rfl⟩
      | some P =>
        simp only
        split_ifs
        · exact ⟨_, rfl⟩
        · exact ⟨_, rfl⟩
    exact ⟨key _, key _⟩

/-- Non-vacuity: an oracle that was used with another problem. -/
example (P Q : LinProblem ℝ) (x : Vec ℝ P.n) :
    ((LinOracleObj.init (some Q) .none).run ([.instantiate Q, .forget] ++ [.instantiate P])).loss ⟨P.n, x⟩ = .ok (1 / 2 * ∑ i, (∑ j, P.a i j * x j - P.b i) ^ 2) :=
  ((((C141_plain (.init (some Q) .none) [.instantiate Q, .forget] P).1 rfl).2 _ (.inl rfl)).1 x).1

/-! ## SR3 oracles -/

theorem Sr3OracleObj.run_append (o : Sr3OracleObj) (ops : List OracleOp) (op : OracleOp) : o.run (ops ++ [op]) = (o.run ops).step op := by
  unfold Sr3OracleObj.run
  rw [List.foldl_append]
  rfl

theorem Sr3OracleObj.step_fixed (o : Sr3OracleObj) (op : OracleOp) : (o.step op).lam = o.lam ∧ (o.step op).practical = o.practical := by
  cases op with
  | instantiate P =>
    unfold Sr3OracleObj.step Sr3OracleObj.instantiate
    simp only
    split_ifs <;> exact ⟨rfl, rfl⟩
  | forget => exact ⟨rfl, rfl⟩

theorem Sr3OracleObj.run_fixed (o : Sr3OracleObj) (ops : List OracleOp) : (o.run ops).lam = o.lam ∧ (o.run ops).practical = o.practical := by
  induction ops using List.reverseRecOn with
  | nil => exact ⟨rfl, rfl⟩
  | append_singleton ops op ih =>
    rw [o.run_append]
    have := (o.run ops).step_fixed op
    exact ⟨this.1.trans ih.1, this.2.trans ih.2⟩

theorem sr3H_det_ne {m n : ℕ} (A : Matrix (Fin m) (Fin n) ℝ) {lam : ℝ} (hlam : 0 < lam) : (sr3H A 1 lam).det ≠ 0 := by
  have h : (sr3H A 1 lam).PosDef := by
    unfold sr3H
    rw [one_mul]
    have h1 : (Aᵀ * A).PosSemidef := by
      rw [← conjTranspose_eq_transpose_of_trivial]
      exact posSemidef_conjTranspose_mul_self A
    exact PosDef.posSemidef_add h1 (PosDef.one.smul hlam)
  exact h.det_pos.ne'

/-- An oracle after a successful `instantiate(P)`. -/
theorem sr3_attached (lam : ℝ) (practical : Bool) (P : LinProblem ℝ) (o : Sr3OracleObj) (ho : o = ⟨lam, practical, some P, some (.of lam practical P)⟩) :
    (∀ x w : Vec ℝ P.n, o.loss ⟨P.n, x⟩ ⟨P.n, w⟩ = .ok (sr3Loss P.a P.b P.c lam x w)) ∧
    (∀ x : SomeVec, ∀ w, x.1 ≠ P.n → o.loss x w = .error .valueError) ∧
    (practical = false → 0 ≤ lam → (∀ w : Vec ℝ P.n, o.valueFunction ⟨P.n, w⟩ = .ok (sr3Value P.a P.b P.c lam w) ∧ o.gradientValueFunction ⟨P.n, w⟩ = .ok ⟨P.n, sr3Gradient P.a P.b P.c lam w⟩) ∧
      ∀ w : SomeVec, w.1 ≠ P.n → o.valueFunction w = .error .valueError ∧ o.gradientValueFunction w = .error .valueError) ∧
    ∀ x : Vec ℝ P.n, o.aic ⟨P.n, x⟩ = .ok (sr3Aic P.a P.b x) ∧ o.bic ⟨P.n, x⟩ = .ok (sr3Bic P.a P.b x) := by
  subst ho
  refine ⟨fun x w => ?_, fun x w hx => ?_, fun hp hl => ⟨fun w => ?_, fun w hw => ?_⟩, fun x => ?_⟩
  · unfold Sr3OracleObj.loss normSqDiff
    simp only [dif_pos]
    rfl
  · unfold Sr3OracleObj.loss
    simp only [dif_neg hx]
  · subst hp
    unfold Sr3OracleObj.valueFunction Sr3OracleObj.gradientValueFunction Sr3Cache.of
    simp only [Bool.false_eq_true, if_false, dif_pos, not_lt.2 hl, false_and]
    exact ⟨rfl, rfl⟩
  · subst hp
    have hw' : w.1 ≠ (Sr3Cache.of lam false P).n := hw
    unfold Sr3OracleObj.valueFunction Sr3OracleObj.gradientValueFunction
    simp only [Bool.false_eq_true, if_false]
    have : (Sr3Cache.of lam false P).fg = some (sr3F P.a P.c lam, sr3G P.a P.c lam *ᵥ P.b) := rfl
    rw [this]
    simp only [dif_neg hw', and_self]
  · unfold Sr3OracleObj.aic Sr3OracleObj.bic LinOracleObj.loss LinOracleObj.eval LinOracleObj.init
    simp only [dif_pos]
    exact ⟨rfl, rfl⟩

theorem Sr3OracleObj.instantiate_ok (o : Sr3OracleObj) (hlam : 0 < o.lam) (P : LinProblem ℝ) (hc : P.c = 1) :
    o.instantiate P = (.ok (), ⟨o.lam, o.practical, some P, some (.of o.lam o.practical P)⟩) := by
  unfold Sr3OracleObj.instantiate
  rw [hc, if_neg (sr3H_det_ne P.a hlam)]

/-- The value function of an attached oracle is the minimum of its loss. -/
theorem sr3_attached_min (lam : ℝ) (hlam : 0 < lam) (P : LinProblem ℝ) (hc : P.c = 1) (o : Sr3OracleObj) (ho : o = ⟨lam, false, some P, some (.of lam false P)⟩) (w : Vec ℝ P.n) :
    ∃ v, o.valueFunction ⟨P.n, w⟩ = .ok v ∧ IsLeast {l | ∃ x, o.loss x ⟨P.n, w⟩ = .ok l} v := by
  obtain ⟨h1, h2, h3, -⟩ := sr3_attached lam false P o ho
  refine ⟨_, ((h3 rfl hlam.le).1 w).1, ?_, ?_⟩
  · refine ⟨⟨P.n, (P.aᵀ * P.a + lam • 1)⁻¹ *ᵥ (P.aᵀ *ᵥ P.b + lam • w)⟩, ?_⟩
    rw [h1, hc, sr3Loss_eq_relaxed, ((C32_value_is_partial_min P.a P.b lam hlam w).2 _).2 rfl]
  · rintro l ⟨⟨k, x⟩, hx⟩
    by_cases hk : k = P.n
    · subst hk
      rw [h1, hc, sr3Loss_eq_relaxed] at hx
      rw [hc, ← Except.ok.inj hx]
      exact (C32_value_is_partial_min P.a P.b lam hlam w).1 x
    · rw [h2 ⟨k, x⟩ _ hk] at hx
      cases hx

/-- **C141 (SR3 oracles), partial**: let `lam > 0` and let the problems have `c = I` (what their constructor gives). Whatever was done with the oracle before, `instantiate(P)` succeeds and from then on
the loss is the relaxed objective of `P`, the value function its minimum over `x`, AIC and BIC those of `P`; after `forget` every evaluation raises `AttributeError` (`AssertionError` for the value
function of a practical oracle). At every moment of every history, whenever the value function returns a number, it is the minimum of the same object's loss.

Missing: problems with another `c` or `lam = 0`, for which the claim is false (`C141_stale_violated`), and oracles whose problem was given to the constructor (`C141_ctor_violated`). -/
theorem C141_sr3_partial (o : Sr3OracleObj) (hlam : 0 < o.lam) (ops : List OracleOp) :
    (∀ P : LinProblem ℝ, P.c = 1 → ((o.run ops).instantiate P).1 = .ok () ∧
      let o' := o.run (ops ++ [.instantiate P])
      (∀ x w : Vec ℝ P.n, o'.loss ⟨P.n, x⟩ ⟨P.n, w⟩ = .ok ((∑ i, (∑ j, P.a i j * x j - P.b i) ^ 2) / 2 + o.lam * (∑ j, (x j - w j) ^ 2) / 2)) ∧
      (o.practical = false → ∀ w : Vec ℝ P.n, ∃ v, o'.valueFunction ⟨P.n, w⟩ = .ok v ∧ IsLeast {l | ∃ x, o'.loss x ⟨P.n, w⟩ = .ok l} v) ∧
      (o.practical = true → ∀ w, o'.valueFunction w = .error .assertionError ∧ o'.gradientValueFunction w = .error .assertionError) ∧
      ∀ x : Vec ℝ P.n, o'.aic ⟨P.n, x⟩ = .ok ((∑ i, (∑ j, P.a i j * x j - P.b i) ^ 2) / 2 + 2 * ((Finset.univ.filter fun j => x j ≠ 0).card : ℝ)) ∧
        o'.bic ⟨P.n, x⟩ = .ok ((∑ i, (∑ j, P.a i j * x j - P.b i) ^ 2) / 2 + Real.log P.m * ((Finset.univ.filter fun j => x j ≠ 0).card : ℝ))) ∧
    (let o' := o.run (ops ++ [.forget])
      ∀ x w, o'.loss x w = .error .attributeError ∧ o'.aic x = .error .attributeError ∧ o'.bic x = .error .attributeError ∧
        o'.valueFunction w = .error (if o.practical then .assertionError else .attributeError) ∧
        o'.gradientValueFunction w = .error (if o.practical then .assertionError else .attributeError)) ∧
    (o.cache = none → (∀ P, OracleOp.instantiate P ∈ ops → P.c = 1) → ∀ w v, (o.run ops).valueFunction w = .ok v → IsLeast {l | ∃ x, (o.run ops).loss x w = .ok l} v) := by
  have hrun := o.run_fixed ops
  refine ⟨fun P hc => ?_, ?_, fun hcache hops w v hv => ?_⟩
  · have hi := (o.run ops).instantiate_ok (hrun.1 ▸ hlam) P hc
    rw [hrun.1, hrun.2] at hi
    refine ⟨by rw [hi], ?_⟩
    intro o'
    have ho' : o' = ⟨o.lam, o.practical, some P, some (.of o.lam o.practical P)⟩ := by
      change o.run (ops ++ [.instantiate P]) = _
      rw [o.run_append]
      change ((o.run ops).instantiate P).2 = _
      rw [hi]
    obtain ⟨h1, h2, h3, h4⟩ := sr3_attached o.lam o.practical P o' ho'
    refine ⟨fun x w => ?_, fun hp w => ?_, fun hp w => ?_, fun x => ?_⟩
    · rw [h1, hc, sr3Loss_eq_relaxed]
      rfl
    · rw [hp] at ho'
      exact sr3_attached_min o.lam hlam P hc o' ho' w
    · rw [ho', hp]
      exact ⟨rfl, rfl⟩
    · have hl : linLoss P.a P.b .nonInformative x = (∑ i, (∑ j, P.a i j * x j - P.b i) ^ 2) / 2 := by
        simp [linLoss, InstPrior.loss, normSq, mulVec, dotProduct]
        ring
      rw [(h4 x).1, (h4 x).2]
      unfold sr3Aic sr3Bic
      have hn : nnzCount x = (Finset.univ.filter fun j => x j ≠ 0).card := Fintype.card_subtype _
      rw [hl, hn]
      exact ⟨rfl, rfl⟩
  · intro o' x w
    have ho' : o' = ⟨o.lam, o.practical, none, none⟩ := by
      change o.run (ops ++ [.forget]) = _
      rw [o.run_append]
      change (o.run ops).forget = _
      unfold Sr3OracleObj.forget
      rw [hrun.1, hrun.2]
    rw [ho']
    cases o.practical <;> exact ⟨rfl, rfl, rfl, rfl, rfl⟩
  · have hinv : (o.run ops).cache = none ∨ ∃ P, P.c = 1 ∧ o.run ops = ⟨o.lam, o.practical, some P, some (.of o.lam o.practical P)⟩ := by
      clear hv v w hrun
      induction ops using List.reverseRecOn with
      | nil => exact .inl hcache
      | append_singleton ops op ih =>
        rw [o.run_append]
        have hrun := o.run_fixed ops
        cases op with
        | instantiate P =>
          have hc := hops P (by simp)
          have hi := (o.run ops).instantiate_ok (hrun.1 ▸ hlam) P hc
          rw [hrun.1, hrun.2] at hi
          refine .inr ⟨P, hc, ?_⟩
          change ((o.run ops).instantiate P).2 = _
          rw [hi]
        | forget => exact .inl rfl
    rcases hinv with h | ⟨P, hc, h⟩
    · unfold Sr3OracleObj.valueFunction at hv
      rw [h] at hv
      split_ifs at hv <;> cases hv
    · cases hp : o.practical with
      | true =>
        rw [h, hp] at hv
        cases hv
      | false =>
        rw [hp] at h
        obtain ⟨k, w⟩ := w
        by_cases hk : k = P.n
        · subst hk
          obtain ⟨v', hv', hl⟩ := sr3_attached_min o.lam hlam P hc _ h w
          rw [hv'] at hv
          rw [← Except.ok.inj hv]
          exact hl
        · rw [((sr3_attached o.lam false P _ h).2.2.1 rfl hlam.le).2 ⟨k, w⟩ hk |>.1] at hv
          cases hv

/-- A one-feature problem (used in the examples). -/
abbrev oneFeatC (a b c : ℝ) : LinProblem ℝ := { m := 1, n := 1, a := fun _ _ => a, b := fun _ => b, c := fun _ _ => c, regWeights := none, obsStd := .scalar 1 }

theorem oneFeatC_c (a b : ℝ) : (oneFeatC a b 1).c = 1 := by
  have : ∀ i j : Fin 1, (1 : ℝ) = (1 : Matrix (Fin 1) (Fin 1) ℝ) i j := by
    intro i j
    rw [Subsingleton.elim i j, Matrix.one_apply_eq]
  funext i j
  exact this i j

/-- Non-vacuity: an oracle constructed with a problem, reused for another one, and used after that. -/
example : ∃ v, ((Sr3OracleObj.init (some (oneFeatC 3 1 1)) 2 false).run ([.instantiate (oneFeatC 3 1 1), .forget] ++ [.instantiate (oneFeatC 1 4 1)])).valueFunction ⟨1, fun _ => 7⟩ = .ok v :=
  (((C141_sr3_partial (.init (some (oneFeatC 3 1 1)) 2 false) (by norm_num [Sr3OracleObj.init]) [.instantiate (oneFeatC 3 1 1), .forget]).1 _ (oneFeatC_c 1 4)).2.2.1 rfl (fun _ => 7)).imp
    fun _ h => h.1

/-- **C141 fails for an oracle whose `instantiate` raised**: for every oracle and every problem whose matrix `h_matrix` is singular the call raises `LinAlgError`, after which the loss is that of the new
problem but the value function and its gradient are still those of the problem before; for every `lam > 0` there are problems and a point where the number returned by the value function is below every
value of the object's loss. -/
theorem C141_stale_violated :
    (∀ (o : Sr3OracleObj) (P : LinProblem ℝ), (P.aᵀ * P.a + o.lam • (P.c * P.c)).det = 0 →
      (o.instantiate P).1 = .error .linAlgError ∧ (∀ w, (o.instantiate P).2.valueFunction w = o.valueFunction w ∧ (o.instantiate P).2.gradientValueFunction w = o.gradientValueFunction w) ∧
      ∀ x w : Vec ℝ P.n, (o.instantiate P).2.loss ⟨P.n, x⟩ ⟨P.n, w⟩ = .ok (1 / 2 * normSq (P.a *ᵥ x - P.b) + o.lam / 2 * normSq (P.c *ᵥ x - w))) ∧
    ∀ lam > 0, ∃ (P Q : LinProblem ℝ) (w : SomeVec), P.c = 1 ∧ ((Sr3OracleObj.init none lam false).instantiate P).1 = .ok () ∧
      let o' := (Sr3OracleObj.init none lam false).run [.instantiate P, .instantiate Q]
      o'.valueFunction w = .ok 0 ∧ (∃ x l, o'.loss x w = .ok l) ∧ ∀ x l, o'.loss x w = .ok l → l = 50 := by
  have key : ∀ (o : Sr3OracleObj) (P : LinProblem ℝ), (P.aᵀ * P.a + o.lam • (P.c * P.c)).det = 0 → o.instantiate P = (.error .linAlgError, { o with problem := some P }) := by
    intro o P h
    unfold Sr3OracleObj.instantiate sr3H
    rw [if_pos h]
  refine ⟨fun o P h => ?_, fun lam hlam => ?_⟩
  · rw [key o P h]
    refine ⟨rfl, fun w => ⟨rfl, rfl⟩, fun x w => ?_⟩
    unfold Sr3OracleObj.loss normSqDiff
    simp only [dif_pos]
    rfl
  · have hi := (Sr3OracleObj.init none lam false).instantiate_ok hlam _ (oneFeatC_c 1 0)
    have hdet : ((oneFeatC 0 10 0).aᵀ * (oneFeatC 0 10 0).a + lam • ((oneFeatC 0 10 0).c * (oneFeatC 0 10 0).c)).det = 0 := by
      have : ((oneFeatC 0 10 0).aᵀ * (oneFeatC 0 10 0).a + lam • ((oneFeatC 0 10 0).c * (oneFeatC 0 10 0).c)) = 0 := by
        change (0 : Matrix (Fin 1) (Fin 1) ℝ)ᵀ * (0 : Matrix (Fin 1) (Fin 1) ℝ) + lam • ((0 : Matrix (Fin 1) (Fin 1) ℝ) * (0 : Matrix (Fin 1) (Fin 1) ℝ)) = 0
        rw [mul_zero, mul_zero, smul_zero, add_zero]
      rw [this]
      exact Matrix.det_zero (n := Fin 1)
    have hrun : (Sr3OracleObj.init none lam false).run [.instantiate (oneFeatC 1 0 1), .instantiate (oneFeatC 0 10 0)] =
        ⟨lam, false, some (oneFeatC 0 10 0), some (.of lam false (oneFeatC 1 0 1))⟩ := by
      change (((Sr3OracleObj.init none lam false).instantiate (oneFeatC 1 0 1)).2.instantiate (oneFeatC 0 10 0)).2 = _
      rw [hi, key _ _ hdet]
      rfl
    refine ⟨oneFeatC 1 0 1, oneFeatC 0 10 0, ⟨1, fun _ => 0⟩, oneFeatC_c 1 0, by rw [hi], ?_⟩
    rw [hrun]
    have hloss : ∀ x : Vec ℝ 1, Sr3OracleObj.loss ⟨lam, false, some (oneFeatC 0 10 0), some (.of lam false (oneFeatC 1 0 1))⟩ ⟨1, x⟩ ⟨1, fun _ => 0⟩ = .ok 50 := by
      intro x
      have : Sr3OracleObj.loss ⟨lam, false, some (oneFeatC 0 10 0), some (.of lam false (oneFeatC 1 0 1))⟩ ⟨1, x⟩ ⟨1, fun _ => 0⟩ =
          .ok (sr3Loss (oneFeatC 0 10 0).a (oneFeatC 0 10 0).b (oneFeatC 0 10 0).c lam x (fun _ => 0)) := by
        unfold Sr3OracleObj.loss normSqDiff
        simp only [dif_pos]
        rfl
      rw [this]
      congr 1
      simp [sr3Loss, normSq, mulVec, dotProduct]
      norm_num
    refine ⟨?_, ⟨⟨1, fun _ => 0⟩, 50, hloss _⟩, fun x l hx => ?_⟩
    · have : Sr3OracleObj.valueFunction ⟨lam, false, some (oneFeatC 0 10 0), some (.of lam false (oneFeatC 1 0 1))⟩ ⟨1, fun _ => 0⟩ =
          .ok (sr3Value (oneFeatC 1 0 1).a (oneFeatC 1 0 1).b (oneFeatC 1 0 1).c lam (fun _ => 0)) :=
        (((sr3_attached lam false (oneFeatC 1 0 1) _ rfl).2.2.1 rfl hlam.le).1 (fun _ => 0)).1
      rw [this]
      congr 1
      have h0 : (fun _ => 0 : Vec ℝ 1) = 0 := rfl
      unfold sr3Value oneFeatC
      simp only
      rw [h0, mulVec_zero, mulVec_zero, sub_zero]
      simp [normSq]
    · obtain ⟨k, x⟩ := x
      by_cases hk : k = 1
      · subst hk
        rw [hloss] at hx
        exact (Except.ok.inj hx).symm
      · unfold Sr3OracleObj.loss at hx
        simp only [dif_neg hk] at hx
        cases hx

/-- **C141 fails for oracles constructed with their problem**: `LinearOracleSR3(problem)` evaluates the loss of the problem, but its value function and gradient raise `AttributeError`. -/
theorem C141_ctor_violated (lam : ℝ) (P : LinProblem ℝ) (x w : Vec ℝ P.n) :
    (Sr3OracleObj.init (some P) lam false).loss ⟨P.n, x⟩ ⟨P.n, w⟩ = .ok (1 / 2 * normSq (P.a *ᵥ x - P.b) + lam / 2 * normSq (P.c *ᵥ x - w)) ∧
    (Sr3OracleObj.init (some P) lam false).valueFunction ⟨P.n, w⟩ = .error .attributeError ∧ (Sr3OracleObj.init (some P) lam false).gradientValueFunction ⟨P.n, w⟩ = .error .attributeError := by
  refine ⟨?_, rfl, rfl⟩
  unfold Sr3OracleObj.loss Sr3OracleObj.init normSqDiff
  simp only [dif_pos]
  rfl

/-- Non-vacuity: a problem with one feature. -/
example : (Sr3OracleObj.init (some (oneFeatC 2 1 1)) 1 false).valueFunction ⟨1, fun _ => 3⟩ = .error .attributeError :=
  (C141_ctor_violated 1 (oneFeatC 2 1 1) (fun _ => 0) (fun _ => 3)).2.1

end Verif
