import Verif.Model.Floats
import Mathlib.Analysis.SpecialFunctions.Sqrt
import Mathlib.Tactic.GCongr
import Mathlib.Algebra.Order.Floor.Ring

/-!
# The solver's report in floating-point arithmetic (C130)
-/

namespace Verif

namespace FArith

variable (A : FArith)

theorem rnd_zero : A.rnd 0 = 0 := by
  have := A.odd 0
  simp only [neg_zero] at this
  linarith

theorem rnd_nonneg {r : ℝ} (h : 0 ≤ r) : 0 ≤ A.rnd r := by
  have := A.mono h
  rwa [A.rnd_zero] at this

theorem abs_rnd (r : ℝ) : |A.rnd r| = A.rnd |r| := by
  rcases le_total 0 r with h | h
  · rw [abs_of_nonneg h, abs_of_nonneg (A.rnd_nonneg h)]
  · have h1 := A.rnd_nonneg (neg_nonneg.2 h)
    rw [A.odd] at h1
    rw [abs_of_nonpos h, abs_of_nonpos (by linarith), A.odd]

theorem ofReal_neg (r : ℝ) : A.ofReal (-r) = (A.ofReal r).neg := by
  unfold ofReal
  rw [A.odd, abs_neg]
  by_cases h : ((|A.rnd r| : ℝ) : WithTop ℝ) ≤ A.big
  · rw [if_pos h, if_pos h]; rfl
  rw [if_neg h, if_neg h]
  have h0 : A.rnd r ≠ 0 := by
    intro h0
    apply h
    rw [h0, abs_zero]
    exact le_trans (WithTop.coe_le_coe.2 zero_le_one) A.one_le_big
  rcases lt_or_gt_of_ne h0 with h1 | h1
  · rw [if_pos (by linarith), if_neg (by linarith)]; rfl
  · rw [if_neg (by linarith), if_pos h1]; rfl

end FArith

theorem Flt.neg_fin (r : ℝ) : (Flt.fin r).neg = .fin (-r) := rfl
theorem Flt.neg_pinf : Flt.pinf.neg = .ninf := rfl
theorem Flt.neg_ninf : Flt.ninf.neg = .pinf := rfl
theorem Flt.neg_nan : Flt.nan.neg = .nan := rfl

theorem Flt.neg_neg (v : Flt) : v.neg.neg = v := by
  cases v <;> simp [Flt.neg]

namespace FArith

variable (A : FArith)

theorem add_neg_neg (v w : Flt) : A.add v.neg w.neg = (A.add v w).neg := by
  cases v <;> cases w <;> simp [Flt.neg_fin, Flt.neg_pinf, Flt.neg_ninf, Flt.neg_nan, add, ← ofReal_neg, neg_add, add_comm]

theorem infTimes_neg (r : ℝ) : infTimes (-r) = (infTimes r).neg := by
  unfold infTimes
  rcases lt_trichotomy r 0 with h | h | h
  · rw [if_pos (by linarith), if_neg (by linarith), if_pos h]; rfl
  · subst h; simp [Flt.neg]
  · rw [if_neg (by linarith), if_pos (by linarith), if_pos h]; rfl

theorem mul_neg' (v w : Flt) : A.mul v w.neg = (A.mul v w).neg := by
  cases v <;> cases w <;> simp [Flt.neg_fin, Flt.neg_pinf, Flt.neg_ninf, Flt.neg_nan, mul, ← ofReal_neg, infTimes_neg, Flt.neg_neg]

theorem mul_neg_neg (v w : Flt) : A.mul v.neg w.neg = A.mul v w := by
  cases v <;> cases w <;> simp [Flt.neg_fin, Flt.neg_pinf, Flt.neg_ninf, Flt.neg_nan, mul, infTimes_neg, Flt.neg_neg]

/-- At least `c`, or infinite. -/
def Up (c : ℝ) (v : Flt) : Prop := v = .pinf ∨ ∃ s, c ≤ s ∧ v = .fin s

theorem up_mono {c d : ℝ} {v : Flt} (h : Up d v) (hcd : c ≤ d) : Up c v := by
  rcases h with h | ⟨s, hs, h⟩
  · exact .inl h
  · exact .inr ⟨s, hcd.trans hs, h⟩

theorem up_ofReal {c r : ℝ} (hc : 1 ≤ c) (h : c ≤ r) : Up (99 / 100 * c) (A.ofReal r) := by
  have hr := A.rel r (by rw [abs_of_pos (by linarith)]; norm_num at *; linarith)
  rw [abs_of_pos (show 0 < r by linarith), abs_le] at hr
  unfold ofReal
  by_cases h1 : ((|A.rnd r| : ℝ) : WithTop ℝ) ≤ A.big
  · rw [if_pos h1]
    exact .inr ⟨_, by linarith [hr.1], rfl⟩
  · rw [if_neg h1, if_pos (by linarith [hr.1])]
    exact .inl rfl

theorem up_mul {k c : ℝ} {v : Flt} (hk : 0 < k) (hc : 1 ≤ k * c) (h : Up c v) : Up (99 / 100 * (k * c)) (A.mul (.fin k) v) := by
  rcases h with rfl | ⟨s, hs, rfl⟩
  · left
    simp [mul, infTimes, hk]
  · exact A.up_ofReal hc (by gcongr)

theorem up_sub {b c : ℝ} {v : Flt} (hb : |b| ≤ 1) (hc : 2 ≤ c) (h : Up c v) : Up (99 / 100 * (c - 1)) (A.sub v (.fin b)) := by
  rcases h with rfl | ⟨s, hs, rfl⟩
  · exact .inl rfl
  · refine A.up_ofReal (by linarith) ?_
    have := (abs_le.1 hb).2
    linarith

theorem up_add_zero {c : ℝ} {v : Flt} (hc : 1 ≤ c) (h : Up c v) : Up (99 / 100 * c) (A.add v 0) := by
  rcases h with rfl | ⟨s, hs, rfl⟩
  · exact .inl rfl
  · exact A.up_ofReal hc (by linarith)

theorem up_sq {c : ℝ} {v : Flt} (hc : 1 ≤ c) (h : Up c v) : Up (99 / 100 * (c * c)) (A.mul v v) := by
  rcases h with rfl | ⟨s, hs, rfl⟩
  · exact .inl rfl
  · exact A.up_ofReal (by nlinarith) (by nlinarith)

theorem up_sqrt {c : ℝ} {v : Flt} (hc : 1 ≤ c) (h : Up (c * c) v) : Up (99 / 100 * c) (A.sqrt v) := by
  rcases h with rfl | ⟨s, hs, rfl⟩
  · exact .inl rfl
  · have : 0 ≤ s := by nlinarith
    show Up _ (if s < 0 then _ else _)
    rw [if_neg (by linarith)]
    exact A.up_ofReal hc (Real.le_sqrt_of_sq_le (by nlinarith))

end FArith

section
variable (A : FArith)

open FArith

/-- The gradient of the one-observation, one-feature problem at `v`. -/
theorem grad_one (b : ℝ) (v : Flt) :
    flLinGradient A (fun _ _ : Fin 1 => .fin 16) (fun _ => .fin b) (fun _ => v) =
      fun _ => A.add (A.mul (.fin 16) (A.sub (A.mul (.fin 16) v) (.fin b))) 0 := by
  funext j
  simp only [flLinGradient, flResidual, FArith.dot, A.sum_one]

/-- The update of this problem by one fixed step. -/
noncomputable def oneStep (b s : ℝ) (v : Flt) : Flt :=
  A.add v (A.mul (.fin s) (A.add (A.mul (.fin 16) (A.sub (A.mul (.fin 16) v) (.fin b))) 0).neg)

theorem body_one (b : ℝ) (cfg : FlCfg) (hcfg : cfg.stepping ≠ "line-search") (v : Flt) :
    flBody A ⟨flLinLoss A (fun _ _ : Fin 1 => .fin 16) (fun _ => .fin b), flLinGradient A (fun _ _ : Fin 1 => .fin 16) (fun _ => .fin b), flDummy⟩ cfg (fun _ => v) =
      fun _ => oneStep A b cfg.fixedStepLen v := by
  unfold flBody
  simp only [grad_one, if_neg hcfg, flDummy]
  rfl

theorem far_one (cfg : FlCfg) (v w : Flt) :
    flFar A cfg (fun _ : Fin 1 => v) (fun _ => w) = cfg.tol.lt (A.sqrt (A.mul (A.sub v w) (A.sub v w))) := by
  unfold flFar FArith.norm FArith.dot
  simp only [A.sum_one]

theorem oneStep_neg (b s : ℝ) (v : Flt) : oneStep A b s v.neg = (oneStep A (-b) s v).neg := by
  have h0 : (0 : Flt) = (0 : Flt).neg := by
    show Flt.fin 0 = Flt.fin (-0)
    rw [neg_zero]
  have hb : A.sub (A.mul (.fin 16) v).neg (.fin b) = (A.sub (A.mul (.fin 16) v) (.fin (-b))).neg := by
    unfold FArith.sub
    rw [← add_neg_neg]
    simp [Flt.neg]
  unfold oneStep
  rw [mul_neg' A (.fin 16) v, hb, mul_neg' A (.fin 16)]
  conv_lhs => rw [h0]
  rw [add_neg_neg, mul_neg' A (.fin s) (Flt.neg _), add_neg_neg]

/-- The step of a number of at least 1 is at least four times as large, with the other sign. -/
theorem oneStep_up {b s r : ℝ} (hb : |b| ≤ 1) (hs : 4 / 100 ≤ s) (hr : 1 ≤ r) : ∃ u, oneStep A b s (.fin r) = u.neg ∧ Up (4 * r) u := by
  have h1 := A.up_mul (k := 16) (c := r) (v := .fin r) (by norm_num) (by linarith) (.inr ⟨r, le_rfl, rfl⟩)
  have h2 := A.up_sub hb (by linarith) h1
  have h3 := A.up_mul (k := 16) (by norm_num) (by linarith) h2
  have h4 := A.up_add_zero (by linarith) h3
  have h5 := A.up_mul (k := s) (by linarith) (by nlinarith) h4
  have h6 := up_mono (c := 9 * r) h5 (by nlinarith)
  refine ⟨(oneStep A b s (.fin r)).neg, (Flt.neg_neg _).symm, ?_⟩
  unfold oneStep
  rw [mul_neg']
  rcases h6 with h | ⟨w, hw, h⟩
  · rw [h]
    exact .inl rfl
  · rw [h]
    show Up _ (A.ofReal (r + -w)).neg
    rw [← ofReal_neg]
    exact up_mono (A.up_ofReal (c := 8 * r) (by linarith) (by linarith)) (by linarith)

/-- The stopping test does not stop such a step. -/
theorem far_up {cfg : FlCfg} {t r : ℝ} (ht : cfg.tol = .fin t) (ht1 : t ≤ 1) (hr : 1 ≤ r) {u : Flt} (hu : Up (4 * r) u) :
    cfg.tol.lt (A.sqrt (A.mul (A.sub u.neg (.fin r)) (A.sub u.neg (.fin r)))) := by
  have e : A.sub u.neg (.fin r) = (A.add u (.fin r)).neg := by
    rw [← add_neg_neg]
    rfl
  rw [e, mul_neg_neg, ht]
  have h1 : Up 4 (A.add u (.fin r)) := by
    rcases hu with rfl | ⟨w, hw, rfl⟩
    · exact .inl rfl
    · exact up_mono (A.up_ofReal (c := 5) (by norm_num) (by linarith)) (by norm_num)
  have h2 := A.up_sqrt (c := 2) (by norm_num) (up_mono (A.up_sq (by norm_num) h1) (by norm_num))
  rcases h2 with h | ⟨w, hw, h⟩
  · rw [h]; trivial
  · rw [h]
    show t < w
    linarith

/-- Stopping tests do not depend on a change of all signs. -/
theorem far_neg (v w : Flt) : A.mul (A.sub v.neg w.neg) (A.sub v.neg w.neg) = A.mul (A.sub v w) (A.sub v w) := by
  unfold FArith.sub
  rw [add_neg_neg, mul_neg_neg]

theorem ofReal_fin_le {r w : ℝ} (h : A.ofReal r = .fin w) : ((|w| : ℝ) : WithTop ℝ) ≤ A.big ∧ A.rnd w = w := by
  unfold ofReal at h
  by_cases h1 : ((|A.rnd r| : ℝ) : WithTop ℝ) ≤ A.big
  · rw [if_pos h1] at h
    cases h
    exact ⟨h1, A.idem r⟩
  · rw [if_neg h1] at h
    split_ifs at h

theorem add_fin_le {v v' : Flt} {w : ℝ} (h : A.add v v' = .fin w) : ((|w| : ℝ) : WithTop ℝ) ≤ A.big ∧ A.rnd w = w := by
  cases v <;> cases v' <;> simp only [FArith.add, reduceCtorEq] at h
  exact ofReal_fin_le A h

/-- One pass from a finite number of either sign. -/
theorem oneStep_any {cfg : FlCfg} {t b r : ℝ} (ht : cfg.tol = .fin t) (ht1 : t ≤ 1) (hb : |b| ≤ 1) (hs : 4 / 100 ≤ cfg.fixedStepLen) (hr : 1 ≤ r) {v : Flt}
    (hv : v = .fin r ∨ v = .fin (-r)) :
    (∃ u, (oneStep A b cfg.fixedStepLen v = u ∨ oneStep A b cfg.fixedStepLen v = u.neg) ∧ Up (4 * r) u) ∧
      flFar A cfg (fun _ : Fin 1 => oneStep A b cfg.fixedStepLen v) (fun _ => v) := by
  rw [far_one]
  rcases hv with rfl | rfl
  · obtain ⟨u, hu, hup⟩ := oneStep_up A hb hs hr
    refine ⟨⟨u, .inr hu, hup⟩, ?_⟩
    rw [hu]
    exact far_up A ht ht1 hr hup
  · obtain ⟨u, hu, hup⟩ := oneStep_up A (b := -b) (by rwa [abs_neg]) hs hr
    rw [show Flt.fin (-r) = (Flt.fin r).neg from rfl, oneStep_neg, hu]
    refine ⟨⟨u, .inl (Flt.neg_neg u), hup⟩, ?_⟩
    rw [far_neg]
    exact far_up A ht ht1 hr hup

/-- From an infinity the next point is a NaN. -/
theorem oneStep_inf {b s : ℝ} (hs : 0 < s) {v : Flt} (hv : v = .pinf ∨ v = .ninf) : oneStep A b s v = .nan := by
  have h16 : infTimes 16 = .pinf := by simp [infTimes]
  have h16' : infTimes (-16) = .ninf := by simp [infTimes]
  have hs1 : infTimes s = .pinf := by simp [infTimes, hs]
  have hs2 : infTimes (-s) = .ninf := by simp [infTimes, hs, hs.le]
  have e0 : (0 : Flt) = .fin 0 := rfl
  rcases hv with rfl | rfl <;> simp [oneStep, FArith.mul, FArith.sub, FArith.add, Flt.neg, h16, h16', hs1, hs2, e0]

/-- The fixed-step problem of one observation of the feature 16. -/
noncomputable def probOne (b : ℝ) : FlProblem 1 :=
  ⟨flLinLoss A (fun _ _ : Fin 1 => .fin 16) (fun _ => .fin b), flLinGradient A (fun _ _ : Fin 1 => .fin 16) (fun _ => .fin b), flDummy⟩

theorem loop_inf {cfg : FlCfg} (hcfg : cfg.stepping ≠ "line-search") {t b : ℝ} (ht : cfg.tol = .fin t) (hs : 0 < cfg.fixedStepLen) {v : Flt} (hv : v = .pinf ∨ v = .ninf)
    (xprev : Vec Flt 1) (it : ℕ) (hfar : flFar A cfg (fun _ => v) xprev) (hit : (it : ℤ) < cfg.maxIter) :
    flLoop A (probOne A b) cfg (fun _ => v) xprev it = (fun _ => .nan, it + 1) := by
  rw [flLoop, dif_pos ⟨hfar, hit⟩, probOne, body_one A b cfg hcfg, oneStep_inf A hs hv, flLoop, dif_neg]
  rintro ⟨h, -⟩
  rw [far_one, ht] at h
  simp [FArith.sub, FArith.add, FArith.mul, FArith.sqrt, Flt.lt] at h

theorem loop_fin (hbig : A.big < ((2 ^ 1024 : ℝ) : WithTop ℝ)) {cfg : FlCfg} (hcfg : cfg.stepping ≠ "line-search") {t b : ℝ} (ht : cfg.tol = .fin t) (ht1 : t ≤ 1) (hb : |b| ≤ 1)
    (hs : 4 / 100 ≤ cfg.fixedStepLen) (hmax : 520 ≤ cfg.maxIter) :
    ∀ (k it : ℕ) (r : ℝ) (v : Flt) (xprev : Vec Flt 1), it + k = 512 → 4 ^ it ≤ r → (v = .fin r ∨ v = .fin (-r)) → ((|r| : ℝ) : WithTop ℝ) ≤ A.big → flFar A cfg (fun _ => v) xprev →
      ∃ it', flLoop A (probOne A b) cfg (fun _ => v) xprev it = (fun _ => .nan, it') ∧ it' ≤ 515 := by
  intro k
  induction k with
  | zero =>
    intro it r v xprev hk hr _ hle _
    exfalso
    have h1 : (2 ^ 1024 : ℝ) ≤ |r| := by
      have : (4 : ℝ) ^ it = 2 ^ 1024 := by
        rw [show it = 512 by omega, show (4 : ℝ) = 2 ^ 2 by norm_num, ← pow_mul]
      rw [← this]
      exact hr.trans (le_abs_self r)
    exact absurd (lt_of_le_of_lt hle hbig) (not_lt.2 (WithTop.coe_le_coe.2 h1))
  | succ k ih =>
    intro it r v xprev hk hr hv hle hfar
    have hr1 : 1 ≤ r := le_trans (one_le_pow₀ (by norm_num)) hr
    rw [flLoop, dif_pos ⟨hfar, by omega⟩]
    obtain ⟨⟨u, hu, hup⟩, hf⟩ := oneStep_any A ht ht1 hb hs hr1 hv
    have hbody : flBody A (probOne A b) cfg (fun _ => v) = fun _ => oneStep A b cfg.fixedStepLen v := body_one A b cfg hcfg v
    rw [hbody]
    rcases hup with rfl | ⟨w, hw, rfl⟩
    · refine ⟨it + 1 + 1, loop_inf A hcfg ht (by linarith) ?_ _ _ hf (by omega), by omega⟩
      rcases hu with h | h
      · exact .inl h
      · exact .inr h
    · have hw1 : 1 ≤ w := by linarith
      have hwle : ((|w| : ℝ) : WithTop ℝ) ≤ A.big := by
        rcases hu with h | h
        · exact (add_fin_le A h).1
        · have := (add_fin_le A (w := -w) h).1
          rwa [abs_neg] at this
      exact ih (it + 1) w _ _ (by omega) (by rw [pow_succ]; linarith) hu hwle hf

/-- **C130 (violated).** `SimpleLinearModel(stepping="fixed")` on one observation of a feature with the value 16: in every format up to binary64 the iterates overflow, then become NaN, the
NaN ends the loop, and the model reports `converged = True` with the coefficient NaN. -/
theorem C130_nan_converged (hbig : A.big < ((2 ^ 1024 : ℝ) : WithTop ℝ)) (cfg : FlCfg) (hcfg : cfg.stepping = "fixed") {t b : ℝ} (ht : cfg.tol = .fin t) (ht1 : t ≤ 1) (hb : |b| ≤ 1)
    (hs : 4 / 100 ≤ cfg.fixedStepLen) (hmax : 520 ≤ cfg.maxIter) :
    (flSimpleFit A (fun _ _ : Fin 1 => .fin 16) (fun _ : Fin 1 => .fin b) cfg).converged = true ∧
      (flSimpleFit A (fun _ _ : Fin 1 => .fin 16) (fun _ : Fin 1 => .fin b) cfg).x = fun _ => .nan := by
  have hne : cfg.stepping ≠ "line-search" := by rw [hcfg]; decide
  have hfar : flFar A cfg (fun _ : Fin 1 => (1 : Flt)) (fun _ => .pinf) := by
    rw [far_one, ht]
    have e1 : (1 : Flt) = .fin 1 := rfl
    simp [FArith.sub, FArith.add, FArith.mul, FArith.sqrt, Flt.lt, Flt.neg, e1]
  obtain ⟨it, h1, h2⟩ := loop_fin A hbig hne ht ht1 hb hs hmax 512 0 1 1 (fun _ => .pinf) (by norm_num) (by norm_num) (.inl rfl) (by rw [abs_one]; exact A.one_le_big) hfar
  have e : flLoop A (⟨flLinLoss A (fun _ _ : Fin 1 => .fin 16) (fun _ => .fin b), flLinGradient A (fun _ _ : Fin 1 => .fin 16) (fun _ => .fin b), flDummy⟩ : FlProblem 1) cfg (fun _ => 1)
      (fun _ => .pinf) 0 = (fun _ => .nan, it) := h1
  unfold flSimpleFit flOptimize
  simp only [e]
  exact ⟨decide_eq_true (by omega), trivial⟩

/-! ### Formats -/

/-- Summation from left to right. -/
noncomputable def foldSum : (n : ℕ) → (Fin n → Flt) → Flt
  | 0, _ => 0
  | 1, v => v 0
  | n + 2, v => A.add (foldSum (n + 1) fun i => v i.castSucc) (v (Fin.last (n + 1)))

theorem le_zero_ofReal {r : ℝ} (h : 0 ≤ r) : Flt.le 0 (A.ofReal r) := by
  unfold FArith.ofReal
  by_cases h1 : ((|A.rnd r| : ℝ) : WithTop ℝ) ≤ A.big
  · rw [if_pos h1]
    exact A.rnd_nonneg h
  · have h2 : 0 < A.rnd r := by
      refine lt_of_le_of_ne (A.rnd_nonneg h) fun h0 => h1 ?_
      rw [← h0, abs_zero]
      exact le_trans (WithTop.coe_le_coe.2 zero_le_one) A.one_le_big
    rw [if_neg h1, if_pos h2]
    trivial

theorem le_zero_cases {v : Flt} (h : Flt.le 0 v) : v = .pinf ∨ ∃ r, 0 ≤ r ∧ v = .fin r := by
  cases v with
  | fin r => exact .inr ⟨r, h, rfl⟩
  | pinf => exact .inl rfl
  | ninf => exact absurd h (by intro h; exact h)
  | nan => exact absurd h (by intro h; exact h)

theorem le_zero_add {v w : Flt} (hv : Flt.le 0 v) (hw : Flt.le 0 w) : Flt.le 0 (A.add v w) := by
  rcases le_zero_cases hv with rfl | ⟨a, ha, rfl⟩ <;> rcases le_zero_cases hw with rfl | ⟨b, hb, rfl⟩
  · trivial
  · trivial
  · trivial
  · exact le_zero_ofReal A (add_nonneg ha hb)

theorem foldSum_nonneg : ∀ n v, (∀ i, Flt.le 0 (v i)) → Flt.le 0 (foldSum A n v)
  | 0, _, _ => le_refl (0 : ℝ)
  | 1, _, h => h 0
  | n + 2, _, h => le_zero_add A (foldSum_nonneg (n + 1) _ fun i => h i.castSucc) (h _)

theorem foldSum_pinf : ∀ n v, (∀ i, Flt.le 0 (v i)) → (∃ i, v i = .pinf) → foldSum A n v = .pinf
  | 0, _, _, ⟨i, _⟩ => i.elim0
  | 1, v, _, ⟨i, hi⟩ => by
    rw [Subsingleton.elim i 0] at hi
    exact hi
  | n + 2, v, h, ⟨i, hi⟩ => by
    show A.add (foldSum A (n + 1) fun i => v i.castSucc) (v (Fin.last (n + 1))) = .pinf
    rcases Fin.eq_castSucc_or_eq_last i with ⟨j, rfl⟩ | rfl
    · rw [foldSum_pinf (n + 1) (fun i => v i.castSucc) (fun i => h i.castSucc) ⟨j, hi⟩]
      rcases le_zero_cases (h (Fin.last (n + 1))) with e | ⟨b, hb, e⟩ <;> rw [e] <;> rfl
    · rw [hi]
      rcases le_zero_cases (foldSum_nonneg A (n + 1) (fun i => v i.castSucc) fun i => h i.castSucc) with e | ⟨b, hb, e⟩ <;> rw [e] <;> rfl

/-- The same format with summation from left to right. -/
noncomputable def withFold : FArith :=
  { A with sum := foldSum A, sum_one := fun _ => rfl, sum_nonneg := foldSum_nonneg A, sum_pinf := foldSum_pinf A }

open Classical in
/-- A summation that meets the contract, used to define formats. -/
noncomputable def plainSum (n : ℕ) (v : Fin n → Flt) : Flt :=
  if h : n = 1 then v ⟨0, by omega⟩ else if ∃ i, v i = .pinf then .pinf else 0

theorem plainSum_nonneg (n : ℕ) (v : Fin n → Flt) (h : ∀ i, Flt.le 0 (v i)) : Flt.le 0 (plainSum n v) := by
  unfold plainSum
  split_ifs
  · exact h _
  · trivial
  · exact le_refl (0 : ℝ)

theorem plainSum_pinf (n : ℕ) (v : Fin n → Flt) (_ : ∀ i, Flt.le 0 (v i)) (h : ∃ i, v i = .pinf) : plainSum n v = .pinf := by
  unfold plainSum
  split_ifs with h1
  · subst h1
    obtain ⟨i, hi⟩ := h
    rw [Subsingleton.elim i ⟨0, by omega⟩] at hi
    exact hi
  · rfl

/-- Exact arithmetic as a format: no rounding, no overflow. -/
noncomputable def exactArith : FArith :=
  withFold
    { rnd := id, big := ⊤, sum := plainSum, mono := monotone_id, idem := fun _ => rfl, odd := fun _ => rfl, one := rfl, one_le_big := le_top, rnd_le_big := fun _ _ => le_top
      rel := fun r _ => by simp only [id, sub_self, abs_zero]; positivity
      sum_one := fun v => by simp [plainSum], sum_nonneg := plainSum_nonneg, sum_pinf := plainSum_pinf }

/-- Truncation to multiples of `2⁻⁶⁰`. -/
noncomputable def truncRnd (r : ℝ) : ℝ := if 0 ≤ r then (⌊r * 2 ^ 60⌋ : ℝ) / 2 ^ 60 else -((⌊-r * 2 ^ 60⌋ : ℝ) / 2 ^ 60)

theorem truncRnd_odd (r : ℝ) : truncRnd (-r) = -truncRnd r := by
  unfold truncRnd
  rcases lt_trichotomy r 0 with h | h | h
  · rw [if_pos (by linarith), if_neg (by linarith), neg_neg]
  · subst h; simp
  · rw [if_neg (by linarith), if_pos h.le, neg_neg]

theorem truncRnd_nonneg {r : ℝ} (h : 0 ≤ r) : 0 ≤ truncRnd r := by
  unfold truncRnd
  rw [if_pos h]
  have : (0 : ℤ) ≤ ⌊r * 2 ^ 60⌋ := Int.floor_nonneg.2 (by positivity)
  have : (0 : ℝ) ≤ (⌊r * 2 ^ 60⌋ : ℝ) := by exact_mod_cast this
  positivity

theorem truncRnd_mono : Monotone truncRnd := by
  have key : ∀ a b : ℝ, 0 ≤ a → a ≤ b → truncRnd a ≤ truncRnd b := by
    intro a b ha hab
    unfold truncRnd
    rw [if_pos ha, if_pos (ha.trans hab)]
    gcongr
  intro a b hab
  rcases le_total 0 a with ha | ha
  · exact key a b ha hab
  rcases le_total 0 b with hb | hb
  · have := truncRnd_nonneg (neg_nonneg.2 ha)
    rw [truncRnd_odd] at this
    linarith [truncRnd_nonneg hb]
  · have := key (-b) (-a) (by linarith) (by linarith)
    rw [truncRnd_odd, truncRnd_odd] at this
    linarith

theorem truncRnd_grid (k : ℤ) : truncRnd ((k : ℝ) / 2 ^ 60) = (k : ℝ) / 2 ^ 60 := by
  unfold truncRnd
  have h1 : (k : ℝ) / 2 ^ 60 * 2 ^ 60 = k := by field_simp
  have h2 : -((k : ℝ) / 2 ^ 60) * 2 ^ 60 = ((-k : ℤ) : ℝ) := by push_cast; field_simp
  split_ifs
  · rw [h1, Int.floor_intCast]
  · rw [h2, Int.floor_intCast]
    push_cast
    ring

/-- A format with true rounding and overflow: fixed point with 60 binary digits after the point, truncation, largest number `2¹⁰²³`. -/
noncomputable def truncArith : FArith :=
  withFold
    { rnd := truncRnd, big := ((2 ^ 1023 : ℝ) : WithTop ℝ), sum := plainSum, mono := truncRnd_mono, odd := truncRnd_odd
      idem := fun r => by
        have : ∃ k : ℤ, truncRnd r = (k : ℝ) / 2 ^ 60 := by
          unfold truncRnd
          split_ifs
          · exact ⟨_, rfl⟩
          · exact ⟨-⌊-r * 2 ^ 60⌋, by push_cast; ring⟩
        obtain ⟨k, hk⟩ := this
        rw [hk, truncRnd_grid]
      one := by
        have := truncRnd_grid (2 ^ 60)
        norm_num at this
        exact this
      one_le_big := WithTop.coe_le_coe.2 (one_le_pow₀ (by norm_num))
      rnd_le_big := fun r h => by
        have h := WithTop.coe_le_coe.1 h
        refine WithTop.coe_le_coe.2 ?_
        have h1 := truncRnd_mono (abs_le.1 h).2
        have h2 := truncRnd_mono (abs_le.1 h).1
        have e : truncRnd (2 ^ 1023) = 2 ^ 1023 := by
          have := truncRnd_grid (2 ^ 1083)
          have e2 : ((2 ^ 1083 : ℤ) : ℝ) / 2 ^ 60 = 2 ^ 1023 := by
            push_cast
            rw [show (1083 : ℕ) = 1023 + 60 from rfl, pow_add, mul_div_assoc, div_self (by positivity), mul_one]
          rwa [e2] at this
        rw [truncRnd_odd, e] at h2
        rw [e] at h1
        exact abs_le.2 ⟨h2, h1⟩
      rel := fun r hr => by
        have key : ∀ r : ℝ, 1 / 10 ^ 15 ≤ r → |truncRnd r - r| ≤ r / 100 := by
          intro r hr
          have h0 : (0 : ℝ) < 1 / 10 ^ 15 := by positivity
          unfold truncRnd
          rw [if_pos (by linarith)]
          have h1 := Int.floor_le (r * 2 ^ 60)
          have h2 := Int.lt_floor_add_one (r * 2 ^ 60)
          rw [abs_le]
          constructor
          · rw [neg_le_sub_iff_le_add, ← sub_le_iff_le_add, le_div_iff₀ (by positivity)]
            have h3 : (1 / 10 ^ 15 : ℝ) * 2 ^ 60 ≤ r * 2 ^ 60 := by gcongr
            have h4 : (100 : ℝ) ≤ (1 / 10 ^ 15 : ℝ) * 2 ^ 60 := by norm_num
            have e : (r - r / 100) * 2 ^ 60 = r * 2 ^ 60 - r * 2 ^ 60 / 100 := by ring
            rw [e]
            generalize r * 2 ^ 60 = y at *
            linarith
          · rw [sub_le_iff_le_add, div_le_iff₀ (by positivity)]
            have e : (r / 100 + r) * 2 ^ 60 = r * 2 ^ 60 + r * 2 ^ 60 / 100 := by ring
            have h3 : (1 / 10 ^ 15 : ℝ) * 2 ^ 60 ≤ r * 2 ^ 60 := by gcongr
            have h4 : (0 : ℝ) ≤ (1 / 10 ^ 15 : ℝ) * 2 ^ 60 := by positivity
            rw [e]
            generalize r * 2 ^ 60 = y at *
            linarith
        rcases le_total 0 r with h | h
        · rw [abs_of_nonneg h] at hr ⊢
          exact key r hr
        · rw [abs_of_nonpos h] at hr ⊢
          have := key (-r) hr
          rw [truncRnd_odd] at this
          rw [← abs_neg]
          rwa [neg_sub, ← neg_sub_neg] 
      sum_one := fun v => by simp [plainSum], sum_nonneg := plainSum_nonneg, sum_pinf := plainSum_pinf }

/-- The default configuration with fixed steps, target 1. -/
example :
    let cfg : FlCfg := ⟨truncArith.ofReal (1 / 10 ^ 5), 1000, "fixed", truncArith.rnd (5 / 100)⟩
    (flSimpleFit truncArith (fun _ _ : Fin 1 => .fin 16) (fun _ : Fin 1 => .fin 1) cfg).converged = true ∧
      (flSimpleFit truncArith (fun _ _ : Fin 1 => .fin 16) (fun _ : Fin 1 => .fin 1) cfg).x = fun _ => .nan := by
  intro cfg
  have h5 := truncArith.rel (1 / 10 ^ 5) (by rw [abs_of_pos (by norm_num)]; norm_num)
  have h2 := truncArith.rel (5 / 100) (by rw [abs_of_pos (by norm_num)]; norm_num)
  rw [abs_of_pos (show (0 : ℝ) < 1 / 10 ^ 5 by norm_num), abs_le] at h5
  rw [abs_of_pos (show (0 : ℝ) < 5 / 100 by norm_num), abs_le] at h2
  have hle : truncArith.rnd (1 / 10 ^ 5) ≤ 1 := by
    have := h5.2
    norm_num at this ⊢
    linarith
  have hnn := truncArith.rnd_nonneg (show (0 : ℝ) ≤ 1 / 10 ^ 5 by positivity)
  have ht : cfg.tol = .fin (truncArith.rnd (1 / 10 ^ 5)) := by
    show truncArith.ofReal _ = _
    unfold FArith.ofReal
    rw [if_pos]
    refine le_trans (WithTop.coe_le_coe.2 ?_) truncArith.one_le_big
    rwa [abs_of_nonneg hnn]
  refine C130_nan_converged truncArith ?_ cfg rfl ht hle (by norm_num) ?_ (by norm_num [cfg])
  · exact WithTop.coe_lt_coe.2 (pow_lt_pow_right₀ (by norm_num) (by norm_num))
  · show 4 / 100 ≤ truncArith.rnd (5 / 100)
    have := h2.1
    norm_num at this ⊢
    linarith

/-! ### What the report means -/

variable {n : ℕ} (P : FlProblem n) (cfg : FlCfg)

theorem flLoop_spec (x xprev : Vec Flt n) (it : ℕ) :
    ∃ k, flLoop A P cfg x xprev it = ((flBody A P cfg)^[k] x, it + k) ∧ ((it + k : ℕ) : ℤ) ≤ max cfg.maxIter it ∧
      (((it + k : ℕ) : ℤ) < cfg.maxIter → ¬ flFar A cfg ((flBody A P cfg)^[k] x) (match k with | 0 => xprev | j + 1 => (flBody A P cfg)^[j] x)) ∧
      (k = 0 → ¬ (flFar A cfg x xprev ∧ (it : ℤ) < cfg.maxIter)) := by
  induction hm : (cfg.maxIter - it).toNat generalizing x xprev it with
  | zero =>
    refine ⟨0, ?_, ?_, ?_, ?_⟩
    · rw [flLoop, dif_neg (by omega)]; rfl
    · simp
    · intro h
      omega
    · intro _ h
      omega
  | succ m ih =>
    by_cases h : flFar A cfg x xprev ∧ (it : ℤ) < cfg.maxIter
    · obtain ⟨k, h1, h2, h3, h4⟩ := ih (flBody A P cfg x) x (it + 1) (by push_cast; omega)
      refine ⟨k + 1, ?_, ?_, ?_, by omega⟩
      · rw [flLoop, dif_pos h, h1, Function.iterate_succ_apply]
        congr 1
        omega
      · push_cast at h2 ⊢
        omega
      · intro hlt
        have := h3 (by push_cast at hlt ⊢; omega)
        rw [Function.iterate_succ_apply]
        cases k with
        | zero => exact this
        | succ j =>
          simp only at this ⊢
          rwa [Function.iterate_succ_apply]
    · refine ⟨0, ?_, ?_, ?_, fun _ => h⟩
      · rw [flLoop, dif_neg h]; rfl
      · simp
      · intro hlt hf
        exact h ⟨hf, by simpa using hlt⟩

theorem not_lt_le {v w : Flt} (hv : v ≠ .nan) (hw : Flt.le 0 w) (h : ¬ v.lt w) : w.le v := by
  rcases le_zero_cases hw with rfl | ⟨b, hb, rfl⟩ <;> cases v <;> simp_all [Flt.lt, Flt.le]

theorem le_zero_sq_sub {a b : ℝ} : Flt.le 0 (A.mul (A.sub (.fin a) (.fin b)) (A.sub (.fin a) (.fin b))) := by
  show Flt.le 0 (A.mul (A.ofReal (a + -b)) (A.ofReal (a + -b)))
  cases h : A.ofReal (a + -b) with
  | fin w => exact le_zero_ofReal A (mul_self_nonneg w)
  | pinf => trivial
  | ninf => trivial
  | nan =>
    unfold FArith.ofReal at h
    split_ifs at h

theorem le_zero_sqrt {v : Flt} (h : Flt.le 0 v) : Flt.le 0 (A.sqrt v) := by
  rcases le_zero_cases h with rfl | ⟨b, hb, rfl⟩
  · trivial
  · show Flt.le 0 (if b < 0 then _ else _)
    rw [if_neg (by linarith)]
    exact le_zero_ofReal A (Real.sqrt_nonneg b)

/-- **C130 (what holds).** In every format, for every oracle and regularizer: the solver stops after at most `max_iter` passes, the returned point is the result of exactly the logged number of
passes, and `converged` says that this number is below `max_iter`. If moreover the last two points are finite, `converged` means that their computed distance is at most `tol`. From a
finite starting point at least one pass is made. (Missing, and false by `C130_nan_converged`: the last two points of a converged run are finite.) -/
theorem C130_report_partial (x0 : Vec Flt n) :
    let r := flOptimize A P cfg x0
    (r.iteration : ℤ) ≤ max cfg.maxIter 0 ∧ r.x = (flBody A P cfg)^[r.iteration] x0 ∧ (r.converged = true ↔ (r.iteration : ℤ) < cfg.maxIter) ∧
      (r.converged = true → cfg.tol ≠ .nan → ∀ j, r.iteration = j + 1 → ∀ u w : Vec ℝ n, (r.x = fun i => .fin (u i)) → ((flBody A P cfg)^[j] x0 = fun i => .fin (w i)) →
        (A.norm fun i => A.sub (.fin (u i)) (.fin (w i))).le cfg.tol) ∧
      (0 < n → 0 < cfg.maxIter → (∃ t, cfg.tol = .fin t) → (∃ u : Vec ℝ n, x0 = fun i => .fin (u i)) → 0 < r.iteration) := by
  intro r
  obtain ⟨k, h1, h2, h3, h4⟩ := flLoop_spec A P cfg x0 (fun _ => .pinf) 0
  have hx : r.x = (flBody A P cfg)^[k] x0 := by
    show (flLoop A P cfg x0 (fun _ => .pinf) 0).1 = _
    rw [h1]
  have hk : r.iteration = k := by
    show (flLoop A P cfg x0 (fun _ => .pinf) 0).2 = _
    rw [h1, zero_add]
  have hc : r.converged = decide ((r.iteration : ℤ) < cfg.maxIter) := rfl
  rw [zero_add] at h2 h3
  refine ⟨by rw [hk]; simpa using h2, by rw [hx, hk], by rw [hc, decide_eq_true_eq], ?_, ?_⟩
  · intro hconv htol j hj u w hu hw
    rw [hc, decide_eq_true_eq, hk] at hconv
    have := h3 hconv
    rw [hk] at hj
    subst hj
    rw [← hx, hu] at this
    simp only at this
    rw [hw] at this
    exact not_lt_le htol (le_zero_sqrt A (A.sum_nonneg _ _ fun i => le_zero_sq_sub A)) this
  · rintro hn hmax ⟨t, ht⟩ ⟨u, hu⟩
    rw [hk]
    refine Nat.pos_of_ne_zero fun h0 => h4 h0 ⟨?_, by simpa using hmax⟩
    unfold flFar FArith.norm FArith.dot
    have e : A.sum n (fun i => A.mul (A.sub (x0 i) .pinf) (A.sub (x0 i) .pinf)) = .pinf := by
      refine A.sum_pinf _ _ (fun i => ?_) ⟨⟨0, hn⟩, ?_⟩ <;> rw [hu] <;> trivial
    rw [e, ht]
    trivial

theorem ofReal_zero : A.ofReal 0 = 0 := by
  unfold FArith.ofReal
  rw [A.rnd_zero, if_pos]
  · rfl
  · rw [abs_zero]
    exact le_trans (WithTop.coe_le_coe.2 zero_le_one) A.one_le_big

theorem ofReal_one : A.ofReal 1 = 1 := by
  unfold FArith.ofReal
  rw [A.one, if_pos]
  · rfl
  · rw [abs_one]
    exact A.one_le_big

/-- A run with finite points, in every format: the observation 1 of the feature 1, default configuration with fixed steps. One pass, converged, computed distance 0. -/
example (tol : ℝ) (htol : 0 ≤ tol) :
    let r := flSimpleFit A (fun _ _ : Fin 1 => .fin 1) (fun _ : Fin 1 => .fin 1) ⟨.fin tol, 1000, "fixed", A.rnd (5 / 100)⟩
    r.iteration = 1 ∧ r.converged = true ∧ r.x = fun _ => .fin 1 := by
  have e0 : (0 : Flt) = .fin 0 := rfl
  have e1 : (1 : Flt) = .fin 1 := rfl
  have hz := ofReal_zero A
  have ho := ofReal_one A
  rw [e0] at hz
  rw [e1] at ho
  have hne : ¬ ("fixed" = "line-search") := by decide
  have hb : flBody A (⟨flLinLoss A (fun _ _ : Fin 1 => .fin 1) (fun _ => .fin 1), flLinGradient A (fun _ _ : Fin 1 => .fin 1) (fun _ => .fin 1), flDummy⟩ : FlProblem 1)
      ⟨.fin tol, 1000, "fixed", A.rnd (5 / 100)⟩ (fun _ => 1) = fun _ => 1 := by
    unfold flBody flLinGradient flResidual FArith.dot flMove flDummy
    simp only [A.sum_one, if_neg hne, e0, e1, FArith.mul, FArith.sub, FArith.add, Flt.neg, mul_one, ho, add_neg_cancel, hz, mul_zero, add_zero, neg_zero]
  have hf : flFar A (⟨.fin tol, 1000, "fixed", A.rnd (5 / 100)⟩ : FlCfg) (fun _ : Fin 1 => 1) (fun _ => .pinf) := by
    rw [far_one]
    simp [FArith.sub, FArith.add, FArith.mul, FArith.sqrt, Flt.lt, Flt.neg, e1]
  have hl : flLoop A (⟨flLinLoss A (fun _ _ : Fin 1 => .fin 1) (fun _ => .fin 1), flLinGradient A (fun _ _ : Fin 1 => .fin 1) (fun _ => .fin 1), flDummy⟩ : FlProblem 1)
      ⟨.fin tol, 1000, "fixed", A.rnd (5 / 100)⟩ (fun _ => 1) (fun _ => .pinf) 0 = (fun _ => 1, 1) := by
    rw [flLoop, dif_pos ⟨hf, by norm_num⟩, hb, flLoop, dif_neg]
    rintro ⟨h, -⟩
    rw [far_one] at h
    simp only [FArith.sub, FArith.add, FArith.mul, FArith.sqrt, Flt.lt, Flt.neg, e1, add_neg_cancel, hz, mul_zero, lt_irrefl, if_false, Real.sqrt_zero] at h
    linarith
  intro r
  have hr : r = ⟨fun _ => 1, 1, true⟩ := by
    show flSimpleFit A _ _ _ = _
    unfold flSimpleFit flOptimize
    rw [hl]
    rfl
  rw [hr]
  exact ⟨rfl, rfl, rfl⟩

end

end Verif
