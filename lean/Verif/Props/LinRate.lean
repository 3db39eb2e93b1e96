import Verif.Props.LinConverge
import Mathlib.Topology.Order.Compact
import Mathlib.Topology.MetricSpace.ProperSpace
import Mathlib.Analysis.Normed.Group.Basic
import Mathlib.Topology.Algebra.Order.LiminfLimsup

/-!
# C157: with independent features convex linear fits converge linearly
-/

namespace Verif

open Matrix

variable {m n : ℕ} {σ : Type}

/-! ## Vocabulary -/

/-- `f` lies above the parabola of curvature `mu` touching it at any point (strong convexity). -/
def AboveParabola (f : Vec ℝ n → ℝ) (gr : Vec ℝ n → Vec ℝ n) (mu : ℝ) : Prop :=
  ∀ x z, f x + (∑ i, gr x i * (z i - x i)) + mu / 2 * ∑ i, (z i - x i) ^ 2 ≤ f z

/-! ## Generic part -/

/-- A minimiser of a strongly convex function plus a convex penalty: the objective grows quadratically away from it. -/
theorem quadratic_growth (f : Vec ℝ n → ℝ) (gr : Vec ℝ n → Vec ℝ n) (L mu : ℝ) (hb : BelowParabola f gr L) (ha : AboveParabola f gr mu)
    (g : Vec ℝ n → WithTop ℝ) (hg : ConvexPenalty g) (xs : Vec ℝ n) (gs : ℝ) (hgs : g xs = gs)
    (hmin : ∀ (v : Vec ℝ n) (gv : ℝ), g v = gv → f xs + gs ≤ f v + gv) (v : Vec ℝ n) (gv : ℝ) (hgv : g v = gv) :
    f xs + gs + mu / 2 * ∑ i, (v i - xs i) ^ 2 ≤ f v + gv := by
  obtain ⟨B, hB⟩ : ∃ B, B = L / 2 * ∑ i, (v i - xs i) ^ 2 := ⟨_, rfl⟩
  obtain ⟨C, hC⟩ : ∃ C, C = (∑ i, gr xs i * (v i - xs i)) + gv - gs := ⟨_, rfl⟩
  have hs : ∀ s, 0 < s → s ≤ 1 → 0 ≤ C + s * B := by
    intro s hs0 hs1
    have h1 := hg xs v gs gv s hgs hgv hs0.le hs1
    obtain ⟨gz, hgz⟩ : ∃ gz : ℝ, g (fun i => xs i + s * (v i - xs i)) = gz := by
      cases hh : g (fun i => xs i + s * (v i - xs i)) with
      | top => rw [hh] at h1; exact absurd (top_le_iff.1 h1) WithTop.coe_ne_top
      | coe r => exact ⟨r, rfl⟩
    rw [hgz] at h1
    have h1' : gz ≤ gs + s * (gv - gs) := by exact_mod_cast h1
    have h2 := hmin _ gz hgz
    have h3 := hb xs (fun i => xs i + s * (v i - xs i))
    have e1 : (∑ i, gr xs i * (xs i + s * (v i - xs i) - xs i)) = s * ∑ i, gr xs i * (v i - xs i) := by
      rw [Finset.mul_sum]; exact Finset.sum_congr rfl fun i _ => by ring
    have e2 : (∑ i, (xs i + s * (v i - xs i) - xs i) ^ 2) = s ^ 2 * ∑ i, (v i - xs i) ^ 2 := by
      rw [Finset.mul_sum]; exact Finset.sum_congr rfl fun i _ => by ring
    simp only [e1, e2] at h3
    have h4 : 0 ≤ s * (C + s * B) := by rw [hB, hC]; nlinarith
    exact nonneg_of_mul_nonneg_right h4 hs0
  have hC0 : 0 ≤ C := by
    by_contra hneg
    push Not at hneg
    rcases le_or_gt B 0 with hB0 | hB0
    · have := hs 1 one_pos le_rfl
      linarith
    · have h1 := hs (min 1 (-C / (2 * B))) (lt_min one_pos (div_pos (by linarith) (by positivity))) (min_le_left _ _)
      have h2 : min 1 (-C / (2 * B)) * B ≤ -C / 2 := by
        calc min 1 (-C / (2 * B)) * B ≤ -C / (2 * B) * B := mul_le_mul_of_nonneg_right (min_le_right _ _) hB0.le
          _ = -C / 2 := by field_simp
      linarith
  have := ha xs v
  linarith

/-- A continuous strongly convex function plus a continuous nonnegative penalty has a minimiser. -/
theorem exists_minimiser (f : Vec ℝ n → ℝ) (gr : Vec ℝ n → Vec ℝ n) (mu : ℝ) (hmu : 0 < mu) (ha : AboveParabola f gr mu) (hf : Continuous f)
    (p : Vec ℝ n → ℝ) (hp : Continuous p) (hp0 : ∀ x, 0 ≤ p x) : ∃ xs, ∀ u, f xs + p xs ≤ f u + p u := by
  obtain ⟨D, hD⟩ : ∃ D, D = ∑ i, gr 0 i ^ 2 := ⟨_, rfl⟩
  obtain ⟨R, hR⟩ : ∃ R, R = 4 / mu * (p 0 + D / mu) + 1 := ⟨_, rfl⟩
  have hD0 : 0 ≤ D := hD ▸ Finset.sum_nonneg fun i _ => sq_nonneg _
  have hR1 : 1 ≤ R := by
    have := hp0 0
    have : 0 ≤ 4 / mu * (p 0 + D / mu) := by positivity
    linarith
  refine Continuous.exists_forall_le' (hf.add hp) 0 ?_
  refine Filter.mem_of_superset (isCompact_closedBall (0 : Vec ℝ n) R).compl_mem_cocompact fun x hx => ?_
  have hx : ∃ i, R < |x i| := by
    by_contra hc
    push Not at hc
    refine hx ?_
    rw [mem_closedBall_zero_iff]
    exact (pi_norm_le_iff_of_nonneg (by linarith)).2 fun i => by rw [Real.norm_eq_abs]; exact hc i
  obtain ⟨i, hi⟩ := hx
  have h1 := ha 0 x
  simp only [Pi.zero_apply, sub_zero] at h1
  have h2 : R ≤ ∑ j, x j ^ 2 := by
    have h3 : x i ^ 2 ≤ ∑ j, x j ^ 2 := Finset.single_le_sum (f := fun j => x j ^ 2) (fun j _ => sq_nonneg _) (Finset.mem_univ i)
    have h4 : R < x i ^ 2 := by
      rw [← sq_abs]
      nlinarith
    linarith
  have h3 : -(D / mu) - mu / 4 * ∑ j, x j ^ 2 ≤ ∑ j, gr 0 j * x j := by
    have h4 : ∀ j, -(gr 0 j ^ 2 / mu) - mu / 4 * x j ^ 2 ≤ gr 0 j * x j := by
      intro j
      have h5 : 0 ≤ (gr 0 j + mu / 2 * x j) ^ 2 / mu := by positivity
      have e : (gr 0 j + mu / 2 * x j) ^ 2 / mu = gr 0 j ^ 2 / mu + gr 0 j * x j + mu / 4 * x j ^ 2 := by
        field_simp
        ring
      linarith
    have h5 := Finset.sum_le_sum fun j (_ : j ∈ Finset.univ) => h4 j
    rw [Finset.sum_sub_distrib, Finset.sum_neg_distrib, ← Finset.sum_div, ← Finset.mul_sum, ← hD] at h5
    exact h5
  have h4 : mu / 4 * R ≤ mu / 4 * ∑ j, x j ^ 2 := mul_le_mul_of_nonneg_left h2 (by positivity)
  have h5 : mu / 4 * R = p 0 + D / mu + mu / 4 := by rw [hR]; field_simp
  have h6 := hp0 x
  change f 0 + p 0 ≤ f x + p x
  linarith

/-- A run on a strongly convex objective: the squared distance to the minimiser shrinks by the factor `1 + mu t` in every iteration, and the run stops as soon as the bound on a step falls below the tolerance. -/
theorem run_linear (o : Oracle ℝ n σ) (R : Regularizer ℝ n) (f : Vec ℝ n → ℝ) (gr : Vec ℝ n → Vec ℝ n) (hf : o.Values f) (hgr : o.Grads gr)
    (L : ℝ) (hb : BelowParabola f gr L) (hconv : ∀ x, AboveTangent f (gr x) x)
    (g : Vec ℝ n → WithTop ℝ) (hg : ConvexPenalty g) (prox : Vec ℝ n → ℝ → Vec ℝ n) (hp : ∀ y t, R.prox y t = .ok (prox y t))
    (hexact : ∀ y t, 0 < t → IsProxOf g t y (prox y t)) (cfg : PGDCfg ℝ) (hr : StepRule cfg L) (x0 : Vec ℝ n) (Lg : Logger (PyVal ℝ n))
    (mu : ℝ) (hmu : 0 ≤ mu) (xs : Vec ℝ n) (gs : ℝ) (hgs : g xs = gs)
    (hgrow : ∀ (v : Vec ℝ n) (gv : ℝ), g v = gv → f xs + gs + mu / 2 * ∑ i, (v i - xs i) ^ 2 ≤ f v + gv)
    (s s' : σ) (x : Vec ℝ n) (Lf : Logger (PyVal ℝ n)) (h : pgdOptimize o R cfg x0 Lg s = .ok ((x, Lf), s')) :
    ∃ k : ℕ, Lf.get "converged" = .ok (.atom (.bool (decide ((k : ℤ) < cfg.maxIter)))) ∧ Lf.get "iteration" = .ok (.atom (.int k)) ∧
      (∑ i, (x i - xs i) ^ 2) * (1 + mu * stepFloor cfg L) ^ k ≤ ∑ i, (x0 i - xs i) ^ 2 ∧
      (0 < k → ∃ gx : ℝ, g x = gx ∧ (f x + gx - (f xs + gs)) * (2 * stepFloor cfg L) * (1 + mu * stepFloor cfg L) ^ (k - 1) ≤ ∑ i, (x0 i - xs i) ^ 2) ∧
      (0 < cfg.tol → ∀ N : ℕ, 4 * (∑ i, (x0 i - xs i) ^ 2) ≤ cfg.tol ^ 2 * (1 + mu * stepFloor cfg L) ^ N → k ≤ N + 1) := by
  obtain ⟨k, X, h0, hk, hc, hit, hsteps, hguards, -⟩ := run_steps o R f gr hf hgr L hb hconv g hg prox hp hexact cfg hr x0 Lg s s' x Lf h
  have hfl := stepFloor_pos hr
  obtain ⟨q, hq⟩ : ∃ q, q = 1 + mu * stepFloor cfg L := ⟨_, rfl⟩
  have hq1 : 1 ≤ q := by rw [hq]; linarith [mul_nonneg hmu hfl.le]
  have hq0 : 0 < q := by linarith
  rw [← hq]
  have hstep : ∀ i < k, normSq (X (i + 1) - xs) * q ≤ normSq (X i - xs) ∧ ∃ gz : ℝ, g (X (i + 1)) = gz ∧
      (f (X (i + 1)) + gz - (f xs + gs)) * (2 * stepFloor cfg L) ≤ normSq (X i - xs) := by
    intro i hi
    obtain ⟨t, hlo, -, gz, hgz, hcmp⟩ := hsteps i hi
    have h1 := hcmp xs gs hgs
    have h2 := hgrow _ gz hgz
    have h2' : mu / 2 * normSq (X (i + 1) - xs) ≤ f (X (i + 1)) + gz - (f xs + gs) := by
      unfold normSq; simp only [Pi.sub_apply]; linarith
    have h3 : 0 ≤ normSq (X (i + 1) - xs) := normSq_nonneg _
    have h4 : 0 ≤ f (X (i + 1)) + gz - (f xs + gs) := le_trans (by positivity) h2'
    have h5 : 2 * stepFloor cfg L * (f (X (i + 1)) + gz - (f xs + gs)) ≤ 2 * t * (f (X (i + 1)) + gz - (f xs + gs)) :=
      mul_le_mul_of_nonneg_right (by linarith) h4
    refine ⟨?_, gz, hgz, by linarith⟩
    have h6 : 2 * stepFloor cfg L * (mu / 2 * normSq (X (i + 1) - xs)) ≤ 2 * stepFloor cfg L * (f (X (i + 1)) + gz - (f xs + gs)) :=
      mul_le_mul_of_nonneg_left h2' (by positivity)
    rw [hq]
    linarith
  have hpow : ∀ i ≤ k, normSq (X i - xs) * q ^ i ≤ normSq (x0 - xs) := by
    intro i
    induction i with
    | zero => intro _; rw [h0]; simp
    | succ i ih =>
      intro hi
      have h1 := mul_le_mul_of_nonneg_right (hstep i (by omega)).1 (pow_nonneg hq0.le i)
      have h2 := ih (by omega)
      rw [pow_succ]
      linarith
  refine ⟨k, hc, hit, ?_, fun hk0 => ?_, fun htol N hN => ?_⟩
  · have := hpow k le_rfl
    rw [hk] at this
    exact this
  · obtain ⟨j, rfl⟩ : ∃ j, k = j + 1 := ⟨k - 1, by omega⟩
    obtain ⟨-, gz, hgz, h1⟩ := hstep j (by omega)
    rw [hk] at hgz h1
    refine ⟨gz, hgz, ?_⟩
    have h2 := mul_le_mul_of_nonneg_right h1 (pow_nonneg hq0.le j)
    exact h2.trans (hpow j (by omega))
  · by_contra hcon
    push Not at hcon
    have h1 := (hguards (N + 1) hcon).1
    rcases h1 with h1 | h1
    · linarith
    have h2 := hpow N (by omega)
    have h3 := (hstep N (by omega)).1
    have h4 : normSq (X (N + 1) - X N) ≤ 2 * normSq (X (N + 1) - xs) + 2 * normSq (X N - xs) := by
      simp only [normSq, Pi.sub_apply, Finset.mul_sum, ← Finset.sum_add_distrib]
      refine Finset.sum_le_sum fun i _ => ?_
      nlinarith [sq_nonneg ((X (N + 1) i - xs i) + (X N i - xs i))]
    have h5 : normSq (X (N + 1) - xs) ≤ normSq (X (N + 1) - xs) * q := le_mul_of_one_le_right (normSq_nonneg _) hq1
    have h6 : cfg.tol ^ 2 * q ^ N < 4 * (normSq (X N - xs) * q ^ N) := by
      have := mul_lt_mul_of_pos_right (lt_of_lt_of_le h1 (h4.trans (by linarith : _ ≤ 4 * normSq (X N - xs)))) (pow_pos hq0 N)
      linarith
    have e : normSq (x0 - xs) = ∑ i, (x0 i - xs i) ^ 2 := rfl
    rw [e] at h2
    linarith

/-! ## The linear models -/

theorem linLoss_aboveParabola (A : Matrix (Fin m) (Fin n) ℝ) (b : Vec ℝ m) (mu : ℝ) (hA : ∀ h : Vec ℝ n, mu * ∑ j, h j ^ 2 ≤ ∑ r, (∑ j, A r j * h j) ^ 2) :
    AboveParabola (linValueFunction A b .nonInformative) (linGradientValueFunction A b .nonInformative) mu := by
  obtain ⟨hexp, -⟩ := C31_linear_oracle A b (.nonInformative : InstPrior ℝ n) trivial
  intro x z
  have h1 := hexp x (z - x)
  rw [add_sub_cancel, form_eq_dot] at h1
  have h2 : (z - x) ⬝ᵥ linHessian A (.nonInformative : InstPrior ℝ n) *ᵥ (z - x) = ∑ r, (∑ j, A r j * (z j - x j)) ^ 2 := by
    unfold linHessian
    rw [show (InstPrior.nonInformative : InstPrior ℝ n).hessian = 0 from rfl, add_zero, ← mulVec_mulVec, ← mulVec_dot, ← normSq_eq_dot]
    rfl
  rw [h2] at h1
  change linLoss A b _ x + (∑ i, linGradient A b _ x i * (z i - x i)) + _ ≤ linLoss A b _ z
  have h3 := hA (z - x)
  simp only [Pi.sub_apply] at h1 h3
  rw [h1]
  linarith

theorem sr3_aboveParabola (A : Matrix (Fin m) (Fin n) ℝ) (b : Vec ℝ m) (el : ℝ) (hel : 0 < el) (mu : ℝ) (hmu : 0 < mu)
    (hA : ∀ h : Vec ℝ n, mu * ∑ j, h j ^ 2 ≤ ∑ r, (∑ j, A r j * h j) ^ 2) :
    AboveParabola (sr3Value A b 1 el) (sr3Gradient A b 1 el) (el * mu / (mu + el)) := by
  intro x z
  have key : ∀ h : Vec ℝ n, el * mu / (mu + el) / 2 * ∑ j, h j ^ 2 ≤ 1 / 2 * normSq (sr3F A 1 el *ᵥ h) := by
    intro h
    have h1 : 1 / 2 * normSq (sr3F A 1 el *ᵥ h) = sr3Value A 0 1 el h := by simp [sr3Value]
    rw [h1, ← ((C32_value_is_partial_min A 0 el hel h).2 _).2 rfl]
    obtain ⟨v, hv⟩ : ∃ v, v = (Aᵀ * A + el • 1)⁻¹ *ᵥ (Aᵀ *ᵥ 0 + el • h) := ⟨_, rfl⟩
    rw [← hv]
    unfold relaxedLoss leastSquares
    simp only [Pi.zero_apply, sub_zero]
    have h2 := hA v
    have h3 : el * mu / (mu + el) * ∑ j, h j ^ 2 ≤ mu * (∑ j, v j ^ 2) + el * ∑ j, (v j - h j) ^ 2 := by
      rw [Finset.mul_sum, Finset.mul_sum, Finset.mul_sum, ← Finset.sum_add_distrib]
      refine Finset.sum_le_sum fun j _ => ?_
      have e : mu * v j ^ 2 + el * (v j - h j) ^ 2 - el * mu / (mu + el) * h j ^ 2 = ((mu + el) * v j - el * h j) ^ 2 / (mu + el) := by
        field_simp
        ring
      have : 0 ≤ ((mu + el) * v j - el * h j) ^ 2 / (mu + el) := by positivity
      linarith
    linarith
  have hexp : sr3Value A b 1 el (x + (z - x)) = sr3Value A b 1 el x + sr3Gradient A b 1 el x ⬝ᵥ (z - x) + 1 / 2 * normSq (sr3F A 1 el *ᵥ (z - x)) := by
    unfold sr3Value sr3Gradient
    rw [mulVec_add, show sr3F A 1 el *ᵥ x + sr3F A 1 el *ᵥ (z - x) - sr3G A 1 el *ᵥ b =
      (sr3F A 1 el *ᵥ x - sr3G A 1 el *ᵥ b) + sr3F A 1 el *ᵥ (z - x) by abel, normSq_add, dotProduct_comm ((sr3F A 1 el)ᵀ *ᵥ _) (z - x),
      ← mulVec_dot, dotProduct_comm (sr3F A 1 el *ᵥ (z - x))]
    ring
  rw [add_sub_cancel] at hexp
  have h1 := key (z - x)
  simp only [Pi.sub_apply] at h1
  rw [hexp]
  change _ ≤ sr3Value A b 1 el x + (∑ i, sr3Gradient A b 1 el x i * (z i - x i)) + _
  linarith

/-- **C157**, plain models: let the features be independent, `mu > 0` a lower bound of the quadratic form of `AᵀA`. Then the objective has exactly one minimiser `xs`; in a fit the squared distance to it shrinks
at least by the factor `1 + mu t` per iteration, `t` the smallest step length of the run, the excess of the objective likewise; and the fit reports `converged = True` when the budget exceeds `N + 1`, where
`4 ‖x0 - xs‖² ≤ tol² (1 + mu t)^N`: a number of iterations logarithmic in the tolerance. -/
theorem C157_linear_rate (M : LinModelCfg) (hs : M.sr3 = none) (P : LinProblem ℝ) (x0 : Option (Vec ℝ P.n)) (warm : Bool)
    (w : Option (Vec ℝ P.n)) (lam : ℝ) (hreg : LassoLike (M.regularizer P.n (w.getD fun _ => 1)) lam (w.getD fun _ => 1))
    (L : ℝ) (hL : ∀ h : Vec ℝ P.n, ∑ r, (∑ j, P.a r j * h j) ^ 2 ≤ L * ∑ j, h j ^ 2) (hr : StepRule M.solver L)
    (mu : ℝ) (hmu : 0 < mu) (hA : ∀ h : Vec ℝ P.n, mu * ∑ j, h j ^ 2 ≤ ∑ r, (∑ j, P.a r j * h j) ^ 2) :
    ∃ xs, (∀ u, u ≠ xs → lassoObjective P.a P.b lam (w.getD fun _ => 1) xs < lassoObjective P.a P.b lam (w.getD fun _ => 1) u) ∧
      ∀ x Lf, linFit M P x0 warm w = .ok (x, Lf) → ∃ k : ℕ, Lf.get "iteration" = .ok (.atom (.int k)) ∧
        (∑ j, (x j - xs j) ^ 2) * (1 + mu * stepFloor M.solver L) ^ k ≤ ∑ j, (fitStart x0 warm j - xs j) ^ 2 ∧
        (0 < k → (lassoObjective P.a P.b lam (w.getD fun _ => 1) x - lassoObjective P.a P.b lam (w.getD fun _ => 1) xs) * (2 * stepFloor M.solver L) *
          (1 + mu * stepFloor M.solver L) ^ (k - 1) ≤ ∑ j, (fitStart x0 warm j - xs j) ^ 2) ∧
        ∀ N : ℕ, 0 < M.tol → 4 * (∑ j, (fitStart x0 warm j - xs j) ^ 2) ≤ M.tol ^ 2 * (1 + mu * stepFloor M.solver L) ^ N → (N : ℤ) + 1 < M.maxIter →
          Lf.get "converged" = .ok (.atom (.bool true)) := by
  obtain ⟨prox, hp, hexact, hconvex, -, hpen⟩ := hreg.exact
  obtain ⟨hb, ht⟩ := linLoss_belowParabola P.a P.b L hL
  have ha := linLoss_aboveParabola P.a P.b mu hA
  have hobj : ∀ u, linValueFunction P.a P.b .nonInformative u + lam * ∑ i, (w.getD fun _ => 1) i * |u i| =
      lassoObjective P.a P.b lam (w.getD fun _ => 1) u := by
    intro u
    have := (C31_linear_oracle P.a P.b (.nonInformative : InstPrior ℝ P.n) trivial).2.2.1 u
    change linLoss P.a P.b _ u + _ = _
    rw [this]
    unfold lassoObjective leastSquares
    simp [InstPrior.loss]
  have hcont : Continuous (linValueFunction P.a P.b (.nonInformative : InstPrior ℝ P.n)) := by
    have : linValueFunction P.a P.b (.nonInformative : InstPrior ℝ P.n) = fun u => (∑ r, ((∑ j, P.a r j * u j) - P.b r) ^ 2) / 2 := by
      funext u
      have h1 := hobj u
      unfold lassoObjective at h1
      linarith
    rw [this]
    fun_prop
  obtain ⟨xs, hxs⟩ := exists_minimiser _ _ mu hmu ha hcont (fun u => lam * ∑ i, (w.getD fun _ => 1) i * |u i|) (by fun_prop) hpen
  have hgrow := quadratic_growth _ _ L mu hb ha _ hconvex xs _ rfl fun v gv hgv => by
    have := hxs v
    rw [← WithTop.coe_inj.1 hgv]
    exact this
  refine ⟨xs, fun u hu => ?_, fun x Lf h => ?_⟩
  · have h1 := hgrow u _ rfl
    rw [hobj, hobj] at h1
    have h2 : 0 < ∑ i, (u i - xs i) ^ 2 := by
      obtain ⟨i, hi⟩ := Function.ne_iff.1 hu
      exact Finset.sum_pos' (fun _ _ => sq_nonneg _) ⟨i, Finset.mem_univ _, by have := sub_ne_zero.2 hi; positivity⟩
    have := mul_pos (half_pos hmu) h2
    linarith
  · unfold linFit at h
    simp only [hs] at h
    obtain ⟨pr, hpr, h⟩ := except_bind_ok.1 h
    have hpr' : pr = .nonInformative := by
      unfold linOracleInstantiate at hpr
      cases hm : M.prior with
      | none => rw [hm] at hpr; cases hpr; rfl
      | gaussian params => rw [hm] at hpr; simp [gaussInstantiateArg] at hpr
    subst hpr'
    obtain ⟨⟨⟨y, Ly⟩, sy⟩, hy, h⟩ := except_bind_ok.1 h
    obtain ⟨Lz, hLz, h⟩ := except_bind_ok.1 h
    cases h
    obtain ⟨k, hc, hit, h1, h2, h3⟩ := run_linear (linOracle P.a P.b .nonInformative) _ (linValueFunction P.a P.b .nonInformative)
      (linGradientValueFunction P.a P.b .nonInformative) (fun x s => ⟨s, rfl⟩) (fun x s => ⟨s, rfl⟩) L hb ht _ hconvex prox hp hexact M.solver hr _ _
      mu hmu.le xs _ rfl hgrow _ _ _ _ hy
    refine ⟨k, ?_, h1, fun hk => ?_, fun N htol hN hlt => ?_⟩
    · rw [logIC_keeps _ _ _ _ hLz _ (by decide) (by decide)]; exact hit
    · obtain ⟨gx, hgx, h4⟩ := h2 hk
      rw [show gx = lam * ∑ i, (w.getD fun _ => 1) i * |y i| from (WithTop.coe_inj.1 hgx).symm, hobj, hobj] at h4
      exact h4
    · have h4 := h3 htol N hN
      have h5 : (k : ℤ) < M.solver.maxIter := by
        change (k : ℤ) < M.maxIter
        omega
      rw [logIC_keeps _ _ _ _ hLz _ (by decide) (by decide), hc, decide_eq_true h5]

/-- **C157**, SR3 models: the same for the relaxed objective, whose curvature is at least `el mu / (mu + el)`. -/
theorem C157_linear_rate_sr3 (M : LinModelCfg) (el : ℝ) (hel : 0 < el) (hs : M.sr3 = some (el, false)) (P : LinProblem ℝ) (hcm : P.c = 1)
    (x0 : Option (Vec ℝ P.n)) (warm : Bool)
    (w : Option (Vec ℝ P.n)) (lam : ℝ) (hreg : LassoLike (M.regularizer P.n (w.getD fun _ => 1)) lam (w.getD fun _ => 1))
    (hr : StepRule M.solver el) (mu : ℝ) (hmu : 0 < mu) (hA : ∀ h : Vec ℝ P.n, mu * ∑ j, h j ^ 2 ≤ ∑ r, (∑ j, P.a r j * h j) ^ 2) :
    ∃ vs xs, (∀ v u, u ≠ xs → relaxedLassoObjective P.a P.b el lam (w.getD fun _ => 1) vs xs < relaxedLassoObjective P.a P.b el lam (w.getD fun _ => 1) v u) ∧
      (∀ v, relaxedLassoObjective P.a P.b el lam (w.getD fun _ => 1) vs xs ≤ relaxedLassoObjective P.a P.b el lam (w.getD fun _ => 1) v xs) ∧
      ∀ x Lf, linFit M P x0 warm w = .ok (x, Lf) → ∃ k : ℕ, Lf.get "iteration" = .ok (.atom (.int k)) ∧
        (∑ j, (x j - xs j) ^ 2) * (1 + el * mu / (mu + el) * stepFloor M.solver el) ^ k ≤ ∑ j, (fitStart x0 warm j - xs j) ^ 2 ∧
        ∀ N : ℕ, 0 < M.tol → 4 * (∑ j, (fitStart x0 warm j - xs j) ^ 2) ≤ M.tol ^ 2 * (1 + el * mu / (mu + el) * stepFloor M.solver el) ^ N → (N : ℤ) + 1 < M.maxIter →
          Lf.get "converged" = .ok (.atom (.bool true)) := by
  obtain ⟨prox, hp, hexact, hconvex, -, hpen⟩ := hreg.exact
  obtain ⟨hb, ht⟩ := sr3_belowParabola P.a P.b el hel
  have ha := sr3_aboveParabola P.a P.b el hel mu hmu hA
  have hmu' : 0 < el * mu / (mu + el) := by positivity
  have hcont : Continuous (sr3Value P.a P.b 1 el) := by
    unfold sr3Value normSq
    simp only [Matrix.mulVec, dotProduct, Pi.sub_apply]
    fun_prop
  obtain ⟨xs, hxs⟩ := exists_minimiser _ _ _ hmu' ha hcont (fun u => lam * ∑ i, (w.getD fun _ => 1) i * |u i|) (by fun_prop) hpen
  have hgrow := quadratic_growth _ _ el _ hb ha _ hconvex xs _ rfl fun v gv hgv => by
    have := hxs v
    rw [← WithTop.coe_inj.1 hgv]
    exact this
  obtain ⟨vs, hvs⟩ := (sr3Value_lasso P.a P.b el lam hel (w.getD fun _ => 1) xs).1
  refine ⟨vs, xs, fun v u hu => ?_, fun v => ?_, fun x Lf h => ?_⟩
  · have h1 := hgrow u _ rfl
    have h2 : 0 < ∑ i, (u i - xs i) ^ 2 := by
      obtain ⟨i, hi⟩ := Function.ne_iff.1 hu
      exact Finset.sum_pos' (fun _ _ => sq_nonneg _) ⟨i, Finset.mem_univ _, by have := sub_ne_zero.2 hi; positivity⟩
    have h3 := mul_pos (half_pos hmu') h2
    have h4 := (sr3Value_lasso P.a P.b el lam hel (w.getD fun _ => 1) u).2 v
    rw [hvs]
    linarith
  · rw [hvs]
    exact (sr3Value_lasso P.a P.b el lam hel (w.getD fun _ => 1) xs).2 v
  · unfold linFit at h
    simp only [hs, hcm] at h
    cases hm : M.prior with
    | gaussian params => rw [hm] at h; cases h
    | none =>
      rw [hm] at h
      simp only at h
      by_cases hdet : (sr3H P.a 1 el).det = 0
      · rw [if_pos hdet] at h; cases h
      rw [if_neg hdet] at h
      simp only [Bool.false_eq_true, if_false] at h
      obtain ⟨⟨⟨y, Ly⟩, sy⟩, hy, h⟩ := except_bind_ok.1 h
      obtain ⟨Lz, hLz, h⟩ := except_bind_ok.1 h
      cases h
      obtain ⟨k, hc, hit, h1, -, h3⟩ := run_linear (sr3Oracle P.a P.b 1 el false) _ (sr3Value P.a P.b 1 el) (sr3Gradient P.a P.b 1 el)
        (fun x s => ⟨s, sr3Oracle_value _ _ _ hel.le x s⟩) (fun x s => ⟨s, sr3Oracle_grad _ _ _ hel.le x s⟩) el hb ht _ hconvex prox hp hexact M.solver hr _ _
        _ hmu'.le xs _ rfl hgrow _ _ _ _ hy
      refine ⟨k, ?_, h1, fun N htol hN hlt => ?_⟩
      · rw [logIC_keeps _ _ _ _ hLz _ (by decide) (by decide)]; exact hit
      · have h4 := h3 htol N hN
        have h5 : (k : ℤ) < M.solver.maxIter := by
          change (k : ℤ) < M.maxIter
          omega
        rw [logIC_keeps _ _ _ _ hLz _ (by decide) (by decide), hc, decide_eq_true h5]

/-- **C157**, a number of iterations that can be computed from the data: with `F(x0)` the objective at the start, the fit reports `converged = True` when the budget exceeds `N + 1` and
`8 F(x0) / mu ≤ tol² (1 + mu t)^N`. -/
theorem C157_budget (M : LinModelCfg) (hs : M.sr3 = none) (P : LinProblem ℝ) (x0 : Option (Vec ℝ P.n)) (warm : Bool)
    (w : Option (Vec ℝ P.n)) (lam : ℝ) (hreg : LassoLike (M.regularizer P.n (w.getD fun _ => 1)) lam (w.getD fun _ => 1))
    (L : ℝ) (hL : ∀ h : Vec ℝ P.n, ∑ r, (∑ j, P.a r j * h j) ^ 2 ≤ L * ∑ j, h j ^ 2) (hr : StepRule M.solver L)
    (mu : ℝ) (hmu : 0 < mu) (hA : ∀ h : Vec ℝ P.n, mu * ∑ j, h j ^ 2 ≤ ∑ r, (∑ j, P.a r j * h j) ^ 2) (htol : 0 < M.tol) (N : ℕ)
    (hN : 8 * lassoObjective P.a P.b lam (w.getD fun _ => 1) (fitStart x0 warm) / mu ≤ M.tol ^ 2 * (1 + mu * stepFloor M.solver L) ^ N)
    (hmax : (N : ℤ) + 1 < M.maxIter) (x : Vec ℝ P.n) (Lf : Logger (PyVal ℝ P.n)) (h : linFit M P x0 warm w = .ok (x, Lf)) :
    Lf.get "converged" = .ok (.atom (.bool true)) := by
  obtain ⟨xs, hmin, hfit⟩ := C157_linear_rate M hs P x0 warm w lam hreg L hL hr mu hmu hA
  obtain ⟨k, -, -, -, hconv⟩ := hfit x Lf h
  refine hconv N htol (le_trans ?_ hN) hmax
  obtain ⟨-, -, -, hconvex, -, hpen⟩ := hreg.exact
  obtain ⟨hb, -⟩ := linLoss_belowParabola P.a P.b L hL
  have ha := linLoss_aboveParabola P.a P.b mu hA
  have hobj : ∀ u, linValueFunction P.a P.b .nonInformative u + lam * ∑ i, (w.getD fun _ => 1) i * |u i| =
      lassoObjective P.a P.b lam (w.getD fun _ => 1) u := by
    intro u
    have := (C31_linear_oracle P.a P.b (.nonInformative : InstPrior ℝ P.n) trivial).2.2.1 u
    change linLoss P.a P.b _ u + _ = _
    rw [this]
    unfold lassoObjective leastSquares
    simp [InstPrior.loss]
  have hle : ∀ u, lassoObjective P.a P.b lam (w.getD fun _ => 1) xs ≤ lassoObjective P.a P.b lam (w.getD fun _ => 1) u := by
    intro u
    by_cases hu : u = xs
    · rw [hu]
    · exact (hmin u hu).le
  have h1 := quadratic_growth _ _ L mu hb ha _ hconvex xs _ rfl (fun v gv hgv => by
    rw [← WithTop.coe_inj.1 hgv, hobj, hobj]
    exact hle v) (fitStart x0 warm) _ rfl
  rw [hobj, hobj] at h1
  have h2 : 0 ≤ lassoObjective P.a P.b lam (w.getD fun _ => 1) xs := by
    have h3 := hpen xs
    have h4 : 0 ≤ (∑ r, ((∑ j, P.a r j * xs j) - P.b r) ^ 2) / 2 := div_nonneg (Finset.sum_nonneg fun _ _ => sq_nonneg _) (by norm_num)
    unfold lassoObjective
    linarith
  rw [le_div_iff₀ hmu]
  linarith

/-- Two observations `5` and `0` of two independent features. -/
def idProblem : LinProblem ℝ := ⟨2, 2, 1, ![5, 0], 1, none, .none⟩

/-- Non-vacuity: `LinearL1Model(lam=1)` with its default step, tolerance and line search converges on `idProblem` within a budget of 565 iterations. -/
example (x : Vec ℝ 2) (Lf : Logger (PyVal ℝ 2)) (h : linFit (lassoModel 565) idProblem none false none = .ok (x, Lf)) :
    Lf.get "converged" = .ok (.atom (.bool true)) := by
  have e : ∀ h : Vec ℝ idProblem.n, ∑ r, (∑ j, idProblem.a r j * h j) ^ 2 = ∑ j, h j ^ 2 := by
    intro h
    refine Finset.sum_congr rfl fun r _ => ?_
    change (∑ j, (1 : Matrix (Fin 2) (Fin 2) ℝ) r j * (h : Vec ℝ 2) j) ^ 2 = _
    congr 1
    exact congrFun (Matrix.one_mulVec (h : Vec ℝ 2)) r
  have hobj : lassoObjective idProblem.a idProblem.b 1 (fun _ => 1) (fun _ => 1) = 21 / 2 := by
    change (∑ r : Fin 2, ((∑ j : Fin 2, (1 : Matrix (Fin 2) (Fin 2) ℝ) r j * 1) - (![5, 0] : Vec ℝ 2) r) ^ 2) / 2 + 1 * ∑ i : Fin 2, (1 : ℝ) * |(1 : ℝ)| = 21 / 2
    norm_num [Fin.sum_univ_two, Matrix.one_apply]
  have hfl : stepFloor (lassoModel 565).solver 1 = 1 / 20 := by
    norm_num [stepFloor, lassoModel, LinModelCfg.solver, LinModelCfg.step]
  refine C157_budget (lassoModel 565) rfl idProblem none false none 1 (Or.inr ⟨rfl, zero_le_one, fun _ => zero_le_one⟩) 1
    (fun h => by rw [e]; simp) ⟨?_, one_pos, ?_⟩ 1 one_pos (fun h => by rw [e]; simp) (by norm_num [lassoModel]) 563 ?_ (by norm_num [lassoModel]) x Lf h
  · norm_num [lassoModel, LinModelCfg.solver, LinModelCfg.step]
  · norm_num [lassoModel, LinModelCfg.solver]
  · rw [hfl]
    change 8 * lassoObjective idProblem.a idProblem.b 1 (fun _ => 1) (fun _ => 1) / 1 ≤ (1 / 10 ^ 5 : ℝ) ^ 2 * _
    rw [hobj, show (1 + 1 * (1 / 20) : ℝ) = 21 / 20 by norm_num, show 563 = 200 + (200 + 163) by norm_num, pow_add, pow_add]
    norm_num

/-- Non-vacuity of the SR3 version: the default step `1/el` on `idProblem`, which contracts by the factor `1 + 1/(1 + el)`. -/
example (el : ℝ) (h0 : 0 < el) (maxIter : ℤ) :
    StepRule ({ lassoModel maxIter with sr3 := some (el, false), stepping := "fixed" } : LinModelCfg).solver el ∧
    1 + el * 1 / (1 + el) * stepFloor ({ lassoModel maxIter with sr3 := some (el, false), stepping := "fixed" } : LinModelCfg).solver el = 1 + 1 / (1 + el) := by
  refine ⟨⟨?_, h0, ?_⟩, ?_⟩
  · simp [LinModelCfg.solver, LinModelCfg.step, lassoModel, h0.ne', h0]
  · simp [LinModelCfg.solver, LinModelCfg.step, lassoModel, h0.ne']
  · simp [stepFloor, LinModelCfg.solver, LinModelCfg.step, lassoModel, h0.ne']
    field_simp

end Verif
