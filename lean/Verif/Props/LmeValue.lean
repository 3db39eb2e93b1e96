import Verif.Props.LmeNewton
import Mathlib.Analysis.Calculus.FDeriv.Basic
import Mathlib.Topology.Algebra.Module.FiniteDimension

/-!
# C70: value function and gradient of the SR3 mixed-effects oracle
-/

open Matrix Filter Topology

namespace Verif

variable {p q : ℕ}

/-- The relaxed loss, `f(beta, gamma) + lb/2 |beta - tbeta|^2 + lg/2 |gamma - tgamma|^2`. -/
noncomputable def lmeRelaxedLoss (D : List (LmeGroup p q)) (P : LmeInstPrior ℝ p q) (S : Sr3Params) (beta : Vec ℝ p)
    (gamma : Vec ℝ q) (tbeta : Vec ℝ p) (tgamma : Vec ℝ q) : ℝ :=
  marginalNLL D beta gamma + P.loss beta gamma + S.lb / 2 * ∑ i, (beta i - tbeta i) ^ 2
    + S.lg / 2 * ∑ j, (gamma j - tgamma j) ^ 2

theorem lmeSr3Loss_ok {D : List (LmeGroup p q)} {P : LmeInstPrior ℝ p q} {S : Sr3Params} {beta tbeta : Vec ℝ p}
    {gamma tgamma : Vec ℝ q} (hd : InDomain D gamma) :
    lmeSr3Loss D P S beta gamma tbeta tgamma = .ok (lmeRelaxedLoss D P S beta gamma tbeta tgamma) := by
  have h1 : lmeLoss D P beta gamma = .ok _ := lmeLoss_ok.2 ⟨hd, rfl⟩
  unfold lmeSr3Loss
  rw [h1]
  rfl

/-- The settings with which `value_function` and `gradient_value_function` call the inner solver by default. -/
structure IpCfg.Plain (c : IpCfg p q) : Prop where
  kind : c.kind = .positivePart
  lineSearch : c.lineSearch = none
  reg : c.reg = none
  increaseLambdas : c.increaseLambdas = false

theorem IpCfg.Plain.default {c : IpCfg p q} (h : c.Plain) : c.Default :=
  ⟨h.kind, h.lineSearch, fun _ e => by rw [h.reg] at e; cases e⟩

theorem lmeFindIp_relaxed {D : List (LmeGroup p q)} {P : LmeInstPrior ℝ p q} {c : IpCfg p q} (hc : c.Plain)
    {o o' : IpOracle p q} {beta tbeta : Vec ℝ p} {gamma tgamma : Vec ℝ q} {r : IpResult p q}
    (h : lmeFindIp D P c o beta gamma tbeta tgamma = .ok (r, o')) :
    r.tbeta = tbeta ∧ r.tgamma = tgamma ∧ o'.S = o.S := by
  unfold lmeFindIp at h
  by_cases hq : q = 0
  · rw [if_pos hq] at h
    obtain ⟨b, -, h⟩ := ebind_ok.1 h
    cases h
    exact ⟨rfl, rfl, rfl⟩
  · rw [if_neg hq] at h
    obtain ⟨s, hs, h⟩ := ebind_ok.1 h
    cases h
    exact ipLoop_relaxed hc.reg hc.increaseLambdas hs

/-- Both calls return, and are about the same inner point with nonnegative variances. -/
theorem value_calls {D : List (LmeGroup p q)} (hD : PosVar D) {P : LmeInstPrior ℝ p q} (hP : P.Reachable) {c : IpCfg p q}
    (hc : c.Plain) {o : IpOracle p q} (hlb : 0 < o.S.lb) (hlg : 0 ≤ o.S.lg) {tbeta : Vec ℝ p} {tgamma : Vec ℝ q}
    (hg : ∀ j, 0 ≤ (ipStart c o ((2 : ℝ) • tbeta) ((2 : ℝ) • tgamma)).2 j) :
    ∃ beta gamma o', (∀ j, 0 ≤ gamma j) ∧ o'.S = o.S ∧
      lmeSr3ValueFunction D P c o tbeta tgamma = .ok (lmeRelaxedLoss D P o.S beta gamma tbeta tgamma, o') ∧
      lmeSr3GradientValueFunction D P c o tbeta tgamma
        = .ok ((-(o.S.lb • (beta - tbeta)), -(o.S.lg • (gamma - tgamma))), o') := by
  obtain ⟨r, o', h, h1, -⟩ := C81_inner_solver_total D hD P hP c hc.default o hlb hlg ((2 : ℝ) • tbeta) tbeta
    ((2 : ℝ) • tgamma) tgamma hg
  obtain ⟨e1, e2, e3⟩ := lmeFindIp_relaxed hc h
  refine ⟨r.beta, r.gamma, o', h1, e3, ?_, ?_⟩
  · unfold lmeSr3ValueFunction
    rw [h]
    change (lmeSr3Loss D P o'.S r.beta r.gamma r.tbeta r.tgamma >>= _) = _
    rw [e1, e2, e3, lmeSr3Loss_ok (inDomain_of_nonneg hD h1)]
    rfl
  · unfold lmeSr3GradientValueFunction
    rw [h]
    change Except.ok ((-(o'.S.lb • (r.beta - tbeta)), -(o'.S.lg • (r.gamma - tgamma))), o') = _
    rw [e3]

theorem quad_shift {n : ℕ} (lam : ℝ) (x w w' : Vec ℝ n) : lam / 2 * ∑ i, (x i - w' i) ^ 2
    = lam / 2 * ∑ i, (x i - w i) ^ 2 + (-(lam • (x - w))) ⬝ᵥ (w' - w) + lam / 2 * ∑ i, (w' i - w i) ^ 2 := by
  simp only [dotProduct, Finset.mul_sum, ← Finset.sum_add_distrib]
  refine Finset.sum_congr rfl fun i _ => ?_
  simp only [Pi.neg_apply, Pi.smul_apply, Pi.sub_apply, smul_eq_mul]
  ring

theorem lmeRelaxedLoss_shift (D : List (LmeGroup p q)) (P : LmeInstPrior ℝ p q) (S : Sr3Params) (beta tb tb' : Vec ℝ p)
    (gamma tg tg' : Vec ℝ q) : lmeRelaxedLoss D P S beta gamma tb' tg'
      = lmeRelaxedLoss D P S beta gamma tb tg + (-(S.lb • (beta - tb))) ⬝ᵥ (tb' - tb)
        + (-(S.lg • (gamma - tg))) ⬝ᵥ (tg' - tg)
        + S.lb / 2 * ∑ i, (tb' i - tb i) ^ 2 + S.lg / 2 * ∑ j, (tg' j - tg j) ^ 2 := by
  unfold lmeRelaxedLoss
  rw [quad_shift S.lb beta tb tb', quad_shift S.lg gamma tg tg']
  ring

/-- **C70, upper bound**: for positive noise, a Gaussian or non-informative prior, the default settings, and two oracle
states with the same constants and nonnegative starting variances: all calls return, and if the value `v'` returned at
`w'` is within `eps` of the smallest relaxed loss at `w'` (`eps = 0`: the inner problem is solved exactly there) then
`v' ≤ v + gradient(w)·(w' - w) + 1/2 Σ lam_i (w'_i - w_i)² + eps`.
In particular a proximal gradient step of length `1 / L`, `L ≥ lb, lg`, increases the objective by at most `eps`,
for every penalty `R`. -/
theorem C70_upper_bound (D : List (LmeGroup p q)) (hD : PosVar D) (P : LmeInstPrior ℝ p q) (hP : P.Reachable)
    (c : IpCfg p q) (hc : c.Plain) (o o' : IpOracle p q) (hS : o'.S = o.S) (hlb : 0 < o.S.lb) (hlg : 0 ≤ o.S.lg)
    (tb tb' : Vec ℝ p) (tg tg' : Vec ℝ q) (hg : ∀ j, 0 ≤ (ipStart c o ((2 : ℝ) • tb) ((2 : ℝ) • tg)).2 j)
    (hg' : ∀ j, 0 ≤ (ipStart c o' ((2 : ℝ) • tb') ((2 : ℝ) • tg')).2 j) :
    ∃ v gb gg v' o1 o2, lmeSr3ValueFunction D P c o tb tg = .ok (v, o1) ∧
      lmeSr3GradientValueFunction D P c o tb tg = .ok ((gb, gg), o1) ∧
      lmeSr3ValueFunction D P c o' tb' tg' = .ok (v', o2) ∧
      ∀ eps, (∀ beta gamma l, (∀ j, 0 ≤ gamma j) → lmeSr3Loss D P o.S beta gamma tb' tg' = .ok l → v' ≤ l + eps) →
        v' ≤ v + gb ⬝ᵥ (tb' - tb) + gg ⬝ᵥ (tg' - tg) + o.S.lb / 2 * ∑ i, (tb' i - tb i) ^ 2
          + o.S.lg / 2 * ∑ j, (tg' j - tg j) ^ 2 + eps ∧
        ∀ (R : Vec ℝ p → Vec ℝ q → WithTop ℝ) (L r r' : ℝ), o.S.lb ≤ L → o.S.lg ≤ L → R tb tg = r → R tb' tg' = r' →
          (∀ ub ug (ru : ℝ), R ub ug = ru →
            1 / L * r' + (∑ i, (tb' i - (tb i - 1 / L * gb i)) ^ 2 + ∑ j, (tg' j - (tg j - 1 / L * gg j)) ^ 2) / 2
            ≤ 1 / L * ru + (∑ i, (ub i - (tb i - 1 / L * gb i)) ^ 2
              + ∑ j, (ug j - (tg j - 1 / L * gg j)) ^ 2) / 2) →
          v' + r' ≤ v + r + eps := by
  obtain ⟨beta, gamma, o1, h1, -, h2, h3⟩ := value_calls hD hP hc hlb hlg hg
  obtain ⟨beta', gamma', o2, h1', -, h2', -⟩ := value_calls hD hP hc (o := o') (by rw [hS]; exact hlb)
    (by rw [hS]; exact hlg) hg'
  refine ⟨_, _, _, _, o1, o2, h2, h3, h2', fun eps hopt => ?_⟩
  have hA := hopt beta gamma _ h1 (lmeSr3Loss_ok (inDomain_of_nonneg hD h1))
  rw [lmeRelaxedLoss_shift D P o.S beta tb tb' gamma tg tg'] at hA
  refine ⟨hA, fun R L r r' hL1 hL2 hr hr' hprox => ?_⟩
  have hL : 0 < L := lt_of_lt_of_le hlb hL1
  have hB := hprox tb tg r hr
  obtain ⟨gb, hgb⟩ : ∃ gb, gb = -(o.S.lb • (beta - tb)) := ⟨_, rfl⟩
  obtain ⟨gg, hgg⟩ : ∃ gg, gg = -(o.S.lg • (gamma - tg)) := ⟨_, rfl⟩
  rw [← hgb, ← hgg] at hA hB
  have key : ∀ {n : ℕ} (a b g : Vec ℝ n), ∑ i, (a i - (b i - 1 / L * g i)) ^ 2
      = ∑ i, (b i - (b i - 1 / L * g i)) ^ 2 + 2 / L * (g ⬝ᵥ (a - b)) + ∑ i, (a i - b i) ^ 2 := by
    intro n a b g
    simp only [dotProduct, Finset.mul_sum, ← Finset.sum_add_distrib]
    refine Finset.sum_congr rfl fun i _ => ?_
    simp only [Pi.sub_apply]
    ring
  rw [key tb' tb gb, key tg' tg gg] at hB
  have hC : 1 / L * (r' - r + gb ⬝ᵥ (tb' - tb) + gg ⬝ᵥ (tg' - tg))
      + (∑ i, (tb' i - tb i) ^ 2 + ∑ j, (tg' j - tg j) ^ 2) / 2 ≤ 0 := by
    have e : (2 : ℝ) / L = 2 * (1 / L) := by ring
    rw [e] at hB
    nlinarith [hB]
  have hD : (r' - r + gb ⬝ᵥ (tb' - tb) + gg ⬝ᵥ (tg' - tg))
      + L * ((∑ i, (tb' i - tb i) ^ 2 + ∑ j, (tg' j - tg j) ^ 2) / 2) ≤ 0 := by
    have := mul_le_mul_of_nonneg_left hC hL.le
    rw [mul_add, ← mul_assoc, mul_one_div_cancel hL.ne', one_mul, mul_zero] at this
    exact this
  have s1 : 0 ≤ ∑ i, (tb' i - tb i) ^ 2 := Finset.sum_nonneg fun i _ => sq_nonneg _
  have s2 : 0 ≤ ∑ j, (tg' j - tg j) ^ 2 := Finset.sum_nonneg fun i _ => sq_nonneg _
  have := mul_le_mul_of_nonneg_right hL1 s1
  have := mul_le_mul_of_nonneg_right hL2 s2
  nlinarith [hA, hD]

theorem sum_sq_le {n : ℕ} (x : Vec ℝ n) : ∑ i, x i ^ 2 ≤ n * ‖x‖ ^ 2 := by
  have : ∀ i ∈ Finset.univ, x i ^ 2 ≤ ‖x‖ ^ 2 := fun i _ => by
    rw [← sq_abs]
    exact pow_le_pow_left₀ (abs_nonneg _) (norm_le_pi_norm x i) 2
  have := Finset.sum_le_card_nsmul _ _ _ this
  simpa using this

theorem abs_dot_le {n : ℕ} (x y : Vec ℝ n) : |x ⬝ᵥ y| ≤ n * (‖x‖ * ‖y‖) := by
  refine (Finset.abs_sum_le_sum_abs _ _).trans ?_
  have : ∀ i ∈ Finset.univ, |x i * y i| ≤ ‖x‖ * ‖y‖ := fun i _ => by
    rw [abs_mul]
    exact mul_le_mul (norm_le_pi_norm x i) (norm_le_pi_norm y i) (abs_nonneg _) (norm_nonneg _)
  have := Finset.sum_le_card_nsmul _ _ _ this
  simpa using this

/-- The linear form `w ↦ gb · w.1 + gg · w.2`. -/
noncomputable def pairForm (g : Vec ℝ p × Vec ℝ q) : (Vec ℝ p × Vec ℝ q) →L[ℝ] ℝ :=
  LinearMap.toContinuousLinearMap
    { toFun := fun w => g.1 ⬝ᵥ w.1 + g.2 ⬝ᵥ w.2
      map_add' := fun a b => by simp only [Prod.fst_add, Prod.snd_add, dotProduct_add]; ring
      map_smul' := fun a b => by
        simp only [Prod.smul_fst, Prod.smul_snd, dotProduct_smul, smul_eq_mul, RingHom.id_apply]; ring }

/-- Sandwich: a function with quadratic upper bounds whose slopes are continuous is differentiable with that slope. -/
theorem hasFDerivAt_of_upper {V : Vec ℝ p × Vec ℝ q → ℝ} {G : Vec ℝ p × Vec ℝ q → Vec ℝ p × Vec ℝ q}
    {w0 : Vec ℝ p × Vec ℝ q} {lb lg : ℝ} (hlb : 0 ≤ lb) (hlg : 0 ≤ lg) (hG : ContinuousAt G w0)
    (h1 : ∀ᶠ w in 𝓝 w0, V w ≤ V w0 + (G w0).1 ⬝ᵥ (w.1 - w0.1) + (G w0).2 ⬝ᵥ (w.2 - w0.2)
      + lb / 2 * ∑ i, (w.1 i - w0.1 i) ^ 2 + lg / 2 * ∑ j, (w.2 j - w0.2 j) ^ 2)
    (h2 : ∀ᶠ w in 𝓝 w0, V w0 ≤ V w + (G w).1 ⬝ᵥ (w0.1 - w.1) + (G w).2 ⬝ᵥ (w0.2 - w.2)
      + lb / 2 * ∑ i, (w0.1 i - w.1 i) ^ 2 + lg / 2 * ∑ j, (w0.2 j - w.2 j) ^ 2) :
    HasFDerivAt V (pairForm (G w0)) w0 := by
  rw [hasFDerivAt_iff_isLittleO]
  refine Asymptotics.IsLittleO.of_bound fun ε hε => ?_
  have hto : Tendsto (fun w => ((p : ℝ) + q) * ‖G w - G w0‖ + (lb / 2 * p + lg / 2 * q) * ‖w - w0‖) (𝓝 w0) (𝓝 0) := by
    have a1 : Tendsto (fun w => ‖G w - G w0‖) (𝓝 w0) (𝓝 0) := by
      have := (hG.tendsto.sub_const (G w0)).norm
      simpa using this
    have a2 : Tendsto (fun w => ‖w - w0‖) (𝓝 w0) (𝓝 0) := by
      have := ((tendsto_id (x := 𝓝 w0)).sub_const w0).norm
      simpa using this
    have := (a1.const_mul ((p : ℝ) + q)).add (a2.const_mul (lb / 2 * p + lg / 2 * q))
    simpa using this
  filter_upwards [h1, h2, hto.eventually (ge_mem_nhds hε)] with w u1 u2 u3
  have e : pairForm (G w0) (w - w0) = (G w0).1 ⬝ᵥ (w.1 - w0.1) + (G w0).2 ⬝ᵥ (w.2 - w0.2) := rfl
  rw [e, Real.norm_eq_abs]
  have n1 : ‖w.1 - w0.1‖ ≤ ‖w - w0‖ := norm_fst_le (w - w0)
  have n2 : ‖w.2 - w0.2‖ ≤ ‖w - w0‖ := norm_snd_le (w - w0)
  have m1 : ‖(G w).1 - (G w0).1‖ ≤ ‖G w - G w0‖ := norm_fst_le (G w - G w0)
  have m2 : ‖(G w).2 - (G w0).2‖ ≤ ‖G w - G w0‖ := norm_snd_le (G w - G w0)
  obtain ⟨d, hd⟩ : ∃ d, d = ‖w - w0‖ := ⟨_, rfl⟩
  obtain ⟨γ, hγ⟩ : ∃ γ, γ = ‖G w - G w0‖ := ⟨_, rfl⟩
  rw [← hd] at n1 n2 u3 ⊢
  rw [← hγ] at m1 m2 u3
  have hd0 : 0 ≤ d := hd ▸ norm_nonneg _
  have hγ0 : 0 ≤ γ := hγ ▸ norm_nonneg _
  have q1 : lb / 2 * ∑ i, (w.1 i - w0.1 i) ^ 2 ≤ lb / 2 * (p * d ^ 2) := by
    refine mul_le_mul_of_nonneg_left ?_ (by linarith)
    refine (sum_sq_le (w.1 - w0.1)).trans ?_
    exact mul_le_mul_of_nonneg_left (pow_le_pow_left₀ (norm_nonneg _) n1 2) (Nat.cast_nonneg _)
  have q2 : lg / 2 * ∑ i, (w.2 i - w0.2 i) ^ 2 ≤ lg / 2 * (q * d ^ 2) := by
    refine mul_le_mul_of_nonneg_left ?_ (by linarith)
    refine (sum_sq_le (w.2 - w0.2)).trans ?_
    exact mul_le_mul_of_nonneg_left (pow_le_pow_left₀ (norm_nonneg _) n2 2) (Nat.cast_nonneg _)
  have c1 : |((G w).1 - (G w0).1) ⬝ᵥ (w.1 - w0.1)| ≤ p * (γ * d) := (abs_dot_le _ _).trans
    (mul_le_mul_of_nonneg_left (mul_le_mul m1 n1 (norm_nonneg _) hγ0) (Nat.cast_nonneg _))
  have c2 : |((G w).2 - (G w0).2) ⬝ᵥ (w.2 - w0.2)| ≤ q * (γ * d) := (abs_dot_le _ _).trans
    (mul_le_mul_of_nonneg_left (mul_le_mul m2 n2 (norm_nonneg _) hγ0) (Nat.cast_nonneg _))
  have f1 : ∀ {n : ℕ} (a b : Vec ℝ n), ∑ i, (a i - b i) ^ 2 = ∑ i, (b i - a i) ^ 2 := fun a b =>
    Finset.sum_congr rfl fun i _ => by ring
  have f2 : ∀ {n : ℕ} (g a b : Vec ℝ n), g ⬝ᵥ (a - b) = -(g ⬝ᵥ (b - a)) := fun g a b => by
    rw [← dotProduct_neg, neg_sub]
  rw [f1 w0.1 w.1, f1 w0.2 w.2, f2 _ w0.1 w.1, f2 _ w0.2 w.2] at u2
  rw [sub_dotProduct] at c1 c2
  have hfin := mul_le_mul_of_nonneg_right u3 hd0
  have b1 := abs_le.1 c1
  have b2 := abs_le.1 c2
  have hz : 0 ≤ ((p : ℝ) + q) * γ * d := by positivity
  rw [abs_le]
  constructor
  · nlinarith [b1.1, b2.1, q1, q2, u2]
  · nlinarith [b1.1, b2.1, q1, q2, u1]

/-- **C70, derivative**: where the inner problem is solved exactly for all `w` near `w0` (from any oracle states with the same
constants, e.g. those left by earlier evaluations) and the returned gradients are continuous at `w0`, what
`gradient_value_function(w0)` returns is the derivative of what `value_function` returns. -/
theorem C70_gradient (D : List (LmeGroup p q)) (hD : PosVar D) (P : LmeInstPrior ℝ p q) (hP : P.Reachable)
    (c : IpCfg p q) (hc : c.Plain) (S : Sr3Params) (hlb : 0 < S.lb) (hlg : 0 ≤ S.lg)
    (st : Vec ℝ p × Vec ℝ q → IpOracle p q) (hst : ∀ w, (st w).S = S) (w0 : Vec ℝ p × Vec ℝ q)
    (V : Vec ℝ p × Vec ℝ q → ℝ) (G : Vec ℝ p × Vec ℝ q → Vec ℝ p × Vec ℝ q)
    (hpos : ∀ᶠ w in 𝓝 w0, ∀ j, 0 ≤ (ipStart c (st w) ((2 : ℝ) • w.1) ((2 : ℝ) • w.2)).2 j)
    (hV : ∀ᶠ w in 𝓝 w0, ∃ o', lmeSr3ValueFunction D P c (st w) w.1 w.2 = .ok (V w, o'))
    (hG : ∀ᶠ w in 𝓝 w0, ∃ o', lmeSr3GradientValueFunction D P c (st w) w.1 w.2 = .ok (G w, o'))
    (hopt : ∀ᶠ w in 𝓝 w0, ∀ beta gamma l, (∀ j, 0 ≤ gamma j) → lmeSr3Loss D P S beta gamma w.1 w.2 = .ok l → V w ≤ l)
    (hcont : ContinuousAt G w0) :
    ∃ V' : (Vec ℝ p × Vec ℝ q) →L[ℝ] ℝ, HasFDerivAt V V' w0 ∧
      ∀ d, V' d = ∑ i, (G w0).1 i * d.1 i + ∑ j, (G w0).2 j * d.2 j := by
  refine ⟨pairForm (G w0), ?_, fun d => rfl⟩
  have main : ∀ w w' : Vec ℝ p × Vec ℝ q,
      (∀ j, 0 ≤ (ipStart c (st w) ((2 : ℝ) • w.1) ((2 : ℝ) • w.2)).2 j) →
      (∀ j, 0 ≤ (ipStart c (st w') ((2 : ℝ) • w'.1) ((2 : ℝ) • w'.2)).2 j) →
      (∃ o', lmeSr3ValueFunction D P c (st w) w.1 w.2 = .ok (V w, o')) →
      (∃ o', lmeSr3ValueFunction D P c (st w') w'.1 w'.2 = .ok (V w', o')) →
      (∃ o', lmeSr3GradientValueFunction D P c (st w) w.1 w.2 = .ok (G w, o')) →
      (∀ beta gamma l, (∀ j, 0 ≤ gamma j) → lmeSr3Loss D P S beta gamma w'.1 w'.2 = .ok l → V w' ≤ l) →
      V w' ≤ V w + (G w).1 ⬝ᵥ (w'.1 - w.1) + (G w).2 ⬝ᵥ (w'.2 - w.2)
      + S.lb / 2 * ∑ i, (w'.1 i - w.1 i) ^ 2 + S.lg / 2 * ∑ j, (w'.2 j - w.2 j) ^ 2 := by
    intro w w' k1 k2 k3 k4 k5 k6
    obtain ⟨v, gb, gg, v', o1, o2, l1, l2, l3, l4⟩ := C70_upper_bound D hD P hP c hc (st w) (st w')
      (by rw [hst, hst]) (by rw [hst]; exact hlb) (by rw [hst]; exact hlg) w.1 w'.1 w.2 w'.2 k1 k2
    obtain ⟨_, k3⟩ := k3
    obtain ⟨_, k4⟩ := k4
    obtain ⟨_, k5⟩ := k5
    rw [l1] at k3
    rw [l2] at k5
    rw [l3] at k4
    simp only [Except.ok.injEq, Prod.mk.injEq] at k3 k4 k5
    rw [hst] at l4
    have := (l4 0 fun beta gamma l a b => by rw [k4.1, add_zero]; exact k6 beta gamma l a b).1
    rw [k4.1, k3.1, add_zero] at this
    rw [← k5.1]
    exact this
  refine hasFDerivAt_of_upper hlb.le hlg hcont ?_ ?_
  · filter_upwards [hpos, hV, hG, hopt] with w a1 a2 a3 a4
    exact main w0 w hpos.self_of_nhds a1 hV.self_of_nhds a2 hG.self_of_nhds a4
  · filter_upwards [hpos, hV, hG, hopt] with w a1 a2 a3 a4
    exact main w w0 a1 hpos.self_of_nhds a2 hV.self_of_nhds a3 hopt.self_of_nhds

/-- C70 where its hypotheses are met everywhere: without random effects the inner problem is solved exactly, so for every
problem with positive noise and every `w` the returned gradient is the derivative of the returned value. -/
theorem C70_no_random_effects (D : List (LmeGroup p 0)) (hD : PosVar D) (c : IpCfg p 0) (hc : c.Plain) (o : IpOracle p 0)
    (hlb : 0 < o.S.lb) (hlg : 0 ≤ o.S.lg) :
    ∃ (V : Vec ℝ p × Vec ℝ 0 → ℝ) (G : Vec ℝ p × Vec ℝ 0 → Vec ℝ p × Vec ℝ 0),
      (∀ w, ∃ o', lmeSr3ValueFunction D .nonInformative c o w.1 w.2 = .ok (V w, o')) ∧
      (∀ w, ∃ o', lmeSr3GradientValueFunction D .nonInformative c o w.1 w.2 = .ok (G w, o')) ∧
      ∀ w0, ∃ V' : (Vec ℝ p × Vec ℝ 0) →L[ℝ] ℝ, HasFDerivAt V V' w0 ∧
        ∀ d, V' d = ∑ i, (G w0).1 i * d.1 i + ∑ j, (G w0).2 j * d.2 j := by
  have hd : InDomain D 0 := inDomain_of_nonneg hD fun j => j.elim0
  obtain ⟨A, hA⟩ : ∃ A, A = o.S.lb • (1 : Matrix (Fin p) (Fin p) ℝ) + (D.map fun g => g.xᵀ * (margCov g 0)⁻¹ * g.x).sum :=
    ⟨_, rfl⟩
  obtain ⟨t, ht⟩ : ∃ t, t = (D.map fun g => g.xᵀ *ᵥ ((margCov g 0)⁻¹ *ᵥ g.y)).sum := ⟨_, rfl⟩
  have hb : ∀ w : Vec ℝ p × Vec ℝ 0, ∃ b, lmeSr3OptimalBeta D o.S w.2 w.1 = .ok b ∧ b = A⁻¹ *ᵥ (o.S.lb • w.1 + t) ∧
      ∀ b', lmeRelaxedLoss D .nonInformative o.S b w.2 w.1 w.2 ≤ lmeRelaxedLoss D .nonInformative o.S b' w.2 w.1 w.2 := by
    intro w
    have h0 : w.2 = 0 := Subsingleton.elim _ _
    obtain ⟨b, h1, h2⟩ := (C58_optimal_beta_partial D 0 hd).2 o.S w.1 w.2 hlb
    rw [h0] at h2 ⊢
    refine ⟨b, h1, ?_, fun b' => ?_⟩
    · unfold lmeSr3OptimalBeta at h1
      obtain ⟨kt, k1, k2⟩ := ebind_ok.1 h1
      obtain ⟨-, rfl⟩ := lmeKernelTail_ok.1 k1
      obtain ⟨hu, hs⟩ := npSolve_ok.1 k2
      simp only at hu hs
      rw [← hA] at hu hs
      rw [← ht] at hs
      rw [← hs, Matrix.mulVec_mulVec, Matrix.nonsing_inv_mul _ hu, Matrix.one_mulVec]
    · by_cases hbb : b' = b
      · rw [hbb]
      · obtain ⟨v, v', k1, k2, k3⟩ := h2 b' hbb
        rw [lmeSr3Loss_ok hd] at k1 k2
        cases k1
        cases k2
        exact k3.le
  choose B hB1 hB2 hB3 using hb
  have hfind : ∀ w : Vec ℝ p × Vec ℝ 0, lmeFindIp D .nonInformative c o ((2 : ℝ) • w.1) ((2 : ℝ) • w.2) w.1 w.2
      = .ok (⟨B w, w.2, w.1, w.2⟩, o) := by
    intro w
    unfold lmeFindIp
    rw [if_pos rfl, hB1]
    rfl
  have hV : ∀ w : Vec ℝ p × Vec ℝ 0, lmeSr3ValueFunction D .nonInformative c o w.1 w.2
      = .ok (lmeRelaxedLoss D .nonInformative o.S (B w) w.2 w.1 w.2, o) := by
    intro w
    unfold lmeSr3ValueFunction
    rw [hfind]
    change (lmeSr3Loss D .nonInformative o.S (B w) w.2 w.1 w.2 >>= _) = _
    rw [lmeSr3Loss_ok (by rw [Subsingleton.elim w.2 0]; exact hd)]
    rfl
  have hG : ∀ w : Vec ℝ p × Vec ℝ 0, lmeSr3GradientValueFunction D .nonInformative c o w.1 w.2
      = .ok ((-(o.S.lb • (B w - w.1)), -(o.S.lg • (w.2 - w.2))), o) := by
    intro w
    unfold lmeSr3GradientValueFunction
    rw [hfind]
    rfl
  refine ⟨fun w => lmeRelaxedLoss D .nonInformative o.S (B w) w.2 w.1 w.2,
    fun w => (-(o.S.lb • (B w - w.1)), -(o.S.lg • (w.2 - w.2))), fun w => ⟨o, hV w⟩, fun w => ⟨o, hG w⟩, fun w0 => ?_⟩
  have hcont : Continuous fun w : Vec ℝ p × Vec ℝ 0 =>
      ((-(o.S.lb • (B w - w.1)), -(o.S.lg • (w.2 - w.2))) : Vec ℝ p × Vec ℝ 0) := by
    have h1 : Continuous B := by
      have : B = fun w => A⁻¹ *ᵥ (o.S.lb • w.1 + t) := funext hB2
      rw [this]
      refine Continuous.matrix_mulVec continuous_const ?_
      fun_prop
    refine Continuous.prodMk ?_ ?_
    · fun_prop
    · fun_prop
  refine C70_gradient D hD .nonInformative trivial c hc o.S hlb hlg (fun _ => o) (fun _ => rfl) w0 _ _
    (Eventually.of_forall fun w j => j.elim0) (Eventually.of_forall fun w => ⟨o, hV w⟩)
    (Eventually.of_forall fun w => ⟨o, hG w⟩) (Eventually.of_forall fun w beta gamma l _ hl => ?_) hcont.continuousAt
  rw [Subsingleton.elim gamma w.2, lmeSr3Loss_ok (by rw [Subsingleton.elim w.2 0]; exact hd)] at hl
  cases hl
  exact hB3 w beta

/-- C70 with a random effect: the settings are the defaults, and the hypotheses on the starting points hold. -/
example : ∃ v gb gg v' o1 o2,
    lmeSr3ValueFunction [exGroup] .nonInformative (defaultCfg 1 1) ⟨⟨0.1, 0.1⟩, none⟩ ![1] ![1] = .ok (v, o1) ∧
    lmeSr3GradientValueFunction [exGroup] .nonInformative (defaultCfg 1 1) ⟨⟨0.1, 0.1⟩, none⟩ ![1] ![1] = .ok ((gb, gg), o1) ∧
    lmeSr3ValueFunction [exGroup] .nonInformative (defaultCfg 1 1) ⟨⟨0.1, 0.1⟩, none⟩ ![2] ![3] = .ok (v', o2) := by
  obtain ⟨v, gb, gg, v', o1, o2, h1, h2, h3, -⟩ := C70_upper_bound [exGroup] exGroup_posVar .nonInformative trivial
    (defaultCfg 1 1) ⟨rfl, rfl, rfl, rfl⟩ ⟨⟨0.1, 0.1⟩, none⟩ ⟨⟨0.1, 0.1⟩, none⟩ rfl (by norm_num) (by norm_num)
    ![1] ![2] ![1] ![3] (by intro j; fin_cases j; simp [ipStart, defaultCfg])
    (by intro j; fin_cases j; simp [ipStart, defaultCfg])
  exact ⟨v, gb, gg, v', o1, o2, h1, h2, h3⟩

end Verif
