import Verif.Props.LmeRepeat

/-!
# C194 (the gradient the SR3 oracle returns is that of the exact value function up to the residual of the inner solver)
-/

open Matrix Filter Topology

namespace Verif

noncomputable section

variable {p q : ℕ}

/-- Quadratic growth around the minimiser of the relaxed loss. -/
theorem relaxed_growth {D : List (LmeGroup p q)} (hD : PosVar D) {P : LmeInstPrior ℝ p q} (hP : P.Reachable) {S : Sr3Params} {m : ℝ} (hm : 0 < m)
    (hlb : m ≤ S.lb) (hlg : (D.map fun g => ∑ j, (∑ i, g.z i j ^ 2 / g.l i) ^ 2).sum + m ≤ S.lg) {tbeta : Vec ℝ p} {tgamma : Vec ℝ q} {u : Vec ℝ p × Vec ℝ q} (hu : ∀ j, 0 ≤ u.2 j)
    (hmin : ∀ w : Vec ℝ p × Vec ℝ q, (∀ j, 0 ≤ w.2 j) → lmeRelaxedLoss D P S u.1 u.2 tbeta tgamma ≤ lmeRelaxedLoss D P S w.1 w.2 tbeta tgamma) (w : Vec ℝ p × Vec ℝ q) (hw : ∀ j, 0 ≤ w.2 j) :
    lmeRelaxedLoss D P S u.1 u.2 tbeta tgamma + m / 2 * (∑ i, (w.1 i - u.1 i) ^ 2 + ∑ j, (w.2 j - u.2 j) ^ 2) ≤ lmeRelaxedLoss D P S w.1 w.2 tbeta tgamma := by
  obtain ⟨d, hd⟩ : ∃ d, d = ∑ i, (w.1 i - u.1 i) ^ 2 + ∑ j, (w.2 j - u.2 j) ^ 2 := ⟨_, rfl⟩
  have hd0 : 0 ≤ d := by
    rw [hd]
    exact add_nonneg (Finset.sum_nonneg fun i _ => sq_nonneg _) (Finset.sum_nonneg fun i _ => sq_nonneg _)
  rw [← hd]
  have key : ∀ θ : ℝ, 0 < θ → θ < 1 → lmeRelaxedLoss D P S u.1 u.2 tbeta tgamma + m / 2 * ((1 - θ) * d) ≤ lmeRelaxedLoss D P S w.1 w.2 tbeta tgamma := by
    intro θ h0 h1
    have hz : ∀ j, 0 ≤ (u.2 + θ • (w.2 - u.2)) j := fun j => by
      have a := mul_nonneg (sub_nonneg.2 h1.le) (hu j)
      have b := mul_nonneg h0.le (hw j)
      simp only [Pi.add_apply, Pi.smul_apply, Pi.sub_apply, smul_eq_mul]
      linarith
    obtain ⟨gb, gg, -, -, ht⟩ := relaxed_tangent hD hP hlb hlg (u.1 + θ • (w.1 - u.1)) tbeta (gamma := u.2 + θ • (w.2 - u.2)) tgamma hz
    have t1 := ht u.1 u.2 hu
    have t2 := ht w.1 w.2 hw
    have t3 := hmin (u.1 + θ • (w.1 - u.1), u.2 + θ • (w.2 - u.2)) hz
    simp only at t3
    have s1 : ∀ {n : ℕ} (g a b : Vec ℝ n), ∑ i, g i * (a i - (a + θ • (b - a)) i) = -θ * ∑ i, g i * (b i - a i) := fun g a b => by
      rw [Finset.mul_sum]
      refine Finset.sum_congr rfl fun i _ => ?_
      simp only [Pi.add_apply, Pi.smul_apply, Pi.sub_apply, smul_eq_mul]
      ring
    have s2 : ∀ {n : ℕ} (g a b : Vec ℝ n), ∑ i, g i * (b i - (a + θ • (b - a)) i) = (1 - θ) * ∑ i, g i * (b i - a i) := fun g a b => by
      rw [Finset.mul_sum]
      refine Finset.sum_congr rfl fun i _ => ?_
      simp only [Pi.add_apply, Pi.smul_apply, Pi.sub_apply, smul_eq_mul]
      ring
    have s3 : ∀ {n : ℕ} (a b : Vec ℝ n), ∑ i, (a i - (a + θ • (b - a)) i) ^ 2 = θ ^ 2 * ∑ i, (b i - a i) ^ 2 := fun a b => by
      rw [Finset.mul_sum]
      refine Finset.sum_congr rfl fun i _ => ?_
      simp only [Pi.add_apply, Pi.smul_apply, Pi.sub_apply, smul_eq_mul]
      ring
    have s4 : ∀ {n : ℕ} (a b : Vec ℝ n), ∑ i, (b i - (a + θ • (b - a)) i) ^ 2 = (1 - θ) ^ 2 * ∑ i, (b i - a i) ^ 2 := fun a b => by
      rw [Finset.mul_sum]
      refine Finset.sum_congr rfl fun i _ => ?_
      simp only [Pi.add_apply, Pi.smul_apply, Pi.sub_apply, smul_eq_mul]
      ring
    rw [s1, s1, s3, s3, ← mul_add, ← hd] at t1
    rw [s2, s2, s4, s4, ← mul_add, ← hd] at t2
    have r1 := mul_le_mul_of_nonneg_left t1 (sub_nonneg.2 h1.le)
    have r2 := mul_le_mul_of_nonneg_left t2 h0.le
    have h : θ * (lmeRelaxedLoss D P S u.1 u.2 tbeta tgamma + m / 2 * ((1 - θ) * d)) ≤ θ * lmeRelaxedLoss D P S w.1 w.2 tbeta tgamma := by
      have e : (1 - θ) * (m / 2 * (θ ^ 2 * d)) + θ * (m / 2 * ((1 - θ) ^ 2 * d)) = θ * (m / 2 * ((1 - θ) * d)) := by ring
      nlinarith [r1, r2, t3, e]
    exact le_of_mul_le_mul_left h h0
  by_contra hne
  have hlt := not_le.1 hne
  have hle := hmin w hw
  obtain ⟨f, hf⟩ : ∃ f, f = lmeRelaxedLoss D P S w.1 w.2 tbeta tgamma - lmeRelaxedLoss D P S u.1 u.2 tbeta tgamma := ⟨_, rfl⟩
  have hf0 : 0 ≤ f := by linarith
  have hfl : f < m / 2 * d := by linarith
  have hd1 : 0 < m * d := by linarith
  have hk := key ((m / 2 * d - f) / (m * d)) (div_pos (by linarith) hd1) ((div_lt_one hd1).2 (by linarith))
  have e : m / 2 * ((1 - (m / 2 * d - f) / (m * d)) * d) = m / 2 * d - (m / 2 * d - f) / 2 := by
    have : (m / 2 * d - f) / (m * d) * (m * d) = m / 2 * d - f := div_mul_cancel₀ _ hd1.ne'
    linear_combination (-1 / 2) * this
  rw [e] at hk
  linarith

/-- The minimisers at two points. -/
theorem minimiser_lipschitz {D : List (LmeGroup p q)} (hD : PosVar D) {P : LmeInstPrior ℝ p q} (hP : P.Reachable) {S : Sr3Params} {m : ℝ} (hm : 0 < m)
    (hlb : m ≤ S.lb) (hlg : (D.map fun g => ∑ j, (∑ i, g.z i j ^ 2 / g.l i) ^ 2).sum + m ≤ S.lg) {t t' u u' : Vec ℝ p × Vec ℝ q} (hu : ∀ j, 0 ≤ u.2 j) (hu' : ∀ j, 0 ≤ u'.2 j)
    (hmin : ∀ w : Vec ℝ p × Vec ℝ q, (∀ j, 0 ≤ w.2 j) → lmeRelaxedLoss D P S u.1 u.2 t.1 t.2 ≤ lmeRelaxedLoss D P S w.1 w.2 t.1 t.2)
    (hmin' : ∀ w : Vec ℝ p × Vec ℝ q, (∀ j, 0 ≤ w.2 j) → lmeRelaxedLoss D P S u'.1 u'.2 t'.1 t'.2 ≤ lmeRelaxedLoss D P S w.1 w.2 t'.1 t'.2) :
    m ^ 2 * (∑ i, (u.1 i - u'.1 i) ^ 2 + ∑ j, (u.2 j - u'.2 j) ^ 2) ≤ S.lb ^ 2 * ∑ i, (t.1 i - t'.1 i) ^ 2 + S.lg ^ 2 * ∑ j, (t.2 j - t'.2 j) ^ 2 := by
  have g1 := relaxed_growth hD hP hm hlb hlg hu hmin u' hu'
  have g2 := relaxed_growth hD hP hm hlb hlg hu' hmin' u hu
  have f1 : ∀ {n : ℕ} (a b : Vec ℝ n), ∑ i, (b i - a i) ^ 2 = ∑ i, (a i - b i) ^ 2 := fun a b => Finset.sum_congr rfl fun i _ => by ring
  rw [f1 u.1 u'.1, f1 u.2 u'.2] at g1
  have hq : ∀ {n : ℕ} (x x' s s' : Vec ℝ n), ∑ i, (x' i - s i) ^ 2 - ∑ i, (x' i - s' i) ^ 2 - ∑ i, (x i - s i) ^ 2 + ∑ i, (x i - s' i) ^ 2 = 2 * ∑ i, (s i - s' i) * (x i - x' i) := fun x x' s s' => by
    rw [← Finset.sum_sub_distrib, ← Finset.sum_sub_distrib, ← Finset.sum_add_distrib, Finset.mul_sum]
    exact Finset.sum_congr rfl fun i _ => by ring
  have e1 := hq u.1 u'.1 t.1 t'.1
  have e2 := hq u.2 u'.2 t.2 t'.2
  unfold lmeRelaxedLoss at g1 g2
  obtain ⟨d, hd⟩ : ∃ d, d = ∑ i, (u.1 i - u'.1 i) ^ 2 + ∑ j, (u.2 j - u'.2 j) ^ 2 := ⟨_, rfl⟩
  have hin : m * d ≤ S.lb * ∑ i, (t.1 i - t'.1 i) * (u.1 i - u'.1 i) + S.lg * ∑ j, (t.2 j - t'.2 j) * (u.2 j - u'.2 j) := by
    rw [hd]
    have r1 : S.lb * ∑ i, (t.1 i - t'.1 i) * (u.1 i - u'.1 i) = S.lb / 2 * (∑ i, (u'.1 i - t.1 i) ^ 2 - ∑ i, (u'.1 i - t'.1 i) ^ 2 - ∑ i, (u.1 i - t.1 i) ^ 2 + ∑ i, (u.1 i - t'.1 i) ^ 2) := by
      rw [e1]
      ring
    have r2 : S.lg * ∑ j, (t.2 j - t'.2 j) * (u.2 j - u'.2 j) = S.lg / 2 * (∑ i, (u'.2 i - t.2 i) ^ 2 - ∑ i, (u'.2 i - t'.2 i) ^ 2 - ∑ i, (u.2 i - t.2 i) ^ 2 + ∑ i, (u.2 i - t'.2 i) ^ 2) := by
      rw [e2]
      ring
    rw [r1, r2]
    linarith
  have b1 := dot_le_quad hm (fun i => S.lb * (t.1 i - t'.1 i)) (fun i => u.1 i - u'.1 i)
  have b2 := dot_le_quad hm (fun j => S.lg * (t.2 j - t'.2 j)) (fun j => u.2 j - u'.2 j)
  have c1 : ∀ {n : ℕ} (l : ℝ) (s x : Vec ℝ n), ∑ i, l * s i * x i = l * ∑ i, s i * x i := fun l s x => by
    rw [Finset.mul_sum]
    exact Finset.sum_congr rfl fun i _ => by ring
  have c2 : ∀ {n : ℕ} (l : ℝ) (s : Vec ℝ n), ∑ i, (l * s i) ^ 2 = l ^ 2 * ∑ i, s i ^ 2 := fun l s => by
    rw [Finset.mul_sum]
    exact Finset.sum_congr rfl fun i _ => by ring
  rw [c1 S.lb (fun i => t.1 i - t'.1 i) (fun i => u.1 i - u'.1 i), c2 S.lb (fun i => t.1 i - t'.1 i)] at b1
  rw [c1 S.lg (fun i => t.2 i - t'.2 i) (fun i => u.2 i - u'.2 i), c2 S.lg (fun i => t.2 i - t'.2 i)] at b2
  have b3 : m / 2 * d ≤ (S.lb ^ 2 * ∑ i, (t.1 i - t'.1 i) ^ 2 + S.lg ^ 2 * ∑ j, (t.2 j - t'.2 j) ^ 2) / (2 * m) := by
    rw [add_div]
    rw [hd] at hin ⊢
    linarith
  rw [le_div_iff₀ (by positivity)] at b3
  rw [← hd]
  linarith

/-- **C194**, the exact value function: with a relaxation above the bound of C111 there are `V` and `w` such that, for all relaxed variables `t`, the relaxed loss at nonnegative variances is least at `w t` with the
value `V t`; `V` is differentiable everywhere, with the gradient `(lb (tbeta - beta), lg (tgamma - gamma))` that `gradient_value_function` computes from its inner solution, and the minimiser
`w t` is Lipschitz continuous: `m |w t - w t'| ≤ |(lb (tbeta - tbeta'), lg (tgamma - tgamma'))|`. -/
theorem C194_value_function (D : List (LmeGroup p q)) (hD : PosVar D) (P : LmeInstPrior ℝ p q) (hP : P.Reachable) (S : Sr3Params) (m : ℝ) (hm : 0 < m)
    (hlb : m ≤ S.lb) (hlg : (D.map fun g => ∑ j, (∑ i, g.z i j ^ 2 / g.l i) ^ 2).sum + m ≤ S.lg) :
    ∃ (V : Vec ℝ p × Vec ℝ q → ℝ) (w : Vec ℝ p × Vec ℝ q → Vec ℝ p × Vec ℝ q),
      (∀ t j, 0 ≤ (w t).2 j) ∧ (∀ t, lmeSr3Loss D P S (w t).1 (w t).2 t.1 t.2 = .ok (V t)) ∧
      (∀ t (beta : Vec ℝ p) (gamma : Vec ℝ q) L, (∀ j, 0 ≤ gamma j) → lmeSr3Loss D P S beta gamma t.1 t.2 = .ok L → V t ≤ L) ∧
      (∀ t, ∃ V' : (Vec ℝ p × Vec ℝ q) →L[ℝ] ℝ, HasFDerivAt V V' t ∧
        ∀ d, V' d = ∑ i, S.lb * (t.1 i - (w t).1 i) * d.1 i + ∑ j, S.lg * (t.2 j - (w t).2 j) * d.2 j) ∧
      ∀ t t', m ^ 2 * (∑ i, ((w t).1 i - (w t').1 i) ^ 2 + ∑ j, ((w t).2 j - (w t').2 j) ^ 2) ≤
        S.lb ^ 2 * ∑ i, (t.1 i - t'.1 i) ^ 2 + S.lg ^ 2 * ∑ j, (t.2 j - t'.2 j) ^ 2 := by
  have hn0 : 0 ≤ (D.map fun g => ∑ j, (∑ i, g.z i j ^ 2 / g.l i) ^ 2).sum := by
    refine List.sum_nonneg fun x hx => ?_
    obtain ⟨g, -, rfl⟩ := List.mem_map.1 hx
    exact Finset.sum_nonneg fun j _ => sq_nonneg _
  have hlb0 : 0 < S.lb := hm.trans_le hlb
  have hlg0 : 0 ≤ S.lg := by linarith
  choose w hw _ using fun t : Vec ℝ p × Vec ℝ q => C193_unique_minimiser D hD P hP S hlb0 (by linarith) t.1 t.2
  choose hw0 hwL using hw
  choose V hV hVmin using hwL
  have hVe : ∀ t, V t = lmeRelaxedLoss D P S (w t).1 (w t).2 t.1 t.2 := fun t => by
    have := hV t
    rw [lmeSr3Loss_ok (inDomain_of_nonneg hD (hw0 t))] at this
    exact (Except.ok.inj this).symm
  have hmin : ∀ t (u : Vec ℝ p × Vec ℝ q), (∀ j, 0 ≤ u.2 j) → lmeRelaxedLoss D P S (w t).1 (w t).2 t.1 t.2 ≤ lmeRelaxedLoss D P S u.1 u.2 t.1 t.2 := fun t u hu => by
    rw [← hVe]
    exact hVmin t u hu _ (lmeSr3Loss_ok (inDomain_of_nonneg hD hu))
  have hlip : ∀ t t', m ^ 2 * (∑ i, ((w t).1 i - (w t').1 i) ^ 2 + ∑ j, ((w t).2 j - (w t').2 j) ^ 2) ≤
        S.lb ^ 2 * ∑ i, (t.1 i - t'.1 i) ^ 2 + S.lg ^ 2 * ∑ j, (t.2 j - t'.2 j) ^ 2 :=
    fun t t' => minimiser_lipschitz hD hP hm hlb hlg (hw0 t) (hw0 t') (hmin t) (hmin t')
  refine ⟨V, w, hw0, hV, fun t beta gamma L hg hL => hVmin t (beta, gamma) hg L hL, fun t => ?_, hlip⟩
  have hcw : ContinuousAt w t := by
    have hto : Tendsto (fun t' : Vec ℝ p × Vec ℝ q => √(∑ i, ((w t').1 i - (w t).1 i) ^ 2 + ∑ j, ((w t').2 j - (w t).2 j) ^ 2)) (𝓝 t) (𝓝 0) := by
      have h1 : Continuous fun t' : Vec ℝ p × Vec ℝ q => √((S.lb ^ 2 * ∑ i, (t'.1 i - t.1 i) ^ 2 + S.lg ^ 2 * ∑ j, (t'.2 j - t.2 j) ^ 2) / m ^ 2) := by fun_prop
      have h2 := h1.tendsto t
      simp only [sub_self, ne_eq, OfNat.ofNat_ne_zero, not_false_eq_true, zero_pow, Finset.sum_const_zero, mul_zero, add_zero, zero_div, Real.sqrt_zero] at h2
      refine squeeze_zero (fun _ => Real.sqrt_nonneg _) (fun t' => Real.sqrt_le_sqrt ?_) h2
      rw [le_div_iff₀ (by positivity), mul_comm]
      exact hlip t' t
    have hone : ∀ (k : Vec ℝ p × Vec ℝ q → ℝ), (∀ t', |k t' - k t| ≤ √(∑ i, ((w t').1 i - (w t).1 i) ^ 2 + ∑ j, ((w t').2 j - (w t).2 j) ^ 2)) → ContinuousAt k t := fun k hk => by
      refine tendsto_iff_dist_tendsto_zero.2 ?_
      exact squeeze_zero (fun _ => dist_nonneg) (fun t' => by rw [Real.dist_eq]; exact hk t') hto
    have c1 : ∀ i, ContinuousAt (fun t' => (w t').1 i) t := fun i => hone _ fun t' => by
      refine Real.abs_le_sqrt ?_
      have h1 := Finset.single_le_sum (f := fun i => ((w t').1 i - (w t).1 i) ^ 2) (fun i _ => sq_nonneg _) (Finset.mem_univ i)
      have h2 : 0 ≤ ∑ j, ((w t').2 j - (w t).2 j) ^ 2 := Finset.sum_nonneg fun i _ => sq_nonneg _
      linarith
    have c2 : ∀ i, ContinuousAt (fun t' => (w t').2 i) t := fun i => hone _ fun t' => by
      refine Real.abs_le_sqrt ?_
      have h1 := Finset.single_le_sum (f := fun i => ((w t').2 i - (w t).2 i) ^ 2) (fun i _ => sq_nonneg _) (Finset.mem_univ i)
      have h2 : 0 ≤ ∑ j, ((w t').1 j - (w t).1 j) ^ 2 := Finset.sum_nonneg fun i _ => sq_nonneg _
      linarith
    exact (continuousAt_pi.2 c1).prodMk (continuousAt_pi.2 c2)
  have hup : ∀ a b : Vec ℝ p × Vec ℝ q, V b ≤ V a + (S.lb • (a.1 - (w a).1)) ⬝ᵥ (b.1 - a.1) + (S.lg • (a.2 - (w a).2)) ⬝ᵥ (b.2 - a.2)
      + S.lb / 2 * ∑ i, (b.1 i - a.1 i) ^ 2 + S.lg / 2 * ∑ j, (b.2 j - a.2 j) ^ 2 := fun a b => by
    rw [hVe a, hVe b]
    refine (hmin b (w a) (hw0 a)).trans (le_of_eq ?_)
    have hs : ∀ {n : ℕ} (l : ℝ) (x s s' : Vec ℝ n), l / 2 * ∑ i, (x i - s' i) ^ 2 = l / 2 * ∑ i, (x i - s i) ^ 2 + (l • (s - x)) ⬝ᵥ (s' - s) + l / 2 * ∑ i, (s' i - s i) ^ 2 := fun l x s s' => by
      simp only [dotProduct, Finset.mul_sum, ← Finset.sum_add_distrib]
      refine Finset.sum_congr rfl fun i _ => ?_
      simp only [Pi.smul_apply, Pi.sub_apply, smul_eq_mul]
      ring
    unfold lmeRelaxedLoss
    rw [hs S.lb (w a).1 a.1 b.1, hs S.lg (w a).2 a.2 b.2]
    ring
  refine ⟨pairForm (S.lb • (t.1 - (w t).1), S.lg • (t.2 - (w t).2)), ?_, fun d => rfl⟩
  refine hasFDerivAt_of_upper (G := fun a => (S.lb • (a.1 - (w a).1), S.lg • (a.2 - (w a).2))) hlb0.le hlg0 ?_ (Eventually.of_forall fun b => hup t b) (Eventually.of_forall fun b => hup b t)
  have h1 : ContinuousAt (fun a => (w a).1) t := hcw.fst
  have h2 : ContinuousAt (fun a => (w a).2) t := hcw.snd
  exact ((continuousAt_fst.sub h1).const_smul S.lb).prodMk ((continuousAt_snd.sub h2).const_smul S.lg)

/-- **C194**, the code: for positive noise, a Gaussian or non-informative prior, the default settings, a relaxation above the bound of C111, at least one random effect and nonnegative starting variances,
`gradient_value_function` returns; the point `beta, gamma` it computes the gradient from is within a distance `d` of the minimiser of the relaxed loss with `m d² ≤ |F| (d + √q) + q mu`, and so each part of the
gradient returned is the part of the gradient of the exact value function up to `lb` and `lg` times that distance. From positive starting variances and with enough passes, `d ≤ tol / m + √((√q + q) tol / m)`. -/
theorem C194_gradient_error (D : List (LmeGroup p q)) (hD : PosVar D) (P : LmeInstPrior ℝ p q) (hP : P.Reachable) (c : IpCfg p q) (hc : c.Plain) (o : IpOracle p q) (m : ℝ) (hm : 0 < m)
    (hlb : m ≤ o.S.lb) (hlg : (D.map fun g => ∑ j, (∑ i, g.z i j ^ 2 / g.l i) ^ 2).sum + m ≤ o.S.lg) (hq : 0 < q) (tbeta : Vec ℝ p) (tgamma : Vec ℝ q)
    (hg : ∀ j, 0 ≤ (ipStart c o ((2 : ℝ) • tbeta) ((2 : ℝ) • tgamma)).2 j)
    (u : Vec ℝ p × Vec ℝ q) (hu : ∀ j, 0 ≤ u.2 j) (L : ℝ) (hL : lmeSr3Loss D P o.S u.1 u.2 tbeta tgamma = .ok L)
    (hmin : ∀ (beta : Vec ℝ p) (gamma : Vec ℝ q) L', (∀ j, 0 ≤ gamma j) → lmeSr3Loss D P o.S beta gamma tbeta tgamma = .ok L' → L ≤ L') :
    ∃ s F gb gg o' d, ipLoop D P c (ipInit c o ((2 : ℝ) • tbeta) ((2 : ℝ) • tgamma) tbeta tgamma) = .ok s ∧ ipF D P s = .ok F ∧
      lmeSr3GradientValueFunction D P c o tbeta tgamma = .ok ((gb, gg), o') ∧
      ∑ i, (gb i - o.S.lb * (tbeta i - u.1 i)) ^ 2 / o.S.lb ^ 2 + ∑ j, (gg j - o.S.lg * (tgamma j - u.2 j)) ^ 2 / o.S.lg ^ 2 = d ^ 2 ∧ 0 ≤ d ∧
      m * d ^ 2 ≤ npNorm F * (d + √q) + q * s.mu ∧
      ((∀ j, 0 < (ipStart c o ((2 : ℝ) • tbeta) ((2 : ℝ) • tgamma)).2 j) → (s.iteration : ℤ) < c.nIter → ipMoved c.tol s → d ≤ c.tol / m + √((√q + q) * c.tol / m)) := by
  have hlb0 : 0 < o.S.lb := hm.trans_le hlb
  have hn0 : 0 ≤ (D.map fun g => ∑ j, (∑ i, g.z i j ^ 2 / g.l i) ^ 2).sum := by
    refine List.sum_nonneg fun x hx => ?_
    obtain ⟨g, -, rfl⟩ := List.mem_map.1 hx
    exact Finset.sum_nonneg fun j _ => sq_nonneg _
  have hlg0 : 0 < o.S.lg := by linarith
  obtain ⟨s, F, o', h1, h2, h3, hv, hgam, e1, e2, e3, hstep⟩ := inner_end D hD P hP c hc o hlb0 hlg0.le hq tbeta tgamma hg
  have hmin' : ∀ w : Vec ℝ p × Vec ℝ q, (∀ j, 0 ≤ w.2 j) → lmeRelaxedLoss D P o.S u.1 u.2 tbeta tgamma ≤ lmeRelaxedLoss D P o.S w.1 w.2 tbeta tgamma := fun w hw => by
    rw [lmeSr3Loss_ok (inDomain_of_nonneg hD hu)] at hL
    cases hL
    exact hmin _ _ _ hw (lmeSr3Loss_ok (inDomain_of_nonneg hD hw))
  have hgrow := relaxed_growth hD hP hm hlb hlg hu hmin' (s.beta, s.gamma) hgam
  simp only at hgrow
  obtain ⟨gb, gg, k1, k2, ht⟩ := relaxed_tangent hD hP hlb hlg s.beta tbeta tgamma hgam
  have ht := ht u.1 u.2 hu
  obtain ⟨d2, hd2⟩ : ∃ d2, d2 = ∑ i, (s.beta i - u.1 i) ^ 2 + ∑ j, (s.gamma j - u.2 j) ^ 2 := ⟨_, rfl⟩
  have hd20 : 0 ≤ d2 := by
    rw [hd2]
    exact add_nonneg (Finset.sum_nonneg fun i _ => sq_nonneg _) (Finset.sum_nonneg fun i _ => sq_nonneg _)
  have hF1 : F = Sum.elim (fun j => s.v j * s.gamma j - s.mu) (Sum.elim gb (gg - s.v)) := by
    unfold ipF at h2
    rw [e3, e1, e2, k1, k2] at h2
    cases h2
    rfl
  have hN : ∑ i, F i ^ 2 = ∑ j, (s.v j * s.gamma j - s.mu) ^ 2 + (∑ i, gb i ^ 2 + ∑ j, (gg j - s.v j) ^ 2) := by
    rw [Fintype.sum_sum_type, Fintype.sum_sum_type, hF1]
    rfl
  have b1 : ∑ i, gb i * (s.beta i - u.1 i) + ∑ j, (gg j - s.v j) * (s.gamma j - u.2 j) ≤ npNorm F * √d2 := by
    have h := dot_le_norms F (Sum.elim (fun _ => 0) (Sum.elim (fun i => s.beta i - u.1 i) (fun j => s.gamma j - u.2 j)))
    have e1 : ∑ i, F i * (Sum.elim (fun _ => 0) (Sum.elim (fun i => s.beta i - u.1 i) (fun j => s.gamma j - u.2 j)) : Fin q ⊕ (Fin p ⊕ Fin q) → ℝ) i
        = ∑ i, gb i * (s.beta i - u.1 i) + ∑ j, (gg j - s.v j) * (s.gamma j - u.2 j) := by
      rw [Fintype.sum_sum_type, Fintype.sum_sum_type, hF1]
      simp
    have e2 : ∑ i, (Sum.elim (fun _ => 0) (Sum.elim (fun i => s.beta i - u.1 i) (fun j => s.gamma j - u.2 j)) : Fin q ⊕ (Fin p ⊕ Fin q) → ℝ) i ^ 2 = d2 := by
      rw [Fintype.sum_sum_type, Fintype.sum_sum_type, hd2]
      simp
    rw [e1, e2] at h
    exact h
  have b2 : ∑ j, s.v j * s.gamma j ≤ √q * npNorm F + q * s.mu := by
    have h := dot_le_norms (fun j => s.v j * s.gamma j - s.mu) (fun _ : Fin q => (1 : ℝ))
    simp only [mul_one, one_pow, Finset.sum_const, Finset.card_univ, Fintype.card_fin, nsmul_eq_mul] at h
    have h2 : √(∑ j, (s.v j * s.gamma j - s.mu) ^ 2) ≤ npNorm F := by
      unfold npNorm
      refine Real.sqrt_le_sqrt ?_
      rw [hN]
      have : 0 ≤ ∑ i, gb i ^ 2 + ∑ j, (gg j - s.v j) ^ 2 := add_nonneg (Finset.sum_nonneg fun i _ => sq_nonneg _) (Finset.sum_nonneg fun i _ => sq_nonneg _)
      linarith
    have h3 := mul_le_mul_of_nonneg_right h2 (Real.sqrt_nonneg (q : ℝ))
    rw [Finset.sum_sub_distrib] at h
    simp only [Finset.sum_const, Finset.card_univ, Fintype.card_fin, nsmul_eq_mul] at h
    linarith
  have s3 : ∀ {n : ℕ} (a b : Vec ℝ n), ∑ i, (b i - a i) ^ 2 = ∑ i, (a i - b i) ^ 2 := fun a b => Finset.sum_congr rfl fun i _ => by ring
  have s4 : ∀ {n : ℕ} (g a b : Vec ℝ n), ∑ i, g i * (b i - a i) = - ∑ i, g i * (a i - b i) := fun g a b => by
    rw [← Finset.sum_neg_distrib]
    exact Finset.sum_congr rfl fun i _ => by ring
  have u1 : ∑ j, gg j * (s.gamma j - u.2 j) = ∑ j, (gg j - s.v j) * (s.gamma j - u.2 j) + ∑ j, s.v j * s.gamma j - ∑ j, s.v j * u.2 j := by
    rw [← Finset.sum_add_distrib, ← Finset.sum_sub_distrib]
    exact Finset.sum_congr rfl fun i _ => by ring
  have w1 : 0 ≤ ∑ j, s.v j * u.2 j := Finset.sum_nonneg fun j _ => mul_nonneg (hv j).le (hu j)
  rw [s4 gb s.beta u.1, s4 gg s.gamma u.2, u1, s3 s.beta u.1, s3 s.gamma u.2, ← hd2] at ht
  rw [← hd2] at hgrow
  have hd : √d2 ^ 2 = d2 := Real.sq_sqrt hd20
  have hmain : m * √d2 ^ 2 ≤ npNorm F * (√d2 + √q) + q * s.mu := by
    rw [hd]
    linarith
  refine ⟨s, F, _, _, o', √d2, h1, h2, h3, ?_, Real.sqrt_nonneg _, hmain, fun hpos hit hmv => ?_⟩
  · rw [hd, hd2]
    congr 1
    · refine Finset.sum_congr rfl fun i _ => ?_
      simp only [Pi.neg_apply, Pi.smul_apply, Pi.sub_apply, smul_eq_mul]
      have := hlb0.ne'
      field_simp
      ring
    · refine Finset.sum_congr rfl fun i _ => ?_
      simp only [Pi.neg_apply, Pi.smul_apply, Pi.sub_apply, smul_eq_mul]
      have := hlg0.ne'
      field_simp
      ring
  · obtain ⟨f2, f3⟩ : npNorm F ≤ c.tol ∧ s.mu ≤ c.tol := by
      rcases ipLoop_exit D P c _ _ s rfl h1 with h | h | ⟨F', h, h'⟩
      · exact absurd h (hstep hpos)
      · omega
      · rw [h2] at h
        cases h
        by_contra hne
        refine h' ⟨?_, hmv⟩
        rcases not_and_or.1 hne with h | h
        · exact Or.inl (not_le.1 h)
        · exact Or.inr (not_le.1 h)
    obtain ⟨d, hdd⟩ : ∃ d, d = √d2 := ⟨_, rfl⟩
    have hd0 : 0 ≤ d := by
      rw [hdd]
      exact Real.sqrt_nonneg _
    rw [← hdd] at hmain ⊢
    have ht0 : 0 ≤ c.tol := (Real.sqrt_nonneg _).trans f2
    have hq0 : 0 ≤ √(q : ℝ) := Real.sqrt_nonneg _
    have hqn : (0 : ℝ) ≤ q := Nat.cast_nonneg _
    have b1 : npNorm F * (d + √q) ≤ c.tol * (d + √q) := mul_le_mul_of_nonneg_right f2 (by positivity)
    have b2 : (q : ℝ) * s.mu ≤ q * c.tol := mul_le_mul_of_nonneg_left f3 hqn
    obtain ⟨e, he⟩ : ∃ e, e = √((√q + q) * c.tol / m) := ⟨_, rfl⟩
    have he0 : 0 ≤ e := by
      rw [he]
      exact Real.sqrt_nonneg _
    have he2 : m * e ^ 2 = (√q + q) * c.tol := by
      rw [he, Real.sq_sqrt (by positivity)]
      field_simp
    rw [← he]
    obtain ⟨a, ha⟩ : ∃ a, a = c.tol / m := ⟨_, rfl⟩
    have ha0 : 0 ≤ a := by
      rw [ha]
      positivity
    have hma : m * a = c.tol := by
      rw [ha]
      field_simp
    rw [← ha]
    have h5 : m * d ^ 2 ≤ m * (a * d + e ^ 2) := by
      have : m * (a * d) = c.tol * d := by rw [← mul_assoc, hma]
      nlinarith
    have h6 : d ^ 2 ≤ a * d + e ^ 2 := le_of_mul_le_mul_left h5 hm
    by_contra hne
    have hlt := not_le.1 hne
    nlinarith [mul_pos (show 0 < d - a - e by linarith) (show 0 < d by linarith), mul_nonneg he0 ha0]

/-- Non-vacuity of C194: one observation with `lb = lg = 2` and `m = 1`; the minimiser that `C194_gradient_error` compares with exists at every point. -/
example (y : ℝ) (t : Vec ℝ 0 × Vec ℝ 1) : ∃ (u : Vec ℝ 0 × Vec ℝ 1) (L : ℝ), (∀ j, 0 ≤ u.2 j) ∧ lmeSr3Loss [obsGroup y] .nonInformative ⟨2, 2⟩ u.1 u.2 t.1 t.2 = .ok L ∧
    ∀ (beta : Vec ℝ 0) (gamma : Vec ℝ 1) L', (∀ j, 0 ≤ gamma j) → lmeSr3Loss [obsGroup y] .nonInformative ⟨2, 2⟩ beta gamma t.1 t.2 = .ok L' → L ≤ L' := by
  obtain ⟨V, w, h1, h2, h3, -, -⟩ := C194_value_function [obsGroup y] (obsGroup_posVar y) .nonInformative trivial ⟨2, 2⟩ 1 one_pos one_le_two (by
    simp only [List.map_cons, List.map_nil, List.sum_cons, List.sum_nil]
    change ∑ _j : Fin 1, (∑ _i : Fin 1, (1 : ℝ) ^ 2 / 1) ^ 2 + 0 + 1 ≤ 2
    norm_num)
  exact ⟨w t, V t, h1 t, h2 t, h3 t⟩

end

end Verif
