import Verif.Props.LmeTighten
import Verif.Props.LmeSr3Stop
import Verif.Props.LmeSr3Folded

/-!
# C197 (SR3 mixed-effects fits that report convergence have stopped near a stationary point)
-/

open Matrix

namespace Verif

section Pass

variable {p q : ℕ}

/-- The quadratic lower bound of the exact value function: it is weakly convex. -/
theorem value_lower {D : List (LmeGroup p q)} (hD : PosVar D) {P : LmeInstPrior ℝ p q} (hP : P.Reachable) {S : Sr3Params} {m : ℝ} (hm : 0 < m)
    (hlb : m ≤ S.lb) (hlg : (D.map fun g => ∑ j, (∑ i, g.z i j ^ 2 / g.l i) ^ 2).sum + m ≤ S.lg) {V : Vec ℝ p × Vec ℝ q → ℝ} {w : Vec ℝ p × Vec ℝ q → Vec ℝ p × Vec ℝ q}
    (hw : ∀ t j, 0 ≤ (w t).2 j) (hV : ∀ t, lmeSr3Loss D P S (w t).1 (w t).2 t.1 t.2 = .ok (V t))
    (hmin : ∀ t (beta : Vec ℝ p) (gamma : Vec ℝ q) L, (∀ j, 0 ≤ gamma j) → lmeSr3Loss D P S beta gamma t.1 t.2 = .ok L → V t ≤ L) (a b : Vec ℝ p × Vec ℝ q) :
    V a + (∑ i, S.lb * (a.1 i - (w a).1 i) * (b.1 i - a.1 i) + ∑ j, S.lg * (a.2 j - (w a).2 j) * (b.2 j - a.2 j))
      - (S.lb * (S.lb - m) / m / 2 * ∑ i, (b.1 i - a.1 i) ^ 2 + S.lg * (S.lg - m) / m / 2 * ∑ j, (b.2 j - a.2 j) ^ 2) ≤ V b := by
  have hVe : ∀ t, V t = lmeRelaxedLoss D P S (w t).1 (w t).2 t.1 t.2 := fun t => by
    have h1 := hV t
    rw [lmeSr3Loss_ok (inDomain_of_nonneg hD (hw t))] at h1
    exact (Except.ok.inj h1).symm
  have hg := relaxed_growth hD hP hm hlb hlg (tbeta := a.1) (tgamma := a.2) (hw a) (fun u hu => by
    rw [← hVe a]
    exact hmin a u.1 u.2 _ hu (lmeSr3Loss_ok (inDomain_of_nonneg hD hu))) (w b) (hw b)
  rw [← hVe a] at hg
  have hs : ∀ {n : ℕ} (l : ℝ) (x s s' : Vec ℝ n), l / 2 * ∑ i, (x i - s' i) ^ 2 = l / 2 * ∑ i, (x i - s i) ^ 2 + ∑ i, l * (s i - x i) * (s' i - s i) + l / 2 * ∑ i, (s' i - s i) ^ 2 := fun l x s s' => by
    simp only [Finset.mul_sum, ← Finset.sum_add_distrib]
    exact Finset.sum_congr rfl fun i _ => by ring
  have e : V b = lmeRelaxedLoss D P S (w b).1 (w b).2 a.1 a.2 + (∑ i, S.lb * (a.1 i - (w b).1 i) * (b.1 i - a.1 i) + ∑ j, S.lg * (a.2 j - (w b).2 j) * (b.2 j - a.2 j))
      + (S.lb / 2 * ∑ i, (b.1 i - a.1 i) ^ 2 + S.lg / 2 * ∑ j, (b.2 j - a.2 j) ^ 2) := by
    rw [hVe b]
    unfold lmeRelaxedLoss
    rw [hs S.lb (w b).1 a.1 b.1, hs S.lg (w b).2 a.2 b.2]
    ring
  have hc : ∀ {n : ℕ} (l : ℝ) (x y s s' : Vec ℝ n), ∑ i, l * (s i - x i) * (s' i - s i) - l * (l - m) / m / 2 * ∑ i, (s' i - s i) ^ 2
      ≤ ∑ i, l * (s i - y i) * (s' i - s i) + l / 2 * ∑ i, (s' i - s i) ^ 2 + m / 2 * ∑ i, (y i - x i) ^ 2 := fun l x y s s' => by
    have h1 := dot_le_quad hm (fun i => l * (s' i - s i)) (fun i => y i - x i)
    have e1 : ∑ i, l * (s i - y i) * (s' i - s i) = ∑ i, l * (s i - x i) * (s' i - s i) - ∑ i, l * (s' i - s i) * (y i - x i) := by
      rw [← Finset.sum_sub_distrib]
      exact Finset.sum_congr rfl fun i _ => by ring
    have e2 : (∑ i, (l * (s' i - s i)) ^ 2) / (2 * m) = l ^ 2 / (2 * m) * ∑ i, (s' i - s i) ^ 2 := by
      rw [Finset.mul_sum, Finset.sum_div]
      exact Finset.sum_congr rfl fun i _ => by ring
    have e3 : l * (l - m) / m / 2 * ∑ i, (s' i - s i) ^ 2 = l ^ 2 / (2 * m) * ∑ i, (s' i - s i) ^ 2 - l / 2 * ∑ i, (s' i - s i) ^ 2 := by
      rw [← sub_mul]
      congr 1
      field_simp
    rw [e2] at h1
    rw [e1, e3]
    linarith
  have c1 := hc S.lb (w a).1 (w b).1 a.1 b.1
  have c2 := hc S.lg (w a).2 (w b).2 a.2 b.2
  rw [e]
  rw [mul_add] at hg
  linarith

/-- What a short proximal gradient step from a wrong gradient says about its end. -/
theorem inexact_certificate {n : ℕ} {A : Vec ℝ n → Prop} (hA : ∀ u v : Vec ℝ n, ∀ s : ℝ, A u → A v → 0 ≤ s → s ≤ 1 → A fun i => u i + s * (v i - u i))
    {pen f : Vec ℝ n → ℝ} {κ : ℝ} (hpen : ∀ u v : Vec ℝ n, ∀ s : ℝ, A u → A v → 0 ≤ s → s ≤ 1 →
      pen (fun i => u i + s * (v i - u i)) ≤ pen u + s * (pen v - pen u) + κ / 2 * (s * (1 - s)) * normSq (v - u))
    {t ell c e tol : ℝ} (ht : 0 < t) (hell : 0 ≤ ell) (hc : 0 ≤ c) (he : 0 ≤ e) (htol : 0 ≤ tol) {x z g G : Vec ℝ n} (hz : A z)
    (hmin : ∀ u, A u → t * pen z + normSq (z - fun i => x i - t * g i) / 2 ≤ t * pen u + normSq (u - fun i => x i - t * g i) / 2)
    (hf : f z ≤ f x + ∑ i, G i * (z i - x i) + ell / 2 * ∑ i, (z i - x i) ^ 2) (hfl : ∀ u, f x + ∑ i, G i * (u i - x i) - c / 2 * ∑ i, (u i - x i) ^ 2 ≤ f u)
    (hG : ∑ i, (G i - g i) ^ 2 ≤ e ^ 2) (hnear : ∑ i, (z i - x i) ^ 2 ≤ tol ^ 2) (u : Vec ℝ n) (hu : A u) (d : ℝ) (hd : d = √(∑ i, (u i - z i) ^ 2)) :
    f z + pen z ≤ f u + pen u + (tol / t + e) * d + κ / 2 * d ^ 2 + c / 2 * (d + tol) ^ 2 + ell / 2 * tol ^ 2 := by
  have h3 := prox_three_point_weak hA hpen ht hz hmin u hu
  have hd2 : ∑ i, (u i - z i) ^ 2 = d ^ 2 := by
    rw [hd, Real.sq_sqrt (Finset.sum_nonneg fun _ _ => sq_nonneg _)]
  have hd0 : 0 ≤ d := hd ▸ Real.sqrt_nonneg _
  have hcs : ∀ (a b : Vec ℝ n) (α : ℝ), 0 ≤ α → ∑ i, a i ^ 2 ≤ α ^ 2 → ∑ i, b i ^ 2 = d ^ 2 → ∑ i, a i * b i ≤ α * d := fun a b α hα ha hb => by
    refine (Real.sum_mul_le_sqrt_mul_sqrt _ _ _).trans ?_
    rw [hb, Real.sqrt_sq hd0]
    exact mul_le_mul_of_nonneg_right (by rw [Real.sqrt_le_left hα]; exact ha) hd0
  have c1 := hcs (fun i => z i - x i) (fun i => u i - z i) tol htol hnear hd2
  have c2 := hcs (fun i => g i - G i) (fun i => u i - z i) e he (by
    refine (le_of_eq (Finset.sum_congr rfl fun i _ => ?_)).trans hG
    ring) hd2
  have e1 : ∑ i, (z i - (x i - t * g i)) * (u i - z i) = ∑ i, (z i - x i) * (u i - z i) + t * (∑ i, (g i - G i) * (u i - z i) + ∑ i, G i * (u i - z i)) := by
    rw [← Finset.sum_add_distrib, Finset.mul_sum, ← Finset.sum_add_distrib]
    exact Finset.sum_congr rfl fun i _ => by ring
  have e2 : normSq (u - z) = d ^ 2 := hd2
  have e3 : ∑ i, (u i - x i) ^ 2 = d ^ 2 + 2 * ∑ i, (z i - x i) * (u i - z i) + ∑ i, (z i - x i) ^ 2 := by
    rw [← hd2, Finset.mul_sum, ← Finset.sum_add_distrib, ← Finset.sum_add_distrib]
    exact Finset.sum_congr rfl fun i _ => by ring
  have e4 : ∑ i, G i * (u i - x i) = ∑ i, G i * (u i - z i) + ∑ i, G i * (z i - x i) := by
    rw [← Finset.sum_add_distrib]
    exact Finset.sum_congr rfl fun i _ => by ring
  have h3' : 0 ≤ t * (pen u - pen z) + (∑ i, (z i - x i) * (u i - z i) + t * (∑ i, (g i - G i) * (u i - z i) + ∑ i, G i * (u i - z i))) + t * κ / 2 * d ^ 2 := by
    rw [← e1, ← e2]
    exact h3
  have hfu := hfl u
  have hsq : ∑ i, (u i - x i) ^ 2 ≤ (d + tol) ^ 2 := by
    rw [e3]
    nlinarith
  have hsq' := mul_le_mul_of_nonneg_left hsq (by linarith : 0 ≤ c / 2)
  have hnear' := mul_le_mul_of_nonneg_left hnear (by linarith : 0 ≤ ell / 2)
  have h4 : pen z ≤ pen u + tol / t * d + (e * d + ∑ i, G i * (u i - z i)) + κ / 2 * d ^ 2 := by
    have h5 : t * pen z ≤ t * (pen u + tol / t * d + (e * d + ∑ i, G i * (u i - z i)) + κ / 2 * d ^ 2) := by
      have e5 : t * (tol / t * d) = tol * d := by field_simp
      have h6 := mul_le_mul_of_nonneg_left c2 ht.le
      nlinarith
    exact le_of_mul_le_mul_left h5 ht
  rw [e4] at hfu
  linarith

/-- The prox of the wrapped penalties minimises over nonnegative variances. -/
theorem wrapReg_min {r : LmeReg} (hr : r.Admissible) {mp : List ℤ} {w : Vec ℝ (p + q)} (hw : ∀ i, 0 ≤ w i) {eps : ℝ} (heps : 0 ≤ eps) {base : Regularizer ℝ (p + q)}
    (hbase : r.build p q mp w = .ok base) {t κ : ℝ} (hκ : r.CurvedAbove κ w) (ht : 0 < t) (hκs : t * κ < 1) {y z : Vec ℝ (p + q)} (hz : (wrapReg p q eps base).prox y t = .ok z) :
    (∀ j, 0 ≤ xGamma z j) ∧ ∀ u, (∀ j, 0 ≤ xGamma u j) →
      t * (eps / 2 * ∑ i, z i ^ 2 + ∑ i, r.penalty w i (z i)) + normSq (z - y) / 2 ≤ t * (eps / 2 * ∑ i, u i ^ 2 + ∑ i, r.penalty w i (u i)) + normSq (u - y) / 2 := by
  have hx : r.ExactUpTo t w := by
    cases r with
    | dummy => trivial
    | l1 => trivial
    | scad rho sigma lam =>
      intro i
      have h1 := mul_le_mul_of_nonneg_left (hκ.2 i) ht.le
      have h2 : t * κ * (rho - 1) < 1 * (rho - 1) := mul_lt_mul_of_pos_right hκs (by linarith [hr.1])
      linarith
    | l0 => exact hκ.elim
    | cad => exact hκ.elim
  have hfp : ∀ u : Vec ℝ (p + q), (∀ j, 0 ≤ xGamma u j) → fullPenalty p q eps (r.penalty w) u = ((eps / 2 * ∑ i, u i ^ 2 + ∑ i, r.penalty w i (u i) : ℝ) : WithTop ℝ) := by
    intro u hu
    unfold fullPenalty
    rw [if_neg (by push Not; exact hu)]
  have hp := wrapReg_prox_min heps ht (LmeReg.penalty_mono hr hw) (LmeReg.base_prox hr hw hx hbase (by
    have := mul_nonneg ht.le heps
    exact div_nonneg ht.le (by linarith)) (div_le_self ht.le (by
      have := mul_nonneg ht.le heps
      linarith)) _) hz
  obtain ⟨gz, hgz, hmin⟩ := hp
  have hAz : ∀ j, 0 ≤ xGamma z j := by
    by_contra hn
    push Not at hn
    unfold fullPenalty at hgz
    rw [if_pos hn] at hgz
    cases hgz
  refine ⟨hAz, fun u hu => ?_⟩
  have := hmin u _ (hfp u hu)
  rw [hfp z hAz] at hgz
  rw [← WithTop.coe_inj.1 hgz] at this
  exact this

/-- The penalties with the elastic term are weakly convex. -/
theorem fullPenalty_weak {r : LmeReg} (hr : r.Admissible) {w : Vec ℝ (p + q)} (hw : ∀ i, 0 ≤ w i) {eps : ℝ} (heps : 0 ≤ eps) {κ : ℝ} (hκ : r.CurvedAbove κ w) (u v : Vec ℝ (p + q)) (s : ℝ)
    (hs0 : 0 ≤ s) (hs1 : s ≤ 1) : eps / 2 * ∑ i, (u i + s * (v i - u i)) ^ 2 + ∑ i, r.penalty w i (u i + s * (v i - u i)) ≤ (eps / 2 * ∑ i, u i ^ 2 + ∑ i, r.penalty w i (u i))
      + s * ((eps / 2 * ∑ i, v i ^ 2 + ∑ i, r.penalty w i (v i)) - (eps / 2 * ∑ i, u i ^ 2 + ∑ i, r.penalty w i (u i))) + κ / 2 * (s * (1 - s)) * normSq (v - u) := by
  have h1 : ∑ i, r.penalty w i (u i + s * (v i - u i)) ≤ ∑ i, (r.penalty w i (u i) + s * (r.penalty w i (v i) - r.penalty w i (u i)) + κ / 2 * (s * (1 - s)) * (v i - u i) ^ 2) :=
    Finset.sum_le_sum fun i _ => LmeReg.penalty_weak hr hw hκ i _ _ s hs0 hs1
  rw [Finset.sum_add_distrib, Finset.sum_add_distrib, ← Finset.mul_sum, ← Finset.mul_sum, Finset.sum_sub_distrib] at h1
  have h2 : ∑ i, (u i + s * (v i - u i)) ^ 2 ≤ ∑ i, (u i ^ 2 + s * (v i ^ 2 - u i ^ 2)) := Finset.sum_le_sum fun i _ => by
    have := mul_nonneg (mul_nonneg hs0 (by linarith : 0 ≤ 1 - s)) (sq_nonneg (v i - u i))
    nlinarith
  rw [Finset.sum_add_distrib, ← Finset.mul_sum, Finset.sum_sub_distrib] at h2
  have h3 := mul_le_mul_of_nonneg_left h2 (by linarith : 0 ≤ eps / 2)
  have e : normSq (v - u) = ∑ i, (v i - u i) ^ 2 := rfl
  rw [e]
  linarith

end Pass

/-- **C197**: an SR3 fit that reports convergence has stopped near a stationary point. Let the model be an SR3 model (not practical) with no penalty, L1 or SCAD, without prior and EM initializer, the observation
variances positive, at least one random effect, positive starting variances, and `ell` above the bound of C111 by at least `m`. For every fit that logs `converged = True`, with the result `b, g` and the length `t`
of the last step (the fixed step without line search): let `d` be the error of the last inner solve, `m d² ≤ |F| (d + √q) + q mu` with its residual and barrier parameter; with the warm start, and unless that inner
solve ran out of passes or did not move on its last one, `d ≤ tolO / m + √((√q + q) tolO / m)`. Then no coefficients with nonnegative variances at distance `ρ` have a relaxed objective `V + penalty` lower by more
than `B = (tol / t + ell d) ρ + κ/2 ρ² + ell (ell - m) / (2 m) (ρ + tol)² + ell/2 tol²`, and none have a plain objective lower by more than `B + |gradient of the loss at b, g|² / (2 m)`. -/
theorem C197_stationary (M : LmeModelCfg) (hM : M.Admissible) (s : LmeSr3Cfg) (hsr : M.sr3 = some s) (hprac : s.practical = false) (hposp : s.takeOnlyPositivePart = true) (hpr : M.prior = none)
    (hinit : M.initializer ≠ some "EM") (st : LmeState) (P : LmeProblem ℝ) (a : LmeFitArgs) (D : List (LmeGroup P.numFixed P.numRandom)) (hD : lmeGroups P = .ok D) (hDp : PosVar D)
    (hq : 0 < P.numRandom) (g0 : Vec ℝ P.numRandom) (hg : List.ofFn g0 = a.gamma.getD (List.replicate P.numRandom 1)) (hg0 : ∀ j, 0 < g0 j)
    (w : Vec ℝ (P.numFixed + P.numRandom)) (hw : List.ofFn w = a.feWeights.getD P.feWeights ++ a.reWeights.getD P.reWeights) (hw0 : ∀ i, 0 ≤ w i)
    (κ : ℝ) (hκ : M.reg.CurvedAbove κ w) (hκs : M.step * κ < 1) (m : ℝ) (hm : 0 < m) (hell : (D.map fun g => ∑ j, (∑ i, g.z i j ^ 2 / g.l i) ^ 2).sum + m ≤ s.ell)
    (V : Vec ℝ P.numFixed × Vec ℝ P.numRandom → ℝ)
    (hV : ∀ t : Vec ℝ P.numFixed × Vec ℝ P.numRandom, (∀ j, 0 ≤ t.2 j) → (∃ u : Vec ℝ P.numFixed × Vec ℝ P.numRandom, (∀ j, 0 ≤ u.2 j) ∧ lmeSr3Loss D .nonInformative ⟨s.ell, s.ell⟩ u.1 u.2 t.1 t.2 = .ok (V t)) ∧
      ∀ (beta : Vec ℝ P.numFixed) (gamma : Vec ℝ P.numRandom) L', (∀ j, 0 ≤ gamma j) → lmeSr3Loss D .nonInformative ⟨s.ell, s.ell⟩ beta gamma t.1 t.2 = .ok L' → V t ≤ L')
    (Lf : Logger (PyVal ℝ (P.numFixed + P.numRandom))) (c : LmeState) (h : lmeFitProblem M st P a = (.ok Lf, c)) (hconv : Lf.get "converged" = .ok (.atom (.bool true))) :
    ∃ (coef : LmeCoef) (b bp gb : Vec ℝ P.numFixed) (g gp gg : Vec ℝ P.numRandom) (t d : ℝ) (o : IpOracle P.numFixed P.numRandom) (sI : IpState P.numFixed P.numRandom) (F : _ → ℝ),
      c = some coef ∧ coef.beta = List.ofFn b ∧ coef.gamma = List.ofFn g ∧ (∀ j, 0 ≤ g j) ∧ 0 < t ∧ (M.stepping ≠ "line-search" → t = M.step) ∧
      ipLoop D .nonInformative (s.ip _ _) (ipInit (s.ip _ _) o ((2 : ℝ) • bp) ((2 : ℝ) • gp) bp gp) = .ok sI ∧ ipF D .nonInformative sI = .ok F ∧ 0 ≤ d ∧
      m * d ^ 2 ≤ npNorm F * (d + √P.numRandom) + P.numRandom * sI.mu ∧
      (s.warmStartOracle = true → (sI.iteration : ℤ) < s.maxIterOracle → ipMoved s.tolOracle sI → d ≤ s.tolOracle / m + √((√P.numRandom + P.numRandom) * s.tolOracle / m)) ∧
      lmeGradientBeta D .nonInformative b g = .ok gb ∧ lmeGradientGamma D .nonInformative b g = .ok gg ∧
      ∀ (b' : Vec ℝ P.numFixed) (g' : Vec ℝ P.numRandom), (∀ j, 0 ≤ g' j) → ∀ ρ B, ρ = √(∑ i, (b' i - b i) ^ 2 + ∑ j, (g' j - g j) ^ 2) →
        B = (M.tol / t + s.ell * d) * ρ + κ / 2 * ρ ^ 2 + s.ell * (s.ell - m) / m / 2 * (ρ + M.tol) ^ 2 + s.ell / 2 * M.tol ^ 2 →
        V (b, g) + (M.elasticEps / 2 * (∑ i, b i ^ 2 + ∑ j, g j ^ 2) + ∑ i, M.reg.penalty w i (joinX b g i))
          ≤ V (b', g') + (M.elasticEps / 2 * (∑ i, b' i ^ 2 + ∑ j, g' j ^ 2) + ∑ i, M.reg.penalty w i (joinX b' g' i)) + B ∧
        lmeObjective D M.elasticEps (M.reg.penalty w) b g ≤ lmeObjective D M.elasticEps (M.reg.penalty w) b' g' + B + (∑ i, gb i ^ 2 + ∑ j, gg j ^ 2) / (2 * m) := by
  have hn0 := relaxationNeeded_nonneg D
  have hell' : relaxationNeeded D + m ≤ s.ell := hell
  have hlb : m ≤ s.ell := by linarith
  have hl0 : 0 < s.ell := hm.trans_le hlb
  have hc : (s.ip P.numFixed P.numRandom).Plain := ⟨by
    change HessKind.ofFlags _ _ = _
    rw [hposp]
    rfl, rfl, rfl, rfl⟩
  have hq1 : ∀ {t : ℝ}, 0 < t → 0 < 1 + t * M.elasticEps := fun ht => by
    have := mul_nonneg ht.le hM.eps
    linarith
  have hpw : ∀ {w'}, M.reg.weights P.numFixed P.numRandom (a.feWeights.getD P.feWeights ++ a.reWeights.getD P.reWeights) = .ok w' → w' = w ∨ (M.reg = .dummy ∧ w' = 0) := fun {w'} hw' => by
    rcases LmeReg.weights_mem hw' with h0 | ⟨hlen, hw'⟩
    · exact .inr h0
    · left
      refine List.ofFn_injective (hw'.trans ?_)
      rw [hw, ← hw, List.take_of_length_le (by simp)]
  have hw0' : ∀ {w'}, M.reg.weights P.numFixed P.numRandom (a.feWeights.getD P.feWeights ++ a.reWeights.getD P.reWeights) = .ok w' → ∀ i, 0 ≤ w' i := fun {w'} hw' => by
    rcases hpw hw' with rfl | ⟨-, rfl⟩
    · exact hw0
    · exact fun _ => le_rfl
  obtain ⟨mp, w', base, z, y, t, coef, o, o', R, -, hw', hbase, hcc, hcb, hcg, ht, htM, hts, htol, hsq, hxn, hf, hoS, hst0, hst1, hpx⟩ := lmeSr3Fit_last hM.step_pos hsr hprac hpr hinit hD hq.ne' hg hg0
    (fun m w base y t z hw hbase ht hz j => by
      rw [wrapReg_prox_eq] at hz
      refine LibReg.nonneg (LmeReg.build_lib hM.reg (hw0' hw) hbase) (div_nonneg ht.le (hq1 ht).le) hz (Fin.natAdd _ j) ?_
      rw [joinX, Fin.append_right]
      exact div_nonneg (le_max_right _ _) (hq1 ht).le) h hconv
  have hpen : M.reg.penalty w' = M.reg.penalty w := by
    rcases hpw hw' with rfl | ⟨hd, -⟩
    · rfl
    · rw [hd]; rfl
  have hκ' : M.reg.CurvedAbove κ w' := by
    rcases hpw hw' with rfl | ⟨hd, -⟩
    · exact hκ
    · rw [hd] at hκ ⊢; exact hκ
  have hκ0 : 0 ≤ κ := by
    cases hr : M.reg with
    | dummy => rw [hr] at hκ; exact hκ
    | l1 => rw [hr] at hκ; exact hκ
    | scad => rw [hr] at hκ; exact hκ.1
    | l0 => rw [hr] at hκ; exact hκ.elim
    | cad => rw [hr] at hκ; exact hκ.elim
  have htκ : t * κ < 1 := (mul_le_mul_of_nonneg_right htM hκ0).trans_lt hκs
  obtain ⟨hAz, hmin⟩ := wrapReg_min hM.reg (hw0' hw') hM.eps hbase hκ' ht htκ hpx
  obtain ⟨V0, W, hW, hV0, hVmin, -, -⟩ := C194_value_function D hDp .nonInformative trivial ⟨s.ell, s.ell⟩ m hm hlb hell
  have hVV : ∀ t, (∀ j, 0 ≤ t.2 j) → V t = V0 t := fun t ht => by
    obtain ⟨⟨u, hu, hLu⟩, h1⟩ := hV t ht
    exact le_antisymm (h1 _ _ _ (hW t) (hV0 t)) (hVmin t _ _ _ hu hLu)
  obtain ⟨sI, F, gvb, gvg, o'', d, h1, h2, h3, h4, h5, h6, h7⟩ := C194_gradient_error D hDp .nonInformative trivial (s.ip P.numFixed P.numRandom) hc o m hm (by rw [hoS]; exact hlb) (by rw [hoS]; exact hell) hq
    (xBeta y) (xGamma y) hst0 (W (xBeta y, xGamma y)) (hW _) (V0 (xBeta y, xGamma y)) (by rw [hoS]; exact hV0 _) (fun beta gamma L' hg hL => by
      rw [hoS] at hL
      exact hVmin (xBeta y, xGamma y) beta gamma L' hg hL)
  have hgv : gvb = -(s.ell • (R.beta - xBeta y)) ∧ gvg = -(s.ell • (R.gamma - xGamma y)) := by
    have hoS' : o'.S = ⟨s.ell, s.ell⟩ := by
      have hf' := hf
      unfold lmeFindIp at hf'
      rw [if_neg hq.ne'] at hf'
      obtain ⟨s1, hs1, hf'⟩ := ebind_ok.1 hf'
      cases hf'
      exact (ipLoop_relaxed (c := s.ip _ _) rfl rfl hs1).2.2.trans hoS
    unfold lmeSr3GradientValueFunction at h3
    rw [hf] at h3
    have h3 := (Prod.mk.inj (Except.ok.inj h3)).1
    simp only [hoS'] at h3
    exact ⟨(Prod.mk.inj h3).1.symm, (Prod.mk.inj h3).2.symm⟩
  obtain ⟨rfl, rfl⟩ := hgv
  obtain ⟨lz, gb, gg, k1, k2, k3, -, k5, -, -⟩ := C196_bounds D hDp .nonInformative trivial ⟨s.ell, s.ell⟩ m hm hlb hell (xBeta z) (xGamma z) hAz (W (xBeta z, xGamma z)) (hW _) (V0 (xBeta z, xGamma z)) (hV0 _)
    (fun b g L h h' => hVmin (xBeta z, xGamma z) b g L h h')
  refine ⟨coef, xBeta z, xBeta y, gb, xGamma z, xGamma y, gg, t, d, o, sI, F, hcc, hcb, hcg, hAz, ht, hts, h1, h2, h5, h6, fun hwarm => h7 (hst1 hwarm), k2, k3, fun b' g' hg' ρ B hρ hB => ?_⟩
  obtain ⟨u, hu⟩ : ∃ u : Vec ℝ (P.numFixed + P.numRandom), u = joinX b' g' := ⟨_, rfl⟩
  have hub : xBeta u = b' := by rw [hu, xBeta_join]
  have hug : xGamma u = g' := by rw [hu, xGamma_join]
  obtain ⟨G, hG⟩ : ∃ G : Vec ℝ (P.numFixed + P.numRandom), G = joinX (fun i => s.ell * (xBeta y i - (W (xBeta y, xGamma y)).1 i)) (fun j => s.ell * (xGamma y j - (W (xBeta y, xGamma y)).2 j)) := ⟨_, rfl⟩
  have hGz : ∀ v : Vec ℝ (P.numFixed + P.numRandom), ∑ i, G i * (v i - y i) = ∑ i, s.ell * (xBeta y i - (W (xBeta y, xGamma y)).1 i) * (xBeta v i - xBeta y i)
      + ∑ j, s.ell * (xGamma y j - (W (xBeta y, xGamma y)).2 j) * (xGamma v j - xGamma y j) := fun v => by
    rw [sum_join (φ := fun a b => a * b) G (fun i => v i - y i), hG, xBeta_join, xGamma_join]
    rfl
  have hGe : ∑ i, (G i - joinX (-(s.ell • (R.beta - xBeta y))) (-(s.ell • (R.gamma - xGamma y))) i) ^ 2 = (s.ell * d) ^ 2 := by
    rw [sum_join (φ := fun a b => (a - b) ^ 2) G, hG, xBeta_join, xGamma_join, xBeta_join, xGamma_join, mul_pow, ← h4, hoS, mul_add, Finset.mul_sum, Finset.mul_sum]
    congr 1
    · refine Finset.sum_congr rfl fun i _ => ?_
      field_simp
      ring
    · refine Finset.sum_congr rfl fun i _ => ?_
      field_simp
      ring
  have hcert := inexact_certificate (A := fun u : Vec ℝ (P.numFixed + P.numRandom) => ∀ j, 0 ≤ xGamma u j) (pen := fun u => M.elasticEps / 2 * ∑ i, u i ^ 2 + ∑ i, M.reg.penalty w' i (u i))
    (f := fun u => V0 (xBeta u, xGamma u)) (κ := κ) (ell := s.ell) (c := s.ell * (s.ell - m) / m) (e := s.ell * d) (tol := M.tol) (G := G) (x := y)
    (fun u v s hu hv hs0 hs1 j => by
      have h1 := mul_nonneg (by linarith : 0 ≤ 1 - s) (hu j)
      have h2 := mul_nonneg hs0 (hv j)
      change 0 ≤ xGamma u j + s * (xGamma v j - xGamma u j)
      linarith)
    (fun u v s hu hv hs0 hs1 => fullPenalty_weak hM.reg (hw0' hw') hM.eps hκ' u v s hs0 hs1) ht hl0.le (div_nonneg (mul_nonneg hl0.le (by linarith)) hm.le) (mul_nonneg hl0.le h5) htol hAz hmin
    (by
      have hup := value_upper hDp hW hV0 hVmin (xBeta y, xGamma y) (xBeta z, xGamma z)
      rw [hGz, sum_join (φ := fun a b => (a - b) ^ 2) z y, mul_add]
      exact hup)
    (fun v => by
      have hlo := value_lower hDp (P := .nonInformative) trivial hm hlb hell hW hV0 hVmin (xBeta y, xGamma y) (xBeta v, xGamma v)
      rw [hGz, sum_join (φ := fun a b => (a - b) ^ 2) v y, mul_add]
      exact hlo) hGe.le hsq u (by rw [hug]; exact hg') ρ (by
      rw [hρ, sum_join (φ := fun a b => (a - b) ^ 2) u z, hub, hug])
  have ez : joinX (xBeta z) (xGamma z) = z := Fin.append_castAdd_natAdd
  have hsz : ∀ v : Vec ℝ (P.numFixed + P.numRandom), ∑ i, v i ^ 2 = ∑ i, xBeta v i ^ 2 + ∑ j, xGamma v j ^ 2 := fun v => sum_join (φ := fun a _ => a ^ 2) v v
  have hmain : V0 (xBeta z, xGamma z) + (M.elasticEps / 2 * ∑ i, z i ^ 2 + ∑ i, M.reg.penalty w i (z i)) ≤ V0 (b', g') + (M.elasticEps / 2 * ∑ i, u i ^ 2 + ∑ i, M.reg.penalty w i (u i)) + B := by
    simp only [hub, hug, hpen] at hcert
    rw [hB]
    linarith
  constructor
  · rw [hVV _ hAz, hVV _ hg', ez, ← hsz z, ← hu]
    rw [hsz u, hub, hug] at hmain
    exact hmain
  · have e1 := lmeObjective_join D M.elasticEps (M.reg.penalty w) z
    have e2 := lmeObjective_join D M.elasticEps (M.reg.penalty w) u
    rw [hub, hug] at e2
    have h8 := (value_bounds hDp hl0.le hl0.le hW hV0 hVmin (b', g')).2 hg'
    have h9 : lz = marginalNLL D (xBeta z) (xGamma z) := by
      rw [(lmeLoss_ok.1 k1).2]
      exact add_zero _
    rw [h9] at k5
    simp only at h8
    linarith

/-- An SR3 L1 model with fixed steps, the warm start of the inner solver and no logged losses, for C197. -/
noncomputable def sr3Near (ell tol : ℝ) : LmeModelCfg :=
  { exModel (some { exSr3 false with ell := ell, warmStartOracle := true }) 1000 (.l1 2) with stepping := "fixed", tol := tol, loggerKeys := ["converged"] }

theorem sr3Near_robust {ell : ℝ} (h0 : 0 < ell) (tol : ℝ) : (sr3Near ell tol).Robust where
  adm := ⟨show (0 : ℝ) ≤ 2 by norm_num, by norm_num [sr3Near, exModel], (fun s hs => by cases hs), fun s h => by cases h; exact h0.le⟩
  init := by simp [sr3Near, exModel]
  kind := rfl
  keys := by change ["converged"].Nodup; decide
  vaida := by change _ ∉ ["converged"]; decide
  flip := fun h => absurd h (by change _ ∉ ["converged"]; decide)
  sr3 := fun s h => by cases h; exact ⟨h0, rfl⟩
  scad := fun _ _ => trivial

/-- Non-vacuity of C197: the example table, with two fixed and two random effects, is fitted with an SR3 L1 model whose `ell` is one above the bound of C111, from the default start, with a tolerance that the
first step meets; the fit converges, and the start is not better than the result by more than C197 says. -/
example : ∃ (P : LmeProblem ℝ) (D : List (LmeGroup P.numFixed P.numRandom)) (ell tol d ρ : ℝ) (Lf : Logger (PyVal ℝ (P.numFixed + P.numRandom))) (c : LmeCoef)
    (b gb : Vec ℝ P.numFixed) (g gg : Vec ℝ P.numRandom), lmeFromXY exTab (some ![26, 20]) none exTabLabels true true none none = .ok P ∧ lmeGroups P = .ok D ∧ P.numFixed = 2 ∧ P.numRandom = 2 ∧
    lmeFitProblem (sr3Near ell tol) none P {} = (.ok Lf, some c) ∧ Lf.get "converged" = .ok (.atom (.bool true)) ∧ c.beta = List.ofFn b ∧ c.gamma = List.ofFn g ∧
    lmeObjective D 1e-4 ((LmeReg.l1 2).penalty fun _ => 1) b g ≤ lmeObjective D 1e-4 ((LmeReg.l1 2).penalty fun _ => 1) (fun _ => 1) (fun _ => 1)
      + ((tol / (1 / ell) + ell * d) * ρ + 0 / 2 * ρ ^ 2 + ell * (ell - 1) / 1 / 2 * (ρ + tol) ^ 2 + ell / 2 * tol ^ 2) + (∑ i, gb i ^ 2 + ∑ j, gg j ^ 2) / (2 * 1) := by
  obtain ⟨P, hP⟩ := exTab_ok' true true ![26, 20]
  obtain ⟨_, _, feW, reW, -, -, hlen, -, -, -, -, -, hf, hr', hPe⟩ := lmeFromXY_ok exTab (some ![26, 20]) none exTabLabels
    true true none none P hP
  have e1 : P.feWeights = [1, 1] := by rw [hPe]; cases hf; rfl
  have e2 : P.reWeights = [1, 1] := by rw [hPe]; cases hr'; rfl
  have hF : P.numFixed = 2 := (numFixed_eq P true true (by rw [hPe])).trans (by rw [show P.columnLabels = exTabLabels by rw [hPe]]; decide)
  have hR : P.numRandom = 2 := (numRandom_eq P true true (by rw [hPe])).trans (by rw [show P.columnLabels = exTabLabels by rw [hPe]]; decide)
  obtain ⟨gr, v, -, hv, -, hD⟩ := lmeGroups_table hP
  obtain ⟨D, hDe⟩ : ∃ D, D = (uniqueLabels fun r => exTab r gr).map (tableGroup exTab ![26, 20] exTabLabels true true gr v P.numFixed P.numRandom) := ⟨_, rfl⟩
  rw [← hDe] at hD
  have hDp : PosVar D := by
    have hvl : v = 3 := by
      have h3 : labelIdx (p := 4) exTabLabels (· = VARIANCE) = [3] := by decide
      rw [h3] at hv
      exact (List.singleton_injective hv).symm
    intro g hg i
    rw [hDe] at hg
    obtain ⟨l, -, rfl⟩ := List.mem_map.1 hg
    exact exTab_positive v (by rw [hvl]; rfl) _
  obtain ⟨ell, hel⟩ : ∃ ell, ell = relaxationNeeded D + 1 := ⟨_, rfl⟩
  have hl1 : 1 ≤ ell := by
    have := relaxationNeeded_nonneg D
    linarith
  have hl0 : 0 < ell := by linarith
  have hone : ∀ n : ℕ, List.ofFn (fun _ : Fin n => (1 : ℝ)) = List.replicate n 1 := fun n => List.ofFn_const n 1
  have hw1 : List.ofFn (fun _ : Fin (P.numFixed + P.numRandom) => (1 : ℝ)) = P.feWeights ++ P.reWeights := by
    rw [e1, e2, hF, hR, hone]
    rfl
  obtain ⟨s, hs⟩ : ∃ s : LmeSr3Cfg, s = { exSr3 false with ell := ell, warmStartOracle := true } := ⟨_, rfl⟩
  obtain ⟨x0, hx0⟩ : ∃ x0 : Vec ℝ (P.numFixed + P.numRandom), x0 = joinX (fun _ => 1) (fun _ => 1) := ⟨_, rfl⟩
  obtain ⟨w, hw⟩ : ∃ w : Vec ℝ (P.numFixed + P.numRandom), w = fun _ => 1 := ⟨_, rfl⟩
  obtain ⟨T, hT⟩ : ∃ T : ℝ, ∀ x1 g o, (lmeSr3Oracle D .nonInformative (s.ip _ _)).grad x0 ⟨⟨s.ell, s.ell⟩, none⟩ = .ok (g, o) →
      (wrapReg P.numFixed P.numRandom 1e-4 (l1Regularizer 2 (some w))).prox (fun i => x0 i - 1 / ell * g i) (1 / ell) = .ok x1 → normSq (x1 - x0) ≤ T := by
    by_cases hex : ∃ x1 g o, (lmeSr3Oracle D .nonInformative (s.ip _ _)).grad x0 ⟨⟨s.ell, s.ell⟩, none⟩ = .ok (g, o) ∧
        (wrapReg P.numFixed P.numRandom 1e-4 (l1Regularizer 2 (some w))).prox (fun i => x0 i - 1 / ell * g i) (1 / ell) = .ok x1
    · obtain ⟨x1, g, o, h1, h2⟩ := hex
      refine ⟨normSq (x1 - x0), fun x1' g' o' h3 h4 => ?_⟩
      cases h1.symm.trans h3
      cases h2.symm.trans h4
      exact le_rfl
    · exact ⟨0, fun x1 g o h1 h2 => absurd ⟨x1, g, o, h1, h2⟩ hex⟩
  obtain ⟨tol, htol⟩ : ∃ tol, tol = √(max T 0) := ⟨_, rfl⟩
  obtain ⟨Lf, c, hfit, -, -⟩ := C83_fit_problem_returns (sr3Near ell tol) (sr3Near_robust hl0 tol) none exTab ![26, 20] none exTabLabels true true none none P hP exTab_positive ⟨.nonInformative, rfl⟩ {}
    (by simp) (by simp) (by rintro w rfl; simp only [Option.getD_none, e1]; exact ⟨rfl, by simp⟩) (by rintro w rfl; simp only [Option.getD_none, e2]; exact ⟨rfl, by simp⟩)
  have hstep : (sr3Near ell tol).step = 1 / ell := by
    unfold LmeModelCfg.step sr3Near exModel
    simp only
    exact if_neg hl0.ne'
  have hconv := lmeSr3Fit_first (M := sr3Near ell tol) (s := s) (by simp [sr3Near]) (by rw [hs]; rfl) (by rw [hs]; rfl) rfl (by simp [sr3Near, exModel]) (by norm_num [sr3Near, exModel])
    (by change "loss" ∉ ["converged"]; decide) hD (b0 := fun _ => 1) (g0 := fun _ => 1) (hone _) (hone _)
    (by rw [show (sr3Near ell tol).tol = tol from rfl, htol]; exact Real.sqrt_nonneg _) (fun m w' base x1 g o _ hw' hbase hg hpx => by
      obtain rfl : w' = w := by
        rcases LmeReg.weights_mem hw' with ⟨h0, -⟩ | ⟨hlen, hw'⟩
        · cases h0
        · refine List.ofFn_injective (hw'.trans ?_)
          rw [hw, hw1]
          change List.take _ (P.feWeights ++ P.reWeights) = _
          rw [List.take_of_length_le (by rw [e1, e2, hF, hR]; simp)]
      cases hbase
      rw [hstep, ← hx0] at hpx
      rw [← hx0] at hg
      rw [← hx0, show (sr3Near ell tol).tol = tol from rfl, htol, Real.sq_sqrt (le_max_right _ _)]
      exact (hT x1 g o hg hpx).trans (le_max_left _ _)) hfit
  obtain ⟨V, W, v1, v2, v3, -, -⟩ := C194_value_function D hDp .nonInformative trivial ⟨ell, ell⟩ 1 one_pos hl1 hel.ge
  obtain ⟨coef, b, bp, gb, g, gp, gg, t, d, o, sI, F, hc, hb, hg, -, -, hts, -, -, -, -, -, -, -, hopt⟩ := C197_stationary (sr3Near ell tol) (sr3Near_robust hl0 tol).adm s (by rw [hs]; rfl) (by rw [hs]; rfl)
    (by rw [hs]; rfl) rfl (by simp [sr3Near, exModel]) none P {} D hD hDp (by omega) (fun _ => 1) (hone _) (fun _ => one_pos) (fun _ => 1) hw1 (fun _ => zero_le_one) 0 le_rfl
    (by rw [mul_zero]; exact one_pos) 1 one_pos (by rw [hs]; exact hel.ge) V (by
      rw [hs]
      exact fun t _ => ⟨⟨W t, v1 t, v2 t⟩, v3 t⟩) Lf (some c) hfit hconv
  cases hc
  obtain rfl : t = 1 / ell := (hts (by simp [sr3Near])).trans hstep
  have := (hopt (fun _ => 1) (fun _ => 1) (fun _ => zero_le_one) _ _ rfl rfl).2
  subst hs
  exact ⟨P, D, ell, tol, d, _, Lf, c, b, gb, g, gg, hP, hD, hF, hR, hfit, hconv, hb, hg, this⟩

end Verif
