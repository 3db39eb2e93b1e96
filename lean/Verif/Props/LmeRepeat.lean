import Verif.Props.LmeConvex
import Verif.Props.LmeExists

/-!
# C193 (evaluations of the SR3 oracle are repeatable up to the residual of the inner solver)
-/

open Matrix

namespace Verif

noncomputable section

variable {p q : ℕ}

/-- C111 in terms of the value of the relaxed loss, with one constant of strong convexity. -/
theorem relaxed_tangent {D : List (LmeGroup p q)} (hD : PosVar D) {P : LmeInstPrior ℝ p q} (hP : P.Reachable) {S : Sr3Params} {m : ℝ}
    (hlb : m ≤ S.lb) (hlg : (D.map fun g => ∑ j, (∑ i, g.z i j ^ 2 / g.l i) ^ 2).sum + m ≤ S.lg)
    (beta tbeta : Vec ℝ p) {gamma : Vec ℝ q} (tgamma : Vec ℝ q) (hg : ∀ j, 0 ≤ gamma j) :
    ∃ gb gg, lmeSr3GradientBeta D P S beta gamma tbeta = .ok gb ∧ lmeSr3GradientGamma D P S beta gamma tgamma = .ok gg ∧
      ∀ (beta' : Vec ℝ p) (gamma' : Vec ℝ q), (∀ j, 0 ≤ gamma' j) →
        lmeRelaxedLoss D P S beta gamma tbeta tgamma + ∑ i, gb i * (beta' i - beta i) + ∑ j, gg j * (gamma' j - gamma j)
          + m / 2 * (∑ i, (beta' i - beta i) ^ 2 + ∑ j, (gamma' j - gamma j) ^ 2) ≤ lmeRelaxedLoss D P S beta' gamma' tbeta tgamma := by
  obtain ⟨-, -, gb, gg, -, -, h1, h2, -⟩ := C111_tangent D hD P hP S beta beta tbeta gamma gamma tgamma hg hg
  refine ⟨gb, gg, h1, h2, fun beta' gamma' hg' => ?_⟩
  obtain ⟨v, v', gb', gg', k1, k2, k3, k4, ht⟩ := C111_tangent D hD P hP S beta beta' tbeta gamma gamma' tgamma hg hg'
  rw [lmeSr3Loss_ok (inDomain_of_nonneg hD hg)] at k1
  rw [lmeSr3Loss_ok (inDomain_of_nonneg hD hg')] at k2
  rw [h1] at k3
  rw [h2] at k4
  cases k1
  cases k2
  cases k3
  cases k4
  have d1 : 0 ≤ ∑ i, (beta' i - beta i) ^ 2 := Finset.sum_nonneg fun i _ => sq_nonneg _
  have d2 : 0 ≤ ∑ j, (gamma' j - gamma j) ^ 2 := Finset.sum_nonneg fun i _ => sq_nonneg _
  have d3 := mul_le_mul_of_nonneg_right hlb d1
  have d4 := mul_le_mul_of_nonneg_right (show m ≤ S.lg - (D.map fun g => ∑ j, (∑ i, g.z i j ^ 2 / g.l i) ^ 2).sum by linarith) d2
  linarith

theorem relaxedLoss_continuousOn {D : List (LmeGroup p q)} (hD : PosVar D) (P : LmeInstPrior ℝ p q) (S : Sr3Params) (tbeta : Vec ℝ p) (tgamma : Vec ℝ q) :
    ContinuousOn (fun w : Vec ℝ p × Vec ℝ q => lmeRelaxedLoss D P S w.1 w.2 tbeta tgamma) {w | ∀ j, 0 ≤ w.2 j} := by
  have h1 : ContinuousOn (fun w : Vec ℝ p × Vec ℝ q => marginalNLL D w.1 w.2) {w | ∀ j, 0 ≤ w.2 j} := by
    refine (sum_groupNLL_continuousOn hD).congr fun w _ => ?_
    show (D.map fun g => groupNLL g w.1 w.2).sum = _
    conv_lhs => rw [← List.ofFn_get D]
    rw [List.map_ofFn, List.sum_ofFn]
    rfl
  unfold lmeRelaxedLoss
  refine ((h1.add (priorLoss_continuous P).continuousOn).add ?_).add ?_
  · exact Continuous.continuousOn (by fun_prop)
  · exact Continuous.continuousOn (by fun_prop)

/-- **C193**, the inner problem: with a relaxation above the bound of C111, the relaxed loss at any relaxed variables has exactly one minimiser among the parameters with nonnegative variances. -/
theorem C193_unique_minimiser (D : List (LmeGroup p q)) (hD : PosVar D) (P : LmeInstPrior ℝ p q) (hP : P.Reachable) (S : Sr3Params) (hlb : 0 < S.lb)
    (hlg : (D.map fun g => ∑ j, (∑ i, g.z i j ^ 2 / g.l i) ^ 2).sum < S.lg) (tbeta : Vec ℝ p) (tgamma : Vec ℝ q) :
    ∃! w : Vec ℝ p × Vec ℝ q, (∀ j, 0 ≤ w.2 j) ∧ ∃ L, lmeSr3Loss D P S w.1 w.2 tbeta tgamma = .ok L ∧
      ∀ w' : Vec ℝ p × Vec ℝ q, (∀ j, 0 ≤ w'.2 j) → ∀ L', lmeSr3Loss D P S w'.1 w'.2 tbeta tgamma = .ok L' → L ≤ L' := by
  obtain ⟨m, hm⟩ : ∃ m, m = min S.lb (S.lg - (D.map fun g => ∑ j, (∑ i, g.z i j ^ 2 / g.l i) ^ 2).sum) := ⟨_, rfl⟩
  have hm0 : 0 < m := by
    rw [hm]
    exact lt_min hlb (by linarith)
  have hm1 : m ≤ S.lb := by
    rw [hm]
    exact min_le_left _ _
  have hm2 : (D.map fun g => ∑ j, (∑ i, g.z i j ^ 2 / g.l i) ^ 2).sum + m ≤ S.lg := by
    have : m ≤ S.lg - (D.map fun g => ∑ j, (∑ i, g.z i j ^ 2 / g.l i) ^ 2).sum := by
      rw [hm]
      exact min_le_right _ _
    linarith
  obtain ⟨f, hf⟩ : ∃ f : Vec ℝ p × Vec ℝ q → ℝ, f = fun w => lmeRelaxedLoss D P S w.1 w.2 tbeta tgamma := ⟨_, rfl⟩
  have hval : ∀ w : Vec ℝ p × Vec ℝ q, (∀ j, 0 ≤ w.2 j) → lmeSr3Loss D P S w.1 w.2 tbeta tgamma = .ok (f w) := fun w hw => by
    rw [lmeSr3Loss_ok (inDomain_of_nonneg hD hw), hf]
  have hex : ∃ w : Vec ℝ p × Vec ℝ q, (∀ j, 0 ≤ w.2 j) ∧ ∀ w' : Vec ℝ p × Vec ℝ q, (∀ j, 0 ≤ w'.2 j) → f w ≤ f w' := by
    obtain ⟨gb, gg, -, -, ht⟩ := relaxed_tangent hD hP hm1 hm2 (0 : Vec ℝ p) tbeta (gamma := (0 : Vec ℝ q)) tgamma fun j => le_rfl
    obtain ⟨R, hR⟩ : ∃ R, R = √(4 / m * ((∑ i, gb i ^ 2) / m + (∑ j, gg j ^ 2) / m)) := ⟨_, rfl⟩
    have hR0 : 0 ≤ R := by
      rw [hR]
      exact Real.sqrt_nonneg _
    have hsub : ∀ w : Vec ℝ p × Vec ℝ q, (∀ j, 0 ≤ w.2 j) → f w ≤ f 0 → w ∈ Set.Icc ((fun _ => -R, fun _ => 0) : Vec ℝ p × Vec ℝ q) (fun _ => R, fun _ => R) := by
      intro w hw hle
      have h := ht w.1 w.2 hw
      have b1 := dot_le_quad (m := m / 2) (by positivity) gb (fun i => -w.1 i)
      have b2 := dot_le_quad (m := m / 2) (by positivity) gg (fun i => -w.2 i)
      simp only [Pi.zero_apply, sub_zero, mul_neg, Finset.sum_neg_distrib, neg_sq] at h b1 b2
      rw [show 2 * (m / 2) = m by ring] at b1 b2
      rw [hf] at hle
      change lmeRelaxedLoss D P S w.1 w.2 tbeta tgamma ≤ lmeRelaxedLoss D P S 0 0 tbeta tgamma at hle
      have hN : ∑ i, w.1 i ^ 2 + ∑ j, w.2 j ^ 2 ≤ 4 / m * ((∑ i, gb i ^ 2) / m + (∑ j, gg j ^ 2) / m) := by
        rw [div_mul_eq_mul_div, le_div_iff₀ hm0]
        linarith
      have n1 : 0 ≤ ∑ i, w.1 i ^ 2 := Finset.sum_nonneg fun i _ => sq_nonneg _
      have n2 : 0 ≤ ∑ j, w.2 j ^ 2 := Finset.sum_nonneg fun i _ => sq_nonneg _
      have c1 : ∀ i, |w.1 i| ≤ R := fun i => by
        rw [hR]
        refine Real.abs_le_sqrt ?_
        have := Finset.single_le_sum (f := fun i => w.1 i ^ 2) (fun i _ => sq_nonneg _) (Finset.mem_univ i)
        linarith
      have c2 : ∀ j, |w.2 j| ≤ R := fun j => by
        rw [hR]
        refine Real.abs_le_sqrt ?_
        have := Finset.single_le_sum (f := fun i => w.2 i ^ 2) (fun i _ => sq_nonneg _) (Finset.mem_univ j)
        linarith
      exact ⟨⟨fun i => (abs_le.1 (c1 i)).1, hw⟩, ⟨fun i => (abs_le.1 (c1 i)).2, fun j => (abs_le.1 (c2 j)).2⟩⟩
    have hK0 : ∀ w ∈ Set.Icc ((fun _ => -R, fun _ => 0) : Vec ℝ p × Vec ℝ q) (fun _ => R, fun _ => R), ∀ j, 0 ≤ w.2 j := fun w hw => hw.1.2
    have h0 : (0 : Vec ℝ p × Vec ℝ q) ∈ Set.Icc ((fun _ => -R, fun _ => 0) : Vec ℝ p × Vec ℝ q) (fun _ => R, fun _ => R) := hsub 0 (fun j => le_rfl) le_rfl
    have hc : ContinuousOn f {w | ∀ j, 0 ≤ w.2 j} := by
      rw [hf]
      exact relaxedLoss_continuousOn hD P S tbeta tgamma
    obtain ⟨w, hw, hmin⟩ := isCompact_Icc.exists_isMinOn ⟨_, h0⟩ (hc.mono hK0)
    refine ⟨w, hK0 w hw, fun w' hw' => ?_⟩
    rcases le_total (f w') (f 0) with h | h
    · exact isMinOn_iff.1 hmin w' (hsub w' hw' h)
    · exact (isMinOn_iff.1 hmin 0 h0).trans h
  obtain ⟨w, hw, hmin⟩ := hex
  refine ⟨w, ⟨hw, f w, hval w hw, fun w' hw' L' hL' => ?_⟩, ?_⟩
  · rw [hval w' hw'] at hL'
    cases hL'
    exact hmin w' hw'
  · rintro u ⟨hu, L, hL, humin⟩
    rw [hval u hu] at hL
    cases hL
    have hle : f u ≤ f w := humin w hw _ (hval w hw)
    have hmid : ∀ j, 0 ≤ ((2⁻¹ : ℝ) • (u.2 + w.2)) j := fun j => by
      have := hu j
      have := hw j
      simp only [Pi.smul_apply, Pi.add_apply, smul_eq_mul]
      linarith
    obtain ⟨gb, gg, -, -, ht⟩ := relaxed_tangent hD hP hm1 hm2 ((2⁻¹ : ℝ) • (u.1 + w.1)) tbeta (gamma := (2⁻¹ : ℝ) • (u.2 + w.2)) tgamma hmid
    have t1 := ht u.1 u.2 hu
    have t2 := ht w.1 w.2 hw
    have t3 := hmin ((2⁻¹ : ℝ) • (u.1 + w.1), (2⁻¹ : ℝ) • (u.2 + w.2)) hmid
    rw [hf] at hle t3
    simp only at hle t3
    have s1 : ∀ {n : ℕ} (g a b : Vec ℝ n), ∑ i, g i * (a i - ((2⁻¹ : ℝ) • (a + b)) i) = - ∑ i, g i * (b i - ((2⁻¹ : ℝ) • (a + b)) i) := fun g a b => by
      rw [← Finset.sum_neg_distrib]
      refine Finset.sum_congr rfl fun i _ => ?_
      simp only [Pi.smul_apply, Pi.add_apply, smul_eq_mul]
      ring
    have s2 : ∀ {n : ℕ} (a b : Vec ℝ n), ∑ i, (a i - ((2⁻¹ : ℝ) • (a + b)) i) ^ 2 = 1 / 4 * ∑ i, (a i - b i) ^ 2 := fun a b => by
      rw [Finset.mul_sum]
      refine Finset.sum_congr rfl fun i _ => ?_
      simp only [Pi.smul_apply, Pi.add_apply, smul_eq_mul]
      ring
    have s3 : ∀ {n : ℕ} (a b : Vec ℝ n), 0 ≤ ∑ i, (b i - ((2⁻¹ : ℝ) • (a + b)) i) ^ 2 := fun a b => Finset.sum_nonneg fun i _ => sq_nonneg _
    have e1 := s1 gb u.1 w.1
    have e2 := s1 gg u.2 w.2
    have e3 := s2 u.1 w.1
    have e4 := s2 u.2 w.2
    have e5 := s3 u.1 w.1
    have e6 := s3 u.2 w.2
    have n1 : 0 ≤ ∑ i, (u.1 i - w.1 i) ^ 2 := Finset.sum_nonneg fun i _ => sq_nonneg _
    have n2 : 0 ≤ ∑ i, (u.2 i - w.2 i) ^ 2 := Finset.sum_nonneg fun i _ => sq_nonneg _
    have hz : ∑ i, (u.1 i - w.1 i) ^ 2 + ∑ i, (u.2 i - w.2 i) ^ 2 ≤ 0 := by
      rw [e1, e2, e3, e4] at t1
      have h5 : 0 ≤ m / 2 * (∑ i, (w.1 i - ((2⁻¹ : ℝ) • (u.1 + w.1)) i) ^ 2 + ∑ i, (w.2 i - ((2⁻¹ : ℝ) • (u.2 + w.2)) i) ^ 2) := by positivity
      have : m / 8 * (∑ i, (u.1 i - w.1 i) ^ 2 + ∑ i, (u.2 i - w.2 i) ^ 2) ≤ 0 := by linarith
      by_contra hne
      have := mul_pos (show 0 < m / 8 by positivity) (not_le.1 hne)
      linarith
    have z : ∀ {n : ℕ} (a b : Vec ℝ n), ∑ i, (a i - b i) ^ 2 ≤ 0 → a = b := fun a b h => by
      funext i
      have h0 := (Finset.sum_eq_zero_iff_of_nonneg fun i _ => sq_nonneg (a i - b i)).1 (le_antisymm h (Finset.sum_nonneg fun i _ => sq_nonneg _)) i (Finset.mem_univ i)
      exact sub_eq_zero.1 (pow_eq_zero_iff two_ne_zero |>.1 h0)
    exact Prod.ext (z _ _ (by linarith)) (z _ _ (by linarith))

/-- How a call of the inner solver ends. -/
theorem inner_end (D : List (LmeGroup p q)) (hD : PosVar D) (P : LmeInstPrior ℝ p q) (hP : P.Reachable) (c : IpCfg p q) (hc : c.Plain) (o : IpOracle p q)
    (hlb : 0 < o.S.lb) (hlg : 0 ≤ o.S.lg) (hq : 0 < q) (tbeta : Vec ℝ p) (tgamma : Vec ℝ q)
    (hg : ∀ j, 0 ≤ (ipStart c o ((2 : ℝ) • tbeta) ((2 : ℝ) • tgamma)).2 j) :
    ∃ s F o', ipLoop D P c (ipInit c o ((2 : ℝ) • tbeta) ((2 : ℝ) • tgamma) tbeta tgamma) = .ok s ∧ ipF D P s = .ok F ∧
      lmeSr3GradientValueFunction D P c o tbeta tgamma = .ok ((-(o.S.lb • (s.beta - tbeta)), -(o.S.lg • (s.gamma - tgamma))), o') ∧
      (∀ j, 0 < s.v j) ∧ (∀ j, 0 ≤ s.gamma j) ∧ s.tbeta = tbeta ∧ s.tgamma = tgamma ∧ s.S = o.S ∧
      ((∀ j, 0 < (ipStart c o ((2 : ℝ) • tbeta) ((2 : ℝ) • tgamma)).2 j) → s.stepLen ≠ 0) := by
  obtain ⟨I, hI⟩ : ∃ I : IpState p q → Prop, I = fun s => (∀ j, 0 < s.v j) ∧ (∀ j, 0 ≤ s.gamma j) ∧ 0 < s.S.lb ∧ 0 ≤ s.S.lg := ⟨_, rfl⟩
  have h0 : I (ipInit c o ((2 : ℝ) • tbeta) ((2 : ℝ) • tgamma) tbeta tgamma) := by
    rw [hI]
    exact ⟨fun j => one_pos, hg, hlb, hlg⟩
  have hst : ∀ s F, I s → ∃ s', ipStep D P c s F = .ok s' ∧ I { s' with iteration := s.iteration + 1 } := by
    intro s F hs
    rw [hI] at hs
    obtain ⟨h1, h2, h3, h4⟩ := hs
    obtain ⟨s', k1, k2⟩ := ipStep_total hD hP hc.default (F := F) h1 h2 h3 h4
    exact ⟨s', k1, by rw [hI]; exact k2⟩
  have hFt : ∀ s, I s → ∃ F, ipF D P s = .ok F := by
    intro s hs
    rw [hI] at hs
    exact ipF_total hD hP hs.2.1
  obtain ⟨s, hs⟩ := ipLoop_total D P c I hFt (fun s F h _ _ => hst s F h) _ _ rfl h0
  have hIs : I s := by
    refine ipLoop_inv D P c I ?_ _ _ s rfl h0 hs
    intro a F a' ha _ _ ha'
    obtain ⟨b, hb, hIb⟩ := hst a F ha
    rw [ha'] at hb
    cases hb
    exact hIb
  obtain ⟨F, hF⟩ := hFt s hIs
  rw [hI] at hIs
  obtain ⟨hv, hgam, -, -⟩ := hIs
  obtain ⟨e1, e2, e3⟩ := ipLoop_relaxed hc.reg hc.increaseLambdas hs
  change s.tbeta = tbeta at e1
  change s.tgamma = tgamma at e2
  change s.S = o.S at e3
  refine ⟨s, F, ⟨s.S, if c.warmStart then some (s.beta, s.gamma) else o.warm⟩, hs, hF, ?_, hv, hgam, e1, e2, e3, fun hpos => ?_⟩
  · have hfind : lmeFindIp D P c o ((2 : ℝ) • tbeta) ((2 : ℝ) • tgamma) tbeta tgamma
        = .ok (⟨s.beta, s.gamma, s.tbeta, s.tgamma⟩, ⟨s.S, if c.warmStart then some (s.beta, s.gamma) else o.warm⟩) := by
      unfold lmeFindIp
      rw [if_neg hq.ne', hs]
      rfl
    unfold lmeSr3GradientValueFunction
    rw [hfind, ← e3]
    rfl
  · have hJ : (∀ j, 0 < s.v j) ∧ (∀ j, 0 < s.gamma j) ∧ s.stepLen ≠ 0 := by
      refine ipLoop_inv D P c (fun s => (∀ j, 0 < s.v j) ∧ (∀ j, 0 < s.gamma j) ∧ s.stepLen ≠ 0) ?_ _ _ s rfl ⟨fun j => one_pos, hpos, one_ne_zero⟩ hs
      rintro a F a' ⟨h1, h2, -⟩ - - ha
      obtain ⟨dF, d, step, -, -, k3, k4, -, k5, k6, -⟩ := ipStep_ok ha
      obtain ⟨M, hM, hM0, -, -, p1, p2, -⟩ := C63_any_direction a.v a.gamma (fun j => d (.inl j)) (fun j => d (.inr (.inr j))) h1 h2
      unfold ipStepLen at k3
      rw [hc.lineSearch, ← hM] at k3
      cases k3
      refine ⟨fun j => ?_, fun j => ?_, ?_⟩
      · change 0 < a'.v j
        rw [k4]
        exact p1 j
      · change 0 < a'.gamma j
        rw [k5]
        exact p2 j
      · change a'.stepLen ≠ 0
        rw [k6]
        positivity
    exact hJ.2.2

/-- Two points of a strongly convex function with small residuals of the perturbed optimality conditions are close. -/
theorem residual_close {D : List (LmeGroup p q)} (hD : PosVar D) {P : LmeInstPrior ℝ p q} (hP : P.Reachable) {S : Sr3Params} {m : ℝ}
    (hlb : m ≤ S.lb) (hlg : (D.map fun g => ∑ j, (∑ i, g.z i j ^ 2 / g.l i) ^ 2).sum + m ≤ S.lg) {tbeta : Vec ℝ p} {tgamma : Vec ℝ q}
    {s s' : IpState p q} (hS : s.S = S) (hS' : s'.S = S) (hb : s.tbeta = tbeta) (hb' : s'.tbeta = tbeta) (ht : s.tgamma = tgamma) (ht' : s'.tgamma = tgamma)
    (hv : ∀ j, 0 < s.v j) (hv' : ∀ j, 0 < s'.v j) (hg : ∀ j, 0 ≤ s.gamma j) (hg' : ∀ j, 0 ≤ s'.gamma j) {F F' : Fin q ⊕ (Fin p ⊕ Fin q) → ℝ}
    (hF : ipF D P s = .ok F) (hF' : ipF D P s' = .ok F') :
    m * (∑ i, (s.beta i - s'.beta i) ^ 2 + ∑ j, (s.gamma j - s'.gamma j) ^ 2) ≤
      (npNorm F + npNorm F') * (√(∑ i, (s.beta i - s'.beta i) ^ 2 + ∑ j, (s.gamma j - s'.gamma j) ^ 2) + √q) + q * (s.mu + s'.mu) := by
  obtain ⟨gb, gg, k1, k2, t1⟩ := relaxed_tangent hD hP hlb hlg s.beta tbeta tgamma hg
  obtain ⟨gb', gg', k1', k2', t2⟩ := relaxed_tangent hD hP hlb hlg s'.beta tbeta tgamma hg'
  have a1 := t1 s'.beta s'.gamma hg'
  have a2 := t2 s.beta s.gamma hg
  have hF1 : F = Sum.elim (fun j => s.v j * s.gamma j - s.mu) (Sum.elim gb (gg - s.v)) := by
    unfold ipF at hF
    rw [hS, hb, ht, k1, k2] at hF
    cases hF
    rfl
  have hF2 : F' = Sum.elim (fun j => s'.v j * s'.gamma j - s'.mu) (Sum.elim gb' (gg' - s'.v)) := by
    unfold ipF at hF'
    rw [hS', hb', ht', k1', k2'] at hF'
    cases hF'
    rfl
  have key : ∀ (s : IpState p q) (gb : Vec ℝ p) (gg : Vec ℝ q) (F : Fin q ⊕ (Fin p ⊕ Fin q) → ℝ), F = Sum.elim (fun j => s.v j * s.gamma j - s.mu) (Sum.elim gb (gg - s.v)) →
      ∀ (x : Vec ℝ p) (y : Vec ℝ q), ∑ i, gb i * x i + ∑ j, (gg j - s.v j) * y j ≤ npNorm F * √(∑ i, x i ^ 2 + ∑ j, y j ^ 2) ∧
        ∑ j, s.v j * s.gamma j ≤ √q * npNorm F + q * s.mu := by
    intro s gb gg F hF x y
    have hN : ∑ i, F i ^ 2 = ∑ j, (s.v j * s.gamma j - s.mu) ^ 2 + (∑ i, gb i ^ 2 + ∑ j, (gg j - s.v j) ^ 2) := by
      rw [Fintype.sum_sum_type, Fintype.sum_sum_type, hF]
      rfl
    refine ⟨?_, ?_⟩
    · have h := dot_le_norms F (Sum.elim (fun _ => 0) (Sum.elim x y))
      have e1 : ∑ i, F i * (Sum.elim (fun _ => 0) (Sum.elim x y) : Fin q ⊕ (Fin p ⊕ Fin q) → ℝ) i = ∑ i, gb i * x i + ∑ j, (gg j - s.v j) * y j := by
        rw [Fintype.sum_sum_type, Fintype.sum_sum_type, hF]
        simp
      have e2 : ∑ i, (Sum.elim (fun _ => 0) (Sum.elim x y) : Fin q ⊕ (Fin p ⊕ Fin q) → ℝ) i ^ 2 = ∑ i, x i ^ 2 + ∑ j, y j ^ 2 := by
        rw [Fintype.sum_sum_type, Fintype.sum_sum_type]
        simp
      rw [e1, e2] at h
      exact h
    · have h := dot_le_norms (fun j => s.v j * s.gamma j - s.mu) (fun _ : Fin q => (1 : ℝ))
      simp only [mul_one, one_pow, Finset.sum_const, Finset.card_univ, Fintype.card_fin, nsmul_eq_mul] at h
      have h2 : √(∑ j, (s.v j * s.gamma j - s.mu) ^ 2) ≤ npNorm F := by
        unfold npNorm
        refine Real.sqrt_le_sqrt ?_
        rw [hN]
        have : 0 ≤ ∑ i, gb i ^ 2 + ∑ j, (gg j - s.v j) ^ 2 := add_nonneg (Finset.sum_nonneg fun i _ => sq_nonneg _) (Finset.sum_nonneg fun i _ => sq_nonneg _)
        linarith
      have h3 := mul_le_mul_of_nonneg_right h2 (Real.sqrt_nonneg (q : ℝ))
      rw [Finset.sum_sub_distrib] at h
      simp only [Finset.sum_const, Finset.card_univ, Fintype.card_fin, nsmul_eq_mul] at h
      linarith
  obtain ⟨b1, b2⟩ := key s gb gg F hF1 (fun i => s.beta i - s'.beta i) (fun j => s.gamma j - s'.gamma j)
  obtain ⟨c1, c2⟩ := key s' gb' gg' F' hF2 (fun i => s'.beta i - s.beta i) (fun j => s'.gamma j - s.gamma j)
  have s3 : ∀ {n : ℕ} (a b : Vec ℝ n), ∑ i, (b i - a i) ^ 2 = ∑ i, (a i - b i) ^ 2 := fun a b => Finset.sum_congr rfl fun i _ => by ring
  have s4 : ∀ {n : ℕ} (g a b : Vec ℝ n), ∑ i, g i * (b i - a i) = - ∑ i, g i * (a i - b i) := fun g a b => by
    rw [← Finset.sum_neg_distrib]
    exact Finset.sum_congr rfl fun i _ => by ring
  rw [s3 s.beta s'.beta, s3 s.gamma s'.gamma] at c1 a1
  have u1 : ∑ j, gg j * (s.gamma j - s'.gamma j) = ∑ j, (gg j - s.v j) * (s.gamma j - s'.gamma j) + ∑ j, s.v j * s.gamma j - ∑ j, s.v j * s'.gamma j := by
    rw [← Finset.sum_add_distrib, ← Finset.sum_sub_distrib]
    exact Finset.sum_congr rfl fun i _ => by ring
  have u2 : ∑ j, gg' j * (s'.gamma j - s.gamma j) = ∑ j, (gg' j - s'.v j) * (s'.gamma j - s.gamma j) + ∑ j, s'.v j * s'.gamma j - ∑ j, s'.v j * s.gamma j := by
    rw [← Finset.sum_add_distrib, ← Finset.sum_sub_distrib]
    exact Finset.sum_congr rfl fun i _ => by ring
  have w1 : 0 ≤ ∑ j, s.v j * s'.gamma j := Finset.sum_nonneg fun j _ => mul_nonneg (hv j).le (hg' j)
  have w2 : 0 ≤ ∑ j, s'.v j * s.gamma j := Finset.sum_nonneg fun j _ => mul_nonneg (hv' j).le (hg j)
  rw [s4 gb s.beta s'.beta, s4 gg s.gamma s'.gamma] at a1
  rw [s4 gb' s'.beta s.beta, s4 gg' s'.gamma s.gamma] at a2
  rw [u1] at a1
  rw [u2] at a2
  linarith

/-- **C193**, two evaluations: for positive noise, a Gaussian or non-informative prior, the default settings, a relaxation above the bound of C111 and at least one random effect, take two oracles with the same
constants but any histories whose starting variances are nonnegative. Both calls of `gradient_value_function` at the same point return; the parts of the gradients are `-lb (beta - tbeta)` and
`-lg (gamma - tgamma)`, and the parameters `beta, gamma` found in the two calls are within a distance `d` with `m d² ≤ (|F| + |F'|)(d + √q) + q (mu + mu')`, where `F, mu` and `F', mu'` are
the residuals and the barrier parameters when the inner loops end. -/
theorem C193_two_evaluations (D : List (LmeGroup p q)) (hD : PosVar D) (P : LmeInstPrior ℝ p q) (hP : P.Reachable) (c : IpCfg p q) (hc : c.Plain) (o o' : IpOracle p q) (hS : o'.S = o.S) (m : ℝ) (hm : 0 < m)
    (hlb : m ≤ o.S.lb) (hlg : (D.map fun g => ∑ j, (∑ i, g.z i j ^ 2 / g.l i) ^ 2).sum + m ≤ o.S.lg) (hq : 0 < q) (tbeta : Vec ℝ p) (tgamma : Vec ℝ q)
    (hg : ∀ j, 0 ≤ (ipStart c o ((2 : ℝ) • tbeta) ((2 : ℝ) • tgamma)).2 j) (hg' : ∀ j, 0 ≤ (ipStart c o' ((2 : ℝ) • tbeta) ((2 : ℝ) • tgamma)).2 j) :
    ∃ s s' F F' o1 o2,
      ipLoop D P c (ipInit c o ((2 : ℝ) • tbeta) ((2 : ℝ) • tgamma) tbeta tgamma) = .ok s ∧ ipF D P s = .ok F ∧
      ipLoop D P c (ipInit c o' ((2 : ℝ) • tbeta) ((2 : ℝ) • tgamma) tbeta tgamma) = .ok s' ∧ ipF D P s' = .ok F' ∧
      lmeSr3GradientValueFunction D P c o tbeta tgamma = .ok ((-(o.S.lb • (s.beta - tbeta)), -(o.S.lg • (s.gamma - tgamma))), o1) ∧
      lmeSr3GradientValueFunction D P c o' tbeta tgamma = .ok ((-(o.S.lb • (s'.beta - tbeta)), -(o.S.lg • (s'.gamma - tgamma))), o2) ∧
      m * (∑ i, (s.beta i - s'.beta i) ^ 2 + ∑ j, (s.gamma j - s'.gamma j) ^ 2) ≤
        (npNorm F + npNorm F') * (√(∑ i, (s.beta i - s'.beta i) ^ 2 + ∑ j, (s.gamma j - s'.gamma j) ^ 2) + √q) + q * (s.mu + s'.mu) := by
  have hlb0 : 0 < o.S.lb := hm.trans_le hlb
  have hn0 : 0 ≤ (D.map fun g => ∑ j, (∑ i, g.z i j ^ 2 / g.l i) ^ 2).sum := by
    refine List.sum_nonneg fun x hx => ?_
    obtain ⟨g, -, rfl⟩ := List.mem_map.1 hx
    exact Finset.sum_nonneg fun j _ => sq_nonneg _
  have hlg0 : 0 ≤ o.S.lg := by linarith
  obtain ⟨s, F, o1, h1, h2, h3, h4, h5, h6, h7, h8, -⟩ := inner_end D hD P hP c hc o hlb0 hlg0 hq tbeta tgamma hg
  obtain ⟨s', F', o2, k1, k2, k3, k4, k5, k6, k7, k8, -⟩ := inner_end D hD P hP c hc o' (hS ▸ hlb0) (hS ▸ hlg0) hq tbeta tgamma hg'
  rw [hS] at k3 k8
  exact ⟨s, s', F, F', o1, o2, h1, h2, k1, k2, h3, k3, residual_close hD hP hlb hlg h8 k8 h6 k6 h7 k7 h4 k4 h5 k5 h2 k2⟩

/-- **C193**, in terms of the tolerance: from positive starting variances, if neither call exhausts its budget and the variables still moved by more than `tol` in the last passes, the two results are within
`2 tol / m + √((2√q + 2q) tol / m)`, however long the two histories are. -/
theorem C193_tolerance (D : List (LmeGroup p q)) (hD : PosVar D) (P : LmeInstPrior ℝ p q) (hP : P.Reachable) (c : IpCfg p q) (hc : c.Plain) (o o' : IpOracle p q) (hS : o'.S = o.S) (m : ℝ) (hm : 0 < m)
    (hlb : m ≤ o.S.lb) (hlg : (D.map fun g => ∑ j, (∑ i, g.z i j ^ 2 / g.l i) ^ 2).sum + m ≤ o.S.lg) (hq : 0 < q) (tbeta : Vec ℝ p) (tgamma : Vec ℝ q)
    (hg : ∀ j, 0 < (ipStart c o ((2 : ℝ) • tbeta) ((2 : ℝ) • tgamma)).2 j) (hg' : ∀ j, 0 < (ipStart c o' ((2 : ℝ) • tbeta) ((2 : ℝ) • tgamma)).2 j)
    (s s' : IpState p q) (hs : ipLoop D P c (ipInit c o ((2 : ℝ) • tbeta) ((2 : ℝ) • tgamma) tbeta tgamma) = .ok s)
    (hs' : ipLoop D P c (ipInit c o' ((2 : ℝ) • tbeta) ((2 : ℝ) • tgamma) tbeta tgamma) = .ok s')
    (hit : (s.iteration : ℤ) < c.nIter) (hit' : (s'.iteration : ℤ) < c.nIter) (hmv : ipMoved c.tol s) (hmv' : ipMoved c.tol s') :
    √(∑ i, (s.beta i - s'.beta i) ^ 2 + ∑ j, (s.gamma j - s'.gamma j) ^ 2) ≤ 2 * c.tol / m + √((2 * √q + 2 * q) * c.tol / m) := by
  have hlb0 : 0 < o.S.lb := hm.trans_le hlb
  have hn0 : 0 ≤ (D.map fun g => ∑ j, (∑ i, g.z i j ^ 2 / g.l i) ^ 2).sum := by
    refine List.sum_nonneg fun x hx => ?_
    obtain ⟨g, -, rfl⟩ := List.mem_map.1 hx
    exact Finset.sum_nonneg fun j _ => sq_nonneg _
  have hlg0 : 0 ≤ o.S.lg := by linarith
  have fin : ∀ (o : IpOracle p q) (s : IpState p q), 0 < o.S.lb → 0 ≤ o.S.lg → (∀ j, 0 < (ipStart c o ((2 : ℝ) • tbeta) ((2 : ℝ) • tgamma)).2 j) →
      ipLoop D P c (ipInit c o ((2 : ℝ) • tbeta) ((2 : ℝ) • tgamma) tbeta tgamma) = .ok s → (s.iteration : ℤ) < c.nIter → ipMoved c.tol s →
      ∃ F, ipF D P s = .ok F ∧ npNorm F ≤ c.tol ∧ s.mu ≤ c.tol := by
    intro o s hlb hlg hg hs hit hmv
    obtain ⟨s1, F, o1, h1, h2, -, -, -, -, -, -, h3⟩ := inner_end D hD P hP c hc o hlb hlg hq tbeta tgamma fun j => (hg j).le
    rw [hs] at h1
    cases h1
    rcases ipLoop_exit D P c _ _ s rfl hs with h | h | ⟨F', h, h'⟩
    · exact absurd h (h3 hg)
    · omega
    · rw [h2] at h
      cases h
      refine ⟨F, h2, ?_⟩
      by_contra hne
      refine h' ⟨?_, hmv⟩
      rcases not_and_or.1 hne with h | h
      · exact Or.inl (not_le.1 h)
      · exact Or.inr (not_le.1 h)
  obtain ⟨F, f1, f2, f3⟩ := fin o s hlb0 hlg0 hg hs hit hmv
  obtain ⟨F', f1', f2', f3'⟩ := fin o' s' (hS ▸ hlb0) (hS ▸ hlg0) hg' hs' hit' hmv'
  obtain ⟨t, t', G, G', o1, o2, h1, h2, h3, h4, -, -, h⟩ := C193_two_evaluations D hD P hP c hc o o' hS m hm hlb hlg hq tbeta tgamma (fun j => (hg j).le) fun j => (hg' j).le
  rw [hs] at h1
  cases h1
  rw [hs'] at h3
  cases h3
  rw [f1] at h2
  cases h2
  rw [f1'] at h4
  cases h4
  obtain ⟨d, hd⟩ : ∃ d, d = √(∑ i, (s.beta i - s'.beta i) ^ 2 + ∑ j, (s.gamma j - s'.gamma j) ^ 2) := ⟨_, rfl⟩
  have hd0 : 0 ≤ d := by
    rw [hd]
    exact Real.sqrt_nonneg _
  have hd2 : ∑ i, (s.beta i - s'.beta i) ^ 2 + ∑ j, (s.gamma j - s'.gamma j) ^ 2 = d ^ 2 := by
    rw [hd, Real.sq_sqrt (add_nonneg (Finset.sum_nonneg fun i _ => sq_nonneg _) (Finset.sum_nonneg fun i _ => sq_nonneg _))]
  rw [hd2, Real.sqrt_sq hd0] at h
  rw [hd2, Real.sqrt_sq hd0]
  have ht0 : 0 ≤ c.tol := (Real.sqrt_nonneg _).trans f2
  have hq0 : 0 ≤ √(q : ℝ) := Real.sqrt_nonneg _
  have hqn : (0 : ℝ) ≤ q := Nat.cast_nonneg _
  have b1 : (npNorm F + npNorm F') * (d + √q) ≤ 2 * c.tol * (d + √q) := mul_le_mul_of_nonneg_right (by linarith) (by positivity)
  have b2 : (q : ℝ) * (s.mu + s'.mu) ≤ q * (2 * c.tol) := mul_le_mul_of_nonneg_left (by linarith) hqn
  obtain ⟨e, he⟩ : ∃ e, e = √((2 * √q + 2 * q) * c.tol / m) := ⟨_, rfl⟩
  have he0 : 0 ≤ e := by
    rw [he]
    exact Real.sqrt_nonneg _
  have he2 : m * e ^ 2 = (2 * √q + 2 * q) * c.tol := by
    rw [he, Real.sq_sqrt (by positivity)]
    field_simp
  rw [← he]
  obtain ⟨a, ha⟩ : ∃ a, a = 2 * c.tol / m := ⟨_, rfl⟩
  have ha0 : 0 ≤ a := by
    rw [ha]
    positivity
  have hma : m * a = 2 * c.tol := by
    rw [ha]
    field_simp
  rw [← ha]
  have h5 : m * d ^ 2 ≤ m * (a * d + e ^ 2) := by
    have : m * (a * d) = 2 * c.tol * d := by rw [← mul_assoc, hma]
    nlinarith
  have h6 : d ^ 2 ≤ a * d + e ^ 2 := le_of_mul_le_mul_left h5 hm
  by_contra hne
  have hlt := not_le.1 hne
  nlinarith [mul_pos (show 0 < d - a - e by linarith) (show 0 < d by linarith), mul_nonneg he0 ha0]

/-- Non-vacuity of C193: one observation, `lb = lg = 2`, and a new oracle and one with a history, at the relaxed variance 1. -/
example (y : ℝ) : ∃! w : Vec ℝ 0 × Vec ℝ 1, (∀ j, 0 ≤ w.2 j) ∧ ∃ L, lmeSr3Loss [obsGroup y] .nonInformative ⟨2, 2⟩ w.1 w.2 ![] ![1] = .ok L ∧
    ∀ w' : Vec ℝ 0 × Vec ℝ 1, (∀ j, 0 ≤ w'.2 j) → ∀ L', lmeSr3Loss [obsGroup y] .nonInformative ⟨2, 2⟩ w'.1 w'.2 ![] ![1] = .ok L' → L ≤ L' :=
  C193_unique_minimiser [obsGroup y] (obsGroup_posVar y) .nonInformative trivial ⟨2, 2⟩ two_pos (by
    simp only [List.map_cons, List.map_nil, List.sum_cons, List.sum_nil]
    change ∑ _j : Fin 1, (∑ _i : Fin 1, (1 : ℝ) ^ 2 / 1) ^ 2 + 0 < 2
    norm_num) _ _

example (y : ℝ) : (⟨⟨2, 2⟩, some (![], ![3])⟩ : IpOracle 0 1).S = (⟨⟨2, 2⟩, none⟩ : IpOracle 0 1).S ∧ (defaultCfg 0 1).Plain ∧
    ([obsGroup y].map fun g => ∑ j, (∑ i, g.z i j ^ 2 / g.l i) ^ 2).sum + 1 ≤ 2 ∧
    (∀ j, 0 < (ipStart (defaultCfg 0 1) (⟨⟨2, 2⟩, none⟩ : IpOracle 0 1) ((2 : ℝ) • ![]) ((2 : ℝ) • ![1])).2 j) ∧
    (∀ j, 0 < (ipStart (defaultCfg 0 1) (⟨⟨2, 2⟩, some (![], ![3])⟩ : IpOracle 0 1) ((2 : ℝ) • ![]) ((2 : ℝ) • ![1])).2 j) ∧
    ipStart (defaultCfg 0 1) (⟨⟨2, 2⟩, none⟩ : IpOracle 0 1) ((2 : ℝ) • ![]) ((2 : ℝ) • ![1]) ≠
      ipStart (defaultCfg 0 1) (⟨⟨2, 2⟩, some (![], ![3])⟩ : IpOracle 0 1) ((2 : ℝ) • ![]) ((2 : ℝ) • ![1]) := by
  refine ⟨rfl, ⟨rfl, rfl, rfl, rfl⟩, ?_, fun j => ?_, fun j => ?_, fun h => ?_⟩
  · simp only [List.map_cons, List.map_nil, List.sum_cons, List.sum_nil]
    change ∑ _j : Fin 1, (∑ _i : Fin 1, (1 : ℝ) ^ 2 / 1) ^ 2 + 0 + 1 ≤ 2
    norm_num
  · fin_cases j
    simp [ipStart, defaultCfg]
  · fin_cases j
    simp [ipStart, defaultCfg]
  · have := congrFun (congrArg Prod.snd h) 0
    norm_num [ipStart, defaultCfg] at this

end

end Verif
