import Verif.Props.LmeEnvelope

/-!
# C196 (the relaxation of the SR3 mixed-model oracle is a lower bound of the loss that tightens with the relaxation constants)
-/

open Matrix

namespace Verif

noncomputable section

variable {p q : ℕ}

/-- The gradient at the relaxed variables themselves is the one of the loss. -/
theorem sr3Gradient_self {D : List (LmeGroup p q)} {P : LmeInstPrior ℝ p q} {S : Sr3Params} {tbeta gb : Vec ℝ p} {tgamma gg : Vec ℝ q}
    (hb : lmeGradientBeta D P tbeta tgamma = .ok gb) (hg : lmeGradientGamma D P tbeta tgamma = .ok gg) :
    lmeSr3GradientBeta D P S tbeta tgamma tbeta = .ok gb ∧ lmeSr3GradientGamma D P S tbeta tgamma tgamma = .ok gg := by
  unfold lmeSr3GradientBeta lmeSr3GradientGamma
  rw [hb, hg]
  constructor
  · change Except.ok (gb + S.lb • (tbeta - tbeta)) = _
    rw [sub_self, smul_zero, add_zero]
  · change Except.ok (gg + S.lg • (tgamma - tgamma)) = _
    rw [sub_self, smul_zero, add_zero]

/-- **C196**, the exact values: let the relaxation be above the bound of C111 by at least `m`, `tbeta, tgamma ≥ 0` a point with loss `l` and gradient `gb, gg` of the loss, and `L` the least relaxed loss over nonnegative
variances, attained at `u`. Then `l - (|gb|² + |gg|²) / (2 m) ≤ L ≤ l`, the minimiser is within `|(gb, gg)| / m` of the point, and `L` does not decrease when the relaxation constants grow. -/
theorem C196_bounds (D : List (LmeGroup p q)) (hD : PosVar D) (P : LmeInstPrior ℝ p q) (hP : P.Reachable) (S : Sr3Params) (m : ℝ) (hm : 0 < m)
    (hlb : m ≤ S.lb) (hlg : (D.map fun g => ∑ j, (∑ i, g.z i j ^ 2 / g.l i) ^ 2).sum + m ≤ S.lg) (tbeta : Vec ℝ p) (tgamma : Vec ℝ q) (ht : ∀ j, 0 ≤ tgamma j)
    (u : Vec ℝ p × Vec ℝ q) (hu : ∀ j, 0 ≤ u.2 j) (L : ℝ) (hL : lmeSr3Loss D P S u.1 u.2 tbeta tgamma = .ok L)
    (hmin : ∀ (beta : Vec ℝ p) (gamma : Vec ℝ q) L', (∀ j, 0 ≤ gamma j) → lmeSr3Loss D P S beta gamma tbeta tgamma = .ok L' → L ≤ L') :
    ∃ l gb gg, lmeLoss D P tbeta tgamma = .ok l ∧ lmeGradientBeta D P tbeta tgamma = .ok gb ∧ lmeGradientGamma D P tbeta tgamma = .ok gg ∧
      L ≤ l ∧ l - (∑ i, gb i ^ 2 + ∑ j, gg j ^ 2) / (2 * m) ≤ L ∧
      m ^ 2 * (∑ i, (u.1 i - tbeta i) ^ 2 + ∑ j, (u.2 j - tgamma j) ^ 2) ≤ ∑ i, gb i ^ 2 + ∑ j, gg j ^ 2 ∧
      ∀ (S' : Sr3Params) (u' : Vec ℝ p × Vec ℝ q) L', S.lb ≤ S'.lb → S.lg ≤ S'.lg → (∀ j, 0 ≤ u'.2 j) → lmeSr3Loss D P S' u'.1 u'.2 tbeta tgamma = .ok L' → L ≤ L' := by
  have hdom := inDomain_of_nonneg hD ht
  obtain ⟨gb, hgb⟩ : ∃ gb, lmeGradientBeta D P tbeta tgamma = .ok gb := ⟨_, lmeGradientBeta_ok.2 ⟨hdom, rfl⟩⟩
  obtain ⟨gg, hgg⟩ : ∃ gg, lmeGradientGamma D P tbeta tgamma = .ok gg := ⟨_, lmeGradientGamma_ok'.2 ⟨hdom, rfl⟩⟩
  have hself : lmeRelaxedLoss D P S tbeta tgamma tbeta tgamma = marginalNLL D tbeta tgamma + P.loss tbeta tgamma := by
    unfold lmeRelaxedLoss
    simp
  obtain ⟨gb', gg', k1, k2, htan⟩ := relaxed_tangent hD hP hlb hlg tbeta tbeta tgamma ht
  obtain ⟨j1, j2⟩ := sr3Gradient_self (S := S) hgb hgg
  cases j1.symm.trans k1
  cases j2.symm.trans k2
  have htan := htan u.1 u.2 hu
  have hLe : L = lmeRelaxedLoss D P S u.1 u.2 tbeta tgamma := by
    rw [lmeSr3Loss_ok (inDomain_of_nonneg hD hu)] at hL
    exact (Except.ok.inj hL).symm
  have hmin' : ∀ w : Vec ℝ p × Vec ℝ q, (∀ j, 0 ≤ w.2 j) → lmeRelaxedLoss D P S u.1 u.2 tbeta tgamma ≤ lmeRelaxedLoss D P S w.1 w.2 tbeta tgamma := fun w hw => by
    rw [← hLe]
    exact hmin _ _ _ hw (lmeSr3Loss_ok (inDomain_of_nonneg hD hw))
  have hgrow := relaxed_growth hD hP hm hlb hlg hu hmin' (tbeta, tgamma) ht
  have s3 : ∀ {n : ℕ} (a b : Vec ℝ n), ∑ i, (b i - a i) ^ 2 = ∑ i, (a i - b i) ^ 2 := fun a b => Finset.sum_congr rfl fun i _ => by ring
  simp only at hgrow
  rw [s3 u.1 tbeta, s3 u.2 tgamma, hself, ← hLe] at hgrow
  rw [hself, ← hLe] at htan
  obtain ⟨d, hd⟩ : ∃ d, d = ∑ i, (u.1 i - tbeta i) ^ 2 + ∑ j, (u.2 j - tgamma j) ^ 2 := ⟨_, rfl⟩
  obtain ⟨G, hG⟩ : ∃ G, G = ∑ i, gb i ^ 2 + ∑ j, gg j ^ 2 := ⟨_, rfl⟩
  have hd0 : 0 ≤ d := by
    rw [hd]
    exact add_nonneg (Finset.sum_nonneg fun i _ => sq_nonneg _) (Finset.sum_nonneg fun i _ => sq_nonneg _)
  have b1 := dot_le_quad hm (fun i => -gb i) (fun i => u.1 i - tbeta i)
  have b2 := dot_le_quad hm (fun j => -gg j) (fun j => u.2 j - tgamma j)
  simp only [neg_mul, Finset.sum_neg_distrib, neg_sq] at b1 b2
  rw [← hd] at htan hgrow
  have e1 : (∑ i, gb i ^ 2) / (2 * m) + (∑ j, gg j ^ 2) / (2 * m) = G / (2 * m) := by rw [hG, add_div]
  have e2 : m / 2 * ∑ i, (u.1 i - tbeta i) ^ 2 + m / 2 * ∑ j, (u.2 j - tgamma j) ^ 2 = m / 2 * d := by rw [hd, mul_add]
  refine ⟨_, gb, gg, lmeLoss_ok.2 ⟨hdom, rfl⟩, hgb, hgg, ?_, ?_, ?_, ?_⟩
  · have : 0 ≤ m / 2 * d := by positivity
    linarith
  · rw [← hG]
    linarith
  · rw [← hd, ← hG]
    have h1 : m * d ≤ G / (2 * m) + m / 2 * d := by linarith
    have h2 : m / 2 * d ≤ G / (2 * m) := by linarith
    rw [le_div_iff₀ (by positivity)] at h2
    linarith
  · intro S' u' L' h1 h2 hu' hL'
    rw [lmeSr3Loss_ok (inDomain_of_nonneg hD hu')] at hL'
    cases hL'
    refine (hmin u'.1 u'.2 _ hu' (lmeSr3Loss_ok (inDomain_of_nonneg hD hu'))).trans ?_
    have q1 := mul_le_mul_of_nonneg_right (by linarith : S.lb / 2 ≤ S'.lb / 2) (Finset.sum_nonneg fun i (_ : i ∈ Finset.univ) => sq_nonneg (u'.1 i - tbeta i))
    have q2 := mul_le_mul_of_nonneg_right (by linarith : S.lg / 2 ≤ S'.lg / 2) (Finset.sum_nonneg fun i (_ : i ∈ Finset.univ) => sq_nonneg (u'.2 i - tgamma i))
    unfold lmeRelaxedLoss
    linarith

/-- **C196**, the code: with a relaxation above the bound of C111 by at least `m`, at least one random effect and nonnegative variances and starting variances, the number `v` that `value_function` returns lies between
`l - |gradient|² / (2 m)` and `l + |F|² / (2 m) + √q |F| + q mu`, where `l` is the loss at the relaxed variables, and `F`, `mu` are the residual and the barrier parameter at which the inner solver ends. -/
theorem C196_value (D : List (LmeGroup p q)) (hD : PosVar D) (P : LmeInstPrior ℝ p q) (hP : P.Reachable) (c : IpCfg p q) (hc : c.Plain) (o : IpOracle p q) (m : ℝ) (hm : 0 < m)
    (hlb : m ≤ o.S.lb) (hlg : (D.map fun g => ∑ j, (∑ i, g.z i j ^ 2 / g.l i) ^ 2).sum + m ≤ o.S.lg) (hq : 0 < q) (tbeta : Vec ℝ p) (tgamma : Vec ℝ q) (ht : ∀ j, 0 ≤ tgamma j)
    (hg : ∀ j, 0 ≤ (ipStart c o ((2 : ℝ) • tbeta) ((2 : ℝ) • tgamma)).2 j) :
    ∃ v o' s F l gb gg, lmeSr3ValueFunction D P c o tbeta tgamma = .ok (v, o') ∧
      ipLoop D P c (ipInit c o ((2 : ℝ) • tbeta) ((2 : ℝ) • tgamma) tbeta tgamma) = .ok s ∧ ipF D P s = .ok F ∧
      lmeLoss D P tbeta tgamma = .ok l ∧ lmeGradientBeta D P tbeta tgamma = .ok gb ∧ lmeGradientGamma D P tbeta tgamma = .ok gg ∧
      l - (∑ i, gb i ^ 2 + ∑ j, gg j ^ 2) / (2 * m) ≤ v ∧ v ≤ l + npNorm F ^ 2 / (2 * m) + √q * npNorm F + q * s.mu := by
  have hlb0 : 0 < o.S.lb := hm.trans_le hlb
  have hn0 : 0 ≤ (D.map fun g => ∑ j, (∑ i, g.z i j ^ 2 / g.l i) ^ 2).sum := by
    refine List.sum_nonneg fun x hx => ?_
    obtain ⟨g, -, rfl⟩ := List.mem_map.1 hx
    exact Finset.sum_nonneg fun j _ => sq_nonneg _
  obtain ⟨v, o', s, F, h1, h2, h3, h4, -⟩ := C80_gap_partial D hD P hP c hc o m hm hlb hlg hq tbeta tgamma hg
  obtain ⟨V, w, k1, k2, k3, -, -⟩ := C194_value_function D hD P hP o.S m hm hlb hlg
  obtain ⟨l, gb, gg, j1, j2, j3, -, j5, -, -⟩ := C196_bounds D hD P hP o.S m hm hlb hlg tbeta tgamma ht (w (tbeta, tgamma)) (k1 _) (V (tbeta, tgamma)) (k2 _) (fun b g L h h' => k3 (tbeta, tgamma) b g L h h')
  obtain ⟨s', F', o'', a1, -, -, -, a5, a6, a7, a8, -⟩ := inner_end D hD P hP c hc o hlb0 (by linarith) hq tbeta tgamma hg
  cases a1.symm.trans h2
  refine ⟨v, o', s, F, l, gb, gg, h1, h2, h3, j1, j2, j3, j5.trans ?_, ?_⟩
  · have hfind : lmeFindIp D P c o ((2 : ℝ) • tbeta) ((2 : ℝ) • tgamma) tbeta tgamma
        = .ok (⟨s.beta, s.gamma, s.tbeta, s.tgamma⟩, ⟨s.S, if c.warmStart then some (s.beta, s.gamma) else o.warm⟩) := by
      unfold lmeFindIp
      rw [if_neg hq.ne', h2]
      rfl
    unfold lmeSr3ValueFunction at h1
    rw [hfind] at h1
    change (lmeSr3Loss D P s.S s.beta s.gamma s.tbeta s.tgamma >>= fun v => Except.ok (v, _)) = _ at h1
    obtain ⟨v', hv', h1⟩ := ebind_ok.1 h1
    cases h1
    rw [a6, a7, a8] at hv'
    exact k3 (tbeta, tgamma) _ _ _ a5 hv'
  · refine h4 tbeta tgamma l ht ?_
    rw [lmeSr3Loss_ok (inDomain_of_nonneg hD ht)]
    rw [(lmeLoss_ok.1 j1).2]
    unfold lmeRelaxedLoss
    simp

/-- **C196**, penalised problems: for any penalty, a point with nonnegative variances that minimises the exact value function plus the penalty up to `ε` minimises the loss plus the penalty up to
`ε + |gradient|² / (2 m)`, the gradient of the loss taken at that point. -/
theorem C196_near_optimal (D : List (LmeGroup p q)) (hD : PosVar D) (P : LmeInstPrior ℝ p q) (hP : P.Reachable) (S : Sr3Params) (m : ℝ) (hm : 0 < m)
    (hlb : m ≤ S.lb) (hlg : (D.map fun g => ∑ j, (∑ i, g.z i j ^ 2 / g.l i) ^ 2).sum + m ≤ S.lg) (V : Vec ℝ p × Vec ℝ q → ℝ)
    (hV : ∀ t : Vec ℝ p × Vec ℝ q, (∀ j, 0 ≤ t.2 j) → (∃ u : Vec ℝ p × Vec ℝ q, (∀ j, 0 ≤ u.2 j) ∧ lmeSr3Loss D P S u.1 u.2 t.1 t.2 = .ok (V t)) ∧
      ∀ (beta : Vec ℝ p) (gamma : Vec ℝ q) L', (∀ j, 0 ≤ gamma j) → lmeSr3Loss D P S beta gamma t.1 t.2 = .ok L' → V t ≤ L')
    (pen : Vec ℝ p × Vec ℝ q → ℝ) (ε : ℝ) (t : Vec ℝ p × Vec ℝ q) (ht : ∀ j, 0 ≤ t.2 j) (hopt : ∀ t' : Vec ℝ p × Vec ℝ q, (∀ j, 0 ≤ t'.2 j) → V t + pen t ≤ V t' + pen t' + ε) :
    ∃ l gb gg, lmeLoss D P t.1 t.2 = .ok l ∧ lmeGradientBeta D P t.1 t.2 = .ok gb ∧ lmeGradientGamma D P t.1 t.2 = .ok gg ∧
      ∀ (t' : Vec ℝ p × Vec ℝ q) l', (∀ j, 0 ≤ t'.2 j) → lmeLoss D P t'.1 t'.2 = .ok l' → l + pen t ≤ l' + pen t' + ε + (∑ i, gb i ^ 2 + ∑ j, gg j ^ 2) / (2 * m) := by
  obtain ⟨⟨u, hu, hLu⟩, hm1⟩ := hV t ht
  obtain ⟨l, gb, gg, h1, h2, h3, -, h5, -, -⟩ := C196_bounds D hD P hP S m hm hlb hlg t.1 t.2 ht u hu (V t) hLu hm1
  refine ⟨l, gb, gg, h1, h2, h3, fun t' l' ht' hl' => ?_⟩
  obtain ⟨⟨u', hu', hLu'⟩, hm2⟩ := hV t' ht'
  obtain ⟨l2, gb', gg', k1, -, -, k4, -, -, -⟩ := C196_bounds D hD P hP S m hm hlb hlg t'.1 t'.2 ht' u' hu' (V t') hLu' hm2
  cases k1.symm.trans hl'
  have := hopt t' ht'
  linarith

/-- Non-vacuity of C196: one observation `y = 2` with `lb = lg = 2`, `m = 1`, at the variance 1: the loss has a nonzero gradient there, the least relaxed loss exists and is below the loss by at most the bound. -/
example : ∃ (u : Vec ℝ 0 × Vec ℝ 1) (L l : ℝ) (gb : Vec ℝ 0) (gg : Vec ℝ 1), lmeSr3Loss [obsGroup 2] .nonInformative ⟨2, 2⟩ u.1 u.2 ![] ![1] = .ok L ∧
    lmeLoss [obsGroup 2] .nonInformative ![] ![1] = .ok l ∧ lmeGradientGamma [obsGroup 2] .nonInformative ![] ![1] = .ok gg ∧ L ≤ l ∧ l - (∑ i, gb i ^ 2 + ∑ j, gg j ^ 2) / (2 * 1) ≤ L := by
  have hlg : (([obsGroup 2] : List (LmeGroup 0 1)).map fun g => ∑ j, (∑ i, g.z i j ^ 2 / g.l i) ^ 2).sum + 1 ≤ (⟨2, 2⟩ : Sr3Params).lg := by
    simp only [List.map_cons, List.map_nil, List.sum_cons, List.sum_nil]
    change ∑ _j : Fin 1, (∑ _i : Fin 1, (1 : ℝ) ^ 2 / 1) ^ 2 + 0 + 1 ≤ 2
    norm_num
  obtain ⟨V, w, h1, h2, h3, -, -⟩ := C194_value_function [obsGroup 2] (obsGroup_posVar 2) .nonInformative trivial ⟨2, 2⟩ 1 one_pos one_le_two hlg
  obtain ⟨l, gb, gg, k1, -, k3, k4, k5, -, -⟩ := C196_bounds [obsGroup 2] (obsGroup_posVar 2) .nonInformative trivial ⟨2, 2⟩ 1 one_pos one_le_two hlg ![] ![1] (by simp) (w (![], ![1])) (h1 _)
    (V (![], ![1])) (h2 (![], ![1])) (fun b g L h h' => h3 (![], ![1]) b g L h h')
  exact ⟨w (![], ![1]), V (![], ![1]), l, gb, gg, h2 (![], ![1]), k1, k3, k4, k5⟩

/-- Non-vacuity of C196 for the code: the default settings, the same data and the start `2 · 1`. -/
example : ∃ v o' l, lmeSr3ValueFunction [obsGroup 2] .nonInformative (defaultCfg 0 1) ⟨⟨2, 2⟩, none⟩ ![] ![1] = .ok (v, o') ∧ lmeLoss [obsGroup 2] .nonInformative ![] ![1] = .ok l := by
  obtain ⟨v, o', s, F, l, gb, gg, h1, -, -, h4, -⟩ := C196_value [obsGroup 2] (obsGroup_posVar 2) .nonInformative trivial (defaultCfg 0 1) ⟨rfl, rfl, rfl, rfl⟩ ⟨⟨2, 2⟩, none⟩ 1 one_pos one_le_two (by
    simp only [List.map_cons, List.map_nil, List.sum_cons, List.sum_nil]
    change ∑ _j : Fin 1, (∑ _i : Fin 1, (1 : ℝ) ^ 2 / 1) ^ 2 + 0 + 1 ≤ 2
    norm_num) one_pos ![] ![1] (by simp) (by simp [ipStart, defaultCfg])
  exact ⟨v, o', l, h1, h4⟩

end

end Verif
