import Verif.Props.LmeEnvelope
import Verif.Props.LmeSr3Last
import Verif.Props.LmeConverge

/-!
# C195 (SR3 mixed-effects fits with fixed steps stop unless an inner solve ends badly)
-/

open Matrix

namespace Verif

section Solver

variable {n : ℕ} {σ : Type} {o : Oracle ℝ n σ} {R : Regularizer ℝ n}

/-- The points and oracle states at which a run with fixed steps of length `t` may call the oracle: the start; the same point after its loss was computed (if losses are logged); the next point after the
gradient was computed. -/
inductive OracleCalls (o : Oracle ℝ n σ) (R : Regularizer ℝ n) (t : ℝ) (logs : Prop) (x0 : Vec ℝ n) (s0 : σ) : Vec ℝ n → σ → Prop
  | start : OracleCalls o R t logs x0 s0 x0 s0
  | loss {x : Vec ℝ n} {s : σ} {v : ℝ} {s' : σ} : logs → OracleCalls o R t logs x0 s0 x s → o.value x s = .ok (v, s') → OracleCalls o R t logs x0 s0 x s'
  | step {x : Vec ℝ n} {s : σ} {g : Vec ℝ n} {s' : σ} {z : Vec ℝ n} : OracleCalls o R t logs x0 s0 x s → o.grad x s = .ok (g, s') → R.prox (fun i => x i - t * g i) t = .ok z →
      OracleCalls o R t logs x0 s0 z s'

/-- The number of passes of a run with fixed steps whose passes either go wrong (`Bad`) or, when they move by more than the tolerance, lower a potential `H` by `δ`. -/
theorem pgdOptimize_count (Bad : Prop) (H : Vec ℝ n → ℝ) {δ Hinf : ℝ} (hδ : 0 ≤ δ) {cfg : PGDCfg ℝ} (hst : cfg.stepping ≠ "line-search") (htol : 0 ≤ cfg.tol)
    {x0 x : Vec ℝ n} {L Lf : Logger (PyVal ℝ n)} {s0 s' : σ} (hinf : ∀ x s, OracleCalls o R cfg.fixedStepLen ("loss" ∈ L.keys) x0 s0 x s → Hinf ≤ H x)
    (hgrad : ∀ x s g s' z, OracleCalls o R cfg.fixedStepLen ("loss" ∈ L.keys) x0 s0 x s → o.grad x s = .ok (g, s') →
      R.prox (fun i => x i - cfg.fixedStepLen * g i) cfg.fixedStepLen = .ok z → Bad ∨ (cfg.tol ^ 2 < normSq (z - x) → H z + δ ≤ H x))
    (h : pgdOptimize o R cfg x0 L s0 = .ok ((x, Lf), s')) :
    Bad ∨ ∃ k : ℕ, Lf.get "converged" = .ok (.atom (.bool (decide ((k : ℤ) < cfg.maxIter)))) ∧ ((k : ℝ) - 1) * δ + Hinf ≤ H x0 := by
  obtain ⟨keys, hkeys⟩ : ∃ keys, keys = L.keys := ⟨_, rfl⟩
  rw [← hkeys] at hinf hgrad
  have hlog : ∀ {L L' : Logger (PyVal ℝ n)} {x : Vec ℝ n} {vars s s'}, keys = L.keys → OracleCalls o R cfg.fixedStepLen ("loss" ∈ keys) x0 s0 x s →
      logBlock o R L x vars s = .ok (L', s') → keys = L'.keys ∧ OracleCalls o R cfg.fixedStepLen ("loss" ∈ keys) x0 s0 x s' := by
    intro L L' x vars s s' hL hs h
    refine ⟨hL.trans (logBlock_keys _ _ _ _ _ _ _ _ h).2.symm, ?_⟩
    unfold logBlock at h
    obtain ⟨l, s1, h1, h⟩ := bind_ok.1 h
    have hs1 : OracleCalls o R cfg.fixedStepLen ("loss" ∈ keys) x0 s0 x s1 := by
      split_ifs at h1 with hk
      · obtain ⟨l', s2, h2, h6⟩ := bind_ok.1 h1
        cases h6
        unfold lossAt at h2
        obtain ⟨f, s3, h3, h7⟩ := bind_ok.1 h2
        obtain ⟨g, s4, h4, h5⟩ := bind_ok.1 h7
        obtain ⟨-, rfl⟩ := callReg_ok.1 h4
        cases h5
        exact .loss (hL ▸ hk) hs h3
      · cases h1
        exact hs
    split_ifs at h with hk
    · obtain ⟨-, rfl⟩ := callReg_ok.1 h
      exact hs1
    · cases h
      exact hs1
  have hloop : ∀ (x : Vec ℝ n) (xprev : Option (Vec ℝ n)) (it : ℕ) (L : Logger (PyVal ℝ n)), keys = L.keys → ∀ s r s', OracleCalls o R cfg.fixedStepLen ("loss" ∈ keys) x0 s0 x s →
      ((it : ℝ) - 1) * δ + Hinf ≤ H x0 → (farApart cfg.tol xprev x → H x + it * δ ≤ H x0) →
      pgdLoop o R cfg x0 x xprev it L s = .ok (r, s') → Bad ∨ ((r.2.1 : ℝ) - 1) * δ + Hinf ≤ H x0 := by
    intro x xprev it L
    induction x, xprev, it, L using pgdLoop.induct (cfg := cfg) with
    | case1 x xprev it L hgd ih =>
      intro hL s r s' hs _ hfar h
      rw [pgdLoop, dif_pos hgd] at h
      obtain ⟨⟨x1, L1⟩, s1, hb, h⟩ := bind_ok.1 h
      obtain ⟨g, s2, t, s3, h2, h3, h6, h5⟩ := pgdBody_ok _ _ _ _ _ _ _ _ _ _ _ hb
      unfold chooseStep at h3
      rw [if_neg hst] at h3
      obtain ⟨rfl, rfl⟩ := pure_ok.1 h3
      rcases hgrad _ _ _ _ _ hs h2 h6 with hbad | hdec
      · exact .inl hbad
      obtain ⟨hL1, hs1⟩ := hlog hL (.step hs h2 h6) h5
      have hA := hfar hgd.1
      have hB := hinf x s hs
      refine ih (x1, L1) hL1 _ _ _ hs1 ?_ (fun hf => ?_) h
      · push_cast
        linarith
      · rcases hf with hf | hf
        · exact absurd hf (not_lt.2 htol)
        · have := hdec hf
          push_cast
          linarith
    | case2 x xprev it L hgd =>
      intro hL s r s' hs h1 _ h
      rw [pgdLoop, dif_neg hgd] at h
      cases h
      exact .inr h1
  unfold pgdOptimize at h
  obtain ⟨L0, s1, h1, h⟩ := bind_ok.1 h
  obtain ⟨r, s2, h2, h⟩ := bind_ok.1 h
  obtain ⟨L1, s3, h3, h5⟩ := bind_ok.1 h
  obtain ⟨L2, s4, h4, h6⟩ := bind_ok.1 h5
  obtain ⟨hcv, rfl⟩ := callReg_ok.1 h3
  obtain ⟨hit, rfl⟩ := callReg_ok.1 h4
  cases h6
  obtain ⟨hL0, hs1⟩ := hlog hkeys .start h1
  have hl := hloop _ _ _ _ hL0 _ _ _ hs1 (by
      have := hinf x0 s0 .start
      push_cast
      linarith) (fun _ => by push_cast; linarith) h2
  rcases hl with hl | hl
  · exact .inl hl
  · exact .inr ⟨r.2.1, by rw [(Logger.add_get hit).2 _ (by decide), (Logger.add_get hcv).1], hl⟩

end Solver

section Pass

variable {p q : ℕ}

/-- One proximal gradient step from a wrong gradient: a step that moves by more than `tol` lowers the objective when the gradient is wrong by little. -/
theorem inexact_step {n : ℕ} {A : Vec ℝ n → Prop} (hA : ∀ u v : Vec ℝ n, ∀ s : ℝ, A u → A v → 0 ≤ s → s ≤ 1 → A fun i => u i + s * (v i - u i))
    {pen f : Vec ℝ n → ℝ} {κ : ℝ} (hpen : ∀ u v : Vec ℝ n, ∀ s : ℝ, A u → A v → 0 ≤ s → s ≤ 1 →
      pen (fun i => u i + s * (v i - u i)) ≤ pen u + s * (pen v - pen u) + κ / 2 * (s * (1 - s)) * normSq (v - u))
    {t ell d tol : ℝ} (ht : 0 < t) (hell : t * ell ≤ 1) (hκ : t * κ < 1) (hd0 : 0 ≤ d) (hd : d ≤ (1 - t * κ) * tol / 4) {x z g G : Vec ℝ n} (hx : A x) (hz : A z)
    (hmin : ∀ u, A u → t * pen z + normSq (z - fun i => x i - t * g i) / 2 ≤ t * pen u + normSq (u - fun i => x i - t * g i) / 2)
    (hf : f z ≤ f x + ∑ i, G i * (z i - x i) + ell / 2 * ∑ i, (z i - x i) ^ 2) (hG : t ^ 2 * ∑ i, (G i - g i) ^ 2 ≤ d ^ 2) (hfar : tol ^ 2 < ∑ i, (z i - x i) ^ 2) :
    f z + pen z + (1 - t * κ) * tol ^ 2 / (4 * t) ≤ f x + pen x := by
  have h3 := prox_three_point_weak hA hpen ht hz hmin x hx
  obtain ⟨N, hN⟩ : ∃ N, N = ∑ i, (z i - x i) ^ 2 := ⟨_, rfl⟩
  obtain ⟨a, ha⟩ : ∃ a, a = 1 - t * κ := ⟨_, rfl⟩
  have ha0 : 0 < a := by linarith
  have e1 : normSq (x - z) = N := by
    rw [hN]
    exact Finset.sum_congr rfl fun i _ => by simp only [Pi.sub_apply]; ring
  have e2 : ∑ i, (z i - (x i - t * g i)) * (x i - z i) = - N - t * ∑ i, g i * (z i - x i) := by
    rw [hN, Finset.mul_sum, ← Finset.sum_neg_distrib, ← Finset.sum_sub_distrib]
    exact Finset.sum_congr rfl fun i _ => by ring
  rw [e1] at h3
  have h3' : 0 ≤ t * (pen x - pen z) + (- N - t * ∑ i, g i * (z i - x i)) + t * κ / 2 * N := by
    rw [← e2]
    exact h3
  have hq := dot_le_quad (show 0 < a / 4 by linarith) (fun i => t * (G i - g i)) (fun i => z i - x i)
  have e3 : ∑ i, t * (G i - g i) * (z i - x i) = t * ∑ i, G i * (z i - x i) - t * ∑ i, g i * (z i - x i) := by
    rw [Finset.mul_sum, Finset.mul_sum, ← Finset.sum_sub_distrib]
    exact Finset.sum_congr rfl fun i _ => by ring
  have e4 : ∑ i, (t * (G i - g i)) ^ 2 = t ^ 2 * ∑ i, (G i - g i) ^ 2 := by
    rw [Finset.mul_sum]
    exact Finset.sum_congr rfl fun i _ => by ring
  rw [e3, e4, ← hN] at hq
  rw [← hN] at hf hfar
  rw [← ha] at hd ⊢
  have hdd : d ^ 2 ≤ (a * tol / 4) ^ 2 := pow_le_pow_left₀ hd0 hd 2
  have hq3 : (t ^ 2 * ∑ i, (G i - g i) ^ 2) / (2 * (a / 4)) ≤ a * tol ^ 2 / 8 := by
    rw [div_le_iff₀ (by linarith)]
    refine (hG.trans hdd).trans (le_of_eq ?_)
    ring
  have hN0 : 0 ≤ N := by
    rw [hN]
    exact Finset.sum_nonneg fun _ _ => sq_nonneg _
  have h5 := mul_le_mul_of_nonneg_left hf ht.le
  have h6 := mul_le_mul_of_nonneg_right hell hN0
  have h7 : t * κ * N = N - a * N := by
    rw [ha]
    ring
  have h8 := mul_lt_mul_of_pos_left hfar ha0
  have key : t * (f z + pen z) + a * tol ^ 2 / 4 ≤ t * (f x + pen x) := by nlinarith
  have e5 : t * (a * tol ^ 2 / (4 * t)) = a * tol ^ 2 / 4 := by field_simp
  refine le_of_mul_le_mul_left ?_ ht
  rw [mul_add, e5]
  exact key

/-- The quadratic upper bound of the exact value function. -/
theorem value_upper {D : List (LmeGroup p q)} (hD : PosVar D) {S : Sr3Params} {V : Vec ℝ p × Vec ℝ q → ℝ} {w : Vec ℝ p × Vec ℝ q → Vec ℝ p × Vec ℝ q}
    (hw : ∀ t j, 0 ≤ (w t).2 j) (hV : ∀ t, lmeSr3Loss D .nonInformative S (w t).1 (w t).2 t.1 t.2 = .ok (V t))
    (hmin : ∀ t (beta : Vec ℝ p) (gamma : Vec ℝ q) L, (∀ j, 0 ≤ gamma j) → lmeSr3Loss D .nonInformative S beta gamma t.1 t.2 = .ok L → V t ≤ L) (a b : Vec ℝ p × Vec ℝ q) :
    V b ≤ V a + (∑ i, S.lb * (a.1 i - (w a).1 i) * (b.1 i - a.1 i) + ∑ j, S.lg * (a.2 j - (w a).2 j) * (b.2 j - a.2 j))
      + (S.lb / 2 * ∑ i, (b.1 i - a.1 i) ^ 2 + S.lg / 2 * ∑ j, (b.2 j - a.2 j) ^ 2) := by
  have h1 := hV a
  rw [lmeSr3Loss_ok (inDomain_of_nonneg hD (hw a))] at h1
  have h1 := Except.ok.inj h1
  rw [← h1]
  refine (hmin b (w a).1 (w a).2 _ (hw a) (lmeSr3Loss_ok (inDomain_of_nonneg hD (hw a)))).trans (le_of_eq ?_)
  have hs : ∀ {n : ℕ} (l : ℝ) (x s s' : Vec ℝ n), l / 2 * ∑ i, (x i - s' i) ^ 2 = l / 2 * ∑ i, (x i - s i) ^ 2 + ∑ i, l * (s i - x i) * (s' i - s i) + l / 2 * ∑ i, (s' i - s i) ^ 2 := fun l x s s' => by
    simp only [Finset.mul_sum, ← Finset.sum_add_distrib]
    exact Finset.sum_congr rfl fun i _ => by ring
  unfold lmeRelaxedLoss
  rw [hs S.lb (w a).1 a.1 b.1, hs S.lg (w a).2 a.2 b.2]
  ring

/-- The exact value function lies between the noise level and the likelihood. -/
theorem value_bounds {D : List (LmeGroup p q)} (hD : PosVar D) {S : Sr3Params} (hlb : 0 ≤ S.lb) (hlg : 0 ≤ S.lg) {V : Vec ℝ p × Vec ℝ q → ℝ} {w : Vec ℝ p × Vec ℝ q → Vec ℝ p × Vec ℝ q}
    (hw : ∀ t j, 0 ≤ (w t).2 j) (hV : ∀ t, lmeSr3Loss D .nonInformative S (w t).1 (w t).2 t.1 t.2 = .ok (V t))
    (hmin : ∀ t (beta : Vec ℝ p) (gamma : Vec ℝ q) L, (∀ j, 0 ≤ gamma j) → lmeSr3Loss D .nonInformative S beta gamma t.1 t.2 = .ok L → V t ≤ L) (t : Vec ℝ p × Vec ℝ q) :
    noiseFloor D ≤ V t ∧ ((∀ j, 0 ≤ t.2 j) → V t ≤ marginalNLL D t.1 t.2) := by
  constructor
  · have h1 := hV t
    rw [lmeSr3Loss_ok (inDomain_of_nonneg hD (hw t))] at h1
    rw [← Except.ok.inj h1]
    have h2 := noiseFloor_le hD (hw t) (w t).1
    have h3 : 0 ≤ S.lb / 2 * ∑ i, ((w t).1 i - t.1 i) ^ 2 := mul_nonneg (by linarith) (Finset.sum_nonneg fun _ _ => sq_nonneg _)
    have h4 : 0 ≤ S.lg / 2 * ∑ i, ((w t).2 i - t.2 i) ^ 2 := mul_nonneg (by linarith) (Finset.sum_nonneg fun _ _ => sq_nonneg _)
    unfold lmeRelaxedLoss
    have h5 : (LmeInstPrior.nonInformative : LmeInstPrior ℝ p q).loss (w t).1 (w t).2 = 0 := rfl
    rw [h5]
    linarith
  · intro ht
    refine (hmin t t.1 t.2 _ ht (lmeSr3Loss_ok (inDomain_of_nonneg hD ht))).trans (le_of_eq ?_)
    unfold lmeRelaxedLoss
    have h5 : (LmeInstPrior.nonInformative : LmeInstPrior ℝ p q).loss t.1 t.2 = 0 := rfl
    rw [h5]
    simp

/-- How an inner solve, called at the relaxed variables `tb, tg` in the oracle's state `o`, may fail to reach its tolerance: its passes were used up, or its last pass moved the coefficients by no more than
the tolerance. -/
def InnerFails (D : List (LmeGroup p q)) (s : LmeSr3Cfg) (tb : Vec ℝ p) (tg : Vec ℝ q) (o : IpOracle p q) : Prop :=
  ∃ sI : IpState p q, ipLoop D .nonInformative (s.ip p q) (ipInit (s.ip p q) o ((2 : ℝ) • tb) ((2 : ℝ) • tg) tb tg) = .ok sI ∧
    (s.maxIterOracle ≤ sI.iteration ∨ ∃ (pb : Vec ℝ p) (pg : Vec ℝ q) (ptb : Vec ℝ p) (ptg : Vec ℝ q), sI.prev = some (pb, pg, ptb, ptg) ∧
      √(∑ i, (sI.beta i - pb i) ^ 2) ≤ s.tolOracle ∧ √(∑ j, (sI.gamma j - pg j) ^ 2) ≤ s.tolOracle)

/-- A call of the gradient. -/
theorem sr3Grad_ok {D : List (LmeGroup p q)} {s : LmeSr3Cfg} {o o' : IpOracle p q} {y g : Vec ℝ (p + q)} (hg : (lmeSr3Oracle D .nonInformative (s.ip p q)).grad y o = .ok (g, o')) :
    ∃ r gb gg, lmeFindIp D .nonInformative (s.ip _ _) o ((2 : ℝ) • xBeta y) ((2 : ℝ) • xGamma y) (xBeta y) (xGamma y) = .ok (r, o') ∧
          lmeSr3GradientValueFunction D .nonInformative (s.ip _ _) o (xBeta y) (xGamma y) = .ok ((gb, gg), o') ∧ g = joinX gb gg := by
  change (lmeSr3GradientValueFunction D .nonInformative (s.ip _ _) o (xBeta y) (xGamma y)).map _ = _ at hg
  unfold lmeSr3GradientValueFunction at hg ⊢
  cases hf : lmeFindIp D .nonInformative (s.ip _ _) o ((2 : ℝ) • xBeta y) ((2 : ℝ) • xGamma y) (xBeta y) (xGamma y) with
  | error e => rw [hf] at hg; cases hg
  | ok r =>
    rw [hf] at hg
    cases hg
    exact ⟨_, _, _, rfl, rfl, rfl⟩

/-- The runs of SR3 models with fixed steps. -/
theorem lmeSr3Run_count {D : List (LmeGroup p q)} (hD : PosVar D) (hq : 0 < q) {r : LmeReg} (hr : r.Admissible) {mp : List ℤ} {w : Vec ℝ (p + q)} (hw : ∀ i, 0 ≤ w i) {eps : ℝ} (heps : 0 ≤ eps)
    {base : Regularizer ℝ (p + q)} (hbase : r.build p q mp w = .ok base) {cfg : PGDCfg ℝ} {κ : ℝ} (hκ : r.CurvedAbove κ w) (hκs : cfg.fixedStepLen * κ < 1)
    {s : LmeSr3Cfg} (hpos : s.takeOnlyPositivePart = true) (hwarm : s.warmStartOracle = true) {m : ℝ} (hm : 0 < m)
    (hell : relaxationNeeded D + m ≤ s.ell) (hst : cfg.stepping ≠ "line-search") (ht : 0 < cfg.fixedStepLen) (htl : cfg.fixedStepLen * s.ell ≤ 1) (htol : 0 ≤ cfg.tol)
    (htolO : s.tolOracle / m + √((√q + q) * s.tolOracle / m) ≤ (1 - cfg.fixedStepLen * κ) * cfg.tol / 4)
    {b0 : Vec ℝ p} {g0 : Vec ℝ q} (hg0 : ∀ j, 0 < g0 j) {Lg Lf : Logger (PyVal ℝ (p + q))} {x : Vec ℝ (p + q)} {o' : IpOracle p q}
    (h : pgdOptimize (lmeSr3Oracle D .nonInformative (s.ip p q)) (wrapReg p q eps base) cfg (joinX b0 g0) Lg ⟨⟨s.ell, s.ell⟩, none⟩ = .ok ((x, Lf), o')) :
    (∃ y o, OracleCalls (lmeSr3Oracle D .nonInformative (s.ip p q)) (wrapReg p q eps base) cfg.fixedStepLen ("loss" ∈ Lg.keys) (joinX b0 g0) ⟨⟨s.ell, s.ell⟩, none⟩ y o ∧
        InnerFails D s (xBeta y) (xGamma y) o) ∨ ∃ k : ℕ, Lf.get "converged" = .ok (.atom (.bool (decide ((k : ℤ) < cfg.maxIter)))) ∧
      ((k : ℝ) - 1) * ((1 - cfg.fixedStepLen * κ) * cfg.tol ^ 2 / (4 * cfg.fixedStepLen)) ≤ lmeObjective D eps (r.penalty w) b0 g0 - noiseFloor D := by
  have hn0 := relaxationNeeded_nonneg D
  have hlb : m ≤ s.ell := by linarith
  have hl0 : 0 < s.ell := hm.trans_le hlb
  have hc : (s.ip p q).Plain := ⟨by
    change HessKind.ofFlags _ _ = _
    rw [hpos]
    rfl, rfl, rfl, rfl⟩
  obtain ⟨V, W, hW, hV, hVmin, -, -⟩ := C194_value_function D hD .nonInformative trivial ⟨s.ell, s.ell⟩ m hm hlb hell
  have hx : r.ExactUpTo cfg.fixedStepLen w := by
    cases r with
    | dummy => trivial
    | l1 => trivial
    | scad rho sigma lam =>
      intro i
      have h1 := mul_le_mul_of_nonneg_left (hκ.2 i) ht.le
      have h2 : cfg.fixedStepLen * κ * (rho - 1) < 1 * (rho - 1) := mul_lt_mul_of_pos_right hκs (by linarith [hr.1])
      linarith
    | l0 => exact hκ.elim
    | cad => exact hκ.elim
  have hpn : ∀ z : Vec ℝ (p + q), 0 ≤ eps / 2 * ∑ i, z i ^ 2 + ∑ i, r.penalty w i (z i) := fun z =>
    add_nonneg (mul_nonneg (by linarith) (Finset.sum_nonneg fun _ _ => sq_nonneg _)) (Finset.sum_nonneg fun i _ => LmeReg.penalty_nonneg hr hw i _)
  have hx0 : ∀ j, 0 < xGamma (joinX b0 g0) j := fun j => by rw [xGamma_join]; exact hg0 j
  have hfp : ∀ u : Vec ℝ (p + q), (∀ j, 0 ≤ xGamma u j) → fullPenalty p q eps (r.penalty w) u = ((eps / 2 * ∑ i, u i ^ 2 + ∑ i, r.penalty w i (u i) : ℝ) : WithTop ℝ) := by
    intro u hu
    unfold fullPenalty
    rw [if_neg (by push Not; exact hu)]
  have hprox : ∀ y z : Vec ℝ (p + q), (wrapReg p q eps base).prox y cfg.fixedStepLen = .ok z → (∀ j, 0 ≤ xGamma z j) ∧ ∀ u, (∀ j, 0 ≤ xGamma u j) →
      cfg.fixedStepLen * (eps / 2 * ∑ i, z i ^ 2 + ∑ i, r.penalty w i (z i)) + normSq (z - y) / 2 ≤ cfg.fixedStepLen * (eps / 2 * ∑ i, u i ^ 2 + ∑ i, r.penalty w i (u i)) + normSq (u - y) / 2 := by
    intro y z hz
    have hp := wrapReg_prox_min heps ht (LmeReg.penalty_mono hr hw) (LmeReg.base_prox hr hw hx hbase (by
      have := mul_nonneg ht.le heps
      exact div_nonneg ht.le (by linarith)) (div_le_self ht.le (by
        have := mul_nonneg ht.le heps
        linarith)) _) hz
    obtain ⟨gz, hgz, hmin⟩ := hp
    have hAz : ∀ j, 0 ≤ xGamma z j := by
      by_contra hn
      push Not at hn
      unfold fullPenalty at hgz
      rw [if_pos hn] at hgz
      cases hgz
    refine ⟨hAz, fun u hu => ?_⟩
    have := hmin u _ (hfp u hu)
    rw [hfp z hAz] at hgz
    rw [← WithTop.coe_inj.1 hgz] at this
    exact this
  have hcalls : ∀ y o, OracleCalls (lmeSr3Oracle D .nonInformative (s.ip p q)) (wrapReg p q eps base) cfg.fixedStepLen ("loss" ∈ Lg.keys) (joinX b0 g0) ⟨⟨s.ell, s.ell⟩, none⟩ y o →
      (∀ j, 0 ≤ xGamma y j) ∧ (o.Kept s ∨ (y = joinX b0 g0 ∧ o = ⟨⟨s.ell, s.ell⟩, none⟩)) := by
    intro y o h
    induction h with
    | start => exact ⟨fun j => (hx0 j).le, .inr ⟨rfl, rfl⟩⟩
    | loss _ _ hv ih =>
      refine ⟨ih.1, .inl ?_⟩
      rename_i y o v o' _ _
      change lmeSr3ValueFunction D .nonInformative (s.ip _ _) o (xBeta y) (xGamma y) = _ at hv
      unfold lmeSr3ValueFunction at hv
      obtain ⟨⟨r, o1⟩, hf, hv⟩ := ebind_ok.1 hv
      obtain ⟨l, -, hv⟩ := ebind_ok.1 hv
      cases hv
      exact (lmeFindIp_kept hq.ne' ih.1 hx0 ih.2 hf).1
    | step _ hg hz ih =>
      obtain ⟨rr, gb, gg, hf, -, -⟩ := sr3Grad_ok hg
      exact ⟨(hprox _ _ hz).1, .inl (lmeFindIp_kept hq.ne' ih.1 hx0 ih.2 hf).1⟩
  have hres := pgdOptimize_count (o := lmeSr3Oracle D .nonInformative (s.ip p q)) (R := wrapReg p q eps base)
    (∃ y o, OracleCalls (lmeSr3Oracle D .nonInformative (s.ip p q)) (wrapReg p q eps base) cfg.fixedStepLen ("loss" ∈ Lg.keys) (joinX b0 g0) ⟨⟨s.ell, s.ell⟩, none⟩ y o ∧
        InnerFails D s (xBeta y) (xGamma y) o)
    (fun y => V (xBeta y, xGamma y) + (eps / 2 * ∑ i, y i ^ 2 + ∑ i, r.penalty w i (y i))) (δ := (1 - cfg.fixedStepLen * κ) * cfg.tol ^ 2 / (4 * cfg.fixedStepLen)) (Hinf := noiseFloor D)
    (div_nonneg (mul_nonneg (by linarith) (sq_nonneg _)) (by linarith)) hst htol
    (fun y _ _ => by
      have h1 := (value_bounds hD hl0.le hl0.le hW hV hVmin (xBeta y, xGamma y)).1
      have h2 := hpn y
      linarith)
    (fun y o g o' z hcl hg hz => by
      obtain ⟨hy, ho⟩ := hcalls y o hcl
      obtain ⟨rr, gb, gg, hf, hgv, rfl⟩ := sr3Grad_ok hg
      obtain ⟨k1, k2, k3, k4⟩ := lmeFindIp_kept hq.ne' hy hx0 ho hf
      obtain ⟨hAz, hmin⟩ := hprox _ _ hz
      have hS : o.S = ⟨s.ell, s.ell⟩ := k2
      obtain ⟨sI, F, gb', gg', o'', d, h1, -, h3, h4, h5, -, h7⟩ := C194_gradient_error D hD .nonInformative trivial (s.ip p q) hc o m hm (by rw [hS]; exact hlb) (by rw [hS]; exact hell) hq
        (xBeta y) (xGamma y) k3 (W (xBeta y, xGamma y)) (hW _) (V (xBeta y, xGamma y)) (by rw [hS]; exact hV _) (fun beta gamma L' hg hL => by
          rw [hS] at hL
          exact hVmin (xBeta y, xGamma y) beta gamma L' hg hL)
      cases hgv.symm.trans h3
      by_cases hgood : (sI.iteration : ℤ) < s.maxIterOracle ∧ ipMoved s.tolOracle sI
      · right
        have hd := h7 (k4 hwarm) hgood.1 hgood.2
        intro hfar
        have hup := value_upper hD hW hV hVmin (xBeta y, xGamma y) (xBeta z, xGamma z)
        simp only at hup
        have hsum := sum_join (φ := fun a b => (a - b) ^ 2) z y
        obtain ⟨G, hG⟩ : ∃ G : Vec ℝ (p + q), G = joinX (fun i => s.ell * (xBeta y i - (W (xBeta y, xGamma y)).1 i)) (fun j => s.ell * (xGamma y j - (W (xBeta y, xGamma y)).2 j)) := ⟨_, rfl⟩
        have hGz : ∑ i, G i * (z i - y i) = ∑ i, s.ell * (xBeta y i - (W (xBeta y, xGamma y)).1 i) * (xBeta z i - xBeta y i)
            + ∑ j, s.ell * (xGamma y j - (W (xBeta y, xGamma y)).2 j) * (xGamma z j - xGamma y j) := by
          rw [sum_join (φ := fun a b => a * b) G (fun i => z i - y i), hG, xBeta_join, xGamma_join]
          rfl
        have hGe : ∑ i, (G i - joinX gb gg i) ^ 2 = s.ell ^ 2 * d ^ 2 := by
          rw [sum_join (φ := fun a b => (a - b) ^ 2) G (joinX gb gg), hG, xBeta_join, xGamma_join, xBeta_join, xGamma_join, ← h4, hS, mul_add, Finset.mul_sum, Finset.mul_sum]
          congr 1
          · refine Finset.sum_congr rfl fun i _ => ?_
            field_simp
            ring
          · refine Finset.sum_congr rfl fun i _ => ?_
            field_simp
            ring
        refine inexact_step (A := fun u : Vec ℝ (p + q) => ∀ j, 0 ≤ xGamma u j) (pen := fun u => eps / 2 * ∑ i, u i ^ 2 + ∑ i, r.penalty w i (u i)) (f := fun u => V (xBeta u, xGamma u)) (κ := κ)
          (ell := s.ell) (d := d) (g := joinX gb gg) (G := G)
          (fun u v s hu hv hs0 hs1 j => by
            have h1 := mul_nonneg (by linarith : 0 ≤ 1 - s) (hu j)
            have h2 := mul_nonneg hs0 (hv j)
            change 0 ≤ xGamma u j + s * (xGamma v j - xGamma u j)
            linarith)
          (fun u v s hu hv hs0 hs1 => by
            have h1 : ∑ i, r.penalty w i (u i + s * (v i - u i)) ≤ ∑ i, (r.penalty w i (u i) + s * (r.penalty w i (v i) - r.penalty w i (u i)) + κ / 2 * (s * (1 - s)) * (v i - u i) ^ 2) :=
              Finset.sum_le_sum fun i _ => LmeReg.penalty_weak hr hw hκ i _ _ s hs0 hs1
            rw [Finset.sum_add_distrib, Finset.sum_add_distrib, ← Finset.mul_sum, ← Finset.mul_sum, Finset.sum_sub_distrib] at h1
            have h2 : ∑ i, (u i + s * (v i - u i)) ^ 2 ≤ ∑ i, (u i ^ 2 + s * (v i ^ 2 - u i ^ 2)) := Finset.sum_le_sum fun i _ => by
              have := mul_nonneg (mul_nonneg hs0 (by linarith : 0 ≤ 1 - s)) (sq_nonneg (v i - u i))
              nlinarith
            rw [Finset.sum_add_distrib, ← Finset.mul_sum, Finset.sum_sub_distrib] at h2
            have h3 := mul_le_mul_of_nonneg_left h2 (by linarith : 0 ≤ eps / 2)
            have e : normSq (v - u) = ∑ i, (v i - u i) ^ 2 := rfl
            rw [e]
            linarith) ht htl hκs h5 (hd.trans htolO) hy hAz
          hmin ?_ ?_ hfar
        · rw [hGz, hsum]
          rw [mul_add]
          exact hup
        · rw [hGe, ← mul_assoc, ← mul_pow]
          have h8 : (cfg.fixedStepLen * s.ell) ^ 2 ≤ 1 := pow_le_one₀ (mul_nonneg ht.le hl0.le) htl
          have := mul_le_mul_of_nonneg_right h8 (sq_nonneg d)
          linarith
      · left
        refine ⟨y, o, hcl, sI, h1, ?_⟩
        rcases not_and_or.1 hgood with hn | hn
        · exact .inl (not_lt.1 hn)
        · right
          unfold ipMoved at hn
          split at hn
          · exact absurd trivial hn
          · rename_i pb pg ptb ptg hpv
            push Not at hn
            exact ⟨pb, pg, ptb, ptg, hpv, hn.2.2.1, hn.2.2.2.1⟩) h
  rcases hres with hres | ⟨k, h1, h2⟩
  · exact .inl hres
  · refine .inr ⟨k, h1, ?_⟩
    have h3 := (value_bounds hD hl0.le hl0.le hW hV hVmin (b0, g0)).2 fun j => (hg0 j).le
    have h4 := lmeObjective_join D eps (r.penalty w) (joinX b0 g0)
    simp only [xBeta_join, xGamma_join] at h2 h4 h3
    linarith

end Pass

/-- **C195**: SR3 mixed-effects fits with fixed steps stop unless an inner solve fails. For every table with positive observation variances and at least one random effect, every SR3 model (not practical, with
the warm start of the inner solver, without prior and EM initializer, with no penalty, L1 or SCAD), all weights 0 and 1 and every start with positive variances: let `ell` exceed the bound of C111 by at least
`m`, `step ≤ 1/ell` (the default is `1/ell`), and the tolerance of the inner solver be small against the one of the fit, `tolO/m + √((√q + q) tolO/m) ≤ (1 - step κ) tol / 4`. Then the fit returns, and with
`max_iter > 1 + 4 step (F₀ - N) / (tol² (1 - step κ))`, where `F₀` is the objective at the start and `N = 1/2 Σ log l`, it has converged, or at one of its passes the inner solver used up its passes or stopped
because its last pass moved the coefficients by no more than `tolO`. `κ` is 0 except for SCAD (`lam w ≤ κ (rho - 1)`). -/
theorem C195_stops {N nc : ℕ} (M : LmeModelCfg) (hM : M.Robust) (s : LmeSr3Cfg) (hsr : M.sr3 = some s) (hprac : s.practical = false) (hwarm : s.warmStartOracle = true) (hpr : M.prior = none)
    (hinit : M.initializer ≠ some "EM") (hst : M.stepping ≠ "line-search") (htol : 0 < M.tol) (st : LmeState) (x : Matrix (Fin N) (Fin nc) ℝ) (y : Vec ℝ N)
    (columns : Option (List String)) (labels : List String) (ffi fri : Bool) (mustFe mustRe : Option (List String))
    (P : LmeProblem ℝ) (hP : lmeFromXY x (some y) columns labels ffi fri mustFe mustRe = .ok P)
    (hpos : ∀ v : Fin nc, labels[(v : ℕ)]? = some "variance" → ∀ r, 0 < x r v) (a : LmeFitArgs)
    (hfe : ∀ w, a.feWeights.getD P.feWeights = w → w.length = fixedCount labels ffi ∧ ∀ v ∈ w, v = 0 ∨ v = 1)
    (hre : ∀ w, a.reWeights.getD P.reWeights = w → w.length = randomCount labels fri ∧ ∀ v ∈ w, v = 0 ∨ v = 1)
    (D : List (LmeGroup P.numFixed P.numRandom)) (hD : lmeGroups P = .ok D) (hq : 0 < P.numRandom) (b0 : Vec ℝ P.numFixed) (g0 : Vec ℝ P.numRandom)
    (hb : List.ofFn b0 = a.beta.getD (List.replicate P.numFixed 1)) (hg : List.ofFn g0 = a.gamma.getD (List.replicate P.numRandom 1)) (hg0 : ∀ j, 0 < g0 j)
    (w : Vec ℝ (P.numFixed + P.numRandom)) (hw : List.ofFn w = a.feWeights.getD P.feWeights ++ a.reWeights.getD P.reWeights)
    (κ : ℝ) (hκ : M.reg.CurvedAbove κ w) (hκs : M.step * κ < 1) (m : ℝ) (hm : 0 < m) (hell : (D.map fun g => ∑ j, (∑ i, g.z i j ^ 2 / g.l i) ^ 2).sum + m ≤ s.ell) (hstep : M.step ≤ 1 / s.ell)
    (htolO : s.tolOracle / m + √((√P.numRandom + P.numRandom) * s.tolOracle / m) ≤ (1 - M.step * κ) * M.tol / 4)
    (hmax : 1 + 4 * M.step * (lmeObjective D M.elasticEps (M.reg.penalty w) b0 g0 - 1 / 2 * (D.map fun g => ∑ i, Real.log (g.l i)).sum) / (M.tol ^ 2 * (1 - M.step * κ)) < M.maxIter) :
    ∃ Lf c, lmeFitProblem M st P a = (.ok Lf, some c) ∧ (Lf.get "converged" = .ok (.atom (.bool true)) ∨
      ∃ mp w' base yb o, betaToGammaMap P = .ok mp ∧ M.reg.weights P.numFixed P.numRandom (a.feWeights.getD P.feWeights ++ a.reWeights.getD P.reWeights) = .ok w' ∧
        M.reg.build P.numFixed P.numRandom mp w' = .ok base ∧
        OracleCalls (lmeSr3Oracle D .nonInformative (s.ip _ _)) (wrapReg P.numFixed P.numRandom M.elasticEps base) M.step ("loss" ∈ M.loggerKeys) (joinX b0 g0) ⟨⟨s.ell, s.ell⟩, none⟩ yb o ∧
        InnerFails D s (xBeta yb) (xGamma yb) o) := by
  obtain ⟨_, _, feW, reW, -, -, hlen, -, -, -, -, -, -, -, hPe⟩ := lmeFromXY_ok x (some y) columns labels ffi fri mustFe mustRe P hP
  have hF := numFixed_eq P ffi fri (by rw [hPe])
  have hR := numRandom_eq P ffi fri (by rw [hPe])
  have hcl : P.columnLabels = labels := by rw [hPe]
  rw [hcl, ← fixedCount_eq] at hF
  rw [hcl, ← randomCount_eq] at hR
  have hDp : PosVar D := by
    obtain ⟨g, v, hg, hv, hgl, hD'⟩ := lmeGroups_table hP
    have hvl : labels[(v : ℕ)]? = some "variance" := by
      have : v ∈ labelIdx (p := nc) labels (fun l => decide (l = VARIANCE)) := by rw [hv]; simp
      rw [mem_labelIdx] at this
      have hlt : (v : ℕ) < labels.length := by omega
      rw [List.getElem?_eq_getElem hlt]
      simpa [List.getD_eq_getElem?_getD, List.getElem?_eq_getElem hlt, VARIANCE] using this
    cases hD.symm.trans hD'
    intro gr hgr i
    obtain ⟨l, -, rfl⟩ := List.mem_map.1 hgr
    exact hpos v hvl _
  obtain ⟨Lf, c, hfit, -, -⟩ := C83_fit_problem_returns M hM st x y columns labels ffi fri mustFe mustRe P hP hpos ⟨.nonInformative, by rw [hpr]; rfl⟩ a
    (fun b hb' => by rw [hb'] at hb; rw [← hF]; simpa using (congrArg List.length hb).symm)
    (fun g hg' => by
      rw [hg'] at hg
      refine ⟨by rw [← hR]; simpa using (congrArg List.length hg).symm, fun v hv => ?_⟩
      simp only [Option.getD_some] at hg
      rw [← hg] at hv
      obtain ⟨j, rfl⟩ := List.mem_ofFn.1 hv
      exact (hg0 j).le) hfe hre
  have hw0 : ∀ i, 0 ≤ w i := by
    intro i
    have hmem : w i ∈ a.feWeights.getD P.feWeights ++ a.reWeights.getD P.reWeights := hw ▸ List.mem_ofFn.2 ⟨i, rfl⟩
    have h01 : w i = 0 ∨ w i = 1 := by
      rcases List.mem_append.1 hmem with h | h
      · exact (hfe _ rfl).2 _ h
      · exact (hre _ rfl).2 _ h
    rcases h01 with h | h <;> rw [h] <;> norm_num
  refine ⟨Lf, c, hfit, ?_⟩
  have h := hfit
  unfold lmeFitProblem at h
  split at h
  · cases h
  rename_i r hr
  obtain ⟨coef, x', L0⟩ := r
  simp only [Prod.mk.injEq] at h
  obtain ⟨h, hc⟩ := h
  obtain ⟨D1, -, h⟩ := ebind_ok.1 h
  obtain ⟨Pr, -, h⟩ := ebind_ok.1 h
  obtain ⟨mp, Pr', w', base, D', b0', g0', us, per, hmp, hPr', hw', hbase, hD', hb0', hg0', hopt, hus, -, hcoef⟩ := lmeFitCore_ok hr
  cases hD.symm.trans hD'
  have hstart : lmeStart st P a = (a.beta.getD (List.replicate P.numFixed 1), a.gamma.getD (List.replicate P.numRandom 1)) := by
    unfold lmeStart
    simp only [sklearnCheckTruth, Bool.and_false, Bool.false_eq_true, if_false]
    cases st <;> rfl
  rw [hstart] at hb0' hg0'
  obtain rfl : b0' = b0 := List.ofFn_injective ((asVec_ok.1 hb0').trans hb.symm)
  obtain rfl : g0' = g0 := List.ofFn_injective ((asVec_ok.1 hg0').trans hg.symm)
  have hPn : Pr' = .nonInformative := by
    rw [hpr] at hPr'
    exact (Except.ok.inj hPr').symm
  subst hPn
  have hpw : w' = w ∨ (M.reg = .dummy ∧ w' = 0) := by
    rcases LmeReg.weights_mem hw' with h0 | ⟨hlen, hw'⟩
    · exact .inr h0
    · left
      refine List.ofFn_injective (hw'.trans ?_)
      rw [hw, ← hw, List.take_of_length_le (by simp)]
  have hw0' : ∀ i, 0 ≤ w' i := by
    rcases hpw with rfl | ⟨-, rfl⟩
    · exact hw0
    · exact fun _ => le_rfl
  have hpen : M.reg.penalty w' = M.reg.penalty w := by
    rcases hpw with rfl | ⟨hd, -⟩
    · rfl
    · rw [hd]; rfl
  have hκ' : M.reg.CurvedAbove κ w' := by
    rcases hpw with rfl | ⟨hd, -⟩
    · exact hκ
    · rw [hd] at hκ ⊢; exact hκ
  rw [lmeLogCriteria_other h (by decide)]
  unfold lmeOptimize at hopt
  simp only [hsr] at hopt
  obtain ⟨bg, hbg, hopt⟩ := ebind_ok.1 hopt
  obtain ⟨⟨⟨x'', L'⟩, u⟩, hrun, hopt⟩ := ebind_ok.1 hopt
  cases hopt
  unfold lmeInitialize at hbg
  rw [if_neg hinit] at hbg
  cases hbg
  rw [hprac] at hrun
  simp only [Bool.false_eq_true, if_false] at hrun
  have hl0 : 0 < s.ell := by
    have := relaxationNeeded_nonneg D
    unfold relaxationNeeded at this
    linarith
  have hs0 := hM.adm.step_pos
  have hres := lmeSr3Run_count hDp hq hM.adm.reg hw0' hM.adm.eps hbase (cfg := M.solver) hκ' hκs (hM.sr3 s hsr).2 hwarm hm hell hst hs0 ((le_div_iff₀ hl0).1 hstep) htol.le htolO hg0 hrun
  rcases hres with ⟨yb, o, h1, h2⟩ | ⟨k, h1, h2⟩
  · exact .inr ⟨mp, w', base, yb, o, hmp, hw', hbase, h1, h2⟩
  · left
    rw [h1]
    have hk : (k : ℤ) < M.maxIter := by
      rw [hpen] at h2
      change ((k : ℝ) - 1) * ((1 - M.step * κ) * M.tol ^ 2 / (4 * M.step)) ≤ _ at h2
      have hden : 0 < M.tol ^ 2 * (1 - M.step * κ) := mul_pos (pow_pos htol 2) (by linarith)
      have h3 : (k : ℝ) - 1 ≤ 4 * M.step * (lmeObjective D M.elasticEps (M.reg.penalty w) b0' g0' - noiseFloor D) / (M.tol ^ 2 * (1 - M.step * κ)) := by
        rw [le_div_iff₀ hden]
        have h4 := mul_le_mul_of_nonneg_left h2 (show 0 ≤ 4 * M.step by linarith)
        refine le_trans (le_of_eq ?_) h4
        have := hs0.ne'
        field_simp
      have h5 : (k : ℝ) < M.maxIter := by
        unfold noiseFloor at h3
        linarith
      exact_mod_cast h5
    change Except.ok (LVal.atom (PyVal.bool (decide ((k : ℤ) < M.maxIter)))) = _
    simp [hk]

/-- An SR3 L1 model with fixed steps for C195. -/
noncomputable def sr3Stop (ell : ℝ) (maxIter : ℤ) : LmeModelCfg :=
  { exModel (some { exSr3 false with ell := ell, warmStartOracle := true, tolOracle := 1e-14 }) maxIter (.l1 2) with stepping := "fixed" }

theorem sr3Stop_robust {ell : ℝ} (h0 : 0 < ell) (maxIter : ℤ) : (sr3Stop ell maxIter).Robust where
  adm := ⟨show (0 : ℝ) ≤ 2 by norm_num, by norm_num [sr3Stop, exModel], (fun s hs => by cases hs), fun s h => by cases h; exact h0.le⟩
  init := by simp [sr3Stop, exModel]
  kind := rfl
  keys := by change ["converged", "loss", "jones_bic", "muller_ic"].Nodup; decide
  vaida := by change _ ∉ ["converged", "loss", "jones_bic", "muller_ic"]; decide
  flip := fun h => absurd h (by change _ ∉ ["converged", "loss", "jones_bic", "muller_ic"]; decide)
  sr3 := fun s h => by cases h; exact ⟨h0, rfl⟩
  scad := fun _ _ => trivial

/-- Non-vacuity of C195: the example table, with two fixed and two random effects, is fitted with an SR3 L1 model of strength 2 with the default step `1/ell`, a tolerance of 1e-5 and 1e-14 for the inner solver;
with `ell` one above the bound of C111 and enough iterations all hypotheses hold. -/
example : ∃ (P : LmeProblem ℝ) (D : List (LmeGroup P.numFixed P.numRandom)) (ell : ℝ) (s : LmeSr3Cfg) (maxIter : ℤ) (Lf : Logger (PyVal ℝ (P.numFixed + P.numRandom))) (c : LmeCoef),
    lmeFromXY exTab (some ![26, 20]) none exTabLabels true true none none = .ok P ∧ lmeGroups P = .ok D ∧ P.numRandom = 2 ∧
    lmeFitProblem (sr3Stop ell maxIter) none P {} = (.ok Lf, some c) ∧ (Lf.get "converged" = .ok (.atom (.bool true)) ∨
      ∃ base yb o, OracleCalls (lmeSr3Oracle D .nonInformative (s.ip _ _)) (wrapReg P.numFixed P.numRandom 1e-4 base) (1 / ell) True (joinX (fun _ => 1) (fun _ => 1)) ⟨⟨ell, ell⟩, none⟩ yb o ∧
        InnerFails D s (xBeta yb) (xGamma yb) o) := by
  obtain ⟨P, hP⟩ := exTab_ok' true true ![26, 20]
  obtain ⟨_, _, feW, reW, -, -, hlen, -, -, -, -, -, hf, hr', hPe⟩ := lmeFromXY_ok exTab (some ![26, 20]) none exTabLabels
    true true none none P hP
  have e1 : P.feWeights = [1, 1] := by rw [hPe]; cases hf; rfl
  have e2 : P.reWeights = [1, 1] := by rw [hPe]; cases hr'; rfl
  have hF : P.numFixed = 2 := (numFixed_eq P true true (by rw [hPe])).trans (by rw [show P.columnLabels = exTabLabels by rw [hPe]]; decide)
  have hR : P.numRandom = 2 := (numRandom_eq P true true (by rw [hPe])).trans (by rw [show P.columnLabels = exTabLabels by rw [hPe]]; decide)
  obtain ⟨gr, v, -, hv, -, hD⟩ := lmeGroups_table hP
  obtain ⟨D, hDe⟩ : ∃ D, D = (uniqueLabels fun r => exTab r gr).map (tableGroup exTab ![26, 20] exTabLabels true true gr v P.numFixed P.numRandom) := ⟨_, rfl⟩
  rw [← hDe] at hD
  obtain ⟨ell, hel⟩ : ∃ ell, ell = relaxationNeeded D + 1 := ⟨_, rfl⟩
  have hl0 : 0 < ell := by
    have := relaxationNeeded_nonneg D
    linarith
  obtain ⟨F0, hF0⟩ : ∃ F0, F0 = lmeObjective D 1e-4 ((LmeReg.l1 2).penalty fun _ => 1) (fun _ => 1) (fun _ => 1) := ⟨_, rfl⟩
  obtain ⟨k, hk⟩ := exists_nat_gt (1 + 4 * (1 / ell) * (F0 - 1 / 2 * (D.map fun g => ∑ i, Real.log (g.l i)).sum) / ((1e-5 : ℝ) ^ 2 * (1 - 1 / ell * 0)))
  have hstep : (sr3Stop ell k).step = 1 / ell := by
    unfold LmeModelCfg.step sr3Stop exModel
    simp only
    exact if_neg hl0.ne'
  have hone : ∀ n : ℕ, List.ofFn (fun _ : Fin n => (1 : ℝ)) = List.replicate n 1 := fun n => List.ofFn_const n 1
  have hw : List.ofFn (fun _ : Fin (P.numFixed + P.numRandom) => (1 : ℝ)) = P.feWeights ++ P.reWeights := by
    rw [e1, e2, hF, hR, hone]
    rfl
  obtain ⟨Lf, c, hfit, hor⟩ := C195_stops (sr3Stop ell k) (sr3Stop_robust hl0 k) _ rfl rfl rfl rfl (by simp [sr3Stop, exModel]) (by simp [sr3Stop]) (by norm_num [sr3Stop, exModel]) none exTab ![26, 20] none
    exTabLabels true true none none P hP exTab_positive {} (by rintro w rfl; simp only [Option.getD_none, e1]; exact ⟨rfl, by simp⟩) (by rintro w rfl; simp only [Option.getD_none, e2]; exact ⟨rfl, by simp⟩)
    D hD (by omega) (fun _ => 1) (fun _ => 1) (hone _) (hone _) (fun _ => one_pos) (fun _ => 1) hw 0 le_rfl (by rw [mul_zero]; exact one_pos) 1 one_pos (by
      change _ ≤ ell
      rw [hel]
      exact le_rfl) (by
      rw [hstep]) (by
      rw [mul_zero, sub_zero]
      change (1e-14 : ℝ) / 1 + √((√P.numRandom + P.numRandom) * 1e-14 / 1) ≤ 1 * 1e-5 / 4
      rw [hR]
      have h1 : √((2 : ℕ) : ℝ) ≤ 2 := by
        rw [Real.sqrt_le_left (by norm_num)]
        norm_num
      have h2 : √((√((2 : ℕ) : ℝ) + ((2 : ℕ) : ℝ)) * 1e-14 / 1) ≤ 2e-7 := by
        rw [Real.sqrt_le_left (by norm_num)]
        push_cast at h1 ⊢
        linarith
      linarith) (by
      rw [hstep]
      change 1 + 4 * (1 / ell) * (lmeObjective D 1e-4 ((LmeReg.l1 2).penalty fun _ => 1) (fun _ => 1) (fun _ => 1) - _) / _ < ((k : ℤ) : ℝ)
      rw [← hF0, Int.cast_natCast]
      exact hk)
  refine ⟨P, D, ell, { exSr3 false with ell := ell, warmStartOracle := true, tolOracle := 1e-14 }, k, Lf, c, hP, hD, hR, hfit, hor.imp id ?_⟩
  rintro ⟨mp, w', base, yb, o, -, -, -, h1, h2⟩
  rw [hstep] at h1
  have hk : ("loss" ∈ (sr3Stop ell k).loggerKeys) = True := eq_true (by change "loss" ∈ ["converged", "loss", "jones_bic", "muller_ic"]; decide)
  rw [hk] at h1
  exact ⟨base, yb, o, h1, h2⟩

end Verif
