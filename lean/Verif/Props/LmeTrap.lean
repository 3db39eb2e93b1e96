import Verif.Props.LmeWarm

/-!
# C87-C89: history and starting points of the SR3 mixed-effects oracle
-/

open Matrix

namespace Verif

variable {p q N k : ℕ}

/-! ## C87: evaluations and history -/

/-- **C87** is violated with the default `warm_start=True`, for every problem, prior and constants with `lg > 0`: evaluate
a new oracle at a point without variances (say, one that a sparse prox has just produced), then at a point with positive
ones. The gradient of the second call is that of a fit without random effects (`lg * tgamma` in all variances), whereas
the gradient of the same call on a new oracle is smaller in every variance. -/
theorem C87_history_violated (D : List (LmeGroup p q)) (hD : PosVar D) (P : LmeInstPrior ℝ p q) (hP : P.Reachable)
    (c : IpCfg p q) (hc : c.Plain) (hw : c.warmStart = true) (S : Sr3Params) (hlb : 0 < S.lb) (hlg : 0 < S.lg) (hq : q ≠ 0)
    (tb tb' : Vec ℝ p) (tg : Vec ℝ q) (htg : ∀ j, 0 < tg j) :
    ∃ g1 gb gg gb' gg' o1 o2 o3,
      lmeSr3GradientValueFunction D P c ⟨S, none⟩ tb' 0 = .ok (g1, o1) ∧
      lmeSr3GradientValueFunction D P c o1 tb tg = .ok ((gb, gg), o2) ∧
      lmeSr3GradientValueFunction D P c ⟨S, none⟩ tb tg = .ok ((gb', gg'), o3) ∧
      (∀ j, gg j = S.lg * tg j) ∧ ∀ j, gg' j < gg j := by
  have hstart0 : (ipStart c ⟨S, none⟩ ((2 : ℝ) • tb') ((2 : ℝ) • (0 : Vec ℝ q))).2 = 0 := by
    unfold ipStart
    split_ifs <;> simp
  obtain ⟨r1, o1, h1, -⟩ := C81_inner_solver_total D hD P hP c hc.default ⟨S, none⟩ hlb hlg.le ((2 : ℝ) • tb') tb'
    ((2 : ℝ) • (0 : Vec ℝ q)) 0 (by rw [hstart0]; exact fun _ => le_rfl)
  obtain ⟨-, b, hb⟩ : r1.gamma = 0 ∧ ∃ b, o1.warm = some (b, 0) :=
    (C80_zero_trap D P c _ _ _ _ _ hstart0 r1 o1 hq h1).imp_right fun h => h hw
  have hS1 := (lmeFindIp_relaxed hc h1).2.2
  have hstart1 : (ipStart c o1 ((2 : ℝ) • tb) ((2 : ℝ) • tg)).2 = 0 := by
    unfold ipStart
    rw [if_pos hw, hb]
    rfl
  obtain ⟨r2, o2, h2, -⟩ := C81_inner_solver_total D hD P hP c hc.default o1 (by rw [hS1]; exact hlb) (by rw [hS1]; exact hlg.le)
    ((2 : ℝ) • tb) tb ((2 : ℝ) • tg) tg (by rw [hstart1]; exact fun _ => le_rfl)
  have hg2 := (C80_zero_trap D P c _ _ _ _ _ hstart1 r2 o2 hq h2).1
  have hS2 := (lmeFindIp_relaxed hc h2).2.2
  have hstart2 : ∀ j, 0 < (ipStart c ⟨S, none⟩ ((2 : ℝ) • tb) ((2 : ℝ) • tg)).2 j := by
    intro j
    have : (ipStart c ⟨S, none⟩ ((2 : ℝ) • tb) ((2 : ℝ) • tg)).2 = (2 : ℝ) • tg := by
      unfold ipStart
      split_ifs <;> rfl
    rw [this]
    exact mul_pos two_pos (htg j)
  obtain ⟨r3, o3, h3, -⟩ := C81_inner_solver_total D hD P hP c hc.default ⟨S, none⟩ hlb hlg.le
    ((2 : ℝ) • tb) tb ((2 : ℝ) • tg) tg (fun j => (hstart2 j).le)
  have hg3 := ((C63_sr3_positive D P c (fun ls h => by rw [hc.lineSearch] at h; cases h) ⟨S, none⟩ _ tb _ tg hstart2).2 hq
    r3 o3 h3).1
  have hS3 := (lmeFindIp_relaxed hc h3).2.2
  have key : ∀ {o o' : IpOracle p q} {tb : Vec ℝ p} {tg : Vec ℝ q} {r : IpResult p q},
      lmeFindIp D P c o ((2 : ℝ) • tb) ((2 : ℝ) • tg) tb tg = .ok (r, o') →
      lmeSr3GradientValueFunction D P c o tb tg
        = .ok ((-(o'.S.lb • (r.beta - tb)), -(o'.S.lg • (r.gamma - tg))), o') := by
    intro o o' tb tg r h
    unfold lmeSr3GradientValueFunction
    rw [h]
    rfl
  refine ⟨_, _, _, _, _, o1, o2, o3, key h1, key h2, key h3, fun j => ?_, fun j => ?_⟩
  · rw [hg2, hS2, hS1]
    simp
  · rw [hg2, hS2, hS1, hS3]
    have := mul_pos hlg (hg3 j)
    simp only [Pi.neg_apply, Pi.smul_apply, Pi.sub_apply, smul_eq_mul, Pi.zero_apply]
    nlinarith

/-- C87 on a concrete problem with the default settings. -/
example : ∃ g1 gb gg gb' gg' o1 o2 o3,
    lmeSr3GradientValueFunction [exGroup] .nonInformative (defaultCfg 1 1) ⟨⟨0.1, 0.1⟩, none⟩ ![1] 0 = .ok (g1, o1) ∧
    lmeSr3GradientValueFunction [exGroup] .nonInformative (defaultCfg 1 1) o1 ![1] ![1] = .ok ((gb, gg), o2) ∧
    lmeSr3GradientValueFunction [exGroup] .nonInformative (defaultCfg 1 1) ⟨⟨0.1, 0.1⟩, none⟩ ![1] ![1] = .ok ((gb', gg'), o3) ∧
    (∀ j, gg j = 0.1 * ![1] j) ∧ ∀ j, gg' j < gg j :=
  C87_history_violated [exGroup] exGroup_posVar .nonInformative trivial (defaultCfg 1 1) ⟨rfl, rfl, rfl, rfl⟩ rfl ⟨0.1, 0.1⟩
    (by norm_num) (by norm_num) one_ne_zero _ _ _ (by intro j; fin_cases j; simp)

/-- The part of **C87** that holds: with `warm_start=False` (and default settings else) the value and the gradient
returned for a point do not depend on earlier evaluations: two oracles with the same constants return the same, or
both raise, and evaluations do not change the constants. Missing: the default `warm_start=True`. -/
theorem C87_history_partial (D : List (LmeGroup p q)) (P : LmeInstPrior ℝ p q) (c : IpCfg p q) (hc : c.Plain)
    (hw : c.warmStart = false) (o o' : IpOracle p q) (hS : o.S = o'.S) (tb : Vec ℝ p) (tg : Vec ℝ q) :
    (lmeSr3ValueFunction D P c o tb tg).map (·.1) = (lmeSr3ValueFunction D P c o' tb tg).map (·.1) ∧
    (lmeSr3GradientValueFunction D P c o tb tg).map (·.1) = (lmeSr3GradientValueFunction D P c o' tb tg).map (·.1) ∧
    (∀ v o1, lmeSr3ValueFunction D P c o tb tg = .ok (v, o1) → o1 = o) ∧
    ∀ g o1, lmeSr3GradientValueFunction D P c o tb tg = .ok (g, o1) → o1 = o := by
  have hind : ∀ o : IpOracle p q, lmeFindIp D P c o ((2 : ℝ) • tb) ((2 : ℝ) • tg) tb tg =
      (lmeFindIp D P c ⟨o.S, none⟩ ((2 : ℝ) • tb) ((2 : ℝ) • tg) tb tg).map fun r => (r.1, o) := by
    intro o
    cases h : lmeFindIp D P c ⟨o.S, none⟩ ((2 : ℝ) • tb) ((2 : ℝ) • tg) tb tg with
    | error e =>
      unfold lmeFindIp at h ⊢
      by_cases hq : q = 0
      · rw [if_pos hq] at h ⊢
        cases hb : lmeSr3OptimalBeta D o.S tg tb with
        | error e' => rw [hb] at h; cases h; rfl
        | ok b => rw [hb] at h; cases h
      · rw [if_neg hq] at h ⊢
        have : ipInit c o ((2 : ℝ) • tb) ((2 : ℝ) • tg) tb tg = ipInit c ⟨o.S, none⟩ ((2 : ℝ) • tb) ((2 : ℝ) • tg) tb tg := by
          unfold ipInit ipStart
          simp [hw]
        rw [this]
        cases hb : ipLoop D P c (ipInit c ⟨o.S, none⟩ ((2 : ℝ) • tb) ((2 : ℝ) • tg) tb tg) with
        | error e' => rw [hb] at h; cases h; rfl
        | ok b => rw [hb] at h; cases h
    | ok r =>
      obtain ⟨r, o1⟩ := r
      have hS1 := (lmeFindIp_relaxed hc h).2.2
      unfold lmeFindIp at h ⊢
      by_cases hq : q = 0
      · rw [if_pos hq] at h ⊢
        obtain ⟨b, hb, h⟩ := ebind_ok.1 h
        cases h
        change lmeSr3OptimalBeta D o.S tg tb = _ at hb
        rw [hb]
        rfl
      · rw [if_neg hq] at h ⊢
        have : ipInit c o ((2 : ℝ) • tb) ((2 : ℝ) • tg) tb tg = ipInit c ⟨o.S, none⟩ ((2 : ℝ) • tb) ((2 : ℝ) • tg) tb tg := by
          unfold ipInit ipStart
          simp [hw]
        rw [this]
        obtain ⟨s, hs, h⟩ := ebind_ok.1 h
        cases h
        rw [hs]
        change Except.ok _ = Except.ok _
        have e : s.S = o.S := hS1
        simp only [hw, e, Bool.false_eq_true, if_false]
  have hv : ∀ o : IpOracle p q, lmeSr3ValueFunction D P c o tb tg
      = (lmeSr3ValueFunction D P c ⟨o.S, none⟩ tb tg).map fun r => (r.1, o) := by
    intro o
    unfold lmeSr3ValueFunction
    rw [hind o]
    cases h : lmeFindIp D P c ⟨o.S, none⟩ ((2 : ℝ) • tb) ((2 : ℝ) • tg) tb tg with
    | error e => rfl
    | ok r =>
      obtain ⟨r, o1⟩ := r
      have hS1 := (lmeFindIp_relaxed hc h).2.2
      change (lmeSr3Loss D P o.S _ _ _ _ >>= _) = ((lmeSr3Loss D P o1.S _ _ _ _ >>= _ : Except _ _).map _)
      rw [hS1]
      cases lmeSr3Loss D P o.S r.beta r.gamma r.tbeta r.tgamma <;> rfl
  have hgr : ∀ o : IpOracle p q, lmeSr3GradientValueFunction D P c o tb tg
      = (lmeSr3GradientValueFunction D P c ⟨o.S, none⟩ tb tg).map fun r => (r.1, o) := by
    intro o
    unfold lmeSr3GradientValueFunction
    rw [hind o]
    cases h : lmeFindIp D P c ⟨o.S, none⟩ ((2 : ℝ) • tb) ((2 : ℝ) • tg) tb tg with
    | error e => rfl
    | ok r =>
      obtain ⟨r, o1⟩ := r
      have hS1 := (lmeFindIp_relaxed hc h).2.2
      change Except.ok _ = Except.ok _
      simp only [hS1]
  refine ⟨?_, ?_, ?_, ?_⟩
  · rw [hv o, hv o', hS]
    cases lmeSr3ValueFunction D P c ⟨o'.S, none⟩ tb tg <;> rfl
  · rw [hgr o, hgr o', hS]
    cases lmeSr3GradientValueFunction D P c ⟨o'.S, none⟩ tb tg <;> rfl
  · intro v o1 h
    rw [hv o] at h
    cases h' : lmeSr3ValueFunction D P c ⟨o.S, none⟩ tb tg with
    | error e => rw [h'] at h; cases h
    | ok r => rw [h'] at h; cases h; rfl
  · intro v o1 h
    rw [hgr o] at h
    cases h' : lmeSr3GradientValueFunction D P c ⟨o.S, none⟩ tb tg with
    | error e => rw [h'] at h; cases h
    | ok r => rw [h'] at h; cases h; rfl

/-- C87 on a concrete problem without warm start: whatever the last inner solution was, the evaluation is the same. -/
example (warm : Option (Vec ℝ 1 × Vec ℝ 1)) :
    (lmeSr3ValueFunction [exGroup] .nonInformative { defaultCfg 1 1 with warmStart := false } ⟨⟨0.1, 0.1⟩, warm⟩ ![1] ![1]).map (·.1)
      = (lmeSr3ValueFunction [exGroup] .nonInformative { defaultCfg 1 1 with warmStart := false } ⟨⟨0.1, 0.1⟩, none⟩ ![1] ![1]).map (·.1) :=
  (C87_history_partial [exGroup] .nonInformative _ ⟨rfl, rfl, rfl, rfl⟩ rfl ⟨⟨0.1, 0.1⟩, warm⟩ ⟨⟨0.1, 0.1⟩, none⟩ rfl ![1] ![1]).1

/-! ## C88: fits started without variances -/

/-- Invariants of the proximal gradient solver: a set of points and of oracle states that is preserved by the calls the
solver makes. -/
theorem pgdOptimize_inv {n : ℕ} {σ : Type} {o : Oracle ℝ n σ} {R : Regularizer ℝ n} (Q : Vec ℝ n → Prop) (I : σ → Prop)
    (hval : ∀ x s v s', Q x → I s → o.value x s = .ok (v, s') → I s')
    (hgrad : ∀ x s g s', Q x → I s → o.grad x s = .ok (g, s') → I s' ∧
      ∀ step z, R.prox (x + step • -g) step = .ok z → Q z)
    {cfg : PGDCfg ℝ} {x0 x : Vec ℝ n} {L Lf : Logger (PyVal ℝ n)} {s s' : σ} (hx0 : Q x0) (hs : I s)
    (h : pgdOptimize o R cfg x0 L s = .ok ((x, Lf), s')) : Q x ∧ I s' := by
  have hlog : ∀ {L L' : Logger (PyVal ℝ n)} {x : Vec ℝ n} {vars s s'}, Q x → I s →
      logBlock o R L x vars s = .ok (L', s') → I s' := by
    intro L L' x vars s s' hx hs h
    unfold logBlock at h
    obtain ⟨l, s1, h1, h⟩ := bind_ok.1 h
    have hs1 : I s1 := by
      split_ifs at h1 with hk
      · obtain ⟨l', s2, h2, h6⟩ := bind_ok.1 h1
        cases h6
        unfold lossAt at h2
        obtain ⟨f, s3, h3, h7⟩ := bind_ok.1 h2
        obtain ⟨g, s4, h4, h5⟩ := bind_ok.1 h7
        obtain ⟨-, rfl⟩ := callReg_ok.1 h4
        cases h5
        exact hval _ _ _ _ hx hs h3
      · cases h1
        exact hs
    split_ifs at h with hk
    · obtain ⟨-, rfl⟩ := callReg_ok.1 h
      exact hs1
    · cases h
      exact hs1
  have hline : ∀ {x d : Vec ℝ n} {step}, Q x → (∀ step z, R.prox (x + step • d) step = .ok z → Q z) → ∀ {s r s'}, I s →
      lineSearch o R x d step s = .ok (r, s') → I s' := by
    intro x d step hx hz
    induction step using lineSearch.induct (K := ℝ) with
    | case1 step hstep ih =>
      intro s r s' hs h
      rw [lineSearch, dif_pos hstep] at h
      obtain ⟨z, s1, h1, h⟩ := bind_ok.1 h
      obtain ⟨fz, s2, h2, h4⟩ := bind_ok.1 h
      obtain ⟨fx, s3, h3, h5⟩ := bind_ok.1 h4
      obtain ⟨h1', rfl⟩ := callReg_ok.1 h1
      have hs3 := hval _ _ _ _ hx (hval _ _ _ _ (hz _ _ h1') hs h2) h3
      split_ifs at h5
      · cases h5; exact hs3
      · exact ih hs3 h5
    | case2 step hstep =>
      intro s r s' hs h
      rw [lineSearch, dif_neg hstep] at h
      cases h
      exact hs
  have hloop : ∀ (x : Vec ℝ n) (xprev : Option (Vec ℝ n)) (it : ℕ) (L : Logger (PyVal ℝ n)), Q x → ∀ s r s', I s →
      pgdLoop o R cfg x0 x xprev it L s = .ok (r, s') → Q r.1 ∧ I s' := by
    intro x xprev it L
    induction x, xprev, it, L using pgdLoop.induct (cfg := cfg) with
    | case1 x xprev it L hgd ih =>
      intro hx s r s' hs h
      rw [pgdLoop, dif_pos hgd] at h
      obtain ⟨⟨x1, L1⟩, s1, hb, h⟩ := bind_ok.1 h
      unfold pgdBody at hb
      obtain ⟨g, s2, h2, hb⟩ := bind_ok.1 hb
      obtain ⟨hs2, hprox⟩ := hgrad _ _ _ _ hx hs h2
      obtain ⟨step, s3, h3, hb⟩ := bind_ok.1 hb
      have hs3 : I s3 := by
        unfold chooseStep at h3
        split_ifs at h3
        · exact hline hx hprox hs2 h3
        · cases h3; exact hs2
      obtain ⟨x', s4, h4, hb⟩ := bind_ok.1 hb
      obtain ⟨L', s5, h5, h7⟩ := bind_ok.1 hb
      obtain ⟨h6, rfl⟩ := callReg_ok.1 h4
      cases h7
      have hx' := hprox _ _ h6
      exact ih (x1, L1) hx' _ _ _ (hlog hx' hs3 h5) h
    | case2 x xprev it L hgd =>
      intro hx s r s' hs h
      rw [pgdLoop, dif_neg hgd] at h
      cases h
      exact ⟨hx, hs⟩
  unfold pgdOptimize at h
  obtain ⟨L0, s1, h1, h⟩ := bind_ok.1 h
  obtain ⟨r, s2, h2, h⟩ := bind_ok.1 h
  obtain ⟨L1, s3, h3, h5⟩ := bind_ok.1 h
  obtain ⟨L2, s4, h4, h6⟩ := bind_ok.1 h5
  obtain ⟨-, rfl⟩ := callReg_ok.1 h3
  obtain ⟨-, rfl⟩ := callReg_ok.1 h4
  cases h6
  exact hloop _ _ _ _ hx0 _ _ _ (hlog hx0 hs h1) h2

theorem soft_at_zero (t : ℝ) : soft t (0 : ℝ) = 0 := by
  unfold soft
  simp

/-- The prox of the regularizer of a model leaves zero coordinates zero, for all hyperparameters, weights and steps. -/
theorem wrapReg_prox_zero {r : LmeReg} {m : List ℤ} {w : Vec ℝ (p + q)} {base : Regularizer ℝ (p + q)}
    (h : r.build p q m w = .ok base) (eps : ℝ) {x z : Vec ℝ (p + q)} {t : ℝ}
    (hz : (wrapReg p q eps base).prox x t = .ok z) {i : Fin (p + q)} (hx : x i = 0) : z i = 0 := by
  have hbase : ∀ {y : Vec ℝ (p + q)} {al : ℝ}, base.prox y al = .ok z → y i = 0 → z i = 0 := by
    intro y al hz hy
    cases r with
    | dummy => cases h; cases hz; exact hy
    | l0 nb ng sort =>
      cases h
      obtain ⟨z', hz', -, -, -, -, hk, -⟩ := C14_l0lme_budget_hierarchy (nb.getD p) (ng.getD q) false (fun i => mapEntry q m i)
        ⟨xBeta w, xGamma w, sort.sub p (xBeta w), sort.sub q (xGamma w)⟩ (sort.all p) y al
      have : z' = z := Except.ok.inj (hz'.symm.trans hz)
      rw [← this]
      rcases hk i with e | e
      · rw [e, hy]
      · exact e
    | l1 lam =>
      cases h
      cases hz
      simp only [hy, soft_at_zero]
    | cad rho lam =>
      cases h
      cases hz
      simp only [hy, soft_at_zero, ite_self]
    | scad rho sigma lam =>
      unfold LmeReg.build scadInit at h
      simp only at h
      split_ifs at h
      · cases h
        have := (collect_ok_iff _ z).1 hz i
        rw [hy] at this
        unfold scadProx1 at this
        split_ifs at this
        · exact (Except.ok.inj this).symm
        · exact (Except.ok.inj this).symm
        · rw [← Except.ok.inj this]
          simp [npSign]
        · rw [← Except.ok.inj this]
          exact soft_at_zero _
      · cases h
  unfold wrapReg positiveQuadrant elastic at hz
  simp only at hz
  refine hbase hz ?_
  simp [hx, clip0]

theorem xGamma_join (b : Vec ℝ p) (g : Vec ℝ q) : xGamma (joinX b g) = g := by
  funext j
  unfold xGamma joinX
  rw [Fin.append_right]

theorem xBeta_join (b : Vec ℝ p) (g : Vec ℝ q) : xBeta (joinX b g) = b := by
  funext j
  unfold xBeta joinX
  rw [Fin.append_left]

/-- One step of the interior point method without variances and barrier. -/
theorem ipStep_zero {D : List (LmeGroup p q)} {P : LmeInstPrior ℝ p q} {c : IpCfg p q} {s s' : IpState p q}
    {F : Fin q ⊕ (Fin p ⊕ Fin q) → ℝ} (h1 : s.gamma = 0) (h2 : s.mu = 0) (hF : ipF D P s = .ok F)
    (hs' : ipStep D P c s F = .ok s') : s'.gamma = 0 ∧ s'.mu = 0 := by
  obtain ⟨dF, d, step, hJ, hsol, -, -, -, e2, -, -, e3⟩ := ipStep_ok hs'
  obtain ⟨hu, hd⟩ := npSolve_ok.1 hsol
  have hFj : ∀ j, F (.inl j) = 0 := by
    intro j
    unfold ipF at hF
    obtain ⟨gb, -, hF⟩ := ebind_ok.1 hF
    obtain ⟨gg, -, hF⟩ := ebind_ok.1 hF
    cases hF
    simp [h1, h2]
  have hdg : ∀ j, d (.inr (.inr j)) = 0 := by
    intro j
    have hv : s.v j ≠ 0 := by
      intro hv
      have hinv : dF * dF⁻¹ = 1 := Matrix.mul_nonsing_inv _ hu
      have hone : (dF *ᵥ (dF⁻¹ *ᵥ Pi.single (.inl j) 1)) (.inl j) = 1 := by
        rw [Matrix.mulVec_mulVec, hinv, Matrix.one_mulVec, Pi.single_eq_same]
      rw [ipJac_row hJ j, h1, hv] at hone
      simp at hone
    have := congrFun hd (.inl j)
    rw [ipJac_row hJ j, Pi.neg_apply, hFj j, h1] at this
    simpa [hv] using this
  have hgam : s'.gamma = 0 := by
    rw [e2, h1]
    funext j
    simp [hdg j]
  refine ⟨hgam, ?_⟩
  rcases e3 with e3 | e3
  · rw [e3.1, h2]
  · rw [e3.1, hgam]; simp

/-- The inner solver started without variances: the relaxed variances stay zero as well if the prox keeps zeros. -/
theorem lmeFindIp_tgamma_zero {D : List (LmeGroup p q)} {P : LmeInstPrior ℝ p q} {c : IpCfg p q} {o o' : IpOracle p q}
    {beta tbeta : Vec ℝ p} {gamma : Vec ℝ q} {r : IpResult p q} (hg : (ipStart c o beta gamma).2 = 0)
    (hprox : ∀ prox, c.reg = some prox → ∀ b t, prox c.proxStepLen (b, 0) = .ok t → t.2 = 0)
    (h : lmeFindIp D P c o beta gamma tbeta 0 = .ok (r, o')) : r.tgamma = 0 := by
  unfold lmeFindIp at h
  by_cases hq : q = 0
  · rw [if_pos hq] at h
    obtain ⟨b, -, h⟩ := ebind_ok.1 h
    cases h
    rfl
  · rw [if_neg hq] at h
    obtain ⟨s, hs, h⟩ := ebind_ok.1 h
    cases h
    refine (ipLoop_inv D P c (fun s => s.tgamma = 0 ∧ s.gamma = 0 ∧ s.mu = 0) ?_ _ _ s rfl ?_ hs).1
    · rintro a F a' ⟨h1, h2, h3⟩ - hF hstep
      obtain ⟨e1, e2⟩ := ipStep_zero h2 h3 hF hstep
      refine ⟨?_, e1, e2⟩
      obtain ⟨dF, d, step, -, -, -, -, -, eg, -, -, k⟩ := ipStep_ok hstep
      change a'.tgamma = 0
      rcases k with ⟨-, -, k2, -, -⟩ | ⟨-, k1, -⟩
      · rw [k2]; exact h1
      · unfold ipProx at k1
        split at k1
        · rename_i prox hreg
          split_ifs at k1
          · rw [e1] at k1
            exact hprox prox hreg _ _ k1
          · have := congrArg Prod.snd (Except.ok.inj k1)
            exact this.symm.trans h1
        · have := congrArg Prod.snd (Except.ok.inj k1)
          exact this.symm.trans h1
    · exact ⟨rfl, hg, by simp [ipInit, hg]⟩

/-- States of the oracle without variances. -/
def IpOracle.Flat (o : IpOracle p q) : Prop := ∀ bg, o.warm = some bg → bg.2 = 0

theorem IpOracle.Flat.start {o : IpOracle p q} (h : o.Flat) (c : IpCfg p q) (beta : Vec ℝ p) :
    (ipStart c o beta ((2 : ℝ) • (0 : Vec ℝ q))).2 = 0 := by
  unfold ipStart
  split_ifs
  · cases hw : o.warm with
    | none => simp
    | some bg => exact h bg hw
  · simp

theorem lmeFindIp_flat {D : List (LmeGroup p q)} {P : LmeInstPrior ℝ p q} {c : IpCfg p q} {o o' : IpOracle p q}
    (ho : o.Flat) {beta tbeta : Vec ℝ p} {tgamma : Vec ℝ q} (ht : tgamma = 0) {r : IpResult p q}
    (h : lmeFindIp D P c o beta ((2 : ℝ) • tgamma) tbeta tgamma = .ok (r, o')) : r.gamma = 0 ∧ o'.Flat := by
  subst ht
  by_cases hq : q = 0
  · subst hq
    exact ⟨funext fun j => j.elim0, fun bg _ => funext fun j => j.elim0⟩
  · obtain ⟨h1, h2⟩ := C80_zero_trap D P c o _ _ _ _ (ho.start c beta) r o' hq h
    refine ⟨h1, ?_⟩
    by_cases hw : c.warmStart = true
    · obtain ⟨b, hb⟩ := h2 hw
      intro bg hbg
      rw [hb] at hbg
      cases hbg
      rfl
    · unfold lmeFindIp at h
      rw [if_neg hq] at h
      obtain ⟨s, -, h⟩ := ebind_ok.1 h
      cases h
      simp only [hw, Bool.false_eq_true, if_false]
      exact ho

theorem lmeInitialize_zero {init : Option String} {D : List (LmeGroup p q)} {ob : Vec ℝ q → Vec ℝ p → Except PyErr (Vec ℝ p)}
    {beta : Vec ℝ p} {bg : Vec ℝ p × Vec ℝ q} (h : lmeInitialize init D ob beta 0 = .ok bg) : bg.2 = 0 := by
  unfold lmeInitialize at h
  split_ifs at h
  · obtain ⟨b, -, h⟩ := ebind_ok.1 h
    obtain ⟨us, hus, h⟩ := ebind_ok.1 h
    cases h
    have hz : ∀ u ∈ us, u = 0 := by
      rw [(lmeRandomEffects_ok.1 hus).2.2]
      intro u hu
      obtain ⟨g, -, rfl⟩ := List.mem_map.1 hu
      funext j
      unfold scatterMask
      rw [dif_neg (by simp; norm_num)]
      rfl
    funext j
    have : (us.map fun u => u j ^ 2) = us.map fun _ => (0 : ℝ) :=
      List.map_congr_left fun u hu => by rw [hz u hu]; simp
    simp [this]
  · cases h
    rfl

/-- The optimisation of an SR3 model started without variances ends without variances. -/
theorem lmeOptimize_zero {M : LmeModelCfg} {s : LmeSr3Cfg} (hs : M.sr3 = some s) {D : List (LmeGroup p q)} {m : List ℤ}
    {w : Vec ℝ (p + q)} {base : Regularizer ℝ (p + q)} (hbase : M.reg.build p q m w = .ok base)
    {Pr : LmeInstPrior ℝ p q} {beta : Vec ℝ p} {x : Vec ℝ (p + q)} {L : Logger (PyVal ℝ (p + q))}
    (h : lmeOptimize M D Pr (wrapReg p q M.elasticEps base) beta 0 = .ok (x, L)) : xGamma x = 0 := by
  have hprox : ∀ {y z : Vec ℝ (p + q)} {t : ℝ}, (wrapReg p q M.elasticEps base).prox y t = .ok z → xGamma y = 0 →
      xGamma z = 0 := by
    intro y z t hz hy
    funext j
    exact wrapReg_prox_zero hbase _ hz (congrFun hy j)
  unfold lmeOptimize at h
  simp only [hs] at h
  obtain ⟨bg, hbg, h⟩ := ebind_ok.1 h
  have hbg := lmeInitialize_zero hbg
  obtain ⟨⟨⟨x', L'⟩, o'⟩, hr, h⟩ := ebind_ok.1 h
  cases h
  have hnone : (⟨⟨s.ell, s.ell⟩, none⟩ : IpOracle p q).Flat := fun _ h => by cases h
  by_cases hpr : s.practical = true
  · rw [if_pos hpr] at hr
    unfold fakeOptimize at hr
    obtain ⟨x1, s1, h1, hr1⟩ := bind_ok.1 hr
    obtain ⟨L1, s2, -, hr2⟩ := bind_ok.1 hr1
    obtain ⟨L2, s3, -, hr3⟩ := bind_ok.1 hr2
    cases hr3
    simp only at h1
    cases h2 : lmeSr3FindOptimal D Pr (s.ipPractical (wrapReg p q M.elasticEps base)) ⟨⟨s.ell, s.ell⟩, none⟩
        (xBeta (joinX bg.1 bg.2)) (xGamma (joinX bg.1 bg.2)) with
    | error e => rw [h2] at h1; cases h1
    | ok r =>
      rw [h2] at h1
      cases h1
      unfold lmeSr3FindOptimal at h2
      rw [xGamma_join, hbg] at h2
      obtain ⟨⟨r', o2⟩, h3, h2⟩ := ebind_ok.1 h2
      cases h2
      rw [xGamma_join]
      refine lmeFindIp_tgamma_zero (hnone.start _ _) ?_ h3
      intro prox hp b t ht
      cases hp
      simp only at ht
      cases hz : (wrapReg p q M.elasticEps base).prox (joinX b 0)
          (s.ipPractical (wrapReg p q M.elasticEps base)).proxStepLen with
      | error e => rw [hz] at ht; cases ht
      | ok z =>
        rw [hz] at ht
        cases ht
        exact hprox hz (xGamma_join _ _)
  · rw [if_neg hpr] at hr
    refine (pgdOptimize_inv (fun x => xGamma x = 0) IpOracle.Flat ?_ ?_ (by rw [xGamma_join]; exact hbg) hnone hr).1
    · intro x s1 v s2 hx hs1 hv
      change lmeSr3ValueFunction _ _ _ _ _ _ = _ at hv
      unfold lmeSr3ValueFunction at hv
      obtain ⟨⟨r, o2⟩, h1, hv⟩ := ebind_ok.1 hv
      obtain ⟨l, -, hv⟩ := ebind_ok.1 hv
      cases hv
      exact (lmeFindIp_flat hs1 hx h1).2
    · intro x s1 g s2 hx hs1 hg
      change Except.map _ (lmeSr3GradientValueFunction _ _ _ _ _ _) = _ at hg
      unfold lmeSr3GradientValueFunction at hg
      cases h1 : lmeFindIp D Pr (s.ip p q) s1 ((2 : ℝ) • xBeta x) ((2 : ℝ) • xGamma x) (xBeta x) (xGamma x) with
      | error e => rw [h1] at hg; cases hg
      | ok r =>
        rw [h1] at hg
        cases hg
        obtain ⟨e1, e2⟩ := lmeFindIp_flat hs1 hx (r := r.1) (o' := r.2) h1
        refine ⟨e2, fun step z hz => hprox hz ?_⟩
        rw [e1]
        funext j
        have e3 : xGamma (joinX (-(r.2.S.lb • (r.1.beta - xBeta x))) (-(r.2.S.lg • ((0 : Vec ℝ q) - xGamma x)))) = 0 := by
          rw [xGamma_join, hx]
          simp
        have e4 := congrFun e3 j
        have e5 := congrFun hx j
        unfold xGamma at e4 e5 ⊢
        simp only [Pi.add_apply, Pi.smul_apply, Pi.neg_apply, smul_eq_mul]
        rw [e4, e5]
        simp

/-- **C88**: every `fit` of an SR3 model, practical or not, whatever the data, regularizer, prior, constants,
initializer and state of the model are, that is started from `initial_parameters` with zero variances and returns,
estimates all variances as zero. -/
theorem C88_zero_start (M : LmeModelCfg) (s : LmeSr3Cfg) (hs : M.sr3 = some s) (st : LmeState) (x : Matrix (Fin N) (Fin k) ℝ)
    (y : Vec ℝ N) (labels : List String) (ffi fri : Bool) (columns mustFe mustRe : Option (List String)) (a : LmeFitArgs)
    (g : List ℝ) (hag : a.gamma = some g) (hg : ∀ v ∈ g, v = 0) (c : LmeCoef)
    (h : lmeFit M st x y (some labels) ffi fri columns mustFe mustRe a = (.ok (), some c)) : ∀ v ∈ c.gamma, v = 0 := by
  obtain ⟨P, c', vec, L0, hP, hc, hcore⟩ := lmeFit_ok h
  cases hc
  obtain ⟨m, Pr, w, base, D, beta, gamma, us, per, -, -, -, hbase, -, hb, hgm, hopt, -, -, rfl⟩ := lmeFitCore_ok hcore
  have hst : (lmeStart st P a).2 = g := by
    unfold lmeStart
    simp only [sklearnCheckTruth, Bool.and_false, Bool.false_eq_true, if_false, hag, Option.getD_some]
    cases st <;> rfl
  rw [hst, asVec_ok] at hgm
  have h0 : gamma = 0 := by
    funext j
    exact hg _ (hgm ▸ List.mem_ofFn.2 ⟨j, rfl⟩)
  subst h0
  have := lmeOptimize_zero hs hbase hopt
  intro v hv
  simp only [this, List.mem_ofFn] at hv
  obtain ⟨j, rfl⟩ := hv
  rfl

/-- C88 on the example table: an SR3 model (practical or not) with an intercept, started without variances. -/
example (practical : Bool) : ∃ c, lmeFit (exModel (some (exSr3 practical)) 100 (.l1 2)) none exTab ![26, 20] (some exTabLabels) true true
    none none none ⟨none, some [0, 0], false, none, none⟩ = (.ok (), some c) ∧ ∀ v ∈ c.gamma, v = 0 := by
  obtain ⟨P, hP⟩ := exTab_ok' true true ![26, 20]
  obtain ⟨c, hc, -⟩ := C83_fit_returns _ (exModel_robust (some (exSr3 practical)) (by
      intro s hs
      cases hs
      exact ⟨by norm_num [exSr3], rfl⟩) 100 (.l1 2) exL1 (by simp)) rfl none exTab
    ![26, 20] exTabLabels true true P hP exTab_positive none (some [0, 0]) (by simp) (by
      rintro g hg
      cases hg
      exact ⟨rfl, by simp⟩) false
  exact ⟨c, hc, C88_zero_start _ _ rfl none _ _ _ _ _ _ _ _ _ [0, 0] rfl (by simp) c hc⟩

/-! ## C89: practical fits without random effects -/

/-- **C89**: every practical SR3 `fit` of a model without random effects returns the start, that is `initial_parameters`
or ones, whatever the data and regularizer are (unless the initializer is "EM"). -/
theorem C89_no_random_effects (M : LmeModelCfg) (hinit : M.initializer ≠ some "EM") (s : LmeSr3Cfg) (hs : M.sr3 = some s)
    (hpr : s.practical = true) (st : LmeState) (x : Matrix (Fin N) (Fin k) ℝ)
    (y : Vec ℝ N) (labels : List String) (ffi fri : Bool) (hq : randomCount labels fri = 0)
    (columns mustFe mustRe : Option (List String)) (a : LmeFitArgs) (c : LmeCoef)
    (h : lmeFit M st x y (some labels) ffi fri columns mustFe mustRe a = (.ok (), some c)) :
    c.beta = a.beta.getD (List.replicate (fixedCount labels ffi) 1) := by
  obtain ⟨P, c', vec, L0, hP, hc, hcore⟩ := lmeFit_ok h
  cases hc
  obtain ⟨_, _, _, _, -, -, -, -, -, -, -, -, -, -, hPe⟩ := lmeFromXY_ok x (some y) columns labels ffi fri mustFe mustRe P hP
  have hF := numFixed_eq P ffi fri (by rw [hPe])
  have hR := numRandom_eq P ffi fri (by rw [hPe])
  have hcl : P.columnLabels = labels := by rw [hPe]
  rw [hcl, ← fixedCount_eq] at hF
  rw [hcl, ← randomCount_eq, hq] at hR
  obtain ⟨m, Pr, w, base, D, beta, gamma, us, per, -, -, -, hbase, -, hb, hgm, hopt, -, -, rfl⟩ := lmeFitCore_ok hcore
  have hst : (lmeStart st P a).1 = a.beta.getD (List.replicate P.numFixed 1) := by
    unfold lmeStart
    simp only [sklearnCheckTruth, Bool.and_false, Bool.false_eq_true, if_false]
    cases st <;> rfl
  rw [hst, asVec_ok] at hb
  have hbeta : xBeta vec = beta := by
    unfold lmeOptimize at hopt
    simp only [hs, hpr, if_true] at hopt
    obtain ⟨bg, hbg, hopt⟩ := ebind_ok.1 hopt
    unfold lmeInitialize at hbg
    rw [if_neg hinit] at hbg
    cases hbg
    obtain ⟨⟨⟨x', L'⟩, o'⟩, hr, hopt⟩ := ebind_ok.1 hopt
    cases hopt
    unfold fakeOptimize at hr
    obtain ⟨x1, s1, h1, hr1⟩ := bind_ok.1 hr
    obtain ⟨L1, s2, -, hr2⟩ := bind_ok.1 hr1
    obtain ⟨L2, s3, -, hr3⟩ := bind_ok.1 hr2
    cases hr3
    simp only at h1
    unfold lmeSr3FindOptimal lmeFindIp at h1
    rw [if_pos hR, xBeta_join] at h1
    cases h2 : lmeSr3OptimalBeta D ⟨s.ell, s.ell⟩ (xGamma (joinX beta gamma)) beta with
    | error e => rw [h2] at h1; cases h1
    | ok b =>
      rw [h2] at h1
      cases h1
      exact xBeta_join _ _
  rw [hbeta, ← hF]
  exact hb

/-- C89 on a table without random effects: the coefficient of the example table stays one. -/
example : ∃ c, lmeFit (exModel (some (exSr3 true)) 100 (.l1 2)) none exTab ![26, 20] (some ["group", "fixed", "fixed", "variance"]) false false
    none none none {} = (.ok (), some c) ∧ c.beta = [1, 1] := by
  have hP : ∃ P, lmeFromXY exTab (some ![26, 20]) none ["group", "fixed", "fixed", "variance"] false false none none = .ok P := by
    refine lmeFromXY_succeeds exTab (some ![26, 20]) none ["group", "fixed", "fixed", "variance"] false false none none 0 3 (by decide) (by decide) rfl (by decide)
      (by simp) ?_ ?_ (.inl rfl) (by simp) _ _ rfl rfl
    · intro r; fin_cases r <;> simp [exTab]
    · intro r; fin_cases r
      · exact ⟨1, by simp [exTab]⟩
      · exact ⟨0, by simp [exTab]⟩
  obtain ⟨P, hP⟩ := hP
  obtain ⟨c, hc, -⟩ := C83_fit_returns _ (exModel_robust (some (exSr3 true)) (by
      intro s hs
      cases hs
      exact ⟨by norm_num [exSr3], rfl⟩) 100 (.l1 2) exL1 (by simp)) rfl none exTab
    ![26, 20] ["group", "fixed", "fixed", "variance"] false false P hP (by
      intro v hv r
      fin_cases v
      · exact absurd hv (by decide)
      · exact absurd hv (by decide)
      · exact absurd hv (by decide)
      · fin_cases r <;> simp [exTab]) none none (by simp) (by simp) false
  exact ⟨c, hc, C89_no_random_effects _ (by simp [exModel]) _ rfl rfl none _ _ _ _ _ (by decide) _ _ _ _ c hc⟩

end Verif
