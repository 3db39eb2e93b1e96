import Verif.Props.LmeConstraints
import Verif.Props.LmeNewton
import Verif.Props.LmeValue
import Verif.Props.LmeFlip

/-!
# C83: fitting a mixed-effects model always returns
-/

open Matrix

namespace Verif

/-! ## The solver on an invariant set -/

section Solver

variable {K : Type} [Field K] [LinearOrder K] [IsStrictOrderedRing K] [FloorSemiring K] {n : ℕ} {σ : Type}

/-- What an oracle and a regularizer must satisfy for the solver to return: they evaluate on a set of points which
contains all prox outputs with steps of a set, for oracle states satisfying an invariant. -/
structure PgdSafe (o : Oracle K n σ) (R : Regularizer K n) (S : Vec K n → Prop) (I : σ → Prop) (T : K → Prop) : Prop where
  value : ∀ x s, S x → I s → ∃ v s', o.value x s = .ok (v, s') ∧ I s'
  grad : ∀ x s, S x → I s → ∃ v s', o.grad x s = .ok (v, s') ∧ I s'
  reg : ∀ x, S x → ∃ v, R.value x = .ok v
  prox : ∀ y t, 0 < t → T t → ∃ z, R.prox y t = .ok z ∧ S z

variable {o : Oracle K n σ} {R : Regularizer K n} {S : Vec K n → Prop} {I : σ → Prop} {T : K → Prop}

theorem PgdSafe.logBlock (h : PgdSafe o R S I T) {L : Logger (PyVal K n)} (hL : L.Good) {x : Vec K n} (hx : S x)
    (vars : String → Option (PyVal K n)) {s : σ} (hs : I s) :
    ∃ L' s', logBlock o R L x vars s = .ok (L', s') ∧ L'.Good ∧ L'.keys = L.keys ∧ I s' := by
  unfold Verif.logBlock
  by_cases hl : "loss" ∈ L.keys
  · simp only [hl, if_true]
    obtain ⟨f, s', hs', hi⟩ := h.value x s hx hs
    obtain ⟨g, hg⟩ := h.reg x hx
    have hpos : L.keys.length > 0 := List.length_pos_of_mem hl
    simp only [hpos, if_true]
    obtain ⟨L', h1, h2, h3, h4⟩ := hL.log fun k => if k = "loss" then some (PyVal.num ((f : WithTop K) + g)) else vars k
    refine ⟨L', s', ?_, h2, h3, hi⟩
    refine bind_ok.2 ⟨some (PyVal.num ((f : WithTop K) + g)), s', ?_, callReg_ok.2 ⟨h1, rfl⟩⟩
    refine bind_ok.2 ⟨(f : WithTop K) + g, s', ?_, rfl⟩
    exact bind_ok.2 ⟨f, s', hs', bind_ok.2 ⟨g, s', callReg_ok.2 ⟨hg, rfl⟩, rfl⟩⟩
  · simp only [hl, if_false]
    split_ifs with hpos
    · obtain ⟨L', h1, h2, h3, h4⟩ := hL.log fun k => if k = "loss" then none else vars k
      exact ⟨L', s, bind_ok.2 ⟨none, s, rfl, callReg_ok.2 ⟨h1, rfl⟩⟩, h2, h3, hs⟩
    · exact ⟨L, s, bind_ok.2 ⟨none, s, rfl, rfl⟩, hL, rfl, hs⟩

theorem PgdSafe.lineSearch (h : PgdSafe o R S I T) {x : Vec K n} (hx : S x) (d : Vec K n) (hT : ∀ t, T t → T (t * (1 / 2)))
    (step : K) (h0 : 0 < step) (h1 : T step) (s : σ) (hs : I s) :
    ∃ t s', lineSearch o R x d step s = .ok (t, s') ∧ 0 < t ∧ T t ∧ I s' := by
  induction step using lineSearch.induct (K := K) generalizing s with
  | case1 step hstep ih =>
    rw [Verif.lineSearch, dif_pos hstep]
    obtain ⟨z, hz, hzS⟩ := h.prox (x + step • d) step h0 h1
    obtain ⟨fz, s1, e1, i1⟩ := h.value z s hzS hs
    obtain ⟨fx, s2, e2, i2⟩ := h.value x s1 hx i1
    by_cases hacc : Accept fz fx x d z step
    · exact ⟨step, s2, bind_ok.2 ⟨z, s, callReg_ok.2 ⟨hz, rfl⟩, bind_ok.2 ⟨_, s1, e1, bind_ok.2 ⟨_, s2, e2, by
        rw [if_pos hacc]; rfl⟩⟩⟩, h0, h1, i2⟩
    · obtain ⟨t, s', hh, ht⟩ := ih (by positivity) (hT _ h1) s2 i2
      exact ⟨t, s', bind_ok.2 ⟨z, s, callReg_ok.2 ⟨hz, rfl⟩, bind_ok.2 ⟨_, s1, e1, bind_ok.2 ⟨_, s2, e2, by
        rw [if_neg hacc]; exact hh⟩⟩⟩, ht⟩
  | case2 step hstep =>
    rw [Verif.lineSearch, dif_neg hstep]
    exact ⟨step, s, rfl, h0, h1, hs⟩

/-- The solver returns, in the set, with the same keys logged. -/
theorem PgdSafe.optimize {cfg : PGDCfg K} (hpos : 0 < cfg.fixedStepLen) (h : PgdSafe o R S I T) (hT0 : T cfg.fixedStepLen)
    (hT : cfg.stepping = "line-search" → ∀ t, T t → T (t * (1 / 2)))
    {x0 : Vec K n} (hx0 : S x0) {L : Logger (PyVal K n)} (hL : L.Good) {s : σ} (hs : I s) :
    ∃ x Lf s', pgdOptimize o R cfg x0 L s = .ok ((x, Lf), s') ∧ S x ∧ I s' ∧ Lf.Good ∧
      (∀ key ∈ Lf.keys, key ∈ L.keys ∨ key = "converged" ∨ key = "iteration") ∧ ∀ key ∈ L.keys, key ∈ Lf.keys := by
  have hloop : ∀ (x : Vec K n) (xprev : Option (Vec K n)) (it : ℕ) (L : Logger (PyVal K n)), L.Good → S x → ∀ s, I s →
      ∃ r s', pgdLoop o R cfg x0 x xprev it L s = .ok (r, s') ∧ r.2.2.Good ∧ r.2.2.keys = L.keys ∧ S r.1 ∧ I s' := by
    intro x xprev it L
    induction x, xprev, it, L using pgdLoop.induct (cfg := cfg) with
    | case1 x xprev it L hgd ih =>
      intro hL hx s hs
      rw [pgdLoop, dif_pos hgd]
      obtain ⟨gr, s1, h1, i1⟩ := h.grad x s hx hs
      have hst : ∃ t s2, chooseStep o R cfg x (-gr) s1 = .ok (t, s2) ∧ 0 < t ∧ T t ∧ I s2 := by
        unfold chooseStep
        split_ifs with hls
        · exact h.lineSearch hx _ (hT hls) _ hpos hT0 _ i1
        · exact ⟨_, _, rfl, hpos, hT0, i1⟩
      obtain ⟨t, s2, h2, ht0, ht1, i2⟩ := hst
      obtain ⟨x', hx', hS'⟩ := h.prox (x + t • -gr) t ht0 ht1
      obtain ⟨L', s3, h3, hL', hk, i3⟩ := h.logBlock hL hS'
        (localsIter x0 x (-gr) (x + t • -gr) x' t (it + 1)) i2
      have hb : pgdBody o R cfg x0 x it L s = .ok ((x', L'), s3) := by
        unfold pgdBody
        exact bind_ok.2 ⟨_, s1, h1, bind_ok.2 ⟨t, s2, h2, bind_ok.2 ⟨x', s2, callReg_ok.2 ⟨hx', rfl⟩,
          bind_ok.2 ⟨L', s3, h3, rfl⟩⟩⟩⟩
      obtain ⟨r, s', hr, hrg, hrk, hrS, hrI⟩ := ih (x', L') hL' hS' s3 i3
      exact ⟨r, s', bind_ok.2 ⟨_, _, hb, hr⟩, hrg, hrk.trans hk, hrS, hrI⟩
    | case2 x xprev it L hgd =>
      intro hL hx s hs
      rw [pgdLoop, dif_neg hgd]
      exact ⟨_, s, rfl, hL, rfl, hx, hs⟩
  obtain ⟨L0, s0, h0, hL0, hk0, i0⟩ := h.logBlock hL hx0 (localsInit x0) hs
  obtain ⟨r, s1, h1, hr, hrk, hrS, hrI⟩ := hloop x0 none 0 L0 hL0 hx0 s0 i0
  obtain ⟨L1, h2, hL1, hk1, _⟩ := hr.add "converged" (.atom (.bool (decide ((r.2.1 : ℤ) < cfg.maxIter))))
  obtain ⟨L2, h3, hL2, hk2, _⟩ := hL1.add "iteration" (.atom (.int r.2.1))
  refine ⟨r.1, L2, s1, ?_, hrS, hrI, hL2, ?_, ?_⟩
  · unfold pgdOptimize
    exact bind_ok.2 ⟨L0, s0, h0, bind_ok.2 ⟨r, s1, h1, bind_ok.2 ⟨L1, s1, callReg_ok.2 ⟨h2, rfl⟩,
      bind_ok.2 ⟨L2, s1, callReg_ok.2 ⟨h3, rfl⟩, rfl⟩⟩⟩⟩
  · have step : ∀ {key a : String} {l : List String}, key ∈ (if a ∈ l then l else l ++ [a]) → key ∈ l ∨ key = a := by
      intro key a l hk
      split_ifs at hk
      · exact .inl hk
      · simpa using hk
    intro key hkey
    rw [hk2] at hkey
    rcases step hkey with hkey | rfl
    · rw [hk1] at hkey
      rcases step hkey with hkey | rfl
      · rw [hrk, hk0] at hkey
        exact .inl hkey
      · exact .inr (.inl rfl)
    · exact .inr (.inr rfl)
  · have step : ∀ {key a : String} {l : List String}, key ∈ l → key ∈ (if a ∈ l then l else l ++ [a]) := by
      intro key a l hk
      split_ifs
      · exact hk
      · exact List.mem_append_left _ hk
    intro key hkey
    rw [hk2]
    apply step
    rw [hk1]
    apply step
    rw [hrk, hk0]
    exact hkey

/-- With no iteration allowed the start is returned. -/
theorem pgdOptimize_no_iterations {cfg : PGDCfg K} (hm : cfg.maxIter ≤ 0) {x0 x : Vec K n} {L Lf : Logger (PyVal K n)}
    {s s' : σ} (h : pgdOptimize o R cfg x0 L s = .ok ((x, Lf), s')) : x = x0 := by
  unfold pgdOptimize at h
  obtain ⟨L0, s0, -, h⟩ := bind_ok.1 h
  obtain ⟨r, s1, h1, h⟩ := bind_ok.1 h
  obtain ⟨L1, s2, -, h⟩ := bind_ok.1 h
  obtain ⟨L2, s3, -, h⟩ := bind_ok.1 h
  obtain ⟨h, -⟩ := pure_ok.1 h
  rw [pgdLoop, dif_neg (by rintro ⟨-, h⟩; simp at h; omega)] at h1
  obtain ⟨h1, -⟩ := pure_ok.1 h1
  cases h
  rw [← h1]

end Solver

variable {N k p q : ℕ}

/-! ## Regularizers -/

/-- The steps for which the prox of SCAD never divides by zero. -/
def LmeReg.StepOk (eps step : ℝ) : LmeReg → Prop
  | .scad rho _ lam => step / (1 + step * eps) * lam ≠ rho - 1
  | _ => True

theorem LmeReg.build_ok {r : LmeReg} (hr : r.Admissible) (m : List ℤ) (w : Vec ℝ (p + q)) :
    ∃ base, r.build p q m w = .ok base := by
  cases r with
  | dummy => exact ⟨_, rfl⟩
  | l0 nb ng sort => exact ⟨_, rfl⟩
  | l1 lam => exact ⟨_, rfl⟩
  | cad rho lam => exact ⟨_, rfl⟩
  | scad rho sigma lam =>
    unfold LmeReg.build scadInit
    simp only
    rw [if_pos hr.1]
    exact ⟨_, rfl⟩

theorem wrapReg_value {r : LmeReg} (hr : r.Admissible) {m : List ℤ} {w : Vec ℝ (p + q)} {base : Regularizer ℝ (p + q)}
    (h : r.build p q m w = .ok base) (eps : ℝ) (x : Vec ℝ (p + q)) : ∃ v, (wrapReg p q eps base).value x = .ok v := by
  have hb : ∃ v, base.value x = .ok v := by
    cases r with
    | dummy => cases h; exact ⟨_, rfl⟩
    | l0 nb ng sort =>
      cases h
      by_cases hc : ((nnzCount x : ℕ) : ℤ) > nb.getD p + ng.getD q
      · exact ⟨_, if_pos hc⟩
      · exact ⟨_, if_neg hc⟩
    | l1 lam => cases h; exact ⟨_, rfl⟩
    | cad rho lam => cases h; exact ⟨_, rfl⟩
    | scad rho sigma lam =>
      unfold LmeReg.build scadInit at h
      simp only at h
      rw [if_pos hr.1] at h
      cases h
      exact ⟨_, rfl⟩
  obtain ⟨v, hv⟩ := hb
  unfold wrapReg positiveQuadrant elastic
  simp only [hv]
  exact ⟨_, rfl⟩

/-- Weights that are covered: nonnegative, for the SCAD penalty 0 or 1 (other weights can hit the division by zero in its prox). -/
def LmeReg.WeightOk (r : LmeReg) (v : ℝ) : Prop := 0 ≤ v ∧ ∀ rho sigma lam, r = .scad rho sigma lam → v = 0 ∨ v = 1

theorem LmeReg.weightOk_of {r : LmeReg} {v : ℝ} (h : v = 0 ∨ v = 1) : r.WeightOk v :=
  ⟨by rcases h with h | h <;> rw [h] <;> norm_num, fun _ _ _ _ => h⟩

/-- The prox of the wrapped regularizer evaluates and gives nonnegative variances. -/
theorem wrapReg_prox {r : LmeReg} (hr : r.Admissible) {m : List ℤ} {w : Vec ℝ (p + q)} (hw : ∀ i, r.WeightOk (w i))
    {base : Regularizer ℝ (p + q)} (h : r.build p q m w = .ok base) {eps : ℝ} (heps : 0 ≤ eps)
    (x : Vec ℝ (p + q)) {t : ℝ} (ht : 0 < t) (hstep : r.StepOk eps t) :
    ∃ z, (wrapReg p q eps base).prox x t = .ok z ∧ ∀ j, 0 ≤ xGamma z j := by
  obtain ⟨al, hal⟩ : ∃ al, al = t / (1 + t * eps) := ⟨_, rfl⟩
  have hb : ∀ y, ∃ z, base.prox y al = .ok z := by
    intro y
    cases r with
    | dummy => cases h; exact ⟨_, rfl⟩
    | l0 nb ng sort =>
      cases h
      obtain ⟨z, hz, -⟩ := C14_l0lme_budget_hierarchy (nb.getD p) (ng.getD q) false (fun i => mapEntry q m i)
        ⟨xBeta w, xGamma w, sort.sub p (xBeta w), sort.sub q (xGamma w)⟩ (sort.all p) y al
      exact ⟨z, hz⟩
    | l1 lam => cases h; exact ⟨_, rfl⟩
    | cad rho lam => cases h; exact ⟨_, rfl⟩
    | scad rho sigma lam =>
      unfold LmeReg.build scadInit at h
      simp only at h
      rw [if_pos hr.1] at h
      cases h
      have : ∀ i, ∃ z, scadProx1 rho sigma (w i) (al * lam * w i) (y i) = .ok z := by
        intro i
        have hlt : al * lam ≠ rho - 1 := by
          rw [hal]; exact hstep
        unfold scadProx1
        split_ifs with e1 e2 e3 e4
        · exact ⟨_, rfl⟩
        · exact ⟨_, rfl⟩
        · rcases (hw i).2 rho sigma lam rfl with hw | hw
          · exact absurd hw e1
          · rw [hw, mul_one] at e4
            exact absurd (by linarith) hlt
        · exact ⟨_, rfl⟩
        · exact ⟨_, rfl⟩
      choose z hz using this
      exact ⟨z, (collect_ok_iff _ z).2 hz⟩
  obtain ⟨z, hz⟩ := hb fun i => (if positiveMask p q i = true then clip0 (x i) else x i) / (1 + t * eps)
  have hz' : (wrapReg p q eps base).prox x t = .ok z := by
    unfold wrapReg positiveQuadrant elastic
    simp only
    rw [← hal]
    exact hz
  refine ⟨z, hz', ?_⟩
  exact (C09_positive_quadrant _ (by
    rintro r' hr'
    cases hr'
    exact .elastic _ heps (LmeReg.build_lib hr (fun i => (hw i).1) h)) _ _ _ ht.le hz').1

/-! ## Oracles -/

theorem reKernel_posDef' (g : LmeGroup p q) (gamma : Vec ℝ q) (hl : ∀ i, 0 < g.l i) (hg : ∀ j, 0 ≤ gamma j) :
    (reKernel g gamma).PosDef := by
  classical
  unfold reKernel
  refine Matrix.PosDef.add_posSemidef ?_ ?_
  · have : ∀ j : LmeMask gamma, 0 < 1 / gamma j.1 := fun j => by
      have h1 : 1e-10 < |gamma j.1| := j.2
      rw [abs_of_nonneg (hg j.1)] at h1
      exact one_div_pos.2 (lt_trans (by norm_num) h1)
    convert! PosDef.diagonal this
  · have h1 := (PosSemidef.diagonal (n := Fin g.n) (d := fun i => 1 / g.l i)
      (fun i => one_div_nonneg.2 (hl i).le)).conjTranspose_mul_mul_same (g.zMasked gamma)
    simpa [conjTranspose_eq_transpose_of_trivial] using h1

theorem lmeRandomEffects_total {D : List (LmeGroup p q)} (hD : PosVar D) (beta : Vec ℝ p) {gamma : Vec ℝ q}
    (hg : ∀ j, 0 ≤ gamma j) : ∃ us, lmeRandomEffects D beta gamma = .ok us :=
  ⟨_, lmeRandomEffects_ok.2 ⟨inDomain_of_nonneg hD hg, fun g hgD =>
    (Matrix.isUnit_iff_isUnit_det _).1 (reKernel_posDef' g gamma (hD g hgD) hg).isUnit, rfl⟩⟩

theorem lmeOracle_value_total {D : List (LmeGroup p q)} (hD : PosVar D) (Pr : LmeInstPrior ℝ p q) {x : Vec ℝ (p + q)}
    (hx : ∀ j, 0 ≤ xGamma x j) : ∃ v, (lmeOracle D Pr).value x () = .ok (v, ()) := by
  obtain ⟨l, hl⟩ : ∃ l, lmeLoss D Pr (xBeta x) (xGamma x) = .ok l :=
    ⟨_, lmeLoss_ok.2 ⟨inDomain_of_nonneg hD hx, rfl⟩⟩
  exact ⟨l, by simp only [lmeOracle, hl]; rfl⟩

theorem lmeOracle_grad_total {D : List (LmeGroup p q)} (hD : PosVar D) (Pr : LmeInstPrior ℝ p q) {x : Vec ℝ (p + q)}
    (hx : ∀ j, 0 ≤ xGamma x j) : ∃ v, (lmeOracle D Pr).grad x () = .ok (v, ()) := by
  obtain ⟨gb, hb⟩ : ∃ l, lmeGradientBeta D Pr (xBeta x) (xGamma x) = .ok l :=
    ⟨_, lmeGradientBeta_ok.2 ⟨inDomain_of_nonneg hD hx, rfl⟩⟩
  obtain ⟨gg, hg⟩ : ∃ l, lmeGradientGamma D Pr (xBeta x) (xGamma x) = .ok l :=
    ⟨_, lmeGradientGamma_ok.2 ⟨inDomain_of_nonneg hD hx, rfl⟩⟩
  exact ⟨joinX gb gg, by simp only [lmeOracle, hb, hg]; rfl⟩

/-- Invariant of the attributes of the SR3 oracle. -/
def IpOracle.Safe (o : IpOracle p q) : Prop :=
  0 < o.S.lb ∧ 0 ≤ o.S.lg ∧ ∀ bg, o.warm = some bg → ∀ j, 0 ≤ bg.2 j

theorem IpOracle.Safe.start {o : IpOracle p q} (h : o.Safe) (c : IpCfg p q) (beta : Vec ℝ p) {gamma : Vec ℝ q}
    (hg : ∀ j, 0 ≤ gamma j) : ∀ j, 0 ≤ (ipStart c o beta gamma).2 j := by
  unfold ipStart
  split_ifs
  · cases hw : o.warm with
    | none => exact hg
    | some bg => exact h.2.2 bg hw
  · exact hg

theorem lmeFindIp_total {D : List (LmeGroup p q)} (hD : PosVar D) {P : LmeInstPrior ℝ p q} (hP : P.Reachable)
    {c : IpCfg p q} (hc : c.Default) {o : IpOracle p q} (ho : o.Safe) (beta tbeta : Vec ℝ p)
    {gamma : Vec ℝ q} (tgamma : Vec ℝ q) (hg : ∀ j, 0 ≤ gamma j) :
    ∃ r o', lmeFindIp D P c o beta gamma tbeta tgamma = .ok (r, o') ∧ (∀ j, 0 ≤ r.gamma j) ∧ o'.Safe := by
  obtain ⟨r, o', h, hr, h1, h2, h3⟩ := C81_inner_solver_total D hD P hP c hc o ho.1 ho.2.1 beta tbeta gamma tgamma
    (ho.start c beta hg)
  refine ⟨r, o', h, hr, h1, h2, ?_⟩
  unfold lmeFindIp at h
  by_cases hq : q = 0
  · subst hq
    exact fun bg _ j => j.elim0
  · rw [if_neg hq] at h
    obtain ⟨s, -, h⟩ := ebind_ok.1 h
    cases h
    intro bg hbg
    simp only at hbg
    split_ifs at hbg
    · cases hbg; exact hr
    · exact ho.2.2 bg hbg

theorem lmeSr3Oracle_value_total {D : List (LmeGroup p q)} (hD : PosVar D) {P : LmeInstPrior ℝ p q} (hP : P.Reachable)
    {c : IpCfg p q} (hc : c.Default) {o : IpOracle p q} (ho : o.Safe) {x : Vec ℝ (p + q)} (hx : ∀ j, 0 ≤ xGamma x j) :
    ∃ v o', (lmeSr3Oracle D P c).value x o = .ok (v, o') ∧ o'.Safe := by
  obtain ⟨r, o', h, hr, ho'⟩ := lmeFindIp_total hD hP hc ho ((2 : ℝ) • xBeta x) (xBeta x) (gamma := (2 : ℝ) • xGamma x)
    (xGamma x) (fun j => mul_nonneg (by norm_num) (hx j))
  have hv := lmeSr3Loss_ok (P := P) (S := o'.S) (beta := r.beta) (tbeta := r.tbeta) (tgamma := r.tgamma)
    (inDomain_of_nonneg hD hr)
  exact ⟨_, o', ebind_ok.2 ⟨(r, o'), h, ebind_ok.2 ⟨_, hv, rfl⟩⟩, ho'⟩

theorem lmeSr3Oracle_grad_total {D : List (LmeGroup p q)} (hD : PosVar D) {P : LmeInstPrior ℝ p q} (hP : P.Reachable)
    {c : IpCfg p q} (hc : c.Default) {o : IpOracle p q} (ho : o.Safe) {x : Vec ℝ (p + q)} (hx : ∀ j, 0 ≤ xGamma x j) :
    ∃ v o', (lmeSr3Oracle D P c).grad x o = .ok (v, o') ∧ o'.Safe := by
  obtain ⟨r, o', h, hr, ho'⟩ := lmeFindIp_total hD hP hc ho ((2 : ℝ) • xBeta x) (xBeta x) (gamma := (2 : ℝ) • xGamma x)
    (xGamma x) (fun j => mul_nonneg (by norm_num) (hx j))
  exact ⟨joinX (-(o'.S.lb • (r.beta - xBeta x))) (-(o'.S.lg • (r.gamma - xGamma x))), o', by
    simp only [lmeSr3Oracle, lmeSr3GradientValueFunction, h]; rfl, ho'⟩

/-- The relaxed variances returned by the practical solver are those given or come from the prox. -/
theorem lmeFindIp_tgamma {D : List (LmeGroup p q)} {P : LmeInstPrior ℝ p q} {c : IpCfg p q} {o o' : IpOracle p q}
    {beta tbeta : Vec ℝ p} {gamma tgamma : Vec ℝ q} {r : IpResult p q} (Q : Vec ℝ p × Vec ℝ q → Prop)
    (h0 : Q (tbeta, tgamma)) (hprox : ∀ prox, c.reg = some prox → ∀ x t, prox c.proxStepLen x = .ok t → Q t)
    (h : lmeFindIp D P c o beta gamma tbeta tgamma = .ok (r, o')) : Q (r.tbeta, r.tgamma) := by
  unfold lmeFindIp at h
  by_cases hq : q = 0
  · rw [if_pos hq] at h
    obtain ⟨b, -, h⟩ := ebind_ok.1 h
    cases h
    exact h0
  · rw [if_neg hq] at h
    obtain ⟨s, hs, h⟩ := ebind_ok.1 h
    cases h
    refine ipLoop_inv D P c (fun s => Q (s.tbeta, s.tgamma)) ?_ _ _ s rfl h0 hs
    intro a F a' ha _ _ hstep
    obtain ⟨dF, d, step, -, -, -, -, -, -, -, -, k⟩ := ipStep_ok hstep
    change Q (a'.tbeta, a'.tgamma)
    rcases k with ⟨-, k1, k2, -, -⟩ | ⟨-, k1, -⟩
    · rw [k1, k2]; exact ha
    · unfold ipProx at k1
      split at k1
      · rename_i prox hreg
        split_ifs at k1
        · exact hprox prox hreg _ _ k1
        · rw [← Except.ok.inj k1]
          exact ha
      · rw [← Except.ok.inj k1]
        exact ha

/-! ## The fit -/

/-- The steps with which the solver of a model may call the prox: `FakePGDSolver` uses 1, `PGDSolver` the step of the
model or, in a line search, halves of it. -/
def LmeModelCfg.UsedStep (M : LmeModelCfg) (t : ℝ) : Prop :=
  match M.sr3 with
  | some s => if s.practical = true then t = 1 else
      if M.stepping = "line-search" then ∃ n : ℕ, t = M.step * (1 / 2) ^ n else t = M.step
  | none => if M.stepping = "line-search" then ∃ n : ℕ, t = M.step * (1 / 2) ^ n else t = M.step

/-- Hyperparameters with which the solver cannot fail: documented ranges, a tuple of different logger keys, the default (positive-part) Hessian for
SR3 models, and for SCAD steps at which its prox does not divide by zero. -/
structure LmeModelCfg.Sturdy (M : LmeModelCfg) : Prop where
  adm : M.Admissible
  kind : M.loggerKind = .tuple
  keys : M.loggerKeys.Nodup
  sr3 : ∀ s, M.sr3 = some s → 0 < s.ell ∧ s.takeOnlyPositivePart = true
  scad : ∀ t, M.UsedStep t → M.reg.StepOk M.elasticEps t

/-- Hyperparameters with which a fit cannot fail on any data: the EM initializer (which solves for the fixed
effects) for SR3 models only, logger keys without the conditional criterion (which needs an identified model) and, for models that are not SR3, without
the flip probabilities (which need an invertible Hessian). -/
structure LmeModelCfg.Robust (M : LmeModelCfg) : Prop extends M.Sturdy where
  init : M.initializer = some "EM" → M.sr3 ≠ none
  vaida : "vaida_aic" ∉ M.loggerKeys
  flip : "flip_probabilities_beta" ∈ M.loggerKeys → M.sr3 ≠ none

theorem hT0 (M : LmeModelCfg) : if M.stepping = "line-search" then ∃ n : ℕ, M.step = M.step * (1 / 2) ^ n else M.step = M.step := by
  split_ifs
  · exact ⟨0, by simp⟩
  · rfl

theorem hT1 (M : LmeModelCfg) : M.stepping = "line-search" → ∀ t : ℝ,
    (if M.stepping = "line-search" then ∃ n : ℕ, t = M.step * (1 / 2) ^ n else t = M.step) →
    if M.stepping = "line-search" then ∃ n : ℕ, t * (1 / 2) = M.step * (1 / 2) ^ n else t * (1 / 2) = M.step := by
  intro h t ht
  rw [if_pos h] at ht ⊢
  obtain ⟨n, rfl⟩ := ht
  exact ⟨n + 1, by rw [pow_succ, mul_assoc]⟩

theorem lmeOptimize_total {M : LmeModelCfg} (hM : M.Sturdy) {D : List (LmeGroup p q)} (hD : PosVar D) {m : List ℤ}
    {w : Vec ℝ (p + q)} (hw : ∀ i, M.reg.WeightOk (w i)) {base : Regularizer ℝ (p + q)} (hbase : M.reg.build p q m w = .ok base)
    {Pr : LmeInstPrior ℝ p q} (hPr : Pr.Reachable) (beta : Vec ℝ p) {gamma : Vec ℝ q} (hg : ∀ j, 0 ≤ gamma j)
    (hinit : M.initializer = some "EM" → M.sr3 = none → ∃ b, lmeOptimalBeta D gamma = .ok b) :
    ∃ x L, lmeOptimize M D Pr (wrapReg p q M.elasticEps base) beta gamma = .ok (x, L) ∧
      (∀ j, 0 ≤ xGamma x j) ∧ L.Good ∧ (∀ key ∈ L.keys, key ∈ M.loggerKeys ∨ key = "converged" ∨ key = "iteration") ∧
        ∀ key ∈ M.loggerKeys, key ∈ L.keys := by
  have hgood : (Logger.init M.loggerKind M.loggerKeys : Logger (PyVal ℝ (p + q))).Good := by
    rw [hM.kind]; exact Logger.good_init _ hM.keys
  obtain ⟨beta', gamma', hi0, hi1, hg'⟩ : ∃ (beta' : Vec ℝ p) (gamma' : Vec ℝ q),
      (M.sr3 = none → lmeInitialize M.initializer D (fun g _ => lmeOptimalBeta D g) beta gamma = .ok (beta', gamma')) ∧
      (∀ s, M.sr3 = some s → lmeInitialize M.initializer D (fun g b => lmeSr3OptimalBeta D ⟨s.ell, s.ell⟩ g b) beta gamma =
        .ok (beta', gamma')) ∧ ∀ j, 0 ≤ gamma' j := by
    by_cases hem : M.initializer = some "EM"
    · obtain ⟨b, hb0, hb1⟩ : ∃ b, (M.sr3 = none → lmeOptimalBeta D gamma = .ok b) ∧
          ∀ s, M.sr3 = some s → lmeSr3OptimalBeta D ⟨s.ell, s.ell⟩ gamma beta = .ok b := by
        cases hs : M.sr3 with
        | none =>
          obtain ⟨b, hb⟩ := hinit hem hs
          exact ⟨b, fun _ => hb, fun s h => by cases h⟩
        | some s =>
          obtain ⟨b, hb, -⟩ := (C58_optimal_beta_partial D gamma (inDomain_of_nonneg hD hg)).2 ⟨s.ell, s.ell⟩ beta gamma (hM.sr3 s hs).1
          exact ⟨b, (fun h => by cases h), fun s' h => by cases h; exact hb⟩
      obtain ⟨us, hus⟩ := lmeRandomEffects_total hD b hg
      refine ⟨b, fun j => (us.map fun u => u j ^ 2).sum / D.length, fun h => ?_, fun s' hs' => ?_, fun j => ?_⟩
      · unfold lmeInitialize
        rw [if_pos hem]
        exact ebind_ok.2 ⟨b, hb0 h, ebind_ok.2 ⟨us, hus, rfl⟩⟩
      · unfold lmeInitialize
        rw [if_pos hem]
        exact ebind_ok.2 ⟨b, hb1 s' hs', ebind_ok.2 ⟨us, hus, rfl⟩⟩
      · refine div_nonneg (List.sum_nonneg fun v hv => ?_) (Nat.cast_nonneg _)
        obtain ⟨u, -, rfl⟩ := List.mem_map.1 hv
        exact sq_nonneg _
    · have : ∀ ob, lmeInitialize M.initializer D ob beta gamma = .ok (beta, gamma) := by
        intro ob
        unfold lmeInitialize
        rw [if_neg hem]
      exact ⟨beta, gamma, fun _ => this _, fun _ _ => this _, hg⟩
  have hjoin : ∀ j, 0 ≤ xGamma (joinX beta' gamma') j := by
    intro j
    unfold xGamma joinX
    rw [Fin.append_right]
    exact hg' j
  unfold lmeOptimize
  simp only
  split
  · rename_i hs
    have hscad := hM.scad
    unfold LmeModelCfg.UsedStep at hscad
    simp only [hs] at hscad
    have hsafe : PgdSafe (lmeOracle D Pr) (wrapReg p q M.elasticEps base) (fun x => ∀ j, 0 ≤ xGamma x j)
        (fun _ => True) (fun t => if M.stepping = "line-search" then ∃ n : ℕ, t = M.step * (1 / 2) ^ n else t = M.step) := by
      refine ⟨fun x s hx _ => ?_, fun x s hx _ => ?_, fun x _ => wrapReg_value hM.adm.reg hbase _ x, fun y t h0 h1 =>
        wrapReg_prox hM.adm.reg hw hbase hM.adm.eps y h0 (hscad t h1)⟩
      · obtain ⟨v, hv⟩ := lmeOracle_value_total hD Pr hx
        exact ⟨v, (), hv, trivial⟩
      · obtain ⟨v, hv⟩ := lmeOracle_grad_total hD Pr hx
        exact ⟨v, (), hv, trivial⟩
    obtain ⟨x, Lf, s', hopt, hx, -, hLf, hk⟩ := hsafe.optimize (cfg := M.solver) hM.adm.step_pos (hT0 M) (hT1 M) hjoin hgood (s := ()) trivial
    refine ⟨x, Lf, ?_, hx, hLf, hk⟩
    rw [hi0 hs]
    exact ebind_ok.2 ⟨_, rfl, ebind_ok.2 ⟨_, hopt, rfl⟩⟩
  · rename_i s hs
    have hscad := hM.scad
    unfold LmeModelCfg.UsedStep at hscad
    simp only [hs] at hscad
    obtain ⟨hell, hflag⟩ := hM.sr3 s hs
    have hkind : (s.ip p q).kind = .positivePart := by
      unfold LmeSr3Cfg.ip HessKind.ofFlags
      rw [hflag]
      rfl
    have hip : (s.ip p q).Default := ⟨hkind, rfl, fun prox h => by cases h⟩
    have ho : (⟨⟨s.ell, s.ell⟩, none⟩ : IpOracle p q).Safe := ⟨hell, hell.le, fun bg h => by cases h⟩
    rw [hi1 s hs]
    by_cases hpr : s.practical = true
    · simp only [hpr, if_true] at hscad ⊢
      have hprox : ∀ x : Vec ℝ p × Vec ℝ q, ∃ t : Vec ℝ p × Vec ℝ q,
          ((wrapReg p q M.elasticEps base).prox (joinX x.1 x.2) 1).map (fun x => (xBeta x, xGamma x)) = .ok t ∧
            ∀ j, 0 ≤ t.2 j := by
        intro x
        obtain ⟨z, hz, hz0⟩ := wrapReg_prox hM.adm.reg hw hbase hM.adm.eps (joinX x.1 x.2) one_pos (hscad 1 rfl)
        exact ⟨(xBeta z, xGamma z), by rw [hz]; rfl, hz0⟩
      have hipp : (s.ipPractical (wrapReg p q M.elasticEps base)).Default :=
        ⟨hkind, rfl, fun prox h x => by cases h; exact (hprox x).imp fun t ht => ht.1⟩
      obtain ⟨r, o', h, hr, ho'⟩ := lmeFindIp_total hD (P := Pr) hPr hipp ho ((2 : ℝ) • xBeta (joinX beta' gamma'))
        (xBeta (joinX beta' gamma')) (gamma := (2 : ℝ) • xGamma (joinX beta' gamma')) (xGamma (joinX beta' gamma'))
        (fun j => mul_nonneg (by norm_num) (hjoin j))
      have ht : ∀ j, 0 ≤ r.tgamma j := lmeFindIp_tgamma (fun t => ∀ j, 0 ≤ t.2 j) hjoin (by
        intro prox hreg x t hxt
        cases hreg
        obtain ⟨t', ht', hn⟩ := hprox x
        change Except.map _ _ = _ at hxt
        rw [show (s.ipPractical (wrapReg p q M.elasticEps base)).proxStepLen = 1 from rfl, ht'] at hxt
        cases hxt
        exact hn) h
      have hx : ∀ j, 0 ≤ xGamma (joinX r.tbeta r.tgamma) j := by
        intro j
        unfold xGamma joinX
        rw [Fin.append_right]
        exact ht j
      have hfind : (lmeSr3FindOptimal D Pr (s.ipPractical (wrapReg p q M.elasticEps base))
          ⟨⟨s.ell, s.ell⟩, none⟩ (xBeta (joinX beta' gamma')) (xGamma (joinX beta' gamma'))).map
            (fun r => (joinX r.1.1 r.1.2, r.2)) = .ok (joinX r.tbeta r.tgamma, o') := by
        unfold lmeSr3FindOptimal
        rw [h]
        rfl
      have hlog : ∃ L1 s1, ((if "loss" ∈ M.loggerKeys then do
            let l ← lossAt (lmeSr3Oracle D Pr (s.ip p q)) (wrapReg p q M.elasticEps base) (joinX r.tbeta r.tgamma)
            callReg ((Logger.init M.loggerKind M.loggerKeys : Logger (PyVal ℝ (p + q))).add "loss" (.atom (.num l)))
          else return Logger.init M.loggerKind M.loggerKeys : PyM (IpOracle p q) (Logger (PyVal ℝ (p + q))))) o' = .ok (L1, s1) ∧
          L1.Good ∧ L1.keys = M.loggerKeys := by
        by_cases hl : "loss" ∈ M.loggerKeys
        · simp only [hl, if_true]
          obtain ⟨v, o2, hv, -⟩ := lmeSr3Oracle_value_total hD (P := Pr) hPr hip ho' hx
          obtain ⟨rv, hrv⟩ := wrapReg_value hM.adm.reg hbase M.elasticEps (joinX r.tbeta r.tgamma)
          obtain ⟨L1, e1, e2, e3, -⟩ := hgood.add "loss" (.atom (.num ((v : WithTop ℝ) + rv)))
          refine ⟨L1, o2, bind_ok.2 ⟨_, o2, bind_ok.2 ⟨v, o2, hv, bind_ok.2 ⟨rv, o2, callReg_ok.2 ⟨hrv, rfl⟩, rfl⟩⟩,
            callReg_ok.2 ⟨e1, rfl⟩⟩, e2, ?_⟩
          rw [e3]
          exact if_pos hl
        · simp only [hl, if_false]
          exact ⟨_, _, rfl, hgood, rfl⟩
      obtain ⟨L1, o2, e1, e2, e3⟩ := hlog
      obtain ⟨L2, e4, e5, e6, -⟩ := e2.add "converged" (.atom (.bool true))
      refine ⟨joinX r.tbeta r.tgamma, L2, ?_, hx, e5, ?_, ?_⟩
      · refine ebind_ok.2 ⟨_, rfl, ebind_ok.2 ⟨((joinX r.tbeta r.tgamma, L2), o2), ?_, rfl⟩⟩
        unfold fakeOptimize
        exact bind_ok.2 ⟨_, o', hfind, bind_ok.2 ⟨L1, o2, e1, bind_ok.2 ⟨L2, o2, callReg_ok.2 ⟨e4, rfl⟩, rfl⟩⟩⟩
      · intro key hkey
        rw [e6, e3] at hkey
        split_ifs at hkey
        · exact .inl hkey
        · rcases List.mem_append.1 hkey with h | h
          · exact .inl h
          · exact .inr (.inl (by simpa using h))
      · intro key hkey
        rw [e6, e3]
        split_ifs
        · exact hkey
        · exact List.mem_append_left _ hkey
    · simp only [if_neg hpr] at hscad
      have hsafe : PgdSafe (lmeSr3Oracle D Pr (s.ip p q)) (wrapReg p q M.elasticEps base)
          (fun x => ∀ j, 0 ≤ xGamma x j) IpOracle.Safe
          (fun t => if M.stepping = "line-search" then ∃ n : ℕ, t = M.step * (1 / 2) ^ n else t = M.step) :=
        ⟨fun x s hx hs => lmeSr3Oracle_value_total hD (P := Pr) hPr hip hs hx,
          fun x s hx hs => lmeSr3Oracle_grad_total hD (P := Pr) hPr hip hs hx,
          fun x _ => wrapReg_value hM.adm.reg hbase _ x,
          fun y t h0 h1 => wrapReg_prox hM.adm.reg hw hbase hM.adm.eps y h0 (hscad t h1)⟩
      obtain ⟨x, Lf, s', hopt, hx, -, hLf, hk⟩ := hsafe.optimize (cfg := M.solver) hM.adm.step_pos (hT0 M) (hT1 M) hjoin hgood ho
      refine ⟨x, Lf, ?_, hx, hLf, hk⟩
      refine ebind_ok.2 ⟨_, rfl, ebind_ok.2 ⟨((x, Lf), s'), ?_, rfl⟩⟩
      rw [if_neg hpr]
      exact hopt

theorem logIf_ok {n : ℕ} {L : Logger (PyVal ℝ n)} (hL : L.Good) (key : String) (v : Except PyErr (PyVal ℝ n))
    (hv : key ∈ L.keys → ∃ r, v = .ok r) : ∃ L', logIf L key v = .ok L' ∧ L'.Good ∧ L'.keys = L.keys := by
  unfold logIf
  by_cases hk : key ∈ L.keys
  · obtain ⟨r, rfl⟩ := hv hk
    obtain ⟨L', h1, h2, h3, -⟩ := hL.add key (.atom r)
    rw [if_pos hk]
    exact ⟨L', h1, h2, by rw [h3, if_pos hk]⟩
  · rw [if_neg hk]
    exact ⟨L, rfl, hL, rfl⟩

theorem criterion_ok {n : ℕ} {v : Except PyErr ℝ} (h : ∃ r, v = .ok r) : ∃ r, (criterion v : Except PyErr (PyVal ℝ n)) = .ok r := by
  obtain ⟨r, rfl⟩ := h
  exact ⟨_, rfl⟩

theorem lmeLogCriteria_total {n : ℕ} (tol : ℝ) {D : List (LmeGroup p q)} (hD : PosVar D) (Pr : LmeInstPrior ℝ p q)
    (hess : Except PyErr (Matrix (Fin p) (Fin p) ℝ)) (beta : Vec ℝ p) {gamma : Vec ℝ q} (hg : ∀ j, 0 ≤ gamma j)
    {L : Logger (PyVal ℝ n)} (hL : L.Good)
    (hv : "vaida_aic" ∈ L.keys → ∃ r, lmeVaida D Pr (Real.sqrt tol) false beta gamma = .ok r)
    (hf : "flip_probabilities_beta" ∈ L.keys → ∃ r, lmeFlipProbabilities hess beta = .ok r) :
    ∃ L', lmeLogCriteria tol D Pr hess beta gamma L = .ok L' ∧ L'.keys = L.keys := by
  have hd := inDomain_of_nonneg hD hg
  obtain ⟨L1, h1, g1, k1⟩ := logIf_ok hL "vaida_aic" (criterion (lmeVaida D Pr (Real.sqrt tol) false beta gamma))
    fun h => criterion_ok (hv h)
  obtain ⟨L2, h2, g2, k2⟩ := logIf_ok g1 "vaida_aic_marginalized" (criterion (lmeVaida D Pr (Real.sqrt tol) true beta gamma))
    fun _ => criterion_ok ⟨_, lmeVaida_marg_eq hd _ _⟩
  obtain ⟨L3, h3, g3, k3⟩ := logIf_ok g2 "jones_bic" (criterion (lmeJonesBic D Pr (Real.sqrt tol) beta gamma))
    fun _ => criterion_ok ⟨_, lmeJonesBic_eq hd _ _⟩
  obtain ⟨L4, h4, g4, k4⟩ := logIf_ok g3 "muller_ic" (criterion (lmeMullerHui D Pr (Real.sqrt tol) beta gamma))
    fun _ => criterion_ok ⟨_, lmeMullerHui_eq hd _ _⟩
  obtain ⟨L5, h5, g5, k5⟩ := logIf_ok g4 "flip_probabilities_beta"
    ((lmeFlipProbabilities hess beta).map fun v => .arr (List.ofFn v)) fun h => by
      rw [k4, k3, k2, k1] at h
      obtain ⟨r, hr⟩ := hf h
      rw [hr]
      exact ⟨_, rfl⟩
  exact ⟨L5, ebind_ok.2 ⟨L1, h1, ebind_ok.2 ⟨L2, h2, ebind_ok.2 ⟨L3, h3, ebind_ok.2 ⟨L4, h4, h5⟩⟩⟩⟩,
    by rw [k5, k4, k3, k2, k1]⟩

theorem gauss_cast_cast {n m : ℕ} (h : n = m) (h' : n = m) (b : GaussState ℝ n) : b = h.symm ▸ (h' ▸ b) := by
  subst h
  rfl

/-- The prior a fit attaches to the oracle comes from a successful instantiation. -/
theorem lmePriorFor_reachable {prior : Option (PriorParams ℝ × PriorParams ℝ)} {P : LmeProblem ℝ}
    {Pr : LmeInstPrior ℝ P.numFixed P.numRandom} (h : lmePriorFor prior P = .ok Pr) : Pr.Reachable := by
  have harg : ∀ (params : PriorParams ℝ) (l : List String) (b : Σ n, GaussState ℝ n),
      gaussInstantiateArg params (.names l) = .ok b → ∃ st, gaussInstantiate params l = .ok st ∧ b = ⟨_, st⟩ := by
    intro params l b hb
    unfold gaussInstantiateArg at hb
    simp only at hb
    cases hs : gaussInstantiate params l with
    | error e => rw [hs] at hb; cases hb
    | ok st => rw [hs] at hb; cases hb; exact ⟨st, rfl, rfl⟩
  unfold lmePriorFor at h
  cases prior with
  | none => cases h; trivial
  | some fr =>
    simp only at h
    split at h
    · cases h
    · rename_i st hst
      unfold LmePrior.instantiate at hst
      split at hst
      · rename_i fc rc _ _
        split_ifs at hst with h1
        · cases hst
        · simp only [LmePrior.init] at hst
          split_ifs at hst with h2
          · cases hb : gaussInstantiateArg fr.1 (.names fc) with
            | error e => rw [hb] at hst; cases hst
            | ok b =>
              rw [hb] at hst
              cases hg : gaussInstantiateArg fr.2 (.names rc) with
              | error e => simp only [hg] at hst; cases hst
              | ok g =>
                simp only [hg] at hst
                cases hst
                obtain ⟨b', hb', rfl⟩ := harg _ _ _ hb
                obtain ⟨g', hg', rfl⟩ := harg _ _ _ hg
                simp only at h
                split_ifs at h with h3
                cases h
                refine ⟨⟨fr.1, fc, h3.1, ?_⟩, fr.2, rc, h3.2, ?_⟩
                · rw [hb']
                  exact congrArg _ (gauss_cast_cast h3.1 h3.1 _)
                · rw [hg']
                  exact congrArg _ (gauss_cast_cast h3.2 h3.2 _)
          · cases hst
      · cases hst

/-- `fit_problem` reaches the assignment of `coef_`. -/
theorem lmeFitCore_total_w (M : LmeModelCfg) (hM : M.Sturdy) (st : LmeState) (x : Matrix (Fin N) (Fin k) ℝ) (y : Vec ℝ N)
    (columns : Option (List String)) (labels : List String) (ffi fri : Bool) (mustFe mustRe : Option (List String))
    (P : LmeProblem ℝ) (hP : lmeFromXY x (some y) columns labels ffi fri mustFe mustRe = .ok P)
    (hpos : ∀ v : Fin k, labels[(v : ℕ)]? = some "variance" → ∀ r, 0 < x r v)
    (hprior : ∃ Pr, lmePriorFor M.prior P = .ok Pr) (a : LmeFitArgs)
    (hb0 : ∀ b, a.beta = some b → b.length = fixedCount labels ffi)
    (hg0 : ∀ g, a.gamma = some g → g.length = randomCount labels fri ∧ ∀ v ∈ g, 0 ≤ v)
    (hfe : ∀ w, a.feWeights.getD P.feWeights = w → w.length = fixedCount labels ffi ∧ ∀ v ∈ w, M.reg.WeightOk v)
    (hre : ∀ w, a.reWeights.getD P.reWeights = w → w.length = randomCount labels fri ∧ ∀ v ∈ w, M.reg.WeightOk v)
    (hinit : M.initializer = some "EM" → M.sr3 = none → ∀ (D : List (LmeGroup P.numFixed P.numRandom)) (gamma : Vec ℝ P.numRandom), lmeGroups P = .ok D → PosVar D →
      (∀ j, 0 ≤ gamma j) → ∃ b, lmeOptimalBeta D gamma = .ok b) :
    ∃ (D : List (LmeGroup P.numFixed P.numRandom)) (Pr : LmeInstPrior ℝ P.numFixed P.numRandom) (coef : LmeCoef) (vec : Vec ℝ (P.numFixed + P.numRandom)) (L : Logger (PyVal ℝ (P.numFixed + P.numRandom))),
      lmeGroups P = .ok D ∧ PosVar D ∧ lmePriorFor M.prior P = .ok Pr ∧ Pr.Reachable ∧ lmeFitCore M st P a = .ok (coef, vec, L) ∧
      coef.gamma = List.ofFn (xGamma vec) ∧ (∀ j, 0 ≤ xGamma vec j) ∧ L.Good ∧
      (∀ key ∈ L.keys, key ∈ M.loggerKeys ∨ key = "converged" ∨ key = "iteration") ∧ ∀ key ∈ M.loggerKeys, key ∈ L.keys := by
  obtain ⟨g, v, hg, hv, hgl, hD⟩ := lmeGroups_table hP
  obtain ⟨_, _, feW, reW, -, -, hlen, -, -, -, -, -, hf, hr, hPe⟩ := lmeFromXY_ok x (some y) columns labels ffi fri mustFe mustRe P hP
  have hF := numFixed_eq P ffi fri (by rw [hPe])
  have hR := numRandom_eq P ffi fri (by rw [hPe])
  have hcl : P.columnLabels = labels := by rw [hPe]
  rw [hcl, ← fixedCount_eq] at hF
  rw [hcl, ← randomCount_eq] at hR
  obtain ⟨D, hDe⟩ : ∃ D, D = (uniqueLabels fun r => x r g).map (tableGroup x y labels ffi fri g v P.numFixed P.numRandom) :=
    ⟨_, rfl⟩
  rw [← hDe] at hD
  have hvl : labels[(v : ℕ)]? = some "variance" := by
    have : v ∈ labelIdx (p := k) labels (fun l => decide (l = VARIANCE)) := by rw [hv]; simp
    rw [mem_labelIdx] at this
    have hlt : (v : ℕ) < labels.length := by omega
    rw [List.getElem?_eq_getElem hlt]
    simpa [List.getD_eq_getElem?_getD, List.getElem?_eq_getElem hlt, VARIANCE] using this
  have hDpos : PosVar D := by
    intro gr hgr i
    rw [hDe] at hgr
    obtain ⟨l, -, rfl⟩ := List.mem_map.1 hgr
    exact hpos v hvl _
  obtain ⟨_, _, m, -, -, -, -, -, -, -, -, hm, -⟩ :=
    C62_beta_to_gamma_map x (some y) columns labels ffi fri mustFe mustRe P hP
  obtain ⟨hfl, hf01⟩ := hfe _ rfl
  obtain ⟨hrl, hr01⟩ := hre _ rfl
  obtain ⟨w, hwd, hw01⟩ : ∃ w, M.reg.weights P.numFixed P.numRandom
      (a.feWeights.getD P.feWeights ++ a.reWeights.getD P.reWeights) = .ok w ∧ ∀ i, M.reg.WeightOk (w i) := by
    obtain ⟨w, hw, h⟩ := M.reg.weights_ok (p := P.numFixed) (q := P.numRandom)
      (ws := a.feWeights.getD P.feWeights ++ a.reWeights.getD P.reWeights) (by rw [List.length_append, hfl, hrl, hF, hR])
    refine ⟨w, hw, fun i => ?_⟩
    rcases h with ⟨-, rfl⟩ | h
    · exact LmeReg.weightOk_of (.inl rfl)
    · have hmem : w i ∈ a.feWeights.getD P.feWeights ++ a.reWeights.getD P.reWeights := h ▸ List.mem_ofFn.2 ⟨i, rfl⟩
      rcases List.mem_append.1 hmem with h | h
      · exact hf01 _ h
      · exact hr01 _ h
  have hstart : lmeStart st P a = (a.beta.getD (List.replicate P.numFixed 1), a.gamma.getD (List.replicate P.numRandom 1)) := by
    unfold lmeStart
    simp only [sklearnCheckTruth, Bool.and_false, Bool.false_eq_true, if_false]
    cases st <;> rfl
  have hbeta : ∃ b, asVec P.numFixed (lmeStart st P a).1 = .ok b := by
    unfold asVec
    rw [dif_pos]
    · exact ⟨_, rfl⟩
    · rw [hstart]
      cases h : a.beta with
      | none => simp
      | some b => simpa [hF] using hb0 b h
  have hgamma : ∃ c, asVec P.numRandom (lmeStart st P a).2 = .ok c ∧ ∀ j, 0 ≤ c j := by
    have h1 : (lmeStart st P a).2.length = P.numRandom ∧ ∀ v ∈ (lmeStart st P a).2, 0 ≤ v := by
      rw [hstart]
      cases h : a.gamma with
      | none =>
        refine ⟨by simp, fun v hv => ?_⟩
        have h1 : v = 1 := List.eq_of_mem_replicate (n := P.numRandom) hv
        rw [h1]
        norm_num
      | some b =>
        obtain ⟨e1, e2⟩ := hg0 b h
        exact ⟨by simpa [hR] using e1, fun v hv => e2 v (by simpa using hv)⟩
    unfold asVec
    rw [dif_pos h1.1]
    exact ⟨_, rfl, fun j => h1.2 _ (List.getElem_mem _)⟩
  obtain ⟨b, hb⟩ := hbeta
  obtain ⟨c, hc, hc0⟩ := hgamma
  obtain ⟨base, hbase⟩ := LmeReg.build_ok (p := P.numFixed) (q := P.numRandom) hM.adm.reg m w
  obtain ⟨Pr, hprior⟩ := hprior
  have hPr := lmePriorFor_reachable hprior
  obtain ⟨vec, L, hopt, hvec, hL, hkeys, hkeys'⟩ := lmeOptimize_total hM hDpos hw01 hbase hPr b hc0 (fun h1 h2 => hinit h1 h2 D c hD hDpos hc0)
  obtain ⟨us, hus⟩ := lmeRandomEffects_total hDpos (xBeta vec) hvec
  have hcount : (P.interceptLabel.getD "" :: P.columnLabels).countP isFixed = P.numFixed ∧
      (P.interceptLabel.getD "" :: P.columnLabels).countP isRandom = P.numRandom := by
    rw [hF, hR, fixedCount_eq, randomCount_eq, hcl]
    have hi : P.interceptLabel = interceptLabelOf ffi fri := by rw [hPe]
    rw [hi, List.countP_cons, List.countP_cons]
    cases ffi <;> cases fri <;> refine ⟨?_, ?_⟩ <;> rfl
  have hper : ∃ per, getPerGroupCoefficients (List.ofFn (xBeta vec)) (us.map fun u => ((), List.ofFn u))
      (P.interceptLabel.getD "" :: P.columnLabels) = .ok per := by
    have eF : (fun l : String => decide (l = "fixed" ∨ l = "fixed+random")) = isFixed := by funext l; simp [isFixed, FIXED, FIXED_RANDOM]
    have eR : (fun l : String => decide (l = "random" ∨ l = "fixed+random")) = isRandom := by funext l; simp [isRandom, RANDOM, FIXED_RANDOM]
    obtain ⟨per, hper, -⟩ := C50_per_group (List.ofFn (xBeta vec)) (us.map fun u => ((), List.ofFn u))
      (P.interceptLabel.getD "" :: P.columnLabels) (by rw [eF, hcount.1]; simp) (by
        intro lu hlu
        obtain ⟨u, -, rfl⟩ := List.mem_map.1 hlu
        rw [eR, hcount.2]
        simp)
    exact ⟨per, hper⟩
  obtain ⟨per, hper⟩ := hper
  have hcore : lmeFitCore M st P a = .ok (⟨List.ofFn (xBeta vec), List.ofFn (xGamma vec), us.map (fun u => List.ofFn u),
      P.groupLabels, per.map (·.2)⟩, vec, L) := by
    unfold lmeFitCore
    exact ebind_ok.2 ⟨m, hm, ebind_ok.2 ⟨_, hprior, ebind_ok.2 ⟨w, hwd, ebind_ok.2 ⟨base, hbase, ebind_ok.2 ⟨D, hD,
      ebind_ok.2 ⟨b, hb, ebind_ok.2 ⟨c, hc, ebind_ok.2 ⟨(vec, L), hopt, ebind_ok.2 ⟨us, hus, ebind_ok.2 ⟨per, hper, rfl⟩⟩⟩⟩⟩⟩⟩⟩⟩⟩
  exact ⟨D, Pr, _, vec, L, hD, hDpos, hprior, hPr, hcore, rfl, hvec, hL, hkeys, hkeys'⟩

/-- `fit_problem` reaches the assignment of `coef_`, weights 0 and 1. -/
theorem lmeFitCore_total (M : LmeModelCfg) (hM : M.Sturdy) (st : LmeState) (x : Matrix (Fin N) (Fin k) ℝ) (y : Vec ℝ N)
    (columns : Option (List String)) (labels : List String) (ffi fri : Bool) (mustFe mustRe : Option (List String))
    (P : LmeProblem ℝ) (hP : lmeFromXY x (some y) columns labels ffi fri mustFe mustRe = .ok P)
    (hpos : ∀ v : Fin k, labels[(v : ℕ)]? = some "variance" → ∀ r, 0 < x r v)
    (hprior : ∃ Pr, lmePriorFor M.prior P = .ok Pr) (a : LmeFitArgs)
    (hb0 : ∀ b, a.beta = some b → b.length = fixedCount labels ffi)
    (hg0 : ∀ g, a.gamma = some g → g.length = randomCount labels fri ∧ ∀ v ∈ g, 0 ≤ v)
    (hfe : ∀ w, a.feWeights.getD P.feWeights = w → w.length = fixedCount labels ffi ∧ ∀ v ∈ w, v = 0 ∨ v = 1)
    (hre : ∀ w, a.reWeights.getD P.reWeights = w → w.length = randomCount labels fri ∧ ∀ v ∈ w, v = 0 ∨ v = 1)
    (hinit : M.initializer = some "EM" → M.sr3 = none → ∀ (D : List (LmeGroup P.numFixed P.numRandom)) (gamma : Vec ℝ P.numRandom), lmeGroups P = .ok D → PosVar D →
      (∀ j, 0 ≤ gamma j) → ∃ b, lmeOptimalBeta D gamma = .ok b) :
    ∃ (D : List (LmeGroup P.numFixed P.numRandom)) (Pr : LmeInstPrior ℝ P.numFixed P.numRandom) (coef : LmeCoef) (vec : Vec ℝ (P.numFixed + P.numRandom)) (L : Logger (PyVal ℝ (P.numFixed + P.numRandom))),
      lmeGroups P = .ok D ∧ PosVar D ∧ lmePriorFor M.prior P = .ok Pr ∧ Pr.Reachable ∧ lmeFitCore M st P a = .ok (coef, vec, L) ∧
      coef.gamma = List.ofFn (xGamma vec) ∧ (∀ j, 0 ≤ xGamma vec j) ∧ L.Good ∧
      (∀ key ∈ L.keys, key ∈ M.loggerKeys ∨ key = "converged" ∨ key = "iteration") ∧ ∀ key ∈ M.loggerKeys, key ∈ L.keys :=
  lmeFitCore_total_w M hM st x y columns labels ffi fri mustFe mustRe P hP hpos hprior a hb0 hg0
    (fun w hw => ⟨(hfe w hw).1, fun v hv => LmeReg.weightOk_of ((hfe w hw).2 v hv)⟩)
    (fun w hw => ⟨(hre w hw).1, fun v hv => LmeReg.weightOk_of ((hre w hw).2 v hv)⟩) hinit

/-- **C83**: `fit_problem` always returns. For every table accepted by `from_x_y` with positive observation variances,
every prior that fits the problem, every plain or SR3 model, practical or not, with documented hyperparameters (see
`Robust`), every regularizer, and every start and weights of the right sizes with nonnegative variances and weights (0 and
1 for the SCAD penalty), `fit_problem` raises no exception, the coefficients have a logger with all the requested keys, and the fitted
variances are nonnegative. -/
theorem C83_fit_problem_returns_weights (M : LmeModelCfg) (hM : M.Robust) (st : LmeState) (x : Matrix (Fin N) (Fin k) ℝ) (y : Vec ℝ N)
    (columns : Option (List String)) (labels : List String) (ffi fri : Bool) (mustFe mustRe : Option (List String))
    (P : LmeProblem ℝ) (hP : lmeFromXY x (some y) columns labels ffi fri mustFe mustRe = .ok P)
    (hpos : ∀ v : Fin k, labels[(v : ℕ)]? = some "variance" → ∀ r, 0 < x r v)
    (hprior : ∃ Pr, lmePriorFor M.prior P = .ok Pr) (a : LmeFitArgs)
    (hb0 : ∀ b, a.beta = some b → b.length = fixedCount labels ffi)
    (hg0 : ∀ g, a.gamma = some g → g.length = randomCount labels fri ∧ ∀ v ∈ g, 0 ≤ v)
    (hfe : ∀ w, a.feWeights.getD P.feWeights = w → w.length = fixedCount labels ffi ∧ ∀ v ∈ w, M.reg.WeightOk v)
    (hre : ∀ w, a.reWeights.getD P.reWeights = w → w.length = randomCount labels fri ∧ ∀ v ∈ w, M.reg.WeightOk v) :
    ∃ L c, lmeFitProblem M st P a = (.ok L, some c) ∧ (∀ v ∈ c.gamma, 0 ≤ v) ∧ ∀ key ∈ M.loggerKeys, key ∈ L.keys := by
  obtain ⟨D, Pr, coef, vec, L, hD, hDpos, hprior, hPr, hcore, hcg, hvec, hL, hkeys, hkeys'⟩ := lmeFitCore_total_w M hM.toSturdy st x y columns labels ffi fri mustFe mustRe P hP hpos hprior a hb0 hg0 hfe hre
    fun h1 h2 => absurd h2 (hM.init h1)
  obtain ⟨L', hL', hLk⟩ := lmeLogCriteria_total M.solverTol hDpos Pr (M.hessian D Pr (xGamma vec)) (xBeta vec) hvec hL (by
    intro h
    rcases hkeys _ h with h | h | h
    · exact absurd h hM.vaida
    · exact absurd h (by decide)
    · exact absurd h (by decide)) (by
    intro h
    have hk : "flip_probabilities_beta" ∈ M.loggerKeys := by
      rcases hkeys _ h with h | h | h
      · exact h
      · exact absurd h (by decide)
      · exact absurd h (by decide)
    obtain ⟨s, hs⟩ := Option.ne_none_iff_exists'.1 (hM.flip hk)
    unfold LmeModelCfg.hessian
    rw [hs]
    exact ⟨_, sr3_flip_ok hPr (inDomain_of_nonneg hDpos hvec) (hM.sr3 s hs).1 (xBeta vec)⟩)
  have hfit : lmeFitProblem M st P a = (.ok L', some coef) := by
    unfold lmeFitProblem
    rw [hcore]
    simp only [Prod.mk.injEq, and_true]
    exact ebind_ok.2 ⟨D, hD, ebind_ok.2 ⟨_, hprior, hL'⟩⟩
  refine ⟨L', _, hfit, fun v hv => ?_, fun key hkey => by rw [hLk]; exact hkeys' key hkey⟩
  rw [hcg] at hv
  simp only [List.mem_ofFn] at hv
  obtain ⟨j, rfl⟩ := hv
  exact hvec j

/-- **C83** for weights 0 and 1. -/
theorem C83_fit_problem_returns (M : LmeModelCfg) (hM : M.Robust) (st : LmeState) (x : Matrix (Fin N) (Fin k) ℝ) (y : Vec ℝ N)
    (columns : Option (List String)) (labels : List String) (ffi fri : Bool) (mustFe mustRe : Option (List String))
    (P : LmeProblem ℝ) (hP : lmeFromXY x (some y) columns labels ffi fri mustFe mustRe = .ok P)
    (hpos : ∀ v : Fin k, labels[(v : ℕ)]? = some "variance" → ∀ r, 0 < x r v)
    (hprior : ∃ Pr, lmePriorFor M.prior P = .ok Pr) (a : LmeFitArgs)
    (hb0 : ∀ b, a.beta = some b → b.length = fixedCount labels ffi)
    (hg0 : ∀ g, a.gamma = some g → g.length = randomCount labels fri ∧ ∀ v ∈ g, 0 ≤ v)
    (hfe : ∀ w, a.feWeights.getD P.feWeights = w → w.length = fixedCount labels ffi ∧ ∀ v ∈ w, v = 0 ∨ v = 1)
    (hre : ∀ w, a.reWeights.getD P.reWeights = w → w.length = randomCount labels fri ∧ ∀ v ∈ w, v = 0 ∨ v = 1) :
    ∃ L c, lmeFitProblem M st P a = (.ok L, some c) ∧ (∀ v ∈ c.gamma, 0 ≤ v) ∧ ∀ key ∈ M.loggerKeys, key ∈ L.keys :=
  C83_fit_problem_returns_weights M hM st x y columns labels ffi fri mustFe mustRe P hP hpos hprior a hb0 hg0
    (fun w hw => ⟨(hfe w hw).1, fun v hv => LmeReg.weightOk_of ((hfe w hw).2 v hv)⟩)
    (fun w hw => ⟨(hre w hw).1, fun v hv => LmeReg.weightOk_of ((hre w hw).2 v hv)⟩)

/-- **C83**: `fit` always returns, with default weights. -/
theorem C83_fit_returns (M : LmeModelCfg) (hM : M.Robust) (hprior : M.prior = none) (st : LmeState)
    (x : Matrix (Fin N) (Fin k) ℝ) (y : Vec ℝ N)
    (labels : List String) (ffi fri : Bool) (P : LmeProblem ℝ)
    (hP : lmeFromXY x (some y) none labels ffi fri none none = .ok P)
    (hpos : ∀ v : Fin k, labels[(v : ℕ)]? = some "variance" → ∀ r, 0 < x r v)
    (beta0 gamma0 : Option (List ℝ)) (hb0 : ∀ b, beta0 = some b → b.length = fixedCount labels ffi)
    (hg0 : ∀ g, gamma0 = some g → g.length = randomCount labels fri ∧ ∀ v ∈ g, 0 ≤ v) (warm : Bool) :
    ∃ c, lmeFit M st x y (some labels) ffi fri none none none ⟨beta0, gamma0, warm, none, none⟩ = (.ok (), some c) ∧
      ∀ v ∈ c.gamma, 0 ≤ v := by
  obtain ⟨_, _, feW, reW, -, -, hlen, -, -, -, -, -, hf, hr, hPe⟩ := lmeFromXY_ok x (some y) none labels ffi fri none none P hP
  have hones : ∀ (n m : ℕ), n = m → ∀ w : List ℝ, List.replicate n 1 = w → w.length = m ∧ ∀ v ∈ w, v = 0 ∨ v = 1 := by
    rintro n _ rfl w rfl
    exact ⟨by simp, fun v hv => .inr (List.eq_of_mem_replicate hv)⟩
  obtain ⟨L, c, h1, h2, -⟩ := C83_fit_problem_returns M hM st x y none labels ffi fri none none P hP hpos
    ⟨.nonInformative, by rw [hprior]; rfl⟩ ⟨beta0, gamma0, warm, none, none⟩ hb0 hg0 (by
      have e : P.feWeights = feW := by rw [hPe]
      rw [e]
      cases hf
      exact hones _ _ (by rw [fixedCount_eq, labelIdx_length labels hlen])) (by
      have e : P.reWeights = reW := by rw [hPe]
      rw [e]
      cases hr
      exact hones _ _ (by rw [randomCount_eq, labelIdx_length labels hlen]))
  refine ⟨c, ?_, h2⟩
  unfold lmeFit
  simp only
  rw [hP]
  simp only
  rw [h1]
  rfl

end Verif
