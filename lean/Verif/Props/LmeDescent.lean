import Verif.Props.LmeLogged
import Verif.Props.Descent

/-!
# C100: the losses logged by a mixed-effects fit do not increase
-/

open Matrix

namespace Verif

/-! ## The solver -/

section Solver

variable {K : Type} [Field K] [LinearOrder K] [IsStrictOrderedRing K] [FloorSemiring K] {n : ℕ} {σ : Type}
variable {o : Oracle K n σ} {R : Regularizer K n}

theorem logBlock_ok {L L' : Logger (PyVal K n)} (hL : L.Good) (hl : "loss" ∈ L.keys) {x : Vec K n}
    {vars : String → Option (PyVal K n)} {s s' : σ} (h : logBlock o R L x vars s = .ok (L', s')) :
    ∃ v s1 r, o.value x s = .ok (v, s1) ∧ R.value x = .ok r ∧ L'.Good ∧ L'.keys = L.keys ∧
      ∀ k, L'.dict k = (L.dict k).map (logEffect (if k = "loss" then some (.num ((v : WithTop K) + r)) else vars k)) := by
  unfold logBlock at h
  simp only [hl, if_true] at h
  have hpos : L.keys.length > 0 := List.length_pos_of_mem hl
  simp only [hpos, if_true] at h
  obtain ⟨ol, s1, h1, h2⟩ := bind_ok.1 h
  obtain ⟨l, s2, h3, h4⟩ := bind_ok.1 h1
  obtain ⟨he, rfl⟩ := pure_ok.1 h4
  subst he
  unfold lossAt at h3
  obtain ⟨v, s3, hv, h3⟩ := bind_ok.1 h3
  obtain ⟨r, s4, hr, h3⟩ := bind_ok.1 h3
  obtain ⟨he, rfl⟩ := pure_ok.1 h3
  subst he
  obtain ⟨hr', rfl⟩ := callReg_ok.1 hr
  obtain ⟨hlog, rfl⟩ := callReg_ok.1 h2
  obtain ⟨L2, e1, e2, e3, e4⟩ := hL.log fun k => if k = "loss" then some (PyVal.num ((v : WithTop K) + r)) else vars k
  rw [e1] at hlog
  cases hlog
  exact ⟨v, _, r, hv, hr', e2, e3, e4⟩

theorem lineSearch_ok {x d : Vec K n} {step t : K} {s s' : σ} (h : lineSearch o R x d step s = .ok (t, s')) :
    (∃ j : ℕ, t = step * (1 / 2) ^ j) ∧ (t ≤ 1 / 10 ^ 14 ∨ ∃ z fz fx s1 s2 s3 s4, R.prox (x + t • d) t = .ok z ∧
      o.value z s1 = .ok (fz, s2) ∧ o.value x s3 = .ok (fx, s4) ∧ Accept fz fx x d z t) := by
  induction step using lineSearch.induct (K := K) generalizing s with
  | case1 step hstep ih =>
    rw [lineSearch, dif_pos hstep] at h
    obtain ⟨z, s1, hz, h1⟩ := bind_ok.1 h
    obtain ⟨fz, s2, hfz, h2⟩ := bind_ok.1 h1
    obtain ⟨fx, s3, hfx, h3⟩ := bind_ok.1 h2
    obtain ⟨hz, -⟩ := callReg_ok.1 hz
    by_cases hacc : Accept fz fx x d z step
    · rw [if_pos hacc] at h3
      obtain ⟨rfl, rfl⟩ := pure_ok.1 h3
      exact ⟨⟨0, by simp⟩, .inr ⟨z, fz, fx, _, _, _, _, hz, hfz, hfx, hacc⟩⟩
    · rw [if_neg hacc] at h3
      obtain ⟨⟨j, hj⟩, h⟩ := ih h3
      exact ⟨⟨j + 1, by rw [hj, pow_succ']; ring⟩, h⟩
  | case2 step hstep =>
    rw [lineSearch, dif_neg hstep] at h
    obtain ⟨rfl, rfl⟩ := pure_ok.1 h
    exact ⟨⟨0, by simp⟩, .inl (not_lt.1 hstep)⟩

/-- The first trial step is taken unless the test rejects it. -/
theorem lineSearch_first {x d : Vec K n} {step t : K} {s s' : σ} (h : lineSearch o R x d step s = .ok (t, s')) :
    t = step ∨ ∃ z fz fx s1 s2 s3 s4, R.prox (x + step • d) step = .ok z ∧
      o.value z s1 = .ok (fz, s2) ∧ o.value x s3 = .ok (fx, s4) ∧ ¬ Accept fz fx x d z step := by
  by_cases hstep : step > 1 / 10 ^ 14
  · rw [lineSearch, dif_pos hstep] at h
    obtain ⟨z, s1, hz, h1⟩ := bind_ok.1 h
    obtain ⟨fz, s2, hfz, h2⟩ := bind_ok.1 h1
    obtain ⟨fx, s3, hfx, h3⟩ := bind_ok.1 h2
    obtain ⟨hz, -⟩ := callReg_ok.1 hz
    by_cases hacc : Accept fz fx x d z step
    · rw [if_pos hacc] at h3
      exact .inl (pure_ok.1 h3).1.symm
    · exact .inr ⟨z, fz, fx, _, _, _, _, hz, hfz, hfx, hacc⟩
  · rw [lineSearch, dif_neg hstep] at h
    exact .inl (pure_ok.1 h).1.symm

/-- A run with line search and `"loss"` among the keys: what it visits and logs, and the test passed by every step longer than `1e-14`. -/
theorem pgd_ls (f : Vec K n → K) (hf : ∀ x s v s', o.value x s = .ok (v, s') → v = f x)
    {cfg : PGDCfg K} (hls : cfg.stepping = "line-search") (hpos : 0 < cfg.fixedStepLen)
    {x0 x : Vec K n} {keys : List String} (hk : keys.Nodup) (hl : "loss" ∈ keys)
    {s s' : σ} {Lf : Logger (PyVal K n)} (h : pgdOptimize o R cfg x0 (Logger.init .tuple keys) s = .ok ((x, Lf), s')) :
    ∃ (k : ℕ) (X : ℕ → Vec K n) (g : ℕ → WithTop K) (t : ℕ → K), X 0 = x0 ∧ X k = x ∧
      (∀ i ≤ k, (∃ s1 s2, o.value (X i) s1 = .ok (f (X i), s2)) ∧ R.value (X i) = .ok (g i)) ∧
      Lf.get "loss" = .ok (.list ((List.range (k + 1)).map fun i => PyVal.num ((f (X i) : WithTop K) + g i))) ∧
      ("step_len" ∈ keys → Lf.get "step_len" = .ok (.list ((List.range k).map fun i => PyVal.num (t i : WithTop K)))) ∧
      (∀ i < k, ∃ gr s1 s2, o.grad (X i) s1 = .ok (gr, s2) ∧ (∃ j : ℕ, t i = cfg.fixedStepLen * (1 / 2) ^ j) ∧
        R.prox (fun j => X i j - t i * gr j) (t i) = .ok (X (i + 1)) ∧
        (SufficientDecrease f (-gr) (t i) (X i) (X (i + 1)) ∨ t i ≤ 1 / 10 ^ 14) ∧
        (t i = cfg.fixedStepLen ∨ ∃ z s1 s2, R.prox (fun j => X i j - cfg.fixedStepLen * gr j) cfg.fixedStepLen = .ok z ∧
          o.value z s1 = .ok (f z, s2) ∧ ¬ SufficientDecrease f (-gr) cfg.fixedStepLen (X i) z)) ∧
      (0 < n → 0 < cfg.maxIter → 0 < k) := by
  obtain ⟨k, X, Ls, s1, L1, hl0, h0, hkx, hc, hit, hsteps, hguards, hend⟩ := pgdOptimize_trace o R cfg x0 (Logger.init .tuple keys)
    (fun x L x' L' => ∃ t : K,
      (∃ gr s1 s2, o.grad x s1 = .ok (gr, s2) ∧ (∃ j : ℕ, t = cfg.fixedStepLen * (1 / 2) ^ j) ∧
        R.prox (fun j => x j - t * gr j) t = .ok x' ∧ (SufficientDecrease f (-gr) t x x' ∨ t ≤ 1 / 10 ^ 14) ∧
        (t = cfg.fixedStepLen ∨ ∃ z s1 s2, R.prox (fun j => x j - cfg.fixedStepLen * gr j) cfg.fixedStepLen = .ok z ∧
          o.value z s1 = .ok (f z, s2) ∧ ¬ SufficientDecrease f (-gr) cfg.fixedStepLen x z)) ∧
      (L.Good → "loss" ∈ L.keys → ∃ r, (∃ s1 s2, o.value x' s1 = .ok (f x', s2)) ∧ R.value x' = .ok r ∧ L'.Good ∧ L'.keys = L.keys ∧
        L'.dict "loss" = (L.dict "loss").map (logEffect (some (.num ((f x' : WithTop K) + r)))) ∧
        L'.dict "step_len" = (L.dict "step_len").map (logEffect (some (.num (t : WithTop K))))))
    (fun x it L s x' L' s' hb => by
      obtain ⟨gr, s1, t, s2, hgr, hst, hp, hlog⟩ := pgdBody_ok _ _ _ _ _ _ _ _ _ _ _ hb
      unfold chooseStep at hst
      rw [if_pos hls] at hst
      obtain ⟨⟨j, hj⟩, hor⟩ := lineSearch_ok hst
      have hmv : ∀ t : K, x + t • -gr = fun i => x i - t * gr i := by
        intro t
        funext i
        simp [sub_eq_add_neg]
      refine ⟨t, ⟨gr, _, _, hgr, ⟨j, hj⟩, hp, ?_, ?_⟩, fun hgood hlk => ?_⟩
      · refine hor.symm.imp_left ?_
        rintro ⟨z, fz, fx, a1, a2, a3, a4, hz, hfz, hfx, hacc⟩
        rw [hmv, hp] at hz
        cases hz
        rw [hf _ _ _ _ hfz, hf _ _ _ _ hfx] at hacc
        exact (accept_iff f _ _ _ _).1 hacc
      · refine (lineSearch_first hst).imp_right ?_
        rintro ⟨z, fz, fx, a1, a2, a3, a4, hz, hfz, hfx, hacc⟩
        rw [hmv] at hz
        have e1 := hf _ _ _ _ hfz
        have e2 := hf _ _ _ _ hfx
        subst e1 e2
        exact ⟨z, _, _, hz, hfz, fun h => hacc ((accept_iff f _ _ _ _).2 h)⟩
      · obtain ⟨v, a1, r, hv, hr, e1, e2, e3⟩ := logBlock_ok hgood hlk hlog
        have hvf := hf _ _ _ _ hv
        subst hvf
        refine ⟨r, ⟨_, _, hv⟩, hr, e1, e2, ?_, ?_⟩
        · rw [e3]; simp
        · rw [e3]; simp [localsIter]) s s' x Lf h
  have hgood0 := Logger.good_init (V := PyVal K n) keys hk
  obtain ⟨v0, a1, r0, hv0, hr0, g1, g2, g3⟩ := logBlock_ok hgood0 hl hl0
  have hvf := hf _ _ _ _ hv0
  subst hvf
  choose! t ht using hsteps
  have hinv : ∀ i ≤ k, (Ls i).Good ∧ (Ls i).keys = keys := by
    intro i
    induction i with
    | zero => exact fun _ => ⟨g1, g2⟩
    | succ i ih =>
      intro hi
      obtain ⟨h1, h2⟩ := ih (by omega)
      obtain ⟨r, -, -, h4, h5, -, -⟩ := (ht i (by omega)).2 h1 (by rw [h2]; exact hl)
      exact ⟨h4, h5.trans h2⟩
  have hr : ∀ i, i < k → ∃ r, (∃ s1 s2, o.value (X (i + 1)) s1 = .ok (f (X (i + 1)), s2)) ∧ R.value (X (i + 1)) = .ok r ∧
      (Ls (i + 1)).dict "loss" = ((Ls i).dict "loss").map (logEffect (some (.num ((f (X (i + 1)) : WithTop K) + r)))) ∧
      (Ls (i + 1)).dict "step_len" = ((Ls i).dict "step_len").map (logEffect (some (.num (t i : WithTop K)))) := by
    intro i hi
    obtain ⟨h1, h2⟩ := hinv i hi.le
    obtain ⟨r, a, b, -, -, c, d⟩ := (ht i hi).2 h1 (by rw [h2]; exact hl)
    exact ⟨r, a, b, c, d⟩
  choose! r hr1 hr2 hr3 hr4 using hr
  let g : ℕ → WithTop K := fun i => match i with | 0 => r0 | i + 1 => r i
  have hloss : ∀ i ≤ k, (Ls i).dict "loss" =
      some (.list ((List.range (i + 1)).map fun i => PyVal.num ((f (X i) : WithTop K) + g i))) := by
    intro i
    induction i with
    | zero =>
      intro _
      rw [g3]
      simp [Logger.init, hl, logEffect, h0, List.range_succ, g]
    | succ i ih =>
      intro hi
      rw [hr3 i (by omega), ih (by omega), List.range_succ (n := i + 1)]
      simp [logEffect, g]
  have hstep : "step_len" ∈ keys → ∀ i ≤ k, (Ls i).dict "step_len" =
      some (.list ((List.range i).map fun i => PyVal.num (t i : WithTop K))) := by
    intro hsk i
    induction i with
    | zero =>
      intro _
      rw [g3]
      simp [Logger.init, hsk, logEffect, localsInit]
    | succ i ih =>
      intro hi
      rw [hr4 i (by omega), ih (by omega), List.range_succ]
      simp [logEffect]
  refine ⟨k, X, g, t, h0, hkx, fun i hi => ?_, ?_, fun hsk => ?_, fun i hi => (ht i hi).1, fun hn hm => ?_⟩
  · cases i with
    | zero => rw [h0]; exact ⟨⟨_, _, hv0⟩, hr0⟩
    | succ i => exact ⟨hr1 i (by omega), hr2 i (by omega)⟩
  · rw [(Logger.add_get hit).2 _ (by decide), (Logger.add_get hc).2 _ (by decide), Logger.get, hloss k le_rfl]
  · rw [(Logger.add_get hit).2 _ (by decide), (Logger.add_get hc).2 _ (by decide), Logger.get, hstep hsk k le_rfl]
  · rcases Nat.eq_zero_or_pos k with hk0 | hk0
    · subst hk0
      exact absurd ⟨.inl hn, by simpa using hm⟩ hend
    · exact hk0

/-- With an exact prox of a penalty `G`, a step that increases the objective is at most `1e-14` long. -/
theorem step_descent {f : Vec K n → K} {G : Vec K n → WithTop K} {x gr x' : Vec K n} {t : K} (ht : 0 < t)
    (hG : IsProxOf G t (fun i => x i - t * gr i) x') (h : SufficientDecrease f (-gr) t x x' ∨ t ≤ 1 / 10 ^ 14) :
    (f x' : WithTop K) + G x' ≤ (f x : WithTop K) + G x ∨ t ≤ 1 / 10 ^ 14 := by
  refine h.imp_left fun h => C20_step_descent f G x (-gr) x' t ht ?_ h
  convert hG using 2
  simp [sub_eq_add_neg]

end Solver

/-! ## The prox of the mixed-effects regularizers -/

variable {p q : ℕ}

theorem elastic_exactAt {n : ℕ} (R : Regularizer ℝ n) {eps t : ℝ} (heps : 0 ≤ eps) (ht : 0 < t) (x : Vec ℝ n)
    (hR : R.ExactAt (t / (1 + t * eps)) fun i => x i / (1 + t * eps)) : (elastic eps (some R)).ExactAt t x := by
  have hc : 0 < 1 + t * eps := by positivity
  obtain ⟨g, hg, z, hz, gz, hgz, hmin⟩ := hR
  refine ⟨fun u => ((eps / 2 * normSq u : ℝ) : WithTop ℝ) + g u, fun u => by
      simp [elastic, hg u, bind, Except.bind, pure, Except.pure], z, hz,
    eps / 2 * normSq z + gz, by simp [hgz], fun u gu hu => ?_⟩
  obtain ⟨r, hr⟩ : ∃ r : ℝ, g u = r := by
    cases h : g u with
    | top => simp [h] at hu
    | coe r => exact ⟨r, rfl⟩
  have hgu : eps / 2 * normSq u + r = gu := by
    simp only [hr] at hu; exact_mod_cast hu
  rw [← hgu, elastic_identity _ _ _ _ _ hc.ne', elastic_identity _ _ _ _ _ hc.ne']
  have := mul_le_mul_of_nonneg_left (hmin u r hr) hc.le
  linarith

/-- Penalty plus ridge plus the constraint that the variances are nonnegative. -/
noncomputable def fullPenalty (p q : ℕ) (eps : ℝ) (h : Fin (p + q) → ℝ → ℝ) (u : Vec ℝ (p + q)) : WithTop ℝ := by
  classical exact if ∃ j, xGamma u j < 0 then ⊤ else ((eps / 2 * ∑ i, u i ^ 2 + ∑ i, h i (u i) : ℝ) : WithTop ℝ)

theorem mask_iff (u : Vec ℝ (p + q)) : (∃ i, positiveMask p q i = true ∧ u i < 0) ↔ ∃ j, xGamma u j < 0 := by
  constructor
  · rintro ⟨i, h1, h2⟩
    simp only [positiveMask, decide_eq_true_eq] at h1
    refine ⟨⟨i.1 - p, by have := i.2; omega⟩, ?_⟩
    unfold xGamma
    convert h2 using 2
    ext
    simp
    omega
  · rintro ⟨j, hj⟩
    exact ⟨Fin.natAdd p j, by simp [positiveMask], hj⟩

theorem wrapReg_value_eq {eps : ℝ} {h : Fin (p + q) → ℝ → ℝ} {base : Regularizer ℝ (p + q)}
    (hb : ∀ u, base.value u = .ok ((∑ i, h i (u i) : ℝ) : WithTop ℝ)) (u : Vec ℝ (p + q)) :
    (wrapReg p q eps base).value u = .ok (fullPenalty p q eps h u) := by
  unfold wrapReg positiveQuadrant elastic fullPenalty
  simp only [hb, bind, Except.bind, pure, Except.pure, Except.ok.injEq]
  by_cases hn : ∃ j, xGamma u j < 0
  · rw [if_pos ((mask_iff u).2 hn), if_pos hn]
    simp
  · rw [if_neg fun h => hn ((mask_iff u).1 h), if_neg hn, zero_add]
    simp [normSq]

/-- The prox of the wrapped regularizer minimises penalty plus ridge under the constraint, if the innermost prox
minimises the penalty, which is a sum of even functions that do not decrease away from zero. -/
theorem wrapReg_prox_min {eps t : ℝ} (heps : 0 ≤ eps) (ht : 0 < t) {h : Fin (p + q) → ℝ → ℝ}
    (hmono : ∀ i a b, |a| ≤ |b| → h i a ≤ h i b) {base : Regularizer ℝ (p + q)} {y : Vec ℝ (p + q)}
    (hb : ∃ z, base.prox (fun i => (if positiveMask p q i = true then clip0 (y i) else y i) / (1 + t * eps)) (t / (1 + t * eps)) = .ok z ∧
      IsProxOf (fun u => ((∑ i, h i (u i) : ℝ) : WithTop ℝ)) (t / (1 + t * eps))
        (fun i => (if positiveMask p q i = true then clip0 (y i) else y i) / (1 + t * eps)) z)
    {z : Vec ℝ (p + q)} (hz : (wrapReg p q eps base).prox y t = .ok z) : IsProxOf (fullPenalty p q eps h) t y z := by
  let R : Regularizer ℝ (p + q) := ⟨fun u => .ok ((∑ i, h i (u i) : ℝ) : WithTop ℝ), base.prox⟩
  have hR : (elastic eps (some R)).ExactAt t fun i => if positiveMask p q i = true then clip0 (y i) else y i :=
    elastic_exactAt R heps ht _ ⟨_, fun _ => rfl, hb⟩
  obtain ⟨g, hg, z', hz', hmin⟩ := (C10_positive_quadrant_exact (positiveMask p q) (elastic eps (some R))
    (fun i u => eps / 2 * u ^ 2 + h i u) (fun u => by
      simp [elastic, R, bind, Except.bind, pure, Except.pure, normSq, Finset.sum_add_distrib, Finset.mul_sum])
    (fun i a b hab => by
      have h1 : a ^ 2 ≤ b ^ 2 := sq_le_sq.2 hab
      have h2 := hmono i a b hab
      have := mul_le_mul_of_nonneg_left h1 (by linarith : 0 ≤ eps / 2)
      linarith) t ht.le y hR).1
  have : z' = z := Except.ok.inj (hz'.symm.trans hz)
  subst this
  have hgg : g = fullPenalty p q eps h := by
    funext u
    exact Except.ok.inj ((hg u).symm.trans (wrapReg_value_eq (base := R) (fun _ => rfl) u))
  rw [← hgg]
  exact hmin

/-- The penalty a regularizer with weights `w` stands for (the ones with an exact prox). -/
noncomputable def LmeReg.penalty {n : ℕ} (w : Vec ℝ n) : LmeReg → Fin n → ℝ → ℝ
  | .l1 lam => fun i u => lam * (w i * |u|)
  | .scad rho sigma lam => fun i u => lam * scadTerm rho sigma (w i) u
  | _ => fun _ _ => 0

/-- Regularizers whose prox is exact for all steps up to `step`. -/
def LmeReg.ExactUpTo {n : ℕ} (step : ℝ) (w : Vec ℝ n) : LmeReg → Prop
  | .dummy => True
  | .l1 _ => True
  | .scad rho _ lam => ∀ i, step * lam * w i < rho - 1
  | _ => False

theorem LmeReg.penalty_mono {r : LmeReg} (hr : r.Admissible) {n : ℕ} {w : Vec ℝ n} (hw : ∀ i, 0 ≤ w i) (i : Fin n) (a b : ℝ)
    (h : |a| ≤ |b|) : r.penalty w i a ≤ r.penalty w i b := by
  cases r with
  | l1 lam => exact mul_le_mul_of_nonneg_left (mul_le_mul_of_nonneg_left h (hw i)) hr
  | scad rho sigma lam => exact mul_le_mul_of_nonneg_left (scadTerm_mono _ _ _ hr.1 hr.2.1 (hw i) h) hr.2.2
  | _ => exact le_rfl

theorem LmeReg.base_prox {r : LmeReg} (hr : r.Admissible) {m : List ℤ} {w : Vec ℝ (p + q)} (hw : ∀ i, 0 ≤ w i) {step : ℝ}
    (hx : r.ExactUpTo step w) {base : Regularizer ℝ (p + q)} (hbase : r.build p q m w = .ok base) {a : ℝ} (ha : 0 ≤ a)
    (hle : a ≤ step) (y : Vec ℝ (p + q)) :
    ∃ z, base.prox y a = .ok z ∧ IsProxOf (fun u => ((∑ i, r.penalty w i (u i) : ℝ) : WithTop ℝ)) a y z := by
  cases r with
  | dummy =>
    cases hbase
    refine ⟨y, rfl, 0, by simp [LmeReg.penalty], fun u gu hu => ?_⟩
    have : gu = 0 := by
      simp only [LmeReg.penalty, Finset.sum_const_zero] at hu
      exact (WithTop.coe_inj.1 hu).symm
    subst this
    have : (0 : ℝ) ≤ normSq (u - y) := Finset.sum_nonneg fun i _ => sq_nonneg _
    have h0 : normSq (y - y) = 0 := by simp [normSq]
    rw [h0]
    linarith
  | l1 lam =>
    cases hbase
    obtain ⟨⟨z, hz, hp⟩, -⟩ := C03_l1_prox_unique_min lam w y a hr hw ha
    refine ⟨z, hz, ?_⟩
    have : (fun u : Vec ℝ (p + q) => ((∑ i, (LmeReg.l1 lam).penalty w i (u i) : ℝ) : WithTop ℝ)) = l1Penalty lam w := by
      funext u
      simp [LmeReg.penalty, l1Penalty, Finset.mul_sum]
    rw [this]
    exact hp.isProxOf
  | scad rho sigma lam =>
    unfold LmeReg.build scadInit at hbase
    simp only at hbase
    rw [if_pos hr.1] at hbase
    cases hbase
    obtain ⟨⟨g, hg, z, hz, hp⟩, -⟩ := C06_scad_exact_partial rho sigma lam a (some w) y hr.1 hr.2.1 hr.2.2 ha hw (fun i => by
      refine lt_of_le_of_lt ?_ (hx i)
      exact mul_le_mul_of_nonneg_right (mul_le_mul_of_nonneg_right hle hr.2.2) (hw i))
    refine ⟨z, hz, ?_⟩
    convert hp using 1
    funext u
    have := hg u
    simp only [scadRegularizer, Except.ok.injEq] at this
    rw [← this]
    simp [LmeReg.penalty, weightsOrOnes, Finset.mul_sum]
  | l0 => exact hx.elim
  | cad => exact hx.elim

/-! ## The fit -/

/-- The values of the loss of a mixed-effects oracle, where it has one. -/
noncomputable def lossOrZero (D : List (LmeGroup p q)) (Pr : LmeInstPrior ℝ p q) (x : Vec ℝ (p + q)) : ℝ :=
  match lmeLoss D Pr (xBeta x) (xGamma x) with
  | .ok v => v
  | .error _ => 0

theorem lossOrZero_ok {D : List (LmeGroup p q)} {Pr : LmeInstPrior ℝ p q} {x : Vec ℝ (p + q)} {s s' : Unit} {v : ℝ}
    (h : (lmeOracle D Pr).value x s = .ok (v, s')) :
    v = lossOrZero D Pr x ∧ lmeLoss D Pr (xBeta x) (xGamma x) = .ok v := by
  change (lmeLoss D Pr (xBeta x) (xGamma x)).map _ = _ at h
  unfold lossOrZero
  cases hl : lmeLoss D Pr (xBeta x) (xGamma x) with
  | error e => rw [hl] at h; cases h
  | ok w => rw [hl] at h; cases h; exact ⟨rfl, rfl⟩

/-- What a plain model with line search visits and logs, and the test passed by every step longer than `1e-14`. -/
theorem lme_ls {M : LmeModelCfg} (hM : M.Admissible) (hsr : M.sr3 = none) (hls : M.stepping = "line-search")
    (hkind : M.loggerKind = .tuple) (hk : M.loggerKeys.Nodup) (hloss : "loss" ∈ M.loggerKeys)
    {st : LmeState} {P : LmeProblem ℝ} {a : LmeFitArgs}
    (hw0 : ∀ v ∈ a.feWeights.getD P.feWeights ++ a.reWeights.getD P.reWeights, 0 ≤ v)
    {c : LmeState} {L : Logger (PyVal ℝ (P.numFixed + P.numRandom))} (h : lmeFitProblem M st P a = (.ok L, c)) :
    ∃ (coef : LmeCoef) (D : List (LmeGroup P.numFixed P.numRandom)) (Pr : LmeInstPrior ℝ P.numFixed P.numRandom)
      (w : Vec ℝ (P.numFixed + P.numRandom)) (m : List ℤ) (base : Regularizer ℝ (P.numFixed + P.numRandom))
      (k : ℕ) (X : ℕ → Vec ℝ (P.numFixed + P.numRandom)) (v : ℕ → ℝ) (g : ℕ → WithTop ℝ) (t : ℕ → ℝ),
      c = some coef ∧ betaToGammaMap P = .ok m ∧ (∀ i, 0 ≤ w i) ∧ coef.beta = List.ofFn (xBeta (X k)) ∧ coef.gamma = List.ofFn (xGamma (X k)) ∧
      lmeGroups P = .ok D ∧ lmePriorFor M.prior P = .ok Pr ∧
      M.reg.weights P.numFixed P.numRandom (a.feWeights.getD P.feWeights ++ a.reWeights.getD P.reWeights) = .ok w ∧
      M.reg.build P.numFixed P.numRandom m w = .ok base ∧
      (∀ i ≤ k, lmeLoss D Pr (xBeta (X i)) (xGamma (X i)) = .ok (v i) ∧
        v i = lossOrZero D Pr (X i) ∧ (wrapReg P.numFixed P.numRandom M.elasticEps base).value (X i) = .ok (g i)) ∧
      L.get "loss" = .ok (.list ((List.range (k + 1)).map fun i => PyVal.num ((v i : WithTop ℝ) + g i))) ∧
      ("step_len" ∈ M.loggerKeys → L.get "step_len" = .ok (.list ((List.range k).map fun i => PyVal.num (t i : WithTop ℝ)))) ∧
      (∀ i < k, ∀ j, 0 ≤ xGamma (X (i + 1)) j) ∧
      (M.initializer ≠ some "EM" → ∃ b0 g0, asVec P.numFixed (lmeStart st P a).1 = .ok b0 ∧
        asVec P.numRandom (lmeStart st P a).2 = .ok g0 ∧ X 0 = joinX b0 g0) ∧
      (∀ i < k, ∃ gb gg, lmeGradientBeta D Pr (xBeta (X i)) (xGamma (X i)) = .ok gb ∧ 0 < t i ∧ t i ≤ M.step ∧
        (wrapReg P.numFixed P.numRandom M.elasticEps base).prox (fun j => X i j - t i * joinX gb gg j) (t i) = .ok (X (i + 1)) ∧
        (SufficientDecrease (lossOrZero D Pr) (-joinX gb gg) (t i) (X i) (X (i + 1)) ∨ t i ≤ 1 / 10 ^ 14) ∧
        (t i = M.step ∨ ∃ z, (wrapReg P.numFixed P.numRandom M.elasticEps base).prox (fun j => X i j - M.step * joinX gb gg j) M.step = .ok z ∧
          lmeLoss D Pr (xBeta z) (xGamma z) = .ok (lossOrZero D Pr z) ∧
          ¬ SufficientDecrease (lossOrZero D Pr) (-joinX gb gg) M.step (X i) z)) ∧
      (0 < P.numFixed + P.numRandom → 0 < M.maxIter → 0 < k) := by
  unfold lmeFitProblem at h
  split at h
  · cases h
  rename_i r hr
  obtain ⟨coef, x, L0⟩ := r
  simp only [Prod.mk.injEq] at h
  obtain ⟨h, hc⟩ := h
  obtain ⟨D, hD, h⟩ := ebind_ok.1 h
  obtain ⟨Pr, hPr, h⟩ := ebind_ok.1 h
  obtain ⟨m, Pr', w, base, D', b0, g0, us, per, hm, hPr', hw, hbase, hD', hb0, hg0, hopt, hus, -, hcoef⟩ := lmeFitCore_ok hr
  cases hD.symm.trans hD'
  cases hPr.symm.trans hPr'
  have hwn : ∀ i, 0 ≤ w i := by
    intro i
    rcases LmeReg.weights_mem hw with ⟨-, h0⟩ | ⟨-, hw⟩
    · rw [h0]; exact le_rfl
    · exact hw0 _ (List.mem_of_mem_take (hw ▸ List.mem_ofFn.2 ⟨i, rfl⟩))
  have hstep := hM.step_pos
  unfold lmeOptimize at hopt
  simp only [hsr, hkind] at hopt
  obtain ⟨bg, hbg, hopt⟩ := ebind_ok.1 hopt
  obtain ⟨⟨⟨x', L'⟩, u⟩, hrun, hopt⟩ := ebind_ok.1 hopt
  cases hopt
  obtain ⟨k, X, g, t, hX0, hXk, hval, hl, hs, hst, hk0⟩ := pgd_ls (lossOrZero D Pr)
    (fun x s v s' hv => (lossOrZero_ok hv).1) (cfg := M.solver) hls hstep hk hloss hrun
  have hget : L.get "loss" = L0.get "loss" ∧ L.get "step_len" = L0.get "step_len" :=
    ⟨lmeLogCriteria_other h (by decide), lmeLogCriteria_other h (by decide)⟩
  refine ⟨coef, D, Pr, w, m, base, k, X, fun i => lossOrZero D Pr (X i), g, t, hc.symm, hm, hwn, by rw [hcoef, hXk], by rw [hcoef, hXk], hD, hPr,
    hw, hbase, fun i hi => ?_, by rw [hget.1]; exact hl, fun hk => by rw [hget.2]; exact hs hk, fun i hi j => ?_, fun hEM => ?_, fun i hi => ?_,
    fun h1 h2 => hk0 h1 h2⟩
  · obtain ⟨⟨s1, s2, h1⟩, h2⟩ := hval i hi
    exact ⟨(lossOrZero_ok h1).2, rfl, h2⟩
  · obtain ⟨gr, s1, s2, -, ⟨n, hn⟩, hp, -⟩ := hst i hi
    have ht : 0 ≤ t i := by
      rw [hn]
      exact mul_nonneg hstep.le (by positivity)
    exact (C09_positive_quadrant _ (by rintro r hr; cases hr; exact .elastic _ hM.eps (LmeReg.build_lib hM.reg hwn hbase)) _ _ _ ht hp).1 j
  · unfold lmeInitialize at hbg
    rw [if_neg hEM] at hbg
    cases hbg
    exact ⟨b0, g0, hb0, hg0, hX0⟩
  · obtain ⟨gr, s1, s2, hgr, ⟨n, hn⟩, hp, hsd, hfirst⟩ := hst i hi
    change (lmeGradientBeta D Pr _ _ >>= fun gb => lmeGradientGamma D Pr _ _ >>= fun gg => Except.ok (joinX gb gg, s1)) = _ at hgr
    obtain ⟨gb, h1, hgr⟩ := ebind_ok.1 hgr
    obtain ⟨gg, h2, hgr⟩ := ebind_ok.1 hgr
    cases hgr
    refine ⟨gb, gg, h1, by rw [hn]; exact mul_pos hstep (by positivity), ?_, hp, hsd, hfirst.imp_right ?_⟩
    swap
    · rintro ⟨z, s1, s2, h1, h2, h3⟩
      exact ⟨z, h1, (lossOrZero_ok h2).2, h3⟩
    rw [hn]
    have : ((1 : ℝ) / 2) ^ n ≤ 1 := pow_le_one₀ (by norm_num) (by norm_num)
    exact mul_le_of_le_one_right hstep.le this

/-- With an exact prox the objective decreases at every step longer than `1e-14`. -/
theorem lme_descent {M : LmeModelCfg} (hM : M.Admissible) (hsr : M.sr3 = none) (hls : M.stepping = "line-search")
    (hkind : M.loggerKind = .tuple) (hk : M.loggerKeys.Nodup) (hloss : "loss" ∈ M.loggerKeys)
    {st : LmeState} {P : LmeProblem ℝ} {a : LmeFitArgs}
    (hw0 : ∀ v ∈ a.feWeights.getD P.feWeights ++ a.reWeights.getD P.reWeights, 0 ≤ v)
    (hx : ∀ w, M.reg.weights P.numFixed P.numRandom (a.feWeights.getD P.feWeights ++ a.reWeights.getD P.reWeights) = .ok w →
      M.reg.ExactUpTo M.step w)
    {c : LmeState} {L : Logger (PyVal ℝ (P.numFixed + P.numRandom))} (h : lmeFitProblem M st P a = (.ok L, c)) :
    ∃ (coef : LmeCoef) (D : List (LmeGroup P.numFixed P.numRandom)) (Pr : LmeInstPrior ℝ P.numFixed P.numRandom)
      (w : Vec ℝ (P.numFixed + P.numRandom)) (m : List ℤ) (base : Regularizer ℝ (P.numFixed + P.numRandom))
      (k : ℕ) (X : ℕ → Vec ℝ (P.numFixed + P.numRandom)) (v : ℕ → ℝ) (g : ℕ → WithTop ℝ) (t : ℕ → ℝ),
      c = some coef ∧ coef.beta = List.ofFn (xBeta (X k)) ∧ coef.gamma = List.ofFn (xGamma (X k)) ∧
      lmeGroups P = .ok D ∧ lmePriorFor M.prior P = .ok Pr ∧
      M.reg.weights P.numFixed P.numRandom (a.feWeights.getD P.feWeights ++ a.reWeights.getD P.reWeights) = .ok w ∧
      M.reg.build P.numFixed P.numRandom m w = .ok base ∧
      (∀ i ≤ k, lmeLoss D Pr (xBeta (X i)) (xGamma (X i)) = .ok (v i) ∧
        (wrapReg P.numFixed P.numRandom M.elasticEps base).value (X i) = .ok (g i)) ∧
      L.get "loss" = .ok (.list ((List.range (k + 1)).map fun i => PyVal.num ((v i : WithTop ℝ) + g i))) ∧
      ("step_len" ∈ M.loggerKeys → L.get "step_len" = .ok (.list ((List.range k).map fun i => PyVal.num (t i : WithTop ℝ)))) ∧
      (∀ i < k, ∀ j, 0 ≤ xGamma (X (i + 1)) j) ∧
      (∀ i < k, (v (i + 1) : WithTop ℝ) + fullPenalty _ _ M.elasticEps (M.reg.penalty w) (X (i + 1)) ≤
        (v i : WithTop ℝ) + fullPenalty _ _ M.elasticEps (M.reg.penalty w) (X i) ∨ t i ≤ 1 / 10 ^ 14) ∧
      (M.initializer ≠ some "EM" → ∃ b0 g0, asVec P.numFixed (lmeStart st P a).1 = .ok b0 ∧
        asVec P.numRandom (lmeStart st P a).2 = .ok g0 ∧ X 0 = joinX b0 g0) ∧
      (∀ i < k, ∃ gb gg, lmeGradientBeta D Pr (xBeta (X i)) (xGamma (X i)) = .ok gb ∧ 0 < t i ∧
        (wrapReg P.numFixed P.numRandom M.elasticEps base).prox (fun j => X i j - t i * joinX gb gg j) (t i) = .ok (X (i + 1))) ∧
      (0 < P.numFixed + P.numRandom → 0 < M.maxIter → 0 < k) := by
  obtain ⟨coef, D, Pr, w, m, base, k, X, v, g, t, hc, -, hwn, hb, hg, hD, hPr, hww, hbase, hv, hl, hs, hnn, h0, hst, hk0⟩ :=
    lme_ls hM hsr hls hkind hk hloss hw0 h
  refine ⟨coef, D, Pr, w, m, base, k, X, v, g, t, hc, hb, hg, hD, hPr, hww, hbase, fun i hi => ⟨(hv i hi).1, (hv i hi).2.2⟩, hl, hs, hnn,
    fun i hi => ?_, h0, fun i hi => ?_, hk0⟩
  · obtain ⟨gb, gg, -, ht, hts, hp, hsd, -⟩ := hst i hi
    rw [(hv i hi.le).2.1, (hv (i + 1) hi).2.1]
    refine step_descent ht ?_ hsd
    have hle : t i / (1 + t i * M.elasticEps) ≤ M.step := by
      have h1 : (1 : ℝ) ≤ 1 + t i * M.elasticEps := by
        have := mul_nonneg ht.le hM.eps
        linarith
      exact (div_le_self ht.le h1).trans hts
    refine wrapReg_prox_min hM.eps ht (LmeReg.penalty_mono hM.reg hwn) ?_ hp
    exact LmeReg.base_prox hM.reg hwn (hx w hww) hbase (div_nonneg ht.le (by
      have := mul_nonneg ht.le hM.eps
      linarith)) hle _
  · obtain ⟨gb, gg, h1, h2, -, h3, -⟩ := hst i hi
    exact ⟨gb, gg, h1, h2, h3⟩

/-- **C100**, logged losses: in every successful fit of a plain model with line search and without a penalty, with the L1
penalty of strength 1, or with the SCAD penalty and a step below `(rho - 1) / lam`, an entry of the loss log exceeds the
previous one only if the step of that iteration, as logged, is at most `1e-14`. -/
theorem C100_losses_partial (M : LmeModelCfg) (hM : M.Admissible) (hsr : M.sr3 = none) (hls : M.stepping = "line-search")
    (hkind : M.loggerKind = .tuple) (hk : M.loggerKeys.Nodup) (hloss : "loss" ∈ M.loggerKeys) (hsl : "step_len" ∈ M.loggerKeys)
    (st : LmeState) (P : LmeProblem ℝ) (a : LmeFitArgs)
    (hw : ∀ v ∈ a.feWeights.getD P.feWeights ++ a.reWeights.getD P.reWeights, 0 ≤ v)
    (hreg : M.reg = .dummy ∨ M.reg = .l1 1 ∨ ∃ rho sigma lam, M.reg = .scad rho sigma lam ∧
      ∀ v ∈ a.feWeights.getD P.feWeights ++ a.reWeights.getD P.reWeights, M.step * lam * v < rho - 1)
    (c : LmeState) (L : Logger (PyVal ℝ (P.numFixed + P.numRandom))) (h : lmeFitProblem M st P a = (.ok L, c)) :
    ∃ (losses : List (WithTop ℝ)) (steps : List ℝ), L.get "loss" = .ok (.list (losses.map PyVal.num)) ∧
      L.get "step_len" = .ok (.list (steps.map fun t : ℝ => PyVal.num (t : WithTop ℝ))) ∧ losses.length = steps.length + 1 ∧
      ∀ i (hi : i < steps.length) (h0 : i < losses.length) (h1 : i + 1 < losses.length),
        losses[i + 1] ≤ losses[i] ∨ steps[i] ≤ 1 / 10 ^ 14 := by
  have hmem : ∀ {w : Vec ℝ (P.numFixed + P.numRandom)}, M.reg ≠ .dummy → M.reg.weights P.numFixed P.numRandom
      (a.feWeights.getD P.feWeights ++ a.reWeights.getD P.reWeights) = .ok w → ∀ i,
      w i ∈ a.feWeights.getD P.feWeights ++ a.reWeights.getD P.reWeights := by
    intro w hd hw i
    rcases LmeReg.weights_mem hw with ⟨h0, -⟩ | ⟨-, hw⟩
    · exact absurd h0 hd
    · exact List.mem_of_mem_take (hw ▸ List.mem_ofFn.2 ⟨i, rfl⟩)
  obtain ⟨coef, D, Pr, w, m, base, k, X, v, g, t, -, -, -, -, -, hww, hbase, hv, hl, hs, -, hdec, -⟩ := lme_descent hM hsr hls hkind hk hloss hw
    (fun w hww => by
      rcases hreg with h | h | ⟨rho, sigma, lam, h, hlt⟩
      · rw [h]; trivial
      · rw [h]; trivial
      · have := hmem (by rw [h]; simp) hww
        rw [h]
        exact fun i => hlt _ (this i)) h
  have hgv : ∀ i ≤ k, g i = fullPenalty _ _ M.elasticEps (M.reg.penalty w) (X i) := by
    intro i hi
    refine Except.ok.inj ((hv i hi).2.symm.trans (wrapReg_value_eq (fun u => ?_) _))
    rcases hreg with h | h | ⟨rho, sigma, lam, h, hlt⟩
    · rw [h] at hbase ⊢
      cases hbase
      simp [dummyRegularizer, LmeReg.penalty]
    · rw [h] at hbase ⊢
      cases hbase
      simp [l1Regularizer, LmeReg.penalty]
    · have hr := hM.reg
      rw [h] at hbase hr ⊢
      unfold LmeReg.build scadInit at hbase
      simp only at hbase
      rw [if_pos hr.1] at hbase
      cases hbase
      simp [scadRegularizer, LmeReg.penalty, weightsOrOnes, Finset.mul_sum]
  refine ⟨(List.range (k + 1)).map fun i => (v i : WithTop ℝ) + g i, (List.range k).map t, by rw [hl]; simp [Function.comp_def],
    by rw [hs hsl]; simp [Function.comp_def], by simp, fun i hi h0 h1 => ?_⟩
  simp only [List.length_map, List.length_range] at hi
  simp only [List.getElem_map, List.getElem_range]
  rw [hgv i (by omega), hgv (i + 1) (by omega)]
  exact hdec i hi

/-- **C100**, the L1 penalty of any strength: an iteration of a successful fit that increases the negative log-likelihood plus
prior plus `lam * sum_i w_i |x_i| + eps/2 |x|^2` has a step of at most `1e-14` (the starting variances may be negative, the
others are not). -/
theorem C100_l1_partial (M : LmeModelCfg) (lam : ℝ) (hreg : M.reg = .l1 lam) (hM : M.Admissible) (hsr : M.sr3 = none)
    (hls : M.stepping = "line-search") (hkind : M.loggerKind = .tuple) (hk : M.loggerKeys.Nodup)
    (hloss : "loss" ∈ M.loggerKeys) (hsl : "step_len" ∈ M.loggerKeys) (st : LmeState) (P : LmeProblem ℝ) (a : LmeFitArgs)
    (hw : ∀ v ∈ a.feWeights.getD P.feWeights ++ a.reWeights.getD P.reWeights, 0 ≤ v)
    (c : LmeState) (L : Logger (PyVal ℝ (P.numFixed + P.numRandom))) (h : lmeFitProblem M st P a = (.ok L, c)) :
    ∃ (coef : LmeCoef) (D : List (LmeGroup P.numFixed P.numRandom)) (Pr : LmeInstPrior ℝ P.numFixed P.numRandom)
      (w : Vec ℝ (P.numFixed + P.numRandom)) (k : ℕ) (X : ℕ → Vec ℝ (P.numFixed + P.numRandom)) (v : ℕ → ℝ) (steps : List ℝ),
      c = some coef ∧ coef.beta = List.ofFn (xBeta (X k)) ∧ coef.gamma = List.ofFn (xGamma (X k)) ∧
      lmeGroups P = .ok D ∧ lmePriorFor M.prior P = .ok Pr ∧
      List.ofFn w = a.feWeights.getD P.feWeights ++ a.reWeights.getD P.reWeights ∧
      (∀ i ≤ k, lmeLoss D Pr (xBeta (X i)) (xGamma (X i)) = .ok (v i)) ∧
      L.get "step_len" = .ok (.list (steps.map fun t : ℝ => PyVal.num (t : WithTop ℝ))) ∧ steps.length = k ∧
      (∀ i < k, ∀ j, 0 ≤ xGamma (X (i + 1)) j) ∧
      ∀ i (hi : i < steps.length), (∀ j, 0 ≤ xGamma (X i) j) →
        v (i + 1) + lam * ∑ j, w j * |X (i + 1) j| + M.elasticEps / 2 * ∑ j, X (i + 1) j ^ 2 ≤
          v i + lam * ∑ j, w j * |X i j| + M.elasticEps / 2 * ∑ j, X i j ^ 2 ∨ steps[i] ≤ 1 / 10 ^ 14 := by
  obtain ⟨coef, D, Pr, w, m, base, k, X, v, g, t, hc, hb, hg, hD, hPr, hww, hbase, hv, hl, hs, hnn, hdec, -⟩ :=
    lme_descent hM hsr hls hkind hk hloss hw (fun w _ => by rw [hreg]; trivial) h
  refine ⟨coef, D, Pr, w, k, X, v, (List.range k).map t, hc, hb, hg, hD, hPr, ?_, fun i hi => (hv i hi).1,
    by rw [hs hsl]; simp [Function.comp_def], by simp, hnn, fun i hi hn => ?_⟩
  · rw [hreg] at hww
    exact asVec_ok.1 hww
  · simp only [List.length_map, List.length_range] at hi
    simp only [List.getElem_map, List.getElem_range]
    refine (hdec i hi).imp_left fun h => ?_
    unfold fullPenalty at h
    rw [if_neg (by push Not; exact hnn i hi), if_neg (by push Not; exact hn), hreg] at h
    norm_cast at h
    simp only [LmeReg.penalty, ← Finset.mul_sum] at h
    linarith

/-! ## The L1 penalty of a strength other than one -/

/-- One observation `y`, one fixed effect with feature 1, observation variance 1. -/
def oneGroup (y : ℝ) (p q : ℕ) : LmeGroup p q := ⟨1, fun _ _ => 1, fun _ => y, fun _ _ => 0, fun _ => 1⟩

theorem margCov_one (y : ℝ) (gamma : Vec ℝ 0) : margCov (oneGroup y 1 0) gamma = 1 := by
  unfold margCov oneGroup
  ext i j
  simp [Matrix.mul_apply]

theorem marginalNLL_one (y : ℝ) (beta : Vec ℝ 1) (gamma : Vec ℝ 0) :
    marginalNLL [oneGroup y 1 0] beta gamma = 1 / 2 * (y - beta 0) ^ 2 := by
  unfold marginalNLL groupNLL
  have h := margCov_one y gamma
  simp only [List.map_cons, List.map_nil, List.sum_cons, List.sum_nil, h, inv_one, one_mulVec, det_one, Real.log_one]
  have : residual (oneGroup y 1 0) beta ⬝ᵥ residual (oneGroup y 1 0) beta = (y - beta 0) ^ 2 := by
    change ∑ i : Fin 1, (y - ∑ k : Fin 1, 1 * beta k) * (y - ∑ k : Fin 1, 1 * beta k) = _
    simp
    ring
  rw [this]
  ring

theorem gradientBeta_one {y : ℝ} {beta gb : Vec ℝ 1} {gamma : Vec ℝ 0}
    (h : lmeGradientBeta [oneGroup y 1 0] .nonInformative beta gamma = .ok gb) : gb 0 = -(y - beta 0) := by
  obtain ⟨-, h⟩ := lmeGradientBeta_ok.1 h
  rw [h]
  have h1 := margCov_one y gamma
  simp only [List.map_cons, List.map_nil, List.sum_cons, List.sum_nil, h1, inv_one, one_mulVec]
  have : ((oneGroup y 1 0).xᵀ *ᵥ residual (oneGroup y 1 0) beta) 0 = y - beta 0 := by
    change ∑ i : Fin 1, 1 * (y - ∑ k : Fin 1, 1 * beta k) = _
    simp
  simp [LmeInstPrior.gradientBeta, this]

/-- A proximal gradient step of the L1 penalty of strength `lam ≠ 1` from `1` towards `2 + eps` leaves `1`, which minimises
the objective with the penalty of strength 1. -/
theorem one_step {lam eps t : ℝ} (hl0 : 0 ≤ lam) (hl1 : lam ≠ 1) (heps : 0 ≤ eps) (ht : 0 < t) {X0 X1 : Vec ℝ (1 + 0)}
    (hX0 : X0 0 = 1) {gb : Vec ℝ 1} {gg : Vec ℝ 0} (hgb : gb 0 = -(1 + eps)) {w : Vec ℝ (1 + 0)} (hw : w 0 = 1)
    (h : (wrapReg 1 0 eps (l1Regularizer lam (some w))).prox (fun j => X0 j - t * joinX gb gg j) t = .ok X1) :
    1 / 2 * (2 + eps - 1) ^ 2 + (eps / 2 + 1) < 1 / 2 * (2 + eps - X1 0) ^ 2 + (eps / 2 * X1 0 ^ 2 + |X1 0|) := by
  have hc : 0 < 1 + t * eps := by positivity
  have hj : joinX gb gg (0 : Fin (1 + 0)) = -(1 + eps) := by rw [← hgb]; rfl
  have hX1 : X1 0 ≠ 1 := by
    unfold wrapReg positiveQuadrant elastic l1Regularizer at h
    simp only [Except.ok.injEq] at h
    rw [← h]
    simp only [positiveMask]
    simp only [hX0, hj, hw]
    norm_num
    unfold soft clip0
    have e1 : (1 - t * (-eps + -1)) / (1 + t * eps) - t / (1 + t * eps) * lam = 1 + t * (1 - lam) / (1 + t * eps) := by
      field_simp; ring
    have e0 : 0 < (1 - t * (-eps + -1)) / (1 + t * eps) := div_pos (by nlinarith) hc
    have e2 : max (-((1 - t * (-eps + -1)) / (1 + t * eps)) - t / (1 + t * eps) * lam) 0 = 0 :=
      max_eq_right (by have := mul_nonneg (div_nonneg ht.le hc.le) hl0; linarith)
    rw [e2, sub_zero, e1]
    intro h'
    have e3 : t * (1 - lam) / (1 + t * eps) ≠ 0 := div_ne_zero (mul_ne_zero ht.ne' (sub_ne_zero.2 hl1.symm)) hc.ne'
    rcases max_choice (1 + t * (1 - lam) / (1 + t * eps)) 0 with e | e <;> rw [e] at h'
    · exact e3 (by linarith)
    · norm_num at h'
  have h1 : 0 < (X1 0 - 1) ^ 2 := by
    have := sub_ne_zero.2 hX1
    positivity
  have h2 := le_abs_self (X1 0)
  nlinarith [mul_nonneg heps h1.le]

theorem one_table {y : ℝ} {F R : ℕ} (hF : F = 1) (hR : R = 0) :
    (uniqueLabels fun r => (!![0, 1, 1] : Matrix (Fin 1) (Fin 3) ℝ) r 0).map (tableGroup (!![0, 1, 1] : Matrix (Fin 1) (Fin 3) ℝ)
      (fun _ => y) ["group", "fixed", "variance"] false false 0 2 F R) = [oneGroup y F R] := by
  subst hF hR
  have h1 : (uniqueLabels fun r => (!![0, 1, 1] : Matrix (Fin 1) (Fin 3) ℝ) r 0) = [0] := by
    have : Finset.univ.image (fun r => (!![0, 1, 1] : Matrix (Fin 1) (Fin 3) ℝ) r 0) = {0} := by
      ext a; simp [eq_comm]
    unfold uniqueLabels
    rw [this]
    exact Finset.sort_singleton _ _
  have h2 : groupRows (fun r => (!![0, 1, 1] : Matrix (Fin 1) (Fin 3) ℝ) r 0) 0 = [0] := by
    unfold groupRows
    rw [show List.finRange 1 = [0] from rfl]
    simp
  have hi : labelIdx (p := 3) ["group", "fixed", "variance"] isFixed = [1] := by decide
  rw [h1]
  simp only [List.map_cons, List.map_nil, List.cons.injEq, and_true]
  refine lmeGroup_ext (by simp only [tableGroup, h2]; rfl) ?_ ?_ ?_ ?_
  · intro i j
    fin_cases j
    simp [tableGroup, designRow, hi]
    rfl
  · intro i; rfl
  · intro i j; exact j.elim0
  · intro i
    simp [tableGroup, oneGroup]

theorem one_increase {lam eps y : ℝ} (hl0 : 0 ≤ lam) (hl1 : lam ≠ 1) (heps : 0 ≤ eps) (hy : y = 2 + eps) {F R : ℕ} (hF : F = 1) (hR : R = 0)
    {t : ℝ} (ht : 0 < t) {X0 X1 w : Vec ℝ (F + R)} (hw : List.ofFn w = [1]) {b0 : Vec ℝ F} {g0 : Vec ℝ R}
    (hb0 : List.ofFn b0 = List.replicate F 1) (hX0 : X0 = joinX b0 g0) {gb : Vec ℝ F} {gg : Vec ℝ R}
    (hgb : lmeGradientBeta [oneGroup y F R] .nonInformative (xBeta X0) (xGamma X0) = .ok gb)
    (h : (wrapReg F R eps (l1Regularizer lam (some w))).prox (fun j => X0 j - t * joinX gb gg j) t = .ok X1) {v0 v1 : ℝ}
    {g0' g1' : WithTop ℝ} (hv0 : lmeLoss [oneGroup y F R] .nonInformative (xBeta X0) (xGamma X0) = .ok v0)
    (hv1 : lmeLoss [oneGroup y F R] .nonInformative (xBeta X1) (xGamma X1) = .ok v1)
    (hg0 : (wrapReg F R eps (l1Regularizer lam (some w))).value X0 = .ok g0')
    (hg1 : (wrapReg F R eps (l1Regularizer lam (some w))).value X1 = .ok g1') :
    (v0 : WithTop ℝ) + g0' < (v1 : WithTop ℝ) + g1' := by
  subst hF hR hy
  obtain ⟨-, rfl⟩ := lmeLoss_ok.1 hv0
  obtain ⟨-, rfl⟩ := lmeLoss_ok.1 hv1
  have hw0 : w 0 = 1 := by simpa using hw
  have hb : b0 0 = 1 := by simpa using hb0
  have hX : X0 0 = 1 := by rw [hX0, ← hb]; rfl
  have hxb : ∀ X : Vec ℝ (1 + 0), xBeta X 0 = X 0 := fun X => rfl
  have hgb' : gb 0 = -(1 + eps) := by rw [gradientBeta_one hgb, hxb, hX]; ring
  have := one_step hl0 hl1 heps ht hX hgb' hw0 h
  have hval : ∀ X : Vec ℝ (1 + 0), (wrapReg 1 0 eps (l1Regularizer lam (some w))).value X
      = .ok ((eps / 2 * X 0 ^ 2 + |X 0| : ℝ) : WithTop ℝ) := by
    intro X
    rw [wrapReg_value_eq (h := fun i u => w i * |u|) fun u => rfl]
    unfold fullPenalty
    rw [if_neg (by rintro ⟨j, -⟩; exact j.elim0)]
    congr 2
    change eps / 2 * ∑ i : Fin 1, X i ^ 2 + ∑ i : Fin 1, w i * |X i| = _
    simp [hw0]
  rw [hval] at hg0 hg1
  cases hg0
  cases hg1
  rw [marginalNLL_one, marginalNLL_one, hxb, hxb, hX]
  rw [← WithTop.coe_add, ← WithTop.coe_add, WithTop.coe_lt_coe]
  simp only [LmeInstPrior.loss]
  rw [abs_one]
  linarith

/-- **C100** fails for the L1 penalty of any strength other than 1: for every plain model with line search there is a problem
whose fit logs, right at the first iteration, a loss larger than the initial one (`L1Regularizer.value` drops `lam` once the
weights are attached, `regularizers.py:435-436`, whereas its prox uses it). -/
theorem C100_l1_violated (M : LmeModelCfg) (lam : ℝ) (hlam : lam ≠ 1) (hreg : M.reg = .l1 lam) (hM : M.Robust)
    (hsr : M.sr3 = none) (hls : M.stepping = "line-search") (hpr : M.prior = none) (hit : 0 < M.maxIter)
    (hloss : "loss" ∈ M.loggerKeys) :
    ∃ (x : Matrix (Fin 1) (Fin 3) ℝ) (y : Vec ℝ 1) (P : LmeProblem ℝ) (L : Logger (PyVal ℝ (P.numFixed + P.numRandom))) (c : LmeCoef)
      (losses : List (WithTop ℝ)) (h1 : 1 < losses.length),
      lmeFromXY x (some y) none ["group", "fixed", "variance"] false false none none = .ok P ∧
      lmeFitProblem M none P {} = (.ok L, some c) ∧ L.get "loss" = .ok (.list (losses.map PyVal.num)) ∧
      losses[0] < losses[1] := by
  have heps := hM.adm.eps
  have hl0 : 0 ≤ lam := by
    have := hM.adm.reg
    rw [hreg] at this
    exact this
  obtain ⟨x, hx⟩ : ∃ x : Matrix (Fin 1) (Fin 3) ℝ, x = !![0, 1, 1] := ⟨_, rfl⟩
  obtain ⟨y, hy⟩ : ∃ y : Vec ℝ 1, y = fun _ => 2 + M.elasticEps := ⟨_, rfl⟩
  obtain ⟨P, hP⟩ : ∃ P, lmeFromXY x (some y) none ["group", "fixed", "variance"] false false none none = .ok P :=
    lmeFromXY_succeeds x (some y) none _ false false none none 0 2 (by decide) (by decide) rfl (by decide)
      (by simp) (by intro r; fin_cases r; simp [hx]) (by intro r; fin_cases r; exact ⟨0, by simp [hx]⟩) (.inl rfl) (by simp) _ _ rfl rfl
  obtain ⟨_, _, feW, reW, -, -, hlen, -, -, -, -, -, hf, hr, hPe⟩ := lmeFromXY_ok x (some y) none _
    false false none none P hP
  have e1 : P.feWeights = [1] := by rw [hPe]; cases hf; rfl
  have e2 : P.reWeights = [] := by rw [hPe]; cases hr; rfl
  obtain ⟨L, c, hfit, -, -⟩ := C83_fit_problem_returns M hM none x y none _ false false none none P hP
    (by
      intro v hv r
      fin_cases v
      · exact absurd hv (by decide)
      · exact absurd hv (by decide)
      · fin_cases r; simp [hx]) ⟨.nonInformative, by rw [hpr]; rfl⟩ {} (by simp) (by simp)
    (by rintro w rfl; simp only [Option.getD_none, e1]; exact ⟨rfl, by simp⟩)
    (by rintro w rfl; simp only [Option.getD_none, e2]; exact ⟨rfl, by simp⟩)
  have hF := numFixed_eq P false false (by rw [hPe])
  have hR := numRandom_eq P false false (by rw [hPe])
  have hcl : P.columnLabels = ["group", "fixed", "variance"] := by rw [hPe]
  rw [hcl] at hF hR
  have hF : P.numFixed = 1 := hF.trans (by decide)
  have hR : P.numRandom = 0 := hR.trans (by decide)
  obtain ⟨coef, D, Pr, w, m, base, k, X, v, g, t, -, -, -, hD, hPr, hww, hbase, hv, hl, hs, -, -, h0, hst, hk⟩ :=
    lme_descent hM.adm hsr hls hM.kind hM.keys hloss (by simp [e1, e2]) (fun w _ => by rw [hreg]; trivial) hfit
  obtain ⟨b0, g0, hb0, -, hX0⟩ := h0 fun h => hM.init h hsr
  have hk0 := hk (by omega) hit
  obtain ⟨gr, vr, hgr, hvr, hgl, hD'⟩ := lmeGroups_table hP
  have hD' := hD.symm.trans hD'
  cases hPr.symm.trans (show lmePriorFor M.prior P = .ok .nonInformative by rw [hpr]; rfl)
  rw [hreg] at hbase hww
  cases hbase
  have hww := asVec_ok.1 hww
  have hb0 := asVec_ok.1 hb0
  obtain ⟨gb, gg, hgb, ht, hprox⟩ := hst 0 hk0
  have hv0 := hv 0 (by omega)
  have hv1 := hv 1 (by omega)
  have hgr : gr = 0 := by
    have : labelIdx (p := 3) ["group", "fixed", "variance"] (· = GROUP) = [0] := by decide
    rw [this] at hgr
    simpa using hgr.symm
  have hvr : vr = 2 := by
    have : labelIdx (p := 3) ["group", "fixed", "variance"] (· = VARIANCE) = [2] := by decide
    rw [this] at hvr
    simpa using hvr.symm
  subst hgr hvr hx hy
  rw [one_table hF hR] at hD'
  cases hD'
  refine ⟨_, _, P, L, c, (List.range (k + 1)).map fun i => (v i : WithTop ℝ) + g i, by simpa using hk0, hP, hfit,
    by rw [hl]; simp [Function.comp_def], ?_⟩
  simp only [List.getElem_map, List.getElem_range]
  exact one_increase hl0 hlam heps rfl hF hR ht (by rw [hww]; simp [e1, e2]) hb0 hX0 hgb hprox hv0.1 hv1.1 hv0.2 hv1.2

/-- The default plain model with the losses and the steps logged. -/
noncomputable def stepModel (reg : LmeReg) : LmeModelCfg :=
  { exModel none 100 reg with loggerKeys := ["converged", "loss", "step_len"] }

theorem stepModel_robust (reg : LmeReg) (hr : reg.Admissible) (hs : ∀ rho sigma lam, reg ≠ .scad rho sigma lam) :
    (stepModel reg).Robust where
  adm := ⟨hr, by norm_num [stepModel, exModel], (fun s h => by cases h), fun s h => by cases h⟩
  init := by simp [stepModel, exModel]
  kind := rfl
  keys := by change ["converged", "loss", "step_len"].Nodup; decide
  vaida := by change _ ∉ ["converged", "loss", "step_len"]; decide
  flip := fun h => absurd h (by change _ ∉ ["converged", "loss", "step_len"]; decide)
  sr3 := fun s h => by cases h
  scad := by
    intro t _
    change LmeReg.StepOk _ t reg
    cases reg with
    | scad rho sigma lam => exact absurd rfl (hs rho sigma lam)
    | _ => trivial

theorem stepModel_fit (reg : LmeReg) (hr : reg.Admissible) (hs : ∀ rho sigma lam, reg ≠ .scad rho sigma lam) :
    ∃ (P : LmeProblem ℝ) (L : Logger (PyVal ℝ (P.numFixed + P.numRandom))) (c : LmeCoef),
      lmeFromXY exTab (some ![26, 20]) none exTabLabels true true none none = .ok P ∧
      P.feWeights = [1, 1] ∧ P.reWeights = [1, 1] ∧ lmeFitProblem (stepModel reg) none P {} = (.ok L, some c) := by
  obtain ⟨P, hP⟩ := exTab_ok' true true ![26, 20]
  obtain ⟨_, _, feW, reW, -, -, hlen, -, -, -, -, -, hf, hr', hPe⟩ := lmeFromXY_ok exTab (some ![26, 20]) none exTabLabels
    true true none none P hP
  have e1 : P.feWeights = [1, 1] := by rw [hPe]; cases hf; rfl
  have e2 : P.reWeights = [1, 1] := by rw [hPe]; cases hr'; rfl
  obtain ⟨L, c, h1, -, -⟩ := C83_fit_problem_returns _ (stepModel_robust reg hr hs) none exTab ![26, 20] none
    exTabLabels true true none none P hP exTab_positive ⟨.nonInformative, rfl⟩ {} (by simp) (by simp)
    (by rintro w rfl; simp only [Option.getD_none, e1]; exact ⟨rfl, by simp⟩)
    (by rintro w rfl; simp only [Option.getD_none, e2]; exact ⟨rfl, by simp⟩)
  exact ⟨P, L, c, hP, e1, e2, h1⟩

/-- Non-vacuity of C100: the example problem is fitted with the L1 penalty of strength 1 and logs losses that increase only at
steps of at most `1e-14`. -/
example : ∃ (P : LmeProblem ℝ) (L : Logger (PyVal ℝ (P.numFixed + P.numRandom))) (c : LmeCoef) (losses : List (WithTop ℝ))
    (steps : List ℝ), lmeFromXY exTab (some ![26, 20]) none exTabLabels true true none none = .ok P ∧
    lmeFitProblem (stepModel (.l1 1)) none P {} = (.ok L, some c) ∧ L.get "loss" = .ok (.list (losses.map PyVal.num)) ∧
    ∀ i (_ : i < steps.length) (h0 : i < losses.length) (h1 : i + 1 < losses.length),
      losses[i + 1] ≤ losses[i] ∨ steps[i] ≤ 1 / 10 ^ 14 := by
  have hr : (LmeReg.l1 1).Admissible := show (0 : ℝ) ≤ 1 by norm_num
  have hs : ∀ rho sigma lam, LmeReg.l1 1 ≠ .scad rho sigma lam := by simp
  have hR := stepModel_robust _ hr hs
  obtain ⟨P, L, c, hP, e1, e2, h⟩ := stepModel_fit _ hr hs
  obtain ⟨losses, steps, h1, -, -, h2⟩ := C100_losses_partial _ hR.adm rfl rfl rfl hR.keys
    (by change _ ∈ ["converged", "loss", "step_len"]; decide) (by change _ ∈ ["converged", "loss", "step_len"]; decide)
    none P {} (by simp [e1, e2]) (.inr (.inl rfl)) _ L h
  exact ⟨P, L, c, losses, steps, hP, h, h1, h2⟩

/-- Non-vacuity of C100 with strength 2: the fit exists and its last point is covered. -/
example : ∃ (P : LmeProblem ℝ) (L : Logger (PyVal ℝ (P.numFixed + P.numRandom))) (c : LmeCoef) (steps : List ℝ),
    lmeFitProblem (stepModel (.l1 2)) none P {} = (.ok L, some c) ∧
    L.get "step_len" = .ok (.list (steps.map fun t : ℝ => PyVal.num (t : WithTop ℝ))) := by
  have hr : (LmeReg.l1 2).Admissible := exL1
  have hs : ∀ rho sigma lam, LmeReg.l1 2 ≠ .scad rho sigma lam := by simp
  have hR := stepModel_robust _ hr hs
  obtain ⟨P, L, c, hP, e1, e2, h⟩ := stepModel_fit _ hr hs
  obtain ⟨coef, D, Pr, w, k, X, v, steps, -, -, -, -, -, -, -, h1, -⟩ := C100_l1_partial _ 2 rfl hR.adm rfl rfl rfl hR.keys
    (by change _ ∈ ["converged", "loss", "step_len"]; decide) (by change _ ∈ ["converged", "loss", "step_len"]; decide)
    none P {} (by simp [e1, e2]) _ L h
  exact ⟨P, L, c, steps, h, h1⟩

/-- Non-vacuity of the violation: default settings with strength 2. -/
example : ∃ (x : Matrix (Fin 1) (Fin 3) ℝ) (y : Vec ℝ 1) (P : LmeProblem ℝ) (L : Logger (PyVal ℝ (P.numFixed + P.numRandom)))
    (c : LmeCoef) (losses : List (WithTop ℝ)) (h1 : 1 < losses.length),
    lmeFromXY x (some y) none ["group", "fixed", "variance"] false false none none = .ok P ∧
    lmeFitProblem (stepModel (.l1 2)) none P {} = (.ok L, some c) ∧ L.get "loss" = .ok (.list (losses.map PyVal.num)) ∧
    losses[0] < losses[1] :=
  C100_l1_violated _ 2 (by norm_num) rfl (stepModel_robust _ exL1 (by simp)) rfl rfl rfl (by norm_num [stepModel, exModel])
    (by change _ ∈ ["converged", "loss", "step_len"]; decide)

end Verif
