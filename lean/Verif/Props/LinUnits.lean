import Verif.Props.LinColumns
import Verif.Props.Exact

/-!
# C158: the unit of the answers does not matter for linear models
-/

namespace Verif

open Matrix

variable {m n : ℕ} {σ : Type}

theorem Sim.bind_ok {σ' : Type} {g : σ → σ'} {α β α' β' : Type} {φ : α → β} {ψ : α' → β'} {a : PyM σ α} {b : PyM σ' β} {k : α → PyM σ α'} {k' : β → PyM σ' β'} (h : Sim g φ a b)
    (hk : ∀ x, (∃ s s', a s = .ok (x, s')) → Sim g ψ (k x) (k' (φ x))) : Sim g ψ (a >>= k) (b >>= k') := by
  intro s
  change (b (g s) >>= fun r => k' r.1 r.2) = ((a s >>= fun r => k r.1 r.2)).map _
  rw [h s]
  cases ha : a s with
  | error e => rfl
  | ok r => exact hk r.1 ⟨s, r.2, ha⟩ r.2

/-- Multiplication by `c` turns the first oracle and regularizer into the second: values are multiplied by `c²`, gradients and proximal points by `c`. -/
structure Scales (c : ℝ) (o o' : Oracle ℝ n σ) (R R' : Regularizer ℝ n) : Prop where
  pos : 0 < c
  value : ∀ x, Sim id (c ^ 2 * ·) (o.value x) (o'.value (c • x))
  grad : ∀ x, Sim id (c • ·) (o.grad x) (o'.grad (c • x))
  prox : ∀ y t, R'.prox (c • y) t = (R.prox y t).map (c • ·)

namespace Scales
variable {c : ℝ} {o o' : Oracle ℝ n σ} {R R' : Regularizer ℝ n}

theorem normSq_scale (c : ℝ) (x : Vec ℝ n) : normSq (c • x) = c ^ 2 * normSq x := by
  unfold normSq
  rw [Finset.mul_sum]
  exact Finset.sum_congr rfl fun i _ => by simp only [Pi.smul_apply, smul_eq_mul]; ring

theorem lineSearch (T : Scales c o o' R R') (x d : Vec ℝ n) (step : ℝ) : Sim id id (lineSearch o R x d step) (lineSearch o' R' (c • x) (c • d) step) := by
  generalize hk : ⌈step * 10 ^ 14⌉₊ = k
  induction k using Nat.strong_induction_on generalizing step with
  | _ k ih =>
    rw [Verif.lineSearch.eq_def o, Verif.lineSearch.eq_def o']
    split_ifs with h
    · refine Sim.bind (φ := (c • ·)) (Sim.call (by rw [smul_comm, ← smul_add, T.prox])) fun z => Sim.bind (T.value z) fun fz => Sim.bind (T.value x) fun fx => ?_
      have ha : Accept (c ^ 2 * fz) (c ^ 2 * fx) (c • x) (c • d) (c • z) step ↔ Accept fz fx x d z step := by
        unfold Accept
        have e1 : dot (c • d) (c • z - c • x) = c ^ 2 * dot d (z - x) := by
          rw [← smul_sub]
          unfold dot
          rw [Finset.mul_sum]
          exact Finset.sum_congr rfl fun i _ => by simp only [Pi.smul_apply, smul_eq_mul]; ring
        rw [e1, ← smul_sub, normSq_scale, show c ^ 2 * fx - c ^ 2 * dot d (z - x) + 1 / (2 * step) * (c ^ 2 * normSq (z - x)) =
          c ^ 2 * (fx - dot d (z - x) + 1 / (2 * step) * normSq (z - x)) by ring]
        exact mul_le_mul_iff_right₀ (pow_pos T.pos 2)
      simp only [ha]
      split_ifs with hc
      · exact Sim.pure (φ := id) step
      · exact ih _ (by rw [← hk]; exact halving_lt step h) _ rfl
    · exact Sim.pure (φ := id) step

/-- The configuration with the tolerance in the new unit. -/
def _root_.Verif.PGDCfg.inUnit (c : ℝ) (cfg : PGDCfg ℝ) : PGDCfg ℝ := { cfg with tol := c * cfg.tol }

theorem chooseStep (T : Scales c o o' R R') (cfg : PGDCfg ℝ) (x d : Vec ℝ n) :
    Sim id id (chooseStep o R cfg x d) (chooseStep o' R' (cfg.inUnit c) (c • x) (c • d)) := by
  unfold Verif.chooseStep
  change Sim id id _ (if cfg.stepping = "line-search" then _ else _)
  split_ifs
  · exact T.lineSearch x d _
  · exact Sim.pure (φ := id) _

theorem logBlock (L : Logger (PyVal ℝ n)) (hL : "loss" ∉ L.keys) (x : Vec ℝ n) (vars : String → Option (PyVal ℝ n)) :
    Sim id (Logger.mapVal (PyVal.mapVec (c • ·))) (logBlock o R L x vars)
      (logBlock o' R' (L.mapVal (PyVal.mapVec (c • ·))) (c • x) fun k => (vars k).map (PyVal.mapVec (c • ·))) := by
  unfold Verif.logBlock
  refine Sim.bind (φ := Option.map (PyVal.mapVec (c • ·))) ?_ fun loss => ?_
  · change Sim id _ (if "loss" ∈ L.keys then _ else _) (if "loss" ∈ L.keys then _ else _)
    rw [if_neg hL, if_neg hL]
    exact Sim.pure (φ := Option.map (PyVal.mapVec (c • ·))) none
  · change Sim id _ (if L.keys.length > 0 then _ else _) (if L.keys.length > 0 then _ else _)
    split_ifs
    · refine Sim.call ?_
      rw [← Logger.log_map]
      congr 1
      funext k
      split_ifs <;> rfl
    · exact Sim.pure (φ := Logger.mapVal (PyVal.mapVec (c • ·))) L

theorem body (T : Scales c o o' R R') (cfg : PGDCfg ℝ) (x0 x : Vec ℝ n) (it : ℕ) (L : Logger (PyVal ℝ n)) (hL : "loss" ∉ L.keys) :
    Sim id (fun r => (c • r.1, r.2.mapVal (PyVal.mapVec (c • ·)))) (pgdBody o R cfg x0 x it L)
      (pgdBody o' R' (cfg.inUnit c) (c • x0) (c • x) it (L.mapVal (PyVal.mapVec (c • ·)))) := by
  unfold pgdBody
  refine Sim.bind (T.grad x) fun d => ?_
  simp only
  rw [← smul_neg]
  refine Sim.bind (T.chooseStep cfg x (-d)) fun step => ?_
  simp only [id]
  rw [smul_comm, ← smul_add]
  refine Sim.bind (φ := (c • ·)) (Sim.call (T.prox _ _)) fun x' => ?_
  simp only [funext fun k => Transforms.localsIter (f := (c • · : Vec ℝ n → Vec ℝ n)) x0 x (-d) (x + step • -d) x' step (it + 1) k]
  exact Sim.bind (logBlock L hL x' _) fun L' => Sim.pure (φ := fun r : Vec ℝ n × Logger (PyVal ℝ n) => (c • r.1, r.2.mapVal (PyVal.mapVec (c • ·)))) (x', L')

theorem far (hc : 0 < c) (tol : ℝ) (xprev : Option (Vec ℝ n)) (x : Vec ℝ n) : farApart (c * tol) (xprev.map (c • ·)) (c • x) ↔ farApart tol xprev x := by
  have h0 : c * tol < 0 ↔ tol < 0 := ⟨fun h => by
    by_contra hn
    exact absurd (mul_nonneg hc.le (not_lt.1 hn)) (not_le.2 h), fun h => mul_neg_of_pos_of_neg hc h⟩
  cases xprev with
  | none => exact or_congr Iff.rfl h0
  | some y =>
    change _ ∨ _ < normSq (c • x - c • y) ↔ _
    rw [← smul_sub, normSq_scale, mul_pow]
    exact or_congr h0 (mul_lt_mul_iff_right₀ (pow_pos hc 2))

theorem loop (T : Scales c o o' R R') (cfg : PGDCfg ℝ) (x0 x : Vec ℝ n) (xprev : Option (Vec ℝ n)) (it : ℕ) (L : Logger (PyVal ℝ n)) (hL : "loss" ∉ L.keys) :
    Sim id (fun r => (c • r.1, r.2.1, r.2.2.mapVal (PyVal.mapVec (c • ·)))) (pgdLoop o R cfg x0 x xprev it L)
      (pgdLoop o' R' (cfg.inUnit c) (c • x0) (c • x) (xprev.map (c • ·)) it (L.mapVal (PyVal.mapVec (c • ·)))) := by
  generalize hk : (cfg.maxIter - it).toNat = k
  induction k using Nat.strong_induction_on generalizing x xprev it L with
  | _ k ih =>
    rw [pgdLoop.eq_def o, pgdLoop.eq_def o']
    have hf : farApart (cfg.inUnit c).tol (xprev.map (c • ·)) (c • x) ↔ farApart cfg.tol xprev x := far T.pos cfg.tol xprev x
    have hm : (cfg.inUnit c).maxIter = cfg.maxIter := rfl
    simp only [hf, hm]
    split_ifs with h
    · refine Sim.bind_ok (T.body cfg x0 x it L hL) fun r hr => ?_
      have hkeys : "loss" ∉ r.2.keys := by
        obtain ⟨s, s', hr⟩ := hr
        unfold pgdBody at hr
        obtain ⟨g, s2, -, hr⟩ := Verif.bind_ok.1 hr
        obtain ⟨st, s3, -, hr⟩ := Verif.bind_ok.1 hr
        obtain ⟨z, s4, -, hr⟩ := Verif.bind_ok.1 hr
        obtain ⟨L2, s5, hlog, hr⟩ := Verif.bind_ok.1 hr
        obtain ⟨he, -⟩ := pure_ok.1 hr
        rw [← he]
        rw [logBlock_keepKeys hlog]
        exact hL
      exact ih _ (by omega) r.1 (some x) (it + 1) r.2 hkeys rfl
    · exact Sim.pure (φ := fun r : Vec ℝ n × ℕ × Logger (PyVal ℝ n) => (c • r.1, r.2.1, r.2.2.mapVal (PyVal.mapVec (c • ·)))) (x, it, L)

theorem pgdOptimize (T : Scales c o o' R R') (cfg : PGDCfg ℝ) (x0 : Vec ℝ n) (L : Logger (PyVal ℝ n)) (hL : "loss" ∉ L.keys) :
    Sim id (fun r => (c • r.1, r.2.mapVal (PyVal.mapVec (c • ·)))) (pgdOptimize o R cfg x0 L)
      (pgdOptimize o' R' (cfg.inUnit c) (c • x0) (L.mapVal (PyVal.mapVec (c • ·)))) := by
  unfold Verif.pgdOptimize
  simp only [funext fun k => Transforms.localsInit (f := (c • · : Vec ℝ n → Vec ℝ n)) x0 k]
  refine Sim.bind_ok (logBlock L hL x0 _) fun L0 hL0 => ?_
  have hkeys : "loss" ∉ L0.keys := by
    obtain ⟨s, s', h⟩ := hL0
    rw [logBlock_keepKeys h]
    exact hL
  refine Sim.bind (T.loop cfg x0 x0 none 0 L0 hkeys) fun r => ?_
  refine Sim.bind (φ := Logger.mapVal (PyVal.mapVec (c • ·))) (Sim.call ?_) fun L1 => Sim.bind (φ := Logger.mapVal (PyVal.mapVec (c • ·))) (Sim.call ?_) fun L2 => ?_
  · rw [← Logger.add_map]
    rfl
  · rw [← Logger.add_map]
    rfl
  · exact Sim.pure (φ := fun r : Vec ℝ n × Logger (PyVal ℝ n) => (c • r.1, r.2.mapVal (PyVal.mapVec (c • ·)))) (r.1, L2)

theorem fakeOptimize {opt opt' : Vec ℝ n → PyM σ (Vec ℝ n)} (h : ∀ x, Sim id (c • ·) (opt x) (opt' (c • x)))
    (x0 : Vec ℝ n) (L : Logger (PyVal ℝ n)) (hL : "loss" ∉ L.keys) :
    Sim id (fun r => (c • r.1, r.2.mapVal (PyVal.mapVec (c • ·)))) (fakeOptimize o opt R x0 L) (fakeOptimize o' opt' R' (c • x0) (L.mapVal (PyVal.mapVec (c • ·)))) := by
  unfold Verif.fakeOptimize
  refine Sim.bind (h x0) fun x => Sim.bind (φ := Logger.mapVal (PyVal.mapVec (c • ·))) ?_ fun L1 => Sim.bind (φ := Logger.mapVal (PyVal.mapVec (c • ·))) (Sim.call ?_) fun L2 => ?_
  · change Sim id _ (if "loss" ∈ L.keys then _ else _) (if "loss" ∈ L.keys then _ else _)
    rw [if_neg hL, if_neg hL]
    exact Sim.pure (φ := Logger.mapVal (PyVal.mapVec (c • ·))) L
  · rw [← Logger.add_map]
    rfl
  · exact Sim.pure (φ := fun r : Vec ℝ n × Logger (PyVal ℝ n) => (c • r.1, r.2.mapVal (PyVal.mapVec (c • ·)))) (x, L2)

end Scales

/-! ## Linear oracles and penalties in another unit -/

section Unit
variable {u : ℝ}

theorem linLoss_unit (u : ℝ) (A : Matrix (Fin m) (Fin n) ℝ) (b : Vec ℝ m) (x : Vec ℝ n) :
    linLoss A (u • b) .nonInformative (u • x) = u ^ 2 * linLoss A b .nonInformative x := by
  have h : linLoss A (u • b) .nonInformative (u • x) = 1 / 2 * normSq (A *ᵥ (u • x) - u • b) + 0 := rfl
  have h' : linLoss A b .nonInformative x = 1 / 2 * normSq (A *ᵥ x - b) + 0 := rfl
  rw [h, h', mulVec_smul, ← smul_sub, Scales.normSq_scale]
  ring

theorem linGradient_unit (u : ℝ) (A : Matrix (Fin m) (Fin n) ℝ) (b : Vec ℝ m) (x : Vec ℝ n) :
    linGradient A (u • b) .nonInformative (u • x) = u • linGradient A b .nonInformative x := by
  have h : linGradient A (u • b) .nonInformative (u • x) = Aᵀ *ᵥ (A *ᵥ (u • x) - u • b) + 0 := rfl
  have h' : linGradient A b .nonInformative x = Aᵀ *ᵥ (A *ᵥ x - b) + 0 := rfl
  rw [h, h', mulVec_smul, ← smul_sub, mulVec_smul, add_zero, add_zero]

theorem sr3Value_unit (u : ℝ) (A : Matrix (Fin m) (Fin n) ℝ) (b : Vec ℝ m) (c : Matrix (Fin n) (Fin n) ℝ) (lam : ℝ) (w : Vec ℝ n) :
    sr3Value A (u • b) c lam (u • w) = u ^ 2 * sr3Value A b c lam w := by
  unfold sr3Value
  rw [mulVec_smul, mulVec_smul, ← smul_sub]
  unfold normSq
  rw [Finset.mul_sum, Finset.mul_sum, Finset.mul_sum]
  exact Finset.sum_congr rfl fun i _ => by simp only [Pi.smul_apply, smul_eq_mul]; ring

theorem sr3Gradient_unit (u : ℝ) (A : Matrix (Fin m) (Fin n) ℝ) (b : Vec ℝ m) (c : Matrix (Fin n) (Fin n) ℝ) (lam : ℝ) (w : Vec ℝ n) :
    sr3Gradient A (u • b) c lam (u • w) = u • sr3Gradient A b c lam w := by
  unfold sr3Gradient
  rw [mulVec_smul, mulVec_smul, ← smul_sub, mulVec_smul]

theorem sr3Inner_unit (u : ℝ) (A : Matrix (Fin m) (Fin n) ℝ) (b : Vec ℝ m) (c : Matrix (Fin n) (Fin n) ℝ) (lam : ℝ) (w : Vec ℝ n) :
    sr3Inner A (u • b) c lam (u • w) = u • sr3Inner A b c lam w := by
  unfold sr3Inner
  rw [mulVec_smul, mulVec_smul, smul_comm lam u, ← smul_add, mulVec_smul]

theorem practicalLoop_unit (hu : 0 < u) (A : Matrix (Fin m) (Fin n) ℝ) (b : Vec ℝ m) (c : Matrix (Fin n) (Fin n) ℝ) (lam : ℝ) {R R' : Regularizer ℝ n}
    (hp : ∀ y t, R'.prox (u • y) t = (R.prox y t).map (u • ·)) (tol : ℝ) (maxIter : ℤ) (x : Vec ℝ n) (xprev : Option (Vec ℝ n)) (it : ℕ) :
    practicalLoop A (u • b) c lam R' (u * tol) maxIter (u • x) (xprev.map (u • ·)) it = (practicalLoop A b c lam R tol maxIter x xprev it).map (u • ·) := by
  generalize hk : (maxIter - it).toNat = k
  induction k using Nat.strong_induction_on generalizing x xprev it with
  | _ k ih =>
    rw [practicalLoop, practicalLoop.eq_def A b, sr3Inner_unit, hp]
    simp only [Scales.far hu]
    split_ifs with h
    · cases R.prox (sr3Inner A b c lam x) (1 / lam) with
      | error e => rfl
      | ok x' => exact ih _ (by omega) x' (some x) (it + 1) rfl
    · rfl

theorem soft_unit (hu : 0 < u) (t x : ℝ) : soft (u * t) (u * x) = u * soft t x := by
  have h : ∀ y : ℝ, clip0 (u * y) = u * clip0 y := fun y => by
    unfold clip0
    rw [mul_max_of_nonneg _ _ hu.le, mul_zero]
  unfold soft
  rw [← mul_sub, show -(u * x) - u * t = u * (-x - t) by ring, h, h, mul_sub]

theorem scadProx1_unit (hu : 0 < u) (rho sigma w ae x : ℝ) : scadProx1 rho (u * sigma) w ae (u * x) = (scadProx1 rho sigma w ae x).map (u * ·) := by
  have ha : |u * x| = u * |x| := by rw [abs_mul, abs_of_pos hu]
  have h1 : max rho (1 + ae) * (u * sigma) < u * |x| ↔ max rho (1 + ae) * sigma < |x| := by
    rw [mul_left_comm]
    exact mul_lt_mul_iff_right₀ hu
  have h2 : u * |x| ≤ max rho (1 + ae) * (u * sigma) ↔ |x| ≤ max rho (1 + ae) * sigma := by
    rw [mul_left_comm]
    exact mul_le_mul_iff_right₀ hu
  have h3 : u * sigma * (1 + ae) ≤ u * |x| ↔ sigma * (1 + ae) ≤ |x| := by
    rw [mul_assoc]
    exact mul_le_mul_iff_right₀ hu
  have hs : npSign (u * x) = npSign x := by
    unfold npSign
    have e1 : 0 < u * x ↔ 0 < x := mul_pos_iff_of_pos_left hu
    have e2 : u * x < 0 ↔ x < 0 := by
      constructor
      · intro h
        by_contra hn
        exact absurd (mul_nonneg hu.le (not_lt.1 hn)) (not_le.2 h)
      · exact fun h => mul_neg_of_pos_of_neg hu h
    simp only [e1, e2]
  unfold scadProx1
  simp only [ha, hs, gt_iff_lt, h1, h2, h3]
  split_ifs
  · rfl
  · rfl
  · rfl
  · change Except.ok _ = Except.ok _
    congr 1
    ring
  · change Except.ok _ = Except.ok _
    rw [mul_assoc, soft_unit hu]

theorem collect_unit {f g : Fin n → Except PyErr ℝ} (hg : ∀ i, g i = (f i).map (u * ·)) : collect g = (collect f).map fun x => u • x := by
  induction n with
  | zero => exact congrArg Except.ok (funext fun i => i.elim0)
  | succ n ih =>
    unfold collect
    rw [hg 0, ih (f := fun i => f i.succ) fun i => hg i.succ]
    cases f 0 with
    | error e => rfl
    | ok a =>
      cases collect fun i => f i.succ with
      | error e => rfl
      | ok r =>
        change Except.ok _ = Except.ok _
        congr 1
        funext i
        refine Fin.cases ?_ (fun j => ?_) i <;> rfl

/-- The sort routine seen by the fit in the new unit: it breaks ties as the given routine does in the old unit (for a routine that only compares, such as numpy's, it is the same
routine). -/
noncomputable def ArgSort.inUnit {ι : Type*} [Fintype ι] (hu : 0 < u) (as : ArgSort ι ℝ) : ArgSort ι ℝ where
  perm := fun v => as.perm (u⁻¹ • v)
  sorted := fun v i j hij => by
    have h := as.sorted (u⁻¹ • v) hij
    exact le_of_mul_le_mul_left (by simpa using h) (inv_pos.2 hu)

theorem takeOnlyKMax_unit {ι : Type*} [Fintype ι] (hu : 0 < u) (as : ArgSort ι ℝ) (x : ι → ℝ) (k : ℤ) :
    takeOnlyKMax (as.inUnit hu) (fun i => u * x i) k = fun i => u * takeOnlyKMax as x k i := by
  have h : (as.inUnit hu).perm (fun j => |u * x j|) = as.perm fun j => |x j| := by
    change as.perm (u⁻¹ • fun j => |u * x j|) = _
    congr 1
    funext j
    simp only [Pi.smul_apply, smul_eq_mul, abs_mul, abs_of_pos hu]
    rw [inv_mul_cancel_left₀ hu.ne']
  unfold takeOnlyKMax
  rw [h]
  split_ifs
  · funext i
    simp only
    split_ifs
    · rfl
    · exact (mul_zero _).symm
  · funext i
    exact (mul_zero _).symm

/-- The sort routines of a fit in the new unit. -/
noncomputable def NpSort.inUnit (hu : 0 < u) (sort : NpSort) : NpSort where
  all := fun n => (sort.all n).inUnit hu
  sub := fun n w => (sort.sub n w).inUnit hu

/-- The penalty with its parameters in the new unit: strengths of L1 and CAD, the cut-offs `rho` of CAD and `sigma` of SCAD are in the unit of the coefficients (strengths: of
coefficients times squared features), the number of non-zeros of L0, `rho` of SCAD and its strength have no unit. -/
noncomputable def LinPenalty.inUnit (hu : 0 < u) : LinPenalty → LinPenalty
  | .dummy => .dummy
  | .l0 nnz sort => .l0 nnz (sort.inUnit hu)
  | .l1 lam => .l1 (u * lam)
  | .cad lam rho => .cad (u * lam) (u * rho)
  | .scad lam rho sigma => .scad lam rho (u * sigma)

theorem LinPenalty.prox_unit (hu : 0 < u) (pen : LinPenalty) (w y : Vec ℝ n) (t : ℝ) :
    ((pen.inUnit hu).build n w).prox (u • y) t = ((pen.build n w).prox y t).map (u • ·) := by
  cases pen with
  | dummy => rfl
  | l0 nnz sort =>
    refine congrArg Except.ok ?_
    unfold maskedKMax
    funext i
    change _ = u * (if h : _ then _ else _)
    split_ifs with h
    · exact congrFun (takeOnlyKMax_unit hu (sort.sub n w) (fun j => y j.1) _) ⟨i, h⟩
    · rfl
  | l1 lam =>
    refine congrArg Except.ok (funext fun i => ?_)
    change soft (t * w i * (u * lam)) (u * y i) = u * soft (t * w i * lam) (y i)
    rw [mul_left_comm, soft_unit hu]
  | cad lam rho =>
    refine congrArg Except.ok (funext fun i => ?_)
    change (if |u * y i| ≤ u * rho ∧ _ then soft (w i * t * (u * lam)) (u * y i) else u * y i) = u * (if _ then _ else _)
    have h : |u * y i| ≤ u * rho ↔ |y i| ≤ rho := by
      rw [abs_mul, abs_of_pos hu]
      exact mul_le_mul_iff_right₀ hu
    rw [mul_left_comm, soft_unit hu]
    simp only [h]
    split_ifs <;> rfl
  | scad lam rho sigma => exact collect_unit fun i => scadProx1_unit hu _ _ _ _ _

end Unit

theorem linSolve_unit (M M' : LinModelCfg) {u : ℝ} (hu : 0 < u) (h1 : M'.sr3 = M.sr3) (h2 : M'.prior = M.prior) (h3 : M'.loggerKind = M.loggerKind) (h4 : M'.loggerKeys = M.loggerKeys)
    (h5 : M'.tol = u * M.tol) (h6 : M'.maxIter = M.maxIter) (h7 : M'.stepping = M.stepping) (h8 : M'.fixedStepLen = M.fixedStepLen) (hkeys : "loss" ∉ M.loggerKeys)
    (A : Matrix (Fin m) (Fin n) ℝ) (b : Vec ℝ m) (c : Matrix (Fin n) (Fin n) ℝ) {R R' : Regularizer ℝ n}
    (hp : ∀ y t, R'.prox (u • y) t = (R.prox y t).map (u • ·)) (start : Vec ℝ n) :
    linSolve M' A (u • b) c R' (u • start) = (linSolve M A b c R start).map fun r => (u • r.1, r.2.mapVal (PyVal.mapVec (u • ·))) := by
  have hsol : M'.solver = M.solver.inUnit u := by
    unfold LinModelCfg.solver PGDCfg.inUnit LinModelCfg.step
    rw [h1, h5, h6, h7, h8]
  unfold linSolve
  rw [h1, h2, h3, h4, h5, h6, hsol]
  have hL : (Logger.init M.loggerKind M.loggerKeys : Logger (PyVal ℝ n)) = (Logger.init M.loggerKind M.loggerKeys : Logger (PyVal ℝ n)).mapVal (PyVal.mapVec (u • ·)) :=
    (Logger.mapVal_init _ _ _).symm
  have hk : "loss" ∉ (Logger.init M.loggerKind M.loggerKeys : Logger (PyVal ℝ n)).keys := hkeys
  cases hs : M.sr3 with
  | none =>
    cases hpr : M.prior with
    | gaussian g => rfl
    | none =>
      simp only
      have t : Scales u (linOracle A b .nonInformative) (linOracle A (u • b) .nonInformative) R R' :=
        ⟨hu, fun x s => congrArg (fun v => Except.ok (v, s)) (linLoss_unit u A b x), fun x s => congrArg (fun v => Except.ok (v, s)) (linGradient_unit u A b x), hp⟩
      have key := t.pgdOptimize M.solver start (Logger.init M.loggerKind M.loggerKeys) hk ()
      rw [← hL] at key
      change (pgdOptimize (linOracle A (u • b) .nonInformative) R' (M.solver.inUnit u) (u • start) (Logger.init M.loggerKind M.loggerKeys) (id ())).map _ = _
      rw [key]
      cases pgdOptimize (linOracle A b .nonInformative) R M.solver start (Logger.init M.loggerKind M.loggerKeys) () with
      | error e => rfl
      | ok r => rfl
  | some s =>
    obtain ⟨el, practical⟩ := s
    cases hpr : M.prior with
    | gaussian g => rfl
    | none =>
      simp only
      have t : Scales u (sr3Oracle A b c el false) (sr3Oracle A (u • b) c el false) R R' :=
        ⟨hu, fun x s => by
            simp only [sr3Oracle, sr3Value_unit u A b c el x, Bool.false_eq_true, if_false]
            split_ifs <;> rfl,
          fun x s => by
            simp only [sr3Oracle, sr3Gradient_unit u A b c el x, Bool.false_eq_true, if_false]
            split_ifs <;> rfl, hp⟩
      split_ifs with h1 h2
      · rfl
      · have key := Scales.fakeOptimize (o := sr3Oracle A b c el false) (o' := sr3Oracle A (u • b) c el false) (R := R) (R' := R')
          (opt := fun x => callReg (findOptimalParameters A b c el R M.tol M.maxIter x))
          (opt' := fun x => callReg (findOptimalParameters A (u • b) c el R' (u * M.tol) M.maxIter x))
          (fun x => Sim.call (by
            have := practicalLoop_unit hu A b c el hp M.tol M.maxIter x none 0
            unfold findOptimalParameters
            split_ifs
            · rfl
            · exact this)) start (Logger.init M.loggerKind M.loggerKeys) hk ()
        rw [← hL] at key
        change (fakeOptimize (sr3Oracle A (u • b) c el false)
          (fun x => callReg (findOptimalParameters A (u • b) c el R' (u * M.tol) M.maxIter x)) R' (u • start)
          (Logger.init M.loggerKind M.loggerKeys) (id ())).map _ = _
        rw [key]
        cases fakeOptimize (sr3Oracle A b c el false) (fun x => callReg (findOptimalParameters A b c el R M.tol M.maxIter x)) R start
          (Logger.init M.loggerKind M.loggerKeys) () with
        | error e => rfl
        | ok r => rfl
      · have key := t.pgdOptimize M.solver start (Logger.init M.loggerKind M.loggerKeys) hk ()
        rw [← hL] at key
        change (pgdOptimize (sr3Oracle A (u • b) c el false) R' (M.solver.inUnit u) (u • start) (Logger.init M.loggerKind M.loggerKeys) (id ())).map _ = _
        rw [key]
        cases pgdOptimize (sr3Oracle A b c el false) R M.solver start (Logger.init M.loggerKind M.loggerKeys) () with
        | error e => rfl
        | ok r => rfl

/-- What a logger contains besides the information criteria. -/
def Logger.butIC {V : Type*} (L : Logger V) : KeyColl × List String × (String → Option (LVal V)) := (L.kind, L.keys, fun k => if k = "aic" ∨ k = "bic" then none else L.dict k)

theorem Logger.add_butIC {V : Type*} {L L' : Logger V} (h : L.butIC = L'.butIC) {key : String} (hk : key = "aic" ∨ key = "bic") (v v' : LVal V) :
    (L.add key v).map Logger.butIC = (L'.add key v').map Logger.butIC := by
  obtain ⟨kind, keys, d⟩ := L
  obtain ⟨kind', keys', d'⟩ := L'
  simp only [Logger.butIC, Prod.mk.injEq] at h
  obtain ⟨rfl, rfl, hd⟩ := h
  have he : (fun k => if k = "aic" ∨ k = "bic" then none else Function.update d key (some v) k) =
      fun k => if k = "aic" ∨ k = "bic" then none else Function.update d' key (some v') k := by
    funext k
    have h1 := congrFun hd k
    by_cases hb : k = "aic" ∨ k = "bic"
    · simp only [if_pos hb]
    · simp only [if_neg hb] at h1 ⊢
      have hne : k ≠ key := fun e => hb (e ▸ hk)
      rw [Function.update_of_ne hne, Function.update_of_ne hne, h1]
  by_cases hm : key ∈ keys
  · simp only [Logger.add, if_pos hm, Except.map, Logger.butIC, he]
  · simp only [Logger.add, if_neg hm]
    cases kind
    all_goals first | rfl | simp only [Except.map, Logger.butIC, he]

theorem logIC_butIC (L : Logger (PyVal ℝ n)) (aic bic aic' bic' : ℝ) : (logIC L aic bic).map Logger.butIC = (logIC L aic' bic').map Logger.butIC := by
  rw [logIC_eq, logIC_eq]
  have h1 : (if "aic" ∈ L.keys then L.add "aic" (.atom (.num (aic : WithTop ℝ))) else .ok L).map Logger.butIC =
      (if "aic" ∈ L.keys then L.add "aic" (.atom (.num (aic' : WithTop ℝ))) else .ok L).map Logger.butIC := by
    split_ifs
    · exact Logger.add_butIC rfl (.inl rfl) _ _
    · rfl
  revert h1
  cases (if "aic" ∈ L.keys then L.add "aic" (.atom (.num (aic : WithTop ℝ))) else .ok L) with
  | error e =>
    cases (if "aic" ∈ L.keys then L.add "aic" (.atom (.num (aic' : WithTop ℝ))) else .ok L) with
    | error e' =>
      intro h1
      cases h1
      rfl
    | ok L' => intro h1; cases h1
  | ok L1 =>
    cases (if "aic" ∈ L.keys then L.add "aic" (.atom (.num (aic' : WithTop ℝ))) else .ok L) with
    | error e' => intro h1; cases h1
    | ok L1' =>
      intro h1
      have e : L1.butIC = L1'.butIC := by simpa [Except.map] using h1
      have ek : L1.keys = L1'.keys := congrArg (fun t => t.2.1) e
      change Except.map _ (if "bic" ∈ L1.keys then _ else _) = Except.map _ (if "bic" ∈ L1'.keys then _ else _)
      rw [← ek]
      split_ifs
      · exact Logger.add_butIC e (.inr rfl) _ _
      · exact congrArg Except.ok e

/-- **C158**: the unit of the answers does not matter for linear models. For every linear class, plain or SR3, practical or not, all constructor arguments without the logger key `loss`,
every problem, start and weights, and every `u > 0`: multiplying the answers by `u`, with the start, the tolerance and the parameters of the penalty in the new unit, multiplies the
coefficients and all logged vectors by `u`, leaves step lengths, iteration counts and the `converged` flag as they are, and raises the same exceptions. The logged `aic` and `bic` are left out:
they add a loss in squared units to a count. `el` and the step length have no unit of the answers and stay. The start is explicit, because the default start of ones has no unit. -/
theorem C158_units (pen : LinPenalty) (sr3 : Bool) (a : LinArgs) (hkeys : "loss" ∉ a.loggerKeys) (A : Matrix (Fin m) (Fin n) ℝ) (b : Vec ℝ m) (rw : Option (Vec ℝ n)) (std : StdArg ℝ m)
    (x0 : Vec ℝ n) (w : Option (Vec ℝ n)) (u : ℝ) (hu : 0 < u) :
    (linClassFit (pen.inUnit hu) sr3 { a with tol := u * a.tol } ⟨m, n, A, u • b, 1, rw, std⟩ (some (u • x0)) true w).map (fun r => (r.1, r.2.butIC)) =
      (linClassFit pen sr3 a ⟨m, n, A, b, 1, rw, std⟩ (some x0) true w).map fun r => (u • r.1, (r.2.mapVal (PyVal.mapVec (u • ·))).butIC) := by
  unfold linClassFit
  have hch : (pen.inUnit hu).check = pen.check := by cases pen <;> rfl
  rw [hch]
  cases pen.check with
  | error e => rfl
  | ok un =>
    change Except.map _ (linFit (linClass (pen.inUnit hu) sr3 { a with tol := u * a.tol }) ⟨m, n, A, u • b, 1, rw, std⟩ (some (u • x0)) true w) =
      Except.map _ (linFit (linClass pen sr3 a) ⟨m, n, A, b, 1, rw, std⟩ (some x0) true w)
    have e1 := linFit_eq_solve (linClass (pen.inUnit hu) sr3 { a with tol := u * a.tol }) ⟨m, n, A, u • b, 1, rw, std⟩ (some (u • x0)) true w
    have e2 := linFit_eq_solve (linClass pen sr3 a) ⟨m, n, A, b, 1, rw, std⟩ (some x0) true w
    have key := linSolve_unit (linClass pen sr3 a) (linClass (pen.inUnit hu) sr3 { a with tol := u * a.tol }) hu rfl rfl rfl rfl rfl rfl rfl rfl hkeys A b 1
      (R := pen.build n (w.getD fun _ => 1)) (R' := (pen.inUnit hu).build n (w.getD fun _ => 1)) (fun y t => pen.prox_unit hu _ y t) x0
    simp only at e1 e2
    rw [e1, e2]
    change Except.map _ (linSolve (linClass (pen.inUnit hu) sr3 { a with tol := u * a.tol }) A (u • b) 1 ((pen.inUnit hu).build n (w.getD fun _ => 1)) (u • x0) >>= fun r => _) =
      Except.map _ (linSolve (linClass pen sr3 a) A b 1 (pen.build n (w.getD fun _ => 1)) x0 >>= fun r => _)
    rw [key]
    cases linSolve (linClass pen sr3 a) A b 1 (pen.build n (w.getD fun _ => 1)) x0 with
    | error e => rfl
    | ok r =>
      change Except.map _ (logIC (r.2.mapVal (PyVal.mapVec (u • ·))) (sr3Aic A (u • b) (u • r.1)) (sr3Bic A (u • b) (u • r.1)) >>= fun L => pure (u • r.1, L)) =
        Except.map _ (logIC r.2 (sr3Aic A b r.1) (sr3Bic A b r.1) >>= fun L => pure (r.1, L))
      have h := logIC_butIC (r.2.mapVal (PyVal.mapVec (u • ·))) (sr3Aic A (u • b) (u • r.1)) (sr3Bic A (u • b) (u • r.1)) (sr3Aic A b r.1) (sr3Bic A b r.1)
      rw [logIC_map (u • ·) r.2 (sr3Aic A b r.1)] at h
      revert h
      cases logIC (r.2.mapVal (PyVal.mapVec (u • ·))) (sr3Aic A (u • b) (u • r.1)) (sr3Bic A (u • b) (u • r.1)) with
      | error e =>
        cases logIC r.2 (sr3Aic A b r.1) (sr3Bic A b r.1) with
        | error e' => intro h; cases h; rfl
        | ok L => intro h; cases h
      | ok L' =>
        cases logIC r.2 (sr3Aic A b r.1) (sr3Bic A b r.1) with
        | error e' => intro h; cases h
        | ok L =>
          intro h
          have h' : L'.butIC = (L.mapVal (PyVal.mapVec (u • ·))).butIC := by simpa [Except.map] using h
          change Except.ok (u • r.1, L'.butIC) = Except.ok (u • r.1, _)
          rw [h']

/-- Predictions in the new unit: with the coefficients of C158, every prediction is multiplied by `u`. -/
theorem C158_predict (pen : LinPenalty) (sr3 : Bool) (a : LinArgs) (hkeys : "loss" ∉ a.loggerKeys) (A : Matrix (Fin m) (Fin n) ℝ) (b : Vec ℝ m) (rw : Option (Vec ℝ n)) (std : StdArg ℝ m)
    (x0 : Vec ℝ n) (w : Option (Vec ℝ n)) (u : ℝ) (hu : 0 < u) (r) (h : linClassFit pen sr3 a ⟨m, n, A, b, 1, rw, std⟩ (some x0) true w = .ok r) :
    ∃ r', linClassFit (pen.inUnit hu) sr3 { a with tol := u * a.tol } ⟨m, n, A, u • b, 1, rw, std⟩ (some (u • x0)) true w = .ok r' ∧
      ∀ {m' : ℕ} (B : Matrix (Fin m') (Fin n) ℝ), linPredict (some ⟨n, r'.1⟩) B = (linPredict (some ⟨n, r.1⟩) B).map (u • ·) := by
  have key := C158_units pen sr3 a hkeys A b rw std x0 w u hu
  rw [h] at key
  cases h' : linClassFit (pen.inUnit hu) sr3 { a with tol := u * a.tol } ⟨m, n, A, u • b, 1, rw, std⟩ (some (u • x0)) true w with
  | error e => rw [h'] at key; cases key
  | ok r' =>
    rw [h'] at key
    have e : r'.1 = u • r.1 := by
      have := Except.ok.inj key
      exact congrArg Prod.fst this
    refine ⟨r', rfl, fun B => ?_⟩
    unfold linPredict
    simp only [dite_true]
    rw [e, mulVec_smul]
    rfl

/-- Non-vacuity of C158: `LinearSCADModel(lam=1)` on three objects returns, and with the answers in thousandths (`u = 1000`), `sigma=1000` and `tol_solver=0.01` it returns the coefficients in
thousandths. -/
example (A : Matrix (Fin 3) (Fin 2) ℝ) (b : Vec ℝ 3) : ∃ x L L', linClassFit (.scad 1 (37 / 10) 1) false {} ⟨3, 2, A, b, 1, none, .none⟩ (some ![1, 2]) true none = .ok (x, L) ∧
    linClassFit (.scad 1 (37 / 10) 1000) false { tol := 1 / 100 } ⟨3, 2, A, (1000 : ℝ) • b, 1, none, .none⟩ (some ![1000, 2000]) true none = .ok ((1000 : ℝ) • x, L') := by
  obtain ⟨x, L, h⟩ := C110_strength_partial 1 zero_le_one false (by norm_num) (.scad 1 (37 / 10) 1) (by simp [strengthPenalties]) false ⟨3, 2, A, b, 1, none, .none⟩ rfl (some ![1, 2]) true
  have key := C158_units (.scad 1 (37 / 10) 1) false {} (by simp) A b none .none ![1, 2] none 1000 (by norm_num)
  rw [h] at key
  have e1 : (LinPenalty.scad 1 (37 / 10) 1).inUnit (u := 1000) (by norm_num) = .scad 1 (37 / 10) 1000 := by
    change LinPenalty.scad 1 (37 / 10) (1000 * 1) = _
    rw [mul_one]
  have e2 : ({ ({} : LinArgs) with tol := 1000 * ({} : LinArgs).tol } : LinArgs) = { tol := 1 / 100 } := by
    have : (1000 * ({} : LinArgs).tol : ℝ) = 1 / 100 := by norm_num
    rw [this]
  have e3 : ((1000 : ℝ) • ![1, 2] : Vec ℝ 2) = ![1000, 2000] := by
    funext i
    fin_cases i <;> norm_num
  rw [e1, e2, e3] at key
  cases h' : linClassFit (.scad 1 (37 / 10) 1000) false { tol := 1 / 100 } ⟨3, 2, A, (1000 : ℝ) • b, 1, none, .none⟩ (some ![1000, 2000]) true none with
  | error e => rw [h'] at key; cases key
  | ok r' =>
    rw [h'] at key
    have e : r'.1 = (1000 : ℝ) • x := congrArg Prod.fst (Except.ok.inj key)
    obtain ⟨x', L'⟩ := r'
    cases e
    exact ⟨x, L, L', h, rfl⟩

end Verif
