import Verif.Props.RegStrength

/-!
# C212: proximal operators keep the order of the coefficients
-/

namespace Verif

variable {K : Type*} [Field K] [LinearOrder K] [IsStrictOrderedRing K] {n : ℕ}

theorem scad_le {rho sigma w ae x z : K} (hrho : 1 < rho) (hs : 0 ≤ sigma) (ha : 0 ≤ ae) (hw : w ≠ 0) (h : scadProx1 rho sigma w ae x = .ok z) : |z| ≤ |x| := by
  rcases scad_abs hrho hs ha hw h with ⟨_, _, e⟩ | ⟨a1, a2, a3, e⟩ | ⟨_, e⟩
  · rw [e]
  · have hd : 0 < rho - 1 - ae := by linarith
    refine le_of_mul_le_mul_right ?_ hd
    rw [e]
    nlinarith [mul_nonneg ha (sub_nonneg.2 a3)]
  · rw [e]
    exact max_le (by have := mul_nonneg hs ha; linarith) (abs_nonneg _)

theorem scad_mono {rho sigma w ae x x' z z' : K} (hrho : 1 < rho) (hs : 0 ≤ sigma) (ha : 0 ≤ ae) (hw : w ≠ 0) (hx : |x| ≤ |x'|)
    (h : scadProx1 rho sigma w ae x = .ok z) (h' : scadProx1 rho sigma w ae x' = .ok z') : |z| ≤ |z'| := by
  have hle := scad_le hrho hs ha hw h
  have hsa : 0 ≤ sigma * ae := mul_nonneg hs ha
  rcases scad_abs hrho hs ha hw h' with ⟨_, _, e'⟩ | ⟨h1', h2', h3', e'⟩ | ⟨h2', e'⟩
  · rw [e']
    exact hle.trans hx
  · have hd : 0 < rho - 1 - ae := by linarith
    have hr : 0 < rho - 1 := by linarith
    have hlow : sigma ≤ |z'| := by
      refine le_of_mul_le_mul_right ?_ hd
      rw [e']
      nlinarith
    rcases scad_abs hrho hs ha hw h with ⟨h1, _, e⟩ | ⟨h1, h2, h3, e⟩ | ⟨h2, e⟩
    · linarith
    · refine le_of_mul_le_mul_right ?_ hd
      rw [e, e']
      nlinarith
    · rw [e]
      exact max_le (by linarith) (abs_nonneg _)
  · rcases scad_abs hrho hs ha hw h with ⟨_, h1, e⟩ | ⟨h1, h2, h3, e⟩ | ⟨h2, e⟩
    · exfalso
      linarith [mul_comm sigma (1 + ae)]
    · have hd : 0 < rho - 1 - ae := by linarith
      have hX : |x| = sigma * (1 + ae) := le_antisymm (hx.trans h2') h2
      have hX' : |x'| = sigma * (1 + ae) := le_antisymm h2' (h2.trans hx)
      have hz : |z| = sigma := by
        refine mul_right_cancel₀ hd.ne' ?_
        rw [e, hX]
        ring
      rw [hz, e', hX']
      exact le_max_of_le_left (by linarith)
    · rw [e, e']
      exact max_le_max (by linarith) le_rfl

theorem abs_soft_mono {t x x' : K} (ht : 0 ≤ t) (h : |x| ≤ |x'|) : |soft t x| ≤ |soft t x'| := by
  rw [abs_soft x ht, abs_soft x' ht]
  exact max_le_max (by linarith) le_rfl

/-- **C212**, L1, CAD and SCAD: of two coefficients with the same weight, in one call or in two calls with the same step, the one which is larger in absolute value before `prox` is not smaller afterwards. -/
theorem C212_order (weights : Option (Vec K n)) (lam rho sigma alpha : K) (x x' z z' : Vec K n) (ha : 0 ≤ alpha) (hlam : 0 ≤ lam) (hw : ∀ i, 0 ≤ weightsOrOnes weights i)
    (hz : ((l1Regularizer lam weights).prox x alpha = .ok z ∧ (l1Regularizer lam weights).prox x' alpha = .ok z') ∨
      ((cadRegularizer rho lam weights).prox x alpha = .ok z ∧ (cadRegularizer rho lam weights).prox x' alpha = .ok z') ∨
      (1 < rho ∧ 0 ≤ sigma ∧ (scadRegularizer rho sigma lam weights).prox x alpha = .ok z ∧ (scadRegularizer rho sigma lam weights).prox x' alpha = .ok z'))
    (i j : Fin n) (hwij : weightsOrOnes weights i = weightsOrOnes weights j) (hx : |x i| ≤ |x' j|) : |z i| ≤ |z' j| := by
  have hal : 0 ≤ alpha * lam := mul_nonneg ha hlam
  have hcad : ∀ t : K, 0 ≤ t → |if |x i| ≤ rho then soft t (x i) else x i| ≤ |if |x' j| ≤ rho then soft t (x' j) else x' j| := fun t ht => by
    have h1 := abs_soft_anti (x i) le_rfl ht
    rw [soft_zero] at h1
    split_ifs with h2 h3 h3
    · exact abs_soft_mono ht hx
    · exact h1.trans hx
    · exact absurd (hx.trans h3) h2
    · exact hx
  rcases hz with ⟨h, h'⟩ | ⟨h, h'⟩ | ⟨hr, hs, h, h'⟩
  · cases weights with
    | none =>
      rw [← Except.ok.inj h, ← Except.ok.inj h']
      exact abs_soft_mono hal hx
    | some w =>
      simp only [weightsOrOnes, Option.getD_some] at hwij hw
      rw [← Except.ok.inj h, ← Except.ok.inj h']
      change |soft (alpha * w i * lam) (x i)| ≤ |soft (alpha * w j * lam) (x' j)|
      rw [hwij]
      exact abs_soft_mono (mul_nonneg (mul_nonneg ha (hw j)) hlam) hx
  · cases weights with
    | none =>
      rw [← Except.ok.inj h, ← Except.ok.inj h']
      exact hcad _ hal
    | some w =>
      simp only [weightsOrOnes, Option.getD_some] at hwij hw
      rw [← Except.ok.inj h, ← Except.ok.inj h']
      change |if |x i| ≤ rho ∧ 0 < w i then soft (w i * alpha * lam) (x i) else x i| ≤ |if |x' j| ≤ rho ∧ 0 < w j then soft (w j * alpha * lam) (x' j) else x' j|
      rw [hwij]
      by_cases hj : 0 < w j
      · simp only [hj, and_true]
        exact hcad _ (mul_nonneg (mul_nonneg (hw j) ha) hlam)
      · simp only [hj, and_false, if_false]
        exact hx
  · have h1 := (collect_ok_iff _ _).1 h i
    have h1' := (collect_ok_iff _ _).1 h' j
    rw [hwij] at h1
    by_cases hj : weightsOrOnes weights j = 0
    · rw [scadProx1, if_pos hj] at h1 h1'
      rw [← Except.ok.inj h1, ← Except.ok.inj h1']
      exact hx
    · exact scad_mono hr hs (mul_nonneg hal (hw j)) hj hx h1 h1'

theorem scad_anti_mono {rho sigma w ae ae' x x' z z' : K} (hrho : 1 < rho) (hs : 0 ≤ sigma) (ha : 0 ≤ ae) (hle : ae ≤ ae') (hw : w ≠ 0) (hx : |x'| ≤ |x|)
    (h : scadProx1 rho sigma w ae x = .ok z) (h' : scadProx1 rho sigma w ae' x' = .ok z') : |z'| ≤ |z| := by
  have hsa : sigma * ae ≤ sigma * ae' := mul_le_mul_of_nonneg_left hle hs
  have hsa0 : 0 ≤ sigma * ae := mul_nonneg hs ha
  have hX := abs_nonneg x
  have hle' := scad_le hrho hs (ha.trans hle) hw h'
  have hlow : |x| - sigma * ae ≤ |z| := by
    rcases scad_abs hrho hs ha hw h with ⟨_, _, e⟩ | ⟨h1, h2, h3, e⟩ | ⟨_, e⟩
    · rw [e]; linarith
    · have hd : 0 < rho - 1 - ae := by linarith
      refine le_of_mul_le_mul_right ?_ hd
      rw [e]
      nlinarith
    · rw [e]; exact le_max_left _ _
  rcases scad_abs hrho hs (ha.trans hle) hw h' with ⟨h1', h2', e'⟩ | ⟨h1', h2', h3', e'⟩ | ⟨_, e'⟩
  · rcases scad_abs hrho hs ha hw h with ⟨_, _, e⟩ | ⟨h1, h2, h3, e⟩ | ⟨h2, e⟩
    · rw [e, e']; exact hx
    · linarith
    · exfalso
      nlinarith
  · have hd' : 0 < rho - 1 - ae' := by linarith
    have hd : 0 < rho - 1 - ae := by linarith
    rcases scad_abs hrho hs ha hw h with ⟨h1, _, e⟩ | ⟨h1, h2, h3, e⟩ | ⟨h2, e⟩
    · rw [e]; exact hle'.trans hx
    · refine le_of_mul_le_mul_right ?_ (mul_pos hd hd')
      have e1 : |z'| * ((rho - 1 - ae) * (rho - 1 - ae')) = ((rho - 1) * |x'| - rho * sigma * ae') * (rho - 1 - ae) := by rw [← e']; ring
      have e2 : |z| * ((rho - 1 - ae) * (rho - 1 - ae')) = ((rho - 1) * |x| - rho * sigma * ae) * (rho - 1 - ae') := by rw [← e]; ring
      rw [e1, e2]
      have m1 : 0 ≤ (rho - 1) * ((ae' - ae) * (rho * sigma - |x'|)) := mul_nonneg (by linarith) (mul_nonneg (by linarith) (by linarith))
      have m2 : 0 ≤ (rho - 1) * ((|x| - |x'|) * (rho - 1 - ae')) := mul_nonneg (by linarith) (mul_nonneg (by linarith) hd'.le)
      nlinarith
    · have hEq : sigma * ae = sigma * ae' := le_antisymm hsa (by nlinarith)
      have hxx : |x'| = sigma * (1 + ae') := le_antisymm (by nlinarith) h2'
      have : |z'| = sigma := by
        refine mul_right_cancel₀ hd'.ne' ?_
        rw [e', hxx]
        ring
      rw [this]
      nlinarith
  · rw [e']
    exact max_le (by linarith) (abs_nonneg z)

/-- **C212**: a longer step at a point which is smaller in absolute value gives a coefficient which is not larger. -/
theorem C212_step (weights : Option (Vec K n)) (lam rho sigma alpha alpha' : K) (x x' z z' : Vec K n) (ha : 0 ≤ alpha) (haa : alpha ≤ alpha') (hlam : 0 ≤ lam) (hw : ∀ i, 0 ≤ weightsOrOnes weights i)
    (R : Regularizer K n) (hR : R = l1Regularizer lam weights ∨ R = cadRegularizer rho lam weights ∨ (1 < rho ∧ 0 ≤ sigma ∧ R = scadRegularizer rho sigma lam weights))
    (hz : R.prox x alpha = .ok z) (hz' : R.prox x' alpha' = .ok z') (i : Fin n) (hx : |x' i| ≤ |x i|) : |z' i| ≤ |z i| := by
  have hmid : ∀ y, R.prox x alpha' = .ok y → |z' i| ≤ |z i| := fun y hy => by
    have h1 : |y i| ≤ |z i| := by
      refine C211_strength (weightsOrOnes weights) (weightsOrOnes weights) lam lam rho sigma alpha alpha' x z y ha haa hlam le_rfl hw (fun _ => le_rfl) ?_ i
      cases weights with
      | none =>
        rcases hR with rfl | rfl | ⟨hr, hs, rfl⟩
        · exact Or.inr (Or.inl ⟨hz, hy⟩)
        · exact Or.inr (Or.inr (Or.inr (Or.inl ⟨hz, hy⟩)))
        · exact Or.inr (Or.inr (Or.inr (Or.inr (Or.inr ⟨hr, hs, hz, hy⟩))))
      | some w =>
        rcases hR with rfl | rfl | ⟨hr, hs, rfl⟩
        · exact Or.inl ⟨hz, hy⟩
        · exact Or.inr (Or.inr (Or.inl ⟨hz, hy⟩))
        · exact Or.inr (Or.inr (Or.inr (Or.inr (Or.inl ⟨hr, hs, hz, hy⟩))))
    refine le_trans ?_ h1
    refine C212_order weights lam rho sigma alpha' x' x z' y (ha.trans haa) hlam hw ?_ i i rfl hx
    rcases hR with rfl | rfl | ⟨hr, hs, rfl⟩
    · exact Or.inl ⟨hz', hy⟩
    · exact Or.inr (Or.inl ⟨hz', hy⟩)
    · exact Or.inr (Or.inr ⟨hr, hs, hz', hy⟩)
  rcases hR with rfl | rfl | ⟨hr, hs, rfl⟩
  · cases weights <;> exact hmid _ rfl
  · cases weights <;> exact hmid _ rfl
  · have h1 := (collect_ok_iff _ _).1 hz i
    have h1' := (collect_ok_iff _ _).1 hz' i
    by_cases hj : weightsOrOnes weights i = 0
    · rw [scadProx1, if_pos hj] at h1 h1'
      rw [← Except.ok.inj h1, ← Except.ok.inj h1']
      exact hx
    · exact scad_anti_mono hr hs (mul_nonneg (mul_nonneg ha hlam) (hw i)) (mul_le_mul_of_nonneg_right (mul_le_mul_of_nonneg_right haa hlam) (hw i)) hj hx h1 h1'

/-- **C212**, elastic wrapper around L1, CAD or SCAD: a longer step does not make a coefficient larger, and of two coefficients with the same weight the larger one stays the larger one. -/
theorem C212_elastic (weights : Option (Vec K n)) (lam rho sigma eps alpha alpha' : K) (x z z' : Vec K n) (ha : 0 ≤ alpha) (haa : alpha ≤ alpha') (heps : 0 ≤ eps) (hlam : 0 ≤ lam)
    (hw : ∀ i, 0 ≤ weightsOrOnes weights i) (R : Regularizer K n)
    (hR : R = l1Regularizer lam weights ∨ R = cadRegularizer rho lam weights ∨ (1 < rho ∧ 0 ≤ sigma ∧ R = scadRegularizer rho sigma lam weights))
    (hz : (elastic eps (some R)).prox x alpha = .ok z) (hz' : (elastic eps (some R)).prox x alpha' = .ok z') :
    (∀ i, |z' i| ≤ |z i|) ∧ ∀ i j, weightsOrOnes weights i = weightsOrOnes weights j → |x i| ≤ |x j| → |z i| ≤ |z j| := by
  have ha' := ha.trans haa
  have hc : 0 < 1 + alpha * eps := by positivity
  have hc' : 0 < 1 + alpha' * eps := by positivity
  have hcc : 1 + alpha * eps ≤ 1 + alpha' * eps := by nlinarith
  have hstep : alpha / (1 + alpha * eps) ≤ alpha' / (1 + alpha' * eps) := by
    rw [div_le_div_iff₀ hc hc']
    nlinarith
  have hstep0 : 0 ≤ alpha / (1 + alpha * eps) := div_nonneg ha hc.le
  refine ⟨fun i => ?_, fun i j hij hx => ?_⟩
  · refine C212_step weights lam rho sigma _ _ (fun i => x i / (1 + alpha * eps)) (fun i => x i / (1 + alpha' * eps)) z z' hstep0 hstep hlam hw R hR hz hz' i ?_
    simp only [abs_div, abs_of_pos hc, abs_of_pos hc']
    exact div_le_div_of_nonneg_left (abs_nonneg _) hc hcc
  · refine C212_order weights lam rho sigma _ (fun i => x i / (1 + alpha * eps)) (fun i => x i / (1 + alpha * eps)) z z hstep0 hlam hw ?_ i j hij ?_
    · rcases hR with rfl | rfl | ⟨hr, hs, rfl⟩
      · exact Or.inl ⟨hz, hz⟩
      · exact Or.inr (Or.inl ⟨hz, hz⟩)
      · exact Or.inr (Or.inr ⟨hr, hs, hz, hz⟩)
    · simp only [abs_div, abs_of_pos hc]
      exact div_le_div_of_nonneg_right hx hc.le

/-- Non-vacuity: CAD (`rho = 2`) keeps the order of `(3, -3/2, 1/2)`; the elastic wrapper with one half and steps one and two. -/
example : (cadRegularizer (2 : ℚ) 1 none).prox ![3, -3/2, 1/2] 1 = .ok ![3, -1/2, 0] ∧ |(![3, -1/2, 0] : Vec ℚ 3) 1| ≤ |(![3, -1/2, 0] : Vec ℚ 3) 0| := by
  have h : (cadRegularizer (2 : ℚ) 1 none).prox ![3, -3/2, 1/2] 1 = .ok ![3, -1/2, 0] := by
    simp only [cadRegularizer, Except.ok.injEq]
    funext i
    fin_cases i <;> norm_num [soft, clip0, abs_of_pos]
  refine ⟨h, C212_order none 1 2 1 1 ![3, -3/2, 1/2] ![3, -3/2, 1/2] _ _ zero_le_one zero_le_one (fun _ => zero_le_one) (Or.inr (Or.inl ⟨h, h⟩)) 1 0 rfl ?_⟩
  norm_num [abs_of_pos]

example : (elastic (1 / 2 : ℚ) (some (l1Regularizer 1 none))).prox ![3] 1 = .ok ![4 / 3] ∧ (elastic (1 / 2 : ℚ) (some (l1Regularizer 1 none))).prox ![3] 2 = .ok ![1 / 2] ∧
    |(![1 / 2] : Vec ℚ 1) 0| ≤ |(![4 / 3] : Vec ℚ 1) 0| := by
  have h : (elastic (1 / 2 : ℚ) (some (l1Regularizer 1 none))).prox ![3] 1 = .ok ![4 / 3] := by
    refine congrArg Except.ok (funext fun i => ?_)
    fin_cases i
    norm_num [soft, clip0]
  have h' : (elastic (1 / 2 : ℚ) (some (l1Regularizer 1 none))).prox ![3] 2 = .ok ![1 / 2] := by
    refine congrArg Except.ok (funext fun i => ?_)
    fin_cases i
    norm_num [soft, clip0]
  exact ⟨h, h', (C212_elastic none 1 2 1 (1 / 2) 1 2 ![3] _ _ zero_le_one (by norm_num) (by norm_num) zero_le_one (fun _ => zero_le_one) _ (Or.inl rfl) h h').1 0⟩

end Verif
