import Verif.Props.Regularizers

/-!
# C211: longer steps, stronger penalties, larger weights and smaller budgets shrink more
-/

namespace Verif

variable {K : Type*} [Field K] [LinearOrder K] [IsStrictOrderedRing K] {n : ℕ}

theorem abs_soft {t : K} (x : K) (ht : 0 ≤ t) : |soft t x| = max (|x| - t) 0 := by
  rcases le_total |x| t with h | h
  · rw [soft_of_abs_le h, abs_zero, max_eq_right (by linarith)]
  · rw [max_eq_left (by linarith)]
    rcases le_total 0 x with hx | hx
    · rw [abs_of_nonneg hx] at h ⊢
      rw [soft_of_ge ht h, abs_of_nonneg (by linarith)]
    · rw [abs_of_nonpos hx] at h ⊢
      rw [soft_of_le_neg ht (by linarith), abs_of_nonpos (by linarith)]
      ring

theorem abs_soft_anti {t t' : K} (x : K) (ht : 0 ≤ t) (h : t ≤ t') : |soft t' x| ≤ |soft t x| := by
  rw [abs_soft x ht, abs_soft x (ht.trans h)]
  exact max_le_max (by linarith) le_rfl

/-- The absolute value of a coordinate of the SCAD prox. -/
theorem scad_abs {rho sigma w ae x z : K} (hrho : 1 < rho) (hs : 0 ≤ sigma) (ha : 0 ≤ ae) (hw : w ≠ 0) (h : scadProx1 rho sigma w ae x = .ok z) :
    (rho * sigma < |x| ∧ (1 + ae) * sigma < |x| ∧ |z| = |x|) ∨
    (ae < rho - 1 ∧ sigma * (1 + ae) ≤ |x| ∧ |x| ≤ rho * sigma ∧ |z| * (rho - 1 - ae) = (rho - 1) * |x| - rho * sigma * ae) ∨
    (|x| ≤ sigma * (1 + ae) ∧ |z| = max (|x| - sigma * ae) 0) := by
  unfold scadProx1 at h
  rw [if_neg hw] at h
  split_ifs at h with h1 h2 h3
  · left
    rw [← Except.ok.inj h]
    exact ⟨(mul_le_mul_of_nonneg_right (le_max_left _ _) hs).trans_lt h1, (mul_le_mul_of_nonneg_right (le_max_right _ _) hs).trans_lt h1, rfl⟩
  · have hz := Except.ok.inj h
    have hx : x = npSign x * |x| := by
      unfold npSign
      split_ifs with hx hx'
      · rw [one_mul, abs_of_pos hx]
      · rw [neg_one_mul, abs_of_neg hx', neg_neg]
      · rw [zero_mul]
        exact le_antisymm (not_lt.1 hx) (not_lt.1 hx')
    have hsgn : |x| = 0 ∨ |npSign x| = 1 := by
      unfold npSign
      split_ifs with hx hx'
      · right; simp
      · right; simp
      · left; rw [le_antisymm (not_lt.1 hx) (not_lt.1 hx'), abs_zero]
    have hzform : z = npSign x * (((rho - 1) * |x| - rho * sigma * ae) / (rho - 1 - ae)) := by
      rw [← hz]
      conv_lhs => rw [hx]
      have e : npSign (npSign x * |x|) = npSign x := by rw [← hx]
      rw [e]
      ring
    rcases lt_or_gt_of_ne (fun h : ae = rho - 1 => h3 (by rw [h]; ring)) with hlt | hgt
    · right; left
      have hmax : max rho (1 + ae) = rho := max_eq_left (by linarith)
      rw [hmax] at h2
      have hd : 0 < rho - 1 - ae := by linarith
      refine ⟨hlt, h2.1, h2.2, ?_⟩
      have hnum : 0 ≤ (rho - 1) * |x| - rho * sigma * ae := by
        have := mul_le_mul_of_nonneg_left h2.1 (by linarith : 0 ≤ rho - 1)
        nlinarith [mul_nonneg hs hd.le]
      rw [hzform, abs_mul, abs_of_nonneg (div_nonneg hnum hd.le)]
      rcases hsgn with h0 | h1'
      · have hsig : sigma = 0 := by
          rw [h0] at h2
          have := h2.1
          nlinarith
        rw [h0, hsig]
        simp
      · rw [h1', one_mul, div_mul_cancel₀ _ hd.ne']
    · right; right
      have hmax : max rho (1 + ae) = 1 + ae := max_eq_right (by linarith)
      rw [hmax] at h2
      have hX : |x| = sigma * (1 + ae) := le_antisymm (by linarith [h2.2, mul_comm sigma (1 + ae)]) h2.1
      refine ⟨hX.le, ?_⟩
      have e : ((rho - 1) * |x| - rho * sigma * ae) / (rho - 1 - ae) = sigma := by
        rw [div_eq_iff h3, hX]
        ring
      rw [hzform, e, abs_mul, hX, abs_of_nonneg hs]
      have e2 : sigma * (1 + ae) - sigma * ae = sigma := by ring
      rw [e2, max_eq_left hs]
      rcases hsgn with h0 | h1'
      · have hsig : sigma = 0 := by
          rw [h0] at hX
          nlinarith
        rw [hsig, mul_zero]
      · rw [h1', one_mul]
  · right; right
    rw [← Except.ok.inj h]
    refine ⟨?_, abs_soft x (mul_nonneg hs ha)⟩
    by_contra hc
    exact h2 ⟨(not_le.1 hc).le, not_lt.1 h1⟩

theorem scad_anti {rho sigma w w' ae ae' x z z' : K} (hrho : 1 < rho) (hs : 0 ≤ sigma) (ha : 0 ≤ ae) (hle : ae ≤ ae') (hw : w ≠ 0) (hw' : w' ≠ 0)
    (h : scadProx1 rho sigma w ae x = .ok z) (h' : scadProx1 rho sigma w' ae' x = .ok z') : |z'| ≤ |z| := by
  have hsa : sigma * ae ≤ sigma * ae' := mul_le_mul_of_nonneg_left hle hs
  have hsa0 : 0 ≤ sigma * ae := mul_nonneg hs ha
  have hX := abs_nonneg x
  -- the smaller threshold leaves at least the soft-thresholded value
  have hlow : |x| - sigma * ae ≤ |z| ∧ 0 ≤ |z| := by
    refine ⟨?_, abs_nonneg z⟩
    rcases scad_abs hrho hs ha hw h with ⟨_, _, e⟩ | ⟨h1, h2, h3, e⟩ | ⟨_, e⟩
    · rw [e]; linarith
    · have hd : 0 < rho - 1 - ae := by linarith
      refine le_of_mul_le_mul_right ?_ hd
      rw [e]
      nlinarith
    · rw [e]; exact le_max_left _ _
  rcases scad_abs hrho hs (ha.trans hle) hw' h' with ⟨h1', h2', e'⟩ | ⟨h1', h2', h3', e'⟩ | ⟨_, e'⟩
  · rcases scad_abs hrho hs ha hw h with ⟨_, _, e⟩ | ⟨h1, h2, h3, e⟩ | ⟨h2, e⟩
    · rw [e, e']
    · linarith
    · exfalso
      nlinarith
  · have hd' : 0 < rho - 1 - ae' := by linarith
    have hd : 0 < rho - 1 - ae := by linarith
    rcases scad_abs hrho hs ha hw h with ⟨h1, _, e⟩ | ⟨h1, h2, h3, e⟩ | ⟨h2, e⟩
    · linarith
    · refine le_of_mul_le_mul_right ?_ (mul_pos hd hd')
      have e1 : |z'| * ((rho - 1 - ae) * (rho - 1 - ae')) = ((rho - 1) * |x| - rho * sigma * ae') * (rho - 1 - ae) := by rw [← e']; ring
      have e2 : |z| * ((rho - 1 - ae) * (rho - 1 - ae')) = ((rho - 1) * |x| - rho * sigma * ae) * (rho - 1 - ae') := by rw [← e]; ring
      rw [e1, e2]
      have : 0 ≤ (rho - 1) * ((ae' - ae) * (rho * sigma - |x|)) := mul_nonneg (by linarith) (mul_nonneg (by linarith) (by linarith))
      nlinarith
    · -- only possible when both thresholds meet in one point
      have hEq : sigma * ae = sigma * ae' := le_antisymm hsa (by nlinarith)
      have hxx : |x| = sigma * (1 + ae') := le_antisymm (by nlinarith) h2'
      have : |z'| = sigma := by
        refine mul_right_cancel₀ hd'.ne' ?_
        rw [e', hxx]
        ring
      rw [this]
      have := hlow.1
      nlinarith
  · rw [e']
    exact max_le (by linarith [hlow.1]) hlow.2

/-- **C211**, L1, CAD and SCAD: if the step, the strength and the weights of the second call are at least those of the first, then no coefficient returned by the second call is larger in absolute value. In particular
coefficients set to zero stay zero. This includes the ranges in which the CAD and SCAD formulas are not exact minimisers. -/
theorem C211_strength (w w' : Vec K n) (lam lam' rho sigma alpha alpha' : K) (x z z' : Vec K n) (ha : 0 ≤ alpha) (haa : alpha ≤ alpha') (hlam : 0 ≤ lam) (hll : lam ≤ lam') (hw : ∀ i, 0 ≤ w i)
    (hww : ∀ i, w i ≤ w' i)
    (hz : ((l1Regularizer lam (some w)).prox x alpha = .ok z ∧ (l1Regularizer lam' (some w')).prox x alpha' = .ok z') ∨
      ((l1Regularizer lam none).prox x alpha = .ok z ∧ (l1Regularizer lam' none).prox x alpha' = .ok z') ∨
      ((cadRegularizer rho lam (some w)).prox x alpha = .ok z ∧ (cadRegularizer rho lam' (some w')).prox x alpha' = .ok z') ∨
      ((cadRegularizer rho lam none).prox x alpha = .ok z ∧ (cadRegularizer rho lam' none).prox x alpha' = .ok z') ∨
      (1 < rho ∧ 0 ≤ sigma ∧ (scadRegularizer rho sigma lam (some w)).prox x alpha = .ok z ∧ (scadRegularizer rho sigma lam' (some w')).prox x alpha' = .ok z') ∨
      (1 < rho ∧ 0 ≤ sigma ∧ (scadRegularizer rho sigma lam none).prox x alpha = .ok z ∧ (scadRegularizer rho sigma lam' none).prox x alpha' = .ok z')) :
    ∀ i, |z' i| ≤ |z i| := by
  have hal : 0 ≤ alpha * lam := mul_nonneg ha hlam
  have hal' : alpha * lam ≤ alpha' * lam' := mul_le_mul haa hll hlam (ha.trans haa)
  have hp : ∀ i, 0 ≤ alpha * lam * w i := fun i => mul_nonneg hal (hw i)
  have hp' : ∀ i, alpha * lam * w i ≤ alpha' * lam' * w' i := fun i => mul_le_mul hal' (hww i) (hw i) (hal.trans hal')
  intro i
  rcases hz with ⟨h, h'⟩ | ⟨h, h'⟩ | ⟨h, h'⟩ | ⟨h, h'⟩ | ⟨hr, hs, h, h'⟩ | ⟨hr, hs, h, h'⟩
  · rw [← Except.ok.inj h, ← Except.ok.inj h']
    have e : ∀ a b c : K, a * b * c = a * c * b := fun a b c => mul_right_comm a b c
    simp only [e alpha, e alpha']
    exact abs_soft_anti (x i) (hp i) (hp' i)
  · rw [← Except.ok.inj h, ← Except.ok.inj h']
    exact abs_soft_anti (x i) hal hal'
  · rw [← Except.ok.inj h, ← Except.ok.inj h']
    have e : ∀ a b c : K, c * a * b = a * b * c := fun a b c => by ring
    simp only [e alpha, e alpha']
    by_cases hx : |x i| ≤ rho
    · by_cases hwi : 0 < w i
      · rw [if_pos ⟨hx, hwi.trans_le (hww i)⟩, if_pos ⟨hx, hwi⟩]
        exact abs_soft_anti (x i) (hp i) (hp' i)
      · have hn : ¬(|x i| ≤ rho ∧ 0 < w i) := fun hc => hwi hc.2
        rw [if_neg hn]
        split_ifs
        · have := abs_soft_anti (x i) le_rfl ((hp i).trans (hp' i))
          rwa [soft_zero] at this
        · exact le_rfl
    · rw [if_neg fun hc => hx hc.1, if_neg fun hc => hx hc.1]
  · rw [← Except.ok.inj h, ← Except.ok.inj h']
    by_cases hx : |x i| ≤ rho
    · simp only [if_pos hx]
      exact abs_soft_anti (x i) hal hal'
    · simp only [if_neg hx]
      exact le_rfl
  · have h1 := (collect_ok_iff _ _).1 h i
    have h1' := (collect_ok_iff _ _).1 h' i
    simp only [weightsOrOnes, Option.getD_some] at h1 h1'
    by_cases hwi : w i = 0
    · have hz0 : z i = x i := by
        rw [scadProx1, if_pos hwi] at h1
        exact (Except.ok.inj h1).symm
      rw [hz0]
      by_cases hwi' : w' i = 0
      · rw [scadProx1, if_pos hwi'] at h1'
        rw [← Except.ok.inj h1']
      · have hs0 := (hp i).trans (hp' i)
        rcases scad_abs hr hs hs0 hwi' h1' with ⟨_, _, e⟩ | ⟨a1, a2, a3, e⟩ | ⟨_, e⟩
        · rw [e]
        · have hd : 0 < rho - 1 - alpha' * lam' * w' i := by linarith
          refine le_of_mul_le_mul_right ?_ hd
          rw [e]
          nlinarith [mul_nonneg hs0 (sub_nonneg.2 a3)]
        · rw [e]
          exact max_le (by have := mul_nonneg hs hs0; linarith) (abs_nonneg _)
    · have hwi' : w' i ≠ 0 := (((hw i).lt_of_ne' hwi).trans_le (hww i)).ne'
      exact scad_anti hr hs (hp i) (hp' i) hwi hwi' h1 h1'
  · have h1 := (collect_ok_iff _ _).1 h i
    have h1' := (collect_ok_iff _ _).1 h' i
    simp only [weightsOrOnes, Option.getD_none, mul_one] at h1 h1'
    exact scad_anti hr hs hal hal' one_ne_zero one_ne_zero h1 h1'

theorem takeOnlyKMax_mono {ι : Type*} [Fintype ι] (as : ArgSort ι K) (x : ι → K) {k k' : ℤ} (h : k ≤ k') (i : ι) : takeOnlyKMax as x k i = 0 ∨ takeOnlyKMax as x k i = takeOnlyKMax as x k' i := by
  unfold takeOnlyKMax
  by_cases h0 : 0 < k
  · rw [if_pos h0, if_pos (h0.trans_le h)]
    by_cases hi : (Fintype.card ι : ℤ) - k ≤ ((as.perm (fun j => |x j|)).symm i : ℕ)
    · right
      rw [if_pos hi, if_pos (by omega)]
    · left
      rw [if_neg hi]
  · left
    rw [if_neg h0]

/-- **C211**, L0: with a smaller budget every coefficient is the one returned with the larger budget, or zero. -/
theorem C211_budget (asAll : ArgSort (Fin n) K) (ws : Option (L0Weights K n)) (k k' : ℤ) (hk : k ≤ k') (x : Vec K n) (alpha : K) :
    ∃ z z', (l0Regularizer (some k) asAll ws).prox x alpha = .ok z ∧ (l0Regularizer (some k') asAll ws).prox x alpha = .ok z' ∧ ∀ i, z i = 0 ∨ z i = z' i := by
  cases ws with
  | none => exact ⟨_, _, rfl, rfl, fun i => takeOnlyKMax_mono asAll x hk i⟩
  | some ws =>
    refine ⟨_, _, rfl, rfl, fun i => ?_⟩
    simp only [maskedKMax]
    split_ifs with h
    · exact takeOnlyKMax_mono ws.as _ (by omega) _
    · exact Or.inr rfl

/-- Non-vacuity: the L1 prox of `(3, -2)` with strengths one and `5/2`; one more coefficient is zero. -/
example : (l1Regularizer (1 : ℚ) none).prox ![3, -2] 1 = .ok ![2, -1] ∧ (l1Regularizer (5 / 2 : ℚ) none).prox ![3, -2] 1 = .ok ![1 / 2, 0] ∧
    ∀ i, |(![1 / 2, 0] : Vec ℚ 2) i| ≤ |(![2, -1] : Vec ℚ 2) i| := by
  have h : (l1Regularizer (1 : ℚ) none).prox ![3, -2] 1 = .ok ![2, -1] := by
    refine congrArg Except.ok (funext fun i => ?_)
    fin_cases i <;> norm_num [soft, clip0]
  have h' : (l1Regularizer (5 / 2 : ℚ) none).prox ![3, -2] 1 = .ok ![1 / 2, 0] := by
    refine congrArg Except.ok (funext fun i => ?_)
    fin_cases i <;> norm_num [soft, clip0]
  exact ⟨h, h', C211_strength (fun _ => 1) (fun _ => 1) 1 (5 / 2) 2 1 1 1 _ _ _ zero_le_one le_rfl zero_le_one (by norm_num) (fun _ => zero_le_one) (fun _ => le_rfl) (Or.inr (Or.inl ⟨h, h'⟩))⟩

/-- Non-vacuity: the SCAD prox (`rho = 4`, `sigma = 1`) of `5/2` with strengths one and `9/2`, the second outside the range in which the formula is exact. -/
example : (scadRegularizer (4 : ℚ) 1 1 none).prox ![5 / 2] 1 = .ok ![7 / 4] ∧ (scadRegularizer (4 : ℚ) 1 (9 / 2) none).prox ![5 / 2] 1 = .ok ![0] ∧
    ∀ i, |(![0] : Vec ℚ 1) i| ≤ |(![7 / 4] : Vec ℚ 1) i| := by
  have h : (scadRegularizer (4 : ℚ) 1 1 none).prox ![5 / 2] 1 = .ok ![7 / 4] := by
    refine (collect_ok_iff _ _).2 fun i => ?_
    fin_cases i
    norm_num [scadProx1, weightsOrOnes, npSign, abs_of_pos]
  have h' : (scadRegularizer (4 : ℚ) 1 (9 / 2) none).prox ![5 / 2] 1 = .ok ![0] := by
    refine (collect_ok_iff _ _).2 fun i => ?_
    fin_cases i
    norm_num [scadProx1, weightsOrOnes, npSign, abs_of_pos, soft, clip0]
  exact ⟨h, h', C211_strength (fun _ => 1) (fun _ => 1) 1 (9 / 2) 4 1 1 1 _ _ _ zero_le_one le_rfl zero_le_one (by norm_num) (fun _ => zero_le_one) (fun _ => le_rfl)
    (Or.inr (Or.inr (Or.inr (Or.inr (Or.inr ⟨by norm_num, zero_le_one, h, h'⟩)))))⟩

/-- Non-vacuity: budgets one and two at `(3, -5, 1)`. -/
example (as : ArgSort (Fin 3) ℚ) : ∃ z z', (l0Regularizer (some 1) as none).prox ![3, -5, 1] 1 = .ok z ∧ (l0Regularizer (some 2) as none).prox ![3, -5, 1] 1 = .ok z' ∧ ∀ i, z i = 0 ∨ z i = z' i :=
  C211_budget as none 1 2 (by norm_num) ![3, -5, 1] 1

end Verif
