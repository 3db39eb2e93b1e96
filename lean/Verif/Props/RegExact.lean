import Verif.Props.Regularizers

/-!
# Exactly where the CAD and SCAD proximal operators are exact (C05, C06)
-/

namespace Verif

variable {K : Type} [Field K] [LinearOrder K] [IsStrictOrderedRing K] {n : ℕ}

/-- The Huber function: the smallest value of `t |u| + (u - x)²/2`. -/
def huber (t x : K) : K := if |x| ≤ t then x ^ 2 / 2 else t * |x| - t ^ 2 / 2

theorem soft_cost {t : K} (x : K) (ht : 0 ≤ t) : t * |soft t x| + (soft t x - x) ^ 2 / 2 = huber t x := by
  unfold huber
  rcases soft_cases x ht with ⟨h, hs⟩ | ⟨h, hs⟩ | ⟨h, hs⟩
  · have hx : 0 < x := ht.trans_lt h
    rw [hs, abs_of_pos hx, if_neg (not_le.2 h), abs_of_pos (by linarith)]
    ring
  · have hx : x < 0 := by linarith
    rw [hs, abs_of_neg hx, if_neg (not_le.2 (by linarith)), abs_of_neg (by linarith)]
    ring
  · rw [hs, if_pos h]
    simp

theorem huber_le {t : K} (x u : K) (ht : 0 ≤ t) : huber t x ≤ t * |u| + (u - x) ^ 2 / 2 := by
  rw [← soft_cost x ht]
  exact soft_isProx t x u ht

/-- A vector is a minimiser of a separable problem only if every coordinate is. -/
theorem isProxOf_coord (g : Fin n → K → K) (alpha : K) (x z : Vec K n) (h : IsProxOf (fun u => ((∑ i, g i (u i) : K) : WithTop K)) alpha x z) (i : Fin n) :
    IsProx1 (g i) alpha (x i) (z i) := by
  intro v
  obtain ⟨gz, hgz, hmin⟩ := h
  have h1 := hmin (Function.update z i v) _ rfl
  rw [← WithTop.coe_inj.1 hgz, obj_sum, obj_sum] at h1
  have e : ∑ j ∈ Finset.univ.erase i, (alpha * g j (Function.update z i v j) + (Function.update z i v j - x j) ^ 2 / 2) = ∑ j ∈ Finset.univ.erase i, (alpha * g j (z j) + (z j - x j) ^ 2 / 2) :=
    Finset.sum_congr rfl fun j hj => by rw [Function.update_of_ne (Finset.ne_of_mem_erase hj)]
  rw [← Finset.add_sum_erase _ _ (Finset.mem_univ i), ← Finset.add_sum_erase (a := i) Finset.univ (fun j => alpha * g j (Function.update z i v j) + (Function.update z i v j - x j) ^ 2 / 2) (Finset.mem_univ i),
    e, Function.update_self] at h1
  exact le_of_add_le_add_right h1

/-- A problem whose smallest value is the smaller one of a soft-thresholding value and the value of staying. -/
theorem prox_two_cases (g : K → K) (alpha t F x : K) (hlow : ∀ u, min (huber t x) F ≤ alpha * g u + (u - x) ^ 2 / 2)
    (hH : alpha * g (soft t x) + (soft t x - x) ^ 2 / 2 ≤ huber t x) (hF : alpha * g x ≤ F)
    (hS : alpha * g (soft t x) + (soft t x - x) ^ 2 / 2 = huber t x ∨ (F < huber t x ∧ F < alpha * g (soft t x) + (soft t x - x) ^ 2 / 2)) :
    (IsProx1 g alpha x (soft t x) ↔ huber t x ≤ F) ∧ (IsProx1 g alpha x x ↔ alpha * g x ≤ huber t x) := by
  have e : alpha * g x + (x - x) ^ 2 / 2 = alpha * g x := by ring
  refine ⟨⟨fun h => ?_, fun h u => ?_⟩, ⟨fun h => ?_, fun h u => ?_⟩⟩
  · have h1 := h x
    rw [e] at h1
    rcases hS with h2 | ⟨-, h2⟩
    · rw [← h2]; exact h1.trans hF
    · exact absurd (h2.trans_le h1) (not_lt.2 hF)
  · exact (le_min hH (hH.trans h)).trans (hlow u)
  · have h1 := h (soft t x)
    rw [e] at h1
    exact h1.trans hH
  · rw [e]
    exact (le_min h hF).trans (hlow u)

/-- One coordinate of the CAD problem with weight `w > 0`. -/
theorem cad_coord (rho lam alpha w x : K) (hrho : 0 ≤ rho) (hlam : 0 ≤ lam) (ha : 0 ≤ alpha) (hw : 0 < w) :
    (IsProx1 (fun u => lam * min (w * |u|) rho) alpha x (soft (w * alpha * lam) x) ↔ huber (w * alpha * lam) x ≤ alpha * lam * rho) ∧
    (IsProx1 (fun u => lam * min (w * |u|) rho) alpha x x ↔ alpha * (lam * min (w * |x|) rho) ≤ huber (w * alpha * lam) x) := by
  have hal : 0 ≤ alpha * lam := mul_nonneg ha hlam
  have ht : 0 ≤ w * alpha * lam := by rw [mul_assoc]; exact mul_nonneg hw.le hal
  have hle : ∀ u : K, alpha * (lam * min (w * |u|) rho) ≤ w * alpha * lam * |u| := fun u => by
    have := mul_le_mul_of_nonneg_left (min_le_left (w * |u|) rho) hal
    linarith
  have hcost := soft_cost x ht
  refine prox_two_cases _ alpha _ _ x (fun u => ?_) ?_ ?_ ?_
  · have hsq := sq_nonneg (u - x)
    rcases le_total (w * |u|) rho with h | h
    · rw [min_eq_left h]
      refine (min_le_left _ _).trans ((huber_le x u ht).trans (le_of_eq ?_))
      ring
    · rw [min_eq_right h]
      refine (min_le_right _ _).trans ?_
      linarith
  · rw [← hcost]
    linarith [hle (soft (w * alpha * lam) x)]
  · have := mul_le_mul_of_nonneg_left (min_le_right (w * |x|) rho) hal
    linarith
  · rcases le_or_gt (w * |soft (w * alpha * lam) x|) rho with h | h
    · left
      rw [← hcost, min_eq_left h]
      ring
    · rcases hal.eq_or_lt with h0 | h0
      · left
        rw [← hcost, mul_assoc w, ← h0]
        rw [show ∀ y : K, alpha * (lam * y) = 0 by intro y; rw [← mul_assoc, ← h0, zero_mul]]
        ring
      · right
        have ht' : 0 < w * alpha * lam := by rw [mul_assoc]; exact mul_pos hw h0
        obtain ⟨s, hs⟩ : ∃ s, s = soft (w * alpha * lam) x := ⟨_, rfl⟩
        have hsx : 0 < (s - x) ^ 2 / 2 := by
          have hne : s - x ≠ 0 := by
            rcases soft_cases x ht with ⟨_, h2⟩ | ⟨_, h2⟩ | ⟨_, h2⟩
            · rw [hs, h2]; intro h3; linarith
            · rw [hs, h2]; intro h3; linarith
            · rw [h2] at h; simp at h; exact absurd h (not_lt.2 hrho)
          positivity
        rw [← hs] at h hcost ⊢
        rw [min_eq_right h.le, ← hcost]
        have h4 := mul_lt_mul_of_pos_left h h0
        constructor
        · linarith
        · linarith

/-- **C05**, exactly: with weights `w ≥ 0` the CAD prox returns a minimiser if and only if, for every coordinate with positive weight, the value it reaches is not larger than both the smallest value `H` of
soft thresholding and the value `alpha lam rho` of a large coordinate: below the cut-off `H ≤ alpha lam rho`, above it `alpha lam min(w|x|, rho) ≤ H`. -/
theorem C05_cad_iff (rho lam alpha : K) (w x : Vec K n) (hrho : 0 ≤ rho) (hlam : 0 ≤ lam) (ha : 0 ≤ alpha) (hw : ∀ i, 0 ≤ w i) :
    (cadRegularizer rho lam (some w)).ExactAt alpha x ↔ ∀ i, 0 < w i →
      (|x i| ≤ rho → huber (w i * alpha * lam) (x i) ≤ alpha * lam * rho) ∧ (rho < |x i| → alpha * lam * min (w i * |x i|) rho ≤ huber (w i * alpha * lam) (x i)) := by
  have hval : ∀ u, (cadRegularizer rho lam (some w)).value u = .ok ((∑ i, lam * min (w i * |u i|) rho : K) : WithTop K) := fun u => by
    simp [cadRegularizer, Finset.mul_sum]
  constructor
  · rintro ⟨g, hg, z, hz, hp⟩ i hi
    have hgeq : g = fun u => ((∑ i, lam * min (w i * |u i|) rho : K) : WithTop K) := funext fun u => Except.ok.inj ((hg u).symm.trans (hval u))
    rw [hgeq] at hp
    have h1 := isProxOf_coord (fun i u => lam * min (w i * |u|) rho) alpha x z hp i
    have hzi : z i = if |x i| ≤ rho ∧ 0 < w i then soft (w i * alpha * lam) (x i) else x i := by
      simp only [cadRegularizer, Except.ok.injEq] at hz
      rw [← hz]
    obtain ⟨c1, c2⟩ := cad_coord rho lam alpha (w i) (x i) hrho hlam ha hi
    constructor
    · intro h
      rw [hzi, if_pos ⟨h, hi⟩] at h1
      exact c1.1 h1
    · intro h
      rw [hzi, if_neg (fun h' => absurd h'.1 (not_le.2 h))] at h1
      rw [mul_assoc]
      exact c2.1 h1
  · intro h
    refine ⟨_, hval, _, rfl, isProxOf_of_coord (fun i u => lam * min (w i * |u|) rho) alpha x _ fun i => ?_⟩
    rcases (hw i).eq_or_lt with h0 | h0
    · intro u
      have : ¬ (|x i| ≤ rho ∧ 0 < w i) := by rw [← h0]; simp
      rw [if_neg this, ← h0]
      have := sq_nonneg (u - x i)
      simp [hrho]; linarith
    · obtain ⟨c1, c2⟩ := cad_coord rho lam alpha (w i) (x i) hrho hlam ha h0
      by_cases hx : |x i| ≤ rho
      · rw [if_pos ⟨hx, h0⟩]
        exact c1.2 ((h i h0).1 hx)
      · rw [if_neg (fun h' => hx h'.1)]
        exact c2.2 (by rw [← mul_assoc]; exact (h i h0).2 (not_le.1 hx))

/-- The same without weights: below the cut-off the prox is always exact, so that exactly the coordinates with `rho < |x_i|` and `H < alpha lam rho` are wrong. -/
theorem C05_cad_none_iff (rho lam alpha : K) (x : Vec K n) (hrho : 0 ≤ rho) (hlam : 0 ≤ lam) (ha : 0 ≤ alpha) :
    (cadRegularizer rho lam none).ExactAt alpha x ↔ ∀ i, rho < |x i| → alpha * lam * rho ≤ huber (alpha * lam) (x i) := by
  have hal : 0 ≤ alpha * lam := mul_nonneg ha hlam
  have h1 : (cadRegularizer rho lam (none : Option (Vec K n))).ExactAt alpha x ↔ (cadRegularizer rho lam (some fun _ : Fin n => (1 : K))).ExactAt alpha x := by
    unfold Regularizer.ExactAt
    simp only [cadRegularizer, one_mul, zero_lt_one, and_true]
  rw [h1, C05_cad_iff rho lam alpha _ x hrho hlam ha fun _ => zero_le_one]
  simp only [zero_lt_one, forall_const, one_mul]
  refine forall_congr' fun i => ⟨fun h hi => ?_, fun h => ⟨fun hi => ?_, fun hi => ?_⟩⟩
  · have := h.2 hi
    rwa [min_eq_right hi.le] at this
  · refine (huber_le (x i) (x i) hal).trans ?_
    have := mul_le_mul_of_nonneg_left hi hal
    rw [sub_self]
    linarith [show (0 : K) ^ 2 / 2 = 0 by ring]
  · rw [min_eq_right hi.le]
    exact h hi

/-- Non-vacuity of both directions: `rho = lam = alpha = 1`; `5/4` is in the wrong band, `3/2` at its end, and with a weight `4` a coordinate below the cut-off goes wrong too. -/
example : ¬ (cadRegularizer (1 : ℚ) 1 none).ExactAt 1 (fun _ : Fin 1 => 5/4) ∧ (cadRegularizer (1 : ℚ) 1 none).ExactAt 1 (fun _ : Fin 1 => 3/2) ∧
    ¬ (cadRegularizer (1 : ℚ) 1 (some fun _ => 4)).ExactAt (1/4) (fun _ : Fin 1 => 1) := by
  refine ⟨fun h => ?_, ?_, fun h => ?_⟩
  · have := (C05_cad_none_iff (1 : ℚ) 1 1 _ (by norm_num) (by norm_num) (by norm_num)).1 h 0 (by norm_num [abs_of_pos])
    norm_num [huber, abs_of_pos] at this
  · refine (C05_cad_none_iff (1 : ℚ) 1 1 _ (by norm_num) (by norm_num) (by norm_num)).2 fun i hi => ?_
    norm_num [huber, abs_of_pos]
  · have := ((C05_cad_iff (1 : ℚ) 1 (1/4) _ _ (by norm_num) (by norm_num) (by norm_num) (fun _ => by norm_num)).1 h 0 (by norm_num)).1 (by norm_num)
    norm_num [huber, abs_of_pos] at this

/-! ## SCAD -/

theorem scadTerm_le_linear (rho sigma u : K) (hrho : 1 < rho) (hs : 0 ≤ sigma) : scadTerm rho sigma 1 u ≤ sigma * |u| := by
  unfold scadTerm
  have hu : u ^ 2 = |u| ^ 2 := (sq_abs u).symm
  split_ifs with h1 h2
  · linarith
  · rw [div_le_iff₀ (by linarith), hu]
    nlinarith [sq_nonneg (|u| - sigma)]
  · have h3 : rho * sigma < |u| := not_le.1 fun h => h2 ⟨not_lt.1 h1, h⟩
    nlinarith [mul_le_mul_of_nonneg_left h3.le hs, mul_nonneg (sub_nonneg.2 hrho.le) (mul_nonneg hs hs)]

theorem scadTerm_le_flat (rho sigma u : K) (hrho : 1 < rho) (hs : 0 ≤ sigma) : scadTerm rho sigma 1 u ≤ sigma ^ 2 * (rho + 1) / 2 := by
  unfold scadTerm
  have hu : u ^ 2 = |u| ^ 2 := (sq_abs u).symm
  split_ifs with h1 h2
  · nlinarith [mul_le_mul_of_nonneg_left h1.le hs, mul_nonneg (sub_nonneg.2 hrho.le) (mul_nonneg hs hs)]
  · rw [div_le_iff₀ (by linarith), hu]
    nlinarith [sq_nonneg (|u| - rho * sigma)]
  · linarith

/-- Beyond the convex regime the smallest value of the SCAD problem is that of soft thresholding or that of staying. -/
theorem scad_low (rho sigma a x u : K) (hrho : 1 < rho) (hs : 0 ≤ sigma) (ha : rho - 1 ≤ a) :
    min (huber (sigma * a) x) (a * (sigma ^ 2 * (rho + 1) / 2)) ≤ a * scadTerm rho sigma 1 u + (u - x) ^ 2 / 2 := by
  have ha0 : 0 < a := by linarith
  have ht : 0 ≤ sigma * a := mul_nonneg hs ha0.le
  have hsq := sq_nonneg (u - x)
  have hlin : ∀ v : K, min (huber (sigma * a) x) (a * (sigma ^ 2 * (rho + 1) / 2)) ≤ a * (sigma * |v|) + (v - x) ^ 2 / 2 := fun v =>
    (min_le_left _ _).trans ((huber_le x v ht).trans (le_of_eq (by ring)))
  by_cases h1 : |u| < sigma
  · have e : scadTerm rho sigma 1 u = sigma * |u| := by unfold scadTerm; rw [if_pos h1, one_mul]
    rw [e]
    exact hlin u
  · by_cases h2 : |u| ≤ rho * sigma
    · have e : scadTerm rho sigma 1 u = (-u ^ 2 + 2 * rho * sigma * |u| - sigma ^ 2) / (2 * (rho - 1)) := by
        unfold scadTerm; rw [if_neg h1, if_pos ⟨not_lt.1 h1, h2⟩, one_mul]
      rw [e]
      rcases hs.eq_or_lt with h0 | h0
      · subst h0
        have hu : u = 0 := by simpa using h2
        subst hu
        simpa using hlin 0
      · obtain ⟨sg, q, hsg, hq, huq⟩ : ∃ sg q : K, sg ^ 2 = 1 ∧ q = |u| ∧ u = sg * q := by
          rcases le_total 0 u with h | h
          · exact ⟨1, u, by ring, (abs_of_nonneg h).symm, by ring⟩
          · exact ⟨-1, -u, by ring, (abs_of_nonpos h).symm, by ring⟩
        obtain ⟨mm, hmm⟩ : ∃ mm, mm = min (huber (sigma * a) x) (a * (sigma ^ 2 * (rho + 1) / 2)) := ⟨_, rfl⟩
        have hsg' : |sg| = 1 := by
          have h3 : |sg| ^ 2 = 1 := by rw [sq_abs]; exact hsg
          exact (pow_eq_one_iff_of_nonneg (abs_nonneg sg) two_ne_zero).1 h3
        have c1 : mm ≤ a * (sigma * sigma) + (sg * sigma - x) ^ 2 / 2 := by
          have := hlin (sg * sigma)
          rwa [abs_mul, hsg', one_mul, abs_of_pos h0, ← hmm] at this
        have c2 : mm ≤ a * (sigma ^ 2 * (rho + 1) / 2) + (sg * (rho * sigma) - x) ^ 2 / 2 := by
          rw [hmm]
          refine (min_le_right _ _).trans ?_
          linarith [sq_nonneg (sg * (rho * sigma) - x)]
        rw [← hmm, ← hq, huq]
        rw [← hq] at h1 h2
        have hr : 0 < (rho - 1) * sigma := mul_pos (by linarith) h0
        have k1 := mul_le_mul_of_nonneg_left c1 (sub_nonneg.2 h2)
        have k2 := mul_le_mul_of_nonneg_left c2 (sub_nonneg.2 (not_lt.1 h1))
        have hpos : 0 ≤ (rho - 1) * sigma * ((a - (rho - 1)) / (2 * (rho - 1)) * ((q - sigma) * (rho * sigma - q))) := by
          refine mul_nonneg hr.le (mul_nonneg (div_nonneg (by linarith) (by linarith)) (mul_nonneg (sub_nonneg.2 (not_lt.1 h1)) (sub_nonneg.2 h2)))
        have key : (rho - 1) * sigma * (a * ((-(sg * q) ^ 2 + 2 * rho * sigma * q - sigma ^ 2) / (2 * (rho - 1))) + (sg * q - x) ^ 2 / 2) =
            (rho * sigma - q) * (a * (sigma * sigma) + (sg * sigma - x) ^ 2 / 2) + (q - sigma) * (a * (sigma ^ 2 * (rho + 1) / 2) + (sg * (rho * sigma) - x) ^ 2 / 2)
              + (rho - 1) * sigma * ((a - (rho - 1)) / (2 * (rho - 1)) * ((q - sigma) * (rho * sigma - q))) := by
          have hr1 : rho - 1 ≠ 0 := by linarith
          have e1 : (sg * q) ^ 2 = q ^ 2 := by rw [mul_pow, hsg, one_mul]
          have e2 : (sg * q - x) ^ 2 = q ^ 2 - 2 * sg * q * x + x ^ 2 := by rw [← e1]; ring
          have e3 : (sg * sigma - x) ^ 2 = sigma ^ 2 - 2 * sg * sigma * x + x ^ 2 := by rw [show sigma ^ 2 = (sg * sigma) ^ 2 by rw [mul_pow, hsg, one_mul]]; ring
          have e4 : (sg * (rho * sigma) - x) ^ 2 = (rho * sigma) ^ 2 - 2 * sg * (rho * sigma) * x + x ^ 2 := by
            rw [show (rho * sigma) ^ 2 = (sg * (rho * sigma)) ^ 2 by rw [mul_pow sg, hsg, one_mul]]; ring
          rw [e1, e2, e3, e4]
          field_simp
          ring
        have h5 : (rho - 1) * sigma * mm ≤ (rho - 1) * sigma * (a * ((-(sg * q) ^ 2 + 2 * rho * sigma * q - sigma ^ 2) / (2 * (rho - 1))) + (sg * q - x) ^ 2 / 2) := by
          rw [key]
          linarith
        exact le_of_mul_le_mul_left h5 hr
    · have e : scadTerm rho sigma 1 u = sigma ^ 2 * (rho + 1) / 2 := by
        unfold scadTerm; rw [if_neg h1, if_neg fun h => h2 h.2, one_mul]
      rw [e]
      refine (min_le_right _ _).trans ?_
      linarith

/-- One coordinate of the SCAD problem beyond the convex regime. -/
theorem scad_coord (rho sigma lam alpha w x : K) (hrho : 1 < rho) (hs : 0 ≤ sigma) (ha : rho - 1 ≤ alpha * lam * w) :
    (IsProx1 (fun u => lam * scadTerm rho sigma w u) alpha x (soft (sigma * (alpha * lam * w)) x) ↔ huber (sigma * (alpha * lam * w)) x ≤ alpha * lam * w * (sigma ^ 2 * (rho + 1) / 2)) ∧
    (IsProx1 (fun u => lam * scadTerm rho sigma w u) alpha x x ↔ alpha * lam * w * scadTerm rho sigma 1 x ≤ huber (sigma * (alpha * lam * w)) x) := by
  obtain ⟨a, ha'⟩ : ∃ a, a = alpha * lam * w := ⟨_, rfl⟩
  have e : ∀ u, alpha * (lam * scadTerm rho sigma w u) = a * scadTerm rho sigma 1 u := fun u => by rw [scadTerm_weight, ha']; ring
  rw [← ha'] at ha ⊢
  have ha0 : 0 < a := by linarith
  have ht : 0 ≤ sigma * a := mul_nonneg hs ha0.le
  have hcost := soft_cost x ht
  have hmain := prox_two_cases (fun u => lam * scadTerm rho sigma w u) alpha (sigma * a) (a * (sigma ^ 2 * (rho + 1) / 2)) x
    (fun u => by rw [e]; exact scad_low rho sigma a x u hrho hs ha)
    (by
      rw [e, ← hcost]
      linarith [mul_le_mul_of_nonneg_left (scadTerm_le_linear rho sigma (soft (sigma * a) x) hrho hs) ha0.le])
    (by rw [e]; exact mul_le_mul_of_nonneg_left (scadTerm_le_flat rho sigma x hrho hs) ha0.le)
    (by
      rw [e]
      obtain ⟨s, hsd⟩ : ∃ s, s = soft (sigma * a) x := ⟨_, rfl⟩
      rw [← hsd] at hcost ⊢
      rcases lt_or_ge |s| sigma with h | h
      · left
        rw [← hcost]
        unfold scadTerm
        rw [if_pos h]
        ring
      · rcases hs.eq_or_lt with h0 | h0
        · left
          subst h0
          have : scadTerm rho 0 1 s = 0 := by
            unfold scadTerm
            split_ifs with h1 h2
            · simp
            · have : s = 0 := by simpa using h2.2
              simp [this]
            · simp
          rw [this, ← hcost]
          ring
        · have hsx : (s - x) ^ 2 = (sigma * a) ^ 2 := by
            rcases soft_cases x ht with ⟨_, h2⟩ | ⟨_, h2⟩ | ⟨_, h2⟩
            · rw [hsd, h2]; ring
            · rw [hsd, h2]; ring
            · rw [hsd, h2, abs_zero] at h
              exact absurd h (not_le.2 h0)
          rcases h.eq_or_lt with h3 | h3
          · left
            rw [← hcost]
            have : scadTerm rho sigma 1 s = sigma * |s| := by
              unfold scadTerm
              have hss : s ^ 2 = sigma ^ 2 := by rw [← sq_abs, ← h3]
              rw [if_neg (not_lt.2 h), if_pos ⟨h, by rw [← h3]; nlinarith⟩, hss, ← h3, div_eq_iff (by linarith)]
              ring
            rw [this]
            ring
          · right
            have hflat : a * (sigma ^ 2 * (rho + 1) / 2) ≤ a * sigma ^ 2 + (sigma * a) ^ 2 / 2 := by
              have := mul_nonneg (mul_nonneg ha0.le (sq_nonneg sigma)) (sub_nonneg.2 ha)
              linarith
            have hgt : sigma ^ 2 < scadTerm rho sigma 1 s := by
              unfold scadTerm
              have hss : s ^ 2 = |s| ^ 2 := (sq_abs s).symm
              rw [if_neg (not_lt.2 h)]
              split_ifs with h4
              · rw [lt_div_iff₀ (by linarith), hss]
                have h5 : 0 < (|s| - sigma) * (2 * rho * sigma - |s| - sigma) := mul_pos (by linarith) (by nlinarith [h4.2])
                nlinarith
              · nlinarith [mul_pos h0 h0, mul_pos (sub_pos.2 hrho) (mul_pos h0 h0)]
            have h6 := mul_lt_mul_of_pos_left hgt ha0
            have h7 : sigma * sigma < sigma * |s| := mul_lt_mul_of_pos_left h3 h0
            have h8 := mul_lt_mul_of_pos_left h7 ha0
            rw [hsx] at hcost ⊢
            constructor
            · rw [← hcost]; linarith
            · linarith)
  refine ⟨hmain.1, hmain.2.trans ?_⟩
  rw [e]

/-- Staying beyond `(1 + a) sigma` is right beyond the convex regime. -/
theorem scad_stay (rho sigma a x : K) (hrho : 1 < rho) (hs : 0 ≤ sigma) (ha : rho - 1 ≤ a) (hx : (1 + a) * sigma ≤ |x|) : a * scadTerm rho sigma 1 x ≤ huber (sigma * a) x := by
  have ha0 : 0 < a := by linarith
  refine (mul_le_mul_of_nonneg_left (scadTerm_le_flat rho sigma x hrho hs) ha0.le).trans ?_
  unfold huber
  split_ifs with h
  · have hs0 : sigma = 0 := le_antisymm (by linarith) hs
    rw [hs0]
    have := sq_nonneg x
    linarith [show a * ((0 : K) ^ 2 * (rho + 1) / 2) = 0 by ring]
  · have h1 := mul_le_mul_of_nonneg_left hx (mul_nonneg hs ha0.le)
    have h2 := mul_nonneg (mul_nonneg ha0.le (sq_nonneg sigma)) (sub_nonneg.2 ha)
    linarith

/-- Soft thresholding is right up to `rho sigma` at the border of the convex regime. -/
theorem scad_border (rho sigma x : K) (hrho : 1 < rho) (hx : |x| ≤ rho * sigma) : huber (sigma * (rho - 1)) x ≤ (rho - 1) * (sigma ^ 2 * (rho + 1) / 2) := by
  have hs : 0 ≤ sigma := by
    by_contra h
    push Not at h
    have := mul_neg_of_pos_of_neg (by linarith : 0 < rho) h
    linarith [abs_nonneg x]
  unfold huber
  split_ifs with h
  · have h1 : |x| ^ 2 ≤ (sigma * (rho - 1)) ^ 2 := pow_le_pow_left₀ (abs_nonneg x) h 2
    rw [sq_abs] at h1
    have h2 : 0 ≤ sigma ^ 2 * (rho - 1) := mul_nonneg (sq_nonneg _) (by linarith)
    nlinarith
  · have h1 := mul_le_mul_of_nonneg_left hx (mul_nonneg hs (sub_nonneg.2 hrho.le))
    linarith

/-- **C06**, exactly: with weights `w ≥ 0` the SCAD prox returns a minimiser if and only if every coordinate with positive weight is in one of these cases, where `a = alpha lam w`: the convex regime
`a < rho - 1`; beyond `(1 + a) sigma`; for `a > rho - 1`, where soft thresholding (which the code applies up to `(1 + a) sigma`) does not cost more than the flat part of the penalty; for `a = rho - 1` everywhere
except at `|x| = rho sigma`, where the code divides zero by zero. -/
theorem C06_scad_iff (rho sigma lam alpha : K) (weights : Option (Vec K n)) (x : Vec K n) (hrho : 1 < rho) (hs : 0 ≤ sigma) (hlam : 0 ≤ lam) (ha : 0 ≤ alpha)
    (hw : ∀ i, 0 ≤ weightsOrOnes weights i) :
    (scadRegularizer rho sigma lam weights).ExactAt alpha x ↔ ∀ i, 0 < weightsOrOnes weights i →
      alpha * lam * weightsOrOnes weights i < rho - 1 ∨ (1 + alpha * lam * weightsOrOnes weights i) * sigma < |x i| ∨
      (rho - 1 < alpha * lam * weightsOrOnes weights i ∧
        huber (sigma * (alpha * lam * weightsOrOnes weights i)) (x i) ≤ alpha * lam * weightsOrOnes weights i * (sigma ^ 2 * (rho + 1) / 2)) ∨
      (alpha * lam * weightsOrOnes weights i = rho - 1 ∧ |x i| ≠ rho * sigma) := by
  obtain ⟨w, hwd⟩ : ∃ w, w = weightsOrOnes weights := ⟨_, rfl⟩
  have hval : ∀ u : Vec K n, (scadRegularizer rho sigma lam weights).value u = .ok ((∑ i, lam * scadTerm rho sigma (w i) (u i) : K) : WithTop K) := fun u => by
    simp [scadRegularizer, Finset.mul_sum, hwd]
  have hprox : ∀ z, (scadRegularizer rho sigma lam weights).prox x alpha = .ok z ↔ ∀ i, scadProx1 rho sigma (w i) (alpha * lam * w i) (x i) = .ok (z i) := fun z => by
    rw [hwd]; exact collect_ok_iff _ _
  have hex : (scadRegularizer rho sigma lam weights).ExactAt alpha x ↔ ∀ i, ∃ z, scadProx1 rho sigma (w i) (alpha * lam * w i) (x i) = .ok z ∧ IsProx1 (fun u => lam * scadTerm rho sigma (w i) u) alpha (x i) z := by
    constructor
    · rintro ⟨g, hg, z, hz, hp⟩ i
      have hgeq : g = fun u => ((∑ i, lam * scadTerm rho sigma (w i) (u i) : K) : WithTop K) := funext fun u => Except.ok.inj ((hg u).symm.trans (hval u))
      rw [hgeq] at hp
      exact ⟨z i, (hprox z).1 hz i, isProxOf_coord (fun i u => lam * scadTerm rho sigma (w i) u) alpha x z hp i⟩
    · intro h
      choose z hz hp using h
      exact ⟨_, hval, z, (hprox z).2 hz, isProxOf_of_coord (fun i u => lam * scadTerm rho sigma (w i) u) alpha x z hp⟩
  rw [hex, ← hwd]
  rw [← hwd] at hw
  refine forall_congr' fun i => ?_
  rcases (hw i).eq_or_lt with h0 | h0
  · refine ⟨fun _ h => absurd h0 h.ne, fun _ => ⟨x i, by simp [scadProx1, ← h0], fun u => ?_⟩⟩
    have e : ∀ v : K, scadTerm rho sigma (w i) v = 0 := fun v => by rw [scadTerm_weight, ← h0, zero_mul]
    have := sq_nonneg (u - x i)
    simp only [e]; simp; linarith
  · rw [forall_prop_of_true h0]
    rcases lt_or_ge (alpha * lam * w i) (rho - 1) with hreg | hreg
    · refine ⟨fun _ => Or.inl hreg, fun _ => ?_⟩
      obtain ⟨z, hz, _, hstrong⟩ := scadProx1_strong rho sigma (w i) (alpha * lam * w i) (x i) hrho hs (mul_nonneg (mul_nonneg ha hlam) h0.le) hreg h0.ne'
      have e : ∀ v : K, alpha * (lam * scadTerm rho sigma (w i) v) = alpha * lam * w i * scadTerm rho sigma 1 v := by
        intro v; rw [scadTerm_weight]; ring
      refine ⟨z, hz, fun u => ?_⟩
      simp only [e]
      have h1 := hstrong u
      have h2 := mul_nonneg (sub_nonneg.2 hreg.le) (sq_nonneg (u - z))
      have h3 : 2 * (rho - 1) * (alpha * lam * w i * scadTerm rho sigma 1 z + (z - x i) ^ 2 / 2) ≤
        2 * (rho - 1) * (alpha * lam * w i * scadTerm rho sigma 1 u + (u - x i) ^ 2 / 2) := by linarith
      exact le_of_mul_le_mul_left h3 (by linarith)
    · obtain ⟨c1, c2⟩ := scad_coord rho sigma lam alpha (w i) (x i) hrho hs hreg
      obtain ⟨a, had⟩ : ∃ a, a = alpha * lam * w i := ⟨_, rfl⟩
      rw [← had] at hreg c1 c2 ⊢
      have ha0 : 0 < a := by linarith
      have hmax : max rho (1 + a) = 1 + a := max_eq_right (by linarith)
      rcases lt_or_ge ((1 + a) * sigma) |x i| with hx | hx
      · refine ⟨fun _ => Or.inr (Or.inl hx), fun _ => ⟨x i, ?_, c2.2 (scad_stay rho sigma a (x i) hrho hs hreg hx.le)⟩⟩
        unfold scadProx1
        rw [if_neg h0.ne', hmax, if_pos hx]
      · rcases hreg.eq_or_lt with heq | hlt
        · rcases eq_or_ne |x i| (rho * sigma) with he | he
          · constructor
            · rintro ⟨z, hz, -⟩
              exfalso
              unfold scadProx1 at hz
              rw [if_neg h0.ne', hmax, if_neg (not_lt.2 hx), if_pos ⟨by rw [he, ← heq]; linarith, hx⟩, if_pos (by rw [← heq]; ring)] at hz
              cases hz
            · rintro (h | h | ⟨h, -⟩ | ⟨-, h⟩)
              · exact absurd h (not_lt.2 hreg)
              · exact absurd h (not_lt.2 hx)
              · exact absurd heq h.ne
              · exact absurd he h
          · have hx' : |x i| ≤ rho * sigma := by rw [← heq] at hx; linarith
            refine ⟨fun _ => Or.inr (Or.inr (Or.inr ⟨heq.symm, he⟩)), fun _ => ⟨soft (sigma * a) (x i), ?_, c1.2 ?_⟩⟩
            · unfold scadProx1
              rw [if_neg h0.ne', hmax, if_neg (not_lt.2 hx), if_neg fun h => he (le_antisymm hx' (by rw [← heq] at h; linarith [h.1]))]
            · rw [← heq]; exact scad_border rho sigma (x i) hrho hx'
        · have hz : scadProx1 rho sigma (w i) a (x i) = .ok (soft (sigma * a) (x i)) := by
            unfold scadProx1
            rw [if_neg h0.ne', hmax, if_neg (not_lt.2 hx)]
            split_ifs with h1 h2
            · exact absurd h2 (by linarith)
            · congr 1
              have hxe : |x i| = sigma * (1 + a) := le_antisymm (by linarith) h1.1
              rw [div_eq_iff h2]
              rcases lt_trichotomy (x i) 0 with h | h | h
              · rw [abs_of_neg h] at hxe
                rw [soft_of_le_neg (mul_nonneg hs ha0.le) (by linarith), npSign, if_neg (not_lt.2 h.le), if_pos h, show x i = -(sigma * (1 + a)) by linarith]
                ring
              · rw [h, abs_zero] at hxe
                have hs0 : sigma = 0 := by
                  rcases mul_eq_zero.1 hxe.symm with h' | h'
                  · exact h'
                  · linarith
                rw [h, hs0]
                simp [soft, clip0]
              · rw [abs_of_pos h] at hxe
                rw [soft_of_ge (mul_nonneg hs ha0.le) (by linarith), npSign, if_pos h, hxe]
                ring
            · rfl
          constructor
          · rintro ⟨z, hz', hp⟩
            rw [hz] at hz'
            cases hz'
            exact Or.inr (Or.inr (Or.inl ⟨hlt, c1.1 hp⟩))
          · rintro (h | h | ⟨-, h⟩ | ⟨h, -⟩)
            · exact absurd h (not_lt.2 hreg)
            · exact absurd h (not_lt.2 hx)
            · exact ⟨_, hz, c1.2 h⟩
            · exact absurd h hlt.ne'

/-- Non-vacuity of both directions, beyond the convex regime (`rho = 2`, `sigma = 1`, `alpha lam = 2`): the code is right at `5/2` and at `4`, and wrong at `11/4`. -/
example : (scadRegularizer (2 : ℚ) 1 2 none).ExactAt 1 ![5/2, 4] ∧ ¬ (scadRegularizer (2 : ℚ) 1 2 none).ExactAt 1 ![5/2, 11/4] := by
  have hiff := fun x : Vec ℚ 2 => C06_scad_iff (2 : ℚ) 1 2 1 none x (by norm_num) (by norm_num) (by norm_num) (by norm_num) (fun i => by norm_num [weightsOrOnes])
  refine ⟨(hiff _).2 fun i _ => ?_, fun h => ?_⟩
  · fin_cases i
    · right; right; left
      norm_num [weightsOrOnes, huber, abs_of_pos]
    · right; left
      norm_num [weightsOrOnes, abs_of_pos]
  · have := (hiff _).1 h 1 (by norm_num [weightsOrOnes])
    norm_num [weightsOrOnes, huber, abs_of_pos] at this

end Verif
