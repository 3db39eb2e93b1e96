import Verif.Props.FloatFit
import Mathlib.Data.Int.Log

/-!
# Formats with the standard rounding errors (C155)
-/

namespace Verif

open FArith

noncomputable section

/-- The precision of summation from left to right with unit roundoff `u` and absolute error `eta`. -/
def foldPrec (u eta : ℝ) : Prec := ⟨u, eta, fun k => (1 + u) ^ k - 1, fun k => eta * ∑ i ∈ Finset.range k, (1 + u) ^ i⟩

theorem foldSum_err (A : FArith) {u eta : ℝ} (hu : 0 ≤ u) (he : 0 ≤ eta) (hr : ∀ r, |A.rnd r - r| ≤ u * |r| + eta) :
    ∀ k (v : Fin k → Flt) s, foldSum A k v = .fin s → ∃ w : Vec ℝ k, v = liftV w ∧ |s - ∑ i, w i| ≤ (foldPrec u eta).gam k * ∑ i, |w i| + (foldPrec u eta).eps k
  | 0, v, s, h => by
    injection h with h
    subst h
    refine ⟨fun i => i.elim0, funext fun i => i.elim0, ?_⟩
    simp [foldPrec]
  | 1, v, s, h => by
    refine ⟨fun _ => s, funext fun i => ?_, ?_⟩
    · rw [Subsingleton.elim i 0]
      exact h
    · simp only [Finset.univ_unique, Finset.sum_const, Finset.card_singleton, one_smul, sub_self, abs_zero, foldPrec, Finset.sum_range_one, pow_zero, pow_one, mul_one, add_sub_cancel_left]
      positivity
  | k + 2, v, s, h => by
    obtain ⟨c, d, hc, hd, hs⟩ := add_fin (A := A) (x := foldSum A (k + 1) fun i => v i.castSucc) (y := v (Fin.last (k + 1))) h
    obtain ⟨w, hw, hb⟩ := foldSum_err A hu he hr (k + 1) _ c hc
    refine ⟨Fin.snoc w d, funext fun i => ?_, ?_⟩
    · rcases Fin.eq_castSucc_or_eq_last i with ⟨i, rfl⟩ | rfl
      · have := congrFun hw i
        simp only [liftV, Fin.snoc_castSucc] at this ⊢
        exact this
      · simp only [liftV, Fin.snoc_last]
        exact hd
    · have e0 : ∑ i, (Fin.snoc w d : Vec ℝ (k + 2)) i = ∑ i, w i + d := by
        rw [Fin.sum_univ_castSucc]
        simp only [Fin.snoc_castSucc, Fin.snoc_last]
      have e0' : ∑ i, |(Fin.snoc w d : Vec ℝ (k + 2)) i| = ∑ i, |w i| + |d| := by
        rw [Fin.sum_univ_castSucc]
        simp only [Fin.snoc_castSucc, Fin.snoc_last]
      rw [e0, e0']
      have h1 := hr (c + d)
      rw [← hs] at h1
      have h2 : |c + d| ≤ (∑ i, |w i|) + |d| + |c - ∑ i, w i| := by
        have e1 := abs_add_le (c - ∑ i, w i) (∑ i, w i)
        rw [sub_add_cancel] at e1
        have e2 := Finset.abs_sum_le_sum_abs w Finset.univ
        linarith [abs_add_le c d]
      have h3 := mul_le_mul_of_nonneg_left h2 hu
      have h4 := abs_add_le (s - (c + d)) (c - ∑ i, w i)
      rw [show s - (c + d) + (c - ∑ i, w i) = s - (∑ i, w i + d) by ring] at h4
      have h5 := mul_le_mul_of_nonneg_left hb (show 0 ≤ 1 + u by linarith)
      have e1 : (foldPrec u eta).gam (k + 2) = (1 + u) * (foldPrec u eta).gam (k + 1) + u := by
        simp only [foldPrec]
        ring
      have e2 : (foldPrec u eta).eps (k + 2) = (1 + u) * (foldPrec u eta).eps (k + 1) + eta := by
        simp only [foldPrec]
        rw [Finset.sum_range_succ', pow_zero, mul_add, mul_one, ← mul_assoc, mul_comm (1 + u), mul_assoc, Finset.mul_sum (Finset.range (k + 1)) _ (1 + u)]
        congr 2
        exact Finset.sum_congr rfl fun i _ => by ring
      have h6 : 0 ≤ (foldPrec u eta).gam (k + 2) - u := by
        have : (1 : ℝ) ≤ (1 + u) ^ (k + 1) := one_le_pow₀ (by linarith)
        rw [e1]
        simp only [foldPrec]
        nlinarith
      have h7 := mul_nonneg h6 (abs_nonneg d)
      rw [e1] at h7 ⊢
      rw [e2]
      nlinarith

/-- Every format with the standard errors of the single operations, summing from left to right, has the standard errors of sums. -/
theorem fold_fits (A : FArith) {u eta : ℝ} (hu : 0 ≤ u) (hu1 : u < 1) (he : 0 ≤ eta) (hr : ∀ r, |A.rnd r - r| ≤ u * |r| + eta) : (foldPrec u eta).Fits (withFold A) where
  u_nonneg := hu
  u_lt := hu1
  eta_nonneg := he
  gam_nonneg k := by
    have : (1 : ℝ) ≤ (1 + u) ^ k := one_le_pow₀ (by linarith)
    simp only [foldPrec]
    linarith
  eps_nonneg k := mul_nonneg he (Finset.sum_nonneg fun i _ => pow_nonneg (by linarith) i)
  round := hr
  sums := foldSum_err A hu he hr

/-! ### binary64 -/

/-- Truncation of a positive number to 53 binary digits. -/
def cut64 (r : ℝ) : ℝ := ⌊r / 2 ^ (Int.log 2 r - 52)⌋ * 2 ^ (Int.log 2 r - 52)

/-- Truncation to 53 binary digits. -/
def rnd64 (r : ℝ) : ℝ := if 0 ≤ r then cut64 r else -cut64 (-r)

theorem cut64_zero : cut64 0 = 0 := by simp [cut64]

theorem cut64_le {r : ℝ} : cut64 r ≤ r := by
  unfold cut64
  rw [← le_div_iff₀ (by positivity)]
  exact Int.floor_le _

theorem pow_le_cut64 {r : ℝ} (h : 0 < r) : (2 : ℝ) ^ Int.log 2 r ≤ cut64 r := by
  have h1 : (2 : ℝ) ^ Int.log 2 r ≤ r := by exact_mod_cast Int.zpow_log_le_self (b := 2) (by norm_num) h
  have h2 : (2 : ℝ) ^ Int.log 2 r = ((2 ^ 52 : ℤ) : ℝ) * 2 ^ (Int.log 2 r - 52) := by
    have e : ((2 ^ 52 : ℤ) : ℝ) = (2 : ℝ) ^ (52 : ℤ) := by norm_num
    rw [e, ← zpow_add₀ (by norm_num)]
    congr 1
    ring
  unfold cut64
  rw [h2]
  refine mul_le_mul_of_nonneg_right ?_ (by positivity)
  rw [Int.cast_le, Int.le_floor, le_div_iff₀ (by positivity), ← h2]
  exact h1

theorem cut64_pos {r : ℝ} (h : 0 < r) : 0 < cut64 r := (by positivity : (0 : ℝ) < 2 ^ Int.log 2 r).trans_le (pow_le_cut64 h)

theorem cut64_nonneg {r : ℝ} (h : 0 ≤ r) : 0 ≤ cut64 r := by
  rcases h.eq_or_lt with rfl | h
  · rw [cut64_zero]
  · exact (cut64_pos h).le

theorem cut64_mono {r s : ℝ} (h : 0 ≤ r) (hrs : r ≤ s) : cut64 r ≤ cut64 s := by
  rcases h.eq_or_lt with rfl | h
  · rw [cut64_zero]
    exact cut64_nonneg hrs
  · have hl : Int.log 2 r ≤ Int.log 2 s := Int.log_mono_right h hrs
    rcases hl.eq_or_lt with e | e
    · unfold cut64
      rw [← e]
      refine mul_le_mul_of_nonneg_right ?_ (by positivity)
      exact_mod_cast Int.floor_le_floor (div_le_div_of_nonneg_right hrs (by positivity))
    · have h1 : r < (2 : ℝ) ^ (Int.log 2 r + 1) := by exact_mod_cast Int.lt_zpow_succ_log_self (b := 2) (by norm_num) r
      have h2 : (2 : ℝ) ^ (Int.log 2 r + 1) ≤ 2 ^ Int.log 2 s := zpow_le_zpow_right₀ (by norm_num) (by omega)
      exact cut64_le.trans (h1.le.trans (h2.trans (pow_le_cut64 (h.trans_le hrs))))

theorem cut64_idem {r : ℝ} (h : 0 ≤ r) : cut64 (cut64 r) = cut64 r := by
  rcases h.eq_or_lt with rfl | h
  · rw [cut64_zero, cut64_zero]
  · have e : Int.log 2 (cut64 r) = Int.log 2 r := by
      refine le_antisymm (Int.log_mono_right (cut64_pos h) cut64_le) ?_
      have := Int.log_mono_right (b := 2) (by positivity : (0 : ℝ) < 2 ^ Int.log 2 r) (pow_le_cut64 h)
      rwa [show ((2 : ℝ) ^ Int.log 2 r) = (((2 : ℕ) : ℝ) ^ Int.log 2 r) by norm_num, Int.log_zpow (by norm_num)] at this
    show (⌊cut64 r / 2 ^ (Int.log 2 (cut64 r) - 52)⌋ : ℝ) * 2 ^ (Int.log 2 (cut64 r) - 52) = _
    rw [e]
    have : cut64 r / 2 ^ (Int.log 2 r - 52) = (⌊r / 2 ^ (Int.log 2 r - 52)⌋ : ℝ) := by
      unfold cut64
      rw [mul_div_assoc, div_self (by positivity), mul_one]
    rw [this, Int.floor_intCast]
    rfl

theorem cut64_err {r : ℝ} (h : 0 ≤ r) : |cut64 r - r| ≤ 1 / 2 ^ 52 * r := by
  rcases h.eq_or_lt with rfl | h
  · simp [cut64_zero]
  · have h1 : (2 : ℝ) ^ Int.log 2 r ≤ r := by exact_mod_cast Int.zpow_log_le_self (b := 2) (by norm_num) h
    have h2 : (2 : ℝ) ^ (Int.log 2 r - 52) = 2 ^ Int.log 2 r * (1 / 2 ^ 52) := by
      rw [zpow_sub₀ (by norm_num), div_eq_mul_one_div]
      norm_num
    have h3 : r < cut64 r + 2 ^ (Int.log 2 r - 52) := by
      have := Int.lt_floor_add_one (r / 2 ^ (Int.log 2 r - 52))
      rw [div_lt_iff₀ (by positivity), add_mul, one_mul] at this
      exact this
    rw [abs_sub_comm, abs_of_nonneg (by linarith [cut64_le (r := r)])]
    rw [h2] at h3
    nlinarith

theorem rnd64_odd (r : ℝ) : rnd64 (-r) = -rnd64 r := by
  unfold rnd64
  rcases lt_trichotomy r 0 with h | h | h
  · rw [if_pos (by linarith), if_neg (by linarith), neg_neg]
  · rw [h]
    simp [cut64_zero]
  · rw [if_neg (by linarith), if_pos h.le, neg_neg]

theorem rnd64_err (r : ℝ) : |rnd64 r - r| ≤ 1 / 2 ^ 52 * |r| + 0 := by
  rw [add_zero]
  unfold rnd64
  split_ifs with h
  · rw [abs_of_nonneg h]
    exact cut64_err h
  · have := cut64_err (r := -r) (by linarith)
    rw [abs_of_neg (not_le.1 h), ← abs_neg]
    rwa [show -(-cut64 (-r) - r) = cut64 (-r) - -r by ring]

theorem rnd64_abs (r : ℝ) : |rnd64 r| ≤ |r| := by
  unfold rnd64
  split_ifs with h
  · rw [abs_of_nonneg h, abs_of_nonneg (cut64_nonneg h)]
    exact cut64_le
  · have h := not_le.1 h
    rw [abs_of_neg h, abs_neg, abs_of_nonneg (cut64_nonneg (by linarith))]
    exact cut64_le

theorem rnd64_mono : Monotone rnd64 := by
  intro r s hrs
  unfold rnd64
  split_ifs with h1 h2 h2
  · exact cut64_mono h1 hrs
  · linarith
  · have := cut64_nonneg (r := -r) (by linarith)
    linarith [cut64_nonneg h2]
  · have := cut64_mono (r := -s) (s := -r) (by linarith) (by linarith)
    linarith

theorem rnd64_idem (r : ℝ) : rnd64 (rnd64 r) = rnd64 r := by
  have key : ∀ r, 0 ≤ r → rnd64 (rnd64 r) = rnd64 r := fun r h => by
    have e : rnd64 r = cut64 r := if_pos h
    rw [e]
    exact (if_pos (cut64_nonneg h)).trans (cut64_idem h)
  rcases le_total 0 r with h | h
  · exact key r h
  · have := key (-r) (by linarith)
    rw [rnd64_odd, rnd64_odd] at this
    exact neg_injective this

/-- binary64 with truncation and without subnormal numbers: 53 binary digits, the largest number `2¹⁰²⁴ - 2⁹⁷¹`. -/
def arith64 : FArith :=
  withFold
    { rnd := rnd64, big := ((2 ^ 1024 - 2 ^ 971 : ℝ) : WithTop ℝ), sum := plainSum, mono := rnd64_mono, odd := rnd64_odd, idem := rnd64_idem
      one := by
        have h1 : Int.log 2 (1 : ℝ) = 0 := Int.log_one_right 2
        show (if (0 : ℝ) ≤ 1 then cut64 1 else _) = 1
        rw [if_pos zero_le_one]
        unfold cut64
        rw [h1]
        have : (1 : ℝ) / 2 ^ ((0 : ℤ) - 52) = ((2 ^ 52 : ℤ) : ℝ) := by norm_num
        rw [this, Int.floor_intCast]
        norm_num
      one_le_big := by
        refine WithTop.coe_le_coe.2 ?_
        have h1 : (2 : ℝ) ^ 1024 = 2 ^ 971 * 2 ^ 53 := by rw [← pow_add]
        have h2 : (1 : ℝ) ≤ 2 ^ 971 := one_le_pow₀ (by norm_num)
        rw [h1]
        clear h1
        generalize (2 : ℝ) ^ 971 = q at *
        norm_num
        linarith
      rnd_le_big := fun r h => (WithTop.coe_le_coe.2 (rnd64_abs r)).trans h
      rel := fun r _ => by
        have := rnd64_err r
        have h0 := abs_nonneg r
        norm_num at this ⊢
        linarith
      sum_one := fun v => by simp [plainSum], sum_nonneg := plainSum_nonneg, sum_pinf := plainSum_pinf }

/-- binary64 with truncation has the unit roundoff `2⁻⁵²`. -/
theorem arith64_fits : (foldPrec (1 / 2 ^ 52) 0).Fits arith64 := fold_fits _ (by norm_num) (by norm_num) le_rfl rnd64_err

/-- The fixed-point format has the absolute error `2⁻⁶⁰`. -/
theorem trunc_fits : (foldPrec 0 (1 / 2 ^ 60)).Fits truncArith := by
  refine fold_fits _ le_rfl zero_lt_one (by positivity) fun r => ?_
  show |truncRnd r - r| ≤ _
  rw [zero_mul, zero_add]
  have key : ∀ r : ℝ, 0 ≤ r → |truncRnd r - r| ≤ 1 / 2 ^ 60 := fun r h => by
    unfold truncRnd
    rw [if_pos h]
    have h1 := Int.floor_le (r * 2 ^ 60)
    have h2 := Int.lt_floor_add_one (r * 2 ^ 60)
    have h3 : (⌊r * 2 ^ 60⌋ : ℝ) / 2 ^ 60 ≤ r := (div_le_iff₀ (by positivity)).2 h1
    have h4 : r < (⌊r * 2 ^ 60⌋ : ℝ) / 2 ^ 60 + 1 / 2 ^ 60 := by
      rw [← add_div, lt_div_iff₀ (by positivity)]
      exact h2
    rw [abs_sub_comm, abs_of_nonneg (by linarith)]
    linarith
  rcases le_total 0 r with h | h
  · exact key r h
  · have := key (-r) (by linarith)
    rw [truncRnd_odd] at this
    rw [← abs_neg]
    rwa [neg_sub, ← neg_sub_neg]

/-- One observation 1 of the feature 1, L1 penalty of strength 1, fixed steps of length 1: in every format the solver finds 0 after two passes and reports convergence. -/
theorem unit_run (A : FArith) :
    let r := flOptimize A (⟨fun _ => 0, flLinGradient A (fun _ => liftV fun _ : Fin 1 => 1) (liftV fun _ : Fin 1 => 1), flL1 A (.fin 1) (some (liftV fun _ => 1))⟩ : FlProblem 1)
      ⟨.fin (1 / 2), 1000, "fixed", 1⟩ (liftV fun _ => 1)
    r.x = liftV (fun _ => 0) ∧ r.converged = true := by
  have e0 : (0 : Flt) = .fin 0 := rfl
  have e1 : (1 : Flt) = .fin 1 := rfl
  have hz := ofReal_zero A
  have ho := ofReal_one A
  have hm : A.ofReal (-1) = .fin (-1) := by rw [A.ofReal_neg, ho]; rfl
  rw [e0] at hz
  rw [e1] at ho
  have hne : ¬ ("fixed" = "line-search") := by decide
  obtain ⟨P, hP⟩ : ∃ P : FlProblem 1, P = ⟨fun _ => 0, flLinGradient A (fun _ => liftV fun _ : Fin 1 => 1) (liftV fun _ : Fin 1 => 1), flL1 A (.fin 1) (some (liftV fun _ => 1))⟩ := ⟨_, rfl⟩
  obtain ⟨cfg, hcfg⟩ : ∃ cfg : FlCfg, cfg = ⟨.fin (1 / 2), 1000, "fixed", 1⟩ := ⟨_, rfl⟩
  have hsoft : flSoft A (.fin 1) (.fin 1) = .fin 0 := by
    obtain ⟨s, h1, -, -, -, h2, -⟩ := C131_soft A (r := 1) ⟨A.one, by rw [abs_one]; exact A.one_le_big⟩ (t := .fin 1) (notNeg_fin.2 zero_le_one) (fun h => by cases h)
    rw [h1, h2 (by simp [Flt.le])]
  have hb : ∀ c : ℝ, A.mul (.fin 1) (.fin c) = .fin c → A.add (.fin c) (.fin (-1)) = .fin (c + -1) → A.mul (.fin 1) (.fin (c + -1)) = .fin (c + -1) → A.add (.fin (c + -1)) (.fin 0) = .fin (c + -1) →
      A.mul (.fin 1) (.fin (-(c + -1))) = .fin (-(c + -1)) → flBody A P cfg (liftV fun _ => c) = liftV fun _ => 0 := by
    intro c h1 h2 h3 h4 h5
    have hg : flLinGradient A (fun _ => liftV fun _ : Fin 1 => 1) (liftV fun _ : Fin 1 => 1) (liftV fun _ => c) = liftV fun _ => c + -1 := by
      funext j
      unfold flLinGradient flResidual FArith.dot
      simp only [A.sum_one, liftV, FArith.sub, Flt.neg, h1, h2, h3, e0, h4]
    rw [hP, hcfg]
    unfold flBody flMove flL1
    simp only [if_neg hne, hg]
    funext j
    simp only [liftV, Flt.neg, h5]
    rw [show A.add (.fin c) (.fin (-(c + -1))) = .fin 1 by show A.ofReal (c + -(c + -1)) = _; rw [show c + -(c + -1) = 1 by ring, ho]]
    rw [show A.mul (.fin 1) (.fin 1) = .fin 1 by show A.ofReal (1 * 1) = _; rw [mul_one, ho]]
    rw [show A.mul (.fin 1) (.fin 1) = .fin 1 by show A.ofReal (1 * 1) = _; rw [mul_one, ho]]
    exact hsoft
  have hb1 := hb 1 (by simp only [FArith.mul, mul_one, ho]) (by simp only [FArith.add, add_neg_cancel, hz]) (by simp only [FArith.mul, add_neg_cancel, mul_zero, hz])
    (by simp only [FArith.add, add_neg_cancel, add_zero, hz]) (by simp only [FArith.mul, add_neg_cancel, neg_zero, mul_zero, hz])
  have hb2 := hb 0 (by simp only [FArith.mul, mul_zero, hz]) (by simp only [FArith.add, zero_add, hm]) (by simp only [FArith.mul, zero_add, one_mul, hm])
    (by simp only [FArith.add, zero_add, add_zero, hm]) (by simp only [FArith.mul, zero_add, neg_neg, mul_one, ho])
  have hfar : ∀ c : ℝ, A.sub (.fin 0) (.fin c) = .fin (-c) → (flFar A cfg (liftV fun _ : Fin 1 => 0) (liftV fun _ => c) ↔ Flt.lt (.fin (1 / 2)) (A.sqrt (A.ofReal (c * c)))) := by
    intro c h
    rw [hcfg]
    unfold flFar FArith.norm FArith.dot
    simp only [A.sum_one, liftV, h, FArith.mul, neg_mul_neg]
  have hf0 : flFar A cfg (liftV fun _ : Fin 1 => 1) (fun _ => .pinf) := by
    rw [hcfg]
    unfold flFar FArith.norm FArith.dot
    simp only [A.sum_one, liftV, FArith.sub, Flt.neg, FArith.add, FArith.mul, FArith.sqrt]
    trivial
  have hf1 : flFar A cfg (liftV fun _ : Fin 1 => 0) (liftV fun _ => 1) := by
    rw [hfar 1 (by simp only [FArith.sub, Flt.neg, FArith.add, zero_add, hm])]
    simp only [mul_one, ho, FArith.sqrt, Real.sqrt_one, if_neg (show ¬ (1 : ℝ) < 0 by norm_num)]
    show (1 / 2 : ℝ) < 1
    norm_num
  have hf2 : ¬ flFar A cfg (liftV fun _ : Fin 1 => 0) (liftV fun _ => 0) := by
    rw [hfar 0 (by simp only [FArith.sub, Flt.neg, FArith.add, neg_zero, zero_add, hz])]
    simp only [mul_zero, hz, FArith.sqrt, Real.sqrt_zero, lt_irrefl, if_false]
    show ¬ (1 / 2 : ℝ) < 0
    norm_num
  have hmi : cfg.maxIter = 1000 := by rw [hcfg]
  have hl : flLoop A P cfg (liftV fun _ => 1) (fun _ => .pinf) 0 = (liftV fun _ => 0, 2) := by
    rw [flLoop, dif_pos ⟨hf0, by rw [hmi]; norm_num⟩, hb1, flLoop, dif_pos ⟨hf1, by rw [hmi]; norm_num⟩, hb2, flLoop, dif_neg fun h => hf2 h.1]
  rw [← hP, ← hcfg]
  intro r
  have hr : r = ⟨liftV fun _ => 0, 2, true⟩ := by
    show flOptimize A P cfg _ = _
    unfold flOptimize
    rw [hl, hmi]
    rfl
  rw [hr]
  exact ⟨rfl, rfl⟩

theorem unit_matrix : (fun r => liftV ((1 : Matrix (Fin 1) (Fin 1) ℝ) r)) = fun _ : Fin 1 => liftV fun _ : Fin 1 => (1 : ℝ) := by
  funext r i
  rw [Subsingleton.elim r 0, Subsingleton.elim i 0]
  simp [liftV]

theorem unit_reg (A : FArith) : FlLassoLike A (flL1 A (.fin 1) (some (liftV fun _ : Fin 1 => 1))) 1 1 fun _ => 1 := by
  have h1 : A.mul (.fin 1) (.fin 1) = .fin 1 := by
    show A.ofReal (1 * 1) = _
    rw [mul_one, ofReal_one]
    rfl
  exact Or.inr ⟨rfl, zero_le_one, fun j => ⟨zero_le_one, 1, by show A.mul (A.mul (.fin 1) (.fin 1)) (.fin 1) = _; rw [h1, h1]⟩⟩

/-- The accuracy statement applied to this run in binary64 with truncation. -/
example :
    ∃ z : ℝ, |z| ≤ 1 ∧ |(1 : ℝ) - z| ≤ (foldPrec (1 / 2 ^ 52) 0).stopDist 1 (1 / 2) * (1 / 1 + 1) + gradErrAt (foldPrec (1 / 2 ^ 52) 0) (1 : Matrix (Fin 1) (Fin 1) ℝ) (fun _ => 1) (fun _ => 0) ((foldPrec (1 / 2 ^ 52) 0).stopDist 1 (1 / 2)) 0
      + (foldPrec (1 / 2 ^ 52) 0).stepErr 1 1 1 (gradSizeAt (foldPrec (1 / 2 ^ 52) 0) (1 : Matrix (Fin 1) (Fin 1) ℝ) (fun _ => 1) (fun _ => 0) ((foldPrec (1 / 2 ^ 52) 0).stopDist 1 (1 / 2)) 0)
          (|0| + (foldPrec (1 / 2 ^ 52) 0).stopDist 1 (1 / 2)) / 1 := by
  obtain ⟨hx, hc⟩ := unit_run arith64
  rw [← unit_matrix] at hx hc
  obtain ⟨t, -, -, -, ht, h⟩ := C155_stationary arith64_fits (1 : Matrix (Fin 1) (Fin 1) ℝ) (fun _ => 1) zero_lt_one (by norm_num [foldPrec]) ⟨.fin (1 / 2), 1000, "fixed", 1⟩ (1 / 2) rfl zero_lt_one
    (flL1 arith64 (.fin 1) (some (liftV fun _ => 1))) 1 (fun _ => 1) (unit_reg arith64)
    1 (fun h => by simp) (fun _ => 0) (fun _ => 1) (fun _ => 0) hx hc
  have ht1 : t = 1 := ht (by show "fixed" ≠ "line-search"; decide)
  subst ht1
  obtain ⟨z, hz, -, -, hb⟩ := h 0
  refine ⟨z, hz, ?_⟩
  simpa using hb

/-- The distance to the exact minimiser, 0, for the same run. -/
example :
    √(∑ _j : Fin 1, ((0 : ℝ) - 0) ^ 2) ≤ 2 / 1 * √(∑ j, fitErr (foldPrec (1 / 2 ^ 52) 0) (1 : Matrix (Fin 1) (Fin 1) ℝ) (fun _ => 1) 1 1 (1 / 2) 1 (fun _ => 1) (fun _ => 0) j ^ 2) := by
  obtain ⟨hx, hc⟩ := unit_run arith64
  rw [← unit_matrix] at hx hc
  refine (C155_error arith64_fits (1 : Matrix (Fin 1) (Fin 1) ℝ) (fun _ => 1) zero_lt_one (by norm_num [foldPrec]) ⟨.fin (1 / 2), 1000, "fixed", 1⟩ (by show "fixed" ≠ "line-search"; decide) (1 / 2) rfl zero_lt_one
    (flL1 arith64 (.fin 1) (some (liftV fun _ => 1))) 1 (fun _ => 1) (unit_reg arith64) 1 (fun h => by simp) (fun _ => 0) (fun _ => 1) (fun _ => 0) hx hc).2 1 zero_lt_one (fun h => by simp) (fun _ => 0) fun v => ?_
  simp only [lassoObjective, Finset.univ_unique, Fin.default_eq_zero, Finset.sum_singleton, Matrix.one_apply_eq, abs_zero, one_mul]
  nlinarith [le_abs_self (v 0), sq_nonneg (v 0)]

/-- The computed gradient at 0 is finite in every format. -/
example : |(-1 : ℝ) - ∑ r, (1 : Matrix (Fin 1) (Fin 1) ℝ) r 0 * ((∑ i, (1 : Matrix (Fin 1) (Fin 1) ℝ) r i * 0) - 1)| ≤
    (foldPrec (1 / 2 ^ 52) 0).gradRel 1 1 * (∑ r, |(1 : Matrix (Fin 1) (Fin 1) ℝ) r 0| * ((∑ i, |(1 : Matrix (Fin 1) (Fin 1) ℝ) r i| * |0|) + |1|))
      + (foldPrec (1 / 2 ^ 52) 0).gradAbs 1 1 (∑ r, |(1 : Matrix (Fin 1) (Fin 1) ℝ) r 0|) := by
  refine C155_gradient arith64_fits (1 : Matrix (Fin 1) (Fin 1) ℝ) (fun _ => 1) (fun _ => 0) 0 (-1) ?_
  have hz : arith64.ofReal 0 = .fin 0 := ofReal_zero arith64
  have hm : arith64.ofReal (-1) = .fin (-1) := by rw [arith64.ofReal_neg, ofReal_one]; rfl
  rw [unit_matrix]
  unfold flLinGradient flResidual FArith.dot
  simp only [arith64.sum_one, liftV, FArith.sub, Flt.neg, FArith.mul, mul_zero, hz, FArith.add, zero_add, hm, one_mul]
  show arith64.ofReal (-1 + 0) = _
  rw [add_zero, hm]

end

end Verif
