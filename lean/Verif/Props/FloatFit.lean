import Verif.Props.FloatProx
import Verif.Props.FloatExact
import Verif.Props.LinSr3Stat
import Mathlib.Algebra.Order.Chebyshev

/-!
# Accuracy of converged fits in floating-point arithmetic (C155)
-/

namespace Verif

open FArith

noncomputable section

/-- The precision of a format: unit roundoff `u`, absolute error `eta` of results near zero, and the relative and absolute errors `gam`, `eps` of sums by number of terms. -/
structure Prec where
  u : ℝ
  eta : ℝ
  gam : ℕ → ℝ
  eps : ℕ → ℝ

/-- The standard model of rounding errors: a rounded result has the relative error `u` and the absolute error `eta`; a sum comes out finite only if all its terms are, and its error is at
most `gam` times the sum of the absolute values, plus `eps`. (binary64, to the nearest: `u = 2⁻⁵³`, `eta = 2⁻¹⁰⁷⁵`; for summation from left to right see `fold_fits`.) -/
structure Prec.Fits (p : Prec) (A : FArith) : Prop where
  u_nonneg : 0 ≤ p.u
  u_lt : p.u < 1
  eta_nonneg : 0 ≤ p.eta
  gam_nonneg : ∀ k, 0 ≤ p.gam k
  eps_nonneg : ∀ k, 0 ≤ p.eps k
  round : ∀ r, |A.rnd r - r| ≤ p.u * |r| + p.eta
  sums : ∀ k v s, A.sum k v = .fin s → ∃ w : Vec ℝ k, v = liftV w ∧ |s - ∑ i, w i| ≤ p.gam k * ∑ i, |w i| + p.eps k

section arith
variable {A : FArith}

theorem ofReal_fin {r v : ℝ} (h : A.ofReal r = .fin v) : v = A.rnd r := by
  unfold FArith.ofReal at h
  split_ifs at h
  injection h with h
  exact h.symm

theorem add_fin {x y : Flt} {v : ℝ} (h : A.add x y = .fin v) : ∃ a b, x = .fin a ∧ y = .fin b ∧ v = A.rnd (a + b) := by
  cases x <;> cases y <;> simp only [FArith.add] at h <;> first | exact ⟨_, _, rfl, rfl, ofReal_fin h⟩ | cases h

theorem neg_fin {x : Flt} {v : ℝ} (h : x.neg = .fin v) : x = .fin (-v) := by
  cases x <;> simp only [Flt.neg, Flt.fin.injEq, reduceCtorEq] at h
  rw [← h, neg_neg]

theorem sub_fin {x y : Flt} {v : ℝ} (h : A.sub x y = .fin v) : ∃ a b, x = .fin a ∧ y = .fin b ∧ v = A.rnd (a - b) := by
  obtain ⟨a, b, h1, h2, h3⟩ := add_fin h
  exact ⟨a, -b, h1, neg_fin h2, by rw [h3, sub_neg_eq_add]⟩

theorem infTimes_ne {r v : ℝ} : infTimes r ≠ .fin v := by
  unfold infTimes
  split_ifs <;> exact fun h => by cases h

theorem mul_fin {x y : Flt} {v : ℝ} (h : A.mul x y = .fin v) : ∃ a b, x = .fin a ∧ y = .fin b ∧ v = A.rnd (a * b) := by
  cases x <;> cases y <;> simp only [FArith.mul] at h <;> first | exact ⟨_, _, rfl, rfl, ofReal_fin h⟩ | exact absurd h infTimes_ne | cases h

theorem sqrt_fin {x : Flt} {v : ℝ} (h : A.sqrt x = .fin v) : ∃ a, x = .fin a ∧ 0 ≤ a ∧ v = A.rnd (√a) := by
  cases x with
  | fin a =>
    simp only [FArith.sqrt] at h
    split_ifs at h with h1
    exact ⟨a, rfl, not_lt.1 h1, ofReal_fin h⟩
  | pinf => cases h
  | ninf => cases h
  | nan => cases h

end arith

namespace Prec
variable (p : Prec)

/-- The relative error of a scalar product of `k` terms. -/
def dotRel (k : ℕ) : ℝ := p.gam k * (1 + p.u) + p.u

/-- The absolute error of a scalar product of `k` terms. -/
def dotAbs (k : ℕ) : ℝ := (1 + p.gam k) * (k * p.eta) + p.eps k

/-- The relative error of a residual of `n` features. -/
def resRel (n : ℕ) : ℝ := p.dotRel n * (1 + p.u) + p.u

/-- The absolute error of a residual of `n` features. -/
def resAbs (n : ℕ) : ℝ := (1 + p.u) * p.dotAbs n + p.eta

/-- The error of `Aᵀ (A x - b)` relative to `|A|ᵀ (|A| |x| + |b|)`. -/
def gradRel (m n : ℕ) : ℝ := (p.resRel n + p.dotRel m * (1 + p.resRel n)) * (1 + p.u) + p.u

/-- The absolute error of one coordinate of the gradient, whose column has the absolute sum `c`. -/
def gradAbs (m n : ℕ) (c : ℝ) : ℝ := (1 + p.u) * ((1 + p.dotRel m) * p.resAbs n * c + p.dotAbs m) + p.eta

/-- The greatest distance of the last two points when the computed distance is at most `tol`. -/
def stopDist (n : ℕ) (tol : ℝ) : ℝ :=
  (√(((((tol + p.eta) / (1 - p.u)) ^ 2 + p.eps n) / (1 - p.gam n) + n * p.eta) / (1 - p.u)) + p.eta * √n) / (1 - p.u)

/-- The rounding error of `step * direction` for a direction of absolute value at most `H`. -/
def moveErr (s H : ℝ) : ℝ := p.u * (s * H) + p.eta

/-- The rounding error of `x + step * direction`. -/
def sumErr (s H X : ℝ) : ℝ := p.u * (X + s * H + p.moveErr s H) + p.eta

/-- The rounding error of the threshold `step * weight * lam`. -/
def thrErr (s w lam : ℝ) : ℝ := (p.u * (s * w) + p.eta) * lam * (1 + p.u) + p.u * (s * w * lam) + p.eta

/-- The rounding error of one step of the solver from a coordinate of absolute value at most `X`, along a direction of absolute value at most `H`. -/
def stepErr (s w lam H X : ℝ) : ℝ :=
  p.moveErr s H + p.sumErr s H X + (p.u * (X + s * H + p.moveErr s H + p.sumErr s H X) + p.eta) + p.thrErr s w lam

end Prec

variable {A : FArith} {p : Prec} (hp : p.Fits A)
include hp

namespace Prec

theorem dotRel_nonneg (k : ℕ) : 0 ≤ p.dotRel k := by
  have := hp.u_nonneg
  have := hp.gam_nonneg k
  unfold dotRel
  positivity

theorem dotAbs_nonneg (k : ℕ) : 0 ≤ p.dotAbs k := by
  have := hp.eta_nonneg
  have := hp.gam_nonneg k
  have := hp.eps_nonneg k
  unfold dotAbs
  positivity

theorem resRel_nonneg (k : ℕ) : 0 ≤ p.resRel k := by
  have := hp.u_nonneg
  have := dotRel_nonneg hp k
  unfold resRel
  positivity

theorem resAbs_nonneg (k : ℕ) : 0 ≤ p.resAbs k := by
  have := hp.u_nonneg
  have := hp.eta_nonneg
  have := dotAbs_nonneg hp k
  unfold resAbs
  positivity

theorem gradRel_nonneg (m n : ℕ) : 0 ≤ p.gradRel m n := by
  have := hp.u_nonneg
  have := dotRel_nonneg hp m
  have := resRel_nonneg hp n
  unfold gradRel
  positivity

theorem gradAbs_nonneg (m n : ℕ) {c : ℝ} (hc : 0 ≤ c) : 0 ≤ p.gradAbs m n c := by
  have := hp.u_nonneg
  have := hp.eta_nonneg
  have := dotRel_nonneg hp m
  have := dotAbs_nonneg hp m
  have := resAbs_nonneg hp n
  unfold gradAbs
  positivity

end Prec

/-- A rounded number that carries an error already. -/
theorem round_err {r r' e B : ℝ} (h : |r' - r| ≤ e) (hB : |r| ≤ B) : |A.rnd r' - r| ≤ e + (p.u * (B + e) + p.eta) := by
  have h1 := hp.round r'
  have h2 : |r'| ≤ B + e := by
    have : |r'| ≤ |r' - r| + |r| := by simpa using abs_add_le (r' - r) r
    linarith
  have h3 := mul_le_mul_of_nonneg_left h2 hp.u_nonneg
  have h4 : |A.rnd r' - r| ≤ |A.rnd r' - r'| + |r' - r| := by
    have := abs_add_le (A.rnd r' - r') (r' - r)
    rwa [sub_add_sub_cancel] at this
  linarith

/-- A finite scalar product has finite factors and the usual error. -/
theorem dot_fin {k : ℕ} {x y : Vec Flt k} {s : ℝ} (h : A.dot x y = .fin s) :
    ∃ a b : Vec ℝ k, x = liftV a ∧ y = liftV b ∧ |s - ∑ i, a i * b i| ≤ p.dotRel k * (∑ i, |a i| * |b i|) + p.dotAbs k := by
  obtain ⟨w, hw, hs⟩ := hp.sums _ _ _ h
  have h1 : ∀ i, ∃ ab : ℝ × ℝ, x i = .fin ab.1 ∧ y i = .fin ab.2 ∧ w i = A.rnd (ab.1 * ab.2) := fun i => by
    obtain ⟨a, b, ha, hb, hv⟩ := mul_fin (congrFun hw i)
    exact ⟨(a, b), ha, hb, hv⟩
  choose ab hx hy hv using h1
  refine ⟨fun i => (ab i).1, fun i => (ab i).2, funext hx, funext hy, ?_⟩
  have e1 : ∀ i, |w i - (ab i).1 * (ab i).2| ≤ p.u * (|(ab i).1| * |(ab i).2|) + p.eta := fun i => by
    rw [hv, ← abs_mul]
    exact hp.round _
  have e2 : |∑ i, w i - ∑ i, (ab i).1 * (ab i).2| ≤ p.u * (∑ i, |(ab i).1| * |(ab i).2|) + k * p.eta := by
    rw [← Finset.sum_sub_distrib]
    refine (Finset.abs_sum_le_sum_abs _ _).trans ((Finset.sum_le_sum fun i _ => e1 i).trans (le_of_eq ?_))
    rw [Finset.sum_add_distrib, ← Finset.mul_sum, Finset.sum_const, Finset.card_univ, Fintype.card_fin, nsmul_eq_mul]
  have e3 : ∑ i, |w i| ≤ (1 + p.u) * (∑ i, |(ab i).1| * |(ab i).2|) + k * p.eta := by
    have : ∀ i, |w i| ≤ (1 + p.u) * (|(ab i).1| * |(ab i).2|) + p.eta := fun i => by
      have h2 := abs_add_le (w i - (ab i).1 * (ab i).2) ((ab i).1 * (ab i).2)
      rw [sub_add_cancel, abs_mul (ab i).1] at h2
      linarith [e1 i]
    refine (Finset.sum_le_sum fun i _ => this i).trans (le_of_eq ?_)
    rw [Finset.sum_add_distrib, ← Finset.mul_sum, Finset.sum_const, Finset.card_univ, Fintype.card_fin, nsmul_eq_mul]
  have e4 := mul_le_mul_of_nonneg_left e3 (hp.gam_nonneg k)
  have e5 := abs_add_le (s - ∑ i, w i) (∑ i, w i - ∑ i, (ab i).1 * (ab i).2)
  rw [sub_add_sub_cancel] at e5
  unfold Prec.dotRel Prec.dotAbs
  nlinarith

variable {m n : ℕ}

/-- **C155**, gradient: where the float gradient of the linear oracle is finite, it differs from `Aᵀ (A x - b)` by at most the relative error `gradRel` of `|A|ᵀ (|A| |x| + |b|)`, plus `gradAbs`. -/
theorem C155_gradient (a : Matrix (Fin m) (Fin n) ℝ) (b : Vec ℝ m) (y : Vec ℝ n) (j : Fin n) (g : ℝ)
    (h : flLinGradient A (fun r => liftV (a r)) (liftV b) (liftV y) j = .fin g) :
    |g - ∑ r, a r j * ((∑ i, a r i * y i) - b r)| ≤ p.gradRel m n * (∑ r, |a r j| * ((∑ i, |a r i| * |y i|) + |b r|)) + p.gradAbs m n (∑ r, |a r j|) := by
  obtain ⟨d, z, hd, hz, hg⟩ := add_fin h
  injection hz with hz
  subst hz
  rw [add_zero] at hg
  obtain ⟨a', res, ha', hres, hdot⟩ := dot_fin hp hd
  have ea : ∀ r, a' r = a r j := fun r => by
    have := congrFun ha' r
    injection this with this
    exact this.symm
  have hq : ∀ r, |(∑ i, a r i * y i) - b r| ≤ (∑ i, |a r i| * |y i|) + |b r| := fun r => by
    refine (abs_sub _ _).trans ?_
    have := Finset.abs_sum_le_sum_abs (fun i => a r i * y i) Finset.univ
    simp only [abs_mul] at this
    linarith
  have hres' : ∀ r, |res r - ((∑ i, a r i * y i) - b r)| ≤ p.resRel n * ((∑ i, |a r i| * |y i|) + |b r|) + p.resAbs n := fun r => by
    obtain ⟨s, t, hs, ht, hr⟩ := sub_fin (congrFun hres r)
    injection ht with ht
    subst ht
    obtain ⟨a'', y'', ha'', hy'', hsd⟩ := dot_fin hp hs
    have e1 : a'' = a r := funext fun i => by
      have := congrFun ha'' i
      injection this with this
      exact this.symm
    have e2 : y'' = y := funext fun i => by
      have := congrFun hy'' i
      injection this with this
      exact this.symm
    rw [e1, e2] at hsd
    have h3 : |(s - b r) - ((∑ i, a r i * y i) - b r)| ≤ p.dotRel n * (∑ i, |a r i| * |y i|) + p.dotAbs n := by
      rw [sub_sub_sub_cancel_right]
      exact hsd
    have h4 := round_err hp h3 (hq r)
    rw [← hr] at h4
    have h0 := Prec.dotRel_nonneg hp n
    have h0' := hp.u_nonneg
    have h5 : 0 ≤ p.dotRel n * (1 + p.u) * |b r| := by positivity
    unfold Prec.resRel Prec.resAbs
    nlinarith
  obtain ⟨q, hqdef⟩ : ∃ q : Vec ℝ m, q = fun r => (∑ i, |a r i| * |y i|) + |b r| := ⟨_, rfl⟩
  have hqr : ∀ r, (∑ i, |a r i| * |y i|) + |b r| = q r := fun r => by rw [hqdef]
  simp only [ea] at hdot
  simp only [hqr] at hres' hq ⊢
  obtain ⟨R, hR⟩ : ∃ R : Vec ℝ m, R = fun r => (∑ i, a r i * y i) - b r := ⟨_, rfl⟩
  have hRr : ∀ r, (∑ i, a r i * y i) - b r = R r := fun r => by rw [hR]
  simp only [hRr] at hres' hq ⊢
  have k0 := Prec.resRel_nonneg hp n
  have k1 := Prec.resAbs_nonneg hp n
  have k2 := Prec.dotRel_nonneg hp m
  have hC : |∑ r, a r j * R r| ≤ ∑ r, |a r j| * q r := by
    refine (Finset.abs_sum_le_sum_abs _ _).trans (Finset.sum_le_sum fun r _ => ?_)
    rw [abs_mul]
    exact mul_le_mul_of_nonneg_left (hq r) (abs_nonneg _)
  have h1 : |∑ r, a r j * res r - ∑ r, a r j * R r| ≤ p.resRel n * (∑ r, |a r j| * q r) + p.resAbs n * ∑ r, |a r j| := by
    rw [← Finset.sum_sub_distrib, Finset.mul_sum, Finset.mul_sum, ← Finset.sum_add_distrib]
    refine (Finset.abs_sum_le_sum_abs _ _).trans (Finset.sum_le_sum fun r _ => ?_)
    rw [← mul_sub, abs_mul]
    have := mul_le_mul_of_nonneg_left (hres' r) (abs_nonneg (a r j))
    linarith
  have h2 : ∑ r, |a r j| * |res r| ≤ (1 + p.resRel n) * (∑ r, |a r j| * q r) + p.resAbs n * ∑ r, |a r j| := by
    rw [Finset.mul_sum, Finset.mul_sum, ← Finset.sum_add_distrib]
    refine Finset.sum_le_sum fun r _ => ?_
    have h3 : |res r| ≤ (1 + p.resRel n) * q r + p.resAbs n := by
      have := abs_add_le (res r - R r) (R r)
      rw [sub_add_cancel] at this
      linarith [hres' r, hq r]
    have := mul_le_mul_of_nonneg_left h3 (abs_nonneg (a r j))
    linarith
  have h3 := mul_le_mul_of_nonneg_left h2 k2
  have h4 : |d - ∑ r, a r j * R r| ≤ (p.resRel n + p.dotRel m * (1 + p.resRel n)) * (∑ r, |a r j| * q r) + ((1 + p.dotRel m) * p.resAbs n * (∑ r, |a r j|) + p.dotAbs m) := by
    have := abs_add_le (d - ∑ r, a r j * res r) (∑ r, a r j * res r - ∑ r, a r j * R r)
    rw [sub_add_sub_cancel] at this
    nlinarith
  have h5 := round_err hp h4 hC
  rw [← hg] at h5
  unfold Prec.gradRel Prec.gradAbs
  nlinarith

/-- The last two points are close when their computed distance is not above the tolerance. -/
theorem near_of_not_far (hgam : p.gam n < 1) {x y : Vec ℝ n} {tol : ℝ} {cfg : FlCfg} (htol : cfg.tol = .fin tol) (h : ¬ flFar A cfg (liftV x) (liftV y)) :
    0 ≤ p.stopDist n tol ∧ ∑ i, (x i - y i) ^ 2 ≤ p.stopDist n tol ^ 2 := by
  have hu := hp.u_nonneg
  have hu1 : 0 < 1 - p.u := by linarith [hp.u_lt]
  have he := hp.eta_nonneg
  have hg1 : 0 < 1 - p.gam n := by linarith
  have hle := not_lt_le (by rw [htol]; intro h; cases h) (le_zero_sqrt A (A.sum_nonneg _ _ fun i => le_zero_sq_sub A)) h
  rw [htol] at hle
  obtain ⟨N, hN, hNt⟩ : ∃ N, (A.norm fun i => A.sub (liftV x i) (liftV y i)) = .fin N ∧ N ≤ tol := by
    change (A.norm fun i => A.sub (liftV x i) (liftV y i)).le (.fin tol) at hle
    cases e : (A.norm fun i => A.sub (liftV x i) (liftV y i)) with
    | fin N =>
      rw [e] at hle
      exact ⟨N, rfl, hle⟩
    | pinf => rw [e] at hle; exact hle.elim
    | nan => rw [e] at hle; exact hle.elim
    | ninf =>
      have h0 : Flt.le 0 (A.norm fun i => A.sub (liftV x i) (liftV y i)) := le_zero_sqrt A (A.sum_nonneg _ _ fun i => le_zero_sq_sub A)
      rw [e] at h0
      exact h0.elim
  obtain ⟨S, hS, hS0, hNS⟩ := sqrt_fin hN
  obtain ⟨w, hw, hsum⟩ := hp.sums _ _ _ hS
  have h1 : ∀ i, ∃ d, |x i - y i| ≤ (|d| + p.eta) / (1 - p.u) ∧ w i = A.rnd (d * d) := fun i => by
    obtain ⟨d, d', hd, hd', hv⟩ := mul_fin (congrFun hw i)
    have e : d' = d := by
      rw [hd] at hd'
      injection hd' with hd'
      exact hd'.symm
    rw [e] at hv
    obtain ⟨a, b, ha, hb, hab⟩ := sub_fin hd
    injection ha with ha
    injection hb with hb
    refine ⟨d, ?_, hv⟩
    rw [le_div_iff₀ hu1]
    have h2 := hp.round (a - b)
    rw [← hab, ← ha, ← hb] at h2
    have h3 := abs_add_le (x i - y i - d) d
    rw [sub_add_cancel, abs_sub_comm (x i - y i) d] at h3
    linarith
  choose d hxy hwd using h1
  have hw0 : ∀ i, 0 ≤ w i := fun i => by rw [hwd]; exact A.rnd_nonneg (mul_self_nonneg _)
  have hT : √S ≤ (tol + p.eta) / (1 - p.u) := by
    rw [le_div_iff₀ hu1]
    have h2 := (abs_le.1 (hp.round √S)).1
    rw [abs_of_nonneg (Real.sqrt_nonneg _), ← hNS] at h2
    linarith
  have hT2 : S ≤ ((tol + p.eta) / (1 - p.u)) ^ 2 := by
    rw [← Real.sq_sqrt hS0]
    exact pow_le_pow_left₀ (Real.sqrt_nonneg _) hT 2
  have hsw : ∑ i, w i ≤ (((tol + p.eta) / (1 - p.u)) ^ 2 + p.eps n) / (1 - p.gam n) := by
    rw [le_div_iff₀ hg1]
    have e : ∑ i, |w i| = ∑ i, w i := Finset.sum_congr rfl fun i _ => abs_of_nonneg (hw0 i)
    rw [e] at hsum
    have := (abs_le.1 hsum).1
    linarith
  have hd2 : ∑ i, d i ^ 2 ≤ ((((tol + p.eta) / (1 - p.u)) ^ 2 + p.eps n) / (1 - p.gam n) + n * p.eta) / (1 - p.u) := by
    rw [le_div_iff₀ hu1]
    have : ∀ i, d i ^ 2 * (1 - p.u) ≤ w i + p.eta := fun i => by
      have h2 := (abs_le.1 (hp.round (d i * d i))).1
      rw [abs_of_nonneg (mul_self_nonneg _), ← hwd] at h2
      linarith
    have h2 := Finset.sum_le_sum fun i (_ : i ∈ Finset.univ) => this i
    rw [← Finset.sum_mul, Finset.sum_add_distrib, Finset.sum_const, Finset.card_univ, Fintype.card_fin, nsmul_eq_mul] at h2
    linarith
  obtain ⟨D, hD⟩ : ∃ D, D = ((((tol + p.eta) / (1 - p.u)) ^ 2 + p.eps n) / (1 - p.gam n) + n * p.eta) / (1 - p.u) := ⟨_, rfl⟩
  have hsd : p.stopDist n tol = (√D + p.eta * √n) / (1 - p.u) := by rw [hD]; rfl
  rw [← hD] at hd2
  have hD0 : 0 ≤ D := (Finset.sum_nonneg fun i _ => sq_nonneg _).trans hd2
  rw [hsd]
  refine ⟨by positivity, ?_⟩
  have h4 : ∑ i, |d i| ≤ √n * √D := by
    have h5 := sq_sum_le_card_mul_sum_sq (s := Finset.univ) (f := fun i => |d i|)
    simp only [sq_abs, Finset.card_univ, Fintype.card_fin] at h5
    rw [← Real.sqrt_mul (Nat.cast_nonneg n)]
    refine Real.le_sqrt_of_sq_le (h5.trans ?_)
    gcongr
  have h6 : ∑ i, (x i - y i) ^ 2 ≤ ∑ i, ((|d i| + p.eta) / (1 - p.u)) ^ 2 := Finset.sum_le_sum fun i _ => by
    rw [← sq_abs]
    exact pow_le_pow_left₀ (abs_nonneg _) (hxy i) 2
  refine h6.trans ?_
  simp only [div_pow]
  rw [← Finset.sum_div]
  gcongr
  have h7 : ∑ i, (|d i| + p.eta) ^ 2 = ∑ i, d i ^ 2 + 2 * p.eta * (∑ i, |d i|) + n * p.eta ^ 2 := by
    rw [Finset.mul_sum, ← Finset.sum_add_distrib]
    have : (n : ℝ) * p.eta ^ 2 = ∑ _i : Fin n, p.eta ^ 2 := by
      rw [Finset.sum_const, Finset.card_univ, Fintype.card_fin, nsmul_eq_mul]
    rw [this, ← Finset.sum_add_distrib]
    exact Finset.sum_congr rfl fun i _ => by rw [add_sq, sq_abs]; ring
  rw [h7, add_sq, Real.sq_sqrt hD0, mul_pow, Real.sq_sqrt (Nat.cast_nonneg n)]
  have h8 := mul_le_mul_of_nonneg_left h4 (show 0 ≤ 2 * p.eta by positivity)
  nlinarith

/-- A finite soft threshold in floats. -/
theorem flSoft_kkt {t : ℝ} (ht : 0 ≤ t) {v : Flt} {x : ℝ} (h : flSoft A (.fin t) v = .fin x) :
    ∃ r, v = .fin r ∧ ∃ z : ℝ, |z| ≤ 1 ∧ (0 < x → z = 1) ∧ (x < 0 → z = -1) ∧ |r - x - t * z| ≤ p.u * |r| + p.eta := by
  have hu := hp.u_nonneg
  have he := hp.eta_nonneg
  cases v with
  | pinf => cases h
  | ninf => cases h
  | nan => cases h
  | fin r =>
    refine ⟨r, rfl, ?_⟩
    rcases lt_or_ge t |r| with hr | hr
    · rcases le_total 0 r with h0 | h0
      · rw [abs_of_nonneg h0] at hr ⊢
        have e : (A.sub (Flt.fin r).neg (.fin t)).clip0 = .fin 0 := clip_ofReal_nonpos A (by linarith)
        unfold flSoft at h
        rw [e] at h
        obtain ⟨c, z, hc, hz, hx⟩ := sub_fin h
        injection hz with hz
        subst hz
        have h1 : c = A.rnd (r - t) := by
          cases h2 : A.sub (.fin r) (.fin t) with
          | fin q =>
            obtain ⟨_, _, e1, e2, hq⟩ := sub_fin h2
            injection e1 with e1
            injection e2 with e2
            rw [h2] at hc
            injection hc with hc
            rw [← hc, hq, ← e1, ← e2]
            exact max_eq_left (A.rnd_nonneg (by linarith))
          | pinf => rw [h2] at hc; cases hc
          | ninf =>
            change A.ofReal (r + -t) = _ at h2
            have h3 := A.rnd_nonneg (show 0 ≤ r + -t by linarith)
            unfold FArith.ofReal at h2
            split_ifs at h2 with h4 h5
            exfalso
            have h6 : A.rnd (r + -t) = 0 := le_antisymm (not_lt.1 h5) h3
            rw [h6, abs_zero] at h4
            exact h4 ((WithTop.coe_le_coe.2 zero_le_one).trans A.one_le_big)
          | nan => rw [h2] at hc; cases hc
        have h2 : x = A.rnd (r - t) := by rw [hx, sub_zero, h1, A.idem]
        have h3 := hp.round (r - t)
        have h4 := A.rnd_nonneg (show 0 ≤ r - t by linarith)
        rw [← h2] at h3 h4
        refine ⟨1, by simp, fun _ => rfl, fun h => by linarith, ?_⟩
        rw [abs_sub_comm] at h3
        rw [show r - x - t * 1 = r - t - x by ring]
        refine h3.trans ?_
        rw [abs_of_nonneg (by linarith)]
        nlinarith
      · rw [abs_of_nonpos h0] at hr ⊢
        have e : (A.sub (Flt.fin r) (.fin t)).clip0 = .fin 0 := clip_ofReal_nonpos A (by linarith)
        unfold flSoft at h
        rw [e] at h
        obtain ⟨z, c, hz, hc, hx⟩ := sub_fin h
        injection hz with hz
        subst hz
        have h1 : c = A.rnd (-r - t) := by
          cases h2 : A.sub (Flt.fin r).neg (.fin t) with
          | fin q =>
            obtain ⟨_, _, e1, e2, hq⟩ := sub_fin h2
            injection e1 with e1
            injection e2 with e2
            rw [h2] at hc
            injection hc with hc
            rw [← hc, hq, ← e1, ← e2]
            exact max_eq_left (A.rnd_nonneg (by linarith))
          | pinf => rw [h2] at hc; cases hc
          | ninf =>
            change A.ofReal (-r + -t) = _ at h2
            have h3 := A.rnd_nonneg (show 0 ≤ -r + -t by linarith)
            unfold FArith.ofReal at h2
            split_ifs at h2 with h4 h5
            exfalso
            have h6 : A.rnd (-r + -t) = 0 := le_antisymm (not_lt.1 h5) h3
            rw [h6, abs_zero] at h4
            exact h4 ((WithTop.coe_le_coe.2 zero_le_one).trans A.one_le_big)
          | nan => rw [h2] at hc; cases hc
        have h2 : x = -A.rnd (-r - t) := by rw [hx, zero_sub, h1, A.odd, A.idem]
        have h3 := hp.round (-r - t)
        have h4 := A.rnd_nonneg (show 0 ≤ -r - t by linarith)
        refine ⟨-1, by simp, fun h => by linarith, fun _ => rfl, ?_⟩
        rw [show r - x - t * -1 = A.rnd (-r - t) - (-r - t) by rw [h2]; ring]
        refine h3.trans ?_
        rw [abs_of_nonneg (by linarith)]
        nlinarith
    · have e1 : (A.sub (Flt.fin r) (.fin t)).clip0 = .fin 0 := clip_ofReal_nonpos A (by linarith [le_abs_self r])
      have e2 : (A.sub (Flt.fin r).neg (.fin t)).clip0 = .fin 0 := clip_ofReal_nonpos A (by linarith [neg_abs_le r])
      unfold flSoft at h
      rw [e1, e2, sub_zero_rep A (rep_zero A)] at h
      injection h with h
      subst h
      have hb : 0 ≤ p.u * |r| + p.eta := by positivity
      rcases ht.eq_or_lt with h0 | h0
      · have hr0 : r = 0 := by
          rw [← h0] at hr
          exact abs_eq_zero.1 (le_antisymm hr (abs_nonneg r))
        refine ⟨0, by simp, fun h => absurd h (lt_irrefl _), fun h => absurd h (lt_irrefl _), ?_⟩
        rw [hr0] at hb ⊢
        simpa using hb
      · refine ⟨r / t, ?_, fun h => absurd h (lt_irrefl _), fun h => absurd h (lt_irrefl _), ?_⟩
        · rw [abs_div, abs_of_pos h0]
          exact (div_le_one h0).2 hr
        · rw [sub_zero, mul_div_cancel₀ _ h0.ne', sub_self, abs_zero]
          exact hb

omit hp in
/-- The steps of the line search lie between the first one and `4e-15`. -/
theorem flLineSearch_bounds (P : FlProblem n) (x d : Vec Flt n) (s : ℝ) : min s (1 / (25 * 10 ^ 13)) ≤ flLineSearch A P x d s ∧ flLineSearch A P x d s ≤ s := by
  induction hm : ⌈Real.logb (4 / 3) (s * 10 ^ 15)⌉₊ using Nat.strong_induction_on generalizing s with
  | _ k ih =>
    rw [flLineSearch]
    split_ifs with h1 h2
    · exact ⟨min_le_left _ _, le_rfl⟩
    · obtain ⟨i1, i2⟩ := ih _ (hm ▸ fl_halving A s h1) (A.rnd (s * (1 / 2))) rfl
      have h14 := A.rel (1 / 10 ^ 14) (by rw [abs_of_pos (by norm_num)]; norm_num)
      rw [abs_of_pos (show (0 : ℝ) < 1 / 10 ^ 14 by norm_num), abs_le] at h14
      have hs : 99 / 10 ^ 16 < s := by
        have := h14.1
        norm_num at this h1 ⊢
        linarith
      have hhalf := A.rel (s * (1 / 2)) (by rw [abs_of_pos (by norm_num at hs ⊢; linarith)]; norm_num at hs ⊢; linarith)
      have hspos : 0 < s := by norm_num at hs; linarith
      rw [abs_of_pos (show 0 < s * (1 / 2) by positivity), abs_le] at hhalf
      refine ⟨le_trans (min_le_right _ _) (le_trans (le_of_eq (min_eq_right ?_).symm) i1), i2.trans (by linarith [hhalf.2])⟩
      have := hhalf.1
      norm_num at hs ⊢
      linarith
    · exact ⟨min_le_left _ _, le_rfl⟩

omit hp in
/-- One pass of the solver is one proximal step. -/
theorem flBody_step (P : FlProblem n) (cfg : FlCfg) (hs : 0 < cfg.fixedStepLen) (x : Vec Flt n) :
    ∃ t, 0 < t ∧ t ≤ cfg.fixedStepLen ∧ min cfg.fixedStepLen (1 / (25 * 10 ^ 13)) ≤ t ∧ (cfg.stepping ≠ "line-search" → t = cfg.fixedStepLen) ∧
      flBody A P cfg x = P.prox (flMove A x (fun i => (P.grad x i).neg) t) (.fin t) := by
  unfold flBody
  simp only
  split_ifs with h
  · obtain ⟨h1, h2⟩ := flLineSearch_bounds (A := A) P x (fun i => (P.grad x i).neg) cfg.fixedStepLen
    exact ⟨_, (lt_min hs (by norm_num)).trans_le h1, h2, h1, fun h' => absurd h h', rfl⟩
  · exact ⟨_, hs, le_rfl, min_le_left _ _, fun _ => rfl, rfl⟩

omit hp in
theorem ofReal_fin_mono {r r' v : ℝ} (h0 : 0 ≤ r) (h : r ≤ r') (hv : A.ofReal r' = .fin v) : A.ofReal r = .fin (A.rnd r) := by
  have h1 := A.rnd_nonneg h0
  have h2 := A.mono h
  unfold FArith.ofReal at hv ⊢
  rw [if_pos]
  split_ifs at hv with h3
  refine le_trans (WithTop.coe_le_coe.2 ?_) h3
  rwa [abs_of_nonneg h1, abs_of_nonneg (h1.trans h2)]

omit hp in
variable (A) in
/-- The proximal operators of the simple model (no penalty) and of the L1 model with penalty strength `lam` and weights `w`, the thresholds for the step `s` not overflowing. -/
def FlLassoLike (prox : Vec Flt n → Flt → Vec Flt n) (s lam : ℝ) (w : Vec ℝ n) : Prop :=
  (prox = flDummy ∧ lam = 0) ∨
    (prox = flL1 A (.fin lam) (some (liftV w)) ∧ 0 ≤ lam ∧ ∀ j, 0 ≤ w j ∧ ∃ t, A.mul (A.mul (.fin s) (.fin (w j))) (.fin lam) = .fin t)

/-- The optimality condition of a float proximal step. -/
theorem prox_kkt {prox : Vec Flt n → Flt → Vec Flt n} {s lam : ℝ} {w : Vec ℝ n} (h : FlLassoLike A prox s lam w) {t : ℝ} (ht : 0 < t) (hts : t ≤ s) (v : Vec Flt n) (j : Fin n) (x : ℝ)
    (hx : prox v (.fin t) j = .fin x) :
    ∃ r, v j = .fin r ∧ ∃ z : ℝ, |z| ≤ 1 ∧ (0 < x → z = 1) ∧ (x < 0 → z = -1) ∧ |r - x - t * (lam * w j) * z| ≤ p.u * |r| + p.eta + p.thrErr t (w j) lam := by
  have hu := hp.u_nonneg
  have he := hp.eta_nonneg
  rcases h with ⟨rfl, rfl⟩ | ⟨rfl, hlam, hw⟩
  · refine ⟨x, hx, if 0 < x then 1 else if x < 0 then -1 else 0, ?_, fun h => if_pos h, fun h => ?_, ?_⟩
    · split_ifs <;> simp
    · rw [if_neg h.not_gt, if_pos h]
    · have : 0 ≤ p.u * |x| + p.eta + p.eta := by positivity
      unfold Prec.thrErr
      simpa using this
  · obtain ⟨hwj, T, hT⟩ := hw j
    obtain ⟨sw, lam', hsw, hl, hTe⟩ := mul_fin hT
    injection hl with hl
    subst hl
    have hswv := ofReal_fin hsw
    have e1 : A.mul (.fin t) (.fin (w j)) = .fin (A.rnd (t * w j)) := ofReal_fin_mono (mul_nonneg ht.le hwj) (mul_le_mul_of_nonneg_right hts hwj) hsw
    have h2 : 0 ≤ A.rnd (t * w j) := A.rnd_nonneg (mul_nonneg ht.le hwj)
    rw [hsw] at hT
    have e2 : A.mul (.fin (A.rnd (t * w j))) (.fin lam) = .fin (A.rnd (A.rnd (t * w j) * lam)) := by
      refine ofReal_fin_mono (mul_nonneg h2 hlam) ?_ hT
      rw [hswv]
      exact mul_le_mul_of_nonneg_right (A.mono (mul_le_mul_of_nonneg_right hts hwj)) hlam
    change flSoft A (A.mul (A.mul (.fin t) (.fin (w j))) (.fin lam)) (v j) = .fin x at hx
    rw [e1, e2] at hx
    obtain ⟨r, hr, z, hz, hz1, hz2, hz3⟩ := flSoft_kkt hp (A.rnd_nonneg (mul_nonneg h2 hlam)) hx
    refine ⟨r, hr, z, hz, hz1, hz2, ?_⟩
    have htw : 0 ≤ t * w j := mul_nonneg ht.le hwj
    have h3 := hp.round (t * w j)
    rw [abs_of_nonneg htw] at h3
    have h4 := hp.round (A.rnd (t * w j) * lam)
    rw [abs_of_nonneg (mul_nonneg h2 hlam)] at h4
    have h5 : |A.rnd (t * w j) * lam - t * (lam * w j)| ≤ (p.u * (t * w j) + p.eta) * lam := by
      rw [show A.rnd (t * w j) * lam - t * (lam * w j) = (A.rnd (t * w j) - t * w j) * lam by ring, abs_mul, abs_of_nonneg hlam]
      exact mul_le_mul_of_nonneg_right h3 hlam
    have h6 : A.rnd (t * w j) ≤ t * w j + (p.u * (t * w j) + p.eta) := by linarith [(abs_le.1 h3).2]
    have h7 := mul_le_mul_of_nonneg_left (mul_le_mul_of_nonneg_right h6 hlam) hu
    have h8 : |A.rnd (A.rnd (t * w j) * lam) - t * (lam * w j)| ≤ p.thrErr t (w j) lam := by
      have := abs_add_le (A.rnd (A.rnd (t * w j) * lam) - A.rnd (t * w j) * lam) (A.rnd (t * w j) * lam - t * (lam * w j))
      rw [sub_add_sub_cancel] at this
      unfold Prec.thrErr
      nlinarith
    have h9 : |(A.rnd (A.rnd (t * w j) * lam) - t * (lam * w j)) * z| ≤ p.thrErr t (w j) lam := by
      rw [abs_mul]
      exact (mul_le_of_le_one_right (abs_nonneg _) hz).trans h8
    have h10 := abs_add_le (r - x - A.rnd (A.rnd (t * w j) * lam) * z) ((A.rnd (A.rnd (t * w j) * lam) - t * (lam * w j)) * z)
    rw [show r - x - A.rnd (A.rnd (t * w j) * lam) * z + (A.rnd (A.rnd (t * w j) * lam) - t * (lam * w j)) * z = r - x - t * (lam * w j) * z by ring] at h10
    linarith

/-- The error bound of the gradient of feature `j` at points within `D` of `x`, and the bound of its size. -/
def gradErrAt (p : Prec) (a : Matrix (Fin m) (Fin n) ℝ) (b : Vec ℝ m) (x : Vec ℝ n) (D : ℝ) (j : Fin n) : ℝ :=
  p.gradRel m n * (∑ r, |a r j| * ((∑ i, |a r i| * (|x i| + D)) + |b r|)) + p.gradAbs m n (∑ r, |a r j|)

/-- The bound of the size of the computed gradient. -/
def gradSizeAt (p : Prec) (a : Matrix (Fin m) (Fin n) ℝ) (b : Vec ℝ m) (x : Vec ℝ n) (D : ℝ) (j : Fin n) : ℝ :=
  (∑ r, |a r j| * ((∑ i, |a r i| * (|x i| + D)) + |b r|)) + gradErrAt p a b x D j

/-- **C155**: in every format with the standard rounding errors, with and without the L1 penalty, a run of the solver on the linear oracle that reports convergence at a finite point satisfies the optimality
conditions of the exact problem: the correlation of every feature with the residual is `lam w_j` times the sign of the coefficient, or lies between `-lam w_j` and `lam w_j` where the coefficient is zero, up to the
tolerance and up to an explicit rounding error. -/
theorem C155_stationary (a : Matrix (Fin m) (Fin n) ℝ) (b : Vec ℝ m) (hn : 0 < n) (hgam : p.gam n < 1) (cfg : FlCfg) (tol : ℝ) (htol : cfg.tol = .fin tol) (hs : 0 < cfg.fixedStepLen)
    (prox : Vec Flt n → Flt → Vec Flt n) (lam : ℝ) (w : Vec ℝ n) (hreg : FlLassoLike A prox cfg.fixedStepLen lam w)
    (L : ℝ) (hL : ∀ h : Vec ℝ n, ∑ r, (∑ j, a r j * h j) ^ 2 ≤ L * ∑ j, h j ^ 2) (value : Vec Flt n → Flt) (x0 x : Vec ℝ n)
    (hx : (flOptimize A ⟨value, flLinGradient A (fun r => liftV (a r)) (liftV b), prox⟩ cfg (liftV x0)).x = liftV x)
    (hc : (flOptimize A ⟨value, flLinGradient A (fun r => liftV (a r)) (liftV b), prox⟩ cfg (liftV x0)).converged = true) :
    ∃ t, 0 < t ∧ t ≤ cfg.fixedStepLen ∧ min cfg.fixedStepLen (1 / (25 * 10 ^ 13)) ≤ t ∧ (cfg.stepping ≠ "line-search" → t = cfg.fixedStepLen) ∧
      ∀ j, ∃ z : ℝ, |z| ≤ 1 ∧ (0 < x j → z = 1) ∧ (x j < 0 → z = -1) ∧
        |(∑ r, a r j * (b r - ∑ i, a r i * x i)) - lam * w j * z| ≤ p.stopDist n tol * (1 / t + L) + gradErrAt p a b x (p.stopDist n tol) j
          + p.stepErr t (w j) lam (gradSizeAt p a b x (p.stopDist n tol) j) (|x j| + p.stopDist n tol) / t := by
  obtain ⟨P, hP⟩ : ∃ P : FlProblem n, P = ⟨value, flLinGradient A (fun r => liftV (a r)) (liftV b), prox⟩ := ⟨_, rfl⟩
  rw [← hP] at hx hc
  obtain ⟨-, hxi, hci, -, hpos⟩ := C130_report_partial A P cfg (liftV x0)
  have hlt := hci.1 hc
  have hit := hpos hn (by omega) ⟨tol, htol⟩ ⟨x0, rfl⟩
  obtain ⟨k, h1, -, h3, -⟩ := flLoop_spec A P cfg (liftV x0) (fun _ => .pinf) 0
  have hk : (flOptimize A P cfg (liftV x0)).iteration = k := by
    show (flLoop A P cfg _ (fun _ => .pinf) 0).2 = _
    rw [h1, zero_add]
  rw [hk] at hlt hit hxi
  have hnf := h3 (by rwa [zero_add])
  obtain ⟨k', rfl⟩ := Nat.exists_eq_succ_of_ne_zero hit.ne'
  rw [← hxi, hx] at hnf
  simp only at hnf
  rw [hx, Function.iterate_succ_apply'] at hxi
  obtain ⟨Y, hY⟩ : ∃ Y, Y = (flBody A P cfg)^[k'] (liftV x0) := ⟨_, rfl⟩
  rw [← hY] at hxi hnf
  obtain ⟨t, ht, hts, htl, htf, hb⟩ := flBody_step (A := A) P cfg hs Y
  rw [hb] at hxi
  refine ⟨t, ht, hts, htl, htf, ?_⟩
  have hPp : P.prox = prox := by rw [hP]
  have hPg : P.grad = flLinGradient A (fun r => liftV (a r)) (liftV b) := by rw [hP]
  rw [hPp] at hxi
  have hk2 := fun j => prox_kkt hp hreg ht hts _ j (x j) (congrFun hxi j).symm
  choose v hv z hz hz1 hz2 hz3 using hk2
  have hmv : ∀ j, ∃ yg : ℝ × ℝ, Y j = .fin yg.1 ∧ P.grad Y j = .fin yg.2 ∧ v j = A.rnd (yg.1 + A.rnd (t * -yg.2)) := fun j => by
    obtain ⟨y, q, hy, hq, hvj⟩ := add_fin (hv j)
    obtain ⟨t', g', ht', hg', hq'⟩ := mul_fin hq
    injection ht' with ht'
    subst ht'
    exact ⟨(y, -g'), hy, neg_fin hg', by rw [hvj, hq', neg_neg]⟩
  choose yg hy hg hvj using hmv
  obtain ⟨y, hyd⟩ : ∃ y : Vec ℝ n, y = fun j => (yg j).1 := ⟨_, rfl⟩
  have hYy : Y = liftV y := by rw [hyd]; exact funext hy
  rw [hYy] at hnf hg
  rw [hPg] at hg
  obtain ⟨hD0, hD⟩ := near_of_not_far hp hgam htol hnf
  obtain ⟨D, hDd⟩ : ∃ D, D = p.stopDist n tol := ⟨_, rfl⟩
  rw [← hDd] at hD0 hD ⊢
  intro j
  refine ⟨z j, hz j, hz1 j, hz2 j, ?_⟩
  have hco : ∀ i, |x i - y i| ≤ D := fun i => by
    refine abs_le_of_sq_le_sq ?_ hD0 |> fun h => h
    exact (Finset.single_le_sum (f := fun i => (x i - y i) ^ 2) (fun i _ => sq_nonneg _) (Finset.mem_univ i)).trans hD
  have hyb : ∀ i, |y i| ≤ |x i| + D := fun i => by
    have := abs_sub_abs_le_abs_sub (y i) (x i)
    rw [abs_sub_comm] at this
    linarith [hco i]
  have hgr := C155_gradient hp a b y j _ (hg j)
  obtain ⟨g, hgd⟩ : ∃ g, g = (yg j).2 := ⟨_, rfl⟩
  have hvj' : v j = A.rnd (y j + A.rnd (t * -g)) := by rw [hgd, hyd]; exact hvj j
  rw [← hgd] at hgr
  have hC1 : ∑ r, |a r j| * ((∑ i, |a r i| * |y i|) + |b r|) ≤ ∑ r, |a r j| * ((∑ i, |a r i| * (|x i| + D)) + |b r|) := by
    refine Finset.sum_le_sum fun r _ => mul_le_mul_of_nonneg_left ?_ (abs_nonneg _)
    refine add_le_add (Finset.sum_le_sum fun i _ => mul_le_mul_of_nonneg_left (hyb i) (abs_nonneg _)) le_rfl
  have hE : |g - ∑ r, a r j * ((∑ i, a r i * y i) - b r)| ≤ gradErrAt p a b x D j := by
    refine hgr.trans ?_
    unfold gradErrAt
    have := mul_le_mul_of_nonneg_left hC1 (Prec.gradRel_nonneg hp m n)
    linarith
  have hG : |∑ r, a r j * ((∑ i, a r i * y i) - b r)| ≤ ∑ r, |a r j| * ((∑ i, |a r i| * (|x i| + D)) + |b r|) := by
    refine le_trans ((Finset.abs_sum_le_sum_abs _ _).trans (Finset.sum_le_sum fun r _ => ?_)) hC1
    rw [abs_mul]
    refine mul_le_mul_of_nonneg_left ((abs_sub _ _).trans ?_) (abs_nonneg _)
    have := Finset.abs_sum_le_sum_abs (fun i => a r i * y i) Finset.univ
    simp only [abs_mul] at this
    linarith
  have hH : |g| ≤ gradSizeAt p a b x D j := by
    have := abs_add_le (g - ∑ r, a r j * ((∑ i, a r i * y i) - b r)) (∑ r, a r j * ((∑ i, a r i * y i) - b r))
    rw [sub_add_cancel] at this
    unfold gradSizeAt
    linarith
  have hu := hp.u_nonneg
  obtain ⟨H, hHd⟩ : ∃ H, H = gradSizeAt p a b x D j := ⟨_, rfl⟩
  obtain ⟨X, hXd⟩ : ∃ X, X = |x j| + D := ⟨_, rfl⟩
  rw [← hHd] at hH ⊢
  have hyj := hyb j
  rw [← hXd] at hyj ⊢
  have htg : |t * -g| ≤ t * H := by
    rw [abs_mul, abs_neg, abs_of_pos ht]
    exact mul_le_mul_of_nonneg_left hH ht.le
  have d1 : |A.rnd (t * -g) - t * -g| ≤ p.moveErr t H := by
    have := hp.round (t * -g)
    have := mul_le_mul_of_nonneg_left htg hu
    unfold Prec.moveErr
    linarith
  have hq : |A.rnd (t * -g)| ≤ t * H + p.moveErr t H := by
    have := abs_add_le (A.rnd (t * -g) - t * -g) (t * -g)
    rw [sub_add_cancel] at this
    linarith
  obtain ⟨q, hqd⟩ : ∃ q, q = A.rnd (t * -g) := ⟨_, rfl⟩
  rw [← hqd] at hvj' d1 hq
  have hyq : |y j + q| ≤ X + t * H + p.moveErr t H := by linarith [abs_add_le (y j) q]
  have d2 : |v j - (y j + q)| ≤ p.sumErr t H X := by
    have := hp.round (y j + q)
    rw [← hvj'] at this
    have := mul_le_mul_of_nonneg_left hyq hu
    unfold Prec.sumErr
    linarith
  have hvb : |v j| ≤ X + t * H + p.moveErr t H + p.sumErr t H X := by
    have := abs_add_le (v j - (y j + q)) (y j + q)
    rw [sub_add_cancel] at this
    linarith
  have d3 := mul_le_mul_of_nonneg_left hvb hu
  have d4 := hz3 j
  have hmain : |t * (g + lam * w j * z j)| ≤ D + p.stepErr t (w j) lam H X := by
    have e : t * (g + lam * w j * z j) = -(x j - y j) + (q - t * -g) + (v j - (y j + q)) - (v j - x j - t * (lam * w j) * z j) := by ring
    rw [e]
    have f1 := abs_sub (-(x j - y j) + (q - t * -g) + (v j - (y j + q))) (v j - x j - t * (lam * w j) * z j)
    have f2 := abs_add_le (-(x j - y j) + (q - t * -g)) (v j - (y j + q))
    have f3 := abs_add_le (-(x j - y j)) (q - t * -g)
    rw [abs_neg] at f3
    have f4 := hco j
    unfold Prec.stepErr
    linarith
  have hmain2 : |g + lam * w j * z j| ≤ (D + p.stepErr t (w j) lam H X) / t := by
    rw [le_div_iff₀ ht]
    rw [abs_mul, abs_of_pos ht] at hmain
    linarith
  have hLip := gram_coord_le a L hL (fun i => x i - y i) D hD0 hD j
  have e2 : ∑ r, a r j * ∑ i, a r i * (x i - y i) = (∑ r, a r j * ((∑ i, a r i * x i) - b r)) - ∑ r, a r j * ((∑ i, a r i * y i) - b r) := by
    rw [← Finset.sum_sub_distrib]
    refine Finset.sum_congr rfl fun r _ => ?_
    have : ∑ i, a r i * (x i - y i) = (∑ i, a r i * x i) - ∑ i, a r i * y i := by
      rw [← Finset.sum_sub_distrib]
      exact Finset.sum_congr rfl fun i _ => by ring
    rw [this]
    ring
  have e3 : ∑ r, a r j * (b r - ∑ i, a r i * x i) = -∑ r, a r j * ((∑ i, a r i * x i) - b r) := by
    rw [← Finset.sum_neg_distrib]
    exact Finset.sum_congr rfl fun r _ => by ring
  rw [e2] at hLip
  rw [e3]
  generalize ∑ r, a r j * ((∑ i, a r i * x i) - b r) = Gx at *
  generalize ∑ r, a r j * ((∑ i, a r i * y i) - b r) = Gy at *
  have e4 : -Gx - lam * w j * z j = -(Gx - Gy) + (g - Gy) - (g + lam * w j * z j) := by ring
  rw [e4]
  have f1 := abs_sub (-(Gx - Gy) + (g - Gy)) (g + lam * w j * z j)
  have f2 := abs_add_le (-(Gx - Gy)) (g - Gy)
  rw [abs_neg] at f2
  have e5 : (D + p.stepErr t (w j) lam H X) / t = D * (1 / t) + p.stepErr t (w j) lam H X / t := by ring
  rw [e5] at hmain2
  linarith

/-- The bound of `C155_stationary` for feature `j`. -/
def fitErr (p : Prec) (a : Matrix (Fin m) (Fin n) ℝ) (b : Vec ℝ m) (L lam tol t : ℝ) (w x : Vec ℝ n) (j : Fin n) : ℝ :=
  p.stopDist n tol * (1 / t + L) + gradErrAt p a b x (p.stopDist n tol) j + p.stepErr t (w j) lam (gradSizeAt p a b x (p.stopDist n tol) j) (|x j| + p.stopDist n tol) / t

omit hp in
/-- Approximate optimality conditions bound the objective. -/
theorem kkt_accuracy (a : Matrix (Fin m) (Fin n) ℝ) (b : Vec ℝ m) (lam : ℝ) (w x B : Vec ℝ n) (hlw : ∀ j, 0 ≤ lam * w j)
    (h : ∀ j, ∃ z : ℝ, |z| ≤ 1 ∧ (0 < x j → z = 1) ∧ (x j < 0 → z = -1) ∧ |(∑ r, a r j * (b r - ∑ i, a r i * x i)) - lam * w j * z| ≤ B j) (v : Vec ℝ n) :
    lassoObjective a b lam w x + (∑ r, (∑ j, a r j * (x j - v j)) ^ 2) / 2 ≤ lassoObjective a b lam w v + ∑ j, B j * |x j - v j| := by
  choose z hz hz1 hz2 hB using h
  have e1 : ∀ r, ((∑ j, a r j * v j) - b r) ^ 2 = ((∑ j, a r j * x j) - b r) ^ 2 + 2 * ((b r - ∑ j, a r j * x j) * ∑ j, a r j * (x j - v j)) + (∑ j, a r j * (x j - v j)) ^ 2 := fun r => by
    have : ∑ j, a r j * (x j - v j) = (∑ j, a r j * x j) - ∑ j, a r j * v j := by
      rw [← Finset.sum_sub_distrib]
      exact Finset.sum_congr rfl fun j _ => by ring
    rw [this]
    ring
  have e2 : ∑ r, (b r - ∑ j, a r j * x j) * ∑ j, a r j * (x j - v j) = ∑ j, (∑ r, a r j * (b r - ∑ i, a r i * x i)) * (x j - v j) := by
    have : ∀ R : Vec ℝ m, ∑ r, R r * ∑ j, a r j * (x j - v j) = ∑ j, (∑ r, a r j * R r) * (x j - v j) := fun R => by
      simp only [Finset.sum_mul, Finset.mul_sum]
      rw [Finset.sum_comm]
      exact Finset.sum_congr rfl fun j _ => Finset.sum_congr rfl fun r _ => by ring
    exact this _
  have h3 : ∑ j, (-(B j * |x j - v j|)) ≤ ∑ j, ((∑ r, a r j * (b r - ∑ i, a r i * x i)) * (x j - v j) + lam * w j * (|v j| - |x j|)) := by
    refine Finset.sum_le_sum fun j _ => ?_
    have hsub : z j * (v j - x j) ≤ |v j| - |x j| := by
      have hzx : z j * x j = |x j| := by
        rcases lt_trichotomy (x j) 0 with h | h | h
        · rw [hz2 j h, abs_of_neg h]; ring
        · rw [h]; simp
        · rw [hz1 j h, abs_of_pos h]; ring
      have hzv : z j * v j ≤ |v j| := (le_abs_self _).trans (by rw [abs_mul]; exact mul_le_of_le_one_left (abs_nonneg _) (hz j))
      linarith
    have h4 := mul_le_mul_of_nonneg_left hsub (hlw j)
    have h5 : |((∑ r, a r j * (b r - ∑ i, a r i * x i)) - lam * w j * z j) * (x j - v j)| ≤ B j * |x j - v j| := by
      rw [abs_mul]
      exact mul_le_mul_of_nonneg_right (hB j) (abs_nonneg _)
    have h6 := (abs_le.1 h5).1
    linarith
  have e4 : lam * ∑ i, w i * |v i| - lam * ∑ i, w i * |x i| = ∑ j, lam * w j * (|v j| - |x j|) := by
    rw [← mul_sub, ← Finset.sum_sub_distrib, Finset.mul_sum]
    exact Finset.sum_congr rfl fun j _ => by ring
  rw [Finset.sum_neg_distrib, Finset.sum_add_distrib, ← e4, ← e2] at h3
  unfold lassoObjective
  simp only [e1, Finset.sum_add_distrib, ← Finset.mul_sum]
  linarith

omit hp in
theorem FlLassoLike.nonneg {prox : Vec Flt n → Flt → Vec Flt n} {s lam : ℝ} {w : Vec ℝ n} (h : FlLassoLike A prox s lam w) (j : Fin n) : 0 ≤ lam * w j := by
  rcases h with ⟨-, rfl⟩ | ⟨-, h1, h2⟩
  · rw [zero_mul]
  · exact mul_nonneg h1 (h2 j).1

/-- **C155**, objective and coefficients: the exact objective at the float result of a converged run with fixed steps exceeds its value at any other point `v` by at most `∑ fitErr_j |x_j - v_j|`, and if the
features are linearly independent (`κ |h|² ≤ |A h|²`), the float result is within `2 |fitErr| / κ` of the exact minimiser. -/
theorem C155_error (a : Matrix (Fin m) (Fin n) ℝ) (b : Vec ℝ m) (hn : 0 < n) (hgam : p.gam n < 1) (cfg : FlCfg) (hfix : cfg.stepping ≠ "line-search") (tol : ℝ) (htol : cfg.tol = .fin tol) (hs : 0 < cfg.fixedStepLen)
    (prox : Vec Flt n → Flt → Vec Flt n) (lam : ℝ) (w : Vec ℝ n) (hreg : FlLassoLike A prox cfg.fixedStepLen lam w)
    (L : ℝ) (hL : ∀ h : Vec ℝ n, ∑ r, (∑ j, a r j * h j) ^ 2 ≤ L * ∑ j, h j ^ 2) (value : Vec Flt n → Flt) (x0 x : Vec ℝ n)
    (hx : (flOptimize A ⟨value, flLinGradient A (fun r => liftV (a r)) (liftV b), prox⟩ cfg (liftV x0)).x = liftV x)
    (hc : (flOptimize A ⟨value, flLinGradient A (fun r => liftV (a r)) (liftV b), prox⟩ cfg (liftV x0)).converged = true) :
    (∀ v : Vec ℝ n, lassoObjective a b lam w x ≤ lassoObjective a b lam w v + ∑ j, fitErr p a b L lam tol cfg.fixedStepLen w x j * |x j - v j|) ∧
      ∀ kap : ℝ, 0 < kap → (∀ h : Vec ℝ n, kap * ∑ j, h j ^ 2 ≤ ∑ r, (∑ j, a r j * h j) ^ 2) → ∀ xs : Vec ℝ n, (∀ v, lassoObjective a b lam w xs ≤ lassoObjective a b lam w v) →
        √(∑ j, (x j - xs j) ^ 2) ≤ 2 / kap * √(∑ j, fitErr p a b L lam tol cfg.fixedStepLen w x j ^ 2) := by
  obtain ⟨t, -, -, -, ht, hk⟩ := C155_stationary hp a b hn hgam cfg tol htol hs prox lam w hreg L hL value x0 x hx hc
  rw [ht hfix] at hk
  have hacc := kkt_accuracy a b lam w x (fitErr p a b L lam tol cfg.fixedStepLen w x) hreg.nonneg hk
  refine ⟨fun v => ?_, fun kap hkap hmin xs hxs => ?_⟩
  · have h0 : 0 ≤ ∑ r, (∑ j, a r j * (x j - v j)) ^ 2 := Finset.sum_nonneg fun r _ => sq_nonneg _
    linarith [hacc v]
  · have h1 := hacc xs
    have h2 := hxs x
    have h3 := hmin fun j => x j - xs j
    have h4 : ∑ j, fitErr p a b L lam tol cfg.fixedStepLen w x j * |x j - xs j| ≤ √(∑ j, fitErr p a b L lam tol cfg.fixedStepLen w x j ^ 2) * √(∑ j, (x j - xs j) ^ 2) := by
      have := Real.sum_mul_le_sqrt_mul_sqrt Finset.univ (fitErr p a b L lam tol cfg.fixedStepLen w x) fun j => |x j - xs j|
      simpa only [sq_abs] using this
    obtain ⟨D, hD⟩ : ∃ D, D = √(∑ j, (x j - xs j) ^ 2) := ⟨_, rfl⟩
    have hD2 : ∑ j, (x j - xs j) ^ 2 = D ^ 2 := by rw [hD, Real.sq_sqrt (Finset.sum_nonneg fun j _ => sq_nonneg _)]
    have hD0 : 0 ≤ D := by rw [hD]; exact Real.sqrt_nonneg _
    rw [← hD] at h4 ⊢
    rw [hD2] at h3
    have h5 := quad_root_bound (k := kap) (c := √(∑ j, fitErr p a b L lam tol cfg.fixedStepLen w x j ^ 2)) (s := 0) (D := D) hkap (Real.sqrt_nonneg _) le_rfl (by linarith)
    simpa using h5

end

end Verif
