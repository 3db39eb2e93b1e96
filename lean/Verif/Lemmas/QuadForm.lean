import Mathlib.Data.Matrix.Mul
import Mathlib.Tactic.Ring
import Mathlib.Tactic.Abel
import Mathlib.Tactic.Linarith
import Mathlib.Tactic.FieldSimp
import Mathlib.Tactic.Positivity
import Verif.Spec.Prior

/-!
# Quadratic forms, sums over lists of groups
-/

open Matrix

namespace Verif

variable {K : Type*} [Field K]

theorem quadSum_eq {n : ℕ} (H : Matrix (Fin n) (Fin n) K) (h : Vec K n) :
    ∑ i, ∑ j, h i * H i j * h j = h ⬝ᵥ (H *ᵥ h) := by
  simp only [dotProduct, Matrix.mulVec, Finset.mul_sum, mul_assoc]

theorem list_sum_dot {ι : Type*} {n : ℕ} (l : List ι) (f : ι → Vec K n) (h : Vec K n) :
    (l.map f).sum ⬝ᵥ h = (l.map fun a => f a ⬝ᵥ h).sum := by
  induction l with
  | nil => simp
  | cons a l ih => simp only [List.map_cons, List.sum_cons, add_dotProduct, ih]

theorem list_sum_mulVec {ι : Type*} {m n : ℕ} (l : List ι) (f : ι → Matrix (Fin m) (Fin n) K) (h : Vec K n) :
    (l.map f).sum *ᵥ h = (l.map fun a => f a *ᵥ h).sum := by
  induction l with
  | nil => simp
  | cons a l ih => simp only [List.map_cons, List.sum_cons, Matrix.add_mulVec, ih]

theorem list_sum_apply {ι : Type*} {n : ℕ} (l : List ι) (f : ι → Vec K n) (i : Fin n) :
    (l.map f).sum i = (l.map fun a => f a i).sum := by
  induction l with
  | nil => simp
  | cons a l ih => simp only [List.map_cons, List.sum_cons, Pi.add_apply, ih]

theorem list_sum_matrix_apply {ι : Type*} {m n : ℕ} (l : List ι) (f : ι → Matrix (Fin m) (Fin n) K)
    (i : Fin m) (j : Fin n) : (l.map f).sum i j = (l.map fun a => f a i j).sum := by
  induction l with
  | nil => simp
  | cons a l ih => simp only [List.map_cons, List.sum_cons, Matrix.add_apply, ih]

theorem list_sum_transpose {ι : Type*} {m n : ℕ} (l : List ι) (f : ι → Matrix (Fin m) (Fin n) K) :
    ((l.map f).sum)ᵀ = (l.map fun a => (f a)ᵀ).sum := by
  induction l with
  | nil => simp
  | cons a l ih => simp only [List.map_cons, List.sum_cons, Matrix.transpose_add, ih]

/-- The expansion in vector notation. -/
theorem quadraticExpansion_iff {n : ℕ} {f : Vec K n → K} {g : Vec K n → Vec K n}
    {H : Matrix (Fin n) (Fin n) K} : QuadraticExpansion f g H ↔
      ∀ x h, f (x + h) = f x + g x ⬝ᵥ h + 1 / 2 * (h ⬝ᵥ (H *ᵥ h)) := by
  unfold QuadraticExpansion
  simp only [quadSum_eq]
  exact Iff.rfl

theorem QuadraticExpansion.zero {n : ℕ} (c : K) :
    QuadraticExpansion (fun _ : Vec K n => c) (fun _ => 0) 0 := by
  rw [quadraticExpansion_iff]
  intro x h
  simp

theorem QuadraticExpansion.add {n : ℕ} {f f' : Vec K n → K} {g g' : Vec K n → Vec K n}
    {H H' : Matrix (Fin n) (Fin n) K} (h1 : QuadraticExpansion f g H) (h2 : QuadraticExpansion f' g' H') :
    QuadraticExpansion (fun x => f x + f' x) (fun x => g x + g' x) (H + H') := by
  rw [quadraticExpansion_iff] at *
  intro x h
  rw [h1, h2, add_dotProduct, Matrix.add_mulVec, dotProduct_add]
  ring

theorem QuadraticExpansion.list_sum {ι : Type*} {n : ℕ} (l : List ι) {f : ι → Vec K n → K}
    {g : ι → Vec K n → Vec K n} {H : ι → Matrix (Fin n) (Fin n) K}
    (h : ∀ a ∈ l, QuadraticExpansion (f a) (g a) (H a)) :
    QuadraticExpansion (fun x => (l.map fun a => f a x).sum) (fun x => (l.map fun a => g a x).sum)
      (l.map H).sum := by
  induction l with
  | nil => simpa using QuadraticExpansion.zero (0 : K)
  | cons a l ih =>
    have := (h a List.mem_cons_self).add (ih fun b hb => h b (List.mem_cons_of_mem _ hb))
    simpa only [List.map_cons, List.sum_cons] using this

/-- A weighted residual sum of squares. -/
theorem quadraticExpansion_residual {m n : ℕ} (h2 : (2 : K) ≠ 0) (A : Matrix (Fin m) (Fin n) K)
    (b : Fin m → K) (M : Matrix (Fin m) (Fin m) K) (hM : Mᵀ = M) (c : K) :
    QuadraticExpansion (fun x => 1 / 2 * ((b - A *ᵥ x) ⬝ᵥ (M *ᵥ (b - A *ᵥ x))) + c)
      (fun x => -(Aᵀ *ᵥ (M *ᵥ (b - A *ᵥ x)))) (Aᵀ * M * A) := by
  rw [quadraticExpansion_iff]
  intro x h
  set r := b - A *ᵥ x with hr
  have e1 : b - A *ᵥ (x + h) = r - A *ᵥ h := by
    rw [Matrix.mulVec_add, hr]; abel
  have e2 : h ⬝ᵥ ((Aᵀ * M * A) *ᵥ h) = (A *ᵥ h) ⬝ᵥ (M *ᵥ (A *ᵥ h)) := by
    rw [Matrix.mul_assoc, ← Matrix.mulVec_mulVec, ← Matrix.mulVec_mulVec, Matrix.dotProduct_mulVec h,
      Matrix.vecMul_transpose]
  have e3 : -(Aᵀ *ᵥ (M *ᵥ r)) ⬝ᵥ h = -((A *ᵥ h) ⬝ᵥ (M *ᵥ r)) := by
    rw [neg_dotProduct, dotProduct_comm, Matrix.dotProduct_mulVec h, Matrix.vecMul_transpose]
  have e4 : r ⬝ᵥ (M *ᵥ (A *ᵥ h)) = (A *ᵥ h) ⬝ᵥ (M *ᵥ r) := by
    conv_lhs => rw [Matrix.dotProduct_mulVec, ← hM, Matrix.vecMul_transpose, dotProduct_comm]

  rw [e1, e2, e3]
  rw [Matrix.mulVec_sub, sub_dotProduct, dotProduct_sub, dotProduct_sub, e4]
  field_simp
  ring

theorem quadraticExpansion_sqDist {n : ℕ} (h2 : (2 : K) ≠ 0) (lam : K) (t : Vec K n) :
    QuadraticExpansion (fun x => lam / 2 * ∑ i, (x i - t i) ^ 2) (fun x => lam • (x - t))
      (lam • (1 : Matrix (Fin n) (Fin n) K)) := by
  rw [quadraticExpansion_iff]
  intro x h
  have e1 : ∑ i, ((x + h) i - t i) ^ 2 = ∑ i, (x i - t i) ^ 2 + 2 * ((x - t) ⬝ᵥ h) + h ⬝ᵥ h := by
    simp only [dotProduct, Finset.mul_sum, ← Finset.sum_add_distrib, Pi.add_apply, Pi.sub_apply]
    exact Finset.sum_congr rfl fun i _ => by ring

  rw [e1, Matrix.smul_mulVec, Matrix.one_mulVec, smul_dotProduct, dotProduct_smul]
  simp only [smul_eq_mul]
  field_simp

section ordered
variable [LinearOrder K] [IsStrictOrderedRing K]

/-- A stationary point of a function with a nonnegative second-order term is a global minimiser. -/
theorem QuadraticExpansion.le_of_stationary {n : ℕ} {f : Vec K n → K} {g : Vec K n → Vec K n}
    {H : Matrix (Fin n) (Fin n) K} (h : QuadraticExpansion f g H) (hH : NonnegForm H) {x : Vec K n}
    (hx : g x = 0) (y : Vec K n) : f x ≤ f y := by
  have e := quadraticExpansion_iff.1 h x (y - x)
  have e2 := hH (y - x)
  rw [quadSum_eq] at e2
  rw [hx, zero_dotProduct, add_zero, show x + (y - x) = y by abel] at e
  rw [e]
  linarith

/-- At a point with a nonzero gradient the function can be decreased. -/
theorem QuadraticExpansion.lt_of_not_stationary {n : ℕ} {f : Vec K n → K} {g : Vec K n → Vec K n}
    {H : Matrix (Fin n) (Fin n) K} (h : QuadraticExpansion f g H) {x : Vec K n} (hx : g x ≠ 0) :
    ∃ y, f y < f x := by
  set G := g x ⬝ᵥ g x with hG
  have hGpos : 0 < G := by
    obtain ⟨i, hi⟩ := Function.ne_iff.1 hx
    have hi' : g x i ≠ 0 := hi
    rw [hG]
    simp only [dotProduct]
    exact Finset.sum_pos' (fun j _ => mul_self_nonneg _) ⟨i, Finset.mem_univ _, mul_self_pos.2 hi'⟩
  set Q := g x ⬝ᵥ (H *ᵥ g x) with hQ
  set t : K := G / (|Q| + G) with ht
  have hden : 0 < |Q| + G := by positivity
  have htpos : 0 < t := div_pos hGpos hden
  refine ⟨x + (-t) • g x, ?_⟩
  rw [quadraticExpansion_iff.1 h x ((-t) • g x)]
  rw [dotProduct_smul, Matrix.mulVec_smul, dotProduct_smul, smul_dotProduct, ← hG, ← hQ]
  simp only [smul_eq_mul]
  have h1 : t * |Q| ≤ G := by
    rw [ht, div_mul_eq_mul_div, div_le_iff₀ hden]
    nlinarith [abs_nonneg Q]
  have h2 : t * Q ≤ G := le_trans (mul_le_mul_of_nonneg_left (le_abs_self Q) htpos.le) h1
  have h3 : 0 < t * (G - 1 / 2 * (t * Q)) := mul_pos htpos (by linarith)
  linarith

end ordered

end Verif
