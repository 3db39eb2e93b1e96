import Verif.Model.LmeExtra
import Verif.Props.LmeLoss
import Mathlib.Analysis.Matrix.PosDef

/-!
# C94: condition numbers (`get_condition_numbers`)
-/

open Matrix

namespace Verif

variable {p q : ℕ}

/-! ## Eigenvalues of a Gram matrix -/

/-- A vector in the eigenbasis: same length, and the quadratic form is the weighted sum of squares. -/
theorem eigen_coords {k : ℕ} {A : Matrix (Fin k) (Fin k) ℝ} (hA : A.IsHermitian) (v : Vec ℝ k) :
    ∃ c : Vec ℝ k, v ⬝ᵥ v = ∑ i, c i ^ 2 ∧ v ⬝ᵥ (A *ᵥ v) = ∑ i, hA.eigenvalues i * c i ^ 2 := by
  set U : Matrix (Fin k) (Fin k) ℝ := hA.eigenvectorUnitary.1 with hU
  have hsp : A = U * diagonal hA.eigenvalues * Uᵀ := by
    conv_lhs => rw [hA.spectral_theorem]
    rw [Unitary.conjStarAlgAut_apply]
    rfl
  have hUU : U * Uᵀ = 1 := by
    have := Unitary.coe_mul_star_self hA.eigenvectorUnitary
    exact this
  refine ⟨Uᵀ *ᵥ v, ?_, ?_⟩
  · have : ∑ i, (Uᵀ *ᵥ v) i ^ 2 = (Uᵀ *ᵥ v) ⬝ᵥ (Uᵀ *ᵥ v) := by
      simp [dotProduct, sq]
    rw [this, dotProduct_mulVec, vecMul_transpose, mulVec_mulVec, hUU, one_mulVec]
  · have e : v ⬝ᵥ (A *ᵥ v) = (Uᵀ *ᵥ v) ⬝ᵥ (diagonal hA.eigenvalues *ᵥ (Uᵀ *ᵥ v)) := by
      conv_lhs => rw [hsp]
      rw [← mulVec_mulVec, ← mulVec_mulVec, dotProduct_mulVec v, ← mulVec_transpose]
    rw [e]
    simp only [dotProduct, mulVec_diagonal]
    exact Finset.sum_congr rfl fun i _ => by ring

theorem gram_quad {n k : ℕ} (x : Matrix (Fin n) (Fin k) ℝ) (v : Vec ℝ k) : v ⬝ᵥ ((xᵀ * x) *ᵥ v) = (x *ᵥ v) ⬝ᵥ (x *ᵥ v) := by
  rw [← mulVec_mulVec, dotProduct_mulVec v, vecMul_transpose]

theorem gram_bounds {n k : ℕ} (x : Matrix (Fin n) (Fin k) ℝ) (a b : ℝ) (h : ∀ s ∈ gramSingularValues x, a ≤ s ∧ s ≤ b) (v : Vec ℝ k) :
    a * (v ⬝ᵥ v) ≤ (x *ᵥ v) ⬝ᵥ (x *ᵥ v) ∧ (x *ᵥ v) ⬝ᵥ (x *ᵥ v) ≤ b * (v ⬝ᵥ v) := by
  obtain ⟨c, h1, h2⟩ := eigen_coords (gram_isHermitian x) v
  rw [← gram_quad, h1, h2, Finset.mul_sum, Finset.mul_sum]
  have hi : ∀ i, a ≤ (gram_isHermitian x).eigenvalues i ∧ (gram_isHermitian x).eigenvalues i ≤ b := fun i =>
    h _ (List.mem_ofFn.2 ⟨i, rfl⟩)
  exact ⟨Finset.sum_le_sum fun i _ => mul_le_mul_of_nonneg_right (hi i).1 (sq_nonneg _),
    Finset.sum_le_sum fun i _ => mul_le_mul_of_nonneg_right (hi i).2 (sq_nonneg _)⟩

theorem gramSingularValues_nonneg {n k : ℕ} (x : Matrix (Fin n) (Fin k) ℝ) : ∀ s ∈ gramSingularValues x, 0 ≤ s := by
  intro s hs
  obtain ⟨i, rfl⟩ := List.mem_ofFn.1 hs
  have : (xᵀ * x).PosSemidef := by
    rw [← conjTranspose_eq_transpose_of_trivial]
    exact posSemidef_conjTranspose_mul_self x
  exact this.eigenvalues_nonneg i

/-- A matrix with fewer rows than columns has the singular value zero. -/
theorem gramSingularValues_zero {n k : ℕ} (x : Matrix (Fin n) (Fin k) ℝ) (h : n < k) : (0 : ℝ) ∈ gramSingularValues x := by
  by_contra hc
  have hall : ∀ i, (gram_isHermitian x).eigenvalues i ≠ 0 := fun i hi => hc (List.mem_ofFn.2 ⟨i, hi⟩)
  have h1 := (gram_isHermitian x).rank_eq_card_non_zero_eigs
  have h2 : Fintype.card {i // (gram_isHermitian x).eigenvalues i ≠ 0} = k := by
    rw [Fintype.card_subtype, Finset.filter_true_of_mem fun i _ => hall i]
    simp
  have h3 : (xᵀ * x).rank ≤ n := (rank_mul_le_right _ _).trans (by simpa using rank_le_card_height x)
  omega

/-! ## The quotient of the largest and the smallest -/

theorem spread_ok {l : List ℝ} {c : WithTop ℝ} (h : spread l = .ok c) :
    ∃ a b, a ∈ l ∧ b ∈ l ∧ (∀ s ∈ l, a ≤ s ∧ s ≤ b) ∧ c = if a = 0 then ⊤ else ((b / a : ℝ) : WithTop ℝ) := by
  unfold spread at h
  cases ha : l.min? with
  | none => simp [ha] at h
  | some a =>
    cases hb : l.max? with
    | none => simp [ha, hb] at h
    | some b =>
      rw [ha, hb] at h
      obtain ⟨h1, h2⟩ := List.min?_eq_some_iff.1 ha
      obtain ⟨h3, h4⟩ := List.max?_eq_some_iff.1 hb
      refine ⟨a, b, h1, h3, fun s hs => ⟨h2 s hs, h4 s hs⟩, ?_⟩
      simp only at h
      split_ifs at h ⊢ <;> exact (Except.ok.inj h).symm

theorem spread_returns {l : List ℝ} (h : l ≠ []) : ∃ c, spread l = .ok c := by
  unfold spread
  cases ha : l.min? with
  | none => exact absurd (List.min?_eq_none_iff.1 ha) h
  | some a =>
    cases hb : l.max? with
    | none => exact absurd (List.max?_eq_none_iff.1 hb) h
    | some b => simp only; split_ifs <;> exact ⟨_, rfl⟩

/-- `κ` is at least the ratio of the largest to the smallest stretch `‖X v‖² / ‖v‖²` of the stacked matrix. -/
theorem spread_bound {ι : Type} (D : List ι) {k : ℕ} (n : ι → ℕ) (x : (g : ι) → Matrix (Fin (n g)) (Fin k) ℝ) (c : ℝ)
    (h : spread (D.flatMap fun g => gramSingularValues (x g)) = .ok (c : WithTop ℝ)) :
    1 ≤ c ∧ ∀ u v : Vec ℝ k, (D.map fun g => (x g *ᵥ u) ⬝ᵥ (x g *ᵥ u)).sum * (v ⬝ᵥ v) ≤
      c * ((D.map fun g => (x g *ᵥ v) ⬝ᵥ (x g *ᵥ v)).sum * (u ⬝ᵥ u)) := by
  obtain ⟨a, b, ha, hb, hab, hc⟩ := spread_ok h
  have hnn : ∀ s ∈ D.flatMap fun g => gramSingularValues (x g), 0 ≤ s := by
    intro s hs
    obtain ⟨g, -, hs⟩ := List.mem_flatMap.1 hs
    exact gramSingularValues_nonneg _ s hs
  have ha0 : a ≠ 0 := by
    intro h0
    rw [if_pos h0] at hc
    exact absurd hc WithTop.coe_ne_top
  rw [if_neg ha0] at hc
  have hc : c = b / a := WithTop.coe_injective hc
  have hap : 0 < a := lt_of_le_of_ne (hnn a ha) (Ne.symm ha0)
  have hbb : a ≤ b := (hab a ha).2
  have hcb : c * a = b := by rw [hc]; field_simp
  refine ⟨by rw [hc, le_div_iff₀ hap]; linarith, fun u v => ?_⟩
  have hg : ∀ g ∈ D, ∀ w : Vec ℝ k, a * (w ⬝ᵥ w) ≤ (x g *ᵥ w) ⬝ᵥ (x g *ᵥ w) ∧ (x g *ᵥ w) ⬝ᵥ (x g *ᵥ w) ≤ b * (w ⬝ᵥ w) :=
    fun g hg w => gram_bounds (x g) a b (fun s hs => hab s (List.mem_flatMap.2 ⟨g, hg, hs⟩)) w
  have hU : (D.map fun g => (x g *ᵥ u) ⬝ᵥ (x g *ᵥ u)).sum ≤ (D.map fun _ => b * (u ⬝ᵥ u)).sum :=
    List.sum_le_sum fun g hg' => (hg g hg' u).2
  have hV : (D.map fun _ => a * (v ⬝ᵥ v)).sum ≤ (D.map fun g => (x g *ᵥ v) ⬝ᵥ (x g *ᵥ v)).sum :=
    List.sum_le_sum fun g hg' => (hg g hg' v).1
  simp only [List.map_const', List.sum_replicate, nsmul_eq_mul] at hU hV
  have hvv : 0 ≤ v ⬝ᵥ v := by
    rw [← star_trivial v]; exact dotProduct_star_self_nonneg _
  have huu : 0 ≤ u ⬝ᵥ u := by
    rw [← star_trivial u]; exact dotProduct_star_self_nonneg _
  have hc0 : 0 ≤ c := by rw [hc]; exact div_nonneg (hap.le.trans hbb) hap.le
  calc _ ≤ (D.length * (b * (u ⬝ᵥ u))) * (v ⬝ᵥ v) := mul_le_mul_of_nonneg_right hU hvv
    _ = c * ((D.length * (a * (v ⬝ᵥ v))) * (u ⬝ᵥ u)) := by rw [← hcb]; ring
    _ ≤ _ := mul_le_mul_of_nonneg_left (mul_le_mul_of_nonneg_right hV huu) hc0

theorem lmeConditionNumbers_ok {D : List (LmeGroup p q)} {c : WithTop ℝ × WithTop ℝ} :
    lmeConditionNumbers D = .ok c ↔ spread (D.flatMap fun g => gramSingularValues g.x) = .ok c.1 ∧
      spread (D.flatMap fun g => gramSingularValues g.z) = .ok c.2 := by
  unfold lmeConditionNumbers
  rw [ebind_ok]
  constructor
  · rintro ⟨a, h1, h⟩
    obtain ⟨b, h2, h⟩ := ebind_ok.1 h
    cases h
    exact ⟨h1, h2⟩
  · rintro ⟨h1, h2⟩
    exact ⟨_, h1, ebind_ok.2 ⟨_, h2, rfl⟩⟩

/-- **C94** is violated: if a single group has fewer rows than there are fixed effects, the condition number reported for
`X` is infinite, however well conditioned `X` is (see the example). The same for the random effects. -/
theorem C94_short_group_violated (D : List (LmeGroup p q)) (hq : q ≠ 0) (hp : p ≠ 0) (g : LmeGroup p q) (hg : g ∈ D) :
    ∃ cx cz, lmeConditionNumbers D = .ok (cx, cz) ∧ (g.n < p → cx = ⊤) ∧ (g.n < q → cz = ⊤) := by
  have hne : ∀ {n k : ℕ} (x : Matrix (Fin n) (Fin k) ℝ), k ≠ 0 → gramSingularValues x ≠ [] := by
    intro n k x hk h
    have := congrArg List.length h
    simp [gramSingularValues] at this
    exact hk this
  have hx : (D.flatMap fun g => gramSingularValues g.x) ≠ [] := fun h =>
    hne g.x hp (List.flatMap_eq_nil_iff.1 h g hg)
  have hz : (D.flatMap fun g => gramSingularValues g.z) ≠ [] := fun h =>
    hne g.z hq (List.flatMap_eq_nil_iff.1 h g hg)
  obtain ⟨cx, h1⟩ := spread_returns hx
  obtain ⟨cz, h2⟩ := spread_returns hz
  have htop : ∀ {l : List ℝ} {c : WithTop ℝ}, spread l = .ok c → (0 : ℝ) ∈ l → (∀ s ∈ l, 0 ≤ s) → c = ⊤ := by
    intro l c h h0 hn
    obtain ⟨a, b, ha, -, hab, hc⟩ := spread_ok h
    rw [hc, if_pos (le_antisymm (hab 0 h0).1 (hn a ha))]
  have hnn : ∀ {k : ℕ} (x : (g : LmeGroup p q) → Matrix (Fin g.n) (Fin k) ℝ), ∀ s ∈ D.flatMap fun g => gramSingularValues (x g), 0 ≤ s := by
    intro k x s hs
    obtain ⟨g, -, hs⟩ := List.mem_flatMap.1 hs
    exact gramSingularValues_nonneg _ s hs
  exact ⟨cx, cz, lmeConditionNumbers_ok.2 ⟨h1, h2⟩,
    fun h => htop h1 (List.mem_flatMap.2 ⟨g, hg, gramSingularValues_zero _ h⟩) (hnn fun g => g.x),
    fun h => htop h2 (List.mem_flatMap.2 ⟨g, hg, gramSingularValues_zero _ h⟩) (hnn fun g => g.z)⟩

/-- Two groups with one row each, which together are the identity matrix (condition number one). -/
example : ∃ cz, lmeConditionNumbers [(⟨1, !![1, 0], ![0], !![1], ![1]⟩ : LmeGroup 2 1), ⟨1, !![0, 1], ![0], !![1], ![1]⟩] = .ok (⊤, cz) := by
  obtain ⟨cx, cz, h, hx, -⟩ := C94_short_group_violated
    [(⟨1, !![1, 0], ![0], !![1], ![1]⟩ : LmeGroup 2 1), ⟨1, !![0, 1], ![0], !![1], ![1]⟩] one_ne_zero two_ne_zero _ List.mem_cons_self
  cases hx (by norm_num)
  exact ⟨cz, h⟩

/-- **C94** is violated without random effects: the call raises for every dataset. -/
theorem C94_no_random_violated (D : List (LmeGroup p 0)) : ∃ e, lmeConditionNumbers D = .error e := by
  cases h : lmeConditionNumbers D with
  | error e => exact ⟨e, rfl⟩
  | ok c =>
    obtain ⟨a, -, ha, -⟩ := spread_ok (lmeConditionNumbers_ok.1 h).2
    obtain ⟨g, -, hs⟩ := List.mem_flatMap.1 ha
    obtain ⟨i, -⟩ := List.mem_ofFn.1 hs
    exact i.elim0

example : ∃ e, lmeConditionNumbers [(⟨1, !![1], ![0], 0, ![1]⟩ : LmeGroup 1 0)] = .error e := C94_no_random_violated _

/-- The part of **C94** that holds: finite numbers that are returned are upper bounds of the condition numbers of `XᵀX` and
`ZᵀZ` (the groups stacked): the ratio of the stretches `‖Xu‖²/‖u‖²` and `‖Xv‖²/‖v‖²` of any two vectors is not above
them. Missing: equality, and a bound when a single group does not determine all coefficients
(`C94_short_group_violated`). -/
theorem C94_bound_partial (D : List (LmeGroup p q)) (cx cz : WithTop ℝ) (h : lmeConditionNumbers D = .ok (cx, cz)) :
    (∀ c : ℝ, cx = c → 1 ≤ c ∧ ∀ u v : Vec ℝ p, (D.map fun g => ∑ i, (∑ j, g.x i j * u j) ^ 2).sum * (∑ j, v j ^ 2) ≤
      c * ((D.map fun g => ∑ i, (∑ j, g.x i j * v j) ^ 2).sum * ∑ j, u j ^ 2)) ∧
    (∀ c : ℝ, cz = c → 1 ≤ c ∧ ∀ u v : Vec ℝ q, (D.map fun g => ∑ i, (∑ j, g.z i j * u j) ^ 2).sum * (∑ j, v j ^ 2) ≤
      c * ((D.map fun g => ∑ i, (∑ j, g.z i j * v j) ^ 2).sum * ∑ j, u j ^ 2)) := by
  have e : ∀ {n k : ℕ} (x : Matrix (Fin n) (Fin k) ℝ) (u : Vec ℝ k), ∑ i, (∑ j, x i j * u j) ^ 2 = (x *ᵥ u) ⬝ᵥ (x *ᵥ u) := by
    intro n k x u
    simp [dotProduct, mulVec, sq]
  have e' : ∀ {k : ℕ} (u : Vec ℝ k), ∑ j, u j ^ 2 = u ⬝ᵥ u := by
    intro k u
    simp [dotProduct, sq]
  obtain ⟨h1, h2⟩ := lmeConditionNumbers_ok.1 h
  simp only [e, e']
  refine ⟨fun c hc => ?_, fun c hc => ?_⟩
  · subst hc
    exact spread_bound D (fun g => g.n) (fun g => g.x) c h1
  · subst hc
    exact spread_bound D (fun g => g.n) (fun g => g.z) c h2

/-- One row, one fixed and one random effect: both numbers are finite. -/
example : lmeConditionNumbers [(⟨1, !![3], ![0], !![2], ![1]⟩ : LmeGroup 1 1)] = .ok (((1 : ℝ) : WithTop ℝ), ((1 : ℝ) : WithTop ℝ)) := by
  have h : ∀ a : ℝ, a ≠ 0 → spread (gramSingularValues !![a]) = .ok (((1 : ℝ) : WithTop ℝ)) := by
    intro a ha
    have hd := (gram_isHermitian !![a]).det_eq_prod_eigenvalues
    rw [Fin.prod_univ_one, det_fin_one] at hd
    have he : (gram_isHermitian !![a]).eigenvalues 0 = a * a := by
      rw [← show ((!![a] : Matrix (Fin 1) (Fin 1) ℝ)ᵀ * !![a]) 0 0 = a * a by simp [mul_apply]]
      exact hd.symm
    have hne : a * a ≠ 0 := mul_ne_zero ha ha
    simp [spread, gramSingularValues, List.ofFn_succ, he, ha]
  refine lmeConditionNumbers_ok.2 ⟨?_, ?_⟩
  · simpa using h 3 (by norm_num)
  · simpa using h 2 (by norm_num)

end Verif
