import Verif.Props.LmeSelect
import Mathlib.Analysis.SpecialFunctions.Pow.Real
import Mathlib.Analysis.SpecialFunctions.Log.Base

/-!
# C101: the strengths tried by the covariate selection
-/

namespace Verif

theorem lamGrid_get (i : ℕ) (hi : i < lamGrid.length) : lamGrid[i] = (10 : ℝ) ^ (-4 + (i : ℝ) / 11) := by
  have key : ∀ (l : List ℝ) (h : i < l.length), l = ((List.range 100).map fun i : ℕ => (10 : ℝ) ^ (-4 + 9 * (i : ℝ) / 99)) →
      l[i] = (10 : ℝ) ^ (-4 + (i : ℝ) / 11) := by
    rintro l h rfl
    rw [List.getElem_map, List.getElem_range]
    congr 1
    ring
  exact key lamGrid hi rfl

/-- **C101**: for L1, CAD and SCAD, plain or SR3, the selection tries one model for each of 100 strengths. They start at
`1e-4`, each is `10^(1/11)` times the previous one, the last is `1e5`; so every strength between `1e-4` and `1e5` is at most
`10^(1/11)` times larger than a tried one. -/
theorem C101_grid (sort : NpSort) (nf nr : ℕ) :
    ∃ lams : List ℝ, lams.length = 100 ∧ lams.head? = some (1 / 10 ^ 4) ∧ lams.getLast? = some (10 ^ 5) ∧
      (∀ i (h : i + 1 < lams.length), lams[i + 1] = (10 : ℝ) ^ (1 / 11 : ℝ) * lams[i]) ∧
      (∀ lam : ℝ, 1 / 10 ^ 4 ≤ lam → lam ≤ 10 ^ 5 → ∃ mu ∈ lams, mu ≤ lam ∧ lam ≤ (10 : ℝ) ^ (1 / 11 : ℝ) * mu) ∧
      gridModels sort "L1" nf nr = .ok (lams.map fun lam => gridPlain (.l1 lam)) ∧
      gridModels sort "L1_SR3" nf nr = .ok (lams.map fun lam => gridSr3 10000 (.l1 lam)) ∧
      gridModels sort "CAD" nf nr = .ok (lams.map fun lam => gridPlain (.cad 0.3 lam)) ∧
      gridModels sort "CAD_SR3" nf nr = .ok (lams.map fun lam => gridSr3 10000 (.cad 0.3 lam)) ∧
      gridModels sort "SCAD" nf nr = .ok (lams.map fun lam => gridPlain (.scad 3.7 0.5 lam)) ∧
      gridModels sort "SCAD_SR3" nf nr = .ok (lams.map fun lam => gridSr3 10000 (.scad 3.7 0.5 lam)) := by
  have hlen : lamGrid.length = 100 := by simp [lamGrid]
  have h10 : (0 : ℝ) < 10 := by norm_num
  have hlo : (1 : ℝ) / 10 ^ 4 = 10 ^ (-4 : ℝ) := by
    rw [Real.rpow_neg h10.le, one_div]
    norm_num
  have hhi : (10 : ℝ) ^ 5 = 10 ^ (5 : ℝ) := by norm_num
  refine ⟨lamGrid, hlen, ?_, ?_, fun i h => ?_, fun lam h1 h2 => ?_, rfl, rfl, rfl, rfl, rfl, rfl⟩
  · rw [List.head?_eq_getElem?, List.getElem?_eq_getElem (by omega), lamGrid_get, hlo]
    norm_num
  · rw [List.getLast?_eq_getElem?, List.getElem?_eq_getElem (by omega), lamGrid_get, hlen, hhi]
    norm_num
  · rw [lamGrid_get, lamGrid_get, ← Real.rpow_add h10]
    congr 1
    push_cast
    ring
  · have hpos : 0 < lam := lt_of_lt_of_le (by norm_num) h1
    obtain ⟨a, ha⟩ : ∃ a : ℝ, lam = 10 ^ a := ⟨Real.logb 10 lam, (Real.rpow_logb h10 (by norm_num) hpos).symm⟩
    rw [ha, hlo, Real.rpow_le_rpow_left_iff (by norm_num)] at h1
    rw [ha, hhi, Real.rpow_le_rpow_left_iff (by norm_num)] at h2
    obtain ⟨i, hi⟩ : ∃ i : ℕ, i = ⌊11 * (a + 4)⌋₊ := ⟨_, rfl⟩
    have hnn : (0 : ℝ) ≤ 11 * (a + 4) := by linarith
    have hle : (i : ℝ) ≤ 11 * (a + 4) := by rw [hi]; exact Nat.floor_le hnn
    have hlt : 11 * (a + 4) < (i : ℝ) + 1 := by rw [hi]; exact Nat.lt_floor_add_one _
    have hi100 : i < 100 := by
      have : (i : ℝ) < 100 := by linarith
      exact_mod_cast this
    refine ⟨_, List.getElem_mem (hlen.symm ▸ hi100), ?_, ?_⟩
    · rw [lamGrid_get, ha, Real.rpow_le_rpow_left_iff (by norm_num)]
      linarith
    · rw [lamGrid_get, ha, ← Real.rpow_add h10, Real.rpow_le_rpow_left_iff (by norm_num)]
      linarith

/-- Non-vacuity of C101: some tried L1 model has a strength at most one grid step below 1. -/
example (sort : NpSort) : ∃ Ms mu, gridModels sort "L1" 5 3 = .ok Ms ∧ gridPlain (.l1 mu) ∈ Ms ∧ mu ≤ 1 ∧ 1 ≤ (10 : ℝ) ^ (1 / 11 : ℝ) * mu := by
  obtain ⟨lams, -, -, -, -, h, h1, -⟩ := C101_grid sort 5 3
  obtain ⟨mu, hm, a, b⟩ := h 1 (by norm_num) (by norm_num)
  exact ⟨_, mu, h1, List.mem_map.2 ⟨mu, hm, rfl⟩, a, b⟩

end Verif
