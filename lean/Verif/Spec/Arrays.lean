import Verif.Model.LinSession

/-!
# What good arrays are, said without the model's checks
-/

namespace Verif

/-- A table with at least one row and one column and only finite numbers. -/
def GoodTable (x : RawX) : Prop := (∃ _ : Fin x.m, True) ∧ (∃ _ : Fin x.n, True) ∧ ∀ i j, ∃ v : ℝ, x.e i j = some v

/-- A good table and a target with one finite number per row, in one dimension or in a single column. -/
def GoodData (x : RawX) (y : RawY) : Prop := GoodTable x ∧ x.m = y.k ∧ y.cols.getD 1 = 1 ∧ ∀ i, ∃ v : ℝ, y.e i 0 = some v

theorem goodTable_iff {x : RawX} : GoodTable x ↔ x.Valid := by
  unfold GoodTable RawX.Valid
  simp only [exists_const_iff, and_true, ← Option.isSome_iff_exists, Option.isSome_iff_ne_none, ← Fin.pos_iff_nonempty]

theorem goodData_iff {x : RawX} {y : RawY} : GoodData x y ↔ CheckedXY x y := by
  unfold GoodData CheckedXY
  rw [goodTable_iff]
  simp only [← Option.isSome_iff_exists, Option.isSome_iff_ne_none]
  have h : y.cols.getD 1 = 1 ↔ y.cols = none ∨ y.cols = some 1 := by
    cases y.cols <;> simp
  rw [h, eq_comm]

end Verif
