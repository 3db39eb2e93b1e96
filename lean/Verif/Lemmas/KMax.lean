import Verif.Model.Regularizers
import Mathlib.Tactic.Linarith
import Mathlib.Tactic.Ring
import Mathlib.Algebra.Order.BigOperators.Group.Finset
import Mathlib.Algebra.Order.BigOperators.Ring.Finset
import Mathlib.Order.Interval.Finset.Fin
import Mathlib.Data.Finset.Max
import Mathlib.Data.Fin.Tuple.Sort

/-! Helper lemmas about `takeOnlyKMax` and `maskedKMax`. -/

namespace Verif

variable {K : Type*} [Field K] [LinearOrder K]
variable {ι : Type*} [Fintype ι]

/-- A sort routine satisfying the contract exists for every index type. -/
theorem argSort_nonempty (ι : Type*) [Fintype ι] (K : Type*) [LinearOrder K] : Nonempty (ArgSort ι K) := by
  classical
  let e := Fintype.equivFin ι
  refine ⟨⟨fun v => (Tuple.sort (fun r => v (e.symm r))).trans e.symm, fun v => ?_⟩⟩
  have := Tuple.monotone_sort (fun r => v (e.symm r))
  intro a b hab
  exact this hab

/-- The set of kept positions. -/
noncomputable def keptSet (as : ArgSort ι K) (x : ι → K) (k : ℤ) : Finset ι := by
  classical
  exact if 0 < k then Finset.univ.filter fun i =>
    (Fintype.card ι : ℤ) - k ≤ ((as.perm (fun j => |x j|)).symm i : ℕ) else ∅

theorem takeOnlyKMax_eq (as : ArgSort ι K) (x : ι → K) (k : ℤ) (i : ι) [Decidable (i ∈ keptSet as x k)] :
    takeOnlyKMax as x k i = if i ∈ keptSet as x k then x i else 0 := by
  classical
  unfold takeOnlyKMax keptSet
  by_cases hk : 0 < k
  · simp [hk]
  · simp [hk]

theorem keptSet_card (as : ArgSort ι K) (x : ι → K) (k : ℤ) :
    (keptSet as x k).card = min k.toNat (Fintype.card ι) := by
  classical
  unfold keptSet
  by_cases hk : 0 < k
  · simp only [hk, if_true]
    set e := as.perm (fun j => |x j|)
    have : (Finset.univ.filter fun i => (Fintype.card ι : ℤ) - k ≤ ((e.symm i : ℕ) : ℤ)) =
        (Finset.univ.filter fun r : Fin (Fintype.card ι) => (Fintype.card ι) - k.toNat ≤ (r : ℕ)).map e.toEmbedding := by
      ext i
      simp only [Finset.mem_filter, Finset.mem_univ, true_and, Finset.mem_map, Equiv.coe_toEmbedding]
      constructor
      · intro h
        exact ⟨e.symm i, by omega, by simp⟩
      · rintro ⟨r, hr, rfl⟩
        simp only [Equiv.symm_apply_apply]
        omega
    rw [this, Finset.card_map]
    have h2 : (Finset.univ.filter fun r : Fin (Fintype.card ι) => (Fintype.card ι) - k.toNat ≤ (r : ℕ)).card
        = Fintype.card ι - (Fintype.card ι - k.toNat) := by
      rw [← Fintype.card_subtype]
      have := Fintype.card_subtype_compl (fun r : Fin (Fintype.card ι) => (r : ℕ) < (Fintype.card ι) - k.toNat)
      simp only [not_lt] at this
      rw [this, Fintype.card_fin]
      congr 1
      rw [Fintype.card_subtype]
      have := Fin.card_filter_val_lt (n := Fintype.card ι) (m := Fintype.card ι - k.toNat)
      omega
    rw [h2]
    omega
  · simp only [hk, if_false, Finset.card_empty]
    have : k.toNat = 0 := by omega
    simp [this]

theorem keptSet_dom [IsStrictOrderedRing K] (as : ArgSort ι K) (x : ι → K) (k : ℤ) {i j : ι}
    (hi : i ∈ keptSet as x k) (hj : j ∉ keptSet as x k) : |x j| ≤ |x i| := by
  classical
  unfold keptSet at hi hj
  by_cases hk : 0 < k
  · simp only [hk, if_true, Finset.mem_filter, Finset.mem_univ, true_and] at hi hj
    set e := as.perm (fun j => |x j|) with he
    have hle : e.symm j ≤ e.symm i := by
      rw [Fin.le_def]; omega
    have := as.sorted (fun j => |x j|) hle
    simpa [← he] using this
  · simp [hk] at hi

/-- Exchange argument: a set of at most as many positions, compared with a dominating set, has a smaller sum. -/
theorem sum_le_of_dom [IsStrictOrderedRing K] [DecidableEq ι] (f : ι → K) (hf : ∀ i, 0 ≤ f i) (S T : Finset ι)
    (hcard : T.card ≤ S.card) (hdom : ∀ i ∈ S, ∀ j ∉ S, f j ≤ f i) :
    ∑ i ∈ T, f i ≤ ∑ i ∈ S, f i := by
  have hT : ∑ i ∈ T, f i = ∑ i ∈ T \ S, f i + ∑ i ∈ T ∩ S, f i := by
    rw [add_comm, Finset.sum_inter_add_sum_sdiff]
  have hS : ∑ i ∈ S, f i = ∑ i ∈ S \ T, f i + ∑ i ∈ T ∩ S, f i := by
    rw [add_comm, Finset.inter_comm, Finset.sum_inter_add_sum_sdiff]
  rw [hT, hS]
  have hc : (T \ S).card ≤ (S \ T).card := by
    have h1 := Finset.card_sdiff_add_card_inter T S
    have h2 := Finset.card_sdiff_add_card_inter S T
    rw [Finset.inter_comm] at h2
    omega
  have : ∑ i ∈ T \ S, f i ≤ ∑ i ∈ S \ T, f i := by
    rcases (S \ T).eq_empty_or_nonempty with he | hne
    · have : T \ S = ∅ := by
        rw [← Finset.card_eq_zero]; rw [he] at hc; simpa using hc
      simp [he, this]
    · obtain ⟨m, hm, hmin⟩ := Finset.exists_min_image (S \ T) f hne
      calc ∑ i ∈ T \ S, f i ≤ (T \ S).card • f m := by
            apply Finset.sum_le_card_nsmul
            intro j hj
            exact hdom m (Finset.mem_sdiff.1 hm).1 j (Finset.mem_sdiff.1 hj).2
        _ ≤ (S \ T).card • f m := by
            exact nsmul_le_nsmul_left (hf m) hc
        _ ≤ ∑ i ∈ S \ T, f i := by
            apply Finset.card_nsmul_le_sum
            intro j hj
            exact hmin j hj
  linarith

theorem nnzCount_eq_card [DecidableEq K] (u : ι → K) : nnzCount u = (Finset.univ.filter fun i => u i ≠ 0).card := by
  classical
  unfold nnzCount
  rw [Fintype.card_subtype]

/-- Keeping a dominating set `S` of positions of size `min k n` gives the closest vector with at most `k` nonzeros. -/
theorem best_of_dom [IsStrictOrderedRing K] (x b : ι → K) (S : Finset ι) (k : ℕ)
    (hcard : S.card = min k (Fintype.card ι)) (hin : ∀ i ∈ S, b i = x i) (hout : ∀ i ∉ S, b i = 0)
    (hdom : ∀ i ∈ S, ∀ j ∉ S, |x j| ≤ |x i|) (u : ι → K) (hu : nnzCount u ≤ k) :
    normSq (b - x) ≤ normSq (u - x) := by
  classical
  set T := Finset.univ.filter fun i => u i ≠ 0 with hTdef
  have hTc : T.card ≤ S.card := by
    rw [hcard]
    rw [nnzCount_eq_card] at hu
    exact le_min hu (Finset.card_le_univ _)
  have hsum := sum_le_of_dom (fun i => x i ^ 2) (fun i => sq_nonneg _) S T hTc (by
    intro i hi j hj
    exact sq_le_sq.2 (hdom i hi j hj))
  have hb : normSq (b - x) = ∑ i, x i ^ 2 - ∑ i ∈ S, x i ^ 2 := by
    unfold normSq
    rw [eq_sub_iff_add_eq, ← Finset.sum_compl_add_sum S (fun i => (b - x) i ^ 2),
      ← Finset.sum_compl_add_sum S (fun i => x i ^ 2)]
    have h0 : ∑ i ∈ S, (b - x) i ^ 2 = 0 := by
      apply Finset.sum_eq_zero
      intro i hi
      simp [hin i hi]
    have h1 : ∑ i ∈ Sᶜ, (b - x) i ^ 2 = ∑ i ∈ Sᶜ, x i ^ 2 := by
      apply Finset.sum_congr rfl
      intro i hi
      simp [hout i (Finset.mem_compl.1 hi)]
    rw [h0, h1]; ring
  have hu' : ∑ i, x i ^ 2 - ∑ i ∈ T, x i ^ 2 ≤ normSq (u - x) := by
    unfold normSq
    rw [sub_le_iff_le_add, ← Finset.sum_compl_add_sum T (fun i => (u - x) i ^ 2),
      ← Finset.sum_compl_add_sum T (fun i => x i ^ 2)]
    have h0 : 0 ≤ ∑ i ∈ T, (u - x) i ^ 2 := Finset.sum_nonneg fun i _ => sq_nonneg _
    have h1 : ∑ i ∈ Tᶜ, (u - x) i ^ 2 = ∑ i ∈ Tᶜ, x i ^ 2 := by
      apply Finset.sum_congr rfl
      intro i hi
      have : u i = 0 := by simpa [hTdef] using hi
      simp [this]
    rw [h1]; linarith
  linarith

theorem takeOnlyKMax_nnz (as : ArgSort ι K) (x : ι → K) (k : ℤ) :
    nnzCount (takeOnlyKMax as x k) ≤ min k.toNat (Fintype.card ι) := by
  classical
  rw [nnzCount_eq_card, ← keptSet_card as x k]
  apply Finset.card_le_card
  intro i hi
  simp only [Finset.mem_filter, Finset.mem_univ, true_and] at hi
  by_contra h
  rw [takeOnlyKMax_eq] at hi
  simp [h] at hi

theorem takeOnlyKMax_cases (as : ArgSort ι K) (x : ι → K) (k : ℤ) (i : ι) :
    takeOnlyKMax as x k i = x i ∨ takeOnlyKMax as x k i = 0 := by
  classical
  rw [takeOnlyKMax_eq]
  split_ifs <;> simp

theorem takeOnlyKMax_full (as : ArgSort ι K) (x : ι → K) (k : ℤ) (hk : (Fintype.card ι : ℤ) ≤ k) :
    takeOnlyKMax as x k = x := by
  classical
  funext i
  have hpos : 0 < Fintype.card ι := Fintype.card_pos_iff.2 ⟨i⟩
  unfold takeOnlyKMax
  have h1 : 0 < k := by omega
  simp only [h1, if_true]
  rw [if_pos]
  omega

theorem takeOnlyKMax_best [IsStrictOrderedRing K] (as : ArgSort ι K) (x : ι → K) (k : ℤ) (u : ι → K)
    (hu : nnzCount u ≤ k.toNat) : normSq (takeOnlyKMax as x k - x) ≤ normSq (u - x) := by
  classical
  refine best_of_dom x _ (keptSet as x k) k.toNat (keptSet_card as x k) ?_ ?_ ?_ u hu
  · intro i hi; rw [takeOnlyKMax_eq]; simp [hi]
  · intro i hi; rw [takeOnlyKMax_eq]; simp [hi]
  · intro i hi j hj; exact keptSet_dom as x k hi hj

end Verif
