import Verif.Lemmas.Scalar
import Verif.Lemmas.KMax
import Mathlib.Algebra.BigOperators.Field

/-! Separable objectives: from coordinates to vectors; `collect`; `maskedKMax`. -/

namespace Verif

variable {K : Type*} [Field K] [LinearOrder K] [IsStrictOrderedRing K] {n : ℕ}

omit [LinearOrder K] [IsStrictOrderedRing K] in
theorem obj_sum (g : Fin n → K → K) (alpha : K) (x u : Vec K n) :
    alpha * (∑ i, g i (u i)) + normSq (u - x) / 2 = ∑ i, (alpha * g i (u i) + (u i - x i) ^ 2 / 2) := by
  unfold normSq
  rw [Finset.sum_add_distrib, Finset.mul_sum, Finset.sum_div]
  rfl

theorem isProxOf_of_coord (g : Fin n → K → K) (alpha : K) (x z : Vec K n)
    (h : ∀ i, IsProx1 (g i) alpha (x i) (z i)) :
    IsProxOf (fun u => ((∑ i, g i (u i) : K) : WithTop K)) alpha x z := by
  refine ⟨∑ i, g i (z i), rfl, fun u gu hu => ?_⟩
  rw [← WithTop.coe_inj.1 hu, obj_sum, obj_sum]
  exact Finset.sum_le_sum fun i _ => h i (u i)

theorem isUniqueProxOf_of_coord (g : Fin n → K → K) (alpha : K) (x z : Vec K n)
    (h : ∀ i, IsUniqueProx1 (g i) alpha (x i) (z i)) :
    IsUniqueProxOf (fun u => ((∑ i, g i (u i) : K) : WithTop K)) alpha x z := by
  refine ⟨∑ i, g i (z i), rfl, fun u gu hne hu => ?_⟩
  rw [← WithTop.coe_inj.1 hu, obj_sum, obj_sum]
  obtain ⟨i, hi⟩ := Function.ne_iff.1 hne
  refine Finset.sum_lt_sum (fun j _ => ?_) ⟨i, Finset.mem_univ i, h i (u i) hi⟩
  by_cases hj : u j = z j
  · rw [hj]
  · exact (h j (u j) hj).le

/-- A minimiser of a separable objective minimises every coordinate. -/
theorem coord_of_isProxOf (g : Fin n → K → K) (alpha : K) (x z : Vec K n)
    (h : IsProxOf (fun u => ((∑ i, g i (u i) : K) : WithTop K)) alpha x z) (i : Fin n) :
    IsProx1 (g i) alpha (x i) (z i) := by
  obtain ⟨gz, hgz, hmin⟩ := h
  intro u
  have := hmin (Function.update z i u) _ rfl
  rw [← WithTop.coe_inj.1 hgz, obj_sum, obj_sum] at this
  rw [← Finset.add_sum_erase _ _ (Finset.mem_univ i), ← Finset.add_sum_erase _ _ (Finset.mem_univ i)] at this
  simp only [Function.update_self] at this
  have e : ∑ j ∈ Finset.univ.erase i, (alpha * g j (Function.update z i u j) + (Function.update z i u j - x j) ^ 2 / 2)
      = ∑ j ∈ Finset.univ.erase i, (alpha * g j (z j) + (z j - x j) ^ 2 / 2) := by
    apply Finset.sum_congr rfl
    intro j hj
    rw [Function.update_of_ne (Finset.ne_of_mem_erase hj)]
  rw [e] at this
  linarith

omit [Field K] [LinearOrder K] [IsStrictOrderedRing K] in
theorem collect_ok_iff {n : ℕ} (f : Fin n → Except PyErr K) (z : Vec K n) :
    collect f = .ok z ↔ ∀ i, f i = .ok (z i) := by
  induction n with
  | zero =>
    simp only [collect, Except.ok.injEq]
    exact ⟨fun _ i => i.elim0, fun _ => funext fun i => i.elim0⟩
  | succ n ih =>
    constructor
    · intro h
      unfold collect at h
      cases h0 : f 0 with
      | error e => simp [h0, bind, Except.bind] at h
      | ok a =>
        cases h1 : collect fun i => f i.succ with
        | error e => simp [h0, h1, bind, Except.bind] at h
        | ok r =>
          simp [h0, h1, bind, Except.bind, pure, Except.pure] at h
          subst h
          intro i
          refine Fin.cases ?_ (fun j => ?_) i
          · simpa using h0
          · simpa using (ih _ _).1 h1 j
    · intro h
      have h1 : (collect fun i => f i.succ) = .ok fun i => z i.succ := (ih _ _).2 fun i => h i.succ
      unfold collect
      simp only [h 0, h1, bind, Except.bind, pure, Except.pure, Except.ok.injEq]
      funext i
      refine Fin.cases rfl (fun j => rfl) i

omit [IsStrictOrderedRing K] in
theorem numNonzero_eq {ι : Type*} [Fintype ι] (x : ι → K) : numNonzero x = nnzCount x := by
  classical
  rw [nnzCount_eq_card, numNonzero, Set.ncard_eq_toFinset_card']
  congr 1
  ext i; simp

section masked
variable {ι : Type*} [Fintype ι]

omit [IsStrictOrderedRing K] in
theorem maskedKMax_off (mask : ι → Bool) (as : ArgSort {i // mask i = true} K) (x : ι → K) (nnz : ℤ) (i : ι)
    (h : mask i = false) : maskedKMax mask as x nnz i = x i := by
  simp [maskedKMax, h]

omit [IsStrictOrderedRing K] in
theorem maskedKMax_on (mask : ι → Bool) (as : ArgSort {i // mask i = true} K) (x : ι → K) (nnz : ℤ)
    (i : {i // mask i = true}) : maskedKMax mask as x nnz i.1 =
      takeOnlyKMax as (fun j => x j.1) (nnz - (Fintype.card {i // mask i = false} : ℤ)) i := by
  simp [maskedKMax, i.2]

omit [IsStrictOrderedRing K] in
theorem maskedKMax_cases (mask : ι → Bool) (as : ArgSort {i // mask i = true} K) (x : ι → K) (nnz : ℤ) (i : ι) :
    maskedKMax mask as x nnz i = x i ∨ maskedKMax mask as x nnz i = 0 := by
  by_cases h : mask i = true
  · rw [maskedKMax_on mask as x nnz ⟨i, h⟩]
    exact takeOnlyKMax_cases as _ _ _
  · left; exact maskedKMax_off mask as x nnz i (by simpa using h)

omit [IsStrictOrderedRing K] in
theorem nnzOn_eq (mask : ι → Bool) (x : ι → K) :
    nnzOn mask x = nnzCount (fun j : {i // mask i = true} => x j.1) := by
  classical
  rw [← numNonzero_eq, numNonzero, nnzOn]
  have : {i | mask i = true ∧ x i ≠ 0} = Subtype.val '' {j : {i // mask i = true} | x j.1 ≠ 0} := by
    ext i; simp [and_comm]
  rw [this, Set.ncard_image_of_injective _ Subtype.val_injective]

omit [IsStrictOrderedRing K] in
theorem maskedKMax_nnzOn (mask : ι → Bool) (as : ArgSort {i // mask i = true} K) (x : ι → K) (nnz : ℤ) :
    (nnzOn mask (maskedKMax mask as x nnz) : ℤ) ≤ max (nnz - (Set.ncard {i | mask i = false} : ℤ)) 0 := by
  classical
  rw [nnzOn_eq]
  have : (fun j : {i // mask i = true} => maskedKMax mask as x nnz j.1) =
      takeOnlyKMax as (fun j => x j.1) (nnz - (Fintype.card {i // mask i = false} : ℤ)) := by
    funext j; exact maskedKMax_on mask as x nnz j
  rw [this]
  have h := takeOnlyKMax_nnz as (fun j => x j.1) (nnz - (Fintype.card {i // mask i = false} : ℤ))
  have hc : Set.ncard {i | mask i = false} = Fintype.card {i // mask i = false} := by
    rw [Set.ncard_eq_toFinset_card', Fintype.card_subtype]; congr 1; ext i; simp
  rw [hc]
  omega

omit [IsStrictOrderedRing K] in
theorem nnz_split (mask : ι → Bool) (x : ι → K) :
    numNonzero x ≤ nnzOn mask x + Set.ncard {i | mask i = false} := by
  classical
  unfold numNonzero nnzOn
  refine (Set.ncard_le_ncard ?_ (Set.toFinite _)).trans (Set.ncard_union_le _ _)
  intro i hi
  by_cases h : mask i = true
  · left; exact ⟨h, hi⟩
  · right; simpa using h

theorem maskedKMax_best (mask : ι → Bool) (as : ArgSort {i // mask i = true} K) (x : ι → K) (nnz : ℤ) (u : ι → K)
    (hu : ∀ i, mask i = false → u i = x i)
    (hn : (nnzOn mask u : ℤ) ≤ max (nnz - (Set.ncard {i | mask i = false} : ℤ)) 0) :
    ∑ i, (maskedKMax mask as x nnz i - x i) ^ 2 ≤ ∑ i, (u i - x i) ^ 2 := by
  classical
  have hc : Set.ncard {i | mask i = false} = Fintype.card {i // mask i = false} := by
    rw [Set.ncard_eq_toFinset_card', Fintype.card_subtype]; congr 1; ext i; simp
  rw [← Fintype.sum_subtype_add_sum_subtype (fun i => mask i = true) (fun i => (maskedKMax mask as x nnz i - x i) ^ 2),
    ← Fintype.sum_subtype_add_sum_subtype (fun i => mask i = true) (fun i => (u i - x i) ^ 2)]
  have h1 : ∑ i : {i // ¬ mask i = true}, (maskedKMax mask as x nnz i.1 - x i.1) ^ 2 = 0 := by
    apply Finset.sum_eq_zero
    intro i _
    rw [maskedKMax_off mask as x nnz i.1 (by simpa using i.2)]; simp
  have h2 : 0 ≤ ∑ i : {i // ¬ mask i = true}, (u i.1 - x i.1) ^ 2 := Finset.sum_nonneg fun i _ => sq_nonneg _
  have h3 : ∑ i : {i // mask i = true}, (maskedKMax mask as x nnz i.1 - x i.1) ^ 2
      ≤ ∑ i : {i // mask i = true}, (u i.1 - x i.1) ^ 2 := by
    have := takeOnlyKMax_best as (fun j => x j.1) (nnz - (Fintype.card {i // mask i = false} : ℤ)) (fun j => u j.1) (by
      rw [nnzOn_eq, hc] at hn
      omega)
    unfold normSq at this
    simp only [Pi.sub_apply] at this
    refine le_trans (le_of_eq ?_) this
    apply Finset.sum_congr rfl
    intro i _
    rw [maskedKMax_on]
  linarith

end masked

end Verif
