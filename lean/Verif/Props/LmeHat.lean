import Verif.Props.LmeBlup

/-!
# C68: the hat matrix
-/

open Matrix

namespace Verif

variable {p q : ℕ}

theorem npInv_ok {ι : Type*} [Fintype ι] [DecidableEq ι] {a m : Matrix ι ι ℝ} :
    npInv a = .ok m ↔ IsUnit a.det ∧ m = a⁻¹ := by
  unfold npInv
  by_cases h : IsUnit a.det
  · rw [if_pos h]
    exact ⟨fun e => by cases e; exact ⟨h, rfl⟩, fun e => by rw [e.2]⟩
  · rw [if_neg h]
    exact ⟨fun e => (by cases e), fun e => absurd e.1 h⟩

open Classical in
theorem lmeRandomEffect_ok {g : LmeGroup p q} {beta : Vec ℝ p} {gamma u : Vec ℝ q} :
    lmeRandomEffect g beta gamma = .ok u ↔ IsUnit (reKernel g gamma).det ∧ u = scatterMask gamma
      ((reKernel g gamma)⁻¹ *ᵥ (((g.zMasked gamma)ᵀ * diagonal (fun i => 1 / g.l i)) *ᵥ g.xi beta)) := by
  unfold lmeRandomEffect
  rw [ebind_ok]
  constructor
  · rintro ⟨v, h1, h2⟩
    obtain ⟨hu, hv⟩ := npSolve_ok.1 h1
    cases h2
    refine ⟨hu, ?_⟩
    rw [← hv, Matrix.mulVec_mulVec, Matrix.nonsing_inv_mul _ hu, Matrix.one_mulVec]
  · rintro ⟨hu, rfl⟩
    refine ⟨_, npSolve_ok.2 ⟨hu, ?_⟩, rfl⟩
    rw [Matrix.mulVec_mulVec, Matrix.mul_nonsing_inv _ hu, Matrix.one_mulVec]

open Classical in
theorem hatGammaPart_ok {g : LmeGroup p q} {gamma : Vec ℝ q} {m : Matrix (Fin g.n) (Fin g.n) ℝ} :
    hatGammaPart g gamma = .ok m ↔ IsUnit (reKernel g gamma).det ∧
      m = g.z * hatGammaRows g gamma (reKernel g gamma)⁻¹ := by
  unfold hatGammaPart
  rw [ebind_ok]
  constructor
  · rintro ⟨v, h1, h2⟩
    obtain ⟨hu, rfl⟩ := npInv_ok.1 h1
    cases h2
    exact ⟨hu, rfl⟩
  · rintro ⟨hu, rfl⟩
    exact ⟨_, npInv_ok.2 ⟨hu, rfl⟩, rfl⟩

open Classical in
theorem hatGammaBlock_mulVec {g : LmeGroup p q} {gamma : Vec ℝ q} (hu : IsUnit (reKernel g gamma).det) (b : Fin g.n → ℝ) :
    hatGammaBlock g gamma *ᵥ b = g.z *ᵥ scatterMask gamma
      ((reKernel g gamma)⁻¹ *ᵥ (((g.zMasked gamma)ᵀ * diagonal (fun i => 1 / g.l i)) *ᵥ b)) := by
  have h : hatGammaPart g gamma = .ok (g.z * hatGammaRows g gamma (reKernel g gamma)⁻¹) := hatGammaPart_ok.2 ⟨hu, rfl⟩
  unfold hatGammaBlock
  rw [h]
  simp only
  rw [← Matrix.mulVec_mulVec]
  congr 1
  funext j
  rw [Matrix.mulVec_mulVec]
  unfold hatGammaRows scatterMask
  by_cases hj : 1e-10 < |gamma j|
  · rw [dif_pos hj]
    simp only [Matrix.mulVec, dotProduct, Matrix.of_apply]
    refine Finset.sum_congr rfl fun i _ => ?_
    rw [dif_pos hj]
  · rw [dif_neg hj]
    simp only [Matrix.mulVec, dotProduct, Matrix.of_apply]
    refine Finset.sum_eq_zero fun i _ => ?_
    rw [dif_neg hj, zero_mul]

/-- Block-diagonal matrices act block by block. -/
theorem blockDiagonal'_mulVec {o : Type*} [Fintype o] [DecidableEq o] {m : o → Type*} [∀ i, Fintype (m i)]
    (M : ∀ i, Matrix (m i) (m i) ℝ) (v : (Σ i, m i) → ℝ) (i : o) (k : m i) :
    (blockDiagonal' M *ᵥ v) ⟨i, k⟩ = (M i *ᵥ fun l => v ⟨i, l⟩) k := by
  simp only [Matrix.mulVec, dotProduct]
  rw [Fintype.sum_sigma, Finset.sum_eq_single i]
  · exact Finset.sum_congr rfl fun l _ => by rw [Matrix.blockDiagonal'_apply_eq]
  · intro j _ hj
    exact Finset.sum_eq_zero fun l _ => by rw [Matrix.blockDiagonal'_apply_ne _ _ _ (Ne.symm hj), zero_mul]
  · exact fun h => absurd (Finset.mem_univ i) h

theorem list_sum_eq_fin {α M : Type*} [AddCommMonoid M] (D : List α) (f : α → M) :
    (D.map f).sum = ∑ i : Fin D.length, f (D.get i) := by
  rw [← List.sum_ofFn]
  congr 1
  refine List.ext_getElem (by simp) fun n h1 h2 => ?_
  simp

theorem vec_list_sum_apply {α : Type*} (D : List α) {m : ℕ} (f : α → Vec ℝ m) (j : Fin m) :
    (D.map f).sum j = (D.map fun a => f a j).sum := by
  induction D with
  | nil => rfl
  | cons a D ih => simp only [List.map_cons, List.sum_cons, Pi.add_apply, ih]

theorem hatBeta_mulVec (D : List (LmeGroup p q)) (gamma : Vec ℝ q) (kinv : Matrix (Fin p) (Fin p) ℝ)
    (i : Fin D.length) (k : Fin (D.get i).n) :
    (hatBeta D gamma kinv *ᵥ fun r => (D.get r.1).y r.2) ⟨i, k⟩
      = ((D.get i).x *ᵥ (kinv *ᵥ ((D.map (lmeFact gamma)).map tailTerm).sum)) k := by
  have e1 : ∀ s : Fin D.length, ∑ l, hatBeta D gamma kinv ⟨i, k⟩ ⟨s, l⟩ * (D.get s).y l
      = ((D.get i).x *ᵥ (kinv *ᵥ tailTerm (lmeFact gamma (D.get s)))) k := by
    intro s
    have : tailTerm (lmeFact gamma (D.get s)) = ((lmeElInv (D.get s) gamma * (D.get s).x)ᵀ * lmeElInv (D.get s) gamma)
        *ᵥ (D.get s).y := by
      rw [← Matrix.mulVec_mulVec]
      rfl
    rw [this, Matrix.mulVec_mulVec, Matrix.mulVec_mulVec, Matrix.mul_assoc]
    rfl
  have e2 : ((D.map (lmeFact gamma)).map tailTerm).sum = ∑ s : Fin D.length, tailTerm (lmeFact gamma (D.get s)) := by
    rw [List.map_map]
    exact list_sum_eq_fin D _
  rw [e2, Matrix.mulVec_sum, Matrix.mulVec_sum, Finset.sum_apply]
  simp only [Matrix.mulVec, dotProduct] at e1 ⊢
  rw [Fintype.sum_sigma]
  exact Finset.sum_congr rfl fun s _ => e1 s

theorem mapM_unit_ok {α : Type*} {f : α → Except PyErr Unit} {P : α → Prop} (hf : ∀ a, f a = .ok () ↔ P a) (l : List α) :
    (∃ r, l.mapM f = .ok r) ↔ ∀ a ∈ l, P a := by
  constructor
  · rintro ⟨r, h⟩
    exact ((mapM_ok_iff (P := P) (h := fun _ => ()) (fun a b => by cases b; simpa using hf a) l r).1 h).1
  · intro h
    exact ⟨_, (mapM_ok_iff (P := P) (h := fun _ => ()) (fun a b => by cases b; simpa using hf a) l _).2 ⟨h, rfl⟩⟩

open Classical in
/-- When the hat matrix is computed, and what it is. -/
theorem lmeHatMatrix_ok {D : List (LmeGroup p q)} {gamma : Vec ℝ q} {H : Matrix (LmeRow D) (LmeRow D) ℝ} :
    lmeHatMatrix D gamma = .ok H ↔ InDomain D gamma ∧ IsUnit ((D.map (lmeFact gamma)).map hessBetaTerm).sum.det ∧
      (∀ g ∈ D, IsUnit (reKernel g gamma).det) ∧
      H = hatBeta D gamma (((D.map (lmeFact gamma)).map hessBetaTerm).sum)⁻¹
        + (blockDiagonal' fun i => hatGammaBlock (D.get i) gamma)
        - (blockDiagonal' fun i => hatGammaBlock (D.get i) gamma)
          * hatBeta D gamma (((D.map (lmeFact gamma)).map hessBetaTerm).sum)⁻¹ := by
  have hpart : ∀ g : LmeGroup p q, ((hatGammaPart g gamma).map fun _ => ()) = .ok () ↔ IsUnit (reKernel g gamma).det := by
    intro g
    cases h : hatGammaPart g gamma with
    | error e =>
      refine ⟨fun h' => (by cases h'), fun hu => ?_⟩
      rw [hatGammaPart_ok.2 ⟨hu, rfl⟩] at h
      cases h
    | ok m => exact ⟨fun _ => (hatGammaPart_ok.1 h).1, fun _ => rfl⟩
  unfold lmeHatMatrix
  rw [ebind_ok]
  constructor
  · rintro ⟨fs, h1, h⟩
    obtain ⟨hd, rfl⟩ := lmeRecalculate_ok.1 h1
    obtain ⟨kinv, h2, h⟩ := ebind_ok.1 h
    obtain ⟨hu, rfl⟩ := npInv_ok.1 h2
    obtain ⟨us, h3, h⟩ := ebind_ok.1 h
    cases h
    exact ⟨hd, hu, (mapM_unit_ok hpart D).1 ⟨us, h3⟩, rfl⟩
  · rintro ⟨hd, hu, hr, rfl⟩
    obtain ⟨us, h3⟩ := (mapM_unit_ok hpart D).2 hr
    refine ⟨_, lmeRecalculate_ok.2 ⟨hd, rfl⟩, ?_⟩
    rw [ebind_ok]
    refine ⟨_, npInv_ok.2 ⟨hu, rfl⟩, ?_⟩
    rw [ebind_ok]
    exact ⟨us, h3, rfl⟩

theorem lmeOptimalBeta_ok {D : List (LmeGroup p q)} {gamma : Vec ℝ q} {beta : Vec ℝ p} :
    lmeOptimalBeta D gamma = .ok beta ↔ InDomain D gamma ∧ IsUnit ((D.map (lmeFact gamma)).map hessBetaTerm).sum.det ∧
      beta = (((D.map (lmeFact gamma)).map hessBetaTerm).sum)⁻¹ *ᵥ ((D.map (lmeFact gamma)).map tailTerm).sum := by
  unfold lmeOptimalBeta lmeKernelTail
  rw [ebind_ok]
  constructor
  · rintro ⟨kt, h1, h⟩
    obtain ⟨hd, rfl⟩ := recalc_bind_ok.1 h1
    obtain ⟨hu, h⟩ := npSolve_ok.1 h
    refine ⟨hd, hu, ?_⟩
    simp only at h
    rw [← h, Matrix.mulVec_mulVec, Matrix.nonsing_inv_mul _ hu, Matrix.one_mulVec]
  · rintro ⟨hd, hu, rfl⟩
    refine ⟨_, recalc_bind_ok.2 ⟨hd, rfl⟩, npSolve_ok.2 ⟨hu, ?_⟩⟩
    rw [Matrix.mulVec_mulVec, Matrix.mul_nonsing_inv _ hu, Matrix.one_mulVec]

open Classical in
theorem lmeRandomEffects_ok {D : List (LmeGroup p q)} {beta : Vec ℝ p} {gamma : Vec ℝ q} {us : List (Vec ℝ q)} :
    lmeRandomEffects D beta gamma = .ok us ↔ InDomain D gamma ∧ (∀ g ∈ D, IsUnit (reKernel g gamma).det) ∧
      us = D.map fun g => scatterMask gamma
        ((reKernel g gamma)⁻¹ *ᵥ (((g.zMasked gamma)ᵀ * diagonal (fun i => 1 / g.l i)) *ᵥ g.xi beta)) := by
  unfold lmeRandomEffects
  rw [ebind_ok]
  constructor
  · rintro ⟨fs, h1, h⟩
    obtain ⟨hd, -⟩ := lmeRecalculate_ok.1 h1
    exact ⟨hd, (mapM_ok_iff (fun _ _ => lmeRandomEffect_ok) D us).1 h⟩
  · rintro ⟨hd, h⟩
    exact ⟨_, lmeRecalculate_ok.2 ⟨hd, rfl⟩, (mapM_ok_iff (fun _ _ => lmeRandomEffect_ok) D us).2 h⟩

/-- **C68**: the hat matrix can be computed exactly when the optimal fixed effects and the random effects for them can, and
applied to the stacked observations it gives the stacked fitted values `x β + z u`.  For every list of groups, every `gamma`
(also negative or tiny ones, where all three methods skip the same random effects). -/
theorem C68_hat_matrix (D : List (LmeGroup p q)) (gamma : Vec ℝ q) :
    ((∃ H, lmeHatMatrix D gamma = .ok H) ↔
      ∃ beta us, lmeOptimalBeta D gamma = .ok beta ∧ lmeRandomEffects D beta gamma = .ok us) ∧
    ∀ H beta us, lmeHatMatrix D gamma = .ok H → lmeOptimalBeta D gamma = .ok beta →
      lmeRandomEffects D beta gamma = .ok us →
      us.length = D.length ∧ ∀ (i : Fin D.length) (k : Fin (D.get i).n),
        (H *ᵥ fun r : LmeRow D => (D.get r.1).y r.2) ⟨i, k⟩
          = ((D.get i).x *ᵥ beta) k + ((D.get i).z *ᵥ us.getD i 0) k := by
  classical
  constructor
  · constructor
    · rintro ⟨H, h⟩
      obtain ⟨hd, hu, hr, -⟩ := lmeHatMatrix_ok.1 h
      exact ⟨_, _, lmeOptimalBeta_ok.2 ⟨hd, hu, rfl⟩, lmeRandomEffects_ok.2 ⟨hd, hr, rfl⟩⟩
    · rintro ⟨beta, us, h1, h2⟩
      obtain ⟨hd, hu, -⟩ := lmeOptimalBeta_ok.1 h1
      obtain ⟨-, hr, -⟩ := lmeRandomEffects_ok.1 h2
      exact ⟨_, lmeHatMatrix_ok.2 ⟨hd, hu, hr, rfl⟩⟩
  · intro H beta us h h1 h2
    obtain ⟨hd, hu, hr, hH⟩ := lmeHatMatrix_ok.1 h
    obtain ⟨-, -, hb⟩ := lmeOptimalBeta_ok.1 h1
    obtain ⟨-, -, hus⟩ := lmeRandomEffects_ok.1 h2
    refine ⟨by rw [hus, List.length_map], fun i k => ?_⟩
    have hB : ∀ (i : Fin D.length) (k : Fin (D.get i).n),
        (hatBeta D gamma (((D.map (lmeFact gamma)).map hessBetaTerm).sum)⁻¹ *ᵥ fun r : LmeRow D => (D.get r.1).y r.2) ⟨i, k⟩
          = ((D.get i).x *ᵥ beta) k := by
      intro i k
      rw [hatBeta_mulVec, ← hb]
    have hu' : us.getD i 0 = scatterMask gamma ((reKernel (D.get i) gamma)⁻¹ *ᵥ
        ((((D.get i).zMasked gamma)ᵀ * diagonal (fun l => 1 / (D.get i).l l)) *ᵥ (D.get i).xi beta)) := by
      rw [hus, List.getD_eq_getElem?_getD, List.getElem?_map, List.getElem?_eq_getElem i.2]
      rfl
    rw [hu', ← hatGammaBlock_mulVec (hr _ (List.get_mem D i)), hH, Matrix.sub_mulVec, Matrix.add_mulVec,
      ← Matrix.mulVec_mulVec, Pi.sub_apply, Pi.add_apply, hB i k, blockDiagonal'_mulVec, blockDiagonal'_mulVec]
    have e : (fun l => (hatBeta D gamma (((D.map (lmeFact gamma)).map hessBetaTerm).sum)⁻¹
        *ᵥ fun r : LmeRow D => (D.get r.1).y r.2) ⟨i, l⟩) = (D.get i).x *ᵥ beta := by
      funext l
      exact hB i l
    rw [e]
    unfold LmeGroup.xi
    rw [Matrix.mulVec_sub, Pi.sub_apply]
    ring

/-- The fixed effect of `exGroup` is identified for every nonnegative variance. -/
theorem exGroup_kernel (gamma : Vec ℝ 1) (hg : ∀ j, 0 ≤ gamma j) :
    IsUnit (([exGroup].map (lmeFact gamma)).map hessBetaTerm).sum.det := by
  have hd : InDomain [exGroup] gamma := inDomain_of_nonneg exGroup_posVar hg
  have hpd := hd exGroup List.mem_cons_self
  rw [List.map_cons, List.map_nil, List.map_cons, List.map_nil, List.sum_cons, List.sum_nil, add_zero,
    hessBetaTerm_eq hpd, Matrix.det_fin_one, isUnit_iff_ne_zero]
  have hx : exGroup.xᵀ 0 ≠ 0 := by
    intro h
    have : (1 : ℝ) = 0 := congrFun h (0 : Fin 2)
    exact one_ne_zero this
  have h1 := hpd.inv.dotProduct_mulVec_pos hx
  have e : (exGroup.xᵀ * (margCov exGroup gamma)⁻¹ * exGroup.x) 0 0
      = exGroup.xᵀ 0 ⬝ᵥ ((margCov exGroup gamma)⁻¹ *ᵥ exGroup.xᵀ 0) := by
    rw [Matrix.mul_assoc]
    rfl
  rw [e]
  simpa using h1.ne'

/-- C68 on a concrete problem: the hat matrix exists. -/
example : ∃ H, lmeHatMatrix [exGroup] ![1] = .ok H := by
  have hg : ∀ j, 0 ≤ (![1] : Vec ℝ 1) j := by intro j; fin_cases j; simp
  refine (C68_hat_matrix [exGroup] ![1]).1.2 ⟨_, _, lmeOptimalBeta_ok.2 ⟨inDomain_of_nonneg exGroup_posVar hg,
    exGroup_kernel _ hg, rfl⟩, lmeRandomEffects_eq exGroup_posVar ?_ _⟩
  intro j
  fin_cases j
  refine Or.inr ?_
  change (1e-10 : ℝ) < 1
  norm_num

end Verif
