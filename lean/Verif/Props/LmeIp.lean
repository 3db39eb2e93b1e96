import Verif.Model.LmeIp
import Verif.Props.LmeHess

/-!
# C63, C64, C80: the inner solvers for the variances
-/

open Matrix

namespace Verif

variable {p q : ℕ}

/-! ## Step lengths -/

theorem foldr_min_le_one (l : List ℝ) : l.foldr min 1 ≤ 1 := by
  induction l with
  | nil => exact le_refl _
  | cons a l ih => exact (min_le_right _ _).trans ih

theorem foldr_min_le {l : List ℝ} {a : ℝ} (h : a ∈ l) : l.foldr min 1 ≤ a := by
  induction l with
  | nil => simp at h
  | cons b l ih =>
    rcases List.mem_cons.1 h with rfl | h
    · exact min_le_left _ _
    · exact (min_le_right _ _).trans (ih h)

theorem le_foldr_min {l : List ℝ} {b : ℝ} (hb : b ≤ 1) (h : ∀ a ∈ l, b ≤ a) : b ≤ l.foldr min 1 := by
  induction l with
  | nil => exact hb
  | cons a l ih => exact le_min (h a List.mem_cons_self) (ih fun x hx => h x (List.mem_cons_of_mem _ hx))

theorem lt_foldr_min {l : List ℝ} {b : ℝ} (hb : b < 1) (h : ∀ a ∈ l, b < a) : b < l.foldr min 1 := by
  induction l with
  | nil => exact hb
  | cons a l ih => exact lt_min (h a List.mem_cons_self) (ih fun x hx => h x (List.mem_cons_of_mem _ hx))

theorem maxStepLen_nonneg {l : List (ℝ × ℝ)} (h : ∀ e ∈ l, 0 ≤ e.1) : 0 ≤ maxStepLen l := by
  classical
  refine le_foldr_min zero_le_one fun a ha => ?_
  obtain ⟨e, he, rfl⟩ := List.mem_map.1 ha
  obtain ⟨h1, h2⟩ := List.mem_filter.1 he
  have h2 : e.2 < 0 := by simpa using h2
  exact div_nonneg_of_nonpos (by linarith [h e h1]) h2.le

theorem maxStepLen_pos {l : List (ℝ × ℝ)} (h : ∀ e ∈ l, 0 < e.1) : 0 < maxStepLen l := by
  classical
  refine lt_foldr_min zero_lt_one fun a ha => ?_
  obtain ⟨e, he, rfl⟩ := List.mem_map.1 ha
  obtain ⟨h1, h2⟩ := List.mem_filter.1 he
  have h2 : e.2 < 0 := by simpa using h2
  exact div_pos_of_neg_of_neg (by linarith [h e h1]) h2

theorem maxStepLen_le_one (l : List (ℝ × ℝ)) : maxStepLen l ≤ 1 := foldr_min_le_one _

theorem maxStepLen_le {l : List (ℝ × ℝ)} {x d : ℝ} (h : (x, d) ∈ l) (hd : d < 0) : maxStepLen l * (-d) ≤ x := by
  classical
  have h1 : maxStepLen l ≤ -x / d := by
    refine foldr_min_le (List.mem_map.2 ⟨(x, d), List.mem_filter.2 ⟨h, by simpa using hd⟩, rfl⟩)
  have h2 : -x / d = x / (-d) := by rw [neg_div, div_neg]
  rw [h2, le_div_iff₀ (by linarith)] at h1
  exact h1

theorem step_nonneg {l : List (ℝ × ℝ)} {x d s : ℝ} (h : (x, d) ∈ l) (hx : 0 ≤ x) (h0 : 0 ≤ s)
    (hs : s ≤ maxStepLen l) : 0 ≤ x + s * d := by
  rcases lt_or_ge d 0 with hd | hd
  · have := maxStepLen_le h hd
    nlinarith [mul_le_mul_of_nonneg_right hs (by linarith : 0 ≤ -d)]
  · nlinarith [mul_nonneg h0 hd]

theorem step_pos {l : List (ℝ × ℝ)} {x d s : ℝ} (h : (x, d) ∈ l) (hx : 0 < x) (h0 : 0 ≤ s)
    (hs : s < maxStepLen l) : 0 < x + s * d := by
  rcases lt_or_ge d 0 with hd | hd
  · have := maxStepLen_le h hd
    nlinarith [mul_lt_mul_of_pos_right hs (by linarith : 0 < -d)]
  · nlinarith [mul_nonneg h0 hd]

theorem mem_stepPairs {n : ℕ} (x d : Vec ℝ n) (i : Fin n) : (x i, d i) ∈ stepPairs x d := by
  unfold stepPairs
  rw [List.mem_ofFn]
  exact ⟨i, rfl⟩

theorem stepPairs_forall {n : ℕ} {x d : Vec ℝ n} {Q : ℝ → Prop} (h : ∀ i, Q (x i)) : ∀ e ∈ stepPairs x d, Q e.1 := by
  intro e he
  unfold stepPairs at he
  rw [List.mem_ofFn] at he
  obtain ⟨i, rfl⟩ := he
  exact h i

/-! ## C63 for `find_optimal_parameters_ip` -/

/-- The line search, if one is used, stays strictly inside its bounds. -/
def IpCfg.Inside (c : IpCfg p q) : Prop :=
  ∀ ls, c.lineSearch = some ls → ∀ it m s, 0 < m → ls it m = .ok s → 0 ≤ s ∧ s < m

theorem ipStepLen_inside {c : IpCfg p q} (hc : c.Inside) {it : ℕ} {m s : ℝ} (hm : 0 < m)
    (h : ipStepLen c it m = .ok s) : 0 ≤ s ∧ s < m := by
  unfold ipStepLen at h
  cases hl : c.lineSearch with
  | none =>
    rw [hl] at h
    simp only [Except.ok.injEq] at h
    subst h
    constructor <;> norm_num <;> linarith
  | some ls =>
    rw [hl] at h
    exact hc ls hl it m s hm h

theorem ipLoop_inv (D : List (LmeGroup p q)) (P : LmeInstPrior ℝ p q) (c : IpCfg p q) (I : IpState p q → Prop)
    (hstep : ∀ s F s', I s → (s.iteration : ℤ) < c.nIter → ipF D P s = .ok F → ipStep D P c s F = .ok s' →
      I { s' with iteration := s.iteration + 1 }) :
    ∀ (n : ℕ) (s r : IpState p q), (c.nIter - s.iteration).toNat = n → I s → ipLoop D P c s = .ok r → I r := by
  intro n
  induction n using Nat.strong_induction_on with
  | _ n ih =>
    intro s r hn hs h
    unfold ipLoop at h
    split_ifs at h with h1
    · cases hF : ipF D P s with
      | error e => rw [hF] at h; cases h
      | ok F =>
        rw [hF] at h
        simp only at h
        split_ifs at h with h2
        · cases hs' : ipStep D P c s F with
          | error e => rw [hs'] at h; cases h
          | ok s' =>
            rw [hs'] at h
            simp only at h
            refine ih _ ?_ _ r rfl (hstep s F s' hs h1.2 hF hs') h
            rw [← hn]
            simp only
            have := h1.2
            push_cast
            omega
        · cases h; exact hs
    · cases h; exact hs

/-- What one pass of the loop computes. -/
theorem ipStep_ok {D : List (LmeGroup p q)} {P : LmeInstPrior ℝ p q} {c : IpCfg p q} {s s' : IpState p q}
    {F : Fin q ⊕ (Fin p ⊕ Fin q) → ℝ} (h : ipStep D P c s F = .ok s') :
    ∃ dF d step, ipJac D P c.kind s = .ok dF ∧ npSolve dF (-F) = .ok d ∧
      ipStepLen c s.iteration (maxStepLen (stepPairs s.v (fun j => d (.inl j)) ++
        stepPairs s.gamma (fun j => d (.inr (.inr j))))) = .ok step ∧
      s'.v = s.v + step • (fun j => d (.inl j)) ∧ s'.beta = s.beta + step • (fun i => d (.inr (.inl i))) ∧
      s'.gamma = s.gamma + step • (fun j => d (.inr (.inr j))) ∧ s'.stepLen = step ∧
      s'.iteration = s.iteration + 1 ∧
      ((s'.mu = s.mu ∧ s'.tbeta = s.tbeta ∧ s'.tgamma = s.tgamma ∧ s'.S = s.S ∧ s'.conv = s.conv) ∨
        (s'.mu = c.muDecay * (s'.v ⬝ᵥ s'.gamma) / q ∧
          ipProx c (s.iteration + 1) s'.beta s'.gamma (s.tbeta, s.tgamma) = .ok (s'.tbeta, s'.tgamma) ∧
          s'.S = if c.increaseLambdas then ⟨1.2 * (1 + s.S.lb), 1.2 * (1 + s.S.lg)⟩ else s.S)) := by
  unfold ipStep at h
  obtain ⟨dF, h1, h⟩ := ebind_ok.1 h
  obtain ⟨d, h2, h⟩ := ebind_ok.1 h
  obtain ⟨step, h3, h⟩ := ebind_ok.1 h
  refine ⟨dF, d, step, h1, h2, h3, ?_⟩
  by_cases h4 : c.target * ((s.gamma + step • fun j => d (.inr (.inr j))) ⬝ᵥ (s.v + step • fun j => d (.inl j))) / q <
      npNorm (fun j => (s.gamma + step • fun j => d (.inr (.inr j))) j * (s.v + step • fun j => d (.inl j)) j
        - ((s.gamma + step • fun j => d (.inr (.inr j))) ⬝ᵥ (s.v + step • fun j => d (.inl j))) / q)
  · rw [if_pos h4] at h
    cases h
    exact ⟨rfl, rfl, rfl, rfl, rfl, Or.inl ⟨rfl, rfl, rfl, rfl, rfl⟩⟩
  · rw [if_neg h4] at h
    obtain ⟨t, h6, h⟩ := ebind_ok.1 h
    cases h
    exact ⟨rfl, rfl, rfl, rfl, rfl, Or.inr ⟨rfl, h6, rfl⟩⟩

/-- **C63, whatever the direction**: for positive multipliers and variances and *every* direction, the largest step
computed by the code is positive and at most 1, and every step strictly below it (in particular `0.99 * max_step_len`)
keeps all of them positive; a step within the bounds keeps them nonnegative. -/
theorem C63_any_direction (v gamma dv dg : Vec ℝ q) (hv : ∀ j, 0 < v j) (hg : ∀ j, 0 < gamma j) :
    ∃ m, m = maxStepLen (stepPairs v dv ++ stepPairs gamma dg) ∧ 0 < m ∧ m ≤ 1 ∧
      (∀ s, 0 ≤ s → s < m → (∀ j, 0 < (v + s • dv) j) ∧ ∀ j, 0 < (gamma + s • dg) j) ∧
      (∀ j, 0 < (v + (0.99 * m) • dv) j) ∧ (∀ j, 0 < (gamma + (0.99 * m) • dg) j) ∧
      (∀ s, 0 ≤ s → s ≤ m → (∀ j, 0 ≤ (v + s • dv) j) ∧ ∀ j, 0 ≤ (gamma + s • dg) j) := by
  refine ⟨_, rfl, ?_⟩
  obtain ⟨L, hL⟩ : ∃ L, L = stepPairs v dv ++ stepPairs gamma dg := ⟨_, rfl⟩
  rw [← hL]
  have h1 : ∀ j, (v j, dv j) ∈ L := fun j => hL ▸ List.mem_append_left _ (mem_stepPairs _ _ j)
  have h2 : ∀ j, (gamma j, dg j) ∈ L := fun j => hL ▸ List.mem_append_right _ (mem_stepPairs _ _ j)
  have hm : 0 < maxStepLen L := by
    refine maxStepLen_pos fun e he => ?_
    rw [hL, List.mem_append] at he
    exact he.elim (stepPairs_forall (Q := (0 < ·)) hv e) (stepPairs_forall (Q := (0 < ·)) hg e)
  have key : ∀ s, 0 ≤ s → s < maxStepLen L → (∀ j, 0 < (v + s • dv) j) ∧ ∀ j, 0 < (gamma + s • dg) j :=
    fun s h0 hs => ⟨fun j => step_pos (h1 j) (hv j) h0 hs, fun j => step_pos (h2 j) (hg j) h0 hs⟩
  have h99 := key (0.99 * maxStepLen L) (by positivity) (by norm_num; linarith)
  exact ⟨hm, maxStepLen_le_one L, key, h99.1, h99.2, fun s h0 hs =>
    ⟨fun j => step_nonneg (h1 j) (hv j).le h0 hs, fun j => step_nonneg (h2 j) (hg j).le h0 hs⟩⟩

/-- A concrete direction for C63: the largest step is 1/2. -/
example : maxStepLen (stepPairs ![1] ![-2] ++ stepPairs ![3] ![5]) = 1 / 2 := by
  classical
  unfold maxStepLen stepPairs
  norm_num [List.filter_cons]

/-- **C63 for `find_optimal_parameters_ip`**: started with positive variances, every iterate (the result for every
iteration limit) has positive multipliers and variances, whatever the problem, the Hessian used, the barrier
parameters, the regularizer and the relaxation constants are, without line search or with one that stays strictly
inside its bounds; the number of iterations is at most `n_iter_inner`. -/
theorem C63_sr3_positive (D : List (LmeGroup p q)) (P : LmeInstPrior ℝ p q) (c : IpCfg p q) (hc : c.Inside)
    (o : IpOracle p q) (beta tbeta : Vec ℝ p) (gamma tgamma : Vec ℝ q)
    (hg : ∀ j, 0 < (ipStart c o beta gamma).2 j) :
    (∀ r, ipLoop D P c (ipInit c o beta gamma tbeta tgamma) = .ok r →
      (∀ j, 0 < r.v j) ∧ (∀ j, 0 < r.gamma j) ∧ (r.iteration : ℤ) ≤ max c.nIter 0) ∧
    (q ≠ 0 → ∀ r o', lmeFindIp D P c o beta gamma tbeta tgamma = .ok (r, o') → (∀ j, 0 < r.gamma j) ∧
      (c.warmStart = true → o'.warm = some (r.beta, r.gamma))) := by
  have main : ∀ r, ipLoop D P c (ipInit c o beta gamma tbeta tgamma) = .ok r →
      (∀ j, 0 < r.v j) ∧ (∀ j, 0 < r.gamma j) ∧ (r.iteration : ℤ) ≤ max c.nIter 0 := by
    intro r hr
    refine ipLoop_inv D P c (fun s => (∀ j, 0 < s.v j) ∧ (∀ j, 0 < s.gamma j) ∧ (s.iteration : ℤ) ≤ max c.nIter 0)
      ?_ _ _ r rfl ?_ hr
    · rintro s F s' ⟨h1, h2, h3⟩ hlt - hs'
      obtain ⟨dF, d, step, -, -, hst, e1, -, e2, -⟩ := ipStep_ok hs'
      obtain ⟨m, hm, hm0, -, hpos, -⟩ := C63_any_direction s.v s.gamma (fun j => d (.inl j))
        (fun j => d (.inr (.inr j))) h1 h2
      rw [← hm] at hst
      obtain ⟨ha, hb⟩ := ipStepLen_inside hc hm0 hst
      obtain ⟨p1, p2⟩ := hpos step ha hb
      refine ⟨?_, ?_, ?_⟩
      · change ∀ j, 0 < s'.v j
        rw [e1]; exact p1
      · change ∀ j, 0 < s'.gamma j
        rw [e2]; exact p2
      · change ((s.iteration + 1 : ℕ) : ℤ) ≤ _
        push_cast
        omega
    · refine ⟨fun j => ?_, hg, ?_⟩
      · change (0 : ℝ) < 1
        exact one_pos
      · change ((0 : ℕ) : ℤ) ≤ _
        simp
  refine ⟨main, fun hq r o' h => ?_⟩
  unfold lmeFindIp at h
  rw [if_neg hq] at h
  obtain ⟨s, hs, h⟩ := ebind_ok.1 h
  cases h
  refine ⟨(main s hs).2.1, fun hw => ?_⟩
  simp only [hw, if_true]

/-! ## C80: started at zero variances -/

theorem ipJac_row {D : List (LmeGroup p q)} {P : LmeInstPrior ℝ p q} {kind : HessKind} {s : IpState p q}
    {dF : Matrix (Fin q ⊕ (Fin p ⊕ Fin q)) (Fin q ⊕ (Fin p ⊕ Fin q)) ℝ} (h : ipJac D P kind s = .ok dF) (j : Fin q)
    (d : Fin q ⊕ (Fin p ⊕ Fin q) → ℝ) :
    (dF *ᵥ d) (.inl j) = s.gamma j * d (.inl j) + s.v j * d (.inr (.inr j)) := by
  unfold ipJac at h
  obtain ⟨hb, -, h⟩ := ebind_ok.1 h
  obtain ⟨hbg, -, h⟩ := ebind_ok.1 h
  obtain ⟨hg, -, h⟩ := ebind_ok.1 h
  cases h
  rw [Matrix.mulVec, dotProduct, Fintype.sum_sum_type, Fintype.sum_sum_type]
  simp only [Matrix.fromBlocks_apply₁₁, Matrix.fromBlocks_apply₁₂, Matrix.fromCols_apply_inl,
    Matrix.fromCols_apply_inr, Matrix.zero_apply, zero_mul, Finset.sum_const_zero, zero_add, Matrix.diagonal_apply,
    ite_mul, Finset.sum_ite_eq, Finset.mem_univ, if_true]

/-- **C80**: the Newton direction of a variance that is zero is `mu` divided by its multiplier; so if all variances are
zero at the start (`w` has no variance and there is nothing to warm-start from), they stay zero in every iteration,
whatever the data, the regularizer and the line search are. -/
theorem C80_zero_trap (D : List (LmeGroup p q)) (P : LmeInstPrior ℝ p q) (c : IpCfg p q)
    (o : IpOracle p q) (beta tbeta : Vec ℝ p) (gamma tgamma : Vec ℝ q)
    (hg : (ipStart c o beta gamma).2 = 0) (r : IpResult p q) (o' : IpOracle p q) (hq : q ≠ 0)
    (h : lmeFindIp D P c o beta gamma tbeta tgamma = .ok (r, o')) :
    r.gamma = 0 ∧ (c.warmStart = true → ∃ b, o'.warm = some (b, 0)) := by
  have main : ∀ r, ipLoop D P c (ipInit c o beta gamma tbeta tgamma) = .ok r → r.gamma = 0 := by
    intro r hr
    refine (ipLoop_inv D P c (fun s => s.gamma = 0 ∧ s.mu = 0) ?_ _ _ r rfl ?_ hr).1
    · rintro s F s' ⟨h1, h2⟩ - hF hs'
      obtain ⟨dF, d, step, hJ, hsol, -, -, -, e2, -, -, e3⟩ := ipStep_ok hs'
      obtain ⟨hu, hd⟩ := npSolve_ok.1 hsol
      have hFj : ∀ j, F (.inl j) = 0 := by
        intro j
        unfold ipF at hF
        obtain ⟨gb, -, hF⟩ := ebind_ok.1 hF
        obtain ⟨gg, -, hF⟩ := ebind_ok.1 hF
        cases hF
        simp [h1, h2]
      have hdg : ∀ j, d (.inr (.inr j)) = 0 := by
        intro j
        have hv : s.v j ≠ 0 := by
          intro hv
          have hinv : dF * dF⁻¹ = 1 := Matrix.mul_nonsing_inv _ hu
          have hone : (dF *ᵥ (dF⁻¹ *ᵥ Pi.single (.inl j) 1)) (.inl j) = 1 := by
            rw [Matrix.mulVec_mulVec, hinv, Matrix.one_mulVec, Pi.single_eq_same]
          rw [ipJac_row hJ j, h1, hv] at hone
          simp at hone
        have := congrFun hd (.inl j)
        rw [ipJac_row hJ j, Pi.neg_apply, hFj j, h1] at this
        simpa [hv] using this
      have hgam : s'.gamma = 0 := by
        rw [e2, h1]
        funext j
        simp [hdg j]
      refine ⟨hgam, ?_⟩
      change s'.mu = 0
      rcases e3 with e3 | e3
      · rw [e3.1, h2]
      · rw [e3.1, hgam]; simp
    · exact ⟨hg, by simp [ipInit, hg]⟩
  unfold lmeFindIp at h
  rw [if_neg hq] at h
  obtain ⟨s, hs, h⟩ := ebind_ok.1 h
  cases h
  refine ⟨main s hs, fun hw => ⟨s.beta, ?_⟩⟩
  simp only [hw, if_true, main s hs]

end Verif
