import Verif.Spec.Prior
import Verif.Lemmas.Vector
import Mathlib.Tactic.FinCases

/-!
# Properties of the priors: C26–C29
-/

namespace Verif

variable {K : Type*} [Field K] [LinearOrder K] [IsStrictOrderedRing K]

/-- What a successful instantiation computed. -/
theorem gaussInstantiate_ok {params : PriorParams K} {cols : List String} {st : GaussState K cols.length}
    (h : gaussInstantiate params cols = .ok st) :
    (params.all fun kv => decide (kv.1 ∈ cols)) = true ∧
      ∀ i : Fin cols.length, priorEntry params cols[i] = .ok (st.means i, st.stds i, st.weights i) := by
  unfold gaussInstantiate at h
  split_ifs at h with hall
  cases hc : collect fun i : Fin cols.length => priorEntry params cols[i] with
  | error e => rw [hc] at h; cases h
  | ok es =>
    rw [hc] at h
    cases h
    exact ⟨hall, (collect_ok_iff _ _).1 hc⟩

theorem priorEntry_ok {params : PriorParams K} {label : String} {m s w : K} (h : priorEntry params label = .ok (m, s, w)) :
    0 < s ∧ (w = 0 ∨ w = 1) ∧ ((∃ std, params.lookup label = some (m, std) ∧ 0 < std ∧ s = std ∧ w = 1) ∨
      (w = 0 ∧ ∀ m' std, params.lookup label = some (m', std) → ¬ 0 < std)) := by
  unfold priorEntry PriorParams.getD at h
  dsimp only at h
  split_ifs at h with h1 h2
  · cases h
    refine ⟨h2, Or.inr rfl, Or.inl ?_⟩
    cases hl : params.lookup label with
    | none => rw [hl] at h2; simp at h2
    | some ms => rw [hl] at h2; exact ⟨ms.2, rfl, h2, rfl, rfl⟩
  · cases h
    refine ⟨one_pos, Or.inl rfl, Or.inr ⟨rfl, fun m' std hl => ?_⟩⟩
    rw [hl] at h2
    exact h2

theorem gaussInstantiate_stds {params : PriorParams K} {cols : List String} {st : GaussState K cols.length}
    (h : gaussInstantiate params cols = .ok st) (i : Fin cols.length) : 0 < st.stds i ∧ 0 ≤ st.weights i := by
  obtain ⟨h1, h2, -⟩ := priorEntry_ok ((gaussInstantiate_ok h).2 i)
  refine ⟨h1, ?_⟩
  rcases h2 with h2 | h2 <;> rw [h2]
  exact zero_le_one

/-- **C26**, acceptance: instantiation succeeds exactly on the dictionaries that fit the columns; otherwise it raises `AssertionError`. -/
theorem C26_instantiate_iff (params : PriorParams K) (cols : List String) :
    ((∃ st, gaussInstantiate params cols = .ok st) ↔ params.Fits cols) ∧
      (¬ params.Fits cols → ∃ e, gaussInstantiate params cols = .error e) := by
  have hiff : (∃ st, gaussInstantiate params cols = .ok st) ↔ params.Fits cols := by
    constructor
    · rintro ⟨st, h⟩
      obtain ⟨hall, hent⟩ := gaussInstantiate_ok h
      refine ⟨fun name ms hm => by simpa using List.all_eq_true.1 hall _ hm, fun label hl mean std hlook => ?_⟩
      obtain ⟨i, hi, rfl⟩ := List.getElem_of_mem hl
      have := hent ⟨i, hi⟩
      unfold priorEntry PriorParams.getD at this
      simp only [Fin.getElem_fin, hlook, Option.getD_some] at this
      by_contra hneg
      rw [if_neg hneg] at this
      cases this
    · rintro ⟨h1, h2⟩
      unfold gaussInstantiate
      rw [if_pos (List.all_eq_true.2 fun kv hkv => by simpa using h1 kv.1 kv.2 hkv)]
      have : collect (fun i : Fin cols.length => priorEntry params cols[i]) = .ok fun i =>
          ((params.getD cols[i]).1, (if 0 < (params.getD cols[i]).2 then (params.getD cols[i]).2 else 1),
            (if 0 < (params.getD cols[i]).2 then 1 else 0)) := by
        rw [collect_ok_iff]
        intro i
        unfold priorEntry
        dsimp only
        rw [if_pos]
        unfold PriorParams.getD
        cases hl : params.lookup cols[i] with
        | none => simp
        | some ms => exact h2 _ (List.getElem_mem _) ms.1 ms.2 hl
      rw [this]
      exact ⟨_, rfl⟩
  refine ⟨hiff, fun hn => ?_⟩
  cases h : gaussInstantiate params cols with
  | error e => exact ⟨e, rfl⟩
  | ok st => exact absurd (hiff.1 ⟨st, h⟩) hn

/-- **C26**, alignment: after instantiation the loss is the sum over the columns of the penalty given by the dictionary for exactly that column, and it
depends on a coordinate iff that column was given a positive standard deviation. -/
theorem C26_alignment (params : PriorParams K) (cols : List String) (st : GaussState K cols.length)
    (h : gaussInstantiate params cols = .ok st) :
    (∀ x, st.loss x = ∑ i : Fin cols.length, columnPenalty id params cols[i] (x i)) ∧
      ∀ i : Fin cols.length, (∃ x v, st.loss (Function.update x i v) ≠ st.loss x) ↔
        ∃ mean std, params.lookup cols[i] = some (mean, std) ∧ 0 < std := by
  have hent := (gaussInstantiate_ok h).2
  have hloss : ∀ x, st.loss x = ∑ i : Fin cols.length, columnPenalty id params cols[i] (x i) := by
    intro x
    unfold GaussState.loss
    refine Finset.sum_congr rfl fun i _ => ?_
    obtain ⟨-, -, ⟨std, hl, hpos, hs, hw⟩ | ⟨hw, hn⟩⟩ := priorEntry_ok (hent i)
    · unfold columnPenalty
      rw [hl]
      simp only [id, if_pos hpos, hw, hs]
      rw [one_mul, one_div, mul_comm, ← div_eq_mul_inv]
    · unfold columnPenalty
      rw [hw]
      cases hl : params.lookup cols[i] with
      | none => simp
      | some ms => simp [if_neg (hn ms.1 ms.2 hl)]
  refine ⟨hloss, fun i => ⟨?_, ?_⟩⟩
  · rintro ⟨x, v, hne⟩
    by_contra hcon
    push Not at hcon
    apply hne
    rw [hloss, hloss]
    refine Finset.sum_congr rfl fun j _ => ?_
    by_cases hj : j = i
    · subst hj
      unfold columnPenalty
      cases hl : params.lookup cols[j] with
      | none => rfl
      | some ms =>
        have := hcon ms.1 ms.2 hl
        simp [not_lt.2 this]
    · rw [Function.update_of_ne hj]
  · rintro ⟨mean, std, hl, hpos⟩
    refine ⟨fun _ => mean, mean + 1, ?_⟩
    rw [hloss, hloss, ← sub_ne_zero, ← Finset.sum_sub_distrib, Finset.sum_eq_single i]
    · rw [Function.update_self]
      unfold columnPenalty
      rw [hl]
      simp only [id, if_pos hpos]
      have : (mean + 1 - mean) ^ 2 / (2 * std) - (mean - mean) ^ 2 / (2 * std) = 1 / (2 * std) := by
        rw [add_sub_cancel_left, sub_self]; simp
      rw [this]
      positivity
    · intro j _ hj
      rw [Function.update_of_ne hj, sub_self]
    · intro hi
      exact absurd (Finset.mem_univ i) hi

/-- Non-vacuity of C26: a dictionary whose order differs from the columns, with an unnamed column and a zero `std`; and two rejected ones. -/
example : PriorParams.Fits (K := ℚ) [("time", (1, 2)), ("dose", (3, 0))] ["dose", "intercept", "time"] ∧
    ¬ PriorParams.Fits (K := ℚ) [("time", (1, 2))] ["dose"] ∧ ¬ PriorParams.Fits (K := ℚ) [("time", (1, -2))] ["time"] := by
  refine ⟨⟨?_, ?_⟩, fun h => ?_, fun h => ?_⟩
  · intro name ms h; simp at h; rcases h with ⟨rfl, -⟩ | ⟨rfl, -⟩ <;> simp
  · intro label hl mean std h
    simp at hl
    rcases hl with rfl | rfl | rfl <;> simp [List.lookup] at h <;> rw [← h.2]
    norm_num
  · have := h.1 "time" (1, 2) (by simp); simp at this
  · have := h.2 "time" (by simp) 1 (-2) (by simp [List.lookup]); norm_num at this

/-! ## C27: derivatives -/

theorem diag_form {n : ℕ} (d h : Vec K n) : ∑ i, ∑ j, h i * Matrix.diagonal d i j * h j = ∑ i, d i * h i ^ 2 := by
  refine Finset.sum_congr rfl fun i _ => ?_
  rw [Finset.sum_eq_single i]
  · rw [Matrix.diagonal_apply_eq]; ring
  · intro j _ hj; rw [Matrix.diagonal_apply_ne _ (Ne.symm hj)]; ring
  · intro hi; exact absurd (Finset.mem_univ i) hi

/-- **C27**: for every prior that was instantiated, gradient and Hessian are the exact derivatives of the loss, the Hessian is diagonal with non-negative entries, and
the loss is non-negative and zero at the means. -/
theorem C27_prior_derivatives (params : PriorParams K) (cols : List String) (st : GaussState K cols.length)
    (h : gaussInstantiate params cols = .ok st) :
    QuadraticExpansion st.loss st.gradient st.hessian ∧ NonnegForm st.hessian ∧ (∀ i j, i ≠ j → st.hessian i j = 0) ∧
      (∀ i, 0 ≤ st.hessian i i) ∧ (∀ x, 0 ≤ st.loss x) ∧
      ∀ x : Vec K cols.length, (∀ (i : Fin cols.length) mean std, params.lookup cols[i] = some (mean, std) → 0 < std → x i = mean) →
        st.loss x = 0 := by
  have hpos := gaussInstantiate_stds h
  have hd : ∀ i, 0 ≤ st.weights i * (1 / st.stds i) := fun i =>
    mul_nonneg (hpos i).2 (one_div_pos.2 (hpos i).1).le
  refine ⟨?_, ?_, ?_, ?_, ?_, ?_⟩
  · intro x h'
    unfold GaussState.loss GaussState.gradient GaussState.hessian
    rw [diag_form, Finset.mul_sum, ← Finset.sum_add_distrib, ← Finset.sum_add_distrib]
    refine Finset.sum_congr rfl fun i _ => ?_
    have := (hpos i).1.ne'
    rw [Pi.add_apply]
    field_simp
    ring
  · intro h'
    unfold GaussState.hessian
    rw [diag_form]
    exact Finset.sum_nonneg fun i _ => mul_nonneg (hd i) (sq_nonneg _)
  · intro i j hij
    exact Matrix.diagonal_apply_ne _ hij
  · intro i
    unfold GaussState.hessian
    rw [Matrix.diagonal_apply_eq]
    exact hd i
  · intro x
    refine Finset.sum_nonneg fun i _ => mul_nonneg (mul_nonneg (hpos i).2 ?_) (sq_nonneg _)
    have := (hpos i).1
    positivity
  · intro x hx
    rw [(C26_alignment params cols st h).1]
    refine Finset.sum_eq_zero fun i _ => ?_
    unfold columnPenalty
    cases hl : params.lookup cols[i] with
    | none => rfl
    | some ms =>
      dsimp only
      split_ifs with hs
      · rw [hx i ms.1 ms.2 hl hs]; simp
      · rfl

/-- Non-vacuity of C27: an accepted dictionary exists (and its loss is not constant, by C26). -/
example : ∃ st, gaussInstantiate (K := ℚ) [("time", (1, 2))] ["intercept", "time"] = .ok st :=
  ((C26_instantiate_iff _ _).1).2 ⟨by intro n ms h; simp at h; simp [h.1], by
    intro label hl mean std h
    simp at hl
    rcases hl with rfl | rfl <;> simp [List.lookup] at h
    rw [← h.2]; norm_num⟩

/-- **C27** for the mixed-model prior: the two gradients, the two Hessians and the (zero) mixed Hessian are the exact derivatives of the joint loss. -/
theorem C27_lme_prior_derivatives (fe re : PriorParams K) (fc rc : List String) (b : GaussState K fc.length) (g : GaussState K rc.length)
    (hb : gaussInstantiate fe fc = .ok b) (hg : gaussInstantiate re rc = .ok g) (beta h : Vec K fc.length) (gamma l : Vec K rc.length) :
    let P := LmeInstPrior.gaussian b g
    P.loss (beta + h) (gamma + l) = P.loss beta gamma + (∑ i, P.gradientBeta beta gamma i * h i) + (∑ j, P.gradientGamma beta gamma j * l j) +
      1 / 2 * (∑ i, ∑ i', h i * P.hessianBeta i i' * h i') + 1 / 2 * (∑ j, ∑ j', l j * P.hessianGamma j j' * l j') +
      ∑ i, ∑ j, h i * P.hessianBetaGamma i j * l j := by
  intro P
  have h1 := (C27_prior_derivatives fe fc b hb).1 beta h
  have h2 := (C27_prior_derivatives re rc g hg).1 gamma l
  have h3 : ∑ i, ∑ j, h i * P.hessianBetaGamma i j * l j = 0 :=
    Finset.sum_eq_zero fun i _ => Finset.sum_eq_zero fun j _ => by simp [P, LmeInstPrior.hessianBetaGamma]
  rw [h3]
  simp only [P, LmeInstPrior.loss, LmeInstPrior.gradientBeta, LmeInstPrior.gradientGamma, LmeInstPrior.hessianBeta, LmeInstPrior.hessianGamma]
  rw [h1, h2]
  ring

/-! ## C28: standard deviations -/

/-- **C28 is violated by the code**: for every `std > 0` other than `1` and every point away from the mean, the loss is not that of a normal density with
this standard deviation (the code divides by `std`, not by its square). -/
theorem C28_std_violated (name : String) (mean std : K) (hpos : 0 < std) (h1 : std ≠ 1) (st : GaussState K 1)
    (h : gaussInstantiate [(name, (mean, std))] [name] = .ok st) (x : Vec K 1) (hx : x 0 ≠ mean) :
    st.loss x ≠ (x 0 - mean) ^ 2 / (2 * std ^ 2) := by
  rw [(C26_alignment _ [name] st h).1 x, show (∑ i : Fin [name].length, columnPenalty id [(name, (mean, std))] [name][i] (x i))
    = columnPenalty id [(name, (mean, std))] name (x 0) from Fin.sum_univ_one _]
  unfold columnPenalty
  simp only [List.lookup, beq_self_eq_true, id, if_pos hpos]
  have hne : (x 0 - mean) ^ 2 ≠ 0 := pow_ne_zero _ (sub_ne_zero.2 hx)
  intro heq
  rw [div_eq_div_iff (by positivity) (by positivity)] at heq
  have h2 := mul_left_cancel₀ hne heq
  have h3 : std * (std - 1) = 0 := by linarith
  rcases mul_eq_zero.1 h3 with h4 | h4
  · exact hpos.ne' h4
  · exact h1 (sub_eq_zero.1 h4)

/-- **C28**, what does hold: if every positive `std` in the dictionary is `1` the loss is the documented one (that of standard deviations). Missing: `std ≠ 1` (false,
see `C28_std_violated`). -/
theorem C28_std_partial (params : PriorParams K) (cols : List String) (st : GaussState K cols.length)
    (h : gaussInstantiate params cols = .ok st) (h1 : ∀ label mean std, params.lookup label = some (mean, std) → 0 < std → std = 1)
    (x : Vec K cols.length) : st.loss x = ∑ i : Fin cols.length, columnPenalty (fun s => s ^ 2) params cols[i] (x i) := by
  rw [(C26_alignment params cols st h).1]
  refine Finset.sum_congr rfl fun i _ => ?_
  unfold columnPenalty
  cases hl : params.lookup cols[i] with
  | none => rfl
  | some ms =>
    dsimp only
    split_ifs with hs
    · rw [h1 _ _ _ hl hs]; simp
    · rfl

/-- Non-vacuity of C28: `std = 2` is accepted. -/
example : ∃ st : GaussState ℚ 1, gaussInstantiate [("time", (1, 2))] ["time"] = .ok st := by
  have := (C26_instantiate_iff (K := ℚ) [("time", (1, 2))] ["time"]).1.2 ⟨by intro n ms h; simp at h; simp [h.1], by
    intro label hl mean std h
    simp at hl
    subst hl
    simp [List.lookup] at h
    rw [← h.2]; norm_num⟩
  exact this

/-! ## C29: reuse of a mixed-model prior -/

/-- **C29 is violated by the code**: after `forget`, instantiating on any problem with column names raises `AttributeError`, whatever happened before. -/
theorem C29_reuse_violated (p : LmePrior K) (fc rc : List String) (hf : fc ≠ []) (hr : rc ≠ []) :
    (p.forget.instantiate (some fc) (some rc)).1 = .error .attributeError := by
  simp [LmePrior.instantiate, LmePrior.forget, hf, hr]

/-- The state after a history of `instantiate` calls (each may fail, and be caught by the caller). -/
def LmePrior.afterInstantiations (p : LmePrior K) : List (Option (List String) × Option (List String)) → LmePrior K
  | [] => p
  | q :: qs => ((p.instantiate q.1 q.2).2).afterInstantiations qs

theorem LmePrior.instantiate_params (p : LmePrior K) (fixed random : Option (List String)) :
    (p.instantiate fixed random).2.feParams = p.feParams ∧ (p.instantiate fixed random).2.betaParams = p.betaParams ∧
      (p.instantiate fixed random).2.gammaParams = p.gammaParams := by
  unfold LmePrior.instantiate
  split
  · split_ifs
    · exact ⟨rfl, rfl, rfl⟩
    · split
      · exact ⟨rfl, rfl, rfl⟩
      · split_ifs
        · split
          · exact ⟨rfl, rfl, rfl⟩
          · split <;> exact ⟨rfl, rfl, rfl⟩
        · exact ⟨rfl, rfl, rfl⟩
  · exact ⟨rfl, rfl, rfl⟩

/-- A successful instantiation of a prior with these dictionaries, as a function of the problem alone. -/
theorem LmePrior.instantiate_depends (p q : LmePrior K) (h1 : p.feParams = q.feParams) (h2 : p.betaParams = q.betaParams)
    (h3 : p.gammaParams = q.gammaParams) (fixed random : Option (List String)) :
    (p.instantiate fixed random).1 = (q.instantiate fixed random).1 ∧
      ((p.instantiate fixed random).1 = .ok () → (p.instantiate fixed random).2.beta = (q.instantiate fixed random).2.beta ∧
        (p.instantiate fixed random).2.gamma = (q.instantiate fixed random).2.gamma) := by
  unfold LmePrior.instantiate
  rw [h1, h2, h3]
  split
  · split_ifs
    · simp
    · split
      · simp
      · split_ifs
        · split
          · simp
          · split <;> simp
        · simp
  · simp

/-- **C29**, what does hold: without `forget`, after any history of instantiations (successful or not, on any problems) instantiating again has exactly the outcome of a new prior with the
same dictionaries, and on success the same fixed-effect and random-effect priors. Missing: histories containing `forget` (false, see `C29_reuse_violated`). -/
theorem C29_reuse_partial (fe re : PriorParams K) (hist : List (Option (List String) × Option (List String)))
    (fixed random : Option (List String)) :
    let used := ((LmePrior.init fe re).afterInstantiations hist).instantiate fixed random
    let fresh := (LmePrior.init fe re).instantiate fixed random
    used.1 = fresh.1 ∧ (fresh.1 = .ok () → used.2.beta = fresh.2.beta ∧ used.2.gamma = fresh.2.gamma) := by
  intro used fresh
  have hinv : ∀ (p : LmePrior K), (p.afterInstantiations hist).feParams = p.feParams ∧
      (p.afterInstantiations hist).betaParams = p.betaParams ∧ (p.afterInstantiations hist).gammaParams = p.gammaParams := by
    clear used fresh
    induction hist with
    | nil => exact fun p => ⟨rfl, rfl, rfl⟩
    | cons q qs ih =>
      intro p
      have h1 := p.instantiate_params q.1 q.2
      have h2 := ih (p.instantiate q.1 q.2).2
      exact ⟨h2.1.trans h1.1, h2.2.1.trans h1.2.1, h2.2.2.trans h1.2.2⟩
  obtain ⟨h1, h2, h3⟩ := hinv (LmePrior.init fe re)
  have := LmePrior.instantiate_depends _ _ h1 h2 h3 fixed random
  exact ⟨this.1, fun h => this.2 (this.1.trans h)⟩

/-- Non-vacuity of C29: a new prior is accepted on a problem on which the forgotten one fails. -/
example : ((LmePrior.init (K := ℚ) [("a", (0, 1))] []).instantiate (some ["a"]) (some ["b"])).1 = .ok () ∧
    ((LmePrior.init (K := ℚ) [("a", (0, 1))] []).forget.instantiate (some ["a"]) (some ["b"])).1 = .error .attributeError := by
  refine ⟨?_, C29_reuse_violated _ _ _ (by simp) (by simp)⟩
  simp [LmePrior.instantiate, LmePrior.init, gaussInstantiateArg, gaussInstantiate, collect, priorEntry, PriorParams.getD, List.lookup,
    Except.map, bind, Except.bind, pure, Except.pure]

end Verif
