import Verif.Props.Wrappers
import Verif.Props.Priors

/-!
# Exactly when the violated properties C04, C15 and C28 hold
-/

namespace Verif

variable {K : Type} [Field K] [LinearOrder K] [IsStrictOrderedRing K] {n : ℕ}

/-! ## C04 -/

theorem soft_eq_iff {s t : K} (hs : 0 ≤ s) (ht : 0 ≤ t) (x : K) : soft s x = soft t x ↔ s = t ∨ |x| ≤ min s t := by
  constructor
  · intro h
    by_contra hn
    push Not at hn
    obtain ⟨hne, hlt⟩ := hn
    rcases soft_cases x hs with ⟨h1, e1⟩ | ⟨h1, e1⟩ | ⟨h1, e1⟩ <;> rcases soft_cases x ht with ⟨h2, e2⟩ | ⟨h2, e2⟩ | ⟨h2, e2⟩ <;> rw [e1, e2] at h
    · exact hne (by linarith)
    · linarith
    · linarith
    · linarith
    · exact hne (by linarith)
    · linarith
    · linarith
    · linarith
    · exact absurd (le_min h1 h2) (not_le.2 hlt)
  · rintro (rfl | h)
    · rfl
    · rw [soft_of_abs_le (h.trans (min_le_left _ _)), soft_of_abs_le (h.trans (min_le_right _ _))]

/-- **C04**, exactly: with weights attached the L1 prox minimises the regularizer's own `value` at `x` if and only if the strength is 1 or every coordinate with a positive threshold is
set to zero by both the threshold with and the one without the strength. -/
theorem C04_l1_iff (lam alpha : K) (w x : Vec K n) (hlam : 0 ≤ lam) (hw : ∀ i, 0 ≤ w i) (ha : 0 ≤ alpha) :
    (l1Regularizer lam (some w)).ExactAt alpha x ↔ ∀ i, alpha * w i = 0 ∨ lam = 1 ∨ |x i| ≤ alpha * w i * min lam 1 := by
  have key : ∀ i, soft (alpha * w i * lam) (x i) = soft (alpha * w i) (x i) ↔ alpha * w i = 0 ∨ lam = 1 ∨ |x i| ≤ alpha * w i * min lam 1 := by
    intro i
    have h0 : 0 ≤ alpha * w i := mul_nonneg ha (hw i)
    rw [soft_eq_iff (mul_nonneg h0 hlam) h0, mul_min_of_nonneg _ _ h0, mul_one, ← or_assoc]
    refine or_congr_left ?_
    rcases eq_or_ne (alpha * w i) 0 with h | h
    · simp [h]
    · simp [h]
  have hval : ∀ u, (l1Regularizer lam (some w)).value u = .ok (l1Penalty 1 w u) := fun u => by simp [l1Regularizer, l1Penalty]
  obtain ⟨⟨z1, hz1, hp1⟩, -⟩ := C03_l1_prox_unique_min 1 w x alpha zero_le_one hw ha
  have hz1' : z1 = fun i => soft (alpha * w i) (x i) := by
    simp only [l1Regularizer, Except.ok.injEq, mul_one] at hz1
    exact hz1.symm
  simp only [← key]
  constructor
  · rintro ⟨g, hg, z, hz, gz, hgz, hmin⟩
    obtain ⟨g1, hg1, hmin1⟩ := hp1
    have hgg : g = l1Penalty 1 w := funext fun u => Except.ok.inj ((hg u).symm.trans (hval u))
    subst hgg
    have hzz : z = z1 := by
      by_contra hne
      have h1 := hmin1 z gz hne hgz
      have h2 := hmin z1 g1 hg1
      linarith
    simp only [l1Regularizer, Except.ok.injEq] at hz
    intro i
    have := congrFun (hz.trans (hzz.trans hz1')) i
    exact this
  · intro h
    obtain ⟨g1, hg1, hmin1⟩ := hp1
    refine ⟨l1Penalty 1 w, hval, z1, ?_, g1, hg1, fun u gu hu => ?_⟩
    · simp only [l1Regularizer, Except.ok.injEq]
      rw [hz1']
      exact funext h
    · by_cases hne : u = z1
      · subst hne
        have := WithTop.coe_inj.1 (hg1.symm.trans hu)
        rw [this]
      · exact (hmin1 u gu hne hu).le

/-- The same for all points: only strength 1, or nothing to penalise. -/
theorem C04_l1_all_iff (lam alpha : K) (w : Vec K n) (hlam : 0 ≤ lam) (hw : ∀ i, 0 ≤ w i) (ha : 0 ≤ alpha) :
    (∀ x, (l1Regularizer lam (some w)).ExactAt alpha x) ↔ lam = 1 ∨ alpha = 0 ∨ ∀ i, w i = 0 := by
  constructor
  · intro h
    by_contra hn
    push Not at hn
    obtain ⟨h1, h2, i, h3⟩ := hn
    have := (C04_l1_iff lam alpha w (fun _ => alpha * w i * min lam 1 + 1) hlam hw ha).1 (h _) i
    rcases this with h4 | h4 | h4
    · exact mul_ne_zero h2 h3 h4
    · exact h1 h4
    · have := le_abs_self (alpha * w i * min lam 1 + 1)
      linarith
  · intro h x
    refine (C04_l1_iff lam alpha w x hlam hw ha).2 fun i => ?_
    rcases h with h | h | h
    · exact .inr (.inl h)
    · exact .inl (by rw [h, zero_mul])
    · exact .inl (by rw [h i, mul_zero])

/-- Non-vacuity: strength 1/2 and unit weights at a point where all coordinates are thresholded, and at one where they are not. -/
example : (l1Regularizer (1/2 : ℚ) (some fun _ : Fin 2 => 1)).ExactAt 1 ![1/2, -1/4] ∧
    ¬ (l1Regularizer (1/2 : ℚ) (some fun _ : Fin 2 => 1)).ExactAt 1 ![1/2, -3/4] := by
  constructor
  · refine (C04_l1_iff _ _ _ _ (by norm_num) (by simp) (by norm_num)).2 fun i => ?_
    fin_cases i <;> norm_num [abs_of_pos, abs_of_neg]
  · intro h
    have := (C04_l1_iff _ _ _ _ (by norm_num) (by simp) (by norm_num)).1 h 1
    norm_num [abs_of_pos, abs_of_neg] at this

/-! ## C15 -/

/-- **C15**, exactly: a regularizer with a history is attached like a fresh one if and only if, for each of the two budgets, it was given explicitly or the *first* problem of the history has
as many effects as the new one (the later ones do not matter). -/
theorem C15_reuse_iff (c : L0LmeCfg) (hist : List (ℕ × ℕ)) (p q : ℕ) :
    (afterHistory c hist).instantiate p q = c.instantiate p q ↔
      (c.nnzTbeta.isSome ∨ ∀ s, hist.head? = some s → s.1 = p) ∧ (c.nnzTgamma.isSome ∨ ∀ s, hist.head? = some s → s.2 = q) := by
  have hfix : ∀ (hist : List (ℕ × ℕ)) (c : L0LmeCfg), c.nnzTbeta.isSome → c.nnzTgamma.isSome → afterHistory c hist = c := by
    intro hist
    induction hist with
    | nil => intro c _ _; rfl
    | cons s hist ih =>
      intro c h1 h2
      have e : (c.instantiate s.1 s.2).forget = c := by
        obtain ⟨nb, ng, ind⟩ := c
        obtain ⟨b, rfl⟩ := Option.isSome_iff_exists.1 h1
        obtain ⟨g, rfl⟩ := Option.isSome_iff_exists.1 h2
        rfl
      change afterHistory ((c.instantiate s.1 s.2).forget) hist = c
      rw [e, ih c h1 h2]
  cases hist with
  | nil => simp [afterHistory]
  | cons s hist =>
    have e : afterHistory c (s :: hist) = c.instantiate s.1 s.2 := hfix hist _ rfl rfl
    rw [e]
    obtain ⟨nb, ng, ind⟩ := c
    cases nb <;> cases ng <;> simp [L0LmeCfg.instantiate]

/-- Non-vacuity: no budgets; the later problems of the history do not matter, the first does. -/
example : (afterHistory ⟨none, none, true⟩ [(3, 2), (1, 1)]).instantiate 3 2 = L0LmeCfg.instantiate ⟨none, none, true⟩ 3 2 ∧
    (afterHistory ⟨none, none, true⟩ [(1, 1), (3, 2)]).instantiate 3 2 ≠ L0LmeCfg.instantiate ⟨none, none, true⟩ 3 2 :=
  ⟨(C15_reuse_iff _ _ _ _).2 ⟨.inr fun s h => by cases h; rfl, .inr fun s h => by cases h; rfl⟩, fun h => by
    have := (C15_reuse_iff _ _ _ _).1 h
    simp at this⟩

/-! ## C28 -/

/-- **C28**, exactly: the loss of an instantiated Gaussian prior is that of standard deviations, at all points, if and only if every column with a positive `std` has `std = 1`. -/
theorem C28_std_iff (params : PriorParams K) (cols : List String) (st : GaussState K cols.length) (h : gaussInstantiate params cols = .ok st) :
    (∀ x : Vec K cols.length, st.loss x = ∑ i : Fin cols.length, columnPenalty (fun s => s ^ 2) params cols[i] (x i)) ↔
      ∀ label ∈ cols, ∀ mean std, params.lookup label = some (mean, std) → 0 < std → std = 1 := by
  constructor
  · intro hall label hmem mean std hl hpos
    obtain ⟨k, hk, rfl⟩ := List.getElem_of_mem hmem
    let x0 : Vec K cols.length := fun j => match params.lookup cols[j] with
      | none => 0
      | some (m, _) => if j = ⟨k, hk⟩ then m + 1 else m
    have hoff : ∀ (scale : K → K) (j : Fin cols.length), j ≠ ⟨k, hk⟩ → columnPenalty scale params cols[j] (x0 j) = 0 := by
      intro scale j hj
      unfold columnPenalty
      cases hlj : params.lookup cols[j] with
      | none => rfl
      | some ms =>
        have : x0 j = ms.1 := by simp only [x0, hlj, if_neg hj]
        simp [this]
    have hon : ∀ scale : K → K, columnPenalty scale params cols[k] (x0 ⟨k, hk⟩) = 1 / (2 * scale std) := by
      intro scale
      have : x0 ⟨k, hk⟩ = mean + 1 := by simp only [x0, Fin.getElem_fin, hl, if_true]
      unfold columnPenalty
      rw [hl, this]
      simp [hpos]
    have h1 := hall x0
    rw [(C26_alignment params cols st h).1, Fintype.sum_eq_single (⟨k, hk⟩ : Fin cols.length) fun j hj => hoff _ j hj,
      Fintype.sum_eq_single (⟨k, hk⟩ : Fin cols.length) fun j hj => hoff _ j hj] at h1
    have h2 : (1 : K) / (2 * std) = 1 / (2 * std ^ 2) := (hon id).symm.trans (h1.trans (hon _))
    rw [div_eq_div_iff (by positivity) (by positivity)] at h2
    have h3 : std * (std - 1) = 0 := by linarith
    rcases mul_eq_zero.1 h3 with h4 | h4
    · exact absurd h4 hpos.ne'
    · linarith
  · intro h1 x
    rw [(C26_alignment params cols st h).1]
    refine Finset.sum_congr rfl fun i _ => ?_
    unfold columnPenalty
    cases hl : params.lookup cols[i] with
    | none => rfl
    | some ms =>
      dsimp only
      split_ifs with hs
      · rw [h1 _ (List.getElem_mem _) _ _ hl hs]; simp
      · rfl

/-- Non-vacuity: `std = 2` is accepted, and the loss is not that of a standard deviation of 2. -/
example : ∃ st : GaussState ℚ 1, gaussInstantiate [("time", (1, 2))] ["time"] = .ok st ∧
    ¬ ∀ x : Vec ℚ 1, st.loss x = ∑ i : Fin 1, columnPenalty (fun s => s ^ 2) [("time", (1, 2))] ["time"][i] (x i) := by
  obtain ⟨st, hst⟩ := (C26_instantiate_iff (K := ℚ) [("time", (1, 2))] ["time"]).1.2 ⟨by intro n ms h; simp at h; simp [h.1], by
    intro label hl mean std h
    simp at hl
    subst hl
    simp [List.lookup] at h
    rw [← h.2]; norm_num⟩
  refine ⟨st, hst, fun hall => ?_⟩
  have := (C28_std_iff [("time", ((1 : ℚ), 2))] ["time"] st hst).1 hall "time" (by simp) 1 2 (by simp [List.lookup]) (by norm_num)
  norm_num at this

end Verif
