import Verif.Model.LmeSelect
import Verif.Props.LmeWarm
import Verif.Props.LmeColumns

/-!
# Lemmas for covariate selection
-/

open Matrix

namespace Verif

variable {N : ℕ}

/-! ## The search -/

theorem searchLoop_ok {M C : Type} {fit : M → Except PyErr (WithTop ℝ × Option C)} (ms : List M)
    (best r : WithTop ℝ × Option C) :
    searchLoop fit ms best = .ok r ↔
      ∃ rs, ms.mapM fit = .ok rs ∧ rs.foldl (fun b x => if x.1 < b.1 then x else b) best = r := by
  induction ms generalizing best with
  | nil =>
    constructor
    · intro h
      cases h
      exact ⟨[], rfl, rfl⟩
    · rintro ⟨rs, h1, h2⟩
      cases h1
      rw [← h2]
      rfl
  | cons m ms ih =>
    rw [List.mapM_cons, searchLoop]
    constructor
    · intro h
      obtain ⟨x, hx, h⟩ := ebind_ok.1 h
      obtain ⟨rs, h1, h2⟩ := (ih _).1 h
      exact ⟨x :: rs, ebind_ok.2 ⟨x, hx, ebind_ok.2 ⟨rs, h1, rfl⟩⟩, h2⟩
    · rintro ⟨rs, h1, h2⟩
      obtain ⟨x, hx, h1⟩ := ebind_ok.1 h1
      obtain ⟨rs', h3, h1⟩ := ebind_ok.1 h1
      cases h1
      exact ebind_ok.2 ⟨x, hx, (ih _).2 ⟨rs', h3, h2⟩⟩

/-- The fold keeps the first minimal element. -/
theorem foldl_best {C : Type} (rs : List (WithTop ℝ × C)) (best : WithTop ℝ × C) :
    (rs.foldl (fun b x => if x.1 < b.1 then x else b) best = best ∧ ∀ x ∈ rs, best.1 ≤ x.1) ∨
    ∃ i : ℕ, ∃ r, rs.foldl (fun b x => if x.1 < b.1 then x else b) best = r ∧ rs[i]? = some r ∧ r.1 < best.1 ∧
      (∀ x ∈ rs, r.1 ≤ x.1) ∧ ∀ (j : ℕ) (x : WithTop ℝ × C), j < i → rs[j]? = some x → r.1 < x.1 := by
  induction rs generalizing best with
  | nil => left; exact ⟨rfl, by simp⟩
  | cons a rs ih =>
    rw [List.foldl_cons]
    by_cases h : a.1 < best.1
    · rw [if_pos h]
      rcases ih a with ⟨h1, h2⟩ | ⟨i, r, h1, h2, h3, h4, h5⟩
      · right
        refine ⟨0, a, h1, rfl, h, ?_, by intro j x hj; omega⟩
        intro x hx
        rcases List.mem_cons.1 hx with rfl | hx
        · exact le_rfl
        · exact h2 x hx
      · right
        refine ⟨i + 1, r, h1, by simpa using h2, h3.trans h, ?_, ?_⟩
        · intro x hx
          rcases List.mem_cons.1 hx with rfl | hx
          · exact h3.le
          · exact h4 x hx
        · intro j x hj hx
          cases j with
          | zero => simp only [List.getElem?_cons_zero, Option.some.injEq] at hx; rw [← hx]; exact h3
          | succ j => exact h5 j x (by omega) (by simpa using hx)
    · rw [if_neg h]
      rcases ih best with ⟨h1, h2⟩ | ⟨i, r, h1, h2, h3, h4, h5⟩
      · left
        refine ⟨h1, ?_⟩
        intro x hx
        rcases List.mem_cons.1 hx with rfl | hx
        · exact not_lt.1 h
        · exact h2 x hx
      · right
        refine ⟨i + 1, r, h1, by simpa using h2, h3, ?_, ?_⟩
        · intro x hx
          rcases List.mem_cons.1 hx with rfl | hx
          · exact h3.le.trans (not_lt.1 h)
          · exact h4 x hx
        · intro j x hj hx
          cases j with
          | zero =>
            simp only [List.getElem?_cons_zero, Option.some.injEq] at hx
            rw [← hx]
            exact h3.trans_le (not_lt.1 h)
          | succ j => exact h5 j x (by omega) (by simpa using hx)

/-! ## The logged score -/

theorem logIf_keys {n : ℕ} {L L' : Logger (PyVal ℝ n)} {key : String} {v : Except PyErr (PyVal ℝ n)}
    (h : logIf L key v = .ok L') :
    L'.keys = L.keys ∧ (∀ k, k ≠ key → L'.dict k = L.dict k) ∧
      (key ∈ L.keys → ∃ r, v = .ok r ∧ L'.dict key = some (.atom r)) := by
  unfold logIf at h
  split_ifs at h with hk
  · obtain ⟨r, hr, h⟩ := ebind_ok.1 h
    unfold Logger.add at h
    simp only [if_pos hk] at h
    cases h
    refine ⟨rfl, fun k hk => ?_, fun _ => ⟨r, hr, ?_⟩⟩
    · simp [Function.update_of_ne hk]
    · simp
  · cases h
    exact ⟨rfl, fun _ _ => rfl, fun h => absurd h hk⟩

theorem criterion_eq {n : ℕ} {v : Except PyErr ℝ} {r : PyVal ℝ n} (h : criterion v = .ok r) :
    ∃ s, v = .ok s ∧ r = .num (s : WithTop ℝ) := by
  cases v with
  | error e => cases h
  | ok s => exact ⟨s, rfl, (Except.ok.inj h).symm⟩

/-- After logging the criteria, the entry of a requested BIC is the criterion. -/
theorem lmeLogCriteria_bic {n p q : ℕ} {tol : ℝ} {D : List (LmeGroup p q)} {Pr : LmeInstPrior ℝ p q} {beta : Vec ℝ p}
    {gamma : Vec ℝ q} {hess : Except PyErr (Matrix (Fin p) (Fin p) ℝ)} {L L' : Logger (PyVal ℝ n)}
    (h : lmeLogCriteria tol D Pr hess beta gamma L = .ok L')
    (hk : "jones_bic" ∈ L'.keys) : ∃ r, lmeJonesBic D Pr (Real.sqrt tol) beta gamma = .ok r ∧
      L'.get "jones_bic" = .ok (.atom (.num (r : WithTop ℝ))) := by
  unfold lmeLogCriteria at h
  obtain ⟨L1, h1, h⟩ := ebind_ok.1 h
  obtain ⟨L2, h2, h⟩ := ebind_ok.1 h
  obtain ⟨L3, h3, h⟩ := ebind_ok.1 h
  obtain ⟨k3, -, e3⟩ := logIf_keys h3
  obtain ⟨L4, h4, h⟩ := ebind_ok.1 h
  obtain ⟨k4, e4, -⟩ := logIf_keys h4
  obtain ⟨k5, e5, -⟩ := logIf_keys h
  obtain ⟨v, hv, e⟩ := e3 (by rw [← k3, ← k4, ← k5]; exact hk)
  obtain ⟨r, hr, rfl⟩ := criterion_eq hv
  refine ⟨r, hr, ?_⟩
  unfold Logger.get
  rw [e5 _ (by decide), e4 _ (by decide), e]

/-! ## Problems built from dataframes -/

theorem dataframe_xy {header : List String} {col : String → Vec ℝ N} {fe re : List String} {groups variance target : String}
    {nf nr : List String} {P : LmeProblem ℝ} (h : lmeFromDataframe header col fe re groups variance target nf nr = .ok P) :
    lmeFromSelected (dataframeColumns header fe re) col groups variance target (decide (INTERCEPT ∈ fe))
      (decide (INTERCEPT ∈ re)) nf nr = .ok P := by
  unfold lmeFromDataframe at h
  split_ifs at h
  exact h

/-- The numbers of effects of a problem built from a dataframe. -/
theorem dataframe_counts {header : List String} {col : String → Vec ℝ N} {fe re : List String} {groups variance target : String}
    {nf nr : List String} {P : LmeProblem ℝ} (h : lmeFromDataframe header col fe re groups variance target nf nr = .ok P) :
    P.numFixed = (header.filter fun e => decide (e ∈ fe) && decide (e ≠ "intercept")).length
        + (if "intercept" ∈ fe then 1 else 0) ∧
      P.numRandom = (header.filter fun e => decide (e ∈ re) && decide (e ≠ "intercept")).length
        + (if "intercept" ∈ re then 1 else 0) := by
  obtain ⟨_, -, -, -, -, -, -, -, hf, hr⟩ := C53_roles header col fe re groups variance target nf nr P h
  have hx := dataframe_xy h
  unfold lmeFromSelected at hx
  have hv := C48_names_violated _ _ _ _ _ _ _ _ rfl P hx
  have hp := C48_names_partial _ _ _ _ _ _ _ _ rfl P hx
  constructor
  · by_cases hi : "intercept" ∈ fe
    · obtain ⟨names, h1, h2, -⟩ := hv.1 (by simpa [INTERCEPT] using hi)
      rw [hf] at h1
      cases h1
      rw [if_pos hi, h2]
    · obtain ⟨idx, h1, h2, -⟩ := hp.1 (by simpa [INTERCEPT] using hi)
      rw [hf] at h1
      rw [if_neg hi, Option.some.inj h1, List.length_map, h2, add_zero]
  · by_cases hi : "intercept" ∈ re
    · obtain ⟨names, h1, h2, -⟩ := hv.2 (by simpa [INTERCEPT] using hi)
      rw [hr] at h1
      cases h1
      rw [if_pos hi, h2]
    · obtain ⟨idx, h1, h2, -⟩ := hp.2 (by simpa [INTERCEPT] using hi)
      rw [hr] at h1
      rw [if_neg hi, Option.some.inj h1, List.length_map, h2, add_zero]

/-- The coefficients a fit returns have one entry per effect. -/
theorem lmeFitProblem_sizes {M : LmeModelCfg} {st : LmeState} {P : LmeProblem ℝ} {a : LmeFitArgs} {c : LmeCoef}
    {L : Logger (PyVal ℝ (P.numFixed + P.numRandom))} (h : lmeFitProblem M st P a = (.ok L, some c)) :
    c.beta.length = P.numFixed ∧ c.gamma.length = P.numRandom := by
  obtain ⟨c', x, L0, hc, hcore⟩ := lmeFitProblem_ok h
  cases hc
  obtain ⟨m, Pr, w, base, D, beta, gamma, us, per, -, -, -, -, -, -, -, -, -, -, rfl⟩ := lmeFitCore_ok hcore
  simp

theorem fitAndScore_ok {P : LmeProblem ℝ} {M : LmeModelCfg} {r : WithTop ℝ × LmeState} (h : fitAndScore P M = .ok r) :
    ∃ L c, r.2 = some c ∧ lmeFitProblem M none P {} = (.ok L, some c) ∧ L.get "jones_bic" = .ok (.atom (.num r.1)) := by
  unfold fitAndScore at h
  split at h
  · cases h
  · rename_i L c hL
    obtain ⟨v, hv, h⟩ := ebind_ok.1 h
    obtain ⟨s, hs, h⟩ := ebind_ok.1 h
    cases h
    obtain ⟨c', _, _, rfl, -⟩ := lmeFitProblem_ok hL
    refine ⟨L, c', rfl, hL, ?_⟩
    rw [hv]
    unfold scoreOf at hs
    split at hs
    · cases hs; rfl
    · cases hs

/-- The weights of a problem built from a dataframe. -/
theorem dataframe_weights {header : List String} {col : String → Vec ℝ N} {fe re : List String} {groups variance target : String}
    {nf nr : List String} {P : LmeProblem ℝ} (h : lmeFromDataframe header col fe re groups variance target nf nr = .ok P) :
    P.feWeights = (if nf = [] then List.replicate P.numFixed 1 else (if "intercept" ∈ nf then 0 else 1) ::
      (header.filter fun e => decide (e ∈ fe) && decide (e ≠ "intercept")).map fun e => if e ∈ nf then 0 else 1) ∧
    P.reWeights = (if nr = [] then List.replicate P.numRandom 1 else (if "intercept" ∈ nf then 0 else 1) ::
      (header.filter fun e => decide (e ∈ re) && decide (e ≠ "intercept")).map fun e => if e ∈ nr then 0 else 1) := by
  obtain ⟨_, -, -, -, -, -, -, -, hfn, hrn⟩ := C53_roles header col fe re groups variance target nf nr P h
  have hx := dataframe_xy h
  unfold lmeFromSelected at hx
  obtain ⟨g, v, feW, reW, hg, hv, hlen, -, -, -, -, -, hfe, hre, hPe⟩ := lmeFromXY_ok _ _ _ _ _ _ _ _ P hx
  have hF := numFixed_eq P _ _ (by rw [hPe])
  have hR := numRandom_eq P _ _ (by rw [hPe])
  have hcl : P.columnLabels = GROUP :: ((dataframeColumns header fe re).map Prod.snd ++ [VARIANCE]) := by rw [hPe]
  have e1 : P.feColumns = some ((((GROUP :: ((dataframeColumns header fe re).map Prod.snd ++ [VARIANCE])).zip
      (groups :: ((dataframeColumns header fe re).map Prod.fst ++ [variance]))).filter fun lc => isFixed lc.1).map Prod.snd) := by
    rw [← names_idx (p := (groups :: ((dataframeColumns header fe re).map Prod.fst ++ [variance])).length) _ _ hlen rfl, hPe]
    rfl
  have e2 : P.reColumns = some ((((GROUP :: ((dataframeColumns header fe re).map Prod.snd ++ [VARIANCE])).zip
      (groups :: ((dataframeColumns header fe re).map Prod.fst ++ [variance]))).filter fun lc => isRandom lc.1).map Prod.snd) := by
    rw [← names_idx (p := (groups :: ((dataframeColumns header fe re).map Prod.fst ++ [variance])).length) _ _ hlen rfl, hPe]
    rfl
  rw [hfn] at e1
  rw [hrn] at e2
  have w1 : P.feWeights = feW := by rw [hPe]
  have w2 : P.reWeights = reW := by rw [hPe]
  rw [w1, w2]
  constructor
  · by_cases hn : nf = []
    · rw [hn] at hfe
      cases hfe
      rw [if_pos hn, hF, hcl, labelIdx_length _ hlen]
    · rw [regWeightsOf_cons nf nf hn _ _ hlen rfl isFixed _ _ hfe, if_neg hn, Option.some.inj e1]
  · by_cases hn : nr = []
    · rw [hn] at hre
      cases hre
      rw [if_pos hn, hR, hcl, labelIdx_length _ hlen]
    · rw [regWeightsOf_cons nr nf hn _ _ hlen rfl isRandom _ _ hre, if_neg hn, Option.some.inj e2]

theorem dataframeColumns_label {header fe re : List String} {l : String} (h : l ∈ (dataframeColumns header fe re).map Prod.snd) :
    l = FIXED ∨ l = RANDOM ∨ l = FIXED_RANDOM := by
  unfold dataframeColumns at h
  rw [List.map_map] at h
  obtain ⟨e, -, rfl⟩ := List.mem_map.1 h
  simp only [Function.comp_apply]
  split_ifs
  · exact .inr (.inr rfl)
  · exact .inr (.inl rfl)
  · exact .inl rfl

/-- A dataframe is accepted if its columns exist, the groups are integers and the variances are nonzero. -/
theorem dataframe_succeeds {header : List String} {col : String → Vec ℝ N} {fe re : List String} {groups variance target : String}
    {nf nr : List String} (hall : ∀ e ∈ fe ++ re ++ [groups, variance, target], e ∈ header)
    (hnf : ∀ e ∈ nf, e ∈ fe) (hnr : ∀ e ∈ nr, e ∈ re) (hN : 0 < N) (hvar : ∀ r, col variance r ≠ 0)
    (hint : ∀ r, ∃ z : ℤ, (z : ℝ) = col groups r) :
    ∃ P, lmeFromDataframe header col fe re groups variance target nf nr = .ok P := by
  unfold lmeFromDataframe
  rw [if_neg, if_neg, if_neg]
  · unfold lmeFromSelected
    obtain ⟨sel, hsel⟩ : ∃ sel, sel = dataframeColumns header fe re := ⟨_, rfl⟩
    rw [← hsel]
    have hlab : ∀ l ∈ sel.map Prod.snd, l = FIXED ∨ l = RANDOM ∨ l = FIXED_RANDOM := fun l hl => dataframeColumns_label (hsel ▸ hl)
    obtain ⟨columns, hcolumns⟩ : ∃ columns, columns = groups :: (sel.map Prod.fst ++ [variance]) := ⟨_, rfl⟩
    obtain ⟨labels, hlabels⟩ : ∃ labels, labels = GROUP :: (sel.map Prod.snd ++ [VARIANCE]) := ⟨_, rfl⟩
    have hlen : labels.length = columns.length := by simp [hlabels, hcolumns]
    rw [← hlabels]
    have hGc : labels.count GROUP = 1 := by
      rw [hlabels, List.count_cons_self, List.count_append, List.count_eq_zero.2]
      · rfl
      · intro hc
        rcases hlab _ hc with h | h | h <;> exact absurd h (by decide)
    have hVc : labels.count VARIANCE = 1 := by
      rw [hlabels, List.count_cons_of_ne (by decide), List.count_append, List.count_eq_zero.2]
      · rfl
      · intro hc
        rcases hlab _ hc with h | h | h <;> exact absurd h (by decide)
    obtain ⟨g, hg⟩ := (labelIdx_singleton labels hlen GROUP).2 hGc
    obtain ⟨v, hv⟩ := (labelIdx_singleton labels hlen VARIANCE).2 hVc
    have hg0 : columns[g] = groups := by
      have : (⟨0, by simp [hcolumns]⟩ : Fin columns.length) ∈ labelIdx (p := columns.length) labels (· = GROUP) := by
        rw [mem_labelIdx]; simp [hlabels]
      rw [hg, List.mem_singleton] at this
      rw [← this]
      simp [hcolumns]
    have hv0 : columns[v] = variance := by
      have : (⟨sel.length + 1, by simp [hcolumns]⟩ : Fin columns.length) ∈ labelIdx (p := columns.length) labels (· = VARIANCE) := by
        rw [mem_labelIdx]; simp [hlabels]
      rw [hv, List.mem_singleton] at this
      rw [← this]
      simp [hcolumns]
    have hw : ∀ (must inc : List String) (test : String → Bool) (num : ℕ), ∃ w : List ℝ, regWeightsOf (some must) (some inc) (some columns)
        ((labelIdx (p := columns.length) labels test).map Fin.val) num = .ok w := by
      intro must inc test num
      cases must with
      | nil => exact ⟨_, rfl⟩
      | cons m ms =>
        unfold regWeightsOf
        simp only
        have hlt : (((labelIdx (p := columns.length) labels test).map Fin.val).all fun i => decide (i < columns.length)) = true := by
          rw [List.all_eq_true]
          intro i hi
          obtain ⟨j, -, rfl⟩ := List.mem_map.1 hi
          simpa using j.2
        exact ⟨_, if_pos hlt⟩
    obtain ⟨feW, hfe⟩ := hw nf nf isFixed ((labelIdx (p := columns.length) labels isFixed).length + (decide (INTERCEPT ∈ fe)).toNat)
    obtain ⟨reW, hre⟩ := hw nr nf isRandom ((labelIdx (p := columns.length) labels isRandom).length + (decide (INTERCEPT ∈ re)).toNat)
    subst hcolumns
    refine lmeFromXY_succeeds _ _ _ labels _ _ _ _ g v hg hv hlen ?_ (fun _ => hN) ?_ ?_ (.inr (.inr rfl)) (by simp) feW reW hfe hre
    · intro l hl
      rw [hlabels] at hl
      rcases List.mem_cons.1 hl with rfl | hl
      · decide
      · rcases List.mem_append.1 hl with hl | hl
        · rcases hlab _ hl with rfl | rfl | rfl <;> decide
        · rw [List.mem_singleton.1 hl]; decide
    · intro r
      rw [Matrix.of_apply]
      exact (congrArg (fun s => col s r) hv0).trans_ne (hvar r)
    · intro r
      rw [Matrix.of_apply, congrArg (fun s => col s r) hg0]
      exact hint r
  · rw [not_not, List.all_eq_true]
    intro e he
    simpa using hnr e he
  · rw [not_not, List.all_eq_true]
    intro e he
    simpa using hnf e he
  · rw [not_not, List.all_eq_true]
    intro e he
    rw [List.append_assoc, List.mem_append] at he
    rcases he with he | he
    · simpa using hall e he
    · rcases List.mem_append.1 he with he | he
      · simpa using hall e (by simp [hnf e he])
      · simpa using hall e (by simp [hnr e he])

/-! ## The grid -/

/-- The supported names (`MODELS_NAMES` in the documentation of `select_covariates`). -/
def selectNames : List String := ["L0", "L1", "CAD", "SCAD", "L0_SR3", "L1_SR3", "CAD_SR3", "SCAD_SR3"]

theorem mem_l0Grid (nf nr : ℕ) (a b : ℤ) : (a, b) ∈ l0Grid nf nr ↔ 1 ≤ b ∧ b ≤ a ∧ a < nf ∧ b < nr := by
  unfold l0Grid
  simp only [List.mem_flatMap, List.mem_map, List.mem_filter, List.mem_range'_1, Prod.mk.injEq, decide_eq_true_eq]
  constructor
  · rintro ⟨p, hp, q, ⟨hq, hqp⟩, rfl, rfl⟩
    omega
  · rintro ⟨h1, h2, h3, h4⟩
    exact ⟨a.toNat, by omega, b.toNat, ⟨by omega, by omega⟩, by omega, by omega⟩

theorem lamGrid_pos {lam : ℝ} (h : lam ∈ lamGrid) : 0 < lam := by
  unfold lamGrid at h
  obtain ⟨i, -, rfl⟩ := List.mem_map.1 h
  positivity

/-- The number at which the prox of the SCAD penalty in SR3 models divides by zero is not on the grid. -/
theorem lamGrid_ne {lam : ℝ} (h : lam ∈ lamGrid) : lam ≠ 10800027 / 100000 := by
  unfold lamGrid at h
  obtain ⟨i, -, rfl⟩ := List.mem_map.1 h
  intro hcon
  have h1 : ((10 : ℝ) ^ (-4 + 9 * (i : ℝ) / 99)) ^ 11 * 10 ^ 55 = 10 ^ (i + 11) := by
    rw [← Real.rpow_natCast ((10 : ℝ) ^ (-4 + 9 * (i : ℝ) / 99)), ← Real.rpow_mul (by norm_num), ← Real.rpow_natCast 10 55,
      ← Real.rpow_add (by norm_num), ← Real.rpow_natCast]
    congr 1
    push_cast
    ring
  rw [hcon] at h1
  have h2 : ((10800027 : ℝ) / 100000) ^ 11 * 10 ^ 55 = 10800027 ^ 11 := by
    rw [div_pow]
    norm_num
  rw [h2] at h1
  have h3 : 10800027 ^ 11 = 10 ^ (i + 11) := by exact_mod_cast h1
  have h4 : (3 : ℕ) ∣ 10 ^ (i + 11) := by
    rw [← h3]
    exact dvd_pow (by norm_num) (by norm_num)
  have := Nat.prime_three.dvd_of_dvd_pow h4
  omega

theorem gridPlain_robust {reg : LmeReg} (hr : reg.Admissible)
    (hs : ∀ rho sigma lam, reg = .scad rho sigma lam → 1 < rho - 1) : (gridPlain reg).Robust where
  adm := ⟨hr, by norm_num [gridPlain], (fun s h => by cases h), (fun s h => by cases h)⟩
  init := by simp [gridPlain]
  kind := rfl
  keys := by change ["converged", "jones_bic"].Nodup; decide
  vaida := by change _ ∉ ["converged", "jones_bic"]; decide
  flip := fun h => absurd h (by change _ ∉ ["converged", "jones_bic"]; decide)
  sr3 := fun s h => by cases h
  scad := by
    intro t ht
    change LmeReg.StepOk (1e-4) t reg
    cases reg with
    | scad rho sigma lam =>
      obtain ⟨n, rfl⟩ : ∃ n : ℕ, t = (gridPlain (.scad rho sigma lam)).step * (1 / 2) ^ n := ht
      have hstep : (gridPlain (.scad rho sigma lam)).step = 1 / (lam + 1) := rfl
      have h1 := hs rho sigma lam rfl
      have hl : 0 ≤ lam := hr.2.2
      have hpow : ((1 : ℝ) / 2) ^ n ≤ 1 := pow_le_one₀ (by norm_num) (by norm_num)
      have hpow0 : 0 < ((1 : ℝ) / 2) ^ n := by positivity
      rw [hstep]
      change _ / (1 + _ * _) * lam ≠ rho - 1
      obtain ⟨t, ht⟩ : ∃ t, t = 1 / (lam + 1) * (1 / 2 : ℝ) ^ n := ⟨_, rfl⟩
      rw [← ht]
      have ht0 : 0 < t := by rw [ht]; positivity
      have ht1 : t * lam ≤ 1 := by
        rw [ht]
        have h2 : 1 / (lam + 1) * (1 / 2 : ℝ) ^ n ≤ 1 / (lam + 1) * 1 := by gcongr
        have h3 : 1 / (lam + 1) * lam ≤ 1 := by
          rw [one_div_mul_eq_div, div_le_one (by linarith)]
          linarith
        nlinarith
      have h4 : t / (1 + t * 1e-4) * lam ≤ t * lam := by
        apply mul_le_mul_of_nonneg_right _ hl
        exact div_le_self ht0.le (by nlinarith)
      linarith
    | _ => trivial

theorem gridSr3_robust {maxIter : ℤ} {reg : LmeReg} (hr : reg.Admissible)
    (hs : ∀ rho sigma lam, reg = .scad rho sigma lam → rho = 3.7 ∧ lam ≠ 10800027 / 100000) : (gridSr3 maxIter reg).Robust where
  adm := ⟨hr, by norm_num [gridSr3], (fun s h => by cases h), (fun s h => by cases h; norm_num)⟩
  init := by simp [gridSr3]
  kind := rfl
  keys := by change ["converged", "jones_bic"].Nodup; decide
  vaida := by change _ ∉ ["converged", "jones_bic"]; decide
  flip := fun h => absurd h (by change _ ∉ ["converged", "jones_bic"]; decide)
  sr3 := fun s h => by cases h; exact ⟨by norm_num, rfl⟩
  scad := by
    intro t ht
    change LmeReg.StepOk (1e-4) t reg
    cases reg with
    | scad rho sigma lam =>
      have ht' : t = 1 / 40 := by
        have : t = (gridSr3 maxIter (.scad rho sigma lam)).step := ht
        rw [this]
        unfold LmeModelCfg.step gridSr3
        norm_num
      obtain ⟨rfl, hl⟩ := hs rho sigma lam rfl
      change t / (1 + t * _) * lam ≠ 3.7 - 1
      intro hcon
      apply hl
      rw [ht'] at hcon
      norm_num at hcon
      linarith
    | _ => trivial

/-- Every model of the grid is one whose fit cannot fail; the grid is empty only for L0 models. -/
theorem gridModels_robust {sort : NpSort} {name : String} {nf nr : ℕ} {Ms : List LmeModelCfg}
    (h : gridModels sort name nf nr = .ok Ms) :
    ∀ M ∈ Ms, M.Robust ∧ M.prior = none ∧ M.loggerKeys = ["converged", "jones_bic"] := by
  have hp : ∀ lam ∈ lamGrid, ∀ {reg : ℝ → LmeReg}, (reg lam).Admissible →
      (∀ rho sigma l, reg lam = .scad rho sigma l → 1 < rho - 1) →
      (gridPlain (reg lam)).Robust ∧ (gridPlain (reg lam)).prior = none ∧ (gridPlain (reg lam)).loggerKeys = ["converged", "jones_bic"] :=
    fun lam _ reg h1 h2 => ⟨gridPlain_robust h1 h2, rfl, rfl⟩
  have hs : ∀ lam ∈ lamGrid, ∀ {reg : ℝ → LmeReg}, (reg lam).Admissible →
      (∀ rho sigma l, reg lam = .scad rho sigma l → rho = 3.7 ∧ l ≠ 10800027 / 100000) →
      (gridSr3 10000 (reg lam)).Robust ∧ (gridSr3 10000 (reg lam)).prior = none ∧
        (gridSr3 10000 (reg lam)).loggerKeys = ["converged", "jones_bic"] :=
    fun lam _ reg h1 h2 => ⟨gridSr3_robust h1 h2, rfl, rfl⟩
  unfold gridModels at h
  intro M hM
  split_ifs at h
  · cases h
    obtain ⟨b, -, rfl⟩ := List.mem_map.1 hM
    exact ⟨gridPlain_robust trivial (by simp), rfl, rfl⟩
  · cases h
    obtain ⟨b, -, rfl⟩ := List.mem_map.1 hM
    exact ⟨gridSr3_robust trivial (by simp), rfl, rfl⟩
  · cases h
    obtain ⟨lam, hl, rfl⟩ := List.mem_map.1 hM
    exact hp lam hl (reg := fun lam => .l1 lam) (lamGrid_pos hl).le (by simp)
  · cases h
    obtain ⟨lam, hl, rfl⟩ := List.mem_map.1 hM
    exact hs lam hl (reg := fun lam => .l1 lam) (lamGrid_pos hl).le (by simp)
  · cases h
    obtain ⟨lam, hl, rfl⟩ := List.mem_map.1 hM
    exact hp lam hl (reg := fun lam => .cad 0.3 lam) (lamGrid_pos hl).le (by simp)
  · cases h
    obtain ⟨lam, hl, rfl⟩ := List.mem_map.1 hM
    exact hs lam hl (reg := fun lam => .cad 0.3 lam) (lamGrid_pos hl).le (by simp)
  · cases h
    obtain ⟨lam, hl, rfl⟩ := List.mem_map.1 hM
    refine hp lam hl (reg := fun lam => .scad 3.7 0.5 lam) ⟨by norm_num, by norm_num, (lamGrid_pos hl).le⟩ ?_
    intro rho sigma l he
    cases he
    norm_num
  · cases h
    obtain ⟨lam, hl, rfl⟩ := List.mem_map.1 hM
    refine hs lam hl (reg := fun lam => .scad 3.7 0.5 lam) ⟨by norm_num, by norm_num, (lamGrid_pos hl).le⟩ ?_
    intro rho sigma l he
    cases he
    exact ⟨rfl, lamGrid_ne hl⟩

theorem gridModels_ok (sort : NpSort) {name : String} (h : name ∈ selectNames) (nf nr : ℕ) :
    ∃ Ms, gridModels sort name nf nr = .ok Ms ∧ ((name ≠ "L0" ∧ name ≠ "L0_SR3") ∨ (2 ≤ nf ∧ 2 ≤ nr) → Ms ≠ []) := by
  have hl : lamGrid ≠ [] := by simp [lamGrid]
  have hb : 2 ≤ nf ∧ 2 ≤ nr → l0Grid nf nr ≠ [] := by
    rintro ⟨h1, h2⟩ h0
    have : ((1 : ℤ), (1 : ℤ)) ∈ l0Grid nf nr := (mem_l0Grid nf nr 1 1).2 ⟨le_rfl, le_rfl, by omega, by omega⟩
    rw [h0] at this
    cases this
  simp only [selectNames, List.mem_cons, List.not_mem_nil, or_false] at h
  rcases h with rfl | rfl | rfl | rfl | rfl | rfl | rfl | rfl
  · exact ⟨_, rfl, fun h => by simpa using hb (h.resolve_left (by simp))⟩
  · exact ⟨_, rfl, fun _ => by simpa using hl⟩
  · exact ⟨_, rfl, fun _ => by simpa using hl⟩
  · exact ⟨_, rfl, fun _ => by simpa using hl⟩
  · exact ⟨_, rfl, fun h => by simpa using hb (h.resolve_left (by simp))⟩
  · exact ⟨_, rfl, fun _ => by simpa using hl⟩
  · exact ⟨_, rfl, fun _ => by simpa using hl⟩
  · exact ⟨_, rfl, fun _ => by simpa using hl⟩

/-! ## Fits on a dataframe -/

theorem labels_variance {header fe re : List String} {groups variance : String} (v : Fin (groups :: ((dataframeColumns header fe re).map Prod.fst ++ [variance])).length)
    (hv : (GROUP :: ((dataframeColumns header fe re).map Prod.snd ++ [VARIANCE]))[(v : ℕ)]? = some "variance") :
    (groups :: ((dataframeColumns header fe re).map Prod.fst ++ [variance]))[v] = variance := by
  obtain ⟨i, hi⟩ := v
  simp only at hv
  simp only [Fin.getElem_fin]
  cases i with
  | zero => simp only [List.getElem?_cons_zero, Option.some.injEq] at hv; exact absurd hv (by decide)
  | succ i =>
    simp only [List.getElem?_cons_succ] at hv
    simp only [List.getElem_cons_succ]
    by_cases h : i < (dataframeColumns header fe re).length
    · rw [List.getElem?_append_left (by simpa using h)] at hv
      rcases dataframeColumns_label (List.mem_of_getElem? hv) with h | h | h <;> exact absurd h (by decide)
    · rw [List.getElem_append_right (by simpa using h)]
      simp

/-- Every robust model without a prior can be fitted to an accepted dataframe with positive variances, provided the
weights have the right sizes. -/
theorem fitAndScore_total {header : List String} {col : String → Vec ℝ N} {fe re : List String} {groups variance target : String}
    {nf nr : List String} {P : LmeProblem ℝ} (hP : lmeFromDataframe header col fe re groups variance target nf nr = .ok P)
    (hvar : ∀ r, 0 < col variance r) (hf : nf = [] ∨ "intercept" ∈ fe) (hr : nr = [] ∨ "intercept" ∈ re)
    {M : LmeModelCfg} (hM : M.Robust) (hprior : M.prior = none) (hkeys : "jones_bic" ∈ M.loggerKeys) :
    ∃ (s : ℝ) (c : LmeCoef), fitAndScore P M = .ok ((s : WithTop ℝ), some c) := by
  obtain ⟨hnf, hnr⟩ := dataframe_counts hP
  obtain ⟨hwf, hwr⟩ := dataframe_weights hP
  have hx := dataframe_xy hP
  unfold lmeFromSelected at hx
  obtain ⟨g, v, feW, reW, -, -, hlen, -, -, -, -, -, hfe, hre, hPe⟩ := lmeFromXY_ok _ _ _ _ _ _ _ _ P hx
  have hF := numFixed_eq P _ _ (by rw [hPe])
  have hR := numRandom_eq P _ _ (by rw [hPe])
  have hcl : P.columnLabels = GROUP :: ((dataframeColumns header fe re).map Prod.snd ++ [VARIANCE]) := by rw [hPe]
  rw [hcl, ← fixedCount_eq] at hF
  rw [hcl, ← randomCount_eq] at hR
  obtain ⟨L, c, h1, -, h3⟩ := C83_fit_problem_returns M hM none _ _ _ _ _ _ _ _ P hx (fun v hv r => by
      rw [Matrix.of_apply, labels_variance v hv]
      exact hvar r) ⟨.nonInformative, by rw [hprior]; rfl⟩ {} (by simp) (by simp) (by
      intro w hw
      change P.feWeights = w at hw
      refine ⟨?_, fun v hv => ?_⟩
      · rw [← hw, ← hF, hwf]
        split_ifs with h0
        · simp
        · rw [hnf, if_pos (hf.resolve_left h0)]; simp
        · rw [hnf, if_pos (hf.resolve_left h0)]; simp
      · rw [← hw, hPe] at hv
        exact regWeightsOf_01 hfe v hv) (by
      intro w hw
      change P.reWeights = w at hw
      refine ⟨?_, fun v hv => ?_⟩
      · rw [← hw, ← hR, hwr]
        split_ifs with h0
        · simp
        · rw [hnr, if_pos (hr.resolve_left h0)]; simp
        · rw [hnr, if_pos (hr.resolve_left h0)]; simp
      · rw [← hw, hPe] at hv
        exact regWeightsOf_01 hre v hv)
  obtain ⟨r, hr⟩ : ∃ r : ℝ, L.get "jones_bic" = .ok (.atom (.num (r : WithTop ℝ))) := by
    unfold lmeFitProblem at h1
    split at h1
    · cases h1
    · rename_i rr hrr
      simp only [Prod.mk.injEq] at h1
      obtain ⟨D, hD, h2⟩ := ebind_ok.1 h1.1
      obtain ⟨Pr, hPr, h2⟩ := ebind_ok.1 h2
      obtain ⟨r, -, h5⟩ := lmeLogCriteria_bic h2 (h3 _ hkeys)
      exact ⟨r, h5⟩
  refine ⟨r, c, ?_⟩
  unfold fitAndScore
  rw [h1]
  simp only
  rw [hr]
  rfl

theorem searchLoop_total {M C : Type} {fit : M → Except PyErr (WithTop ℝ × Option C)} (ms : List M)
    (h : ∀ m ∈ ms, ∃ (s : ℝ) (c : C), fit m = .ok ((s : WithTop ℝ), some c)) :
    ∃ rs : List (ℝ × C), ms.mapM fit = .ok (rs.map fun r => ((r.1 : WithTop ℝ), some r.2)) ∧ rs.length = ms.length := by
  induction ms with
  | nil => exact ⟨[], rfl, rfl⟩
  | cons m ms ih =>
    obtain ⟨s, c, h1⟩ := h m (by simp)
    obtain ⟨rs, h2, h3⟩ := ih fun m hm => h m (by simp [hm])
    refine ⟨(s, c) :: rs, ?_, by simp [h3]⟩
    rw [List.mapM_cons, h1, h2]
    rfl

/-! ## The dictionaries -/

/-- The entry of a key of an optional dictionary, empty if there is none. -/
def effectsOf (d : Option CovDict) (k : CovKey) : List String := (d.bind fun d => d.entry k).getD []

/-- What the loop over the keys does, if it does not raise. -/
theorem mergeCovs_ok {S : SetOrder} {covs pre c p : CovDict} (h : mergeCovs S covs pre = (.ok (), c, p)) :
    c.fixed = some (S.toList (covs.fixed.getD [] ++ pre.fixed.getD [])) ∧
      c.random = some (S.toList (covs.random.getD [] ++ pre.random.getD [])) ∧
      p.fixed.getD [] = pre.fixed.getD [] ∧ p.random.getD [] = pre.random.getD [] := by
  obtain ⟨f, r, d⟩ := covs
  obtain ⟨f', r', d'⟩ := pre
  cases f <;> cases r <;> cases d <;> cases f' <;> cases r' <;> cases d' <;>
    simp [mergeCovs, mergeKey, CovDict.subscript, CovDict.entry, CovDict.set] at h ⊢ <;>
    obtain ⟨rfl, rfl⟩ := h <;> simp

theorem mergeCovs_succeeds (S : SetOrder) (covs pre : CovDict)
    (hc : covs.isDefault = true ∨ (covs.fixed.isSome ∧ covs.random.isSome))
    (hp : pre.isDefault = true ∨ (pre.fixed.isSome ∧ pre.random.isSome)) :
    ∃ c p, mergeCovs S covs pre = (.ok (), c, p) := by
  obtain ⟨f, r, d⟩ := covs
  obtain ⟨f', r', d'⟩ := pre
  cases f <;> cases r <;> cases d <;> cases f' <;> cases r' <;> cases d' <;>
    simp [mergeCovs, mergeKey, CovDict.subscript, CovDict.entry, CovDict.set] at hc hp ⊢

/-- Only which effects are listed matters to `from_dataframe`. -/
theorem dataframe_congr {header : List String} {col : String → Vec ℝ N} {fe re fe' re' : List String}
    {groups variance target : String} {nf nr : List String} (h1 : ∀ e, e ∈ fe ↔ e ∈ fe') (h2 : ∀ e, e ∈ re ↔ e ∈ re') :
    lmeFromDataframe header col fe re groups variance target nf nr =
      lmeFromDataframe header col fe' re' groups variance target nf nr := by
  have hsel : dataframeColumns header fe re = dataframeColumns header fe' re' := by
    unfold dataframeColumns
    simp only [h1, h2]
  unfold lmeFromDataframe
  have e1 : ((fe ++ re ++ [groups, variance, target] ++ nf ++ nr).all fun x => decide (x ∈ header)) =
      ((fe' ++ re' ++ [groups, variance, target] ++ nf ++ nr).all fun x => decide (x ∈ header)) := by
    rw [Bool.eq_iff_iff]
    simp only [List.all_eq_true, List.mem_append, h1, h2]
  have e2 : (nf.all fun x => decide (x ∈ fe)) = nf.all fun x => decide (x ∈ fe') := by simp only [h1]
  have e3 : (nr.all fun x => decide (x ∈ re)) = nr.all fun x => decide (x ∈ re') := by simp only [h2]
  have e4 : decide (INTERCEPT ∈ fe) = decide (INTERCEPT ∈ fe') := by simp only [h1]
  have e5 : decide (INTERCEPT ∈ re) = decide (INTERCEPT ∈ re') := by simp only [h2]
  rw [e1, e2, e3, e4, e5, hsel]

/-- A dictionary both of whose entries can be looked up. -/
def CovDict.Complete (d : CovDict) : Prop := d.isDefault = true ∨ (d.fixed.isSome ∧ d.random.isSome)

theorem mergeCovs_fails (S : SetOrder) (covs pre : CovDict) (h : ¬ (covs.Complete ∧ pre.Complete)) :
    ∃ c p, mergeCovs S covs pre = (.error .keyError, c, p) := by
  obtain ⟨f, r, d⟩ := covs
  obtain ⟨f', r', d'⟩ := pre
  unfold CovDict.Complete at h
  cases f <;> cases r <;> cases d <;> cases f' <;> cases r' <;> cases d' <;>
    simp [mergeCovs, mergeKey, CovDict.subscript, CovDict.entry, CovDict.set] at h ⊢

/-- The result of the selection, in terms of the effects that were asked for. -/
theorem selectCovariates_eq (S : SetOrder) (sort : NpSort) (header : List String) (col : String → Vec ℝ N)
    (target variance group : String) (covs pre : Option CovDict) (name : String) :
    (¬ ((∀ d, covs = some d → d.Complete) ∧ ∀ d, pre = some d → d.Complete) →
      (selectCovariates S sort header col target variance group covs pre name).1 = .error .keyError) ∧
    ((∀ d, covs = some d → d.Complete) → (∀ d, pre = some d → d.Complete) →
      (selectCovariates S sort header col target variance group covs pre name).1 =
      if ∀ e ∈ [target, variance, group] ++ (effectsOf covs .fixed ++ effectsOf pre .fixed) ++
          (effectsOf covs .random ++ effectsOf pre .random), e ∈ header then
        lmeFromDataframe header col (effectsOf covs .fixed ++ effectsOf pre .fixed)
          (effectsOf covs .random ++ effectsOf pre .random) group variance target (effectsOf pre .fixed)
          (effectsOf pre .random) >>= selectOn sort name
      else .error .valueError) := by
  have hcomp : ∀ d : Option CovDict, (d.getD .fresh).Complete ↔ ∀ d', d = some d' → d'.Complete := by
    intro d
    cases d with
    | none => simp [CovDict.Complete, CovDict.fresh]
    | some d => simp
  have hent : ∀ d : Option CovDict, (d.getD .fresh).fixed.getD [] = effectsOf d .fixed ∧
      (d.getD .fresh).random.getD [] = effectsOf d .random := by
    intro d
    cases d <;> exact ⟨rfl, rfl⟩
  unfold selectCovariates
  constructor
  · intro h
    rw [← hcomp, ← hcomp] at h
    obtain ⟨c, p, h⟩ := mergeCovs_fails S _ _ h
    rw [h]
  · intro h1 h2
    rw [← hcomp] at h1 h2
    obtain ⟨c, p, h⟩ := mergeCovs_succeeds S _ _ h1 h2
    obtain ⟨e1, e2, e3, e4⟩ := mergeCovs_ok h
    rw [h]
    simp only
    rw [e1, e2, e3, e4]
    simp only [(hent covs).1, (hent covs).2, (hent pre).1, (hent pre).2, Option.getD_some]
    have hall : (([target, variance, group] ++ S.toList (effectsOf covs .fixed ++ effectsOf pre .fixed) ++
        S.toList (effectsOf covs .random ++ effectsOf pre .random)).all fun x => decide (x ∈ header)) = true ↔
        ∀ e ∈ [target, variance, group] ++ (effectsOf covs .fixed ++ effectsOf pre .fixed) ++
          (effectsOf covs .random ++ effectsOf pre .random), e ∈ header := by
      simp only [List.all_eq_true, List.mem_append, S.mem, decide_eq_true_eq]
    by_cases hh : ∀ e ∈ [target, variance, group] ++ (effectsOf covs .fixed ++ effectsOf pre .fixed) ++
          (effectsOf covs .random ++ effectsOf pre .random), e ∈ header
    · rw [if_pos hh, if_neg (not_not.2 (hall.2 hh)), dataframe_congr (S.mem _) (S.mem _)]
    · rw [if_neg hh, if_pos fun h => hh (hall.1 h)]
      rfl

theorem selectCovariates_ok {S : SetOrder} {sort : NpSort} {header : List String} {col : String → Vec ℝ N}
    {target variance group : String} {covs pre : Option CovDict} {name : String} {r : List String × List String}
    (h : (selectCovariates S sort header col target variance group covs pre name).1 = .ok r) :
    ∃ P, lmeFromDataframe header col (effectsOf covs .fixed ++ effectsOf pre .fixed)
        (effectsOf covs .random ++ effectsOf pre .random) group variance target (effectsOf pre .fixed)
        (effectsOf pre .random) = .ok P ∧ selectOn sort name P = .ok r := by
  obtain ⟨h1, h2⟩ := selectCovariates_eq S sort header col target variance group covs pre name
  by_cases hc : (∀ d, covs = some d → d.Complete) ∧ ∀ d, pre = some d → d.Complete
  · rw [h2 hc.1 hc.2] at h
    split_ifs at h
    exact ebind_ok.1 h
  · rw [h1 hc] at h
    cases h

theorem selectOn_ok {sort : NpSort} {name : String} {P : LmeProblem ℝ} {fe re : List String}
    (h : selectOn sort name P = .ok (fe, re)) :
    ∃ (Ms : List LmeModelCfg) (fits : List (WithTop ℝ × LmeCoef)) (i : ℕ) (s : WithTop ℝ) (c : LmeCoef),
      gridModels sort name P.numFixed P.numRandom = .ok Ms ∧
      List.Forall₂ (fun M f => ∃ L, lmeFitProblem M none P {} = (.ok L, some f.2) ∧ L.get "jones_bic" = .ok (.atom (.num f.1))) Ms fits ∧
      fits[i]? = some (s, c) ∧ (∀ f ∈ fits, s ≤ f.1) ∧ (∀ (j : ℕ) (f : WithTop ℝ × LmeCoef), j < i → fits[j]? = some f → s < f.1) ∧
      namesAbove P.feColumns c.beta = .ok fe ∧ namesAbove P.reColumns c.gamma = .ok re := by
  unfold selectOn at h
  obtain ⟨Ms, hMs, h⟩ := ebind_ok.1 h
  obtain ⟨best, hbest, h⟩ := ebind_ok.1 h
  obtain ⟨rs, hrs, hfold⟩ := (searchLoop_ok _ _ _).1 hbest
  have hall := mapM_ok_inv _ _ _ hrs
  split at h
  · cases h
  · rename_i c hc
    obtain ⟨fe', hfe, h⟩ := ebind_ok.1 h
    obtain ⟨re', hre, h⟩ := ebind_ok.1 h
    cases h
    rcases foldl_best rs (⊤, none) with ⟨h1, -⟩ | ⟨i, r, h1, h2, h3, h4, h5⟩
    · rw [h1] at hfold
      rw [← hfold] at hc
      cases hc
    · rw [hfold] at h1
      have hrc : r = (best.1, some c) := by rw [← h1, ← hc]
      -- the fitted coefficients
      have hsome : ∀ x ∈ rs, ∃ c, x.2 = some c := by
        intro x hx
        obtain ⟨j, hj, rfl⟩ := List.getElem_of_mem hx
        obtain ⟨L, c, hcc, -⟩ := fitAndScore_ok (hall.get (i := j) (by rw [hall.length_eq]; exact hj) hj)
        exact ⟨c, hcc⟩
      have hget : ∀ x : WithTop ℝ × LmeState, (∃ c, x.2 = some c) → (x.1, some (x.2.getD ⟨[], [], [], [], []⟩)) = x := by
        rintro ⟨a, b⟩ ⟨c, hc⟩
        simp only at hc
        rw [hc]
        rfl
      refine ⟨Ms, rs.map fun x => (x.1, x.2.getD ⟨[], [], [], [], []⟩), i, best.1, c, hMs, ?_, ?_, ?_, ?_, hfe, hre⟩
      · rw [List.forall₂_map_right_iff]
        refine hall.imp ?_
        intro M x hx
        obtain ⟨L, c, h1, h2, h3⟩ := fitAndScore_ok hx
        refine ⟨L, ?_, h3⟩
        rw [h1]
        exact h2
      · rw [List.getElem?_map, h2, hrc]
        rfl
      · intro f hf
        obtain ⟨x, hx, rfl⟩ := List.mem_map.1 hf
        have := h4 x hx
        rw [hrc] at this
        exact this
      · intro j f hj hf
        rw [List.getElem?_map] at hf
        cases hx : rs[j]? with
        | none => rw [hx] at hf; cases hf
        | some x =>
          rw [hx] at hf
          cases hf
          have := h5 j x hj hx
          rw [hrc] at this
          exact this

theorem zip_fst_sublist {α β : Type} (a : List α) (b : List β) : ((a.zip b).map Prod.fst).Sublist a := by
  induction a generalizing b with
  | nil => simp
  | cons x a ih =>
    cases b with
    | nil => simp
    | cons y b =>
      simp only [List.zip_cons_cons, List.map_cons]
      exact (ih b).cons_cons x

theorem namesAbove_ok {names : List String} {coefs : List ℝ} {l : List String} (h : namesAbove (some names) coefs = .ok l) :
    l.Sublist names ∧ (names.Nodup → ∀ (k : ℕ) (n : String) (b : ℝ), names[k]? = some n → coefs[k]? = some b →
      (n ∈ l ↔ 1e-2 ≤ |b|)) := by
  classical
  unfold namesAbove at h
  simp only at h
  cases h
  constructor
  · refine (List.Sublist.map _ List.filter_sublist).trans ?_
    exact zip_fst_sublist names coefs
  · intro hnd k n b hn hb
    simp only [List.mem_map, List.mem_filter, decide_eq_true_eq, Prod.exists, exists_and_right, exists_eq_right]
    constructor
    · rintro ⟨b', hm, hb'⟩
      obtain ⟨j, hj, hj'⟩ := List.getElem_of_mem hm
      rw [List.getElem_zip, Prod.mk.injEq] at hj'
      have hjl : j < names.length := by simp at hj; omega
      have hk := List.getElem?_eq_some_iff.1 hn
      have hjk : j = k := (List.Nodup.getElem_inj_iff hnd (hi := hjl) (hj := hk.1)).1 (hj'.1.trans hk.2.symm)
      have hjc : j < coefs.length := by simp at hj; omega
      have : coefs[j]? = some b' := by rw [List.getElem?_eq_getElem hjc, hj'.2]
      rw [hjk, hb] at this
      rw [Option.some.inj this]
      exact hb'
    · intro hb'
      have hk := List.getElem?_eq_some_iff.1 hn
      have hc := List.getElem?_eq_some_iff.1 hb
      refine ⟨b, List.mem_iff_getElem.2 ⟨k, by simp; exact ⟨hk.1, hc.1⟩, ?_⟩, hb'⟩
      rw [List.getElem_zip, hk.2, hc.2]

end Verif
