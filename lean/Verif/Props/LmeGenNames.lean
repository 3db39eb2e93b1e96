import Verif.Props.LmeGenLaw
import Verif.Props.LmeGenTable
import Verif.Props.LmeFitTotal
import Verif.Props.Exact

/-!
# C172: the names of generated columns, and Gaussian priors on them
-/

namespace Verif

variable {K : Type*} [Field K]

theorem xName_inj {i j : ℕ} (h : "x" ++ toString i = "x" ++ toString j) : i = j := by
  have h1 := congrArg String.toList h
  rw [String.toList_append, String.toList_append] at h1
  have h2 := List.append_cancel_left h1
  rw [Nat.toString_eq_repr, Nat.toString_eq_repr, Nat.toList_repr, Nat.toList_repr] at h2
  have h3 := congrArg (fun l => Nat.ofDigitChars 10 l 0) h2
  simpa using h3

theorem xName_ne_intercept (i : ℕ) : "x" ++ toString i ≠ "intercept" := by
  intro h
  have h1 := congrArg String.toList h
  rw [String.toList_append] at h1
  have h2 := congrArg List.head? h1
  revert h2
  rw [show "x".toList = ['x'] from rfl, show "intercept".toList = 'i' :: "ntercept".toList from rfl]
  simp

theorem genNames_length (labels : List String) (test : String → Bool) (b : Bool) : (genNames labels test b).length = genNum labels test b := by
  unfold genNames genNum
  rw [List.length_append, List.length_map, add_comm]
  cases b <;> rfl

theorem genNames_nodup (labels : List String) (test : String → Bool) (b : Bool) : (genNames labels test b).Nodup := by
  unfold genNames
  have h1 : (((List.range labels.length).filter fun i => test (labels.getD i "")).map fun i => "x" ++ toString i).Nodup :=
    (List.nodup_range.filter _).map fun i j h => xName_inj h
  cases b with
  | false => exact h1
  | true =>
    refine List.nodup_cons.2 ⟨fun h => ?_, h1⟩
    obtain ⟨i, -, hi⟩ := List.mem_map.1 h
    exact xName_ne_intercept i hi

/-- Which names there are. -/
theorem mem_genNames (labels : List String) (test : String → Bool) (b : Bool) (name : String) :
    name ∈ genNames labels test b ↔ (b = true ∧ name = "intercept") ∨ ∃ (i : ℕ) (l : String), labels[i]? = some l ∧ test l = true ∧ name = "x" ++ toString i := by
  unfold genNames
  rw [List.mem_append]
  refine or_congr ?_ ?_
  · cases b <;> simp
  · rw [List.mem_map]
    constructor
    · rintro ⟨i, hi, rfl⟩
      obtain ⟨h1, h2⟩ := List.mem_filter.1 hi
      have h3 := List.mem_range.1 h1
      rw [List.getD_eq_getElem?_getD, List.getElem?_eq_getElem h3, Option.getD_some] at h2
      exact ⟨i, _, List.getElem?_eq_getElem h3, h2, rfl⟩
    · rintro ⟨i, l, h1, h2, rfl⟩
      obtain ⟨h3, rfl⟩ := List.getElem?_eq_some_iff.1 h1
      refine ⟨i, List.mem_filter.2 ⟨List.mem_range.2 h3, ?_⟩, rfl⟩
      rw [List.getD_eq_getElem?_getD, h1]
      exact h2

/-- The entry of a generated design under a name. -/
theorem genRow_name (labels : List String) (test : String → Bool) (b : Bool) (row : List K) (hrow : row.length = labels.length) (hn : genNum labels test b ≠ 0) (j : ℕ) (name : String)
    (hj : (genNames labels test b)[j]? = some name) :
    (j = 0 ∧ b = true ∧ name = "intercept" ∧ (genRow labels test b row)[j]? = some 1) ∨
      ∃ (i : ℕ) (l : String) (v : K), labels[i]? = some l ∧ test l = true ∧ name = "x" ++ toString i ∧ row[i]? = some v ∧ (genRow labels test b row)[j]? = some v := by
  have hg : genRow labels test b row = (if b then [1] else []) ++ ((List.range labels.length).filter fun i => test (labels.getD i "")).map fun i => row.getD i 0 := by
    unfold genRow
    unfold genNum at hn
    simp only
    generalize (List.range labels.length).filter (fun i => test (labels.getD i "")) = idx at hn ⊢
    cases idx with
    | nil => cases b <;> simp_all
    | cons i idx => rw [if_neg (by simp)]
  rw [hg]
  unfold genNames at hj
  have key : ∀ k : ℕ, (((List.range labels.length).filter fun i => test (labels.getD i "")).map fun i => "x" ++ toString i)[k]? = some name →
      ∃ (i : ℕ) (l : String) (v : K), labels[i]? = some l ∧ test l = true ∧ name = "x" ++ toString i ∧ row[i]? = some v ∧
        (((List.range labels.length).filter fun i => test (labels.getD i "")).map fun i => row.getD i 0)[k]? = some v := by
    intro k hk
    rw [List.getElem?_map, Option.map_eq_some_iff] at hk
    obtain ⟨i, hi, rfl⟩ := hk
    obtain ⟨h1, h2⟩ := List.mem_filter.1 (List.mem_of_getElem? hi)
    have h3 := List.mem_range.1 h1
    rw [List.getD_eq_getElem?_getD, List.getElem?_eq_getElem h3, Option.getD_some] at h2
    have h4 : i < row.length := by rw [hrow]; exact h3
    refine ⟨i, labels[i], row[i], List.getElem?_eq_getElem h3, h2, rfl, List.getElem?_eq_getElem h4, ?_⟩
    rw [List.getElem?_map, hi, Option.map_some, List.getD_eq_getElem?_getD, List.getElem?_eq_getElem h4, Option.getD_some]
  cases b with
  | false => exact .inr (key j hj)
  | true =>
    cases j with
    | zero =>
      left
      simp only [if_true, List.cons_append, List.getElem?_cons_zero, Option.some.injEq] at hj
      exact ⟨rfl, rfl, hj.symm, rfl⟩
    | succ j => exact .inr (key j hj)

/-- **C172**, names: a generated problem names all its effects. There is one name per coefficient, no name occurs twice, and the column of the design that is multiplied by coefficient `j` is the one that
name `j` refers to: ones for `"intercept"`, the generated feature `i` (which has the label "fixed" or "fixed+random"; "random" or "fixed+random") for `"x{i}"`. -/
theorem C172_names (c : GenCfg ℝ) (draws : List (GenDraw ℝ)) (hrows : ∀ d ∈ draws, ∀ row ∈ d.rows, row.length = c.labels.length)
    (P : LmeProblem ℝ) (cs : List (ℕ × List ℝ)) (h : lmeGenerate c draws = .ok (P, cs)) :
    ∃ fe re, P.feColumns = some fe ∧ P.reColumns = some re ∧ fe.length = c.beta.length ∧ fe.length = P.numFixed ∧ re.length = P.numRandom ∧ fe.Nodup ∧ re.Nodup ∧
      (∀ (k : ℕ) d, draws[k]? = some d → ∃ X, P.fixedFeatures[k]? = some X ∧ X.length = d.rows.length ∧ ∀ (r : ℕ) row, d.rows[r]? = some row → ∃ xrow, X[r]? = some xrow ∧ xrow.length = fe.length ∧
        ∀ (j : ℕ) name, fe[j]? = some name → (name = "intercept" ∧ c.ffi = true ∧ xrow[j]? = some 1) ∨
          ∃ (i : ℕ) (l : String) (v : ℝ), c.labels[i]? = some l ∧ (l = "fixed" ∨ l = "fixed+random") ∧ name = "x" ++ toString i ∧ row[i]? = some v ∧ xrow[j]? = some v) ∧
      (re ≠ [] → ∀ (k : ℕ) d, draws[k]? = some d → ∃ Z, P.randomFeatures[k]? = some (.rows Z) ∧ Z.length = d.rows.length ∧
        ∀ (r : ℕ) row, d.rows[r]? = some row → ∃ zrow, Z[r]? = some zrow ∧ zrow.length = re.length ∧
        ∀ (j : ℕ) name, re[j]? = some name → (name = "intercept" ∧ c.fri = true ∧ zrow[j]? = some 1) ∨
          ∃ (i : ℕ) (l : String) (v : ℝ), c.labels[i]? = some l ∧ (l = "random" ∨ l = "fixed+random") ∧ name = "x" ++ toString i ∧ row[i]? = some v ∧ zrow[j]? = some v) := by
  obtain ⟨hF, hb, gs, hgs, -, hP⟩ := (lmeGenerate_ok c _ _ _).1 h
  obtain ⟨hn1, hn2⟩ := gen_numFixed (c := c) (P := P) (by rw [hP]) (by rw [hP])
  obtain ⟨d1, d2, -, -⟩ := genGroups_data c _ _ _ _ _ hgs
  have e3 : P.fixedFeatures = draws.map fun d => d.rows.map (genRow c.labels isFixed c.ffi) := by rw [hP]; exact d1
  have side : ∀ (test : String → Bool) (b : Bool), genNum c.labels test b ≠ 0 → ∀ d ∈ draws, ∀ (r : ℕ) row, d.rows[r]? = some row →
      ∃ xrow, (d.rows.map (genRow c.labels test b))[r]? = some xrow ∧ xrow.length = (genNames c.labels test b).length ∧
        ∀ (j : ℕ) name, (genNames c.labels test b)[j]? = some name → (name = "intercept" ∧ b = true ∧ xrow[j]? = some 1) ∨
          ∃ (i : ℕ) (l : String) (v : ℝ), c.labels[i]? = some l ∧ test l = true ∧ name = "x" ++ toString i ∧ row[i]? = some v ∧ xrow[j]? = some v := by
    intro test b hn d hd r row hr
    refine ⟨genRow c.labels test b row, by rw [List.getElem?_map, hr]; rfl, by rw [genNames_length, genRow_length _ _ _ _ hn], fun j name hj => ?_⟩
    rcases genRow_name c.labels test b row (hrows d hd row (List.mem_of_getElem? hr)) hn j name hj with ⟨-, h2, h3, h4⟩ | h5
    · exact .inl ⟨h3, h2, h4⟩
    · exact .inr h5
  have iF : ∀ l, isFixed l = true → l = "fixed" ∨ l = "fixed+random" := fun l hl => by simpa [isFixed, FIXED, FIXED_RANDOM] using hl
  have iR : ∀ l, isRandom l = true → l = "random" ∨ l = "fixed+random" := fun l hl => by simpa [isRandom, RANDOM, FIXED_RANDOM] using hl
  refine ⟨genNames c.labels isFixed c.ffi, genNames c.labels isRandom c.fri, by rw [hP], by rw [hP], by rw [genNames_length, hb], by rw [genNames_length, hn1], by rw [genNames_length, hn2],
    genNames_nodup _ _ _, genNames_nodup _ _ _, fun k d hk => ?_, fun hre k d hk => ?_⟩
  · refine ⟨_, by rw [e3, List.getElem?_map, hk]; rfl, by simp, fun r row hr => ?_⟩
    obtain ⟨xrow, h1, h2, h3⟩ := side isFixed c.ffi hF d (List.mem_of_getElem? hk) r row hr
    refine ⟨xrow, h1, h2, fun j name hj => (h3 j name hj).imp_right ?_⟩
    rintro ⟨i, l, v, a1, a2, a3, a4, a5⟩
    exact ⟨i, l, v, a1, iF l a2, a3, a4, a5⟩
  · have hR : genNum c.labels isRandom c.fri ≠ 0 := fun h0 => hre (List.length_eq_zero_iff.1 (by rw [genNames_length, h0]))
    have e4 : P.randomFeatures = (draws.map fun d => d.rows.map (genRow c.labels isRandom c.fri)).map .rows := by rw [hP]; exact d2 hR
    refine ⟨_, by rw [e4, List.getElem?_map, List.getElem?_map, hk]; rfl, by simp, fun r row hr => ?_⟩
    obtain ⟨xrow, h1, h2, h3⟩ := side isRandom c.fri hR d (List.mem_of_getElem? hk) r row hr
    refine ⟨xrow, h1, h2, fun j name hj => (h3 j name hj).imp_right ?_⟩
    rintro ⟨i, l, v, a1, a2, a3, a4, a5⟩
    exact ⟨i, l, v, a1, iR l a2, a3, a4, a5⟩

theorem gaussLoss_cast {n m : ℕ} (h : n = m) (st : GaussState ℝ n) (x : Vec ℝ m) : (h ▸ st).loss x = st.loss fun i => x (i.cast h) := by
  subst h
  rfl

/-- When a fit accepts a Gaussian prior on a problem whose names have the numbers of coefficients, and what the prior then adds to the loss. -/
theorem lmePriorFor_names (P : LmeProblem ℝ) (fc rc : List String) (hf : P.feColumns = some fc) (hr : P.reColumns = some rc) (hfl : fc.length = P.numFixed) (hrl : rc.length = P.numRandom)
    (hf0 : fc ≠ []) (hr0 : rc ≠ []) (fe re : PriorParams ℝ) :
    ((∃ Pr, lmePriorFor (some (fe, re)) P = .ok Pr) ↔ fe.Fits fc ∧ re.Fits rc) ∧
      ∀ Pr, lmePriorFor (some (fe, re)) P = .ok Pr → ∀ beta gamma, Pr.loss beta gamma =
        ∑ j : Fin P.numFixed, columnPenalty id fe (fc.getD j "") (beta j) + ∑ j : Fin P.numRandom, columnPenalty id re (rc.getD j "") (gamma j) := by
  obtain ⟨h1, h2⟩ := C26_lme_alignment fe re fc rc hf0 hr0
  unfold lmePriorFor
  simp only [hf, hr]
  generalize hI : (LmePrior.init fe re).instantiate (some fc) (some rc) = I at h1 h2
  obtain ⟨res, st⟩ := I
  cases res with
  | error e =>
    refine ⟨⟨?_, fun h => ?_⟩, ?_⟩
    · rintro ⟨Pr, hPr⟩
      cases hPr
    · cases h1.2 h
    · intro Pr hPr
      cases hPr
  | ok u =>
    obtain ⟨b, g, hb, hg, hloss⟩ := h2 rfl
    simp only at hb hg ⊢
    rw [hb, hg]
    simp only
    rw [dif_pos ⟨hfl, hrl⟩]
    refine ⟨⟨fun _ => h1.1 rfl, fun _ => ⟨_, rfl⟩⟩, ?_⟩
    intro Pr hPr beta gamma
    cases hPr
    change (hfl ▸ b).loss beta + (hrl ▸ g).loss gamma = _
    rw [gaussLoss_cast, gaussLoss_cast]
    refine (hloss _ _).trans ?_
    congr 1
    · refine Fintype.sum_equiv (finCongr hfl) _ _ fun i => ?_
      simp
    · refine Fintype.sum_equiv (finCongr hrl) _ _ fun i => ?_
      simp

/-- **C172**, priors: a Gaussian prior whose parameters are named after generated columns (or the intercept) is accepted by every fit of a generated problem with random effects, exactly when no standard
deviation given to an effect is negative, and it adds to the loss, for every effect, the penalty given under the effect's name. -/
theorem C172_prior (c : GenCfg ℝ) (draws : List (GenDraw ℝ)) (hrand : c.fri = true ∨ "random" ∈ c.labels ∨ "fixed+random" ∈ c.labels)
    (P : LmeProblem ℝ) (cs : List (ℕ × List ℝ)) (h : lmeGenerate c draws = .ok (P, cs)) (fe re : PriorParams ℝ) :
    ∃ fc rc, P.feColumns = some fc ∧ P.reColumns = some rc ∧
      (∀ name, name ∈ fc ↔ (c.ffi = true ∧ name = "intercept") ∨ ∃ i : ℕ, (c.labels[i]? = some "fixed" ∨ c.labels[i]? = some "fixed+random") ∧ name = "x" ++ toString i) ∧
      (∀ name, name ∈ rc ↔ (c.fri = true ∧ name = "intercept") ∨ ∃ i : ℕ, (c.labels[i]? = some "random" ∨ c.labels[i]? = some "fixed+random") ∧ name = "x" ++ toString i) ∧
      ((∃ Pr, lmePriorFor (some (fe, re)) P = .ok Pr) ↔
        (∀ name ms, (name, ms) ∈ fe → name ∈ fc) ∧ (∀ name ms, (name, ms) ∈ re → name ∈ rc) ∧
          (∀ name ∈ fc, ∀ mean std, fe.lookup name = some (mean, std) → 0 ≤ std) ∧ ∀ name ∈ rc, ∀ mean std, re.lookup name = some (mean, std) → 0 ≤ std) ∧
      ∀ Pr, lmePriorFor (some (fe, re)) P = .ok Pr → ∀ beta gamma, Pr.loss beta gamma =
        ∑ j : Fin P.numFixed, columnPenalty id fe (fc.getD j "") (beta j) + ∑ j : Fin P.numRandom, columnPenalty id re (rc.getD j "") (gamma j) := by
  obtain ⟨hF, hb, gs, hgs, -, hP⟩ := (lmeGenerate_ok c _ _ _).1 h
  obtain ⟨hn1, hn2⟩ := gen_numFixed (c := c) (P := P) (by rw [hP]) (by rw [hP])
  have hR : genNum c.labels isRandom c.fri ≠ 0 := by
    rw [genNum_eq]
    rcases hrand with h1 | h1 | h1
    · rw [h1]; simp
    · have := List.countP_pos_iff.2 ⟨_, h1, isRandom_RANDOM⟩
      omega
    · have := List.countP_pos_iff.2 ⟨_, h1, isRandom_FIXED_RANDOM⟩
      omega
  have ne : ∀ test b, genNum c.labels test b ≠ 0 → genNames c.labels test b ≠ [] := fun test b h0 h1 => h0 (by rw [← genNames_length, h1]; rfl)
  have e1 : P.feColumns = some (genNames c.labels isFixed c.ffi) := by rw [hP]
  have e2 : P.reColumns = some (genNames c.labels isRandom c.fri) := by rw [hP]
  obtain ⟨k1, k2⟩ := lmePriorFor_names P _ _ e1 e2 (by rw [genNames_length, hn1]) (by rw [genNames_length, hn2]) (ne _ _ hF) (ne _ _ hR) fe re
  refine ⟨_, _, e1, e2, fun name => ?_, fun name => ?_, ?_, k2⟩
  · rw [mem_genNames]
    refine or_congr_right ⟨?_, ?_⟩
    · rintro ⟨i, l, h1, h2, h3⟩
      have h4 : l = "fixed" ∨ l = "fixed+random" := by simpa [isFixed, FIXED, FIXED_RANDOM] using h2
      exact ⟨i, h4.imp (fun e => by rw [h1, e]) (fun e => by rw [h1, e]), h3⟩
    · rintro ⟨i, h1 | h1, h3⟩
      · exact ⟨i, _, h1, isFixed_FIXED, h3⟩
      · exact ⟨i, _, h1, isFixed_FIXED_RANDOM, h3⟩
  · rw [mem_genNames]
    refine or_congr_right ⟨?_, ?_⟩
    · rintro ⟨i, l, h1, h2, h3⟩
      have h4 : l = "random" ∨ l = "fixed+random" := by simpa [isRandom, RANDOM, FIXED_RANDOM] using h2
      exact ⟨i, h4.imp (fun e => by rw [h1, e]) (fun e => by rw [h1, e]), h3⟩
    · rintro ⟨i, h1 | h1, h3⟩
      · exact ⟨i, _, h1, isRandom_RANDOM, h3⟩
      · exact ⟨i, _, h1, isRandom_FIXED_RANDOM, h3⟩
  · rw [k1]
    unfold PriorParams.Fits
    tauto

theorem mem_of_lookup {params : PriorParams ℝ} {name : String} {ms : ℝ × ℝ} (h : params.lookup name = some ms) : (name, ms) ∈ params := by
  obtain ⟨l1, l2, e, -⟩ := List.lookup_eq_some_iff.1 h
  rw [e]
  simp

/-- A Gaussian prior with parameters for named effects and no negative standard deviation is accepted. -/
theorem C172_prior_ok (c : GenCfg ℝ) (draws : List (GenDraw ℝ)) (hrand : c.fri = true ∨ "random" ∈ c.labels ∨ "fixed+random" ∈ c.labels)
    (P : LmeProblem ℝ) (cs : List (ℕ × List ℝ)) (h : lmeGenerate c draws = .ok (P, cs)) (fe re : PriorParams ℝ)
    (hfe : ∀ name mean std, (name, (mean, std)) ∈ fe → 0 ≤ std ∧ ((c.ffi = true ∧ name = "intercept") ∨
      ∃ i : ℕ, (c.labels[i]? = some "fixed" ∨ c.labels[i]? = some "fixed+random") ∧ name = "x" ++ toString i))
    (hre : ∀ name mean std, (name, (mean, std)) ∈ re → 0 ≤ std ∧ ((c.fri = true ∧ name = "intercept") ∨
      ∃ i : ℕ, (c.labels[i]? = some "random" ∨ c.labels[i]? = some "fixed+random") ∧ name = "x" ++ toString i)) :
    ∃ Pr, lmePriorFor (some (fe, re)) P = .ok Pr := by
  obtain ⟨fc, rc, -, -, h1, h2, h3, -⟩ := C172_prior c draws hrand P cs h fe re
  exact h3.2 ⟨fun name ms hm => (h1 name).2 (hfe name ms.1 ms.2 hm).2, fun name ms hm => (h2 name).2 (hre name ms.1 ms.2 hm).2,
    fun name _ mean std hl => (hfe name mean std (mem_of_lookup hl)).1, fun name _ mean std hl => (hre name mean std (mem_of_lookup hl)).1⟩

/-- Non-vacuity of C172: a generated problem with both intercepts, a fixed and a mixed feature, and priors on an intercept and on the features. -/
example : ∃ P cs, lmeGenerate (⟨["fixed", "fixed+random"], true, true, .scalar 1, [2, 1, 3]⟩ : GenCfg ℝ) [⟨[[3, 5], [4, 6]], [1, 2], [1, 2]⟩] = .ok (P, cs) ∧
    P.feColumns = some ["intercept", "x0", "x1"] ∧ P.reColumns = some ["intercept", "x1"] ∧
    (∃ Pr, lmePriorFor (some ([("x0", (1, 1)), ("intercept", (0, 2))], [("x1", (0, 1))])) P = .ok Pr ∧ ∀ beta gamma, 0 ≤ Pr.loss beta gamma) ∧
    ¬ ∃ Pr, lmePriorFor (some ([("x2", (1, 1))], [])) P = .ok Pr := by
  have h3 : genNum ["fixed", "fixed+random"] isRandom true = 2 := by decide
  have h1 : ∀ x y : ℝ, genRow ["fixed", "fixed+random"] isFixed true [x, y] = [1, x, y] := fun x y => by simp [genRow, isFixed, FIXED, FIXED_RANDOM, List.range_succ]
  have h2 : ∀ x y : ℝ, genRow ["fixed", "fixed+random"] isRandom true [x, y] = [1, y] := fun x y => by simp [genRow, isRandom, RANDOM, FIXED_RANDOM, List.range_succ]
  have hgs : genGroups (⟨["fixed", "fixed+random"], true, true, .scalar 1, [2, 1, 3]⟩ : GenCfg ℝ) [2] 0 0 [⟨[[3, 5], [4, 6]], [1, 2], [1, 2]⟩] =
      .ok [⟨[[1, 3, 5], [1, 4, 6]], .rows [[1, 5], [1, 6]], [32, 39], [1, 1]⟩] := by
    rw [genGroups_cons]
    refine ⟨_, _, [32, 39], _, rfl, rfl, ?_, rfl, ?_⟩
    · simp only [List.zip_cons_cons, List.zip_nil_right, List.mapM_cons, List.mapM_nil, genAnswer, genRandomPart, h1, h2, h3, listDot]
      simp [bind, Except.bind, pure, Except.pure]
      norm_num
    · simp [h1, h2, h3]
  have hgen := (lmeGenerate_ok (⟨["fixed", "fixed+random"], true, true, .scalar 1, [2, 1, 3]⟩ : GenCfg ℝ) [⟨[[3, 5], [4, 6]], [1, 2], [1, 2]⟩] _ _).2
    ⟨by decide, by decide, _, hgs, by rfl, rfl⟩
  refine ⟨_, _, hgen, by decide, by decide, ?_, ?_⟩
  · obtain ⟨Pr, hPr⟩ := C172_prior_ok _ _ (.inl rfl) _ _ hgen [("x0", (1, 1)), ("intercept", (0, 2))] [("x1", (0, 1))] (by
      intro name mean std hm
      simp only [List.mem_cons, Prod.mk.injEq, List.not_mem_nil, or_false] at hm
      rcases hm with ⟨rfl, rfl, rfl⟩ | ⟨rfl, rfl, rfl⟩
      · exact ⟨by norm_num, .inr ⟨0, .inl rfl, rfl⟩⟩
      · exact ⟨by norm_num, .inl ⟨rfl, rfl⟩⟩) (by
      intro name mean std hm
      simp only [List.mem_cons, Prod.mk.injEq, List.not_mem_nil, or_false] at hm
      obtain ⟨rfl, rfl, rfl⟩ := hm
      exact ⟨by norm_num, .inr ⟨1, .inr rfl, rfl⟩⟩)
    refine ⟨Pr, hPr, fun beta gamma => ?_⟩
    obtain ⟨fc, rc, -, -, -, -, -, hl⟩ := C172_prior _ _ (.inl rfl) _ _ hgen [("x0", (1, 1)), ("intercept", (0, 2))] [("x1", (0, 1))]
    rw [hl Pr hPr]
    have hnn : ∀ (params : PriorParams ℝ) label (v : ℝ), 0 ≤ columnPenalty id params label v := by
      intro params label v
      unfold columnPenalty
      split
      · exact le_rfl
      · split_ifs with hs
        · have : (0 : ℝ) < id _ := hs
          positivity
        · exact le_rfl
    exact add_nonneg (Finset.sum_nonneg fun _ _ => hnn _ _ _) (Finset.sum_nonneg fun _ _ => hnn _ _ _)
  · rintro ⟨Pr, hPr⟩
    obtain ⟨fc, rc, hfc, -, -, -, hl, -⟩ := C172_prior _ _ (.inl rfl) _ _ hgen [("x2", (1, 1))] []
    have := (hl.1 ⟨Pr, hPr⟩).1 "x2" (1, 1) (by simp)
    have e : fc = ["intercept", "x0", "x1"] := (Option.some.inj hfc).symm.trans (by decide)
    rw [e] at this
    revert this
    decide

end Verif
