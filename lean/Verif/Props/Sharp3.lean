import Verif.Props.LmeColumns
import Verif.Props.LmePredict
import Verif.Props.LmeSelect
import Verif.Props.LmeCounts
import Verif.Props.LmeAic
import Verif.Props.LmeGenerate

/-!
# Exactly when the violated properties C47, C48, C52, C66, C71, C72, C78 and C97 hold
-/

namespace Verif

open Matrix

section
variable {K : Type*} [Field K] [LinearOrder K] {N p : ℕ}

/-! ## C47 -/

theorem regWeightsOf_iff (labels cols : List String) (hlen : labels.length = p) (hc : cols.length = p) (test : String → Bool) (must inc : Option (List String)) (b : Bool) (w : List K)
    (hw : regWeightsOf must inc (some cols) ((labelIdx (p := p) labels test).map Fin.val) ((labelIdx (p := p) labels test).length + b.toNat) = .ok w)
    (h : WeightsFor (must.getD []) (effectNames b test labels cols) w) :
    must.getD [] = [] ∨ (b = true ∧ ("intercept" ∈ inc.getD [] ↔ "intercept" ∈ must.getD [])) := by
  by_cases hm : must.getD [] = []
  · exact .inl hm
  · right
    cases must with
    | none => exact absurd rfl hm
    | some ms =>
      simp only [Option.getD_some] at hm h ⊢
      have hinc : ∃ i, inc = some i := by
        cases inc with
        | some i => exact ⟨i, rfl⟩
        | none =>
          cases ms with
          | nil => exact absurd rfl hm
          | cons a l => simp [regWeightsOf] at hw
      obtain ⟨i, rfl⟩ := hinc
      have e := regWeightsOf_cons ms i hm labels cols hlen hc test _ w hw
      cases b with
      | false =>
        have hl := List.Forall₂.length_eq h
        rw [e] at hl
        unfold effectNames at hl
        simp at hl
      | true =>
        refine ⟨rfl, ?_⟩
        rw [e] at h
        unfold WeightsFor effectNames at h
        simp only [if_true, List.singleton_append, List.forall₂_cons] at h
        have h1 := h.1
        simp only [Option.getD_some]
        by_cases h2 : "intercept" ∈ i <;> by_cases h3 : "intercept" ∈ ms <;> simp_all

/-- **C47**, exactly: on every accepted table with column names, the weights of the fixed effects line up with the
coefficients if and only if the list is empty or there is a fixed intercept, and those of the random effects if and only if
their list is empty, or there is a random intercept which is in both lists or in neither. -/
theorem C47_weights_iff (x : Matrix (Fin N) (Fin p) K) (y : Option (Vec K N)) (cols : List String) (labels : List String) (ffi fri : Bool)
    (mustFe mustRe : Option (List String)) (hc : cols.length = p) (P : LmeProblem K)
    (h : lmeFromXY x y (some cols) labels ffi fri mustFe mustRe = .ok P) :
    (WeightsFor (mustFe.getD []) (effectNames ffi isFixed labels cols) P.feWeights ↔ mustFe.getD [] = [] ∨ ffi = true) ∧
    (WeightsFor (mustRe.getD []) (effectNames fri isRandom labels cols) P.reWeights ↔
      mustRe.getD [] = [] ∨ (fri = true ∧ ("intercept" ∈ mustFe.getD [] ↔ "intercept" ∈ mustRe.getD []))) := by
  have hp := C47_weights_partial x y cols labels ffi fri mustFe mustRe hc P h
  obtain ⟨g, v, feW, reW, hg, hv, hlen, -, -, -, -, -, hfe, hre, rfl⟩ := lmeFromXY_ok x y _ labels ffi fri _ mustRe P h
  exact ⟨⟨fun hw => (regWeightsOf_iff labels cols hlen hc isFixed mustFe mustFe ffi feW hfe hw).imp id And.left, fun hc => (hp.1 hc).1⟩,
    ⟨fun hw => regWeightsOf_iff labels cols hlen hc isRandom mustRe mustFe fri reW hre hw, fun hc => (hp.2 hc).1⟩⟩

/-- Non-vacuity: an accepted table with both kinds of lists and a fixed intercept. -/
example : ∃ P, lmeFromXY exX none (some ["g", "a", "b", "c", "v"]) exLabels true true (some ["intercept", "a"]) (some ["b"]) = .ok P ∧
    WeightsFor ["intercept", "a"] (effectNames true isFixed exLabels ["g", "a", "b", "c", "v"]) P.feWeights ∧
    ¬ WeightsFor ["b"] (effectNames true isRandom exLabels ["g", "a", "b", "c", "v"]) P.reWeights := by
  obtain ⟨P, hP⟩ : ∃ P, lmeFromXY exX none (some ["g", "a", "b", "c", "v"]) exLabels true true (some ["intercept", "a"]) (some ["b"]) = .ok P := by
    refine lmeFromXY_succeeds exX none (some ["g", "a", "b", "c", "v"]) exLabels true true _ _ 0 4 (by decide) (by decide) rfl (by decide) (by simp) ?_ ?_ (by simp) (by simp)
      [0, 0, 1] [0, 0, 1] (by rw [show labelIdx (p := 5) exLabels isFixed = [1, 3] by decide]; decide) (by rw [show labelIdx (p := 5) exLabels isRandom = [2, 3] by decide]; decide)
    · intro r; fin_cases r <;> simp [exX]
    · intro r; fin_cases r
      · exact ⟨7, by simp [exX]⟩
      · exact ⟨4, by simp [exX]⟩
      · exact ⟨7, by simp [exX]⟩
  obtain ⟨h1, h2⟩ := C47_weights_iff exX none _ exLabels true true (some ["intercept", "a"]) (some ["b"]) rfl P hP
  refine ⟨P, hP, h1.2 (.inr rfl), fun hcon => ?_⟩
  have := h2.1 hcon
  simp at this

/-! ## C48 -/

/-- **C48**, exactly: the names are those of the coefficients, in their order, if and only if there is no intercept. -/
theorem C48_names_iff (x : Matrix (Fin N) (Fin p) K) (y : Option (Vec K N)) (cols : List String) (labels : List String) (ffi fri : Bool)
    (mustFe mustRe : Option (List String)) (hc : cols.length = p) (P : LmeProblem K) (h : lmeFromXY x y (some cols) labels ffi fri mustFe mustRe = .ok P) :
    (P.feColumns = some (effectNames ffi isFixed labels cols) ↔ ffi = false) ∧
    (P.reColumns = some (effectNames fri isRandom labels cols) ↔ fri = false) := by
  have hv := C48_names_violated x y cols labels ffi fri mustFe mustRe hc P h
  obtain ⟨g, v, feW, reW, hg, -, hlen, -, -, -, -, -, -, -, rfl⟩ := lmeFromXY_ok x y _ labels ffi fri _ mustRe P h
  have hne : cols ≠ [] := by
    rintro rfl
    have := g.2
    simp at hc
    omega
  have hn : ∀ idx, namesOf (some cols) idx = some (idx.map fun i => cols.getD i "") := by
    intro idx
    cases cols with
    | nil => exact absurd rfl hne
    | cons c cs => rfl
  constructor
  · constructor
    · intro e
      by_contra hf
      have hf : ffi = true := by simpa using hf
      obtain ⟨names, h1, -, h3⟩ := hv.1 hf
      rw [h1, hf, h3] at e
      simpa using congrArg (fun o => (o.getD []).length) e
    · rintro rfl
      simp only
      rw [hn, names_idx labels cols hlen hc]
      rfl
  · constructor
    · intro e
      by_contra hf
      have hf : fri = true := by simpa using hf
      obtain ⟨names, h1, -, h3⟩ := hv.2 hf
      rw [h1, hf, h3] at e
      simpa using congrArg (fun o => (o.getD []).length) e
    · rintro rfl
      simp only
      rw [hn, names_idx labels cols hlen hc]
      rfl

/-- Non-vacuity: a table with and without intercepts. -/
example (b : Bool) : ∃ P, lmeFromXY exX none (some ["g", "a", "b", "c", "v"]) exLabels b b none none = .ok P ∧
    (P.feColumns = some (effectNames b isFixed exLabels ["g", "a", "b", "c", "v"]) ↔ b = false) := by
  obtain ⟨P, h⟩ : ∃ P, lmeFromXY exX none (some ["g", "a", "b", "c", "v"]) exLabels b b none none = .ok P := exXY_ok _ _ _ _ (.inr rfl)
  exact ⟨P, h, (C48_names_iff exX none _ exLabels b b none none rfl P h).1⟩

end

section
variable {N k : ℕ}

/-! ## C71 and C72 -/

/-- **C71**, exactly: if the rows have different predictions, `predict` keeps the order of the rows if and only if the
group column is nondecreasing. -/
theorem C71_order_iff (c : LmeCoef) (x : Matrix (Fin N) (Fin k) ℝ) (labels : List String) (ffi fri : Bool)
    (g : Fin k) (P : LmeProblem ℝ) (hP : lmeFromXY x none none labels ffi fri none none = .ok P) (hN : 0 < N)
    (hg : labels[(g : ℕ)]? = some "group") (hc : c.Consistent (fixedCount labels ffi) (randomCount labels fri))
    (hseen : ∀ r, x r g ∈ c.groupLabels) (hinj : Function.Injective (rowPrediction c labels ffi fri x g)) :
    lmePredict (some c) x (some labels) ffi fri = .ok (List.ofFn (rowPrediction c labels ffi fri x g)) ↔
      ∀ r s : Fin N, r ≤ s → x r g ≤ x s g := by
  constructor
  · intro h r s hrs
    by_contra hlt
    rcases hrs.lt_or_eq with h1 | h1
    · exact C71_order_violated c x labels ffi fri g P hP hg hc hseen hinj r s h1 (not_le.1 hlt) h
    · exact hlt (by rw [h1])
  · exact C71_sorted_partial c x labels ffi fri g P hP hN hg hc hseen

/-- **C72**, exactly: `predict` returns on an accepted table if and only if the model has no random effects or all groups
were seen in training. -/
theorem C72_unseen_iff (c : LmeCoef) (x : Matrix (Fin N) (Fin k) ℝ) (labels : List String) (ffi fri : Bool)
    (g : Fin k) (P : LmeProblem ℝ) (hP : lmeFromXY x none none labels ffi fri none none = .ok P) (hN : 0 < N)
    (hg : labels[(g : ℕ)]? = some "group") (hc : c.Consistent (fixedCount labels ffi) (randomCount labels fri)) :
    (∃ v, lmePredict (some c) x (some labels) ffi fri = .ok v) ↔ randomCount labels fri = 0 ∨ ∀ r, x r g ∈ c.groupLabels := by
  constructor
  · rintro ⟨v, h⟩
    by_contra hcon
    push Not at hcon
    obtain ⟨h0, r, hr⟩ := hcon
    rw [C72_unseen_violated c x labels ffi fri g P hP hg hc (Nat.pos_of_ne_zero h0) r hr] at h
    cases h
  · intro h
    exact ⟨_, lmePredict_ok c x labels ffi fri g P hP hN hg hc h⟩

/-- Non-vacuity of C71: the rows of the example table are not sorted. -/
example : (lmePredict (some exCoef) exTab (some exTabLabels) false false = .ok [26, 20]) ↔ ∀ r s : Fin 2, r ≤ s → exTab r 0 ≤ exTab s 0 := by
  obtain ⟨P, hP⟩ := exTab_ok false false
  have := C71_order_iff exCoef exTab exTabLabels false false 0 P hP (by norm_num) rfl exCoef_consistent exTab_seen exTab_injective
  rwa [exTab_prediction] at this

/-- Non-vacuity of C72: the example model has seen all groups of the table. -/
example : ∃ v, lmePredict (some exCoef) exTab (some exTabLabels) false false = .ok v := by
  obtain ⟨P, hP⟩ := exTab_ok false false
  exact (C72_unseen_iff exCoef exTab exTabLabels false false 0 P hP (by norm_num) rfl exCoef_consistent).2 (.inr exTab_seen)

/-! ## C78 -/

/-- **C78**, exactly: after the selection the caller's dictionary lists the same effects as before if and only if the
pre-selected effects were among them. -/
theorem C78_covs_iff (S : SetOrder) (sort : NpSort) (header : List String) (col : String → Vec ℝ N)
    (target variance group : String) (f r f' r' : List String) (d d' : Bool) (name : String) :
    ∃ l l', (selectCovariates S sort header col target variance group (some ⟨some f, some r, d⟩) (some ⟨some f', some r', d'⟩) name).2 =
      (some ⟨some l, some l', d⟩, some ⟨some f', some r', d'⟩) ∧
      ((∀ e, e ∈ l ↔ e ∈ f) ↔ ∀ e ∈ f', e ∈ f) ∧ ((∀ e, e ∈ l' ↔ e ∈ r) ↔ ∀ e ∈ r', e ∈ r) := by
  refine ⟨S.toList (f ++ f'), S.toList (r ++ r'), rfl, ?_, ?_⟩
  · constructor
    · exact fun h e he => (h e).1 ((S.mem _ _).2 (by simp [he]))
    · intro h e
      rw [S.mem, List.mem_append]
      exact ⟨fun h' => h'.elim id (h e), .inl⟩
  · constructor
    · exact fun h e he => (h e).1 ((S.mem _ _).2 (by simp [he]))
    · intro h e
      rw [S.mem, List.mem_append]
      exact ⟨fun h' => h'.elim id (h e), .inl⟩

/-- Non-vacuity of C78: one effect pre-selected which is a candidate. -/
example (S : SetOrder) (sort : NpSort) : ∃ l l', (selectCovariates S sort ["g", "x1", "x2", "v", "t"] (fun _ => (![1, 2] : Vec ℝ 2)) "t" "v" "g"
      (some ⟨some ["x1", "x2"], some [], false⟩) (some ⟨some ["x2"], some [], false⟩) "L1").2 =
      (some ⟨some l, some l', false⟩, some ⟨some ["x2"], some [], false⟩) ∧ ∀ e, e ∈ l ↔ e ∈ ["x1", "x2"] := by
  obtain ⟨l, l', h, h1, -⟩ := C78_covs_iff S sort ["g", "x1", "x2", "v", "t"] (fun _ => (![1, 2] : Vec ℝ 2)) "t" "v" "g" ["x1", "x2"] [] ["x2"] [] false false "L1"
  exact ⟨l, l', h, h1.2 (by simp)⟩

end

section
variable {p q : ℕ}

/-! ## C66 -/

theorem numNonzero_eq_iff {n : ℕ} (v : Vec ℝ n) : numNonzero v = n ↔ ∀ i, v i ≠ 0 := by
  constructor
  · intro h i hi
    have := numNonzero_lt v i hi
    omega
  · intro h
    unfold numNonzero
    have : {i | v i ≠ 0} = (Set.univ : Set (Fin n)) := by
      ext i
      simp [h i]
    rw [this]
    simp

/-- **C66**, exactly, for `get_information_criterion` on every accepted table with positive noise variances: the
criterion of Jones is the one with the number of nonzero parameters if and only if no parameter is zero or the effective sample
size has logarithm zero; the Mueller-Hui criterion if and only if no variance is zero and, when there are several groups,
no coefficient is zero. -/
theorem C66_get_ic_iff {N k : ℕ} (x : Matrix (Fin N) (Fin k) ℝ) (y : Vec ℝ N) (labels : List String) (P : LmeProblem ℝ)
    (hP : lmeFromXY x (some y) none labels false false none none = .ok P)
    (hpos : ∀ v : Fin k, labels[(v : ℕ)]? = some "variance" → ∀ r, 0 < x r v) (c : LmeCoef)
    (beta : Vec ℝ P.numFixed) (gamma : Vec ℝ P.numRandom) (hb : c.beta = List.ofFn beta) (hg : c.gamma = List.ofFn gamma)
    (hg0 : ∀ j, 0 ≤ gamma j) :
    ∃ D : List (LmeGroup P.numFixed P.numRandom), lmeGroups P = .ok D ∧
      (lmeGetIC (some c) x y (some labels) "jones_bic" = .ok (trueJones D beta gamma) ↔
        ((∀ i, beta i ≠ 0) ∧ ∀ j, gamma j ≠ 0) ∨ Real.log (effSize D gamma) = 0) ∧
      (lmeGetIC (some c) x y (some labels) "muller_ic" = .ok (trueMuller D beta gamma) ↔
        (∀ j, gamma j ≠ 0) ∧ (D.length = 1 ∨ ∀ i, beta i ≠ 0)) := by
  obtain ⟨g, v, hgi, hvi, hgl, hD⟩ := lmeGroups_table hP
  obtain ⟨_, _, _, _, -, -, hlen, -, -, -, -, -, -, -, hPe⟩ := lmeFromXY_ok x (some y) none labels false false none none P hP
  obtain ⟨hN, -⟩ := lmeFromXY_forget hP
  obtain ⟨D, hDe⟩ : ∃ D, D = (uniqueLabels fun r => x r g).map (tableGroup x y labels false false g v P.numFixed P.numRandom) :=
    ⟨_, rfl⟩
  rw [← hDe] at hD
  have hvl : labels[(v : ℕ)]? = some "variance" := by
    have : v ∈ labelIdx (p := k) labels (fun l => decide (l = VARIANCE)) := by rw [hvi]; simp
    rw [mem_labelIdx] at this
    have hlt : (v : ℕ) < labels.length := by omega
    rw [List.getElem?_eq_getElem hlt]
    simpa [List.getD_eq_getElem?_getD, List.getElem?_eq_getElem hlt, VARIANCE] using this
  have hDpos : PosVar D := by
    intro gr hgr i
    rw [hDe] at hgr
    obtain ⟨l, -, rfl⟩ := List.mem_map.1 hgr
    exact hpos v hvl _
  obtain ⟨r⟩ : Nonempty (Fin N) := ⟨⟨0, by omega⟩⟩
  have h1 : x r g ∈ uniqueLabels fun r => x r g := (uniqueLabels_mem _ _).2 ⟨r, rfl⟩
  have hobs : 0 < (D.map fun g => g.n).sum := by
    have h2 : r ∈ groupRows (fun r => x r g) (x r g) := (groupRows_mem _ _ _).2 rfl
    have h3 : (groupRows (fun r => x r g) (x r g)).length ∈ D.map fun g => g.n := by
      rw [hDe, List.map_map]
      exact List.mem_map.2 ⟨x r g, h1, rfl⟩
    exact lt_of_lt_of_le (List.length_pos_of_mem h2) (List.le_sum_of_mem h3)
  have hDlen : 1 ≤ D.length := by
    rw [hDe, List.length_map]
    exact List.length_pos_of_mem h1
  have hd := inDomain_of_nonneg hDpos hg0
  have hab : asVec P.numFixed c.beta = .ok beta := asVec_ok.2 hb.symm
  have hag : asVec P.numRandom c.gamma = .ok gamma := asVec_ok.2 hg.symm
  have hl : (LmeInstPrior.nonInformative : LmeInstPrior ℝ P.numFixed P.numRandom).loss beta gamma = 0 := rfl
  have hj : lmeGetIC (some c) x y (some labels) "jones_bic" = lmeJonesBic D .nonInformative 0 beta gamma := by
    simp [lmeGetIC, hP, hD, hab, hag, bind, Except.bind]
  have hm : lmeGetIC (some c) x y (some labels) "muller_ic" = lmeMullerHui D .nonInformative 0 beta gamma := by
    simp [lmeGetIC, hP, hD, hab, hag, bind, Except.bind]
  rw [lmeJonesBic_eq hd, countGe_zero, countGe_zero, hl, add_zero] at hj
  rw [lmeMullerHui_eq hd, countGe_zero, countGe_zero, hl, add_zero] at hm
  have a1 := numNonzero_le beta
  have a2 := numNonzero_le gamma
  have b1 : (numNonzero beta : ℝ) ≤ P.numFixed := by exact_mod_cast a1
  have b2 : (numNonzero gamma : ℝ) ≤ P.numRandom := by exact_mod_cast a2
  refine ⟨D, hD, ?_, ?_⟩
  · rw [hj, ← numNonzero_eq_iff, ← numNonzero_eq_iff, Except.ok.injEq]
    unfold trueJones
    constructor
    · intro h
      by_cases h0 : Real.log (effSize D gamma) = 0
      · exact .inr h0
      · left
        have h2 : ((P.numFixed : ℝ) + P.numRandom) * Real.log (effSize D gamma) =
            ((numNonzero beta : ℝ) + numNonzero gamma) * Real.log (effSize D gamma) := by linarith
        have h3 := mul_right_cancel₀ h0 h2
        have h4 : P.numFixed + P.numRandom = numNonzero beta + numNonzero gamma := by exact_mod_cast h3
        omega
    · rintro (⟨h2, h3⟩ | h0)
      · rw [h2, h3]
      · rw [h0, mul_zero, mul_zero]
  · rw [hm, ← numNonzero_eq_iff, ← numNonzero_eq_iff, Except.ok.injEq]
    unfold trueMuller
    have hn : (0 : ℝ) < ((D.map fun g => g.n).sum : ℕ) := by exact_mod_cast hobs
    have e0 : ((lmeNumObs D : ℕ) : ℝ) = (((D.map fun g => g.n).sum : ℕ) : ℝ) := rfl
    try rw [e0]
    generalize (((D.map fun g => g.n).sum : ℕ) : ℝ) = n at hn ⊢
    have hlog : 0 ≤ Real.log D.length := Real.log_nonneg (by exact_mod_cast hDlen)
    constructor
    · intro h
      have h2 : 1 / n * (Real.log D.length * ((P.numFixed : ℝ) - numNonzero beta) + 2 * ((P.numRandom : ℝ) - numNonzero gamma)) = 0 := by
        have : 2 / n = 1 / n * 2 := by ring
        rw [this] at h
        linarith
      have h3 : Real.log D.length * ((P.numFixed : ℝ) - numNonzero beta) + 2 * ((P.numRandom : ℝ) - numNonzero gamma) = 0 := by
        rcases mul_eq_zero.1 h2 with h4 | h4
        · exact absurd h4 (by positivity)
        · exact h4
      have h4 : 0 ≤ Real.log D.length * ((P.numFixed : ℝ) - numNonzero beta) := mul_nonneg hlog (by linarith)
      have h5 : (P.numRandom : ℝ) = numNonzero gamma := by linarith
      have h6 : Real.log D.length * ((P.numFixed : ℝ) - numNonzero beta) = 0 := by linarith
      refine ⟨by exact_mod_cast h5.symm, ?_⟩
      rcases mul_eq_zero.1 h6 with h7 | h7
      · left
        by_contra hne
        have : (1 : ℝ) < D.length := by exact_mod_cast (by omega : 1 < D.length)
        exact absurd h7 (Real.log_pos this).ne'
      · right
        have : (numNonzero beta : ℝ) = P.numFixed := by linarith
        exact_mod_cast this
    · rintro ⟨h2, h3 | h3⟩
      · rw [h2, h3]
        simp
      · rw [h2, h3]

/-- Non-vacuity: the table of the examples with a zero variance; the Mueller-Hui criterion returned is not the one of the nonzero parameters. -/
example : ∃ (P : LmeProblem ℝ) (D : List (LmeGroup P.numFixed P.numRandom)), lmeGroups P = .ok D ∧
    lmeGetIC (some ⟨[2], [0], [[0], [0]], [0, 1], []⟩) exTab ![26, 20] (some exTabLabels) "muller_ic" ≠ .ok (trueMuller D (fun _ => 2) fun _ => 0) := by
  obtain ⟨P, hP⟩ := exTab_ok' false false ![26, 20]
  obtain ⟨_, _, _, _, -, -, -, -, -, -, -, -, -, -, hPe⟩ := lmeFromXY_ok exTab (some ![26, 20]) none exTabLabels false false none
    none P hP
  have hcl : P.columnLabels = exTabLabels := by rw [hPe]
  have hF : P.numFixed = 1 := by
    rw [numFixed_eq P false false (by rw [hPe]), hcl]; rfl
  have hR : P.numRandom = 1 := by
    rw [numRandom_eq P false false (by rw [hPe]), hcl]; rfl
  have hb : [2] = List.ofFn (fun _ : Fin P.numFixed => (2 : ℝ)) := by rw [List.ofFn_const, hF]; rfl
  have hg : [0] = List.ofFn (fun _ : Fin P.numRandom => (0 : ℝ)) := by rw [List.ofFn_const, hR]; rfl
  obtain ⟨D, hD, -, h⟩ := C66_get_ic_iff exTab ![26, 20] exTabLabels P hP exTab_positive ⟨[2], [0], [[0], [0]], [0, 1], []⟩ _ _ hb hg (fun _ => le_rfl)
  exact ⟨P, D, hD, fun hcon => (h.1 hcon).1 ⟨0, by omega⟩ rfl⟩

/-! ## C97 -/

/-- **C97**, exactly: for the default tolerance, at least one fixed effect and more than `p + 2` observations the conditional
version returns the criterion if and only if there is one fixed effect and no random effect. -/
theorem C97_conditional_iff (D : List (LmeGroup p q)) (hD : PosVar D) (P : LmeInstPrior ℝ p q) (beta : Vec ℝ p)
    (gamma : Vec ℝ q) (hm : MaskExact gamma) (hp : 0 < p) (hn : p + 2 < (D.map fun g => g.n).sum)
    (v : ℝ) (hv : lmeVaida D P 0 false beta gamma = .ok v) :
    ∃ rho w, lmeDdf D gamma = .ok rho ∧ lmeDemarginalizedLoss D P beta gamma = .ok w ∧
      let n : ℝ := ((D.map fun g => g.n).sum : ℕ)
      (v = 2 * w + 2 * (n / (n - p - 2) * (rho - (rho - p) / (n - p))) ↔ p = 1 ∧ q = 0) := by
  obtain ⟨-, rho, w, h1, h2, rfl⟩ := lmeVaida_cond_ok.1 hv
  refine ⟨rho, w, h1, h2, ?_⟩
  have h3 := ((C98_degrees_of_freedom D hD gamma hm).2 rho h1).1
  have hn' : (p : ℝ) + 2 < ((D.map fun g => g.n).sum : ℕ) := by exact_mod_cast hn
  have hpos := caicPenalty_pos (by exact_mod_cast hp) hn' h3
  rw [countGe_zero, countGe_zero]
  change 2 * w + 2 * caicPenalty ((D.map fun g => g.n).sum : ℕ) p rho * ((p : ℝ) + q) = 2 * w + 2 * caicPenalty _ p rho ↔ _
  constructor
  · intro h
    have h4 : caicPenalty ((D.map fun g => g.n).sum : ℕ) p rho * (((p : ℝ) + q) - 1) = 0 := by linarith
    rcases mul_eq_zero.1 h4 with h5 | h5
    · exact absurd h5 hpos.ne'
    · have : p + q = 1 := by exact_mod_cast (by linarith : (p : ℝ) + q = 1)
      omega
  · rintro ⟨rfl, rfl⟩
    simp

/-- Non-vacuity: two groups of two observations, one fixed and one random effect; the conditional criterion is returned and is not the published one. -/
example : ∃ v rho w, lmeVaida [exGroup, exGroup] .nonInformative 0 false ![1] ![1] = .ok v ∧ lmeDdf [exGroup, exGroup] ![1] = .ok rho ∧
    lmeDemarginalizedLoss [exGroup, exGroup] .nonInformative ![1] ![1] = .ok w ∧
    ¬ v = 2 * w + 2 * ((((([exGroup, exGroup].map fun g => g.n).sum : ℕ) : ℝ) / (((([exGroup, exGroup].map fun g => g.n).sum : ℕ) : ℝ) - (1 : ℕ) - 2) *
      (rho - (rho - (1 : ℕ)) / (((([exGroup, exGroup].map fun g => g.n).sum : ℕ) : ℝ) - (1 : ℕ))))) := by
  have hm : MaskExact (![1] : Vec ℝ 1) := by intro j; fin_cases j; right; norm_num
  have hD : PosVar [exGroup, exGroup] := by
    intro g hg
    have : g = exGroup := by simpa using hg
    rw [this]
    exact exGroup_posVar _ List.mem_cons_self
  have hd : InDomain [exGroup] (![1] : Vec ℝ 1) := inDomain_of_nonneg exGroup_posVar hm.nonneg
  have hu := exGroup_kernel ![1] hm.nonneg
  rw [List.map_cons, List.map_nil, List.map_cons, List.map_nil, hessBetaTerm_eq (hd _ List.mem_cons_self),
    List.sum_cons, List.sum_nil, add_zero, Matrix.det_fin_one, isUnit_iff_ne_zero] at hu
  obtain ⟨rho, h⟩ := (C98_degrees_of_freedom _ hD ![1] hm).1.2 (by
    rw [List.map_cons, List.map_cons, List.map_nil, List.sum_cons, List.sum_cons, List.sum_nil, add_zero,
      Matrix.det_fin_one, isUnit_iff_ne_zero, Matrix.add_apply]
    intro h0
    refine hu ?_
    change _ + _ = (0 : ℝ) at h0
    exact add_self_eq_zero.1 h0)
  obtain ⟨-, w, -, -, hw, -⟩ := C96_demarginalized _ hD .nonInformative ![1] ![1] hm
  have hv := (lmeVaida_cond_ok (tol := 0)).2 ⟨by
    have hn4 : ((lmeNumObs [exGroup, exGroup] : ℕ) : ℝ) = 4 := by
      change ((2 + (2 + 0) : ℕ) : ℝ) = 4
      norm_num
    rw [countGe_zero, hn4]
    norm_num, rho, w, h, hw, rfl⟩
  obtain ⟨rho', w', h1, h2, h3⟩ := C97_conditional_iff _ hD .nonInformative ![1] ![1] hm one_pos
    (by change 1 + 2 < 2 + (2 + 0); norm_num) _ hv
  exact ⟨_, rho', w', hv, h1, h2, fun hcon => by have := (h3.1 hcon).2; omega⟩

end

section
variable {K : Type*} [Field K] [LinearOrder K] [IsStrictOrderedRing K]

/-! ## C52 -/

omit [LinearOrder K] [IsStrictOrderedRing K] in
theorem replicate_eq_slice (a : List K) (s n : ℕ) (h : s + n ≤ a.length) :
    List.replicate n (a.getD s 0) = (a.drop s).take n ↔ ∀ j < n, a.getD (s + j) 0 = a.getD s 0 := by
  constructor
  · intro e j hj
    have := congrArg (fun l : List K => l[j]?) e
    simp only [List.getElem?_replicate, if_pos hj, List.getElem?_take, List.getElem?_drop] at this
    rw [List.getD_eq_getElem?_getD, ← this]
    rfl
  · intro hc
    apply List.ext_getElem
    · simp; omega
    · intro j h1 h2
      simp only [List.length_replicate] at h1
      have := hc j h1
      have hlt : s + j < a.length := by omega
      rw [List.getD_eq_getElem?_getD, List.getElem?_eq_getElem hlt] at this
      simpa using this.symm

theorem genGroups_slices (c : GenCfg K) (sizes : List ℕ) (a : List K) (hvar : c.obsVar = .array a) (hlen : a.length = sizes.sum) :
    ∀ (draws : List (GenDraw K)) (s i : ℕ) (gs : List (GenGroup K)), 0 < s → (∀ d ∈ draws, 0 < d.rows.length) →
      s + (draws.map fun d => d.rows.length).sum = a.length → genGroups c sizes s i draws = .ok gs →
      ((gs.map GenGroup.obsVars).flatten = a.drop s ↔ ∀ pre d post, draws = pre ++ d :: post →
        ∀ j < d.rows.length, a.getD (s + (pre.map fun d => d.rows.length).sum + j) 0 = a.getD (s + (pre.map fun d => d.rows.length).sum) 0) := by
  intro draws
  induction draws with
  | nil =>
    intro s i gs hs _ hsum h
    cases h
    simp only [List.map_nil, List.sum_nil, add_zero] at hsum
    simp [hsum]
  | cons d ds ih =>
    intro s i gs hs hne hsum h
    obtain ⟨var, vars, ans, rest, hv, hb, -, hrest, rfl⟩ := (genGroups_cons ..).1 h
    have hd := hne d List.mem_cons_self
    rw [List.map_cons, List.sum_cons] at hsum
    rw [hvar] at hv
    simp only [genVariance, hlen, if_true] at hv
    cases hv
    rw [slice_broadcast a _ _ hs hd (by omega)] at hb
    split_ifs at hb with hsz
    cases hb
    have hih := ih (s + d.rows.length) (i + 1) rest (by omega) (fun d' hd' => hne d' (List.mem_cons_of_mem _ hd')) (by omega) hrest
    have hsplit : a.drop s = (a.drop s).take d.rows.length ++ a.drop (s + d.rows.length) := by
      rw [← List.drop_drop, List.take_append_drop]
    have happ : ∀ u v u' v' : List K, u.length = u'.length → (u ++ v = u' ++ v' ↔ u = u' ∧ v = v') := fun u v u' v' hl =>
      ⟨fun e => List.append_inj e hl, fun e => by rw [e.1, e.2]⟩
    rw [List.map_cons, List.flatten_cons, hsplit, happ _ _ _ _ (by simp; omega), hih, replicate_eq_slice a s _ (by omega)]
    constructor
    · rintro ⟨h1, h2⟩ pre d' post e j hj
      cases pre with
      | nil =>
        simp only [List.nil_append, List.cons.injEq] at e
        rw [← e.1] at hj
        simpa using h1 j hj
      | cons d0 pre =>
        simp only [List.cons_append, List.cons.injEq] at e
        have := h2 pre d' post e.2 j hj
        rw [← e.1]
        simpa [add_assoc] using this
    · intro h0
      refine ⟨fun j hj => by simpa using h0 [] d ds rfl j hj, fun pre d' post e j hj => ?_⟩
      have := h0 (d :: pre) d' post (by rw [e]; rfl) j hj
      simpa [add_assoc] using this

/-- **C52**, exactly: a generation with one variance per object, which returns, uses the requested variances if and only if
they are constant within every group except the first. -/
theorem C52_variance_iff (c : GenCfg K) (a : List K) (draws : List (GenDraw K)) (hvar : c.obsVar = .array a)
    (hlen : a.length = (draws.map fun d => d.rows.length).sum) (hne : ∀ d ∈ draws, 0 < d.rows.length)
    (P : LmeProblem K) (cs : List (ℕ × List K)) (h : lmeGenerate c draws = .ok (P, cs)) :
    P.obsVars.flatten = a ↔ ∀ pre d post, draws = pre ++ d :: post → pre ≠ [] →
      ∀ j < d.rows.length, a.getD ((pre.map fun d => d.rows.length).sum + j) 0 = a.getD ((pre.map fun d => d.rows.length).sum) 0 := by
  obtain ⟨-, -, gs, hgs, -, rfl⟩ := (lmeGenerate_ok c _ P cs).1 h
  simp only
  cases draws with
  | nil =>
    cases hgs
    simp at hlen
    simp [hlen]
  | cons d ds =>
    obtain ⟨var, vars, ans, rest, hv, hb, -, hrest, rfl⟩ := (genGroups_cons ..).1 hgs
    have hd := hne d List.mem_cons_self
    rw [hvar] at hv
    simp only [genVariance, hlen, if_true] at hv
    cases hv
    have hl : d.rows.length ≤ a.length := by
      rw [hlen, List.map_cons, List.sum_cons]
      omega
    have hvars : vars = a.take d.rows.length := by
      unfold broadcastVar at hb
      simp only [List.drop_zero] at hb
      rw [if_pos (by simp [hl])] at hb
      exact (Except.ok.inj hb).symm
    rw [Nat.zero_add] at hrest
    have key := genGroups_slices c _ a hvar hlen ds _ _ rest hd (fun d' hd' => hne d' (List.mem_cons_of_mem _ hd'))
      (by rw [hlen, List.map_cons, List.sum_cons]) hrest
    rw [List.map_cons, List.flatten_cons, hvars]
    have e1 : a.take d.rows.length ++ (rest.map GenGroup.obsVars).flatten = a ↔ (rest.map GenGroup.obsVars).flatten = a.drop d.rows.length := by
      conv_lhs => rhs; rw [← List.take_append_drop d.rows.length a]
      exact List.append_cancel_left_eq _ _ _ |>.to_iff
    rw [e1, key]
    constructor
    · intro h0 pre d' post e hpre j hj
      cases pre with
      | nil => exact absurd rfl hpre
      | cons d0 pre =>
        simp only [List.cons_append, List.cons.injEq] at e
        have := h0 pre d' post e.2 j hj
        rw [← e.1]
        simpa using this
    · intro h0 pre d' post e j hj
      have := h0 (d :: pre) d' post (by rw [e]; rfl) (by simp) j hj
      simpa using this

/-- Non-vacuity: a group of one object and a group of two with the variances 1, 4, 9: the generation returns and uses 1, 4, 4. -/
example : ∃ P cs, lmeGenerate (⟨[FIXED], false, false, .array [1, 4, 9], [2]⟩ : GenCfg ℚ) [⟨[[3]], [], [1]⟩, ⟨[[7], [8]], [], [1, 1]⟩] = .ok (P, cs) ∧
    P.obsVars = [[1], [4, 4]] ∧ P.obsVars.flatten ≠ [1, 4, 9] := by
  have hgs : genGroups (⟨[FIXED], false, false, .array [1, 4, 9], [2]⟩ : GenCfg ℚ) [1, 2] 0 0 [⟨[[3]], [], [1]⟩, ⟨[[7], [8]], [], [1, 1]⟩] =
      .ok [⟨[[3]], .zeroDim, [7], [1]⟩, ⟨[[7], [8]], .zeroDim, [15, 17], [4, 4]⟩] := by
    have h3 : genNum [FIXED] isRandom false = 0 := by decide
    have h1 : ∀ x : ℚ, genRow [FIXED] isFixed false [x] = [x] := fun x => by simp [genRow, isFixed, List.range_succ]
    rw [genGroups_cons]
    refine ⟨_, _, [7], _, rfl, rfl, ?_, ?_, rfl⟩
    · simp only [List.zip_cons_cons, List.zip_nil_right, List.mapM_cons, List.mapM_nil, genAnswer, genRandomPart, h1, h3, listDot]
      simp [bind, Except.bind, pure, Except.pure]
      norm_num
    · rw [genGroups_cons]
      refine ⟨_, _, [15, 17], _, rfl, rfl, ?_, rfl, rfl⟩
      simp only [List.zip_cons_cons, List.zip_nil_right, List.mapM_cons, List.mapM_nil, genAnswer, genRandomPart, h1, h3, listDot]
      simp [bind, Except.bind, pure, Except.pure]
      norm_num
  exact ⟨_, _, (lmeGenerate_ok _ _ _ _).2 ⟨by decide, by decide, _, hgs, rfl, rfl⟩, rfl, by decide⟩

end

end Verif
