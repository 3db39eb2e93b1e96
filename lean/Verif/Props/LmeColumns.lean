import Verif.Props.LmeProblem

/-!
# Names and weights of the effects of a mixed-effects problem: C47, C48, C53
-/

namespace Verif

variable {K : Type*} [Field K] [LinearOrder K] {N p : ℕ}

theorem numFixed_eq (P : LmeProblem K) (ffi fri : Bool) (hi : P.interceptLabel = interceptLabelOf ffi fri) :
    P.numFixed = P.columnLabels.countP isFixed + ffi.toNat := by
  unfold LmeProblem.numFixed
  rw [hi, interceptLabelOf_fixed]
  congr 1
  · congr 1
    funext l
    rw [Bool.eq_iff_iff]
    simp [isFixed]
  · cases ffi <;> rfl

theorem numRandom_eq (P : LmeProblem K) (ffi fri : Bool) (hi : P.interceptLabel = interceptLabelOf ffi fri) :
    P.numRandom = P.columnLabels.countP isRandom + fri.toNat := by
  unfold LmeProblem.numRandom
  rw [hi, interceptLabelOf_random]
  congr 1
  · congr 1
    funext l
    rw [Bool.eq_iff_iff]
    simp [isRandom]
  · cases fri <;> rfl

/-- Names of the effects in the order of the coefficients: the intercept first if it is fitted, then the selected columns. -/
def effectNames (intercept : Bool) (test : String → Bool) (labels cols : List String) : List String :=
  (if intercept then ["intercept"] else []) ++ ((labels.zip cols).filter fun lc => test lc.1).map Prod.snd

/-- `ws` has one entry per name, 0 for the names in `must`, 1 for the others. -/
def WeightsFor (must : List String) (names : List String) (ws : List K) : Prop :=
  List.Forall₂ (fun name w => w = if name ∈ must then 0 else 1) names ws

theorem names_idx (labels cols : List String) (hlen : labels.length = p) (hc : cols.length = p) (test : String → Bool) :
    ((labelIdx (p := p) labels test).map Fin.val).map (fun i => cols.getD i "") = ((labels.zip cols).filter fun lc => test lc.1).map Prod.snd := by
  rw [List.map_map]
  have := labelIdx_map labels hlen test (fun i : Fin p => cols.getD i "")
  rw [show ((fun i => cols.getD i "") ∘ Fin.val) = fun i : Fin p => cols.getD i "" from rfl, this]
  unfold selectBy
  congr 3
  apply List.ext_getElem
  · simp [hc]
  · intro i h1 h2
    simp [h2]

/-- The weights written by the code when the list is not empty. -/
theorem regWeightsOf_cons (must inc : List String) (hm : must ≠ []) (labels cols : List String) (hlen : labels.length = p) (hc : cols.length = p) (test : String → Bool) (num : ℕ)
    (w : List K) (h : regWeightsOf (some must) (some inc) (some cols) ((labelIdx (p := p) labels test).map Fin.val) num = .ok w) :
    w = (if "intercept" ∈ inc then 0 else 1) :: (((labels.zip cols).filter fun lc => test lc.1).map Prod.snd).map fun name => if name ∈ must then 0 else 1 := by
  cases must with
  | nil => exact absurd rfl hm
  | cons m ms =>
    unfold regWeightsOf at h
    simp only at h
    split_ifs at h
    all_goals
      cases h
      rw [← names_idx labels cols hlen hc, List.map_map]
      simp [*]

/-! ## C47 -/

/-- **C47 is violated**, fixed effects: with a non-empty must-include list and no fixed intercept there is one weight too many (so every weight belongs to the wrong coefficient). -/
theorem C47_weights_violated (x : Matrix (Fin N) (Fin p) K) (y : Option (Vec K N)) (cols : List String) (labels : List String) (fri : Bool)
    (must : List String) (hm : must ≠ []) (hc : cols.length = p) (mustRe : Option (List String)) (P : LmeProblem K)
    (h : lmeFromXY x y (some cols) labels false fri (some must) mustRe = .ok P) : P.feWeights.length = P.numFixed + 1 := by
  obtain ⟨g, v, feW, reW, hg, hv, hlen, -, -, -, -, -, hfe, -, rfl⟩ := lmeFromXY_ok x y _ labels false fri _ mustRe P h
  rw [numFixed_eq _ false fri rfl]
  have := regWeightsOf_cons must must hm labels cols hlen hc isFixed _ feW hfe
  simp only
  rw [this, ← names_idx labels cols hlen hc]
  simp [labelIdx_length labels hlen]

/-- **C47 is violated**, random effects: the code looks the random intercept up in the list of the fixed effects: asked to include the random intercept, it gives it weight 1; and without a list for the
fixed effects it raises `TypeError`. -/
theorem C47_random_violated :
    (∃ P, lmeFromXY exX none (some ["g", "a", "b", "c", "v"]) exLabels true true (some ["a"]) (some ["intercept", "b"]) = .ok P ∧ P.reWeights = [1, 0, 1] ∧
      effectNames true isRandom exLabels ["g", "a", "b", "c", "v"] = ["intercept", "b", "c"]) ∧
    lmeFromXY exX none (some ["g", "a", "b", "c", "v"]) exLabels true true none (some ["b"]) = .error .typeError := by
  have hint : ∀ r, IntValued (exX r 0) := by
    intro r; fin_cases r
    · exact ⟨7, by simp [exX]⟩
    · exact ⟨4, by simp [exX]⟩
    · exact ⟨7, by simp [exX]⟩
  have hvar : ∀ r, exX r 4 ≠ 0 := by intro r; fin_cases r <;> simp [exX]
  have hg : labelIdx (p := 5) exLabels (· = GROUP) = [0] := by decide
  have hv : labelIdx (p := 5) exLabels (· = VARIANCE) = [4] := by decide
  have hf : (labelIdx (p := 5) exLabels isFixed) = [1, 3] := by decide
  have hr : (labelIdx (p := 5) exLabels isRandom) = [2, 3] := by decide
  constructor
  · obtain ⟨P, h⟩ := lmeFromXY_succeeds exX none (some ["g", "a", "b", "c", "v"]) exLabels true true (some ["a"]) (some ["intercept", "b"]) 0 4 hg hv rfl (by decide) (by simp)
      hvar hint (by simp) (by simp) [1, 0, 1] [1, 0, 1] (by rw [hf]; decide) (by rw [hr]; decide)
    refine ⟨P, h, ?_, by decide⟩
    obtain ⟨g, v, feW, reW, -, -, -, -, -, -, -, -, -, hre, rfl⟩ := lmeFromXY_ok _ _ _ _ _ _ _ _ P h
    rw [hr] at hre
    have : (regWeightsOf (some ["intercept", "b"]) (some ["a"]) (some ["g", "a", "b", "c", "v"]) [2, 3] 3 : Except PyErr (List ℚ)) = .ok [1, 0, 1] := by decide
    exact Except.ok.inj (hre.symm.trans this)
  · unfold lmeFromXY
    rw [if_neg (by simp), if_neg (by simp; decide), if_neg (by simp [exLabels]), hg, hv]
    simp only
    unfold fromXYCore
    rw [if_neg (by simpa using hvar), if_neg (by simpa using hint), if_neg (by simp), if_neg (by simp)]
    rfl

/-- **C47**, what holds: fixed effects, with an empty list or a fixed intercept; random effects, with an empty list or with a random intercept that is in both lists or in neither. (Missing: lists without
intercept, and random intercepts treated by their own list.) -/
theorem C47_weights_partial (x : Matrix (Fin N) (Fin p) K) (y : Option (Vec K N)) (cols : List String) (labels : List String) (ffi fri : Bool)
    (mustFe mustRe : Option (List String)) (hc : cols.length = p) (P : LmeProblem K)
    (h : lmeFromXY x y (some cols) labels ffi fri mustFe mustRe = .ok P) :
    ((mustFe.getD [] = [] ∨ ffi = true) → WeightsFor (mustFe.getD []) (effectNames ffi isFixed labels cols) P.feWeights ∧ P.feWeights.length = P.numFixed) ∧
    ((mustRe.getD [] = [] ∨ (fri = true ∧ ("intercept" ∈ mustFe.getD [] ↔ "intercept" ∈ mustRe.getD []))) →
      WeightsFor (mustRe.getD []) (effectNames fri isRandom labels cols) P.reWeights ∧ P.reWeights.length = P.numRandom) := by
  obtain ⟨g, v, feW, reW, hg, hv, hlen, -, -, -, -, -, hfe, hre, rfl⟩ := lmeFromXY_ok x y _ labels ffi fri _ mustRe P h
  have main : ∀ (must inc : Option (List String)) (b : Bool) (test : String → Bool) (w : List K),
      regWeightsOf must inc (some cols) ((labelIdx (p := p) labels test).map Fin.val) ((labelIdx (p := p) labels test).length + b.toNat) = .ok w →
      (must.getD [] = [] ∨ (b = true ∧ ("intercept" ∈ inc.getD [] ↔ "intercept" ∈ must.getD []))) →
      WeightsFor (must.getD []) (effectNames b test labels cols) w ∧ w.length = labels.countP test + b.toNat := by
    intro must inc b test w hw hcase
    have hcount : (effectNames b test labels cols).length = labels.countP test + b.toNat := by
      unfold effectNames
      rw [← names_idx labels cols hlen hc, List.length_append]
      simp only [List.length_map, labelIdx_length labels hlen]
      cases b <;> simp [Nat.add_comm]
    have empty : must.getD [] = [] → WeightsFor (must.getD []) (effectNames b test labels cols) w ∧ w.length = labels.countP test + b.toNat := by
      intro hm
      have e : w = List.replicate ((labelIdx (p := p) labels test).length + b.toNat) 1 := by
        unfold regWeightsOf at hw
        match must, hm with
        | none, _ => cases hw; rfl
        | some [], _ => cases hw; rfl
      rw [labelIdx_length labels hlen] at e
      refine ⟨?_, by rw [e]; simp⟩
      rw [hm, e]
      unfold WeightsFor
      rw [List.forall₂_iff_get]
      refine ⟨by simp [hcount], fun i h1 h2 => by simp⟩
    rcases hcase with hm | ⟨hb, hiff⟩
    · exact empty hm
    · by_cases hm : must.getD [] = []
      · exact empty hm
      · cases must with
        | none => exact absurd rfl hm
        | some ms =>
          simp only [Option.getD_some] at hm hiff ⊢
          have hinc : ∃ i, inc = some i := by
            cases inc with
            | some i => exact ⟨i, rfl⟩
            | none =>
              cases ms with
              | nil => exact absurd rfl hm
              | cons a l => simp [regWeightsOf] at hw
          obtain ⟨i, rfl⟩ := hinc
          have e := regWeightsOf_cons ms i hm labels cols hlen hc test _ w hw
          subst hb
          simp only [Option.getD_some] at hiff
          constructor
          · rw [e]
            unfold WeightsFor effectNames
            refine .cons (by simp [hiff]) ?_
            rw [List.forall₂_map_right_iff]
            exact List.forall₂_same.2 fun _ _ => rfl
          · rw [e, ← names_idx labels cols hlen hc]
            simp [labelIdx_length labels hlen]
  constructor
  · intro hcase
    have := main mustFe mustFe ffi isFixed feW hfe (hcase.imp id fun h => ⟨h, Iff.rfl⟩)
    rw [numFixed_eq _ ffi fri rfl]
    exact this
  · intro hcase
    have := main mustRe mustFe fri isRandom reW hre hcase
    rw [numRandom_eq _ ffi fri rfl]
    exact this

/-- Non-vacuity of the partial C47: the example with both intercepts and lists. -/
example : ∃ P, lmeFromXY exX none (some ["g", "a", "b", "c", "v"]) exLabels true true (some ["intercept", "a"]) (some ["intercept", "b"]) = .ok P := by
  refine lmeFromXY_succeeds exX none (some ["g", "a", "b", "c", "v"]) exLabels true true _ _ 0 4 (by decide) (by decide) rfl (by decide) (by simp) ?_ ?_ (by simp) (by simp)
    [0, 0, 1] [0, 0, 1] (by rw [show labelIdx (p := 5) exLabels isFixed = [1, 3] by decide]; decide) (by rw [show labelIdx (p := 5) exLabels isRandom = [2, 3] by decide]; decide)
  · intro r; fin_cases r <;> simp [exX]
  · intro r; fin_cases r
    · exact ⟨7, by simp [exX]⟩
    · exact ⟨4, by simp [exX]⟩
    · exact ⟨7, by simp [exX]⟩

/-! ## C48 -/

/-- **C48 is violated**: with a fixed (random) intercept there is one name too few, so that name `i` belongs to coefficient `i + 1`. -/
theorem C48_names_violated (x : Matrix (Fin N) (Fin p) K) (y : Option (Vec K N)) (cols : List String) (labels : List String) (ffi fri : Bool)
    (mustFe mustRe : Option (List String)) (hc : cols.length = p) (P : LmeProblem K) (h : lmeFromXY x y (some cols) labels ffi fri mustFe mustRe = .ok P) :
    (ffi = true → ∃ names, P.feColumns = some names ∧ names.length + 1 = P.numFixed ∧
      effectNames true isFixed labels cols = "intercept" :: names) ∧
    (fri = true → ∃ names, P.reColumns = some names ∧ names.length + 1 = P.numRandom ∧
      effectNames true isRandom labels cols = "intercept" :: names) := by
  obtain ⟨g, v, feW, reW, hg, hv, hlen, -, -, -, -, -, -, -, rfl⟩ := lmeFromXY_ok x y _ labels ffi fri _ mustRe P h
  have hne : cols ≠ [] := by
    rintro rfl
    have := g.2
    simp at hc
    omega
  have hn : ∀ idx, namesOf (some cols) idx = some (idx.map fun i => cols.getD i "") := by
    intro idx
    cases cols with
    | nil => exact absurd rfl hne
    | cons c cs => rfl
  constructor
  · rintro rfl
    refine ⟨_, hn _, ?_, ?_⟩
    · rw [numFixed_eq _ true fri rfl]
      simp [labelIdx_length labels hlen]
    · rw [names_idx labels cols hlen hc]
      rfl
  · rintro rfl
    refine ⟨_, hn _, ?_, ?_⟩
    · rw [numRandom_eq _ ffi true rfl]
      simp [labelIdx_length labels hlen]
    · rw [names_idx labels cols hlen hc]
      rfl

/-- **C48**, what holds: without the intercept, the names and the columns of the designs are selected by the same list of column positions. (Missing: problems with intercepts.) -/
theorem C48_names_partial (x : Matrix (Fin N) (Fin p) K) (y : Option (Vec K N)) (cols : List String) (labels : List String) (ffi fri : Bool)
    (mustFe mustRe : Option (List String)) (hc : cols.length = p) (P : LmeProblem K) (h : lmeFromXY x y (some cols) labels ffi fri mustFe mustRe = .ok P) :
    (ffi = false → ∃ idx : List (Fin p), P.feColumns = some (idx.map fun i => cols[i]'(by rw [hc]; exact i.2)) ∧ idx.length = P.numFixed ∧
      ∀ m ∈ P.fixedFeatures, ∀ row ∈ m, ∃ r, row = idx.map (x r)) ∧
    (fri = false → ∃ idx : List (Fin p), P.reColumns = some (idx.map fun i => cols[i]'(by rw [hc]; exact i.2)) ∧ idx.length = P.numRandom ∧
      ∀ m, RandomDesign.rows m ∈ P.randomFeatures → ∀ row ∈ m, ∃ r, row = idx.map (x r)) := by
  obtain ⟨g, v, feW, reW, hg, hv, hlen, -, -, -, -, -, -, -, rfl⟩ := lmeFromXY_ok x y _ labels ffi fri _ mustRe P h
  have hne : cols ≠ [] := by
    rintro rfl
    have := g.2
    simp at hc
    omega
  have hn : ∀ idx : List (Fin p), namesOf (some cols) (idx.map Fin.val) = some (idx.map fun i => cols[i]'(by rw [hc]; exact i.2)) := by
    intro idx
    have : ∀ i : Fin p, cols.getD i "" = cols[i]'(by rw [hc]; exact i.2) := by
      intro i
      simp [List.getD_eq_getElem?_getD, List.getElem?_eq_getElem (show (i : ℕ) < cols.length by rw [hc]; exact i.2)]
    cases cols with
    | nil => exact absurd rfl hne
    | cons c cs =>
      simp only [namesOf, List.map_map, Option.some.injEq]
      apply List.map_congr_left
      intro i _
      exact this i
  constructor
  · rintro rfl
    refine ⟨_, hn _, ?_, ?_⟩
    · rw [numFixed_eq _ false fri rfl]
      simp [labelIdx_length labels hlen]
    · intro m hm row hrow
      simp only [List.mem_map] at hm
      obtain ⟨l, -, rfl⟩ := hm
      obtain ⟨r, -, rfl⟩ := List.mem_map.1 hrow
      exact ⟨r, rfl⟩
  · rintro rfl
    refine ⟨_, hn _, ?_, ?_⟩
    · rw [numRandom_eq _ ffi false rfl]
      simp [labelIdx_length labels hlen]
    · intro m hm row hrow
      simp only [List.mem_map, RandomDesign.rows.injEq] at hm
      obtain ⟨l, -, rfl⟩ := hm
      obtain ⟨r, -, rfl⟩ := List.mem_map.1 hrow
      exact ⟨r, rfl⟩

/-- Non-vacuity of C48: a problem with names and a problem with names and intercepts exist. -/
example (b : Bool) : ∃ P, lmeFromXY exX none (some ["g", "a", "b", "c", "v"]) exLabels b b none none = .ok P := exXY_ok _ _ _ _ (.inr rfl)

/-! ## C53 -/

theorem select_sel {α : Type*} (header fe re : List String) (f : String → α) (g v : α) (test : String → Bool) (hG : test GROUP = false) (hV : test VARIANCE = false)
    (q : String → Bool) (hq : ∀ e, (e ∈ fe ∨ e ∈ re) → test (if e ∈ fe ∧ e ∈ re then FIXED_RANDOM else if e ∈ re then RANDOM else FIXED) = q e)
    (hq' : ∀ e, q e = true → e ∈ fe ∨ e ∈ re) :
    selectBy test (GROUP :: ((dataframeColumns header fe re).map Prod.snd ++ [VARIANCE])) (g :: ((dataframeColumns header fe re).map (f ∘ Prod.fst) ++ [v])) =
      (header.filter fun e => q e && decide (e ≠ "intercept")).map f := by
  rw [selectBy_cons, if_neg (by simp [hG])]
  unfold dataframeColumns
  rw [List.map_map, List.map_map]
  induction header with
  | nil => simp [selectBy, hV]
  | cons e es ih =>
    by_cases h1 : (fun e => decide (e ∈ fe ∨ e ∈ re) && decide (e ≠ INTERCEPT)) e = true
    · rw [List.filter_cons_of_pos (p := fun e => decide (e ∈ fe ∨ e ∈ re) && decide (e ≠ INTERCEPT)) h1, List.map_cons, List.map_cons, List.cons_append, List.cons_append, selectBy_cons, ih]
      simp only [Bool.and_eq_true, decide_eq_true_eq] at h1
      simp only [Function.comp_apply, hq e h1.1]
      by_cases h2 : q e = true
      · simp [h2, h1.2]
      · simp [h2]
    · rw [List.filter_cons_of_neg (p := fun e => decide (e ∈ fe ∨ e ∈ re) && decide (e ≠ INTERCEPT)) h1, ih, List.filter_cons_of_neg]
      intro hcon
      apply h1
      simp only [Bool.and_eq_true, decide_eq_true_eq] at hcon ⊢
      exact ⟨hq' e hcon.1, hcon.2⟩

/-- **C53**, roles: the problem built from a dataframe groups by the named column, takes variances and targets from the named columns, and its designs consist of a leading one iff `"intercept"` is among the effects, followed by exactly
the columns of the dataframe named in the respective list (in dataframe order); their names are reported. -/
theorem C53_roles (header : List String) (col : String → Vec K N) (fe re : List String) (groups variance target : String) (nf nr : List String)
    (P : LmeProblem K) (h : lmeFromDataframe header col fe re groups variance target nf nr = .ok P) :
    ∃ blocks : List (List (Fin N)),
      P.groupLabels.Pairwise (· < ·) ∧ List.Forall₂ (fun l b => (∀ r, r ∈ b ↔ col groups r = l) ∧ b.Pairwise (· < ·)) P.groupLabels blocks ∧ blocks.flatten.Perm (List.finRange N) ∧
      P.obsVars = blocks.map (List.map (col variance)) ∧ P.answers = some (blocks.map (List.map (col target))) ∧
      P.fixedFeatures = blocks.map (List.map fun r => (if "intercept" ∈ fe then [1] else []) ++ (header.filter fun e => decide (e ∈ fe) && decide (e ≠ "intercept")).map fun e => col e r) ∧
      P.randomFeatures = blocks.map (fun b => .rows (b.map fun r => (if "intercept" ∈ re then [1] else []) ++ (header.filter fun e => decide (e ∈ re) && decide (e ≠ "intercept")).map fun e => col e r)) ∧
      P.feColumns = some (header.filter fun e => decide (e ∈ fe) && decide (e ≠ "intercept")) ∧
      P.reColumns = some (header.filter fun e => decide (e ∈ re) && decide (e ≠ "intercept")) := by
  unfold lmeFromDataframe at h
  split_ifs at h with h1 h2 h3
  unfold lmeFromSelected at h
  set sel := dataframeColumns header fe re with hsel
  set columns := groups :: (sel.map Prod.fst ++ [variance]) with hcolumns
  set labels := GROUP :: (sel.map Prod.snd ++ [VARIANCE]) with hlabels
  have hlen : labels.length = columns.length := by simp [hlabels, hcolumns]
  have hofFn : ∀ {β : Type _} (f : String → β), (List.ofFn fun j : Fin columns.length => f columns[j]) = f groups :: (sel.map (f ∘ Prod.fst) ++ [f variance]) := by
    intro β f
    rw [show (List.ofFn fun j : Fin columns.length => f columns[j]) = columns.map f by
      conv_rhs => rw [← List.ofFn_getElem (xs := columns)]
      rw [List.map_ofFn]; rfl]
    simp [hcolumns]
  have hF : ∀ {β : Type _} (f : String → β), selectBy isFixed labels (f groups :: (sel.map (f ∘ Prod.fst) ++ [f variance])) =
      (header.filter fun e => decide (e ∈ fe) && decide (e ≠ "intercept")).map f := by
    intro β f
    refine select_sel header fe re f _ _ isFixed isFixed_GROUP isFixed_VARIANCE (fun e => decide (e ∈ fe)) ?_ (fun e he => .inl (by simpa using he))
    intro e he
    by_cases a : e ∈ fe <;> by_cases b : e ∈ re <;> simp [a, b, isFixed_FIXED, isFixed_RANDOM, isFixed_FIXED_RANDOM] at he ⊢
  have hF0 : ∀ (f : String → String), selectBy isFixed labels (f groups :: (sel.map (f ∘ Prod.fst) ++ [f variance])) =
      (header.filter fun e => decide (e ∈ fe) && decide (e ≠ "intercept")).map f := by
    intro f
    refine select_sel header fe re f _ _ isFixed isFixed_GROUP isFixed_VARIANCE (fun e => decide (e ∈ fe)) ?_ (fun e he => .inl (by simpa using he))
    intro e he
    by_cases a : e ∈ fe <;> by_cases b : e ∈ re <;> simp [a, b, isFixed_FIXED, isFixed_RANDOM, isFixed_FIXED_RANDOM] at he ⊢
  have hR : ∀ {β : Type _} (f : String → β), selectBy isRandom labels (f groups :: (sel.map (f ∘ Prod.fst) ++ [f variance])) =
      (header.filter fun e => decide (e ∈ re) && decide (e ≠ "intercept")).map f := by
    intro β f
    refine select_sel header fe re f _ _ isRandom isRandom_GROUP isRandom_VARIANCE (fun e => decide (e ∈ re)) ?_ (fun e he => .inr (by simpa using he))
    intro e he
    by_cases a : e ∈ fe <;> by_cases b : e ∈ re <;> simp [a, b, isRandom_FIXED, isRandom_RANDOM, isRandom_FIXED_RANDOM] at he ⊢
  have hR0 : ∀ (f : String → String), selectBy isRandom labels (f groups :: (sel.map (f ∘ Prod.fst) ++ [f variance])) =
      (header.filter fun e => decide (e ∈ re) && decide (e ≠ "intercept")).map f := by
    intro f
    refine select_sel header fe re f _ _ isRandom isRandom_GROUP isRandom_VARIANCE (fun e => decide (e ∈ re)) ?_ (fun e he => .inr (by simpa using he))
    intro e he
    by_cases a : e ∈ fe <;> by_cases b : e ∈ re <;> simp [a, b, isRandom_FIXED, isRandom_RANDOM, isRandom_FIXED_RANDOM] at he ⊢
  obtain ⟨g, v, feW, reW, hg, hv, -, -, -, -, -, -, -, -, hP⟩ := lmeFromXY_ok _ _ _ _ _ _ _ _ P h
  have hg0 : columns[g] = groups := by
    have : (⟨0, by simp [hcolumns]⟩ : Fin columns.length) ∈ labelIdx (p := columns.length) labels (· = GROUP) := by
      rw [mem_labelIdx]; simp [hlabels]
    rw [hg, List.mem_singleton] at this
    rw [← this]
    simp [hcolumns]
  have hv0 : columns[v] = variance := by
    have : (⟨sel.length + 1, by simp [hcolumns]⟩ : Fin columns.length) ∈ labelIdx (p := columns.length) labels (· = VARIANCE) := by
      rw [mem_labelIdx]; simp [hlabels]
    rw [hv, List.mem_singleton] at this
    rw [← this]
    simp [hcolumns]
  have hgcol : (fun r => (Matrix.of fun (i : Fin N) (j : Fin columns.length) => col columns[j] i) r g) = col groups := by
    funext r
    rw [Matrix.of_apply, hg0]
  have hvcol : (fun r => (Matrix.of fun (i : Fin N) (j : Fin columns.length) => col columns[j] i) r v) = col variance := by
    funext r
    rw [Matrix.of_apply, hv0]
  rw [hgcol, hvcol] at hP
  have hrowF : ∀ r, designRow (Matrix.of fun (i : Fin N) (j : Fin columns.length) => col columns[j] i) (decide (INTERCEPT ∈ fe)) (labelIdx labels isFixed) r =
      (if "intercept" ∈ fe then [1] else []) ++ (header.filter fun e => decide (e ∈ fe) && decide (e ≠ "intercept")).map fun e => col e r := by
    intro r
    rw [designRow_eq _ labels hlen, show (List.ofFn ((Matrix.of fun (i : Fin N) (j : Fin columns.length) => col columns[j] i) r)) =
      List.ofFn fun j : Fin columns.length => (fun e => col e r) columns[j] from rfl, hofFn (fun e => col e r), hF (fun e => col e r)]
    simp [INTERCEPT]
  have hrowR : ∀ r, designRow (Matrix.of fun (i : Fin N) (j : Fin columns.length) => col columns[j] i) (decide (INTERCEPT ∈ re)) (labelIdx labels isRandom) r =
      (if "intercept" ∈ re then [1] else []) ++ (header.filter fun e => decide (e ∈ re) && decide (e ≠ "intercept")).map fun e => col e r := by
    intro r
    rw [designRow_eq _ labels hlen, show (List.ofFn ((Matrix.of fun (i : Fin N) (j : Fin columns.length) => col columns[j] i) r)) =
      List.ofFn fun j : Fin columns.length => (fun e => col e r) columns[j] from rfl, hofFn (fun e => col e r), hR (fun e => col e r)]
    simp [INTERCEPT]
  have hnames : ∀ test, namesOf (some columns) ((labelIdx (p := columns.length) labels test).map Fin.val) = some (selectBy test labels (groups :: (sel.map (id ∘ Prod.fst) ++ [variance]))) := by
    intro test
    have := names_idx labels columns hlen rfl test
    rw [hcolumns] at this ⊢
    simp only [namesOf, Option.some.injEq]
    exact this
  refine ⟨(uniqueLabels (col groups)).map (groupRows (col groups)), ?_, ?_, ?_, ?_, ?_, ?_, ?_, ?_, ?_⟩
  · rw [hP]; exact uniqueLabels_sorted _
  · rw [hP, List.forall₂_map_right_iff]
    exact List.forall₂_same.2 fun l _ => ⟨groupRows_mem _ l, groupRows_sorted _ l⟩
  · rw [← List.flatMap_def]; exact order_perm _
  · rw [hP]; simp
  · rw [hP]; simp
  · rw [hP, List.map_map]
    exact List.map_congr_left fun l _ => List.map_congr_left fun r _ => hrowF r
  · rw [hP, List.map_map]
    exact List.map_congr_left fun l _ => congrArg RandomDesign.rows (List.map_congr_left fun r _ => hrowR r)
  · rw [hP]
    simp only
    exact (hnames isFixed).trans (congrArg some ((hF0 id).trans (List.map_id _)))
  · rw [hP]
    simp only
    exact (hnames isRandom).trans (congrArg some ((hR0 id).trans (List.map_id _)))

/-- **C53**, order: listing the effects (and the effects that are not regularized) in another order changes nothing. -/
theorem C53_order (header : List String) (col : String → Vec K N) (fe re fe' re' : List String) (groups variance target : String) (nf nr nf' nr' : List String)
    (h1 : fe.Perm fe') (h2 : re.Perm re') (h3 : nf.Perm nf') (h4 : nr.Perm nr') :
    lmeFromDataframe header col fe re groups variance target nf nr = lmeFromDataframe header col fe' re' groups variance target nf' nr' := by
  have hall : ∀ (a b : List String) (q : String → Bool), a.Perm b → a.all q = b.all q := fun a b q h => by
    rw [Bool.eq_iff_iff]
    simp [h.mem_iff]
  have hsel : dataframeColumns header fe re = dataframeColumns header fe' re' := by
    unfold dataframeColumns
    simp only [h1.mem_iff, h2.mem_iff]
  have hw : ∀ (m m' i i' c : List String) (idx : List ℕ) (n : ℕ), m.Perm m' → i.Perm i' → regWeightsOf (K := K) (some m) (some i) (some c) idx n = regWeightsOf (some m') (some i') (some c) idx n := by
    intro m m' i i' c idx n hm hi
    cases m with
    | nil =>
      rw [List.nil_perm.1 hm]
      rfl
    | cons a l =>
      cases m' with
      | nil => exact absurd (List.perm_nil.1 hm) (by simp)
      | cons a' l' =>
        unfold regWeightsOf
        simp only [hm.mem_iff, hi.mem_iff]
  unfold lmeFromDataframe
  rw [hsel]
  have e1 : (fe ++ re ++ [groups, variance, target] ++ nf ++ nr).Perm (fe' ++ re' ++ [groups, variance, target] ++ nf' ++ nr') :=
    ((((h1.append h2).append (List.Perm.refl _)).append h3).append h4)
  simp only [hall _ _ _ e1, h1.mem_iff, h2.mem_iff, hall _ _ _ h3, hall _ _ _ h4]
  unfold lmeFromSelected lmeFromXY fromXYCore
  simp only [hw nf nf' nf nf' _ _ _ h3 h3, hw nr nr' nf nf' _ _ _ h4 h3]
  rfl

/-- **C53**, rejection: a name that is not a column of the dataframe, or an effect not to be regularized that is not an effect, raises `ValueError`. -/
theorem C53_unknown (header : List String) (col : String → Vec K N) (fe re : List String) (groups variance target : String) (nf nr : List String)
    (h : (∃ e ∈ fe ++ re ++ [groups, variance, target] ++ nf ++ nr, e ∉ header) ∨ (∃ e ∈ nf, e ∉ fe) ∨ ∃ e ∈ nr, e ∉ re) :
    lmeFromDataframe header col fe re groups variance target nf nr = .error .valueError := by
  unfold lmeFromDataframe
  by_cases h1 : ¬ ((fe ++ re ++ [groups, variance, target] ++ nf ++ nr).all (· ∈ header)) = true
  · rw [if_pos h1]
  rw [if_neg h1]
  by_cases h2 : ¬ (nf.all (· ∈ fe)) = true
  · rw [if_pos h2]
  rw [if_neg h2]
  rw [if_pos]
  rcases h with ⟨e, he, hne⟩ | ⟨e, he, hne⟩ | ⟨e, he, hne⟩
  · exact absurd (by simpa using (List.all_eq_true.1 (not_not.1 h1)) e he) hne
  · exact absurd (by simpa using (List.all_eq_true.1 (not_not.1 h2)) e he) hne
  · intro hcon
    exact hne (by simpa using (List.all_eq_true.1 hcon) e he)

/-- A dataframe with two objects in two groups. -/
def exCol (c : String) : Vec ℚ 2 := if c = "g" then ![1, 0] else if c = "v" then ![1, 2] else if c = "a" then ![5, 6] else ![1, 1]

/-- Non-vacuity of C53: a dataframe with the columns `g, a, b, v, t, intercept`. -/
example : ∃ P, lmeFromDataframe ["g", "a", "b", "v", "t", "intercept"] exCol ["b", "intercept"] ["a", "b"] "g" "v" "t" [] [] = .ok P := by
  unfold lmeFromDataframe
  rw [if_neg (by decide), if_neg (by decide), if_neg (by decide)]
  have hsel : dataframeColumns ["g", "a", "b", "v", "t", "intercept"] ["b", "intercept"] ["a", "b"] = [("a", RANDOM), ("b", FIXED_RANDOM)] := by decide
  rw [hsel]
  unfold lmeFromSelected
  refine lmeFromXY_succeeds _ _ _ _ _ _ _ _ (⟨0, by simp⟩ : Fin 4) ⟨3, by simp⟩ (by decide) (by decide) rfl (by decide) (by simp) ?_ ?_ (by simp) (by simp) _ _ rfl rfl
  · intro r; fin_cases r <;> simp [exCol]
  · intro r; fin_cases r
    · exact ⟨1, by simp [exCol]⟩
    · exact ⟨0, by simp [exCol]⟩

end Verif
