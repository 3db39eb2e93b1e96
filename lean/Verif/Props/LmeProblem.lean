import Verif.Lemmas.LmeProblem
import Mathlib.Tactic.NormNum
import Mathlib.LinearAlgebra.Matrix.Notation
import Mathlib.Tactic.FinCases
import Mathlib.Algebra.Order.Field.Rat

/-!
# Mixed-effects problems: C43-C53
-/

namespace Verif

variable {K : Type*} [Field K] [LinearOrder K] {N p : ℕ}

theorem regWeightsOf_none (inc columns : Option (List String)) (idx : List ℕ) (num : ℕ) : regWeightsOf (K := K) none inc columns idx num = .ok (List.replicate num 1) := rfl

/-- What a successful call did. -/
theorem lmeFromXY_ok (x : Matrix (Fin N) (Fin p) K) (y : Option (Vec K N)) (columns : Option (List String)) (labels : List String) (ffi fri : Bool)
    (mustFe mustRe : Option (List String)) (P : LmeProblem K) (h : lmeFromXY x y columns labels ffi fri mustFe mustRe = .ok P) :
    ∃ (g v : Fin p) (feW reW : List K), labelIdx labels (· = GROUP) = [g] ∧ labelIdx labels (· = VARIANCE) = [v] ∧ labels.length = p ∧ (∀ l ∈ labels, isKnown l = true) ∧
      (y.isSome → 0 < N) ∧ (∀ r, x r v ≠ 0) ∧ (∀ r, IntValued (x r g)) ∧ (columns = none ∨ columns = some [] ∨ (columns.getD []).length = p) ∧
      regWeightsOf mustFe mustFe columns ((labelIdx (p := p) labels isFixed).map Fin.val) ((labelIdx (p := p) labels isFixed).length + ffi.toNat) = .ok feW ∧
      regWeightsOf mustRe mustFe columns ((labelIdx (p := p) labels isRandom).map Fin.val) ((labelIdx (p := p) labels isRandom).length + fri.toNat) = .ok reW ∧
      P = {
          fixedFeatures := (uniqueLabels fun r => x r g).map fun l => (groupRows (fun r => x r g) l).map (designRow x ffi (labelIdx labels isFixed))
          randomFeatures := (uniqueLabels fun r => x r g).map fun l => .rows ((groupRows (fun r => x r g) l).map (designRow x fri (labelIdx labels isRandom)))
          obsVars := (uniqueLabels fun r => x r g).map fun l => (groupRows (fun r => x r g) l).map fun r => x r v
          groupLabels := uniqueLabels fun r => x r g
          interceptLabel := interceptLabelOf ffi fri
          columnLabels := labels
          orderOfObjects := ((uniqueLabels fun r => x r g).flatMap (groupRows fun r => x r g)).map Fin.val
          answers := y.map fun t => (uniqueLabels fun r => x r g).map fun l => (groupRows (fun r => x r g) l).map t
          feColumns := namesOf columns ((labelIdx (p := p) labels isFixed).map Fin.val)
          reColumns := namesOf columns ((labelIdx (p := p) labels isRandom).map Fin.val)
          feWeights := feW
          reWeights := reW } := by
  unfold lmeFromXY at h
  split_ifs at h with h1 h2 h3
  split at h
  · rename_i g hg
    split at h
    · rename_i v hv
      unfold fromXYCore at h
      split_ifs at h with h4 h5 h6 h7
      simp only at h
      split at h
      · cases h
      · rename_i feW hfe
        split at h
        · cases h
        · rename_i reW hre
          cases h
          refine ⟨g, v, feW, reW, hg, hv, by omega, by simpa using h2, fun hy => ?_, by simpa using h4, by simpa using h5, ?_, hfe, hre, rfl⟩
          · by_contra hN
            exact h1 ⟨hy, Or.inl (by omega)⟩
          · by_cases hc : columns = none
            · exact .inl hc
            · by_cases hc' : columns = some []
              · exact .inr (.inl hc')
              · right; right
                by_contra hcon
                exact h6 ⟨hc, hc', hcon⟩
    · cases h
  · cases h

/-- The conditions under which a call succeeds. -/
theorem lmeFromXY_succeeds (x : Matrix (Fin N) (Fin p) K) (y : Option (Vec K N)) (columns : Option (List String)) (labels : List String) (ffi fri : Bool)
    (mustFe mustRe : Option (List String)) (g v : Fin p) (hg : labelIdx labels (· = GROUP) = [g]) (hv : labelIdx labels (· = VARIANCE) = [v]) (hlen : labels.length = p)
    (hknown : ∀ l ∈ labels, isKnown l = true) (hN : y.isSome → 0 < N) (hvar : ∀ r, x r v ≠ 0) (hint : ∀ r, IntValued (x r g))
    (hcols : columns = none ∨ columns = some [] ∨ (columns.getD []).length = p) (hmust : columns = none → mustFe = none ∧ mustRe = none)
    (feW reW : List K)
    (hfe : regWeightsOf mustFe mustFe columns ((labelIdx (p := p) labels isFixed).map Fin.val) ((labelIdx (p := p) labels isFixed).length + ffi.toNat) = .ok feW)
    (hre : regWeightsOf mustRe mustFe columns ((labelIdx (p := p) labels isRandom).map Fin.val) ((labelIdx (p := p) labels isRandom).length + fri.toNat) = .ok reW) :
    ∃ P, lmeFromXY x y columns labels ffi fri mustFe mustRe = .ok P := by
  unfold lmeFromXY
  rw [if_neg, if_neg, if_neg, hg, hv]
  · simp only
    unfold fromXYCore
    rw [if_neg, if_neg, if_neg, if_neg]
    · simp only [hfe, hre]
      exact ⟨_, rfl⟩
    · rintro ⟨h1, h2⟩
      obtain ⟨h3, h4⟩ := hmust h2
      rcases h1 with h1 | h1
      · exact h1 h3
      · exact h1 h4
    · rintro ⟨h1, h2, h3⟩
      rcases hcols with h | h | h
      · exact h1 h
      · exact h2 h
      · exact h3 h
    · simpa using hint
    · simpa using hvar
  · simpa using hlen
  · simpa using hknown
  · rintro ⟨h1, h2 | h2⟩
    · have := hN h1; omega
    · subst h2; exact g.elim0

/-! ## C43 -/

/-- **C43.** The stored groups are a partition of the rows: `blocks k` lists the rows of the `k`-th group. -/
theorem C43_partition (x : Matrix (Fin N) (Fin p) K) (y : Option (Vec K N)) (columns : Option (List String)) (labels : List String) (ffi fri : Bool)
    (mustFe mustRe : Option (List String)) (P : LmeProblem K) (h : lmeFromXY x y columns labels ffi fri mustFe mustRe = .ok P) :
    ∃ (g v : Fin p) (blocks : List (List (Fin N))), labels[(g : ℕ)]? = some GROUP ∧ labels[(v : ℕ)]? = some VARIANCE ∧
      -- groups are listed by increasing label without repetitions, and are exactly the labels that occur
      P.groupLabels.Pairwise (· < ·) ∧ (∀ l, l ∈ P.groupLabels ↔ ∃ r, x r g = l) ∧
      -- the rows of a group are exactly those carrying its label, in their original order
      List.Forall₂ (fun l b => (∀ r, r ∈ b ↔ x r g = l) ∧ b.Pairwise (· < ·)) P.groupLabels blocks ∧
      -- every row is in exactly one group
      blocks.flatten.Perm (List.finRange N) ∧ blocks.flatten.map Fin.val = P.orderOfObjects ∧
      -- sizes
      P.groupsSizes = blocks.map List.length ∧ (∀ s ∈ P.groupsSizes, 0 < s) ∧ P.numObs = N ∧ P.numGroups = P.groupLabels.length ∧
      -- the data are stored in this order
      P.obsVars = blocks.map (List.map fun r => x r v) ∧ P.answers = y.map fun t => blocks.map (List.map t) := by
  obtain ⟨g, v, feW, reW, hg, hv, hlen, -, -, -, -, -, -, -, rfl⟩ := lmeFromXY_ok x y columns labels ffi fri mustFe mustRe P h
  have lab : ∀ (l : String) (i : Fin p), labelIdx labels (· = l) = [i] → labels[(i : ℕ)]? = some l := by
    intro l i hi
    have := (mem_labelIdx labels (· = l) i).1 (by rw [hi]; simp)
    have hlt : (i : ℕ) < labels.length := by rw [hlen]; exact i.2
    simp only [List.getD_eq_getElem?_getD, List.getElem?_eq_getElem hlt, Option.getD_some, decide_eq_true_eq] at this
    rw [List.getElem?_eq_getElem hlt, this]
  have hsizes : ∀ f : List (Fin p), ((uniqueLabels fun r => x r g).map fun l => (groupRows (fun r => x r g) l).map (designRow x ffi f)).map List.length =
      ((uniqueLabels fun r => x r g).map (groupRows fun r => x r g)).map List.length := by
    intro f; simp
  refine ⟨g, v, (uniqueLabels fun r => x r g).map (groupRows fun r => x r g), lab _ g hg, lab _ v hv, uniqueLabels_sorted _, uniqueLabels_mem _, ?_, ?_, ?_, ?_, ?_, ?_, ?_, ?_, ?_⟩
  · rw [List.forall₂_map_right_iff]
    exact List.forall₂_same.2 fun l _ => ⟨groupRows_mem _ l, groupRows_sorted _ l⟩
  · rw [← List.flatMap_def]; exact order_perm _
  · rw [← List.flatMap_def]
  · exact hsizes _
  · intro s hs
    unfold LmeProblem.groupsSizes at hs
    rw [hsizes] at hs
    obtain ⟨b, hb, rfl⟩ := List.mem_map.1 hs
    obtain ⟨l, hl, rfl⟩ := List.mem_map.1 hb
    obtain ⟨r, hr⟩ := (uniqueLabels_mem _ l).1 hl
    exact List.length_pos_of_mem ((groupRows_mem (fun r => x r g) l r).2 hr)
  · unfold LmeProblem.numObs LmeProblem.groupsSizes
    rw [hsizes, ← List.length_flatten, ← List.flatMap_def]
    simpa using (order_perm fun r => x r g).length_eq
  · simp [LmeProblem.numGroups, LmeProblem.groupsSizes]
  · simp
  · simp; rfl

/-- A small data set used in the examples: two groups, interleaved; one fixed, one random, one mixed column. -/
def exX : Matrix (Fin 3) (Fin 5) ℚ := !![7, 1, 2, 3, 1; 4, 5, 6, 8, 2; 7, 9, 1, 2, 3]

/-- Labels of the example. -/
def exLabels : List String := [GROUP, FIXED, RANDOM, FIXED_RANDOM, VARIANCE]

theorem exXY_ok (y : Option (Vec ℚ 3)) (columns : Option (List String)) (ffi fri : Bool) (hcols : columns = none ∨ (columns.getD []).length = 5) :
    ∃ P, lmeFromXY exX y columns exLabels ffi fri none none = .ok P := by
  refine lmeFromXY_succeeds exX y columns exLabels ffi fri none none 0 4 (by decide) (by decide) rfl (by decide) (by simp) ?_ ?_ (hcols.imp id .inr) (by simp) _ _ rfl rfl
  · intro r; fin_cases r <;> simp [exX]
  · intro r; fin_cases r
    · exact ⟨7, by simp [exX]⟩
    · exact ⟨4, by simp [exX]⟩
    · exact ⟨7, by simp [exX]⟩

/-- Non-vacuity of C43. -/
example : ∃ P, lmeFromXY exX (some ![1, 2, 3]) none exLabels true false none none = .ok P := exXY_ok _ _ _ _ (.inl rfl)

/-! ## C44 -/

theorem designRow_eq (x : Matrix (Fin N) (Fin p) K) (labels : List String) (hlen : labels.length = p) (b : Bool) (test : String → Bool) (r : Fin N) :
    designRow x b (labelIdx labels test) r = (if b then [1] else []) ++ selectBy test labels (List.ofFn (x r)) := by
  unfold designRow
  rw [labelIdx_map labels hlen]

theorem concatRandom_rows (l : List (List (List K))) : concatRandom (l.map RandomDesign.rows) = .ok l.flatten := by
  induction l with
  | nil => rfl
  | cons a l ih => simp [concatRandom, ih, Except.map]

theorem interceptLabelOf_fixed (a b : Bool) :
    (if interceptLabelOf a b = some FIXED ∨ interceptLabelOf a b = some FIXED_RANDOM then 1 else 0) = if a then 1 else 0 := by
  cases a <;> cases b <;> decide

theorem interceptLabelOf_random (a b : Bool) :
    (if interceptLabelOf a b = some RANDOM ∨ interceptLabelOf a b = some FIXED_RANDOM then 1 else 0) = if b then 1 else 0 := by
  cases a <;> cases b <;> decide

/-- **C44.** For every valid input with a target (any interleaving of groups and any intercept flags), `to_x_y` of the problem gives back the matrix, the target and the labels. -/
theorem C44_round_trip (x : Matrix (Fin N) (Fin p) K) (y : Vec K N) (columns : Option (List String)) (labels : List String) (ffi fri : Bool)
    (mustFe mustRe : Option (List String)) (P : LmeProblem K) (h : lmeFromXY x (some y) columns labels ffi fri mustFe mustRe = .ok P) :
    toXY P = .ok (List.ofFn fun r => List.ofFn (x r), List.ofFn y, labels) := by
  obtain ⟨g, v, feW, reW, hg, hv, hlen, hknown, hN, -, -, -, -, -, rfl⟩ := lmeFromXY_ok x (some y) columns labels ffi fri mustFe mustRe P h
  set G := uniqueLabels fun r => x r g with hG
  set rowsOf := groupRows fun r => x r g with hrows
  set o := G.flatMap rowsOf with ho
  have hperm : o.Perm (List.finRange N) := order_perm _
  have hN' := hN rfl
  have hne : G ≠ [] := by
    intro hcon
    have : x ⟨0, hN'⟩ g ∈ G := (uniqueLabels_mem _ _).2 ⟨_, rfl⟩
    rw [hcon] at this
    cases this
  have flat : ∀ {β : Type _} (f : Fin N → β), (G.map fun l => (rowsOf l).map f).flatten = o.map f := by
    intro β f
    rw [ho, List.map_flatMap, List.flatMap_def]
  have e1 : ∀ f : Fin N → List K, ((G.zip ((G.map fun l => (rowsOf l).map f).map List.length)).flatMap fun gs => List.replicate gs.2 gs.1) = o.map fun r => x r g := by
    intro f
    rw [ho, List.map_flatMap, List.map_map]
    have : G.zip (G.map (List.length ∘ fun l => (rowsOf l).map f)) = G.map fun l => (l, (rowsOf l).length) := by
      rw [List.zip_map_right]
      have : G.zip G = G.map fun l => (l, l) := by
        rw [← List.zip_map' ]; simp
      rw [this, List.map_map]
      apply List.map_congr_left
      intro l _
      simp
    rw [this, List.flatMap_map]
    apply List.flatMap_congr
    intro l _
    exact (groupRows_map_label (fun r => x r g) l).symm
  unfold toXY
  rw [if_neg (by simpa using hne)]
  simp only [LmeProblem.groupsSizes]
  rw [e1, flat, flat, show (G.map fun l => RandomDesign.rows ((rowsOf l).map (designRow x fri (labelIdx labels isRandom)))) =
    (G.map fun l => (rowsOf l).map (designRow x fri (labelIdx labels isRandom))).map RandomDesign.rows by simp, concatRandom_rows, flat]
  simp only [List.zip_map', bind, Except.bind, Option.map_some]
  have hmapM : ∀ Q : LmeProblem K, Q.columnLabels = labels → Q.interceptLabel = interceptLabelOf ffi fri →
      (o.map fun r => (x r g, x r v, designRow x ffi (labelIdx labels isFixed) r, designRow x fri (labelIdx labels isRandom) r)).mapM (tableRow Q) =
        .ok (o.map fun r => List.ofFn (x r)) := by
    intro Q hQ1 hQ2
    refine mapM_map_ok o _ _ _ fun r _ => ?_
    unfold tableRow
    simp only [hQ1, hQ2, interceptLabelOf_fixed, interceptLabelOf_random]
    have only : ∀ (l : String) (i : Fin p), labelIdx labels (· = l) = [i] → ∀ lv ∈ labels.zip (List.ofFn (x r)), lv.1 = l → lv.2 = x r i := by
      intro l i hi lv hlv hl
      rw [zip_ofFn labels hlen] at hlv
      obtain ⟨j, -, rfl⟩ := List.mem_map.1 hlv
      have : j ∈ labelIdx (p := p) labels (· = l) := (mem_labelIdx _ _ _).2 (by simpa using hl)
      rw [hi] at this
      rw [List.mem_singleton.1 this]
    refine fillRow_select _ _ _ _ labels _ _ _ (by simp [hlen]) hknown (only _ g hg) (only _ v hv) ?_ ?_
    · rw [designRow_eq x labels hlen]; cases ffi <;> rfl
    · rw [designRow_eq x labels hlen]; cases fri <;> rfl
  rw [hmapM _ rfl rfl]
  simp only
  rw [takeIdx_argsort o hperm, flat]
  simp only
  rw [takeIdx_argsort o hperm]
  rfl

/-- Non-vacuity of C44 (both intercepts). -/
example : ∃ P, lmeFromXY exX (some ![1, 2, 3]) none exLabels true true none none = .ok P ∧
    toXY P = .ok (List.ofFn fun r => List.ofFn (exX r), List.ofFn ![1, 2, 3], exLabels) :=
  (exXY_ok _ _ _ _ (.inl rfl)).imp fun P h => ⟨h, C44_round_trip _ _ _ _ _ _ _ _ P h⟩

/-! ## C45 -/

/-- **C45.** The design of each group: `blocks k` lists the rows of the `k`-th group (see C43); the row of object `r` is a leading one iff the intercept flag is set, then exactly the entries of the columns with the right label, in
input order; the reported numbers of effects are the widths of these rows. -/
theorem C45_designs (x : Matrix (Fin N) (Fin p) K) (y : Option (Vec K N)) (columns : Option (List String)) (labels : List String) (ffi fri : Bool)
    (mustFe mustRe : Option (List String)) (P : LmeProblem K) (h : lmeFromXY x y columns labels ffi fri mustFe mustRe = .ok P) :
    ∃ blocks : List (List (Fin N)), blocks.flatten.map Fin.val = P.orderOfObjects ∧ P.groupsSizes = blocks.map List.length ∧
      P.fixedFeatures = blocks.map (List.map fun r => (if ffi then [1] else []) ++
        ((labels.zip (List.ofFn (x r))).filter fun lv => lv.1 = "fixed" ∨ lv.1 = "fixed+random").map Prod.snd) ∧
      P.randomFeatures = blocks.map (fun b => .rows (b.map fun r => (if fri then [1] else []) ++
        ((labels.zip (List.ofFn (x r))).filter fun lv => lv.1 = "random" ∨ lv.1 = "fixed+random").map Prod.snd)) ∧
      (∀ m ∈ P.fixedFeatures, ∀ row ∈ m, row.length = P.numFixed) ∧
      (∀ m, RandomDesign.rows m ∈ P.randomFeatures → ∀ row ∈ m, row.length = P.numRandom) := by
  obtain ⟨g, v, feW, reW, hg, hv, hlen, -, -, -, -, -, -, -, rfl⟩ := lmeFromXY_ok x y columns labels ffi fri mustFe mustRe P h
  have eF : ∀ r, designRow x ffi (labelIdx labels isFixed) r = (if ffi then [1] else []) ++
      ((labels.zip (List.ofFn (x r))).filter fun lv => lv.1 = "fixed" ∨ lv.1 = "fixed+random").map Prod.snd := by
    intro r
    rw [designRow_eq x labels hlen, selectBy]
    congr 3
    funext lv
    rw [Bool.eq_iff_iff]
    simp [isFixed, FIXED, FIXED_RANDOM]
  have eR : ∀ r, designRow x fri (labelIdx labels isRandom) r = (if fri then [1] else []) ++
      ((labels.zip (List.ofFn (x r))).filter fun lv => lv.1 = "random" ∨ lv.1 = "fixed+random").map Prod.snd := by
    intro r
    rw [designRow_eq x labels hlen, selectBy]
    congr 3
    funext lv
    rw [Bool.eq_iff_iff]
    simp [isRandom, RANDOM, FIXED_RANDOM]
  have wF : ∀ r, (designRow x ffi (labelIdx labels isFixed) r).length = labels.countP (fun l => l = FIXED ∨ l = FIXED_RANDOM) + if ffi then 1 else 0 := by
    intro r
    have e : labels.countP (fun l => decide (l = FIXED ∨ l = FIXED_RANDOM)) = labels.countP isFixed := by congr 1; funext l; simp [isFixed]
    rw [e, ← labelIdx_length labels hlen]
    unfold designRow
    cases ffi <;> simp [Nat.add_comm]
  have wR : ∀ r, (designRow x fri (labelIdx labels isRandom) r).length = labels.countP (fun l => l = RANDOM ∨ l = FIXED_RANDOM) + if fri then 1 else 0 := by
    intro r
    have e : labels.countP (fun l => decide (l = RANDOM ∨ l = FIXED_RANDOM)) = labels.countP isRandom := by congr 1; funext l; simp [isRandom]
    rw [e, ← labelIdx_length labels hlen]
    unfold designRow
    cases fri <;> simp [Nat.add_comm]
  refine ⟨(uniqueLabels fun r => x r g).map (groupRows fun r => x r g), by rw [← List.flatMap_def], by simp [LmeProblem.groupsSizes], ?_, ?_, ?_, ?_⟩
  · simp only [List.map_map, Function.comp_def, ← eF]
  · simp only [List.map_map, Function.comp_def, ← eR]
  · intro m hm row hrow
    simp only [List.mem_map] at hm
    obtain ⟨l, -, rfl⟩ := hm
    obtain ⟨r, -, rfl⟩ := List.mem_map.1 hrow
    rw [wF]
    unfold LmeProblem.numFixed
    rw [interceptLabelOf_fixed]
  · intro m hm row hrow
    simp only [List.mem_map, RandomDesign.rows.injEq] at hm
    obtain ⟨l, -, rfl⟩ := hm
    obtain ⟨r, -, rfl⟩ := List.mem_map.1 hrow
    rw [wR]
    unfold LmeProblem.numRandom
    rw [interceptLabelOf_random]

/-- The example has two fixed effects plus intercept and two random effects. -/
example : ∃ P, lmeFromXY exX none none exLabels true false none none = .ok P ∧ P.numFixed = 3 ∧ P.numRandom = 2 := by
  obtain ⟨P, h⟩ := exXY_ok none none true false (.inl rfl)
  refine ⟨P, h, ?_⟩
  obtain ⟨g, v, feW, reW, -, -, -, -, -, -, -, -, -, -, rfl⟩ := lmeFromXY_ok _ _ _ _ _ _ _ _ P h
  refine ⟨?_, ?_⟩
  · change exLabels.countP (fun l => l = FIXED ∨ l = FIXED_RANDOM) +
      (if interceptLabelOf true false = some FIXED ∨ interceptLabelOf true false = some FIXED_RANDOM then 1 else 0) = 3
    decide
  · change exLabels.countP (fun l => l = RANDOM ∨ l = FIXED_RANDOM) +
      (if interceptLabelOf true false = some RANDOM ∨ interceptLabelOf true false = some FIXED_RANDOM then 1 else 0) = 2
    decide

/-! ## C46 -/

/-- Optional arguments that fit together: names for all columns, must-include lists only with names, a list for the random effects only with one for the fixed effects. -/
def ConsistentArgs (p : ℕ) (columns mustFe mustRe : Option (List String)) : Prop :=
  (∀ cs, columns = some cs → cs.length = p) ∧ (columns = none → mustFe = none ∧ mustRe = none) ∧ (mustRe ≠ none → mustFe ≠ none)

theorem regWeightsOf_ok (must inc columns : Option (List String)) (idx : List (Fin p)) (num : ℕ)
    (hc : ∀ cs, columns = some cs → cs.length = p) (hm : must ≠ none → inc ≠ none ∧ columns ≠ none) :
    ∃ w, regWeightsOf (K := K) must inc columns (idx.map Fin.val) num = .ok w := by
  unfold regWeightsOf
  match must with
  | none => exact ⟨_, rfl⟩
  | some [] => exact ⟨_, rfl⟩
  | some (m :: ms) =>
    obtain ⟨h1, h2⟩ := hm (by simp)
    match inc, columns with
    | none, _ => exact absurd rfl h1
    | some _, none => exact absurd rfl h2
    | some i, some cs =>
      have : (idx.map Fin.val).all (· < cs.length) = true := by
        rw [hc cs rfl]
        simp
      simp only [this, if_true]
      exact ⟨_, rfl⟩

/-- **C46.** Given integer group labels and optional arguments that fit together, `from_x_y` (with a target) succeeds exactly when there is a row, all labels are known, there is one label per column, exactly one group column,
exactly one variance column and no variance is zero. -/
theorem C46_validation (x : Matrix (Fin N) (Fin p) K) (y : Vec K N) (columns : Option (List String)) (labels : List String) (ffi fri : Bool)
    (mustFe mustRe : Option (List String)) (hargs : ConsistentArgs p columns mustFe mustRe)
    (hint : ∀ (g : Fin p), labels[(g : ℕ)]? = some GROUP → ∀ r, IntValued (x r g)) :
    (∃ P, lmeFromXY x (some y) columns labels ffi fri mustFe mustRe = .ok P) ↔
      0 < N ∧ (∀ l ∈ labels, l ∈ ["group", "variance", "fixed", "random", "fixed+random"]) ∧ labels.length = p ∧ labels.count "group" = 1 ∧ labels.count "variance" = 1 ∧
      ∀ (v : Fin p), labels[(v : ℕ)]? = some "variance" → ∀ r, x r v ≠ 0 := by
  have known : ∀ l, isKnown l = true ↔ l ∈ ["group", "variance", "fixed", "random", "fixed+random"] := by
    intro l
    simp [isKnown, GROUP, VARIANCE, FIXED, RANDOM, FIXED_RANDOM]
    tauto
  have lab : labels.length = p → ∀ (l : String) (i : Fin p), labels[(i : ℕ)]? = some l ↔ i ∈ labelIdx labels (· = l) := by
    intro hlen l i
    rw [mem_labelIdx]
    have hlt : (i : ℕ) < labels.length := by rw [hlen]; exact i.2
    simp [List.getD_eq_getElem?_getD, List.getElem?_eq_getElem hlt]
  constructor
  · rintro ⟨P, h⟩
    obtain ⟨g, v, feW, reW, hg, hv, hlen, hknown, hN, hvar, -, -, -, -, -⟩ := lmeFromXY_ok x (some y) columns labels ffi fri mustFe mustRe P h
    refine ⟨hN rfl, fun l hl => (known l).1 (hknown l hl), hlen, (labelIdx_singleton labels hlen GROUP).1 ⟨g, hg⟩, (labelIdx_singleton labels hlen VARIANCE).1 ⟨v, hv⟩, ?_⟩
    intro v' hv' r
    have := (lab hlen _ v').1 hv'
    change v' ∈ labelIdx labels (· = VARIANCE) at this
    rw [hv] at this
    rw [List.mem_singleton.1 this]
    exact hvar r
  · rintro ⟨hN, hknown, hlen, hg, hv, hvar⟩
    obtain ⟨g, hg⟩ := (labelIdx_singleton labels hlen GROUP).2 hg
    obtain ⟨v, hv⟩ := (labelIdx_singleton labels hlen VARIANCE).2 hv
    obtain ⟨h1, h2, h3⟩ := hargs
    have hmf : mustFe ≠ none → columns ≠ none := fun hm hc => hm (h2 hc).1
    have hmr : mustRe ≠ none → columns ≠ none := fun hm hc => hm (h2 hc).2
    obtain ⟨feW, hfe⟩ := regWeightsOf_ok (K := K) mustFe mustFe columns (labelIdx (p := p) labels isFixed) ((labelIdx (p := p) labels isFixed).length + ffi.toNat) h1
      fun hm => ⟨hm, hmf hm⟩
    obtain ⟨reW, hre⟩ := regWeightsOf_ok (K := K) mustRe mustFe columns (labelIdx (p := p) labels isRandom) ((labelIdx (p := p) labels isRandom).length + fri.toNat) h1
      fun hm => ⟨h3 hm, hmr hm⟩
    refine lmeFromXY_succeeds x (some y) columns labels ffi fri mustFe mustRe g v hg hv hlen (fun l hl => (known l).2 (hknown l hl)) (fun _ => hN)
      (hvar v ((lab hlen _ v).2 (by rw [show ("variance" : String) = VARIANCE from rfl, hv]; simp)))
      (hint g ((lab hlen _ g).2 (by rw [hg]; simp))) ?_ h2 feW reW hfe hre
    cases columns with
    | none => exact .inl rfl
    | some cs => exact .inr (.inr (h1 cs rfl))

/-- **C46**, the exception: what is rejected for one of these reasons raises `AssertionError` (an empty table: `ValueError`). -/
theorem C46_rejection (x : Matrix (Fin N) (Fin p) K) (y : Vec K N) (columns : Option (List String)) (labels : List String) (ffi fri : Bool)
    (mustFe mustRe : Option (List String)) (hNp : 0 < N ∧ 0 < p)
    (hbad : (∃ l ∈ labels, l ∉ ["group", "variance", "fixed", "random", "fixed+random"]) ∨ labels.length ≠ p ∨ labels.count "group" ≠ 1 ∨ labels.count "variance" ≠ 1 ∨
      ∃ (v : Fin p), labels[(v : ℕ)]? = some "variance" ∧ ∃ r, x r v = 0) :
    lmeFromXY x (some y) columns labels ffi fri mustFe mustRe = .error .assertionError := by
  unfold lmeFromXY
  rw [if_neg (by rintro ⟨-, h | h⟩ <;> omega)]
  by_cases h1 : ¬ (labels.all isKnown = true)
  · rw [if_pos h1]
  rw [if_neg h1]
  by_cases h2 : labels.length ≠ p
  · rw [if_pos h2]
  rw [if_neg h2]
  · have hlen : labels.length = p := by simpa using h2
    split
    · rename_i g hg
      split
      · rename_i v hv
        unfold fromXYCore
        rw [if_pos]
        rcases hbad with ⟨l, hl, hl'⟩ | hb | hb | hb | ⟨v', hv', hr⟩
        · exfalso
          apply hl'
          have := (List.all_eq_true.1 (by simpa using h1)) l hl
          simp [isKnown, GROUP, VARIANCE, FIXED, RANDOM, FIXED_RANDOM] at this
          simp
          tauto
        · exact absurd hlen hb
        · exact absurd ((labelIdx_singleton labels hlen GROUP).1 ⟨g, hg⟩) hb
        · exact absurd ((labelIdx_singleton labels hlen VARIANCE).1 ⟨v, hv⟩) hb
        · have : v' ∈ labelIdx (p := p) labels (· = VARIANCE) := by
            rw [mem_labelIdx]
            have hlt : (v' : ℕ) < labels.length := by rw [hlen]; exact v'.2
            rw [List.getElem?_eq_getElem hlt] at hv'
            simp only [Option.some.injEq] at hv'
            simp [List.getD_eq_getElem?_getD, List.getElem?_eq_getElem hlt, hv', VARIANCE]
          rw [hv] at this
          rw [← List.mem_singleton.1 this]
          exact hr
      · rfl
    · rfl

/-- Non-vacuity of C46: names and must-include lists that fit the example. -/
example : ConsistentArgs 5 (some ["g", "a", "b", "c", "v"]) (some ["a"]) (some []) ∧
    (∀ (g : Fin 5), exLabels[(g : ℕ)]? = some GROUP → ∀ r, IntValued (exX r g)) := by
  refine ⟨⟨by simp, by simp, by simp⟩, ?_⟩
  intro g hg r
  have : g = 0 := by
    revert hg; revert g; decide
  subst this
  fin_cases r
  · exact ⟨7, by simp [exX]⟩
  · exact ⟨4, by simp [exX]⟩
  · exact ⟨7, by simp [exX]⟩

end Verif
