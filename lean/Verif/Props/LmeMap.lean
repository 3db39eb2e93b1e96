import Verif.Model.LmeMap
import Verif.Props.LmeColumns

/-!
# C62: the fixed-to-random feature map
-/

namespace Verif

/-- Where the columns of a design matrix come from, in order: `none` is the constant column, `some c` column `c` of the
data. -/
def effectSources {p : ℕ} (intercept : Bool) (test : String → Bool) (label : Fin p → String) : List (Option (Fin p)) :=
  (if intercept then [none] else []) ++ ((List.finRange p).filter fun c => test (label c)).map some

/-- What the loop appends to the part of the array already written. -/
def mapTail : List String → ℕ → List ℤ
  | [], _ => []
  | l :: ls, g =>
    if l = FIXED then -1 :: mapTail ls g
    else if l = RANDOM then mapTail ls (g + 1)
    else if l = FIXED_RANDOM then (g : ℤ) :: mapTail ls (g + 1)
    else mapTail ls g

theorem mapLoop_eq (ls : List String) : ∀ (b g : ℕ) (m : List ℤ), m.length = b + ls.countP isFixed →
    mapLoop ls b g m = .ok (m.take b ++ mapTail ls g) := by
  induction ls with
  | nil =>
    intro b g m hm
    simp only [List.countP_nil, add_zero] at hm
    simp [mapLoop, mapTail, ← hm]
  | cons l ls ih =>
    intro b g m hm
    rw [List.countP_cons] at hm
    unfold mapLoop mapTail
    by_cases h1 : l = FIXED
    · have e : isFixed l = true := by simp [isFixed, h1]
      rw [if_pos e] at hm
      rw [if_pos h1, if_pos h1, if_pos (by omega), ih _ _ _ (by rw [List.length_set]; omega)]
      congr 1
      rw [List.take_succ, List.take_set_of_le (le_refl b), List.getElem?_set_self (by omega)]
      simp
    rw [if_neg h1, if_neg h1]
    by_cases h2 : l = RANDOM
    · have e : isFixed l = false := by subst h2; decide
      rw [e] at hm
      rw [if_pos h2, if_pos h2, ih _ _ _ (by simpa using hm)]
    rw [if_neg h2, if_neg h2]
    by_cases h3 : l = FIXED_RANDOM
    · have e : isFixed l = true := by simp [isFixed, h3]
      rw [if_pos e] at hm
      rw [if_pos h3, if_pos h3, if_pos (by omega), ih _ _ _ (by rw [List.length_set]; omega)]
      congr 1
      rw [List.take_succ, List.take_set_of_le (le_refl b), List.getElem?_set_self (by omega)]
      simp
    rw [if_neg h3, if_neg h3]
    have e : isFixed l = false := by simp [isFixed, h1, h3]
    rw [e] at hm
    rw [ih _ _ _ (by simpa using hm)]

theorem mapTail_eq {α : Type*} [BEq α] [LawfulBEq α] (L : List (α × String)) : ∀ g : ℕ, (L.map Prod.fst).Nodup →
    mapTail (L.map Prod.snd) g = ((L.filter fun e => isFixed e.2).map Prod.fst).map fun s =>
      if s ∈ (L.filter fun e => isRandom e.2).map Prod.fst then
        (g : ℤ) + (((L.filter fun e => isRandom e.2).map Prod.fst).idxOf s : ℕ) else -1 := by
  induction L with
  | nil => intro g _; rfl
  | cons e L ih =>
    obtain ⟨s, l⟩ := e
    intro g hnd
    rw [List.map_cons, List.nodup_cons] at hnd
    obtain ⟨hs, hnd⟩ := hnd
    have hsub : ∀ t : (α × String) → Bool, s ∉ (L.filter t).map Prod.fst := by
      intro t ht
      obtain ⟨e, he, rfl⟩ := List.mem_map.1 ht
      exact hs (List.mem_map.2 ⟨e, List.mem_of_mem_filter he, rfl⟩)
    have pos : ∀ t : String → Bool, t l = true →
        (((s, l) :: L).filter fun e => t e.2).map Prod.fst = s :: (L.filter fun e => t e.2).map Prod.fst := by
      intro t ht
      simp [List.filter_cons, ht]
    have neg : ∀ t : String → Bool, t l = false →
        (((s, l) :: L).filter fun e => t e.2).map Prod.fst = (L.filter fun e => t e.2).map Prod.fst := by
      intro t ht
      simp [List.filter_cons, ht]
    rw [List.map_cons]
    unfold mapTail
    by_cases h1 : l = FIXED
    · have e1 : isFixed l = true := by simp [isFixed, h1]
      have e2 : isRandom l = false := by subst h1; decide
      rw [if_pos h1, pos _ e1, neg _ e2, List.map_cons, if_neg (hsub _), ih g hnd]
    rw [if_neg h1]
    have shift : ∀ f : List α, s ∉ f → f.map (fun s' => if s' ∈ (L.filter fun e => isRandom e.2).map Prod.fst then
          ((g + 1 : ℕ) : ℤ) + (((L.filter fun e => isRandom e.2).map Prod.fst).idxOf s' : ℕ) else -1)
        = f.map (fun s' => if s' ∈ s :: (L.filter fun e => isRandom e.2).map Prod.fst then
          (g : ℤ) + ((s :: (L.filter fun e => isRandom e.2).map Prod.fst).idxOf s' : ℕ) else -1) := by
      intro f hf
      refine List.map_congr_left fun s' hs' => ?_
      have hne : s' ≠ s := fun h => hf (h ▸ hs')
      by_cases hm : s' ∈ (L.filter fun e => isRandom e.2).map Prod.fst
      · rw [if_pos hm, if_pos (List.mem_cons_of_mem _ hm), List.idxOf_cons_ne _ (Ne.symm hne)]
        push_cast
        ring
      · rw [if_neg hm, if_neg]
        rw [List.mem_cons, not_or]
        exact ⟨hne, hm⟩
    by_cases h2 : l = RANDOM
    · have e1 : isFixed l = false := by subst h2; decide
      have e2 : isRandom l = true := by simp [isRandom, h2]
      rw [if_pos h2, neg _ e1, pos _ e2, ih _ hnd]
      exact shift _ (hsub _)
    rw [if_neg h2]
    by_cases h3 : l = FIXED_RANDOM
    · have e1 : isFixed l = true := by simp [isFixed, h3]
      have e2 : isRandom l = true := by simp [isRandom, h3]
      rw [if_pos h3, pos _ e1, pos _ e2, List.map_cons, ih _ hnd, shift _ (hsub _)]
      simp
    rw [if_neg h3]
    have e1 : isFixed l = false := by simp [isFixed, h1, h3]
    have e2 : isRandom l = false := by simp [isRandom, h2, h3]
    rw [neg _ e1, neg _ e2, ih g hnd]

/-- Columns with their labels, the constant column first. -/
def labelledSources {p : ℕ} (intercept : Option String) (label : Fin p → String) : List (Option (Fin p) × String) :=
  intercept.toList.map (fun l => (none, l)) ++ (List.finRange p).map fun c => (some c, label c)

theorem labelledSources_nodup {p : ℕ} (i : Option String) (label : Fin p → String) :
    ((labelledSources i label).map Prod.fst).Nodup := by
  unfold labelledSources
  rw [List.map_append, List.map_map, List.map_map]
  refine List.Nodup.append ?_ ?_ ?_
  · cases i <;> simp
  · exact (List.nodup_finRange p).map (fun a b h => by simpa using h)
  · intro s h1 h2
    obtain ⟨l, -, rfl⟩ := List.mem_map.1 h1
    obtain ⟨c, -, h⟩ := List.mem_map.1 h2
    simp at h

theorem labelledSources_filter {p : ℕ} (i : Option String) (label : Fin p → String) (test : String → Bool) (b : Bool)
    (hb : i.any test = b) :
    ((labelledSources i label).filter fun e => test e.2).map Prod.fst = effectSources b test label := by
  unfold labelledSources effectSources
  rw [List.filter_append, List.map_append, List.filter_map, List.filter_map, List.map_map, List.map_map]
  congr 1
  subst hb
  cases i with
  | none => rfl
  | some l => by_cases h : test l <;> simp [h, Function.comp_def]

variable {K : Type*} [Field K] [LinearOrder K] [IsStrictOrderedRing K] {N p : ℕ}

theorem betaToGammaMap_eq (P : LmeProblem K) (ffi fri : Bool) (hi : P.interceptLabel = interceptLabelOf ffi fri)
    (label : Fin p → String) (hl : P.columnLabels = List.ofFn label) :
    betaToGammaMap P = .ok ((effectSources ffi isFixed label).map fun s =>
      if s ∈ effectSources fri isRandom label then ((effectSources fri isRandom label).idxOf s : ℤ) else -1) := by
  unfold betaToGammaMap
  have e : P.interceptLabel.toList ++ P.columnLabels
      = (labelledSources P.interceptLabel label).map Prod.snd := by
    unfold labelledSources
    rw [List.map_append, List.map_map, List.map_map, hl, List.ofFn_eq_map]
    congr 1
    simp [Function.comp_def]
  have hf : P.interceptLabel.any isFixed = ffi := by rw [hi]; cases ffi <;> cases fri <;> decide
  have hr : P.interceptLabel.any isRandom = fri := by rw [hi]; cases ffi <;> cases fri <;> decide
  rw [mapLoop_eq _ _ _ _ ?_]
  · rw [e, mapTail_eq _ 0 (labelledSources_nodup _ _), labelledSources_filter _ _ _ _ hf,
      labelledSources_filter _ _ _ _ hr]
    simp only [List.take_zero, List.nil_append, Nat.cast_zero, zero_add, Except.ok.injEq]
  · rw [List.length_replicate, numFixed_eq P ffi fri hi, List.countP_append, zero_add, add_comm]
    congr 1
    rw [hi]
    cases ffi <;> cases fri <;> decide

theorem effectSources_nodup (b : Bool) (test : String → Bool) (label : Fin p → String) :
    (effectSources b test label).Nodup := by
  unfold effectSources
  refine List.Nodup.append ?_ ?_ ?_
  · cases b <;> simp
  · exact ((List.nodup_finRange p).filter _).map (fun a b h => by simpa using h)
  · intro s h1 h2
    obtain ⟨c, -, rfl⟩ := List.mem_map.1 h2
    cases b <;> simp at h1

/-- **C62**: for every problem built by `from_x_y`, with any labels and both intercept flags, the oracle's map has one
entry per fixed effect; entry `a` is `b` exactly if fixed effect `a` and random effect `b` come from the same column
of the data (or both from the intercept), and `-1` exactly if no random effect comes from the column of fixed effect
`a`.  `F` and `R` list the sources of the effects: the rows of the design matrices are the values at these sources. -/
theorem C62_beta_to_gamma_map (x : Matrix (Fin N) (Fin p) K) (y : Option (Vec K N)) (columns : Option (List String))
    (labels : List String) (ffi fri : Bool) (mustFe mustRe : Option (List String)) (P : LmeProblem K)
    (h : lmeFromXY x y columns labels ffi fri mustFe mustRe = .ok P) :
    ∃ (F R : List (Option (Fin p))) (m : List ℤ),
      (∀ g ∈ P.fixedFeatures, ∀ row ∈ g, ∃ r, row = F.map fun s => s.elim 1 (x r)) ∧
      (∀ g ∈ P.randomFeatures, ∃ rows, g = .rows rows ∧ ∀ row ∈ rows, ∃ r, row = R.map fun s => s.elim 1 (x r)) ∧
      F.Nodup ∧ R.Nodup ∧ (none ∈ F ↔ ffi = true) ∧ (none ∈ R ↔ fri = true) ∧
      (∀ c : Fin p, some c ∈ F ↔ labels[c.1]? = some FIXED ∨ labels[c.1]? = some FIXED_RANDOM) ∧
      (∀ c : Fin p, some c ∈ R ↔ labels[c.1]? = some RANDOM ∨ labels[c.1]? = some FIXED_RANDOM) ∧
      betaToGammaMap P = .ok m ∧ m.length = P.numFixed ∧ F.length = P.numFixed ∧ R.length = P.numRandom ∧
      ∀ (a : ℕ) (s : Option (Fin p)), F[a]? = some s →
        (∀ b : ℕ, m[a]? = some (b : ℤ) ↔ R[b]? = some s) ∧ (m[a]? = some (-1) ↔ s ∉ R) := by
  obtain ⟨g, v, feW, reW, -, -, hlen, -, -, -, -, -, -, -, rfl⟩ :=
    lmeFromXY_ok x y columns labels ffi fri mustFe mustRe P h
  obtain ⟨label, hlab⟩ : ∃ label : Fin p → String, label = fun c => labels.getD c.1 "" := ⟨_, rfl⟩
  have hl : labels = List.ofFn label := by
    refine List.ext_getElem (by simp [hlen]) fun i h1 h2 => ?_
    simp [hlab, h1]
  have hget : ∀ c : Fin p, labels[c.1]? = some (label c) := by
    intro c
    rw [hl]
    simp
  have hdes : ∀ (b : Bool) (test : String → Bool) (r : Fin N),
      designRow x b (labelIdx labels test) r = (effectSources b test label).map fun s => s.elim 1 (x r) := by
    intro b test r
    unfold designRow effectSources labelIdx
    rw [List.map_append, List.map_map, hlab]
    congr 1
    cases b <;> rfl
  have hmem : ∀ (b : Bool) (test : String → Bool) (c : Fin p),
      some c ∈ effectSources b test label ↔ test (label c) = true := by
    intro b test c
    unfold effectSources
    cases b <;> simp
  have hnone : ∀ (b : Bool) (test : String → Bool), none ∈ effectSources b test label ↔ b = true := by
    intro b test
    unfold effectSources
    cases b <;> simp
  have hcard : ∀ (b : Bool) (test : String → Bool), (effectSources b test label).length
      = labels.countP test + b.toNat := by
    intro b test
    unfold effectSources
    rw [List.length_append, List.length_map, ← labelIdx_length labels hlen, add_comm]
    unfold labelIdx
    rw [hlab]
    cases b <;> rfl
  refine ⟨effectSources ffi isFixed label, effectSources fri isRandom label, _, ?_, ?_, effectSources_nodup _ _ _,
    effectSources_nodup _ _ _, hnone _ _, hnone _ _, ?_, ?_, betaToGammaMap_eq _ ffi fri rfl label hl, ?_, ?_, ?_, ?_⟩
  · intro gm hg row hrow
    obtain ⟨l, -, rfl⟩ := List.mem_map.1 hg
    obtain ⟨r, -, rfl⟩ := List.mem_map.1 hrow
    exact ⟨r, hdes _ _ _⟩
  · intro gm hg
    obtain ⟨l, -, rfl⟩ := List.mem_map.1 hg
    refine ⟨_, rfl, fun row hrow => ?_⟩
    obtain ⟨r, -, rfl⟩ := List.mem_map.1 hrow
    exact ⟨r, hdes _ _ _⟩
  · intro c
    rw [hmem, hget c]
    simp [isFixed]
  · intro c
    rw [hmem, hget c]
    simp [isRandom]
  · rw [List.length_map, hcard, numFixed_eq _ ffi fri rfl]
  · rw [hcard, numFixed_eq _ ffi fri rfl]
  · rw [hcard, numRandom_eq _ ffi fri rfl]
  · intro a s hs
    rw [List.getElem?_map, hs]
    simp only [Option.map_some, Option.some.injEq]
    by_cases hm : s ∈ effectSources fri isRandom label
    · rw [if_pos hm]
      refine ⟨fun b => ?_, ?_⟩
      · rw [Nat.cast_inj]
        constructor
        · rintro rfl
          exact List.getElem?_idxOf hm
        · intro hb
          obtain ⟨hb1, hb2⟩ := List.getElem?_eq_some_iff.1 hb
          rw [← hb2]
          exact (effectSources_nodup _ _ _).idxOf_getElem b hb1
      · constructor
        · intro hc; omega
        · intro hc; exact absurd hm hc
    · rw [if_neg hm]
      refine ⟨fun b => ?_, ?_⟩
      · constructor
        · intro hc; omega
        · intro hb; exact absurd (List.mem_of_getElem? hb) hm
      · simp [hm]

/-- C62 on a concrete problem: labels `group, fixed, random, fixed+random, variance` with a random intercept only. The
fixed effects are columns 1 and 3; the random ones the intercept and columns 2, 3. -/
example (P : LmeProblem ℚ) (h1 : P.interceptLabel = some RANDOM)
    (h2 : P.columnLabels = [GROUP, FIXED, RANDOM, FIXED_RANDOM, VARIANCE]) : betaToGammaMap P = .ok [-1, 2] := by
  unfold betaToGammaMap LmeProblem.numFixed
  rw [h1, h2]
  decide

/-- The hypothesis of C62 can be met: the table `exX` of the examples on `from_x_y`. -/
example : ∃ (P : LmeProblem ℚ) (m : List ℤ), lmeFromXY exX none (some ["g", "a", "b", "c", "v"]) exLabels true true
    (some ["a"]) (some ["intercept", "b"]) = .ok P ∧ betaToGammaMap P = .ok m ∧ m.length = P.numFixed := by
  obtain ⟨⟨P, h, -⟩, -⟩ := C47_random_violated
  obtain ⟨F, R, m, -, -, -, -, -, -, -, -, hm, hl, -⟩ := C62_beta_to_gamma_map _ _ _ _ _ _ _ _ P h
  exact ⟨P, m, h, hm, hl⟩

end Verif
