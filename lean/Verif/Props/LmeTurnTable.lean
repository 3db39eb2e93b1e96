import Verif.Props.LmeTurnFit
import Verif.Props.LmeReorder
import Verif.Props.LmeMap

/-!
# Mixed models and the order and signs of the columns of a table
-/

namespace Verif

open Matrix

variable {N k : ℕ}

/-! ## Specification -/

/-- The columns of a table which are effects of the given kind (`"fixed"` or `"random"`), in order; `none` stands for the constant column of an intercept. -/
def effectCols (k : ℕ) (labels : List String) (kind : String) (intercept : Bool) : List (Option (Fin k)) :=
  (if intercept then [none] else []) ++
    ((List.finRange k).filter fun j => labels.getD j.1 "" = kind ∨ labels.getD j.1 "" = "fixed+random").map some

/-- The fitted coefficients given by fixed effects `β`, variances `γ` and random effects `u` of the groups `G`, all three as functions of the columns. -/
noncomputable def coefOf (k : ℕ) (labels : List String) (ffi fri : Bool) (β γ : Option (Fin k) → ℝ) (u : ℝ → Option (Fin k) → ℝ) (G : List ℝ) : LmeCoef where
  beta := (effectCols k labels "fixed" ffi).map β
  gamma := (effectCols k labels "random" fri).map γ
  randomEffects := G.map fun l => (effectCols k labels "random" fri).map (u l)
  groupLabels := G
  perGroup := G.map fun l => (none :: (List.finRange k).map some).map fun e =>
    (if e ∈ effectCols k labels "fixed" ffi then β e else 0) + (if e ∈ effectCols k labels "random" fri then u l e else 0)

/-- `x'` with `labels'` has the columns of `x` with `labels` in the order `π`, some of them with opposite sign, but not those of the groups and variances. -/
structure Moved (labels labels' : List String) (π : Equiv.Perm (Fin k)) (ε : Fin k → ℝ) (x x' : Matrix (Fin N) (Fin k) ℝ) : Prop where
  count : labels'.length = k
  label : ∀ j, labels'.getD j.1 "" = labels.getD (π j).1 ""
  entry : ∀ r j, x' r j = ε j * x r (π j)
  sign : ∀ j, ε j = 1 ∨ ε j = -1
  kept : ∀ j, labels'.getD j.1 "" = "group" ∨ labels'.getD j.1 "" = "variance" → ε j = 1

/-- The sign of an effect if columns have the signs `ε` and the target has the sign `s`. -/
def effectSign (s : ℝ) (ε : Fin k → ℝ) : Option (Fin k) → ℝ
  | none => s
  | some j => s * ε j

/-- Arguments of `fit`, given per column, which go with each other: an explicit start or the default one (which consists of ones, so that the signs of the fixed effects have
to be kept), weights or none. -/
structure MovedArgs (labels labels' : List String) (π : Equiv.Perm (Fin k)) (ε : Fin k → ℝ) (s : ℝ) (ffi fri : Bool) (a a' : LmeFitArgs) : Prop where
  beta : (a.beta = none ∧ a'.beta = none ∧ ∀ e ∈ effectCols k labels' "fixed" ffi, effectSign s ε e = 1) ∨
    ∃ B : Option (Fin k) → ℝ, a.beta = some ((effectCols k labels "fixed" ffi).map B) ∧
      a'.beta = some ((effectCols k labels' "fixed" ffi).map fun e => effectSign s ε e * B (e.map π))
  gamma : (a.gamma = none ∧ a'.gamma = none) ∨ ∃ B : Option (Fin k) → ℝ, a.gamma = some ((effectCols k labels "random" fri).map B) ∧
      a'.gamma = some ((effectCols k labels' "random" fri).map fun e => B (e.map π))
  feWeights : (a.feWeights = none ∧ a'.feWeights = none) ∨ ∃ B : Option (Fin k) → ℝ, a.feWeights = some ((effectCols k labels "fixed" ffi).map B) ∧
      a'.feWeights = some ((effectCols k labels' "fixed" ffi).map fun e => B (e.map π))
  reWeights : (a.reWeights = none ∧ a'.reWeights = none) ∨ ∃ B : Option (Fin k) → ℝ, a.reWeights = some ((effectCols k labels "random" fri).map B) ∧
      a'.reWeights = some ((effectCols k labels' "random" fri).map fun e => B (e.map π))

/-! ## The columns -/

theorem effectCols_fixed (labels : List String) (i : Bool) : effectCols k labels "fixed" i = effectSources i isFixed fun c : Fin k => labels.getD c.1 "" := by
  unfold effectCols effectSources
  congr 3
  funext j
  simp [isFixed, FIXED, FIXED_RANDOM]

theorem effectCols_random (labels : List String) (i : Bool) : effectCols k labels "random" i = effectSources i isRandom fun c : Fin k => labels.getD c.1 "" := by
  unfold effectCols effectSources
  congr 3
  funext j
  simp [isRandom, RANDOM, FIXED_RANDOM]

theorem effectCols_nodup (labels : List String) (kind : String) (i : Bool) : (effectCols k labels kind i).Nodup := by
  unfold effectCols
  refine List.Nodup.append ?_ ?_ ?_
  · cases i <;> simp
  · exact ((List.nodup_finRange k).filter _).map (fun a b h => by simpa using h)
  · intro s h1 h2
    obtain ⟨c, -, rfl⟩ := List.mem_map.1 h2
    cases i <;> simp at h1

theorem mem_effectCols_none {labels : List String} {kind : String} {i : Bool} : none ∈ effectCols k labels kind i ↔ i = true := by
  unfold effectCols
  cases i <;> simp

theorem mem_effectCols_some {labels : List String} {kind : String} {i : Bool} {j : Fin k} :
    some j ∈ effectCols k labels kind i ↔ labels.getD j.1 "" = kind ∨ labels.getD j.1 "" = "fixed+random" := by
  unfold effectCols
  cases i <;> simp

/-- The value of an effect's column. -/
def colEntry (x : Matrix (Fin N) (Fin k) ℝ) (r : Fin N) (e : Option (Fin k)) : ℝ := e.elim 1 (x r)

theorem design_fixed (x : Matrix (Fin N) (Fin k) ℝ) (labels : List String) (i : Bool) (r : Fin N) :
    designRow x i (labelIdx labels isFixed) r = (effectCols k labels "fixed" i).map (colEntry x r) := by
  unfold designRow effectCols labelIdx
  rw [List.map_append, List.map_map]
  congr 1
  · cases i <;> rfl
  · change List.map (x r) _ = List.map (x r) _
    congr 2
    funext j
    simp [isFixed, FIXED, FIXED_RANDOM]

theorem design_random (x : Matrix (Fin N) (Fin k) ℝ) (labels : List String) (i : Bool) (r : Fin N) :
    designRow x i (labelIdx labels isRandom) r = (effectCols k labels "random" i).map (colEntry x r) := by
  unfold designRow effectCols labelIdx
  rw [List.map_append, List.map_map]
  congr 1
  · cases i <;> rfl
  · change List.map (x r) _ = List.map (x r) _
    congr 2
    funext j
    simp [isRandom, RANDOM, FIXED_RANDOM]

theorem exists_equiv_of_ofFn {α : Type*} {p p' : ℕ} {f : Fin p → α} {f' : Fin p' → α} (hf : Function.Injective f) (hf' : Function.Injective f')
    (h : ∀ a, a ∈ Set.range f ↔ a ∈ Set.range f') : ∃ e : Fin p' ≃ Fin p, ∀ i, f (e i) = f' i := by
  refine ⟨(Equiv.ofInjective f' hf').trans ((Equiv.setCongr (Set.ext fun a => (h a).symm)).trans (Equiv.ofInjective f hf).symm), fun i => ?_⟩
  exact congrArg Subtype.val ((Equiv.ofInjective f hf).apply_symm_apply _)

section moved
variable {labels labels' : List String} {π : Equiv.Perm (Fin k)} {ε : Fin k → ℝ} {x x' : Matrix (Fin N) (Fin k) ℝ} (h : Moved labels labels' π ε x x')
include h

theorem Moved.mem (kind : String) (i : Bool) (e : Option (Fin k)) : e ∈ effectCols k labels' kind i ↔ e.map π ∈ effectCols k labels kind i := by
  cases e with
  | none => rw [Option.map_none, mem_effectCols_none, mem_effectCols_none]
  | some j => rw [Option.map_some, mem_effectCols_some, mem_effectCols_some, h.label]

theorem Moved.colEntry {s : ℝ} (hs : s * s = 1) (r : Fin N) (e : Option (Fin k)) : Verif.colEntry x' r e = s * effectSign s ε e * Verif.colEntry x r (e.map π) := by
  cases e with
  | none => simp [Verif.colEntry, effectSign, hs]
  | some j =>
    simp only [Verif.colEntry, effectSign, Option.map_some, Option.elim]
    rw [h.entry, ← mul_assoc, hs, one_mul]

theorem Moved.effectSign_cases {s : ℝ} (hs : s = 1 ∨ s = -1) (e : Option (Fin k)) : effectSign s ε e = 1 ∨ effectSign s ε e = -1 := by
  cases e with
  | none => exact hs
  | some j =>
    simp only [effectSign]
    rcases hs with rfl | rfl <;> rcases h.sign j with e | e <;> rw [e] <;> norm_num

theorem Moved.special {l : String} (hl : l = "group" ∨ l = "variance") {g : Fin k} (hg : labelIdx labels (· = l) = [g]) :
    labelIdx labels' (· = l) = [π.symm g] ∧ ∀ r, x' r (π.symm g) = x r g := by
  have hm : ∀ j : Fin k, j ∈ labelIdx labels' (· = l) ↔ j = π.symm g := by
    intro j
    have := mem_labelIdx labels (· = l) (π j)
    rw [hg, List.mem_singleton] at this
    rw [mem_labelIdx, h.label, ← this]
    exact ⟨fun e => by rw [← e, π.symm_apply_apply], fun e => by rw [e, π.apply_symm_apply]⟩
  refine ⟨List.perm_singleton.1 ((List.perm_ext_iff_of_nodup ((List.nodup_finRange k).filter _) (List.nodup_singleton _)).2 fun j => ?_), fun r => ?_⟩
  · exact (hm j).trans List.mem_singleton.symm
  · have := (hm (π.symm g)).2 rfl
    rw [mem_labelIdx] at this
    have hl' : labels'.getD (π.symm g).1 "" = l := by simpa using this
    rw [h.entry, h.kept _ (by rw [hl']; exact hl), one_mul, π.apply_symm_apply]

theorem Moved.inPlace (hlen : labels.length = k) (hπ : π = 1) : labels' = labels := by
  refine List.ext_getElem (by rw [h.count, hlen]) fun i h1 h2 => ?_
  have := h.label ⟨i, by rw [← h.count]; exact h1⟩
  subst hπ
  simpa [List.getD_eq_getElem?_getD, List.getElem?_eq_getElem h1, List.getElem?_eq_getElem h2] using this

/-- The transformation of the effects. -/
theorem Moved.turn {p q p' q' : ℕ} {ffi fri : Bool} {F : Fin p → Option (Fin k)} {F' : Fin p' → Option (Fin k)} {R : Fin q → Option (Fin k)} {R' : Fin q' → Option (Fin k)}
    (hF : List.ofFn F = effectCols k labels "fixed" ffi) (hF' : List.ofFn F' = effectCols k labels' "fixed" ffi) (hR : List.ofFn R = effectCols k labels "random" fri)
    (hR' : List.ofFn R' = effectCols k labels' "random" fri) {s : ℝ} (hs : s = 1 ∨ s = -1) :
    ∃ T : Turn p q p' q', T.s = s ∧ (∀ i, F (T.σ i) = (F' i).map π) ∧ (∀ i, T.b i = effectSign s ε (F' i)) ∧ (∀ j, R (T.τ j) = (R' j).map π) ∧
      ∀ j, T.c j = effectSign s ε (R' j) := by
  have inj : ∀ {n : ℕ} {f : Fin n → Option (Fin k)} {labels : List String} {kind : String} {i : Bool}, List.ofFn f = effectCols k labels kind i → Function.Injective f := by
    intro n f labels kind i hf
    rw [← List.nodup_ofFn, hf]
    exact effectCols_nodup _ _ _
  have rng : ∀ {n n' : ℕ} {f : Fin n → Option (Fin k)} {f' : Fin n' → Option (Fin k)} {kind : String} {i : Bool}, List.ofFn f = effectCols k labels kind i →
      List.ofFn f' = effectCols k labels' kind i → ∃ e : Fin n' ≃ Fin n, ∀ i, f (e i) = (f' i).map π := by
    intro n n' f f' kind i hf hf'
    refine exists_equiv_of_ofFn (inj hf) ((Option.map_injective π.injective).comp (inj hf')) fun a => ?_
    rw [show a ∈ Set.range f ↔ a ∈ List.ofFn f from List.mem_ofFn.symm, hf]
    constructor
    · intro ha
      have e : (a.map π.symm).map π = a := by cases a <;> simp
      have := (h.mem kind i (a.map π.symm)).2 (by rwa [e])
      rw [← hf', List.mem_ofFn] at this
      obtain ⟨j, hj⟩ := this
      exact ⟨j, by simp only [hj, e]⟩
    · rintro ⟨j, rfl⟩
      refine (h.mem kind i (f' j)).1 ?_
      rw [← hf', List.mem_ofFn]
      exact ⟨j, rfl⟩
  obtain ⟨σ, hσ⟩ := rng hF hF'
  obtain ⟨τ, hτ⟩ := rng hR hR'
  exact ⟨⟨σ, τ, fun i => effectSign s ε (F' i), fun j => effectSign s ε (R' j), s, fun i => h.effectSign_cases hs _, fun j => h.effectSign_cases hs _, hs⟩,
    rfl, hσ, fun _ => rfl, hτ, fun _ => rfl⟩

end moved

theorem effectCols_length (P : LmeProblem ℝ) {labels : List String} (hlen : labels.length = k) {ffi fri : Bool} (hi : P.interceptLabel = interceptLabelOf ffi fri)
    (hl : P.columnLabels = labels) : (effectCols k labels "fixed" ffi).length = P.numFixed ∧ (effectCols k labels "random" fri).length = P.numRandom := by
  rw [numFixed_eq P ffi fri hi, numRandom_eq P ffi fri hi, hl, ← labelIdx_length labels hlen, ← labelIdx_length labels hlen]
  constructor
  · rw [effectCols_fixed]
    unfold effectSources labelIdx
    rw [List.length_append, List.length_map, add_comm]
    cases ffi <;> rfl
  · rw [effectCols_random]
    unfold effectSources labelIdx
    rw [List.length_append, List.length_map, add_comm]
    cases fri <;> rfl

theorem exists_ofFn {α : Type*} {l : List α} {n : ℕ} (h : l.length = n) : ∃ f : Fin n → α, List.ofFn f = l := by
  subst h
  exact ⟨l.get, List.ofFn_get l⟩

/-- A vector as a function of the columns. -/
theorem exists_ofFn_map {n : ℕ} {f : Fin n → Option (Fin k)} (hf : (List.ofFn f).Nodup) (v : Vec ℝ n) : ∃ B : Option (Fin k) → ℝ, ∀ i, v i = B (f i) :=
  ⟨Function.extend f v 0, fun i => ((List.nodup_ofFn.1 hf).extend_apply v 0 i).symm⟩

/-- `get_per_group_coefficients` adds up the effects of each column. -/
theorem perGroup_columns {α : Type*} (ls : List (String × α)) (B U : α → ℝ) (beta u : List ℝ) (fc rc : ℕ)
    (hb : beta.drop fc = (ls.filter fun l => isFixed l.1).map fun l => B l.2) (hu : u.drop rc = (ls.filter fun l => isRandom l.1).map fun l => U l.2) :
    perGroupCoefs beta u (ls.map Prod.fst) fc rc = .ok (ls.map fun l => (if isFixed l.1 then B l.2 else 0) + if isRandom l.1 then U l.2 else 0) := by
  have drop : ∀ {l : List ℝ} {n : ℕ} {a : ℝ} {t : List ℝ}, l.drop n = a :: t → l[n]? = some a ∧ l.drop (n + 1) = t := by
    intro l n a t hl
    constructor
    · rw [← Nat.add_zero n, ← List.getElem?_drop, hl]
      rfl
    · rw [← List.drop_drop, hl]
      rfl
  induction ls generalizing fc rc with
  | nil => rfl
  | cons l ls ih =>
    obtain ⟨l, e⟩ := l
    rw [List.map_cons, perGroupCoefs]
    by_cases h1 : l = FIXED
    · have e1 : isFixed l = true := by subst h1; decide
      have e2 : isRandom l = false := by subst h1; decide
      rw [List.filter_cons_of_pos (by exact e1), List.map_cons] at hb
      rw [List.filter_cons_of_neg (by simp [e2])] at hu
      obtain ⟨h2, h3⟩ := drop hb
      rw [if_pos h1, h2]
      simp only
      rw [ih _ _ h3 hu]
      simp [Except.map, e1, e2]
    rw [if_neg h1]
    by_cases h2 : l = RANDOM
    · have e1 : isFixed l = false := by subst h2; decide
      have e2 : isRandom l = true := by subst h2; decide
      rw [List.filter_cons_of_neg (by simp [e1])] at hb
      rw [List.filter_cons_of_pos (by exact e2), List.map_cons] at hu
      obtain ⟨h3, h4⟩ := drop hu
      rw [if_pos h2, h3]
      simp only
      rw [ih _ _ hb h4]
      simp [Except.map, e1, e2]
    rw [if_neg h2]
    by_cases h3 : l = FIXED_RANDOM
    · have e1 : isFixed l = true := by subst h3; decide
      have e2 : isRandom l = true := by subst h3; decide
      rw [List.filter_cons_of_pos (by exact e1), List.map_cons] at hb
      rw [List.filter_cons_of_pos (by exact e2), List.map_cons] at hu
      obtain ⟨h4, h5⟩ := drop hb
      obtain ⟨h6, h7⟩ := drop hu
      rw [if_pos h3, h4, h6]
      simp only
      rw [ih _ _ h5 h7]
      simp [Except.map, e1, e2]
    rw [if_neg h3]
    have e1 : isFixed l = false := by simp [isFixed, h1, h3]
    have e2 : isRandom l = false := by simp [isRandom, h2, h3]
    rw [List.filter_cons_of_neg (by simp [e1])] at hb
    rw [List.filter_cons_of_neg (by simp [e2])] at hu
    rw [ih _ _ hb hu]
    simp [Except.map, e1, e2]

theorem perGroup_table {labels : List String} (hlen : labels.length = k) (ffi fri : Bool) (B U : Option (Fin k) → ℝ) :
    perGroupCoefs ((effectCols k labels "fixed" ffi).map B) ((effectCols k labels "random" fri).map U) ((interceptLabelOf ffi fri).getD "" :: labels) 0 0 =
      .ok ((none :: (List.finRange k).map some).map fun e =>
        (if e ∈ effectCols k labels "fixed" ffi then B e else 0) + (if e ∈ effectCols k labels "random" fri then U e else 0)) := by
  have hf : isFixed ((interceptLabelOf ffi fri).getD "") = ffi := by cases ffi <;> cases fri <;> decide
  have hr : isRandom ((interceptLabelOf ffi fri).getD "") = fri := by cases ffi <;> cases fri <;> decide
  have e : (interceptLabelOf ffi fri).getD "" :: labels =
      (((interceptLabelOf ffi fri).getD "", (none : Option (Fin k))) :: (List.finRange k).map fun j => (labels.getD j.1 "", some j)).map Prod.fst := by
    rw [List.map_cons, List.map_map]
    congr 1
    exact labels_eq labels hlen
  rw [e, perGroup_columns _ B U]
  · rw [List.map_cons, List.map_cons, List.map_map, List.map_map]
    congr 1
    refine congrArg₂ List.cons ?_ (List.map_congr_left fun j _ => ?_)
    · simp only [hf, hr, mem_effectCols_none]
    · simp only [Function.comp_apply, mem_effectCols_some]
      congr 1 <;> simp [isFixed, isRandom, FIXED, RANDOM, FIXED_RANDOM]
  · rw [List.drop_zero]
    unfold effectCols
    rw [List.map_append, List.filter_cons, List.map_map, List.filter_map]
    simp only [hf]
    cases ffi <;> simp [Function.comp_def, isFixed, FIXED, FIXED_RANDOM]
  · rw [List.drop_zero]
    unfold effectCols
    rw [List.map_append, List.filter_cons, List.map_map, List.filter_map]
    simp only [hr]
    cases fri <;> simp [Function.comp_def, isRandom, RANDOM, FIXED_RANDOM]

/-! ## The fit -/

theorem Turn.fitCore {P P' : LmeProblem ℝ} (T : Turn P.numFixed P.numRandom P'.numFixed P'.numRandom) {M : LmeModelCfg} {st : LmeState} {a a' : LmeFitArgs}
    (hpr : M.prior = none) {m m' : List ℤ} (hm : betaToGammaMap P = .ok m) (hm' : betaToGammaMap P' = .ok m')
    (hl0 : ∀ nb ng sort, M.reg = .l0 nb ng sort → T.InPlace ∧ m' = m) {D : List (LmeGroup P.numFixed P.numRandom)} (hD : lmeGroups P = .ok D)
    (hD' : lmeGroups P' = .ok (D.map T.group))
    (hw : ∀ w, M.reg.weights P.numFixed P.numRandom (a.feWeights.getD P.feWeights ++ a.reWeights.getD P.reWeights) = .ok w →
      M.reg.weights P'.numFixed P'.numRandom (a'.feWeights.getD P'.feWeights ++ a'.reWeights.getD P'.reWeights) = .ok (w ∘ T.vecE))
    (hb : ∀ b, asVec P.numFixed (lmeStart st P a).1 = .ok b → asVec P'.numFixed (lmeStart st P' a').1 = .ok (T.beta b))
    (hg : ∀ g, asVec P.numRandom (lmeStart st P a).2 = .ok g → asVec P'.numRandom (lmeStart st P' a').2 = .ok (T.gamma g))
    (hper : ∀ (b : Vec ℝ P'.numFixed) (u : Vec ℝ P'.numRandom), ∃ c, perGroupCoefs (List.ofFn b) (List.ofFn u) (P'.interceptLabel.getD "" :: P'.columnLabels) 0 0 = .ok c)
    {r : LmeCoef × Vec ℝ (P.numFixed + P.numRandom) × Logger (PyVal ℝ (P.numFixed + P.numRandom))} (h : lmeFitCore M st P a = .ok r) :
    ∃ (bet : Vec ℝ P.numFixed) (gam : Vec ℝ P.numRandom), r.1 = ⟨List.ofFn bet, List.ofFn gam, D.map fun g => List.ofFn (randEff bet gam g), P.groupLabels,
        D.map fun g => perGroupOf (List.ofFn bet) (P.interceptLabel.getD "" :: P.columnLabels) (List.ofFn (randEff bet gam g))⟩ ∧
      ∃ v', lmeFitCore M st P' a' = .ok (⟨List.ofFn (T.beta bet), List.ofFn (T.gamma gam), D.map fun g => List.ofFn (T.effects (randEff bet gam g)), P'.groupLabels,
        D.map fun g => perGroupOf (List.ofFn (T.beta bet)) (P'.interceptLabel.getD "" :: P'.columnLabels) (List.ofFn (T.effects (randEff bet gam g)))⟩, v') := by
  unfold lmeFitCore at h
  obtain ⟨m1, hm1, h⟩ := ebind_ok.1 h
  rw [hm] at hm1
  cases hm1
  obtain ⟨Pr, hPr, h⟩ := ebind_ok.1 h
  obtain ⟨w, hw1, h⟩ := ebind_ok.1 h
  obtain ⟨base, hbase, h⟩ := ebind_ok.1 h
  obtain ⟨D1, hD1, h⟩ := ebind_ok.1 h
  rw [hD] at hD1
  cases hD1
  obtain ⟨beta, hbeta, h⟩ := ebind_ok.1 h
  obtain ⟨gamma, hgamma, h⟩ := ebind_ok.1 h
  obtain ⟨o, ho, h⟩ := ebind_ok.1 h
  obtain ⟨us, hus, h⟩ := ebind_ok.1 h
  obtain ⟨per, hper1, h⟩ := ebind_ok.1 h
  cases h
  have hPr2 : lmePriorFor M.prior P' = .ok .nonInformative := by
    rw [hpr]
    rfl
  rw [hpr] at hPr
  cases hPr
  obtain ⟨-, rfl⟩ := getPerGroup_ok.1 hper1
  have hus2 := hus
  obtain rfl := (lmeRandomEffects_ok.1 hus).2.2
  rcases T.build M.reg m m' hl0 w with ⟨e, h1, -⟩ | ⟨B, B', h1, h2, h3⟩
  · rw [h1] at hbase
    cases hbase
  rw [h1] at hbase
  cases hbase
  refine ⟨xBeta o.1, xGamma o.1, ?_, (T.vec o.1, o.2.mapVal (PyVal.mapVec T.vec)), ?_⟩
  · simp only [List.map_map]
    rfl
  · have hopt := T.optimize D M (h3.wrap M.elasticEps).1 (h3.wrap M.elasticEps).2 beta gamma
    rw [ho] at hopt
    unfold lmeFitCore
    refine ebind_ok.2 ⟨m', hm', ebind_ok.2 ⟨_, hPr2, ebind_ok.2 ⟨_, hw w hw1, ebind_ok.2 ⟨B', h2, ebind_ok.2 ⟨_, hD', ebind_ok.2 ⟨_, hb _ hbeta,
      ebind_ok.2 ⟨_, hg _ hgamma, ebind_ok.2 ⟨(T.vec o.1, o.2.mapVal (PyVal.mapVec T.vec)), hopt, ebind_ok.2 ⟨(D.map (randEff (xBeta o.1) (xGamma o.1))).map T.effects, ?_,
        ebind_ok.2 ⟨_, getPerGroup_ok.2 ⟨?_, rfl⟩, ?_⟩⟩⟩⟩⟩⟩⟩⟩⟩⟩
    · simp only
      rw [T.xBeta_vec, T.xGamma_vec, T.randomEffects, hus2]
      rfl
    · intro u hu
      obtain ⟨u, -, rfl⟩ := List.mem_map.1 hu
      exact hper _ _
    · simp only [T.xBeta_vec, T.xGamma_vec, List.map_map]
      rfl

section table
variable {labels labels' : List String} {π : Equiv.Perm (Fin k)} {ε : Fin k → ℝ} {x x' : Matrix (Fin N) (Fin k) ℝ} (h : Moved labels labels' π ε x x')
include h

theorem Moved.problem {y y' : Option (Vec ℝ N)} {ffi fri : Bool} {P : LmeProblem ℝ} (hy : y'.isSome = y.isSome)
    (hP : lmeFromXY x y none labels ffi fri none none = .ok P) : ∃ P', lmeFromXY x' y' none labels' ffi fri none none = .ok P' := by
  obtain ⟨g, v, feW, reW, hg, hv, hlen, hkn, hN, hvar, hint, -, hfe, hre, -⟩ := lmeFromXY_ok x y none labels ffi fri none none P hP
  obtain ⟨hg', eg⟩ := h.special (l := GROUP) (.inl rfl) hg
  obtain ⟨hv', ev⟩ := h.special (l := VARIANCE) (.inr rfl) hv
  refine lmeFromXY_succeeds x' y' none labels' ffi fri none none _ _ hg' hv' h.count ?_ (fun e => hN (by rw [← hy]; exact e)) (fun r => by rw [ev]; exact hvar r)
    (fun r => by rw [eg]; exact hint r) (.inl rfl) (by simp) _ _ rfl rfl
  intro l hl
  obtain ⟨j, hj, rfl⟩ := List.getElem_of_mem hl
  have hjk : j < k := by rw [← h.count]; exact hj
  have e := h.label ⟨j, hjk⟩
  have hj2 : (π ⟨j, hjk⟩).1 < labels.length := by rw [hlen]; exact (π ⟨j, hjk⟩).2
  rw [List.getD_eq_getElem?_getD, List.getD_eq_getElem?_getD, List.getElem?_eq_getElem hj, List.getElem?_eq_getElem hj2] at e
  simp only [Option.getD_some] at e
  rw [e]
  exact hkn _ (List.getElem_mem hj2)

/-- The groups of the second table. -/
theorem Moved.tableGroup {p q p' q' : ℕ} {ffi fri : Bool} {F : Fin p → Option (Fin k)} {F' : Fin p' → Option (Fin k)} {R : Fin q → Option (Fin k)} {R' : Fin q' → Option (Fin k)}
    (hF : List.ofFn F = effectCols k labels "fixed" ffi) (hF' : List.ofFn F' = effectCols k labels' "fixed" ffi) (hR : List.ofFn R = effectCols k labels "random" fri)
    (hR' : List.ofFn R' = effectCols k labels' "random" fri) {s : ℝ} {T : Turn p q p' q'} (es : T.s = s) (eσ : ∀ i, F (T.σ i) = (F' i).map π)
    (eb : ∀ i, T.b i = effectSign s ε (F' i)) (eτ : ∀ j, R (T.τ j) = (R' j).map π) (ec : ∀ j, T.c j = effectSign s ε (R' j)) {y y' : Vec ℝ N} (hy : ∀ r, y' r = s * y r)
    {g v : Fin k} (hg : ∀ r, x' r (π.symm g) = x r g) (hv : ∀ r, x' r (π.symm v) = x r v) (l : ℝ) :
    Verif.tableGroup x' y' labels' ffi fri (π.symm g) (π.symm v) p' q' l = T.group (Verif.tableGroup x y labels ffi fri g v p q l) := by
  have get : ∀ {n : ℕ} (f : Fin n → Option (Fin k)) (t : Option (Fin k) → ℝ) (j : Fin n), ((List.ofFn f).map t).getD j.1 0 = t (f j) := by
    intro n f t j
    simp [List.getD_eq_getElem?_getD]
  have hn : groupRows (fun r => x' r (π.symm g)) l = groupRows (fun r => x r g) l := by
    congr 1
    exact funext hg
  have hc : ∀ i, (groupRows (fun r => x' r (π.symm g)) l).get i = (groupRows (fun r => x r g) l).get (Fin.cast (by rw [hn]) i) := by
    intro i
    simp only [List.get_eq_getElem, Fin.val_cast]
    congr 1
  have hss : s * s = 1 := by rw [← es]; exact T.ss
  refine lmeGroup_ext (by simp only [Verif.tableGroup, hn]) (fun i j => ?_) (fun i => ?_) (fun i j => ?_) (fun i => ?_)
  · change (designRow x' ffi (labelIdx labels' isFixed) _).getD j 0 = T.s * T.b j * (designRow x ffi (labelIdx labels isFixed) _).getD (T.σ j) 0
    rw [design_fixed, design_fixed, ← hF, ← hF', get, get, h.colEntry hss, es, eb, eσ]
    exact congrArg (fun r => s * effectSign s ε (F' j) * Verif.colEntry x r ((F' j).map π)) (hc i)
  · change y' _ = T.s * y _
    rw [hy, es]
    exact congrArg (fun r => s * y r) (hc i)
  · change (designRow x' fri (labelIdx labels' isRandom) _).getD j 0 = T.s * T.c j * (designRow x fri (labelIdx labels isRandom) _).getD (T.τ j) 0
    rw [design_random, design_random, ← hR, ← hR', get, get, h.colEntry hss, es, ec, eτ]
    exact congrArg (fun r => s * effectSign s ε (R' j) * Verif.colEntry x r ((R' j).map π)) (hc i)
  · change x' _ (π.symm v) = x _ v
    rw [hv]
    exact congrArg (fun r => x r v) (hc i)

/-- The fit of the second table. -/
theorem Moved.fit {s : ℝ} (hs : s = 1 ∨ s = -1) {y y' : Vec ℝ N} (hy : ∀ r, y' r = s * y r) {ffi fri : Bool} {P : LmeProblem ℝ}
    (hP : lmeFromXY x (some y) none labels ffi fri none none = .ok P) {M : LmeModelCfg} (hpr : M.prior = none) (hl0 : ∀ nb ng sort, M.reg = .l0 nb ng sort → π = 1)
    {st : LmeState} {a a' : LmeFitArgs} (ha : MovedArgs labels labels' π ε s ffi fri a a')
    {r : LmeCoef × Vec ℝ (P.numFixed + P.numRandom) × Logger (PyVal ℝ (P.numFixed + P.numRandom))} (hr : lmeFitCore M st P a = .ok r) :
    ∃ P' v' β γ u, lmeFromXY x' (some y') none labels' ffi fri none none = .ok P' ∧ r.1 = coefOf k labels ffi fri β γ u r.1.groupLabels ∧
      lmeFitCore M st P' a' = .ok (coefOf k labels' ffi fri (fun e => effectSign s ε e * β (e.map π)) (fun e => γ (e.map π))
        (fun l e => effectSign s ε e * u l (e.map π)) r.1.groupLabels, v') := by
  obtain ⟨P', hP'⟩ := h.problem (y := some y) (y' := some y') rfl hP
  obtain ⟨g, v, hg, hv, hG, hD⟩ := lmeGroups_table hP
  obtain ⟨g', v', hg', hv', hG', hD'⟩ := lmeGroups_table hP'
  obtain ⟨hg2, eg⟩ := h.special (l := GROUP) (.inl rfl) hg
  obtain ⟨hv2, ev⟩ := h.special (l := VARIANCE) (.inr rfl) hv
  obtain rfl : π.symm g = g' := by rw [hg2] at hg'; simpa using hg'
  obtain rfl : π.symm v = v' := by rw [hv2] at hv'; simpa using hv'
  obtain ⟨_, _, feW, reW, -, -, hlen, -, -, -, -, -, hfe, hre, hPe⟩ := lmeFromXY_ok x (some y) none labels ffi fri none none P hP
  obtain ⟨_, _, feW', reW', -, -, -, -, -, -, -, -, hfe', hre', hPe'⟩ := lmeFromXY_ok x' (some y') none labels' ffi fri none none P' hP'
  have hi : P.interceptLabel = interceptLabelOf ffi fri := by rw [hPe]
  have hi' : P'.interceptLabel = interceptLabelOf ffi fri := by rw [hPe']
  have hl : P.columnLabels = labels := by rw [hPe]
  have hl' : P'.columnLabels = labels' := by rw [hPe']
  obtain ⟨nF, nR⟩ := effectCols_length P hlen hi hl
  obtain ⟨nF', nR'⟩ := effectCols_length P' h.count hi' hl'
  have lenF : (labelIdx (p := k) labels isFixed).length + ffi.toNat = P.numFixed := by rw [numFixed_eq P ffi fri hi, hl, labelIdx_length labels hlen]
  have lenR : (labelIdx (p := k) labels isRandom).length + fri.toNat = P.numRandom := by rw [numRandom_eq P ffi fri hi, hl, labelIdx_length labels hlen]
  have lenF' : (labelIdx (p := k) labels' isFixed).length + ffi.toNat = P'.numFixed := by rw [numFixed_eq P' ffi fri hi', hl', labelIdx_length labels' h.count]
  have lenR' : (labelIdx (p := k) labels' isRandom).length + fri.toNat = P'.numRandom := by rw [numRandom_eq P' ffi fri hi', hl', labelIdx_length labels' h.count]
  have wF : P.feWeights = List.replicate P.numFixed 1 := by
    rw [lenF] at hfe
    cases hfe
    exact congrArg LmeProblem.feWeights hPe
  have wR : P.reWeights = List.replicate P.numRandom 1 := by
    rw [lenR] at hre
    cases hre
    exact congrArg LmeProblem.reWeights hPe
  have wF' : P'.feWeights = List.replicate P'.numFixed 1 := by
    rw [lenF'] at hfe'
    cases hfe'
    exact congrArg LmeProblem.feWeights hPe'
  have wR' : P'.reWeights = List.replicate P'.numRandom 1 := by
    rw [lenR'] at hre'
    cases hre'
    exact congrArg LmeProblem.reWeights hPe'
  clear hPe hPe' hfe hre hfe' hre'
  obtain ⟨F, hF⟩ := exists_ofFn nF
  obtain ⟨R, hR⟩ := exists_ofFn nR
  obtain ⟨F', hF'⟩ := exists_ofFn nF'
  obtain ⟨R', hR'⟩ := exists_ofFn nR'
  obtain ⟨T, es, eσ, eb, eτ, ec⟩ := h.turn hF hF' hR hR' hs
  obtain ⟨m, hm⟩ : ∃ m, betaToGammaMap P = .ok m := ⟨_, betaToGammaMap_eq P ffi fri hi (fun j : Fin k => labels.getD j.1 "") (by rw [hl, List.ofFn_eq_map]; exact labels_eq labels hlen)⟩
  obtain ⟨m', hm'⟩ : ∃ m, betaToGammaMap P' = .ok m :=
    ⟨_, betaToGammaMap_eq P' ffi fri hi' (fun j : Fin k => labels'.getD j.1 "") (by rw [hl', List.ofFn_eq_map]; exact labels_eq labels' h.count)⟩
  have hD2 : lmeGroups P' = .ok ((((uniqueLabels fun r => x r g).map (Verif.tableGroup x y labels ffi fri g v P.numFixed P.numRandom))).map T.group) := by
    rw [hD', funext eg, List.map_map]
    congr 1
    exact List.map_congr_left fun l _ => h.tableGroup hF hF' hR hR' es eσ eb eτ ec hy eg ev l
  have hGG : P'.groupLabels = P.groupLabels := by rw [hG, hG', funext eg]
  have ofT : ∀ {n n' : ℕ} (f : Fin n → Option (Fin k)) (f' : Fin n' → Option (Fin k)) (e : Fin n' ≃ Fin n), (∀ i, f (e i) = (f' i).map π) →
      ∀ (B : Option (Fin k) → ℝ) (w : Vec ℝ n), List.ofFn w = (List.ofFn f).map B → List.ofFn (fun i => w (e i)) = (List.ofFn f').map fun e => B (e.map π) := by
    intro n n' f f' e he B w hw
    rw [List.map_ofFn] at hw ⊢
    have := List.ofFn_injective hw
    congr 1
    funext i
    rw [this]
    simp only [Function.comp_apply, he]
  have ones : ∀ n : ℕ, List.replicate n (1 : ℝ) = List.ofFn (fun _ : Fin n => (1 : ℝ)) := fun n => by rw [List.ofFn_const]
  have wts : ∀ ws ws' : List ℝ, (∃ B : Option (Fin k) → ℝ, ws = (effectCols k labels "fixed" ffi).map B ∧ ws' = (effectCols k labels' "fixed" ffi).map fun e => B (e.map π)) →
      ∀ vs vs' : List ℝ, (∃ B : Option (Fin k) → ℝ, vs = (effectCols k labels "random" fri).map B ∧ vs' = (effectCols k labels' "random" fri).map fun e => B (e.map π)) →
      ∀ w, M.reg.weights P.numFixed P.numRandom (ws ++ vs) = .ok w → M.reg.weights P'.numFixed P'.numRandom (ws' ++ vs') = .ok (w ∘ T.vecE) := by
    rintro _ _ ⟨B, rfl, rfl⟩ _ _ ⟨C, rfl, rfl⟩ w hw
    obtain ⟨w', hw', h2⟩ := M.reg.weights_ok (p := P'.numFixed) (q := P'.numRandom)
      (ws := (effectCols k labels' "fixed" ffi).map (fun e => B (e.map π)) ++ (effectCols k labels' "random" fri).map fun e => C (e.map π)) (by simp [nF', nR'])
    obtain ⟨w1, hw1, h1⟩ := M.reg.weights_ok (p := P.numFixed) (q := P.numRandom)
      (ws := (effectCols k labels "fixed" ffi).map B ++ (effectCols k labels "random" fri).map C) (by simp [nF, nR])
    rw [hw] at hw1
    cases hw1
    rw [hw']
    congr 1
    rcases h1 with ⟨hd, rfl⟩ | h1
    · rcases h2 with ⟨-, rfl⟩ | h2
      · rfl
      · rw [hd] at hw'
        cases hw'
        rfl
    · rcases h2 with ⟨hd, -⟩ | h2
      · rw [hd] at hw hw'
        cases hw
        cases hw'
        rfl
      · rw [← hF, ← hR, List.map_ofFn, List.map_ofFn, ← List.ofFn_fin_append] at h1
        rw [← hF', ← hR', List.map_ofFn, List.map_ofFn, ← List.ofFn_fin_append] at h2
        rw [List.ofFn_injective h1, List.ofFn_injective h2]
        funext i
        refine Fin.addCases (fun i => ?_) (fun i => ?_) i
        · simp [T.vecE_beta, eσ]
        · simp [T.vecE_gamma, eτ]
  have start : ∀ (st : LmeState) (P : LmeProblem ℝ) (a : LmeFitArgs),
      lmeStart st P a = (a.beta.getD (List.replicate P.numFixed 1), a.gamma.getD (List.replicate P.numRandom 1)) := by
    intro st P a
    cases st with
    | none => rfl
    | some c => simp [lmeStart, sklearnCheckTruth]
  have const : ∀ (l : List (Option (Fin k))) (n : ℕ), l.length = n → List.replicate n (1 : ℝ) = l.map fun _ => 1 := by
    rintro l n rfl
    rw [List.map_const']
  refine Exists.elim (T.fitCore (M := M) (st := st) (a := a) (a' := a') hpr hm hm' ?_ hD hD2 ?_ ?_ ?_ ?_ hr) ?_
  · intro nb ng sort hreg
    have hπ := hl0 nb ng sort hreg
    have hll := h.inPlace hlen hπ
    have hmap : ∀ e : Option (Fin k), e.map π = e := fun e => by rw [hπ]; cases e <;> rfl
    have place : ∀ {n n' : ℕ} {l : List (Option (Fin k))} (f : Fin n → Option (Fin k)) (f' : Fin n' → Option (Fin k)) (e : Fin n' ≃ Fin n), l.Nodup → List.ofFn f = l →
        List.ofFn f' = l → (∀ i, f (e i) = (f' i).map π) → ∀ i, (e i).1 = i.1 := by
      intro n n' l f f' e hnd h1 h2 he i
      have e1 : l[(e i).1]? = some (f (e i)) := by rw [← h1]; simp
      have e2 : l[i.1]? = some (f' i) := by rw [← h2]; simp
      rw [he, hmap, ← e2] at e1
      have l2 : i.1 < l.length := by rw [← h2, List.length_ofFn]; exact i.2
      exact ((List.getElem?_inj l2 hnd).1 e1.symm).symm
    rw [hll] at hF' hR' hl'
    refine ⟨⟨place F F' T.σ (effectCols_nodup _ _ _) hF hF' eσ, place R R' T.τ (effectCols_nodup _ _ _) hR hR' eτ⟩, ?_⟩
    have q1 := hm.symm.trans (betaToGammaMap_eq P ffi fri hi (fun j : Fin k => labels.getD j.1 "") (by rw [hl, List.ofFn_eq_map]; exact labels_eq labels hlen))
    have q2 := hm'.symm.trans (betaToGammaMap_eq P' ffi fri hi' (fun j : Fin k => labels.getD j.1 "") (by rw [hl', List.ofFn_eq_map]; exact labels_eq labels hlen))
    exact Except.ok.inj (q2.trans q1.symm)
  · refine wts _ _ ?_ _ _ ?_
    · rcases ha.feWeights with ⟨h1, h2⟩ | ⟨B, h1, h2⟩
      · refine ⟨fun _ => 1, ?_, ?_⟩
        · rw [h1, Option.getD_none, wF]
          exact const _ _ nF
        · rw [h2, Option.getD_none, wF']
          exact const _ _ nF'
      · exact ⟨B, by rw [h1]; rfl, by rw [h2]; rfl⟩
    · rcases ha.reWeights with ⟨h1, h2⟩ | ⟨B, h1, h2⟩
      · refine ⟨fun _ => 1, ?_, ?_⟩
        · rw [h1, Option.getD_none, wR]
          exact const _ _ nR
        · rw [h2, Option.getD_none, wR']
          exact const _ _ nR'
      · exact ⟨B, by rw [h1]; rfl, by rw [h2]; rfl⟩
  · intro b hb
    rw [start] at hb ⊢
    rw [asVec_ok] at hb ⊢
    simp only at hb ⊢
    rcases ha.beta with ⟨h1, h2, h3⟩ | ⟨B, h1, h2⟩
    · rw [h1, Option.getD_none, ones] at hb
      rw [h2, Option.getD_none, ones]
      have hb := List.ofFn_injective hb
      refine congrArg List.ofFn (funext fun i => ?_)
      change T.b i * b (T.σ i) = 1
      rw [hb, eb, h3 _ (by rw [← hF']; exact List.mem_ofFn.2 ⟨i, rfl⟩), one_mul]
    · rw [h1, Option.getD_some, ← hF, List.map_ofFn] at hb
      rw [h2, Option.getD_some, ← hF', List.map_ofFn]
      have hb := List.ofFn_injective hb
      refine congrArg List.ofFn (funext fun i => ?_)
      change T.b i * b (T.σ i) = _
      rw [hb, eb]
      simp only [Function.comp_apply, eσ]
  · intro b hb
    rw [start] at hb ⊢
    rw [asVec_ok] at hb ⊢
    simp only at hb ⊢
    rcases ha.gamma with ⟨h1, h2⟩ | ⟨B, h1, h2⟩
    · rw [h1, Option.getD_none, ones] at hb
      rw [h2, Option.getD_none, ones]
      have hb := List.ofFn_injective hb
      refine congrArg List.ofFn (funext fun i => ?_)
      change b (T.τ i) = 1
      rw [hb]
    · rw [h1, Option.getD_some, ← hR, List.map_ofFn] at hb
      rw [h2, Option.getD_some, ← hR', List.map_ofFn]
      have hb := List.ofFn_injective hb
      refine congrArg List.ofFn (funext fun i => ?_)
      change b (T.τ i) = _
      rw [hb]
      simp only [Function.comp_apply, eτ]
  · intro b u
    obtain ⟨B, hB⟩ := exists_ofFn_map (by rw [hF']; exact effectCols_nodup _ _ _) b
    obtain ⟨U, hU⟩ := exists_ofFn_map (by rw [hR']; exact effectCols_nodup _ _ _) u
    have e1 : List.ofFn b = (effectCols k labels' "fixed" ffi).map B := by rw [← hF', List.map_ofFn]; exact congrArg List.ofFn (funext hB)
    have e2 : List.ofFn u = (effectCols k labels' "random" fri).map U := by rw [← hR', List.map_ofFn]; exact congrArg List.ofFn (funext hU)
    rw [e1, e2, hi', hl']
    exact ⟨_, perGroup_table h.count ffi fri B U⟩
  · rintro bet ⟨gam, e1, v', e2⟩
    obtain ⟨β, hβ⟩ := exists_ofFn_map (by rw [hF]; exact effectCols_nodup _ _ _) bet
    obtain ⟨γ, hγ⟩ := exists_ofFn_map (by rw [hR]; exact effectCols_nodup _ _ _) gam
    have hu : ∀ l : ℝ, ∃ u : Option (Fin k) → ℝ, ∀ j, randEff bet gam (Verif.tableGroup x y labels ffi fri g v P.numFixed P.numRandom l) j = u (R j) :=
      fun l => exists_ofFn_map (by rw [hR]; exact effectCols_nodup _ _ _) _
    choose u hu using hu
    have lβ : List.ofFn bet = (effectCols k labels "fixed" ffi).map β := by rw [← hF, List.map_ofFn]; exact congrArg List.ofFn (funext hβ)
    have lγ : List.ofFn gam = (effectCols k labels "random" fri).map γ := by rw [← hR, List.map_ofFn]; exact congrArg List.ofFn (funext hγ)
    have lu : ∀ l, List.ofFn (randEff bet gam (Verif.tableGroup x y labels ffi fri g v P.numFixed P.numRandom l)) = (effectCols k labels "random" fri).map (u l) := by
      intro l
      rw [← hR, List.map_ofFn]
      exact congrArg List.ofFn (funext (hu l))
    have lβ' : List.ofFn (T.beta bet) = (effectCols k labels' "fixed" ffi).map fun e => effectSign s ε e * β (e.map π) := by
      rw [← hF', List.map_ofFn]
      refine congrArg List.ofFn (funext fun i => ?_)
      change T.b i * bet (T.σ i) = _
      rw [hβ, eb, eσ]
      rfl
    have lγ' : List.ofFn (T.gamma gam) = (effectCols k labels' "random" fri).map fun e => γ (e.map π) := by
      rw [← hR', List.map_ofFn]
      refine congrArg List.ofFn (funext fun i => ?_)
      change gam (T.τ i) = _
      rw [hγ, eτ]
      rfl
    have lu' : ∀ l, List.ofFn (T.effects (randEff bet gam (Verif.tableGroup x y labels ffi fri g v P.numFixed P.numRandom l))) =
        (effectCols k labels' "random" fri).map fun e => effectSign s ε e * u l (e.map π) := by
      intro l
      rw [← hR', List.map_ofFn]
      refine congrArg List.ofFn (funext fun i => ?_)
      change T.c i * randEff bet gam _ (T.τ i) = _
      rw [hu, ec, eτ]
      rfl
    have hg0 : r.1.groupLabels = P.groupLabels := by rw [e1]
    refine ⟨P', v', β, γ, u, hP', ?_, ?_⟩
    · rw [hg0]
      rw [e1, hG]
      unfold coefOf
      simp only [List.map_map, Function.comp_def, lβ, lγ, lu, hi, hl, perGroupOf, perGroup_table hlen]
    · rw [hg0, e2, hGG, hG]
      unfold coefOf
      simp only [List.map_map, Function.comp_def, lβ', lγ', lu', hi', hl', perGroupOf, perGroup_table h.count]

end table

/-- **C126**: the order of the columns, the signs of the features and the sign of the target do not matter for a fit of a mixed model.  Let the table `x'` have the columns of
`x` in another order and with other signs (`Moved`: the group and the variance column keep their sign), let `y' = ±y`, and let start and weights be arranged in the same
way (`MovedArgs`; the default start consists of ones, so that it asks for unchanged signs of the fixed effects).  If fitting `x` and `y` gave the coefficients `c`, which assign
`β`, `γ` and `u` to the columns, then fitting `x'` and `y'` gives the same groups, and every column has the variance it had and the fixed effect and the random
effects it had with its sign times the sign of the target; the same for the intercept and for the coefficients of the groups.  For models with the L0 penalty the columns have
to stay at their places (the penalty breaks ties by position), for all others they may move. -/
theorem C126_column_order (M : LmeModelCfg) (hpr : M.prior = none) (st : LmeState) {labels labels' : List String} {π : Equiv.Perm (Fin k)} {ε : Fin k → ℝ}
    {x x' : Matrix (Fin N) (Fin k) ℝ} (hx : Moved labels labels' π ε x x') {s : ℝ} (hs : s = 1 ∨ s = -1) {y y' : Vec ℝ N} (hy : ∀ r, y' r = s * y r) (ffi fri : Bool)
    {a a' : LmeFitArgs} (ha : MovedArgs labels labels' π ε s ffi fri a a') (hl0 : (∃ nb ng sort, M.reg = .l0 nb ng sort) → π = 1) (res : Except PyErr Unit) (c : LmeCoef)
    (h : lmeFit M st x y (some labels) ffi fri none none none a = (res, some c)) (hst : res = .ok () ∨ st = none) :
    ∃ res' β γ u, c = coefOf k labels ffi fri β γ u c.groupLabels ∧
      lmeFit M st x' y' (some labels') ffi fri none none none a' = (res', some (coefOf k labels' ffi fri (fun e => effectSign s ε e * β (e.map π)) (fun e => γ (e.map π))
        (fun l e => effectSign s ε e * u l (e.map π)) c.groupLabels)) := by
  have hh : ∃ P r, lmeFromXY x (some y) none labels ffi fri none none = .ok P ∧ lmeFitCore M st P a = .ok r ∧ r.1 = c := by
    rcases hst with rfl | rfl
    · obtain ⟨P, coef, v, L0, hP, hc, hcore⟩ := lmeFit_ok h
      cases hc
      exact ⟨P, _, hP, hcore, rfl⟩
    · have h2 := congrArg Prod.snd h
      rw [lmeFit_coef] at h2
      simp only at h2
      cases hP : lmeFromXY x (some y) none labels ffi fri none none with
      | error e => rw [hP] at h2; cases h2
      | ok P =>
        rw [hP] at h2
        cases hr : lmeFitCore M none P a with
        | error e => simp only [coefAfter, hr] at h2; cases h2
        | ok r =>
          simp only [coefAfter, hr] at h2
          cases h2
          exact ⟨P, r, rfl, hr, rfl⟩
  obtain ⟨P, r, hP, hr, rfl⟩ := hh
  obtain ⟨P', v', β, γ, u, hP', h1, h2⟩ := hx.fit hs hy hP hpr (fun nb ng sort h => hl0 ⟨nb, ng, sort, h⟩) ha hr
  refine ⟨_, β, γ, u, h1, Prod.ext rfl ?_⟩
  rw [lmeFit_coef]
  simp only [hP', coefAfter, h2]

/-! ## Predictions -/

theorem sumProd_map {α : Type*} (l : List α) (f g : α → ℝ) : sumProd (l.map f) (l.map g) = (l.map fun e => f e * g e).sum := by
  induction l with
  | nil => rfl
  | cons a l ih =>
    simp only [sumProd, List.map_cons, List.zipWith_cons_cons, List.sum_cons] at ih ⊢
    rw [ih]

theorem coefOf_effects {labels : List String} {ffi fri : Bool} {β γ : Option (Fin k) → ℝ} {u : ℝ → Option (Fin k) → ℝ} {G : List ℝ} {l : ℝ} (hl : l ∈ G) :
    (coefOf k labels ffi fri β γ u G).effectsOf l = (effectCols k labels "random" fri).map (u l) := by
  unfold LmeCoef.effectsOf
  simp only [coefOf]
  induction G with
  | nil => cases hl
  | cons a G ih =>
    rw [List.map_cons, List.zip_cons_cons, List.find?_cons]
    by_cases h : a = l
    · subst h
      simp
    · rcases List.mem_cons.1 hl with h2 | h2
      · exact absurd h2.symm h
      · simp only [h, decide_false]
        exact ih h2

theorem coefOf_consistent {labels : List String} (hlen : labels.length = k) {ffi fri : Bool} {β γ : Option (Fin k) → ℝ} {u : ℝ → Option (Fin k) → ℝ} {G : List ℝ}
    (hG : G.Nodup) : (coefOf k labels ffi fri β γ u G).Consistent (fixedCount labels ffi) (randomCount labels fri) := by
  have e1 := designRow_fixed_length (0 : Matrix (Fin 1) (Fin k) ℝ) labels hlen ffi 0
  have e2 := designRow_random_length (0 : Matrix (Fin 1) (Fin k) ℝ) labels hlen fri 0
  rw [design_fixed, List.length_map] at e1
  rw [design_random, List.length_map] at e2
  refine ⟨by simp [coefOf, e1], hG, by simp [coefOf], ?_⟩
  intro v hv
  obtain ⟨l, -, rfl⟩ := List.mem_map.1 hv
  rw [List.length_map, e2]

section predict
variable {labels labels' : List String} {π : Equiv.Perm (Fin k)} {ε : Fin k → ℝ} {x x' : Matrix (Fin N) (Fin k) ℝ} (h : Moved labels labels' π ε x x')
include h

theorem Moved.cols_perm (kind : String) (i : Bool) : ((effectCols k labels' kind i).map (Option.map π)).Perm (effectCols k labels kind i) := by
  have hinj : Function.Injective (Option.map π) := Option.map_injective π.injective
  refine (List.perm_ext_iff_of_nodup ((effectCols_nodup _ _ _).map hinj) (effectCols_nodup _ _ _)).2 fun e => ?_
  rw [List.mem_map]
  constructor
  · rintro ⟨e', he', rfl⟩
    exact (h.mem kind i e').1 he'
  · intro he
    refine ⟨e.map π.symm, (h.mem kind i _).2 ?_, ?_⟩ <;> cases e <;> simp_all

theorem Moved.sum (kind : String) (i : Bool) {s : ℝ} (hs : s = 1 ∨ s = -1) (r : Fin N) (B : Option (Fin k) → ℝ) :
    sumProd ((effectCols k labels' kind i).map (Verif.colEntry x' r)) ((effectCols k labels' kind i).map fun e => effectSign s ε e * B (e.map π)) =
      s * sumProd ((effectCols k labels kind i).map (Verif.colEntry x r)) ((effectCols k labels kind i).map B) := by
  have hss : s * s = 1 := by rcases hs with rfl | rfl <;> norm_num
  rw [sumProd_map, sumProd_map, ← ((h.cols_perm kind i).map _).sum_eq, List.map_map, ← List.sum_map_mul_left]
  refine congrArg List.sum (List.map_congr_left fun e _ => ?_)
  rw [h.colEntry hss]
  have : effectSign s ε e * effectSign s ε e = 1 := by rcases h.effectSign_cases hs e with h | h <;> rw [h] <;> norm_num
  simp only [Function.comp_apply]
  linear_combination s * Verif.colEntry x r (e.map π) * B (e.map π) * this

/-- Predictions with coefficients given by columns. -/
theorem Moved.predict {s : ℝ} (hs : s = 1 ∨ s = -1) {ffi fri : Bool} {β γ : Option (Fin k) → ℝ} {u : ℝ → Option (Fin k) → ℝ} {G : List ℝ} (hG : G.Nodup) {v : List ℝ}
    (hv : lmePredict (some (coefOf k labels ffi fri β γ u G)) x (some labels) ffi fri = .ok v) :
    lmePredict (some (coefOf k labels' ffi fri (fun e => effectSign s ε e * β (e.map π)) (fun e => γ (e.map π)) (fun l e => effectSign s ε e * u l (e.map π)) G)) x'
      (some labels') ffi fri = .ok (v.map (s * ·)) := by
  have hN : 0 < N := by
    by_contra h0
    unfold lmePredict at hv
    simp only at hv
    rw [if_pos (Or.inl (by omega))] at hv
    cases hv
  obtain ⟨P, hP⟩ : ∃ P, lmeFromXY x none none labels ffi fri none none = .ok P := by
    unfold lmePredict at hv
    split_ifs at hv
    obtain ⟨P, hP, -⟩ := ebind_ok.1 hv
    exact ⟨P, hP⟩
  obtain ⟨P', hP'⟩ := h.problem (y := none) (y' := none) rfl hP
  obtain ⟨g, _, _, _, hg, -, hlen, -⟩ := lmeFromXY_ok x none none labels ffi fri none none P hP
  obtain ⟨hg', eg⟩ := h.special (l := GROUP) (.inl rfl) hg
  have toLabel : ∀ {ls : List String} {j : Fin k}, ls.length = k → labelIdx ls (· = GROUP) = [j] → ls[(j : ℕ)]? = some "group" := by
    intro ls j hl hj
    have h1 := (mem_labelIdx ls (· = GROUP) j).1 (by rw [hj]; exact List.mem_singleton.2 rfl)
    have h2 : j.1 < ls.length := by rw [hl]; exact j.2
    rw [List.getD_eq_getElem?_getD, List.getElem?_eq_getElem h2] at h1
    rw [List.getElem?_eq_getElem h2]
    exact congrArg some (by simpa [GROUP] using h1)
  have hc := coefOf_consistent (k := k) hlen (ffi := ffi) (fri := fri) (β := β) (γ := γ) (u := u) hG
  have hc' := coefOf_consistent (k := k) h.count (ffi := ffi) (fri := fri) (β := fun e => effectSign s ε e * β (e.map π)) (γ := fun e => γ (e.map π))
    (u := fun l e => effectSign s ε e * u l (e.map π)) hG
  have len : ∀ {ls : List String}, ls.length = k → (effectCols k ls "random" fri).length = randomCount ls fri := by
    intro ls hl
    have e2 := designRow_random_length (0 : Matrix (Fin 1) (Fin k) ℝ) ls hl fri 0
    rwa [design_random, List.length_map] at e2
  have hcount : randomCount labels' fri = randomCount labels fri := by
    rw [← len hlen, ← len h.count, ← (h.cols_perm "random" fri).length_eq, List.length_map]
  have hseen : randomCount labels fri = 0 ∨ ∀ r, x r g ∈ G := by
    by_contra hcon
    push Not at hcon
    obtain ⟨h1, r, hr⟩ := hcon
    rw [C72_unseen_violated _ x labels ffi fri g P hP (toLabel hlen hg) hc (Nat.pos_of_ne_zero h1) r hr] at hv
    cases hv
  rw [lmePredict_ok _ x labels ffi fri g P hP hN (toLabel hlen hg) hc hseen] at hv
  cases hv
  rw [lmePredict_ok _ x' labels' ffi fri (π.symm g) P' hP' hN (toLabel h.count hg') hc' (by rw [hcount]; simpa only [eg, coefOf] using hseen), List.map_map]
  have hrows : groupedRows x' (π.symm g) = groupedRows x g := by
    unfold groupedRows
    rw [funext eg]
  rw [hrows]
  congr 1
  refine List.map_congr_left fun r _ => ?_
  simp only [Function.comp_apply]
  unfold rowPrediction
  rw [← fixedEntries_eq x labels hlen, ← fixedEntries_eq x' labels' h.count, ← randomEntries_eq x labels hlen, ← randomEntries_eq x' labels' h.count, design_fixed, design_fixed,
    design_random, design_random, mul_add]
  congr 1
  · exact h.sum "fixed" ffi hs r β
  · rw [eg]
    rcases hseen with h0 | hseen
    · have e1 : effectCols k labels "random" fri = [] := List.eq_nil_of_length_eq_zero (by rw [len hlen, h0])
      have e2 : effectCols k labels' "random" fri = [] := List.eq_nil_of_length_eq_zero (by rw [len h.count, hcount, h0])
      rw [e1, e2, List.map_nil, List.map_nil, sumProd_nil_left, sumProd_nil_left, mul_zero]
    · rw [coefOf_effects (hseen r), coefOf_effects (hseen r)]
      exact h.sum "random" fri hs r (u (x r g))

end predict

/-- **C127**: predictions do not depend on the order of the columns nor on the signs of the features.  In the situation of C126, after the two fits, let `xn` be a table for
which the first model gives the predictions `v`, and let `xn'` have its columns in the other order and with the other signs.  Then the second model gives the predictions `±v`
for `xn'` - with the sign of the target - and, for targets that correspond to each other, the same score. -/
theorem C127_predictions (M : LmeModelCfg) (hpr : M.prior = none) (st : LmeState) {labels labels' : List String} {π : Equiv.Perm (Fin k)} {ε : Fin k → ℝ}
    {x x' : Matrix (Fin N) (Fin k) ℝ} (hx : Moved labels labels' π ε x x') {s : ℝ} (hs : s = 1 ∨ s = -1) {y y' : Vec ℝ N} (hy : ∀ r, y' r = s * y r) (ffi fri : Bool)
    {a a' : LmeFitArgs} (ha : MovedArgs labels labels' π ε s ffi fri a a') (hl0 : (∃ nb ng sort, M.reg = .l0 nb ng sort) → π = 1) (c : LmeCoef)
    (h : lmeFit M st x y (some labels) ffi fri none none none a = (.ok (), some c)) {N' : ℕ} {xn xn' : Matrix (Fin N') (Fin k) ℝ} (hn : Moved labels labels' π ε xn xn')
    (v : List ℝ) (hv : lmePredict (some c) xn (some labels) ffi fri = .ok v) :
    ∃ res' c', lmeFit M st x' y' (some labels') ffi fri none none none a' = (res', some c') ∧ lmePredict (some c') xn' (some labels') ffi fri = .ok (v.map (s * ·)) ∧
      ∀ yn yn' : Vec ℝ N', (∀ r, yn' r = s * yn r) → lmeScore (some c') xn' yn' (some labels') ffi fri = lmeScore (some c) xn yn (some labels) ffi fri := by
  obtain ⟨res', β, γ, u, h1, h2⟩ := C126_column_order M hpr st hx hs hy ffi fri ha hl0 _ c h (.inl rfl)
  have hG : c.groupLabels.Nodup := by
    obtain ⟨_, hc, hcons, -⟩ := C82_fit_consistent M st x y labels ffi fri none none none a (some c) h
    cases hc
    exact hcons.labels
  have hv2 := hv
  rw [h1] at hv2
  have h3 := hn.predict hs hG hv2
  refine ⟨res', _, h2, h3, fun yn yn' hyn => ?_⟩
  unfold lmeScore
  rw [h3, hv]
  have hss : s ^ 2 = 1 := by rcases hs with rfl | rfl <;> norm_num
  change (asVec N' (v.map (s * ·)) >>= _) = (asVec N' v >>= _)
  by_cases hl : v.length = N'
  · have e : ∀ (w : List ℝ), w.length = N' → ∃ t, asVec N' w = .ok t ∧ List.ofFn t = w := by
      rintro w rfl
      exact ⟨_, asVec_ok.2 (List.ofFn_get w), List.ofFn_get w⟩
    obtain ⟨t, ht, ht2⟩ := e v hl
    have ht' : asVec N' (v.map (s * ·)) = .ok fun i => s * t i := by
      rw [asVec_ok, ← ht2, List.map_ofFn]
      rfl
    rw [ht, ht']
    change rSquared _ _ = rSquared _ _
    have e1 : ∑ i, (yn' i - s * t i) ^ 2 = ∑ i, (yn i - t i) ^ 2 := by
      refine Finset.sum_congr rfl fun i _ => ?_
      rw [hyn]
      linear_combination (yn i - t i) ^ 2 * hss
    have e2 : ∑ i, (yn' i - (∑ i, yn' i) / N') ^ 2 = ∑ i, (yn i - (∑ i, yn i) / N') ^ 2 := by
      have : ∑ i, yn' i = s * ∑ i, yn i := by
        rw [Finset.mul_sum]
        exact Finset.sum_congr rfl fun i _ => hyn i
      refine Finset.sum_congr rfl fun i _ => ?_
      rw [hyn, this, mul_div_assoc]
      linear_combination (yn i - (∑ i, yn i) / N') ^ 2 * hss
    simp only
    rw [e1, e2]
  · unfold asVec
    rw [dif_neg hl, dif_neg (by rwa [List.length_map])]
    rfl

/-- The columns of the example in the order fixed, group, variance, random. -/
def exOrder : Equiv.Perm (Fin 4) := ⟨![1, 0, 3, 2], ![1, 0, 3, 2], by decide, by decide⟩

/-- The signs of the columns of the example: the column with the random effect changes its sign. -/
def exSigns : Fin 4 → ℝ := ![1, 1, 1, -1]

theorem exMoved : Moved exTabLabels ["fixed", "group", "variance", "random"] exOrder exSigns exTab !![3, 1, 1, -1; 5, 0, 1, -1] where
  count := rfl
  label j := by fin_cases j <;> rfl
  entry r j := by fin_cases r <;> fin_cases j <;> simp [exTab, exSigns, exOrder]
  sign j := by fin_cases j <;> simp [exSigns]
  kept j h := by fin_cases j <;> simp [exSigns] at h ⊢

/-- Non-vacuity of C126 and C127: the default models other than that with the L0 penalty, and a table whose columns change their places, one of them its sign. -/
example (sort : NpSort) (cls : LmeClassName) (hcls : cls ≠ .l0) (sr3 : Bool) (y : Vec ℝ 2) :
    ∃ c β γ u c' v, lmeFit (lmeDefaultModel sort cls sr3) none exTab y (some exTabLabels) true true none none none {} = (.ok (), some c) ∧
      c = coefOf 4 exTabLabels true true β γ u c.groupLabels ∧
      (lmeFit (lmeDefaultModel sort cls sr3) none !![3, 1, 1, -1; 5, 0, 1, -1] y (some ["fixed", "group", "variance", "random"]) true true none none none {}).2 = some c' ∧
      c'.beta = c.beta ∧ c'.gamma = c.gamma ∧ lmePredict (some c) exTab (some exTabLabels) true true = .ok v ∧
      lmePredict (some c') !![3, 1, 1, -1; 5, 0, 1, -1] (some ["fixed", "group", "variance", "random"]) true true = .ok v := by
  obtain ⟨P, hP⟩ := exTab_ok' true true y
  obtain ⟨c, hc, -⟩ := C117_defaults_fit sort cls sr3 none exTab y _ true true P hP exTab_positive none none (by simp) (by simp) false
  have ha : MovedArgs exTabLabels ["fixed", "group", "variance", "random"] exOrder exSigns 1 true true {} {} := by
    refine ⟨.inl ⟨rfl, rfl, ?_⟩, .inl ⟨rfl, rfl⟩, .inl ⟨rfl, rfl⟩, .inl ⟨rfl, rfl⟩⟩
    intro e he
    rcases e with - | j
    · rfl
    · rw [mem_effectCols_some] at he
      fin_cases j <;> simp [effectSign, exSigns] at he ⊢
  have hl0 : (∃ nb ng sort', (lmeDefaultModel sort cls sr3).reg = .l0 nb ng sort') → exOrder = 1 := by
    rintro ⟨nb, ng, so, h⟩
    exfalso
    cases cls <;> first | exact hcls rfl | (cases sr3 <;> cases h)
  obtain ⟨res, β, γ, u, h1, h2⟩ := C126_column_order _ rfl none exMoved (.inl rfl) (y := y) (fun r => (one_mul _).symm) true true ha hl0 _ c hc (.inl rfl)
  obtain ⟨c0, g, o, -, -, -, hv⟩ := C82_training_predictions _ none exTab y exTabLabels true true none none none {} (some c) hc
  obtain ⟨res', c', h3, h4, -⟩ := C127_predictions _ rfl none exMoved (.inl rfl) (y := y) (fun r => (one_mul _).symm) true true ha hl0 c hc exMoved _ hv
  rw [h2] at h3
  have h5 := congrArg Prod.snd h3
  simp only [Option.some.injEq] at h5
  refine ⟨c, β, γ, u, c', _, hc, h1, ?_, ?_, ?_, hv, ?_⟩
  · rw [h2, h3]
  · rw [← h5, h1]
    simp [coefOf, effectCols, exTabLabels, effectSign, exSigns, exOrder, List.finRange_succ]
  · rw [← h5, h1]
    simp [coefOf, effectCols, exTabLabels, exOrder, List.finRange_succ]
  · rw [h4]
    simp only [one_mul, List.map_id']

end Verif
