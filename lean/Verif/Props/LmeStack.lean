import Verif.Props.LmeReorder

/-!
# C198 (tables with different groups can be stacked: likelihood and gradients add up, random effects stay)
-/

open Matrix

namespace Verif

variable {p q N N₁ N₂ k : ℕ}

/-- An oracle instantiated with a problem (`lme/oracles.py:81-113`) and evaluated at coefficients given as arrays. -/
noncomputable def evalOn {α : Type} (P : LmeProblem ℝ) (f : ∀ {p q : ℕ}, List (LmeGroup p q) → Vec ℝ p → Vec ℝ q → Except PyErr α) (b c : List ℝ) : Except PyErr α := do
  let D ← lmeGroups P
  let beta ← asVec P.numFixed b
  let gamma ← asVec P.numRandom c
  f D beta gamma

/-- One table below another. -/
def stackRows (x₁ : Matrix (Fin N₁) (Fin k) ℝ) (x₂ : Matrix (Fin N₂) (Fin k) ℝ) : Matrix (Fin (N₁ + N₂)) (Fin k) ℝ := Matrix.of (Fin.append x₁ x₂)

theorem stackRows_left (x₁ : Matrix (Fin N₁) (Fin k) ℝ) (x₂ : Matrix (Fin N₂) (Fin k) ℝ) (r : Fin N₁) (c : Fin k) : stackRows x₁ x₂ (Fin.castAdd N₂ r) c = x₁ r c := by
  exact congrFun (Fin.append_left x₁ x₂ r) c

theorem stackRows_right (x₁ : Matrix (Fin N₁) (Fin k) ℝ) (x₂ : Matrix (Fin N₂) (Fin k) ℝ) (r : Fin N₂) (c : Fin k) : stackRows x₁ x₂ (Fin.natAdd N₁ r) c = x₂ r c := by
  exact congrFun (Fin.append_right x₁ x₂ r) c

theorem finRange_stack (N₁ N₂ : ℕ) : List.finRange (N₁ + N₂) = (List.finRange N₁).map (Fin.castAdd N₂) ++ (List.finRange N₂).map (Fin.natAdd N₁) := by
  have h := List.ofFn_fin_append (Fin.castAdd N₂ : Fin N₁ → Fin (N₁ + N₂)) (Fin.natAdd N₁)
  rw [List.ofFn_eq_map, List.ofFn_eq_map, List.ofFn_eq_map] at h
  rw [← h]
  conv_lhs => rw [← List.map_id (List.finRange (N₁ + N₂))]
  refine List.map_congr_left fun i _ => ?_
  refine Fin.addCases (fun i => ?_) (fun j => ?_) i
  · rw [Fin.append_left]; rfl
  · rw [Fin.append_right]; rfl

/-- The group made of the given rows. -/
noncomputable def rowsGroup (x : Matrix (Fin N) (Fin k) ℝ) (y : Vec ℝ N) (labels : List String) (ffi fri : Bool) (v : Fin k) (p q : ℕ) (L : List (Fin N)) : LmeGroup p q where
  n := L.length
  x := Matrix.of fun i j => (designRow x ffi (labelIdx labels isFixed) (L.get i)).getD j 0
  y := fun i => y (L.get i)
  z := Matrix.of fun i j => (designRow x fri (labelIdx labels isRandom) (L.get i)).getD j 0
  l := fun i => x (L.get i) v

theorem rowsGroup_map {M : ℕ} (e : Fin M → Fin N) (x : Matrix (Fin N) (Fin k) ℝ) (x' : Matrix (Fin M) (Fin k) ℝ) (y : Vec ℝ N) (y' : Vec ℝ M) (hx : ∀ r c, x (e r) c = x' r c) (hy : ∀ r, y (e r) = y' r)
    (labels : List String) (ffi fri : Bool) (v : Fin k) (p q : ℕ) (L : List (Fin M)) : rowsGroup x y labels ffi fri v p q (L.map e) = rowsGroup x' y' labels ffi fri v p q L := by
  have hr : ∀ (b : Bool) (idx : List (Fin k)) r, designRow x b idx (e r) = designRow x' b idx r := fun b idx r => by
    unfold designRow
    congr 1
    exact List.map_congr_left fun c _ => hx r c
  refine lmeGroup_ext (by simp [rowsGroup]) (fun i j => ?_) (fun i => ?_) (fun i j => ?_) fun i => ?_
  · simp only [rowsGroup, Matrix.of_apply, List.get_eq_getElem, List.getElem_map, hr]
    rfl
  · simp only [rowsGroup, List.get_eq_getElem, List.getElem_map, hy]
    rfl
  · simp only [rowsGroup, Matrix.of_apply, List.get_eq_getElem, List.getElem_map, hr]
    rfl
  · simp only [rowsGroup, List.get_eq_getElem, List.getElem_map, hx]
    rfl

theorem groupRows_left {v₁ : Vec ℝ N₁} {v₂ : Vec ℝ N₂} {v : Vec ℝ (N₁ + N₂)} (h1 : ∀ r, v (Fin.castAdd N₂ r) = v₁ r) (h2 : ∀ r, v (Fin.natAdd N₁ r) = v₂ r) {l : ℝ} (hl : ∀ r, v₂ r ≠ l) :
    groupRows v l = (groupRows v₁ l).map (Fin.castAdd N₂) := by
  unfold groupRows
  rw [finRange_stack, List.filter_append, List.filter_map, List.filter_map, (List.filter_eq_nil_iff (l := List.finRange N₂)).2]
  · simp only [List.map_nil, List.append_nil]
    congr 2
    funext r
    simp [h1]
  · intro r _
    simp [h2, hl r]

theorem groupRows_right {v₁ : Vec ℝ N₁} {v₂ : Vec ℝ N₂} {v : Vec ℝ (N₁ + N₂)} (h1 : ∀ r, v (Fin.castAdd N₂ r) = v₁ r) (h2 : ∀ r, v (Fin.natAdd N₁ r) = v₂ r) {l : ℝ} (hl : ∀ r, v₁ r ≠ l) :
    groupRows v l = (groupRows v₂ l).map (Fin.natAdd N₁) := by
  unfold groupRows
  rw [finRange_stack, List.filter_append, List.filter_map, List.filter_map, (List.filter_eq_nil_iff (l := List.finRange N₁)).2]
  · simp only [List.map_nil, List.nil_append]
    congr 2
    funext r
    simp [h2]
  · intro r _
    simp [h1, hl r]

/-- The labels of a stacked table. -/
theorem uniqueLabels_stack {v₁ : Vec ℝ N₁} {v₂ : Vec ℝ N₂} {v : Vec ℝ (N₁ + N₂)} (h1 : ∀ r, v (Fin.castAdd N₂ r) = v₁ r) (h2 : ∀ r, v (Fin.natAdd N₁ r) = v₂ r) (hd : ∀ r s, v₁ r ≠ v₂ s) :
    (uniqueLabels v).Perm (uniqueLabels v₁ ++ uniqueLabels v₂) := by
  refine (List.perm_ext_iff_of_nodup (nodup_uniqueLabels v) ?_).2 fun l => ?_
  · refine List.nodup_append.2 ⟨nodup_uniqueLabels _, nodup_uniqueLabels _, ?_⟩
    intro a ha b hb hab
    obtain ⟨r, rfl⟩ := mem_uniqueLabels.1 ha
    obtain ⟨s, rfl⟩ := mem_uniqueLabels.1 hb
    exact hd r s hab
  · rw [List.mem_append, mem_uniqueLabels, mem_uniqueLabels, mem_uniqueLabels]
    constructor
    · rintro ⟨r, rfl⟩
      refine Fin.addCases (fun i => ?_) (fun j => ?_) r
      · exact .inl ⟨i, (h1 i).symm⟩
      · exact .inr ⟨j, (h2 j).symm⟩
    · rintro (⟨r, rfl⟩ | ⟨r, rfl⟩)
      · exact ⟨_, h1 r⟩
      · exact ⟨_, h2 r⟩

/-- An oracle on a table. -/
theorem evalOn_table {α : Type} {x : Matrix (Fin N) (Fin k) ℝ} {y : Vec ℝ N} {columns : Option (List String)} {labels : List String} {ffi fri : Bool} {mustFe mustRe : Option (List String)} {P : LmeProblem ℝ}
    (h : lmeFromXY x (some y) columns labels ffi fri mustFe mustRe = .ok P) {g v : Fin k} (hg : labelIdx labels (· = GROUP) = [g]) (hv : labelIdx labels (· = VARIANCE) = [v]) (hp : fixedCount labels ffi = p)
    (hq : randomCount labels fri = q) (f : ∀ {p q : ℕ}, List (LmeGroup p q) → Vec ℝ p → Vec ℝ q → Except PyErr α) (b c : List ℝ) :
    evalOn P f b c = (asVec p b >>= fun beta => asVec q c >>= fun gamma =>
      f ((uniqueLabels fun r => x r g).map (tableGroup x y labels ffi fri g v p q)) beta gamma) := by
  subst hp hq
  obtain ⟨_, _, feW, reW, -, -, hlen, -, -, -, -, -, -, -, hPe⟩ := lmeFromXY_ok x (some y) columns labels ffi fri mustFe mustRe P h
  have hF := numFixed_eq P ffi fri (by rw [hPe])
  have hR := numRandom_eq P ffi fri (by rw [hPe])
  have hcl : P.columnLabels = labels := by rw [hPe]
  rw [hcl, ← fixedCount_eq] at hF
  rw [hcl, ← randomCount_eq] at hR
  obtain ⟨g', v', hg', hv', -, hD⟩ := lmeGroups_table h
  obtain rfl : g' = g := List.singleton_injective (hg'.symm.trans hg)
  obtain rfl : v' = v := List.singleton_injective (hv'.symm.trans hv)
  unfold evalOn
  rw [hD, ← hF, ← hR]
  rfl

theorem lmeFromXY_must {x : Matrix (Fin N) (Fin k) ℝ} {y : Option (Vec ℝ N)} {columns : Option (List String)} {labels : List String} {ffi fri : Bool} {mustFe mustRe : Option (List String)} {P : LmeProblem ℝ}
    (h : lmeFromXY x y columns labels ffi fri mustFe mustRe = .ok P) : columns = none → mustFe = none ∧ mustRe = none := by
  intro hc
  unfold lmeFromXY at h
  split_ifs at h with h1 h2 h3
  split at h
  · split at h
    · unfold fromXYCore at h
      split_ifs at h with h4 h5 h6 h7
      by_contra hn
      refine h7 ⟨?_, hc⟩
      by_contra hm
      push Not at hm
      exact hn hm
    · cases h
  · cases h

section Sums

variable {D D₁ D₂ : List (LmeGroup p q)} (h : D.Perm (D₁ ++ D₂))

include h

theorem stack_inDomain (gamma : Vec ℝ q) : InDomain D gamma ↔ InDomain D₁ gamma ∧ InDomain D₂ gamma := by
  unfold InDomain
  simp only [h.mem_iff, List.mem_append]
  exact ⟨fun h => ⟨fun g hg => h g (.inl hg), fun g hg => h g (.inr hg)⟩, fun h g hg => hg.elim (h.1 g) (h.2 g)⟩

theorem stack_sum {A : Type*} [AddCommMonoid A] (f : LmeGroup p q → A) : (D.map f).sum = (D₁.map f).sum + (D₂.map f).sum := by
  rw [(h.map f).sum_eq, List.map_append, List.sum_append]

theorem stack_loss (beta : Vec ℝ p) (gamma : Vec ℝ q) (l : ℝ) : lmeLoss D .nonInformative beta gamma = .ok l ↔
    ∃ l₁ l₂, lmeLoss D₁ .nonInformative beta gamma = .ok l₁ ∧ lmeLoss D₂ .nonInformative beta gamma = .ok l₂ ∧ l = l₁ + l₂ := by
  have e : ∀ D : List (LmeGroup p q), marginalNLL D beta gamma + (LmeInstPrior.nonInformative : LmeInstPrior ℝ p q).loss beta gamma = marginalNLL D beta gamma := fun D => add_zero _
  simp only [lmeLoss_ok, e]
  rw [stack_inDomain h]
  have := stack_sum h fun g => groupNLL g beta gamma
  constructor
  · rintro ⟨⟨h1, h2⟩, rfl⟩
    exact ⟨_, _, ⟨h1, rfl⟩, ⟨h2, rfl⟩, this⟩
  · rintro ⟨_, _, ⟨h1, rfl⟩, ⟨h2, rfl⟩, rfl⟩
    exact ⟨⟨h1, h2⟩, this.symm⟩

theorem stack_gradientBeta (beta : Vec ℝ p) (gamma : Vec ℝ q) (l : Vec ℝ p) : lmeGradientBeta D .nonInformative beta gamma = .ok l ↔
    ∃ l₁ l₂, lmeGradientBeta D₁ .nonInformative beta gamma = .ok l₁ ∧ lmeGradientBeta D₂ .nonInformative beta gamma = .ok l₂ ∧ l = l₁ + l₂ := by
  have e : ∀ v : Vec ℝ p, v + (LmeInstPrior.nonInformative : LmeInstPrior ℝ p q).gradientBeta beta gamma = v := fun v => add_zero _
  simp only [lmeGradientBeta_ok, e]
  rw [stack_inDomain h, stack_sum h]
  constructor
  · rintro ⟨⟨h1, h2⟩, rfl⟩
    exact ⟨_, _, ⟨h1, rfl⟩, ⟨h2, rfl⟩, rfl⟩
  · rintro ⟨_, _, ⟨h1, rfl⟩, ⟨h2, rfl⟩, rfl⟩
    exact ⟨⟨h1, h2⟩, rfl⟩

theorem stack_gradientGamma (beta : Vec ℝ p) (gamma : Vec ℝ q) (l : Vec ℝ q) : lmeGradientGamma D .nonInformative beta gamma = .ok l ↔
    ∃ l₁ l₂, lmeGradientGamma D₁ .nonInformative beta gamma = .ok l₁ ∧ lmeGradientGamma D₂ .nonInformative beta gamma = .ok l₂ ∧ l = l₁ + l₂ := by
  have e : ∀ v : Vec ℝ q, v + (LmeInstPrior.nonInformative : LmeInstPrior ℝ p q).gradientGamma beta gamma = v := fun v => add_zero _
  simp only [lmeGradientGamma_ok', e]
  rw [stack_inDomain h, stack_sum h]
  constructor
  · rintro ⟨⟨h1, h2⟩, rfl⟩
    exact ⟨_, _, ⟨h1, rfl⟩, ⟨h2, rfl⟩, rfl⟩
  · rintro ⟨_, _, ⟨h1, rfl⟩, ⟨h2, rfl⟩, rfl⟩
    exact ⟨⟨h1, h2⟩, rfl⟩

end Sums

theorem ofFn_add {n : ℕ} (u v : Vec ℝ n) : List.ofFn (u + v) = List.zipWith (· + ·) (List.ofFn u) (List.ofFn v) := by
  refine List.ext_getElem (by simp) fun i h1 h2 => ?_
  simp

/-- **C198**: let two tables with the same columns be accepted by `from_x_y` and have no group in common. Then the one below the other is accepted; at all coefficients, the loss of the oracle on it (or its error) is
the sum of the losses on the parts, the gradients are the sums of the gradients of the parts, entry by entry, and the random effects are those of the groups in the parts. -/
theorem C198_stacked (x₁ : Matrix (Fin N₁) (Fin k) ℝ) (x₂ : Matrix (Fin N₂) (Fin k) ℝ) (y₁ : Vec ℝ N₁) (y₂ : Vec ℝ N₂) (columns : Option (List String)) (labels : List String) (ffi fri : Bool)
    (mustFe mustRe : Option (List String)) (P₁ P₂ : LmeProblem ℝ) (h₁ : lmeFromXY x₁ (some y₁) columns labels ffi fri mustFe mustRe = .ok P₁)
    (h₂ : lmeFromXY x₂ (some y₂) columns labels ffi fri mustFe mustRe = .ok P₂) (hd : ∀ c : Fin k, labels[(c : ℕ)]? = some "group" → ∀ r s, x₁ r c ≠ x₂ s c) :
    ∃ P, lmeFromXY (Matrix.of (Fin.append x₁ x₂)) (some (Fin.append y₁ y₂)) columns labels ffi fri mustFe mustRe = .ok P ∧ ∀ b c : List ℝ,
      (∀ l, evalOn P (fun D => lmeLoss D .nonInformative) b c = .ok l ↔
        ∃ l₁ l₂, evalOn P₁ (fun D => lmeLoss D .nonInformative) b c = .ok l₁ ∧ evalOn P₂ (fun D => lmeLoss D .nonInformative) b c = .ok l₂ ∧ l = l₁ + l₂) ∧
      (∀ l, evalOn P (fun D beta gamma => (lmeGradientBeta D .nonInformative beta gamma).map fun g => List.ofFn g) b c = .ok l ↔
        ∃ l₁ l₂, evalOn P₁ (fun D beta gamma => (lmeGradientBeta D .nonInformative beta gamma).map fun g => List.ofFn g) b c = .ok l₁ ∧
          evalOn P₂ (fun D beta gamma => (lmeGradientBeta D .nonInformative beta gamma).map fun g => List.ofFn g) b c = .ok l₂ ∧ l = List.zipWith (· + ·) l₁ l₂) ∧
      (∀ l, evalOn P (fun D beta gamma => (lmeGradientGamma D .nonInformative beta gamma).map fun g => List.ofFn g) b c = .ok l ↔
        ∃ l₁ l₂, evalOn P₁ (fun D beta gamma => (lmeGradientGamma D .nonInformative beta gamma).map fun g => List.ofFn g) b c = .ok l₁ ∧
          evalOn P₂ (fun D beta gamma => (lmeGradientGamma D .nonInformative beta gamma).map fun g => List.ofFn g) b c = .ok l₂ ∧ l = List.zipWith (· + ·) l₁ l₂) ∧
      ((∃ us, evalOn P (fun D beta gamma => (lmeRandomEffects D beta gamma).map fun us => us.map fun u => List.ofFn u) b c = .ok us) ↔
        (∃ us, evalOn P₁ (fun D beta gamma => (lmeRandomEffects D beta gamma).map fun us => us.map fun u => List.ofFn u) b c = .ok us) ∧
        ∃ us, evalOn P₂ (fun D beta gamma => (lmeRandomEffects D beta gamma).map fun us => us.map fun u => List.ofFn u) b c = .ok us) ∧
      ∀ us us₁ us₂, evalOn P (fun D beta gamma => (lmeRandomEffects D beta gamma).map fun us => us.map fun u => List.ofFn u) b c = .ok us →
        evalOn P₁ (fun D beta gamma => (lmeRandomEffects D beta gamma).map fun us => us.map fun u => List.ofFn u) b c = .ok us₁ →
        evalOn P₂ (fun D beta gamma => (lmeRandomEffects D beta gamma).map fun us => us.map fun u => List.ofFn u) b c = .ok us₂ →
        (P.groupLabels.zip us).Perm (P₁.groupLabels.zip us₁ ++ P₂.groupLabels.zip us₂) := by
  obtain ⟨g, v, feW, reW, hg, hv, hlen, hknown, hN, hvar, hint, hcols, hfe, hre, hP1⟩ := lmeFromXY_ok x₁ (some y₁) columns labels ffi fri mustFe mustRe P₁ h₁
  obtain ⟨g', v', feW', reW', hg', hv', -, -, -, hvar', hint', -, -, -, hP2⟩ := lmeFromXY_ok x₂ (some y₂) columns labels ffi fri mustFe mustRe P₂ h₂
  obtain rfl : g' = g := List.singleton_injective (hg'.symm.trans hg)
  obtain rfl : v' = v := List.singleton_injective (hv'.symm.trans hv)
  obtain ⟨P, hP⟩ := lmeFromXY_succeeds (stackRows x₁ x₂) (some (Fin.append y₁ y₂)) columns labels ffi fri mustFe mustRe g' v' hg hv hlen hknown
    (fun _ => by have := hN rfl; omega)
    (fun r => Fin.addCases (fun i => by rw [stackRows_left]; exact hvar i) (fun i => by rw [stackRows_right]; exact hvar' i) r)
    (fun r => Fin.addCases (fun i => by rw [stackRows_left]; exact hint i) (fun i => by rw [stackRows_right]; exact hint' i) r) hcols (lmeFromXY_must h₁) feW reW hfe hre
  have hgl : labels[(g' : ℕ)]? = some "group" := by
    have : g' ∈ labelIdx (p := k) labels (fun l => decide (l = GROUP)) := by rw [hg]; simp
    rw [mem_labelIdx] at this
    have hlt : (g' : ℕ) < labels.length := by omega
    rw [List.getElem?_eq_getElem hlt]
    simpa [List.getD_eq_getElem?_getD, List.getElem?_eq_getElem hlt, GROUP] using this
  have hdis := hd g' hgl
  obtain ⟨_, _, _, _, hg2, -, -, -, -, -, -, -, -, -, hPs⟩ := lmeFromXY_ok _ _ columns labels ffi fri mustFe mustRe P hP
  have eL : P.groupLabels = uniqueLabels fun r => stackRows x₁ x₂ r g' := by
    rw [hPs]
    obtain rfl := List.singleton_injective (hg2.symm.trans hg)
    rfl
  have eL1 : P₁.groupLabels = uniqueLabels fun r => x₁ r g' := by rw [hP1]
  have eL2 : P₂.groupLabels = uniqueLabels fun r => x₂ r g' := by rw [hP2]
  obtain ⟨p, hp⟩ : ∃ p, fixedCount labels ffi = p := ⟨_, rfl⟩
  obtain ⟨q, hq⟩ : ∃ q, randomCount labels fri = q := ⟨_, rfl⟩
  obtain ⟨T, hT⟩ : ∃ T, T = tableGroup (stackRows x₁ x₂) (Fin.append y₁ y₂) labels ffi fri g' v' p q := ⟨_, rfl⟩
  obtain ⟨T₁, hT₁⟩ : ∃ T, T = tableGroup x₁ y₁ labels ffi fri g' v' p q := ⟨_, rfl⟩
  obtain ⟨T₂, hT₂⟩ : ∃ T, T = tableGroup x₂ y₂ labels ffi fri g' v' p q := ⟨_, rfl⟩
  have k1 : ∀ l ∈ uniqueLabels fun r => x₁ r g', T l = T₁ l := fun l hl => by
    obtain ⟨r, rfl⟩ := mem_uniqueLabels.1 hl
    have := groupRows_left (v := fun r => stackRows x₁ x₂ r g') (v₁ := fun r => x₁ r g') (v₂ := fun r => x₂ r g') (fun r => stackRows_left _ _ _ _) (fun r => stackRows_right _ _ _ _)
      (l := x₁ r g') (fun s => (hdis r s).symm)
    rw [hT, hT₁]
    change rowsGroup _ _ labels ffi fri v' p q (groupRows _ _) = rowsGroup _ _ labels ffi fri v' p q (groupRows _ _)
    rw [this]
    exact rowsGroup_map _ _ _ _ _ (fun r c => stackRows_left _ _ _ _) (fun r => Fin.append_left _ _ _) _ _ _ _ _ _ _
  have k2 : ∀ l ∈ uniqueLabels fun r => x₂ r g', T l = T₂ l := fun l hl => by
    obtain ⟨s, rfl⟩ := mem_uniqueLabels.1 hl
    have := groupRows_right (v := fun r => stackRows x₁ x₂ r g') (v₁ := fun r => x₁ r g') (v₂ := fun r => x₂ r g') (fun r => stackRows_left _ _ _ _) (fun r => stackRows_right _ _ _ _)
      (l := x₂ s g') (fun r => hdis r s)
    rw [hT, hT₂]
    change rowsGroup _ _ labels ffi fri v' p q (groupRows _ _) = rowsGroup _ _ labels ffi fri v' p q (groupRows _ _)
    rw [this]
    exact rowsGroup_map _ _ _ _ _ (fun r c => stackRows_right _ _ _ _) (fun r => Fin.append_right _ _ _) _ _ _ _ _ _ _
  have hU := uniqueLabels_stack (v := fun r => stackRows x₁ x₂ r g') (v₁ := fun r => x₁ r g') (v₂ := fun r => x₂ r g') (fun r => stackRows_left _ _ _ _) (fun r => stackRows_right _ _ _ _) hdis
  have hD : ((uniqueLabels fun r => stackRows x₁ x₂ r g').map T).Perm ((uniqueLabels fun r => x₁ r g').map T₁ ++ (uniqueLabels fun r => x₂ r g').map T₂) := by
    refine (hU.map T).trans (List.Perm.of_eq ?_)
    rw [List.map_append, List.map_congr_left k1, List.map_congr_left k2]
  refine ⟨P, hP, fun b c => ?_⟩
  simp only [evalOn_table hP hg hv hp hq, evalOn_table h₁ hg hv hp hq, evalOn_table h₂ hg hv hp hq, ← hT, ← hT₁, ← hT₂]
  cases asVec p b with
  | error e =>
    refine ⟨fun l => ⟨fun h => (by cases h), fun ⟨_, _, h, _⟩ => (by cases h)⟩, fun l => ⟨fun h => (by cases h), fun ⟨_, _, h, _⟩ => (by cases h)⟩,
      fun l => ⟨fun h => (by cases h), fun ⟨_, _, h, _⟩ => (by cases h)⟩, ⟨fun ⟨_, h⟩ => (by cases h), fun ⟨⟨_, h⟩, _⟩ => (by cases h)⟩, fun _ _ _ h => (by cases h)⟩
  | ok beta =>
    cases asVec q c with
    | error e =>
      refine ⟨fun l => ⟨fun h => (by cases h), fun ⟨_, _, h, _⟩ => (by cases h)⟩, fun l => ⟨fun h => (by cases h), fun ⟨_, _, h, _⟩ => (by cases h)⟩,
        fun l => ⟨fun h => (by cases h), fun ⟨_, _, h, _⟩ => (by cases h)⟩, ⟨fun ⟨_, h⟩ => (by cases h), fun ⟨⟨_, h⟩, _⟩ => (by cases h)⟩, fun _ _ _ h => (by cases h)⟩
    | ok gamma =>
      have hmap : ∀ {α β : Type} {e : Except PyErr α} {f : α → β} {r : β}, e.map f = .ok r ↔ ∃ a, e = .ok a ∧ f a = r := fun {α β e f r} => by
        cases e with
        | error e => exact ⟨fun h => (by cases h), fun ⟨_, h, _⟩ => (by cases h)⟩
        | ok a => exact ⟨fun h => ⟨a, rfl, Except.ok.inj h⟩, fun ⟨_, h1, h2⟩ => (by cases h1; rw [← h2]; rfl)⟩
      have hgrad : ∀ {n : ℕ} {G G₁ G₂ : Except PyErr (Vec ℝ n)}, (∀ l, G = .ok l ↔ ∃ l₁ l₂, G₁ = .ok l₁ ∧ G₂ = .ok l₂ ∧ l = l₁ + l₂) → ∀ l, G.map (fun g => List.ofFn g) = .ok l ↔
          ∃ l₁ l₂, G₁.map (fun g => List.ofFn g) = .ok l₁ ∧ G₂.map (fun g => List.ofFn g) = .ok l₂ ∧ l = List.zipWith (· + ·) l₁ l₂ := fun {n G G₁ G₂} h l => by
        simp only [hmap, h]
        constructor
        · rintro ⟨_, ⟨l₁, l₂, h1, h2, rfl⟩, rfl⟩
          exact ⟨_, _, ⟨l₁, h1, rfl⟩, ⟨l₂, h2, rfl⟩, ofFn_add _ _⟩
        · rintro ⟨_, _, ⟨l₁, h1, rfl⟩, ⟨l₂, h2, rfl⟩, rfl⟩
          exact ⟨_, ⟨l₁, l₂, h1, h2, rfl⟩, ofFn_add _ _⟩
      refine ⟨fun l => stack_loss hD beta gamma l, fun l => hgrad (stack_gradientBeta hD beta gamma) l, fun l => hgrad (stack_gradientGamma hD beta gamma) l, ?_, ?_⟩
      · change (∃ us, (lmeRandomEffects _ beta gamma).map _ = .ok us) ↔ (∃ us, (lmeRandomEffects _ beta gamma).map _ = .ok us) ∧ ∃ us, (lmeRandomEffects _ beta gamma).map _ = .ok us
        simp only [hmap, lmeRandomEffects_ok, stack_inDomain hD, hD.mem_iff, List.mem_append]
        constructor
        · rintro ⟨_, _, ⟨⟨h1, h2⟩, h3, rfl⟩, -⟩
          exact ⟨⟨_, _, ⟨h1, fun G hG => h3 G (.inl hG), rfl⟩, rfl⟩, ⟨_, _, ⟨h2, fun G hG => h3 G (.inr hG), rfl⟩, rfl⟩⟩
        · rintro ⟨⟨_, _, ⟨h1, h2, -⟩, -⟩, ⟨_, _, ⟨h3, h4, -⟩, -⟩⟩
          exact ⟨_, _, ⟨⟨h1, h3⟩, fun G hG => hG.elim (h2 G) (h4 G), rfl⟩, rfl⟩
      · intro us us₁ us₂ e e1 e2
        replace e : (lmeRandomEffects ((uniqueLabels fun r => stackRows x₁ x₂ r g').map T) beta gamma).map (fun us => us.map fun u => List.ofFn u) = .ok us := e
        replace e1 : (lmeRandomEffects ((uniqueLabels fun r => x₁ r g').map T₁) beta gamma).map (fun us => us.map fun u => List.ofFn u) = .ok us₁ := e1
        replace e2 : (lmeRandomEffects ((uniqueLabels fun r => x₂ r g').map T₂) beta gamma).map (fun us => us.map fun u => List.ofFn u) = .ok us₂ := e2
        obtain ⟨w0, f0, rfl⟩ := hmap.1 e
        obtain ⟨w1, f1, rfl⟩ := hmap.1 e1
        obtain ⟨w2, f2, rfl⟩ := hmap.1 e2
        obtain ⟨-, -, rfl⟩ := lmeRandomEffects_ok.1 f0
        obtain ⟨-, -, rfl⟩ := lmeRandomEffects_ok.1 f1
        obtain ⟨-, -, rfl⟩ := lmeRandomEffects_ok.1 f2
        have hz : ∀ (F : LmeGroup p q → Vec ℝ q) (U : List ℝ) (T : ℝ → LmeGroup p q), U.zip (List.map (fun u => List.ofFn u) (List.map F (U.map T))) = U.map fun l => (l, List.ofFn (F (T l))) := fun F U T => by
          rw [List.map_map, List.map_map]
          induction U with
          | nil => rfl
          | cons a U ih => rw [List.map_cons, List.map_cons, List.zip_cons_cons, ih]; rfl
        rw [eL, eL1, eL2]
        refine (List.Perm.of_eq (hz _ _ _)).trans (List.Perm.trans ?_ (List.Perm.of_eq (congrArg₂ _ (hz _ _ T₁) (hz _ _ T₂)).symm))
        refine (hU.map _).trans (List.Perm.of_eq ?_)
        rw [List.map_append]
        congr 1
        · exact List.map_congr_left fun l hl => by rw [k1 l hl]
        · exact List.map_congr_left fun l hl => by rw [k2 l hl]

/-- Two more groups. -/
noncomputable def exTabMore : Matrix (Fin 2) (Fin 4) ℝ := !![3, 1, 2, 1; 2, 4, 1, 2]

theorem exTabMore_ok (ffi fri : Bool) (y : Vec ℝ 2) : ∃ P, lmeFromXY exTabMore (some y) none exTabLabels ffi fri none none = .ok P := by
  refine lmeFromXY_succeeds exTabMore (some y) none exTabLabels ffi fri none none 0 3 (by decide) (by decide) rfl (by decide)
    (by simp) ?_ ?_ (.inl rfl) (by simp) _ _ rfl rfl
  · intro r; fin_cases r <;> simp [exTabMore]
  · intro r; fin_cases r
    · exact ⟨3, by simp [exTabMore]⟩
    · exact ⟨2, by simp [exTabMore]⟩

/-- **C198** on a table of the groups `1` and `0` above one of the groups `3` and `2`. -/
example (y₁ y₂ : Vec ℝ 2) : ∃ P P₁ P₂, lmeFromXY exTab (some y₁) none exTabLabels true true none none = .ok P₁ ∧ lmeFromXY exTabMore (some y₂) none exTabLabels true true none none = .ok P₂ ∧
    lmeFromXY (Matrix.of (Fin.append exTab exTabMore)) (some (Fin.append y₁ y₂)) none exTabLabels true true none none = .ok P ∧
    ∀ (b c : List ℝ) (l : ℝ), evalOn P (fun D => lmeLoss D .nonInformative) b c = .ok l ↔
      ∃ l₁ l₂, evalOn P₁ (fun D => lmeLoss D .nonInformative) b c = .ok l₁ ∧ evalOn P₂ (fun D => lmeLoss D .nonInformative) b c = .ok l₂ ∧ l = l₁ + l₂ := by
  obtain ⟨P₁, h₁⟩ := exTab_ok' true true y₁
  obtain ⟨P₂, h₂⟩ := exTabMore_ok true true y₂
  obtain ⟨P, hP, h⟩ := C198_stacked exTab exTabMore y₁ y₂ none exTabLabels true true none none P₁ P₂ h₁ h₂ fun c hc r s => by
    have : c = 0 := by fin_cases c <;> first | rfl | exact absurd hc (by decide)
    subst this
    fin_cases r <;> fin_cases s <;> simp [exTab, exTabMore]
  exact ⟨P, P₁, P₂, h₁, h₂, hP, fun b c => (h b c).1⟩

end Verif
