import Verif.Props.LinModels
import Verif.Props.Linear

/-!
# C163: linear problems from and to tables
-/

open Matrix

namespace Verif

section
variable {K : Type*} [Field K] [LinearOrder K] {m n : ℕ}

/-- **C163**, what is read: with all columns present, `from_dataframe` returns the problem with the columns of the features, in the order of the list, as design, the target column as observations, weight `0`
exactly for the features that must be included, the identity for the relaxation, and the name of the standard deviations as it was given, whether or not such a column exists. -/
theorem C163_dataframe (df : String → Option (Vec K m)) (features : List String) (target : String) (must : Option (List String)) (obsStd : Option String)
    (cols : String → Vec K m) (hf : ∀ f ∈ features, df f = some (cols f)) (ht : df target = some (cols target)) :
    ∃ (a : Matrix (Fin m) (Fin features.length) K) (w : Vec K features.length),
      linFromDataframe df features target must obsStd = .ok ⟨m, features.length, a, cols target, 1, some w, match obsStd with | none => .none | some s => .column s⟩ ∧
      (∀ i j, a i j = cols features[j] i) ∧ (∀ j, w j = 0 ∨ w j = 1) ∧ ∀ j, w j = 0 ↔ ∃ l, must = some l ∧ features[j] ∈ l := by
  have hall : features.all (fun f => (df f).isSome) = true := List.all_eq_true.2 fun f h => by rw [hf f h]; rfl
  refine ⟨Matrix.of fun i j => ((df features[j]).getD 0) i, dataframeWeights features must, ?_, fun i j => ?_, fun j => ?_, fun j => ?_⟩
  · unfold linFromDataframe
    rw [if_pos hall, ht]
    cases obsStd <;> rfl
  · have h1 : df features[j] = some (cols features[j]) := hf _ (List.getElem_mem _)
    rw [Matrix.of_apply, h1]
    rfl
  · unfold dataframeWeights
    split
    · exact Or.inr rfl
    · exact Or.inr rfl
    · split_ifs
      · exact Or.inl rfl
      · exact Or.inr rfl
  · unfold dataframeWeights
    split
    · simp
    · simp
    · rename_i a l
      constructor
      · intro h
        split_ifs at h with h1
        · exact ⟨_, rfl, h1⟩
        · exact absurd h one_ne_zero
      · rintro ⟨l', h1, h2⟩
        cases h1
        rw [if_pos h2]

/-- **C163**, the exceptions: `KeyError` exactly when a feature or the target is not a column; when all columns are there only a relaxation matrix can make it fail, with `ValueError`, exactly when it is given for
two or more features. -/
theorem C163_errors (df : String → Option (Vec K m)) (features : List String) (target : String) (must : Option (List String)) (obsStd : Option String)
    (c : Option (Matrix (Fin features.length) (Fin features.length) K)) :
    (linFromDataframe df features target must obsStd c = .error .keyError ↔ (∃ f ∈ features, df f = none) ∨ df target = none) ∧
    (((∃ f ∈ features, df f = none) ∨ df target = none) ∨ ((∃ P, linFromDataframe df features target must obsStd c = .ok P) ↔ (c = none ∨ features.length ≤ 1)) ∧
      ((¬ ∃ P, linFromDataframe df features target must obsStd c = .ok P) → linFromDataframe df features target must obsStd c = .error .valueError)) := by
  by_cases hall : features.all (fun f => (df f).isSome) = true
  · have h1 : ¬ ∃ f ∈ features, df f = none := by
      rintro ⟨f, hf, h⟩
      have := List.all_eq_true.1 hall f hf
      rw [h] at this
      cases this
    cases ht : df target with
    | none =>
      have e : linFromDataframe df features target must obsStd c = .error .keyError := by
        unfold linFromDataframe
        rw [if_pos hall, ht]
      exact ⟨⟨fun _ => Or.inr rfl, fun _ => e⟩, Or.inl (Or.inr rfl)⟩
    | some b =>
      have e : linFromDataframe df features target must obsStd c = linProblemInit (Matrix.of fun i j => ((df features[j]).getD 0) i) b c (some (dataframeWeights features must))
          (match obsStd with | .none => .none | some s => .column s) := by
        unfold linFromDataframe
        rw [if_pos hall, ht]
        rfl
      have key : (∃ P, linFromDataframe df features target must obsStd c = .ok P) ∧ (c = none ∨ features.length ≤ 1) ∨
          linFromDataframe df features target must obsStd c = .error .valueError ∧ ¬ (c = none ∨ features.length ≤ 1) := by
        rw [e]
        cases c with
        | none => exact Or.inl ⟨⟨_, rfl⟩, Or.inl rfl⟩
        | some C =>
          have hT : (∃ t, arrayTruth C = .ok t) ∧ features.length ≤ 1 ∨ arrayTruth C = .error .valueError ∧ ¬ features.length ≤ 1 := by
            unfold arrayTruth
            by_cases h2 : features.length = 1
            · rw [dif_pos h2]
              exact Or.inl ⟨⟨_, rfl⟩, h2.le⟩
            · rw [dif_neg h2]
              by_cases h3 : features.length = 0
              · rw [if_pos h3]
                exact Or.inl ⟨⟨_, rfl⟩, by omega⟩
              · rw [if_neg h3]
                exact Or.inr ⟨rfl, by omega⟩
          unfold linProblemInit
          rcases hT with ⟨⟨t, h2⟩, h3⟩ | ⟨h2, h3⟩
          · simp only [h2]
            exact Or.inl ⟨⟨_, rfl⟩, Or.inr h3⟩
          · simp only [h2]
            refine Or.inr ⟨trivial, ?_⟩
            rintro (h4 | h4)
            · cases h4
            · exact h3 h4
      refine ⟨⟨fun h => ?_, fun h => ?_⟩, Or.inr ?_⟩
      · rcases key with ⟨⟨P, hP⟩, -⟩ | ⟨hv, -⟩
        · rw [hP] at h; cases h
        · rw [hv] at h; cases h
      · rcases h with h | h
        · exact absurd h h1
        · cases h
      · rcases key with ⟨hP, hc⟩ | ⟨hv, hc⟩
        · exact ⟨⟨fun _ => hc, fun _ => hP⟩, fun hn => absurd hP hn⟩
        · exact ⟨⟨fun ⟨P, hP⟩ => (by rw [hv] at hP; cases hP), fun h => absurd h hc⟩, fun _ => hv⟩
  · have h1 : ∃ f ∈ features, df f = none := by
      by_contra hcon
      refine hall (List.all_eq_true.2 fun f hf => ?_)
      cases hdf : df f with
      | none => exact absurd ⟨f, hf, hdf⟩ hcon
      | some _ => rfl
    have e : linFromDataframe df features target must obsStd c = .error .keyError := by
      unfold linFromDataframe
      rw [if_neg hall]
    exact ⟨⟨fun _ => Or.inl h1, fun _ => e⟩, Or.inl (Or.inl h1)⟩

/-- **C163**, arrays: `to_x_y` returns the arrays that `from_x_y` (or the constructor) was given, also after `from_dataframe`, and `from_x_y` of them always works. -/
theorem C163_arrays (a : Matrix (Fin m) (Fin n) K) (b : Vec K m) (c : Option (Matrix (Fin n) (Fin n) K)) (w : Option (Vec K n)) (s : StdArg K m) (P : LinProblem K) (h : linProblemInit a b c w s = .ok P) :
    ∃ (hm : P.m = m) (hn : P.n = n), (∀ i j, P.toXY.1 (Fin.cast hm.symm i) (Fin.cast hn.symm j) = a i j) ∧ (∀ i, P.toXY.2 (Fin.cast hm.symm i) = b i) ∧
      linProblemInit P.toXY.1 P.toXY.2 none none = .ok ⟨P.m, P.n, P.toXY.1, P.toXY.2, 1, none, .none⟩ := by
  unfold linProblemInit at h
  cases c with
  | none =>
    cases h
    exact ⟨rfl, rfl, fun _ _ => rfl, fun _ => rfl, rfl⟩
  | some C =>
    cases ht : arrayTruth C with
    | error e => simp only [ht] at h; cases h
    | ok t =>
      simp only [ht] at h
      cases h
      exact ⟨rfl, rfl, fun _ _ => rfl, fun _ => rfl, rfl⟩

end

/-- **C163**, fits: every model gives the same result on the problem of a dataframe and on the problem of its arrays (`fit_problem(from_dataframe(...))` and `fit_problem(from_x_y(x, y))`, which is what `fit(x, y)`
does), whatever must be included and whatever standard deviations are named. -/
theorem C163_fit (M : LinModelCfg) {m : ℕ} (df : String → Option (Vec ℝ m)) (features : List String) (target : String) (must : Option (List String)) (obsStd : Option String)
    (cols : String → Vec ℝ m) (hf : ∀ f ∈ features, df f = some (cols f)) (ht : df target = some (cols target)) (x0 : Option (Vec ℝ features.length)) (warm : Bool) (w : Option (Vec ℝ features.length)) :
    ∃ (wr : Vec ℝ features.length) (sd : StdArg ℝ m),
      linFromDataframe df features target must obsStd = .ok ⟨m, features.length, Matrix.of fun i j => cols features[j] i, cols target, 1, some wr, sd⟩ ∧
      linFit M ⟨m, features.length, Matrix.of fun i j => cols features[j] i, cols target, 1, some wr, sd⟩ x0 warm w =
        linFit M ⟨m, features.length, Matrix.of fun i j => cols features[j] i, cols target, 1, none, .none⟩ x0 warm w := by
  obtain ⟨a, wr, h, ha, -⟩ := C163_dataframe df features target must obsStd cols hf ht
  have e : a = Matrix.of fun i j => cols features[j] i := by
    ext i j
    exact ha i j
  rw [e] at h
  exact ⟨wr, _, h, rfl⟩

/-- Two of three columns, one of which must be included; the column `s` of standard deviations does not exist. -/
example : ∃ (a : Matrix (Fin 1) (Fin 2) ℚ) (w : Vec ℚ 2),
    linFromDataframe (fun s => if s = "u" then some ![1] else if s = "v" then some ![2] else if s = "y" then some ![3] else none) ["v", "u"] "y" (some ["u", "t"]) (some "s") =
      .ok ⟨1, 2, a, ![3], 1, some w, .column "s"⟩ ∧ a 0 0 = 2 ∧ a 0 1 = 1 ∧ w 0 ≠ 0 ∧ w 1 = 0 := by
  obtain ⟨a, w, h, ha, -, hw⟩ := C163_dataframe (fun s => if s = "u" then some ![(1 : ℚ)] else if s = "v" then some ![2] else if s = "y" then some ![3] else none) ["v", "u"] "y" (some ["u", "t"]) (some "s")
    (fun s => if s = "u" then ![1] else if s = "v" then ![2] else ![3]) (by simp) (by simp)
  refine ⟨a, w, h, ?_, ?_, fun h0 => ?_, ?_⟩
  · exact ha 0 (0 : Fin 2)
  · exact ha 0 (1 : Fin 2)
  · obtain ⟨l, h1, h2⟩ := (hw (0 : Fin 2)).1 h0
    cases h1
    revert h2
    decide
  · exact (hw (1 : Fin 2)).2 ⟨_, rfl, by decide⟩

/-- A missing target, and a relaxation matrix for two features. -/
example : linFromDataframe (fun s => if s = "u" then some ![(1 : ℚ)] else none) ["u"] "y" none = .error .keyError ∧
    linFromDataframe (fun _ => some ![(1 : ℚ)]) ["u", "v"] "y" none none (some 1) = .error .valueError := by
  refine ⟨(C163_errors _ _ _ _ _ _).1.2 (Or.inr (by simp)), ?_⟩
  rcases (C163_errors (fun _ => some ![(1 : ℚ)]) ["u", "v"] "y" none none (some 1)).2 with h | ⟨h1, h2⟩
  · rcases h with ⟨f, -, h⟩ | h <;> cases h
  · refine h2 fun hP => ?_
    rcases h1.1 hP with h | h
    · cases h
    · revert h
      decide

end Verif
