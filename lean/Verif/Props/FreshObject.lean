import Verif.Props.LmeSession
import Verif.Props.LinSession

/-!
# A model object that was only ever offered unusable arrays has no fitted attributes (C133, C140)
-/

namespace Verif

open Matrix

/-- C140: after any number of `fit` calls with unusable arrays a new mixed-model object still has none of `coef_`, `logger_`, `n_features_in_`, each call raised `ValueError`, and `predict` raises
`NotFittedError`. -/
theorem C140_fresh (M : LmeModelCfg) (calls : List (RawX × RawY)) (hbad : ∀ c ∈ calls, ¬ GoodData c.1 c.2) (labels : Option (List String)) (ffi fri : Bool)
    (columns mustFe mustRe : Option (List String)) (a : LmeFitArgs) :
    let s := calls.foldl (fun s c => (lmeFitXY M s c.1 c.2 labels ffi fri columns mustFe mustRe a).2) LmeObject.new
    s.coef = none ∧ s.logger = .missing ∧ s.nFeatures = none ∧ (∀ x : RawX, lmePredictXY s x labels ffi fri = .error .notFitted) ∧
      ∀ x y, ¬ GoodData x y → (lmeFitXY M s x y labels ffi fri columns mustFe mustRe a).1 = .error .valueError := by
  have h : ∀ s : LmeObject, calls.foldl (fun s c => (lmeFitXY M s c.1 c.2 labels ffi fri columns mustFe mustRe a).2) s = s := by
    induction calls with
    | nil => exact fun s => rfl
    | cons c cs ih =>
      intro s
      rw [List.foldl_cons, (C140_protocol_partial M s c.1 c.2 labels ffi fri columns mustFe mustRe a).1 (hbad c (List.mem_cons_self ..))]
      exact ih (fun c hc => hbad c (List.mem_cons_of_mem _ hc)) s
  simp only [h]
  refine ⟨rfl, rfl, rfl, fun x => rfl, fun x y hxy => ?_⟩
  rw [(C140_protocol_partial M _ x y labels ffi fri columns mustFe mustRe a).1 hxy]

/-- C133: the same for linear models. -/
theorem C133_fresh (M : LinModelCfg) (calls : List (RawX × RawY)) (hbad : ∀ c ∈ calls, ¬ GoodData c.1 c.2) (warm : Bool) :
    let s := calls.foldl (fun s c => (linFitXY M s c.1 c.2 none warm none).2) LinObject.new
    s.coef = none ∧ s.logger = .missing ∧ s.nFeatures = none ∧ (∀ x : RawX, linPredictXY s x = .error .notFitted) ∧
      ∀ x y, ¬ GoodData x y → (linFitXY M s x y none warm none).1 = .error .valueError := by
  have h : ∀ s : LinObject, calls.foldl (fun s c => (linFitXY M s c.1 c.2 none warm none).2) s = s := by
    induction calls with
    | nil => exact fun s => rfl
    | cons c cs ih =>
      intro s
      rw [List.foldl_cons, show linFitXY M s c.1 c.2 none warm none = (.error .valueError, s) from
        (C133_protocol_partial M s c.1 c.2 none warm none).1 (hbad c (List.mem_cons_self ..))]
      exact ih (fun c hc => hbad c (List.mem_cons_of_mem _ hc)) s
  simp only [h]
  refine ⟨rfl, rfl, rfl, fun x => rfl, fun x y hxy => ?_⟩
  rw [show linFitXY M LinObject.new x y none warm none = (.error .valueError, LinObject.new) from (C133_protocol_partial M _ x y none warm none).1 hxy]

/-- Two rejected calls: a table without rows, and a table with a missing entry. -/
def rejectedCalls : List (RawX × RawY) := [(⟨0, 1, fun _ _ => some 0⟩, ⟨0, none, fun _ _ => some 0⟩), (⟨1, 1, fun _ _ => none⟩, ⟨1, none, fun _ _ => some 0⟩)]

theorem rejectedCalls_bad : ∀ c ∈ rejectedCalls, ¬ GoodData c.1 c.2 := by
  intro c hc
  rcases List.mem_cons.1 hc with rfl | hc
  · exact fun h => absurd (goodData_iff.1 h).1.1 (lt_irrefl 0)
  · rw [List.mem_singleton.1 hc]
    exact fun h => (goodData_iff.1 h).1.2.2 0 0 rfl

example : linPredictXY (rejectedCalls.foldl (fun s c => (linFitXY (linClass .dummy false {}) s c.1 c.2 none false none).2) LinObject.new) ⟨1, 1, fun _ _ => some 1⟩ = .error .notFitted :=
  (C133_fresh _ _ rejectedCalls_bad false).2.2.2.1 _

example (M : LmeModelCfg) : (rejectedCalls.foldl (fun s c => (lmeFitXY M s c.1 c.2 none true true none none none {}).2) LmeObject.new).logger = .missing :=
  (C140_fresh M _ rejectedCalls_bad none true true none none none {}).2.1

end Verif
