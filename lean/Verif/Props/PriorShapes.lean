import Verif.Model.PriorShapes
import Verif.Props.Priors
import Verif.Props.LmeColumns
import Verif.Props.LmeGenerate

/-!
# C173: Gaussian priors on problems with intercepts
-/

namespace Verif

variable {K : Type*} [Field K] [LinearOrder K]

theorem mapM_pure_ok {α β : Type*} (f : α → β) (l : List α) : (l.mapM fun x => (.ok (f x) : Except PyErr β)) = .ok (l.map f) := by
  induction l with
  | nil => rfl
  | cons a l ih => rw [List.mapM_cons, ih]; rfl

theorem npVec_eq (f : K → K → K) (a b : List K) (h : a.length = b.length) : npVec f a b = .ok (List.zipWith f a b) := by
  unfold npVec npBroadcast
  rw [if_pos h, mapM_pure_ok (fun xy : K × K => f xy.1 xy.2), List.zip, List.map_zipWith]

theorem npVec_left (f : K → K → K) (x : K) (b : List K) : npVec f [x] b = .ok (b.map (f x)) := by
  by_cases h : [x].length = b.length
  · rw [npVec_eq f _ _ h]
    match b, h with
    | [y], _ => rfl
  · unfold npVec npBroadcast
    rw [if_neg h]
    exact mapM_pure_ok (f x) b

theorem npVec_right (f : K → K → K) (a : List K) (y : K) : npVec f a [y] = .ok (a.map (f · y)) := by
  by_cases h : a.length = [y].length
  · rw [npVec_eq f _ _ h]
    match a, h with
    | [x], _ => rfl
  · unfold npVec npBroadcast
    rw [if_neg h]
    match a with
    | [] => rfl
    | [x] => exact absurd rfl h
    | x :: x' :: a => exact mapM_pure_ok (f · y) _

theorem npVec_error (f : K → K → K) (a b : List K) (h : a.length ≠ b.length) (ha : a.length ≠ 1) (hb : b.length ≠ 1) : npVec f a b = .error .valueError := by
  unfold npVec npBroadcast
  rw [if_neg h]
  match a, b with
  | [], [] => exact absurd rfl h
  | [], [y] => exact absurd rfl hb
  | [], y :: y' :: b => rfl
  | [x], b => exact absurd rfl ha
  | x :: x' :: a, [] => rfl
  | x :: x' :: a, [y] => exact absurd rfl hb
  | x :: x' :: a, y :: y' :: b => rfl

/-- The arrays of an instantiated prior. -/
theorem gaussArr_ok {params : PriorParams K} {cols : List String} {st : GaussArr K} (h : gaussArr params cols = .ok st) :
    st = ⟨cols.map fun l => (params.getD l).1, cols.map fun l => if 0 < (params.getD l).2 then (params.getD l).2 else 1, cols.map fun l => if 0 < (params.getD l).2 then 1 else 0⟩ := by
  unfold gaussArr at h
  split_ifs at h
  obtain ⟨es, he, h⟩ := ebind_ok.1 h
  cases h
  have key : ∀ (cols : List String) (es : List (K × K × K)), cols.mapM (priorEntry params) = .ok es →
      es = cols.map fun l => ((params.getD l).1, (if 0 < (params.getD l).2 then (params.getD l).2 else 1), (if 0 < (params.getD l).2 then 1 else 0)) := by
    intro cols
    induction cols with
    | nil => intro es h; cases h; rfl
    | cons l cols ih =>
      intro es h
      rw [List.mapM_cons] at h
      obtain ⟨e, he, h⟩ := ebind_ok.1 h
      obtain ⟨r, hr, h⟩ := ebind_ok.1 h
      cases h
      rw [ih r hr]
      unfold priorEntry at he
      simp only at he
      split_ifs at he <;> (cases he; simp_all)
  rw [key cols es he]
  simp only [List.map_map, Function.comp_def]

/-- When a prior is accepted. -/
theorem gaussArr_iff (params : PriorParams K) (cols : List String) : (∃ st, gaussArr params cols = .ok st) ↔ params.Fits cols := by
  have key : ∀ cols : List String, (∃ es, cols.mapM (priorEntry params) = .ok es) ↔ ∀ l ∈ cols, 0 ≤ (params.getD l).2 := by
    intro cols
    induction cols with
    | nil => simp [pure, Except.pure]
    | cons l cols ih =>
      rw [List.forall_mem_cons, ← ih, List.mapM_cons]
      constructor
      · rintro ⟨es, h⟩
        obtain ⟨e, he, h⟩ := ebind_ok.1 h
        obtain ⟨r, hr, h⟩ := ebind_ok.1 h
        refine ⟨?_, r, hr⟩
        unfold priorEntry at he
        simp only at he
        split_ifs at he with h0
        · exact h0
        · exact h0
      · rintro ⟨h0, r, hr⟩
        have he : priorEntry params l = .ok ((params.getD l).1, (if 0 < (params.getD l).2 then (params.getD l).2 else 1), (if 0 < (params.getD l).2 then 1 else 0)) := by
          unfold priorEntry
          simp only
          rw [if_pos h0]
        exact ⟨_, ebind_ok.2 ⟨_, he, ebind_ok.2 ⟨r, hr, rfl⟩⟩⟩
  have hstd : (∀ l ∈ cols, 0 ≤ (params.getD l).2) ↔ ∀ label ∈ cols, ∀ mean std, params.lookup label = some (mean, std) → 0 ≤ std := by
    refine forall₂_congr fun l _ => ?_
    unfold PriorParams.getD
    cases params.lookup l with
    | none => simp
    | some ms =>
      refine ⟨fun h mean std e => ?_, fun h => h ms.1 ms.2 rfl⟩
      cases e
      exact h
  unfold PriorParams.Fits
  rw [← hstd, ← key]
  unfold gaussArr
  constructor
  · rintro ⟨st, h⟩
    split_ifs at h with ha
    obtain ⟨es, he, h⟩ := ebind_ok.1 h
    exact ⟨fun name ms hm => by simpa using List.all_eq_true.1 ha _ hm, es, he⟩
  · rintro ⟨h1, es, he⟩
    rw [if_pos (List.all_eq_true.2 fun kv hkv => decide_eq_true (h1 kv.1 kv.2 hkv))]
    exact ⟨_, ebind_ok.2 ⟨es, he, rfl⟩⟩

/-- The slope of the penalty given for a column. -/
def columnSlope (params : PriorParams K) (label : String) (v : K) : K :=
  match params.lookup label with
  | none => 0
  | some (mean, std) => if 0 < std then (v - mean) / std else 0

/-- The curvature of the penalty given for a column. -/
def columnCurvature (params : PriorParams K) (label : String) : K :=
  match params.lookup label with
  | none => 0
  | some (_, std) => if 0 < std then 1 / std else 0

theorem penalty_eq (params : PriorParams K) (l : String) (v : K) :
    (if 0 < (params.getD l).2 then 1 else 0) * (1 / (2 * (if 0 < (params.getD l).2 then (params.getD l).2 else 1))) * (v - (params.getD l).1) ^ 2 = columnPenalty id params l v := by
  unfold PriorParams.getD columnPenalty
  cases params.lookup l with
  | none => simp
  | some ms =>
    obtain ⟨mean, std⟩ := ms
    simp only [Option.getD_some, id]
    split_ifs
    · rw [one_mul, one_div, mul_comm, ← div_eq_mul_inv]
    · rw [zero_mul, zero_mul]

theorem slope_eq (params : PriorParams K) (l : String) (v : K) :
    (if 0 < (params.getD l).2 then 1 else 0) * (1 / (if 0 < (params.getD l).2 then (params.getD l).2 else 1)) * (v - (params.getD l).1) = columnSlope params l v := by
  unfold PriorParams.getD columnSlope
  cases params.lookup l with
  | none => simp
  | some ms =>
    obtain ⟨mean, std⟩ := ms
    simp only [Option.getD_some]
    split_ifs
    · rw [one_mul, one_div, mul_comm, ← div_eq_mul_inv]
    · rw [zero_mul, zero_mul]

theorem curvature_eq (params : PriorParams K) (l : String) :
    (if 0 < (params.getD l).2 then 1 else 0) * (1 / (if 0 < (params.getD l).2 then (params.getD l).2 else 1)) = columnCurvature params l := by
  unfold PriorParams.getD columnCurvature
  cases params.lookup l with
  | none => simp
  | some ms =>
    obtain ⟨mean, std⟩ := ms
    simp only [Option.getD_some]
    split_ifs <;> simp

theorem zipWith_map_self {α β : Type*} (f : α → α → β) (g h : String → α) (l : List String) : List.zipWith f (l.map g) (l.map h) = l.map fun x => f (g x) (h x) := by
  rw [List.zipWith_map, List.zipWith_self]

section
variable {params : PriorParams K} {cols : List String} {st : GaussArr K}

theorem arr_loss (h : gaussArr params cols = .ok st) (x : List K) : st.loss x = (npVec (· - ·) x (cols.map fun l => (params.getD l).1) >>= fun d =>
    npVec (· * ·) (cols.map fun l => (if 0 < (params.getD l).2 then 1 else 0) * (1 / (2 * (if 0 < (params.getD l).2 then (params.getD l).2 else 1)))) (d.map (· ^ 2)) >>= fun t => pure t.sum) := by
  rw [gaussArr_ok h]
  unfold GaussArr.loss
  simp only
  rw [List.map_map, npVec_eq _ _ _ (by simp), zipWith_map_self]
  rfl

theorem arr_gradient (h : gaussArr params cols = .ok st) (x : List K) : st.gradient x = (npVec (· - ·) x (cols.map fun l => (params.getD l).1) >>= fun d =>
    npVec (· * ·) (cols.map fun l => (if 0 < (params.getD l).2 then 1 else 0) * (1 / (if 0 < (params.getD l).2 then (params.getD l).2 else 1))) d) := by
  rw [gaussArr_ok h]
  unfold GaussArr.gradient
  simp only
  rw [List.map_map, npVec_eq _ _ _ (by simp), zipWith_map_self]
  rfl

theorem arr_hessian (h : gaussArr params cols = .ok st) : st.hessian = .ok (npDiag (cols.map (columnCurvature params))) := by
  rw [gaussArr_ok h]
  unfold GaussArr.hessian
  simp only
  rw [List.map_map, npVec_eq _ _ _ (by simp), zipWith_map_self]
  simp only [Function.comp_def, curvature_eq]
  rfl

/-- One name per coefficient. -/
theorem arr_aligned (h : gaussArr params cols = .ok st) (x : List K) (hx : x.length = cols.length) :
    st.loss x = .ok (List.zipWith (columnPenalty id params) cols x).sum ∧ st.gradient x = .ok (List.zipWith (columnSlope params) cols x) := by
  rw [arr_loss h, arr_gradient h, npVec_eq _ _ _ (by simp [hx])]
  have e : ∀ (c : String → K) (f : K → K) (cols : List String) (x : List K),
      List.zipWith (· * ·) (cols.map c) ((List.zipWith (· - ·) x (cols.map fun l => (params.getD l).1)).map f) = List.zipWith (fun l v => c l * f (v - (params.getD l).1)) cols x := by
    intro c f cols
    induction cols with
    | nil => intro x; simp
    | cons l cols ih => intro x; cases x with
      | nil => simp
      | cons v x => simp only [List.map_cons, List.zipWith_cons_cons]; rw [ih x]
  constructor
  · refine ebind_ok.2 ⟨_, rfl, ?_⟩
    rw [npVec_eq _ _ _ (by simp [hx]), e _ (· ^ 2)]
    simp only [penalty_eq]
    rfl
  · refine ebind_ok.2 ⟨_, rfl, ?_⟩
    have e' := e (fun l => (if 0 < (params.getD l).2 then 1 else 0) * (1 / (if 0 < (params.getD l).2 then (params.getD l).2 else 1))) id cols x
    rw [List.map_id] at e'
    rw [npVec_eq _ _ _ (by simp [hx]), e']
    simp only [id, slope_eq]

/-- One name and any number of coefficients. -/
theorem arr_single {name : String} (h : gaussArr params [name] = .ok st) (x : List K) :
    st.loss x = .ok (x.map (columnPenalty id params name)).sum ∧ st.gradient x = .ok (x.map (columnSlope params name)) := by
  rw [arr_loss h, arr_gradient h, List.map_singleton, List.map_singleton, npVec_right]
  constructor
  · refine ebind_ok.2 ⟨_, rfl, ?_⟩
    rw [npVec_left, List.map_map, List.map_map]
    simp only [Function.comp_def, penalty_eq]
    rfl
  · refine ebind_ok.2 ⟨_, rfl, ?_⟩
    rw [List.map_singleton, npVec_left, List.map_map]
    simp only [Function.comp_def, slope_eq]

/-- More than one name and another number (not one) of coefficients. -/
theorem arr_error (h : gaussArr params cols = .ok st) (x : List K) (hx : x.length ≠ cols.length) (h1 : x.length ≠ 1) (h2 : cols.length ≠ 1) :
    st.loss x = .error .valueError ∧ st.gradient x = .error .valueError := by
  rw [arr_loss h, arr_gradient h, npVec_error _ _ _ (by simpa using hx) h1 (by simpa using h2)]
  exact ⟨rfl, rfl⟩

/-- The Hessian of a prior with one name is added to every entry. -/
theorem addHessian_single {name : String} (h : gaussArr params [name] = .ok st) (H : List (List K)) :
    st.addHessian H = .ok (H.map fun r => r.map (· + columnCurvature params name)) := by
  unfold GaussArr.addHessian
  rw [arr_hessian h]
  have e : npDiag ([name].map (columnCurvature params)) = [[columnCurvature params name]] := by simp [npDiag]
  rw [e]
  refine ebind_ok.2 ⟨_, rfl, ?_⟩
  have key : ∀ H : List (List K), (H.mapM fun r => npVec (· + ·) r [columnCurvature params name]) = .ok (H.map fun r => r.map (· + columnCurvature params name)) := by
    intro H
    simp only [npVec_right]
    exact mapM_pure_ok (fun r : List K => r.map (· + columnCurvature params name)) H
  unfold npMat npBroadcast
  by_cases hl : H.length = [[columnCurvature params name]].length
  · rw [if_pos hl]
    match H, hl with
    | [r], _ =>
      have := key [r]
      simpa using this
  · rw [if_neg hl]
    match H, hl with
    | [], _ => rfl
    | [r], hl => exact absurd rfl hl
    | r :: r' :: H, _ => exact key _

/-- The Hessian of a prior with one name per coefficient is added on the diagonal. -/
theorem addHessian_aligned (h : gaussArr params cols = .ok st) (H : List (List K)) (hH : H.length = cols.length) (hH' : ∀ r ∈ H, r.length = cols.length) :
    ∃ H', st.addHessian H = .ok H' ∧ H'.length = cols.length ∧ ∀ i j : ℕ, i < cols.length → j < cols.length →
      (H'.getD i []).getD j 0 = (H.getD i []).getD j 0 + if i = j then columnCurvature params (cols.getD i "") else 0 := by
  unfold GaussArr.addHessian
  rw [arr_hessian h]
  have hd : (npDiag (cols.map (columnCurvature params))).length = cols.length := by simp [npDiag]
  refine ⟨List.zipWith (fun a b => List.zipWith (· + ·) a b) H (npDiag (cols.map (columnCurvature params))), ebind_ok.2 ⟨_, rfl, ?_⟩, ?_, ?_⟩
  · unfold npMat npBroadcast
    rw [if_pos (by rw [hd, hH])]
    have hall : ∀ ab ∈ H.zip (npDiag (cols.map (columnCurvature params))), npVec (· + ·) ab.1 ab.2 = .ok (List.zipWith (· + ·) ab.1 ab.2) := by
      rintro ⟨a, b⟩ hab
      obtain ⟨ha, hb⟩ := List.of_mem_zip hab
      refine npVec_eq _ _ _ ?_
      rw [hH' a ha]
      unfold npDiag at hb
      obtain ⟨i, -, rfl⟩ := List.mem_map.1 hb
      simp
    have key : ∀ L : List (List K × List K), (∀ ab ∈ L, npVec (· + ·) ab.1 ab.2 = .ok (List.zipWith (· + ·) ab.1 ab.2)) →
        (L.mapM fun ab => npVec (· + ·) ab.1 ab.2) = .ok (L.map fun ab => List.zipWith (· + ·) ab.1 ab.2) := by
      intro L
      induction L with
      | nil => intro _; rfl
      | cons a L ih =>
        intro hL
        rw [List.mapM_cons, hL a List.mem_cons_self, ih fun b hb => hL b (List.mem_cons_of_mem _ hb)]
        rfl
    rw [key _ hall, List.zip, List.map_zipWith]
  · rw [List.length_zipWith, hd, hH, min_self]
  · intro i j hi hj
    have h1 : H[i]? = some (H.getD i []) := by
      rw [List.getD_eq_getElem?_getD, List.getElem?_eq_getElem (by omega), Option.getD_some]
    have h2 : (npDiag (cols.map (columnCurvature params)))[i]? = some ((List.range cols.length).map fun j => if i = j then columnCurvature params (cols.getD i "") else 0) := by
      unfold npDiag
      rw [List.length_map, List.getElem?_map, List.getElem?_range hi]
      simp [hi]
    have h3 : (H.getD i []).length = cols.length := hH' _ (List.mem_of_getElem? h1)
    rw [List.getD_eq_getElem?_getD (l := List.zipWith _ _ _), List.getElem?_zipWith, h1, h2]
    simp only [Option.getD_some]
    rw [List.getD_eq_getElem?_getD, List.getElem?_zipWith, List.getElem?_map, List.getElem?_range hj, List.getElem?_eq_getElem (by omega), Option.map_some]
    simp only [Option.getD_some]
    rw [List.getD_eq_getElem?_getD (l := H.getD i []), List.getElem?_eq_getElem (by omega), Option.getD_some]

/-- The Hessian of a prior with more than one name and another number (not one) of coefficients. -/
theorem addHessian_error (h : gaussArr params cols = .ok st) (H : List (List K)) (hx : H.length ≠ cols.length) (h1 : H.length ≠ 1) (h2 : cols.length ≠ 1) :
    st.addHessian H = .error .valueError := by
  unfold GaussArr.addHessian
  rw [arr_hessian h]
  have hd : (npDiag (cols.map (columnCurvature params))).length = cols.length := by simp [npDiag]
  generalize npDiag (cols.map (columnCurvature params)) = Q at hd
  rw [← hd] at hx h2
  change npMat _ H Q = _
  unfold npMat npBroadcast
  rw [if_neg hx]
  match H, Q with
  | [], [] => exact absurd rfl hx
  | [], [y] => exact absurd rfl h2
  | [], y :: y' :: b => rfl
  | [x], b => exact absurd rfl h1
  | x :: x' :: a, [] => rfl
  | x :: x' :: a, [y] => exact absurd rfl h2
  | x :: x' :: a, y :: y' :: b => rfl

end

section
variable {N p : ℕ}

theorem fromXY_counts (x : Matrix (Fin N) (Fin p) K) (y : Option (Vec K N)) (columns : Option (List String)) (labels : List String) (ffi fri : Bool)
    (mustFe mustRe : Option (List String)) (P : LmeProblem K) (h : lmeFromXY x y columns labels ffi fri mustFe mustRe = .ok P) :
    P.numFixed = labels.countP (fun l => l = "fixed" ∨ l = "fixed+random") + ffi.toNat ∧ P.numRandom = labels.countP (fun l => l = "random" ∨ l = "fixed+random") + fri.toNat := by
  have eF : (fun l : String => decide (l = "fixed" ∨ l = "fixed+random")) = isFixed := by funext l; simp [isFixed, FIXED, FIXED_RANDOM]
  have eR : (fun l : String => decide (l = "random" ∨ l = "fixed+random")) = isRandom := by funext l; simp [isRandom, RANDOM, FIXED_RANDOM]
  rw [eF, eR]
  obtain ⟨g, v, feW, reW, -, -, -, -, -, -, -, -, -, -, rfl⟩ := lmeFromXY_ok x y _ labels ffi fri _ mustRe P h
  exact ⟨numFixed_eq _ ffi fri rfl, numRandom_eq _ ffi fri rfl⟩

/-- **C173**, what holds: on a problem built from a table without the fixed (random) intercept, a Gaussian prior adds to the loss the penalty given under the name of each fixed (random) effect, to the gradient
its slope and to the Hessian, on the diagonal, its curvature. (Missing: problems with intercepts, `C173_intercept_violated` and `C173_raises_violated`.) -/
theorem C173_prior_partial (x : Matrix (Fin N) (Fin p) K) (y : Option (Vec K N)) (cols : List String) (labels : List String) (ffi fri : Bool)
    (mustFe mustRe : Option (List String)) (hc : cols.length = p) (P : LmeProblem K) (h : lmeFromXY x y (some cols) labels ffi fri mustFe mustRe = .ok P) (params : PriorParams K) (st : GaussArr K)
    (names : List String) (hst : gaussArr params names = .ok st) (b : List K)
    (hn : ffi = false ∧ P.feColumns = some names ∧ b.length = P.numFixed ∨ fri = false ∧ P.reColumns = some names ∧ b.length = P.numRandom) :
    st.loss b = .ok (List.zipWith (columnPenalty id params) names b).sum ∧ st.gradient b = .ok (List.zipWith (columnSlope params) names b) ∧
      ∀ H : List (List K), H.length = b.length → (∀ r ∈ H, r.length = b.length) → ∃ H', st.addHessian H = .ok H' ∧ ∀ i j : ℕ, i < b.length → j < b.length →
        (H'.getD i []).getD j 0 = (H.getD i []).getD j 0 + if i = j then columnCurvature params (names.getD i "") else 0 := by
  have hpart := C48_names_partial x y cols labels ffi fri mustFe mustRe hc P h
  have hl : b.length = names.length := by
    rcases hn with hn | hn
    · obtain ⟨idx, h1, h2, -⟩ := hpart.1 hn.1
      rw [hn.2.1] at h1
      rw [hn.2.2, ← h2, Option.some.inj h1, List.length_map]
    · obtain ⟨idx, h1, h2, -⟩ := hpart.2 hn.1
      rw [hn.2.1] at h1
      rw [hn.2.2, ← h2, Option.some.inj h1, List.length_map]
  obtain ⟨h1, h2⟩ := arr_aligned hst b hl
  refine ⟨h1, h2, fun H hH hH' => ?_⟩
  obtain ⟨H', e1, -, e3⟩ := addHessian_aligned hst H (by rw [hH, hl]) (fun r hr => by rw [hH' r hr, hl])
  exact ⟨H', e1, by rw [hl]; exact e3⟩

/-- **C173 is violated** with the intercept and one more effect: a prior given for the named effect penalises the intercept in the same way, and its Hessian is added to all entries, so that it is not the
derivative of the gradient. -/
theorem C173_intercept_violated (x : Matrix (Fin N) (Fin p) K) (y : Option (Vec K N)) (cols : List String) (labels : List String) (ffi fri : Bool)
    (mustFe mustRe : Option (List String)) (hc : cols.length = p) (P : LmeProblem K) (h : lmeFromXY x y (some cols) labels ffi fri mustFe mustRe = .ok P) (mean std : K) (hstd : 0 < std) :
    (ffi = true → labels.countP (fun l => l = "fixed" ∨ l = "fixed+random") = 1 → ∃ name st, P.feColumns = some [name] ∧ gaussArr [(name, (mean, std))] [name] = .ok st ∧
      (∀ b0 b1, st.loss [b0, b1] = .ok ((b0 - mean) ^ 2 / (2 * std) + (b1 - mean) ^ 2 / (2 * std)) ∧ st.gradient [b0, b1] = .ok [(b0 - mean) / std, (b1 - mean) / std]) ∧
      ∀ a b c d, st.addHessian [[a, b], [c, d]] = .ok [[a + 1 / std, b + 1 / std], [c + 1 / std, d + 1 / std]]) ∧
    (fri = true → labels.countP (fun l => l = "random" ∨ l = "fixed+random") = 1 → ∃ name st, P.reColumns = some [name] ∧ gaussArr [(name, (mean, std))] [name] = .ok st ∧
      (∀ b0 b1, st.loss [b0, b1] = .ok ((b0 - mean) ^ 2 / (2 * std) + (b1 - mean) ^ 2 / (2 * std)) ∧ st.gradient [b0, b1] = .ok [(b0 - mean) / std, (b1 - mean) / std]) ∧
      ∀ a b c d, st.addHessian [[a, b], [c, d]] = .ok [[a + 1 / std, b + 1 / std], [c + 1 / std, d + 1 / std]]) := by
  obtain ⟨v1, v2⟩ := C48_names_violated x y cols labels ffi fri mustFe mustRe hc P h
  obtain ⟨c1, c2⟩ := fromXY_counts x y (some cols) labels ffi fri mustFe mustRe P h
  have key : ∀ name : String, ∃ st, gaussArr [(name, (mean, std))] [name] = .ok st ∧
      (∀ b0 b1, st.loss [b0, b1] = .ok ((b0 - mean) ^ 2 / (2 * std) + (b1 - mean) ^ 2 / (2 * std)) ∧ st.gradient [b0, b1] = .ok [(b0 - mean) / std, (b1 - mean) / std]) ∧
      ∀ a b c d, st.addHessian [[a, b], [c, d]] = .ok [[a + 1 / std, b + 1 / std], [c + 1 / std, d + 1 / std]] := by
    intro name
    obtain ⟨st, hst⟩ := (gaussArr_iff [(name, (mean, std))] [name]).2 ⟨by simp, by
      intro l hl m s hs
      rw [List.mem_singleton] at hl
      subst hl
      rw [List.lookup_cons_self] at hs
      cases hs
      exact hstd.le⟩
    refine ⟨st, hst, fun b0 b1 => ?_, fun a b c d => ?_⟩
    · obtain ⟨e1, e2⟩ := arr_single hst [b0, b1]
      rw [e1, e2]
      simp [columnPenalty, columnSlope, hstd]
    · rw [addHessian_single hst]
      simp [columnCurvature, hstd]
  constructor
  · intro hf hn
    obtain ⟨names, e1, e2, -⟩ := v1 hf
    obtain ⟨name, rfl⟩ := List.length_eq_one_iff.1 (show names.length = 1 by subst hf; simp only [Bool.toNat_true] at c1 c2; omega)
    obtain ⟨st, hst⟩ := key name
    exact ⟨name, st, e1, hst⟩
  · intro hf hn
    obtain ⟨names, e1, e2, -⟩ := v2 hf
    obtain ⟨name, rfl⟩ := List.length_eq_one_iff.1 (show names.length = 1 by subst hf; simp only [Bool.toNat_true] at c1 c2; omega)
    obtain ⟨st, hst⟩ := key name
    exact ⟨name, st, e1, hst⟩

/-- **C173 is violated** with the intercept and two or more further effects: whatever the parameters of the prior, its loss and gradient at the coefficients and the sum with the Hessian of the oracle raise
`ValueError`. -/
theorem C173_raises_violated (x : Matrix (Fin N) (Fin p) K) (y : Option (Vec K N)) (cols : List String) (labels : List String) (ffi fri : Bool)
    (mustFe mustRe : Option (List String)) (hc : cols.length = p) (P : LmeProblem K) (h : lmeFromXY x y (some cols) labels ffi fri mustFe mustRe = .ok P) (params : PriorParams K) (st : GaussArr K)
    (names : List String) (hst : gaussArr params names = .ok st) (b : List K) (H : List (List K)) (hH : H.length = b.length)
    (hn : ffi = true ∧ 2 ≤ labels.countP (fun l => l = "fixed" ∨ l = "fixed+random") ∧ P.feColumns = some names ∧ b.length = P.numFixed ∨ fri = true ∧ 2 ≤ labels.countP (fun l => l = "random" ∨ l = "fixed+random") ∧ P.reColumns = some names ∧ b.length = P.numRandom) :
    st.loss b = .error .valueError ∧ st.gradient b = .error .valueError ∧ st.addHessian H = .error .valueError := by
  obtain ⟨v1, v2⟩ := C48_names_violated x y cols labels ffi fri mustFe mustRe hc P h
  obtain ⟨c1, c2⟩ := fromXY_counts x y (some cols) labels ffi fri mustFe mustRe P h
  have hl : names.length + 1 = b.length ∧ 3 ≤ b.length := by
    rcases hn with ⟨h1, h2, h3, h4⟩ | ⟨h1, h2, h3, h4⟩
    · obtain ⟨names', e1, e2, -⟩ := v1 h1
      cases h3.symm.trans e1
      subst h1
      simp only [Bool.toNat_true] at c1 c2
      omega
    · obtain ⟨names', e1, e2, -⟩ := v2 h1
      cases h3.symm.trans e1
      subst h1
      simp only [Bool.toNat_true] at c1 c2
      omega
  obtain ⟨h1, h2⟩ := arr_error hst b (by omega) (by omega) (by omega)
  exact ⟨h1, h2, addHessian_error hst H (by omega) (by omega) (by omega)⟩

/-- Labels of the example with one fixed effect. -/
def exLabels1 : List String := [GROUP, FIXED, RANDOM, RANDOM, VARIANCE]

theorem exXY1_ok (b : Bool) : ∃ P, lmeFromXY exX none (some ["g", "a", "b", "c", "v"]) exLabels1 b false none none = .ok P := by
  refine lmeFromXY_succeeds exX none _ exLabels1 b false none none 0 4 (by decide) (by decide) rfl (by decide) (by simp) ?_ ?_ (.inr (.inr rfl)) (by simp) _ _ rfl rfl
  · intro r; fin_cases r <;> simp [exX]
  · intro r; fin_cases r
    · exact ⟨7, by simp [exX]⟩
    · exact ⟨4, by simp [exX]⟩
    · exact ⟨7, by simp [exX]⟩

/-- Non-vacuity of the violations: with the intercept and the column "a", a prior given for "a" penalises the intercept; with the intercept and two columns it raises. -/
example : ∃ (P : LmeProblem ℚ) (name : String) (st : GaussArr ℚ), lmeFromXY exX none (some ["g", "a", "b", "c", "v"]) exLabels1 true false none none = .ok P ∧ P.feColumns = some [name] ∧ gaussArr [(name, (0, 2))] [name] = .ok st ∧
    st.loss [4, 0] = .ok 4 ∧ st.addHessian [[1, 0], [0, 1]] = .ok [[1 + 1 / 2, 0 + 1 / 2], [0 + 1 / 2, 1 + 1 / 2]] := by
  obtain ⟨P, h⟩ := exXY1_ok true
  obtain ⟨name, st, h1, h2, h3, h4⟩ := (C173_intercept_violated exX none _ exLabels1 true false none none rfl P h 0 2 (by norm_num)).1 rfl (by decide)
  refine ⟨P, name, st, h, h1, h2, ?_, h4 1 0 0 1⟩
  rw [(h3 4 0).1]
  norm_num

example : ∃ P names st, lmeFromXY exX none (some ["g", "a", "b", "c", "v"]) exLabels true false none none = .ok P ∧ P.feColumns = some names ∧ gaussArr ([] : PriorParams ℚ) names = .ok st ∧
    st.loss [1, 2, 3] = .error .valueError := by
  obtain ⟨P, h⟩ := exXY_ok none (some ["g", "a", "b", "c", "v"]) true false (.inr rfl)
  obtain ⟨names, h1, -⟩ := (C48_names_violated exX none _ exLabels true false none none rfl P h).1 rfl
  obtain ⟨st, h2⟩ := (gaussArr_iff ([] : PriorParams ℚ) names).2 ⟨by simp, by simp⟩
  refine ⟨P, names, st, h, h1, h2, (C173_raises_violated exX none _ exLabels true false none none rfl P h [] st names h2 [1, 2, 3] [[], [], []] rfl (.inl ⟨rfl, by decide, h1, ?_⟩)).1⟩
  rw [(fromXY_counts exX none _ exLabels true false none none P h).1]
  decide

/-- Non-vacuity of the partial C173: without the intercept the prior given for "a" applies to its coefficient. -/
example : ∃ P names st, lmeFromXY exX none (some ["g", "a", "b", "c", "v"]) exLabels1 false false none none = .ok P ∧ P.feColumns = some names ∧ gaussArr ([] : PriorParams ℚ) names = .ok st ∧
    st.loss [4] = .ok (List.zipWith (columnPenalty id []) names [4]).sum := by
  obtain ⟨P, h⟩ := exXY1_ok false
  obtain ⟨names, h1, hl⟩ : ∃ names, P.feColumns = some names ∧ names.length = P.numFixed := by
    obtain ⟨idx, h1, h2, -⟩ := (C48_names_partial exX none _ exLabels1 false false none none rfl P h).1 rfl
    exact ⟨_, h1, by rw [List.length_map, h2]⟩
  obtain ⟨st, h2⟩ := (gaussArr_iff ([] : PriorParams ℚ) names).2 ⟨by simp, by simp⟩
  obtain ⟨c1, c2⟩ := fromXY_counts exX none _ exLabels1 false false none none P h
  have e1 : P.numFixed = 1 := by rw [c1]; decide
  exact ⟨P, names, st, h, h1, h2, (C173_prior_partial exX none _ exLabels1 false false none none rfl P h [] st names h2 [4] (.inl ⟨rfl, h1, e1.symm⟩)).1⟩

end

end Verif
