import Verif.Model.Ctor

/-!
# C136: constructors, `get_params`, `set_params`, `clone` and `instantiate` agree
-/

noncomputable section

namespace Verif

/-- What `__init__` has to do so that scikit-learn can work with the class. -/
def Faithful : Ctor → Prop
  | .base params _ assigns =>
    (∀ a ∈ assigns, a.1 = a.2 ∧ a.1 ∈ params.map Prod.fst) ∧ ∀ p ∈ params.map Prod.fst, p ∈ assigns.map Prod.fst
  | .derived params _ superArgs super assigns =>
    (∀ a ∈ assigns, a.1 = a.2 ∧ a.1 ∈ params.map Prod.fst) ∧
    (∀ a ∈ superArgs, a.1 = a.2 ∧ a.1 ∈ params.map Prod.fst ∧ a.1 ∈ super.params.map Prod.fst) ∧
    (∀ p ∈ params.map Prod.fst, p ∈ assigns.map Prod.fst ∨ p ∈ superArgs.map Prod.fst) ∧
    (∀ q ∈ super.params.map Prod.fst, q ∈ assigns.map Prod.fst ∨ q ∈ superArgs.map Prod.fst) ∧
    Faithful super

theorem lookup_isSome_of_mem {l : List (String × Arg)} {n : String} (h : n ∈ l.map Prod.fst) : ∃ v, l.lookup n = some v := by
  induction l with
  | nil => simp at h
  | cons e l ih =>
    obtain ⟨m, v⟩ := e
    by_cases hm : n = m
    · exact ⟨v, by simp [List.lookup, hm]⟩
    · have : n ∈ l.map Prod.fst := by simpa [hm] using h
      obtain ⟨w, hw⟩ := ih this
      exact ⟨w, by simp [List.lookup, beq_eq_false_iff_ne.2 hm, hw]⟩

theorem local_isSome {c : Ctor} {kw : List (String × Arg)} {n : String} (h : n ∈ c.params.map Prod.fst) : ∃ v, c.local kw n = some v := by
  obtain ⟨v, hv⟩ := lookup_isSome_of_mem h
  unfold Ctor.local
  rw [if_pos h, hv]
  cases kw.lookup n <;> simp

theorem assignAll_ok {loc : String → Option Arg} {assigns : List (String × String)} (h1 : ∀ a ∈ assigns, a.1 = a.2) (h2 : ∀ a ∈ assigns, ∃ v, loc a.1 = some v)
    (self : Attrs) : ∃ A, assignAll loc self assigns = .ok A ∧ ∀ n, A n = if n ∈ assigns.map Prod.fst then loc n else self n := by
  induction assigns generalizing self with
  | nil => exact ⟨self, rfl, fun n => by simp⟩
  | cons a rest ih =>
    obtain ⟨name, l⟩ := a
    obtain rfl : name = l := h1 _ List.mem_cons_self
    obtain ⟨v, hv⟩ := h2 _ List.mem_cons_self
    obtain ⟨A, hA, hn⟩ := ih (fun a ha => h1 a (List.mem_cons_of_mem _ ha)) (fun a ha => h2 a (List.mem_cons_of_mem _ ha)) (Function.update self name (some v))
    refine ⟨A, by simp only [assignAll, hv, hA], fun n => ?_⟩
    rw [hn]
    by_cases hr : n ∈ rest.map Prod.fst
    · rw [if_pos hr, if_pos (by simp only [List.map_cons, List.mem_cons]; exact .inr hr)]
    · by_cases he : n = name
      · subst he
        rw [if_neg hr, Function.update_self, if_pos (by simp), hv]
      · rw [if_neg hr, Function.update_of_ne he, if_neg (by simp only [List.map_cons, List.mem_cons]; tauto)]

theorem evalArgs_ok {loc : String → Option Arg} {args : List (String × String)} (h1 : ∀ a ∈ args, a.1 = a.2) (h2 : ∀ a ∈ args, ∃ v, loc a.1 = some v) :
    ∃ kw, evalArgs loc args = .ok kw ∧ kw.map Prod.fst = args.map Prod.fst ∧ ∀ n, kw.lookup n = if n ∈ args.map Prod.fst then loc n else none := by
  induction args with
  | nil => exact ⟨[], rfl, rfl, fun n => by simp⟩
  | cons a rest ih =>
    obtain ⟨name, l⟩ := a
    obtain rfl : name = l := h1 _ List.mem_cons_self
    obtain ⟨v, hv⟩ := h2 _ List.mem_cons_self
    obtain ⟨kw, hkw, hk, hn⟩ := ih (fun a ha => h1 a (List.mem_cons_of_mem _ ha)) (fun a ha => h2 a (List.mem_cons_of_mem _ ha))
    refine ⟨(name, v) :: kw, by simp only [evalArgs, hv, hkw]; rfl, by simp [hk], fun n => ?_⟩
    by_cases he : n = name
    · subst he
      simp [List.lookup, hv]
    · rw [List.lookup_cons, beq_eq_false_iff_ne.2 he]
      simp only [List.map_cons, List.mem_cons, he, false_or]
      exact hn n

theorem construct_faithful {c : Ctor} (hc : Faithful c) (kw : List (String × Arg)) (hkw : c.varKw = true ∨ ∀ e ∈ kw, e.1 ∈ c.params.map Prod.fst) (self : Attrs) :
    ∃ A, construct c kw self = .ok A ∧ ∀ n, A n = if n ∈ c.params.map Prod.fst then c.local kw n else self n := by
  induction c generalizing kw self with
  | base params varKw assigns =>
    obtain ⟨h1, h2⟩ := hc
    obtain ⟨A, hA, hn⟩ := assignAll_ok (loc := (Ctor.base params varKw assigns).local kw) (fun a ha => (h1 a ha).1) (fun a ha => local_isSome (h1 a ha).2) self
    refine ⟨A, ?_, fun n => ?_⟩
    · rw [construct, if_neg, hA]
      rintro ⟨hv, hk⟩
      rcases hkw with h | h
      · rw [Ctor.varKw, hv] at h
        cases h
      · exact hk h
    · rw [hn]
      change _ = if n ∈ params.map Prod.fst then _ else _
      by_cases hm : n ∈ assigns.map Prod.fst
      · obtain ⟨a, ha, rfl⟩ := List.mem_map.1 hm
        rw [if_pos hm, if_pos (h1 a ha).2]
      · rw [if_neg hm, if_neg fun h => hm (h2 n h)]
  | derived params varKw superArgs super assigns ih =>
    obtain ⟨h1, h2, h3, h4, h5⟩ := hc
    obtain ⟨args, hargs, hfst, hlook⟩ := evalArgs_ok (loc := (Ctor.derived params varKw superArgs super assigns).local kw) (fun a ha => (h2 a ha).1)
      (fun a ha => local_isSome (h2 a ha).2.1)
    obtain ⟨B, hB, hBn⟩ := ih h5 args (.inr fun e he => by
      have : e.1 ∈ superArgs.map Prod.fst := hfst ▸ List.mem_map_of_mem he
      obtain ⟨a, ha, hae⟩ := List.mem_map.1 this
      exact hae ▸ (h2 a ha).2.2) self
    obtain ⟨A, hA, hn⟩ := assignAll_ok (loc := (Ctor.derived params varKw superArgs super assigns).local kw) (fun a ha => (h1 a ha).1) (fun a ha => local_isSome (h1 a ha).2) B
    refine ⟨A, ?_, fun n => ?_⟩
    · rw [construct, if_neg, hargs]
      · change (construct super args self >>= fun s => _) = _
        rw [hB]
        exact hA
      · rintro ⟨hv, hk⟩
        rcases hkw with h | h
        · rw [Ctor.varKw, hv] at h
          cases h
        · exact hk h
    · rw [hn]
      change _ = if n ∈ params.map Prod.fst then _ else _
      by_cases hm : n ∈ assigns.map Prod.fst
      · obtain ⟨a, ha, rfl⟩ := List.mem_map.1 hm
        rw [if_pos hm, if_pos (h1 a ha).2]
      · rw [if_neg hm, hBn]
        by_cases hs : n ∈ superArgs.map Prod.fst
        · obtain ⟨a, ha, rfl⟩ := List.mem_map.1 hs
          rw [if_pos (h2 a ha).2.2, if_pos (h2 a ha).2.1, Ctor.local, if_pos (h2 a ha).2.2, hlook, if_pos hs]
          obtain ⟨v, hv⟩ := local_isSome (kw := kw) (c := .derived params varKw superArgs super assigns) (h2 a ha).2.1
          rw [hv]
          rfl
        · rw [if_neg fun h => (h4 n h).elim hm hs, if_neg fun h => (h3 n h).elim hm hs]

/-- The public classes of the package. -/
def ModelClass (c : Ctor) : Prop := ∃ k sr3, c = linCtor k sr3 ∨ c = lmeCtor k sr3

theorem linCtor_faithful (k : LmeClassName) (sr3 : Bool) : Faithful (linCtor k sr3) ∧ (linCtor k sr3).varKw = true ∧ ((linCtor k sr3).params.map Prod.fst).Nodup := by
  cases k <;> cases sr3 <;>
    simp [linCtor, Faithful, Ctor.varKw, Ctor.params, ctorLinearModel, ctorSimpleLinearModel, ctorSimpleLinearModelSR3, ctorLinearL0Model, ctorLinearL0ModelSR3, ctorLinearL1Model,
      ctorLinearL1ModelSR3, ctorLinearCADModel, ctorLinearCADModelSR3, ctorLinearSCADModel, ctorLinearSCADModelSR3]

theorem lmeCtor_faithful (k : LmeClassName) (sr3 : Bool) : Faithful (lmeCtor k sr3) ∧ (lmeCtor k sr3).varKw = true ∧ ((lmeCtor k sr3).params.map Prod.fst).Nodup := by
  cases k <;> cases sr3 <;>
    simp [lmeCtor, Faithful, Ctor.varKw, Ctor.params, ctorLMEModel, ctorSimpleLMEModel, ctorSimpleLMEModelSR3, ctorL0LmeModel, ctorL0LmeModelSR3, ctorL1LmeModel,
      ctorL1LmeModelSR3, ctorCADLmeModel, ctorCADLmeModelSR3, ctorSCADLmeModel, ctorSCADLmeModelSR3]

theorem ModelClass.faithful {c : Ctor} (h : ModelClass c) : Faithful c ∧ c.varKw = true ∧ (c.params.map Prod.fst).Nodup := by
  obtain ⟨k, sr3, rfl | rfl⟩ := h
  · exact linCtor_faithful k sr3
  · exact lmeCtor_faithful k sr3

theorem lookup_eq_none {l : List (String × Arg)} {n : String} : l.lookup n = none ↔ n ∉ l.map Prod.fst := by
  induction l with
  | nil => simp
  | cons e l ih =>
    obtain ⟨m, v⟩ := e
    by_cases hm : n = m
    · simp [List.lookup, hm]
    · rw [List.lookup_cons, beq_eq_false_iff_ne.2 hm]
      simp only [ih, List.map_cons, List.mem_cons, hm, false_or]

theorem lookup_of_nodup {l : List (String × Arg)} (hl : (l.map Prod.fst).Nodup) {e : String × Arg} (he : e ∈ l) : l.lookup e.1 = some e.2 := by
  induction l with
  | nil => cases he
  | cons a l ih =>
    rw [List.map_cons, List.nodup_cons] at hl
    rcases List.mem_cons.1 he with rfl | he
    · simp [List.lookup]
    · have : e.1 ≠ a.1 := fun h => hl.1 (h ▸ List.mem_map_of_mem he)
      rw [List.lookup_cons, beq_eq_false_iff_ne.2 this]
      exact ih hl.2 he

theorem getParams_ok {c : Ctor} {A : Attrs} {f : String → Arg} (h : ∀ n ∈ c.params.map Prod.fst, A n = some (f n)) :
    getParams c A = .ok ((c.params.map Prod.fst).map fun n => (n, f n)) := by
  unfold getParams
  generalize c.params.map Prod.fst = l at h
  induction l with
  | nil => rfl
  | cons n l ih =>
    rw [List.mapM_cons, h n List.mem_cons_self, ih fun m hm => h m (List.mem_cons_of_mem _ hm)]
    rfl

theorem lookup_map_pair (l : List String) (f : String → Arg) (n : String) : (l.map fun m => (m, f m)).lookup n = if n ∈ l then some (f n) else none := by
  induction l with
  | nil => simp
  | cons m l ih =>
    by_cases hm : n = m
    · simp [List.lookup, hm]
    · rw [List.map_cons, List.lookup_cons, beq_eq_false_iff_ne.2 hm]
      simp only [List.mem_cons, hm, false_or]
      exact ih

theorem local_eq {c : Ctor} {kw : List (String × Arg)} {n : String} {d : Arg} (h : c.params.lookup n = some d) : c.local kw n = some ((kw.lookup n).getD d) := by
  have : n ∈ c.params.map Prod.fst := by
    by_contra h'
    rw [lookup_eq_none.2 h'] at h
    cases h
  rw [Ctor.local, if_pos this, h]
  cases kw.lookup n <;> rfl

/-- C136: a constructor called with any keyword arguments succeeds; the object has exactly the parameters of the signature as attributes, each with the value given or its default; `get_params` returns them in the order of the signature. -/
theorem C136_get_params {c : Ctor} (hc : ModelClass c) (kw : List (String × Arg)) :
    ∃ A, construct c kw freshAttrs = .ok A ∧ (∀ n d, c.params.lookup n = some d → A n = some ((kw.lookup n).getD d)) ∧ (∀ n, c.params.lookup n = none → A n = none) ∧
      getParams c A = .ok (c.params.map fun p => (p.1, (kw.lookup p.1).getD p.2)) := by
  obtain ⟨hf, hv, hnd⟩ := hc.faithful
  obtain ⟨A, hA, hn⟩ := construct_faithful hf kw (.inl hv) freshAttrs
  have h1 : ∀ n d, c.params.lookup n = some d → A n = some ((kw.lookup n).getD d) := fun n d h => by
    rw [hn, ← local_eq h, if_pos]
    by_contra h'
    rw [lookup_eq_none.2 h'] at h
    cases h
  refine ⟨A, hA, h1, fun n h => by rw [hn, if_neg (lookup_eq_none.1 h)]; rfl, ?_⟩
  rw [getParams_ok (f := fun n => (kw.lookup n).getD ((c.params.lookup n).getD .none)) fun n hm => ?_, List.map_map]
  · congr 1
    refine List.map_congr_left fun p hp => ?_
    simp [lookup_of_nodup hnd hp]
  · obtain ⟨v, hv⟩ := lookup_isSome_of_mem hm
    rw [h1 n v hv, hv]
    rfl

/-- C136: a keyword which is not in the signature is ignored without notice. -/
theorem C136_unknown {c : Ctor} (hc : ModelClass c) (kw : List (String × Arg)) (bad : String) (v : Arg) (hbad : c.params.lookup bad = none) :
    construct c ((bad, v) :: kw) freshAttrs = construct c kw freshAttrs := by
  obtain ⟨A, hA, h1, h2, -⟩ := C136_get_params hc kw
  obtain ⟨B, hB, h3, h4, -⟩ := C136_get_params hc ((bad, v) :: kw)
  rw [hA, hB]
  congr 1
  funext n
  cases hd : c.params.lookup n with
  | none => rw [h4 n hd, h2 n hd]
  | some d =>
    have : n ≠ bad := by
      rintro rfl
      rw [hbad] at hd
      cases hd
    rw [h3 n d hd, h1 n d hd, List.lookup_cons, beq_eq_false_iff_ne.2 this]

/-- C136: `clone` of an object which has its parameters, fitted or not, is an object with the same parameters and no further attribute. -/
theorem C136_clone {c : Ctor} (hc : ModelClass c) (A : Attrs) (hA : ∀ p ∈ c.params, ∃ v, A p.1 = some v) :
    ∃ B, cloneModel c A = .ok B ∧ (∀ p ∈ c.params, B p.1 = A p.1) ∧ ∀ n, n ∉ c.params.map Prod.fst → B n = none := by
  have hA' : ∀ n ∈ c.params.map Prod.fst, A n = some ((A n).getD .none) := fun n hn => by
    obtain ⟨p, hp, rfl⟩ := List.mem_map.1 hn
    obtain ⟨v, hv⟩ := hA p hp
    rw [hv]
    rfl
  obtain ⟨B, hB, h1, h2, -⟩ := C136_get_params hc ((c.params.map Prod.fst).map fun n => (n, (A n).getD .none))
  refine ⟨B, ?_, fun p hp => ?_, fun n hn => h2 n (lookup_eq_none.2 hn)⟩
  · unfold cloneModel
    rw [getParams_ok hA']
    exact hB
  · have hm : p.1 ∈ c.params.map Prod.fst := List.mem_map_of_mem hp
    rw [h1 p.1 p.2 (lookup_of_nodup hc.faithful.2.2 hp), lookup_map_pair, if_pos hm, hA' p.1 hm]
    rfl

/-- **C136**, missing attributes: if an attribute named in the signature is missing, `get_params` and `clone` raise `AttributeError` (nothing is filled in). -/
theorem C136_missing (c : Ctor) (A : Attrs) (n : String) (hn : n ∈ c.params.map Prod.fst) (hA : A n = none) :
    getParams c A = .error .attributeError ∧ cloneModel c A = .error .attributeError := by
  have key : ∀ l : List String, n ∈ l → l.mapM (m := Except PyErr) (fun name => match A name with
      | some v => .ok (name, v)
      | none => .error .attributeError) = .error .attributeError := by
    intro l
    induction l with
    | nil => intro h; cases h
    | cons a l ih =>
      intro h
      rw [List.mapM_cons]
      cases ha : A a with
      | none => rfl
      | some v =>
        rcases List.mem_cons.1 h with rfl | h
        · rw [hA] at ha; cases ha
        · rw [ih h]; rfl
  have h1 : getParams c A = .error .attributeError := key _ hn
  refine ⟨h1, ?_⟩
  unfold cloneModel
  rw [h1]
  rfl

/-- A case: an object without attributes. -/
example : getParams ctorSimpleLinearModel freshAttrs = .error .attributeError :=
  (C136_missing ctorSimpleLinearModel freshAttrs "max_iter_solver" (by decide) rfl).1

/-- C136: `set_params` with names of the signature sets exactly these attributes; on an object just made it gives the object which the constructor makes from the merged arguments. -/
theorem C136_set_params {c : Ctor} (hc : ModelClass c) (A : Attrs) (news : List (String × Arg)) (hnd : (news.map Prod.fst).Nodup) (hin : ∀ e ∈ news, e.1 ∈ c.params.map Prod.fst) :
    ∃ B, setParams c A news = (B, none) ∧ (∀ e ∈ news, B e.1 = some e.2) ∧ (∀ n, n ∉ news.map Prod.fst → B n = A n) ∧
      ∀ kw, construct c kw freshAttrs = .ok A → construct c (news ++ kw) freshAttrs = .ok B := by
  have key : ∀ (news : List (String × Arg)) (A : Attrs), (news.map Prod.fst).Nodup → (∀ e ∈ news, e.1 ∈ c.params.map Prod.fst) →
      ∃ B, setParams c A news = (B, none) ∧ ∀ n, B n = (news.lookup n).or (A n) := by
    intro news
    induction news with
    | nil => exact fun A _ _ => ⟨A, rfl, fun n => rfl⟩
    | cons e rest ih =>
      obtain ⟨name, v⟩ := e
      intro A hnd hin
      rw [List.map_cons, List.nodup_cons] at hnd
      obtain ⟨B, hB, hn⟩ := ih (Function.update A name (some v)) hnd.2 fun e he => hin e (List.mem_cons_of_mem _ he)
      refine ⟨B, by rw [setParams, if_pos (hin (name, v) List.mem_cons_self), hB], fun n => ?_⟩
      rw [hn]
      by_cases he : n = name
      · subst he
        rw [lookup_eq_none.2 hnd.1, Function.update_self]
        simp [List.lookup]
      · rw [Function.update_of_ne he, List.lookup_cons, beq_eq_false_iff_ne.2 he]
  obtain ⟨B, hB, hn⟩ := key news A hnd hin
  refine ⟨B, hB, fun e he => by rw [hn, lookup_of_nodup hnd he]; rfl, fun n h => by rw [hn, lookup_eq_none.2 h]; rfl, fun kw hA => ?_⟩
  obtain ⟨A', hA', h1, h2, -⟩ := C136_get_params hc kw
  obtain ⟨B', hB', h3, h4, -⟩ := C136_get_params hc (news ++ kw)
  obtain rfl : A' = A := by
    rw [hA] at hA'
    exact (Except.ok.inj hA').symm
  rw [hB']
  congr 1
  funext n
  rw [hn]
  cases hd : c.params.lookup n with
  | none =>
    have : n ∉ news.map Prod.fst := fun h => by
      obtain ⟨e, he, rfl⟩ := List.mem_map.1 h
      exact lookup_eq_none.1 hd (hin e he)
    rw [h4 n hd, h2 n hd, lookup_eq_none.2 this]
    rfl
  | some d =>
    rw [h3 n d hd, h1 n d hd, List.lookup_append]
    cases news.lookup n <;> rfl

/-- C136: `set_params` raises a `ValueError` at the first name which is not in the signature; the names before it have been set. -/
theorem C136_set_params_error {c : Ctor} (hc : ModelClass c) (A : Attrs) (before after : List (String × Arg)) (bad : String) (v : Arg) (hnd : (before.map Prod.fst).Nodup)
    (hin : ∀ e ∈ before, e.1 ∈ c.params.map Prod.fst) (hbad : bad ∉ c.params.map Prod.fst) :
    ∃ B, setParams c A (before ++ (bad, v) :: after) = (B, some .valueError) ∧ (∀ e ∈ before, B e.1 = some e.2) ∧ ∀ n, n ∉ before.map Prod.fst → B n = A n := by
  obtain ⟨B, hB, h1, h2, -⟩ := C136_set_params hc A before hnd hin
  refine ⟨B, ?_, h1, h2⟩
  clear h1 h2 hnd
  induction before generalizing A with
  | nil =>
    rw [List.nil_append, setParams, if_neg hbad]
    cases hB
    rfl
  | cons e rest ih =>
    have he := hin e List.mem_cons_self
    rw [setParams, if_pos he] at hB
    rw [List.cons_append, setParams, if_pos he]
    exact ih _ (fun e he => hin e (List.mem_cons_of_mem _ he)) hB

/-! ## `instantiate` -/

/-- The value a call `cls(**kw)` gives to a parameter in the signature: the keyword argument, or else the default. -/
def given (c : Ctor) (kw : List (String × Arg)) (name : String) : Option Arg := (c.params.lookup name).map fun default => (kw.lookup name).getD default

/-- A number, written as a float or as an integer. -/
def IsNum (v : Option Arg) (r : ℝ) : Prop := v = some (.num r) ∨ ∃ z : ℤ, v = some (.int z) ∧ (z : ℝ) = r

/-- A number or `None`. -/
def IsNum? (v : Option Arg) : Option ℝ → Prop
  | none => v = some .none
  | some r => IsNum v r

/-- An integer or `None`. -/
def IsInt? (v : Option Arg) : Option ℤ → Prop
  | none => v = some .none
  | some z => v = some (.int z)

/-- A string or `None`. -/
def IsStr? (v : Option Arg) : Option String → Prop
  | none => v = some .none
  | some s => v = some (.str s)

/-- The call passes the arguments `a` to a linear model. -/
structure LinGiven (g : String → Option Arg) (sr3 : Bool) (a : LinArgs) : Prop where
  tol : IsNum (g "tol_solver") a.tol
  maxIter : g "max_iter_solver" = some (.int a.maxIter)
  stepping : g "stepping" = some (.str a.stepping)
  keys : g "logger_keys" = some (.keys a.loggerKind a.loggerKeys)
  step : IsNum? (g "fixed_step_len") a.fixedStepLen
  prior : g "prior" = some (match a.prior with | .none => .none | .gaussian p => .linPrior p)
  el : sr3 = true → IsNum (g "el") a.el
  practical : sr3 = true → g "practical" = some (.bool a.practical)

/-- The call passes the penalty `pen` to a linear model of the class `k`. -/
def PenGiven (g : String → Option Arg) (sort : NpSort) : LmeClassName → LinPenalty → Prop
  | .simple, .dummy => True
  | .l0, .l0 nnz s => s = sort ∧ IsInt? (g "nnz") nnz
  | .l1, .l1 lam => IsNum (g "lam") lam
  | .cad, .cad lam rho => IsNum (g "lam") lam ∧ IsNum (g "rho") rho
  | .scad, .scad lam rho sigma => IsNum (g "lam") lam ∧ IsNum (g "rho") rho ∧ IsNum (g "sigma") sigma
  | _, _ => False

/-- The call passes the regularizer `reg` to a mixed model of the class `k`. -/
def RegGiven (g : String → Option Arg) (sort : NpSort) : LmeClassName → LmeReg → Prop
  | .simple, .dummy => True
  | .l0, .l0 nb ng s => s = sort ∧ IsInt? (g "nnz_tbeta") nb ∧ IsInt? (g "nnz_tgamma") ng
  | .l1, .l1 lam => IsNum (g "lam") lam
  | .cad, .cad rho lam => IsNum (g "rho") rho ∧ IsNum (g "lam") lam
  | .scad, .scad rho sigma lam => IsNum (g "rho") rho ∧ IsNum (g "sigma") sigma ∧ IsNum (g "lam") lam
  | _, _ => False

/-- The call passes the arguments `s` which only SR3 models have. -/
structure Sr3Given (g : String → Option Arg) (s : LmeSr3Cfg) : Prop where
  ell : IsNum (g "ell") s.ell
  practical : g "practical" = some (.bool s.practical)
  every : g "update_prox_every" = some (.int s.updateProxEvery)
  tolOracle : IsNum (g "tol_oracle") s.tolOracle
  maxIterOracle : g "max_iter_oracle" = some (.int s.maxIterOracle)
  warm : g "warm_start_oracle" = some (.bool s.warmStartOracle)
  positive : g "take_only_positive_part" = some (.bool s.takeOnlyPositivePart)
  expected : g "take_expected_value" = some (.bool s.takeExpectedValue)
  target : IsNum (g "central_path_neighbourhood_target") s.target

/-- The call passes the arguments `M` to a mixed model. -/
structure LmeGiven (g : String → Option Arg) (sort : NpSort) (k : LmeClassName) (sr3 : Bool) (M : LmeModelCfg) : Prop where
  tol : IsNum (g "tol_solver") M.tol
  maxIter : g "max_iter_solver" = some (.int M.maxIter)
  stepping : g "stepping" = some (.str M.stepping)
  step : IsNum? (g "fixed_step_len") M.fixedStepLen
  initializer : IsStr? (g "initializer") M.initializer
  prior : g "prior" = some (match M.prior with | none => .none | some (fe, re) => .lmePrior fe re)
  eps : IsNum (g "elastic_eps") M.elasticEps
  reg : RegGiven g sort k M.reg
  keys : g "logger_keys" = some (.keys M.loggerKind M.loggerKeys)
  sr3 : match sr3, M.sr3 with | false, none => True | true, some s => Sr3Given g s | _, _ => False

theorem IsNum.read {A : Attrs} {n : String} {r : ℝ} (h : IsNum (A n) r) : (A.get n >>= Arg.toNum) = .ok r := by
  unfold Attrs.get
  rcases h with h | ⟨z, h, rfl⟩ <;> rw [h] <;> rfl

theorem IsNum?.read {A : Attrs} {n : String} {r : Option ℝ} (h : IsNum? (A n) r) : (A.get n >>= Arg.toNum?) = .ok r := by
  unfold Attrs.get
  cases r with
  | none => rw [show A n = _ from h]; rfl
  | some r => rcases h with h | ⟨z, h, rfl⟩ <;> rw [h] <;> rfl

theorem IsInt?.read {A : Attrs} {n : String} {r : Option ℤ} (h : IsInt? (A n) r) : (A.get n >>= Arg.toInt?) = .ok r := by
  unfold Attrs.get
  cases r <;> rw [show A n = _ from h] <;> rfl

theorem IsStr?.read {A : Attrs} {n : String} {r : Option String} (h : IsStr? (A n) r) : (A.get n >>= Arg.toStr?) = .ok r := by
  unfold Attrs.get
  cases r <;> rw [show A n = _ from h] <;> rfl

theorem Attrs.get_of {A : Attrs} {n : String} {v : Arg} (h : A n = some v) : A.get n = .ok v := by
  unfold Attrs.get
  rw [h]

theorem bind_assoc_read {α β γ : Type} (x : Except PyErr α) (f : α → Except PyErr β) (g : β → Except PyErr γ) : (x >>= fun a => f a >>= g) = ((x >>= f) >>= g) := by
  cases x <;> rfl

theorem ok_bind' {α β : Type} (a : α) (f : α → Except PyErr β) : ((Except.ok a : Except PyErr α) >>= f) = f a := rfl

theorem linPenaltyOf_given {A : Attrs} {sort : NpSort} {k : LmeClassName} {pen : LinPenalty} (h : PenGiven A sort k pen) : linPenaltyOf sort A k = .ok pen := by
  cases k <;> cases pen <;> first | exact False.elim h | skip
  · rfl
  · obtain ⟨rfl, h⟩ := h
    simp only [linPenaltyOf, bind_assoc_read, h.read]
    rfl
  · simp only [linPenaltyOf, bind_assoc_read, IsNum.read h]
    rfl
  · simp only [linPenaltyOf, bind_assoc_read, IsNum.read h.1, IsNum.read h.2, ok_bind']
    rfl
  · simp only [linPenaltyOf, bind_assoc_read, IsNum.read h.1, IsNum.read h.2.1, IsNum.read h.2.2, ok_bind']
    rfl

theorem lmeRegOf_given {A : Attrs} {sort : NpSort} {k : LmeClassName} {reg : LmeReg} (h : RegGiven A sort k reg) : lmeRegOf sort A k = .ok reg := by
  cases k <;> cases reg <;> first | exact False.elim h | skip
  · rfl
  · obtain ⟨rfl, h1, h2⟩ := h
    simp only [lmeRegOf, bind_assoc_read, h1.read, h2.read, ok_bind']
    rfl
  · simp only [lmeRegOf, bind_assoc_read, IsNum.read h]
    rfl
  · simp only [lmeRegOf, bind_assoc_read, IsNum.read h.1, IsNum.read h.2, ok_bind']
    rfl
  · simp only [lmeRegOf, bind_assoc_read, IsNum.read h.1, IsNum.read h.2.1, IsNum.read h.2.2, ok_bind']
    rfl

theorem construct_given {c : Ctor} (hc : ModelClass c) (kw : List (String × Arg)) : construct c kw freshAttrs = .ok (given c kw) := by
  obtain ⟨A, hA, h1, h2, -⟩ := C136_get_params hc kw
  rw [hA]
  congr 1
  funext n
  unfold given
  cases hd : c.params.lookup n with
  | none => exact h2 n hd
  | some d => exact h1 n d hd

theorem linSr3Of_given {A : Attrs} {sr3 : Bool} {a : LinArgs} (h : LinGiven A sr3 a) : linSr3Of A sr3 = .ok (if sr3 then some (a.el, a.practical) else none) := by
  cases sr3 with
  | false => rfl
  | true =>
    simp only [linSr3Of, bind_assoc_read, IsNum.read (h.el rfl), Attrs.get_of (h.practical rfl), ok_bind', Arg.toBool]
    rfl

/-- C136: `instantiate` of a linear model made by `cls(**kw)` uses for everything the argument of the right name, or the default: it is the model with the arguments `a` and the penalty `pen`
which the call describes. -/
theorem C136_lin_instantiate (sort : NpSort) (k : LmeClassName) (sr3 : Bool) (kw : List (String × Arg)) (pen : LinPenalty) (a : LinArgs)
    (ha : LinGiven (given (linCtor k sr3) kw) sr3 a) (hp : PenGiven (given (linCtor k sr3) kw) sort k pen) :
    (construct (linCtor k sr3) kw freshAttrs >>= linInstantiate sort k sr3) = .ok (linClass pen sr3 a) := by
  rw [construct_given ⟨k, sr3, .inl rfl⟩ kw, ok_bind', linInstantiate, linPenaltyOf_given hp, linSr3Of_given ha]
  have hprior : ((given (linCtor k sr3) kw |> Attrs.get) "prior" >>= Arg.toLinPrior) = .ok a.prior := by
    rw [Attrs.get_of ha.prior]
    cases a.prior <;> rfl
  simp only [bind_assoc_read, ha.tol.read, ha.step.read, Attrs.get_of ha.maxIter, Attrs.get_of ha.stepping, Attrs.get_of ha.keys, ok_bind', Arg.toInt, Arg.toStr, Arg.toKeys, hprior]
  rfl

theorem lmeSr3Of_given {A : Attrs} {s : LmeSr3Cfg} (h : Sr3Given A s) : lmeSr3Of A true = .ok (some s) := by
  simp only [lmeSr3Of, bind_assoc_read, h.ell.read, h.tolOracle.read, h.target.read, Attrs.get_of h.practical, Attrs.get_of h.every, Attrs.get_of h.maxIterOracle, Attrs.get_of h.warm,
    Attrs.get_of h.positive, Attrs.get_of h.expected, ok_bind', Arg.toBool, Arg.toInt]
  rfl

/-- C136: `instantiate` of a mixed model made by `cls(**kw)` uses for everything the argument of the right name, or the default: it is the model with the arguments `M` which the call describes. -/
theorem C136_lme_instantiate (sort : NpSort) (k : LmeClassName) (sr3 : Bool) (kw : List (String × Arg)) (M : LmeModelCfg) (h : LmeGiven (given (lmeCtor k sr3) kw) sort k sr3 M) :
    (construct (lmeCtor k sr3) kw freshAttrs >>= lmeInstantiate sort k sr3) = .ok M := by
  rw [construct_given ⟨k, sr3, .inr rfl⟩ kw, ok_bind', lmeInstantiate, lmeRegOf_given h.reg]
  have hprior : ((given (lmeCtor k sr3) kw |> Attrs.get) "prior" >>= Arg.toLmePrior) = .ok M.prior := by
    rw [Attrs.get_of h.prior]
    cases M.prior <;> rfl
  have hsr : lmeSr3Of (given (lmeCtor k sr3) kw) sr3 = .ok M.sr3 := by
    have := h.sr3
    cases sr3 with
    | false =>
      cases hm : M.sr3 with
      | none => rfl
      | some s => rw [hm] at this; exact this.elim
    | true =>
      cases hm : M.sr3 with
      | none => rw [hm] at this; exact this.elim
      | some s =>
        rw [hm] at this
        exact lmeSr3Of_given this
  simp only [bind_assoc_read, h.tol.read, h.step.read, h.initializer.read, h.eps.read, Attrs.get_of h.maxIter, Attrs.get_of h.stepping, Attrs.get_of h.keys, ok_bind', Arg.toInt, Arg.toStr, Arg.toKeys,
    hprior, hsr]
  rfl

theorem linGiven_default (k : LmeClassName) (sr3 : Bool) : LinGiven (given (linCtor k sr3) []) sr3 {} := by
  cases k <;> cases sr3
  all_goals
    constructor <;> simp [given, linCtor, Ctor.params, ctorSimpleLinearModel, ctorSimpleLinearModelSR3, ctorLinearL0Model, ctorLinearL0ModelSR3, ctorLinearL1Model,
      ctorLinearL1ModelSR3, ctorLinearCADModel, ctorLinearCADModelSR3, ctorLinearSCADModel, ctorLinearSCADModelSR3, List.lookup, IsNum, IsNum?] <;> norm_num

/-- C136: a linear model made without arguments is the model with the documented defaults. -/
theorem C136_lin_defaults (sort : NpSort) (sr3 : Bool) :
    (construct (linCtor .simple sr3) [] freshAttrs >>= linInstantiate sort .simple sr3) = .ok (linClass .dummy sr3 {}) ∧
    (construct (linCtor .l0 sr3) [] freshAttrs >>= linInstantiate sort .l0 sr3) = .ok (linClass (.l0 none sort) sr3 {}) ∧
    (construct (linCtor .l1 sr3) [] freshAttrs >>= linInstantiate sort .l1 sr3) = .ok (linClass (.l1 0) sr3 {}) ∧
    (construct (linCtor .cad sr3) [] freshAttrs >>= linInstantiate sort .cad sr3) = .ok (linClass (.cad 0 1) sr3 {}) ∧
    (construct (linCtor .scad sr3) [] freshAttrs >>= linInstantiate sort .scad sr3) = .ok (linClass (.scad 0 (if sr3 then 2 else 37 / 10) 1) sr3 {}) := by
  refine ⟨C136_lin_instantiate _ _ _ _ _ _ (linGiven_default _ _) ?_, C136_lin_instantiate _ _ _ _ _ _ (linGiven_default _ _) ?_, C136_lin_instantiate _ _ _ _ _ _ (linGiven_default _ _) ?_,
    C136_lin_instantiate _ _ _ _ _ _ (linGiven_default _ _) ?_, C136_lin_instantiate _ _ _ _ _ _ (linGiven_default _ _) ?_⟩ <;> cases sr3 <;>
    simp [PenGiven, given, linCtor, Ctor.params, ctorSimpleLinearModel, ctorSimpleLinearModelSR3, ctorLinearL0Model, ctorLinearL0ModelSR3, ctorLinearL1Model,
      ctorLinearL1ModelSR3, ctorLinearCADModel, ctorLinearCADModelSR3, ctorLinearSCADModel, ctorLinearSCADModelSR3, List.lookup, IsNum, IsInt?]

/-- C136: a mixed model made without arguments is the model with the documented defaults. -/
theorem C136_lme_defaults (sort : NpSort) (k : LmeClassName) (sr3 : Bool) :
    (construct (lmeCtor k sr3) [] freshAttrs >>= lmeInstantiate sort k sr3) = .ok (lmeDefaultModel sort k sr3) := by
  refine C136_lme_instantiate _ _ _ _ _ ?_
  cases k <;> cases sr3
  all_goals
    constructor <;> simp [given, lmeCtor, Ctor.params, ctorSimpleLMEModel, ctorSimpleLMEModelSR3, ctorL0LmeModel, ctorL0LmeModelSR3, ctorL1LmeModel,
      ctorL1LmeModelSR3, ctorCADLmeModel, ctorCADLmeModelSR3, ctorSCADLmeModel, ctorSCADLmeModelSR3, List.lookup, IsNum, IsNum?, IsStr?, IsInt?, lmeDefaultModel, LmeClassName.maxIter,
      LmeClassName.defaultReg, RegGiven] <;> (try norm_num)
  all_goals constructor <;> simp [given, Ctor.params, List.lookup, IsNum] <;> norm_num

/-- `CADLmeModelSR3(lam=2, ell=10., practical=True, steping="fixed")`, with a misspelled keyword. -/
def cadCall : List (String × Arg) := [("lam", .int 2), ("ell", .num 10), ("practical", .bool true), ("steping", .str "line-search")]

/-- The hypotheses of `C136_lme_instantiate` hold for the call `cadCall`: the arguments given are used, the misspelled one is not. -/
example (sort : NpSort) : (construct (lmeCtor .cad true) cadCall freshAttrs >>= lmeInstantiate sort .cad true) = .ok
    { lmeDefaultModel sort .cad true with
      reg := .cad (3 / 10) 2
      sr3 := some { ell := 10, practical := true, updateProxEvery := 1, tolOracle := 1 / 100000, maxIterOracle := 10000, warmStartOracle := true, takeOnlyPositivePart := true,
                    takeExpectedValue := false, target := 1 / 2 } } := by
  refine C136_lme_instantiate _ _ _ _ _ ?_
  constructor <;> simp [given, cadCall, lmeCtor, Ctor.params, ctorCADLmeModelSR3, List.lookup, IsNum, IsNum?, IsStr?, lmeDefaultModel, LmeClassName.maxIter, RegGiven] <;> (try norm_num)
  constructor <;> simp [given, cadCall, Ctor.params, List.lookup, IsNum]

/-- The hypotheses of `C136_unknown` hold for the misspelled keyword. -/
example (kw : List (String × Arg)) : construct (lmeCtor .cad true) (("steping", .str "line-search") :: kw) freshAttrs = construct (lmeCtor .cad true) kw freshAttrs :=
  C136_unknown ⟨.cad, true, .inr rfl⟩ kw _ _ (by simp [lmeCtor, Ctor.params, ctorCADLmeModelSR3, List.lookup])

/-- The hypotheses of `C136_set_params` and of `C136_clone` hold for a LASSO model with a fitted attribute: after `set_params(lam=5)` the clone has `lam = 5` and is not fitted. -/
example (A : Attrs) (hA : construct (linCtor .l1 false) [("lam", .int 2)] freshAttrs = .ok A) :
    ∃ B C, setParams (linCtor .l1 false) (Function.update A "coef_" (some (.num 1))) [("lam", .num 5)] = (B, none) ∧ B "coef_" = some (.num 1) ∧
      cloneModel (linCtor .l1 false) B = .ok C ∧ C "lam" = some (.num 5) ∧ C "coef_" = none := by
  have hc : ModelClass (linCtor .l1 false) := ⟨.l1, false, .inl rfl⟩
  obtain ⟨A', hA', h1, -, -⟩ := C136_get_params hc [("lam", .int 2)]
  obtain rfl : A = A' := by
    rw [hA] at hA'
    exact Except.ok.inj hA'
  obtain ⟨B, hB, hnew, hold, -⟩ := C136_set_params hc (Function.update A "coef_" (some (.num 1))) [("lam", .num 5)] (by simp)
    (by simp [linCtor, Ctor.params, ctorLinearL1Model])
  have hco : B "coef_" = some (.num 1) := by rw [hold _ (by simp), Function.update_self]
  have hlam : B "lam" = some (.num 5) := hnew ("lam", .num 5) (by simp)
  obtain ⟨C, hC, h3, h4⟩ := C136_clone hc B fun p hp => by
    by_cases hl : p.1 = "lam"
    · exact ⟨_, hl ▸ hlam⟩
    · have hne : p.1 ≠ "coef_" := by
        rintro h
        simp [linCtor, Ctor.params, ctorLinearL1Model] at hp
        rcases hp with rfl | rfl | rfl | rfl | rfl | rfl | rfl <;> simp at h
      rw [hold p.1 (by simpa using hl), Function.update_of_ne hne, h1 p.1 p.2 (lookup_of_nodup hc.faithful.2.2 hp)]
      exact ⟨_, rfl⟩
  refine ⟨B, C, hB, hco, hC, ?_, h4 _ (by simp [linCtor, Ctor.params, ctorLinearL1Model])⟩
  have := h3 ("lam", .int 0) (by simp [linCtor, Ctor.params, ctorLinearL1Model])
  exact this.trans hlam

/-- The hypotheses of `C136_set_params_error` hold: `set_params(lam=5, steping="fixed")` sets `lam` and raises. -/
example (A : Attrs) : ∃ B, setParams (linCtor .l1 false) A [("lam", .num 5), ("steping", .str "fixed")] = (B, some .valueError) ∧ B "lam" = some (.num 5) := by
  obtain ⟨B, hB, h1, -⟩ := C136_set_params_error (c := linCtor .l1 false) ⟨.l1, false, .inl rfl⟩ A [("lam", .num 5)] [] "steping" (.str "fixed") (by simp)
    (by simp [linCtor, Ctor.params, ctorLinearL1Model]) (by simp [linCtor, Ctor.params, ctorLinearL1Model])
  exact ⟨B, hB, h1 ("lam", .num 5) (by simp)⟩

end Verif
