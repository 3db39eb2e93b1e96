import Verif.Model.Logger

/-!
# Properties of the logger: C23, C24, C25
-/

namespace Verif

variable {V : Type*}

/-! ## Specification: histories of calls -/

/-- A call of a logger method. -/
inductive LogOp (V : Type*) where
  | log (params : String → Option V)
  | add (key : String) (value : LVal V)

/-- Execute one call. -/
def LogOp.exec (L : Logger V) : LogOp V → Except PyErr (Logger V)
  | .log params => L.log params
  | .add key value => L.add key value

/-- Execute a history of calls. -/
def runOps (L : Logger V) (ops : List (LogOp V)) : Except PyErr (Logger V) := ops.foldlM LogOp.exec L

/-- The values logged under `key` in a history, in order. -/
def loggedValues (key : String) (ops : List (LogOp V)) : List V :=
  ops.filterMap fun | .log params => params key | .add _ _ => none

/-- The history contains no `add` for `key`. -/
def NoAdd (key : String) (ops : List (LogOp V)) : Prop := ∀ k v, LogOp.add k v ∈ ops → k ≠ key

/-! ## The invariant -/

/-- Keys are distinct, a tuple, and all present in the dictionary. -/
structure Logger.Good (L : Logger V) : Prop where
  tuple : L.kind = .tuple
  nodup : L.keys.Nodup
  dom : ∀ k, (L.dict k).isSome ↔ k ∈ L.keys

/-- Effect of one `log` on one key. -/
def logEffect (o : Option V) : LVal V → LVal V
  | .list l => .list (l ++ o.toList)
  | .atom a => .atom a

theorem logKeys_spec (params : String → Option V) (ks : List String) (hnd : ks.Nodup) (d : String → Option (LVal V))
    (hd : ∀ k ∈ ks, (d k).isSome) :
    ∃ d', ks.foldlM (Logger.logKey params) d = .ok d' ∧
      ∀ k, d' k = if k ∈ ks then (d k).map (logEffect (params k)) else d k := by
  induction ks generalizing d with
  | nil => exact ⟨d, rfl, fun k => by simp⟩
  | cons a ks ih =>
    obtain ⟨ha, hnd⟩ := List.nodup_cons.1 hnd
    obtain ⟨v, hv⟩ := Option.isSome_iff_exists.1 (hd a (by simp))
    have h1 : ∃ d1, Logger.logKey params d a = .ok d1 ∧ ∀ k, d1 k = if k = a then (d k).map (logEffect (params k)) else d k := by
      unfold Logger.logKey
      rw [hv]
      cases v with
      | atom v => 
        refine ⟨d, rfl, fun k => ?_⟩
        split_ifs with h
        · rw [h, hv]; rfl
        · rfl
      | list l =>
        cases hp : params a with
        | none =>
          refine ⟨d, rfl, fun k => ?_⟩
          split_ifs with h
          · rw [h, hv, hp]; simp [logEffect]
          · rfl
        | some w =>
          refine ⟨_, rfl, fun k => ?_⟩
          split_ifs with h
          · subst h; rw [hv, hp]; simp [logEffect]
          · simp [Function.update, h]
    obtain ⟨d1, hd1, hs1⟩ := h1
    have hd1' : ∀ k ∈ ks, (d1 k).isSome := by
      intro k hk
      have hka : k ≠ a := fun h => ha (h ▸ hk)
      rw [hs1, if_neg hka]
      exact hd k (by simp [hk])
    obtain ⟨d', hd', hs'⟩ := ih hnd d1 hd1'
    refine ⟨d', ?_, fun k => ?_⟩
    · rw [List.foldlM_cons, hd1]; exact hd'
    · rw [hs', hs1]
      by_cases h : k = a
      · subst h; simp [ha]
      · simp [h]

theorem Logger.Good.log {L : Logger V} (h : L.Good) (params : String → Option V) :
    ∃ L', L.log params = .ok L' ∧ L'.Good ∧ L'.keys = L.keys ∧
      ∀ k, L'.dict k = (L.dict k).map (logEffect (params k)) := by
  obtain ⟨d', hd', hs⟩ := logKeys_spec params L.keys h.nodup L.dict fun k hk => (h.dom k).2 hk
  have hs' : ∀ k, d' k = (L.dict k).map (logEffect (params k)) := by
    intro k
    rw [hs]
    split_ifs with hk
    · rfl
    · have : L.dict k = none := by
        have := (not_congr (h.dom k)).2 hk
        simpa using this
      rw [this]; rfl
  refine ⟨{ L with dict := d' }, ?_, ⟨h.tuple, h.nodup, fun k => ?_⟩, rfl, hs'⟩
  · simp only [Logger.log, hd']; rfl
  · show (d' k).isSome ↔ _
    rw [hs', Option.isSome_map]; exact h.dom k

theorem Logger.Good.add {L : Logger V} (h : L.Good) (key : String) (value : LVal V) :
    ∃ L', L.add key value = .ok L' ∧ L'.Good ∧ L'.keys = (if key ∈ L.keys then L.keys else L.keys ++ [key]) ∧
      ∀ k, L'.dict k = if k = key then some value else L.dict k := by
  unfold Logger.add
  by_cases hk : key ∈ L.keys
  · simp only [hk, if_true]
    refine ⟨_, rfl, ⟨h.tuple, h.nodup, fun k => ?_⟩, rfl, fun k => ?_⟩
    · by_cases hkk : k = key
      · subst hkk; simp [hk]
      · simp [Function.update, hkk, h.dom k]
    · simp [Function.update]
  · simp only [hk, if_false, h.tuple]
    refine ⟨_, rfl, ⟨rfl, ?_, fun k => ?_⟩, rfl, fun k => ?_⟩
    · show (L.keys ++ [key]).Nodup
      rw [List.nodup_append]
      refine ⟨h.nodup, by simp, ?_⟩
      intro a ha b hb hab
      simp only [List.mem_singleton] at hb
      exact hk (hb ▸ hab ▸ ha)
    · by_cases hkk : k = key
      · subst hkk; simp
      · simp [Function.update, hkk, h.dom k]
    · simp [Function.update]

theorem Logger.good_init (keys : List String) (h : keys.Nodup) : (Logger.init .tuple keys : Logger V).Good :=
  ⟨rfl, h, fun k => by simp only [Logger.init]; split_ifs <;> simp_all⟩

theorem runOps_good (L : Logger V) (h : L.Good) (ops : List (LogOp V)) : ∃ L', runOps L ops = .ok L' ∧ L'.Good := by
  induction ops generalizing L with
  | nil => exact ⟨L, rfl, h⟩
  | cons op ops ih =>
    have h1 : ∃ L1, op.exec L = .ok L1 ∧ L1.Good := by
      cases op with
      | log params => obtain ⟨L1, h1, h2, _⟩ := h.log params; exact ⟨L1, h1, h2⟩
      | add k v => obtain ⟨L1, h1, h2, _⟩ := h.add k v; exact ⟨L1, h1, h2⟩
    obtain ⟨L1, he, hg⟩ := h1
    obtain ⟨L', hr, hg'⟩ := ih L1 hg
    exact ⟨L', by rw [runOps, List.foldlM_cons, he]; exact hr, hg'⟩

/-- What is stored under `key` after a history without `add key`. -/
theorem runOps_noAdd (L L' : Logger V) (h : L.Good) (ops : List (LogOp V)) (key : String) (hna : NoAdd key ops)
    (hr : runOps L ops = .ok L') :
    L'.dict key = (L.dict key).map fun | .list l => .list (l ++ loggedValues key ops) | .atom a => .atom a := by
  induction ops generalizing L with
  | nil =>
    cases hr
    cases h : L'.dict key with
    | none => rfl
    | some v => cases v <;> simp [loggedValues]
  | cons op ops ih =>
    have hna' : NoAdd key ops := fun k v hm => hna k v (by simp [hm])
    cases op with
    | log params =>
      obtain ⟨L1, h1, h2, _, h3⟩ := h.log params
      rw [runOps, List.foldlM_cons, LogOp.exec, h1] at hr
      rw [ih L1 h2 hna' hr, h3]
      cases hk : L.dict key with
      | none => rfl
      | some v =>
        cases v with
        | atom a => rfl
        | list l => cases hp : params key <;> simp [logEffect, loggedValues, hp]
    | add k v =>
      obtain ⟨L1, h1, h2, _, h3⟩ := h.add k v
      rw [runOps, List.foldlM_cons, LogOp.exec, h1] at hr
      have hk : key ≠ k := fun he => hna k v (by simp) he.symm
      rw [ih L1 h2 hna' hr, h3, if_neg hk]
      rfl

/-- **C23.** For a logger created from a tuple of distinct keys, every history of `log`/`add` calls succeeds, and afterwards
`get` returns, for a key that was never added: the list of all values logged under it if it was requested, `KeyError` otherwise; and for a key that
was added: the last added object, extended (if it is a list) by the values logged since. -/
theorem C23_logger_refinement (keys : List String) (hk : keys.Nodup) (ops : List (LogOp V)) :
    ∃ L : Logger V, runOps (Logger.init .tuple keys) ops = .ok L ∧
      (∀ key, NoAdd key ops → L.get key = if key ∈ keys then .ok (.list (loggedValues key ops)) else .error .keyError) ∧
      (∀ key value pre post, ops = pre ++ LogOp.add key value :: post → NoAdd key post →
        L.get key = .ok (match value with | .list l => .list (l ++ loggedValues key post) | .atom a => .atom a)) := by
  obtain ⟨L, hr, hg⟩ := runOps_good _ (Logger.good_init keys hk) ops
  refine ⟨L, hr, fun key hna => ?_, fun key value pre post he hna => ?_⟩
  · have := runOps_noAdd _ _ (Logger.good_init keys hk) ops key hna hr
    unfold Logger.get
    rw [this]
    by_cases h : key ∈ keys <;> simp [Logger.init, h]
  · subst he
    obtain ⟨L1, hr1, hg1⟩ := runOps_good _ (Logger.good_init keys hk) pre
    obtain ⟨L2, h2, hg2, _, hd2⟩ := hg1.add key value
    have hr2 : runOps L2 post = .ok L := by
      rw [runOps, List.foldlM_append] at hr
      rw [runOps] at hr1
      rw [hr1] at hr
      change (LogOp.add key value :: post).foldlM LogOp.exec L1 = _ at hr
      rw [List.foldlM_cons, LogOp.exec, h2] at hr
      exact hr
    have := runOps_noAdd _ _ hg2 post key hna hr2
    unfold Logger.get
    rw [this, hd2, if_pos rfl]
    cases value <;> rfl

/-- Non-vacuity of C23: a history with two logs around an add. -/
example : ∃ L : Logger ℕ, runOps (Logger.init .tuple ["loss", "x"])
    [.log fun _ => some 1, .add "iteration" (.atom 5), .log fun k => if k = "x" then none else some 2] = .ok L ∧
    L.get "loss" = .ok (.list [1, 2]) ∧ L.get "x" = .ok (.list [1]) ∧ L.get "iteration" = .ok (.atom 5) ∧
    L.get "y" = .error .keyError := by
  obtain ⟨L, h, h1, h2⟩ := C23_logger_refinement (V := ℕ) ["loss", "x"] (by simp)
    [.log fun _ => some 1, .add "iteration" (.atom 5), .log fun k => if k = "x" then none else some 2]
  refine ⟨L, h, ?_, ?_, ?_, ?_⟩
  · rw [h1 "loss" (by simp [NoAdd])]; simp [loggedValues]
  · rw [h1 "x" (by simp [NoAdd])]; simp [loggedValues]
  · rw [h2 "iteration" (.atom 5) [.log fun _ => some 1] _ rfl (by simp [NoAdd])]
  · rw [h1 "y" (by simp [NoAdd])]; simp

/-! ## C24: append -/

/-- **C24 is violated by the code**: `append` on a key the logger does not hold raises `KeyError` (for every logger state, key and value) instead of
starting from `0`. -/
theorem C24_append_violated [Add V] (L : Logger V) (key : String) (value : LVal V) (h : L.get key = .error .keyError) :
    L.append key value = .error .keyError := by
  unfold Logger.get at h
  unfold Logger.append
  cases hk : L.dict key with
  | none => rfl
  | some v => rw [hk] at h; cases h

/-- **C24**, what does hold: on a key which is already present `append` adds the value and touches nothing else. Missing: the documented start from zero
for new keys (false, see `C24_append_violated`). -/
theorem C24_append_partial [Add V] (L : Logger V) (key : String) (a b : V) (h : L.get key = .ok (.atom a)) :
    ∃ L', L.append key (.atom b) = .ok L' ∧ L'.get key = .ok (.atom (a + b)) ∧ ∀ k, k ≠ key → L'.get k = L.get k := by
  unfold Logger.get at h
  cases hk : L.dict key with
  | none => rw [hk] at h; cases h
  | some v =>
    rw [hk] at h
    cases h
    refine ⟨{ L with dict := Function.update L.dict key (some (.atom (a + b))) }, ?_, ?_, fun k hne => ?_⟩
    · simp [Logger.append, hk, LVal.iadd, bind, Except.bind, pure, Except.pure]
    · simp [Logger.get]
    · simp [Logger.get, Function.update, hne]

/-- Non-vacuity of C24: a state with a present key, and one where the key is missing. -/
example : ∃ L : Logger ℕ, (Logger.init .tuple []).add "n" (.atom 3) = .ok L ∧ L.get "n" = .ok (.atom 3) ∧
    L.get "m" = .error .keyError := ⟨_, rfl, rfl, rfl⟩

/-! ## C25: kinds of containers -/

/-- **C25 is violated by the code**: with a list or a set of keys (the annotated type), adding any key that is not among them raises
`TypeError`. -/
theorem C25_container_violated (kind : KeyColl) (hk : kind ≠ .tuple) (keys : List String) (key : String) (hkey : key ∉ keys)
    (value : LVal V) : (Logger.init kind keys : Logger V).add key value = .error .typeError := by
  cases kind with
  | tuple => exact absurd rfl hk
  | list => simp [Logger.add, Logger.init, hkey]
  | set => simp [Logger.add, Logger.init, hkey]

/-- **C25**, what does hold: with a tuple of keys `add` always succeeds; with any container it succeeds for keys that were requested.
Missing: new keys with list/set containers (false, see `C25_container_violated`). -/
theorem C25_container_partial (kind : KeyColl) (keys : List String) (key : String) (hkey : kind = .tuple ∨ key ∈ keys)
    (value : LVal V) : ∃ L : Logger V, (Logger.init kind keys).add key value = .ok L ∧ L.get key = .ok value := by
  unfold Logger.add
  by_cases h : key ∈ keys
  · simp only [Logger.init, h, if_true]
    exact ⟨_, rfl, by simp [Logger.get]⟩
  · obtain rfl := hkey.resolve_right h
    simp only [Logger.init, h, if_false]
    exact ⟨_, rfl, by simp [Logger.get]⟩

/-- Non-vacuity of C25: the key recorded by every solver run is not among the default keys. -/
example : (Logger.init .set ["loss"] : Logger ℕ).add "iteration" (.atom 3) = .error .typeError :=
  C25_container_violated .set (by simp) _ _ (by simp) _

end Verif
