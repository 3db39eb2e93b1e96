import Verif.Lemmas.Solver

/-!
# Runs of the solver on transformed problems

If a linear isometry `f` turns one pair of oracle and regularizer into another, it turns every run of `PGDSolver` and `FakePGDSolver` on the first pair
(points, log and exceptions) into the run on the second.
-/

namespace Verif

/-- The object with its vectors transformed. -/
def PyVal.mapVec {n n' : ℕ} (f : Vec ℝ n → Vec ℝ n') : PyVal ℝ n → PyVal ℝ n'
  | .vec v => .vec (f v)
  | .num v => .num v
  | .int v => .int v
  | .bool v => .bool v
  | .obj name => .obj name
  | .arr l => .arr l

/-- The stored object with its entries transformed. -/
def LVal.mapVal {V W : Type*} (f : V → W) : LVal V → LVal W
  | .list l => .list (l.map f)
  | .atom v => .atom (f v)

/-- The log with the stored objects transformed. -/
def Logger.mapVal {V W : Type*} (f : V → W) (L : Logger V) : Logger W where
  kind := L.kind
  keys := L.keys
  dict := fun k => (L.dict k).map (LVal.mapVal f)

namespace Logger
variable {V W : Type*} (f : V → W)

theorem mapVal_init (kind : KeyColl) (keys : List String) : (init kind keys : Logger V).mapVal f = init kind keys := by
  unfold mapVal init
  congr 1
  funext k
  change Option.map _ (if k ∈ keys then _ else _) = _
  split_ifs <;> rfl

theorem mapVal_update (d : String → Option (LVal V)) (key : String) (v : LVal V) :
    (fun k => (Function.update d key (some v) k).map (LVal.mapVal f)) = Function.update (fun k => (d k).map (LVal.mapVal f)) key (some (v.mapVal f)) := by
  funext k
  by_cases h : k = key
  · subst h
    simp
  · simp [Function.update_of_ne h]

theorem logKey_map (params : String → Option V) (d : String → Option (LVal V)) (key : String) :
    logKey (fun k => (params k).map f) (fun k => (d k).map (LVal.mapVal f)) key = (logKey params d key).map fun d k => (d k).map (LVal.mapVal f) := by
  unfold logKey
  simp only
  cases h : d key with
  | none => rfl
  | some v =>
    cases v with
    | atom v => rfl
    | list l =>
      cases hp : params key with
      | none => rfl
      | some v =>
        simp only [Option.map_some, LVal.mapVal, Except.map]
        rw [mapVal_update]
        simp [LVal.mapVal]

theorem foldl_map (params : String → Option V) (keys : List String) (d : String → Option (LVal V)) :
    keys.foldlM (logKey fun k => (params k).map f) (fun k => (d k).map (LVal.mapVal f)) = (keys.foldlM (logKey params) d).map fun d k => (d k).map (LVal.mapVal f) := by
  induction keys generalizing d with
  | nil => rfl
  | cons k ks ih =>
    simp only [List.foldlM_cons, logKey_map]
    cases logKey params d k with
    | error e => rfl
    | ok d' => exact ih d'

theorem log_map (L : Logger V) (params : String → Option V) : (L.mapVal f).log (fun k => (params k).map f) = (L.log params).map (mapVal f) := by
  unfold log
  rw [show (L.mapVal f).keys.foldlM (logKey fun k => (params k).map f) (L.mapVal f).dict = _ from foldl_map f params L.keys L.dict]
  cases L.keys.foldlM (logKey params) L.dict with
  | error e => rfl
  | ok d => rfl

theorem add_map (L : Logger V) (key : String) (v : LVal V) : (L.mapVal f).add key (v.mapVal f) = (L.add key v).map (mapVal f) := by
  obtain ⟨kind, keys, d⟩ := L
  have h := mapVal_update f d key v
  by_cases hk : key ∈ keys
  · simp only [add, mapVal, if_pos hk, ← h]
    rfl
  · simp only [add, mapVal, if_neg hk, ← h]
    cases kind <;> rfl

end Logger

section
variable {σ σ' : Type} (g : σ → σ')

/-- The second computation does what the first does, up to the transformations of the result and of the state. -/
def Sim {α β : Type} (φ : α → β) (a : PyM σ α) (b : PyM σ' β) : Prop := ∀ s, b (g s) = (a s).map fun r => (φ r.1, g r.2)

variable {g}

theorem Sim.bind {α β α' β' : Type} {φ : α → β} {ψ : α' → β'} {a : PyM σ α} {b : PyM σ' β} {k : α → PyM σ α'} {k' : β → PyM σ' β'} (h : Sim g φ a b)
    (hk : ∀ x, Sim g ψ (k x) (k' (φ x))) : Sim g ψ (a >>= k) (b >>= k') := by
  intro s
  change (b (g s) >>= fun r => k' r.1 r.2) = ((a s >>= fun r => k r.1 r.2)).map _
  rw [h s]
  cases a s with
  | error e => rfl
  | ok r => exact hk r.1 r.2

theorem Sim.pure {α β : Type} {φ : α → β} (x : α) : Sim g φ (Pure.pure x : PyM σ α) (Pure.pure (φ x) : PyM σ' β) := fun _ => rfl

theorem Sim.call {α β : Type} {φ : α → β} {a : Except PyErr α} {b : Except PyErr β} (h : b = a.map φ) : Sim g φ (callReg a) (callReg b) := by
  intro s
  unfold callReg
  rw [h]
  cases a <;> rfl

/-- A linear isometry `f` and a map `g` of the states turn the first oracle and regularizer into the second. -/
structure Transforms {n n' : ℕ} (f : Vec ℝ n → Vec ℝ n') (g : σ → σ') (o : Oracle ℝ n σ) (o' : Oracle ℝ n' σ') (R : Regularizer ℝ n) (R' : Regularizer ℝ n') : Prop where
  dim : 0 < n ↔ 0 < n'
  add : ∀ x y, f (x + y) = f x + f y
  smul : ∀ (t : ℝ) x, f (t • x) = t • f x
  dot : ∀ x y, dot (f x) (f y) = dot x y
  value : ∀ x, Sim g id (o.value x) (o'.value (f x))
  grad : ∀ x, Sim g f (o.grad x) (o'.grad (f x))
  prox : ∀ y t, R'.prox (f y) t = (R.prox y t).map f
  pen : ∀ x, R'.value (f x) = R.value x

namespace Transforms
variable {n n' : ℕ} {f : Vec ℝ n → Vec ℝ n'} {o : Oracle ℝ n σ} {o' : Oracle ℝ n' σ'} {R : Regularizer ℝ n} {R' : Regularizer ℝ n'}

theorem neg (T : Transforms f g o o' R R') (x : Vec ℝ n) : f (-x) = -f x := by
  have := T.smul (-1) x
  rwa [neg_one_smul, neg_one_smul] at this

theorem sub (T : Transforms f g o o' R R') (x y : Vec ℝ n) : f (x - y) = f x - f y := by
  rw [sub_eq_add_neg, T.add, T.neg, ← sub_eq_add_neg]

theorem normSq (T : Transforms f g o o' R R') (x : Vec ℝ n) : normSq (f x) = Verif.normSq x := by
  have := T.dot x x
  unfold Verif.dot at this
  unfold Verif.normSq
  simpa only [pow_two] using this

theorem lineSearch (T : Transforms f g o o' R R') (x d : Vec ℝ n) (step : ℝ) : Sim g id (lineSearch o R x d step) (lineSearch o' R' (f x) (f d) step) := by
  generalize hk : ⌈step * 10 ^ 14⌉₊ = k
  induction k using Nat.strong_induction_on generalizing step with
  | _ k ih =>
    rw [Verif.lineSearch.eq_def o, Verif.lineSearch.eq_def o']
    split_ifs with h
    · refine Sim.bind (φ := f) (Sim.call (by rw [← T.smul, ← T.add, T.prox])) fun z => Sim.bind (T.value z) fun fz => Sim.bind (T.value x) fun fx => ?_
      have ha : Accept fz fx (f x) (f d) (f z) step ↔ Accept fz fx x d z step := by
        unfold Accept
        rw [← T.sub, T.dot, T.normSq]
      simp only [id, ha]
      split_ifs with hc
      · exact Sim.pure (φ := id) step
      · exact ih _ (by rw [← hk]; exact halving_lt step h) _ rfl
    · exact Sim.pure (φ := id) step

theorem chooseStep (T : Transforms f g o o' R R') (cfg : PGDCfg ℝ) (x d : Vec ℝ n) : Sim g id (chooseStep o R cfg x d) (chooseStep o' R' cfg (f x) (f d)) := by
  unfold Verif.chooseStep
  split_ifs
  · exact T.lineSearch x d _
  · exact Sim.pure (φ := id) _

theorem lossAt (T : Transforms f g o o' R R') (x : Vec ℝ n) : Sim g id (lossAt o R x) (lossAt o' R' (f x)) := by
  unfold Verif.lossAt
  refine Sim.bind (T.value x) fun v => Sim.bind (φ := id) (Sim.call ?_) fun w => Sim.pure (φ := id) _
  rw [T.pen]
  cases R.value x <;> rfl

theorem logBlock (T : Transforms f g o o' R R') (L : Logger (PyVal ℝ n)) (x : Vec ℝ n) (vars : String → Option (PyVal ℝ n)) :
    Sim g (Logger.mapVal (PyVal.mapVec f)) (logBlock o R L x vars) (logBlock o' R' (L.mapVal (PyVal.mapVec f)) (f x) fun k => (vars k).map (PyVal.mapVec f)) := by
  unfold Verif.logBlock
  refine Sim.bind (φ := Option.map (PyVal.mapVec f)) ?_ fun loss => ?_
  · change Sim g _ (if "loss" ∈ L.keys then _ else _) (if "loss" ∈ L.keys then _ else _)
    split_ifs
    · exact Sim.bind (T.lossAt x) fun l => Sim.pure (φ := Option.map (PyVal.mapVec f)) (some (PyVal.num l))
    · exact Sim.pure (φ := Option.map (PyVal.mapVec f)) none
  · change Sim g _ (if L.keys.length > 0 then _ else _) (if L.keys.length > 0 then _ else _)
    split_ifs
    · refine Sim.call ?_
      rw [← Logger.log_map]
      congr 1
      funext k
      split_ifs <;> rfl
    · exact Sim.pure (φ := Logger.mapVal (PyVal.mapVec f)) L

theorem localsInit (x0 : Vec ℝ n) (k : String) : Verif.localsInit (f x0) k = (Verif.localsInit x0 k).map (PyVal.mapVec f) := by
  unfold Verif.localsInit
  split_ifs <;> rfl

theorem localsIter (x0 xprev d y x : Vec ℝ n) (step : ℝ) (iteration : ℕ) (k : String) :
    Verif.localsIter (f x0) (f xprev) (f d) (f y) (f x) step iteration k = (Verif.localsIter x0 xprev d y x step iteration k).map (PyVal.mapVec f) := by
  unfold Verif.localsIter
  rw [localsInit]
  split_ifs <;> rfl

theorem body (T : Transforms f g o o' R R') (cfg : PGDCfg ℝ) (x0 x : Vec ℝ n) (it : ℕ) (L : Logger (PyVal ℝ n)) :
    Sim g (fun r => (f r.1, r.2.mapVal (PyVal.mapVec f))) (pgdBody o R cfg x0 x it L) (pgdBody o' R' cfg (f x0) (f x) it (L.mapVal (PyVal.mapVec f))) := by
  unfold pgdBody
  refine Sim.bind (T.grad x) fun d => ?_
  simp only
  rw [← T.neg]
  refine Sim.bind (T.chooseStep cfg x (-d)) fun step => ?_
  simp only [id]
  rw [← T.smul, ← T.add]
  refine Sim.bind (φ := f) (Sim.call (T.prox _ _)) fun x' => ?_
  simp only [funext fun k => localsIter (f := f) x0 x (-d) (x + step • -d) x' step (it + 1) k]
  exact Sim.bind (T.logBlock L x' _) fun L' => Sim.pure (φ := fun r : Vec ℝ n × Logger (PyVal ℝ n) => (f r.1, r.2.mapVal (PyVal.mapVec f))) (x', L')

theorem loop (T : Transforms f g o o' R R') (cfg : PGDCfg ℝ) (x0 x : Vec ℝ n) (xprev : Option (Vec ℝ n)) (it : ℕ) (L : Logger (PyVal ℝ n)) :
    Sim g (fun r => (f r.1, r.2.1, r.2.2.mapVal (PyVal.mapVec f))) (pgdLoop o R cfg x0 x xprev it L)
      (pgdLoop o' R' cfg (f x0) (f x) (xprev.map f) it (L.mapVal (PyVal.mapVec f))) := by
  generalize hk : (cfg.maxIter - it).toNat = k
  induction k using Nat.strong_induction_on generalizing x xprev it L with
  | _ k ih =>
    rw [pgdLoop.eq_def o, pgdLoop.eq_def o']
    have hf : farApart cfg.tol (xprev.map f) (f x) ↔ farApart cfg.tol xprev x := by
      cases xprev with
      | none => exact or_congr T.dim.symm Iff.rfl
      | some y =>
        change _ ∨ _ < Verif.normSq (f x - f y) ↔ _
        rw [← T.sub, T.normSq]
        rfl
    simp only [hf]
    split_ifs with h
    · exact Sim.bind (T.body cfg x0 x it L) fun r => ih _ (by omega) r.1 (some x) (it + 1) r.2 rfl
    · exact Sim.pure (φ := fun r : Vec ℝ n × ℕ × Logger (PyVal ℝ n) => (f r.1, r.2.1, r.2.2.mapVal (PyVal.mapVec f))) (x, it, L)

/-- Runs of `PGDSolver` are transformed. -/
theorem pgdOptimize (T : Transforms f g o o' R R') (cfg : PGDCfg ℝ) (x0 : Vec ℝ n) (L : Logger (PyVal ℝ n)) :
    Sim g (fun r => (f r.1, r.2.mapVal (PyVal.mapVec f))) (pgdOptimize o R cfg x0 L) (pgdOptimize o' R' cfg (f x0) (L.mapVal (PyVal.mapVec f))) := by
  unfold Verif.pgdOptimize
  simp only [funext fun k => localsInit (f := f) x0 k]
  refine Sim.bind (T.logBlock L x0 _) fun L0 => Sim.bind (T.loop cfg x0 x0 none 0 L0) fun r => ?_
  refine Sim.bind (φ := Logger.mapVal (PyVal.mapVec f)) (Sim.call ?_) fun L1 => Sim.bind (φ := Logger.mapVal (PyVal.mapVec f)) (Sim.call ?_) fun L2 => ?_
  · rw [← Logger.add_map]
    rfl
  · rw [← Logger.add_map]
    rfl
  · exact Sim.pure (φ := fun r : Vec ℝ n × Logger (PyVal ℝ n) => (f r.1, r.2.mapVal (PyVal.mapVec f))) (r.1, L2)

/-- Runs of `FakePGDSolver` are transformed. -/
theorem fakeOptimize (T : Transforms f g o o' R R') {opt : Vec ℝ n → PyM σ (Vec ℝ n)} {opt' : Vec ℝ n' → PyM σ' (Vec ℝ n')} (h : ∀ x, Sim g f (opt x) (opt' (f x)))
    (x0 : Vec ℝ n) (L : Logger (PyVal ℝ n)) :
    Sim g (fun r => (f r.1, r.2.mapVal (PyVal.mapVec f))) (fakeOptimize o opt R x0 L) (fakeOptimize o' opt' R' (f x0) (L.mapVal (PyVal.mapVec f))) := by
  unfold Verif.fakeOptimize
  refine Sim.bind (h x0) fun x => Sim.bind (φ := Logger.mapVal (PyVal.mapVec f)) ?_ fun L1 => Sim.bind (φ := Logger.mapVal (PyVal.mapVec f)) (Sim.call ?_) fun L2 => ?_
  · change Sim g _ (if "loss" ∈ L.keys then _ else _) (if "loss" ∈ L.keys then _ else _)
    split_ifs
    · refine Sim.bind (T.lossAt x) fun l => Sim.call ?_
      rw [← Logger.add_map]
      rfl
    · exact Sim.pure (φ := Logger.mapVal (PyVal.mapVec f)) L
  · rw [← Logger.add_map]
    rfl
  · exact Sim.pure (φ := fun r : Vec ℝ n × Logger (PyVal ℝ n) => (f r.1, r.2.mapVal (PyVal.mapVec f))) (x, L2)

end Transforms
end

end Verif
