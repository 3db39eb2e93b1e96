import Verif.Lemmas.SolverMap

/-!
# Runs of the solver on problems moved by an affine isometry

As `Lemmas/SolverMap.lean`, with a translation added: gradients and directions are transformed by the linear part.
-/

namespace Verif

/-- The log with the stored objects transformed, depending on their keys. -/
def Logger.mapKey {V W : Type*} (f : String → V → W) (L : Logger V) : Logger W where
  kind := L.kind
  keys := L.keys
  dict := fun k => (L.dict k).map (LVal.mapVal (f k))

namespace Logger
variable {V W : Type*} (f : String → V → W)

theorem mapKey_init (kind : KeyColl) (keys : List String) : (init kind keys : Logger V).mapKey f = init kind keys := by
  unfold mapKey init
  congr 1
  funext k
  change Option.map _ (if k ∈ keys then _ else _) = _
  split_ifs <;> rfl

theorem mapKey_update (d : String → Option (LVal V)) (key : String) (v : LVal V) :
    (fun k => (Function.update d key (some v) k).map (LVal.mapVal (f k))) = Function.update (fun k => (d k).map (LVal.mapVal (f k))) key (some (v.mapVal (f key))) := by
  funext k
  by_cases h : k = key
  · subst h
    simp
  · simp [Function.update_of_ne h]

theorem logKey_mapKey (params : String → Option V) (d : String → Option (LVal V)) (key : String) :
    logKey (fun k => (params k).map (f k)) (fun k => (d k).map (LVal.mapVal (f k))) key = (logKey params d key).map fun d k => (d k).map (LVal.mapVal (f k)) := by
  unfold logKey
  simp only
  cases h : d key with
  | none => rfl
  | some v =>
    cases v with
    | atom v => rfl
    | list l =>
      cases hp : params key with
      | none => rfl
      | some v =>
        simp only [Option.map_some, LVal.mapVal, Except.map]
        rw [mapKey_update]
        simp [LVal.mapVal]

theorem foldl_mapKey (params : String → Option V) (keys : List String) (d : String → Option (LVal V)) :
    keys.foldlM (logKey fun k => (params k).map (f k)) (fun k => (d k).map (LVal.mapVal (f k))) = (keys.foldlM (logKey params) d).map fun d k => (d k).map (LVal.mapVal (f k)) := by
  induction keys generalizing d with
  | nil => rfl
  | cons k ks ih =>
    simp only [List.foldlM_cons, logKey_mapKey]
    cases logKey params d k with
    | error e => rfl
    | ok d' => exact ih d'

theorem log_mapKey (L : Logger V) (params : String → Option V) : (L.mapKey f).log (fun k => (params k).map (f k)) = (L.log params).map (mapKey f) := by
  unfold log
  rw [show (L.mapKey f).keys.foldlM (logKey fun k => (params k).map (f k)) (L.mapKey f).dict = _ from foldl_mapKey f params L.keys L.dict]
  cases L.keys.foldlM (logKey params) L.dict with
  | error e => rfl
  | ok d => rfl

theorem add_mapKey (L : Logger V) (key : String) (v : LVal V) : (L.mapKey f).add key (v.mapVal (f key)) = (L.add key v).map (mapKey f) := by
  obtain ⟨kind, keys, d⟩ := L
  have h := mapKey_update f d key v
  by_cases hk : key ∈ keys
  · simp only [add, mapKey, if_pos hk, ← h]
    rfl
  · simp only [add, mapKey, if_neg hk, ← h]
    cases kind <;> rfl

end Logger

/-- Logged vectors are moved, logged directions only turned. -/
def moveVal {n n' : ℕ} (f f0 : Vec ℝ n → Vec ℝ n') (k : String) : PyVal ℝ n → PyVal ℝ n' := PyVal.mapVec (if k = "direction" then f0 else f)

section
variable {σ σ' : Type} {g : σ → σ'}

/-- An affine isometry `f` with linear part `f0` and a map `g` of the states turn the first oracle and regularizer into the second. -/
structure Moves {n n' : ℕ} (f f0 : Vec ℝ n → Vec ℝ n') (g : σ → σ') (o : Oracle ℝ n σ) (o' : Oracle ℝ n' σ') (R : Regularizer ℝ n) (R' : Regularizer ℝ n') : Prop where
  dim : 0 < n ↔ 0 < n'
  add : ∀ x y, f (x + y) = f x + f0 y
  smul : ∀ (t : ℝ) x, f0 (t • x) = t • f0 x
  dot : ∀ x y, dot (f0 x) (f0 y) = dot x y
  value : ∀ x, Sim g id (o.value x) (o'.value (f x))
  grad : ∀ x, Sim g f0 (o.grad x) (o'.grad (f x))
  prox : ∀ y t, R'.prox (f y) t = (R.prox y t).map f
  pen : ∀ x, R'.value (f x) = R.value x

namespace Moves
variable {n n' : ℕ} {f f0 : Vec ℝ n → Vec ℝ n'} {o : Oracle ℝ n σ} {o' : Oracle ℝ n' σ'} {R : Regularizer ℝ n} {R' : Regularizer ℝ n'}

theorem neg (T : Moves f f0 g o o' R R') (x : Vec ℝ n) : f0 (-x) = -f0 x := by
  have := T.smul (-1) x
  rwa [neg_one_smul, neg_one_smul] at this

theorem sub (T : Moves f f0 g o o' R R') (x y : Vec ℝ n) : f0 (x - y) = f x - f y := by
  have := T.add y (x - y)
  rw [add_sub_cancel] at this
  rw [this, add_sub_cancel_left]

theorem normSq (T : Moves f f0 g o o' R R') (x : Vec ℝ n) : normSq (f0 x) = Verif.normSq x := by
  have := T.dot x x
  unfold Verif.dot at this
  unfold Verif.normSq
  simpa only [pow_two] using this

theorem lineSearch (T : Moves f f0 g o o' R R') (x d : Vec ℝ n) (step : ℝ) : Sim g id (lineSearch o R x d step) (lineSearch o' R' (f x) (f0 d) step) := by
  generalize hk : ⌈step * 10 ^ 14⌉₊ = k
  induction k using Nat.strong_induction_on generalizing step with
  | _ k ih =>
    rw [Verif.lineSearch.eq_def o, Verif.lineSearch.eq_def o']
    split_ifs with h
    · refine Sim.bind (φ := f) (Sim.call (by rw [← T.smul, ← T.add, T.prox])) fun z => Sim.bind (T.value z) fun fz => Sim.bind (T.value x) fun fx => ?_
      have ha : Accept fz fx (f x) (f0 d) (f z) step ↔ Accept fz fx x d z step := by
        unfold Accept
        rw [← T.sub, T.dot, T.normSq]
      simp only [id, ha]
      split_ifs with hc
      · exact Sim.pure (φ := id) step
      · exact ih _ (by rw [← hk]; exact halving_lt step h) _ rfl
    · exact Sim.pure (φ := id) step

theorem chooseStep (T : Moves f f0 g o o' R R') (cfg : PGDCfg ℝ) (x d : Vec ℝ n) : Sim g id (chooseStep o R cfg x d) (chooseStep o' R' cfg (f x) (f0 d)) := by
  unfold Verif.chooseStep
  split_ifs
  · exact T.lineSearch x d _
  · exact Sim.pure (φ := id) _

theorem lossAt (T : Moves f f0 g o o' R R') (x : Vec ℝ n) : Sim g id (lossAt o R x) (lossAt o' R' (f x)) := by
  unfold Verif.lossAt
  refine Sim.bind (T.value x) fun v => Sim.bind (φ := id) (Sim.call ?_) fun w => Sim.pure (φ := id) _
  rw [T.pen]
  cases R.value x <;> rfl

theorem logBlock (T : Moves f f0 g o o' R R') (L : Logger (PyVal ℝ n)) (x : Vec ℝ n) (vars : String → Option (PyVal ℝ n)) :
    Sim g (Logger.mapKey (moveVal f f0)) (logBlock o R L x vars) (logBlock o' R' (L.mapKey (moveVal f f0)) (f x) fun k => (vars k).map (moveVal f f0 k)) := by
  unfold Verif.logBlock
  refine Sim.bind (φ := Option.map (moveVal f f0 "loss")) ?_ fun loss => ?_
  · change Sim g _ (if "loss" ∈ L.keys then _ else _) (if "loss" ∈ L.keys then _ else _)
    split_ifs
    · exact Sim.bind (T.lossAt x) fun l => Sim.pure (φ := Option.map (moveVal f f0 "loss")) (some (PyVal.num l))
    · exact Sim.pure (φ := Option.map (moveVal f f0 "loss")) none
  · change Sim g _ (if L.keys.length > 0 then _ else _) (if L.keys.length > 0 then _ else _)
    split_ifs
    · refine Sim.call ?_
      rw [← Logger.log_mapKey]
      congr 1
      funext k
      split_ifs with hk
      · rw [hk]
      · rfl
    · exact Sim.pure (φ := Logger.mapKey (moveVal f f0)) L

theorem localsInit (x0 : Vec ℝ n) (k : String) : Verif.localsInit (f x0) k = (Verif.localsInit x0 k).map (moveVal f f0 k) := by
  unfold Verif.localsInit
  split_ifs with h
  · rcases h with rfl | rfl <;> rfl
  all_goals rfl

theorem localsIter (x0 xprev d y x : Vec ℝ n) (step : ℝ) (iteration : ℕ) (k : String) :
    Verif.localsIter (f x0) (f xprev) (f0 d) (f y) (f x) step iteration k = (Verif.localsIter x0 xprev d y x step iteration k).map (moveVal f f0 k) := by
  unfold Verif.localsIter
  rw [localsInit (f0 := f0)]
  split_ifs with h1 h2 h3 h4 h5
  · rw [h1]; rfl
  · rw [h2]; rfl
  · rfl
  · rw [h4]; rfl
  · rw [h5]; rfl
  all_goals rfl

theorem body (T : Moves f f0 g o o' R R') (cfg : PGDCfg ℝ) (x0 x : Vec ℝ n) (it : ℕ) (L : Logger (PyVal ℝ n)) :
    Sim g (fun r => (f r.1, r.2.mapKey (moveVal f f0))) (pgdBody o R cfg x0 x it L) (pgdBody o' R' cfg (f x0) (f x) it (L.mapKey (moveVal f f0))) := by
  unfold pgdBody
  refine Sim.bind (T.grad x) fun d => ?_
  simp only
  rw [← T.neg]
  refine Sim.bind (T.chooseStep cfg x (-d)) fun step => ?_
  simp only [id]
  rw [← T.smul, ← T.add]
  refine Sim.bind (φ := f) (Sim.call (T.prox _ _)) fun x' => ?_
  simp only [funext fun k => localsIter (f := f) (f0 := f0) x0 x (-d) (x + step • -d) x' step (it + 1) k]
  exact Sim.bind (T.logBlock L x' _) fun L' => Sim.pure (φ := fun r : Vec ℝ n × Logger (PyVal ℝ n) => (f r.1, r.2.mapKey (moveVal f f0))) (x', L')

theorem loop (T : Moves f f0 g o o' R R') (cfg : PGDCfg ℝ) (x0 x : Vec ℝ n) (xprev : Option (Vec ℝ n)) (it : ℕ) (L : Logger (PyVal ℝ n)) :
    Sim g (fun r => (f r.1, r.2.1, r.2.2.mapKey (moveVal f f0))) (pgdLoop o R cfg x0 x xprev it L)
      (pgdLoop o' R' cfg (f x0) (f x) (xprev.map f) it (L.mapKey (moveVal f f0))) := by
  generalize hk : (cfg.maxIter - it).toNat = k
  induction k using Nat.strong_induction_on generalizing x xprev it L with
  | _ k ih =>
    rw [pgdLoop.eq_def o, pgdLoop.eq_def o']
    have hf : farApart cfg.tol (xprev.map f) (f x) ↔ farApart cfg.tol xprev x := by
      cases xprev with
      | none => exact or_congr T.dim.symm Iff.rfl
      | some y =>
        change _ ∨ _ < Verif.normSq (f x - f y) ↔ _
        rw [← T.sub, T.normSq]
        rfl
    simp only [hf]
    split_ifs with h
    · exact Sim.bind (T.body cfg x0 x it L) fun r => ih _ (by omega) r.1 (some x) (it + 1) r.2 rfl
    · exact Sim.pure (φ := fun r : Vec ℝ n × ℕ × Logger (PyVal ℝ n) => (f r.1, r.2.1, r.2.2.mapKey (moveVal f f0))) (x, it, L)

/-- Runs of `PGDSolver` are transformed. -/
theorem pgdOptimize (T : Moves f f0 g o o' R R') (cfg : PGDCfg ℝ) (x0 : Vec ℝ n) (L : Logger (PyVal ℝ n)) :
    Sim g (fun r => (f r.1, r.2.mapKey (moveVal f f0))) (pgdOptimize o R cfg x0 L) (pgdOptimize o' R' cfg (f x0) (L.mapKey (moveVal f f0))) := by
  unfold Verif.pgdOptimize
  simp only [funext fun k => localsInit (f := f) (f0 := f0) x0 k]
  refine Sim.bind (T.logBlock L x0 _) fun L0 => Sim.bind (T.loop cfg x0 x0 none 0 L0) fun r => ?_
  refine Sim.bind (φ := Logger.mapKey (moveVal f f0)) (Sim.call ?_) fun L1 => Sim.bind (φ := Logger.mapKey (moveVal f f0)) (Sim.call ?_) fun L2 => ?_
  · rw [← Logger.add_mapKey]
    rfl
  · rw [← Logger.add_mapKey]
    rfl
  · exact Sim.pure (φ := fun r : Vec ℝ n × Logger (PyVal ℝ n) => (f r.1, r.2.mapKey (moveVal f f0))) (r.1, L2)

/-- Runs of `FakePGDSolver` are transformed. -/
theorem fakeOptimize (T : Moves f f0 g o o' R R') {opt : Vec ℝ n → PyM σ (Vec ℝ n)} {opt' : Vec ℝ n' → PyM σ' (Vec ℝ n')} (h : ∀ x, Sim g f (opt x) (opt' (f x)))
    (x0 : Vec ℝ n) (L : Logger (PyVal ℝ n)) :
    Sim g (fun r => (f r.1, r.2.mapKey (moveVal f f0))) (fakeOptimize o opt R x0 L) (fakeOptimize o' opt' R' (f x0) (L.mapKey (moveVal f f0))) := by
  unfold Verif.fakeOptimize
  refine Sim.bind (h x0) fun x => Sim.bind (φ := Logger.mapKey (moveVal f f0)) ?_ fun L1 => Sim.bind (φ := Logger.mapKey (moveVal f f0)) (Sim.call ?_) fun L2 => ?_
  · change Sim g _ (if "loss" ∈ L.keys then _ else _) (if "loss" ∈ L.keys then _ else _)
    split_ifs
    · refine Sim.bind (T.lossAt x) fun l => Sim.call ?_
      rw [← Logger.add_mapKey]
      rfl
    · exact Sim.pure (φ := Logger.mapKey (moveVal f f0)) L
  · rw [← Logger.add_mapKey]
    rfl
  · exact Sim.pure (φ := fun r : Vec ℝ n × Logger (PyVal ℝ n) => (f r.1, r.2.mapKey (moveVal f f0))) (x, L2)

end Moves
end

end Verif
