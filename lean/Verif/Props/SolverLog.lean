import Verif.Props.Descent

/-!
# C181: the log of the proximal gradient solver is its trajectory
-/

namespace Verif

variable {K : Type} [Field K] [LinearOrder K] [IsStrictOrderedRing K] [FloorSemiring K] {n : ℕ} {σ : Type}

/-- What a logging block does to the entries other than `loss`. -/
theorem logBlock_effect {o : Oracle K n σ} {R : Regularizer K n} {L L' : Logger (PyVal K n)} (hL : L.Good) {x : Vec K n} {vars : String → Option (PyVal K n)} {s s' : σ}
    (h : logBlock o R L x vars s = .ok (L', s')) : L'.Good ∧ L'.keys = L.keys ∧ ∀ k, k ≠ "loss" → L'.dict k = (L.dict k).map (logEffect (vars k)) := by
  unfold logBlock at h
  obtain ⟨loss, s1, -, h⟩ := bind_ok.1 h
  by_cases hk : L.keys.length > 0
  · rw [if_pos hk] at h
    obtain ⟨L2, h1, h2, h3, h4⟩ := hL.log fun k => if k = "loss" then loss else vars k
    rw [h1] at h
    obtain ⟨e, -⟩ := callReg_ok.1 h
    cases e
    refine ⟨h2, h3, fun k hk => ?_⟩
    rw [h4, if_neg hk]
  · rw [if_neg hk] at h
    obtain ⟨e, -⟩ := pure_ok.1 h
    cases e
    refine ⟨hL, rfl, fun k _ => ?_⟩
    have hnil : L.keys = [] := List.eq_nil_of_length_eq_zero (by omega)
    have h0 : L.dict k = none := by
      have := (not_congr (hL.dom k)).2 (by rw [hnil]; simp)
      simpa using this
    rw [h0]
    rfl

/-- The entry of a run of `k` passes under a key, if the start logs `a` and pass `i` logs `b i`. -/
def runLog {V : Type*} (a : Option V) (b : ℕ → Option V) (k : ℕ) : List V := a.toList ++ (List.range k).filterMap b

/-- **C181**: let `optimize` with a tuple of distinct log keys return `x` and the log `Lf`. Then there are points `X 0 = x0, …, X k = x`, directions, step lengths and trial points of the `k` passes: each
direction is minus the gradient, each step length is the one chosen by the stepping rule, each trial point is `X i + step · direction` and the next point its prox. The entry `x` of the log lists the
`k + 1` points; `direction`, `step_len` and `y` list those of the `k` passes, `x_prev` an infinity and the first `k` points, `x0` the start `k + 1` times. `iteration` is the number of passes, not a list;
`converged` tells if it is below the maximum. Any other key that is not the name of a variable of the method gets an empty list. -/
theorem C181_trajectory (o : Oracle K n σ) (R : Regularizer K n) (cfg : PGDCfg K) (x0 : Vec K n) (keys : List String) (hk : keys.Nodup) (s s' : σ) (x : Vec K n) (Lf : Logger (PyVal K n))
    (h : pgdOptimize o R cfg x0 (Logger.init .tuple keys) s = .ok ((x, Lf), s')) :
    ∃ (k : ℕ) (X D Y : ℕ → Vec K n) (t : ℕ → K), X 0 = x0 ∧ X k = x ∧
      (∀ i < k, Y i = X i + t i • D i ∧ R.prox (Y i) (t i) = .ok (X (i + 1)) ∧
        ∃ s1 s2 s3, o.grad (X i) s1 = .ok (-D i, s2) ∧ chooseStep o R cfg (X i) (D i) s2 = .ok (t i, s3)) ∧
      Lf.get "iteration" = .ok (.atom (.int k)) ∧ Lf.get "converged" = .ok (.atom (.bool (decide ((k : ℤ) < cfg.maxIter)))) ∧
      ("x" ∈ keys → Lf.get "x" = .ok (.list ((List.range (k + 1)).map fun i => .vec (X i)))) ∧
      ("x_prev" ∈ keys → Lf.get "x_prev" = .ok (.list (.num ⊤ :: (List.range k).map fun i => .vec (X i)))) ∧
      ("direction" ∈ keys → Lf.get "direction" = .ok (.list ((List.range k).map fun i => .vec (D i)))) ∧
      ("y" ∈ keys → Lf.get "y" = .ok (.list ((List.range k).map fun i => .vec (Y i)))) ∧
      ("step_len" ∈ keys → Lf.get "step_len" = .ok (.list ((List.range k).map fun i => .num (t i : WithTop K)))) ∧
      ("x0" ∈ keys → Lf.get "x0" = .ok (.list (List.replicate (k + 1) (.vec x0)))) ∧
      (∀ key ∈ keys, key ∉ ["x", "x_prev", "direction", "y", "step_len", "x0", "iteration", "converged", "loss", "self", "oracle", "regularizer", "logger", "z"] → Lf.get key = .ok (.list [])) ∧
      ∀ key, key ∉ keys → key ≠ "iteration" → key ≠ "converged" → Lf.get key = .error .keyError := by
  obtain ⟨k, X, Ls, s1, L1, hl0, h0, hkx, hc, hit, hsteps, hguards, hend⟩ := pgdOptimize_trace o R cfg x0 (Logger.init .tuple keys)
    (fun x L x' L' => ∃ (d y : Vec K n) (t : K), (y = x + t • d ∧ R.prox y t = .ok x' ∧ ∃ s1 s2 s3, o.grad x s1 = .ok (-d, s2) ∧ chooseStep o R cfg x d s2 = .ok (t, s3)) ∧
      (L.Good → L'.Good ∧ L'.keys = L.keys ∧ ∀ key, key ≠ "loss" → key ≠ "iteration" → L'.dict key = (L.dict key).map (logEffect (localsIter x0 x d y x' t 0 key))))
    (fun x it L s x' L' s' hb => by
      obtain ⟨gr, s1, t, s2, hgr, hst, hp, hlog⟩ := pgdBody_ok _ _ _ _ _ _ _ _ _ _ _ hb
      have hmv : x + t • -gr = fun i => x i - t * gr i := by
        funext i
        simp [sub_eq_add_neg]
      refine ⟨-gr, x + t • -gr, t, ⟨rfl, by rw [hmv]; exact hp, s, s1, s2, by rw [neg_neg]; exact hgr, hst⟩, fun hgood => ?_⟩
      obtain ⟨g1, g2, g3⟩ := logBlock_effect hgood hlog
      refine ⟨g1, g2, fun key h1 h2 => ?_⟩
      rw [g3 key h1]
      simp only [localsIter, if_neg h2]) s s' x Lf h
  have hgood0 := Logger.good_init (V := PyVal K n) keys hk
  obtain ⟨g1, g2, g3⟩ := logBlock_effect hgood0 hl0
  choose! D Y t ht using hsteps
  have hinv : ∀ i ≤ k, (Ls i).Good ∧ (Ls i).keys = keys ∧ ∀ key, key ≠ "loss" → key ≠ "iteration" →
      (Ls i).dict key = if key ∈ keys then some (.list (runLog (localsInit x0 key) (fun i => localsIter x0 (X i) (D i) (Y i) (X (i + 1)) (t i) 0 key) i)) else none := by
    intro i
    induction i with
    | zero =>
      refine fun _ => ⟨g1, g2, fun key h1 h2 => ?_⟩
      rw [g3 key h1]
      by_cases hm : key ∈ keys <;> simp [Logger.init, hm, logEffect, runLog]
    | succ i ih =>
      intro hi
      obtain ⟨a1, a2, a3⟩ := ih (by omega)
      obtain ⟨b1, b2, b3⟩ := (ht i (by omega)).2 a1
      refine ⟨b1, b2.trans a2, fun key h1 h2 => ?_⟩
      rw [b3 key h1 h2, a3 key h1 h2]
      by_cases hm : key ∈ keys
      · simp only [hm, if_true, Option.map_some, logEffect, runLog, List.range_succ, List.filterMap_append, List.append_assoc]
        cases hv : localsIter x0 (X i) (D i) (Y i) (X (i + 1)) (t i) 0 key <;> simp [hv]
      · simp [hm]
  have hget : ∀ key, key ≠ "loss" → key ≠ "iteration" → key ≠ "converged" →
      Lf.get key = if key ∈ keys then .ok (.list (runLog (localsInit x0 key) (fun i => localsIter x0 (X i) (D i) (Y i) (X (i + 1)) (t i) 0 key) k)) else .error .keyError := by
    intro key h1 h2 h3
    rw [(Logger.add_get hit).2 _ h2, (Logger.add_get hc).2 _ h3, Logger.get, (hinv k le_rfl).2.2 key h1 h2]
    split_ifs <;> rfl
  refine ⟨k, X, D, Y, t, h0, hkx, fun i hi => (ht i hi).1, (Logger.add_get hit).1, ?_, fun hm => ?_, fun hm => ?_, fun hm => ?_, fun hm => ?_, fun hm => ?_, fun hm => ?_,
    fun key hm hn => ?_, fun key hm h2 h3 => ?_⟩
  · rw [(Logger.add_get hit).2 _ (by decide)]; exact (Logger.add_get hc).1
  · rw [hget _ (by decide) (by decide) (by decide), if_pos hm]
    rw [List.range_succ_eq_map]
    simp [runLog, localsInit, localsIter, h0]
  · rw [hget _ (by decide) (by decide) (by decide), if_pos hm]
    simp [runLog, localsInit, localsIter]
  · rw [hget _ (by decide) (by decide) (by decide), if_pos hm]
    simp [runLog, localsInit, localsIter]
  · rw [hget _ (by decide) (by decide) (by decide), if_pos hm]
    simp [runLog, localsInit, localsIter]
  · rw [hget _ (by decide) (by decide) (by decide), if_pos hm]
    simp [runLog, localsInit, localsIter]
  · rw [hget _ (by decide) (by decide) (by decide), if_pos hm]
    simp [runLog, localsInit, localsIter, List.replicate_succ]
  · simp only [List.mem_cons, List.not_mem_nil, or_false, not_or] at hn
    obtain ⟨n1, n2, n3, n4, n5, n6, n7, n8, n9, n10, n11, n12, n13, -⟩ := hn
    rw [hget _ n9 n7 n8, if_pos hm]
    simp [runLog, localsInit, localsIter, *]
  · by_cases hl : key = "loss"
    · subst hl
      rw [(Logger.add_get hit).2 _ h2, (Logger.add_get hc).2 _ h3, Logger.get]
      have hd := (not_congr ((hinv k le_rfl).1.dom "loss")).2 (by rw [(hinv k le_rfl).2.1]; exact hm)
      have hd' : (Ls k).dict "loss" = none := by simpa using hd
      rw [hd']
    · rw [hget _ hl h2 h3, if_neg hm]

/-- Non-vacuity of C181: a concrete run with the keys of the trajectory, and one that is no variable, returns … -/
example : ∃ x Lf s', pgdOptimize exOracle dummyRegularizer ⟨1/1000, 100, "fixed", 1/2⟩ ![3] (Logger.init .tuple ["x", "loss", "step_len", "w"]) () = .ok ((x, Lf), s') :=
  C16_returns exOracle dummyRegularizer _ _ (fun _ => 0) exOracle_values exOracle_grads (fun _ => rfl) (fun y _ => ⟨y, rfl⟩) _ _ _ (Logger.good_init _ (by decide)) ()

/-- … and its log holds the points `3 / 2 ^ i`, the step length `1/2` of every pass, and nothing for `w`. -/
example (x : Vec ℚ 1) (Lf : Logger (PyVal ℚ 1)) (s' : Unit)
    (h : pgdOptimize exOracle dummyRegularizer ⟨1/1000, 100, "fixed", 1/2⟩ ![3] (Logger.init .tuple ["x", "loss", "step_len", "w"]) () = .ok ((x, Lf), s')) :
    ∃ k : ℕ, Lf.get "x" = .ok (.list ((List.range (k + 1)).map fun i => .vec fun _ => 3 / 2 ^ i)) ∧
      Lf.get "step_len" = .ok (.list (List.replicate k (.num ((1 / 2 : ℚ) : WithTop ℚ)))) ∧ Lf.get "w" = .ok (.list []) ∧ x = fun _ => 3 / 2 ^ k := by
  obtain ⟨k, X, D, Y, t, h0, hk, hs, -, -, hx, -, -, -, ht, -, hw, -⟩ := C181_trajectory exOracle dummyRegularizer _ _ _ (by decide) _ _ _ _ h
  have hstep : ∀ i < k, t i = 1 / 2 ∧ X (i + 1) = fun j => X i j / 2 := by
    intro i hi
    obtain ⟨hy, hp, s1, s2, s3, hg, hc⟩ := hs i hi
    have hD : X i = -D i := (Prod.mk.inj (Except.ok.inj hg)).1
    have ht : (1 / 2 : ℚ) = t i := (Prod.mk.inj (Except.ok.inj hc)).1
    have hp' : Y i = X (i + 1) := Except.ok.inj hp
    refine ⟨ht.symm, ?_⟩
    rw [← hp', hy, ← ht]
    funext j
    have := congrFun hD j
    simp only [Pi.add_apply, Pi.smul_apply, Pi.neg_apply, smul_eq_mul] at this ⊢
    linarith
  have hX : ∀ i ≤ k, X i = fun _ => 3 / 2 ^ i := by
    intro i
    induction i with
    | zero => intro _; rw [h0]; funext j; fin_cases j; simp
    | succ i ih =>
      intro hi
      rw [(hstep i (by omega)).2, ih (by omega)]
      funext j
      rw [pow_succ, div_div]
  refine ⟨k, ?_, ?_, hw "w" (by decide) (by decide), by rw [← hk, hX k le_rfl]⟩
  · rw [hx (by decide)]
    congr 2
    exact List.map_congr_left fun i hi => by rw [hX i (by have := List.mem_range.1 hi; omega)]
  · rw [ht (by decide)]
    congr 2
    refine List.eq_replicate_iff.2 ⟨by simp, fun v hv => ?_⟩
    obtain ⟨i, hi, rfl⟩ := List.mem_map.1 hv
    rw [(hstep i (List.mem_range.1 hi)).1]

end Verif
