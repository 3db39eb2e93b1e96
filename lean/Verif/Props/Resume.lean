import Verif.Props.SolverLog

/-!
# C185: interrupted runs of the solver can be resumed
-/

namespace Verif

variable {K : Type} [Field K] [LinearOrder K] [IsStrictOrderedRing K] [FloorSemiring K] {n : ℕ}

/-- Two loggers with the same keys whose lists (except under `x0` and `iteration`) have got the same new entries, after `pre` and after `hd`. -/
structure SameTail {V : Type*} (ks : List String) (pre hd : String → List V) (L L2 : Logger V) : Prop where
  good : L.Good
  good2 : L2.Good
  keys : L.keys = ks
  keys2 : L2.keys = ks
  tails : ∀ key ∈ ks, key ≠ "x0" → key ≠ "iteration" → ∃ l, L.dict key = some (.list (pre key ++ l)) ∧ L2.dict key = some (.list (hd key ++ l))

theorem SameTail.logBlock {o : Oracle K n Unit} {R : Regularizer K n} {ks : List String} {pre hd : String → List (PyVal K n)} {L L2 L' : Logger (PyVal K n)} (h : SameTail ks pre hd L L2) {x : Vec K n}
    {vars vars2 : String → Option (PyVal K n)} (hv : ∀ key, key ≠ "x0" → key ≠ "iteration" → vars2 key = vars key) (hL : logBlock o R L x vars () = .ok (L', ())) :
    ∃ L2', logBlock o R L2 x vars2 () = .ok (L2', ()) ∧ SameTail ks pre hd L' L2' := by
  unfold Verif.logBlock at hL ⊢
  obtain ⟨loss, _, h1, h2⟩ := bind_ok.1 hL
  rw [h.keys] at h1 h2
  rw [h.keys2]
  by_cases hk : ks.length > 0
  · rw [if_pos hk] at h2
    simp only [if_pos hk]
    obtain ⟨M, m1, m2, m3, m4⟩ := h.good.log fun k => if k = "loss" then loss else vars k
    obtain ⟨M2, n1, n2, n3, n4⟩ := h.good2.log fun k => if k = "loss" then loss else vars2 k
    rw [m1] at h2
    obtain ⟨e, -⟩ := callReg_ok.1 h2
    cases e
    refine ⟨M2, bind_ok.2 ⟨loss, (), h1, by rw [n1]; rfl⟩, m2, n2, m3.trans h.keys, n3.trans h.keys2, fun key hkey h3 h4 => ?_⟩
    obtain ⟨l, e1, e2⟩ := h.tails key hkey h3 h4
    rw [m4, n4, e1, e2, hv key h3 h4]
    refine ⟨l ++ (if key = "loss" then loss else vars key).toList, ?_, ?_⟩ <;> simp [logEffect]
  · rw [if_neg hk] at h2
    simp only [if_neg hk]
    obtain ⟨e, -⟩ := pure_ok.1 h2
    cases e
    exact ⟨L2, bind_ok.2 ⟨loss, (), h1, rfl⟩, h⟩

theorem SameTail.body {o : Oracle K n Unit} {R : Regularizer K n} {ks : List String} {pre hd : String → List (PyVal K n)} {cfg cfg2 : PGDCfg K} (hs : cfg2.stepping = cfg.stepping)
    (hf : cfg2.fixedStepLen = cfg.fixedStepLen) {x0 x02 x x' : Vec K n} {it it2 : ℕ} {L L2 L' : Logger (PyVal K n)} (h : SameTail ks pre hd L L2)
    (hb : pgdBody o R cfg x0 x it L () = .ok ((x', L'), ())) : ∃ L2', pgdBody o R cfg2 x02 x it2 L2 () = .ok ((x', L2'), ()) ∧ SameTail ks pre hd L' L2' := by
  unfold pgdBody at hb ⊢
  obtain ⟨g, _, hg, hb⟩ := bind_ok.1 hb
  obtain ⟨step, _, hst, hb⟩ := bind_ok.1 hb
  obtain ⟨y, _, hy, hb⟩ := bind_ok.1 hb
  obtain ⟨L1, _, hL, hb⟩ := bind_ok.1 hb
  obtain ⟨he, -⟩ := pure_ok.1 hb
  cases he
  obtain ⟨L2', h1, h2⟩ := h.logBlock (vars2 := localsIter x02 x (-g) (x + step • (-g)) x' step (it2 + 1)) (fun key h3 h4 => by
    unfold localsIter localsInit
    simp only [if_neg h4]
    split_ifs <;> simp_all) hL
  refine ⟨L2', bind_ok.2 ⟨g, (), hg, bind_ok.2 ⟨step, (), ?_, bind_ok.2 ⟨x', (), hy, bind_ok.2 ⟨L2', (), h1, rfl⟩⟩⟩⟩, h2⟩
  unfold chooseStep at hst ⊢
  rw [hs, hf]
  exact hst

/-- What is known at every test of the main loop: the entries of the log are lists, and the loss at the current point has been evaluated. -/
structure LoopInv (o : Oracle K n Unit) (R : Regularizer K n) (L : Logger (PyVal K n)) (x : Vec K n) : Prop where
  good : L.Good
  lists : ∀ key ∈ L.keys, ∃ l, L.dict key = some (.list l)
  loss : "loss" ∈ L.keys → ∃ v, lossAt o R x () = .ok (v, ())

theorem logBlock_inv {o : Oracle K n Unit} {R : Regularizer K n} {L L' : Logger (PyVal K n)} (hg : L.Good) (hl : ∀ key ∈ L.keys, ∃ l, L.dict key = some (.list l)) {x : Vec K n}
    {vars : String → Option (PyVal K n)} (h : logBlock o R L x vars () = .ok (L', ())) : LoopInv o R L' x ∧ L'.keys = L.keys := by
  have h0 := h
  unfold logBlock at h
  obtain ⟨loss, _, h1, h2⟩ := bind_ok.1 h
  have hloss : "loss" ∈ L.keys → ∃ v, lossAt o R x () = .ok (v, ()) := by
    intro hm
    rw [if_pos hm] at h1
    obtain ⟨v, _, h3, -⟩ := bind_ok.1 h1
    exact ⟨v, h3⟩
  by_cases hk : L.keys.length > 0
  · rw [if_pos hk] at h2
    obtain ⟨M, m1, m2, m3, m4⟩ := hg.log fun k => if k = "loss" then loss else vars k
    rw [m1] at h2
    obtain ⟨e, -⟩ := callReg_ok.1 h2
    cases e
    refine ⟨⟨m2, fun key hkey => ?_, fun hm => hloss (m3 ▸ hm)⟩, m3⟩
    obtain ⟨l, e⟩ := hl key (m3 ▸ hkey)
    exact ⟨_, by rw [m4, e]; rfl⟩
  · rw [if_neg hk] at h2
    obtain ⟨e, -⟩ := pure_ok.1 h2
    cases e
    exact ⟨⟨hg, hl, hloss⟩, rfl⟩

theorem body_inv {o : Oracle K n Unit} {R : Regularizer K n} {cfg : PGDCfg K} {x0 x x' : Vec K n} {it : ℕ} {L L' : Logger (PyVal K n)} (hi : LoopInv o R L x)
    (hb : pgdBody o R cfg x0 x it L () = .ok ((x', L'), ())) : LoopInv o R L' x' ∧ L'.keys = L.keys := by
  obtain ⟨g, _, step, _, -, -, -, hlog⟩ := pgdBody_ok _ _ _ _ _ _ _ _ _ _ _ hb
  exact logBlock_inv hi.good hi.lists hlog

/-- The first part of a long run is the run with the smaller budget. -/
theorem loop_first {o : Oracle K n Unit} {R : Regularizer K n} {cfg : PGDCfg K} {x0 xf : Vec K n} {Lf : Logger (PyVal K n)} {N k : ℕ} (hk : k < N) :
    ∀ (j it : ℕ) (x : Vec K n) (xprev : Option (Vec K n)) (L : Logger (PyVal K n)), it + j = k → LoopInv o R L x → pgdLoop o R cfg x0 x xprev it L () = .ok ((xf, N, Lf), ()) →
      ∃ x1 xprev1 L1, pgdLoop o R { cfg with maxIter := k } x0 x xprev it L () = .ok ((x1, k, L1), ()) ∧ LoopInv o R L1 x1 ∧ L1.keys = L.keys ∧ farApart cfg.tol xprev1 x1 ∧
        pgdLoop o R cfg x0 x1 xprev1 k L1 () = .ok ((xf, N, Lf), ()) := by
  intro j
  induction j with
  | zero =>
    rintro it x xprev L rfl hi h
    refine ⟨x, xprev, L, ?_, hi, rfl, ?_, h⟩
    · rw [pgdLoop, dif_neg (by rintro ⟨-, h2⟩; exact lt_irrefl _ h2)]
      rfl
    · rw [pgdLoop] at h
      by_contra hc
      rw [dif_neg (fun h2 => hc h2.1)] at h
      obtain ⟨e, -⟩ := pure_ok.1 h
      have := congrArg (fun p : Vec K n × ℕ × Logger (PyVal K n) => p.2.1) e
      simp only at this
      omega
  | succ j ih =>
    intro it x xprev L hit hi h
    rw [pgdLoop] at h
    by_cases hc : farApart cfg.tol xprev x ∧ (it : ℤ) < cfg.maxIter
    · rw [dif_pos hc] at h
      obtain ⟨⟨x', L'⟩, _, hb, h⟩ := bind_ok.1 h
      obtain ⟨hi', hk'⟩ := body_inv hi hb
      obtain ⟨x1, xprev1, L1, e1, e2, e3, e4, e5⟩ := ih (it + 1) x' (some x) L' (by omega) hi' h
      refine ⟨x1, xprev1, L1, ?_, e2, e3.trans hk', e4, e5⟩
      rw [pgdLoop, dif_pos ⟨hc.1, by simp only; omega⟩]
      refine bind_ok.2 ⟨(x', L'), (), ?_, e1⟩
      rw [← hb]
      rfl
    · rw [dif_neg hc] at h
      obtain ⟨e, -⟩ := pure_ok.1 h
      have := congrArg (fun p : Vec K n × ℕ × Logger (PyVal K n) => p.2.1) e
      simp only at this
      omega

/-- The rest of a long run is a run from the point where it was interrupted. -/
theorem loop_second {o : Oracle K n Unit} {R : Regularizer K n} {cfg : PGDCfg K} {x0 x02 xf : Vec K n} {Lf : Logger (PyVal K n)} {N k : ℕ} {ks : List String} {pre hd : String → List (PyVal K n)} :
    ∀ (m it : ℕ) (x : Vec K n) (xprev xprev2 : Option (Vec K n)) (L L2 : Logger (PyVal K n)), (cfg.maxIter - k - it).toNat = m → SameTail ks pre hd L L2 →
      (farApart cfg.tol xprev2 x ↔ farApart cfg.tol xprev x) → pgdLoop o R cfg x0 x xprev (k + it) L () = .ok ((xf, N, Lf), ()) →
      ∃ N2 L2', N = k + N2 ∧ pgdLoop o R { cfg with maxIter := cfg.maxIter - k } x02 x xprev2 it L2 () = .ok ((xf, N2, L2'), ()) ∧ SameTail ks pre hd Lf L2' := by
  intro m
  induction m with
  | zero =>
    intro it x xprev xprev2 L L2 hm hs hfar h
    rw [pgdLoop, dif_neg (by rintro ⟨-, h2⟩; push_cast at h2; omega)] at h
    obtain ⟨e, -⟩ := pure_ok.1 h
    cases e
    refine ⟨it, L2, rfl, ?_, hs⟩
    rw [pgdLoop, dif_neg (by rintro ⟨-, h2⟩; simp only at h2; omega)]
    rfl
  | succ m ih =>
    intro it x xprev xprev2 L L2 hm hs hfar h
    rw [pgdLoop] at h
    by_cases hc : farApart cfg.tol xprev x
    · rw [dif_pos ⟨hc, by push_cast; omega⟩] at h
      obtain ⟨⟨x', L'⟩, _, hb, h⟩ := bind_ok.1 h
      obtain ⟨L2', hb2, hs'⟩ := hs.body (cfg2 := { cfg with maxIter := cfg.maxIter - k }) rfl rfl (x02 := x02) (it2 := it) hb
      obtain ⟨N2, L3, e1, e2, e3⟩ := ih (it + 1) x' (some x) (some x) L' L2' (by push_cast; omega) hs' Iff.rfl (by rw [← Nat.add_assoc]; exact h)
      refine ⟨N2, L3, e1, ?_, e3⟩
      rw [pgdLoop, dif_pos ⟨hfar.2 hc, by simp only; omega⟩]
      exact bind_ok.2 ⟨(x', L2'), (), hb2, e2⟩
    · rw [dif_neg (fun h2 => hc h2.1)] at h
      obtain ⟨e, -⟩ := pure_ok.1 h
      cases e
      refine ⟨it, L2, rfl, ?_, hs⟩
      rw [pgdLoop, dif_neg (fun h2 => hc (hfar.1 h2.1))]
      rfl

/-- What `optimize` does after the loop. -/
theorem pgdOptimize_finish {o : Oracle K n Unit} {R : Regularizer K n} {cfg : PGDCfg K} {x0 x : Vec K n} {L L0 L1 : Logger (PyVal K n)} {N : ℕ} (h0 : logBlock o R L x0 (localsInit x0) () = .ok (L0, ()))
    (h1 : pgdLoop o R cfg x0 x0 none 0 L0 () = .ok ((x, N, L1), ())) (hg : L1.Good) :
    ∃ L2, pgdOptimize o R cfg x0 L () = .ok ((x, L2), ()) ∧ L2.get "iteration" = .ok (.atom (.int N)) ∧ L2.get "converged" = .ok (.atom (.bool (decide ((N : ℤ) < cfg.maxIter)))) ∧
      ∀ key, key ≠ "iteration" → key ≠ "converged" → L2.get key = L1.get key := by
  obtain ⟨M1, a1, a2, -, a4⟩ := hg.add "converged" (.atom (.bool (decide ((N : ℤ) < cfg.maxIter))))
  obtain ⟨M2, b1, -, -, b4⟩ := a2.add "iteration" (.atom (.int N))
  refine ⟨M2, ?_, by simp [Logger.get, b4], by simp [Logger.get, b4, a4], fun key h2 h3 => by simp [Logger.get, b4, a4, h2, h3]⟩
  unfold pgdOptimize
  exact bind_ok.2 ⟨L0, (), h0, bind_ok.2 ⟨_, (), h1, bind_ok.2 ⟨M1, (), by simp only [a1]; rfl, bind_ok.2 ⟨M2, (), by simp only [b1]; rfl, rfl⟩⟩⟩⟩

/-- **C185** for the solver: let `optimize` with the budget `cfg.maxIter` return `x` after `N` iterations.  For every `k < N` the run with the budget `k` returns after `k` iterations, not converged, and
a run from its result with the remaining budget returns the same `x` after `N - k` iterations, with the same flag `converged`.  The entries of the log of the long run are those of the first part followed
by those of the second part (without what the second part logs at its start). Concrete runs of 1000 iterations interrupted after 400 meeting the
hypotheses are in `Props/ResumeFits.lean`, a linear and a mixed-effects one. -/
theorem C185_solver (o : Oracle K n Unit) (R : Regularizer K n) (cfg : PGDCfg K) (x0 x : Vec K n) (keys : List String) (hk : keys.Nodup) (Lf : Logger (PyVal K n)) (N k : ℕ)
    (h : pgdOptimize o R cfg x0 (Logger.init .tuple keys) () = .ok ((x, Lf), ())) (hN : Lf.get "iteration" = .ok (.atom (.int N))) (hkN : k < N) :
    ∃ x1 L1 L2,
      pgdOptimize o R { cfg with maxIter := k } x0 (Logger.init .tuple keys) () = .ok ((x1, L1), ()) ∧
      pgdOptimize o R { cfg with maxIter := cfg.maxIter - k } x1 (Logger.init .tuple keys) () = .ok ((x, L2), ()) ∧
      L1.get "iteration" = .ok (.atom (.int k)) ∧ L1.get "converged" = .ok (.atom (.bool false)) ∧
      L2.get "iteration" = .ok (.atom (.int (N - k))) ∧ L2.get "converged" = Lf.get "converged" ∧
      (∀ key ∈ keys, key ∈ ["x", "x_prev", "loss"] → ∃ l1 v l2, L1.get key = .ok (.list l1) ∧ L2.get key = .ok (.list (v :: l2)) ∧ Lf.get key = .ok (.list (l1 ++ l2))) ∧
      ∀ key ∈ keys, key ∈ ["direction", "y", "step_len"] → ∃ l1 l2, L1.get key = .ok (.list l1) ∧ L2.get key = .ok (.list l2) ∧ Lf.get key = .ok (.list (l1 ++ l2)) := by
  unfold pgdOptimize at h
  obtain ⟨L0, _, h0, h⟩ := bind_ok.1 h
  obtain ⟨⟨xr, Nr, Lr⟩, _, hloop, h⟩ := bind_ok.1 h
  obtain ⟨M1, _, hc, h⟩ := bind_ok.1 h
  obtain ⟨M2, _, hi, h⟩ := bind_ok.1 h
  obtain ⟨he, -⟩ := pure_ok.1 h
  cases he
  obtain ⟨hc, -⟩ := callReg_ok.1 hc
  obtain ⟨hi, -⟩ := callReg_ok.1 hi
  obtain ⟨c1, c2⟩ := Logger.add_get hc
  obtain ⟨i1, i2⟩ := Logger.add_get hi
  obtain rfl : Nr = N := by
    rw [i1] at hN
    injection hN with hN; injection hN with hN; injection hN
  have hconv := (i2 "converged" (by decide)).trans c1
  have hget : ∀ key, key ≠ "iteration" → key ≠ "converged" → Lf.get key = Lr.get key := fun key h1 h2 => (i2 key h1).trans (c2 key h2)
  obtain ⟨inv0, k0⟩ := logBlock_inv (Logger.good_init keys hk) (fun key hkey => ⟨[], by simp only [Logger.init] at hkey ⊢; rw [if_pos hkey]⟩) h0
  obtain ⟨x1, xprev1, L1, e1, e2, e3, e4, e5⟩ := loop_first hkN k 0 x0 none L0 (by omega) inv0 hloop
  replace e3 := e3.trans k0
  simp only [Logger.init] at e3
  have hn : farApart cfg.tol none x1 := by
    change farApart cfg.tol none x0
    rw [pgdLoop] at hloop
    by_contra hcon
    rw [dif_neg (fun h2 => hcon h2.1)] at hloop
    obtain ⟨e, -⟩ := pure_ok.1 hloop
    have := congrArg (fun p : Vec K n × ℕ × Logger (PyVal K n) => p.2.1) e
    simp only at this
    omega
  -- the start of the second run
  have hstart : ∃ L20, logBlock o R (Logger.init .tuple keys) x1 (localsInit x1) () = .ok (L20, ()) ∧ L20.Good ∧ L20.keys = keys ∧
      ∃ loss : Option (PyVal K n), ("loss" ∈ keys → loss.isSome) ∧ ∀ key ∈ keys, L20.dict key = some (.list (if key = "loss" then loss else localsInit x1 key).toList) := by
    have hl : ∃ loss : Option (PyVal K n), ("loss" ∈ keys → loss.isSome) ∧ ((if "loss" ∈ keys then do
        let l ← lossAt o R x1
        return some (PyVal.num l)
      else return none : PyM Unit (Option (PyVal K n)))) () = .ok (loss, ()) := by
      by_cases hm : "loss" ∈ keys
      · obtain ⟨v, hv⟩ := e2.loss (by rw [e3]; exact hm)
        refine ⟨some (.num v), fun _ => rfl, ?_⟩
        rw [if_pos hm]
        exact bind_ok.2 ⟨v, (), hv, rfl⟩
      · refine ⟨none, fun h => absurd h hm, ?_⟩
        rw [if_neg hm]
        rfl
    obtain ⟨loss, hls, hl⟩ := hl
    obtain ⟨M, m1, m2, m3, m4⟩ := (Logger.good_init (V := PyVal K n) keys hk).log fun key => if key = "loss" then loss else localsInit x1 key
    by_cases hpos : keys.length > 0
    · refine ⟨M, ?_, m2, m3, loss, hls, fun key hkey => ?_⟩
      · unfold logBlock
        refine bind_ok.2 ⟨loss, (), hl, ?_⟩
        rw [if_pos (show (Logger.init KeyColl.tuple keys : Logger (PyVal K n)).keys.length > 0 from hpos), m1]
        rfl
      · rw [m4]
        simp only [Logger.init]
        rw [if_pos hkey]
        simp [logEffect]
    · refine ⟨Logger.init .tuple keys, ?_, Logger.good_init keys hk, rfl, loss, hls, fun key hkey => absurd (List.length_pos_of_mem hkey) hpos⟩
      unfold logBlock
      refine bind_ok.2 ⟨loss, (), hl, ?_⟩
      rw [if_neg (show ¬ (Logger.init KeyColl.tuple keys : Logger (PyVal K n)).keys.length > 0 from hpos)]
      rfl
  obtain ⟨L20, s1, s2, s3, loss, s4, s5⟩ := hstart
  have hpre : ∀ key, ∃ l, key ∈ keys → L1.dict key = some (.list l) := fun key => by
    by_cases hkey : key ∈ keys
    · obtain ⟨l, hl⟩ := e2.lists key (by rw [e3]; exact hkey)
      exact ⟨l, fun _ => hl⟩
    · exact ⟨[], fun h => absurd h hkey⟩
  choose pre hpre using hpre
  have hst : SameTail keys pre (fun key => (if key = "loss" then loss else localsInit x1 key).toList) L1 L20 :=
    ⟨e2.good, s2, e3, s3, fun key hkey _ _ => ⟨[], by rw [hpre key hkey, List.append_nil], by rw [s5 key hkey, List.append_nil]⟩⟩
  obtain ⟨N2, L21, f1, f2, f3⟩ := loop_second (x02 := x1) _ 0 x1 xprev1 none L1 L20 rfl hst (by
    refine ⟨fun _ => e4, fun _ => ?_⟩
    exact hn) (by rw [Nat.add_zero]; exact e5)
  obtain ⟨A, a1, a2, a3, a4⟩ := pgdOptimize_finish h0 e1 e2.good
  obtain ⟨B, b1, b2, b3, b4⟩ := pgdOptimize_finish s1 f2 f3.good2
  have hN2 : N2 = Nr - k := by omega
  refine ⟨x1, A, B, a1, b1, a2, ?_, by rw [b2, hN2], ?_, fun key hkey hin => ?_, fun key hkey hin => ?_⟩
  · rw [a3]; simp
  · rw [b3, hconv]
    simp only
    congr 4
    rw [eq_iff_iff]
    omega
  · have n1 : key ≠ "x0" := by rintro rfl; revert hin; decide
    have n2 : key ≠ "iteration" := by rintro rfl; revert hin; decide
    have n3 : key ≠ "converged" := by rintro rfl; revert hin; decide
    obtain ⟨l, g1, g2⟩ := f3.tails key hkey n1 n2
    have hv : ∃ v, (if key = "loss" then loss else localsInit x1 key).toList = [v] := by
      simp only [List.mem_cons, List.not_mem_nil, or_false] at hin
      rcases hin with rfl | rfl | rfl
      · exact ⟨_, rfl⟩
      · exact ⟨_, rfl⟩
      · obtain ⟨v, hv⟩ := Option.isSome_iff_exists.1 (s4 hkey)
        exact ⟨v, by simp [hv]⟩
    obtain ⟨v, hv⟩ := hv
    refine ⟨pre key, v, l, ?_, ?_, ?_⟩
    · rw [a4 key n2 n3]; simp [Logger.get, hpre key hkey]
    · rw [b4 key n2 n3]; simp [Logger.get, g2, hv]
    · rw [hget key n2 n3]; simp [Logger.get, g1]
  · have n1 : key ≠ "x0" := by rintro rfl; revert hin; decide
    have n2 : key ≠ "iteration" := by rintro rfl; revert hin; decide
    have n3 : key ≠ "converged" := by rintro rfl; revert hin; decide
    obtain ⟨l, g1, g2⟩ := f3.tails key hkey n1 n2
    have hv : (if key = "loss" then loss else localsInit x1 key).toList = [] := by
      simp only [List.mem_cons, List.not_mem_nil, or_false] at hin
      rcases hin with rfl | rfl | rfl <;> rfl
    refine ⟨pre key, l, ?_, ?_, ?_⟩
    · rw [a4 key n2 n3]; simp [Logger.get, hpre key hkey]
    · rw [b4 key n2 n3]; simp [Logger.get, g2, hv]
    · rw [hget key n2 n3]; simp [Logger.get, g1]

end Verif
