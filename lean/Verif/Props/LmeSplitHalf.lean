import Verif.Props.LmeSplit

/-!
# C135: one half is the exact threshold
-/

namespace Verif

/-- `G` groups of two rows and one group of `a` rows. -/
noncomputable abbrev pairsX (G a : ℕ) : RawX := ⟨2 * G + a, 1, fun i _ => some ((min (i.1 / 2) G : ℕ) : ℝ)⟩

/-- A target for `pairsX`. -/
noncomputable abbrev pairsY (G a : ℕ) : RawY := ⟨2 * G + a, none, fun _ _ => some 0⟩

theorem pairs_same {G a : ℕ} (i j : Fin (2 * G + a)) : SameGroup ["group"] (pairsX G a) i j ↔ min (i.1 / 2) G = min (j.1 / 2) G := by
  constructor
  · intro h
    have := Option.some.inj (h 0 one_pos rfl)
    exact_mod_cast this
  · intro h c hc _
    change some ((min (i.1 / 2) G : ℕ) : ℝ) = some ((min (j.1 / 2) G : ℕ) : ℝ)
    rw [h]

open Classical in
/-- **C135 is false for every test size above one half**: there are tables, `G` groups of two rows and a large group, that are split without an error, and in every split, whatever the random choices, some
row of the test part belongs to a group without a row in the training part. -/
theorem C135_half_violated (ts : ℝ) (h0 : 1 / 2 < ts) (h1 : ts < 1) (k : ℕ) :
    ∃ (x : RawX) (y : RawY), (∃ l, LmeSplits ["group"] ts k x y (.ok l)) ∧
      ∀ l, LmeSplits ["group"] ts k x y (.ok l) → ∀ s ∈ l, ∃ i ∈ s.2, ∀ j ∈ s.1, ¬ SameGroup ["group"] x j i := by
  obtain ⟨G, hG⟩ := exists_nat_ge (1 / (2 * ts - 1))
  have hG : 1 ≤ G * (2 * ts - 1) := by rwa [div_le_iff₀ (by linarith)] at hG
  obtain ⟨a, ha⟩ := exists_nat_ge (((G : ℝ) + 2) / (1 - ts) + 2)
  have ha1 : (G : ℝ) + 2 ≤ a * (1 - ts) := by
    have : ((G : ℝ) + 2) / (1 - ts) ≤ a := by linarith
    rwa [div_le_iff₀ (by linarith)] at this
  have ha2 : 2 ≤ a := by
    have : (0 : ℝ) ≤ ((G : ℝ) + 2) / (1 - ts) := div_nonneg (by positivity) (by linarith)
    have : (2 : ℝ) ≤ a := by linarith
    exact_mod_cast this
  have hGpos : 0 < G := by
    rcases Nat.eq_zero_or_pos G with h | h
    · rw [h] at hG; norm_num at hG
    · exact h
  have hm0 : (0 : ℝ) < ((2 * G + a : ℕ) : ℝ) := by
    have : 0 < 2 * G + a := by omega
    exact_mod_cast this
  have hceil : (⌈ts * ((2 * G + a : ℕ) : ℝ)⌉₊ : ℝ) < ts * ((2 * G + a : ℕ) : ℝ) + 1 := Nat.ceil_lt_add_one (by positivity)
  have hceil' : ts * ((2 * G + a : ℕ) : ℝ) ≤ (⌈ts * ((2 * G + a : ℕ) : ℝ)⌉₊ : ℝ) := Nat.le_ceil _
  have hcast : ((2 * G + a : ℕ) : ℝ) = 2 * G + a := by push_cast; ring
  refine ⟨pairsX G a, pairsY G a, ?_, ?_⟩
  · refine (C135_succeeds ["group"] ts k (pairsX G a) (pairsY G a) le_rfl
      ⟨⟨⟨(⟨0, by omega⟩ : Fin (2 * G + a)), trivial⟩, ⟨(0 : Fin 1), trivial⟩, fun _ _ => ⟨_, rfl⟩⟩, rfl, rfl, fun _ => ⟨_, rfl⟩⟩ (by simp) (by linarith) h1 ?_
      (List.ofFn fun g : Fin (G + 1) => (⟨2 * g.1, by have := g.2; omega⟩ : Fin (2 * G + a))) ?_ ?_ ?_).1
    · intro i
      have hi : i.1 < 2 * G + a := i.2
      by_cases hb : i.1 < 2 * G
      · by_cases he : i.1 % 2 = 0
        · exact ⟨(⟨i.1 + 1, by omega⟩ : Fin (2 * G + a)), fun h => by have := congrArg Fin.val h; simp at this, (pairs_same _ _).2 (by
            have : (i.1 + 1) / 2 = i.1 / 2 := by omega
            rw [this])⟩
        · exact ⟨(⟨i.1 - 1, by omega⟩ : Fin (2 * G + a)), fun h => by have := congrArg Fin.val h; simp at this; omega, (pairs_same _ _).2 (by
            have : (i.1 - 1) / 2 = i.1 / 2 := by omega
            rw [this])⟩
      · by_cases he : i.1 = 2 * G
        · exact ⟨(⟨2 * G + 1, by omega⟩ : Fin (2 * G + a)), fun h => by have := congrArg Fin.val h; simp at this; omega, (pairs_same _ _).2 (by
            simp only [he]; omega)⟩
        · exact ⟨(⟨2 * G, by omega⟩ : Fin (2 * G + a)), fun h => by have := congrArg Fin.val h; simp at this; omega, (pairs_same _ _).2 (by
            simp only; omega)⟩
    · intro i
      refine ⟨_, List.mem_ofFn.2 ⟨⟨min (i.1 / 2) G, by omega⟩, rfl⟩, (pairs_same _ _).2 ?_⟩
      simp only
      omega
    · rw [List.length_ofFn]
      have : ((G + 1 : ℕ) : ℝ) ≤ (⌈ts * ((2 * G + a : ℕ) : ℝ)⌉₊ : ℝ) := by
        refine le_trans ?_ hceil'
        rw [hcast]
        push_cast
        have : (2 : ℝ) ≤ a := by exact_mod_cast ha2
        nlinarith
      exact_mod_cast this
    · rw [List.length_ofFn]
      have : ((G + 1 : ℕ) : ℝ) + (⌈ts * ((2 * G + a : ℕ) : ℝ)⌉₊ : ℝ) ≤ ((2 * G + a : ℕ) : ℝ) := by
        rw [hcast] at hceil ⊢
        push_cast
        nlinarith
      exact_mod_cast this
  · intro l hl s hs
    obtain ⟨-, hparts⟩ := C135_parts hl
    obtain ⟨hnd, hmem, htest, hshare⟩ := hparts s hs
    by_contra hn
    push Not at hn
    -- every group occurs in the training part
    have hall : ∀ i, ∃ j ∈ s.1, SameGroup ["group"] (pairsX G a) j i := by
      intro i
      rcases List.mem_append.1 (hmem i) with h | h
      · exact ⟨i, h, fun _ _ _ => rfl⟩
      · exact hn i h
    have hlen : s.1.length + ⌈ts * ((2 * G + a : ℕ) : ℝ)⌉₊ = 2 * G + a := by
      have h2 : (s.1 ++ s.2).Perm (List.finRange (2 * G + a)) :=
        (List.perm_ext_iff_of_nodup hnd (List.nodup_finRange _)).2 fun i => ⟨fun _ => List.mem_finRange i, fun _ => hmem i⟩
      have := h2.length_eq
      rw [List.length_append, List.length_finRange] at this
      have htest' : s.2.length = ⌈ts * ((2 * G + a : ℕ) : ℝ)⌉₊ := htest
      omega
    let iA : Fin (2 * G + a) := ⟨2 * G, by omega⟩
    let pA : Fin (2 * G + a) → Bool := fun j => decide (SameGroup ["group"] (pairsX G a) j iA)
    have hpA : ∀ j, pA j = true ↔ 2 * G ≤ j.1 := by
      intro j
      simp only [pA, decide_eq_true_eq, pairs_same, iA]
      omega
    have hcountA : a ≤ (List.finRange (2 * G + a)).countP pA := by
      rw [List.countP_eq_length_filter]
      have hsub : ((List.finRange a).map (Fin.natAdd (2 * G))).Subperm ((List.finRange (2 * G + a)).filter pA) := by
        refine List.Nodup.subperm ((List.nodup_finRange a).map (Fin.natAdd_injective _ _)) fun j hj => ?_
        obtain ⟨r, -, rfl⟩ := List.mem_map.1 hj
        exact List.mem_filter.2 ⟨List.mem_finRange _, (hpA _).2 (by simp)⟩
      simpa using hsub.length_le
    have hB : G ≤ s.1.countP fun j => !pA j := by
      rw [List.countP_eq_length_filter]
      have hsub : (List.range G).Subperm ((s.1.filter fun j => !pA j).map fun j => j.1 / 2) := by
        refine List.Nodup.subperm List.nodup_range fun g hg => ?_
        have hg : g < G := List.mem_range.1 hg
        obtain ⟨j, hj, hsame⟩ := hall (⟨2 * g, by omega⟩ : Fin (2 * G + a))
        have hj2 := (pairs_same _ _).1 hsame
        simp only at hj2
        refine List.mem_map.2 ⟨j, List.mem_filter.2 ⟨hj, ?_⟩, by omega⟩
        have : ¬ pA j = true := fun h => by
          have := (hpA j).1 h
          omega
        simpa using this
      simpa using hsub.length_le
    have hsum : s.1.length = s.1.countP pA + s.1.countP fun j => !pA j := by
      rw [List.length_eq_countP_add_countP (p := pA)]
      simp
    have hsh := (abs_lt.1 (hshare iA)).1
    have e1 : s.1.countP (fun j => decide (SameGroup ["group"] (pairsX G a) j iA)) = s.1.countP pA := rfl
    have e2 : (List.finRange (2 * G + a)).countP (fun j => decide (SameGroup ["group"] (pairsX G a) j iA)) = (List.finRange (2 * G + a)).countP pA := rfl
    rw [e1] at hsh
    change -1 < (s.1.countP pA : ℝ) - (s.1.length : ℝ) / ((2 * G + a : ℕ) : ℝ) * ((List.finRange (2 * G + a)).countP pA : ℝ) at hsh
    have d0 : (s.1.length : ℝ) + (⌈ts * ((2 * G + a : ℕ) : ℝ)⌉₊ : ℝ) = ((2 * G + a : ℕ) : ℝ) := by exact_mod_cast hlen
    have d1 : (s.1.length : ℝ) = (s.1.countP pA : ℝ) + (s.1.countP fun j => !pA j : ℕ) := by exact_mod_cast hsum
    have d2 : (G : ℝ) ≤ (s.1.countP fun j => !pA j : ℕ) := by exact_mod_cast hB
    have d3 : (a : ℝ) ≤ ((List.finRange (2 * G + a)).countP pA : ℝ) := by exact_mod_cast hcountA
    obtain ⟨r, hr⟩ : ∃ r : ℝ, r = (s.1.length : ℝ) / ((2 * G + a : ℕ) : ℝ) := ⟨_, rfl⟩
    have d4 : (s.1.length : ℝ) = r * ((2 * G + a : ℕ) : ℝ) := by rw [hr]; field_simp
    have r0 : 0 ≤ r := by rw [hr]; positivity
    have r1 : r ≤ 1 - ts := by
      rw [hr, div_le_iff₀ hm0]
      linarith
    rw [← hr] at hsh
    have d5 := mul_le_mul_of_nonneg_left d3 r0
    rw [hcast] at d4
    have : (G : ℝ) - 1 < r * (2 * G) := by nlinarith
    have hGr : (0 : ℝ) < G := by exact_mod_cast hGpos
    nlinarith

/-- Non-vacuity: `test_size = 0.51`. -/
example : ∃ (x : RawX) (y : RawY), (∃ l, LmeSplits ["group"] (51 / 100) 3 x y (.ok l)) ∧
    ∀ l, LmeSplits ["group"] (51 / 100) 3 x y (.ok l) → ∀ s ∈ l, ∃ i ∈ s.2, ∀ j ∈ s.1, ¬ SameGroup ["group"] x j i :=
  C135_half_violated _ (by norm_num) (by norm_num) 3

end Verif
