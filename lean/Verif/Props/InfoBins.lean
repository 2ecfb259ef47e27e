import Verif.Props.InfoKL

/-!
# C46: the automatic number of bins
-/

namespace Verif.Info

open Verif.Ent
open Verif.Dist (Constant corrcoef coSum)

/-! ### Rounding -/

/-- C46. `round`: a nearest integer, the even one if there are two. -/
theorem pyRound_spec (x : ℝ) : |(pyRound x : ℝ) - x| ≤ 1 / 2 ∧ (|(pyRound x : ℝ) - x| = 1 / 2 → pyRound x % 2 = 0) := by
  have f1 := Int.floor_le x
  have f2 := Int.lt_floor_add_one x
  unfold pyRound
  by_cases h : x - ⌊x⌋ = 1 / 2
  · rw [if_pos h]
    by_cases h2 : ⌊x⌋ % 2 = 0
    · rw [if_pos h2]
      refine ⟨?_, fun _ => h2⟩
      rw [abs_le]; constructor <;> linarith
    · rw [if_neg h2]
      refine ⟨?_, fun _ => by omega⟩
      push_cast
      rw [abs_le]; constructor <;> linarith
  · rw [if_neg h]
    have hr := abs_sub_round x
    refine ⟨by rw [abs_sub_comm]; exact hr, fun he => ?_⟩
    exfalso
    apply h
    rcases (abs_eq (by norm_num)).mp he with e | e
    · -- round x = x + 1/2
      have : ⌊x⌋ = round x - 1 := by
        rw [Int.floor_eq_iff]; push_cast; constructor <;> linarith
      rw [this]; push_cast; linarith
    · exfalso
      have : x = (round x : ℝ) + 1 / 2 := by linarith
      have h3 : round x = round x + 1 := by
        conv_lhs => rw [this, round_eq]
        rw [Int.floor_eq_iff]
        push_cast
        constructor <;> linarith
      omega

theorem pyRound_mono {x y : ℝ} (h : x ≤ y) : pyRound x ≤ pyRound y := by
  by_contra hlt
  push Not at hlt
  have h1 := abs_le.mp (pyRound_spec x).1
  have h2 := abs_le.mp (pyRound_spec y).1
  have h3 : ((pyRound y : ℝ)) + 1 ≤ pyRound x := by exact_mod_cast hlt
  have : x = y := by linarith
  subst this
  omega

theorem pyRound_eq {x : ℝ} {k : Int} (h1 : (k : ℝ) - 1 / 2 < x) (h2 : x < k + 1 / 2) : pyRound x = k := by
  have h := abs_le.mp (pyRound_spec x).1
  have a : (pyRound x : ℝ) < k + 1 := by linarith
  have b : (k : ℝ) - 1 < pyRound x := by linarith
  have a' : pyRound x < k + 1 := by exact_mod_cast a
  have b' : k - 1 < pyRound x := by exact_mod_cast b
  omega

/-! ### The two formulas -/

theorem rpow_half {x : ℝ} : x ^ (0.5 : ℝ) = Real.sqrt x := by
  rw [Real.sqrt_eq_rpow]; norm_num

/-- C46. The univariate formula: the solution `s ≥ 1` of `s² (s - 1) = 3 n`. -/
theorem uniValue_spec (n : Nat) : 1 ≤ uniValue n ∧ uniValue n ^ 2 * (uniValue n - 1) = 3 * n := by
  have hn : (0 : ℝ) ≤ n := Nat.cast_nonneg n
  set q := Real.sqrt (36 * n + 729 * (n : ℝ) ^ 2) with hq
  have hq0 : 0 ≤ q := Real.sqrt_nonneg _
  have hqq : q ^ 2 = 36 * n + 729 * (n : ℝ) ^ 2 := Real.sq_sqrt (by positivity)
  set z : ℝ := (8 + 324 * n + 12 * q) ^ (1 / 3.0 : ℝ) with hz
  have hbase : (0 : ℝ) < 8 + 324 * n + 12 * q := by positivity
  have hzp : 0 < z := Real.rpow_pos_of_pos hbase _
  have hz3 : z ^ 3 = 8 + 324 * n + 12 * q := by
    rw [hz, ← Real.rpow_natCast, ← Real.rpow_mul hbase.le]
    norm_num
  have hs : uniValue n = z / 6 + 2 / (3 * z) + 1 / 3 := by
    unfold uniValue
    rw [rpow_half]
    norm_num [hz, hq]
  -- `z³ + 64 / z³ = 16 + 648 n`
  have hconj : (8 + 324 * n + 12 * q) * (8 + 324 * n - 12 * q) = 64 := by
    have : (8 + 324 * (n : ℝ) + 12 * q) * (8 + 324 * n - 12 * q) = (8 + 324 * n) ^ 2 - 144 * q ^ 2 := by ring
    rw [this, hqq]; ring
  have hz6 : z ^ 3 * z ^ 3 + 64 = z ^ 3 * (16 + 648 * n) := by
    rw [hz3]
    nlinarith [hconj]
  have hcube : uniValue n ^ 2 * (uniValue n - 1) = 3 * n := by
    rw [hs]
    field_simp
    nlinarith [hz6]
  refine ⟨?_, hcube⟩
  rw [hs]
  have : 0 ≤ (z - 2) ^ 2 / (6 * z) := by positivity
  have e : z / 6 + 2 / (3 * z) + 1 / 3 = 1 + (z - 2) ^ 2 / (6 * z) := by
    field_simp
    ring
  rw [e]; linarith

theorem cubic_mono {s t : ℝ} (hs : 1 ≤ s) (ht : 1 ≤ t) (h : s ^ 2 * (s - 1) ≤ t ^ 2 * (t - 1)) : s ≤ t := by
  by_contra hlt
  push Not at hlt
  have h1 : t ^ 2 * (t - 1) < s ^ 2 * (s - 1) := by
    have a : t ^ 2 < s ^ 2 := by nlinarith
    have b : t - 1 < s - 1 := by linarith
    nlinarith [sq_nonneg t]
  linarith

/-- C46. The bivariate formula: the solution `s ≥ 1` of `s² (s² - 1) = 6 n / (1 - ρ²)`. -/
theorem bivValue_spec (n : Nat) {c : ℝ} (hc : c ^ 2 < 1) :
    1 ≤ bivValue n c ∧ bivValue n c ^ 2 * (bivValue n c ^ 2 - 1) = 6 * n / (1 - c ^ 2) := by
  have hd : 0 < 1 - c ^ 2 := by linarith
  have hn : (0 : ℝ) ≤ n := Nat.cast_nonneg n
  set A := 24 * (n : ℝ) / (1 - c ^ 2) with hA
  have hA0 : 0 ≤ A := by positivity
  have hs : bivValue n c = Real.sqrt ((1 + Real.sqrt (1 + A)) / 2) := by
    unfold bivValue
    rw [rpow_half, rpow_half]
    have e1 : (1.0 : ℝ) - c ^ 2 = 1 - c ^ 2 := by norm_num
    rw [e1, ← hA, Real.rpow_neg (by norm_num), rpow_half, Real.sqrt_div (by positivity)]
    field_simp
  have hq1 : 1 ≤ Real.sqrt (1 + A) := by
    rw [Real.one_le_sqrt]; linarith
  have hqq : Real.sqrt (1 + A) ^ 2 = 1 + A := Real.sq_sqrt (by linarith)
  have hsq : bivValue n c ^ 2 = (1 + Real.sqrt (1 + A)) / 2 := by
    rw [hs, Real.sq_sqrt (by positivity)]
  refine ⟨?_, ?_⟩
  · rw [hs, Real.one_le_sqrt]; linarith
  · rw [hsq]
    have : (1 + Real.sqrt (1 + A)) / 2 * ((1 + Real.sqrt (1 + A)) / 2 - 1) = (Real.sqrt (1 + A) ^ 2 - 1) / 4 := by ring
    rw [this, hqq, hA]
    field_simp
    ring

theorem quartic_mono {s t : ℝ} (hs : 1 ≤ s) (ht : 1 ≤ t) (h : s ^ 2 * (s ^ 2 - 1) ≤ t ^ 2 * (t ^ 2 - 1)) : s ≤ t := by
  by_contra hlt
  push Not at hlt
  have a : t ^ 2 < s ^ 2 := by nlinarith
  have b : 1 ≤ t ^ 2 := by nlinarith
  nlinarith

theorem quartic_strict {s t : ℝ} (hs : 1 ≤ s) (ht : 1 ≤ t) (h : s ^ 2 * (s ^ 2 - 1) < t ^ 2 * (t ^ 2 - 1)) : s < t := by
  by_contra hlt
  push Not at hlt
  have a : t ^ 2 ≤ s ^ 2 := by nlinarith
  have b : 1 ≤ t ^ 2 := by nlinarith
  nlinarith

/-! ### The number of bins -/

/-- C46. The univariate number of bins: at least two for a non-empty sample, one for an empty one, increasing with the
sample. -/
theorem uni_bins (n : Nat) :
    ∃ b, optimalBins n none = .ok b ∧ (n = 0 → b = 1) ∧ (1 ≤ n → 2 ≤ b) ∧
      ∀ m ≥ n, ∀ b', optimalBins m none = .ok b' → b ≤ b' := by
  obtain ⟨h1, h2⟩ := uniValue_spec n
  refine ⟨_, rfl, fun h => ?_, fun h => ?_, fun m hm b' hb' => ?_⟩
  · subst h
    have : uniValue 0 = 1 := by
      simp only [Nat.cast_zero, mul_zero] at h2
      rcases mul_eq_zero.mp h2 with h | h
      · have := pow_eq_zero_iff (two_ne_zero) |>.mp h; linarith
      · linarith
    rw [this]
    exact pyRound_eq (by norm_num) (by norm_num)
  · have hn : (1 : ℝ) ≤ n := by exact_mod_cast h
    have h3 : (3 / 2 : ℝ) < uniValue n := by
      by_contra hlt
      push Not at hlt
      have : uniValue n ^ 2 * (uniValue n - 1) ≤ (3 / 2) ^ 2 * (3 / 2 - 1) := by
        apply mul_le_mul _ (by linarith) (by linarith) (by norm_num)
        exact pow_le_pow_left₀ (by linarith) hlt 2
      linarith
    have := abs_le.mp (pyRound_spec (uniValue n)).1
    have h4 : (1 : ℝ) < pyRound (uniValue n) := by linarith
    have h5 : 1 < pyRound (uniValue n) := by exact_mod_cast h4
    omega
  · cases hb'
    obtain ⟨h3, h4⟩ := uniValue_spec m
    apply pyRound_mono
    apply cubic_mono h1 h3
    rw [h2, h4]
    have : (n : ℝ) ≤ m := by exact_mod_cast hm
    linarith

/-- C46. The bivariate number of bins: at least two for a non-empty sample; it increases with the sample and with the
absolute correlation. -/
theorem biv_bins {n : Nat} {c : ℝ} (hc : c ^ 2 < 1) :
    ∃ b, optimalBins n (some (.fin c)) = .ok b ∧ (1 ≤ n → 2 ≤ b) ∧
      ∀ m ≥ n, ∀ d, c ^ 2 ≤ d ^ 2 → d ^ 2 < 1 → ∀ b', optimalBins m (some (.fin d)) = .ok b' → b ≤ b' := by
  obtain ⟨h1, h2⟩ := bivValue_spec n hc
  refine ⟨pyRound (bivValue n c), by unfold optimalBins; dsimp only; rw [if_neg hc.ne], fun h => ?_,
    fun m hm d hcd hd b' hb' => ?_⟩
  · have hn : (1 : ℝ) ≤ n := by exact_mod_cast h
    have h3 : (3 / 2 : ℝ) < bivValue n c := by
      apply quartic_strict (by norm_num) h1
      rw [h2, lt_div_iff₀ (by linarith)]
      nlinarith [sq_nonneg c]
    have := abs_le.mp (pyRound_spec (bivValue n c)).1
    have h4 : (1 : ℝ) < pyRound (bivValue n c) := by linarith
    have h5 : 1 < pyRound (bivValue n c) := by exact_mod_cast h4
    omega
  · unfold optimalBins at hb'
    dsimp only at hb'
    rw [if_neg hd.ne] at hb'
    cases hb'
    obtain ⟨h3, h4⟩ := bivValue_spec m hd
    apply pyRound_mono
    apply quartic_mono h1 h3
    rw [h2, h4]
    have : (n : ℝ) ≤ m := by exact_mod_cast hm
    have hn : (0 : ℝ) ≤ n := Nat.cast_nonneg n
    apply div_le_div₀ (by positivity) (by linarith) (by linarith) (by linarith)

theorem corrcoef_mem {x y : List ℝ} (hl : x.length = y.length) (cx : ¬ Constant x) (cy : ¬ Constant y) :
    ∃ c, corrcoef x y = .ok (.fin c) ∧ c ^ 2 ≤ 1 := by
  unfold corrcoef
  rw [if_neg (not_not.mpr hl), if_neg (by
    rw [Dist.coSum_self_eq_zero_iff, Dist.coSum_self_eq_zero_iff, not_or]; exact ⟨cx, cy⟩), Dist.clamp_eq]
  refine ⟨_, rfl, ?_⟩
  obtain ⟨h1, h2⟩ := Dist.clampR_mem (coSum x y / (Real.sqrt (coSum x x) * Real.sqrt (coSum y y)))
  nlinarith

/-- The correlation is -1 exactly for a decreasing affine image. -/
theorem corrcoef_neg_one_iff {x y : List ℝ} (hl : x.length = y.length) (cx : ¬ Constant x) :
    corrcoef x y = .ok (.fin (-1)) ↔ ∃ a b : ℝ, a < 0 ∧ y = x.map fun v => a * v + b := by
  constructor
  · intro h
    have cy : ¬ Constant y := by
      intro hc
      rw [Dist.corrcoef_constant hl (.inr hc)] at h
      cases h
    have h0 : Dist.pairDistance .absAngular x y = .ok (some 0) := by
      unfold Dist.pairDistance
      rw [h]
      show Except.ok (Dist.distOf _ _) = _
      rw [Dist.dist_fin, Dist.clampR_of_mem (by norm_num) (by norm_num)]
      congr 2
      unfold Dist.formula
      simp
    obtain ⟨a, b, rfl, ha⟩ := (Dist.pair_zero_iff _ hl cx cy).mp h0
    refine ⟨a, b, ?_, rfl⟩
    rcases ha with ha | ha
    · rw [Dist.corrcoef_affine cx ha.ne', if_pos ha] at h
      have := XF.fin.inj (Except.ok.inj h)
      norm_num at this
    · exact ha.1
  · rintro ⟨a, b, ha, rfl⟩
    rw [Dist.corrcoef_affine cx ha.ne, if_neg (by linarith)]

/-- C46. The automatic number of bins of two samples exists exactly if they have the same length, neither is constant and
none is a decreasing affine image of the other; then it is at least two. -/
theorem auto_bins (x y : List ℝ) :
    (x.length ≠ y.length ∨ Constant x ∨ Constant y → binsFromXY x y = .error .valueError) ∧
    (x.length = y.length → ¬ Constant x → (∃ a b : ℝ, a < 0 ∧ y = x.map fun v => a * v + b) →
      binsFromXY x y = .error .overflowError) ∧
    (x.length = y.length → ¬ Constant x → ¬ Constant y → ¬ (∃ a b : ℝ, a < 0 ∧ y = x.map fun v => a * v + b) →
      ∃ b, binsFromXY x y = .ok b ∧ 2 ≤ b) := by
  refine ⟨fun h => ?_, fun hl cx h => ?_, fun hl cx cy h => ?_⟩
  · unfold binsFromXY
    by_cases hl : x.length = y.length
    · have hc : Constant x ∨ Constant y := by
        rcases h with h | h
        · exact absurd hl h
        · exact h
      rw [Dist.corrcoef_constant hl hc]
      rfl
    · have : corrcoef x y = .error .valueError := by unfold corrcoef; rw [if_pos hl]
      rw [this]; rfl
  · unfold binsFromXY
    rw [(corrcoef_neg_one_iff hl cx).mpr h]
    simp only [bind, Except.bind]
    rw [if_neg (by norm_num)]
    unfold optimalBins
    dsimp only
    have : x.length ≠ 0 := by
      intro h0
      apply cx
      rw [List.length_eq_zero_iff] at h0
      rw [h0]
      intro a ha; simp at ha
    rw [if_pos (by norm_num), if_neg this]
  · obtain ⟨c, hc, hc1⟩ := corrcoef_mem hl cx cy
    have hn1 : 1 ≤ x.length := by
      by_contra h0
      apply cx
      have : x = [] := List.length_eq_zero_iff.mp (by omega)
      rw [this]
      intro a ha; simp at ha
    unfold binsFromXY
    rw [hc]
    simp only [bind, Except.bind]
    by_cases h1 : c = 1 ∨ |c - 1| < 1 / 10 ^ 5
    · rw [if_pos h1]
      obtain ⟨b, hb, -, hb2, -⟩ := uni_bins x.length
      exact ⟨b, hb, hb2 hn1⟩
    · rw [if_neg h1]
      rw [not_or] at h1
      have hne : c ≠ -1 := by
        rintro rfl
        exact h ((corrcoef_neg_one_iff hl cx).mp hc)
      have hlt : c ^ 2 < 1 := by
        refine lt_of_le_of_ne hc1 fun h' => ?_
        rcases sq_eq_one_iff_of_ne_zero h' with h' | h'
        · exact h1.1 h'
        · exact hne h'
      obtain ⟨b, hb, hb2, -⟩ := biv_bins (n := x.length) hlt
      exact ⟨b, hb, hb2 hn1⟩
where
  sq_eq_one_iff_of_ne_zero {c : ℝ} (h : c ^ 2 = 1) : c = 1 ∨ c = -1 := by
    have : (c - 1) * (c + 1) = 0 := by ring_nf; linarith
    rcases mul_eq_zero.mp this with h | h
    · left; linarith
    · right; linarith

theorem constant_ofFn {n : Nat} (u : Fin n → ℝ) : Constant (List.ofFn u) ↔ ∀ i j, u i = u j := by
  unfold Constant
  constructor
  · intro h i j
    exact h _ ((List.mem_ofFn' _ _).mpr ⟨i, rfl⟩) _ ((List.mem_ofFn' _ _).mpr ⟨j, rfl⟩)
  · intro h a ha b hb
    obtain ⟨i, rfl⟩ := (List.mem_ofFn' _ _).mp ha
    obtain ⟨j, rfl⟩ := (List.mem_ofFn' _ _).mp hb
    exact h i j

/-- C46. With the automatic number of bins: a constant sample fails with `ValueError`, a decreasing affine relation (such
as a sample and its negative) with `OverflowError`; in all other cases the normalised measures are numbers in [0, 1],
never `nan`. -/
theorem auto_info {n : Nat} (hn : 2 ≤ n) (u w : Fin n → ℝ) :
    ((∀ i j, u i = u j) ∨ (∀ i j, w i = w j) → ∀ norm, mutualInfo none norm (sample u) (sample w) = .error .valueError ∧
      varInfo none norm (sample u) (sample w) = .error .valueError) ∧
    (¬ (∀ i j, u i = u j) → (∃ a b : ℝ, a < 0 ∧ ∀ i, w i = a * u i + b) →
      ∀ norm, mutualInfo none norm (sample u) (sample w) = .error .overflowError ∧
        varInfo none norm (sample u) (sample w) = .error .overflowError) ∧
    (¬ (∀ i j, u i = u j) → ¬ (∀ i j, w i = w j) → ¬ (∃ a b : ℝ, a < 0 ∧ ∀ i, w i = a * u i + b) →
      (∃ r, mutualInfo none true (sample u) (sample w) = .ok (.fin r) ∧ 0 ≤ r ∧ r ≤ 1) ∧
      ∃ r, varInfo none true (sample u) (sample w) = .ok (.fin r) ∧ 0 ≤ r ∧ r ≤ 1) := by
  have hv : ∀ u : Fin n → ℝ, validate1D (sample u) = .ok () := by
    intro u
    unfold validate1D
    rw [sample_length, if_neg (by omega)]
  have hr : resolveBins (sample u) (sample w) none = binsFromXY (List.ofFn u) (List.ofFn w) := by
    unfold resolveBins
    rw [finiteList_sample, finiteList_sample]
  have herr : ∀ e, binsFromXY (List.ofFn u) (List.ofFn w) = .error e →
      ∀ norm, mutualInfo none norm (sample u) (sample w) = .error e ∧ varInfo none norm (sample u) (sample w) = .error e := by
    intro e he norm
    unfold mutualInfo varInfo
    rw [hv, hv, hr, he]
    exact ⟨rfl, rfl⟩
  have hlen : (List.ofFn u).length = (List.ofFn w).length := by simp
  obtain ⟨a1, a2, a3⟩ := auto_bins (List.ofFn u) (List.ofFn w)
  have haff : (∃ a b : ℝ, a < 0 ∧ List.ofFn w = (List.ofFn u).map fun v => a * v + b) ↔
      ∃ a b : ℝ, a < 0 ∧ ∀ i, w i = a * u i + b := by
    refine exists_congr fun a => exists_congr fun b => and_congr_right fun _ => ?_
    rw [List.map_ofFn, List.ofFn_inj, funext_iff]
    rfl
  rw [haff] at a2 a3
  rw [constant_ofFn] at a2 a3
  rw [constant_ofFn] at a3
  rw [constant_ofFn, constant_ofFn] at a1
  refine ⟨fun h => herr _ (a1 (.inr h)), fun h1 h2 => herr _ (a2 hlen h1 h2), fun h1 h2 h3 => ?_⟩
  obtain ⟨b, hb, hb2⟩ := a3 hlen h1 h2 h3
  have e1 : mutualInfo none true (sample u) (sample w) = mutualInfo (some b) true (sample u) (sample w) := by
    unfold mutualInfo
    rw [hr, hb]; rfl
  have e2 : varInfo none true (sample u) (sample w) = varInfo (some b) true (sample u) (sample w) := by
    unfold varInfo
    rw [hr, hb]; rfl
  rw [e1, e2]
  constructor
  · have hex : ∃ v, mutualInfo (some b) true (sample u) (sample w) = .ok v := ⟨_, (info_eq hn (by omega) true u w).1⟩
    obtain ⟨v, hv⟩ := hex
    obtain ⟨r1, r2⟩ := mi_norm_range hv
    have hs : ∀ u : Fin n → ℝ, (∀ s ∈ sample u, ∀ t ∈ sample u, s = t) → ∀ i j, u i = u j := by
      intro u h i j
      exact XF.fin.inj (h (.fin (u i)) ((List.mem_ofFn' _ _).mpr ⟨i, rfl⟩) (.fin (u j)) ((List.mem_ofFn' _ _).mpr ⟨j, rfl⟩))
    rcases r1 with r1 | ⟨r, rfl, r1⟩
    · exfalso
      rcases r2.mp r1 with h | h | h
      · omega
      · exact h1 (hs u h)
      · exact h2 (hs w h)
    · exact ⟨r, hv, r1⟩
  · refine (vi_range hn (by omega) u w).2.2 ?_
    rintro (h | h)
    · omega
    · exact h1 h.1

end Verif.Info
