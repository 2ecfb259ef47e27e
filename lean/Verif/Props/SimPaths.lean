import Verif.Lemmas.Sim
import Mathlib.Tactic.FieldSimp
import Mathlib.Tactic.NormNum
import Mathlib.Tactic.Positivity
import Mathlib.Algebra.BigOperators.Field

/-!
# Properties of the simulated paths (C17 – C21, C26, C65, C66)

All statements hold for every stream of random draws.
-/

namespace Verif.Sim

variable {p : BMParams} {x0 : List ℝ} {dt : ℝ} {z : Nat → ℝ} {a : Arr}

/-! ### Brownian motion -/

/-- C17. `BrownianMotion` sampling succeeds exactly for non-negative `num_steps` and `num_paths`, at least
one variate, a volatility of length 1 or `v`, a Cholesky factor of size `v`, and a non-empty start row whose
length divides the number of columns. -/
theorem bm_succeeds_iff (s n : Int) :
    (∃ a, bmSample p x0 dt s n z = .ok a) ↔
      0 ≤ s ∧ 0 ≤ n ∧ 0 < p.drift.length ∧ (p.vol.length = p.drift.length ∨ p.vol.length = 1) ∧
      (∀ l ∈ p.L, l.rows = p.drift.length ∧ l.cols = p.drift.length) ∧
      0 < x0.length ∧ x0.length ∣ p.drift.length * n.toNat := by
  constructor
  · rintro ⟨a, h⟩
    obtain ⟨b, hb, -⟩ := bind_inv h
    obtain ⟨h1, h2, ⟨h3, -, h5, h6, h7⟩, -⟩ := increments_ok hb
    exact ⟨h1, h2, h3, by simpa using h5, h6, h7⟩
  · rintro ⟨h1, h2, h3, h4, h5, h6⟩
    obtain ⟨n, rfl⟩ := Int.eq_ofNat_of_zero_le h2
    obtain ⟨s, rfl⟩ := Int.eq_ofNat_of_zero_le h1
    obtain ⟨b, hb⟩ := increments_eq s z (v := p.drift.length) (loc := p.drift.map (· * dt))
      (scale := p.vol.map (· * Real.sqrt dt)) (L := p.L) (x0 := x0) (p := n)
      ⟨h3, by simp, by simpa using h4, h5, h6⟩
    exact ⟨_, by unfold bmSample; rw [hb]; rfl⟩

/-- C17, C18, C19. A Brownian sample: shape, start row, and every increment. -/
theorem bm_increments {s n : Nat} (h : bmSample p x0 dt s n z = .ok a) :
    IsPaths a s p.drift.length n ∧
    (∀ c < p.drift.length * n, a.get 0 c = x0.getD (c % x0.length) 0) ∧
    ∀ t q j, q < n → j < p.drift.length →
      path a p.drift.length q j (t + 1) = path a p.drift.length q j t + bentry p.drift j * dt +
        bentry p.vol j * Real.sqrt dt * shock p.L p.drift.length z (t * n + q) j := by
  obtain ⟨b, hb, h⟩ := bind_inv h
  cases h
  obtain ⟨-, -, hsh, ⟨i1, i2⟩, i3, i4⟩ := increments_ok hb
  simp only [Int.toNat_natCast] at *
  refine ⟨⟨i1, i2⟩, ?_, ?_⟩
  · intro c hc
    rw [cumsum_zero (by rw [i2]; exact hc)]
    exact i3 c hc
  · intro t q j hq hj
    have hc : q * p.drift.length + j < b.cols := by rw [i2]; exact col_lt hq hj
    have := i4 t q j hq hj
    unfold path at this ⊢
    rw [cumsum_succ hc, this, bentry_map _ (Or.inl rfl) hj,
      bentry_map _ (by simpa using hsh.scale) hj]
    ring

/-- C19. Closed form of a Brownian path. -/
theorem bm_closed_form {s n : Nat} (h : bmSample p x0 dt s n z = .ok a) {q j : Nat} (hq : q < n)
    (hj : j < p.drift.length) (t : Nat) :
    path a p.drift.length q j t = x0.getD ((q * p.drift.length + j) % x0.length) 0 +
      t * (bentry p.drift j * dt) + bentry p.vol j * Real.sqrt dt *
        ∑ i ∈ Finset.range t, shock p.L p.drift.length z (i * n + q) j := by
  obtain ⟨-, h0, hstep⟩ := bm_increments h
  induction t with
  | zero =>
    have := h0 _ (col_lt hq hj)
    simpa [path] using this
  | succ t ih =>
    rw [hstep t q j hq hj, ih, Finset.sum_range_succ]
    push_cast
    ring

/-- C19. Without volatility the path is the straight line `x0 + drift · dt · t`. -/
theorem bm_noise_free {s n : Nat} (h : bmSample p x0 dt s n z = .ok a) (hv : ∀ x ∈ p.vol, x = 0)
    {q j : Nat} (hq : q < n) (hj : j < p.drift.length) (t : Nat) :
    path a p.drift.length q j t =
      x0.getD ((q * p.drift.length + j) % x0.length) 0 + t * (bentry p.drift j * dt) := by
  have hz : bentry p.vol j = 0 := by
    unfold bentry
    split
    · rw [List.getD_eq_getElem?_getD]
      cases hh : p.vol[0]? with
      | none => rfl
      | some x => exact hv x (List.mem_of_getElem? hh)
    · rw [List.getD_eq_getElem?_getD]
      cases hh : p.vol[j]? with
      | none => rfl
      | some x => exact hv x (List.mem_of_getElem? hh)
  rw [bm_closed_form h hq hj, hz]
  ring

/-- Non-vacuity of C17–C19: two correlated variates, two paths, three steps. -/
example (z : Nat → ℝ) : ∃ a, bmSample ⟨[0.1, 0.2], [0.3], some (Arr.ofList 2 2 [1, 0, 0.6, 0.8])⟩
    [5, 6] 0.25 3 2 z = .ok a := by
  rw [bm_succeeds_iff]
  refine ⟨by norm_num, by norm_num, by norm_num, Or.inr rfl, ?_, by norm_num, by norm_num⟩
  simp only [Option.mem_some_iff]
  rintro l rfl
  exact ⟨rfl, rfl⟩

/-- C17 errors: negative sizes, an empty start row, an incompatible start row, zero variates. -/
theorem bm_errors (s n : Int) :
    ((s < -1 ∨ (n < 0 ∧ 0 < p.drift.length)) → bmSample p x0 dt s n z = .error .valueError) ∧
    (-1 ≤ s → 0 ≤ n → x0 = [] → bmSample p x0 dt s n z = .error .zeroDivisionError) ∧
    (s = -1 → 0 ≤ n → x0 ≠ [] → bmSample p x0 dt s n z = .error .indexError) ∧
    (0 ≤ s → 0 ≤ n → x0 ≠ [] → ¬ x0.length ∣ p.drift.length * n.toNat →
      bmSample p x0 dt s n z = .error .valueError) ∧
    (0 ≤ s → 0 ≤ n → x0 ≠ [] → p.drift = [] → bmSample p x0 dt s n z = .error .valueError) := by
  have hlen : x0 ≠ [] → x0.length ≠ 0 := fun h => by simpa [List.length_eq_zero_iff] using h
  have hz : ∀ {s n : Int}, -1 ≤ s → 0 ≤ n →
      Arr.zeros (s + 1) (p.drift.length * n) = .ok ⟨(s + 1).toNat, p.drift.length * n.toNat, fun _ => 0⟩ := by
    intro s n h1 h2
    obtain ⟨n, rfl⟩ := Int.eq_ofNat_of_zero_le h2
    unfold Arr.zeros
    rw [if_neg (by push Not; exact ⟨by omega, by positivity⟩)]
    congr
  refine ⟨?_, ?_, ?_, ?_, ?_⟩
  · intro h
    unfold bmSample increments Arr.zeros
    rw [if_pos]
    · rfl
    · rcases h with h | ⟨h1, h2⟩
      · left; omega
      · right; exact mul_neg_of_pos_of_neg (by exact_mod_cast h2) h1
  · rintro h1 h2 rfl
    unfold bmSample increments
    rw [hz h1 h2]
    rfl
  · rintro rfl h2 h3
    unfold bmSample increments
    rw [hz (by omega) h2]
    simp only [bind, Except.bind, setX0]
    rw [if_neg (hlen h3), if_pos (by simp)]
  · intro h1 h2 h3 h4
    unfold bmSample increments
    rw [hz (by omega) h2]
    simp only [bind, Except.bind, setX0]
    rw [if_neg (hlen h3), if_neg (by omega), if_neg]
    intro hcon
    exact h4 ⟨_, by rw [Nat.mul_comm x0.length]; exact hcon.symm⟩
  · intro h1 h2 h3 h4
    unfold bmSample increments
    rw [hz (by omega) h2]
    simp only [bind, Except.bind, setX0]
    rw [if_neg (hlen h3), if_neg (by omega), if_pos (by simp [h4])]
    simp [Arr.reshapeCols, h4]

/-! ### Reproducibility (C65) and equivariance (C66) -/

/-- C65. Two Brownian samples with the same parameters, start and number of paths, but possibly different
lengths and random streams: the values of a path up to time `T` only depend on the draws of that path
before `T`. In particular a longer simulation with the same seed extends the shorter one. -/
theorem bm_causal {s s' n : Nat} {z' : Nat → ℝ} {a' : Arr} (h : bmSample p x0 dt s n z = .ok a)
    (h' : bmSample p x0 dt s' n z' = .ok a') {q j T : Nat} (hq : q < n) (hj : j < p.drift.length)
    (hz : ∀ t < T, ∀ m < p.drift.length,
      z ((t * n + q) * p.drift.length + m) = z' ((t * n + q) * p.drift.length + m)) :
    ∀ t ≤ T, path a p.drift.length q j t = path a' p.drift.length q j t := by
  intro t ht
  rw [bm_closed_form h hq hj, bm_closed_form h' hq hj]
  congr 2
  apply Finset.sum_congr rfl
  intro i hi
  have hi' := hz i (by simp at hi; omega)
  unfold shock
  cases p.L with
  | none => exact hi' j hj
  | some L =>
    exact Finset.sum_congr rfl fun m hm => by rw [hi' m (by simpa using hm)]

/-- C66. Shifting the start shifts the whole Brownian sample. -/
theorem bm_shift {s n : Nat} {a' : Arr} (d : ℝ) (h : bmSample p x0 dt s n z = .ok a)
    (h' : bmSample p (x0.map (· + d)) dt s n z = .ok a') {q j : Nat} (hq : q < n)
    (hj : j < p.drift.length) (t : Nat) :
    path a' p.drift.length q j t = path a p.drift.length q j t + d := by
  rw [bm_closed_form h hq hj, bm_closed_form h' hq hj]
  obtain ⟨b, hb, -⟩ := bind_inv h
  have hpos := (increments_ok hb).2.2.1.start.1
  have hlt : (q * p.drift.length + j) % x0.length < x0.length := Nat.mod_lt _ hpos
  rw [List.length_map, List.getD_eq_getElem _ _ (by simpa using hlt), List.getD_eq_getElem _ _ hlt,
    List.getElem_map]
  ring

/-! ### Geometric Brownian motion -/

theorem gbm_inv {s n : Int} (h : gbmSample p x0 dt s n z = .ok a) :
    ∃ loc b, bzip (fun d v => (d - 0.5 * v ^ 2) * dt) p.drift p.vol = .ok loc ∧
      increments p.drift.length loc (p.vol.map (· * Real.sqrt dt)) p.L (x0.map Real.log) s n z = .ok b ∧
      a = b.cumsum.map Real.exp ∧ loc.length = p.drift.length := by
  unfold gbmSample at h
  obtain ⟨a0, -, h⟩ := bind_inv h
  obtain ⟨a1, -, h⟩ := bind_inv h
  obtain ⟨a2, -, h⟩ := bind_inv h
  obtain ⟨loc, hloc, h⟩ := bind_inv h
  obtain ⟨b, hb, h⟩ := bind_inv h
  cases h
  refine ⟨loc, b, hloc, hb, rfl, ?_⟩
  obtain ⟨-, -, hsh, -⟩ := increments_ok hb
  have h1 := (bzip_ok hloc).2.1
  have h2 := hsh.scale
  rw [List.length_map] at h2
  rw [h1]
  split <;> omega

/-- C20. For a positive start, geometric Brownian paths start at `x0`, are positive everywhere, and their
logarithms have Brownian increments with drift `drift - vol² / 2`. -/
theorem gbm_paths {s n : Nat} (h : gbmSample p x0 dt s n z = .ok a) (hx : ∀ x ∈ x0, 0 < x) :
    IsPaths a s p.drift.length n ∧
    (∀ c < p.drift.length * n, a.get 0 c = x0.getD (c % x0.length) 0) ∧
    (∀ t c, 0 < a.get t c) ∧
    ∀ t q j, q < n → j < p.drift.length →
      Real.log (path a p.drift.length q j (t + 1)) = Real.log (path a p.drift.length q j t) +
        (bentry p.drift j - bentry p.vol j ^ 2 / 2) * dt +
        bentry p.vol j * Real.sqrt dt * shock p.L p.drift.length z (t * n + q) j := by
  obtain ⟨loc, b, hloc, hb, rfl, hl⟩ := gbm_inv h
  obtain ⟨-, -, hsh, ⟨i1, i2⟩, i3, i4⟩ := increments_ok hb
  simp only [Int.toNat_natCast] at *
  have hget : ∀ t c, (b.cumsum.map Real.exp).get t c = Real.exp (b.cumsum.get t c) := fun _ _ => rfl
  refine ⟨⟨i1, i2⟩, ?_, fun t c => Real.exp_pos _, ?_⟩
  · intro c hc
    rw [hget, cumsum_zero (by rw [i2]; exact hc), i3 c hc]
    have hpos := hsh.start.1
    rw [List.length_map] at hpos ⊢
    have hlt := Nat.mod_lt c hpos
    rw [List.getD_eq_getElem _ _ (by simpa using hlt), List.getElem_map,
      List.getD_eq_getElem _ _ hlt, Real.exp_log (hx _ (List.getElem_mem hlt))]
  · intro t q j hq hj
    have hc : q * p.drift.length + j < b.cols := by rw [i2]; exact col_lt hq hj
    have := i4 t q j hq hj
    unfold path at this ⊢
    rw [hget, hget, Real.log_exp, Real.log_exp, cumsum_succ hc, this,
      bentry_map _ (by simpa using hsh.scale) hj, (bzip_ok hloc).2.2 j (by omega)]
    ring

/-- C20. The logarithm of a geometric Brownian sample is the Brownian sample with drift
`drift - vol² / 2`, started at `log x0`, driven by the same draws. -/
theorem gbm_log_is_bm {s n : Nat} (h : gbmSample p x0 dt s n z = .ok a) :
    ∃ drift' b, bzip (fun d v => d - v ^ 2 / 2) p.drift p.vol = .ok drift' ∧
      bmSample ⟨drift', p.vol, p.L⟩ (x0.map Real.log) dt s n z = .ok b ∧
      a.rows = b.rows ∧ a.cols = b.cols ∧ ∀ t c, Real.log (a.get t c) = b.get t c := by
  obtain ⟨loc, b, hloc, hb, rfl, hl⟩ := gbm_inv h
  obtain ⟨hlen, -⟩ := bzip_ok hloc
  obtain ⟨drift', hd⟩ := bzip_eq (fun d v => d - v ^ 2 / 2) hlen
  have hmap : loc = drift'.map (· * dt) := by
    unfold bzip at hloc hd
    split at hloc
    · rename_i hc
      rw [if_pos hc] at hd
      cases hd; cases hloc
      rw [List.map_zipWith]
      congr 1
      funext d v
      ring
    · rename_i hc
      rw [if_neg hc] at hd
      split at hloc
      · rename_i hc1
        rw [if_pos hc1] at hd
        cases hd; cases hloc
        rw [List.map_map]
        apply List.map_congr_left
        intro v _
        simp only [Function.comp]
        ring
      · rename_i hc1
        rw [if_neg hc1] at hd
        split at hloc
        · rename_i hc2
          rw [if_pos hc2] at hd
          cases hd; cases hloc
          rw [List.map_map]
          apply List.map_congr_left
          intro v _
          simp only [Function.comp]
          ring
        · cases hloc
  have hdl : drift'.length = p.drift.length := by rw [← hl, hmap, List.length_map]
  refine ⟨drift', b.cumsum, hd, ?_, rfl, rfl, fun t c => Real.log_exp _⟩
  unfold bmSample
  simp only
  rw [hdl, ← hmap, hb]
  rfl

/-- C17. Sampling `GeometricBrownianMotion` succeeds under exactly the same conditions as Brownian motion. -/
theorem gbm_succeeds_iff (s n : Int) :
    (∃ a, gbmSample p x0 dt s n z = .ok a) ↔ ∃ a, bmSample p x0 dt s n z = .ok a := by
  rw [bm_succeeds_iff]
  constructor
  · rintro ⟨a, h⟩
    obtain ⟨loc, b, -, hb, -, -⟩ := gbm_inv h
    obtain ⟨h1, h2, ⟨h3, -, h5, h6, h7⟩, -⟩ := increments_ok hb
    exact ⟨h1, h2, h3, by simpa using h5, h6, by simpa using h7⟩
  · rintro ⟨h1, h2, h3, h4, h5, h6⟩
    obtain ⟨n, rfl⟩ := Int.eq_ofNat_of_zero_le h2
    obtain ⟨s, rfl⟩ := Int.eq_ofNat_of_zero_le h1
    obtain ⟨loc, hloc⟩ := bzip_eq (fun d v => (d - 0.5 * v ^ 2) * dt) (l := p.drift) (m := p.vol) (by omega)
    have hl : loc.length = p.drift.length := by
      rw [(bzip_ok hloc).2.1]
      split <;> omega
    obtain ⟨b, hb⟩ := increments_eq s z (v := p.drift.length) (loc := loc)
      (scale := p.vol.map (· * Real.sqrt dt)) (L := p.L) (x0 := x0.map Real.log) (p := n)
      ⟨h3, Or.inl hl, by simpa using h4, h5, by simpa using h6⟩
    unfold gbmSample
    have hb' := hb
    unfold increments at hb'
    obtain ⟨a0, h0, hb'⟩ := bind_inv hb'
    obtain ⟨a1, h1', hb'⟩ := bind_inv hb'
    obtain ⟨a2, h2', -⟩ := bind_inv hb'
    rw [h0]
    simp only [bind, Except.bind] at *
    rw [h1']
    obtain ⟨a2', h2''⟩ : ∃ c, a0.tail.reshapeCols p.drift.length = .ok c := by
      obtain ⟨-, -, -, e1, e2, -⟩ := setX0_ok h1'
      refine reshapeCols_congr h2' ?_
      simp only [Arr.tail, e1, e2]
    simp only [h2'', hloc, hb]
    exact ⟨_, rfl⟩

/-- C66. Multiplying a positive start by `k > 0` multiplies the whole geometric sample by `k`. -/
theorem gbm_scale {s n : Nat} {a' : Arr} {k : ℝ} (hk : 0 < k) (hx : ∀ x ∈ x0, 0 < x)
    (h : gbmSample p x0 dt s n z = .ok a) (h' : gbmSample p (x0.map (k * ·)) dt s n z = .ok a')
    {q j : Nat} (hq : q < n) (hj : j < p.drift.length) (t : Nat) :
    path a' p.drift.length q j t = k * path a p.drift.length q j t := by
  obtain ⟨-, h1, h2, h3⟩ := gbm_paths h hx
  have hx' : ∀ x ∈ x0.map (k * ·), 0 < x := by
    intro x hx'
    obtain ⟨y, hy, rfl⟩ := List.mem_map.mp hx'
    exact mul_pos hk (hx y hy)
  obtain ⟨-, h1', h2', h3'⟩ := gbm_paths h' hx'
  have hpos : 0 < x0.length := by
    obtain ⟨loc, b, -, hb, -, -⟩ := gbm_inv h
    have := (increments_ok hb).2.2.1.start.1
    rwa [List.length_map] at this
  induction t with
  | zero =>
    unfold path
    rw [h1 _ (col_lt hq hj), h1' _ (col_lt hq hj), List.length_map]
    have hlt := Nat.mod_lt (q * p.drift.length + j) hpos
    rw [List.getD_eq_getElem _ _ (by simpa using hlt), List.getElem_map, List.getD_eq_getElem _ _ hlt]
  | succ t ih =>
    have e1 := h3 t q j hq hj
    have e2 := h3' t q j hq hj
    have e3 : Real.log (path a' p.drift.length q j (t + 1)) =
        Real.log (k * path a p.drift.length q j (t + 1)) := by
      have p1 : 0 < path a p.drift.length q j t := h2 _ _
      have p2 : 0 < path a p.drift.length q j (t + 1) := h2 _ _
      rw [Real.log_mul (ne_of_gt hk) (ne_of_gt p2), e1, e2, ih, Real.log_mul (ne_of_gt hk) (ne_of_gt p1)]
      ring
    exact Real.log_injOn_pos (Set.mem_Ioi.mpr (h2' _ _)) (Set.mem_Ioi.mpr (mul_pos hk (h2 _ _))) e3

/-- C65 for geometric Brownian motion. -/
theorem gbm_causal {s s' n : Nat} {z' : Nat → ℝ} {a' : Arr} (h : gbmSample p x0 dt s n z = .ok a)
    (h' : gbmSample p x0 dt s' n z' = .ok a') {q j T : Nat} (hq : q < n) (hj : j < p.drift.length)
    (hz : ∀ t < T, ∀ m < p.drift.length,
      z ((t * n + q) * p.drift.length + m) = z' ((t * n + q) * p.drift.length + m)) :
    ∀ t ≤ T, path a p.drift.length q j t = path a' p.drift.length q j t := by
  intro t ht
  obtain ⟨d1, b, hd1, hb, -, -, hlog⟩ := gbm_log_is_bm h
  obtain ⟨d2, b', hd2, hb', -, -, hlog'⟩ := gbm_log_is_bm h'
  rw [hd1] at hd2
  cases hd2
  obtain ⟨loc, c, hloc, -, rfl, hl⟩ := gbm_inv h
  obtain ⟨loc', c', -, -, rfl, -⟩ := gbm_inv h'
  have hdl : d1.length = p.drift.length := by
    rw [← hl, (bzip_ok hd1).2.1, (bzip_ok hloc).2.1]
  have key := bm_causal hb hb' hq (j := j) (T := T) (by simpa [hdl] using hj)
    (by simpa [hdl] using hz) t ht
  simp only [hdl] at key
  unfold path at key ⊢
  rw [← hlog, ← hlog'] at key
  exact Real.log_injOn_pos (Set.mem_Ioi.mpr (Real.exp_pos _)) (Set.mem_Ioi.mpr (Real.exp_pos _)) key

/-- Non-vacuity of C20: a positive start and a successful call. -/
example (z : Nat → ℝ) : (∃ a, gbmSample ⟨[0.1], [0.3], none⟩ [100] 0.25 3 2 z = .ok a) ∧
    ∀ x ∈ ([100] : List ℝ), 0 < x := by
  rw [gbm_succeeds_iff, bm_succeeds_iff]
  exact ⟨⟨by norm_num, by norm_num, by norm_num, Or.inr rfl, fun l hl => (by cases hl), by norm_num,
    by norm_num⟩, by norm_num⟩

/-! ### Correlated noise (C26) -/

/-- C26. `_fill_with_correlated_noise` succeeds exactly when the shapes broadcast; every row `r` becomes
`loc + scale · (L z_r)`, where `z_r` is row `r` of the draws: rows do not influence each other. -/
theorem noise_rows {b : Arr} {loc scale : List ℝ} {L : Option Arr} (h : fillNoise a loc scale L z = .ok b) :
    b.rows = a.rows ∧ b.cols = a.cols ∧
    ∀ r j, j < a.cols → b.get r j = bentry loc j + bentry scale j * shock L a.cols z r j := by
  obtain ⟨-, -, -, h4, h5, h6⟩ := fillNoise_ok h
  exact ⟨h4, h5, fun r j hj => by rw [h6 r j hj]; ring⟩

/-- C26. With a Cholesky factor, the sample mean of column `j` is `loc_j + scale_j (L m̄)_j` and the sample
covariance of columns `i`, `j` is `(D L S Lᵀ D)_{ij}`, for `S` the sample covariance of the draws. -/
theorem noise_moments {b : Arr} {loc scale : List ℝ} {L : Arr} (ddof : ℝ)
    (h : fillNoise a loc scale (some L) z = .ok b) (hr : 0 < a.rows) {i j : Nat} (hi : i < a.cols)
    (hj : j < a.cols) :
    mean a.rows (fun r => b.get r j) = bentry loc j + bentry scale j *
        ∑ m ∈ Finset.range a.cols, L.get j m * mean a.rows (fun r => z (r * a.cols + m)) ∧
    scov a.rows ddof (fun r => b.get r i) (fun r => b.get r j) =
      ∑ m ∈ Finset.range a.cols, ∑ m' ∈ Finset.range a.cols,
        (bentry scale i * L.get i m) * (bentry scale j * L.get j m') *
          scov a.rows ddof (fun r => z (r * a.cols + m)) (fun r => z (r * a.cols + m')) := by
  obtain ⟨-, -, h3⟩ := noise_rows h
  have hmean : ∀ k, k < a.cols → mean a.rows (fun r => b.get r k) = bentry loc k + bentry scale k *
      ∑ m ∈ Finset.range a.cols, L.get k m * mean a.rows (fun r => z (r * a.cols + m)) := by
    intro k hk
    have : (fun r => b.get r k) = fun r => bentry loc k + bentry scale k * shock (some L) a.cols z r k :=
      funext fun r => h3 r k hk
    rw [this, mean_affine _ (by omega)]
    congr 2
    exact mean_sum a.rows a.cols (fun m => L.get k m) (fun m r => z (r * a.cols + m))
  refine ⟨hmean j hj, ?_⟩
  have hdev : ∀ k, k < a.cols → ∀ r, b.get r k - mean a.rows (fun r => b.get r k) =
      ∑ m ∈ Finset.range a.cols, (bentry scale k * L.get k m) *
        (z (r * a.cols + m) - mean a.rows (fun r => z (r * a.cols + m))) := by
    intro k hk r
    rw [hmean k hk, h3 r k hk]
    unfold shock
    simp only
    rw [add_sub_add_left_eq_sub, ← mul_sub, ← Finset.sum_sub_distrib, Finset.mul_sum]
    exact Finset.sum_congr rfl fun m _ => by ring
  unfold scov
  simp only [hdev i hi, hdev j hj, Finset.sum_mul_sum]
  rw [Finset.sum_comm, Finset.sum_div]
  refine Finset.sum_congr rfl fun m _ => ?_
  rw [Finset.sum_comm, Finset.sum_div]
  refine Finset.sum_congr rfl fun m' _ => ?_
  rw [← mul_div_assoc, Finset.mul_sum]
  congr 1
  exact Finset.sum_congr rfl fun r _ => by ring

/-! ### Ornstein–Uhlenbeck (C21) -/

variable {po : OUParams} {μ θ : List ℝ}

/-- What a successful OU sample looks like; which argument shapes are possible. -/
theorem ou_inv {s n : Nat} (hμ : po.mean = .row μ) (hθ : po.mrr = .row θ)
    (h : ouSample po x0 dt s n z = .ok a) :
    IsPaths a s μ.length n ∧ 0 < μ.length ∧
    (θ.length = 1 ∨ (θ.length = μ.length ∧ (n = 1 ∨ s = 0 ∨ n = 0))) ∧
    (po.vol.length = 1 ∨ po.vol.length = μ.length) ∧
    (∀ c < μ.length * n, a.get 0 c = x0.getD (c % x0.length) 0) ∧
    ∀ t q j, t < s → q < n → j < μ.length →
      path a μ.length q j (t + 1) = bentry μ j +
        (path a μ.length q j t - bentry μ j) * Real.exp (-(bentry θ j) * dt) +
        Real.sqrt (bentry po.vol j ^ 2 / (2 * bentry θ j) * (1 - Real.exp (-2 * bentry θ j * dt))) *
          shock po.L μ.length z (t * n + q) j := by
  unfold ouSample at h
  rw [hμ, hθ] at h
  simp only [OUAttr.toRow, OUAttr.shape1] at h
  obtain ⟨mt, hmt, h⟩ := bind_inv h
  obtain ⟨sc, hsc, h⟩ := bind_inv h
  obtain ⟨v, hv, h⟩ := bind_inv h
  cases hv
  obtain ⟨b, hb, h⟩ := bind_inv h
  obtain ⟨-, -, hsh, ⟨i1, i2⟩, i3, i4⟩ := increments_ok hb
  simp only [Int.toNat_natCast] at *
  obtain ⟨m1, m2, m3⟩ := bzip_ok hmt
  obtain ⟨s1, s2, s3⟩ := bzip_ok hsc
  rw [List.length_map] at m1 m2
  have hloc := hsh.loc
  have hscale := hsh.scale
  have hv0 := hsh.pos
  -- possible lengths
  have hθl : θ.length = 1 ∨ θ.length = μ.length := by
    rw [m2] at hloc
    split at hloc <;> omega
  have hvoll : po.vol.length = 1 ∨ po.vol.length = μ.length := by
    rw [s2] at hscale
    split at hscale <;> omega
  have hmt' : ∀ j < μ.length, bentry mt j = bentry μ j * (1 - Real.exp (-(bentry θ j) * dt)) := by
    intro j hj
    have hlen : mt.length = μ.length := by rw [m2]; split <;> omega
    rw [m3 j (by omega), bentry_map _ (hθl.symm) hj]
  have hsc' : ∀ j < μ.length, bentry sc j =
      Real.sqrt (bentry po.vol j ^ 2 / (2 * bentry θ j) * (1 - Real.exp (-2 * bentry θ j * dt))) := by
    intro j hj
    by_cases h1 : sc.length = 1
    · have hv1 : po.vol.length = 1 ∨ po.vol.length ≠ 1 := em _
      have e1 : bentry sc j = bentry sc 0 := by simp [bentry, h1]
      have e2 : bentry po.vol j = bentry po.vol 0 := by
        unfold bentry
        rcases hvoll with h2 | h2
        · rw [if_pos h2, if_pos h2]
        · rw [s2] at h1
          split at h1
          · rename_i h3; rw [if_pos h3, if_pos h3]
          · rename_i h3; exact absurd h1 h3
      have e3 : bentry θ j = bentry θ 0 := by
        unfold bentry
        by_cases h3 : θ.length = 1
        · rw [if_pos h3, if_pos h3]
        · rw [s2] at h1
          split at h1
          · exact absurd h1 h3
          · rename_i h4; exact absurd h1 h4
      rw [e1, e2, e3]
      exact s3 0 (by omega)
    · exact s3 j (by omega)
  split at h
  · rename_i hrows
    cases h
    refine ⟨⟨i1, i2⟩, hv0, ?_, hvoll, i3, fun t q j ht => by omega⟩
    rcases hθl with h1 | h1
    · exact Or.inl h1
    · exact Or.inr ⟨h1, by omega⟩
  · rename_i hrows
    obtain ⟨f, hf, h⟩ := bind_inv h
    cases h
    rw [bcastTo_ok] at hf
    obtain ⟨hf1, rfl⟩ := hf
    rw [List.length_map, i2] at hf1
    obtain ⟨l1, l2⟩ := ouLoop_shape (bentry (θ.map fun r => Real.exp (-r * dt))) b (b.rows - 1)
    have hn1 : θ.length = 1 ∨ (θ.length = μ.length ∧ (n = 1 ∨ s = 0 ∨ n = 0)) := by
      rcases hθl with h1 | h1
      · exact Or.inl h1
      · rcases hf1 with h2 | h2
        · right
          refine ⟨h1, Or.inl ?_⟩
          rw [h1] at h2
          have : μ.length * 1 = μ.length * n := by omega
          exact (Nat.eq_of_mul_eq_mul_left hv0 this).symm
        · exact Or.inl h2
    refine ⟨⟨by rw [l1, i1], by rw [l2, i2]⟩, hv0, hn1, hvoll, ?_, ?_⟩
    · intro c hc
      rw [(ouLoop_get (by rw [i2]; exact hc) _).1]
      exact i3 c hc
    · intro t q j ht hq hj
      have hc : q * μ.length + j < b.cols := by rw [i2]; exact col_lt hq hj
      have hrec := (ouLoop_get (f := bentry (θ.map fun r => Real.exp (-r * dt))) hc (b.rows - 1)).2.1 t
        (by omega)
      have hfac : bentry (θ.map fun r => Real.exp (-r * dt)) (q * μ.length + j) =
          Real.exp (-(bentry θ j) * dt) := by
        rcases hn1 with h1 | ⟨h1, h2⟩
        · rw [bentry_map (v := q * μ.length + j + 1) _ (Or.inr h1) (by omega)]
          simp [bentry, h1]
        · have : q = 0 := by omega
          subst this
          rw [Nat.zero_mul, Nat.zero_add, bentry_map (v := μ.length) _ (Or.inl h1) hj]
      have hinc := i4 t q j hq hj
      unfold path at hinc ⊢
      rw [hrec, hinc, hfac, hmt' j hj, hsc' j hj]
      ring

/-- C21. The OU recursion with the exact discretisation, for positive mean reversion rates (other rates
give `nan`, or are not mean reverting). -/
theorem ou_recursion {s n : Nat} (hμ : po.mean = .row μ) (hθ : po.mrr = .row θ)
    (_hpos : ∀ r ∈ θ, 0 < r) (h : ouSample po x0 dt s n z = .ok a) :
    IsPaths a s μ.length n ∧
    (∀ c < μ.length * n, a.get 0 c = x0.getD (c % x0.length) 0) ∧
    ∀ t q j, t < s → q < n → j < μ.length →
      path a μ.length q j (t + 1) = bentry μ j +
        (path a μ.length q j t - bentry μ j) * Real.exp (-(bentry θ j) * dt) +
        Real.sqrt (bentry po.vol j ^ 2 / (2 * bentry θ j) * (1 - Real.exp (-2 * bentry θ j * dt))) *
          shock po.L μ.length z (t * n + q) j := by
  obtain ⟨h1, -, -, -, h2, h3⟩ := ou_inv hμ hθ h
  exact ⟨h1, h2, h3⟩

theorem bentry_pos {l : List ℝ} {v j : Nat} (hl : l.length = v ∨ l.length = 1) (hj : j < v)
    (h : ∀ r ∈ l, 0 < r) : 0 < bentry l j := by
  unfold bentry
  split
  · rename_i h1
    rw [List.getD_eq_getElem _ _ (by omega)]
    exact h _ (List.getElem_mem _)
  · rw [List.getD_eq_getElem _ _ (by omega)]
    exact h _ (List.getElem_mem _)

/-- C21. Without volatility the distance to the mean decays geometrically: `X[t] - μ = (x0 - μ) e^{-θ dt t}`,
and strictly decreases in absolute value unless the path is at its mean. -/
theorem ou_noise_free {s n : Nat} (hμ : po.mean = .row μ) (hθ : po.mrr = .row θ) (hpos : ∀ r ∈ θ, 0 < r)
    (hv : ∀ x ∈ po.vol, x = 0) (hdt : 0 < dt) (h : ouSample po x0 dt s n z = .ok a) {q j : Nat}
    (hq : q < n) (hj : j < μ.length) {t : Nat} (ht : t ≤ s) :
    path a μ.length q j t - bentry μ j =
      (x0.getD ((q * μ.length + j) % x0.length) 0 - bentry μ j) * Real.exp (-(bentry θ j) * dt) ^ t ∧
    (t < s → path a μ.length q j t ≠ bentry μ j →
      |path a μ.length q j (t + 1) - bentry μ j| < |path a μ.length q j t - bentry μ j|) := by
  obtain ⟨-, -, hθl, -, h0, hrec⟩ := ou_inv hμ hθ h
  have hvz : bentry po.vol j = 0 := by
    unfold bentry
    split
    · rw [List.getD_eq_getElem?_getD]
      cases hh : po.vol[0]? with
      | none => rfl
      | some x => exact hv x (List.mem_of_getElem? hh)
    · rw [List.getD_eq_getElem?_getD]
      cases hh : po.vol[j]? with
      | none => rfl
      | some x => exact hv x (List.mem_of_getElem? hh)
  have hstep : ∀ t, t < s → path a μ.length q j (t + 1) - bentry μ j =
      (path a μ.length q j t - bentry μ j) * Real.exp (-(bentry θ j) * dt) := by
    intro t ht
    rw [hrec t q j ht hq hj, hvz]
    simp
  constructor
  · induction t with
    | zero =>
      have := h0 _ (col_lt hq hj)
      simp only [path, pow_zero, mul_one]
      rw [this]
    | succ t ih =>
      rw [hstep t (by omega), ih (by omega)]
      ring
  · intro ht hne
    rw [hstep t ht, abs_mul, abs_of_pos (Real.exp_pos _)]
    have h1 : 0 < bentry θ j := bentry_pos (v := μ.length) (by omega) hj hpos
    have h2 : Real.exp (-(bentry θ j) * dt) < 1 := by
      rw [Real.exp_lt_one_iff]
      nlinarith
    have h3 : 0 < |path a μ.length q j t - bentry μ j| := abs_pos.mpr (sub_ne_zero.mpr hne)
    nlinarith

/-- C21. The one-step variance is the one that keeps the stationary variance `σ² / 2θ`:
`(σ²/2θ) e^{-2θdt} + s² = σ²/2θ`, for the noise factor `s` of the sampler. -/
theorem ou_stationary_variance {σ r : ℝ} (hr : 0 < r) (hdt : 0 ≤ dt) :
    σ ^ 2 / (2 * r) * Real.exp (-r * dt) ^ 2 +
      Real.sqrt (σ ^ 2 / (2 * r) * (1 - Real.exp (-2 * r * dt))) ^ 2 = σ ^ 2 / (2 * r) := by
  have h1 : Real.exp (-2 * r * dt) ≤ 1 := by
    rw [Real.exp_le_one_iff]
    nlinarith [mul_nonneg hr.le hdt]
  have h2 : 0 ≤ σ ^ 2 / (2 * r) * (1 - Real.exp (-2 * r * dt)) :=
    mul_nonneg (by positivity) (by linarith)
  rw [Real.sq_sqrt h2, ← Real.exp_nat_mul, show ((2 : ℕ) : ℝ) * (-r * dt) = -2 * r * dt by push_cast; ring]
  ring

/-- C21 (defect). A vector-valued mean reversion rate cannot be used with several paths: for two or more
variates with individual rates, `num_paths ≥ 2` and `num_steps ≥ 1`, sampling always raises. -/
theorem ou_vector_rate_many_paths_fails {s n : Nat} (hμ : po.mean = .row μ) (hθ : po.mrr = .row θ)
    (h1 : 1 < θ.length) (hn : 2 ≤ n) (hs : 1 ≤ s) : ¬ ∃ a, ouSample po x0 dt s n z = .ok a := by
  rintro ⟨a, h⟩
  obtain ⟨-, -, h2, -⟩ := ou_inv hμ hθ h
  omega

/-- … although with one path the same object can be sampled. -/
example (z : Nat → ℝ) : ∃ a, ouSample ⟨.row [1, 2], .row [1, 2], [0.1, 0.2], none⟩ [0] 0.5 2 1 z = .ok a := by
  obtain ⟨b, hb⟩ := increments_eq 2 z (v := 2) (loc := [1 * (1 - Real.exp (-1 * 0.5)), 2 * (1 - Real.exp (-2 * 0.5))])
    (scale := [Real.sqrt (0.1 ^ 2 / (2 * 1) * (1 - Real.exp (-2 * 1 * 0.5))),
      Real.sqrt (0.2 ^ 2 / (2 * 2) * (1 - Real.exp (-2 * 2 * 0.5)))]) (L := none) (x0 := [0]) (p := 1)
    ⟨by norm_num, Or.inl rfl, Or.inl rfl, by simp, by norm_num, by norm_num⟩
  obtain ⟨-, -, -, ⟨i1, i2⟩, -⟩ := increments_ok hb
  simp only [Int.toNat_natCast] at i1 i2
  unfold ouSample
  simp only [OUAttr.toRow, OUAttr.shape1, bzip, List.map_cons, List.map_nil, List.length_cons, List.length_nil,
    if_true, List.zipWith_cons_cons, List.zipWith_nil_right, bind, Except.bind, Nat.reduceAdd]
  rw [show ((2 : Int)) = ((2 : Nat) : Int) from rfl, show ((1 : Int)) = ((1 : Nat) : Int) from rfl, hb]
  simp only
  rw [if_neg (by omega), (bcastTo_ok (f := bentry _)).mpr ⟨Or.inl (by rw [i2]; rfl), rfl⟩]
  exact ⟨_, rfl⟩

/-- C65 for Ornstein–Uhlenbeck paths. -/
theorem ou_causal {s s' n : Nat} {z' : Nat → ℝ} {a' : Arr} (hμ : po.mean = .row μ) (hθ : po.mrr = .row θ)
    (h : ouSample po x0 dt s n z = .ok a)
    (h' : ouSample po x0 dt s' n z' = .ok a') {q j T : Nat} (hq : q < n) (hj : j < μ.length)
    (hz : ∀ t < T, ∀ m < μ.length, z ((t * n + q) * μ.length + m) = z' ((t * n + q) * μ.length + m)) :
    ∀ t ≤ T, t ≤ s → t ≤ s' → path a μ.length q j t = path a' μ.length q j t := by
  obtain ⟨-, -, -, -, h0, hrec⟩ := ou_inv hμ hθ h
  obtain ⟨-, -, -, -, h0', hrec'⟩ := ou_inv hμ hθ h'
  intro t
  induction t with
  | zero =>
    intro _ _ _
    have e1 := h0 _ (col_lt hq hj)
    have e2 := h0' _ (col_lt hq hj)
    unfold path
    rw [e1, e2]
  | succ t ih =>
    intro h1 h2 h3
    rw [hrec t q j (by omega) hq hj, hrec' t q j (by omega) hq hj, ih (by omega) (by omega) (by omega)]
    congr 2
    have hi := hz t (by omega)
    unfold shock
    cases po.L with
    | none => exact hi j hj
    | some L => exact Finset.sum_congr rfl fun m hm => by rw [hi m (by simpa using hm)]

/-- C24 (second part). Once `mean` is a numpy scalar — which is what `fit` leaves — no call of the sampler
succeeds. -/
theorem ou_scalar_mean_fails {r : ℝ} (hμ : po.mean = .scalar r) (s n : Int) :
    ¬ ∃ a, ouSample po x0 dt s n z = .ok a := by
  rintro ⟨a, h⟩
  unfold ouSample at h
  rw [hμ] at h
  obtain ⟨_, _, h⟩ := bind_inv h
  obtain ⟨_, _, h⟩ := bind_inv h
  obtain ⟨_, hv, _⟩ := bind_inv h
  cases hv

end Verif.Sim
