import Verif.Lemmas.SimXPath
import Verif.Props.SimPaths
import Verif.Lemmas.Micro

/-!
# C89: simulation with special starting values and parameters

`nan` and infinite starting values, drifts, volatilities and mean reversion rates, and a mean reversion rate of zero.
-/

namespace Verif.Sim

variable {s n : Nat} {dt : ℝ} {z : Nat → ℝ} {a : XArr}

/-! ### Agreement with the model on real numbers -/

/-- C89. On numbers the Brownian sampler on floats is the sampler of C19. -/
theorem bm_sampleX_agrees (drift vol : List ℝ) (L : Option Arr) (x0 : List ℝ) (dt : ℝ) (s n : Int) (z : Nat → ℝ) :
    bmSampleX ⟨drift.map .fin, vol.map .fin, L⟩ (x0.map .fin) dt s n z = (bmSample ⟨drift, vol, L⟩ x0 dt s n z).map XArr.ofArr := by
  unfold bmSampleX bmSample
  dsimp only
  have e1 : (drift.map XF.fin).map (· * .fin dt) = (drift.map (· * dt)).map .fin := by
    simp only [List.map_map]; exact List.map_congr_left fun _ _ => rfl
  have e2 : (vol.map XF.fin).map (· * .fin (Real.sqrt dt)) = (vol.map (· * Real.sqrt dt)).map .fin := by
    simp only [List.map_map]; exact List.map_congr_left fun _ _ => rfl
  rw [e1, e2, List.length_map, incrementsX_fin]
  cases increments drift.length (drift.map (· * dt)) (vol.map (· * Real.sqrt dt)) L x0 s n z with
  | error e => rfl
  | ok b => exact congrArg Except.ok (cumsum_ofArr b)

theorem setX0X_fin (b : Arr) (x0 : List ℝ) : setX0X (XArr.ofArr b) (x0.map .fin) = (setX0 b x0).map XArr.ofArr := by
  unfold setX0X setX0 XArr.ofArr
  simp only [List.length_map]
  by_cases h1 : x0.length = 0
  · simp only [if_pos h1]; rfl
  simp only [if_neg h1]
  by_cases h2 : b.rows = 0
  · simp only [if_pos h2]; rfl
  simp only [if_neg h2]
  by_cases h3 : b.cols / x0.length * x0.length = b.cols
  · simp only [if_pos h3]
    show Except.ok _ = Except.ok _
    congr 1
    show XArr.mk _ _ _ = XArr.mk _ _ _
    congr 1
    funext k
    dsimp only
    by_cases h : k < b.cols
    · rw [if_pos h, if_pos h, List.getD_eq_getElem _ _ (by rw [List.length_map]; exact Nat.mod_lt _ (by omega)),
        List.getD_eq_getElem _ _ (Nat.mod_lt _ (by omega)), List.getElem_map]
    · rw [if_neg h, if_neg h]
  · simp only [if_neg h3]; rfl

theorem zeros_fin (r c : Int) : XArr.zeros r c = (Arr.zeros r c).map XArr.ofArr := by
  unfold XArr.zeros Arr.zeros
  split <;> rfl

theorem reshape_fin (b : Arr) (v : Nat) : (XArr.ofArr b).tail.reshapeCols v = (b.tail.reshapeCols v).map XArr.ofArr := by
  unfold XArr.reshapeCols Arr.reshapeCols XArr.tail Arr.tail XArr.ofArr
  dsimp only
  split
  · rfl
  split <;> rfl

theorem log_pos_map {x0 : List ℝ} (hx : ∀ x ∈ x0, 0 < x) : (x0.map XF.fin).map XF.log = (x0.map Real.log).map .fin := by
  simp only [List.map_map]
  refine List.map_congr_left fun x hm => ?_
  show XF.log (.fin x) = .fin (Real.log x)
  simp [XF.log, hx x hm]

/-- C89. On numbers, with positive starting values, the geometric sampler on floats is the sampler of C20. -/
theorem gbm_sampleX_agrees (drift vol : List ℝ) (L : Option Arr) {x0 : List ℝ} (hx : ∀ x ∈ x0, 0 < x) (dt : ℝ) (s n : Int)
    (z : Nat → ℝ) : gbmSampleX ⟨drift.map .fin, vol.map .fin, L⟩ (x0.map .fin) dt s n z =
      (gbmSample ⟨drift, vol, L⟩ x0 dt s n z).map XArr.ofArr := by
  unfold gbmSampleX gbmSample
  dsimp only
  have e2 : (vol.map XF.fin).map (· * .fin (Real.sqrt dt)) = (vol.map (· * Real.sqrt dt)).map .fin := by
    simp only [List.map_map]; exact List.map_congr_left fun _ _ => rfl
  have e3 : xzip (fun d v : XF => (d - .fin (1 / 2) * (v * v)) * .fin dt) (drift.map .fin) (vol.map .fin) =
      (bzip (fun d v : ℝ => (d - 0.5 * v ^ 2) * dt) drift vol).map (List.map .fin) := by
    refine xzip_fin (fun a b => ?_) _ _
    show XF.fin _ = XF.fin _
    congr 1
    norm_num
    left
    ring
  rw [log_pos_map hx, e2, e3, List.length_map, zeros_fin]
  cases h1 : Arr.zeros (s + 1) (drift.length * n) with
  | error e => rfl
  | ok b =>
    show (setX0X (XArr.ofArr b) _ >>= _) = Except.map _ (setX0 b _ >>= _)
    rw [setX0X_fin]
    cases h2 : setX0 b (x0.map Real.log) with
    | error e => rfl
    | ok b' =>
      show ((XArr.ofArr b).tail.reshapeCols _ >>= _) = Except.map _ (b.tail.reshapeCols _ >>= _)
      rw [reshape_fin]
      cases h3 : b.tail.reshapeCols drift.length with
      | error e => rfl
      | ok b'' =>
        cases h4 : bzip (fun d v : ℝ => (d - 0.5 * v ^ 2) * dt) drift vol with
        | error e => rfl
        | ok loc =>
          show (incrementsX _ (loc.map .fin) _ _ _ _ _ _ >>= _) = Except.map _ (increments _ loc _ _ _ _ _ _ >>= _)
          rw [incrementsX_fin]
          cases increments drift.length loc (vol.map (· * Real.sqrt dt)) L (x0.map Real.log) s n z with
          | error e => rfl
          | ok c =>
            show Except.ok ((XArr.ofArr c).cumsum.map XF.exp) = Except.ok _
            rw [cumsum_ofArr]
            rfl

theorem ouLoopX_fin {f : Nat → XF} {g : Nat → ℝ} {b : Arr} (hc : 0 < b.cols) (hfg : ∀ j < b.cols, f j = .fin (g j)) (m : Nat) :
    ouLoopX f (XArr.ofArr b) m = XArr.ofArr (ouLoop g b m) := by
  induction m with
  | zero => rfl
  | succ m ih =>
    rw [ouLoopX, ih, ouLoop]
    unfold ouStepX ouStep XArr.ofArr
    dsimp only
    congr 1
    funext k
    have e : (ouLoop g b m).cols = b.cols := (ouLoop_shape g b m).2
    by_cases hk : k / (ouLoop g b m).cols = m + 1
    · rw [if_pos hk, if_pos hk, hfg _ (by rw [e]; exact Nat.mod_lt _ hc)]
      rfl
    · rw [if_neg hk, if_neg hk]

theorem ou_scale_nonneg (v : ℝ) {r dt : ℝ} (hr : r ≠ 0) (hdt : 0 < dt) : 0 ≤ v ^ 2 / (2 * r) * (1 - Real.exp (-2 * r * dt)) := by
  rcases lt_or_gt_of_ne hr with h | h
  · refine mul_nonneg_of_nonpos_of_nonpos (div_nonpos_of_nonneg_of_nonpos (sq_nonneg _) (by linarith)) ?_
    have := Real.one_le_exp (show 0 ≤ -2 * r * dt by nlinarith)
    linarith
  · refine mul_nonneg (div_nonneg (sq_nonneg _) (by linarith)) ?_
    have := Real.exp_le_one_iff.mpr (show -2 * r * dt ≤ 0 by nlinarith)
    linarith

theorem xzip_fin_mem {f : XF → XF → XF} {g : ℝ → ℝ → ℝ} {l m : List ℝ} (h : ∀ a, ∀ b ∈ m, f (.fin a) (.fin b) = .fin (g a b)) :
    xzip f (l.map .fin) (m.map .fin) = (bzip g l m).map (List.map .fin) := by
  classical
  rw [← xzip_fin (f := fun x y => if ∃ a, ∃ b ∈ m, x = .fin a ∧ y = .fin b then f x y else
    match x, y with | .fin a, .fin b => .fin (g a b) | _, _ => .nan)]
  · have e : ∀ a, ∀ b ∈ m, f (.fin a) (.fin b) = (if ∃ a', ∃ b' ∈ m, XF.fin a = .fin a' ∧ XF.fin b = .fin b' then f (.fin a) (.fin b) else
        .fin (g a b)) := fun a b hb => by rw [if_pos ⟨a, b, hb, rfl, rfl⟩]
    unfold xzip
    simp only [List.length_map]
    by_cases h1 : l.length = m.length
    · rw [if_pos h1, if_pos h1]
      congr 1
      rw [List.zipWith_map, List.zipWith_map]
      apply List.ext_getElem
      · simp
      · intro i hi _
        rw [List.getElem_zipWith, List.getElem_zipWith]
        exact e _ _ (List.getElem_mem _)
    rw [if_neg h1, if_neg h1]
    by_cases h2 : l.length = 1
    · rw [if_pos h2, if_pos h2, List.getD_eq_getElem _ _ (by rw [List.length_map]; omega), List.getElem_map, List.map_map, List.map_map]
      congr 1
      exact List.map_congr_left fun b hb => e _ _ hb
    rw [if_neg h2, if_neg h2]
    by_cases h3 : m.length = 1
    · rw [if_pos h3, if_pos h3, List.getD_eq_getElem _ _ (by rw [List.length_map]; omega), List.getElem_map, List.map_map, List.map_map]
      congr 1
      exact List.map_congr_left fun b hb => e _ _ (List.getElem_mem _)
    rw [if_neg h3, if_neg h3]
  · intro a b
    by_cases hb : ∃ a', ∃ b' ∈ m, XF.fin a = .fin a' ∧ XF.fin b = .fin b'
    · rw [if_pos hb]
      obtain ⟨a', b', hm, h1, h2⟩ := hb
      cases h1
      cases h2
      exact h _ _ hm
    · rw [if_neg hb]

/-- C89. On numbers, with mean reversion rates other than zero, the Ornstein–Uhlenbeck sampler on floats is the sampler of C21. -/
theorem ou_sampleX_agrees (μ vol : List ℝ) (L : Option Arr) (x0 : List ℝ) {θ : List ℝ} (hθ : ∀ r ∈ θ, r ≠ 0) {dt : ℝ} (hdt : 0 < dt)
    (s n : Int) (z : Nat → ℝ) : ouSampleX ⟨μ.map .fin, θ.map .fin, vol.map .fin, L⟩ (x0.map .fin) dt s n z =
      (ouSample ⟨.row μ, .row θ, vol, L⟩ x0 dt s n z).map XArr.ofArr := by
  unfold ouSampleX ouSample
  simp only [OUAttr.toRow, OUAttr.shape1]
  have e1 : (θ.map XF.fin).map (fun r => (-r * .fin dt).exp) = (θ.map fun r => Real.exp (-r * dt)).map .fin := by
    simp only [List.map_map]; exact List.map_congr_left fun _ _ => rfl
  have e2 : xzip (fun m f : XF => m * (.fin 1 - f)) (μ.map .fin) ((θ.map fun r => Real.exp (-r * dt)).map .fin) =
      (bzip (fun m f : ℝ => m * (1 - f)) μ (θ.map fun r => Real.exp (-r * dt))).map (List.map .fin) :=
    xzip_fin (fun a b => by show XF.fin _ = XF.fin _; congr 1) _ _
  have e3 : xzip (fun v r : XF => (v * v / (.fin 2 * r) * (.fin 1 - (.fin (-2) * r * .fin dt).exp)).sqrt) (vol.map .fin) (θ.map .fin) =
      (bzip (fun v r : ℝ => Real.sqrt (v ^ 2 / (2 * r) * (1 - Real.exp (-2 * r * dt)))) vol θ).map (List.map .fin) := by
    refine xzip_fin_mem fun v r hr => ?_
    have h0 := hθ r hr
    show ((if 2 * r = 0 then XF.infSign (v * v) else .fin (v * v / (2 * r))) * XF.fin (1 + -Real.exp (-2 * r * dt))).sqrt = _
    rw [if_neg (by simpa using h0)]
    show XF.sqrt (.fin (v * v / (2 * r) * (1 + -Real.exp (-2 * r * dt)))) = _
    have hn := ou_scale_nonneg v h0 hdt
    have e : v * v / (2 * r) * (1 + -Real.exp (-2 * r * dt)) = v ^ 2 / (2 * r) * (1 - Real.exp (-2 * r * dt)) := by ring
    rw [e, XF.sqrt, if_neg (not_lt.mpr hn)]
  rw [e1, e2, e3, List.length_map]
  cases h1 : bzip (fun m f : ℝ => m * (1 - f)) μ (θ.map fun r => Real.exp (-r * dt)) with
  | error e => rfl
  | ok loc =>
    cases h2 : bzip (fun v r : ℝ => Real.sqrt (v ^ 2 / (2 * r) * (1 - Real.exp (-2 * r * dt)))) vol θ with
    | error e => rfl
    | ok sc =>
      show (incrementsX _ (loc.map .fin) (sc.map .fin) _ _ _ _ _ >>= _) = Except.map _ (increments _ loc sc _ _ _ _ _ >>= _)
      rw [incrementsX_fin]
      cases h3 : increments μ.length loc sc L x0 s n z with
      | error e => rfl
      | ok b =>
        show (if b.rows ≤ 1 then _ else _) = Except.map _ (if b.rows ≤ 1 then _ else _)
        by_cases hr : b.rows ≤ 1
        · rw [if_pos hr, if_pos hr]; rfl
        rw [if_neg hr, if_neg hr]
        unfold xbcast bcastTo
        simp only [List.length_map]
        show (if θ.length = b.cols ∨ θ.length = 1 then _ else _) >>= _ = _
        by_cases hl : θ.length = b.cols ∨ θ.length = 1
        swap
        · rw [if_neg hl, if_neg hl]; rfl
        rw [if_pos hl, if_pos hl]
        show Except.ok (ouLoopX _ _ _) = Except.ok _
        congr 1
        by_cases hc : 0 < b.cols
        · exact ouLoopX_fin hc (fun j hj => xentry_fin (by rw [List.length_map]; exact hl) hj) _
        · obtain ⟨-, -, ⟨g1, -⟩, ⟨-, g2⟩, -⟩ := increments_ok h3
          have hb0 : b.cols = 0 := by omega
          have : ∀ m, ouLoopX (xentry ((θ.map fun r => Real.exp (-r * dt)).map .fin)) (XArr.ofArr b) m =
              XArr.ofArr (ouLoop (bentry (θ.map fun r => Real.exp (-r * dt))) b m) := by
            intro m
            induction m with
            | zero => rfl
            | succ m ih =>
              rw [ouLoopX, ih, ouLoop]
              unfold ouStepX ouStep XArr.ofArr
              dsimp only
              congr 1
              funext k
              have e : (ouLoop (bentry (θ.map fun r => Real.exp (-r * dt))) b m).cols = b.cols := (ouLoop_shape _ b m).2
              rw [if_neg (by rw [e, hb0, Nat.div_zero]; omega), if_neg (by rw [e, hb0, Nat.div_zero]; omega)]
          exact this _

/-! ### What the samplers do on floats -/

variable {p : BMParamsX} {x0 : List XF}

/-- C89. The Brownian sampler on floats succeeds for the same shapes as on numbers, whatever the values. -/
theorem bmX_succeeds_iff (s n : Nat) :
    (∃ a, bmSampleX p x0 dt s n z = .ok a) ↔ ShapesX p.drift.length p.drift p.vol p.L x0 n := by
  constructor
  · rintro ⟨a, h⟩
    obtain ⟨b, hb, -⟩ := bind_inv h
    obtain ⟨⟨h1, h2, h3, h4, h5, h6⟩, -⟩ := incrementsX_ok hb
    rw [List.length_map] at h3
    exact ⟨h1, .inl rfl, h3, h4, h5, h6⟩
  · rintro ⟨h1, h2, h3, h4, h5, h6⟩
    have hb : ∃ b, noise p.drift.length (p.drift.map (· * .fin dt)) (p.vol.map (· * .fin (Real.sqrt dt))) p.L x0 s n z = .ok b := by
      unfold noise
      refine increments_eq s z ⟨h1, ?_, ?_, h4, ?_, ?_⟩
      · simp
      · simpa using h3
      · simpa using h5
      · simpa using h6
    obtain ⟨b, hb⟩ := hb
    unfold bmSampleX
    rw [incrementsX_eq, hb]
    exact ⟨_, rfl⟩

/-- C89. Brownian paths on floats: the start, and every step adds volatility times shock plus drift. -/
theorem bmX_steps (h : bmSampleX p x0 dt s n z = .ok a) :
    a.rows = s + 1 ∧ a.cols = p.drift.length * n ∧ (∀ c < p.drift.length * n, a.get 0 c = x0.getD (c % x0.length) .nan) ∧
    ∀ t q j, q < n → j < p.drift.length → a.get (t + 1) (q * p.drift.length + j) = a.get t (q * p.drift.length + j) +
      (.fin (shock p.L p.drift.length z (t * n + q) j) * (xentry p.vol j * .fin (Real.sqrt dt)) + xentry p.drift j * .fin dt) := by
  obtain ⟨b, hb, h⟩ := bind_inv h
  cases h
  obtain ⟨⟨h1, h2, h3, h4, h5, h6⟩, i1, i2, i3, i4⟩ := incrementsX_ok hb
  rw [List.length_map] at h3
  refine ⟨i1, i2, fun c hc => ?_, fun t q j hq hj => ?_⟩
  · rw [cumsumX_get (by rw [i2]; exact hc)]
    exact i3 c hc
  · have hc : q * p.drift.length + j < b.cols := by rw [i2]; exact col_lt hq hj
    rw [cumsumX_get hc, cumsumX_get hc, XArr.cumCol, i4 t q j hq hj, xentry_map _ h3 hj, xentry_map _ (.inl rfl) hj]

theorem gbmX_inv (h : gbmSampleX p x0 dt s n z = .ok a) :
    ∃ loc b, xzip (fun d v => (d - .fin (1 / 2) * (v * v)) * .fin dt) p.drift p.vol = .ok loc ∧
      incrementsX p.drift.length loc (p.vol.map (· * .fin (Real.sqrt dt))) p.L (x0.map XF.log) s n z = .ok b ∧
      a = b.cumsum.map XF.exp ∧ loc.length = p.drift.length := by
  unfold gbmSampleX at h
  obtain ⟨a0, -, h⟩ := bind_inv h
  obtain ⟨a1, -, h⟩ := bind_inv h
  obtain ⟨a2, -, h⟩ := bind_inv h
  obtain ⟨loc, hloc, h⟩ := bind_inv h
  obtain ⟨b, hb, h⟩ := bind_inv h
  cases h
  refine ⟨loc, b, hloc, hb, rfl, ?_⟩
  obtain ⟨⟨h1, h2, h3, -⟩, -⟩ := incrementsX_ok hb
  rw [List.length_map] at h3
  obtain ⟨g1, g2, -⟩ := xzip_ok hloc rfl
  rcases h2 with h2 | h2
  · exact h2
  · rw [g2] at h2 ⊢
    split_ifs at * <;> omega

/-- C89. The geometric sampler on floats succeeds for the same shapes, whatever the values: no starting value is rejected. -/
theorem gbmX_succeeds_iff (s n : Nat) :
    (∃ a, gbmSampleX p x0 dt s n z = .ok a) ↔ ShapesX p.drift.length p.drift p.vol p.L x0 n := by
  constructor
  · rintro ⟨a, h⟩
    obtain ⟨loc, b, -, hb, -⟩ := gbmX_inv h
    obtain ⟨⟨h1, h2, h3, h4, h5, h6⟩, -⟩ := incrementsX_ok hb
    rw [List.length_map] at h3 h5 h6
    exact ⟨h1, .inl rfl, h3, h4, h5, h6⟩
  · rintro ⟨h1, h2, h3, h4, h5, h6⟩
    obtain ⟨loc, hloc⟩ : ∃ loc, xzip (fun d v => (d - .fin (1 / 2) * (v * v)) * .fin dt) p.drift p.vol = .ok loc := by
      unfold xzip
      split
      · exact ⟨_, rfl⟩
      split
      · exact ⟨_, rfl⟩
      rw [if_pos (h3.resolve_left (by omega))]
      exact ⟨_, rfl⟩
    have hl : loc.length = p.drift.length := by
      obtain ⟨-, g2, -⟩ := xzip_ok hloc rfl
      rw [g2]
      split_ifs <;> omega
    have hb : ∃ b, noise p.drift.length loc (p.vol.map (· * .fin (Real.sqrt dt))) p.L (x0.map XF.log) s n z = .ok b := by
      unfold noise
      refine increments_eq s z ⟨h1, ?_, ?_, h4, ?_, ?_⟩
      · simp [hl]
      · simpa using h3
      · simpa using h5
      · simpa using h6
    obtain ⟨b, hb⟩ := hb
    obtain ⟨c, hc⟩ : ∃ c, incrementsX p.drift.length loc (p.vol.map (· * .fin (Real.sqrt dt))) p.L (x0.map XF.log) s n z = .ok c := by
      rw [incrementsX_eq, hb]
      exact ⟨_, rfl⟩
    have hc' := hc
    unfold incrementsX at hc'
    obtain ⟨a0, g0, hc'⟩ := bind_inv hc'
    obtain ⟨a1, g1, hc'⟩ := bind_inv hc'
    obtain ⟨a2, g2, -⟩ := bind_inv hc'
    have g3 : ∃ a3, a0.tail.reshapeCols p.drift.length = .ok a3 := by
      have e : a1.rows = a0.rows ∧ a1.cols = a0.cols := by
        unfold setX0X at g1
        split_ifs at g1
        cases g1
        exact ⟨rfl, rfl⟩
      unfold XArr.reshapeCols XArr.tail at g2 ⊢
      rw [e.1, e.2] at g2
      split_ifs at g2 ⊢
      exact ⟨_, rfl⟩
    obtain ⟨a3, g3⟩ := g3
    unfold gbmSampleX
    rw [g0]
    show ∃ a, (setX0X a0 _ >>= _) = _
    rw [g1]
    show ∃ a, (a0.tail.reshapeCols _ >>= _) = _
    rw [g3]
    show ∃ a, (xzip _ p.drift p.vol >>= _) = _
    rw [hloc]
    show ∃ a, (incrementsX _ loc _ _ _ _ _ _ >>= _) = _
    rw [hc]
    exact ⟨_, rfl⟩

/-- The exponent of a geometric Brownian path on floats, as its own path. -/
theorem gbmX_steps (h : gbmSampleX p x0 dt s n z = .ok a) :
    ∃ b : XArr, a = b.map XF.exp ∧ b.rows = s + 1 ∧ b.cols = p.drift.length * n ∧ 0 < x0.length ∧
    (∀ c < p.drift.length * n, b.get 0 c = (x0.getD (c % x0.length) .nan).log) ∧
    ∀ t q j, q < n → j < p.drift.length → b.get (t + 1) (q * p.drift.length + j) = b.get t (q * p.drift.length + j) +
      (.fin (shock p.L p.drift.length z (t * n + q) j) * (xentry p.vol j * .fin (Real.sqrt dt)) +
        (xentry p.drift j - .fin (1 / 2) * (xentry p.vol j * xentry p.vol j)) * .fin dt) := by
  obtain ⟨loc, b, hloc, hb, rfl, hl⟩ := gbmX_inv h
  obtain ⟨⟨h1, h2, h3, h4, h5, h6⟩, i1, i2, i3, i4⟩ := incrementsX_ok hb
  rw [List.length_map] at h3 h5
  obtain ⟨g1, -, g3⟩ := xzip_ok hloc rfl
  refine ⟨b.cumsum, rfl, i1, i2, h5, fun c hc => ?_, fun t q j hq hj => ?_⟩
  · rw [cumsumX_get (by rw [i2]; exact hc)]
    refine (i3 c hc).trans ?_
    have hlt : c % x0.length < x0.length := Nat.mod_lt _ h5
    rw [List.length_map, List.getD_eq_getElem _ _ (by rw [List.length_map]; exact hlt), List.getD_eq_getElem _ _ hlt, List.getElem_map]
  · have hc : q * p.drift.length + j < b.cols := by rw [i2]; exact col_lt hq hj
    rw [cumsumX_get hc, cumsumX_get hc, XArr.cumCol, i4 t q j hq hj, xentry_map _ h3 hj, g3 h3 j hj]

/-! ### Special starting values -/

theorem mapX_get (f : XF → XF) (b : XArr) (i j : Nat) : (b.map f).get i j = f (b.get i j) := rfl

theorem xentry_toX {l : List ℝ} {v j : Nat} (hl : l.length = v ∨ l.length = 1) (hj : j < v) : Fin' (xentry (l.map .fin) j) :=
  ⟨_, xentry_fin hl hj⟩

theorem special_add {w x : XF} (hw : ¬ Fin' w) (hx : Fin' x) : w + x = w := by
  obtain ⟨r, rfl⟩ := hx
  cases w with
  | fin y => exact absurd ⟨y, rfl⟩ hw
  | _ => rfl

/-- C89. With ordinary drifts and volatilities, a path started at `nan` or an infinity stays there. -/
theorem bm_special_start {drift vol : List ℝ} {L : Option Arr} (h : bmSampleX ⟨drift.map .fin, vol.map .fin, L⟩ x0 dt s n z = .ok a)
    {q j : Nat} (hq : q < n) (hj : j < drift.length) (hw : ¬ Fin' (x0.getD ((q * drift.length + j) % x0.length) .nan)) (t : Nat) :
    a.get t (q * drift.length + j) = x0.getD ((q * drift.length + j) % x0.length) .nan := by
  have hs := (bmX_succeeds_iff s n).mp ⟨a, h⟩
  obtain ⟨-, -, h0, hst⟩ := bmX_steps h
  simp only [List.length_map] at h0 hst
  have hv : vol.length = drift.length ∨ vol.length = 1 := by simpa using hs.scale
  induction t with
  | zero => exact h0 _ (col_lt hq hj)
  | succ t ih =>
    rw [hst t q j hq hj, ih, xentry_fin hv hj, xentry_fin (.inl rfl) hj]
    exact special_add hw ⟨_, rfl⟩

/-- C89. Special starting values do not reach other columns: a column started at a number is the same as in the sample on numbers. -/
theorem bm_special_start_others {drift vol : List ℝ} {L : Option Arr}
    (h : bmSampleX ⟨drift.map .fin, vol.map .fin, L⟩ x0 dt s n z = .ok a) {y0 : List ℝ} {b : Arr} (hl : y0.length = x0.length)
    (hb : bmSample ⟨drift, vol, L⟩ y0 dt s n z = .ok b) {q j : Nat} (hq : q < n) (hj : j < drift.length)
    (hw : x0.getD ((q * drift.length + j) % x0.length) .nan = .fin (y0.getD ((q * drift.length + j) % x0.length) 0)) (t : Nat) :
    a.get t (q * drift.length + j) = .fin (b.get t (q * drift.length + j)) := by
  have hX := bm_sampleX_agrees drift vol L y0 dt s n z
  rw [hb] at hX
  obtain ⟨-, -, h0, hst⟩ := bmX_steps h
  obtain ⟨-, -, g0, gst⟩ := bmX_steps hX
  simp only [List.length_map] at h0 hst g0 gst
  have hs := (bmX_succeeds_iff s n).mp ⟨a, h⟩
  show a.get t (q * drift.length + j) = (XArr.ofArr b).get t (q * drift.length + j)
  induction t with
  | zero =>
    rw [h0 _ (col_lt hq hj), g0 _ (col_lt hq hj), hw, hl]
    have hlt : (q * drift.length + j) % x0.length < y0.length := by rw [hl]; exact Nat.mod_lt _ hs.start
    rw [List.getD_eq_getElem _ _ hlt, List.getD_eq_getElem _ _ (by rw [List.length_map]; exact hlt), List.getElem_map]
  | succ t ih => rw [hst t q j hq hj, ih, gst t q j hq hj]

/-- What a geometric path does that starts at `w`: positive numbers give positive numbers; zero stays zero; infinity stays; negative
numbers, negative infinity and `nan` give `nan` throughout, the first row included. -/
def GBMFate (w : XF) (f : Nat → XF) : Prop :=
  match w with
  | .fin r => (0 < r → ∀ t, ∃ y, 0 < y ∧ f t = .fin y) ∧ (r = 0 → ∀ t, f t = .fin 0) ∧ (r < 0 → ∀ t, f t = .nan)
  | .pinf => ∀ t, f t = .pinf
  | _ => ∀ t, f t = .nan

/-- C89. The values of a geometric path by its starting value. The documented "simulated values are always positive" holds exactly for
positive starting numbers. -/
theorem gbm_special_start {drift vol : List ℝ} {L : Option Arr} (h : gbmSampleX ⟨drift.map .fin, vol.map .fin, L⟩ x0 dt s n z = .ok a)
    {q j : Nat} (hq : q < n) (hj : j < drift.length) :
    GBMFate (x0.getD ((q * drift.length + j) % x0.length) .nan) fun t => a.get t (q * drift.length + j) := by
  obtain ⟨loc, b', hloc, hb', -, -⟩ := gbmX_inv h
  have hv : vol.length = drift.length ∨ vol.length = 1 := by simpa using (incrementsX_ok hb').1.scale
  obtain ⟨b, rfl, -, -, -, h0, hst⟩ := gbmX_steps h
  simp only [List.length_map] at h0 hst
  replace h0 := h0 _ (col_lt hq hj)
  have hst' : ∀ t, ∃ r, b.get (t + 1) (q * drift.length + j) = b.get t (q * drift.length + j) + .fin r := by
    intro t
    rw [hst t q j hq hj, xentry_fin hv hj, xentry_fin (.inl rfl) hj]
    exact ⟨_, rfl⟩
  simp only [mapX_get]
  have stay : ∀ w : XF, ¬ Fin' w → b.get 0 (q * drift.length + j) = w → ∀ t, b.get t (q * drift.length + j) = w := by
    intro w hw e t
    induction t with
    | zero => exact e
    | succ t ih =>
      obtain ⟨r, hr⟩ := hst' t
      rw [hr, ih]
      exact special_add hw ⟨r, rfl⟩
  have hnf : ∀ w, w = XF.nan ∨ w = .pinf ∨ w = .ninf → ¬ Fin' w := by rintro w (rfl | rfl | rfl) ⟨r, hr⟩ <;> cases hr
  generalize x0.getD ((q * drift.length + j) % x0.length) .nan = w at h0 ⊢
  cases w with
  | nan => intro t; beta_reduce; rw [stay _ (hnf _ (.inl rfl)) h0 t]; rfl
  | ninf => intro t; beta_reduce; rw [stay .nan (hnf _ (.inl rfl)) h0 t]; rfl
  | pinf => intro t; beta_reduce; rw [stay .pinf (hnf _ (.inr (.inl rfl))) h0 t]; rfl
  | fin r =>
    refine ⟨fun hr => ?_, fun hr t => ?_, fun hr t => ?_⟩
    · have : ∀ t, Fin' (b.get t (q * drift.length + j)) := by
        intro t
        induction t with
        | zero => rw [h0]; exact ⟨Real.log r, by simp [XF.log, hr]⟩
        | succ t ih =>
          obtain ⟨y, hy⟩ := ih
          obtain ⟨r', hr'⟩ := hst' t
          rw [hr', hy]
          exact ⟨_, rfl⟩
      intro t
      obtain ⟨y, hy⟩ := this t
      exact ⟨Real.exp y, Real.exp_pos y, by beta_reduce; rw [hy]; rfl⟩
    · beta_reduce
      rw [stay .ninf (hnf _ (.inr (.inr rfl))) (by rw [h0, hr]; simp [XF.log]) t]
      rfl
    · beta_reduce
      rw [stay .nan (hnf _ (.inl rfl)) (by rw [h0]; simp [XF.log, hr.ne, not_lt.mpr hr.le]) t]
      rfl

/-! ### Missing parameters -/

/-- C89. A drift or volatility of `nan` makes every value after the first row `nan`, in every path of that variable. -/
theorem bm_nan_parameter (h : bmSampleX p x0 dt s n z = .ok a) {q j : Nat} (hq : q < n) (hj : j < p.drift.length)
    (hnan : xentry p.drift j = .nan ∨ xentry p.vol j = .nan) (t : Nat) : a.get (t + 1) (q * p.drift.length + j) = .nan := by
  obtain ⟨-, -, -, hst⟩ := bmX_steps h
  rw [hst t q j hq hj]
  rcases hnan with e | e
  · rw [e]
    generalize a.get t _ = u
    generalize XF.fin _ * _ = w
    show u + (w + (.nan : XF)) = .nan
    cases w <;> cases u <;> rfl
  · rw [e]
    generalize a.get t _ = u
    generalize xentry p.drift j * XF.fin dt = w
    show u + ((.nan : XF) + w) = .nan
    cases w <;> cases u <;> rfl

/-- C89. The same for geometric Brownian motion. -/
theorem gbm_nan_parameter (h : gbmSampleX p x0 dt s n z = .ok a) {q j : Nat} (hq : q < n) (hj : j < p.drift.length)
    (hnan : xentry p.drift j = .nan ∨ xentry p.vol j = .nan) (t : Nat) : a.get (t + 1) (q * p.drift.length + j) = .nan := by
  obtain ⟨b, rfl, -, -, -, -, hst⟩ := gbmX_steps h
  rw [mapX_get, hst t q j hq hj]
  rcases hnan with e | e
  · rw [e]
    generalize b.get t _ = u
    generalize XF.fin (shock _ _ _ _ _) * _ = w
    have : ((.nan : XF) - .fin (1 / 2) * (xentry p.vol j * xentry p.vol j)) * .fin dt = .nan := by
      generalize XF.fin (1 / 2) * _ = v
      cases v <;> rfl
    rw [this]
    cases w <;> cases u <;> rfl
  · rw [e]
    generalize b.get t _ = u
    have : (xentry p.drift j - .fin (1 / 2) * ((.nan : XF) * .nan)) * .fin dt = .nan := by
      generalize xentry p.drift j = v
      cases v <;> rfl
    rw [this]
    show XF.exp (u + ((.nan : XF) + .nan)) = .nan
    cases u <;> rfl

/-- C89. One variable's values depend only on its own parameters and starting values: two samples with the same draws and correlations
agree on every variable whose parameters and starts agree, whatever happens to the others. -/
theorem bm_columns_local {p' : BMParamsX} {x0' : List XF} {a' : XArr} (h : bmSampleX p x0 dt s n z = .ok a)
    (h' : bmSampleX p' x0' dt s n z = .ok a') (hlen : p'.drift.length = p.drift.length) (hL : p'.L = p.L) {q j : Nat} (hq : q < n)
    (hj : j < p.drift.length) (hd : xentry p'.drift j = xentry p.drift j) (hv : xentry p'.vol j = xentry p.vol j)
    (hx : x0'.getD ((q * p.drift.length + j) % x0'.length) .nan = x0.getD ((q * p.drift.length + j) % x0.length) .nan) (t : Nat) :
    a'.get t (q * p.drift.length + j) = a.get t (q * p.drift.length + j) := by
  obtain ⟨-, -, h0, hst⟩ := bmX_steps h
  obtain ⟨-, -, g0, gst⟩ := bmX_steps h'
  rw [hlen] at g0 gst
  rw [hL] at gst
  induction t with
  | zero => rw [h0 _ (col_lt hq hj), g0 _ (col_lt hq hj), hx]
  | succ t ih => rw [hst t q j hq hj, gst t q j hq hj, ih, hd, hv]

/-- C89. The same for geometric Brownian motion. -/
theorem gbm_columns_local {p' : BMParamsX} {x0' : List XF} {a' : XArr} (h : gbmSampleX p x0 dt s n z = .ok a)
    (h' : gbmSampleX p' x0' dt s n z = .ok a') (hlen : p'.drift.length = p.drift.length) (hL : p'.L = p.L) {q j : Nat} (hq : q < n)
    (hj : j < p.drift.length) (hd : xentry p'.drift j = xentry p.drift j) (hv : xentry p'.vol j = xentry p.vol j)
    (hx : x0'.getD ((q * p.drift.length + j) % x0'.length) .nan = x0.getD ((q * p.drift.length + j) % x0.length) .nan) (t : Nat) :
    a'.get t (q * p.drift.length + j) = a.get t (q * p.drift.length + j) := by
  obtain ⟨b, rfl, -, -, -, h0, hst⟩ := gbmX_steps h
  obtain ⟨b', rfl, -, -, -, g0, gst⟩ := gbmX_steps h'
  rw [hlen] at g0 gst
  rw [hL] at gst
  have key : b'.get t (q * p.drift.length + j) = b.get t (q * p.drift.length + j) := by
    induction t with
    | zero => rw [h0 _ (col_lt hq hj), g0 _ (col_lt hq hj), hx]
    | succ t ih => rw [hst t q j hq hj, gst t q j hq hj, ih, hd, hv]
  exact congrArg XF.exp key

/-! ### Ornstein–Uhlenbeck -/

theorem ouLoopX_shape (f : Nat → XF) (a : XArr) (m : Nat) : (ouLoopX f a m).rows = a.rows ∧ (ouLoopX f a m).cols = a.cols := by
  induction m with
  | zero => exact ⟨rfl, rfl⟩
  | succ m ih => exact ih

theorem ouStepX_get {f : Nat → XF} {a : XArr} {i t j : Nat} (hj : j < a.cols) :
    (ouStepX f a i).get t j = if t = i + 1 then a.get t j + a.get i j * f j else a.get t j := by
  simp only [ouStepX, XArr.get, flat_div t hj, flat_mod t hj]
  split
  · rename_i h
    subst h
    congr 3
    rw [Nat.succ_mul]
    omega
  · rfl

theorem ouLoopX_get {f : Nat → XF} {a : XArr} {j : Nat} (hj : j < a.cols) (m : Nat) :
    (ouLoopX f a m).get 0 j = a.get 0 j ∧
    (∀ t < m, (ouLoopX f a m).get (t + 1) j = a.get (t + 1) j + (ouLoopX f a m).get t j * f j) ∧
    ∀ t, m < t → (ouLoopX f a m).get t j = a.get t j := by
  induction m with
  | zero => exact ⟨rfl, by omega, fun _ _ => rfl⟩
  | succ m ih =>
    obtain ⟨h1, h2, h3⟩ := ih
    have hj' : j < (ouLoopX f a m).cols := by rw [(ouLoopX_shape f a m).2]; exact hj
    refine ⟨?_, ?_, ?_⟩
    · rw [ouLoopX, ouStepX_get hj', if_neg (by omega), h1]
    · intro t ht
      rw [ouLoopX, ouStepX_get hj', ouStepX_get hj']
      by_cases e : t = m
      · subst e
        rw [if_pos rfl, if_neg (by omega), h3 _ (by omega)]
      · rw [if_neg (by omega), if_neg (by omega), h2 t (by omega)]
    · intro t ht
      rw [ouLoopX, ouStepX_get hj', if_neg (by omega), h3 t (by omega)]

/-- C89. Ornstein–Uhlenbeck paths on floats: the start and every step. -/
theorem ouX_steps {p : OUParamsX} (h : ouSampleX p x0 dt s n z = .ok a) :
    a.rows = s + 1 ∧ a.cols = p.mean.length * n ∧ (∀ c < p.mean.length * n, a.get 0 c = x0.getD (c % x0.length) .nan) ∧
    ∃ scale loc, xzip (fun v r => (v * v / (.fin 2 * r) * (.fin 1 - (.fin (-2) * r * .fin dt).exp)).sqrt) p.vol p.mrr = .ok scale ∧
      xzip (fun m f => m * (.fin 1 - f)) p.mean (p.mrr.map fun r => (-r * .fin dt).exp) = .ok loc ∧
    ∀ t < s, ∀ q j, q < n → j < p.mean.length → a.get (t + 1) (q * p.mean.length + j) =
      (.fin (shock p.L p.mean.length z (t * n + q) j) * xentry scale j + xentry loc j) +
        a.get t (q * p.mean.length + j) * xentry (p.mrr.map fun r => (-r * .fin dt).exp) (q * p.mean.length + j) := by
  unfold ouSampleX at h
  obtain ⟨loc, hloc, h⟩ := bind_inv h
  obtain ⟨scale, hscale, h⟩ := bind_inv h
  obtain ⟨b, hb, h⟩ := bind_inv h
  obtain ⟨-, i1, i2, i3, i4⟩ := incrementsX_ok hb
  by_cases hr : b.rows ≤ 1
  · rw [if_pos hr] at h
    cases h
    exact ⟨i1, i2, i3, scale, loc, hscale, hloc, fun t ht => by omega⟩
  · rw [if_neg hr] at h
    obtain ⟨f, hf, h⟩ := bind_inv h
    cases h
    have hfe : f = xentry (p.mrr.map fun r => (-r * .fin dt).exp) := by
      unfold xbcast at hf
      split at hf
      · cases hf; rfl
      · cases hf
    obtain ⟨e1, e2⟩ := ouLoopX_shape f b (b.rows - 1)
    refine ⟨e1.trans i1, e2.trans i2, fun c hc => ?_, scale, loc, hscale, hloc, fun t ht q j hq hj => ?_⟩
    · rw [(ouLoopX_get (by rw [i2]; exact hc) _).1]
      exact i3 c hc
    · rw [(ouLoopX_get (by rw [i2]; exact col_lt hq hj) _).2.1 t (by omega), i4 t q j hq hj, hfe]

theorem ou_zero_scale (v : XF) (dt : ℝ) :
    (v * v / (.fin 2 * .fin 0) * (.fin 1 - (.fin (-2) * .fin 0 * XF.fin dt).exp)).sqrt = .nan := by
  have e1 : (.fin 2 * .fin 0 : XF) = .fin 0 := by show XF.fin _ = XF.fin _; rw [mul_zero]
  have e2 : (XF.fin 1 - (XF.fin (-2) * XF.fin 0 * XF.fin dt).exp) = XF.fin 0 := by
    show XF.fin (1 + -Real.exp (-2 * 0 * dt)) = XF.fin 0
    rw [mul_zero, zero_mul, Real.exp_zero]; norm_num
  rw [e1, e2]
  have key : ∀ u : XF, ¬ Fin' u → u * .fin 0 = .nan := by
    intro u hu
    cases u with
    | fin r => exact absurd ⟨r, rfl⟩ hu
    | nan => rfl
    | pinf => show XF.infSign 0 = _; simp [XF.infSign]
    | ninf => show XF.infSign (-0) = _; simp [XF.infSign]
  have : ¬ Fin' (v * v / .fin 0) := by
    rintro ⟨r, hr⟩
    obtain ⟨-, -, ⟨y, hy, hne, -⟩ | ⟨h | h, -⟩⟩ := XF.div_eq_fin hr
    · cases hy; exact hne rfl
    · cases h
    · cases h
  rw [key _ this]
  rfl

/-- C89. A mean reversion rate of zero is not the Brownian limit: every value after the first row is `nan`, for every volatility, mean
and start. -/
theorem ou_zero_rate {p : OUParamsX} (h : ouSampleX p x0 dt s n z = .ok a) {j : Nat} (hr : xentry p.mrr j = .fin 0)
    (hl : p.vol.length = p.mean.length) (hm : p.mrr.length = p.mean.length ∨ p.mrr.length = 1) {q : Nat} (hq : q < n)
    (hj : j < p.mean.length) {t : Nat} (ht : t < s) : a.get (t + 1) (q * p.mean.length + j) = .nan := by
  obtain ⟨-, -, -, scale, loc, hscale, hloc, hst⟩ := ouX_steps h
  obtain ⟨-, -, h3⟩ := xzip_ok hscale hl
  rw [hst t ht q j hq hj, h3 hm j hj, hr, ou_zero_scale]
  generalize xentry loc j = u
  generalize a.get t _ * _ = w
  show ((.nan : XF) + u) + w = .nan
  cases u <;> cases w <;> rfl

/-- C89. With ordinary parameters and rates other than zero, an Ornstein–Uhlenbeck path started at `nan` or an infinity stays there:
infinities do not revert. -/
theorem ou_special_start {μ θ vol : List ℝ} {L : Option Arr} (hθ : ∀ r ∈ θ, r ≠ 0) (hdt : 0 < dt)
    (h : ouSampleX ⟨μ.map .fin, θ.map .fin, vol.map .fin, L⟩ x0 dt s n z = .ok a) (hv : vol.length = μ.length)
    (hm : θ.length = μ.length * n ∨ θ.length = 1) (hm' : θ.length = μ.length ∨ θ.length = 1) {q j : Nat} (hq : q < n) (hj : j < μ.length)
    (hw : ¬ Fin' (x0.getD ((q * μ.length + j) % x0.length) .nan)) {t : Nat} (ht : t ≤ s) :
    a.get t (q * μ.length + j) = x0.getD ((q * μ.length + j) % x0.length) .nan := by
  obtain ⟨-, -, h0, scale, loc, hscale, hloc, hst⟩ := ouX_steps h
  simp only [List.length_map] at h0 hst
  obtain ⟨-, -, h3⟩ := xzip_ok hscale (v := μ.length) (by rw [List.length_map]; exact hv)
  obtain ⟨-, -, h4⟩ := xzip_ok hloc (v := μ.length) (by rw [List.length_map])
  induction t with
  | zero => exact h0 _ (col_lt hq hj)
  | succ t ih =>
    have hc : q * μ.length + j < μ.length * n := col_lt hq hj
    rw [hst t (by omega) q j hq hj, ih (by omega), h3 (by simpa using hm') j hj, h4 (by simpa using hm') j hj]
    rw [xentry_map _ (v := μ.length * n) (by simpa using hm) hc, xentry_map _ (v := μ.length) (by simpa using hm') hj, xentry_fin hm hc,
      xentry_fin hm' hj, xentry_fin (.inl hv) hj, xentry_fin (.inl rfl) hj]
    have hr : bentry θ j ≠ 0 := by
      unfold bentry
      split
      · rw [List.getD_eq_getElem _ _ (by omega)]; exact hθ _ (List.getElem_mem _)
      · rw [List.getD_eq_getElem _ _ (by omega)]; exact hθ _ (List.getElem_mem _)
    have e : ∀ v r : ℝ, r ≠ 0 → Fin' ((XF.fin v * XF.fin v / (.fin 2 * XF.fin r) * (.fin 1 - (.fin (-2) * XF.fin r * XF.fin dt).exp)).sqrt) := by
      intro v r h0
      show Fin' (((if 2 * r = 0 then XF.infSign (v * v) else .fin (v * v / (2 * r))) * XF.fin (1 + -Real.exp (-2 * r * dt))).sqrt)
      rw [if_neg (by simpa using h0)]
      show Fin' (XF.sqrt (.fin (v * v / (2 * r) * (1 + -Real.exp (-2 * r * dt)))))
      have hn := ou_scale_nonneg v h0 hdt
      have e : v * v / (2 * r) * (1 + -Real.exp (-2 * r * dt)) = v ^ 2 / (2 * r) * (1 - Real.exp (-2 * r * dt)) := by ring
      rw [e, XF.sqrt, if_neg (not_lt.mpr hn)]
      exact ⟨_, rfl⟩
    obtain ⟨u, hu⟩ := e (bentry vol j) (bentry θ j) hr
    rw [hu]
    have hf : (-XF.fin (bentry θ (q * μ.length + j)) * XF.fin dt).exp = XF.fin (Real.exp (-bentry θ (q * μ.length + j) * dt)) := rfl
    rw [hf]
    have hp := Real.exp_pos (-bentry θ (q * μ.length + j) * dt)
    generalize Real.exp (-bentry θ (q * μ.length + j) * dt) = f at hp
    have hk : ∀ w : XF, ¬ Fin' w → w * .fin f = w := by
      intro w hw
      cases w with
      | fin r => exact absurd ⟨r, rfl⟩ hw
      | nan => rfl
      | pinf => show XF.infSign f = _; simp [XF.infSign, hp]
      | ninf => show XF.infSign (-f) = _; simp [XF.infSign, hp, hp.le]
    rw [hk _ hw]
    generalize x0.getD ((q * μ.length + j) % x0.length) .nan = w at hw ⊢
    cases w with
    | fin r => exact absurd ⟨r, rfl⟩ hw
    | _ => rfl

/-- C89. Special starting values do not reach other columns of an Ornstein–Uhlenbeck sample: two samples with the same parameters and
draws agree on every column with the same start, whatever the other starts are. -/
theorem ou_special_start_others {p : OUParamsX} {x0' : List XF} {a' : XArr} (h : ouSampleX p x0 dt s n z = .ok a)
    (h' : ouSampleX p x0' dt s n z = .ok a') {q j : Nat} (hq : q < n) (hj : j < p.mean.length)
    (hx : x0'.getD ((q * p.mean.length + j) % x0'.length) .nan = x0.getD ((q * p.mean.length + j) % x0.length) .nan) {t : Nat}
    (ht : t ≤ s) : a'.get t (q * p.mean.length + j) = a.get t (q * p.mean.length + j) := by
  obtain ⟨-, -, h0, sc, loc, e1, e2, hst⟩ := ouX_steps h
  obtain ⟨-, -, g0, sc', loc', e1', e2', gst⟩ := ouX_steps h'
  rw [e1] at e1'
  rw [e2] at e2'
  cases e1'
  cases e2'
  induction t with
  | zero => rw [h0 _ (col_lt hq hj), g0 _ (col_lt hq hj), hx]
  | succ t ih => rw [hst t (by omega) q j hq hj, gst t (by omega) q j hq hj, ih (by omega)]

/-! ### Concrete cases -/

/-- Two variables, the first started at a number and the second at `nan`: one column of numbers and one of `nan`. -/
example (z : Nat → ℝ) : ∃ a, bmSampleX ⟨[.fin 1, .fin 2], [.fin 3, .fin 4], none⟩ [.fin 5, .nan] 1 10 1 z = .ok a ∧
    a.get 0 0 = .fin 5 ∧ (∀ t, Fin' (a.get t 0)) ∧ ∀ t, a.get t 1 = .nan := by
  obtain ⟨a, h⟩ := (bmX_succeeds_iff (p := ⟨[.fin 1, .fin 2], [.fin 3, .fin 4], none⟩) (x0 := [.fin 5, .nan]) (dt := 1) (z := z) 10 1).mpr
    ⟨by norm_num, .inl rfl, .inl rfl, by simp, by norm_num, by norm_num⟩
  obtain ⟨b, hb⟩ := (bm_succeeds_iff (p := ⟨[1, 2], [3, 4], none⟩) (x0 := [5, 0]) (dt := 1) (z := z) 10 1).mpr
    ⟨by norm_num, by norm_num, by norm_num, .inl rfl, by simp, by norm_num, by norm_num⟩
  refine ⟨a, h, ?_, fun t => ?_, fun t => ?_⟩
  · exact (bmX_steps h).2.2.1 0 (by norm_num)
  · exact ⟨_, bm_special_start_others (drift := [1, 2]) (vol := [3, 4]) (q := 0) (j := 0) h (y0 := [5, 0]) rfl hb (by norm_num)
      (by norm_num) rfl t⟩
  · exact bm_special_start (drift := [1, 2]) (vol := [3, 4]) (q := 0) (j := 1) h (by norm_num) (by norm_num)
      (by rintro ⟨r, hr⟩; cases hr) t

/-- Started at a negative number, a geometric Brownian motion is `nan` from the first row on; started at zero it stays zero. -/
example (z : Nat → ℝ) : ∃ a, gbmSampleX ⟨[.fin 1, .fin 2], [.fin 3, .fin 4], none⟩ [.fin (-5), .fin 0] 1 10 1 z = .ok a ∧
    (∀ t, a.get t 0 = .nan) ∧ ∀ t, a.get t 1 = .fin 0 := by
  obtain ⟨a, h⟩ := (gbmX_succeeds_iff (p := ⟨[.fin 1, .fin 2], [.fin 3, .fin 4], none⟩) (x0 := [.fin (-5), .fin 0]) (dt := 1) (z := z) 10
    1).mpr ⟨by norm_num, .inl rfl, .inl rfl, by simp, by norm_num, by norm_num⟩
  have h0 := gbm_special_start (drift := [1, 2]) (vol := [3, 4]) (q := 0) (j := 0) h (by norm_num) (by norm_num)
  have h1 := gbm_special_start (drift := [1, 2]) (vol := [3, 4]) (q := 0) (j := 1) h (by norm_num) (by norm_num)
  exact ⟨a, h, h0.2.2 (by norm_num), h1.2.1 rfl⟩

/-- A rate of zero: the start, then `nan`. -/
example (z : Nat → ℝ) : ∃ a, ouSampleX ⟨[.fin 1], [.fin 0], [.fin 2], none⟩ [.fin 5] 1 10 1 z = .ok a ∧
    a.get 0 0 = .fin 5 ∧ ∀ t < 10, a.get (t + 1) 0 = .nan := by
  have hs : ∃ a, ouSampleX ⟨[.fin 1], [.fin 0], [.fin 2], none⟩ [.fin 5] 1 10 1 z = .ok a := by
    obtain ⟨b, hb⟩ := increments_eq 10 z (v := 1) (loc := [0]) (scale := [1]) (L := none) (x0 := [0]) (p := 1)
      ⟨by norm_num, Or.inl rfl, Or.inl rfl, by simp, by norm_num, by norm_num⟩
    obtain ⟨-, -, -, ⟨i1, i2⟩, -⟩ := increments_ok hb
    unfold ouSampleX
    simp only [xzip, List.map, List.length_cons, List.length_nil, if_true, List.zipWith, bind, Except.bind, incrementsX_eq, noise]
    simp only [Nat.cast_ofNat, Nat.cast_one] at hb i1 i2
    rw [hb]
    simp only [Except.map]
    rw [if_neg (by rw [i1]; decide)]
    simp only [xbcast, List.length_cons, List.length_nil]
    rw [if_pos (by simp)]
    exact ⟨_, rfl⟩
  obtain ⟨a, h⟩ := hs
  exact ⟨a, h, (ouX_steps h).2.2.1 0 (by norm_num), fun t ht => ou_zero_rate (q := 0) (j := 0) h rfl rfl (.inl rfl) (by norm_num) (by norm_num) ht⟩

end Verif.Sim
