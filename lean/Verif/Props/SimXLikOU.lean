import Verif.Props.SimXLik
import Verif.Model.SimBase

/-!
# C97: the Ornstein–Uhlenbeck likelihood and calibration on data with missing or infinite values, and the scores
-/

namespace Verif.Sim

open Verif.Cov (Mat Pair)

variable {eigh : (d : Nat) → Mat d → List (Pair d)} {x : XArr} {cor : Option Arr} {dt : ℝ} {v : XF}

theorem ou_terms_fin (μ vol : List ℝ) {θ : List ℝ} (hθ : ∀ r ∈ θ, r ≠ 0) (hdt : 0 < dt) :
    ((θ.map XF.fin).map (fun r => (-r * .fin dt).exp) = (θ.map fun r => Real.exp (-r * dt)).map .fin) ∧
    (xzip (fun m f : XF => m * (.fin 1 - f)) (μ.map .fin) ((θ.map fun r => Real.exp (-r * dt)).map .fin) =
      (bzip (fun m f : ℝ => m * (1 - f)) μ (θ.map fun r => Real.exp (-r * dt))).map (List.map .fin)) ∧
    (xzip (fun v r : XF => (v * v / (.fin 2 * r) * (.fin 1 - (.fin (-2) * r * .fin dt).exp)).sqrt) (vol.map .fin) (θ.map .fin) =
      (bzip (fun v r : ℝ => Real.sqrt (v ^ 2 / (2 * r) * (1 - Real.exp (-2 * r * dt)))) vol θ).map (List.map .fin)) := by
  refine ⟨?_, xzip_fin (fun a b => by show XF.fin _ = XF.fin _; congr 1) _ _, xzip_fin_mem fun v r hr => ?_⟩
  · simp only [List.map_map]; exact List.map_congr_left fun _ _ => rfl
  · have h0 := hθ r hr
    show ((if 2 * r = 0 then XF.infSign (v * v) else .fin (v * v / (2 * r))) * XF.fin (1 + -Real.exp (-2 * r * dt))).sqrt = _
    rw [if_neg (by simpa using h0)]
    show XF.sqrt (.fin (v * v / (2 * r) * (1 + -Real.exp (-2 * r * dt)))) = _
    have hn := ou_scale_nonneg v h0 hdt
    have e : v * v / (2 * r) * (1 + -Real.exp (-2 * r * dt)) = v ^ 2 / (2 * r) * (1 - Real.exp (-2 * r * dt)) := by ring
    rw [e, XF.sqrt, if_neg (not_lt.mpr hn)]

theorem ou_scale_pos {v r dt : ℝ} (hv : v ≠ 0) (hr : r ≠ 0) (hdt : 0 < dt) :
    0 < Real.sqrt (v ^ 2 / (2 * r) * (1 - Real.exp (-2 * r * dt))) := by
  rw [Real.sqrt_pos]
  have hv2 : 0 < v ^ 2 := by positivity
  rcases lt_or_gt_of_ne hr with h | h
  · refine mul_pos_of_neg_of_neg (div_neg_of_pos_of_neg hv2 (by linarith)) ?_
    have := Real.one_lt_exp_iff.mpr (show 0 < -2 * r * dt by nlinarith)
    linarith
  · refine mul_pos (div_pos hv2 (by linarith)) ?_
    have := Real.exp_lt_one_iff.mpr (show -2 * r * dt < 0 by nlinarith)
    linarith

theorem bzip_ne_nil {f : ℝ → ℝ → ℝ} {l m r : List ℝ} (hl : l ≠ []) (hm : m ≠ []) (h : bzip f l m = .ok r) : r ≠ [] := by
  have h1 := List.length_pos_iff.mpr hl
  have h2 := List.length_pos_iff.mpr hm
  rw [← List.length_pos_iff]
  unfold bzip at h
  split at h
  · cases h; rw [List.length_zipWith]; omega
  split at h
  · cases h; rw [List.length_map]; omega
  split at h
  · cases h; rw [List.length_map]; omega
  · cases h

theorem mem_bzip {f : ℝ → ℝ → ℝ} {l m r : List ℝ} (h : bzip f l m = .ok r) {y : ℝ} (hy : y ∈ r) : ∃ a ∈ l, ∃ b ∈ m, y = f a b := by
  unfold bzip at h
  split at h
  · cases h
    obtain ⟨i, hi, rfl⟩ := List.getElem_of_mem hy
    rw [List.length_zipWith] at hi
    exact ⟨_, List.getElem_mem (show i < l.length by omega), _, List.getElem_mem (show i < m.length by omega), List.getElem_zipWith⟩
  split at h
  · rename_i hl
    cases h
    obtain ⟨b, hb, rfl⟩ := List.mem_map.mp hy
    exact ⟨_, List.getElem_mem (show 0 < l.length by omega), b, hb, by rw [List.getD_eq_getElem _ _ (by omega)]⟩
  split at h
  · rename_i hm
    cases h
    obtain ⟨a, ha, rfl⟩ := List.mem_map.mp hy
    exact ⟨a, ha, _, List.getElem_mem (show 0 < m.length by omega), by rw [List.getD_eq_getElem _ _ (by omega)]⟩
  · cases h

/-- The rows of the Ornstein–Uhlenbeck likelihood for numbers as factors. -/
theorem ouRowsX_ok {F : List ℝ} {dx : XArr} (h : ouRowsX (F.map .fin) x = .ok dx) :
    dx.rows = x.rows - 1 ∧ (x.cols = dx.cols ∨ x.cols = 1) ∧ (F.length = dx.cols ∨ F.length = 1) ∧ (dx.cols = x.cols ∨ dx.cols = F.length) ∧
    ∀ i, ∀ j < dx.cols, dx.get i j = xbcol x (i + 1) j - .fin (bentry F j) * xbcol x i j := by
  unfold ouRowsX at h
  simp only [List.length_map] at h
  cases h1 : bdim F.length x.cols with
  | error e => rw [h1] at h; cases h
  | ok c1 =>
    rw [h1] at h
    change (bdim x.cols c1 >>= _) = _ at h
    cases h2 : bdim x.cols c1 with
    | error e => rw [h2] at h; cases h
    | ok c =>
      rw [h2] at h
      change Except.ok _ = _ at h
      cases h
      obtain ⟨a1, a2, a3⟩ := bdim_ok h1
      obtain ⟨b1, b2, b3⟩ := bdim_ok h2
      have hF : F.length = c ∨ F.length = 1 := by omega
      refine ⟨rfl, by omega, by omega, by dsimp only; omega, fun i j hj => ?_⟩
      dsimp only at hj
      have hc : 0 < c := by omega
      show xbcol x ((i * c + j) / c + 1) ((i * c + j) % c) - xentry (F.map .fin) ((i * c + j) % c) * xbcol x ((i * c + j) / c) ((i * c + j) % c) = _
      rw [Nat.mul_comm i c, Nat.mul_add_div hc, Nat.div_eq_of_lt hj, Nat.mul_add_mod, Nat.mod_eq_of_lt hj, xentry_fin hF hj]
      rfl

theorem ouRows_ok {F : List ℝ} {x dx : Arr} (h : ouRows F x = .ok dx) :
    ∃ dx', ouRowsX (F.map .fin) (XArr.ofArr x) = .ok dx' ∧ dx'.rows = dx.rows ∧ dx'.cols = dx.cols ∧
      ∀ i, ∀ j < dx.cols, dx'.get i j = .fin (dx.get i j) := by
  unfold ouRows at h
  unfold ouRowsX
  simp only [List.length_map]
  show ∃ dx', (bdim F.length x.cols >>= _) = _ ∧ _
  cases h1 : bdim F.length x.cols with
  | error e => rw [h1] at h; cases h
  | ok c1 =>
    rw [h1] at h
    change (bdim x.cols c1 >>= _) = _ at h
    show ∃ dx', (bdim x.cols c1 >>= _) = _ ∧ _
    cases h2 : bdim x.cols c1 with
    | error e => rw [h2] at h; cases h
    | ok c =>
      rw [h2] at h
      change Except.ok _ = _ at h
      cases h
      obtain ⟨a1, a2, a3⟩ := bdim_ok h1
      obtain ⟨b1, b2, b3⟩ := bdim_ok h2
      have hF : F.length = c ∨ F.length = 1 := by omega
      refine ⟨_, rfl, rfl, rfl, fun i j hj => ?_⟩
      dsimp only at hj
      have hc : 0 < c := by omega
      show xbcol (XArr.ofArr x) ((i * c + j) / c + 1) ((i * c + j) % c) - xentry (F.map .fin) ((i * c + j) % c) *
        xbcol (XArr.ofArr x) ((i * c + j) / c) ((i * c + j) % c) = XF.fin (bcol x ((i * c + j) / c + 1) ((i * c + j) % c) -
          bentry F ((i * c + j) % c) * bcol x ((i * c + j) / c) ((i * c + j) % c))
      rw [Nat.mul_comm i c, Nat.mul_add_div hc, Nat.div_eq_of_lt hj, Nat.mul_add_mod, Nat.mod_eq_of_lt hj, Nat.add_zero, xentry_fin hF hj,
        xbcol_fin, xbcol_fin]
      show XF.fin (_ + -_) = _
      rw [← sub_eq_add_neg]

theorem ouRows_error {F : List ℝ} {x : Arr} {e : PyErr} (h : ouRows F x = .error e) : ouRowsX (F.map .fin) (XArr.ofArr x) = .error e := by
  unfold ouRows at h
  unfold ouRowsX
  simp only [List.length_map]
  show (bdim F.length x.cols >>= _) = _
  cases h1 : bdim F.length x.cols with
  | error e => rw [h1] at h; cases h; rfl
  | ok c1 =>
    rw [h1] at h
    change (bdim x.cols c1 >>= _) = _ at h
    show (bdim x.cols c1 >>= _) = _
    cases h2 : bdim x.cols c1 with
    | error e => rw [h2] at h; cases h; rfl
    | ok c => rw [h2] at h; cases h

/-- C97. On numbers, with rates other than zero, the Ornstein–Uhlenbeck likelihood on floats is the likelihood of C73. -/
theorem ou_nllX_agrees (μ vol : List ℝ) (L cor : Option Arr) {θ : List ℝ} (hθ : ∀ r ∈ θ, r ≠ 0) (hdt : 0 < dt) (x : Arr) :
    ouNllX eigh (μ.map .fin) (θ.map .fin) (vol.map .fin) cor (XArr.ofArr x) dt = ouNllFull eigh ⟨.row μ, .row θ, vol, L⟩ cor x dt := by
  obtain ⟨e1, e2, e3⟩ := ou_terms_fin μ vol hθ hdt
  unfold ouNllX ouNllFull
  simp only [OUAttr.toRow]
  rw [e1, e2, e3]
  cases bzip (fun m f : ℝ => m * (1 - f)) μ (θ.map fun r => Real.exp (-r * dt)) with
  | error e => rfl
  | ok m =>
    cases bzip (fun v r : ℝ => Real.sqrt (v ^ 2 / (2 * r) * (1 - Real.exp (-2 * r * dt)))) vol θ with
    | error e => rfl
    | ok s =>
      show (ouRowsX _ _ >>= fun dx => gaussNllX eigh (m.map .fin) (s.map .fin) cor dx) = (ouRows _ _ >>= _)
      cases h : ouRows (θ.map fun r => Real.exp (-r * dt)) x with
      | error e => rw [ouRows_error h]; rfl
      | ok dx =>
        obtain ⟨dx', h', hr, hc, hg⟩ := ouRows_ok h
        rw [h']
        show gaussNllX eigh (m.map .fin) (s.map .fin) cor dx' = (if 0 ∈ θ then _ else gaussNll eigh m s cor dx)
        rw [if_neg fun h0 => hθ 0 h0 rfl, ← gaussNllX_fin]
        exact gaussNllX_congr _ _ _ hr hc fun i _ j hj => hg i j (by omega)

theorem pos_mul_fin {c : ℝ} (hc : 0 < c) {w : XF} : (Fin' (.fin c * w) ↔ Fin' w) ∧ (.fin c * w = .nan ↔ w = .nan) := by
  cases w with
  | fin r => exact ⟨⟨fun _ => ⟨r, rfl⟩, fun _ => ⟨_, rfl⟩⟩, nofun, nofun⟩
  | nan => exact ⟨Iff.rfl, fun _ => rfl, fun _ => rfl⟩
  | pinf =>
    have : (.fin c * .pinf : XF) = .pinf := by show XF.infSign c = _; rw [XF.infSign, if_pos hc]
    rw [this]
    exact ⟨Iff.rfl, Iff.rfl⟩
  | ninf =>
    have : (.fin c * .ninf : XF) = .ninf := by
      show XF.infSign (-c) = _; rw [XF.infSign, if_neg (by linarith), if_pos (by linarith)]
    rw [this]
    exact ⟨Iff.rfl, Iff.rfl⟩

/-- C97. Ornstein–Uhlenbeck, rates and volatilities other than zero: the likelihood is a number exactly when every value is, and one
missing value makes it `nan`. -/
theorem ou_nll_special (he : EighAll eigh) {μ θ vol : List ℝ} (hθ : ∀ r ∈ θ, r ≠ 0) (hvol : ∀ s ∈ vol, s ≠ 0) (hμ0 : μ ≠ [])
    (hθ0 : θ ≠ []) (hv0 : vol ≠ []) (hdt : 0 < dt) (hrows : 2 ≤ x.rows)
    (h : ouNllX eigh (μ.map .fin) (θ.map .fin) (vol.map .fin) cor x dt = .ok v) :
    (Fin' v ↔ ∀ i < x.rows, ∀ j < x.cols, Fin' (x.get i j)) ∧ ((∃ i < x.rows, ∃ j < x.cols, x.get i j = .nan) → v = .nan) := by
  obtain ⟨e1, e2, e3⟩ := ou_terms_fin μ vol hθ hdt
  unfold ouNllX at h
  dsimp only at h
  rw [e1, e2, e3] at h
  cases hm : bzip (fun m f : ℝ => m * (1 - f)) μ (θ.map fun r => Real.exp (-r * dt)) with
  | error e => rw [hm] at h; cases h
  | ok m =>
    rw [hm] at h
    cases hs : bzip (fun v r : ℝ => Real.sqrt (v ^ 2 / (2 * r) * (1 - Real.exp (-2 * r * dt)))) vol θ with
    | error e => rw [hs] at h; cases h
    | ok s =>
      rw [hs] at h
      change (ouRowsX _ _ >>= fun dx => gaussNllX eigh (m.map .fin) (s.map .fin) cor dx) = _ at h
      cases hx : ouRowsX ((θ.map fun r => Real.exp (-r * dt)).map .fin) x with
      | error e => rw [hx] at h; cases h
      | ok dx =>
        rw [hx] at h
        change gaussNllX eigh (m.map .fin) (s.map .fin) cor dx = _ at h
        obtain ⟨hr, hc1, hc2, hc3, hg⟩ := ouRowsX_ok hx
        have hθl := List.length_pos_iff.mpr hθ0
        rw [List.length_map] at hc2 hc3
        obtain ⟨h1, h2, -⟩ := gaussX_value he (fun w hw => by
          obtain ⟨a, ha, b, hb, rfl⟩ := mem_bzip hs hw
          exact ou_scale_pos (hvol a ha) (hθ b hb) hdt) (bzip_ne_nil hμ0 (by simpa using hθ0) hm) (bzip_ne_nil hv0 hθ0 hs) h
        rw [hr] at h1 h2
        have hF : ∀ j < dx.cols, 0 < bentry (θ.map fun r => Real.exp (-r * dt)) j := by
          intro j hj
          have : ∃ r ∈ θ, bentry (θ.map fun r => Real.exp (-r * dt)) j = Real.exp (-r * dt) := by
            unfold bentry
            rw [List.length_map]
            split
            · rw [List.getD_eq_getElem _ _ (by simpa using hθl), List.getElem_map]
              exact ⟨_, List.getElem_mem _, rfl⟩
            · rw [List.getD_eq_getElem _ _ (by rw [List.length_map]; omega), List.getElem_map]
              exact ⟨_, List.getElem_mem _, rfl⟩
          obtain ⟨r, -, e⟩ := this
          rw [e]
          exact Real.exp_pos _
        have hcol : ∀ (i j : Nat), j < dx.cols → ∃ j' < x.cols, xbcol x i j = x.get i j' := by
          intro i j hj
          unfold xbcol
          split
          · exact ⟨0, by omega, rfl⟩
          · exact ⟨j, by omega, rfl⟩
        have hcol' : ∀ j < x.cols, ∃ j' < dx.cols, ∀ i, xbcol x i j' = x.get i j := by
          intro j hj
          unfold xbcol
          by_cases h1 : x.cols = 1
          · exact ⟨0, by omega, fun i => by rw [if_pos h1, show j = 0 by omega]⟩
          · exact ⟨j, by omega, fun i => by rw [if_neg h1]⟩
        have hfin : ∀ i, ∀ j < dx.cols, (Fin' (dx.get i j) ↔ Fin' (xbcol x i j) ∧ Fin' (xbcol x (i + 1) j)) := by
          intro i j hj
          rw [hg i j hj, sub_finite, (pos_mul_fin (hF j hj)).1]
        refine ⟨?_, ?_⟩
        · rw [h2]
          constructor
          · intro hf i hi j hj
            obtain ⟨j', hj', e⟩ := hcol' j hj
            by_cases hl : i + 1 < x.rows
            · rw [← e]
              exact ((hfin i j' hj').mp (hf i (by omega) j' hj')).1
            · have := ((hfin (i - 1) j' hj').mp (hf (i - 1) (by omega) j' hj')).2
              rw [show i - 1 + 1 = i by omega, e] at this
              exact this
          · intro hf i hi j hj
            obtain ⟨a, ha, ea⟩ := hcol i j hj
            obtain ⟨b, hb, eb⟩ := hcol (i + 1) j hj
            rw [hfin i j hj, ea, eb]
            exact ⟨hf i (by omega) a ha, hf (i + 1) (by omega) b hb⟩
        · rintro ⟨i, hi, j, hj, e⟩
          obtain ⟨j', hj', e'⟩ := hcol' j hj
          by_cases hl : i + 1 < x.rows
          · refine h1 ⟨i, by omega, j', hj', ?_⟩
            rw [hg i j' hj', e', e', e, (pos_mul_fin (hF j' hj')).2.mpr rfl]
            cases x.get (i + 1) j <;> rfl
          · refine h1 ⟨i - 1, by omega, j', hj', ?_⟩
            rw [hg _ j' hj', show i - 1 + 1 = i by omega, e' i, e]
            rfl

/-- C97. The values of the data never make the likelihood of a geometric Brownian motion fail. -/
theorem gbm_nll_never_raises {drift vol : List XF} {y : XArr} (hc : x.cols = y.cols) {e : PyErr} :
    gbmNllX eigh drift vol cor x dt = .error e ↔ gbmNllX eigh drift vol cor y dt = .error e := by
  unfold gbmNllX
  cases xzip (fun d v : XF => d - .fin (1 / 2) * (v * v)) drift vol with
  | error e => exact Iff.rfl
  | ok m => exact gaussNllX_error (a := logRatioRowsX x) (b := logRatioRowsX y) _ _ _ hc

/-- C97. The values of the data never make the Ornstein–Uhlenbeck likelihood fail. -/
theorem ou_nll_never_raises {μ θ vol : List XF} {y : XArr} (hc : x.cols = y.cols) {e : PyErr} :
    ouNllX eigh μ θ vol cor x dt = .error e ↔ ouNllX eigh μ θ vol cor y dt = .error e := by
  unfold ouNllX
  dsimp only
  cases xzip (fun m f : XF => m * (.fin 1 - f)) μ (θ.map fun r => (-r * .fin dt).exp) with
  | error e => exact Iff.rfl
  | ok m =>
    cases xzip (fun v r : XF => (v * v / (.fin 2 * r) * (.fin 1 - (.fin (-2) * r * .fin dt).exp)).sqrt) vol θ with
    | error e => exact Iff.rfl
    | ok s =>
      show (ouRowsX _ x >>= _) = _ ↔ (ouRowsX _ y >>= _) = _
      unfold ouRowsX
      rw [← hc]
      cases bdim (θ.map fun r => (-r * .fin dt).exp).length x.cols with
      | error e => exact Iff.rfl
      | ok c1 =>
        show ((bdim x.cols c1 >>= _) >>= _) = _ ↔ ((bdim x.cols c1 >>= _) >>= _) = _
        cases bdim x.cols c1 with
        | error e => exact Iff.rfl
        | ok c =>
          show gaussNllX eigh m s cor ⟨_, c, _⟩ = _ ↔ gaussNllX eigh m s cor ⟨_, c, _⟩ = _
          apply gaussNllX_error
          rfl

/-! ### Parameters that are not numbers, and rates of zero -/

/-- A scale that is `nan`: without correlation the likelihood is `nan`, with correlation it is refused. -/
theorem gaussX_nan_scale {mean std : List XF} {dx : XArr} (hn : XF.nan ∈ std) :
    (∀ c, gaussNllX eigh mean std (some c) dx = .error .valueError) ∧
    (0 < dx.rows → 0 < dx.cols → mean ≠ [] → gaussNllX eigh mean std none dx = .ok v → v = .nan) := by
  constructor
  · intro c
    show mvnNllX _ _ _ _ _ = _
    unfold mvnNllX
    split
    · rfl
    split
    · rfl
    rw [if_pos ⟨_, hn, rfl⟩]
  · intro hr hc hm h
    have hm := List.length_pos_iff.mpr hm
    change normNllX _ _ _ = _ at h
    unfold normNllX at h
    cases h1 : bdim dx.cols mean.length with
    | error e => rw [h1] at h; cases h
    | ok c1 =>
      rw [h1] at h
      change (bdim c1 std.length >>= _) = _ at h
      cases h2 : bdim c1 std.length with
      | error e => rw [h2] at h; cases h
      | ok c =>
        rw [h2] at h
        change Except.ok _ = _ at h
        injection h with h
        obtain ⟨-, -, hs⟩ := bdims_ok h1 h2
        obtain ⟨-, -, h3⟩ := bdim_ok h1
        obtain ⟨-, -, h4⟩ := bdim_ok h2
        obtain ⟨k, hk, e⟩ := List.getElem_of_mem hn
        rw [← h, xsum_nan]
        · rfl
        rw [mem_blocks (fun i j => normLogpdfX (xentry mean j) (xentry std j) (xbcol dx i j))]
        have hx : ∃ j < c, xentry std j = .nan := by
          unfold xentry
          by_cases h5 : std.length = 1
          · refine ⟨0, by omega, ?_⟩
            rw [if_pos h5, List.getD_eq_getElem _ _ (by omega), ← e]
            congr 1
            omega
          · refine ⟨k, by omega, ?_⟩
            rw [if_neg h5, List.getD_eq_getElem _ _ hk, e]
        obtain ⟨j, hj, ej⟩ := hx
        exact ⟨0, hr, j, hj, by rw [ej, normLogpdfX_nan_scale]⟩

theorem xzip_mem_right {f : XF → XF → XF} {l m r : List XF} (h : xzip f l m = .ok r) (hl : l ≠ []) {b : XF} (hb : b ∈ m) :
    ∃ a ∈ l, f a b ∈ r := by
  have hl := List.length_pos_iff.mpr hl
  unfold xzip at h
  obtain ⟨i, hi, rfl⟩ := List.getElem_of_mem hb
  split at h
  · rename_i he
    cases h
    refine ⟨l[i], List.getElem_mem _, ?_⟩
    have : f l[i] m[i] = (List.zipWith f l m)[i]'(by rw [List.length_zipWith]; omega) := List.getElem_zipWith.symm
    rw [this]
    exact List.getElem_mem _
  split at h
  · cases h
    exact ⟨l.getD 0 .nan, by rw [List.getD_eq_getElem _ _ hl]; exact List.getElem_mem _, List.mem_map.mpr ⟨_, List.getElem_mem _, rfl⟩⟩
  split at h
  · rename_i h3
    cases h
    refine ⟨l[0], List.getElem_mem _, List.mem_map.mpr ⟨l[0], List.getElem_mem _, ?_⟩⟩
    rw [List.getD_eq_getElem _ _ (by omega)]
    congr 2
    omega
  · cases h

theorem xzip_ne_nil {f : XF → XF → XF} {l m r : List XF} (hl : l ≠ []) (hm : m ≠ []) (h : xzip f l m = .ok r) : r ≠ [] := by
  obtain ⟨b, hb⟩ := List.exists_mem_of_ne_nil m hm
  obtain ⟨a, -, h'⟩ := xzip_mem_right h hl hb
  exact List.ne_nil_of_mem h'

/-- C97. A mean reversion rate of zero is not the Brownian limit of the likelihood: it is `nan` for all data and all other parameters,
and with a correlation matrix it is refused. -/
theorem ou_nll_zero_rate {μ θ vol : List XF} (h0 : XF.fin 0 ∈ θ) (hμ : μ ≠ []) (hv : vol ≠ []) (hrows : 2 ≤ x.rows) (hcols : 0 < x.cols) :
    (ouNllX eigh μ θ vol none x dt = .ok v → v = .nan) ∧ ∀ c, ¬ ∃ w, ouNllX eigh μ θ vol (some c) x dt = .ok w := by
  have hθ : θ ≠ [] := List.ne_nil_of_mem h0
  have key : ∀ {cor : Option Arr} {w : XF}, ouNllX eigh μ θ vol cor x dt = .ok w → ∃ m s dx, gaussNllX eigh m s cor dx = .ok w ∧
      XF.nan ∈ s ∧ 0 < dx.rows ∧ 0 < dx.cols ∧ m ≠ [] := by
    intro cor w h
    unfold ouNllX at h
    dsimp only at h
    cases hm : xzip (fun m f : XF => m * (.fin 1 - f)) μ (θ.map fun r => (-r * .fin dt).exp) with
    | error e => rw [hm] at h; cases h
    | ok m =>
      rw [hm] at h
      cases hs : xzip (fun v r : XF => (v * v / (.fin 2 * r) * (.fin 1 - (.fin (-2) * r * .fin dt).exp)).sqrt) vol θ with
      | error e => rw [hs] at h; cases h
      | ok s =>
        rw [hs] at h
        change (ouRowsX _ x >>= fun dx => gaussNllX eigh m s cor dx) = _ at h
        cases hx : ouRowsX (θ.map fun r => (-r * .fin dt).exp) x with
        | error e => rw [hx] at h; cases h
        | ok dx =>
          rw [hx] at h
          obtain ⟨a, -, ha⟩ := xzip_mem_right hs hv h0
          rw [ou_zero_scale] at ha
          have hd : 0 < dx.rows ∧ 0 < dx.cols := by
            unfold ouRowsX at hx
            cases h1 : bdim (θ.map fun r => (-r * XF.fin dt).exp).length x.cols with
            | error e => rw [h1] at hx; cases hx
            | ok c1 =>
              rw [h1] at hx
              change (bdim x.cols c1 >>= _) = _ at hx
              cases h2 : bdim x.cols c1 with
              | error e => rw [h2] at hx; cases hx
              | ok c =>
                rw [h2] at hx
                change Except.ok _ = _ at hx
                cases hx
                obtain ⟨-, -, g1⟩ := bdim_ok h1
                obtain ⟨-, -, g2⟩ := bdim_ok h2
                rw [List.length_map] at g1
                have := List.length_pos_iff.mpr hθ
                refine ⟨?_, ?_⟩ <;> dsimp only <;> omega
          exact ⟨m, s, dx, h, ha, hd.1, hd.2, xzip_ne_nil hμ (by simpa using hθ) hm⟩
  constructor
  · intro h
    obtain ⟨m, s, dx, h1, h2, h3, h4, h5⟩ := key h
    exact (gaussX_nan_scale h2).2 h3 h4 h5 h1
  · rintro c ⟨w, h⟩
    obtain ⟨m, s, dx, h1, h2, -⟩ := key h
    rw [(gaussX_nan_scale (v := w) h2).1] at h1
    cases h1

/-! ### Scores -/

/-- C97. A likelihood that is `nan` gives scores that are `nan`, an infinite one infinite scores, a number those of C28. -/
theorem score_values (k : ℝ) {n : Nat} (hn : 0 < n) :
    (aicX k n .nan = .nan ∧ bicX k n .nan = .nan) ∧ (aicX k n .pinf = .pinf ∧ bicX k n .pinf = .pinf) ∧
    ∀ l : ℝ, aicX k n (.fin l) = .fin (scoreValue k n l .aic) ∧ bicX k n (.fin l) = .fin (scoreValue k n l .bic) := by
  have h2 : (XF.fin 2 * XF.pinf : XF) = .pinf := by show XF.infSign 2 = _; rw [XF.infSign, if_pos two_pos]
  have hnn : (XF.pinf * XF.fin (n : ℝ) : XF) = .pinf := by show XF.infSign (n : ℝ) = _; rw [XF.infSign, if_pos (by exact_mod_cast hn)]
  refine ⟨⟨rfl, rfl⟩, ⟨?_, ?_⟩, fun l => ⟨rfl, rfl⟩⟩
  · unfold aicX; rw [h2, hnn]; rfl
  · unfold bicX; rw [h2, hnn]; rfl

/-- C97. One missing value: no model of the three is better than another by likelihood, AIC or BIC; every comparison is false. -/
theorem missing_no_ranking (he : EighAll eigh) {d vol d' volg μ θ vol' : List ℝ} {corg cor' : Option Arr}
    (hvol : ∀ s ∈ vol, 0 < s) (hd0 : d ≠ []) (hv0 : vol ≠ []) (hvolg : ∀ s ∈ volg, 0 < s) (hdg : d' ≠ []) (hvg : volg ≠ []) (hθ : ∀ r ∈ θ, r ≠ 0) (hvol' : ∀ s ∈ vol', s ≠ 0) (hμ0 : μ ≠ []) (hθ0 : θ ≠ []) (hv0' : vol' ≠ []) (hdt : 0 < dt)
    (hrows : 2 ≤ x.rows) (hx : ∃ i < x.rows, ∃ j < x.cols, x.get i j = .nan) {a b c : XF}
    (ha : bmNllX eigh (d.map .fin) (vol.map .fin) cor x dt = .ok a) (hb : gbmNllX eigh (d'.map .fin) (volg.map .fin) corg x dt = .ok b)
    (hc : ouNllX eigh (μ.map .fin) (θ.map .fin) (vol'.map .fin) cor' x dt = .ok c) (k k' : ℝ) (n : Nat) :
    ∀ s ∈ [a, aicX k n a, bicX k n a], ∀ t ∈ [b, c, aicX k' n b, aicX k' n c, bicX k' n b, bicX k' n c], ¬ XF.lt s t ∧ ¬ XF.lt t s := by
  have h1 := (bm_nll_special he hvol hd0 hv0 hdt hrows ha).2.1 hx
  have h2 := (gbm_nll_special he hvolg hdg hvg hdt hrows hb).2.1 hx
  have h3 := (ou_nll_special he hθ hvol' hμ0 hθ0 hv0' hdt hrows hc).2 hx
  subst h1 h2 h3
  intro s hs t ht
  have hs : s = .nan := by
    simp only [List.mem_cons, List.not_mem_nil, or_false] at hs
    rcases hs with rfl | rfl | rfl <;> rfl
  subst hs
  exact ⟨nofun, fun h => by cases t <;> exact h⟩

end Verif.Sim
