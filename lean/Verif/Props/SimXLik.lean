import Verif.Lemmas.SimXLik
import Verif.Props.SimXFit
import Verif.Props.SimLik

/-!
# C97: likelihood and Ornstein–Uhlenbeck calibration on data with missing, infinite or non-positive values
-/

namespace Verif.Sim

open Verif.Cov (Mat Pair)

variable {eigh : (d : Nat) → Mat d → List (Pair d)} {x dx : XArr} {cor : Option Arr} {dt : ℝ} {v : XF}

/-! ### Agreement with the model on real numbers -/

theorem map_mul_fin (l : List ℝ) (c : ℝ) : (l.map XF.fin).map (· * .fin c) = (l.map (· * c)).map .fin := by
  rw [List.map_map, List.map_map]
  exact List.map_congr_left fun _ _ => rfl

theorem xbcol_congr {a b : XArr} {i j c : Nat} (hc : a.cols = b.cols) (hac : a.cols = c ∨ a.cols = 1) (hj : j < c)
    (h : ∀ j < a.cols, a.get i j = b.get i j) : xbcol a i j = xbcol b i j := by
  unfold xbcol
  rw [← hc]
  split
  · exact h 0 (by omega)
  · exact h j (by omega)

/-- The likelihood reads the entries of the array only. -/
theorem gaussNllX_congr {a b : XArr} (mean std : List XF) (cor : Option Arr) (hr : a.rows = b.rows) (hc : a.cols = b.cols)
    (h : ∀ i < a.rows, ∀ j < a.cols, a.get i j = b.get i j) : gaussNllX eigh mean std cor a = gaussNllX eigh mean std cor b := by
  cases cor with
  | none =>
    show normNllX _ _ _ = normNllX _ _ _
    unfold normNllX
    rw [← hc, ← hr]
    cases h1 : bdim a.cols mean.length with
    | error e => rfl
    | ok c1 =>
      show (bdim c1 std.length >>= _) = (bdim c1 std.length >>= _)
      cases h2 : bdim c1 std.length with
      | error e => rfl
      | ok c =>
        obtain ⟨hac, -, -⟩ := bdims_ok h1 h2
        show Except.ok _ = Except.ok _
        congr 3
        refine List.map_congr_left fun k hk => ?_
        have hk := List.mem_range.mp hk
        have hc0 : 0 < c := by
          rcases Nat.eq_zero_or_pos c with rfl | h
          · simp at hk
          · exact h
        rw [xbcol_congr hc hac (Nat.mod_lt _ hc0) fun j hj => h _ ((Nat.div_lt_iff_lt_mul hc0).mpr hk) j hj]
  | some c =>
    show mvnNllX _ _ _ _ _ = mvnNllX _ _ _ _ _
    unfold mvnNllX
    by_cases h1 : ¬ (c.rows = std.length ∧ c.cols = std.length)
    · rw [if_pos h1, if_pos h1]
    rw [if_neg h1, if_neg h1]
    congr 2
    unfold mvnSumX
    rw [← hc, ← hr]
    cases psdCheck (eigh (reals std).length (covMat (reals std).length (reals std) c)) with
    | error e => rfl
    | ok u =>
      show (if _ then _ else _) = (if _ then _ else _)
      split
      · rename_i hac
        congr 3
        refine List.map_congr_left fun i hi => ?_
        congr 1
        funext k
        rw [xbcol_congr hc hac k.2 fun j hj => h i (List.mem_range.mp hi) j hj]
      · rfl

/-- C97. On numbers the likelihood on floats is the likelihood of C73. -/
theorem bm_nllX_agrees (drift vol : List ℝ) (cor : Option Arr) (x : Arr) (dt : ℝ) :
    bmNllX eigh (drift.map .fin) (vol.map .fin) cor (XArr.ofArr x) dt = bmNllFull eigh drift vol cor x dt := by
  unfold bmNllX bmNllFull
  rw [map_mul_fin, map_mul_fin, ← gaussNllX_fin]
  rfl

/-- C97. On positive numbers the geometric likelihood on floats is the likelihood of C73. -/
theorem gbm_nllX_agrees (drift vol : List ℝ) (cor : Option Arr) {x : Arr} (hpos : Positive x) (dt : ℝ) :
    gbmNllX eigh (drift.map .fin) (vol.map .fin) cor (XArr.ofArr x) dt = gbmNllFull eigh drift vol cor x dt := by
  unfold gbmNllX gbmNllFull
  rw [xzip_fin (g := fun d v => d - 0.5 * v ^ 2) fun a b => by
    show XF.fin (a + -(1 / 2 * (b * b))) = _
    congr 1
    ring]
  cases bzip (fun d v => d - 0.5 * v ^ 2) drift vol with
  | error e => rfl
  | ok m =>
    show gaussNllX eigh (m.map .fin) _ cor _ = gaussNll eigh m _ cor _
    rw [map_mul_fin, ← gaussNllX_fin]
    refine gaussNllX_congr _ _ _ rfl rfl fun i hi j hj => ?_
    have hi : i < x.rows - 1 := hi
    have hj : j < x.cols := hj
    have h1 := hpos i (by omega) j hj
    have h2 := hpos (i + 1) (by omega) j hj
    have e : i * x.cols + j + x.cols = (i + 1) * x.cols + j := by ring
    show XF.log (if x.data (i * x.cols + j) = 0 then _ else XF.fin (x.data (i * x.cols + j + x.cols) / x.data (i * x.cols + j))) =
      XF.fin (Real.log (x.data (i * x.cols + j + x.cols) / x.data (i * x.cols + j)))
    rw [if_neg (show x.data (i * x.cols + j) ≠ 0 from h1.ne'), XF.log, if_pos (by rw [e]; exact div_pos h2 h1)]

/-! ### The data decide whether the likelihood is a number -/

/-- The shape decides whether the likelihood fails, the values never. -/
theorem gaussNllX_error {a b : XArr} (mean std : List XF) (cor : Option Arr) (hc : a.cols = b.cols)
    {e : PyErr} : gaussNllX eigh mean std cor a = .error e ↔ gaussNllX eigh mean std cor b = .error e := by
  cases cor with
  | none =>
    show normNllX _ _ _ = _ ↔ normNllX _ _ _ = _
    unfold normNllX
    rw [← hc]
    cases bdim a.cols mean.length with
    | error e => rfl
    | ok c1 =>
      show (bdim c1 std.length >>= _) = _ ↔ (bdim c1 std.length >>= _) = _
      cases bdim c1 std.length with
      | error e => rfl
      | ok c => exact ⟨fun h => (by cases h), fun h => (by cases h)⟩
  | some c =>
    show mvnNllX _ _ _ _ _ = _ ↔ mvnNllX _ _ _ _ _ = _
    unfold mvnNllX
    split
    · rfl
    split
    · rfl
    split
    · rfl
    unfold mvnSumX
    rw [← hc]
    cases psdCheck (eigh (reals std).length (covMat (reals std).length (reals std) c)) with
    | error e => rfl
    | ok u =>
      show (if _ then _ else _) = _ ↔ (if _ then _ else _) = _
      split
      · exact ⟨fun h => (by cases h), fun h => (by cases h)⟩
      · rfl

theorem normNllX_value {mean std : List ℝ} (hs : ∀ s ∈ std, 0 < s) (hm0 : mean ≠ []) (hs0 : std ≠ [])
    (h : normNllX (mean.map .fin) (std.map .fin) dx = .ok v) :
    (v = .nan ∧ ∃ i < dx.rows, ∃ j < dx.cols, dx.get i j = .nan) ∨
    (v = .pinf ∧ (∀ i < dx.rows, ∀ j < dx.cols, dx.get i j ≠ .nan) ∧ ∃ i < dx.rows, ∃ j < dx.cols, ¬ Fin' (dx.get i j)) ∨
    (Fin' v ∧ ∀ i < dx.rows, ∀ j < dx.cols, Fin' (dx.get i j)) := by
  have hml := List.length_pos_iff.mpr hm0
  have hsl := List.length_pos_iff.mpr hs0
  unfold normNllX at h
  simp only [List.length_map] at h
  cases h1 : bdim dx.cols mean.length with
  | error e => rw [h1] at h; cases h
  | ok c1 =>
    rw [h1] at h
    change (bdim c1 std.length >>= _) = _ at h
    cases h2 : bdim c1 std.length with
    | error e => rw [h2] at h; cases h
    | ok c =>
      rw [h2] at h
      change Except.ok _ = _ at h
      injection h with h
      obtain ⟨hac, hmc, hsc⟩ := bdims_ok h1 h2
      obtain ⟨-, -, h3⟩ := bdim_ok h1
      obtain ⟨-, -, h4⟩ := bdim_ok h2
      -- the entries of the array and the terms of the sum
      have hcol : ∀ (i j : Nat), j < c → ∃ j' < dx.cols, xbcol dx i j = dx.get i j' := by
        intro i j hj
        unfold xbcol
        split
        · exact ⟨0, by omega, rfl⟩
        · exact ⟨j, by omega, rfl⟩
      have hcol' : ∀ (i j : Nat), j < dx.cols → ∃ j' < c, xbcol dx i j' = dx.get i j := by
        intro i j hj
        unfold xbcol
        split
        · exact ⟨0, by omega, by rw [show j = 0 by omega]⟩
        · exact ⟨j, by omega, rfl⟩
      have hterm : ∀ i j, j < c → (xbcol dx i j = .nan ∧ normLogpdfX (xentry (mean.map .fin) j) (xentry (std.map .fin) j) (xbcol dx i j) = .nan) ∨
          (xbcol dx i j ≠ .nan ∧ ¬ Fin' (xbcol dx i j) ∧
            normLogpdfX (xentry (mean.map .fin) j) (xentry (std.map .fin) j) (xbcol dx i j) = .ninf) ∨
          (Fin' (xbcol dx i j) ∧ Fin' (normLogpdfX (xentry (mean.map .fin) j) (xentry (std.map .fin) j) (xbcol dx i j))) := by
        intro i j hj
        rw [xentry_fin hmc hj, xentry_fin hsc hj]
        have hpos : 0 < bentry std j := by
          unfold bentry
          split
          · rw [List.getD_eq_getElem _ _ (by omega)]; exact hs _ (List.getElem_mem _)
          · rw [List.getD_eq_getElem _ _ (by omega)]; exact hs _ (List.getElem_mem _)
        cases hx : xbcol dx i j with
        | nan => exact .inl ⟨rfl, normLogpdfX_nan _⟩
        | pinf => exact .inr (.inl ⟨nofun, nofun, (normLogpdfX_inf hpos _).1⟩)
        | ninf => exact .inr (.inl ⟨nofun, nofun, (normLogpdfX_inf hpos _).2⟩)
        | fin r => exact .inr (.inr ⟨⟨r, rfl⟩, _, normLogpdfX_fin hpos _ _⟩)
      generalize hL : (List.range (dx.rows * c)).map (fun k => normLogpdfX (xentry (mean.map .fin) (k % c)) (xentry (std.map .fin) (k % c))
        (xbcol dx (k / c) (k % c))) = L at h
      have hmem : ∀ y, y ∈ L ↔ ∃ i < dx.rows, ∃ j < c, normLogpdfX (xentry (mean.map .fin) j) (xentry (std.map .fin) j) (xbcol dx i j) = y := by
        intro y
        rw [← hL]
        exact mem_blocks (fun i j => normLogpdfX (xentry (mean.map .fin) j) (xentry (std.map .fin) j) (xbcol dx i j)) _ _ _
      have hp : XF.pinf ∉ L := by
        intro hp
        obtain ⟨i, -, j, hj, e⟩ := (hmem _).mp hp
        rcases hterm i j hj with ⟨-, e'⟩ | ⟨-, -, e'⟩ | ⟨-, r, e'⟩ <;> rw [e'] at e <;> cases e
      rcases xsum_cases hp with ⟨hn, e⟩ | ⟨hn, hi, e⟩ | ⟨hf, r, e⟩ <;> rw [e] at h
      · left
        refine ⟨h.symm, ?_⟩
        obtain ⟨i, hi, j, hj, e⟩ := (hmem _).mp hn
        rcases hterm i j hj with ⟨e', -⟩ | ⟨-, -, e'⟩ | ⟨-, r, e'⟩
        · obtain ⟨j', hj', e2⟩ := hcol i j hj
          exact ⟨i, hi, j', hj', by rw [← e2, e']⟩
        · rw [e'] at e; cases e
        · rw [e'] at e; cases e
      · right; left
        refine ⟨by rw [← h, neg_one_mul_ninf], ?_, ?_⟩
        · intro i hi j hj e
          obtain ⟨j', hj', e2⟩ := hcol' i j hj
          rcases hterm i j' hj' with ⟨-, e'⟩ | ⟨e', -⟩ | ⟨⟨r, e'⟩, -⟩
          · exact hn ((hmem _).mpr ⟨i, hi, j', hj', e'⟩)
          · exact e' (e2.trans e)
          · rw [e2, e] at e'; cases e'
        · obtain ⟨i, hi, j, hj, e⟩ := (hmem _).mp hi
          rcases hterm i j hj with ⟨-, e'⟩ | ⟨-, hne, -⟩ | ⟨-, r, e'⟩
          · rw [e'] at e; cases e
          · obtain ⟨j', hj', e2⟩ := hcol i j hj
            exact ⟨i, hi, j', hj', by rw [← e2]; exact hne⟩
          · rw [e'] at e; cases e
      · right; right
        refine ⟨⟨-r, by rw [← h, neg_one_mul_fin]⟩, fun i hi j hj => ?_⟩
        obtain ⟨j', hj', e2⟩ := hcol' i j hj
        rw [← e2]
        obtain ⟨r', hr'⟩ := hf _ ((hmem _).mpr ⟨i, hi, j', hj', rfl⟩)
        rcases hterm i j' hj' with ⟨-, e'⟩ | ⟨-, -, e'⟩ | ⟨hf', -⟩
        · rw [hr'] at e'; cases e'
        · rw [hr'] at e'; cases e'
        · exact hf'

theorem mul_self_fin {w : XF} (h : Fin' (w * w)) : Fin' w := by
  cases w with
  | fin r => exact ⟨r, rfl⟩
  | nan => obtain ⟨_, h⟩ := h; cases h
  | pinf => obtain ⟨_, h⟩ := h; cases h
  | ninf => obtain ⟨_, h⟩ := h; cases h

theorem mul_fin_fin {w : XF} {c : ℝ} (h : Fin' (w * .fin c)) : Fin' w := by
  cases w with
  | fin r => exact ⟨r, rfl⟩
  | nan => obtain ⟨_, h⟩ := h; cases h
  | pinf =>
    obtain ⟨r, h⟩ := h
    change XF.infSign c = _ at h
    unfold XF.infSign at h
    split at h <;> [cases h; (split at h <;> cases h)]
  | ninf =>
    obtain ⟨r, h⟩ := h
    change XF.infSign (-c) = _ at h
    unfold XF.infSign at h
    split at h <;> [cases h; (split at h <;> cases h)]

/-- The logarithmic density of several variates: a missing deviation gives `nan`, a number comes from numbers only. -/
theorem mvnLogpdfX_value {d : Nat} {ps : List (Pair d)} (hne : ps ≠ []) (hp : ∀ p ∈ ps, 0 < p.1) (dev : Fin d → XF) :
    ((∃ k, dev k = .nan) → mvnLogpdfX ps dev = .nan) ∧ (Fin' (mvnLogpdfX ps dev) ↔ ∀ k, Fin' (dev k)) := by
  obtain ⟨p0, hp0⟩ := List.exists_mem_of_ne_nil ps hne
  refine ⟨fun ⟨k, hk⟩ => ?_, fun h => ?_, fun h => ?_⟩
  · unfold mvnLogpdfX
    rw [xsum_nan]
    · rfl
    · refine List.mem_map.mpr ⟨p0, hp0, ?_⟩
      rw [xsum_nan (List.mem_map.mpr ⟨k, List.mem_finRange k, by rw [hk]; rfl⟩)]
      rfl
  · unfold mvnLogpdfX at h
    have hs : Fin' (xsum (ps.map fun p =>
      xsum ((List.finRange d).map fun k => dev k * .fin (p.2 k * Real.sqrt (1 / p.1))) *
      xsum ((List.finRange d).map fun k => dev k * .fin (p.2 k * Real.sqrt (1 / p.1))))) := by
      generalize xsum (ps.map _) = w at h
      cases w with
      | fin r => exact ⟨r, rfl⟩
      | nan => obtain ⟨_, h⟩ := h; cases h
      | pinf =>
        obtain ⟨r, h⟩ := h
        change XF.infSign (-(1 / 2)) = _ at h
        unfold XF.infSign at h
        split at h <;> [cases h; (split at h <;> cases h)]
      | ninf =>
        obtain ⟨r, h⟩ := h
        change XF.infSign (-(-(1 / 2))) = _ at h
        unfold XF.infSign at h
        split at h <;> [cases h; (split at h <;> cases h)]
    intro k
    exact mul_fin_fin (xsum_finite (mul_self_fin (xsum_finite hs _ (List.mem_map.mpr ⟨p0, hp0, rfl⟩))) _
      (List.mem_map.mpr ⟨k, List.mem_finRange k, rfl⟩))
  · choose f hf using h
    have : dev = fun k => .fin (f k) := funext hf
    rw [this]
    exact ⟨_, mvnLogpdfX_fin hp f⟩

theorem sub_fin_iff {w : XF} {c : ℝ} : Fin' (w - .fin c) ↔ Fin' w := by
  cases w with
  | fin r => exact ⟨fun _ => ⟨r, rfl⟩, fun _ => ⟨_, rfl⟩⟩
  | nan => exact Iff.rfl
  | pinf => exact Iff.rfl
  | ninf => exact Iff.rfl

/-- C97. With numbers for the parameters and positive scales: one missing deviation makes the likelihood `nan`, it is a number exactly
when all deviations are, and without correlation an infinite deviation makes it `+inf` unless one is missing. -/
theorem gaussX_value (he : EighAll eigh) {mean std : List ℝ} (hs : ∀ s ∈ std, 0 < s) (hm0 : mean ≠ []) (hs0 : std ≠ [])
    (h : gaussNllX eigh (mean.map .fin) (std.map .fin) cor dx = .ok v) :
    ((∃ i < dx.rows, ∃ j < dx.cols, dx.get i j = .nan) → v = .nan) ∧
    (Fin' v ↔ ∀ i < dx.rows, ∀ j < dx.cols, Fin' (dx.get i j)) ∧
    (cor = none → (∀ i < dx.rows, ∀ j < dx.cols, dx.get i j ≠ .nan) → (∃ i < dx.rows, ∃ j < dx.cols, ¬ Fin' (dx.get i j)) → v = .pinf) := by
  cases cor with
  | none =>
    rcases normNllX_value hs hm0 hs0 h with ⟨hv, i, hi, j, hj, e⟩ | ⟨hv, hn, i, hi, j, hj, e⟩ | ⟨hv, hf⟩
    · refine ⟨fun _ => hv, ⟨fun ⟨r, hr⟩ => ?_, fun hf => ?_⟩, fun _ hn => (hn i hi j hj e).elim⟩
      · rw [hv] at hr; cases hr
      · obtain ⟨r, hr⟩ := hf i hi j hj
        rw [e] at hr; cases hr
    · refine ⟨fun ⟨i, hi, j, hj, e⟩ => (hn i hi j hj e).elim, ⟨fun ⟨r, hr⟩ => ?_, fun hf => (e (hf i hi j hj)).elim⟩, fun _ _ _ => hv⟩
      rw [hv] at hr; cases hr
    · refine ⟨fun ⟨i, hi, j, hj, e⟩ => ?_, ⟨fun _ => hf, fun _ => hv⟩, fun _ _ ⟨i, hi, j, hj, e⟩ => (e (hf i hi j hj)).elim⟩
      obtain ⟨r, hr⟩ := hf i hi j hj
      rw [e] at hr; cases hr
  | some c =>
    change mvnNllX _ _ _ _ _ = _ at h
    unfold mvnNllX at h
    rw [reals_fin] at h
    split at h
    · cases h
    split at h
    · cases h
    split at h
    · cases h
    rename_i hlen _
    simp only [List.length_map, not_or, not_not] at hlen
    unfold mvnSumX at h
    cases hck : psdCheck (eigh std.length (covMat std.length std c)) with
    | error e => rw [hck] at h; cases h
    | ok u =>
      rw [hck] at h
      change (if _ then _ else _) = _ at h
      split at h
      swap
      · cases h
      rename_i hcol
      injection h with h
      have hps : eigh std.length (covMat std.length std c) ≠ [] := by
        have := (he std.length _ (covMat_symm (d := std.length) std c)).2.1
        intro h0
        rw [h0] at this
        exact hlen.2 this.symm
      have hval := fun i => mvnLogpdfX_value hps (psdCheck_pos hck) fun k => xbcol dx i k - (mean.map XF.fin).getD k .nan
      have hdev : ∀ i, ∀ k : Fin std.length, ∃ r, xbcol dx i k - (mean.map XF.fin).getD k .nan = xbcol dx i k - .fin r := by
        intro i k
        have : (k : Nat) < mean.length := by have := k.2; omega
        exact ⟨mean[(k : Nat)], by rw [List.getD_eq_getElem _ _ (by simpa using this), List.getElem_map]⟩
      have hnan : (∃ i < dx.rows, ∃ j < dx.cols, dx.get i j = .nan) → v = .nan := by
        rintro ⟨i, hi, j, hj, e⟩
        rw [← h, xsum_nan]
        · rfl
        refine List.mem_map.mpr ⟨i, List.mem_range.mpr hi, (hval i).1 ?_⟩
        have hk : ∃ k : Fin std.length, xbcol dx i k = .nan := by
          unfold xbcol
          by_cases h1 : dx.cols = 1
          · refine ⟨⟨0, by omega⟩, ?_⟩
            rw [if_pos h1, ← e, show j = 0 by omega]
          · refine ⟨⟨j, by omega⟩, ?_⟩
            rw [if_neg h1, ← e]
        obtain ⟨k, hk⟩ := hk
        obtain ⟨r, hr⟩ := hdev i k
        exact ⟨k, by rw [hr, hk]; rfl⟩
      refine ⟨hnan, ⟨fun hf i hi j hj => ?_, fun hf => ?_⟩, fun h => by cases h⟩
      · rw [← h] at hf
        have hs : Fin' (xsum ((List.range dx.rows).map fun i => mvnLogpdfX (eigh std.length (covMat std.length std c)) fun k =>
            xbcol dx i k - (mean.map XF.fin).getD k .nan)) := by
          generalize xsum _ = w at hf
          cases w with
          | fin r => exact ⟨r, rfl⟩
          | nan => obtain ⟨_, h⟩ := hf; cases h
          | pinf =>
            obtain ⟨r, h⟩ := hf
            change XF.infSign (-1) = _ at h
            unfold XF.infSign at h
            split at h <;> [cases h; (split at h <;> cases h)]
          | ninf =>
            obtain ⟨r, h⟩ := hf
            change XF.infSign (- -1) = _ at h
            unfold XF.infSign at h
            split at h <;> [cases h; (split at h <;> cases h)]
        have := (hval i).2.mp (xsum_finite hs _ (List.mem_map.mpr ⟨i, List.mem_range.mpr hi, rfl⟩))
        have hk : ∃ k : Fin std.length, xbcol dx i k = dx.get i j := by
          unfold xbcol
          by_cases h1 : dx.cols = 1
          · refine ⟨⟨0, by omega⟩, ?_⟩
            rw [if_pos h1, show j = 0 by omega]
          · refine ⟨⟨j, by omega⟩, ?_⟩
            rw [if_neg h1]
        obtain ⟨k, hk⟩ := hk
        obtain ⟨r, hr⟩ := hdev i k
        have := this k
        rw [hr, sub_fin_iff, hk] at this
        exact this
      · have : ∀ w ∈ (List.range dx.rows).map (fun i => mvnLogpdfX (eigh std.length (covMat std.length std c)) fun k =>
            xbcol dx i k - (mean.map XF.fin).getD k .nan), Fin' w := by
          intro w hw
          obtain ⟨i, hi, rfl⟩ := List.mem_map.mp hw
          refine (hval i).2.mpr fun k => ?_
          obtain ⟨r, hr⟩ := hdev i k
          rw [hr, sub_fin_iff]
          have := k.2
          unfold xbcol
          split
          · exact hf i (List.mem_range.mp hi) 0 (by omega)
          · exact hf i (List.mem_range.mp hi) k (by omega)
        obtain ⟨m, hm⟩ := all_fin this
        rw [← h, hm, xsum_fin]
        exact ⟨_, neg_one_mul_fin _⟩

/-! ### Brownian motion -/

theorem sub_finite {a b : XF} : Fin' (b - a) ↔ Fin' a ∧ Fin' b := by
  constructor
  · rintro ⟨r, hr⟩
    cases a <;> cases b <;> first | exact ⟨⟨_, rfl⟩, ⟨_, rfl⟩⟩ | cases hr
  · rintro ⟨⟨r, rfl⟩, ⟨s, rfl⟩⟩
    exact ⟨_, rfl⟩

theorem diffRowsX_get (x : XArr) (i j : Nat) : (diffRowsX x).get i j = x.get (i + 1) j - x.get i j := by
  show x.data (i * x.cols + j + x.cols) - x.data (i * x.cols + j) = x.data ((i + 1) * x.cols + j) - x.data (i * x.cols + j)
  congr 2
  ring

/-- C97. Brownian motion: the likelihood is a number exactly when every value is; one missing value makes it `nan`; without correlation
infinite values that never follow each other make it `+inf`. -/
theorem bm_nll_special (he : EighAll eigh) {drift vol : List ℝ} (hvol : ∀ s ∈ vol, 0 < s) (hd0 : drift ≠ []) (hv0 : vol ≠ [])
    (hdt : 0 < dt) (hrows : 2 ≤ x.rows) (h : bmNllX eigh (drift.map .fin) (vol.map .fin) cor x dt = .ok v) :
    (Fin' v ↔ ∀ i < x.rows, ∀ j < x.cols, Fin' (x.get i j)) ∧
    ((∃ i < x.rows, ∃ j < x.cols, x.get i j = .nan) → v = .nan) ∧
    (cor = none → (∀ i < x.rows, ∀ j < x.cols, x.get i j ≠ .nan) → (∃ i < x.rows, ∃ j < x.cols, ¬ Fin' (x.get i j)) →
      (∀ i, i + 1 < x.rows → ∀ j < x.cols, Fin' (x.get i j) ∨ Fin' (x.get (i + 1) j)) → v = .pinf) := by
  unfold bmNllX at h
  rw [map_mul_fin, map_mul_fin] at h
  have hdr : (diffRowsX x).rows = x.rows - 1 := rfl
  have hdc : (diffRowsX x).cols = x.cols := rfl
  obtain ⟨h1, h2, h3⟩ := gaussX_value he (fun s hs => by
    obtain ⟨w, hw, rfl⟩ := List.mem_map.mp hs
    exact mul_pos (hvol w hw) (Real.sqrt_pos.mpr hdt)) (by simpa using hd0) (by simpa using hv0) h
  rw [hdr, hdc] at h1 h2 h3
  have hall : (∀ i < x.rows - 1, ∀ j < x.cols, Fin' ((diffRowsX x).get i j)) ↔ ∀ i < x.rows, ∀ j < x.cols, Fin' (x.get i j) := by
    constructor
    · intro hf i hi j hj
      by_cases hl : i + 1 < x.rows
      · have := hf i (by omega) j hj
        rw [diffRowsX_get, sub_finite] at this
        exact this.1
      · have := hf (i - 1) (by omega) j hj
        rw [diffRowsX_get, sub_finite, show i - 1 + 1 = i by omega] at this
        exact this.2
    · intro hf i hi j hj
      rw [diffRowsX_get, sub_finite]
      exact ⟨hf i (by omega) j hj, hf (i + 1) (by omega) j hj⟩
  refine ⟨by rw [h2, hall], fun ⟨i, hi, j, hj, e⟩ => ?_, fun hc hn hinf halt => h3 hc ?_ ?_⟩
  · by_cases hl : i + 1 < x.rows
    · refine h1 ⟨i, by omega, j, hj, ?_⟩
      rw [diffRowsX_get, e]
      cases x.get (i + 1) j <;> rfl
    · refine h1 ⟨i - 1, by omega, j, hj, ?_⟩
      rw [diffRowsX_get, show i - 1 + 1 = i by omega, e]
      rfl
  · intro i hi j hj e
    rw [diffRowsX_get] at e
    have n1 := hn i (by omega) j hj
    have n2 := hn (i + 1) (by omega) j hj
    rcases halt i (by omega) j hj with ⟨r, hr⟩ | ⟨r, hr⟩
    · rw [hr] at e
      cases hb : x.get (i + 1) j <;> rw [hb] at e <;> first | exact n2 hb | cases e
    · rw [hr] at e
      cases hb : x.get i j <;> rw [hb] at e <;> first | exact n1 hb | cases e
  · by_contra hcon
    push Not at hcon
    obtain ⟨i, hi, j, hj, e⟩ := hinf
    exact e (hall.mp hcon i hi j hj)

/-- C97. The values of the data never make the likelihood of a Brownian motion fail. -/
theorem bm_nll_never_raises {drift vol : List XF} {y : XArr} (hc : x.cols = y.cols) {e : PyErr} :
    bmNllX eigh drift vol cor x dt = .error e ↔ bmNllX eigh drift vol cor y dt = .error e := by
  unfold bmNllX
  exact gaussNllX_error (a := diffRowsX x) (b := diffRowsX y) _ _ _ hc

/-! ### Geometric Brownian motion -/

theorem logRatioRowsX_get (x : XArr) (i j : Nat) : (logRatioRowsX x).get i j = (x.get (i + 1) j / x.get i j).log := by
  show (x.data (i * x.cols + j + x.cols) / x.data (i * x.cols + j)).log = (x.data ((i + 1) * x.cols + j) / x.data (i * x.cols + j)).log
  congr 3
  ring

theorem mem_logRatiosX {c : List XF} {d : XF} : d ∈ logRatiosX c ↔ ∃ i, i + 1 < c.length ∧ (c.getD (i + 1) .nan / c.getD i .nan).log = d := by
  induction c with
  | nil => simp [logRatiosX]
  | cons a l ih =>
    cases l with
    | nil => simp [logRatiosX]
    | cons b l =>
      rw [logRatiosX, List.mem_cons, ih]
      constructor
      · rintro (rfl | ⟨i, hi, e⟩)
        · exact ⟨0, by simp, rfl⟩
        · exact ⟨i + 1, by simpa using hi, e⟩
      · rintro ⟨i, hi, e⟩
        cases i with
        | zero => exact .inl e.symm
        | succ i => exact .inr ⟨i, by simpa using hi, e⟩

theorem usable_rows {j : Nat} (hrows : 2 ≤ x.rows) : Usable x j ↔ ∀ i < x.rows - 1, Fin' ((logRatioRowsX x).get i j) := by
  rw [usable_iff hrows]
  have hg : ∀ i < x.rows, (x.col j).getD i .nan = x.get i j := by
    intro i hi
    rw [List.getD_eq_getElem _ _ (by rw [length_col]; exact hi)]
    simp [XArr.col]
  constructor
  · intro h i hi
    refine h _ (mem_logRatiosX.mpr ⟨i, by rw [length_col]; omega, ?_⟩)
    rw [hg _ (by omega), hg _ (by omega), logRatioRowsX_get]
  · intro h d hd
    obtain ⟨i, hi, rfl⟩ := mem_logRatiosX.mp hd
    rw [length_col] at hi
    rw [hg _ (by omega), hg _ (by omega), ← logRatioRowsX_get]
    exact h i (by omega)

theorem div_nan_left (b : XF) : (XF.nan / b : XF) = .nan := by cases b <;> rfl

theorem div_nan_right (a : XF) : (a / XF.nan : XF) = .nan := by cases a <;> rfl

/-- C97. Geometric Brownian motion: the likelihood is a number exactly when every column has only positive or only negative numbers; one
missing value makes it `nan`; without correlation a price that is zero, between positive prices, makes it `+inf`. -/
theorem gbm_nll_special (he : EighAll eigh) {drift vol : List ℝ} (hvol : ∀ s ∈ vol, 0 < s) (hd0 : drift ≠ []) (hv0 : vol ≠ [])
    (hdt : 0 < dt) (hrows : 2 ≤ x.rows) (h : gbmNllX eigh (drift.map .fin) (vol.map .fin) cor x dt = .ok v) :
    (Fin' v ↔ ∀ j < x.cols, Usable x j) ∧
    ((∃ i < x.rows, ∃ j < x.cols, x.get i j = .nan) → v = .nan) ∧
    (cor = none → (∀ i < x.rows, ∀ j < x.cols, ∃ r : ℝ, 0 ≤ r ∧ x.get i j = .fin r) →
      (∀ i, i + 1 < x.rows → ∀ j < x.cols, x.get i j ≠ .fin 0 ∨ x.get (i + 1) j ≠ .fin 0) →
      (∃ i < x.rows, ∃ j < x.cols, x.get i j = .fin 0) → v = .pinf) := by
  unfold gbmNllX at h
  rw [xzip_fin (g := fun d v => d - 0.5 * v ^ 2) fun a b => by
    show XF.fin (a + -(1 / 2 * (b * b))) = _
    congr 1
    ring] at h
  cases hm : bzip (fun d v => d - 0.5 * v ^ 2) drift vol with
  | error e => rw [hm] at h; cases h
  | ok m =>
    rw [hm] at h
    change gaussNllX eigh (m.map .fin) _ cor _ = _ at h
    rw [map_mul_fin] at h
    have hm0 : m ≠ [] := by
      have h1 := List.length_pos_iff.mpr hd0
      have h2 := List.length_pos_iff.mpr hv0
      rw [← List.length_pos_iff]
      unfold bzip at hm
      split at hm
      · cases hm; rw [List.length_zipWith]; omega
      split at hm
      · cases hm; rw [List.length_map]; omega
      split at hm
      · cases hm; rw [List.length_map]; omega
      · cases hm
    have hdr : (logRatioRowsX x).rows = x.rows - 1 := rfl
    have hdc : (logRatioRowsX x).cols = x.cols := rfl
    obtain ⟨h1, h2, h3⟩ := gaussX_value he (fun s hs => by
      obtain ⟨w, hw, rfl⟩ := List.mem_map.mp hs
      exact mul_pos (hvol w hw) (Real.sqrt_pos.mpr hdt)) hm0 (by simpa using hv0) h
    rw [hdr, hdc] at h1 h2 h3
    have hall : (∀ i < x.rows - 1, ∀ j < x.cols, Fin' ((logRatioRowsX x).get i j)) ↔ ∀ j < x.cols, Usable x j := by
      constructor
      · exact fun hf j hj => (usable_rows hrows).mpr fun i hi => hf i hi j hj
      · exact fun hf i hi j hj => (usable_rows hrows).mp (hf j hj) i hi
    refine ⟨by rw [h2, hall], fun ⟨i, hi, j, hj, e⟩ => ?_, fun hc hn halt hz => h3 hc ?_ ?_⟩
    · by_cases hl : i + 1 < x.rows
      · refine h1 ⟨i, by omega, j, hj, ?_⟩
        rw [logRatioRowsX_get, e, div_nan_right]
        rfl
      · refine h1 ⟨i - 1, by omega, j, hj, ?_⟩
        rw [logRatioRowsX_get, show i - 1 + 1 = i by omega, e, div_nan_left]
        rfl
    · intro i hi j hj e
      rw [logRatioRowsX_get] at e
      obtain ⟨a, ha, ea⟩ := hn i (by omega) j hj
      obtain ⟨b, hb, eb⟩ := hn (i + 1) (by omega) j hj
      have h0 := halt i (by omega) j hj
      rw [ea, eb] at e h0
      change XF.log (if a = 0 then XF.infSign b else .fin (b / a)) = _ at e
      split at e
      · rename_i ha0
        rw [ha0] at h0
        have hb' : 0 < b := lt_of_le_of_ne hb fun hb0 => by
          rcases h0 with h0 | h0
          · exact h0 rfl
          · exact h0 (by rw [← hb0])
        rw [XF.infSign, if_pos hb'] at e
        cases e
      · change (if 0 < b / a then XF.fin (Real.log (b / a)) else if b / a = 0 then XF.ninf else XF.nan) = _ at e
        split at e
        · cases e
        split at e
        · cases e
        · rename_i h4 h5
          exact h4 (lt_of_le_of_ne (div_nonneg hb ha) (Ne.symm h5))
    · by_contra hcon
      push Not at hcon
      obtain ⟨i, hi, j, hj, e⟩ := hz
      rcases hall.mp hcon j hj with hu | hu
      · obtain ⟨r, hr', hr⟩ := hu i hi
        rw [e] at hr
        cases hr
        exact lt_irrefl _ hr'
      · obtain ⟨r, hr', hr⟩ := hu i hi
        rw [e] at hr
        cases hr
        exact lt_irrefl _ hr'

end Verif.Sim
