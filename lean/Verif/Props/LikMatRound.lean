import Verif.Props.LikRound
import Verif.Props.SimLikMore

/-!
# C135: likelihoods of several variates without correlation, in floats
-/

namespace Verif.Sim

open Verif Round Finset Cov

variable {fl : ℝ → ℝ} {dt : ℝ} {ord : List ℝ → SumTree} {n d : Nat} {drift vol : List ℝ} {x : Arr}

/-- A sum over an array in memory order. -/
theorem sum_flat (n d : Nat) (g : Nat → Nat → ℝ) : ∑ i ∈ range (n * d), g (i / d) (i % d) = ∑ t ∈ range n, ∑ j ∈ range d, g t j := by
  induction n with
  | zero => simp
  | succ n ih =>
    rw [Nat.succ_mul, sum_range_add, ih, sum_range_succ]
    congr 1
    refine sum_congr rfl fun j hj => ?_
    have hj := mem_range.mp hj
    rw [show n * d + j = j + d * n by ring, Nat.add_mul_div_left _ _ (by omega), Nat.add_mul_mod_self_left, Nat.div_eq_of_lt hj,
      Nat.mod_eq_of_lt hj, Nat.zero_add]

theorem nll_mat_close (R : Rounding fl) (ho : IsSum ord) (hn : 1 ≤ n) (hd : 1 ≤ d) {k j : Nat} {f A p : Nat → Nat → ℝ} {m M q s S : Nat → ℝ}
    (hf : ∀ t < n, ∀ i < d, Close k (f t i) (A t i) (p t i)) (hm : ∀ i < d, Close k (m i) (M i) (q i)) (hS : ∀ i < d, 0 < S i)
    (hs : ∀ i < d, Upto ((1 - u64) ^ j) (s i) (S i)) (hj : 1 ≤ j) :
    Close (2 * k + 4 * j + 7 + n * d) (nllMatR fl ord m s n d f) (-∑ t ∈ range n, ∑ i ∈ range d, normLogpdf (M i) (S i) (A t i))
      (∑ t ∈ range n, ∑ i ∈ range d, pdfSize (p t i + q i) (S i)) := by
  unfold nllMatR
  have h1 : 1 ≤ n * d := Nat.mul_pos hn hd
  have := (tree_close R h1 ho (f := fun i => logpdfR fl (m (i % d)) (s (i % d)) (f (i / d) (i % d)))
    (A := fun i => normLogpdf (M (i % d)) (S (i % d)) (A (i / d) (i % d))) (p := fun i => pdfSize (p (i / d) (i % d) + q (i % d)) (S (i % d)))
    fun i hi => by
      have a1 : i % d < d := Nat.mod_lt _ hd
      have a2 : i / d < n := Nat.div_lt_of_lt_mul (by rwa [mul_comm] at hi)
      exact logpdf_close R (hf _ a2 _ a1) (hm _ a1) (hS _ a1) (hs _ a1) hj).neg
  rw [sum_flat n d fun t i => normLogpdf (M i) (S i) (A t i), sum_flat n d fun t i => pdfSize (p t i + q i) (S i)] at this
  exact this.mono (by omega)

/-- C135. Several Brownian motions without correlation: `n` rows of increments, `d` columns. -/
theorem bm_nll_mat_round (R : Rounding fl) (ho : IsSum ord) (hn : 1 ≤ n) (hd : 1 ≤ d) (hdt : 0 < dt) (hdr : drift.length = d)
    (hv : vol.length = d) (hpos : ∀ k < d, 0 < vol.getD k 0) (hx : x.cols = d) (hr : x.rows = n + 1)
    (eigh : (d : Nat) → Mat d → List (Pair d)) :
    ∃ L, bmNllFull eigh drift vol none x dt = .ok (.fin L) ∧ |bmNllMatR fl ord drift vol dt x - L| ≤ ((1 + u64) ^ (n * d + 17) - 1) *
      ∑ t ∈ range n, ∑ j ∈ range d, pdfSize (|x.get (t + 1) j - x.get t j| + |drift.getD j 0 * dt|) (vol.getD j 0 * Real.sqrt dt) := by
  refine ⟨_, bm_nll_columns hdr hv hx hpos hdt, ?_⟩
  have h := (nll_mat_close R ho hn hd (k := 1) (f := fun t j => fl (x.get (t + 1) j - x.get t j)) (A := fun t j => x.get (t + 1) j - x.get t j)
    (p := fun t j => |x.get (t + 1) j - x.get t j|) (fun t _ j _ => (Close.refl _).rd R) (fun j _ => (Close.refl (drift.getD j 0 * dt)).rd R)
    (fun j hj => mul_pos (hpos j hj) (Real.sqrt_pos.mpr hdt)) (fun j _ => scale_upto R (vol.getD j 0) dt) (by omega)).2
  have e : (∑ j ∈ range d, bmNll (drift.getD j 0) (vol.getD j 0) dt (x.col j)) =
      -∑ t ∈ range n, ∑ j ∈ range d, normLogpdf (drift.getD j 0 * dt) (vol.getD j 0 * Real.sqrt dt) (x.get (t + 1) j - x.get t j) := by
    rw [sum_comm, ← sum_neg_distrib]
    refine sum_congr rfl fun j _ => ?_
    unfold bmNll nllCol Arr.col
    rw [hr, diffs_range, List.map_map, sum_map_range]
    rfl
  unfold bmNllMatR
  rw [e, hr, hx, Nat.add_sub_cancel]
  rwa [show 2 * 1 + 4 * 2 + 7 + n * d = n * d + 17 by omega] at h

/-- C135. And several geometric ones. -/
theorem gbm_nll_mat_round (R : Rounding fl) (ho : IsSum ord) (hn : 1 ≤ n) (hd : 1 ≤ d) (hdt : 0 < dt) (hdr : drift.length = d)
    (hv : vol.length = d) (hpos : ∀ k < d, 0 < vol.getD k 0) (hx : x.cols = d) (hr : x.rows = n + 1)
    (hp : ∀ t ≤ n, ∀ j < d, 0 < x.get t j) (eigh : (d : Nat) → Mat d → List (Pair d)) :
    ∃ L, gbmNllFull eigh drift vol none x dt = .ok (.fin L) ∧ |gbmNllMatR fl ord drift vol dt x - L| ≤ ((1 + u64) ^ (n * d + 21) - 1) *
      ∑ t ∈ range n, ∑ j ∈ range d, pdfSize (|Real.log (x.get (t + 1) j / x.get t j)| + 1 + (|drift.getD j 0| + 0.5 * vol.getD j 0 ^ 2))
        (vol.getD j 0 * Real.sqrt dt) := by
  have hz : ∀ k, (vol.map (· * Real.sqrt dt)).getD k 0 = vol.getD k 0 * Real.sqrt dt := fun k => by
    simp only [List.getD_eq_getElem?_getD, List.getElem?_map]
    cases vol[k]? <;> simp
  have hb : bzip (fun d v => d - 0.5 * v ^ 2) drift vol = .ok (List.zipWith (fun d v => d - 0.5 * v ^ 2) drift vol) := by
    unfold bzip
    rw [if_pos (by omega)]
  have hg : ∀ k < d, (List.zipWith (fun d v : ℝ => d - 0.5 * v ^ 2) drift vol).getD k 0 = drift.getD k 0 - 0.5 * vol.getD k 0 ^ 2 := fun k hk => by
    simp only [List.getD_eq_getElem?_getD, List.getElem?_zipWith]
    rw [List.getElem?_eq_getElem (by omega), List.getElem?_eq_getElem (by omega)]
    rfl
  have hl := normNll_eq (mean := List.zipWith (fun d v : ℝ => d - 0.5 * v ^ 2) drift vol) (std := vol.map (· * Real.sqrt dt))
    (dx := logRatioRows x) (d := d) (by simp; omega) (by simpa using hv) hx
    (fun k hk => by rw [hz]; exact mul_pos (hpos k hk) (Real.sqrt_pos.mpr hdt))
  have hfull : gbmNllFull eigh drift vol none x dt =
      normNll (List.zipWith (fun d v : ℝ => d - 0.5 * v ^ 2) drift vol) (vol.map (· * Real.sqrt dt)) (logRatioRows x) := by
    unfold gbmNllFull
    rw [hb]
    rfl
  refine ⟨_, hfull.trans hl, ?_⟩
  have h := (nll_mat_close R ho hn hd (k := 3) (f := fun t j => fl (Real.log (fl (x.get (t + 1) j / x.get t j))))
    (A := fun t j => Real.log (x.get (t + 1) j / x.get t j)) (p := fun t j => |Real.log (x.get (t + 1) j / x.get t j)| + 1)
    (fun t ht j hj => by
      have := logIncR_close R (hp t (by omega) j hj) (hp (t + 1) (by omega) j hj)
      rw [← Real.log_div (hp (t + 1) (by omega) j hj).ne' (hp t (by omega) j hj).ne'] at this
      exact this.mono (by omega))
    (m := fun j => fl (drift.getD j 0 - fl (0.5 * fl (vol.getD j 0 ^ 2)))) (M := fun j => drift.getD j 0 - 0.5 * vol.getD j 0 ^ 2)
    (q := fun j => |drift.getD j 0| + 0.5 * vol.getD j 0 ^ 2)
    (fun j _ => by
      have h1 := (((Close.refl (0.5 : ℝ)).mul ((Close.refl (vol.getD j 0 ^ 2)).rd R)).rd R)
      have h2 := (((Close.refl (drift.getD j 0)).mono (m := 2) (by omega)).sub h1).rd R
      rwa [abs_of_nonneg (by positivity : (0 : ℝ) ≤ vol.getD j 0 ^ 2), abs_of_pos (by norm_num : (0 : ℝ) < 0.5)] at h2)
    (fun j hj => mul_pos (hpos j hj) (Real.sqrt_pos.mpr hdt)) (fun j _ => scale_upto R (vol.getD j 0) dt) (by omega)).2
  have e : (∑ i ∈ range (logRatioRows x).rows, ∑ j ∈ range d, normLogpdf ((List.zipWith (fun d v : ℝ => d - 0.5 * v ^ 2) drift vol).getD j 0)
      ((vol.map (· * Real.sqrt dt)).getD j 0) ((logRatioRows x).get i j)) =
      ∑ t ∈ range n, ∑ j ∈ range d, normLogpdf (drift.getD j 0 - 0.5 * vol.getD j 0 ^ 2) (vol.getD j 0 * Real.sqrt dt)
        (Real.log (x.get (t + 1) j / x.get t j)) := by
    rw [show (logRatioRows x).rows = n by unfold logRatioRows; simp [hr]]
    refine sum_congr rfl fun t _ => sum_congr rfl fun j hj => ?_
    rw [hz, hg j (mem_range.mp hj)]
    unfold Arr.get logRatioRows
    simp only
    congr 4
    ring
  unfold gbmNllMatR
  rw [e, hr, hx, Nat.add_sub_cancel]
  rwa [show 2 * 3 + 4 * 2 + 7 + n * d = n * d + 21 by omega] at h

/-- C135. Without rounding both are the exact likelihoods. -/
theorem nllMat_id (ho : IsSum ord) (hn : 1 ≤ n) (hd : 1 ≤ d) {m s : Nat → ℝ} (hs : ∀ j < d, 0 < s j) (dx : Nat → Nat → ℝ) :
    nllMatR id ord m s n d dx = -∑ t ∈ range n, ∑ j ∈ range d, normLogpdf (m j) (s j) (dx t j) := by
  have h1 : 1 ≤ n * d := Nat.mul_pos hn hd
  unfold nllMatR
  rw [round_sum_id_agrees.1, (ho _ (by simp; omega)).sum_eq, sum_map_range, ← sum_flat]
  congr 1
  refine sum_congr rfl fun i _ => ?_
  rw [normLogpdf_std (hs _ (Nat.mod_lt _ hd))]
  rfl

/-- Two Brownian motions over one step. -/
example (ho : IsSum ord) (eigh : (d : Nat) → Mat d → List (Pair d)) :
    ∃ L, bmNllFull eigh [1, 2] [1, 3] none (Arr.ofList 2 2 [0, 1, 2, 5]) 1 = .ok (.fin L) ∧
      |bmNllMatR b64 ord [1, 2] [1, 3] 1 (Arr.ofList 2 2 [0, 1, 2, 5]) - L| ≤ ((1 + u64) ^ 19 - 1) * (pdfSize 3 1 + pdfSize 6 3) := by
  obtain ⟨L, h1, h2⟩ := bm_nll_mat_round b64_rounding ho (n := 1) (d := 2) (drift := [1, 2]) (vol := [1, 3])
    (x := Arr.ofList 2 2 [0, 1, 2, 5]) le_rfl (by norm_num) one_pos rfl rfl (by
      intro k hk
      interval_cases k <;> simp) rfl rfl eigh
  refine ⟨L, h1, h2.trans_eq ?_⟩
  congr 1
  simp [sum_range_succ, Arr.get, Arr.ofList]
  norm_num

end Verif.Sim
