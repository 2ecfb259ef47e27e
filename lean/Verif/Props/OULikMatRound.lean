import Verif.Props.OULikRound
import Verif.Props.LikMatRound
import Verif.Props.SimLikSample

/-!
# C135: the likelihood of several Ornstein-Uhlenbeck paths without correlation, exact and in floats
-/

namespace Verif.Sim

open Verif Round Finset Cov

variable {fl : ℝ → ℝ} {dt : ℝ} {ord : List ℝ → SumTree} {n d K J : Nat} {μ θ vol : List ℝ} {x : Arr}

/-- C74. The likelihood of several Ornstein-Uhlenbeck paths without correlation: the sum over the columns of the log-densities of
`x[t+1]` around `mean + (x[t] - mean) exp(-mrr dt)`, each with the parameters of its column. -/
theorem ou_nll_columns (hl : μ.length = d) (ht : θ.length = d) (hv : vol.length = d) (hθ : ∀ k < d, 0 < θ.getD k 0)
    (hvol : ∀ k < d, 0 < vol.getD k 0) (hdt : 0 < dt) (hx : x.cols = d) (eigh : (d : Nat) → Mat d → List (Pair d)) :
    ouNllFull eigh ⟨.row μ, .row θ, vol, none⟩ none x dt = .ok (.fin (-∑ t ∈ range (x.rows - 1), ∑ k ∈ range d,
      normLogpdf (μ.getD k 0 + (x.get t k - μ.getD k 0) * Real.exp (-(θ.getD k 0) * dt)) (ouSd (θ.getD k 0) (vol.getD k 0) dt)
        (x.get (t + 1) k))) := by
  have hz1 : bzip (fun m f => m * (1 - f)) μ (θ.map fun r => Real.exp (-r * dt)) =
      .ok (List.zipWith (fun m f => m * (1 - f)) μ (θ.map fun r => Real.exp (-r * dt))) := by
    unfold bzip
    rw [if_pos (by rw [hl, List.length_map, ht])]
  have hz2 : bzip (fun v r => Real.sqrt (v ^ 2 / (2 * r) * (1 - Real.exp (-2 * r * dt)))) vol θ =
      .ok (List.zipWith (fun v r => Real.sqrt (v ^ 2 / (2 * r) * (1 - Real.exp (-2 * r * dt)))) vol θ) := by
    unfold bzip
    rw [if_pos (by rw [hv, ht])]
  have hf : ∀ k < d, (θ.map fun r => Real.exp (-r * dt)).getD k 0 = Real.exp (-(θ.getD k 0) * dt) := fun k hk => by
    rw [List.getD_eq_getElem _ _ (by simp; omega), List.getElem_map, List.getD_eq_getElem _ _ (by omega)]
  have hm : ∀ k < d, (List.zipWith (fun m f => m * (1 - f)) μ (θ.map fun r => Real.exp (-r * dt))).getD k 0 =
      μ.getD k 0 * (1 - Real.exp (-(θ.getD k 0) * dt)) := fun k hk => by
    rw [List.getD_eq_getElem _ _ (by simp; omega), List.getElem_zipWith, List.getElem_map,
      List.getD_eq_getElem _ _ (by omega), List.getD_eq_getElem _ _ (by omega)]
  have hs : ∀ k < d, (List.zipWith (fun v r => Real.sqrt (v ^ 2 / (2 * r) * (1 - Real.exp (-2 * r * dt)))) vol θ).getD k 0 =
      ouSd (θ.getD k 0) (vol.getD k 0) dt := fun k hk => by
    rw [List.getD_eq_getElem _ _ (by simp; omega), List.getElem_zipWith,
      List.getD_eq_getElem _ _ (by omega), List.getD_eq_getElem _ _ (by omega)]
    rfl
  set S := List.zipWith (fun v r => Real.sqrt (v ^ 2 / (2 * r) * (1 - Real.exp (-2 * r * dt)))) vol θ with hSdef
  set M := List.zipWith (fun m f => m * (1 - f)) μ (θ.map fun r => Real.exp (-r * dt)) with hMdef
  set F := θ.map fun r => Real.exp (-r * dt) with hFdef
  have hFl : F.length = d := by rw [hFdef, List.length_map, ht]
  have hbd : bdim d d = .ok d := by unfold bdim; rw [if_pos rfl]
  have hsd : ∀ k < d, 0 < ouSd (θ.getD k 0) (vol.getD k 0) dt := fun k hk => ouSd_pos (hθ k hk) hdt (hvol k hk)
  have hrows : ouRows F x = .ok ⟨x.rows - 1, d, fun k =>
      bcol x (k / d + 1) (k % d) - bentry F (k % d) * bcol x (k / d) (k % d)⟩ := by
    unfold ouRows
    rw [hx, hFl]
    show (bdim d d >>= _) = _
    rw [hbd]
    show (bdim d d >>= _) = _
    rw [hbd]
    rfl
  have hg := normNll_eq (d := d) (mean := M) (std := S) (dx := ⟨x.rows - 1, d, fun k =>
      bcol x (k / d + 1) (k % d) - bentry F (k % d) * bcol x (k / d) (k % d)⟩)
    (by rw [hMdef, List.length_zipWith]; omega) (by rw [hSdef, List.length_zipWith]; omega) rfl
    (fun k hk => by rw [hs k hk]; exact hsd k hk)
  unfold ouNllFull
  show (bzip (fun m f => m * (1 - f)) μ F >>= _) = _
  rw [hz1]
  show (bzip (fun v r => Real.sqrt (v ^ 2 / (2 * r) * (1 - Real.exp (-2 * r * dt)))) vol θ >>= _) = _
  rw [hz2]
  show (ouRows F x >>= _) = _
  rw [hrows]
  show (if (0 : ℝ) ∈ θ then _ else _) = _
  rw [if_neg (fun h0 => by
    obtain ⟨k, hk, e⟩ := List.getElem_of_mem h0
    have := hθ k (by omega)
    rw [List.getD_eq_getElem _ _ hk, e] at this
    exact lt_irrefl _ this)]
  refine Eq.trans hg ?_
  congr 3
  refine sum_congr rfl fun t _ => sum_congr rfl fun k hk => ?_
  have hk := mem_range.mp hk
  have hkm : (t * d + k) % d = k := by rw [add_comm, Nat.add_mul_mod_self_right, Nat.mod_eq_of_lt hk]
  have hkd : (t * d + k) / d = t := by
    rw [add_comm, Nat.add_mul_div_right _ _ (by omega), Nat.div_eq_of_lt hk, zero_add]
  have hbc : ∀ i, bcol x i k = x.get i k := fun i => by
    unfold bcol
    split
    · rw [show (k : Nat) = 0 by omega]
    · rfl
  have hget : Arr.get ⟨x.rows - 1, d, fun k => bcol x (k / d + 1) (k % d) - bentry F (k % d) * bcol x (k / d) (k % d)⟩ t k =
      x.get (t + 1) k - Real.exp (-(θ.getD k 0) * dt) * x.get t k := by
    show bcol x ((t * d + k) / d + 1) ((t * d + k) % d) - bentry F ((t * d + k) % d) * bcol x ((t * d + k) / d) ((t * d + k) % d) = _
    rw [hkm, hkd, hbc, hbc, bentry_eq hFl hk, hf k hk]
  rw [hget, hm k hk, hs k hk, normLogpdf_std (hsd k hk), normLogpdf_std (hsd k hk)]
  congr 4
  ring

/-- C135. And in floats: `K` and `J` as for one path, large enough for every column. -/
theorem ou_nll_mat_round (R : Rounding fl) (ho : IsSum ord) (hn : 1 ≤ n) (hd : 1 ≤ d) (hdt : 0 < dt) (hl : μ.length = d) (ht : θ.length = d)
    (hv : vol.length = d) (hθ : ∀ k < d, 0 < θ.getD k 0) (hvol : ∀ k < d, 0 < vol.getD k 0) (hx : x.cols = d) (hr : x.rows = n + 1)
    (hK : ∀ k < d, 6 * (θ.getD k 0 * dt) ≤ K) (hKu : ((2 * K + 2 : ℕ) : ℝ) * u64 ≤ 1 / 64)
    (hJ : ∀ k < d, 8 * (K + 1) ≤ J * (Real.exp (2 * (θ.getD k 0 * dt)) - 1)) (hJu : J * u64 ≤ 1)
    (eigh : (d : Nat) → Mat d → List (Pair d)) :
    ∃ L, ouNllFull eigh ⟨.row μ, .row θ, vol, none⟩ none x dt = .ok (.fin L) ∧
      |ouNllMatR fl ord μ θ vol dt x - L| ≤ ((1 + u64) ^ (n * d + 4 * K + 4 * J + 39) - 1) *
        ∑ t ∈ range n, ∑ k ∈ range d, pdfSize (|x.get (t + 1) k| + Real.exp (-(θ.getD k 0) * dt) * |x.get t k| +
          |μ.getD k 0| * (1 + Real.exp (-(θ.getD k 0) * dt))) (ouSd (θ.getD k 0) (vol.getD k 0) dt) := by
  refine ⟨_, ou_nll_columns hl ht hv hθ hvol hdt hx eigh, ?_⟩
  have hsd : ∀ k < d, 0 < ouSd (θ.getD k 0) (vol.getD k 0) dt := fun k hk => ouSd_pos (hθ k hk) hdt (hvol k hk)
  have hF : ∀ k < d, Close (2 * (K + 1)) (ouFactorR fl (θ.getD k 0) dt) (Real.exp (-(θ.getD k 0) * dt)) (Real.exp (-(θ.getD k 0) * dt)) :=
    fun k hk => by
      have := (factor_upto R (hθ k hk) hdt (hK k hk)).close
      rwa [abs_of_pos (Real.exp_pos _)] at this
  have h := (nll_mat_close R ho hn hd (k := 2 * K + 4)
    (f := fun t k => fl (x.get (t + 1) k - fl (ouFactorR fl (θ.getD k 0) dt * x.get t k)))
    (A := fun t k => x.get (t + 1) k - Real.exp (-(θ.getD k 0) * dt) * x.get t k)
    (p := fun t k => |x.get (t + 1) k| + Real.exp (-(θ.getD k 0) * dt) * |x.get t k|)
    (fun t _ k hk => ((((Close.refl (x.get (t + 1) k)).mono (m := 2 * K + 3) (by omega)).sub
      ((((hF k hk).mul (Close.refl (x.get t k))).rd R).mono (m := 2 * K + 3) (by omega))).rd R).mono (by omega))
    (m := fun k => ouMeanR fl (μ.getD k 0) (ouFactorR fl (θ.getD k 0) dt)) (M := fun k => μ.getD k 0 * (1 - Real.exp (-(θ.getD k 0) * dt)))
    (q := fun k => |μ.getD k 0| * (1 + Real.exp (-(θ.getD k 0) * dt)))
    (fun k hk => by
      have := ((Close.refl (μ.getD k 0)).mul (((Close.refl (1 : ℝ)).mono (m := 2 * (K + 1)) (by omega)).sub (hF k hk) |>.rd R)).rd R
      rw [abs_one] at this
      exact this.mono (by omega))
    hsd (fun k hk => ouScale_upto R (hθ k hk) hdt (hK k hk) hKu (hJ k hk) hJu) (by omega)).2
  rw [show 2 * (2 * K + 4) + 4 * (J + 6) + 7 + n * d = n * d + 4 * K + 4 * J + 39 by ring] at h
  have e : (∑ t ∈ range n, ∑ k ∈ range d, normLogpdf (μ.getD k 0 * (1 - Real.exp (-(θ.getD k 0) * dt))) (ouSd (θ.getD k 0) (vol.getD k 0) dt)
      (x.get (t + 1) k - Real.exp (-(θ.getD k 0) * dt) * x.get t k)) =
      ∑ t ∈ range (x.rows - 1), ∑ k ∈ range d, normLogpdf (μ.getD k 0 + (x.get t k - μ.getD k 0) * Real.exp (-(θ.getD k 0) * dt))
        (ouSd (θ.getD k 0) (vol.getD k 0) dt) (x.get (t + 1) k) := by
    rw [hr, Nat.add_sub_cancel]
    refine sum_congr rfl fun t _ => sum_congr rfl fun k hk => ?_
    rw [normLogpdf_std (hsd k (mem_range.mp hk)), normLogpdf_std (hsd k (mem_range.mp hk))]
    congr 4
    ring
  rw [← e]
  unfold ouNllMatR
  rw [hr, hx, Nat.add_sub_cancel]
  exact h

/-- Two paths with rates one and two. -/
example (ho : IsSum ord) (eigh : (d : Nat) → Mat d → List (Pair d)) :
    ∃ L, ouNllFull eigh ⟨.row [0, 3], .row [1, 2], [1, 1], none⟩ none (Arr.ofList 2 2 [0, 1, 2, 5]) 1 = .ok (.fin L) ∧
      |ouNllMatR b64 ord [0, 3] [1, 2] [1, 1] 1 (Arr.ofList 2 2 [0, 1, 2, 5]) - L| ≤
        ((1 + u64) ^ (1 * 2 + 4 * 12 + 4 * 52 + 39) - 1) * (pdfSize 2 (ouSd 1 1 1) + pdfSize (8 + 4 * Real.exp (-2)) (ouSd 2 1 1)) := by
  obtain ⟨L, h1, h2⟩ := ou_nll_mat_round b64_rounding ho (n := 1) (d := 2) (K := 12) (J := 52) (μ := [0, 3]) (θ := [1, 2]) (vol := [1, 1])
    (dt := 1) (x := Arr.ofList 2 2 [0, 1, 2, 5]) le_rfl (by norm_num) one_pos rfl rfl rfl
    (by intro k hk; interval_cases k <;> simp) (by intro k hk; interval_cases k <;> simp) rfl rfl
    (by intro k hk; interval_cases k <;> norm_num) (by unfold u64; norm_num)
    (by
      intro k hk
      interval_cases k
      · have := Real.add_one_le_exp (2 : ℝ)
        norm_num
        linarith
      · have := Real.add_one_le_exp (4 : ℝ)
        norm_num
        linarith) (by unfold u64; norm_num) eigh
  refine ⟨L, h1, h2.trans_eq ?_⟩
  congr 1
  simp [sum_range_succ, Arr.get, Arr.ofList]
  ring_nf

end Verif.Sim
