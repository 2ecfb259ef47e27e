import Verif.Props.CholFit

/-!
# C133: the fitted correlations in floats
-/

namespace Verif.Sim

open Verif Round Finset

variable {fl : ℝ → ℝ} {o : FitOrders} {ord : Nat → Nat → List (ℝ × ℝ) → DotTree} {recip : Nat → Nat → Bool} {x : Arr} {dt : ℝ} {n : Nat}

/-! ### Lengths and angles -/

/-- The scalar product of two columns. -/
def sprod (n : Nat) (f g : Nat → ℝ) : ℝ := ∑ t ∈ range n, f t * g t

/-- The length of a column. -/
noncomputable def nrm (n : Nat) (f : Nat → ℝ) : ℝ := Real.sqrt (∑ t ∈ range n, f t ^ 2)

theorem nrm_nonneg (f : Nat → ℝ) : 0 ≤ nrm n f := Real.sqrt_nonneg _

theorem nrm_sq (f : Nat → ℝ) : nrm n f ^ 2 = ∑ t ∈ range n, f t ^ 2 := Real.sq_sqrt (sum_nonneg fun _ _ => sq_nonneg _)

theorem sprod_self (f : Nat → ℝ) : sprod n f f = nrm n f ^ 2 := by
  rw [nrm_sq]
  exact sum_congr rfl fun t _ => (sq _).symm

theorem abs_prod_le (f g : Nat → ℝ) : ∑ t ∈ range n, |f t| * |g t| ≤ nrm n f * nrm n g := by
  unfold nrm
  rw [← Real.sqrt_mul (sum_nonneg fun _ _ => sq_nonneg _)]
  apply Real.le_sqrt_of_sq_le
  have := Finset.sum_mul_sq_le_sq_mul_sq (range n) (fun t => |f t|) (fun t => |g t|)
  simpa only [sq_abs] using this

theorem sprod_le (f g : Nat → ℝ) : |sprod n f g| ≤ nrm n f * nrm n g := by
  refine (abs_sum_le_sum_abs _ _).trans (le_trans (le_of_eq ?_) (abs_prod_le f g))
  exact sum_congr rfl fun t _ => abs_mul _ _

theorem nrm_scale (c : ℝ) (f : Nat → ℝ) : nrm n (fun t => c * f t) = |c| * nrm n f := by
  unfold nrm
  simp only [mul_pow, ← mul_sum]
  rw [Real.sqrt_mul (sq_nonneg c), Real.sqrt_sq_eq_abs]

theorem nrm_add (f g : Nat → ℝ) : nrm n (fun t => f t + g t) ≤ nrm n f + nrm n g := by
  have h := sprod_le (n := n) f g
  have e : ∑ t ∈ range n, (f t + g t) ^ 2 = nrm n f ^ 2 + 2 * sprod n f g + nrm n g ^ 2 := by
    rw [nrm_sq, nrm_sq, sprod, mul_sum, ← sum_add_distrib, ← sum_add_distrib]
    exact sum_congr rfl fun t _ => by ring
  refine Real.sqrt_le_iff.mpr ⟨add_nonneg (nrm_nonneg f) (nrm_nonneg g), ?_⟩
  rw [e, add_sq]
  have := (abs_le.mp h).2
  nlinarith

theorem nrm_sub_le (f g : Nat → ℝ) : |nrm n f - nrm n g| ≤ nrm n fun t => f t - g t := by
  have h1 := nrm_add (n := n) (fun t => f t - g t) g
  have h2 := nrm_add (n := n) (fun t => g t - f t) f
  have e : nrm n (fun t => g t - f t) = nrm n fun t => f t - g t := by
    unfold nrm
    congr 1
    exact sum_congr rfl fun t _ => by ring
  simp only [sub_add_cancel] at h1 h2
  rw [abs_le]
  constructor <;> linarith

/-- A perturbation by a fraction `η` of the length turns a column by at most `2 η`. -/
theorem unit_near {y d : Nat → ℝ} {η : ℝ} (hy : 0 < nrm n y) (hd : 0 < nrm n d) (h : nrm n (fun t => y t - d t) ≤ η * nrm n d) :
    nrm n (fun t => y t / nrm n y - d t / nrm n d) ≤ 2 * η := by
  have e : (fun t => y t / nrm n y - d t / nrm n d) =
      fun t => (1 / nrm n d) * (y t - d t) + (1 / nrm n y - 1 / nrm n d) * y t := by
    funext t
    field_simp
    ring
  rw [e]
  refine (nrm_add _ _).trans ?_
  rw [nrm_scale, nrm_scale, abs_of_pos (by positivity)]
  have h1 : 1 / nrm n d * nrm n (fun t => y t - d t) ≤ η := by
    rw [one_div_mul_eq_div, div_le_iff₀ hd]
    exact h
  have h2 : |1 / nrm n y - 1 / nrm n d| * nrm n y ≤ η := by
    have e2 : |1 / nrm n y - 1 / nrm n d| * nrm n y = |nrm n y - nrm n d| / nrm n d := by
      rw [← abs_of_pos hy, ← abs_mul, abs_of_pos hy]
      conv_rhs => rw [← abs_of_pos hd, ← abs_div, abs_of_pos hd]
      rw [← abs_neg]
      congr 1
      field_simp
      ring
    rw [e2, div_le_iff₀ hd]
    exact (nrm_sub_le y d).trans h
  linarith

theorem nrm_unit {y : Nat → ℝ} (hy : 0 < nrm n y) : nrm n (fun t => y t / nrm n y) = 1 := by
  have : (fun t => y t / nrm n y) = fun t => (1 / nrm n y) * y t := by
    funext t
    ring
  rw [this, nrm_scale, abs_of_pos (by positivity), one_div_mul_cancel hy.ne']

theorem angle_near {y y' d d' : Nat → ℝ} {η η' : ℝ} (hy : 0 < nrm n y) (hy' : 0 < nrm n y') (hd : 0 < nrm n d) (hd' : 0 < nrm n d')
    (h : nrm n (fun t => y t - d t) ≤ η * nrm n d) (h' : nrm n (fun t => y' t - d' t) ≤ η' * nrm n d') :
    |sprod n y y' / (nrm n y * nrm n y') - sprod n d d' / (nrm n d * nrm n d')| ≤ 2 * η + 2 * η' := by
  have key : sprod n y y' / (nrm n y * nrm n y') - sprod n d d' / (nrm n d * nrm n d') =
      sprod n (fun t => y t / nrm n y - d t / nrm n d) (fun t => y' t / nrm n y') +
        sprod n (fun t => d t / nrm n d) (fun t => y' t / nrm n y' - d' t / nrm n d') := by
    unfold sprod
    rw [sum_div, sum_div, ← sum_sub_distrib, ← sum_add_distrib]
    refine sum_congr rfl fun t _ => ?_
    rw [mul_div_mul_comm, mul_div_mul_comm]
    ring
  rw [key]
  refine (abs_add_le _ _).trans (add_le_add ?_ ?_)
  · refine (sprod_le _ _).trans ?_
    rw [nrm_unit hy', mul_one]
    exact unit_near hy hd h
  · refine (sprod_le _ _).trans ?_
    rw [nrm_unit hd, one_mul]
    exact unit_near hy' hd' h'

/-! ### One entry -/

theorem quot_near {a b D C A B g : ℝ} (ha : 0 < a) (hb : 0 < b) (hD : |D| ≤ a * b) (hC : |C - D| ≤ g * (a * b)) (hA : |A - a| ≤ g * a)
    (hB : |B - b| ≤ g * b) (hg : 0 ≤ g) (hg1 : g ≤ 1 / 63) : |C / (A * B) - D / (a * b)| ≤ 25 / 8 * g := by
  have hab : 0 < a * b := mul_pos ha hb
  have hA1 := abs_le.mp hA
  have hB1 := abs_le.mp hB
  have hga : g * a ≤ 1 / 63 * a := mul_le_mul_of_nonneg_right hg1 ha.le
  have hgb : g * b ≤ 1 / 63 * b := mul_le_mul_of_nonneg_right hg1 hb.le
  have hAl : 62 / 63 * a ≤ A := by linarith
  have hBl : 62 / 63 * b ≤ B := by linarith
  have hApos : 0 < A := lt_of_lt_of_le (by positivity) hAl
  have hBpos : 0 < B := lt_of_lt_of_le (by positivity) hBl
  have hAB : (62 / 63) ^ 2 * (a * b) ≤ A * B := by
    calc _ = (62 / 63 * a) * (62 / 63 * b) := by ring
      _ ≤ _ := mul_le_mul hAl hBl (by positivity) hApos.le
  have hABn : |A * B - a * b| ≤ (2 * g + g * g) * (a * b) := by
    have e : A * B - a * b = (A - a) * (B - b) + (A - a) * b + a * (B - b) := by ring
    have h1 : |A * B - a * b| ≤ |A - a| * |B - b| + |A - a| * b + a * |B - b| := by
      rw [e]
      refine (abs_add_le _ _).trans (add_le_add ((abs_add_le _ _).trans (add_le_add (abs_mul _ _).le ?_)) ?_)
      · rw [abs_mul, abs_of_pos hb]
      · rw [abs_mul, abs_of_pos ha]
    have h2 : |A - a| * |B - b| ≤ g * a * (g * b) := mul_le_mul hA hB (abs_nonneg _) (by positivity)
    have h3 : |A - a| * b ≤ g * a * b := mul_le_mul_of_nonneg_right hA hb.le
    have h4 : a * |B - b| ≤ a * (g * b) := mul_le_mul_of_nonneg_left hB ha.le
    nlinarith
  have e : C / (A * B) - D / (a * b) = ((C - D) - D / (a * b) * (A * B - a * b)) / (A * B) := by
    field_simp
    ring
  have hr : |D / (a * b)| ≤ 1 := by
    rw [abs_div, abs_of_pos hab, div_le_one hab]
    exact hD
  rw [e, abs_div, abs_of_pos (mul_pos hApos hBpos), div_le_iff₀ (mul_pos hApos hBpos)]
  have h1 : |(C - D) - D / (a * b) * (A * B - a * b)| ≤ g * (a * b) + 1 * ((2 * g + g * g) * (a * b)) := by
    refine (abs_sub _ _).trans (add_le_add hC ?_)
    rw [abs_mul]
    exact mul_le_mul hr hABn (abs_nonneg _) (by norm_num)
  have hgab : 0 ≤ g * (a * b) := by positivity
  have h2 : g * g * (a * b) ≤ 1 / 63 * (g * (a * b)) := by
    calc g * g * (a * b) = g * (g * (a * b)) := by ring
      _ ≤ 1 / 63 * (g * (a * b)) := mul_le_mul_of_nonneg_right hg1 hgab
  have h3 : 25 / 8 * g * ((62 / 63) ^ 2 * (a * b)) ≤ 25 / 8 * g * (A * B) := mul_le_mul_of_nonneg_left hAB (by positivity)
  nlinarith

/-- The computed deviations of a column. -/
noncomputable def devs (fl : ℝ → ℝ) (avg : List ℝ → SumTree) (n : Nat) (f : Nat → ℝ) (t : Nat) : ℝ :=
  fl (f t - lmeanR fl avg ((List.range n).map f))

theorem covR_near (R : Rounding fl) (ho : o.Valid) {v : Nat} (hn : 2 ≤ n) {f : Nat → Nat → ℝ} {i j : Nat} (hi : i < v) (hj : j < v) :
    |covR fl o (incLists v n f) i j * (n - 1) - sprod n (devs fl (o.avg i) n (f i)) (devs fl (o.avg j) n (f j))| ≤
      grow (n + 2) * (nrm n (devs fl (o.avg i) n (f i)) * nrm n (devs fl (o.avg j) n (f j))) := by
  have hp := pred_pos hn
  rw [covR_incLists hi hj]
  set y := devs fl (o.avg i) n (f i) with hy
  set y' := devs fl (o.avg j) n (f j) with hy'
  have hperm := ho.dot (i * v + j) ((List.range n).map fun t => (y t, y' t)) (by simp; omega)
  set T := o.dot (i * v + j) ((List.range n).map fun t => (y t, y' t)) with hT
  have h1 := (DotTree.eval_grow R T).1
  have hh := DotTree.height_le' T
  rw [hperm.length_eq, List.length_map, List.length_range] at hh
  rw [(hperm.map _).sum_eq, (hperm.map _).sum_eq, List.map_map, List.map_map, sum_map_range, sum_map_range] at h1
  have hM : ∑ t ∈ range n, |y t * y' t| ≤ nrm n y * nrm n y' := by
    simp only [abs_mul]
    exact abs_prod_le y y'
  have hM0 : 0 ≤ ∑ t ∈ range n, |y t * y' t| := sum_nonneg fun _ _ => abs_nonneg _
  have hMM : 0 ≤ nrm n y * nrm n y' := mul_nonneg (nrm_nonneg _) (nrm_nonneg _)
  have h2 : |T.eval fl - sprod n y y'| ≤ grow n * (nrm n y * nrm n y') :=
    h1.trans ((mul_le_mul_of_nonneg_right (grow_mono hh) hM0).trans (mul_le_mul_of_nonneg_left hM (grow_nonneg n)))
  have hS := sprod_le (n := n) y y'
  obtain ⟨δ, hδ, hδ'⟩ := fl_rel R (1 / ((n : ℝ) - 1))
  obtain ⟨ε, hε, hε'⟩ := fl_rel R (T.eval fl * fl (1 / ((n : ℝ) - 1)))
  have hg := grow_two hδ' hε'
  show |fl (T.eval fl * fl (1 / ((n : ℝ) - 1))) * (n - 1) - _| ≤ _
  have e : fl (T.eval fl * fl (1 / ((n : ℝ) - 1))) * (n - 1) = T.eval fl * ((1 + δ) * (1 + ε)) := by
    rw [hε, hδ]
    field_simp
  rw [e]
  have hsz : |T.eval fl| ≤ (1 + grow n) * (nrm n y * nrm n y') := by
    have : |T.eval fl| ≤ |T.eval fl - sprod n y y'| + |sprod n y y'| := by
      have := abs_add_le (T.eval fl - sprod n y y') (sprod n y y')
      rwa [sub_add_cancel] at this
    linarith
  have e2 : T.eval fl * ((1 + δ) * (1 + ε)) - sprod n y y' = T.eval fl * ((1 + δ) * (1 + ε) - 1) + (T.eval fl - sprod n y y') := by ring
  rw [e2]
  have h3 : |T.eval fl * ((1 + δ) * (1 + ε) - 1)| ≤ (1 + grow n) * (nrm n y * nrm n y') * grow 2 := by
    rw [abs_mul]
    exact mul_le_mul hsz hg (abs_nonneg _) (mul_nonneg (by linarith [grow_nonneg n]) hMM)
  have e3 : grow (n + 2) = (1 + grow n) * grow 2 + grow n := by
    have h1 := one_add_grow n
    have h2 := one_add_grow 2
    have h3 := one_add_grow (n + 2)
    rw [pow_add, ← h1, ← h2] at h3
    linarith
  rw [e3]
  refine (abs_add_le _ _).trans ?_
  nlinarith

theorem sd_near (R : Rounding fl) {c a N : ℝ} {k : Nat} (hN : 0 < N) (ha : 0 < a) (h : |c * N - a * a| ≤ grow k * (a * a)) (hk : grow k < 1) :
    |Real.sqrt N * fl (Real.sqrt c) - a| ≤ grow (k + 1) * a := by
  have hc : 0 < c * N := by
    have := (abs_le.mp h).1
    have : grow k * (a * a) < 1 * (a * a) := mul_lt_mul_of_pos_right hk (by positivity)
    linarith
  have hc0 : 0 ≤ c := (pos_of_mul_pos_left hc hN.le).le
  set w := Real.sqrt (c * N) with hw
  have hw0 : 0 ≤ w := Real.sqrt_nonneg _
  have hww : w * w = c * N := Real.mul_self_sqrt hc.le
  have h1 : |w - a| ≤ grow k * a := by
    have e : (w - a) * (w + a) = c * N - a * a := by rw [← hww]; ring
    have h2 : |w - a| * (w + a) ≤ grow k * a * a := by
      rw [← abs_of_nonneg (by linarith : 0 ≤ w + a), ← abs_mul, e, mul_assoc]
      exact h
    have h3 : |w - a| * a ≤ |w - a| * (w + a) := mul_le_mul_of_nonneg_left (by linarith) (abs_nonneg _)
    exact le_of_mul_le_mul_right (h3.trans h2) ha
  obtain ⟨δ, hδ, hδ'⟩ := fl_rel R (Real.sqrt c)
  have e : Real.sqrt N * fl (Real.sqrt c) = w * (1 + δ) := by
    rw [hδ, hw, Real.sqrt_mul hc0]
    ring
  rw [e]
  have e2 : w * (1 + δ) - a = w * δ + (w - a) := by ring
  have hwa : w ≤ (1 + grow k) * a := by
    have := (abs_le.mp h1).2
    linarith
  have h4 : |w * δ| ≤ (1 + grow k) * a * u64 := by
    rw [abs_mul, abs_of_nonneg hw0]
    exact mul_le_mul hwa hδ' (abs_nonneg _) (mul_nonneg (by linarith [grow_nonneg k]) ha.le)
  rw [e2, ← grow_succ]
  refine (abs_add_le _ _).trans ?_
  linarith

/-- The computed correlation against the one of the computed deviations. -/
theorem corr_near (R : Rounding fl) (ho : o.Valid) {v : Nat} (hn : 2 ≤ n) (hu : ((n : ℝ) + 4) * u64 ≤ 1 / 64) {f : Nat → Nat → ℝ} {i j : Nat}
    (hi : i < v) (hj : j < v) (hyi : 0 < nrm n (devs fl (o.avg i) n (f i))) (hyj : 0 < nrm n (devs fl (o.avg j) n (f j))) :
    |(corrcoefR fl o (incLists v n f)).get i j - sprod n (devs fl (o.avg i) n (f i)) (devs fl (o.avg j) n (f j)) /
      (nrm n (devs fl (o.avg i) n (f i)) * nrm n (devs fl (o.avg j) n (f j)))| ≤ 16 / 5 * ((n + 4) * u64) := by
  have hp := pred_pos hn
  have hg4 := grow_le (k := n + 4) (by push_cast; exact hu)
  push_cast at hg4
  have hg : grow (n + 4) ≤ 1 / 63 := by linarith
  have hcij := covR_near R ho hn (f := f) hi hj
  have hcii := covR_near R ho hn (f := f) hi hi
  have hcjj := covR_near R ho hn (f := f) hj hj
  have hle := sprod_le (n := n) (devs fl (o.avg i) n (f i)) (devs fl (o.avg j) n (f j))
  rw [sprod_self, sq] at hcii hcjj
  rw [corrcoefR_get hi hj]
  generalize covR fl o (incLists v n f) i j = c at *
  generalize covR fl o (incLists v n f) i i = ci at *
  generalize covR fl o (incLists v n f) j j = cj at *
  generalize hD : sprod n (devs fl (o.avg i) n (f i)) (devs fl (o.avg j) n (f j)) = D at *
  generalize nrm n (devs fl (o.avg i) n (f i)) = a at *
  generalize nrm n (devs fl (o.avg j) n (f j)) = b at *
  have hab := mul_pos hyi hyj
  have hm2 : grow (n + 2) ≤ grow (n + 4) := grow_mono (by omega)
  have hm3 : grow (n + 3) ≤ grow (n + 4) := grow_mono (by omega)
  have hA := sd_near R hp hyi hcii (by linarith)
  have hB := sd_near R hp hyj hcjj (by linarith)
  have hA' := hA.trans (mul_le_mul_of_nonneg_right hm3 hyi.le)
  have hB' := hB.trans (mul_le_mul_of_nonneg_right hm3 hyj.le)
  obtain ⟨δ, hδ, hδ'⟩ := fl_rel R (c / fl (Real.sqrt ci))
  obtain ⟨ε, hε, hε'⟩ := fl_rel R (fl (c / fl (Real.sqrt ci)) / fl (Real.sqrt cj))
  have hg2 := grow_two hδ' hε'
  set q := fl (fl (c / fl (Real.sqrt ci)) / fl (Real.sqrt cj)) with hq
  set N : ℝ := (n : ℝ) - 1 with hN
  have hs := Real.mul_self_sqrt hp.le
  have hs0 := Real.sqrt_pos.mpr hp
  have e : q = c * N * ((1 + δ) * (1 + ε)) / ((Real.sqrt N * fl (Real.sqrt ci)) * (Real.sqrt N * fl (Real.sqrt cj))) := by
    have h1 : (Real.sqrt N * fl (Real.sqrt ci)) * (Real.sqrt N * fl (Real.sqrt cj)) = N * (fl (Real.sqrt ci) * fl (Real.sqrt cj)) := by
      calc _ = (Real.sqrt N * Real.sqrt N) * (fl (Real.sqrt ci) * fl (Real.sqrt cj)) := by ring
        _ = _ := by rw [hs]
    rw [h1, hε, hδ]
    have : c * N * ((1 + δ) * (1 + ε)) / (N * (fl (Real.sqrt ci) * fl (Real.sqrt cj))) =
        (N / N) * (c * ((1 + δ) * (1 + ε)) / (fl (Real.sqrt ci) * fl (Real.sqrt cj))) := by
      rw [← mul_div_mul_comm]
      congr 1
      ring
    rw [this, div_self hp.ne', one_mul]
    rw [← div_div]
    ring
  have hC : |c * N * ((1 + δ) * (1 + ε)) - D| ≤ grow (n + 4) * (a * b) := by
    have hsz : |c * N| ≤ (1 + grow (n + 2)) * (a * b) := by
      have : |c * N| ≤ |c * N - D| + |D| := by
        have := abs_add_le (c * N - D) D
        rwa [sub_add_cancel] at this
      linarith
    have e2 : c * N * ((1 + δ) * (1 + ε)) - D = c * N * ((1 + δ) * (1 + ε) - 1) + (c * N - D) := by ring
    have h3 : |c * N * ((1 + δ) * (1 + ε) - 1)| ≤ (1 + grow (n + 2)) * (a * b) * grow 2 := by
      rw [abs_mul]
      exact mul_le_mul hsz hg2 (abs_nonneg _) (mul_nonneg (by linarith [grow_nonneg (n + 2)]) hab.le)
    have e3 : grow (n + 4) = (1 + grow (n + 2)) * grow 2 + grow (n + 2) := by
      have h1 := one_add_grow (n + 2)
      have h2 := one_add_grow 2
      have h3 := one_add_grow (n + 2 + 2)
      rw [pow_add, ← h1, ← h2] at h3
      have : n + 2 + 2 = n + 4 := rfl
      rw [this] at h3
      linarith
    rw [e2, e3]
    refine (abs_add_le _ _).trans ?_
    linarith
  have key := quot_near hyi hyj hle hC hA' hB' (grow_nonneg _) hg
  rw [← e] at key
  have hr : |D / (a * b)| ≤ 1 := by
    rw [abs_div, abs_of_pos hab, div_le_one hab]
    exact hle
  have hclip : clip1 (D / (a * b)) = D / (a * b) := by
    unfold clip1
    have := abs_le.mp hr
    rw [min_eq_right this.2, max_eq_right this.1]
  have hlip : |clip1 q - clip1 (D / (a * b))| ≤ |q - D / (a * b)| := by
    unfold clip1
    refine (abs_max_sub_max_le_max _ _ _ _).trans ?_
    rw [sub_self, abs_zero]
    refine max_le (abs_nonneg _) ((abs_min_sub_min_le_max _ _ _ _).trans ?_)
    rw [sub_self, abs_zero]
    exact max_le (abs_nonneg _) le_rfl
  rw [hclip] at hlip
  have hu0 : 0 ≤ ((n : ℝ) + 4) * u64 := mul_nonneg (by positivity) u64_pos'.le
  linarith

/-! ### Against the exact correlations -/

theorem nrm_le {f g : Nat → ℝ} {c : ℝ} (hc : 0 ≤ c) (h : ∑ t ∈ range n, f t ^ 2 ≤ c ^ 2 * ∑ t ∈ range n, g t ^ 2) : nrm n f ≤ c * nrm n g := by
  refine Real.sqrt_le_iff.mpr ⟨mul_nonneg hc (nrm_nonneg g), ?_⟩
  rw [mul_pow, nrm_sq]
  exact h

theorem mean_mul (hn : 1 ≤ n) (g : Nat → ℝ) : ∑ t ∈ range n, g t = n * mean n g := by
  have : (n : ℝ) ≠ 0 := by
    have : (0 : ℝ) < n := by exact_mod_cast hn
    exact this.ne'
  unfold mean
  field_simp

theorem sq_shift (hn : 1 ≤ n) (g : Nat → ℝ) (s : ℝ) :
    ∑ t ∈ range n, (g t + s * mean n g) ^ 2 = ∑ t ∈ range n, g t ^ 2 + (2 * s + s ^ 2) * (n * mean n g ^ 2) := by
  have e : ∀ t ∈ range n, (g t + s * mean n g) ^ 2 = g t ^ 2 + 2 * s * mean n g * g t + (s * mean n g) ^ 2 := fun t _ => by ring
  rw [sum_congr rfl e, sum_add_distrib, sum_add_distrib, ← mul_sum, mean_mul hn g, sum_const, card_range, nsmul_eq_mul]
  ring

theorem mean_sq_le (hn : 1 ≤ n) (g : Nat → ℝ) : n * mean n g ^ 2 ≤ ∑ t ∈ range n, g t ^ 2 := by
  have h1 := sq_shift hn g (-1)
  have h2 : 0 ≤ ∑ t ∈ range n, (g t + -1 * mean n g) ^ 2 := sum_nonneg fun _ _ => sq_nonneg _
  linarith

/-- The exact deviations of a column. -/
noncomputable def exdev (n : Nat) (g : Nat → ℝ) (t : Nat) : ℝ := g t - mean n g

theorem exdev_le (hn : 1 ≤ n) {g p : Nat → ℝ} (h : ∀ t < n, |g t| ≤ p t) : nrm n (exdev n g) ≤ nrm n p := by
  have := nrm_le (n := n) (f := exdev n g) (g := p) (c := 1) (by norm_num) ?_
  · linarith
  · have h1 := sq_shift hn g (-1)
    have e : ∑ t ∈ range n, exdev n g t ^ 2 = ∑ t ∈ range n, (g t + -1 * mean n g) ^ 2 :=
      sum_congr rfl fun t _ => by unfold exdev; ring
    have h2 : ∑ t ∈ range n, g t ^ 2 ≤ ∑ t ∈ range n, p t ^ 2 := sum_le_sum fun t ht => by
      have := h t (Finset.mem_range.mp ht)
      exact sq_le_sq.mpr (this.trans (le_abs_self _))
    have h3 : 0 ≤ (n : ℝ) * mean n g ^ 2 := by positivity
    rw [e]
    linarith

theorem devs_near (R : Rounding fl) (hn : 1 ≤ n) {avg : List ℝ → SumTree} (hs : IsSum avg) {f g p : Nat → ℝ} {k : Nat}
    (h : ∀ t < n, Close k (f t) (g t) (p t)) :
    nrm n (fun t => devs fl avg n f t - exdev n g t) ≤ 2 * grow (n + k + 1) * nrm n p := by
  have hm := mean_close R hn hs h
  have hG := grow_nonneg (n + k + 1)
  refine nrm_le (by linarith) ?_
  have h1 : ∀ t ∈ range n, (devs fl avg n f t - exdev n g t) ^ 2 ≤ grow (n + k + 1) ^ 2 * (p t + 1 * mean n p) ^ 2 := fun t ht => by
    have hc := ((((h t (Finset.mem_range.mp ht)).mono (show k ≤ k + n by omega)).sub hm).rd R)
    have h2 := hc.2
    rw [show k + n + 1 = n + k + 1 by omega, ← one_add_grow, add_sub_cancel_left] at h2
    rw [← mul_pow, one_mul]
    exact sq_le_sq.mpr (h2.trans (le_abs_self _))
  refine (sum_le_sum h1).trans ?_
  rw [← mul_sum, sq_shift hn p 1, mul_pow]
  have := mean_sq_le hn p
  have h4 : ∑ t ∈ range n, p t ^ 2 + (2 * 1 + 1 ^ 2) * (n * mean n p ^ 2) ≤ 4 * ∑ t ∈ range n, p t ^ 2 := by linarith
  have := mul_le_mul_of_nonneg_left h4 (sq_nonneg (grow (n + k + 1)))
  linarith

/-- Exact sample correlation of two columns. -/
noncomputable def scor (n : Nat) (f g : Nat → ℝ) : ℝ := scov n 1 f g / (Real.sqrt (scov n 1 f f) * Real.sqrt (scov n 1 g g))

/-- The size of the entries `p` of a column relative to the standard deviation of the column. -/
noncomputable def relSize (n : Nat) (p g : Nat → ℝ) : ℝ := Real.sqrt ((∑ t ∈ range n, p t ^ 2) / (n - 1)) / Real.sqrt (scov n 1 g g)

theorem scov_exdev (f g : Nat → ℝ) : scov n 1 f g = sprod n (exdev n f) (exdev n g) / (n - 1) := rfl

theorem sd_exdev (g : Nat → ℝ) : Real.sqrt (scov n 1 g g) = nrm n (exdev n g) / Real.sqrt (n - 1) := by
  rw [scov_exdev, sprod_self, Real.sqrt_div (sq_nonneg _), Real.sqrt_sq (nrm_nonneg _)]

theorem scor_eq (hn : 2 ≤ n) (f g : Nat → ℝ) : scor n f g = sprod n (exdev n f) (exdev n g) / (nrm n (exdev n f) * nrm n (exdev n g)) := by
  have hp := pred_pos hn
  have hs := Real.sqrt_pos.mpr hp
  have hss := Real.mul_self_sqrt hp.le
  rw [scor, sd_exdev, sd_exdev, div_mul_div_comm, hss, scov_exdev, div_div_div_cancel_right₀ hp.ne']

theorem relSize_eq (hn : 2 ≤ n) (p g : Nat → ℝ) : relSize n p g = nrm n p / nrm n (exdev n g) := by
  have hp := pred_pos hn
  have hs := Real.sqrt_pos.mpr hp
  rw [relSize, sd_exdev, Real.sqrt_div (sum_nonneg fun _ _ => sq_nonneg _), ← nrm, div_div_div_cancel_right₀ hs.ne']

theorem exdev_pos (hn : 2 ≤ n) {g : Nat → ℝ} (h : 0 < scov n 1 g g) : 0 < nrm n (exdev n g) := by
  have hp := pred_pos hn
  have h1 := Real.sqrt_pos.mpr h
  rw [sd_exdev] at h1
  have hs := Real.sqrt_pos.mpr hp
  exact (div_pos_iff_of_pos_right hs).mp h1

theorem scor_le (hn : 2 ≤ n) {f g : Nat → ℝ} (hf : 0 < scov n 1 f f) (hg : 0 < scov n 1 g g) : |scor n f g| ≤ 1 := by
  have h1 := exdev_pos hn hf
  have h2 := exdev_pos hn hg
  rw [scor_eq hn, abs_div, abs_of_pos (mul_pos h1 h2), div_le_one (mul_pos h1 h2)]
  exact sprod_le _ _

theorem relSize_ge (hn : 2 ≤ n) {p g : Nat → ℝ} (hg : 0 < scov n 1 g g) (h : ∀ t < n, |g t| ≤ p t) : 1 ≤ relSize n p g := by
  have h1 := exdev_pos hn hg
  rw [relSize_eq hn, le_div_iff₀ h1, one_mul]
  exact exdev_le (by omega) h

/-- With a moderate relative size the computed deviations do not vanish. -/
theorem devs_pos (R : Rounding fl) (hn : 2 ≤ n) {avg : List ℝ → SumTree} (hs : IsSum avg) {f g p : Nat → ℝ} {k : Nat}
    (h : ∀ t < n, Close k (f t) (g t) (p t)) (hg : 0 < scov n 1 g g) (hk : 2 * grow (n + k + 1) * relSize n p g < 1) :
    0 < nrm n (devs fl avg n f) ∧
      nrm n (fun t => devs fl avg n f t - exdev n g t) ≤ 2 * grow (n + k + 1) * relSize n p g * nrm n (exdev n g) := by
  have h1 := exdev_pos hn hg
  have h2 := devs_near R (show 1 ≤ n by omega) hs h
  have e : nrm n p = relSize n p g * nrm n (exdev n g) := by
    rw [relSize_eq hn, div_mul_cancel₀ _ h1.ne']
  rw [e, ← mul_assoc] at h2
  refine ⟨?_, h2⟩
  have h3 := nrm_sub_le (n := n) (devs fl avg n f) (exdev n g)
  have h4 := (abs_le.mp h3).1
  have h5 : 2 * grow (n + k + 1) * relSize n p g * nrm n (exdev n g) < 1 * nrm n (exdev n g) := mul_lt_mul_of_pos_right hk h1
  linarith

theorem grow_le_n {k : Nat} (hk : k ≤ 3) (hu : ((n : ℝ) + 4) * u64 ≤ 1 / 64) : grow (n + k + 1) ≤ 64 / 63 * ((n + 4) * u64) := by
  have := grow_le (k := n + 4) (by push_cast; exact hu)
  push_cast at this
  exact (grow_mono (by omega)).trans this

theorem cor_err (R : Rounding fl) (ho : o.Valid) {v k : Nat} (hk : k ≤ 3) (hn : 2 ≤ n) (hu : ((n : ℝ) + 4) * u64 ≤ 1 / 64)
    {f g p : Nat → Nat → ℝ} {i j : Nat} (hi : i < v) (hj : j < v) (ci : ∀ t < n, Close k (f i t) (g i t) (p i t))
    (cj : ∀ t < n, Close k (f j t) (g j t) (p j t)) (hgi : 0 < scov n 1 (g i) (g i)) (hgj : 0 < scov n 1 (g j) (g j)) :
    |(corrcoefR fl o (incLists v n f)).get i j - scor n (g i) (g j)| ≤
      6 * ((n + 4) * u64) * (relSize n (p i) (g i) + relSize n (p j) (g j)) := by
  have hG := grow_le_n hk hu
  have hu0 : 0 < ((n : ℝ) + 4) * u64 := mul_pos (by positivity) u64_pos
  have ri := relSize_ge hn hgi fun t ht => (ci t ht).1
  have rj := relSize_ge hn hgj fun t ht => (cj t ht).1
  have hG0 := grow_nonneg (n + k + 1)
  by_cases h : 2 * grow (n + k + 1) * relSize n (p i) (g i) < 1 ∧ 2 * grow (n + k + 1) * relSize n (p j) (g j) < 1
  · obtain ⟨a1, a2⟩ := devs_pos R hn (ho.avg i) ci hgi h.1
    obtain ⟨b1, b2⟩ := devs_pos R hn (ho.avg j) cj hgj h.2
    have h1 := corr_near R ho hn hu (f := f) hi hj a1 b1
    have h2 := angle_near a1 b1 (exdev_pos hn hgi) (exdev_pos hn hgj) a2 b2
    rw [← scor_eq hn] at h2
    refine (abs_sub_le _ _ _).trans ((add_le_add h1 h2).trans ?_)
    have m1 := mul_le_mul_of_nonneg_right hG (by linarith : 0 ≤ relSize n (p i) (g i) + relSize n (p j) (g j))
    have m2 := mul_le_mul_of_nonneg_left (by linarith : 2 ≤ relSize n (p i) (g i) + relSize n (p j) (g j)) hu0.le
    linarith
  · have h1 : |(corrcoefR fl o (incLists v n f)).get i j - scor n (g i) (g j)| ≤ 2 := by
      have h2 := scor_le hn hgi hgj
      have h3 : |(corrcoefR fl o (incLists v n f)).get i j| ≤ 1 := by
        rw [corrcoefR_get hi hj]
        exact abs_le.mpr ⟨le_max_left _ _, max_le (by norm_num) (min_le_left _ _)⟩
      have := abs_sub ((corrcoefR fl o (incLists v n f)).get i j) (scor n (g i) (g j))
      linarith
    have m1 := mul_le_mul_of_nonneg_right hG (by linarith : 0 ≤ relSize n (p i) (g i))
    have m2 := mul_le_mul_of_nonneg_right hG (by linarith : 0 ≤ relSize n (p j) (g j))
    have m3 := mul_nonneg hu0.le (by linarith : 0 ≤ relSize n (p i) (g i))
    have m4 := mul_nonneg hu0.le (by linarith : 0 ≤ relSize n (p j) (g j))
    rw [not_and_or, not_lt, not_lt] at h
    rcases h with h | h <;> linarith

/-- Columns with moderate relative sizes and well-conditioned exact correlations: none looks constant and the factorisation succeeds. -/
theorem cor_sure (R : Rounding fl) (ho : o.Valid) (hord : IsCholOrder ord) {v k : Nat} (hk : k ≤ 3) (hn : 2 ≤ n) (hc : 1 < v)
    (hu : ((n : ℝ) + 4) * u64 ≤ 1 / 64) (hv : ((v : ℝ) + 2) * u64 ≤ 1 / 64) {f g p : Nat → Nat → ℝ}
    (hf : ∀ j < v, ∀ t < n, Close k (f j t) (g j t) (p j t)) (hg : ∀ j < v, 0 < scov n 1 (g j) (g j)) {K l : ℝ}
    (hK : ∀ j < v, relSize n (p j) (g j) ≤ K) (hl : v * (12 * ((n + 4) * u64) * K + 9 / 2 * ((v + 2) * u64)) < l)
    (hA : ∀ y : Nat → ℝ, l * ∑ i ∈ range v, y i ^ 2 ≤ ∑ i ∈ range v, ∑ j ∈ range v, y i * y j * scor n (g i) (g j)) :
    (∀ j < v, ∀ s : List ℝ → SumTree, IsSum s → ¬ ∀ t < n, f j t = lmeanR fl s ((List.range n).map (f j))) ∧
      (¬ ∃ j < v, covR fl o (incLists v n f) j j = 0) ∧ cholR fl ord recip (corrcoefR fl o (incLists v n f)) ≠ none := by
  have hu0 : 0 < ((n : ℝ) + 4) * u64 := mul_pos (by positivity) u64_pos
  have hv0 : 0 < ((v : ℝ) + 2) * u64 := mul_pos (by positivity) u64_pos
  have hv2 : (2 : ℝ) ≤ v := by exact_mod_cast hc
  have h0v : 0 < v := by omega
  have hK1 : 1 ≤ K := (relSize_ge hn (hg 0 h0v) fun t ht => (hf 0 h0v t ht).1).trans (hK 0 h0v)
  -- the smallest eigenvalue is at most one
  have hl1 : l ≤ 1 := by
    have h := hA fun i => if i = 0 then 1 else 0
    have e1 : ∑ i ∈ range v, (if i = 0 then (1 : ℝ) else 0) ^ 2 = 1 := by
      rw [Finset.sum_eq_single 0 (fun i _ hi => by simp [hi]) (fun h => absurd (Finset.mem_range.mpr h0v) h)]
      simp
    have e2 : ∑ i ∈ range v, ∑ j ∈ range v, (if i = 0 then (1 : ℝ) else 0) * (if j = 0 then 1 else 0) * scor n (g i) (g j) =
        scor n (g 0) (g 0) := by
      rw [Finset.sum_eq_single 0 (fun i _ hi => by simp [hi]) (fun h => absurd (Finset.mem_range.mpr h0v) h),
        Finset.sum_eq_single 0 (fun i _ hi => by simp [hi]) (fun h => absurd (Finset.mem_range.mpr h0v) h)]
      simp
    rw [e1, e2, mul_one] at h
    exact h.trans ((le_abs_self _).trans (scor_le hn (hg 0 h0v) (hg 0 h0v)))
  have hsmall : 24 * ((n + 4) * u64) * K < 1 := by
    have h1 : 0 ≤ 12 * ((n + 4) * u64) * K + 9 / 2 * ((v + 2) * u64) := by positivity
    have h2 := mul_le_mul_of_nonneg_right hv2 h1
    linarith
  have hG := grow_le_n hk hu
  have hG0 := grow_nonneg (n + k + 1)
  have hmod : ∀ j < v, 2 * grow (n + k + 1) * relSize n (p j) (g j) < 1 := fun j hj => by
    have h1 : grow (n + k + 1) * relSize n (p j) (g j) ≤ 64 / 63 * ((n + 4) * u64) * K :=
      mul_le_mul hG (hK j hj) (by linarith [relSize_ge hn (hg j hj) fun t ht => (hf j hj t ht).1]) (by positivity)
    linarith
  -- no column looks constant
  have hvary : ∀ j < v, ∀ s : List ℝ → SumTree, IsSum s → ¬ ∀ t < n, f j t = lmeanR fl s ((List.range n).map (f j)) := fun j hj s hs h => by
    have h1 := (devs_pos R hn hs (hf j hj) (hg j hj) (hmod j hj)).1
    have e : nrm n (devs fl s n (f j)) = 0 := by
      unfold nrm
      rw [Finset.sum_eq_zero fun t ht => ?_, Real.sqrt_zero]
      unfold devs
      rw [← h t (Finset.mem_range.mp ht), sub_self, R.zero]
      norm_num
    linarith
  have hlen : (incLists v n f).length = v := by simp [incLists]
  have hcov : ¬ ∃ j < v, covR fl o (incLists v n f) j j = 0 := by
    rintro ⟨j, hj, h⟩
    exact hvary j hj _ (ho.avg j) ((covR_self R ho hn hj).2.mp h)
  -- the factorisation succeeds
  have hch : cholR fl ord recip (corrcoefR fl o (incLists v n f)) ≠ none := by
    have hr : (corrcoefR fl o (incLists v n f)).rows = v := hlen
    refine chol_accepts R hord (by rw [hr]; exact hv) fun y hy => ?_
    rw [hr] at hy ⊢
    set C := (corrcoefR fl o (incLists v n f)).get with hC
    set δ := 12 * ((n + 4) * u64) * K with hδ
    have herr : ∀ i < v, ∀ j < v, |C i j - scor n (g i) (g j)| ≤ δ := fun i hi j hj => by
      refine (cor_err R ho hk hn hu hi hj (hf i hi) (hf j hj) (hg i hi) (hg j hj)).trans ?_
      have := mul_le_mul_of_nonneg_left (add_le_add (hK i hi) (hK j hj)) (by positivity : 0 ≤ 6 * ((n + 4) * u64))
      linarith
    have hsym : ∀ i j, scor n (g i) (g j) = scor n (g j) (g i) := fun i j => by
      rw [scor_eq hn, scor_eq hn, mul_comm (nrm n (exdev n (g i)))]
      congr 1
      exact sum_congr rfl fun t _ => mul_comm _ _
    have hterm : ∀ i < v, ∀ j < v, y i * y j * scor n (g i) (g j) - δ * (|y i| * |y j|) ≤ y i * y j * C (max i j) (min i j) := fun i hi j hj => by
      have h1 : |C (max i j) (min i j) - scor n (g i) (g j)| ≤ δ := by
        rcases le_total i j with h | h
        · rw [max_eq_right h, min_eq_left h, hsym]
          exact herr j hj i hi
        · rw [max_eq_left h, min_eq_right h]
          exact herr i hi j hj
      have h2 : |y i * y j * (C (max i j) (min i j) - scor n (g i) (g j))| ≤ |y i| * |y j| * δ := by
        rw [abs_mul, abs_mul]
        exact mul_le_mul_of_nonneg_left h1 (mul_nonneg (abs_nonneg _) (abs_nonneg _))
      have := (abs_le.mp h2).1
      linarith
    have hform : (∑ i ∈ range v, ∑ j ∈ range v, y i * y j * scor n (g i) (g j)) - δ * (∑ i ∈ range v, |y i|) ^ 2 ≤ lowerForm C v y := by
      have e : δ * (∑ i ∈ range v, |y i|) ^ 2 = ∑ i ∈ range v, ∑ j ∈ range v, δ * (|y i| * |y j|) := by
        rw [sq, sum_mul_sum, mul_sum]
        exact sum_congr rfl fun i _ => by rw [mul_sum]
      rw [e, ← sum_sub_distrib]
      refine sum_le_sum fun i hi => ?_
      rw [← sum_sub_distrib]
      exact sum_le_sum fun j hj => hterm i (Finset.mem_range.mp hi) j (Finset.mem_range.mp hj)
    have hw : weight C v y ≤ ∑ i ∈ range v, |y i| := by
      refine sum_le_sum fun i hi => mul_le_of_le_one_right (abs_nonneg _) ?_
      refine Real.sqrt_le_iff.mpr ⟨by norm_num, ?_⟩
      rw [one_pow, hC, corrcoefR_get (Finset.mem_range.mp hi) (Finset.mem_range.mp hi)]
      exact max_le (by norm_num) (min_le_left _ _)
    have hw2 := pow_le_pow_left₀ (weight_nonneg y) hw 2
    have hcs : (∑ i ∈ range v, |y i|) ^ 2 ≤ v * ∑ i ∈ range v, y i ^ 2 := by
      have := sq_sum_le_card_mul_sum_sq (s := range v) (f := fun i => |y i|)
      simpa only [card_range, sq_abs] using this
    have hpos : 0 < ∑ i ∈ range v, y i ^ 2 := by
      obtain ⟨i, hi, h⟩ := hy
      exact sum_pos' (fun _ _ => sq_nonneg _) ⟨i, Finset.mem_range.mpr hi, by positivity⟩
    have hfin := hA y
    have hδ0 : 0 ≤ δ := by rw [hδ]; positivity
    have s1 := mul_le_mul_of_nonneg_left hw2 (by positivity : 0 ≤ 9 / 2 * (((v : ℝ) + 2) * u64))
    have s2 := mul_le_mul_of_nonneg_left hcs (by positivity : 0 ≤ δ + 9 / 2 * (((v : ℝ) + 2) * u64))
    have s3 := mul_lt_mul_of_pos_right hl hpos
    linarith
  exact ⟨hvary, hcov, hch⟩

/-- Several columns with moderate relative sizes and well-conditioned exact correlations can be fitted. -/
theorem fit_sure_cor (R : Rounding fl) (ho : o.Valid) (hord : IsCholOrder ord) (hdt : 0 < dt) {v k : Nat} (hk : k ≤ 2) (hn : 2 ≤ n) (hc : 1 < v)
    (hu : ((n : ℝ) + 4) * u64 ≤ 1 / 64) (hv : ((v : ℝ) + 2) * u64 ≤ 1 / 64) {f g p : Nat → Nat → ℝ}
    (hf : ∀ j < v, ∀ t < n, Close k (f j t) (g j t) (p j t)) (hg : ∀ j < v, 0 < scov n 1 (g j) (g j)) {K l : ℝ}
    (hK : ∀ j < v, relSize n (p j) (g j) ≤ K) (hl : v * (12 * ((n + 4) * u64) * K + 9 / 2 * ((v + 2) * u64)) < l)
    (hA : ∀ y : Nat → ℝ, l * ∑ i ∈ range v, y i ^ 2 ≤ ∑ i ∈ range v, ∑ j ∈ range v, y i * y j * scor n (g i) (g j)) :
    ∃ r, fitIncrementsR fl o (cholR fl ord recip) (incLists v n f) dt = .ok r := by
  have hlen : (incLists v n f).length = v := by simp [incLists]
  obtain ⟨hvary, hcov, hch⟩ := cor_sure (recip := recip) R ho hord (hk.trans (by norm_num)) hn hc hu hv hf hg hK hl hA
  have hvol : some 0 ∉ ((incLists v n f).mapIdx fun j l => (npStd1R fl (o.mean j) (o.sq j) l).map fun s => fl (s / fl (Real.sqrt dt))) := by
    rw [vol_zero_round R ho hdt hn f]
    rintro ⟨j, hj, h⟩
    exact hvary j hj _ (ho.mean j) h
  have hnone : none ∉ ((incLists v n f).mapIdx fun j l => (npStd1R fl (o.mean j) (o.sq j) l).map fun s => fl (s / fl (Real.sqrt dt))) := by
    rw [List.mem_mapIdx]
    rintro ⟨j, hj, h⟩
    have e : (incLists v n f)[j] = (List.range n).map (f j) := by simp [incLists]
    rw [e, npStd1R_range hn] at h
    cases h
  obtain ⟨L, hL⟩ := Option.ne_none_iff_exists'.mp hch
  unfold fitIncrementsR
  simp only [hlen, if_pos hc, if_neg hvol, if_neg hnone, if_neg hcov, hL]
  exact ⟨_, rfl⟩

/-! ### The two models -/

/-- C133. The correlations fitted to a Brownian motion are those of the exact increments up to rounding times the size of the increments
relative to their standard deviations. -/
theorem bm_fit_cor_error (R : Rounding fl) (ho : o.Valid) {chol : Arr → Option Arr} (hx : x.rows = n + 1) (hn : 2 ≤ n) (hc : 1 < x.cols)
    (hu : ((n : ℝ) + 4) * u64 ≤ 1 / 64) {r : BMFit} (h : bmFitR fl o chol x dt = .ok r) :
    ∃ C, r.cor = some C ∧ ∀ i < x.cols, ∀ j < x.cols, 0 < scov n 1 (inc x i) (inc x i) → 0 < scov n 1 (inc x j) (inc x j) →
      |C.get i j - scov n 1 (inc x i) (inc x j) / (Real.sqrt (scov n 1 (inc x i) (inc x i)) * Real.sqrt (scov n 1 (inc x j) (inc x j)))| ≤
        6 * ((n + 4) * u64) * (Real.sqrt ((∑ t ∈ range n, |inc x i t| ^ 2) / (n - 1)) / Real.sqrt (scov n 1 (inc x i) (inc x i)) +
          Real.sqrt ((∑ t ∈ range n, |inc x j t| ^ 2) / (n - 1)) / Real.sqrt (scov n 1 (inc x j) (inc x j))) := by
  rw [bmFitR_eq hx] at h
  obtain ⟨-, -, -, -, h5, -⟩ := fitR_ok h
  exact ⟨_, (h5 hc).2.2.2.1, fun i hi j hj hgi hgj => cor_err R ho (k := 1) (by norm_num) hn hu (f := incR fl x) (g := inc x)
    (p := fun j t => |inc x j t|) hi hj (fun t _ => (Close.refl _).rd R) (fun t _ => (Close.refl _).rd R) hgi hgj⟩

/-- C133. The same for geometric Brownian motion: two roundings of `|log-return| + 1` each. -/
theorem gbm_fit_cor_error (R : Rounding fl) (ho : o.Valid) {chol : Arr → Option Arr} (hx : x.rows = n + 1) (hn : 2 ≤ n) (hc : 1 < x.cols)
    (hpos : Positive x) (hu : ((n : ℝ) + 4) * u64 ≤ 1 / 64) {r : BMFit} (h : gbmFitR fl o chol x dt = .ok r) :
    ∃ C, r.cor = some C ∧ ∀ i < x.cols, ∀ j < x.cols, 0 < scov n 1 (logInc x i) (logInc x i) → 0 < scov n 1 (logInc x j) (logInc x j) →
      |C.get i j - scov n 1 (logInc x i) (logInc x j) /
          (Real.sqrt (scov n 1 (logInc x i) (logInc x i)) * Real.sqrt (scov n 1 (logInc x j) (logInc x j)))| ≤
        6 * ((n + 4) * u64) *
          (Real.sqrt ((∑ t ∈ range n, (|logInc x i t| + 1) ^ 2) / (n - 1)) / Real.sqrt (scov n 1 (logInc x i) (logInc x i)) +
          Real.sqrt ((∑ t ∈ range n, (|logInc x j t| + 1) ^ 2) / (n - 1)) / Real.sqrt (scov n 1 (logInc x j) (logInc x j))) := by
  rw [gbmFitR_eq hx] at h
  obtain ⟨-, -, -, -, h5, -⟩ := fitR_ok h
  exact ⟨_, (h5 hc).2.2.2.1, fun i hi j hj hgi hgj => cor_err R ho (k := 2) (by norm_num) hn hu (f := logIncR fl x) (g := logInc x)
    (p := fun j t => |logInc x j t| + 1) hi hj (fun t ht => logIncR_close R (hpos _ (by omega) _ hi) (hpos _ (by omega) _ hi))
    (fun t ht => logIncR_close R (hpos _ (by omega) _ hj) (hpos _ (by omega) _ hj)) hgi hgj⟩

/-- C133. A Brownian motion is fitted without an error when the increments are not too large relative to their standard deviations and the
exact sample correlation matrix is sufficiently well conditioned. -/
theorem bm_fit_sure_round (R : Rounding fl) (ho : o.Valid) (hord : IsCholOrder ord) (hdt : 0 < dt) (hx : x.rows = n + 1) (hn : 2 ≤ n)
    (hc : 1 < x.cols) (hu : ((n : ℝ) + 4) * u64 ≤ 1 / 64) (hv : ((x.cols : ℝ) + 2) * u64 ≤ 1 / 64)
    (hg : ∀ j < x.cols, 0 < scov n 1 (inc x j) (inc x j)) {K l : ℝ}
    (hK : ∀ j < x.cols, Real.sqrt ((∑ t ∈ range n, |inc x j t| ^ 2) / (n - 1)) / Real.sqrt (scov n 1 (inc x j) (inc x j)) ≤ K)
    (hl : x.cols * (12 * ((n + 4) * u64) * K + 9 / 2 * ((x.cols + 2) * u64)) < l)
    (hA : ∀ y : Nat → ℝ, l * ∑ i ∈ range x.cols, y i ^ 2 ≤ ∑ i ∈ range x.cols, ∑ j ∈ range x.cols, y i * y j *
      (scov n 1 (inc x i) (inc x j) / (Real.sqrt (scov n 1 (inc x i) (inc x i)) * Real.sqrt (scov n 1 (inc x j) (inc x j))))) :
    ∃ r, bmFitR fl o (cholR fl ord recip) x dt = .ok r := by
  rw [bmFitR_eq hx]
  exact fit_sure_cor R ho hord hdt (k := 1) (by norm_num) hn hc hu hv (f := incR fl x) (g := inc x) (p := fun j t => |inc x j t|)
    (fun j _ t _ => (Close.refl _).rd R) hg hK hl hA

/-- C133. The same for geometric Brownian motion. -/
theorem gbm_fit_sure_round (R : Rounding fl) (ho : o.Valid) (hord : IsCholOrder ord) (hdt : 0 < dt) (hx : x.rows = n + 1) (hn : 2 ≤ n)
    (hc : 1 < x.cols) (hpos : Positive x) (hu : ((n : ℝ) + 4) * u64 ≤ 1 / 64) (hv : ((x.cols : ℝ) + 2) * u64 ≤ 1 / 64)
    (hg : ∀ j < x.cols, 0 < scov n 1 (logInc x j) (logInc x j)) {K l : ℝ}
    (hK : ∀ j < x.cols,
      Real.sqrt ((∑ t ∈ range n, (|logInc x j t| + 1) ^ 2) / (n - 1)) / Real.sqrt (scov n 1 (logInc x j) (logInc x j)) ≤ K)
    (hl : x.cols * (12 * ((n + 4) * u64) * K + 9 / 2 * ((x.cols + 2) * u64)) < l)
    (hA : ∀ y : Nat → ℝ, l * ∑ i ∈ range x.cols, y i ^ 2 ≤ ∑ i ∈ range x.cols, ∑ j ∈ range x.cols, y i * y j *
      (scov n 1 (logInc x i) (logInc x j) /
        (Real.sqrt (scov n 1 (logInc x i) (logInc x i)) * Real.sqrt (scov n 1 (logInc x j) (logInc x j))))) :
    ∃ r, gbmFitR fl o (cholR fl ord recip) x dt = .ok r := by
  rw [gbmFitR_eq hx]
  exact fit_sure_cor R ho hord hdt (k := 2) (by norm_num) hn hc hu hv (f := logIncR fl x) (g := logInc x) (p := fun j t => |logInc x j t| + 1)
    (fun j hj t ht => logIncR_close R (hpos _ (by omega) _ hj) (hpos _ (by omega) _ hj)) hg hK hl hA

/-! ### A case -/

/-- Two columns with orthogonal increments 1, 1, -1, -1 and 1, -1, 1, -1. -/
noncomputable def orthoData : Arr := .ofList 5 2 [0, 0, 1, 1, 2, 0, 1, 1, 0, 0]

theorem ortho_scov {i j : Nat} (hi : i < 2) (hj : j < 2) : scov 4 1 (inc orthoData i) (inc orthoData j) = if i = j then 4 / 3 else 0 := by
  interval_cases i <;> interval_cases j <;> norm_num [scov, mean, inc, orthoData, Arr.get, Arr.ofList, Finset.sum_range_succ]

/-- Fitted in every order of the sums. -/
theorem ortho_fit (R : Rounding fl) (ho : o.Valid) (hord : IsCholOrder ord) (hdt : 0 < dt) :
    ∃ r, bmFitR fl o (cholR fl ord recip) orthoData dt = .ok r := by
  have hc : orthoData.cols = 2 := rfl
  have hs : 0 < Real.sqrt (4 / 3) := Real.sqrt_pos.mpr (by norm_num)
  refine bm_fit_sure_round R ho hord hdt (n := 4) rfl (by norm_num) (by rw [hc]; norm_num) (by norm_num [u64]) (by rw [hc]; norm_num [u64])
    (K := 1) (l := 1) ?_ ?_ ?_ ?_
  · intro j hj
    rw [ortho_scov hj hj, if_pos rfl]
    norm_num
  · intro j hj
    have e : (∑ t ∈ range 4, |inc orthoData j t| ^ 2) / (((4 : ℕ) : ℝ) - 1) = 4 / 3 := by
      rw [hc] at hj
      interval_cases j <;> norm_num [inc, orthoData, Arr.get, Arr.ofList, Finset.sum_range_succ]
    rw [ortho_scov hj hj, if_pos rfl, e, div_self hs.ne']
  · rw [hc]
    norm_num [u64]
  · intro y
    rw [hc, one_mul]
    refine sum_le_sum fun i hi => ?_
    have hi' := Finset.mem_range.mp hi
    rw [Finset.sum_eq_single i]
    · rw [ortho_scov hi' hi', if_pos rfl, Real.mul_self_sqrt (by norm_num)]
      norm_num [sq]
    · intro j hj hne
      rw [ortho_scov hi' (Finset.mem_range.mp hj), if_neg hne.symm, zero_div, mul_zero]
    · exact fun h => absurd hi h

/-- Its correlations differ from 1 and 0 by at most `96 * 2^-53`. -/
example (ho : o.Valid) (hord : IsCholOrder ord) : ∃ r C, bmFitR b64 o (cholR b64 ord recip) orthoData 1 = .ok r ∧ r.cor = some C ∧
    |C.get 0 1| ≤ 96 * u64 ∧ |C.get 0 0 - 1| ≤ 96 * u64 := by
  obtain ⟨r, hr⟩ := ortho_fit (dt := 1) (recip := recip) b64_rounding ho hord one_pos
  obtain ⟨C, hC, h⟩ := bm_fit_cor_error b64_rounding ho (n := 4) rfl (by norm_num) (by norm_num [orthoData, Arr.ofList]) (by norm_num [u64]) hr
  have hs : 0 < Real.sqrt (4 / 3) := Real.sqrt_pos.mpr (by norm_num)
  have e : ∀ j < 2, Real.sqrt ((∑ t ∈ range 4, |inc orthoData j t| ^ 2) / (((4 : ℕ) : ℝ) - 1)) = Real.sqrt (4 / 3) := fun j hj => by
    congr 1
    interval_cases j <;> norm_num [inc, orthoData, Arr.get, Arr.ofList, Finset.sum_range_succ]
  have h01 := h 0 (by decide) 1 (by decide)
  have h00 := h 0 (by decide) 0 (by decide)
  rw [ortho_scov (i := 0) (j := 1) (by norm_num) (by norm_num), ortho_scov (i := 0) (j := 0) (by norm_num) (by norm_num),
    ortho_scov (i := 1) (j := 1) (by norm_num) (by norm_num), if_pos rfl, if_pos rfl, if_neg (by norm_num), e 0 (by norm_num), e 1 (by norm_num),
    div_self hs.ne'] at h01
  rw [ortho_scov (i := 0) (j := 0) (by norm_num) (by norm_num), if_pos rfl, e 0 (by norm_num), div_self hs.ne',
    Real.mul_self_sqrt (by norm_num)] at h00
  refine ⟨r, C, hr, hC, ?_, ?_⟩
  · have := h01 (by norm_num) (by norm_num)
    rw [zero_div, sub_zero] at this
    push_cast at this
    linarith
  · have := h00 (by norm_num) (by norm_num)
    push_cast at this
    norm_num at this ⊢
    linarith

end Verif.Sim
