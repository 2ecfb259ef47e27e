import Verif.Model.HistR
import Verif.Props.Info
import Verif.Lemmas.Round

/-!
# C105: information measures with the bin edges of numpy
-/

namespace Verif.Info

open Verif.Round Verif.Ent

variable {fl : ℝ → ℝ}

/-- The range is wide enough for `n` bins at the precision of floats. -/
structure Wide (a b : ℝ) (n : Nat) : Prop where
  pos : 0 < n
  lt : a < b
  wide : 32 * n * u64 * (|a| + |b|) ≤ b - a

theorem u64_pos : 0 < u64 := by unfold u64; positivity

theorem u64_small : u64 ≤ 1 / 1000 := by unfold u64; norm_num

theorem Wide.range_le {a b : ℝ} {n : Nat} (_ : Wide a b n) : b - a ≤ |a| + |b| := by
  have := le_abs_self b
  have := neg_abs_le a
  linarith

theorem Wide.mag_pos {a b : ℝ} {n : Nat} (h : Wide a b n) : 0 < |a| + |b| := lt_of_lt_of_le (sub_pos.mpr h.lt) h.range_le

theorem Wide.bin {a b : ℝ} {n : Nat} (h : Wide a b n) : 32 * u64 * (|a| + |b|) ≤ (b - a) / n := by
  have hn : (0 : ℝ) < n := by exact_mod_cast h.pos
  rw [le_div_iff₀ hn]
  have := h.wide
  nlinarith

theorem Wide.count {a b : ℝ} {n : Nat} (h : Wide a b n) : 32 * n * u64 ≤ 1 := by
  have h1 := h.wide.trans h.range_le
  have hm := h.mag_pos
  by_contra hc
  push Not at hc
  nlinarith

theorem rel_bounds (R : Rounding fl) {x : ℝ} (hx : 0 ≤ x) : x * (1 - u64) ≤ fl x ∧ fl x ≤ x * (1 + u64) := by
  have := abs_le.mp (R.rel x)
  rw [abs_of_nonneg hx] at this
  constructor <;> linarith

/-- Rounding moves the edges by at most eight units of the magnitude of the ends. -/
theorem edge_err (R : Rounding fl) {a b : ℝ} {n k : Nat} (h : Wide a b n) (hk : k ≤ n) :
    |edgeR fl a b n k - (a + k * ((b - a) / n))| ≤ 8 * u64 * (|a| + |b|) := by
  have hu := u64_pos
  have hus := u64_small
  have hm := h.mag_pos
  have hn : (0 : ℝ) < n := by exact_mod_cast h.pos
  have hD : 0 < b - a := sub_pos.mpr h.lt
  have hDM := h.range_le
  by_cases hkn : k = n
  · rw [edgeR, if_pos hkn, hkn]
    have : b - (a + n * ((b - a) / n)) = 0 := by field_simp; ring
    rw [this, abs_zero]
    positivity
  rw [edgeR, if_neg hkn]
  set D := b - a with hDd
  set d := fl D
  obtain ⟨d1, d2⟩ := rel_bounds R hD.le
  have hd0 : 0 ≤ d := le_trans (mul_nonneg hD.le (by linarith)) d1
  set s := fl (d / n)
  obtain ⟨s1, s2⟩ := rel_bounds R (x := d / n) (by positivity)
  have hk0 : (0 : ℝ) ≤ k := Nat.cast_nonneg k
  have hkn' : (k : ℝ) ≤ n := by exact_mod_cast hk
  have hs0 : 0 ≤ s := le_trans (mul_nonneg (by positivity) (by linarith)) s1
  obtain ⟨p1, p2⟩ := rel_bounds R (x := k * s) (by positivity)
  set p := fl (k * s)
  have g1 : (1 + u64) ^ 3 ≤ 1 + 4 * u64 := by nlinarith [sq_nonneg u64]
  have g2 : 1 - 4 * u64 ≤ (1 - u64) ^ 3 := by nlinarith [sq_nonneg u64]
  set T := k * (D / n) with hT
  have hT0 : 0 ≤ T := by positivity
  have hTD : T ≤ D := by
    rw [hT, mul_div_assoc', div_le_iff₀ hn]
    nlinarith
  have hks : k * (d / n) = d * (k / n) := by ring
  have hTk : T = D * (k / n) := by rw [hT]; ring
  have hr0 : (0 : ℝ) ≤ k / n := by positivity
  have up : p ≤ T * (1 + 4 * u64) := by
    calc p ≤ k * s * (1 + u64) := p2
      _ ≤ k * (d / n * (1 + u64)) * (1 + u64) := by gcongr
      _ = d * (k / n) * (1 + u64) ^ 2 := by ring
      _ ≤ D * (1 + u64) * (k / n) * (1 + u64) ^ 2 := by gcongr
      _ = T * (1 + u64) ^ 3 := by rw [hTk]; ring
      _ ≤ T * (1 + 4 * u64) := by gcongr
  have down : T * (1 - 4 * u64) ≤ p := by
    have hu1 : 0 ≤ 1 - u64 := by linarith
    calc T * (1 - 4 * u64) ≤ T * (1 - u64) ^ 3 := by gcongr
      _ = D * (1 - u64) * (k / n) * (1 - u64) ^ 2 := by rw [hTk]; ring
      _ ≤ d * (k / n) * (1 - u64) ^ 2 := by gcongr
      _ = k * (d / n * (1 - u64)) * (1 - u64) := by ring
      _ ≤ k * s * (1 - u64) := by gcongr
      _ ≤ p := p1
  have e1 := R.rel (p + a)
  have e2 : |p + a| ≤ 2 * D + |a| := by
    refine (abs_add_le _ _).trans ?_
    have hp0 : 0 ≤ p := le_trans (mul_nonneg hT0 (by linarith)) down
    rw [abs_of_nonneg hp0]
    nlinarith
  have e3 : |p - T| ≤ 4 * u64 * D := by
    rw [abs_le]
    constructor <;> nlinarith
  have e4 : fl (p + a) - (a + T) = (fl (p + a) - (p + a)) + (p - T) := by ring
  rw [e4]
  have ha := abs_nonneg a
  have hb := abs_nonneg b
  calc |(fl (p + a) - (p + a)) + (p - T)| ≤ |fl (p + a) - (p + a)| + |p - T| := abs_add_le _ _
    _ ≤ u64 * (2 * D + |a|) + 4 * u64 * D := by
      have : u64 * |p + a| ≤ u64 * (2 * D + |a|) := by gcongr
      linarith
    _ ≤ 8 * u64 * (|a| + |b|) := by nlinarith

/-- Over a wide range the edges increase, so that no version of numpy refuses them. -/
theorem edge_strict (R : Rounding fl) {a b : ℝ} {n : Nat} (h : Wide a b n) {i j : Nat} (hij : i < j) (hj : j ≤ n) :
    edgeR fl a b n i < edgeR fl a b n j := by
  have step : ∀ k, k + 1 ≤ n → edgeR fl a b n k < edgeR fl a b n (k + 1) := by
    intro k hk
    have e1 := (abs_le.mp (edge_err R h (show k ≤ n by omega))).2
    have e2 := (abs_le.mp (edge_err R h hk)).1
    have hb := h.bin
    have := mul_pos u64_pos h.mag_pos
    push_cast at e2
    linarith
  obtain ⟨m, rfl⟩ : ∃ m, j = i + m + 1 := ⟨j - i - 1, by omega⟩
  clear hij
  induction m with
  | zero => exact step i hj
  | succ m ih => exact (ih (by omega)).trans (step (i + m + 1) hj)

theorem edge_zero (R : Rounding fl) {a b : ℝ} {n : Nat} (hn : 0 < n) (ha : fl a = a) : edgeR fl a b n 0 = a := by
  have h0 : fl 0 = 0 := by simpa using R.int 0 (by norm_num)
  rw [edgeR, if_neg (by omega), Nat.cast_zero, zero_mul, h0, zero_add, ha]

theorem edge_last (a b : ℝ) (n : Nat) : edgeR fl a b n n = b := if_pos rfl

/-- `np.histogram2d`: half-open bins between the rounded edges, the last one closed. -/
theorem bin2_spec (R : Rounding fl) {a b v : ℝ} {n : Nat} (h : Wide a b n) (ha : fl a = a) (h1 : a ≤ v) (h2 : v ≤ b) (k : Nat) :
    binR2 fl a b n v = k ↔ k < n ∧ edgeR fl a b n k ≤ v ∧ (v < edgeR fl a b n (k + 1) ∨ k = n - 1) := by
  classical
  have hn := h.pos
  have mono : ∀ i j, i ≤ j → j ≤ n → edgeR fl a b n i ≤ edgeR fl a b n j := by
    intro i j hij hj
    rcases hij.lt_or_eq with hlt | rfl
    · exact (edge_strict R h hlt hj).le
    · exact le_rfl
  have h0 : edgeR fl a b n 0 ≤ v := by rw [edge_zero R hn ha]; exact h1
  set g := Nat.findGreatest (fun j => edgeR fl a b n j ≤ v) n with hg
  have g1 : edgeR fl a b n g ≤ v := Nat.findGreatest_spec (P := fun j => edgeR fl a b n j ≤ v) (m := 0) (by omega) h0
  have g2 : g ≤ n := Nat.findGreatest_le n
  have g3 : ∀ j, g < j → j ≤ n → v < edgeR fl a b n j := fun j hj hjn =>
    not_le.mp (Nat.findGreatest_is_greatest (P := fun j => edgeR fl a b n j ≤ v) hj hjn)
  have hlen : ((List.range (n + 1)).filter fun j => edgeR fl a b n j ≤ v).length = g + 1 := by
    have hsplit : List.range (n + 1) = List.range (g + 1) ++ (List.range (n - g)).map (g + 1 + ·) := by
      rw [← List.range_add, show g + 1 + (n - g) = n + 1 by omega]
    rw [hsplit, List.filter_append, List.filter_eq_self.mpr, List.filter_eq_nil_iff.mpr, List.append_nil, List.length_range]
    · intro j hj
      obtain ⟨i, hi, rfl⟩ := List.mem_map.mp hj
      have := List.mem_range.mp hi
      simp only [decide_eq_true_eq, not_le]
      exact g3 _ (by omega) (by omega)
    · intro j hj
      have := List.mem_range.mp hj
      simp only [decide_eq_true_eq]
      exact (mono j g (by omega) g2).trans g1
  have hval : binR2 fl a b n v = if v = b then g - 1 else g := by
    unfold binR2
    rw [hlen]
    split <;> simp
  have uniq : ∀ k k', (k < n ∧ edgeR fl a b n k ≤ v ∧ (v < edgeR fl a b n (k + 1) ∨ k = n - 1)) →
      (k' < n ∧ edgeR fl a b n k' ≤ v ∧ (v < edgeR fl a b n (k' + 1) ∨ k' = n - 1)) → k ≤ k' := by
    rintro k k' ⟨c1, c2, c3⟩ ⟨d1, d2, d3⟩
    by_contra hc
    push Not at hc
    rcases d3 with d3 | d3
    · have := mono (k' + 1) k hc (by omega)
      linarith
    · omega
  have good : binR2 fl a b n v < n ∧ edgeR fl a b n (binR2 fl a b n v) ≤ v ∧
      (v < edgeR fl a b n (binR2 fl a b n v + 1) ∨ binR2 fl a b n v = n - 1) := by
    rw [hval]
    by_cases hv : v = b
    · rw [if_pos hv]
      have hgn : g = n := by
        by_contra hc
        have := g3 n (by omega) le_rfl
        rw [edge_last] at this
        linarith
      refine ⟨by omega, (mono (g - 1) g (by omega) g2).trans g1, .inr (by omega)⟩
    · rw [if_neg hv]
      have hgn : g < n := by
        rcases g2.lt_or_eq with hlt | heq
        · exact hlt
        · rw [heq, edge_last] at g1
          exact absurd (le_antisymm h2 g1) hv
      exact ⟨hgn, g1, .inl (g3 _ (by omega) (by omega))⟩
  constructor
  · rintro rfl
    exact good
  · intro hk
    exact le_antisymm (uniq _ _ good hk) (uniq _ _ hk good)

/-- The guess is off by at most one. -/
theorem guess_close (R : Rounding fl) {a b v : ℝ} {n k : Nat} (h : Wide a b n) (h1 : a ≤ v) (h2 : v ≤ b) (hk : k < n)
    (e1 : edgeR fl a b n k ≤ v) (e2 : v ≤ edgeR fl a b n (k + 1)) :
    guessR fl a b n v ≤ k + 1 ∧ k ≤ guessR fl a b n v + 1 ∧ guessR fl a b n v ≤ n - 1 := by
  have hu := u64_pos
  have hus := u64_small
  have hm := h.mag_pos
  have hn : (0 : ℝ) < n := by exact_mod_cast h.pos
  have hD : 0 < b - a := sub_pos.mpr h.lt
  set D := b - a with hDd
  set t := (v - a) / D with ht
  have ht0 : 0 ≤ t := div_nonneg (by linarith) hD.le
  have ht1 : t ≤ 1 := by rw [ht, div_le_one hD]; linarith
  obtain ⟨x1, x2⟩ := rel_bounds R (x := v - a) (by linarith)
  obtain ⟨y1, y2⟩ := rel_bounds R hD.le
  set x := fl (v - a)
  set y := fl D
  have hu1 : 0 < 1 - u64 := by linarith
  have hy0 : 0 < y := lt_of_lt_of_le (mul_pos hD hu1) y1
  have hx0 : 0 ≤ x := le_trans (mul_nonneg (by linarith) hu1.le) x1
  have hva : v - a = t * D := by rw [ht]; field_simp
  have q1 : x / y ≤ t * (1 + u64) / (1 - u64) := by
    rw [div_le_div_iff₀ hy0 hu1]
    calc x * (1 - u64) ≤ (v - a) * (1 + u64) * (1 - u64) := by gcongr
      _ = t * (1 + u64) * (D * (1 - u64)) := by rw [hva]; ring
      _ ≤ t * (1 + u64) * y := by gcongr
  have q2 : t * (1 - u64) / (1 + u64) ≤ x / y := by
    rw [div_le_div_iff₀ (by linarith) hy0]
    calc t * (1 - u64) * y ≤ t * (1 - u64) * (D * (1 + u64)) := by gcongr
      _ = (v - a) * (1 - u64) * (1 + u64) := by rw [hva]; ring
      _ ≤ x * (1 + u64) := by gcongr
  obtain ⟨r1, r2⟩ := rel_bounds R (x := x / y) (by positivity)
  set q := fl (x / y)
  have hq0 : 0 ≤ q := le_trans (mul_nonneg (by positivity) hu1.le) r1
  obtain ⟨f1, f2⟩ := rel_bounds R (x := q * n) (by positivity)
  set f := fl (q * n) with hf
  have c1 : (1 + u64) / (1 - u64) * (1 + u64) ^ 2 ≤ 1 + 5 * u64 := by
    rw [div_mul_eq_mul_div, div_le_iff₀ hu1]
    nlinarith [sq_nonneg u64]
  have c2 : 1 - 5 * u64 ≤ (1 - u64) / (1 + u64) * (1 - u64) ^ 2 := by
    rw [div_mul_eq_mul_div, le_div_iff₀ (by linarith)]
    nlinarith [sq_nonneg u64]
  have up : f ≤ t * n * (1 + 5 * u64) := by
    calc f ≤ q * n * (1 + u64) := f2
      _ ≤ x / y * (1 + u64) * n * (1 + u64) := by gcongr
      _ ≤ t * (1 + u64) / (1 - u64) * (1 + u64) * n * (1 + u64) := by gcongr
      _ = t * n * ((1 + u64) / (1 - u64) * (1 + u64) ^ 2) := by ring
      _ ≤ t * n * (1 + 5 * u64) := by gcongr
  have down : t * n * (1 - 5 * u64) ≤ f := by
    calc t * n * (1 - 5 * u64) ≤ t * n * ((1 - u64) / (1 + u64) * (1 - u64) ^ 2) := by gcongr
      _ = t * (1 - u64) / (1 + u64) * (1 - u64) * n * (1 - u64) := by ring
      _ ≤ x / y * (1 - u64) * n * (1 - u64) := by gcongr
      _ ≤ q * n * (1 - u64) := by gcongr
      _ ≤ f := f1
  have hcount := h.count
  have htn : t * n ≤ n := by nlinarith
  have htn0 : 0 ≤ t * n := by positivity
  have hq : t * n * (5 * u64) ≤ 1 / 4 := by nlinarith
  -- the position of the value among the exact edges
  have hbin : 8 * u64 * (|a| + |b|) ≤ (D / n) / 4 := by have := h.bin; linarith
  have b1 := (abs_le.mp (edge_err R h (show k ≤ n by omega))).1
  have b2 := (abs_le.mp (edge_err R h (show k + 1 ≤ n by omega))).2
  have hw : 0 < D / n := by positivity
  have htw : t * n * (D / n) = v - a := by rw [hva]; field_simp
  have p1 : (k : ℝ) - 1 / 4 ≤ t * n := by
    have : ((k : ℝ) - 1 / 4) * (D / n) ≤ t * n * (D / n) := by rw [htw]; linarith
    exact le_of_mul_le_mul_right this hw
  have p2 : t * n ≤ (k : ℝ) + 1 + 1 / 4 := by
    have : t * n * (D / n) ≤ ((k : ℝ) + 1 + 1 / 4) * (D / n) := by
      rw [htw]
      push_cast at b2
      linarith
    exact le_of_mul_le_mul_right this hw
  have z1 : (k : ℝ) - 1 / 2 ≤ f := by linarith
  have z2 : f < (k : ℝ) + 2 := by linarith
  have hf0 : 0 ≤ f := le_trans (mul_nonneg (by positivity) hu1.le) f1
  have w1 : ⌊f⌋₊ < k + 2 := by rw [Nat.floor_lt hf0]; push_cast; linarith
  have w2 : k ≤ ⌊f⌋₊ + 1 := by
    by_cases hk0 : k = 0
    · omega
    · have : k - 1 ≤ ⌊f⌋₊ := by
        rw [Nat.le_floor_iff hf0, Nat.cast_sub (by omega)]
        push_cast
        linarith
      omega
  have hgu : guessR fl a b n v = if ⌊f⌋₊ = n then n - 1 else ⌊f⌋₊ := rfl
  rw [hgu]
  split
  · rename_i he
    rw [he] at w1 w2
    omega
  · omega

/-- Over a wide range the one-dimensional and the two-dimensional histogram use the same bins. -/
theorem bin1_eq_bin2 (R : Rounding fl) {a b v : ℝ} {n : Nat} (h : Wide a b n) (ha : fl a = a) (h1 : a ≤ v) (h2 : v ≤ b) :
    binR1 fl a b n v = binR2 fl a b n v := by
  obtain ⟨hk, e1, e2⟩ := (bin2_spec R h ha h1 h2 _).mp rfl
  set k := binR2 fl a b n v
  have e3 : v ≤ edgeR fl a b n (k + 1) := by
    rcases e2 with e2 | e2
    · exact e2.le
    · rw [show k + 1 = n by omega, edge_last]
      exact h2
  obtain ⟨g1, g2, g3⟩ := guess_close R h h1 h2 hk e1 e3
  unfold binR1
  set g := guessR fl a b n v
  rcases (by omega : g + 1 = k ∨ g = k ∨ g = k + 1) with hg | hg | hg
  · have hlt : edgeR fl a b n g ≤ v := (edge_strict R h (show g < k by omega) hk.le).le.trans e1
    dsimp only
    rw [if_neg (not_lt.mpr hlt), hg, if_pos ⟨e1, by omega⟩]
  · dsimp only
    rw [hg, if_neg (not_lt.mpr e1), if_neg]
    rintro ⟨c1, c2⟩
    rcases e2 with e2 | e2
    · linarith
    · exact c2 e2
  · have hlt : v < edgeR fl a b n (k + 1) := by
      rcases e2 with e2 | e2
      · exact e2
      · omega
    dsimp only
    rw [hg, if_pos hlt, Nat.add_sub_cancel, if_neg]
    rintro ⟨c1, -⟩
    linarith

/-! ### Samples -/

/-- A sample of floats whose range is wide enough for `b` bins. -/
structure Fit (fl : ℝ → ℝ) (b : Nat) (x : List ℝ) : Prop where
  ne : x ≠ []
  float : ∀ v ∈ x, fl v = v
  wide : Wide (outerR fl x).1 (outerR fl x).2 b

theorem Fit.mem (R : Rounding fl) {b : Nat} {x : List ℝ} (h : Fit fl b x) {v : ℝ} (hv : v ∈ x) :
    (outerR fl x).1 ≤ v ∧ v ≤ (outerR fl x).2 := by
  obtain ⟨l1, l2⟩ := lo_spec h.ne
  obtain ⟨g1, g2⟩ := hi_spec h.ne
  have e1 := h.float _ l1
  have e2 := h.float _ g1
  unfold outerR
  split
  · dsimp only
    have c1 : fl (lo x - 1 / 2) ≤ lo x := by
      conv_rhs => rw [← e1]
      exact R.mono (by linarith)
    have c2 : hi x ≤ fl (hi x + 1 / 2) := by
      conv_lhs => rw [← e2]
      exact R.mono (by linarith)
    exact ⟨c1.trans (l2 v hv), (g2 v hv).trans c2⟩
  · exact ⟨l2 v hv, g2 v hv⟩

theorem Fit.left (R : Rounding fl) {b : Nat} {x : List ℝ} (h : Fit fl b x) : fl (outerR fl x).1 = (outerR fl x).1 := by
  unfold outerR
  split
  · exact R.idem _
  · exact h.float _ (lo_spec h.ne).1

/-- The bins of a sample between rounded edges. -/
noncomputable def labR (fl : ℝ → ℝ) {n : Nat} (b : Nat) (u : Fin n → ℝ) (i : Fin n) : Nat :=
  binR2 fl (outerR fl (List.ofFn u)).1 (outerR fl (List.ofFn u)).2 b (u i)

theorem labR_spec (R : Rounding fl) {n b : Nat} {u : Fin n → ℝ} (h : Fit fl b (List.ofFn u)) (i : Fin n) (k : Nat) :
    let a := (outerR fl (List.ofFn u)).1
    let c := (outerR fl (List.ofFn u)).2
    labR fl b u i = k ↔ k < b ∧ edgeR fl a c b k ≤ u i ∧ (u i < edgeR fl a c b (k + 1) ∨ k = b - 1) := by
  have hm := h.mem R ((List.mem_ofFn' _ _).mpr ⟨i, rfl⟩)
  exact bin2_spec R h.wide (h.left R) hm.1 hm.2 k

theorem histR_entropy (R : Rounding fl) {n : Nat} (hn : 0 < n) {b : Nat} {u : Fin n → ℝ} (h : Fit fl b (List.ofFn u)) :
    entropy (normalise (histR fl b (List.ofFn u))) = H (labR fl b u) := by
  have e : (List.ofFn u).map (binR1 fl (outerR fl (List.ofFn u)).1 (outerR fl (List.ofFn u)).2 b) = List.ofFn (labR fl b u) := by
    rw [List.map_ofFn]
    congr 1
    funext i
    have hm := h.mem R ((List.mem_ofFn' _ _).mpr ⟨i, rfl⟩)
    exact bin1_eq_bin2 R h.wide (h.left R) hm.1 hm.2
  unfold histR
  rw [e]
  exact entropy_counts hn (labR fl b u) List.nodup_range fun i => List.mem_range.mpr ((labR_spec R h i _).mp rfl).1

theorem hist2R_entropy (R : Rounding fl) {n : Nat} (hn : 0 < n) {b : Nat} {u w : Fin n → ℝ} (hu : Fit fl b (List.ofFn u))
    (hw : Fit fl b (List.ofFn w)) :
    entropy (normalise (hist2R fl b (List.ofFn u) (List.ofFn w))) = H fun i => (labR fl b u i, labR fl b w i) := by
  have e1 : ∀ u : Fin n → ℝ, (List.ofFn u).map (binR2 fl (outerR fl (List.ofFn u)).1 (outerR fl (List.ofFn u)).2 b) =
      List.ofFn (labR fl b u) := by
    intro u
    rw [List.map_ofFn]; rfl
  have e3 : hist2R fl b (List.ofFn u) (List.ofFn w) =
      ((List.range b).flatMap fun i => (List.range b).map fun j => (i, j)).map
        fun k => (List.ofFn fun i => (labR fl b u i, labR fl b w i)).count k := by
    unfold hist2R
    rw [e1, e1, zip_ofFn, List.map_flatMap]
    simp [List.map_map, Function.comp_def]
  rw [e3]
  have hnd : ((List.range b).flatMap fun i => (List.range b).map fun j => (i, j)).Nodup := by
    rw [List.nodup_flatMap]
    refine ⟨fun i _ => List.Nodup.map (fun a c h => (Prod.mk.inj h).2) List.nodup_range, ?_⟩
    refine List.Pairwise.imp ?_ List.nodup_range
    intro i j hij q hq hq'
    obtain ⟨a, -, rfl⟩ := List.mem_map.mp hq
    obtain ⟨c, -, hc⟩ := List.mem_map.mp hq'
    exact hij (Prod.mk.inj hc).1.symm
  refine entropy_counts hn _ hnd fun i => ?_
  rw [List.mem_flatMap]
  exact ⟨_, List.mem_range.mpr ((labR_spec R hu i _).mp rfl).1,
    List.mem_map.mpr ⟨_, List.mem_range.mpr ((labR_spec R hw i _).mp rfl).1, rfl⟩⟩

theorem ent_eqR (R : Rounding fl) {n : Nat} (hn : 2 ≤ n) {bins : Int} (hb : 1 ≤ bins) {u w : Fin n → ℝ}
    (hu : Fit fl bins.toNat (List.ofFn u)) (hw : Fit fl bins.toNat (List.ofFn w)) :
    computeEntropiesR fl (sample u) (sample w) bins =
      .ok (H (labR fl bins.toNat u), H (labR fl bins.toNat w), H fun i => (labR fl bins.toNat u i, labR fl bins.toNat w i)) := by
  unfold computeEntropiesR validate1D
  rw [sample_length, sample_length, if_neg (by omega), finiteList_sample, finiteList_sample]
  simp only [bind, Except.bind]
  rw [if_neg (by simp), if_neg (by omega), histR_entropy R (by omega) hu, histR_entropy R (by omega) hw,
    hist2R_entropy R (by omega) hu hw]

theorem labR_const (R : Rounding fl) {n b : Nat} {u : Fin n → ℝ} (h : Fit fl b (List.ofFn u)) :
    ((b = 1 ∨ ∀ i j, u i = u j) ∧ ∀ i j, labR fl b u i = labR fl b u j) ∨
      (1 < b ∧ (∃ i, labR fl b u i = 0) ∧ ∃ i, labR fl b u i = b - 1) := by
  have hb := h.wide.pos
  obtain ⟨l1, l2⟩ := lo_spec h.ne
  obtain ⟨g1, g2⟩ := hi_spec h.ne
  obtain ⟨k, hk⟩ := (List.mem_ofFn' _ _).mp l1
  obtain ⟨m, hm⟩ := (List.mem_ofFn' _ _).mp g1
  by_cases hb1 : b = 1
  · refine .inl ⟨.inl hb1, ?_⟩
    intro i j
    have e1 := ((labR_spec R h i _).mp rfl).1
    have e2 := ((labR_spec R h j _).mp rfl).1
    omega
  by_cases he : lo (List.ofFn u) = hi (List.ofFn u)
  · left
    have hi' : ∀ i, u i = lo (List.ofFn u) := fun i =>
      le_antisymm (by rw [he]; exact g2 _ ((List.mem_ofFn' _ _).mpr ⟨i, rfl⟩)) (l2 _ ((List.mem_ofFn' _ _).mpr ⟨i, rfl⟩))
    refine ⟨.inr fun i j => by rw [hi' i, hi' j], ?_⟩
    intro i j
    unfold labR
    rw [hi' i, hi' j]
  · right
    have ho : outerR fl (List.ofFn u) = (lo (List.ofFn u), hi (List.ofFn u)) := by unfold outerR; rw [if_neg he]
    have hw := h.wide
    have hleft := h.left R
    rw [ho] at hw hleft
    have ez := edge_zero (b := hi (List.ofFn u)) R hb hleft
    refine ⟨by omega, ⟨k, ?_⟩, ⟨m, ?_⟩⟩
    · refine (labR_spec R h _ _).mpr ?_
      rw [ho]
      refine ⟨hb, ?_, .inl ?_⟩
      · rw [ez, hk]
      · rw [hk]
        have := edge_strict R hw (show 0 < 0 + 1 by omega) (by omega)
        rwa [ez] at this
    · refine (labR_spec R h _ _).mpr ?_
      rw [ho]
      refine ⟨by omega, ?_, .inr rfl⟩
      rw [hm]
      have := edge_strict R hw (show b - 1 < b by omega) le_rfl
      rw [edge_last] at this
      exact this.le

/-- The exact histogram of the bin numbers puts them into the same bins. -/
theorem lab_labR (R : Rounding fl) {n b : Nat} {u : Fin n → ℝ} (h : Fit fl b (List.ofFn u)) (i j : Fin n) :
    lab b (fun i => (labR fl b u i : ℝ)) i = lab b (fun i => (labR fl b u i : ℝ)) j ↔ labR fl b u i = labR fl b u j := by
  constructor
  · intro hl
    rcases labR_const R h with ⟨-, hc⟩ | ⟨hb, ⟨p, hp⟩, m, hm⟩
    · exact hc i j
    · have hlt : ∀ i, labR fl b u i < b := fun i => ((labR_spec R h i _).mp rfl).1
      set L := List.ofFn fun i => (labR fl b u i : ℝ) with hL
      have hne : L ≠ [] := List.ne_nil_of_mem ((List.mem_ofFn' _ _).mpr ⟨p, rfl⟩)
      have hlo : lo L = 0 := by
        refine le_antisymm ?_ ?_
        · have := (lo_spec hne).2 (labR fl b u p : ℝ) ((List.mem_ofFn' _ _).mpr ⟨p, rfl⟩)
          rwa [hp, Nat.cast_zero] at this
        · obtain ⟨q, hq⟩ := (List.mem_ofFn' _ _).mp (lo_spec hne).1
          rw [← hq]
          exact Nat.cast_nonneg _
      have hhi : hi L = ((b - 1 : Nat) : ℝ) := by
        refine le_antisymm ?_ ?_
        · obtain ⟨q, hq⟩ := (List.mem_ofFn' _ _).mp (hi_spec hne).1
          rw [← hq]
          have := hlt q
          dsimp only
          exact_mod_cast (by omega : labR fl b u q ≤ b - 1)
        · have := (hi_spec hne).2 (labR fl b u m : ℝ) ((List.mem_ofFn' _ _).mpr ⟨m, rfl⟩)
          rwa [hm] at this
      have hb1 : (0 : ℝ) < ((b - 1 : Nat) : ℝ) := by exact_mod_cast (by omega : 0 < b - 1)
      have ho : outer L = (0, ((b - 1 : Nat) : ℝ)) := by
        unfold outer
        rw [hlo, hhi, if_neg hb1.ne]
      have hval : ∀ i, lab b (fun i => (labR fl b u i : ℝ)) i = labR fl b u i := by
        intro i
        show binOf b L (labR fl b u i : ℝ) = _
        have hmem : (labR fl b u i : ℝ) ∈ L := (List.mem_ofFn' _ _).mpr ⟨i, rfl⟩
        have hbr : (0 : ℝ) < b := by exact_mod_cast (by omega : 0 < b)
        have hcb : ((b - 1 : Nat) : ℝ) = b - 1 := by rw [Nat.cast_sub (by omega)]; simp
        refine (bin_edges (show 0 < b by omega) hmem _).mpr ?_
        rw [ho]
        dsimp only
        have hi1 := hlt i
        have hi2 : (labR fl b u i : ℝ) ≤ b - 1 := by
          rw [← hcb]
          exact_mod_cast (by omega : labR fl b u i ≤ b - 1)
        refine ⟨hi1, ?_, ?_⟩
        · rw [sub_zero, zero_add, hcb, mul_div_assoc', div_le_iff₀ hbr]
          have : (0 : ℝ) ≤ labR fl b u i := Nat.cast_nonneg _
          nlinarith
        · by_cases hlast : labR fl b u i = b - 1
          · exact .inr hlast
          · left
            rw [sub_zero, zero_add, hcb, mul_div_assoc', lt_div_iff₀ hbr]
            have : (labR fl b u i : ℝ) + 1 < b := by exact_mod_cast (by omega : labR fl b u i + 1 < b)
            nlinarith
      rw [hval, hval] at hl
      exact hl
  · intro hl
    unfold lab
    dsimp only
    rw [hl]

/-- With rounded edges the measures are those of the bin numbers in exact arithmetic, so that everything proved about the exact
measures holds. -/
theorem info_rounded (R : Rounding fl) {n : Nat} (hn : 2 ≤ n) {b : Int} (hb : 1 ≤ b) (norm : Bool) {u w : Fin n → ℝ}
    (hu : Fit fl b.toNat (List.ofFn u)) (hw : Fit fl b.toNat (List.ofFn w)) :
    mutualInfoR fl b norm (sample u) (sample w) =
      mutualInfo (some b) norm (sample fun i => (labR fl b.toNat u i : ℝ)) (sample fun i => (labR fl b.toNat w i : ℝ)) ∧
    varInfoR fl b norm (sample u) (sample w) =
      varInfo (some b) norm (sample fun i => (labR fl b.toNat u i : ℝ)) (sample fun i => (labR fl b.toNat w i : ℝ)) := by
  have hv : ∀ u : Fin n → ℝ, validate1D (sample u) = .ok () := by
    intro u
    unfold validate1D
    rw [sample_length, if_neg (by omega)]
  have c1 : H (lab b.toNat fun i => (labR fl b.toNat u i : ℝ)) = H (labR fl b.toNat u) := H_congr fun i j => lab_labR R hu i j
  have c2 : H (lab b.toNat fun i => (labR fl b.toNat w i : ℝ)) = H (labR fl b.toNat w) := H_congr fun i j => lab_labR R hw i j
  have c3 : (H fun i => (lab b.toNat (fun i => (labR fl b.toNat u i : ℝ)) i, lab b.toNat (fun i => (labR fl b.toNat w i : ℝ)) i)) =
      H fun i => (labR fl b.toNat u i, labR fl b.toNat w i) := H_congr fun i j => by
    rw [Prod.mk.injEq, Prod.mk.injEq, lab_labR R hu i j, lab_labR R hw i j]
  rw [(info_eq hn hb norm _ _).1, (info_eq hn hb norm _ _).2, c1, c2, c3]
  unfold mutualInfoR varInfoR
  rw [hv, hv]
  simp only [bind, Except.bind, ent_eqR R hn hb hu hw]
  trivial

/-- All values fall into one bin exactly if there is one bin or all values are equal. -/
theorem one_binR_iff (R : Rounding fl) {n b : Nat} {u : Fin n → ℝ} (h : Fit fl b (List.ofFn u)) :
    (∀ i j, labR fl b u i = labR fl b u j) ↔ b = 1 ∨ ∀ i j, u i = u j := by
  rcases labR_const R h with ⟨h1, h2⟩ | ⟨hb, ⟨p, hp⟩, m, hm⟩
  · exact ⟨fun _ => h1, fun _ => h2⟩
  · constructor
    · intro hc
      have := hc p m
      omega
    · rintro (hb1 | hc)
      · omega
      · intro i j
        unfold labR
        rw [hc i j]

theorem one_bin_labels (R : Rounding fl) {n : Nat} {b : Int} (hb : 1 ≤ b) {u : Fin n → ℝ} (h : Fit fl b.toNat (List.ofFn u)) :
    (b = 1 ∨ ∀ i j, (labR fl b.toNat u i : ℝ) = labR fl b.toNat u j) ↔ b = 1 ∨ ∀ i j, u i = u j := by
  have := one_binR_iff R h
  have hc : b.toNat = 1 ↔ b = 1 := by omega
  rw [hc] at this
  simp only [Nat.cast_inj]
  constructor
  · rintro (h1 | h1)
    · exact .inl h1
    · exact this.mp h1
  · rintro (h1 | h1)
    · exact .inl h1
    · exact .inr (this.mpr (.inr h1))

theorem info_ok {n : Nat} (hn : 2 ≤ n) {b : Int} (hb : 1 ≤ b) (norm : Bool) (u w : Fin n → ℝ) :
    (∃ v, mutualInfo (some b) norm (sample u) (sample w) = .ok v) ∧ ∃ v, varInfo (some b) norm (sample u) (sample w) = .ok v := by
  rw [(info_eq hn hb norm u w).1, (info_eq hn hb norm u w).2]
  cases norm
  · exact ⟨⟨_, rfl⟩, _, rfl⟩
  · exact ⟨⟨_, rfl⟩, _, rfl⟩

/-- C105. Mutual information with rounded edges: not negative, symmetric, and between 0 and 1 when normalised; then it is
undefined exactly for one bin or a constant sample. -/
theorem mi_rounded (R : Rounding fl) {n : Nat} (hn : 2 ≤ n) {b : Int} (hb : 1 ≤ b) {u w : Fin n → ℝ}
    (hu : Fit fl b.toNat (List.ofFn u)) (hw : Fit fl b.toNat (List.ofFn w)) :
    (∃ r, mutualInfoR fl b false (sample u) (sample w) = .ok (.fin r) ∧ 0 ≤ r) ∧
    (∀ norm, mutualInfoR fl b norm (sample u) (sample w) = mutualInfoR fl b norm (sample w) (sample u)) ∧
    (b = 1 ∨ (∀ i j, u i = u j) ∨ (∀ i j, w i = w j) → mutualInfoR fl b true (sample u) (sample w) = .ok .nan) ∧
    (¬ (b = 1 ∨ (∀ i j, u i = u j) ∨ ∀ i j, w i = w j) →
      ∃ r, mutualInfoR fl b true (sample u) (sample w) = .ok (.fin r) ∧ 0 ≤ r ∧ r ≤ 1) := by
  have ok : ∀ norm, ∃ v, mutualInfo (some b) norm (sample fun i => (labR fl b.toNat u i : ℝ))
      (sample fun i => (labR fl b.toNat w i : ℝ)) = .ok v := fun norm => (info_ok hn hb norm _ _).1
  obtain ⟨v, hv⟩ := ok true
  have hnan : v = .nan ↔ b = 1 ∨ (∀ i j, u i = u j) ∨ ∀ i j, w i = w j := by
    rw [(mi_norm_range hv).2]
    have key : ∀ u : Fin n → ℝ, (∀ s ∈ sample u, ∀ t ∈ sample u, s = t) ↔ ∀ i j, u i = u j := by
      intro u
      unfold sample
      simp [List.mem_ofFn]
    rw [key, key]
    have h1 := one_bin_labels R hb hu
    have h2 := one_bin_labels R hb hw
    tauto
  refine ⟨?_, fun norm => ?_, fun h => ?_, fun h => ?_⟩
  · obtain ⟨v, hv⟩ := ok false
    obtain ⟨-, -, -, -, -, -, r, rfl, h0, -, -⟩ := mi_range hv
    exact ⟨r, by rw [(info_rounded R hn hb false hu hw).1, hv], h0⟩
  · obtain ⟨v, hv⟩ := ok norm
    rw [(info_rounded R hn hb norm hu hw).1, (info_rounded R hn hb norm hw hu).1, hv, info_symm.1.mp hv]
  · rw [(info_rounded R hn hb true hu hw).1, hv, hnan.mpr h]
  · rcases (mi_norm_range hv).1 with h1 | ⟨r, rfl, h0, h1⟩
    · exact absurd (hnan.mp h1) h
    · exact ⟨r, by rw [(info_rounded R hn hb true hu hw).1, hv], h0, h1⟩

/-- C105. Variation of information with rounded edges: not negative, symmetric, zero exactly if the bins group the observations
in the same way, between 0 and 1 when normalised. -/
theorem vi_rounded (R : Rounding fl) {n : Nat} (hn : 2 ≤ n) {b : Int} (hb : 1 ≤ b) {u w : Fin n → ℝ}
    (hu : Fit fl b.toNat (List.ofFn u)) (hw : Fit fl b.toNat (List.ofFn w)) :
    (∃ r, varInfoR fl b false (sample u) (sample w) = .ok (.fin r) ∧ 0 ≤ r ∧
      (r = 0 ↔ ∀ i j, labR fl b.toNat u i = labR fl b.toNat u j ↔ labR fl b.toNat w i = labR fl b.toNat w j)) ∧
    (∀ norm, varInfoR fl b norm (sample u) (sample w) = varInfoR fl b norm (sample w) (sample u)) ∧
    (b = 1 ∨ ((∀ i j, u i = u j) ∧ ∀ i j, w i = w j) → varInfoR fl b true (sample u) (sample w) = .ok .nan) ∧
    (¬ (b = 1 ∨ ((∀ i j, u i = u j) ∧ ∀ i j, w i = w j)) →
      ∃ r, varInfoR fl b true (sample u) (sample w) = .ok (.fin r) ∧ 0 ≤ r ∧ r ≤ 1) := by
  obtain ⟨⟨r, hr, h0⟩, h2, h3⟩ := vi_range hn hb (fun i => (labR fl b.toNat u i : ℝ)) (fun i => (labR fl b.toNat w i : ℝ))
  have hz := vi_zero_iff hn hb (fun i => (labR fl b.toNat u i : ℝ)) (fun i => (labR fl b.toNat w i : ℝ))
  rw [hr, Except.ok.injEq, XF.fin.injEq] at hz
  simp only [lab_labR R hu, lab_labR R hw] at hz
  have hc : (b = 1 ∨ ((∀ i j, (labR fl b.toNat u i : ℝ) = labR fl b.toNat u j) ∧
      ∀ i j, (labR fl b.toNat w i : ℝ) = labR fl b.toNat w j)) ↔ b = 1 ∨ ((∀ i j, u i = u j) ∧ ∀ i j, w i = w j) := by
    have h1 := one_bin_labels R hb hu
    have h2 := one_bin_labels R hb hw
    by_cases hb1 : b = 1
    · exact ⟨fun _ => .inl hb1, fun _ => .inl hb1⟩
    · rw [or_iff_right hb1, or_iff_right hb1] at h1 h2
      rw [or_iff_right hb1, or_iff_right hb1, h1, h2]
  refine ⟨⟨r, by rw [(info_rounded R hn hb false hu hw).2, hr], h0, hz⟩, fun norm => ?_, fun h => ?_, fun h => ?_⟩
  · obtain ⟨v, hv⟩ := (info_ok hn hb norm (fun i => (labR fl b.toNat u i : ℝ)) (fun i => (labR fl b.toNat w i : ℝ))).2
    rw [(info_rounded R hn hb norm hu hw).2, (info_rounded R hn hb norm hw hu).2, hv, info_symm.2.mp hv]
  · rw [(info_rounded R hn hb true hu hw).2, h2 (hc.mpr h)]
  · rw [(info_rounded R hn hb true hu hw).2]
    exact h3 fun h' => h (hc.mp h')

/-- C105. The triangle inequality of the variation of information, plain and normalised, with rounded edges. -/
theorem vi_rounded_triangle (R : Rounding fl) {n : Nat} (hn : 2 ≤ n) {b : Int} (hb : 1 ≤ b) (norm : Bool) {u w z : Fin n → ℝ}
    (hu : Fit fl b.toNat (List.ofFn u)) (hw : Fit fl b.toNat (List.ofFn w)) (hz : Fit fl b.toNat (List.ofFn z))
    {duw dwz duz : ℝ} (h1 : varInfoR fl b norm (sample u) (sample w) = .ok (.fin duw))
    (h2 : varInfoR fl b norm (sample w) (sample z) = .ok (.fin dwz))
    (h3 : varInfoR fl b norm (sample u) (sample z) = .ok (.fin duz)) : duz ≤ duw + dwz := by
  rw [(info_rounded R hn hb norm hu hw).2] at h1
  rw [(info_rounded R hn hb norm hw hz).2] at h2
  rw [(info_rounded R hn hb norm hu hz).2] at h3
  exact vi_triangle hn hb norm _ _ _ h1 h2 h3

/-- C105. A sample that is not constant and has no value close to an inner edge falls into the exact bins. -/
theorem labR_exact (R : Rounding fl) {n b : Nat} {u : Fin n → ℝ} (h : Fit fl b (List.ofFn u)) (hc : ¬ ∀ i j, u i = u j)
    (far : ∀ i k, 0 < k → k < b → 8 * u64 * (|lo (List.ofFn u)| + |hi (List.ofFn u)|) <
      |u i - (lo (List.ofFn u) + k * ((hi (List.ofFn u) - lo (List.ofFn u)) / b))|) : labR fl b u = lab b u := by
  have hb := h.wide.pos
  have hne : lo (List.ofFn u) ≠ hi (List.ofFn u) := by
    intro he
    refine hc fun i j => ?_
    have l2 := (lo_spec h.ne).2
    have g2 := (hi_spec h.ne).2
    have e : ∀ i, u i = lo (List.ofFn u) := fun i =>
      le_antisymm (by rw [he]; exact g2 _ ((List.mem_ofFn' _ _).mpr ⟨i, rfl⟩)) (l2 _ ((List.mem_ofFn' _ _).mpr ⟨i, rfl⟩))
    rw [e i, e j]
  have ho : outerR fl (List.ofFn u) = (lo (List.ofFn u), hi (List.ofFn u)) := by unfold outerR; rw [if_neg hne]
  have ho' : outer (List.ofFn u) = (lo (List.ofFn u), hi (List.ofFn u)) := by unfold outer; rw [if_neg hne]
  have hw := h.wide
  have hleft := h.left R
  rw [ho] at hw hleft
  dsimp only at hw hleft
  funext i
  have hmem : u i ∈ List.ofFn u := (List.mem_ofFn' _ _).mpr ⟨i, rfl⟩
  obtain ⟨h1, h2, h3⟩ := (bin_edges hb hmem _).mp (show binOf b (List.ofFn u) (u i) = lab b u i from rfl)
  rw [ho'] at h2 h3
  dsimp only at h2 h3
  refine (labR_spec R h i _).mpr ⟨h1, ?_, ?_⟩
  · rw [ho]
    dsimp only
    by_cases hk : lab b u i = 0
    · rw [hk, edge_zero R hb hleft]
      exact (lo_spec h.ne).2 _ hmem
    · have f := far i (lab b u i) (by omega) h1
      rw [abs_of_nonneg (sub_nonneg.mpr h2)] at f
      have := (abs_le.mp (edge_err R hw h1.le)).2
      linarith
  · rw [ho]
    dsimp only
    by_cases hk : lab b u i = b - 1
    · exact .inr hk
    · left
      have h4 := h3.resolve_right hk
      have f := far i (lab b u i + 1) (by omega) (by omega)
      push_cast at f
      rw [abs_of_neg (sub_neg.mpr h4)] at f
      have := (abs_le.mp (edge_err R hw (show lab b u i + 1 ≤ b by omega))).1
      push_cast at this
      linarith

/-- C105. Samples without values close to inner edges have the exact measures. -/
theorem info_rounded_exact (R : Rounding fl) {n : Nat} (hn : 2 ≤ n) {b : Int} (hb : 1 ≤ b) (norm : Bool) {u w : Fin n → ℝ}
    (hu : Fit fl b.toNat (List.ofFn u)) (hw : Fit fl b.toNat (List.ofFn w)) (eu : labR fl b.toNat u = lab b.toNat u)
    (ew : labR fl b.toNat w = lab b.toNat w) :
    mutualInfoR fl b norm (sample u) (sample w) = mutualInfo (some b) norm (sample u) (sample w) ∧
    varInfoR fl b norm (sample u) (sample w) = varInfo (some b) norm (sample u) (sample w) := by
  have hv : ∀ u : Fin n → ℝ, validate1D (sample u) = .ok () := by
    intro u
    unfold validate1D
    rw [sample_length, if_neg (by omega)]
  rw [(info_eq hn hb norm u w).1, (info_eq hn hb norm u w).2]
  unfold mutualInfoR varInfoR
  rw [hv, hv]
  simp only [bind, Except.bind, ent_eqR R hn hb hu hw, eu, ew]
  trivial

/-! ### 64-bit edges: a shift changes the bins -/

/-- Prices in whole units. -/
def prices : Fin 4 → ℝ := ![0, 28, 29, 58]

/-- The same prices, 64 units higher. -/
def shifted : Fin 4 → ℝ := ![64, 92, 93, 122]

theorem prices_ends : lo (List.ofFn prices) = 0 ∧ hi (List.ofFn prices) = 58 := by
  constructor <;> norm_num [prices, lo, hi, List.ofFn_succ, Fin.forall_fin_succ]

theorem shifted_ends : lo (List.ofFn shifted) = 64 ∧ hi (List.ofFn shifted) = 122 := by
  constructor <;> norm_num [shifted, lo, hi, List.ofFn_succ]

theorem prices_outer : outerR b64 (List.ofFn prices) = (0, 58) := by
  unfold outerR
  rw [prices_ends.1, prices_ends.2, if_neg (by norm_num)]

theorem shifted_outer : outerR b64 (List.ofFn shifted) = (64, 122) := by
  unfold outerR
  rw [shifted_ends.1, shifted_ends.2, if_neg (by norm_num)]

theorem b64_nat (k : Nat) (hk : k ≤ 1000) : b64 (k : ℝ) = k := by
  have h : ((k : Int) : ℝ) = (k : ℝ) := by norm_cast
  have hb : |((k : Int) : ℝ)| ≤ 2 ^ 53 := by
    rw [h, abs_of_nonneg (Nat.cast_nonneg k)]
    have : (k : ℝ) ≤ 1000 := by exact_mod_cast hk
    norm_num
    linarith
  rw [← h]
  exact b64_rounding.int _ (by exact_mod_cast hb)

theorem prices_fit : Fit b64 14 (List.ofFn prices) := by
  refine ⟨by simp [List.ofFn_succ], ?_, ?_⟩
  · intro v hv
    obtain ⟨i, rfl⟩ := (List.mem_ofFn' _ _).mp hv
    fin_cases i
    · simpa [prices] using b64_nat 0 (by norm_num)
    · simpa [prices] using b64_nat 28 (by norm_num)
    · simpa [prices] using b64_nat 29 (by norm_num)
    · simpa [prices] using b64_nat 58 (by norm_num)
  · rw [prices_outer]
    refine ⟨by norm_num, by norm_num, ?_⟩
    unfold u64
    norm_num

theorem shifted_fit : Fit b64 14 (List.ofFn shifted) := by
  refine ⟨by simp [List.ofFn_succ], ?_, ?_⟩
  · intro v hv
    obtain ⟨i, rfl⟩ := (List.mem_ofFn' _ _).mp hv
    fin_cases i
    · simpa [shifted] using b64_nat 64 (by norm_num)
    · simpa [shifted] using b64_nat 92 (by norm_num)
    · simpa [shifted] using b64_nat 93 (by norm_num)
    · simpa [shifted] using b64_nat 122 (by norm_num)
  · rw [shifted_outer]
    refine ⟨by norm_num, by norm_num, ?_⟩
    unfold u64
    norm_num

/-- The width of the bins, `58 / 14` in 64 bits. -/
theorem step58 : b64 (58 / (14 : Nat)) = ((29 * 2 ^ 50 + 3) / 7 : ℝ) * 2 ^ (-50 : ℤ) := by
  have h : (((29 * 2 ^ 50 + 3) / 7 : ℤ) : ℝ) = ((29 * 2 ^ 50 + 3) / 7 : ℝ) := by norm_num
  rw [← h]
  refine b64_eq ?_ ?_ ?_ <;> norm_num [abs_of_neg, abs_of_pos]

theorem prod58 : b64 ((7 : Nat) * b64 (58 / (14 : Nat))) = 29 + 2 ^ (-48 : ℤ) := by
  have h : (29 + 2 ^ (-48 : ℤ) : ℝ) = ((29 * 2 ^ 48 + 1 : ℤ) : ℝ) * 2 ^ (-48 : ℤ) := by norm_num
  rw [step58, h]
  refine b64_eq ?_ ?_ ?_ <;> norm_num [abs_of_neg, abs_of_pos]

theorem edge_prices : edgeR b64 0 58 14 7 = 29 + 2 ^ (-48 : ℤ) := by
  have e : b64 (58 - 0) = 58 := by simpa using b64_nat 58 (by norm_num)
  rw [edgeR, if_neg (by norm_num), e, prod58, add_zero, ← prod58]
  exact b64_rounding.idem _

theorem edge_shifted : edgeR b64 64 122 14 7 = 93 := by
  have e : b64 (122 - 64) = 58 := by
    rw [show (122 - 64 : ℝ) = 58 by norm_num]
    simpa using b64_nat 58 (by norm_num)
  have h : (93 : ℝ) = ((93 * 2 ^ 46 : ℤ) : ℝ) * 2 ^ (-46 : ℤ) := by norm_num
  rw [edgeR, if_neg (by norm_num), e, prod58]
  conv_rhs => rw [h]
  refine b64_eq ?_ ?_ ?_ <;> norm_num [abs_of_neg, abs_of_pos]

theorem prices_bins : labR b64 14 prices 1 = 6 ∧ labR b64 14 prices 2 = 6 := by
  have hw := prices_fit.wide
  rw [prices_outer] at hw
  have e6 := (abs_le.mp (edge_err b64_rounding hw (show 6 ≤ 14 by norm_num))).2
  have hz : (0 : ℝ) < 2 ^ (-48 : ℤ) := by positivity
  unfold u64 at e6
  norm_num at e6
  constructor
  · refine (labR_spec b64_rounding prices_fit 1 6).mpr ?_
    rw [prices_outer]
    refine ⟨by norm_num, ?_, .inl ?_⟩
    · simp only [prices, Matrix.cons_val]
      linarith
    · show prices 1 < edgeR b64 0 58 14 7
      rw [edge_prices]
      simp only [prices, Matrix.cons_val]
      linarith
  · refine (labR_spec b64_rounding prices_fit 2 6).mpr ?_
    rw [prices_outer]
    refine ⟨by norm_num, ?_, .inl ?_⟩
    · simp only [prices, Matrix.cons_val]
      linarith
    · show prices 2 < edgeR b64 0 58 14 7
      rw [edge_prices]
      simp only [prices, Matrix.cons_val]
      linarith

theorem shifted_bins : labR b64 14 shifted 1 = 6 ∧ labR b64 14 shifted 2 = 7 := by
  have hw := shifted_fit.wide
  rw [shifted_outer] at hw
  have e6 := (abs_le.mp (edge_err b64_rounding hw (show 6 ≤ 14 by norm_num))).2
  have e8 := edge_strict b64_rounding hw (show 7 < 8 by norm_num) (by norm_num)
  dsimp only at e8
  rw [edge_shifted] at e8
  unfold u64 at e6
  norm_num at e6
  constructor
  · refine (labR_spec b64_rounding shifted_fit 1 6).mpr ?_
    rw [shifted_outer]
    refine ⟨by norm_num, ?_, .inl ?_⟩
    · simp only [shifted, Matrix.cons_val]
      linarith
    · show shifted 1 < edgeR b64 64 122 14 7
      rw [edge_shifted]
      simp only [shifted, Matrix.cons_val]
      norm_num
  · refine (labR_spec b64_rounding shifted_fit 2 7).mpr ?_
    rw [shifted_outer]
    refine ⟨by norm_num, ?_, .inl ?_⟩
    · show edgeR b64 64 122 14 7 ≤ shifted 2
      rw [edge_shifted]
      simp only [shifted, Matrix.cons_val]
      norm_num
    · show shifted 2 < edgeR b64 64 122 14 8
      simp only [shifted, Matrix.cons_val]
      exact e8

/-- C105. In exact arithmetic a shift changes nothing: the variation of information between a sample and the shifted sample is
zero. With 64-bit edges it is positive for whole numbers and 14 bins: 29 lies below the seventh edge of 0, …, 58, while 93
lies on the seventh edge of 64, …, 122. -/
theorem shift_changes_bins : (∀ i, shifted i = prices i + 64) ∧
    varInfo (some 14) false (sample prices) (sample shifted) = .ok (.fin 0) ∧
    ∃ r, varInfoR b64 14 false (sample prices) (sample shifted) = .ok (.fin r) ∧ 0 < r := by
  have hs : ∀ i, shifted i = prices i + 64 := by
    intro i
    fin_cases i <;> simp [prices, shifted] <;> norm_num
  refine ⟨hs, ?_, ?_⟩
  · rw [vi_zero_iff (by norm_num) (by norm_num)]
    have e : shifted = fun i => 1 * prices i + 64 := by funext i; rw [hs, one_mul]
    intro i j
    rw [e, lab_affine _ _ one_pos]
  · obtain ⟨⟨r, h1, h2, h3⟩, -⟩ := vi_rounded b64_rounding (by norm_num) (show (1 : Int) ≤ 14 by norm_num) prices_fit shifted_fit
    refine ⟨r, h1, lt_of_le_of_ne h2 fun hr => ?_⟩
    have h4 := (h3.mp hr.symm 1 2).mp (by
      show labR b64 14 prices 1 = labR b64 14 prices 2
      rw [prices_bins.1, prices_bins.2])
    change labR b64 14 shifted 1 = labR b64 14 shifted 2 at h4
    rw [shifted_bins.1, shifted_bins.2] at h4
    exact absurd h4 (by norm_num)

/-- C105. The range matters: between `2 ^ 53` and `2 ^ 53 + 2` the first two of the edges of ten bins are equal. -/
theorem narrow_edges : edgeR b64 (2 ^ 53) (2 ^ 53 + 2) 10 1 = edgeR b64 (2 ^ 53) (2 ^ 53 + 2) 10 0 ∧
    ¬ Wide (2 ^ 53) (2 ^ 53 + 2) 10 := by
  have hus := u64_small
  have hu := u64_pos
  have f53 : b64 (2 ^ 53 : ℝ) = 2 ^ 53 := by
    have := b64_rounding.int (2 ^ 53) (by norm_num)
    norm_num at this ⊢
    exact this
  have f2 : b64 (2 ^ 53 + 2 - 2 ^ 53 : ℝ) = 2 := by
    rw [add_sub_cancel_left]
    simpa using b64_rounding.int 2 (by norm_num)
  refine ⟨?_, fun h => ?_⟩
  · rw [edge_zero b64_rounding (by norm_num) f53, edgeR, if_neg (by norm_num), f2]
    obtain ⟨s1, s2⟩ := rel_bounds b64_rounding (x := 2 / (10 : Nat)) (by norm_num)
    have hs : ((1 : Nat) : ℝ) * b64 (2 / (10 : Nat)) = b64 (2 / (10 : Nat)) := by rw [Nat.cast_one, one_mul]
    rw [hs, b64_rounding.idem]
    set s := b64 (2 / (10 : Nat))
    push_cast at s1 s2
    have h53 : (2 ^ 53 : ℝ) = ((2 ^ 52 : ℤ) : ℝ) * 2 ^ (1 : ℤ) := by norm_num
    conv_rhs => rw [h53]
    refine b64_eq ?_ ?_ ?_
    · norm_num
      nlinarith
    · norm_num
      nlinarith
    · have : s + 2 ^ 53 - ((2 ^ 52 : ℤ) : ℝ) * 2 ^ (1 : ℤ) = s := by rw [← h53]; ring
      rw [this, abs_of_nonneg (by nlinarith)]
      norm_num
      nlinarith
  · have := h.wide
    unfold u64 at this
    norm_num at this

/-- Three values away from the inner edge of two bins. -/
example : labR b64 2 ![0, 1, 4] = lab 2 ![0, 1, 4] := by
  have e1 : lo (List.ofFn (![0, 1, 4] : Fin 3 → ℝ)) = 0 := by norm_num [lo, List.ofFn_succ]
  have e2 : hi (List.ofFn (![0, 1, 4] : Fin 3 → ℝ)) = 4 := by norm_num [hi, List.ofFn_succ]
  refine labR_exact b64_rounding ⟨by simp [List.ofFn_succ], ?_, ?_⟩ ?_ ?_
  · intro v hv
    obtain ⟨i, rfl⟩ := (List.mem_ofFn' _ _).mp hv
    fin_cases i
    · simpa using b64_nat 0 (by norm_num)
    · simpa using b64_nat 1 (by norm_num)
    · simpa using b64_nat 4 (by norm_num)
  · unfold outerR
    rw [e1, e2, if_neg (by norm_num)]
    refine ⟨by norm_num, by norm_num, ?_⟩
    unfold u64
    norm_num
  · intro h
    have := h 0 1
    norm_num at this
  · intro i k h1 h2
    obtain rfl : k = 1 := by omega
    rw [e1, e2]
    unfold u64
    fin_cases i <;> norm_num [abs_of_neg, abs_of_pos]

end Verif.Info
