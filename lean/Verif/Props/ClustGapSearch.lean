import Verif.Props.ClustCoarse
import Verif.Props.ClustZero

/-!
# What the gap search selects for separated groups (C126)

The default of `get_optimal_nclusters`. Here the comparison of two numbers of clusters, for given reference draws.
-/

namespace Verif.Clust

open Verif Verif.Props Verif.Props.ClustSelect Verif.Props.ClustGap Verif.Props.MicroEdge Classical Finset

variable {α : Type} [DecidableEq α]

/-! ### The pairs of points inside the clusters -/

/-- The pairs of points inside a cluster. -/
noncomputable def inPairs (l : List α) : Finset (Nat × Nat) :=
  (range l.length ×ˢ range l.length).filter fun p => p.1 < p.2 ∧ l[p.1]? = l[p.2]?

theorem mem_inPairs {l : List α} {p : Nat × Nat} : p ∈ inPairs l ↔ p.1 < p.2 ∧ p.2 < l.length ∧ l[p.1]? = l[p.2]? := by
  unfold inPairs
  rw [mem_filter, mem_product, mem_range, mem_range]
  constructor
  · rintro ⟨⟨h1, h2⟩, h3, h4⟩
    exact ⟨h3, h2, h4⟩
  · rintro ⟨h1, h2, h3⟩
    exact ⟨⟨by omega, h2⟩, h1, h3⟩

theorem sum_inPairs (l : List α) (f : Nat → Nat → ℝ) :
    ∑ j ∈ range l.length, ∑ i ∈ range j, (if l[i]? = l[j]? then f i j else 0) = ∑ p ∈ inPairs l, f p.1 p.2 := by
  rw [Finset.sum_sigma', ← Finset.sum_filter]
  refine Finset.sum_bij (fun a _ => (a.2, a.1)) ?_ ?_ ?_ ?_
  · rintro ⟨j, i⟩ h
    simp only [mem_filter, mem_sigma, mem_range] at h
    exact mem_inPairs.mpr ⟨h.1.2, h.1.1, h.2⟩
  · rintro ⟨j, i⟩ - ⟨j', i'⟩ - e
    simp only [Prod.mk.injEq] at e
    rw [e.1, e.2]
  · rintro ⟨i, j⟩ h
    obtain ⟨h1, h2, h3⟩ := mem_inPairs.mp h
    exact ⟨⟨j, i⟩, by simp only [mem_filter, mem_sigma, mem_range]; exact ⟨⟨h2, h1⟩, h3⟩, rfl⟩
  · rintro ⟨j, i⟩ -
    rfl

theorem pairSum_eq (l : List α) (d : Nat → Nat → ℝ) : pairSum l d = ∑ p ∈ inPairs l, d p.1 p.2 ^ 2 := sum_inPairs l fun i j => d i j ^ 2

theorem pairs_eq (l : List α) : pairs l = (inPairs l).card := by
  unfold pairs
  rw [sum_inPairs l fun _ _ => 1]
  simp

theorem refSum_one (l : List α) (h : ℝ) (u : Nat → ℝ) : refSum l h u = h ^ 2 * ∑ p ∈ inPairs l, u (p.1 * l.length + p.2) ^ 2 := by
  unfold refSum
  rw [pairSum_eq, mul_sum]
  exact sum_congr rfl fun p _ => by rw [mul_pow]

/-! ### One comparison -/

/-- The reference draws are typical for the clusters `l`: in every draw the mean of the squares (of the numbers between 0 and 1) over the pairs
inside clusters differs from its expected value, 1/3, by a fraction of at most `ε`. -/
def Typical (ε : ℝ) (nb : Nat) (rng : Int → Nat → ℝ) (l : List α) : Prop :=
  ∀ b < nb, |∑ p ∈ inPairs l, rng (b : Nat) (p.1 * l.length + p.2) ^ 2 - (inPairs l).card / 3| ≤ ε * ((inPairs l).card / 3)

theorem avg_le {n : Nat} (hn : n ≠ 0) {x : Nat → ℝ} {c : ℝ} (h : ∀ i < n, x i ≤ c) : avg n x ≤ c := by
  have h0 : (0 : ℝ) < n := by exact_mod_cast Nat.pos_of_ne_zero hn
  unfold avg
  rw [div_le_iff₀ h0]
  calc ∑ j ∈ range n, x j ≤ ∑ _j ∈ range n, c := sum_le_sum fun j hj => h j (mem_range.mp hj)
    _ = c * n := by rw [sum_const, card_range, nsmul_eq_mul, mul_comm]

theorem le_avg {n : Nat} (hn : n ≠ 0) {x : Nat → ℝ} {c : ℝ} (h : ∀ i < n, c ≤ x i) : c ≤ avg n x := by
  have h0 : (0 : ℝ) < n := by exact_mod_cast Nat.pos_of_ne_zero hn
  unfold avg
  rw [le_div_iff₀ h0]
  calc c * n = ∑ _j ∈ range n, c := by rw [sum_const, card_range, nsmul_eq_mul, mul_comm]
    _ ≤ ∑ j ∈ range n, x j := sum_le_sum fun j hj => h j (mem_range.mp hj)

theorem std_le {n : Nat} (hn : n ≠ 0) {x : Nat → ℝ} {a c : ℝ} (h : ∀ i < n, a ≤ x i ∧ x i ≤ c) : √(vari n x) ≤ c - a := by
  have h1 := avg_le hn fun i hi => (h i hi).2
  have h2 := le_avg hn fun i hi => (h i hi).1
  rw [Real.sqrt_le_left (by linarith)]
  unfold vari
  refine avg_le hn fun i hi => ?_
  obtain ⟨g1, g2⟩ := h i hi
  exact sq_le_sq' (by linarith) (by linarith)

/-- The scores used by the search, for typical draws: bounds of the gap and of its deviation. -/
theorem typical_gap {ε : ℝ} (h0 : 0 < ε) (h1 : ε < 1) {rng : Int → Nat → ℝ} {nb : Nat} {m : Dist.Table} {l : List α} {d : Nat → Nat → ℝ} {h : ℝ}
    (hl : 2 ≤ l.length) (hm : IsDist m l.length d) (ht : IsTop l.length d h) (hh : 0 < h) (hnb : nb ≠ 0) (hnb' : nb ≤ 2 ^ 32)
    (hp : (inPairs l).Nonempty) (hW : 0 < pairSum l d) (hty : Typical ε nb rng l) :
    ∃ g s, gapStatistic rng (.table m) (.vec l) nb none = .ok (.fin g, .fin s) ∧
      g ≤ Real.log (h ^ 2 * ((1 + ε) * ((inPairs l).card / 3)) / pairSum l d) ∧ Real.log (h ^ 2 * ((1 - ε) * ((inPairs l).card / 3)) / pairSum l d) ≤ g ∧
      s ≤ Real.log ((1 + ε) / (1 - ε)) := by
  have hc : (0 : ℝ) < (inPairs l).card := by exact_mod_cast hp.card_pos
  have hlow : 0 < (1 - ε) * ((inPairs l).card / 3 : ℝ) := by
    have : 0 < 1 - ε := by linarith
    positivity
  have bnd : ∀ b < nb, h ^ 2 * ((1 - ε) * ((inPairs l).card / 3)) ≤ refSum l h (rng (b : Nat)) ∧
      refSum l h (rng (b : Nat)) ≤ h ^ 2 * ((1 + ε) * ((inPairs l).card / 3)) := fun b hb => by
    have := abs_le.mp (hty b hb)
    rw [refSum_one]
    constructor <;> refine mul_le_mul_of_nonneg_left ?_ (by positivity) <;> linarith
  have hL : 0 < h ^ 2 * ((1 - ε) * ((inPairs l).card / 3)) := by positivity
  have hU : 0 < h ^ 2 * ((1 + ε) * ((inPairs l).card / 3)) := by positivity
  have pos : ∀ b < nb, 0 < refSum l h (rng (b : Nat)) := fun b hb => hL.trans_le (bnd b hb).1
  have key := gap_formula (rng := rng) (rs := none) hl hm ht hnb le_rfl (by
    show (0 : Int) + nb ≤ 2 ^ 32
    exact_mod_cast (by omega : 0 + nb ≤ 2 ^ 32)) hW (fun b hb => by
    show 0 < refSum l h (rng ((0 : Int) + (b : Nat)))
    rw [zero_add]
    exact pos b hb)
  simp only [Option.getD_none, zero_add] at key
  refine ⟨_, _, key, avg_le hnb fun b hb => ?_, le_avg hnb fun b hb => ?_, ?_⟩
  · exact Real.log_le_log (div_pos (pos b hb) hW) (div_le_div_of_nonneg_right (bnd b hb).2 hW.le)
  · exact Real.log_le_log (div_pos hL hW) (div_le_div_of_nonneg_right (bnd b hb).1 hW.le)
  · have := std_le hnb (x := fun b => Real.log (refSum l h (rng (b : Nat)))) (a := Real.log (h ^ 2 * ((1 - ε) * ((inPairs l).card / 3))))
      (c := Real.log (h ^ 2 * ((1 + ε) * ((inPairs l).card / 3)))) fun b hb =>
        ⟨Real.log_le_log hL (bnd b hb).1, Real.log_le_log (pos b hb) (bnd b hb).2⟩
    refine this.trans (le_of_eq ?_)
    rw [← Real.log_div hU.ne' hL.ne']
    congr 1
    have : (1 : ℝ) - ε ≠ 0 := by linarith
    field_simp

theorem ratio_le {h ε P P' W W' : ℝ} (hh : 0 < h) (h0 : 0 < ε) (h1 : ε < 1) (hW : 0 < W) (hW' : 0 < W') (hc : (1 + ε) ^ 2 * P * W' ≤ (1 - ε) ^ 2 * P' * W) :
    h ^ 2 * ((1 + ε) * (P / 3)) / W ≤ h ^ 2 * ((1 - ε) * (P' / 3)) / W' / ((1 + ε) / (1 - ε)) := by
  have hε' : 0 < 1 - ε := by linarith
  rw [div_div, div_le_div_iff₀ hW (by positivity), ← sub_nonneg]
  have e : h ^ 2 * ((1 - ε) * (P' / 3)) * W - h ^ 2 * ((1 + ε) * (P / 3)) * (W' * ((1 + ε) / (1 - ε))) =
      h ^ 2 / (3 * (1 - ε)) * ((1 - ε) ^ 2 * P' * W - (1 + ε) ^ 2 * P * W') := by
    field_simp
  rw [e]
  exact mul_nonneg (by positivity) (sub_nonneg.mpr hc)

theorem core_le {ε θ v P P' W W' : ℝ} (hP' : 0 < P') (hW' : 0 ≤ W') (hR : 0 ≤ P - P') (hWW : W' + (P - P') * v ^ 2 ≤ W) (hin : W' ≤ θ * v ^ 2 * P')
    (hεθ : (1 + ε) ^ 2 * θ * P ≤ (1 - ε) ^ 2 * (θ * P' + (P - P'))) : (1 + ε) ^ 2 * P * W' ≤ (1 - ε) ^ 2 * P' * W := by
  have h1 : (1 - ε) ^ 2 * P' * (W' + (P - P') * v ^ 2) ≤ (1 - ε) ^ 2 * P' * W := mul_le_mul_of_nonneg_left hWW (by positivity)
  refine le_trans ?_ h1
  have h2 : 0 ≤ (1 - ε) ^ 2 * P' * ((P - P') * v ^ 2) := by positivity
  rcases le_total ((1 + ε) ^ 2 * P - (1 - ε) ^ 2 * P') 0 with hA | hA
  · have := mul_nonpos_of_nonpos_of_nonneg hA hW'
    linarith
  · have g1 := mul_le_mul_of_nonneg_left hin hA
    have g2 : ((1 + ε) ^ 2 * P - (1 - ε) ^ 2 * P') * θ ≤ (1 - ε) ^ 2 * (P - P') := by linarith
    have g3 := mul_le_mul_of_nonneg_right g2 (show 0 ≤ v ^ 2 * P' by positivity)
    linarith

/-- **The search goes on.** `cut (k + 1)` refines `cut k`; the pairs that are separated are at least `v` apart, while the mean of the squared distances inside
the clusters of `cut (k + 1)` is at most `θ v²`. If the draws are typical for both with an `ε` small enough compared with `1 - θ`, the search does not stop
at `k`. -/
theorem goes_on {ε θ v : ℝ} (h0 : 0 < ε) (h1 : ε < 1) {rng : Int → Nat → ℝ} {nb : Nat} {m : Dist.Table} {n : Nat} {d : Nat → Nat → ℝ} {h : ℝ}
    (hn : 2 ≤ n) (hm : IsDist m n d) (ht : IsTop n d h) (hh : 0 < h) (hnb : nb ≠ 0) (hnb' : nb ≤ 2 ^ 32) {cut : Int → List α} {k : Int}
    (hk : (cut k).length = n) (hk' : (cut (k + 1)).length = n) (hp : (inPairs (cut (k + 1))).Nonempty) (hsub : inPairs (cut (k + 1)) ⊆ inPairs (cut k))
    (hv : 0 < v) (hout : ∀ p ∈ inPairs (cut k), p ∉ inPairs (cut (k + 1)) → v ≤ d p.1 p.2)
    (hin : pairSum (cut (k + 1)) d ≤ θ * v ^ 2 * (inPairs (cut (k + 1))).card)
    (hεθ : (1 + ε) ^ 2 * θ * (inPairs (cut k)).card ≤
      (1 - ε) ^ 2 * (θ * (inPairs (cut (k + 1))).card + ((inPairs (cut k)).card - (inPairs (cut (k + 1))).card)))
    (hty : Typical ε nb rng (cut k)) (hty' : Typical ε nb rng (cut (k + 1))) : ¬ Drops (gapAt rng cut (.table m) nb) k := by
  have hP' : (0 : ℝ) < (inPairs (cut (k + 1))).card := by exact_mod_cast hp.card_pos
  have hPP : ((inPairs (cut (k + 1))).card : ℝ) ≤ (inPairs (cut k)).card := by exact_mod_cast card_le_card hsub
  have hP : (0 : ℝ) < (inPairs (cut k)).card := hP'.trans_le hPP
  have hWW : pairSum (cut (k + 1)) d + ((inPairs (cut k)).card - (inPairs (cut (k + 1))).card) * v ^ 2 ≤ pairSum (cut k) d := by
    rw [pairSum_eq, pairSum_eq, ← sum_sdiff hsub, add_comm]
    refine add_le_add ?_ le_rfl
    have e : ((inPairs (cut k)).card : ℝ) - (inPairs (cut (k + 1))).card = ((inPairs (cut k) \ inPairs (cut (k + 1))).card : ℕ) := by
      rw [card_sdiff_of_subset hsub, Nat.cast_sub (card_le_card hsub)]
    rw [e, ← nsmul_eq_mul]
    refine card_nsmul_le_sum _ _ _ fun p hp => ?_
    obtain ⟨a, b⟩ := mem_sdiff.mp hp
    exact pow_le_pow_left₀ hv.le (hout p a b) 2
  have hW0 := pairSum_nonneg (cut (k + 1)) d
  rcases hW0.eq_or_lt with hz | hW'
  · -- no distances inside: the gap is infinite
    have e := gap_infinite (rng := rng) (l := cut (k + 1)) (m := m) (d := d) (h := h) (rs := none) (nb := nb) (by omega) (hk'.symm ▸ hm) (hk'.symm ▸ ht)
      hnb le_rfl (by show (0 : Int) + nb ≤ 2 ^ 32; exact_mod_cast (by omega : 0 + nb ≤ 2 ^ 32)) hz.symm
    rintro ⟨g, s, g', s', -, f2, f3⟩
    unfold gapAt at f2
    rw [e] at f2
    cases f2
    cases g <;> exact f3
  · have hR : 0 ≤ ((inPairs (cut k)).card - (inPairs (cut (k + 1))).card : ℝ) := by linarith
    have hW : 0 < pairSum (cut k) d := by nlinarith [mul_nonneg hR (sq_nonneg v)]
    obtain ⟨g, s, e, g1, -, -⟩ := typical_gap h0 h1 (m := m) (d := d) (h := h) (by omega) (hk.symm ▸ hm) (hk.symm ▸ ht) hh hnb hnb'
      (hp.mono hsub) hW hty
    obtain ⟨g', s', e', -, g2, s2⟩ := typical_gap h0 h1 (m := m) (d := d) (h := h) (by omega) (hk'.symm ▸ hm) (hk'.symm ▸ ht) hh hnb hnb' hp hW' hty'
    rw [drops_fin (f := gapAt rng cut (.table m) nb) e e', not_lt]
    have hε' : 0 < 1 - ε := by linarith
    refine g1.trans (le_trans ?_ (sub_le_sub g2 s2))
    rw [← Real.log_div (by positivity) (by positivity)]
    refine Real.log_le_log (by positivity) ?_
    exact ratio_le hh h0 h1 hW hW' (core_le hP' hW0 hR hWW hin hεθ)

/-! ### Counting pairs -/

theorem two_pairs (l : List α) :
    2 * ((inPairs l).card : ℝ) = ∑ i ∈ range l.length, ∑ j ∈ range l.length, if i ≠ j ∧ l[i]? = l[j]? then (1 : ℝ) else 0 := by
  rw [sum_symm _ _ (fun i j _ _ => by simp only [ne_comm (a := i), eq_comm (a := l[i]?)]) fun i _ => by simp]
  congr 1
  rw [← pairs_eq]
  unfold pairs
  refine sum_congr rfl fun j _ => sum_congr rfl fun i hi => ?_
  have : i ≠ j := by
    have := mem_range.mp hi
    omega
  simp only [this, ne_eq, not_false_eq_true, true_and]

theorem pairs_le (l : List α) : ((inPairs l).card : ℝ) ≤ (l.length : ℝ) ^ 2 / 2 := by
  have : 2 * ((inPairs l).card : ℝ) ≤ ∑ _i ∈ range l.length, ∑ _j ∈ range l.length, (1 : ℝ) := by
    rw [two_pairs]
    exact sum_le_sum fun i _ => sum_le_sum fun j _ => by split <;> norm_num
  simp only [sum_const, card_range, nsmul_eq_mul, mul_one] at this
  rw [le_div_iff₀ (by norm_num)]
  nlinarith

/-- The pairs of points of the same group. -/
noncomputable def grpPairs (n : Nat) (grp : Nat → Nat) : Finset (Nat × Nat) := inPairs ((List.range n).map grp)

theorem get_grp {n : Nat} {grp : Nat → Nat} {i : Nat} (hi : i < n) : ((List.range n).map grp)[i]? = some (grp i) := by
  rw [List.getElem?_map, List.getElem?_range hi]
  rfl

theorem mem_grpPairs {n : Nat} {grp : Nat → Nat} {p : Nat × Nat} : p ∈ grpPairs n grp ↔ p.1 < p.2 ∧ p.2 < n ∧ grp p.1 = grp p.2 := by
  unfold grpPairs
  rw [mem_inPairs, List.length_map, List.length_range]
  constructor
  · rintro ⟨h1, h2, h3⟩
    rw [get_grp (by omega), get_grp h2] at h3
    exact ⟨h1, h2, Option.some.inj h3⟩
  · rintro ⟨h1, h2, h3⟩
    refine ⟨h1, h2, ?_⟩
    rw [get_grp (by omega), get_grp h2, h3]

theorem grpPairs_ge {n : Nat} {grp : Nat → Nat} {s : Nat} (hs : ∀ i < n, s ≤ groupSize n grp (grp i)) :
    (n : ℝ) * (s - 1) / 2 ≤ (grpPairs n grp).card := by
  have e := two_pairs ((List.range n).map grp)
  rw [List.length_map, List.length_range] at e
  have : ∀ i ∈ range n, (s : ℝ) - 1 ≤ ∑ j ∈ range n, if i ≠ j ∧ ((List.range n).map grp)[i]? = ((List.range n).map grp)[j]? then (1 : ℝ) else 0 := fun i hi => by
    have hi := mem_range.mp hi
    have h1 : (groupSize n grp (grp i) : ℝ) = ∑ j ∈ range n, if grp j = grp i then (1 : ℝ) else 0 := by
      unfold groupSize
      rw [← Finset.sum_filter, sum_const, nsmul_eq_mul, mul_one]
    have h2 : ∑ j ∈ range n, (if i = j then (1 : ℝ) else 0) = 1 := by
      rw [Finset.sum_ite_eq, if_pos (mem_range.mpr hi)]
    have h3 : (s : ℝ) ≤ groupSize n grp (grp i) := by exact_mod_cast hs i hi
    have h4 : ∑ j ∈ range n, (if grp j = grp i then (1 : ℝ) else 0) ≤
        ∑ j ∈ range n, ((if i ≠ j ∧ ((List.range n).map grp)[i]? = ((List.range n).map grp)[j]? then (1 : ℝ) else 0) + if i = j then (1 : ℝ) else 0) := by
      refine sum_le_sum fun j hj => ?_
      rw [get_grp hi, get_grp (mem_range.mp hj)]
      by_cases hij : i = j
      · simp [hij]
      · by_cases hg : grp i = grp j
        · simp [hij, hg]
        · simp [hij, hg, Ne.symm hg]
    rw [sum_add_distrib, h2, ← h1] at h4
    linarith
  have h5 := card_nsmul_le_sum _ _ _ this
  rw [card_range, nsmul_eq_mul, ← e] at h5
  unfold grpPairs
  linarith

/-- Separating two points of unions of groups separates all points of the two groups. -/
theorem separated_ge {n : Nat} {grp : Nat → Nat} {s : Nat} (hs : ∀ i < n, s ≤ groupSize n grp (grp i)) {l l' : List α} (hl : l.length = n) (hl' : l'.length = n)
    (hg : ∀ i < n, ∀ j < n, grp i = grp j → l'[i]? = l'[j]?) (href : ∀ i < n, ∀ j < n, l'[i]? = l'[j]? → l[i]? = l[j]?)
    {p q : Nat} (hp : p < n) (hq : q < n) (h : l[p]? = l[q]?) (h' : l'[p]? ≠ l'[q]?) :
    (s : ℝ) ^ 2 ≤ ((inPairs l).card : ℝ) - (inPairs l').card := by
  have hsub : inPairs l' ⊆ inPairs l := fun x hx => by
    obtain ⟨h1, h2, h3⟩ := mem_inPairs.mp hx
    exact mem_inPairs.mpr ⟨h1, by omega, href _ (by omega) _ (by omega) h3⟩
  rw [← Nat.cast_sub (card_le_card hsub), ← card_sdiff_of_subset hsub]
  have key : (((range n).filter fun i => grp i = grp p) ×ˢ ((range n).filter fun i => grp i = grp q)).card ≤ (inPairs l \ inPairs l').card := by
    refine card_le_card_of_injOn (fun x => (min x.1 x.2, max x.1 x.2)) ?_ ?_
    · rintro ⟨x, y⟩ hx
      simp only [coe_product, Set.mem_prod, mem_coe, mem_filter, mem_range] at hx
      obtain ⟨⟨x1, x2⟩, y1, y2⟩ := hx
      have ex := hg x x1 p hp x2
      have ey := hg y y1 q hq y2
      have hne : l'[x]? ≠ l'[y]? := by rw [ex, ey]; exact h'
      have heq : l[x]? = l[y]? := by rw [href x x1 p hp ex, href y y1 q hq ey]; exact h
      have hxy : x ≠ y := by rintro rfl; exact hne rfl
      rw [mem_coe, mem_sdiff, mem_inPairs, mem_inPairs]
      dsimp only
      rcases lt_or_gt_of_ne hxy with hlt | hlt
      · rw [min_eq_left hlt.le, max_eq_right hlt.le]
        exact ⟨⟨hlt, by omega, heq⟩, fun hcon => hne hcon.2.2⟩
      · rw [min_eq_right hlt.le, max_eq_left hlt.le]
        exact ⟨⟨hlt, by omega, heq.symm⟩, fun hcon => hne hcon.2.2.symm⟩
    · rintro ⟨x, y⟩ hx ⟨x', y'⟩ hx' e
      simp only [coe_product, Set.mem_prod, mem_coe, mem_filter, mem_range] at hx hx'
      simp only [Prod.mk.injEq] at e
      obtain ⟨⟨x1, x2⟩, y1, y2⟩ := hx
      obtain ⟨⟨x1', x2'⟩, y1', y2'⟩ := hx'
      have hpq : grp p ≠ grp q := fun hcon => h' (hg p hp q hq hcon)
      have a : x ≠ y' := by rintro rfl; exact hpq (x2.symm.trans y2')
      have b : y ≠ x' := by rintro rfl; exact hpq (x2'.symm.trans y2)
      rw [Prod.mk.injEq]
      omega
  rw [card_product] at key
  have h1 := hs p hp
  have h2 := hs q hq
  unfold groupSize at h1 h2
  have : s ^ 2 ≤ (inPairs l \ inPairs l').card := by
    rw [pow_two]
    exact (Nat.mul_le_mul h1 h2).trans key
  exact_mod_cast this

theorem explicit_le {n s κ P P' G : ℝ} (hn : 2 ≤ n) (hs : 2 ≤ s) (hsn : s ≤ n) (h0 : 0 < κ) (h1 : κ ≤ 1) (hP : P ≤ n ^ 2 / 2) (hP' : P' ≤ n ^ 2 / 2)
    (hR : s ^ 2 ≤ P - P') (hG : n * (s - 1) / 2 ≤ G) (hGP : G ≤ P') :
    0 < κ * (s ^ 2 * (s - 1)) / (3 * n ^ 3) ∧ κ * (s ^ 2 * (s - 1)) / (3 * n ^ 3) < 1 ∧
    (1 + κ * (s ^ 2 * (s - 1)) / (3 * n ^ 3)) ^ 2 * (1 - κ * G / P') * P ≤ (1 - κ * (s ^ 2 * (s - 1)) / (3 * n ^ 3)) ^ 2 * ((1 - κ * G / P') * P' + (P - P')) := by
  have hG0 : 0 < G := lt_of_lt_of_le (by have : 0 < s - 1 := by linarith
                                         positivity) hG
  have hP0 : 0 < P' := hG0.trans_le hGP
  have hs1 : 0 < s - 1 := by linarith
  have hPp : 0 < P := by nlinarith
  have hε0 : 0 < κ * (s ^ 2 * (s - 1)) / (3 * n ^ 3) := by positivity
  have hε1 : κ * (s ^ 2 * (s - 1)) / (3 * n ^ 3) ≤ 1 / 6 := by
    rw [div_le_iff₀ (by positivity)]
    have a1 : s ^ 2 ≤ n ^ 2 / 2 := by linarith
    have a2 : s ^ 2 * (s - 1) ≤ n ^ 2 / 2 * n := mul_le_mul a1 (by linarith) hs1.le (by positivity)
    have a3 : κ * (s ^ 2 * (s - 1)) ≤ 1 * (s ^ 2 * (s - 1)) := mul_le_mul_of_nonneg_right h1 (by positivity)
    nlinarith
  have hεP : 6 * (κ * (s ^ 2 * (s - 1)) / (3 * n ^ 3)) * P * P' ≤ κ * G * (P - P') := by
    have b1 : P * P' ≤ n ^ 2 / 2 * (n ^ 2 / 2) := mul_le_mul hP hP' hP0.le (by positivity)
    have b2 : 6 * (κ * (s ^ 2 * (s - 1)) / (3 * n ^ 3)) * (P * P') ≤ 6 * (κ * (s ^ 2 * (s - 1)) / (3 * n ^ 3)) * (n ^ 2 / 2 * (n ^ 2 / 2)) :=
      mul_le_mul_of_nonneg_left b1 (by positivity)
    have b3 : 6 * (κ * (s ^ 2 * (s - 1)) / (3 * n ^ 3)) * (n ^ 2 / 2 * (n ^ 2 / 2)) = κ * (n * (s - 1) / 2 * s ^ 2) := by
      field_simp
      ring
    have b4 : n * (s - 1) / 2 * s ^ 2 ≤ G * (P - P') := mul_le_mul hG hR (by positivity) hG0.le
    have b5 := mul_le_mul_of_nonneg_left b4 h0.le
    nlinarith
  refine ⟨hε0, by linarith, ?_⟩
  generalize κ * (s ^ 2 * (s - 1)) / (3 * n ^ 3) = ε at *
  have e1 : (1 - κ * G / P') * P' + (P - P') = P - κ * G := by
    field_simp
    ring
  have e2 : (1 - κ * G / P') * P = P - κ * G * P / P' := by ring
  rw [mul_assoc, e1, e2]
  have c1 : 0 ≤ κ * G * P / P' := by positivity
  have c2 : 6 * ε * P ≤ κ * G * (P - P') / P' := by
    rw [le_div_iff₀ hP0]
    exact hεP
  have c3 : κ * G * (P - P') / P' = κ * G * P / P' - κ * G := by
    field_simp
  rw [c3] at c2
  have c4 : (25 / 36 : ℝ) ≤ (1 - ε) ^ 2 := by nlinarith
  have c5 : 0 ≤ κ * G * P / P' - κ * G := le_trans (by positivity) c2
  have c6 := mul_le_mul_of_nonneg_right c4 c5
  have c7 := mul_nonneg hε0.le c1
  have c8 := mul_pos hε0 hPp
  nlinarith

/-! ### Stages -/

theorem groups_le (n : Nat) (grp : Nat → Nat) : (numGroups n grp : Int) ≤ n := by
  have : numGroups n grp ≤ n := (Finset.card_image_le (s := range n) (f := grp)).trans (by rw [card_range])
  exact_mod_cast this


/-- What is used of the clusterings `cut k` of `n` points in groups `grp` of at least `s` points: the cut with the number of groups gives the groups; each
cut refines the one before; distances inside a group are at most `c`; and for each number `k` of clusters below the number of groups there is a `v ≥ b`
that is the greatest distance left inside the clusters and the smallest one separated when `k` clusters become `k + 1`. -/
structure Staged (n : Nat) (d : Nat → Nat → ℝ) (grp : Nat → Nat) (s : Nat) (c b : ℝ) (cut : Int → List α) : Prop where
  spec : CutSpec n cut
  names : Names n grp (cut (numGroups n grp))
  refine' : ∀ k : Int, 2 ≤ k → k < numGroups n grp → ∀ i < n, ∀ j < n, (cut (k + 1))[i]? = (cut (k + 1))[j]? → (cut k)[i]? = (cut k)[j]?
  size : ∀ i < n, s ≤ groupSize n grp (grp i)
  nonneg : ∀ i < n, ∀ j < n, 0 ≤ d i j
  inside : ∀ i < n, ∀ j < n, grp i = grp j → d i j ≤ c
  less : 0 ≤ c ∧ c < b
  stage : ∀ k : Int, 2 ≤ k → k < numGroups n grp → ∃ v, b ≤ v ∧ (∀ p ∈ inPairs (cut (k + 1)), d p.1 p.2 ≤ v) ∧
    ∀ p ∈ inPairs (cut k), p ∉ inPairs (cut (k + 1)) → v ≤ d p.1 p.2

namespace Staged

variable {n : Nat} {d : Nat → Nat → ℝ} {grp : Nat → Nat} {s : Nat} {c b : ℝ} {cut : Int → List α} (h : Staged n d grp s c b cut)

include h

/-- Each cut consists of unions of groups. -/
theorem coarse {k : Int} (h2 : 2 ≤ k) (hk : k ≤ numGroups n grp) : ∀ i < n, ∀ j < n, grp i = grp j → (cut k)[i]? = (cut k)[j]? := by
  obtain ⟨t, ht⟩ : ∃ t : Nat, (numGroups n grp : Int) = k + t := ⟨(numGroups n grp - k).toNat, by omega⟩
  induction t generalizing k with
  | zero =>
    intro i hi j hj e
    rw [show k = numGroups n grp by push_cast at ht; omega]
    exact (h.names.2 i hi j hj).mpr e
  | succ t ih =>
    intro i hi j hj e
    exact h.refine' k h2 (by omega) i hi j hj (ih (k := k + 1) (by omega) (by omega) (by push_cast at ht ⊢; omega) i hi j hj e)

/-- One separation. -/
theorem one {k : Int} (h2 : 2 ≤ k) (hk : k < numGroups n grp) : ∃ p < n, ∃ q < n, (cut k)[p]? = (cut k)[q]? ∧ (cut (k + 1))[p]? ≠ (cut (k + 1))[q]? := by
  by_contra hcon
  push Not at hcon
  have hl := h.spec k (by omega)
  have hl' := h.spec (k + 1) (by omega)
  have hn := groups_le n grp
  have : SamePartition (cut k) (cut (k + 1)) := ⟨by rw [hl.1, hl'.1], fun i j hi hj =>
    ⟨hcon i (hl.1 ▸ hi) j (hl.1 ▸ hj), h.refine' k h2 hk i (hl.1 ▸ hi) j (hl.1 ▸ hj)⟩⟩
  have := this.dedup
  omega

/-- **Fewer clusters than groups are not selected**, if the draws are typical for the first cuts. -/
theorem at_least {rng : Int → Nat → ℝ} {m : Dist.Table} (hm : IsDist m n d) (hs : 2 ≤ s) {nb : Nat} (hnb : nb ≠ 0) (hnb' : nb ≤ 2 ^ 32)
    (hty : ∀ k : Int, 2 ≤ k → k ≤ numGroups n grp → Typical ((1 - c ^ 2 / b ^ 2) * (s ^ 2 * (s - 1)) / (3 * n ^ 3)) nb rng (cut k)) {M r : Int}
    (hr : optimizeNClusters rng cut (.table m) M "gap" nb = .ok r) : numGroups n grp ≤ r := by
  obtain ⟨-, hr2, -, hdr, -⟩ := (gap_result_iff _ _ _ _ _ _).mp hr
  by_contra hlt
  rw [not_le] at hlt
  have hn := groups_le n grp
  have hn2 : 2 ≤ n := by omega
  obtain ⟨v, hbv, hle, hge⟩ := h.stage r hr2 hlt
  obtain ⟨p, hp, q, hq, e, e'⟩ := h.one hr2 hlt
  have hl := (h.spec r (by omega)).1
  have hl' := (h.spec (r + 1) (by omega)).1
  have hg' := h.coarse (k := r + 1) (by omega) (by omega)
  have href := h.refine' r hr2 hlt
  have hR := separated_ge h.size hl hl' hg' href hp hq e e'
  have hG := grpPairs_ge h.size
  have hP := pairs_le (cut r)
  have hP' := pairs_le (cut (r + 1))
  rw [hl] at hP
  rw [hl'] at hP'
  have hsub : inPairs (cut (r + 1)) ⊆ inPairs (cut r) := fun x hx => by
    obtain ⟨h1, h2, h3⟩ := mem_inPairs.mp hx
    exact mem_inPairs.mpr ⟨h1, by omega, href _ (by omega) _ (by omega) h3⟩
  have hGs : grpPairs n grp ⊆ inPairs (cut (r + 1)) := fun x hx => by
    obtain ⟨h1, h2, h3⟩ := mem_grpPairs.mp hx
    exact mem_inPairs.mpr ⟨h1, by omega, hg' _ (by omega) _ (by omega) h3⟩
  have hb : 0 < b := h.less.1.trans_lt h.less.2
  have hv : 0 < v := hb.trans_le hbv
  -- the greatest distance
  obtain ⟨hh, htop, hvh⟩ : ∃ hh, IsTop n d hh ∧ v ≤ hh := by
    obtain ⟨x, hx, hmax⟩ := exists_max_image (range n ×ˢ range n) (fun x => d x.1 x.2) ⟨(0, 0), by simp; omega⟩
    rw [mem_product, mem_range, mem_range] at hx
    refine ⟨d x.1 x.2, ⟨fun i j hi hj => hmax (i, j) (by simp [hi, hj]), x.1, x.2, hx.1, hx.2, rfl⟩, ?_⟩
    rcases lt_trichotomy p q with hpq | hpq | hpq
    · exact (hge (p, q) (mem_inPairs.mpr ⟨hpq, by omega, e⟩) fun hc => e' (mem_inPairs.mp hc).2.2).trans (hmax (p, q) (by simp [hp, hq]))
    · exact absurd (by rw [hpq]) e'
    · exact (hge (q, p) (mem_inPairs.mpr ⟨hpq, by omega, e.symm⟩) fun hc => e' (mem_inPairs.mp hc).2.2.symm).trans (hmax (q, p) (by simp [hp, hq]))
  set ε : ℝ := (1 - c ^ 2 / b ^ 2) * (s ^ 2 * (s - 1)) / (3 * n ^ 3) with hε
  set κ : ℝ := 1 - c ^ 2 / b ^ 2 with hκ
  set P : ℝ := ((inPairs (cut r)).card : ℝ) with hPd
  set P' : ℝ := ((inPairs (cut (r + 1))).card : ℝ) with hPd'
  set G : ℝ := ((grpPairs n grp).card : ℝ) with hGd
  have hs' : (2 : ℝ) ≤ s := by exact_mod_cast hs
  have hn' : (2 : ℝ) ≤ n := by exact_mod_cast hn2
  have hsn : (s : ℝ) ≤ n := by
    have h1 := h.size 0 (by omega)
    have h2 : groupSize n grp (grp 0) ≤ n := by
      unfold groupSize
      exact (card_filter_le _ _).trans (by rw [card_range])
    exact_mod_cast h1.trans h2
  have hκ0 : 0 < κ := by
    rw [hκ, sub_pos, div_lt_one (by positivity)]
    exact pow_lt_pow_left₀ h.less.2 h.less.1 (by norm_num)
  have hκ1 : κ ≤ 1 := by
    rw [hκ]
    have : 0 ≤ c ^ 2 / b ^ 2 := by positivity
    linarith
  have hGP : G ≤ P' := Nat.cast_le.mpr (card_le_card hGs)
  obtain ⟨x1, x2, x3⟩ := explicit_le hn' hs' hsn hκ0 hκ1 hP hP' hR hG hGP
  have hs1 : (0 : ℝ) < s - 1 := by linarith
  have hG0 : 0 < G := lt_of_lt_of_le (by positivity) hG
  have hP0 : 0 < P' := hG0.trans_le hGP
  have hne : (inPairs (cut (r + 1))).Nonempty := by
    rw [← card_pos]
    exact Nat.cast_pos.mp hP0
  refine goes_on (θ := 1 - κ * G / P') (v := v) x1 x2 hn2 hm htop (hv.trans_le hvh) hnb hnb' hl hl' hne hsub hv hge ?_ x3
    (hty r hr2 hlt.le) (hty (r + 1) (by omega) (by omega)) hdr
  have hc2 : c ^ 2 ≤ (1 - κ) * v ^ 2 := by
    have e : (1 - κ) * b ^ 2 = c ^ 2 := by
      rw [hκ]
      field_simp
      ring
    rw [← e]
    exact mul_le_mul_of_nonneg_left (pow_le_pow_left₀ hb.le hbv 2) (by linarith)
  have e3 : (1 - κ * G / P') * v ^ 2 * P' = G * ((1 - κ) * v ^ 2) + (P' - G) * v ^ 2 := by
    field_simp
    ring
  rw [e3, pairSum_eq, ← sum_sdiff hGs, add_comm]
  refine add_le_add ?_ ?_
  · rw [hGd, ← nsmul_eq_mul]
    refine sum_le_card_nsmul _ _ _ fun x hx => ?_
    obtain ⟨y1, y2, y3⟩ := mem_grpPairs.mp hx
    exact (pow_le_pow_left₀ (h.nonneg _ (by omega) _ y2) (h.inside _ (by omega) _ y2 y3) 2).trans hc2
  · have e4 : P' - G = ((inPairs (cut (r + 1)) \ grpPairs n grp).card : ℕ) := by
      rw [card_sdiff_of_subset hGs, Nat.cast_sub (card_le_card hGs)]
    rw [e4, ← nsmul_eq_mul]
    refine sum_le_card_nsmul _ _ _ fun x hx => ?_
    have hx' := (mem_sdiff.mp hx).1
    obtain ⟨y1, y2, -⟩ := mem_inPairs.mp hx'
    exact pow_le_pow_left₀ (h.nonneg _ (by omega) _ (by omega)) (hle x hx') 2

end Staged

/-! ### Cuts of a linkage -/

theorem lab_iff {l : List Nat} {i j : Nat} (hi : i < l.length) (hj : j < l.length) : l[i]? = l[j]? ↔ lab l i = lab l j := by
  unfold lab
  rw [List.getElem?_eq_getElem hi, List.getElem?_eq_getElem hj]
  simp

theorem linkage_refine {m : Method} (hm : m ≠ .centroid ∧ m ≠ .median) {n : Nat} (hn : 2 ≤ n) {d : Nat → Nat → ℝ} (hD : ∀ i < n, ∀ j < n, d i j = d j i)
    (h0 : ∀ i < n, ∀ j < n, 0 ≤ d i j) {Z : List Row} (h : IsLinkage m n d Z) {k K : Int} (h1 : 1 ≤ k) (hk : k ≤ K) (hK : K ≤ n) :
    ∀ i < n, ∀ j < n, (cutLabels Z K)[i]? = (cutLabels Z K)[j]? → (cutLabels Z k)[i]? = (cutLabels Z k)[j]? := by
  intro i hi j hj e
  have hc := linkage_cut hm hn hD h0 h
  have l1 := (hc k h1).1
  have l2 := (hc K (by omega)).1
  rw [lab_iff (by omega) (by omega)] at e ⊢
  have := labels_down (linkage_valid hn hD h0 h) (linkage_sorted hm hD h0 h) (k := k.toNat) (K := K.toNat) (by omega) (by omega) (by omega) hi hj
  rw [Int.toNat_of_nonneg (by omega), Int.toNat_of_nonneg (by omega)] at this
  exact this e

/-- Groups that are all `b` apart. -/
theorem staged_flat {m : Method} (hm : m ≠ .centroid ∧ m ≠ .median) {n : Nat} (hn : 2 ≤ n) {d : Nat → Nat → ℝ} (hD : ∀ i < n, ∀ j < n, d i j = d j i)
    (h0 : ∀ i < n, ∀ j < n, 0 ≤ d i j) {Z : List Row} (h : IsLinkage m n d Z) {grp : Nat → Nat} (hrec : Recovers n grp (cutLabels Z (numGroups n grp)))
    {s : Nat} (hs : ∀ i < n, s ≤ groupSize n grp (grp i)) {c b : ℝ} (hin : ∀ i < n, ∀ j < n, grp i = grp j → d i j ≤ c) (hc : 0 ≤ c) (hcb : c < b)
    (hout : ∀ i < n, ∀ j < n, grp i ≠ grp j → d i j = b) : Staged n d grp s c b (cutLabels Z) := by
  have hcut := linkage_cut hm hn hD h0 h
  have hK := groups_le n grp
  have hK1 : 1 ≤ numGroups n grp := Finset.card_pos.mpr ⟨grp 0, mem_image_of_mem _ (mem_range.mpr (by omega))⟩
  have names := Nested.names_of (hcut _ (by omega)).1 hrec
  refine ⟨hcut, names, fun k k1 k2 => linkage_refine hm hn hD h0 h (by omega) (by omega) (by omega), hs, h0, hin, ⟨hc, hcb⟩,
    fun k k1 k2 => ⟨b, le_rfl, fun p hp => ?_, fun p hp hp' => ?_⟩⟩
  · obtain ⟨h1, h2, -⟩ := mem_inPairs.mp hp
    rw [(hcut (k + 1) (by omega)).1] at h2
    by_cases e : grp p.1 = grp p.2
    · exact (hin _ (by omega) _ h2 e).trans hcb.le
    · exact (hout _ (by omega) _ h2 e).le
  · obtain ⟨h1, h2, -⟩ := mem_inPairs.mp hp
    rw [(hcut k (by omega)).1] at h2
    refine (hout _ (by omega) _ h2 fun e => hp' (mem_inPairs.mpr ⟨h1, by rw [(hcut (k + 1) (by omega)).1]; exact h2, ?_⟩)).ge
    exact linkage_refine hm hn hD h0 h (K := numGroups n grp) (by omega) (by omega) hK _ (by omega) _ h2 ((names.2 _ (by omega) _ h2).mpr e)

/-- Groups inside families. -/
theorem staged_nested {m : Method} (hm : m ≠ .centroid ∧ m ≠ .median) {n : Nat} {d : Nat → Nat → ℝ} (hD : ∀ i < n, ∀ j < n, d i j = d j i)
    {grp fam : Nat → Nat} {s t : Nat} {b b' : ℝ} (hN : Nested n d grp fam s t b b') {Z : List Row} (h : IsLinkage m n d Z)
    (hg : Recovers n grp (cutLabels Z (numGroups n grp))) (hf : Recovers n fam (cutLabels Z (numGroups n fam)))
    {c : ℝ} (hin : ∀ i < n, ∀ j < n, grp i = grp j → d i j ≤ c) (hc : 0 ≤ c) (hcb : c < b) : Staged n d grp s c b (cutLabels Z) := by
  have hn : 2 ≤ n := by
    obtain ⟨i, hi, j, hj, hne⟩ := hN.two
    by_contra hcon
    exact hne (by rw [show i = j by omega])
  have h0 := hN.nonneg
  have hcut := linkage_cut hm hn hD h0 h
  have hK := groups_le n grp
  have hF := groups_le n fam
  obtain ⟨hc1, hc2⟩ := hN.counts
  have hm2 := hN.more.2
  have hlt : numGroups n fam < numGroups n grp := by rw [hc1]; nlinarith
  have names := Nested.names_of (hcut (numGroups n grp) (by omega)).1 hg
  have fnames := Nested.names_of (hcut (numGroups n fam) (by omega)).1 hf
  refine ⟨hcut, names, fun k k1 k2 => linkage_refine hm hn hD h0 h (by omega) (by omega) (by omega), fun i hi => (hN.size i hi).ge, h0, hin, ⟨hc, hcb⟩,
    fun k k1 k2 => ?_⟩
  have len : (cutLabels Z k).length = n := (hcut k (by omega)).1
  have len' : (cutLabels Z (k + 1)).length = n := (hcut (k + 1) (by omega)).1
  rcases lt_or_ge k (numGroups n fam) with hk | hk
  · refine ⟨b', hN.order, fun p hp => ?_, fun p hp hp' => ?_⟩
    · obtain ⟨h1, h2, -⟩ := mem_inPairs.mp hp
      rw [len'] at h2
      by_cases e : fam p.1 = fam p.2
      · exact (hN.family_bound _ (by omega) _ h2 e).trans hN.order
      · exact (hN.far _ (by omega) _ h2 e).le
    · obtain ⟨h1, h2, -⟩ := mem_inPairs.mp hp
      rw [len] at h2
      refine (hN.far _ (by omega) _ h2 fun e => hp' (mem_inPairs.mpr ⟨h1, by rw [len']; exact h2, ?_⟩)).ge
      exact linkage_refine hm hn hD h0 h (K := numGroups n fam) (by omega) (by omega) hF _ (by omega) _ h2 ((fnames.2 _ (by omega) _ h2).mpr e)
  · refine ⟨b, le_rfl, fun p hp => ?_, fun p hp hp' => ?_⟩
    · obtain ⟨h1, h2, h3⟩ := mem_inPairs.mp hp
      rw [len'] at h2
      exact hN.family_bound _ (by omega) _ h2 ((fnames.2 _ (by omega) _ h2).mp
        (linkage_refine hm hn hD h0 h (k := numGroups n fam) (K := k + 1) (by omega) (by omega) (by omega) _ (by omega) _ h2 h3))
    · obtain ⟨h1, h2, h3⟩ := mem_inPairs.mp hp
      rw [len] at h2
      refine (hN.near _ (by omega) _ h2 (fun e => hp' (mem_inPairs.mpr ⟨h1, by rw [len']; exact h2, ?_⟩)) ((fnames.2 _ (by omega) _ h2).mp
        (linkage_refine hm hn hD h0 h (k := numGroups n fam) (K := k) (by omega) (by omega) (by omega) _ (by omega) _ h2 h3))).ge
      exact linkage_refine hm hn hD h0 h (K := numGroups n grp) (by omega) (by omega) hK _ (by omega) _ h2 ((names.2 _ (by omega) _ h2).mpr e)

/-! ### Groups of identical points -/

/-- **Finding: groups without distances inside are never selected.** If the clusters of the cut with `K` (and of all later cuts) have no positive distance
inside, the search returns at most `K - 2` or raises IndexError: the gap is infinite from `K` on, and neither `K - 1` nor `K` nor any later number
can satisfy the rule. -/
theorem identical_never {rng : Int → Nat → ℝ} {m : Dist.Table} {n : Nat} {d : Nat → Nat → ℝ} (hn : 2 ≤ n) (hm : IsDist m n d)
    {cut : Int → List α} (hc : CutSpec n cut) {K : Int} (hz : ∀ k, K ≤ k → 1 ≤ k → pairSum (cut k) d = 0) {nb : Nat} (hnb : nb ≠ 0) (hnb' : nb ≤ 2 ^ 32)
    (M : Int) : (∃ r, 2 ≤ r ∧ r ≤ K - 2 ∧ optimizeNClusters rng cut (.table m) M "gap" nb = .ok r) ∨
      optimizeNClusters rng cut (.table m) M "gap" nb = .error .indexError := by
  rcases gap_total rng hn hc hm (nb := nb) (by omega) (by exact_mod_cast hnb') M with ⟨r, h2, -, hr⟩ | hE
  · refine .inl ⟨r, h2, ?_, hr⟩
    by_contra hcon
    obtain ⟨hh, htop⟩ : ∃ hh, IsTop n d hh := by
      obtain ⟨x, hx, hmax⟩ := exists_max_image (range n ×ˢ range n) (fun x => d x.1 x.2) ⟨(0, 0), by simp; omega⟩
      rw [mem_product, mem_range, mem_range] at hx
      exact ⟨d x.1 x.2, fun i j hi hj => hmax (i, j) (by simp [hi, hj]), x.1, x.2, hx.1, hx.2, rfl⟩
    obtain ⟨-, -, -, hd, -⟩ := (gap_result_iff _ _ _ _ _ _).mp hr
    have hl := (hc (r + 1) (by omega)).1
    have e := gap_infinite (rng := rng) (l := cut (r + 1)) (m := m) (d := d) (h := hh) (rs := none) (nb := nb) (by omega) (hl.symm ▸ hm) (hl.symm ▸ htop)
      hnb le_rfl (by show (0 : Int) + nb ≤ 2 ^ 32; exact_mod_cast (by omega : 0 + nb ≤ 2 ^ 32)) (hz (r + 1) (by omega) (by omega))
    obtain ⟨g, s, g', s', f1, f2, f3⟩ := hd
    unfold gapAt at f2
    rw [e] at f2
    cases f2
    cases g <;> exact f3
  · exact .inr hE

end Verif.Clust
