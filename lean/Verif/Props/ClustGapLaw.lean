import Verif.Props.ClustGapSearch
import Verif.Props.InfoLawEx
import Mathlib.Analysis.SpecialFunctions.Integrals.Basic
import Mathlib.Probability.Moments.Variance

/-!
# The gap search with random reference distances (C126)

`np.random` with a seed is modelled by uniform numbers, independent (in pairs) for each seed. The bounds use nothing else of them.
-/

namespace Verif.Clust

open Verif Verif.Props Verif.Props.ClustSelect Verif.Props.ClustGap Verif.Props.MicroEdge Classical Finset
open MeasureTheory ProbabilityTheory

variable {α : Type} [DecidableEq α] {Ω : Type*} [MeasurableSpace Ω] {P : Measure Ω}

/-! ### Specification -/

/-- The numbers drawn after seeding are uniform on the unit interval, and any two of the same seed are independent. -/
structure UniformDraws (P : Measure Ω) (rng : Ω → Int → Nat → ℝ) : Prop where
  meas : ∀ s i, Measurable fun ω => rng ω s i
  uniform : ∀ s i, P.map (fun ω => rng ω s i) = Info.unitLaw
  indep : ∀ s i j, i ≠ j → IndepFun (fun ω => rng ω s i) (fun ω => rng ω s j) P

/-- Such draws exist. -/
theorem uniformDraws_exist : ∃ (Ω : Type) (_ : MeasurableSpace Ω) (P : Measure Ω) (rng : Ω → Int → Nat → ℝ), IsProbabilityMeasure P ∧ UniformDraws P rng := by
  refine ⟨Nat → ℝ, inferInstance, Info.unitDraws, fun ω _ i => ω i, inferInstance, fun _ i => measurable_pi_apply i, fun _ i => ?_, fun _ i j hij => ?_⟩
  · unfold Info.unitDraws
    exact Measure.infinitePi_map_eval _ i
  · exact Info.unitDraws_iid.indep.indepFun hij

/-! ### Moments -/

theorem unit_pow (k : Nat) : ∫ x, x ^ k ∂Info.unitLaw = 1 / (k + 1) := by
  unfold Info.unitLaw
  rw [integral_Ico_eq_integral_Ioc, ← intervalIntegral.integral_of_le zero_le_one, integral_pow]
  simp

/-- The position in the stream determines the pair. -/
theorem index_inj {l : List α} {p q : Nat × Nat} (hp : p ∈ inPairs l) (hq : q ∈ inPairs l) (e : p.1 * l.length + p.2 = q.1 * l.length + q.2) : p = q := by
  obtain ⟨-, h1, -⟩ := mem_inPairs.mp hp
  obtain ⟨-, h2, -⟩ := mem_inPairs.mp hq
  have e1 : p.2 = q.2 := by
    have := congrArg (· % l.length) e
    simpa [Nat.mul_add_mod', Nat.mod_eq_of_lt h1, Nat.mod_eq_of_lt h2] using this
  have hl : 0 < l.length := by omega
  have e2 : p.1 = q.1 := Nat.eq_of_mul_eq_mul_right hl (by omega)
  exact Prod.ext e2 e1

namespace UniformDraws

variable {rng : Ω → Int → Nat → ℝ} (h : UniformDraws P rng)

include h

theorem mem (s : Int) (i : Nat) : ∀ᵐ ω ∂P, rng ω s i ∈ Set.Ico (0 : ℝ) 1 := by
  have h1 : ∀ᵐ x ∂Info.unitLaw, x ∈ Set.Ico (0 : ℝ) 1 := by
    unfold Info.unitLaw
    exact ae_restrict_mem measurableSet_Ico
  rw [← h.uniform s i] at h1
  exact ae_of_ae_map (h.meas s i).aemeasurable h1

theorem moment (s : Int) (i k : Nat) : ∫ ω, rng ω s i ^ k ∂P = 1 / (k + 1) := by
  rw [← unit_pow k, ← h.uniform s i, integral_map (h.meas s i).aemeasurable (by fun_prop)]

variable [IsProbabilityMeasure P]

theorem memLp (s : Int) (i : Nat) : MemLp (fun ω => rng ω s i ^ 2) 2 P := by
  refine MemLp.of_bound ((h.meas s i).pow_const 2).aestronglyMeasurable 1 ?_
  filter_upwards [h.mem s i] with ω hω
  rw [Real.norm_eq_abs, abs_of_nonneg (by positivity)]
  exact pow_le_one₀ hω.1 hω.2.le

theorem variance (s : Int) (i : Nat) : Var[fun ω => rng ω s i ^ 2; P] = 4 / 45 := by
  rw [variance_eq_sub (h.memLp s i), h.moment s i 2]
  have : ∫ ω, ((fun ω => rng ω s i ^ 2) ^ 2) ω ∂P = 1 / 5 := by
    have e := h.moment s i 4
    simp only [Pi.pow_apply, ← pow_mul]
    rw [e]
    norm_num
  rw [this]
  norm_num

/-- One draw is typical with high probability. -/
theorem one_draw (l : List α) (hl : (inPairs l).Nonempty) (s : Int) {ε : ℝ} (hε : 0 < ε) :
    P {ω | ε * ((inPairs l).card / 3) ≤ |∑ p ∈ inPairs l, rng ω s (p.1 * l.length + p.2) ^ 2 - (inPairs l).card / 3|} ≤
      ENNReal.ofReal (4 / 5 / (ε ^ 2 * (inPairs l).card)) := by
  have hc : (0 : ℝ) < (inPairs l).card := by exact_mod_cast hl.card_pos
  set S : Ω → ℝ := ∑ p ∈ inPairs l, fun ω => rng ω s (p.1 * l.length + p.2) ^ 2 with hS
  have eS : ∀ ω, S ω = ∑ p ∈ inPairs l, rng ω s (p.1 * l.length + p.2) ^ 2 := fun ω => by rw [hS, Finset.sum_apply]
  have hmem : MemLp S 2 P := memLp_finsetSum' _ fun p _ => h.memLp s _
  have hE : ∫ ω, S ω ∂P = (inPairs l).card / 3 := by
    simp only [eS]
    rw [integral_finsetSum _ fun p _ => (h.memLp s _).integrable (by norm_num), Finset.sum_congr rfl fun p _ => h.moment s _ 2, sum_const, nsmul_eq_mul]
    push_cast
    ring
  have hV : Var[S; P] = (inPairs l).card * (4 / 45) := by
    rw [hS, IndepFun.variance_sum (fun p _ => h.memLp s _), Finset.sum_congr rfl fun p _ => h.variance s _, sum_const, nsmul_eq_mul]
    intro p hp q hq hpq
    have hne : p.1 * l.length + p.2 ≠ q.1 * l.length + q.2 := fun e => hpq (index_inj hp hq e)
    exact (h.indep s _ _ hne).comp (φ := fun x : ℝ => x ^ 2) (ψ := fun x : ℝ => x ^ 2) (by fun_prop) (by fun_prop)
  have key := meas_ge_le_variance_div_sq hmem (c := ε * ((inPairs l).card / 3)) (by positivity)
  rw [hE, hV] at key
  simp only [eS] at key
  refine key.trans (ENNReal.ofReal_le_ofReal (le_of_eq ?_))
  field_simp
  norm_num

/-- All draws are typical with high probability. -/
theorem typical (l : List α) (hl : (inPairs l).Nonempty) (nb : Nat) {ε : ℝ} (hε : 0 < ε) :
    P {ω | ¬ Typical ε nb (rng ω) l} ≤ ENNReal.ofReal (nb * (4 / 5 / (ε ^ 2 * (inPairs l).card))) := by
  have hsub : {ω | ¬ Typical ε nb (rng ω) l} ⊆ ⋃ b ∈ range nb,
      {ω | ε * ((inPairs l).card / 3) ≤ |∑ p ∈ inPairs l, rng ω (b : Nat) (p.1 * l.length + p.2) ^ 2 - (inPairs l).card / 3|} := by
    intro ω hω
    rw [Set.mem_ofPred_eq] at hω
    unfold Typical at hω
    push Not at hω
    obtain ⟨b, hb, hlt⟩ := hω
    exact Set.mem_biUnion (mem_coe.mpr (mem_range.mpr hb)) hlt.le
  refine (measure_mono hsub).trans ((measure_biUnion_finset_le _ _).trans ?_)
  refine (sum_le_sum fun b _ => h.one_draw l hl (b : Nat) hε).trans ?_
  rw [sum_const, card_range, nsmul_eq_mul, ENNReal.ofReal_mul (by positivity), ENNReal.ofReal_natCast]

end UniformDraws

/-! ### Fewer clusters than groups -/

/-- The bound: `K` groups of at least `s` of `n` points, `nb` draws; `q` is the greatest distance inside the groups divided by the smallest between them. -/
noncomputable def missBound (n K s nb : Nat) (q : ℝ) : ℝ := 72 / 5 * (K - 1) * nb * n ^ 5 / ((1 - q ^ 2) ^ 2 * (s ^ 4 * (s - 1) ^ 3))

/-- **The search rarely selects fewer clusters than groups.** -/
theorem Staged.miss {n : Nat} {d : Nat → Nat → ℝ} {grp : Nat → Nat} {s : Nat} {c b : ℝ} {cut : Int → List α} (h : Staged n d grp s c b cut)
    {rng : Ω → Int → Nat → ℝ} (hu : UniformDraws P rng) [IsProbabilityMeasure P] {m : Dist.Table} (hm : IsDist m n d) (hs : 2 ≤ s) {nb : Nat} (hnb : nb ≠ 0)
    (hnb' : nb ≤ 2 ^ 32) (M : Int) :
    P {ω | ∃ r < (numGroups n grp : Int), optimizeNClusters (rng ω) cut (.table m) M "gap" nb = .ok r} ≤
      ENNReal.ofReal (missBound n (numGroups n grp) s nb (c / b)) := by
  set K := numGroups n grp with hK
  set ε : ℝ := (1 - c ^ 2 / b ^ 2) * (s ^ 2 * (s - 1)) / (3 * n ^ 3) with hε
  rcases lt_or_ge K 2 with hK2 | hK2
  · have : {ω | ∃ r < (K : Int), optimizeNClusters (rng ω) cut (.table m) M "gap" nb = .ok r} = ∅ := by
      rw [Set.eq_empty_iff_forall_notMem]
      rintro ω ⟨r, hr, e⟩
      have := ((gap_result_iff _ _ _ _ _ _).mp e).2.1
      omega
    rw [this, measure_empty]
    exact zero_le
  have hn := groups_le n grp
  have hn1 : (0 : ℝ) < n := by
    have : 0 < n := by omega
    exact_mod_cast this
  have hs' : (0 : ℝ) < s - 1 := by
    have : (2 : ℝ) ≤ s := by exact_mod_cast hs
    linarith
  have hs0 : (0 : ℝ) < s := by linarith
  have hb : 0 < b := h.less.1.trans_lt h.less.2
  have hκ : 0 < 1 - c ^ 2 / b ^ 2 := by
    rw [sub_pos, div_lt_one (by positivity)]
    exact pow_lt_pow_left₀ h.less.2 h.less.1 (by norm_num)
  have hε0 : 0 < ε := by positivity
  have hG := grpPairs_ge h.size
  have hsub : {ω | ∃ r < (K : Int), optimizeNClusters (rng ω) cut (.table m) M "gap" nb = .ok r} ⊆
      ⋃ k ∈ Icc (2 : Int) K, {ω | ¬ Typical ε nb (rng ω) (cut k)} := by
    rintro ω ⟨r, hr, e⟩
    by_contra hcon
    simp only [Set.mem_iUnion, Set.mem_ofPred_eq, exists_prop, not_exists, not_and, not_not, mem_Icc] at hcon
    have := h.at_least hm hs hnb hnb' (fun k k1 k2 => hcon k ⟨k1, k2⟩) e
    omega
  refine (measure_mono hsub).trans ((measure_biUnion_finset_le _ _).trans ?_)
  have hk : ∀ k ∈ Icc (2 : Int) K, P {ω | ¬ Typical ε nb (rng ω) (cut k)} ≤ ENNReal.ofReal (nb * (4 / 5 / (ε ^ 2 * (n * (s - 1) / 2)))) := fun k hk => by
    obtain ⟨k1, k2⟩ := mem_Icc.mp hk
    have hGs : grpPairs n grp ⊆ inPairs (cut k) := fun x hx => by
      obtain ⟨h1, h2, h3⟩ := mem_grpPairs.mp hx
      exact mem_inPairs.mpr ⟨h1, by rw [(h.spec k (by omega)).1]; exact h2, h.coarse k1 k2 _ (by omega) _ h2 h3⟩
    have hcard : (n : ℝ) * (s - 1) / 2 ≤ (inPairs (cut k)).card := hG.trans (Nat.cast_le.mpr (card_le_card hGs))
    have hpos : (0 : ℝ) < n * (s - 1) / 2 := by positivity
    have hne : (inPairs (cut k)).Nonempty := card_pos.mp (Nat.cast_pos.mp (hpos.trans_le hcard))
    refine (hu.typical (cut k) hne nb hε0).trans (ENNReal.ofReal_le_ofReal ?_)
    refine mul_le_mul_of_nonneg_left (div_le_div_of_nonneg_left (by norm_num) (by positivity) ?_) (by positivity)
    exact mul_le_mul_of_nonneg_left hcard (by positivity)
  refine (sum_le_sum hk).trans ?_
  rw [sum_const, Int.card_Icc, nsmul_eq_mul, ← ENNReal.ofReal_natCast, ← ENNReal.ofReal_mul (by positivity)]
  refine ENNReal.ofReal_le_ofReal (le_of_eq ?_)
  have e1 : (((K : Int) + 1 - 2).toNat : ℝ) = K - 1 := by
    have : ((K : Int) + 1 - 2).toNat = K - 1 := by omega
    rw [this, Nat.cast_sub (by omega)]
    norm_num
  have e2 : 1 - (c / b) ^ 2 = 1 - c ^ 2 / b ^ 2 := by rw [div_pow]
  rw [e1, hε, missBound, e2]
  generalize 1 - c ^ 2 / b ^ 2 = κ at *
  field_simp
  ring

/-! ### Objects -/

/-- The linkage methods for which the groups are found: Ward's method needs distances between groups that are greater by a factor. -/
def Finds (n : Nat) (d : Nat → Nat → ℝ) (grp : Nat → Nat) (link : String) : Prop :=
  (link ∈ ["single", "complete", "average", "weighted"] ∧ ∃ a, (∀ i < n, ∀ j < n, grp i = grp j → d i j ≤ a) ∧ ∀ i < n, ∀ j < n, grp i ≠ grp j → a < d i j) ∨
  (link = "ward" ∧ ∃ (a : ℝ) (S : Nat), 0 ≤ a ∧ (∀ g, groupSize n grp g ≤ S) ∧ (∀ i < n, ∀ j < n, grp i = grp j → d i j ≤ a) ∧
    ∀ i < n, ∀ j < n, grp i ≠ grp j → a * √(S / 2) < d i j)

theorem Finds.method {n : Nat} {d : Nat → Nat → ℝ} {grp : Nat → Nat} {link : String} (h : Finds n d grp link) (hn : 2 ≤ n) {tb : Dist.Table} (hd : IsDist tb n d)
    (h0 : ∀ i < n, ∀ j < n, 0 ≤ d i j) : ∃ lm, Method.ofName link = some lm ∧ (lm ≠ .centroid ∧ lm ≠ .median) ∧
      ∀ Z, IsLinkage lm n d Z → Recovers n grp (cutLabels Z (numGroups n grp)) := by
  have sym : ∀ i < n, ∀ j < n, d i j = d j i := fun i hi j hj => hd.symm i j hi hj
  rcases h with ⟨hl, a, h1, h2⟩ | ⟨rfl, a, S, ha, hS, h1, h2⟩
  · obtain ⟨lm, hlm, hcase⟩ : ∃ lm, Method.ofName link = some lm ∧ (lm = .single ∨ lm = .complete ∨ lm = .average ∨ lm = .weighted) := by
      simp only [List.mem_cons, List.not_mem_nil, or_false] at hl
      rcases hl with rfl | rfl | rfl | rfl
      · exact ⟨.single, rfl, by simp⟩
      · exact ⟨.complete, rfl, by simp⟩
      · exact ⟨.average, rfl, by simp⟩
      · exact ⟨.weighted, rfl, by simp⟩
    exact ⟨lm, hlm, by rcases hcase with rfl | rfl | rfl | rfl <;> simp, fun Z hZ =>
      separated_found hcase hn sym h0 hZ (c := a) (fun i hi j hj _ e => h1 i hi j hj e) h2⟩
  · exact ⟨.ward, rfl, by simp, fun Z hZ => ward_found_size hn sym hd.diag h0 hZ ha hS h1 h2⟩

/-- The search of a new object. -/
theorem hc_search {scipy : Dist.Table → String → Bool → Py (List Row)} {tb : Dist.Table} {link : String} {ord : Bool} {Z : List Row}
    (hl : (⟨.table tb, link, ord, none⟩ : HC (List Row)).linkage scipy = (.ok Z, ⟨.table tb, link, ord, some Z⟩)) (rng : Int → Nat → ℝ) (M nb : Int) :
    ((⟨.table tb, link, ord, none⟩ : HC (List Row)).step rng scipy cutLabels (.optimal M "gap" nb)).1 =
      (optimizeNClusters rng (cutLabels Z) (.table tb) M "gap" nb).map Res.number := by
  unfold HC.step
  dsimp only
  rw [hl]
  rfl

theorem map_number {x : Py Int} {r : Int} : x.map Res.number = (.ok (.number r) : Py (Res (List Row) Nat)) ↔ x = .ok r := by
  cases x with
  | error e => exact ⟨fun h => (by cases h), fun h => (by cases h)⟩
  | ok v => exact ⟨fun h => by cases h; rfl, fun h => by cases h; rfl⟩

/-- C126. **Groups that are all `b` apart**, distances inside at most `c < b`: the default search of `HC` returns fewer clusters than there are groups with
a probability of at most `missBound`. For `K` groups of `s` points that is about `15 nb K⁶ / ((1 - c²/b²) s)²`. -/
theorem hc_gap_groups (pdCorr : Dist.Table → String → Dist.Table) (X corr : Option Dist.CorrArg) {scipy : Dist.Table → String → Bool → Py (List Row)}
    (hs : LinkageSpec scipy) {n : Nat} (hn : 2 ≤ n) {d : Nat → Nat → ℝ} {tb : Dist.Table} (hd : IsDist tb n d) (h0 : ∀ i < n, ∀ j < n, 0 ≤ d i j)
    {grp : Nat → Nat} {s : Nat} (hs2 : 2 ≤ s) (hsz : ∀ i < n, s ≤ groupSize n grp (grp i)) {c b : ℝ} (hin : ∀ i < n, ∀ j < n, grp i = grp j → d i j ≤ c)
    (hc : 0 ≤ c) (hcb : c < b) (hout : ∀ i < n, ∀ j < n, grp i ≠ grp j → d i j = b) {link : String} (hlink : Finds n d grp link) (cod name : String) (ord : Bool)
    {rng : Ω → Int → Nat → ℝ} (hu : UniformDraws P rng) [IsProbabilityMeasure P] :
    ∃ o : HC (List Row), HC.init pdCorr X corr (some (.table tb)) cod name link ord = .ok o ∧ ∀ (M : Int) (nb : Nat), nb ≠ 0 → nb ≤ 2 ^ 32 →
      P {ω | ∃ r < (numGroups n grp : Int), (o.step (rng ω) scipy cutLabels (.optimal M "gap" nb)).1 = .ok (.number r)} ≤
        ENNReal.ofReal (missBound n (numGroups n grp) s nb (c / b)) := by
  obtain ⟨lm, hlm, hmono, hrec⟩ := hlink.method hn hd h0
  obtain ⟨Z, hZ, hl⟩ := hc_linkage hs hn hd hlm ord
  refine ⟨⟨.table tb, link, ord, none⟩, rfl, fun M nb h1 h2 => ?_⟩
  simp only [hc_search hl, map_number]
  exact (staged_flat hmono hn (fun i hi j hj => hd.symm i j hi hj) h0 hZ (hrec Z hZ) hsz hin hc hcb hout).miss hu hd hs2 h1 h2 M

/-- C126. **Groups inside families**: the default search looks for the groups, where the search with the silhouette never returns their number. -/
theorem hc_gap_nested (pdCorr : Dist.Table → String → Dist.Table) (X corr : Option Dist.CorrArg) {scipy : Dist.Table → String → Bool → Py (List Row)}
    (hs : LinkageSpec scipy) {n : Nat} {d : Nat → Nat → ℝ} {tb : Dist.Table} (hd : IsDist tb n d) {grp fam : Nat → Nat} {s t : Nat} {b b' c : ℝ}
    (hN : Nested n d grp fam s t b b') (hin : ∀ i < n, ∀ j < n, grp i = grp j → d i j ≤ c) (hcb : c < b)
    {link : String} (hlink : Finds n d grp link) (hlink' : Finds n d fam link)
    (cod name : String) (ord : Bool) {rng : Ω → Int → Nat → ℝ} (hu : UniformDraws P rng) [IsProbabilityMeasure P] :
    ∃ o : HC (List Row), HC.init pdCorr X corr (some (.table tb)) cod name link ord = .ok o ∧
      (∀ (M : Int) (nb : Nat), nb ≠ 0 → nb ≤ 2 ^ 32 →
        P {ω | ∃ r < (numGroups n grp : Int), (o.step (rng ω) scipy cutLabels (.optimal M "gap" nb)).1 = .ok (.number r)} ≤
          ENNReal.ofReal (missBound n (numGroups n grp) s nb (c / b))) ∧
      ∀ ω (M nb : Int), (o.step (rng ω) scipy cutLabels (.optimal M "silhouette" nb)).1 ≠ .ok (.number (numGroups n grp)) := by
  have hn : 2 ≤ n := by
    obtain ⟨i, hi, j, hj, hne⟩ := hN.two
    by_contra hcon
    exact hne (by rw [show i = j by omega])
  have hc : 0 ≤ c := by
    obtain ⟨i, hi, -⟩ := hN.two
    rw [← hN.diag i hi]
    exact hin i hi i hi rfl
  have sym : ∀ i < n, ∀ j < n, d i j = d j i := fun i hi j hj => hd.symm i j hi hj
  obtain ⟨lm, hlm, hmono, hrec⟩ := hlink.method hn hd hN.nonneg
  obtain ⟨lm', hlm', -, hrec'⟩ := hlink'.method hn hd hN.nonneg
  obtain rfl : lm = lm' := Option.some.inj (hlm.symm.trans hlm')
  obtain ⟨Z, hZ, hl⟩ := hc_linkage hs hn hd hlm ord
  have hcut := linkage_cut hmono hn sym hN.nonneg hZ
  obtain ⟨hc1, hc2⟩ := hN.counts
  have hm2 := hN.more.2
  refine ⟨⟨.table tb, link, ord, none⟩, rfl, fun M nb h1 h2 => ?_, fun ω M nb he => ?_⟩
  · simp only [hc_search hl, map_number]
    exact (staged_nested hmono sym hN hZ (hrec Z hZ) (hrec' Z hZ) hin hc hcb).miss hu hd hN.more.1 h1 h2 M
  · unfold HC.step at he
    dsimp only at he
    rw [hl] at he
    have hng := hN.never_groups (rng ω) (cut := cutLabels Z) hd (Nested.names_of (hcut _ (by rw [hc1]; push_cast; nlinarith)).1 (hrec Z hZ))
      (Nested.names_of (hcut _ (by omega)).1 (hrec' Z hZ)) M nb
    exact hng (map_number.mp he)

theorem finds_zero {n : Nat} {d : Nat → Nat → ℝ} {grp : Nat → Nat} (hin : ∀ i < n, ∀ j < n, grp i = grp j → d i j = 0)
    (hout : ∀ i < n, ∀ j < n, grp i ≠ grp j → 0 < d i j) {link : String} (hlink : link ∈ ["single", "complete", "average", "weighted", "ward"]) :
    Finds n d grp link := by
  simp only [List.mem_cons, List.not_mem_nil, or_false] at hlink
  have h5 : link = "ward" ∨ link ∈ ["single", "complete", "average", "weighted"] := by
    simp only [List.mem_cons, List.not_mem_nil, or_false]
    tauto
  rcases h5 with rfl | hl
  · refine .inr ⟨rfl, 0, n, le_rfl, fun g => (card_filter_le _ _).trans (by rw [card_range]), fun i hi j hj e => (hin i hi j hj e).le, fun i hi j hj e => ?_⟩
    rw [zero_mul]
    exact hout i hi j hj e
  · exact .inl ⟨hl, 0, fun i hi j hj e => (hin i hi j hj e).le, hout⟩

/-- C126. **Finding: groups of identical points.** `K` groups with the distance zero inside and positive distances between them (duplicated or perfectly
correlated series): the default search never returns `K`, nor any greater number, nor `K - 1`. -/
theorem hc_gap_identical (pdCorr : Dist.Table → String → Dist.Table) (X corr : Option Dist.CorrArg) {scipy : Dist.Table → String → Bool → Py (List Row)}
    (hs : LinkageSpec scipy) {n : Nat} (hn : 2 ≤ n) {d : Nat → Nat → ℝ} {tb : Dist.Table} (hd : IsDist tb n d) {grp : Nat → Nat}
    (hin : ∀ i < n, ∀ j < n, grp i = grp j → d i j = 0) (hout : ∀ i < n, ∀ j < n, grp i ≠ grp j → 0 < d i j)
    {link : String} (hlink : link ∈ ["single", "complete", "average", "weighted", "ward"]) (cod name : String) (ord : Bool) :
    ∃ o : HC (List Row), HC.init pdCorr X corr (some (.table tb)) cod name link ord = .ok o ∧ ∀ (rng : Int → Nat → ℝ) (M : Int) (nb : Nat), nb ≠ 0 → nb ≤ 2 ^ 32 →
      (∃ r, 2 ≤ r ∧ r ≤ (numGroups n grp : Int) - 2 ∧ (o.step rng scipy cutLabels (.optimal M "gap" nb)).1 = .ok (.number r)) ∨
        (o.step rng scipy cutLabels (.optimal M "gap" nb)).1 = .error .indexError := by
  have h0 : ∀ i < n, ∀ j < n, 0 ≤ d i j := fun i hi j hj => by
    by_cases e : grp i = grp j
    · exact (hin i hi j hj e).ge
    · exact (hout i hi j hj e).le
  have hf := finds_zero hin hout hlink
  obtain ⟨lm, hlm, hmono, hrec⟩ := hf.method hn hd h0
  obtain ⟨Z, hZ, hl⟩ := hc_linkage hs hn hd hlm ord
  have sym : ∀ i < n, ∀ j < n, d i j = d j i := fun i hi j hj => hd.symm i j hi hj
  have hcut := linkage_cut hmono hn sym h0 hZ
  have hK := groups_le n grp
  have hK1 : 1 ≤ numGroups n grp := Finset.card_pos.mpr ⟨grp 0, mem_image_of_mem _ (mem_range.mpr (by omega))⟩
  have names := Nested.names_of (hcut (numGroups n grp) (by omega)).1 (hrec Z hZ)
  refine ⟨⟨.table tb, link, ord, none⟩, rfl, fun rng M nb h1 h2 => ?_⟩
  have key := identical_never (rng := rng) hn hd hcut (K := numGroups n grp) (fun k k1 k2 => ?_) h1 h2 M
  · rw [hc_search hl]
    rcases key with ⟨r, a1, a2, a3⟩ | e
    · exact .inl ⟨r, a1, a2, map_number.mpr a3⟩
    · right
      rw [e]
      rfl
  · rcases le_or_gt k n with hk | hk
    · rw [pairSum_eq]
      refine sum_eq_zero fun p hp => ?_
      obtain ⟨p1, p2, p3⟩ := mem_inPairs.mp hp
      rw [(hcut k k2).1] at p2
      have := linkage_refine hmono hn sym h0 hZ (k := numGroups n grp) (K := k) (by omega) k1 hk _ (by omega) _ p2 p3
      rw [hin _ (by omega) _ p2 ((names.2 _ (by omega) _ p2).mp this)]
      norm_num
    · exact pairSum_nodup (nodup_of_cut hcut k2 hk.le) d

/-- C126. **Finding: such groups mostly end in an error.** With the distance `b` between any two of the groups, the search raises an IndexError
except with a probability of at most `missBound`. -/
theorem hc_gap_identical_error (pdCorr : Dist.Table → String → Dist.Table) (X corr : Option Dist.CorrArg) {scipy : Dist.Table → String → Bool → Py (List Row)}
    (hs : LinkageSpec scipy) {n : Nat} (hn : 2 ≤ n) {d : Nat → Nat → ℝ} {tb : Dist.Table} (hd : IsDist tb n d) {grp : Nat → Nat} {s : Nat} (hs2 : 2 ≤ s)
    (hsz : ∀ i < n, s ≤ groupSize n grp (grp i)) {b : ℝ} (hb : 0 < b) (hin : ∀ i < n, ∀ j < n, grp i = grp j → d i j = 0)
    (hout : ∀ i < n, ∀ j < n, grp i ≠ grp j → d i j = b)
    {link : String} (hlink : link ∈ ["single", "complete", "average", "weighted", "ward"]) (cod name : String) (ord : Bool)
    {rng : Ω → Int → Nat → ℝ} (hu : UniformDraws P rng) [IsProbabilityMeasure P] :
    ∃ o : HC (List Row), HC.init pdCorr X corr (some (.table tb)) cod name link ord = .ok o ∧ ∀ (M : Int) (nb : Nat), nb ≠ 0 → nb ≤ 2 ^ 32 →
      P {ω | (o.step (rng ω) scipy cutLabels (.optimal M "gap" nb)).1 ≠ .error .indexError} ≤ ENNReal.ofReal (missBound n (numGroups n grp) s nb 0) := by
  have hout' : ∀ i < n, ∀ j < n, grp i ≠ grp j → 0 < d i j := fun i hi j hj e => by rw [hout i hi j hj e]; exact hb
  have h0 : ∀ i < n, ∀ j < n, 0 ≤ d i j := fun i hi j hj => by
    by_cases e : grp i = grp j
    · exact (hin i hi j hj e).ge
    · exact (hout' i hi j hj e).le
  obtain ⟨o, ho, h1⟩ := hc_gap_groups pdCorr X corr hs hn hd h0 hs2 hsz (c := 0) (fun i hi j hj e => (hin i hi j hj e).le) le_rfl hb hout
    (finds_zero hin hout' hlink) cod name ord hu
  obtain ⟨o', ho', h2⟩ := hc_gap_identical pdCorr X corr hs hn hd hin hout' hlink cod name ord
  obtain rfl : o = o' := Except.ok.inj (ho.symm.trans ho')
  refine ⟨o, ho, fun M nb a1 a2 => ?_⟩
  rw [zero_div] at h1
  refine (measure_mono fun ω hω => ?_).trans (h1 M nb a1 a2)
  rcases h2 (rng ω) M nb a1 a2 with ⟨r, -, r2, e⟩ | e
  · exact ⟨r, by omega, e⟩
  · exact absurd e hω

/-- C126. **The bound tends to zero** as `K` groups of the same size grow. -/
theorem missBound_limit (K nb : Nat) {q : ℝ} (hq : q ^ 2 < 1) : Filter.Tendsto (fun s : Nat => missBound (K * s) K s nb q) Filter.atTop (nhds 0) := by
  have hle : ∀ s : Nat, 2 ≤ s → |missBound (K * s) K s nb q| ≤ (|72 / 5 * ((K : ℝ) - 1) * nb * K ^ 5 / (1 - q ^ 2) ^ 2| * 8) / s := fun s hs => by
    have h2 : (2 : ℝ) ≤ s := by exact_mod_cast hs
    have h1 : (0 : ℝ) < s - 1 := by linarith
    have h0 : (0 : ℝ) < s := by linarith
    have hk : 0 < 1 - q ^ 2 := by linarith
    have e : missBound (K * s) K s nb q = (72 / 5 * ((K : ℝ) - 1) * nb * K ^ 5 / (1 - q ^ 2) ^ 2) * (s / (s - 1) ^ 3) := by
      unfold missBound
      push_cast
      field_simp
    have h3 : (s : ℝ) / (s - 1) ^ 3 ≤ 8 / s := by
      rw [div_le_div_iff₀ (by positivity) h0]
      have h4 : (s : ℝ) ≤ 2 * (s - 1) := by linarith
      have h5 : (s : ℝ) ^ 2 ≤ (2 * (s - 1)) ^ 2 := pow_le_pow_left₀ h0.le h4 2
      nlinarith [pow_pos h1 2]
    rw [e, abs_mul, abs_of_pos (show 0 < (s : ℝ) / (s - 1) ^ 3 by positivity), mul_div_assoc |_| 8]
    exact mul_le_mul_of_nonneg_left h3 (abs_nonneg _)
  refine squeeze_zero_norm' (Filter.eventually_atTop.mpr ⟨2, fun s hs => hle s hs⟩) ?_
  exact tendsto_const_div_atTop_nhds_zero_nat _

/-! ### A concrete case: three groups of 2000 points -/

/-- The group of a point. -/
def bigGrp (i : Nat) : Nat := i / 2000

/-- The distance is a half inside the groups and one between them. -/
noncomputable def bigDist (i j : Nat) : ℝ := if i = j then 0 else if bigGrp i = bigGrp j then 1 / 2 else 1

theorem bigGrp_size (g : Nat) (hg : g < 3) : groupSize 6000 bigGrp g = 2000 := by
  have : (range 6000).filter (fun j => bigGrp j = g) = Ico (2000 * g) (2000 * g + 2000) := by
    ext j
    rw [Finset.mem_filter, Finset.mem_range, Finset.mem_Ico]
    unfold bigGrp
    omega
  unfold groupSize
  rw [this, Nat.card_Ico]
  omega

theorem bigGrp_num : numGroups 6000 bigGrp = 3 := by
  have : (range 6000).image bigGrp = range 3 := by
    ext g
    simp only [mem_image, mem_range, bigGrp]
    constructor
    · rintro ⟨a, ha, rfl⟩
      omega
    · intro hg
      exact ⟨2000 * g, by omega, by omega⟩
  unfold numGroups
  rw [this, card_range]

noncomputable def bigTable : Dist.Table := ⟨6000, 6000, fun i j => .fin (bigDist i j)⟩

theorem big_dist : IsDist bigTable 6000 bigDist :=
  ⟨rfl, rfl, fun _ _ _ _ => rfl, fun i j _ _ => by
    unfold bigDist
    simp only [eq_comm (a := i) (b := j), eq_comm (a := bigGrp i) (b := bigGrp j)], fun i _ => if_pos rfl⟩

/-- The default search with average linkage and ten draws returns fewer than the three clusters with a probability of at most 1/25. -/
theorem hc_gap_example (pdCorr : Dist.Table → String → Dist.Table) (X corr : Option Dist.CorrArg) {scipy : Dist.Table → String → Bool → Py (List Row)}
    (hs : LinkageSpec scipy) (cod name : String) (ord : Bool)
    {rng : Ω → Int → Nat → ℝ} (hu : UniformDraws P rng) [IsProbabilityMeasure P] :
    ∃ o : HC (List Row), HC.init pdCorr X corr (some (.table bigTable)) cod name "average" ord = .ok o ∧ ∀ M : Int,
      P {ω | ∃ r < (3 : Int), (o.step (rng ω) scipy cutLabels (.optimal M "gap" 10)).1 = .ok (.number r)} ≤ ENNReal.ofReal (1 / 25) := by
  have hin : ∀ i < 6000, ∀ j < 6000, bigGrp i = bigGrp j → bigDist i j ≤ 1 / 2 := fun i _ j _ e => by
    unfold bigDist
    split_ifs <;> norm_num
  have hout : ∀ i < 6000, ∀ j < 6000, bigGrp i ≠ bigGrp j → bigDist i j = 1 := fun i _ j _ e => by
    unfold bigDist
    rw [if_neg (fun h => e (by rw [h])), if_neg e]
  have h0 : ∀ i < 6000, ∀ j < 6000, 0 ≤ bigDist i j := fun i _ j _ => by
    unfold bigDist
    split_ifs <;> norm_num
  obtain ⟨o, ho, h⟩ := hc_gap_groups pdCorr X corr hs (by norm_num) big_dist h0 (s := 2000) (by norm_num) (fun i hi => by
    rw [bigGrp_size _ (by unfold bigGrp; omega)]) hin (by norm_num) (by norm_num) hout
    (.inl ⟨by simp, 1 / 2, hin, fun i hi j hj e => by rw [hout i hi j hj e]; norm_num⟩ : Finds 6000 bigDist bigGrp "average") cod name ord hu
  refine ⟨o, ho, fun M => ?_⟩
  have := h M 10 (by norm_num) (by norm_num)
  rw [bigGrp_num] at this
  refine this.trans (ENNReal.ofReal_le_ofReal ?_)
  unfold missBound
  norm_num

end Verif.Clust
