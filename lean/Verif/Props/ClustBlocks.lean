import Verif.Props.ClustRecover
import Verif.Props.CovBlock

/-!
# C118: groups of correlated series are found

The groups of C117 for the distances of a correlation matrix, for the class `HC` and for the block-diagonal correlation
matrices of `_cor_block_diagonal`.
-/

namespace Verif.Clust

open Verif Ser Verif.Props.ClustSelect Verif.Props.ClustGap Verif.Props.ClustHC Classical Finset

theorem formula_nonneg (meth : Dist.Method) (x : ℝ) : 0 ≤ Dist.formula meth x := by
  cases meth <;> exact Real.sqrt_nonneg _

/-! ### Similarities -/

/-- Distances that are a decreasing function of a similarity, as the three correlation distances are. -/
structure Measures (n : Nat) (D σ : Nat → Nat → ℝ) : Prop where
  symm : ∀ i < n, ∀ j < n, D i j = D j i
  diag : ∀ i < n, D i i = 0
  nonneg : ∀ i < n, ∀ j < n, 0 ≤ D i j
  sq : ∃ w : ℝ, 0 < w ∧ ∀ i < n, ∀ j < n, D i j ^ 2 = w * (1 - σ i j)

/-- Groups whose similarities are at least `r` inside and smaller than `r` between them are found by four of the methods. -/
theorem similar_found {m : Method} (hm : m = .single ∨ m = .complete ∨ m = .average ∨ m = .weighted) {n : Nat} (hn : 2 ≤ n)
    {D σ : Nat → Nat → ℝ} (hD : Measures n D σ) {Z : List Row} (h : IsLinkage m n D Z) {grp : Nat → Nat} {r : ℝ} (hr : r ≤ 1)
    (hin : ∀ i < n, ∀ j < n, i ≠ j → grp i = grp j → r ≤ σ i j)
    (hout : ∀ i < n, ∀ j < n, grp i ≠ grp j → σ i j < r) : Recovers n grp (cutLabels Z (numGroups n grp)) := by
  obtain ⟨w, hw, hsq⟩ := hD.sq
  refine separated_found hm hn hD.symm hD.nonneg h (c := √(w * (1 - r))) ?_ ?_
  · intro i hi j hj hne e
    refine Real.le_sqrt_of_sq_le ?_
    rw [hsq i hi j hj]
    exact mul_le_mul_of_nonneg_left (by linarith [hin i hi j hj hne e]) hw.le
  · intro i hi j hj hne
    rw [Real.sqrt_lt (mul_nonneg hw.le (by linarith)) (hD.nonneg i hi j hj), hsq i hi j hj]
    exact mul_lt_mul_of_pos_left (by linarith [hout i hi j hj hne]) hw

/-- Ward's method: the size of a group and the range of its similarities enter. -/
theorem similar_found_ward {n : Nat} (hn : 2 ≤ n) {D σ : Nat → Nat → ℝ} (hD : Measures n D σ) {Z : List Row} (h : IsLinkage .ward n D Z)
    {grp : Nat → Nat} {lo hi : Nat → ℝ} {r : ℝ} (hr : r ≤ 1) (hlh : ∀ g, lo g ≤ hi g ∧ hi g ≤ 1)
    (hin : ∀ i < n, ∀ j < n, i ≠ j → grp i = grp j → lo (grp i) ≤ σ i j ∧ σ i j ≤ hi (grp i))
    (hc : ∀ i < n, r ≤ hi (grp i) - groupSize n grp (grp i) / 2 * (hi (grp i) - lo (grp i)))
    (hout : ∀ i < n, ∀ j < n, grp i ≠ grp j → σ i j < r) : Recovers n grp (cutLabels Z (numGroups n grp)) := by
  obtain ⟨w, hw, hsq⟩ := hD.sq
  refine ward_found hn hD.symm hD.diag hD.nonneg h (lo := fun g => √(w * (1 - hi g))) (hi := fun g => √(w * (1 - lo g)))
    (c := √(w * (1 - r))) (Real.sqrt_nonneg _) (fun g => Real.sqrt_nonneg _) ?_ ?_ ?_
  · intro i hi' j hj hne e
    obtain ⟨h1, h2⟩ := hin i hi' j hj hne e
    constructor
    · rw [Real.sqrt_le_left (hD.nonneg i hi' j hj), hsq i hi' j hj]
      exact mul_le_mul_of_nonneg_left (by linarith) hw.le
    · refine Real.le_sqrt_of_sq_le ?_
      rw [hsq i hi' j hj]
      exact mul_le_mul_of_nonneg_left (by linarith) hw.le
  · intro i hi'
    obtain ⟨h1, h2⟩ := hlh (grp i)
    rw [Real.sq_sqrt (mul_nonneg hw.le (by linarith)), Real.sq_sqrt (mul_nonneg hw.le (by linarith)), Real.sq_sqrt (mul_nonneg hw.le (by linarith))]
    have := mul_le_mul_of_nonneg_left (hc i hi') hw.le
    linarith
  · intro i hi' j hj hne
    rw [Real.sqrt_lt (mul_nonneg hw.le (by linarith)) (hD.nonneg i hi' j hj), hsq i hi' j hj]
    exact mul_lt_mul_of_pos_left (by linarith [hout i hi' j hj hne]) hw

/-- The correlation distances. -/
theorem measures_formula (dm : Dist.Method) {n : Nat} {ρ : Nat → Nat → ℝ} (hs : ∀ i < n, ∀ j < n, ρ i j = ρ j i) (hd : ∀ i < n, ρ i i = 1)
    (hb : ∀ i < n, ∀ j < n, |ρ i j| ≤ 1) {D : Nat → Nat → ℝ} (hD : ∀ i < n, ∀ j < n, D i j = Dist.formula dm (ρ i j)) :
    Measures n D fun i j => similarity dm (ρ i j) where
  symm i hi j hj := by rw [hD i hi j hj, hD j hj i hi, hs i hi j hj]
  diag i hi := by rw [hD i hi i hi, hd i hi]; cases dm <;> simp [Dist.formula]
  nonneg i hi j hj := by rw [hD i hi j hj]; exact formula_nonneg dm _
  sq := ⟨_, scaleOf_pos dm, fun i hi j hj => by
    rw [hD i hi j hj]
    exact formula_sq dm (abs_le.mp (hb i hi j hj)).1 (abs_le.mp (hb i hi j hj)).2⟩

/-- C118. Groups of series whose similarity (the correlation, its absolute value or its square, as the distance says) is at
least `r` inside a group and smaller than `r` between groups are found by single, complete, average and weighted linkage. -/
theorem correlation_found (dm : Dist.Method) {m : Method} (hm : m = .single ∨ m = .complete ∨ m = .average ∨ m = .weighted) {n : Nat} (hn : 2 ≤ n)
    {ρ : Nat → Nat → ℝ} (hs : ∀ i < n, ∀ j < n, ρ i j = ρ j i) (hd : ∀ i < n, ρ i i = 1) (hb : ∀ i < n, ∀ j < n, |ρ i j| ≤ 1)
    {Z : List Row} (h : IsLinkage m n (fun i j => Dist.formula dm (ρ i j)) Z) {grp : Nat → Nat} {r : ℝ} (hr : r ≤ 1)
    (hin : ∀ i < n, ∀ j < n, i ≠ j → grp i = grp j → r ≤ similarity dm (ρ i j))
    (hout : ∀ i < n, ∀ j < n, grp i ≠ grp j → similarity dm (ρ i j) < r) : Recovers n grp (cutLabels Z (numGroups n grp)) :=
  similar_found hm hn (measures_formula dm hs hd hb fun _ _ _ _ => rfl) h hr hin hout

/-- C118. Ward's method, the default: with a similarity between `lo g` and `hi g` inside the group `g` of `s` series, groups are
found if the similarities between groups are smaller than `r` and `r ≤ hi g - s / 2 (hi g - lo g)` for every group. -/
theorem correlation_found_ward (dm : Dist.Method) {n : Nat} (hn : 2 ≤ n)
    {ρ : Nat → Nat → ℝ} (hs : ∀ i < n, ∀ j < n, ρ i j = ρ j i) (hd : ∀ i < n, ρ i i = 1) (hb : ∀ i < n, ∀ j < n, |ρ i j| ≤ 1)
    {Z : List Row} (h : IsLinkage .ward n (fun i j => Dist.formula dm (ρ i j)) Z) {grp : Nat → Nat} {lo hi : Nat → ℝ} {r : ℝ} (hr : r ≤ 1)
    (hlh : ∀ g, lo g ≤ hi g ∧ hi g ≤ 1)
    (hin : ∀ i < n, ∀ j < n, i ≠ j → grp i = grp j → lo (grp i) ≤ similarity dm (ρ i j) ∧ similarity dm (ρ i j) ≤ hi (grp i))
    (hc : ∀ i < n, r ≤ hi (grp i) - groupSize n grp (grp i) / 2 * (hi (grp i) - lo (grp i)))
    (hout : ∀ i < n, ∀ j < n, grp i ≠ grp j → similarity dm (ρ i j) < r) : Recovers n grp (cutLabels Z (numGroups n grp)) :=
  similar_found_ward hn (measures_formula dm hs hd hb fun _ _ _ _ => rfl) h hr hlh hin hc hout

/-- C118. One similarity inside each group, as in a factor model of equal loadings, and smaller ones between the groups: all of
single, complete, average, weighted and Ward linkage find the groups. -/
theorem equal_correlation_found (dm : Dist.Method) {m : Method} (hm : m ≠ .centroid ∧ m ≠ .median) {n : Nat} (hn : 2 ≤ n)
    {ρ : Nat → Nat → ℝ} (hs : ∀ i < n, ∀ j < n, ρ i j = ρ j i) (hd : ∀ i < n, ρ i i = 1) (hb : ∀ i < n, ∀ j < n, |ρ i j| ≤ 1)
    {Z : List Row} (h : IsLinkage m n (fun i j => Dist.formula dm (ρ i j)) Z) {grp : Nat → Nat} {c : Nat → ℝ} {r : ℝ} (hc1 : ∀ g, c g ≤ 1)
    (hr : r ≤ 1) (hc : ∀ g, r ≤ c g) (hin : ∀ i < n, ∀ j < n, i ≠ j → grp i = grp j → similarity dm (ρ i j) = c (grp i))
    (hout : ∀ i < n, ∀ j < n, grp i ≠ grp j → similarity dm (ρ i j) < r) : Recovers n grp (cutLabels Z (numGroups n grp)) := by
  by_cases hward : m = .ward
  · subst hward
    exact correlation_found_ward dm hn hs hd hb h (lo := c) (hi := c) hr (fun g => ⟨le_rfl, hc1 g⟩)
      (fun i hi j hj hne e => ⟨(hin i hi j hj hne e).ge, (hin i hi j hj hne e).le⟩) (fun i _ => by simpa using hc (grp i)) hout
  · refine correlation_found dm ?_ hn hs hd hb h hr (fun i hi j hj hne e => (hc _).trans (hin i hi j hj hne e).ge) hout
    cases m <;> simp_all

/-- A case of Ward's method with unequal correlations: two groups of two and one series, with a correlation of 1/2 inside. -/
example : ∃ (ρ : Nat → Nat → ℝ) (Z : List Row), IsLinkage .ward 3 (fun i j => Dist.formula .angular (ρ i j)) Z ∧
    (∀ i < 3, ∀ j < 3, ρ i j = ρ j i) ∧ (∀ i < 3, ρ i i = 1) ∧ Recovers 3 (fun i => i / 2) (cutLabels Z (numGroups 3 fun i => i / 2)) := by
  refine ⟨triRho, triRhoZ, triRho_linkage, triRho_case.1, triRho_case.2.1, ?_⟩
  refine correlation_found_ward .angular (by norm_num) triRho_case.1 triRho_case.2.1 triRho_case.2.2.1 triRho_linkage (lo := fun _ => 1 / 2) (hi := fun _ => 1 / 2)
    (r := 1 / 2) (by norm_num) (fun _ => by norm_num) ?_ (fun i _ => by norm_num) ?_
  · intro i hi j hj
    interval_cases i <;> interval_cases j <;> norm_num [triRho, similarity]
  · intro i hi j hj
    interval_cases i <;> interval_cases j <;> norm_num [triRho, similarity]

/-! ### The class -/

/-- A new object of the class for a symmetric correlation matrix: its linkage is one of the chosen method for the chosen
distance, and `get_clusters(k)` cuts it. -/
theorem hc_of_correlation (pdCorr : Dist.Table → String → Dist.Table) (X : Option Dist.CorrArg) (rng : Int → Nat → ℝ)
    {scipy : Dist.Table → String → Bool → Py (List Row)} (hs : LinkageSpec scipy) {m : Dist.Table} {n : Nat} (hn : 2 ≤ n)
    (hr : m.rows = n) (hcl : m.cols = n) {ρ : Nat → Nat → ℝ} (hm : ∀ i < n, ∀ j < n, m.at_ i j = .fin (ρ i j))
    (hsy : ∀ i < n, ∀ j < n, ρ i j = ρ j i) (hd : ∀ i < n, ρ i i = 1) (hb : ∀ i < n, ∀ j < n, |ρ i j| ≤ 1) {codep name : String} {meth : Dist.Method}
    (hco : codep = "pearson-correlation" ∨ codep = "spearman-correlation") (hname : Dist.parseMethod name = some meth)
    {link : String} {lm : Method} (hlink : Method.ofName link = some lm) (ord : Bool) :
    ∃ (o : HC (List Row)) (Z : List Row), HC.init pdCorr X (some (.array m)) none codep name link ord = .ok o ∧
      (∀ k : Int, (o.step rng scipy cutLabels (.clusters k)).1 = .ok (.labels (cutLabels Z k))) ∧
      IsLinkage lm n (fun i j => Dist.formula meth (ρ i j)) Z := by
  have hv : Dist.ValidMatrix m := by
    refine ⟨hr.trans hcl.symm, fun i j hi hj => ?_, fun i hi => ?_⟩
    · rw [hm i (hr ▸ hi) j (hr ▸ hj), hm j (hr ▸ hj) i (hr ▸ hi), hsy i (hr ▸ hi) j (hr ▸ hj)]
      show |_ - _| ≤ _
      rw [sub_self, abs_zero]
      positivity
    · rw [hm i (hr ▸ hi) i (hr ▸ hi), hd i (hr ▸ hi)]
  obtain ⟨d, hd1, hd2, hd3, -, -⟩ := Dist.array_dist (meth := meth) (m := m) (r := _) (by unfold Dist.corrToDistance; dsimp only; rw [if_pos hv])
  have hentry : ∀ i < n, ∀ j < n, d i j = some (Dist.formula meth (ρ i j)) := fun i hi j hj => by
    have hbb := abs_le.mp (hb i hi j hj)
    rw [hd3 i j (hr ▸ hi) (hr ▸ hj), hm i hi j hj, Dist.dist_fin, Dist.clampR_of_mem hbb.1 hbb.2]
  have hinit : (HC.init pdCorr X (some (.array m)) none codep name link ord : Py (HC (List Row))) =
      .ok ⟨.table ⟨m.rows, m.rows, fun i j => ofOpt (d i j)⟩, link, ord, none⟩ := by
    have h1 : Dist.corrToDist (.array m) name = .ok (.array m.rows m.rows d) := by
      unfold Dist.corrToDist
      rw [hname]
      have : Dist.validate2D (.array m) = .ok () := by
        unfold Dist.validate2D
        dsimp only
        rw [if_neg (by omega)]
      rw [this]
      show Dist.corrToDistance meth (.array m) = _
      unfold Dist.corrToDistance
      dsimp only
      rw [if_pos hv, hd1]
    unfold HC.init computeDist
    dsimp only
    rw [if_pos hco, h1]
    rfl
  have hdist : IsDist ⟨m.rows, m.rows, fun i j => ofOpt (d i j)⟩ n fun i j => Dist.formula meth (ρ i j) := by
    refine ⟨hr, hr, fun i j hi hj => ?_, fun i j hi hj => ?_, fun i hi => ?_⟩
    · show ofOpt (d i j) = _
      rw [hentry i hi j hj]
      rfl
    · rw [hsy i hi j hj]
    · rw [hd i hi]
      cases meth <;> simp [Dist.formula]
  obtain ⟨Z, hZ, hl⟩ := hc_linkage hs hn hdist (method := link) hlink ord
  refine ⟨_, Z, hinit, fun k => ?_, hZ⟩
  unfold HC.step
  dsimp only
  rw [hl]
  rfl

/-! ### Block-diagonal correlation matrices -/

theorem blockOf_lt {sizes : List Nat} {a k : Nat} (h : Cov.blockOf sizes a = some k) : k < sizes.length := by
  induction sizes generalizing a k with
  | nil => simp [Cov.blockOf] at h
  | cons s ss ih =>
    rw [Cov.blockOf] at h
    split at h
    · cases h; simp
    · cases h1 : Cov.blockOf ss (a - s) with
      | none => rw [h1] at h; simp at h
      | some j =>
        rw [h1] at h
        simp at h
        have := ih h1
        simp
        omega

theorem blockOf_onto {sizes : List Nat} (hpos : ∀ s ∈ sizes, 0 < s) {k : Nat} (h : k < sizes.length) : ∃ a < sizes.sum, Cov.blockOf sizes a = some k := by
  induction sizes generalizing k with
  | nil => simp at h
  | cons s ss ih =>
    have hs := hpos s (by simp)
    cases k with
    | zero => exact ⟨0, by rw [List.sum_cons]; omega, by rw [Cov.blockOf, if_pos hs]⟩
    | succ k =>
      obtain ⟨a, ha, e⟩ := ih (fun t ht => hpos t (List.mem_cons_of_mem _ ht)) (k := k) (by simpa using h)
      refine ⟨s + a, by rw [List.sum_cons]; omega, ?_⟩
      rw [Cov.blockOf, if_neg (by omega), show s + a - s = a by omega, e]
      rfl

/-- The number of the block of a series. -/
def blockNo (sizes : List Nat) (a : Nat) : Nat := (Cov.blockOf sizes a).getD 0

theorem blockNo_groups {sizes : List Nat} (hpos : ∀ s ∈ sizes, 0 < s) : numGroups sizes.sum (blockNo sizes) = sizes.length := by
  unfold numGroups
  have : (range sizes.sum).image (blockNo sizes) = range sizes.length := by
    ext k
    simp only [mem_image, mem_range]
    constructor
    · rintro ⟨a, ha, rfl⟩
      obtain ⟨j, hj⟩ := (Cov.blockOf_total sizes a).mp ha
      rw [blockNo, hj]
      exact blockOf_lt hj
    · intro hk
      obtain ⟨a, ha, e⟩ := blockOf_onto hpos hk
      exact ⟨a, ha, by rw [blockNo, e]; rfl⟩
  rw [this, card_range]

/-- C118. A matrix of `_cor_block_diagonal` with blocks of at least one series, whose correlations are positive (not zero for
the absolute and the squared angular distance) and at most one in absolute value: `HC` with any of the linkages single, complete,
average, weighted and Ward and `get_clusters(number of blocks)` give two series the same label exactly if they are in the
same block. -/
theorem blocks_found (pdCorr : Dist.Table → String → Dist.Table) (X : Option Dist.CorrArg) (rng : Int → Nat → ℝ)
    {scipy : Dist.Table → String → Bool → Py (List Row)} (hs : LinkageSpec scipy) {sizes : List Nat} {cors : List ℝ} {N : Nat} {ρ : Nat → Nat → ℝ}
    (hblock : Cov.corBlockDiagonal sizes cors = .ok (N, ρ)) (hpos : ∀ s ∈ sizes, 0 < s) (hN : 2 ≤ N) {codep name : String} {meth : Dist.Method}
    (hcors : ∀ c ∈ cors, 0 < similarity meth c ∧ |c| ≤ 1)
    (hco : codep = "pearson-correlation" ∨ codep = "spearman-correlation") (hname : Dist.parseMethod name = some meth)
    {link : String} (hlink : link ∈ ["single", "complete", "average", "weighted", "ward"]) (ord : Bool) :
    ∃ (o : HC (List Row)) (l : List Nat), HC.init pdCorr X (some (.array ⟨N, N, fun i j => .fin (ρ i j)⟩)) none codep name link ord = .ok o ∧
      (o.step rng scipy cutLabels (.clusters sizes.length)).1 = .ok (.labels l) ∧
      ∀ p < N, ∀ q < N, lab l p = lab l q ↔ Cov.blockOf sizes p = Cov.blockOf sizes q := by
  obtain ⟨lm, hlm, hmono⟩ : ∃ lm, Method.ofName link = some lm ∧ (lm ≠ .centroid ∧ lm ≠ .median) := by
    simp only [List.mem_cons, List.not_mem_nil, or_false] at hlink
    rcases hlink with rfl | rfl | rfl | rfl | rfl
    · exact ⟨.single, rfl, by simp, by simp⟩
    · exact ⟨.complete, rfl, by simp, by simp⟩
    · exact ⟨.average, rfl, by simp, by simp⟩
    · exact ⟨.weighted, rfl, by simp, by simp⟩
    · exact ⟨.ward, rfl, by simp, by simp⟩
  have hlen : sizes.length = cors.length := by
    by_contra hne
    unfold Cov.corBlockDiagonal at hblock
    rw [if_pos hne] at hblock
    cases hblock
  obtain ⟨hsum, he⟩ := Cov.block_entries hblock
  have hblk : ∀ a < N, ∃ k, Cov.blockOf sizes a = some k ∧ k < cors.length := fun a ha => by
    obtain ⟨k, hk⟩ := (Cov.blockOf_total sizes a).mp (hsum ▸ ha)
    exact ⟨k, hk, hlen ▸ blockOf_lt hk⟩
  have hiff : ∀ p < N, ∀ q < N, blockNo sizes p = blockNo sizes q ↔ Cov.blockOf sizes p = Cov.blockOf sizes q := fun p hp q hq => by
    obtain ⟨k, hk, -⟩ := hblk p hp
    obtain ⟨k', hk', -⟩ := hblk q hq
    rw [blockNo, blockNo, hk, hk']
    simp
  have hinside : ∀ i < N, ∀ j < N, i ≠ j → blockNo sizes i = blockNo sizes j → ∃ hk : blockNo sizes i < cors.length, ρ i j = cors[blockNo sizes i] := by
    intro i hi j hj hne e
    obtain ⟨k, hk, hkl⟩ := hblk i hi
    have hk' := ((hiff i hi j hj).mp e).symm.trans hk
    have h3 := (he i j hi hj).2.2.1 hne k hk hk'
    have hb : blockNo sizes i = k := by rw [blockNo, hk]; rfl
    refine ⟨hb ▸ hkl, ?_⟩
    subst hb
    rw [List.getElem?_eq_getElem hkl] at h3
    exact Option.some.inj h3
  have hsim0 : ∀ x : ℝ, x = 0 → similarity meth x = 0 := by rintro x rfl; cases meth <;> simp [similarity]
  have hsim1 : ∀ x : ℝ, |x| ≤ 1 → similarity meth x ≤ 1 := fun x hx => by
    cases meth
    · exact (abs_le.mp hx).2
    · exact hx
    · exact (sq_le_one_iff_abs_le_one x).mpr hx
  have hsy : ∀ i < N, ∀ j < N, ρ i j = ρ j i := fun i hi j hj => (he i j hi hj).2.1
  have hd : ∀ i < N, ρ i i = 1 := fun i hi => (he i i hi hi).1
  have hb : ∀ i < N, ∀ j < N, |ρ i j| ≤ 1 := fun i hi j hj => by
    by_cases hij : i = j
    · rw [← hij, hd i hi]; simp
    by_cases hbb : blockNo sizes i = blockNo sizes j
    · obtain ⟨hk, e⟩ := hinside i hi j hj hij hbb
      rw [e]
      exact (hcors _ (List.getElem_mem hk)).2
    · rw [(he i j hi hj).2.2.2 fun hcon => hbb ((hiff i hi j hj).mpr hcon)]; simp
  obtain ⟨o, Z, h1, h2, h3⟩ := hc_of_correlation pdCorr X rng hs (m := ⟨N, N, fun i j => .fin (ρ i j)⟩) hN rfl rfl (fun i _ j _ => rfl) hsy hd hb hco hname hlm ord
  refine ⟨o, cutLabels Z sizes.length, h1, h2 _, fun p hp q hq => ?_⟩
  rw [← hiff p hp q hq]
  -- the smallest of the similarities
  obtain ⟨r, hr0, hr1, hr⟩ : ∃ r : ℝ, 0 < r ∧ r ≤ 1 ∧ ∀ c ∈ cors, r ≤ similarity meth c := by
    clear hlen he hblk hinside hblock
    induction cors with
    | nil => exact ⟨1, one_pos, le_rfl, by simp⟩
    | cons c cs ih =>
      obtain ⟨r, hr0, hr1, hr⟩ := ih fun x hx => hcors x (List.mem_cons_of_mem _ hx)
      refine ⟨min r (similarity meth c), lt_min hr0 (hcors c (by simp)).1, (min_le_left _ _).trans hr1, fun x hx => ?_⟩
      rcases List.mem_cons.mp hx with rfl | hx
      · exact min_le_right _ _
      · exact (min_le_left _ _).trans (hr x hx)
  have key := equal_correlation_found meth hmono hN hsy hd hb h3 (grp := blockNo sizes) (c := fun g => if hg : g < cors.length then similarity meth cors[g] else 1)
    (r := r) ?_ hr1 ?_ ?_ ?_
  · have hgr := blockNo_groups hpos
    rw [← hsum] at hgr
    rw [hgr] at key
    exact key p hp q hq
  · intro g
    split
    · exact hsim1 _ (hcors _ (List.getElem_mem _)).2
    · exact le_rfl
  · intro g
    split
    · exact hr _ (List.getElem_mem _)
    · exact hr1
  · intro i hi j hj hne e
    obtain ⟨hk, e⟩ := hinside i hi j hj hne e
    rw [e, dif_pos hk]
  · intro i hi j hj hne
    rw [hsim0 _ ((he i j hi hj).2.2.2 fun hcon => hne ((hiff i hi j hj).mpr hcon))]
    exact hr0

/-- A case: blocks of two and three series with correlations 1/2 and 1/4, Ward's method and the angular distance. -/
example (rng : Int → Nat → ℝ) : ∃ scipy N ρ o l, LinkageSpec scipy ∧ Cov.corBlockDiagonal [2, 3] [1 / 2, 1 / 4] = .ok (N, ρ) ∧
    HC.init (fun m _ => m) none (some (.array ⟨N, N, fun i j => .fin (ρ i j)⟩)) none "pearson-correlation" "angular" "ward" true = .ok o ∧
    (o.step rng scipy cutLabels (.clusters 2)).1 = .ok (.labels l) ∧ lab l 0 = lab l 1 ∧ lab l 1 ≠ lab l 2 ∧ lab l 2 = lab l 4 := by
  obtain ⟨scipy, hs⟩ := linkageSpec_exists
  have hb : Cov.corBlockDiagonal [2, 3] [1 / 2, 1 / 4] = .ok (5, fun a b => if a = b then 1 else
      Cov.blockLoop (fun _ _ => 0) 0 ([2, 3].zip [1 / 2, 1 / 4]) a b) := by simp [Cov.corBlockDiagonal]
  obtain ⟨o, l, h1, h2, h3⟩ := blocks_found (fun m _ => m) none rng hs hb (by simp) (by norm_num) (codep := "pearson-correlation") (name := "angular")
    (meth := .angular) (by intro c hc; simp at hc; rcases hc with rfl | rfl <;> norm_num [similarity, abs_le]) (.inl rfl) (by decide) (link := "ward") (by simp) true
  refine ⟨scipy, _, _, o, l, hs, hb, h1, h2, ?_, ?_, ?_⟩
  · rw [h3 0 (by norm_num) 1 (by norm_num)]; decide
  · rw [Ne, h3 1 (by norm_num) 2 (by norm_num)]; decide
  · rw [h3 2 (by norm_num) 4 (by norm_num)]; decide

end Verif.Clust
