import Verif.Spec.PopCorr
import Verif.Lemmas.BlockLLN
import Verif.Lemmas.SimFit
import Verif.Props.ClustBlocks
import Verif.Props.HcData
import Mathlib.Probability.HasLawExists

/-!
# C119: groups of correlated series are found from long samples
-/

namespace Verif.Clust

open Verif Ser Verif.Dist Verif.Props.ClustSelect Verif.Props.ClustGap Verif.Props.ClustHC Classical Finset MeasureTheory ProbabilityTheory Filter Topology

/-! ### The correlations of a table of numbers -/

/-- The first `s` rows of `d` series. -/
def sampleTable (s d : Nat) (x : Nat → Nat → ℝ) : Dist.Table := ⟨s, d, fun t j => .fin (x t j)⟩

/-- The sample correlation of two series. -/
noncomputable def sampleCorr (s : Nat) (f g : Nat → ℝ) : ℝ := Sim.scov s 1 f g / (√(Sim.scov s 1 f f) * √(Sim.scov s 1 g g))

theorem coSum_scov {s : Nat} (hs : 2 ≤ s) (f g : Nat → ℝ) : Dist.coSum ((List.range s).map f) ((List.range s).map g) = (s - 1) * Sim.scov s 1 f g := by
  have h0 : ∀ f : Nat → ℝ, ((List.range s).map f).sum = ∑ i ∈ range s, f i := fun f => rfl
  have h1 : ∀ f : Nat → ℝ, Dist.mean ((List.range s).map f) = Sim.mean s f := fun f => by
    unfold Dist.mean Sim.mean
    rw [List.length_map, List.length_range, h0]
  have s1 : (s : ℝ) - 1 ≠ 0 := by
    have : (2 : ℝ) ≤ s := by exact_mod_cast hs
    linarith
  unfold Dist.coSum Sim.scov
  rw [h1, h1, List.zipWith_map, List.zipWith_self, h0, mul_div_cancel₀ _ s1]

theorem sampleCorr_abs {s : Nat} (hs : 2 ≤ s) (f g : Nat → ℝ) : |sampleCorr s f g| ≤ 1 := by
  have h1 := Sim.scov_self_nonneg hs f
  have h2 := Sim.scov_self_nonneg hs g
  have h3 := Sim.scov_sq_le hs f g
  unfold sampleCorr
  rw [← Real.sqrt_mul h1, abs_div, abs_of_nonneg (Real.sqrt_nonneg _)]
  exact div_le_one_of_le₀ (Real.abs_le_sqrt h3) (Real.sqrt_nonneg _)

/-- What is correlated of a series of `s` values: the values, or their ranks. -/
noncomputable def seen (cod : String) (s : Nat) (f : Nat → ℝ) (t : Nat) : ℝ :=
  if cod = "pearson-correlation" then f t else Dist.rank ((List.range s).map f) (f t)

/-- The two kinds of correlation. -/
def IsCorr (cod : String) : Prop := cod = "pearson-correlation" ∨ cod = "spearman-correlation"

theorem sample_seen {cod : String} (hc : IsCorr cod) (s : Nat) (f : Nat → ℝ) :
    sample (corrName cod) ((List.range s).map f) = (List.range s).map (seen cod s f) := by
  rcases hc with rfl | rfl
  · unfold sample corrName
    simp [seen]
  · unfold sample corrName ranks
    simp [seen]

/-- The distance of two series of numbers. -/
theorem pair_sample {cod : String} (hcod : IsCorr cod) {s : Nat} (h2 : 2 ≤ s) {f g : Nat → ℝ} (hf : 0 < Sim.scov s 1 (seen cod s f) (seen cod s f))
    (hg : 0 < Sim.scov s 1 (seen cod s g) (seen cod s g)) {dm : Dist.Method} :
    pairDistance dm (sample (corrName cod) ((List.range s).map f)) (sample (corrName cod) ((List.range s).map g)) =
      .ok (some (Dist.formula dm (sampleCorr s (seen cod s f) (seen cod s g)))) := by
  have s1 : (0 : ℝ) < s - 1 := by
    have : (2 : ℝ) ≤ s := by exact_mod_cast h2
    linarith
  have n1 : Dist.coSum ((List.range s).map (seen cod s f)) ((List.range s).map (seen cod s f)) ≠ 0 := by
    rw [coSum_scov h2]
    exact (mul_pos s1 hf).ne'
  have n2 : Dist.coSum ((List.range s).map (seen cod s g)) ((List.range s).map (seen cod s g)) ≠ 0 := by
    rw [coSum_scov h2]
    exact (mul_pos s1 hg).ne'
  obtain ⟨b1, b2⟩ := abs_le.mp (sampleCorr_abs h2 (seen cod s f) (seen cod s g))
  have hc : Dist.corrcoef ((List.range s).map (seen cod s f)) ((List.range s).map (seen cod s g)) = .ok (.fin (sampleCorr s (seen cod s f) (seen cod s g))) := by
    unfold Dist.corrcoef
    rw [if_neg (by simp), if_neg (not_or.mpr ⟨n1, n2⟩)]
    have : Dist.coSum ((List.range s).map (seen cod s f)) ((List.range s).map (seen cod s g)) /
        (√(Dist.coSum ((List.range s).map (seen cod s f)) ((List.range s).map (seen cod s f))) *
          √(Dist.coSum ((List.range s).map (seen cod s g)) ((List.range s).map (seen cod s g)))) = sampleCorr s (seen cod s f) (seen cod s g) := by
      unfold sampleCorr
      rw [coSum_scov h2, coSum_scov h2, coSum_scov h2, Real.sqrt_mul s1.le, Real.sqrt_mul s1.le, mul_mul_mul_comm, Real.mul_self_sqrt s1.le,
        mul_div_mul_left _ _ s1.ne']
    rw [this, max_eq_left b1, min_eq_left b2]
  rw [sample_seen hcod, sample_seen hcod]
  unfold pairDistance
  rw [hc]
  show Except.ok (distOf dm (.fin (sampleCorr s (seen cod s f) (seen cod s g)))) = _
  rw [dist_fin, clampR_of_mem b1 b2]

/-- A new object for a table of numbers without constant columns: its linkage is that of the sample correlations. -/
theorem hc_of_sample (rng : Int → Nat → ℝ) {scipy : Dist.Table → String → Bool → Py (List Row)} (hs : LinkageSpec scipy)
    {cod : String} (hcod : IsCorr cod)
    {s d : Nat} (hd : 2 ≤ d) (h2 : 2 ≤ s) {x : Nat → Nat → ℝ}
    (hv : ∀ j < d, 0 < Sim.scov s 1 (seen cod s fun t => x t j) (seen cod s fun t => x t j))
    {X : CorrArg} (hX : X = .frame (sampleTable s d x) ∨ X = .array (sampleTable s d x)) {toDist : String} {dm : Dist.Method}
    (hm : Dist.parseMethod toDist = some dm) {link : String} {lm : Method} (hlink : Method.ofName link = some lm) (ord : Bool) :
    ∃ (o : HC (List Row)) (Z : List Row) (D : Nat → Nat → ℝ), HC.init (pdCorr 1) (some X) none none cod toDist link ord = .ok o ∧
      (∀ k : Int, (o.step rng scipy cutLabels (.clusters k)).1 = .ok (.labels (cutLabels Z k))) ∧ IsLinkage lm d D Z ∧
      Measures d D fun i j => similarity dm (sampleCorr s (seen cod s fun t => x t i) (seen cod s fun t => x t j)) := by
  set m := sampleTable s d x with hmd
  have hcol : ∀ j < d, HasCol m j ((List.range s).map fun t => x t j) := fun j hj => by
    unfold HasCol
    rw [hmd]
    simp [sampleTable, Table.col]
  have pe : ∀ i j, i < d → j < d → (pairs (m.col i) (m.col j)).map (·.1) = (List.range s).map (fun t => x t i) ∧
      (pairs (m.col i) (m.col j)).map (·.2) = (List.range s).map fun t => x t j := by
    intro i j hi hj
    rw [hcol i hi, hcol j hj, pairs_fin]
    exact ⟨List.map_fst_zip (by simp), List.map_snd_zip (by simp)⟩
  have s1 : (0 : ℝ) < s - 1 := by
    have : (2 : ℝ) ≤ s := by exact_mod_cast h2
    linarith
  have hpos : ∀ j < d, 0 < Dist.coSum ((List.range s).map (seen cod s fun t => x t j)) ((List.range s).map (seen cod s fun t => x t j)) := fun j hj => by
    rw [coSum_scov h2]
    exact mul_pos s1 (hv j hj)
  have hcon : ∀ j < d, ¬ Dist.Constant ((List.range s).map fun t => x t j) := fun j hj h => by
    rw [← constant_sample (corrName cod), sample_seen hcod] at h
    exact (hpos j hj).ne' ((coSum_self_eq_zero_iff _).mpr h)
  have hcmp : Comparable m := fun i j hi hj => by
    rw [(pe i j hi hj).1, (pe i j hi hj).2]
    exact ⟨hcon i hi, hcon j hj⟩
  obtain ⟨t, D, ho, hD⟩ : ∃ t D, HC.init (Z := List Row) (pdCorr 1) (some X) none none cod toDist link ord = .ok ⟨.table t, link, ord, none⟩ ∧
      DataDist m cod dm t D := by
    rcases hX with rfl | rfl
    · obtain ⟨t, h1, h2, -⟩ := hc_frame rng scipy cutLabels (m := m) hd link ord hcod hm
      obtain ⟨d, hd⟩ := h2 hcmp
      exact ⟨t, d, h1, hd⟩
    · exact (hc_array (m := m) hd link ord hcod hm).1 hcmp
  obtain ⟨Z, hZ, hl⟩ := hc_linkage hs (n := d) hd hD.isDist hlink ord
  have hent : ∀ i < d, ∀ j < d, D i j = Dist.formula dm (sampleCorr s (seen cod s fun t => x t i) (seen cod s fun t => x t j)) := fun i hi j hj => by
    have h3 := hD.pair i hi j hj
    rw [(pe i j hi hj).1, (pe i j hi hj).2, pair_sample hcod h2 (hv i hi) (hv j hj)] at h3
    exact (Option.some.inj (Except.ok.inj h3)).symm
  refine ⟨_, Z, D, ho, fun k => ?_, hZ, measures_formula dm ?_ ?_ ?_ hent⟩
  · unfold HC.step
    dsimp only
    rw [hl]
    rfl
  · intro i hi j hj
    unfold sampleCorr
    rw [Sim.scov_comm, mul_comm (√_)]
  · intro i hi
    unfold sampleCorr
    rw [Real.mul_self_sqrt (hv i hi).le, div_self (hv i hi).ne']
  · exact fun i _ j _ => sampleCorr_abs h2 _ _

/-! ### Long samples -/

variable {Ω : Type*} [MeasurableSpace Ω] {P : Measure Ω}

/-- Observations of `d` series: the rows are independent and have one law, with finite and positive variances. -/
structure Observations (P : Measure Ω) (d : Nat) (X : Nat → Ω → Fin d → ℝ) : Prop where
  iid : Stat.IID P X
  sq : ∀ j, MemLp (fun ω => X 0 ω j) 2 P
  var : ∀ j, Var[fun ω => X 0 ω j; P] ≠ 0

/-- The entry of a row, at a position below `d`. -/
def entry {d : Nat} (x : Fin d → ℝ) (j : Nat) : ℝ := if h : j < d then x ⟨j, h⟩ else 0

/-- The sample correlations tend to the correlations. -/
theorem corr_limit {d : Nat} {X : Nat → Ω → Fin d → ℝ} (h : Observations P d X) : ∀ᵐ ω ∂P, ∀ i j : Fin d,
    Tendsto (fun s => Sim.scov s 1 (fun t => X t ω i) fun t => X t ω i) atTop (𝓝 Var[fun ω => X 0 ω i; P]) ∧
    Tendsto (fun s => sampleCorr s (fun t => X t ω i) fun t => X t ω j) atTop (𝓝 (Stat.popCorr P (fun ω => X 0 ω i) fun ω => X 0 ω j)) := by
  have hP := h.iid.indep.isProbabilityMeasure
  have key : ∀ i j : Fin d, ∀ᵐ ω ∂P, Tendsto (fun s => Sim.scov s 1 (fun t => X t ω i) fun t => X t ω j) atTop
      (𝓝 cov[fun ω => X 0 ω i, fun ω => X 0 ω j; P]) := fun i j => by
    have := h.iid.scov (k := 1) one_pos (f := fun x => x 0 i) (g := fun x => x 0 j) (by fun_prop) (by fun_prop) (h.sq i) (h.sq j)
    simpa using this
  have key' : ∀ᵐ ω ∂P, ∀ i j : Fin d, Tendsto (fun s => Sim.scov s 1 (fun t => X t ω i) fun t => X t ω j) atTop
      (𝓝 cov[fun ω => X 0 ω i, fun ω => X 0 ω j; P]) := ae_all_iff.mpr fun i => ae_all_iff.mpr (key i)
  filter_upwards [key'] with ω hω i j
  have cs : ∀ i, cov[fun ω => X 0 ω i, fun ω => X 0 ω i; P] = Var[fun ω => X 0 ω i; P] := fun i => covariance_self (h.sq i).aestronglyMeasurable.aemeasurable
  have vp : ∀ i, 0 < √Var[fun ω => X 0 ω i; P] := fun i => Real.sqrt_pos.mpr ((variance_nonneg _ _).lt_of_ne' (h.var i))
  refine ⟨cs i ▸ hω i i, ?_⟩
  have h1 := (Real.continuous_sqrt.tendsto _).comp (hω i i)
  have h2 := (Real.continuous_sqrt.tendsto _).comp (hω j j)
  rw [cs] at h1 h2
  exact (hω i j).div (h1.mul h2) (mul_pos (vp i) (vp j)).ne'

theorem similarity_continuous (dm : Dist.Method) : Continuous (similarity dm) := by
  cases dm
  · exact continuous_id
  · exact continuous_abs
  · exact continuous_pow 2

/-- With probability one the correlations of long samples are close to `ρ`, and no series is constant. -/
def Estimated (P : Measure Ω) {d : Nat} (X : Nat → Ω → Fin d → ℝ) (cod : String) (ρ : Fin d → Fin d → ℝ) : Prop := ∀ᵐ ω ∂P, ∀ i j : Fin d,
  (∀ᶠ s in atTop, 0 < Sim.scov s 1 (seen cod s fun t => X t ω i) (seen cod s fun t => X t ω i)) ∧
  Tendsto (fun s => sampleCorr s (seen cod s fun t => X t ω i) (seen cod s fun t => X t ω j)) atTop (𝓝 (ρ i j))

theorem pearson_estimated {d : Nat} {X : Nat → Ω → Fin d → ℝ} (h : Observations P d X) :
    Estimated P X "pearson-correlation" fun i j => Stat.popCorr P (fun ω => X 0 ω i) fun ω => X 0 ω j := by
  filter_upwards [corr_limit h] with ω hω i j
  have e : ∀ (s : Nat) (f : Nat → ℝ), seen "pearson-correlation" s f = f := fun s f => by
    funext t
    unfold seen
    rw [if_pos rfl]
  simp only [e]
  exact ⟨(hω i j).1.eventually (lt_mem_nhds ((variance_nonneg _ _).lt_of_ne' (h.var i))), (hω i j).2⟩

/-- `HC` on the first `s` rows, as a frame or an array, and `get_clusters` of the number of groups give the groups. -/
def FoundAt (rng : Int → Nat → ℝ) (scipy : Dist.Table → String → Bool → Py (List Row)) (d : Nat) (cod toDist link : String) (grp : Nat → Nat)
    (x : Nat → Fin d → ℝ) (s : Nat) : Prop :=
  ∀ (ord : Bool) (A : CorrArg), A = .frame (sampleTable s d fun t => entry (x t)) ∨ A = .array (sampleTable s d fun t => entry (x t)) →
    ∃ (o : HC (List Row)) (l : List Nat), HC.init (pdCorr 1) (some A) none none cod toDist link ord = .ok o ∧
      (o.step rng scipy cutLabels (.clusters (numGroups d grp))).1 = .ok (.labels l) ∧ Recovers d grp l

/-- What is common to the methods: sample similarities close to those of the population. -/
theorem found_of (rng : Int → Nat → ℝ) {scipy : Dist.Table → String → Bool → Py (List Row)} (hs : LinkageSpec scipy) {d : Nat} (hd : 2 ≤ d)
    {X : Nat → Ω → Fin d → ℝ} {cod : String} (hcod : IsCorr cod) {ρ : Fin d → Fin d → ℝ} (h : Estimated P X cod ρ) {toDist link : String} {dm : Dist.Method}
    (hm : Dist.parseMethod toDist = some dm) {lm : Method} (hlink : Method.ofName link = some lm) {grp : Nat → Nat} {ε : ℝ} (hε : 0 < ε)
    (hrec : ∀ (D σ : Nat → Nat → ℝ) (Z : List Row), Measures d D σ → IsLinkage lm d D Z → (∀ i j : Fin d, |σ i j - similarity dm (ρ i j)| < ε) →
      (∀ i < d, ∀ j < d, σ i j ≤ 1) → Recovers d grp (cutLabels Z (numGroups d grp))) :
    ∀ᵐ ω ∂P, ∀ᶠ s in atTop, FoundAt rng scipy d cod toDist link grp (fun t => X t ω) s := by
  filter_upwards [h] with ω hω
  have e1 : ∀ᶠ s in atTop, ∀ i j : Fin d,
      |similarity dm (sampleCorr s (seen cod s fun t => X t ω i) (seen cod s fun t => X t ω j)) - similarity dm (ρ i j)| < ε := by
    rw [eventually_all]
    intro i
    rw [eventually_all]
    intro j
    have := ((similarity_continuous dm).tendsto _).comp (hω i j).2
    exact (Metric.tendsto_nhds.mp this) ε hε
  have e2 : ∀ᶠ s in atTop, ∀ i : Fin d, 0 < Sim.scov s 1 (seen cod s fun t => X t ω i) (seen cod s fun t => X t ω i) := by
    rw [eventually_all]
    intro i
    exact (hω i i).1
  filter_upwards [e1, e2, eventually_ge_atTop 2] with s h1 h2 h3
  intro ord A hA
  have ent : ∀ i : Fin d, (fun t => entry (X t ω) i) = fun t => X t ω i := fun i => by
    funext t
    unfold entry
    rw [dif_pos i.2]
  obtain ⟨o, Z, D, g1, g2, g3, g4⟩ := hc_of_sample rng hs hcod hd h3 (x := fun t => entry (X t ω)) (fun j hj => by
    rw [ent ⟨j, hj⟩]
    exact h2 ⟨j, hj⟩) hA hm hlink ord
  refine ⟨o, _, g1, g2 _, hrec D _ Z g4 g3 (fun i j => ?_) fun i hi j hj => ?_⟩
  · rw [ent i, ent j]
    exact h1 i j
  · have := sampleCorr_abs h3 (seen cod s fun t => entry (X t ω) i) (seen cod s fun t => entry (X t ω) j)
    cases dm
    · exact (abs_le.mp this).2
    · exact this
    · exact (sq_le_one_iff_abs_le_one _).mpr this

/-- Series whose estimated similarities are greater than `r` inside groups and smaller between them: with probability one, `HC` with single, complete, average or weighted linkage finds the groups in all sufficiently long samples. -/
theorem estimated_found (rng : Int → Nat → ℝ) {scipy : Dist.Table → String → Bool → Py (List Row)} (hs : LinkageSpec scipy) {d : Nat} (hd : 2 ≤ d)
    {X : Nat → Ω → Fin d → ℝ} {cod : String} (hcod : IsCorr cod) {ρ : Fin d → Fin d → ℝ} (h : Estimated P X cod ρ) {toDist link : String} {dm : Dist.Method} (hm : Dist.parseMethod toDist = some dm)
    (hlink : link ∈ ["single", "complete", "average", "weighted"]) {grp : Nat → Nat} {r : ℝ} (hr : r ≤ 1)
    (hin : ∀ i j : Fin d, i ≠ j → grp i = grp j → r < similarity dm (ρ i j)) (hout : ∀ i j : Fin d, grp i ≠ grp j → similarity dm (ρ i j) < r) :
    ∀ᵐ ω ∂P, ∀ᶠ s in atTop, FoundAt rng scipy d cod toDist link grp (fun t => X t ω) s := by
  obtain ⟨lm, hlm, hlm'⟩ : ∃ lm, Method.ofName link = some lm ∧ (lm = .single ∨ lm = .complete ∨ lm = .average ∨ lm = .weighted) := by
    simp only [List.mem_cons, List.not_mem_nil, or_false] at hlink
    rcases hlink with rfl | rfl | rfl | rfl
    · exact ⟨.single, rfl, by simp⟩
    · exact ⟨.complete, rfl, by simp⟩
    · exact ⟨.average, rfl, by simp⟩
    · exact ⟨.weighted, rfl, by simp⟩
  have hne : ∀ i j : Fin d, grp i = grp j ∧ i ≠ j ∨ grp i ≠ grp j → similarity dm (ρ i j) - r ≠ 0 := by
    rintro i j (⟨e, hij⟩ | e)
    · exact (sub_pos.mpr (hin i j hij e)).ne'
    · exact (sub_neg.mpr (hout i j e)).ne
  -- the smallest distance from `r`
  obtain ⟨ε, hε, hmin⟩ : ∃ ε : ℝ, 0 < ε ∧ ∀ i j : Fin d, (grp i = grp j ∧ i ≠ j ∨ grp i ≠ grp j) → ε ≤ |similarity dm (ρ i j) - r| := by
    have hnn : (univ : Finset (Fin d × Fin d)).Nonempty := ⟨(⟨0, by omega⟩, ⟨0, by omega⟩), mem_univ _⟩
    obtain ⟨p, -, hp⟩ := exists_min_image univ (fun p : Fin d × Fin d =>
      if grp p.1 = grp p.2 ∧ p.1 ≠ p.2 ∨ grp p.1 ≠ grp p.2 then |similarity dm (ρ p.1 p.2) - r| else 1) hnn
    refine ⟨if grp p.1 = grp p.2 ∧ p.1 ≠ p.2 ∨ grp p.1 ≠ grp p.2 then |similarity dm (ρ p.1 p.2) - r| else 1, ?_, fun i j hij => ?_⟩
    · split_ifs with hc
      · exact abs_pos.mpr (hne _ _ hc)
      · exact one_pos
    · have := hp (i, j) (mem_univ _)
      rwa [if_pos hij] at this
  refine found_of rng hs hd hcod h hm hlm hε fun D σ Z hD hZ hclose _ => similar_found hlm' hd hD hZ hr (fun i hi j hj hij e => ?_) fun i hi j hj e => ?_
  · have h1 := abs_lt.mp (hclose ⟨i, hi⟩ ⟨j, hj⟩)
    have hij' : (⟨i, hi⟩ : Fin d) ≠ ⟨j, hj⟩ := fun hc => hij (Fin.mk.inj hc)
    have h2 := hmin ⟨i, hi⟩ ⟨j, hj⟩ (.inl ⟨e, hij'⟩)
    rw [abs_of_pos (sub_pos.mpr (hin _ _ hij' e))] at h2
    linarith [h1.1]
  · have h1 := abs_lt.mp (hclose ⟨i, hi⟩ ⟨j, hj⟩)
    have h2 := hmin ⟨i, hi⟩ ⟨j, hj⟩ (.inr e)
    rw [abs_of_neg (sub_neg.mpr (hout ⟨i, hi⟩ ⟨j, hj⟩ e))] at h2
    linarith [h1.2]

/-- The same for Ward's method, the default, under the condition with the sizes of the groups. -/
theorem estimated_found_ward (rng : Int → Nat → ℝ) {scipy : Dist.Table → String → Bool → Py (List Row)} (hs : LinkageSpec scipy) {d : Nat} (hd : 2 ≤ d)
    {X : Nat → Ω → Fin d → ℝ} {cod : String} (hcod : IsCorr cod) {ρ : Fin d → Fin d → ℝ} (h : Estimated P X cod ρ) {toDist : String} {dm : Dist.Method} (hm : Dist.parseMethod toDist = some dm)
    {grp : Nat → Nat} {r : ℝ} (hr : r ≤ 1) {lo hi : Nat → ℝ} (hlh : ∀ g, lo g ≤ hi g ∧ hi g ≤ 1)
    (hin : ∀ i j : Fin d, i ≠ j → grp i = grp j → lo (grp i) ≤ similarity dm (ρ i j) ∧ similarity dm (ρ i j) ≤ hi (grp i))
    (hc : ∀ i < d, r < hi (grp i) - groupSize d grp (grp i) / 2 * (hi (grp i) - lo (grp i)))
    (hout : ∀ i j : Fin d, grp i ≠ grp j → similarity dm (ρ i j) < r) :
    ∀ᵐ ω ∂P, ∀ᶠ s in atTop, FoundAt rng scipy d cod toDist "ward" grp (fun t => X t ω) s := by
  have hd0 : (0 : ℝ) < d := by positivity
  obtain ⟨ε, hε, hε1, hε2⟩ : ∃ ε : ℝ, 0 < ε ∧ (∀ i < d, r + d * ε ≤ hi (grp i) - groupSize d grp (grp i) / 2 * (hi (grp i) - lo (grp i))) ∧
      ∀ i j : Fin d, grp i ≠ grp j → similarity dm (ρ i j) + ε ≤ r := by
    have hnn : (univ : Finset (Fin d × Fin d)).Nonempty := ⟨(⟨0, by omega⟩, ⟨0, by omega⟩), mem_univ _⟩
    set gap : Fin d × Fin d → ℝ := fun p => min ((hi (grp p.1) - groupSize d grp (grp p.1) / 2 * (hi (grp p.1) - lo (grp p.1)) - r) / d)
      (if grp p.1 ≠ grp p.2 then r - similarity dm (ρ p.1 p.2) else 1) with hgap
    obtain ⟨p, -, hp⟩ := exists_min_image univ gap hnn
    refine ⟨gap p, ?_, fun i hi' => ?_, fun i j hij => ?_⟩
    · refine lt_min (div_pos (by linarith [hc p.1 p.1.2]) hd0) ?_
      split_ifs with hcase
      · linarith [hout _ _ hcase]
      · exact one_pos
    · have h1 := (hp (⟨i, hi'⟩, ⟨i, hi'⟩) (mem_univ _)).trans (min_le_left _ _)
      rw [le_div_iff₀ hd0] at h1
      dsimp only at h1
      linarith
    · have h1 := (hp (i, j) (mem_univ _)).trans (min_le_right _ _)
      rw [if_pos hij] at h1
      linarith
  refine found_of rng hs hd hcod h hm (link := "ward") (lm := .ward) rfl hε fun D σ Z hD hZ hclose hle => ?_
  refine similar_found_ward hd hD hZ hr (lo := fun g => lo g - ε) (hi := fun g => min (hi g + ε) 1) (fun g => ⟨?_, min_le_right _ _⟩) ?_ ?_ ?_
  · obtain ⟨h1, h2⟩ := hlh g
    exact le_min (by linarith) (by linarith)
  · intro i hi' j hj hij e
    have hij' : (⟨i, hi'⟩ : Fin d) ≠ ⟨j, hj⟩ := fun hc => hij (Fin.mk.inj hc)
    obtain ⟨h1, h2⟩ := hin ⟨i, hi'⟩ ⟨j, hj⟩ hij' e
    have h3 := abs_lt.mp (hclose ⟨i, hi'⟩ ⟨j, hj⟩)
    dsimp only at h1 h2 h3
    exact ⟨by linarith [h3.1], le_min (by linarith [h3.2]) (hle i hi' j hj)⟩
  · intro i hi'
    obtain ⟨h1, h2⟩ := hlh (grp i)
    have h3 := hε1 i hi'
    have g1 : (groupSize d grp (grp i) : ℝ) ≤ d := by
      have : groupSize d grp (grp i) ≤ (range d).card := card_le_card (filter_subset _ _)
      rw [card_range] at this
      exact_mod_cast this
    have g0 : (0 : ℝ) ≤ groupSize d grp (grp i) := by positivity
    have a1 : hi (grp i) ≤ min (hi (grp i) + ε) 1 := le_min (by linarith) h2
    have a2 : min (hi (grp i) + ε) 1 ≤ hi (grp i) + ε := min_le_left _ _
    generalize min (hi (grp i) + ε) 1 = u at a1 a2
    have b1 : groupSize d grp (grp i) * ε ≤ d * ε := mul_le_mul_of_nonneg_right g1 hε.le
    have b2 : (groupSize d grp (grp i) : ℝ) * (u - hi (grp i)) ≤ groupSize d grp (grp i) * ε := mul_le_mul_of_nonneg_left (by linarith) g0
    linarith
  · intro i hi' j hj e
    have h1 := abs_lt.mp (hclose ⟨i, hi'⟩ ⟨j, hj⟩)
    have h2 := hε2 ⟨i, hi'⟩ ⟨j, hj⟩ e
    linarith [h1.2]

/-- The similarity of two series of the population. -/
noncomputable def popSim (P : Measure Ω) {d : Nat} (X : Nat → Ω → Fin d → ℝ) (dm : Dist.Method) (i j : Fin d) : ℝ :=
  similarity dm (Stat.popCorr P (fun ω => X 0 ω i) fun ω => X 0 ω j)

/-- C119. Observations whose similarities in the population are greater than `r` inside groups and smaller between them: with
probability one, `HC` with single, complete, average or weighted linkage finds the groups in all sufficiently long samples. -/
theorem sample_found (rng : Int → Nat → ℝ) {scipy : Dist.Table → String → Bool → Py (List Row)} (hs : LinkageSpec scipy) {d : Nat} (hd : 2 ≤ d)
    {X : Nat → Ω → Fin d → ℝ} (h : Observations P d X) {toDist link : String} {dm : Dist.Method} (hm : Dist.parseMethod toDist = some dm)
    (hlink : link ∈ ["single", "complete", "average", "weighted"]) {grp : Nat → Nat} {r : ℝ} (hr : r ≤ 1)
    (hin : ∀ i j : Fin d, i ≠ j → grp i = grp j → r < popSim P X dm i j) (hout : ∀ i j : Fin d, grp i ≠ grp j → popSim P X dm i j < r) :
    ∀ᵐ ω ∂P, ∀ᶠ s in atTop, FoundAt rng scipy d "pearson-correlation" toDist link grp (fun t => X t ω) s :=
  estimated_found rng hs hd (.inl rfl) (pearson_estimated h) hm hlink hr hin hout

/-- C119. The same for Ward's method, the default, under the condition with the sizes of the groups. -/
theorem sample_found_ward (rng : Int → Nat → ℝ) {scipy : Dist.Table → String → Bool → Py (List Row)} (hs : LinkageSpec scipy) {d : Nat} (hd : 2 ≤ d)
    {X : Nat → Ω → Fin d → ℝ} (h : Observations P d X) {toDist : String} {dm : Dist.Method} (hm : Dist.parseMethod toDist = some dm)
    {grp : Nat → Nat} {r : ℝ} (hr : r ≤ 1) {lo hi : Nat → ℝ} (hlh : ∀ g, lo g ≤ hi g ∧ hi g ≤ 1)
    (hin : ∀ i j : Fin d, i ≠ j → grp i = grp j → lo (grp i) ≤ popSim P X dm i j ∧ popSim P X dm i j ≤ hi (grp i))
    (hc : ∀ i < d, r < hi (grp i) - groupSize d grp (grp i) / 2 * (hi (grp i) - lo (grp i)))
    (hout : ∀ i j : Fin d, grp i ≠ grp j → popSim P X dm i j < r) :
    ∀ᵐ ω ∂P, ∀ᶠ s in atTop, FoundAt rng scipy d "pearson-correlation" toDist "ward" grp (fun t => X t ω) s :=
  estimated_found_ward rng hs hd (.inl rfl) (pearson_estimated h) hm hr hlh hin hc hout

/-! ### A case: two series that share a source and the third source of their differences -/

/-- With independent standard normal `A` and `B`: the series `A + B / 4`, `A - B / 4` and `B`. -/
noncomputable def trioRow (x : ℝ × ℝ) : Fin 3 → ℝ := ![x.1 + 1 / 4 * x.2, x.1 - 1 / 4 * x.2, x.2]

theorem trio_observations : ∃ (Ω : Type) (_ : MeasurableSpace Ω) (P : Measure Ω) (X : Nat → Ω → Fin 3 → ℝ), Observations P 3 X ∧
    popSim P X .angular 0 1 = 15 / 17 ∧ popSim P X .angular 1 0 = 15 / 17 ∧ ∀ i : Fin 3, i ≠ 2 → popSim P X .angular i 2 < 1 / 2 ∧ popSim P X .angular 2 i < 1 / 2 := by
  obtain ⟨Ω, mΩ, P, Z, h0, h1, h2, h3⟩ := exists_iid Nat ((gaussianReal 0 1).prod (gaussianReal 0 1))
  have hx : Stat.IID P Z := ⟨h2, fun t => ⟨(h0 t).aemeasurable, (h0 0).aemeasurable, (h1 t).map_eq.trans (h1 0).map_eq.symm⟩⟩
  have hP := h2.isProbabilityMeasure
  have l1 : HasLaw (fun ω => (Z 0 ω).1) (gaussianReal 0 1) P := (measurePreserving_fst.hasLaw).fun_comp (h1 0)
  have l2 : HasLaw (fun ω => (Z 0 ω).2) (gaussianReal 0 1) P := (measurePreserving_snd.hasLaw).fun_comp (h1 0)
  have g2 : MemLp id 2 (gaussianReal 0 1) := memLp_id_gaussianReal 2
  have m1 : MemLp (fun ω => (Z 0 ω).1) 2 P := by
    have := l1.map_eq ▸ g2
    exact this.comp_of_map l1.aemeasurable
  have m2 : MemLp (fun ω => (Z 0 ω).2) 2 P := by
    have := l2.map_eq ▸ g2
    exact this.comp_of_map l2.aemeasurable
  have v1 : Var[fun ω => (Z 0 ω).1; P] = 1 := by rw [l1.variance_eq]; simp
  have v2 : Var[fun ω => (Z 0 ω).2; P] = 1 := by rw [l2.variance_eq]; simp
  have c12 : cov[fun ω => (Z 0 ω).1, fun ω => (Z 0 ω).2; P] = 0 := by
    rw [(h1 0).covariance_fun_comp (f := Prod.fst) (g := Prod.snd) measurable_fst.aemeasurable measurable_snd.aemeasurable]
    exact covariance_fst_snd_prod g2 g2
  set A : Ω → ℝ := fun ω => (Z 0 ω).1 with hA
  set B : Ω → ℝ := fun ω => (Z 0 ω).2 with hB
  have lin : ∀ a b c d : ℝ, cov[fun ω => a * A ω + b * B ω, fun ω => c * A ω + d * B ω; P] = a * c + b * d := by
    intro a b c d
    have e1 := covariance_add_left (μ := P) (m1.const_mul a) (m2.const_mul b) ((m1.const_mul c).add (m2.const_mul d))
    have e2 := covariance_add_right (μ := P) (m1.const_mul a) (m1.const_mul c) (m2.const_mul d)
    have e3 := covariance_add_right (μ := P) (m2.const_mul b) (m1.const_mul c) (m2.const_mul d)
    refine (e1.trans (congrArg₂ (· + ·) e2 e3)).trans ?_
    simp only [covariance_const_mul_left, covariance_const_mul_right]
    rw [covariance_self m1.aestronglyMeasurable.aemeasurable, covariance_self m2.aestronglyMeasurable.aemeasurable, covariance_comm B A, c12, v1, v2]
    ring
  have row : ∀ j : Fin 3, (fun ω => trioRow (Z 0 ω) j) = fun ω => (![1, 1, 0] j : ℝ) * A ω + (![1 / 4, -1 / 4, 1] j : ℝ) * B ω := by
    intro j
    funext ω
    fin_cases j <;> simp [trioRow, hA, hB] <;> ring
  have mem : ∀ j : Fin 3, MemLp (fun ω => trioRow (Z 0 ω) j) 2 P := fun j => by
    rw [row j]
    exact (m1.const_mul _).add (m2.const_mul _)
  have var : ∀ j : Fin 3, Var[fun ω => trioRow (Z 0 ω) j; P] = ![17 / 16, 17 / 16, 1] j := fun j => by
    rw [← covariance_self (mem j).aestronglyMeasurable.aemeasurable, row j, lin]
    fin_cases j <;> norm_num
  have cov : ∀ i j : Fin 3, cov[fun ω => trioRow (Z 0 ω) i, fun ω => trioRow (Z 0 ω) j; P] =
      ![1, 1, 0] i * ![1, 1, 0] j + ![1 / 4, -1 / 4, 1] i * ![1 / 4, -1 / 4, 1] j := fun i j => by
    rw [row i, row j, lin]
  have meas : Measurable trioRow := by
    refine measurable_pi_lambda _ fun j => ?_
    fin_cases j <;> simp [trioRow] <;> fun_prop
  have s17 : 1 < √(17 / 16 : ℝ) := Real.lt_sqrt_of_sq_lt (by norm_num)
  have small : (1 / 4 : ℝ) / √(17 / 16) < 1 / 2 := by
    rw [div_lt_iff₀ (by linarith)]
    linarith
  have neg : (-1 / 4 : ℝ) / √(17 / 16) < 1 / 2 := by
    rw [div_lt_iff₀ (by linarith)]
    linarith
  refine ⟨Ω, mΩ, P, fun t ω => trioRow (Z t ω), ⟨hx.comp meas, mem, fun j => ?_⟩, ?_, ?_, ?_⟩
  · rw [var j]
    fin_cases j <;> norm_num
  · unfold popSim similarity Stat.popCorr
    rw [cov, var, var]
    show (1 * 1 + 1 / 4 * (-1 / 4) : ℝ) / (√(17 / 16) * √(17 / 16)) = 15 / 17
    rw [Real.mul_self_sqrt (by norm_num)]
    norm_num
  · unfold popSim similarity Stat.popCorr
    rw [cov, var, var]
    show (1 * 1 + -1 / 4 * (1 / 4) : ℝ) / (√(17 / 16) * √(17 / 16)) = 15 / 17
    rw [Real.mul_self_sqrt (by norm_num)]
    norm_num
  · intro i hi
    unfold popSim similarity Stat.popCorr
    dsimp only
    rw [cov, cov, var, var]
    fin_cases i
    · constructor <;> simpa using small
    · constructor <;> simpa using neg
    · exact absurd rfl hi

/-- Ward's method finds the two series in long samples. -/
example (rng : Int → Nat → ℝ) : ∃ (Ω : Type) (_ : MeasurableSpace Ω) (P : Measure Ω) (X : Nat → Ω → Fin 3 → ℝ) (scipy : _), IsProbabilityMeasure P ∧ LinkageSpec scipy ∧
    ∀ᵐ ω ∂P, ∀ᶠ s in atTop, FoundAt rng scipy 3 "pearson-correlation" "angular" "ward" (fun i => i / 2) (fun t => X t ω) s := by
  obtain ⟨Ω, mΩ, P, X, h, h1, h2, h3⟩ := trio_observations
  obtain ⟨scipy, hs⟩ := linkageSpec_exists
  refine ⟨Ω, mΩ, P, X, scipy, h.iid.indep.isProbabilityMeasure, hs, sample_found_ward rng hs (by norm_num) h (dm := .angular) (by decide) (r := 1 / 2) (by norm_num)
    (lo := fun _ => 15 / 17) (hi := fun _ => 15 / 17) (fun _ => by norm_num) ?_ (fun i _ => by norm_num) ?_⟩
  · intro i j hij e
    fin_cases i <;> fin_cases j <;> simp at hij e ⊢
    · exact ⟨h1.ge, h1.le⟩
    · exact ⟨h2.ge, h2.le⟩
  · intro i j e
    have a := h3 0 (by decide)
    have b := h3 1 (by decide)
    fin_cases i <;> fin_cases j <;> simp at e <;> simp only [Fin.zero_eta, Fin.mk_one, Fin.reduceFinMk]
    · exact a.1
    · exact b.1
    · exact a.2
    · exact b.2

end Verif.Clust
