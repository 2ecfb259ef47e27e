import Verif.Props.ClustGap

/-!
# The number of clusters

C61: `optimize_n_clusters` with the gap statistic returns the smallest `k` in `[2, max_clust - 1]` whose gap exceeds the
next one minus its deviation, and raises IndexError if there is none; with the silhouette it returns the first maximiser
in `[2, max_clust]`, where a NaN beats every number. Neither can return 1; the gap rule cannot return `max_clust` nor more
than `n - 2`; the silhouette needs `max_clust < n`.
-/

namespace Verif.Props.ClustSelect

open Verif Ser Clust Classical Finset MicroEdge ClustGap

variable {α σ : Type} [DecidableEq α]

/-! ### The loop -/

theorem scoreLoop_ok {f : Int → Py σ} {ks : List Int} {vs : List σ} :
    scoreLoop f ks = .ok vs ↔ List.Forall₂ (fun k v => f k = .ok v) ks vs := by
  induction ks generalizing vs with
  | nil =>
    constructor
    · intro h
      cases h
      exact .nil
    · intro h
      cases h
      rfl
  | cons k ks ih =>
    constructor
    · intro h
      obtain ⟨v, h1, h2⟩ := Ser.bind_ok h
      obtain ⟨vs', h3, h4⟩ := Ser.bind_ok h2
      cases h4
      exact .cons h1 (ih.mp h3)
    · intro h
      cases h with
      | cons h1 h2 =>
        unfold scoreLoop
        rw [h1, ih.mpr h2]
        rfl

theorem scoreLoop_error {f : Int → Py σ} {ks : List Int} {e : PyErr} :
    scoreLoop f ks = .error e ↔ ∃ pre k post, ks = pre ++ k :: post ∧ (∀ k' ∈ pre, ∃ v, f k' = .ok v) ∧ f k = .error e := by
  induction ks with
  | nil =>
    constructor
    · intro h
      cases h
    · rintro ⟨pre, k, post, h, _⟩
      simp at h
  | cons k ks ih =>
    unfold scoreLoop
    cases hk : f k with
    | error e' =>
      constructor
      · intro h
        cases h
        exact ⟨[], k, ks, rfl, by simp, hk⟩
      · rintro ⟨pre, k', post, h1, h2, h3⟩
        cases pre with
        | nil =>
          cases h1
          rw [hk] at h3
          cases h3
          rfl
        | cons p pre =>
          cases h1
          obtain ⟨v, hv⟩ := h2 k List.mem_cons_self
          rw [hk] at hv
          cases hv
    | ok v =>
      have : ((do let v ← (.ok v : Py σ); let vs ← scoreLoop f ks; .ok (v :: vs)) = .error e) ↔ scoreLoop f ks = .error e := by
        cases scoreLoop f ks with
        | error e' => exact Iff.rfl
        | ok vs => exact ⟨(fun h => by cases h), (fun h => by cases h)⟩
      rw [this, ih]
      constructor
      · rintro ⟨pre, k', post, rfl, h2, h3⟩
        refine ⟨k :: pre, k', post, rfl, ?_, h3⟩
        intro k' hk'
        rcases List.mem_cons.mp hk' with rfl | h
        · exact ⟨v, hk⟩
        · exact h2 _ h
      · rintro ⟨pre, k', post, h1, h2, h3⟩
        cases pre with
        | nil =>
          cases h1
          rw [hk] at h3
          cases h3
        | cons p pre =>
          cases h1
          exact ⟨pre, k', post, rfl, fun k hk => h2 k (by simp [hk]), h3⟩

theorem mem_clustRange {M k : Int} : k ∈ clustRange M ↔ 2 ≤ k ∧ k ≤ M := by
  unfold clustRange
  rw [List.mem_map]
  constructor
  · rintro ⟨i, hi, rfl⟩
    have := List.mem_range.mp hi
    omega
  · rintro ⟨h1, h2⟩
    exact ⟨(k - 2).toNat, List.mem_range.mpr (by omega), by omega⟩

theorem clustRange_length (M : Int) : (clustRange M).length = (M - 1).toNat := by simp [clustRange]

/-- The scores of the loop are the scores of `k = 2, 3, …`. -/
theorem scores {f : Int → Py σ} {M : Int} : (∃ vs, scoreLoop f (clustRange M) = .ok vs) ↔ ∀ k, 2 ≤ k → k ≤ M → ∃ v, f k = .ok v := by
  constructor
  · rintro ⟨vs, h⟩ k h1 h2
    have h := scoreLoop_ok.mp h
    obtain ⟨i, hi, he⟩ := List.mem_iff_getElem.mp (mem_clustRange.mpr ⟨h1, h2⟩)
    refine ⟨vs[i]'(h.length_eq ▸ hi), ?_⟩
    have := List.Forall₂.get h hi (h.length_eq ▸ hi)
    simp only [List.get_eq_getElem] at this
    rwa [he] at this
  · intro h
    have : ∀ ks : List Int, (∀ k ∈ ks, ∃ v, f k = .ok v) → ∃ vs, scoreLoop f ks = .ok vs := by
      intro ks
      induction ks with
      | nil => exact fun _ => ⟨[], rfl⟩
      | cons k ks ih =>
        intro h
        obtain ⟨v, hv⟩ := h k (by simp)
        obtain ⟨vs, hvs⟩ := ih fun k hk => h k (by simp [hk])
        exact ⟨v :: vs, scoreLoop_ok.mpr (.cons hv (scoreLoop_ok.mp hvs))⟩
    exact this _ fun k hk => h k (mem_clustRange.mp hk).1 (mem_clustRange.mp hk).2

theorem scores_get {f : Int → Py σ} {M : Int} {vs : List σ} (h : scoreLoop f (clustRange M) = .ok vs) :
    vs.length = (M - 1).toNat ∧ ∀ i v, vs[i]? = some v ↔ i < (M - 1).toNat ∧ f ((i : Int) + 2) = .ok v := by
  have h := scoreLoop_ok.mp h
  have hl : vs.length = (M - 1).toNat := by rw [← h.length_eq, clustRange_length]
  have key : ∀ i (hi : i < vs.length), f ((i : Int) + 2) = .ok vs[i] := by
    intro i hi
    have := List.Forall₂.get h (h.length_eq ▸ hi) hi
    simpa [clustRange] using this
  refine ⟨hl, fun i v => ⟨fun hv => ?_, fun ⟨hi, hv⟩ => ?_⟩⟩
  · obtain ⟨hi, rfl⟩ := List.getElem?_eq_some_iff.mp hv
    exact ⟨hl ▸ hi, key i hi⟩
  · have hi : i < vs.length := hl ▸ hi
    rw [List.getElem?_eq_some_iff]
    refine ⟨hi, ?_⟩
    have := key i hi
    rw [hv] at this
    cases this
    rfl

/-! ### The gap rule -/

/-- `k` satisfies the gap rule for the scores `f`: the gap of `k` exceeds the gap of `k + 1` minus its deviation. -/
def Drops (f : Int → Py (XF × XF)) (k : Int) : Prop :=
  ∃ g s g' s', f k = .ok (g, s) ∧ f (k + 1) = .ok (g', s') ∧ XF.lt (.fin 0) (g - g' + s')

/-- For finite scores this is the usual comparison. -/
theorem drops_fin {f : Int → Py (XF × XF)} {k : Int} {g s g' s' : ℝ} (h : f k = .ok (.fin g, .fin s))
    (h' : f (k + 1) = .ok (.fin g', .fin s')) : Drops f k ↔ g' - s' < g := by
  constructor
  · rintro ⟨a, b, a', b', h1, h2, h3⟩
    rw [h] at h1
    rw [h'] at h2
    cases h1
    cases h2
    have h3 : (0 : ℝ) < g - g' + s' := h3
    linarith
  · intro hlt
    refine ⟨_, _, _, _, h, h', ?_⟩
    show (0 : ℝ) < g - g' + s'
    linarith

theorem gapDrops_iff {f : Int → Py (XF × XF)} {M : Int} {vs : List (XF × XF)} (h : scoreLoop f (clustRange M) = .ok vs)
    {i : Nat} (hi : i < vs.length - 1) : gapDrops (vs.map Prod.fst) (vs.map Prod.snd) i ↔ Drops f ((i : Int) + 2) := by
  obtain ⟨hl, hv⟩ := scores_get h
  have h1 : vs[i]? = some vs[i] := List.getElem?_eq_getElem (by omega)
  have h2 : vs[i + 1]? = some vs[i + 1] := List.getElem?_eq_getElem (by omega)
  have e1 := ((hv _ _).mp h1).2
  have e2 := ((hv _ _).mp h2).2
  have e3 : (i : Int) + 2 + 1 = ((i + 1 : Nat) : Int) + 2 := by push_cast; ring
  unfold gapDrops
  rw [List.getElem?_map, List.getElem?_map, List.getElem?_map, h1, h2]
  simp only [Option.map_some, Option.getD_some]
  constructor
  · intro h
    exact ⟨_, _, _, _, e1, e3 ▸ e2, h⟩
  · rintro ⟨g, s, g', s', f1, f2, h⟩
    rw [e1] at f1
    rw [e3, e2] at f2
    injection f1 with f1
    injection f2 with f2
    rw [f1, f2]
    exact h

theorem firstDrop_ok {g s : Ser} {i : Nat} : firstDrop g s = .ok i ↔
    i < g.length - 1 ∧ gapDrops g s i ∧ ∀ j < i, ¬ gapDrops g s j := by
  unfold firstDrop
  cases h : (List.range (g.length - 1)).find? fun i => decide (gapDrops g s i) with
  | none =>
    rw [List.find?_eq_none] at h
    constructor
    · intro h
      cases h
    · rintro ⟨h1, h2, _⟩
      exact absurd (decide_eq_true h2) (h i (List.mem_range.mpr h1))
  | some k =>
    rw [List.find?_range_eq_some] at h
    obtain ⟨h1, h2, h3⟩ := h
    have h1 := of_decide_eq_true h1
    have h2 := List.mem_range.mp h2
    have h3 : ∀ j < k, ¬ gapDrops g s j := fun j hj => by simpa using h3 j hj
    constructor
    · intro h
      cases h
      exact ⟨h2, h1, h3⟩
    · rintro ⟨_, g1, g2⟩
      have : k = i := by
        rcases lt_trichotomy k i with h | h | h
        · exact absurd h1 (g2 k h)
        · exact h
        · exact absurd g1 (h3 i h)
      rw [this]

theorem firstDrop_error {g s : Ser} {e : PyErr} (h : firstDrop g s = .error e) : e = .indexError := by
  unfold firstDrop at h
  cases hf : (List.range (g.length - 1)).find? fun i => decide (gapDrops g s i) with
  | none => rw [hf] at h; cases h; rfl
  | some k => rw [hf] at h; cases h

/-- The score of `k` clusters. -/
noncomputable def gapAt (rng : Int → Nat → ℝ) (cut : Int → List α) (dist : DistArg) (nb : Int) (k : Int) : Py (XF × XF) :=
  gapStatistic rng dist (.vec (cut k)) nb none

/-- With the gap statistic the result is the smallest `k` in `[2, max_clust - 1]` that satisfies the gap rule. -/
theorem gap_result_iff (rng : Int → Nat → ℝ) (cut : Int → List α) (dist : DistArg) (M nb r : Int) :
    optimizeNClusters rng cut dist M "gap" nb = .ok r ↔
      (∀ k, 2 ≤ k → k ≤ M → ∃ v, gapAt rng cut dist nb k = .ok v) ∧ 2 ≤ r ∧ r < M ∧
        Drops (gapAt rng cut dist nb) r ∧ ∀ k, 2 ≤ k → k < r → ¬ Drops (gapAt rng cut dist nb) k := by
  have e : optimizeNClusters rng cut dist M "gap" nb = (scoreLoop (gapAt rng cut dist nb) (clustRange M)).bind fun v =>
      (firstDrop (v.map Prod.fst) (v.map Prod.snd)).bind fun i => .ok ((i : Int) + 2) := by
    unfold optimizeNClusters
    rw [if_pos rfl]
    rfl
  rw [e, ← scores]
  constructor
  · intro h
    obtain ⟨vs, h1, h2⟩ := Ser.bind_ok h
    obtain ⟨i, h3, h4⟩ := Ser.bind_ok h2
    cases h4
    obtain ⟨hl, _⟩ := scores_get h1
    obtain ⟨g1, g2, g3⟩ := firstDrop_ok.mp h3
    rw [List.length_map] at g1
    refine ⟨⟨vs, h1⟩, by omega, by omega, (gapDrops_iff h1 g1).mp g2, fun k hk hlt => ?_⟩
    have hk' : k = ((k - 2).toNat : Int) + 2 := by omega
    rw [hk', ← gapDrops_iff h1 (by omega)]
    exact g3 _ (by omega)
  · rintro ⟨⟨vs, h1⟩, h2, h3, h4, h5⟩
    obtain ⟨hl, _⟩ := scores_get h1
    have hr : r = ((r - 2).toNat : Int) + 2 := by omega
    rw [h1]
    have : firstDrop (vs.map Prod.fst) (vs.map Prod.snd) = .ok (r - 2).toNat := by
      refine firstDrop_ok.mpr ⟨by rw [List.length_map]; omega, ?_, fun j hj => ?_⟩
      · rw [gapDrops_iff h1 (by omega), ← hr]
        exact h4
      · rw [gapDrops_iff h1 (by omega)]
        exact h5 _ (by omega) (by omega)
    show (firstDrop (vs.map Prod.fst) (vs.map Prod.snd)).bind _ = _
    rw [this]
    show Except.ok (((r - 2).toNat : Int) + 2) = _
    rw [← hr]

theorem bootLoop_error {rng : Int → Nat → ℝ} {m : Dist.Table} {l : List α} {s : Int} {bs : List Nat} {acc : XF × Ser}
    {e : PyErr} (h : bootLoop rng m l s bs acc = .error e) : e = .valueError ∨ e = .overflowError := by
  induction bs generalizing acc with
  | nil => cases h
  | cons b bs ih =>
    obtain ⟨a, logs⟩ := acc
    unfold bootLoop at h
    by_cases hs : 0 ≤ s + (b : Int) ∧ s + (b : Int) < 2 ^ 32
    · rw [seeded, if_pos hs] at h
      cases hm : tableMax m with
      | fin q => rw [hm] at h; exact ih h
      | nan => rw [hm] at h; cases h; exact .inr rfl
      | pinf => rw [hm] at h; cases h; exact .inr rfl
      | ninf => rw [hm] at h; cases h; exact .inr rfl
    · rw [seeded, if_neg hs] at h
      cases h
      exact .inl rfl

/-- The statistic itself never raises IndexError. -/
theorem gap_ne_index (rng : Int → Nat → ℝ) (dist : DistArg) (l : List α) (nb : Int) (rs : Option Int) :
    gapStatistic rng dist (.vec l) nb rs ≠ .error .indexError := by
  intro h
  unfold gapStatistic at h
  cases hc : checkInputs dist (.vec l) with
  | error e =>
    rw [hc] at h
    cases h
    cases dist with
    | none_ => unfold checkInputs validateLabels at hc; dsimp only at hc; split at hc <;> cases hc
    | other => unfold checkInputs validateLabels at hc; dsimp only at hc; split at hc <;> cases hc
    | table m => rw [checkInputs_table] at hc; split_ifs at hc <;> cases hc
  | ok v =>
    obtain ⟨m, l'⟩ := v
    rw [hc] at h
    have h : (if m.cols ≠ l'.length then _ else _) = _ := h
    by_cases hcols : m.cols ≠ l'.length
    · rw [if_pos hcols] at h
      cases h
    · rw [if_neg hcols] at h
      cases hb : bootLoop rng m l' (rs.getD 0) (List.range nb.toNat) (.fin 0, []) with
      | error e =>
        rw [hb] at h
        cases h
        rcases bootLoop_error hb with h | h <;> cases h
      | ok v =>
        rw [hb] at h
        have h : (if nb = 0 then _ else _) = _ := h
        split at h <;> cases h

/-- IndexError if and only if all statistics were computed and none of them satisfies the gap rule. -/
theorem gap_index_iff (rng : Int → Nat → ℝ) (cut : Int → List α) (dist : DistArg) (M nb : Int) :
    optimizeNClusters rng cut dist M "gap" nb = .error .indexError ↔
      (∀ k, 2 ≤ k → k ≤ M → ∃ v, gapAt rng cut dist nb k = .ok v) ∧
        ∀ k, 2 ≤ k → k < M → ¬ Drops (gapAt rng cut dist nb) k := by
  have e : optimizeNClusters rng cut dist M "gap" nb = (scoreLoop (gapAt rng cut dist nb) (clustRange M)).bind fun v =>
      (firstDrop (v.map Prod.fst) (v.map Prod.snd)).bind fun i => .ok ((i : Int) + 2) := by
    unfold optimizeNClusters
    rw [if_pos rfl]
    rfl
  constructor
  · intro h
    cases hs : scoreLoop (gapAt rng cut dist nb) (clustRange M) with
    | error e' =>
      rw [e, hs] at h
      cases h
      obtain ⟨_, k, _, _, _, hk⟩ := scoreLoop_error.mp hs
      exact absurd hk (gap_ne_index _ _ _ _ _)
    | ok vs =>
      refine ⟨scores.mp ⟨vs, hs⟩, fun k hk hlt hd => ?_⟩
      obtain ⟨hl, _⟩ := scores_get hs
      rw [e, hs] at h
      cases hf : firstDrop (vs.map Prod.fst) (vs.map Prod.snd) with
      | ok i =>
        have h : (firstDrop (vs.map Prod.fst) (vs.map Prod.snd)).bind (fun i => .ok ((i : Int) + 2)) = .error .indexError := h
        rw [hf] at h
        cases h
      | error e' =>
        unfold firstDrop at hf
        cases hq : (List.range ((vs.map Prod.fst).length - 1)).find? fun i => decide (gapDrops (vs.map Prod.fst) (vs.map Prod.snd) i) with
        | some i => rw [hq] at hf; cases hf
        | none =>
          rw [List.find?_eq_none] at hq
          have := hq (k - 2).toNat (List.mem_range.mpr (by rw [List.length_map]; omega))
          rw [decide_eq_true_eq, gapDrops_iff hs (by omega)] at this
          exact this (by rw [show ((k - 2).toNat : Int) + 2 = k by omega]; exact hd)
  · rintro ⟨h1, h2⟩
    obtain ⟨vs, hs⟩ := scores.mpr h1
    obtain ⟨hl, _⟩ := scores_get hs
    rw [e, hs]
    show (firstDrop (vs.map Prod.fst) (vs.map Prod.snd)).bind (fun i => .ok ((i : Int) + 2)) = _
    cases hf : firstDrop (vs.map Prod.fst) (vs.map Prod.snd) with
    | ok i =>
      obtain ⟨g1, g2, g3⟩ := firstDrop_ok.mp hf
      rw [List.length_map] at g1
      exact absurd ((gapDrops_iff hs g1).mp g2) (h2 _ (by omega) (by omega))
    | error e' =>
      rw [firstDrop_error hf]
      rfl

/-- `max_clust <= 2` leaves nothing to compare: IndexError as soon as the statistic of two clusters can be computed. -/
theorem gap_small_range (rng : Int → Nat → ℝ) (cut : Int → List α) (dist : DistArg) {M : Int} (nb : Int) (hM : M ≤ 2)
    (h : M = 2 → ∃ v, gapAt rng cut dist nb 2 = .ok v) :
    optimizeNClusters rng cut dist M "gap" nb = .error .indexError := by
  rw [gap_index_iff]
  refine ⟨fun k h1 h2 => ?_, fun k h1 h2 => absurd h2 (by omega)⟩
  have hk : k = 2 := by omega
  rw [hk]
  exact h (by omega)

/-- The error of the first failing statistic is raised. -/
theorem gap_error {rng : Int → Nat → ℝ} {cut : Int → List α} {dist : DistArg} {M nb k : Int} {e : PyErr} (h2 : 2 ≤ k) (hM : k ≤ M)
    (hok : ∀ j, 2 ≤ j → j < k → ∃ v, gapAt rng cut dist nb j = .ok v) (he : gapAt rng cut dist nb k = .error e) :
    optimizeNClusters rng cut dist M "gap" nb = .error e := by
  have hs : scoreLoop (gapAt rng cut dist nb) (clustRange M) = .error e := by
    refine scoreLoop_error.mpr ⟨(clustRange M).take (k - 2).toNat, k, (clustRange M).drop ((k - 2).toNat + 1), ?_, ?_, he⟩
    · have hl : (k - 2).toNat < (clustRange M).length := by rw [clustRange_length]; omega
      have hk : (clustRange M)[(k - 2).toNat] = k := by
        simp only [clustRange, List.getElem_map, List.getElem_range]
        omega
      conv_lhs => rw [← List.take_append_drop (k - 2).toNat (clustRange M), List.drop_eq_getElem_cons hl, hk]
    · intro j hj
      obtain ⟨i, hi, rfl⟩ := List.mem_iff_getElem.mp hj
      rw [List.getElem_take]
      rw [List.length_take, clustRange_length] at hi
      simp only [clustRange, List.getElem_map, List.getElem_range]
      exact hok _ (by omega) (by omega)
  have : optimizeNClusters rng cut dist M "gap" nb = (scoreLoop (gapAt rng cut dist nb) (clustRange M)).bind fun v =>
      (firstDrop (v.map Prod.fst) (v.map Prod.snd)).bind fun i => .ok ((i : Int) + 2) := by
    unfold optimizeNClusters
    rw [if_pos rfl]
    rfl
  rw [this, hs]
  rfl

/-! ### Cuts of a tree -/

/-- What `cut_tree` promises: a label for each of the `n` points and as many clusters as asked for, up to `n`. -/
def CutSpec (n : Nat) (cut : Int → List α) : Prop :=
  ∀ k, 1 ≤ k → (cut k).length = n ∧ ((cut k).dedup.length : Int) = min k n

/-- The promise can be kept. -/
theorem cutSpec_exists (n : Nat) : ∃ cut : Int → List Nat, CutSpec n cut := by
  refine ⟨fun k => (List.range n).map fun i => min i (k.toNat - 1), fun k hk => ⟨by simp, ?_⟩⟩
  have h1 : ((List.range n).map fun i => min i (k.toNat - 1)).toFinset = range (min k.toNat n) := by
    ext a
    simp only [List.mem_toFinset, List.mem_map, List.mem_range, mem_range, lt_min_iff]
    constructor
    · rintro ⟨i, hi, rfl⟩
      omega
    · rintro ⟨h1, h2⟩
      exact ⟨a, h2, by omega⟩
  have h2 := List.card_toFinset ((List.range n).map fun i => min i (k.toNat - 1))
  rw [h1, card_range] at h2
  rw [← h2]
  omega

theorem nodup_of_cut {n : Nat} {cut : Int → List α} (h : CutSpec n cut) {k : Int} (h1 : 1 ≤ k) (hk : (n : Int) ≤ k) :
    (cut k).Nodup := by
  obtain ⟨hl, hd⟩ := h k h1
  rw [min_eq_right hk] at hd
  have : (cut k).dedup = cut k := (List.dedup_sublist _).eq_of_length (by omega)
  rw [← this]
  exact List.nodup_dedup _

/-- On a matrix of distances every statistic is computed, so that the outcome is a number or IndexError. -/
theorem gap_total (rng : Int → Nat → ℝ) {cut : Int → List α} {m : Dist.Table} {n : Nat} {d : Nat → Nat → ℝ} (hn : 2 ≤ n)
    (hc : CutSpec n cut) (hm : IsDist m n d) {nb : Int} (h0 : 0 < nb) (h1 : nb ≤ 2 ^ 32) (M : Int) :
    (∃ r, 2 ≤ r ∧ r < M ∧ optimizeNClusters rng cut (.table m) M "gap" nb = .ok r) ∨
      optimizeNClusters rng cut (.table m) M "gap" nb = .error .indexError := by
  have hall : ∀ k, 2 ≤ k → k ≤ M → ∃ v, gapAt rng cut (.table m) nb k = .ok v := by
    intro k hk _
    have hl := (hc k (by omega)).1
    refine (gap_ok_iff _ _ _ _ _).mpr ⟨m, rfl, by omega, by rw [hm.rows, hl], by rw [hm.cols, hl], by omega,
      fun _ => ⟨le_rfl, by simpa using h1, ?_, ?_⟩⟩
    · intro v hv
      obtain ⟨i, hi, hv⟩ := List.mem_flatMap.mp hv
      obtain ⟨j, hj, rfl⟩ := List.mem_map.mp hv
      rw [hm.entries i j (hm.rows ▸ List.mem_range.mp hi) (hm.cols ▸ List.mem_range.mp hj)]
      simp
    · refine ⟨m.at_ 0 0, List.mem_flatMap.mpr ⟨0, List.mem_range.mpr (by rw [hm.rows]; omega),
        List.mem_map.mpr ⟨0, List.mem_range.mpr (by rw [hm.cols]; omega), rfl⟩⟩, ?_⟩
      rw [hm.entries 0 0 (by omega) (by omega)]
      simp
  by_cases hd : ∃ k, 2 ≤ k ∧ k < M ∧ Drops (gapAt rng cut (.table m) nb) k
  · left
    have hd' : ∃ i : Nat, (i : Int) + 2 < M ∧ Drops (gapAt rng cut (.table m) nb) ((i : Int) + 2) := by
      obtain ⟨k, h1, h2, h3⟩ := hd
      exact ⟨(k - 2).toNat, by omega, by rw [show ((k - 2).toNat : Int) + 2 = k by omega]; exact h3⟩
    obtain ⟨g1, g2⟩ := Nat.find_spec hd'
    refine ⟨(Nat.find hd' : Int) + 2, by omega, g1, (gap_result_iff _ _ _ _ _ _).mpr ⟨hall, by omega, g1, g2, fun k hk hlt hk' => ?_⟩⟩
    refine Nat.find_min hd' (m := (k - 2).toNat) (by omega) ⟨by omega, ?_⟩
    rw [show ((k - 2).toNat : Int) + 2 = k by omega]
    exact hk'
  · right
    rw [gap_index_iff]
    exact ⟨hall, fun k h1 h2 h3 => hd ⟨k, h1, h2, h3⟩⟩

/-- On `n` points the gap rule never returns more than `n - 2`: the statistic of `n` or more clusters is infinite, so
that neither `n - 1` nor any larger number can satisfy the rule. -/
theorem gap_result_few {rng : Int → Nat → ℝ} {cut : Int → List α} {m : Dist.Table} {n : Nat} {d : Nat → Nat → ℝ} {h : ℝ}
    (hn : 2 ≤ n) (hc : CutSpec n cut) (hm : IsDist m n d) (ht : IsTop n d h) {nb : Nat} (h0 : nb ≠ 0) (h1 : nb ≤ 2 ^ 32)
    {M r : Int} (hr : optimizeNClusters rng cut (.table m) M "gap" nb = .ok r) : r ≤ n - 2 := by
  obtain ⟨_, h2, _, hd, _⟩ := (gap_result_iff _ _ _ _ _ _).mp hr
  by_contra hgt
  have hinf : gapAt rng cut (.table m) nb (r + 1) = .ok (.pinf, .fin 0) := by
    have hl := (hc (r + 1) (by omega)).1
    exact gap_singletons (by omega) (hl.symm ▸ hm) (hl.symm ▸ ht) h0 le_rfl
      (by show (0 : Int) + nb ≤ 2 ^ 32; exact_mod_cast (by omega : 0 + nb ≤ 2 ^ 32))
      (nodup_of_cut hc (by omega) (by omega))
  obtain ⟨g, s, g', s', f1, f2, f3⟩ := hd
  rw [hinf] at f2
  cases f2
  cases g <;> exact f3

/-- Fewer than four points cannot be clustered with the gap rule at all. -/
theorem gap_three_points {rng : Int → Nat → ℝ} {cut : Int → List α} {m : Dist.Table} {n : Nat} {d : Nat → Nat → ℝ} {h : ℝ}
    (hn : 2 ≤ n) (hn' : n ≤ 3) (hc : CutSpec n cut) (hm : IsDist m n d) (ht : IsTop n d h) {nb : Nat} (h0 : nb ≠ 0)
    (h1 : nb ≤ 2 ^ 32) (M : Int) : optimizeNClusters rng cut (.table m) M "gap" nb = .error .indexError := by
  rcases gap_total rng hn hc hm (nb := nb) (by omega) (by exact_mod_cast h1) M with ⟨r, h2, _, hr⟩ | h
  · have := gap_result_few hn hc hm ht h0 h1 hr
    omega
  · exact h

/-! ### The unit of the distances -/

theorem pairs_or_nodup (l : List α) : 0 < pairs l ∨ l.Nodup := by
  by_cases hd : l.Nodup
  · exact .inr hd
  · left
    have hd' : ∃ i j, ∃ (_ : i < j) (hj : j < l.length), l[i]? = l[j]? := by
      by_contra hno
      refine hd (List.nodup_iff_getElem?_ne_getElem?.mpr fun i j hij hj he => hno ⟨i, j, hij, hj, he⟩)
    obtain ⟨i, j, hij, hj, he⟩ := hd'
    have hnn : ∀ j ∈ range l.length, (0 : ℝ) ≤ ∑ i ∈ range j, if l[i]? = l[j]? then (1 : ℝ) else 0 :=
      fun j _ => sum_nonneg fun i _ => by split <;> norm_num
    refine sum_pos' hnn ⟨j, mem_range.mpr hj, sum_pos' (fun i _ => by split <;> norm_num) ⟨i, mem_range.mpr hij, ?_⟩⟩
    rw [if_pos he]
    norm_num

theorem refSum_pos {l : List α} {u : Nat → ℝ} (hu : ∀ i, 0 < u i) (hp : 0 < pairs l) : 0 < refSum l 1 u := by
  obtain ⟨j, hj, h1⟩ := exists_lt_of_sum_lt (s := range l.length) (f := fun _ => (0 : ℝ)) (by simp only [sum_const_zero]; exact hp)
  obtain ⟨i, hi, h2⟩ := exists_lt_of_sum_lt (s := range j) (f := fun _ => (0 : ℝ)) (by simp only [sum_const_zero]; exact h1)
  refine sum_pos' (fun j _ => sum_nonneg fun i _ => by split <;> positivity)
    ⟨j, hj, sum_pos' (fun i _ => by split <;> positivity) ⟨i, hi, ?_⟩⟩
  by_cases he : l[i]? = l[j]?
  · rw [if_pos he]
    have := hu (i * l.length + j)
    positivity
  · rw [if_neg he] at h2
    exact absurd h2 (lt_irrefl _)

/-- The selected number of clusters does not depend on the unit of the distances. -/
theorem gap_select_scale {rng : Int → Nat → ℝ} (hrng : ∀ s i, 0 < rng s i) {cut : Int → List α} {m m' : Dist.Table} {n : Nat}
    {d : Nat → Nat → ℝ} {h c : ℝ} (hc : 0 < c) (hn : 2 ≤ n) (hcut : ∀ k, (cut k).length = n) (hm : IsDist m n d)
    (hm' : IsDist m' n fun i j => c * d i j) (ht : IsTop n d h) (hp : 0 < h) {nb : Nat} (h0 : nb ≠ 0) (h1 : nb ≤ 2 ^ 32)
    (M : Int) : optimizeNClusters rng cut (.table m') M "gap" nb = optimizeNClusters rng cut (.table m) M "gap" nb := by
  have ht' : IsTop n (fun i j => c * d i j) (c * h) := by
    obtain ⟨ha, i, j, hi, hj, hb⟩ := ht
    exact ⟨fun i j hi hj => mul_le_mul_of_nonneg_left (ha i j hi hj) hc.le, i, j, hi, hj, by simp only [hb]⟩
  have hs : ((none : Option Int).getD 0) + (nb : Int) ≤ 2 ^ 32 := by
    show (0 : Int) + nb ≤ 2 ^ 32
    exact_mod_cast (by omega : 0 + nb ≤ 2 ^ 32)
  have key : ∀ k, gapStatistic rng (.table m') (.vec (cut k)) nb none = gapStatistic rng (.table m) (.vec (cut k)) nb none := by
    intro k
    have hl := hcut k
    subst hl
    rcases pairs_or_nodup (cut k) with hpos | hnd
    · exact gap_scale hc hn hm hm' ht hp h0 le_rfl hs fun b _ => refSum_pos (hrng _) hpos
    · rw [gap_singletons hn hm ht h0 le_rfl hs hnd, gap_singletons hn hm' ht' h0 le_rfl hs hnd]
  unfold optimizeNClusters
  rw [if_pos rfl, if_pos rfl]
  simp only [key]

/-! ### The silhouette rule -/

/-- Position `i` of a list is what `np.argmax` returns: the first NaN if there is one, otherwise the first greatest. -/
def Picks (x : Ser) (i : Nat) : Prop :=
  (x[i]? = some .nan ∧ ∀ j < i, x[j]? ≠ some .nan) ∨
  ∃ v, x[i]? = some v ∧ .nan ∉ x ∧ (∀ w ∈ x, Cusum.le w v) ∧ ∀ j < i, ∀ w, x[j]? = some w → XF.lt w v

theorem lt_or_le {a b : XF} (ha : a ≠ .nan) (hb : b ≠ .nan) : ¬ Cusum.le a b ↔ XF.lt b a := by
  cases a <;> cases b <;> simp_all [Cusum.le, XF.lt, XF.eq]
  rename_i p q
  constructor
  · rintro ⟨h1, h2⟩
    exact lt_of_le_of_ne h1 (Ne.symm h2)
  · intro h
    exact ⟨h.le, h.ne'⟩

theorem le_trans' {a b c : XF} (h1 : Cusum.le a b) (h2 : Cusum.le b c) : Cusum.le a c := by
  cases a <;> cases b <;> cases c <;> simp_all [Cusum.le, XF.lt, XF.eq]
  rename_i p q r
  rcases h1 with h | h <;> rcases h2 with h' | h'
  all_goals first | (left; linarith) | (right; linarith)

theorem argmaxGo_picks (x : Ser) : ∀ (pre : Ser) (best : XF) (bi : Nat), pre[bi]? = some best → .nan ∉ pre →
    (∀ w ∈ pre, Cusum.le w best) → (∀ j < bi, ∀ w, pre[j]? = some w → XF.lt w best) →
    Picks (pre ++ x) (Cusum.argmaxGo best bi pre.length x) := by
  induction x with
  | nil =>
    intro pre best bi h1 h2 h3 h4
    rw [List.append_nil]
    exact .inr ⟨best, h1, h2, h3, h4⟩
  | cons v x ih =>
    intro pre best bi h1 h2 h3 h4
    have hb : best ≠ .nan := by
      rintro rfl
      exact h2 (List.mem_of_getElem? h1)
    have hbi : bi < pre.length := (List.getElem?_eq_some_iff.mp h1).1
    have hmem : ∀ j w, j < pre.length → (pre ++ [v])[j]? = some w → pre[j]? = some w := by
      intro j w hj h
      rwa [List.getElem?_append_left hj] at h
    unfold Cusum.argmaxGo
    rw [if_neg hb]
    by_cases hle : Cusum.le v best
    · rw [if_pos hle]
      have hv : v ≠ .nan := by
        rintro rfl
        cases best <;> simp [Cusum.le, XF.lt, XF.eq] at hle
      have := ih (pre ++ [v]) best bi (by rw [List.getElem?_append_left hbi]; exact h1)
        (by simp only [List.mem_append, List.mem_singleton, not_or]; exact ⟨h2, Ne.symm hv⟩)
        (by
          intro w hw
          rcases List.mem_append.mp hw with hw | hw
          · exact h3 w hw
          · rw [List.mem_singleton.mp hw]; exact hle)
        (fun j hj w hw => h4 j hj w (hmem j w (by omega) hw))
      simpa using this
    · rw [if_neg hle]
      by_cases hv : v = .nan
      · subst hv
        have hgo : Cusum.argmaxGo .nan pre.length (pre.length + 1) x = pre.length := by
          cases x <;> simp [Cusum.argmaxGo]
        rw [hgo]
        refine .inl ⟨by simp, fun j hj hn => ?_⟩
        rw [List.getElem?_append_left hj] at hn
        exact h2 (List.mem_of_getElem? hn)
      · have hlt : XF.lt best v := (lt_or_le hv hb).mp hle
        have := ih (pre ++ [v]) v pre.length (by simp)
          (by simp only [List.mem_append, List.mem_singleton, not_or]; exact ⟨h2, Ne.symm hv⟩)
          (by
            intro w hw
            rcases List.mem_append.mp hw with hw | hw
            · exact le_trans' (h3 w hw) (.inl hlt)
            · rw [List.mem_singleton.mp hw]
              by_contra hno
              have := (lt_or_le hv hv).mp hno
              cases v <;> simp [XF.lt] at this)
          (by
            intro j hj w hw
            have hw := hmem j w hj hw
            have hwm := List.mem_of_getElem? hw
            have hwn : w ≠ .nan := by rintro rfl; exact h2 hwm
            rw [← lt_or_le hv hwn]
            intro hle'
            exact hle (le_trans' hle' (h3 w hwm)))
        simpa using this

/-- `np.argmax` of a non-empty array satisfies the description. -/
theorem argmax_picks {x : Ser} (hx : x ≠ []) : Picks x (Cusum.argmax x) := by
  obtain ⟨a, t, rfl⟩ := List.exists_cons_of_ne_nil hx
  show Picks (a :: t) (Cusum.argmaxGo a 0 1 t)
  by_cases ha : a = .nan
  · subst ha
    have hgo : Cusum.argmaxGo .nan 0 1 t = 0 := by cases t <;> simp [Cusum.argmaxGo]
    rw [hgo]
    exact .inl ⟨rfl, fun j hj => absurd hj (by omega)⟩
  · have := argmaxGo_picks t [a] a 0 rfl (by simpa using Ne.symm ha)
      (by
        intro w hw
        rw [List.mem_singleton.mp hw]
        by_contra hno
        have := (lt_or_le ha ha).mp hno
        cases a <;> simp [XF.lt] at this)
      (fun j hj => absurd hj (by omega))
    simpa using this

theorem picks_unique {x : Ser} {i j : Nat} (hi : Picks x i) (hj : Picks x j) : i = j := by
  have key : ∀ {i j : Nat}, Picks x i → Picks x j → ¬ i < j := by
    intro i j hi hj hlt
    rcases hi with ⟨h1, h2⟩ | ⟨v, h1, h2, h3, h4⟩ <;> rcases hj with ⟨g1, g2⟩ | ⟨w, g1, g2, g3, g4⟩
    · exact g2 i hlt h1
    · exact g2 (List.mem_of_getElem? h1)
    · exact h2 (List.mem_of_getElem? g1)
    · have a := g4 i hlt v h1
      have b := h3 w (List.mem_of_getElem? g1)
      have hv : v ≠ .nan := by rintro rfl; exact h2 (List.mem_of_getElem? h1)
      have hw : w ≠ .nan := by rintro rfl; exact h2 (List.mem_of_getElem? g1)
      exact ((lt_or_le hw hv).mpr a) b
  rcases lt_trichotomy i j with h | h | h
  · exact absurd h (key hi hj)
  · exact h
  · exact absurd h (key hj hi)

/-- The score of `k` clusters. -/
noncomputable def silhAt (cut : Int → List α) (dist : DistArg) (k : Int) : Py XF := silhouetteTstat dist (.vec (cut k))

/-- `r` is the choice among the scores of `2, …, M`: the first NaN if there is one, otherwise the first greatest. -/
def Best (f : Int → Py XF) (M r : Int) : Prop :=
  (f r = .ok .nan ∧ ∀ k, 2 ≤ k → k < r → f k ≠ .ok .nan) ∨
  ∃ v, f r = .ok v ∧ (∀ k, 2 ≤ k → k ≤ M → f k ≠ .ok .nan) ∧ (∀ k w, 2 ≤ k → k ≤ M → f k = .ok w → Cusum.le w v) ∧
    ∀ k w, 2 ≤ k → k < r → f k = .ok w → XF.lt w v

theorem best_iff {f : Int → Py XF} {M : Int} {vs : Ser} (h : scoreLoop f (clustRange M) = .ok vs) {i : Nat}
    (hi : i < (M - 1).toNat) : Picks vs i ↔ Best f M ((i : Int) + 2) := by
  obtain ⟨hl, hg⟩ := scores_get h
  have hmem : ∀ w, w ∈ vs ↔ ∃ k, 2 ≤ k ∧ k ≤ M ∧ f k = .ok w := by
    intro w
    rw [List.mem_iff_getElem?]
    constructor
    · rintro ⟨j, hj⟩
      obtain ⟨h1, h2⟩ := (hg j w).mp hj
      exact ⟨_, by omega, by omega, h2⟩
    · rintro ⟨k, h1, h2, h3⟩
      refine ⟨(k - 2).toNat, (hg _ _).mpr ⟨by omega, ?_⟩⟩
      rw [show ((k - 2).toNat : Int) + 2 = k by omega]
      exact h3
  have hget : ∀ w, vs[i]? = some w ↔ f ((i : Int) + 2) = .ok w := fun w => by rw [hg]; exact and_iff_right hi
  have hlow : ∀ (P : XF → Prop), (∀ j < i, ∀ w, vs[j]? = some w → P w) ↔ ∀ k w, 2 ≤ k → k < (i : Int) + 2 → f k = .ok w → P w := by
    intro P
    constructor
    · intro h k w h1 h2 h3
      refine h (k - 2).toNat (by omega) w ((hg _ _).mpr ⟨by omega, ?_⟩)
      rw [show ((k - 2).toNat : Int) + 2 = k by omega]
      exact h3
    · intro h j hj w hw
      exact h _ w (by omega) (by omega) ((hg _ _).mp hw).2
  unfold Picks Best
  refine or_congr (and_congr (hget _) ?_) (exists_congr fun v => and_congr (hget v) (and_congr ?_ (and_congr ?_ (hlow _))))
  · have := hlow fun w => w ≠ .nan
    constructor
    · intro h k h1 h2 h3
      exact this.mp (fun j hj w hw hn => h j hj (hn ▸ hw)) k _ h1 h2 h3 rfl
    · intro h j hj hw
      exact this.mpr (fun k w h1 h2 h3 hn => h k h1 h2 (hn ▸ h3)) j hj _ hw rfl
  · rw [hmem]
    constructor
    · intro h k h1 h2 h3
      exact h ⟨k, h1, h2, h3⟩
    · rintro h ⟨k, h1, h2, h3⟩
      exact h k h1 h2 h3
  · constructor
    · intro h k w h1 h2 h3
      exact h w ((hmem w).mpr ⟨k, h1, h2, h3⟩)
    · intro h w hw
      obtain ⟨k, h1, h2, h3⟩ := (hmem w).mp hw
      exact h k w h1 h2 h3

/-- With the silhouette the result is the first maximiser in `[2, max_clust]`; a NaN counts as the maximum. -/
theorem silh_result_iff (rng : Int → Nat → ℝ) (cut : Int → List α) (dist : DistArg) (M nb r : Int) :
    optimizeNClusters rng cut dist M "silhouette" nb = .ok r ↔
      (∀ k, 2 ≤ k → k ≤ M → ∃ v, silhAt cut dist k = .ok v) ∧ 2 ≤ r ∧ r ≤ M ∧ Best (silhAt cut dist) M r := by
  have e : optimizeNClusters rng cut dist M "silhouette" nb = (scoreLoop (silhAt cut dist) (clustRange M)).bind fun v =>
      if v = [] then .error .valueError else .ok ((Cusum.argmax v : Int) + 2) := by
    unfold optimizeNClusters
    rw [if_neg (by decide), if_pos rfl]
    rfl
  rw [e, ← scores]
  constructor
  · intro h
    obtain ⟨vs, h1, h2⟩ := Ser.bind_ok h
    by_cases hv : vs = []
    · rw [if_pos hv] at h2
      cases h2
    · rw [if_neg hv] at h2
      cases h2
      have hlt := Props.Cusum.argmax_lt hv
      obtain ⟨hl, _⟩ := scores_get h1
      exact ⟨⟨vs, h1⟩, by omega, by omega, (best_iff h1 (by omega)).mp (argmax_picks hv)⟩
  · rintro ⟨⟨vs, h1⟩, h2, h3, h4⟩
    obtain ⟨hl, _⟩ := scores_get h1
    have hv : vs ≠ [] := by
      rintro rfl
      simp at hl
      omega
    have hr : r = ((r - 2).toNat : Int) + 2 := by omega
    rw [hr] at h4
    have := picks_unique (argmax_picks hv) ((best_iff h1 (by omega)).mpr h4)
    rw [h1]
    show (if vs = [] then _ else _) = _
    rw [if_neg hv, this, ← hr]

/-- An empty range of numbers of clusters is a ValueError. -/
theorem silh_empty (rng : Int → Nat → ℝ) (cut : Int → List α) (dist : DistArg) {M : Int} (nb : Int) (hM : M ≤ 1) :
    optimizeNClusters rng cut dist M "silhouette" nb = .error .valueError := by
  have : (M - 1).toNat = 0 := by omega
  unfold optimizeNClusters
  rw [if_neg (by decide), if_pos rfl, clustRange, this]
  rfl

/-- A metric other than the two is a ValueError, whatever the rest. -/
theorem metric_unknown (rng : Int → Nat → ℝ) (cut : Int → List α) (dist : DistArg) (M nb : Int) {metric : String}
    (h1 : metric ≠ "gap") (h2 : metric ≠ "silhouette") : optimizeNClusters rng cut dist M metric nb = .error .valueError := by
  unfold optimizeNClusters
  rw [if_neg h1, if_neg h2]

/-- The silhouette is defined for fewer clusters than points only: with `max_clust >= n` (the default is 20) the call
fails with a ValueError. -/
theorem silh_few (rng : Int → Nat → ℝ) {cut : Int → List α} {m : Dist.Table} {n : Nat} (hn : 2 ≤ n) (hc : CutSpec n cut)
    (hr : m.rows = n) (hcol : 2 ≤ m.cols) {M : Int} (hM : (n : Int) ≤ M) (nb : Int) :
    optimizeNClusters rng cut (.table m) M "silhouette" nb = .error .valueError := by
  have hval : ∀ k, 2 ≤ k → ∀ e, silhAt cut (.table m) k = .error e → e = .valueError := by
    intro k hk e he
    have hl := (hc k (by omega)).1
    have hck : checkInputs (.table m) (.vec (cut k)) = .ok (m, cut k) :=
      checkInputs_ok.mpr ⟨rfl, rfl, by omega, hcol, by omega⟩
    unfold silhAt silhouetteTstat at he
    rw [hck] at he
    have he : (silhouetteSamples m (cut k)).bind _ = _ := he
    unfold silhouetteSamples at he
    by_cases hs : SilhouetteInput m (cut k)
    · rw [if_pos hs] at he
      cases he
    · rw [if_neg hs] at he
      cases he
      rfl
  have hbad : ∀ v, silhAt cut (.table m) n ≠ .ok v := by
    intro v h
    obtain ⟨⟨m', l'⟩, h1, h2⟩ := Ser.bind_ok h
    obtain ⟨hd, hl', h3, h4, h5⟩ := checkInputs_ok.mp h1
    cases hd
    cases hl'
    obtain ⟨s, h6, _⟩ := Ser.bind_ok h2
    have h6 : (if SilhouetteInput m (cut n) then _ else _) = _ := h6
    by_cases hs : SilhouetteInput m (cut n)
    · have := hs.2.2.2.2.2
      obtain ⟨g1, g2⟩ := hc n (by omega)
      rw [min_self] at g2
      omega
    · rw [if_neg hs] at h6
      cases h6
  have e : optimizeNClusters rng cut (.table m) M "silhouette" nb = (scoreLoop (silhAt cut (.table m)) (clustRange M)).bind fun v =>
      if v = [] then .error .valueError else .ok ((Cusum.argmax v : Int) + 2) := by
    unfold optimizeNClusters
    rw [if_neg (by decide), if_pos rfl]
    rfl
  rw [e]
  cases hs : scoreLoop (silhAt cut (.table m)) (clustRange M) with
  | error e' =>
    obtain ⟨pre, k, post, h1, _, hk⟩ := scoreLoop_error.mp hs
    have : k ∈ clustRange M := by rw [h1]; simp
    rw [hval k (mem_clustRange.mp this).1 e' hk]
    rfl
  | ok vs =>
    obtain ⟨v, hv⟩ := scores.mp ⟨vs, hs⟩ n (by exact_mod_cast hn) hM
    exact absurd hv (hbad v)

/-! ### A case: four equidistant points -/

noncomputable def eqTable : Dist.Table := ⟨4, 4, fun i j => .fin (if i = j then 0 else 1)⟩

/-- A generator whose stream is one half for the seed 0 and one quarter for the others. -/
noncomputable def twoRng (s : Int) (_ : Nat) : ℝ := if s = 0 then 1 / 2 else 1 / 4

def eqCut (k : Int) : List Nat := if k ≤ 1 then [0, 0, 0, 0] else if k = 2 then [0, 0, 1, 1] else if k = 3 then [0, 0, 1, 2] else [0, 1, 2, 3]

theorem eqCut_spec : CutSpec 4 eqCut := by
  intro k hk
  unfold eqCut
  by_cases h1 : k = 1
  · subst h1; decide
  · by_cases h2 : k = 2
    · subst h2; decide
    · by_cases h3 : k = 3
      · subst h3; decide
      · rw [if_neg (by omega), if_neg h2, if_neg h3, min_eq_right (by omega)]
        decide

theorem eqTable_isDist : IsDist eqTable 4 fun i j => if i = j then 0 else 1 :=
  ⟨rfl, rfl, fun _ _ _ _ => rfl, fun i j _ _ => by simp only [eq_comm], fun i _ => by simp⟩

theorem eqTable_isTop : IsTop 4 (fun i j => if i = j then 0 else 1) 1 :=
  ⟨fun i j _ _ => by dsimp only; split <;> norm_num, 0, 1, by decide, by decide, by simp⟩

theorem eq_gap {l : List Nat} (hl : l.length = 4) (hp : 0 < pairs l) :
    ∃ g s : ℝ, gapStatistic twoRng (.table eqTable) (.vec l) 2 none = .ok (.fin g, .fin s) ∧
      g = avg 2 (fun b => Real.log (if b = 0 then 1 / 4 else 1 / 16)) ∧ 0 < s := by
  have e1 : pairSum l (fun i j => if i = j then 0 else (1 : ℝ)) = pairs l := by
    rw [pairSum_congr (e := fun _ _ => 1) fun i j hij _ => if_neg (by omega)]
    unfold pairSum pairs
    simp
  have e2 : ∀ b < 2, refSum l 1 (twoRng ((none : Option Int).getD 0 + (b : Nat))) = pairs l * (if b = 0 then 1 / 4 else 1 / 16) := by
    intro b hb
    have : (none : Option Int).getD 0 + (b : Int) = b := by simp
    rw [this, refSum]
    unfold pairSum pairs twoRng
    rw [sum_mul]
    refine sum_congr rfl fun j _ => ?_
    rw [sum_mul]
    refine sum_congr rfl fun i _ => ?_
    rcases (by omega : b = 0 ∨ b = 1) with rfl | rfl <;> split <;> norm_num
  have h := gap_formula (rng := twoRng) (rs := none) (nb := 2) (by omega) (hl.symm ▸ eqTable_isDist) (hl.symm ▸ eqTable_isTop)
    (by decide) (by decide) (by decide) (by rw [e1]; exact hp)
    (fun b hb => by rw [e2 b hb]; split <;> positivity)
  refine ⟨_, _, h, ?_, ?_⟩
  · refine avg_congr fun b hb => ?_
    rw [e2 b hb, e1, mul_comm, mul_div_assoc, div_self hp.ne', mul_one]
  · rw [Real.sqrt_pos, vari_congr fun b hb => by rw [e2 b hb]]
    have hlt : Real.log (pairs l * (1 / 16)) < Real.log (pairs l * (1 / 4)) :=
      Real.log_lt_log (by positivity) (by linarith)
    simp only [vari, avg, sum_range_succ, range_zero, sum_empty]
    norm_num
    norm_num at hlt
    nlinarith [sq_pos_of_pos (sub_pos.mpr hlt)]

/-- Two clusters are selected in four equidistant points: a gap that does not change counts as a drop as soon as the
reference sums vary. The hypotheses of `gap_result_few` are met and its bound is attained. -/
example : optimizeNClusters twoRng eqCut (.table eqTable) 3 "gap" 2 = .ok 2 := by
  rw [gap_result_iff]
  obtain ⟨g, s, h1, h2, h3⟩ := eq_gap (l := eqCut 2) rfl ((pairs_or_nodup _).resolve_right (by decide))
  obtain ⟨g', s', g1, g2, g3⟩ := eq_gap (l := eqCut 3) rfl ((pairs_or_nodup _).resolve_right (by decide))
  refine ⟨fun k hk hM => ?_, le_rfl, by decide, ⟨_, _, _, _, h1, g1, ?_⟩, fun k h1 h2 => absurd h2 (by omega)⟩
  · rcases (by omega : k = 2 ∨ k = 3) with rfl | rfl
    · exact ⟨_, h1⟩
    · exact ⟨_, g1⟩
  · show (0 : ℝ) < g - g' + s'
    rw [h2, g2]
    linarith

end Verif.Props.ClustSelect
