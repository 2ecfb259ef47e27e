import Verif.Props.LabelSeries

/-!
# C94: labels in `average_true_range` and the Keltner bands
-/

namespace Verif.LSer

open Verif

variable {ι κ : Type} [LinearOrder ι] [LinearOrder κ]

/-! ### `pd.concat(…, axis=1).max(axis=1)` -/

theorem concatIdx_self (dates : Bool) (i : List ι) : concatIdx dates i i = i := by
  cases dates <;> simp [concatIdx, union, unionKeep]

theorem concatMax_nodup (dates : Bool) {a b c : LSer ι} (ha : a.idx.Nodup) :
    concatMax dates a b c = (concatIdx dates (concatIdx dates a.idx b.idx) c.idx).map fun l =>
      (l, Ser.maxSkip (Ser.maxSkip (a.get l) (b.get l)) (c.get l)) := by
  unfold concatMax
  split_ifs with h
  · have e := zip_zipWith Ser.maxSkip a b h.1 ha
    have hab : a.idx.zip (List.zipWith Ser.maxSkip a.vals b.vals) = lab a.idx (List.zipWith Ser.maxSkip a.vals b.vals) := rfl
    have hl : (List.zipWith Ser.maxSkip a.vals b.vals).length = a.idx.length := by
      have := congrArg List.length h.1
      simp only [length_idx] at this
      simp [this]
    have e2 := zip_zipWith Ser.maxSkip (lab a.idx (List.zipWith Ser.maxSkip a.vals b.vals)) c
      (by rw [idx_lab hl, h.1, h.2]) (by rw [idx_lab hl]; exact ha)
    rw [idx_lab hl, vals_lab hl] at e2
    rw [e2, ← h.2, ← h.1, concatIdx_self, concatIdx_self]
    refine List.map_congr_left fun l hl => ?_
    rw [← hab, e, get_map ha _ hl]
  · rfl

theorem unionKeep_range (m n : Nat) : unionKeep (List.range m) (List.range n) = List.range (max m n) := by
  unfold unionKeep
  by_cases h : m = n
  · subst h
    simp
  rw [if_neg (fun e => h (by simpa using congrArg List.length e))]
  rcases le_total n m with hn | hn
  · rw [max_eq_left hn, List.filter_eq_nil_iff.mpr, List.append_nil]
    intro x hx
    simp only [List.mem_range, decide_eq_true_eq, not_not] at hx ⊢
    omega
  · obtain ⟨k, rfl⟩ := Nat.exists_eq_add_of_le hn
    rw [max_eq_right hn, List.range_add, List.filter_append, List.filter_eq_nil_iff.mpr, List.nil_append, List.filter_eq_self.mpr]
    · intro x hx
      obtain ⟨y, -, rfl⟩ := List.mem_map.mp hx
      simp
    · intro x hx
      simpa using hx

theorem concatIdx_range (dates : Bool) (m n : Nat) : concatIdx dates (List.range m) (List.range n) = List.range (max m n) := by
  cases dates
  · exact unionKeep_range m n
  · rw [concatIdx, if_pos rfl, union_sorted (List.sortedLT_range m) (List.sortedLT_range n)]
    exact List.SortedLT.eq_of_mem_iff (Finset.sortedLT_sort _) (List.sortedLT_range _) (by simp)

theorem maxSkip_getD {x y : Ser} (hx : ∀ t, y.length ≤ t → (x[t]?).getD .nan = .nan) (hy : ∀ t, x.length ≤ t → (y[t]?).getD .nan = .nan) (t : Nat) :
    ((Ser.op2 Ser.maxSkip x y)[t]?).getD .nan = Ser.maxSkip ((x[t]?).getD .nan) ((y[t]?).getD .nan) := by
  have hn : Ser.maxSkip .nan .nan = .nan := rfl
  by_cases h1 : t < x.length
  · by_cases h2 : t < y.length
    · rw [Ser.op2_get Ser.maxSkip (List.getElem?_eq_getElem h1) (List.getElem?_eq_getElem h2), List.getElem?_eq_getElem h1, List.getElem?_eq_getElem h2]
      rfl
    · rw [hx t (by omega), List.getElem?_eq_none (l := y) (by omega), Option.getD_none, hn]
      have : (Ser.op2 Ser.maxSkip x y)[t]? = some .nan := by
        clear hx hy
        induction x generalizing y t with
        | nil => simp at h1
        | cons a x ih =>
          cases y with
          | nil => rw [Ser.op2, List.getElem?_map, List.getElem?_eq_getElem h1]; rfl; simp
          | cons b y =>
            cases t with
            | zero => simp at h2
            | succ t => simpa [Ser.op2] using ih t (by simpa using h1) (by simpa using h2)
      rw [this, Option.getD_some]
  · rw [hy t (by omega), List.getElem?_eq_none (l := x) (by omega), Option.getD_none, hn]
    by_cases h2 : t < y.length
    · have : (Ser.op2 Ser.maxSkip x y)[t]? = some .nan := by
        clear hx hy
        induction x generalizing y t with
        | nil => rw [Ser.op2, List.getElem?_map, List.getElem?_eq_getElem h2]; rfl
        | cons a x ih =>
          cases y with
          | nil => simp at h2
          | cons b y =>
            cases t with
            | zero => simp at h1
            | succ t => simpa [Ser.op2] using ih t (by simpa using h1) (by simpa using h2)
      rw [this, Option.getD_some]
    · rw [List.getElem?_eq_none, Option.getD_none]
      rw [Ser.op2_length]
      omega

theorem concatMax_arr (dates : Bool) {x y z : Ser} (h1 : ∀ t, y.length ≤ t → (x[t]?).getD .nan = .nan) (h2 : ∀ t, x.length ≤ t → (y[t]?).getD .nan = .nan)
    (h3 : ∀ t, z.length ≤ t → (x[t]?).getD .nan = .nan ∧ (y[t]?).getD .nan = .nan) (h4 : ∀ t, max x.length y.length ≤ t → (z[t]?).getD .nan = .nan) :
    concatMax dates (arr x) (arr y) (arr z) = arr (Ser.op2 Ser.maxSkip (Ser.op2 Ser.maxSkip x y) z) := by
  rw [concatMax_nodup dates (arr_sorted x).nodup, idx_arr, idx_arr, idx_arr, concatIdx_range, concatIdx_range]
  refine Sorted.ext (by rw [Sorted, idx_map]; exact List.sortedLT_range _) (arr_sorted _) (fun l => ?_) fun l => ?_
  · rw [idx_map, idx_arr, Ser.op2_length, Ser.op2_length]
  · rw [get_arr, maxSkip_getD (fun t ht => ?_) (fun t ht => ?_), maxSkip_getD h1 h2]
    · by_cases hl : l < max (max x.length y.length) z.length
      · rw [get_map (List.nodup_range) _ (by simpa using hl), get_arr, get_arr, get_arr]
      · have e : ∀ u : Ser, u.length ≤ l → (u[l]?).getD .nan = .nan := fun u hu => by rw [List.getElem?_eq_none hu]; rfl
        rw [get_of_not_mem (by rw [idx_map]; simpa using hl), e x (by omega), e y (by omega), e z (by omega)]
        rfl
    · rw [maxSkip_getD h1 h2, (h3 t ht).1, (h3 t ht).2]
      rfl
    · exact h4 t (by rwa [Ser.op2_length] at ht)

theorem unionKeep_relabel {φ : ι → κ} (h : StrictMono φ) (i j : List ι) : unionKeep (i.map φ) (j.map φ) = (unionKeep i j).map φ := by
  have hi := (List.map_injective_iff.mpr h.injective).eq_iff (a := i) (b := j)
  unfold unionKeep
  by_cases h1 : i = j
  · rw [if_pos (hi.mpr h1), if_pos h1]
  rw [if_neg (hi.not.mpr h1), if_neg h1, List.map_append, List.filter_map]
  congr 3
  funext l
  simp only [Function.comp, List.mem_map_of_injective h.injective]

theorem concatMax_relabel (dates : Bool) {φ : ι → κ} (h : StrictMono φ) (a b c : LSer ι) :
    concatMax dates (relabel φ a) (relabel φ b) (relabel φ c) = relabel φ (concatMax dates a b c) := by
  have hi := fun i j => (List.map_injective_iff.mpr h.injective).eq_iff (a := i) (b := j)
  have hc : ∀ i j : List ι, concatIdx dates (i.map φ) (j.map φ) = (concatIdx dates i j).map φ := fun i j => by
    cases dates
    · exact unionKeep_relabel h i j
    · exact union_relabel h i j
  unfold concatMax
  rw [idx_relabel, idx_relabel, idx_relabel, vals_relabel, vals_relabel, vals_relabel]
  by_cases h1 : a.idx = b.idx ∧ b.idx = c.idx
  · rw [if_pos (by rwa [hi, hi]), if_pos h1, relabel, List.zip_map_left]
    rfl
  · rw [if_neg (by rwa [hi, hi]), if_neg h1, hc, hc, relabel.eq_def φ (List.map _ _), List.map_map, List.map_map]
    refine List.map_congr_left fun l _ => ?_
    simp only [Function.comp, get_relabel h.injective]

theorem concatMax_sorted {a b c : LSer ι} (ha : a.Sorted) (hb : b.Sorted) (hc : c.Sorted) :
    concatMax true a b c = (a.idx.toFinset ∪ b.idx.toFinset ∪ c.idx.toFinset).sort.map fun l =>
      (l, Ser.maxSkip (Ser.maxSkip (a.get l) (b.get l)) (c.get l)) := by
  rw [concatMax_nodup true ha.nodup, concatIdx, if_pos rfl, concatIdx, if_pos rfl, union_sorted ha hb,
    union_sorted (Finset.sortedLT_sort _) hc, Finset.sort_toFinset]

theorem concatMax_upto {a b c : LSer ι} (ha : a.Sorted) (hb : b.Sorted) (hc : c.Sorted) (l : ι) :
    concatMax true (upto l a) (upto l b) (upto l c) = upto l (concatMax true a b c) := by
  rw [concatMax_sorted (ha.upto l) (hb.upto l) (hc.upto l), concatMax_sorted ha hb hc, upto.eq_def l (List.map _ _), List.filter_map]
  have : ((fun p : ι × XF => decide (p.1 ≤ l)) ∘ fun x => (x, Ser.maxSkip (Ser.maxSkip (a.get x) (b.get x)) (c.get x))) = fun x => decide (x ≤ l) := rfl
  rw [this, sort_filter, idx_upto, idx_upto, idx_upto, List.toFinset_filter, List.toFinset_filter, List.toFinset_filter, ← Finset.filter_union,
    ← Finset.filter_union]
  simp only [decide_eq_true_eq]
  refine List.map_congr_left fun x hx => ?_
  have hx : x ≤ l := by
    rw [Finset.mem_sort, Finset.mem_filter] at hx
    exact hx.2
  rw [get_upto hx, get_upto hx, get_upto hx]

/-! ### The true range -/

theorem tr1_pure : Pure 3 (fun _ _ as => op2 (· - ·) (as 0) (as 1)) (fun xs => Ser.op2 (· - ·) (xs 0) (xs 1)) := (Pure.proj 0).op2 absorbs_sub (.proj 1)

theorem tr2_pure (k : Fin 3) : Pure 3 (fun _ _ as => lift (·.map XF.abs) (op2 (· - ·) (as k) (lift (Ser.shift 1) (as 2))))
    (fun xs => (Ser.op2 (· - ·) (xs k) (Ser.shift 1 (xs 2))).map XF.abs) :=
  ((Pure.proj k).op2 absorbs_sub ((Pure.proj 2).lift .shift)).lift (.map XF.abs)

theorem getD_op2_nan {f : XF → XF → XF} (hf : Absorbs f) {x y : Ser} {t : Nat} (h : x.length ≤ t ∨ y.length ≤ t) :
    ((Ser.op2 f x y)[t]?).getD .nan = .nan := by
  rw [op2_getD hf.1 hf.2]
  rcases h with h | h
  · rw [List.getElem?_eq_none h, Option.getD_none, hf.2]
  · rw [List.getElem?_eq_none h, Option.getD_none, hf.1]

theorem getD_map_abs (x : Ser) (t : Nat) : ((x.map XF.abs)[t]?).getD .nan = ((x[t]?).getD .nan).abs := by
  rw [List.getElem?_map]
  cases x[t]? <;> rfl

/-- Arrays of any lengths, with a `RangeIndex` (`dates = false`) as they have in fact. -/
theorem trueRange_arrays (dates : Bool) (h l c : Ser) : trueRange dates (arr h) (arr l) (arr c) = arr (Ind.trueRange h l c) := by
  have e1 := tr1_pure.arrays ![h, l, c]
  have e2 := (tr2_pure 0).arrays ![h, l, c]
  have e3 := (tr2_pure 1).arrays ![h, l, c]
  simp only [Matrix.cons_val] at e1 e2 e3
  have hn : XF.abs .nan = .nan := rfl
  unfold trueRange Ind.trueRange
  rw [e1, e2, e3, concatMax_arr]
  · intro t ht
    simp only [List.length_map, Ser.op2_length, Ser.shift_length] at ht
    exact getD_op2_nan absorbs_sub (by omega)
  · intro t ht
    simp only [Ser.op2_length] at ht
    rw [getD_map_abs, getD_op2_nan absorbs_sub (by omega), hn]
  · intro t ht
    simp only [List.length_map, Ser.op2_length, Ser.shift_length] at ht
    refine ⟨getD_op2_nan absorbs_sub (by omega), ?_⟩
    rw [getD_map_abs, getD_op2_nan absorbs_sub (by rw [Ser.shift_length]; omega), hn]
  · intro t ht
    simp only [List.length_map, Ser.op2_length, Ser.shift_length] at ht
    rw [getD_map_abs, getD_op2_nan absorbs_sub (by omega), hn]

/-- One index, which need not be sorted or unique. -/
theorem trueRange_same (dates : Bool) {i : List ι} {h l c : Ser} (h1 : h.length = i.length) (h2 : l.length = i.length) (h3 : c.length = i.length) :
    trueRange dates (lab i h) (lab i l) (lab i c) = lab i (Ind.trueRange h l c) := by
  have hk : ∀ k, (![h, l, c] k).length = i.length := fun k => by fin_cases k <;> assumption
  have e1 := tr1_pure.same i ![h, l, c] hk
  have e2 := (tr2_pure 0).same i ![h, l, c] hk
  have e3 := (tr2_pure 1).same i ![h, l, c] hk
  have l1 := tr1_pure.length ![h, l, c] _ hk
  have l2 := (tr2_pure 0).length ![h, l, c] _ hk
  have l3 := (tr2_pure 1).length ![h, l, c] _ hk
  simp only [Matrix.cons_val] at e1 e2 e3 l1 l2 l3
  unfold trueRange Ind.trueRange
  rw [e1, e2, e3, concatMax, idx_lab l1, idx_lab l2, idx_lab l3, if_pos ⟨rfl, rfl⟩, vals_lab l1, vals_lab l2, vals_lab l3,
    ← op2_eq_zipWith _ (l1.trans l2.symm), ← op2_eq_zipWith _ (by rw [Ser.op2_length, l1, l2, l3, max_self])]
  rfl

theorem trueRange_pure : Pure 3 (fun _ _ as => trueRange true (as 0) (as 1) (as 2)) (fun xs => Ind.trueRange (xs 0) (xs 1) (xs 2)) := by
  refine ⟨fun xs m hm => ?_, fun i xs hx => trueRange_same true (hx 0) (hx 1) (hx 2), fun xs => trueRange_arrays true _ _ _, fun φ hφ as => ?_,
    fun as ha => ?_, fun as ha l hl => ?_, fun as ha l => ?_⟩
  · rw [Props.IndCausal.trueRange_length ((hm 0).trans (hm 1).symm) ((hm 1).trans (hm 2).symm), hm]
  · unfold trueRange
    rw [tr1_pure.relabel φ hφ as, (tr2_pure 0).relabel φ hφ as, (tr2_pure 1).relabel φ hφ as, concatMax_relabel true hφ]
  · unfold trueRange
    rw [concatMax_sorted (tr1_pure.sorted as ha) ((tr2_pure 0).sorted as ha) ((tr2_pure 1).sorted as ha), Sorted, idx_map]
    exact Finset.sortedLT_sort _
  · unfold trueRange at hl
    rw [concatMax_sorted (tr1_pure.sorted as ha) ((tr2_pure 0).sorted as ha) ((tr2_pure 1).sorted as ha), idx_map] at hl
    simp only [Finset.mem_sort, Finset.mem_union, List.mem_toFinset] at hl
    rcases hl with (hl | hl) | hl
    · exact tr1_pure.times as ha l hl
    · exact (tr2_pure 0).times as ha l hl
    · exact (tr2_pure 1).times as ha l hl
  · unfold trueRange
    rw [tr1_pure.causal as ha, (tr2_pure 0).causal as ha, (tr2_pure 1).causal as ha,
      concatMax_upto (tr1_pure.sorted as ha) ((tr2_pure 0).sorted as ha) ((tr2_pure 1).sorted as ha)]

/-- The average true range of dated series. -/
theorem atr_respects (w : ℝ) : Respects 3 (fun _ _ as => averageTrueRange true (as 0) (as 1) (as 2) w)
    (fun xs => Ind.averageTrueRange (xs 0) (xs 1) (xs 2) w) := by
  rcases hα : Ser.invAlpha w with e | α
  · exact .err (fun _ _ _ => by rw [averageTrueRange, hα]; rfl) (fun _ => by rw [Ind.averageTrueRange, hα]; rfl)
  · exact .ok (trueRange_pure.lift (.ewmMean α 0)) (fun _ _ _ => by rw [averageTrueRange, hα]; rfl) (fun _ => by rw [Ind.averageTrueRange, hα]; rfl)

/-- The average true range of series with other labels: the same for one index and for arrays, and only the order of labels
matters. -/
theorem atr_other (w : ℝ) (as : Fin 3 → LSer ι) (xs : Fin 3 → Ser) :
    averageTrueRange false (arr (xs 0)) (arr (xs 1)) (arr (xs 2)) w = (Ind.averageTrueRange (xs 0) (xs 1) (xs 2) w).map arr ∧
    (∀ i : List ι, (∀ k, (xs k).length = i.length) →
      averageTrueRange false (lab i (xs 0)) (lab i (xs 1)) (lab i (xs 2)) w = (Ind.averageTrueRange (xs 0) (xs 1) (xs 2) w).map (lab i)) ∧
    ∀ φ : ι → κ, StrictMono φ → averageTrueRange false ((as 0).relabel φ) ((as 1).relabel φ) ((as 2).relabel φ) w =
      (averageTrueRange false (as 0) (as 1) (as 2) w).map (relabel φ) := by
  unfold averageTrueRange Ind.averageTrueRange
  rcases Ser.invAlpha w with e | α
  · exact ⟨rfl, fun _ _ => rfl, fun _ _ => rfl⟩
  refine ⟨congrArg Except.ok ?_, fun i hi => congrArg Except.ok ?_, fun φ hφ => congrArg Except.ok ?_⟩
  · show lift (Ser.ewmMean α 0) _ = _
    rw [trueRange_arrays, lift_arr (.ewmMean α 0)]
  · show lift (Ser.ewmMean α 0) _ = _
    rw [trueRange_same false (hi 0) (hi 1) (hi 2), lift_lab (by
      rw [Props.IndCausal.trueRange_length ((hi 0).trans (hi 1).symm) ((hi 1).trans (hi 2).symm), hi])]
  · show lift (Ser.ewmMean α 0) _ = _
    unfold trueRange
    rw [tr1_pure.relabel φ hφ as, (tr2_pure 0).relabel φ hφ as, (tr2_pure 1).relabel φ hφ as, concatMax_relabel false hφ, lift_relabel]

/-! ### Keltner bands -/

/-- The four bands of `KeltnerBands` on dated series. -/
theorem keltner_respects (wa w m : ℝ) :
    Respects 3 (fun _ _ as => (keltner true (as 0) (as 1) (as 2) wa w m).map Bands.upper) (fun xs => (Ind.keltner (xs 0) (xs 1) (xs 2) wa w m).map Ind.Bands.upper) ∧
    Respects 3 (fun _ _ as => (keltner true (as 0) (as 1) (as 2) wa w m).map Bands.lower) (fun xs => (Ind.keltner (xs 0) (xs 1) (xs 2) wa w m).map Ind.Bands.lower) ∧
    Respects 3 (fun _ _ as => (keltner true (as 0) (as 1) (as 2) wa w m).map Bands.bandwidth) (fun xs => (Ind.keltner (xs 0) (xs 1) (xs 2) wa w m).map Ind.Bands.bandwidth) ∧
    Respects 3 (fun _ _ as => (keltner true (as 0) (as 1) (as 2) wa w m).map Bands.percentB) (fun xs => (Ind.keltner (xs 0) (xs 1) (xs 2) wa w m).map Ind.Bands.percentB) := by
  rcases hs : Ser.spanAlpha w with e | β
  · have h1 : ∀ (κ : Type) [LinearOrder κ] (as : Fin 3 → LSer κ), keltner true (as 0) (as 1) (as 2) wa w m = .error e := fun _ _ _ => by
      simp only [keltner, liftPy, Ind.ewmMean, hs]
      rfl
    have h2 : ∀ xs : Fin 3 → Ser, Ind.keltner (xs 0) (xs 1) (xs 2) wa w m = .error e := fun _ => by
      simp only [Ind.keltner, Ind.ewmMean, hs]
      rfl
    refine ⟨.err (e := e) ?_ ?_, .err (e := e) ?_ ?_, .err (e := e) ?_ ?_, .err (e := e) ?_ ?_⟩
    all_goals first
      | (intro _ _ as; rw [h1]; rfl)
      | (intro xs; rw [h2]; rfl)
  rcases ha : Ser.invAlpha wa with e | α
  · have h1 : ∀ (κ : Type) [LinearOrder κ] (as : Fin 3 → LSer κ), keltner true (as 0) (as 1) (as 2) wa w m = .error e := fun _ _ _ => by
      simp only [keltner, liftPy, Ind.ewmMean, averageTrueRange, hs, ha]
      rfl
    have h2 : ∀ xs : Fin 3 → Ser, Ind.keltner (xs 0) (xs 1) (xs 2) wa w m = .error e := fun _ => by
      simp only [Ind.keltner, Ind.ewmMean, Ind.averageTrueRange, hs, ha]
      rfl
    refine ⟨.err (e := e) ?_ ?_, .err (e := e) ?_ ?_, .err (e := e) ?_ ?_, .err (e := e) ?_ ?_⟩
    all_goals first
      | (intro _ _ as; rw [h1]; rfl)
      | (intro xs; rw [h2]; rfl)
  have h1 : ∀ (κ : Type) [LinearOrder κ] (as : Fin 3 → LSer κ), keltner true (as 0) (as 1) (as 2) wa w m =
      .ok ⟨as 2, lift (Ser.ewmMean β 0) (as 2), lift (Ser.ewmMean α 0) (trueRange true (as 0) (as 1) (as 2)), m⟩ := fun _ _ _ => by
    simp only [keltner, liftPy, Ind.ewmMean, averageTrueRange, hs, ha]
    rfl
  have h2 : ∀ xs : Fin 3 → Ser, Ind.keltner (xs 0) (xs 1) (xs 2) wa w m =
      .ok ⟨xs 2, Ser.ewmMean β 0 (xs 2), Ser.ewmMean α 0 (Ind.trueRange (xs 0) (xs 1) (xs 2)), m⟩ := fun _ => by
    simp only [Ind.keltner, Ind.ewmMean, Ind.averageTrueRange, hs, ha]
    rfl
  have pm := (Pure.proj (n := 3) 2).lift (.ewmMean β 0)
  have pt := trueRange_pure.lift (.ewmMean α 0)
  have ps := pt.lift (.map (· * .fin m))
  have pw := pt.lift (.map fun s => .fin 2 * s * .fin m)
  have pl := pm.op2 absorbs_sub ps
  refine ⟨.ok (pm.op2 absorbs_add ps) ?_ ?_, .ok pl ?_ ?_, .ok (pw.op2 absorbs_div pm) ?_ ?_, .ok (((Pure.proj 2).op2 absorbs_sub pl).op2 absorbs_div pw) ?_ ?_⟩
  all_goals first
    | (intro _ _ as; rw [h1]; rfl)
    | (intro xs; rw [h2]; rfl)

end Verif.LSer
