import Verif.Props.LabelAlign
import Verif.Props.MicroEdge

/-!
# C95: labels in the EDGE spread and in the buy volume, unmatched labels

`get_edge_spread` puts its estimates back on the index with `reindex`; `estimate_buy_volume` multiplies by an array.
-/

namespace Verif.LSer

open Verif

variable {ι κ : Type} [LinearOrder ι] [LinearOrder κ]

/-! ### The EDGE spread -/

theorem union_self (i : List ι) : union i i = i := by rw [union, if_pos rfl]

theorem get_lab {i : List ι} {x : Ser} (hi : i.Nodup) (hx : x.length = i.length) {t : Nat} (ht : t < i.length) : get (lab i x) i[t] = x[t] := by
  have hm : (i[t], x[t]) ∈ lab i x := by
    rw [lab, List.mem_iff_getElem]
    exact ⟨t, by simp [hx, ht], by simp⟩
  exact get_of_mem (a := lab i x) (by rwa [idx_lab hx]) hm

theorem edgeWindows_length (h l o c : Ser) (w : Nat) (sign : Bool) : (edgeWindows h l o c w sign).length = h.length + 1 - w := by simp [edgeWindows]

omit [LinearOrder ι] in
/-- The labels of the estimates. -/
theorem edge_src {i : List ι} {u : Ser} {w : Nat} (hw : 1 ≤ w) (hu : u.length = i.length + 1 - w) : u.length = (i.drop (w - 1)).length := by
  rw [List.length_drop, hu]
  omega

/-- The window estimates, one for each position. -/
noncomputable def edgePos (n : Nat) (w : Nat) (u : Ser) : Ser := (List.range n).map fun t => if w ≤ t + 1 then (u[t + 1 - w]?).getD .nan else .nan

theorem edgePlace_nodup {i : List ι} (hi : i.Nodup) {u : Ser} {w : Nat} (hw : 1 ≤ w) (hu : u.length = i.length + 1 - w) :
    edgePlace i w u = .ok (lab i (edgePos i.length w u)) := by
  have hs := edge_src hw hu
  have hd : (i.drop (w - 1)).Nodup := hi.sublist (List.drop_sublist _ _)
  have e : edgePlace i w u = .ok (reindex i (lab (i.drop (w - 1)) u)) := by
    simp only [edgePlace]
    rw [show (i.drop (w - 1)).zip u = lab (i.drop (w - 1)) u from rfl, idx_lab hs]
    split_ifs with h
    · have e1 : (lab (i.drop (w - 1)) u).idx = i := by rw [idx_lab hs, h]
      congr 1
      conv_lhs => rw [eq_map_get (a := lab (i.drop (w - 1)) u) (by rwa [e1]), e1]
      rfl
    · rfl
  rw [e, reindex_eq_lab]
  congr 2
  apply List.ext_getElem
  · simp [edgePos]
  intro t h1 h2
  have ht : t < i.length := by simpa using h1
  simp only [edgePos, List.getElem_map, List.getElem_range]
  split_ifs with hc
  · have hj : t + 1 - w < (i.drop (w - 1)).length := by rw [List.length_drop]; omega
    have : i[t] = (i.drop (w - 1))[t + 1 - w] := by
      rw [List.getElem_drop]
      congr 1
      omega
    rw [this, get_lab hd hs hj, List.getElem?_eq_getElem (by omega), Option.getD_some]
  · refine get_of_not_mem ?_
    rw [idx_lab hs]
    intro hm
    obtain ⟨j, hj, e⟩ := List.getElem_of_mem hm
    rw [List.getElem_drop] at e
    have := (hi.getElem_inj_iff).mp e
    omega

theorem edgePos_windows {h l o c : Ser} {w : Nat} (sign : Bool) :
    edgePos h.length w (edgeWindows h l o c w sign) = (List.range h.length).map fun t : Nat =>
      if w ≤ t + 1 then Micro.edgeOne (Micro.slice (t + 1 - w) w h) (Micro.slice (t + 1 - w) w l) (Micro.slice (t + 1 - w) w o) (Micro.slice (t + 1 - w) w c) sign
      else .nan := by
  refine List.map_congr_left fun t ht => ?_
  rw [List.mem_range] at ht
  split_ifs with hc
  · rw [edgeWindows, List.getElem?_map, List.getElem?_range (by omega)]
    rfl
  · rfl

theorem edge_core {i : List ι} (hi : i.Nodup) {h l o c : Ser} (hh : h.length = i.length) (w : Int) (sign : Bool) :
    (if w ≤ 0 then .error .valueError else edgePlace i w.toNat (edgeWindows h l o c w.toNat sign)) = (Micro.edgeSpread h l o c w sign).map (lab i) := by
  rw [Micro.edgeSpread]
  split_ifs with hw
  · rfl
  · rw [edgePlace_nodup hi (by omega) (by rw [edgeWindows_length, hh]), ← hh, edgePos_windows]
    rfl

/-- On one index without repeated labels, in any order, the index is kept and the values do not depend on it. -/
theorem edge_same {i : List ι} (hi : i.Nodup) {h l o c : Ser} (hh : h.length = i.length) (hl : l.length = i.length) (ho : o.length = i.length)
    (hc : c.length = i.length) (w : Int) (sign : Bool) :
    edgeSpread (lab i h) (lab i l) (lab i o) (lab i c) w sign = (Micro.edgeSpread h l o c w sign).map (lab i) := by
  have hf : frameIdx (lab i h) (lab i l) (lab i o) (lab i c) = i := by
    rw [frameIdx, idx_lab hh, idx_lab hl, idx_lab ho, idx_lab hc, union_self, union_self, union_self]
  have hcol : ∀ x : Ser, x.length = i.length → column i (lab i x) = x := fun x hx => by rw [column, if_pos (idx_lab hx), vals_lab hx]
  simp only [edgeSpread, hf, hcol h hh, hcol l hl, hcol o ho, hcol c hc]
  exact edge_core hi hh w sign

theorem frameIdx_sorted (as : Fin 4 → LSer ι) (ha : ∀ k, (as k).Sorted) : frameIdx (as 0) (as 1) (as 2) (as 3) = (labels as).sort := by
  rw [frameIdx, union_sorted (ha 2) (ha 0), union_sorted (Finset.sortedLT_sort _) (ha 1), union_sorted (Finset.sortedLT_sort _) (ha 3)]
  congr 1
  ext l
  simp only [Finset.mem_union, List.mem_toFinset, Finset.mem_sort, mem_labels, Fin.exists_fin_succ, Fin.exists_fin_zero]
  simp
  tauto

theorem column_eq {i : List ι} (hi : i.Nodup) (a : LSer ι) : column i a = i.map a.get := by
  rw [column]
  split_ifs with h
  · conv_lhs => rw [eq_map_get (a := a) (by rwa [h]), vals_map, h]
  · exact vals_reindex i a

/-- Time series are extended to all times first. -/
theorem edge_extends (w : Int) (sign : Bool) : Extends 4 (fun _ _ as => edgeSpread (as 0) (as 1) (as 2) (as 3) w sign)
    (fun xs => Micro.edgeSpread (xs 0) (xs 1) (xs 2) (xs 3) w sign) := ⟨fun as ha => by
  have hn : (labels as).sort.Nodup := Finset.sort_nodup _ _
  simp only [edgeSpread, frameIdx_sorted as ha, column_eq hn]
  exact edge_core hn (by simp) w sign⟩

/-! ### Consequences of extending first -/

section
variable {n : Nat} {F : ∀ κ : Type, [LinearOrder κ] → (Fin n → LSer κ) → Py (LSer κ)} {f : (Fin n → Ser) → Py Ser}

theorem labels_upto (as : Fin n → LSer ι) (l : ι) : labels (fun k => (as k).upto l) = (labels as).filter (· ≤ l) := by
  ext x
  simp only [mem_labels, Finset.mem_filter, idx_upto, List.mem_filter, decide_eq_true_eq]
  exact ⟨fun ⟨k, h1, h2⟩ => ⟨⟨k, h1⟩, h2⟩, fun ⟨⟨k, h1⟩, h2⟩ => ⟨k, h1, h2⟩⟩

/-- Time series give a time series on all their times. -/
theorem Extends.sorted (hF : Extends n F f) (hf : ∀ xs u m, (∀ k, (xs k).length = m) → f xs = .ok u → u.length = m) {as : Fin n → LSer ι}
    (ha : ∀ k, (as k).Sorted) {u : LSer ι} (hu : F ι as = .ok u) : u.idx = (labels as).sort ∧ u.Sorted := by
  rw [hF.eq as ha] at hu
  rcases hg : f fun k => (labels as).sort.map (as k).get with e | v
  · rw [hg] at hu; cases hu
  · rw [hg] at hu
    cases hu
    have hv : v.length = (labels as).sort.length := hf _ v _ (fun k => by simp) hg
    rw [Sorted, idx_lab hv]
    exact ⟨rfl, Finset.sortedLT_sort _⟩

/-- The values at times up to `l` are computed from what is known at `l`. -/
theorem Extends.causal (hF : Extends n F f) (hf : Props.MicroCausal.CausalN n f) (he : ∀ xs t e, f xs = .error e → f (fun k => (xs k).take t) = .error e)
    {as : Fin n → LSer ι} (ha : ∀ k, (as k).Sorted) (l : ι) : F ι (fun k => (as k).upto l) = (F ι as).map (LSer.upto l) := by
  rw [hF.eq as ha, hF.eq _ fun k => (ha k).upto l, labels_upto, ← sort_filter]
  obtain ⟨t, -, ht⟩ := upto_take (a := reindex (labels as).sort (default : LSer ι)) (sorted_reindex _ _) l
  have ht := ht (labels as).sort (idx_reindex _ _).symm
  have e : (fun k => ((labels as).sort.filter fun x => decide (x ≤ l)).map ((as k).upto l).get) = fun k => ((labels as).sort.map (as k).get).take t := by
    funext k
    rw [← List.map_take, ← ht]
    refine List.map_congr_left fun x hx => get_upto ?_
    simpa using (List.mem_filter.mp hx).2
  rw [e]
  rcases hg : f fun k => (labels as).sort.map (as k).get with e | v
  · simp only [he _ t _ hg]
    rw [hg]
    rfl
  · have hv : v.length = (labels as).sort.length := hf.1 _ v _ (fun k => by simp) hg
    simp only [hf.2 _ v t hg]
    rw [hg]
    show Except.ok (lab _ _) = .ok (LSer.upto l (lab _ _))
    congr 1
    have : LSer.upto l (lab (labels as).sort v) = (lab (labels as).sort v).take t := by
      obtain ⟨s, h1, h2⟩ := upto_take (a := lab (labels as).sort v) (by rw [Sorted, idx_lab hv]; exact Finset.sortedLT_sort _) l
      have h2 := h2 (labels as).sort (idx_lab hv).symm
      rw [h1, List.take_eq_take_iff]
      have hl := congrArg List.length (ht.symm.trans h2)
      simp only [List.length_take] at hl
      have : (lab (labels as).sort v).length = (labels as).sort.length := by rw [← length_idx, idx_lab hv]
      omega
    rw [this, ht, lab, lab]
    exact (List.take_zipWith (f := Prod.mk)).symm

end

theorem edge_err (w : Int) (sign : Bool) (xs : Fin 4 → Ser) (t : Nat) (e : PyErr) (h : Micro.edgeSpread (xs 0) (xs 1) (xs 2) (xs 3) w sign = .error e) :
    Micro.edgeSpread ((xs 0).take t) ((xs 1).take t) ((xs 2).take t) ((xs 3).take t) w sign = .error e := by
  rw [Micro.edgeSpread] at h ⊢
  split_ifs at h ⊢
  exact h

/-- No look-ahead on time series. -/
theorem edge_label_causal (as : Fin 4 → LSer ι) (ha : ∀ k, (as k).Sorted) (l : ι) (w : Int) (sign : Bool) :
    edgeSpread ((as 0).upto l) ((as 1).upto l) ((as 2).upto l) ((as 3).upto l) w sign = (edgeSpread (as 0) (as 1) (as 2) (as 3) w sign).map (upto l) :=
  (edge_extends w sign).causal (Props.MicroCausal.edge_causal w sign) (edge_err w sign) ha l

/-- A time series on all times. -/
theorem edge_label_sorted (as : Fin 4 → LSer ι) (ha : ∀ k, (as k).Sorted) {w : Int} {sign : Bool} {u : LSer ι}
    (hu : edgeSpread (as 0) (as 1) (as 2) (as 3) w sign = .ok u) : u.idx = (labels as).sort ∧ u.Sorted :=
  (edge_extends w sign).sorted (Props.MicroCausal.edge_causal w sign).1 ha hu

/-- Only the order of the labels matters. -/
theorem edge_relabel {φ : ι → κ} (hφ : StrictMono φ) (h l o c : LSer ι) (w : Int) (sign : Bool) :
    edgeSpread (h.relabel φ) (l.relabel φ) (o.relabel φ) (c.relabel φ) w sign = (edgeSpread h l o c w sign).map (relabel φ) := by
  have hf : frameIdx (h.relabel φ) (l.relabel φ) (o.relabel φ) (c.relabel φ) = (frameIdx h l o c).map φ := by
    simp only [frameIdx, idx_relabel, union_relabel hφ]
  have hcol : ∀ (i : List ι) (a : LSer ι), column (i.map φ) (a.relabel φ) = column i a := fun i a => by
    rw [column, column, idx_relabel, vals_relabel, vals_reindex, vals_reindex, List.map_map]
    by_cases h : a.idx = i
    · rw [if_pos h, if_pos (by rw [h])]
    · rw [if_neg h, if_neg (fun hc => h (hφ.injective.list_map hc))]
      exact List.map_congr_left fun x _ => get_relabel hφ.injective a x
  simp only [edgeSpread, hf, hcol]
  split_ifs
  · rfl
  have hp : ∀ (i : List ι) (w : Nat) (u : Ser), edgePlace (i.map φ) w u = (edgePlace i w u).map (relabel φ) := fun i w u => by
    have hz : ((i.map φ).drop (w - 1)).zip u = relabel φ ((i.drop (w - 1)).zip u) := by
      rw [← List.map_drop, relabel, List.zip_map_left]
      rfl
    simp only [edgePlace]
    rw [hz, idx_relabel]
    by_cases h1 : idx ((i.drop (w - 1)).zip u) = i
    · rw [if_pos (by rw [h1]), if_pos h1]
      rfl
    · rw [if_neg (fun hc => h1 (hφ.injective.list_map hc)), if_neg h1]
      by_cases h2 : (idx ((i.drop (w - 1)).zip u)).Nodup
      · rw [if_pos (h2.map hφ.injective), if_pos h2]
        show Except.ok _ = Except.ok _
        congr 1
        rw [reindex, reindex, List.map_map, relabel.eq_def φ (List.map _ _), List.map_map]
        refine List.map_congr_left fun x _ => ?_
        show (φ x, _) = (φ x, _)
        rw [get_relabel hφ.injective]
      · rw [if_neg (fun hc => h2 (List.Nodup.of_map φ hc)), if_neg h2]
        rfl
  exact hp _ _ _

/-- Repeated labels: an error if one of the labels that get an estimate is repeated among them (`w >= 2`). -/
theorem edge_repeated {i : List ι} {h l o c : Ser} (hh : h.length = i.length) (hl : l.length = i.length) (ho : o.length = i.length)
    (hc : c.length = i.length) {w : Nat} (hw : 2 ≤ w) (hd : ¬(i.drop (w - 1)).Nodup) (sign : Bool) :
    edgeSpread (lab i h) (lab i l) (lab i o) (lab i c) w sign = .error .valueError := by
  have hf : frameIdx (lab i h) (lab i l) (lab i o) (lab i c) = i := by
    rw [frameIdx, idx_lab hh, idx_lab hl, idx_lab ho, idx_lab hc, union_self, union_self, union_self]
  have hcol : ∀ x : Ser, x.length = i.length → column i (lab i x) = x := fun x hx => by rw [column, if_pos (idx_lab hx), vals_lab hx]
  have hs : (edgeWindows h l o c w sign).length = (i.drop (w - 1)).length := edge_src (by omega) (by rw [edgeWindows_length, hh])
  simp only [edgeSpread, hf, hcol h hh, hcol l hl, hcol o ho, hcol c hc, Int.toNat_natCast]
  rw [if_neg (by omega)]
  simp only [edgePlace]
  rw [show (i.drop (w - 1)).zip (edgeWindows h l o c w sign) = lab (i.drop (w - 1)) (edgeWindows h l o c w sign) from rfl, idx_lab hs, if_neg, if_neg hd]
  intro hc
  have := congrArg List.length hc
  rw [List.length_drop] at this
  have hi : i.length ≠ 0 := fun h0 => hd (by rw [List.length_eq_zero_iff.mp h0]; simp)
  omega

/-- Otherwise every position whose label is that of a position `t` with an estimate gets the estimate of `t`, later or not. -/
theorem edge_repeated_value {i : List ι} {h l o c : Ser} (hh : h.length = i.length) (hl : l.length = i.length) (ho : o.length = i.length)
    (hc : c.length = i.length) {w : Nat} (hw : 1 ≤ w) (hd : (i.drop (w - 1)).Nodup) (sign : Bool) :
    ∃ v : Ser, edgeSpread (lab i h) (lab i l) (lab i o) (lab i c) w sign = .ok (lab i v) ∧ v.length = i.length ∧
      ∀ s t : Nat, w ≤ t + 1 → s < i.length → t < i.length → i[s]? = i[t]? →
        v[s]? = some (Micro.edgeOne (Micro.slice (t + 1 - w) w h) (Micro.slice (t + 1 - w) w l) (Micro.slice (t + 1 - w) w o) (Micro.slice (t + 1 - w) w c) sign) := by
  have hf : frameIdx (lab i h) (lab i l) (lab i o) (lab i c) = i := by
    rw [frameIdx, idx_lab hh, idx_lab hl, idx_lab ho, idx_lab hc, union_self, union_self, union_self]
  have hcol : ∀ x : Ser, x.length = i.length → column i (lab i x) = x := fun x hx => by rw [column, if_pos (idx_lab hx), vals_lab hx]
  have hu : (edgeWindows h l o c w sign).length = i.length + 1 - w := by rw [edgeWindows_length, hh]
  have hs : (edgeWindows h l o c w sign).length = (i.drop (w - 1)).length := edge_src hw hu
  have key : edgeSpread (lab i h) (lab i l) (lab i o) (lab i c) w sign = .ok (reindex i (lab (i.drop (w - 1)) (edgeWindows h l o c w sign))) := by
    simp only [edgeSpread, hf, hcol h hh, hcol l hl, hcol o ho, hcol c hc, Int.toNat_natCast]
    rw [if_neg (by omega)]
    simp only [edgePlace]
    rw [show (i.drop (w - 1)).zip (edgeWindows h l o c w sign) = lab (i.drop (w - 1)) (edgeWindows h l o c w sign) from rfl, idx_lab hs]
    split_ifs with hcase
    · have e1 : (lab (i.drop (w - 1)) (edgeWindows h l o c w sign)).idx = i := by rw [idx_lab hs, hcase]
      congr 1
      conv_lhs => rw [eq_map_get (a := lab (i.drop (w - 1)) (edgeWindows h l o c w sign)) (by rw [idx_lab hs]; exact hd), e1]
      rfl
    · rfl
  refine ⟨i.map (lab (i.drop (w - 1)) (edgeWindows h l o c w sign)).get, by rw [key, reindex_eq_lab], by simp, fun s t hwt hs' ht he => ?_⟩
  rw [List.getElem?_eq_getElem hs', List.getElem?_eq_getElem ht, Option.some_inj] at he
  have hj : t + 1 - w < (i.drop (w - 1)).length := by rw [List.length_drop]; omega
  have : i[t] = (i.drop (w - 1))[t + 1 - w] := by
    rw [List.getElem_drop]
    congr 1
    omega
  rw [List.getElem?_map, List.getElem?_eq_getElem hs', Option.map_some, he, this, get_lab hd hs hj]
  simp [edgeWindows]

open Props.MicroEdge Props.IndRolling in
/-- Finding: with a repeated label the spread of the first bar is the estimate of the last window. -/
theorem edge_lookahead : ∃ (i : List Nat) (h l o c u v : Ser), i.length = 4 ∧ h.length = 4 ∧ l.length = 4 ∧ o.length = 4 ∧ c.length = 4 ∧
    edgeSpread (lab i h) (lab i l) (lab i o) (lab i c) 3 false = .ok (lab i u) ∧ u[0]? = some (.fin (1 / 2)) ∧
    edgeSpread (lab (i.take 3) (h.take 3)) (lab (i.take 3) (l.take 3)) (lab (i.take 3) (o.take 3)) (lab (i.take 3) (c.take 3)) 3 false = .ok (lab (i.take 3) v) ∧
    v[0]? = some .nan := by
  let E : ℝ → XF := fun x => .fin (Real.exp x)
  let h : Ser := [E 1, E 2, E 3, E 2]
  let l : Ser := [E 0, E 0, E 0, E (-1)]
  let o : Ser := [E 0, E 0, E 1, E 0]
  let c : Ser := [E 0, E 1, E 1, E 0]
  obtain ⟨u, hu, -, hv⟩ := edge_repeated_value (i := ([0, 1, 2, 0] : List Nat)) (h := h) (l := l) (o := o) (c := c) rfl rfl rfl rfl (w := 3) (by norm_num) (by decide) false
  have h0 := hv 0 3 (by norm_num) (by simp) (by simp) rfl
  refine ⟨[0, 1, 2, 0], h, l, o, c, u, _, rfl, rfl, rfl, rfl, rfl, hu, ?_, edge_same (i := ([0, 1, 2] : List Nat)) (by decide) rfl rfl rfl rfl 3 false, ?_⟩
  · rw [h0]
    have oh : Obs h (fun k => Real.exp (if k = 1 then 2 else if k = 2 then 3 else 2)) 3 3 := by
      refine ⟨by norm_num, fun k hk => ?_⟩
      rw [Finset.mem_Ico] at hk
      obtain rfl | rfl | rfl : k = 1 ∨ k = 2 ∨ k = 3 := by omega
      all_goals simp [h, E]
    have ol : Obs l (fun k => Real.exp (if k = 3 then -1 else 0)) 3 3 := by
      refine ⟨by norm_num, fun k hk => ?_⟩
      rw [Finset.mem_Ico] at hk
      obtain rfl | rfl | rfl : k = 1 ∨ k = 2 ∨ k = 3 := by omega
      all_goals simp [l, E]
    have oo : Obs o (fun k => Real.exp (if k = 2 then 1 else 0)) 3 3 := by
      refine ⟨by norm_num, fun k hk => ?_⟩
      rw [Finset.mem_Ico] at hk
      obtain rfl | rfl | rfl : k = 1 ∨ k = 2 ∨ k = 3 := by omega
      all_goals simp [o, E]
    have oc : Obs c (fun k => Real.exp (if k = 3 then 0 else 1)) 3 3 := by
      refine ⟨by norm_num, fun k hk => ?_⟩
      rw [Finset.mem_Ico] at hk
      obtain rfl | rfl | rfl : k = 1 ∨ k = 2 ∨ k = 3 := by omega
      all_goals simp [c, E]
    rw [Micro.edgeOne, barsOf_real (by norm_num) oh ol oo oc fun _ _ => ⟨Real.exp_pos _, Real.exp_pos _, Real.exp_pos _, Real.exp_pos _⟩,
      ← edge_example.2.1]
    congr 2
    refine List.map_congr_left fun j hj => ?_
    have hj : j = 0 ∨ j = 1 := by
      have := List.mem_range.mp hj
      omega
    rcases hj with rfl | rfl <;> simp [pair, Real.log_exp]
  · rw [List.getElem?_map, List.getElem?_range (by simp [h])]
    rfl

/-! ### The buy volume -/

theorem diff_length1 (c : Ser) : (Ser.diff 1 c).length = c.length := Method.diff.length c

/-- The price changes and the volumes are multiplied by position: only the labels of the volume are looked at. -/
theorem buyVolume_position (cdf : XF → XF) {i j : List ι} {c v s : Ser} (hc : c.length = i.length) (hs : s.length = i.length)
    (hv : v.length = j.length) (hij : i.length = j.length) :
    estimateBuyVolume cdf (lab i c) (lab j v) (lab i s) = .ok (lab j (Micro.estimateBuyVolume cdf c v s)) := by
  have hl : (lab j v).length = j.length := by rw [← length_idx, idx_lab hv]
  have hx : (Ser.op2 (· / ·) (Ser.diff 1 c) s).length = i.length := by rw [Ser.op2_length, diff_length1, hc, hs, max_self]
  rw [estimateBuyVolume, lift_lab hc, op2_lab _ (by rw [diff_length1, hc]) hs, vals_lab hx, mulArray.eq_def, if_pos (by rw [List.length_map, hx, hl, hij]),
    idx_lab hv, vals_lab hv, Micro.estimateBuyVolume,
    op2_eq_zipWith (· * ·) (x := v) (y := (Ser.op2 (· / ·) (Ser.diff 1 c) s).map cdf) (by rw [List.length_map, hx, hv, hij])]
  rfl

/-- It raises ValueError exactly if the number of labels of prices and standard deviations is neither that of the volume nor one. -/
theorem buyVolume_error (cdf : XF → XF) {c s : LSer ι} (v : LSer ι) (hc : c.Sorted) (hs : s.Sorted) :
    ((∃ u, estimateBuyVolume cdf c v s = .ok u) ↔ (c.idx.toFinset ∪ s.idx.toFinset).card = v.length ∨ (c.idx.toFinset ∪ s.idx.toFinset).card = 1) ∧
    ∀ e, estimateBuyVolume cdf c v s = .error e → e = .valueError := by
  have hd : (lift (Ser.diff 1) c).Sorted := by
    rw [Sorted, Method.diff.idx_lift]
    exact hc
  have hx : ((op2 (· / ·) (lift (Ser.diff 1) c) s).vals.map cdf).length = (c.idx.toFinset ∪ s.idx.toFinset).card := by
    rw [List.length_map, length_vals, op2_sorted _ hd hs, List.length_map, Finset.length_sort, Method.diff.idx_lift]
  rw [estimateBuyVolume, ← hx]
  generalize (op2 (· / ·) (lift (Ser.diff 1) c) s).vals.map cdf = x
  rw [mulArray.eq_def]
  by_cases h : x.length = v.length
  · rw [if_pos h]
    exact ⟨⟨fun _ => .inl h, fun _ => ⟨_, rfl⟩⟩, fun e he => nomatch he⟩
  · rw [if_neg h]
    rcases x with _ | ⟨a, _ | ⟨b, x⟩⟩
    · exact ⟨⟨fun ⟨u, hu⟩ => (nomatch hu), fun hc => hc.elim (fun h' => absurd h' h) fun h' => by simp at h'⟩, fun e he => by cases he; rfl⟩
    · exact ⟨⟨fun _ => .inr rfl, fun _ => ⟨_, rfl⟩⟩, fun e he => nomatch he⟩
    · exact ⟨⟨fun ⟨u, hu⟩ => (nomatch hu), fun hc => hc.elim (fun h' => absurd h' h) fun h' => by simp at h'⟩, fun e he => by cases he; rfl⟩

/-- Finding: with prices one day ahead of the volumes, the buy volume of day 1 is computed from the price of day 2. -/
theorem buyVolume_lookahead (cdf : XF → XF) (x : ℝ) :
    ∃ u, estimateBuyVolume cdf (lab [1, 2] [.fin 10, .fin x] : LSer Nat) (lab [0, 1] [.fin 100, .fin 100]) (lab [1, 2] [.fin 1, .fin 1]) = .ok u ∧
      get u 1 = .fin 100 * cdf (.fin (x - 10)) := by
  refine ⟨_, buyVolume_position cdf rfl rfl rfl rfl, ?_⟩
  rw [show get _ 1 = get _ ([0, 1][1]) from rfl, get_lab (by decide) (by simp [Micro.estimateBuyVolume, Ser.op2_length, diff_length1])]
  simp [Micro.estimateBuyVolume, Ser.op2, Ser.diff, Ser.shift, List.range_succ]

end Verif.LSer
