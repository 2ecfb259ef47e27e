import Verif.Spec.Labelled
import Verif.Lemmas.Series
import Mathlib.Data.List.Sort

/-!
# Labelled series
-/

namespace Verif.LSer

section

variable {ι : Type}

@[simp] theorem idx_lab {i : List ι} {x : Ser} (h : x.length = i.length) : (lab i x).idx = i := by
  rw [idx, lab, List.map_fst_zip (by omega)]

@[simp] theorem vals_lab {i : List ι} {x : Ser} (h : x.length = i.length) : (lab i x).vals = x := by
  rw [vals, lab, List.map_snd_zip (by omega)]

theorem lab_idx_vals (a : LSer ι) : lab a.idx a.vals = a := by
  rw [lab, idx, vals, ← List.unzip_fst, ← List.unzip_snd, List.zip_unzip]

@[simp] theorem length_idx (a : LSer ι) : a.idx.length = a.length := by simp [idx]
@[simp] theorem length_vals (a : LSer ι) : a.vals.length = a.length := by simp [vals]

@[simp] theorem idx_map (i : List ι) (g : ι → XF) : idx (i.map fun l => (l, g l)) = i := by
  simp [idx, Function.comp_def]

@[simp] theorem vals_map (i : List ι) (g : ι → XF) : vals (i.map fun l => (l, g l)) = i.map g := by
  simp [vals, Function.comp_def]

theorem idx_relabel {κ : Type} (φ : ι → κ) (a : LSer ι) : (relabel φ a).idx = a.idx.map φ := by simp [idx, relabel]

theorem vals_relabel {κ : Type} (φ : ι → κ) (a : LSer ι) : (relabel φ a).vals = a.vals := by simp [vals, relabel]

theorem lift_relabel (g : Ser → Ser) {κ : Type} (φ : ι → κ) (a : LSer ι) : lift g (relabel φ a) = relabel φ (lift g a) := by
  have h1 : (relabel φ a).idx = a.idx.map φ := by simp [idx, relabel]
  have h2 : (relabel φ a).vals = a.vals := by simp [vals, relabel]
  rw [lift, lift, h1, h2, relabel, List.zip_map_left]
  rfl

theorem lift_lab {i : List ι} {x : Ser} (hx : x.length = i.length) (g : Ser → Ser) : lift g (lab i x) = lab i (g x) := by
  rw [lift, idx_lab hx, vals_lab hx, lab]

/-! ### Methods of one series -/

/-- A method of one series: one value per value, and no look ahead. -/
structure Method (g : Ser → Ser) : Prop where
  length : ∀ x, (g x).length = x.length
  take : ∀ x t, g (x.take t) = (g x).take t

variable {g : Ser → Ser}

theorem Method.idx_lift (h : Method g) (a : LSer ι) : (lift g a).idx = a.idx := idx_lab (by simp [h.length])

theorem Method.vals_lift (h : Method g) (a : LSer ι) : (lift g a).vals = g a.vals := vals_lab (by simp [h.length])

end

variable {ι κ : Type} [LinearOrder ι] [LinearOrder κ] {g : Ser → Ser}

/-! ### Lookup -/

@[simp] theorem get_nil (l : ι) : get ([] : LSer ι) l = .nan := rfl

theorem get_cons (p : ι × XF) (a : LSer ι) (l : ι) : get (p :: a) l = if p.1 = l then p.2 else get a l := by
  rw [get, List.find?_cons]
  by_cases h : p.1 = l <;> simp [h, get]

theorem get_of_mem {a : LSer ι} (h : a.idx.Nodup) {p : ι × XF} (hp : p ∈ a) : get a p.1 = p.2 := by
  induction a with
  | nil => cases hp
  | cons q a ih =>
    rw [get_cons]
    have hn : q.1 ∉ idx a ∧ (idx a).Nodup := by simpa [idx] using h
    rcases List.mem_cons.mp hp with rfl | hp
    · rw [if_pos rfl]
    · rw [if_neg, ih hn.2 hp]
      intro e
      exact hn.1 (e ▸ List.mem_map_of_mem (f := Prod.fst) hp)

theorem get_of_not_mem {a : LSer ι} {l : ι} (h : l ∉ a.idx) : get a l = .nan := by
  induction a with
  | nil => rfl
  | cons q a ih =>
    have hn : ¬ l = q.1 ∧ l ∉ idx a := by simpa [idx] using h
    rw [get_cons, if_neg (fun e => hn.1 e.symm), ih hn.2]

theorem eq_map_get {a : LSer ι} (h : a.idx.Nodup) : a = a.idx.map fun l => (l, get a l) := by
  rw [idx, List.map_map]
  conv_lhs => rw [← List.map_id a]
  refine List.map_congr_left fun p hp => ?_
  simp [get_of_mem h hp]

theorem get_map {i : List ι} (h : i.Nodup) (g : ι → XF) {l : ι} (hl : l ∈ i) : get (i.map fun l => (l, g l)) l = g l :=
  get_of_mem (a := i.map fun l => (l, g l)) (by simpa using h) (List.mem_map_of_mem (f := fun l => (l, g l)) hl)

/-- Two time series with the same times and the same values are equal. -/
theorem Sorted.ext {a b : LSer ι} (ha : a.Sorted) (hb : b.Sorted) (h : ∀ l, l ∈ a.idx ↔ l ∈ b.idx) (hg : ∀ l, get a l = get b l) : a = b := by
  have : a.idx = b.idx := List.SortedLT.eq_of_mem_iff ha hb h
  rw [eq_map_get ha.nodup, eq_map_get hb.nodup, this]
  exact List.map_congr_left fun l _ => by rw [hg]

/-! ### Alignment -/

theorem sort_idx {i : List ι} (h : i.SortedLT) : i.toFinset.sort = i :=
  List.SortedLT.eq_of_mem_iff (Finset.sortedLT_sort _) h (by simp)

theorem union_sorted {i j : List ι} (hi : i.SortedLT) (hj : j.SortedLT) : union i j = (i.toFinset ∪ j.toFinset).sort := by
  unfold union
  split_ifs with h1 h2 h3
  · rw [h1, Finset.union_self, sort_idx hj]
  · rw [h2, List.toFinset_nil, Finset.union_empty, sort_idx hi]
  · rw [h3, List.toFinset_nil, Finset.empty_union, sort_idx hj]
  · rfl

theorem zip_zipWith (f : XF → XF → XF) (a b : LSer ι) (h : a.idx = b.idx) (hn : a.idx.Nodup) :
    a.idx.zip (List.zipWith f a.vals b.vals) = a.idx.map fun l => (l, f (a.get l) (b.get l)) := by
  have ea := eq_map_get hn
  have eb := eq_map_get (a := b) (h ▸ hn)
  have va : a.vals = a.idx.map a.get := by conv_lhs => rw [ea, vals_map]
  have vb : b.vals = a.idx.map b.get := by conv_lhs => rw [eb, vals_map, ← h]
  rw [va, vb]
  generalize a.idx = i
  induction i with
  | nil => rfl
  | cons l i ih => rw [List.map_cons, List.map_cons, List.zipWith_cons_cons, List.zip_cons_cons, ih, List.map_cons]

theorem op2_sorted (f : XF → XF → XF) {a b : LSer ι} (ha : a.Sorted) (hb : b.Sorted) :
    op2 f a b = (a.idx.toFinset ∪ b.idx.toFinset).sort.map fun l => (l, f (a.get l) (b.get l)) := by
  unfold op2
  split_ifs with h
  · rw [zip_zipWith f a b h ha.nodup, ← h, Finset.union_self, sort_idx ha]
  · rw [union_sorted ha hb]

theorem Sorted.op2 (f : XF → XF → XF) {a b : LSer ι} (ha : a.Sorted) (hb : b.Sorted) : (op2 f a b).Sorted := by
  rw [op2_sorted f ha hb, Sorted, idx_map]
  exact Finset.sortedLT_sort _

theorem mem_idx_op2 (f : XF → XF → XF) {a b : LSer ι} (ha : a.Sorted) (hb : b.Sorted) {l : ι} :
    l ∈ (LSer.op2 f a b).idx ↔ l ∈ a.idx ∨ l ∈ b.idx := by
  rw [op2_sorted f ha hb, idx_map]
  simp

theorem get_op2 {f : XF → XF → XF} (h : f .nan .nan = .nan) {a b : LSer ι} (ha : a.Sorted) (hb : b.Sorted) (l : ι) :
    get (LSer.op2 f a b) l = f (a.get l) (b.get l) := by
  by_cases hl : l ∈ a.idx ∨ l ∈ b.idx
  · rw [op2_sorted f ha hb, get_map (Finset.sort_nodup _ _) _ (by simpa using hl)]
  · rw [get_of_not_mem (by rwa [mem_idx_op2 f ha hb])]
    push Not at hl
    rw [get_of_not_mem hl.1, get_of_not_mem hl.2, h]

/-! ### Cutting -/

theorem idx_upto (l : ι) (a : LSer ι) : (upto l a).idx = a.idx.filter fun x => decide (x ≤ l) := by
  rw [idx, upto, idx, List.filter_map]
  rfl

theorem Sorted.upto {a : LSer ι} (h : a.Sorted) (l : ι) : (upto l a).Sorted := by
  rw [Sorted, idx_upto]
  exact (h.pairwise.filter _).sortedLT

theorem get_upto {a : LSer ι} {l l' : ι} (h : l' ≤ l) : get (upto l a) l' = get a l' := by
  induction a with
  | nil => rfl
  | cons p a ih =>
    by_cases hp : p.1 ≤ l
    · rw [upto, List.filter_cons_of_pos (by simpa using hp), get_cons, get_cons]
      exact if_congr Iff.rfl rfl ih
    · rw [upto, List.filter_cons_of_neg (by simpa using hp), get_cons, if_neg]
      · exact ih
      · rintro rfl
        exact hp h

theorem sort_filter (s : Finset ι) (l : ι) : s.sort.filter (fun x => decide (x ≤ l)) = (s.filter (· ≤ l)).sort :=
  List.SortedLT.eq_of_mem_iff ((Finset.sortedLT_sort s).pairwise.filter _).sortedLT (Finset.sortedLT_sort _) (by simp)

theorem op2_upto (f : XF → XF → XF) {a b : LSer ι} (ha : a.Sorted) (hb : b.Sorted) (l : ι) :
    LSer.op2 f (upto l a) (upto l b) = upto l (LSer.op2 f a b) := by
  rw [op2_sorted f (ha.upto l) (hb.upto l), op2_sorted f ha hb, upto.eq_def l (List.map _ _), List.filter_map]
  have : ((fun p : ι × XF => decide (p.1 ≤ l)) ∘ fun x => (x, f (a.get x) (b.get x))) = fun x => decide (x ≤ l) := rfl
  rw [this, sort_filter, idx_upto, idx_upto, List.toFinset_filter, List.toFinset_filter, ← Finset.filter_union]
  simp only [decide_eq_true_eq]
  refine List.map_congr_left fun x hx => ?_
  have hx : x ≤ l := by
    rw [Finset.mem_sort, Finset.mem_filter] at hx
    exact hx.2
  rw [get_upto hx, get_upto hx]

/-- Cutting a time series is taking its first values. -/
theorem upto_take {a : LSer ι} (h : a.Sorted) (l : ι) : ∃ t, upto l a = a.take t ∧ ∀ i : List ι, i = a.idx → i.filter (fun x => decide (x ≤ l)) = i.take t := by
  suffices ∀ a : LSer ι, a.Sorted → ∃ t, upto l a = a.take t by
    obtain ⟨t, ht⟩ := this a h
    refine ⟨t, ht, ?_⟩
    rintro i rfl
    rw [← idx_upto, ht, idx, idx, List.map_take]
  intro a h
  induction a with
  | nil => exact ⟨0, rfl⟩
  | cons p a ih =>
    have hp : (∀ x ∈ idx a, p.1 < x) ∧ Sorted a := by
      have := h.pairwise
      rw [idx, List.map_cons, List.pairwise_cons] at this
      exact ⟨this.1, this.2.sortedLT⟩
    by_cases hl : p.1 ≤ l
    · obtain ⟨t, ht⟩ := ih hp.2
      refine ⟨t + 1, ?_⟩
      rw [upto, List.filter_cons_of_pos (by simpa using hl), List.take_succ_cons, ← ht, upto]
    · refine ⟨0, ?_⟩
      rw [upto, List.filter_eq_nil_iff.mpr, List.take_zero]
      intro q hq
      simp only [decide_eq_true_eq]
      rcases List.mem_cons.mp hq with rfl | hq
      · exact hl
      · exact fun hc => hl ((hp.1 _ (List.mem_map_of_mem (f := Prod.fst) hq)).le.trans hc)

theorem Method.upto (h : Method g) {a : LSer ι} (ha : a.Sorted) (l : ι) : lift g (upto l a) = LSer.upto l (lift g a) := by
  obtain ⟨t, h1, -⟩ := upto_take ha l
  obtain ⟨s, h2, h3⟩ := upto_take (a := lift g a) (by rw [Sorted, h.idx_lift]; exact ha) l
  have e : a.idx.take t = a.idx.take s := by
    rw [← h3 a.idx (h.idx_lift a).symm, ← idx_upto, h1, idx, idx, List.map_take]
  rw [h1, h2, lift, lift, show (a.idx.zip (g a.vals)).take s = (a.idx.take s).zip ((g a.vals).take s) from List.take_zipWith (f := Prod.mk)]
  have : idx (a.take t) = a.idx.take t := by rw [idx, idx, List.map_take]
  rw [this, e]
  have hv : vals (a.take t) = a.vals.take s := by
    have e' : a.take t = a.take s := by
      have hl := congrArg List.length e
      simp only [List.length_take, length_idx] at hl
      rw [List.take_eq_take_iff, hl]
    rw [e', vals, vals, List.map_take]
  rw [hv, h.take]

/-! ### Relabelling -/

theorem get_relabel {φ : ι → κ} (h : Function.Injective φ) (a : LSer ι) (l : ι) : get (relabel φ a) (φ l) = get a l := by
  induction a with
  | nil => rfl
  | cons p a ih =>
    rw [relabel, List.map_cons, get_cons, get_cons]
    exact if_congr h.eq_iff rfl ih

theorem sort_map {φ : ι → κ} (h : StrictMono φ) (s : Finset ι) : (s.image φ).sort = s.sort.map φ :=
  List.SortedLT.eq_of_mem_iff (Finset.sortedLT_sort _)
    ((Finset.sortedLT_sort s).pairwise.map φ fun _ _ hab => h hab).sortedLT (by simp)

theorem union_relabel {φ : ι → κ} (h : StrictMono φ) (i j : List ι) : union (i.map φ) (j.map φ) = (union i j).map φ := by
  have hi := (List.map_injective_iff.mpr h.injective).eq_iff (a := i) (b := j)
  unfold union
  by_cases h1 : i = j
  · rw [if_pos (hi.mpr h1), if_pos h1]
  rw [if_neg (hi.not.mpr h1), if_neg h1]
  by_cases h2 : j = []
  · rw [if_pos (by rw [h2]; rfl), if_pos h2]
  rw [if_neg (by simpa using h2), if_neg h2]
  by_cases h3 : i = []
  · rw [if_pos (by rw [h3]; rfl), if_pos h3]
  rw [if_neg (by simpa using h3), if_neg h3, ← sort_map h, Finset.image_union]
  congr 2 <;> ext <;> simp

theorem op2_relabel (f : XF → XF → XF) {φ : ι → κ} (h : StrictMono φ) (a b : LSer ι) :
    LSer.op2 f (relabel φ a) (relabel φ b) = relabel φ (LSer.op2 f a b) := by
  have hi := (List.map_injective_iff.mpr h.injective).eq_iff (a := a.idx) (b := b.idx)
  unfold LSer.op2
  rw [idx_relabel, idx_relabel, vals_relabel, vals_relabel]
  by_cases h1 : a.idx = b.idx
  · rw [if_pos (hi.mpr h1), if_pos h1, relabel, List.zip_map_left]
    rfl
  · rw [if_neg (hi.not.mpr h1), if_neg h1, union_relabel h, relabel.eq_def φ (List.map _ _), List.map_map, List.map_map]
    refine List.map_congr_left fun l _ => ?_
    simp only [Function.comp, get_relabel h.injective]

/-! ### One index -/

theorem op2_eq_zipWith (f : XF → XF → XF) {x y : Ser} (h : x.length = y.length) : Ser.op2 f x y = List.zipWith f x y := by
  induction x generalizing y with
  | nil => cases y <;> simp_all [Ser.op2]
  | cons a x ih =>
    cases y with
    | nil => simp at h
    | cons b y => simp [Ser.op2, ih (by simpa using h)]

theorem op2_lab (f : XF → XF → XF) {i : List ι} {x y : Ser} (hx : x.length = i.length) (hy : y.length = i.length) :
    LSer.op2 f (lab i x) (lab i y) = lab i (Ser.op2 f x y) := by
  rw [LSer.op2, idx_lab hx, idx_lab hy, if_pos rfl, vals_lab hx, vals_lab hy, op2_eq_zipWith f (hx.trans hy.symm), lab]

/-! ### Arrays -/

theorem arr_sorted (x : Ser) : (arr x).Sorted := by
  rw [Sorted, arr, idx_lab (by simp)]
  exact List.sortedLT_range _

theorem idx_arr (x : Ser) : (arr x).idx = List.range x.length := idx_lab (by simp)

theorem get_arr (x : Ser) (t : Nat) : get (arr x) t = (x[t]?).getD .nan := by
  by_cases h : t < x.length
  · rw [List.getElem?_eq_getElem h, Option.getD_some]
    refine get_of_mem (p := (t, x[t])) (arr_sorted x).nodup ?_
    rw [arr, lab, List.mem_iff_getElem]
    exact ⟨t, by simpa using h, by simp⟩
  · rw [List.getElem?_eq_none (by omega), Option.getD_none, get_of_not_mem (by simpa [idx_arr] using h)]

theorem op2_getD {f : XF → XF → XF} (h1 : ∀ a, f a .nan = .nan) (h2 : ∀ b, f .nan b = .nan) (x y : Ser) (t : Nat) :
    ((Ser.op2 f x y)[t]?).getD .nan = f ((x[t]?).getD .nan) ((y[t]?).getD .nan) := by
  have hn : ∀ (y : Ser) (t : Nat), ((y.map fun _ => XF.nan)[t]?).getD .nan = .nan := fun y t => by
    rw [List.getElem?_map]
    cases y[t]? <;> rfl
  induction x generalizing y t with
  | nil => rw [List.getElem?_nil, Option.getD_none, h2, Ser.op2, hn]
  | cons a x ih =>
    cases y with
    | nil => rw [List.getElem?_nil, Option.getD_none, h1, Ser.op2, hn]; simp
    | cons b y =>
      cases t with
      | zero => simp [Ser.op2]
      | succ t => simpa [Ser.op2] using ih y t

theorem op2_arr {f : XF → XF → XF} (h1 : ∀ a, f a .nan = .nan) (h2 : ∀ b, f .nan b = .nan) (x y : Ser) :
    LSer.op2 f (arr x) (arr y) = arr (Ser.op2 f x y) := by
  refine Sorted.ext ((arr_sorted x).op2 f (arr_sorted y)) (arr_sorted _) (fun l => ?_) fun l => ?_
  · rw [mem_idx_op2 f (arr_sorted x) (arr_sorted y), idx_arr, idx_arr, idx_arr, Ser.op2_length]
    simp
  · rw [get_op2 (h1 _) (arr_sorted x) (arr_sorted y), get_arr, get_arr, get_arr, op2_getD h1 h2]

theorem lift_arr (h : Method g) (x : Ser) : lift g (arr x) = arr (g x) := by
  rw [arr, lift_lab (by simp), arr, h.length]

end Verif.LSer
