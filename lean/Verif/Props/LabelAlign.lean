import Verif.Props.LabelRange

/-!
# C95: series with different labels
-/

namespace Verif.LSer

open Verif

variable {ι κ : Type} [LinearOrder ι] [LinearOrder κ]

/-! ### Functions that extend their arguments to all labels first -/

theorem idx_reindex (i : List ι) (a : LSer ι) : (reindex i a).idx = i := idx_map i a.get

theorem vals_reindex (i : List ι) (a : LSer ι) : (reindex i a).vals = i.map a.get := vals_map i a.get

theorem reindex_eq_lab (i : List ι) (a : LSer ι) : reindex i a = lab i (i.map a.get) := by
  rw [← vals_reindex]
  conv_lhs => rw [← lab_idx_vals (reindex i a), idx_reindex]

theorem sorted_reindex (s : Finset ι) (a : LSer ι) : (reindex s.sort a).Sorted := by
  rw [Sorted, idx_reindex]
  exact Finset.sortedLT_sort s

theorem get_reindex {s : Finset ι} (a : LSer ι) (l : ι) : get (reindex s.sort a) l = if l ∈ s then a.get l else .nan := by
  split_ifs with h
  · exact get_map (Finset.sort_nodup _ _) _ (by simpa using h)
  · exact get_of_not_mem (by rw [idx_reindex]; simpa using h)

theorem reindex_self {a : LSer ι} (h : a.Sorted) : reindex a.idx.toFinset.sort a = a := by
  rw [sort_idx h, reindex, ← eq_map_get h.nodup]

/-- An expression that may as well be evaluated after all arguments have been given the same labels. -/
structure Aligns (n : Nat) (G : ∀ κ : Type, [LinearOrder κ] → (Fin n → LSer κ) → LSer κ) : Prop where
  eq : ∀ {κ : Type} [LinearOrder κ] (as : Fin n → LSer κ), (∀ k, (as k).Sorted) → ∀ s : Finset κ,
    G κ (fun k => reindex s.sort (as k)) = reindex s.sort (G κ as)

variable {n : Nat} {G H : ∀ κ : Type, [LinearOrder κ] → (Fin n → LSer κ) → LSer κ} {g h : (Fin n → Ser) → Ser}

theorem Aligns.proj (k : Fin n) : Aligns n (fun _ _ as => as k) := ⟨fun _ _ _ => rfl⟩

theorem op2_reindex {f : XF → XF → XF} (hf : f .nan .nan = .nan) {a b : LSer ι} (ha : a.Sorted) (hb : b.Sorted) (s : Finset ι) :
    op2 f (reindex s.sort a) (reindex s.sort b) = reindex s.sort (op2 f a b) := by
  refine Sorted.ext ((sorted_reindex s a).op2 f (sorted_reindex s b)) (sorted_reindex s _) (fun l => ?_) fun l => ?_
  · rw [mem_idx_op2 f (sorted_reindex s a) (sorted_reindex s b), idx_reindex, idx_reindex, idx_reindex, or_self]
  · rw [get_op2 hf (sorted_reindex s a) (sorted_reindex s b), get_reindex, get_reindex, get_reindex, get_op2 hf ha hb]
    split_ifs
    · rfl
    · exact hf

theorem Aligns.op2 {f : XF → XF → XF} (hf : Absorbs f) (aG : Aligns n G) (aH : Aligns n H) (pG : Pure n G g) (pH : Pure n H h) :
    Aligns n (fun κ _ as => LSer.op2 f (G κ as) (H κ as)) := ⟨fun as ha s => by
  rw [aG.eq as ha, aH.eq as ha, op2_reindex (hf.1 _) (pG.sorted as ha) (pH.sorted as ha)]⟩

theorem get_lift_map {f : XF → XF} (hf : f .nan = .nan) (a : LSer ι) (l : ι) : get (lift (·.map f) a) l = f (a.get l) := by
  induction a with
  | nil => exact hf.symm
  | cons p a ih =>
    rw [lift, idx, vals, List.map_cons, List.map_cons, List.map_cons, List.zip_cons_cons, get_cons, get_cons]
    by_cases h : p.1 = l
    · rw [if_pos h, if_pos h]
    · rw [if_neg h, if_neg h]
      exact ih

theorem Aligns.map {f : XF → XF} (hf : f .nan = .nan) (aG : Aligns n G) : Aligns n (fun κ _ as => LSer.lift (·.map f) (G κ as)) := ⟨fun as ha s => by
  rw [aG.eq as ha, reindex_eq_lab, lift_lab (by simp), List.map_map, reindex_eq_lab]
  congr 2
  funext l
  exact (get_lift_map hf _ l).symm⟩

theorem Aligns.logRatio (aG : Aligns n G) (aH : Aligns n H) (pG : Pure n G g) (pH : Pure n H h) :
    Aligns n (fun κ _ as => LSer.logRatio (G κ as) (H κ as)) := (aG.op2 absorbs_div aH pG pH).map rfl

/-- The value of such an expression: it is the function of the unlabelled values on all labels. -/
theorem Aligns.value (aG : Aligns n G) (pG : Pure n G g) {as : Fin n → LSer ι} (ha : ∀ k, (as k).Sorted) {s : Finset ι}
    (hs : ∀ l, l ∈ (G ι as).idx ↔ l ∈ s) : G ι as = lab s.sort (g fun k => s.sort.map (as k).get) := by
  have e : (G ι as).idx.toFinset = s := by ext l; simp [hs]
  rw [← reindex_self (pG.sorted as ha), e, ← aG.eq as ha]
  simp only [reindex_eq_lab]
  exact pG.same s.sort (fun k => s.sort.map (as k).get) fun k => by simp

/-- All labels of some series. -/
def labels (as : Fin n → LSer ι) : Finset ι := Finset.univ.biUnion fun k => (as k).idx.toFinset

theorem mem_labels (as : Fin n → LSer ι) (l : ι) : l ∈ labels as ↔ ∃ k, l ∈ (as k).idx := by simp [labels]

/-- A function of `n` time series that extends all of them to the sorted union of their labels, with NaN for missing values, and
then does what it does to series of one index. -/
structure Extends (n : Nat) (F : ∀ κ : Type, [LinearOrder κ] → (Fin n → LSer κ) → Py (LSer κ)) (f : (Fin n → Ser) → Py Ser) : Prop where
  eq : ∀ {κ : Type} [LinearOrder κ] (as : Fin n → LSer κ), (∀ k, (as k).Sorted) →
    F κ as = (f fun k => (labels as).sort.map (as k).get).map (lab (labels as).sort)

theorem Extends.lift {F : ∀ κ : Type, [LinearOrder κ] → (Fin n → LSer κ) → Py (LSer κ)} {f : (Fin n → Ser) → Py Ser} {m : Ser → Py Ser}
    (aG : Aligns n G) (pG : Pure n G g) (hF : ∀ (κ : Type) [LinearOrder κ] (as : Fin n → LSer κ), F κ as = liftPy m (G κ as))
    (hf : ∀ xs, f xs = m (g xs)) (hl : ∀ {κ : Type} [LinearOrder κ] (as : Fin n → LSer κ), (∀ k, (as k).Sorted) → ∀ l, l ∈ (G κ as).idx ↔ ∃ k, l ∈ (as k).idx) :
    Extends n F f := ⟨fun {κ} _ as ha => by
  have e := aG.value pG ha (s := labels as) fun l => by rw [hl as ha, mem_labels]
  have hlen : (g fun k => (labels as).sort.map (as k).get).length = (labels as).sort.length := pG.length _ _ fun k => by simp
  rw [hF, hf, e, liftPy, idx_lab hlen, vals_lab hlen]
  rcases m (g fun k => (labels as).sort.map (as k).get) with e | u <;> rfl⟩

omit [LinearOrder ι] in
theorem mem_idx_lift {m : Ser → Ser} (hm : Method m) (a : LSer ι) (l : ι) : l ∈ (lift m a).idx ↔ l ∈ a.idx := by rw [hm.idx_lift]

theorem mem_idx_logRatio {a b : LSer ι} (ha : a.Sorted) (hb : b.Sorted) {l : ι} : l ∈ (logRatio a b).idx ↔ l ∈ a.idx ∨ l ∈ b.idx := by
  rw [logRatio, mem_idx_lift (.map _), mem_idx_op2 _ ha hb]

theorem Sorted.logRatio {a b : LSer ι} (ha : a.Sorted) (hb : b.Sorted) : (logRatio a b).Sorted := by
  rw [Sorted, LSer.logRatio, (Method.map XF.log).idx_lift]
  exact ha.op2 _ hb

omit [LinearOrder ι] in
theorem liftPy_map {m : Ser → Py Ser} (f : XF → XF) (a : LSer ι) (hm : ∀ u, m a.vals = .ok u → u.length = a.length) :
    (liftPy m a >>= fun r => .ok (lift (·.map f) r)) = liftPy (fun x => m x >>= fun u => .ok (u.map f)) a := by
  simp only [liftPy]
  rcases hu : m a.vals with e | u
  · rfl
  · have hl : u.length = a.idx.length := by rw [hm u hu, length_idx]
    show Except.ok (lift (·.map f) (lab a.idx u)) = .ok (lab a.idx (u.map f))
    rw [lift_lab hl]

theorem highLow_extends (w : Int) : Extends 2 (fun _ _ as => highLow (as 0) (as 1) w) (fun xs => Micro.highLow (xs 0) (xs 1) w) := by
  refine Extends.lift (m := fun x => Ser.rolling w Ser.meanF x >>= fun u => .ok (u.map (· / .fin (4 * Real.log 2))))
    (((Aligns.proj 0).logRatio (.proj 1) (.proj 0) (.proj 1)).map (f := Ser.sqF) rfl)
    (((Pure.proj 0).logRatio (.proj 1)).lift (.map Ser.sqF)) (fun κ _ as => ?_) (fun xs => rfl) fun as ha l => ?_
  · rw [← liftPy_map]
    · rfl
    · intro u hu
      rw [Ser.rolling_length hu, length_vals]
  · rw [mem_idx_lift (.map _), mem_idx_logRatio (ha 0) (ha 1)]
    simp [Fin.exists_fin_two]

theorem rogersSatchell_extends (w : Int) : Extends 4 (fun _ _ as => rogersSatchell (as 0) (as 1) (as 2) (as 3) w)
    (fun xs => Micro.rogersSatchell (xs 0) (xs 1) (xs 2) (xs 3) w) := by
  refine Extends.lift (m := Ser.rolling w Ser.meanF)
    ((((Aligns.proj 0).logRatio (.proj 3) (.proj 0) (.proj 3)).op2 absorbs_mul ((Aligns.proj 0).logRatio (.proj 2) (.proj 0) (.proj 2))
      ((Pure.proj 0).logRatio (.proj 3)) ((Pure.proj 0).logRatio (.proj 2))).op2 absorbs_add
      (((Aligns.proj 1).logRatio (.proj 3) (.proj 1) (.proj 3)).op2 absorbs_mul ((Aligns.proj 1).logRatio (.proj 2) (.proj 1) (.proj 2))
      ((Pure.proj 1).logRatio (.proj 3)) ((Pure.proj 1).logRatio (.proj 2)))
      (((Pure.proj 0).logRatio (.proj 3)).op2 absorbs_mul ((Pure.proj 0).logRatio (.proj 2)))
      (((Pure.proj 1).logRatio (.proj 3)).op2 absorbs_mul ((Pure.proj 1).logRatio (.proj 2))))
    rogersSatchell_pure (fun κ _ as => rfl) (fun xs => rfl) fun as ha l => ?_
  have s : ∀ i j, (logRatio (as i) (as j)).Sorted := fun i j => (ha i).logRatio (ha j)
  rw [mem_idx_op2 _ ((s _ _).op2 _ (s _ _)) ((s _ _).op2 _ (s _ _)), mem_idx_op2 _ (s _ _) (s _ _), mem_idx_op2 _ (s _ _) (s _ _),
    mem_idx_logRatio (ha _) (ha _), mem_idx_logRatio (ha _) (ha _), mem_idx_logRatio (ha _) (ha _), mem_idx_logRatio (ha _) (ha _)]
  constructor
  · rintro (((h | h) | h | h) | (h | h) | h | h) <;> exact ⟨_, h⟩
  · rintro ⟨k, hk⟩
    fin_cases k <;> simp at hk <;> tauto

theorem vpin_extends (w : Int) : Extends 2 (fun _ _ as => vpin (as 0) (as 1) w) (fun xs => Micro.vpin (xs 0) (xs 1) w) := by
  have p1 := (Pure.proj (n := 2) 0).op2 absorbs_sub (.proj 1)
  have a1 := (Aligns.proj (n := 2) 0).op2 absorbs_sub (.proj 1) (.proj 0) (.proj 1)
  have p2 := (Pure.proj (n := 2) 1).op2 absorbs_sub p1
  have a2 := (Aligns.proj (n := 2) 1).op2 absorbs_sub a1 (.proj 1) p1
  refine Extends.lift (m := Ser.rolling w Ser.meanF) ((a2.map (f := XF.abs) rfl).op2 absorbs_div (.proj 0) (p2.lift (.map XF.abs)) (.proj 0))
    ((p2.lift (.map XF.abs)).op2 absorbs_div (.proj 0)) (fun κ _ as => rfl) (fun xs => rfl) fun as ha l => ?_
  rw [mem_idx_op2 _ ((p2.lift (.map XF.abs)).sorted as ha) (ha 0), mem_idx_lift (.map _), mem_idx_op2 _ (ha 1) (p1.sorted as ha), mem_idx_op2 _ (ha 0) (ha 1)]
  simp [Fin.exists_fin_two]
  tauto

end Verif.LSer
