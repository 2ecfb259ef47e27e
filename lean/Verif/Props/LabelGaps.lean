import Verif.Props.LabelFrame

/-!
# C95: what unmatched labels do
-/

namespace Verif.LSer

open Verif

variable {ι : Type} [LinearOrder ι]

/-! ### A label that one argument lacks blanks the windows that contain it -/

/-- The expression has no value at the labels that one of the arguments in `S` lacks. -/
structure Strict (n : Nat) (S : Fin n → Prop) (G : ∀ κ : Type, [LinearOrder κ] → (Fin n → LSer κ) → LSer κ) : Prop where
  nan : ∀ {κ : Type} [LinearOrder κ] (as : Fin n → LSer κ), (∀ k, (as k).Sorted) → ∀ l k, S k → l ∉ (as k).idx → get (G κ as) l = .nan

variable {n : Nat} {G H : ∀ κ : Type, [LinearOrder κ] → (Fin n → LSer κ) → LSer κ} {g h : (Fin n → Ser) → Ser} {S T : Fin n → Prop}

theorem Strict.proj (k : Fin n) : Strict n (· = k) (fun _ _ as => as k) := ⟨fun _ _ _ _ hk hl => get_of_not_mem (hk ▸ hl)⟩

theorem Strict.method {m : Ser → Ser} (hm : Method m) (k : Fin n) : Strict n (· = k) (fun _ _ as => lift m (as k)) :=
  ⟨fun _ _ _ _ hk hl => get_of_not_mem (by rw [hm.idx_lift]; exact hk ▸ hl)⟩

theorem Strict.op2 {f : XF → XF → XF} (hf : Absorbs f) (sG : Strict n S G) (sH : Strict n T H) (pG : Pure n G g) (pH : Pure n H h) :
    Strict n (fun k => S k ∨ T k) (fun κ _ as => LSer.op2 f (G κ as) (H κ as)) := ⟨fun as ha l k hk hl => by
  rw [get_op2 (hf.1 _) (pG.sorted as ha) (pH.sorted as ha)]
  rcases hk with hk | hk
  · rw [sG.nan as ha l k hk hl, hf.2]
  · rw [sH.nan as ha l k hk hl, hf.1]⟩

theorem Strict.map {f : XF → XF} (hf : f .nan = .nan) (sG : Strict n S G) : Strict n S (fun κ _ as => lift (·.map f) (G κ as)) :=
  ⟨fun as ha l k hk hl => by rw [get_lift_map hf, sG.nan as ha l k hk hl, hf]⟩

/-- Positions between two labels are counted by the labels between them. -/
theorem card_between (s : Finset ι) {p q : Nat} (hq : q < s.sort.length) (hpq : p ≤ q) :
    q + 1 - p ≤ (s.filter fun y => s.sort[p] ≤ y ∧ y ≤ s.sort[q]).card := by
  have hmono : ∀ a b : Nat, (ha : a ≤ b) → (hb : b < s.sort.length) → s.sort[a] ≤ s.sort[b] := fun a b ha hb =>
    (Finset.sortedLT_sort s).strictMono_get.monotone (show (⟨a, by omega⟩ : Fin s.sort.length) ≤ ⟨b, hb⟩ from ha)
  rw [← Nat.card_Ico p (q + 1)]
  refine Finset.card_le_card_of_injOn (fun j => if hj : j < s.sort.length then s.sort[j] else s.sort[q]) (fun j hj => ?_) fun a ha b hb hab => ?_
  · have hj := Finset.mem_Ico.mp hj
    have hj' : j < s.sort.length := by omega
    simp only [hj', dif_pos]
    rw [Finset.mem_coe, Finset.mem_filter]
    exact ⟨(Finset.mem_sort (· ≤ ·)).mp (List.getElem_mem _), hmono _ _ hj.1 hj', hmono _ _ (by omega) hq⟩
  · have ha := Finset.mem_Ico.mp ha
    have hb := Finset.mem_Ico.mp hb
    have ha' : a < s.sort.length := by omega
    have hb' : b < s.sort.length := by omega
    simp only [ha', hb', dif_pos] at hab
    exact ((Finset.sort_nodup s (· ≤ ·)).getElem_inj_iff).mp hab

/-- A rolling mean over all labels of some time series has no value on the `w` labels from a label on that one of them lacks. -/
structure Blanks (n : Nat) (w : Int) (F : ∀ κ : Type, [LinearOrder κ] → (Fin n → LSer κ) → Py (LSer κ)) : Prop where
  nan : ∀ {κ : Type} [LinearOrder κ] (as : Fin n → LSer κ), (∀ k, (as k).Sorted) → ∀ u, F κ as = .ok u → u.idx = (labels as).sort ∧
    ∀ k, ∀ l ∈ labels as, l ∉ (as k).idx → ∀ x, l ≤ x → (((labels as).filter fun y => l ≤ y ∧ y ≤ x).card : Int) ≤ w → get u x = .nan

theorem Blanks.of {F : ∀ κ : Type, [LinearOrder κ] → (Fin n → LSer κ) → Py (LSer κ)} {w : Int} (hS : ∀ k, S k) (sG : Strict n S G) (pG : Pure n G g)
    (hF : ∀ (κ : Type) [LinearOrder κ] (as : Fin n → LSer κ), F κ as = liftPy (Ser.rolling w Ser.meanF) (G κ as))
    (hl : ∀ {κ : Type} [LinearOrder κ] (as : Fin n → LSer κ), (∀ k, (as k).Sorted) → ∀ l, l ∈ (G κ as).idx ↔ ∃ k, l ∈ (as k).idx) : Blanks n w F := by
  refine ⟨fun {κ} _ as ha u hu => ?_⟩
  have hi : (G κ as).idx = (labels as).sort := by
    rw [← sort_idx (pG.sorted as ha)]
    congr 1
    ext l
    rw [List.mem_toFinset, hl as ha, mem_labels]
  rw [hF, liftPy] at hu
  rcases hr : Ser.rolling w Ser.meanF (G κ as).vals with e | v
  · rw [hr] at hu; cases hu
  rw [hr] at hu
  cases hu
  have hv : v.length = (G κ as).idx.length := by rw [Ser.rolling_length hr, length_vals, length_idx]
  have hv' : v.length = (labels as).sort.length := by rw [hv, hi]
  refine ⟨by rw [show (G κ as).idx.zip v = lab (G κ as).idx v from rfl, idx_lab hv, hi], fun k l hlm hlk x hlx hw => ?_⟩
  rw [show (G κ as).idx.zip v = lab (labels as).sort v by rw [hi]; rfl]
  by_cases hx : x ∈ labels as
  swap
  · exact get_of_not_mem (by rw [idx_lab hv']; simpa using hx)
  obtain ⟨q, hq, rfl⟩ := List.getElem_of_mem ((Finset.mem_sort (s := labels as) (· ≤ ·)).mpr hx)
  obtain ⟨p, hp, rfl⟩ := List.getElem_of_mem ((Finset.mem_sort (s := labels as) (· ≤ ·)).mpr hlm)
  have hpq : p ≤ q := by
    by_contra hc
    have := (Finset.sortedLT_sort (labels as)).strictMono_get (show (⟨q, hq⟩ : Fin _) < ⟨p, hp⟩ from by simpa using hc)
    exact absurd hlx (not_le.mpr this)
  have hcard := card_between (labels as) hq hpq
  have hqv : q < v.length := by omega
  rw [get_lab (Finset.sort_nodup _ _) hv' hq]
  rcases Ser.rolling_mean_cases hr (List.getElem?_eq_getElem hqv) with e | ⟨y, h1, ho, -⟩
  · exact e
  exfalso
  have := ho.2 p (by rw [Finset.mem_Ico]; omega)
  have hn := sG.nan as ha _ k (hS k) hlk
  have hg : (G κ as).vals = (labels as).sort.map (G κ as).get := by
    conv_lhs => rw [eq_map_get (pG.sorted as ha).nodup, vals_map, hi]
  rw [hg, List.getElem?_map, List.getElem?_eq_getElem hp, Option.map_some, hn] at this
  cases this

theorem kyle_blanks (w : Int) : Blanks 2 w (fun _ _ as => kyle (as 0) (as 1) w) := by
  have pd := (Pure.proj (n := 2) 0).lift .diff
  have ps := pd.lift (.map XF.sign)
  have pm := ps.op2 absorbs_mul (.proj 1)
  have sd := Strict.method (n := 2) .diff 0
  refine .of (fun k => ?_) (sd.op2 absorbs_div ((sd.map (f := XF.sign) rfl).op2 absorbs_mul (.proj 1) ps (.proj 1)) pd pm) (pd.op2 absorbs_div pm)
    (fun _ _ _ => rfl) fun as ha l => ?_
  · fin_cases k <;> simp
  · rw [mem_idx_op2 _ (pd.sorted as ha) (pm.sorted as ha), mem_idx_op2 _ (ps.sorted as ha) (ha 1), mem_idx_lift (.map _), mem_idx_lift .diff]
    simp [Fin.exists_fin_two]

theorem amihud_blanks (w : Int) : Blanks 2 w (fun _ _ as => amihud (as 0) (as 1) w) := by
  have pp := (Pure.proj (n := 2) 0).lift .pct
  have pa := pp.lift (.map XF.abs)
  have pm := (Pure.proj (n := 2) 1).op2 absorbs_mul (.proj 0)
  have sd := Strict.method (n := 2) .pct 0
  refine .of (fun k => ?_) ((sd.map (f := XF.abs) rfl).op2 absorbs_div ((Strict.proj 1).op2 absorbs_mul (.proj 0) (.proj 1) (.proj 0)) pa pm) (pa.op2 absorbs_div pm)
    (fun _ _ _ => rfl) fun as ha l => ?_
  · fin_cases k <;> simp
  · rw [mem_idx_op2 _ (pa.sorted as ha) (pm.sorted as ha), mem_idx_op2 _ (ha 1) (ha 0), mem_idx_lift (.map _), mem_idx_lift .pct]
    simp [Fin.exists_fin_two]
    tauto

theorem hasbrouck_blanks (w : Int) : Blanks 2 w (fun _ _ as => hasbrouck (as 0) (as 1) w) := by
  have p1 := (Pure.proj (n := 2) 0).lift .shift
  have pd := (Pure.proj (n := 2) 0).logRatio p1
  have ps := pd.lift (.map XF.sign)
  have pv := (Pure.proj (n := 2) 1).op2 absorbs_mul (.proj 0)
  have pq := pv.lift (.map XF.sqrt)
  have pm := ps.op2 absorbs_mul pq
  have sd : Strict 2 (fun k => k = 0 ∨ k = 0) (fun _ _ as => logRatio (as 0) (lift (Ser.shift 1) (as 0))) :=
    ((Strict.proj (n := 2) 0).op2 absorbs_div (Strict.method .shift 0) (.proj 0) p1).map rfl
  have sq := ((Strict.proj (n := 2) 1).op2 absorbs_mul (.proj 0) (.proj 1) (.proj 0)).map (f := XF.sqrt) rfl
  refine .of (fun k => ?_) (sd.op2 absorbs_div ((sd.map (f := XF.sign) rfl).op2 absorbs_mul sq ps pq) pd pm) (pd.op2 absorbs_div pm)
    (fun _ _ _ => rfl) fun as ha l => ?_
  · fin_cases k <;> simp
  · rw [mem_idx_op2 _ (pd.sorted as ha) (pm.sorted as ha), mem_idx_op2 _ (ps.sorted as ha) (pq.sorted as ha), mem_idx_lift (.map _), mem_idx_lift (.map _),
      mem_idx_op2 _ (ha 1) (ha 0), mem_idx_logRatio (ha 0) (p1.sorted as ha), mem_idx_lift .shift]
    simp [Fin.exists_fin_two]
    tauto

theorem vpin_blanks (w : Int) : Blanks 2 w (fun _ _ as => vpin (as 0) (as 1) w) := by
  have p1 := (Pure.proj (n := 2) 0).op2 absorbs_sub (.proj 1)
  have p2 := (Pure.proj (n := 2) 1).op2 absorbs_sub p1
  have pa := p2.lift (.map XF.abs)
  have s1 := (Strict.proj (n := 2) 0).op2 absorbs_sub (.proj 1) (.proj 0) (.proj 1)
  have s2 := ((Strict.proj (n := 2) 1).op2 absorbs_sub s1 (.proj 1) p1).map (f := XF.abs) rfl
  refine .of (fun k => ?_) (s2.op2 absorbs_div (.proj 0) pa (.proj 0)) (pa.op2 absorbs_div (.proj 0)) (fun _ _ _ => rfl) fun as ha l => ?_
  · fin_cases k <;> simp
  · rw [mem_idx_op2 _ (pa.sorted as ha) (ha 0), mem_idx_lift (.map _), mem_idx_op2 _ (ha 1) (p1.sorted as ha), mem_idx_op2 _ (ha 0) (ha 1)]
    simp [Fin.exists_fin_two]
    tauto

theorem rogersSatchell_blanks (w : Int) : Blanks 4 w (fun _ _ as => rogersSatchell (as 0) (as 1) (as 2) (as 3) w) := by
  have pl : ∀ i j : Fin 4, Pure 4 (fun _ _ as => logRatio (as i) (as j)) (fun xs => Ser.logRatio (xs i) (xs j)) := fun i j => (Pure.proj i).logRatio (.proj j)
  have sl : ∀ i j : Fin 4, Strict 4 (fun k => k = i ∨ k = j) (fun _ _ as => logRatio (as i) (as j)) := fun i j =>
    ((Strict.proj i).op2 absorbs_div (.proj j) (.proj i) (.proj j)).map rfl
  refine .of (fun k => ?_) (((sl 0 3).op2 absorbs_mul (sl 0 2) (pl 0 3) (pl 0 2)).op2 absorbs_add ((sl 1 3).op2 absorbs_mul (sl 1 2) (pl 1 3) (pl 1 2))
    ((pl 0 3).op2 absorbs_mul (pl 0 2)) ((pl 1 3).op2 absorbs_mul (pl 1 2))) rogersSatchell_pure (fun _ _ _ => rfl) fun as ha l => ?_
  · fin_cases k <;> simp
  have s : ∀ i j, (logRatio (as i) (as j)).Sorted := fun i j => (ha i).logRatio (ha j)
  rw [mem_idx_op2 _ ((s _ _).op2 _ (s _ _)) ((s _ _).op2 _ (s _ _)), mem_idx_op2 _ (s _ _) (s _ _), mem_idx_op2 _ (s _ _) (s _ _),
    mem_idx_logRatio (ha _) (ha _), mem_idx_logRatio (ha _) (ha _), mem_idx_logRatio (ha _) (ha _), mem_idx_logRatio (ha _) (ha _)]
  constructor
  · rintro (((h | h) | h | h) | (h | h) | h | h) <;> exact ⟨_, h⟩
  · rintro ⟨k, hk⟩
    fin_cases k <;> simp at hk <;> tauto

/-! ### Price changes are taken before the labels are matched -/

/-- A finite value, otherwise NaN. -/
noncomputable def finOnly (v : XF) : XF := match v.real? with
  | some r => .fin r
  | none => .nan

theorem roll_one (x : Ser) : roll 1 Ser.meanF x = x.map finOnly := by
  have h := roll_ok (w := 1) (by norm_num) Ser.meanF x
  rw [Ser.rolling_ok (by norm_num)] at h
  rw [← Except.ok.inj h]
  apply List.ext_getElem
  · simp
  intro t h1 h2
  have ht : t < x.length := by simpa using h2
  simp only [List.getElem_map, List.getElem_range]
  have e : (x.take (t + 1)).drop (t + 1 - 1) = [x[t]] := by
    rw [Nat.add_sub_cancel, List.take_succ_eq_append_getElem ht, List.drop_append_of_le_length (by simp; omega), List.drop_of_length_le (by simp), List.nil_append]
  rw [Ser.rollAt, Ser.win, show (1 : Int).toNat = 1 from rfl, e, finOnly]
  rcases h : x[t].real? with _ | r <;> simp [Ser.meanF, h]

/-- Finding: the price change at `l` is taken over the prices that are there. With window 1 Kyle's lambda at `l` compares the
price with the previous one that is quoted, however many volumes lie between them. -/
theorem kyle_bridges {pre post : LSer ι} {p l : ι} {a b V : ℝ} (v : LSer ι) (hs : Sorted (pre ++ (p, .fin a) :: (l, .fin b) :: post)) (hv : v.Sorted)
    (hV : get v l = .fin V) (hV0 : V ≠ 0) (hab : a ≠ b) :
    ∃ u, kyle (pre ++ (p, .fin a) :: (l, .fin b) :: post) v 1 = .ok u ∧ get u l = .fin (|b - a| / V) := by
  set c : LSer ι := pre ++ (p, .fin a) :: (l, .fin b) :: post with hc
  have hd : (lift (Ser.diff 1) c).Sorted := by rw [Sorted, Method.diff.idx_lift]; exact hs
  have hsg : (lift (·.map XF.sign) (lift (Ser.diff 1) c)).Sorted := by rw [Sorted, (Method.map _).idx_lift]; exact hd
  have hl : pre.length + 1 < c.length := by simp [hc]
  have hi : c.idx[pre.length + 1]'(by rw [length_idx]; exact hl) = l := by
    simp [hc, idx, List.getElem_append_right]
  have h1 : get (lift (Ser.diff 1) c) l = .fin (b - a) := by
    have hx : (Ser.diff 1 c.vals).length = c.idx.length := by rw [diff_length1, length_vals, length_idx]
    rw [show lift (Ser.diff 1) c = lab c.idx (Ser.diff 1 c.vals) from rfl, ← hi, get_lab hs.nodup hx]
    have := Props.IndRsi.diff_get (x := c.vals) (t := pre.length + 1) (by rw [length_vals]; exact hl)
    rw [List.getElem?_eq_getElem (by rw [diff_length1, length_vals]; exact hl), Option.some_inj] at this
    rw [this]
    have e1 : c.vals[pre.length + 1]? = some (.fin b) := by simp [hc, vals]
    have e0 : c.vals[pre.length]? = some (.fin a) := by simp [hc, vals]
    simp only [e1, e0, Option.getD_some, XF.sub_fin]
  refine ⟨_, by rw [kyle, liftPy_roll (by norm_num)], ?_⟩
  rw [show (roll 1 Ser.meanF) = (·.map finOnly) from funext roll_one, get_lift_map rfl, get_op2 rfl hd (hsg.op2 _ hv), get_op2 rfl hsg hv, get_lift_map rfl, h1, hV]
  rcases lt_or_gt_of_ne hab with h | h
  · rw [XF.sign, if_pos (sub_pos.mpr h), XF.mul_fin, one_mul, XF.div_fin hV0, abs_of_pos (sub_pos.mpr h)]
    rfl
  · rw [XF.sign, if_neg (by linarith), if_pos (sub_neg.mpr h), XF.mul_fin, XF.div_fin (by simpa using hV0), abs_of_neg (sub_neg.mpr h), neg_one_mul,
      div_neg, neg_div]
    rfl

/-- The same prices without those volumes extended first would have no price change at `l`. -/
theorem kyle_not_extends : ¬Extends 2 (fun _ _ as => kyle (as 0) (as 1) 1) (fun xs => Micro.kyle (xs 0) (xs 1) 1) := by
  intro h
  let c : LSer Nat := [(0, .fin 10), (2, .fin 12)]
  let v : LSer Nat := [(0, .fin 5), (1, .fin 5), (2, .fin 5)]
  have hc : c.Sorted := by
    rw [Sorted, List.sortedLT_iff_pairwise]
    simp [c, idx]
  have hv : v.Sorted := by
    rw [Sorted, List.sortedLT_iff_pairwise]
    simp [v, idx]
  obtain ⟨u, hu, hg⟩ := kyle_bridges (pre := []) (post := []) (p := 0) (l := 2) (a := 10) (b := 12) (V := 5) v hc hv (by simp [v, get_cons]) (by norm_num) (by norm_num)
  have he := h.eq ![c, v] (fun k => by fin_cases k; exacts [hc, hv])
  have hU : (labels ![c, v]).sort = [0, 1, 2] := by
    rw [← sort_idx (i := [0, 1, 2]) (by rw [List.sortedLT_iff_pairwise]; simp)]
    congr 1
  rw [hU] at he
  simp only [Matrix.cons_val] at he
  rw [show kyle c v 1 = .ok u from hu] at he
  have hm : Micro.kyle ([0, 1, 2].map c.get) ([0, 1, 2].map v.get) 1 = .ok [.nan, .nan, .nan] := by
    rw [Micro.kyle, roll_ok (by norm_num), roll_one]
    simp [c, v, get_cons, Ser.diff, Ser.shift, List.range_succ, Ser.op2, finOnly]
  rw [hm] at he
  cases Except.ok.inj he
  simp [lab, get_cons] at hg

/-! ### The average true range of series without dates -/

/-- Finding: for labels that are not dates the labels that only the prices of the second and third difference have come
last. Here the value at label 1 is computed from the high price `x` of label 2. -/
theorem atr_lookahead {x : ℝ} (hx : 1 ≤ x) :
    ∃ u, averageTrueRange false ([(0, .fin 1), (2, .fin x)] : LSer Nat) [(0, .fin 0), (2, .fin 0)] [(0, .fin 1), (1, .fin 1), (2, .fin 1)] 2 = .ok u ∧
      u.idx = [0, 2, 1] ∧ get u 1 = .fin ((1 + 2 * x) / 3) := by
  have hU : ({1, 0, 2} : Finset Nat).sort = [0, 1, 2] :=
    (congrArg (fun s : Finset Nat => s.sort) (by decide : ({1, 0, 2} : Finset Nat) = [0, 1, 2].toFinset)).trans
      (sort_idx (i := [0, 1, 2]) (by rw [List.sortedLT_iff_pairwise]; simp))
  have e2 : ∀ b y : ℝ, op2 (· - ·) ([(0, .fin b), (2, .fin y)] : LSer Nat) (lift (Ser.shift 1) [(0, .fin 1), (1, .fin 1), (2, .fin 1)]) =
      [(0, .nan), (1, .nan), (2, .fin (y - 1))] := by
    intro b y
    simp [op2, idx, vals, union, lift, Ser.shift, List.range_succ, hU, get_cons]
  have e1 : op2 (· - ·) ([(0, .fin 1), (2, .fin x)] : LSer Nat) [(0, .fin 0), (2, .fin 0)] = [(0, .fin 1), (2, .fin x)] := by
    simp [op2, idx, vals]
  have ea : Ser.invAlpha 2 = .ok (1 / 2) := by
    rw [Ser.invAlpha, if_neg (by norm_num), if_neg (by norm_num)]
  have et : trueRange false ([(0, .fin 1), (2, .fin x)] : LSer Nat) [(0, .fin 0), (2, .fin 0)] [(0, .fin 1), (1, .fin 1), (2, .fin 1)] =
      [(0, .fin 1), (2, .fin x), (1, .nan)] := by
    simp only [trueRange]
    rw [e1, e2, e2]
    simp [concatMax, concatIdx, unionKeep, lift, idx, vals, get_cons, Ser.maxSkip]
    rw [XF.lt_fin, if_neg (by rw [abs_of_nonneg (by linarith)]; linarith)]
    exact if_neg (by rw [XF.lt_fin]; linarith)
  refine ⟨_, by rw [averageTrueRange, ea, et]; rfl, ?_, ?_⟩
  · rw [(Method.ewmMean _ _).idx_lift]
    rfl
  · simp [lift, idx, vals, Ser.ewmMean, Ser.ewmGo, get_cons]
    field_simp
    ring

/-! ### Concrete case -/

/-- Volumes of days 0 and 1, buy volumes of days 1 and 2: three days, a value on the common one. -/
theorem vpin_example : ∃ u, vpin ([(0, .fin 10), (1, .fin 10)] : LSer Nat) [(1, .fin 7), (2, .fin 7)] 1 = .ok u ∧ u.idx = [0, 1, 2] ∧
    get u 0 = .nan ∧ get u 1 = .fin (2 / 5) ∧ get u 2 = .nan := by
  have hv : Sorted ([(0, .fin 10), (1, .fin 10)] : LSer Nat) := by
    rw [Sorted, List.sortedLT_iff_pairwise]
    simp [idx]
  have hb : Sorted ([(1, .fin 7), (2, .fin 7)] : LSer Nat) := by
    rw [Sorted, List.sortedLT_iff_pairwise]
    simp [idx]
  have ha : ∀ k : Fin 2, Sorted (![[(0, .fin 10), (1, .fin 10)], [(1, .fin 7), (2, .fin 7)]] k : LSer Nat) := fun k => by fin_cases k; exacts [hv, hb]
  have hs := hv.op2 (· - ·) hb
  have hd := hb.op2 (· - ·) hs
  refine ⟨_, by rw [vpin, liftPy_roll (by norm_num)], ?_⟩
  have hval : ∀ l : Nat, get (lift (roll 1 Ser.meanF) (op2 (· / ·) (lift (·.map XF.abs) (op2 (· - ·) [(1, .fin 7), (2, .fin 7)]
      (op2 (· - ·) [(0, .fin 10), (1, .fin 10)] [(1, .fin 7), (2, .fin 7)]))) [(0, .fin 10), (1, .fin 10)])) l =
      finOnly ((get [(1, .fin 7), (2, .fin 7)] l - (get [(0, .fin 10), (1, .fin 10)] l - get [(1, .fin 7), (2, .fin 7)] l)).abs /
        get [(0, .fin 10), (1, .fin 10)] l) := by
    intro l
    rw [show (roll 1 Ser.meanF) = (·.map finOnly) from funext roll_one, get_lift_map rfl, get_op2 rfl (by rw [Sorted, (Method.map _).idx_lift]; exact hd) hv,
      get_lift_map rfl, get_op2 rfl hb hs, get_op2 rfl hv hb]
  refine ⟨?_, ?_, ?_, ?_⟩
  · have := ((vpin_blanks 1).nan ![[(0, .fin 10), (1, .fin 10)], [(1, .fin 7), (2, .fin 7)]] ha _ (by
      simp only [Matrix.cons_val]
      rw [vpin, liftPy_roll (by norm_num)])).1
    rw [this, ← sort_idx (i := [0, 1, 2]) (by rw [List.sortedLT_iff_pairwise]; simp)]
    congr 1
  · rw [hval]
    simp [get_cons, finOnly]
  · rw [hval]
    simp [get_cons, finOnly]
    norm_num [abs_of_pos]
  · rw [hval]
    simp [get_cons, finOnly]

end Verif.LSer
