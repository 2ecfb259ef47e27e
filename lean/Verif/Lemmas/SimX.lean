import Verif.Model.SimX
import Verif.Lemmas.Micro
import Verif.Lemmas.SimStats

/-!
# Facts about the calibration on floats
-/

namespace Verif.Sim

/-- A float that is a number. -/
def Fin' (x : XF) : Prop := ∃ r, x = .fin r

/-- `nan` for a statistic that does not exist. -/
def optX : Option ℝ → XF
  | none => .nan
  | some r => .fin r

theorem foldl_add_fin (l : List ℝ) (a : ℝ) : (l.map XF.fin).foldl (· + ·) (.fin a) = XF.fin (a + l.sum) := by
  induction l generalizing a with
  | nil => simp
  | cons b l ih => rw [List.map_cons, List.foldl_cons, XF.add_fin, ih, List.sum_cons, add_assoc]

theorem xsum_fin (l : List ℝ) : xsum (l.map .fin) = .fin l.sum := by
  rw [xsum, foldl_add_fin, zero_add]

theorem foldl_finite {l : List XF} {a : XF} {r : ℝ} (h : l.foldl (· + ·) a = .fin r) : Fin' a ∧ ∀ x ∈ l, Fin' x := by
  induction l generalizing a with
  | nil => exact ⟨⟨r, h⟩, by simp⟩
  | cons b l ih =>
    obtain ⟨⟨s, hs⟩, h2⟩ := ih h
    obtain ⟨x, y, hx, hy, -⟩ := XF.add_eq_fin hs
    refine ⟨⟨x, hx⟩, fun z hz => ?_⟩
    rcases List.mem_cons.mp hz with rfl | hz
    · exact ⟨y, hy⟩
    · exact h2 z hz

theorem foldl_nan {l : List XF} {a : XF} (h : a = .nan ∨ XF.nan ∈ l) : l.foldl (· + ·) a = .nan := by
  induction l generalizing a with
  | nil => simpa using h
  | cons b l ih =>
    refine ih ?_
    rcases h with h | h
    · exact .inl (by subst h; exact XF.nan_add b)
    · rcases List.mem_cons.mp h with h | h
      · exact .inl (by subst h; exact XF.add_nan a)
      · exact .inr h

theorem xsum_nan {l : List XF} (h : XF.nan ∈ l) : xsum l = .nan := foldl_nan (.inr h)

/-- A sum that is `+inf` contains neither `nan` nor `-inf`. -/
theorem foldl_pinf {l : List XF} {a : XF} (h : l.foldl (· + ·) a = .pinf) : (a = .pinf ∨ Fin' a) ∧ ∀ x ∈ l, x = .pinf ∨ Fin' x := by
  induction l generalizing a with
  | nil => exact ⟨.inl h, by simp⟩
  | cons b l ih =>
    obtain ⟨h1, h2⟩ := ih h
    have : (a = .pinf ∨ Fin' a) ∧ (b = .pinf ∨ Fin' b) := by
      cases a <;> cases b <;> first | exact ⟨.inl rfl, .inl rfl⟩ | exact ⟨.inl rfl, .inr ⟨_, rfl⟩⟩ | exact ⟨.inr ⟨_, rfl⟩, .inl rfl⟩ |
        exact ⟨.inr ⟨_, rfl⟩, .inr ⟨_, rfl⟩⟩ | (rcases h1 with h1 | ⟨r, h1⟩ <;> cases h1)
    refine ⟨this.1, fun z hz => ?_⟩
    rcases List.mem_cons.mp hz with rfl | hz
    · exact this.2
    · exact h2 z hz

theorem foldl_ninf {l : List XF} {a : XF} (h : l.foldl (· + ·) a = .ninf) : (a = .ninf ∨ Fin' a) ∧ ∀ x ∈ l, x = .ninf ∨ Fin' x := by
  induction l generalizing a with
  | nil => exact ⟨.inl h, by simp⟩
  | cons b l ih =>
    obtain ⟨h1, h2⟩ := ih h
    have : (a = .ninf ∨ Fin' a) ∧ (b = .ninf ∨ Fin' b) := by
      cases a <;> cases b <;> first | exact ⟨.inl rfl, .inl rfl⟩ | exact ⟨.inl rfl, .inr ⟨_, rfl⟩⟩ | exact ⟨.inr ⟨_, rfl⟩, .inl rfl⟩ |
        exact ⟨.inr ⟨_, rfl⟩, .inr ⟨_, rfl⟩⟩ | (rcases h1 with h1 | ⟨r, h1⟩ <;> cases h1)
    refine ⟨this.1, fun z hz => ?_⟩
    rcases List.mem_cons.mp hz with rfl | hz
    · exact this.2
    · exact h2 z hz

theorem xmean_nil : xmean [] = .nan := by
  show XF.fin 0 / XF.fin ((0 : ℕ) : ℝ) = _
  rw [Nat.cast_zero, XF.zero_div_zero]

theorem xmean_fin {l : List ℝ} (h : l ≠ []) : xmean (l.map .fin) = .fin (lmean l) := by
  rw [xmean, xsum_fin, List.length_map, XF.div_fin (by exact_mod_cast (List.length_pos_iff.mpr h).ne'), lmean]

/-- The mean of a column with a special value. -/
theorem xmean_special {l : List XF} {x : XF} (hx : x ∈ l) (hne : ¬ Fin' x) : x - xmean l = .nan ∨ XF.nan ∈ l.map (· - xmean l) := by
  have hl : 0 < l.length := List.length_pos_of_mem hx
  have hl' : (0 : ℝ) < l.length := by exact_mod_cast hl
  rw [xmean]
  cases hs : xsum l with
  | nan => exact .inl (by rw [XF.nan_div, XF.sub_nan])
  | fin r => exact absurd ((foldl_finite hs).2 x hx) hne
  | pinf =>
    rcases (foldl_pinf hs).2 x hx with rfl | h
    · left
      show XF.add .pinf (XF.neg (if (l.length : ℝ) < 0 then .ninf else .pinf)) = .nan
      rw [if_neg (not_lt.mpr hl'.le)]
      rfl
    · exact absurd h hne
  | ninf =>
    rcases (foldl_ninf hs).2 x hx with rfl | h
    · left
      show XF.add .ninf (XF.neg (if (l.length : ℝ) < 0 then .pinf else .ninf)) = .nan
      rw [if_neg (not_lt.mpr hl'.le)]
      rfl
    · exact absurd h hne

theorem xcross_special {l : List XF} (h : ∃ x ∈ l, ¬ Fin' x) : xcross l l = .nan := by
  obtain ⟨x, hx, hne⟩ := h
  refine xsum_nan ?_
  rw [List.zipWith_self]
  have : XF.nan ∈ l.map (· - xmean l) := by
    rcases xmean_special hx hne with h | h
    · exact List.mem_map.mpr ⟨x, hx, h⟩
    · exact h
  obtain ⟨y, hy, e⟩ := List.mem_map.mp this
  exact List.mem_map.mpr ⟨y, hy, by show (y - xmean l) * (y - xmean l) = _; rw [e, XF.nan_mul]⟩

theorem xcross_fin (l m : List ℝ) : xcross (l.map .fin) (m.map .fin) = .fin (crossDev l m) := by
  rcases eq_or_ne l [] with rfl | hl
  · simp [xcross, xsum, crossDev]
  rcases eq_or_ne m [] with rfl | hm
  · simp [xcross, xsum, crossDev]
  rw [xcross, xmean_fin hl, xmean_fin hm, crossDev, ← xsum_fin]
  congr 1
  rw [List.zipWith_map, List.map_zipWith]
  simp

theorem crossDev_le_one {l : List ℝ} (h : l.length ≤ 1) : sqDev l = 0 := by
  rw [sqDev_eq_zero]
  intro x hx
  match l, h with
  | [], _ => simp at hx
  | [a], _ =>
    simp at hx
    simp [lmean, hx]
  | a :: b :: l, h => simp at h

theorem xstd1_fin (l : List ℝ) : xstd1 (l.map .fin) = optX (npStd1 l) := by
  rw [xstd1, xcross_fin, crossDev_self, List.length_map, npStd1]
  by_cases h : l.length ≤ 1
  · rw [if_pos h, crossDev_le_one h, show l.length - 1 = 0 by omega, Nat.cast_zero, XF.zero_div_zero]
    rfl
  · rw [if_neg h]
    have e : ((l.length - 1 : ℕ) : ℝ) = (l.length : ℝ) - 1 := by rw [Nat.cast_sub (by omega), Nat.cast_one]
    have hpos : (0 : ℝ) < (l.length : ℝ) - 1 := by
      have : (1 : ℝ) < l.length := by exact_mod_cast not_le.mp h
      linarith
    rw [e, XF.div_fin hpos.ne', XF.sqrt_fin (div_nonneg (sqDev_nonneg l) hpos.le)]
    rfl

theorem xstd1_special {l : List XF} (h : ∃ x ∈ l, ¬ Fin' x) : xstd1 l = .nan := by
  rw [xstd1, xcross_special h, XF.nan_div, XF.sqrt_nan]

theorem all_fin {l : List XF} (h : ∀ x ∈ l, Fin' x) : ∃ m : List ℝ, l = m.map .fin := by
  induction l with
  | nil => exact ⟨[], rfl⟩
  | cons a l ih =>
    obtain ⟨r, hr⟩ := h a (by simp)
    obtain ⟨m, hm⟩ := ih fun x hx => h x (by simp [hx])
    exact ⟨r :: m, by rw [hr, hm]; rfl⟩

theorem all_fin₂ {dx : List (List XF)} (h : ∀ l ∈ dx, ∀ x ∈ l, Fin' x) : ∃ m : List (List ℝ), dx = m.map (List.map .fin) := by
  induction dx with
  | nil => exact ⟨[], rfl⟩
  | cons a l ih =>
    obtain ⟨r, hr⟩ := all_fin (h a (by simp))
    obtain ⟨m, hm⟩ := ih fun x hx => h x (by simp [hx])
    exact ⟨r :: m, by rw [hr, hm]; rfl⟩

/-- The entries of the correlation matrix. -/
theorem xcor_nan {dx : List (List XF)} {i : Nat} (h : xcross (dx.getD i []) (dx.getD i []) = .nan) (j : Nat) : xcor dx i j = .nan := by
  rw [xcor, h, XF.sqrt_nan, XF.div_nan, XF.nan_div]
  rfl

theorem getD_map_fin (dx : List (List ℝ)) (i : Nat) : (dx.map (List.map XF.fin)).getD i [] = (dx.getD i []).map XF.fin := by
  simp [List.getD_eq_getElem?_getD, List.getElem?_map]
  cases dx[i]? <;> rfl

theorem xcor_zero {dx : List (List ℝ)} {i : Nat} (h : sqDev (dx.getD i []) = 0) (j : Nat) :
    (xcor (dx.map (List.map .fin)) i j) = .nan := by
  rw [xcor, getD_map_fin, getD_map_fin, xcross_fin, xcross_fin, xcross_fin, crossDev_self, crossDev_self, h,
    XF.sqrt_fin le_rfl, Real.sqrt_zero]
  have h0 : crossDev (dx.getD i []) (dx.getD j []) = 0 := by
    rw [sqDev_eq_zero] at h
    rw [crossDev]
    refine List.sum_eq_zero fun x hx => ?_
    obtain ⟨k, hk, e⟩ := List.getElem_of_mem hx
    rw [List.getElem_zipWith] at e
    rw [← e, sub_eq_zero.mpr (h _ (List.getElem_mem _)), zero_mul]
  rw [h0, XF.zero_div_zero, XF.nan_div]
  rfl

theorem xcor_fin {dx : List (List ℝ)} {i j : Nat} (hi : sqDev (dx.getD i []) ≠ 0) (hj : sqDev (dx.getD j []) ≠ 0) :
    xcor (dx.map (List.map .fin)) i j =
      .fin (clip1 (crossDev (dx.getD i []) (dx.getD j []) / Real.sqrt (sqDev (dx.getD i [])) / Real.sqrt (sqDev (dx.getD j [])))) := by
  have h1 : Real.sqrt (sqDev (dx.getD i [])) ≠ 0 := (Real.sqrt_pos.mpr (lt_of_le_of_ne (sqDev_nonneg _) hi.symm)).ne'
  have h2 : Real.sqrt (sqDev (dx.getD j [])) ≠ 0 := (Real.sqrt_pos.mpr (lt_of_le_of_ne (sqDev_nonneg _) hj.symm)).ne'
  rw [xcor, getD_map_fin, getD_map_fin, xcross_fin, xcross_fin, xcross_fin, crossDev_self, crossDev_self,
    XF.sqrt_fin (sqDev_nonneg _), XF.sqrt_fin (sqDev_nonneg _), XF.div_fin h1, XF.div_fin h2]
  rfl

theorem clip1_zero : clip1 0 = 0 := by
  rw [clip1]
  norm_num

/-- The fit as a float fit. -/
def BMFit.toX (f : BMFit) : BMFitX := ⟨f.drift.map optX, f.vol.map optX, f.cor, f.L⟩

theorem optX_div {o : Option ℝ} {d : ℝ} (hd : d ≠ 0) : optX o / .fin d = optX (o.map (· / d)) := by
  cases o with
  | none => exact XF.nan_div _
  | some r => exact XF.div_fin hd

theorem xmean_opt (l : List ℝ) : xmean (l.map .fin) = optX (npMean l) := by
  rw [npMean]
  by_cases h : l = []
  · rw [if_pos h, h]
    exact xmean_nil
  · rw [if_neg h, xmean_fin h]
    rfl

/-- On numbers the calibration is that of `SimFit`. -/
theorem fitIncrementsX_fin (chol : Arr → Option Arr) (dx : List (List ℝ)) {dt : ℝ} (hdt : 0 < dt) :
    fitIncrementsX chol (dx.map (List.map .fin)) dt = (fitIncrements chol dx dt).map BMFit.toX := by
  have hs := Real.sqrt_pos.mpr hdt
  have e1 : (dx.map (List.map XF.fin)).map (fun l => xmean l / XF.fin dt) = (dx.map fun l => (npMean l).map (· / dt)).map optX := by
    rw [List.map_map, List.map_map]
    exact List.map_congr_left fun l _ => by rw [Function.comp_apply, Function.comp_apply, xmean_opt, optX_div hdt.ne']
  have e2 : (dx.map (List.map XF.fin)).map (fun l => xstd1 l / XF.fin (Real.sqrt dt)) =
      (dx.map fun l => (npStd1 l).map (· / Real.sqrt dt)).map optX := by
    rw [List.map_map, List.map_map]
    exact List.map_congr_left fun l _ => by rw [Function.comp_apply, Function.comp_apply, xstd1_fin, optX_div hs.ne']
  unfold fitIncrementsX fitIncrements
  simp only [e1, e2, List.length_map]
  by_cases hk : 1 < dx.length
  swap
  · rw [if_neg hk, if_neg hk]
    rfl
  rw [if_pos hk, if_pos hk]
  have e3 : (∃ v ∈ (dx.map (List.map XF.fin)).map (fun l => xstd1 l / XF.fin (Real.sqrt dt)), XF.eq v (.fin 0)) ↔
      some 0 ∈ dx.map fun l => (npStd1 l).map (· / Real.sqrt dt) := by
    rw [e2]
    constructor
    · rintro ⟨v, hv, h0⟩
      obtain ⟨o, ho, rfl⟩ := List.mem_map.mp hv
      cases o with
      | none => exact h0.elim
      | some r =>
        have : r = 0 := h0
        rwa [this] at ho
    · intro h
      exact ⟨.fin 0, List.mem_map.mpr ⟨_, h, rfl⟩, rfl⟩
  by_cases h0 : some 0 ∈ dx.map fun l => (npStd1 l).map (· / Real.sqrt dt)
  · rw [if_pos (e3.mpr h0), if_pos h0]
    rfl
  rw [if_neg fun h => h0 (e3.mp h), if_neg h0]
  by_cases hn : none ∈ dx.map fun l => (npStd1 l).map (· / Real.sqrt dt)
  · rw [if_pos hn]
    have : xchol chol (dx.map (List.map .fin)) = none := by
      unfold xchol
      rw [if_neg]
      intro hall
      obtain ⟨l, hl, e⟩ := List.mem_map.mp hn
      obtain ⟨i, hi, rfl⟩ := List.getElem_of_mem hl
      have hlen : (dx[i]).length ≤ 1 := by
        by_contra hc
        rw [npStd1, if_neg hc] at e
        cases e
      refine hall i (by simpa using hi) i (by simpa using hi) ?_
      rw [xcor_zero (by rw [List.getD_eq_getElem _ _ hi]; exact crossDev_le_one hlen)]
      rfl
    rw [this]
    rfl
  rw [if_neg hn]
  have hpos : ∀ l ∈ dx, sqDev l ≠ 0 := by
    intro l hl hz
    by_cases hlen : l.length ≤ 1
    · exact hn (List.mem_map.mpr ⟨l, hl, by rw [npStd1, if_pos hlen]; rfl⟩)
    · exact h0 (List.mem_map.mpr ⟨l, hl, by rw [npStd1, if_neg hlen, hz, zero_div, Real.sqrt_zero]; simp⟩)
  have hgd : ∀ i < dx.length, sqDev (dx.getD i []) ≠ 0 := fun i hi => by
    rw [List.getD_eq_getElem _ _ hi]
    exact hpos _ (List.getElem_mem hi)
  have hA : (⟨dx.length, dx.length, fun k => ((xcor (dx.map (List.map .fin)) (k / dx.length) (k % dx.length)).real?).getD 0⟩ : Arr) =
      corrcoef dx := by
    unfold corrcoef
    congr 1
    funext k
    have hm := hgd (k % dx.length) (Nat.mod_lt _ (by omega))
    by_cases hi : k / dx.length < dx.length
    · rw [xcor_fin (hgd _ hi) hm]
      rfl
    · have hnil : dx.getD (k / dx.length) [] = [] := List.getD_eq_default _ _ (not_lt.mp hi)
      rw [xcor_zero (by rw [hnil]; rfl)]
      dsimp only
      rw [hnil]
      simp only [crossDev, List.zipWith_nil_left, List.sum_nil, zero_div, clip1_zero]
      rfl
  have : xchol chol (dx.map (List.map .fin)) = (chol (corrcoef dx)).map fun L => (corrcoef dx, L) := by
    unfold xchol
    rw [if_pos]
    · simp only [List.length_map, hA]
    · intro i hi j hj
      simp only [List.length_map] at hi hj
      rw [xcor_fin (hgd _ hi) (hgd _ hj)]
      simp
  rw [this]
  cases chol (corrcoef dx) <;> rfl

open Classical in
/-- A column with a special value: no correlation matrix. -/
theorem fitIncrementsX_special (chol : Arr → Option Arr) {dx : List (List XF)} (h : ∃ l ∈ dx, ∃ x ∈ l, ¬ Fin' x) (hk : 1 < dx.length)
    (dt : ℝ) : fitIncrementsX chol dx dt = .error (if ∃ v ∈ dx.map (fun l => xstd1 l / .fin (Real.sqrt dt)), XF.eq v (.fin 0) then .valueError
      else .linAlgError) := by
  unfold fitIncrementsX
  simp only [if_pos hk]
  have : xchol chol dx = none := by
    unfold xchol
    rw [if_neg]
    intro hall
    obtain ⟨l, hl, hx⟩ := h
    obtain ⟨i, hi, rfl⟩ := List.getElem_of_mem hl
    refine hall i hi i hi ?_
    rw [xcor_nan (by rw [List.getD_eq_getElem _ _ hi]; exact xcross_special hx)]
    rfl
  rw [this]
  split <;> rfl

end Verif.Sim
