import Verif.Lemmas.SimX
import Verif.Lemmas.Sim

/-!
# Facts about sampling on floats
-/

namespace Verif.Sim

/-- The sampler without location, scale and start: errors and draws. -/
noncomputable def noise (v : Nat) (loc scale : List XF) (L : Option Arr) (x0 : List XF) (s n : Int) (z : Nat → ℝ) : Py Arr :=
  increments v (loc.map fun _ => 0) (scale.map fun _ => 1) L (x0.map fun _ => 0) s n z

theorem bentry_const {α : Type} (l : List α) (c : ℝ) {j : Nat} (hj : j < l.length) : bentry (l.map fun _ => c) j = c := by
  unfold bentry
  rw [List.length_map]
  split
  · rw [List.getD_eq_getElem _ _ (by rw [List.length_map]; omega), List.getElem_map]
  · rw [List.getD_eq_getElem _ _ (by rw [List.length_map]; omega), List.getElem_map]

theorem bentry_const' {α : Type} {l : List α} (c : ℝ) {v j : Nat} (hl : l.length = v ∨ l.length = 1) (hj : j < v) :
    bentry (l.map fun _ => c) j = c := by
  rcases hl with h | h
  · exact bentry_const l c (by omega)
  · unfold bentry
    rw [List.length_map, if_pos h, List.getD_eq_getElem _ _ (by rw [List.length_map]; omega), List.getElem_map]

theorem applyL_cols {a b : Arr} {L : Option Arr} (h : applyL a L = .ok b) : b.rows = a.rows ∧ b.cols = a.cols := by
  cases L with
  | none => cases h; exact ⟨rfl, rfl⟩
  | some L =>
    change mulLT a L = .ok b at h
    unfold mulLT at h
    split at h
    · cases h; exact ⟨rfl, rfl⟩
    · cases h

theorem incrementsX_eq (v : Nat) (loc scale : List XF) (L : Option Arr) (x0 : List XF) (s n : Int) (z : Nat → ℝ) :
    incrementsX v loc scale L x0 s n z = (noise v loc scale L x0 s n z).map fun b => ⟨b.rows, b.cols, fun k =>
      if k < b.cols then x0.getD (k % x0.length) .nan
      else .fin (b.data k) * xentry scale ((k - b.cols) % v) + xentry loc ((k - b.cols) % v)⟩ := by
  unfold incrementsX noise increments XArr.zeros Arr.zeros
  by_cases h1 : s + 1 < 0 ∨ (v : Int) * n < 0
  · rw [if_pos h1, if_pos h1]
    rfl
  rw [if_neg h1, if_neg h1]
  show (setX0X _ x0 >>= _) = Except.map _ (setX0 _ _ >>= _)
  unfold setX0X setX0
  rw [List.length_map]
  by_cases h2 : x0.length = 0
  · rw [if_pos h2, if_pos h2]
    rfl
  rw [if_neg h2, if_neg h2]
  dsimp only
  by_cases h3 : (s + 1).toNat = 0
  · rw [if_pos h3, if_pos h3]
    rfl
  rw [if_neg h3, if_neg h3]
  by_cases h4 : ((v : Int) * n).toNat / x0.length * x0.length = ((v : Int) * n).toNat
  swap
  · rw [if_neg h4, if_neg h4]
    rfl
  rw [if_pos h4, if_pos h4]
  show (XArr.reshapeCols _ v >>= _) = Except.map _ (Arr.reshapeCols _ v >>= _)
  unfold XArr.reshapeCols Arr.reshapeCols XArr.tail Arr.tail
  by_cases h5 : v = 0
  · rw [if_pos h5, if_pos h5]
    rfl
  rw [if_neg h5, if_neg h5]
  dsimp only
  by_cases h6 : ((s + 1).toNat - 1) * ((v : Int) * n).toNat % v = 0
  swap
  · rw [if_neg h6, if_neg h6]
    rfl
  rw [if_pos h6, if_pos h6]
  show (fillNoiseX _ loc scale L z >>= _) = Except.map _ (fillNoise _ _ _ L z >>= _)
  unfold fillNoiseX fillNoise
  dsimp only
  cases ha : applyL ⟨((s + 1).toNat - 1) * ((v : Int) * n).toNat / v, v, z⟩ L with
  | error e => rfl
  | ok a =>
    obtain ⟨-, hc⟩ := applyL_cols ha
    dsimp only at hc
    show (xbcast scale a.cols >>= _) >>= _ = Except.map _ ((bcastTo _ a.cols >>= _) >>= _)
    unfold xbcast bcastTo
    simp only [List.length_map]
    by_cases h7 : scale.length = a.cols ∨ scale.length = 1
    swap
    · rw [if_neg h7, if_neg h7]
      rfl
    rw [if_pos h7, if_pos h7]
    by_cases h8 : loc.length = a.cols ∨ loc.length = 1
    swap
    · simp only [if_neg h8]
      rfl
    simp only [if_pos h8]
    show Except.ok _ = Except.ok _
    congr 1
    unfold XArr.setTail Arr.setTail
    congr 1
    funext k
    dsimp only
    by_cases h9 : k < ((v : Int) * n).toNat
    · rw [if_pos h9, if_pos h9, if_pos h9]
    · rw [if_neg h9, if_neg h9, if_neg h9]
      have hm : (k - ((v : Int) * n).toNat) % a.cols < a.cols := Nat.mod_lt _ (by omega)
      rw [bentry_const' 1 h7 hm, bentry_const' 0 h8 hm, mul_one, add_zero, hc]

theorem increments_noise (v : Nat) (loc scale : List ℝ) (L : Option Arr) (x0 : List ℝ) (s n : Int) (z : Nat → ℝ) :
    increments v loc scale L x0 s n z = (noise v (loc.map .fin) (scale.map .fin) L (x0.map .fin) s n z).map fun b => ⟨b.rows, b.cols, fun k =>
      if k < b.cols then x0.getD (k % x0.length) 0
      else b.data k * bentry scale ((k - b.cols) % v) + bentry loc ((k - b.cols) % v)⟩ := by
  unfold noise increments Arr.zeros
  simp only [List.map_map]
  by_cases h1 : s + 1 < 0 ∨ (v : Int) * n < 0
  · simp only [if_pos h1]
    rfl
  simp only [if_neg h1]
  show (setX0 _ x0 >>= _) = Except.map _ (setX0 _ _ >>= _)
  unfold setX0
  rw [List.length_map]
  by_cases h2 : x0.length = 0
  · simp only [if_pos h2]
    rfl
  simp only [if_neg h2]
  try dsimp only
  by_cases h3 : (s + 1).toNat = 0
  · simp only [if_pos h3]
    rfl
  simp only [if_neg h3]
  by_cases h4 : ((v : Int) * n).toNat / x0.length * x0.length = ((v : Int) * n).toNat
  swap
  · simp only [if_neg h4]
    rfl
  simp only [if_pos h4]
  show (Arr.reshapeCols _ v >>= _) = Except.map _ (Arr.reshapeCols _ v >>= _)
  unfold Arr.reshapeCols Arr.tail
  by_cases h5 : v = 0
  · simp only [if_pos h5]
    rfl
  simp only [if_neg h5]
  try dsimp only
  by_cases h6 : ((s + 1).toNat - 1) * ((v : Int) * n).toNat % v = 0
  swap
  · simp only [if_neg h6]
    rfl
  simp only [if_pos h6]
  show (fillNoise _ loc scale L z >>= _) = Except.map _ (fillNoise _ _ _ L z >>= _)
  unfold fillNoise
  try dsimp only
  cases ha : applyL ⟨((s + 1).toNat - 1) * ((v : Int) * n).toNat / v, v, z⟩ L with
  | error e => rfl
  | ok a =>
    obtain ⟨-, hc⟩ := applyL_cols ha
    dsimp only at hc
    show (bcastTo scale a.cols >>= _) >>= _ = Except.map _ ((bcastTo _ a.cols >>= _) >>= _)
    unfold bcastTo
    simp only [List.length_map]
    by_cases h7 : scale.length = a.cols ∨ scale.length = 1
    swap
    · simp only [if_neg h7]
      rfl
    simp only [if_pos h7]
    by_cases h8 : loc.length = a.cols ∨ loc.length = 1
    swap
    · simp only [if_neg h8]
      rfl
    simp only [if_pos h8]
    show Except.ok _ = Except.ok _
    congr 1
    unfold Arr.setTail
    congr 1
    funext k
    try dsimp only
    by_cases h9 : k < ((v : Int) * n).toNat
    · simp only [if_pos h9]
    · simp only [if_neg h9]
      have hm : (k - ((v : Int) * n).toNat) % a.cols < a.cols := Nat.mod_lt _ (by omega)
      have e1 := bentry_const' 1 h7 hm
      have e2 := bentry_const' 0 h8 hm
      simp only [Function.comp_def]
      rw [e1, e2, mul_one, add_zero, hc]

theorem xentry_fin {l : List ℝ} {v j : Nat} (hl : l.length = v ∨ l.length = 1) (hj : j < v) : xentry (l.map .fin) j = .fin (bentry l j) := by
  unfold xentry bentry
  rw [List.length_map]
  split
  · rw [List.getD_eq_getElem _ _ (by rw [List.length_map]; omega), List.getD_eq_getElem _ _ (by omega), List.getElem_map]
  · rw [List.getD_eq_getElem _ _ (by rw [List.length_map]; omega), List.getD_eq_getElem _ _ (by omega), List.getElem_map]

theorem xentry_map (f : XF → XF) {l : List XF} {v j : Nat} (hl : l.length = v ∨ l.length = 1) (hj : j < v) :
    xentry (l.map f) j = f (xentry l j) := by
  unfold xentry
  rw [List.length_map]
  split
  · rw [List.getD_eq_getElem _ _ (by rw [List.length_map]; omega), List.getD_eq_getElem _ _ (by omega), List.getElem_map]
  · rw [List.getD_eq_getElem _ _ (by rw [List.length_map]; omega), List.getD_eq_getElem _ _ (by omega), List.getElem_map]

/-- The lengths that sampling requires. -/
structure ShapesX (v : Nat) (loc scale : List XF) (L : Option Arr) (x0 : List XF) (n : Nat) : Prop where
  pos : 0 < v
  loc : loc.length = v ∨ loc.length = 1
  scale : scale.length = v ∨ scale.length = 1
  factor : ∀ l ∈ L, l.rows = v ∧ l.cols = v
  start : 0 < x0.length
  divides : x0.length ∣ v * n

/-- What sampling without compounding delivers. -/
theorem incrementsX_ok {v : Nat} {loc scale : List XF} {L : Option Arr} {x0 : List XF} {s n : Nat} {z : Nat → ℝ} {b : XArr}
    (h : incrementsX v loc scale L x0 s n z = .ok b) :
    ShapesX v loc scale L x0 n ∧ b.rows = s + 1 ∧ b.cols = v * n ∧
    (∀ c < v * n, b.get 0 c = x0.getD (c % x0.length) .nan) ∧
    ∀ t q j, q < n → j < v → b.get (t + 1) (q * v + j) = .fin (shock L v z (t * n + q) j) * xentry scale j + xentry loc j := by
  rw [incrementsX_eq] at h
  cases hn : noise v loc scale L x0 s n z with
  | error e => rw [hn] at h; cases h
  | ok b0 =>
    rw [hn] at h
    cases h
    obtain ⟨-, -, ⟨g1, g2, g3, g4, g5, g6⟩, ⟨i1, i2⟩, i3, i4⟩ := increments_ok hn
    simp only [List.length_map, Int.toNat_natCast] at *
    refine ⟨⟨g1, g2, g3, g4, g5, g6⟩, i1, i2, ?_, ?_⟩
    · intro c hc
      rw [XArr.get, Nat.zero_mul, Nat.zero_add]
      dsimp only
      rw [if_pos (by rw [i2]; exact hc)]
    · intro t q j hq hj
      have h4 := i4 t q j hq hj
      rw [bentry_const' 1 g3 hj, bentry_const' 0 g2 hj, mul_one, add_zero] at h4
      rw [← h4, path, XArr.get, Arr.get]
      dsimp only
      have hlt := col_lt hq hj
      have e3 : (t + 1) * b0.cols = t * b0.cols + b0.cols := by ring
      have e4 : (t + 1) * b0.cols + (q * v + j) - b0.cols = (t * n + q) * v + j := by
        have : (t * n + q) * v = t * b0.cols + q * v := by rw [i2]; ring
        omega
      rw [if_neg (by omega), e4, flat_mod _ hj]

theorem incrementsX_fin (v : Nat) (loc scale : List ℝ) (L : Option Arr) (x0 : List ℝ) (s n : Int) (z : Nat → ℝ) :
    incrementsX v (loc.map .fin) (scale.map .fin) L (x0.map .fin) s n z = (increments v loc scale L x0 s n z).map XArr.ofArr := by
  rw [incrementsX_eq, increments_noise]
  cases hn : noise v (loc.map .fin) (scale.map .fin) L (x0.map .fin) s n z with
  | error e => rfl
  | ok b0 =>
    obtain ⟨-, -, ⟨g1, g2, g3, g4, g5, g6⟩, -⟩ := increments_ok hn
    simp only [List.length_map] at *
    show Except.ok _ = Except.ok _
    congr 1
    unfold XArr.ofArr
    dsimp only
    congr 1
    funext k
    by_cases hk : k < b0.cols
    · rw [if_pos hk, if_pos hk]
      have hm := Nat.mod_lt k g5
      rw [List.getD_eq_getElem _ _ (by rw [List.length_map]; exact hm), List.getD_eq_getElem _ _ hm, List.getElem_map]
    · rw [if_neg hk, if_neg hk, xentry_fin g3 (Nat.mod_lt _ g1), xentry_fin g2 (Nat.mod_lt _ g1)]
      rfl

theorem cumCol_fin (a : Arr) (j i : Nat) : XArr.cumCol (XArr.ofArr a) j i = .fin (∑ t ∈ Finset.range (i + 1), a.get t j) := by
  induction i with
  | zero =>
    rw [Finset.sum_range_one]
    rfl
  | succ i ih =>
    rw [XArr.cumCol, ih, Finset.sum_range_succ _ (i + 1)]
    rfl

theorem cumsum_ofArr (a : Arr) : (XArr.ofArr a).cumsum = XArr.ofArr a.cumsum := by
  unfold XArr.cumsum Arr.cumsum
  show XArr.mk _ _ _ = XArr.mk _ _ _
  congr 1
  funext k
  exact cumCol_fin a _ _

theorem cumsumX_get {a : XArr} {j : Nat} (hj : j < a.cols) (i : Nat) : a.cumsum.get i j = XArr.cumCol a j i := by
  unfold XArr.cumsum XArr.get
  dsimp only
  rw [flat_mod _ hj, flat_div _ hj]

theorem xzip_fin {f : XF → XF → XF} {g : ℝ → ℝ → ℝ} (h : ∀ a b, f (.fin a) (.fin b) = .fin (g a b)) (l m : List ℝ) :
    xzip f (l.map .fin) (m.map .fin) = (bzip g l m).map (List.map .fin) := by
  unfold xzip bzip
  simp only [List.length_map]
  by_cases h1 : l.length = m.length
  · rw [if_pos h1, if_pos h1]
    show Except.ok _ = Except.ok _
    congr 1
    rw [List.zipWith_map, List.map_zipWith]
    simp only [h]
  rw [if_neg h1, if_neg h1]
  by_cases h2 : l.length = 1
  · rw [if_pos h2, if_pos h2]
    show Except.ok _ = Except.ok _
    congr 1
    rw [List.getD_eq_getElem _ _ (by rw [List.length_map]; omega), List.getD_eq_getElem _ _ (by omega), List.getElem_map, List.map_map,
      List.map_map]
    exact List.map_congr_left fun x _ => h _ _
  rw [if_neg h2, if_neg h2]
  by_cases h3 : m.length = 1
  · rw [if_pos h3, if_pos h3]
    show Except.ok _ = Except.ok _
    congr 1
    rw [List.getD_eq_getElem _ _ (by rw [List.length_map]; omega), List.getD_eq_getElem _ _ (by omega), List.getElem_map, List.map_map,
      List.map_map]
    exact List.map_congr_left fun x _ => h _ _
  rw [if_neg h3, if_neg h3]
  rfl

/-- Entries of an elementwise operation on rows. -/
theorem xzip_ok {f : XF → XF → XF} {l m r : List XF} (h : xzip f l m = .ok r) {v : Nat} (hl : l.length = v) :
    (m.length = v ∨ m.length = 1 ∨ v = 1) ∧ r.length = (if v = m.length then v else if v = 1 then m.length else v) ∧
      ((m.length = v ∨ m.length = 1) → ∀ j < v, xentry r j = f (xentry l j) (xentry m j)) := by
  unfold xzip at h
  subst hl
  by_cases h1 : l.length = m.length
  · rw [if_pos h1] at h
    cases h
    refine ⟨.inl h1.symm, by simp [h1], fun _ j hj => ?_⟩
    unfold xentry
    simp only [List.length_zipWith, ← h1, min_self]
    split
    · rw [List.getD_eq_getElem _ _ (by simp; omega), List.getD_eq_getElem _ _ (by omega), List.getD_eq_getElem _ _ (by omega),
        List.getElem_zipWith]
    · rw [List.getD_eq_getElem _ _ (by simp; omega), List.getD_eq_getElem _ _ (by omega), List.getD_eq_getElem _ _ (by omega),
        List.getElem_zipWith]
  rw [if_neg h1] at h
  by_cases h2 : l.length = 1
  · rw [if_pos h2] at h
    cases h
    exact ⟨.inr (.inr h2), by simp [h2]; exact fun e => e.symm, fun hm => by omega⟩
  rw [if_neg h2] at h
  by_cases h3 : m.length = 1
  · rw [if_pos h3] at h
    cases h
    refine ⟨.inr (.inl h3), by simp [h2], fun _ j hj => ?_⟩
    unfold xentry
    simp only [List.length_map, if_neg h2, if_pos h3]
    rw [List.getD_eq_getElem _ _ (by simp; omega), List.getD_eq_getElem _ _ hj, List.getElem_map]
  rw [if_neg h3] at h
  cases h

end Verif.Sim
