import Verif.Spec.Sim
import Mathlib.Algebra.BigOperators.Field
import Mathlib.Tactic.FieldSimp
import Mathlib.Tactic.Ring
import Mathlib.Data.List.GetD
import Mathlib.Tactic.Linarith
import Mathlib.Algebra.BigOperators.Ring.Finset

/-!
# Helper lemmas about the samplers
-/

namespace Verif.Sim

theorem bind_inv {α β : Type _} {x : Py α} {f : α → Py β} {b : β} (h : x >>= f = .ok b) :
    ∃ a, x = .ok a ∧ f a = .ok b := by
  cases x with
  | error e => cases h
  | ok a => exact ⟨a, rfl, h⟩

theorem flat_div {v j : Nat} (r : Nat) (hj : j < v) : (r * v + j) / v = r := by
  rw [Nat.add_comm, Nat.add_mul_div_right _ _ (by omega), Nat.div_eq_of_lt hj]; simp

theorem flat_mod {v j : Nat} (r : Nat) (hj : j < v) : (r * v + j) % v = j := by
  rw [Nat.add_comm, Nat.add_mul_mod_self_right, Nat.mod_eq_of_lt hj]

theorem bcastTo_ok {l : List ℝ} {v : Nat} {f : Nat → ℝ} :
    bcastTo l v = .ok f ↔ (l.length = v ∨ l.length = 1) ∧ f = bentry l := by
  unfold bcastTo
  split
  · rename_i h
    exact ⟨fun e => ⟨h, (Except.ok.inj e).symm⟩, fun ⟨_, e⟩ => by rw [e]⟩
  · rename_i h
    exact ⟨fun e => (by cases e), fun ⟨e, _⟩ => absurd e h⟩

/-- `set_x0` on an array with at least one row. -/
theorem setX0_ok {a : Arr} {x0 : List ℝ} {b : Arr} (h : setX0 a x0 = .ok b) :
    0 < x0.length ∧ 0 < a.rows ∧ x0.length ∣ a.cols ∧ b.rows = a.rows ∧ b.cols = a.cols ∧
      (∀ k < a.cols, b.data k = x0.getD (k % x0.length) 0) ∧ ∀ k, a.cols ≤ k → b.data k = a.data k := by
  unfold setX0 at h
  split at h
  · cases h
  · rename_i h0
    split at h
    · cases h
    · rename_i h1
      split at h
      · rename_i h2
        cases h
        refine ⟨by omega, by omega, ⟨a.cols / x0.length, by rw [Nat.mul_comm]; exact h2.symm⟩, rfl, rfl,
          fun k hk => if_pos hk, fun k hk => if_neg (by omega)⟩
      · cases h

theorem setX0_eq {a : Arr} {x0 : List ℝ} (h0 : 0 < x0.length) (h1 : 0 < a.rows) (h2 : x0.length ∣ a.cols) :
    ∃ b, setX0 a x0 = .ok b := by
  unfold setX0
  rw [if_neg (by omega), if_neg (by omega), if_pos (Nat.div_mul_cancel h2)]
  exact ⟨_, rfl⟩

/-- The rows of `fillNoise`. -/
theorem fillNoise_ok {a b : Arr} {loc scale : List ℝ} {L : Option Arr} {z : Nat → ℝ}
    (h : fillNoise a loc scale L z = .ok b) :
    (loc.length = a.cols ∨ loc.length = 1) ∧ (scale.length = a.cols ∨ scale.length = 1) ∧
    (∀ l ∈ L, l.rows = a.cols ∧ l.cols = a.cols) ∧ b.rows = a.rows ∧ b.cols = a.cols ∧
    ∀ r j, j < a.cols → b.get r j = shock L a.cols z r j * bentry scale j + bentry loc j := by
  unfold fillNoise at h
  obtain ⟨c, hc, h⟩ := bind_inv h
  obtain ⟨s, hs, h⟩ := bind_inv h
  obtain ⟨m, hm, h⟩ := bind_inv h
  rw [bcastTo_ok] at hs hm
  obtain ⟨hs1, rfl⟩ := hs
  obtain ⟨hm1, rfl⟩ := hm
  cases h
  cases L with
  | none =>
    cases hc
    refine ⟨hm1, hs1, by simp, rfl, rfl, fun r j hj => ?_⟩
    simp only [Arr.get, shock, flat_mod r hj]
  | some L =>
    unfold applyL mulLT at hc
    dsimp only at hc
    split at hc
    · rename_i hL
      cases hc
      refine ⟨hm1, hs1, by simp only [Option.mem_some_iff]; rintro l rfl; exact ⟨hL.2, hL.1⟩, rfl, rfl,
        fun r j hj => ?_⟩
      simp only [Arr.get, shock, flat_mod r hj, flat_div r hj]
      congr 2
      exact Finset.sum_congr rfl fun m _ => mul_comm _ _
    · cases hc

theorem fillNoise_eq {a : Arr} {loc scale : List ℝ} {L : Option Arr} (z : Nat → ℝ)
    (h1 : loc.length = a.cols ∨ loc.length = 1) (h2 : scale.length = a.cols ∨ scale.length = 1)
    (h3 : ∀ l ∈ L, l.rows = a.cols ∧ l.cols = a.cols) : ∃ b, fillNoise a loc scale L z = .ok b := by
  unfold fillNoise
  cases L with
  | none =>
    simp only [bind, Except.bind, applyL]
    rw [(bcastTo_ok (f := bentry scale)).mpr ⟨h2, rfl⟩, (bcastTo_ok (f := bentry loc)).mpr ⟨h1, rfl⟩]
    exact ⟨_, rfl⟩
  | some L =>
    obtain ⟨q1, q2⟩ := h3 L rfl
    simp only [bind, Except.bind, applyL, mulLT]
    rw [if_pos ⟨q2, q1⟩]
    simp only
    rw [(bcastTo_ok (f := bentry scale)).mpr ⟨h2, rfl⟩, (bcastTo_ok (f := bentry loc)).mpr ⟨h1, rfl⟩]
    exact ⟨_, rfl⟩

theorem reshapeCols_ok {a b : Arr} {v : Nat} (h : a.reshapeCols v = .ok b) :
    0 < v ∧ b.rows = a.rows * a.cols / v ∧ b.cols = v ∧ b.data = a.data := by
  unfold Arr.reshapeCols at h
  split at h
  · cases h
  · split at h
    · cases h
      exact ⟨by omega, rfl, rfl, rfl⟩
    · cases h

theorem reshapeCols_congr {a b c : Arr} {v : Nat} (h : a.reshapeCols v = .ok b)
    (hsize : c.rows * c.cols = a.rows * a.cols) : ∃ d, c.reshapeCols v = .ok d := by
  unfold Arr.reshapeCols at h ⊢
  rw [hsize]
  split at h
  · cases h
  · rename_i h1
    rw [if_neg h1]
    split at h
    · rename_i h2
      rw [if_pos h2]
      exact ⟨_, rfl⟩
    · cases h

/-- What `increments` delivers when it succeeds, and that its shape requirements hold. -/
theorem increments_ok {v : Nat} {loc scale : List ℝ} {L : Option Arr} {x0 : List ℝ} {s p : Int}
    {z : Nat → ℝ} {a : Arr} (h : increments v loc scale L x0 s p z = .ok a) :
    0 ≤ s ∧ 0 ≤ p ∧ Shapes v loc scale L x0 p.toNat ∧ IsPaths a s.toNat v p.toNat ∧
    (∀ c < v * p.toNat, a.get 0 c = x0.getD (c % x0.length) 0) ∧
    ∀ t q j, q < p.toNat → j < v →
      path a v q j (t + 1) = shock L v z (t * p.toNat + q) j * bentry scale j + bentry loc j := by
  unfold increments at h
  obtain ⟨a0, h0, h⟩ := bind_inv h
  obtain ⟨a1, h1, h⟩ := bind_inv h
  obtain ⟨a2, h2, h⟩ := bind_inv h
  obtain ⟨a3, h3, h⟩ := bind_inv h
  cases h
  unfold Arr.zeros at h0
  split at h0
  · cases h0
  rename_i hneg
  cases h0
  push Not at hneg
  obtain ⟨s1, s2, s3, s4, s5, s6, -⟩ := setX0_ok h1
  obtain ⟨r1, r2, r3, -⟩ := reshapeCols_ok h2
  obtain ⟨f1, f2, f3, f4, f5, f6⟩ := fillNoise_ok h3
  simp only at s2 s3 s4 s5 s6
  have hs : 0 ≤ s := by omega
  have hp : 0 ≤ p := by
    by_contra hcon
    have : (v : Int) * p < 0 := mul_neg_of_pos_of_neg (by exact_mod_cast r1) (by omega)
    omega
  obtain ⟨p, rfl⟩ := Int.eq_ofNat_of_zero_le hp
  obtain ⟨s, rfl⟩ := Int.eq_ofNat_of_zero_le hs
  have hcols : ((v : Int) * (p : Int)).toNat = v * p := by
    rw [← Nat.cast_mul, Int.toNat_natCast]
  rw [hcols] at s3 s5 s6
  simp only [Int.toNat_natCast]
  rw [r3] at f1 f2 f3 f5 f6
  refine ⟨hs, hp, ⟨r1, f1, f2, f3, s1, s3⟩, ⟨?_, ?_⟩, ?_, ?_⟩
  · simp only [Arr.setTail, s4]; omega
  · simp only [Arr.setTail, s5]
  · intro c hc
    simp only [Arr.setTail, Arr.get, s5, Nat.zero_mul, Nat.zero_add, if_pos hc]
    exact s6 c hc
  · intro t q j hq hj
    have hqj : q * v + j < v * p := by
      have : (q + 1) * v ≤ p * v := Nat.mul_le_mul_right _ hq
      have e1 : (q + 1) * v = q * v + v := by ring
      have e2 : p * v = v * p := by ring
      omega
    simp only [path, Arr.setTail, Arr.get, s5]
    have e3 : (t + 1) * (v * p) = t * (v * p) + v * p := by ring
    rw [if_neg (by omega)]
    have e4 : (t + 1) * (v * p) + (q * v + j) - v * p = (t * p + q) * v + j := by
      have : (t * p + q) * v = t * (v * p) + q * v := by ring
      omega
    rw [e4]
    have := f6 (t * p + q) j hj
    rw [Arr.get, f5] at this
    exact this

/-- The shape requirements are sufficient. -/
theorem increments_eq {v : Nat} {loc scale : List ℝ} {L : Option Arr} {x0 : List ℝ} {p : Nat} (s : Nat)
    (z : Nat → ℝ) (h : Shapes v loc scale L x0 p) :
    ∃ a, increments v loc scale L x0 s p z = .ok a := by
  obtain ⟨h1, h2, h3, h4, h5, h6⟩ := h
  unfold increments
  have e0 : Arr.zeros ((s : Int) + 1) ((v : Int) * (p : Int)) = .ok ⟨s + 1, v * p, fun _ => 0⟩ := by
    unfold Arr.zeros
    rw [if_neg (by push Not; constructor <;> positivity)]
    congr
  rw [e0]
  simp only [bind, Except.bind]
  obtain ⟨a1, ha1⟩ := setX0_eq (a := ⟨s + 1, v * p, fun _ => 0⟩) h5 (by simp) h6
  rw [ha1]
  obtain ⟨-, -, -, s4, s5, -⟩ := setX0_ok ha1
  have e2 : a1.tail.reshapeCols v = .ok ⟨a1.tail.rows * a1.tail.cols / v, v, a1.tail.data⟩ := by
    unfold Arr.reshapeCols
    rw [if_neg (by omega), if_pos]
    simp only [Arr.tail, s5]
    rw [show (a1.rows - 1) * (v * p) = (a1.rows - 1) * p * v by ring, Nat.mul_mod_left]
  simp only [e2]
  obtain ⟨a3, h3'⟩ := fillNoise_eq (a := ⟨a1.tail.rows * a1.tail.cols / v, v, a1.tail.data⟩) z h2 h3 h4
  rw [h3']
  exact ⟨_, rfl⟩

theorem cumsum_get {a : Arr} {i j : Nat} (hj : j < a.cols) :
    a.cumsum.get i j = ∑ i' ∈ Finset.range (i + 1), a.get i' j := by
  unfold Arr.cumsum
  simp only [Arr.get, flat_div i hj, flat_mod i hj]

theorem cumsum_zero {a : Arr} {j : Nat} (hj : j < a.cols) : a.cumsum.get 0 j = a.get 0 j := by
  rw [cumsum_get hj]; simp

theorem cumsum_succ {a : Arr} {i j : Nat} (hj : j < a.cols) :
    a.cumsum.get (i + 1) j = a.cumsum.get i j + a.get (i + 1) j := by
  rw [cumsum_get hj, cumsum_get hj, Finset.sum_range_succ]

theorem col_lt {v p q j : Nat} (hq : q < p) (hj : j < v) : q * v + j < v * p := by
  have : (q + 1) * v ≤ p * v := Nat.mul_le_mul_right _ hq
  have e1 : (q + 1) * v = q * v + v := by ring
  have e2 : p * v = v * p := by ring
  omega

theorem bentry_map (f : ℝ → ℝ) {l : List ℝ} {j v : Nat} (hl : l.length = v ∨ l.length = 1) (hj : j < v) :
    bentry (l.map f) j = f (bentry l j) := by
  unfold bentry
  simp only [List.length_map]
  split
  · rename_i h
    rw [List.getD_eq_getElem _ _ (by simp [h]), List.getD_eq_getElem _ _ (by simp [h])]
    simp
  · have : j < l.length := by omega
    rw [List.getD_eq_getElem _ _ (by simpa using this), List.getD_eq_getElem _ _ this]
    simp

theorem bzip_ok {f : ℝ → ℝ → ℝ} {l m r : List ℝ} (h : bzip f l m = .ok r) :
    (l.length = m.length ∨ l.length = 1 ∨ m.length = 1) ∧
    r.length = (if l.length = 1 then m.length else l.length) ∧
    ∀ j, j < r.length → bentry r j = f (bentry l j) (bentry m j) := by
  unfold bzip at h
  split at h
  · rename_i heq
    cases h
    refine ⟨Or.inl heq, by simp [← heq], fun j hj => ?_⟩
    simp only [List.length_zipWith, ← heq, min_self] at hj
    unfold bentry
    simp only [List.length_zipWith, ← heq, min_self]
    split
    · rename_i h1
      rw [List.getD_eq_getElem _ _ (by simp [← heq, h1]), List.getD_eq_getElem _ _ (by omega),
        List.getD_eq_getElem _ _ (by omega)]
      simp
    · rw [List.getD_eq_getElem _ _ (by simp [← heq, hj]), List.getD_eq_getElem _ _ (by omega),
        List.getD_eq_getElem _ _ (by omega)]
      simp
  · rename_i hne
    split at h
    · rename_i h1
      cases h
      refine ⟨Or.inr (Or.inl h1), by simp [h1], fun j hj => ?_⟩
      simp only [List.length_map] at hj
      rw [bentry_map _ (Or.inl rfl) hj]
      congr 1
      simp [bentry, h1]
    · split at h
      · rename_i h1 h2
        cases h
        refine ⟨Or.inr (Or.inr h2), by simp [h1], fun j hj => ?_⟩
        simp only [List.length_map] at hj
        rw [bentry_map _ (Or.inl rfl) hj]
        congr 1
        simp [bentry, h2]
      · cases h

theorem bzip_eq (f : ℝ → ℝ → ℝ) {l m : List ℝ} (h : l.length = m.length ∨ l.length = 1 ∨ m.length = 1) :
    ∃ r, bzip f l m = .ok r := by
  unfold bzip
  split
  · exact ⟨_, rfl⟩
  · split
    · exact ⟨_, rfl⟩
    · split
      · exact ⟨_, rfl⟩
      · omega

/-! ### The OU loop -/

theorem ouLoop_shape (f : Nat → ℝ) (a : Arr) (n : Nat) :
    (ouLoop f a n).rows = a.rows ∧ (ouLoop f a n).cols = a.cols := by
  induction n with
  | zero => exact ⟨rfl, rfl⟩
  | succ n ih => exact ih

theorem ouStep_get {f : Nat → ℝ} {a : Arr} {i t j : Nat} (hj : j < a.cols) :
    (ouStep f a i).get t j = if t = i + 1 then a.get t j + a.get i j * f j else a.get t j := by
  simp only [ouStep, Arr.get, flat_div t hj, flat_mod t hj]
  split
  · rename_i h
    subst h
    congr 3
    have : (i + 1) * a.cols = i * a.cols + a.cols := by ring
    omega
  · rfl

/-- After `n` iterations rows `0 … n` are final, the others untouched. -/
theorem ouLoop_get {f : Nat → ℝ} {a : Arr} {j : Nat} (hj : j < a.cols) (n : Nat) :
    (ouLoop f a n).get 0 j = a.get 0 j ∧
    (∀ t < n, (ouLoop f a n).get (t + 1) j = (ouLoop f a n).get t j * f j + a.get (t + 1) j) ∧
    ∀ t, n < t → (ouLoop f a n).get t j = a.get t j := by
  induction n with
  | zero => exact ⟨rfl, by omega, fun _ _ => rfl⟩
  | succ n ih =>
    obtain ⟨h1, h2, h3⟩ := ih
    have hj' : j < (ouLoop f a n).cols := by rw [(ouLoop_shape f a n).2]; exact hj
    refine ⟨?_, ?_, ?_⟩
    · rw [ouLoop, ouStep_get hj', if_neg (by omega)]; exact h1
    · intro t ht
      rw [ouLoop, ouStep_get hj', ouStep_get hj']
      by_cases htn : t = n
      · subst htn
        rw [if_pos rfl, if_neg (by omega), h3 (t + 1) (by omega)]
        ring
      · rw [if_neg (by omega), if_neg (by omega)]
        exact h2 t (by omega)
    · intro t ht
      rw [ouLoop, ouStep_get hj', if_neg (by omega)]
      exact h3 t (by omega)

theorem mean_affine (n : Nat) (hn : n ≠ 0) (c s : ℝ) (f : Nat → ℝ) :
    mean n (fun i => c + s * f i) = c + s * mean n f := by
  unfold mean
  rw [Finset.sum_add_distrib, Finset.sum_const, ← Finset.mul_sum, Finset.card_range, nsmul_eq_mul]
  have : (n : ℝ) ≠ 0 := by exact_mod_cast hn
  field_simp

theorem mean_sum (n v : Nat) (w : Nat → ℝ) (f : Nat → Nat → ℝ) :
    mean n (fun i => ∑ m ∈ Finset.range v, w m * f m i) = ∑ m ∈ Finset.range v, w m * mean n (f m) := by
  unfold mean
  rw [Finset.sum_comm, Finset.sum_div]
  exact Finset.sum_congr rfl fun m _ => by rw [← Finset.mul_sum, mul_div_assoc]

end Verif.Sim
