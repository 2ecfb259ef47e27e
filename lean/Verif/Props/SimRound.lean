import Verif.Model.SimR
import Verif.Props.RoundSum
import Verif.Props.SimPaths
import Mathlib.Analysis.SpecialFunctions.Log.Deriv

/-!
# C110: the samplers with rounding
-/

namespace Verif.Sim

open Verif Round Finset

variable {fl : ℝ → ℝ} {ord : Nat → List (ℝ × ℝ) → DotTree}

/-- Every pair is used once. -/
def IsOrder (ord : Nat → List (ℝ × ℝ) → DotTree) : Prop := ∀ k l, l ≠ [] → (ord k l).leaves.Perm l

/-- From left to right with fused multiply-add. -/
def leftDot : List (ℝ × ℝ) → DotTree
  | [] => .prod 0 0
  | x :: l => l.foldl (fun t y => .fma t y.1 y.2) (.prod x.1 x.2)

theorem leftDot_order : IsOrder fun _ => leftDot := by
  have key : ∀ (l : List (ℝ × ℝ)) (t : DotTree), (l.foldl (fun t y => DotTree.fma t y.1 y.2) t).leaves = t.leaves ++ l := by
    intro l
    induction l with
    | nil => intro t; simp
    | cons y l ih => intro t; rw [List.foldl_cons, ih]; simp [DotTree.leaves]
  intro k l hl
  cases l with
  | nil => exact absurd rfl hl
  | cons x l => dsimp only; rw [leftDot, key]; exact List.Perm.refl _

theorem DotTree.eval_id (T : DotTree) : T.eval id = (T.leaves.map fun x => x.1 * x.2).sum := by
  induction T with
  | prod a b => simp [DotTree.eval, DotTree.leaves]
  | node l r hl hr => simp [DotTree.eval, DotTree.leaves, hl, hr]
  | fma t a b ht => simp [DotTree.eval, DotTree.leaves, ht]

theorem DotTree.height_le (T : DotTree) : T.height ≤ T.leaves.length := by
  have hpos : ∀ T : DotTree, 0 < T.leaves.length := by
    intro T
    induction T with
    | prod a b => simp [DotTree.leaves]
    | node l r hl hr => simp only [DotTree.leaves, List.length_append]; omega
    | fma t a b ht => simp [DotTree.leaves]
  induction T with
  | prod a b => simp [DotTree.height, DotTree.leaves]
  | node l r hl hr =>
    have := hpos l
    have := hpos r
    simp only [DotTree.height, DotTree.leaves, List.length_append]
    omega
  | fma t a b ht =>
    simp only [DotTree.height, DotTree.leaves, List.length_append, List.length_singleton]
    omega

/-- The correlated noise with rounding. -/
noncomputable def shockR (fl : ℝ → ℝ) (ord : Nat → List (ℝ × ℝ) → DotTree) (L : Option Arr) (v : Nat) (z : Nat → ℝ) (r j : Nat) : ℝ :=
  match L with
  | none => z (r * v + j)
  | some L => (ord (r * v + j) ((List.range v).map fun m => (z (r * v + m), L.get j m))).eval fl

/-- The rounded array before compounding, from the exact one. -/
noncomputable def noisy (fl : ℝ → ℝ) (ord : Nat → List (ℝ × ℝ) → DotTree) (v : Nat) (loc scale : List ℝ) (L : Option Arr) (z : Nat → ℝ) (b : Arr) : Arr :=
  ⟨b.rows, b.cols, fun k => if k < b.cols then b.data k else
    fl (fl (shockR fl ord L v z ((k - b.cols) / v) ((k - b.cols) % v) * bentry scale ((k - b.cols) % v)) + bentry loc ((k - b.cols) % v))⟩

theorem fillNoiseR_map (a : Arr) (loc scale : List ℝ) (L : Option Arr) (z : Nat → ℝ) :
    fillNoiseR fl ord a loc scale L z = (fillNoise a loc scale L z).map fun b => ⟨b.rows, b.cols, fun k =>
      fl (fl (shockR fl ord L a.cols z (k / a.cols) (k % a.cols) * bentry scale (k % a.cols)) + bentry loc (k % a.cols))⟩ := by
  have hdm : ∀ k, k / a.cols * a.cols + k % a.cols = k := fun k => Nat.div_add_mod' k a.cols
  have key : ∀ (c d : Nat → ℝ), (∀ k, c k = shockR fl ord L a.cols z (k / a.cols) (k % a.cols)) →
      ((do
        let s ← bcastTo scale a.cols
        let m ← bcastTo loc a.cols
        .ok ⟨a.rows, a.cols, fun k => fl (fl (c k * s (k % a.cols)) + m (k % a.cols))⟩ : Py Arr) =
      (do
        let s ← bcastTo scale a.cols
        let m ← bcastTo loc a.cols
        .ok ⟨a.rows, a.cols, fun k => d k * s (k % a.cols) + m (k % a.cols)⟩ : Py Arr).map fun b => ⟨b.rows, b.cols, fun k =>
      fl (fl (shockR fl ord L a.cols z (k / a.cols) (k % a.cols) * bentry scale (k % a.cols)) + bentry loc (k % a.cols))⟩) := by
    intro c d hcd
    simp only [hcd, bcastTo]
    by_cases h1 : scale.length = a.cols ∨ scale.length = 1
    · by_cases h2 : loc.length = a.cols ∨ loc.length = 1
      · simp only [if_pos h1, if_pos h2]; rfl
      · simp only [if_pos h1, if_neg h2]; rfl
    · simp only [if_neg h1]; rfl
  unfold fillNoiseR fillNoise
  cases L with
  | none => exact key z z fun k => by rw [shockR, hdm]
  | some L =>
    simp only [applyLR, applyL, mulLTR, mulLT]
    by_cases hL : L.cols = a.cols ∧ L.rows = a.cols
    · simp only [if_pos hL]
      exact key _ _ fun k => by simp only [shockR, Arr.get, hdm]
    · simp only [if_neg hL]; rfl

theorem incrementsR_map (v : Nat) (loc scale : List ℝ) (L : Option Arr) (x0 : List ℝ) (s n : Int) (z : Nat → ℝ) :
    incrementsR fl ord v loc scale L x0 s n z = (increments v loc scale L x0 s n z).map (noisy fl ord v loc scale L z) := by
  unfold incrementsR increments
  cases h1 : Arr.zeros (s + 1) (v * n) with
  | error e => rfl
  | ok a0 =>
    cases h2 : setX0 a0 x0 with
    | error e => simp only [bind, Except.bind, h2]; rfl
    | ok a1 =>
      cases h3 : a1.tail.reshapeCols v with
      | error e => simp only [bind, Except.bind, h2, h3]; rfl
      | ok a2 =>
        obtain ⟨-, -, hc, -⟩ := reshapeCols_ok h3
        simp only [bind, Except.bind, h2, h3]
        rw [fillNoiseR_map a2, hc]
        cases h4 : fillNoise a2 loc scale L z with
        | error e => rfl
        | ok a3 =>
          simp only [Except.map, noisy, Arr.setTail]
          congr 2
          funext k
          split <;> rfl

theorem noisy_get0 {v : Nat} {loc scale : List ℝ} {L : Option Arr} {z : Nat → ℝ} {b : Arr} {c : Nat} (hc : c < b.cols) :
    (noisy fl ord v loc scale L z b).get 0 c = b.get 0 c := by
  simp [noisy, Arr.get, hc]

/-- The entries of the rounded array before compounding. -/
theorem noisy_path {v s n : Nat} {loc scale : List ℝ} {L : Option Arr} {z : Nat → ℝ} {b : Arr} (hb : IsPaths b s v n)
    {t q j : Nat} (hq : q < n) (hj : j < v) :
    path (noisy fl ord v loc scale L z b) v q j (t + 1) =
      fl (fl (shockR fl ord L v z (t * n + q) j * bentry scale j) + bentry loc j) := by
  have hqj := col_lt hq hj
  simp only [path, noisy, Arr.get, hb.2]
  have e3 : (t + 1) * (v * n) = t * (v * n) + v * n := by ring
  rw [if_neg (by omega)]
  have e4 : (t + 1) * (v * n) + (q * v + j) - v * n = (t * n + q) * v + j := by
    have : (t * n + q) * v = t * (v * n) + q * v := by ring
    omega
  rw [e4, flat_div _ hj, flat_mod _ hj]

theorem cumsumR_get {a : Arr} {i j : Nat} (hj : j < a.cols) : (cumsumR fl a).get i j = pathR fl (fun i => a.get i j) i := by
  unfold cumsumR
  simp only [Arr.get, flat_div i hj, flat_mod i hj]

/-! ### Without rounding -/

theorem shockR_id (hord : IsOrder ord) {L : Option Arr} {v : Nat} (hv : 0 < v) (z : Nat → ℝ) (r j : Nat) :
    shockR id ord L v z r j = shock L v z r j := by
  cases L with
  | none => rfl
  | some L =>
    simp only [shockR, shock]
    rw [DotTree.eval_id, ((hord _ _ (by simp; omega)).map _).sum_eq, List.map_map, Finset.sum_range, ← List.sum_ofFn]
    congr 1
    apply List.ext_getElem
    · simp
    · intro i h1 h2
      simp [mul_comm]

theorem fillNoiseR_id (hord : IsOrder ord) (a : Arr) (hc : 0 < a.cols) (loc scale : List ℝ) (L : Option Arr) (z : Nat → ℝ) :
    fillNoiseR id ord a loc scale L z = fillNoise a loc scale L z := by
  have h : applyLR id ord ⟨a.rows, a.cols, z⟩ L = applyL ⟨a.rows, a.cols, z⟩ L := by
    cases L with
    | none => rfl
    | some L =>
      simp only [applyLR, applyL, mulLTR, mulLT]
      split
      · congr 2
        funext k
        rw [DotTree.eval_id, ((hord _ _ (by simp; omega)).map _).sum_eq, List.map_map, Finset.sum_range, ← List.sum_ofFn]
        congr 1
        apply List.ext_getElem
        · simp
        · intro i h1 h2
          simp
      · rfl
  unfold fillNoiseR fillNoise
  rw [h]
  rfl

theorem incrementsR_id (hord : IsOrder ord) (v : Nat) (loc scale : List ℝ) (L : Option Arr) (x0 : List ℝ) (s n : Int) (z : Nat → ℝ) :
    incrementsR id ord v loc scale L x0 s n z = increments v loc scale L x0 s n z := by
  unfold incrementsR increments
  cases h1 : Arr.zeros (s + 1) (v * n) with
  | error e => rfl
  | ok a0 =>
    cases h2 : setX0 a0 x0 with
    | error e => simp only [bind, Except.bind, h2]
    | ok a1 =>
      cases h3 : a1.tail.reshapeCols v with
      | error e => simp only [bind, Except.bind, h2, h3]
      | ok a2 =>
        obtain ⟨hv, -, hc, -⟩ := reshapeCols_ok h3
        simp only [bind, Except.bind, h2, h3]
        rw [fillNoiseR_id hord a2 (by omega)]

theorem ouLoopR_id (f : Nat → ℝ) (a : Arr) (n : Nat) : ouLoopR id f a n = ouLoop f a n := by
  induction n with
  | zero => rfl
  | succ n ih => rw [ouLoopR, ouLoop, ih]; rfl

/-- C110. Without rounding the rounded samplers are those of `SimCore`, errors included. -/
theorem sim_round_id (hord : IsOrder ord) (x0 : List ℝ) (dt : ℝ) (s n : Int) (z : Nat → ℝ) :
    (∀ p, bmSampleR id ord p x0 dt s n z = bmSample p x0 dt s n z) ∧
    (∀ p, gbmSampleR id ord p x0 dt s n z = gbmSample p x0 dt s n z) ∧
    ∀ p, ouSampleR id ord p x0 dt s n z = ouSample p x0 dt s n z := by
  refine ⟨fun p => ?_, fun p => ?_, fun p => ?_⟩
  · unfold bmSampleR bmSample
    simp only [incrementsR_id hord, round_sum_id_agrees.2.1, id]
  · unfold gbmSampleR gbmSample
    simp only [incrementsR_id hord, round_sum_id_agrees.2.1, id]
  · unfold ouSampleR ouSample
    simp only [incrementsR_id hord, ouLoopR_id, ouFactorR, ouScaleR, id]
    rfl

/-! ### Absolute errors -/

/-- `a` approximates `A` after `k` roundings of quantities of size `p`. -/
def Close (k : Nat) (a A p : ℝ) : Prop := |A| ≤ p ∧ |a - A| ≤ ((1 + u64) ^ k - 1) * p

theorem one_le_pow (k : Nat) : (1 : ℝ) ≤ (1 + u64) ^ k := one_le_pow₀ (by linarith [u64_pos])

theorem Close.refl (A : ℝ) : Close 0 A A |A| := ⟨le_rfl, by simp⟩

theorem Close.pos {k : Nat} {a A p : ℝ} (h : Close k a A p) : 0 ≤ p := (abs_nonneg A).trans h.1

theorem Close.mono {k m : Nat} {a A p : ℝ} (h : Close k a A p) (hm : k ≤ m) : Close m a A p := by
  refine ⟨h.1, h.2.trans (mul_le_mul_of_nonneg_right ?_ h.pos)⟩
  have := pow_le_pow_right₀ (show (1 : ℝ) ≤ 1 + u64 by linarith [u64_pos]) hm
  linarith

theorem Close.size {k : Nat} {a A p : ℝ} (h : Close k a A p) : |a| ≤ (1 + u64) ^ k * p := by
  have : |a| ≤ |a - A| + |A| := by
    have := abs_add_le (a - A) A
    rwa [sub_add_cancel] at this
  linarith [h.1, h.2]

theorem Close.rd (R : Rounding fl) {k : Nat} {a A p : ℝ} (h : Close k a A p) : Close (k + 1) (fl a) A p := by
  refine ⟨h.1, ?_⟩
  have h1 := R.rel a
  have h2 := h.size
  have h3 : |fl a - A| ≤ |fl a - a| + |a - A| := abs_sub_le _ _ _
  have hu := u64_pos
  rw [pow_succ]
  nlinarith [h.2, h.pos, one_le_pow k]

theorem Close.mul {k m : Nat} {a A p b B q : ℝ} (h : Close k a A p) (h' : Close m b B q) : Close (k + m) (a * b) (A * B) (p * q) := by
  refine ⟨by rw [abs_mul]; exact mul_le_mul h.1 h'.1 (abs_nonneg _) h.pos, ?_⟩
  have e : a * b - A * B = (a - A) * b + A * (b - B) := by ring
  have h1 : |a * b - A * B| ≤ |a - A| * |b| + |A| * |b - B| := by
    rw [e]
    refine (abs_add_le _ _).trans ?_
    rw [abs_mul, abs_mul]
  have hk := one_le_pow k
  have hm := one_le_pow m
  have h2 : |a - A| * |b| ≤ ((1 + u64) ^ k - 1) * p * ((1 + u64) ^ m * q) :=
    mul_le_mul h.2 h'.size (abs_nonneg _) (mul_nonneg (by linarith) h.pos)
  have h3 : |A| * |b - B| ≤ p * (((1 + u64) ^ m - 1) * q) := mul_le_mul h.1 h'.2 (abs_nonneg _) h.pos
  calc |a * b - A * B| ≤ ((1 + u64) ^ k - 1) * p * ((1 + u64) ^ m * q) + p * (((1 + u64) ^ m - 1) * q) := by linarith
    _ = ((1 + u64) ^ (k + m) - 1) * (p * q) := by rw [pow_add]; ring

theorem Close.add {k : Nat} {a A p b B q : ℝ} (h : Close k a A p) (h' : Close k b B q) : Close k (a + b) (A + B) (p + q) := by
  refine ⟨(abs_add_le _ _).trans (add_le_add h.1 h'.1), ?_⟩
  have e : a + b - (A + B) = (a - A) + (b - B) := by ring
  rw [e, mul_add]
  exact (abs_add_le _ _).trans (add_le_add h.2 h'.2)

theorem Close.sub {k : Nat} {a A p b B q : ℝ} (h : Close k a A p) (h' : Close k b B q) : Close k (a - b) (A - B) (p + q) := by
  refine ⟨(abs_sub _ _).trans (add_le_add h.1 h'.1), ?_⟩
  have e : a - b - (A - B) = (a - A) - (b - B) := by ring
  rw [e, mul_add]
  exact (abs_sub _ _).trans (add_le_add h.2 h'.2)

theorem Close.dot (R : Rounding fl) (ι : Type) (f g : ι → ℝ) (T : DotTree) (l : List ι)
    (hT : T.leaves = l.map fun i => (f i, g i)) :
    Close T.height (T.eval fl) (l.map fun i => f i * g i).sum (l.map fun i => |f i| * |g i|).sum := by
  have one : ∀ (l : List ι) (a b : ℝ), [(a, b)] = l.map (fun i => (f i, g i)) → ∃ i, l = [i] ∧ f i = a ∧ g i = b := by
    intro l a b h
    cases l with
    | nil => simp at h
    | cons i l => cases l <;> simp_all
  induction T generalizing l with
  | prod a b =>
    obtain ⟨i, rfl, rfl, rfl⟩ := one l a b hT
    have := ((Close.refl (f i)).mul (Close.refl (g i))).rd R
    simpa [DotTree.eval, DotTree.height] using this
  | node a b ha hb =>
    rw [DotTree.leaves] at hT
    obtain ⟨l1, l2, rfl, h1, h2⟩ := List.append_eq_map_iff.1 hT
    have c1 := (ha l1 h1.symm).mono (show a.height ≤ max a.height b.height by omega)
    have c2 := (hb l2 h2.symm).mono (show b.height ≤ max a.height b.height by omega)
    rw [List.map_append, List.map_append, List.sum_append, List.sum_append]
    exact (c1.add c2).rd R
  | fma t a b ht =>
    rw [DotTree.leaves] at hT
    obtain ⟨l1, l2, rfl, h1, h2⟩ := List.append_eq_map_iff.1 hT
    obtain ⟨i, rfl, rfl, rfl⟩ := one l2 a b h2.symm
    rw [List.map_append, List.map_append, List.sum_append, List.sum_append]
    have c2 := ((Close.refl (f i)).mul (Close.refl (g i))).mono (show 0 + 0 ≤ t.height by omega)
    have := ((ht l1 h1.symm).add c2).rd R
    simpa [DotTree.eval, DotTree.height] using this

/-- The size of the noise that a shock is made of. -/
noncomputable def shockAbs (L : Option Arr) (v : Nat) (z : Nat → ℝ) (r j : Nat) : ℝ := match L with
  | none => |z (r * v + j)|
  | some L => ∑ m ∈ range v, |L.get j m| * |z (r * v + m)|

theorem perm_map {α β : Type} {l : List β} {m : List α} {f : α → β} (h : l.Perm (m.map f)) : ∃ l' : List α, l = l'.map f ∧ l'.Perm m := by
  have hc := congrFun (congrFun (List.eq_map_comp_perm f) l) m
  have h' : Relation.Comp (fun a b => a = List.map f b) (fun a b => a.Perm b) l m := by
    rw [hc]
    exact h
  exact h'

theorem shockR_close (R : Rounding fl) (hord : IsOrder ord) {L : Option Arr} {v : Nat} (hv : 0 < v) (z : Nat → ℝ) (r j : Nat) :
    Close v (shockR fl ord L v z r j) (shock L v z r j) (shockAbs L v z r j) := by
  cases L with
  | none => exact (Close.refl _).mono (by omega)
  | some L =>
    simp only [shockR, shock, shockAbs]
    have hp := hord (r * v + j) ((List.range v).map fun m => (z (r * v + m), L.get j m)) (by simp; omega)
    generalize ord (r * v + j) ((List.range v).map fun m => (z (r * v + m), L.get j m)) = T at hp ⊢
    obtain ⟨l, hl, hperm⟩ := perm_map hp
    have := Close.dot R ℕ _ _ T l hl
    have e : ∀ f : ℕ → ℝ, (l.map f).sum = ∑ m ∈ range v, f m := fun f => by
      rw [(hperm.map f).sum_eq, Finset.sum_range, ← List.sum_ofFn]
      congr 1
      apply List.ext_getElem
      · simp
      · intro i h1 h2
        simp
    rw [e, e] at this
    have h1 := DotTree.height_le T
    rw [hp.length_eq, List.length_map, List.length_range] at h1
    simpa only [mul_comm] using this.mono h1

/-- Paths of close increments. -/
theorem pathR_close (R : Rounding fl) {k : Nat} {d D p : Nat → ℝ} (h : ∀ i, Close k (d i) (D i) (p i)) (t : Nat) :
    Close (k + t) (pathR fl d t) (∑ i ∈ range (t + 1), D i) (∑ i ∈ range (t + 1), p i) := by
  induction t with
  | zero => simpa [pathR] using h 0
  | succ t ih =>
    rw [Finset.sum_range_succ, Finset.sum_range_succ _ (t + 1), pathR]
    exact (ih.add ((h (t + 1)).mono (by omega))).rd R

/-! ### Errors of the arguments -/

theorem setX0_len {a : Arr} {x0 x0' : List ℝ} (h : x0.length = x0'.length) :
    (∃ e, setX0 a x0 = .error e ∧ setX0 a x0' = .error e) ∨
    ∃ b b', setX0 a x0 = .ok b ∧ setX0 a x0' = .ok b' ∧ b.rows = b'.rows ∧ b.cols = b'.cols := by
  unfold setX0
  rw [h]
  split
  · exact Or.inl ⟨_, rfl, rfl⟩
  split
  · exact Or.inl ⟨_, rfl, rfl⟩
  split
  · exact Or.inr ⟨_, _, rfl, rfl, rfl, rfl⟩
  · exact Or.inl ⟨_, rfl, rfl⟩

theorem reshape_len {a b : Arr} (hr : a.rows = b.rows) (hc : a.cols = b.cols) (v : Nat) :
    (∃ e, a.reshapeCols v = .error e ∧ b.reshapeCols v = .error e) ∨
    ∃ c d, a.reshapeCols v = .ok c ∧ b.reshapeCols v = .ok d ∧ c.cols = d.cols := by
  unfold Arr.reshapeCols
  rw [hr, hc]
  split
  · exact Or.inl ⟨_, rfl, rfl⟩
  split
  · exact Or.inr ⟨_, _, rfl, rfl, rfl⟩
  · exact Or.inl ⟨_, rfl, rfl⟩

theorem fillNoise_len {a b : Arr} (hc : a.cols = b.cols) {loc loc' scale scale' : List ℝ} (h1 : loc.length = loc'.length)
    (h2 : scale.length = scale'.length) (L : Option Arr) (z : Nat → ℝ) :
    (∃ e, fillNoise a loc scale L z = .error e ∧ fillNoise b loc' scale' L z = .error e) ∨
    ∃ c d, fillNoise a loc scale L z = .ok c ∧ fillNoise b loc' scale' L z = .ok d := by
  have key : ∀ c d : Arr, c.cols = d.cols → (∃ e,
      ((do
        let s ← bcastTo scale c.cols
        let m ← bcastTo loc c.cols
        .ok ⟨c.rows, c.cols, fun k => c.data k * s (k % c.cols) + m (k % c.cols)⟩ : Py Arr) = .error e ∧
      (do
        let s ← bcastTo scale' d.cols
        let m ← bcastTo loc' d.cols
        .ok ⟨d.rows, d.cols, fun k => d.data k * s (k % d.cols) + m (k % d.cols)⟩ : Py Arr) = .error e)) ∨
      ∃ e f, ((do
        let s ← bcastTo scale c.cols
        let m ← bcastTo loc c.cols
        .ok ⟨c.rows, c.cols, fun k => c.data k * s (k % c.cols) + m (k % c.cols)⟩ : Py Arr) = .ok e ∧
      (do
        let s ← bcastTo scale' d.cols
        let m ← bcastTo loc' d.cols
        .ok ⟨d.rows, d.cols, fun k => d.data k * s (k % d.cols) + m (k % d.cols)⟩ : Py Arr) = .ok f) := by
    intro c d hcd
    simp only [bcastTo, hcd, h1, h2]
    by_cases q1 : scale'.length = d.cols ∨ scale'.length = 1
    · by_cases q2 : loc'.length = d.cols ∨ loc'.length = 1
      · simp only [if_pos q1, if_pos q2]; exact Or.inr ⟨_, _, rfl, rfl⟩
      · simp only [if_pos q1, if_neg q2]; exact Or.inl ⟨_, rfl, rfl⟩
    · simp only [if_neg q1]; exact Or.inl ⟨_, rfl, rfl⟩
  unfold fillNoise
  cases L with
  | none => exact key _ _ hc
  | some L =>
    simp only [applyL, mulLT, hc]
    by_cases hL : L.cols = b.cols ∧ L.rows = b.cols
    · simp only [if_pos hL]
      exact key ⟨_, _, _⟩ ⟨_, _, _⟩ rfl
    · simp only [if_neg hL]; exact Or.inl ⟨_, rfl, rfl⟩

/-- Whether and how `increments` fails depends on the lengths of its arguments only. -/
theorem increments_len (v : Nat) {loc loc' scale scale' x0 x0' : List ℝ} (h1 : loc.length = loc'.length)
    (h2 : scale.length = scale'.length) (h3 : x0.length = x0'.length) (L : Option Arr) (s n : Int) (z : Nat → ℝ) :
    (∃ e, increments v loc scale L x0 s n z = .error e ∧ increments v loc' scale' L x0' s n z = .error e) ∨
    ∃ a b, increments v loc scale L x0 s n z = .ok a ∧ increments v loc' scale' L x0' s n z = .ok b := by
  unfold increments
  cases Arr.zeros (s + 1) (v * n) with
  | error e => exact Or.inl ⟨e, rfl, rfl⟩
  | ok a0 =>
    rcases setX0_len (a := a0) h3 with ⟨e, e1, e2⟩ | ⟨b, b', e1, e2, e3, e4⟩
    · left; exact ⟨e, by simp only [bind, Except.bind, e1], by simp only [bind, Except.bind, e2]⟩
    · rcases reshape_len (a := b.tail) (b := b'.tail) (by simp only [Arr.tail, e3]) (by simp only [Arr.tail, e4]) v with
        ⟨e, f1, f2⟩ | ⟨c, d, f1, f2, f3⟩
      · left; exact ⟨e, by simp only [bind, Except.bind, e1, f1], by simp only [bind, Except.bind, e2, f2]⟩
      · rcases fillNoise_len f3 h1 h2 L z with ⟨e, g1, g2⟩ | ⟨g, g', g1, g2⟩
        · left; exact ⟨e, by simp only [bind, Except.bind, e1, f1, g1], by simp only [bind, Except.bind, e2, f2, g2]⟩
        · right; exact ⟨b.setTail g, b'.setTail g', by simp only [bind, Except.bind, e1, f1, g1], by simp only [bind, Except.bind, e2, f2, g2]⟩

/-! ### Brownian motion -/

variable {p : BMParams} {x0 : List ℝ} {dt : ℝ} {z : Nat → ℝ} {a : Arr}

/-- C110. Rounding changes neither whether nor how the Brownian sampler fails. -/
theorem bm_round_errors (fl : ℝ → ℝ) (ord : Nat → List (ℝ × ℝ) → DotTree) (p : BMParams) (x0 : List ℝ) (dt : ℝ) (s n : Int) (z : Nat → ℝ) :
    (∃ e, bmSampleR fl ord p x0 dt s n z = .error e ∧ bmSample p x0 dt s n z = .error e) ∨
    ∃ a b, bmSampleR fl ord p x0 dt s n z = .ok a ∧ bmSample p x0 dt s n z = .ok b := by
  unfold bmSampleR bmSample
  rw [incrementsR_map]
  rcases increments_len p.drift.length (loc := p.drift.map fun d => fl (d * dt)) (loc' := p.drift.map (· * dt))
    (scale := p.vol.map fun s => fl (s * fl (Real.sqrt dt))) (scale' := p.vol.map (· * Real.sqrt dt)) (by simp) (by simp)
    (rfl : x0.length = x0.length) p.L s n z with ⟨e, e1, e2⟩ | ⟨a, b, e1, e2⟩
  · rw [e1, e2]
    exact Or.inl ⟨e, rfl, rfl⟩
  · rw [e1, e2]
    exact Or.inr ⟨_, _, rfl, rfl⟩

/-- The rounded Brownian path, increment by increment. -/
theorem bm_round_path {s n : Nat} (h : bmSampleR fl ord p x0 dt s n z = .ok a) :
    0 < p.drift.length ∧ (p.vol.length = p.drift.length ∨ p.vol.length = 1) ∧ IsPaths a s p.drift.length n ∧
    (∀ c < p.drift.length * n, a.get 0 c = x0.getD (c % x0.length) 0) ∧
    ∀ q j, q < n → j < p.drift.length → ∀ t, path a p.drift.length q j t = pathR fl (fun i =>
      if i = 0 then x0.getD ((q * p.drift.length + j) % x0.length) 0 else
        fl (fl (shockR fl ord p.L p.drift.length z ((i - 1) * n + q) j * fl (bentry p.vol j * fl (Real.sqrt dt))) +
          fl (bentry p.drift j * dt))) t := by
  unfold bmSampleR at h
  rw [incrementsR_map] at h
  obtain ⟨b', hb, h⟩ := bind_inv h
  cases h
  obtain ⟨b, hinc, rfl⟩ : ∃ b, increments p.drift.length (p.drift.map fun d => fl (d * dt))
      (p.vol.map fun s => fl (s * fl (Real.sqrt dt))) p.L x0 s n z = .ok b ∧ noisy fl ord p.drift.length
      (p.drift.map fun d => fl (d * dt)) (p.vol.map fun s => fl (s * fl (Real.sqrt dt))) p.L z b = b' := by
    cases hi : increments p.drift.length (p.drift.map fun d => fl (d * dt)) (p.vol.map fun s => fl (s * fl (Real.sqrt dt))) p.L x0 s n z with
    | error e => rw [hi] at hb; cases hb
    | ok b => rw [hi] at hb; exact ⟨b, rfl, Except.ok.inj hb⟩
  obtain ⟨-, -, hsh, hp, i3, -⟩ := increments_ok hinc
  simp only [Int.toNat_natCast] at *
  have hvol : p.vol.length = p.drift.length ∨ p.vol.length = 1 := by simpa using hsh.scale
  refine ⟨hsh.pos, hvol, hp, ?_, ?_⟩
  · intro c hc
    have hc' : c < b.cols := by rw [hp.2]; exact hc
    rw [cumsumR_get (a := noisy _ _ _ _ _ _ _ b) hc', pathR, noisy_get0 hc', i3 c hc]
  · intro q j hq hj t
    have hc : q * p.drift.length + j < b.cols := by rw [hp.2]; exact col_lt hq hj
    rw [path, cumsumR_get (a := noisy _ _ _ _ _ _ _ b) hc]
    congr 1
    funext i
    cases i with
    | zero => rw [noisy_get0 hc, i3 _ (col_lt hq hj), if_pos rfl]
    | succ i =>
      have := noisy_path (fl := fl) (ord := ord) (loc := p.drift.map fun d => fl (d * dt))
        (scale := p.vol.map fun s => fl (s * fl (Real.sqrt dt))) (L := p.L) (z := z) hp (t := i) hq hj
      rw [if_neg (by omega), Nat.add_sub_cancel]
      rw [path, bentry_map _ (Or.inl rfl) hj, bentry_map _ hvol hj] at this
      exact this

/-- C110. The Brownian sample computed with rounding against the exact one with the same draws: the start is exact, and the error at
step `t` is at most `(1 + u) ^ (t + v + 4) - 1` of the sum of the sizes of the terms. -/
theorem bm_round_error (R : Rounding fl) (hord : IsOrder ord) {s n : Nat} (h : bmSampleR fl ord p x0 dt s n z = .ok a) :
    ∃ b, bmSample p x0 dt s n z = .ok b ∧ IsPaths a s p.drift.length n ∧
    (∀ c < p.drift.length * n, a.get 0 c = x0.getD (c % x0.length) 0) ∧
    ∀ q j, q < n → j < p.drift.length → ∀ t,
      |path a p.drift.length q j t - path b p.drift.length q j t| ≤ ((1 + u64) ^ (t + p.drift.length + 4) - 1) *
        (|x0.getD ((q * p.drift.length + j) % x0.length) 0| + ∑ i ∈ range t,
          (shockAbs p.L p.drift.length z (i * n + q) j * (|bentry p.vol j| * Real.sqrt dt) + |bentry p.drift j| * |dt|)) := by
  rcases bm_round_errors fl ord p x0 dt s n z with ⟨e, e1, -⟩ | ⟨a', b, e1, e2⟩
  · rw [e1] at h; cases h
  refine ⟨b, e2, ?_⟩
  obtain ⟨hv, hvol, hp, h0, hpath⟩ := bm_round_path h
  refine ⟨hp, h0, fun q j hq hj t => ?_⟩
  obtain ⟨-, b0, bstep⟩ := bm_increments e2
  have hdt : Close 1 (fl (Real.sqrt dt)) (Real.sqrt dt) (Real.sqrt dt) := by
    have := (Close.refl (Real.sqrt dt)).rd R
    rwa [abs_of_nonneg (Real.sqrt_nonneg dt)] at this
  have hs : Close 2 (fl (bentry p.vol j * fl (Real.sqrt dt))) (bentry p.vol j * Real.sqrt dt) (|bentry p.vol j| * Real.sqrt dt) :=
    ((Close.refl _).mul hdt).rd R
  have hm : Close 1 (fl (bentry p.drift j * dt)) (bentry p.drift j * dt) (|bentry p.drift j| * |dt|) :=
    ((Close.refl _).mul (Close.refl _)).rd R
  have key := pathR_close R (k := p.drift.length + 4) (d := fun i =>
      if i = 0 then x0.getD ((q * p.drift.length + j) % x0.length) 0 else
        fl (fl (shockR fl ord p.L p.drift.length z ((i - 1) * n + q) j * fl (bentry p.vol j * fl (Real.sqrt dt))) +
          fl (bentry p.drift j * dt)))
    (D := fun i => if i = 0 then x0.getD ((q * p.drift.length + j) % x0.length) 0 else
      shock p.L p.drift.length z ((i - 1) * n + q) j * (bentry p.vol j * Real.sqrt dt) + bentry p.drift j * dt)
    (p := fun i => if i = 0 then |x0.getD ((q * p.drift.length + j) % x0.length) 0| else
      shockAbs p.L p.drift.length z ((i - 1) * n + q) j * (|bentry p.vol j| * Real.sqrt dt) + |bentry p.drift j| * |dt|)
    (fun i => by
      by_cases hi : i = 0
      · simp only [if_pos hi]
        exact (Close.refl _).mono (by omega)
      · simp only [if_neg hi]
        exact ((((shockR_close R hord hv z _ j).mul hs).rd R).add (hm.mono (by omega))).rd R) t
  have hb : path b p.drift.length q j t = ∑ i ∈ range (t + 1), (fun i => if i = 0 then x0.getD ((q * p.drift.length + j) % x0.length) 0 else
      shock p.L p.drift.length z ((i - 1) * n + q) j * (bentry p.vol j * Real.sqrt dt) + bentry p.drift j * dt) i := by
    clear key
    induction t with
    | zero => simpa [path] using b0 _ (col_lt hq hj)
    | succ t ih =>
      rw [Finset.sum_range_succ, ← ih, bstep t q j hq hj]
      rw [if_neg (by omega), Nat.add_sub_cancel]
      ring
  rw [hpath q j hq hj t, hb, show t + p.drift.length + 4 = p.drift.length + 4 + t by omega]
  refine key.2.trans (le_of_eq ?_)
  congr 1
  rw [Finset.sum_range_succ']
  simp only [Nat.add_sub_cancel, if_true, Nat.succ_ne_zero, if_false]
  rw [add_comm]

/-! ### Geometric Brownian motion -/

theorem bzip_len {f g : ℝ → ℝ → ℝ} {l l' m m' : List ℝ} (h1 : l.length = l'.length) (h2 : m.length = m'.length) :
    (∃ e, bzip f l m = .error e ∧ bzip g l' m' = .error e) ∨
    ∃ r r', bzip f l m = .ok r ∧ bzip g l' m' = .ok r' ∧ r.length = r'.length := by
  unfold bzip
  rw [h1, h2]
  by_cases q1 : l'.length = m'.length
  · simp only [if_pos q1]; exact Or.inr ⟨_, _, rfl, rfl, by simp [h1, h2]⟩
  simp only [if_neg q1]
  by_cases q2 : l'.length = 1
  · simp only [if_pos q2]; exact Or.inr ⟨_, _, rfl, rfl, by simp [h2]⟩
  simp only [if_neg q2]
  by_cases q3 : m'.length = 1
  · simp only [if_pos q3]; exact Or.inr ⟨_, _, rfl, rfl, by simp [h1]⟩
  · simp only [if_neg q3]; exact Or.inl ⟨_, rfl, rfl⟩

/-- What a successful `incrementsR` looks like. -/
theorem incrementsR_ok {v : Nat} {loc scale : List ℝ} {L : Option Arr} {x0 : List ℝ} {s n : Nat} {b : Arr}
    (h : incrementsR fl ord v loc scale L x0 s n z = .ok b) :
    Shapes v loc scale L x0 n ∧ IsPaths b s v n ∧ (∀ c < v * n, b.get 0 c = x0.getD (c % x0.length) 0) ∧
    ∀ t q j, q < n → j < v →
      path b v q j (t + 1) = fl (fl (shockR fl ord L v z (t * n + q) j * bentry scale j) + bentry loc j) := by
  rw [incrementsR_map] at h
  cases hi : increments v loc scale L x0 s n z with
  | error e => rw [hi] at h; cases h
  | ok b0 =>
    rw [hi] at h
    cases h
    obtain ⟨-, -, hsh, hp, i3, -⟩ := increments_ok hi
    simp only [Int.toNat_natCast] at *
    refine ⟨hsh, hp, fun c hc => ?_, fun t q j hq hj => noisy_path hp hq hj⟩
    have hc' : c < b0.cols := by rw [hp.2]; exact hc
    rw [noisy_get0 hc', i3 c hc]

/-- C110. Rounding changes neither whether nor how the geometric sampler fails. -/
theorem gbm_round_errors (fl : ℝ → ℝ) (ord : Nat → List (ℝ × ℝ) → DotTree) (p : BMParams) (x0 : List ℝ) (dt : ℝ) (s n : Int) (z : Nat → ℝ) :
    (∃ e, gbmSampleR fl ord p x0 dt s n z = .error e ∧ gbmSample p x0 dt s n z = .error e) ∨
    ∃ a b, gbmSampleR fl ord p x0 dt s n z = .ok a ∧ gbmSample p x0 dt s n z = .ok b := by
  unfold gbmSampleR gbmSample
  simp only [incrementsR_map]
  cases Arr.zeros (s + 1) (p.drift.length * n) with
  | error e => exact Or.inl ⟨e, rfl, rfl⟩
  | ok a0 =>
    simp only [bind, Except.bind]
    have hl : (x0.map fun x => fl (Real.log x)).length = (x0.map Real.log).length := by simp
    rcases setX0_len (a := a0) hl with ⟨e, e1, e2⟩ | ⟨b, b', e1, e2, -, -⟩
    · simp only [e1, e2]; exact Or.inl ⟨e, rfl, rfl⟩
    simp only [e1, e2]
    cases a0.tail.reshapeCols p.drift.length with
    | error e => exact Or.inl ⟨e, rfl, rfl⟩
    | ok a1 =>
      dsimp only
      rcases bzip_len (f := fun d v => fl (fl (d - fl (0.5 * fl (v ^ 2))) * dt)) (g := fun d v => (d - 0.5 * v ^ 2) * dt)
        (rfl : p.drift.length = _) (rfl : p.vol.length = _) with ⟨e, f1, f2⟩ | ⟨r, r', f1, f2, f3⟩
      · simp only [f1, f2]; exact Or.inl ⟨e, rfl, rfl⟩
      simp only [f1, f2]
      rcases increments_len p.drift.length (loc := r) (loc' := r') (scale := p.vol.map fun s => fl (s * fl (Real.sqrt dt)))
        (scale' := p.vol.map (· * Real.sqrt dt)) f3 (by simp) hl p.L s n z with ⟨e, g1, g2⟩ | ⟨c, d, g1, g2⟩
      · simp only [g1, g2]; exact Or.inl ⟨e, rfl, rfl⟩
      · simp only [g1, g2]; exact Or.inr ⟨_, _, rfl, rfl⟩

/-- The rounded geometric path, increment by increment. -/
theorem gbm_round_path {s n : Nat} (h : gbmSampleR fl ord p x0 dt s n z = .ok a) :
    0 < p.drift.length ∧ 0 < x0.length ∧ IsPaths a s p.drift.length n ∧
    (∀ t c, ∃ y, a.get t c = fl (Real.exp y)) ∧
    (∀ c < p.drift.length * n, a.get 0 c = fl (Real.exp (fl (Real.log (x0.getD (c % x0.length) 1))))) ∧
    ∀ q j, q < n → j < p.drift.length → ∀ t, path a p.drift.length q j t = fl (Real.exp (pathR fl (fun i =>
      if i = 0 then fl (Real.log (x0.getD ((q * p.drift.length + j) % x0.length) 1)) else
        fl (fl (shockR fl ord p.L p.drift.length z ((i - 1) * n + q) j * fl (bentry p.vol j * fl (Real.sqrt dt))) +
          fl (fl (bentry p.drift j - fl (0.5 * fl (bentry p.vol j ^ 2))) * dt))) t)) := by
  unfold gbmSampleR at h
  obtain ⟨a0, -, h⟩ := bind_inv h
  obtain ⟨a1, -, h⟩ := bind_inv h
  obtain ⟨a2, -, h⟩ := bind_inv h
  obtain ⟨loc, hloc, h⟩ := bind_inv h
  obtain ⟨b, hb, h⟩ := bind_inv h
  cases h
  obtain ⟨hsh, hp, i3, i4⟩ := incrementsR_ok hb
  obtain ⟨-, l2, l3⟩ := bzip_ok hloc
  have hvol : p.vol.length = p.drift.length ∨ p.vol.length = 1 := by simpa using hsh.scale
  have hll : loc.length = p.drift.length := by
    rw [l2]
    split
    · have := hsh.loc
      rw [l2] at this
      omega
    · rfl
  have hx0 : 0 < x0.length := by simpa using hsh.start.1
  have hst : ∀ c < p.drift.length * n, b.get 0 c = fl (Real.log (x0.getD (c % x0.length) 1)) := by
    intro c hc
    rw [i3 c hc, List.length_map]
    have : c % x0.length < x0.length := Nat.mod_lt _ (by omega)
    simp [List.getD_eq_getElem?_getD, List.getElem?_map, List.getElem?_eq_getElem this]
  refine ⟨hsh.pos, hx0, hp, fun t c => ⟨_, rfl⟩, ?_, ?_⟩
  · intro c hc
    have hc' : c < b.cols := by rw [hp.2]; exact hc
    show fl (Real.exp ((cumsumR fl b).get 0 c)) = _
    rw [cumsumR_get hc', pathR, hst c hc]
  · intro q j hq hj t
    have hc : q * p.drift.length + j < b.cols := by rw [hp.2]; exact col_lt hq hj
    show fl (Real.exp ((cumsumR fl b).get t (q * p.drift.length + j))) = _
    rw [cumsumR_get hc]
    congr 3
    funext i
    cases i with
    | zero => rw [hst _ (col_lt hq hj), if_pos rfl]
    | succ i =>
      have := i4 i q j hq hj
      rw [if_neg (by omega), Nat.add_sub_cancel]
      rw [path, bentry_map _ hvol hj, l3 j (by omega)] at this
      exact this

theorem exp_close (R : Rounding fl) {y Y E : ℝ} (h : |y - Y| ≤ E) :
    |fl (Real.exp y) - Real.exp Y| ≤ ((1 + u64) * Real.exp E - 1) * Real.exp Y := by
  have hE : 0 ≤ E := (abs_nonneg _).trans h
  have hY := Real.exp_pos Y
  have h1 := R.rel (Real.exp y)
  rw [abs_of_pos (Real.exp_pos y), abs_le] at h1
  rw [abs_le] at h
  have hu := u64_pos
  have hu1 : u64 < 1 := by linarith [u64_small]
  have h2 : Real.exp y ≤ Real.exp E * Real.exp Y := by
    rw [← Real.exp_add]; exact Real.exp_le_exp.2 (by linarith)
  have h3 : Real.exp (-E) * Real.exp Y ≤ Real.exp y := by
    rw [← Real.exp_add]; exact Real.exp_le_exp.2 (by linarith)
  have h4 : 1 ≤ Real.exp E := by linarith [Real.add_one_le_exp E]
  have h5 : Real.exp E * Real.exp (-E) = 1 := by rw [← Real.exp_add]; simp
  have h7 : 0 < Real.exp (-E) := Real.exp_pos _
  have h8 : Real.exp (-E) ≤ 1 := by nlinarith
  have h6 : 2 ≤ Real.exp E + Real.exp (-E) := by nlinarith [sq_nonneg (Real.exp E - 1)]
  rw [abs_le]
  constructor
  · have : (1 - u64) * (Real.exp (-E) * Real.exp Y) ≤ fl (Real.exp y) := by nlinarith
    have h9 : 0 ≤ u64 * (Real.exp E - Real.exp (-E)) := mul_nonneg hu.le (by linarith)
    have h10 : 0 ≤ (1 + u64) * Real.exp E + (1 - u64) * Real.exp (-E) - 2 := by nlinarith
    nlinarith [mul_nonneg h10 hY.le]
  · have : fl (Real.exp y) ≤ (1 + u64) * (Real.exp E * Real.exp Y) := by nlinarith
    nlinarith

/-- C110. The geometric sample computed with rounding: every value is positive, the first row is the exponential of the logarithm of
the start, both rounded, and the relative error at step `t` is at most `(1 + u) * exp E - 1`, where `E` is `(1 + u) ^ (t + v + 4) - 1`
of the sum of the sizes of the terms of the logarithm. -/
theorem gbm_round_error (R : Rounding fl) (hord : IsOrder ord) {s n : Nat} (h : gbmSampleR fl ord p x0 dt s n z = .ok a)
    (hx : ∀ x ∈ x0, 0 < x) :
    ∃ b, gbmSample p x0 dt s n z = .ok b ∧ IsPaths a s p.drift.length n ∧ (∀ t c, 0 < a.get t c) ∧
    (∀ c < p.drift.length * n, a.get 0 c = fl (Real.exp (fl (Real.log (x0.getD (c % x0.length) 1))))) ∧
    ∀ q j, q < n → j < p.drift.length → ∀ t,
      |path a p.drift.length q j t - path b p.drift.length q j t| ≤
        ((1 + u64) * Real.exp (((1 + u64) ^ (t + p.drift.length + 4) - 1) *
          (|Real.log (x0.getD ((q * p.drift.length + j) % x0.length) 1)| + ∑ i ∈ range t,
            (shockAbs p.L p.drift.length z (i * n + q) j * (|bentry p.vol j| * Real.sqrt dt) +
              (|bentry p.drift j| + bentry p.vol j ^ 2 / 2) * |dt|))) - 1) * path b p.drift.length q j t := by
  rcases gbm_round_errors fl ord p x0 dt s n z with ⟨e, e1, -⟩ | ⟨a', b, e1, e2⟩
  · rw [e1] at h; cases h
  refine ⟨b, e2, ?_⟩
  obtain ⟨hv, hx0, hp, hpos, h0, hpath⟩ := gbm_round_path h
  refine ⟨hp, fun t c => ?_, h0, fun q j hq hj t => ?_⟩
  · obtain ⟨y, hy⟩ := hpos t c
    rw [hy]
    exact R.pos (Real.exp_pos y)
  obtain ⟨-, b0, bpos, bstep⟩ := gbm_paths e2 hx
  have hdt : Close 1 (fl (Real.sqrt dt)) (Real.sqrt dt) (Real.sqrt dt) := by
    have := (Close.refl (Real.sqrt dt)).rd R
    rwa [abs_of_nonneg (Real.sqrt_nonneg dt)] at this
  have hs : Close 2 (fl (bentry p.vol j * fl (Real.sqrt dt))) (bentry p.vol j * Real.sqrt dt) (|bentry p.vol j| * Real.sqrt dt) :=
    ((Close.refl _).mul hdt).rd R
  have hm : Close 4 (fl (fl (bentry p.drift j - fl (0.5 * fl (bentry p.vol j ^ 2))) * dt))
      ((bentry p.drift j - bentry p.vol j ^ 2 / 2) * dt) ((|bentry p.drift j| + bentry p.vol j ^ 2 / 2) * |dt|) := by
    have h1 : Close 2 (fl (0.5 * fl (bentry p.vol j ^ 2))) (bentry p.vol j ^ 2 / 2) (bentry p.vol j ^ 2 / 2) := by
      have := ((Close.refl (0.5 : ℝ)).mul ((Close.refl (bentry p.vol j ^ 2)).rd R)).rd R
      rw [abs_of_nonneg (sq_nonneg (bentry p.vol j)), abs_of_pos (by norm_num : (0 : ℝ) < 0.5),
        show (0.5 : ℝ) * bentry p.vol j ^ 2 = bentry p.vol j ^ 2 / 2 by ring] at this
      exact this
    exact (((((Close.refl (bentry p.drift j)).mono (by omega)).sub h1).rd R).mul (Close.refl dt)).rd R
  have key := pathR_close R (k := p.drift.length + 4) (d := fun i =>
      if i = 0 then fl (Real.log (x0.getD ((q * p.drift.length + j) % x0.length) 1)) else
        fl (fl (shockR fl ord p.L p.drift.length z ((i - 1) * n + q) j * fl (bentry p.vol j * fl (Real.sqrt dt))) +
          fl (fl (bentry p.drift j - fl (0.5 * fl (bentry p.vol j ^ 2))) * dt)))
    (D := fun i => if i = 0 then Real.log (x0.getD ((q * p.drift.length + j) % x0.length) 1) else
      shock p.L p.drift.length z ((i - 1) * n + q) j * (bentry p.vol j * Real.sqrt dt) + (bentry p.drift j - bentry p.vol j ^ 2 / 2) * dt)
    (p := fun i => if i = 0 then |Real.log (x0.getD ((q * p.drift.length + j) % x0.length) 1)| else
      shockAbs p.L p.drift.length z ((i - 1) * n + q) j * (|bentry p.vol j| * Real.sqrt dt) +
        (|bentry p.drift j| + bentry p.vol j ^ 2 / 2) * |dt|)
    (fun i => by
      by_cases hi : i = 0
      · simp only [if_pos hi]
        exact ((Close.refl _).rd R).mono (by omega)
      · simp only [if_neg hi]
        exact ((((shockR_close R hord hv z _ j).mul hs).rd R).add (hm.mono (by omega))).rd R) t
  have hb : Real.log (path b p.drift.length q j t) = ∑ i ∈ range (t + 1), (fun i =>
      if i = 0 then Real.log (x0.getD ((q * p.drift.length + j) % x0.length) 1) else
      shock p.L p.drift.length z ((i - 1) * n + q) j * (bentry p.vol j * Real.sqrt dt) +
        (bentry p.drift j - bentry p.vol j ^ 2 / 2) * dt) i := by
    clear key
    induction t with
    | zero =>
      have := b0 _ (col_lt hq hj)
      have hlt : (q * p.drift.length + j) % x0.length < x0.length := Nat.mod_lt _ hx0
      simp only [List.getD_eq_getElem?_getD, List.getElem?_eq_getElem hlt, Option.getD_some] at this
      simp [path, this, List.getElem?_eq_getElem hlt]
    | succ t ih =>
      rw [Finset.sum_range_succ, ← ih, bstep t q j hq hj]
      rw [if_neg (by omega), Nat.add_sub_cancel]
      ring
  have hb' : path b p.drift.length q j t = Real.exp (∑ i ∈ range (t + 1), (fun i =>
      if i = 0 then Real.log (x0.getD ((q * p.drift.length + j) % x0.length) 1) else
      shock p.L p.drift.length z ((i - 1) * n + q) j * (bentry p.vol j * Real.sqrt dt) +
        (bentry p.drift j - bentry p.vol j ^ 2 / 2) * dt) i) := by
    rw [← hb, Real.exp_log (show 0 < path b p.drift.length q j t from bpos _ _)]
  rw [hpath q j hq hj t, hb', show t + p.drift.length + 4 = p.drift.length + 4 + t by omega]
  have := exp_close R key.2
  rw [Finset.sum_range_succ' (fun i => if i = 0 then |Real.log (x0.getD ((q * p.drift.length + j) % x0.length) 1)| else _)] at this
  simp only [Nat.add_sub_cancel, if_true, Nat.succ_ne_zero, if_false] at this
  rw [add_comm (∑ i ∈ range t, _)] at this
  exact this

theorem log_100 : |Real.log 100 - 5184960683398422 / 2 ^ 50 + 434151 / 10 ^ 21| ≤ 1 / 10 ^ 20 := by
  have h2l := Real.sum_range_le_log_div (x := 1 / 3) (by norm_num) (by norm_num) 24
  have h2u := Real.log_div_le_sum_range_add (x := 1 / 3) (by norm_num) (by norm_num) 24
  have h5l := Real.sum_range_le_log_div (x := 1 / 9) (by norm_num) (by norm_num) 12
  have h5u := Real.log_div_le_sum_range_add (x := 1 / 9) (by norm_num) (by norm_num) 12
  rw [show ((1 : ℝ) + 1 / 3) / (1 - 1 / 3) = 2 by norm_num] at h2l h2u
  rw [show ((1 : ℝ) + 1 / 9) / (1 - 1 / 9) = 5 / 4 by norm_num] at h5l h5u
  have e : Real.log 100 = 6 * Real.log 2 + 2 * Real.log (5 / 4) := by
    rw [show (100 : ℝ) = 2 ^ 6 * (5 / 4) ^ 2 by norm_num, Real.log_mul (by norm_num) (by norm_num), Real.log_pow, Real.log_pow]
    norm_num
  rw [e]
  generalize Real.log 2 = A at *
  generalize Real.log (5 / 4) = B at *
  norm_num [Finset.sum_range_succ] at h2l h2u h5l h5u
  rw [abs_le]
  constructor <;> norm_num <;> linarith

/-- C110, finding. The first row of a geometric sample is not the start: with 64-bit numbers the default start 100 becomes
`100 + 3 * 2 ^ -46`. -/
theorem gbm_start_moves : b64 (Real.exp (b64 (Real.log 100))) = 100 + 3 / 2 ^ 46 := by
  have h := abs_le.1 log_100
  have h1 : b64 (Real.log 100) = (5184960683398422 : ℤ) * (2 : ℝ) ^ (-50 : ℤ) := by
    apply b64_eq
    · norm_num at h ⊢
      linarith [h.1]
    · norm_num at h ⊢
      linarith [h.2]
    · rw [abs_lt]
      norm_num at h ⊢
      constructor <;> linarith [h.1, h.2]
  have h2 : ((5184960683398422 : ℤ) : ℝ) * (2 : ℝ) ^ (-50 : ℤ) = Real.log 100 + (5184960683398422 / 2 ^ 50 - Real.log 100) := by
    norm_num
  rw [h1, h2, Real.exp_add, Real.exp_log (by norm_num)]
  generalize hd : (5184960683398422 : ℝ) / 2 ^ 50 - Real.log 100 = d
  have hd1 : d ≤ 434161 / 10 ^ 21 := by rw [← hd]; norm_num at h ⊢; linarith [h.1]
  have hd2 : 434141 / 10 ^ 21 ≤ d := by rw [← hd]; norm_num at h ⊢; linarith [h.2]
  have h3 := abs_le.1 (Real.abs_exp_sub_one_sub_id_le (x := d) (by rw [abs_le]; norm_num at hd1 hd2; constructor <;> linarith))
  have h4 : d ^ 2 ≤ 1 / 10 ^ 30 := by
    have : d ^ 2 ≤ (434161 / 10 ^ 21) ^ 2 := pow_le_pow_left₀ (le_trans (by norm_num) hd2) hd1 2
    exact this.trans (by norm_num)
  have h5 : b64 (100 * Real.exp d) = (7036874417766403 : ℤ) * (2 : ℝ) ^ (-46 : ℤ) := by
    generalize Real.exp d = x at *
    apply b64_eq
    · norm_num at *
      linarith [h3.1]
    · norm_num at *
      linarith [h3.2]
    · rw [abs_lt]
      norm_num at *
      constructor <;> linarith [h3.1, h3.2]
  rw [h5]
  norm_num

/-- C110, finding: so every geometric sample with the default start begins above it. -/
theorem gbm_default_start {s n : Nat} (h : gbmSampleR b64 ord p [100] dt s n z = .ok a) :
    ∀ c < p.drift.length * n, a.get 0 c = 100 + 3 / 2 ^ 46 := by
  obtain ⟨-, -, -, -, h0, -⟩ := gbm_round_path h
  intro c hc
  rw [h0 c hc, ← gbm_start_moves]
  simp [Nat.mod_one]

/-! ### Ornstein–Uhlenbeck -/

theorem ouLoopR_shape (fl : ℝ → ℝ) (f : Nat → ℝ) (a : Arr) (n : Nat) :
    (ouLoopR fl f a n).rows = a.rows ∧ (ouLoopR fl f a n).cols = a.cols := by
  induction n with
  | zero => exact ⟨rfl, rfl⟩
  | succ n ih => exact ih

theorem ouStepR_get {f : Nat → ℝ} {a : Arr} {i t j : Nat} (hj : j < a.cols) :
    (ouStepR fl f a i).get t j = if t = i + 1 then fl (a.get t j + fl (a.get i j * f j)) else a.get t j := by
  simp only [ouStepR, Arr.get, flat_div t hj, flat_mod t hj]
  split
  · rename_i h
    subst h
    have : (i + 1) * a.cols = i * a.cols + a.cols := by ring
    rw [show (i + 1) * a.cols + j - a.cols = i * a.cols + j by omega]
  · rfl

/-- After `n` iterations rows `0 … n` are final, the others untouched. -/
theorem ouLoopR_get {f : Nat → ℝ} {a : Arr} {j : Nat} (hj : j < a.cols) (n : Nat) :
    (ouLoopR fl f a n).get 0 j = a.get 0 j ∧
    (∀ t < n, (ouLoopR fl f a n).get (t + 1) j = fl (a.get (t + 1) j + fl ((ouLoopR fl f a n).get t j * f j))) ∧
    ∀ t, n < t → (ouLoopR fl f a n).get t j = a.get t j := by
  induction n with
  | zero => exact ⟨rfl, by omega, fun _ _ => rfl⟩
  | succ n ih =>
    obtain ⟨h1, h2, h3⟩ := ih
    have hj' : j < (ouLoopR fl f a n).cols := by rw [(ouLoopR_shape fl f a n).2]; exact hj
    refine ⟨?_, ?_, ?_⟩
    · rw [ouLoopR, ouStepR_get hj', if_neg (by omega)]; exact h1
    · intro t ht
      rw [ouLoopR, ouStepR_get hj', ouStepR_get hj']
      by_cases htn : t = n
      · subst htn
        rw [if_pos rfl, if_neg (by omega), h3 (t + 1) (by omega)]
      · rw [if_neg (by omega), if_neg (by omega)]
        exact h2 t (by omega)
    · intro t ht
      rw [ouLoopR, ouStepR_get hj', if_neg (by omega)]
      exact h3 t (by omega)


variable {po : OUParams} {μ θ : List ℝ}

/-- The rounded OU recursion. -/
theorem ou_round_path {s n : Nat} (hμ : po.mean = .row μ) (hθ : po.mrr = .row θ)
    (h : ouSampleR fl ord po x0 dt s n z = .ok a) :
    IsPaths a s μ.length n ∧ 0 < μ.length ∧
    (θ.length = 1 ∨ (θ.length = μ.length ∧ (n = 1 ∨ s = 0 ∨ n = 0))) ∧
    (po.vol.length = 1 ∨ po.vol.length = μ.length) ∧
    (∀ c < μ.length * n, a.get 0 c = x0.getD (c % x0.length) 0) ∧
    ∀ t q j, t < s → q < n → j < μ.length →
      path a μ.length q j (t + 1) =
        fl (fl (fl (shockR fl ord po.L μ.length z (t * n + q) j * ouScaleR fl (bentry po.vol j) (bentry θ j) dt) +
          ouMeanR fl (bentry μ j) (ouFactorR fl (bentry θ j) dt)) + fl (path a μ.length q j t * ouFactorR fl (bentry θ j) dt)) := by
  unfold ouSampleR at h
  rw [hμ, hθ] at h
  simp only [OUAttr.toRow, OUAttr.shape1] at h
  obtain ⟨mt, hmt, h⟩ := bind_inv h
  obtain ⟨sc, hsc, h⟩ := bind_inv h
  obtain ⟨v, hv, h⟩ := bind_inv h
  cases hv
  obtain ⟨b, hb, h⟩ := bind_inv h
  obtain ⟨hsh, ⟨i1, i2⟩, i3, i4⟩ := incrementsR_ok hb
  obtain ⟨m1, m2, m3⟩ := bzip_ok hmt
  obtain ⟨s1, s2, s3⟩ := bzip_ok hsc
  rw [List.length_map] at m1 m2
  have hloc := hsh.loc
  have hscale := hsh.scale
  have hv0 := hsh.pos
  -- possible lengths
  have hθl : θ.length = 1 ∨ θ.length = μ.length := by
    rw [m2] at hloc
    split at hloc <;> omega
  have hvoll : po.vol.length = 1 ∨ po.vol.length = μ.length := by
    rw [s2] at hscale
    split at hscale <;> omega
  have hmt' : ∀ j < μ.length, bentry mt j = ouMeanR fl (bentry μ j) (ouFactorR fl (bentry θ j) dt) := by
    intro j hj
    have hlen : mt.length = μ.length := by rw [m2]; split <;> omega
    rw [m3 j (by omega), bentry_map _ (hθl.symm) hj]
  have hsc' : ∀ j < μ.length, bentry sc j =
      ouScaleR fl (bentry po.vol j) (bentry θ j) dt := by
    intro j hj
    by_cases h1 : sc.length = 1
    · have hv1 : po.vol.length = 1 ∨ po.vol.length ≠ 1 := em _
      have e1 : bentry sc j = bentry sc 0 := by simp [bentry, h1]
      have e2 : bentry po.vol j = bentry po.vol 0 := by
        unfold bentry
        rcases hvoll with h2 | h2
        · rw [if_pos h2, if_pos h2]
        · rw [s2] at h1
          split at h1
          · rename_i h3; rw [if_pos h3, if_pos h3]
          · rename_i h3; exact absurd h1 h3
      have e3 : bentry θ j = bentry θ 0 := by
        unfold bentry
        by_cases h3 : θ.length = 1
        · rw [if_pos h3, if_pos h3]
        · rw [s2] at h1
          split at h1
          · exact absurd h1 h3
          · rename_i h4; exact absurd h1 h4
      rw [e1, e2, e3]
      exact s3 0 (by omega)
    · exact s3 j (by omega)
  split at h
  · rename_i hrows
    cases h
    refine ⟨⟨i1, i2⟩, hv0, ?_, hvoll, i3, fun t q j ht => by omega⟩
    rcases hθl with h1 | h1
    · exact Or.inl h1
    · exact Or.inr ⟨h1, by omega⟩
  · rename_i hrows
    obtain ⟨f, hf, h⟩ := bind_inv h
    cases h
    rw [bcastTo_ok] at hf
    obtain ⟨hf1, rfl⟩ := hf
    rw [List.length_map, i2] at hf1
    obtain ⟨l1, l2⟩ := ouLoopR_shape fl (bentry (θ.map fun r => ouFactorR fl r dt)) b (b.rows - 1)
    have hn1 : θ.length = 1 ∨ (θ.length = μ.length ∧ (n = 1 ∨ s = 0 ∨ n = 0)) := by
      rcases hθl with h1 | h1
      · exact Or.inl h1
      · rcases hf1 with h2 | h2
        · right
          refine ⟨h1, Or.inl ?_⟩
          rw [h1] at h2
          have : μ.length * 1 = μ.length * n := by omega
          exact (Nat.eq_of_mul_eq_mul_left hv0 this).symm
        · exact Or.inl h2
    refine ⟨⟨by rw [l1, i1], by rw [l2, i2]⟩, hv0, hn1, hvoll, ?_, ?_⟩
    · intro c hc
      rw [(ouLoopR_get (by rw [i2]; exact hc) _).1]
      exact i3 c hc
    · intro t q j ht hq hj
      have hc : q * μ.length + j < b.cols := by rw [i2]; exact col_lt hq hj
      have hrec := (ouLoopR_get (fl := fl) (f := bentry (θ.map fun r => ouFactorR fl r dt)) hc (b.rows - 1)).2.1 t
        (by omega)
      have hfac : bentry (θ.map fun r => ouFactorR fl r dt) (q * μ.length + j) =
          ouFactorR fl (bentry θ j) dt := by
        rcases hn1 with h1 | ⟨h1, h2⟩
        · rw [bentry_map (v := q * μ.length + j + 1) _ (Or.inr h1) (by omega)]
          simp [bentry, h1]
        · have : q = 0 := by omega
          subst this
          rw [Nat.zero_mul, Nat.zero_add, bentry_map (v := μ.length) _ (Or.inl h1) hj]
      have hinc := i4 t q j hq hj
      unfold path at hinc ⊢
      rw [hrec, hinc, hfac, hmt' j hj, hsc' j hj]


/-- `a` approximates `A`, a quantity of size `p`, with relative error `g - 1`. -/
def Near (g a A p : ℝ) : Prop := 1 ≤ g ∧ |A| ≤ p ∧ |a - A| ≤ (g - 1) * p

theorem Close.near {k : Nat} {a A p : ℝ} (h : Close k a A p) : Near ((1 + u64) ^ k) a A p := ⟨one_le_pow k, h.1, h.2⟩

theorem Near.refl (A : ℝ) : Near 1 A A |A| := ⟨le_rfl, le_rfl, by simp⟩

theorem Near.pos {g a A p : ℝ} (h : Near g a A p) : 0 ≤ p := (abs_nonneg A).trans h.2.1

theorem Near.mono {g g' a A p : ℝ} (h : Near g a A p) (hg : g ≤ g') : Near g' a A p :=
  ⟨h.1.trans hg, h.2.1, h.2.2.trans (mul_le_mul_of_nonneg_right (by linarith) h.pos)⟩

theorem Near.size {g a A p : ℝ} (h : Near g a A p) : |a| ≤ g * p := by
  have : |a| ≤ |a - A| + |A| := by
    have := abs_add_le (a - A) A
    rwa [sub_add_cancel] at this
  linarith [h.2.1, h.2.2]

theorem Near.rd (R : Rounding fl) {g a A p : ℝ} (h : Near g a A p) : Near (g * (1 + u64)) (fl a) A p := by
  have hu := u64_pos
  refine ⟨by nlinarith [h.1], h.2.1, ?_⟩
  have h1 := R.rel a
  have h2 := h.size
  have h3 : |fl a - A| ≤ |fl a - a| + |a - A| := abs_sub_le _ _ _
  nlinarith [h.2.2, h.pos, h.1]

theorem Near.mul {g g' a A p b B q : ℝ} (h : Near g a A p) (h' : Near g' b B q) : Near (g * g') (a * b) (A * B) (p * q) := by
  refine ⟨by nlinarith [h.1, h'.1], by rw [abs_mul]; exact mul_le_mul h.2.1 h'.2.1 (abs_nonneg _) h.pos, ?_⟩
  have e : a * b - A * B = (a - A) * b + A * (b - B) := by ring
  have h1 : |a * b - A * B| ≤ |a - A| * |b| + |A| * |b - B| := by
    rw [e]
    refine (abs_add_le _ _).trans ?_
    rw [abs_mul, abs_mul]
  have h2 : |a - A| * |b| ≤ (g - 1) * p * (g' * q) :=
    mul_le_mul h.2.2 h'.size (abs_nonneg _) (mul_nonneg (by linarith [h.1]) h.pos)
  have h3 : |A| * |b - B| ≤ p * ((g' - 1) * q) := mul_le_mul h.2.1 h'.2.2 (abs_nonneg _) h.pos
  calc |a * b - A * B| ≤ (g - 1) * p * (g' * q) + p * ((g' - 1) * q) := by linarith
    _ = (g * g' - 1) * (p * q) := by ring

theorem Near.add {g a A p b B q : ℝ} (h : Near g a A p) (h' : Near g b B q) : Near g (a + b) (A + B) (p + q) := by
  refine ⟨h.1, (abs_add_le _ _).trans (add_le_add h.2.1 h'.2.1), ?_⟩
  have e : a + b - (A + B) = (a - A) + (b - B) := by ring
  rw [e, mul_add]
  exact (abs_add_le _ _).trans (add_le_add h.2.2 h'.2.2)

theorem Near.sub {g a A p b B q : ℝ} (h : Near g a A p) (h' : Near g b B q) : Near g (a - b) (A - B) (p + q) := by
  refine ⟨h.1, (abs_sub _ _).trans (add_le_add h.2.1 h'.2.1), ?_⟩
  have e : a - b - (A - B) = (a - A) - (b - B) := by ring
  rw [e, mul_add]
  exact (abs_sub _ _).trans (add_le_add h.2.2 h'.2.2)

theorem Near.sqrt {g a A : ℝ} (h : Near g a A A) (ha : 0 ≤ a) : Near g (Real.sqrt a) (Real.sqrt A) (Real.sqrt A) := by
  have hA := h.pos
  refine ⟨h.1, by rw [abs_of_nonneg (Real.sqrt_nonneg A)], ?_⟩
  rcases hA.eq_or_lt with h0 | h0
  · have := h.2.2
    rw [← h0, mul_zero, sub_zero] at this
    have h1 : a = 0 := abs_eq_zero.1 (le_antisymm this (abs_nonneg _))
    simp [h1, ← h0]
  · have hs := Real.sqrt_pos.2 h0
    have e : (Real.sqrt a - Real.sqrt A) * (Real.sqrt a + Real.sqrt A) = a - A := by
      nlinarith [Real.mul_self_sqrt ha, Real.mul_self_sqrt hA]
    have h1 : |Real.sqrt a - Real.sqrt A| * (Real.sqrt a + Real.sqrt A) ≤ (g - 1) * A := by
      rw [← abs_of_nonneg (add_nonneg (Real.sqrt_nonneg a) (Real.sqrt_nonneg A)), ← abs_mul, e]
      exact h.2.2
    have h2 : |Real.sqrt a - Real.sqrt A| * Real.sqrt A ≤ (g - 1) * A :=
      le_trans (mul_le_mul_of_nonneg_left (by linarith [Real.sqrt_nonneg a]) (abs_nonneg _)) h1
    have h3 : (g - 1) * A = (g - 1) * Real.sqrt A * Real.sqrt A := by rw [mul_assoc, Real.mul_self_sqrt hA]
    rw [h3] at h2
    exact le_of_mul_le_mul_right h2 hs

/-- C110. The three constants of the OU recursion as computed, for a rate `r > 0` that is a 64-bit number: the factor and the mean term
are accurate to a few rounding errors; the scale loses accuracy like `u / (2 * r * dt)`, because of the difference `1 - exp (-2 * r * dt)`. -/
theorem ou_constants (R : Rounding fl) {m v r dt : ℝ} (hr : 0 < r) (hfr : fl r = r) (hdt : 0 < dt) :
    Near ((1 + u64) * Real.exp (u64 * (r * dt))) (ouFactorR fl r dt) (Real.exp (-r * dt)) (Real.exp (-r * dt)) ∧
    ouFactorR fl r dt ≤ 1 ∧
    Near ((1 + u64) ^ 3 * Real.exp (u64 * (r * dt))) (ouMeanR fl m (ouFactorR fl r dt)) (m * (1 - Real.exp (-r * dt)))
      (|m| * (1 + Real.exp (-r * dt))) ∧
    0 ≤ ouScaleR fl v r dt ∧
    Near ((1 + u64) ^ 5 * (1 + ((1 + u64) * Real.exp (u64 * (2 * r * dt)) - 1) * (Real.exp (-2 * r * dt) / (1 - Real.exp (-2 * r * dt)))))
      (ouScaleR fl v r dt) (Real.sqrt (v ^ 2 / (2 * r) * (1 - Real.exp (-2 * r * dt))))
      (Real.sqrt (v ^ 2 / (2 * r) * (1 - Real.exp (-2 * r * dt)))) := by
  have hu := u64_pos
  have fac : ∀ y : ℝ, 0 < y → Near ((1 + u64) * Real.exp (u64 * y)) (fl (Real.exp (fl (-y)))) (Real.exp (-y)) (Real.exp (-y)) ∧
      fl (Real.exp (fl (-y))) ≤ 1 := by
    intro y hy
    have h1 : |fl (-y) - -y| ≤ u64 * y := by
      have := R.rel (-y)
      rwa [abs_neg, abs_of_pos hy] at this
    refine ⟨⟨?_, by rw [abs_of_pos (Real.exp_pos _)], exp_close R h1⟩, ?_⟩
    · have : 1 ≤ Real.exp (u64 * y) := Real.one_le_exp (by positivity)
      nlinarith
    · rw [← R.one]
      refine R.mono ?_
      rw [R.neg]
      exact Real.exp_le_one_iff.2 (by linarith [R.nonneg hy.le])
  obtain ⟨f1, f2⟩ := fac (r * dt) (by positivity)
  rw [← neg_mul] at f1 f2
  have hfac : ouFactorR fl r dt = fl (Real.exp (fl (-r * dt))) := rfl
  rw [← hfac] at f1 f2
  refine ⟨f1, f2, ?_, ?_, ?_⟩
  · have h1 := (Near.refl m).mul (((Near.refl (1 : ℝ)).mono f1.1).sub f1 |>.rd R)
    have h2 := h1.rd R
    rw [abs_one] at h2
    unfold ouMeanR
    convert h2 using 1
    ring
  · exact R.nonneg (Real.sqrt_nonneg _)
  · obtain ⟨g1, g2⟩ := fac (2 * r * dt) (by positivity)
    rw [← neg_mul, ← neg_mul] at g1 g2
    have e2 : fl (2 * r) = 2 * r := by rw [R.two, hfr]
    have e3 : fl (-2 * r) = -2 * r := by rw [neg_mul, R.neg, e2]
    unfold ouScaleR
    rw [e3, e2]
    generalize fl (Real.exp (fl (-2 * r * dt))) = w at *
    have hx : Real.exp (-2 * r * dt) < 1 := Real.exp_lt_one_iff.2 (by nlinarith)
    generalize Real.exp (-2 * r * dt) = x at *
    generalize (1 + u64) * Real.exp (u64 * (2 * r * dt)) = G at *
    have hG := g1.1
    have hx0 := g1.pos
    have hd : Near (1 + (G - 1) * (x / (1 - x))) (1 - w) (1 - x) (1 - x) := by
      have h0 : 0 < 1 - x := by linarith
      refine ⟨?_, by rw [abs_of_pos h0], ?_⟩
      · have : 0 ≤ (G - 1) * (x / (1 - x)) := mul_nonneg (by linarith) (div_nonneg hx0 h0.le)
        linarith
      · have e : 1 - w - (1 - x) = -(w - x) := by ring
        rw [e, abs_neg]
        refine g1.2.2.trans (le_of_eq ?_)
        field_simp
        ring
    have hq : Near ((1 + u64) * (1 + u64)) (fl (fl (v ^ 2) / (2 * r))) (v ^ 2 / (2 * r)) (v ^ 2 / (2 * r)) := by
      have h1 := ((((Near.refl (v ^ 2)).rd R).mul (Near.refl (2 * r)⁻¹)).rd R)
      rw [abs_of_nonneg (sq_nonneg v), abs_of_pos (by positivity : (0 : ℝ) < (2 * r)⁻¹)] at h1
      simpa only [one_mul, mul_one, div_eq_mul_inv] using h1
    have h2 := ((hq.mul (hd.rd R)).rd R).sqrt (by
      refine R.nonneg (mul_nonneg (R.nonneg (div_nonneg (R.nonneg (sq_nonneg v)) (by positivity))) (R.nonneg (by linarith))))
    have h3 := h2.rd R
    convert h3 using 1
    ring

/-- The recursion with errors: `x'` is computed from a perturbed factor and perturbed increments. -/
theorem ou_step (R : Rounding fl) {G f F w W x X M D e : ℝ} (hG : Near G F f f) (hw : |w - W| ≤ D) (hx : |x - X| ≤ e)
    (hX : |X| ≤ M) (hX' : |W + X * f| ≤ M) :
    |fl (w + fl (x * F)) - (W + X * f)| ≤ (1 + u64) ^ 2 * G * f * e + ((1 + u64) * (D + ((1 + u64) * G - 1) * (M * f)) + u64 * M) := by
  have hu := u64_pos
  have hM : 0 ≤ M := (abs_nonneg X).trans hX
  have he : 0 ≤ e := (abs_nonneg _).trans hx
  have hf := hG.pos
  have h1 : |x * F - X * f| ≤ G * f * e + (G - 1) * (M * f) := by
    have : x * F - X * f = (x - X) * F + X * (F - f) := by ring
    rw [this]
    refine (abs_add_le _ _).trans ?_
    rw [abs_mul, abs_mul]
    have a1 : |x - X| * |F| ≤ e * (G * f) := mul_le_mul hx hG.size (abs_nonneg _) he
    have a2 : |X| * |F - f| ≤ M * ((G - 1) * f) := mul_le_mul hX hG.2.2 (abs_nonneg _) hM
    linarith
  have h2 : |x * F| ≤ (M + e) * (G * f) := by
    rw [abs_mul]
    refine mul_le_mul ?_ hG.size (abs_nonneg _) (by linarith)
    have : |x| ≤ |x - X| + |X| := by
      have := abs_add_le (x - X) X
      rwa [sub_add_cancel] at this
    linarith
  have h3 : |fl (x * F) - X * f| ≤ (1 + u64) * G * f * e + ((1 + u64) * G - 1) * (M * f) := by
    refine (abs_sub_le _ (x * F) _).trans ?_
    nlinarith [R.rel (x * F)]
  have h4 : |w + fl (x * F) - (W + X * f)| ≤ D + ((1 + u64) * G * f * e + ((1 + u64) * G - 1) * (M * f)) := by
    have : w + fl (x * F) - (W + X * f) = (w - W) + (fl (x * F) - X * f) := by ring
    rw [this]
    exact (abs_add_le _ _).trans (add_le_add hw h3)
  have h5 := R.rel (w + fl (x * F))
  have h6 : |w + fl (x * F)| ≤ |w + fl (x * F) - (W + X * f)| + |W + X * f| := by
    have := abs_add_le (w + fl (x * F) - (W + X * f)) (W + X * f)
    rwa [sub_add_cancel] at this
  have h7 : |fl (w + fl (x * F)) - (W + X * f)| ≤ |fl (w + fl (x * F)) - (w + fl (x * F))| + |w + fl (x * F) - (W + X * f)| :=
    abs_sub_le _ _ _
  nlinarith

/-- C110. Rounding changes neither whether nor how the OU sampler fails. -/
theorem ou_round_errors (fl : ℝ → ℝ) (ord : Nat → List (ℝ × ℝ) → DotTree) (p : OUParams) (x0 : List ℝ) (dt : ℝ) (s n : Int) (z : Nat → ℝ) :
    (∃ e, ouSampleR fl ord p x0 dt s n z = .error e ∧ ouSample p x0 dt s n z = .error e) ∨
    ∃ a b, ouSampleR fl ord p x0 dt s n z = .ok a ∧ ouSample p x0 dt s n z = .ok b := by
  unfold ouSampleR ouSample
  simp only [incrementsR_map]
  rcases bzip_len (f := ouMeanR fl) (g := fun m f => m * (1 - f)) (rfl : p.mean.toRow.length = _)
    (by simp : (p.mrr.toRow.map fun r => ouFactorR fl r dt).length = (p.mrr.toRow.map fun r => Real.exp (-r * dt)).length) with
    ⟨e, e1, e2⟩ | ⟨r, r', e1, e2, e3⟩
  · simp only [bind, Except.bind, e1, e2]; exact Or.inl ⟨e, rfl, rfl⟩
  rcases bzip_len (f := fun v r => ouScaleR fl v r dt)
    (g := fun v r => Real.sqrt (v ^ 2 / (2 * r) * (1 - Real.exp (-2 * r * dt)))) (rfl : p.vol.length = _)
    (rfl : p.mrr.toRow.length = _) with ⟨e, f1, f2⟩ | ⟨q, q', f1, f2, f3⟩
  · simp only [bind, Except.bind, e1, e2, f1, f2]; exact Or.inl ⟨e, rfl, rfl⟩
  simp only [bind, Except.bind, e1, e2, f1, f2]
  cases p.mean.shape1 with
  | error e => exact Or.inl ⟨e, rfl, rfl⟩
  | ok v =>
    dsimp only
    rcases increments_len v (loc := r) (loc' := r') (scale := q) (scale' := q') e3 f3 (rfl : x0.length = _) p.L s n z with
      ⟨e, g1, g2⟩ | ⟨c, d, g1, g2⟩
    · simp only [g1, g2]; exact Or.inl ⟨e, rfl, rfl⟩
    · obtain ⟨-, -, -, ⟨c1, c2⟩, -, -⟩ := increments_ok g1
      obtain ⟨-, -, -, ⟨d1, d2⟩, -, -⟩ := increments_ok g2
      simp only [g1, g2, Except.map, noisy, c1, c2, d1, d2, bcastTo, List.length_map]
      by_cases hc : s.toNat + 1 ≤ 1
      · simp only [if_pos hc]; exact Or.inr ⟨_, _, rfl, rfl⟩
      · simp only [if_neg hc]
        by_cases hl : p.mrr.toRow.length = v * n.toNat ∨ p.mrr.toRow.length = 1
        · simp only [if_pos hl]; exact Or.inr ⟨_, _, rfl, rfl⟩
        · simp only [if_neg hl]; exact Or.inl ⟨_, rfl, rfl⟩

/-- The growth of the errors per step. -/
noncomputable def ouRho (r dt : ℝ) : ℝ := (1 + u64) ^ 3 * Real.exp (u64 * (r * dt)) * Real.exp (-r * dt)

/-- The error of the increments of size `W`, for `v` variates. -/
noncomputable def ouNoise (v : Nat) (r dt W : ℝ) : ℝ :=
  ((1 + u64) ^ (v + 7) * Real.exp (u64 * (r * dt)) *
    (1 + ((1 + u64) * Real.exp (u64 * (2 * r * dt)) - 1) * (Real.exp (-2 * r * dt) / (1 - Real.exp (-2 * r * dt)))) - 1) * W

/-- The error that a step adds, for paths within `M`. -/
noncomputable def ouLocal (v : Nat) (r dt W M : ℝ) : ℝ :=
  (1 + u64) * (ouNoise v r dt W + ((1 + u64) ^ 2 * Real.exp (u64 * (r * dt)) - 1) * (M * Real.exp (-r * dt))) + u64 * M

/-- C110. The OU sample computed with rounding against the exact one with the same draws. If the terms of the increments sum to at most
`W` in size and the exact path stays within `M`, the error at step `t` is at most `K * (1 + ρ + … + ρ ^ (t - 1))`, where `K` is the error
one step adds, and `ρ = exp (-r * dt)` up to four roundings. -/
theorem ou_round_error (R : Rounding fl) (hord : IsOrder ord) {s n : Nat} (hμ : po.mean = .row μ) (hθ : po.mrr = .row θ)
    (hdt : 0 < dt) (h : ouSampleR fl ord po x0 dt s n z = .ok a) :
    ∃ b, ouSample po x0 dt s n z = .ok b ∧ IsPaths a s μ.length n ∧
    (∀ c < μ.length * n, a.get 0 c = x0.getD (c % x0.length) 0) ∧
    ∀ q j, q < n → j < μ.length → ∀ r, r = bentry θ j → 0 < r → fl r = r → ∀ W M : ℝ,
      (∀ t < s, shockAbs po.L μ.length z (t * n + q) j * Real.sqrt (bentry po.vol j ^ 2 / (2 * r) * (1 - Real.exp (-2 * r * dt))) +
        |bentry μ j| * (1 + Real.exp (-r * dt)) ≤ W) →
      (∀ t ≤ s, |path b μ.length q j t| ≤ M) → ∀ t ≤ s,
      |path a μ.length q j t - path b μ.length q j t| ≤ ouLocal μ.length r dt W M * ∑ i ∈ range t, ouRho r dt ^ i := by
  rcases ou_round_errors fl ord po x0 dt s n z with ⟨e, e1, -⟩ | ⟨a', b, e1, e2⟩
  · rw [e1] at h; cases h
  refine ⟨b, e2, ?_⟩
  obtain ⟨hp, hv, -, -, h0, hstep⟩ := ou_round_path hμ hθ h
  refine ⟨hp, h0, ?_⟩
  obtain ⟨-, -, -, -, b0, bstep⟩ := ou_inv hμ hθ e2
  intro q j hq hj r hrj hr hfr W M hW hM t ht
  obtain ⟨c1, -, c3, -, c5⟩ := ou_constants R (m := bentry μ j) (v := bentry po.vol j) hr hfr hdt
  induction t with
  | zero =>
    rw [path, path, h0 _ (col_lt hq hj), b0 _ (col_lt hq hj)]
    simp
  | succ t ih =>
    have hu := u64_pos
    have ih := ih (by omega)
    rw [hstep t q j (by omega) hq hj, ← hrj]
    have eb : path b μ.length q j (t + 1) = (shock po.L μ.length z (t * n + q) j *
        Real.sqrt (bentry po.vol j ^ 2 / (2 * r) * (1 - Real.exp (-2 * r * dt))) + bentry μ j * (1 - Real.exp (-r * dt))) +
        path b μ.length q j t * Real.exp (-r * dt) := by
      rw [bstep t q j (by omega) hq hj, ← hrj]
      ring
    have hbM := hM (t + 1) ht
    rw [eb] at hbM ⊢
    have hE : 1 ≤ Real.exp (u64 * (r * dt)) := Real.one_le_exp (by positivity)
    have hψ : 1 ≤ 1 + ((1 + u64) * Real.exp (u64 * (2 * r * dt)) - 1) * (Real.exp (-2 * r * dt) / (1 - Real.exp (-2 * r * dt))) := by
      have h1 : 1 ≤ Real.exp (u64 * (2 * r * dt)) := Real.one_le_exp (by positivity)
      have h2 : Real.exp (-2 * r * dt) < 1 := Real.exp_lt_one_iff.2 (by nlinarith [mul_pos hr hdt])
      have : 0 ≤ ((1 + u64) * Real.exp (u64 * (2 * r * dt)) - 1) * (Real.exp (-2 * r * dt) / (1 - Real.exp (-2 * r * dt))) :=
        mul_nonneg (by nlinarith) (div_nonneg (Real.exp_pos _).le (by linarith))
      linarith
    have hw : |fl (fl (shockR fl ord po.L μ.length z (t * n + q) j * ouScaleR fl (bentry po.vol j) r dt) +
          ouMeanR fl (bentry μ j) (ouFactorR fl r dt)) - (shock po.L μ.length z (t * n + q) j *
        Real.sqrt (bentry po.vol j ^ 2 / (2 * r) * (1 - Real.exp (-2 * r * dt))) + bentry μ j * (1 - Real.exp (-r * dt)))| ≤
        ouNoise μ.length r dt W := by
      unfold ouNoise
      generalize hψe : 1 + ((1 + u64) * Real.exp (u64 * (2 * r * dt)) - 1) * (Real.exp (-2 * r * dt) / (1 - Real.exp (-2 * r * dt))) = ψ at *
      generalize Real.exp (u64 * (r * dt)) = E at *
      have s1 := (((shockR_close R hord (L := po.L) hv z (t * n + q) j).near.mul c5).rd R).mono
        (g' := (1 + u64) ^ (μ.length + 6) * E * ψ) (by
          have : (1 + u64) ^ μ.length * ((1 + u64) ^ 5 * ψ) * (1 + u64) = (1 + u64) ^ (μ.length + 6) * ψ := by ring
          rw [this]
          have := one_le_pow (μ.length + 6)
          have : 0 ≤ (1 + u64) ^ (μ.length + 6) * ψ := by nlinarith
          nlinarith)
      have s2 := c3.mono (g' := (1 + u64) ^ (μ.length + 6) * E * ψ) (by
          have h1 : (1 + u64) ^ 3 ≤ (1 + u64) ^ (μ.length + 6) := pow_le_pow_right₀ (by linarith) (by omega)
          have h2 : (1 + u64) ^ 3 * E ≤ (1 + u64) ^ (μ.length + 6) * E := mul_le_mul_of_nonneg_right h1 (by linarith)
          have h3 : 0 ≤ (1 + u64) ^ (μ.length + 6) * E := by positivity
          nlinarith)
      have s3 := (s1.add s2).rd R
      rw [show (1 + u64) ^ (μ.length + 6) * E * ψ * (1 + u64) = (1 + u64) ^ (μ.length + 7) * E * ψ by ring] at s3
      exact s3.2.2.trans (mul_le_mul_of_nonneg_left (hW t (by omega)) (by linarith [s3.1]))
    have hs := ou_step R c1 hw ih (hM t (by omega)) hbM
    refine hs.trans (le_of_eq ?_)
    rw [Finset.sum_range_succ', pow_zero]
    simp only [pow_succ, ← Finset.sum_mul]
    unfold ouLocal ouRho
    ring

/-- C110. So with `ρ < 1` — which holds unless `r * dt` is as small as the rounding error — the error of OU paths is bounded, however
long the simulation. -/
theorem ou_round_bounded (R : Rounding fl) (hord : IsOrder ord) {s n : Nat} (hμ : po.mean = .row μ) (hθ : po.mrr = .row θ)
    (hdt : 0 < dt) (h : ouSampleR fl ord po x0 dt s n z = .ok a) {b : Arr} (hb : ouSample po x0 dt s n z = .ok b) {q j : Nat} (hq : q < n)
    (hj : j < μ.length) {r W M : ℝ} (hrj : r = bentry θ j) (hr : 0 < r) (hfr : fl r = r)
    (hW : ∀ t < s, shockAbs po.L μ.length z (t * n + q) j * Real.sqrt (bentry po.vol j ^ 2 / (2 * r) * (1 - Real.exp (-2 * r * dt))) +
      |bentry μ j| * (1 + Real.exp (-r * dt)) ≤ W)
    (hM : ∀ t ≤ s, |path b μ.length q j t| ≤ M) (hs : 0 < s) (hρ : ouRho r dt < 1) {t : Nat} (ht : t ≤ s) :
    |path a μ.length q j t - path b μ.length q j t| ≤ ouLocal μ.length r dt W M / (1 - ouRho r dt) := by
  obtain ⟨b', hb', -, -, key⟩ := ou_round_error R hord hμ hθ hdt h
  rw [hb] at hb'
  cases hb'
  have hk := key q j hq hj r hrj hr hfr W M hW hM
  have hρ0 : 0 ≤ ouRho r dt := by
    have := u64_pos
    unfold ouRho
    positivity
  have hK : 0 ≤ ouLocal μ.length r dt W M := by
    have := (abs_nonneg _).trans (hk 1 hs)
    simpa using this
  refine (hk t ht).trans ?_
  rw [div_eq_mul_inv]
  refine mul_le_mul_of_nonneg_left ?_ hK
  rw [← tsum_geometric_of_lt_one hρ0 hρ]
  exact (summable_geometric_of_lt_one hρ0 hρ).sum_le_tsum _ fun i _ => pow_nonneg hρ0 i

/-- When `ρ < 1`: the rate per step exceeds four rounding errors. -/
theorem ouRho_lt {r dt : ℝ} (h : 4 * u64 ≤ r * dt) : ouRho r dt < 1 := by
  have hu := u64_pos
  have hu' := u64_small
  have h1 : (1 + u64) ^ 3 ≤ Real.exp (3 * u64) := by
    rw [show (3 : ℝ) * u64 = u64 + u64 + u64 by ring, Real.exp_add, Real.exp_add]
    have := Real.add_one_le_exp u64
    have h2 : 1 + u64 ≤ Real.exp u64 := by linarith
    calc (1 + u64) ^ 3 = (1 + u64) * (1 + u64) * (1 + u64) := by ring
      _ ≤ _ := by gcongr
  unfold ouRho
  calc (1 + u64) ^ 3 * Real.exp (u64 * (r * dt)) * Real.exp (-r * dt) ≤
      Real.exp (3 * u64) * Real.exp (u64 * (r * dt)) * Real.exp (-r * dt) := by gcongr
    _ = Real.exp (3 * u64 + u64 * (r * dt) + -r * dt) := by rw [Real.exp_add, Real.exp_add]
    _ < 1 := Real.exp_lt_one_iff.2 (by nlinarith)

/-! ### Slow mean reversion -/

theorem b64_near_one {x : ℝ} (h1 : 1 - 1 / 2 ^ 54 < x) (h2 : x ≤ 1) : b64 x = 1 := by
  rcases h2.eq_or_lt with rfl | h2
  · exact b64_rounding.one
  · have := b64_eq (x := x) (m := 2 ^ 53) (e := -53) (by norm_num at *; linarith) (by norm_num; linarith)
      (by rw [abs_lt]; norm_num at *; constructor <;> linarith)
    rw [this]
    norm_num

theorem b64_exp_tiny {y : ℝ} (h0 : 0 < y) (h : y ≤ 1 / 2 ^ 54) : b64 (Real.exp (b64 (-y))) = 1 := by
  have R := b64_rounding
  have h1 : b64 (1 / 2 ^ 54) = 1 / 2 ^ 54 := by
    have := b64_exact (m := 1) (by norm_num) (-54)
    norm_num at this ⊢
    exact this
  have h2 : b64 y ≤ 1 / 2 ^ 54 := h1 ▸ R.mono h
  have h3 : 0 < b64 y := R.pos h0
  rw [R.neg]
  refine b64_near_one ?_ (Real.exp_le_one_iff.2 (by linarith))
  have := Real.add_one_lt_exp (x := -b64 y) (by linarith)
  linarith

/-- C110, finding. With a mean reversion that is slow per step, `2 * r * dt ≤ 2 ^ -54`, the OU sampler with 64-bit numbers is frozen: every
path stays at its start, for every volatility, mean, correlation and all draws. The exact process is then close to a Brownian motion: the
standard deviation of its steps is at least `vol * sqrt (dt / 2)`. -/
theorem ou_frozen {s n : Nat} (hμ : po.mean = .row μ) (hθ : po.mrr = .row θ)
    (hdt : 0 < dt) (h : ouSampleR b64 ord po x0 dt s n z = .ok a) {q j : Nat} (hq : q < n) (hj : j < μ.length) {r : ℝ}
    (hrj : r = bentry θ j) (hr : 0 < r) (hfr : b64 r = r) (hslow : 2 * r * dt ≤ 1 / 2 ^ 54)
    (hx0 : ∀ x ∈ x0, b64 x = x) :
    (∀ t ≤ s, path a μ.length q j t = x0.getD ((q * μ.length + j) % x0.length) 0) ∧
    |bentry po.vol j| * Real.sqrt (dt / 2) ≤ Real.sqrt (bentry po.vol j ^ 2 / (2 * r) * (1 - Real.exp (-2 * r * dt))) := by
  have R := b64_rounding
  have hf : ouFactorR b64 r dt = 1 := by
    unfold ouFactorR
    rw [neg_mul]
    exact b64_exp_tiny (by positivity) (by nlinarith [mul_pos hr hdt])
  have hs : ouScaleR b64 (bentry po.vol j) r dt = 0 := by
    unfold ouScaleR
    have e3 : b64 (-2 * r) = -2 * r := by rw [neg_mul, R.neg, R.two, hfr]
    rw [e3, show -2 * r * dt = -(2 * r * dt) by ring, b64_exp_tiny (by positivity) hslow]
    simp [b64_zero]
  constructor
  · obtain ⟨-, -, -, -, h0, hstep⟩ := ou_round_path hμ hθ h
    intro t ht
    induction t with
    | zero => exact h0 _ (col_lt hq hj)
    | succ t ih =>
      rw [hstep t q j (by omega) hq hj, ← hrj, hf, hs, ih (by omega)]
      have hx : b64 (x0.getD ((q * μ.length + j) % x0.length) 0) = x0.getD ((q * μ.length + j) % x0.length) 0 := by
        rw [List.getD_eq_getElem?_getD]
        cases hh : x0[(q * μ.length + j) % x0.length]? with
        | none => exact b64_zero
        | some x => exact hx0 x (List.mem_of_getElem? hh)
      simp only [ouMeanR, mul_zero, sub_self, b64_zero, zero_add, mul_one, hx]
  · have hv := abs_nonneg (bentry po.vol j)
    rw [← Real.sqrt_sq hv, ← Real.sqrt_mul (sq_nonneg _), sq_abs]
    apply Real.sqrt_le_sqrt
    have hy : 0 < 2 * r * dt := by positivity
    have h1 : r * dt ≤ 1 - Real.exp (-2 * r * dt) := by
      have h2 := (abs_le.1 (Real.abs_exp_sub_one_sub_id_le (x := -2 * r * dt) (by
        rw [abs_le]; constructor <;> nlinarith))).2
      have h3 : (2 * r * dt) ^ 2 ≤ 2 * r * dt * (1 / 2) := by
        rw [sq]
        exact mul_le_mul_of_nonneg_left (hslow.trans (by norm_num)) hy.le
      nlinarith
    have h2 : bentry po.vol j ^ 2 * (dt / 2) = bentry po.vol j ^ 2 / (2 * r) * (r * dt) := by
      field_simp
    rw [h2]
    exact mul_le_mul_of_nonneg_left h1 (by positivity)

/-! ### The hypotheses are met -/

/-- A process of one variate is sampled without error. -/
theorem ou_single_ok (m r v x dt : ℝ) (s n : Nat) (z : Nat → ℝ) :
    ∃ a, ouSampleR fl ord ⟨.row [m], .row [r], [v], none⟩ [x] dt s n z = .ok a := by
  rcases ou_round_errors fl ord ⟨.row [m], .row [r], [v], none⟩ [x] dt s n z with ⟨e, -, e2⟩ | ⟨a, b, e1, -⟩
  · exfalso
    obtain ⟨b, hb⟩ := increments_eq s z (v := 1) (loc := [m * (1 - Real.exp (-r * dt))])
      (scale := [Real.sqrt (v ^ 2 / (2 * r) * (1 - Real.exp (-2 * r * dt)))]) (L := none) (x0 := [x]) (p := n)
      ⟨by norm_num, Or.inl rfl, Or.inl rfl, by simp, by simp, by simp⟩
    unfold ouSample at e2
    simp only [OUAttr.toRow, OUAttr.shape1, bzip, List.map_cons, List.map_nil, List.length_cons, List.length_nil,
      if_true, List.zipWith_cons_cons, List.zipWith_nil_right, bind, Except.bind, Nat.reduceAdd, hb] at e2
    split at e2
    · cases e2
    · simp [bcastTo] at e2
  · exact ⟨a, e1⟩

/-- `bm_round_error`, `gbm_round_error`: two correlated variates, two paths, three steps, 64-bit numbers. -/
example (z : Nat → ℝ) : IsOrder (fun _ => leftDot) ∧
    (∃ a, bmSampleR b64 (fun _ => leftDot) ⟨[0.1, 0.2], [0.3], some (Arr.ofList 2 2 [1, 0, 0.6, 0.8])⟩ [5, 6] 0.25 (3 : Nat) (2 : Nat) z = .ok a) ∧
    ∃ a, gbmSampleR b64 (fun _ => leftDot) ⟨[0.1, 0.2], [0.3], some (Arr.ofList 2 2 [1, 0, 0.6, 0.8])⟩ [100] 0.25 (3 : Nat) (2 : Nat) z = .ok a := by
  have hok : ∀ x0 : List ℝ, x0.length = 1 ∨ x0.length = 2 →
      ∃ a, bmSample ⟨[0.1, 0.2], [0.3], some (Arr.ofList 2 2 [1, 0, 0.6, 0.8])⟩ x0 0.25 (3 : Nat) (2 : Nat) z = .ok a := by
    intro x0 hx
    rw [bm_succeeds_iff]
    refine ⟨by norm_num, by norm_num, by norm_num, Or.inr rfl, ?_, by omega, ?_⟩
    · simp only [Option.mem_some_iff]
      rintro l rfl
      exact ⟨rfl, rfl⟩
    · rcases hx with h | h <;> rw [h] <;> norm_num
  refine ⟨leftDot_order, ?_, ?_⟩
  · obtain ⟨a, ha⟩ := hok [5, 6] (Or.inr rfl)
    rcases bm_round_errors b64 (fun _ => leftDot) ⟨[0.1, 0.2], [0.3], some (Arr.ofList 2 2 [1, 0, 0.6, 0.8])⟩ [5, 6] 0.25 (3 : Nat) (2 : Nat) z with
      ⟨e, -, e2⟩ | ⟨a', b, e1, -⟩
    · rw [ha] at e2; cases e2
    · exact ⟨a', e1⟩
  · obtain ⟨a, ha⟩ := (gbm_succeeds_iff _ _).2 (hok [100] (Or.inl rfl))
    rcases gbm_round_errors b64 (fun _ => leftDot) ⟨[0.1, 0.2], [0.3], some (Arr.ofList 2 2 [1, 0, 0.6, 0.8])⟩ [100] 0.25 (3 : Nat) (2 : Nat) z with
      ⟨e, -, e2⟩ | ⟨a', b, e1, -⟩
    · rw [ha] at e2; cases e2
    · exact ⟨a', e1⟩

/-- `ou_round_error`, `ou_round_bounded`: rate 2, monthly steps. -/
example (z : Nat → ℝ) : (∃ a, ouSampleR b64 (fun _ => leftDot) ⟨.row [1], .row [2], [0.5], none⟩ [3] (1 / 12) (100 : Nat) (2 : Nat) z = .ok a) ∧
    b64 2 = 2 ∧ ouRho 2 (1 / 12) < 1 :=
  ⟨ou_single_ok .., by simpa using b64_rounding.int 2 (by norm_num), ouRho_lt (by linarith [u64_small])⟩

/-- `ou_frozen`: rate `2 ^ -50`, steps of `1 / 256` of a year. -/
example (z : Nat → ℝ) : ∃ a, ouSampleR b64 (fun _ => leftDot) ⟨.row [1], .row [1 / 2 ^ 50], [0.5], none⟩ [3] (1 / 256) (100 : Nat) (2 : Nat) z = .ok a ∧
    ∀ q < 2, ∀ t ≤ 100, path a 1 q 0 t = 3 := by
  obtain ⟨a, ha⟩ := ou_single_ok (fl := b64) (ord := fun _ => leftDot) 1 (1 / 2 ^ 50) 0.5 3 (1 / 256) 100 2 z
  refine ⟨a, ha, fun q hq t ht => ?_⟩
  have := (ou_frozen (μ := [1]) (θ := [1 / 2 ^ 50]) rfl rfl (by norm_num) ha hq (j := 0) (by simp) (r := 1 / 2 ^ 50) (by simp [bentry]) (by norm_num)
    (by
      have := b64_exact (m := 1) (by norm_num) (-50)
      norm_num at this ⊢
      exact this) (by norm_num) (by
      intro x hx
      rw [List.mem_singleton.1 hx]
      simpa using b64_rounding.int 3 (by norm_num))).1 t ht
  simpa [Nat.mod_one] using this

end Verif.Sim
