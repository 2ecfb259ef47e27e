import Verif.Lemmas.Info
import Verif.Props.CorrMetric

/-!
# C43, C44: mutual information and variation of information
-/

namespace Verif.Info

open Verif.Ent

/-! ### Bins -/

theorem lo_spec : ∀ {x : List ℝ}, x ≠ [] → lo x ∈ x ∧ ∀ v ∈ x, lo x ≤ v := by
  have key : ∀ (l : List ℝ) (a : ℝ), (l.foldl min a = a ∨ l.foldl min a ∈ l) ∧ l.foldl min a ≤ a ∧
      ∀ v ∈ l, l.foldl min a ≤ v := by
    intro l
    induction l with
    | nil => intro a; simp
    | cons c l ih =>
      intro a
      obtain ⟨h1, h2, h3⟩ := ih (min a c)
      rw [List.foldl_cons]
      refine ⟨?_, h2.trans (min_le_left _ _), fun v hv => ?_⟩
      · rcases h1 with h | h
        · rw [h]
          rcases min_choice a c with h' | h'
          · left; exact h'
          · right; rw [h']; simp
        · right; exact List.mem_cons_of_mem _ h
      · rcases List.mem_cons.mp hv with rfl | hv
        · exact h2.trans (min_le_right _ _)
        · exact h3 v hv
  intro x hx
  cases x with
  | nil => exact absurd rfl hx
  | cons a l =>
    obtain ⟨h1, h2, h3⟩ := key l a
    unfold lo
    simp only [List.tail_cons, List.headD_cons]
    refine ⟨?_, fun v hv => ?_⟩
    · rcases h1 with h | h
      · rw [h]; simp
      · exact List.mem_cons_of_mem _ h
    · rcases List.mem_cons.mp hv with rfl | hv
      · exact h2
      · exact h3 v hv

theorem hi_spec : ∀ {x : List ℝ}, x ≠ [] → hi x ∈ x ∧ ∀ v ∈ x, v ≤ hi x := by
  have key : ∀ (l : List ℝ) (a : ℝ), (l.foldl max a = a ∨ l.foldl max a ∈ l) ∧ a ≤ l.foldl max a ∧
      ∀ v ∈ l, v ≤ l.foldl max a := by
    intro l
    induction l with
    | nil => intro a; simp
    | cons c l ih =>
      intro a
      obtain ⟨h1, h2, h3⟩ := ih (max a c)
      rw [List.foldl_cons]
      refine ⟨?_, (le_max_left _ _).trans h2, fun v hv => ?_⟩
      · rcases h1 with h | h
        · rw [h]
          rcases max_choice a c with h' | h'
          · left; exact h'
          · right; rw [h']; simp
        · right; exact List.mem_cons_of_mem _ h
      · rcases List.mem_cons.mp hv with rfl | hv
        · exact (le_max_right _ _).trans h2
        · exact h3 v hv
  intro x hx
  cases x with
  | nil => exact absurd rfl hx
  | cons a l =>
    obtain ⟨h1, h2, h3⟩ := key l a
    unfold hi
    simp only [List.tail_cons, List.headD_cons]
    refine ⟨?_, fun v hv => ?_⟩
    · rcases h1 with h | h
      · rw [h]; simp
      · exact List.mem_cons_of_mem _ h
    · rcases List.mem_cons.mp hv with rfl | hv
      · exact h2
      · exact h3 v hv

theorem outer_spec {x : List ℝ} (hx : x ≠ []) :
    (outer x).1 < (outer x).2 ∧ ∀ v ∈ x, (outer x).1 ≤ v ∧ v ≤ (outer x).2 := by
  obtain ⟨h1, h2⟩ := lo_spec hx
  obtain ⟨h3, h4⟩ := hi_spec hx
  unfold outer
  by_cases h : lo x = hi x
  · rw [if_pos h]
    refine ⟨by dsimp only; linarith, fun v hv => ?_⟩
    have := h2 v hv
    have := h4 v hv
    exact ⟨by dsimp only; linarith, by dsimp only; linarith⟩
  · rw [if_neg h]
    exact ⟨lt_of_le_of_ne (h2 _ h3) h, fun v hv => ⟨h2 v hv, h4 v hv⟩⟩

/-- C43. The bins are those of the documentation of numpy: equally wide, from the smallest to the largest value, closed on
the left and open on the right except for the last one. -/
theorem bin_edges {b : Nat} (hb : 0 < b) {x : List ℝ} {v : ℝ} (hv : v ∈ x) (k : Nat) :
    let w := ((outer x).2 - (outer x).1) / b
    binOf b x v = k ↔ k < b ∧ (outer x).1 + k * w ≤ v ∧ (v < (outer x).1 + (k + 1) * w ∨ k = b - 1) := by
  obtain ⟨hlt, hmem⟩ := outer_spec (List.ne_nil_of_mem hv)
  obtain ⟨h1, h2⟩ := hmem v hv
  set p := (outer x).1
  set q := (outer x).2
  have hbr : (0 : ℝ) < b := by exact_mod_cast hb
  have hd : 0 < q - p := by linarith
  intro w
  set t := (v - p) / (q - p) * b with ht
  have ht0 : 0 ≤ t := by
    have : 0 ≤ v - p := by linarith
    positivity
  have hvt : v = p + t * w := by
    rw [ht]
    show v = p + (v - p) / (q - p) * b * ((q - p) / b)
    field_simp
    ring
  have hw : 0 < w := by
    show 0 < (q - p) / b
    positivity
  have c1 : ∀ m : ℝ, p + m * w ≤ v ↔ m ≤ t := by
    intro m
    rw [hvt]
    constructor
    · intro h; exact le_of_mul_le_mul_right (by linarith) hw
    · intro h; nlinarith [mul_le_mul_of_nonneg_right h hw.le]
  have c2 : ∀ m : ℝ, v < p + m * w ↔ t < m := by
    intro m
    rw [← not_le, c1, not_le]
  rw [c1, c2]
  show min ⌊t⌋₊ (b - 1) = k ↔ _
  have f1 : ∀ m : Nat, (m : ℝ) ≤ t ↔ m ≤ ⌊t⌋₊ := fun m => (Nat.le_floor_iff ht0).symm
  have f2 : t < (k : ℝ) + 1 ↔ ⌊t⌋₊ < k + 1 := by
    rw [Nat.floor_lt ht0]; push_cast; rfl
  rw [f1, f2]
  omega

/-- All values are in one bin exactly if there is only one bin or the sample is constant. -/
theorem one_bin_iff {n : Nat} {b : Nat} (hb : 0 < b) (u : Fin n → ℝ) :
    (∀ i j, lab b u i = lab b u j) ↔ b = 1 ∨ ∀ i j, u i = u j := by
  constructor
  · intro h
    by_cases hb1 : b = 1
    · exact .inl hb1
    right
    intro i j
    have hne : List.ofFn u ≠ [] := by
      have : 0 < (List.ofFn u).length := by rw [List.length_ofFn]; exact i.pos
      exact List.ne_nil_of_length_pos this
    obtain ⟨l1, l2⟩ := lo_spec hne
    obtain ⟨g1, g2⟩ := hi_spec hne
    obtain ⟨k, hk⟩ := (List.mem_ofFn' _ _).mp l1
    obtain ⟨m, hm⟩ := (List.mem_ofFn' _ _).mp g1
    by_cases he : lo (List.ofFn u) = hi (List.ofFn u)
    · have hi' : ∀ i, u i = lo (List.ofFn u) := fun i =>
        le_antisymm (by rw [he]; exact g2 _ ((List.mem_ofFn' _ _).mpr ⟨i, rfl⟩)) (l2 _ ((List.mem_ofFn' _ _).mpr ⟨i, rfl⟩))
      rw [hi' i, hi' j]
    · exfalso
      have hlt : lo (List.ofFn u) < hi (List.ofFn u) := lt_of_le_of_ne (l2 _ g1) he
      have ho : outer (List.ofFn u) = (lo (List.ofFn u), hi (List.ofFn u)) := by unfold outer; rw [if_neg he]
      have e1 : lab b u k = 0 := by
        unfold lab binOf
        rw [ho, hk]
        simp
      have e2 : lab b u m = b - 1 := by
        unfold lab binOf
        rw [ho, hm]
        dsimp only
        rw [div_self (by linarith), one_mul, Nat.floor_natCast]
        omega
      have := h k m
      rw [e1, e2] at this
      omega
  · rintro (h | h) i j
    · subst h
      unfold lab binOf
      simp
    · unfold lab
      rw [h i j]

theorem lo_map {f : ℝ → ℝ} (hf : Monotone f) : ∀ {x : List ℝ}, x ≠ [] → lo (x.map f) = f (lo x) := by
  intro x hx
  have hx' : x.map f ≠ [] := by simpa using hx
  obtain ⟨h1, h2⟩ := lo_spec hx
  obtain ⟨h3, h4⟩ := lo_spec hx'
  obtain ⟨w, hw, e⟩ := List.mem_map.mp h3
  apply le_antisymm
  · exact h4 _ (List.mem_map_of_mem h1)
  · rw [← e]; exact hf (h2 w hw)

theorem hi_map {f : ℝ → ℝ} (hf : Monotone f) : ∀ {x : List ℝ}, x ≠ [] → hi (x.map f) = f (hi x) := by
  intro x hx
  have hx' : x.map f ≠ [] := by simpa using hx
  obtain ⟨h1, h2⟩ := hi_spec hx
  obtain ⟨h3, h4⟩ := hi_spec hx'
  obtain ⟨w, hw, e⟩ := List.mem_map.mp h3
  apply le_antisymm
  · rw [← e]; exact hf (h2 w hw)
  · exact h4 _ (List.mem_map_of_mem h1)

/-- Increasing affine transformations do not change the bins. -/
theorem binOf_affine {b : Nat} {x : List ℝ} {v : ℝ} (hv : v ∈ x) {a : ℝ} (ha : 0 < a) (c : ℝ) :
    binOf b (x.map fun t => a * t + c) (a * v + c) = binOf b x v := by
  have hx := List.ne_nil_of_mem hv
  have hf : Monotone fun t : ℝ => a * t + c := fun s t h => by
    have := mul_le_mul_of_nonneg_left h ha.le
    dsimp only
    linarith
  obtain ⟨l1, l2⟩ := lo_spec hx
  obtain ⟨g1, g2⟩ := hi_spec hx
  unfold binOf outer
  rw [lo_map hf hx, hi_map hf hx]
  by_cases h : lo x = hi x
  · rw [if_pos h, if_pos (by rw [h])]
    dsimp only
    have hv' : v = lo x := le_antisymm (by rw [h]; exact g2 v hv) (l2 v hv)
    rw [← h, hv']
    congr 2
    ring_nf
  · rw [if_neg h, if_neg fun h' => h (by have := mul_left_cancel₀ ha.ne' (add_right_cancel h'); exact this)]
    dsimp only
    congr 3
    have : hi x - lo x ≠ 0 := fun h' => h (by linarith)
    have e : a * hi x + c - (a * lo x + c) = a * (hi x - lo x) := by ring
    rw [e]
    field_simp
    ring

theorem lab_affine {n : Nat} (b : Nat) (u : Fin n → ℝ) {a : ℝ} (ha : 0 < a) (c : ℝ) :
    lab b (fun i => a * u i + c) = lab b u := by
  funext i
  unfold lab
  have : List.ofFn (fun i => a * u i + c) = (List.ofFn u).map fun t => a * t + c := by rw [List.map_ofFn]; rfl
  rw [this]
  exact binOf_affine ((List.mem_ofFn' _ _).mpr ⟨i, rfl⟩) ha c

/-! ### C43 -/

/-- C43. When `compute_entropies` returns: two finite samples of the same length of at least two and at least one bin.
Every failure is a `ValueError`. -/
theorem entropies_ok_iff (x y : List XF) (bins : Int) :
    ((∃ r, computeEntropies x y bins = .ok r) ↔
      1 ≤ bins ∧ 2 ≤ x.length ∧ x.length = y.length ∧ (∀ v ∈ x, ∃ r, v = .fin r) ∧ ∀ v ∈ y, ∃ r, v = .fin r) ∧
    ∀ e, computeEntropies x y bins = .error e → e = .valueError := by
  constructor
  · constructor
    · rintro ⟨r, h⟩
      obtain ⟨hb, n, hn, u, w, rfl, rfl⟩ := ent_inv h
      have hs : ∀ u : Fin n → ℝ, ∀ v ∈ sample u, ∃ r, v = .fin r := by
        intro u v hv
        obtain ⟨i, rfl⟩ := (List.mem_ofFn' _ _).mp hv
        exact ⟨_, rfl⟩
      exact ⟨hb, by rw [sample_length]; exact hn, by rw [sample_length, sample_length], hs u, hs w⟩
    · rintro ⟨hb, hn, hl, hx, hy⟩
      have hs : ∀ {x : List XF} {n : Nat}, x.length = n → (∀ v ∈ x, ∃ r, v = XF.fin r) → ∃ u : Fin n → ℝ, x = sample u := by
        rintro x n rfl h
        choose f hf using h
        refine ⟨fun i => f x[i] (List.getElem_mem i.2), ?_⟩
        unfold sample
        apply List.ext_getElem
        · simp
        · intro i h1 h2
          rw [List.getElem_ofFn]
          exact hf _ _
      obtain ⟨n, hxn⟩ : ∃ n, x.length = n := ⟨_, rfl⟩
      obtain ⟨u, rfl⟩ := hs hxn hx
      obtain ⟨w, rfl⟩ := hs (hl.symm.trans hxn) hy
      rw [sample_length] at hn
      have := ent_eq hn hb u w
      exact ⟨_, this⟩
  · intro e h
    unfold computeEntropies validate1D at h
    by_cases h1 : x.length < 2
    · rw [if_pos h1] at h; cases h; rfl
    rw [if_neg h1] at h
    by_cases h2 : y.length < 2
    · rw [if_pos h2] at h; cases h; rfl
    rw [if_neg h2] at h
    simp only [bind, Except.bind] at h
    cases hx : finiteList x with
    | none => rw [hx] at h; cases h; rfl
    | some a =>
      cases hy : finiteList y with
      | none => rw [hx, hy] at h; cases h; rfl
      | some c =>
        rw [hx, hy] at h
        dsimp only at h
        by_cases h3 : a.length ≠ c.length
        · rw [if_pos h3] at h; cases h; rfl
        rw [if_neg h3] at h
        by_cases h4 : bins < 1
        · rw [if_pos h4] at h; cases h; rfl
        · rw [if_neg h4] at h; cases h

/-- C43. The entropies: not negative, at most the logarithm of the number of bins; the joint entropy lies between the
larger one and the sum. -/
theorem entropies_laws {x y : List XF} {bins : Int} {hx hy hxy : ℝ} (h : computeEntropies x y bins = .ok (hx, hy, hxy)) :
    0 ≤ hx ∧ hx ≤ Real.log bins ∧ 0 ≤ hy ∧ hy ≤ Real.log bins ∧ hx ≤ hxy ∧ hy ≤ hxy ∧ hxy ≤ hx + hy := by
  obtain ⟨hb, n, hn, u, w, rfl, rfl⟩ := ent_inv h
  rw [ent_eq hn hb] at h
  simp only [Except.ok.injEq, Prod.mk.injEq] at h
  obtain ⟨rfl, rfl, rfl⟩ := h
  have hl : ∀ u : Fin n → ℝ, H (lab bins.toNat u) ≤ Real.log bins := by
    intro u
    have := H_le_log (lab bins.toNat u) (s := Finset.range bins.toNat) fun i =>
      Finset.mem_range.mpr (binOf_lt (by omega) _ _)
    rw [Finset.card_range] at this
    have e : ((bins.toNat : Nat) : ℝ) = (bins : ℝ) := by
      have : ((bins.toNat : Nat) : Int) = bins := Int.toNat_of_nonneg (by omega)
      rw [← Int.cast_natCast, this]
    rwa [e] at this
  exact ⟨H_nonneg _, hl u, H_nonneg _, hl w, H_le_pair_left _ _, H_le_pair_right _ _, H_pair_le _ _⟩

/-- C43. Mutual information is not negative and at most either entropy. -/
theorem mi_range {x y : List XF} {bins : Option Int} {v : XF} (h : mutualInfo bins false x y = .ok v) :
    ∃ b hx hy hxy, resolveBins x y bins = .ok b ∧ computeEntropies x y b = .ok (hx, hy, hxy) ∧
      ∃ r, v = .fin r ∧ 0 ≤ r ∧ r ≤ hx ∧ r ≤ hy := by
  obtain ⟨b, hb, hr, n, hn, u, w, rfl, rfl, e, -⟩ := info_inv (.inl h)
  rw [e, (info_eq hn hb false u w).1] at h
  have he := ent_eq hn hb u w
  obtain ⟨-, -, -, -, h5, h6, h7⟩ := entropies_laws he
  refine ⟨b, _, _, _, hr, he, _, (Except.ok.inj h).symm, by linarith, by linarith, by linarith⟩

/-- C43. Normalised mutual information is a number between 0 and 1, or `nan`, which happens exactly if one bin holds all
values of one of the samples, that is for a single bin or a constant sample. -/
theorem mi_norm_range {x y : List XF} {b : Int} {v : XF} (h : mutualInfo (some b) true x y = .ok v) :
    (v = .nan ∨ ∃ r, v = .fin r ∧ 0 ≤ r ∧ r ≤ 1) ∧
    (v = .nan ↔ b = 1 ∨ (∀ s ∈ x, ∀ t ∈ x, s = t) ∨ ∀ s ∈ y, ∀ t ∈ y, s = t) := by
  obtain ⟨b', hb, hr, n, hn, u, w, rfl, rfl, e, -⟩ := info_inv (.inl h)
  cases hr
  rw [(info_eq hn hb true u w).1] at h
  obtain ⟨h1, -, h3, -, h5, h6, h7⟩ := entropies_laws (ent_eq hn hb u w)
  set Hu := H (lab b.toNat u)
  set Hw := H (lab b.toNat w)
  set Hj := H fun i => (lab b.toNat u i, lab b.toNat w i)
  have hv := (Except.ok.inj h).symm
  have hconst : ∀ u : Fin n → ℝ, H (lab b.toNat u) = 0 ↔ b = 1 ∨ ∀ s ∈ sample u, ∀ t ∈ sample u, s = t := by
    intro u
    rw [H_eq_zero_iff, one_bin_iff (by omega)]
    have e1 : b.toNat = 1 ↔ b = 1 := by omega
    have e2 : (∀ i j, u i = u j) ↔ ∀ s ∈ sample u, ∀ t ∈ sample u, s = t := by
      constructor
      · intro h s hs t ht
        obtain ⟨i, rfl⟩ := (List.mem_ofFn' _ _).mp hs
        obtain ⟨j, rfl⟩ := (List.mem_ofFn' _ _).mp ht
        show XF.fin (u i) = XF.fin (u j)
        rw [h i j]
      · intro h i j
        have := h (.fin (u i)) ((List.mem_ofFn' _ _).mpr ⟨i, rfl⟩) (.fin (u j)) ((List.mem_ofFn' _ _).mpr ⟨j, rfl⟩)
        exact XF.fin.inj this
    rw [e1, e2]
  have hiff : (b = 1 ∨ (∀ s ∈ sample u, ∀ t ∈ sample u, s = t) ∨ ∀ s ∈ sample w, ∀ t ∈ sample w, s = t) ↔
      Hu = 0 ∨ Hw = 0 := by
    rw [hconst u, hconst w]; tauto
  rw [hiff]
  by_cases h0 : Hu = 0 ∨ Hw = 0
  · have hmi : Hu + Hw - Hj = 0 := by rcases h0 with h0 | h0 <;> linarith
    have hz : Hu * Hw = 0 := mul_eq_zero.mpr h0
    have : v = .nan := by
      rw [hv]
      unfold divX
      rw [hz, Real.sqrt_zero, if_pos rfl, if_pos hmi]
    exact ⟨.inl this, fun _ => h0, fun _ => this⟩
  · rw [not_or] at h0
    have pu : 0 < Hu := lt_of_le_of_ne h1 (Ne.symm h0.1)
    have pw : 0 < Hw := lt_of_le_of_ne h3 (Ne.symm h0.2)
    have hs : 0 < Real.sqrt (Hu * Hw) := Real.sqrt_pos.mpr (mul_pos pu pw)
    have : v = .fin ((Hu + Hw - Hj) / Real.sqrt (Hu * Hw)) := by
      rw [hv]
      unfold divX
      rw [if_neg hs.ne']
    rw [this]
    refine ⟨.inr ⟨_, rfl, div_nonneg (by linarith) hs.le, ?_⟩, ⟨fun h => (by cases h), fun h => absurd h (by tauto)⟩⟩
    rw [div_le_one hs]
    apply Real.le_sqrt_of_sq_le
    nlinarith

/-- C43. The mutual information of a sample with itself is its entropy. -/
theorem mi_self {n : Nat} (hn : 2 ≤ n) {b : Int} (hb : 1 ≤ b) (u : Fin n → ℝ) :
    ∃ e e', computeEntropies (sample u) (sample u) b = .ok (e, e, e') ∧
      mutualInfo (some b) false (sample u) (sample u) = .ok (.fin e) ∧
      (e ≠ 0 → mutualInfo (some b) true (sample u) (sample u) = .ok (.fin 1)) := by
  have hj : (H fun i => (lab b.toNat u i, lab b.toNat u i)) = H (lab b.toNat u) :=
    H_congr fun i j => by simp
  refine ⟨_, _, ent_eq hn hb u u, ?_, fun h => ?_⟩
  · rw [(info_eq hn hb false u u).1, hj]
    simp
  · rw [(info_eq hn hb true u u).1, hj]
    have hp : 0 < H (lab b.toNat u) := lt_of_le_of_ne (H_nonneg _) (Ne.symm h)
    simp only [if_true]
    unfold divX
    rw [Real.sqrt_mul_self hp.le, if_neg h]
    congr 2
    field_simp
    ring

theorem resolveBins_comm {n : Nat} (u w : Fin n → ℝ) (bins : Option Int) :
    resolveBins (sample u) (sample w) bins = resolveBins (sample w) (sample u) bins := by
  cases bins with
  | some b => rfl
  | none =>
    unfold resolveBins
    rw [finiteList_sample, finiteList_sample]
    dsimp only
    unfold binsFromXY
    rw [Dist.corrcoef_comm, List.length_ofFn, List.length_ofFn]

theorem joint_comm {n : Nat} (b : Nat) (u w : Fin n → ℝ) :
    (H fun i => (lab b u i, lab b w i)) = H fun i => (lab b w i, lab b u i) :=
  H_congr fun i j => by
    simp only [Prod.mk.injEq]
    exact and_comm

/-- C43, C44. Both measures are symmetric, for every number of bins and also with the automatic one. -/
theorem info_symm {x y : List XF} {bins : Option Int} {norm : Bool} {v : XF} :
    (mutualInfo bins norm x y = .ok v ↔ mutualInfo bins norm y x = .ok v) ∧
    (varInfo bins norm x y = .ok v ↔ varInfo bins norm y x = .ok v) := by
  have key : ∀ {x y : List XF},
      (mutualInfo bins norm x y = .ok v → mutualInfo bins norm y x = .ok v) ∧
      (varInfo bins norm x y = .ok v → varInfo bins norm y x = .ok v) := by
    intro x y
    constructor
    · intro h
      obtain ⟨b, hb, hr, n, hn, u, w, rfl, rfl, e, -⟩ := info_inv (.inl h)
      rw [e] at h
      rw [resolveBins_comm] at hr
      have e' : mutualInfo bins norm (sample w) (sample u) = mutualInfo (some b) norm (sample w) (sample u) := by
        unfold mutualInfo
        rw [hr]; rfl
      rw [e', ← h, (info_eq hn hb norm u w).1, (info_eq hn hb norm w u).1, joint_comm, mul_comm,
        add_comm (H (lab b.toNat w))]
    · intro h
      obtain ⟨b, hb, hr, n, hn, u, w, rfl, rfl, -, e⟩ := info_inv (.inr h)
      rw [e] at h
      rw [resolveBins_comm] at hr
      have e' : varInfo bins norm (sample w) (sample u) = varInfo (some b) norm (sample w) (sample u) := by
        unfold varInfo
        rw [hr]; rfl
      rw [e', ← h, (info_eq hn hb norm u w).2, (info_eq hn hb norm w u).2, joint_comm b.toNat u w]
      have : ∀ p q r : ℝ, 2 * p - q - r = 2 * p - r - q := fun p q r => by ring
      rw [this]
  exact ⟨⟨key.1, key.1⟩, ⟨key.2, key.2⟩⟩

/-- C43. Mutual information zero means that the bins are independent: every joint count is the product of the two counts
divided by the sample size. -/
theorem mi_zero_iff {n : Nat} (hn : 2 ≤ n) {b : Int} (hb : 1 ≤ b) (u w : Fin n → ℝ) :
    mutualInfo (some b) false (sample u) (sample w) = .ok (.fin 0) ↔
      ∀ k l, (Finset.card {i | lab b.toNat u i = k ∧ lab b.toNat w i = l} : ℝ) * n =
        Finset.card {i | lab b.toNat u i = k} * Finset.card {i | lab b.toNat w i = l} := by
  rw [(info_eq hn hb false u w).1]
  simp only [Bool.false_eq_true, if_false, Except.ok.injEq, XF.fin.injEq]
  have := H_indep_iff (lab b.toNat u) (lab b.toNat w)
  unfold cnt at this
  simp only [Prod.mk.injEq, Fintype.card_fin] at this
  rw [← this]
  constructor <;> intro h <;> linarith

/-- C43, C44. Increasing affine transformations of either sample change nothing (with a given number of bins). -/
theorem info_affine {n : Nat} (hn : 2 ≤ n) {b : Int} (hb : 1 ≤ b) (norm : Bool) (u w : Fin n → ℝ) {a a' : ℝ}
    (ha : 0 < a) (ha' : 0 < a') (c c' : ℝ) :
    mutualInfo (some b) norm (sample fun i => a * u i + c) (sample fun i => a' * w i + c') =
      mutualInfo (some b) norm (sample u) (sample w) ∧
    varInfo (some b) norm (sample fun i => a * u i + c) (sample fun i => a' * w i + c') =
      varInfo (some b) norm (sample u) (sample w) := by
  rw [(info_eq hn hb norm _ _).1, (info_eq hn hb norm _ _).1, (info_eq hn hb norm _ _).2, (info_eq hn hb norm _ _).2,
    lab_affine _ _ ha, lab_affine _ _ ha']
  exact ⟨rfl, rfl⟩

/-! ### C44 -/

/-- C44. Variation of information is not negative. Normalised it is a number between 0 and 1,
or `nan`, which happens exactly for a single bin or two constant samples. -/
theorem vi_range {n : Nat} (hn : 2 ≤ n) {b : Int} (hb : 1 ≤ b) (u w : Fin n → ℝ) :
    (∃ r, varInfo (some b) false (sample u) (sample w) = .ok (.fin r) ∧ 0 ≤ r) ∧
    ((b = 1 ∨ ((∀ i j, u i = u j) ∧ ∀ i j, w i = w j)) → varInfo (some b) true (sample u) (sample w) = .ok .nan) ∧
    (¬ (b = 1 ∨ ((∀ i j, u i = u j) ∧ ∀ i j, w i = w j)) →
      ∃ r, varInfo (some b) true (sample u) (sample w) = .ok (.fin r) ∧ 0 ≤ r ∧ r ≤ 1) := by
  obtain ⟨h1, -, h3, -, h5, h6, h7⟩ := entropies_laws (ent_eq hn hb u w)
  have hz : (H fun i => (lab b.toNat u i, lab b.toNat w i)) = 0 ↔
      (b = 1 ∨ ((∀ i j, u i = u j) ∧ ∀ i j, w i = w j)) := by
    rw [H_eq_zero_iff]
    have : (∀ i j, (lab b.toNat u i, lab b.toNat w i) = (lab b.toNat u j, lab b.toNat w j)) ↔
        (∀ i j, lab b.toNat u i = lab b.toNat u j) ∧ ∀ i j, lab b.toNat w i = lab b.toNat w j := by
      simp only [Prod.mk.injEq]
      exact ⟨fun h => ⟨fun i j => (h i j).1, fun i j => (h i j).2⟩, fun h i j => ⟨h.1 i j, h.2 i j⟩⟩
    rw [this, one_bin_iff (by omega), one_bin_iff (by omega)]
    have : b.toNat = 1 ↔ b = 1 := by omega
    rw [this]; tauto
  rw [← hz, (info_eq hn hb false u w).2, (info_eq hn hb true u w).2]
  refine ⟨⟨_, rfl, by linarith⟩, fun h => ?_, fun h => ?_⟩
  · simp only [if_true]
    unfold divX
    rw [if_pos h, if_pos (by rw [h] at h5 h6 ⊢; linarith)]
  · simp only [if_true]
    have hp : 0 < H fun i => (lab b.toNat u i, lab b.toNat w i) := lt_of_le_of_ne (H_nonneg _) (Ne.symm h)
    refine ⟨_, by unfold divX; rw [if_neg h], div_nonneg (by linarith) hp.le, ?_⟩
    rw [div_le_one hp]
    linarith

/-- C44. Variation of information is zero exactly if the bins of the two samples determine each other, in particular for
identical samples; it does not separate different samples. -/
theorem vi_zero_iff {n : Nat} (hn : 2 ≤ n) {b : Int} (hb : 1 ≤ b) (u w : Fin n → ℝ) :
    varInfo (some b) false (sample u) (sample w) = .ok (.fin 0) ↔
      ∀ i j, lab b.toNat u i = lab b.toNat u j ↔ lab b.toNat w i = lab b.toNat w j := by
  rw [(info_eq hn hb false u w).2]
  simp only [Bool.false_eq_true, if_false, Except.ok.injEq, XF.fin.injEq]
  have l1 := H_le_pair_left (lab b.toNat u) (lab b.toNat w)
  have l2 := H_le_pair_right (lab b.toNat u) (lab b.toNat w)
  constructor
  · intro h i j
    have e1 := H_eq_imp (f := fun i => (lab b.toNat u i, lab b.toNat w i)) (g := lab b.toNat u)
      (fun _ _ h => (Prod.mk.inj h).1) (by linarith) i j
    have e2 := H_eq_imp (f := fun i => (lab b.toNat u i, lab b.toNat w i)) (g := lab b.toNat w)
      (fun _ _ h => (Prod.mk.inj h).2) (by linarith) i j
    exact ⟨fun h => (Prod.mk.inj (e1 h)).2, fun h => (Prod.mk.inj (e2 h)).1⟩
  · intro h
    have e1 : (H fun i => (lab b.toNat u i, lab b.toNat w i)) = H (lab b.toNat u) :=
      H_congr fun i j => by rw [Prod.mk.injEq, ← h i j]; exact and_self_iff
    have e2 : (H fun i => (lab b.toNat u i, lab b.toNat w i)) = H (lab b.toNat w) :=
      H_congr fun i j => by rw [Prod.mk.injEq, h i j]; exact and_self_iff
    rw [← e1, ← e2]; ring

/-- C44. With a common number of bins both the plain and the normalised variation of information satisfy the triangle
inequality. -/
theorem vi_triangle {n : Nat} (hn : 2 ≤ n) {b : Int} (hb : 1 ≤ b) (norm : Bool) (u w z : Fin n → ℝ) {duw dwz duz : ℝ}
    (h1 : varInfo (some b) norm (sample u) (sample w) = .ok (.fin duw))
    (h2 : varInfo (some b) norm (sample w) (sample z) = .ok (.fin dwz))
    (h3 : varInfo (some b) norm (sample u) (sample z) = .ok (.fin duz)) : duz ≤ duw + dwz := by
  rw [(info_eq hn hb norm u w).2] at h1
  rw [(info_eq hn hb norm w z).2] at h2
  rw [(info_eq hn hb norm u z).2] at h3
  set U := lab b.toNat u
  set W := lab b.toNat w
  set Z := lab b.toNat z
  have sub := H_submodular U W Z
  have mono : (H fun i => (U i, Z i)) ≤ H fun i => (U i, W i, Z i) :=
    H_mono fun i j h => by simp only [Prod.mk.injEq] at *; tauto
  have a1 := H_le_pair_left U W
  have a2 := H_le_pair_right U W
  have a3 := H_le_pair_left W Z
  have a4 := H_le_pair_right W Z
  have a5 := H_le_pair_left U Z
  have a6 := H_le_pair_right U Z
  have n1 := H_nonneg U
  have n2 := H_nonneg W
  have n3 := H_nonneg Z
  set HU := H U
  set HW := H W
  set HZ := H Z
  set HUW := H fun i => (U i, W i)
  set HWZ := H fun i => (W i, Z i)
  set HUZ := H fun i => (U i, Z i)
  cases norm with
  | false =>
    simp only [Bool.false_eq_true, if_false, Except.ok.injEq, XF.fin.injEq] at h1 h2 h3
    linarith
  | true =>
    simp only [if_true, Except.ok.injEq] at h1 h2 h3
    have hdiv : ∀ {p q r : ℝ}, divX p q = .fin r → q ≠ 0 ∧ r = p / q := by
      intro p q r h
      unfold divX at h
      by_cases hq : q = 0
      · rw [if_pos hq] at h
        by_cases hp : p = 0
        · rw [if_pos hp] at h; cases h
        · rw [if_neg hp] at h
          by_cases hp' : 0 < p
          · rw [if_pos hp'] at h; cases h
          · rw [if_neg hp'] at h; cases h
      · rw [if_neg hq] at h
        exact ⟨hq, (XF.fin.inj h).symm⟩
    obtain ⟨z1, e1⟩ := hdiv h1
    obtain ⟨z2, e2⟩ := hdiv h2
    obtain ⟨z3, e3⟩ := hdiv h3
    have p1 : 0 < HUW := lt_of_le_of_ne (by linarith) (Ne.symm z1)
    have p2 : 0 < HWZ := lt_of_le_of_ne (by linarith) (Ne.symm z2)
    have p3 : 0 < HUZ := lt_of_le_of_ne (by linarith) (Ne.symm z3)
    -- one direction of the conditional entropies
    have key : ∀ {A B C AB BC AC : ℝ}, 0 ≤ B → 0 ≤ C → A ≤ AB → B ≤ AB → B ≤ BC → C ≤ BC → A ≤ AC → C ≤ AC →
        AC + B ≤ AB + BC → 0 < AB → 0 < BC → 0 < AC →
        (AC - C) / AC ≤ (AB - B) / AB + (BC - C) / BC := by
      intro A B C AB BC AC hB hC _ hb1 hb2 hc1 _ hc2 hsub q1 q2 q3
      have q4 : 0 < AB - B + BC := by linarith
      have s1 : (AC - C) / AC ≤ (AB - B + (BC - C)) / (AB - B + BC) := by
        rw [div_le_div_iff₀ q3 q4]
        nlinarith
      have s2 : (AB - B) / (AB - B + BC) ≤ (AB - B) / AB := by
        apply div_le_div_of_nonneg_left (by linarith) q1 (by linarith)
      have s3 : (BC - C) / (AB - B + BC) ≤ (BC - C) / BC := by
        apply div_le_div_of_nonneg_left (by linarith) q2 (by linarith)
      rw [add_div] at s1
      linarith
    have k1 := key (A := HU) n2 n3 a1 a2 a3 a4 a5 a6 (by linarith) p1 p2 p3
    have k2 := key (A := HZ) (B := HW) (C := HU) (AB := HWZ) (BC := HUW) (AC := HUZ) n2 n1 a4 a3 a2 a1 a6 a5
      (by linarith) p2 p1 p3
    rw [e1, e2, e3]
    have d1 : (2 * HUZ - HU - HZ) / HUZ = (HUZ - HZ) / HUZ + (HUZ - HU) / HUZ := by rw [← add_div]; ring_nf
    have d2 : (2 * HUW - HU - HW) / HUW = (HUW - HW) / HUW + (HUW - HU) / HUW := by rw [← add_div]; ring_nf
    have d3 : (2 * HWZ - HW - HZ) / HWZ = (HWZ - HZ) / HWZ + (HWZ - HW) / HWZ := by rw [← add_div]; ring_nf
    rw [d1, d2, d3]
    linarith

end Verif.Info
