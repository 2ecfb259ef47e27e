import Verif.Props.EntRound

/-!
# C113: information measures with rounded entropies, continued
-/

namespace Verif.Info

open Verif.Round Verif.Ent
open Verif.Sim (Near IsSum perm_map SumTree.eval_zero)
open Verif.Props.Cusum (Within)

variable {fl ln : ℝ → ℝ} {ord : List ℝ → SumTree}

/-! ### Sign of the entropy -/

theorem eval_float (R : Rounding fl) (T : SumTree) (h : ∀ x ∈ T.leaves, fl x = x) : fl (T.eval fl) = T.eval fl := by
  cases T with
  | leaf x => exact h x (by simp [SumTree.leaves])
  | node l r => rw [SumTree.eval]; exact R.idem _

theorem le_eval (R : Rounding fl) (T : SumTree) (h : ∀ x ∈ T.leaves, fl x = x) (h0 : ∀ x ∈ T.leaves, 0 ≤ x) :
    ∀ x ∈ T.leaves, x ≤ T.eval fl := by
  induction T with
  | leaf y => intro x hx; simp [SumTree.leaves] at hx; rw [hx]; rfl
  | node l r ihl ihr =>
    simp only [SumTree.leaves, List.mem_append] at h h0 ⊢
    have nl := l.eval_nonneg R fun x hx => h0 x (.inl hx)
    have nr := r.eval_nonneg R fun x hx => h0 x (.inr hx)
    rintro x (hx | hx)
    · refine (ihl (fun x hx => h x (.inl hx)) (fun x hx => h0 x (.inl hx)) x hx).trans ?_
      rw [← eval_float R l fun x hx => h x (.inl hx)]
      exact R.mono (by linarith)
    · refine (ihr (fun x hx => h x (.inr hx)) (fun x hx => h0 x (.inr hx)) x hx).trans ?_
      rw [← eval_float R r fun x hx => h x (.inr hx)]
      exact R.mono (by linarith)

theorem eval_pos' (R : Rounding fl) (T : SumTree) (h0 : ∀ x ∈ T.leaves, 0 ≤ x) (h : ∃ x ∈ T.leaves, 0 < x) : 0 < T.eval fl := by
  induction T with
  | leaf y => obtain ⟨x, hx, h⟩ := h; simp [SumTree.leaves] at hx; rw [hx] at h; exact h
  | node l r ihl ihr =>
    simp only [SumTree.leaves, List.mem_append] at h h0
    have nl := l.eval_nonneg R fun x hx => h0 x (.inl hx)
    have nr := r.eval_nonneg R fun x hx => h0 x (.inr hx)
    rw [SumTree.eval]
    apply R.pos
    obtain ⟨x, hx | hx, h⟩ := h
    · linarith [ihl (fun x hx => h0 x (.inl hx)) ⟨x, hx, h⟩]
    · linarith [ihr (fun x hx => h0 x (.inr hx)) ⟨x, hx, h⟩]

theorem hist_ne {h : List Nat} (hs : 0 < h.sum) : h ≠ [] := by rintro rfl; simp at hs

theorem prob_range (R : Rounding fl) (ho : IsSum ord) {h : List Nat} (hs : 0 < h.sum) {c : Nat} (hc : c ∈ h) :
    0 ≤ probR fl ord h c ∧ probR fl ord h c ≤ 1 ∧ (0 < c → 0 < probR fl ord h c) ∧ (c = 0 → probR fl ord h c = 0) := by
  have hne : normaliseR fl h ≠ [] := by unfold normaliseR; simpa using hist_ne hs
  have hp := ho _ hne
  have hm : ∀ x ∈ (ord (normaliseR fl h)).leaves, fl x = x ∧ 0 ≤ x := by
    intro x hx
    obtain ⟨c, -, rfl⟩ := List.mem_map.mp (hp.mem_iff.mp hx)
    exact ⟨R.idem _, R.nonneg (by positivity)⟩
  have hle := le_eval R _ (fun x hx => (hm x hx).1) (fun x hx => (hm x hx).2) (fl ((c : ℝ) / (h.sum : ℝ)))
    (hp.mem_iff.mpr (List.mem_map_of_mem hc))
  have h0 : 0 ≤ fl ((c : ℝ) / (h.sum : ℝ)) := R.nonneg (by positivity)
  unfold probR
  refine ⟨R.nonneg (div_nonneg h0 (h0.trans hle)), R.le_one (div_le_one_of_le₀ hle (h0.trans hle)), ?_, ?_⟩
  · intro hc
    have h1 : 0 < fl ((c : ℝ) / (h.sum : ℝ)) := R.pos (by positivity)
    exact R.pos (div_pos h1 (h1.trans_le hle))
  · rintro rfl
    simp [R.zero]

theorem ln_sign {κ : Nat} (hl : LogAcc κ ln) {q : ℝ} (h0 : 0 < q) (h1 : q ≤ 1) : ln q ≤ 0 ∧ (q < 1 → ln q < 0) := by
  have h := hl q h0
  constructor
  · by_contra hc
    push Not at hc
    linarith [h.pos_iff.mp hc, Real.log_nonpos h0.le h1]
  · intro hq
    exact h.neg_iff.mpr (Real.log_neg h0 hq)

theorem entr_sign (R : Rounding fl) {κ : Nat} (hl : LogAcc κ ln) {q : ℝ} (h0 : 0 ≤ q) (h1 : q ≤ 1) :
    0 ≤ entrR fl ln q ∧ (0 < q → q < 1 → 0 < entrR fl ln q) := by
  unfold entrR
  split
  · exact ⟨le_rfl, fun h => by linarith⟩
  · rename_i hq
    have hq : 0 < q := lt_of_le_of_ne h0 (Ne.symm hq)
    obtain ⟨h2, h3⟩ := ln_sign hl hq h1
    exact ⟨R.nonneg (by nlinarith), fun _ h => R.pos (by nlinarith [h3 h])⟩

/-- C113. A computed entropy is never negative. -/
theorem entropy_round_nonneg (R : Rounding fl) {κ : Nat} (hl : LogAcc κ ln) (ho : IsSum ord) {h : List Nat} (hs : 0 < h.sum) :
    0 ≤ entropyR fl ln ord (normaliseR fl h) := by
  rw [entropyR_eq]
  apply SumTree.eval_nonneg R
  intro x hx
  obtain ⟨c, hc, rfl⟩ := List.mem_map.mp ((ho _ (by simpa using hist_ne hs)).mem_iff.mp hx)
  have := prob_range R ho hs hc
  exact (entr_sign R hl this.1 this.2.1).1

theorem small_count {h : List Nat} (hs : 0 < h.sum) (hn : ∀ c ∈ h, c ≠ h.sum) : ∃ c ∈ h, 0 < c ∧ 2 * c ≤ h.sum := by
  have hpos : ∀ l : List Nat, 0 < l.sum → ∃ c ∈ l, 0 < c := by
    intro l hl
    by_contra hc
    push Not at hc
    have : l.sum = 0 := List.sum_eq_zero fun c hc' => by have := hc c hc'; omega
    omega
  obtain ⟨c, hc, hc0⟩ := hpos h hs
  by_cases h2 : 2 * c ≤ h.sum
  · exact ⟨c, hc, hc0, h2⟩
  · have hle := List.single_le_sum (fun _ _ => Nat.zero_le _) c hc
    have hne := hn c hc
    have hp := (List.perm_cons_erase hc).sum_eq
    rw [List.sum_cons] at hp
    obtain ⟨d, hd, hd0⟩ := hpos (h.erase c) (by omega)
    have := List.single_le_sum (fun _ _ => Nat.zero_le _) d hd
    exact ⟨d, List.mem_of_mem_erase hd, hd0, by omega⟩

/-- C113. A computed entropy is zero exactly if one bin holds everything. -/
theorem entropy_round_zero (R : Rounding fl) {κ D : Nat} (hl : LogAcc κ ln) (ho : IsSum ord) {h : List Nat} (hs : 0 < h.sum)
    (hD : Depth ord h.length D) (hk : (D + 3 : ℕ) * u64 ≤ 1 / 4) :
    entropyR fl ln ord (normaliseR fl h) = 0 ↔ h.sum ∈ h := by
  rw [entropyR_eq]
  have hperm := ho (h.map fun c => entrR fl ln (probR fl ord h c)) (by simpa using hist_ne hs)
  constructor
  · intro he
    by_contra hc
    obtain ⟨c, hc, h0, h2⟩ := small_count hs fun c hc' e => hc (e ▸ hc')
    have hr := prob_range R ho hs hc
    have hlt : probR fl ord h c < 1 := by
      obtain ⟨r, e, h3, h4⟩ := prob_within R ho hs hD c
      have hr := (within_ratio h3 h4).2
      have hw := wu_small (k := D + 3) (by linarith)
      have hq : (c : ℝ) / (h.sum : ℝ) ≤ 1 / 2 := by
        rw [div_le_div_iff₀ (by exact_mod_cast hs) (by norm_num)]
        have : ((2 * c : ℕ) : ℝ) ≤ h.sum := by exact_mod_cast h2
        rw [Nat.cast_mul, Nat.cast_ofNat] at this
        linarith
      have hq0 : 0 ≤ (c : ℝ) / (h.sum : ℝ) := by positivity
      rw [e]
      have : r * ((c : ℝ) / (h.sum : ℝ)) ≤ (3 / 2) * (1 / 2) := mul_le_mul (by linarith) hq hq0 (by norm_num)
      linarith
    refine absurd he (eval_pos' R _ ?_ ?_).ne'
    · intro x hx
      obtain ⟨c, hc, rfl⟩ := List.mem_map.mp (hperm.mem_iff.mp hx)
      have := prob_range R ho hs hc
      exact (entr_sign R hl this.1 this.2.1).1
    · exact ⟨_, hperm.mem_iff.mpr (List.mem_map_of_mem hc), (entr_sign R hl hr.1 hr.2.1).2 (hr.2.2.1 h0) hlt⟩
  · intro hm
    have hN : (0 : ℝ) < h.sum := by exact_mod_cast hs
    have hp : ∀ c ∈ h, c = 0 ∨ c = h.sum := by
      intro c hc
      by_cases e : c = h.sum
      · exact .inr e
      · left
        have hp := (List.perm_cons_erase hm).sum_eq
        rw [List.sum_cons] at hp
        have hz : (h.erase h.sum).sum = 0 := by omega
        have hc' : c ∈ h.erase h.sum := (List.mem_erase_of_ne e).mpr hc
        have := List.single_le_sum (fun _ _ => Nat.zero_le _) c hc'
        omega
    have hne : normaliseR fl h ≠ [] := by unfold normaliseR; simpa using hist_ne hs
    have htot : (ord (normaliseR fl h)).eval fl = 1 := by
      have hq := ho _ hne
      have hint : ∀ c ∈ h, fl ((c : ℝ) / (h.sum : ℝ)) = (c : ℝ) / (h.sum : ℝ) := by
        intro c hc
        rcases hp c hc with rfl | rfl
        · simp [R.zero]
        · rw [div_self hN.ne', R.one]
      have e : normaliseR fl h = normalise h := by
        unfold normaliseR normalise
        exact List.map_congr_left hint
      have hsum : (normalise h).sum = 1 := counts_sum hs
      have h0 : ∀ x ∈ normalise h, |x| = x ∧ ∃ n : ℤ, x = n := by
        intro x hx
        obtain ⟨c, hc, rfl⟩ := List.mem_map.mp hx
        refine ⟨abs_of_nonneg (by positivity), ?_⟩
        rcases hp c hc with rfl | rfl
        · exact ⟨0, by simp⟩
        · exact ⟨1, by rw [div_self hN.ne']; simp⟩
      rw [e] at hq ⊢
      have := sum_round_int R (ord (normalise h)) (fun x hx => (h0 x (hq.mem_iff.mp hx)).2) (by
        rw [(hq.map abs).sum_eq, List.map_congr_left (g := id) (fun x hx => (h0 x hx).1), List.map_id, hsum]
        norm_num)
      rw [this, hq.sum_eq, hsum]
    suffices hz : ∀ x ∈ (ord (h.map fun c => entrR fl ln (probR fl ord h c))).leaves, x = 0 from
      (SumTree.eval_zero R _ fun x hx => (hz x hx).ge).mpr hz
    intro x hx
    obtain ⟨c, hc, rfl⟩ := List.mem_map.mp (hperm.mem_iff.mp hx)
    unfold probR
    rw [htot, div_one, R.idem]
    rcases hp c hc with rfl | rfl
    · simp [R.zero, entrR]
    · rw [div_self hN.ne', R.one, entrR, if_neg one_ne_zero]
      have : ln 1 = 0 := (hl 1 one_pos).zero_iff.mpr Real.log_one
      rw [this, mul_zero, R.zero]

/-! ### The measures -/

theorem histR_facts (R : Rounding fl) {n : Nat} (hn : 0 < n) {b : Nat} {u : Fin n → ℝ} (h : Fit fl b (List.ofFn u)) :
    (histR fl b (List.ofFn u)).length = b ∧ 0 < (histR fl b (List.ofFn u)).sum := by
  refine ⟨by simp [histR], ?_⟩
  set v := u ⟨0, hn⟩
  have hv : v ∈ List.ofFn u := (List.mem_ofFn' _ _).mpr ⟨_, rfl⟩
  have hm := h.mem R hv
  set k := binR1 fl (outerR fl (List.ofFn u)).1 (outerR fl (List.ofFn u)).2 b v with hkd
  have hk : k < b := by
    rw [hkd, bin1_eq_bin2 R h.wide (h.left R) hm.1 hm.2]
    exact ((labR_spec R h ⟨0, hn⟩ _).mp rfl).1
  have hc : 0 < ((List.ofFn u).map (binR1 fl (outerR fl (List.ofFn u)).1 (outerR fl (List.ofFn u)).2 b)).count k :=
    List.count_pos_iff.mpr (List.mem_map_of_mem hv)
  refine hc.trans_le (List.single_le_sum (fun _ _ => Nat.zero_le _) _ ?_)
  exact List.mem_map.mpr ⟨k, List.mem_range.mpr hk, rfl⟩

theorem hist2R_facts (R : Rounding fl) {n : Nat} (hn : 0 < n) {b : Nat} {u w : Fin n → ℝ} (hu : Fit fl b (List.ofFn u))
    (hw : Fit fl b (List.ofFn w)) :
    (hist2R fl b (List.ofFn u) (List.ofFn w)).length = b * b ∧ 0 < (hist2R fl b (List.ofFn u) (List.ofFn w)).sum := by
  refine ⟨by simp [hist2R, List.length_flatMap], ?_⟩
  have e1 : ∀ u : Fin n → ℝ, (List.ofFn u).map (binR2 fl (outerR fl (List.ofFn u)).1 (outerR fl (List.ofFn u)).2 b) =
      List.ofFn (labR fl b u) := by
    intro u
    rw [List.map_ofFn]; rfl
  set i : Fin n := ⟨0, hn⟩
  have hc : 0 < (List.ofFn fun i => (labR fl b u i, labR fl b w i)).count (labR fl b u i, labR fl b w i) :=
    List.count_pos_iff.mpr ((List.mem_ofFn' _ _).mpr ⟨i, rfl⟩)
  refine hc.trans_le (List.single_le_sum (fun _ _ => Nat.zero_le _) _ ?_)
  unfold hist2R
  rw [e1, e1, zip_ofFn, List.mem_flatMap]
  exact ⟨_, List.mem_range.mpr ((labR_spec R hu i _).mp rfl).1,
    List.mem_map.mpr ⟨_, List.mem_range.mpr ((labR_spec R hw i _).mp rfl).1, rfl⟩⟩

/-- The three computed entropies. -/
noncomputable def ent1 (fl ln : ℝ → ℝ) (ord : List ℝ → SumTree) (b : Nat) {n : Nat} (u : Fin n → ℝ) : ℝ :=
  entropyR fl ln ord (normaliseR fl (histR fl b (List.ofFn u)))

noncomputable def ent2 (fl ln : ℝ → ℝ) (ord : List ℝ → SumTree) (b : Nat) {n : Nat} (u w : Fin n → ℝ) : ℝ :=
  entropyR fl ln ord (normaliseR fl (hist2R fl b (List.ofFn u) (List.ofFn w)))

theorem infoF_eq {n : Nat} (hn : 2 ≤ n) {bins : Int} (hb : 1 ≤ bins) (u w : Fin n → ℝ) :
    (∀ norm, mutualInfoF fl ln ord bins norm (sample u) (sample w) =
      let mi := fl (fl (ent1 fl ln ord bins.toNat u + ent1 fl ln ord bins.toNat w) - ent2 fl ln ord bins.toNat u w)
      if norm then .ok (rnd fl (divX mi (fl (Real.sqrt (fl (ent1 fl ln ord bins.toNat u * ent1 fl ln ord bins.toNat w))))))
      else .ok (.fin mi)) ∧
    (∀ norm, varInfoF fl ln ord bins norm (sample u) (sample w) =
      let vi := fl (fl (fl (2 * ent2 fl ln ord bins.toNat u w) - ent1 fl ln ord bins.toNat u) - ent1 fl ln ord bins.toNat w)
      if norm then .ok (rnd fl (divX vi (ent2 fl ln ord bins.toNat u w))) else .ok (.fin vi)) := by
  have hv : ∀ u : Fin n → ℝ, validate1D (sample u) = .ok () := by
    intro u
    unfold validate1D
    rw [sample_length, if_neg (by omega)]
  have he : computeEntropiesF fl ln ord (sample u) (sample w) bins =
      .ok (ent1 fl ln ord bins.toNat u, ent1 fl ln ord bins.toNat w, ent2 fl ln ord bins.toNat u w) := by
    unfold computeEntropiesF
    rw [hv, hv, finiteList_sample, finiteList_sample]
    simp only [bind, Except.bind]
    rw [if_neg (by simp), if_neg (by omega)]
    rfl
  constructor
  · intro norm
    unfold mutualInfoF
    rw [hv, hv]
    simp only [bind, Except.bind, he]
  · intro norm
    unfold varInfoF
    rw [hv, hv]
    simp only [bind, Except.bind, he]

theorem infoR_eq (R : Rounding fl) {n : Nat} (hn : 2 ≤ n) {bins : Int} (hb : 1 ≤ bins) {u w : Fin n → ℝ}
    (hu : Fit fl bins.toNat (List.ofFn u)) (hw : Fit fl bins.toNat (List.ofFn w)) (norm : Bool) :
    let hx := H (labR fl bins.toNat u)
    let hy := H (labR fl bins.toNat w)
    let hxy := H fun i => (labR fl bins.toNat u i, labR fl bins.toNat w i)
    mutualInfoR fl bins norm (sample u) (sample w) =
      (if norm then .ok (divX (hx + hy - hxy) (Real.sqrt (hx * hy))) else .ok (.fin (hx + hy - hxy))) ∧
    varInfoR fl bins norm (sample u) (sample w) =
      (if norm then .ok (divX (2 * hxy - hx - hy) hxy) else .ok (.fin (2 * hxy - hx - hy))) := by
  have hv : ∀ u : Fin n → ℝ, validate1D (sample u) = .ok () := by
    intro u
    unfold validate1D
    rw [sample_length, if_neg (by omega)]
  constructor
  · unfold mutualInfoR
    rw [hv, hv]
    simp only [bind, Except.bind, ent_eqR R hn hb hu hw]
  · unfold varInfoR
    rw [hv, hv]
    simp only [bind, Except.bind, ent_eqR R hn hb hu hw]

theorem near_rd (R : Rounding fl) {k : Nat} {a A p : ℝ} (h : Near (wu ^ k) a A p) : Near (wu ^ (k + 1)) (fl a) A p := by
  refine (h.rd R).mono ?_
  rw [pow_succ]
  exact mul_le_mul_of_nonneg_left wu_ge (by linarith [wu_pow_one k])

theorem near_up {k m : Nat} {a A p : ℝ} (h : Near (wu ^ k) a A p) (hm : k ≤ m) : Near (wu ^ m) a A p := h.mono (wu_pow_mono hm)

theorem near_size {g a A p q : ℝ} (h : Near g a A p) (hq : p ≤ q) : Near g a A q :=
  ⟨h.1, h.2.1.trans hq, h.2.2.trans (mul_le_mul_of_nonneg_left hq (by linarith [h.1]))⟩

theorem labR_log (R : Rounding fl) {n b : Nat} {u w : Fin n → ℝ} (hu : Fit fl b (List.ofFn u)) (hw : Fit fl b (List.ofFn w)) :
    H (labR fl b u) ≤ Real.log b ∧ H (fun i => (labR fl b u i, labR fl b w i)) ≤ 2 * Real.log b := by
  constructor
  · have := H_le_log (labR fl b u) (s := Finset.range b) fun i => Finset.mem_range.mpr ((labR_spec R hu i _).mp rfl).1
    rwa [Finset.card_range] at this
  · have := H_le_log (fun i => (labR fl b u i, labR fl b w i)) (s := Finset.range b ×ˢ Finset.range b) fun i => by
      rw [Finset.mem_product]
      exact ⟨Finset.mem_range.mpr ((labR_spec R hu i _).mp rfl).1, Finset.mem_range.mpr ((labR_spec R hw i _).mp rfl).1⟩
    rw [Finset.card_product, Finset.card_range, Nat.cast_mul] at this
    by_cases hb : (b : ℝ) = 0
    · rw [hb] at this ⊢
      simpa using this
    · rwa [Real.log_mul hb hb, ← two_mul] at this

theorem ents_near (R : Rounding fl) {κ D : Nat} (hl : LogAcc κ ln) (ho : IsSum ord) {n : Nat} (hn : 0 < n) {b : Nat} {u w : Fin n → ℝ}
    (hu : Fit fl b (List.ofFn u)) (hw : Fit fl b (List.ofFn w)) (hD : Depth ord b D) (hD2 : Depth ord (b * b) D) :
    Near (wu ^ (3 * D + 8 + κ)) (ent1 fl ln ord b u) (H (labR fl b u)) (Real.log b + 1) ∧
    Near (wu ^ (3 * D + 8 + κ)) (ent1 fl ln ord b w) (H (labR fl b w)) (Real.log b + 1) ∧
    Near (wu ^ (3 * D + 8 + κ)) (ent2 fl ln ord b u w) (H fun i => (labR fl b u i, labR fl b w i)) (2 * Real.log b + 1) := by
  obtain ⟨l1, s1⟩ := histR_facts R hn hu
  obtain ⟨l2, s2⟩ := histR_facts R hn hw
  obtain ⟨l3, s3⟩ := hist2R_facts R hn hu hw
  have n1 := entropy_near R hl ho s1 (D := D) (by rwa [l1])
  have n2 := entropy_near R hl ho s2 (D := D) (by rwa [l2])
  have n3 := entropy_near R hl ho s3 (D := D) (by rwa [l3])
  rw [histR_entropy R hn hu] at n1
  rw [histR_entropy R hn hw] at n2
  rw [hist2R_entropy R hn hu hw] at n3
  have b1 := labR_log R hu hw
  have b2 := labR_log R hw hu
  exact ⟨near_size n1 (by linarith [b1.1]), near_size n2 (by linarith [b2.1]), near_size n3 (by linarith [b1.2])⟩

/-- C113. Mutual information as computed differs from its value for the bins by at most a few roundings. -/
theorem mi_entropy_round (R : Rounding fl) {κ D : Nat} (hl : LogAcc κ ln) (ho : IsSum ord) {n : Nat} (hn : 2 ≤ n) {b : Int} (hb : 1 ≤ b)
    {u w : Fin n → ℝ} (hu : Fit fl b.toNat (List.ofFn u)) (hw : Fit fl b.toNat (List.ofFn w)) (hD : Depth ord b.toNat D)
    (hD2 : Depth ord (b.toNat * b.toNat) D) (hk : (3 * D + 10 + κ : ℕ) * u64 ≤ 1 / 2) :
    ∃ r r', mutualInfoF fl ln ord b false (sample u) (sample w) = .ok (.fin r) ∧
      mutualInfoR fl b false (sample u) (sample w) = .ok (.fin r') ∧
      |r - r'| ≤ 2 * (3 * D + 10 + κ : ℕ) * u64 * (4 * Real.log b + 3) := by
  obtain ⟨n1, n2, n3⟩ := ents_near R hl ho (by omega) hu hw hD hD2
  have hcast : ((b.toNat : ℕ) : ℝ) = b := by
    have : ((b.toNat : ℤ) : ℝ) = b := by rw [Int.toNat_of_nonneg (by omega)]
    exact_mod_cast this
  rw [hcast] at n1 n2 n3
  refine ⟨_, _, (infoF_eq hn hb u w).1 false, (infoR_eq R hn hb hu hw false).1, ?_⟩
  have := near_rd R ((near_rd R (n1.add n2)).sub (near_up n3 (Nat.le_succ _)))
  refine (near_size this (q := 4 * Real.log b + 3) (by linarith)).2.2.trans ?_
  have e : 3 * D + 8 + κ + 1 + 1 = 3 * D + 10 + κ := by omega
  rw [e]
  refine mul_le_mul_of_nonneg_right (wu_small hk) ?_
  have : 0 ≤ Real.log b := Real.log_nonneg (by exact_mod_cast hb)
  linarith

/-- C113. The same for the variation of information. -/
theorem vi_entropy_round (R : Rounding fl) {κ D : Nat} (hl : LogAcc κ ln) (ho : IsSum ord) {n : Nat} (hn : 2 ≤ n) {b : Int} (hb : 1 ≤ b)
    {u w : Fin n → ℝ} (hu : Fit fl b.toNat (List.ofFn u)) (hw : Fit fl b.toNat (List.ofFn w)) (hD : Depth ord b.toNat D)
    (hD2 : Depth ord (b.toNat * b.toNat) D) (hk : (3 * D + 11 + κ : ℕ) * u64 ≤ 1 / 2) :
    ∃ r r', varInfoF fl ln ord b false (sample u) (sample w) = .ok (.fin r) ∧
      varInfoR fl b false (sample u) (sample w) = .ok (.fin r') ∧
      |r - r'| ≤ 2 * (3 * D + 11 + κ : ℕ) * u64 * (6 * Real.log b + 4) := by
  obtain ⟨n1, n2, n3⟩ := ents_near R hl ho (by omega) hu hw hD hD2
  have hcast : ((b.toNat : ℕ) : ℝ) = b := by
    have : ((b.toNat : ℤ) : ℝ) = b := by rw [Int.toNat_of_nonneg (by omega)]
    exact_mod_cast this
  rw [hcast] at n1 n2 n3
  refine ⟨_, _, (infoF_eq hn hb u w).2 false, (infoR_eq R hn hb hu hw false).2, ?_⟩
  have two : Near (wu ^ (3 * D + 8 + κ)) (2 * ent2 fl ln ord b.toNat u w)
      (2 * H fun i => (labR fl b.toNat u i, labR fl b.toNat w i)) ((2 * Real.log b + 1) + (2 * Real.log b + 1)) := by
    rw [two_mul (ent2 _ _ _ _ _ _), two_mul (H _)]
    exact n3.add n3
  have := near_rd R ((near_rd R ((near_rd R two).sub (near_up n1 (Nat.le_succ _)))).sub (near_up n2 (by omega)))
  refine (near_size this (q := 6 * Real.log b + 4) (by linarith)).2.2.trans ?_
  have e : 3 * D + 8 + κ + 1 + 1 + 1 = 3 * D + 11 + κ := by omega
  rw [e]
  refine mul_le_mul_of_nonneg_right (wu_small hk) ?_
  have : 0 ≤ Real.log b := Real.log_nonneg (by exact_mod_cast hb)
  linarith

end Verif.Info
