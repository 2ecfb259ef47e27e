import Verif.Props.EntMeasures

/-!
# C113: normalised measures and divergence with rounded entropies
-/

namespace Verif.Info

open Verif.Round Verif.Ent
open Verif.Sim (Near IsSum perm_map)
open Verif.Props.Cusum (Within)

variable {fl ln : ℝ → ℝ} {ord : List ℝ → SumTree}

/-! ### Without rounding -/

theorem entropyR_id (ho : IsSum ord) {h : List Nat} (hne : h ≠ []) : entropyR id Real.log ord (normaliseR id h) = entropy (normalise h) := by
  have e : normaliseR id h = normalise h := rfl
  have hne' : normalise h ≠ [] := by unfold normalise; simpa using hne
  rw [e]
  unfold entropyR entropy
  rw [round_sum_id_agrees.1, round_sum_id_agrees.1, (ho _ hne').sum_eq, (ho _ (by simpa using hne')).sum_eq]
  congr 1
  apply List.map_congr_left
  intro p _
  unfold entrR Real.negMulLog
  split
  · rename_i h0
    have h0 : p / (normalise h).sum = 0 := h0
    rw [h0]; simp
  · rfl

/-- C113. Without rounding the model is the one with exact entropies. -/
theorem entropy_round_id (ho : IsSum ord) (b : Int) (norm : Bool) (x y : List XF) :
    mutualInfoF id Real.log ord b norm x y = mutualInfoR id b norm x y ∧ varInfoF id Real.log ord b norm x y = varInfoR id b norm x y := by
  have hrnd : ∀ x, rnd id x = x := by
    intro x
    cases x <;> rfl
  have he : computeEntropiesF id Real.log ord x y b = computeEntropiesR id x y b := by
    unfold computeEntropiesF computeEntropiesR
    cases validate1D x with
    | error e => rfl
    | ok _ =>
      cases validate1D y with
      | error e => rfl
      | ok _ =>
        simp only [bind, Except.bind]
        cases finiteList x with
        | none => rfl
        | some x =>
          cases finiteList y with
          | none => rfl
          | some y =>
            dsimp only
            split
            · rfl
            · split
              · rfl
              · rename_i hb
                have h1 : ∀ x, histR id b.toNat x ≠ [] := by
                  intro x hc
                  have := congrArg List.length hc
                  simp [histR] at this
                  omega
                have h2 : hist2R id b.toNat x y ≠ [] := by
                  intro hc
                  have := congrArg List.length hc
                  simp [hist2R, List.length_flatMap] at this
                  omega
                rw [entropyR_id ho (h1 x), entropyR_id ho (h1 y), entropyR_id ho h2]
  unfold mutualInfoF mutualInfoR varInfoF varInfoR
  rw [he]
  simp only [hrnd, id]
  refine ⟨?_, ?_⟩ <;> first | rfl | trivial

/-! ### Normalised measures -/

theorem logAcc_exact : LogAcc 0 Real.log := fun _ _ => Within.refl _

theorem entropy_zero (ho : IsSum ord) {h : List Nat} (hs : 0 < h.sum) {D : Nat} (hD : Depth ord h.length D) (hk : (D + 3 : ℕ) * u64 ≤ 1 / 4) :
    entropy (normalise h) = 0 ↔ h.sum ∈ h := by
  rw [← entropyR_id ho (hist_ne hs)]
  exact entropy_round_zero id_rounding logAcc_exact ho hs hD hk

theorem ents_sign (R : Rounding fl) {κ D : Nat} (hl : LogAcc κ ln) (ho : IsSum ord) {n : Nat} (hn : 0 < n) {b : Nat} {u w : Fin n → ℝ}
    (hu : Fit fl b (List.ofFn u)) (hw : Fit fl b (List.ofFn w)) (hD : Depth ord b D) (hD2 : Depth ord (b * b) D)
    (hk : (D + 3 : ℕ) * u64 ≤ 1 / 4) :
    (0 ≤ ent1 fl ln ord b u ∧ (ent1 fl ln ord b u = 0 ↔ b = 1 ∨ ∀ i j, u i = u j)) ∧
    0 ≤ ent2 fl ln ord b u w ∧ (ent2 fl ln ord b u w = 0 ↔ b = 1 ∨ ((∀ i j, u i = u j) ∧ ∀ i j, w i = w j)) := by
  obtain ⟨l1, s1⟩ := histR_facts R hn hu
  obtain ⟨l3, s3⟩ := hist2R_facts R hn hu hw
  refine ⟨⟨entropy_round_nonneg R hl ho s1, ?_⟩, entropy_round_nonneg R hl ho s3, ?_⟩
  · unfold ent1
    rw [entropy_round_zero R hl ho s1 (by rwa [l1]) hk, ← entropy_zero ho s1 (by rwa [l1]) hk, histR_entropy R hn hu, H_eq_zero_iff,
      one_binR_iff R hu]
  · unfold ent2
    rw [entropy_round_zero R hl ho s3 (by rwa [l3]) hk, ← entropy_zero ho s3 (by rwa [l3]) hk, hist2R_entropy R hn hu hw, H_eq_zero_iff]
    have h1 := one_binR_iff R hu
    have h2 := one_binR_iff R hw
    simp only [Prod.mk.injEq]
    constructor
    · intro h
      have a1 := h1.mp fun i j => (h i j).1
      have a2 := h2.mp fun i j => (h i j).2
      by_cases hb : b = 1
      · exact .inl hb
      · exact .inr ⟨a1.resolve_left hb, a2.resolve_left hb⟩
    · rintro (h | ⟨h, h'⟩) i j
      · exact ⟨h1.mpr (.inl h) i j, h2.mpr (.inl h) i j⟩
      · exact ⟨h1.mpr (.inr h) i j, h2.mpr (.inr h') i j⟩

/-- C113. Normalised mutual information: a number exactly if neither sample falls into one bin. Otherwise the computed entropies of the
other sample and of the pair are compared: equal ones give `nan`, different ones an infinity. -/
theorem mi_norm_round (R : Rounding fl) {κ D : Nat} (hl : LogAcc κ ln) (ho : IsSum ord) {n : Nat} (hn : 2 ≤ n) {b : Int} (hb : 1 ≤ b)
    {u w : Fin n → ℝ} (hu : Fit fl b.toNat (List.ofFn u)) (hw : Fit fl b.toNat (List.ofFn w)) (hD : Depth ord b.toNat D)
    (hD2 : Depth ord (b.toNat * b.toNat) D) (hk : (D + 3 : ℕ) * u64 ≤ 1 / 4) {mi : ℝ}
    (hm : mutualInfoF fl ln ord b false (sample u) (sample w) = .ok (.fin mi)) :
    (¬ (b = 1 ∨ (∀ i j, u i = u j) ∨ ∀ i j, w i = w j) → ∃ r, mutualInfoF fl ln ord b true (sample u) (sample w) = .ok (.fin r)) ∧
    (b = 1 ∨ (∀ i j, u i = u j) ∨ (∀ i j, w i = w j) →
      mutualInfoF fl ln ord b true (sample u) (sample w) = .ok (if mi = 0 then .nan else if 0 < mi then .pinf else .ninf)) := by
  obtain ⟨⟨n1, z1⟩, -, -⟩ := ents_sign R hl ho (by omega) hu hw hD hD2 hk
  obtain ⟨⟨n2, z2⟩, -, -⟩ := ents_sign R hl ho (by omega) hw hu hD hD2 hk
  have hb1 : b.toNat = 1 ↔ b = 1 := by omega
  rw [hb1] at z1 z2
  rw [(infoF_eq hn hb u w).1] at hm
  simp only [Bool.false_eq_true, if_false, Except.ok.injEq, XF.fin.injEq] at hm
  rw [(infoF_eq hn hb u w).1]
  simp only [if_true, hm]
  set e1 := ent1 fl ln ord b.toNat u
  set e2 := ent1 fl ln ord b.toNat w
  constructor
  · intro h
    have p1 : 0 < e1 := lt_of_le_of_ne n1 fun e => h ((z1.mp e.symm).imp id .inl)
    have p2 : 0 < e2 := lt_of_le_of_ne n2 fun e => h ((z2.mp e.symm).imp id .inr)
    have hd : fl (Real.sqrt (fl (e1 * e2))) ≠ 0 := (R.pos (Real.sqrt_pos.mpr (R.pos (mul_pos p1 p2)))).ne'
    exact ⟨_, by unfold divX; rw [if_neg hd]; rfl⟩
  · intro h
    have hz : e1 * e2 = 0 := by
      rcases h with h | h | h
      · rw [z1.mpr (.inl h), zero_mul]
      · rw [z1.mpr (.inr h), zero_mul]
      · rw [z2.mpr (.inr h), mul_zero]
    rw [hz, R.zero, Real.sqrt_zero, R.zero]
    unfold divX
    rw [if_pos rfl]
    split
    · rfl
    · split <;> rfl

/-- C113. Normalised variation of information: `nan` exactly if both samples fall into one bin, otherwise a number. -/
theorem vi_norm_round (R : Rounding fl) {κ D : Nat} (hl : LogAcc κ ln) (ho : IsSum ord) {n : Nat} (hn : 2 ≤ n) {b : Int} (hb : 1 ≤ b)
    {u w : Fin n → ℝ} (hu : Fit fl b.toNat (List.ofFn u)) (hw : Fit fl b.toNat (List.ofFn w)) (hD : Depth ord b.toNat D)
    (hD2 : Depth ord (b.toNat * b.toNat) D) (hk : (D + 3 : ℕ) * u64 ≤ 1 / 4) :
    (b = 1 ∨ ((∀ i j, u i = u j) ∧ ∀ i j, w i = w j) → varInfoF fl ln ord b true (sample u) (sample w) = .ok .nan) ∧
    (¬ (b = 1 ∨ ((∀ i j, u i = u j) ∧ ∀ i j, w i = w j)) → ∃ r, varInfoF fl ln ord b true (sample u) (sample w) = .ok (.fin r)) := by
  obtain ⟨⟨-, z1⟩, -, z3⟩ := ents_sign R hl ho (by omega) hu hw hD hD2 hk
  obtain ⟨⟨-, z2⟩, -, -⟩ := ents_sign R hl ho (by omega) hw hu hD hD2 hk
  have hb1 : b.toNat = 1 ↔ b = 1 := by omega
  rw [hb1] at z1 z2 z3
  rw [(infoF_eq hn hb u w).2]
  simp only [if_true]
  constructor
  · intro h
    have a1 := z1.mpr (h.imp id And.left)
    have a2 := z2.mpr (h.imp id And.right)
    rw [z3.mpr h, a1, a2]
    simp [R.zero, divX, rnd]
  · intro h
    have : ent2 fl ln ord b.toNat u w ≠ 0 := fun e => h (z3.mp e)
    exact ⟨_, by unfold divX; rw [if_neg this]; rfl⟩

theorem quot_err {v v' h h' e s : ℝ} (hh : 0 < h) (hh' : h / 2 ≤ h') (hv : |v' - v| ≤ e) (he : |h' - h| ≤ s) (h0 : 0 ≤ v) (h1 : v ≤ h) :
    |v' / h' - v / h| ≤ 2 * (e + s) / h := by
  have hp : 0 < h' := by linarith
  have e1 : v' / h' - v / h = ((v' - v) + (v / h) * (h - h')) / h' := by field_simp; ring
  have hq : |v / h| ≤ 1 := by rw [abs_of_nonneg (div_nonneg h0 hh.le), div_le_one hh]; exact h1
  have e2 : |(v' - v) + (v / h) * (h - h')| ≤ e + s := by
    refine (abs_add_le _ _).trans (add_le_add hv ?_)
    rw [abs_mul, abs_sub_comm h h']
    calc _ ≤ 1 * |h' - h| := mul_le_mul_of_nonneg_right hq (abs_nonneg _)
      _ ≤ s := by linarith
  rw [e1, abs_div, abs_of_pos hp, div_le_div_iff₀ hp hh]
  have := (abs_nonneg _).trans e2
  nlinarith

/-- C113. The error of the normalised variation of information, relative to the joint entropy. -/
theorem vi_norm_entropy_round (R : Rounding fl) {κ D : Nat} (hl : LogAcc κ ln) (ho : IsSum ord) {n : Nat} (hn : 2 ≤ n) {b : Int} (hb : 1 ≤ b)
    {u w : Fin n → ℝ} (hu : Fit fl b.toNat (List.ofFn u)) (hw : Fit fl b.toNat (List.ofFn w)) (hD : Depth ord b.toNat D)
    (hD2 : Depth ord (b.toNat * b.toNat) D) {hx hy hxy : ℝ} (he : computeEntropiesR fl (sample u) (sample w) b = .ok (hx, hy, hxy))
    (hpos : 0 < hxy) (hk : 4 * (3 * D + 11 + κ : ℕ) * u64 * (2 * Real.log b + 1) ≤ hxy) (hk' : (3 * D + 11 + κ : ℕ) * u64 ≤ 1 / 8) :
    ∃ r r', varInfoF fl ln ord b true (sample u) (sample w) = .ok (.fin r) ∧
      varInfoR fl b true (sample u) (sample w) = .ok (.fin r') ∧
      |r - r'| ≤ 6 * (3 * D + 11 + κ : ℕ) * u64 * (8 * Real.log b + 5) / hxy := by
  obtain ⟨n1, n2, n3⟩ := ents_near R hl ho (by omega) hu hw hD hD2
  have hcast : ((b.toNat : ℕ) : ℝ) = b := by
    have : ((b.toNat : ℤ) : ℝ) = b := by rw [Int.toNat_of_nonneg (by omega)]
    exact_mod_cast this
  rw [ent_eqR R hn hb hu hw] at he
  simp only [Except.ok.injEq, Prod.mk.injEq] at he
  obtain ⟨e1, e2, e3⟩ := he
  have hup : hxy ≤ 2 * Real.log b := by rw [← e3, ← hcast]; exact (labR_log R hu hw).2
  have hle1 := H_le_pair_left (labR fl b.toNat u) (labR fl b.toNat w)
  have hle2 := H_le_pair_right (labR fl b.toNat u) (labR fl b.toNat w)
  have hsub := H_pair_le (labR fl b.toNat u) (labR fl b.toNat w)
  have hn1 := H_nonneg (labR fl b.toNat u)
  have hn2 := H_nonneg (labR fl b.toNat w)
  have hm := vi_entropy_round R hl ho hn hb hu hw hD hD2 (by linarith)
  rw [(infoF_eq hn hb u w).2, (infoR_eq R hn hb hu hw false).2, e1, e2, e3] at hm
  rw [hcast] at n3
  rw [(infoF_eq hn hb u w).2, (infoR_eq R hn hb hu hw true).2, e1, e2, e3]
  rw [e1, e3] at hle1
  rw [e2, e3] at hle2
  rw [e1, e2, e3] at hsub
  rw [e1] at hn1
  rw [e2] at hn2
  rw [e3] at n3
  simp only [Bool.false_eq_true, if_false, if_true, Except.ok.injEq, XF.fin.injEq] at hm ⊢
  set m : ℕ := 3 * D + 11 + κ with hmdef
  obtain ⟨r, r', h1, h2, h3⟩ := hm
  set ex := ent2 fl ln ord b.toNat u w
  have hm0 : (1 : ℝ) ≤ m := by
    have : (1 : ℕ) ≤ m := by omega
    exact_mod_cast this
  have hlog : 0 ≤ Real.log b := Real.log_nonneg (by exact_mod_cast hb)
  have hs : |ex - hxy| ≤ 2 * m * u64 * (2 * Real.log b + 1) := by
    refine (near_up n3 (show 3 * D + 8 + κ ≤ m by omega)).2.2.trans ?_
    exact mul_le_mul_of_nonneg_right (wu_small (by linarith)) (by linarith)
  have hex : hxy / 2 ≤ ex := by
    have := (abs_le.mp hs).1
    linarith
  have hq := quot_err hpos hex h3 hs (v := r') (by rw [← h2]; linarith) (by rw [← h2]; linarith)
  have hq1 : |r' / hxy| ≤ 1 := by
    rw [abs_of_nonneg (div_nonneg (by rw [← h2]; linarith) hpos.le), div_le_one hpos]
    rw [← h2]; linarith
  have hexp : 0 < ex := by linarith
  refine ⟨fl (r / ex), r' / hxy, ?_, ?_, ?_⟩
  · rw [h1]; unfold divX; rw [if_neg hexp.ne']; rfl
  · rw [h2]; unfold divX; rw [if_neg hpos.ne']
  · have hr := R.rel (r / ex)
    set q := r / ex
    set q' := r' / hxy
    set S := 8 * Real.log b + 5 with hS
    have hu := u64_pos
    have hq2 : |q - q'| ≤ 4 * m * u64 * S / hxy := by
      refine hq.trans (le_of_eq ?_)
      rw [hS]; ring
    have hqs : |q| ≤ 1 + 4 * m * u64 * S / hxy := by
      have := abs_add_le (q - q') q'
      rw [sub_add_cancel] at this
      linarith
    have hSh : 4 ≤ S / hxy := by rw [le_div_iff₀ hpos]; linarith
    have hA : 4 * m * u64 * S / hxy = 4 * (m * u64) * (S / hxy) := by ring
    have hB : 6 * m * u64 * S / hxy = 6 * (m * u64) * (S / hxy) := by ring
    rw [hA] at hq2 hqs
    rw [hB]
    have hmu : u64 ≤ m * u64 := by nlinarith
    have htri : |fl q - q'| ≤ |fl q - q| + |q - q'| := by
      have := abs_add_le (fl q - q) (q - q')
      rwa [sub_add_sub_cancel] at this
    have h5 : u64 * |q| ≤ u64 * (1 + 4 * (m * u64) * (S / hxy)) := mul_le_mul_of_nonneg_left hqs hu.le
    have h6 : u64 * (4 * (m * u64) * (S / hxy)) ≤ 1 / 1000 * (4 * (m * u64) * (S / hxy)) :=
      mul_le_mul_of_nonneg_right u64_small (by positivity)
    have h7 : (m * u64) * 4 ≤ (m * u64) * (S / hxy) := mul_le_mul_of_nonneg_left hSh (by positivity)
    nlinarith

/-! ### Divergence -/

/-- The divergence of two histograms in exact arithmetic. -/
noncomputable def klCounts (h g : List Nat) : ℝ := (List.zipWith klTerm (normalise h) (normalise g)).sum

theorem klF_eq {n m : Nat} (hn : 2 ≤ n) (hm : 2 ≤ m) {b : Int} (hb : 1 ≤ b) (u : Fin n → ℝ) (w : Fin m → ℝ) :
    klDivergenceF fl ln ord b (sample u) (sample w) =
      .ok ((ord (List.zipWith (klTermR fl ln) (normaliseR fl (histR fl b.toNat (List.ofFn u)))
        (normaliseR fl (histR fl b.toNat (List.ofFn w))))).eval fl) := by
  unfold klDivergenceF validate1D
  rw [sample_length, sample_length, if_neg (by omega), if_neg (by omega), finiteList_sample, finiteList_sample]
  simp only [bind, Except.bind]
  rw [if_neg (by omega)]

/-- C113. The computed divergence of a sample from itself, and of samples with the same histogram, is exactly zero. -/
theorem kl_round_self (R : Rounding fl) (hl : ln 1 = 0) (ho : IsSum ord) {n : Nat} (hn : 2 ≤ n) {b : Int} (hb : 1 ≤ b) (u : Fin n → ℝ) :
    klDivergenceF fl ln ord b (sample u) (sample u) = .ok 0 := by
  rw [klF_eq hn hn hb]
  congr 1
  have hne : List.zipWith (klTermR fl ln) (normaliseR fl (histR fl b.toNat (List.ofFn u))) (normaliseR fl (histR fl b.toNat (List.ofFn u))) ≠ [] := by
    intro hc
    have := congrArg List.length hc
    simp [normaliseR, histR] at this
    omega
  have hz : ∀ z ∈ (ord (List.zipWith (klTermR fl ln) (normaliseR fl (histR fl b.toNat (List.ofFn u)))
      (normaliseR fl (histR fl b.toNat (List.ofFn u))))).leaves, z = 0 := by
    intro z hz
    have hz := (ho _ hne).mem_iff.mp hz
    rw [List.zipWith_self] at hz
    obtain ⟨p, -, rfl⟩ := List.mem_map.mp hz
    unfold klTermR
    split
    · rename_i h
      rw [div_self h.1, R.one, hl, mul_zero, R.zero]
    · rfl
  exact (Verif.Sim.SumTree.eval_zero R _ fun z h => (hz z h).ge).mpr hz

theorem log_near {k : Nat} {q p : ℝ} (h : Within k q p) (h0 : 0 < p) : Near (wu ^ k) (Real.log q) (Real.log p) (|Real.log p| + 1) := by
  obtain ⟨r, rfl, h1, h2⟩ := h
  obtain ⟨h1, h2⟩ := within_ratio h1 h2
  have hg := wu_pow_one k
  have hr : 0 < r := lt_of_lt_of_le (by positivity) h1
  refine ⟨hg, by linarith, ?_⟩
  have hlog : |Real.log r| ≤ wu ^ k - 1 := by
    rw [abs_le]
    constructor
    · have := Real.log_le_sub_one_of_pos (inv_pos.mpr hr)
      rw [Real.log_inv] at this
      have : r⁻¹ ≤ wu ^ k := by rw [inv_le_comm₀ hr (by linarith)]; exact h1
      linarith
    · linarith [Real.log_le_sub_one_of_pos hr]
  rw [Real.log_mul hr.ne' h0.ne', add_sub_cancel_right]
  nlinarith [abs_nonneg (Real.log p)]

theorem klTerm_near (R : Rounding fl) {κ : Nat} (hl : LogAcc κ ln) {p q : ℝ} (hp : 0 ≤ p) (hq : 0 ≤ q) {B : ℝ} (hB : 0 ≤ B)
    (hlog : 0 < p → 0 < q → |Real.log (p / q)| ≤ B) :
    Near (wu ^ (5 + κ)) (klTermR fl ln (fl p) (fl q)) (klTerm p q) (p * (B + 1)) := by
  unfold klTermR klTerm
  by_cases h : p ≠ 0 ∧ q ≠ 0
  · have p0 : 0 < p := lt_of_le_of_ne hp (Ne.symm h.1)
    have q0 : 0 < q := lt_of_le_of_ne hq (Ne.symm h.2)
    rw [if_pos h, if_pos ⟨(R.pos p0).ne', (R.pos q0).ne'⟩]
    have w1 : Within 1 (fl p) p := (Within.refl _).rd R
    have w2 : Within 1 (fl q) q := (Within.refl _).rd R
    have w3 : Within 3 (fl (fl p / fl q)) (p / q) := (w1.div w2).rd R
    have l1 := log_near w3 (div_pos p0 q0)
    have l2 := within_near (hl _ (w3.pos_iff.mpr (div_pos p0 q0))) l1
    have l3 : Near (wu ^ 1) (fl p) p p := by
      have := within_near w1 (Near.refl p)
      rwa [mul_one, abs_of_pos p0] at this
    have l4 := l3.mul l2
    have l5 : Near (wu ^ (4 + κ)) (fl p * ln (fl (fl p / fl q))) (p * Real.log (p / q)) (p * (|Real.log (p / q)| + 1)) := by
      refine l4.mono (le_of_eq ?_)
      rw [← pow_add, ← pow_add]
      congr 1
      omega
    have := near_rd R l5
    rw [show 4 + κ + 1 = 5 + κ by omega] at this
    exact near_size this (mul_le_mul_of_nonneg_left (by linarith [hlog p0 q0]) hp)
  · have h' : ¬ (fl p ≠ 0 ∧ fl q ≠ 0) := fun h' => h ⟨fun e => h'.1 (by rw [e, R.zero]), fun e => h'.2 (by rw [e, R.zero])⟩
    rw [if_neg h, if_neg h']
    exact ⟨wu_pow_one _, by simp; positivity, by
      rw [sub_zero, abs_zero]; exact mul_nonneg (by linarith [wu_pow_one (5 + κ)]) (by positivity)⟩

theorem sum_counts_le (l : List Nat) (b : Nat) : ((List.range b).map fun k => l.count k).sum ≤ l.length := by
  induction l with
  | nil => simp
  | cons a l ih =>
    have e : ((List.range b).map fun k => (a :: l).count k) = (List.range b).map fun k => l.count k + if k = a then 1 else 0 := by
      apply List.map_congr_left
      intro k _
      rw [List.count_cons]
      by_cases h : a = k
      · subst h; simp
      · rw [if_neg (by simpa using h), if_neg (Ne.symm h)]
    have h2 : ∀ m : Nat, ((List.range m).map fun k => if k = a then 1 else 0).sum ≤ 1 ∧
        (m ≤ a → ((List.range m).map fun k => if k = a then 1 else 0).sum = 0) := by
      intro m
      induction m with
      | zero => simp
      | succ m ih =>
        rw [List.range_succ, List.map_append, List.sum_append]
        by_cases hm : m = a
        · have := ih.2 (by omega)
          simp [hm] at this ⊢
          omega
        · have h1 := ih.1
          have h3 := ih.2
          simp only [List.map_cons, List.map_nil, if_neg hm, List.sum_cons, List.sum_nil]
          exact ⟨by omega, fun h => by have := h3 (by omega); omega⟩
    have h3 := (h2 b).1
    have h4 : ((List.range b).map fun k => l.count k + if k = a then 1 else 0).sum =
        ((List.range b).map fun k => l.count k).sum + ((List.range b).map fun k => if k = a then 1 else 0).sum := List.sum_map_add
    rw [e, h4, List.length_cons]
    omega

theorem histR_sum_le (b : Nat) {n : Nat} (u : Fin n → ℝ) : (histR fl b (List.ofFn u)).sum ≤ n := by
  have := sum_counts_le ((List.ofFn u).map (binR1 fl (outerR fl (List.ofFn u)).1 (outerR fl (List.ofFn u)).2 b)) b
  rwa [List.length_map, List.length_ofFn] at this

theorem log_ratio {c d N M T : Nat} (hc : 0 < c) (hd : 0 < d) (hcN : c ≤ N) (hdM : d ≤ M) (hN : N ≤ T) (hM : M ≤ T) :
    |Real.log ((c : ℝ) / N / ((d : ℝ) / M))| ≤ Real.log T := by
  have c0 : (0 : ℝ) < c := by exact_mod_cast hc
  have d0 : (0 : ℝ) < d := by exact_mod_cast hd
  have c1 : (1 : ℝ) ≤ c := by exact_mod_cast hc
  have d1 : (1 : ℝ) ≤ d := by exact_mod_cast hd
  have hcN' : (c : ℝ) ≤ N := by exact_mod_cast hcN
  have hdM' : (d : ℝ) ≤ M := by exact_mod_cast hdM
  have hN' : (N : ℝ) ≤ T := by exact_mod_cast hN
  have hM' : (M : ℝ) ≤ T := by exact_mod_cast hM
  have n0 : (0 : ℝ) < N := by linarith
  have m0 : (0 : ℝ) < M := by linarith
  have t0 : (0 : ℝ) < T := by linarith
  have hq : (c : ℝ) / N / ((d : ℝ) / M) = (c * M) / (N * d) := by field_simp
  rw [hq, abs_le]
  constructor
  · rw [← Real.log_inv]
    apply Real.log_le_log (by positivity)
    rw [inv_le_iff_one_le_mul₀' t0, ← mul_div_assoc, le_div_iff₀ (by positivity)]
    have h1 : (N : ℝ) * d ≤ T * M := mul_le_mul hN' hdM' d0.le t0.le
    have h2 : (T : ℝ) * M * 1 ≤ T * M * c := mul_le_mul_of_nonneg_left c1 (by positivity)
    nlinarith
  · apply Real.log_le_log (by positivity)
    rw [div_le_iff₀ (by positivity)]
    have h1 : (c : ℝ) * M ≤ N * T := mul_le_mul hcN' hM' m0.le n0.le
    have h2 : (N : ℝ) * T * 1 ≤ N * T * d := mul_le_mul_of_nonneg_left d1 (by positivity)
    nlinarith

theorem zip_map_eq (f : ℝ → ℝ → ℝ) (F G : Nat → ℝ) (h g : List Nat) :
    List.zipWith f (h.map F) (g.map G) = (h.zip g).map fun z => f (F z.1) (G z.2) := by
  rw [List.zipWith_map, List.zip, List.map_zipWith]

theorem zip_sum_le {h g : List Nat} (F : Nat → ℝ) (hF : ∀ c, 0 ≤ F c) : ((h.zip g).map fun z => F z.1).sum ≤ (h.map F).sum := by
  induction h generalizing g with
  | nil => simp
  | cons a h ih =>
    cases g with
    | nil =>
      simp only [List.zip_nil_right, List.map_nil, List.sum_nil]
      exact List.sum_nonneg fun x hx => by
        obtain ⟨c, -, rfl⟩ := List.mem_map.mp hx
        exact hF c
    | cons d g => simp only [List.zip_cons_cons, List.map_cons, List.sum_cons]; linarith [ih (g := g)]

/-- C113. The error of the computed divergence. -/
theorem kl_entropy_round (R : Rounding fl) {κ D : Nat} (hl : LogAcc κ ln) (ho : IsSum ord) {n m : Nat} (hn : 2 ≤ n) (hm : 2 ≤ m) {b : Int}
    (hb : 1 ≤ b) {u : Fin n → ℝ} {w : Fin m → ℝ} (hu : Fit fl b.toNat (List.ofFn u)) (hw : Fit fl b.toNat (List.ofFn w))
    (hD : Depth ord b.toNat D) (hk : (D + 5 + κ : ℕ) * u64 ≤ 1 / 2) :
    ∃ r, klDivergenceF fl ln ord b (sample u) (sample w) = .ok r ∧
      |r - klCounts (histR fl b.toNat (List.ofFn u)) (histR fl b.toNat (List.ofFn w))| ≤
        2 * (D + 5 + κ : ℕ) * u64 * (Real.log (max n m : ℕ) + 1) := by
  refine ⟨_, klF_eq hn hm hb u w, ?_⟩
  obtain ⟨l1, s1⟩ := histR_facts R (show 0 < n by omega) hu
  obtain ⟨l2, s2⟩ := histR_facts R (show 0 < m by omega) hw
  have t1 := (histR_sum_le (fl := fl) b.toNat u).trans (le_max_left n m)
  have t2 := (histR_sum_le (fl := fl) b.toNat w).trans (le_max_right n m)
  have hT : (1 : ℝ) ≤ (max n m : ℕ) := by
    have : 1 ≤ max n m := by omega
    exact_mod_cast this
  unfold klCounts
  generalize histR fl b.toNat (List.ofFn u) = h at *
  generalize histR fl b.toNat (List.ofFn w) = g at *
  generalize hTd : max n m = T at *
  have hB := Real.log_nonneg hT
  unfold normaliseR normalise
  rw [zip_map_eq, zip_map_eq]
  have hne : (h.zip g).map (fun z => klTermR fl ln (fl ((z.1 : ℝ) / (h.sum : ℝ))) (fl ((z.2 : ℝ) / (g.sum : ℝ)))) ≠ [] := by
    intro hc
    have := congrArg List.length hc
    simp [l1, l2] at this
    omega
  obtain ⟨l, hl', hp⟩ := perm_map (ho _ hne)
  have hsum := near_sum R (g := wu ^ (5 + κ)) (A := fun z : Nat × Nat => klTerm ((z.1 : ℝ) / (h.sum : ℝ)) ((z.2 : ℝ) / (g.sum : ℝ)))
    (p := fun z : Nat × Nat => ((z.1 : ℝ) / (h.sum : ℝ)) * (Real.log T + 1)) _ l hl' fun z hz => by
      have hz := hp.mem_iff.mp hz
      have m1 := (List.of_mem_zip hz).1
      have m2 := (List.of_mem_zip hz).2
      refine klTerm_near R hl (by positivity) (by positivity) hB fun p1 p2 => ?_
      have s1' : (0 : ℝ) < h.sum := by exact_mod_cast s1
      have s2' : (0 : ℝ) < g.sum := by exact_mod_cast s2
      refine log_ratio ?_ ?_ (List.single_le_sum (fun _ _ => Nat.zero_le _) _ m1) (List.single_le_sum (fun _ _ => Nat.zero_le _) _ m2) t1 t2
      · rcases Nat.eq_zero_or_pos z.1 with e | e
        · rw [e] at p1; simp at p1
        · exact e
      · rcases Nat.eq_zero_or_pos z.2 with e | e
        · rw [e] at p2; simp at p2
        · exact e
  rw [(hp.map _).sum_eq, (hp.map _).sum_eq] at hsum
  have hmul : ((h.zip g).map fun z : Nat × Nat => ((z.1 : ℝ) / (h.sum : ℝ)) * (Real.log T + 1)).sum ≤ Real.log T + 1 := by
    rw [List.sum_map_mul_right]
    have h1 := zip_sum_le (h := h) (g := g) (fun c : Nat => (c : ℝ) / (h.sum : ℝ)) fun c => by positivity
    rw [counts_sum s1] at h1
    nlinarith
  have hfin := near_size hsum hmul
  rw [← pow_add] at hfin
  have hh : (ord ((h.zip g).map fun z => klTermR fl ln (fl ((z.1 : ℝ) / (h.sum : ℝ))) (fl ((z.2 : ℝ) / (g.sum : ℝ))))).height ≤ D :=
    hD _ (by simp [l1, l2])
  have hfin := near_up hfin (show _ ≤ D + 5 + κ by omega)
  exact hfin.2.2.trans (mul_le_mul_of_nonneg_right (wu_small hk) (by linarith))

end Verif.Info
