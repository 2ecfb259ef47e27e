import Verif.Props.Cov

/-!
# C36, C37: denoising
-/

namespace Verif.Cov

open Verif.Sim (clip1 lmean)

variable {n : Nat}

/-! ### C36: the eigenvalues -/

theorem sliceFrom_suffix {α : Type} (l : List α) (k : Int) : l.take (l.length - (sliceFrom l k).length) ++ sliceFrom l k = l := by
  have key : ∀ m, l.take (l.length - (l.drop m).length) ++ l.drop m = l := by
    intro m
    rw [List.length_drop]
    by_cases h : m ≤ l.length
    · have : l.length - (l.length - m) = m := by omega
      rw [this, List.take_append_drop]
    · rw [List.drop_eq_nil_of_le (by omega)]
      have : l.length - (l.length - m) = l.length := by omega
      rw [this, List.take_length, List.append_nil]
  unfold sliceFrom
  split
  · exact key _
  · exact key _

theorem lmean_mul_length (l : List ℝ) : l.length * lmean l = l.sum := by
  unfold lmean
  by_cases h : l = []
  · subst h; simp
  · have : (l.length : ℝ) ≠ 0 := by
      have := List.length_pos_iff.mpr h
      positivity
    field_simp

/-- C36. For every number of factors `k` (any integer) the flattened eigenvalues have the same number and the
same sum, the ones before the slice are unchanged, and the replaced ones all equal their mean. -/
theorem flatten_laws (lam : List ℝ) (k : Int) :
    (flattenTail lam k).length = lam.length ∧ (flattenTail lam k).sum = lam.sum ∧
    ∃ head tail, lam = head ++ tail ∧ tail = sliceFrom lam k ∧
      flattenTail lam k = head ++ List.replicate tail.length (lmean tail) := by
  have hs := sliceFrom_suffix lam k
  refine ⟨?_, ?_, _, _, hs.symm, rfl, rfl⟩
  · unfold flattenTail
    dsimp only
    have := congrArg List.length hs
    rw [List.length_append] at this ⊢
    rw [List.length_replicate]
    exact this
  · unfold flattenTail
    dsimp only
    rw [List.sum_append, List.sum_replicate, nsmul_eq_mul, lmean_mul_length, ← List.sum_append, hs]

theorem lmean_le {l : List ℝ} {b : ℝ} (hl : l ≠ []) (h : ∀ x ∈ l, x ≤ b) : lmean l ≤ b := by
  unfold lmean
  have hp : (0 : ℝ) < l.length := by exact_mod_cast List.length_pos_iff.mpr hl
  rw [div_le_iff₀ hp]
  have := List.sum_le_card_nsmul l b h
  rw [nsmul_eq_mul] at this
  linarith

theorem le_lmean {l : List ℝ} {b : ℝ} (hl : l ≠ []) (h : ∀ x ∈ l, b ≤ x) : b ≤ lmean l := by
  unfold lmean
  have hp : (0 : ℝ) < l.length := by exact_mod_cast List.length_pos_iff.mpr hl
  rw [le_div_iff₀ hp]
  have := List.card_nsmul_le_sum l b h
  rw [nsmul_eq_mul] at this
  linarith

/-- C36. Flattening keeps the decreasing order. -/
theorem flatten_descending {lam : List ℝ} (h : lam.Pairwise (· ≥ ·)) (k : Int) :
    (flattenTail lam k).Pairwise (· ≥ ·) := by
  obtain ⟨-, -, head, tail, h1, -, h3⟩ := flatten_laws lam k
  rw [h3, List.pairwise_append]
  rw [h1, List.pairwise_append] at h
  refine ⟨h.1, List.pairwise_replicate.mpr (Or.inr le_rfl), fun a ha b hb => ?_⟩
  have hne : tail ≠ [] := by
    intro h0
    subst h0
    simp at hb
  rw [List.eq_of_mem_replicate hb]
  exact lmean_le hne fun x hx => h.2.2 a ha x hx

/-- C36. Flattening twice with the same number of factors changes nothing more. -/
theorem flatten_idempotent (lam : List ℝ) (k : Int) : flattenTail (flattenTail lam k) k = flattenTail lam k := by
  obtain ⟨hlen, -, head, tail, h1, h2, h3⟩ := flatten_laws lam k
  obtain ⟨-, -, head', tail', h1', h2', h3'⟩ := flatten_laws (flattenTail lam k) k
  have hl : tail'.length = tail.length := by
    rw [h2', h2]
    unfold sliceFrom
    rw [hlen]
    split <;> simp [hlen]
  have ht : tail' = List.replicate tail.length (lmean tail) := by
    have : head ++ List.replicate tail.length (lmean tail) = head' ++ tail' := by rw [← h3, h1']
    exact (List.append_inj_right' this (by simp [hl])).symm
  rw [h3', ht, List.length_replicate]
  have hm : List.replicate tail.length (lmean (List.replicate tail.length (lmean tail))) =
      List.replicate tail.length (lmean tail) := by
    by_cases h0 : tail = []
    · subst h0; rfl
    · congr 1
      unfold lmean
      have : (tail.length : ℝ) ≠ 0 := by
        have := List.length_pos_iff.mpr h0
        positivity
      simp only [List.sum_replicate, List.length_replicate, nsmul_eq_mul]
      field_simp
  rw [hm]
  rw [h1', ht]

/-- C36. The in-place truncation keeps the first `num_timesteps` eigenvalues and sets the others to zero; with at
least as many time steps as assets it does nothing. -/
theorem truncate_laws (lam : List ℝ) (T : Nat) : (truncateEig lam T).length = lam.length ∧
    (truncateEig lam T).take T = lam.take T ∧ (∀ x ∈ (truncateEig lam T).drop T, x = 0) ∧
    (lam.length ≤ T → truncateEig lam T = lam) := by
  unfold truncateEig
  by_cases h : T < lam.length
  · rw [if_pos h]
    refine ⟨by simp; omega, ?_, ?_, fun h' => by omega⟩
    · rw [List.take_append_of_le_length (by simp; omega), List.take_take, Nat.min_self]
    · intro x hx
      rw [List.drop_append_of_le_length (by simp; omega), List.drop_take, Nat.sub_self, List.take_zero,
        List.nil_append] at hx
      exact List.eq_of_mem_replicate hx
  · rw [if_neg h]
    refine ⟨rfl, rfl, ?_, fun _ => rfl⟩
    rw [List.drop_eq_nil_of_le (by omega)]
    simp

/-- What a successful call returns. -/
theorem denoise_inv {lam : List ℝ} {T : Nat} {k : Option Int} {r : List ℝ × Info × List ℝ}
    (h : eigenValuesDenoise lam T k = .ok r) :
    r.1 = flattenTail (truncateEig lam T) r.2.1.k ∧ r.2.2 = truncateEig lam T := by
  unfold eigenValuesDenoise at h
  cases k with
  | some k => cases h; exact ⟨rfl, rfl⟩
  | none =>
    obtain ⟨var, -, h⟩ := Sim.bind_inv h
    cases h
    exact ⟨rfl, rfl⟩

/-- C36. With at least as many time steps as assets the denoised eigenvalues have the same sum, and the caller's
array is not changed. -/
theorem denoise_trace {lam : List ℝ} {T : Nat} {k : Option Int} {r : List ℝ × Info × List ℝ}
    (h : eigenValuesDenoise lam T k = .ok r) (hT : lam.length ≤ T) : r.1.sum = lam.sum ∧ r.2.2 = lam := by
  obtain ⟨h1, h2⟩ := denoise_inv h
  rw [h1, h2, (truncate_laws lam T).2.2.2 hT]
  exact ⟨(flatten_laws lam _).2.1, rfl⟩

/-- C36, limit. With fewer time steps than assets the sum is that of the `num_timesteps` largest eigenvalues, and
the caller's array is overwritten with zeros. -/
theorem denoise_trace_lost {lam : List ℝ} {T : Nat} {k : Option Int} {r : List ℝ × Info × List ℝ}
    (h : eigenValuesDenoise lam T k = .ok r) (hT : T < lam.length) :
    r.1.sum = (lam.take T).sum ∧ r.2.2 = lam.take T ++ List.replicate (lam.length - T) 0 := by
  obtain ⟨h1, h2⟩ := denoise_inv h
  have e : truncateEig lam T = lam.take T ++ List.replicate (lam.length - T) 0 := by
    unfold truncateEig
    rw [if_pos hT]
  rw [h1, h2, (flatten_laws _ _).2.1, e]
  simp

theorem truncate_descending {lam : List ℝ} (h : lam.Pairwise (· ≥ ·)) (h0 : ∀ x ∈ lam, 0 ≤ x) (T : Nat) :
    (truncateEig lam T).Pairwise (· ≥ ·) ∧ ∀ x ∈ truncateEig lam T, 0 ≤ x := by
  unfold truncateEig
  split
  · refine ⟨List.pairwise_append.mpr ⟨h.sublist (List.take_sublist _ _),
      List.pairwise_replicate.mpr (Or.inr le_rfl), fun a ha b hb => ?_⟩, fun x hx => ?_⟩
    · rw [List.eq_of_mem_replicate hb]
      exact h0 a (List.mem_of_mem_take ha)
    · rcases List.mem_append.mp hx with hx | hx
      · exact h0 x (List.mem_of_mem_take hx)
      · rw [List.eq_of_mem_replicate hx]
  · exact ⟨h, h0⟩

/-- C36. Non-negative decreasing eigenvalues stay non-negative and decreasing, and a fitted call returns as
retained ones exactly those at least as large as the threshold. -/
theorem denoise_order {lam : List ℝ} {T : Nat} {k : Option Int} {r : List ℝ × Info × List ℝ}
    (h : eigenValuesDenoise lam T k = .ok r) (hd : lam.Pairwise (· ≥ ·)) (h0 : ∀ x ∈ lam, 0 ≤ x) :
    r.1.Pairwise (· ≥ ·) ∧ r.1.length = lam.length ∧ ∀ x ∈ r.1, 0 ≤ x := by
  obtain ⟨h1, -⟩ := denoise_inv h
  obtain ⟨ht, ht0⟩ := truncate_descending hd h0 T
  rw [h1]
  refine ⟨flatten_descending ht _, (flatten_laws _ _).1.trans (truncate_laws lam T).1, fun x hx => ?_⟩
  obtain ⟨-, -, head, tail, e1, -, e3⟩ := flatten_laws (truncateEig lam T) r.2.1.k
  rw [e3] at hx
  rcases List.mem_append.mp hx with hx | hx
  · exact ht0 x (by rw [e1]; exact List.mem_append_left _ hx)
  · rw [List.eq_of_mem_replicate hx]
    refine le_lmean ?_ fun y hy => ht0 y (by rw [e1]; exact List.mem_append_right _ hy)
    intro hnil
    subst hnil
    simp at hx

/-- C36, limit. The fit for fewer time steps than assets reads the slice `[:num_assets - num_timesteps]` instead of
the non-zero eigenvalues: two spectra that agree on the first `num_assets - num_timesteps` values get the same
variance and threshold. With `num_assets = num_timesteps + 1` only the largest eigenvalue matters. -/
theorem fit_ignores_spectrum {lam lam' : List ℝ} {T : Nat} {r r' : List ℝ × Info × List ℝ}
    (h : eigenValuesDenoise lam T none = .ok r) (h' : eigenValuesDenoise lam' T none = .ok r')
    (hl : lam.length = lam'.length) (hT : T < lam.length)
    (hagree : lam.take (lam.length - T) = lam'.take (lam.length - T)) : r.2.1.fitted = r'.2.1.fitted := by
  have e : (truncateEig lam T).take (lam.length - T) = (truncateEig lam' T).take (lam.length - T) := by
    unfold truncateEig
    rw [if_pos hT, if_pos (by omega), ← hl]
    rw [List.take_append, List.take_append, List.take_take, List.take_take, List.length_take, List.length_take,
      ← hl]
    have : lam.take (min (lam.length - T) T) = lam'.take (min (lam.length - T) T) := by
      have := congrArg (List.take T) hagree
      rwa [List.take_take, List.take_take, Nat.min_comm] at this
    rw [this]
  unfold eigenValuesDenoise at h h'
  dsimp only at h h'
  rw [if_pos hT, e] at h
  rw [← hl, if_pos hT] at h'
  obtain ⟨v, hv, h⟩ := Sim.bind_inv h
  obtain ⟨v', hv', h'⟩ := Sim.bind_inv h'
  rw [hv] at hv'
  cases hv'
  cases h
  cases h'
  rfl

/-! ### C37: the matrices -/

/-- The core fact: factors with excess eigenvalues over a common level `mu` on an orthonormal basis give a
correlation matrix if the excess variance of no asset is above one. -/
theorem flat_valid {qs : List (Pair n)} {ws : List (Fin n → ℝ)} {mu : ℝ}
    (hres : ∀ i j, ((qs.map (·.2) ++ ws).map fun v => v i * v j).sum = if i = j then 1 else 0)
    (hge : ∀ p ∈ qs, mu ≤ p.1) (hdiag : ∀ i, (qs.map fun p => (p.1 - mu) * (p.2 i * p.2 i)).sum ≤ 1) :
    IsCor (eigToCor (qs ++ ws.map fun w => (mu, w))) ∧
    ∀ i j, i ≠ j → eigToCor (qs ++ ws.map fun w => (mu, w)) i j =
      eigSum (qs.map fun p => (p.1 - mu, p.2)) i j := by
  set ex := qs.map fun p => ((p.1 - mu, p.2) : Pair n) with hex
  -- off the diagonal the sum is that of the excess factors
  have hoff : ∀ i j, i ≠ j → eigSum (qs ++ ws.map fun w => (mu, w)) i j = eigSum ex i j := by
    intro i j hij
    have h := hres i j
    rw [if_neg hij, List.map_append, List.sum_append, List.map_map] at h
    rw [eigSum_append, eigSum_apply, eigSum_apply, eigSum_apply, hex, List.map_map, List.map_map]
    have e1 : (ws.map ((fun p : Pair n => p.1 * (p.2 i * p.2 j)) ∘ fun w => (mu, w))).sum
        = mu * (ws.map fun v => v i * v j).sum := by
      rw [← List.sum_map_mul_left]; rfl
    have e2 : (qs.map ((fun p : Pair n => p.1 * (p.2 i * p.2 j)) ∘ fun p => (p.1 - mu, p.2))).sum
        = (qs.map fun p => p.1 * (p.2 i * p.2 j)).sum - mu * (qs.map ((fun v => v i * v j) ∘ fun x => x.2)).sum := by
      rw [← List.sum_map_mul_left, eq_sub_iff_add_eq, ← List.sum_map_add]
      congr 1
      exact List.map_congr_left fun p _ => by simp only [Function.comp_apply]; ring
    rw [e1, e2]
    linear_combination mu * h
  -- the candidate
  let S : Mat n := fun i j => if i = j then 1 else eigSum ex i j
  have hS : IsCor S := by
    refine ⟨?_, fun x => ?_, fun i => if_pos rfl⟩
    · ext i j
      rw [Matrix.transpose_apply]
      change (if j = i then (1 : ℝ) else _) = if i = j then 1 else _
      by_cases h : i = j
      · subst h; rfl
      · rw [if_neg h, if_neg (Ne.symm h), eigSum_symm]
    · have hq : dotProduct x (S.mulVec x) = dotProduct x ((eigSum ex).mulVec x) + ∑ i, (1 - eigSum ex i i) * x i ^ 2 := by
        rw [quad_eq, quad_eq, ← Finset.sum_add_distrib]
        refine Finset.sum_congr rfl fun i _ => ?_
        have : ∀ j, x i * S i j * x j = x i * eigSum ex i j * x j + if i = j then (1 - eigSum ex i i) * x i ^ 2 else 0 := by
          intro j
          change x i * (if i = j then (1 : ℝ) else eigSum ex i j) * x j = _
          by_cases h : i = j
          · subst h; rw [if_pos rfl, if_pos rfl]; ring
          · rw [if_neg h, if_neg h]; ring
        rw [Finset.sum_congr rfl fun j _ => this j, Finset.sum_add_distrib, Finset.sum_ite_eq]
        simp
      rw [hq, quad_eigSum]
      refine add_nonneg ?_ (Finset.sum_nonneg fun i _ => mul_nonneg ?_ (sq_nonneg _))
      · refine List.sum_nonneg fun y hy => ?_
        obtain ⟨p, hp, rfl⟩ := List.mem_map.mp hy
        obtain ⟨q, hq', rfl⟩ := List.mem_map.mp hp
        exact mul_nonneg (sub_nonneg.mpr (hge q hq')) (sq_nonneg _)
      · have := hdiag i
        rw [eigSum_apply, hex, List.map_map]
        exact sub_nonneg.mpr this
  have hEq : eigToCor (qs ++ ws.map fun w => (mu, w)) = S := by
    apply eigToCor_of_offdiag hS
    intro i j hij
    rw [hoff i j hij]
    exact (if_neg hij).symm
  rw [hEq]
  exact ⟨hS, fun i j hij => if_neg hij⟩

/-- Eigenvalues of a covariance matrix are non-negative. -/
theorem eig_nonneg {C : Mat n} (h : IsCov C) {ps : List (Pair n)} (he : IsEigen C ps) : ∀ p ∈ ps, 0 ≤ p.1 := by
  intro p hp
  have h1 := h.psd p.2
  rw [he.eig p hp, dotProduct_smul, he.ortho.1 p.2 (List.mem_map_of_mem hp), smul_eq_mul, mul_one] at h1
  exact h1

/-- The eigenvalues sum to the trace. -/
theorem eig_trace {C : Mat n} {ps : List (Pair n)} (he : IsEigen C ps) (hl : ps.length = n) :
    (ps.map (·.1)).sum = ∑ i, C i i := by
  rw [← eigSum_eq he hl]
  simp only [eigSum_apply, list_sum_fin]
  rw [Finset.sum_comm]
  refine Finset.sum_congr rfl fun a _ => ?_
  rw [← Finset.mul_sum]
  have := he.ortho.1 ps[a].2 (List.mem_map_of_mem (List.getElem_mem a.2))
  unfold dotProduct at this
  change _ = ps[a].1 * _
  rw [this, mul_one]

theorem sum_map_le {α : Type} (l : List α) (f g : α → ℝ) (h : ∀ a ∈ l, f a ≤ g a) : (l.map f).sum ≤ (l.map g).sum := by
  induction l with
  | nil => simp
  | cons a l ih =>
    rw [List.map_cons, List.map_cons, List.sum_cons, List.sum_cons]
    exact add_le_add (h a (by simp)) (ih fun b hb => h b (by simp [hb]))

variable {eigh : Mat n → List (Pair n)} {argsort : List ℝ → List Nat} {svdU : List (Fin n → ℝ) → List (Fin n → ℝ)}

/-- The two halves of a list of pairs when the eigenvalues are flattened after position `m`. -/
theorem zip_flatten (lam : List ℝ) (vs : List (Fin n → ℝ)) (hl : lam.length = vs.length) (m : Nat) (hm : m ≤ lam.length) (mu : ℝ) :
    (lam.take m ++ List.replicate (lam.length - m) mu).zip vs =
    (lam.take m).zip (vs.take m) ++ (vs.drop m).map fun w => (mu, w) := by
  conv_lhs => rw [← List.take_append_drop m vs]
  rw [List.zip_append (by simp; omega)]
  congr 1
  apply List.ext_getElem
  · simp; omega
  · intro i h1 h2; simp

theorem zip_sum_le {α : Type} (a b : List ℝ) (vs : List α) (h : List.Forall₂ (· ≤ ·) a b) {g : α → ℝ}
    (hg : ∀ w, 0 ≤ g w) : ((a.zip vs).map fun p => p.1 * g p.2).sum ≤ ((b.zip vs).map fun p => p.1 * g p.2).sum := by
  induction h generalizing vs with
  | nil => simp
  | cons hab _ ih =>
    cases vs with
    | nil => simp
    | cons v vs =>
      rw [List.zip_cons_cons, List.zip_cons_cons, List.map_cons, List.map_cons, List.sum_cons, List.sum_cons]
      exact add_le_add (mul_le_mul_of_nonneg_right hab (hg v)) (ih vs)

theorem truncate_le {lam : List ℝ} (h0 : ∀ x ∈ lam, 0 ≤ x) (T : Nat) :
    List.Forall₂ (· ≤ ·) (truncateEig lam T) lam := by
  unfold truncateEig
  split
  · conv => arg 3; rw [← List.take_append_drop T lam]
    refine List.rel_append (List.forall₂_same.mpr fun x _ => le_rfl) ?_
    rw [← List.length_drop]
    have : ∀ l : List ℝ, (∀ x ∈ l, 0 ≤ x) → List.Forall₂ (· ≤ ·) (List.replicate l.length 0) l := by
      intro l
      induction l with
      | nil => intro _; exact List.Forall₂.nil
      | cons a l ih => exact fun h => List.Forall₂.cons (h a (by simp)) (ih fun x hx => h x (by simp [hx]))
    exact this _ fun x hx => h0 x (List.mem_of_mem_drop hx)
  · exact List.forall₂_same.mpr fun x _ => le_rfl

/-- C37. Denoising a covariance-like matrix (symmetric, positive semidefinite, diagonal at most one) with the
fitted number of factors returns a correlation matrix: symmetric, unit diagonal, positive semidefinite, entries
in `[-1, 1]`. No clipping takes effect. This includes fewer time steps than assets. -/
theorem cor_denoise_fitted_valid (hE : EighSpec eigh) (hs : ArgsortSpec argsort) {C : Mat n} (hC : IsCov C)
    (hd : ∀ i, C i i ≤ 1) {T : Nat} {r : Mat n × Info}
    (h : corDenoise eigh argsort svdU T none (.square C) = .ok r) : IsCor r.1 := by
  unfold corDenoise at h
  obtain ⟨hev, hlen, hdesc⟩ := cor_to_eig_all hE hs hC.symm
  dsimp only at h
  generalize corToEig eigh argsort C true none = ps at *
  obtain ⟨⟨lam, info, after⟩, hden, h⟩ := Sim.bind_inv h
  cases h
  obtain ⟨h1, -⟩ := denoise_inv hden
  dsimp only at h1 ⊢
  have hpos := eig_nonneg hC hev
  have hpos' : ∀ x ∈ ps.map (·.1), 0 ≤ x := by
    intro x hx
    obtain ⟨p, hp, rfl⟩ := List.mem_map.mp hx
    exact hpos p hp
  obtain ⟨htd, ht0⟩ := truncate_descending hdesc hpos' T
  obtain ⟨-, -, head, tail, e1, -, e3⟩ := flatten_laws (truncateEig (ps.map (·.1)) T) info.k
  set tr := truncateEig (ps.map (·.1)) T with htr
  have htl : tr.length = ps.length := by rw [(truncate_laws _ T).1, List.length_map]
  have hhead : head = tr.take head.length := by rw [e1]; simp
  have htail : tail.length = tr.length - head.length := by rw [e1]; simp
  have hm : head.length ≤ tr.length := by rw [e1]; simp
  rw [h1, e3, htail, hhead, List.length_take, Nat.min_eq_left hm,
    zip_flatten tr (ps.map (·.2)) (by simpa using htl) head.length hm]
  set m := head.length
  refine (flat_valid ?_ ?_ ?_).1
  · intro i j
    have hz : ((tr.take m).zip ((ps.map (·.2)).take m)).map (·.2) = (ps.map (·.2)).take m := by
      rw [List.map_snd_zip]
      simp; omega
    rw [hz, List.take_append_drop]
    exact ortho_resolution hev.ortho (by simpa using hlen) i j
  · intro p hp
    have hp1 : p.1 ∈ tr.take m := (List.of_mem_zip hp).1
    rw [← hhead] at hp1
    by_cases hnil : tail = []
    · rw [hnil]
      have : lmean [] = 0 := by unfold lmean; simp
      rw [this]
      exact ht0 _ (by rw [e1]; exact List.mem_append_left _ hp1)
    · refine lmean_le hnil fun x hx => ?_
      rw [e1, List.pairwise_append] at htd
      exact htd.2.2 _ hp1 _ hx
  · intro i
    have hmu : 0 ≤ lmean tail := by
      by_cases hnil : tail = []
      · rw [hnil]; unfold lmean; simp
      · exact le_lmean hnil fun x hx => ht0 _ (by rw [e1]; exact List.mem_append_right _ hx)
    have hCi := eigSum_eq hev hlen
    have hsum : (ps.map fun p => p.1 * (p.2 i * p.2 i)).sum ≤ 1 := by
      rw [← eigSum_apply, hCi]; exact hd i
    refine le_trans ?_ hsum
    -- compare position by position
    have hz : (tr.take m).zip ((ps.map (·.2)).take m) = (tr.zip (ps.map (·.2))).take m := by
      rw [List.zip, List.take_zipWith]
    rw [hz]
    calc _ ≤ ((tr.zip (ps.map (·.2))).map fun p => p.1 * (p.2 i * p.2 i)).sum := by
            conv_rhs => rw [← List.take_append_drop m (tr.zip (ps.map (·.2)))]
            rw [List.map_append, List.sum_append]
            have t1 : 0 ≤ (((tr.zip (ps.map (·.2))).drop m).map fun p => p.1 * (p.2 i * p.2 i)).sum := by
              refine List.sum_nonneg fun y hy => ?_
              obtain ⟨p, hp, rfl⟩ := List.mem_map.mp hy
              exact mul_nonneg (ht0 _ (List.of_mem_zip (List.mem_of_mem_drop hp)).1) (mul_self_nonneg _)
            have t2 := sum_map_le ((tr.zip (ps.map (·.2))).take m) (fun p => (p.1 - lmean tail) * (p.2 i * p.2 i))
              (fun p => p.1 * (p.2 i * p.2 i)) fun p _ =>
                mul_le_mul_of_nonneg_right (by linarith) (mul_self_nonneg _)
            linarith
      _ ≤ _ := by
            have hzip : ps = (ps.map (·.1)).zip (ps.map (·.2)) := by
              rw [List.zip_map']; simp
            conv_rhs => rw [hzip]
            exact zip_sum_le _ _ _ (truncate_le hpos' T) (g := fun w : Fin n → ℝ => w i * w i) fun w => mul_self_nonneg (w i)

theorem sliceTo_take {α : Type} (l : List α) (k : Int) : ∃ m, sliceTo l k = l.take m := by
  unfold sliceTo
  split
  · exact ⟨_, rfl⟩
  · exact ⟨_, rfl⟩

theorem take_lt_of_length {α : Type} {l : List α} {m : Nat} (h : (l.take m).length < l.length) :
    (l.take m).length = m ∧ m < l.length := by
  rw [List.length_take] at h ⊢
  omega

/-- Completing the first `m` eigenvectors to an orthonormal basis. -/
private theorem complete_resolution (hV : SvdSpec svdU) {C : Mat n} {ps : List (Pair n)} (he : IsEigen C ps)
    (hl : ps.length = n) (m : Nat) (i j : Fin n) :
    (((ps.take m).map (·.2) ++ (svdU ((ps.take m).map (·.2))).drop (ps.take m).length).map
      fun v => v i * v j).sum = if i = j then 1 else 0 := by
  have hlen : ((ps.take m).map (·.2)).length ≤ n := by simp; omega
  obtain ⟨h1, h2, h3⟩ := hV _ hlen
  have ho := he.ortho
  apply ortho_resolution
  · refine ⟨fun v hv => ?_, List.pairwise_append.mpr ⟨?_, ?_, fun a ha b hb => ?_⟩⟩
    · rcases List.mem_append.mp hv with hv | hv
      · rw [List.map_take] at hv
        exact ho.1 v (List.mem_of_mem_take hv)
      · exact h2.1 v (List.mem_of_mem_drop hv)
    · rw [List.map_take]
      exact ho.2.sublist (List.take_sublist _ _)
    · exact h2.2.sublist (List.drop_sublist _ _)
    · rw [dotProduct_comm]
      refine h3 b ?_ a ha
      rwa [List.length_map]
  · rw [List.length_append, List.length_drop, h1, List.length_map, List.length_take]
    omega

/-- The level of the remaining eigenvalues of a correlation matrix. -/
private theorem tail_level {C : Mat n} (hC : IsCor C) {ps : List (Pair n)} (he : IsEigen C ps) (hl : ps.length = n)
    {m : Nat} (hm : m < n) : ((n : ℝ) - ((ps.take m).map (·.1)).sum) / (n - m) = lmean ((ps.drop m).map (·.1)) := by
  have htr := eig_trace he hl
  simp only [hC.diag, Finset.sum_const, Finset.card_univ, Fintype.card_fin, nsmul_eq_mul, mul_one] at htr
  have : (ps.map (·.1)).sum = ((ps.take m).map (·.1)).sum + ((ps.drop m).map (·.1)).sum := by
    rw [← List.sum_append, ← List.map_append, List.take_append_drop]
  unfold lmean
  rw [List.length_map, List.length_drop, hl, Nat.cast_sub hm.le]
  congr 1
  linarith

/-- The common form of both ways of denoising a correlation matrix: the first `m` factors with their excess over
the mean of the other eigenvalues, and ones on the diagonal. -/
theorem denoised_form {C : Mat n} (hC : IsCor C) {ps : List (Pair n)} (he : IsEigen C ps) (hl : ps.length = n)
    (hd : Descending ps) {m : Nat} (hm : m < n) {ws : List (Fin n → ℝ)}
    (hres : ∀ i j, (((ps.take m).map (·.2) ++ ws).map fun v => v i * v j).sum = if i = j then 1 else 0) :
    IsCor (eigToCor (ps.take m ++ ws.map fun w => (lmean ((ps.drop m).map (·.1)), w))) ∧
    ∀ i j, i ≠ j → eigToCor (ps.take m ++ ws.map fun w => (lmean ((ps.drop m).map (·.1)), w)) i j =
      eigSum ((ps.take m).map fun p => (p.1 - lmean ((ps.drop m).map (·.1)), p.2)) i j := by
  have hpos := eig_nonneg hC.isCov he
  have hne : (ps.drop m).map (·.1) ≠ [] := by
    intro h
    have := congrArg List.length h
    simp at this
    omega
  have hmu : 0 ≤ lmean ((ps.drop m).map (·.1)) := by
    refine le_lmean hne fun x hx => ?_
    obtain ⟨p, hp, rfl⟩ := List.mem_map.mp hx
    exact hpos p (List.mem_of_mem_drop hp)
  refine flat_valid hres ?_ ?_
  · intro p hp
    refine lmean_le hne fun x hx => ?_
    unfold Descending at hd
    rw [← List.take_append_drop m ps, List.map_append, List.pairwise_append] at hd
    exact hd.2.2 _ (List.mem_map_of_mem hp) _ hx
  · intro i
    have hsum : (ps.map fun p => p.1 * (p.2 i * p.2 i)).sum = 1 := by
      rw [← eigSum_apply, eigSum_eq he hl, hC.diag]
    rw [← hsum]
    conv_rhs => rw [← List.take_append_drop m ps, List.map_append, List.sum_append]
    have t1 : 0 ≤ ((ps.drop m).map fun p => p.1 * (p.2 i * p.2 i)).sum := by
      refine List.sum_nonneg fun y hy => ?_
      obtain ⟨p, hp, rfl⟩ := List.mem_map.mp hy
      exact mul_nonneg (hpos _ (List.mem_of_mem_drop hp)) (mul_self_nonneg _)
    have t2 := sum_map_le (ps.take m) (fun p => (p.1 - lmean ((ps.drop m).map (·.1))) * (p.2 i * p.2 i))
      (fun p => p.1 * (p.2 i * p.2 i)) fun p _ => mul_le_mul_of_nonneg_right (by linarith) (mul_self_nonneg _)
    linarith

/-- What a call with a given number of factors returns. -/
theorem manual_form (hE : EighSpec eigh) (hs : ArgsortSpec argsort) (hV : SvdSpec svdU) {C : Mat n}
    (hC : IsCor C) {T : Nat} {k : Int} {r : Mat n × Info}
    (h : corDenoise eigh argsort svdU T (some k) (.square C) = .ok r) :
    IsCor r.1 ∧ ∀ m, sliceTo (corToEig eigh argsort C true none) k = (corToEig eigh argsort C true none).take m →
      (n ≤ m → r.1 = C) ∧ (m < n → ∀ i j, i ≠ j → r.1 i j =
        eigSum (((corToEig eigh argsort C true none).take m).map fun p =>
          (p.1 - lmean (((corToEig eigh argsort C true none).drop m).map (·.1)), p.2)) i j) := by
  unfold corDenoise at h
  obtain ⟨hev, hlen, hdesc⟩ := cor_to_eig_all hE hs hC.symm
  dsimp only at h
  generalize corToEig eigh argsort C true none = ps at *
  obtain ⟨e, he, h⟩ := Sim.bind_inv h
  cases h
  have main : ∀ m, sliceTo ps k = ps.take m → IsCor (eigToCor e) ∧ (n ≤ m → eigToCor e = C) ∧ (m < n → ∀ i j, i ≠ j → eigToCor e i j =
        eigSum ((ps.take m).map fun p => (p.1 - lmean ((ps.drop m).map (·.1)), p.2)) i j) := by
    intro m hm
    rw [hm] at he
    unfold eigComplete at he
    by_cases h0 : (ps.take m).length = 0
    · rw [if_pos h0] at he; cases he
    rw [if_neg h0] at he
    by_cases hlt : (ps.take m).length < n
    · rw [if_pos hlt] at he
      have hml : (ps.take m).length = m ∧ m < n := by
        have := take_lt_of_length (l := ps) (m := m) (by omega)
        exact ⟨this.1, by omega⟩
      cases he
      have hlev : ((n : ℝ) - ((ps.take m).map (·.1)).sum) / (n - (ps.take m).length) = lmean ((ps.drop m).map (·.1)) := by
        rw [hml.1]; exact tail_level hC hev hlen hml.2
      rw [hlev]
      have := denoised_form hC hev hlen hdesc hml.2 (complete_resolution hV hev hlen m)
      exact ⟨this.1, fun hnm => by omega, fun _ => this.2⟩
    · rw [if_neg hlt] at he
      cases he
      have : ps.take m = ps := by
        rw [List.take_eq_self_iff]
        rw [List.length_take] at hlt
        omega
      rw [this, eig_to_cor_inverse hC hev hlen]
      refine ⟨hC, fun _ => rfl, fun hmn => ?_⟩
      rw [List.length_take] at hlt
      omega
  obtain ⟨m, hm⟩ := sliceTo_take ps k
  exact ⟨(main m hm).1, fun m' hm' => (main m' hm').2⟩

/-- C37. Denoising a correlation matrix with any given number of factors that is accepted returns a correlation
matrix. -/
theorem cor_denoise_manual_valid (hE : EighSpec eigh) (hs : ArgsortSpec argsort) (hV : SvdSpec svdU) {C : Mat n}
    (hC : IsCor C) {T : Nat} {k : Int} {r : Mat n × Info}
    (h : corDenoise eigh argsort svdU T (some k) (.square C) = .ok r) : IsCor r.1 :=
  (manual_form hE hs hV hC h).1

/-- C37. Keeping all factors returns the input. -/
theorem cor_denoise_all_factors (hE : EighSpec eigh) (hs : ArgsortSpec argsort) (hV : SvdSpec svdU) {C : Mat n}
    (hC : IsCor C) {T k : Nat} (hk : n ≤ k) {r : Mat n × Info}
    (h : corDenoise eigh argsort svdU T (some k) (.square C) = .ok r) : r.1 = C :=
  ((manual_form hE hs hV hC h).2 k (by unfold sliceTo; simp)).1 hk

/-- C37. A given number of factors is accepted exactly if at least one eigenvector is kept: `k ≥ 1`, or negative
`k` above `-n`. Otherwise an `AssertionError` is raised, in particular for `k = 0`. -/
theorem cor_denoise_manual_ok_iff (hE : EighSpec eigh) (hs : ArgsortSpec argsort) {C : Mat n} (hC : C.IsSymm)
    (T : Nat) (k : Int) :
    ((∃ r, corDenoise eigh argsort svdU T (some k) (.square C) = .ok r) ↔ 0 < n ∧ (1 ≤ k ∨ (-n < k ∧ k < 0))) ∧
    (¬ (0 < n ∧ (1 ≤ k ∨ (-n < k ∧ k < 0))) →
      corDenoise eigh argsort svdU T (some k) (.square C) = .error .assertionError) := by
  obtain ⟨hev, hlen, hdesc⟩ := cor_to_eig_all hE hs hC
  unfold corDenoise
  dsimp only
  generalize corToEig eigh argsort C true none = ps at *
  have hl : (sliceTo ps k).length = 0 ↔ ¬ (0 < n ∧ (1 ≤ k ∨ (-n < k ∧ k < 0))) := by
    unfold sliceTo
    split
    · rw [List.length_take, hlen]; omega
    · rw [List.length_take, hlen]; omega
  have herr : (sliceTo ps k).length = 0 → eigComplete svdU (sliceTo ps k) = .error .assertionError := by
    intro h; unfold eigComplete; rw [if_pos h]
  constructor
  · constructor
    · rintro ⟨r, hr⟩
      by_contra hc
      rw [herr (hl.mpr hc)] at hr
      cases hr
    · intro hc
      have h0 : ¬ (sliceTo ps k).length = 0 := fun h => (hl.mp h) hc
      unfold eigComplete
      rw [if_neg h0]
      split
      · exact ⟨_, rfl⟩
      · exact ⟨_, rfl⟩
  · intro hc
    rw [herr (hl.mpr hc)]
    rfl

/-- C37. The fitted and the manual way agree: with enough time steps, passing the fitted number of factors by hand
gives the same matrix, although the eigenvectors of the noise are chosen differently. -/
theorem cor_denoise_agree (hE : EighSpec eigh) (hs : ArgsortSpec argsort) (hV : SvdSpec svdU) {C : Mat n}
    (hC : IsCor C) {T T' : Nat} (hT : n ≤ T) {r r' : Mat n × Info}
    (h : corDenoise eigh argsort svdU T none (.square C) = .ok r)
    (h' : corDenoise eigh argsort svdU T' (some r.2.k) (.square C) = .ok r') : r.1 = r'.1 := by
  have hR := cor_denoise_fitted_valid (svdU := svdU) hE hs hC.isCov (fun i => (hC.diag i).le) h
  obtain ⟨hR', hform⟩ := manual_form hE hs hV hC h'
  unfold corDenoise at h
  obtain ⟨hev, hlen, hdesc⟩ := cor_to_eig_all hE hs hC.symm
  dsimp only at h
  generalize corToEig eigh argsort C true none = ps at *
  obtain ⟨⟨lam, info, after⟩, hden, h⟩ := Sim.bind_inv h
  cases h
  obtain ⟨h1, -⟩ := denoise_inv hden
  dsimp only at h1 hform hR ⊢
  have hk : ∃ m : Nat, info.k = m ∧ m ≤ n := by
    unfold eigenValuesDenoise at hden
    obtain ⟨var, -, hd2⟩ := Sim.bind_inv hden
    cases hd2
    refine ⟨_, rfl, ?_⟩
    refine List.countP_le_length.trans ?_
    rw [(truncate_laws _ T).1, List.length_map, hlen]
  obtain ⟨m, hkm, hmn⟩ := hk
  rw [(truncate_laws _ T).2.2.2 (by simpa [hlen] using hT)] at h1
  have hflat : flattenTail (ps.map (·.1)) m = (ps.map (·.1)).take m ++ List.replicate ((ps.map (·.1)).length - m) (lmean ((ps.drop m).map (·.1))) := by
    unfold flattenTail sliceFrom
    rw [if_pos (by omega)]
    simp only [Int.toNat_natCast, List.length_drop, List.length_map, hlen, List.map_drop]
    congr 2
    omega
  have hz : lam.zip (ps.map (·.2)) = ps.take m ++ ((ps.drop m).map (·.2)).map fun w => (lmean ((ps.drop m).map (·.1)), w) := by
    rw [h1, hkm, hflat, zip_flatten _ _ (by simp) m (by simp [hlen]; omega)]
    congr 1
    · rw [← List.map_take, ← List.map_take, List.zip_map']
      simp
    · simp only [List.map_drop]
  rw [hkm] at hform
  have hsl : sliceTo ps m = ps.take m := by unfold sliceTo; simp
  obtain ⟨hf1, hf2⟩ := hform m hsl
  rw [hz] at hR ⊢
  by_cases hmn' : m < n
  · ext i j
    by_cases hij : i = j
    · subst hij; rw [hR.diag, hR'.diag]
    · rw [hf2 hmn' i j hij]
      refine (denoised_form hC hev hlen hdesc hmn' (ws := (ps.drop m).map (·.2)) ?_).2 i j hij
      intro i j
      rw [← List.map_append, List.take_append_drop]
      exact ortho_resolution hev.ortho (by simpa using hlen) i j
  · rw [hf1 (by omega)]
    have e1 : ps.take m = ps := by rw [List.take_eq_self_iff]; omega
    have e2 : ps.drop m = [] := by rw [List.drop_eq_nil_iff]; omega
    rw [e1, e2]
    simp only [List.map_nil, List.append_nil]
    exact eig_to_cor_inverse hC hev hlen

/-- C37. Denoising a covariance matrix (fitted) returns a covariance matrix whose variances are those of the input,
raised to the floor. -/
theorem cov_denoise_valid (hE : EighSpec eigh) (hs : ArgsortSpec argsort) {C : Mat n} (hC : IsCov C) {T : Nat}
    {r : Mat n × Info} (h : covDenoise eigh argsort svdU T none C = .ok r) :
    IsCov r.1 ∧ ∀ i, r.1 i i = max (C i i) covReg := by
  have hr : 0 < covReg := by unfold covReg; norm_num
  unfold covDenoise at h
  obtain ⟨⟨cor, info⟩, hden, h⟩ := Sim.bind_inv h
  cases h
  obtain ⟨h1, h2, h3⟩ := cov_to_cor_valid hC hr
  have hR := cor_denoise_fitted_valid hE hs h1 (fun i => (le_abs_self _).trans (h2 i i)) hden
  dsimp only at hR ⊢
  refine ⟨⟨?_, fun x => ?_⟩, fun i => ?_⟩
  · ext i j
    rw [Matrix.transpose_apply]
    have := congrFun (congrFun hR.symm i) j
    rw [Matrix.transpose_apply] at this
    unfold corToCov
    rw [this, mul_comm ((covToCor C covReg).2 j)]
  · have := hR.psd fun i => (covToCor C covReg).2 i * x i
    rw [quad_eq] at this ⊢
    refine this.trans_eq (Finset.sum_congr rfl fun i _ => Finset.sum_congr rfl fun j _ => ?_)
    unfold corToCov
    ring
  · unfold corToCov
    rw [hR.diag, one_mul, ← pow_two]
    exact covStd_sq C hr i

/-- C37. Wrong inputs. -/
theorem cor_denoise_rejects (T : Nat) (k : Option Int) :
    corDenoise eigh argsort svdU T k .notArray = .error .typeError ∧
    corDenoise eigh argsort svdU T k .notSquare = .error .valueError := ⟨rfl, rfl⟩

end Verif.Cov
