import Verif.Lemmas.KFoldFinish

/-!
# Helper lemmas for the further K-fold properties
-/

namespace Verif.Split

open List

theorem strict_label {vals : List Int} (hs : vals.Pairwise (· < ·)) {i j : Nat} (hij : i < j)
    (hj : j < vals.length) : label vals i < label vals j := by
  have := List.pairwise_iff_getElem.mp hs i j (by omega) hj hij
  simpa [label, List.getD, hj, (by omega : i < vals.length)] using this

theorem strict_label_lt {vals : List Int} (hs : vals.Pairwise (· < ·)) {i j : Nat}
    (hi : i < vals.length) (hj : j < vals.length) : label vals i < label vals j ↔ i < j := by
  constructor
  · exact label_lt_imp (hs.imp le_of_lt) hi
  · intro h; exact strict_label hs h hj

theorem strict_label_le {vals : List Int} (hs : vals.Pairwise (· < ·)) {i j : Nat}
    (hi : i < vals.length) (hj : j < vals.length) : label vals i ≤ label vals j ↔ i ≤ j := by
  rw [← not_lt, strict_label_lt hs hj hi, not_lt]

/-- In an even division the sections are non-empty. -/
theorem evenEnd_lt_succ {n k f : Nat} (hk : 0 < k) (hkn : k ≤ n) :
    evenEnd n k f < evenEnd n k (f + 1) := by
  have h4 : 0 < n / k := Nat.div_pos hkn hk
  unfold evenEnd
  have : (f + 1 + 1) * (n / k) = (f + 1) * (n / k) + n / k := by ring
  have : 0 < (f + 1) * (n / k) := Nat.mul_pos (by omega) h4
  omega

theorem evenEnd_final {n k : Nat} (hk : 2 ≤ k) (hkn : k ≤ n) : evenEnd n k (k - 1) = n - 1 := by
  have hm : n % k < k := Nat.mod_lt _ (by omega)
  have h2 := Nat.div_add_mod n k
  unfold evenEnd
  rw [show k - 1 + 1 = k by omega, Nat.min_eq_right (by omega)]
  omega

theorem modifyFrom_series {g : GArr} (hs : g.vals.Pairwise (· ≤ ·)) (hk : g.kind.positional = false)
    (ss : List Nat) (hpos : ∀ s ∈ ss, 0 < s) (s0 e0 : Nat) (hsum : e0 + 1 + ss.sum = g.vals.length)
    (f : Nat) (hf : f < ss.length)
    (heq : label g.vals (e0 + (ss.take f).sum) = label g.vals (e0 + (ss.take f).sum + 1)) :
    modifyFrom g (s0, e0) (bnds (e0 + 1) ss) = .error .keyError := by
  induction ss generalizing s0 e0 f with
  | nil => simp at hf
  | cons s1 ss ih =>
    have hs1 : 0 < s1 := hpos s1 (by simp)
    simp only [List.sum_cons] at hsum
    rw [bnds_cons_of]
    obtain ⟨L, hL1, hL2, hL3, hL4, hstep⟩ := modifyFrom_step (g := g) hs (s0 := s0) (e0 := e0)
      (b1 := (e0 + 1, e0 + 1 + s1 - 1)) (rest := bnds (e0 + 1 + s1) ss) rfl (by omega)
    rw [hstep]
    by_cases hLe : L = e0
    · rw [if_pos hLe]
      cases f with
      | zero =>
        exfalso
        simp only [List.take_zero, List.sum_nil, Nat.add_zero] at heq
        have := hL4 (e0 + 1) (by omega) (by omega)
        omega
      | succ f =>
        simp only [show e0 + 1 + s1 = e0 + s1 + 1 by omega, Nat.add_sub_cancel]
        rw [ih (fun s hs => hpos s (by simp [hs])) (e0 + 1) (e0 + s1) (by omega) f (by simpa using hf)
          (by
            rw [List.take_succ_cons, List.sum_cons, ← Nat.add_assoc] at heq
            exact heq)]
        rfl
    · rw [if_neg hLe, if_pos hk]

theorem kfoldLoop_mono {f f' : List Nat → Py TrainTest} {R : TrainTest → TrainTest → Prop}
    {ts : List (List Nat)} (h : ∀ t ∈ ts, ∀ s', f' t = .ok s' → ∃ s, f t = .ok s ∧ R s s') {j : Nat}
    {s' : TrainTest} (hs : (kfoldLoop f' ts).yields[j]? = some s') :
    ∃ s, (kfoldLoop f ts).yields[j]? = some s ∧ R s s' := by
  induction ts generalizing j with
  | nil => simp [kfoldLoop] at hs
  | cons t ts ih =>
    rw [kfoldLoop] at hs
    cases hf' : f' t with
    | error e => rw [hf'] at hs; simp at hs
    | ok s0' =>
      rw [hf'] at hs
      obtain ⟨s0, hf, hR⟩ := h t (by simp) s0' hf'
      rw [kfoldLoop, hf]
      cases j with
      | zero =>
        simp only [List.getElem?_cons_zero, Option.some.injEq] at hs
        subst hs
        exact ⟨s0, rfl, hR⟩
      | succ j =>
        simp only [List.getElem?_cons_succ] at hs ⊢
        exact ih (fun t ht => h t (by simp [ht])) hs

/-- Shrinking a length keeps the type checks and shrinks the amount. -/
theorem delta_mono {g : GArr} {b : Bool} {freq : Option Nat} {k k' : Int} (hk : 0 ≤ k) (hkk : k ≤ k')
    {a' : Int} (hv : validatePE g (effectiveDelta b freq (.int k')) = .ok ())
    (ha : deltaAmount g.kind (effectiveDelta b freq (.int k')) = .ok a') :
    validatePE g (effectiveDelta b freq (.int k)) = .ok () ∧
    ∃ a, deltaAmount g.kind (effectiveDelta b freq (.int k)) = .ok a ∧ a ≤ a' := by
  have hmul : ∀ u : Nat, 0 ≤ k * u ∧ k * u ≤ k' * u := fun u =>
    ⟨mul_nonneg hk (by omega), mul_le_mul_of_nonneg_right hkk (by omega)⟩
  cases b with
  | false =>
    simp only [effectiveDelta] at hv ha ⊢
    simp only [deltaAmount, Except.ok.injEq] at ha
    subst ha
    refine ⟨?_, k, rfl, hkk⟩
    unfold validatePE at hv ⊢
    cases hkd : g.kind <;> rw [hkd] at hv <;> simp only at hv ⊢ <;> try cases hv
    rw [if_neg (by omega)] at hv ⊢
    exact hv
  | true =>
    cases freq with
    | none =>
      simp only [effectiveDelta] at hv ha ⊢
      simp only [deltaAmount, Except.ok.injEq] at ha
      subst ha
      refine ⟨?_, k, rfl, hkk⟩
      unfold validatePE at hv ⊢
      cases hkd : g.kind <;> rw [hkd] at hv <;> simp only at hv ⊢ <;> try cases hv
      rw [if_neg (by omega)] at hv ⊢
      exact hv
    | some u =>
      obtain ⟨m1, m2⟩ := hmul u
      simp only [effectiveDelta, deltaAmount] at hv ha ⊢
      split at ha
      · cases ha
      · next hns =>
        cases ha
        rw [if_neg hns]
        refine ⟨?_, _, rfl, m2⟩
        unfold validatePE at hv ⊢
        cases hkd : g.kind <;> rw [hkd] at hv <;> simp only at hv ⊢ <;> try cases hv
        all_goals
          rw [if_neg (by omega)] at hv ⊢
          exact hv

end Verif.Split
