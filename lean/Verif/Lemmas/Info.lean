import Verif.Model.Info
import Verif.Lemmas.Entropy
import Verif.Lemmas.Sim
import Mathlib.Data.Fintype.Fin

/-!
# Histograms as label counts
-/

namespace Verif.Info

open Verif.Ent

theorem count_ofFn {α : Type} [BEq α] [LawfulBEq α] [DecidableEq α] : ∀ {n : Nat} (f : Fin n → α) (a : α),
    (List.ofFn f).count a = cnt f a
  | 0, f, a => by simp [cnt]
  | n + 1, f, a => by
    rw [List.ofFn_succ, List.count_cons, count_ofFn (fun i => f i.succ) a]
    unfold cnt
    rw [Fin.card_filter_univ_succ' (fun i => f i = a)]
    simp [Nat.add_comm]

theorem sum_map_eq_finset {α : Type} [DecidableEq α] {ks : List α} (hk : ks.Nodup) (F : α → ℝ) :
    (ks.map F).sum = ∑ a ∈ ks.toFinset, F a := (List.sum_toFinset F hk).symm

/-- The entropy of the normalised counts of labels. -/
theorem entropy_counts {α : Type} [BEq α] [LawfulBEq α] [DecidableEq α] {n : Nat} (hn : 0 < n) (f : Fin n → α) {ks : List α} (hk : ks.Nodup)
    (hf : ∀ i, f i ∈ ks) : entropy (normalise (ks.map fun k => (List.ofFn f).count k)) = H f := by
  have hnr : (0 : ℝ) < n := by exact_mod_cast hn
  have hsub : Finset.univ.image f ⊆ ks.toFinset := by
    intro a ha
    obtain ⟨i, -, rfl⟩ := Finset.mem_image.mp ha
    exact List.mem_toFinset.mpr (hf i)
  have hsumN : (((ks.map fun k => (List.ofFn f).count k).sum : Nat) : ℝ) = n := by
    rw [Nat.cast_list_sum, List.map_map]
    have := sum_map_eq_finset hk fun a => (cnt f a : ℝ)
    have e : (Nat.cast ∘ fun k => (List.ofFn f).count k) = fun a => (cnt f a : ℝ) := by
      funext k; simp [count_ofFn]
    rw [e, this, sum_cnt_of_subset f hsub, Fintype.card_fin]
  have hnorm : normalise (ks.map fun k => (List.ofFn f).count k) = ks.map fun k => (cnt f k : ℝ) / n := by
    unfold normalise
    rw [hsumN, List.map_map]
    refine List.map_congr_left fun k _ => ?_
    simp [count_ofFn]
  have hone : (ks.map fun k => (cnt f k : ℝ) / n).sum = 1 := by
    rw [sum_map_eq_finset hk, ← Finset.sum_div, sum_cnt_of_subset f hsub, Fintype.card_fin, div_self hnr.ne']
  rw [hnorm]
  unfold entropy
  rw [hone, List.map_map, sum_map_eq_finset hk]
  unfold H
  rw [Fintype.card_fin, sum_labels f fun a => Real.log (n / cnt f a), Finset.sum_div]
  rw [Finset.sum_subset hsub (f := fun a => (cnt f a : ℝ) * Real.log (n / cnt f a) / n) fun a _ ha => by
    rw [cnt_eq_zero ha]; simp]
  refine Finset.sum_congr rfl fun a _ => ?_
  simp only [Function.comp_apply, div_one, Real.negMulLog]
  have : Real.log ((n : ℝ) / cnt f a) = - Real.log ((cnt f a : ℝ) / n) := by rw [← Real.log_inv, inv_div]
  rw [this]; ring

/-- The bins of a sample. -/
noncomputable def lab {n : Nat} (b : Nat) (u : Fin n → ℝ) (i : Fin n) : Nat := binOf b (List.ofFn u) (u i)

theorem binOf_lt {b : Nat} (hb : 0 < b) (x : List ℝ) (v : ℝ) : binOf b x v < b :=
  lt_of_le_of_lt (min_le_right _ _) (by omega)

theorem hist_entropy {n : Nat} (hn : 0 < n) {b : Nat} (hb : 0 < b) (u : Fin n → ℝ) :
    entropy (normalise (hist b (List.ofFn u))) = H (lab b u) := by
  have e : (List.ofFn u).map (binOf b (List.ofFn u)) = List.ofFn (lab b u) := by
    rw [List.map_ofFn]; rfl
  unfold hist
  rw [e]
  exact entropy_counts hn (lab b u) List.nodup_range fun i => List.mem_range.mpr (binOf_lt hb _ _)

theorem zip_ofFn {α β : Type} : ∀ {n : Nat} (f : Fin n → α) (g : Fin n → β),
    (List.ofFn f).zip (List.ofFn g) = List.ofFn fun i => (f i, g i)
  | 0, f, g => by simp
  | n + 1, f, g => by
    rw [List.ofFn_succ, List.ofFn_succ, List.ofFn_succ, List.zip_cons_cons, zip_ofFn]

theorem hist2_entropy {n : Nat} (hn : 0 < n) {b : Nat} (hb : 0 < b) (u w : Fin n → ℝ) :
    entropy (normalise (hist2 b (List.ofFn u) (List.ofFn w))) = H fun i => (lab b u i, lab b w i) := by
  have e1 : (List.ofFn u).map (binOf b (List.ofFn u)) = List.ofFn (lab b u) := by
    rw [List.map_ofFn]; rfl
  have e2 : (List.ofFn w).map (binOf b (List.ofFn w)) = List.ofFn (lab b w) := by
    rw [List.map_ofFn]; rfl
  have e3 : hist2 b (List.ofFn u) (List.ofFn w) =
      ((List.range b).flatMap fun i => (List.range b).map fun j => (i, j)).map
        fun k => (List.ofFn fun i => (lab b u i, lab b w i)).count k := by
    unfold hist2
    rw [e1, e2, zip_ofFn, List.map_flatMap]
    simp [List.map_map, Function.comp_def]
  rw [e3]
  have hnd : ((List.range b).flatMap fun i => (List.range b).map fun j => (i, j)).Nodup := by
    rw [List.nodup_flatMap]
    refine ⟨fun i _ => List.Nodup.map (fun a c h => (Prod.mk.inj h).2) List.nodup_range, ?_⟩
    refine List.Pairwise.imp ?_ List.nodup_range
    intro i j hij q hq hq'
    obtain ⟨a, -, rfl⟩ := List.mem_map.mp hq
    obtain ⟨c, -, hc⟩ := List.mem_map.mp hq'
    exact hij (Prod.mk.inj hc).1.symm
  refine entropy_counts hn _ hnd fun i => ?_
  rw [List.mem_flatMap]
  exact ⟨_, List.mem_range.mpr (binOf_lt hb _ _), List.mem_map.mpr ⟨_, List.mem_range.mpr (binOf_lt hb _ _), rfl⟩⟩

/-- A sample of finite numbers. -/
def sample {n : Nat} (u : Fin n → ℝ) : List XF := List.ofFn fun i => .fin (u i)

theorem sample_length {n : Nat} (u : Fin n → ℝ) : (sample u).length = n := List.length_ofFn

theorem finiteList_sample : ∀ {n : Nat} (u : Fin n → ℝ), finiteList (sample u) = some (List.ofFn u)
  | 0, u => by simp [sample, finiteList]
  | n + 1, u => by
    unfold sample
    rw [List.ofFn_succ, finiteList]
    have := finiteList_sample fun i : Fin n => u i.succ
    unfold sample at this
    rw [this, List.ofFn_succ]
    rfl

theorem finiteList_some : ∀ {x : List XF} {r : List ℝ}, finiteList x = some r →
    x.length = r.length ∧ x = sample fun i : Fin r.length => r[i]
  | [], r, h => by
    have : [] = r := Option.some.inj h
    subst this
    simp [sample]
  | .fin a :: x, r, h => by
    rw [finiteList, Option.map_eq_some_iff] at h
    obtain ⟨r', h1, rfl⟩ := h
    obtain ⟨h2, h3⟩ := finiteList_some h1
    refine ⟨by simp [h2], ?_⟩
    have e : sample (fun i : Fin (a :: r').length => (a :: r')[i]) = XF.fin a :: sample (fun i : Fin r'.length => r'[i]) := by
      unfold sample
      exact List.ofFn_succ
    rw [e, ← h3]
  | .nan :: x, r, h => by simp [finiteList] at h
  | .pinf :: x, r, h => by simp [finiteList] at h
  | .ninf :: x, r, h => by simp [finiteList] at h

/-- The entropies of two finite samples of the same length. -/
theorem ent_eq {n : Nat} (hn : 2 ≤ n) {bins : Int} (hb : 1 ≤ bins) (u w : Fin n → ℝ) :
    computeEntropies (sample u) (sample w) bins =
      .ok (H (lab bins.toNat u), H (lab bins.toNat w), H fun i => (lab bins.toNat u i, lab bins.toNat w i)) := by
  have hb' : 0 < bins.toNat := by omega
  unfold computeEntropies validate1D
  rw [sample_length, sample_length, if_neg (by omega), finiteList_sample, finiteList_sample]
  simp only [bind, Except.bind]
  rw [if_neg (by simp), if_neg (by omega), hist_entropy (by omega) hb', hist_entropy (by omega) hb',
    hist2_entropy (by omega) hb']

/-- When the entropies exist. -/
theorem ent_inv {x y : List XF} {bins : Int} {r : ℝ × ℝ × ℝ} (h : computeEntropies x y bins = .ok r) :
    1 ≤ bins ∧ ∃ n, 2 ≤ n ∧ ∃ u w : Fin n → ℝ, x = sample u ∧ y = sample w := by
  unfold computeEntropies validate1D at h
  by_cases h1 : x.length < 2
  · rw [if_pos h1] at h; cases h
  rw [if_neg h1] at h
  by_cases h2 : y.length < 2
  · rw [if_pos h2] at h; cases h
  rw [if_neg h2] at h
  simp only [bind, Except.bind] at h
  cases hx : finiteList x with
  | none => rw [hx] at h; cases h
  | some a =>
    cases hy : finiteList y with
    | none => rw [hx, hy] at h; cases h
    | some c =>
      rw [hx, hy] at h
      dsimp only at h
      by_cases h3 : a.length ≠ c.length
      · rw [if_pos h3] at h; cases h
      rw [if_neg h3] at h
      by_cases h4 : bins < 1
      · rw [if_pos h4] at h; cases h
      push Not at h3 h4
      obtain ⟨l1, e1⟩ := finiteList_some hx
      obtain ⟨l2, e2⟩ := finiteList_some hy
      refine ⟨h4, a.length, by omega, fun i => a[i], fun i => c[i], e1, ?_⟩
      rw [e2]
      unfold sample
      apply List.ext_getElem
      · simp [h3]
      · intro i _ _
        simp

/-- What `mutual_info` and `var_info` compute with a given number of bins. -/
theorem info_eq {n : Nat} (hn : 2 ≤ n) {bins : Int} (hb : 1 ≤ bins) (norm : Bool) (u w : Fin n → ℝ) :
    mutualInfo (some bins) norm (sample u) (sample w) =
      (let mi := H (lab bins.toNat u) + H (lab bins.toNat w) - H fun i => (lab bins.toNat u i, lab bins.toNat w i)
      if norm then .ok (divX mi (Real.sqrt (H (lab bins.toNat u) * H (lab bins.toNat w)))) else .ok (.fin mi)) ∧
    varInfo (some bins) norm (sample u) (sample w) =
      (let vi := 2 * (H fun i => (lab bins.toNat u i, lab bins.toNat w i)) - H (lab bins.toNat u) - H (lab bins.toNat w)
      if norm then .ok (divX vi (H fun i => (lab bins.toNat u i, lab bins.toNat w i))) else .ok (.fin vi)) := by
  have hv : ∀ u : Fin n → ℝ, validate1D (sample u) = .ok () := by
    intro u
    unfold validate1D
    rw [sample_length, if_neg (by omega)]
  unfold mutualInfo varInfo
  rw [hv, hv]
  simp only [bind, Except.bind, resolveBins, ent_eq hn hb]
  trivial

/-- The arguments for which the two measures have a value. -/
theorem info_inv {x y : List XF} {bins : Option Int} {norm : Bool} {v : XF}
    (h : mutualInfo bins norm x y = .ok v ∨ varInfo bins norm x y = .ok v) :
    ∃ b : Int, 1 ≤ b ∧ resolveBins x y bins = .ok b ∧ ∃ n, 2 ≤ n ∧ ∃ u w : Fin n → ℝ, x = sample u ∧ y = sample w ∧
      (mutualInfo bins norm x y = mutualInfo (some b) norm x y) ∧ (varInfo bins norm x y = varInfo (some b) norm x y) := by
  have key : ∃ b : Int, ∃ r, resolveBins x y bins = .ok b ∧ computeEntropies x y b = .ok r := by
    rcases h with h | h
    · unfold mutualInfo at h
      obtain ⟨-, -, h⟩ := Sim.bind_inv h
      obtain ⟨-, -, h⟩ := Sim.bind_inv h
      obtain ⟨b, hb, h⟩ := Sim.bind_inv h
      obtain ⟨r, hr, -⟩ := Sim.bind_inv h
      exact ⟨b, r, hb, hr⟩
    · unfold varInfo at h
      obtain ⟨-, -, h⟩ := Sim.bind_inv h
      obtain ⟨-, -, h⟩ := Sim.bind_inv h
      obtain ⟨b, hb, h⟩ := Sim.bind_inv h
      obtain ⟨r, hr, -⟩ := Sim.bind_inv h
      exact ⟨b, r, hb, hr⟩
  obtain ⟨b, r, hb, hr⟩ := key
  obtain ⟨h1, n, hn, u, w, hx, hy⟩ := ent_inv hr
  refine ⟨b, h1, hb, n, hn, u, w, hx, hy, ?_, ?_⟩
  · unfold mutualInfo
    rw [hb]; rfl
  · unfold varInfo
    rw [hb]; rfl

end Verif.Info
