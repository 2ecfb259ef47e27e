import Verif.Props.KFold
import Verif.Lemmas.KFoldMore

/-!
# Further properties of `TimeAwareKFold` (C06, C08, C09, label-indexed groups)
-/

namespace Verif.Split

open List

variable {nf : FoldsArg} {ne np : DeltaArg} {lf : Bool} {fr : Option Nat} {c : KFoldCfg}
variable {X : XArg} {y : YArg} {gs : Option GroupsArg}

/-! ### C06 -/

/-- C06. With distinct labels (in particular without groups) the test sets are the sections of an even
division: section `f` starts at `f·(n/k) + min f (n%k)` and has `n/k` samples, one more if `f < n%k`. -/
theorem kfold_even_folds (hc : kfoldInit nf ne np lf fr = .ok c) {n : Nat} (hX : X.rows = some n)
    (hstrict : (groupsInForce n gs).vals.Pairwise (· < ·)) {j : Nat} {s : TrainTest}
    (hs : (c.split X y gs).yields[j]? = some s) :
    s.2 = List.range' ((if lf then j + 1 else j) * (n / c.nFolds) + min (if lf then j + 1 else j) (n % c.nFolds))
      (n / c.nFolds + if (if lf then j + 1 else j) < n % c.nFolds then 1 else 0) := by
  obtain ⟨hk, -, -, hlf, -⟩ := kfoldInit_ok hc
  obtain ⟨n', f, a, b, h1, hlen, _, hkn, hf, hfk, h2, _, _, _, _, _, _, _, _, h5, _⟩ := split_yield hk hs
  rw [hX] at h1; cases h1
  have hff : (if lf then j + 1 else j) = f := by rw [hf, hlf]; cases lf <;> rfl
  rw [hff]
  apply sorted_ext (h2 ▸ npArange_sorted a b) List.pairwise_lt_range'
  intro i
  have hend := evenEnd_lt (show 0 < c.nFolds by omega) hkn hfk
  have hq : 0 < n / c.nFolds := Nat.div_pos hkn (by omega)
  have hmulf : (f + 1) * (n / c.nFolds) = f * (n / c.nFolds) + n / c.nFolds := by ring
  rw [h5, List.mem_range'_1]
  unfold InFold
  constructor
  · rintro ⟨hi, hlo, hhi⟩
    rw [strict_label_le hstrict (by omega) (by omega)] at hhi
    have hup : evenEnd n c.nFolds f = f * (n / c.nFolds) + n / c.nFolds + min (f + 1) (n % c.nFolds) - 1 := by
      unfold evenEnd; rw [hmulf]
    refine ⟨?_, ?_⟩
    · cases f with
      | zero => omega
      | succ f' =>
        have h := hlo f' rfl
        have he' := evenEnd_lt (show 0 < c.nFolds by omega) hkn (show f' < c.nFolds by omega)
        rw [strict_label_lt hstrict (by omega) (by omega)] at h
        unfold evenEnd at h
        omega
    · split <;> omega
  · rintro ⟨h1, h2⟩
    have hup : evenEnd n c.nFolds f = f * (n / c.nFolds) + n / c.nFolds + min (f + 1) (n % c.nFolds) - 1 := by
      unfold evenEnd; rw [hmulf]
    have hie : i ≤ evenEnd n c.nFolds f := by
      split at h2 <;> omega
    refine ⟨by omega, ?_, ?_⟩
    · rintro f' rfl
      have he' := evenEnd_lt (show 0 < c.nFolds by omega) hkn (show f' < c.nFolds by omega)
      rw [strict_label_lt hstrict (by omega) (by omega)]
      have : 0 < (f' + 1) * (n / c.nFolds) := Nat.mul_pos (by omega) hq
      unfold evenEnd
      omega
    · rw [strict_label_le hstrict (by omega) (by omega)]; exact hie

/-- C06 (errors). With distinct integer labels, or without groups, and accepted arguments the only
possible error is `ValueError` from an emptied training set. -/
theorem kfold_distinct_only_valueError {p e : Int}
    (hc : kfoldInit nf (.ok (.int e)) (.ok (.int p)) lf fr = .ok c) {n : Nat}
    (hacc : Accepted c p e X y gs n)
    (hnd : (groupsInForce n gs).kind = .ndarray) (hfr : fr = none ∨ gs = none)
    (hstrict : (groupsInForce n gs).vals.Pairwise (· < ·)) {err : PyErr}
    (herr : (c.split X y gs).err = some err) : err = .valueError := by
  obtain ⟨hk, -⟩ := kfoldInit_ok hc
  have hq : 0 < n / c.nFolds := Nat.div_pos hacc.folds (by omega)
  have hlen := hacc.len
  refine (kfold_error_class hc hacc hnd hfr).2 ?_ ?_ err herr
  · apply ne_of_lt
    rw [evenEnd_last hk hacc.folds]
    have := hacc.folds
    exact strict_label hstrict (by omega) (by omega)
  · intro f hf
    have hend := evenEnd_lt (show 0 < c.nFolds by omega) hacc.folds hf
    refine ⟨evenEnd n c.nFolds f, hend, ?_, le_refl _⟩
    rintro f' rfl
    exact strict_label hstrict (evenEnd_lt_succ (by omega) hacc.folds) (by omega)

/-- Non-vacuity of C06: 11 samples, 4 folds, no groups. -/
example : Accepted ⟨4, .int 1, .int 2, false, none⟩ 2 1 (.ndarray 11) .none none 11 ∧
    (KFoldCfg.split ⟨4, .int 1, .int 2, false, none⟩ (.ndarray 11) .none none).yields.map Prod.snd =
      [[0, 1, 2], [3, 4, 5], [6, 7, 8], [9, 10]] := by
  refine ⟨⟨rfl, by decide, by decide, by decide, by decide, by decide, by decide, by decide⟩, by decide⟩

/-! ### C08 -/

/-- C08 (first half). A splitter built with a `Timedelta` purge or embargo never yields: `split` raises on
every input. -/
theorem kfold_timedelta_never_yields (hc : kfoldInit nf ne np lf fr = .ok c)
    (htd : (∃ t, c.nPurge = .td t) ∨ ∃ t, c.nEmbargo = .td t) :
    (c.split X y gs).yields = [] ∧ (c.split X y gs).err ≠ none := by
  obtain ⟨hk, -⟩ := kfoldInit_ok hc
  rcases split_cases c hk X y gs with ⟨e, he⟩ | ⟨n, bs, _, _, _, hkn, _, hv, _⟩
  · rw [he]; simp [GenRun.fail]
  · exfalso
    unfold validateSplitSettings at hv
    rw [if_neg (by omega)] at hv
    rcases htd with ⟨t, ht⟩ | ⟨t, ht⟩
    · rw [ht] at hv; cases hv
    · rw [ht] at hv
      cases hp : c.nPurge <;> rw [hp] at hv <;> cases hv

/-- C08 (second half). Only two combinations of types ever yield: integer `ndarray` groups without `freq`
and time-valued groups with `freq`. Every other combination raises without yielding. -/
theorem kfold_type_combinations (hc : kfoldInit nf ne np lf fr = .ok c) {g : GArr}
    (hg : ¬ ((g.kind = .ndarray ∧ fr = none) ∨ ((g.kind = .dtIndex ∨ g.kind = .seriesTime) ∧ fr ≠ none))) :
    (c.split X y (some (.arr g))).yields = [] ∧ (c.split X y (some (.arr g))).err ≠ none := by
  obtain ⟨hk, -, -, hlf, hfr, -⟩ := kfoldInit_ok hc
  by_cases htd : (∃ t, c.nPurge = .td t) ∨ ∃ t, c.nEmbargo = .td t
  · exact kfold_timedelta_never_yields hc htd
  push Not at htd
  obtain ⟨p, hp⟩ : ∃ p, c.nPurge = .int p := by
    cases h : c.nPurge with
    | int p => exact ⟨p, rfl⟩
    | td t => exact absurd h (htd.1 t)
  have hnone : ∀ n (test : List Nat), (∀ i ∈ test, i < n) → g.vals.length = n →
      ∀ s, kfoldOne (List.range n) g c.lookForward (effectiveDelta true c.freq c.nEmbargo)
        (effectiveDelta true c.freq c.nPurge) test ≠ .ok s := by
    intro n test ht hlen s hs
    obtain ⟨_, _, _, _, _, hv, _, p', _, hamt, _⟩ := kfoldOne_inv hlen ht hs
    rw [hp, hfr] at hv hamt
    apply hg
    cases hfrr : fr with
    | none =>
      rw [hfrr] at hv
      left
      cases hkd : g.kind <;> simp [effectiveDelta, validatePE, hkd] at hv ⊢
    | some u =>
      rw [hfrr] at hv hamt
      right
      cases hkd : g.kind <;> simp [effectiveDelta, validatePE, hkd, deltaAmount] at hv hamt ⊢
  rcases split_cases c hk X y (some (.arr g)) with ⟨e, he⟩ | ⟨n, bs, _, hlen, _, hkn, _, _, _, hcontig, hbl, hrun⟩
  · rw [he]; simp [GenRun.fail]
  · change g.vals.length = n at hlen
    have htests : ∀ t ∈ testsOf c.lookForward bs, ∀ i ∈ t, i < n := by
      intro t ht i hi
      obtain ⟨b, hb, rfl⟩ := mem_testsOf ht
      have := contig_mem hcontig (isCut_zero _) hb
      rw [mem_npArange] at hi
      change _ ∧ _ ∧ b.2 + 1 ≤ g.vals.length ∧ _ at this
      omega
    have hne : testsOf c.lookForward bs ≠ [] := by
      intro h
      have : (testsOf c.lookForward bs).length = 0 := by rw [h]; rfl
      unfold testsOf at this
      cases hl : c.lookForward <;> simp [hl] at this
      · rw [this] at hbl; simp at hbl; omega
      · omega
    rw [hrun]
    constructor
    · rw [List.eq_nil_iff_forall_not_mem]
      intro s hs
      obtain ⟨t, ht, hf⟩ := kfoldLoop_yields hs
      exact hnone n t (htests t ht) hlen s hf
    · intro hcon
      rw [kfoldLoop_none_iff] at hcon
      obtain ⟨t, ht⟩ := List.exists_mem_of_ne_nil _ hne
      obtain ⟨s, hs⟩ := hcon t ht
      exact hnone n t (htests t ht) hlen s hs

/-- Non-vacuity of C08: `DatetimeIndex` groups without `freq`, and a constructor accepting a `Timedelta`. -/
example : (KFoldCfg.split ⟨2, .int 0, .int 0, false, none⟩ (.ndarray 4) .none
      (some (.arr ⟨.dtIndex, [0, 1, 2, 3]⟩))) = ⟨[], some .typeError⟩ ∧
    kfoldInit (.int 2) (.ok (.td 5)) (.ok (.int 0)) false none = .ok ⟨2, .td 5, .int 0, false, none⟩ := by
  decide

/-! ### `Series` groups: the border repair cannot work -/

/-- C07 (`Series`). If an even border falls inside a label, `Series` groups raise `KeyError` before any
split: the repair looks up row label `0` in a selection that cannot contain it. -/
theorem kfold_series_keyError {p e : Int}
    (hc : kfoldInit nf (.ok (.int e)) (.ok (.int p)) lf fr = .ok c) {n : Nat}
    (hacc : Accepted c p e X y gs n)
    (hser : (groupsInForce n gs).kind = .seriesInt ∨ (groupsInForce n gs).kind = .seriesTime)
    {f : Nat} (hf : f + 1 < c.nFolds)
    (heq : label (groupsInForce n gs).vals (evenEnd n c.nFolds f) =
      label (groupsInForce n gs).vals (evenEnd n c.nFolds f + 1)) :
    c.split X y gs = ⟨[], some .keyError⟩ := by
  obtain ⟨hk, hen, hpn, hlf, hfr', -, he, hp⟩ := kfoldInit_ok hc
  replace he : c.nEmbargo = .int e := by injection he with h; exact h.symm
  replace hp : c.nPurge = .int p := by injection hp with h; exact h.symm
  have he0 : 0 ≤ e := by rw [he] at hen; simpa [Delta.neg] using hen
  have hp0 : 0 ≤ p := by rw [hp] at hpn; simpa [Delta.neg] using hpn
  have hkind : (groupsInForce n gs).kind.positional = false := by
    rcases hser with h | h <;> rw [h] <;> rfl
  rw [split_accepted hk hp he hp0 he0 hacc]
  obtain ⟨s, ss, z, hss, hz, hl⟩ := splitSizes_cons (n := n) hk
  have hsum := splitSizes_sum (n := n) (show 0 < c.nFolds by omega)
  have hpos := splitSizes_pos (show 0 < c.nFolds by omega) hacc.folds
  have htake := splitSizes_take_sum (n := n) (show 0 < c.nFolds by omega) (show f + 1 ≤ c.nFolds by omega)
  rw [hss] at hsum hpos htake ⊢
  have hs0 : 0 < s := hpos s (by simp)
  rw [List.sum_cons] at hsum
  rw [List.take_succ_cons, List.sum_cons] at htake
  have hend : evenEnd n c.nFolds f = s - 1 + ((ss ++ [z]).take f).sum := by
    unfold evenEnd; omega
  rw [hend] at heq
  have := modifyFrom_series hacc.sorted hkind (ss ++ [z])
    (fun x hx => hpos x (by simp only [List.mem_cons]; right; exact hx)) 0 (s - 1)
    (by rw [hacc.len]; omega) f (by simp; omega) heq
  rw [show s - 1 + 1 = s by omega] at this
  simp only [bnds_cons_of, modifyFoldBounds, Nat.zero_add, this]
  rfl

/-- Non-vacuity: a time-valued `Series` with a repeated time stamp at the border. -/
example : Accepted ⟨2, .int 0, .int 0, false, some 1⟩ 0 0 (.dataFrame 4) .none
      (some (.arr ⟨.seriesTime, [0, 1, 1, 2]⟩)) 4 ∧
    label [0, 1, 1, 2] (evenEnd 4 2 0) = label [0, 1, 1, 2] (evenEnd 4 2 0 + 1) := by
  refine ⟨⟨rfl, by decide, by decide, by decide, by decide, by decide, by decide, by decide⟩, by decide⟩

/-! ### C09 -/

/-- C09. Lowering purge and embargo: every split of the stricter splitter is also produced (at the same
position, with the same test set) by the more lenient one, and its training set only grows. -/
theorem kfold_purge_embargo_monotone {p e p' e' : Int} {c' : KFoldCfg} (hpp : p ≤ p') (hee : e ≤ e')
    (hc : kfoldInit nf (.ok (.int e)) (.ok (.int p)) lf fr = .ok c)
    (hc' : kfoldInit nf (.ok (.int e')) (.ok (.int p')) lf fr = .ok c') {j : Nat} {s' : TrainTest}
    (hs : (c'.split X y gs).yields[j]? = some s') :
    ∃ s, (c.split X y gs).yields[j]? = some s ∧ s.2 = s'.2 ∧ ∀ i ∈ s'.1, i ∈ s.1 := by
  obtain ⟨hk, hen, hpn, hlf, hfr, hnf, he, hp⟩ := kfoldInit_ok hc
  obtain ⟨hk', hen', hpn', hlf', hfr', hnf', he', hp'⟩ := kfoldInit_ok hc'
  replace he : c.nEmbargo = .int e := by injection he with h; exact h.symm
  replace hp : c.nPurge = .int p := by injection hp with h; exact h.symm
  replace he' : c'.nEmbargo = .int e' := by injection he' with h; exact h.symm
  replace hp' : c'.nPurge = .int p' := by injection hp' with h; exact h.symm
  have he0 : 0 ≤ e := by rw [he] at hen; simpa [Delta.neg] using hen
  have hp0 : 0 ≤ p := by rw [hp] at hpn; simpa [Delta.neg] using hpn
  have hkk : c.nFolds = c'.nFolds := by
    rw [hnf] at hnf'; injection hnf' with h; exact_mod_cast h
  have hne : (c'.split X y gs).yields ≠ [] := by intro h; rw [h] at hs; simp at hs
  obtain ⟨n, hacc'⟩ := accepted_of_run hk' hp' he' (by omega) (by omega) (Or.inr hne)
  have hacc : Accepted c p e X y gs n := by
    refine ⟨hacc'.rows, hacc'.yok, hacc'.gok, hacc'.len, hacc'.sorted, ?_, ?_, ?_⟩
    · rw [hkk]; exact hacc'.folds
    · have := hacc'.sum; omega
    · have := hacc'.maxTrain; rw [hkk]; omega
  rw [split_accepted hk' hp' he' (by omega) (by omega) hacc'] at hs
  rw [split_accepted hk hp he hp0 he0 hacc]
  rw [hkk]
  cases hm : modifyFoldBounds (groupsInForce n gs) (bnds 0 (splitSizes n c'.nFolds)) with
  | error err => rw [hm] at hs; simp [GenRun.fail] at hs
  | ok bs =>
    rw [hm] at hs
    simp only at hs ⊢
    have hcontig := (modify_contig_all hk' hacc'.folds hacc'.len hacc'.sorted hm).1
    rw [hlf]
    rw [hlf'] at hs
    refine kfoldLoop_mono (R := fun s s' => s.2 = s'.2 ∧ ∀ i ∈ s'.1, i ∈ s.1) ?_ hs
    intro t ht s0' hs0'
    obtain ⟨b, hb, rfl⟩ := mem_testsOf ht
    obtain ⟨h1, h2, h3, h4, h5⟩ := contig_mem hcontig (isCut_zero _) hb
    rw [hacc'.len] at h3
    have htn : ∀ i ∈ npArange b.1 (b.2 + 1), i < n := fun i hi => by
      rw [mem_npArange] at hi; omega
    obtain ⟨k1, k2, k3, k4, k5, k6, k7, p1, e1, k8, k9, k10⟩ := kfoldOne_inv hacc'.len htn hs0'
    rw [hp', hfr'] at k6 k8
    rw [he', hfr'] at k7 k9
    obtain ⟨vp, ap, hap, hap'⟩ := delta_mono hp0 hpp k6 k8
    obtain ⟨ve, ae, hae, hae'⟩ := delta_mono he0 hee k7 k9
    have hsub : ∀ i, InTrainL (groupsInForce n gs).vals n p1 e1 lf (npArange b.1 (b.2 + 1)) i →
        InTrainL (groupsInForce n gs).vals n ap ae lf (npArange b.1 (b.2 + 1)) i := by
      rintro i ⟨a1, a2, a3, a4, a5⟩
      refine ⟨a1, a2, fun m hm h => a3 m hm ⟨h.1, by omega⟩, fun m hm h => a4 m hm ⟨by omega, h.2⟩, a5⟩
    obtain ⟨i0, hi0⟩ := List.exists_mem_of_ne_nil _ k3
    rw [hp, he, hfr]
    obtain ⟨tr, htr⟩ := (kfoldOne_eq (lf := lf) hacc'.len htn k4 k5 vp ve hap hae).1
      ⟨i0, hsub i0 ((k10 i0).mp hi0)⟩
    refine ⟨_, htr, k1.symm, ?_⟩
    intro i hi
    obtain ⟨_, _, _, _, _, _, _, p2, e2, q1, q2, q3⟩ := kfoldOne_inv hacc'.len htn htr
    rw [hap] at q1; rw [hae] at q2; cases q1; cases q2
    exact (q3 i).mpr (hsub i ((k10 i).mp hi))

/-- C09 (no purge, no embargo). Training and test set together are all samples. -/
theorem kfold_zero_complement
    (hc : kfoldInit nf (.ok (.int 0)) (.ok (.int 0)) false fr = .ok c) {s : TrainTest}
    (hs : s ∈ (c.split X y gs).yields) :
    ∃ n, X.rows = some n ∧ ∀ i, i ∈ s.1 ↔ i < n ∧ i ∉ s.2 := by
  obtain ⟨hk, hen, hpn, hlf, hfr, hnf, he, hp⟩ := kfoldInit_ok hc
  replace he : c.nEmbargo = .int 0 := by injection he with h; exact h.symm
  replace hp : c.nPurge = .int 0 := by injection hp with h; exact h.symm
  obtain ⟨n, h1, _, _, h4⟩ := kfold_train_exact hc hs
  refine ⟨n, h1, fun i => ?_⟩
  have hz : inLabelUnits fr gs (.int 0) = 0 := by
    cases gs <;> cases fr <;> simp [inLabelUnits]
  rw [h4, he, hp, hz]
  unfold InTrain
  constructor
  · rintro ⟨a, b, -⟩; exact ⟨a, b⟩
  · rintro ⟨a, b⟩
    refine ⟨a, b, fun m _ h => by omega, fun m _ h => by omega, by simp⟩

/-- Non-vacuity of C09: purge 2 / embargo 1 against purge 1 / embargo 0. -/
example : (KFoldCfg.split ⟨3, .int 1, .int 2, false, none⟩ (.ndarray 9) .none
      (some (.arr ⟨.ndarray, [0, 0, 1, 1, 2, 3, 3, 5, 6]⟩))).yields[0]? = some ([7, 8], [0, 1, 2, 3]) ∧
    (KFoldCfg.split ⟨3, .int 0, .int 1, false, none⟩ (.ndarray 9) .none
      (some (.arr ⟨.ndarray, [0, 0, 1, 1, 2, 3, 3, 5, 6]⟩))).yields[0]? =
        some ([5, 6, 7, 8], [0, 1, 2, 3]) := by
  decide

/-! ### C07, constructor -/

/-- C07 (constructor). Exactly when the constructor succeeds, and which class it raises otherwise. -/
theorem kfold_constructor (nf : FoldsArg) (ne np : DeltaArg) (lf : Bool) (fr : Option Nat) :
    ((∃ c, kfoldInit nf ne np lf fr = .ok c) ↔
      (∃ k : Int, nf = .int k ∧ 2 ≤ k) ∧
      (∃ e, ne = .ok e ∧ (∀ k, e = .int k → 0 ≤ k) ∧ ∀ t, e = .td t → 0 ≤ t) ∧
      (∃ p, np = .ok p ∧ (∀ k, p = .int k → 0 ≤ k) ∧ ∀ t, p = .td t → 0 ≤ t)) ∧
    (kfoldInit nf ne np lf fr = .error .typeError ↔ ne = .other ∨ np = .other) ∧
    (∀ err, kfoldInit nf ne np lf fr = .error err → err = .typeError ∨ err = .valueError) := by
  have hneg : ∀ d : Delta, d.neg = false ↔ (∀ k, d = .int k → 0 ≤ k) ∧ ∀ t, d = .td t → 0 ≤ t := by
    intro d; cases d <;> simp [Delta.neg]
  cases ne with
  | other => simp [kfoldInit, baseInit, bind, Except.bind]
  | ok e =>
    cases np with
    | other => simp [kfoldInit, baseInit, bind, Except.bind]
    | ok p =>
      simp only [DeltaArg.ok.injEq, exists_eq_left', ← hneg, reduceCtorEq, or_self, iff_false]
      cases he : e.neg <;> cases hp : p.neg <;> cases nf <;>
        simp [kfoldInit, baseInit, bind, Except.bind, he, hp]
      next k =>
        by_cases hk : k < 2
        · simp [hk]
        · simp [hk]; omega

/-- Non-vacuity: all three outcomes occur. -/
example : kfoldInit (.int 1) (.ok (.int 0)) (.ok (.int 0)) false none = .error .valueError ∧
    kfoldInit (.int 5) .other (.ok (.int 0)) false none = .error .typeError ∧
    kfoldInit (.int 5) (.ok (.int 1)) (.ok (.td 3)) true none = .ok ⟨5, .int 1, .td 3, true, none⟩ := by
  decide

end Verif.Split
