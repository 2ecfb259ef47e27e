import Verif.Lemmas.KFoldRun

/-! # When a K-fold run finishes -/

namespace Verif.Split

open List

theorem kfoldLoop_none_iff {f : List Nat → Py TrainTest} {ts : List (List Nat)} :
    (kfoldLoop f ts).err = none ↔ ∀ t ∈ ts, ∃ s, f t = .ok s := by
  induction ts with
  | nil => simp [kfoldLoop]
  | cons t ts ih =>
    rw [kfoldLoop]
    cases hf : f t with
    | error e => simp [hf]
    | ok s =>
      simp only [ih, List.mem_cons, forall_eq_or_imp, hf]
      exact ⟨fun h => ⟨⟨s, rfl⟩, h⟩, fun h => h.2⟩

theorem kfoldLoop_err {f : List Nat → Py TrainTest} {ts : List (List Nat)} {e : PyErr}
    (h : (kfoldLoop f ts).err = some e) : ∃ t ∈ ts, f t = .error e := by
  induction ts with
  | nil => simp [kfoldLoop] at h
  | cons t ts ih =>
    rw [kfoldLoop] at h
    cases hf : f t with
    | error e' => rw [hf] at h; simp at h; subst h; exact ⟨t, by simp, hf⟩
    | ok s =>
      rw [hf] at h
      obtain ⟨t', h1, h2⟩ := ih h
      exact ⟨t', by simp [h1], h2⟩

theorem kfoldLoop_length {f : List Nat → Py TrainTest} {ts : List (List Nat)}
    (h : (kfoldLoop f ts).err = none) : (kfoldLoop f ts).yields.length = ts.length :=
  (kfoldLoop_done h).length_eq.symm

theorem evenEnd_last {n k : Nat} (hk : 2 ≤ k) (hkn : k ≤ n) :
    evenEnd n k (k - 2) = n - 1 - n / k := by
  have hm : n % k < k := Nat.mod_lt _ (by omega)
  have h2 := Nat.div_add_mod n k
  unfold evenEnd
  obtain ⟨d, rfl⟩ : ∃ d, k = d + 2 := ⟨k - 2, by omega⟩
  rw [show d + 2 - 2 + 1 = d + 1 by omega, Nat.min_eq_right (by omega)]
  have : (d + 2) * (n / (d + 2)) = (d + 1) * (n / (d + 2)) + n / (d + 2) := by ring
  omega

/-- The outcome of the border repair of a whole run, for positionally indexed groups. -/
theorem modify_all {g : GArr} {n k : Nat} (hk : 2 ≤ k) (hkn : k ≤ n) (hlen : g.vals.length = n)
    (hs : g.vals.Pairwise (· ≤ ·)) (hpos : g.kind.positional = true) :
    (label g.vals (evenEnd n k (k - 2)) ≠ label g.vals (n - 1) →
      ∃ bs, modifyFoldBounds g (bnds 0 (splitSizes n k)) = .ok bs) ∧
    (label g.vals (evenEnd n k (k - 2)) = label g.vals (n - 1) →
      modifyFoldBounds g (bnds 0 (splitSizes n k)) = .error .indexError) := by
  obtain ⟨s, ss, z, hss, hz, hl⟩ := splitSizes_cons (n := n) hk
  have hsum := splitSizes_sum (n := n) (show 0 < k by omega)
  have hp := splitSizes_pos (show 0 < k by omega) hkn
  rw [hss] at hsum hp
  have hs0 : 0 < s := hp s (by simp)
  rw [List.sum_cons] at hsum
  have := modifyFrom_ok_iff hs hpos ss z
    (fun x hx => hp x (by simp only [List.mem_cons]; right; exact hx)) 0 (s - 1) (by rw [hlen]; omega)
  rw [show s - 1 + 1 = s by omega, hlen, hz, ← evenEnd_last hk hkn] at this
  rw [hss, ← hz] at *
  simp only [bnds_cons_of, modifyFoldBounds, Nat.zero_add]
  exact this

theorem baseSplit_accepted {X : XArg} {y : YArg} {gs : Option GroupsArg} {n : Nat}
    (hX : X.rows = some n) (hy : y ≠ .other) (hg : gs ≠ some .other)
    (hs : (groupsInForce n gs).vals.Pairwise (· ≤ ·)) : baseSplit X y gs = .ok n := by
  have hgs : ∀ g, gs = some (.arr g) → isSortedAsc g.vals = true := by
    rintro g rfl; exact isSortedAsc_iff.mpr hs
  have hX' : X = .ndarray n ∨ X = .dataFrame n := by
    cases X with
    | other => cases hX
    | ndarray m => cases hX; exact Or.inl rfl
    | dataFrame m => cases hX; exact Or.inr rfl
  unfold baseSplit
  rcases gs with - | (g | -)
  · rcases hX' with rfl | rfl <;> simp [hy]
  · have := hgs g rfl
    rcases hX' with rfl | rfl <;> simp [hy, this]
  · exact absurd rfl hg

theorem validate_accepted {n k : Nat} {p e : Int} (hp : 0 ≤ p) (he : 0 ≤ e) :
    validateSplitSettings n k (.int e) (.int p) = .ok () ↔
      k ≤ n ∧ p + e < n ∧ p + e ≤ (n : Int) - (n / k : Nat) := by
  unfold validateSplitSettings
  by_cases h1 : n < k
  · rw [if_pos h1]; constructor
    · intro h; cases h
    · rintro ⟨h, -⟩; omega
  · rw [if_neg h1]
    simp only
    by_cases h2 : p + e ≥ (n : Int)
    · rw [if_pos h2]; constructor
      · intro h; cases h
      · rintro ⟨-, h, -⟩; omega
    · rw [if_neg h2]
      have hcast : ((n : Int) / (k : Int)) = ((n / k : Nat) : Int) := by simp
      simp only [hcast]
      by_cases h3 : p > (n : Int) - (n / k : Nat) ∨ e > (n : Int) - (n / k : Nat) ∨
          e + p > (n : Int) - (n / k : Nat)
      · rw [if_pos h3]; constructor
        · intro h; cases h
        · rintro ⟨-, -, h⟩; omega
      · rw [if_neg h3]; constructor
        · intro _; push Not at h3; exact ⟨by omega, by omega, by omega⟩
        · intro _; rfl

/-- For accepted arguments the run is determined by the border repair and the loop. -/
theorem split_accepted {c : KFoldCfg} {p e : Int} {X : XArg} {y : YArg} {gs : Option GroupsArg}
    {n : Nat} (hk : 2 ≤ c.nFolds) (hp : c.nPurge = .int p) (he : c.nEmbargo = .int e) (hp0 : 0 ≤ p)
    (he0 : 0 ≤ e) (h : Accepted c p e X y gs n) :
    c.split X y gs =
      match modifyFoldBounds (groupsInForce n gs) (bnds 0 (splitSizes n c.nFolds)) with
      | .error err => .fail err
      | .ok bs => kfoldLoop (kfoldOne (List.range n) (groupsInForce n gs) c.lookForward
        (effectiveDelta gs.isSome c.freq c.nEmbargo) (effectiveDelta gs.isSome c.freq c.nPurge))
        (testsOf c.lookForward bs) := by
  have hb := baseSplit_accepted h.rows h.yok h.gok h.sorted
  have hv : validateSplitSettings n c.nFolds c.nEmbargo c.nPurge = .ok () := by
    rw [hp, he, validate_accepted hp0 he0]
    exact ⟨h.folds, h.sum, h.maxTrain⟩
  have hg : groupsOrArange n gs = groupsInForce n gs := by
    unfold groupsOrArange groupsInForce; rfl
  unfold KFoldCfg.split
  simp only [hb, hv, bind, Except.bind, hg, List.length_range, ne_eq, h.len, not_true_eq_false,
    if_false, sectionBounds_range (show 0 < c.nFolds by omega) h.folds]
  cases modifyFoldBounds (groupsInForce n gs) (bnds 0 (splitSizes n c.nFolds)) <;> rfl

/-- A run that does not raise before the loop had accepted arguments. -/
theorem accepted_of_run {c : KFoldCfg} {p e : Int} {X : XArg} {y : YArg} {gs : Option GroupsArg}
    (hk : 2 ≤ c.nFolds) (hp : c.nPurge = .int p) (he : c.nEmbargo = .int e) (hp0 : 0 ≤ p)
    (he0 : 0 ≤ e) (h : (c.split X y gs).err = none ∨ (c.split X y gs).yields ≠ []) :
    ∃ n, Accepted c p e X y gs n := by
  rcases split_cases c hk X y gs with ⟨err, herr⟩ | ⟨n, bs, hX, hlen, hsort, hkn, hb, hv, hm, hc, hbl, hrun⟩
  · rw [herr] at h; simp [GenRun.fail] at h
  · obtain ⟨_, _, h3, h4⟩ := baseSplit_ok hb
    rw [hp, he, validate_accepted hp0 he0] at hv
    exact ⟨n, hX, h4, h3, hlen, hsort, hv.1, hv.2.1, hv.2.2⟩

theorem modify_contig_all {g : GArr} {n k : Nat} (hk : 2 ≤ k) (hkn : k ≤ n)
    (hlen : g.vals.length = n) (hs : g.vals.Pairwise (· ≤ ·)) {bs : List (Nat × Nat)}
    (hm : modifyFoldBounds g (bnds 0 (splitSizes n k)) = .ok bs) :
    ContigFolds g.vals 0 bs ∧ bs.length = k := by
  obtain ⟨s, ss, z, hss, hz, hl⟩ := splitSizes_cons (n := n) hk
  have hsum := splitSizes_sum (n := n) (show 0 < k by omega)
  have hpos := splitSizes_pos (show 0 < k by omega) hkn
  rw [hss] at hsum hpos hm
  have hs0 : 0 < s := hpos s (by simp)
  simp only [bnds_cons_of, modifyFoldBounds, Nat.zero_add] at hm
  rw [List.sum_cons] at hsum
  have h2 := modifyFrom_contig hs (ss ++ [z])
    (fun x hx => hpos x (by simp only [List.mem_cons]; right; exact hx))
    0 (s - 1) (by rw [hlen]; omega) (Or.inl (by omega)) (bs := bs)
    (by rw [show s - 1 + 1 = s by omega]; exact hm)
  refine ⟨h2.1, ?_⟩
  rw [h2.2]; simp; omega

/-- Accepted arguments and a successful border repair: the run is the loop over the folds. -/
theorem run_of_accepted {c : KFoldCfg} {p e : Int} {X : XArg} {y : YArg} {gs : Option GroupsArg}
    {n : Nat} (hk : 2 ≤ c.nFolds) (hp : c.nPurge = .int p) (he : c.nEmbargo = .int e) (hp0 : 0 ≤ p)
    (he0 : 0 ≤ e) (h : Accepted c p e X y gs n)
    (hpos : (groupsInForce n gs).kind.positional = true)
    (hl : label (groupsInForce n gs).vals (evenEnd n c.nFolds (c.nFolds - 2)) ≠
        label (groupsInForce n gs).vals (n - 1)) :
    ∃ bs, modifyFoldBounds (groupsInForce n gs) (bnds 0 (splitSizes n c.nFolds)) = .ok bs ∧
      ContigFolds (groupsInForce n gs).vals 0 bs ∧ bs.length = c.nFolds ∧
      c.split X y gs = kfoldLoop (kfoldOne (List.range n) (groupsInForce n gs) c.lookForward
        (effectiveDelta gs.isSome c.freq c.nEmbargo) (effectiveDelta gs.isSome c.freq c.nPurge))
        (testsOf c.lookForward bs) := by
  obtain ⟨bs, hbs⟩ := (modify_all hk h.folds h.len h.sorted hpos).1 hl
  obtain ⟨h1, h2⟩ := modify_contig_all hk h.folds h.len h.sorted hbs
  refine ⟨bs, hbs, h1, h2, ?_⟩
  rw [split_accepted hk hp he hp0 he0 h, hbs]

theorem mem_testsOf_iff {lf : Bool} {bs : List (Nat × Nat)} {t : List Nat} :
    t ∈ testsOf lf bs ↔ ∃ f b, (lf = true → 1 ≤ f) ∧ bs[f]? = some b ∧ t = npArange b.1 (b.2 + 1) := by
  unfold testsOf
  cases lf with
  | false =>
    simp only [Bool.false_eq_true, if_false, List.mem_map, false_imp_iff, true_and]
    constructor
    · rintro ⟨b, hb, rfl⟩
      obtain ⟨f, hf⟩ := List.mem_iff_getElem?.mp hb
      exact ⟨f, b, hf, rfl⟩
    · rintro ⟨f, b, hf, rfl⟩
      exact ⟨b, List.mem_of_getElem? hf, rfl⟩
  | true =>
    simp only [if_true]
    constructor
    · intro h
      obtain ⟨f, hf⟩ := List.mem_iff_getElem?.mp h
      rw [List.getElem?_drop, List.getElem?_map, Option.map_eq_some_iff] at hf
      obtain ⟨b, hb, rfl⟩ := hf
      exact ⟨1 + f, b, fun _ => by omega, hb, rfl⟩
    · rintro ⟨f, b, h1, hf, rfl⟩
      have h1 := h1 trivial
      apply List.mem_iff_getElem?.mpr
      refine ⟨f - 1, ?_⟩
      rw [List.getElem?_drop, List.getElem?_map, show 1 + (f - 1) = f by omega, hf]; rfl

/-- With integer labels in an `ndarray` (or no groups) and integer lengths, the loop body for fold `f`:
it succeeds iff the fold and its training set are non-empty; the error for a non-empty fold is
`ValueError`. -/
theorem fold_outcome {c : KFoldCfg} {p e : Int} {X : XArg} {y : YArg} {gs : Option GroupsArg} {n : Nat}
    (hk : 2 ≤ c.nFolds) (hp : c.nPurge = .int p) (he : c.nEmbargo = .int e) (hp0 : 0 ≤ p)
    (he0 : 0 ≤ e) (h : Accepted c p e X y gs n) (hnd : (groupsInForce n gs).kind = .ndarray)
    (hfr : c.freq = none ∨ gs = none) {bs : List (Nat × Nat)}
    (hm : modifyFoldBounds (groupsInForce n gs) (bnds 0 (splitSizes n c.nFolds)) = .ok bs)
    (hc : ContigFolds (groupsInForce n gs).vals 0 bs) (hbl : bs.length = c.nFolds)
    {f : Nat} {b : Nat × Nat} (hb : bs[f]? = some b) :
    let out := kfoldOne (List.range n) (groupsInForce n gs) c.lookForward
        (effectiveDelta gs.isSome c.freq c.nEmbargo) (effectiveDelta gs.isSome c.freq c.nPurge)
        (npArange b.1 (b.2 + 1))
    ((∃ s, out = .ok s) ↔ (∃ i, InFold (groupsInForce n gs).vals n c.nFolds f i) ∧
      ∃ i, InTrain (groupsInForce n gs).vals n p e c.lookForward
        {i | InFold (groupsInForce n gs).vals n c.nFolds f i} i) ∧
    ((∃ i, InFold (groupsInForce n gs).vals n c.nFolds f i) → ∀ err, out = .error err →
      err = .valueError) := by
  have hf : f < c.nFolds := by
    rw [← hbl]
    by_contra hcon
    rw [List.getElem?_eq_none (by omega)] at hb; cases hb
  have hmem := fold_spec hk h.folds h.len h.sorted hm hc hb hf
  have hset : {i | i ∈ npArange b.1 (b.2 + 1)} = {i | InFold (groupsInForce n gs).vals n c.nFolds f i} := by
    ext i; exact hmem i
  obtain ⟨h1, h2, h3, h4, h5⟩ := contig_mem hc (isCut_zero _) (List.mem_of_getElem? hb)
  rw [h.len] at h3
  have htn : ∀ i ∈ npArange b.1 (b.2 + 1), i < n := fun i hi => by
    rw [mem_npArange] at hi; omega
  have hde : effectiveDelta gs.isSome c.freq c.nEmbargo = .int e := by
    rw [he]; rcases hfr with h | h
    · rw [h]; cases gs <;> rfl
    · rw [h]; rfl
  have hdp : effectiveDelta gs.isSome c.freq c.nPurge = .int p := by
    rw [hp]; rcases hfr with h | h
    · rw [h]; cases gs <;> rfl
    · rw [h]; rfl
  have hvalid : ∀ k : Int, 0 ≤ k → validatePE (groupsInForce n gs) (.int k) = .ok () := by
    intro k hk0
    have : isSortedAsc (groupsInForce n gs).vals = true := isSortedAsc_iff.mpr h.sorted
    unfold validatePE
    rw [hnd]
    simp only [this, if_true]
    rw [if_neg (by omega)]
  have hiff : ∀ i, InTrainL (groupsInForce n gs).vals n p e c.lookForward (npArange b.1 (b.2 + 1)) i ↔
      InTrain (groupsInForce n gs).vals n p e c.lookForward
        {i | InFold (groupsInForce n gs).vals n c.nFolds f i} i := fun i => by
    rw [← hset]; exact inTrainL_iff_inTrain h.len h.sorted h3
  simp only [hde, hdp]
  by_cases hne : npArange b.1 (b.2 + 1) = []
  · have hno : ¬ ∃ i, InFold (groupsInForce n gs).vals n c.nFolds f i := by
      rintro ⟨i, hi⟩
      have := (hmem i).mpr hi
      rw [hne] at this; simp at this
    refine ⟨⟨?_, fun hh => absurd hh.1 hno⟩, fun hh => absurd hh hno⟩
    rintro ⟨s, hs⟩
    have := (kfoldOne_inv h.len htn hs).2.2.2.1 hnd
    exact absurd hne this
  · have hyes : ∃ i, InFold (groupsInForce n gs).vals n c.nFolds f i := by
      obtain ⟨i, hi⟩ := List.exists_mem_of_ne_nil _ hne
      exact ⟨i, (hmem i).mp hi⟩
    have key := kfoldOne_eq (lf := c.lookForward) (p := p) (e := e) h.len htn (fun _ => hne) (fun _ => hne) (hvalid p hp0) (hvalid e he0) rfl rfl
    simp only [hiff] at key
    refine ⟨⟨?_, ?_⟩, ?_⟩
    · rintro ⟨s, hs⟩
      refine ⟨hyes, ?_⟩
      by_contra hcon
      rw [key.2 hcon] at hs; cases hs
    · rintro ⟨-, hh⟩
      obtain ⟨tr, htr⟩ := key.1 hh
      exact ⟨_, htr⟩
    · intro _ err herr
      by_cases hh : ∃ i, InTrain (groupsInForce n gs).vals n p e c.lookForward
        {i | InFold (groupsInForce n gs).vals n c.nFolds f i} i
      · obtain ⟨tr, htr⟩ := key.1 hh
        rw [htr] at herr; cases herr
      · rw [key.2 hh] at herr; cases herr; rfl

end Verif.Split
