import Verif.Lemmas.KFold
import Mathlib.Tactic.Ring
import Mathlib.Algebra.Order.BigOperators.Group.List

/-! # The shape of a whole K-fold run -/

namespace Verif.Split

open List

/-- The test sets computed before the loop. -/
def testsOf (lf : Bool) (bs : List (Nat × Nat)) : List (List Nat) :=
  let ts := bs.map fun b => npArange b.1 (b.2 + 1)
  if lf then ts.drop 1 else ts

theorem sorted_range_cast (n : Nat) : ((List.range n).map Int.ofNat).Pairwise (· ≤ ·) := by
  rw [List.pairwise_map]
  exact List.pairwise_lt_range.imp (fun h => by
    simp only [Int.ofNat_eq_natCast]; omega)

theorem baseSplit_ok {X : XArg} {y : YArg} {gs : Option GroupsArg} {n : Nat}
    (h : baseSplit X y gs = .ok n) :
    X.rows = some n ∧ (groupsInForce n gs).vals.Pairwise (· ≤ ·) ∧ gs ≠ some .other ∧ y ≠ .other := by
  have key : ∀ m, (if y = .other then (Except.error PyErr.typeError : Py Nat)
      else
        match gs with
        | some .other => .error .typeError
        | some (.arr g) => if isSortedAsc g.vals then .ok m else .error .valueError
        | none => .ok m) = .ok n →
      m = n ∧ (groupsInForce n gs).vals.Pairwise (· ≤ ·) ∧ gs ≠ some .other ∧ y ≠ .other := by
    intro m hm
    by_cases hy : y = .other
    · rw [if_pos hy] at hm; cases hm
    · rw [if_neg hy] at hm
      match gs, hm with
      | some .other, hm => cases hm
      | some (.arr g), hm =>
        by_cases hs : isSortedAsc g.vals = true
        · simp only [hs, if_true] at hm; cases hm
          exact ⟨rfl, isSortedAsc_iff.mp hs, by simp, hy⟩
        · simp [hs] at hm
      | none, hm =>
        cases hm
        exact ⟨rfl, sorted_range_cast _, by simp, hy⟩
  cases X with
  | other => cases h
  | ndarray m => obtain ⟨rfl, h'⟩ := key m h; exact ⟨rfl, h'⟩
  | dataFrame m => obtain ⟨rfl, h'⟩ := key m h; exact ⟨rfl, h'⟩

theorem splitSizes_cons {n k : Nat} (hk : 2 ≤ k) : ∃ s ss z, splitSizes n k = s :: (ss ++ [z]) ∧
    z = n / k ∧ ss.length + 2 = k := by
  have hm : n % k < k := Nat.mod_lt _ (by omega)
  have hl := splitSizes_length (n := n) (show 0 < k by omega)
  have hlast : (splitSizes n k).getLast? = some (n / k) := by
    obtain ⟨d, hd⟩ : ∃ d, k - n % k = d + 1 := ⟨k - n % k - 1, by omega⟩
    rw [splitSizes, hd, List.replicate_succ', ← List.append_assoc, List.getLast?_append]
    simp
  match hss : splitSizes n k with
  | [] => rw [hss] at hl; simp at hl; omega
  | s :: t =>
    rw [hss] at hl hlast
    rcases List.eq_nil_or_concat t with h | ⟨ss, z, h⟩
    · subst h; simp at hl; omega
    · rw [List.concat_eq_append] at h
      subst h
      rw [← List.cons_append, List.getLast?_append] at hlast
      simp at hlast
      refine ⟨s, ss, z, rfl, hlast, ?_⟩
      simp at hl; omega

/-- Either the generator raises before its first `yield`, or it runs the loop over consecutive folds. -/
theorem split_cases (c : KFoldCfg) (hk : 2 ≤ c.nFolds) (X : XArg) (y : YArg)
    (gs : Option GroupsArg) :
    (∃ e, c.split X y gs = .fail e) ∨
    ∃ n bs, X.rows = some n ∧ (groupsInForce n gs).vals.length = n ∧
      (groupsInForce n gs).vals.Pairwise (· ≤ ·) ∧ c.nFolds ≤ n ∧
      baseSplit X y gs = .ok n ∧
      validateSplitSettings n c.nFolds c.nEmbargo c.nPurge = .ok () ∧
      modifyFoldBounds (groupsInForce n gs) (bnds 0 (splitSizes n c.nFolds)) = .ok bs ∧
      ContigFolds (groupsInForce n gs).vals 0 bs ∧ bs.length = c.nFolds ∧
      c.split X y gs = kfoldLoop (kfoldOne (List.range n) (groupsInForce n gs) c.lookForward
        (effectiveDelta gs.isSome c.freq c.nEmbargo) (effectiveDelta gs.isSome c.freq c.nPurge))
        (testsOf c.lookForward bs) := by
  unfold KFoldCfg.split
  cases hb : baseSplit X y gs with
  | error e => left; exact ⟨e, rfl⟩
  | ok n =>
    obtain ⟨hX, hsort, hother, hy⟩ := baseSplit_ok hb
    cases hv : validateSplitSettings n c.nFolds c.nEmbargo c.nPurge with
    | error e => left; refine ⟨e, ?_⟩; simp only [hv, bind, Except.bind]
    | ok u =>
      have hkn : c.nFolds ≤ n := by
        by_contra hc
        unfold validateSplitSettings at hv
        rw [if_pos (by omega)] at hv
        cases hv
      have hg : groupsOrArange n gs = groupsInForce n gs := by
        unfold groupsOrArange groupsInForce; rfl
      by_cases hlen : (groupsInForce n gs).vals.length = n
      · cases hm : modifyFoldBounds (groupsInForce n gs) (bnds 0 (splitSizes n c.nFolds)) with
        | error e =>
          left; refine ⟨e, ?_⟩
          simp only [hv, bind, Except.bind, hg, List.length_range, ne_eq, hlen, not_true_eq_false,
            if_false, sectionBounds_range (show 0 < c.nFolds by omega) hkn, hm]
        | ok bs =>
          right
          have hcontig : ContigFolds (groupsInForce n gs).vals 0 bs ∧ bs.length = c.nFolds := by
            obtain ⟨s, ss, z, hss, hz, hl⟩ := splitSizes_cons (n := n) hk
            have hsum := splitSizes_sum (n := n) (show 0 < c.nFolds by omega)
            have hpos := splitSizes_pos (show 0 < c.nFolds by omega) hkn
            rw [hss] at hsum hpos hm
            have hs0 : 0 < s := hpos s (by simp)
            simp only [bnds_cons_of, modifyFoldBounds, Nat.zero_add] at hm
            rw [List.sum_cons] at hsum
            have h2 := modifyFrom_contig hsort (ss ++ [z]) (fun x hx => hpos x (by simp only [List.mem_cons]; right; exact hx))
              0 (s - 1) (by rw [hlen]; omega) (Or.inl (by omega)) (bs := bs)
              (by rw [show s - 1 + 1 = s by omega]; exact hm)
            refine ⟨h2.1, ?_⟩
            rw [h2.2]; simp; omega
          refine ⟨n, bs, hX, hlen, hsort, hkn, rfl, hv, hm, hcontig.1, hcontig.2, ?_⟩
          simp only [hv, bind, Except.bind, hg, List.length_range, ne_eq, hlen, not_true_eq_false,
            if_false, sectionBounds_range (show 0 < c.nFolds by omega) hkn, hm]
          rfl
      · left; refine ⟨.assertionError, ?_⟩
        simp only [hv, bind, Except.bind, hg, List.length_range, ne_eq, hlen, not_false_eq_true, if_true]

/-! ### Consequences of contiguity -/

theorem isCut_zero (vals : List Int) : IsCut vals 0 := fun i j hi => by omega

theorem contig_mem {vals : List Int} {s : Nat} {bs : List (Nat × Nat)} (hc : ContigFolds vals s bs)
    (h0 : IsCut vals s) {b : Nat × Nat} (hb : b ∈ bs) :
    s ≤ b.1 ∧ b.1 ≤ b.2 + 1 ∧ b.2 + 1 ≤ vals.length ∧ IsCut vals b.1 ∧ IsCut vals (b.2 + 1) := by
  induction bs generalizing s with
  | nil => simp at hb
  | cons x bs ih =>
    obtain ⟨a, e⟩ := x
    obtain ⟨rfl, h2, h3, h4, h5⟩ := hc
    rcases List.mem_cons.mp hb with h | h
    · subst h; exact ⟨le_refl _, h2, h3, h0, h4⟩
    · have := ih h5 h4 h
      exact ⟨by omega, this.2⟩

theorem contig_pairwise {vals : List Int} {s : Nat} {bs : List (Nat × Nat)}
    (hc : ContigFolds vals s bs) (h0 : IsCut vals s) :
    bs.Pairwise (fun b b' => b.2 < b'.1) := by
  induction bs generalizing s with
  | nil => exact .nil
  | cons x bs ih =>
    obtain ⟨a, e⟩ := x
    obtain ⟨rfl, h2, h3, h4, h5⟩ := hc
    refine List.pairwise_cons.mpr ⟨?_, ih h5 h4⟩
    intro b hb
    have := contig_mem h5 h4 hb
    simp; omega

theorem contig_flatten {vals : List Int} {s : Nat} {bs : List (Nat × Nat)}
    (hc : ContigFolds vals s bs) :
    (bs.map fun b => npArange b.1 (b.2 + 1)).flatten = List.range' s (vals.length - s) := by
  induction bs generalizing s with
  | nil => have : s = vals.length := hc; subst this; simp
  | cons x bs ih =>
    obtain ⟨a, e⟩ := x
    obtain ⟨rfl, h2, h3, h4, h5⟩ := hc
    rw [List.map_cons, List.flatten_cons, ih h5, npArange]
    have := List.range'_append (s := a) (m := e + 1 - a) (n := vals.length - (e + 1)) (step := 1)
    rw [Nat.one_mul, show a + (e + 1 - a) = e + 1 by omega] at this
    rw [this]; congr 1; omega

theorem mem_testsOf {lf : Bool} {bs : List (Nat × Nat)} {t : List Nat} (h : t ∈ testsOf lf bs) :
    ∃ b ∈ bs, t = npArange b.1 (b.2 + 1) := by
  unfold testsOf at h
  have : t ∈ bs.map fun b => npArange b.1 (b.2 + 1) := by
    cases lf
    · simpa using h
    · simp only [if_true] at h; exact List.mem_of_mem_drop h
  obtain ⟨b, hb, rfl⟩ := List.mem_map.mp this
  exact ⟨b, hb, rfl⟩

/-- The label at the end of each repaired fold is the label at the end of the even section, and the fold
extends to the last sample with this label. -/
theorem modifyFrom_ends {g : GArr} (hs : g.vals.Pairwise (· ≤ ·)) (ss : List Nat)
    (hpos : ∀ s ∈ ss, 0 < s) (s0 e0 : Nat) (hsum : e0 + 1 + ss.sum = g.vals.length)
    {bs : List (Nat × Nat)} (h : modifyFrom g (s0, e0) (bnds (e0 + 1) ss) = .ok bs)
    (f : Nat) (b : Nat × Nat) (hb : bs[f]? = some b) :
    b.2 < g.vals.length ∧ label g.vals b.2 = label g.vals (e0 + (ss.take f).sum) ∧
      ∀ j, b.2 < j → j < g.vals.length → label g.vals b.2 < label g.vals j := by
  induction ss generalizing s0 e0 bs f with
  | nil =>
    simp only [bnds, modifyFrom, Except.ok.injEq] at h
    subst h
    simp only [List.sum_nil, Nat.add_zero] at hsum
    cases f with
    | zero =>
      simp only [List.getElem?_cons_zero, Option.some.injEq] at hb
      subst hb
      refine ⟨by simp only; omega, by simp, fun j h1 h2 => ?_⟩
      simp only at h1; omega
    | succ f => simp at hb
  | cons s1 ss ih =>
    have hs1 : 0 < s1 := hpos s1 (by simp)
    simp only [List.sum_cons] at hsum
    rw [bnds_cons_of] at h
    obtain ⟨L, hL1, hL2, hL3, hL4, heq⟩ := modifyFrom_step (g := g) hs (s0 := s0) (e0 := e0)
      (b1 := (e0 + 1, e0 + 1 + s1 - 1)) (rest := bnds (e0 + 1 + s1) ss) rfl (by omega)
    rw [heq] at h
    simp only [show e0 + 1 + s1 = e0 + s1 + 1 by omega, Nat.add_sub_cancel] at h
    have hfin : ∀ s0', (Except.map ((s0, L) :: ·)
        (modifyFrom g (s0', e0 + s1) (bnds (e0 + s1 + 1) ss)) : Py _) = .ok bs →
        b.2 < g.vals.length ∧ label g.vals b.2 = label g.vals (e0 + ((s1 :: ss).take f).sum) ∧
        ∀ j, b.2 < j → j < g.vals.length → label g.vals b.2 < label g.vals j := by
      intro s0' hr
      cases hcase : modifyFrom g (s0', e0 + s1) (bnds (e0 + s1 + 1) ss) with
      | error e => rw [hcase] at hr; cases hr
      | ok bs' =>
        rw [hcase] at hr
        simp only [Except.map, Except.ok.injEq] at hr
        subst hr
        cases f with
        | zero =>
          simp only [List.getElem?_cons_zero, Option.some.injEq] at hb
          subst hb
          exact ⟨hL2, by simpa using hL3, by simpa [hL3] using hL4⟩
        | succ f =>
          simp only [List.getElem?_cons_succ] at hb
          have := ih (fun s hs => hpos s (by simp [hs])) s0' (e0 + s1) (by omega) hcase f hb
          rw [List.take_succ_cons, List.sum_cons, ← Nat.add_assoc]
          exact this
    by_cases hLe : L = e0
    · rw [if_pos hLe] at h
      exact hfin _ h
    · rw [if_neg hLe] at h
      split at h
      · cases h
      · split at h
        · cases h
        · exact hfin _ h

theorem splitSizes_take_sum {n k m : Nat} (hk : 0 < k) (hm : m ≤ k) :
    ((splitSizes n k).take m).sum = m * (n / k) + min m (n % k) := by
  have h1 : n % k < k := Nat.mod_lt _ hk
  simp only [splitSizes, List.take_append, List.sum_append, List.take_replicate,
    List.sum_replicate_nat, List.length_replicate]
  generalize n / k = q
  generalize n % k = r at *
  rcases Nat.le_total m r with h | h
  · rw [Nat.min_eq_left h, show m - r = 0 by omega]
    simp [Nat.mul_add]
  · rw [Nat.min_eq_right h, Nat.min_eq_left (by omega)]
    obtain ⟨d, rfl⟩ : ∃ d, m = r + d := ⟨m - r, by omega⟩
    rw [Nat.add_sub_cancel_left]; ring

theorem evenEnd_lt {n k f : Nat} (hk : 0 < k) (hkn : k ≤ n) (hf : f < k) : evenEnd n k f < n := by
  have h1 := splitSizes_take_sum (n := n) hk (show f + 1 ≤ k by omega)
  have h2 := splitSizes_sum (n := n) hk
  have h3 : ((splitSizes n k).take (f + 1)).sum ≤ (splitSizes n k).sum :=
    (List.take_sublist _ _).sum_le_sum (by simp)
  have h4 : 0 < n / k := Nat.div_pos hkn hk
  unfold evenEnd
  omega

theorem contig_succ {vals : List Int} {s : Nat} {bs : List (Nat × Nat)}
    (hc : ContigFolds vals s bs) {f : Nat} {b b' : Nat × Nat} (h : bs[f]? = some b)
    (h' : bs[f + 1]? = some b') : b'.1 = b.2 + 1 := by
  induction bs generalizing s f with
  | nil => simp at h
  | cons x bs ih =>
    obtain ⟨a, e⟩ := x
    obtain ⟨rfl, h2, h3, h4, h5⟩ := hc
    cases f with
    | zero =>
      simp only [List.getElem?_cons_zero, Option.some.injEq] at h
      subst h
      cases bs with
      | nil => simp at h'
      | cons y bs =>
        simp only [List.getElem?_cons_succ, List.getElem?_cons_zero, Option.some.injEq] at h'
        subst h'
        exact h5.1
    | succ f => exact ih h5 h h'

/-- The repaired folds are the specified ones. -/
theorem fold_spec {g : GArr} {n k : Nat} (hk : 2 ≤ k) (hkn : k ≤ n) (hlen : g.vals.length = n)
    (hs : g.vals.Pairwise (· ≤ ·)) {bs : List (Nat × Nat)}
    (hm : modifyFoldBounds g (bnds 0 (splitSizes n k)) = .ok bs)
    (hc : ContigFolds g.vals 0 bs) {f : Nat} {b : Nat × Nat} (hb : bs[f]? = some b) (hf : f < k)
    (i : Nat) : i ∈ npArange b.1 (b.2 + 1) ↔ InFold g.vals n k f i := by
  have hends : ∀ f b, bs[f]? = some b → f < k → b.2 < g.vals.length ∧
      label g.vals b.2 = label g.vals (evenEnd n k f) ∧
      ∀ j, b.2 < j → j < g.vals.length → label g.vals b.2 < label g.vals j := by
    intro f b hb hf
    obtain ⟨s, ss, z, hss, hz, hl⟩ := splitSizes_cons (n := n) hk
    have hsum := splitSizes_sum (n := n) (show 0 < k by omega)
    have hpos := splitSizes_pos (show 0 < k by omega) hkn
    have htake := splitSizes_take_sum (n := n) (show 0 < k by omega) (show f + 1 ≤ k by omega)
    rw [hss] at hsum hpos hm htake
    have hs0 : 0 < s := hpos s (by simp)
    simp only [bnds_cons_of, modifyFoldBounds, Nat.zero_add] at hm
    rw [List.sum_cons] at hsum
    have := modifyFrom_ends hs (ss ++ [z])
      (fun x hx => hpos x (by simp only [List.mem_cons]; right; exact hx))
      0 (s - 1) (by rw [hlen]; omega) (bs := bs) (by rw [show s - 1 + 1 = s by omega]; exact hm) f b hb
    rw [List.take_succ_cons, List.sum_cons] at htake
    refine ⟨this.1, ?_, this.2.2⟩
    rw [this.2.1]
    congr 1
    unfold evenEnd
    omega
  obtain ⟨e1, e2, e3⟩ := hends f b hb hf
  rw [mem_npArange]
  unfold InFold
  have hupper : i < n → (i < b.2 + 1 ↔ label g.vals i ≤ label g.vals (evenEnd n k f)) := by
    intro hi
    rw [← e2]
    constructor
    · intro h; exact sorted_label hs (by omega) e1
    · intro h
      by_contra hcon
      have := e3 i (by omega) (by omega)
      omega
  cases f with
  | zero =>
    have h0 : b.1 = 0 := by
      cases bs with
      | nil => simp at hb
      | cons x bs =>
        simp only [List.getElem?_cons_zero, Option.some.injEq] at hb
        subst hb
        exact hc.1
    constructor
    · rintro ⟨h1, h2⟩
      have hi : i < n := by omega
      exact ⟨hi, by omega, (hupper hi).mp h2⟩
    · rintro ⟨h1, -, h3⟩
      exact ⟨by omega, (hupper h1).mpr h3⟩
  | succ f =>
    have hbl : f + 1 < bs.length := by
      by_contra hcon
      rw [List.getElem?_eq_none (by omega)] at hb; cases hb
    have hb' : bs[f]? = some bs[f] := List.getElem?_eq_getElem (by omega)
    obtain ⟨d1, d2, d3⟩ := hends f _ hb' (by omega)
    have hsucc := contig_succ hc hb' hb
    have hlower : i < n → (b.1 ≤ i ↔ label g.vals (evenEnd n k f) < label g.vals i) := by
      intro hi
      rw [← d2, hsucc]
      constructor
      · intro h; exact d3 i (by omega) (by omega)
      · intro h
        have := label_lt_imp hs d1 h
        omega
    constructor
    · rintro ⟨h1, h2⟩
      have hi : i < n := by omega
      refine ⟨hi, ?_, (hupper hi).mp h2⟩
      intro f' hf'
      obtain rfl : f' = f := by omega
      exact (hlower hi).mp h1
    · rintro ⟨h1, h2, h3⟩
      exact ⟨(hlower h1).mpr (h2 f rfl), (hupper h1).mpr h3⟩

theorem labelsOf_eq_labelSet (vals : List Int) (test : List Nat) :
    labelsOf vals test = labelSet vals {i | i ∈ test} := by
  ext x
  constructor
  · rintro ⟨i, hi, rfl⟩; exact ⟨i, hi, rfl⟩
  · rintro ⟨i, hi, rfl⟩; exact ⟨i, hi, rfl⟩

/-- For a run of consecutive test samples the first sample carries the smallest label. -/
theorem inTrainL_iff_inTrain {vals : List Int} {n : Nat} (hlen : vals.length = n)
    (hs : vals.Pairwise (· ≤ ·)) {p e : Int} {lf : Bool} {a b : Nat} (hb : b ≤ n) {i : Nat} :
    InTrainL vals n p e lf (npArange a b) i ↔
      InTrain vals n p e lf {i | i ∈ npArange a b} i := by
  unfold InTrainL InTrain
  rw [labelsOf_eq_labelSet]
  refine and_congr_right fun _ => and_congr_right fun _ => and_congr_right fun _ =>
    and_congr_right fun _ => ?_
  refine imp_congr_right fun _ => ?_
  by_cases hab : a < b
  · have hhead : (npArange a b).head? = some a := by
      unfold npArange
      obtain ⟨d, hd⟩ : ∃ d, b - a = d + 1 := ⟨b - a - 1, by omega⟩
      rw [hd, List.range'_succ]; rfl
    have hleast : IsLeast (labelSet vals {i | i ∈ npArange a b}) (label vals a) := by
      refine ⟨⟨a, by simp [mem_npArange, hab], rfl⟩, ?_⟩
      rintro _ ⟨j, hj, rfl⟩
      have hj' : j ∈ npArange a b := hj
      rw [mem_npArange] at hj'
      exact sorted_label hs hj'.1 (by omega)
    constructor
    · intro h m hm
      rw [IsLeast.unique hm hleast]
      exact h a hhead
    · intro h t ht
      rw [hhead] at ht
      cases ht
      exact h _ hleast
  · have hnil : npArange a b = [] := by
      unfold npArange; rw [show b - a = 0 by omega]; rfl
    rw [hnil]
    simp [labelSet, IsLeast]

theorem deltaAmount_units {gs : Option GroupsArg} {kind : GKind} {freq : Option Nat} {d : Delta}
    {k : Int} (h : deltaAmount kind (effectiveDelta gs.isSome freq d) = .ok k) :
    k = inLabelUnits freq gs d := by
  cases gs <;> cases freq <;> cases d <;>
    simp only [effectiveDelta, Option.isSome, deltaAmount, inLabelUnits] at h ⊢ <;>
    first
      | (split at h <;> cases h; rfl)
      | (cases h; rfl)

theorem kfoldInit_ok {nf : FoldsArg} {ne np : DeltaArg} {lf : Bool} {fr : Option Nat} {c : KFoldCfg}
    (h : kfoldInit nf ne np lf fr = .ok c) :
    2 ≤ c.nFolds ∧ c.nEmbargo.neg = false ∧ c.nPurge.neg = false ∧ c.lookForward = lf ∧ c.freq = fr ∧
      nf = .int c.nFolds ∧ ne = .ok c.nEmbargo ∧ np = .ok c.nPurge := by
  unfold kfoldInit at h
  obtain ⟨ep, h1, h⟩ := bind_ok_inv h
  cases ne with
  | other => cases h1
  | ok e =>
    cases np with
    | other => cases h1
    | ok p =>
      simp only [baseInit] at h1
      by_cases hneg : (e.neg || p.neg) = true
      · rw [if_pos hneg] at h1; cases h1
      · rw [if_neg hneg] at h1; cases h1
        cases nf with
        | other => cases h
        | int k =>
          simp only at h
          by_cases hk : k < 2
          · rw [if_pos hk] at h; cases h
          · rw [if_neg hk] at h; cases h
            simp only [Bool.or_eq_true, not_or, Bool.not_eq_true] at hneg
            refine ⟨by simp only; omega, hneg.1, hneg.2, rfl, rfl, ?_, rfl, rfl⟩
            simp only [FoldsArg.int.injEq]; omega

/-- Everything known about one yielded split: its test set is the specified fold and its training set is
the specified one. -/
theorem split_yield {c : KFoldCfg} (hk : 2 ≤ c.nFolds) {X : XArg} {y : YArg}
    {gs : Option GroupsArg} {j : Nat} {s : TrainTest} (hs : (c.split X y gs).yields[j]? = some s) :
    ∃ n f a b, X.rows = some n ∧ (groupsInForce n gs).vals.length = n ∧
      (groupsInForce n gs).vals.Pairwise (· ≤ ·) ∧ c.nFolds ≤ n ∧
      f = j + (if c.lookForward then 1 else 0) ∧ f < c.nFolds ∧
      s.2 = npArange a b ∧ a ≤ b ∧ b ≤ n ∧ IsCut (groupsInForce n gs).vals a ∧
      IsCut (groupsInForce n gs).vals b ∧ s.1.Pairwise (· < ·) ∧ s.1 ≠ [] ∧
      ((groupsInForce n gs).kind = .ndarray → s.2 ≠ []) ∧ (c.lookForward = true → s.2 ≠ []) ∧
      (∀ i, i ∈ s.2 ↔ InFold (groupsInForce n gs).vals n c.nFolds f i) ∧
      (∀ i, i ∈ s.1 ↔ InTrain (groupsInForce n gs).vals n (inLabelUnits c.freq gs c.nPurge)
        (inLabelUnits c.freq gs c.nEmbargo) c.lookForward {i | i ∈ s.2} i) := by
  rcases split_cases c hk X y gs with ⟨e, he⟩ | ⟨n, bs, hX, hlen, hsort, hkn, _, _, hm, hc, hbl, hrun⟩
  · rw [he] at hs; simp [GenRun.fail] at hs
  · rw [hrun] at hs
    obtain ⟨pre, suf, hts, hfa, -⟩ := kfoldLoop_prefix (f := kfoldOne (List.range n)
      (groupsInForce n gs) c.lookForward (effectiveDelta gs.isSome c.freq c.nEmbargo)
      (effectiveDelta gs.isSome c.freq c.nPurge)) (ts := testsOf c.lookForward bs)
    have hjl : j < pre.length := by
      rw [hfa.length_eq]
      by_contra hcon
      rw [List.getElem?_eq_none (by omega)] at hs; cases hs
    have hf0 := hfa.get (i := j) hjl (by rw [← hfa.length_eq]; exact hjl)
    have hsj : (kfoldLoop (kfoldOne (List.range n) (groupsInForce n gs) c.lookForward
        (effectiveDelta gs.isSome c.freq c.nEmbargo) (effectiveDelta gs.isSome c.freq c.nPurge))
        (testsOf c.lookForward bs)).yields.get ⟨j, by rw [← hfa.length_eq]; exact hjl⟩ = s := by
      rw [List.getElem?_eq_getElem (by rw [← hfa.length_eq]; exact hjl)] at hs
      simpa using hs
    rw [hsj] at hf0
    have htj : (testsOf c.lookForward bs)[j]? = some (pre.get ⟨j, hjl⟩) := by
      rw [hts, List.getElem?_append_left hjl, List.getElem?_eq_getElem hjl]; rfl
    obtain ⟨f, b, hfdef, hbf, htb⟩ : ∃ f b, f = j + (if c.lookForward then 1 else 0) ∧
        bs[f]? = some b ∧ pre.get ⟨j, hjl⟩ = npArange b.1 (b.2 + 1) := by
      unfold testsOf at htj
      cases hlf : c.lookForward with
      | false =>
        simp only [hlf, Bool.false_eq_true, if_false, List.getElem?_map, Option.map_eq_some_iff] at htj
        obtain ⟨b, hb1, hb2⟩ := htj
        exact ⟨j, b, by simp, hb1, hb2.symm⟩
      | true =>
        simp only [hlf, if_true, List.getElem?_drop, List.getElem?_map,
          Option.map_eq_some_iff] at htj
        obtain ⟨b, hb1, hb2⟩ := htj
        exact ⟨j + 1, b, by simp, by rw [Nat.add_comm]; exact hb1, hb2.symm⟩
    have hfk : f < c.nFolds := by
      rw [← hbl]
      by_contra hcon
      rw [List.getElem?_eq_none (by omega)] at hbf; cases hbf
    rw [htb] at hf0
    obtain ⟨h1, h2, h3, h4, h5⟩ := contig_mem hc (isCut_zero _) (List.mem_of_getElem? hbf)
    rw [hlen] at h3
    have htn : ∀ i ∈ npArange b.1 (b.2 + 1), i < n := fun i hi => by
      rw [mem_npArange] at hi; omega
    obtain ⟨k1, k2, k3, k4, k5, _, _, p, e, k6, k7, k8⟩ := kfoldOne_inv hlen htn hf0
    have hmem := fold_spec hk hkn hlen hsort hm hc hbf hfk
    rw [← deltaAmount_units k6, ← deltaAmount_units k7]
    refine ⟨n, f, b.1, b.2 + 1, hX, hlen, hsort, hkn, hfdef, hfk, k1, h2, h3, h4, h5, k2, k3, ?_, ?_, ?_, ?_⟩
    · rw [k1]; exact k4
    · rw [k1]; exact k5
    · rw [k1]; exact hmem
    · intro i; rw [k8, k1]; exact inTrainL_iff_inTrain hlen hsort h3

end Verif.Split
