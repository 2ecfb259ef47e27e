import Verif.Model.SimLikX
import Verif.Lemmas.SimX
import Verif.Lemmas.SimXPath

/-!
# Facts about the likelihood on floats
-/

namespace Verif.Sim

open Verif.Cov (Mat Pair)

/-! ### Sums -/

theorem xsum_finite {l : List XF} (h : Fin' (xsum l)) : ∀ x ∈ l, Fin' x := by
  obtain ⟨r, hr⟩ := h
  exact (foldl_finite hr).2

/-- A sum without `+inf`: `nan` if there is one, else `-inf` if there is one, else a number. -/
theorem xsum_cases {l : List XF} (hp : XF.pinf ∉ l) :
    (XF.nan ∈ l ∧ xsum l = .nan) ∨ (XF.nan ∉ l ∧ XF.ninf ∈ l ∧ xsum l = .ninf) ∨ ((∀ x ∈ l, Fin' x) ∧ Fin' (xsum l)) := by
  by_cases hn : XF.nan ∈ l
  · exact .inl ⟨hn, xsum_nan hn⟩
  by_cases hf : ∀ x ∈ l, Fin' x
  · obtain ⟨m, rfl⟩ := all_fin hf
    exact .inr (.inr ⟨hf, _, xsum_fin m⟩)
  · push Not at hf
    obtain ⟨x, hx, hne⟩ := hf
    have hxi : x = .ninf := by
      cases x with
      | nan => exact (hn hx).elim
      | pinf => exact (hp hx).elim
      | ninf => rfl
      | fin r => exact (hne ⟨r, rfl⟩).elim
    subst hxi
    refine .inr (.inl ⟨hn, hx, ?_⟩)
    have key : ∀ (l : List XF) (a : XF), XF.nan ∉ l → XF.pinf ∉ l → (Fin' a ∨ a = .ninf) → (XF.ninf ∈ l ∨ a = .ninf) →
        l.foldl (· + ·) a = .ninf := by
      intro l
      induction l with
      | nil =>
        intro a _ _ _ h
        rcases h with h | h
        · cases h
        · exact h
      | cons b l ih =>
        intro a h1 h2 h3 h4
        simp only [List.mem_cons, not_or] at h1 h2
        rw [List.foldl_cons]
        have hb : Fin' b ∨ b = .ninf := by
          cases b with
          | nan => exact (h1.1 rfl).elim
          | pinf => exact (h2.1 rfl).elim
          | ninf => exact .inr rfl
          | fin r => exact .inl ⟨r, rfl⟩
        refine ih _ h1.2 h2.2 ?_ ?_
        · rcases h3 with ⟨r, rfl⟩ | rfl <;> rcases hb with ⟨s, rfl⟩ | rfl
          · exact .inl ⟨_, rfl⟩
          · exact .inr rfl
          · exact .inr rfl
          · exact .inr rfl
        · rcases h4 with h4 | rfl
          · rcases List.mem_cons.mp h4 with rfl | h4
            · right
              rcases h3 with ⟨r, rfl⟩ | rfl <;> rfl
            · exact .inl h4
          · right
            rcases hb with ⟨s, rfl⟩ | rfl <;> rfl
    exact key l _ hn hp (.inl ⟨0, rfl⟩) (.inl hx)

theorem neg_one_mul_fin (r : ℝ) : (XF.fin (-1) * XF.fin r : XF) = .fin (-r) := by
  show XF.fin (-1 * r) = _
  rw [neg_one_mul]

theorem neg_one_mul_ninf : (XF.fin (-1) * XF.ninf : XF) = .pinf := by
  show XF.infSign (-(-1)) = _
  rw [XF.infSign, if_pos (by norm_num)]

theorem neg_one_mul_nan : (XF.fin (-1) * XF.nan : XF) = .nan := rfl

theorem fin_of_real {x : XF} : x.real? = none ↔ ¬ Fin' x := by
  cases x with
  | fin r => exact ⟨fun h => (by cases h), fun h => (h ⟨r, rfl⟩).elim⟩
  | nan => exact ⟨fun _ ⟨_, h⟩ => (by cases h), fun _ => rfl⟩
  | pinf => exact ⟨fun _ ⟨_, h⟩ => (by cases h), fun _ => rfl⟩
  | ninf => exact ⟨fun _ ⟨_, h⟩ => (by cases h), fun _ => rfl⟩

theorem reals_fin (l : List ℝ) : reals (l.map .fin) = l := by
  unfold reals
  rw [List.map_map]
  conv_rhs => rw [← List.map_id l]
  exact List.map_congr_left fun x _ => rfl

/-! ### The density -/

theorem normLogpdfX_fin {s : ℝ} (hs : 0 < s) (m x : ℝ) : normLogpdfX (.fin m) (.fin s) (.fin x) = .fin (normLogpdf m s x) := by
  unfold normLogpdfX
  rw [if_pos (show XF.lt (.fin 0) (.fin s) from hs)]
  have e1 : (XF.fin x - XF.fin m) / XF.fin s = .fin ((x + -m) / s) := by
    show (if s = 0 then _ else _) = _
    rw [if_neg hs.ne']
  have e2 : (XF.fin s).log = .fin (Real.log s) := if_pos hs
  rw [e1, e2]
  show (if (2 : ℝ) = 0 then _ else XF.fin (-((x + -m) / s * ((x + -m) / s)) / 2)) - _ - _ = _
  rw [if_neg two_ne_zero]
  show XF.fin (_ + -(Real.log (2 * Real.pi) / 2) + -Real.log s) = _
  congr 1
  unfold normLogpdf
  field_simp
  ring

theorem normLogpdfX_scale {s : ℝ} (hs : s ≤ 0) (m x : XF) : normLogpdfX m (.fin s) x = .nan :=
  if_neg fun h => absurd h (not_lt.mpr hs)

theorem normLogpdfX_nan_scale (m x : XF) : normLogpdfX m .nan x = .nan := if_neg fun h => h

theorem normLogpdfX_nan_mean (s x : XF) : normLogpdfX .nan s x = .nan := by
  unfold normLogpdfX
  split
  · cases x <;> cases s <;> rfl
  · rfl

theorem normLogpdfX_nan {s : ℝ} (m : ℝ) : normLogpdfX (.fin m) (.fin s) .nan = .nan := by
  unfold normLogpdfX
  split
  · rfl
  · rfl

theorem normLogpdfX_inf {s : ℝ} (hs : 0 < s) (m : ℝ) :
    normLogpdfX (.fin m) (.fin s) .pinf = .ninf ∧ normLogpdfX (.fin m) (.fin s) .ninf = .ninf := by
  have e2 : (XF.fin s).log = .fin (Real.log s) := if_pos hs
  unfold normLogpdfX
  rw [if_pos (show XF.lt (.fin 0) (.fin s) from hs), if_pos (show XF.lt (.fin 0) (.fin s) from hs), e2]
  have e1 : (XF.pinf - XF.fin m) / XF.fin s = .pinf := if_neg (not_lt.mpr hs.le)
  have e3 : (XF.ninf - XF.fin m) / XF.fin s = .ninf := if_neg (not_lt.mpr hs.le)
  rw [e1, e3]
  have e4 : (-(XF.pinf * XF.pinf) / XF.fin 2 : XF) = .ninf := if_neg (by norm_num)
  have e5 : (-(XF.ninf * XF.ninf) / XF.fin 2 : XF) = .ninf := if_neg (by norm_num)
  rw [e4, e5]
  exact ⟨rfl, rfl⟩

/-! ### Broadcasting -/

theorem bdim_ok {a b c : Nat} (h : bdim a b = .ok c) : (a = c ∨ a = 1) ∧ (b = c ∨ b = 1) ∧ (c = a ∨ c = b) := by
  unfold bdim at h
  split at h
  · cases h; rename_i h; exact ⟨.inl rfl, .inl h.symm, .inl rfl⟩
  · split at h
    · cases h; rename_i h; exact ⟨.inr h, .inl rfl, .inr rfl⟩
    · split at h
      · cases h; rename_i h; exact ⟨.inl rfl, .inr h, .inl rfl⟩
      · cases h

theorem bdims_ok {a b e c c' : Nat} (h : bdim a b = .ok c) (h' : bdim c e = .ok c') :
    (a = c' ∨ a = 1) ∧ (b = c' ∨ b = 1) ∧ (e = c' ∨ e = 1) := by
  obtain ⟨h1, h2, -⟩ := bdim_ok h
  obtain ⟨h3, h4, -⟩ := bdim_ok h'
  omega

theorem xbcol_fin (a : Arr) (i j : Nat) : xbcol (XArr.ofArr a) i j = .fin (bcol a i j) := by
  unfold xbcol bcol
  show (if a.cols = 1 then _ else _) = _
  split <;> rfl

/-! ### Agreement on numbers -/

theorem sum_blocks (f : Nat → Nat → ℝ) (r c : Nat) :
    ((List.range (r * c)).map fun k => f (k / c) (k % c)).sum = ∑ i ∈ Finset.range r, ∑ j ∈ Finset.range c, f i j := by
  rw [← List.sum_toFinset _ List.nodup_range, List.toFinset_range]
  induction r with
  | zero => simp
  | succ r ih =>
    rw [Finset.sum_range_succ, ← ih, Nat.succ_mul, Finset.sum_range_add]
    congr 1
    refine Finset.sum_congr rfl fun j hj => ?_
    have hj := Finset.mem_range.mp hj
    have hc : 0 < c := by omega
    rw [Nat.mul_comm r c, Nat.mul_add_div hc, Nat.div_eq_of_lt hj, Nat.mul_add_mod, Nat.mod_eq_of_lt hj, Nat.add_zero]

theorem mem_blocks {α : Type} (f : Nat → Nat → α) (r c : Nat) (y : α) :
    y ∈ (List.range (r * c)).map (fun k => f (k / c) (k % c)) ↔ ∃ i < r, ∃ j < c, f i j = y := by
  rw [List.mem_map]
  constructor
  · rintro ⟨k, hk, rfl⟩
    have hk := List.mem_range.mp hk
    have hc : 0 < c := by
      rcases Nat.eq_zero_or_pos c with rfl | h
      · simp at hk
      · exact h
    exact ⟨k / c, (Nat.div_lt_iff_lt_mul hc).mpr hk, k % c, Nat.mod_lt _ hc, rfl⟩
  · rintro ⟨i, hi, j, hj, rfl⟩
    refine ⟨i * c + j, List.mem_range.mpr ?_, ?_⟩
    · calc i * c + j < i * c + c := by omega
        _ = (i + 1) * c := by ring
        _ ≤ r * c := Nat.mul_le_mul_right c hi
    · have hc : 0 < c := by omega
      rw [Nat.mul_comm i c, Nat.mul_add_div hc, Nat.div_eq_of_lt hj, Nat.mul_add_mod, Nat.mod_eq_of_lt hj, Nat.add_zero]

theorem normNllX_fin (mean std : List ℝ) (dx : Arr) :
    normNllX (mean.map .fin) (std.map .fin) (XArr.ofArr dx) = normNll mean std dx := by
  unfold normNllX normNll
  simp only [List.length_map]
  show (bdim dx.cols mean.length >>= _) = _
  cases h1 : bdim dx.cols mean.length with
  | error e => rfl
  | ok c1 =>
    show (bdim c1 std.length >>= _) = (bdim c1 std.length >>= _)
    cases h2 : bdim c1 std.length with
    | error e => rfl
    | ok c =>
      obtain ⟨-, hm, hs⟩ := bdims_ok h1 h2
      show Except.ok _ = (if _ then _ else _)
      have hval : ∀ k ∈ List.range (dx.rows * c), normLogpdfX (xentry (mean.map .fin) (k % c)) (xentry (std.map .fin) (k % c))
          (xbcol (XArr.ofArr dx) (k / c) (k % c)) =
          normLogpdfX (.fin (bentry mean (k % c))) (.fin (bentry std (k % c))) (.fin (bcol dx (k / c) (k % c))) := by
        intro k hk
        have hk := List.mem_range.mp hk
        have hc : 0 < c := by
          rcases Nat.eq_zero_or_pos c with rfl | h
          · simp at hk
          · exact h
        rw [xentry_fin hm (Nat.mod_lt _ hc), xentry_fin hs (Nat.mod_lt _ hc), xbcol_fin]
      show Except.ok (XF.fin (-1) * xsum ((List.range (dx.rows * c)).map _)) = _
      rw [List.map_congr_left hval]
      split
      · rename_i h
        obtain ⟨hr, j, hj, hle⟩ := h
        rw [xsum_nan]
        · rfl
        · rw [mem_blocks (fun i j => normLogpdfX (.fin (bentry mean j)) (.fin (bentry std j)) (.fin (bcol dx i j)))]
          exact ⟨0, by omega, j, hj, normLogpdfX_scale hle _ _⟩
      · rename_i h
        have hval' : ∀ k ∈ List.range (dx.rows * c), normLogpdfX (.fin (bentry mean (k % c))) (.fin (bentry std (k % c)))
            (.fin (bcol dx (k / c) (k % c))) = XF.fin (normLogpdf (bentry mean (k % c)) (bentry std (k % c)) (bcol dx (k / c) (k % c))) := by
          intro k hk
          have hk := List.mem_range.mp hk
          have hc : 0 < c := by
            rcases Nat.eq_zero_or_pos c with rfl | h
            · simp at hk
            · exact h
          refine normLogpdfX_fin ?_ _ _
          by_contra hle
          refine h ⟨?_, k % c, Nat.mod_lt _ hc, not_lt.mp hle⟩
          rintro h0
          rw [h0] at hk
          simp at hk
        rw [List.map_congr_left hval', show (fun k => XF.fin (normLogpdf (bentry mean (k % c)) (bentry std (k % c)) (bcol dx (k / c) (k % c)))) =
          XF.fin ∘ fun k => normLogpdf (bentry mean (k % c)) (bentry std (k % c)) (bcol dx (k / c) (k % c)) from rfl, ← List.map_map, xsum_fin,
          neg_one_mul_fin, sum_blocks fun i j => normLogpdf (bentry mean j) (bentry std j) (bcol dx i j)]

theorem mvnLogpdfX_fin {d : Nat} {ps : List (Pair d)} (hp : ∀ p ∈ ps, 0 < p.1) (dev : Fin d → ℝ) :
    mvnLogpdfX ps (fun k => .fin (dev k)) = .fin (mvnLogpdf ps dev) := by
  unfold mvnLogpdfX mvnLogpdf
  have h1 : ∀ p : Pair d, xsum ((List.finRange d).map fun k => XF.fin (dev k) * .fin (p.2 k * Real.sqrt (1 / p.1))) =
      .fin (dotProduct dev p.2 * Real.sqrt (1 / p.1)) := by
    intro p
    have : (fun k => XF.fin (dev k) * .fin (p.2 k * Real.sqrt (1 / p.1)) : Fin d → XF) =
        XF.fin ∘ fun k => dev k * (p.2 k * Real.sqrt (1 / p.1)) := rfl
    rw [this, ← List.map_map, xsum_fin, ← List.ofFn_eq_map, List.sum_ofFn, dotProduct, Finset.sum_mul]
    congr 1
    exact Finset.sum_congr rfl fun k _ => by ring
  have h2 : ∀ p ∈ ps, xsum ((List.finRange d).map fun k => XF.fin (dev k) * .fin (p.2 k * Real.sqrt (1 / p.1))) *
      xsum ((List.finRange d).map fun k => XF.fin (dev k) * .fin (p.2 k * Real.sqrt (1 / p.1))) =
      XF.fin (dotProduct dev p.2 ^ 2 / p.1) := by
    intro p hps
    rw [h1]
    show XF.fin (_ * _) = _
    congr 1
    rw [show dotProduct dev p.2 * Real.sqrt (1 / p.1) * (dotProduct dev p.2 * Real.sqrt (1 / p.1)) =
      dotProduct dev p.2 ^ 2 * (Real.sqrt (1 / p.1) * Real.sqrt (1 / p.1)) by ring,
      Real.mul_self_sqrt (by have := hp p hps; positivity)]
    ring
  rw [List.map_congr_left h2, show (fun p : Pair d => XF.fin (dotProduct dev p.2 ^ 2 / p.1)) =
    XF.fin ∘ fun p : Pair d => dotProduct dev p.2 ^ 2 / p.1 from rfl, ← List.map_map, xsum_fin]
  rfl

theorem psdCheck_pos {d : Nat} {ps : List (Pair d)} {u : Unit} (h : psdCheck ps = .ok u) : ∀ p ∈ ps, 0 < p.1 := by
  unfold psdCheck at h
  split at h
  · cases h
  · rename_i h1
    split at h
    · cases h
    · rename_i h2
      intro p hp
      by_contra hle
      rcases lt_or_eq_of_le (not_lt.mp hle) with h | h
      · exact h1 ⟨p, hp, h⟩
      · exact h2 ⟨p, hp, h⟩

theorem mvnNllX_fin (eigh : (d : Nat) → Mat d → List (Pair d)) (mean std : List ℝ) (cor dx : Arr) :
    mvnNllX eigh (mean.map .fin) (std.map .fin) cor (XArr.ofArr dx) = mvnNll eigh mean std cor dx := by
  unfold mvnNllX mvnNll
  rw [reals_fin]
  simp only [List.length_map]
  by_cases h1 : ¬ (cor.rows = std.length ∧ cor.cols = std.length)
  · rw [if_pos h1, if_pos h1]
  rw [if_neg h1, if_neg h1]
  by_cases h2 : mean.length ≠ std.length ∨ std.length = 0
  · rw [if_pos h2, if_pos h2]
  rw [if_neg h2, if_neg h2, if_neg]
  swap
  · rintro ⟨s, hs, hn⟩
    obtain ⟨r, -, rfl⟩ := List.mem_map.mp hs
    cases hn
  unfold mvnSumX
  cases h3 : psdCheck (eigh std.length (covMat std.length std cor)) with
  | error e => rfl
  | ok u =>
    show (if dx.cols = std.length ∨ dx.cols = 1 then _ else _) = (if dx.cols = std.length ∨ dx.cols = 1 then _ else _)
    split
    · show Except.ok (XF.fin (-1) * xsum ((List.range dx.rows).map _)) = _
      have hv : ∀ i ∈ List.range dx.rows, mvnLogpdfX (eigh std.length (covMat std.length std cor))
          (fun k => xbcol (XArr.ofArr dx) i k - (mean.map XF.fin).getD k .nan) =
          XF.fin (mvnLogpdf (eigh std.length (covMat std.length std cor)) fun k => bcol dx i k - mean.getD k 0) := by
        intro i _
        rw [← mvnLogpdfX_fin (psdCheck_pos h3)]
        congr 1
        funext k
        have hk : (k : Nat) < mean.length := by have := k.2; omega
        rw [xbcol_fin, List.getD_eq_getElem _ _ (by simpa using hk), List.getD_eq_getElem _ _ hk, List.getElem_map]
        show XF.fin (_ + -_) = _
        rw [← sub_eq_add_neg]
      rw [List.map_congr_left hv, show (fun i => XF.fin (mvnLogpdf (eigh std.length (covMat std.length std cor)) fun k =>
        bcol dx i k - mean.getD k 0)) = XF.fin ∘ fun i => mvnLogpdf (eigh std.length (covMat std.length std cor)) fun k =>
        bcol dx i k - mean.getD k 0 from rfl, ← List.map_map, xsum_fin, neg_one_mul_fin, ← List.sum_toFinset _ List.nodup_range,
        List.toFinset_range]
    · rfl

/-- On numbers the Gaussian likelihood is that of `SimLik`. -/
theorem gaussNllX_fin (eigh : (d : Nat) → Mat d → List (Pair d)) (mean std : List ℝ) (cor : Option Arr) (dx : Arr) :
    gaussNllX eigh (mean.map .fin) (std.map .fin) cor (XArr.ofArr dx) = gaussNll eigh mean std cor dx := by
  cases cor with
  | none => exact normNllX_fin mean std dx
  | some c => exact mvnNllX_fin eigh mean std c dx

end Verif.Sim
