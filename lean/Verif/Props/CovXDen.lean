import Verif.Props.CovX
import Verif.Props.Cov

/-!
# C98, continued: denoising of matrices with missing or infinite entries
-/

namespace Verif.Cov

open Verif.Sim (xsum xmean xclip clip1 Fin' xsum_fin xsum_nan xmean_fin)

variable {n : Nat} {eigh : Mat n → List (Pair n)} {svdU : List (Fin n → ℝ) → List (Fin n → ℝ)}
  {eighX : XMat n → Py (List (XPair n))} {svdX : List (Fin n → XF) → Py (List (Fin n → XF))} {argsort : List XF → List Nat}

/-! ### Agreement on numbers -/

theorem takeIdx_map {α β : Type} (f : α → β) (l : List α) (idx : List Nat) : takeIdx (l.map f) idx = (takeIdx l idx).map f := by
  unfold takeIdx
  rw [List.map_filterMap]
  refine List.filterMap_congr fun i _ => ?_
  rw [List.getElem?_map]

theorem sliceFrom_map {α β : Type} (f : α → β) (l : List α) (k : Int) : sliceFrom (l.map f) k = (sliceFrom l k).map f := by
  unfold sliceFrom
  rw [List.length_map]
  split <;> rw [List.map_drop]

theorem sliceTo_map {α β : Type} (f : α → β) (l : List α) (k : Int) : sliceTo (l.map f) k = (sliceTo l k).map f := by
  unfold sliceTo
  rw [List.length_map]
  split <;> rw [List.map_take]

theorem eigToCorX_agrees (ps : List (Pair n)) : eigToCorX (ps.map .of) = .ofMat (eigToCor ps) := by
  funext i j
  show (if i = j then _ else xclip (eigSumX (ps.map .of) i j)) = XF.fin (if i = j then 1 else clip1 (eigSum ps i j))
  have : eigSumX (ps.map .of) i j = .fin (eigSum ps i j) := by
    unfold eigSumX eigSum
    rw [List.map_map, ← xsum_fin, List.map_map]
    rfl
  rw [this]
  split <;> rfl

theorem map_of_fst (ps : List (Pair n)) : (ps.map XPair.of).map (·.1) = (ps.map (·.1)).map .fin := by
  rw [List.map_map, List.map_map]; rfl

theorem map_of_snd (ps : List (Pair n)) : (ps.map XPair.of).map (·.2) = (ps.map (·.2)).map xvec := by
  rw [List.map_map, List.map_map]; rfl

theorem corToEigX_agrees (he : EighX eigh eighX) {C : Mat n} (hC : C.IsSymm) :
    corToEigX eighX argsort (.ofMat C) = .ok ((corToEig eigh (fun l => argsort (l.map .fin)) C true none).map .of) := by
  unfold corToEigX
  rw [he.num C hC]
  simp only [bind, Except.bind]
  rw [map_of_fst, takeIdx_map]
  rfl

theorem truncateEigX_agrees (lam : List ℝ) (T : Nat) : truncateEigX (lam.map .fin) T = (truncateEig lam T).map .fin := by
  unfold truncateEigX truncateEig
  rw [List.length_map]
  split
  · rw [List.map_append, List.map_take, List.map_replicate]
  · rfl

theorem flattenTailX_agrees (lam : List ℝ) (k : Int) : flattenTailX (lam.map .fin) k = (flattenTail lam k).map .fin := by
  unfold flattenTailX flattenTail
  dsimp only
  rw [sliceFrom_map, List.length_map, List.length_map, List.map_append, List.map_take, List.map_replicate]
  by_cases h : sliceFrom lam k = []
  · rw [h]; rfl
  · rw [xmean_fin h]

open Classical in
theorem eigenValuesDenoiseX_agrees (lam : List ℝ) (T : Nat) : eigenValuesDenoiseX (lam.map .fin) T =
    (eigenValuesDenoise lam T none).map fun r => (r.1.map .fin, r.2.1) := by
  unfold eigenValuesDenoiseX eigenValuesDenoise
  dsimp only
  rw [truncateEigX_agrees, List.length_map, ← List.map_take, ← apply_ite (List.map XF.fin), mpFitX_agrees]
  cases mpFit T lam.length (if T < lam.length then (truncateEig lam T).take (lam.length - T) else truncateEig lam T) with
  | error e => rfl
  | ok var =>
    have hk : ((truncateEig lam T).map XF.fin).countP (fun x => decide (XF.lt (.fin (mpSupport var T lam.length).2) x ∨
        XF.eq (.fin (mpSupport var T lam.length).2) x)) = (truncateEig lam T).countP fun x => decide ((mpSupport var T lam.length).2 ≤ x) := by
      rw [List.countP_map]
      refine congrArg (fun p => List.countP p _) (funext fun x => ?_)
      show decide ((mpSupport var T lam.length).2 < x ∨ (mpSupport var T lam.length).2 = x) = _
      simp only [le_iff_lt_or_eq]
    simp only [bind, Except.bind, Except.map]
    rw [hk, flattenTailX_agrees]

theorem eigCompleteX_agrees (hs : SvdX svdU svdX) (ps : List (Pair n)) :
    eigCompleteX svdX (ps.map .of) = (eigComplete svdU ps).map (List.map .of) := by
  unfold eigCompleteX eigComplete
  rw [List.length_map]
  by_cases h0 : ps.length = 0
  · rw [if_pos h0, if_pos h0]; rfl
  rw [if_neg h0, if_neg h0]
  by_cases h1 : ps.length < n
  · rw [if_pos h1, if_pos h1, map_of_snd, hs.num, map_of_fst, xsum_fin]
    have hne : (n : ℝ) - ps.length ≠ 0 := sub_ne_zero.mpr (by exact_mod_cast h1.ne')
    simp only [bind, Except.bind, Except.map]
    rw [List.map_append, ← List.map_drop, List.map_map, List.map_map]
    refine congrArg (fun l => Except.ok (_ ++ l)) (List.map_congr_left fun u _ => ?_)
    show ((XF.fin (n + -(ps.map (·.1)).sum) / XF.fin (n - ps.length) : XF), xvec u) = _
    rw [XF.div_fin hne]
    rfl
  · rw [if_neg h1, if_neg h1]; rfl

/-- C98. A symmetric matrix of numbers is denoised on floats as in C39. -/
theorem corDenoiseX_agrees (he : EighX eigh eighX) (hs : SvdX svdU svdX) {C : Mat n} (hC : C.IsSymm) (T : Nat) (k : Option Int) :
    corDenoiseX eighX argsort svdX T k (.ofMat C) =
      (corDenoise eigh (fun l => argsort (l.map .fin)) svdU T k (.square C)).map fun r => (.ofMat r.1, r.2) := by
  unfold corDenoiseX corDenoise
  rw [corToEigX_agrees he hC]
  dsimp only
  generalize corToEig eigh (fun l => argsort (l.map .fin)) C true none = ps
  simp only [bind, Except.bind]
  cases k with
  | none =>
    simp only
    rw [map_of_fst, eigenValuesDenoiseX_agrees]
    cases eigenValuesDenoise (ps.map (·.1)) T none with
    | error e => rfl
    | ok r =>
      obtain ⟨lam, info, l⟩ := r
      simp only [Except.map]
      rw [map_of_snd, ← eigToCorX_agrees, List.zip_map, show (Prod.map XF.fin xvec : Pair n → XPair n) = XPair.of from rfl]
  | some k =>
    simp only
    rw [sliceTo_map, eigCompleteX_agrees hs]
    cases eigComplete svdU (sliceTo ps k) with
    | error e => rfl
    | ok e =>
      simp only [Except.map]
      rw [eigToCorX_agrees]

theorem covToCor_symm {C : Mat n} (hC : C.IsSymm) (reg : ℝ) : (covToCor C reg).1.IsSymm := by
  ext i j
  show clip1 _ = clip1 _
  rw [hC.apply i j, mul_comm]

/-- C98. A symmetric covariance matrix of numbers is denoised on floats as in C39. -/
theorem covDenoiseX_agrees (he : EighX eigh eighX) (hs : SvdX svdU svdX) {C : Mat n} (hC : C.IsSymm) (T : Nat) (k : Option Int) :
    covDenoiseX eighX argsort svdX T k (.ofMat C) =
      (covDenoise eigh (fun l => argsort (l.map .fin)) svdU T k C).map fun r => (.ofMat r.1, r.2) := by
  unfold covDenoiseX covDenoise
  rw [covToCorX_agrees C (by unfold covReg; positivity)]
  simp only
  rw [corDenoiseX_agrees he hs (covToCor_symm hC _)]
  cases corDenoise eigh (fun l => argsort (l.map .fin)) svdU T k (.square (covToCor C covReg).1) <;> rfl

/-! ### Missing values -/

/-- A product with a missing factor in the sum. -/
theorem eigSumX_nan {ps : List (XPair n)} {i : Fin n} (h : ∃ p ∈ ps, p.2 i = .nan) (j : Fin n) : eigSumX ps i j = .nan := by
  obtain ⟨p, hp, hi⟩ := h
  refine xsum_nan (List.mem_map.mpr ⟨p, hp, ?_⟩)
  rw [hi]
  cases p.1 * p.2 j <;> rfl

/-- The result of a denoising with missing values: ones on the diagonal, `nan` elsewhere. -/
def allMissing : XMat n := fun i j => if i = j then .fin 1 else .nan

theorem eigToCorX_missing {ps : List (XPair n)} (h : ∃ p ∈ ps, ∀ i, p.2 i = .nan) : eigToCorX ps = allMissing := by
  obtain ⟨p, hp, hi⟩ := h
  funext i j
  unfold eigToCorX allMissing
  split
  · rfl
  · rw [eigSumX_nan ⟨p, hp, hi i⟩]; rfl

/-- C98. Denoising a correlation matrix with a missing or infinite entry on or below the diagonal raises, or every correlation of the
result is missing, also those of the assets with complete data. The errors: `LinAlgError`, `AssertionError` for a `k` that selects
nothing, `ZeroDivisionError` without time steps. -/
theorem cor_denoise_missing (he : EighX eigh eighX) (hs : SvdX svdU svdX) (ha : ∀ l, (argsort l).Perm (List.range l.length))
    {cor : XMat n} (h : ∃ i j, j ≤ i ∧ (cor i j).real? = none) (T : Nat) (k : Option Int) :
    corDenoiseX eighX argsort svdX T k cor = .error .linAlgError ∨
    (corDenoiseX eighX argsort svdX T k cor = .error .assertionError ∧ ∃ k', k = some k' ∧ (k' = 0 ∨ k' ≤ -n)) ∨
    (corDenoiseX eighX argsort svdX T k cor = .error .zeroDivisionError ∧ k = none ∧ T = 0) ∨
    ∃ info, corDenoiseX eighX argsort svdX T k cor = .ok (allMissing, info) := by
  have hn : 0 < n := by obtain ⟨i, _⟩ := h; exact i.pos
  unfold corDenoiseX corToEigX
  rcases he.special cor h with e | e
  · rw [e]; exact .inl rfl
  rw [e]
  simp only [bind, Except.bind]
  have hps : takeIdx (List.replicate n ((.nan, fun _ => .nan) : XPair n))
      (argsort ((List.replicate n ((.nan, fun _ => .nan) : XPair n)).map (·.1))).reverse = List.replicate n (.nan, fun _ => .nan) := by
    refine List.perm_replicate.mp (takeIdx_perm _ ((List.reverse_perm _).trans ?_))
    have := ha ((List.replicate n ((.nan, fun _ => .nan) : XPair n)).map (·.1))
    rwa [List.length_map] at this
  rw [hps]
  cases k with
  | none =>
    simp only
    rw [List.map_replicate, List.map_replicate]
    unfold eigenValuesDenoiseX
    simp only [bind, Except.bind]
    rw [List.length_replicate]
    have htr : truncateEigX (List.replicate n .nan) T = List.replicate (min T n) .nan ++ List.replicate (n - T) (.fin 0) := by
      unfold truncateEigX
      rw [List.length_replicate]
      split
      · next hlt => rw [List.take_replicate]
      · next hge => rw [min_eq_right (not_lt.mp hge), Nat.sub_eq_zero_of_le (not_lt.mp hge)]; simp
    by_cases hT : T = 0
    · refine .inr (.inr (.inl ⟨?_, trivial, hT⟩))
      rw [show mpFitX T n _ = .error .zeroDivisionError from if_pos (.inr hT)]
    · refine .inr (.inr (.inr ?_))
      rw [mp_fit_missing (by omega) hn]
      · refine ⟨_, congrArg (fun m => Except.ok (m, _)) (eigToCorX_missing ?_)⟩
        have hlen : ∀ (l : List XF) (k : Int), (flattenTailX l k).length = l.length := by
          intro l k
          have : (sliceFrom l k).length ≤ l.length := by
            unfold sliceFrom
            split <;> rw [List.length_drop] <;> omega
          unfold flattenTailX
          rw [List.length_append, List.length_take, List.length_replicate]
          omega
        generalize hl : flattenTailX _ _ = lam
        have hlam : lam.length = n := by
          rw [← hl, hlen, htr, List.length_append, List.length_replicate, List.length_replicate]
          omega
        cases lam with
        | nil => simp at hlam; omega
        | cons a l =>
          refine ⟨(a, fun _ => .nan), ?_, fun _ => rfl⟩
          rw [show List.replicate n (fun _ => XF.nan : Fin n → XF) = (fun _ => XF.nan) :: List.replicate (n - 1) (fun _ => XF.nan) by
            rw [← List.replicate_succ, Nat.sub_add_cancel hn], List.zip_cons_cons]
          exact List.mem_cons_self
      · rw [htr]
        have h1 : 0 < min T n := by omega
        obtain ⟨m, hm⟩ : ∃ m, min T n = m + 1 := ⟨min T n - 1, by omega⟩
        rw [hm, List.replicate_succ]
        split
        · next hlt =>
          obtain ⟨q, hq⟩ : ∃ q, n - T = q + 1 := ⟨n - T - 1, by omega⟩
          rw [hq, List.cons_append, List.take_succ_cons]
          exact List.mem_cons_self
        · exact List.mem_cons_self
  | some k =>
    simp only
    have hsl : ∃ m, sliceTo (List.replicate n ((.nan, fun _ => .nan) : XPair n)) k = List.replicate m (.nan, fun _ => .nan) ∧
        (m = 0 → k = 0 ∨ k ≤ -n) := by
      unfold sliceTo
      split
      · exact ⟨min k.toNat n, List.take_replicate .., fun h => .inl (by omega)⟩
      · rw [List.length_replicate]
        exact ⟨min (n + k).toNat n, List.take_replicate .., fun h => .inr (by omega)⟩
    obtain ⟨m, hm, hz⟩ := hsl
    rw [hm]
    unfold eigCompleteX
    rw [List.length_replicate]
    by_cases h0 : m = 0
    · rw [if_pos h0]
      exact .inr (.inl ⟨rfl, k, rfl, hz h0⟩)
    rw [if_neg h0]
    have hmem : ((.nan, fun _ => .nan) : XPair n) ∈ List.replicate m ((.nan, fun _ => .nan) : XPair n) :=
      List.mem_replicate.mpr ⟨h0, rfl⟩
    by_cases h1 : m < n
    · rw [if_pos h1]
      rcases hs.special ((List.replicate m ((.nan, fun _ => .nan) : XPair n)).map (·.2))
        ⟨_, List.mem_map_of_mem hmem, ⟨0, hn⟩, rfl⟩ with e | e
      · rw [e]; exact .inl rfl
      · rw [e]
        exact .inr (.inr (.inr ⟨_, congrArg (fun m => Except.ok (m, _)) (eigToCorX_missing
          ⟨_, List.mem_append_left _ hmem, fun _ => rfl⟩)⟩))
    · rw [if_neg h1]
      exact .inr (.inr (.inr ⟨_, congrArg (fun m => Except.ok (m, _)) (eigToCorX_missing ⟨_, hmem, fun _ => rfl⟩)⟩))

/-- C98. Only the entries on and below the diagonal are read: a missing value above it is not noticed. -/
theorem cor_denoise_lower (he : EighX eigh eighX) {m m' : XMat n} (h : ∀ i j, j ≤ i → m i j = m' i j) (T : Nat) (k : Option Int) :
    corDenoiseX eighX argsort svdX T k m = corDenoiseX eighX argsort svdX T k m' := by
  unfold corDenoiseX corToEigX
  rw [he.lower m m' h]

/-- C98. The same for covariance matrices. -/
theorem cov_denoise_lower (he : EighX eigh eighX) {m m' : XMat n} (h : ∀ i j, j ≤ i → m i j = m' i j) (T : Nat) (k : Option Int) :
    covDenoiseX eighX argsort svdX T k m = covDenoiseX eighX argsort svdX T k m' := by
  have hstd : (covToCorX m (.fin covReg)).2 = (covToCorX m' (.fin covReg)).2 := by
    funext i
    show XF.sqrt (npMaximum (m i i) _) = XF.sqrt (npMaximum (m' i i) _)
    rw [h i i le_rfl]
  have hcor : ∀ i j, j ≤ i → (covToCorX m (.fin covReg)).1 i j = (covToCorX m' (.fin covReg)).1 i j := by
    intro i j hij
    show xclip (m i j / (_ * _)) = xclip (m' i j / (_ * _))
    have hi := congrFun hstd i
    have hj := congrFun hstd j
    change covStdX m _ i = covStdX m' _ i at hi
    change covStdX m _ j = covStdX m' _ j at hj
    rw [h i j hij, hi, hj]
  unfold covDenoiseX
  rw [cor_denoise_lower he hcor, hstd]

/-- C98. A missing or infinite variance, or a missing covariance below the diagonal: the denoised covariance matrix has `nan` in
every place off the diagonal; its diagonal has the variances, with the floor `1e-6`. -/
theorem cov_denoise_missing (he : EighX eigh eighX) (hs : SvdX svdU svdX) (ha : ∀ l, (argsort l).Perm (List.range l.length))
    {cov : XMat n} (h : (∃ i j, j ≤ i ∧ cov i j = .nan) ∨ ∃ i, cov i i = .pinf) {T : Nat} {k : Option Int} {m : XMat n} {info : Info}
    (hr : covDenoiseX eighX argsort svdX T k cov = .ok (m, info)) :
    (∀ i j, i ≠ j → m i j = .nan) ∧ (∀ i (v : ℝ), cov i i = .fin v → m i i = .fin (max v covReg)) := by
  have hreg : 0 < covReg := by unfold covReg; positivity
  have hc : ∃ i j, j ≤ i ∧ ((covToCorX cov (.fin covReg)).1 i j).real? = none := by
    rcases h with ⟨i, j, hij, h⟩ | ⟨i, h⟩
    · exact ⟨i, j, hij, by rw [(cor_missing_iff hreg).mpr (.inl h)]; rfl⟩
    · refine ⟨i, i, le_rfl, ?_⟩
      rw [(cor_missing_iff hreg).mpr (.inr (.inr (.inr ⟨?_, .inl h⟩)))]
      · rfl
      · rw [h]; rintro ⟨r, h⟩; cases h
  unfold covDenoiseX at hr
  simp only [bind, Except.bind] at hr
  rcases cor_denoise_missing he hs ha hc T k with e | ⟨e, -⟩ | ⟨e, -⟩ | ⟨inf, e⟩ <;> rw [e] at hr
  · cases hr
  · cases hr
  · cases hr
  · cases hr
    constructor
    · intro i j hij
      show allMissing i j * _ = _
      unfold allMissing
      rw [if_neg hij]
      cases (covToCorX cov (.fin covReg)).2 i * (covToCorX cov (.fin covReg)).2 j <;> rfl
    · intro i v hv
      show allMissing i i * (covStdX cov (.fin covReg) i * covStdX cov (.fin covReg) i) = _
      have : covStdX cov (.fin covReg) i = .fin (Real.sqrt (max v covReg)) := by
        unfold covStdX
        rw [hv, npMaximum_fin]
        exact if_neg (not_lt.mpr (hreg.le.trans (le_max_right _ _)))
      rw [this]
      unfold allMissing
      rw [if_pos rfl]
      show XF.fin (1 * (_ * _)) = _
      rw [one_mul, Real.mul_self_sqrt (hreg.le.trans (le_max_right _ _))]

/-- C98. An infinite covariance is not noticed: between assets with ordinary variances it counts as a perfect correlation, as would any
number from the product of the deviations on. -/
theorem cov_denoise_infinite {cov cov' : XMat n} {i j : Fin n} (hi : Fin' (cov i i)) (hj : Fin' (cov j j)) (hij : i ≠ j)
    (hc : cov i j = .pinf) {r s t : ℝ} (hc' : cov' i j = .fin r) (hs : covStdX cov (.fin covReg) i = .fin s)
    (ht : covStdX cov (.fin covReg) j = .fin t) (hr : s * t ≤ r) (h : ∀ a b, (a, b) ≠ (i, j) → cov a b = cov' a b) (T : Nat) (k : Option Int) :
    covDenoiseX eighX argsort svdX T k cov = covDenoiseX eighX argsort svdX T k cov' := by
  have hreg : 0 < covReg := by unfold covReg; positivity
  have hstd : covStdX cov (.fin covReg) = covStdX cov' (.fin covReg) := by
    funext a
    unfold covStdX
    rw [h a a (fun e => hij ((Prod.mk.inj e).1.symm.trans (Prod.mk.inj e).2))]
  have hpos : ∀ (a : Fin n) (s : ℝ), Fin' (cov a a) → covStdX cov (.fin covReg) a = .fin s → 0 < s := by
    rintro a s ⟨v, hv⟩ e
    obtain ⟨s', h1, h2⟩ := (covStdX_cases (cov := cov) hreg a).2.2 (by rw [hv]; nofun) (by rw [hv]; nofun)
    rw [h2] at e
    cases e
    exact h1
  have hst : 0 < s * t := mul_pos (hpos i s hi hs) (hpos j t hj ht)
  have hcor : covToCorX cov (.fin covReg) = covToCorX cov' (.fin covReg) := by
    refine Prod.ext (funext fun a => funext fun b => ?_) hstd
    by_cases hab : (a, b) = (i, j)
    · cases hab
      rw [(cor_infinite hreg hi hj).1 hc]
      show _ = xclip (cov' i j / (covStdX cov' _ i * covStdX cov' _ j))
      rw [← hstd, hs, ht, hc']
      show _ = xclip (.fin r / .fin (s * t))
      rw [XF.div_fin hst.ne']
      show _ = XF.fin (max (-1) (min 1 (r / (s * t))))
      rw [min_eq_left ((one_le_div hst).mpr hr), max_eq_right (by norm_num)]
    · show xclip (cov a b / (covStdX cov _ a * covStdX cov _ b)) = xclip (cov' a b / (covStdX cov' _ a * covStdX cov' _ b))
      rw [h a b hab, hstd]
  unfold covDenoiseX
  rw [hcor]

/-! ### The specifications can be met -/

open Classical in
/-- Every real `eigh` has a version on floats. -/
theorem eighX_exists (eigh : Mat n → List (Pair n)) : ∃ f, EighX eigh f := by
  refine ⟨fun m => if ∃ i j, j ≤ i ∧ (m i j).real? = none then .error .linAlgError
    else .ok ((eigh fun i j => ((if j ≤ i then m i j else m j i).real?).getD 0).map .of), ?_, ?_, ?_⟩
  · intro m hm
    rw [if_neg (by rintro ⟨i, j, -, h⟩; cases h)]
    refine congrArg (fun x => Except.ok ((eigh x).map XPair.of)) (funext fun i => funext fun j => ?_)
    split
    · rfl
    · exact hm.apply i j
  · intro m m' h
    have h1 : (∃ i j, j ≤ i ∧ (m i j).real? = none) ↔ ∃ i j, j ≤ i ∧ (m' i j).real? = none := by
      constructor <;> rintro ⟨i, j, hij, e⟩
      · exact ⟨i, j, hij, by rw [← h i j hij]; exact e⟩
      · exact ⟨i, j, hij, by rw [h i j hij]; exact e⟩
    have h2 : (fun i j => ((if j ≤ i then m i j else m j i).real?).getD 0) =
        fun i j => ((if j ≤ i then m' i j else m' j i).real?).getD (0 : ℝ) := by
      funext i j
      split
      · next hij => rw [h i j hij]
      · next hij => rw [h j i (not_le.mp hij).le]
    rw [h2]
    by_cases hc : ∃ i j, j ≤ i ∧ (m i j).real? = none
    · rw [if_pos hc, if_pos (h1.mp hc)]
    · rw [if_neg hc, if_neg (fun h => hc (h1.mpr h))]
  · intro m h
    exact .inl (if_pos h)

open Classical in
/-- Every real `svd` has a version on floats. -/
theorem svdX_exists (svdU : List (Fin n → ℝ) → List (Fin n → ℝ)) : ∃ f, SvdX svdU f := by
  refine ⟨fun vs => if ∃ v ∈ vs, ∃ i, (v i).real? = none then .error .linAlgError
    else .ok ((svdU (vs.map fun v i => (v i).real?.getD 0)).map xvec), ?_, ?_⟩
  · intro vs
    rw [if_neg]
    · rw [List.map_map]
      have : ((fun v i => (v i).real?.getD 0) ∘ xvec : (Fin n → ℝ) → Fin n → ℝ) = id := rfl
      rw [this, List.map_id]
    · rintro ⟨v, hv, i, h⟩
      obtain ⟨w, -, rfl⟩ := List.mem_map.mp hv
      cases h
  · intro vs h
    exact .inl (if_pos h)

/-! ### Cases -/

/-- Two assets, the first without a variance: no correlation, but the second keeps its own. -/
noncomputable def covNan : XMat 2 := ![![.nan, .fin 1], ![.fin 1, .fin 4]]

example : (covToCorX covNan (.fin covReg)).1 0 1 = .nan :=
  (cor_missing_iff (by unfold covReg; positivity)).mpr (.inr (.inl rfl))

example : (covToCorX covNan (.fin covReg)).1 1 1 ≠ .nan := by
  rw [Ne, cor_missing_iff (by unfold covReg; positivity)]
  rintro (h | h | h | ⟨h, -⟩)
  · cases h
  · cases h
  · cases h
  · exact h ⟨4, rfl⟩

/-- Denoising it gives nothing but the variance of the second. -/
example {eigh : Mat 2 → List (Pair 2)} {svdU : List (Fin 2 → ℝ) → List (Fin 2 → ℝ)} {eighX : XMat 2 → Py (List (XPair 2))}
    {svdX : List (Fin 2 → XF) → Py (List (Fin 2 → XF))} (he : EighX eigh eighX) (hs : SvdX svdU svdX)
    (ha : ∀ l, (argsort l).Perm (List.range l.length)) {m : XMat 2} {info : Info}
    (hr : covDenoiseX eighX argsort svdX 10 none covNan = .ok (m, info)) : m 0 1 = .nan ∧ m 1 1 = .fin (max 4 covReg) :=
  ⟨(cov_denoise_missing he hs ha (.inl ⟨0, 0, le_rfl, rfl⟩) hr).1 0 1 (by decide),
    (cov_denoise_missing he hs ha (.inl ⟨0, 0, le_rfl, rfl⟩) hr).2 1 4 rfl⟩

/-- `cov_reg = 0` and a constant asset. -/
example : (covToCorX (.ofMat ![![0, 0], ![0, 1]] : XMat 2) (.fin 0)).1 0 1 = .nan := (cor_zero_reg (by norm_num)).1 rfl

/-- An infinite covariance. -/
example : (covToCorX (![![.fin 1, .pinf], ![.pinf, .fin 1]] : XMat 2) (.fin covReg)).1 0 1 = .fin 1 :=
  (cor_infinite (by unfold covReg; positivity) ⟨1, rfl⟩ ⟨1, rfl⟩).1 rfl

/-- A missing eigenvalue. -/
example : mpFitX 10 2 [.fin 1, .nan] = .ok 0 := mp_fit_missing (by norm_num) (by norm_num) (by simp)

end Verif.Cov
