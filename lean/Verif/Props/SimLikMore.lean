import Verif.Props.SimLik
import Verif.Props.SimOUFit

/-!
# The likelihood of several variates: order, shapes, errors (C73, C74)
-/

namespace Verif.Sim

open Verif.Cov Matrix

variable {eigh : (d : Nat) → Mat d → List (Pair d)} {d : Nat} {mean std mean' std' drift vol : List ℝ} {c c' dx dx' x : Arr} {dt : ℝ}

/-! ### The order of the variates -/

theorem logDensity_permute (σ : Equiv.Perm (Fin d)) (μ y : Fin d → ℝ) (S : Mat d) :
    logDensity (μ ∘ σ) (S.submatrix σ σ) (y ∘ σ) = logDensity μ S y := by
  unfold logDensity
  rw [det_submatrix_equiv_self, inv_submatrix_equiv, submatrix_mulVec_equiv]
  have : y ∘ σ - μ ∘ σ = (y - μ) ∘ σ := rfl
  have h2 : ((y - μ) ∘ σ) ∘ σ.symm = y - μ := by funext i; simp
  rw [this, h2, comp_equiv_dotProduct_comp_equiv]

theorem posDef_permute (σ : Equiv.Perm (Fin d)) {S : Mat d} (h : S.PosDef) : (S.submatrix σ σ).PosDef :=
  h.submatrix σ.injective

/-- C73. The order of the variates does not matter: permuting the means, the standard deviations, the rows and columns of
the correlation matrix and the columns of the data leaves the likelihood unchanged. -/
theorem nll_permute (he : EighAll eigh) (σ : Equiv.Perm (Fin d)) (hd : 0 < d) (hm : mean.length = d) (hs : std.length = d)
    (hm' : mean'.length = d) (hs' : std'.length = d) (hc : SymArr d c) (hc' : SymArr d c') (hx : dx.cols = d)
    (hx' : dx'.cols = d) (hr : dx'.rows = dx.rows) (em : ∀ i : Fin d, mean'.getD i 0 = mean.getD (σ i) 0)
    (es : ∀ i : Fin d, std'.getD i 0 = std.getD (σ i) 0) (ec : ∀ i j : Fin d, c'.get i j = c.get (σ i) (σ j))
    (ex : ∀ t < dx.rows, ∀ i : Fin d, dx'.get t i = dx.get t (σ i)) :
    ((∃ v, gaussNll eigh mean std (some c) dx = .ok v ∧ gaussNll eigh mean' std' (some c') dx' = .ok v) ∨
      (∃ e e', gaussNll eigh mean std (some c) dx = .error e ∧ gaussNll eigh mean' std' (some c') dx' = .error e')) ∧
    ((∀ k < d, 0 < std.getD k 0) → gaussNll eigh mean' std' none dx' = gaussNll eigh mean std none dx) := by
  have hS : covOf d (fun k => std'.getD k 0) c' = (covOf d (fun k => std.getD k 0) c).submatrix σ σ := by
    ext i j
    simp only [covOf, submatrix_apply, es, ec]
  have hM : (fun k : Fin d => mean'.getD k 0) = (fun k : Fin d => mean.getD k 0) ∘ σ := funext em
  constructor
  · have h1 := mvnNll_eq (mean := mean) he hm hs hd hc hx
    have h2 := mvnNll_eq (mean := mean') he hm' hs' hd hc' hx'
    by_cases hp : (covOf d (fun k => std.getD k 0) c).PosDef
    · left
      refine ⟨_, h1.1 hp, (h2.1 (hS ▸ posDef_permute σ hp)).trans ?_⟩
      rw [hr]
      congr 3
      refine Finset.sum_congr rfl fun t ht => ?_
      rw [hS, hM, ← logDensity_permute σ _ _ (covOf d _ c)]
      congr 1
      funext k
      exact ex t (Finset.mem_range.mp ht) k
    · right
      obtain ⟨e, h3⟩ := h1.2 hp
      obtain ⟨e', h4⟩ := h2.2 (by
        intro hp'
        apply hp
        rw [hS] at hp'
        have := posDef_permute σ.symm hp'
        rw [submatrix_submatrix] at this
        simpa using this)
      exact ⟨e, e', h3, h4⟩
  · intro hpos
    have h1 := normNll_eq (mean := mean) hm hs hx hpos
    have h2 := normNll_eq (mean := mean') hm' hs' hx' (fun k hk => by
      have := es ⟨k, hk⟩
      rw [show std'.getD k 0 = _ from this]
      exact hpos _ (σ ⟨k, hk⟩).2)
    refine h2.trans (Eq.trans ?_ h1.symm)
    rw [hr]
    congr 3
    refine Finset.sum_congr rfl fun t ht => ?_
    rw [Finset.sum_range, Finset.sum_range]
    exact Eq.trans (Finset.sum_congr rfl fun i _ => by rw [em, es, ex t (Finset.mem_range.mp ht)])
      (Equiv.sum_comp σ fun i => normLogpdf (mean.getD i 0) (std.getD i 0) (dx.get t i))

/-! ### Errors -/

/-- The correlations as a matrix. -/
def corMat (d : Nat) (c : Arr) : Mat d := fun i j => c.get i j

theorem covOf_eq (s : Nat → ℝ) (c : Arr) :
    covOf d s c = diagonal (fun k : Fin d => s k) * corMat d c * diagonal (fun k : Fin d => s k) := by
  ext i j
  rw [mul_diagonal, diagonal_mul]
  unfold covOf corMat
  ring

theorem covOf_posDef {s : Nat → ℝ} (h : (corMat d c).PosDef) : (covOf d s c).PosDef ↔ ∀ k < d, s k ≠ 0 := by
  constructor
  · intro hp k hk h0
    have hd := hp.diag_pos (i := ⟨k, hk⟩)
    simp [covOf, h0] at hd
  · intro hs
    rw [covOf_eq]
    have hu : IsUnit (diagonal (fun k : Fin d => s k)) := by
      rw [isUnit_iff_isUnit_det, det_diagonal, isUnit_iff_ne_zero]
      exact Finset.prod_ne_zero_iff.mpr fun k _ => hs k k.2
    have := h.mul_mul_conjTranspose_same (B := diagonal (fun k : Fin d => s k)) (vecMul_injective_of_isUnit hu)
    simpa [conjTranspose_eq_transpose_of_trivial] using this

/-- C73. For a positive definite correlation matrix of the right size (the constructor has checked this with a Cholesky
decomposition) the likelihood is a number when no volatility is zero, negative ones included, and a `LinAlgError` when some
volatility is zero. -/
theorem nll_outcome (he : EighAll eigh) (hm : mean.length = d) (hs : std.length = d) (hd : 0 < d) (hc : SymArr d c)
    (hx : dx.cols = d) (hp : (corMat d c).PosDef) :
    ((∀ k < d, std.getD k 0 ≠ 0) → ∃ r, gaussNll eigh mean std (some c) dx = .ok (.fin r)) ∧
    ((∃ k < d, std.getD k 0 = 0) → gaussNll eigh mean std (some c) dx = .error .linAlgError) := by
  constructor
  · intro h
    exact ⟨_, (mvnNll_eq he hm hs hd hc hx).1 ((covOf_posDef (s := fun k => std.getD k 0) hp).mpr h)⟩
  · rintro ⟨k, hk, h0⟩
    subst hs
    have hsym := covMat_symm (d := std.length) std c
    obtain ⟨h1, h2, -⟩ := he std.length (covMat std.length std c) hsym
    have hcov := covMat_eq (std := std) hc
    have hnp : ¬ (covMat std.length std c).PosDef := by
      rw [hcov, covOf_posDef (s := fun k => std.getD k 0) hp]
      push Not
      exact ⟨k, hk, h0⟩
    have hpsd : ∀ y : Fin std.length → ℝ, 0 ≤ dotProduct y ((covMat std.length std c).mulVec y) := by
      intro y
      rw [hcov, covOf_eq]
      have := (hp.posSemidef.mul_mul_conjTranspose_same
        (diagonal fun k : Fin std.length => std.getD k 0)).dotProduct_mulVec_nonneg y
      simpa [conjTranspose_eq_transpose_of_trivial] using this
    show mvnNll eigh mean std c dx = _
    unfold mvnNll
    rw [if_neg (not_not.mpr ⟨hc.rows, hc.cols⟩), if_neg (by omega)]
    have hck : psdCheck (eigh std.length (covMat std.length std c)) = .error .linAlgError := by
      unfold psdCheck
      rw [if_neg, if_pos]
      · rw [eig_posDef hsym h1 h2] at hnp
        push Not at hnp
        obtain ⟨p, hpm, hp0⟩ := hnp
        refine ⟨p, hpm, le_antisymm hp0 ?_⟩
        have := hpsd p.2
        rw [h1.eig p hpm, dotProduct_smul, h1.ortho.1 _ (List.mem_map.mpr ⟨p, hpm, rfl⟩)] at this
        simpa using this
      · rintro ⟨p, hpm, hp0⟩
        have := hpsd p.2
        rw [h1.eig p hpm, dotProduct_smul, h1.ortho.1 _ (List.mem_map.mpr ⟨p, hpm, rfl⟩)] at this
        simp at this
        linarith
    rw [hck]
    rfl

/-! ### Shapes -/

/-- The single column of an array repeated. -/
def repeatCol (d : Nat) (a : Arr) : Arr := ⟨a.rows, d, fun k => a.get (k / d) 0⟩

/-- C74 (defect). Data with a single column are accepted by a model of several variates: the column is silently used for
every variate, with and without a correlation matrix. -/
theorem nll_repeats_column (cor : Option Arr) (hd : 2 ≤ d) (hm : mean.length = d) (hs : std.length = d) (hx : dx.cols = 1) :
    gaussNll eigh mean std cor dx = gaussNll eigh mean std cor (repeatCol d dx) := by
  have hb : ∀ i j, j < d → bcol (repeatCol d dx) i j = dx.get i 0 := by
    intro i j hj
    have h1 : (repeatCol d dx).cols = d := rfl
    rw [bcol_eq (by rw [h1]; exact hj)]
    show dx.get ((i * d + j) / d) 0 = dx.get i 0
    rw [mul_comm i d, Nat.mul_add_div (show 0 < d by omega), Nat.div_eq_of_lt hj, add_zero]
  have hb' : ∀ i j, bcol dx i j = dx.get i 0 := by
    intro i j
    unfold bcol
    rw [if_pos hx]
  have hrow : (repeatCol d dx).rows = dx.rows := rfl
  have hcol : (repeatCol d dx).cols = d := rfl
  cases cor with
  | none =>
    show normNll mean std dx = normNll mean std (repeatCol d dx)
    unfold normNll
    rw [hcol, hrow, hx, hm, hs]
    have e1 : bdim 1 d = .ok d := by
      unfold bdim
      rw [if_neg (by omega), if_pos rfl]
    have e2 : bdim d d = .ok d := by unfold bdim; rw [if_pos rfl]
    rw [e1, e2]
    show (bdim d d >>= _) = (bdim d d >>= _)
    rw [e2]
    show (if _ then _ else _) = (if _ then _ else _)
    have e3 : (∑ i ∈ Finset.range dx.rows, ∑ j ∈ Finset.range d, normLogpdf (bentry mean j) (bentry std j) (bcol dx i j)) =
        ∑ i ∈ Finset.range dx.rows, ∑ j ∈ Finset.range d,
          normLogpdf (bentry mean j) (bentry std j) (bcol (repeatCol d dx) i j) :=
      Finset.sum_congr rfl fun i _ => Finset.sum_congr rfl fun j hj => by
        rw [hb' i j, hb i j (Finset.mem_range.mp hj)]
    rw [e3]
  | some c =>
    show mvnNll eigh mean std c dx = mvnNll eigh mean std c (repeatCol d dx)
    unfold mvnNll
    rw [hcol, hrow, hx]
    by_cases h1 : c.rows = std.length ∧ c.cols = std.length
    · have h2 : ¬ (mean.length ≠ std.length ∨ std.length = 0) := by omega
      simp only [if_neg (not_not.mpr h1), if_neg h2]
      cases psdCheck (eigh std.length (covMat std.length std c)) with
      | error e => rfl
      | ok u =>
        show (if _ then _ else _) = (if _ then _ else _)
        rw [if_pos (Or.inr trivial), if_pos (Or.inl hs.symm)]
        congr 3
        refine Finset.sum_congr rfl fun i _ => ?_
        congr 1
        funext k
        rw [hb', hb i k (by omega)]
    · rw [if_pos h1, if_pos h1]

/-- C74 (defect). One volatility for several correlated variates: the sampler accepts it (it broadcasts), the likelihood is a
`ValueError` for all data. -/
theorem nll_common_vol_raises {σ : ℝ} {L : Arr} {x0 : ℝ} {z : Nat → ℝ} (hd : 2 ≤ d) (hm : drift.length = d) (hc : c.rows = d)
    (hL : L.rows = d ∧ L.cols = d) (s n : Nat) (x : Arr) (dt' : ℝ) :
    (∃ a, bmSample ⟨drift, [σ], some L⟩ [x0] dt s n z = .ok a) ∧
    bmNllFull eigh drift [σ] (some c) x dt' = .error .valueError := by
  constructor
  · rw [bm_succeeds_iff]
    refine ⟨by omega, by omega, ?_, Or.inr rfl, ?_, by simp, by simp⟩
    · show 0 < drift.length; omega
    · intro l hl
      cases hl
      show L.rows = drift.length ∧ L.cols = drift.length
      omega
  · show mvnNll eigh _ _ c _ = _
    unfold mvnNll
    rw [if_pos]
    rintro ⟨h1, -⟩
    simp at h1
    omega

/-! ### Ornstein-Uhlenbeck after a fit -/

theorem ou_std_pos {v r : ℝ} (hv : v ≠ 0) (hr : r ≠ 0) (hdt : 0 < dt) :
    0 < Real.sqrt (v ^ 2 / (2 * r) * (1 - Real.exp (-2 * r * dt))) := by
  apply Real.sqrt_pos.mpr
  rcases lt_or_gt_of_ne hr with h | h
  · have h1 : 1 < Real.exp (-2 * r * dt) := Real.one_lt_exp_iff.mpr (by nlinarith)
    have h2 : v ^ 2 / (2 * r) < 0 := div_neg_of_pos_of_neg (by positivity) (by linarith)
    exact mul_pos_of_neg_of_neg h2 (by linarith)
  · have h1 : Real.exp (-2 * r * dt) < 1 := by
      rw [Real.exp_lt_one_iff]
      nlinarith
    exact mul_pos (by positivity) (by linarith)

/-- C74. The likelihood of one Ornstein-Uhlenbeck path (before or after a fit: row or scalar attributes): the sum of the
normal log-densities of `x[t+1]` around `mean + (x[t] - mean) exp(-mrr dt)`, with the conditional standard deviation of
the process. -/
theorem ou_nll_one {p : OUParams} {μ θ σ : ℝ} (hμ : p.mean.toRow = [μ]) (hθ : p.mrr.toRow = [θ]) (hσ : p.vol = [σ])
    (hθ0 : θ ≠ 0) (hσ0 : σ ≠ 0) (hdt : 0 < dt) (hx : x.cols = 1) :
    ouNllFull eigh p none x dt = .ok (.fin (-∑ t ∈ Finset.range (x.rows - 1),
      normLogpdf (μ + (x.get t 0 - μ) * Real.exp (-θ * dt))
        (Real.sqrt (σ ^ 2 / (2 * θ) * (1 - Real.exp (-2 * θ * dt)))) (x.get (t + 1) 0))) := by
  unfold ouNllFull
  rw [hμ, hθ, hσ]
  simp only [List.map]
  have hb : ∀ (f : ℝ → ℝ → ℝ) (a b : ℝ), bzip f [a] [b] = .ok [f a b] := fun f a b => by
    unfold bzip; rw [if_pos (show [a].length = [b].length from rfl)]; rfl
  rw [hb, hb]
  have hd : bdim 1 1 = .ok 1 := by unfold bdim; rw [if_pos rfl]
  have hrows : ouRows [Real.exp (-θ * dt)] x = .ok ⟨x.rows - 1, 1, fun k =>
      bcol x (k / 1 + 1) (k % 1) - bentry [Real.exp (-θ * dt)] (k % 1) * bcol x (k / 1) (k % 1)⟩ := by
    unfold ouRows
    rw [hx]
    show (bdim 1 1 >>= _) = _
    rw [hd]
    show (bdim 1 1 >>= _) = _
    rw [hd]
    rfl
  show (ouRows [Real.exp (-θ * dt)] x >>= _) = _
  rw [hrows]
  show (if _ then _ else _) = _
  rw [if_neg (by simpa using Ne.symm hθ0)]
  have h := normNll_eq (mean := [μ * (1 - Real.exp (-θ * dt))])
    (std := [Real.sqrt (σ ^ 2 / (2 * θ) * (1 - Real.exp (-2 * θ * dt)))]) (d := 1)
    (dx := ⟨x.rows - 1, 1, fun k =>
      bcol x (k / 1 + 1) (k % 1) - bentry [Real.exp (-θ * dt)] (k % 1) * bcol x (k / 1) (k % 1)⟩) rfl rfl rfl (by
      intro k hk
      rw [show k = 0 by omega]
      exact ou_std_pos hσ0 hθ0 hdt)
  refine Eq.trans h ?_
  congr 3
  refine Finset.sum_congr rfl fun t _ => ?_
  rw [Finset.sum_range_one]
  unfold Arr.get bcol bentry
  simp only [hx]
  unfold normLogpdf Arr.get
  simp [hx]
  ring

/-- C74 (defect). After a fit to several columns the likelihood of the Ornstein-Uhlenbeck model is a `ValueError` for all
data, those of the fit included: the mean is a scalar, the covariance a matrix. -/
theorem ou_fit_then_nll_raises {chol : Arr → Option Arr} {r : OUFit} (hcols : 1 < x.cols) (h : ouFit chol x dt = .ok r)
    {vol : List ℝ} (hv : r.vol = vol.map some) (y : Arr) (dt' : ℝ) :
    ouNllFull eigh (r.params vol) r.cor y dt' = .error .valueError := by
  obtain ⟨h1, h2⟩ : r.vol.length = x.cols ∧ ∃ c, r.cor = some c := by
    unfold ouFit at h
    dsimp only at h
    rw [if_pos hcols] at h
    split at h
    · cases h
    · split at h
      · cases h
      · split at h
        · cases h
        · cases h
          exact ⟨by simp [columns], _, rfl⟩
  obtain ⟨c, hc⟩ := h2
  have hlen : vol.length = x.cols := by rw [← h1, hv]; simp
  unfold ouNllFull OUFit.params
  simp only [OUAttr.toRow, List.map, hc]
  have hb : ∀ (f : ℝ → ℝ → ℝ) (a b : ℝ), bzip f [a] [b] = .ok [f a b] := fun f a b => by
    unfold bzip; rw [if_pos (show [a].length = [b].length from rfl)]; rfl
  have hb2 : ∀ (f : ℝ → ℝ → ℝ) (b : ℝ), bzip f vol [b] = .ok (vol.map fun a => f a b) := fun f b => by
    unfold bzip
    rw [if_neg (by simp; omega), if_neg (by omega), if_pos (show [b].length = 1 from rfl)]
    rfl
  rw [hb, hb2]
  show (ouRows [Real.exp (-r.mrr * dt')] y >>= _) = _
  have hbd : ∀ a b, bdim a b = .error .valueError ∨ ∃ c, bdim a b = .ok c := by
    intro a b
    unfold bdim
    split
    · exact Or.inr ⟨_, rfl⟩
    · split
      · exact Or.inr ⟨_, rfl⟩
      · split
        · exact Or.inr ⟨_, rfl⟩
        · exact Or.inl rfl
  have hor : ouRows [Real.exp (-r.mrr * dt')] y = .error .valueError ∨ ∃ a, ouRows [Real.exp (-r.mrr * dt')] y = .ok a := by
    unfold ouRows
    rcases hbd [Real.exp (-r.mrr * dt')].length y.cols with e | ⟨c1, e⟩
    · rw [e]; exact Or.inl rfl
    · rw [e]
      show (bdim y.cols c1 >>= _) = _ ∨ ∃ a, (bdim y.cols c1 >>= _) = _
      rcases hbd y.cols c1 with e | ⟨c2, e⟩
      · rw [e]; exact Or.inl rfl
      · rw [e]; exact Or.inr ⟨_, rfl⟩
  rcases hor with e | ⟨a, e⟩
  · rw [e]; rfl
  · rw [e]
    show (if _ then _ else _) = _
    split
    · rfl
    · show mvnNll eigh _ _ c a = _
      unfold mvnNll
      split
      · rfl
      · rw [if_pos (Or.inl (by simp; omega))]

/-! ### The number of parameters -/

/-- C74 (defect). `num_parameters_` is 2 for every Brownian and 3 for every Ornstein-Uhlenbeck model, whatever the number of
variates and with or without correlations; for `d` variates with correlations there are `2d + d(d-1)/2` and
`3d + d(d-1)/2` parameters, so the count is right for one variate only. -/
theorem num_parameters_constant (drift vol mean mrr : List ℝ) (cor : Option Arr) (d : Nat) (hd : 0 < d) :
    bmNumParams drift vol cor = 2 ∧ ouNumParams mean mrr vol cor = 3 ∧
    (bmNumParams drift vol cor = 2 * d + d * (d - 1) / 2 ↔ d = 1) ∧
    (ouNumParams mean mrr vol cor = 3 * d + d * (d - 1) / 2 ↔ d = 1) := by
  have h1 : bmNumParams drift vol cor = 2 := by
    unfold bmNumParams rowLen
    split <;> norm_num
  have h2 : ouNumParams mean mrr vol cor = 3 := by
    unfold ouNumParams rowLen
    split <;> norm_num
  have hd1 : (1 : ℝ) ≤ d := by exact_mod_cast hd
  rw [h1, h2]
  refine ⟨rfl, rfl, ?_, ?_⟩
  all_goals
    constructor
    · intro h
      have : (d : ℝ) = 1 := by nlinarith
      exact_mod_cast this
    · rintro rfl
      norm_num

/-! ### The hypotheses can be met -/

/-- Two variates with correlation one half. -/
noncomputable def demoCor : Arr := Arr.ofList 2 2 [1, 1 / 2, 1 / 2, 1]

theorem demoCor_sym : SymArr 2 demoCor := by
  refine ⟨rfl, rfl, fun i hi j hj => ?_⟩
  interval_cases i <;> interval_cases j <;> simp [demoCor, Arr.ofList, Arr.get]

theorem demoCor_posDef : (corMat 2 demoCor).PosDef := by
  apply PosDef.of_dotProduct_mulVec_pos
  · ext i j
    fin_cases i <;> fin_cases j <;> simp [corMat, demoCor, Arr.ofList, Arr.get]
  · intro y hy
    have hne : y 0 ≠ 0 ∨ y 1 ≠ 0 := by
      by_contra h
      push Not at h
      exact hy (by ext i; fin_cases i; exacts [h.1, h.2])
    simp only [star_trivial, dotProduct, mulVec, Fin.sum_univ_two, corMat, demoCor, Arr.ofList, Arr.get]
    simp
    rcases hne with h | h
    · have := sq_pos_of_ne_zero h
      nlinarith [sq_nonneg (y 0 / 2 + y 1)]
    · have := sq_pos_of_ne_zero h
      nlinarith [sq_nonneg (y 1 / 2 + y 0)]

/-- Three days of two correlated series: the likelihood is a number, and swapping the series does not change it. -/
example : ∃ eigh, EighAll eigh ∧
    (∃ r, gaussNll eigh [1, 2] [3, 4] (some demoCor) (Arr.ofList 3 2 [1, 2, 3, 5, 8, 13]) = .ok (.fin r)) ∧
    gaussNll eigh [1, 2] [3, 0] (some demoCor) (Arr.ofList 3 2 [1, 2, 3, 5, 8, 13]) = .error .linAlgError := by
  obtain ⟨eigh, he⟩ := eighAll_exists
  refine ⟨eigh, he, ?_, ?_⟩
  · refine (nll_outcome (d := 2) he rfl rfl (by norm_num) demoCor_sym rfl demoCor_posDef).1 fun k hk => ?_
    interval_cases k <;> simp
  · exact (nll_outcome (d := 2) he rfl rfl (by norm_num) demoCor_sym rfl demoCor_posDef).2 ⟨1, by norm_num, by simp⟩

example : ∃ v eigh, EighAll eigh ∧ gaussNll eigh [1, 2] [3, 4] (some demoCor) (Arr.ofList 3 2 [1, 2, 3, 5, 8, 13]) = .ok v ∧
    gaussNll eigh [2, 1] [4, 3] (some demoCor) (Arr.ofList 3 2 [2, 1, 5, 3, 13, 8]) = .ok v := by
  obtain ⟨eigh, he⟩ := eighAll_exists
  have h := (nll_permute (d := 2) (mean := [1, 2]) (std := [3, 4]) (mean' := [2, 1]) (std' := [4, 3]) (c := demoCor)
    (c' := demoCor) (dx := Arr.ofList 3 2 [1, 2, 3, 5, 8, 13]) (dx' := Arr.ofList 3 2 [2, 1, 5, 3, 13, 8])
    he (Equiv.swap 0 1) (by norm_num) rfl rfl rfl rfl demoCor_sym demoCor_sym rfl rfl rfl
    (fun i => by fin_cases i <;> simp) (fun i => by fin_cases i <;> simp)
    (fun i j => by fin_cases i <;> fin_cases j <;> simp [demoCor, Arr.ofList, Arr.get])
    (fun t ht i => by
      have : t < 3 := ht
      interval_cases t <;> fin_cases i <;> simp [Arr.get, Arr.ofList])).1
  rcases h with ⟨v, h1, h2⟩ | ⟨e, e', h1, h2⟩
  · exact ⟨v, eigh, he, h1, h2⟩
  · obtain ⟨r, h3⟩ := (nll_outcome (d := 2) (mean := [1, 2]) (std := [3, 4]) (dx := Arr.ofList 3 2 [1, 2, 3, 5, 8, 13])
      he rfl rfl (by norm_num) demoCor_sym rfl demoCor_posDef).1 fun k hk => by interval_cases k <;> simp
    rw [h1] at h3
    cases h3

/-- The data of the common volatility defect. -/
example (z : Nat → ℝ) : (∃ a, bmSample ⟨[1, 2], [3], some (Arr.ofList 2 2 [1, 0, 0.6, 0.8])⟩ [0] 1 3 1 z = .ok a) ∧
    bmNllFull eigh [1, 2] [3] (some demoCor) x 1 = .error .valueError :=
  nll_common_vol_raises (d := 2) (by norm_num) rfl rfl ⟨rfl, rfl⟩ 3 1 x 1

theorem demo_line1 : ouLine [0, 1, 3, 4] = (13 / 14, 10 / 7) := by
  norm_num [ouLine, lstsqLine, sqDev, lmean, crossDev, slopeTol, List.dropLast]
  rw [if_neg (List.cons_ne_nil _ _)]
  norm_num

theorem demo_line2 : ouLine [0, 1, 2, 4] = (3 / 2, 5 / 6) := by
  norm_num [ouLine, lstsqLine, sqDev, lmean, crossDev, slopeTol, List.dropLast]
  rw [if_neg (List.cons_ne_nil _ _)]
  norm_num

/-- A fit to two columns that succeeds: its likelihood then raises. -/
example : ∃ (r : OUFit) (vol : List ℝ), ouFit (fun c => some c) (Arr.ofList 4 2 [0, 0, 1, 1, 3, 2, 4, 4]) 1 = .ok r ∧ r.vol = vol.map some ∧
    ∀ eigh y dt', ouNllFull eigh (r.params vol) r.cor y dt' = .error .valueError := by
  have hcols : columns (Arr.ofList 4 2 [0, 0, 1, 1, 3, 2, 4, 4]) = [[0, 1, 3, 4], [0, 1, 2, 4]] := by
    simp [columns, Arr.col, Arr.ofList, Arr.get, List.range_succ]
  have hl1 := demo_line1
  have hl2 := demo_line2
  have hr1 : ouResiduals [0, 1, 3, 4] = [-3 / 7, 9 / 14, -3 / 14] := by
    unfold ouResiduals; rw [hl1]; norm_num
  have hr2 : ouResiduals [0, 1, 2, 4] = [1 / 6, -1 / 3, 1 / 6] := by
    unfold ouResiduals; rw [hl2]; norm_num
  have hs1 : npStd1 [-3 / 7, 9 / 14, -3 / 14] = some (Real.sqrt (9 / 28)) := by
    norm_num [npStd1, sqDev, lmean]
  have hs2 : npStd1 [1 / 6, -1 / 3, 1 / 6] = some (Real.sqrt (1 / 12)) := by
    norm_num [npStd1, sqDev, lmean]
  have hok : ∃ (r : OUFit) (vol : List ℝ), ouFit (fun c => some c) (Arr.ofList 4 2 [0, 0, 1, 1, 3, 2, 4, 4]) 1 = .ok r ∧ r.vol = vol.map some := by
    unfold ouFit
    rw [hcols]
    simp only [List.map, hr1, hr2]
    rw [if_pos (show 1 < (Arr.ofList 4 2 _).cols by simp [Arr.ofList]), if_neg]
    · simp only [hs1, hs2, Option.map]
      exact ⟨_, [_, _], rfl, rfl⟩
    · rintro ⟨r, hr, hb⟩
      simp only [List.mem_cons, List.not_mem_nil, or_false] at hr
      unfold badColumn at hb
      rcases hr with rfl | rfl
      · rw [hr1, hs1] at hb
        rcases hb with hb | hb
        · norm_num at hb
        · cases hb
      · rw [hr2, hs2] at hb
        rcases hb with hb | hb
        · norm_num at hb
        · cases hb
  obtain ⟨r, vol, h, hv⟩ := hok
  exact ⟨r, vol, h, hv, fun eigh y dt' => ou_fit_then_nll_raises (by simp [Arr.ofList]) h hv y dt'⟩

end Verif.Sim
