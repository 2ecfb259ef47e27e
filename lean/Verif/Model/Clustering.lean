import Verif.Model.Cusum
import Verif.Model.CorrDist
import Verif.Model.Info

/-!
# `quantfinlib/clustering/metrics.py` and `hierarchical.py`

Labels are values of any type with decidable equality (NaN labels, which differ from themselves, are left out). numpy's
global generator, which `gap_statistic` seeds before each use, is a function `rng` from the seed to the stream of
uniform numbers; that the generator stays seeded after the call is not modelled. scipy's `linkage` and `cut_tree` are
parameters. `silhouette_samples` is sklearn's function for `metric="precomputed"`.
-/

namespace Verif.Clust

open Verif Ser Classical

variable {α : Type} [DecidableEq α]

/-! ### `metrics.py` -/

/-- The argument `dist`: `None`, a data frame or two-dimensional array, or anything else. -/
inductive DistArg
  | none_
  | table (m : Dist.Table)
  | other

/-- The argument `labels`: `None`, a series or one-dimensional array, or anything else. -/
inductive LabArg (α : Type)
  | none_
  | vec (l : List α)
  | other

/-- `validate_series_or_1Darray("labels")` (`util/_validate.py:11-44`): `None` is not checked. -/
def validateLabels : LabArg α → Py Unit
  | .none_ => .ok ()
  | .vec l => if l.length < 2 then .error .valueError else .ok ()
  | .other => .error .valueError

/-- `validate_frame_or_2Darray("dist")` (`util/_validate.py:47-80`): `None` is not checked. -/
def validateDist : DistArg → Py Unit
  | .none_ => .ok ()
  | .table m => if m.cols < 2 then .error .valueError else .ok ()
  | .other => .error .valueError

/-- The two decorators and `_check_labels_distance_consistency` (`metrics.py:17-19`); `len(None)` is a TypeError. -/
def checkInputs (dist : DistArg) (labels : LabArg α) : Py (Dist.Table × List α) := do
  validateLabels labels
  validateDist dist
  match dist, labels with
  | .table m, .vec l => if m.rows = l.length then .ok (m, l) else .error .assertionError
  | _, _ => .error .typeError

/-- An element of `within_clstr_identifier` (`metrics.py:61`) as a number. -/
noncomputable def within (l : List α) (i j : Nat) : XF := if l[i]? = l[j]? then .fin 1 else .fin 0

/-- `np.sum` of an `n` by `n` array. -/
noncomputable def npSum2 (n : Nat) (a : Nat → Nat → XF) : XF :=
  ((List.range n).flatMap fun i => (List.range n).map fun j => a i j).foldl (· + ·) (.fin 0)

/-- `np.sum(within_clstr_identifier * dist**2) / (4 * k)` (`metrics.py:64`, `82`) with `k = len(np.unique(labels))`
(`metrics.py:59`). -/
noncomputable def dispersion (l : List α) (d : Nat → Nat → XF) : XF :=
  npSum2 l.length (fun i j => within l i j * sqF (d i j)) / .fin (4 * (l.dedup.length : ℝ))

/-- `np.triu`. -/
noncomputable def triu (a : Nat → Nat → ℝ) (i j : Nat) : ℝ := if i ≤ j then a i j else 0

/-- `dist_ref` (`metrics.py:76-80`): `u` is the stream of uniform numbers, `h` the greatest distance. -/
noncomputable def reference (n : Nat) (h : ℝ) (u : Nat → ℝ) (i j : Nat) : ℝ :=
  let a := fun i j : Nat => h * u (i * n + j)
  if i = j then 0 else triu a i j + triu a j i

/-- `log_Wk_boot` (`metrics.py:82-83`). -/
noncomputable def logBoot (l : List α) (h : ℝ) (u : Nat → ℝ) : XF :=
  let w := dispersion l fun i j => .fin (reference l.length h u i j)
  if XF.lt (.fin 0) w then w.log else .fin 0

/-- `np.random.seed(s)` and the numbers drawn afterwards: seeds are 32-bit. -/
def seeded (rng : Int → Nat → ℝ) (s : Int) : Py (Nat → ℝ) :=
  if 0 ≤ s ∧ s < 2 ^ 32 then .ok (rng s) else .error .valueError

/-- The range check of `np.random.uniform(0, high)`. -/
def uniformRange : XF → Py ℝ
  | .fin h => .ok h
  | _ => .error .overflowError

/-- `np.max(dist)`. -/
noncomputable def tableMax (m : Dist.Table) : XF :=
  Cusum.npMax ((List.range m.rows).flatMap fun i => (List.range m.cols).map fun j => m.at_ i j)

/-- The loop of `gap_statistic` (`metrics.py:73-85`): the sum and the list of the logarithms. -/
noncomputable def bootLoop (rng : Int → Nat → ℝ) (m : Dist.Table) (l : List α) (seed : Int) :
    List Nat → XF × Ser → Py (XF × Ser)
  | [], acc => .ok acc
  | b :: bs, (e, logs) => do
    let u ← seeded rng (seed + b)
    let h ← uniformRange (tableMax m)
    bootLoop rng m l seed bs (e + logBoot l h u, logs ++ [logBoot l h u])

/-- `np.std`. -/
noncomputable def npStd (a : Ser) : XF := (Micro.var a).sqrt

/-- `gap_statistic` (`metrics.py:22-90`). An array with the right number of rows but not square cannot be multiplied
with `within_clstr_identifier` (ValueError). -/
noncomputable def gapStatistic (rng : Int → Nat → ℝ) (dist : DistArg) (labels : LabArg α) (nb : Int)
    (randomState : Option Int) : Py (XF × XF) := do
  let (m, l) ← checkInputs dist labels
  if m.cols ≠ l.length then .error .valueError
  else
    let wk := dispersion l m.at_
    let (e, logs) ← bootLoop rng m l (randomState.getD 0) (List.range nb.toNat) (.fin 0, [])
    if nb = 0 then .error .zeroDivisionError
    else .ok (e / .fin nb - wk.log, npStd logs)

/-- The number in a float, 0 for the special values. -/
def toReal : XF → ℝ
  | .fin r => r
  | _ => 0

/-- The tolerance of sklearn for the diagonal, `np.finfo(float).eps * 100`. -/
noncomputable def diagTol : ℝ := 100 / 2 ^ 52

/-- The checks of `silhouette_samples`: finite numbers, as many labels as rows, a vanishing diagonal, at least two and
fewer than `n` clusters, a square matrix without negative entries. -/
def SilhouetteInput (m : Dist.Table) (l : List α) : Prop :=
  m.rows = l.length ∧ m.cols = l.length ∧
  (∀ i j, i < l.length → j < l.length → ∃ r, m.at_ i j = .fin r ∧ 0 ≤ r) ∧
  (∀ i, i < l.length → |toReal (m.at_ i i)| ≤ diagTol) ∧
  2 ≤ l.dedup.length ∧ l.dedup.length ≤ l.length - 1

/-- `np.bincount(labels, weights=D[i])[c]`: the distances from point `i` to the points of cluster `c`. -/
noncomputable def clusterSum (l : List α) (d : Nat → Nat → ℝ) (i : Nat) (c : α) : ℝ :=
  (((List.range l.length).filter fun j => l[j]? = some c).map (d i)).sum

/-- The mean distance to the nearest other cluster. -/
noncomputable def inter (l : List α) (d : Nat → Nat → ℝ) (i : Nat) (own : α) : XF :=
  minF ((l.dedup.filter (· ≠ own)).map fun c => clusterSum l d i c / (l.count c : ℝ))

/-- The mean distance to the own cluster: the sum over the number of other points in it. -/
noncomputable def intra (l : List α) (d : Nat → Nat → ℝ) (i : Nat) (own : α) : XF :=
  .fin (clusterSum l d i own) / .fin ((l.count own : ℝ) - 1)

/-- `np.nan_to_num`; infinities do not occur here. -/
def nanToNum : XF → XF
  | .nan => .fin 0
  | v => v

/-- One value of `silhouette_samples`. -/
noncomputable def silhouetteAt (l : List α) (d : Nat → Nat → ℝ) (i : Nat) (own : α) : XF :=
  nanToNum ((inter l d i own - intra l d i own) / Cusum.maximum (intra l d i own) (inter l d i own))

/-- `sklearn.metrics.silhouette_samples(X=dist, labels=labels, metric="precomputed")`. -/
noncomputable def silhouetteSamples (m : Dist.Table) (l : List α) : Py Ser :=
  if SilhouetteInput m l then
    .ok (l.mapIdx fun i own => silhouetteAt l (fun i j => toReal (m.at_ i j)) i own)
  else .error .valueError

/-- `silhouette_tstat` (`metrics.py:93-113`). -/
noncomputable def silhouetteTstat (dist : DistArg) (labels : LabArg α) : Py XF := do
  let (m, l) ← checkInputs dist labels
  let s ← silhouetteSamples m l
  .ok (Micro.mean s / npStd s)

/-! ### `hierarchical.py`: the number of clusters -/

/-- `range(2, max_clust + 1)` (`hierarchical.py:167`). -/
def clustRange (maxClust : Int) : List Int := (List.range (maxClust - 1).toNat).map fun i : Nat => (i : Int) + 2

/-- The loop calling a metric for each number of clusters (`hierarchical.py:171-175`, `181-183`). -/
def scoreLoop {σ : Type} (f : Int → Py σ) : List Int → Py (List σ)
  | [] => .ok []
  | k :: ks => do
    let v ← f k
    let vs ← scoreLoop f ks
    .ok (v :: vs)

/-- `gap_values[:-1] - gap_values[1:] + gap_std_values[1:] > 0` (`hierarchical.py:177`), element `i`. -/
def gapDrops (g s : Ser) (i : Nat) : Prop :=
  XF.lt (.fin 0) ((g[i]?).getD .nan - (g[i + 1]?).getD .nan + (s[i + 1]?).getD .nan)

/-- `np.where(...)[0][0]` (`hierarchical.py:177`). -/
noncomputable def firstDrop (g s : Ser) : Py Nat :=
  match (List.range (g.length - 1)).find? fun i => decide (gapDrops g s i) with
  | some i => .ok i
  | none => .error .indexError

/-- `optimize_n_clusters` (`hierarchical.py:144-188`); `cut k` are the labels from `cut_tree` with `k` clusters. -/
noncomputable def optimizeNClusters (rng : Int → Nat → ℝ) (cut : Int → List α) (dist : DistArg) (maxClust : Int)
    (metric : String) (nb : Int) : Py Int :=
  if metric = "gap" then do
    let v ← scoreLoop (fun k => gapStatistic rng dist (.vec (cut k)) nb none) (clustRange maxClust)
    let i ← firstDrop (v.map Prod.fst) (v.map Prod.snd)
    .ok ((i : Int) + 2)
  else if metric = "silhouette" then do
    let v ← scoreLoop (fun k => silhouetteTstat dist (.vec (cut k))) (clustRange maxClust)
    if v = [] then .error .valueError
    else .ok ((Cusum.argmax v : Int) + 2)
  else .error .valueError

/-! ### `hierarchical.py`: the class `HC` -/

/-- A float from a value in which `none` is `nan`. -/
def ofOpt : Option ℝ → XF
  | none => .nan
  | some r => .fin r

/-- The result of `corr_to_dist` as a distance. -/
def ofRes : Dist.DistRes → DistArg
  | .scalar _ => .other
  | .array r c m => .table ⟨r, c, fun i j => ofOpt (m i j)⟩
  | .frame r c m => .table ⟨r, c, fun i j => ofOpt (m i j)⟩

/-- The columns of a table. -/
def columnsOf (m : Dist.Table) : List (List XF) :=
  (List.range m.cols).map fun j => (List.range m.rows).map fun i => m.at_ i j

/-- `get_info_distance_matrix(X, method="var_info")` (`distance_matrix.py:58-82`), `bins=None`, `norm=True`. -/
noncomputable def varInfoDist : Dist.CorrArg → Py DistArg
  | .array m => do
    let r ← Info.getInfoDistanceMatrix "var_info" none true (columnsOf m)
    .ok (.table ⟨m.cols, m.cols, r⟩)
  | .frame m => do
    let r ← Info.getInfoDistanceMatrix "var_info" none true (columnsOf m)
    .ok (.table ⟨m.cols, m.cols, r⟩)
  | _ => .error .valueError

/-- `HC._compute_distance_matrix` (`hierarchical.py:85-110`). -/
noncomputable def computeDist (pdCorr : Dist.Table → String → Dist.Table) (X corr : Option Dist.CorrArg)
    (codependence toDist : String) : Py DistArg :=
  if codependence = "pearson-correlation" ∨ codependence = "spearman-correlation" then
    match corr with
    | some c => do
      let r ← Dist.corrToDist c toDist
      .ok (ofRes r)
    | none =>
      match X with
      | none => .error .valueError
      | some x => do
        let r ← Dist.corrDistanceMatrix pdCorr none x
          (if codependence = "pearson-correlation" then "pearson" else "spearman") toDist
        .ok (ofRes r)
  else if codependence = "var_info" then
    match X with
    | none => .error .valueError
    | some x => varInfoDist x
  else .error .valueError

/-- The attributes of an `HC` object that its methods read: `dist`, `linkage_method`, `optimal_ordering` and the cached
`_linkage`. -/
structure HC (Z : Type) where
  dist : DistArg
  method : String
  ordering : Bool
  cache : Option Z

/-- `HC.__init__` (`hierarchical.py:62-83`). -/
noncomputable def HC.init {Z : Type} (pdCorr : Dist.Table → String → Dist.Table) (X corr : Option Dist.CorrArg)
    (dist : Option DistArg) (codependence toDist method : String) (ordering : Bool) : Py (HC Z) :=
  match dist with
  | some d => .ok ⟨d, method, ordering, none⟩
  | none => do
    let d ← computeDist pdCorr X corr codependence toDist
    .ok ⟨d, method, ordering, none⟩

/-- The checks of `squareform` and `hierarchy.linkage` on a matrix: square, symmetric, zero diagonal (exact float
comparison), at least two points, finite. -/
def LinkageInput (m : Dist.Table) : Prop :=
  m.rows = m.cols ∧ 2 ≤ m.rows ∧ (∀ i j, i < m.rows → j < m.rows → XF.eq (m.at_ i j) (m.at_ j i)) ∧
  (∀ i, i < m.rows → XF.eq (m.at_ i i) (.fin 0)) ∧ ∀ i j, i < m.rows → j < m.rows → ∃ r, m.at_ i j = .fin r

/-- `hierarchy.linkage(squareform(dist), method, optimal_ordering)` (`hierarchical.py:116-120`); `scipy` is the
computation after the checks (an unknown method is its ValueError). A condensed (one-dimensional) `dist` is left out. -/
noncomputable def linkageOf {Z : Type} (scipy : Dist.Table → String → Bool → Py Z) (d : DistArg) (method : String)
    (ordering : Bool) : Py Z :=
  match d with
  | .table m => if LinkageInput m then scipy m method ordering else .error .valueError
  | _ => .error .valueError

/-- The property `linkage` (`hierarchical.py:112-121`): the result and the object afterwards. -/
noncomputable def HC.linkage {Z : Type} (scipy : Dist.Table → String → Bool → Py Z) (o : HC Z) : Py Z × HC Z :=
  match o.cache with
  | some z => (.ok z, o)
  | none =>
    match linkageOf scipy o.dist o.method o.ordering with
    | .ok z => (.ok z, { o with cache := some z })
    | .error e => (.error e, o)

/-- What a user can do with an object: read `linkage`, call `get_clusters(k)` or `get_optimal_nclusters(...)`, or assign
to the attributes `dist` and `linkage_method`. -/
inductive Op
  | linkage
  | clusters (k : Int)
  | optimal (maxClust : Int) (metric : String) (nb : Int)
  | setDist (d : DistArg)
  | setMethod (s : String)

/-- The result of an operation. -/
inductive Res (Z α : Type)
  | linkage (z : Z)
  | labels (l : List α)
  | number (k : Int)
  | unit

/-- One operation (`hierarchical.py:112-141`). -/
noncomputable def HC.step {Z : Type} (rng : Int → Nat → ℝ) (scipy : Dist.Table → String → Bool → Py Z)
    (cutTree : Z → Int → List α) (o : HC Z) : Op → Py (Res Z α) × HC Z
  | .linkage => ((o.linkage scipy).1.map .linkage, (o.linkage scipy).2)
  | .clusters k => ((o.linkage scipy).1.map fun z => .labels (cutTree z k), (o.linkage scipy).2)
  | .optimal mc metric nb =>
    ((o.linkage scipy).1.bind fun z => (optimizeNClusters rng (cutTree z) o.dist mc metric nb).map .number,
      (o.linkage scipy).2)
  | .setDist d => (.ok .unit, { o with dist := d })
  | .setMethod s => (.ok .unit, { o with method := s })

/-- A history of operations: the results and the final object. -/
noncomputable def HC.run {Z : Type} (rng : Int → Nat → ℝ) (scipy : Dist.Table → String → Bool → Py Z)
    (cutTree : Z → Int → List α) (o : HC Z) : List Op → List (Py (Res Z α)) × HC Z
  | [] => ([], o)
  | op :: ops =>
    ((o.step rng scipy cutTree op).1 :: ((o.step rng scipy cutTree op).2.run rng scipy cutTree ops).1,
      ((o.step rng scipy cutTree op).2.run rng scipy cutTree ops).2)

end Verif.Clust
