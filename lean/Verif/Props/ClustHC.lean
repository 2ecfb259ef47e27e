import Verif.Props.ClustSilh
import Verif.Props.CorrDist
import Verif.Props.InfoMatrix

/-!
# The class `HC`

C70: for every history of calls the linkage matrix is the one computed first; without assignments to the attributes the
cache cannot be observed, after an assignment it is stale. C71: what the constructor accepts and when the linkage can be
computed from it.
-/

namespace Verif.Props.ClustHC

open Verif Ser Clust Classical ClustGap ClustSelect

variable {α Z : Type} [DecidableEq α]

/-! ### Construction -/

/-- A given distance matrix is stored as it is; nothing else is looked at, not even the names of the methods. -/
theorem init_dist (pdCorr : Dist.Table → String → Dist.Table) (X corr : Option Dist.CorrArg) (d : DistArg)
    (cod toDist method : String) (ord : Bool) :
    HC.init (Z := Z) pdCorr X corr (some d) cod toDist method ord = .ok ⟨d, method, ord, none⟩ := rfl

/-- Without a distance matrix: the correlation methods need `corr` or `X`, the information method needs `X` (a given
`corr` does not help), other names are rejected; always with a ValueError. -/
theorem init_missing (pdCorr : Dist.Table → String → Dist.Table) (X corr : Option Dist.CorrArg) (cod toDist method : String)
    (ord : Bool)
    (h : (cod = "pearson-correlation" ∨ cod = "spearman-correlation") ∧ corr = none ∧ X = none ∨
      cod = "var_info" ∧ X = none ∨
      cod ≠ "pearson-correlation" ∧ cod ≠ "spearman-correlation" ∧ cod ≠ "var_info") :
    HC.init (Z := Z) pdCorr X corr none cod toDist method ord = .error .valueError := by
  unfold HC.init computeDist
  rcases h with ⟨h1, rfl, rfl⟩ | ⟨rfl, rfl⟩ | ⟨h1, h2, h3⟩
  · dsimp only
    rw [if_pos h1]
    rfl
  · dsimp only
    rw [if_neg (by decide), if_pos rfl]
    rfl
  · dsimp only
    rw [if_neg (by tauto), if_neg h3]
    rfl

/-- With the correlation methods a given `corr` decides alone; with the information method it is ignored. -/
theorem init_precedence (pdCorr : Dist.Table → String → Dist.Table) (X X' : Option Dist.CorrArg) (corr corr' : Option Dist.CorrArg)
    (c : Dist.CorrArg) (cod toDist method : String) (ord : Bool) :
    ((cod = "pearson-correlation" ∨ cod = "spearman-correlation") →
      HC.init (Z := Z) pdCorr X (some c) none cod toDist method ord = HC.init pdCorr X' (some c) none cod toDist method ord) ∧
    (cod = "var_info" →
      HC.init (Z := Z) pdCorr X corr none cod toDist method ord = HC.init pdCorr X corr' none cod toDist method ord) := by
  constructor
  · intro h
    unfold HC.init computeDist
    dsimp only
    rw [if_pos h, if_pos h]
  · rintro rfl
    unfold HC.init computeDist
    dsimp only
    have h : ¬("var_info" = "pearson-correlation" ∨ "var_info" = "spearman-correlation") := by decide
    simp only [if_neg h]

/-! ### The first linkage -/

/-- The first read of `linkage` succeeds if and only if the matrix passes the checks of scipy and scipy knows the method. -/
theorem linkage_ok_iff (scipy : Dist.Table → String → Bool → Py Z) {o : HC Z} (hc : o.cache = none) (z : Z) :
    (o.linkage scipy).1 = .ok z ↔
      ∃ m, o.dist = .table m ∧ LinkageInput m ∧ scipy m o.method o.ordering = .ok z := by
  have e : (o.linkage scipy).1 = linkageOf scipy o.dist o.method o.ordering := by
    unfold HC.linkage
    rw [hc]
    cases linkageOf scipy o.dist o.method o.ordering <;> rfl
  rw [e]
  unfold linkageOf
  cases o.dist with
  | none_ => exact ⟨(fun h => by cases h), (fun ⟨m, h, _⟩ => by cases h)⟩
  | other => exact ⟨(fun h => by cases h), (fun ⟨m, h, _⟩ => by cases h)⟩
  | table m =>
    dsimp only
    by_cases hm : LinkageInput m
    · rw [if_pos hm]
      constructor
      · exact fun h => ⟨m, rfl, hm, h⟩
      · rintro ⟨m', h1, _, h3⟩
        cases h1
        exact h3
    · rw [if_neg hm]
      constructor
      · intro h
        cases h
      · rintro ⟨m', h1, h2, _⟩
        cases h1
        exact absurd h2 hm

/-- A failed read leaves the object as it was. -/
theorem linkage_failed (scipy : Dist.Table → String → Bool → Py Z) {o : HC Z} {e : PyErr} (h : (o.linkage scipy).1 = .error e) :
    (o.linkage scipy).2 = o := by
  unfold HC.linkage at h ⊢
  cases hc : o.cache with
  | some z => rfl
  | none =>
    rw [hc] at h
    cases hl : linkageOf scipy o.dist o.method o.ordering with
    | ok z => rw [hl] at h; cases h
    | error e' => rfl

/-- A matrix of distances passes the checks. -/
theorem input_isDist {m : Dist.Table} {n : Nat} {d : Nat → Nat → ℝ} (hn : 2 ≤ n) (hm : IsDist m n d) : LinkageInput m := by
  refine ⟨by rw [hm.rows, hm.cols], by rw [hm.rows]; exact hn, fun i j hi hj => ?_, fun i hi => ?_, fun i j hi hj => ?_⟩
  · rw [hm.rows] at hi hj
    rw [hm.entries i j hi hj, hm.entries j i hj hi]
    exact hm.symm i j hi hj
  · rw [hm.rows] at hi
    rw [hm.entries i i hi hi]
    exact hm.diag i hi
  · rw [hm.rows] at hi hj
    exact ⟨_, hm.entries i j hi hj⟩

/-- The checks of scipy are those of a matrix of distances. -/
theorem input_iff (m : Dist.Table) : LinkageInput m ↔ 2 ≤ m.rows ∧ ∃ d, IsDist m m.rows d := by
  constructor
  · rintro ⟨h1, h2, h3, h4, h5⟩
    have he : ∀ i j, i < m.rows → j < m.rows → m.at_ i j = .fin (toReal (m.at_ i j)) := by
      intro i j hi hj
      obtain ⟨r, hr⟩ := h5 i j hi hj
      rw [hr]
      rfl
    refine ⟨h2, fun i j => toReal (m.at_ i j), rfl, h1.symm, he, fun i j hi hj => ?_, fun i hi => ?_⟩
    · have := h3 i j hi hj
      rw [he i j hi hj, he j i hj hi] at this
      exact this
    · have := h4 i hi
      rw [he i i hi hi] at this
      exact this
  · rintro ⟨h1, d, hd⟩
    exact input_isDist h1 hd

/-- From a data frame of observations an object is always built; its linkage can be computed if and only if no
correlation is NaN. A constant column is therefore reported by the first use, not by the constructor. -/
theorem frame_linkage {pdCorr : Dist.Table → String → Dist.Table} (hs : Dist.PdCorrSpec pdCorr) {m : Dist.Table} (hc : 2 ≤ m.cols)
    {cod toDist method : String} (ord : Bool) (hcod : cod = "pearson-correlation" ∨ cod = "spearman-correlation")
    {meth : Dist.Method} (hm : Dist.parseMethod toDist = some meth) :
    ∃ t, HC.init (Z := Z) pdCorr (some (.frame m)) none none cod toDist method ord = .ok ⟨.table t, method, ord, none⟩ ∧
      (LinkageInput t ↔ ∀ i j, i < m.cols → j < m.cols →
        (pdCorr m (if cod = "pearson-correlation" then "pearson" else "spearman")).at_ i j ≠ .nan) := by
  have hname : (if cod = "pearson-correlation" then "pearson" else "spearman") = "pearson" ∨
      (if cod = "pearson-correlation" then "pearson" else "spearman") = "spearman" := by
    split
    · exact .inl rfl
    · exact .inr rfl
  obtain ⟨d, h1, h2, h3, h4, h5⟩ := Dist.frame_distance_matrix hs hc hname hm
  refine ⟨⟨m.cols, m.cols, fun i j => ofOpt (d i j)⟩, ?_, ?_⟩
  · unfold HC.init computeDist
    dsimp only
    rw [if_pos hcod, h1]
    rfl
  · rw [input_iff]
    constructor
    · rintro ⟨_, e, he⟩ i j hi hj hn
      have := he.entries i j hi hj
      rw [← h3 i j] at hn
      dsimp only at this
      rw [hn] at this
      cases this
    · intro h
      have hd : ∀ i j, i < m.cols → j < m.cols → ofOpt (d i j) = .fin (toReal (ofOpt (d i j))) := by
        intro i j hi hj
        cases hdij : d i j with
        | none => exact absurd ((h3 i j).mp hdij) (h i j hi hj)
        | some v => rfl
      refine ⟨hc, fun i j => toReal (ofOpt (d i j)), rfl, rfl, hd, fun i j _ _ => by rw [h2], fun i hi => ?_⟩
      rcases h5 i with h6 | h6
      · exact absurd ((h3 i i).mp h6) (h i i hi hi)
      · rw [h6]
        rfl

/-- From an array of observations with a constant column there is no object (AssertionError). -/
theorem array_init_error {pdCorr : Dist.Table → String → Dist.Table} (hs : Dist.PdCorrSpec pdCorr) {m : Dist.Table} (hc : 2 ≤ m.cols)
    {cod toDist : String} (method : String) (ord : Bool) (hcod : cod = "pearson-correlation" ∨ cod = "spearman-correlation")
    {meth : Dist.Method} (hm : Dist.parseMethod toDist = some meth)
    (hnan : ∃ i j, i < m.cols ∧ j < m.cols ∧
      (pdCorr m (if cod = "pearson-correlation" then "pearson" else "spearman")).at_ i j = .nan) :
    HC.init (Z := Z) pdCorr (some (.array m)) none none cod toDist method ord = .error .assertionError := by
  have hname : (if cod = "pearson-correlation" then "pearson" else "spearman") = "pearson" ∨
      (if cod = "pearson-correlation" then "pearson" else "spearman") = "spearman" := by
    split
    · exact .inl rfl
    · exact .inr rfl
  unfold HC.init computeDist
  dsimp only
  rw [if_pos hcod, (Dist.array_distance_matrix hs hc hname hm).2 hnan]
  rfl

/-- A correlation matrix accepted by the constructor can make every use of the object fail: the validation of arrays has
a tolerance for asymmetry, scipy has none. -/
theorem accepted_but_unusable (pdCorr : Dist.Table → String → Dist.Table) (scipy : Dist.Table → String → Bool → Py Z)
    (X : Option Dist.CorrArg) (method : String) (ord : Bool) : ∃ c o,
    HC.init (Z := Z) pdCorr X (some (.array c)) none "pearson-correlation" "angular" method ord = .ok o ∧ 2 ≤ c.cols ∧
      (o.linkage scipy).1 = .error .valueError := by
  obtain ⟨m, d, h1, h2⟩ := Dist.array_dist_asymmetric
  have hv := (Dist.array_ok_iff .angular m).mp ⟨_, h1⟩
  have hshape : m.rows = 2 ∧ m.cols = 2 := by
    obtain ⟨d', hr, _⟩ := Dist.array_dist h1
    injection hr with hr hr'
    exact ⟨hr.symm, hv.1 ▸ hr'.symm⟩
  have hd : Dist.corrToDist (.array m) "angular" = .ok (.array 2 2 d) := by
    unfold Dist.corrToDist Dist.validate2D
    dsimp only
    rw [if_neg (by omega)]
    exact h1
  refine ⟨m, ⟨.table ⟨2, 2, fun i j => ofOpt (d i j)⟩, method, ord, none⟩, ?_, by omega, ?_⟩
  · unfold HC.init computeDist
    dsimp only
    rw [if_pos (.inl rfl), hd]
    rfl
  · have : ¬ LinkageInput ⟨2, 2, fun i j => ofOpt (d i j)⟩ := by
      rintro ⟨_, _, h3, _, h5⟩
      have := h3 0 1 (by simp) (by simp)
      obtain ⟨a, ha⟩ := h5 0 1 (by simp) (by simp)
      obtain ⟨b, hb⟩ := h5 1 0 (by simp) (by simp)
      dsimp only at this ha hb
      rw [ha, hb] at this
      cases h01 : d 0 1 with
      | none => rw [h01] at ha; cases ha
      | some u =>
        cases h10 : d 1 0 with
        | none => rw [h10] at hb; cases hb
        | some v =>
          rw [h01] at ha
          rw [h10] at hb
          injection ha with ha
          injection hb with hb
          have : a = b := this
          exact h2 (by rw [h01, h10, ha, hb, this])
    unfold HC.linkage linkageOf
    dsimp only
    rw [if_neg this]

/-- With the information method an object is built if and only if the frame has two columns and the distance of every pair
of columns can be computed; its linkage can be computed if and only if moreover no distance is NaN. -/
theorem var_info_linkage (pdCorr : Dist.Table → String → Dist.Table) (m : Dist.Table) (corr : Option Dist.CorrArg)
    (toDist method : String) (ord : Bool) :
    ((∃ o, HC.init (Z := Z) pdCorr (some (.frame m)) corr none "var_info" toDist method ord = .ok o) ↔
      2 ≤ m.cols ∧ ∀ i j, i < j → j < m.cols →
        ∃ v, Info.varInfo none true ((columnsOf m).getD i []) ((columnsOf m).getD j []) = .ok v) ∧
    ∀ o, HC.init (Z := Z) pdCorr (some (.frame m)) corr none "var_info" toDist method ord = .ok o →
      ∃ t, o = ⟨.table t, method, ord, none⟩ ∧ (LinkageInput t ↔ ∀ i j, i < j → j < m.cols →
        ∃ r, Info.varInfo none true ((columnsOf m).getD i []) ((columnsOf m).getD j []) = .ok (.fin r)) := by
  have hlen : (columnsOf m).length = m.cols := by unfold columnsOf; simp
  have hinit : HC.init (Z := Z) pdCorr (some (.frame m)) corr none "var_info" toDist method ord =
      (Info.infoDistanceMatrix .vi none true (columnsOf m)).bind
        fun r => .ok ⟨.table ⟨m.cols, m.cols, r⟩, method, ord, none⟩ := by
    unfold HC.init computeDist varInfoDist Info.getInfoDistanceMatrix
    dsimp only
    rw [if_neg (by decide), if_pos rfl, if_neg (by decide), if_pos rfl]
    cases Info.infoDistanceMatrix .vi none true (columnsOf m) <;> rfl
  have hiff := (Info.info_matrix_ok_iff .vi none true (columnsOf m)).1
  rw [hlen] at hiff
  rw [hinit]
  constructor
  · refine Iff.trans ?_ hiff
    constructor
    · rintro ⟨o, ho⟩
      cases hR : Info.infoDistanceMatrix .vi none true (columnsOf m) with
      | ok R => exact ⟨R, rfl⟩
      | error e => rw [hR] at ho; cases ho
    · rintro ⟨R, hR⟩
      rw [hR]
      exact ⟨_, rfl⟩
  · intro o ho
    cases hR : Info.infoDistanceMatrix .vi none true (columnsOf m) with
    | error e => rw [hR] at ho; cases ho
    | ok R =>
      rw [hR] at ho
      cases ho
      obtain ⟨h1, h2, h3⟩ := Info.info_matrix_entries hR
      rw [hlen] at h1 h2 h3
      refine ⟨_, rfl, ?_⟩
      constructor
      · rintro ⟨_, _, _, _, h5⟩ i j hij hj
        obtain ⟨r, hr⟩ := h5 i j (hij.trans hj) hj
        have := (h2 i j (hij.trans hj) hj hij.ne).1
        dsimp only at hr
        rw [hr] at this
        exact ⟨r, this⟩
      · intro h
        have hfin : ∀ i j, i < j → j < m.cols → ∃ r, R i j = .fin r := by
          intro i j hij hj
          obtain ⟨r, hr⟩ := h i j hij hj
          have h4 : Info.varInfo none true ((columnsOf m).getD i []) ((columnsOf m).getD j []) = .ok (R i j) :=
            (h2 i j (hij.trans hj) hj hij.ne).1
          rw [hr] at h4
          exact ⟨r, (Except.ok.inj h4).symm⟩
        have hall : ∀ i j, i < m.cols → j < m.cols → ∃ r, R i j = .fin r := by
          intro i j hi hj
          rcases Nat.lt_trichotomy i j with hij | rfl | hij
          · exact hfin i j hij hj
          · exact ⟨_, h3 i hi⟩
          · rw [(h2 i j hi hj hij.ne').2]
            exact hfin j i hij hi
        refine ⟨rfl, h1, fun i j hi hj => ?_, fun i hi => ?_, hall⟩
        · obtain ⟨r, hr⟩ := hall i j hi hj
          have : R j i = R i j := by
            by_cases hij : i = j
            · rw [hij]
            · exact ((h2 i j hi hj hij).2).symm
          dsimp only
          rw [this, hr]
          exact rfl
        · dsimp only
          rw [h3 i hi]
          exact rfl

/-! ### Histories -/

/-- The last value assigned to `dist` in a history, `d` if there is none. -/
def lastDist (d : DistArg) : List Op → DistArg
  | [] => d
  | .setDist d' :: ops => lastDist d' ops
  | _ :: ops => lastDist d ops

/-- The last value assigned to `linkage_method` in a history, `s` if there is none. -/
def lastMethod (s : String) : List Op → String
  | [] => s
  | .setMethod s' :: ops => lastMethod s' ops
  | _ :: ops => lastMethod s ops

theorem linkage_cached (scipy : Dist.Table → String → Bool → Py Z) {o : HC Z} {z : Z} (h : o.cache = some z) :
    o.linkage scipy = (.ok z, o) := by
  unfold HC.linkage
  rw [h]

theorem run_cached (rng : Int → Nat → ℝ) (scipy : Dist.Table → String → Bool → Py Z) (cutTree : Z → Int → List α) {z : Z}
    (ops : List Op) : ∀ {o : HC Z}, o.cache = some z →
    (o.run rng scipy cutTree ops).2 = ⟨lastDist o.dist ops, lastMethod o.method ops, o.ordering, some z⟩ := by
  induction ops with
  | nil =>
    intro o h
    cases o
    cases h
    rfl
  | cons op ops ih =>
    intro o h
    have hl := linkage_cached scipy h
    unfold HC.run
    dsimp only
    cases op with
    | linkage =>
      have : (o.step rng scipy cutTree .linkage).2 = o := by unfold HC.step; rw [hl]
      rw [this]
      exact ih h
    | clusters k =>
      have : (o.step rng scipy cutTree (.clusters k)).2 = o := by unfold HC.step; dsimp only; rw [hl]
      rw [this]
      exact ih h
    | optimal mc metric nb =>
      have : (o.step rng scipy cutTree (.optimal mc metric nb)).2 = o := by unfold HC.step; dsimp only; rw [hl]
      rw [this]
      exact ih h
    | setDist d => exact ih (o := { o with dist := d }) h
    | setMethod s => exact ih (o := { o with method := s }) h

/-- C70. Once a linkage matrix `z` has been computed, after every further history of calls and assignments `linkage`
returns `z` and `get_clusters` cuts `z`; `get_optimal_nclusters` cuts `z` too but judges the cuts with the distances
assigned last. -/
theorem linkage_frozen (rng : Int → Nat → ℝ) (scipy : Dist.Table → String → Bool → Py Z) (cutTree : Z → Int → List α) {o : HC Z}
    {z : Z} (h : o.cache = some z) (ops : List Op) (k mc nb : Int) (metric : String) :
    ((o.run rng scipy cutTree ops).2.step rng scipy cutTree .linkage).1 = .ok (.linkage z) ∧
    ((o.run rng scipy cutTree ops).2.step rng scipy cutTree (.clusters k)).1 = .ok (.labels (cutTree z k)) ∧
    ((o.run rng scipy cutTree ops).2.step rng scipy cutTree (.optimal mc metric nb)).1 =
      (optimizeNClusters rng (cutTree z) (lastDist o.dist ops) mc metric nb).map .number := by
  rw [run_cached rng scipy cutTree ops h]
  exact ⟨rfl, rfl, rfl⟩

/-- C70. The cached linkage was right when it was computed: for every history of a new object, if there is a cached
matrix then it is the linkage of the distances and the method that the object had after some part of the history. -/
theorem linkage_origin (rng : Int → Nat → ℝ) (scipy : Dist.Table → String → Bool → Py Z) (cutTree : Z → Int → List α) {z : Z}
    (ops : List Op) : ∀ {o : HC Z}, o.cache = none → (o.run rng scipy cutTree ops).2.cache = some z →
    ∃ pre post, ops = pre ++ post ∧
      linkageOf scipy (lastDist o.dist pre) (lastMethod o.method pre) o.ordering = .ok z := by
  induction ops with
  | nil =>
    intro o h hz
    rw [show (o.run rng scipy cutTree []).2 = o from rfl, h] at hz
    cases hz
  | cons op ops ih =>
    intro o h hz
    have hread : ∀ op' : Op, (o.step rng scipy cutTree op').2 = (o.linkage scipy).2 →
        ((o.step rng scipy cutTree op').2.run rng scipy cutTree ops).2.cache = some z →
        (∀ d pre, lastDist d (op' :: pre) = lastDist d pre) → (∀ s pre, lastMethod s (op' :: pre) = lastMethod s pre) →
        ∃ pre post, op' :: ops = pre ++ post ∧
          linkageOf scipy (lastDist o.dist pre) (lastMethod o.method pre) o.ordering = .ok z := by
      intro op' hs hz hd hm
      rw [hs] at hz
      cases hl : linkageOf scipy o.dist o.method o.ordering with
      | ok z' =>
        have h2 : (o.linkage scipy).2 = { o with cache := some z' } := by
          unfold HC.linkage
          rw [h, hl]
        rw [h2, run_cached rng scipy cutTree ops (o := { o with cache := some z' }) rfl] at hz
        injection hz with hz
        subst hz
        exact ⟨[], op' :: ops, rfl, hl⟩
      | error e =>
        have h2 : (o.linkage scipy).2 = o := by
          unfold HC.linkage
          rw [h, hl]
        rw [h2] at hz
        obtain ⟨pre, post, h3, h4⟩ := ih h hz
        exact ⟨op' :: pre, post, by rw [h3]; rfl, by rw [hd, hm]; exact h4⟩
    cases op with
    | linkage => exact hread .linkage rfl hz (fun _ _ => rfl) (fun _ _ => rfl)
    | clusters k => exact hread (.clusters k) rfl hz (fun _ _ => rfl) (fun _ _ => rfl)
    | optimal mc metric nb => exact hread (.optimal mc metric nb) rfl hz (fun _ _ => rfl) (fun _ _ => rfl)
    | setDist d =>
      obtain ⟨pre, post, h3, h4⟩ := ih (o := { o with dist := d }) h hz
      exact ⟨.setDist d :: pre, post, by rw [h3]; rfl, h4⟩
    | setMethod s =>
      obtain ⟨pre, post, h3, h4⟩ := ih (o := { o with method := s }) h hz
      exact ⟨.setMethod s :: pre, post, by rw [h3]; rfl, h4⟩

/-- The operations that do not assign to an attribute. -/
def Reads : Op → Prop
  | .linkage => True
  | .clusters _ => True
  | .optimal _ _ _ => True
  | .setDist _ => False
  | .setMethod _ => False

theorem linkage_twice (scipy : Dist.Table → String → Bool → Py Z) (o : HC Z) :
    ((o.linkage scipy).2.linkage scipy).1 = (o.linkage scipy).1 ∧ ((o.linkage scipy).2).dist = o.dist := by
  cases hc : o.cache with
  | some z =>
    have h := linkage_cached scipy hc
    rw [h]
    exact ⟨by rw [h], rfl⟩
  | none =>
    cases hl : linkageOf scipy o.dist o.method o.ordering with
    | ok z =>
      have h2 : o.linkage scipy = (.ok z, { o with cache := some z }) := by
        unfold HC.linkage
        rw [hc, hl]
      rw [h2]
      exact ⟨rfl, rfl⟩
    | error e =>
      have h2 : o.linkage scipy = (.error e, o) := by
        unfold HC.linkage
        rw [hc, hl]
      rw [h2]
      exact ⟨by rw [h2], rfl⟩

/-- C70. Without assignments the cache cannot be observed: every call in a history gives what it gives on the object at
the beginning. -/
theorem reads_pure (rng : Int → Nat → ℝ) (scipy : Dist.Table → String → Bool → Py Z) (cutTree : Z → Int → List α)
    (ops : List Op) : ∀ (o : HC Z), (∀ op ∈ ops, Reads op) →
    (o.run rng scipy cutTree ops).1 = ops.map fun op => (o.step rng scipy cutTree op).1 := by
  induction ops with
  | nil => intro o _; rfl
  | cons op ops ih =>
    intro o h
    unfold HC.run
    rw [List.map_cons]
    have hs : (o.step rng scipy cutTree op).2 = (o.linkage scipy).2 := by
      have := h op (by simp)
      cases op with
      | linkage => rfl
      | clusters k => rfl
      | optimal mc metric nb => rfl
      | setDist d => exact this.elim
      | setMethod s => exact this.elim
    rw [hs, ih _ fun op' hop' => h op' (by simp [hop'])]
    dsimp only
    congr 1
    obtain ⟨h1, h2⟩ := linkage_twice scipy o
    refine List.map_congr_left fun op' hop' => ?_
    have := h op' (by simp [hop'])
    cases op' with
    | linkage => unfold HC.step; dsimp only; rw [h1]
    | clusters k => unfold HC.step; dsimp only; rw [h1]
    | optimal mc metric nb => unfold HC.step; dsimp only; rw [h1, h2]
    | setDist d => exact this.elim
    | setMethod s => exact this.elim

/-- C70, limit. After an assignment to `dist` an object that has been used and a new object with the same attributes give
different clusters, as soon as the linkage matrices differ. -/
theorem stale_after_assignment (rng : Int → Nat → ℝ) (scipy : Dist.Table → String → Bool → Py Z) (cutTree : Z → Int → List α)
    {d d' : DistArg} {method : String} {ord : Bool} {z z' : Z} (h : linkageOf scipy d method ord = .ok z)
    (h' : linkageOf scipy d' method ord = .ok z') (k : Int) :
    ((⟨d, method, ord, none⟩ : HC Z).run rng scipy cutTree [.clusters k, .setDist d', .clusters k]).1 =
      [.ok (.labels (cutTree z k)), .ok .unit, .ok (.labels (cutTree z k))] ∧
    ((⟨d', method, ord, none⟩ : HC Z).run rng scipy cutTree [.clusters k]).1 = [.ok (.labels (cutTree z' k))] := by
  have e1 : ∀ (d : DistArg) (z : Z), linkageOf scipy d method ord = .ok z →
      (⟨d, method, ord, none⟩ : HC Z).linkage scipy = (.ok z, ⟨d, method, ord, some z⟩) := by
    intro d z h
    unfold HC.linkage
    dsimp only
    rw [h]
  constructor
  · unfold HC.run HC.step
    dsimp only
    rw [e1 d z h]
    rfl
  · unfold HC.run HC.step
    dsimp only
    rw [e1 d' z' h']
    rfl

/-- A linkage that is the table itself, and two tables whose linkages can be computed and differ. -/
example : ∃ d d' : DistArg, ∃ z z' : Dist.Table, linkageOf (fun m _ _ => .ok m) d "ward" true = .ok z ∧
    linkageOf (fun m _ _ => .ok m) d' "ward" true = .ok z' ∧ z ≠ z' := by
  have h1 := input_isDist (by norm_num) ClustSilh.pair_isDist
  have h2 := input_isDist (by norm_num) eqTable_isDist
  refine ⟨.table ClustSilh.pairTable, .table eqTable, ClustSilh.pairTable, eqTable, ?_, ?_, ?_⟩
  · unfold linkageOf
    dsimp only
    rw [if_pos h1]
  · unfold linkageOf
    dsimp only
    rw [if_pos h2]
  · intro h
    have : ClustSilh.pairTable.at_ 0 2 = eqTable.at_ 0 2 := by rw [h]
    simp [ClustSilh.pairTable, eqTable] at this

end Verif.Props.ClustHC
