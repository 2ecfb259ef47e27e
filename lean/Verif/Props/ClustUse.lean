import Verif.Props.ClustLinkage
import Verif.Props.ClustHC

/-!
# C91, C92: `HC.get_clusters`

The results on trees for the class, and the cases in which the number of clusters is not the one asked for.
-/

namespace Verif.Clust

open Verif Ser Verif.Props.ClustSelect Verif.Props.ClustGap Verif.Props.ClustHC Classical Finset

/-- What `hierarchy.linkage` does with a matrix that has passed its checks: ValueError for an unknown method, otherwise a
matrix of merges for the method. -/
def LinkageSpec (scipy : Dist.Table → String → Bool → Py (List Row)) : Prop :=
  ∀ m method ord, LinkageInput m →
    match Method.ofName method with
    | none => scipy m method ord = .error .valueError
    | some meth => ∃ Z, scipy m method ord = .ok Z ∧ IsLinkage meth m.rows (fun i j => toReal (m.at_ i j)) Z

/-- There are such functions. -/
theorem linkageSpec_exists : ∃ scipy, LinkageSpec scipy := by
  have : ∀ (m : Dist.Table) (method : String), ∃ v : Py (List Row), LinkageInput m →
      match Method.ofName method with
      | none => v = .error .valueError
      | some meth => ∃ Z, v = .ok Z ∧ IsLinkage meth m.rows (fun i j => toReal (m.at_ i j)) Z := by
    intro m method
    by_cases hm : LinkageInput m
    · cases h : Method.ofName method with
      | none => exact ⟨_, fun _ => rfl⟩
      | some meth =>
        obtain ⟨h1, d, hd⟩ := (input_iff m).mp hm
        obtain ⟨Z, hZ⟩ := linkage_exists meth (n := m.rows) (by omega) (D := fun i j => toReal (m.at_ i j)) (by
          intro i hi j hj
          rw [hd.entries i j hi hj, hd.entries j i hj hi]
          exact hd.symm i j hi hj)
        exact ⟨.ok Z, fun _ => ⟨Z, rfl, hZ⟩⟩
    · exact ⟨.ok [], fun h => absurd h hm⟩
  choose f hf using this
  exact ⟨fun m method _ => f m method, fun m method _ h => hf m method h⟩

/-- The linkage of an object with a matrix of distances. -/
theorem hc_linkage {scipy : Dist.Table → String → Bool → Py (List Row)} (hs : LinkageSpec scipy) {m : Dist.Table} {n : Nat} (hn : 2 ≤ n)
    {d : Nat → Nat → ℝ} (hm : IsDist m n d) {method : String} {meth : Method} (hmeth : Method.ofName method = some meth) (ord : Bool) :
    ∃ Z, IsLinkage meth n d Z ∧ (⟨.table m, method, ord, none⟩ : HC (List Row)).linkage scipy = (.ok Z, ⟨.table m, method, ord, some Z⟩) := by
  have hi := input_isDist hn hm
  have := hs m method ord hi
  rw [hmeth] at this
  obtain ⟨Z, hZ, hl, s, hr⟩ := this
  have congrD : ∀ {D D' : Nat → Nat → ℝ}, (∀ i < n, ∀ j < n, D i j = D' i j) → (∀ i < n, ∀ j < n, D i j = D j i) → ∀ {Z : List Row} {s : Agg},
      Runs meth (.init n D) Z s → ∃ s', Runs meth (.init n D') Z s' := by
    intro D D' he hD Z s hr
    have key : ∀ {Z : List Row} {s s' t : Agg}, Runs meth s Z s' → s.Good n → t.trees = s.trees → t.live = s.live →
        (∀ x ∈ s.live, ∀ y ∈ s.live, x ≠ y → t.D x y = s.D x y) → ∃ t', Runs meth t Z t' := by
      intro Z s s' t h
      induction h generalizing t with
      | nil => exact fun _ _ _ _ => ⟨t, .nil t⟩
      | @cons s s' r Z hc _ ih =>
        intro hg e1 e2 e3
        have hpts : ∀ x, t.pts x = s.pts x := fun x => by unfold Agg.pts; rw [e1]
        have hc' : t.Closest r := by
          refine ⟨e2 ▸ hc.1, e2 ▸ hc.2.1, hc.2.2.1, ?_, ?_⟩
          · rw [e3 _ hc.1 _ hc.2.1 hc.2.2.1]
            exact hc.2.2.2.1
          · intro x hx y hy hne
            rw [e2] at hx hy
            rw [e3 x hx y hy hne]
            exact hc.2.2.2.2 x hx y hy hne
        have hnew : ∀ y ∈ s.live, y ≠ r.a → y ≠ r.b → (t.merge meth r).D s.trees.length y = (s.merge meth r).D s.trees.length y := by
          intro y hy ha hb
          rw [Agg.D_new, ← e1, Agg.D_new, e3 _ hc.1 _ hy (Ne.symm ha), e3 _ hc.2.1 _ hy (Ne.symm hb), e3 _ hc.1 _ hc.2.1 hc.2.2.1]
          unfold Agg.sz
          rw [hpts, hpts, hpts]
        obtain ⟨t', ht'⟩ := ih (t := t.merge meth r) (hg.merge meth hc.1 hc.2.1 hc.2.2.1)
          (by simp only [Agg.merge, Agg.tree, e1]) (by simp only [Agg.merge, e1, e2]) (by
            intro x hx y hy hne
            rcases Agg.mem_merge.mp hx with rfl | ⟨hx, hxa, hxb⟩ <;> rcases Agg.mem_merge.mp hy with rfl | ⟨hy, hya, hyb⟩
            · exact absurd rfl hne
            · exact hnew y hy hya hyb
            · have e := Agg.D_new' (m := meth) (s := t) (r := r) (x := x) (by rw [e1]; exact hg.lt x hx)
              rw [e1] at e
              rw [e, Agg.D_new' (hg.lt x hx)]
              exact hnew x hx hxa hxb
            · rw [Agg.D_merge (hg.lt x hx) (hg.lt y hy), Agg.D_merge (by rw [e1]; exact hg.lt x hx) (by rw [e1]; exact hg.lt y hy)]
              exact e3 x hx y hy hne)
        exact ⟨t', .cons hc' ht'⟩
    exact key hr (Agg.good_init hD) (t := .init n D') rfl rfl fun x hx y hy _ =>
      (he x ((live_init n D x).mp hx) y ((live_init n D y).mp hy)).symm
  rw [hm.rows] at hl hr
  have hent : ∀ i < n, ∀ j < n, toReal (m.at_ i j) = d i j := fun i hi j hj => by rw [hm.entries i j hi hj]; rfl
  refine ⟨Z, ⟨hl, congrD hent (fun i hi j hj => ?_) hr⟩, ?_⟩
  · rw [hent i hi j hj, hent j hj i hi]
    exact hm.symm i j hi hj
  · unfold HC.linkage linkageOf
    dsimp only
    rw [if_pos hi, hZ]

/-- C91. A new object with a matrix of distances over `n` points and one of the methods single, complete, average, weighted or
ward: `get_clusters(k)` gives labels for all points, with exactly `min(k, n)` different ones for `k >= 1`, and one label for
all points for `k <= 0`. -/
theorem hc_clusters (rng : Int → Nat → ℝ) {scipy : Dist.Table → String → Bool → Py (List Row)} (hs : LinkageSpec scipy) {m : Dist.Table} {n : Nat}
    (hn : 2 ≤ n) {d : Nat → Nat → ℝ} (hm : IsDist m n d) (h0 : ∀ i < n, ∀ j < n, 0 ≤ d i j) {method : String}
    (hmeth : method ∈ ["single", "complete", "average", "weighted", "ward"]) (ord : Bool) (k : Int) :
    ∃ l, ((⟨.table m, method, ord, none⟩ : HC (List Row)).step rng scipy cutLabels (.clusters k)).1 = .ok (.labels l) ∧ l.length = n ∧
      (1 ≤ k → (l.dedup.length : Int) = min k n ∧ ∀ v, v ∈ l ↔ (v : Int) < min k n) ∧ (k ≤ 0 → l = List.replicate n 0) := by
  obtain ⟨meth, hme, hmo⟩ : ∃ meth, Method.ofName method = some meth ∧ (meth ≠ .centroid ∧ meth ≠ .median) := by
    simp only [List.mem_cons, List.not_mem_nil, or_false] at hmeth
    rcases hmeth with rfl | rfl | rfl | rfl | rfl
    · exact ⟨.single, rfl, by simp, by simp⟩
    · exact ⟨.complete, rfl, by simp, by simp⟩
    · exact ⟨.average, rfl, by simp, by simp⟩
    · exact ⟨.weighted, rfl, by simp, by simp⟩
    · exact ⟨.ward, rfl, by simp, by simp⟩
  obtain ⟨Z, hZ, hl⟩ := hc_linkage hs hn hm hme ord
  have hD : ∀ i < n, ∀ j < n, d i j = d j i := fun i hi j hj => hm.symm i j hi hj
  have hv := linkage_valid hn hD h0 hZ
  have hso := linkage_sorted hmo hD h0 hZ
  refine ⟨cutLabels Z k, ?_, ?_, fun hk => ?_, (cut_total hv k).2⟩
  · unfold HC.step
    dsimp only
    rw [hl]
    rfl
  · by_cases hk : 1 ≤ k
    · exact (linkage_cut hmo hn hD h0 hZ k hk).1
    · rw [(cut_total hv k).2 (by omega), List.length_replicate]
  · obtain ⟨t, ht, _⟩ := toTree_spec hv
    exact ⟨(linkage_cut hmo hn hD h0 hZ k hk).2, (cut_clusters hv hso ht hk).2.1⟩

/-! ### Three equidistant points: the methods centroid and median -/

/-- Three points at distances of 2. -/
noncomputable def triD (i j : Nat) : ℝ := if i = j then 0 else 2

/-- The rows: two points are merged at the distance 2, the third is at the distance √3 from their centre. -/
noncomputable def triZ : List Row := [⟨0, 1, 2⟩, ⟨2, 3, √3⟩]

theorem tri_linkage {m : Method} (hm : m = .centroid ∨ m = .median) : IsLinkage m 3 triD triZ := by
  have e : ∀ x, (Agg.init 3 triD).D x = triD x := fun _ => rfl
  have l0 : (Agg.init 3 triD).trees.length = 3 := rfl
  have c1 : (Agg.init 3 triD).Closest ⟨0, 1, 2⟩ := by
    refine ⟨by simp [Agg.init], by simp [Agg.init], by simp, by simp [e, triD], ?_⟩
    intro x _ y _ hne
    simp [e, triD, hne]
  have hmem : ∀ x, x ∈ ((Agg.init 3 triD).merge m ⟨0, 1, 2⟩).live ↔ x = 3 ∨ x = 2 := by
    intro x
    rw [Agg.mem_merge, l0, live_init]
    dsimp only
    omega
  have d32 : ((Agg.init 3 triD).merge m ⟨0, 1, 2⟩).D 3 2 = √3 := by
    have := Agg.D_new (m := m) (s := Agg.init 3 triD) (r := ⟨0, 1, 2⟩) (x := 2)
    rw [l0] at this
    rw [this]
    have s0 : (Agg.init 3 triD).sz 0 = 1 := by unfold Agg.sz; rw [pts_init triD (by norm_num)]; simp
    have s1 : (Agg.init 3 triD).sz 1 = 1 := by unfold Agg.sz; rw [pts_init triD (by norm_num)]; simp
    rcases hm with rfl | rfl
    · simp only [Method.update, e, s0, s1, triD]
      norm_num
    · simp only [Method.update, e, triD]
      norm_num
  have d23 : ((Agg.init 3 triD).merge m ⟨0, 1, 2⟩).D 2 3 = √3 := by
    rw [← d32]
    exact Agg.D_new' (m := m) (s := Agg.init 3 triD) (r := ⟨0, 1, 2⟩) (x := 2) (by rw [l0]; norm_num)
  refine ⟨rfl, _, .cons c1 (.cons ⟨(hmem 2).mpr (.inr rfl), (hmem 3).mpr (.inl rfl), by simp, d23.symm, ?_⟩ (.nil _))⟩
  intro x hx y hy hne
  rcases (hmem x).mp hx with rfl | rfl <;> rcases (hmem y).mp hy with rfl | rfl
  · exact absurd rfl hne
  · exact d32.ge
  · exact d23.ge
  · exact absurd rfl hne

theorem triD_symm (i j : Nat) : triD i j = triD j i := by
  unfold triD
  simp only [eq_comm]

theorem triD_nonneg (i j : Nat) : 0 ≤ triD i j := by
  unfold triD
  split <;> norm_num

theorem tri_labels : cutLabels triZ 2 = [0, 0, 0] := by
  have hv : ValidLinkage 3 triZ := linkage_valid (by norm_num) (fun i _ j _ => triD_symm i j) (fun i _ j _ => triD_nonneg i j) (tri_linkage (.inl rfl))
  have hlt : √3 < 2 := by
    rw [Real.sqrt_lt' (by norm_num)]
    norm_num
  have ht : toTree 3 triZ = some (.node (√3) (.leaf 2) (.node 2 (.leaf 0) (.leaf 1))) := rfl
  have ho : orderNodes (.node (√3) (.leaf 2) (.node 2 (.leaf 0) (.leaf 1))) =
      [.node (√3) (.leaf 2) (.node 2 (.leaf 0) (.leaf 1)), .node 2 (.leaf 0) (.leaf 1)] := by
    unfold orderNodes
    rw [orderGo_node, List.nil_append, orderGo_node]
    show orderGo [.leaf 2, .leaf 1, .leaf 0] _ = _
    rw [orderGo_leaf, orderGo_leaf, orderGo_leaf, orderGo_nil]
    simp [insort, Tree.dist, hlt]
  unfold cutLabels cutTree
  dsimp only
  rw [show triZ.length + 1 = 3 from rfl, if_pos hv, ht]
  dsimp only
  rw [ho]
  rfl

/-- C91, limit. With the methods centroid and median (`linkage_method="centroid"` is one of the documented options) the clusters
can be fewer than asked for: for three points at equal distances there is a linkage for which `get_clusters(2)` puts all
points in one cluster. -/
theorem centroid_one_cluster {m : Method} (hm : m = .centroid ∨ m = .median) :
    ∃ Z, IsLinkage m 3 triD Z ∧ cutTree Z 2 = .ok [0, 0, 0] ∧ ¬ CutSpec 3 (cutLabels Z) := by
  have hv : ValidLinkage 3 triZ := linkage_valid (by norm_num) (fun i _ j _ => triD_symm i j) (fun i _ j _ => triD_nonneg i j) (tri_linkage (.inl rfl))
  refine ⟨triZ, tri_linkage hm, ?_, fun h => ?_⟩
  · rw [(cut_total hv 2).1, tri_labels]
  · have := (h 2 (by norm_num)).2
    rw [tri_labels] at this
    simp at this

/-- The table of these distances. -/
noncomputable def triTable : Dist.Table := ⟨3, 3, fun i j => .fin (triD i j)⟩

theorem triTable_isDist : IsDist triTable 3 triD :=
  ⟨rfl, rfl, fun _ _ _ _ => rfl, fun i j _ _ => triD_symm i j, fun i _ => by simp [triD]⟩

/-- C91, limit. For the same three points `optimize_n_clusters(..., max_clust=2, metric="silhouette")` returns 2 with each of the
methods whose distances do not decrease and can raise ValueError with centroid and median. -/
theorem centroid_silhouette_error (rng : Int → Nat → ℝ) (nb : Int) :
    (∀ {m : Method} {Z : List Row}, m ≠ .centroid ∧ m ≠ .median → IsLinkage m 3 triD Z →
      optimizeNClusters rng (cutLabels Z) (.table triTable) 2 "silhouette" nb = .ok 2) ∧
    ∀ {m : Method}, m = .centroid ∨ m = .median → ∃ Z, IsLinkage m 3 triD Z ∧
      optimizeNClusters rng (cutLabels Z) (.table triTable) 2 "silhouette" nb = .error .valueError := by
  constructor
  · intro m Z hm hZ
    have hc := linkage_cut hm (by norm_num) (fun i _ j _ => triD_symm i j) (fun i _ j _ => triD_nonneg i j) hZ
    have h := Verif.Props.ClustSilh.select_equidistant rng (h := 2) (by norm_num) hc (m := triTable) triTable_isDist (M := 2) (by norm_num) (by norm_num) nb
    exact h
  · intro m hm
    refine ⟨triZ, tri_linkage hm, ?_⟩
    have e : silhAt (cutLabels triZ) (.table triTable) 2 = .error .valueError := by
      unfold silhAt
      rw [tri_labels]
      have hck : checkInputs (.table triTable) (.vec [0, 0, 0]) = .ok (triTable, [0, 0, 0]) :=
        checkInputs_ok.mpr ⟨rfl, rfl, by norm_num [triTable], by norm_num [triTable], rfl⟩
      unfold silhouetteTstat
      rw [hck]
      show (silhouetteSamples triTable [0, 0, 0]).bind _ = _
      unfold silhouetteSamples
      rw [if_neg]
      · rfl
      · intro h
        have := h.2.2.2.2.1
        simp at this
    unfold optimizeNClusters
    rw [if_neg (by decide), if_pos rfl]
    show (scoreLoop (silhAt (cutLabels triZ) (.table triTable)) (clustRange 2)).bind _ = _
    rw [show clustRange 2 = [2] from rfl]
    unfold scoreLoop
    rw [e]
    rfl

/-- C91. With the default `max_clust=20` and at most 20 points the silhouette rule raises ValueError. -/
theorem hc_silhouette_default (rng : Int → Nat → ℝ) {scipy : Dist.Table → String → Bool → Py (List Row)} (hs : LinkageSpec scipy) {m : Dist.Table} {n : Nat}
    (hn : 2 ≤ n) (hn' : n ≤ 20) {d : Nat → Nat → ℝ} (hm : IsDist m n d) (h0 : ∀ i < n, ∀ j < n, 0 ≤ d i j) (ord : Bool) (nb : Int) :
    ((⟨.table m, "ward", ord, none⟩ : HC (List Row)).step rng scipy cutLabels (.optimal 20 "silhouette" nb)).1 = .error .valueError := by
  obtain ⟨Z, hZ, hl⟩ := hc_linkage hs hn hm (method := "ward") (meth := .ward) rfl ord
  have hc := linkage_cut ⟨by simp, by simp⟩ hn (fun i hi j hj => hm.symm i j hi hj) h0 hZ
  unfold HC.step
  dsimp only
  rw [hl]
  show (optimizeNClusters rng (cutLabels Z) (.table m) 20 "silhouette" nb).map _ = _
  rw [silh_few rng hn hc hm.rows (by rw [hm.cols]; exact hn) (by exact_mod_cast hn')]
  rfl

/-! ### Two pairs: merges at equal distances -/

/-- Two pairs of points, at distance 1 within and 3 between the pairs. -/
noncomputable def duoD (i j : Nat) : ℝ := if i = j then 0 else if i / 2 = j / 2 then 1 else 3

noncomputable def duoZ : List Row := [⟨0, 1, 1⟩, ⟨2, 3, 1⟩, ⟨4, 5, 3⟩]

/-- The same with the clusters of the last row in the other order. -/
noncomputable def duoZ' : List Row := [⟨0, 1, 1⟩, ⟨2, 3, 1⟩, ⟨5, 4, 3⟩]

theorem duoD_symm (i j : Nat) : duoD i j = duoD j i := by
  unfold duoD
  simp only [eq_comm]

theorem duo_linkage {m : Method} (hm : m = .single ∨ m = .complete ∨ m = .average) : IsLinkage m 4 duoD duoZ ∧ IsLinkage m 4 duoD duoZ' := by
  have e : ∀ x, (Agg.init 4 duoD).D x = duoD x := fun _ => rfl
  have l0 : (Agg.init 4 duoD).trees.length = 4 := rfl
  have le : ∀ x y, x ≠ y → 1 ≤ duoD x y := by
    intro x y h
    unfold duoD
    rw [if_neg h]
    split <;> norm_num
  have c1 : (Agg.init 4 duoD).Closest ⟨0, 1, 1⟩ :=
    ⟨by simp [Agg.init], by simp [Agg.init], by simp, by simp [e, duoD], fun x _ y _ hne => le x y hne⟩
  set s1 := (Agg.init 4 duoD).merge m ⟨0, 1, 1⟩ with hs1
  have l1 : s1.trees.length = 5 := by rw [hs1, Agg.merge_length, l0]
  have m1 : ∀ x, x ∈ s1.live ↔ x = 4 ∨ x = 2 ∨ x = 3 := by
    intro x
    rw [hs1, Agg.mem_merge, l0, live_init]
    dsimp only
    omega
  have upd : ∀ d dxy sx sy si : ℝ, 0 < sx + sy → m.update d d dxy sx sy si = d := by
    intro d dxy sx sy si h
    rcases hm with rfl | rfl | rfl
    · exact min_self d
    · exact max_self d
    · show (sx * d + sy * d) / (sx + sy) = d
      rw [← add_mul, mul_comm, mul_div_assoc, div_self h.ne', mul_one]
  have g1 := (Agg.good_init (n := 4) fun i _ j _ => duoD_symm i j).merge m c1.1 c1.2.1 c1.2.2.1
  rw [← hs1] at g1
  have s01 : 0 < (Agg.init 4 duoD).sz 0 + (Agg.init 4 duoD).sz 1 := by
    unfold Agg.sz; rw [pts_init duoD (by norm_num), pts_init duoD (by norm_num)]; norm_num
  have d4 : ∀ x, duoD 0 x = 3 → duoD 1 x = 3 → s1.D 4 x = 3 := fun x h0 h1 => by
    have := Agg.D_new (m := m) (s := Agg.init 4 duoD) (r := ⟨0, 1, 1⟩) (x := x)
    rw [l0, ← hs1, e, e, h0, h1, upd _ _ _ _ _ s01] at this
    exact this
  have d4' : ∀ x < 4, duoD 0 x = 3 → duoD 1 x = 3 → s1.D x 4 = 3 := fun x hx h0 h1 => by
    rw [← d4 x h0 h1]
    exact Agg.D_new' (m := m) (s := Agg.init 4 duoD) (r := ⟨0, 1, 1⟩) (x := x) hx
  have d1 : ∀ x < 4, ∀ y < 4, s1.D x y = duoD x y := fun x hx y hy =>
    Agg.D_merge (m := m) (s := Agg.init 4 duoD) (r := ⟨0, 1, 1⟩) hx hy
  have v42 : s1.D 4 2 = 3 := d4 2 (by norm_num [duoD]) (by norm_num [duoD])
  have v43 : s1.D 4 3 = 3 := d4 3 (by norm_num [duoD]) (by norm_num [duoD])
  have v24 : s1.D 2 4 = 3 := d4' 2 (by norm_num) (by norm_num [duoD]) (by norm_num [duoD])
  have v34 : s1.D 3 4 = 3 := d4' 3 (by norm_num) (by norm_num [duoD]) (by norm_num [duoD])
  have v23 : s1.D 2 3 = 1 := by rw [d1 2 (by norm_num) 3 (by norm_num)]; norm_num [duoD]
  have v32 : s1.D 3 2 = 1 := by rw [d1 3 (by norm_num) 2 (by norm_num)]; norm_num [duoD]
  have c2 : s1.Closest ⟨2, 3, 1⟩ := by
    refine ⟨(m1 2).mpr (by simp), (m1 3).mpr (by simp), by simp, v23.symm, ?_⟩
    intro x hx y hy hne
    show (1 : ℝ) ≤ _
    rcases (m1 x).mp hx with rfl | rfl | rfl <;> rcases (m1 y).mp hy with rfl | rfl | rfl <;>
      first
      | exact absurd rfl hne
      | (simp only [v42, v43, v24, v34, v23, v32]; norm_num)
  set s2 := s1.merge m ⟨2, 3, 1⟩ with hs2
  have m2 : ∀ x, x ∈ s2.live ↔ x = 5 ∨ x = 4 := by
    intro x
    rw [hs2, Agg.mem_merge, l1, m1]
    dsimp only
    omega
  have d54 : s2.D 5 4 = 3 := by
    have := Agg.D_new (m := m) (s := s1) (r := ⟨2, 3, 1⟩) (x := 4)
    rw [l1] at this
    rw [this, v24, v34]
    exact upd _ _ _ _ _ (add_pos (g1.sz_pos ((m1 2).mpr (by simp))) (g1.sz_pos ((m1 3).mpr (by simp))))
  have d45 : s2.D 4 5 = 3 := by
    rw [← d54]
    have := Agg.D_new' (m := m) (s := s1) (r := ⟨2, 3, 1⟩) (x := 4) (by rw [l1]; norm_num)
    rw [l1] at this
    exact this
  have min : ∀ x ∈ s2.live, ∀ y ∈ s2.live, x ≠ y → 3 ≤ s2.D x y := by
    intro x hx y hy hne
    rcases (m2 x).mp hx with rfl | rfl <;> rcases (m2 y).mp hy with rfl | rfl
    · exact absurd rfl hne
    · exact d54.ge
    · exact d45.ge
    · exact absurd rfl hne
  exact ⟨⟨rfl, _, .cons c1 (.cons c2 (.cons ⟨(m2 4).mpr (by simp), (m2 5).mpr (by simp), by simp, d45.symm, min⟩ (.nil _)))⟩,
    ⟨rfl, _, .cons c1 (.cons c2 (.cons ⟨(m2 5).mpr (by simp), (m2 4).mpr (by simp), by simp, d54.symm, min⟩ (.nil _)))⟩⟩

theorem duo_valid : ValidLinkage 4 duoZ ∧ ValidLinkage 4 duoZ' := by
  have h0 : ∀ i < 4, ∀ j < 4, 0 ≤ duoD i j := fun i _ j _ => by unfold duoD; split <;> (try split) <;> norm_num
  exact ⟨linkage_valid (by norm_num) (fun i _ j _ => duoD_symm i j) h0 (duo_linkage (.inl rfl)).1,
    linkage_valid (by norm_num) (fun i _ j _ => duoD_symm i j) h0 (duo_linkage (.inl rfl)).2⟩

/-- C91, limit. The clusters depend on the order of the children, which `optimal_ordering` is free to choose, when merges
have equal distances: two linkages of the same points that differ only in the order of the two clusters of the last row
give different clusters for `get_clusters(3)`. -/
theorem order_matters : ∃ Z Z', IsLinkage .single 4 duoD Z ∧ IsLinkage .single 4 duoD Z' ∧
    cutTree Z 3 = .ok [0, 0, 1, 2] ∧ cutTree Z' 3 = .ok [0, 1, 2, 2] := by
  refine ⟨duoZ, duoZ', (duo_linkage (.inl rfl)).1, (duo_linkage (.inl rfl)).2, ?_, ?_⟩
  · have ht : toTree 4 duoZ = some (.node 3 (.node 1 (.leaf 0) (.leaf 1)) (.node 1 (.leaf 2) (.leaf 3))) := rfl
    have ho : orderNodes (.node 3 (.node 1 (.leaf 0) (.leaf 1)) (.node 1 (.leaf 2) (.leaf 3))) =
        [.node 1 (.leaf 0) (.leaf 1), .node 1 (.leaf 2) (.leaf 3), .node 3 (.node 1 (.leaf 0) (.leaf 1)) (.node 1 (.leaf 2) (.leaf 3))] := by
      unfold orderNodes
      rw [orderGo_node, List.nil_append, orderGo_node]
      show orderGo [.node 1 (.leaf 0) (.leaf 1), .leaf 3, .leaf 2] _ = _
      rw [orderGo_node]
      show orderGo [.leaf 3, .leaf 2, .leaf 1, .leaf 0] _ = _
      rw [orderGo_leaf, orderGo_leaf, orderGo_leaf, orderGo_leaf, orderGo_nil]
      have : ¬ (3 : ℝ) < 1 := by norm_num
      simp [insort, Tree.dist, this]
    unfold cutTree
    dsimp only
    rw [show duoZ.length + 1 = 4 from rfl, if_pos duo_valid.1, ht]
    dsimp only
    rw [ho]
    rfl
  · have ht : toTree 4 duoZ' = some (.node 3 (.node 1 (.leaf 2) (.leaf 3)) (.node 1 (.leaf 0) (.leaf 1))) := rfl
    have ho : orderNodes (.node 3 (.node 1 (.leaf 2) (.leaf 3)) (.node 1 (.leaf 0) (.leaf 1))) =
        [.node 1 (.leaf 2) (.leaf 3), .node 1 (.leaf 0) (.leaf 1), .node 3 (.node 1 (.leaf 2) (.leaf 3)) (.node 1 (.leaf 0) (.leaf 1))] := by
      unfold orderNodes
      rw [orderGo_node, List.nil_append, orderGo_node]
      show orderGo [.node 1 (.leaf 2) (.leaf 3), .leaf 1, .leaf 0] _ = _
      rw [orderGo_node]
      show orderGo [.leaf 1, .leaf 0, .leaf 3, .leaf 2] _ = _
      rw [orderGo_leaf, orderGo_leaf, orderGo_leaf, orderGo_leaf, orderGo_nil]
      have : ¬ (3 : ℝ) < 1 := by norm_num
      simp [insort, Tree.dist, this]
    unfold cutTree
    dsimp only
    rw [show duoZ'.length + 1 = 4 from rfl, if_pos duo_valid.2, ht]
    dsimp only
    rw [ho]
    rfl

/-! ### Cases -/

theorem duo_nonneg (i j : Nat) : 0 ≤ duoD i j := by
  unfold duoD
  split <;> (try split) <;> norm_num

theorem duo_count : (duoZ.filter fun r => decide (r.d ≤ 1)).length = 4 - 2 := by
  have : ¬ (3 : ℝ) ≤ 1 := by norm_num
  simp [duoZ, this]

example (p q : Nat) (hp : p < 4) (hq : q < 4) : lab (cutLabels duoZ (2 : Nat)) p = lab (cutLabels duoZ (2 : Nat)) q ↔ Way 4 duoD 1 p q :=
  single_clusters (by norm_num) (fun i _ j _ => duoD_symm i j) (fun i _ j _ => duo_nonneg i j) (duo_linkage (.inl rfl)).1 (by norm_num) (by norm_num) duo_count hp hq

example (p q : Nat) (hp : p < 4) (hq : q < 4) : lab (cutLabels duoZ (2 : Nat)) p = lab (cutLabels duoZ (2 : Nat)) q → p ≠ q → duoD p q ≤ 1 :=
  (complete_clusters (by norm_num) (fun i _ j _ => duoD_symm i j) (fun i _ j _ => duo_nonneg i j) (duo_linkage (.inr (.inl rfl))).1 (by norm_num) (by norm_num)
    duo_count hp hq).1

example (p q : Nat) (hp : p < 4) (hq : q < 4) (hne : lab (cutLabels duoZ (2 : Nat)) p ≠ lab (cutLabels duoZ (2 : Nat)) q) :
    1 < (∑ i ∈ cluster 4 (cutLabels duoZ (2 : Nat)) p, ∑ j ∈ cluster 4 (cutLabels duoZ (2 : Nat)) q, duoD i j) /
      ((cluster 4 (cutLabels duoZ (2 : Nat)) p).card * (cluster 4 (cutLabels duoZ (2 : Nat)) q).card) :=
  average_clusters (by norm_num) (fun i _ j _ => duoD_symm i j) (fun i _ j _ => duo_nonneg i j) (duo_linkage (.inr (.inr rfl))).1 (by norm_num) (by norm_num)
    duo_count hp hq hne

/-- Ward's method on three of the points: the third joins at the distance √(35/3). -/
theorem trio_linkage : IsLinkage .ward 3 duoD [⟨0, 1, 1⟩, ⟨2, 3, √(35 / 3)⟩] := by
  have e : ∀ x, (Agg.init 3 duoD).D x = duoD x := fun _ => rfl
  have l0 : (Agg.init 3 duoD).trees.length = 3 := rfl
  have c1 : (Agg.init 3 duoD).Closest ⟨0, 1, 1⟩ := by
    refine ⟨by simp [Agg.init], by simp [Agg.init], by simp, by simp [e, duoD], fun x _ y _ hne => ?_⟩
    show (1 : ℝ) ≤ duoD x y
    unfold duoD
    rw [if_neg hne]
    split <;> norm_num
  have hmem : ∀ x, x ∈ ((Agg.init 3 duoD).merge .ward ⟨0, 1, 1⟩).live ↔ x = 3 ∨ x = 2 := by
    intro x
    rw [Agg.mem_merge, l0, live_init]
    dsimp only
    omega
  have d32 : ((Agg.init 3 duoD).merge .ward ⟨0, 1, 1⟩).D 3 2 = √(35 / 3) := by
    have := Agg.D_new (m := .ward) (s := Agg.init 3 duoD) (r := ⟨0, 1, 1⟩) (x := 2)
    rw [l0] at this
    rw [this]
    have hs : ∀ x < 3, (Agg.init 3 duoD).sz x = 1 := fun x hx => by unfold Agg.sz; rw [pts_init duoD hx]; simp
    simp only [Method.update, e, hs 0 (by norm_num), hs 1 (by norm_num), hs 2 (by norm_num)]
    norm_num [duoD]
  have d23 : ((Agg.init 3 duoD).merge .ward ⟨0, 1, 1⟩).D 2 3 = √(35 / 3) := by
    rw [← d32]
    exact Agg.D_new' (m := .ward) (s := Agg.init 3 duoD) (r := ⟨0, 1, 1⟩) (x := 2) (by rw [l0]; norm_num)
  refine ⟨rfl, _, .cons c1 (.cons ⟨(hmem 2).mpr (.inr rfl), (hmem 3).mpr (.inl rfl), by simp, d23.symm, ?_⟩ (.nil _))⟩
  intro x hx y hy hne
  rcases (hmem x).mp hx with rfl | rfl <;> rcases (hmem y).mp hy with rfl | rfl
  · exact absurd rfl hne
  · exact d32.ge
  · exact d23.ge
  · exact absurd rfl hne

example : ∑ v ∈ range 2, wss duoD ((range 3).filter fun i => lab (cutLabels [⟨0, 1, 1⟩, ⟨2, 3, √(35 / 3)⟩] (2 : Nat)) i = v) = 1 / 2 := by
  have hlt : ¬ √(35 / 3) ≤ 1 := by
    rw [Real.sqrt_le_left (by norm_num)]
    norm_num
  have hf : (([⟨0, 1, 1⟩, ⟨2, 3, √(35 / 3)⟩] : List Row).filter fun r => decide (r.d ≤ 1)) = [⟨0, 1, 1⟩] := by
    rw [List.filter_cons_of_pos (by simp), List.filter_cons_of_neg (by rw [decide_eq_true_eq]; exact hlt), List.filter_nil]
  have := ward_total (by norm_num) (fun i _ j _ => duoD_symm i j) (fun i _ => by simp [duoD]) (fun i _ j _ => duo_nonneg i j) trio_linkage (k := 2)
    (by norm_num) (by norm_num) (c := 1) (by rw [hf]; rfl)
  rw [this, hf]
  norm_num

end Verif.Clust
