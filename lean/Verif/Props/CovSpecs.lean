import Verif.Lemmas.Cov
import Mathlib.Analysis.Matrix.Spectrum
import Mathlib.Analysis.InnerProductSpace.PiL2

/-!
# The specifications of `eigh`, `svd` and `argsort` can be met

Every theorem that assumes `EighSpec`, `SvdSpec` or `ArgsortSpec` is therefore about an existing function.
-/

namespace Verif.Cov

variable {n : Nat}

/-- A sorting permutation exists for every list. -/
theorem argsort_exists : ∃ f, ArgsortSpec f := by
  classical
  refine ⟨fun l => (List.range l.length).insertionSort fun i j => l.getD i 0 ≤ l.getD j 0, fun l => ⟨?_, ?_⟩⟩
  · exact List.perm_insertionSort _ _
  · haveI : Std.Total fun i j : Nat => l.getD i 0 ≤ l.getD j 0 := ⟨fun _ _ => le_total _ _⟩
    haveI : IsTrans Nat fun i j : Nat => l.getD i 0 ≤ l.getD j 0 := ⟨fun _ _ _ => le_trans⟩
    exact List.pairwise_map.mpr (List.pairwise_insertionSort (fun i j : Nat => l.getD i 0 ≤ l.getD j 0) _)

theorem inner_dot (x y : EuclideanSpace ℝ (Fin n)) : inner ℝ x y = dotProduct x.ofLp y.ofLp := by
  rw [EuclideanSpace.inner_eq_star_dotProduct, dotProduct_comm]
  simp

/-- An orthonormal family gives an orthonormal list. -/
theorem orthoList_ofFn {m : Nat} {b : Fin m → EuclideanSpace ℝ (Fin n)} (h : Orthonormal ℝ b) :
    OrthoList (List.ofFn fun i => (b i).ofLp) := by
  constructor
  · intro v hv
    obtain ⟨i, rfl⟩ := (List.mem_ofFn' _ _).mp hv
    rw [← inner_dot, real_inner_self_eq_norm_sq, h.1 i, one_pow]
  · rw [List.pairwise_ofFn]
    intro i j hij
    rw [← inner_dot]
    exact h.2 hij.ne

/-- The spectral theorem provides `eigh`. -/
theorem eigh_exists : ∃ eigh : Mat n → List (Pair n), EighSpec eigh := by
  classical
  have key : ∀ C : Mat n, ∃ ps : List (Pair n), C.IsSymm →
      IsEigen C ps ∧ ps.length = n ∧ (ps.map (·.1)).Pairwise (· ≤ ·) := by
    intro C
    by_cases hC : C.IsSymm
    · have hH : C.IsHermitian := by
        unfold Matrix.IsHermitian
        rw [Matrix.conjTranspose_eq_transpose_of_trivial]
        exact hC
      let ps0 : List (Pair n) := List.ofFn fun i => (hH.eigenvalues i, (hH.eigenvectorBasis i).ofLp)
      have h0 : IsEigen C ps0 := by
        constructor
        · have : ps0.map (·.2) = List.ofFn fun i => (hH.eigenvectorBasis i).ofLp := by
            simp [ps0, List.map_ofFn, Function.comp_def]
          rw [this]
          exact orthoList_ofFn hH.eigenvectorBasis.orthonormal
        · intro p hp
          obtain ⟨i, rfl⟩ := (List.mem_ofFn' _ _).mp hp
          exact hH.mulVec_eigenvectorBasis i
      let r : Pair n → Pair n → Prop := fun p q => p.1 ≤ q.1
      haveI : Std.Total r := ⟨fun _ _ => le_total _ _⟩
      haveI : IsTrans (Pair n) r := ⟨fun _ _ _ => le_trans⟩
      have hp : (ps0.insertionSort r).Perm ps0 := List.perm_insertionSort _ _
      refine ⟨ps0.insertionSort r, fun _ => ⟨isEigen_perm h0 hp.symm, ?_, ?_⟩⟩
      · rw [hp.length_eq]; simp [ps0]
      · exact List.pairwise_map.mpr (List.pairwise_insertionSort r ps0)
    · exact ⟨[], fun h => absurd h hC⟩
  choose f hf using key
  exact ⟨f, hf⟩

/-- An orthonormal basis adapted to the span of the columns provides `svd`. -/
theorem svd_exists : ∃ svdU : List (Fin n → ℝ) → List (Fin n → ℝ), SvdSpec svdU := by
  classical
  have key : ∀ vs : List (Fin n → ℝ), ∃ us : List (Fin n → ℝ), vs.length ≤ n → us.length = n ∧ OrthoList us ∧
      ∀ u ∈ us.drop vs.length, ∀ v ∈ vs, dotProduct u v = 0 := by
    intro vs
    let S : Submodule ℝ (EuclideanSpace ℝ (Fin n)) :=
      Submodule.span ℝ (Set.range fun i : Fin vs.length => WithLp.toLp 2 vs[i])
    let b1 := stdOrthonormalBasis ℝ S
    let b2 := stdOrthonormalBasis ℝ Sᗮ
    let l1 := List.ofFn fun i => ((b1 i : EuclideanSpace ℝ (Fin n))).ofLp
    let l2 := List.ofFn fun i => ((b2 i : EuclideanSpace ℝ (Fin n))).ofLp
    have o1 : OrthoList l1 := orthoList_ofFn (b := fun i => (b1 i : EuclideanSpace ℝ (Fin n)))
      (b1.orthonormal.comp_linearIsometry S.subtypeₗᵢ)
    have o2 : OrthoList l2 := orthoList_ofFn (b := fun i => (b2 i : EuclideanSpace ℝ (Fin n)))
      (b2.orthonormal.comp_linearIsometry Sᗮ.subtypeₗᵢ)
    have hrank : Module.finrank ℝ S + Module.finrank ℝ Sᗮ = n := by
      rw [Submodule.finrank_add_finrank_orthogonal]; simp
    have hdim : Module.finrank ℝ S ≤ vs.length := by
      have := finrank_range_le_card (R := ℝ) (fun i : Fin vs.length => (WithLp.toLp 2 vs[i] : EuclideanSpace ℝ (Fin n)))
      rw [Fintype.card_fin] at this
      exact this
    have hl1 : l1.length = Module.finrank ℝ S := by simp [l1]
    have hl2 : l2.length = Module.finrank ℝ Sᗮ := by simp [l2]
    refine ⟨l1 ++ l2, fun _ => ⟨by rw [List.length_append]; omega, ⟨?_, ?_⟩, ?_⟩⟩
    · intro v hv
      rcases List.mem_append.mp hv with hv | hv
      · exact o1.1 v hv
      · exact o2.1 v hv
    · refine List.pairwise_append.mpr ⟨o1.2, o2.2, fun a ha b hb => ?_⟩
      obtain ⟨i, rfl⟩ := (List.mem_ofFn' _ _).mp ha
      obtain ⟨j, rfl⟩ := (List.mem_ofFn' _ _).mp hb
      rw [← inner_dot]
      exact Submodule.inner_right_of_mem_orthogonal (b1 i).2 (b2 j).2
    · intro u hu v hv
      have hu2 : u ∈ l2 := by
        rw [List.drop_append] at hu
        rcases List.mem_append.mp hu with hu | hu
        · rw [List.drop_eq_nil_of_le (by omega)] at hu
          simp at hu
        · exact List.mem_of_mem_drop hu
      obtain ⟨j, rfl⟩ := (List.mem_ofFn' _ _).mp hu2
      obtain ⟨i, hi, rfl⟩ := List.getElem_of_mem hv
      have hmem : (WithLp.toLp 2 vs[i] : EuclideanSpace ℝ (Fin n)) ∈ S :=
        Submodule.subset_span ⟨⟨i, hi⟩, rfl⟩
      have := Submodule.inner_left_of_mem_orthogonal hmem (b2 j).2
      rw [inner_dot] at this
      exact this
  choose f hf using key
  exact ⟨f, hf⟩

end Verif.Cov
