import Verif.Props.Centers
import Mathlib.Topology.MetricSpace.ProperSpace.Real
import Mathlib.Topology.MetricSpace.Bounded
import Mathlib.Topology.Order.Compact

/-! # Linear programs with a bounded, non-empty feasible set attain their optimum -/

namespace PW
open Classical Matrix

theorem Kind.isClosed_holds (κ : Kind) (β : ℝ) : IsClosed {v : ℝ | κ.Holds v β} := by
  cases κ
  · exact isClosed_univ
  · exact isClosed_Ici
  · exact isClosed_Iic
  · exact isClosed_singleton

theorem continuous_mulVec_apply {m n : ℕ} (M : Matrix (Fin m) (Fin n) ℝ) (i : Fin m) :
    Continuous fun x : Fin n → ℝ => (M *ᵥ x) i := by
  show Continuous fun x : Fin n → ℝ => ∑ j, M i j * x j
  exact continuous_finset_sum _ fun j _ => continuous_const.mul (continuous_apply j)

theorem LP.exists_optimal (lp : LP ℝ) (hne : ∃ x, lp.Feasible x)
    (hbd : ∃ M, ∀ x, lp.Feasible x → ∀ i, |x i| ≤ M) : ∃ x, lp.Optimal x := by
  obtain ⟨M, hM⟩ := hbd
  have hclosed : IsClosed {x | lp.Feasible x} := by
    have : {x | lp.Feasible x} =
        (⋂ i, (fun x => (lp.mat *ᵥ x) i) ⁻¹' {v | (lp.rowKind i).Holds v (lp.rowBnd i)}) ∩
        (⋂ j, (fun x : Fin lp.c → ℝ => x j) ⁻¹' {v | (lp.colKind j).Holds v (lp.colBnd j)}) := by
      ext x
      simp [LP.Feasible]
    rw [this]
    refine IsClosed.inter (isClosed_iInter fun i => ?_) (isClosed_iInter fun j => ?_)
    · exact (Kind.isClosed_holds _ _).preimage (continuous_mulVec_apply _ _)
    · exact (Kind.isClosed_holds _ _).preimage (continuous_apply j)
  have hcomp : IsCompact {x | lp.Feasible x} := by
    have hI : IsCompact (Set.univ.pi fun _ : Fin lp.c => Set.Icc (-M) M) :=
      isCompact_univ_pi fun _ => isCompact_Icc
    refine hI.of_isClosed_subset hclosed fun x hx => ?_
    intro i _
    exact abs_le.1 (hM x hx i)
  obtain ⟨x, hx, hmax⟩ := hcomp.exists_isMaxOn hne (f := fun x => lp.obj ⬝ᵥ x) (by
    apply Continuous.continuousOn
    show Continuous fun x : Fin lp.c → ℝ => ∑ j, lp.obj j * x j
    exact continuous_finset_sum _ fun j _ => continuous_const.mul (continuous_apply j))
  exact ⟨x, hx, fun x' hx' => hmax hx'⟩

/-- The deepest-point LP of a bounded, non-empty polytope attains its optimum. -/
theorem denseCenter_attains {m n : ℕ} (hm : 0 < m) {A : Matrix (Fin m) (Fin n) ℝ} {b : Fin m → ℝ}
    (hne : (Poly A b).Nonempty) (hbd : ∃ M, ∀ x ∈ Poly A b, ∀ i, |x i| ≤ M) :
    ∃ p, (denseCenterLP A ⟨m, b⟩).Optimal p := by
  obtain ⟨M, hM⟩ := hbd
  obtain ⟨x0, hx0⟩ := hne
  apply LP.exists_optimal
  · refine ⟨Fin.snoc (α := fun _ => ℝ) x0 0, (C38_denseCenter A b _).2 ⟨fun i => ?_, ?_⟩⟩
    · have e : (fun j : Fin n => (Fin.snoc (α := fun _ => ℝ) x0 0 : Fin (n + 1) → ℝ) j.castSucc) = x0 := by
        funext j; exact Fin.snoc_castSucc (α := fun _ => ℝ) _ _ _
      rw [e, Fin.snoc_last, add_zero]
      exact hx0 i
    · rw [Fin.snoc_last]
  · -- the slack of row 0 bounds `δ`
    let i0 : Fin m := ⟨0, hm⟩
    refine ⟨max M (|b i0| + ∑ j, |A i0 j| * M), fun p hp => ?_⟩
    obtain ⟨h1, h2⟩ := (C38_denseCenter A b p).1 hp
    have hx : (fun j => p j.castSucc) ∈ Poly A b := fun i => by linarith [h1 i]
    have hxM := hM _ hx
    intro j
    refine Fin.lastCases ?_ (fun j => ?_) j
    · refine le_max_of_le_right ?_
      rw [abs_of_nonneg h2]
      have h3 : |(A *ᵥ fun j => p j.castSucc) i0| ≤ ∑ j, |A i0 j| * M := by
        show |∑ j, A i0 j * p j.castSucc| ≤ _
        refine (Finset.abs_sum_le_sum_abs _ _).trans (Finset.sum_le_sum fun j _ => ?_)
        rw [abs_mul]
        exact mul_le_mul_of_nonneg_left (hxM j) (abs_nonneg _)
      have := h1 i0
      have h4 := neg_abs_le ((A *ᵥ fun j => p j.castSucc) i0)
      have h5 := le_abs_self (b i0)
      linarith
    · exact le_max_of_le_left (hxM j)

/-- The deepest-point LP of a bounded, non-empty constrained polytope attains its optimum. -/
theorem sparseCenter_attains {m n k : ℕ} (hk : 1 ≤ k) (hkn : k ≤ n) {A : Matrix (Fin m) (Fin n) ℝ}
    {b : Fin m → ℝ} (hne : (PolyEq A b k).Nonempty) (hbd : ∃ M, ∀ x ∈ PolyEq A b k, ∀ i, |x i| ≤ M) :
    ∃ p, (sparseCenterLP A ⟨m, b⟩ k).Optimal p := by
  obtain ⟨M, hM⟩ := hbd
  obtain ⟨x0, hx0⟩ := hne
  apply LP.exists_optimal
  · have e : ∀ j : Fin n, (Fin.snoc (α := fun _ => ℝ) x0 0 : Fin (n + 1) → ℝ) j.castSucc = x0 j :=
      fun j => Fin.snoc_castSucc (α := fun _ => ℝ) _ _ _
    refine ⟨Fin.snoc (α := fun _ => ℝ) x0 0, (C38_sparseCenter A b k hkn _).2 ⟨?_, ?_, ?_, ?_⟩⟩
    · simp only [e]; exact hx0.1
    · intro j hj; rw [e, Fin.snoc_last]; exact hx0.2 j hj
    · intro j hj; rw [e]; exact hx0.2 j hj
    · rw [Fin.snoc_last]
  · refine ⟨M, fun p hp => ?_⟩
    obtain ⟨h1, h2, h3, h4⟩ := (C38_sparseCenter A b k hkn p).1 hp
    have hx : (fun j => p j.castSucc) ∈ PolyEq A b k := ⟨h1, h3⟩
    have hxM := hM _ hx
    intro j
    refine Fin.lastCases ?_ (fun j => hxM j) j
    rw [abs_of_nonneg h4]
    let j0 : Fin n := ⟨n - 1, by omega⟩
    exact (h2 j0 (by show n - k ≤ n - 1; omega)).trans ((le_abs_self _).trans (hxM j0))

/-- **C46**, bounded polytopes: the LP attains its optimum, so the returned point is a deepest one. -/
theorem C46_bounded (glp : Glpk ℝ) (hg : glp.Exact) (A : DMat ℝ) (b : Fin A.r → ℝ) (hr : 0 < A.r)
    (hne : (Poly A.val b).Nonempty) (hbd : ∃ M, ∀ x ∈ Poly A.val b, ∀ i, |x i| ≤ M) :
    ∃ x, DenseCenter.getInitialPoint glp A ⟨A.r, b⟩ = .ok x ∧ x ∈ Poly A.val b ∧
      (∀ x' ∈ Poly A.val b, ∀ δ, (∀ i, δ ≤ b i - (A.val *ᵥ x') i) → ∀ i, δ ≤ b i - (A.val *ᵥ x) i) ∧
      ((Interior A.val b).Nonempty → x ∈ Interior A.val b) := by
  obtain ⟨x, h1, h2, h3⟩ := C46_denseCenter glp hg A b hr hne
  obtain ⟨h4, h5⟩ := h3 (denseCenter_attains hr hne hbd)
  exact ⟨x, h1, h2, h4, h5⟩

/-- **C47**, bounded polytopes: the LP attains its optimum, so the returned point is a deepest one. -/
theorem C47_bounded (glp : Glpk ℝ) (hg : glp.Exact) (A : DMat ℝ) (b : Fin A.r → ℝ) (k : ℕ)
    (hk : 1 ≤ k) (hkc : k ≤ A.c) (hne : (PolyEq A.val b k).Nonempty)
    (hbd : ∃ M, ∀ x ∈ PolyEq A.val b k, ∀ i, |x i| ≤ M) :
    ∃ x, SparseCenter.getInitialPoint glp A ⟨A.r, b⟩ k = .ok x ∧ x ∈ PolyEq A.val b k ∧
      (∀ x' ∈ PolyEq A.val b k, ∀ δ, (∀ j : Fin A.c, A.c - k ≤ j.val → δ ≤ x' j) →
          ∀ j : Fin A.c, A.c - k ≤ j.val → δ ≤ x j) ∧
      ((∃ x' ∈ PolyEq A.val b k, x' ∈ TailPos A.c k) → x ∈ TailPos A.c k) := by
  obtain ⟨x, h1, h2, h3⟩ := C47_sparseCenter glp hg A b k hk hkc hne
  obtain ⟨h4, h5⟩ := h3 (sparseCenter_attains hk hkc hne hbd)
  exact ⟨x, h1, h2, h4, h5⟩

end PW
