import Verif.Lemmas.QRExists

/-!
# The contracts are satisfiable

One implementation of the external routines that satisfies every contract at once, so no theorem is vacuous
because of them.
-/

namespace PW
open Classical Matrix

theorem exists_lower {P : Prop} {α : Type} [Nonempty α] {Q : α → Prop} (h : P → ∃ a, Q a) :
    ∃ a, P → Q a := by
  by_cases hp : P
  · obtain ⟨a, ha⟩ := h hp; exact ⟨a, fun _ => ha⟩
  · exact ⟨Classical.arbitrary α, fun h => absurd h hp⟩

instance {m : ℕ} : Nonempty (LDLT ℝ m) := ⟨⟨0, fun _ _ => true, 0⟩⟩

/-- Exact versions of Eigen's decompositions. -/
noncomputable def exactEigen : Eigen ℝ where
  lltL M := Classical.choose (exists_lower (exists_isCholesky M))
  luSolve M v := M⁻¹ *ᵥ v
  inv M := M⁻¹
  sparseLUSolve M v := M⁻¹ *ᵥ v
  sparseLLTSolve M v := M⁻¹ *ᵥ v
  sparseLLTL M := Classical.choose (exists_lower (exists_isCholesky M))
  ldlt M pat := Classical.choose (exists_lower fun h : M.PosDef => exists_isLDLT M h pat)
  sparseQR M := Classical.choose (exists_isPivotedQR M)
  householderQR M := Classical.choose (exists_isQR M)

theorem exactEigen_exact : exactEigen.Exact where
  llt M h := Classical.choose_spec (exists_lower (exists_isCholesky M)) h
  lu M v h := by
    show M *ᵥ (M⁻¹ *ᵥ v) = v
    rw [Matrix.mulVec_mulVec, Matrix.mul_nonsing_inv _ h, Matrix.one_mulVec]
  inv M _ := rfl
  sparseLU M v h := by
    show M *ᵥ (M⁻¹ *ᵥ v) = v
    rw [Matrix.mulVec_mulVec, Matrix.mul_nonsing_inv _ h, Matrix.one_mulVec]
  sparseLLTSolve M v h := by
    show M *ᵥ (M⁻¹ *ᵥ v) = v
    rw [Matrix.mulVec_mulVec, Matrix.mul_nonsing_inv _ (PosDef.isUnit_det h), Matrix.one_mulVec]
  sparseLLTL M h := ⟨1, by
    exact Classical.choose_spec (exists_lower (exists_isCholesky M)) h⟩
  ldlt M pat h _ := Classical.choose_spec (exists_lower fun h : M.PosDef => exists_isLDLT M h pat) h

theorem exactEigen_sparseQR : exactEigen.SparseQRExact :=
  fun M => Classical.choose_spec (exists_isPivotedQR M)

theorem exactEigen_householderQR : exactEigen.HouseholderExact :=
  fun M => Classical.choose_spec (exists_isQR M)

/-- For every matrix small enough thresholds separate the pivots. -/
theorem exists_pivotGap (E : Eigen ℝ) {m n : ℕ} (A : Matrix (Fin m) (Fin n) ℝ) :
    ∃ ε : ℝ, 0 < ε ∧ ε ≤ 1 ∧ ∀ err, err ≤ ε → E.PivotGap err A := by
  let ι := Σ p : Fin (m + 1), Σ q : Fin (n + 1), (Fin p → Fin m) × (Fin q → Fin n) × Fin q × Fin p
  let val : ι → ℝ := fun t => |(E.sparseQR (A.submatrix t.2.2.1 t.2.2.2.1)ᵀ).R t.2.2.2.2.1 t.2.2.2.2.2|
  let S : Finset ℝ := insert 1 (((Finset.univ : Finset ι).image val).filter fun x => 0 < x)
  have hS : S.Nonempty := Finset.insert_nonempty _ _
  have hpos : 0 < S.min' hS := by
    rw [Finset.lt_min'_iff]
    intro y hy
    rcases Finset.mem_insert.1 hy with rfl | hy
    · exact one_pos
    · exact (Finset.mem_filter.1 hy).2
  have hle1 : S.min' hS ≤ 1 := Finset.min'_le _ _ (Finset.mem_insert_self _ _)
  refine ⟨S.min' hS / 2, by linarith, by linarith, ?_⟩
  intro err herr p q f g hf hg i j _ hne
  have hp : p < m + 1 := Nat.lt_succ_of_le (by simpa using Fintype.card_le_of_injective f hf)
  have hq : q < n + 1 := Nat.lt_succ_of_le (by simpa using Fintype.card_le_of_injective g hg)
  have : S.min' hS ≤ val ⟨⟨p, hp⟩, ⟨q, hq⟩, f, g, i, j⟩ := by
    apply Finset.min'_le
    apply Finset.mem_insert_of_mem
    exact Finset.mem_filter.2 ⟨Finset.mem_image_of_mem _ (Finset.mem_univ _), abs_pos.2 hne⟩
  have h2 : val ⟨⟨p, hp⟩, ⟨q, hq⟩, f, g, i, j⟩ = |(E.sparseQR (A.submatrix f g)ᵀ).R i j| := rfl
  linarith

/-- An exact LP solver reporting zeros for infeasible problems. -/
noncomputable def exactGlpk : Glpk ℝ where
  solve lp := if h : ∃ x, lp.Optimal x then h.choose else if h : ∃ x, lp.Feasible x then h.choose
    else fun _ => 0

theorem exactGlpk_exact : exactGlpk.Exact where
  feasible lp h := by
    show lp.Feasible (if h : ∃ x, lp.Optimal x then h.choose else if h : ∃ x, lp.Feasible x then h.choose
      else fun _ => 0)
    split
    · rename_i h'; exact h'.choose_spec.1
    · exact h.choose_spec
  optimal lp h := by
    show lp.Optimal (if h : ∃ x, lp.Optimal x then h.choose else if h : ∃ x, lp.Feasible x then h.choose
      else fun _ => 0)
    rw [dif_pos h]; exact h.choose_spec

theorem exactGlpk_zero : exactGlpk.ZeroIfInfeasible := by
  intro lp h
  show (if h : ∃ x, lp.Optimal x then h.choose else if h : ∃ x, lp.Feasible x then h.choose
      else fun _ => 0) = _
  rw [dif_neg (fun ⟨x, hx⟩ => h ⟨x, hx.1⟩), dif_neg h]

end PW
