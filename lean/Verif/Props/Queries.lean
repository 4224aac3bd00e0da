import Verif.Lemmas.FR

/-!
# C38: which linear programs facial reduction asks, and what it does with the answers

No assumption on the solver.
-/

namespace PW
open Matrix
variable {m n : ℕ}

/-- The number the solver reports for coordinate `l` of `y` in the program for index `i`. -/
noncomputable def Glpk.answer (glp : Glpk ℝ) (A : Matrix (Fin m) (Fin n) ℝ) (b : Fin m → ℝ) (xdim : ℕ) (i : ℕ) : Fin m → ℝ :=
  glp.solve (findZLP A b (findZRelAt n xdim i) (findZBndAt n i))

/-- **C38** (search): facial reduction asks the programs of `C38_findZ` for `i = gi, gi + 1, …` in this order, and no other. The first
non-zero answer `y` is turned into `z = Aᵀ y`, and `i` is remembered; if all answers are zero nothing is found. For every solver. -/
theorem C38_search (glp : Glpk ℝ) (A : Matrix (Fin m) (Fin n) ℝ) (b : Fin m → ℝ) (xdim gi : ℕ) (hm : m ≠ 0) (hx : xdim ≤ gi)
    (hgi : gi ≤ n) :
    (∃ i, gi ≤ i ∧ i < n ∧ (∀ j, gi ≤ j → j < i → glp.answer A b xdim j = 0) ∧ glp.answer A b xdim i ≠ 0 ∧
      findZ glp gi A b xdim = .ok (some (Aᵀ *ᵥ glp.answer A b xdim i), i)) ∨
    ((∀ j, gi ≤ j → j < n → glp.answer A b xdim j = 0) ∧ findZ glp gi A b xdim = .ok (none, n)) := by
  have hzero : ∀ v : Fin m → ℝ, (∑ j, |v j|) = 0 ↔ v = 0 := by
    intro v
    rw [Finset.sum_eq_zero_iff_of_nonneg fun j _ => abs_nonneg _]
    constructor
    · intro h; funext j; exact abs_eq_zero.1 (h j (Finset.mem_univ j))
    · rintro rfl j _; simp
  have key : ∀ (left i : ℕ), i + left = n → xdim ≤ i →
      (∃ j, i ≤ j ∧ j < n ∧ (∀ l, i ≤ l → l < j → glp.answer A b xdim l = 0) ∧ glp.answer A b xdim j ≠ 0 ∧
        findZLoop glp A b left i (findZRel n xdim) (fun _ => 0) = .ok (some (Aᵀ *ᵥ glp.answer A b xdim j), j)) ∨
      ((∀ j, i ≤ j → j < n → glp.answer A b xdim j = 0) ∧
        findZLoop glp A b left i (findZRel n xdim) (fun _ => 0) = .ok (none, n)) := by
    intro left
    induction left with
    | zero =>
      intro i hi _
      obtain rfl : i = n := by omega
      exact .inr ⟨fun j h1 h2 => by omega, rfl⟩
    | succ left ih =>
      intro i hi hx
      have hin : i < n := by omega
      have hs := findZLoop_succ (glp := glp) (A := A) (b := b) (xdim := xdim) hm (left := left) (i := ⟨i, hin⟩) hx
      by_cases h0 : glp.answer A b xdim i = 0
      · have hs' : findZLoop glp A b (left + 1) i (findZRel n xdim) (fun _ => 0) =
            findZLoop glp A b left (i + 1) (findZRel n xdim) (fun _ => 0) :=
          hs.trans (if_pos ((hzero _).2 h0))
        rcases ih (i + 1) (by omega) (by omega) with ⟨j, h1, h2, h3, h4, h5⟩ | ⟨h1, h2⟩
        · refine .inl ⟨j, by omega, h2, fun l hl1 hl2 => ?_, h4, hs'.trans h5⟩
          rcases Nat.eq_or_lt_of_le hl1 with rfl | hl
          · exact h0
          · exact h3 l hl hl2
        · refine .inr ⟨fun l hl1 hl2 => ?_, hs'.trans h2⟩
          rcases Nat.eq_or_lt_of_le hl1 with rfl | hl
          · exact h0
          · exact h1 l hl hl2
      · refine .inl ⟨i, le_rfl, hin, fun l h1 h2 => by omega, h0, ?_⟩
        exact hs.trans (if_neg fun h => h0 ((hzero _).1 h))
  unfold findZ
  rw [if_neg hm]
  exact key (n - gi) gi (by omega) hx

/-- Two solvers that agree on the programs of `C38_findZ` drive the search identically. -/
theorem C38_only_queries (glp glp' : Glpk ℝ) (A : Matrix (Fin m) (Fin n) ℝ) (b : Fin m → ℝ) (xdim gi : ℕ) (hm : m ≠ 0)
    (hx : xdim ≤ gi) (hgi : gi ≤ n) (h : ∀ i, gi ≤ i → i < n → glp.answer A b xdim i = glp'.answer A b xdim i) :
    findZ glp gi A b xdim = findZ glp' gi A b xdim := by
  rcases C38_search glp A b xdim gi hm hx hgi with ⟨i, h1, h2, h3, h4, h5⟩ | ⟨h1, h2⟩ <;>
  rcases C38_search glp' A b xdim gi hm hx hgi with ⟨i', h1', h2', h3', h4', h5'⟩ | ⟨h1', h2'⟩
  · have : i = i' := by
      rcases lt_trichotomy i i' with hl | hl | hl
      · exact absurd ((h i h1 h2).trans (h3' i h1 hl)) h4
      · exact hl
      · exact absurd ((h i' h1' h2').symm.trans (h3 i' h1' hl)) h4'
    subst this
    rw [h5, h5', h i h1 h2]
  · exact absurd ((h i h1 h2).trans (h1' i h1 h2)) h4
  · exact absurd ((h i' h1' h2').symm.trans (h1 i' h1' h2')) h4'
  · rw [h2, h2']

end PW
