import Verif.Lemmas.Farkas
import Mathlib.Algebra.BigOperators.Group.Finset.Basic
import Mathlib.LinearAlgebra.Prod
import Mathlib.Order.ConditionallyCompleteLattice.Basic
import Mathlib.Data.Real.Archimedean

/-! # A linear program that is feasible and bounded attains its optimum -/

namespace PW
open Matrix

variable {ι : Type*} [Fintype ι] {V : Type*} [AddCommGroup V] [Module ℝ V]

/-- Farkas' lemma for inequalities with right-hand sides: if `a i x ≤ h i` has no solution, a non-negative
combination of the rows reads `0 ≤` (a negative number). -/
theorem farkas_infeasible (a : ι → V →ₗ[ℝ] ℝ) (h : ι → ℝ) (hno : ¬ ∃ x, ∀ i, a i x ≤ h i) :
    ∃ u : ι → ℝ, (∀ i, 0 ≤ u i) ∧ (∀ x, ∑ i, u i * a i x = 0) ∧ ∑ i, u i * h i < 0 := by
  let f : ι ⊕ Unit → (V × ℝ) →ₗ[ℝ] ℝ := fun
    | .inl i => (a i).comp (LinearMap.fst ℝ V ℝ) - (h i) • LinearMap.snd ℝ V ℝ
    | .inr _ => - LinearMap.snd ℝ V ℝ
  obtain ⟨u, hu, hb⟩ := farkas f (LinearMap.snd ℝ V ℝ) (by
    rintro ⟨x, t⟩ hx
    show t ≤ 0
    by_contra ht
    push Not at ht
    refine hno ⟨t⁻¹ • x, fun i => ?_⟩
    have h1 : a i x - h i * t ≤ 0 := hx (.inl i)
    rw [map_smul, smul_eq_mul]
    rw [inv_mul_le_iff₀ ht]
    linarith)
  have key : ∀ x t, t = ∑ i, u (.inl i) * (a i x - h i * t) + u (.inr ()) * (-t) := by
    intro x t
    have := hb (x, t)
    rw [Fintype.sum_sum_type] at this
    rw [Fintype.sum_unique (ι := Unit)] at this
    exact this
  refine ⟨fun i => u (.inl i), fun i => hu _, fun x => ?_, ?_⟩
  · have := key x 0
    simpa using this.symm
  · have h1 := key 0 1
    have h2 := hu (.inr ())
    simp only [map_zero, mul_one, zero_sub, mul_neg, Finset.sum_neg_distrib] at h1
    linarith

/-- A feasible linear program whose objective is bounded above attains its optimum. -/
theorem lp_attains (a : ι → V →ₗ[ℝ] ℝ) (h : ι → ℝ) (c : V →ₗ[ℝ] ℝ) (hne : ∃ x, ∀ i, a i x ≤ h i)
    (hbd : ∃ B, ∀ x, (∀ i, a i x ≤ h i) → c x ≤ B) :
    ∃ x, (∀ i, a i x ≤ h i) ∧ ∀ x', (∀ i, a i x' ≤ h i) → c x' ≤ c x := by
  set S : Set ℝ := c '' {x | ∀ i, a i x ≤ h i} with hS
  have hSne : S.Nonempty := by obtain ⟨x, hx⟩ := hne; exact ⟨c x, x, hx, rfl⟩
  have hSbd : BddAbove S := by
    obtain ⟨B, hB⟩ := hbd
    refine ⟨B, ?_⟩
    rintro _ ⟨x, hx, rfl⟩
    exact hB x hx
  set v := sSup S
  by_contra hno
  let f : ι ⊕ Unit → V →ₗ[ℝ] ℝ := fun | .inl i => a i | .inr _ => -c
  let g : ι ⊕ Unit → ℝ := fun | .inl i => h i | .inr _ => -v
  obtain ⟨u, hu, h1, h2⟩ := farkas_infeasible f g (by
    rintro ⟨x, hx⟩
    refine hno ⟨x, fun i => hx (.inl i), fun x' hx' => ?_⟩
    have h3 : -(c x) ≤ -v := hx (.inr ())
    have h4 : c x' ≤ v := le_csSup hSbd ⟨x', hx', rfl⟩
    linarith)
  have h1' : ∀ x, ∑ i, u (.inl i) * a i x = u (.inr ()) * c x := by
    intro x
    have := h1 x
    rw [Fintype.sum_sum_type] at this
    have h3 : ∑ i, u (.inl i) * a i x + u (.inr ()) * (-(c x)) = 0 := by simpa [f] using this
    linarith
  have h2' : ∑ i, u (.inl i) * h i < u (.inr ()) * v := by
    rw [Fintype.sum_sum_type] at h2
    have h3 : ∑ i, u (.inl i) * h i + u (.inr ()) * (-v) < 0 := by simpa [g] using h2
    linarith
  have h3 : ∀ x, (∀ i, a i x ≤ h i) → u (.inr ()) * c x ≤ ∑ i, u (.inl i) * h i := by
    intro x hx
    rw [← h1' x]
    exact Finset.sum_le_sum fun i _ => mul_le_mul_of_nonneg_left (hx i) (hu _)
  rcases (hu (.inr ())).eq_or_lt with h0 | h0
  · obtain ⟨x, hx⟩ := hne
    have := h3 x hx
    rw [← h0] at this h2'
    linarith
  · have : v ≤ (∑ i, u (.inl i) * h i) / u (.inr ()) := by
      refine csSup_le hSne ?_
      rintro _ ⟨x, hx, rfl⟩
      rw [le_div_iff₀ h0]
      linarith [h3 x hx]
    rw [le_div_iff₀ h0] at this
    linarith

end PW
