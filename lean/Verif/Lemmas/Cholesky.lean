import Verif.Spec.Contracts
import Verif.Lemmas.MeasMatrix
import Mathlib.Topology.Instances.Matrix
import Mathlib.LinearAlgebra.Matrix.IsDiag
import Mathlib.Topology.Algebra.GroupWithZero
import Mathlib.Analysis.SpecialFunctions.Sqrt

/-! # The Cholesky factor: uniqueness, measurability, continuity, and when it is diagonal -/

namespace PW
open Matrix Finset MeasureTheory
variable {n : ℕ}

/-- The entry `(i, j)`, `j ≤ i`, of `L Lᵀ`. -/
theorem IsCholesky.entry {L M : Matrix (Fin n) (Fin n) ℝ} (h : IsCholesky L M) (i j : Fin n) :
    M i j = (∑ k ∈ univ.filter (· < j), L i k * L j k) + L i j * L j j := by
  rw [← h.mul_eq, Matrix.mul_apply]
  simp only [Matrix.transpose_apply]
  have hs : (univ : Finset (Fin n)) = univ.filter (· < j) ∪ ({j} ∪ univ.filter (j < ·)) := by
    ext k; simp only [mem_univ, mem_union, mem_filter, true_and, mem_singleton, true_iff]
    rcases lt_trichotomy k j with h | h | h
    · exact Or.inl h
    · exact Or.inr (Or.inl h)
    · exact Or.inr (Or.inr h)
  have hd1 : Disjoint ({j} : Finset (Fin n)) (univ.filter (j < ·)) := by
    rw [disjoint_left]; intro a ha hb
    rw [mem_singleton] at ha; subst ha; simp at hb
  have hd2 : Disjoint (univ.filter (· < j)) ({j} ∪ univ.filter (j < ·) : Finset (Fin n)) := by
    rw [disjoint_left]; intro a ha hb
    simp only [mem_union, mem_filter, mem_univ, true_and, mem_singleton] at ha hb
    rcases hb with hb | hb
    · subst hb; exact lt_irrefl _ ha
    · exact lt_asymm ha hb
  have hz : ∑ k ∈ univ.filter (j < ·), L i k * L j k = 0 :=
    sum_eq_zero fun k hk => by
      rw [h.lower j k (by simpa using hk), mul_zero]
  conv_lhs => rw [hs]
  rw [sum_union hd2, sum_union hd1, hz, sum_singleton, add_zero]

theorem IsCholesky.diag_sq {L M : Matrix (Fin n) (Fin n) ℝ} (h : IsCholesky L M) (j : Fin n) :
    L j j = Real.sqrt (M j j - ∑ k ∈ univ.filter (· < j), L j k * L j k) := by
  rw [h.entry j j, add_sub_cancel_left, Real.sqrt_mul_self (h.diag_pos j).le]

theorem IsCholesky.below {L M : Matrix (Fin n) (Fin n) ℝ} (h : IsCholesky L M) (i j : Fin n) :
    L i j = (M i j - ∑ k ∈ univ.filter (· < j), L i k * L j k) / L j j := by
  rw [h.entry i j, add_sub_cancel_left, mul_div_cancel_right₀ _ (h.diag_pos j).ne']

/-- Induction over columns: the entries of a Cholesky factor are determined by earlier columns. -/
theorem IsCholesky.induct (P : Fin n → Fin n → Prop)
    (hdiag : ∀ j, (∀ k < j, ∀ i, P i k) → P j j)
    (hbelow : ∀ j, (∀ k < j, ∀ i, P i k) → P j j → ∀ i, P i j) : ∀ i j, P i j := by
  intro i j
  induction j using WellFoundedLT.induction generalizing i with
  | ind j ih =>
    have h1 := hdiag j fun k hk i => ih k hk i
    exact hbelow j (fun k hk i => ih k hk i) h1 i

/-- The Cholesky factor is unique. -/
theorem IsCholesky.unique {L L' M : Matrix (Fin n) (Fin n) ℝ} (h : IsCholesky L M) (h' : IsCholesky L' M) :
    L = L' := by
  ext i j
  refine IsCholesky.induct (fun i j => L i j = L' i j) ?_ ?_ i j
  · intro j ih
    rw [h.diag_sq j, h'.diag_sq j]
    congr 2
    exact sum_congr rfl fun k hk => by rw [ih k (by simpa using hk) j]
  · intro j ih hj i
    rw [h.below i j, h'.below i j, hj]
    congr 2
    exact sum_congr rfl fun k hk => by
      rw [ih k (by simpa using hk) i, ih k (by simpa using hk) j]

/-- The Cholesky factor of a measurable family of matrices is measurable. -/
theorem IsCholesky.measMat {X : Type} [MeasurableSpace X] {L M : X → Matrix (Fin n) (Fin n) ℝ}
    (h : ∀ x, IsCholesky (L x) (M x)) (hM : MeasMat M) : MeasMat L := by
  intro i j
  refine IsCholesky.induct (fun i j => Measurable fun x => L x i j) ?_ ?_ i j
  · intro j ih
    have : (fun x => L x j j) = fun x => Real.sqrt (M x j j - ∑ k ∈ univ.filter (· < j), L x j k * L x j k) :=
      funext fun x => (h x).diag_sq j
    rw [this]
    exact Real.continuous_sqrt.measurable.comp ((hM j j).sub (Finset.measurable_sum _ fun k hk =>
      (ih k (by simpa using hk) j).mul (ih k (by simpa using hk) j)))
  · intro j ih hj i
    have : (fun x => L x i j) =
        fun x => (M x i j - ∑ k ∈ univ.filter (· < j), L x i k * L x j k) / L x j j :=
      funext fun x => (h x).below i j
    rw [this]
    exact ((hM i j).sub (Finset.measurable_sum _ fun k hk =>
      (ih k (by simpa using hk) i).mul (ih k (by simpa using hk) j))).div hj

/-- The Cholesky factor depends continuously on the matrix. -/
theorem IsCholesky.continuousOn {X : Type} [TopologicalSpace X] {V : Set X} {L M : X → Matrix (Fin n) (Fin n) ℝ}
    (h : ∀ x ∈ V, IsCholesky (L x) (M x)) (hM : ∀ i j, ContinuousOn (fun x => M x i j) V) (i j : Fin n) :
    ContinuousOn (fun x => L x i j) V := by
  refine IsCholesky.induct (fun i j => ContinuousOn (fun x => L x i j) V) ?_ ?_ i j
  · intro j ih
    have : Set.EqOn (fun x => L x j j)
        (fun x => Real.sqrt (M x j j - ∑ k ∈ univ.filter (· < j), L x j k * L x j k)) V :=
      fun x hx => (h x hx).diag_sq j
    refine ContinuousOn.congr ?_ this
    exact Real.continuous_sqrt.comp_continuousOn ((hM j j).sub (continuousOn_finsetSum _ fun k hk =>
      (ih k (by simpa using hk) j).mul (ih k (by simpa using hk) j)))
  · intro j ih hj i
    have : Set.EqOn (fun x => L x i j)
        (fun x => (M x i j - ∑ k ∈ univ.filter (· < j), L x i k * L x j k) / L x j j) V :=
      fun x hx => (h x hx).below i j
    refine ContinuousOn.congr ?_ this
    exact ((hM i j).sub (continuousOn_finsetSum _ fun k hk =>
      (ih k (by simpa using hk) i).mul (ih k (by simpa using hk) j))).div hj fun x hx => ((h x hx).diag_pos j).ne'

/-- The Cholesky factor of a diagonal matrix is diagonal. -/
theorem IsCholesky.isDiag {L M : Matrix (Fin n) (Fin n) ℝ} (h : IsCholesky L M) (hM : M.IsDiag) : L.IsDiag := by
  intro i j hij
  refine IsCholesky.induct (fun i j => i ≠ j → L i j = 0) ?_ ?_ i j hij
  · intro j _ hj; exact absurd rfl hj
  · intro j ih _ i hij
    rcases lt_or_gt_of_ne hij with hlt | hgt
    · exact h.lower i j hlt
    · rw [h.below i j, hM hij, zero_sub]
      rw [sum_eq_zero fun k hk => ?_, neg_zero, zero_div]
      have hk' : k < j := by simpa using hk
      rw [ih k hk' j hk'.ne', mul_zero]

/-- A lower triangular matrix with positive diagonal that commutes with its transpose is diagonal. -/
theorem IsCholesky.isDiag_of_normal {L M : Matrix (Fin n) (Fin n) ℝ} (h : IsCholesky L M)
    (hn : Lᵀ * L = M) : L.IsDiag := by
  -- rows are diagonal, by induction: row j of L has squared norm M j j, so has column j
  have key : ∀ j : Fin n, ∀ i, i ≠ j → L i j = 0 := by
    intro j
    induction j using WellFoundedLT.induction with
    | ind j ih =>
      have h1 : ∑ i, L i j * L i j = L j j * L j j := by
        have e1 : (Lᵀ * L) j j = ∑ i, L i j * L i j := by simp [Matrix.mul_apply]
        rw [← e1, hn, h.entry j j]
        rw [sum_eq_zero fun k hk => ?_, zero_add]
        have hk' : k < j := by simpa using hk
        rw [ih k hk' j hk'.ne', mul_zero]
      have h2 : ∑ i ∈ univ.erase j, L i j * L i j = 0 := by
        rw [← add_sum_erase _ _ (mem_univ j)] at h1
        linarith
      intro i hij
      have := (sum_eq_zero_iff_of_nonneg fun i _ => mul_self_nonneg (L i j)).1 h2 i (by simp [hij])
      exact mul_self_eq_zero.1 this
  exact fun i j hij => key j i hij

/-- `LᵀL = LLᵀ` exactly if the factored matrix is diagonal. -/
theorem IsCholesky.normal_iff {L M : Matrix (Fin n) (Fin n) ℝ} (h : IsCholesky L M) : Lᵀ * L = M ↔ M.IsDiag := by
  constructor
  · intro hn
    have hd := h.isDiag_of_normal hn
    rw [← h.mul_eq]
    intro i j hij
    rw [Matrix.mul_apply]
    refine sum_eq_zero fun k _ => ?_
    by_cases hik : i = k
    · subst hik; rw [Matrix.transpose_apply, hd (Ne.symm hij), mul_zero]
    · rw [hd hik, zero_mul]
  · intro hd
    have hL := h.isDiag hd
    have hT : Lᵀ = L := by
      ext i j
      by_cases hij : i = j
      · subst hij; rfl
      · rw [Matrix.transpose_apply, hL hij, hL (Ne.symm hij)]
    have := h.mul_eq
    rw [hT] at this ⊢
    exact this

end PW
