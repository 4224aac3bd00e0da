import Verif.Model.Api
import Mathlib.Tactic.Ring
import Mathlib.Tactic.Linarith
import Mathlib.Algebra.BigOperators.Fin
import Mathlib.LinearAlgebra.Matrix.DotProduct

/-! # The model's folds over `ℝ` are Mathlib's sums, products, maxima -/

namespace PW

variable {m n l : ℕ}

@[simp] theorem rsc_ofInt (z : Int) : (Scalar.ofInt z : ℝ) = (z : ℝ) := rfl
@[simp] theorem rsc_sqrt (x : ℝ) : Scalar.sqrt x = Real.sqrt x := rfl
@[simp] theorem rsc_exp (x : ℝ) : Scalar.exp x = Real.exp x := rfl
@[simp] theorem rsc_log (x : ℝ) : Scalar.log x = Real.log x := rfl
@[simp] theorem rsc_log2 (x : ℝ) : Scalar.log2 x = Real.logb 2 x := rfl
@[simp] theorem rsc_pow (x y : ℝ) : Scalar.pow x y = x ^ y := rfl
@[simp] theorem rsc_abs (x : ℝ) : Scalar.abs x = |x| := rfl
@[simp] theorem rsc_lt (x y : ℝ) : Scalar.lt x y = decide (x < y) := rfl
@[simp] theorem rsc_le (x y : ℝ) : Scalar.le x y = decide (x ≤ y) := rfl
@[simp] theorem rsc_eq (x y : ℝ) : Scalar.eq x y = decide (x = y) := rfl

@[simp] theorem two_real : (two : ℝ) = 2 := by simp [two]
@[simp] theorem half_real : (half : ℝ) = 1 / 2 := by simp [half]

theorem cmin_real (a b : ℝ) : cmin a b = min a b := by
  unfold cmin
  simp only [rsc_lt, decide_eq_true_eq]
  split
  · rw [min_eq_right]; exact le_of_lt ‹_›
  · rw [min_eq_left]; exact not_lt.1 ‹_›

theorem cmax_real (a b : ℝ) : cmax a b = max a b := by
  unfold cmax
  simp only [rsc_lt, decide_eq_true_eq]
  split
  · rw [max_eq_right]; exact le_of_lt ‹_›
  · rw [max_eq_left]; exact not_lt.1 ‹_›

theorem foldl_add_real {α : Type} (l : List α) (f : α → ℝ) (a : ℝ) :
    l.foldl (fun s i => s + f i) a = a + (l.map f).sum := by
  induction l generalizing a with
  | nil => simp
  | cons x l ih => rw [List.foldl_cons, ih, List.map_cons, List.sum_cons, add_assoc]

theorem vsum_real (v : Fin n → ℝ) : vsum v = ∑ i, v i := by
  unfold vsum
  rw [foldl_add_real]
  rw [← List.ofFn_eq_map, List.sum_ofFn]
  exact zero_add _

theorem vdot_real (v w : Fin n → ℝ) : vdot v w = v ⬝ᵥ w := by
  unfold vdot; rw [vsum_real]; rfl

theorem mulVec_real (A : Matrix (Fin m) (Fin n) ℝ) (x : Fin n → ℝ) : mulVec A x = A.mulVec x := by
  funext i
  unfold mulVec; rw [vsum_real]; rfl

theorem mulMat_real (A : Matrix (Fin m) (Fin n) ℝ) (B : Matrix (Fin n) (Fin l) ℝ) :
    mulMat A B = A * B := by
  funext i j
  unfold mulMat; rw [vsum_real, Matrix.mul_apply]

theorem transp_eq {F : Type} (A : Matrix (Fin m) (Fin n) F) : transp A = A.transpose := rfl

theorem norm2_real (v : Fin n → ℝ) : norm2 v = Real.sqrt (∑ i, v i * v i) := by
  unfold norm2; rw [vsum_real]; rfl

theorem foldl_cmax_real (l : List ℝ) (a : ℝ) :
    a ≤ l.foldl cmax a ∧ (∀ x ∈ l, x ≤ l.foldl cmax a) ∧ (l.foldl cmax a = a ∨ l.foldl cmax a ∈ l) := by
  induction l generalizing a with
  | nil => simp
  | cons x l ih =>
    rw [List.foldl_cons, cmax_real]
    obtain ⟨h1, h2, h3⟩ := ih (max a x)
    refine ⟨(le_max_left _ _).trans h1, ?_, ?_⟩
    · intro y hy
      rcases List.mem_cons.1 hy with rfl | hy
      · exact (le_max_right _ _).trans h1
      · exact h2 y hy
    · rcases h3 with h3 | h3
      · rcases max_choice a x with h | h
        · left; rw [h3, h]
        · right; rw [h3, h]; simp
      · right; exact List.mem_cons_of_mem _ h3

theorem foldl_cmin_real (l : List ℝ) (a : ℝ) :
    l.foldl cmin a ≤ a ∧ (∀ x ∈ l, l.foldl cmin a ≤ x) ∧ (l.foldl cmin a = a ∨ l.foldl cmin a ∈ l) := by
  induction l generalizing a with
  | nil => simp
  | cons x l ih =>
    rw [List.foldl_cons, cmin_real]
    obtain ⟨h1, h2, h3⟩ := ih (min a x)
    refine ⟨h1.trans (min_le_left _ _), ?_, ?_⟩
    · intro y hy
      rcases List.mem_cons.1 hy with rfl | hy
      · exact h1.trans (min_le_right _ _)
      · exact h2 y hy
    · rcases h3 with h3 | h3
      · rcases min_choice a x with h | h
        · left; rw [h3, h]
        · right; rw [h3, h]; simp
      · right; exact List.mem_cons_of_mem _ h3

/-- `maxCoeff` over `ℝ`: the least upper bound, attained; fails on empty vectors. -/
theorem maxCoeff_real (v : Fin n → ℝ) (hn : 0 < n) :
    ∃ c, maxCoeff v = .ok c ∧ (∀ i, v i ≤ c) ∧ ∃ i, v i = c := by
  obtain ⟨k, rfl⟩ : ∃ k, n = k + 1 := ⟨n - 1, by omega⟩
  have key : (List.finRange k).foldl (fun s i => cmax s (v i.succ)) (v 0) =
      ((List.finRange k).map fun i => v i.succ).foldl cmax (v 0) := by rw [List.foldl_map]
  obtain ⟨h1, h2, h3⟩ := foldl_cmax_real ((List.finRange k).map fun i => v i.succ) (v 0)
  refine ⟨_, rfl, ?_, ?_⟩
  · rw [key]
    intro i
    refine Fin.cases h1 (fun i => h2 _ ?_) i
    exact List.mem_map.2 ⟨i, List.mem_finRange _, rfl⟩
  · rw [key]
    rcases h3 with h3 | h3
    · exact ⟨0, h3.symm⟩
    · obtain ⟨i, _, hi⟩ := List.mem_map.1 h3
      exact ⟨i.succ, hi⟩

theorem minCoeff_real (v : Fin n → ℝ) (hn : 0 < n) :
    ∃ c, minCoeff v = .ok c ∧ (∀ i, c ≤ v i) ∧ ∃ i, v i = c := by
  obtain ⟨k, rfl⟩ : ∃ k, n = k + 1 := ⟨n - 1, by omega⟩
  have key : (List.finRange k).foldl (fun s i => cmin s (v i.succ)) (v 0) =
      ((List.finRange k).map fun i => v i.succ).foldl cmin (v 0) := by rw [List.foldl_map]
  obtain ⟨h1, h2, h3⟩ := foldl_cmin_real ((List.finRange k).map fun i => v i.succ) (v 0)
  refine ⟨_, rfl, ?_, ?_⟩
  · rw [key]
    intro i
    refine Fin.cases h1 (fun i => h2 _ ?_) i
    exact List.mem_map.2 ⟨i, List.mem_finRange _, rfl⟩
  · rw [key]
    rcases h3 with h3 | h3
    · exact ⟨0, h3.symm⟩
    · obtain ⟨i, _, hi⟩ := List.mem_map.1 h3
      exact ⟨i.succ, hi⟩

/-- Exact meaning of the dense membership test. -/
theorem inPolytope_real (x : Fin n → ℝ) (A : Matrix (Fin m) (Fin n) ℝ) (b : Fin m → ℝ) (hm : 0 < m) :
    inPolytope x A b = .ok (decide (∀ i, A.mulVec x i ≤ b i)) := by
  obtain ⟨c, h1, h2, i, hi⟩ := maxCoeff_real (fun i => mulVec A x i - b i) hm
  unfold inPolytope
  rw [h1, Out.ok_bind]
  simp only [rsc_le, Out.ok.injEq, decide_eq_decide]
  rw [mulVec_real] at h2 hi
  constructor
  · intro hc i
    have := h2 i
    have : A.mulVec x i - b i ≤ c := h2 i
    have hc' : c ≤ 0 := hc
    linarith
  · intro h
    have := h i
    have hi' : A.mulVec x i - b i = c := hi
    show c ≤ 0
    linarith

/-- Without constraints the test is an assertion failure. -/
theorem inPolytope_zero {F : Type} [Scalar F] (x : Fin n → F) (A : Matrix (Fin 0) (Fin n) F) (b) :
    inPolytope x A b = .ub .emptyReduction := rfl

theorem isTail_iff {k : ℕ} (i : Fin n) : isTail k i = true ↔ n - k ≤ i.val := by simp [isTail]

/-- Exact meaning of the sparse membership test. -/
theorem inPolytopeK_real (x : Fin n → ℝ) (k : ℕ) (hk : 1 ≤ k) (hkn : k ≤ n) :
    inPolytopeK x k = .ok (decide (∀ i : Fin n, n - k ≤ i.val → 0 ≤ x i)) := by
  unfold inPolytopeK tail
  rw [dif_pos hkn, Out.ok_bind]
  obtain ⟨c, h1, h2, i, hi⟩ := minCoeff_real (fun i : Fin k => x ⟨n - k + i.val, by omega⟩) (by omega)
  rw [h1, Out.ok_bind]
  simp only [rsc_le, Out.ok.injEq, decide_eq_decide]
  constructor
  · intro hc j hj
    have := h2 ⟨j.val - (n - k), by omega⟩
    have e : (⟨n - k + (j.val - (n - k)), by omega⟩ : Fin n) = j := Fin.ext (by simp; omega)
    have h : c ≤ x ⟨n - k + (j.val - (n - k)), by omega⟩ := this
    rw [e] at h
    exact le_trans hc h
  · intro h
    have := h ⟨n - k + i.val, by omega⟩ (by simp)
    show (0 : ℝ) ≤ c
    rw [← hi]; exact this

end PW
