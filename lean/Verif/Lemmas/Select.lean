import Verif.Spec.LP
import Verif.Lemmas.Real
import Verif.Lemmas.LinAlg

/-! # Selection of rows and columns; the rows picked by the pivoted QR decomposition -/

namespace PW
open Classical Matrix
variable {m n : ℕ}

/-- The matrix of the selection `l`: `(S v)_i = v_{l_i}`. -/
def Sel (l : List (Fin m)) : Matrix (Fin l.length) (Fin m) ℝ := fun i a => if l.get i = a then 1 else 0

theorem sel_mulVec (l : List (Fin m)) (v : Fin m → ℝ) (i : Fin l.length) : (Sel l *ᵥ v) i = v (l.get i) := by
  simp [Matrix.mulVec, dotProduct, Sel]

theorem sel_mul (l : List (Fin m)) (A : Matrix (Fin m) (Fin n) ℝ) (i : Fin l.length) (j : Fin n) :
    (Sel l * A) i j = A (l.get i) j := by
  simp [Matrix.mul_apply, Sel]

theorem mul_selT (l : List (Fin n)) (A : Matrix (Fin m) (Fin n) ℝ) (i : Fin m) (j : Fin l.length) :
    (A * (Sel l)ᵀ) i j = A i (l.get j) := by
  simp [Matrix.mul_apply, Sel, Matrix.transpose_apply]

theorem selT_mulVec_notMem (l : List (Fin m)) (y : Fin l.length → ℝ) {a : Fin m} (ha : a ∉ l) :
    ((Sel l)ᵀ *ᵥ y) a = 0 := by
  simp only [Matrix.mulVec, dotProduct, Sel, Matrix.transpose_apply]
  refine Finset.sum_eq_zero fun i _ => ?_
  rw [if_neg, zero_mul]
  rintro rfl
  exact ha (List.get_mem l i)

theorem selT_mulVec_get {l : List (Fin m)} (hl : l.Nodup) (y : Fin l.length → ℝ) (i : Fin l.length) :
    ((Sel l)ᵀ *ᵥ y) (l.get i) = y i := by
  simp only [Matrix.mulVec, dotProduct, Sel, Matrix.transpose_apply]
  rw [Finset.sum_eq_single i]
  · simp
  · intro j _ hj
    rw [if_neg, zero_mul]
    intro h
    exact hj (hl.injective_get h)
  · simp

theorem sel_selT_mulVec {l : List (Fin m)} (hl : l.Nodup) (y : Fin l.length → ℝ) :
    Sel l *ᵥ ((Sel l)ᵀ *ᵥ y) = y := by
  funext i; rw [sel_mulVec, selT_mulVec_get hl]

/-- A vector supported on `l` is recovered from its selection. -/
theorem selT_sel_mulVec {l : List (Fin m)} (hl : l.Nodup) {v : Fin m → ℝ} (hv : ∀ a, a ∉ l → v a = 0) :
    (Sel l)ᵀ *ᵥ (Sel l *ᵥ v) = v := by
  funext a
  by_cases ha : a ∈ l
  · obtain ⟨i, rfl⟩ := List.get_of_mem ha
    rw [selT_mulVec_get hl, sel_mulVec]
  · rw [selT_mulVec_notMem _ _ ha, hv a ha]

/-! ## Pivoted QR -/

section
variable {B : Matrix (Fin m) (Fin n) ℝ} {f : QR ℝ n m} {rk : ℕ} (h : IsPivotedQR f Bᵀ rk)
include h

/-- Row `perm j` of `B` in terms of `R`. -/
theorem pivot_row (u : Fin n → ℝ) (j : Fin m) :
    (B *ᵥ u) (f.perm j) = ∑ i, f.R i j * (f.Qᵀ *ᵥ u) i := by
  have : (B *ᵥ u) (f.perm j) = ∑ l, (f.Q * f.R) l j * u l := by
    simp only [Matrix.mulVec, dotProduct, ← h.mul_eq, Matrix.transpose_apply]
  rw [this]
  simp only [Matrix.mul_apply, Matrix.mulVec, dotProduct, Matrix.transpose_apply, Finset.sum_mul,
    Finset.mul_sum]
  rw [Finset.sum_comm]
  exact Finset.sum_congr rfl fun i _ => Finset.sum_congr rfl fun l _ => by ring

/-- If `B u` vanishes on the leading pivots it vanishes. -/
theorem pivot_span (u : Fin n → ℝ) (hu : ∀ j : Fin m, j.val < rk → (B *ᵥ u) (f.perm j) = 0) :
    B *ᵥ u = 0 := by
  have hw : ∀ t (i : Fin n), i.val = t → i.val < rk → (f.Qᵀ *ᵥ u) i = 0 := by
    intro t
    induction t using Nat.strong_induction_on with
    | _ t ih =>
      intro i hi hr
      have hj := hu ⟨i.val, lt_of_lt_of_le hr h.rank_le.2⟩ hr
      rw [pivot_row h, Finset.sum_eq_single i] at hj
      · exact (mul_eq_zero.1 hj).resolve_left (h.diag i _ rfl hr)
      · intro l _ hl
        rcases lt_or_gt_of_ne (fun e => hl (Fin.ext e) : l.val ≠ i.val) with hlt | hgt
        · rw [ih l.val (by omega) l rfl (by omega), mul_zero]
        · rw [h.upper _ _ hgt, zero_mul]
      · simp
  funext a
  obtain ⟨j, rfl⟩ := h.perm.2 a
  rw [pivot_row h]
  refine Finset.sum_eq_zero fun i _ => ?_
  by_cases hi : i.val < rk
  · rw [hw _ i rfl hi, mul_zero]
  · rw [h.zero _ _ (by omega), zero_mul]

/-- The rows at the leading pivots are independent. -/
theorem pivot_indep (Y : Fin m → ℝ) (hY : Y ᵥ* B = 0) (hs : ∀ j : Fin m, rk ≤ j.val → Y (f.perm j) = 0) :
    Y = 0 := by
  have hR : ∀ i : Fin n, ∑ j, f.R i j * Y (f.perm j) = 0 := by
    have h1 : f.Q *ᵥ (f.R *ᵥ fun j => Y (f.perm j)) = 0 := by
      rw [Matrix.mulVec_mulVec]
      funext l
      have := congrFun hY l
      simp only [Matrix.vecMul, dotProduct, Pi.zero_apply] at this
      rw [← Equiv.sum_comp (Equiv.ofBijective _ h.perm)] at this
      simp only [Matrix.mulVec, dotProduct, ← h.mul_eq, Matrix.transpose_apply, Pi.zero_apply]
      rw [← this]
      exact Finset.sum_congr rfl fun j _ => by rw [Equiv.ofBijective_apply, mul_comm]
    have h2 : f.Qᵀ *ᵥ (f.Q *ᵥ (f.R *ᵥ fun j => Y (f.perm j))) = 0 := by rw [h1, Matrix.mulVec_zero]
    rw [Matrix.mulVec_mulVec, h.orth, Matrix.one_mulVec] at h2
    exact fun i => congrFun h2 i
  have key : ∀ t (j : Fin m), j.val + t = rk → Y (f.perm j) = 0 := by
    intro t
    induction t using Nat.strong_induction_on with
    | _ t ih =>
      intro j hj
      by_cases ht : t = 0
      · exact hs j (by omega)
      have hjr : j.val < rk := by omega
      have := hR ⟨j.val, lt_of_lt_of_le hjr h.rank_le.1⟩
      rw [Finset.sum_eq_single j] at this
      · exact (mul_eq_zero.1 this).resolve_left (h.diag _ j rfl hjr)
      · intro l _ hl
        rcases lt_or_gt_of_ne (fun e => hl (Fin.ext e) : l.val ≠ j.val) with hlt | hgt
        · rw [h.upper _ _ hlt, zero_mul]
        · by_cases hlr : rk ≤ l.val
          · rw [hs l hlr, mul_zero]
          · rw [ih (rk - l.val) (by omega) l (by omega), mul_zero]
      · simp
  funext a
  obtain ⟨j, rfl⟩ := h.perm.2 a
  by_cases hj : j.val < rk
  · exact key (rk - j.val) j (by omega)
  · exact hs j (by omega)
end

theorem filterMap_nodup {α β : Type} [DecidableEq β] {l : List α} {f : α → Option β} (hl : l.Nodup)
    (hf : ∀ a ∈ l, ∀ a' ∈ l, ∀ b, f a = some b → f a' = some b → a = a') : (l.filterMap f).Nodup := by
  induction l with
  | nil => simp
  | cons a l ih =>
    rw [List.nodup_cons] at hl
    have ih' := ih hl.2 (fun x hx y hy => hf x (List.mem_cons_of_mem _ hx) y (List.mem_cons_of_mem _ hy))
    rw [List.filterMap_cons]
    split
    · exact ih'
    · rename_i b hb
      refine List.nodup_cons.2 ⟨?_, ih'⟩
      intro hmem
      obtain ⟨a', ha', hb'⟩ := List.mem_filterMap.1 hmem
      have := hf a List.mem_cons_self a' (List.mem_cons_of_mem _ ha') b hb hb'
      subst this
      exact hl.1 ha'

/-- Rank decisions with threshold `err` are exact on the matrix `B`. -/
def GapAt (E : Eigen ℝ) (err : ℝ) (B : Matrix (Fin m) (Fin n) ℝ) : Prop :=
  ∀ (i : Fin n) (j : Fin m), i.val = j.val → (E.sparseQR Bᵀ).R i j ≠ 0 → err < |(E.sparseQR Bᵀ).R i j|

theorem mem_pickP {E : Eigen ℝ} {err : ℝ} (herr : 0 ≤ err) {B : Matrix (Fin m) (Fin n) ℝ} {rk : ℕ}
    (h : IsPivotedQR (E.sparseQR Bᵀ) Bᵀ rk) (hgap : GapAt E err B) (a : Fin m) :
    a ∈ pickP E err B ↔ ∃ j : Fin m, j.val < rk ∧ (E.sparseQR Bᵀ).perm j = a := by
  unfold pickP
  rw [transp_eq, List.mem_filterMap]
  constructor
  · rintro ⟨j, _, hj⟩
    split at hj
    · rename_i hjn
      split at hj
      · rename_i hlt
        refine ⟨j, ?_, by simpa using hj⟩
        by_contra hr
        rw [h.zero _ _ (by simpa using hr)] at hlt
        simp only [rsc_lt, rsc_abs, abs_zero, decide_eq_true_eq] at hlt
        linarith
      · cases hj
    · cases hj
  · rintro ⟨j, hj, rfl⟩
    refine ⟨j, List.mem_finRange _, ?_⟩
    have hjn : j.val < n := lt_of_lt_of_le hj h.rank_le.1
    rw [dif_pos hjn, if_pos]
    simp only [rsc_lt, rsc_abs, decide_eq_true_eq]
    exact hgap _ _ rfl (h.diag _ _ rfl hj)

theorem pickP_nodup {E : Eigen ℝ} {err : ℝ} {B : Matrix (Fin m) (Fin n) ℝ}
    (h : Function.Bijective (E.sparseQR Bᵀ).perm) : (pickP E err B).Nodup := by
  unfold pickP
  refine filterMap_nodup (List.nodup_finRange _) ?_
  intro a _ a' _ b hb hb'
  rw [transp_eq] at hb hb'
  split at hb
  · split at hb
    · split at hb'
      · split at hb'
        · simp only [Option.some.injEq] at hb hb'
          exact h.1 (hb.trans hb'.symm)
        · cases hb'
      · cases hb'
    · cases hb
  · cases hb

/-- The picked rows are independent. -/
theorem pickP_indep {E : Eigen ℝ} (hE : E.SparseQRExact) {err : ℝ} (herr : 0 ≤ err)
    {B : Matrix (Fin m) (Fin n) ℝ} (hgap : GapAt E err B) : IndepRows (Sel (pickP E err B) * B) := by
  obtain ⟨rk, h⟩ := hE Bᵀ
  intro y hy
  have hnd := pickP_nodup (err := err) h.perm
  have h0 : (Sel (pickP E err B))ᵀ *ᵥ y = 0 := by
    apply pivot_indep h
    · rw [Matrix.mulVec_transpose, Matrix.vecMul_vecMul]; exact hy
    · intro j hj
      apply selT_mulVec_notMem
      rw [mem_pickP herr h hgap]
      rintro ⟨j', hj', e⟩
      have := h.perm.1 e
      subst this
      omega
  have := sel_selT_mulVec hnd y
  rw [h0, Matrix.mulVec_zero] at this
  exact this.symm

/-- The picked rows span: for a consistent right hand side they determine the system. -/
theorem pickP_span {E : Eigen ℝ} (hE : E.SparseQRExact) {err : ℝ} (herr : 0 ≤ err)
    {B : Matrix (Fin m) (Fin n) ℝ} (hgap : GapAt E err B) (u : Fin n → ℝ)
    (hu : Sel (pickP E err B) *ᵥ (B *ᵥ u) = 0) : B *ᵥ u = 0 := by
  obtain ⟨rk, h⟩ := hE Bᵀ
  apply pivot_span h
  intro j hj
  have hmem := (mem_pickP herr h hgap _).2 ⟨j, hj, rfl⟩
  obtain ⟨i, hi⟩ := List.get_of_mem hmem
  have := congrFun hu i
  rw [sel_mulVec, hi] at this
  exact this

end PW
