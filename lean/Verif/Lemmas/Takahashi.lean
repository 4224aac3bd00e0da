import Verif.Lemmas.Leverage
import Mathlib.LinearAlgebra.Matrix.Block

/-!
# The Takahashi–Fagan–Chin recursion computes the inverse on the pattern of the factor
-/

namespace PW
open Classical Matrix
variable {m n : ℕ}

/-- Induction over a fold on `0, 1, …, m-1`. -/
theorem foldl_finRange_ind {β : Type} : ∀ {m : ℕ} (P : ℕ → β → Prop) (f : β → Fin m → β) (b : β), P 0 b →
    (∀ (i : Fin m) b, P i.val b → P (i.val + 1) (f b i)) → P m ((List.finRange m).foldl f b)
  | 0, _, _, _, h0, _ => by simpa using h0
  | m + 1, P, f, b, h0, hs => by
    rw [List.finRange_succ_last, List.foldl_append, List.foldl_map]
    have := foldl_finRange_ind P (fun b i => f b i.castSucc) b h0 fun i b h => hs i.castSucc b h
    exact hs (Fin.last m) _ this

theorem foldl_sub_filter {α : Type} (l : List α) (p : α → Bool) (f : α → ℝ) (a : ℝ) :
    (l.filter p).foldl (fun z x => z - f x) a = a - (l.map fun x => if p x then f x else 0).sum := by
  induction l generalizing a with
  | nil => simp
  | cons x l ih =>
    rw [List.filter_cons]
    by_cases hp : p x = true
    · rw [if_pos hp, List.foldl_cons, ih, List.map_cons, List.sum_cons, if_pos hp]; ring
    · rw [if_neg hp, ih, List.map_cons, List.sum_cons, if_neg hp, zero_add]

theorem takahashiEntry_real (Lc : Matrix (Fin m) (Fin m) ℝ) (pat : Fin m → Fin m → Bool) (D : Fin m → ℝ)
    (inv : Fin m → Fin m → ℝ) (i j : Fin m) :
    takahashiEntry Lc pat D inv i j = (if i = j then 1 / D i.rev else 0) -
      ∑ l, if pat l i = true ∧ l < i then Lc l i * (if l ≤ j then inv l j else inv j l) else 0 := by
  unfold takahashiEntry
  rw [foldl_sub_filter, ← List.ofFn_eq_map, List.sum_ofFn]
  simp only [Bool.and_eq_true, decide_eq_true_eq]

section
variable {Lc : Matrix (Fin m) (Fin m) ℝ} {pat : Fin m → Fin m → Bool} {D : Fin m → ℝ}
  {Z : Fin m → Fin m → ℝ}
  (hup : ∀ a c, pat a c = true → a ≤ c)
  (hfill : ∀ i a c, pat a i = true → pat c i = true → a ≤ c → c < i → pat a c = true)
  (hsym : ∀ i j, Z i j = Z j i)
  (hrec : ∀ i j, j ≤ i → Z i j = (if i = j then 1 / D i.rev else 0) -
      ∑ l, if pat l i = true ∧ l < i then Lc l i * Z l j else 0)
include hup hfill hsym hrec

/-- The entries computed before entry `(j, i)` are right. -/
def TakInv (pat : Fin m → Fin m → Bool) (Z : Fin m → Fin m → ℝ) (i j : ℕ) (inv : Fin m → Fin m → ℝ) : Prop :=
  ∀ a c, pat a c = true → (c.val < i ∨ (c.val = i ∧ a.val < j)) → inv a c = Z a c

theorem takahashiEntry_eq {i j : Fin m} {inv : Fin m → Fin m → ℝ} (h : TakInv pat Z i j inv)
    (hp : pat j i = true) : takahashiEntry Lc pat D inv i j = Z i j := by
  have hji := hup _ _ hp
  rw [takahashiEntry_real, hrec i j hji]
  congr 1
  refine Finset.sum_congr rfl fun l _ => ?_
  by_cases hl : pat l i = true ∧ l < i
  · rw [if_pos hl, if_pos hl]
    congr 1
    obtain ⟨h1, h2⟩ := hl
    split
    · rename_i hlj
      rcases hji.lt_or_eq with h3 | h3
      · exact h l j (hfill i l j h1 hp hlj h3) (.inl h3)
      · subst h3
        exact h l j h1 (.inr ⟨rfl, h2⟩)
    · rename_i hlj
      rw [hsym l j]
      exact h j l (hfill i j l hp h1 (by omega) h2) (.inl h2)
  · rw [if_neg hl, if_neg hl]

theorem takahashiCol_eq {i : Fin m} {inv : Fin m → Fin m → ℝ} (h : TakInv pat Z i 0 inv) :
    TakInv pat Z (i.val + 1) 0 (takahashiCol Lc pat D inv i) := by
  have key : TakInv pat Z i m (takahashiCol Lc pat D inv i) := by
    unfold takahashiCol
    rw [List.foldl_filter]
    apply foldl_finRange_ind (P := fun j inv => TakInv pat Z i j inv) _ _ h
    intro j inv h
    by_cases hp : pat j i = true
    · rw [if_pos hp, takahashiEntry_eq hup hfill hsym hrec h hp]
      have hji := hup _ _ hp
      intro a c hac hlt
      unfold insertSym
      by_cases hac' : a = j ∧ c = i
      · obtain ⟨rfl, rfl⟩ := hac'
        split
        · rename_i hle
          have := le_antisymm hle hji
          subst this
          simp
        · simp [hsym]
      · have hold : inv a c = Z a c := by
          refine h a c hac ?_
          rcases hlt with h1 | ⟨h1, h2⟩
          · exact .inl h1
          · refine .inr ⟨h1, ?_⟩
            have : a.val ≠ j.val := fun e => hac' ⟨Fin.ext e, Fin.ext h1⟩
            omega
        split
        · rename_i hle
          have := le_antisymm hle hji
          subst this
          exact (if_neg hac').trans hold
        · exact (if_neg hac').trans hold
    · rw [if_neg hp]
      intro a c hac hlt
      refine h a c hac ?_
      rcases hlt with h1 | ⟨h1, h2⟩
      · exact .inl h1
      · refine .inr ⟨h1, ?_⟩
        have : a.val ≠ j.val := by
          intro e
          have e1 : a = j := Fin.ext e
          have e2 : c = i := Fin.ext h1
          exact hp (e1 ▸ e2 ▸ hac)
        omega
  intro a c hac hlt
  refine key a c hac ?_
  have := a.2
  rcases hlt with h1 | ⟨h1, h2⟩
  · rcases Nat.lt_succ_iff_lt_or_eq.1 h1 with h | h
    · exact .inl h
    · exact .inr ⟨h, this⟩
  · omega

/-- The recursion computes `Z` on the pattern. -/
theorem takahashi_eq {a c : Fin m} (h : pat a c = true) : takahashi Lc pat D a c = Z a c := by
  have : TakInv pat Z m 0 (takahashi Lc pat D) := by
    unfold takahashi
    apply foldl_finRange_ind (P := fun i inv => TakInv pat Z i 0 inv)
    · intro a c _ h; omega
    · intro i inv h
      exact takahashiCol_eq hup hfill hsym hrec h
  exact this a c h (.inl c.2)
end

/-- For an exact `L D Lᵀ` factorisation the recursion yields the entries of the inverse at every stored
position of the factor. -/
theorem sparseInverse_eq {f : LDLT ℝ m} {M : Matrix (Fin m) (Fin m) ℝ} {pat : Fin m → Fin m → Bool}
    (h : IsLDLT f M pat) {r s : Fin m} (hp : f.pat r s = true) : sparseInverse f r s = M⁻¹ r s := by
  have hLdet : f.L.det = 1 := by
    rw [Matrix.det_of_isLowerTriangular f.L fun i j hij => h.lower i j hij]
    exact Finset.prod_eq_one fun i _ => h.diag_one i
  have hDdet : IsUnit (Matrix.diagonal f.D).det := by
    rw [Matrix.det_diagonal]
    exact (Finset.prod_ne_zero_iff.2 fun i _ => h.D_ne i).isUnit
  have hMdet : IsUnit M.det := by
    rw [← h.mul_eq, Matrix.det_mul, Matrix.det_mul, Matrix.det_transpose, hLdet]
    simpa using hDdet
  have hLu : IsUnit f.L.det := by rw [hLdet]; exact isUnit_one
  have hMsym : Mᵀ = M := by
    rw [← h.mul_eq]
    simp only [Matrix.transpose_mul, Matrix.transpose_transpose, Matrix.diagonal_transpose, Matrix.mul_assoc]
  have hZsym : ∀ i j, M⁻¹ i j = M⁻¹ j i := by
    intro i j
    have : (M⁻¹)ᵀ = M⁻¹ := by rw [Matrix.transpose_nonsing_inv, hMsym]
    exact (congrFun (congrFun this i) j).symm
  -- `Lᵀ Z = D⁻¹ L⁻¹`, and `L⁻¹` is unit lower triangular
  have hprod : (Matrix.diagonal f.D * (f.Lᵀ * M⁻¹)) = f.L⁻¹ := by
    have h1 : f.L * (Matrix.diagonal f.D * (f.Lᵀ * M⁻¹)) = 1 := by
      rw [← Matrix.mul_assoc, ← Matrix.mul_assoc, h.mul_eq, Matrix.mul_nonsing_inv _ hMdet]
    exact (Matrix.inv_eq_right_inv h1).symm
  have hLT : Matrix.BlockTriangular f.L OrderDual.toDual := fun i j hij => h.lower i j hij
  have hinvlow : ∀ i j, i < j → f.L⁻¹ i j = 0 := by
    have : Invertible f.L := Matrix.invertibleOfIsUnitDet _ hLu
    intro i j hij
    exact Matrix.blockTriangular_inv_of_blockTriangular hLT hij
  have hinvdiag : ∀ i, f.L⁻¹ i i = 1 := by
    intro i
    have h1 := congrFun (congrFun (Matrix.mul_nonsing_inv _ hLu) i) i
    rw [Matrix.mul_apply, Matrix.one_apply_eq, Finset.sum_eq_single i] at h1
    · rwa [h.diag_one, one_mul] at h1
    · intro j _ hj
      rcases lt_or_gt_of_ne hj with h2 | h2
      · rw [hinvlow j i h2, mul_zero]
      · rw [h.lower i j h2, zero_mul]
    · simp
  have hLZ : ∀ i j, i ≤ j → ∑ l, f.L l i * M⁻¹ l j = if i = j then 1 / f.D i else 0 := by
    intro i j hij
    have h1 := congrFun (congrFun hprod i) j
    rw [Matrix.diagonal_mul, Matrix.mul_apply] at h1
    simp only [Matrix.transpose_apply] at h1
    split
    · rename_i e
      subst e
      rw [hinvdiag] at h1
      field_simp [h.D_ne i]
      linarith
    · rename_i e
      rw [hinvlow i j (lt_of_le_of_ne hij e)] at h1
      exact (mul_eq_zero.1 h1).resolve_left (h.D_ne i)
  show takahashi _ _ _ r.rev s.rev = _
  refine (takahashi_eq (Z := fun a c => M⁻¹ a.rev c.rev) ?_ ?_ ?_ ?_ ?_).trans ?_
  · intro a c hac
    have := h.pat_lower _ _ hac
    exact Fin.rev_le_rev.1 this
  · intro i a c ha hc hac hci
    exact h.pat_fill _ _ _ (Fin.rev_lt_rev.2 hci) (Fin.rev_le_rev.2 hac) ha hc
  · intro i j; exact hZsym _ _
  · intro i j hji
    have h1 := hLZ i.rev j.rev (Fin.rev_le_rev.2 hji)
    have h2 : ∑ l, f.L l i.rev * M⁻¹ l j.rev = M⁻¹ i.rev j.rev +
        ∑ l, if f.pat l.rev i.rev = true ∧ l < i then f.L l.rev i.rev * M⁻¹ l.rev j.rev else 0 := by
      rw [← Equiv.sum_comp Fin.revPerm (fun l => f.L l i.rev * M⁻¹ l j.rev)]
      simp only [Fin.revPerm_apply]
      rw [← Finset.add_sum_erase Finset.univ _ (Finset.mem_univ i), h.diag_one, one_mul]
      congr 1
      rw [← Finset.add_sum_erase Finset.univ (fun l => if f.pat l.rev i.rev = true ∧ l < i then _ else _)
        (Finset.mem_univ i), if_neg (fun hh => lt_irrefl _ hh.2), zero_add]
      refine Finset.sum_congr rfl fun l hl => ?_
      have hne := Finset.ne_of_mem_erase hl
      split
      · rfl
      · rename_i hn
        rw [not_and_or] at hn
        rcases hn with hn | hn
        · rw [h.pat_L _ _ (by simpa using hn), zero_mul]
        · rw [h.lower _ _ (Fin.rev_lt_rev.2 (lt_of_le_of_ne (not_lt.1 hn) (Ne.symm hne))), zero_mul]
    rw [h2] at h1
    simp only [Fin.rev_inj] at h1
    linarith
  · show f.pat r.rev.rev s.rev.rev = true
    rw [Fin.rev_rev, Fin.rev_rev]; exact hp
  · show M⁻¹ r.rev.rev s.rev.rev = _
    rw [Fin.rev_rev, Fin.rev_rev]

end PW
