import Verif.Props.ExamplesApplied

/-!
# C90 in two dimensions

The triangle `{x ≥ 0 | x₁ + x₂ + x₃ = 1, x₀ = x₁ - 1/4}` given with one equation written twice. `sparseFullWalkRun` hands over one nonnegativity constraint too few
(`x₀ ≥ 0` is lost), so the walk runs on the larger triangle `x₁, x₂, x₃ ≥ 0`.
-/

namespace PW
open Matrix MeasureTheory Set

/-- The equations `x₁ + x₂ + x₃ = 1` (twice) and `x₀ - x₁ = -1/4`. -/
def wideM : Matrix (Fin 3) (Fin 4) ℝ := !![0, 1, 1, 1; 0, 1, 1, 1; 1, -1, 0, 0]
/-- As an argument of the driver. -/
def wideA : DMat ℝ := ⟨3, 4, wideM⟩
/-- The right-hand side. -/
noncomputable def wideB : Fin 3 → ℝ := ![1, 1, -1 / 4]

theorem wide_eq (x : Fin 4 → ℝ) : wideM *ᵥ x = wideB ↔ x 1 + x 2 + x 3 = 1 ∧ x 0 = x 1 - 1 / 4 := by
  have h0 : (wideM *ᵥ x) (0 : Fin 3) = x 1 + x 2 + x 3 := by
    show ∑ j : Fin 4, (!![(0 : ℝ), 1, 1, 1; 0, 1, 1, 1; 1, -1, 0, 0]) 0 j * x j = _
    simp [Fin.sum_univ_four]
  have h1 : (wideM *ᵥ x) (1 : Fin 3) = x 1 + x 2 + x 3 := by
    show ∑ j : Fin 4, (!![(0 : ℝ), 1, 1, 1; 0, 1, 1, 1; 1, -1, 0, 0]) 1 j * x j = _
    simp [Fin.sum_univ_four]
  have h2 : (wideM *ᵥ x) (2 : Fin 3) = x 0 - x 1 := by
    show ∑ j : Fin 4, (!![(0 : ℝ), 1, 1, 1; 0, 1, 1, 1; 1, -1, 0, 0]) 2 j * x j = _
    simp [Fin.sum_univ_four]; ring
  constructor
  · intro h
    have e0' : x 1 + x 2 + x 3 = 1 := h0.symm.trans (congrFun h (0 : Fin 3))
    have e2' : x 0 - x 1 = -1 / 4 := h2.symm.trans (congrFun h (2 : Fin 3))
    exact ⟨e0', by linarith⟩
  · rintro ⟨e1, e2⟩
    have key : ∀ i : Fin 3, (wideM *ᵥ x) i = wideB i := by
      intro i
      fin_cases i
      · exact h0.trans e1
      · exact h1.trans e1
      · exact h2.trans (show x 0 - x 1 = -1 / 4 by linarith)
    exact funext key

theorem wide_mem (x : Fin 4 → ℝ) : x ∈ PolyEq wideM wideB 4 ↔ (x 1 + x 2 + x 3 = 1 ∧ x 0 = x 1 - 1 / 4) ∧ 0 ≤ x 0 ∧ 0 ≤ x 1 ∧ 0 ≤ x 2 ∧ 0 ≤ x 3 := by
  constructor
  · rintro ⟨h1, h2⟩
    exact ⟨(wide_eq x).1 h1, h2 (0 : Fin 4) (Nat.zero_le _), h2 (1 : Fin 4) (Nat.zero_le _), h2 (2 : Fin 4) (Nat.zero_le _), h2 (3 : Fin 4) (Nat.zero_le _)⟩
  · rintro ⟨h1, h2, h3, h4, h5⟩
    have key : ∀ i : Fin 4, 0 ≤ x i := by intro i; fin_cases i <;> assumption
    exact ⟨(wide_eq x).2 h1, fun i _ => key i⟩

/-- The barycentre of the larger triangle. -/
noncomputable def wideX : Fin 4 → ℝ := ![1 / 12, 1 / 3, 1 / 3, 1 / 3]

theorem wide_point : wideX ∈ PolyEq wideM wideB 4 := by
  rw [wide_mem]
  show ((1 / 3 : ℝ) + 1 / 3 + 1 / 3 = 1 ∧ (1 / 12 : ℝ) = 1 / 3 - 1 / 4) ∧ (0 : ℝ) ≤ 1 / 12 ∧ (0 : ℝ) ≤ 1 / 3 ∧ (0 : ℝ) ≤ 1 / 3 ∧ (0 : ℝ) ≤ 1 / 3
  norm_num

theorem wideX_pos (i : Fin 4) : 0 < wideX i := by unfold wideX; fin_cases i <;> simp

theorem wide_survives (i : Fin 4) : Survives wideM wideB 4 i := .inr ⟨_, wide_point, (wideX_pos i).ne'⟩

theorem wide_count : survivorCount wideM wideB 4 = 4 :=
  survivorCount_eq (g := (id : Fin 4 → Fin 4)) Function.injective_id fun i => ⟨fun _ => ⟨i, rfl⟩, fun _ => wide_survives i⟩

theorem wide_rank : survivorRank wideM wideB 4 = 2 := by
  have h := survivorRank_eq (M := wideM) (b := wideB) (k := 4) (g := (id : Fin 4 → Fin 4)) fun i => ⟨fun _ => ⟨i, rfl⟩, fun _ => wide_survives i⟩
  rw [h]
  show (!![(0 : ℝ), 1, 1, 1; 0, 1, 1, 1; 1, -1, 0, 0]).rank = 2
  apply le_antisymm
  · have e : !![(0 : ℝ), 1, 1, 1; 0, 1, 1, 1; 1, -1, 0, 0] = !![(0 : ℝ), 1; 0, 1; 1, 0] * !![(1 : ℝ), -1, 0, 0; 0, 1, 1, 1] := by
      ext i j; fin_cases i <;> fin_cases j <;> simp [Matrix.mul_apply, Fin.sum_univ_two]
    rw [e]
    exact (Matrix.rank_mul_le_left _ _).trans (Matrix.rank_le_width _)
  · have e : (1 : Matrix (Fin 2) (Fin 2) ℝ) = !![(0 : ℝ), 0, 1; 1, 0, 0] * !![(0 : ℝ), 1, 1, 1; 0, 1, 1, 1; 1, -1, 0, 0] * !![(1 : ℝ), 1; 0, 1; 0, 0; 0, 0] := by
      ext i j; fin_cases i <;> fin_cases j <;> simp [Matrix.mul_apply, Fin.sum_univ_three, Fin.sum_univ_four]
    have h2 := Matrix.rank_one (R := ℝ) (n := Fin 2)
    rw [Fintype.card_fin, e] at h2
    exact h2.symm.le.trans <| (Matrix.rank_mul_le_left _ _).trans (Matrix.rank_mul_le_right _ _)

theorem wide_handed : handedK wideM wideB 4 = 3 := by
  unfold handedK
  show (4 : Int) - ((3 : ℕ) - survivorRank wideM wideB 4) = 3
  rw [wide_rank]; rfl

theorem wide_handed_iff (i : Fin 4) : Handed wideM wideB 4 i ↔ 1 ≤ i.val := by
  have := handed_iff (M := wideM) (b := wideB) (k := 4) (g := (id : Fin 4 → Fin 4)) _root_.strictMono_id
    (fun i => ⟨fun _ => ⟨i, rfl⟩, fun _ => wide_survives i⟩) (by rw [wide_handed]; norm_num) i
  rw [wide_handed] at this
  exact this

theorem wide_set (x : Fin 4 → ℝ) : x ∈ HandedSet wideM wideB 4 ↔ (x 1 + x 2 + x 3 = 1 ∧ x 0 = x 1 - 1 / 4) ∧ 0 ≤ x 1 ∧ 0 ≤ x 2 ∧ 0 ≤ x 3 := by
  constructor
  · rintro ⟨h1, -, h2⟩
    exact ⟨(wide_eq x).1 h1, h2 (1 : Fin 4) ((wide_handed_iff 1).2 le_rfl), h2 (2 : Fin 4) ((wide_handed_iff 2).2 (by norm_num)),
      h2 (3 : Fin 4) ((wide_handed_iff 3).2 (by norm_num))⟩
  · rintro ⟨h1, h2, h3, h4⟩
    have key : ∀ i : Fin 4, 1 ≤ i.val → 0 ≤ x i := by
      intro i; fin_cases i
      · intro h; exact absurd h (by norm_num)
      · intro _; exact h2
      · intro _; exact h3
      · intro _; exact h4
    exact ⟨(wide_eq x).2 h1, fun i hi => absurd (wide_survives i) hi, fun i hi => key i ((wide_handed_iff i).1 hi)⟩

/-- Coordinates of the plane. -/
def wideDir : Matrix (Fin 4) (Fin 2) ℝ := !![1, 0; 1, 0; 0, 1; -1, -1]

theorem wide_chart (u : Fin 2 → ℝ) : chart wideX wideDir u = ![1 / 12 + u 0, 1 / 3 + u 0, 1 / 3 + u 1, 1 / 3 - u 0 - u 1] := by
  funext i
  simp only [chart, wideX, wideDir]
  fin_cases i <;> simp [Matrix.mulVec, dotProduct, Fin.sum_univ_two] <;> ring

theorem wide_chart_set (u : Fin 2 → ℝ) : chart wideX wideDir u ∈ HandedSet wideM wideB 4 ↔ 0 ≤ 1 / 3 + u 0 ∧ 0 ≤ 1 / 3 + u 1 ∧ 0 ≤ 1 / 3 - u 0 - u 1 := by
  rw [wide_set, wide_chart]
  show ((1 / 3 + u 0 + (1 / 3 + u 1) + (1 / 3 - u 0 - u 1) = 1 ∧ 1 / 12 + u 0 = 1 / 3 + u 0 - 1 / 4) ∧ _) ↔ _
  refine ⟨fun h => h.2, fun h => ⟨⟨by ring, by ring⟩, h⟩⟩

theorem wide_isChart : IsChart (HandedSet wideM wideB 4) wideX wideDir where
  inj u hu := by
    have h1 : (wideDir *ᵥ u) (1 : Fin 4) = 0 := congrFun hu (1 : Fin 4)
    have h2 : (wideDir *ᵥ u) (2 : Fin 4) = 0 := congrFun hu (2 : Fin 4)
    funext i
    fin_cases i
    · simpa [wideDir, Matrix.mulVec, dotProduct, Fin.sum_univ_two] using h1
    · simpa [wideDir, Matrix.mulVec, dotProduct, Fin.sum_univ_two] using h2
  covers x hx := by
    obtain ⟨⟨h1, h2⟩, -, -⟩ := (wide_set x).1 hx
    refine ⟨![x 1 - 1 / 3, x 2 - 1 / 3], ?_⟩
    rw [wide_chart]
    have key : ∀ i : Fin 4, (![1 / 12 + (x 1 - 1 / 3), 1 / 3 + (x 1 - 1 / 3), 1 / 3 + (x 2 - 1 / 3), 1 / 3 - (x 1 - 1 / 3) - (x 2 - 1 / 3)] : Fin 4 → ℝ) i = x i := by
      intro i; fin_cases i
      · show 1 / 12 + (x 1 - 1 / 3) = x 0; linarith
      · show 1 / 3 + (x 1 - 1 / 3) = x 1; ring
      · show 1 / 3 + (x 2 - 1 / 3) = x 2; ring
      · show 1 / 3 - (x 1 - 1 / 3) - (x 2 - 1 / 3) = x 3; linarith
    exact funext key
  solid := by
    refine ⟨0, mem_interior.2 ⟨{u | 0 < 1 / 3 + u 0} ∩ ({u | 0 < 1 / 3 + u 1} ∩ {u | 0 < 1 / 3 - u 0 - u 1}), fun u hu => ?_, ?_, ?_⟩⟩
    · exact (wide_chart_set u).2 ⟨hu.1.le, hu.2.1.le, hu.2.2.le⟩
    · refine (isOpen_lt continuous_const (by fun_prop)).inter ((isOpen_lt continuous_const (by fun_prop)).inter (isOpen_lt continuous_const (by fun_prop)))
    · show (0 : ℝ) < 1 / 3 + 0 ∧ (0 : ℝ) < 1 / 3 + 0 ∧ (0 : ℝ) < 1 / 3 - 0 - 0
      norm_num

theorem wide_range {y : Fin 4 → ℝ} (hy : y ∈ HandedSet wideM wideB 4) (i : Fin 4) : -1 / 4 ≤ y i ∧ y i ≤ 1 := by
  obtain ⟨⟨h1, h2⟩, h3, h4, h5⟩ := (wide_set y).1 hy
  have key : ∀ i : Fin 4, -1 / 4 ≤ y i ∧ y i ≤ 1 := by
    intro i; fin_cases i
    · show -1 / 4 ≤ y 0 ∧ y 0 ≤ 1; constructor <;> linarith
    · show -1 / 4 ≤ y 1 ∧ y 1 ≤ 1; constructor <;> linarith
    · show -1 / 4 ≤ y 2 ∧ y 2 ≤ 1; constructor <;> linarith
    · show -1 / 4 ≤ y 3 ∧ y 3 ≤ 1; constructor <;> linarith
  exact key i

theorem wide_bdd : ∃ C, ∀ y ∈ HandedSet wideM wideB 4, ∀ i, |y i| ≤ C :=
  ⟨1, fun y hy i => abs_le.2 ⟨by have := (wide_range hy i).1; linarith, (wide_range hy i).2⟩⟩

theorem wide_diam (y : Fin 4 → ℝ) (hy : y ∈ HandedSet wideM wideB 4) (z : Fin 4 → ℝ) (hz : z ∈ HandedSet wideM wideB 4) :
    ∑ i, (y i - z i) ^ 2 ≤ (3 : ℝ) ^ 2 := by
  have h : ∀ i, (y i - z i) ^ 2 ≤ (3 / 2) ^ 2 := fun i => by
    have h1 := wide_range hy i
    have h2 := wide_range hz i
    exact sq_le_sq' (by linarith [h1.1, h2.2]) (by linarith [h1.2, h2.1])
  calc ∑ i, (y i - z i) ^ 2 ≤ ∑ _i : Fin 4, (3 / 2 : ℝ) ^ 2 := Finset.sum_le_sum fun i _ => h i
    _ = 3 ^ 2 := by rw [Finset.sum_const, Finset.card_univ, Fintype.card_fin]; norm_num

theorem wide_disc (u : Fin 2 → ℝ) (h : ∑ i, (chart wideX wideDir u i - chart wideX wideDir 0 i) ^ 2 ≤ (1 / 3) ^ 2) :
    chart wideX wideDir u ∈ HandedSet wideM wideB 4 := by
  rw [wide_chart_set]
  rw [wide_chart, wide_chart, Fin.sum_univ_four] at h
  have h' : (1 / 12 + u 0 - (1 / 12 + 0)) ^ 2 + (1 / 3 + u 0 - (1 / 3 + 0)) ^ 2 + (1 / 3 + u 1 - (1 / 3 + 0)) ^ 2 +
      (1 / 3 - u 0 - u 1 - (1 / 3 - 0 - 0)) ^ 2 ≤ (1 / 3 : ℝ) ^ 2 := h
  generalize u 0 = s at h' ⊢
  generalize u 1 = t at h' ⊢
  have e : 2 * s ^ 2 + t ^ 2 + (s + t) ^ 2 ≤ (1 / 3) ^ 2 := by linarith [h', show (1 / 12 + s - (1 / 12 + 0)) ^ 2 + (1 / 3 + s - (1 / 3 + 0)) ^ 2 +
    (1 / 3 + t - (1 / 3 + 0)) ^ 2 + (1 / 3 - s - t - (1 / 3 - 0 - 0)) ^ 2 = 2 * s ^ 2 + t ^ 2 + (s + t) ^ 2 by ring]
  have a1 := abs_le_of_sq_le_sq' (a := s) (b := 1 / 3) (by nlinarith [sq_nonneg t, sq_nonneg (s + t), sq_nonneg s]) (by norm_num)
  have a2 := abs_le_of_sq_le_sq' (a := t) (b := 1 / 3) (by nlinarith [sq_nonneg t, sq_nonneg (s + t), sq_nonneg s]) (by norm_num)
  have a3 := abs_le_of_sq_le_sq' (a := s + t) (b := 1 / 3) (by nlinarith [sq_nonneg t, sq_nonneg (s + t), sq_nonneg s]) (by norm_num)
  exact ⟨by linarith [a1.1], by linarith [a2.1], by linarith [a3.2]⟩

theorem wide_one : 1 ≤ handedK wideA.val wideB 4 ∧ handedK wideA.val wideB 4 ≤ (survivorCount wideA.val wideB 4 : ℕ) := by
  show 1 ≤ handedK wideM wideB 4 ∧ handedK wideM wideB 4 ≤ (survivorCount wideM wideB 4 : ℕ)
  rw [wide_handed, wide_count]; norm_num

theorem wide_inside : ∃ y ∈ HandedSet wideA.val wideB 4, ∀ i, Handed wideA.val wideB 4 i → 0 < y i := by
  have h := (wide_mem _).1 wide_point
  exact ⟨wideX, (wide_set _).2 ⟨h.1, h.2.2⟩, fun i _ => wideX_pos i⟩

theorem wide_not_cone : ¬ CoordCone (PolyEq wideA.val wideB 4) 4 := by
  apply not_coordCone_of_zero
  intro h
  have h1 : (0 : ℝ) + 0 + 0 = 1 := ((wide_mem _).1 h).1.1
  norm_num at h1

section
variable {err : ℝ} (hS : FRSetting exactGlpk exactEigen err wideA) (h1 : err ≤ 1)
include hS h1

/-- `sparseFullWalkRun` with `SparseHitAndRun` samples the larger triangle. -/
example : ∃ I : (sparseDriver exactGlpk exactEigen err 5 0 wideA wideB 4).Inner, ∀ ε > 0, ∃ η > 0, ∃ t₀ : ℕ, ∀ R ERR : ℝ, |(3 : ℝ)| < 2 ^ 10000 * |R| → 0 < ERR →
    ERR ≤ η → ∀ seed : Int, ∀ t ≥ t₀, Driver.LawWithin I (.sparseHitRun R ERR exactEigen) streamEnv streamLaw seed
      (uniformIn (HandedSet wideM wideB 4) wideX wideDir) t ε := by
  obtain ⟨I, h⟩ := C90_hitRun hS h1 (b := wideB) (k := 4) (by decide) ⟨_, wide_point⟩ wide_not_cone wide_one wide_bdd wide_inside (fuel := 5) (by decide) 0
    wide_isChart le_rfl exactEigen_exact.sparseLU 3 wide_diam
  refine ⟨I, fun ε hε => ?_⟩
  obtain ⟨η, hη, t₀, h⟩ := h ε hε
  exact ⟨η, hη, t₀, fun R ERR a1 a2 a3 seed t ht => h R ERR a1 a2 a3 streamEnv streamLaw streamRng_ideal seed t ht⟩

example := C90_hitRun_average hS h1 (b := wideB) (k := 4) (by decide) ⟨_, wide_point⟩ wide_not_cone wide_one wide_bdd wide_inside (fuel := 5) (by decide) 0
    wide_isChart le_rfl exactEigen_exact.sparseLU 3 wide_diam

/-- `sparseFullWalkRun` with `SparseBallWalk` samples the larger triangle. -/
example : ∃ I : (sparseDriver exactGlpk exactEigen err 5 0 wideA wideB 4).Inner, ∀ ε > 0, ∃ t₀ : ℕ, ∀ seed : Int, ∀ t ≥ t₀,
    Driver.LawWithin I (.sparseBall (1 / 4) exactEigen) streamEnv streamLaw seed (uniformIn (HandedSet wideM wideB 4) wideX wideDir) t ε := by
  obtain ⟨I, h⟩ := C90_ball hS h1 (b := wideB) (k := 4) (by decide) ⟨_, wide_point⟩ wide_not_cone wide_one wide_bdd wide_inside (fuel := 5) (by decide) 0
    wide_isChart le_rfl exactEigen_exact.sparseLU (R := 1 / 4) (by norm_num) (u₀ := 0) simplex_step wide_disc
  refine ⟨I, fun ε hε => ?_⟩
  obtain ⟨t₀, h⟩ := h ε hε
  exact ⟨t₀, fun seed t ht => h streamEnv streamLaw streamRng_ideal seed t ht⟩

example := C90_ball_average hS h1 (b := wideB) (k := 4) (by decide) ⟨_, wide_point⟩ wide_not_cone wide_one wide_bdd wide_inside (fuel := 5) (by decide) 0
    wide_isChart le_rfl exactEigen_exact.sparseLU (R := 1 / 4) (by norm_num) (u₀ := 0) simplex_step wide_disc

end

/-- There is such a setting; the larger triangle is larger: it contains `(-1/4, 0, 1/2, 1/2)`. -/
example : (∃ err, err ≤ 1 ∧ FRSetting exactGlpk exactEigen err wideA) ∧ (![-1 / 4, 0, 1 / 2, 1 / 2] : Fin 4 → ℝ) ∈ HandedSet wideM wideB 4 ∧
    (![-1 / 4, 0, 1 / 2, 1 / 2] : Fin 4 → ℝ) ∉ PolyEq wideM wideB 4 := by
  refine ⟨exists_frSetting _, (wide_set _).2 ?_, fun h => ?_⟩
  · show ((0 : ℝ) + 1 / 2 + 1 / 2 = 1 ∧ (-1 / 4 : ℝ) = 0 - 1 / 4) ∧ (0 : ℝ) ≤ 0 ∧ (0 : ℝ) ≤ 1 / 2 ∧ (0 : ℝ) ≤ 1 / 2
    norm_num
  · have h3 : (0 : ℝ) ≤ -1 / 4 := ((wide_mem _).1 h).2.1
    norm_num at h3

end PW
