import Verif.Props.Ellipsoid
import Verif.Props.Stable
import Verif.Props.CentersBounded
import Verif.Props.Queries
import Verif.Props.FullRunCompletes
import Verif.Props.DenseBarrierLaw
import Verif.Props.SparseBarrierLaw

/-!
# Concrete cases that meet the hypotheses

For the theorems about exact arithmetic: a triangle (dense form), a segment (sparse form), a generator whose normal
draws alternate between `1/2` and `-1/2` and whose uniform draws are `0` (every move with positive ratio is accepted), and exact
decompositions. Theorems with their own examples in their file are not repeated.
-/

namespace PW.RealToy
open PW Matrix

/-- Alternating draws. -/
noncomputable def rng : Rng ℝ where
  G := ℕ
  N := Unit
  seed w := w.toNat
  normalInit := ()
  normal _ g := (if g % 2 = 0 then 1 / 2 else -(1 / 2), (), g + 1)
  uniform g := (0, g + 1)

/-- Environment with this generator. -/
noncomputable def env : Env ℝ := ⟨rng, 7, fun _ _ => 0, 5⟩

theorem unitDraws : env.r.UnitDraws := fun _ => ⟨le_rfl, zero_le_one⟩

theorem draw_sq (d : ℕ) (g : ℕ) (i : Fin d) : (rng.gaussian d g).1 i ^ 2 = 1 / 4 := by
  show (if _ then (1 / 2 : ℝ) else -(1 / 2)) ^ 2 = 1 / 4
  split <;> norm_num

/-- The triangle `x ≥ 0, y ≥ 0, x + y ≤ 1`. -/
def triA : Matrix (Fin 3) (Fin 2) ℝ := !![-1, 0; 0, -1; 1, 1]
/-- Its right-hand side. -/
def triB : Fin 3 → ℝ := ![0, 0, 1]
/-- An interior point. -/
noncomputable def triX : Fin 2 → ℝ := fun _ => 1 / 4

theorem triA_indep : IndepCols triA := by
  intro x hx
  have h0 := congrFun hx 0
  have h1 := congrFun hx 1
  simp [triA, Matrix.mulVec, dotProduct, Fin.sum_univ_two] at h0 h1
  funext i
  fin_cases i <;> simp [h0, h1]

theorem triX_interior : triX ∈ Interior triA triB := by
  intro i
  fin_cases i <;> simp [triA, triB, triX, Matrix.mulVec, dotProduct, Fin.sum_univ_two] <;> norm_num

theorem triX_mem : triX ∈ Poly triA triB := fun i => (triX_interior i).le

theorem tri_bounded : ∃ M, ∀ x ∈ Poly triA triB, ∀ i, |x i| ≤ M := by
  refine ⟨1, fun x hx i => ?_⟩
  have h0 := hx 0
  have h1 := hx 1
  have h2 := hx 2
  simp [triA, triB, Matrix.mulVec, dotProduct, Fin.sum_univ_two] at h0 h1 h2
  rw [abs_le]
  fin_cases i <;> constructor <;> simp <;> linarith

/-- Ten iterations on the triangle, burn-in 2, thinning 3. -/
noncomputable def triArgs : Args ℝ :=
  ⟨10, ⟨2, triX⟩, ⟨3, 2, triA⟩, ⟨3, triB⟩, 1, 2, 3, 42⟩

/-- Ten iterations on the segment `x + y = 1, x ≥ 0, y ≥ 0`, burn-in 2, thinning 3. -/
noncomputable def segArgs : Args ℝ :=
  ⟨10, ⟨2, midpoint2⟩, ⟨1, 2, rowOnes⟩, ⟨1, fun _ => 1⟩, 2, 2, 3, 42⟩

theorem triDims : triArgs.DimsOk := ⟨rfl, rfl⟩
theorem segDims : segArgs.DimsOk := ⟨rfl, rfl⟩
theorem segK : segArgs.KOk := ⟨by norm_num [segArgs], by norm_num [segArgs]⟩

theorem triInts : GoodInts triArgs.niter triArgs.burnin triArgs.thin := by
  constructor <;> norm_num [triArgs, IsInt, intMin, intMax]
theorem segInts : GoodInts segArgs.niter segArgs.burnin segArgs.thin := by
  constructor <;> norm_num [segArgs, IsInt, intMin, intMax]

theorem seg_eq : segArgs.A.val *ᵥ segArgs.x0 segDims = segArgs.rhs segDims := by
  funext i
  show (rowOnes *ᵥ midpoint2) i = 1
  simp [rowOnes, midpoint2, Matrix.mulVec, dotProduct, Fin.sum_univ_two]

theorem seg_unit : IsUnit (segArgs.A.val * segArgs.A.valᵀ).det :=
  PosDef.isUnit_det (IndepRows.posDef (A := rowOnes) rowOnes_indep)

/-! ### C10: the six dense Metropolis walks stay in the triangle -/

/-- Walks used below. -/
noncomputable def john : Walk ℝ := .barrier (johnClass exactEigen 1 (1 / 100) 50) exactEigen (BState.fresh 0)

example : ∃ rows, (Walk.ball 1).run env triArgs = .ok rows ∧ rows.length = 2 ∧ ∀ x ∈ rows, x ∈ Poly triA triB := by
  obtain ⟨rows, h⟩ := C54_returns (Walk.ball 1) env triArgs (.ball _ (by norm_num [triArgs])) triInts triDims
    (fun h => by cases h)
  refine ⟨rows, h, ?_, C10_feasible _ (.ball _) env triArgs triInts.sane triDims triX_mem rows h⟩
  have h1 : (rows.length : Int) = (10 - 2) / 3 := C01_shape _ env triArgs triInts rows h
  norm_num at h1
  exact_mod_cast h1

example : ∃ rows, john.run env triArgs = .ok rows ∧ ∀ x ∈ rows, x ∈ Poly triA triB := by
  obtain ⟨rows, h⟩ := C54_returns john env triArgs
    (.john _ _ _ _ _ (by norm_num [triArgs]) (by norm_num [triArgs])) triInts triDims (fun h => by cases h)
  exact ⟨rows, h, C10_feasible _ (.barrier _ _ _) env triArgs triInts.sane triDims triX_mem rows h⟩

/-! ### C15: a step of the ball walk -/

example : ∃ x y, (Walk.ball 1).PosAt env triArgs triDims 3 x ∧ (Walk.ball 1).PosAt env triArgs triDims 4 y ∧
    (y = x ∨ Real.sqrt (∑ i, (y i - x i) ^ 2) = |1| / Real.sqrt 2) := by
  obtain ⟨s, hs⟩ := C54_chain (Walk.ball 1) env triArgs (.ball _ (by norm_num [triArgs])) triDims (fun h => by cases h) 3
  obtain ⟨s', hs'⟩ := C54_chain (Walk.ball 1) env triArgs (.ball _ (by norm_num [triArgs])) triDims (fun h => by cases h) 4
  refine ⟨_, _, ⟨s, hs, rfl⟩, ⟨s', hs', rfl⟩, ?_⟩
  have := C15_ball_step 1 env triArgs triDims 3 _ _ ⟨s, hs, rfl⟩ ⟨s', hs', rfl⟩
  simpa [triArgs] using this

/-! ### C16, C17: the sparse walks stay in the segment -/

example : ∃ rows, (Walk.sparseBall 1 exactEigen).run env segArgs = .ok rows ∧
    ∀ x ∈ rows, rowOnes *ᵥ x = (fun _ => 1) ∧ x ∈ TailNonneg 2 2 := by
  obtain ⟨rows, h⟩ := C54_returns (Walk.sparseBall 1 exactEigen) env segArgs (.sparseBall _ _) segInts segDims (fun _ => segK)
  exact ⟨rows, h, fun x hx => ⟨C16_ball 1 exactEigen exactEigen_exact.sparseLU env segArgs seg_unit segInts.sane segDims seg_eq rows h x hx,
    C17_nonneg _ (.ball _ _) env segArgs segInts.sane segDims (fun i hi => (midpoint2_pos i hi).le) rows h x hx⟩⟩

/-- The draws of `env` are small enough for the sparse Dikin walk with `R = 1` to stay off the boundary. -/
theorem seg_pos (t : ℕ) (x : Fin 2 → ℝ)
    (h : (Walk.sparseBarrier (sparseDikinClass 1) 1 exactEigen (BState.fresh 0)).PosAt env segArgs segDims t x) :
    x ∈ TailPos 2 2 :=
  C55_sparse_dikin_run 1 1 one_pos exactEigen exactEigen_exact.sparseLLTSolve (BState.fresh 0) env segArgs segDims rowOnes_indep
    (by norm_num [segArgs]) midpoint2_pos (fun g => by
      have h : ∀ i : Fin 2, (env.r.gaussian 2 g).1 i ^ 2 = 1 / 4 := draw_sq 2 g
      show (1 : ℝ) ^ 2 / (((2 : ℕ) : ℝ) - ((1 : ℕ) : ℝ)) * ∑ i, (env.r.gaussian 2 g).1 i ^ 2 < 1
      simp only [h]; norm_num) t x h

example : ∃ rows, (Walk.sparseBarrier (sparseDikinClass 1) 1 exactEigen (BState.fresh 0)).run env segArgs = .ok rows ∧
    ∀ x ∈ rows, rowOnes *ᵥ x = (fun _ => 1) ∧ x ∈ TailNonneg 2 2 := by
  obtain ⟨rows, h⟩ := C54_returns (Walk.sparseBarrier (sparseDikinClass 1) 1 exactEigen (BState.fresh 0)) env segArgs
    (.sparseDikin _ _ _ _) segInts segDims (fun _ => segK)
  exact ⟨rows, h, fun x hx => ⟨C16_dikin 1 1 exactEigen (BState.fresh 0) one_pos exactEigen_exact.sparseLLTSolve env segArgs rowOnes_indep
      segInts.sane segDims seg_eq seg_pos rows h x hx,
    C17_nonneg _ (.barrier _ _ _ _) env segArgs segInts.sane segDims (fun i hi => (midpoint2_pos i hi).le) rows h x hx⟩⟩

example : ∃ rows, (Walk.sparseBarrier (sparseDikinClass 1) 1 exactEigen (BState.fresh 0)).run env segArgs = .ok rows ∧
    ∀ x ∈ rows, rowOnes *ᵥ x = (fun _ => 1) := by
  obtain ⟨rows, h⟩ := C54_returns (Walk.sparseBarrier (sparseDikinClass 1) 1 exactEigen (BState.fresh 0)) env segArgs
    (.sparseDikin _ _ _ _) segInts segDims (fun _ => segK)
  exact ⟨rows, h, C16_library exactEigen exactEigen_exact.ldlt exactEigen_exact.sparseLLTSolve 1 one_pos _ (.dikin 1) _ env segArgs
    rowOnes_indep (by norm_num [segArgs]) segInts.sane segDims seg_eq seg_pos rows h⟩

/-! ### C21 – C25: weights on the triangle -/

theorem fresh_good (j : ℝ) (m : ℕ) : GoodStart (BState.fresh j).w m := by
  intro w0 h i
  have h := warmStart_iff.2 h
  rw [warmStart_iff.2 (startsAtOnes_fresh j m)] at h
  cases h; exact one_pos

example : ∃ w : Fin 3 → ℝ, (vaidyaClass exactEigen 1).generateWeight (BState.fresh 0) triX triA triB = .ok (⟨3, w⟩, BState.fresh 0) ∧
    ∑ i, w i = 4 := by
  obtain ⟨w, h, -, -, hs⟩ := C21_vaidya exactEigen exactEigen_exact.inv 1 (BState.fresh 0) triX triA triB triA_indep triX_interior
  exact ⟨w, h, by rw [hs]; norm_num⟩

example : ∃ (w : Fin 3 → ℝ) (t : ℕ), (johnClass exactEigen 1 (1 / 100) 50).generateWeight (BState.fresh 0) triX triA triB =
      .ok (⟨3, w⟩, { BState.fresh 0 with w := ⟨3, w⟩ }) ∧ ∑ i, w i = 3 := by
  obtain ⟨w, t, c, h, -, -, -, -, -, hs, -⟩ := C22_john exactEigen exactEigen_exact.inv 1 (1 / 100) 50 (by norm_num) (BState.fresh 0)
    (startsAtOnes_fresh 0 3) triX triA triB (by norm_num) triA_indep triX_interior
  exact ⟨w, t, h, by rw [hs]; norm_num⟩

example : ∃ (w : Fin 3 → ℝ), (dikinLSClass exactEigen 1 (1 / 100) (1 / 10) 50).generateWeight (BState.fresh 0) triX triA triB =
      .ok (⟨3, w⟩, { BState.fresh 0 with w := ⟨3, w⟩ }) ∧ ∀ i, 1 / 100000 ≤ w i := by
  obtain ⟨w, c, h, -, hp, -⟩ := C23_leeSidford exactEigen exactEigen_exact.inv 1 (1 / 100) (1 / 10) 50 (BState.fresh 0) _
    (startsAtOnes_fresh 0 3) (fun _ => one_pos) triX triA triB triA_indep triX_interior
  exact ⟨w, h, fun i => le_trans (by norm_num) (hp i)⟩

/-- Doubling the coordinates and moving the origin. -/
example : (johnClass exactEigen 1 (1 / 100) 50).generateWeight (BState.fresh 0) (fun _ => 0) (triA * (2 : Matrix (Fin 2) (Fin 2) ℝ))
      (triB - triA *ᵥ triX) =
    (johnClass exactEigen 1 (1 / 100) 50).generateWeight (BState.fresh 0) triX triA triB := by
  have e : (2 : Matrix (Fin 2) (Fin 2) ℝ) *ᵥ (fun _ => 0) + triX = triX := by
    have : (fun _ => 0 : Fin 2 → ℝ) = 0 := rfl
    rw [this, Matrix.mulVec_zero, zero_add]
  have := C25_affine exactEigen exactEigen_exact.inv _ (.john 1 (1 / 100) 50) (BState.fresh 0) (fresh_good 0 3) triA triB triA_indep 2
    (by
      have : (2 : Matrix (Fin 2) (Fin 2) ℝ) = (2 : ℝ) • 1 := by
        ext i j; fin_cases i <;> fin_cases j <;> simp [Matrix.ofNat_apply]
      rw [this, Matrix.det_smul, Matrix.det_one]; norm_num) triX (fun _ => 0) (by rw [e]; exact triX_interior)
  rw [e] at this
  exact this

/-! ### C26, C27: metric and step size along a run -/

/-- The start of a Vaidya run on the triangle: the metric is positive definite there and at the next point tried. -/
example : ∃ (x : Fin 2 → ℝ) (o' : BState ℝ) (g : env.r.G) (H : Matrix (Fin 2) (Fin 2) ℝ) (o1 : BState ℝ),
    (Walk.barrier (vaidyaClass exactEigen 1) exactEigen (BState.fresh 0)).chain env triArgs triDims 0 = .ok (x, o', g) ∧
    generateHessian (vaidyaClass exactEigen 1) o' x triA triB = .ok (H, o1) ∧ H.PosDef ∧
    (∃ Hz o2, generateHessian (vaidyaClass exactEigen 1) o1 (fun _ => 1 / 8) triA triB = .ok (Hz, o2) ∧ Hz.PosDef) ∧
    (vaidyaClass exactEigen 1).distTerm o' = vaidyaConst 1 2 3 := by
  have hint : IsInt (((2 : ℕ) : Int) * (3 : ℕ)) := by norm_num [IsInt, intMin, intMax]
  have hs : (Walk.barrier (vaidyaClass exactEigen 1) exactEigen (BState.fresh 0)).chain env triArgs triDims 0 =
      .ok (triX, { BState.fresh (0 : ℝ) with dist := 1 * 1 / Scalar.sqrt (Scalar.ofInt (((2 : ℕ) : Int) * (3 : ℕ))) },
        env.r.initRng 42 env.rd) := by
    have : Walk.start (.barrier (vaidyaClass exactEigen 1) exactEigen (BState.fresh 0)) env triArgs.A.r (triArgs.x0 triDims)
        triArgs.k triArgs.seed = .ok (triX, { BState.fresh (0 : ℝ) with dist := 1 * 1 / Scalar.sqrt (Scalar.ofInt (((2 : ℕ) : Int) * (3 : ℕ))) },
          env.r.initRng 42 env.rd) := by
      simp only [Walk.start, vaidyaClass, toInt]
      rw [if_pos (show IsInt ((triArgs.A.c : Int) * triArgs.A.r) from hint)]
      rfl
    unfold Walk.chain
    rw [this]; rfl
  have hH := generateHessian_vaidya (E := exactEigen) exactEigen_exact.inv 1
    { BState.fresh (0 : ℝ) with dist := 1 * 1 / Scalar.sqrt (Scalar.ofInt (((2 : ℕ) : Int) * (3 : ℕ))) } triA_indep triX_interior
  have hz : (fun _ => 1 / 8 : Fin 2 → ℝ) ∈ Interior triA triB := by
    intro i
    fin_cases i <;> simp [triA, triB, Matrix.mulVec, dotProduct, Fin.sum_univ_two]
    norm_num
  have hHz := generateHessian_vaidya (E := exactEigen) exactEigen_exact.inv 1
    { BState.fresh (0 : ℝ) with dist := 1 * 1 / Scalar.sqrt (Scalar.ofInt (((2 : ℕ) : Int) * (3 : ℕ))) } triA_indep hz
  have h26 := C26_dense_run exactEigen exactEigen_exact.inv exactEigen_exact.llt _ (.vaidya 1) (BState.fresh 0) env triArgs triDims
    triA_indep (by norm_num [triArgs]) 0 _ _ _ hs triX_interior _ _ hH
  have h27 := C27_dense_run exactEigen _ (BState.fresh 0) env triArgs triDims _ (.vaidya 1) 0 _ _ _ hs
  exact ⟨_, _, _, _, _, hs, hH, h26.2.1, ⟨_, _, hHz, (h26.2.2.2 _ hz _ _ hHz).2.1⟩, h27.1⟩

/-- The same for the sparse Dikin walk on the segment, at every time. -/
example (t : ℕ) : ∃ (x : Fin 2 → ℝ) (o' : BState ℝ) (g : env.r.G) (G : Fin 2 → ℝ) (o1 : BState ℝ),
    (Walk.sparseBarrier (sparseDikinClass 1) 1 exactEigen (BState.fresh 0)).chain env segArgs segDims t = .ok (x, o', g) ∧
    generateG (sparseDikinClass 1) 1 (env.junk 2) o' x rowOnes 2 = .ok (G, o1) ∧ MetricOk 1 2 rowOnes x G ∧
    (sparseDikinClass (1 : ℝ)).distTerm o' = dikinConst 1 1 := by
  obtain ⟨⟨x, o', g⟩, hs⟩ := C54_chain (Walk.sparseBarrier (sparseDikinClass 1) 1 exactEigen (BState.fresh 0)) env segArgs
    (.sparseDikin _ _ _ _) segDims (fun _ => segK) t
  have hx : x ∈ TailPos 2 2 := seg_pos t x ⟨_, hs, rfl⟩
  have hG := generateG_dikin 1 1 (env.junk 2) o' x rowOnes 2
  have h26 := C26_sparse_run exactEigen exactEigen_exact.ldlt 1 one_pos _ (.dikin 1) (BState.fresh 0) env segArgs segDims rowOnes_indep
    (by norm_num [segArgs]) (by norm_num [segArgs]) (by norm_num [segArgs]) t _ _ _ hs hx _ _ hG
  have h27 := C27_sparse_run exactEigen 1 _ (BState.fresh 0) env segArgs segDims segK (by norm_num [segArgs]) _ (.dikin 1) t _ _ _ hs
  exact ⟨x, o', g, _, _, hs, hG, h26.1, h27.1⟩

/-! ### C46, C47: centres -/

example : ∃ x, DenseCenter.getInitialPoint exactGlpk ⟨3, 2, triA⟩ ⟨3, triB⟩ = .ok x ∧ x ∈ Interior triA triB := by
  obtain ⟨x, h, -, -, hi⟩ := C46_bounded exactGlpk exactGlpk_exact ⟨3, 2, triA⟩ triB (by norm_num) ⟨triX, triX_mem⟩ tri_bounded
  exact ⟨x, h, hi ⟨triX, triX_interior⟩⟩

example : ∃ x, SparseCenter.getInitialPoint exactGlpk ⟨1, 2, rowOnes⟩ ⟨1, fun _ => 1⟩ 2 = .ok x ∧ x ∈ TailPos 2 2 := by
  have hmem : midpoint2 ∈ PolyEq rowOnes (fun _ => 1) 2 := ⟨seg_eq, fun i hi => (midpoint2_pos i hi).le⟩
  obtain ⟨x, h, -, -, hi⟩ := C47_bounded exactGlpk exactGlpk_exact ⟨1, 2, rowOnes⟩ (fun _ => 1) 2 (by norm_num) (by norm_num)
    ⟨midpoint2, hmem⟩ ⟨1, by
      intro x hx i
      have h0 := hx.2 0 (by norm_num)
      have h1 := hx.2 1 (by norm_num)
      have he := congrFun hx.1 0
      simp [rowOnes, Matrix.mulVec, dotProduct, Fin.sum_univ_two] at he
      rw [abs_le]
      have : ∀ i : Fin 2, -1 ≤ x i ∧ x i ≤ 1 := by
        intro i; fin_cases i <;> constructor <;> simp <;> linarith
      exact this i⟩
  exact ⟨x, h, hi ⟨midpoint2, hmem, midpoint2_pos⟩⟩

/-! ### C38: the search of the facial reduction, on the segment -/

example : findZ exactGlpk 0 rowOnes (fun _ => 1) 0 = .ok (none, 2) ∨
    ∃ i < 2, findZ exactGlpk 0 rowOnes (fun _ => 1) 0 = .ok (some (rowOnesᵀ *ᵥ exactGlpk.answer rowOnes (fun _ => 1) 0 i), i) := by
  rcases C38_search exactGlpk rowOnes (fun _ => 1) 0 0 (by norm_num) le_rfl (by norm_num) with ⟨i, -, h, -, -, e⟩ | ⟨-, e⟩
  · exact .inr ⟨i, h, e⟩
  · exact .inl e

/-! ### C55: the Dikin ellipsoid of the triangle -/

example : inPolytope (fun _ => 1 / 8 : Fin 2 → ℝ) triA triB = .ok true := by
  refine C55_library exactEigen exactEigen_exact.inv 1 1 1 le_rfl (BState.fresh 0) (startsAtOnes_fresh 0 3) triX triA triB (by norm_num)
    triA_indep triX_interior _ 1 (.inl ⟨rfl, rfl⟩) _ _ (generateHessian_dikin 1 _ triX triA triB) _ ?_
  have e : hessianOf (fun _ => 1) triX triA triB = barrierHess (fun _ => 1) triA triB triX := by
    obtain ⟨w, hw, hH⟩ := generateHessian_ok (generateHessian_dikin 1 (BState.fresh 0) triX triA triB)
    rw [hH]
    rw [C20_weights] at hw
    cases hw; rfl
  rw [e, barrierHess_quad]
  simp [Fin.sum_univ_three, triA, triB, triX, Matrix.mulVec, dotProduct, Fin.sum_univ_two]
  norm_num

end PW.RealToy
