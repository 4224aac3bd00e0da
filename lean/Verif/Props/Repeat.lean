import Verif.Lemmas.Repeat
import Verif.Props.Continue

/-!
# C107: writing every constraint N times is the same as asking for a smaller radius

A repeated constraint does not change the polytope. `BallWalk` and `HitAndRun` do not notice it (C91), but a barrier walk counts it again.
-/

namespace PW
open Matrix MeasureTheory Set
variable {m m' n : ℕ}

/-- Calls whose chains have the same positions return the same rows. -/
theorem run_eq_of_follows {w w' : Walk ℝ} {A : Matrix (Fin m) (Fin n) ℝ} {b : Fin m → ℝ} {A' : Matrix (Fin m') (Fin n) ℝ} {b' : Fin m' → ℝ}
    {e : Env ℝ} [MeasurableSpace e.r.G] {μ : Measure e.r.G} {x : Fin n → ℝ} {niter k burnin thin seed : Int} (hg : GoodInts niter burnin thin)
    (hw : w.isSparse = false) (hw' : w'.isSparse = false) {q q' : ℕ → e.r.G → Fin n → ℝ}
    (hfol : ∀ᵐ g ∂μ, Follows w e (callArgs A b x niter k burnin thin seed) ⟨rfl, rfl⟩ q g)
    (hfol' : ∀ᵐ g ∂μ, Follows w' e (callArgs A' b' x niter k burnin thin seed) ⟨rfl, rfl⟩ q' g)
    (hq : ∀ᵐ g ∂μ, ∀ t, q' t g = q t g) :
    ∀ᵐ g ∂μ, ∃ f0 : ℕ, ∀ f ≥ f0, w'.run ((e.withGen g).withFuel f) (callArgs A' b' x niter k burnin thin seed) =
      w.run ((e.withGen g).withFuel f) (callArgs A b x niter k burnin thin seed) := by
  filter_upwards [rows_follows hfol (fun h => absurd (hw.symm.trans h) Bool.false_ne_true) hg,
    rows_follows hfol' (fun h => absurd (hw'.symm.trans h) Bool.false_ne_true) hg, hq] with g h1 h2 h3
  obtain ⟨f0, rows, hall, hlen, hrow⟩ := h1
  obtain ⟨f0', rows', hall', hlen', hrow'⟩ := h2
  have hll : rows'.length = rows.length := by
    have : (rows'.length : Int) = (rows.length : Int) := hlen'.trans hlen.symm
    exact_mod_cast this
  have hrows : rows' = rows := List.ext_getElem hll fun j hj' hj => (hrow' j hj').trans ((h3 _).trans (hrow j hj).symm)
  refine ⟨max f0 f0', fun f hf => ?_⟩
  exact (hall' f ((le_max_right _ _).trans hf)).trans ((congrArg Out.ok hrows).trans (hall f ((le_max_left _ _).trans hf)).symm)

section
variable (E : Eigen ℝ) (hE : E.Exact) (R : ℝ) (hr : R ≠ 0) (hn : 0 < n) {N : ℕ} (hN : 0 < N) {A : Matrix (Fin m) (Fin n) ℝ} {b : Fin m → ℝ}
  {A' : Matrix (Fin m') (Fin n) ℝ} {b' : Fin m' → ℝ} (h : Repeats N A b A' b')
  (hb : ∃ M, ∀ y ∈ Poly A b, ∀ i, |y i| ≤ M) (e : Env ℝ) [MeasurableSpace e.r.G] (μ : Measure e.r.G) (hs : IdealSource e.r μ)
  (x : Fin n → ℝ) (hx : x ∈ Interior A b) (niter k burnin thin seed : Int) (hg : GoodInts niter burnin thin)
include hE hr hn hN h hb hs hx hg

/-- **C107** (`DikinWalk`): with every constraint written `N` times, a walk of radius `R` returns the very rows that the walk of radius
`R / √N` returns for the original description, for almost every generator state. So the constraints may not be repeated for free: a
description can be made as long, and the walk as slow, as one likes without changing the polytope. -/
theorem C107_dikin (o o' : BState ℝ) : ∀ᵐ g ∂μ,
    (Walk.barrier (dikinClass R) E o).run (e.withGen g) (callArgs A' b' x niter k burnin thin seed) =
      (Walk.barrier (dikinClass (R / √N)) E o').run (e.withGen g) (callArgs A b x niter k burnin thin seed) := by
  have hN' : (0 : ℝ) < N := by exact_mod_cast hN
  have hs' : √(N : ℝ) ≠ 0 := (Real.sqrt_pos.2 hN').ne'
  have hP := h.poly hN
  have hI := h.interior hN
  have hx' : x ∈ Interior A' b' := hI ▸ hx
  have hb' : ∃ M, ∀ y ∈ Poly A' b', ∀ i, |y i| ≤ M := by rw [hP]; exact hb
  have hA := indepCols_of_bounded hb (interior_subset A b hx)
  have hA' := indepCols_of_bounded hb' (interior_subset A' b' hx')
  have hn' : (0 : ℝ) < (n : ℝ) := by exact_mod_cast hn
  have hD : 0 < (R / √N) * (R / √N) / (Scalar.ofInt (n : Int) : ℝ) := by
    rw [rsc_ofInt]
    exact div_pos (mul_self_pos.2 (div_ne_zero hr hs')) (by exact_mod_cast hn)
  have hDD : R * R / (Scalar.ofInt (n : Int) : ℝ) = N * ((R / √N) * (R / √N) / (Scalar.ofInt (n : Int) : ℝ)) := by
    rw [div_mul_div_comm, Real.mul_self_sqrt hN'.le]
    field_simp
  have hD' : 0 < R * R / (Scalar.ofInt (n : Int) : ℝ) := by rw [hDD]; exact mul_pos hN' hD
  have hbase := dense_mhBase hx hb hD (barrierField E hE.llt A b hA (fun _ _ => 1) (fun _ => measurable_const) (fun _ _ _ => one_pos))
  have hbase' := dense_mhBase hx' hb' hD' (barrierField E hE.llt A' b' hA' (fun _ _ => 1) (fun _ => measurable_const) (fun _ _ _ => one_pos))
  have hfol := barrier_follows (dikinClass (R / √N)) E hE.llt hE.lu (lt_of_lt_of_le hn hA.le) hA _ _ _ hbase o' _ rfl rfl e μ hs
      (fun x _ => generateHessian_dikin _ _ x A b) hx niter k burnin thin seed
  have hfol' := barrier_follows (dikinClass R) E hE.llt hE.lu (lt_of_lt_of_le hn hA'.le) hA' _ _ _ hbase' o _ rfl rfl e μ hs
      (fun x _ => generateHessian_dikin R _ x A' b') hx' niter k burnin thin seed
  have hH : ∀ y ∈ Interior A b,
      (barrierField E hE.llt A' b' hA' (fun _ _ => 1) (fun _ => measurable_const) (fun _ _ _ => one_pos)).H y =
        (N : ℝ) • (barrierField E hE.llt A b hA (fun _ _ => 1) (fun _ => measurable_const) (fun _ _ _ => one_pos)).H y := fun y hy => by
    obtain ⟨f, hf, hfA, hfb⟩ := h
    refine (if_pos (hI.symm ▸ hy)).trans (Eq.trans ?_ (congrArg _ (if_pos hy).symm))
    exact Repeats.hessian (w := fun _ => 1) (w' := fun _ => 1) hf hfA hfb (fun _ => rfl) hN y
  have hq := ae_all_iff.2 fun t => hbase.good hs t x hx
  filter_upwards [run_eq_of_follows hg rfl rfl hfol hfol' (MetricField.pos_smul hN' hDD hP hH hq)] with g hg
  obtain ⟨f0, h0⟩ := hg
  exact h0 f0 le_rfl

/-- **C107** (`VaidyaWalk`): here the price of writing every constraint `N` times is only a fourth root, `R / N^(1/4)`: the leverage scores
share the weight of a constraint among its copies, and only the constant of the step size counts them. -/
theorem C107_vaidya (hov : (n : Int) * m' ≤ 2 ^ 31 - 1) (o o' : BState ℝ) : ∀ᵐ g ∂μ,
    (Walk.barrier (vaidyaClass E R) E o).run (e.withGen g) (callArgs A' b' x niter k burnin thin seed) =
      (Walk.barrier (vaidyaClass E (R / √√N)) E o').run (e.withGen g) (callArgs A b x niter k burnin thin seed) := by
  have hN' : (0 : ℝ) < N := by exact_mod_cast hN
  have hs' : √√(N : ℝ) ≠ 0 := (Real.sqrt_pos.2 (Real.sqrt_pos.2 hN')).ne'
  have hP := h.poly hN
  have hI := h.interior hN
  have hx' : x ∈ Interior A' b' := hI ▸ hx
  have hb' : ∃ M, ∀ y ∈ Poly A' b', ∀ i, |y i| ≤ M := by rw [hP]; exact hb
  have hA := indepCols_of_bounded hb (interior_subset A b hx)
  have hA' := indepCols_of_bounded hb' (interior_subset A' b' hx')
  obtain ⟨f, hf, hfA, hfb⟩ := h
  have hmm : m' = N * m := Repeats.card hf
  have hmm' : (m' : ℝ) = N * m := by exact_mod_cast hmm
  have hm : 0 < m := lt_of_lt_of_le hn hA.le
  have hm' : 0 < m' := lt_of_lt_of_le hn hA'.le
  have hmr : (0 : ℝ) < m := by exact_mod_cast hm
  have hle : m ≤ m' := by rw [hmm]; exact Nat.le_mul_of_pos_left m hN
  have hov₀ : (n : Int) * m ≤ 2 ^ 31 - 1 := le_trans (mul_le_mul_of_nonneg_left (by exact_mod_cast hle) (by omega)) hov
  have hp : 0 < (n : Int) * m := mul_pos (by omega) (by omega)
  have hp' : 0 < (n : Int) * m' := mul_pos (by omega) (by omega)
  have h1 : (0 : ℝ) < (((n : Int) * m : Int) : ℝ) := by exact_mod_cast hp
  have h1' : (0 : ℝ) < (((n : Int) * m' : Int) : ℝ) := by exact_mod_cast hp'
  have hD : 0 < (R / √√N) * (R / √√N) / Scalar.sqrt (Scalar.ofInt ((n : Int) * m) : ℝ) := by
    rw [rsc_ofInt, rsc_sqrt]
    exact div_pos (mul_self_pos.2 (div_ne_zero hr hs')) (Real.sqrt_pos.2 h1)
  have hDD : R * R / Scalar.sqrt (Scalar.ofInt ((n : Int) * m') : ℝ) =
      1 * ((R / √√N) * (R / √√N) / Scalar.sqrt (Scalar.ofInt ((n : Int) * m) : ℝ)) := by
    rw [rsc_ofInt, rsc_sqrt, rsc_ofInt, rsc_sqrt, div_mul_div_comm, Real.mul_self_sqrt (Real.sqrt_nonneg _), one_mul, div_div,
      ← Real.sqrt_mul hN'.le]
    congr 2
    push_cast
    rw [hmm']
    ring
  have hD' : 0 < R * R / Scalar.sqrt (Scalar.ofInt ((n : Int) * m') : ℝ) := by rw [hDD, one_mul]; exact hD
  have hbase := dense_mhBase hx hb hD (barrierField E hE.llt A b hA (vaidyaW A b) (measurable_vaidyaW A b) (fun _ hx => vaidyaW_pos hA hn hx))
  have hbase' := dense_mhBase hx' hb' hD'
    (barrierField E hE.llt A' b' hA' (vaidyaW A' b') (measurable_vaidyaW A' b') (fun _ hx => vaidyaW_pos hA' hn hx))
  have hset : ∀ (R : ℝ) (l : ℕ), 0 < (n : Int) * l → (n : Int) * l ≤ 2 ^ 31 - 1 → ∀ o : BState ℝ, (vaidyaClass E R).setDistTerm o n l =
      .ok { o with dist := R * R / Scalar.sqrt (Scalar.ofInt ((n : Int) * l) : ℝ) } := by
    intro R l hl0 hl o
    show (toInt ((n : Int) * l)).bind _ = _
    have : toInt ((n : Int) * l) = .ok ((n : Int) * l) := by
      unfold toInt
      rw [if_pos (by unfold IsInt intMin intMax; constructor <;> omega)]
    rw [this, Out.ok_bind]
  have hfol := barrier_follows (vaidyaClass E (R / √√N)) E hE.llt hE.lu hm hA _ _ _ hbase o' _ (hset _ m hp hov₀ o') rfl e μ hs
      (fun x hx => generateHessian_vaidya hE.inv _ _ hA hx) hx niter k burnin thin seed
  have hfol' := barrier_follows (vaidyaClass E R) E hE.llt hE.lu hm' hA' _ _ _ hbase' o _ (hset _ m' hp' hov o) rfl e μ hs
      (fun x hx => generateHessian_vaidya hE.inv R _ hA' hx) hx' niter k burnin thin seed
  have hH : ∀ y ∈ Interior A b,
      (barrierField E hE.llt A' b' hA' (vaidyaW A' b') (measurable_vaidyaW A' b') (fun _ hx => vaidyaW_pos hA' hn hx)).H y =
        (1 : ℝ) • (barrierField E hE.llt A b hA (vaidyaW A b) (measurable_vaidyaW A b) (fun _ hx => vaidyaW_pos hA hn hx)).H y := fun y hy => by
    refine (if_pos (hI.symm ▸ hy)).trans (Eq.trans ?_ (congrArg _ (if_pos hy).symm))
    refine Repeats.hessian hf hfA hfb (fun j => ?_) hN y
    have hl := Repeats.lev_copy hN hf (M := normals y A b) (M' := normals y A' b') (fun j => by
      funext i
      have h1 : (A' *ᵥ y) j = (A *ᵥ y) (f j) := congrArg (fun r => r ⬝ᵥ y) (hfA j)
      show A' j i / (b' j - (A' *ᵥ y) j) = A (f j) i / (b (f j) - (A *ᵥ y) (f j))
      rw [h1, hfA, hfb]) (normals_indep hy hA) j
    show N * (lev (normals y A' b') j + (n : ℝ) / m') = 1 * (lev (normals y A b) (f j) + (n : ℝ) / m)
    rw [mul_add, hl, hmm', one_mul]
    congr 1
    field_simp
  have hq := ae_all_iff.2 fun t => hbase.good hs t x hx
  filter_upwards [run_eq_of_follows hg rfl rfl hfol hfol' (MetricField.pos_smul one_pos hDD hP hH hq)] with g hg
  obtain ⟨f0, h0⟩ := hg
  exact h0 f0 le_rfl

end

/-! ## The square, every side written four times -/

/-- The sixteen rows: constraint `j / 4` of the square. -/
def boxA4 : Matrix (Fin 16) (Fin 2) ℝ := fun j => boxA ⟨j.val / 4, by omega⟩

theorem boxA4_repeats : Repeats 4 boxA (fun _ => 1) boxA4 (fun _ => 1) :=
  ⟨fun j => ⟨j.val / 4, by omega⟩, by decide, fun _ => rfl, fun _ => rfl⟩

/-- Radius 1 with four copies of each side is radius 1/2 with one. -/
example (x : Fin 2 → ℝ) (hx : x ∈ Interior boxA (fun _ => 1)) : ∀ᵐ g ∂streamLaw,
    (Walk.barrier (dikinClass 1) exactEigen (BState.fresh 0)).run (streamEnv.withGen g) (callArgs boxA4 (fun _ => 1) x 100 0 10 2 7) =
      (Walk.barrier (dikinClass (1 / 2)) exactEigen (BState.fresh 0)).run (streamEnv.withGen g) (callArgs boxA (fun _ => 1) x 100 0 10 2 7) := by
  have h := C107_dikin exactEigen exactEigen_exact 1 one_ne_zero (by decide) (by decide) boxA4_repeats boxA_bdd streamEnv streamLaw streamRng_ideal x
    hx 100 0 10 2 7 (by constructor <;> norm_num [intMax]) (BState.fresh 0) (BState.fresh 0)
  have h2 : √((4 : ℕ) : ℝ) = 2 := by
    rw [show ((4 : ℕ) : ℝ) = 2 * 2 by norm_num]
    exact Real.sqrt_mul_self (by norm_num)
  rw [h2] at h
  exact h

/-- For the Vaidya walk radius 2 with sixteen rows is radius `2 / √2`. -/
example (x : Fin 2 → ℝ) (hx : x ∈ Interior boxA (fun _ => 1)) : ∀ᵐ g ∂streamLaw,
    (Walk.barrier (vaidyaClass exactEigen 2) exactEigen (BState.fresh 0)).run (streamEnv.withGen g) (callArgs boxA4 (fun _ => 1) x 100 0 10 2 7) =
      (Walk.barrier (vaidyaClass exactEigen (2 / √√(4 : ℕ))) exactEigen (BState.fresh 0)).run (streamEnv.withGen g)
        (callArgs boxA (fun _ => 1) x 100 0 10 2 7) :=
  C107_vaidya exactEigen exactEigen_exact 2 two_ne_zero (by decide) (by decide) boxA4_repeats boxA_bdd streamEnv streamLaw streamRng_ideal x
    hx 100 0 10 2 7 (by constructor <;> norm_num [intMax]) (by decide) (BState.fresh 0) (BState.fresh 0)

end PW
