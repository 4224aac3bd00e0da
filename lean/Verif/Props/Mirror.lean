import Verif.Lemmas.Mirror
import Verif.Props.Isometry
import Verif.Props.Shear
import Verif.Props.SameLawExamples

/-!
# C112: mirror images, and runs from the centre of a symmetric polytope

The dense Dikin and Vaidya walks are not affine-invariant (C110), but negating coordinates does not affect them. So on a polytope that is its own mirror image
they, like the geometric walks, make errors to either side with equal probability when they start in the mirror.
-/

namespace PW
open Matrix MeasureTheory Set

section
variable {m n : ℕ} (e : Env ℝ) [MeasurableSpace e.r.G] (μ : Measure e.r.G) (hs : IdealSource e.r μ)
  (e' : Env ℝ) [MeasurableSpace e'.r.G] (μ' : Measure e'.r.G) (hs' : IdealSource e'.r μ')
  {s v : Fin n → ℝ} {π : Equiv.Perm (Fin m)} {A : Matrix (Fin m) (Fin n) ℝ} {b : Fin m → ℝ} {A' : Matrix (Fin m) (Fin n) ℝ} {b' : Fin m → ℝ}
  (h : Mirrored s v π A b A' b')
include hs hs' h

/-- **C112** (`BallWalk`), from any starting point. -/
theorem C112_ball (R : ℝ) (hm : 0 < m) (x : Fin n → ℝ) (k : Int) :
    SameLaw (.ball R) e μ A b x k (.ball R) e' μ' A' b' (mirror s v x) k (mirror s v) := by
  have h1 := C109_ball e μ hs e' μ' hs' (diagonal s) (diag_orth h.sq) v A b A' b' (fun y => by rw [← mirror_eq]; exact h.mem_poly y) R hm hm x k
  rwa [← mirror_eq, ← funext (mirror_eq s v)] at h1

/-- **C112** (`HitAndRun`), from an interior point of a bounded polytope. -/
theorem C112_hitrun (R ERR : ℝ) (hR : R ≠ 0) (hE : 0 < ERR) (hn : 2 ≤ n) (hb : ∃ M, ∀ y ∈ Poly A b, ∀ i, |y i| ≤ M)
    (x : Fin n → ℝ) (hx : x ∈ Interior A b) (k : Int) :
    SameLaw (.hitRun R ERR) e μ A b x k (.hitRun R ERR) e' μ' A' b' (mirror s v x) k (mirror s v) := by
  have h1 := C109_hitrun e μ hs e' μ' hs' (diagonal s) (diag_orth h.sq) v A b A' b' (fun y => by rw [← mirror_eq]; exact h.mem_poly y) R ERR hR hE hn hb x hx
    (by rw [← mirror_eq]; exact (h.mem_interior x).2 hx) k
  rwa [← mirror_eq, ← funext (mirror_eq s v)] at h1

omit hs hs' in
theorem mirror_field (E E' : Eigen ℝ) (hE : E.LltExact) (hE' : E'.LltExact) (hA : IndepCols A) (hA' : IndepCols A') {w w' : (Fin n → ℝ) → Fin m → ℝ}
    (hw : ∀ i, Measurable fun x => w x i) (hw' : ∀ i, Measurable fun x => w' x i) (hpos : ∀ x ∈ Interior A b, ∀ i, 0 < w x i)
    (hpos' : ∀ x ∈ Interior A' b', ∀ i, 0 < w' x i) (hww : ∀ y i, w' (mirror s v y) (π i) = w y i) (y : Fin n → ℝ) :
    (barrierField E' hE' A' b' hA' w' hw' hpos').H (mirror s v y) = diagonal s * (barrierField E hE A b hA w hw hpos).H y * diagonal s := by
  by_cases hy : y ∈ Interior A b
  · refine (if_pos ((h.mem_interior y).2 hy)).trans (Eq.trans ?_ (congrArg (fun M => diagonal s * M * diagonal s) (if_pos hy).symm))
    exact h.hessian y (hww y)
  · refine (if_neg (fun h' => hy ((h.mem_interior y).1 h'))).trans (Eq.trans ?_ (congrArg (fun M => diagonal s * M * diagonal s) (if_neg hy).symm))
    rw [Matrix.mul_one, diag_sq h.sq]

section
variable (E E' : Eigen ℝ) (hE : E.Exact) (hE' : E'.Exact) (R : ℝ) (hr : R ≠ 0) (hn : 0 < n) (hb : ∃ M, ∀ y ∈ Poly A b, ∀ i, |y i| ≤ M)
  (x : Fin n → ℝ) (hx : x ∈ Interior A b) (k : Int)
include hE hE' hr hn hb hx

/-- **C112** (`DikinWalk`), on every bounded polytope. -/
theorem C112_dikin (o o' : BState ℝ) :
    SameLaw (.barrier (dikinClass R) E o) e μ A b x k (.barrier (dikinClass R) E' o') e' μ' A' b' (mirror s v x) k (mirror s v) := by
  have := hs.prob
  have := hs'.prob
  have hx' := (h.mem_interior x).2 hx
  have hb' := h.bounded hb
  have hA := indepCols_of_bounded hb (interior_subset A b hx)
  have hA' := indepCols_of_bounded hb' (interior_subset A' b' hx')
  have hD : 0 < R * R / (Scalar.ofInt (n : Int) : ℝ) := by
    rw [rsc_ofInt]
    exact div_pos (mul_self_pos.2 hr) (by exact_mod_cast hn)
  have g := dense_mhBase hx hb hD (barrierField E hE.llt A b hA (fun _ _ => 1) (fun _ => measurable_const) (fun _ _ _ => one_pos))
  have g' := dense_mhBase hx' hb' hD (barrierField E' hE'.llt A' b' hA' (fun _ _ => 1) (fun _ => measurable_const) (fun _ _ _ => one_pos))
  exact sameLaw_of (measurable_mhNext e.r n (hs.gaussian n).measurable hs.uniform.measurable g.measC g.measP g.measa) (MHBase.drives hs g)
    (measurable_mhNext e'.r n (hs'.gaussian n).measurable hs'.uniform.measurable g'.measC g'.measP g'.measa) (MHBase.drives hs' g')
    (fun x => meas_at (measurable_mhMove g'.measC g'.measP g'.measa) x) (measurable_mirror s v)
    ((stdNormal_flip h.sq).prod (MeasurePreserving.id unitLaw))
    (fun x w => MetricField.move_mirror h.sq v (mirror_field h E E' hE.llt hE'.llt hA hA' _ _ _ _ fun _ _ => rfl) h.mem_poly _ x w)
    (by intro h; cases h) (by intro h; cases h)
    (fun niter burnin thin seed => barrier_follows (dikinClass R) E hE.llt hE.lu (lt_of_lt_of_le hn hA.le) hA _ _ _ g o _ rfl rfl e μ hs
      (fun x _ => generateHessian_dikin R _ x A b) hx niter k burnin thin seed)
    (fun niter burnin thin seed => barrier_follows (dikinClass R) E' hE'.llt hE'.lu (lt_of_lt_of_le hn hA.le) hA' _ _ _ g' o' _ rfl rfl e' μ' hs'
      (fun x _ => generateHessian_dikin R _ x A' b') hx' niter k burnin thin seed)

/-- **C112** (`VaidyaWalk`), on every bounded polytope, when the `int` product `cols * rows` does not overflow. -/
theorem C112_vaidya (hov : (n : Int) * m ≤ 2 ^ 31 - 1) (o o' : BState ℝ) :
    SameLaw (.barrier (vaidyaClass E R) E o) e μ A b x k (.barrier (vaidyaClass E' R) E' o') e' μ' A' b' (mirror s v x) k (mirror s v) := by
  have := hs.prob
  have := hs'.prob
  have hx' := (h.mem_interior x).2 hx
  have hb' := h.bounded hb
  have hA := indepCols_of_bounded hb (interior_subset A b hx)
  have hA' := indepCols_of_bounded hb' (interior_subset A' b' hx')
  have hm : 0 < m := lt_of_lt_of_le hn hA.le
  have hpos : 0 < (n : Int) * m := mul_pos (by omega) (by omega)
  have hD : 0 < R * R / Scalar.sqrt (Scalar.ofInt ((n : Int) * m) : ℝ) := by
    rw [rsc_ofInt, rsc_sqrt]
    have h1 : (0 : ℝ) < (((n : Int) * m : Int) : ℝ) := by exact_mod_cast hpos
    exact div_pos (mul_self_pos.2 hr) (Real.sqrt_pos.2 h1)
  have g := dense_mhBase hx hb hD (barrierField E hE.llt A b hA (vaidyaW A b) (measurable_vaidyaW A b) (fun _ hx => vaidyaW_pos hA hn hx))
  have g' := dense_mhBase hx' hb' hD (barrierField E' hE'.llt A' b' hA' (vaidyaW A' b') (measurable_vaidyaW A' b') (fun _ hx => vaidyaW_pos hA' hn hx))
  have hset : ∀ (E : Eigen ℝ) (o : BState ℝ), (vaidyaClass E R).setDistTerm o n m =
      .ok { o with dist := R * R / Scalar.sqrt (Scalar.ofInt ((n : Int) * m) : ℝ) } := by
    intro E o
    show (toInt ((n : Int) * m)).bind _ = _
    have : toInt ((n : Int) * m) = .ok ((n : Int) * m) := by
      unfold toInt
      rw [if_pos (by unfold IsInt intMin intMax; constructor <;> omega)]
    rw [this, Out.ok_bind]
  exact sameLaw_of (measurable_mhNext e.r n (hs.gaussian n).measurable hs.uniform.measurable g.measC g.measP g.measa) (MHBase.drives hs g)
    (measurable_mhNext e'.r n (hs'.gaussian n).measurable hs'.uniform.measurable g'.measC g'.measP g'.measa) (MHBase.drives hs' g')
    (fun x => meas_at (measurable_mhMove g'.measC g'.measP g'.measa) x) (measurable_mirror s v)
    ((stdNormal_flip h.sq).prod (MeasurePreserving.id unitLaw))
    (fun x w => MetricField.move_mirror h.sq v (mirror_field h E E' hE.llt hE'.llt hA hA' _ _ _ _ fun y i => by
      unfold vaidyaW; rw [h.lev_mirror]) h.mem_poly _ x w)
    (by intro h; cases h) (by intro h; cases h)
    (fun niter burnin thin seed => barrier_follows (vaidyaClass E R) E hE.llt hE.lu hm hA _ _ _ g o _ (hset E o) rfl e μ hs
      (fun x hx => generateHessian_vaidya hE.inv R _ hA hx) hx niter k burnin thin seed)
    (fun niter burnin thin seed => barrier_follows (vaidyaClass E' R) E' hE'.llt hE'.lu hm hA' _ _ _ g' o' _ (hset E' o') rfl e' μ' hs'
      (fun x hx => generateHessian_vaidya hE'.inv R _ hA' hx) hx' niter k burnin thin seed)

end

/-! ## Polytopes that are their own mirror images -/

omit hs hs' h [MeasurableSpace e'.r.G] in
theorem balanced_of {w : Walk ℝ} {x : Fin n → ℝ} {k : Int} (hl : SameLaw w e μ A b x k w e μ A b x k (mirror s v)) (hfix : mirror s v x = x) {j : Fin n}
    (hj : s j = -1) : Balanced w e μ A b x k j (x j) := by
  intro niter burnin thin seed hg L hL hL0 a
  have hv : v j = 2 * x j := by
    have h1 : s j * x j + v j = x j := congrFun hfix j
    rw [hj] at h1; linarith
  have mS : MeasurableSet {p : Fin L → Fin n → ℝ | (∑ i, p i j) / L ≤ x j - a} :=
    measurableSet_le ((Finset.measurable_sum _ fun i _ => (measurable_pi_apply j).comp (measurable_pi_apply i)).div_const _) measurable_const
  rw [hl.rows niter burnin thin seed seed hg L _ mS hL]
  congr 1
  ext p
  show (∑ i, (s j * p i j + v j)) / (L : ℝ) ≤ x j - a ↔ x j + a ≤ (∑ i, p i j) / L
  have hL' : (L : ℝ) ≠ 0 := by exact_mod_cast hL0.ne'
  have e1 : (∑ i, (s j * p i j + v j)) / (L : ℝ) = 2 * x j - (∑ i, p i j) / L := by
    rw [Finset.sum_add_distrib, ← Finset.mul_sum, Finset.sum_const, Finset.card_univ, Fintype.card_fin, hj, hv, nsmul_eq_mul]
    field_simp; ring
  rw [e1]
  constructor <;> intro hh <;> linarith

/-! The polytope is symmetric about the starting point, at least in the coordinates with `s j = -1`, and no number of iterations is assumed. -/

section
omit hs' h [MeasurableSpace e'.r.G]
variable (hsym : Mirrored s v π A b A b) {x : Fin n → ℝ} (hfix : mirror s v x = x) (k : Int) {j : Fin n} (hj : s j = -1)
include hsym hfix hj

/-- **C112** (`BallWalk`), averages. -/
theorem C112_ball_average (R : ℝ) (hm : 0 < m) : Balanced (.ball R) e μ A b x k j (x j) := by
  have h1 := C112_ball e μ hs e μ hs hsym R hm x k
  rw [hfix] at h1
  exact balanced_of e μ h1 hfix hj

/-- **C112** (`HitAndRun`), averages. -/
theorem C112_hitrun_average (R ERR : ℝ) (hR : R ≠ 0) (hE : 0 < ERR) (hn : 2 ≤ n) (hb : ∃ M, ∀ y ∈ Poly A b, ∀ i, |y i| ≤ M) (hx : x ∈ Interior A b) :
    Balanced (.hitRun R ERR) e μ A b x k j (x j) := by
  have h1 := C112_hitrun e μ hs e μ hs hsym R ERR hR hE hn hb x hx k
  rw [hfix] at h1
  exact balanced_of e μ h1 hfix hj

/-- **C112** (`DikinWalk`), averages: the walk may not become uniform (C78), but on a symmetric polytope the averages have no bias. -/
theorem C112_dikin_average (E : Eigen ℝ) (hE : E.Exact) (R : ℝ) (hr : R ≠ 0) (hb : ∃ M, ∀ y ∈ Poly A b, ∀ i, |y i| ≤ M) (hx : x ∈ Interior A b)
    (o : BState ℝ) : Balanced (.barrier (dikinClass R) E o) e μ A b x k j (x j) := by
  have h1 := C112_dikin e μ hs e μ hs hsym E E hE hE R hr j.pos hb x hx k o o
  rw [hfix] at h1
  exact balanced_of e μ h1 hfix hj

/-- **C112** (`VaidyaWalk`), averages. -/
theorem C112_vaidya_average (E : Eigen ℝ) (hE : E.Exact) (R : ℝ) (hr : R ≠ 0) (hb : ∃ M, ∀ y ∈ Poly A b, ∀ i, |y i| ≤ M) (hx : x ∈ Interior A b)
    (hov : (n : Int) * m ≤ 2 ^ 31 - 1) (o : BState ℝ) : Balanced (.barrier (vaidyaClass E R) E o) e μ A b x k j (x j) := by
  have h1 := C112_vaidya e μ hs e μ hs hsym E E hE hE R hr j.pos hb x hx k hov o o
  rw [hfix] at h1
  exact balanced_of e μ h1 hfix hj

end

end

/-! ## A concrete case: the parallelogram `0 ≤ x + y ≤ 1`, `0 ≤ y ≤ 1` is symmetric about `(0, 1/2)`

On it the samples of the Dikin and Vaidya walks do not become uniform (C78), but the averages from the centre are balanced in both coordinates. -/

noncomputable def paraV : Fin 2 → ℝ := ![0, 1]

theorem para_symmetric : Mirrored (fun _ => -1) paraV (finRotate 4 * finRotate 4) paraA paraB paraA paraB where
  sign _ := Or.inr rfl
  mat i j := by fin_cases i <;> fin_cases j <;> simp [paraA, finRotate_apply]
  rhs i := by fin_cases i <;> simp [paraA, paraB, paraV, finRotate_apply, Fin.sum_univ_two]

noncomputable def paraCentre : Fin 2 → ℝ := ![0, 1 / 2]

theorem paraCentre_fix : mirror (fun _ => -1) paraV paraCentre = paraCentre := by
  funext j; fin_cases j <;> simp [mirror, paraV, paraCentre] <;> norm_num

theorem paraCentre_inside : paraCentre ∈ Interior paraA paraB := by
  intro i; rw [para_mulVec]; fin_cases i <;> simp [paraB, paraCentre] <;> norm_num

open PW.RealToy

example := C112_ball_average streamEnv streamLaw streamRng_ideal para_symmetric paraCentre_fix 0 (j := 0) rfl 1 (by decide)
example := C112_hitrun_average streamEnv streamLaw streamRng_ideal para_symmetric paraCentre_fix 0 (j := 1) rfl 1 (1 / 10) one_ne_zero (by norm_num) (by decide)
  para_bounded paraCentre_inside
example := C112_dikin_average streamEnv streamLaw streamRng_ideal para_symmetric paraCentre_fix 0 (j := 0) rfl exactEigen exactEigen_exact 1 one_ne_zero
  para_bounded paraCentre_inside (BState.fresh 0)
example := C112_vaidya_average streamEnv streamLaw streamRng_ideal para_symmetric paraCentre_fix 0 (j := 1) rfl exactEigen exactEigen_exact 1 one_ne_zero
  para_bounded paraCentre_inside (by decide) (BState.fresh 0)

/-- The mirror image of the parallelogram: `0 ≤ y - x ≤ 1`, `0 ≤ y ≤ 1`. -/
theorem para_mirrored : Mirrored ![-1, 1] 0 1 paraA paraB !![-1, 1; 0, 1; 1, -1; 0, -1] paraB where
  sign j := by fin_cases j <;> simp
  mat i j := by fin_cases i <;> fin_cases j <;> simp [paraA]
  rhs i := by simp

example := C112_ball streamEnv streamLaw streamRng_ideal flipEnv streamLaw flipEnv_ideal para_mirrored 1 (by decide) paraCentre 0
example := C112_hitrun streamEnv streamLaw streamRng_ideal flipEnv streamLaw flipEnv_ideal para_mirrored 1 (1 / 10) one_ne_zero (by norm_num) (by decide)
  para_bounded paraCentre paraCentre_inside 0
example := C112_dikin streamEnv streamLaw streamRng_ideal flipEnv streamLaw flipEnv_ideal para_mirrored exactEigen exactEigen exactEigen_exact exactEigen_exact 1
  one_ne_zero (by decide) para_bounded paraCentre paraCentre_inside 0 (BState.fresh 0) (BState.fresh 1)
example := C112_vaidya streamEnv streamLaw streamRng_ideal flipEnv streamLaw flipEnv_ideal para_mirrored exactEigen exactEigen exactEigen_exact exactEigen_exact 1
  one_ne_zero (by decide) para_bounded paraCentre paraCentre_inside 0 (by decide) (BState.fresh 0) (BState.fresh 1)

end PW
