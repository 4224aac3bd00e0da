import Verif.Spec.Backwards
import Verif.Lemmas.Backwards
import Verif.Props.SameLaw
import Verif.Props.SparseBallConverges
import Verif.Props.DenseBarrierConverges
import Verif.Props.DenseNotUniform

/-!
# C114: runs from a uniformly distributed starting point look the same backwards
-/

namespace PW
open Matrix MeasureTheory Set
open scoped ENNReal
variable {m n d : ℕ}

theorem rowTime_rev {burnin thin : Int} (hb : 0 ≤ burnin) (ht : 1 ≤ thin) {L : ℕ} (i : Fin L) (hL : 0 < L) :
    rowTime burnin thin (Fin.rev i) + rowTime burnin thin i = rowTime burnin thin 0 + rowTime burnin thin (L - 1) := by
  have hi := i.isLt
  have h1 : ∀ j : ℕ, ((rowTime burnin thin j : ℕ) : Int) = burnin + ((j : Int) + 1) * thin := fun j => by
    unfold rowTime
    exact Int.toNat_of_nonneg (by positivity)
  have h2 : ((Fin.rev i : ℕ) : Int) = L - 1 - (i : ℕ) := by rw [Fin.val_rev]; omega
  have h3 : ((L - 1 : ℕ) : Int) = L - 1 := by omega
  have : ((rowTime burnin thin (Fin.rev i) + rowTime burnin thin i : ℕ) : Int) = (rowTime burnin thin 0 + rowTime burnin thin (L - 1) : ℕ) := by
    rw [Nat.cast_add, Nat.cast_add, h1, h1, h1, h1, h2, h3]
    push_cast
    ring
  exact_mod_cast this

theorem sameBackwards_of {W : Type} [MeasurableSpace W] {w : Walk ℝ} {e : Env ℝ} [MeasurableSpace e.r.G] {μ : Measure e.r.G} [IsProbabilityMeasure μ]
    {ν : Measure W} [IsProbabilityMeasure ν] {f : (Fin n → ℝ) → e.r.G → (Fin n → ℝ) × e.r.G} {T : (Fin n → ℝ) → W → Fin n → ℝ}
    {π : Measure (Fin n → ℝ)} [IsFiniteMeasure π]
    (mf : Measurable fun p : (Fin n → ℝ) × e.r.G => f p.1 p.2) (hd : Drives μ ν f T) (hT : Measurable fun p : (Fin n → ℝ) × W => T p.1 p.2)
    (hb : Balance π ν T) {A : Matrix (Fin m) (Fin n) ℝ} {b : Fin m → ℝ} {k : Int} (hk : w.isSparse = true → 1 ≤ k ∧ k ≤ n)
    (hfol : ∀ᵐ x ∂π, ∀ niter burnin thin seed : Int, ∀ᵐ g ∂μ, Follows w e (callArgs A b x niter k burnin thin seed) ⟨rfl, rfl⟩ (posAt f x) g) :
    SameBackwards w e μ A b k π where
  path niter burnin thin seed s S hS := by
    have h := backwards_law (π := π) mf hd hT hb s hS
    refine Eq.trans ?_ (h.symm.trans ?_)
    · refine lintegral_congr_ae (hfol.mono fun x hx => ?_)
      simp only
      rw [pathProb_follows (hx niter burnin thin seed)]
      congr 1
      ext g
      have : (fun i : Fin s => posAt f x (s - 1 - i) g) = fun i : Fin s => posAt f x (Fin.rev i) g := funext fun i => by
        rw [Fin.val_rev]
        congr 1
        omega
      show (fun i : Fin s => posAt f x (s - 1 - i) g) ∈ S ↔ _
      rw [this]
      rfl
    · refine lintegral_congr_ae (hfol.mono fun x hx => ?_)
      simp only
      rw [pathProb_follows (hx niter burnin thin seed)]
      rfl
  rows niter burnin thin seed hg L S hS hL := by
    have e0 : ∀ᵐ x ∂π, ∀ S : Set (Fin L → Fin n → ℝ), rowsProb w e μ (callArgs A b x niter k burnin thin seed) S =
        μ {g | (fun i : Fin L => posAt f x (rowTime burnin thin i) g) ∈ S} := hfol.mono fun x hx S =>
      rowsProb_follows (q := posAt f x) hk (fun niter burnin thin => hx niter burnin thin seed) hg hL S
    rcases Nat.eq_zero_or_pos L with rfl | hpos
    · refine lintegral_congr fun x => ?_
      congr 1
      ext v
      show (fun i => v (Fin.rev i)) ∈ S ↔ v ∈ S
      rw [show (fun i => v (Fin.rev i)) = v from Subsingleton.elim _ _]
    have hrt := fun i : Fin L => rowTime_rev hg.burnin_nonneg hg.thin_pos i hpos
    have hlt : ∀ i : Fin L, rowTime burnin thin i < rowTime burnin thin 0 + rowTime burnin thin (L - 1) + 1 := fun i => by have := hrt i; omega
    have mev : Measurable fun (q : Fin (rowTime burnin thin 0 + rowTime burnin thin (L - 1) + 1) → Fin n → ℝ) (i : Fin L) => q ⟨_, hlt i⟩ :=
      measurable_pi_lambda _ fun i => measurable_pi_apply _
    have h := backwards_law (π := π) mf hd hT hb _ (mev hS)
    refine Eq.trans ?_ (h.symm.trans ?_)
    · refine lintegral_congr_ae (e0.mono fun x hx => ?_)
      simp only
      rw [hx]
      congr 1
      ext g
      show (fun i : Fin L => posAt f x (rowTime burnin thin (Fin.rev i)) g) ∈ S ↔
        (fun i : Fin L => posAt f x (Fin.rev (⟨rowTime burnin thin i, hlt i⟩ : Fin (rowTime burnin thin 0 + rowTime burnin thin (L - 1) + 1))) g) ∈ S
      have : (fun i : Fin L => posAt f x (rowTime burnin thin (Fin.rev i)) g) = fun i : Fin L =>
          posAt f x (Fin.rev (⟨rowTime burnin thin i, hlt i⟩ : Fin (rowTime burnin thin 0 + rowTime burnin thin (L - 1) + 1))) g := funext fun i => by
        rw [Fin.val_rev]
        congr 1
        have := hrt i
        show rowTime burnin thin (Fin.rev i) = rowTime burnin thin 0 + rowTime burnin thin (L - 1) + 1 - (rowTime burnin thin i + 1)
        rw [Fin.val_rev] at this
        rw [Fin.val_rev]
        omega
      rw [this]
    · refine lintegral_congr_ae (e0.mono fun x hx => ?_)
      simp only
      rw [hx]
      rfl

/-- What the theorems below need of a walk: almost every run from almost every starting point follows a chain with detailed balance. -/
inductive RevRun (w : Walk ℝ) (e : Env ℝ) [MeasurableSpace e.r.G] (μ : Measure e.r.G) (A : Matrix (Fin m) (Fin n) ℝ) (b : Fin m → ℝ) (k : Int)
    (π : Measure (Fin n → ℝ)) : Prop
  | mk {W : Type} [MeasurableSpace W] [IsProbabilityMeasure μ] {ν : Measure W} [IsProbabilityMeasure ν]
    {f : (Fin n → ℝ) → e.r.G → (Fin n → ℝ) × e.r.G} {T : (Fin n → ℝ) → W → Fin n → ℝ} [IsFiniteMeasure π]
    (mf : Measurable fun p : (Fin n → ℝ) × e.r.G => f p.1 p.2) (hd : Drives μ ν f T) (hT : Measurable fun p : (Fin n → ℝ) × W => T p.1 p.2)
    (hb : Balance π ν T) (hk : w.isSparse = true → 1 ≤ k ∧ k ≤ n)
    (hfol : ∀ᵐ x ∂π, ∀ niter burnin thin seed : Int, ∀ᵐ g ∂μ, Follows w e (callArgs A b x niter k burnin thin seed) ⟨rfl, rfl⟩ (posAt f x) g) :
    RevRun w e μ A b k π

theorem RevRun.backwards {w : Walk ℝ} {e : Env ℝ} [MeasurableSpace e.r.G] {μ : Measure e.r.G} {A : Matrix (Fin m) (Fin n) ℝ} {b : Fin m → ℝ} {k : Int}
    {π : Measure (Fin n → ℝ)} (h : RevRun w e μ A b k π) : SameBackwards w e μ A b k π := by
  obtain ⟨mf, hd, hT, hb, hk, hfol⟩ := h
  exact sameBackwards_of mf hd hT hb hk hfol

theorem MHBase.ae_mem {X Y Ξ : Type} [MeasurableSpace X] [MeasurableSpace Y] [MeasurableSpace Ξ] {N : Measure Ξ} {C V : Set X} {l : Measure Y} {c : Y → X}
    {P : X → Ξ → X} {a : X → X → ℝ} {prop : Y → Ξ → Y} {q : Y → Y → ℝ≥0∞} (h : MHBase N C V l c P a prop q) : ∀ᵐ x ∂(mhTarget C l c), x ∈ V := by
  unfold mhTarget
  rw [ae_map_iff (p := fun x => x ∈ V) h.measc.aemeasurable h.measV, ← Measure.restrict_congr_set h.null]
  exact ae_restrict_mem (h.measc h.measV)

theorem mh_revRun {Y : Type} [MeasurableSpace Y] {C V : Set (Fin n → ℝ)} {l : Measure Y} [SFinite l] {c : Y → Fin n → ℝ}
    {P : (Fin n → ℝ) → (Fin n → ℝ) → Fin n → ℝ} {a : (Fin n → ℝ) → (Fin n → ℝ) → ℝ} {prop : Y → (Fin n → ℝ) → Y} {q : Y → Y → ℝ≥0∞}
    (h : MHData (stdNormal n) C V l c P a prop q) {w : Walk ℝ} {e : Env ℝ} [MeasurableSpace e.r.G] {μ : Measure e.r.G} (hs : IdealSource e.r μ)
    {A : Matrix (Fin m) (Fin n) ℝ} {b : Fin m → ℝ} {k : Int} (hk : w.isSparse = true → 1 ≤ k ∧ k ≤ n)
    (hfol : ∀ x ∈ V, ∀ niter burnin thin seed : Int, ∀ᵐ g ∂μ,
      Follows w e (callArgs A b x niter k burnin thin seed) ⟨rfl, rfl⟩ (posAt (mhNext e.r n C P a) x) g) :
    RevRun w e μ A b k (mhTarget C l c) := by
  have := hs.prob
  have := hs.probN n
  have hfin : IsFiniteMeasure (mhTarget C l c) := by
    unfold mhTarget
    have : IsFiniteMeasure (l.restrict (c ⁻¹' C)) := ⟨by rw [Measure.restrict_apply_univ]; exact lt_top_iff_ne_top.2 h.mass⟩
    infer_instance
  have hb : Balance (mhTarget C l c) ((stdNormal n).prod unitLaw) (mhMove C P a) := by
    have := balance_smul (l (c ⁻¹' C)) h.balance
    unfold mhProb at this
    rwa [smul_smul, ENNReal.mul_inv_cancel h.mass0 h.mass, one_smul] at this
  exact RevRun.mk (measurable_mhNext e.r n (hs.gaussian n).measurable hs.uniform.measurable h.measC h.measP h.measa) (MHBase.drives hs h.toMHBase)
    (measurable_mhMove h.measC h.measP h.measa) hb hk (h.toMHBase.ae_mem.mono fun x hx => hfol x hx)

/-! ## Ball walks -/

section
variable (e : Env ℝ) [MeasurableSpace e.r.G] (μ : Measure e.r.G) (hs : IdealSource e.r μ)
include hs

theorem rev_ball (R : ℝ) (A : Matrix (Fin m) (Fin n) ℝ) (b : Fin m → ℝ) (hm : 0 < m) (hb : ∃ M, ∀ y ∈ Poly A b, ∀ i, |y i| ≤ M) (k : Int) :
    RevRun (.ball R) e μ A b k (uniformOn A b) := by
  have := hs.prob
  have := hs.probN n
  have : IsFiniteMeasure (uniformOn A b) := ⟨by unfold uniformOn; rw [Measure.restrict_apply_univ]; exact volume_poly_lt_top hb⟩
  exact RevRun.mk (measurable_ballNext R e.r μ hs A b) (ball_drives R e.r μ hs A b) (measurable_ballMove (measurableSet_poly A b) _)
    (ball_balance R A b) (by intro h; cases h)
    (ae_of_all _ fun x niter burnin thin seed => ae_of_all _ (ball_follows R e A b hm x niter k burnin thin seed))

/-- **C114** (`BallWalk`), on a bounded polytope. -/
theorem C114_ball (R : ℝ) (A : Matrix (Fin m) (Fin n) ℝ) (b : Fin m → ℝ) (hm : 0 < m) (hb : ∃ M, ∀ y ∈ Poly A b, ∀ i, |y i| ≤ M) (k : Int) :
    SameBackwards (.ball R) e μ A b k (uniformOn A b) :=
  (rev_ball e μ hs R A b hm hb k).backwards

theorem rev_sparse_ball (R : ℝ) {E : Eigen ℝ} (hE : E.SparseLUExact) {A : Matrix (Fin m) (Fin n) ℝ} (hA : IndepRows A) {k : Int}
    (hk : 1 ≤ k ∧ k ≤ n) (x₀ : Fin n → ℝ) (hx₀ : x₀ ∈ TailPos n k.toNat) (hb : ∃ M, ∀ y ∈ PolyEq A (A *ᵥ x₀) k.toNat, ∀ i, |y i| ≤ M)
    {B : Matrix (Fin n) (Fin d) ℝ} (hB : IsKernelBasis A B) :
    RevRun (.sparseBall R E) e μ A (A *ᵥ x₀) k (uniformOnEq x₀ B k.toNat) := by
  have := hs.prob
  have := hs.probN n
  have hfin : IsFiniteMeasure (uniformOnEq x₀ B k.toNat) := by
    unfold uniformOnEq
    have : IsFiniteMeasure ((volume : Measure (Fin d → ℝ)).restrict {u : Fin d → ℝ | chart x₀ B u ∈ TailNonneg n k.toNat}) :=
      ⟨by rw [Measure.restrict_apply_univ]; exact lt_top_iff_ne_top.2 (chart_mass hB hx₀ hb).2⟩
    infer_instance
  exact RevRun.mk (measurable_sparseBallNext R e.r μ hs A k.toNat) (sparseBall_drives R e.r μ hs A k.toNat)
    (measurable_sparseBallMove R A k.toNat) (sparseBall_balance R hA (by omega) (by omega) x₀ hB)
    (fun _ => hk) (ae_of_all _ fun x niter burnin thin seed => ae_of_all _ (sparseBall_follows R hE e hA _ hk x niter burnin thin seed))

/-- **C114** (`SparseBallWalk`), on a bounded polytope. -/
theorem C114_sparse_ball (R : ℝ) {E : Eigen ℝ} (hE : E.SparseLUExact) {A : Matrix (Fin m) (Fin n) ℝ} (hA : IndepRows A) {k : Int}
    (hk : 1 ≤ k ∧ k ≤ n) (x₀ : Fin n → ℝ) (hx₀ : x₀ ∈ TailPos n k.toNat) (hb : ∃ M, ∀ y ∈ PolyEq A (A *ᵥ x₀) k.toNat, ∀ i, |y i| ≤ M)
    {B : Matrix (Fin n) (Fin d) ℝ} (hB : IsKernelBasis A B) :
    SameBackwards (.sparseBall R E) e μ A (A *ᵥ x₀) k (uniformOnEq x₀ B k.toNat) :=
  (rev_sparse_ball e μ hs R hE hA hk x₀ hx₀ hb hB).backwards

/-! ## Barrier walks -/

section
variable (E : Eigen ℝ) (hE : E.Exact) (ERR : ℝ) (hR : 0 < ERR) (R : ℝ) (hr : R ≠ 0) {A : Matrix (Fin m) (Fin n) ℝ} (hA : IndepRows A)
  (hmn : m < n) (k : Int) (hk : 1 ≤ k ∧ k ≤ n) (x₀ : Fin n → ℝ) (hx₀ : x₀ ∈ TailPos n k.toNat)
  (hb : ∃ M, ∀ y ∈ PolyEq A (A *ᵥ x₀) k.toNat, ∀ i, |y i| ≤ M) {B : Matrix (Fin n) (Fin d) ℝ} (hB : IsKernelBasis A B)
include hE hR hr hA hmn hk hx₀ hb hB

theorem rev_sparse_dikin (o : BState ℝ) :
    RevRun (.sparseBarrier (sparseDikinClass R) ERR E o) e μ A (A *ᵥ x₀) k (uniformOnEq x₀ B k.toNat) := by
  have hD : 0 < R * R / (Scalar.ofInt ((n : Int) - m) : ℝ) := by
    rw [rsc_ofInt]
    have h1 : (m : ℝ) < n := by exact_mod_cast hmn
    push_cast
    exact div_pos (mul_self_pos.2 hr) (by linarith)
  have hpos : ∀ x ∈ TailPos n k.toNat, ∀ i, 0 < dikinG ERR 0 k.toNat x i := fun x hx i => dikinG_pos hR 0 hx i
  obtain ⟨c, hc⟩ := sparse_mhData hA hD hx₀ hB hb (measurable_dikinG ERR 0 k.toNat) hpos
  exact mh_revRun hc hs (fun _ => hk) fun y hy niter burnin thin seed =>
    sparseBarrier_follows (sparseDikinClass R) ERR E hE hA hk hpos hc o _ rfl rfl e μ hs
      (fun x _ => by rw [dikinG_junk ERR 0 (e.junk n)]; exact generateG_dikin R ERR (e.junk n) _ x A k.toNat) _ hy niter burnin thin seed

/-- **C114** (`SparseDikinWalk`). -/
theorem C114_sparse_dikin (o : BState ℝ) :
    SameBackwards (.sparseBarrier (sparseDikinClass R) ERR E o) e μ A (A *ᵥ x₀) k (uniformOnEq x₀ B k.toNat) :=
  (rev_sparse_dikin e μ hs E hE ERR hR R hr hA hmn k hk x₀ hx₀ hb hB o).backwards

theorem rev_sparse_vaidya (hov : k * ((n : Int) - m) ≤ 2 ^ 31 - 1) (o : BState ℝ) :
    RevRun (.sparseBarrier (sparseVaidyaClass E ERR R) ERR E o) e μ A (A *ᵥ x₀) k (uniformOnEq x₀ B k.toNat) := by
  have hpos' : 0 < k * ((n : Int) - m) := mul_pos (by omega) (by omega)
  have hD : 0 < R * R / Scalar.sqrt (Scalar.ofInt (k * ((n : Int) - m)) : ℝ) := by
    rw [rsc_ofInt, rsc_sqrt]
    have h1 : (0 : ℝ) < ((k * ((n : Int) - m) : Int) : ℝ) := by exact_mod_cast hpos'
    exact div_pos (mul_self_pos.2 hr) (Real.sqrt_pos.2 h1)
  have hpos : ∀ x ∈ TailPos n k.toNat, ∀ i, 0 < vaidyaG A ERR 0 k.toNat x i := fun x hx i => vaidyaG_pos hA hmn hR 0 (by omega) hx i
  obtain ⟨c, hc⟩ := sparse_mhData hA hD hx₀ hB hb (measurable_vaidyaG A ERR 0 k.toNat) hpos
  have hset : (sparseVaidyaClass E ERR R).setDistTerm o ((n : Int) - m) k =
      .ok { o with dist := R * R / Scalar.sqrt (Scalar.ofInt (k * ((n : Int) - m)) : ℝ) } := by
    show (toInt (k * ((n : Int) - m))).bind _ = _
    have : toInt (k * ((n : Int) - m)) = .ok (k * ((n : Int) - m)) := by
      unfold toInt
      rw [if_pos (by unfold IsInt intMin intMax; constructor <;> omega)]
    rw [this, Out.ok_bind]
  exact mh_revRun hc hs (fun _ => hk) fun y hy niter burnin thin seed =>
    sparseBarrier_follows (sparseVaidyaClass E ERR R) ERR E hE hA hk hpos hc o _ hset rfl e μ hs
      (fun x hx => by
        rw [vaidyaG_junk A ERR 0 (e.junk n)]
        exact generateG_vaidya hE.ldlt R hR (e.junk n) _ hA (by omega) (by omega) hx) (A *ᵥ x₀) hy niter burnin thin seed

/-- **C114** (`SparseVaidyaWalk`), when the `int` product `k * (cols - rows)` does not overflow. -/
theorem C114_sparse_vaidya (hov : k * ((n : Int) - m) ≤ 2 ^ 31 - 1) (o : BState ℝ) :
    SameBackwards (.sparseBarrier (sparseVaidyaClass E ERR R) ERR E o) e μ A (A *ᵥ x₀) k (uniformOnEq x₀ B k.toNat) :=
  (rev_sparse_vaidya e μ hs E hE ERR hR R hr hA hmn k hk x₀ hx₀ hb hB hov o).backwards

end

theorem rev_dense_dikin_axis (E : Eigen ℝ) (hE : E.Exact) (R : ℝ) (hr : R ≠ 0) {A : Matrix (Fin m) (Fin n) ℝ} {b : Fin m → ℝ} (hn : 0 < n)
    (hax : AxisAligned A) (hb : ∃ M, ∀ y ∈ Poly A b, ∀ i, |y i| ≤ M) (hne : (Interior A b).Nonempty) (k : Int) (o : BState ℝ) :
    RevRun (.barrier (dikinClass R) E o) e μ A b k (uniformOn A b) := by
  obtain ⟨x₀, hx₀⟩ := hne
  have hA := indepCols_of_bounded hb (interior_subset A b hx₀)
  have hD : 0 < R * R / (Scalar.ofInt (n : Int) : ℝ) := by
    rw [rsc_ofInt]
    exact div_pos (mul_self_pos.2 hr) (by exact_mod_cast hn)
  have h := dense_mhData hx₀ hb hD (barrierField E hE.llt A b hA (fun _ _ => 1) (fun _ => measurable_const) (fun _ _ _ => one_pos))
    ((defect_iff E hE.llt A b hA (fun _ _ => 1) (fun _ => measurable_const) (fun _ _ _ => one_pos)).2
      fun _ _ _ _ _ _ hCx hCz => by rw [hax.defect hCx, hax.defect hCz])
  rw [uniformOn_eq_mhTarget]
  exact mh_revRun h hs (by intro h; cases h) fun y hy niter burnin thin seed =>
    barrier_follows (dikinClass R) E hE.llt hE.lu (lt_of_lt_of_le hn hA.le) hA _ _ _ h.toMHBase o _ rfl rfl e μ hs
      (fun x _ => generateHessian_dikin R _ x A b) hy niter k burnin thin seed

/-- **C114** (`DikinWalk`, if all constraints bound a coordinate; for other polytopes C35 and C78 show that it may fail). -/
theorem C114_dense_dikin_axis (E : Eigen ℝ) (hE : E.Exact) (R : ℝ) (hr : R ≠ 0) {A : Matrix (Fin m) (Fin n) ℝ} {b : Fin m → ℝ} (hn : 0 < n)
    (hax : AxisAligned A) (hb : ∃ M, ∀ y ∈ Poly A b, ∀ i, |y i| ≤ M) (hne : (Interior A b).Nonempty) (k : Int) (o : BState ℝ) :
    SameBackwards (.barrier (dikinClass R) E o) e μ A b k (uniformOn A b) :=
  (rev_dense_dikin_axis e μ hs E hE R hr hn hax hb hne k o).backwards

theorem rev_dense_vaidya_axis (E : Eigen ℝ) (hE : E.Exact) (R : ℝ) (hr : R ≠ 0) {A : Matrix (Fin m) (Fin n) ℝ} {b : Fin m → ℝ} (hn : 0 < n)
    (hax : AxisAligned A) (hb : ∃ M, ∀ y ∈ Poly A b, ∀ i, |y i| ≤ M) (hne : (Interior A b).Nonempty) (hov : (n : Int) * m ≤ 2 ^ 31 - 1) (k : Int)
    (o : BState ℝ) : RevRun (.barrier (vaidyaClass E R) E o) e μ A b k (uniformOn A b) := by
  obtain ⟨x₀, hx₀⟩ := hne
  have hA := indepCols_of_bounded hb (interior_subset A b hx₀)
  have hm : 0 < m := lt_of_lt_of_le hn hA.le
  have hpos : 0 < (n : Int) * m := mul_pos (by omega) (by omega)
  have hD : 0 < R * R / Scalar.sqrt (Scalar.ofInt ((n : Int) * m) : ℝ) := by
    rw [rsc_ofInt, rsc_sqrt]
    have h1 : (0 : ℝ) < (((n : Int) * m : Int) : ℝ) := by exact_mod_cast hpos
    exact div_pos (mul_self_pos.2 hr) (Real.sqrt_pos.2 h1)
  have h := dense_mhData hx₀ hb hD (barrierField E hE.llt A b hA (vaidyaW A b) (measurable_vaidyaW A b) (fun _ hx => vaidyaW_pos hA hn hx))
    ((defect_iff E hE.llt A b hA (vaidyaW A b) (measurable_vaidyaW A b) (fun _ hx => vaidyaW_pos hA hn hx)).2
      fun _ _ _ _ _ _ hCx hCz => by rw [hax.defect hCx, hax.defect hCz])
  have hset : (vaidyaClass E R).setDistTerm o n m = .ok { o with dist := R * R / Scalar.sqrt (Scalar.ofInt ((n : Int) * m) : ℝ) } := by
    show (toInt ((n : Int) * m)).bind _ = _
    have : toInt ((n : Int) * m) = .ok ((n : Int) * m) := by
      unfold toInt
      rw [if_pos (by unfold IsInt intMin intMax; constructor <;> omega)]
    rw [this, Out.ok_bind]
  rw [uniformOn_eq_mhTarget]
  exact mh_revRun h hs (by intro h; cases h) fun y hy niter burnin thin seed =>
    barrier_follows (vaidyaClass E R) E hE.llt hE.lu hm hA _ _ _ h.toMHBase o _ hset rfl e μ hs
      (fun x hx => generateHessian_vaidya hE.inv R _ hA hx) hy niter k burnin thin seed

/-- **C114** (`VaidyaWalk`, if all constraints bound a coordinate and the `int` product `cols * rows` does not overflow). -/
theorem C114_dense_vaidya_axis (E : Eigen ℝ) (hE : E.Exact) (R : ℝ) (hr : R ≠ 0) {A : Matrix (Fin m) (Fin n) ℝ} {b : Fin m → ℝ} (hn : 0 < n)
    (hax : AxisAligned A) (hb : ∃ M, ∀ y ∈ Poly A b, ∀ i, |y i| ≤ M) (hne : (Interior A b).Nonempty) (hov : (n : Int) * m ≤ 2 ^ 31 - 1) (k : Int)
    (o : BState ℝ) : SameBackwards (.barrier (vaidyaClass E R) E o) e μ A b k (uniformOn A b) :=
  (rev_dense_vaidya_axis e μ hs E hE R hr hn hax hb hne hov k o).backwards

end

/-- Runs that look the same backwards come from an iteration with detailed balance. -/
theorem reversible_of_backwards {W σ : Type} [MeasurableSpace W] {w : Walk ℝ} {e : Env ℝ} [MeasurableSpace e.r.G] {μ : Measure e.r.G} [IsProbabilityMeasure μ]
    {ν : Measure W} {f : (Fin n → ℝ) → e.r.G → (Fin n → ℝ) × e.r.G} {T : (Fin n → ℝ) → W → Fin n → ℝ} {π : Measure (Fin n → ℝ)}
    {start : (Fin n → ℝ) → e.r.G → σ} {pos : σ → Fin n → ℝ} {step : σ → Out σ} (hk : StepKernel π μ ν start step f T)
    (hpos : ∀ x g, pos (start x g) = x) {A : Matrix (Fin m) (Fin n) ℝ} {b : Fin m → ℝ} {k : Int}
    (hfol : ∀ᵐ x ∂π, ∀ niter burnin thin seed : Int, ∀ᵐ g ∂μ, Follows w e (callArgs A b x niter k burnin thin seed) ⟨rfl, rfl⟩ (posAt f x) g)
    (h : SameBackwards w e μ A b k π) : Reversible π μ start pos step := by
  have key : ∀ U U' : Set (Fin n → ℝ), MeasurableSet U → ∫⁻ x in U, stepProb μ start pos step x U' ∂π =
      ∫⁻ x, pathProb w e μ (callArgs A b x 0 k 0 1 0) ⟨rfl, rfl⟩ {p | p 0 ∈ U ∧ p 1 ∈ U'} ∂π := by
    intro U U' hU
    rw [← lintegral_indicator hU]
    refine lintegral_congr_ae ?_
    filter_upwards [hfol, Measure.ae_ae_of_ae_prod hk.step_eq] with x hx hst
    rw [pathProb_follows (hx 0 0 1 0)]
    by_cases hxU : x ∈ U
    · rw [indicator_of_mem hxU]
      refine measure_congr ?_
      filter_upwards [hst] with g hg
      refine propext ⟨?_, fun hh => ⟨_, hg, by rw [hpos]; exact hh.2⟩⟩
      rintro ⟨s, hs', hs⟩
      refine ⟨hxU, ?_⟩
      rw [hg, Out.ok.injEq] at hs'
      rw [← hs', hpos] at hs
      exact hs
    · rw [indicator_of_notMem hxU]
      have : {g | (fun t => posAt f x t g) ∈ {p : ℕ → Fin n → ℝ | p 0 ∈ U ∧ p 1 ∈ U'}} = ∅ := by
        ext g
        exact ⟨fun hh => hxU hh.1, fun hh => hh.elim⟩
      rw [this, measure_empty]
  intro U U' hU hU'
  rw [key U U' hU, key U' U hU']
  have hm : MeasurableSet {q : Fin 2 → Fin n → ℝ | q 0 ∈ U' ∧ q 1 ∈ U} :=
    ((measurable_pi_apply (0 : Fin 2)) hU').inter ((measurable_pi_apply (1 : Fin 2)) hU)
  refine Eq.trans ?_ (h.path 0 0 1 0 2 _ hm)
  refine lintegral_congr fun x => ?_
  congr 1
  ext p
  exact and_comm

/-- **C114 is false** for the dense Dikin walk on a parallelogram: a run from a uniformly distributed point does not look the same backwards, whatever the
radius. (There the law of its position does not even stay uniform, C78.) -/
theorem C114_dense_dikin_not (e : Env ℝ) [MeasurableSpace e.r.G] (μ : Measure e.r.G) (hs : IdealSource e.r μ) (E : Eigen ℝ) (hE : E.Exact) (R : ℝ)
    (hr : R ≠ 0) (k : Int) (o : BState ℝ) :
    ¬ SameBackwards (.barrier (dikinClass R) E o) e μ paraA paraB k (uniformOn paraA paraB) := by
  intro h
  have := hs.prob
  have hD : 0 < R * R / (Scalar.ofInt ((2 : ℕ) : Int) : ℝ) := by
    rw [rsc_ofInt]
    exact div_pos (mul_self_pos.2 hr) (by norm_num)
  have hz : (![0, 1 / 2] : Fin 2 → ℝ) ∈ Interior paraA paraB := by
    rw [para_interior]; simp; norm_num
  have hb := dense_mhBase hz para_bounded hD (barrierField E hE.llt paraA paraB para_indep (fun _ _ => 1) (fun _ => measurable_const) (fun _ _ _ => one_pos))
  have hk := denseBarrier_kernel (dikinClass R) E hE.llt hE.lu e.r μ hs paraA paraB (by norm_num) para_indep
    { o with dist := R * R / (Scalar.ofInt ((2 : ℕ) : Int) : ℝ) } hD _ hz (fun _ _ => 1) (fun _ => measurable_const) (fun _ _ _ => one_pos)
    (fun x _ => generateHessian_dikin R _ x paraA paraB)
  refine C35_dikin_not_reversible E hE e.r μ hs R { o with dist := R * R / (Scalar.ofInt ((2 : ℕ) : Int) : ℝ) } hD
    (reversible_of_backwards hk (fun _ _ => rfl) ?_ h)
  rw [uniformOn_eq_mhTarget]
  refine hb.ae_mem.mono fun y hy niter burnin thin seed => ?_
  exact barrier_follows (dikinClass R) E hE.llt hE.lu (by norm_num) para_indep _ _ _ hb o _ rfl rfl e μ hs
    (fun x _ => generateHessian_dikin R _ x paraA paraB) hy niter k burnin thin seed

/-! ## Examples -/

/-- On the simplex. -/
example (o : BState ℝ) : SameBackwards (.sparseBarrier (sparseDikinClass 1) 1 exactEigen o) streamEnv streamLaw ones3 (ones3 *ᵥ fun _ => 1 / 3) 3
    (uniformOnEq (fun _ => 1 / 3) simplexBasis ((3 : Int).toNat)) :=
  C114_sparse_dikin streamEnv streamLaw streamRng_ideal exactEigen exactEigen_exact 1 one_pos 1 one_ne_zero ones3_indep (by decide) 3 (by decide) _
    (by intro i _; show (0 : ℝ) < 1 / 3; norm_num) (by rw [simplex_start]; exact simplex_bdd) ones3_kernel o

/-- On the square: two barrier walks. -/
example (o : BState ℝ) : SameBackwards (.barrier (dikinClass 1) exactEigen o) streamEnv streamLaw boxA (fun _ => 1) 0 (uniformOn boxA fun _ => 1) ∧
    SameBackwards (.barrier (vaidyaClass exactEigen 1) exactEigen o) streamEnv streamLaw boxA (fun _ => 1) 0 (uniformOn boxA fun _ => 1) := by
  have hne : (Interior boxA fun _ => 1).Nonempty :=
    ⟨fun _ => 0, fun i => by rw [show (fun _ => (0 : ℝ)) = (0 : Fin 2 → ℝ) from rfl, Matrix.mulVec_zero]; exact zero_lt_one⟩
  exact ⟨C114_dense_dikin_axis streamEnv streamLaw streamRng_ideal exactEigen exactEigen_exact 1 one_ne_zero (by decide) boxA_axis boxA_bdd hne 0 o,
    C114_dense_vaidya_axis streamEnv streamLaw streamRng_ideal exactEigen exactEigen_exact 1 one_ne_zero (by decide) boxA_axis boxA_bdd hne (by decide) 0 o⟩

/-- On the square. -/
example : SameBackwards (.ball 1) streamEnv streamLaw boxA (fun _ => 1) 0 (uniformOn boxA fun _ => 1) :=
  C114_ball streamEnv streamLaw streamRng_ideal 1 boxA (fun _ => 1) (by decide) boxA_bdd 0

end PW
