import Verif.Lemmas.SameLaw
import Verif.Props.Continue

/-!
# C108: the law of the samples does not depend on the generator

Any two generators that deliver independent standard normal and uniform draws give the same law, whatever their states and seeds look like.
-/

namespace PW
open Matrix MeasureTheory Set
open scoped ENNReal
variable {m n d : ℕ} (e : Env ℝ) [MeasurableSpace e.r.G] (μ : Measure e.r.G) (hs : IdealSource e.r μ)
  (e' : Env ℝ) [MeasurableSpace e'.r.G] (μ' : Measure e'.r.G) (hs' : IdealSource e'.r μ')
include hs hs'

/-! ## Ball walks -/

/-- **C108** (`BallWalk`), from any starting point. -/
theorem C108_ball (R : ℝ) (A : Matrix (Fin m) (Fin n) ℝ) (b : Fin m → ℝ) (hm : 0 < m) (x : Fin n → ℝ) (k : Int) :
    SameLaw (.ball R) e μ A b x k (.ball R) e' μ' A b x k id := by
  have := hs.prob
  have := hs'.prob
  exact sameLaw_of (measurable_ballNext R e.r μ hs A b) (ball_drives R e.r μ hs A b) (measurable_ballNext R e'.r μ' hs' A b)
    (ball_drives R e'.r μ' hs' A b) (fun x => meas_at (measurable_ballMove (measurableSet_poly A b) _) x) measurable_id (MeasurePreserving.id _)
    (fun _ _ => rfl) (by intro h; cases h) (by intro h; cases h)
    (fun niter burnin thin seed => ae_of_all _ (ball_follows R e A b hm x niter k burnin thin seed))
    (fun niter burnin thin seed => ae_of_all _ (ball_follows R e' A b hm x niter k burnin thin seed))

/-- **C108** (`SparseBallWalk`), from any starting point. -/
theorem C108_sparse_ball (R : ℝ) {E : Eigen ℝ} (hE : E.SparseLUExact) {A : Matrix (Fin m) (Fin n) ℝ} (hA : IndepRows A) (b : Fin m → ℝ) {k : Int}
    (hk : 1 ≤ k ∧ k ≤ n) (x : Fin n → ℝ) : SameLaw (.sparseBall R E) e μ A b x k (.sparseBall R E) e' μ' A b x k id := by
  have := hs.prob
  have := hs'.prob
  exact sameLaw_of (measurable_sparseBallNext R e.r μ hs A k.toNat) (sparseBall_drives R e.r μ hs A k.toNat)
    (measurable_sparseBallNext R e'.r μ' hs' A k.toNat) (sparseBall_drives R e'.r μ' hs' A k.toNat)
    (fun x => meas_at (measurable_sparseBallMove R A k.toNat) x) measurable_id (MeasurePreserving.id _)
    (fun _ _ => rfl) (fun _ => hk) (fun _ => hk)
    (fun niter burnin thin seed => ae_of_all _ (sparseBall_follows R hE e hA b hk x niter burnin thin seed))
    (fun niter burnin thin seed => ae_of_all _ (sparseBall_follows R hE e' hA b hk x niter burnin thin seed))

/-! ## Hit-and-Run -/

theorem ideal_sameLaw {next : (Fin n → ℝ) → (Fin n → ℝ) → ℝ → Fin n → ℝ}
    (hnx : Measurable fun p : (Fin n → ℝ) × (Fin n → ℝ) × ℝ => next p.1 p.2.1 p.2.2) {w : Walk ℝ} {A : Matrix (Fin m) (Fin n) ℝ} {b : Fin m → ℝ} {k : Int}
    (hk : w.isSparse = true → 1 ≤ k ∧ k ≤ n) {x : Fin n → ℝ}
    (hf : ∀ niter burnin thin seed : Int, ∀ᵐ g ∂μ, Follows w e (callArgs A b x niter k burnin thin seed) ⟨rfl, rfl⟩ (idealPos e.r next x) g)
    (hf' : ∀ niter burnin thin seed : Int, ∀ᵐ g ∂μ', Follows w e' (callArgs A b x niter k burnin thin seed) ⟨rfl, rfl⟩ (idealPos e'.r next x) g) :
    SameLaw w e μ A b x k w e' μ' A b x k id := by
  have := hs.prob
  have := hs'.prob
  exact sameLaw_of (f := fun x g => idealStep e.r next (x, g)) (f' := fun x g => idealStep e'.r next (x, g)) (measurable_idealStep hs hnx)
    (ideal_drives hs hnx) (measurable_idealStep hs' hnx) (ideal_drives hs' hnx)
    (fun x => hnx.comp measurable_prodMk_left)
    measurable_id (MeasurePreserving.id _) (fun _ _ => rfl) hk hk hf hf'

/-- **C108** (`HitAndRun`), from an interior point of a bounded polytope. -/
theorem C108_hitrun (R ERR : ℝ) (hR : R ≠ 0) (hE : 0 < ERR) (hn : 2 ≤ n) (A : Matrix (Fin m) (Fin n) ℝ) (b : Fin m → ℝ)
    (hb : ∃ M, ∀ y ∈ Poly A b, ∀ i, |y i| ≤ M) (x : Fin n → ℝ) (hx : x ∈ Interior A b) (k : Int) :
    SameLaw (.hitRun R ERR) e μ A b x k (.hitRun R ERR) e' μ' A b x k id := by
  exact ideal_sameLaw e μ hs e' μ' hs' (measurable_hitRunNext (pos_rows_of_bounded (by omega) hb) R ERR A b) (by intro h; cases h)
    (fun niter burnin thin seed => (hitRun_follows R ERR hR hE e μ hs A b x niter k burnin thin seed hn hx hb).mono fun g h => h.1)
    (fun niter burnin thin seed => (hitRun_follows R ERR hR hE e' μ' hs' A b x niter k burnin thin seed hn hx hb).mono fun g h => h.1)

/-- **C108** (`SparseHitAndRun`), from a relative interior point, when the polytope is not wider than `2^10000` radii (C62). -/
theorem C108_sparse_hitrun (R ERR : ℝ) (hE : 0 < ERR) {E : Eigen ℝ} (hL : E.SparseLUExact) {A : Matrix (Fin m) (Fin n) ℝ} (hA : IndepRows A)
    (hmn : m + 2 ≤ n) (k : Int) (hk : 1 ≤ k ∧ k ≤ n) (b : Fin m → ℝ)
    (hD : ∀ y ∈ PolyEq A b k.toNat, ∀ z ∈ PolyEq A b k.toNat, ∑ i, (y i - z i) ^ 2 < (2 ^ 10000 * |R|) ^ 2)
    (x : Fin n → ℝ) (hxA : A *ᵥ x = b) (hx : x ∈ TailPos n k.toNat) :
    SameLaw (.sparseHitRun R ERR E) e μ A b x k (.sparseHitRun R ERR E) e' μ' A b x k id :=
  ideal_sameLaw e μ hs e' μ' hs' (measurable_sparseHitRunNext hL hA (show 1 ≤ k.toNat by omega) (show k.toNat ≤ n by omega) R ERR) (fun _ => hk)
    (fun niter burnin thin seed => (sparseHitRun_follows R ERR hE hL e μ hs hA hmn b x niter k burnin thin seed hk hxA hx hD).mono fun g h => h.1)
    (fun niter burnin thin seed => (sparseHitRun_follows R ERR hE hL e' μ' hs' hA hmn b x niter k burnin thin seed hk hxA hx hD).mono fun g h => h.1)

/-! ## Barrier walks -/

theorem mh_sameLaw {Y : Type} [MeasurableSpace Y] {C V : Set (Fin n → ℝ)} {l : Measure Y} {c : Y → Fin n → ℝ} {P : (Fin n → ℝ) → (Fin n → ℝ) → Fin n → ℝ}
    {a : (Fin n → ℝ) → (Fin n → ℝ) → ℝ} {prop : Y → (Fin n → ℝ) → Y} {q : Y → Y → ℝ≥0∞} (h : MHBase (stdNormal n) C V l c P a prop q)
    {w w' : Walk ℝ} {A : Matrix (Fin m) (Fin n) ℝ} {b : Fin m → ℝ} {k : Int} (hk : w.isSparse = true → 1 ≤ k ∧ k ≤ n) (hk' : w'.isSparse = true → 1 ≤ k ∧ k ≤ n)
    {x : Fin n → ℝ}
    (hfol : ∀ niter burnin thin seed : Int, ∀ᵐ g ∂μ,
      Follows w e (callArgs A b x niter k burnin thin seed) ⟨rfl, rfl⟩ (posAt (mhNext e.r n C P a) x) g)
    (hfol' : ∀ niter burnin thin seed : Int, ∀ᵐ g ∂μ',
      Follows w' e' (callArgs A b x niter k burnin thin seed) ⟨rfl, rfl⟩ (posAt (mhNext e'.r n C P a) x) g) :
    SameLaw w e μ A b x k w' e' μ' A b x k id := by
  have := hs.prob
  have := hs'.prob
  exact sameLaw_of (measurable_mhNext e.r n (hs.gaussian n).measurable hs.uniform.measurable h.measC h.measP h.measa) (MHBase.drives hs h)
    (measurable_mhNext e'.r n (hs'.gaussian n).measurable hs'.uniform.measurable h.measC h.measP h.measa) (MHBase.drives hs' h)
    (fun x => meas_at (measurable_mhMove h.measC h.measP h.measa) x) measurable_id (MeasurePreserving.id _) (fun _ _ => rfl) hk hk' hfol hfol'

section
variable (E : Eigen ℝ) (hE : E.Exact) (ERR : ℝ) (hR : 0 < ERR) (R : ℝ) (hr : R ≠ 0) {A : Matrix (Fin m) (Fin n) ℝ} (hA : IndepRows A)
  (hmn : m < n) (k : Int) (hk : 1 ≤ k ∧ k ≤ n) (b : Fin m → ℝ) (hb : ∃ M, ∀ y ∈ PolyEq A b k.toNat, ∀ i, |y i| ≤ M)
  (x : Fin n → ℝ) (hxA : A *ᵥ x = b) (hx : x ∈ TailPos n k.toNat)
include hE hR hr hA hmn hk hb hxA hx

/-- **C108** (`SparseDikinWalk`): the second call may be made with the same object or another one of the same radius. -/
theorem C108_sparse_dikin (o o' : BState ℝ) :
    SameLaw (.sparseBarrier (sparseDikinClass R) ERR E o) e μ A b x k (.sparseBarrier (sparseDikinClass R) ERR E o') e' μ' A b x k id := by
  subst hxA
  obtain ⟨d, B, hB⟩ := exists_kernelBasis A
  have hD : 0 < R * R / (Scalar.ofInt ((n : Int) - m) : ℝ) := by
    rw [rsc_ofInt]
    have h1 : (m : ℝ) < n := by exact_mod_cast hmn
    push_cast
    exact div_pos (mul_self_pos.2 hr) (by linarith)
  have hpos : ∀ x ∈ TailPos n k.toNat, ∀ i, 0 < dikinG ERR 0 k.toNat x i := fun x hx i => dikinG_pos hR 0 hx i
  obtain ⟨c, hc⟩ := sparse_mhData hA hD hx hB hb (measurable_dikinG ERR 0 k.toNat) hpos
  have hfol : ∀ (e : Env ℝ) [MeasurableSpace e.r.G] (μ : Measure e.r.G) (hs : IdealSource e.r μ) (o : BState ℝ), ∀ y ∈ relInterior A k.toNat x, ∀ niter burnin thin seed : Int, ∀ᵐ g ∂μ,
      Follows (.sparseBarrier (sparseDikinClass R) ERR E o) e (callArgs A (A *ᵥ x) y niter k burnin thin seed) ⟨rfl, rfl⟩
        (posAt (mhNext e.r n (TailNonneg n k.toNat) (sparseProp A _ (dikinG ERR 0 k.toNat)) (sparseAccept A _ (dikinG ERR 0 k.toNat))) y) g :=
    fun e _ μ hs o y hy niter burnin thin seed => sparseBarrier_follows (sparseDikinClass R) ERR E hE hA hk hpos hc o _ rfl rfl e μ hs
      (fun x _ => by rw [dikinG_junk ERR 0 (e.junk n)]; exact generateG_dikin R ERR (e.junk n) _ x A k.toNat) _ hy niter burnin thin seed
  exact mh_sameLaw e μ hs e' μ' hs' hc.toMHBase (fun _ => hk) (fun _ => hk) (hfol e μ hs o x ⟨hx, rfl⟩) (hfol e' μ' hs' o' x ⟨hx, rfl⟩)

/-- **C108** (`SparseVaidyaWalk`), when the `int` product `k * (cols - rows)` does not overflow. -/
theorem C108_sparse_vaidya (hov : k * ((n : Int) - m) ≤ 2 ^ 31 - 1) (o o' : BState ℝ) :
    SameLaw (.sparseBarrier (sparseVaidyaClass E ERR R) ERR E o) e μ A b x k (.sparseBarrier (sparseVaidyaClass E ERR R) ERR E o') e' μ' A b x k id := by
  subst hxA
  obtain ⟨d, B, hB⟩ := exists_kernelBasis A
  have hpos' : 0 < k * ((n : Int) - m) := mul_pos (by omega) (by omega)
  have hD : 0 < R * R / Scalar.sqrt (Scalar.ofInt (k * ((n : Int) - m)) : ℝ) := by
    rw [rsc_ofInt, rsc_sqrt]
    have h1 : (0 : ℝ) < ((k * ((n : Int) - m) : Int) : ℝ) := by exact_mod_cast hpos'
    exact div_pos (mul_self_pos.2 hr) (Real.sqrt_pos.2 h1)
  have hpos : ∀ x ∈ TailPos n k.toNat, ∀ i, 0 < vaidyaG A ERR 0 k.toNat x i := fun x hx i => vaidyaG_pos hA hmn hR 0 (by omega) hx i
  obtain ⟨c, hc⟩ := sparse_mhData hA hD hx hB hb (measurable_vaidyaG A ERR 0 k.toNat) hpos
  have hset : ∀ o : BState ℝ, (sparseVaidyaClass E ERR R).setDistTerm o ((n : Int) - m) k =
      .ok { o with dist := R * R / Scalar.sqrt (Scalar.ofInt (k * ((n : Int) - m)) : ℝ) } := by
    intro o
    show (toInt (k * ((n : Int) - m))).bind _ = _
    have : toInt (k * ((n : Int) - m)) = .ok (k * ((n : Int) - m)) := by
      unfold toInt
      rw [if_pos (by unfold IsInt intMin intMax; constructor <;> omega)]
    rw [this, Out.ok_bind]
  have hfol := fun (e : Env ℝ) [MeasurableSpace e.r.G] (μ : Measure e.r.G) (hs : IdealSource e.r μ) (o : BState ℝ) y (hy : y ∈ relInterior A k.toNat x) (niter burnin thin seed : Int) =>
    sparseBarrier_follows (sparseVaidyaClass E ERR R) ERR E hE hA hk hpos hc o _ (hset o) rfl e μ hs
      (fun x hx => by
        rw [vaidyaG_junk A ERR 0 (e.junk n)]
        exact generateG_vaidya hE.ldlt R hR (e.junk n) _ hA (by omega) (by omega) hx) (A *ᵥ x) hy niter burnin thin seed
  exact mh_sameLaw e μ hs e' μ' hs' hc.toMHBase (fun _ => hk) (fun _ => hk) (hfol e μ hs o x ⟨hx, rfl⟩) (hfol e' μ' hs' o' x ⟨hx, rfl⟩)

end

section
variable {σ : Type} (cls : SparseBarrierClass ℝ σ) (E : Eigen ℝ) (hE : E.Exact) (ERR : ℝ) (hR : 0 < ERR) {A : Matrix (Fin m) (Fin n) ℝ}
  (hA : IndepRows A) (k : Int) (hk : 1 ≤ k ∧ k ≤ n) {D : ℝ} (hD : 0 < D) {wf : (Fin n → ℝ) → Fin n → ℝ} (hwm : Measurable wf)
  (hwp : ∀ x ∈ TailPos n k.toNat, ∀ i : Fin n, n - k.toNat ≤ i.val → 0 < wf x i)
  (b : Fin m → ℝ) (hb : ∃ M, ∀ y ∈ PolyEq A b k.toNat, ∀ i, |y i| ≤ M)
  (x : Fin n → ℝ) (hxA : A *ᵥ x = b) (hx : x ∈ TailPos n k.toNat)
include hE hR hA hk hD hwm hwp hb hxA hx

/-- **C108** (any subclass of `SparseBarrierWalk` whose weights are a positive function of the point). -/
theorem C108_sparse_user (o o' : σ) (ho : WeightsAre cls o A k D wf) (ho' : WeightsAre cls o' A k D wf) :
    SameLaw (.sparseBarrier cls ERR E o) e μ A b x k (.sparseBarrier cls ERR E o') e' μ' A b x k id := by
  subst hxA
  obtain ⟨d, B, hB⟩ := exists_kernelBasis A
  have hpos : ∀ x ∈ TailPos n k.toNat, ∀ i, 0 < metricG ERR 0 x (wf x) k.toNat i := fun x hx i => metricG_pos hR 0 hx (hwp x hx) i
  have hmeas : ∀ i, Measurable fun x => metricG ERR 0 x (wf x) k.toNat i :=
    measurable_metricG ERR 0 k.toNat (fun i => measurable_pi_apply i) (fun i => (measurable_pi_apply i).comp hwm)
  obtain ⟨c, hc⟩ := sparse_mhData hA hD hx hB hb hmeas hpos
  have hfol : ∀ (e : Env ℝ) [MeasurableSpace e.r.G] (μ : Measure e.r.G) (hs : IdealSource e.r μ) (o), WeightsAre cls o A k D wf → ∀ y ∈ relInterior A k.toNat x, ∀ niter burnin thin seed : Int, ∀ᵐ g ∂μ,
      Follows (.sparseBarrier cls ERR E o) e (callArgs A (A *ᵥ x) y niter k burnin thin seed) ⟨rfl, rfl⟩
        (posAt (mhNext e.r n (TailNonneg n k.toNat) (sparseProp A D fun x => metricG ERR 0 x (wf x) k.toNat)
          (sparseAccept A D fun x => metricG ERR 0 x (wf x) k.toNat)) y) g := by
    intro e _ μ hs o ho y hy niter burnin thin seed
    obtain ⟨o', h1, h2, h3⟩ := ho.weights
    refine sparseBarrier_follows cls ERR E hE hA hk hpos hc o o' h1 h2 e μ hs (fun y hy => ?_) _ hy niter burnin thin seed
    unfold generateG
    rw [h3 _ y hy, Out.ok_bind, dif_pos rfl]
    congr 2
    funext i
    simp only [metricG, generateSlackInverse]
    by_cases h : isTail k.toNat i = true
    · simp only [h, if_true]; rfl
    · simp only [h, Bool.false_eq_true, if_false]
  exact mh_sameLaw e μ hs e' μ' hs' hc.toMHBase (fun _ => hk) (fun _ => hk) (hfol e μ hs o ho x ⟨hx, rfl⟩) (hfol e' μ' hs' o' ho' x ⟨hx, rfl⟩)

end

section
variable (E : Eigen ℝ) (hE : E.Exact) (R : ℝ) (hr : R ≠ 0) (A : Matrix (Fin m) (Fin n) ℝ) (b : Fin m → ℝ) (hn : 0 < n)
  (hb : ∃ M, ∀ y ∈ Poly A b, ∀ i, |y i| ≤ M)
  (x : Fin n → ℝ) (hx : x ∈ Interior A b) (k : Int)
include hE hr hn hb hx

/-- **C108** (`DikinWalk`), on every bounded polytope (the law need not be uniform, C78). -/
theorem C108_dense_dikin (o o' : BState ℝ) : SameLaw (.barrier (dikinClass R) E o) e μ A b x k (.barrier (dikinClass R) E o') e' μ' A b x k id := by
  have hA := indepCols_of_bounded hb (interior_subset A b hx)
  have hD : 0 < R * R / (Scalar.ofInt (n : Int) : ℝ) := by
    rw [rsc_ofInt]
    exact div_pos (mul_self_pos.2 hr) (by exact_mod_cast hn)
  have h := dense_mhBase hx hb hD (barrierField E hE.llt A b hA (fun _ _ => 1) (fun _ => measurable_const) (fun _ _ _ => one_pos))
  have hfol := fun (e : Env ℝ) [MeasurableSpace e.r.G] (μ : Measure e.r.G) (hs : IdealSource e.r μ) (o : BState ℝ) y (hy : y ∈ Interior A b) (niter burnin thin seed : Int) =>
    barrier_follows (dikinClass R) E hE.llt hE.lu (lt_of_lt_of_le hn hA.le) hA _ _ _ h o _ rfl rfl e μ hs
      (fun x _ => generateHessian_dikin R _ x A b) hy niter k burnin thin seed
  exact mh_sameLaw e μ hs e' μ' hs' h (by intro h; cases h) (by intro h; cases h) (hfol e μ hs o x hx) (hfol e' μ' hs' o' x hx)

/-- **C108** (`VaidyaWalk`), on every bounded polytope, when the `int` product `cols * rows` does not overflow. -/
theorem C108_dense_vaidya (hov : (n : Int) * m ≤ 2 ^ 31 - 1) (o o' : BState ℝ) :
    SameLaw (.barrier (vaidyaClass E R) E o) e μ A b x k (.barrier (vaidyaClass E R) E o') e' μ' A b x k id := by
  have hA := indepCols_of_bounded hb (interior_subset A b hx)
  have hm : 0 < m := lt_of_lt_of_le hn hA.le
  have hpos : 0 < (n : Int) * m := mul_pos (by omega) (by omega)
  have hD : 0 < R * R / Scalar.sqrt (Scalar.ofInt ((n : Int) * m) : ℝ) := by
    rw [rsc_ofInt, rsc_sqrt]
    have h1 : (0 : ℝ) < (((n : Int) * m : Int) : ℝ) := by exact_mod_cast hpos
    exact div_pos (mul_self_pos.2 hr) (Real.sqrt_pos.2 h1)
  have h := dense_mhBase hx hb hD (barrierField E hE.llt A b hA (vaidyaW A b) (measurable_vaidyaW A b) (fun _ hx => vaidyaW_pos hA hn hx))
  have hset : ∀ o : BState ℝ, (vaidyaClass E R).setDistTerm o n m = .ok { o with dist := R * R / Scalar.sqrt (Scalar.ofInt ((n : Int) * m) : ℝ) } := by
    intro o
    show (toInt ((n : Int) * m)).bind _ = _
    have : toInt ((n : Int) * m) = .ok ((n : Int) * m) := by
      unfold toInt
      rw [if_pos (by unfold IsInt intMin intMax; constructor <;> omega)]
    rw [this, Out.ok_bind]
  have hfol := fun (e : Env ℝ) [MeasurableSpace e.r.G] (μ : Measure e.r.G) (hs : IdealSource e.r μ) (o : BState ℝ) y (hy : y ∈ Interior A b) (niter burnin thin seed : Int) =>
    barrier_follows (vaidyaClass E R) E hE.llt hE.lu hm hA _ _ _ h o _ (hset o) rfl e μ hs
      (fun x hx => generateHessian_vaidya hE.inv R _ hA hx) hy niter k burnin thin seed
  exact mh_sameLaw e μ hs e' μ' hs' h (by intro h; cases h) (by intro h; cases h) (hfol e μ hs o x hx) (hfol e' μ' hs' o' x hx)

end

end PW
