import Verif.Lemmas.WalkErgodic
import Verif.Props.SparseBarrierLaw
import Verif.Props.HitRunAverages

/-!
# C64, C65: the sparse Dikin and Vaidya walks converge to the uniform distribution, and so do averages over their samples
-/

namespace PW
open Matrix MeasureTheory Set
open scoped ENNReal
variable {m n d : ℕ}

theorem uniformOnEq_eq_mhTarget (x₀ : Fin n → ℝ) (B : Matrix (Fin n) (Fin d) ℝ) (k : ℕ) :
    uniformOnEq x₀ B k = mhTarget (TailNonneg n k) volume (chart x₀ B) := rfl

/-- The mass of a bounded polytope is finite and positive. -/
theorem chart_mass {A : Matrix (Fin m) (Fin n) ℝ} {B : Matrix (Fin n) (Fin d) ℝ} (hB : IsKernelBasis A B) {x₀ : Fin n → ℝ} {k : ℕ}
    (hx₀ : x₀ ∈ TailPos n k) (hb : ∃ M, ∀ y ∈ PolyEq A (A *ᵥ x₀) k, ∀ i, |y i| ≤ M) :
    volume (chart x₀ B ⁻¹' TailNonneg n k) ≠ 0 ∧ volume (chart x₀ B ⁻¹' TailNonneg n k) ≠ ⊤ := by
  have hchA : ∀ u, A *ᵥ chart x₀ B u = A *ᵥ x₀ := fun u => by
    show A *ᵥ (x₀ + B *ᵥ u) = _
    rw [Matrix.mulVec_add, Matrix.mulVec_mulVec, hB.mul_zero, Matrix.zero_mulVec, add_zero]
  constructor
  · have hcc : Continuous (chart x₀ B) := by
      unfold chart
      exact continuous_const.add (Continuous.matrix_mulVec continuous_const continuous_id)
    have ho : IsOpen (chart x₀ B ⁻¹' TailPos n k) := (isOpen_tailPos n k).preimage hcc
    refine (lt_of_lt_of_le (ho.measure_pos volume ⟨0, ?_⟩) (measure_mono (preimage_mono (tailPos_subset n k)))).ne'
    show x₀ + B *ᵥ 0 ∈ TailPos n k
    rw [Matrix.mulVec_zero, add_zero]; exact hx₀
  · refine (lt_of_le_of_lt (measure_mono fun u hu => ?_) (volume_chart_thicken_lt_top hB x₀ hb 1)).ne
    exact ⟨chart x₀ B u, ⟨hchA u, hu⟩, by simp⟩

/-- A sparse barrier walk with a positive diagonal metric is a Metropolis-Hastings chain with positive densities. -/
theorem sparse_mhData_of {A : Matrix (Fin m) (Fin n) ℝ} (hA : IndepRows A) {k : ℕ} {D : ℝ} (hD : 0 < D) {x₀ : Fin n → ℝ}
    (hx₀ : x₀ ∈ TailPos n k) {B : Matrix (Fin n) (Fin d) ℝ} (hB : IsKernelBasis A B)
    (hb : ∃ M, ∀ y ∈ PolyEq A (A *ᵥ x₀) k, ∀ i, |y i| ≤ M) {Gf : (Fin n → ℝ) → Fin n → ℝ} (hGm : ∀ i, Measurable fun x => Gf x i)
    (hGpos : ∀ x ∈ TailPos n k, ∀ i, 0 < Gf x i) {c : ℝ} (hc : 0 < c)
    (hdens : ∀ G : Fin n → ℝ, (∀ i, 0 < G i) → ∀ x₀ u v, gaussDensity ((1 / D) • (Bᵀ * diagonal G * B)) u v =
      c * Real.exp (kerLogDens A D G (chart x₀ B u) (chart x₀ B v))) :
    MHData (stdNormal n) (TailNonneg n k) (relInterior A k x₀) volume (chart x₀ B) (sparseProp A D Gf) (sparseAccept A D Gf)
      (sparseCoordProp A D Gf x₀ B) (sparseCoordDens A D Gf x₀ B c) := by
  obtain ⟨hm0, hmt⟩ := chart_mass hB hx₀ hb
  exact {
    measC := measurableSet_tailNonneg n k
    measV := measurableSet_relInterior A k x₀
    measc := measurable_chart x₀ B
    sub := fun x hx => tailPos_subset n k hx.1
    range := fun x hx => by
      obtain ⟨u, hu⟩ := hB.span (x - x₀) (by rw [Matrix.mulVec_sub, hx.2, sub_self])
      exact ⟨u, by show x₀ + B *ᵥ u = x; rw [hu]; abel⟩
    null := by rw [chart_relInterior hB]; exact tail_boundary_null hx₀ B
    measP := measurable_sparseProp A _ hGm
    measa := measurable_sparseAccept A _ hGm
    a0 := fun x z => lt_min one_pos (Real.exp_pos _)
    a1 := fun x z => min_le_left _ _
    measprop := fun u _ => measurable_sparseCoordProp u
    lift := fun u hu ξ => sparseCoordProp_lift hA hB hGpos hu ξ
    measq := measurable_sparseCoordDens hGm c
    law := fun u hu => sparseCoordProp_law hA hD hB hGpos hdens hu
    bal := fun u v _ _ => sparseCoord_balance hc u v
    pos := fun u v _ => by
      unfold sparseCoordDens
      rw [ne_eq, ENNReal.ofReal_eq_zero, not_le]
      exact mul_pos hc (Real.exp_pos _)
    mass0 := hm0
    mass := hmt }

/-- The constant of the densities, whatever it is. -/
theorem sparse_mhData {A : Matrix (Fin m) (Fin n) ℝ} (hA : IndepRows A) {k : ℕ} {D : ℝ} (hD : 0 < D) {x₀ : Fin n → ℝ}
    (hx₀ : x₀ ∈ TailPos n k) {B : Matrix (Fin n) (Fin d) ℝ} (hB : IsKernelBasis A B)
    (hb : ∃ M, ∀ y ∈ PolyEq A (A *ᵥ x₀) k, ∀ i, |y i| ≤ M) {Gf : (Fin n → ℝ) → Fin n → ℝ} (hGm : ∀ i, Measurable fun x => Gf x i)
    (hGpos : ∀ x ∈ TailPos n k, ∀ i, 0 < Gf x i) :
    ∃ c, MHData (stdNormal n) (TailNonneg n k) (relInterior A k x₀) volume (chart x₀ B) (sparseProp A D Gf) (sparseAccept A D Gf)
      (sparseCoordProp A D Gf x₀ B) (sparseCoordDens A D Gf x₀ B c) := by
  obtain ⟨c, hc, hdens⟩ := gaussDensity_kernel hA hB hD
  exact ⟨c, sparse_mhData_of hA hD hx₀ hB hb hGm hGpos hc hdens⟩

/-- The chain of a call follows the Metropolis-Hastings chain, almost surely. -/
theorem sparseBarrier_follows {σ : Type} (cls : SparseBarrierClass ℝ σ) (ERR : ℝ) (E : Eigen ℝ) (hE : E.Exact)
    {A : Matrix (Fin m) (Fin n) ℝ} (hA : IndepRows A) {k : Int} (hk : 1 ≤ k ∧ k ≤ n) {D : ℝ} {x₀ : Fin n → ℝ}
    {B : Matrix (Fin n) (Fin d) ℝ} {Gf : (Fin n → ℝ) → Fin n → ℝ} (hGpos : ∀ x ∈ TailPos n k.toNat, ∀ i, 0 < Gf x i) {c : ℝ}
    (h : MHData (stdNormal n) (TailNonneg n k.toNat) (relInterior A k.toNat x₀) volume (chart x₀ B) (sparseProp A D Gf) (sparseAccept A D Gf)
      (sparseCoordProp A D Gf x₀ B) (sparseCoordDens A D Gf x₀ B c))
    (o o' : σ) (ho : cls.setDistTerm o ((n : Int) - m) k = .ok o') (hD : cls.distTerm o' = D)
    (e : Env ℝ) [MeasurableSpace e.r.G] (μ : Measure e.r.G) (hs : IdealSource e.r μ)
    (hG : ∀ x ∈ TailPos n k.toNat, generateG cls ERR (e.junk n) o' x A k.toNat = .ok (Gf x, o')) (b : Fin m → ℝ) {x : Fin n → ℝ}
    (hx : x ∈ relInterior A k.toNat x₀) (niter burnin thin seed : Int) :
    ∀ᵐ g ∂μ, Follows (.sparseBarrier cls ERR E o) e (callArgs A b x niter k burnin thin seed) ⟨rfl, rfl⟩
      (posAt (mhNext e.r n (TailNonneg n k.toNat) (sparseProp A D Gf) (sparseAccept A D Gf)) x) g := by
  subst hD
  have hit := h.iter_ae hs (start := fun x g => (x, o', g)) (step := SparseBarrier.step cls ERR E e.r (e.junk n) A k.toNat)
    (fun x hx g hg => sparseBarrier_step_next cls ERR E hE.sparseLLTSolve hE.sparseLLTL hE.sparseLU e.r (e.junk n) A hA k.toNat (by omega)
      (by omega) o' x₀ Gf hGpos hG x hx g hg) hx
  filter_upwards [hit] with g hg t
  obtain ⟨-, g', hg'⟩ := hg t
  refine ⟨0, fun f _ => ⟨(_, o', g'), ?_, rfl⟩⟩
  have h1 : (Walk.sparseBarrier cls ERR E o).chain ((e.withGen g).withFuel f) (callArgs A b x niter k burnin thin seed) ⟨rfl, rfl⟩ t =
      ((cls.setDistTerm o ((n : Int) - m) k).bind fun o =>
        (.ok (x, o, (e.withGen g).r.initRng seed (e.withGen g).rd) : Out ((Fin n → ℝ) × σ × e.r.G))).bind
        (iter (SparseBarrier.step cls ERR E (e.withGen g).r (e.junk n) A k.toNat) t) := rfl
  rw [h1, ho, Out.ok_bind, Out.ok_bind, withGen_init]
  exact (congrArg (fun s => iter s t (x, o', g)) (withGen_sparseBarrierStep cls ERR E e g (e.junk n) A k.toNat)).trans hg'

theorem dikinG_junk (ERR : ℝ) (j j' : Fin n → ℝ) (k : ℕ) : dikinG ERR j k = dikinG ERR j' k := by
  funext x i
  simp only [dikinG, metricG, generateSlackInverse]
  by_cases h : isTail k i = true
  · simp only [h, if_true]
  · simp only [h, Bool.false_eq_true, if_false]

theorem vaidyaG_junk (A : Matrix (Fin m) (Fin n) ℝ) (ERR : ℝ) (j j' : Fin n → ℝ) (k : ℕ) : vaidyaG A ERR j k = vaidyaG A ERR j' k := by
  funext x i
  simp only [vaidyaG, metricG, generateSlackInverse]
  by_cases h : isTail k i = true
  · simp only [h, if_true]
  · simp only [h, Bool.false_eq_true, if_false]

section
variable (E : Eigen ℝ) (hE : E.Exact) (ERR : ℝ) (hR : 0 < ERR) (R : ℝ) (hr : R ≠ 0) {A : Matrix (Fin m) (Fin n) ℝ} (hA : IndepRows A)
  (hmn : m < n) (k : Int) (hk : 1 ≤ k ∧ k ≤ n) (b : Fin m → ℝ) (hb : ∃ M, ∀ y ∈ PolyEq A b k.toNat, ∀ i, |y i| ≤ M) (x₀ : Fin n → ℝ)
  (hx₀A : A *ᵥ x₀ = b) (hx₀ : x₀ ∈ TailPos n k.toNat) (B : Matrix (Fin n) (Fin d) ℝ) (hB : IsKernelBasis A B)
  (x : Fin n → ℝ) (hxA : A *ᵥ x = b) (hx : x ∈ TailPos n k.toNat)
include hE hR hr hA hmn hk hb hx₀A hx₀ hB hxA hx

/-- The sparse Dikin walk as a Metropolis-Hastings chain. -/
theorem dikin_mh : ∃ D c, MHData (stdNormal n) (TailNonneg n k.toNat) (relInterior A k.toNat x₀) volume (chart x₀ B)
      (sparseProp A D (dikinG ERR 0 k.toNat)) (sparseAccept A D (dikinG ERR 0 k.toNat)) (sparseCoordProp A D (dikinG ERR 0 k.toNat) x₀ B)
      (sparseCoordDens A D (dikinG ERR 0 k.toNat) x₀ B c) ∧ x ∈ relInterior A k.toNat x₀ ∧
    ∀ (o : BState ℝ) (e : Env ℝ) [MeasurableSpace e.r.G] (μ : Measure e.r.G), IdealSource e.r μ → ∀ niter burnin thin seed : Int,
      ∀ᵐ g ∂μ, Follows (.sparseBarrier (sparseDikinClass R) ERR E o) e (callArgs A b x niter k burnin thin seed) ⟨rfl, rfl⟩
        (posAt (mhNext e.r n (TailNonneg n k.toNat) (sparseProp A D (dikinG ERR 0 k.toNat)) (sparseAccept A D (dikinG ERR 0 k.toNat))) x) g := by
  subst hx₀A
  have hD : 0 < R * R / (Scalar.ofInt ((n : Int) - m) : ℝ) := by
    rw [rsc_ofInt]
    have h1 : (m : ℝ) < n := by exact_mod_cast hmn
    push_cast
    exact div_pos (mul_self_pos.2 hr) (by linarith)
  have hpos : ∀ x ∈ TailPos n k.toNat, ∀ i, 0 < dikinG ERR 0 k.toNat x i := fun x hx i => dikinG_pos hR 0 hx i
  obtain ⟨c, hc⟩ := sparse_mhData hA hD hx₀ hB hb (measurable_dikinG ERR 0 k.toNat) hpos
  refine ⟨_, c, hc, ⟨hx, hxA⟩, fun o e _ μ hs niter burnin thin seed => ?_⟩
  exact sparseBarrier_follows (sparseDikinClass R) ERR E hE hA hk hpos hc o _ rfl rfl e μ hs
    (fun x _ => by rw [dikinG_junk ERR 0 (e.junk n)]; exact generateG_dikin R ERR (e.junk n) _ x A k.toNat) _ ⟨hx, hxA⟩ niter burnin thin seed

/-- The sparse Vaidya walk as a Metropolis-Hastings chain. -/
theorem vaidya_mh (hov : k * ((n : Int) - m) ≤ 2 ^ 31 - 1) :
    ∃ D c, MHData (stdNormal n) (TailNonneg n k.toNat) (relInterior A k.toNat x₀) volume (chart x₀ B)
      (sparseProp A D (vaidyaG A ERR 0 k.toNat)) (sparseAccept A D (vaidyaG A ERR 0 k.toNat)) (sparseCoordProp A D (vaidyaG A ERR 0 k.toNat) x₀ B)
      (sparseCoordDens A D (vaidyaG A ERR 0 k.toNat) x₀ B c) ∧ x ∈ relInterior A k.toNat x₀ ∧
    ∀ (o : BState ℝ) (e : Env ℝ) [MeasurableSpace e.r.G] (μ : Measure e.r.G), IdealSource e.r μ → ∀ niter burnin thin seed : Int,
      ∀ᵐ g ∂μ, Follows (.sparseBarrier (sparseVaidyaClass E ERR R) ERR E o) e (callArgs A b x niter k burnin thin seed) ⟨rfl, rfl⟩
        (posAt (mhNext e.r n (TailNonneg n k.toNat) (sparseProp A D (vaidyaG A ERR 0 k.toNat)) (sparseAccept A D (vaidyaG A ERR 0 k.toNat))) x)
        g := by
  subst hx₀A
  have hpos' : 0 < k * ((n : Int) - m) := mul_pos (by omega) (by omega)
  have hD : 0 < R * R / Scalar.sqrt (Scalar.ofInt (k * ((n : Int) - m)) : ℝ) := by
    rw [rsc_ofInt, rsc_sqrt]
    have h1 : (0 : ℝ) < ((k * ((n : Int) - m) : Int) : ℝ) := by exact_mod_cast hpos'
    exact div_pos (mul_self_pos.2 hr) (Real.sqrt_pos.2 h1)
  have hpos : ∀ x ∈ TailPos n k.toNat, ∀ i, 0 < vaidyaG A ERR 0 k.toNat x i := fun x hx i => vaidyaG_pos hA hmn hR 0 (by omega) hx i
  obtain ⟨c, hc⟩ := sparse_mhData hA hD hx₀ hB hb (measurable_vaidyaG A ERR 0 k.toNat) hpos
  refine ⟨_, c, hc, ⟨hx, hxA⟩, fun o e _ μ hs niter burnin thin seed => ?_⟩
  refine sparseBarrier_follows (sparseVaidyaClass E ERR R) ERR E hE hA hk hpos hc o
    { o with dist := R * R / Scalar.sqrt (Scalar.ofInt (k * ((n : Int) - m)) : ℝ) } ?_ rfl e μ hs
    (fun x hx => by
      rw [vaidyaG_junk A ERR 0 (e.junk n)]
      exact generateG_vaidya hE.ldlt R hR (e.junk n) _ hA (by omega) (by omega) hx) _ ⟨hx, hxA⟩ niter burnin thin seed
  show (toInt (k * ((n : Int) - m))).bind _ = _
  have : toInt (k * ((n : Int) - m)) = .ok (k * ((n : Int) - m)) := by
    unfold toInt
    rw [if_pos (by unfold IsInt intMin intMax; constructor <;> omega)]
  rw [this, Out.ok_bind]

/-- **C64** (`SparseDikinWalk`): on a bounded polytope `{A x = b, last k coordinates ≥ 0}`, from any starting point in its relative interior,
after enough iterations the walk falls in every region `T` with a probability within `ε` of the share of `T`, and so does every row recorded then, for
`SparseDikinWalk` of any radius. How many iterations is independent of the seed, of the burn-in and the thinning, and of what the walk object did before. -/
theorem C64_dikin (ε : ℝ) (hε : 0 < ε) : ∃ t₀ : ℕ, ∀ (o : BState ℝ) (e : Env ℝ) [MeasurableSpace e.r.G] (μ : Measure e.r.G),
    IdealSource e.r μ → ∀ seed : Int, ∀ t ≥ t₀,
      LawWithin (.sparseBarrier (sparseDikinClass R) ERR E o) e μ A b x k seed (uniformOnEq x₀ B k.toNat) t ε := by
  obtain ⟨D, c, h, hxV, hfol⟩ := dikin_mh E hE ERR hR R hr hA hmn k hk b hb x₀ hx₀A hx₀ B hB x hxA hx
  obtain ⟨t₀, ht₀⟩ := h.rows (m := m) hxV hε
  exact ⟨t₀, fun o e _ μ hs seed t ht =>
    ht₀ _ e μ hs A b k seed (fun _ => hk) (fun niter burnin thin => hfol o e μ hs niter burnin thin seed) t ht⟩

/-- **C64** (`SparseVaidyaWalk`): the same, when the `int` product `k * (cols - rows)` does not overflow. -/
theorem C64_vaidya (hov : k * ((n : Int) - m) ≤ 2 ^ 31 - 1) (ε : ℝ) (hε : 0 < ε) :
    ∃ t₀ : ℕ, ∀ (o : BState ℝ) (e : Env ℝ) [MeasurableSpace e.r.G] (μ : Measure e.r.G),
    IdealSource e.r μ → ∀ seed : Int, ∀ t ≥ t₀,
      LawWithin (.sparseBarrier (sparseVaidyaClass E ERR R) ERR E o) e μ A b x k seed (uniformOnEq x₀ B k.toNat) t ε := by
  obtain ⟨D, c, h, hxV, hfol⟩ := vaidya_mh E hE ERR hR R hr hA hmn k hk b hb x₀ hx₀A hx₀ B hB x hxA hx hov
  obtain ⟨t₀, ht₀⟩ := h.rows (m := m) hxV hε
  exact ⟨t₀, fun o e _ μ hs seed t ht =>
    ht₀ _ e μ hs A b k seed (fun _ => hk) (fun niter burnin thin => hfol o e μ hs niter burnin thin seed) t ht⟩

/-- **C65** (`SparseDikinWalk`): for every bounded measurable `φ`, over enough positions (and over the rows of every call that returns so many) the mean
of `φ` is within `ε` of its mean over the polytope, with probability at least `1 - δ`, with or without burn-in, for any thinning. -/
theorem C65_dikin (φ : (Fin n → ℝ) → ℝ) (hφ : Measurable φ) (M : ℝ) (hM : 0 < M) (hφM : ∀ y ∈ PolyEq A b k.toNat, |φ y| ≤ M) (ε δ : ℝ)
    (hε : 0 < ε) (hδ : 0 < δ) : ∃ L₀ : ℕ, ∀ (o : BState ℝ) (e : Env ℝ) [MeasurableSpace e.r.G] (μ : Measure e.r.G),
    IdealSource e.r μ → ∀ seed : Int, ∀ L ≥ L₀,
      MeanWithin (.sparseBarrier (sparseDikinClass R) ERR E o) e μ A b x k seed φ (average (uniformOnEq x₀ B k.toNat) φ) L ε δ := by
  obtain ⟨D, c, h, hxV, hfol⟩ := dikin_mh E hE ERR hR R hr hA hmn k hk b hb x₀ hx₀A hx₀ B hB x hxA hx
  obtain ⟨L₀, hL₀⟩ := h.averages (m := m) hxV hφ hM (fun y hy => hφM y ⟨hy.2.trans hx₀A, tailPos_subset _ _ hy.1⟩) hε hδ
  exact ⟨L₀, fun o e _ μ hs seed L hL =>
    hL₀ _ e μ hs A b k seed (fun _ => hk) (fun niter burnin thin => hfol o e μ hs niter burnin thin seed) L hL⟩

/-- **C65** (`SparseVaidyaWalk`). -/
theorem C65_vaidya (hov : k * ((n : Int) - m) ≤ 2 ^ 31 - 1) (φ : (Fin n → ℝ) → ℝ) (hφ : Measurable φ) (M : ℝ) (hM : 0 < M)
    (hφM : ∀ y ∈ PolyEq A b k.toNat, |φ y| ≤ M) (ε δ : ℝ) (hε : 0 < ε) (hδ : 0 < δ) :
    ∃ L₀ : ℕ, ∀ (o : BState ℝ) (e : Env ℝ) [MeasurableSpace e.r.G] (μ : Measure e.r.G),
    IdealSource e.r μ → ∀ seed : Int, ∀ L ≥ L₀,
      MeanWithin (.sparseBarrier (sparseVaidyaClass E ERR R) ERR E o) e μ A b x k seed φ (average (uniformOnEq x₀ B k.toNat) φ) L ε δ := by
  obtain ⟨D, c, h, hxV, hfol⟩ := vaidya_mh E hE ERR hR R hr hA hmn k hk b hb x₀ hx₀A hx₀ B hB x hxA hx hov
  obtain ⟨L₀, hL₀⟩ := h.averages (m := m) hxV hφ hM (fun y hy => hφM y ⟨hy.2.trans hx₀A, tailPos_subset _ _ hy.1⟩) hε hδ
  exact ⟨L₀, fun o e _ μ hs seed L hL =>
    hL₀ _ e μ hs A b k seed (fun _ => hk) (fun niter burnin thin => hfol o e μ hs niter burnin thin seed) L hL⟩

end

/-! ## The simplex -/

theorem simplex_bdd : ∃ M, ∀ y ∈ PolyEq ones3 (fun _ => 1) (3 : Int).toNat, ∀ i, |y i| ≤ M :=
  ⟨1, fun y hy i => by have := simplex_box y hy i; exact abs_le.2 ⟨by linarith [this.1], this.2⟩⟩

/-- On the simplex: the region `x₁ ≤ 1/2`. -/
example (ε : ℝ) (hε : 0 < ε) (x : Fin 3 → ℝ) (hxA : ones3 *ᵥ x = fun _ => 1) (hx : x ∈ TailPos 3 3) :
    ∃ t₀ : ℕ, ∀ t ≥ t₀,
      |(pathProb (.sparseBarrier (sparseDikinClass (1 / 2)) 1 exactEigen (BState.fresh 0)) streamEnv streamLaw
        (callArgs ones3 (fun _ => 1) x 100 3 0 1 7) ⟨rfl, rfl⟩ {p | p t (0 : Fin 3) ≤ 1 / 2}).toReal -
          share (uniformOnEq (fun _ => 1 / 3) simplexBasis 3) {y | y (0 : Fin 3) ≤ 1 / 2}| ≤ ε := by
  obtain ⟨t₀, h⟩ := C64_dikin exactEigen exactEigen_exact 1 one_pos (1 / 2) (by norm_num) ones3_indep (by decide) 3 ⟨by decide, by decide⟩
    (fun _ => 1) simplex_bdd (fun _ => 1 / 3) simplex_start (by intro i _; show (0 : ℝ) < 1 / 3; norm_num) simplexBasis ones3_kernel x hxA hx ε hε
  exact ⟨t₀, fun t ht => (h (BState.fresh 0) streamEnv streamLaw streamRng_ideal 7 t ht 100 0 1 _
    (measurableSet_le (measurable_pi_apply (0 : Fin 3)) measurable_const)).1⟩

/-- On the simplex: the mean of the first coordinate over `L` successive positions, with the Vaidya walk. -/
example (ε δ : ℝ) (hε : 0 < ε) (hδ : 0 < δ) (x : Fin 3 → ℝ) (hxA : ones3 *ᵥ x = fun _ => 1) (hx : x ∈ TailPos 3 3) :
    ∃ L₀ : ℕ, ∀ L ≥ L₀,
      1 - ENNReal.ofReal δ ≤ pathProb (.sparseBarrier (sparseVaidyaClass exactEigen 1 (1 / 2)) 1 exactEigen (BState.fresh 0)) streamEnv streamLaw
        (callArgs ones3 (fun _ => 1) x 100 3 0 1 7) ⟨rfl, rfl⟩ {p | |(∑ i ∈ Finset.range L, p (0 + (i + 1) * 1) (0 : Fin 3)) / L -
          average (uniformOnEq (fun _ => 1 / 3) simplexBasis 3) fun y => y (0 : Fin 3)| < ε} := by
  obtain ⟨L₀, h⟩ := C65_vaidya exactEigen exactEigen_exact 1 one_pos (1 / 2) (by norm_num) ones3_indep (by decide) 3 ⟨by decide, by decide⟩
    (fun _ => 1) simplex_bdd (fun _ => 1 / 3) simplex_start (by intro i _; show (0 : ℝ) < 1 / 3; norm_num) simplexBasis ones3_kernel x hxA hx
    (by decide) (fun y => y (0 : Fin 3)) (measurable_pi_apply _) 1 one_pos
    (fun y hy => by have := simplex_box y hy 0; exact abs_le.2 ⟨by linarith [this.1], this.2⟩) ε δ hε hδ
  exact ⟨L₀, fun L hL => (h (BState.fresh 0) streamEnv streamLaw streamRng_ideal 7 L hL 100 0 1).1 0 1 le_rfl⟩

end PW
