import Verif.Lemmas.WalkErgodic
import Verif.Props.DenseBarrierLaw
import Verif.Props.HitRunAverages

/-!
# C66: on boxes the dense Dikin and Vaidya walks converge to the uniform distribution, and so do averages over their samples
-/

namespace PW
open Matrix MeasureTheory Set
open scoped ENNReal
variable {m n : ℕ}

theorem uniformOn_eq_mhTarget (A : Matrix (Fin m) (Fin n) ℝ) (b : Fin m → ℝ) :
    uniformOn A b = mhTarget (Poly A b) volume fun x : Fin n → ℝ => x := by
  unfold mhTarget uniformOn
  exact Measure.map_id'.symm

/-- A bounded polytope with a point has independent columns. -/
theorem indepCols_of_bounded {A : Matrix (Fin m) (Fin n) ℝ} {b : Fin m → ℝ} (hb : ∃ M, ∀ y ∈ Poly A b, ∀ i, |y i| ≤ M) {x₀ : Fin n → ℝ}
    (hx₀ : x₀ ∈ Poly A b) : IndepCols A := by
  obtain ⟨M, hM⟩ := hb
  intro v hv
  by_contra hne
  obtain ⟨i, hi⟩ := Function.ne_iff.1 hne
  have hi : v i ≠ 0 := hi
  have h1 : ∀ t : ℝ, |x₀ i + t * v i| ≤ M := fun t => by
    refine hM (x₀ + t • v) (fun l => ?_) i
    rw [Matrix.mulVec_add, Matrix.mulVec_smul, hv, smul_zero, add_zero]
    exact hx₀ l
  have h2 := h1 ((M + 1 - x₀ i) / v i)
  rw [div_mul_cancel₀ _ hi] at h2
  have := (le_abs_self _).trans h2
  linarith

/-- A dense barrier walk is a Metropolis-Hastings chain with positive densities. -/
theorem dense_mhBase {A : Matrix (Fin m) (Fin n) ℝ} {b : Fin m → ℝ} {x₀ : Fin n → ℝ} (hx₀ : x₀ ∈ Interior A b)
    (hb : ∃ M, ∀ y ∈ Poly A b, ∀ i, |y i| ≤ M) {D : ℝ} (hD : 0 < D) (Φ : MetricField n) :
    MHBase (stdNormal n) (Poly A b) (Interior A b) volume (fun x => x) (Φ.prop D) (Φ.acc D) (Φ.prop D)
      (fun x z => ENNReal.ofReal (Φ.dens D x z)) where
  measC := measurableSet_poly A b
  measV := measurableSet_interior A b
  measc := measurable_id
  sub := interior_subset A b
  range := fun x _ => ⟨x, rfl⟩
  null := poly_boundary_null hx₀
  measP := Φ.meas_prop D
  measa := Φ.meas_acc D
  a0 := fun x z => lt_min one_pos (Real.exp_pos _)
  a1 := Φ.acc_le D
  measprop := fun u _ => (Φ.meas_prop D).comp measurable_prodMk_left
  lift := fun _ _ _ => rfl
  measq := (Φ.meas_dens D).ennreal_ofReal
  law := fun u _ => Φ.law hD u
  pos := fun u v _ => by
    rw [ne_eq, ENNReal.ofReal_eq_zero, not_le]
    show 0 < gaussDensity _ _ _
    rw [dense_density (Φ.chol u) hD]
    positivity
  mass0 := (volume_poly_pos ⟨x₀, hx₀⟩).ne'
  mass := (volume_poly_lt_top hb).ne

/-- With a symmetric defect it satisfies detailed balance. -/
theorem dense_mhData {A : Matrix (Fin m) (Fin n) ℝ} {b : Fin m → ℝ} {x₀ : Fin n → ℝ} (hx₀ : x₀ ∈ Interior A b)
    (hb : ∃ M, ∀ y ∈ Poly A b, ∀ i, |y i| ≤ M) {D : ℝ} (hD : 0 < D) (Φ : MetricField n)
    (hdef : ∀ x ∈ Interior A b, ∀ z ∈ Interior A b, Φ.defect x z = Φ.defect z x) :
    MHData (stdNormal n) (Poly A b) (Interior A b) volume (fun x => x) (Φ.prop D) (Φ.acc D) (Φ.prop D)
      (fun x z => ENNReal.ofReal (Φ.dens D x z)) :=
  { dense_mhBase hx₀ hb hD Φ with
    bal := fun u v hu hv => (Φ.balance_ennreal_iff hD u v).2 (hdef u hu v hv) }

/-- The chain of a call follows the Metropolis-Hastings chain, almost surely. -/
theorem barrier_follows {σ : Type} (cls : BarrierClass ℝ σ) (E : Eigen ℝ) (hL : E.LltExact) (hLU : E.LuExact)
    {A : Matrix (Fin m) (Fin n) ℝ} {b : Fin m → ℝ} (hm : 0 < m) (hA : IndepCols A) {D : ℝ}
    (w : (Fin n → ℝ) → Fin m → ℝ) (hw : ∀ i, Measurable fun x => w x i) (hpos : ∀ x ∈ Interior A b, ∀ i, 0 < w x i)
    {q : (Fin n → ℝ) → (Fin n → ℝ) → ℝ≥0∞}
    (h : MHBase (stdNormal n) (Poly A b) (Interior A b) volume (fun x => x) ((barrierField E hL A b hA w hw hpos).prop D)
      ((barrierField E hL A b hA w hw hpos).acc D) ((barrierField E hL A b hA w hw hpos).prop D) q)
    (o o' : σ) (ho : cls.setDistTerm o n m = .ok o') (hD : cls.distTerm o' = D)
    (e : Env ℝ) [MeasurableSpace e.r.G] (μ : Measure e.r.G) (hs : IdealSource e.r μ)
    (hG : ∀ x ∈ Interior A b, generateHessian cls o' x A b = .ok (hessianOf (w x) x A b, o')) {x : Fin n → ℝ}
    (hx : x ∈ Interior A b) (niter k burnin thin seed : Int) :
    ∀ᵐ g ∂μ, Follows (.barrier cls E o) e (callArgs A b x niter k burnin thin seed) ⟨rfl, rfl⟩
      (posAt (mhNext e.r n (Poly A b) ((barrierField E hL A b hA w hw hpos).prop D) ((barrierField E hL A b hA w hw hpos).acc D)) x) g := by
  subst hD
  have hit := h.iter_ae hs (start := fun x g => (x, o', g)) (step := BarrierWalk.step cls E e.r A b)
    (fun x hx g hg => denseBarrier_step_next cls E hL hLU e.r A b hm hA o' w hw hpos hG x hx g hg) hx
  filter_upwards [hit] with g hg t
  obtain ⟨-, g', hg'⟩ := hg t
  refine ⟨0, fun f _ => ⟨(_, o', g'), ?_, rfl⟩⟩
  have h1 : (Walk.barrier cls E o).chain ((e.withGen g).withFuel f) (callArgs A b x niter k burnin thin seed) ⟨rfl, rfl⟩ t =
      ((cls.setDistTerm o n m).bind fun o =>
        (.ok (x, o, (e.withGen g).r.initRng seed (e.withGen g).rd) : Out ((Fin n → ℝ) × σ × e.r.G))).bind
        (iter (BarrierWalk.step cls E (e.withGen g).r A b) t) := rfl
  rw [h1, ho, Out.ok_bind, Out.ok_bind, withGen_init]
  exact (congrArg (fun s => iter s t (x, o', g)) (withGen_barrierStep cls E e g A b)).trans hg'

section
variable (E : Eigen ℝ) (hE : E.Exact) (R : ℝ) (hr : R ≠ 0) {A : Matrix (Fin m) (Fin n) ℝ} {b : Fin m → ℝ} (hn : 0 < n)
  (hax : AxisAligned A) (hb : ∃ M, ∀ y ∈ Poly A b, ∀ i, |y i| ≤ M) {x : Fin n → ℝ} (hx : x ∈ Interior A b)
include hE hr hn hax hb hx

/-- The dense Dikin walk on a box as a Metropolis-Hastings chain. -/
theorem dense_dikin_mh : ∃ P acc q, MHData (stdNormal n) (Poly A b) (Interior A b) volume (fun x : Fin n → ℝ => x) P acc P q ∧
    ∀ (o : BState ℝ) (e : Env ℝ) [MeasurableSpace e.r.G] (μ : Measure e.r.G), IdealSource e.r μ → ∀ niter k burnin thin seed : Int,
      ∀ᵐ g ∂μ, Follows (.barrier (dikinClass R) E o) e (callArgs A b x niter k burnin thin seed) ⟨rfl, rfl⟩
        (posAt (mhNext e.r n (Poly A b) P acc) x) g := by
  have hA := indepCols_of_bounded hb (interior_subset A b hx)
  have hD : 0 < R * R / (Scalar.ofInt (n : Int) : ℝ) := by
    rw [rsc_ofInt]
    exact div_pos (mul_self_pos.2 hr) (by exact_mod_cast hn)
  have h := dense_mhData hx hb hD (barrierField E hE.llt A b hA (fun _ _ => 1) (fun _ => measurable_const) (fun _ _ _ => one_pos))
    ((defect_iff E hE.llt A b hA (fun _ _ => 1) (fun _ => measurable_const) (fun _ _ _ => one_pos)).2
      fun _ _ _ _ _ _ hCx hCz => by rw [hax.defect hCx, hax.defect hCz])
  exact ⟨_, _, _, h, fun o e _ μ hs niter k burnin thin seed =>
    barrier_follows (dikinClass R) E hE.llt hE.lu (lt_of_lt_of_le hn hA.le) hA _ _ _ h.toMHBase o _ rfl rfl e μ hs
      (fun x _ => generateHessian_dikin R _ x A b) hx niter k burnin thin seed⟩

/-- The dense Vaidya walk on a box as a Metropolis-Hastings chain. -/
theorem dense_vaidya_mh (hov : (n : Int) * m ≤ 2 ^ 31 - 1) :
    ∃ P acc q, MHData (stdNormal n) (Poly A b) (Interior A b) volume (fun x : Fin n → ℝ => x) P acc P q ∧
    ∀ (o : BState ℝ) (e : Env ℝ) [MeasurableSpace e.r.G] (μ : Measure e.r.G), IdealSource e.r μ → ∀ niter k burnin thin seed : Int,
      ∀ᵐ g ∂μ, Follows (.barrier (vaidyaClass E R) E o) e (callArgs A b x niter k burnin thin seed) ⟨rfl, rfl⟩
        (posAt (mhNext e.r n (Poly A b) P acc) x) g := by
  have hA := indepCols_of_bounded hb (interior_subset A b hx)
  have hm : 0 < m := lt_of_lt_of_le hn hA.le
  have hpos : 0 < (n : Int) * m := mul_pos (by omega) (by omega)
  have hD : 0 < R * R / Scalar.sqrt (Scalar.ofInt ((n : Int) * m) : ℝ) := by
    rw [rsc_ofInt, rsc_sqrt]
    have h1 : (0 : ℝ) < (((n : Int) * m : Int) : ℝ) := by exact_mod_cast hpos
    exact div_pos (mul_self_pos.2 hr) (Real.sqrt_pos.2 h1)
  have h := dense_mhData hx hb hD (barrierField E hE.llt A b hA (vaidyaW A b) (measurable_vaidyaW A b) (fun _ hx => vaidyaW_pos hA hn hx))
    ((defect_iff E hE.llt A b hA (vaidyaW A b) (measurable_vaidyaW A b) (fun _ hx => vaidyaW_pos hA hn hx)).2
      fun _ _ _ _ _ _ hCx hCz => by rw [hax.defect hCx, hax.defect hCz])
  refine ⟨_, _, _, h, fun o e _ μ hs niter k burnin thin seed => ?_⟩
  refine barrier_follows (vaidyaClass E R) E hE.llt hE.lu hm hA _ _ _ h.toMHBase o
    { o with dist := R * R / Scalar.sqrt (Scalar.ofInt ((n : Int) * m) : ℝ) } ?_ rfl e μ hs
      (fun x hx => generateHessian_vaidya hE.inv R _ hA hx) hx niter k burnin thin seed
  show (toInt ((n : Int) * m)).bind _ = _
  have : toInt ((n : Int) * m) = .ok ((n : Int) * m) := by
    unfold toInt
    rw [if_pos (by unfold IsInt intMin intMax; constructor <;> omega)]
  rw [this, Out.ok_bind]

/-- **C66** (`DikinWalk`): on a bounded polytope with axis-aligned constraints, from any interior starting point, after enough iterations the
walk falls in every region `T` with a probability within `ε` of the share of `T`, and so does every row recorded then. -/
theorem C66_dikin (ε : ℝ) (hε : 0 < ε) : ∃ t₀ : ℕ, ∀ (o : BState ℝ) (e : Env ℝ) [MeasurableSpace e.r.G] (μ : Measure e.r.G),
    IdealSource e.r μ → ∀ k seed : Int, ∀ t ≥ t₀, LawWithin (.barrier (dikinClass R) E o) e μ A b x k seed (uniformOn A b) t ε := by
  obtain ⟨P, acc, q, h, hfol⟩ := dense_dikin_mh E hE R hr hn hax hb hx
  obtain ⟨t₀, ht₀⟩ := h.rows (m := m) hx hε
  rw [uniformOn_eq_mhTarget]
  exact ⟨t₀, fun o e _ μ hs k seed t ht =>
    ht₀ _ e μ hs A b k seed (by intro h; cases h) (fun niter burnin thin => hfol o e μ hs niter k burnin thin seed) t ht⟩

/-- **C66** (`VaidyaWalk`): the same, when the `int` product `cols * rows` does not overflow. -/
theorem C66_vaidya (hov : (n : Int) * m ≤ 2 ^ 31 - 1) (ε : ℝ) (hε : 0 < ε) :
    ∃ t₀ : ℕ, ∀ (o : BState ℝ) (e : Env ℝ) [MeasurableSpace e.r.G] (μ : Measure e.r.G),
    IdealSource e.r μ → ∀ k seed : Int, ∀ t ≥ t₀, LawWithin (.barrier (vaidyaClass E R) E o) e μ A b x k seed (uniformOn A b) t ε := by
  obtain ⟨P, acc, q, h, hfol⟩ := dense_vaidya_mh E hE R hr hn hax hb hx hov
  obtain ⟨t₀, ht₀⟩ := h.rows (m := m) hx hε
  rw [uniformOn_eq_mhTarget]
  exact ⟨t₀, fun o e _ μ hs k seed t ht =>
    ht₀ _ e μ hs A b k seed (by intro h; cases h) (fun niter burnin thin => hfol o e μ hs niter k burnin thin seed) t ht⟩

/-- **C66** (`DikinWalk`, averages): over enough positions (and over the rows of every call that returns so many) the mean of `φ` is within
`ε` of its mean over the polytope, with probability at least `1 - δ`. -/
theorem C66_dikin_average (φ : (Fin n → ℝ) → ℝ) (hφ : Measurable φ) (M : ℝ) (hM : 0 < M) (hφM : ∀ y ∈ Poly A b, |φ y| ≤ M) (ε δ : ℝ)
    (hε : 0 < ε) (hδ : 0 < δ) : ∃ L₀ : ℕ, ∀ (o : BState ℝ) (e : Env ℝ) [MeasurableSpace e.r.G] (μ : Measure e.r.G),
    IdealSource e.r μ → ∀ k seed : Int, ∀ L ≥ L₀,
      MeanWithin (.barrier (dikinClass R) E o) e μ A b x k seed φ (average (uniformOn A b) φ) L ε δ := by
  obtain ⟨P, acc, q, h, hfol⟩ := dense_dikin_mh E hE R hr hn hax hb hx
  obtain ⟨L₀, hL₀⟩ := h.averages (m := m) hx hφ hM (fun y hy => hφM y (interior_subset A b hy)) hε hδ
  rw [uniformOn_eq_mhTarget]
  exact ⟨L₀, fun o e _ μ hs k seed L hL =>
    hL₀ _ e μ hs A b k seed (by intro h; cases h) (fun niter burnin thin => hfol o e μ hs niter k burnin thin seed) L hL⟩

/-- **C66** (`VaidyaWalk`, averages). -/
theorem C66_vaidya_average (hov : (n : Int) * m ≤ 2 ^ 31 - 1) (φ : (Fin n → ℝ) → ℝ) (hφ : Measurable φ) (M : ℝ) (hM : 0 < M)
    (hφM : ∀ y ∈ Poly A b, |φ y| ≤ M) (ε δ : ℝ)
    (hε : 0 < ε) (hδ : 0 < δ) : ∃ L₀ : ℕ, ∀ (o : BState ℝ) (e : Env ℝ) [MeasurableSpace e.r.G] (μ : Measure e.r.G),
    IdealSource e.r μ → ∀ k seed : Int, ∀ L ≥ L₀,
      MeanWithin (.barrier (vaidyaClass E R) E o) e μ A b x k seed φ (average (uniformOn A b) φ) L ε δ := by
  obtain ⟨P, acc, q, h, hfol⟩ := dense_vaidya_mh E hE R hr hn hax hb hx hov
  obtain ⟨L₀, hL₀⟩ := h.averages (m := m) hx hφ hM (fun y hy => hφM y (interior_subset A b hy)) hε hδ
  rw [uniformOn_eq_mhTarget]
  exact ⟨L₀, fun o e _ μ hs k seed L hL =>
    hL₀ _ e μ hs A b k seed (by intro h; cases h) (fun niter burnin thin => hfol o e μ hs niter k burnin thin seed) L hL⟩

end

/-! ## The square -/

/-- The matrix of the square `[-1, 1]²`. -/
def boxA : Matrix (Fin 4) (Fin 2) ℝ := Matrix.of ![![1, 0], ![-1, 0], ![0, 1], ![0, -1]]

theorem boxA_axis : AxisAligned boxA := by
  intro i j k
  fin_cases i <;> fin_cases j <;> fin_cases k <;> simp [boxA]

theorem boxA_bdd : ∃ M, ∀ y ∈ Poly boxA (fun _ => 1), ∀ i, |y i| ≤ M :=
  ⟨1, fun y hy => (squareArgs_mem y).1 hy⟩

/-- On the square, from any interior starting point: the region `x₀ ≤ 1/2`. -/
example (ε : ℝ) (hε : 0 < ε) (x : Fin 2 → ℝ) (hx : x ∈ Interior boxA (fun _ => 1)) :
    ∃ t₀ : ℕ, ∀ t ≥ t₀,
      |(pathProb (.barrier (dikinClass (1 / 2)) exactEigen (BState.fresh 0)) streamEnv streamLaw
        (callArgs boxA (fun _ => 1) x 100 0 0 1 7) ⟨rfl, rfl⟩ {p | p t (0 : Fin 2) ≤ 1 / 2}).toReal -
          share (uniformOn boxA (fun _ => 1)) {y | y (0 : Fin 2) ≤ 1 / 2}| ≤ ε := by
  obtain ⟨t₀, h⟩ := C66_dikin exactEigen exactEigen_exact (1 / 2) (by norm_num) (by decide) boxA_axis boxA_bdd hx ε hε
  exact ⟨t₀, fun t ht => (h (BState.fresh 0) streamEnv streamLaw streamRng_ideal 0 7 t ht 100 0 1 _
    (measurableSet_le (measurable_pi_apply (0 : Fin 2)) measurable_const)).1⟩

/-- On the square, with the Vaidya walk: the mean of the first coordinate over the rows of a call. -/
example (ε δ : ℝ) (hε : 0 < ε) (hδ : 0 < δ) (x : Fin 2 → ℝ) (hx : x ∈ Interior boxA (fun _ => 1)) :
    ∃ L₀ : ℕ, ∀ L : ℕ, L₀ ≤ L → L < 10 ^ 9 →
      1 - ENNReal.ofReal δ ≤ closeProb (.barrier (vaidyaClass exactEigen (1 / 2)) exactEigen (BState.fresh 0)) streamEnv streamLaw
        (callArgs boxA (fun _ => 1) x L 0 0 1 7) (fun y => y (0 : Fin 2)) (average (uniformOn boxA (fun _ => 1)) fun y => y (0 : Fin 2)) ε := by
  obtain ⟨L₀, h⟩ := C66_vaidya_average exactEigen exactEigen_exact (1 / 2) (by norm_num) (by decide) boxA_axis boxA_bdd hx (by decide)
    (fun y => y (0 : Fin 2)) (measurable_pi_apply _) 1 one_pos (fun y hy => (squareArgs_mem y).1 hy 0) ε δ hε hδ
  refine ⟨L₀, fun L hL hL9 => ?_⟩
  refine (h (BState.fresh 0) streamEnv streamLaw streamRng_ideal 0 7 L hL L 0 1).2 ⟨?_, ?_, ?_, ?_, ?_⟩ ?_
  all_goals first | omega | (simp only [intMax]; omega)

/-- The centre of the square is such a point. -/
example : (fun _ => 0 : Fin 2 → ℝ) ∈ Interior boxA (fun _ => 1) := by
  intro i
  fin_cases i <;> simp [boxA, Matrix.mulVec, dotProduct]

end PW
