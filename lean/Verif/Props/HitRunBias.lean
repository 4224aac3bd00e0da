import Verif.Props.HitRunLaw

/-!
# C59: the tolerance matters – Hit-and-Run samples are not exactly uniform
-/

namespace PW
open Matrix MeasureTheory Set
open scoped ENNReal

section
variable {d : ℕ}

/-- A set that contains a closed segment with an interior point at its end is longer than the segment. -/
theorem lineLen_gt {U : Set (Fin d → ℝ)} (hU : IsOpen U) (c y : Fin d → ℝ) {p q : ℝ} (hpq : 0 < p + q)
    (hin : ∀ t, -q ≤ t → t ≤ p → y + t • c ∈ U) : ENNReal.ofReal (p + q) < lineLen U c y := by
  rw [lineLen_eq hU.measurableSet]
  have hc : Continuous fun t : ℝ => y + t • c := by fun_prop
  have ho : IsOpen {t : ℝ | y + t • c ∈ U} := hU.preimage hc
  obtain ⟨η, hη, hb⟩ := Metric.isOpen_iff.1 ho p (hin p (by linarith) le_rfl)
  have hsub : Icc (-q) (p + η / 2) ⊆ {t : ℝ | y + t • c ∈ U} := by
    intro t ht
    rcases le_or_gt t p with h | h
    · exact hin t ht.1 h
    · refine hb ?_
      rw [Metric.mem_ball, Real.dist_eq, abs_of_pos (by linarith)]
      linarith [ht.2]
  refine lt_of_lt_of_le ?_ (measure_mono hsub)
  rw [Real.volume_Icc]
  exact (ENNReal.ofReal_lt_ofReal_iff (by linarith)).2 (by linarith)

/-- If the sampled segments are contained in the chords of the open set `U`, miss their ends, and contain all points of
the chords in the open set `T ⊆ U`, the step moves too much mass into `T`. -/
theorem hitRun_biased {V : Type} [MeasurableSpace V] (ν : Measure V) [IsProbabilityMeasure ν] {U T : Set (Fin d → ℝ)}
    (hU : IsOpen U) (hT : IsOpen T) (hTU : T ⊆ U) (hTne : T.Nonempty) (hTf : volume T ≠ ⊤) {c : V → Fin d → ℝ} (hc : Measurable c)
    (hlen : ∀ᵐ v ∂ν, ∀ y ∈ U, lineLen U (c v) y ≠ 0 ∧ lineLen U (c v) y ≠ ⊤)
    (N : (Fin d → ℝ) → V → ℝ≥0∞) (hN : Measurable fun p : (Fin d → ℝ) × V => N p.1 p.2)
    (hnext : ∀ y ∈ U, ∀ᵐ v ∂ν, ∃ p q : ℝ, 0 < p + q ∧ (∀ t, -q ≤ t → t ≤ p → y + t • c v ∈ U) ∧
      (∀ t, y + t • c v ∈ T → -q ≤ t ∧ t ≤ p) ∧ N y v = ∫⁻ val, T.indicator 1 (y + (val * (p + q) - q) • c v) ∂unitLaw) :
    volume T < ∫⁻ y in U, ∫⁻ v, N y v ∂ν := by
  have hTm := hT.measurableSet
  have hUm := hU.measurableSet
  have hF : Measurable (T.indicator (1 : (Fin d → ℝ) → ℝ≥0∞)) := measurable_one.indicator hTm
  have hideal := chordMean_invariant_rand ν hUm hc hlen hF
  have hvT : ∫⁻ y in U, T.indicator (1 : (Fin d → ℝ) → ℝ≥0∞) y = volume T := by
    rw [lintegral_indicator_one hTm, Measure.restrict_apply hTm, inter_eq_left.2 hTU]
  rw [hvT] at hideal
  have hN1 : ∀ y, Measurable fun v => N y v := fun y => by
    have h2 : Measurable fun v : V => (y, v) := measurable_prodMk_left
    have := hN.comp h2
    exact this
  have hNv : Measurable fun y => ∫⁻ v, N y v ∂ν := hN.lintegral_prod_right'
  -- the value of one step
  have hval : ∀ y ∈ U, ∀ᵐ v ∂ν, ∃ ℓ : ℝ≥0∞, ℓ < lineLen U (c v) y ∧ ℓ ≠ 0 ∧ N y v = ℓ⁻¹ * lineLen T (c v) y ∧
      chordMean U (c v) (T.indicator 1) y = (lineLen U (c v) y)⁻¹ * lineLen T (c v) y ∧ lineLen T (c v) y ≤ ℓ := by
    intro y hy
    filter_upwards [hnext y hy] with v hv
    obtain ⟨p, q, hpq, hin, hcore, hn⟩ := hv
    have hℓ0 : ENNReal.ofReal (p + q) ≠ 0 := by simpa using hpq
    refine ⟨ENNReal.ofReal (p + q), lineLen_gt hU (c v) y hpq hin, hℓ0, ?_, ?_, ?_⟩
    · have hseg := unit_segment hpq (measurable_onLine (c v) hF y)
      have hI : ∫⁻ t in Icc (-q) p, T.indicator (1 : (Fin d → ℝ) → ℝ≥0∞) (y + t • c v) = lineLen T (c v) y := by
        rw [← lintegral_indicator measurableSet_Icc]
        refine lintegral_congr fun t => ?_
        by_cases ht : t ∈ Icc (-q) p
        · rw [indicator_of_mem ht]
        · rw [indicator_of_notMem ht, indicator_of_notMem fun h => ht ⟨(hcore t h).1, (hcore t h).2⟩]
      rw [hI, ← hn] at hseg
      rw [← hseg, ← mul_assoc, ENNReal.inv_mul_cancel hℓ0 ENNReal.ofReal_ne_top, one_mul]
    · unfold chordMean
      congr 1
      refine lintegral_congr fun t => ?_
      by_cases hu : y + t • c v ∈ U
      · rw [indicator_of_mem hu]
      · rw [indicator_of_notMem hu, indicator_of_notMem fun h => hu (hTU h)]
    · rw [lineLen_eq hTm]
      calc _ ≤ volume (Icc (-q) p) := measure_mono fun t ht => ⟨(hcore t ht).1, (hcore t ht).2⟩
        _ = _ := by rw [Real.volume_Icc]; congr 1; ring
  have hle : ∀ y ∈ U, ∀ᵐ v ∂ν, chordMean U (c v) (T.indicator 1) y ≤ N y v := by
    intro y hy
    filter_upwards [hval y hy] with v hv
    obtain ⟨ℓ, h1, -, h3, h4, -⟩ := hv
    rw [h3, h4]
    exact mul_le_mul_left (ENNReal.inv_le_inv.2 h1.le) _
  have hlt : ∀ y ∈ T, ∫⁻ v, chordMean U (c v) (T.indicator 1) y ∂ν < ∫⁻ v, N y v ∂ν := by
    intro y hy
    have hfin : ∫⁻ v, chordMean U (c v) (T.indicator 1) y ∂ν ≠ ⊤ := by
      have : ∫⁻ v, chordMean U (c v) (T.indicator 1) y ∂ν ≤ 1 := by
        have h1 : ∀ᵐ v ∂ν, chordMean U (c v) (T.indicator 1) y ≤ 1 := by
          filter_upwards [hval y (hTU hy), hle y (hTU hy)] with v hv hl
          obtain ⟨ℓ, h1, h2, h3, -, h5⟩ := hv
          refine hl.trans ?_
          rw [h3]
          exact (mul_le_mul_right h5 _).trans (ENNReal.inv_mul_le_one _)
        exact (lintegral_mono_ae h1).trans (by simp)
      exact ne_top_of_le_ne_top ENNReal.one_ne_top this
    refine lintegral_strict_mono (IsProbabilityMeasure.ne_zero ν) (hN1 y).aemeasurable hfin ?_
    filter_upwards [hval y (hTU hy)] with v hv
    obtain ⟨ℓ, h1, h2, h3, h4, h5⟩ := hv
    rw [h3, h4, mul_comm _ (lineLen T (c v) y), mul_comm _ (lineLen T (c v) y)]
    exact ENNReal.mul_lt_mul_right (lineLen_ne_zero hT _ hy) (ne_top_of_le_ne_top h1.ne_top h5) (ENNReal.inv_lt_inv.2 h1)
  rw [← hideal]
  refine lintegral_strict_mono_of_ae_le_of_ae_lt_on (s := T) hNv.aemeasurable ?_ ?_ ?_ ?_
  · rw [hideal]; exact hTf
  · filter_upwards [ae_restrict_mem hUm] with y hy
    exact lintegral_mono_ae (hle y hy)
  · rw [Measure.restrict_apply hTm, inter_eq_left.2 hTU]
    exact (hT.measure_pos volume hTne).ne'
  · exact Filter.Eventually.of_forall fun y hy => hlt y hy

end

/-- Points at distance at least `ERR > 0` from the outside satisfy all constraints strictly. -/
theorem core_interior {m n : ℕ} {A : Matrix (Fin m) (Fin n) ℝ} {b : Fin m → ℝ} {ERR : ℝ} (hE : 0 < ERR) {x₀ : Fin n → ℝ}
    (hx₀ : x₀ ∈ Interior A b) {T : Set (Fin n → ℝ)}
    (hcore : ∀ z ∈ T, ∀ w : Fin n → ℝ, ∑ i, w i ^ 2 ≤ ERR ^ 2 → z + w ∈ Poly A b) : T ⊆ Interior A b := by
  intro z hz i
  have hzP : A.mulVec z i ≤ b i := by
    have := hcore z hz 0 (by simp; positivity)
    rw [add_zero] at this
    exact this i
  refine lt_of_le_of_ne hzP fun heq => ?_
  by_cases hrow : A i = 0
  · have h1 := hx₀ i
    have e : ∀ x, A.mulVec x i = 0 := fun x => by
      show A i ⬝ᵥ x = 0
      rw [hrow, zero_dotProduct]
    rw [e] at h1 heq
    linarith
  · have hpos : 0 < A i ⬝ᵥ A i := by
      have h1 : A i ⬝ᵥ A i ≠ 0 := fun h => hrow (dotProduct_self_eq_zero.1 h)
      have h2 : 0 ≤ A i ⬝ᵥ A i := Finset.sum_nonneg fun j _ => mul_self_nonneg _
      exact lt_of_le_of_ne h2 h1.symm
    set L := A i ⬝ᵥ A i with hL
    have hw := hcore z hz ((ERR / Real.sqrt L) • A i) (by
      have e : ∀ j, ((ERR / Real.sqrt L) • A i) j ^ 2 = (ERR / Real.sqrt L) ^ 2 * (A i j * A i j) := fun j => by
        simp only [Pi.smul_apply, smul_eq_mul]; ring
      rw [Finset.sum_congr rfl fun j _ => e j, ← Finset.mul_sum, show ∑ j, A i j * A i j = L from rfl, div_pow, Real.sq_sqrt hpos.le]
      exact le_of_eq (by field_simp)) i
    rw [Matrix.mulVec_add, Matrix.mulVec_smul, Pi.add_apply, Pi.smul_apply, heq, smul_eq_mul] at hw
    have h3 : (A *ᵥ A i) i = L := rfl
    rw [h3] at hw
    have h4 : 0 < ERR / Real.sqrt L * L := by
      have := Real.sqrt_pos.2 hpos
      positivity
    linarith

/-- **C59** (tolerance needed): on every such polytope, if `T` is a nonempty open set of points at distance more than the
tolerance from the outside, the first row returned from a uniform initial point is in `T` with a probability that
is strictly larger than that of the uniform distribution. -/
theorem C59_dense_biased (R ERR : ℝ) (hR : R ≠ 0) (hE : 0 < ERR) (e : Env ℝ) [MeasurableSpace e.r.G] (μ : Measure e.r.G)
    (hs : IdealSource e.r μ) (a : Args ℝ) (hg : GoodInts a.niter a.burnin a.thin) (hAb : a.A.r = a.b.n) (hn : 2 ≤ a.A.c)
    (hx : ∃ x, x ∈ Interior a.A.val (a.b.at hAb.symm)) (hb : ∃ B, ∀ y ∈ Poly a.A.val (a.b.at hAb.symm), ∀ i, |y i| ≤ B)
    (h0 : a.burnin = 0) (h1 : a.thin = 1) (h2 : 1 ≤ a.niter) (T : Set (Fin a.A.c → ℝ)) (hT : IsOpen T) (hTne : T.Nonempty)
    (hcore : ∀ z ∈ T, ∀ w : Fin a.A.c → ℝ, ∑ i, w i ^ 2 ≤ ERR ^ 2 → z + w ∈ Poly a.A.val (a.b.at hAb.symm)) :
    uniformOn a.A.val (a.b.at hAb.symm) T <
      ((uniformOn a.A.val (a.b.at hAb.symm)).prod μ) {p | ∃ (f0 : ℕ) (rows : List (Fin a.A.c → ℝ)),
        (∀ f ≥ f0, (Walk.hitRun R ERR).run ((e.withGen p.2).withFuel f) (a.from p.1) = .ok rows) ∧
          ∃ hj : 0 < rows.length, rows[0] ∈ T} := by
  have := hs.prob
  have hm := pos_rows_of_bounded (by omega) hb
  set A := a.A.val with hA
  set b := a.b.at hAb.symm with hbdef
  obtain ⟨x₀, hx₀⟩ := hx
  have hTI : T ⊆ Interior A b := core_interior hE hx₀ hcore
  have hprob : IsProbabilityMeasure (stdNormal a.A.c) := inferInstance
  rw [hitRun_row_event R ERR hR hE e μ hs a hg hAb hn ⟨x₀, hx₀⟩ hb 0 (by rw [h0, h1]; simp; omega) T]
  have ht : (a.burnin + (((0 : ℕ) : Int) + 1) * a.thin).toNat = 1 := by rw [h0, h1]; rfl
  have hdraw := fun f => hitRunDraw_pmeas (G := e.r.G) hm A b R ERR f measurable_fst (measurable_fst.comp measurable_snd)
      (measurable_fst.comp (measurable_snd.comp measurable_snd)) (measurable_snd.comp (measurable_snd.comp measurable_snd))
  have hsp : ∀ f, PMeas (HitRun.step R ERR f e.r A b) := fun f => step_pmeas_of_draw e.r μ stdNormal hs _ (hitRunDraw R ERR f A b)
    (fun x g => hitRun_step_draw R ERR f e.r A b x g) (hdraw f)
  have hev : ((uniformOn A b).prod μ) (chainEvent (fun f => HitRun.step R ERR f e.r A b) 1 T) =
      ∫⁻ x in Interior A b, ∫⁻ v, ∫⁻ val, T.indicator 1 (hitRunNext R ERR A b x v val) ∂unitLaw ∂(stdNormal a.A.c) := by
    rw [Measure.prod_apply (measurableSet_chainEvent hsp 1 hT.measurableSet)]
    have h3 : ∀ᵐ x ∂(uniformOn A b), μ (Prod.mk x ⁻¹' chainEvent (fun f => HitRun.step R ERR f e.r A b) 1 T) =
        ∫⁻ v, ∫⁻ val, T.indicator 1 (hitRunNext R ERR A b x v val) ∂unitLaw ∂(stdNormal a.A.c) := by
      filter_upwards [uniformOn_ae hx₀] with x hx
      exact chain_law e.r μ stdNormal hs (Interior A b) (fun f => HitRun.step R ERR f e.r A b) (fun f => hitRunDraw R ERR f A b)
        (fun f x g => hitRun_step_draw R ERR f e.r A b x g) hdraw (hitRunNext R ERR A b)
        (hitRun_next_ae hn R ERR hR hE hb e.r.G) T hT.measurableSet 1 x hx
    rw [lintegral_congr_ae h3, uniformOn_interior hx₀]
  rw [ht, hev]
  have hTm := hT.measurableSet
  have hvT : uniformOn A b T = volume T := by
    rw [uniformOn_interior hx₀, Measure.restrict_apply hTm, inter_eq_left.2 hTI]
  rw [hvT]
  have hunit : ∀ᵐ v ∂(stdNormal a.A.c), IsUnitVec (unitDir v) := by
    have hne : ∀ᵐ v ∂(volume : Measure (Fin a.A.c → ℝ)), v ≠ 0 := by
      have : Nonempty (Fin a.A.c) := ⟨⟨0, by omega⟩⟩
      rw [ae_iff]; simp
    filter_upwards [(stdNormal_ac a.A.c).ae_le hne] with v hv
    exact normalize_unit v hv
  refine hitRun_biased (stdNormal a.A.c) (isOpen_interior A b) hT hTI hTne ?_ measurable_unitDir ?_
    (fun x v => ∫⁻ val, T.indicator 1 (hitRunNext R ERR A b x v val) ∂unitLaw) ?_ ?_
  · have : volume T ≤ volume (Thicken (Poly A b) 0) := measure_mono fun z hz => ⟨z, interior_subset A b (hTI hz), by simp⟩
    exact (this.trans_lt (volume_thicken_lt_top hb 0)).ne
  · filter_upwards [hunit] with v hv y hy
    refine ⟨lineLen_ne_zero (isOpen_interior A b) _ hy, ?_⟩
    obtain ⟨B, hB⟩ := hb
    refine lineLen_ne_top (measurableSet_interior A b) ?_ (fun z hz => hB z (interior_subset A b hz)) y
    intro h0
    rw [h0] at hv
    simp [IsUnitVec] at hv
  · have h1 : Measurable fun q : ((Fin a.A.c → ℝ) × (Fin a.A.c → ℝ)) × ℝ =>
        T.indicator (1 : (Fin a.A.c → ℝ) → ℝ≥0∞) (hitRunNext R ERR A b q.1.1 q.1.2 q.2) := by
      have h2 : Measurable fun q : ((Fin a.A.c → ℝ) × (Fin a.A.c → ℝ)) × ℝ => (q.1.1, q.1.2, q.2) :=
        (measurable_fst.comp measurable_fst).prodMk ((measurable_snd.comp measurable_fst).prodMk measurable_snd)
      exact (measurable_one.indicator hTm).comp ((measurable_hitRunNext hm R ERR A b).comp h2)
    exact h1.lintegral_prod_right'
  · intro y hy
    filter_upwards [hitRun_ae_segment hn A b y hy hb R ERR hR hE, hunit] with v hv hu
    obtain ⟨p, q, hpq, hin, hout, f0, hf⟩ := hv
    refine ⟨p, q, hpq, hin, fun t ht => ?_, ?_⟩
    · have hs : ∀ s : ℝ, s ^ 2 ≤ ERR ^ 2 → y + (t + s) • unitDir v ∈ Poly A b := by
        intro s hs
        have := hcore _ ht (s • unitDir v) (by
          have e : ∀ i, (s • unitDir v) i ^ 2 = s ^ 2 * (unitDir v i * unitDir v i) := fun i => by
            simp only [Pi.smul_apply, smul_eq_mul]; ring
          rw [Finset.sum_congr rfl fun i _ => e i, ← Finset.mul_sum, show ∑ i, unitDir v i * unitDir v i = 1 from hu, mul_one]
          exact hs)
        rw [add_assoc, ← add_smul] at this
        exact this
      have h3 := (hout _ (hs ERR le_rfl)).2
      have h4 := (hout _ (hs (-ERR) (by rw [neg_sq]))).1
      constructor <;> linarith
    · refine lintegral_congr fun val => ?_
      rw [hitRunNext_eq fun f hf' => hf f hf' Unit val ()]

/-! ## Concrete cases -/

/-- The square `[-1, 1]²`. -/
noncomputable def squareArgs : Args ℝ :=
  ⟨100, ⟨2, fun _ => 0⟩, ⟨4, 2, Matrix.of ![![1, 0], ![-1, 0], ![0, 1], ![0, -1]]⟩, ⟨4, fun _ => 1⟩, 0, 0, 1, 7⟩

theorem squareArgs_mem (y : Fin 2 → ℝ) :
    y ∈ Poly squareArgs.A.val (squareArgs.b.at (h := rfl)) ↔ ∀ i, |y i| ≤ 1 := by
  have h : y ∈ Poly squareArgs.A.val (squareArgs.b.at (h := rfl)) ↔
      ∀ i, (Matrix.of ![![(1 : ℝ), 0], ![-1, 0], ![0, 1], ![0, -1]]).mulVec y i ≤ 1 := Iff.rfl
  rw [h]
  constructor
  · intro hy
    have h0 := hy (0 : Fin 4)
    have h1 := hy (1 : Fin 4)
    have h2 := hy (2 : Fin 4)
    have h3 := hy (3 : Fin 4)
    simp [Matrix.mulVec, dotProduct, Fin.sum_univ_two] at h0 h1 h2 h3
    intro i
    rw [abs_le]
    fin_cases i
    · exact ⟨by show -1 ≤ y (0 : Fin 2); linarith, h0⟩
    · exact ⟨by show -1 ≤ y (1 : Fin 2); linarith, h2⟩
  · intro hy i
    have h0 := abs_le.1 (hy 0)
    have h1 := abs_le.1 (hy 1)
    fin_cases i <;> simp [Matrix.mulVec, dotProduct, Fin.sum_univ_two] <;> linarith

theorem squareArgs_interior : ∃ x, x ∈ Interior squareArgs.A.val (squareArgs.b.at (h := rfl)) := by
  refine ⟨fun _ => (0 : ℝ), ?_⟩
  intro i
  show (Matrix.of ![![(1 : ℝ), 0], ![-1, 0], ![0, 1], ![0, -1]]).mulVec (fun _ => 0) i < 1
  fin_cases i <;> simp [Matrix.mulVec, dotProduct]

/-- On the square, samples within `ε` of uniform. -/
example (ε : ℝ) (hε : 0 < ε) : ∃ η > 0, ∀ ERR, 0 < ERR → ERR < η →
    SamplesNearLaw (.hitRun (1 / 2) ERR) streamEnv streamLaw squareArgs (uniformOn squareArgs.A.val (squareArgs.b.at (h := rfl)))
      fun _ => ENNReal.ofReal ε :=
  C59_dense_limit (1 / 2) (by norm_num) streamEnv streamLaw streamRng_ideal squareArgs
    ⟨by decide, by decide, by decide, by decide, by decide⟩ rfl (le_refl 2) squareArgs_interior
    ⟨1, fun y hy => (squareArgs_mem y).1 hy⟩ ε hε

/-- With tolerance 1/4, the first row is too often in the middle of the square. -/
example : uniformOn squareArgs.A.val (squareArgs.b.at (h := rfl)) {z : Fin 2 → ℝ | ∀ i, |z i| < 1 / 2} <
    ((uniformOn squareArgs.A.val (squareArgs.b.at (h := rfl))).prod streamLaw) {p | ∃ (f0 : ℕ) (rows : List (Fin 2 → ℝ)),
      (∀ f ≥ f0, (Walk.hitRun (1 / 2) (1 / 4)).run ((streamEnv.withGen p.2).withFuel f) (squareArgs.from p.1) = .ok rows) ∧
        ∃ hj : 0 < rows.length, rows[0] ∈ {z : Fin 2 → ℝ | ∀ i, |z i| < 1 / 2}} := by
  refine C59_dense_biased (1 / 2) (1 / 4) (by norm_num) (by norm_num) streamEnv streamLaw streamRng_ideal squareArgs
    ⟨by decide, by decide, by decide, by decide, by decide⟩ rfl (le_refl 2) squareArgs_interior
    ⟨1, fun y hy => (squareArgs_mem y).1 hy⟩ rfl rfl (by decide) {z : Fin 2 → ℝ | ∀ i, |z i| < 1 / 2} ?_ ⟨fun _ => (0 : ℝ), ?_⟩ ?_
  · have : {z : Fin 2 → ℝ | ∀ i, |z i| < 1 / 2} = ⋂ i, {z | |z i| < 1 / 2} := by ext; simp
    have ho : IsOpen {z : Fin 2 → ℝ | ∀ i, |z i| < 1 / 2} := by
      rw [this]
      exact isOpen_iInter_of_finite fun i => isOpen_lt (continuous_apply i).abs continuous_const
    exact ho
  · intro i; norm_num
  · intro z hz w hw
    refine (squareArgs_mem _).2 fun i => ?_
    have h1 : w i ^ 2 ≤ (1 / 4) ^ 2 :=
      (Finset.single_le_sum (f := fun i => w i ^ 2) (fun _ _ => sq_nonneg _) (Finset.mem_univ i)).trans hw
    have h2 : |w i| ≤ |(1 / 4 : ℝ)| := sq_le_sq.1 h1
    rw [abs_of_pos (by norm_num : (0 : ℝ) < 1 / 4)] at h2
    have h3 : |z i| < 1 / 2 := hz i
    exact (abs_add_le (z i) (w i)).trans (by linarith)

/-- The row `(1, 1, 1)`. -/
def ones3 : Matrix (Fin 1) (Fin 3) ℝ := fun _ _ => 1

/-- The simplex `x₁ + x₂ + x₃ = 1`, `x ≥ 0`. -/
noncomputable def simplexArgs : Args ℝ := ⟨100, ⟨3, fun _ => 1 / 3⟩, ⟨1, 3, ones3⟩, ⟨1, fun _ => 1⟩, 3, 0, 1, 7⟩

/-- A basis of `x₁ + x₂ + x₃ = 0`. -/
def simplexBasis : Matrix (Fin 3) (Fin 2) ℝ := Matrix.of ![![1, 0], ![0, 1], ![-1, -1]]

theorem ones3_kernel : IsKernelBasis ones3 simplexBasis := by
  refine ⟨?_, fun u hu => ?_, fun v hv => ?_⟩
  · ext i j
    fin_cases j <;> simp [Matrix.mul_apply, Fin.sum_univ_three, simplexBasis, ones3]
  · have h0 := congrFun hu (0 : Fin 3)
    have h1 := congrFun hu (1 : Fin 3)
    simp [simplexBasis, Matrix.mulVec, dotProduct, Fin.sum_univ_two] at h0 h1
    funext i
    fin_cases i
    · exact h0
    · exact h1
  · have h := congrFun hv 0
    simp [Matrix.mulVec, dotProduct, Fin.sum_univ_three, ones3] at h
    refine ⟨![v 0, v 1], ?_⟩
    funext i
    fin_cases i <;> simp [simplexBasis, Matrix.mulVec, dotProduct, Fin.sum_univ_two]
    linarith

theorem ones3_indep : IndepRows ones3 := by
  intro y hy
  have h := congrFun hy (0 : Fin 3)
  simp [Matrix.vecMul, dotProduct, ones3] at h
  funext i
  rw [Subsingleton.elim i 0]; exact h

theorem simplexBasis_basis : IsKernelBasis simplexArgs.A.val simplexBasis := ones3_kernel

/-- On the simplex, samples within `ε` of uniform. -/
example (E : Eigen ℝ) (hE : E.SparseLUExact) (ε : ℝ) (hε : 0 < ε) : ∃ η > 0, ∀ ERR, 0 < ERR → ERR < η →
    SamplesNearLaw (.sparseHitRun 2 ERR E) streamEnv streamLaw simplexArgs (uniformOnEq (fun _ => 1 / 3) simplexBasis 3)
      fun _ => ENNReal.ofReal ε := by
  refine C59_sparse_limit 2 E hE streamEnv streamLaw streamRng_ideal simplexArgs
    ⟨by decide, by decide, by decide, by decide, by decide⟩ rfl ⟨by decide, by decide⟩ ?_ (by decide) (fun _ => 1 / 3) ?_ ?_
    simplexBasis simplexBasis_basis ε hε
  · exact ones3_indep
  · intro i _
    show (0 : ℝ) < 1 / 3
    norm_num
  · have hle : ∀ y ∈ PolyEq ones3 (ones3 *ᵥ fun _ => 1 / 3) 3,
        ∀ i, 0 ≤ y i ∧ y i ≤ 1 := by
      rintro y ⟨hy, hp⟩
      have h := congrFun hy 0
      simp [Matrix.mulVec, dotProduct, Fin.sum_univ_three, ones3] at h
      have p0 : 0 ≤ y 0 := hp 0 (by simp)
      have p1 : 0 ≤ y 1 := hp 1 (by simp)
      have p2 : 0 ≤ y 2 := hp 2 (by simp)
      intro i
      fin_cases i <;> constructor <;> simp <;> linarith
    intro y hy z hz
    have hy' := hle y hy
    have hz' := hle z hz
    have h1 : ∀ i : Fin 3, (y i - z i) ^ 2 ≤ 1 := fun i => by
      have := hy' i; have := hz' i
      nlinarith
    have h2 : ∑ i : Fin 3, (y i - z i) ^ 2 ≤ 3 := by
      rw [Fin.sum_univ_three]
      linarith [h1 0, h1 1, h1 2]
    refine lt_of_le_of_lt h2 ?_
    have h3 : (1 : ℝ) ≤ 2 ^ 10000 := one_le_pow₀ one_le_two
    rw [abs_two]
    generalize (2 : ℝ) ^ 10000 = c at h3
    nlinarith

end PW
