import Verif.Lemmas.NearLaw
import Verif.Lemmas.DenseReverse

/-!
# C59: Hit-and-Run samples are uniform up to the chord tolerance
-/

namespace PW
open Matrix MeasureTheory Set
open scoped ENNReal

/-! ## Chords of bounded open sets -/

section
variable {d : ℕ}

theorem lineLen_mono {U W : Set (Fin d → ℝ)} (h : U ⊆ W) (c y : Fin d → ℝ) : lineLen U c y ≤ lineLen W c y := by
  refine lintegral_mono fun t => ?_
  exact indicator_le_indicator_of_subset h (fun _ => zero_le) _

theorem lineLen_ne_zero {U : Set (Fin d → ℝ)} (hU : IsOpen U) (c : Fin d → ℝ) {y : Fin d → ℝ} (hy : y ∈ U) :
    lineLen U c y ≠ 0 := by
  rw [lineLen_eq hU.measurableSet]
  have hc : Continuous fun t : ℝ => y + t • c := by fun_prop
  have ho : IsOpen {t : ℝ | y + t • c ∈ U} := hU.preimage hc
  exact (ho.measure_pos volume ⟨0, by simpa using hy⟩).ne'

theorem lineLen_ne_top {U : Set (Fin d → ℝ)} (hU : MeasurableSet U) {c : Fin d → ℝ} (hc : c ≠ 0) {B : ℝ}
    (hB : ∀ z ∈ U, ∀ i, |z i| ≤ B) (y : Fin d → ℝ) : lineLen U c y ≠ ⊤ := by
  obtain ⟨i, hi⟩ := Function.ne_iff.1 hc
  rw [lineLen_eq hU]
  have hsub : {t : ℝ | y + t • c ∈ U} ⊆ Icc (-((B + |y i|) / |c i|)) ((B + |y i|) / |c i|) := by
    intro t ht
    have h1 := hB _ ht i
    have h2 : |t * c i| ≤ B + |y i| := by
      have e : t * c i = (y + t • c) i - y i := by simp
      rw [e]
      exact (abs_sub _ _).trans (add_le_add h1 le_rfl)
    rw [abs_mul] at h2
    have h3 : |t| ≤ (B + |y i|) / |c i| := by
      rw [le_div_iff₀ (abs_pos.2 hi)]; exact h2
    exact abs_le.1 h3
  exact ((measure_mono hsub).trans_lt (by simp)).ne

/-- A set that contains the balls of radius `h` around `U` has chords of length `2h` through `U`. -/
theorem lineLen_thicken {U : Set (Fin d → ℝ)} {h : ℝ} {c y : Fin d → ℝ} (hc : IsUnitVec c) (hy : y ∈ U) :
    ENNReal.ofReal (2 * h) ≤ lineLen (toMeasurable volume (Thicken U h)) c y := by
  rw [lineLen_eq (measurableSet_toMeasurable _ _)]
  have hsub : Icc (-h) h ⊆ {t : ℝ | y + t • c ∈ toMeasurable volume (Thicken U h)} := by
    intro t ht
    refine subset_toMeasurable _ _ ⟨y, hy, ?_⟩
    have e : ∀ i, ((y + t • c) i - y i) ^ 2 = t ^ 2 * (c i * c i) := fun i => by
      simp only [Pi.add_apply, Pi.smul_apply, smul_eq_mul]; ring
    rw [Finset.sum_congr rfl fun i _ => e i, ← Finset.mul_sum, show ∑ i, c i * c i = 1 from hc, mul_one]
    exact sq_le_sq' ht.1 ht.2
  refine le_trans (le_of_eq ?_) (measure_mono hsub)
  rw [Real.volume_Icc]
  congr 1; ring

end

/-! ## The dense class -/

section
variable {m n : ℕ}

theorem hitRunDraw_mono {G : Type} (R ERR : ℝ) (A : Matrix (Fin m) (Fin n) ℝ) (b : Fin m → ℝ) (x v : Fin n → ℝ) (val : ℝ)
    (g : G) : FuelMono fun f => hitRunDraw R ERR f A b x v val g := fun _ _ hf =>
  (binarySearch_refines _ _ _ _ _ _ hf).bind fun _ => (binarySearch_refines _ _ _ _ _ _ hf).bind fun _ => .refl _

/-- The direction of one Hit-and-Run step. -/
noncomputable def unitDir (v : Fin n → ℝ) : Fin n → ℝ := fun i => v i / norm2 v

theorem measurable_unitDir : Measurable (unitDir (n := n)) :=
  measurable_pi_lambda _ fun i => (measurable_pi_apply i).div measurable_norm2

/-- The position after one step, in the limit of unbounded fuel. -/
noncomputable def hitRunNext (R ERR : ℝ) (A : Matrix (Fin m) (Fin n) ℝ) (b : Fin m → ℝ) (x v : Fin n → ℝ) (val : ℝ) : Fin n → ℝ :=
  (fuelLimit (fun f => hitRunDraw (G := Unit) R ERR f A b x v val ()) (x, ())).1

theorem measurable_hitRunNext (hm : 0 < m) (R ERR : ℝ) (A : Matrix (Fin m) (Fin n) ℝ) (b : Fin m → ℝ) :
    Measurable fun p : (Fin n → ℝ) × (Fin n → ℝ) × ℝ => hitRunNext R ERR A b p.1 p.2.1 p.2.2 := by
  have := measurable_fuelLimit (X := (Fin n → ℝ) × (Fin n → ℝ) × ℝ) (Y := (Fin n → ℝ) × Unit)
    (o := fun f p => hitRunDraw (G := Unit) R ERR f A b p.1 p.2.1 p.2.2 ())
    (fun f => hitRunDraw_pmeas hm A b R ERR f measurable_fst (measurable_fst.comp measurable_snd)
      (measurable_snd.comp measurable_snd) measurable_const)
    (fun p => hitRunDraw_mono R ERR A b p.1 p.2.1 p.2.2 ()) (y := fun p => (p.1, ())) (measurable_fst.prodMk measurable_const)
  exact this.fst

/-- The segment from which one step draws. -/
theorem hitRunDraw_segment (A : Matrix (Fin m) (Fin n) ℝ) (b : Fin m → ℝ) (x v : Fin n → ℝ) (hv : v ≠ 0)
    (hx : x ∈ Interior A b) (hb : ∃ B, ∀ y ∈ Poly A b, ∀ i, |y i| ≤ B) (R ERR : ℝ) (hR : R ≠ 0) (hE : 0 < ERR)
    (hd : ∀ i j : ℕ, ray x (fun k => v k / norm2 v * 1) (|R| * i / 2 ^ j) ∈ Poly A b →
      ray x (fun k => v k / norm2 v * 1) (|R| * i / 2 ^ j) ∈ Interior A b)
    (hd' : ∀ i j : ℕ, ray x (fun k => v k / norm2 v * (-1)) (|R| * i / 2 ^ j) ∈ Poly A b →
      ray x (fun k => v k / norm2 v * (-1)) (|R| * i / 2 ^ j) ∈ Interior A b) :
    ∃ p q : ℝ, 0 < p + q ∧ (∀ t, -q ≤ t → t ≤ p → x + t • unitDir v ∈ Interior A b) ∧
      (∀ t, x + t • unitDir v ∈ Poly A b → -q - ERR < t ∧ t < p + ERR) ∧
      ∃ f0, ∀ f ≥ f0, ∀ (G : Type) (val : ℝ) (g : G),
        hitRunDraw R ERR f A b x v val g = .ok (x + (val * (p + q) - q) • unitDir v, g) := by
  have hu := normalize_unit v hv
  have e1 : (fun k => v k / norm2 v * 1) = fun k => v k / norm2 v := by funext k; ring
  have e2 : (fun k => v k / norm2 v * (-1)) = fun k => -(v k / norm2 v) := by funext k; ring
  rw [e1] at hd
  rw [e2] at hd'
  have hxP : x ∈ Poly A b := fun i => (hx i).le
  obtain ⟨f1, p, p0, hp, h1⟩ := search_interior A b x _ hu hx hb R ERR hR hE hd
  obtain ⟨f2, q, q0, hq, h2⟩ := search_interior A b x _ hu.neg hx hb R ERR hR hE hd'
  obtain ⟨-, -, ho1⟩ := C12_chord A b x _ hu hxP R ERR p f1 (h1 f1 le_rfl)
  obtain ⟨-, -, ho2⟩ := C12_chord A b x _ hu.neg hxP R ERR q f2 (h2 f2 le_rfl)
  rw [ray_neg] at hq
  have er : ∀ t, x + t • unitDir v = ray x (fun k => v k / norm2 v) t := fun t => by
    funext i; simp [ray, unitDir]
  refine ⟨p, q, by linarith, fun t ht1 ht2 => ?_, fun t ht => ?_, max f1 f2, fun f hf G val g => ?_⟩
  · rw [er]
    exact Interior.between hq hp ht1 ht2
  · rw [er] at ht
    have htP : ray x (fun k => v k / norm2 v) t ∈ Poly A b := ht
    constructor
    · by_contra hlt
      refine ho2 (-t) (by linarith) ?_
      rw [ray_neg, neg_neg]; exact htP
    · by_contra hlt
      exact ho1 t (by linarith) htP
  · unfold hitRunDraw
    rw [h1 f (le_trans (le_max_left _ _) hf), Out.ok_bind, e2, h2 f (le_trans (le_max_right _ _) hf), Out.ok_bind]
    congr 2
    funext i
    simp only [unitDir, Pi.add_apply, Pi.smul_apply, smul_eq_mul]; ring

theorem pos_rows_of_bounded {A : Matrix (Fin m) (Fin n) ℝ} {b : Fin m → ℝ} (hn : 1 ≤ n)
    (hb : ∃ B, ∀ y ∈ Poly A b, ∀ i, |y i| ≤ B) : 0 < m := by
  rcases Nat.eq_zero_or_pos m with h0 | h
  · exfalso
    obtain ⟨B, hB⟩ := hb
    have := hB (fun _ => |B| + 1) (fun i => absurd i.isLt (by omega)) ⟨0, by omega⟩
    rw [abs_of_pos (by positivity)] at this
    have := le_abs_self B
    linarith
  · exact h

theorem hitRun_ae_segment (hn : 2 ≤ n) (A : Matrix (Fin m) (Fin n) ℝ) (b : Fin m → ℝ) (x : Fin n → ℝ)
    (hx : x ∈ Interior A b) (hb : ∃ B, ∀ y ∈ Poly A b, ∀ i, |y i| ≤ B) (R ERR : ℝ) (hR : R ≠ 0) (hE : 0 < ERR) :
    ∀ᵐ v ∂(stdNormal n), ∃ p q : ℝ, 0 < p + q ∧ (∀ t, -q ≤ t → t ≤ p → x + t • unitDir v ∈ Interior A b) ∧
      (∀ t, x + t • unitDir v ∈ Poly A b → -q - ERR < t ∧ t < p + ERR) ∧
      ∃ f0, ∀ f ≥ f0, ∀ (G : Type) (val : ℝ) (g : G),
        hitRunDraw R ERR f A b x v val g = .ok (x + (val * (p + q) - q) • unitDir v, g) := by
  have hne : ∀ᵐ v ∂(volume : Measure (Fin n → ℝ)), v ≠ 0 := by
    have : Nonempty (Fin n) := ⟨⟨0, by omega⟩⟩
    rw [ae_iff]; simp
  have hall := (stdNormal_ac n).ae_le ((ae_dyadic hn A b hx R 1).and ((ae_dyadic hn A b hx R (-1)).and hne))
  filter_upwards [hall] with v hv
  exact hitRunDraw_segment A b x v hv.2.2 hx hb R ERR hR hE hv.1 hv.2.1

theorem hitRunNext_eq {R ERR : ℝ} {A : Matrix (Fin m) (Fin n) ℝ} {b : Fin m → ℝ} {x v x' : Fin n → ℝ} {val : ℝ} {f0 : ℕ}
    (h : ∀ f ≥ f0, hitRunDraw R ERR f A b x v val () = .ok (x', ())) : hitRunNext R ERR A b x v val = x' := by
  unfold hitRunNext
  rw [fuelLimit_eq h]

/-- One step from the uniform distribution. -/
theorem hitRun_step_near (hn : 2 ≤ n) (A : Matrix (Fin m) (Fin n) ℝ) (b : Fin m → ℝ) (hne : ∃ x, x ∈ Interior A b)
    (hb : ∃ B, ∀ y ∈ Poly A b, ∀ i, |y i| ≤ B) (R ERR : ℝ) (hR : R ≠ 0) (hE : 0 < ERR) {h : ℝ} (hh : 0 < h)
    {F : (Fin n → ℝ) → ℝ≥0∞} (hF : Measurable F) (h1 : ∀ z, F z ≤ 1) :
    (∫⁻ x, ∫⁻ v, ∫⁻ val, F (hitRunNext R ERR A b x v val) ∂unitLaw ∂(stdNormal n) ∂(uniformOn A b)) ≤
      (∫⁻ x, F x ∂(uniformOn A b)) + ENNReal.ofReal (ERR / h) * volume (Thicken (Poly A b) h) ∧
    (∫⁻ x, F x ∂(uniformOn A b)) ≤
      (∫⁻ x, ∫⁻ v, ∫⁻ val, F (hitRunNext R ERR A b x v val) ∂unitLaw ∂(stdNormal n) ∂(uniformOn A b)) +
        ENNReal.ofReal (ERR / h) * volume (Thicken (Poly A b) h) := by
  obtain ⟨x₀, hx₀⟩ := hne
  have hrestr : uniformOn A b = volume.restrict (Interior A b) := (Measure.restrict_congr_set (poly_boundary_null hx₀)).symm
  have hprob : IsProbabilityMeasure (stdNormal n) := inferInstance
  have hunit : ∀ᵐ v ∂(stdNormal n), IsUnitVec (unitDir v) := by
    have hne : ∀ᵐ v ∂(volume : Measure (Fin n → ℝ)), v ≠ 0 := by
      have : Nonempty (Fin n) := ⟨⟨0, by omega⟩⟩
      rw [ae_iff]; simp
    filter_upwards [(stdNormal_ac n).ae_le hne] with v hv
    exact normalize_unit v hv
  have key := hitRun_near (stdNormal n) (U := Interior A b) (W := toMeasurable volume (Thicken (Poly A b) h))
    (measurableSet_interior A b) (measurableSet_toMeasurable _ _) measurable_unitDir hE.le hh
    (by
      filter_upwards [hunit] with v hv y hy
      exact lineLen_thicken hv (interior_subset A b hy))
    (by
      filter_upwards [hunit] with v hv y hy
      refine ⟨lineLen_ne_zero (isOpen_interior A b) _ hy, ?_⟩
      obtain ⟨B, hB⟩ := hb
      refine lineLen_ne_top (measurableSet_interior A b) ?_ (fun z hz => hB z (interior_subset A b hz)) y
      intro h0
      rw [h0] at hv
      simp [IsUnitVec] at hv)
    hF h1 (fun x v => ∫⁻ val, F (hitRunNext R ERR A b x v val) ∂unitLaw)
    (by
      intro y hy
      filter_upwards [hitRun_ae_segment hn A b y hy hb R ERR hR hE] with v hv
      obtain ⟨p, q, hpq, hin, hout, f0, hf⟩ := hv
      refine ⟨p, q, hpq, hin, fun t ht => ?_, ?_⟩
      · have := hout t (interior_subset A b ht)
        exact ⟨this.1.le, this.2.le⟩
      refine lintegral_congr fun val => ?_
      rw [hitRunNext_eq fun f hf' => hf f hf' Unit val ()])
  rw [measure_toMeasurable] at key
  rw [hrestr]
  exact key

end

/-- Almost every iteration from the interior returns and stays there. -/
theorem hitRun_next_ae {m n : ℕ} {A : Matrix (Fin m) (Fin n) ℝ} {b : Fin m → ℝ} (hn : 2 ≤ n) (R ERR : ℝ) (hR : R ≠ 0) (hE : 0 < ERR)
    (hb : ∃ B, ∀ y ∈ Poly A b, ∀ i, |y i| ≤ B) (G : Type) :
    ∀ x ∈ Interior A b, ∀ᵐ v ∂(stdNormal n), ∀ val ∈ Icc (0 : ℝ) 1, hitRunNext R ERR A b x v val ∈ Interior A b ∧
      ∃ f0, ∀ f ≥ f0, ∀ g : G, hitRunDraw R ERR f A b x v val g = .ok (hitRunNext R ERR A b x v val, g) := by
  intro x hx
  filter_upwards [hitRun_ae_segment hn A b x hx hb R ERR hR hE] with v hv val hval
  obtain ⟨p, q, hpq, hin, -, f0, hf⟩ := hv
  rw [hitRunNext_eq fun f hf' => hf f hf' Unit val ()]
  exact ⟨hin _ (by nlinarith [hval.1]) (by nlinarith [hval.2]), f0, fun f hf' g => hf f hf' _ val g⟩

theorem uniformOn_interior {m n : ℕ} {A : Matrix (Fin m) (Fin n) ℝ} {b : Fin m → ℝ} {x₀ : Fin n → ℝ} (hx₀ : x₀ ∈ Interior A b) :
    uniformOn A b = volume.restrict (Interior A b) := (Measure.restrict_congr_set (poly_boundary_null hx₀)).symm

theorem uniformOn_ae {m n : ℕ} {A : Matrix (Fin m) (Fin n) ℝ} {b : Fin m → ℝ} {x₀ : Fin n → ℝ} (hx₀ : x₀ ∈ Interior A b) :
    ∀ᵐ x ∂(uniformOn A b), x ∈ Interior A b := by
  rw [uniformOn_interior hx₀]
  exact ae_restrict_mem (measurableSet_interior A b)

theorem hitRun_row_event (R ERR : ℝ) (hR : R ≠ 0) (hE : 0 < ERR) (e : Env ℝ) [MeasurableSpace e.r.G] (μ : Measure e.r.G)
    (hs : IdealSource e.r μ) (a : Args ℝ) (hg : GoodInts a.niter a.burnin a.thin) (hAb : a.A.r = a.b.n) (hn : 2 ≤ a.A.c)
    (hx : ∃ x, x ∈ Interior a.A.val (a.b.at hAb.symm)) (hb : ∃ B, ∀ y ∈ Poly a.A.val (a.b.at hAb.symm), ∀ i, |y i| ≤ B)
    (j : ℕ) (hj : (j : Int) < (a.niter - a.burnin) / a.thin) (T : Set (Fin a.A.c → ℝ)) :
    ((uniformOn a.A.val (a.b.at hAb.symm)).prod μ) {p | ∃ (f0 : ℕ) (rows : List (Fin a.A.c → ℝ)),
      (∀ f ≥ f0, (Walk.hitRun R ERR).run ((e.withGen p.2).withFuel f) (a.from p.1) = .ok rows) ∧
        ∃ hj : j < rows.length, rows[j] ∈ T} =
      ((uniformOn a.A.val (a.b.at hAb.symm)).prod μ) (chainEvent (fun f => HitRun.step R ERR f e.r a.A.val (a.b.at hAb.symm))
        (a.burnin + ((j : Int) + 1) * a.thin).toNat T) := by
  have := hs.prob
  have hm := pos_rows_of_bounded (by omega) hb
  obtain ⟨x₀, hx₀⟩ := hx
  set A := a.A.val with hA
  set b := a.b.at hAb.symm with hbdef
  have hae := uniformOn_ae hx₀
  have hK := hitRun_next_ae hn R ERR hR hE hb e.r.G
  have hdraw := fun f => hitRunDraw_pmeas (G := e.r.G) hm A b R ERR f measurable_fst (measurable_fst.comp measurable_snd)
      (measurable_fst.comp (measurable_snd.comp measurable_snd)) (measurable_snd.comp (measurable_snd.comp measurable_snd))
  have hret : ∀ᵐ p ∂((uniformOn A b).prod μ), ∀ t, p ∈ chainEvent (fun f => HitRun.step R ERR f e.r A b) t univ := by
    refine chain_returns_prod e.r μ stdNormal hs (Interior A b) (measurableSet_interior A b) (uniformOn A b) hae _
      (fun f => hitRunDraw R ERR f A b) (fun f x g => hitRun_step_draw R ERR f e.r A b x g) hdraw ?_
    intro x hx
    filter_upwards [hK x hx] with v hv val hval
    obtain ⟨h1, f0, h2⟩ := hv val hval
    exact ⟨f0, _, h1, h2⟩
  refine measure_congr ?_
  filter_upwards [hret] with p hp
  have hd : (a.from p.1).DimsOk := ⟨rfl, hAb⟩
  have hc : ∀ f t, (Walk.hitRun R ERR).chain ((e.withGen p.2).withFuel f) (a.from p.1) hd t =
      iter (HitRun.step R ERR f e.r A b) t p := by
    intro f t
    have h1 : (Walk.hitRun R ERR).chain ((e.withGen p.2).withFuel f) (a.from p.1) hd t =
        iter (HitRun.step R ERR f (e.withGen p.2).r A b) t
          (p.1, (e.withGen p.2).r.initRng a.seed (e.withGen p.2).rd) := rfl
    rw [h1, withGen_init]
    exact congrArg (fun st => iter st t (p.1, p.2)) (withGen_hitRunStep R ERR e p.2 f A b)
  have := rows_event (Walk.hitRun R ERR) (e.withGen p.2) (a.from p.1) hg hd (fun h => by cases h)
    (fun t => by
      obtain ⟨f0, h⟩ := hp t
      refine ⟨f0, fun f hf => ?_⟩
      obtain ⟨s, h, -⟩ := h f hf
      exact ⟨s, (hc f t).trans h⟩) j hj T
  refine propext (this.trans ?_)
  show (∃ f0, ∀ f ≥ f0, ∃ s, _ ∧ _) ↔ ∃ f0, ∀ f ≥ f0, ∃ s, _ ∧ _
  constructor
  · rintro ⟨f0, h⟩
    refine ⟨f0, fun f hf => ?_⟩
    obtain ⟨s, h1, h2⟩ := h f hf
    exact ⟨s, (hc f _).symm.trans h1, h2⟩
  · rintro ⟨f0, h⟩
    refine ⟨f0, fun f hf => ?_⟩
    obtain ⟨s, h1, h2⟩ := h f hf
    exact ⟨s, (hc f _).trans h1, h2⟩

/-- **C59** (`HitAndRun`): on a bounded polytope of dimension at least two with an interior point, with ideal random draws
and exact arithmetic: if the initial point is uniform, the law of row `j` differs from the uniform law by at most
`(ERR / h) · vol(K_h)` for each of the iterations made so far, where `K_h` are the points at distance at most `h` from
the polytope, for every `h > 0`. -/
theorem C59_dense (R ERR : ℝ) (hR : R ≠ 0) (hE : 0 < ERR) (e : Env ℝ) [MeasurableSpace e.r.G] (μ : Measure e.r.G)
    (hs : IdealSource e.r μ) (a : Args ℝ) (hg : GoodInts a.niter a.burnin a.thin) (hAb : a.A.r = a.b.n) (hn : 2 ≤ a.A.c)
    (hx : ∃ x, x ∈ Interior a.A.val (a.b.at hAb.symm)) (hb : ∃ B, ∀ y ∈ Poly a.A.val (a.b.at hAb.symm), ∀ i, |y i| ≤ B)
    (h : ℝ) (hh : 0 < h) :
    SamplesNearLaw (.hitRun R ERR) e μ a (uniformOn a.A.val (a.b.at hAb.symm)) fun j =>
      (a.burnin + ((j : Int) + 1) * a.thin).toNat *
        (ENNReal.ofReal (ERR / h) * volume (Thicken (Poly a.A.val (a.b.at hAb.symm)) h)) := by
  intro j hj T hT
  have := hs.prob
  have hm := pos_rows_of_bounded (by omega) hb
  obtain ⟨x₀, hx₀⟩ := hx
  set A := a.A.val with hA
  set b := a.b.at hAb.symm with hbdef
  have hae := uniformOn_ae hx₀
  have hK := hitRun_next_ae hn R ERR hR hE hb e.r.G
  have hdraw := fun f => hitRunDraw_pmeas (G := e.r.G) hm A b R ERR f measurable_fst (measurable_fst.comp measurable_snd)
      (measurable_fst.comp (measurable_snd.comp measurable_snd)) (measurable_snd.comp (measurable_snd.comp measurable_snd))
  have key := chain_near e.r μ stdNormal hs (Interior A b) (uniformOn A b) hae
    (fun f => HitRun.step R ERR f e.r A b) (fun f => hitRunDraw R ERR f A b)
    (fun f x g => hitRun_step_draw R ERR f e.r A b x g) hdraw
    (hitRunNext R ERR A b) (measurable_hitRunNext hm R ERR A b) hK
    (ENNReal.ofReal (ERR / h) * volume (Thicken (Poly A b) h))
    (fun F hF h1 => hitRun_step_near hn A b ⟨x₀, hx₀⟩ hb R ERR hR hE hh hF h1) T hT
    (a.burnin + ((j : Int) + 1) * a.thin).toNat
  rw [hitRun_row_event R ERR hR hE e μ hs a hg hAb hn ⟨x₀, hx₀⟩ hb j hj T]
  exact key

/-- A bounded set has thickenings of finite volume. -/
theorem volume_thicken_lt_top {n : ℕ} {K : Set (Fin n → ℝ)} (hb : ∃ B, ∀ y ∈ K, ∀ i, |y i| ≤ B) (h : ℝ) :
    volume (Thicken K h) < ⊤ := by
  obtain ⟨B, hB⟩ := hb
  have hsub : Thicken K h ⊆ Set.pi univ fun _ => Icc (-(B + |h|)) (B + |h|) := by
    rintro y ⟨x, hx, hd⟩ i -
    have h1 : (y i - x i) ^ 2 ≤ h ^ 2 :=
      (Finset.single_le_sum (f := fun i => (y i - x i) ^ 2) (fun _ _ => sq_nonneg _) (Finset.mem_univ i)).trans hd
    have h2 : |y i - x i| ≤ |h| := sq_le_sq.1 h1
    have h3 : |y i| ≤ B + |h| := by
      have : y i = x i + (y i - x i) := by ring
      rw [this]
      exact (abs_add_le _ _).trans (add_le_add (hB x hx i) h2)
    exact abs_le.1 h3
  refine (measure_mono hsub).trans_lt ?_
  rw [volume_pi_pi]
  exact ENNReal.prod_lt_top fun i _ => by simp

/-- An error that goes to zero. -/
theorem small_error (V : ℝ≥0∞) (hV : V < ⊤) (M : ℕ) (ε : ℝ) (hε : 0 < ε) :
    ∃ η > 0, ∀ ERR, 0 < ERR → ERR < η → (M : ℝ≥0∞) * (ENNReal.ofReal (ERR / 1) * V) ≤ ENNReal.ofReal ε := by
  refine ⟨ε / (M * V.toReal + 1), by positivity, fun ERR h0 h1 => ?_⟩
  rw [lt_div_iff₀ (by positivity)] at h1
  have e : (M : ℝ≥0∞) * (ENNReal.ofReal (ERR / 1) * V) = ENNReal.ofReal (M * (ERR * V.toReal)) := by
    rw [ENNReal.ofReal_mul (by positivity), ENNReal.ofReal_mul h0.le, ENNReal.ofReal_toReal hV.ne, div_one, ENNReal.ofReal_natCast]
  rw [e]
  refine ENNReal.ofReal_le_ofReal ?_
  nlinarith

theorem SamplesNearLaw.mono {w : Walk ℝ} {e : Env ℝ} [MeasurableSpace e.r.G] {μ : Measure e.r.G} {a : Args ℝ}
    {π : Measure (Fin a.A.c → ℝ)} {δ δ' : ℕ → ℝ≥0∞} (h : SamplesNearLaw w e μ a π δ)
    (hd : ∀ j : ℕ, (j : Int) < (a.niter - a.burnin) / a.thin → δ j ≤ δ' j) : SamplesNearLaw w e μ a π δ' :=
  fun j hj T hT => ⟨(h j hj T hT).1.trans (add_le_add le_rfl (hd j hj)),
    (h j hj T hT).2.trans (add_le_add le_rfl (hd j hj))⟩

/-- Row `j` is recorded after at most `niter` iterations. -/
theorem row_time_le {niter burnin thin : Int} (hg : GoodInts niter burnin thin) {j : ℕ}
    (hj : (j : Int) < (niter - burnin) / thin) : (burnin + ((j : Int) + 1) * thin).toNat ≤ niter.toNat := by
  have ht : 0 < thin := by have := hg.thin_pos; omega
  have h1 : ((j : Int) + 1) ≤ (niter - burnin) / thin := by omega
  have h2 := (Int.le_ediv_iff_mul_le ht).1 h1
  omega

/-- **C59** (`HitAndRun`): the samples are as close to uniform as wanted if the tolerance `err` is small enough. -/
theorem C59_dense_limit (R : ℝ) (hR : R ≠ 0) (e : Env ℝ) [MeasurableSpace e.r.G] (μ : Measure e.r.G)
    (hs : IdealSource e.r μ) (a : Args ℝ) (hg : GoodInts a.niter a.burnin a.thin) (hAb : a.A.r = a.b.n) (hn : 2 ≤ a.A.c)
    (hx : ∃ x, x ∈ Interior a.A.val (a.b.at hAb.symm)) (hb : ∃ B, ∀ y ∈ Poly a.A.val (a.b.at hAb.symm), ∀ i, |y i| ≤ B)
    (ε : ℝ) (hε : 0 < ε) :
    ∃ η > 0, ∀ ERR, 0 < ERR → ERR < η →
      SamplesNearLaw (.hitRun R ERR) e μ a (uniformOn a.A.val (a.b.at hAb.symm)) fun _ => ENNReal.ofReal ε := by
  obtain ⟨η, h0, h1⟩ := small_error _ (volume_thicken_lt_top hb 1) a.niter.toNat ε hε
  refine ⟨η, h0, fun ERR hE hlt => ?_⟩
  refine (C59_dense R ERR hR hE e μ hs a hg hAb hn hx hb 1 one_pos).mono fun j hj => le_trans ?_ (h1 ERR hE hlt)
  exact mul_le_mul_left (by exact_mod_cast row_time_le hg hj) _

/-! ## The sparse class -/

section
variable {m n d : ℕ}

theorem lineLen_chart_ne_top {U : Set (Fin d → ℝ)} (hU : MeasurableSet U) {x₀ : Fin n → ℝ} {B : Matrix (Fin n) (Fin d) ℝ}
    {c : Fin d → ℝ} (hc : B *ᵥ c ≠ 0) {M : ℝ} (hM : ∀ z ∈ U, ∀ i, |chart x₀ B z i| ≤ M) (y : Fin d → ℝ) : lineLen U c y ≠ ⊤ := by
  obtain ⟨i, hi⟩ := Function.ne_iff.1 hc
  rw [lineLen_eq hU]
  have hsub : {t : ℝ | y + t • c ∈ U} ⊆
      Icc (-((M + |chart x₀ B y i|) / |(B *ᵥ c) i|)) ((M + |chart x₀ B y i|) / |(B *ᵥ c) i|) := by
    intro t ht
    have h1 := hM _ ht i
    have h2 : |t * (B *ᵥ c) i| ≤ M + |chart x₀ B y i| := by
      have e : t * (B *ᵥ c) i = chart x₀ B (y + t • c) i - chart x₀ B y i := by
        simp [chart, Matrix.mulVec_add, Matrix.mulVec_smul]
      rw [e]
      exact (abs_sub _ _).trans (add_le_add h1 le_rfl)
    rw [abs_mul] at h2
    have h3 : |t| ≤ (M + |chart x₀ B y i|) / |(B *ᵥ c) i| := by
      rw [le_div_iff₀ (abs_pos.2 hi)]; exact h2
    exact abs_le.1 h3
  exact ((measure_mono hsub).trans_lt (by simp)).ne

theorem isOpen_tailPos (n k : ℕ) : IsOpen (TailPos n k) := by
  have : TailPos n k = ⋂ i : Fin n, ⋂ _ : n - k ≤ i.val, {x | 0 < x i} := by ext; simp [TailPos]
  rw [this]
  exact isOpen_iInter_of_finite fun i => isOpen_iInter_of_finite fun _ => isOpen_lt continuous_const (continuous_apply i)

theorem sparseHitRunDraw_mono {G : Type} (R ERR : ℝ) (E : Eigen ℝ) (A : Matrix (Fin m) (Fin n) ℝ) (k : ℕ) (x v : Fin n → ℝ)
    (val : ℝ) (g : G) : FuelMono fun f => sparseHitRunDraw R ERR f E A k x v val g := fun _ _ hf =>
  (sparseBinarySearch_refines _ _ _ _ _ hf).bind fun _ => (sparseBinarySearch_refines _ _ _ _ _ hf).bind fun _ => .refl _

/-- The position after one step, in the limit of unbounded fuel. -/
noncomputable def sparseHitRunNext (R ERR : ℝ) (E : Eigen ℝ) (A : Matrix (Fin m) (Fin n) ℝ) (k : ℕ) (x v : Fin n → ℝ)
    (val : ℝ) : Fin n → ℝ := (fuelLimit (fun f => sparseHitRunDraw (G := Unit) R ERR f E A k x v val ()) (x, ())).1

theorem measurable_sparseHitRunNext {E : Eigen ℝ} (hE : E.SparseLUExact) {A : Matrix (Fin m) (Fin n) ℝ} (hA : IndepRows A)
    {k : ℕ} (hk : 1 ≤ k) (hkn : k ≤ n) (R ERR : ℝ) :
    Measurable fun p : (Fin n → ℝ) × (Fin n → ℝ) × ℝ => sparseHitRunNext R ERR E A k p.1 p.2.1 p.2.2 := by
  have hi : Measurable fun p : (Fin n → ℝ) × (Fin n → ℝ) × ℝ => (p.1, p.2.1, p.2.2, ()) :=
    measurable_fst.prodMk ((measurable_fst.comp measurable_snd).prodMk ((measurable_snd.comp measurable_snd).prodMk measurable_const))
  have h1 : ∀ f, PMeas fun p : (Fin n → ℝ) × (Fin n → ℝ) × ℝ => sparseHitRunDraw (G := Unit) R ERR f E A k p.1 p.2.1 p.2.2 () := by
    intro f
    have h2 := sparseHitRunDraw_pmeas (G := Unit) hE hA hk hkn R ERR f
    generalize sparseHitRunDraw (G := Unit) R ERR f E A k = o at h2 ⊢
    exact h2.comp hi
  have h2 : ∀ p : (Fin n → ℝ) × (Fin n → ℝ) × ℝ, FuelMono fun f => sparseHitRunDraw (G := Unit) R ERR f E A k p.1 p.2.1 p.2.2 () :=
    fun p => sparseHitRunDraw_mono R ERR E A k p.1 p.2.1 p.2.2 ()
  unfold sparseHitRunNext
  generalize (fun f => sparseHitRunDraw (G := Unit) R ERR f E A k) = o at h1 h2 ⊢
  have := measurable_fuelLimit (X := (Fin n → ℝ) × (Fin n → ℝ) × ℝ) (Y := (Fin n → ℝ) × Unit)
    h1 h2 (y := fun p => (p.1, ())) (measurable_fst.prodMk measurable_const)
  exact this.fst

theorem sparseHitRunNext_eq {R ERR : ℝ} {E : Eigen ℝ} {A : Matrix (Fin m) (Fin n) ℝ} {k : ℕ} {x v x' : Fin n → ℝ} {val : ℝ}
    {f0 : ℕ} (h : ∀ f ≥ f0, sparseHitRunDraw R ERR f E A k x v val () = .ok (x', ())) :
    sparseHitRunNext R ERR E A k x v val = x' := by
  unfold sparseHitRunNext
  rw [fuelLimit_eq h]

/-- The expansion ends if the chord is shorter than the longest try. -/
theorem sexpandR_some (P : ℝ → Prop) (fuel : ℕ) (t : ℝ) (h : ¬ P (2 ^ (fuel + 1) * |t|)) : sexpandR P (fuel + 1) t ≠ none := by
  induction fuel generalizing t with
  | zero =>
    rw [zero_add, pow_one] at h
    rw [sexpandR, if_neg h]
    exact fun h => by cases h
  | succ fuel ih =>
    rw [sexpandR]
    split_ifs with hk
    · apply ih
      rw [abs_mul, abs_abs, abs_two]
      rw [pow_succ, mul_assoc] at h
      exact h
    · exact fun h => by cases h

/-- One end of the sampled segment. -/
theorem ssearch_end {k : ℕ} (hk : 1 ≤ k) (hkn : k ≤ n) (x u : Fin n → ℝ) (hu : IsUnitVec u) (hx : x ∈ TailPos n k)
    (R ERR : ℝ) (hE : 0 < ERR)
    (hd : ∀ i j : ℕ, ray x u (|R| * i / 2 ^ j) ∈ TailNonneg n k → ray x u (|R| * i / 2 ^ j) ∈ TailPos n k)
    (hfar : ray x u (2 ^ 10000 * |R|) ∉ TailNonneg n k) :
    ∃ fuel t, 0 < t ∧ ray x u t ∈ TailPos n k ∧ (∀ s, t + ERR ≤ s → ray x u s ∉ TailNonneg n k) ∧
      ∀ f ≥ fuel, SparseHitRun.binarySearch R ERR f k u x = .ok t := by
  have h0 : ray x u 0 ∈ TailNonneg n k := by rw [ray_zero]; exact fun i hi => (hx i hi).le
  obtain ⟨fuel, t, ht0, htP, h⟩ := ssearch_interior hk hkn x u hu hx R ERR hE hd
  have h1 := h fuel le_rfl
  rw [chord_sparse hk hkn x u hu] at h1
  obtain ⟨t', h2, h3⟩ := Out.map_eq_ok.1 h1
  rcases schordR_spec _ h0 R ERR fuel h2 with ⟨-, h4⟩ | ⟨h4, h5, s, h6, h7, h8⟩
  · exact absurd h4 (sexpandR_some (fun t => ray x u t ∈ TailNonneg n k) 9999 R hfar)
  · rw [abs_of_pos h4] at h3
    subst h3
    exact ⟨fuel, t', h4, htP, fun s' hs' hin => h8 (TailNonneg.between h0 hin (by linarith) (by linarith)), h⟩

/-- The direction of a sparse Hit-and-Run step. -/
noncomputable def kerDir (A : Matrix (Fin m) (Fin n) ℝ) (v : Fin n → ℝ) : Fin n → ℝ :=
  normalize ((1 - Aᵀ * (A * Aᵀ)⁻¹ * A) *ᵥ v)

theorem kerDir_ker {A : Matrix (Fin m) (Fin n) ℝ} (hA : IndepRows A) (v : Fin n → ℝ) : A *ᵥ kerDir A v = 0 := by
  have h : A *ᵥ ((1 - Aᵀ * (A * Aᵀ)⁻¹ * A) *ᵥ v) = 0 := by
    rw [Matrix.mulVec_mulVec, projKer_ker (PosDef.isUnit_det hA.posDef), Matrix.zero_mulVec]
  exact normalize_ker h

theorem measurable_kerDir (A : Matrix (Fin m) (Fin n) ℝ) : Measurable (kerDir A) :=
  measurable_normalize.comp (Continuous.measurable (Continuous.matrix_mulVec continuous_const continuous_id))

theorem ae_kerDir_unit (A : Matrix (Fin m) (Fin n) ℝ) (hmn : m + 2 ≤ n) :
    ∀ᵐ v ∂(volume : Measure (Fin n → ℝ)), IsUnitVec (kerDir A v) := by
  set P : Matrix (Fin n) (Fin n) ℝ := 1 - Aᵀ * (A * Aᵀ)⁻¹ * A with hP
  obtain ⟨e, he, hAe, -⟩ := exists_tangent A hmn ⟨0, by omega⟩
  have hPe : P *ᵥ e = e := by
    rw [hP, Matrix.sub_mulVec, Matrix.one_mulVec, ← Matrix.mulVec_mulVec, hAe, Matrix.mulVec_zero, sub_zero]
  obtain ⟨i, hi⟩ := Function.ne_iff.1 he
  have hrow : P i ≠ 0 := by
    intro h
    apply hi
    rw [← hPe]
    show P i ⬝ᵥ e = 0
    rw [h, zero_dotProduct]
  have h1 : ∀ᵐ v ∂(volume : Measure (Fin n → ℝ)), ¬ (0 + P i ⬝ᵥ v = 0) := by
    rw [ae_iff]
    simpa using hyperplane_null (P i) hrow 0
  filter_upwards [h1] with v hv
  refine normalize_unit _ fun h => hv ?_
  rw [zero_add]
  exact congrFun h i

theorem sum_sq_ray {x u : Fin n → ℝ} (hu : IsUnitVec u) (t : ℝ) : ∑ i, (ray x u t i - x i) ^ 2 = t ^ 2 := by
  have e : ∀ i, (ray x u t i - x i) ^ 2 = t ^ 2 * (u i * u i) := fun i => by simp only [ray]; ring
  rw [Finset.sum_congr rfl fun i _ => e i, ← Finset.mul_sum, show ∑ i, u i * u i = 1 from hu, mul_one]

theorem ray_ker {A : Matrix (Fin m) (Fin n) ℝ} {u : Fin n → ℝ} (hu : A *ᵥ u = 0) (x : Fin n → ℝ) (t : ℝ) :
    A *ᵥ ray x u t = A *ᵥ x := by
  have e : ray x u t = x + t • u := by funext i; simp [ray]
  rw [e, Matrix.mulVec_add, Matrix.mulVec_smul, hu, smul_zero, add_zero]

/-- The segment from which one step draws. -/
theorem sparse_ae_segment {E : Eigen ℝ} (hL : E.SparseLUExact) {A : Matrix (Fin m) (Fin n) ℝ} (hA : IndepRows A)
    (hmn : m + 2 ≤ n) {k : ℕ} (hk : 1 ≤ k) (hkn : k ≤ n) {b : Fin m → ℝ} (R ERR : ℝ) (hE : 0 < ERR)
    (hD : ∀ y ∈ PolyEq A b k, ∀ z ∈ PolyEq A b k, ∑ i, (y i - z i) ^ 2 < (2 ^ 10000 * |R|) ^ 2)
    (x : Fin n → ℝ) (hxA : A *ᵥ x = b) (hx : x ∈ TailPos n k) :
    ∀ᵐ v ∂(stdNormal n), ∃ p q : ℝ, 0 < p + q ∧ (∀ t, -q ≤ t → t ≤ p → x + t • kerDir A v ∈ TailPos n k) ∧
      (∀ t, x + t • kerDir A v ∈ TailPos n k → -q - ERR ≤ t ∧ t ≤ p + ERR) ∧
      ∃ f0, ∀ f ≥ f0, ∀ (G : Type) (val : ℝ) (g : G),
        sparseHitRunDraw R ERR f E A k x v val g = .ok (x + (val * (p + q) - q) • kerDir A v, g) := by
  have hx0 : x ∈ TailNonneg n k := tailPos_subset n k hx
  have hfar : ∀ u : Fin n → ℝ, IsUnitVec u → A *ᵥ u = 0 → ray x u (2 ^ 10000 * |R|) ∉ TailNonneg n k := by
    intro u hu huA hin
    have := hD _ ⟨(ray_ker huA x _).trans hxA, hin⟩ x ⟨hxA, hx0⟩
    rw [sum_sq_ray hu] at this
    exact lt_irrefl _ this
  have hall := (stdNormal_ac n).ae_le
    ((ae_dyadic_sparse A hmn hx R 1).and ((ae_dyadic_sparse A hmn hx R (-1)).and (ae_kerDir_unit A hmn)))
  filter_upwards [hall] with v hv
  obtain ⟨hd1, hd2, hu⟩ := hv
  have huA := kerDir_ker hA v
  have hun : A *ᵥ (fun i => -kerDir A v i) = 0 := by
    have : (fun i => -kerDir A v i) = -kerDir A v := rfl
    rw [this, Matrix.mulVec_neg, huA, neg_zero]
  have e1 : (fun l => normalize ((1 - Aᵀ * (A * Aᵀ)⁻¹ * A) *ᵥ v) l * 1) = kerDir A v := by
    funext l; rw [mul_one]; rfl
  have e2 : (fun l => normalize ((1 - Aᵀ * (A * Aᵀ)⁻¹ * A) *ᵥ v) l * (-1)) = fun i => -kerDir A v i := by
    funext l; rw [mul_neg_one]; rfl
  rw [e1] at hd1
  rw [e2] at hd2
  obtain ⟨f1, p, p0, hp, ho1, h1⟩ := ssearch_end hk hkn x _ hu hx R ERR hE hd1 (hfar _ hu huA)
  obtain ⟨f2, q, q0, hq, ho2, h2⟩ := ssearch_end hk hkn x _ hu.neg hx R ERR hE hd2 (hfar _ hu.neg hun)
  rw [ray_neg] at hq
  have er : ∀ t, x + t • kerDir A v = ray x (kerDir A v) t := fun t => by funext i; simp [ray]
  refine ⟨p, q, by linarith, fun t ht1 ht2 => ?_, fun t ht => ?_, max f1 f2, fun f hf G val g => ?_⟩
  · rw [er]; exact TailPos.between hq hp ht1 ht2
  · rw [er] at ht
    have htP := tailPos_subset n k ht
    constructor
    · by_contra hlt
      refine ho2 (-t) (by linarith) ?_
      rw [ray_neg, neg_neg]; exact htP
    · by_contra hlt
      exact ho1 t (by linarith) htP
  · unfold sparseHitRunDraw
    rw [kernelProject_real hL hA]
    show (SparseHitRun.binarySearch R ERR f k (kerDir A v) x).bind (fun p =>
      (SparseHitRun.binarySearch R ERR f k (fun i => -kerDir A v i) x).bind fun q =>
      .ok (fun i => (val * (p - -q) + -q) * kerDir A v i + x i, g)) = _
    rw [h1 f (le_trans (le_max_left _ _) hf), Out.ok_bind, h2 f (le_trans (le_max_right _ _) hf), Out.ok_bind]
    congr 2
    funext i
    simp only [Pi.add_apply, Pi.smul_apply, smul_eq_mul]; ring

/-- One step from the uniform distribution. -/
theorem sparse_step_near {E : Eigen ℝ} (hL : E.SparseLUExact) {A : Matrix (Fin m) (Fin n) ℝ} (hA : IndepRows A)
    (hmn : m + 2 ≤ n) {k : ℕ} (hk : 1 ≤ k) (hkn : k ≤ n) (R ERR : ℝ) (hE : 0 < ERR) {x₀ : Fin n → ℝ} (hx₀ : x₀ ∈ TailPos n k)
    (hD : ∀ y ∈ PolyEq A (A *ᵥ x₀) k, ∀ z ∈ PolyEq A (A *ᵥ x₀) k, ∑ i, (y i - z i) ^ 2 < (2 ^ 10000 * |R|) ^ 2)
    {B : Matrix (Fin n) (Fin d) ℝ} (hB : IsKernelBasis A B) {h : ℝ} (hh : 0 < h)
    {F : (Fin n → ℝ) → ℝ≥0∞} (hF : Measurable F) (h1 : ∀ z, F z ≤ 1) :
    (∫⁻ x, ∫⁻ v, ∫⁻ val, F (sparseHitRunNext R ERR E A k x v val) ∂unitLaw ∂(stdNormal n) ∂(uniformOnEq x₀ B k)) ≤
      (∫⁻ x, F x ∂(uniformOnEq x₀ B k)) +
        ENNReal.ofReal (ERR / h) * volume {u | chart x₀ B u ∈ Thicken (PolyEq A (A *ᵥ x₀) k) h} ∧
    (∫⁻ x, F x ∂(uniformOnEq x₀ B k)) ≤
      (∫⁻ x, ∫⁻ v, ∫⁻ val, F (sparseHitRunNext R ERR E A k x v val) ∂unitLaw ∂(stdNormal n) ∂(uniformOnEq x₀ B k)) +
        ENNReal.ofReal (ERR / h) * volume {u | chart x₀ B u ∈ Thicken (PolyEq A (A *ᵥ x₀) k) h} := by
  have hprob : IsProbabilityMeasure (stdNormal n) := inferInstance
  have hchA : ∀ u, A *ᵥ chart x₀ B u = A *ᵥ x₀ := fun u => by
    show A *ᵥ (x₀ + B *ᵥ u) = _
    rw [Matrix.mulVec_add, Matrix.mulVec_mulVec, hB.mul_zero, Matrix.zero_mulVec, add_zero]
  have mch := measurable_chart x₀ B
  let U : Set (Fin d → ℝ) := {u | chart x₀ B u ∈ TailPos n k}
  let c : (Fin n → ℝ) → Fin d → ℝ := fun v => coordMat B *ᵥ kerDir A v
  have hUm : MeasurableSet U := mch (measurableSet_tailPos n k)
  have hcm : Measurable c := (Continuous.measurable (Continuous.matrix_mulVec continuous_const continuous_id)).comp (measurable_kerDir A)
  have hBc : ∀ v, B *ᵥ c v = kerDir A v := fun v => coordMat_mulVec hB (kerDir_ker hA v)
  have hch : ∀ (u : Fin d → ℝ) (t : ℝ) (v : Fin n → ℝ), chart x₀ B (u + t • c v) = chart x₀ B u + t • kerDir A v := by
    intro u t v
    show x₀ + B *ᵥ (u + t • c v) = x₀ + B *ᵥ u + _
    rw [Matrix.mulVec_add, ← add_assoc, Matrix.mulVec_smul, hBc]
  have hUo : IsOpen U := by
    have : Continuous (chart x₀ B) := continuous_const.add (Continuous.matrix_mulVec continuous_const continuous_id)
    exact (isOpen_tailPos n k).preimage this
  have hunit := (stdNormal_ac n).ae_le (ae_kerDir_unit A hmn)
  obtain ⟨M, hM⟩ : ∃ M, ∀ z ∈ U, ∀ i, |chart x₀ B z i| ≤ M := by
    refine ⟨2 ^ 10000 * |R| + ∑ i, |x₀ i|, fun z hz i => ?_⟩
    have h1 := hD (chart x₀ B z) ⟨hchA z, tailPos_subset n k hz⟩ x₀ ⟨rfl, tailPos_subset n k hx₀⟩
    have h2 : (chart x₀ B z i - x₀ i) ^ 2 < (2 ^ 10000 * |R|) ^ 2 :=
      lt_of_le_of_lt (Finset.single_le_sum (f := fun i => (chart x₀ B z i - x₀ i) ^ 2) (fun _ _ => sq_nonneg _)
        (Finset.mem_univ i)) h1
    have h3 : |chart x₀ B z i - x₀ i| ≤ 2 ^ 10000 * |R| :=
      (sq_lt_sq.1 h2).le.trans (abs_of_nonneg (by positivity)).le
    have h4 : |x₀ i| ≤ ∑ i, |x₀ i| := Finset.single_le_sum (f := fun i => |x₀ i|) (fun _ _ => abs_nonneg _) (Finset.mem_univ i)
    have h5 : chart x₀ B z i = (chart x₀ B z i - x₀ i) + x₀ i := by ring
    rw [h5]
    exact (abs_add_le _ _).trans (add_le_add h3 h4)
  have key := hitRun_near (stdNormal n) (U := U)
    (W := toMeasurable volume {u | chart x₀ B u ∈ Thicken (PolyEq A (A *ᵥ x₀) k) h})
    hUm (measurableSet_toMeasurable _ _) hcm hE.le hh
    (by
      filter_upwards [hunit] with v hv y hy
      rw [lineLen_eq (measurableSet_toMeasurable _ _)]
      have hsub : Icc (-h) h ⊆ {t : ℝ | y + t • c v ∈
          toMeasurable volume {u | chart x₀ B u ∈ Thicken (PolyEq A (A *ᵥ x₀) k) h}} := by
        intro t ht
        refine subset_toMeasurable _ _ ⟨chart x₀ B y, ⟨hchA y, tailPos_subset n k hy⟩, ?_⟩
        rw [hch]
        have e : chart x₀ B y + t • kerDir A v = ray (chart x₀ B y) (kerDir A v) t := by funext i; simp [ray]
        rw [e, sum_sq_ray hv]
        exact sq_le_sq' ht.1 ht.2
      refine le_trans (le_of_eq ?_) (measure_mono hsub)
      rw [Real.volume_Icc]
      congr 1; ring)
    (by
      filter_upwards [hunit] with v hv y hy
      refine ⟨lineLen_ne_zero hUo _ hy, lineLen_chart_ne_top (x₀ := x₀) (B := B) hUm ?_ hM y⟩
      rw [hBc]
      intro h0
      rw [h0] at hv
      simp [IsUnitVec] at hv)
    (F := fun u => F (chart x₀ B u)) (hF.comp mch) (fun _ => h1 _)
    (fun u v => ∫⁻ val, F (sparseHitRunNext R ERR E A k (chart x₀ B u) v val) ∂unitLaw)
    (by
      intro y hy
      filter_upwards [sparse_ae_segment hL hA hmn hk hkn R ERR hE hD (chart x₀ B y) (hchA y) hy] with v hv
      obtain ⟨p, q, hpq, hin, hout, f0, hf⟩ := hv
      refine ⟨p, q, hpq, fun t h1 h2 => ?_, fun t ht => ?_, ?_⟩
      · show chart x₀ B (y + t • c v) ∈ TailPos n k
        rw [hch]; exact hin t h1 h2
      · have ht' : chart x₀ B (y + t • c v) ∈ TailPos n k := ht
        rw [hch] at ht'
        exact hout t ht'
      · refine lintegral_congr fun val => ?_
        rw [sparseHitRunNext_eq fun f hf' => hf f hf' Unit val (), hch])
  rw [measure_toMeasurable] at key
  have m1 : Measurable fun x => ∫⁻ v, ∫⁻ val, F (sparseHitRunNext R ERR E A k x v val) ∂unitLaw ∂(stdNormal n) :=
    measurable_step_expect (stdNormal n) (measurable_sparseHitRunNext hL hA hk hkn R ERR) hF
  have hrestr : volume.restrict {u : Fin d → ℝ | chart x₀ B u ∈ TailNonneg n k} = volume.restrict U :=
    (Measure.restrict_congr_set (tail_boundary_null hx₀ B)).symm
  unfold uniformOnEq
  rw [lintegral_map m1 mch, lintegral_map hF mch, hrestr]
  exact key

end

theorem chart_ae {n d : ℕ} {x₀ : Fin n → ℝ} (B : Matrix (Fin n) (Fin d) ℝ) {k : ℕ} (hx₀ : x₀ ∈ TailPos n k) {m : ℕ}
    {A : Matrix (Fin m) (Fin n) ℝ} (hB : A * B = 0) :
    ∀ᵐ x ∂(uniformOnEq x₀ B k), x ∈ {x | A *ᵥ x = A *ᵥ x₀} ∩ TailPos n k := by
  have mch := measurable_chart x₀ B
  have hrestr : volume.restrict {u : Fin d → ℝ | chart x₀ B u ∈ TailNonneg n k} =
      volume.restrict {u : Fin d → ℝ | chart x₀ B u ∈ TailPos n k} :=
    (Measure.restrict_congr_set (tail_boundary_null hx₀ B)).symm
  unfold uniformOnEq
  rw [hrestr]
  refine (ae_map_iff (p := fun x => x ∈ {x | A *ᵥ x = A *ᵥ x₀} ∩ TailPos n k) mch.aemeasurable
    ((measurableSet_eqs A _).inter (measurableSet_tailPos n k))).2 ?_
  filter_upwards [ae_restrict_mem (mch (measurableSet_tailPos n k))] with u hu
  refine ⟨?_, hu⟩
  show A *ᵥ (x₀ + B *ᵥ u) = _
  rw [Matrix.mulVec_add, Matrix.mulVec_mulVec, hB, Matrix.zero_mulVec, add_zero]

/-- **C59** (`SparseHitAndRun`): with ideal random draws, exact arithmetic, independent rows and at least two more columns,
on a polytope of diameter less than `2¹⁰⁰⁰⁰ r` with a point `x₀` whose constrained coordinates are positive: if the
initial point is uniform, the law of row `j` differs from the uniform law by at most `(ERR / h) · vol(K_h)` for each
iteration made so far, for every `h > 0`. -/
theorem C59_sparse {d : ℕ} (R ERR : ℝ) (hE : 0 < ERR) (E : Eigen ℝ) (hL : E.SparseLUExact) (e : Env ℝ) [MeasurableSpace e.r.G]
    (μ : Measure e.r.G) (hs : IdealSource e.r μ) (a : Args ℝ) (hg : GoodInts a.niter a.burnin a.thin) (hAb : a.A.r = a.b.n)
    (hk : a.KOk) (hA : IndepRows a.A.val) (hmn : a.A.r + 2 ≤ a.A.c) (x₀ : Fin a.A.c → ℝ)
    (hx₀ : x₀ ∈ TailPos a.A.c a.k.toNat)
    (hD : ∀ y ∈ PolyEq a.A.val (a.A.val *ᵥ x₀) a.k.toNat, ∀ z ∈ PolyEq a.A.val (a.A.val *ᵥ x₀) a.k.toNat,
      ∑ i, (y i - z i) ^ 2 < (2 ^ 10000 * |R|) ^ 2)
    (B : Matrix (Fin a.A.c) (Fin d) ℝ) (hB : IsKernelBasis a.A.val B) (h : ℝ) (hh : 0 < h) :
    SamplesNearLaw (.sparseHitRun R ERR E) e μ a (uniformOnEq x₀ B a.k.toNat) fun j =>
      (a.burnin + ((j : Int) + 1) * a.thin).toNat * (ENNReal.ofReal (ERR / h) *
        volume {u | chart x₀ B u ∈ Thicken (PolyEq a.A.val (a.A.val *ᵥ x₀) a.k.toNat) h}) := by
  intro j hj T hT
  have := hs.prob
  have hk' : 1 ≤ a.k ∧ a.k ≤ a.A.c := hk
  have hk1 : 1 ≤ a.k.toNat := by omega
  have hkn : a.k.toNat ≤ a.A.c := by omega
  set A := a.A.val with hAdef
  set k := a.k.toNat with hkdef
  let K : Set (Fin a.A.c → ℝ) := {x | A *ᵥ x = A *ᵥ x₀} ∩ TailPos a.A.c k
  have hKm : MeasurableSet K := (measurableSet_eqs A _).inter (measurableSet_tailPos _ k)
  have hsf : SFinite (uniformOnEq x₀ B k) := by unfold uniformOnEq; infer_instance
  have hae : ∀ᵐ x ∂(uniformOnEq x₀ B k), x ∈ K := chart_ae B hx₀ hB.mul_zero
  have hK : ∀ x ∈ K, ∀ᵐ v ∂(stdNormal a.A.c), ∀ val ∈ Icc (0 : ℝ) 1, sparseHitRunNext R ERR E A k x v val ∈ K ∧
      ∃ f0, ∀ f ≥ f0, ∀ g : e.r.G, sparseHitRunDraw R ERR f E A k x v val g = .ok (sparseHitRunNext R ERR E A k x v val, g) := by
    intro x hx
    filter_upwards [sparse_ae_segment hL hA hmn hk1 hkn R ERR hE hD x hx.1 hx.2] with v hv val hval
    obtain ⟨p, q, hpq, hin, -, f0, hf⟩ := hv
    rw [sparseHitRunNext_eq fun f hf' => hf f hf' Unit val ()]
    refine ⟨⟨?_, hin _ (by nlinarith [hval.1]) (by nlinarith [hval.2])⟩, f0, fun f hf' g => hf f hf' _ val g⟩
    show A *ᵥ (x + _ • kerDir A v) = _
    rw [Matrix.mulVec_add, Matrix.mulVec_smul, kerDir_ker hA, smul_zero, add_zero]
    exact hx.1
  have hdraw := fun f => sparseHitRunDraw_pmeas (G := e.r.G) hL hA hk1 hkn R ERR f
  have key := chain_near e.r μ stdNormal hs K (uniformOnEq x₀ B k) hae
    (fun f => SparseHitRun.step R ERR f E e.r A k) (fun f => sparseHitRunDraw R ERR f E A k)
    (fun f x g => rfl) hdraw
    (sparseHitRunNext R ERR E A k) (measurable_sparseHitRunNext hL hA hk1 hkn R ERR) hK
    (ENNReal.ofReal (ERR / h) * volume {u | chart x₀ B u ∈ Thicken (PolyEq A (A *ᵥ x₀) k) h})
    (fun F hF h1 => sparse_step_near hL hA hmn hk1 hkn R ERR hE hx₀ hD hB hh hF h1) T hT
    (a.burnin + ((j : Int) + 1) * a.thin).toNat
  have hret : ∀ᵐ p ∂((uniformOnEq x₀ B k).prod μ), ∀ t, p ∈ chainEvent (fun f => SparseHitRun.step R ERR f E e.r A k) t univ := by
    refine chain_returns_prod e.r μ stdNormal hs K hKm (uniformOnEq x₀ B k) hae _
      (fun f => sparseHitRunDraw R ERR f E A k) (fun f x g => rfl) hdraw ?_
    intro x hx
    filter_upwards [hK x hx] with v hv val hval
    obtain ⟨h1, f0, h2⟩ := hv val hval
    exact ⟨f0, _, h1, h2⟩
  have hev : ((uniformOnEq x₀ B k).prod μ) {p | ∃ (f0 : ℕ) (rows : List (Fin a.A.c → ℝ)),
      (∀ f ≥ f0, (Walk.sparseHitRun R ERR E).run ((e.withGen p.2).withFuel f) (a.from p.1) = .ok rows) ∧
        ∃ hj : j < rows.length, rows[j] ∈ T} =
      ((uniformOnEq x₀ B k).prod μ)
        (chainEvent (fun f => SparseHitRun.step R ERR f E e.r A k) (a.burnin + ((j : Int) + 1) * a.thin).toNat T) := by
    refine measure_congr ?_
    filter_upwards [hret] with p hp
    have hd : (a.from p.1).DimsOk := ⟨rfl, hAb⟩
    have hc : ∀ f t, (Walk.sparseHitRun R ERR E).chain ((e.withGen p.2).withFuel f) (a.from p.1) hd t =
        iter (SparseHitRun.step R ERR f E e.r A k) t p := by
      intro f t
      have h1 : (Walk.sparseHitRun R ERR E).chain ((e.withGen p.2).withFuel f) (a.from p.1) hd t =
          iter (SparseHitRun.step R ERR f E (e.withGen p.2).r A k) t
            (p.1, (e.withGen p.2).r.initRng a.seed (e.withGen p.2).rd) := rfl
      rw [h1, withGen_init]
      exact congrArg (fun st => iter st t (p.1, p.2)) (withGen_sparseHitRunStep R ERR E e p.2 f A k)
    have := rows_event (Walk.sparseHitRun R ERR E) (e.withGen p.2) (a.from p.1) hg hd (fun _ => hk)
      (fun t => by
        obtain ⟨f0, h⟩ := hp t
        refine ⟨f0, fun f hf => ?_⟩
        obtain ⟨s, h, -⟩ := h f hf
        exact ⟨s, (hc f t).trans h⟩) j hj T
    refine propext (this.trans ?_)
    show (∃ f0, ∀ f ≥ f0, ∃ s, _ ∧ _) ↔ ∃ f0, ∀ f ≥ f0, ∃ s, _ ∧ _
    constructor
    · rintro ⟨f0, h⟩
      refine ⟨f0, fun f hf => ?_⟩
      obtain ⟨s, h1, h2⟩ := h f hf
      exact ⟨s, (hc f _).symm.trans h1, h2⟩
    · rintro ⟨f0, h⟩
      refine ⟨f0, fun f hf => ?_⟩
      obtain ⟨s, h1, h2⟩ := h f hf
      exact ⟨s, (hc f _).trans h1, h2⟩
  rw [hev]
  exact key

/-- In a chart, too, thickenings have finite volume. -/
theorem volume_chart_thicken_lt_top {m n d : ℕ} {A : Matrix (Fin m) (Fin n) ℝ} {B : Matrix (Fin n) (Fin d) ℝ} (hB : IsKernelBasis A B)
    (x₀ : Fin n → ℝ) {K : Set (Fin n → ℝ)} (hb : ∃ M, ∀ y ∈ K, ∀ i, |y i| ≤ M) (h : ℝ) :
    volume {u | chart x₀ B u ∈ Thicken K h} < ⊤ := by
  obtain ⟨M, hM⟩ := hb
  have hsub : {u | chart x₀ B u ∈ Thicken K h} ⊆
      Set.pi univ fun i => Icc (-(∑ j, |coordMat B i j| * (M + |h| + |x₀ j|))) (∑ j, |coordMat B i j| * (M + |h| + |x₀ j|)) := by
    rintro u ⟨x, hx, hd⟩ i -
    have hu : u = coordMat B *ᵥ (chart x₀ B u - x₀) := by
      show u = coordMat B *ᵥ (x₀ + B *ᵥ u - x₀)
      rw [add_sub_cancel_left, Matrix.mulVec_mulVec, coordMat_mul hB.inj, Matrix.one_mulVec]
    have h1 : ∀ j, |(chart x₀ B u - x₀) j| ≤ M + |h| + |x₀ j| := by
      intro j
      have h1 : (chart x₀ B u j - x j) ^ 2 ≤ h ^ 2 :=
        (Finset.single_le_sum (f := fun i => (chart x₀ B u i - x i) ^ 2) (fun _ _ => sq_nonneg _) (Finset.mem_univ j)).trans hd
      have h2 : |chart x₀ B u j - x j| ≤ |h| := sq_le_sq.1 h1
      have h3 := hM x hx j
      have e : (chart x₀ B u - x₀) j = x j + (chart x₀ B u j - x j) - x₀ j := by simp
      rw [e]
      exact (abs_sub _ _).trans (add_le_add ((abs_add_le _ _).trans (add_le_add h3 h2)) le_rfl)
    have h2 : |u i| ≤ ∑ j, |coordMat B i j| * (M + |h| + |x₀ j|) := by
      rw [hu]
      refine (Finset.abs_sum_le_sum_abs (fun j => coordMat B i j * (chart x₀ B u - x₀) j) Finset.univ).trans
        (Finset.sum_le_sum fun j _ => ?_)
      rw [abs_mul]
      exact mul_le_mul_of_nonneg_left (h1 j) (abs_nonneg _)
    exact abs_le.1 h2
  refine (measure_mono hsub).trans_lt ?_
  rw [volume_pi_pi]
  exact ENNReal.prod_lt_top fun i _ => by simp

/-- **C59** (`SparseHitAndRun`): the samples are as close to uniform as wanted if the tolerance `err` is small enough. -/
theorem C59_sparse_limit {d : ℕ} (R : ℝ) (E : Eigen ℝ) (hL : E.SparseLUExact) (e : Env ℝ) [MeasurableSpace e.r.G]
    (μ : Measure e.r.G) (hs : IdealSource e.r μ) (a : Args ℝ) (hg : GoodInts a.niter a.burnin a.thin) (hAb : a.A.r = a.b.n)
    (hk : a.KOk) (hA : IndepRows a.A.val) (hmn : a.A.r + 2 ≤ a.A.c) (x₀ : Fin a.A.c → ℝ)
    (hx₀ : x₀ ∈ TailPos a.A.c a.k.toNat)
    (hD : ∀ y ∈ PolyEq a.A.val (a.A.val *ᵥ x₀) a.k.toNat, ∀ z ∈ PolyEq a.A.val (a.A.val *ᵥ x₀) a.k.toNat,
      ∑ i, (y i - z i) ^ 2 < (2 ^ 10000 * |R|) ^ 2)
    (B : Matrix (Fin a.A.c) (Fin d) ℝ) (hB : IsKernelBasis a.A.val B) (ε : ℝ) (hε : 0 < ε) :
    ∃ η > 0, ∀ ERR, 0 < ERR → ERR < η →
      SamplesNearLaw (.sparseHitRun R ERR E) e μ a (uniformOnEq x₀ B a.k.toNat) fun _ => ENNReal.ofReal ε := by
  have hb : ∃ M, ∀ y ∈ PolyEq a.A.val (a.A.val *ᵥ x₀) a.k.toNat, ∀ i, |y i| ≤ M := by
    refine ⟨2 ^ 10000 * |R| + ∑ i, |x₀ i|, fun z hz i => ?_⟩
    have h1 := hD z hz x₀ ⟨rfl, tailPos_subset _ _ hx₀⟩
    have h2 : (z i - x₀ i) ^ 2 < (2 ^ 10000 * |R|) ^ 2 :=
      lt_of_le_of_lt (Finset.single_le_sum (f := fun i => (z i - x₀ i) ^ 2) (fun _ _ => sq_nonneg _) (Finset.mem_univ i)) h1
    have h3 : |z i - x₀ i| ≤ 2 ^ 10000 * |R| := (sq_lt_sq.1 h2).le.trans (abs_of_nonneg (by positivity)).le
    have h4 : |x₀ i| ≤ ∑ i, |x₀ i| := Finset.single_le_sum (f := fun i => |x₀ i|) (fun _ _ => abs_nonneg _) (Finset.mem_univ i)
    have h5 : z i = (z i - x₀ i) + x₀ i := by ring
    rw [h5]
    exact (abs_add_le _ _).trans (add_le_add h3 h4)
  obtain ⟨η, h0, h1⟩ := small_error _ (volume_chart_thicken_lt_top hB x₀ hb 1) a.niter.toNat ε hε
  refine ⟨η, h0, fun ERR hE hlt => ?_⟩
  refine (C59_sparse R ERR hE E hL e μ hs a hg hAb hk hA hmn x₀ hx₀ hD B hB 1 one_pos).mono fun j hj =>
    le_trans ?_ (h1 ERR hE hlt)
  exact mul_le_mul_left (by exact_mod_cast row_time_le hg hj) _

end PW
