import Verif.Lemmas.Average
import Verif.Props.HitRunConverges

/-!
# C61: sample averages of Hit-and-Run converge
-/

namespace PW
open Matrix MeasureTheory Set
open scoped ENNReal

section
variable {m n d : ℕ}

/-- From geometric convergence of the chain to averages along its path. -/
theorem mean_close (w : Walk ℝ) (e : Env ℝ) [MeasurableSpace e.r.G] (μ : Measure e.r.G) (hs : IdealSource e.r μ)
    (A : Matrix (Fin m) (Fin n) ℝ) (b : Fin m → ℝ) (x : Fin n → ℝ) (k seed : Int) (hk : w.isSparse = true → 1 ≤ k ∧ k ≤ n)
    {L : ℕ} (hL1 : 1 ≤ L) {next : (Fin n → ℝ) → (Fin n → ℝ) → ℝ → Fin n → ℝ}
    (hn : Measurable fun p : (Fin n → ℝ) × (Fin n → ℝ) × ℝ => next p.1 p.2.1 p.2.2)
    (hfol : ∀ niter burnin thin, ∀ᵐ g ∂μ, Follows w e (callArgs A b x niter k burnin thin seed) ⟨rfl, rfl⟩ (idealPos e.r next x) g)
    {K : Set (Fin n → ℝ)} (hK : ∀ᵐ g ∂μ, ∀ t, idealPos e.r next x t g ∈ K) {π : Measure (Fin n → ℝ)} [IsFiniteMeasure π] (hπ0 : π univ ≠ 0)
    (hπK : ∀ᵐ y ∂π, y ∈ K) {β η : ℝ} (hβ : 0 < β) (hβ1 : β ≤ 1) (hη : 0 ≤ η)
    (hmix : ∀ F : (Fin n → ℝ) → ℝ≥0∞, Measurable F → (∀ y, F y ≤ 1) → ∀ t, ∀ y ∈ K,
      |(afterSteps (stdNormal n) next F t y).toReal - (∫⁻ y, F y ∂π).toReal / (π univ).toReal| ≤ (1 - β) ^ t + η)
    {φ : (Fin n → ℝ) → ℝ} (hφ : Measurable φ) {M : ℝ} (hM : 0 < M) (hφM : ∀ y ∈ K, |φ y| ≤ M) {ε : ℝ} (hε : 0 < ε) :
    MeanWithin w e μ A b x k seed φ (average π φ) L ε (4 * M ^ 2 / ε ^ 2 * (2 / (β * L) + η)) := by
  have := hs.prob
  have hZ : 0 < (π univ).toReal := ENNReal.toReal_pos hπ0 (measure_ne_top _ _)
  -- rescaled function
  set χ : (Fin n → ℝ) → ℝ := fun y => max (-M) (min M (φ y)) with hχ
  have mχ : Measurable χ := measurable_const.max (measurable_const.min hφ)
  have hχK : ∀ y ∈ K, χ y = φ y := fun y hy => by
    have := abs_le.1 (hφM y hy)
    simp only [hχ]
    rw [min_eq_right this.2, max_eq_right this.1]
  have hχ1 : ∀ y, -M ≤ χ y := fun y => le_max_left _ _
  have hχ2 : ∀ y, χ y ≤ M := fun y => max_le (by linarith) (min_le_left _ _)
  set ψ : (Fin n → ℝ) → ℝ := fun y => (χ y + M) / (2 * M) with hψ
  have mψ : Measurable ψ := (mχ.add_const M).div_const _
  have hψ0 : ∀ y, 0 ≤ ψ y := fun y => div_nonneg (by linarith [hχ1 y]) (by linarith)
  have hψ1 : ∀ y, ψ y ≤ 1 := fun y => by
    simp only [hψ]; rw [div_le_one (by linarith)]; linarith [hχ2 y]
  set c := (average π φ + M) / (2 * M) with hc
  have iχ : Integrable χ π := integrable_bounded mχ (M := M) fun y => abs_le.2 ⟨hχ1 y, hχ2 y⟩
  have hcint : (∫⁻ y, ENNReal.ofReal (ψ y) ∂π).toReal / (π univ).toReal = c := by
    rw [← integral_eq_lintegral_of_nonneg_ae (ae_of_all _ hψ0) mψ.aestronglyMeasurable]
    have h1 : ∫ y, ψ y ∂π = (∫ y, φ y ∂π + M * (π univ).toReal) / (2 * M) := by
      simp only [hψ]
      rw [integral_div, integral_add iχ (integrable_const _), integral_const, smul_eq_mul]
      have h2 : ∫ y, χ y ∂π = ∫ y, φ y ∂π := integral_congr_ae (hπK.mono fun y hy => hχK y hy)
      rw [h2]
      show (_ + (π univ).toReal * M) / _ = _
      ring
    rw [h1, hc, average]
    field_simp
  have hF1 : ∀ y, ENNReal.ofReal (ψ y) ≤ 1 := fun y => by rw [← ENNReal.ofReal_one]; exact ENNReal.ofReal_le_ofReal (hψ1 y)
  have hmix' : ∀ t, ∀ y ∈ K, |(afterSteps (stdNormal n) next (fun z => ENNReal.ofReal (ψ z)) t y).toReal - c| ≤ (1 - β) ^ t + η :=
    fun t y hy => by rw [← hcint]; exact hmix _ mψ.ennreal_ofReal hF1 t y hy
  have hc0 : 0 ≤ c := by rw [← hcint]; positivity
  have hc1 : c ≤ 1 := by
    rw [← hcint, div_le_one hZ]
    refine ENNReal.toReal_mono (measure_ne_top _ _) ((lintegral_mono hF1).trans (by simp))
  refine MeanWithin.of_follows (q := idealPos e.r next x) hk hfol fun B τ hτ => ?_
  have hmse := ideal_mse hs hn mψ hψ0 hψ1 hc0 hc1 (ae_all_iff.1 hK) hβ hβ1 hη hmix' (B + τ) τ hτ L hL1
  have ht : ∀ i, B + τ + i * τ = B + (i + 1) * τ := fun i => by ring
  simp only [ht] at hmse
  have h2 := markov_close (fun t => measurable_idealPos hs hn x t) hK hL1 (fun i => B + (i + 1) * τ) (φ := φ) mψ
    (fun y => abs_le.2 ⟨by linarith [hψ0 y], hψ1 y⟩) (c := average π φ) (c' := c) (u := 2 * M) (by linarith)
    (fun y hy => by simp only [hψ]; rw [hχK y hy, hc]; ring) hε hmse
  have h3 : (2 * M) ^ 2 = 4 * M ^ 2 := by ring
  rw [h3] at h2
  exact h2

end

/-! ## Hit-and-Run -/

section
variable {m n d : ℕ}

/-- **C61** (`HitAndRun`): for every bounded polytope of dimension at least two with an interior point there are constants
`β ∈ (0, 1]`, `C` and `ε₀ > 0` such that, with ideal random draws and exact arithmetic, from every interior starting point, for
every tolerance `err ≤ ε₀` and every measurable function `φ` bounded by `M` on the polytope, the mean of `φ` over `L ≥ 1` positions (one in every `τ`,
after any burn-in) is within `ε` of the mean of `φ` over the polytope with probability at least `1 - (4 M² / ε²) (2 / (β L) + C err)`; a call that
records `L` rows returns, with such a mean over its rows, with this probability. -/
theorem C61_dense (hn : 2 ≤ n) (A : Matrix (Fin m) (Fin n) ℝ) (b : Fin m → ℝ) (hx₀ : ∃ x, x ∈ Interior A b)
    (hb : ∃ B, ∀ y ∈ Poly A b, ∀ i, |y i| ≤ B) :
    ∃ β C ε₀ : ℝ, 0 < β ∧ β ≤ 1 ∧ 0 ≤ C ∧ 0 < ε₀ ∧ ∀ R ERR : ℝ, R ≠ 0 → 0 < ERR → ERR ≤ ε₀ →
      ∀ (e : Env ℝ) [MeasurableSpace e.r.G] (μ : Measure e.r.G), IdealSource e.r μ → ∀ x ∈ Interior A b,
        ∀ (k seed : Int) (L : ℕ), 1 ≤ L →
          ∀ (φ : (Fin n → ℝ) → ℝ) (M ε : ℝ), Measurable φ → 0 < M → (∀ y ∈ Poly A b, |φ y| ≤ M) → 0 < ε →
            MeanWithin (.hitRun R ERR) e μ A b x k seed φ (average (uniformOn A b) φ) L ε
              (4 * M ^ 2 / ε ^ 2 * (2 / (β * L) + C * ERR)) := by
  obtain ⟨β, C, ε₀, h1, h2, h3, h4, h5⟩ := hitRun_mix_dense hn A b hx₀ hb
  refine ⟨β, C, ε₀, h1, h2, h3, h4, ?_⟩
  intro R ERR hR hE hEρ e _ μ hs x hx k seed L hL φ M ε hφ hM hφM hε
  have hm := pos_rows_of_bounded (by omega) hb
  have hfin : IsFiniteMeasure (uniformOn A b) := ⟨by rw [uniformOn, Measure.restrict_apply_univ]; exact volume_poly_lt_top hb⟩
  have hZ : uniformOn A b univ = volume (Poly A b) := by rw [uniformOn, Measure.restrict_apply_univ]
  have hfol := fun niter burnin thin => hitRun_follows R ERR hR hE e μ hs A b x niter k burnin thin seed hn hx hb
  exact mean_close (.hitRun R ERR) e μ hs A b x k seed (by intro h; cases h) hL (measurable_hitRunNext hm R ERR A b)
    (fun niter burnin thin => (hfol niter burnin thin).mono fun g h => h.1)
    (K := Interior A b) ((hfol 0 0 1).mono fun g h => h.2) (π := uniformOn A b) (by rw [hZ]; exact (volume_poly_pos hx₀).ne') (uniformOn_ae hx)
    h1 h2 (by positivity)
    (fun F hF hF1 t y hy => h5 R ERR hR hE hEρ y hy F hF hF1 t) hφ hM (fun y hy => hφM y (interior_subset A b hy)) hε

/-- **C61** (`SparseHitAndRun`): the same on `{A x = b, last k coordinates ≥ 0}`, for independent rows, at least two more columns and
a polytope of diameter `D < 2¹⁰⁰⁰⁰ r`. -/
theorem C61_sparse {E : Eigen ℝ} (hL : E.SparseLUExact) {A : Matrix (Fin m) (Fin n) ℝ} (hA : IndepRows A) (hmn : m + 2 ≤ n)
    (k : Int) (hk : 1 ≤ k ∧ k ≤ n) (b : Fin m → ℝ) (x₀ : Fin n → ℝ) (hx₀A : A *ᵥ x₀ = b) (hx₀ : x₀ ∈ TailPos n k.toNat) (D : ℝ)
    (hD : ∀ y ∈ PolyEq A b k.toNat, ∀ z ∈ PolyEq A b k.toNat, ∑ i, (y i - z i) ^ 2 ≤ D ^ 2)
    (B : Matrix (Fin n) (Fin d) ℝ) (hB : IsKernelBasis A B) :
    ∃ β C ε₀ : ℝ, 0 < β ∧ β ≤ 1 ∧ 0 ≤ C ∧ 0 < ε₀ ∧ ∀ R ERR : ℝ, |D| < 2 ^ 10000 * |R| → 0 < ERR → ERR ≤ ε₀ →
      ∀ (e : Env ℝ) [MeasurableSpace e.r.G] (μ : Measure e.r.G), IdealSource e.r μ →
        ∀ x, A *ᵥ x = b → x ∈ TailPos n k.toNat → ∀ (seed : Int) (L : ℕ), 1 ≤ L →
          ∀ (φ : (Fin n → ℝ) → ℝ) (M ε : ℝ), Measurable φ → 0 < M → (∀ y ∈ PolyEq A b k.toNat, |φ y| ≤ M) → 0 < ε →
            MeanWithin (.sparseHitRun R ERR E) e μ A b x k seed φ (average (uniformOnEq x₀ B k.toNat) φ) L ε
              (4 * M ^ 2 / ε ^ 2 * (2 / (β * L) + C * ERR)) := by
  obtain ⟨β, C, ε₀, h1, h2, h3, h4, h5⟩ := hitRun_mix_sparse hL hA hmn k hk b x₀ hx₀A hx₀ D hD B hB
  refine ⟨β, C, ε₀, h1, h2, h3, h4, ?_⟩
  intro R ERR hR hE hEρ e _ μ hs x hxA hx seed L hL1 φ M ε hφ hM hφM hε
  obtain ⟨hDlt, h6⟩ := h5 R ERR hR hE hEρ
  have hk1 : 1 ≤ k.toNat := by omega
  have hkn : k.toNat ≤ n := by omega
  subst hx₀A
  let K : Set (Fin n → ℝ) := {x | A *ᵥ x = A *ᵥ x₀} ∩ TailPos n k.toNat
  have hchA : ∀ u, A *ᵥ chart x₀ B u = A *ᵥ x₀ := fun u => by
    show A *ᵥ (x₀ + B *ᵥ u) = _
    rw [Matrix.mulVec_add, Matrix.mulVec_mulVec, hB.mul_zero, Matrix.zero_mulVec, add_zero]
  have mch := measurable_chart x₀ B
  have hZ : uniformOnEq x₀ B k.toNat univ = volume {u : Fin d → ℝ | chart x₀ B u ∈ TailNonneg n k.toNat} := by
    rw [uniformOnEq, Measure.map_apply mch MeasurableSet.univ, preimage_univ, Measure.restrict_apply_univ]
  have hbd : ∃ M, ∀ y ∈ PolyEq A (A *ᵥ x₀) k.toNat, ∀ i, |y i| ≤ M := by
    refine ⟨|D| + ∑ i, |x₀ i|, fun z hz i => ?_⟩
    have h1 := hD z hz x₀ ⟨rfl, tailPos_subset _ _ hx₀⟩
    have h2 : (z i - x₀ i) ^ 2 ≤ |D| ^ 2 := by
      rw [sq_abs]
      exact (Finset.single_le_sum (f := fun i => (z i - x₀ i) ^ 2) (fun _ _ => sq_nonneg _) (Finset.mem_univ i)).trans h1
    have h3 : |z i - x₀ i| ≤ |D| := (sq_le_sq.1 h2).trans (abs_abs D).le
    have h4 : |x₀ i| ≤ ∑ i, |x₀ i| := Finset.single_le_sum (f := fun i => |x₀ i|) (fun _ _ => abs_nonneg _) (Finset.mem_univ i)
    have h5 : z i = (z i - x₀ i) + x₀ i := by ring
    rw [h5]
    exact (abs_add_le _ _).trans (add_le_add h3 h4)
  have hfin : IsFiniteMeasure (uniformOnEq x₀ B k.toNat) := ⟨by
    rw [hZ]
    refine lt_of_le_of_lt (measure_mono fun u hu => ?_) (volume_chart_thicken_lt_top hB x₀ hbd 1)
    exact ⟨chart x₀ B u, ⟨hchA u, hu⟩, by simp⟩⟩
  have hZ0 : uniformOnEq x₀ B k.toNat univ ≠ 0 := by
    rw [hZ]
    have hcc : Continuous (chart x₀ B) := by
      unfold chart
      exact continuous_const.add (Continuous.matrix_mulVec continuous_const continuous_id)
    have ho : IsOpen {u : Fin d → ℝ | chart x₀ B u ∈ TailPos n k.toNat} := (isOpen_tailPos n k.toNat).preimage hcc
    have hsub : {u : Fin d → ℝ | chart x₀ B u ∈ TailPos n k.toNat} ⊆ {u : Fin d → ℝ | chart x₀ B u ∈ TailNonneg n k.toNat} := by
      intro u hu
      have hu' : chart x₀ B u ∈ TailPos n k.toNat := hu
      exact tailPos_subset _ _ hu'
    refine (lt_of_lt_of_le (ho.measure_pos volume ⟨0, ?_⟩) (measure_mono hsub)).ne'
    show x₀ + B *ᵥ 0 ∈ TailPos n k.toNat
    rw [Matrix.mulVec_zero, add_zero]; exact hx₀
  have hfol := fun niter burnin thin =>
    sparseHitRun_follows R ERR hE hL e μ hs hA hmn (A *ᵥ x₀) x niter k burnin thin seed hk hxA hx hDlt
  exact mean_close (.sparseHitRun R ERR E) e μ hs A (A *ᵥ x₀) x k seed (fun _ => hk) hL1
    (measurable_sparseHitRunNext hL hA hk1 hkn R ERR) (fun niter burnin thin => (hfol niter burnin thin).mono fun g h => h.1)
    (K := K) ((hfol 0 0 1).mono fun g h => h.2) (π := uniformOnEq x₀ B k.toNat) hZ0 (chart_ae B hx₀ hB.mul_zero) h1 h2 (by positivity)
    (fun F hF hF1 t y hy => h6 y hy.1 hy.2 F hF hF1 t) hφ hM (fun y hy => hφM y ⟨hy.1, tailPos_subset _ _ hy.2⟩) hε

end

/-! ## Limits and concrete cases -/

section
variable {m n d : ℕ}

/-- With a small enough tolerance and enough rows the bound is small. -/
theorem small_of_count {β C ε₀ q δ : ℝ} (hβ : 0 < β) (hC : 0 ≤ C) (hε₀ : 0 < ε₀) (hq : 0 ≤ q) (hδ : 0 < δ) :
    ∃ η, 0 < η ∧ η ≤ ε₀ ∧ ∃ L₀ : ℕ, 1 ≤ L₀ ∧ ∀ ERR, 0 < ERR → ERR ≤ η → ∀ L : ℝ, (L₀ : ℝ) ≤ L → q * (2 / (β * L) + C * ERR) ≤ δ := by
  obtain ⟨L₀, hL₀⟩ := exists_nat_gt (4 * q / (β * δ))
  refine ⟨min ε₀ (δ / (2 * (q * C + 1))), lt_min hε₀ (by positivity), min_le_left _ _, L₀ + 1, by omega, fun ERR hE hη L hL => ?_⟩
  have h2 : ERR ≤ δ / (2 * (q * C + 1)) := hη.trans (min_le_right _ _)
  have h3 : q * C * ERR ≤ δ / 2 := by
    calc q * C * ERR ≤ (q * C + 1) * (δ / (2 * (q * C + 1))) := mul_le_mul (by linarith) h2 hE.le (by positivity)
      _ = δ / 2 := by field_simp
  have hL' : 4 * q / (β * δ) < L := by push_cast at hL; linarith
  have hLpos : 0 < L := lt_of_le_of_lt (by positivity) hL'
  have h4 : q * (2 / (β * L)) ≤ δ / 2 := by
    rw [div_lt_iff₀ (by positivity)] at hL'
    rw [← mul_div_assoc, div_le_iff₀ (by positivity)]
    nlinarith
  nlinarith

/-- **C61** (`HitAndRun`, limit): for a small enough tolerance and enough positions or rows, the mean of `φ` over them is within `ε` of its mean
over the polytope with probability at least `1 - δ`, whatever the interior starting point, with or without burn-in. -/
theorem C61_dense_limit (hn : 2 ≤ n) (A : Matrix (Fin m) (Fin n) ℝ) (b : Fin m → ℝ) (hx₀ : ∃ x, x ∈ Interior A b)
    (hb : ∃ B, ∀ y ∈ Poly A b, ∀ i, |y i| ≤ B) (M ε δ : ℝ) (hM : 0 < M) (hε : 0 < ε) (hδ : 0 < δ) :
    ∃ η > 0, ∃ L₀ : ℕ, ∀ R ERR : ℝ, R ≠ 0 → 0 < ERR → ERR ≤ η →
      ∀ (e : Env ℝ) [MeasurableSpace e.r.G] (μ : Measure e.r.G), IdealSource e.r μ → ∀ x ∈ Interior A b,
        ∀ k seed : Int, ∀ L ≥ L₀, ∀ φ : (Fin n → ℝ) → ℝ, Measurable φ → (∀ y ∈ Poly A b, |φ y| ≤ M) →
          MeanWithin (.hitRun R ERR) e μ A b x k seed φ (average (uniformOn A b) φ) L ε δ := by
  obtain ⟨β, C, ε₀, h1, h2, h3, h4, h5⟩ := C61_dense hn A b hx₀ hb
  obtain ⟨η, hη, hη₀, L₀, hL₀, h⟩ := small_of_count (q := 4 * M ^ 2 / ε ^ 2) h1 h3 h4 (by positivity) hδ
  refine ⟨η, hη, L₀, ?_⟩
  intro R ERR hR hE hEη e _ μ hs x hx k seed L hL φ hφ hφM
  refine (h5 R ERR hR hE (hEη.trans hη₀) e μ hs x hx k seed L (by omega) φ M ε hφ hM hφM hε).mono (h ERR hE hEη _ ?_)
  exact_mod_cast hL

/-- **C61** (`SparseHitAndRun`, limit). -/
theorem C61_sparse_limit {E : Eigen ℝ} (hL : E.SparseLUExact) {A : Matrix (Fin m) (Fin n) ℝ} (hA : IndepRows A) (hmn : m + 2 ≤ n)
    (k : Int) (hk : 1 ≤ k ∧ k ≤ n) (b : Fin m → ℝ) (x₀ : Fin n → ℝ) (hx₀A : A *ᵥ x₀ = b) (hx₀ : x₀ ∈ TailPos n k.toNat) (D : ℝ)
    (hD : ∀ y ∈ PolyEq A b k.toNat, ∀ z ∈ PolyEq A b k.toNat, ∑ i, (y i - z i) ^ 2 ≤ D ^ 2)
    (B : Matrix (Fin n) (Fin d) ℝ) (hB : IsKernelBasis A B) (M ε δ : ℝ) (hM : 0 < M) (hε : 0 < ε) (hδ : 0 < δ) :
    ∃ η > 0, ∃ L₀ : ℕ, ∀ R ERR : ℝ, |D| < 2 ^ 10000 * |R| → 0 < ERR → ERR ≤ η →
      ∀ (e : Env ℝ) [MeasurableSpace e.r.G] (μ : Measure e.r.G), IdealSource e.r μ →
        ∀ x, A *ᵥ x = b → x ∈ TailPos n k.toNat → ∀ seed : Int, ∀ L ≥ L₀,
          ∀ φ : (Fin n → ℝ) → ℝ, Measurable φ → (∀ y ∈ PolyEq A b k.toNat, |φ y| ≤ M) →
            MeanWithin (.sparseHitRun R ERR E) e μ A b x k seed φ (average (uniformOnEq x₀ B k.toNat) φ) L ε δ := by
  obtain ⟨β, C, ε₀, h1, h2, h3, h4, h5⟩ := C61_sparse hL hA hmn k hk b x₀ hx₀A hx₀ D hD B hB
  obtain ⟨η, hη, hη₀, L₀, hL₀, h⟩ := small_of_count (q := 4 * M ^ 2 / ε ^ 2) h1 h3 h4 (by positivity) hδ
  refine ⟨η, hη, L₀, ?_⟩
  intro R ERR hR hE hEη e _ μ hs x hxA hx seed L hL φ hφ hφM
  refine (h5 R ERR hR hE (hEη.trans hη₀) e μ hs x hxA hx seed L (by omega) φ M ε hφ hM hφM hε).mono (h ERR hE hEη _ ?_)
  exact_mod_cast hL

end

/-- On the square: the mean of the first coordinate, over one position in three after the first hundred, and over the rows of a call. -/
example (ε δ : ℝ) (hε : 0 < ε) (hδ : 0 < δ) : ∃ η > 0, ∃ L₀ : ℕ, ∀ ERR, 0 < ERR → ERR ≤ η →
    ∀ x ∈ Interior squareArgs.A.val (squareArgs.b.at (h := rfl)), ∀ L : ℕ, L₀ ≤ L →
      1 - ENNReal.ofReal δ ≤ pathProb (.hitRun (1 / 2) ERR) streamEnv streamLaw
        (callArgs squareArgs.A.val (squareArgs.b.at (h := rfl)) x 0 0 0 1 7) ⟨rfl, rfl⟩
          {p | |(∑ i ∈ Finset.range L, p (100 + (i + 1) * 3) (0 : Fin 2)) / L -
            average (uniformOn squareArgs.A.val (squareArgs.b.at (h := rfl))) fun y => y (0 : Fin 2)| < ε} ∧
      (L < 10 ^ 9 → 1 - ENNReal.ofReal δ ≤ closeProb (.hitRun (1 / 2) ERR) streamEnv streamLaw
        (callArgs squareArgs.A.val (squareArgs.b.at (h := rfl)) x L 0 0 1 7) (fun y => y (0 : Fin 2))
          (average (uniformOn squareArgs.A.val (squareArgs.b.at (h := rfl))) fun y => y (0 : Fin 2)) ε) := by
  obtain ⟨η, hη, L₀, h⟩ := C61_dense_limit (le_refl 2) squareArgs.A.val (squareArgs.b.at (h := rfl)) squareArgs_interior
    ⟨1, fun y hy => (squareArgs_mem y).1 hy⟩ 1 ε δ one_pos hε hδ
  refine ⟨η, hη, L₀, fun ERR h1 h2 x hx L hL => ?_⟩
  have h := h (1 / 2) ERR (by norm_num) h1 h2 streamEnv streamLaw streamRng_ideal x hx 0 7 L hL (fun y => y (0 : Fin 2))
    (measurable_pi_apply _) fun y hy => (squareArgs_mem y).1 hy 0
  refine ⟨(h 0 0 1).1 100 3 (by norm_num), fun hL9 => (h L 0 1).2 ⟨?_, ?_, ?_, ?_, ?_⟩ ?_⟩
  all_goals first | omega | (simp only [intMax]; omega)

/-- On the simplex: the mean of the first coordinate. -/
example (E : Eigen ℝ) (hE : E.SparseLUExact) (ε δ : ℝ) (hε : 0 < ε) (hδ : 0 < δ) : ∃ η > 0, ∃ L₀ : ℕ, ∀ ERR, 0 < ERR → ERR ≤ η →
    ∀ x : Fin 3 → ℝ, ones3 *ᵥ x = (fun _ => 1) → x ∈ TailPos 3 3 → ∀ L : ℕ, L₀ ≤ L →
      1 - ENNReal.ofReal δ ≤ pathProb (.sparseHitRun 2 ERR E) streamEnv streamLaw (callArgs ones3 (fun _ => 1) x 0 3 0 1 7) ⟨rfl, rfl⟩
          {p | |(∑ i ∈ Finset.range L, p (0 + (i + 1) * 1) (0 : Fin 3)) / L -
            average (uniformOnEq (fun _ => 1 / 3) simplexBasis 3) fun y => y (0 : Fin 3)| < ε} ∧
      (L < 10 ^ 9 → 1 - ENNReal.ofReal δ ≤ closeProb (.sparseHitRun 2 ERR E) streamEnv streamLaw
        (callArgs ones3 (fun _ => 1) x L 3 0 1 7) (fun y => y (0 : Fin 3))
          (average (uniformOnEq (fun _ => 1 / 3) simplexBasis 3) fun y => y (0 : Fin 3)) ε) := by
  obtain ⟨η, hη, L₀, h⟩ := C61_sparse_limit hE ones3_indep (by decide) 3 ⟨by decide, by decide⟩ (fun _ => 1) (fun _ => 1 / 3)
    simplex_start (by intro i _; show (0 : ℝ) < 1 / 3; norm_num) 2 simplex_diam simplexBasis ones3_kernel 1 ε δ one_pos hε hδ
  refine ⟨η, hη, L₀, fun ERR h1 h2 x hxA hx L hL => ?_⟩
  have h := h 2 ERR (by
    have h3 : (1 : ℝ) < 2 ^ 10000 := one_lt_pow₀ one_lt_two (by norm_num)
    rw [abs_two]
    generalize (2 : ℝ) ^ 10000 = c at h3
    linarith) h1 h2 streamEnv streamLaw streamRng_ideal x hxA hx 7 L hL (fun y => y (0 : Fin 3)) (measurable_pi_apply _) fun y hy => by
      have := simplex_box y hy 0
      exact abs_le.2 ⟨by linarith [this.1], this.2⟩
  refine ⟨(h 0 0 1).1 0 1 le_rfl, fun hL9 => (h L 0 1).2 ⟨?_, ?_, ?_, ?_, ?_⟩ ?_⟩
  all_goals first | omega | (simp only [intMax]; omega)

end PW
