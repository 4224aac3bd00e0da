import Verif.Lemmas.Concentrate
import Verif.Props.HitRunLimit
import Verif.Props.BallConverges
import Verif.Props.SparseBallConverges

/-!
# C104: how many rows are enough

C61, C75 and C76 bound the probability that an average is off by something that decreases like `1 / L`, or say that it tends to zero. Here it decreases
exponentially with the number `L` of rows.
-/

namespace PW
open Matrix MeasureTheory Set
open scoped ENNReal
variable {m n d : ℕ}

/-- So many rows that the exponential bound is below `δ`. -/
theorem enough_rows {r δ : ℝ} (hr : 0 < r) (hδ : 0 < δ) {L : ℕ} (hL : 2 / r ^ 2 * (r + Real.log (2 / δ)) ≤ L) :
    2 * Real.exp (r - L * r ^ 2 / 2) ≤ δ := by
  have h1 : r + Real.log (2 / δ) ≤ L * r ^ 2 / 2 := by
    have h2 : 0 < r ^ 2 / 2 := by positivity
    have h3 := mul_le_mul_of_nonneg_right hL h2.le
    have e1 : 2 / r ^ 2 * (r + Real.log (2 / δ)) * (r ^ 2 / 2) = r + Real.log (2 / δ) := by field_simp
    have e2 : (L : ℝ) * (r ^ 2 / 2) = L * r ^ 2 / 2 := by ring
    linarith
  have h4 : Real.exp (r - L * r ^ 2 / 2) ≤ Real.exp (-Real.log (2 / δ)) := Real.exp_le_exp.2 (by linarith)
  rw [Real.exp_neg, Real.exp_log (by positivity), inv_div] at h4
  linarith

theorem MeanWithin.shift {w : Walk ℝ} {e : Env ℝ} [MeasurableSpace e.r.G] {μ : Measure e.r.G} {A : Matrix (Fin m) (Fin n) ℝ} {b : Fin m → ℝ}
    {x : Fin n → ℝ} {k seed : Int} {φ : (Fin n → ℝ) → ℝ} {c c' : ℝ} {L : ℕ} {ε ε' δ δ' : ℝ} (h : MeanWithin w e μ A b x k seed φ c L ε δ)
    (hε : ε + |c - c'| ≤ ε') (hδ : δ ≤ δ') : MeanWithin w e μ A b x k seed φ c' L ε' δ' := by
  have hshift : ∀ a : ℝ, |a - c| < ε → |a - c'| < ε' := fun a ha => by
    have := abs_sub_le a c c'
    linarith
  have hd : 1 - ENNReal.ofReal δ' ≤ 1 - ENNReal.ofReal δ := tsub_le_tsub_left (ENNReal.ofReal_le_ofReal hδ) _
  intro niter burnin thin
  refine ⟨fun B τ hτ => hd.trans (((h niter burnin thin).1 B τ hτ).trans (measure_mono ?_)), fun hg hL => hd.trans (((h niter burnin thin).2 hg hL).trans (measure_mono ?_))⟩
  · rintro g ⟨p, hp, hc⟩
    exact ⟨p, hp, hshift _ hc⟩
  · rintro g ⟨f0, rows, h1, h2⟩
    exact ⟨f0, rows, h1, hshift _ h2⟩

section
variable (hn : 2 ≤ n) {A : Matrix (Fin m) (Fin n) ℝ} {b : Fin m → ℝ} (hb : ∃ M, ∀ y ∈ Poly A b, ∀ i, |y i| ≤ M)
  {R : ℝ} (hR : R ≠ 0) {c : Fin n → ℝ} {ρ : ℝ} (hρ : |R| / Real.sqrt n < ρ) (hball : ∀ y, ∑ i, (y i - c i) ^ 2 ≤ ρ ^ 2 → y ∈ Poly A b)
include hn hb hR hρ hball

/-- **C104** (`BallWalk`): there is a constant `C`, depending on the polytope and the radius only, such that from every starting point, with or without burn-in and
thinning, and for every function `φ` bounded by `M` on the polytope, the mean of `φ` over `L` rows is off by `ε` or more with probability at most
`2 exp(r - L r² / 2)` where `r = ε / (C M)`. -/
theorem C104_ball : ∃ C : ℝ, 0 < C ∧ ∀ (e : Env ℝ) [MeasurableSpace e.r.G] (μ : Measure e.r.G), IdealSource e.r μ → ∀ x ∈ Poly A b,
    ∀ (k seed : Int) (φ : (Fin n → ℝ) → ℝ) (M ε : ℝ), Measurable φ → 0 < M → (∀ y ∈ Poly A b, |φ y| ≤ M) → 0 < ε → ∀ L : ℕ,
      MeanWithin (.ball R) e μ A b x k seed φ (average (uniformOn A b) φ) L ε (2 * Real.exp (ε / (C * M) - L * (ε / (C * M)) ^ 2 / 2)) := by
  obtain ⟨β, n₀, h⟩ := ball_mixes hn hb hR hρ hball
  have hm := ball_rows_pos hn hb
  have h1 : (0 : ℝ) < n₀ := by exact_mod_cast h.len_pos
  have h2 := h.pos
  refine ⟨2 * n₀ / β, by positivity, fun e _ μ hs x hx k seed φ M ε hφ hM hφM hε L => ?_⟩
  have := hs.prob
  rw [← normed_average]
  exact h.concentrate (m := m) hx hφ hM hφM (measurable_ballNext R e.r μ hs A b) (ball_drives R e.r μ hs A b)
    (fun y hy => ae_of_all _ fun g t => posAt_keep (fun y hy g => ballMove_mem _ hy _) hy g t) (by intro h; cases h)
    (fun niter burnin thin => ae_of_all _ (ball_follows R e A b hm x niter k burnin thin seed)) L hε

end

section
variable {E : Eigen ℝ} (hE : E.SparseLUExact) {A : Matrix (Fin m) (Fin n) ℝ} (hA : IndepRows A) (hmn : m + 2 ≤ n) {k : Int} (hk : 1 ≤ k ∧ k ≤ n)
  {b : Fin m → ℝ} (hb : ∃ M, ∀ y ∈ PolyEq A b k.toNat, ∀ i, |y i| ≤ M) {R : ℝ} (hR : R ≠ 0) {x₀ : Fin n → ℝ} (hx₀ : A *ᵥ x₀ = b) {ρ : ℝ}
  (hρ : |R| / Real.sqrt ((n : ℝ) - m) < ρ) (hball : ∀ y, A *ᵥ y = b → ∑ i, (y i - x₀ i) ^ 2 ≤ ρ ^ 2 → y ∈ PolyEq A b k.toNat)
  {B : Matrix (Fin n) (Fin d) ℝ} (hB : IsKernelBasis A B)
include hE hA hmn hk hb hR hx₀ hρ hball hB

/-- **C104** (`SparseBallWalk`). -/
theorem C104_sparse_ball : ∃ C : ℝ, 0 < C ∧ ∀ (e : Env ℝ) [MeasurableSpace e.r.G] (μ : Measure e.r.G), IdealSource e.r μ → ∀ x ∈ PolyEq A b k.toNat,
    ∀ (seed : Int) (φ : (Fin n → ℝ) → ℝ) (M ε : ℝ), Measurable φ → 0 < M → (∀ y ∈ PolyEq A b k.toNat, |φ y| ≤ M) → 0 < ε → ∀ L : ℕ,
      MeanWithin (.sparseBall R E) e μ A b x k seed φ (average (uniformOnEq x₀ B k.toNat) φ) L ε
        (2 * Real.exp (ε / (C * M) - L * (ε / (C * M)) ^ 2 / 2)) := by
  obtain ⟨β, n₀, h⟩ := sparseBall_mixes hA hmn hk hb hR hx₀ hρ hball hB
  have h1 : (0 : ℝ) < n₀ := by exact_mod_cast h.len_pos
  have h2 := h.pos
  refine ⟨2 * n₀ / β, by positivity, fun e _ μ hs x hx seed φ M ε hφ hM hφM hε L => ?_⟩
  have := hs.prob
  rw [← normed_average]
  exact h.concentrate (m := m) hx hφ hM hφM (measurable_sparseBallNext R e.r μ hs A _) (sparseBall_drives R e.r μ hs A _)
    (fun y hy => ae_of_all _ fun g t => posAt_keep (fun y hy g => sparseBallMove_mem R hA hy _) hy g t) (fun _ => hk)
    (fun niter burnin thin => ae_of_all _ (sparseBall_follows R hE e hA b hk x niter burnin thin seed)) L hε

end

/-- **C104** (`HitAndRun`): on a bounded polytope of dimension at least two with an interior point there are `C`, `C'` and `ε₀ > 0` such that for every tolerance
`err ≤ ε₀` and every radius the mean of `φ` over `L` rows is off by `ε + 2 M C' err` or more with probability at most `2 exp(r - L r² / 2)`, `r = ε / (C M)`. -/
theorem C104_hitrun (hn : 2 ≤ n) (A : Matrix (Fin m) (Fin n) ℝ) (b : Fin m → ℝ) (hx₀ : ∃ x, x ∈ Interior A b)
    (hb : ∃ B, ∀ y ∈ Poly A b, ∀ i, |y i| ≤ B) :
    ∃ C C' ε₀ : ℝ, 0 < C ∧ 0 ≤ C' ∧ 0 < ε₀ ∧ ∀ R ERR : ℝ, R ≠ 0 → 0 < ERR → ERR ≤ ε₀ →
      ∀ (e : Env ℝ) [MeasurableSpace e.r.G] (μ : Measure e.r.G), IdealSource e.r μ → ∀ x ∈ Interior A b,
      ∀ (k seed : Int) (φ : (Fin n → ℝ) → ℝ) (M ε : ℝ), Measurable φ → 0 < M → (∀ y ∈ Poly A b, |φ y| ≤ M) → 0 < ε → ∀ L : ℕ,
        MeanWithin (.hitRun R ERR) e μ A b x k seed φ (average (uniformOn A b) φ) L (ε + 2 * M * (C' * ERR))
          (2 * Real.exp (ε / (C * M) - L * (ε / (C * M)) ^ 2 / 2)) := by
  obtain ⟨β, C', ε₀, h1, h2, h3, h4, h5⟩ := hitRun_limit_dense hn A b hx₀ hb
  have hm := pos_rows_of_bounded (by omega) hb
  refine ⟨2 * (1 : ℕ) / β, C', ε₀, by positivity, h3, h4, fun R ERR hR hE hEρ e _ μ hs x hx k seed φ M ε hφ hM hφM hε L => ?_⟩
  obtain ⟨P, hP, -, havg⟩ := h5 R ERR hR hE hEρ
  have hp := hP.prob
  have := hs.prob
  have mnext := measurable_hitRunNext hm R ERR A b
  have hfol := fun (y : Fin n → ℝ) (hy : y ∈ Interior A b) niter burnin thin => hitRun_follows R ERR hR hE e μ hs A b y niter k burnin thin seed hn hy hb
  have h6 := hP.concentrate (m := m) (w := .hitRun R ERR) (e := e) (μ := μ) hx hφ hM (fun y hy => hφM y (interior_subset A b hy))
    (f := fun x g => idealStep e.r (hitRunNext R ERR A b) (x, g)) (measurable_idealStep hs mnext) (ideal_drives hs mnext)
    (fun y hy => (hfol y hy 0 0 1).mono fun g h => h.2) (A := A) (b := b) (k := k) (seed := seed) (by intro h; cases h)
    (fun niter burnin thin => (hfol x hx niter burnin thin).mono fun g h => h.1) L hε
  rw [average_prob] at h6
  exact h6.shift (by have := havg φ M hφ hM hφM; linarith) le_rfl

/-- **C104** (`SparseHitAndRun`). -/
theorem C104_sparse_hitrun {E : Eigen ℝ} (hL : E.SparseLUExact) {A : Matrix (Fin m) (Fin n) ℝ} (hA : IndepRows A) (hmn : m + 2 ≤ n)
    (k : Int) (hk : 1 ≤ k ∧ k ≤ n) (b : Fin m → ℝ) (x₀ : Fin n → ℝ) (hx₀A : A *ᵥ x₀ = b) (hx₀ : x₀ ∈ TailPos n k.toNat) (D : ℝ)
    (hD : ∀ y ∈ PolyEq A b k.toNat, ∀ z ∈ PolyEq A b k.toNat, ∑ i, (y i - z i) ^ 2 ≤ D ^ 2)
    (B : Matrix (Fin n) (Fin d) ℝ) (hB : IsKernelBasis A B) :
    ∃ C C' ε₀ : ℝ, 0 < C ∧ 0 ≤ C' ∧ 0 < ε₀ ∧ ∀ R ERR : ℝ, |D| < 2 ^ 10000 * |R| → 0 < ERR → ERR ≤ ε₀ →
      ∀ (e : Env ℝ) [MeasurableSpace e.r.G] (μ : Measure e.r.G), IdealSource e.r μ → ∀ x, A *ᵥ x = b → x ∈ TailPos n k.toNat →
      ∀ (seed : Int) (φ : (Fin n → ℝ) → ℝ) (M ε : ℝ), Measurable φ → 0 < M → (∀ y ∈ PolyEq A b k.toNat, |φ y| ≤ M) → 0 < ε → ∀ L : ℕ,
        MeanWithin (.sparseHitRun R ERR E) e μ A b x k seed φ (average (uniformOnEq x₀ B k.toNat) φ) L (ε + 2 * M * (C' * ERR))
          (2 * Real.exp (ε / (C * M) - L * (ε / (C * M)) ^ 2 / 2)) := by
  obtain ⟨β, C', ε₀, h1, h2, h3, h4, h5⟩ := hitRun_limit_sparse hL hA hmn k hk b x₀ hx₀A hx₀ D hD B hB
  refine ⟨2 * (1 : ℕ) / β, C', ε₀, by positivity, h3, h4, fun R ERR hR hE hEρ e _ μ hs x hxA hx seed φ M ε hφ hM hφM hε L => ?_⟩
  obtain ⟨P, hP, hDlt, -, havg⟩ := h5 R ERR hR hE hEρ
  have hp := hP.prob
  have := hs.prob
  have mnext := measurable_sparseHitRunNext hL hA (k := k.toNat) (by omega) (by omega) R ERR
  have hfol := fun (y : Fin n → ℝ) (hy : y ∈ {x | A *ᵥ x = b} ∩ TailPos n k.toNat) niter burnin thin =>
    sparseHitRun_follows R ERR hE hL e μ hs hA hmn b y niter k burnin thin seed hk hy.1 hy.2 hDlt
  have h6 := hP.concentrate (m := m) (w := .sparseHitRun R ERR E) (e := e) (μ := μ) (x := x) ⟨hxA, hx⟩ hφ hM
    (fun y hy => hφM y ⟨hy.1, tailPos_subset _ _ hy.2⟩)
    (f := fun x g => idealStep e.r (sparseHitRunNext R ERR E A k.toNat) (x, g)) (measurable_idealStep hs mnext) (ideal_drives hs mnext)
    (fun y hy => (hfol y hy 0 0 1).mono fun g h => h.2) (A := A) (b := b) (k := k) (seed := seed) (fun _ => hk)
    (fun niter burnin thin => (hfol x ⟨hxA, hx⟩ niter burnin thin).mono fun g h => h.1) L hε
  rw [average_prob] at h6
  exact h6.shift (by have := havg φ M hφ hM hφM; linarith) le_rfl

/-- **C104**, read the other way, for `BallWalk`: a confidence of `1 - δ` needs a number of rows that grows like `log (1 / δ)` only. -/
theorem C104_enough (hn : 2 ≤ n) {A : Matrix (Fin m) (Fin n) ℝ} {b : Fin m → ℝ} (hb : ∃ M, ∀ y ∈ Poly A b, ∀ i, |y i| ≤ M)
    {R : ℝ} (hR : R ≠ 0) {c : Fin n → ℝ} {ρ : ℝ} (hρ : |R| / Real.sqrt n < ρ) (hball : ∀ y, ∑ i, (y i - c i) ^ 2 ≤ ρ ^ 2 → y ∈ Poly A b) :
    ∃ C : ℝ, 0 < C ∧ ∀ (e : Env ℝ) [MeasurableSpace e.r.G] (μ : Measure e.r.G), IdealSource e.r μ → ∀ x ∈ Poly A b,
    ∀ (k seed : Int) (φ : (Fin n → ℝ) → ℝ) (M ε δ : ℝ), Measurable φ → 0 < M → (∀ y ∈ Poly A b, |φ y| ≤ M) → 0 < ε → 0 < δ →
      ∀ L : ℕ, 2 / (ε / (C * M)) ^ 2 * (ε / (C * M) + Real.log (2 / δ)) ≤ L →
        MeanWithin (.ball R) e μ A b x k seed φ (average (uniformOn A b) φ) L ε δ := by
  obtain ⟨C, hC, h⟩ := C104_ball hn hb hR hρ hball
  refine ⟨C, hC, fun e _ μ hs x hx k seed φ M ε δ hφ hM hφM hε hδ L hL => ?_⟩
  exact (h e μ hs x hx k seed φ M ε hφ hM hφM hε L).shift (by simp) (enough_rows (by positivity) hδ hL)

end PW
