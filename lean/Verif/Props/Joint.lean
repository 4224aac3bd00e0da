import Verif.Lemmas.JointRows
import Verif.Props.SparseUserLaw
import Verif.Props.SparseBallConverges

/-!
# C95: rows that are far enough apart are jointly distributed like independent samples

The other distribution theorems speak of one row, or of the mean over many. Here are several rows together: with enough thinning they are as good as
independent uniform points; without thinning, those of the ball walk are not.
-/

namespace PW
open Matrix MeasureTheory Set
open scoped ENNReal
variable {m n d : ℕ}

/-- For independent draws, the probability of falling in given regions one after the other is the product of their shares. -/
theorem independent_box {π : Measure (Fin n → ℝ)} (h0 : π univ ≠ 0) (ht : π univ ≠ ⊤) (L : ℕ) (T : Fin L → Set (Fin n → ℝ)) :
    (independent π L (univ.pi T)).toReal = ∏ i, share π (T i) := by
  have := normed_prob h0 ht
  unfold independent
  have h : (Measure.pi fun _ : Fin L => normed π) (univ.pi T) = ∏ i, normed π (T i) := Measure.pi_pi _ _
  refine (congrArg ENNReal.toReal h).trans ?_
  rw [ENNReal.toReal_prod]
  exact Finset.prod_congr rfl fun i _ => normed_share π (T i)

/-! ## Sparse barrier walks -/

section
variable (E : Eigen ℝ) (hE : E.Exact) (ERR : ℝ) (hR : 0 < ERR) (R : ℝ) (hr : R ≠ 0) {A : Matrix (Fin m) (Fin n) ℝ} (hA : IndepRows A)
  (hmn : m < n) (k : Int) (hk : 1 ≤ k ∧ k ≤ n) (b : Fin m → ℝ) (hb : ∃ M, ∀ y ∈ PolyEq A b k.toNat, ∀ i, |y i| ≤ M) (x₀ : Fin n → ℝ)
  (hx₀A : A *ᵥ x₀ = b) (hx₀ : x₀ ∈ TailPos n k.toNat) (B : Matrix (Fin n) (Fin d) ℝ) (hB : IsKernelBasis A B)
  (x : Fin n → ℝ) (hxA : A *ᵥ x = b) (hx : x ∈ TailPos n k.toNat)
include hE hR hr hA hmn hk hb hx₀A hx₀ hB hxA hx

/-- **C95** (`SparseDikinWalk`): for any number `L` of rows there is a gap such that a call that thins by the gap or more returns `L` rows that are jointly
distributed like `L` independent uniform points, up to `ε`. The gap is independent of the seed, of the burn-in, and of what the walk object did before. -/
theorem C95_sparse_dikin (L : ℕ) (ε : ℝ) (hε : 0 < ε) : ∃ gap : ℕ, ∀ (o : BState ℝ) (e : Env ℝ) [MeasurableSpace e.r.G] (μ : Measure e.r.G),
    IdealSource e.r μ → ∀ seed : Int,
      JointWithin (.sparseBarrier (sparseDikinClass R) ERR E o) e μ A b x k seed (uniformOnEq x₀ B k.toNat) L gap ε := by
  obtain ⟨D, c, h, hxV, hfol⟩ := dikin_mh E hE ERR hR R hr hA hmn k hk b hb x₀ hx₀A hx₀ B hB x hxA hx
  obtain ⟨gap, hg⟩ := h.joint (m := m) L hxV hε
  exact ⟨gap, fun o e _ μ hs seed =>
    hg _ e μ hs A b k seed (fun _ => hk) (fun niter burnin thin => hfol o e μ hs niter burnin thin seed)⟩

/-- **C95** (`SparseVaidyaWalk`): the same, when the `int` product `k * (cols - rows)` does not overflow. -/
theorem C95_sparse_vaidya (hov : k * ((n : Int) - m) ≤ 2 ^ 31 - 1) (L : ℕ) (ε : ℝ) (hε : 0 < ε) :
    ∃ gap : ℕ, ∀ (o : BState ℝ) (e : Env ℝ) [MeasurableSpace e.r.G] (μ : Measure e.r.G), IdealSource e.r μ → ∀ seed : Int,
      JointWithin (.sparseBarrier (sparseVaidyaClass E ERR R) ERR E o) e μ A b x k seed (uniformOnEq x₀ B k.toNat) L gap ε := by
  obtain ⟨D, c, h, hxV, hfol⟩ := vaidya_mh E hE ERR hR R hr hA hmn k hk b hb x₀ hx₀A hx₀ B hB x hxA hx hov
  obtain ⟨gap, hg⟩ := h.joint (m := m) L hxV hε
  exact ⟨gap, fun o e _ μ hs seed =>
    hg _ e μ hs A b k seed (fun _ => hk) (fun niter burnin thin => hfol o e μ hs niter burnin thin seed)⟩

end

section
variable {σ : Type} (cls : SparseBarrierClass ℝ σ) (E : Eigen ℝ) (hE : E.Exact) (ERR : ℝ) (hR : 0 < ERR) {A : Matrix (Fin m) (Fin n) ℝ}
  (hA : IndepRows A) (k : Int) (hk : 1 ≤ k ∧ k ≤ n) {D : ℝ} (hD : 0 < D) {wf : (Fin n → ℝ) → Fin n → ℝ} (hwm : Measurable wf)
  (hwp : ∀ x ∈ TailPos n k.toNat, ∀ i : Fin n, n - k.toNat ≤ i.val → 0 < wf x i)
  (b : Fin m → ℝ) (hb : ∃ M, ∀ y ∈ PolyEq A b k.toNat, ∀ i, |y i| ≤ M) (x₀ : Fin n → ℝ)
  (hx₀A : A *ᵥ x₀ = b) (hx₀ : x₀ ∈ TailPos n k.toNat) (B : Matrix (Fin n) (Fin d) ℝ) (hB : IsKernelBasis A B)
  (x : Fin n → ℝ) (hxA : A *ᵥ x = b) (hx : x ∈ TailPos n k.toNat)
include hE hR hA hk hD hwm hwp hb hx₀A hx₀ hB hxA hx

/-- **C95** (any subclass of `SparseBarrierWalk` whose weights are a positive function of the point). -/
theorem C95_sparse_user (L : ℕ) (ε : ℝ) (hε : 0 < ε) : ∃ gap : ℕ, ∀ o, WeightsAre cls o A k D wf →
    ∀ (e : Env ℝ) [MeasurableSpace e.r.G] (μ : Measure e.r.G), IdealSource e.r μ → ∀ seed : Int,
      JointWithin (.sparseBarrier cls ERR E o) e μ A b x k seed (uniformOnEq x₀ B k.toNat) L gap ε := by
  obtain ⟨Gf, c, h, hxV, hfol⟩ := user_mh cls E hE ERR hR hA k hk hD hwm hwp b hb x₀ hx₀A hx₀ B hB x hxA hx
  obtain ⟨gap, hg⟩ := h.joint (m := m) L hxV hε
  exact ⟨gap, fun o ho e _ μ hs seed =>
    hg _ e μ hs A b k seed (fun _ => hk) (fun niter burnin thin => hfol o ho e μ hs niter burnin thin seed)⟩

end

/-! ## Dense barrier walks on boxes -/

section
variable (E : Eigen ℝ) (hE : E.Exact) (R : ℝ) (hr : R ≠ 0) {A : Matrix (Fin m) (Fin n) ℝ} {b : Fin m → ℝ} (hn : 0 < n)
  (hax : AxisAligned A) (hb : ∃ M, ∀ y ∈ Poly A b, ∀ i, |y i| ≤ M) {x : Fin n → ℝ} (hx : x ∈ Interior A b)
include hE hr hn hax hb hx

/-- **C95** (`DikinWalk`, axis-aligned constraints). -/
theorem C95_dense_dikin (L : ℕ) (ε : ℝ) (hε : 0 < ε) : ∃ gap : ℕ, ∀ (o : BState ℝ) (e : Env ℝ) [MeasurableSpace e.r.G] (μ : Measure e.r.G),
    IdealSource e.r μ → ∀ k seed : Int, JointWithin (.barrier (dikinClass R) E o) e μ A b x k seed (uniformOn A b) L gap ε := by
  obtain ⟨P, acc, q, h, hfol⟩ := dense_dikin_mh E hE R hr hn hax hb hx
  obtain ⟨gap, hg⟩ := h.joint (m := m) L hx hε
  rw [uniformOn_eq_mhTarget]
  exact ⟨gap, fun o e _ μ hs k seed =>
    hg _ e μ hs A b k seed (by intro h; cases h) (fun niter burnin thin => hfol o e μ hs niter k burnin thin seed)⟩

/-- **C95** (`VaidyaWalk`, axis-aligned constraints): the same, when the `int` product `cols * rows` does not overflow. -/
theorem C95_dense_vaidya (hov : (n : Int) * m ≤ 2 ^ 31 - 1) (L : ℕ) (ε : ℝ) (hε : 0 < ε) :
    ∃ gap : ℕ, ∀ (o : BState ℝ) (e : Env ℝ) [MeasurableSpace e.r.G] (μ : Measure e.r.G),
    IdealSource e.r μ → ∀ k seed : Int, JointWithin (.barrier (vaidyaClass E R) E o) e μ A b x k seed (uniformOn A b) L gap ε := by
  obtain ⟨P, acc, q, h, hfol⟩ := dense_vaidya_mh E hE R hr hn hax hb hx hov
  obtain ⟨gap, hg⟩ := h.joint (m := m) L hx hε
  rw [uniformOn_eq_mhTarget]
  exact ⟨gap, fun o e _ μ hs k seed =>
    hg _ e μ hs A b k seed (by intro h; cases h) (fun niter burnin thin => hfol o e μ hs niter k burnin thin seed)⟩

end

/-! ## Ball walks -/

theorem rate_small' {β : ℝ} (hβ : 0 < β) (hβ1 : β ≤ 1) {n₀ : ℕ} (hn₀ : 0 < n₀) (L : ℕ) {ε : ℝ} (hε : 0 < ε) :
    ∃ N : ℕ, (L : ℝ) * (1 - β) ^ (N / n₀) ≤ ε := by
  obtain ⟨N, hN⟩ := rate_small hβ hβ1 hn₀ (L : ℝ) hε
  exact ⟨N, by rw [mul_comm]; exact hN N le_rfl⟩

section
variable (hn : 2 ≤ n) {A : Matrix (Fin m) (Fin n) ℝ} {b : Fin m → ℝ} (hb : ∃ M, ∀ y ∈ Poly A b, ∀ i, |y i| ≤ M)
  {R : ℝ} (hR : R ≠ 0) {c : Fin n → ℝ} {ρ : ℝ} (hρ : |R| / Real.sqrt n < ρ) (hball : ∀ y, ∑ i, (y i - c i) ^ 2 ≤ ρ ^ 2 → y ∈ Poly A b)
include hn hb hR hρ hball

/-- **C95** (`BallWalk`): under the conditions of C75, `L` rows (or positions) that are `gap` apart are jointly within `L (1 - β) ^ (gap / n₀)` of independent uniform
points, from every starting point in the polytope. -/
theorem C95_ball : ∃ (β : ℝ) (n₀ : ℕ), 0 < β ∧ β ≤ 1 ∧ 0 < n₀ ∧ ∀ (e : Env ℝ) [MeasurableSpace e.r.G] (μ : Measure e.r.G),
    IdealSource e.r μ → ∀ x ∈ Poly A b, ∀ (k seed : Int) (L gap : ℕ),
      JointWithin (.ball R) e μ A b x k seed (uniformOn A b) L gap (L * (1 - β) ^ (gap / n₀)) := by
  obtain ⟨β, n₀, h⟩ := ball_mixes hn hb hR hρ hball
  have hm := ball_rows_pos hn hb
  refine ⟨β, n₀, h.pos, h.le, h.len_pos, fun e _ μ hs x hx k seed L gap => ?_⟩
  have := hs.prob
  exact h.joint (measurable_ballNext R e.r μ hs A b) (ball_drives R e.r μ hs A b) hx (by intro h; cases h)
    (fun niter burnin thin => ae_of_all _ (ball_follows R e A b hm x niter k burnin thin seed)) L gap

/-- **C95** (`BallWalk`, limit). -/
theorem C95_ball_limit (L : ℕ) (ε : ℝ) (hε : 0 < ε) : ∃ gap : ℕ, ∀ (e : Env ℝ) [MeasurableSpace e.r.G] (μ : Measure e.r.G),
    IdealSource e.r μ → ∀ x ∈ Poly A b, ∀ k seed : Int, JointWithin (.ball R) e μ A b x k seed (uniformOn A b) L gap ε := by
  obtain ⟨β, n₀, h0, h1, hn₀, h⟩ := C95_ball hn hb hR hρ hball
  obtain ⟨gap, hg⟩ := rate_small' h0 h1 hn₀ L hε
  exact ⟨gap, fun e _ μ hs x hx k seed => (h e μ hs x hx k seed L gap).mono le_rfl hg⟩

end

section
variable {E : Eigen ℝ} (hE : E.SparseLUExact) {A : Matrix (Fin m) (Fin n) ℝ} (hA : IndepRows A) (hmn : m + 2 ≤ n) {k : Int} (hk : 1 ≤ k ∧ k ≤ n)
  {b : Fin m → ℝ} (hb : ∃ M, ∀ y ∈ PolyEq A b k.toNat, ∀ i, |y i| ≤ M) {R : ℝ} (hR : R ≠ 0) {x₀ : Fin n → ℝ} (hx₀ : A *ᵥ x₀ = b) {ρ : ℝ}
  (hρ : |R| / Real.sqrt ((n : ℝ) - m) < ρ) (hball : ∀ y, A *ᵥ y = b → ∑ i, (y i - x₀ i) ^ 2 ≤ ρ ^ 2 → y ∈ PolyEq A b k.toNat)
  {B : Matrix (Fin n) (Fin d) ℝ} (hB : IsKernelBasis A B)
include hE hA hmn hk hb hR hx₀ hρ hball hB

/-- **C95** (`SparseBallWalk`): the same under the conditions of C76. -/
theorem C95_sparse_ball : ∃ (β : ℝ) (n₀ : ℕ), 0 < β ∧ β ≤ 1 ∧ 0 < n₀ ∧ ∀ (e : Env ℝ) [MeasurableSpace e.r.G] (μ : Measure e.r.G),
    IdealSource e.r μ → ∀ x ∈ PolyEq A b k.toNat, ∀ (seed : Int) (L gap : ℕ),
      JointWithin (.sparseBall R E) e μ A b x k seed (uniformOnEq x₀ B k.toNat) L gap (L * (1 - β) ^ (gap / n₀)) := by
  obtain ⟨β, n₀, h⟩ := sparseBall_mixes hA hmn hk hb hR hx₀ hρ hball hB
  refine ⟨β, n₀, h.pos, h.le, h.len_pos, fun e _ μ hs x hx seed L gap => ?_⟩
  have := hs.prob
  exact h.joint (measurable_sparseBallNext R e.r μ hs A _) (sparseBall_drives R e.r μ hs A _) hx (fun _ => hk)
    (fun niter burnin thin => ae_of_all _ (sparseBall_follows R hE e hA b hk x niter burnin thin seed)) L gap

/-- **C95** (`SparseBallWalk`, limit). -/
theorem C95_sparse_ball_limit (L : ℕ) (ε : ℝ) (hε : 0 < ε) : ∃ gap : ℕ, ∀ (e : Env ℝ) [MeasurableSpace e.r.G] (μ : Measure e.r.G),
    IdealSource e.r μ → ∀ x ∈ PolyEq A b k.toNat, ∀ seed : Int,
      JointWithin (.sparseBall R E) e μ A b x k seed (uniformOnEq x₀ B k.toNat) L gap ε := by
  obtain ⟨β, n₀, h0, h1, hn₀, h⟩ := C95_sparse_ball hE hA hmn hk hb hR hx₀ hρ hball hB
  obtain ⟨gap, hg⟩ := rate_small' h0 h1 hn₀ L hε
  exact ⟨gap, fun e _ μ hs x hx seed => (h e μ hs x hx seed L gap).mono le_rfl hg⟩

end

/-! ## Hit-and-Run -/

/-- **C95** (`HitAndRun`): `L` rows (or positions) that are `gap` apart are jointly within `L ((1 - β) ^ gap + C err)` of independent uniform points. -/
theorem C95_hitrun (hn : 2 ≤ n) (A : Matrix (Fin m) (Fin n) ℝ) (b : Fin m → ℝ) (hx₀ : ∃ x, x ∈ Interior A b)
    (hb : ∃ B, ∀ y ∈ Poly A b, ∀ i, |y i| ≤ B) :
    ∃ β C ε₀ : ℝ, 0 < β ∧ β ≤ 1 ∧ 0 ≤ C ∧ 0 < ε₀ ∧ ∀ R ERR : ℝ, R ≠ 0 → 0 < ERR → ERR ≤ ε₀ →
      ∀ (e : Env ℝ) [MeasurableSpace e.r.G] (μ : Measure e.r.G), IdealSource e.r μ → ∀ x ∈ Interior A b,
        ∀ (k seed : Int) (L gap : ℕ),
          JointWithin (.hitRun R ERR) e μ A b x k seed (uniformOn A b) L gap (L * ((1 - β) ^ gap + C * ERR)) := by
  obtain ⟨β, C, ε₀, h1, h2, h3, h4, h5⟩ := hitRun_mix_dense hn A b hx₀ hb
  refine ⟨β, C, ε₀, h1, h2, h3, h4, ?_⟩
  intro R ERR hR hE hEρ e _ μ hs x hx k seed L gap
  have hm := pos_rows_of_bounded (by omega) hb
  have hZ : uniformOn A b univ = volume (Poly A b) := by rw [uniformOn, Measure.restrict_apply_univ]
  have hfol := fun niter burnin thin => hitRun_follows R ERR hR hE e μ hs A b x niter k burnin thin seed hn hx hb
  refine draw_joint (measurable_hitRunNext hm R ERR A b) (by rw [hZ]; exact (volume_poly_pos hx₀).ne') (by rw [hZ]; exact (volume_poly_lt_top hb).ne)
    (K := Interior A b) (uniformOn_ae hx) (fun y hy F hF hF1 t ht => ?_) hs hx (by intro h; cases h)
    (fun niter burnin thin => (hfol niter burnin thin).mono fun g h => h.1) L
  refine (h5 R ERR hR hE hEρ y hy F hF hF1 t).trans (add_le_add ?_ le_rfl)
  exact pow_le_pow_of_le_one (by linarith) (by linarith) ht

/-- **C95** (`SparseHitAndRun`). -/
theorem C95_sparse_hitrun {E : Eigen ℝ} (hL : E.SparseLUExact) {A : Matrix (Fin m) (Fin n) ℝ} (hA : IndepRows A) (hmn : m + 2 ≤ n)
    (k : Int) (hk : 1 ≤ k ∧ k ≤ n) (b : Fin m → ℝ) (x₀ : Fin n → ℝ) (hx₀A : A *ᵥ x₀ = b) (hx₀ : x₀ ∈ TailPos n k.toNat) (D : ℝ)
    (hD : ∀ y ∈ PolyEq A b k.toNat, ∀ z ∈ PolyEq A b k.toNat, ∑ i, (y i - z i) ^ 2 ≤ D ^ 2)
    (B : Matrix (Fin n) (Fin d) ℝ) (hB : IsKernelBasis A B) :
    ∃ β C ε₀ : ℝ, 0 < β ∧ β ≤ 1 ∧ 0 ≤ C ∧ 0 < ε₀ ∧ ∀ R ERR : ℝ, |D| < 2 ^ 10000 * |R| → 0 < ERR → ERR ≤ ε₀ →
      ∀ (e : Env ℝ) [MeasurableSpace e.r.G] (μ : Measure e.r.G), IdealSource e.r μ →
        ∀ x, A *ᵥ x = b → x ∈ TailPos n k.toNat → ∀ (seed : Int) (L gap : ℕ),
          JointWithin (.sparseHitRun R ERR E) e μ A b x k seed (uniformOnEq x₀ B k.toNat) L gap (L * ((1 - β) ^ gap + C * ERR)) := by
  obtain ⟨β, C, ε₀, h1, h2, h3, h4, h5⟩ := hitRun_mix_sparse hL hA hmn k hk b x₀ hx₀A hx₀ D hD B hB
  refine ⟨β, C, ε₀, h1, h2, h3, h4, ?_⟩
  intro R ERR hR hE hEρ e _ μ hs x hxA hx seed L gap
  obtain ⟨hDlt, h6⟩ := h5 R ERR hR hE hEρ
  have hk1 : 1 ≤ k.toNat := by omega
  have hkn : k.toNat ≤ n := by omega
  subst hx₀A
  let K : Set (Fin n → ℝ) := {x | A *ᵥ x = A *ᵥ x₀} ∩ TailPos n k.toNat
  have hbd : ∃ M, ∀ y ∈ PolyEq A (A *ᵥ x₀) k.toNat, ∀ i, |y i| ≤ M := by
    refine ⟨|D| + ∑ i, |x₀ i|, fun z hz i => ?_⟩
    have h1 := hD z hz x₀ ⟨rfl, tailPos_subset _ _ hx₀⟩
    have h2 : (z i - x₀ i) ^ 2 ≤ |D| ^ 2 := by
      rw [sq_abs]
      exact (Finset.single_le_sum (f := fun i => (z i - x₀ i) ^ 2) (fun _ _ => sq_nonneg _) (Finset.mem_univ i)).trans h1
    have h3 : |z i - x₀ i| ≤ |D| := (sq_le_sq.1 h2).trans (abs_abs D).le
    have h4 : |x₀ i| ≤ ∑ i, |x₀ i| := Finset.single_le_sum (f := fun i => |x₀ i|) (fun _ _ => abs_nonneg _) (Finset.mem_univ i)
    have h5 : z i = (z i - x₀ i) + x₀ i := by ring
    rw [h5]
    exact (abs_add_le _ _).trans (add_le_add h3 h4)
  have hZ : uniformOnEq x₀ B k.toNat univ = volume (chart x₀ B ⁻¹' TailNonneg n k.toNat) := by
    rw [uniformOnEq, Measure.map_apply (measurable_chart x₀ B) MeasurableSet.univ, preimage_univ, Measure.restrict_apply_univ]
    rfl
  obtain ⟨hm0, hmt⟩ := chart_mass hB hx₀ hbd
  have hfol := fun niter burnin thin =>
    sparseHitRun_follows R ERR hE hL e μ hs hA hmn (A *ᵥ x₀) x niter k burnin thin seed hk hxA hx hDlt
  refine draw_joint (measurable_sparseHitRunNext hL hA hk1 hkn R ERR) (by rw [hZ]; exact hm0) (by rw [hZ]; exact hmt)
    (K := K) (chart_ae B hx₀ hB.mul_zero) (fun y hy F hF hF1 t ht => ?_) hs ⟨hxA, hx⟩ (fun _ => hk)
    (fun niter burnin thin => (hfol niter burnin thin).mono fun g h => h.1) L
  refine (h6 y hy.1 hy.2 F hF hF1 t).trans (add_le_add ?_ le_rfl)
  exact pow_le_pow_of_le_one (by linarith) (by linarith) ht

theorem small_of_rate' {β C ε₀ ε : ℝ} (hβ : 0 < β) (hβ1 : β ≤ 1) (hC : 0 ≤ C) (hε₀ : 0 < ε₀) (L : ℕ) (hε : 0 < ε) :
    ∃ η, 0 < η ∧ η ≤ ε₀ ∧ ∃ gap : ℕ, ∀ ERR, 0 < ERR → ERR ≤ η → (L : ℝ) * ((1 - β) ^ gap + C * ERR) ≤ ε := by
  obtain ⟨η, h0, h1, t₀, h⟩ := small_of_rate hβ hβ1 hC hε₀ (ε := ε / (L + 1)) (by positivity)
  refine ⟨η, h0, h1, t₀, fun ERR hE hη => ?_⟩
  calc (L : ℝ) * ((1 - β) ^ t₀ + C * ERR) ≤ (L + 1) * (ε / (L + 1)) :=
        mul_le_mul (by linarith) (h ERR hE hη t₀ le_rfl) (add_nonneg (pow_nonneg (by linarith) _) (mul_nonneg hC hE.le)) (by positivity)
    _ = ε := by field_simp

/-- **C95** (`HitAndRun`, limit): with a small enough tolerance and enough thinning the rows are jointly within `ε` of independent uniform points. -/
theorem C95_hitrun_limit (hn : 2 ≤ n) (A : Matrix (Fin m) (Fin n) ℝ) (b : Fin m → ℝ) (hx₀ : ∃ x, x ∈ Interior A b)
    (hb : ∃ B, ∀ y ∈ Poly A b, ∀ i, |y i| ≤ B) (L : ℕ) (ε : ℝ) (hε : 0 < ε) :
    ∃ η > 0, ∃ gap : ℕ, ∀ R ERR : ℝ, R ≠ 0 → 0 < ERR → ERR ≤ η →
      ∀ (e : Env ℝ) [MeasurableSpace e.r.G] (μ : Measure e.r.G), IdealSource e.r μ → ∀ x ∈ Interior A b,
        ∀ k seed : Int, JointWithin (.hitRun R ERR) e μ A b x k seed (uniformOn A b) L gap ε := by
  obtain ⟨β, C, ε₀, h1, h2, h3, h4, h5⟩ := C95_hitrun hn A b hx₀ hb
  obtain ⟨η, hη, hη1, gap, hg⟩ := small_of_rate' h1 h2 h3 h4 L hε
  exact ⟨η, hη, gap, fun R ERR hR hE hEη e _ μ hs x hx k seed =>
    (h5 R ERR hR hE (hEη.trans hη1) e μ hs x hx k seed L gap).mono le_rfl (hg ERR hE hEη)⟩

/-- **C95** (`SparseHitAndRun`, limit). -/
theorem C95_sparse_hitrun_limit {E : Eigen ℝ} (hL : E.SparseLUExact) {A : Matrix (Fin m) (Fin n) ℝ} (hA : IndepRows A) (hmn : m + 2 ≤ n)
    (k : Int) (hk : 1 ≤ k ∧ k ≤ n) (b : Fin m → ℝ) (x₀ : Fin n → ℝ) (hx₀A : A *ᵥ x₀ = b) (hx₀ : x₀ ∈ TailPos n k.toNat) (D : ℝ)
    (hD : ∀ y ∈ PolyEq A b k.toNat, ∀ z ∈ PolyEq A b k.toNat, ∑ i, (y i - z i) ^ 2 ≤ D ^ 2)
    (B : Matrix (Fin n) (Fin d) ℝ) (hB : IsKernelBasis A B) (L : ℕ) (ε : ℝ) (hε : 0 < ε) :
    ∃ η > 0, ∃ gap : ℕ, ∀ R ERR : ℝ, |D| < 2 ^ 10000 * |R| → 0 < ERR → ERR ≤ η →
      ∀ (e : Env ℝ) [MeasurableSpace e.r.G] (μ : Measure e.r.G), IdealSource e.r μ →
        ∀ x, A *ᵥ x = b → x ∈ TailPos n k.toNat → ∀ seed : Int,
          JointWithin (.sparseHitRun R ERR E) e μ A b x k seed (uniformOnEq x₀ B k.toNat) L gap ε := by
  obtain ⟨β, C, ε₀, h1, h2, h3, h4, h5⟩ := C95_sparse_hitrun hL hA hmn k hk b x₀ hx₀A hx₀ D hD B hB
  obtain ⟨η, hη, hη1, gap, hg⟩ := small_of_rate' h1 h2 h3 h4 L hε
  exact ⟨η, hη, gap, fun R ERR hR hE hEη e _ μ hs x hxA hx seed =>
    (h5 R ERR hR hE (hEη.trans hη1) e μ hs x hxA hx seed L gap).mono le_rfl (hg ERR hE hEη)⟩

/-! ## Without thinning -/

theorem sphere_null (hn : 0 < n) (y : Fin n → ℝ) (r : ℝ) : volume {z : Fin n → ℝ | ∑ i, (z i - y i) ^ 2 = r ^ 2} = 0 := by
  have : Nontrivial (EuclideanSpace ℝ (Fin n)) := by
    have : Nonempty (Fin n) := ⟨⟨0, hn⟩⟩
    infer_instance
  have h1 : volume (Metric.sphere (WithLp.toLp 2 y : EuclideanSpace ℝ (Fin n)) |r|) = 0 := Measure.addHaar_sphere _ _ _
  have h2 := (PiLp.volume_preserving_toLp (Fin n)).measure_preimage (Metric.isClosed_sphere (x := (WithLp.toLp 2 y : EuclideanSpace ℝ (Fin n)))
    (ε := |r|)).measurableSet.nullMeasurableSet
  rw [h1] at h2
  refine le_antisymm (le_trans (measure_mono fun z hz => ?_) h2.le) bot_le
  have hz : ∑ i, (z i - y i) ^ 2 = r ^ 2 := hz
  show WithLp.toLp 2 z ∈ Metric.sphere _ _
  rw [mem_sphere_iff_norm, ← WithLp.toLp_sub, ← len_eq_norm]
  have h3 : len (z - y) ^ 2 = |r| ^ 2 := by
    rw [len_sq, sq_abs, ← hz]
    exact Finset.sum_congr rfl fun i _ => (sq (z i - y i)).symm
  exact (sq_eq_sq₀ (len_nonneg _) (abs_nonneg _)).1 h3

/-- Either the point is unchanged or it moved by exactly the step of the ball walk. -/
def StaysOrSteps (R : ℝ) : Set (Fin 2 → Fin n → ℝ) := {v | v 1 = v 0 ∨ ∑ i, (v 1 i - v 0 i) ^ 2 = R ^ 2 / n}

theorem ballMove_steps (R : ℝ) (K : Set (Fin n → ℝ)) (y v : Fin n → ℝ) :
    ballMove K (R / Real.sqrt n) y v = y ∨ ∑ i, (ballMove K (R / Real.sqrt n) y v i - y i) ^ 2 = R ^ 2 / n := by
  unfold ballMove
  split
  · by_cases hv : v = 0
    · left; rw [hv]; simp [hat]
    · right
      have h3 : ∑ i, ((y + (R / Real.sqrt n) • hat v) i - y i) ^ 2 = len ((R / Real.sqrt n) • hat v) ^ 2 := by
        rw [len_sq]
        refine Finset.sum_congr rfl fun i _ => ?_
        rw [Pi.add_apply, add_sub_cancel_left, sq]
      rw [h3, len_smul, len_hat hv, mul_one, sq_abs, div_pow, Real.sq_sqrt (Nat.cast_nonneg n)]
  · left; rfl

theorem measurable_stays (R : ℝ) : MeasurableSet (StaysOrSteps (n := n) R) := by
  have h1 : Measurable fun v : Fin 2 → Fin n → ℝ => v 1 := measurable_pi_apply 1
  have h0 : Measurable fun v : Fin 2 → Fin n → ℝ => v 0 := measurable_pi_apply 0
  refine (measurableSet_eq_fun h1 h0).union (measurableSet_eq_fun (Finset.measurable_sum _ fun i _ => ?_) measurable_const)
  exact (((measurable_pi_apply i).comp h1).sub ((measurable_pi_apply i).comp h0)).pow_const 2

theorem stays_null (hn : 0 < n) (R : ℝ) {A : Matrix (Fin m) (Fin n) ℝ} {b : Fin m → ℝ} (hx₀ : ∃ x, x ∈ Interior A b)
    (hb : ∃ M, ∀ y ∈ Poly A b, ∀ i, |y i| ≤ M) : independent (uniformOn A b) 2 (StaysOrSteps R) = 0 := by
  have hZ : uniformOn A b univ = volume (Poly A b) := by rw [uniformOn, Measure.restrict_apply_univ]
  have := normed_prob (π := uniformOn A b) (by rw [hZ]; exact (volume_poly_pos hx₀).ne') (by rw [hZ]; exact (volume_poly_lt_top hb).ne)
  have h := (measurePreserving_finTwoArrow (normed (uniformOn A b))).symm
  have h1 := h.measure_preimage (measurable_stays (n := n) R).nullMeasurableSet
  show (Measure.pi fun _ => normed (uniformOn A b)) _ = 0
  rw [← h1]
  refine (Measure.measure_prod_null (h.measurable (measurable_stays R))).2 (ae_of_all _ fun y => ?_)
  have hac : normed (uniformOn A b) ≪ volume := by
    unfold normed uniformOn
    exact (Measure.AbsolutelyContinuous.rfl.smul_left _).trans Measure.restrict_le_self.absolutelyContinuous
  refine hac ?_
  have h2 : ∀ s : Set (Fin n → ℝ), s ⊆ {y} ∪ {z | ∑ i, (z i - y i) ^ 2 = (R / Real.sqrt n) ^ 2} → volume s = 0 := fun s hs => by
    have hne : Nonempty (Fin n) := ⟨⟨0, hn⟩⟩
    refine measure_mono_null hs (measure_union_null ?_ (sphere_null hn y _))
    exact measure_singleton y
  refine h2 _ fun z hz => ?_
  have hz : z = y ∨ ∑ i, (z i - y i) ^ 2 = R ^ 2 / n := hz
  rcases hz with hz | hz
  · exact Or.inl hz
  · refine Or.inr ?_
    show _ = _
    rw [hz, div_pow, Real.sq_sqrt (Nat.cast_nonneg n)]

/-- **C95**, why to thin: two successive rows of the ball walk (`thin = 1`) are never like independent samples. The second is the first one again, or
lies at distance exactly `|R| / sqrt(n)` from it: this event has probability one for the rows, and zero for independent uniform points. -/
theorem C95_ball_unthinned (hn : 0 < n) (R : ℝ) {A : Matrix (Fin m) (Fin n) ℝ} {b : Fin m → ℝ} (hx₀ : ∃ x, x ∈ Interior A b)
    (hb : ∃ M, ∀ y ∈ Poly A b, ∀ i, |y i| ≤ M) (e : Env ℝ) [MeasurableSpace e.r.G] (μ : Measure e.r.G) (hs : IdealSource e.r μ) (x : Fin n → ℝ)
    (niter k burnin seed : Int) (hg : GoodInts niter burnin 1) (h2 : niter - burnin = 2) :
    rowsProb (.ball R) e μ (callArgs A b x niter k burnin 1 seed) {v : Fin 2 → Fin n → ℝ | v 1 = v 0 ∨ ∑ i, (v 1 i - v 0 i) ^ 2 = R ^ 2 / n} = 1 ∧
      independent (uniformOn A b) 2 {v | v 1 = v 0 ∨ ∑ i, (v 1 i - v 0 i) ^ 2 = R ^ 2 / n} = 0 := by
  refine ⟨?_, stays_null hn R hx₀ hb⟩
  have := hs.prob
  have hm : 0 < m := by
    rcases Nat.eq_zero_or_pos m with rfl | h
    · exfalso
      obtain ⟨M, hM⟩ := hb
      have := (le_abs_self _).trans (hM (fun _ => M + 1) (fun i => i.elim0) ⟨0, hn⟩)
      linarith
    · exact h
  refine (rowsProb_follows (w := .ball R) (q := posAt (ballNext R e.r A b) x) (by intro h; cases h)
    (fun niter burnin thin => ae_of_all _ (ball_follows R e A b hm x niter k burnin thin seed)) hg (L := 2) (by omega) _).trans ?_
  refine (congrArg μ (eq_univ_of_forall fun g => ?_)).trans measure_univ
  have hb0 := hg.burnin_nonneg
  have e1 : rowTime burnin 1 1 = rowTime burnin 1 0 + 1 := by
    unfold rowTime
    omega
  show posAt (ballNext R e.r A b) x (rowTime burnin 1 1) g = posAt (ballNext R e.r A b) x (rowTime burnin 1 0) g ∨ _
  show _ ∨ ∑ i, (posAt (ballNext R e.r A b) x (rowTime burnin 1 1) g i - posAt (ballNext R e.r A b) x (rowTime burnin 1 0) g i) ^ 2 = _
  rw [e1]
  unfold posAt
  rw [Function.iterate_succ_apply']
  exact ballMove_steps R _ _ _

/-- **C95**, why to thin, in the terms of the other theorems. -/
theorem C95_ball_unthinned_joint (hn : 0 < n) (R : ℝ) {A : Matrix (Fin m) (Fin n) ℝ} {b : Fin m → ℝ} (hx₀ : ∃ x, x ∈ Interior A b)
    (hb : ∃ M, ∀ y ∈ Poly A b, ∀ i, |y i| ≤ M) (e : Env ℝ) [MeasurableSpace e.r.G] (μ : Measure e.r.G) (hs : IdealSource e.r μ) (x : Fin n → ℝ)
    (k seed : Int) (ε : ℝ) (hε : ε < 1) : ¬ JointWithin (.ball R) e μ A b x k seed (uniformOn A b) 2 1 ε := by
  intro h
  have h1 := (h 2 0 1 _ (measurable_stays R)).2 (by constructor <;> norm_num [intMax]) (by norm_num) (by norm_num)
  obtain ⟨h2, h3⟩ := C95_ball_unthinned hn R hx₀ hb e μ hs x 2 k 0 seed (by constructor <;> norm_num [intMax]) (by norm_num)
  have h2' : rowsProb (.ball R) e μ (callArgs A b x 2 k 0 1 seed) (StaysOrSteps R) = 1 := h2
  have h3' : independent (uniformOn A b) 2 (StaysOrSteps R) = 0 := h3
  rw [h2', h3'] at h1
  norm_num at h1
  linarith

/-! ## Concrete cases -/

/-- On the simplex, with the Dikin walk: five rows of a thinned call all have first coordinate at most `1/2` with a probability close to
the fifth power of the share of that region. -/
example (ε : ℝ) (hε : 0 < ε) (x : Fin 3 → ℝ) (hxA : ones3 *ᵥ x = fun _ => 1) (hx : x ∈ TailPos 3 3) :
    ∃ gap : ℕ, ∀ thin : Int, (gap : Int) ≤ thin → 0 < thin → thin < 1000 →
      |(rowsProb (.sparseBarrier (sparseDikinClass (1 / 2)) 1 exactEigen (BState.fresh 0)) streamEnv streamLaw
        (callArgs ones3 (fun _ => 1) x (5 * thin) 3 0 thin 7) (univ.pi fun _ : Fin 5 => {y | y (0 : Fin 3) ≤ 1 / 2})).toReal -
          share (uniformOnEq (fun _ => 1 / 3) simplexBasis 3) {y | y (0 : Fin 3) ≤ 1 / 2} ^ 5| ≤ ε := by
  obtain ⟨gap, h⟩ := C95_sparse_dikin exactEigen exactEigen_exact 1 one_pos (1 / 2) (by norm_num) ones3_indep (by decide) 3 ⟨by decide, by decide⟩
    (fun _ => 1) simplex_bdd (fun _ => 1 / 3) simplex_start (by intro i _; show (0 : ℝ) < 1 / 3; norm_num) simplexBasis ones3_kernel x hxA hx 5 ε hε
  refine ⟨gap, fun thin hg h0 h1 => ?_⟩
  have mS : MeasurableSet {y : Fin 3 → ℝ | y 0 ≤ 1 / 2} := measurableSet_le (measurable_pi_apply (0 : Fin 3)) measurable_const
  have h2 := (h (BState.fresh 0) streamEnv streamLaw streamRng_ideal 7 (5 * thin) 0 thin
    (univ.pi fun _ : Fin 5 => {y | y (0 : Fin 3) ≤ 1 / 2}) (MeasurableSet.univ_pi fun _ => mS)).2
    ⟨by omega, by omega, by omega, by simp only [intMax]; omega, by simp only [intMax]; omega⟩
    (by rw [sub_zero, Int.mul_ediv_cancel _ h0.ne']; rfl) hg
  have hst : ones3 *ᵥ (fun _ : Fin 3 => (1 / 3 : ℝ)) = fun _ => 1 := simplex_start
  obtain ⟨hm0, hmt⟩ := chart_mass ones3_kernel (x₀ := fun _ => 1 / 3) (k := 3) (by intro i _; show (0 : ℝ) < 1 / 3; norm_num)
    (by rw [hst]; exact simplex_bdd)
  have hZ : uniformOnEq (fun _ => 1 / 3) simplexBasis 3 univ = volume (chart (fun _ => 1 / 3) simplexBasis ⁻¹' TailNonneg 3 3) := by
    rw [uniformOnEq, Measure.map_apply (measurable_chart _ _) MeasurableSet.univ, preimage_univ, Measure.restrict_apply_univ]
    rfl
  have h3 := independent_box (π := uniformOnEq (fun _ => 1 / 3) simplexBasis 3) (by rw [hZ]; exact hm0) (by rw [hZ]; exact hmt) 5
    fun _ => {y | y (0 : Fin 3) ≤ 1 / 2}
  rw [Finset.prod_const, Finset.card_univ, Fintype.card_fin] at h3
  rw [← h3]
  exact h2

/-- On the square, with the ball walk of radius 1, from a corner: `L` rows of a call that thins enough, in any regions. -/
example (L : ℕ) (ε : ℝ) (hε : 0 < ε) :
    ∃ gap : ℕ, ∀ (k seed : Int), JointWithin (.ball 1) streamEnv streamLaw boxA (fun _ => 1) (fun _ => 1) k seed (uniformOn boxA fun _ => 1) L gap ε := by
  have hstep : |(1 : ℝ)| / Real.sqrt ((2 : ℕ) : ℝ) < 1 := by
    rw [abs_one, div_lt_one (lt_trans one_pos one_lt_sqrt_two)]; exact one_lt_sqrt_two
  obtain ⟨gap, h⟩ := C95_ball_limit (le_refl 2) boxA_bdd one_ne_zero hstep box_ball L ε hε
  exact ⟨gap, fun k seed => h streamEnv streamLaw streamRng_ideal _ ((squareArgs_mem _).2 fun i => by simp) k seed⟩

/-- On the square, two successive rows. -/
example : ¬ JointWithin (.ball 1) streamEnv streamLaw boxA (fun _ => 1) (fun _ => 0) 0 7 (uniformOn boxA fun _ => 1) 2 1 (1 / 2) :=
  C95_ball_unthinned_joint (by norm_num) 1 ⟨0, fun i => by rw [Matrix.mulVec_zero]; exact one_pos⟩ boxA_bdd streamEnv streamLaw streamRng_ideal _ 0 7 _
    (by norm_num)

/-- On the square, with Hit-and-Run. -/
example (L : ℕ) (ε : ℝ) (hε : 0 < ε) :
    ∃ η > 0, ∃ gap : ℕ, ∀ ERR, 0 < ERR → ERR ≤ η →
      JointWithin (.hitRun 1 ERR) streamEnv streamLaw boxA (fun _ => 1) (fun _ => 0) 0 7 (uniformOn boxA fun _ => 1) L gap ε := by
  have h0 : (0 : Fin 2 → ℝ) ∈ Interior boxA fun _ => 1 := fun i => by rw [Matrix.mulVec_zero]; exact one_pos
  obtain ⟨η, hη, gap, h⟩ := C95_hitrun_limit (le_refl 2) boxA (fun _ => 1) ⟨0, h0⟩ boxA_bdd L ε hε
  exact ⟨η, hη, gap, fun ERR h1 h2 => h 1 ERR one_ne_zero h1 h2 streamEnv streamLaw streamRng_ideal _ h0 0 7⟩

end PW
