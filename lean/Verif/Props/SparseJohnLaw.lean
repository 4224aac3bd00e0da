import Verif.Lemmas.JohnMem

/-!
# C79: `SparseJohnWalk` comes near the uniform distribution

Its weights are approximate, and warm-started: they depend on all the points evaluated before. Over any number `H` of iterations fixed in advance the
error this causes is as small as wanted if the stopping tolerance `LIM` is small (and the iteration limit `M` is large enough that the weight iteration
always reaches it).
-/

namespace PW
open Matrix MeasureTheory Set
open scoped ENNReal
variable {m n d : ℕ}

/-- A relative error in the weights is a relative error in the metric. -/
theorem metricG_near {ERR : ℝ} (hR : 0 < ERR) {k : ℕ} {x w v : Fin n → ℝ} {τ : ℝ} (hτ : 0 ≤ τ)
    (h : ∀ i : Fin n, n - k ≤ i.val → |w i - v i| ≤ τ * v i) (i : Fin n) : |metricG ERR 0 x w k i - metricG ERR 0 x v k i| ≤ τ * metricG ERR 0 x v k i := by
  simp only [metricG, generateSlackInverse]
  by_cases hi : isTail k i = true
  · simp only [hi, if_true]
    have e : 1 / x i * w i * (1 / x i) - 1 / x i * v i * (1 / x i) = (1 / x i) ^ 2 * (w i - v i) := by ring
    rw [e, abs_mul, abs_of_nonneg (sq_nonneg _)]
    calc _ ≤ (1 / x i) ^ 2 * (τ * v i) := mul_le_mul_of_nonneg_left (h i ((isTail_iff i).1 hi)) (sq_nonneg _)
      _ = _ := by ring
  · simp only [hi, Bool.false_eq_true, if_false, sub_self, abs_zero]
    positivity

/-- How the tolerance turns into a relative error of the metric. -/
noncomputable def johnSlope (m n k : ℕ) : ℝ :=
  Real.sqrt k * (24 * Real.logb 2 (2 * k / ((n : ℝ) - m)) * (k / ((n : ℝ) - m))) / (((n : ℝ) - m) / (2 * k))

section
variable (E : Eigen ℝ) (hE : E.Exact) (ERR : ℝ) (hR : 0 < ERR) (R : ℝ) (hr : R ≠ 0) {A : Matrix (Fin m) (Fin n) ℝ} (hA : IndepRows A)
  (hmn : m < n)

/-- The metric with the exact weights. -/
noncomputable def johnG (A : Matrix (Fin m) (Fin n) ℝ) (ERR : ℝ) (k : ℕ) (x : Fin n → ℝ) : Fin n → ℝ := metricG ERR 0 x (johnExact ERR A k x) k

include hE hR hA hmn

theorem john_memNear {k : ℕ} (hkn : k ≤ n) (hd : n - m ≤ k) {LIM : ℝ} (hL : 0 < LIM) {M : Int}
    (hM : 3 * (k : ℝ) ^ 2 / ((n : ℝ) - m) < M * LIM ^ 2) :
    MemNear k (johnG A ERR k) (fun x ω => metricG ERR 0 x ω k) (johnW ERR LIM (M.toNat - 1) A k) (johnBox m n k) (johnSlope m n k * LIM) := by
  obtain ⟨hmn', hdk, hk0, hβ, hβ2⟩ := john_consts (n := n) hmn hd
  have hΛ := sparseJohnLog_ge hmn' hdk
  refine ⟨fun i => measurable_metricG ERR 0 k (fun i => (measurable_pi_apply i).comp measurable_fst) (fun i => (measurable_pi_apply i).comp measurable_snd) i,
    measurable_johnW ERR LIM _ A k, measurableSet_johnBox m n k,
    fun x hx ω hω => (johnW_eval hR.ne' hA hkn hmn hd E hE.ldlt 0 hL hM 0 hx 0 hω).2.1, fun x hx ω hω i => ?_⟩
  obtain ⟨-, -, h3⟩ := johnW_eval hR.ne' hA hkn hmn hd E hE.ldlt 0 hL hM 0 hx 0 hω
  have hΛ0 : 0 < Real.logb 2 (2 * k / ((n : ℝ) - m)) := by linarith
  refine metricG_near hR (by unfold johnSlope; positivity) (fun j hj => ?_) i
  have hv := johnExact_ge hR.ne' hA hx (johnExact_spec hR.ne' hA hmn hd hx) j hj
  have h4 : (johnW ERR LIM (M.toNat - 1) A k x ω j - johnExact ERR A k x j) ^ 2 ≤
      k * (24 * Real.logb 2 (2 * k / ((n : ℝ) - m)) * (k / ((n : ℝ) - m)) * LIM) ^ 2 :=
    (Finset.single_le_sum (f := fun i => (johnW ERR LIM (M.toNat - 1) A k x ω i - johnExact ERR A k x i) ^ 2) (fun i _ => sq_nonneg _)
      (Finset.mem_univ j)).trans h3
  have h5 := Real.abs_le_sqrt h4
  rw [Real.sqrt_mul hk0.le, Real.sqrt_sq (by positivity)] at h5
  refine h5.trans ?_
  unfold johnSlope
  have h6 : Real.sqrt k * (24 * Real.logb 2 (2 * k / ((n : ℝ) - m)) * (k / ((n : ℝ) - m)) * LIM) =
      Real.sqrt k * (24 * Real.logb 2 (2 * k / ((n : ℝ) - m)) * (k / ((n : ℝ) - m))) / (((n : ℝ) - m) / (2 * k)) * LIM * (((n : ℝ) - m) / (2 * k)) := by
    field_simp
  rw [h6]
  exact mul_le_mul_of_nonneg_left hv (by positivity)

theorem john_memClass {k : ℕ} (hkn : k ≤ n) (hd : n - m ≤ k) {LIM : ℝ} (hL : 0 < LIM) {M : Int}
    (hM : 3 * (k : ℝ) ^ 2 / ((n : ℝ) - m) < M * LIM ^ 2) (junk : Fin n → ℝ) (D : ℝ) :
    MemClass (sparseJohnClass E ERR R LIM M) ERR junk A k D (fun x ω => metricG ERR 0 x ω k) (johnW ERR LIM (M.toNat - 1) A k) (johnBox m n k)
      (fun ω => ⟨D, ⟨n, ω⟩⟩) := by
  refine ⟨fun _ => rfl, fun x hx ω hω => ?_⟩
  obtain ⟨h1, -, -⟩ := johnW_eval hR.ne' hA hkn hmn hd E hE.ldlt R hL hM junk hx D hω
  unfold generateG
  rw [h1, Out.ok_bind, dif_pos rfl, C19_metric ERR junk 0]
  rfl

include hr
variable (k : Int) (hk : 1 ≤ k ∧ k ≤ n) (hd : (n : Int) - m ≤ k) (b : Fin m → ℝ) (hb : ∃ M, ∀ y ∈ PolyEq A b k.toNat, ∀ i, |y i| ≤ M) (x₀ : Fin n → ℝ)
  (hx₀A : A *ᵥ x₀ = b) (hx₀ : x₀ ∈ TailPos n k.toNat) (B : Matrix (Fin n) (Fin d) ℝ) (hB : IsKernelBasis A B)
  (x : Fin n → ℝ) (hxA : A *ᵥ x = b) (hx : x ∈ TailPos n k.toNat)
include hk hd hx₀A hx₀ hB hxA hx

/-- The chain of a call of the sparse John walk. -/
theorem john_chain : ∃ D : ℝ, 0 < D ∧ x ∈ relInterior A k.toNat x₀ ∧ ∀ (LIM : ℝ) (M : Int), 0 < LIM → johnSlope m n k.toNat * LIM ≤ 1 / 2 →
    3 * (k : ℝ) ^ 2 / ((n : ℝ) - m) < M * LIM ^ 2 →
    MemNear k.toNat (johnG A ERR k.toNat) (fun x ω => metricG ERR 0 x ω k.toNat) (johnW ERR LIM (M.toNat - 1) A k.toNat) (johnBox m n k.toNat)
      (johnSlope m n k.toNat * LIM) ∧
    ∀ (o : BState ℝ) (e : Env ℝ) [MeasurableSpace e.r.G] (μ : Measure e.r.G), IdealSource e.r μ → ∀ niter burnin thin seed : Int,
      ∀ᵐ g ∂μ, Follows (.sparseBarrier (sparseJohnClass E ERR R LIM M) ERR E o) e (callArgs A b x niter k burnin thin seed) ⟨rfl, rfl⟩
        (fun t g => (posAt (memNext A D (fun x ω => metricG ERR 0 x ω k.toNat) (johnW ERR LIM (M.toNat - 1) A k.toNat) k.toNat e.r) (x, fun _ => 1) t g).1) g := by
  subst hx₀A
  have hkn : k.toNat ≤ n := by omega
  have hdn : n - m ≤ k.toNat := by omega
  have hkc : ((k.toNat : ℕ) : ℝ) = (k : ℝ) := by
    have : ((k.toNat : ℕ) : Int) = k := Int.toNat_of_nonneg (by omega)
    exact_mod_cast this
  have hmn' : (m : ℝ) < n := by exact_mod_cast hmn
  have hD : 0 < R * R / Scalar.pow (Scalar.ofInt ((n : Int) - m)) (Scalar.ofInt 3 / Scalar.ofInt 2 : ℝ) := by
    rw [rsc_ofInt, rsc_pow]
    push_cast
    exact div_pos (mul_self_pos.2 hr) (Real.rpow_pos_of_pos (by linarith) _)
  refine ⟨_, hD, ⟨hx, hxA⟩, fun LIM M hL hLs hM => ?_⟩
  rw [← hkc] at hM
  have hnear := john_memNear E hE ERR hR hA hmn hkn hdn hL hM
  refine ⟨hnear, fun o e _ μ hs niter burnin thin seed => ?_⟩
  have hGpos : ∀ x ∈ TailPos n k.toNat, ∀ i, 0 < johnG A ERR k.toNat x i := fun x hx i =>
    metricG_pos hR 0 hx (fun i hi => (johnExact_spec hR.ne' hA hmn hdn hx).pos i hi) i
  refine mem_follows hA hGpos hnear hLs hD hx₀ hB (sparseJohnClass E ERR R LIM M) ERR E hE hk rfl (one_mem_johnBox hmn hdn) o
    ⟨R * R / Scalar.pow (Scalar.ofInt ((n : Int) - m)) (Scalar.ofInt 3 / Scalar.ofInt 2), ones ((n : Int) - m).toNat⟩ ?_ e μ hs
    (john_memClass E hE ERR hR R hA hmn hkn hdn hL hM (e.junk n) _) ?_ _ ⟨hx, hxA⟩ niter burnin thin seed
  · show (if (n : Int) - m < 0 then _ else _) = _
    rw [if_neg (by omega)]
  · intro y hy
    have h1 : warmStart (ones ((n : Int) - m).toNat : DVec ℝ) n = .ok fun _ => 1 :=
      warmStart_iff.2 (startsAtOnes_ones' (by omega) n)
    have h2 : warmStart (⟨n, fun _ => 1⟩ : DVec ℝ) n = .ok fun _ => 1 :=
      warmStart_iff.2 (startsAtOnes_ones n (by omega))
    have h3 : sparseJohnWeightConv E ERR LIM M (ones ((n : Int) - m).toNat) (e.junk n) y A k.toNat =
        sparseJohnWeightConv E ERR LIM M ⟨n, fun _ => 1⟩ (e.junk n) y A k.toNat := by
      unfold sparseJohnWeightConv
      rw [h1, h2]
    unfold generateG
    show ((sparseJohnWeightConv E ERR LIM M (ones ((n : Int) - m).toNat) (e.junk n) y A k.toNat).map _).bind _ =
      ((sparseJohnWeightConv E ERR LIM M ⟨n, fun _ => 1⟩ (e.junk n) y A k.toNat).map _).bind _
    rw [h3]

include hb

theorem johnSlope_pos : 0 < johnSlope m n k.toNat := by
  obtain ⟨hmn', hdk, hk0, hβ, -⟩ := john_consts (n := n) hmn (show n - m ≤ k.toNat by omega)
  have hΛ := sparseJohnLog_ge hmn' hdk
  unfold johnSlope
  have : 0 < Real.logb 2 (2 * k.toNat / ((n : ℝ) - m)) := by linarith
  positivity

/-- **C79** (`SparseJohnWalk`): on a bounded polytope `{A x = b, last k coordinates ≥ 0}` with `cols - rows ≤ k`, from any starting point in its relative
interior: after `t₀` iterations the walk falls in every region `T` with a probability within `ε` of the share of `T`, and so does every row recorded then,
up to any iteration `H`, if the tolerance of the weight iteration is small enough (for that `H`) and its limit large enough for that tolerance. `t₀` does
not depend on `H`, nor on the tolerance, the seed, the burn-in, the thinning, or what the walk object did before. -/
theorem C79_rows (ε : ℝ) (hε : 0 < ε) : ∃ t₀ : ℕ, ∀ H : ℕ, ∃ LIM₀ > 0, ∀ (LIM : ℝ) (M : Int), 0 < LIM → LIM < LIM₀ →
    3 * (k : ℝ) ^ 2 / ((n : ℝ) - m) < M * LIM ^ 2 → ∀ (o : BState ℝ) (e : Env ℝ) [MeasurableSpace e.r.G] (μ : Measure e.r.G),
    IdealSource e.r μ → ∀ seed : Int, ∀ t, t₀ ≤ t → t ≤ H →
      LawWithin (.sparseBarrier (sparseJohnClass E ERR R LIM M) ERR E o) e μ A b x k seed (uniformOnEq x₀ B k.toNat) t ε := by
  obtain ⟨D, hD, hxV, hch⟩ := john_chain E hE ERR hR R hr hA hmn k hk hd b x₀ hx₀A hx₀ B hB x hxA hx
  have hdn : n - m ≤ k.toNat := by omega
  have hs := johnSlope_pos E hE ERR hR R hr hA hmn k hk hd b hb x₀ hx₀A hx₀ B hB x hxA hx
  subst hx₀A
  obtain ⟨t₀, ht₀⟩ := mem_rows hA hD hx₀ hB hb (Gf := johnG A ERR k.toNat)
    (measurable_metricG ERR 0 k.toNat (fun i => measurable_pi_apply i) (measurable_johnExact ERR A k.toNat))
    (fun x hx i => metricG_pos hR 0 hx (fun i hi => (johnExact_spec hR.ne' hA hmn hdn hx).pos i hi) i) hxV hε
  refine ⟨t₀, fun H => ?_⟩
  obtain ⟨τ₀, h0, h1, h2⟩ := ht₀ H
  refine ⟨τ₀ / johnSlope m n k.toNat, div_pos h0 hs, fun LIM M hL hL0 hM o e _ μ hsrc seed t ht htH => ?_⟩
  have hlt : johnSlope m n k.toNat * LIM < τ₀ := by rw [lt_div_iff₀ hs] at hL0; linarith
  obtain ⟨hnear, hfol⟩ := hch LIM M hL (by linarith) hM
  exact h2 (by positivity) hlt hnear _ e μ hsrc _ k seed (fun _ => 1) (one_mem_johnBox hmn hdn) (fun _ => hk)
    (fun niter burnin thin => hfol o e μ hsrc niter burnin thin seed) t ht htH

/-- **C79** (averages): for every bounded measurable `φ`, over `L ≥ L₀` positions among the first `H` (and over the rows of every call with at most `H`
iterations that returns `L`) the mean of `φ` is within `ε` of its mean over the polytope, with probability at least `1 - δ`, with or without burn-in, for any
thinning, if the tolerance is small enough for that `H`. -/
theorem C79_averages (φ : (Fin n → ℝ) → ℝ) (hφ : Measurable φ) (K : ℝ) (hK : 0 < K) (hφK : ∀ y ∈ PolyEq A b k.toNat, |φ y| ≤ K) (ε δ : ℝ)
    (hε : 0 < ε) (hδ : 0 < δ) : ∃ L₀ : ℕ, ∀ H : ℕ, ∃ LIM₀ > 0, ∀ (LIM : ℝ) (M : Int), 0 < LIM → LIM < LIM₀ →
    3 * (k : ℝ) ^ 2 / ((n : ℝ) - m) < M * LIM ^ 2 → ∀ (o : BState ℝ) (e : Env ℝ) [MeasurableSpace e.r.G] (μ : Measure e.r.G),
    IdealSource e.r μ → ∀ seed : Int, ∀ L ≥ L₀,
      MeanWithinBy (.sparseBarrier (sparseJohnClass E ERR R LIM M) ERR E o) e μ A b x k seed φ (average (uniformOnEq x₀ B k.toNat) φ) L H ε δ := by
  obtain ⟨D, hD, hxV, hch⟩ := john_chain E hE ERR hR R hr hA hmn k hk hd b x₀ hx₀A hx₀ B hB x hxA hx
  have hdn : n - m ≤ k.toNat := by omega
  have hs := johnSlope_pos E hE ERR hR R hr hA hmn k hk hd b hb x₀ hx₀A hx₀ B hB x hxA hx
  subst hx₀A
  obtain ⟨L₀, hL₀⟩ := mem_averages hA hD hx₀ hB hb (Gf := johnG A ERR k.toNat)
    (measurable_metricG ERR 0 k.toNat (fun i => measurable_pi_apply i) (measurable_johnExact ERR A k.toNat))
    (fun x hx i => metricG_pos hR 0 hx (fun i hi => (johnExact_spec hR.ne' hA hmn hdn hx).pos i hi) i) hxV hφ hK
    (fun y hy => hφK y ⟨hy.2, tailPos_subset _ _ hy.1⟩) hε hδ
  refine ⟨L₀, fun H => ?_⟩
  obtain ⟨τ₀, h0, h1, h2⟩ := hL₀ H
  refine ⟨τ₀ / johnSlope m n k.toNat, div_pos h0 hs, fun LIM M hL hL0 hM o e _ μ hsrc seed L hL' => ?_⟩
  have hlt : johnSlope m n k.toNat * LIM < τ₀ := by rw [lt_div_iff₀ hs] at hL0; linarith
  obtain ⟨hnear, hfol⟩ := hch LIM M hL (by linarith) hM
  exact h2 (by positivity) hlt hnear _ e μ hsrc _ k seed (fun _ => 1) (one_mem_johnBox hmn hdn) (fun _ => hk)
    (fun niter burnin thin => hfol o e μ hsrc niter burnin thin seed) L hL'

end

/-! ## The simplex -/

/-- On the simplex: the region `x₁ ≤ 1/2`, for all the iterations an `int` can count. -/
example (ε : ℝ) (hε : 0 < ε) (x : Fin 3 → ℝ) (hxA : ones3 *ᵥ x = fun _ => 1) (hx : x ∈ TailPos 3 3) :
    ∃ t₀ : ℕ, ∃ LIM > 0, ∃ M : Int, ∀ t, t₀ ≤ t → t ≤ 2 ^ 31 →
      |(pathProb (.sparseBarrier (sparseJohnClass exactEigen 1 (1 / 2) LIM M) 1 exactEigen (BState.fresh 0)) streamEnv streamLaw
        (callArgs ones3 (fun _ => 1) x 100 3 0 1 7) ⟨rfl, rfl⟩ {p | p t (0 : Fin 3) ≤ 1 / 2}).toReal -
          share (uniformOnEq (fun _ => 1 / 3) simplexBasis 3) {y | y (0 : Fin 3) ≤ 1 / 2}| ≤ ε := by
  obtain ⟨t₀, h⟩ := C79_rows exactEigen exactEigen_exact 1 one_pos (1 / 2) (by norm_num) ones3_indep (by decide) 3 ⟨by decide, by decide⟩
    (by decide) (fun _ => 1) simplex_bdd (fun _ => 1 / 3) simplex_start (by intro i _; show (0 : ℝ) < 1 / 3; norm_num) simplexBasis ones3_kernel x hxA hx ε hε
  obtain ⟨LIM₀, h0, h1⟩ := h (2 ^ 31)
  obtain ⟨M, hM⟩ := exists_int_gt (3 * ((3 : Int) : ℝ) ^ 2 / (((3 : ℕ) : ℝ) - (1 : ℕ)) / (LIM₀ / 2) ^ 2)
  refine ⟨t₀, LIM₀ / 2, by positivity, M, fun t ht htH => (h1 (LIM₀ / 2) M (by positivity) (by linarith) ?_ (BState.fresh 0) streamEnv streamLaw
    streamRng_ideal 7 t ht htH 100 0 1 _ (measurableSet_le (measurable_pi_apply (0 : Fin 3)) measurable_const)).1⟩
  rwa [div_lt_iff₀ (by positivity)] at hM

end PW
