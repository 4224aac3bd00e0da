import Verif.Spec.Stall
import Verif.Lemmas.Stall

/-!
# C102: the sparse barrier walks do not stand still for long

The probability that `SparseDikinWalk`, `SparseVaidyaWalk` or a walk with bounded weights moves in the next iteration is bounded below by a number that does not
depend on the polytope (only on its dimension) nor on the place in it, however close to the boundary.
-/

namespace PW
open Matrix MeasureTheory Set
open scoped ENNReal
variable {m n d : ℕ}

/-! ## Sparse barrier walks -/

theorem mh_stalls {Y : Type} [MeasurableSpace Y] {C V : Set (Fin n → ℝ)} {l : Measure Y} {c : Y → Fin n → ℝ} {P : (Fin n → ℝ) → (Fin n → ℝ) → Fin n → ℝ}
    {a : (Fin n → ℝ) → (Fin n → ℝ) → ℝ} {prop : Y → (Fin n → ℝ) → Y} {q : Y → Y → ℝ≥0∞} (h : MHBase (stdNormal n) C V l c P a prop q)
    {w : Walk ℝ} {e : Env ℝ} [MeasurableSpace e.r.G] {μ : Measure e.r.G} (hs : IdealSource e.r μ)
    {A : Matrix (Fin m) (Fin n) ℝ} {b : Fin m → ℝ} {k : Int} {x : Fin n → ℝ} (hx : x ∈ V)
    (hfol : ∀ niter burnin thin seed : Int, ∀ᵐ g ∂μ,
      Follows w e (callArgs A b x niter k burnin thin seed) ⟨rfl, rfl⟩ (posAt (mhNext e.r n C P a) x) g)
    {p : ℝ≥0∞} (hp : ∀ y ∈ V, ((stdNormal n).prod unitLaw) {w | mhMove C P a y w = y} ≤ p) : StallsAtMost w e μ A b x k p := by
  have := hs.prob
  intro niter burnin thin seed s t
  unfold stallProb
  rw [pathProb_follows (hfol niter burnin thin seed)]
  exact stall_after (K := V) (measurable_mhNext e.r n (hs.gaussian n).measurable hs.uniform.measurable h.measC h.measP h.measa)
    (MHBase.drives hs h) (measurable_mhMove h.measC h.measP h.measa) (measurableSet_eq_fun measurable_fst measurable_snd) hp s t
    ((MHBase.good hs h s x hx).mono fun g hg => (hg _ rfl).1)

/-- From the starting point, the walk stands still for `t` iterations with the `t`-th power of the probability that it stands still for one. -/
theorem mh_stall_start {Y : Type} [MeasurableSpace Y] {C V : Set (Fin n → ℝ)} {l : Measure Y} {c : Y → Fin n → ℝ} {P : (Fin n → ℝ) → (Fin n → ℝ) → Fin n → ℝ}
    {a : (Fin n → ℝ) → (Fin n → ℝ) → ℝ} {prop : Y → (Fin n → ℝ) → Y} {q : Y → Y → ℝ≥0∞} (h : MHBase (stdNormal n) C V l c P a prop q)
    {w : Walk ℝ} {e : Env ℝ} [MeasurableSpace e.r.G] {μ : Measure e.r.G} (hs : IdealSource e.r μ)
    {A : Matrix (Fin m) (Fin n) ℝ} {b : Fin m → ℝ} {k : Int} {x : Fin n → ℝ} {niter burnin thin seed : Int}
    (hfol : ∀ᵐ g ∂μ, Follows w e (callArgs A b x niter k burnin thin seed) ⟨rfl, rfl⟩ (posAt (mhNext e.r n C P a) x) g) (t : ℕ) :
    stallProb w e μ A b x k niter burnin thin seed 0 t = ((stdNormal n).prod unitLaw) {w | mhMove C P a x w = x} ^ t := by
  have := hs.prob
  unfold stallProb
  rw [pathProb_follows hfol, ← stall_start_eq (measurable_mhNext e.r n (hs.gaussian n).measurable hs.uniform.measurable h.measC h.measP h.measa)
    (MHBase.drives hs h) (measurable_mhMove h.measC h.measP h.measa) x t]
  congr 1
  ext g
  show (∀ i ≤ t, posAt _ x (0 + i) g = posAt _ x 0 g) ↔ _
  simp only [Nat.zero_add]
  rfl

/-- The metric varies little near a point when the weights lie between `a` and `w`. -/
theorem metricG_local {ERR a w : ℝ} (hR : 0 < ERR) (ha : 0 < a) (haw : a ≤ w) {k : ℕ} {x z wx wz : Fin n → ℝ} (hx : x ∈ TailPos n k)
    (hwx : ∀ i : Fin n, n - k ≤ i.val → a ≤ wx i ∧ wx i ≤ w) (hwz : z ∈ TailPos n k → ∀ i : Fin n, n - k ≤ i.val → a ≤ wz i ∧ wz i ≤ w)
    (hz : ∑ i, metricG ERR 0 x wx k i * (z i - x i) ^ 2 ≤ a / 4) :
    z ∈ TailPos n k ∧ ∀ i, 4 * a / (9 * w) * metricG ERR 0 x wx k i ≤ metricG ERR 0 z wz k i ∧
      metricG ERR 0 z wz k i ≤ 4 * w / a * metricG ERR 0 x wx k i := by
  have hw0 : 0 < w := lt_of_lt_of_le ha haw
  have htail : ∀ (y v : Fin n → ℝ) (i : Fin n), n - k ≤ i.val → metricG ERR 0 y v k i = v i / y i ^ 2 := fun y v i hi => by
    have h1 : isTail k i = true := (isTail_iff i).2 hi
    unfold metricG generateSlackInverse
    simp only [h1, if_true]
    show 1 / y i * v i * (1 / y i) = _
    rw [one_div, sq, div_eq_mul_inv, mul_inv]; ring
  have hhead : ∀ (y v : Fin n → ℝ) (i : Fin n), ¬ n - k ≤ i.val → metricG ERR 0 y v k i = ERR := fun y v i hi => by
    have h1 : ¬ isTail k i = true := fun h => hi ((isTail_iff i).1 h)
    unfold metricG
    simp only [h1, if_false, Bool.false_eq_true]
  have hGx : ∀ i, 0 < metricG ERR 0 x wx k i := fun i => metricG_pos hR 0 hx (fun i hi => lt_of_lt_of_le ha (hwx i hi).1) i
  have hnear : ∀ i : Fin n, n - k ≤ i.val → x i / 2 ≤ z i ∧ z i ≤ 3 * x i / 2 := by
    intro i hi
    have hxi := hx i hi
    have h1 : metricG ERR 0 x wx k i * (z i - x i) ^ 2 ≤ a / 4 :=
      (Finset.single_le_sum (f := fun i => metricG ERR 0 x wx k i * (z i - x i) ^ 2) (fun j _ => mul_nonneg (hGx j).le (sq_nonneg _)) (Finset.mem_univ i)).trans hz
    rw [htail _ _ i hi, div_mul_eq_mul_div, div_le_iff₀ (by positivity)] at h1
    have h2 : a * (z i - x i) ^ 2 ≤ a * (x i / 2) ^ 2 := by
      calc a * (z i - x i) ^ 2 ≤ wx i * (z i - x i) ^ 2 := mul_le_mul_of_nonneg_right (hwx i hi).1 (sq_nonneg _)
        _ ≤ a / 4 * x i ^ 2 := h1
        _ = _ := by ring
    have h3 := abs_le.1 (abs_le_of_sq_le_sq (le_of_mul_le_mul_left h2 ha) (by positivity))
    constructor <;> linarith [h3.1, h3.2]
  have hzp : z ∈ TailPos n k := fun i hi => by have := (hnear i hi).1; have := hx i hi; linarith
  refine ⟨hzp, fun i => ?_⟩
  by_cases hi : n - k ≤ i.val
  · rw [htail _ _ i hi, htail _ _ i hi]
    obtain ⟨h1, h2⟩ := hnear i hi
    obtain ⟨h3, h4⟩ := hwx i hi
    obtain ⟨h5, h6⟩ := hwz hzp i hi
    have hxi := hx i hi
    have hzi := hzp i hi
    have hz2 : z i ^ 2 ≤ 9 / 4 * x i ^ 2 := by nlinarith
    have hz1 : x i ^ 2 / 4 ≤ z i ^ 2 := by nlinarith
    constructor
    · rw [div_mul_div_comm, div_le_div_iff₀ (by positivity) (by positivity)]
      calc 4 * a * wx i * z i ^ 2 ≤ 4 * a * w * (9 / 4 * x i ^ 2) := mul_le_mul (mul_le_mul_of_nonneg_left h4 (by positivity)) hz2 (by positivity) (by positivity)
        _ = a * (9 * w * x i ^ 2) := by ring
        _ ≤ wz i * (9 * w * x i ^ 2) := mul_le_mul_of_nonneg_right h5 (by positivity)
    · rw [div_mul_div_comm, div_le_div_iff₀ (by positivity) (by positivity)]
      calc wz i * (a * x i ^ 2) ≤ w * (a * x i ^ 2) := mul_le_mul_of_nonneg_right h6 (by positivity)
        _ = 4 * w * a * (x i ^ 2 / 4) := by ring
        _ ≤ 4 * w * wx i * z i ^ 2 := mul_le_mul (mul_le_mul_of_nonneg_left h3 (by positivity)) hz1 (by positivity) (by
            have : 0 < wx i := lt_of_lt_of_le ha h3
            positivity)
  · rw [hhead _ _ i hi, hhead _ _ i hi]
    constructor
    · calc 4 * a / (9 * w) * ERR ≤ 1 * ERR := mul_le_mul_of_nonneg_right (by rw [div_le_one (by positivity)]; linarith) hR.le
        _ = ERR := one_mul _
    · calc ERR = 1 * ERR := (one_mul _).symm
        _ ≤ _ := mul_le_mul_of_nonneg_right (by rw [one_le_div ha]; linarith) hR.le

theorem sqrt_ratio {a w : ℝ} (ha : 0 < a) (hw : 0 < w) (d : ℕ) : Real.sqrt ((4 * a / (9 * w) / (4 * w / a)) ^ d) = (a / (3 * w)) ^ d := by
  have h1 : (4 * a / (9 * w) / (4 * w / a)) = (a / (3 * w)) ^ 2 := by field_simp; ring
  rw [h1, ← pow_mul, Nat.mul_comm 2 d, pow_mul, Real.sqrt_sq (by positivity)]

theorem chiSquare_ge (d : ℕ) {r : ℝ} (hr : 0 < r) : ENNReal.ofReal (1 - d / r) ≤ chiSquare d r := stdNormal_ball d hr

theorem sparse_stay_metric (ERR : ℝ) (hR : 0 < ERR) {A : Matrix (Fin m) (Fin n) ℝ}
    (hA : IndepRows A) (hmn : m < n) {k : ℕ} {D : ℝ} (hD : 0 < D) {wf : (Fin n → ℝ) → Fin n → ℝ} (hwm : Measurable wf) {a w : ℝ} (ha : 0 < a) (haw : a ≤ w)
    (hwb : ∀ x ∈ TailPos n k, ∀ i : Fin n, n - k ≤ i.val → a ≤ wf x i ∧ wf x i ≤ w)
    {x : Fin n → ℝ} (hx : x ∈ TailPos n k) (hb : ∃ M, ∀ y ∈ PolyEq A (A *ᵥ x) k, ∀ i, |y i| ≤ M) :
    ((stdNormal n).prod unitLaw) {w | mhMove (TailNonneg n k) (sparseProp A D fun x => metricG ERR 0 x (wf x) k)
        (sparseAccept A D fun x => metricG ERR 0 x (wf x) k) x w = x} ≤
      1 - ENNReal.ofReal ((a / (3 * w)) ^ (n - m)) * chiSquare (n - m) (w / D) := by
  have hw0 : 0 < w := lt_of_lt_of_le ha haw
  have hmeas : ∀ i, Measurable fun x => metricG ERR 0 x (wf x) k i :=
    measurable_metricG ERR 0 k (fun i => measurable_pi_apply i) (fun i => (measurable_pi_apply i).comp hwm)
  have h := sparse_stay_le hA hD hx hb hmeas (fun x hx i => metricG_pos hR 0 hx (fun i hi => lt_of_lt_of_le ha (hwb x hx i hi).1) i) hmn
    (c₁ := 4 * a / (9 * w)) (c₂ := 4 * w / a) (ρ := a / 4) (by positivity) (by rw [div_le_one (by positivity)]; linarith) (by rw [one_le_div ha]; linarith)
    (fun z _ hz => metricG_local hR ha haw hx (hwb x hx) (fun hz => hwb z hz) hz)
  rw [sqrt_ratio ha hw0] at h
  have e1 : 4 * w / a / D * (a / 4) = w / D := by field_simp
  rw [e1] at h
  exact h

section
variable {σ : Type} (cls : SparseBarrierClass ℝ σ) (E : Eigen ℝ) (hE : E.Exact) (ERR : ℝ) (hR : 0 < ERR) {A : Matrix (Fin m) (Fin n) ℝ}
  (hA : IndepRows A) (hmn : m < n) (k : Int) (hk : 1 ≤ k ∧ k ≤ n) {D : ℝ} (hD : 0 < D) {wf : (Fin n → ℝ) → Fin n → ℝ} (hwm : Measurable wf)
  {a w : ℝ} (ha : 0 < a) (haw : a ≤ w) (hwb : ∀ x ∈ TailPos n k.toNat, ∀ i : Fin n, n - k.toNat ≤ i.val → a ≤ wf x i ∧ wf x i ≤ w)
  (b : Fin m → ℝ) (hb : ∃ M, ∀ y ∈ PolyEq A b k.toNat, ∀ i, |y i| ≤ M)
  (e : Env ℝ) [MeasurableSpace e.r.G] (μ : Measure e.r.G) (hs : IdealSource e.r μ)
  (x : Fin n → ℝ) (hxA : A *ᵥ x = b) (hx : x ∈ TailPos n k.toNat)
include hE hR hA hmn hk hD hwm ha haw hwb hb hs hxA hx

/-- **C102** (any subclass of `SparseBarrierWalk` whose weights are a function of the point with values between `a` and `w`): whenever one looks, the walk stands
still for the next `t` iterations with probability at most `(1 - p) ^ t`, where `p` depends only on the dimension of the polytope, on `a`, `w` and the distance
term: not on the shape of the polytope, nor on where in it the walk is. -/
theorem C102_user (o : σ) (ho : WeightsAre cls o A k D wf) :
    StallsAtMost (.sparseBarrier cls ERR E o) e μ A b x k (1 - ENNReal.ofReal ((a / (3 * w)) ^ (n - m)) * chiSquare (n - m) (w / D)) := by
  subst hxA
  have hwp : ∀ x ∈ TailPos n k.toNat, ∀ i : Fin n, n - k.toNat ≤ i.val → 0 < wf x i := fun x hx i hi => lt_of_lt_of_le ha (hwb x hx i hi).1
  obtain ⟨d, B, hB⟩ := exists_kernelBasis A
  have hpos : ∀ x ∈ TailPos n k.toNat, ∀ i, 0 < metricG ERR 0 x (wf x) k.toNat i := fun x hx i => metricG_pos hR 0 hx (hwp x hx) i
  have hmeas : ∀ i, Measurable fun x => metricG ERR 0 x (wf x) k.toNat i :=
    measurable_metricG ERR 0 k.toNat (fun i => measurable_pi_apply i) (fun i => (measurable_pi_apply i).comp hwm)
  obtain ⟨c, hc⟩ := sparse_mhData hA hD hx hB hb hmeas hpos
  have hxV : x ∈ relInterior A k.toNat x := ⟨hx, rfl⟩
  refine mh_stalls hc.toMHBase hs hxV ?_ ?_
  · intro niter burnin thin seed
    obtain ⟨o', h1, h2, h3⟩ := ho.weights
    refine sparseBarrier_follows cls ERR E hE hA hk hpos hc o o' h1 h2 e μ hs (fun y hy => ?_) _ hxV niter burnin thin seed
    unfold generateG
    rw [h3 _ y hy, Out.ok_bind, dif_pos rfl]
    congr 2
    funext i
    simp only [metricG, generateSlackInverse]
    by_cases h : isTail k.toNat i = true
    · simp only [h, if_true]; rfl
    · simp only [h, Bool.false_eq_true, if_false]
  · intro y hy
    exact sparse_stay_metric ERR hR hA hmn hD hwm ha haw hwb hy.1 (by rw [hy.2]; exact hb)

end

section
variable (E : Eigen ℝ) (hE : E.Exact) (ERR : ℝ) (hR : 0 < ERR) (R : ℝ) (hr : R ≠ 0) {A : Matrix (Fin m) (Fin n) ℝ} (hA : IndepRows A)
  (hmn : m < n) (k : Int) (hk : 1 ≤ k ∧ k ≤ n) (b : Fin m → ℝ) (hb : ∃ M, ∀ y ∈ PolyEq A b k.toNat, ∀ i, |y i| ≤ M)
  (e : Env ℝ) [MeasurableSpace e.r.G] (μ : Measure e.r.G) (hs : IdealSource e.r μ)
  (x : Fin n → ℝ) (hxA : A *ᵥ x = b) (hx : x ∈ TailPos n k.toNat)
include hE hR hr hA hmn hk hb hs hxA hx

/-- **C102** (`SparseDikinWalk`): `p` depends only on the dimension `d = cols - rows` and the radius. -/
theorem C102_dikin (o : BState ℝ) : StallsAtMost (.sparseBarrier (sparseDikinClass R) ERR E o) e μ A b x k
    (1 - ENNReal.ofReal ((1 / 3) ^ (n - m)) * chiSquare (n - m) (((n : ℝ) - m) / R ^ 2)) := by
  subst hxA
  obtain ⟨d, B, hB⟩ := exists_kernelBasis A
  have hnm : 0 < (n : ℝ) - m := by
    have h1 : (m : ℝ) < n := by exact_mod_cast hmn
    linarith
  have hDe : R * R / (Scalar.ofInt ((n : Int) - m) : ℝ) = R * R / ((n : ℝ) - m) := by rw [rsc_ofInt]; push_cast; rfl
  have hD : 0 < R * R / (Scalar.ofInt ((n : Int) - m) : ℝ) := by rw [hDe]; exact div_pos (mul_self_pos.2 hr) hnm
  have hpos : ∀ x ∈ TailPos n k.toNat, ∀ i, 0 < dikinG ERR 0 k.toNat x i := fun x hx i => dikinG_pos hR 0 hx i
  obtain ⟨c, hc⟩ := sparse_mhData hA hD hx hB hb (measurable_dikinG ERR 0 k.toNat) hpos
  have hxV : x ∈ relInterior A k.toNat x := ⟨hx, rfl⟩
  refine mh_stalls hc.toMHBase hs hxV (fun niter burnin thin seed => sparseBarrier_follows (sparseDikinClass R) ERR E hE hA hk hpos hc o _ rfl rfl e μ hs
      (fun x _ => by rw [dikinG_junk ERR 0 (e.junk n)]; exact generateG_dikin R ERR (e.junk n) _ x A k.toNat) _ hxV niter burnin thin seed) ?_
  intro y hy
  have h := sparse_stay_metric ERR hR hA hmn hD (wf := fun _ _ => 1) measurable_const one_pos le_rfl (fun _ _ _ _ => ⟨le_rfl, le_rfl⟩) hy.1
    (by rw [hy.2]; exact hb)
  have e1 : 1 / (R * R / (Scalar.ofInt ((n : Int) - m) : ℝ)) = ((n : ℝ) - m) / R ^ 2 := by rw [hDe, one_div_div, sq]
  rw [e1, mul_one] at h
  exact h

/-- **C102** (`SparseDikinWalk` with a radius below `1`): it leaves its place with probability at least `(1 - R²) / 3 ^ d` in each iteration. -/
theorem C102_dikin_small (o : BState ℝ) : StallsAtMost (.sparseBarrier (sparseDikinClass R) ERR E o) e μ A b x k
    (1 - ENNReal.ofReal ((1 - R ^ 2) / 3 ^ (n - m))) := by
  intro niter burnin thin seed s t
  refine (C102_dikin E hE ERR hR R hr hA hmn k hk b hb e μ hs x hxA hx o niter burnin thin seed s t).trans (pow_le_pow_left' (tsub_le_tsub_left ?_ _) t)
  have hnm : 0 < (n : ℝ) - m := by
    have h1 : (m : ℝ) < n := by exact_mod_cast hmn
    linarith
  have hR2 : 0 < R ^ 2 := by positivity
  have h1 := chiSquare_ge (n - m) (r := ((n : ℝ) - m) / R ^ 2) (div_pos hnm hR2)
  have h2 : ((n - m : ℕ) : ℝ) / (((n : ℝ) - m) / R ^ 2) = R ^ 2 := by rw [Nat.cast_sub hmn.le]; field_simp
  rw [h2] at h1
  have h3 : (1 - R ^ 2) / 3 ^ (n - m) = (1 / 3) ^ (n - m) * (1 - R ^ 2) := by rw [one_div, inv_pow]; ring
  rw [h3, ENNReal.ofReal_mul (by positivity)]
  exact mul_le_mul_right h1 _

/-- **C102** (`SparseVaidyaWalk`): with `d = cols - rows`, it leaves its place with probability at least `(d / (3 (k + d))) ^ d · (1 - R² / 2)` in each
iteration (when the `int` product `k * d` does not overflow). -/
theorem C102_vaidya (hov : k * ((n : Int) - m) ≤ 2 ^ 31 - 1) (o : BState ℝ) : StallsAtMost (.sparseBarrier (sparseVaidyaClass E ERR R) ERR E o) e μ A b x k
    (1 - ENNReal.ofReal ((((n : ℝ) - m) / (3 * (k + ((n : ℝ) - m)))) ^ (n - m) * (1 - R ^ 2 / 2))) := by
  subst hxA
  obtain ⟨d, B, hB⟩ := exists_kernelBasis A
  have hpos' : 0 < k * ((n : Int) - m) := mul_pos (by omega) (by omega)
  have hnm : 0 < (n : ℝ) - m := by
    have h1 : (m : ℝ) < n := by exact_mod_cast hmn
    linarith
  have hkp : (0 : ℝ) < k := by exact_mod_cast (by omega : 0 < k)
  have hkn : ((k.toNat : ℕ) : ℝ) = k := by
    have : ((k.toNat : ℕ) : Int) = k := Int.toNat_of_nonneg (by omega)
    exact_mod_cast congrArg (Int.cast : Int → ℝ) this
  have hDe : R * R / Scalar.sqrt (Scalar.ofInt (k * ((n : Int) - m)) : ℝ) = R ^ 2 / Real.sqrt (k * ((n : ℝ) - m)) := by
    rw [rsc_ofInt, rsc_sqrt, sq]; push_cast; rfl
  have hq : 0 < Real.sqrt (k * ((n : ℝ) - m)) := Real.sqrt_pos.2 (mul_pos hkp hnm)
  have hR2 : 0 < R ^ 2 := by positivity
  have hD : 0 < R * R / Scalar.sqrt (Scalar.ofInt (k * ((n : Int) - m)) : ℝ) := by rw [hDe]; exact div_pos hR2 hq
  have hpos : ∀ x ∈ TailPos n k.toNat, ∀ i, 0 < vaidyaG A ERR 0 k.toNat x i := fun x hx i => vaidyaG_pos hA hmn hR 0 (by omega) hx i
  obtain ⟨c, hc⟩ := sparse_mhData hA hD hx hB hb (measurable_vaidyaG A ERR 0 k.toNat) hpos
  have hxV : x ∈ relInterior A k.toNat x := ⟨hx, rfl⟩
  have hset : (sparseVaidyaClass E ERR R).setDistTerm o ((n : Int) - m) k =
      .ok { o with dist := R * R / Scalar.sqrt (Scalar.ofInt (k * ((n : Int) - m)) : ℝ) } := by
    show (toInt (k * ((n : Int) - m))).bind _ = _
    have : toInt (k * ((n : Int) - m)) = .ok (k * ((n : Int) - m)) := by
      unfold toInt
      rw [if_pos (by unfold IsInt intMin intMax; constructor <;> omega)]
    rw [this, Out.ok_bind]
  refine mh_stalls hc.toMHBase hs hxV (fun niter burnin thin seed => sparseBarrier_follows (sparseVaidyaClass E ERR R) ERR E hE hA hk hpos hc o _ hset rfl e μ hs
      (fun x hx => by
        rw [vaidyaG_junk A ERR 0 (e.junk n)]
        exact generateG_vaidya hE.ldlt R hR (e.junk n) _ hA (by omega) (by omega) hx) (A *ᵥ x) hxV niter burnin thin seed) ?_
  intro y hy
  have ha : 0 < ((n : ℝ) - m) / k.toNat := by rw [hkn]; exact div_pos hnm hkp
  have h := sparse_stay_metric ERR hR hA hmn hD
    (wf := fun x i => colev (colScaled A (slackScale ERR k.toNat (fun _ => 1) x)) i + ((n : ℝ) - m) / k.toNat)
    (measurable_pi_lambda _ fun i => (measurable_colev A (fun j => by
      unfold slackScale
      by_cases h : n - k.toNat ≤ j.val
      · simp only [h, if_true]; exact measurable_const.div (measurable_pi_apply j)
      · simp only [h, if_false]; exact measurable_const) i).add_const _)
    (a := ((n : ℝ) - m) / k.toNat) (w := 1 + ((n : ℝ) - m) / k.toNat) ha (by linarith)
    (fun z hz i _ => by
      have hi := colScaled_indep hA (slackScale_ne hR.ne' (w := fun _ => 1) (fun _ _ => one_ne_zero) hz)
      have h1 := colev_nonneg hi i
      have h2 := colev_le_one hi i
      constructor <;> linarith) hy.1 (by rw [hy.2]; exact hb)
  refine le_trans h (tsub_le_tsub_left ?_ _)
  have h0 : 0 < (1 + ((n : ℝ) - m) / k.toNat) / (R * R / Scalar.sqrt (Scalar.ofInt (k * ((n : Int) - m)) : ℝ)) := div_pos (by linarith) hD
  rw [ENNReal.ofReal_mul (by positivity)]
  have e1 : ((n : ℝ) - m) / k.toNat / (3 * (1 + ((n : ℝ) - m) / k.toNat)) = ((n : ℝ) - m) / (3 * (k + ((n : ℝ) - m))) := by
    rw [hkn]; field_simp
  rw [e1]
  refine mul_le_mul_right (le_trans (ENNReal.ofReal_le_ofReal ?_) (chiSquare_ge _ h0)) _
  have e2 : ((n - m : ℕ) : ℝ) / ((1 + ((n : ℝ) - m) / k.toNat) / (R * R / Scalar.sqrt (Scalar.ofInt (k * ((n : Int) - m)) : ℝ))) =
      R ^ 2 * (Real.sqrt (k * ((n : ℝ) - m)) / (k + ((n : ℝ) - m))) := by
    rw [Nat.cast_sub hmn.le, hDe, hkn]
    have hqq := Real.mul_self_sqrt (mul_pos hkp hnm).le
    rw [div_div_eq_mul_div, div_eq_iff (by positivity)]
    have h5 : R ^ 2 * (Real.sqrt (k * ((n : ℝ) - m)) / (k + ((n : ℝ) - m))) * (1 + ((n : ℝ) - m) / k) = R ^ 2 * (Real.sqrt (k * ((n : ℝ) - m)) / k) := by
      field_simp
    rw [h5]
    field_simp
    rw [sq, mul_comm ((n : ℝ) - m) (k : ℝ), hqq]
  rw [e2]
  have h6 : Real.sqrt (k * ((n : ℝ) - m)) / (k + ((n : ℝ) - m)) ≤ 1 / 2 := by
    rw [div_le_div_iff₀ (by linarith) (by norm_num)]
    have : Real.sqrt (k * ((n : ℝ) - m)) ≤ (k + ((n : ℝ) - m)) / 2 := by
      rw [Real.sqrt_le_left (by linarith)]
      nlinarith [sq_nonneg ((k : ℝ) - ((n : ℝ) - m))]
    linarith
  have := mul_le_mul_of_nonneg_left h6 hR2.le
  linarith

end

end PW
