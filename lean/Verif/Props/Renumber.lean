import Verif.Lemmas.Renumber
import Verif.Props.SameLaw
import Verif.Props.ExamplesMore
import Verif.Props.ExamplesContinue
import Verif.Props.SameLawExamples

/-!
# C111: the order in which the variables are listed does not matter to the sparse walks

The runs use different draws, so no pair of seeded runs agrees; their laws do.
-/

namespace PW
open Matrix MeasureTheory Set
open scoped ENNReal
variable {m n : ℕ} (e : Env ℝ) [MeasurableSpace e.r.G] (μ : Measure e.r.G) (hs : IdealSource e.r μ)
  (e' : Env ℝ) [MeasurableSpace e'.r.G] (μ' : Measure e'.r.G) (hs' : IdealSource e'.r μ')
  {σ : Equiv.Perm (Fin n)} {k : Int} {A A' : Matrix (Fin m) (Fin n) ℝ} (hσ : Renumbered σ k.toNat A A') (hA : IndepRows A) (b : Fin m → ℝ)
  (hk : 1 ≤ k ∧ k ≤ n)
include hs hs' hσ hA hk

/-- **C111** (`SparseBallWalk`), from any starting point. -/
theorem C111_ball (R : ℝ) {E E' : Eigen ℝ} (hE : E.SparseLUExact) (hE' : E'.SparseLUExact) (x : Fin n → ℝ) :
    SameLaw (.sparseBall R E) e μ A b x k (.sparseBall R E') e' μ' A' b (reorder σ x) k (reorder σ) := by
  have := hs.prob
  have := hs'.prob
  exact sameLaw_of (measurable_sparseBallNext R e.r μ hs A k.toNat) (sparseBall_drives R e.r μ hs A k.toNat)
    (measurable_sparseBallNext R e'.r μ' hs' A' k.toNat) (sparseBall_drives R e'.r μ' hs' A' k.toNat)
    (fun x => meas_at (measurable_sparseBallMove R A' k.toNat) x) measurable_reorder stdNormal_reorder
    (fun x w => hσ.ballMove R x w) (fun _ => hk) (fun _ => hk)
    (fun niter burnin thin seed => ae_of_all _ (sparseBall_follows R hE e hA b hk x niter burnin thin seed))
    (fun niter burnin thin seed => ae_of_all _ (sparseBall_follows R hE' e' (hσ.indep hA) b hk _ niter burnin thin seed))

omit hs hs' hσ hA hk in
theorem next_sameLaw (hs : IdealSource e.r μ) (hs' : IdealSource e'.r μ') {next next' : (Fin n → ℝ) → (Fin n → ℝ) → ℝ → Fin n → ℝ}
    (hnx : Measurable fun p : (Fin n → ℝ) × (Fin n → ℝ) × ℝ => next p.1 p.2.1 p.2.2)
    (hnx' : Measurable fun p : (Fin n → ℝ) × (Fin n → ℝ) × ℝ => next' p.1 p.2.1 p.2.2) {φ : (Fin n → ℝ) → Fin n → ℝ} (hφ : Measurable φ)
    {ρ : (Fin n → ℝ) → Fin n → ℝ} (hρ : MeasurePreserving ρ (stdNormal n) (stdNormal n)) (h : ∀ x w val, next' (φ x) (ρ w) val = φ (next x w val))
    {w w' : Walk ℝ} {A A' : Matrix (Fin m) (Fin n) ℝ} {b b' : Fin m → ℝ} {x : Fin n → ℝ} {k : Int}
    (hk : w.isSparse = true → 1 ≤ k ∧ k ≤ n) (hk' : w'.isSparse = true → 1 ≤ k ∧ k ≤ n)
    (hf : ∀ niter burnin thin seed : Int, ∀ᵐ g ∂μ, Follows w e (callArgs A b x niter k burnin thin seed) ⟨rfl, rfl⟩ (idealPos e.r next x) g)
    (hf' : ∀ niter burnin thin seed : Int, ∀ᵐ g ∂μ',
      Follows w' e' (callArgs A' b' (φ x) niter k burnin thin seed) ⟨rfl, rfl⟩ (idealPos e'.r next' (φ x)) g) :
    SameLaw w e μ A b x k w' e' μ' A' b' (φ x) k φ := by
  have := hs.prob
  have := hs'.prob
  exact sameLaw_of (f := fun x g => idealStep e.r next (x, g)) (f' := fun x g => idealStep e'.r next' (x, g)) (measurable_idealStep hs hnx)
    (ideal_drives hs hnx) (measurable_idealStep hs' hnx') (ideal_drives hs' hnx')
    (fun x => hnx'.comp measurable_prodMk_left) hφ (hρ.prod (MeasurePreserving.id unitLaw)) (fun x w => h x w.1 w.2)
    hk hk' hf hf'

/-- **C111** (`SparseHitAndRun`), from a relative interior point, when the polytope is not wider than `2^10000` radii (C62). -/
theorem C111_hitrun (R ERR : ℝ) (hE : 0 < ERR) {E E' : Eigen ℝ} (hL : E.SparseLUExact) (hL' : E'.SparseLUExact) (hmn : m + 2 ≤ n)
    (hD : ∀ y ∈ PolyEq A b k.toNat, ∀ z ∈ PolyEq A b k.toNat, ∑ i, (y i - z i) ^ 2 < (2 ^ 10000 * |R|) ^ 2)
    (x : Fin n → ℝ) (hxA : A *ᵥ x = b) (hx : x ∈ TailPos n k.toNat) :
    SameLaw (.sparseHitRun R ERR E) e μ A b x k (.sparseHitRun R ERR E') e' μ' A' b (reorder σ x) k (reorder σ) := by
  have hk1 : 1 ≤ k.toNat := by omega
  have hk2 : k.toNat ≤ n := by omega
  have hD' : ∀ y ∈ PolyEq A' b k.toNat, ∀ z ∈ PolyEq A' b k.toNat, ∑ i, (y i - z i) ^ 2 < (2 ^ 10000 * |R|) ^ 2 := by
    intro y hy z hz
    have er : ∀ y : Fin n → ℝ, reorder σ (reorder σ.symm y) = y := fun y => funext fun j => congrArg y (Equiv.symm_apply_apply σ j)
    have h1 := hD _ ((hσ.polyEq b _).1 (by rw [er]; exact hy)) _ ((hσ.polyEq b _).1 (by rw [er z]; exact hz))
    rw [← reorder_sum (σ := σ.symm)]
    exact h1
  exact next_sameLaw e μ e' μ' hs hs' (measurable_sparseHitRunNext hL hA hk1 hk2 R ERR) (measurable_sparseHitRunNext hL' (hσ.indep hA) hk1 hk2 R ERR)
    measurable_reorder stdNormal_reorder (fun y w val => hσ.next hk1 hk2 R ERR hL hL' hA y w val) (fun _ => hk) (fun _ => hk)
    (fun niter burnin thin seed => (sparseHitRun_follows R ERR hE hL e μ hs hA hmn b x niter k burnin thin seed hk hxA hx hD).mono fun g h => h.1)
    (fun niter burnin thin seed => (sparseHitRun_follows R ERR hE hL' e' μ' hs' (hσ.indep hA) hmn b _ niter k burnin thin seed hk
      ((hσ.mulVec x).trans hxA) ((hσ.tailPos x).2 hx) hD').mono fun g h => h.1)

/-! ## Barrier walks -/

/-- The weights of `SparseVaidyaWalk` (C29). -/
noncomputable def sparseVaidyaW {m n : ℕ} (ERR : ℝ) (k : ℕ) (A : Matrix (Fin m) (Fin n) ℝ) (x : Fin n → ℝ) : Fin n → ℝ :=
  fun i => if n - k ≤ i.val then colev (colScaled A (slackScale ERR k (fun _ => 1) x)) i + ((n : ℝ) - m) / k else 0

section
variable {σ₁ σ₂ : Type} (cls : SparseBarrierClass ℝ σ₁) (cls' : SparseBarrierClass ℝ σ₂) (E E' : Eigen ℝ) (hE : E.Exact) (hE' : E'.Exact)
  (ERR : ℝ) (hR : 0 < ERR) {D : ℝ} (hD : 0 < D) {wf wf' : (Fin n → ℝ) → Fin n → ℝ} (hwm : Measurable wf) (hwm' : Measurable wf')
  (hww : ∀ x, wf' (reorder σ x) = reorder σ (wf x))
  (hwp : ∀ x ∈ TailPos n k.toNat, ∀ i : Fin n, n - k.toNat ≤ i.val → 0 < wf x i)
  (hb : ∃ M, ∀ y ∈ PolyEq A b k.toNat, ∀ i, |y i| ≤ M)
  (x : Fin n → ℝ) (hxA : A *ᵥ x = b) (hx : x ∈ TailPos n k.toNat)
include hE hE' hR hD hwm hwm' hww hwp hb hxA hx

/-- **C111** (any subclasses of `SparseBarrierWalk` whose weights are a positive function of the point, renumbered with it). -/
theorem C111_user (o : σ₁) (o' : σ₂) (ho : WeightsAre cls o A k D wf) (ho' : WeightsAre cls' o' A' k D wf') :
    SameLaw (.sparseBarrier cls ERR E o) e μ A b x k (.sparseBarrier cls' ERR E' o') e' μ' A' b (reorder σ x) k (reorder σ) := by
  have := hs.prob
  have := hs'.prob
  subst hxA
  have hx' : reorder σ x ∈ TailPos n k.toNat := (hσ.tailPos x).2 hx
  have hA' := hσ.indep hA
  have hb' := hσ.bounded hb
  have hwp' : ∀ x ∈ TailPos n k.toNat, ∀ i : Fin n, n - k.toNat ≤ i.val → 0 < wf' x i := fun y hy i hi => by
    have er : reorder σ (reorder σ.symm y) = y := funext fun j => congrArg y (Equiv.symm_apply_apply σ j)
    rw [← er, hww]
    exact hwp _ ((hσ.tailPos _).1 (by rw [er]; exact hy)) _ ((hσ.tail i).2 hi)
  have main : ∀ (A : Matrix (Fin m) (Fin n) ℝ) (x : Fin n → ℝ) (wf : (Fin n → ℝ) → Fin n → ℝ), IndepRows A → x ∈ TailPos n k.toNat →
      (∃ M, ∀ y ∈ PolyEq A (A *ᵥ x) k.toNat, ∀ i, |y i| ≤ M) → Measurable wf →
      (∀ x ∈ TailPos n k.toNat, ∀ i : Fin n, n - k.toNat ≤ i.val → 0 < wf x i) →
      ∀ {τ : Type} (cls : SparseBarrierClass ℝ τ) (E : Eigen ℝ), E.Exact → ∀ o, WeightsAre cls o A k D wf →
      ∀ (e : Env ℝ) [MeasurableSpace e.r.G] (μ : Measure e.r.G), IdealSource e.r μ →
      (Measurable fun p : (Fin n → ℝ) × e.r.G => mhNext e.r n (TailNonneg n k.toNat) (sparseProp A D fun x => metricG ERR 0 x (wf x) k.toNat)
          (sparseAccept A D fun x => metricG ERR 0 x (wf x) k.toNat) p.1 p.2) ∧
      Drives μ ((stdNormal n).prod unitLaw) (mhNext e.r n (TailNonneg n k.toNat) (sparseProp A D fun x => metricG ERR 0 x (wf x) k.toNat)
          (sparseAccept A D fun x => metricG ERR 0 x (wf x) k.toNat))
        (mhMove (TailNonneg n k.toNat) (sparseProp A D fun x => metricG ERR 0 x (wf x) k.toNat) (sparseAccept A D fun x => metricG ERR 0 x (wf x) k.toNat)) ∧
      (∀ x, Measurable (mhMove (TailNonneg n k.toNat) (sparseProp A D fun x => metricG ERR 0 x (wf x) k.toNat)
        (sparseAccept A D fun x => metricG ERR 0 x (wf x) k.toNat) x)) ∧
      ∀ niter burnin thin seed : Int, ∀ᵐ g ∂μ,
        Follows (.sparseBarrier cls ERR E o) e (callArgs A (A *ᵥ x) x niter k burnin thin seed) ⟨rfl, rfl⟩
          (posAt (mhNext e.r n (TailNonneg n k.toNat) (sparseProp A D fun x => metricG ERR 0 x (wf x) k.toNat)
            (sparseAccept A D fun x => metricG ERR 0 x (wf x) k.toNat)) x) g := by
    intro A x wf hA hx hb hwm hwp τ cls E hE o ho e _ μ hs
    obtain ⟨d, B, hB⟩ := exists_kernelBasis A
    have hpos : ∀ x ∈ TailPos n k.toNat, ∀ i, 0 < metricG ERR 0 x (wf x) k.toNat i := fun x hx i => metricG_pos hR 0 hx (hwp x hx) i
    have hmeas : ∀ i, Measurable fun x => metricG ERR 0 x (wf x) k.toNat i :=
      measurable_metricG ERR 0 k.toNat (fun i => measurable_pi_apply i) (fun i => (measurable_pi_apply i).comp hwm)
    obtain ⟨c, hc⟩ := sparse_mhData hA hD hx hB hb hmeas hpos
    have h := hc.toMHBase
    refine ⟨measurable_mhNext e.r n (hs.gaussian n).measurable hs.uniform.measurable h.measC h.measP h.measa, MHBase.drives hs h,
      fun x => meas_at (measurable_mhMove h.measC h.measP h.measa) x, fun niter burnin thin seed => ?_⟩
    obtain ⟨o', h1, h2, h3⟩ := ho.weights
    refine sparseBarrier_follows cls ERR E hE hA hk hpos hc o o' h1 h2 e μ hs (fun y hy => ?_) _ ⟨hx, rfl⟩ niter burnin thin seed
    unfold generateG
    rw [h3 _ y hy, Out.ok_bind, dif_pos rfl]
    congr 2
    funext i
    simp only [metricG, generateSlackInverse]
    by_cases h : isTail k.toNat i = true
    · simp only [h, if_true]; rfl
    · simp only [h, Bool.false_eq_true, if_false]
  obtain ⟨a1, a2, -, a4⟩ := main A x wf hA hx hb hwm hwp cls E hE o ho e μ hs
  obtain ⟨b1, b2, b3, b4⟩ := main A' (reorder σ x) wf' hA' hx' (by rw [hσ.mulVec]; exact hb') hwm' hwp' cls' E' hE' o' ho' e' μ' hs'
  rw [hσ.mulVec] at b4
  exact sameLaw_of a1 a2 b1 b2 b3 measurable_reorder (stdNormal_reorder.prod (MeasurePreserving.id unitLaw))
    (fun x w => hσ.move (fun y => by rw [hww, hσ.metric]) x w) (fun _ => hk) (fun _ => hk) a4 b4

end

section
variable (E E' : Eigen ℝ) (hE : E.Exact) (hE' : E'.Exact) (ERR : ℝ) (hR : 0 < ERR) (R : ℝ) (hr : R ≠ 0) (hmn : m < n)
  (hb : ∃ M, ∀ y ∈ PolyEq A b k.toNat, ∀ i, |y i| ≤ M) (x : Fin n → ℝ) (hxA : A *ᵥ x = b) (hx : x ∈ TailPos n k.toNat) (o o' : BState ℝ)
include hE hE' hR hr hmn hb hxA hx

/-- **C111** (`SparseDikinWalk`). -/
theorem C111_dikin : SameLaw (.sparseBarrier (sparseDikinClass R) ERR E o) e μ A b x k (.sparseBarrier (sparseDikinClass R) ERR E' o') e' μ' A' b
    (reorder σ x) k (reorder σ) := by
  have hD : 0 < R * R / (Scalar.ofInt ((n : Int) - m) : ℝ) := by
    rw [rsc_ofInt]
    have h1 : (m : ℝ) < n := by exact_mod_cast hmn
    push_cast
    exact div_pos (mul_self_pos.2 hr) (by linarith)
  exact C111_user e μ hs e' μ' hs' hσ hA b hk (sparseDikinClass R) (sparseDikinClass R) E E' hE hE' ERR hR hD (wf := fun _ _ => 1) (wf' := fun _ _ => 1)
    measurable_const measurable_const (fun _ => rfl) (fun _ _ _ _ => one_pos) hb x hxA hx o o' ⟨_, rfl, rfl, fun _ _ _ => rfl⟩ ⟨_, rfl, rfl, fun _ _ _ => rfl⟩

/-- **C111** (`SparseVaidyaWalk`), when the `int` product `k * (cols - rows)` does not overflow. -/
theorem C111_vaidya (hov : k * ((n : Int) - m) ≤ 2 ^ 31 - 1) :
    SameLaw (.sparseBarrier (sparseVaidyaClass E ERR R) ERR E o) e μ A b x k (.sparseBarrier (sparseVaidyaClass E' ERR R) ERR E' o') e' μ' A' b
      (reorder σ x) k (reorder σ) := by
  have hpos' : 0 < k * ((n : Int) - m) := mul_pos (by omega) (by omega)
  have hD : 0 < R * R / Scalar.sqrt (Scalar.ofInt (k * ((n : Int) - m)) : ℝ) := by
    rw [rsc_ofInt, rsc_sqrt]
    have h1 : (0 : ℝ) < ((k * ((n : Int) - m) : Int) : ℝ) := by exact_mod_cast hpos'
    exact div_pos (mul_self_pos.2 hr) (Real.sqrt_pos.2 h1)
  have hk1 : 1 ≤ k.toNat := by omega
  have hk2 : k.toNat ≤ n := by omega
  have hnm : (0 : ℝ) < ((n : ℝ) - m) / k.toNat := by
    have h1 : (m : ℝ) < n := by exact_mod_cast hmn
    have h2 : (0 : ℝ) < k.toNat := by exact_mod_cast hk1
    exact div_pos (by linarith) h2
  have hw : ∀ {E : Eigen ℝ}, E.Exact → ∀ {A : Matrix (Fin m) (Fin n) ℝ}, IndepRows A → ∀ o, WeightsAre (sparseVaidyaClass E ERR R) o A k
      (R * R / Scalar.sqrt (Scalar.ofInt (k * ((n : Int) - m)) : ℝ)) (sparseVaidyaW ERR k.toNat A) := by
    intro E hE A hA o
    refine ⟨{ o with dist := R * R / Scalar.sqrt (Scalar.ofInt (k * ((n : Int) - m)) : ℝ) }, ?_, rfl, fun junk x hx => ?_⟩
    · show (toInt (k * ((n : Int) - m))).bind _ = _
      have : toInt (k * ((n : Int) - m)) = .ok (k * ((n : Int) - m)) := by
        unfold toInt
        rw [if_pos (by unfold IsInt intMin intMax; constructor <;> omega)]
      rw [this, Out.ok_bind]
    · obtain ⟨w, h1, h2, h3, -⟩ := C29_vaidya E hE.ldlt ERR R hR.ne' { o with dist := R * R / Scalar.sqrt (Scalar.ofInt (k * ((n : Int) - m)) : ℝ) }
        junk x A hA k.toNat hk1 hk2 hx
      rw [h1]
      have : w = sparseVaidyaW ERR k.toNat A x := funext fun i => by
        unfold sparseVaidyaW
        by_cases hi : n - k.toNat ≤ i.val
        · rw [if_pos hi]; exact (h3 i hi).1
        · rw [if_neg hi]; exact h2 i (not_le.1 hi)
      rw [this]
  have hm : ∀ A : Matrix (Fin m) (Fin n) ℝ, Measurable (sparseVaidyaW ERR k.toNat A) := fun A => by
    refine measurable_pi_lambda _ fun i => ?_
    unfold sparseVaidyaW
    by_cases hi : n - k.toNat ≤ i.val
    · simp only [if_pos hi]
      refine (measurable_colev A (fun j => ?_) i).add_const _
      unfold slackScale
      by_cases hj : n - k.toNat ≤ j.val
      · simp only [if_pos hj]; exact measurable_const.div (measurable_pi_apply j)
      · simp only [if_neg hj]; exact measurable_const
    · simp only [if_neg hi]; exact measurable_const
  have hp : ∀ x ∈ TailPos n k.toNat, ∀ i : Fin n, n - k.toNat ≤ i.val → 0 < sparseVaidyaW ERR k.toNat A x i := fun x hx i hi => by
    obtain ⟨w, h1, h2, h3, -⟩ := C29_vaidya E hE.ldlt ERR R hR.ne' o (0 : Fin n → ℝ) x A hA k.toNat hk1 hk2 hx
    unfold sparseVaidyaW
    rw [if_pos hi, ← (h3 i hi).1]
    exact hnm.trans_le (h3 i hi).2.1
  refine C111_user e μ hs e' μ' hs' hσ hA b hk (sparseVaidyaClass E ERR R) (sparseVaidyaClass E' ERR R) E E' hE hE' ERR hR hD (hm A) (hm A') (fun x => ?_)
    hp hb x hxA hx o o' (hw hE hA o) (hw hE' (hσ.indep hA) o')
  funext j
  show sparseVaidyaW ERR k.toNat A' (reorder σ x) j = sparseVaidyaW ERR k.toNat A x (σ j)
  unfold sparseVaidyaW
  rw [hσ.slack, hσ.lev]
  simp only [hσ.tail]

end

end PW

/-! ## A concrete case: the simplex `x + y + z = 1` listed as `y, z, x`, from `(1/2, 1/3, 1/6)` -/

namespace PW
open Matrix MeasureTheory Set
open PW.RealToy

theorem ones3_renumbered : Renumbered (finRotate 3) (3 : Int).toNat ones3 ones3 :=
  ⟨fun i _ => by fin_cases i; rfl, fun j => by fin_cases j <;> decide⟩

noncomputable def halfStart : Fin 3 → ℝ := ![1 / 2, 1 / 3, 1 / 6]

theorem halfStart_sum : ones3 *ᵥ halfStart = fun _ => 1 := by
  funext i
  simp only [Matrix.mulVec, dotProduct, Fin.sum_univ_three, ones3, halfStart, one_mul]
  show (1 / 2 : ℝ) + 1 / 3 + 1 / 6 = 1
  norm_num

theorem halfStart_pos : halfStart ∈ TailPos 3 (3 : Int).toNat := fun i _ => by
  fin_cases i
  · show (0 : ℝ) < 1 / 2; norm_num
  · show (0 : ℝ) < 1 / 3; norm_num
  · show (0 : ℝ) < 1 / 6; norm_num

/-- The two problems start from different vectors. -/
example : reorder (finRotate 3) halfStart ≠ halfStart := fun h => by
  have := congrFun h 0
  have e : reorder (finRotate 3) halfStart 0 = 1 / 3 := rfl
  rw [e] at this
  have e2 : halfStart 0 = 1 / 2 := rfl
  rw [e2] at this
  norm_num at this

example := C111_ball streamEnv streamLaw streamRng_ideal flipEnv streamLaw flipEnv_ideal ones3_renumbered ones3_indep (fun _ => 1) ⟨by decide, by decide⟩ 1
  exactEigen_exact.sparseLU exactEigen_exact.sparseLU halfStart
example := C111_hitrun streamEnv streamLaw streamRng_ideal flipEnv streamLaw flipEnv_ideal ones3_renumbered ones3_indep (fun _ => 1) ⟨by decide, by decide⟩ 1
  (1 / 100) (by norm_num) exactEigen_exact.sparseLU exactEigen_exact.sparseLU (by decide) simplex_narrow halfStart halfStart_sum halfStart_pos
example := C111_dikin streamEnv streamLaw streamRng_ideal flipEnv streamLaw flipEnv_ideal ones3_renumbered ones3_indep (fun _ => 1) ⟨by decide, by decide⟩
  exactEigen exactEigen exactEigen_exact exactEigen_exact 1 one_pos (1 / 2) (by norm_num) (by decide) simplex_bdd halfStart halfStart_sum halfStart_pos
  (BState.fresh 0) (BState.fresh 1)
example := C111_vaidya streamEnv streamLaw streamRng_ideal flipEnv streamLaw flipEnv_ideal ones3_renumbered ones3_indep (fun _ => 1) ⟨by decide, by decide⟩
  exactEigen exactEigen exactEigen_exact exactEigen_exact 1 one_pos (1 / 2) (by norm_num) (by decide) simplex_bdd halfStart halfStart_sum halfStart_pos
  (BState.fresh 0) (BState.fresh 1) (by decide)
example := C111_user streamEnv streamLaw streamRng_ideal flipEnv streamLaw flipEnv_ideal ones3_renumbered ones3_indep (fun _ => 1) ⟨by decide, by decide⟩
  squareClass squareClass exactEigen exactEigen exactEigen_exact exactEigen_exact 1 one_pos (D := 2) two_pos
  (wf := fun x i => 1 + x i * x i) (wf' := fun x i => 1 + x i * x i)
  (measurable_pi_lambda _ fun i => measurable_const.add ((measurable_pi_apply i).mul (measurable_pi_apply i)))
  (measurable_pi_lambda _ fun i => measurable_const.add ((measurable_pi_apply i).mul (measurable_pi_apply i)))
  (fun _ => rfl)

end PW
