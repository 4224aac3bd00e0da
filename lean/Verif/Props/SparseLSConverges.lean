import Verif.Props.LSConverges
import Verif.Props.SparseJohnConverges

/-!
# C74 for `SparseDikinLSWalk`
-/

namespace PW
open Classical Matrix
variable {m n : ℕ}

/-- The sparse Lee-Sidford weights: zero on the free coordinates, the leverage score on the constrained ones. -/
structure IsSparseLSWeights (α ERR : ℝ) (A : Matrix (Fin m) (Fin n) ℝ) (k : ℕ) (x w : Fin n → ℝ) : Prop where
  head : ∀ i : Fin n, i.val < n - k → w i = 0
  pos : ∀ i : Fin n, n - k ≤ i.val → 0 < w i
  eq : ∀ i : Fin n, n - k ≤ i.val → w i = colev (colScaled A (slackScale ERR k (fun j => w j ^ (α / 2)) x)) i

theorem isSparseLSWeights_iff {α ERR : ℝ} {A : Matrix (Fin m) (Fin n) ℝ} {k : ℕ} {x w : Fin n → ℝ} :
    IsSparseLSWeights α ERR A k x w ↔ ∃ u : TailIx n k → ℝ, w = padTail k u ∧ (∀ i, 0 < u i) ∧
      ∀ i, u i = tailScore α ERR A k x u i := by
  constructor
  · intro h
    refine ⟨fun i => w i.1, (padTail_restrict h.head).symm, fun i => h.pos i.1 i.2, fun i => ?_⟩
    unfold tailScore
    rw [padTail_restrict h.head]
    exact h.eq i.1 i.2
  · rintro ⟨u, rfl, h1, h2⟩
    refine ⟨fun i hi => by unfold padTail; rw [dif_neg (by omega)], padTail_pos h1, fun i hi => ?_⟩
    have := h2 ⟨i, hi⟩
    rw [← padTail_tail u] at this
    exact this

section
variable {A : Matrix (Fin m) (Fin n) ℝ} (hA : IndepRows A) {ERR : ℝ} (hR : ERR ≠ 0) {k : ℕ} {x : Fin n → ℝ}
  (hx : x ∈ TailPos n k)
include hA

theorem colev_pos_iff {g : Fin n → ℝ} (hg : ∀ i, g i ≠ 0) (i : Fin n) :
    0 < colev (colScaled A g) i ↔ ∃ z : Fin n → ℝ, A *ᵥ z = 0 ∧ z i ≠ 0 := by
  obtain ⟨d, Z, hZ⟩ := exists_kernelBasis A
  have hI : IndepCols (diagonal g * Z) := by
    have := IndepCols.scale Z (kernelBasis_indep hZ) (s := g) hg
    have e : diagonal g * Z = fun i j => g i * Z i j := by ext i j; rw [Matrix.diagonal_mul]
    rw [e]; exact this
  rw [colev_eq_lev hA hZ hg, lev_pos_iff hI]
  simp only [Matrix.diagonal_mul]
  constructor
  · rintro ⟨j, hj⟩
    refine ⟨fun i => Z i j, ?_, fun h => hj (by have h : Z i j = 0 := h; rw [h, mul_zero])⟩
    funext r
    have := congrFun (congrFun hZ.mul_zero r) j
    exact this
  · rintro ⟨z, hz, hzi⟩
    obtain ⟨u, hu⟩ := hZ.span z hz
    by_contra hc
    push Not at hc
    refine hzi ?_
    rw [← hu]
    show ∑ j, Z i j * u j = 0
    refine Finset.sum_eq_zero fun j _ => ?_
    have := hc j
    rw [(mul_eq_zero.1 this).resolve_left (hg i), zero_mul]

include hR hx

/-- **C74** (1), sparse: there is a vector of Lee-Sidford weights iff no constrained coordinate is constant on `A x = b`. -/
theorem C74_sparse_exists_iff : (∃ w, IsSparseLSWeights (lsExponent k) ERR A k x w) ↔
    ∀ i : Fin n, n - k ≤ i.val → ∃ z : Fin n → ℝ, A *ᵥ z = 0 ∧ z i ≠ 0 := by
  have hα := lsExponent_range k
  have hg1 : ∀ i, slackScale ERR k (fun _ => 1) x i ≠ 0 := slackScale_ne hR (w := fun _ => 1) (fun _ _ => one_ne_zero) hx
  constructor
  · rintro ⟨w, hw⟩ i hi
    have hg2 : ∀ i, slackScale ERR k (fun j => w j ^ (lsExponent k / 2)) x i ≠ 0 :=
      slackScale_ne hR (w := fun j => w j ^ (lsExponent k / 2)) (fun i hi => (Real.rpow_pos_of_pos (hw.pos i hi) _).ne') hx
    refine (colev_pos_iff hA hg2 i).1 ?_
    rw [← hw.eq i hi]; exact hw.pos i hi
  · intro h
    obtain ⟨L, hL⟩ := exists_tailPotential hA hR hx hα.1 hα.2.le
    obtain ⟨l, hl, hl1, hf⟩ := exists_floor (τ := fun i : TailIx n k => colev (colScaled A (slackScale ERR k (fun _ => 1) x)) i.1)
      (fun i => (colev_pos_iff hA hg1 i.1).2 (h i.1 i.2)) (κ := 1 - lsExponent k) (by linarith [hα.2])
    obtain ⟨v, hv, he⟩ := exists_fixed_floor hL hl hl1 (tail_floor hA hR hx hα.1 hl fun i hi => hf ⟨i, hi⟩)
    exact ⟨padTail k v, isSparseLSWeights_iff.2 ⟨v, rfl, fun i => hl.trans_le (hv i).1, fun i => by
      have := he i; rwa [add_zero] at this⟩⟩

/-- **C74** (2), sparse. -/
theorem C74_sparse_unique (v w : Fin n → ℝ) (hv : IsSparseLSWeights (lsExponent k) ERR A k x v)
    (hw : IsSparseLSWeights (lsExponent k) ERR A k x w) : v = w := by
  have hα := lsExponent_range k
  obtain ⟨L, hL⟩ := exists_tailPotential hA hR hx hα.1 hα.2.le
  obtain ⟨u, rfl, h1, h2⟩ := isSparseLSWeights_iff.1 hv
  obtain ⟨u', rfl, h1', h2'⟩ := isSparseLSWeights_iff.1 hw
  have h3 : ∀ i, u i = tailScore (lsExponent k) ERR A k x u i + 0 := fun i => by rw [add_zero]; exact h2 i
  have h3' : ∀ i, u' i = tailScore (lsExponent k) ERR A k x u' i + 0 := fun i => by rw [add_zero]; exact h2' i
  rw [fixed_unique hL le_rfl (by linarith [hα.2]) h1' h3' h1 (climb_fixed_max hL le_rfl h1 h3 h1')]

end

/-- The gradient of the program on weights that vanish on the free coordinates. -/
theorem sparseLSGrad_pad {E : Eigen ℝ} (hE : E.LdltExact) {ERR : ℝ} (hR : ERR ≠ 0) (junk : Fin n → ℝ) {x : Fin n → ℝ}
    {A : Matrix (Fin m) (Fin n) ℝ} (hA : IndepRows A) {k : ℕ} (hx : x ∈ TailPos n k) {u : TailIx n k → ℝ} (hu : ∀ i, 0 < u i) :
    sparseLSGrad E ERR junk x A k (padTail k u) =
      padTail k fun i => lsExponent k * (1 - tailScore (lsExponent k) ERR A k x u i / u i) := by
  have hs := (sparseScore_real hE hR junk hA hx (lsExponent k) (padTail_pos hu)).2
  funext i
  by_cases hi : n - k ≤ i.val
  · have h1 := hs i
    rw [if_pos hi] at h1
    simp only [sparseLSGrad, zeroHead, if_pos ((isTail_iff i).2 hi), lsAlpha_real]
    rw [h1]
    have e1 := padTail_tail u ⟨i, hi⟩
    have e2 := padTail_tail (fun i => lsExponent k * (1 - tailScore (lsExponent k) ERR A k x u i / u i)) ⟨i, hi⟩
    simp only at e1 e2
    rw [e2, e1]
    unfold tailScore
    ring
  · have hi' : ¬ isTail k i = true := by rw [isTail_iff]; exact hi
    simp only [sparseLSGrad, zeroHead, if_neg hi']
    unfold padTail
    rw [dif_neg hi]; simp

theorem norm2_pad {k : ℕ} (g : TailIx n k → ℝ) : norm2 (padTail k g) ^ 2 = ∑ i, g i ^ 2 := by
  rw [norm2_sq_real, sum_tail (k := k)]
  · exact Finset.sum_congr rfl fun i _ => by rw [padTail_tail]
  · intro i h; unfold padTail; rw [dif_neg h]; ring

theorem sparse_ls_defect {E : Eigen ℝ} (hE : E.LdltExact) {ERR : ℝ} (hR : ERR ≠ 0) (junk : Fin n → ℝ) {x : Fin n → ℝ}
    {A : Matrix (Fin m) (Fin n) ℝ} (hA : IndepRows A) {k : ℕ} (hx : x ∈ TailPos n k) {u : TailIx n k → ℝ} (hu : ∀ i, 0 < u i) :
    norm2 (sparseLSGrad E ERR junk x A k (padTail k u)) ^ 2 = lsExponent k ^ 2 * defectSq (tailScore (lsExponent k) ERR A k x) u := by
  rw [sparseLSGrad_pad hE hR junk hA hx hu, norm2_pad, defectSq, Finset.mul_sum]
  exact Finset.sum_congr rfl fun i _ => by ring

/-- One pass of the program on weights that vanish on the free coordinates. -/
theorem sparseLSUpdate_pad {E : Eigen ℝ} (hE : E.LdltExact) {ERR : ℝ} (hR : ERR ≠ 0) (STEP : ℝ) (junk : Fin n → ℝ) {x : Fin n → ℝ}
    {A : Matrix (Fin m) (Fin n) ℝ} (hA : IndepRows A) {k : ℕ} (hx : x ∈ TailPos n k) {u : TailIx n k → ℝ} (hu : ∀ i, 0 < u i) :
    sparseLSUpdate ERR STEP k (padTail k u) (sparseLSGrad E ERR junk x A k (padTail k u)) =
      padTail k fun i => max (gdMap (tailScore (lsExponent k) ERR A k x) (STEP * lsExponent k) u i) ERR := by
  rw [sparseLSGrad_pad hE hR junk hA hx hu]
  funext i
  unfold sparseLSUpdate
  by_cases hi : n - k ≤ i.val
  · simp only [if_pos ((isTail_iff i).2 hi)]
    have e1 := padTail_tail u ⟨i, hi⟩
    have e2 := padTail_tail (fun i => lsExponent k * (1 - tailScore (lsExponent k) ERR A k x u i / u i)) ⟨i, hi⟩
    have e3 := padTail_tail (fun i => max (gdMap (tailScore (lsExponent k) ERR A k x) (STEP * lsExponent k) u i) ERR) ⟨i, hi⟩
    simp only at e1 e2 e3
    rw [e1, e2, e3, cmax_real]
    unfold gdMap
    congr 1; ring
  · have hi' : ¬ isTail k i = true := by rw [isTail_iff]; exact hi
    simp only [if_neg hi']
    unfold padTail
    rw [dif_neg hi, dif_neg hi, dif_neg hi]; simp

theorem sparseLS_pos_loop {E : Eigen ℝ} (hE : E.LdltExact) {ERR : ℝ} (hR : 0 < ERR) (GLIM STEP : ℝ) (N : ℕ) (junk : Fin n → ℝ)
    {x : Fin n → ℝ} {A : Matrix (Fin m) (Fin n) ℝ} (hA : IndepRows A) {k : ℕ} (hx : x ∈ TailPos n k) {u0 : TailIx n k → ℝ}
    (h0 : ∀ i, 0 < u0 i) :
    (∃ u : TailIx n k → ℝ, (lsLoop (sparseLSGrad E ERR junk x A k) (sparseLSUpdate ERR STEP k) GLIM N (padTail k u0)).1 = padTail k u ∧
      ∀ i, 0 < u i) ∧
    ((lsLoop (sparseLSGrad E ERR junk x A k) (sparseLSUpdate ERR STEP k) GLIM N (padTail k u0)).2 = true →
      norm2 (sparseLSGrad E ERR junk x A k
        (lsLoop (sparseLSGrad E ERR junk x A k) (sparseLSUpdate ERR STEP k) GLIM N (padTail k u0)).1) < GLIM) :=
  lsLoop_spec (I := fun w : Fin n → ℝ => ∃ u : TailIx n k → ℝ, w = padTail k u ∧ ∀ i, 0 < u i)
    (by
      rintro w ⟨u, rfl, hu⟩
      rw [sparseLSUpdate_pad hE hR.ne' STEP junk hA hx hu]
      exact ⟨_, rfl, fun i => hR.trans_le (le_max_right _ _)⟩) N _ ⟨u0, rfl, h0⟩

/-- **C74** (4), sparse: what the loop returns when it stops by its criterion. -/
theorem C74_sparse_converged (E : Eigen ℝ) (hE : E.LdltExact) (ERR GLIM STEP : ℝ) (hR : 0 < ERR) (hG : 0 ≤ GLIM) (M : Int) (k : ℕ)
    (o : BState ℝ) (w0 : Fin n → ℝ) (ho : StartsFrom o.w n w0) (h0 : w0 ∈ TailPos n k) (junk x : Fin n → ℝ)
    (A : Matrix (Fin m) (Fin n) ℝ) (hA : IndepRows A) (hx : x ∈ TailPos n k) (hα : GLIM < lsExponent k) (v : Fin n → ℝ)
    (hv : IsSparseLSWeights (lsExponent k) ERR A k x v) (w : Fin n → ℝ)
    (hw : sparseLSWeightConv E ERR GLIM STEP M o.w junk x A k = .ok (w, true)) :
    distSq w v ≤ (4 * (1 + Real.log k) * (GLIM / (lsExponent k - GLIM))) ^ 2 := by
  have hr := lsExponent_range k
  obtain ⟨L, hP⟩ := exists_tailPotential hA hR.ne' hx hr.1 hr.2.le
  obtain ⟨v', rfl, hvp, hvf⟩ := isSparseLSWeights_iff.1 hv
  unfold sparseLSWeightConv at hw
  rw [warmStart_iff.2 ho, Out.ok_bind, zeroHead_pad] at hw
  have hs := sparseLS_pos_loop hE hR GLIM STEP M.toNat junk hA hx (u0 := fun i : TailIx n k => w0 i.1) fun i => h0 i.1 i.2
  rw [Out.ok.inj hw] at hs
  obtain ⟨⟨u, hwu, hup⟩, hg⟩ := hs
  dsimp only at hwu hg
  have hg := hg rfl
  subst hwu
  have hd := sparse_ls_defect hE hR.ne' junk hA hx hup
  have h1 := ls_near hP (by linarith [hr.2]) hG hα hvp hvf hup (GLIM := GLIM) (by
    rw [← hd]; exact pow_le_pow_left₀ (norm2_nonneg_real _) hg.le 2)
  have hl : 0 ≤ Real.log k := Real.log_natCast_nonneg k
  have e : 4 / (1 - lsExponent k) = 4 * (1 + Real.log k) := by rw [one_sub_lsExponent]; field_simp
  rw [e] at h1
  rw [distSq_pad]
  exact h1

/-- **C74** (5), sparse. -/
theorem C74_sparse_history (E : Eigen ℝ) (hE : E.LdltExact) (ERR GLIM STEP STEP' : ℝ) (hR : 0 < ERR) (hG : 0 ≤ GLIM) (M M' : Int)
    (k : ℕ) (o o' : BState ℝ) (w0 w0' : Fin n → ℝ) (ho : StartsFrom o.w n w0) (h0 : w0 ∈ TailPos n k)
    (ho' : StartsFrom o'.w n w0') (h0' : w0' ∈ TailPos n k) (junk junk' x : Fin n → ℝ)
    (A : Matrix (Fin m) (Fin n) ℝ) (hA : IndepRows A) (hz : ∀ i : Fin n, n - k ≤ i.val → ∃ z : Fin n → ℝ, A *ᵥ z = 0 ∧ z i ≠ 0)
    (hx : x ∈ TailPos n k) (hα : GLIM < lsExponent k) (w w' : Fin n → ℝ)
    (hw : sparseLSWeightConv E ERR GLIM STEP M o.w junk x A k = .ok (w, true))
    (hw' : sparseLSWeightConv E ERR GLIM STEP' M' o'.w junk' x A k = .ok (w', true)) :
    distSq w w' ≤ (8 * (1 + Real.log k) * (GLIM / (lsExponent k - GLIM))) ^ 2 := by
  obtain ⟨v, hv⟩ := (C74_sparse_exists_iff hA hR.ne' hx).2 hz
  have h1 := C74_sparse_converged E hE ERR GLIM STEP hR hG M k o w0 ho h0 junk x A hA hx hα v hv w hw
  have h2 := C74_sparse_converged E hE ERR GLIM STEP' hR hG M' k o' w0' ho' h0' junk' x A hA hx hα v hv w' hw'
  have h3 := distSq_triangle w v w'
  set q := GLIM / (lsExponent k - GLIM)
  calc _ ≤ _ := h3
    _ ≤ 2 * (4 * (1 + Real.log k) * q) ^ 2 + 2 * (4 * (1 + Real.log k) * q) ^ 2 := by linarith
    _ = _ := by ring

/-- **C74** (7), sparse: convergence for small steps; the floor of the program is its regularisation constant. -/
theorem C74_sparse_descent (E : Eigen ℝ) (hE : E.LdltExact) (ERR R GLIM STEP : ℝ) (hR : 0 < ERR) (hG : 0 < GLIM) (hS : 0 < STEP)
    (M : Int) (k : ℕ) (hk2 : 2 ≤ k) (hkn : k ≤ n) (o : BState ℝ) (w0 : Fin n → ℝ) (ho : StartsFrom o.w n w0) (junk x : Fin n → ℝ)
    (A : Matrix (Fin m) (Fin n) ℝ) (hA : IndepRows A) (hx : x ∈ TailPos n k) (l : ℝ) (hl : ERR ≤ l) (hl1 : l ≤ 1)
    (hτ : ∀ i : Fin n, n - k ≤ i.val → l ^ (1 / (1 + Real.log k)) ≤ colev (colScaled A (slackScale ERR k (fun _ => 1) x)) i)
    (h2 : 2 * (STEP * lsExponent k) ≤ l) (hbox : ∀ i : Fin n, n - k ≤ i.val → l ≤ w0 i ∧ w0 i ≤ 1) :
    ∃ (v w : Fin n → ℝ) (t : ℕ) (conv : Bool),
      IsSparseLSWeights (lsExponent k) ERR A k x v ∧
      (sparseDikinLSClass E ERR R GLIM STEP M).generateWeight junk o x A k = .ok (⟨n, w⟩, { o with w := ⟨n, w⟩ }) ∧
      sparseLSWeightConv E ERR GLIM STEP M o.w junk x A k = .ok (w, conv) ∧ t ≤ M.toNat ∧ (conv = false → t = M.toNat) ∧
      (∀ i : Fin n, i.val < n - k → w i = 0) ∧ (∀ i : Fin n, n - k ≤ i.val → l ≤ w i ∧ w i ≤ 1) ∧
      t * (STEP * l * GLIM ^ 2) ≤ 2 * lsExponent k * k / l ∧
      (2 * lsExponent k * k / l < M.toNat * (STEP * l * GLIM ^ 2) → conv = true) ∧
      distSq w v ≤ 4 * (1 + Real.log k) * (k / l) * (1 - STEP * lsExponent k * l / (8 * (1 + Real.log k))) ^ t ∧
      ((∀ i : Fin n, n - k ≤ i.val → w0 i = 1) → t * (STEP * l * GLIM ^ 2) ≤ 2 * lsExponent k * k ∧
        (2 * lsExponent k * k < M.toNat * (STEP * l * GLIM ^ 2) → conv = true) ∧
        distSq w v ≤ 4 * (1 + Real.log k) * k * (1 - STEP * lsExponent k * l / (8 * (1 + Real.log k))) ^ t) := by
  have hr := lsExponent_range k
  have hα := lsExponent_pos hk2
  have hl0 : 0 < l := by linarith
  have hlog : 0 ≤ Real.log k := Real.log_natCast_nonneg k
  have hκe : 1 - lsExponent k = 1 / (1 + Real.log k) := one_sub_lsExponent k
  have hκ : 0 < 1 - lsExponent k := by linarith [hr.2]
  obtain ⟨L, hP⟩ := exists_tailPotential hA hR.ne' hx hr.1 hr.2.le
  have hF : ScoreFloor (tailScore (lsExponent k) ERR A k x) l :=
    tail_floor hA hR.ne' hx hr.1 hl0 fun i hi => by rw [hκe]; exact hτ i hi
  set σ := tailScore (lsExponent k) ERR A k x with hσ
  have hdd := fun u hu => sparse_ls_defect hE hR.ne' junk hA hx (u := u) hu
  have hupd := fun u hu => sparseLSUpdate_pad hE hR.ne' STEP junk hA hx (u := u) hu
  rw [← hσ] at hdd hupd
  set α := lsExponent k with hαdef
  obtain ⟨v, hvb, hvf⟩ := exists_fixed_floor hP hl0 hl1 hF
  have hvp : ∀ i, 0 < v i := fun i => hl0.trans_le (hvb i).1
  have hh : 0 ≤ STEP * α := by positivity
  set u0 : TailIx n k → ℝ := fun i => w0 i.1 with hu0
  have hb0 : WBox l 1 u0 := fun i => hbox i.1 i.2
  -- the pass as a map of whole vectors
  set spec : (Fin n → ℝ) → Fin n → ℝ := fun w => padTail k (gdMap σ (STEP * α) fun i : TailIx n k => w i.1) with hspec
  have hres : ∀ u : TailIx n k → ℝ, (fun i : TailIx n k => padTail k u i.1) = u := fun u => by funext i; exact padTail_tail u i
  have hspec' : ∀ u : TailIx n k → ℝ, spec (padTail k u) = padTail k (gdMap σ (STEP * α) u) := fun u => by
    rw [hspec]; dsimp only; rw [hres]
  have hit : ∀ t, spec^[t] (padTail k u0) = padTail k ((gdMap σ (STEP * α))^[t] u0) := by
    intro t
    induction t with
    | zero => rfl
    | succ t ih => rw [Function.iterate_succ_apply', ih, hspec', Function.iterate_succ_apply']
  obtain ⟨t, c, hrun, htN, hbefore, hc, hc'⟩ := lsLoop_run
    (I := fun w : Fin n → ℝ => ∃ u : TailIx n k → ℝ, w = padTail k u ∧ WBox l 1 u)
    (grad := sparseLSGrad E ERR junk x A k) (g' := sparseLSGrad E ERR junk x A k)
    (upd := sparseLSUpdate ERR STEP k) (spec := spec) (fun _ _ => rfl)
    (by
      rintro w ⟨u, rfl, hu⟩
      have hp : ∀ i, 0 < u i := fun i => hl0.trans_le (hu i).1
      have hb := gd_box hP hl0 hF hh (by linarith) hu
      rw [hupd u hp, hspec']
      congr 1; funext i
      exact max_eq_left (hl.trans (hb i).1))
    (by
      rintro w ⟨u, rfl, hu⟩
      exact ⟨_, hspec' u, gd_box hP hl0 hF hh (by linarith) hu⟩) (GLIM := GLIM) M.toNat (padTail k u0) ⟨u0, rfl, hb0⟩
  simp only [hit] at hrun hbefore hc
  have hb := gd_box_iterate hP hl0 hF hh (by linarith) hb0
  have hwc : sparseLSWeightConv E ERR GLIM STEP M o.w junk x A k = .ok (padTail k ((gdMap σ (STEP * α))^[t] u0), c) := by
    unfold sparseLSWeightConv
    rw [warmStart_iff.2 ho, Out.ok_bind, zeroHead_pad, hrun]
  have hdef : ∀ s < t, GLIM ^ 2 / α ^ 2 ≤ defectSq σ ((gdMap σ (STEP * α))^[s] u0) := by
    intro s hs
    rw [div_le_iff₀ (by positivity), mul_comm, ← hdd _ fun i => hl0.trans_le (hb s i).1]
    exact pow_le_pow_left₀ hG.le (hbefore s hs) 2
  have hsteps : ∀ G, climb L 0 v - climb L 0 u0 ≤ G → t * (STEP * l * GLIM ^ 2) ≤ 2 * α * G := by
    intro G hG'
    have := gd_steps hP hl0 hF hh h2 hvp hvf hb0 hG' hdef
    have e : STEP * α * l / 2 * (GLIM ^ 2 / α ^ 2) = STEP * l * GLIM ^ 2 / (2 * α) := by field_simp
    rw [e, mul_div_assoc', div_le_iff₀ (by positivity)] at this
    linarith
  have hcon : ∀ G, climb L 0 v - climb L 0 u0 ≤ G → 2 * α * G < M.toNat * (STEP * l * GLIM ^ 2) → c = true := by
    intro G hG' hlt
    by_contra hcc
    rw [← hc' (by simpa using hcc)] at hlt
    exact absurd (hsteps G hG') (not_le.2 hlt)
  have hrate : ∀ G, climb L 0 v - climb L 0 u0 ≤ G → distSq (padTail k ((gdMap σ (STEP * α))^[t] u0)) (padTail k v) ≤
      4 * (1 + Real.log k) * G * (1 - STEP * α * l / (8 * (1 + Real.log k))) ^ t := by
    intro G hG'
    have := gd_rate hP hκ hl0 hl1 hF hh h2 hvp hvf hb0 hG' t
    have e1 : 4 / (1 - α) = 4 * (1 + Real.log k) := by rw [hκe]; field_simp
    have e2 : (1 - α) * (STEP * α) * l / 8 = STEP * α * l / (8 * (1 + Real.log k)) := by rw [hκe]; field_simp
    rw [e1, e2] at this
    rw [distSq_pad]
    refine le_trans this (le_of_eq ?_)
    ring
  have hgap : climb L 0 v - climb L 0 u0 ≤ k / l := by
    have := gd_gap hP hl0 hvp hvf hb0
    rwa [card_tailIx hkn] at this
  have e0 : 2 * α * k / l = 2 * α * (k / l) := by ring
  rw [e0]
  refine ⟨padTail k v, padTail k ((gdMap σ (STEP * α))^[t] u0), t, c,
    isSparseLSWeights_iff.2 ⟨v, rfl, hvp, fun i => by have := hvf i; rwa [add_zero] at this⟩, ?_, hwc, htN, hc',
    fun i hi => by unfold padTail; rw [dif_neg (by omega)], fun i hi => ?_, hsteps _ hgap, hcon _ hgap, hrate _ hgap, fun h1 => ?_⟩
  · show (sparseLSWeightConv E ERR GLIM STEP M o.w junk x A k).map _ = _
    rw [hwc]; rfl
  · have := padTail_tail ((gdMap σ (STEP * α))^[t] u0) ⟨i, hi⟩
    simp only at this
    rw [this]
    exact hb t ⟨i, hi⟩
  · have hg1 : climb L 0 v - climb L 0 u0 ≤ k := by
      have := gd_gap_one hP hvp hvf
      rw [card_tailIx hkn] at this
      rwa [show u0 = fun _ => 1 from funext fun i => h1 i.1 i.2]
    exact ⟨hsteps _ hg1, hcon _ hg1, hrate _ hg1⟩

end PW
