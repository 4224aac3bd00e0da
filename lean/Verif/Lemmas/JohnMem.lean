import Verif.Lemmas.MemRows
import Verif.Props.SparseJohnConverges

/-! # The weights of `SparseJohnWalk` as a function of the point and of the weights of the previous evaluation -/

namespace PW
open Matrix MeasureTheory Set Filter Topology
variable {m n d : ℕ}

open Classical in
/-- The fixed point loop: at most `N` updates. -/
noncomputable def fixLoop (Φ : (Fin n → ℝ) → Fin n → ℝ) (LIM : ℝ) : ℕ → (Fin n → ℝ) → Fin n → ℝ
  | 0, w => w
  | N + 1, w => if ∀ i, |w i - Φ w i| < LIM then w else fixLoop Φ LIM N (Φ w)

theorem johnLoop_fixLoop {next Φ : (Fin n → ℝ) → Fin n → ℝ} {I : (Fin n → ℝ) → Prop} (hnext : ∀ w, I w → next w = Φ w) (hI : ∀ w, I w → I (Φ w))
    (hn : 0 < n) {LIM : ℝ} (N : ℕ) (v w : Fin n → ℝ) (hw : I w) :
    ∃ c, johnLoop next (fun nw w i => Scalar.abs (w i - nw i)) LIM (N + 1) v w = .ok (fixLoop Φ LIM N w, c) := by
  classical
  have hcrit : ∀ w : Fin n → ℝ, I w → ∃ c, maxCoeff (fun i => (Scalar.abs (w i - next w i) : ℝ)) = .ok c ∧ (c < LIM ↔ ∀ i, |w i - Φ w i| < LIM) := by
    intro w hw
    obtain ⟨c, hc, hle, i, hi⟩ := maxCoeff_real (fun i => (Scalar.abs (w i - next w i) : ℝ)) hn
    refine ⟨c, hc, ?_⟩
    rw [hnext w hw] at hle hi
    constructor
    · intro h j
      exact lt_of_le_of_lt (by simpa using hle j) h
    · intro h
      rw [← hi]
      simpa using h i
  induction N generalizing v w with
  | zero =>
    obtain ⟨c, hc, -⟩ := hcrit w hw
    simp only [johnLoop, fixLoop]
    rw [hc, Out.ok_bind]
    split
    · exact ⟨_, rfl⟩
    · exact ⟨_, rfl⟩
  | succ N ih =>
    obtain ⟨c, hc, hiff⟩ := hcrit w hw
    rw [johnLoop, fixLoop]
    rw [hc, Out.ok_bind, rsc_lt]
    simp only [decide_eq_true_eq]
    rw [hnext w hw]
    by_cases h : c < LIM
    · rw [if_pos h, if_pos (hiff.1 h)]
      exact ⟨_, rfl⟩
    · rw [if_neg h, if_neg fun h' => h (hiff.2 h')]
      exact ih _ _ (hI w hw)

theorem fixLoop_inv {Φ : (Fin n → ℝ) → Fin n → ℝ} {I : (Fin n → ℝ) → Prop} (hI : ∀ w, I w → I (Φ w)) {LIM : ℝ} (N : ℕ) (w : Fin n → ℝ) (hw : I w) :
    I (fixLoop Φ LIM N w) := by
  classical
  induction N generalizing w with
  | zero => exact hw
  | succ N ih =>
    rw [fixLoop]
    split
    · exact hw
    · exact ih _ (hI w hw)

theorem measurable_fixLoop {X : Type} [MeasurableSpace X] {Φ : X → (Fin n → ℝ) → Fin n → ℝ}
    (hΦ : ∀ f : X → Fin n → ℝ, Measurable f → Measurable fun p => Φ p (f p)) (LIM : ℝ) (N : ℕ) (f : X → Fin n → ℝ) (hf : Measurable f) :
    Measurable fun p => fixLoop (Φ p) LIM N (f p) := by
  classical
  induction N generalizing f with
  | zero => exact hf
  | succ N ih =>
    have h1 := hΦ f hf
    simp only [fixLoop]
    refine Measurable.ite ?_ hf (ih _ h1)
    rw [ofPred_forall]
    exact MeasurableSet.iInter fun i => measurableSet_lt (((measurable_pi_apply i).comp hf).sub ((measurable_pi_apply i).comp h1)).abs measurable_const

theorem measurable_sparseJohnMap {X : Type} [MeasurableSpace X] (α β ERR : ℝ) (A : Matrix (Fin m) (Fin n) ℝ) (k : ℕ) {x f : X → Fin n → ℝ}
    (hx : Measurable x) (hf : Measurable f) : Measurable fun p => sparseJohnMap α β ERR A k (x p) (f p) := by
  have hxi : ∀ i, Measurable fun p => x p i := fun i => (measurable_pi_apply i).comp hx
  have hfi : ∀ i, Measurable fun p => f p i := fun i => (measurable_pi_apply i).comp hf
  refine measurable_pi_lambda _ fun i => ?_
  unfold sparseJohnMap
  by_cases h : n - k ≤ i.val
  · simp only [h, if_true]
    have hc : Measurable fun p => colev (colScaled A (slackScale ERR k (fun i => f p i ^ (α / 2)) (x p))) i := by
      refine measurable_colev A (fun j => ?_) i
      unfold slackScale
      by_cases h : n - k ≤ j.val
      · simp only [h, if_true]
        exact ((hfi j).pow_const _).div (hxi j)
      · simp only [h, if_false]; exact measurable_const
    exact (((hfi i).add hc).add measurable_const).div_const 2
  · simp only [h, if_false]; exact measurable_const

theorem measurable_zeroHead (k : ℕ) : Measurable fun w : Fin n → ℝ => zeroHead w k := by
  refine measurable_pi_lambda _ fun i => ?_
  unfold zeroHead
  by_cases h : isTail k i = true
  · simp only [h, if_true]; exact measurable_pi_apply i
  · simp only [h]; exact measurable_const

section
variable (ERR LIM : ℝ) (N : ℕ) (A : Matrix (Fin m) (Fin n) ℝ) (k : ℕ)

/-- The update. -/
noncomputable def johnStep (x w : Fin n → ℝ) : Fin n → ℝ :=
  sparseJohnMap (sparseJohnExponent ((n : ℝ) - m) k) (((n : ℝ) - m) / (2 * k)) ERR A k x w

/-- The weights at `x` when the last ones were `ω`. -/
noncomputable def johnW (x ω : Fin n → ℝ) : Fin n → ℝ := fixLoop (johnStep ERR A k x) LIM N (zeroHead ω k)

/-- The exact weights, as a limit of updates. -/
noncomputable def johnExact (x : Fin n → ℝ) : Fin n → ℝ :=
  fun i => limsup (fun t => (johnStep ERR A k x)^[t] (zeroHead (fun _ => 1) k) i) atTop

/-- Where the stored weights stay. -/
def johnBox (m n k : ℕ) : Set (Fin n → ℝ) :=
  {ω | (∀ i, 0 ≤ ω i) ∧ ∀ i : Fin n, n - k ≤ i.val → ((n : ℝ) - m) / (2 * k) ≤ ω i ∧ ω i ≤ 1 + ((n : ℝ) - m) / (2 * k)}

theorem measurable_johnW : Measurable fun p : (Fin n → ℝ) × (Fin n → ℝ) => johnW ERR LIM N A k p.1 p.2 := by
  unfold johnW
  exact measurable_fixLoop (Φ := fun p : (Fin n → ℝ) × (Fin n → ℝ) => johnStep ERR A k p.1)
    (fun f hf => measurable_sparseJohnMap _ _ ERR A k measurable_fst hf) LIM N _ ((measurable_zeroHead k).comp measurable_snd)

theorem measurable_johnExact (i : Fin n) : Measurable fun x => johnExact ERR A k x i := by
  unfold johnExact
  refine Measurable.limsup fun t => ?_
  have h : Measurable fun x => (johnStep ERR A k x)^[t] (zeroHead (fun _ => 1) k) := by
    induction t with
    | zero => exact measurable_const
    | succ t ih =>
      simp only [Function.iterate_succ_apply']
      exact measurable_sparseJohnMap _ _ ERR A k measurable_id ih
  exact (measurable_pi_apply i).comp h

theorem measurableSet_johnBox (m n k : ℕ) : MeasurableSet (johnBox m n k) := by
  have h1 : MeasurableSet {ω : Fin n → ℝ | ∀ i, 0 ≤ ω i} := by
    rw [ofPred_forall]
    exact MeasurableSet.iInter fun i => measurableSet_le measurable_const (measurable_pi_apply i)
  have h2 : MeasurableSet {ω : Fin n → ℝ | ∀ i : Fin n, n - k ≤ i.val → ((n : ℝ) - m) / (2 * k) ≤ ω i ∧ ω i ≤ 1 + ((n : ℝ) - m) / (2 * k)} := by
    rw [ofPred_forall]
    refine MeasurableSet.iInter fun i => ?_
    by_cases h : n - k ≤ i.val
    · simp only [h, forall_const]
      exact (measurableSet_le measurable_const (measurable_pi_apply i)).inter (measurableSet_le (measurable_pi_apply i) measurable_const)
    · simp only [h, false_imp_iff, ofPred_true, MeasurableSet.univ]
  exact h1.inter h2

end

section
variable {ERR : ℝ} (hR : ERR ≠ 0) {A : Matrix (Fin m) (Fin n) ℝ} (hA : IndepRows A) {k : ℕ} (hkn : k ≤ n) (hmn : m < n) (hd : n - m ≤ k)
include hmn hd

theorem john_consts : (0 : ℝ) < (n : ℝ) - m ∧ (n : ℝ) - m ≤ k ∧ (0 : ℝ) < k ∧ 0 < ((n : ℝ) - m) / (2 * k) ∧ ((n : ℝ) - m) / (2 * k) ≤ 1 / 2 := by
  have hmn' : (0 : ℝ) < (n : ℝ) - m := by rw [sub_pos]; exact_mod_cast hmn
  have hdk : (n : ℝ) - m ≤ k := by
    have : ((n - m : ℕ) : ℝ) ≤ k := by exact_mod_cast hd
    rwa [Nat.cast_sub hmn.le] at this
  have hk0 : (0 : ℝ) < k := by linarith
  refine ⟨hmn', hdk, hk0, by positivity, ?_⟩
  rw [div_le_div_iff₀ (by positivity) (by norm_num)]; linarith

theorem one_mem_johnBox : (fun _ => 1 : Fin n → ℝ) ∈ johnBox m n k := by
  obtain ⟨-, -, -, h1, h2⟩ := john_consts (n := n) hmn hd
  exact ⟨fun _ => zero_le_one, fun i _ => ⟨by linarith, by linarith⟩⟩

include hR hA hkn

omit hkn in
theorem johnExact_spec {x : Fin n → ℝ} (hx : x ∈ TailPos n k) :
    IsSparseJohnWeights (sparseJohnExponent ((n : ℝ) - m) k) (((n : ℝ) - m) / (2 * k)) ERR A k x (johnExact ERR A k x) := by
  obtain ⟨hmn', hdk, hk0, hβ, hβ2⟩ := john_consts (n := n) hmn hd
  obtain ⟨v, hv, -⟩ := C73_sparse_exists ERR hR x A hA k hmn hd hx
  set β : ℝ := ((n : ℝ) - m) / (2 * k) with hβdef
  have hα := sparseJohnExponent_range hmn' hdk
  set α := sparseJohnExponent ((n : ℝ) - m) k with hαdef
  obtain ⟨L, hP⟩ := exists_tailPotential hA hR hx hα.1 hα.2.le
  obtain ⟨v', hve, hvp, hvf⟩ := isSparseJohnWeights_iff.1 hv
  have hκ : 0 < 1 - α := by linarith [hα.2]
  have hw0 : WBox β (3 / 2) (fun _ : TailIx n k => (1 : ℝ)) := fun i => ⟨by linarith, by linarith⟩
  have hgap := gap_one hP hβ (by linarith) hvp hvf
  have hq := rate_nonneg hβ hκ hP.kle hβ le_rfl (show 1 + β ≤ 3 / 2 by linarith)
  have hlim : Tendsto (fun t : ℕ => 4 * (3 / 2) / (1 - α) * ((1 - (1 - α) * β ^ 2 / (16 * (3 / 2) ^ 2)) ^ t * (Fintype.card (TailIx n k) : ℝ))) atTop (𝓝 0) := by
    have h1 : Tendsto (fun t : ℕ => (1 - (1 - α) * β ^ 2 / (16 * (3 / 2) ^ 2)) ^ t) atTop (𝓝 0) :=
      tendsto_pow_atTop_nhds_zero_of_lt_one hq.1 (by
        have : 0 < (1 - α) * β ^ 2 / (16 * (3 / 2) ^ 2) := by positivity
        linarith)
    simpa using (h1.mul_const (Fintype.card (TailIx n k) : ℝ)).const_mul (4 * (3 / 2) / (1 - α))
  have hz : zeroHead (fun _ => (1 : ℝ)) k = padTail (n := n) k (fun _ => 1) := zeroHead_pad _
  have hcoord : ∀ i : Fin n, Tendsto (fun t => (johnStep ERR A k x)^[t] (zeroHead (fun _ => 1) k) i) atTop (𝓝 (v i)) := by
    intro i
    have hit : ∀ t, (johnStep ERR A k x)^[t] (zeroHead (fun _ => 1) k) = padTail k ((avgMap (tailScore α ERR A k x) β)^[t] fun _ => 1) := fun t => by
      rw [hz]; exact sparseJohnMap_iterate _ t
    by_cases h : n - k ≤ i.val
    · have h1 : ∀ t, ((johnStep ERR A k x)^[t] (zeroHead (fun _ => 1) k) i - v i) ^ 2 ≤
          4 * (3 / 2) / (1 - α) * ((1 - (1 - α) * β ^ 2 / (16 * (3 / 2) ^ 2)) ^ t * (Fintype.card (TailIx n k) : ℝ)) := by
        intro t
        have h2 := (iterate_rate hP hβ hκ hβ le_rfl (B := 3 / 2) (by linarith) hvp hvf hw0 hgap t).1
        have h3 := padTail_tail ((avgMap (tailScore α ERR A k x) β)^[t] fun _ => 1) ⟨i, h⟩
        have h4 := padTail_tail v' ⟨i, h⟩
        simp only at h3 h4
        rw [hit t, hve, h3, h4]
        exact (Finset.single_le_sum (f := fun i => ((avgMap (tailScore α ERR A k x) β)^[t] (fun _ => 1) i - v' i) ^ 2) (fun i _ => sq_nonneg _)
          (Finset.mem_univ (⟨i, h⟩ : TailIx n k))).trans h2
      have h5 : Tendsto (fun t => ((johnStep ERR A k x)^[t] (zeroHead (fun _ => 1) k) i - v i) ^ 2) atTop (𝓝 0) :=
        squeeze_zero (fun _ => sq_nonneg _) h1 hlim
      have h6 := h5.sqrt
      rw [Real.sqrt_zero] at h6
      simp only [Real.sqrt_sq_eq_abs] at h6
      have h7 := (tendsto_zero_iff_abs_tendsto_zero _).2 h6
      have := h7.add_const (v i)
      simpa using this
    · have h1 : ∀ t, (johnStep ERR A k x)^[t] (zeroHead (fun _ => 1) k) i = v i := fun t => by
        rw [hit t, hve]
        unfold padTail
        rw [dif_neg h, dif_neg h]
      simp only [h1]
      exact tendsto_const_nhds
  have : johnExact ERR A k x = v := by
    funext i
    exact (hcoord i).limsup_eq
  rw [this]; exact hv

omit hd hkn hmn in
theorem johnExact_ge {x w : Fin n → ℝ} (hx : x ∈ TailPos n k) {α β : ℝ} (h : IsSparseJohnWeights α β ERR A k x w) (i : Fin n)
    (hi : n - k ≤ i.val) : β ≤ w i := by
  have hI := colScaled_indep hA (slackScale_ne hR (w := fun i => w i ^ (α / 2)) (fun i hi => (Real.rpow_pos_of_pos (h.pos i hi) _).ne') hx)
  rw [h.eq i hi]
  linarith [colev_nonneg hI i]

/-- One evaluation of the weights. -/
theorem johnW_eval (E : Eigen ℝ) (hE : E.LdltExact) (R : ℝ) {LIM : ℝ} (hL : 0 < LIM) {M : Int} (hM : 3 * (k : ℝ) ^ 2 / ((n : ℝ) - m) < M * LIM ^ 2)
    (junk : Fin n → ℝ) {x ω : Fin n → ℝ} (hx : x ∈ TailPos n k) (D : ℝ) (hω : ω ∈ johnBox m n k) :
    (sparseJohnClass E ERR R LIM M).generateWeight junk ⟨D, ⟨n, ω⟩⟩ x A k =
      .ok (⟨n, johnW ERR LIM (M.toNat - 1) A k x ω⟩, ⟨D, ⟨n, johnW ERR LIM (M.toNat - 1) A k x ω⟩⟩) ∧
    johnW ERR LIM (M.toNat - 1) A k x ω ∈ johnBox m n k ∧
    distSq (johnW ERR LIM (M.toNat - 1) A k x ω) (johnExact ERR A k x) ≤
      k * (24 * Real.logb 2 (2 * k / ((n : ℝ) - m)) * (k / ((n : ℝ) - m)) * LIM) ^ 2 := by
  obtain ⟨hmn', hdk, hk0, hβ, hβ2⟩ := john_consts (n := n) hmn hd
  have hn : 0 < n := by omega
  have hMp : 1 ≤ M := by
    by_contra hcon
    have h1 : (M : ℝ) ≤ 0 := by
      have : M ≤ 0 := by omega
      exact_mod_cast this
    have h2 : (M : ℝ) * LIM ^ 2 ≤ 0 := mul_nonpos_of_nonpos_of_nonneg h1 (sq_nonneg _)
    have h3 : 0 ≤ 3 * (k : ℝ) ^ 2 / ((n : ℝ) - m) := by positivity
    linarith
  have hst : StartsFrom (⟨n, ω⟩ : DVec ℝ) n ω := .stored (w := ⟨n, ω⟩) hn rfl (by
    show ω ⟨0, hn⟩ ≠ -1
    have := hω.1 ⟨0, hn⟩
    intro h; linarith)
  have hss : SparseJohnStart (⟨n, ω⟩ : DVec ℝ) m n k := by
    intro w' hw' i hi
    have h1 := warmStart_iff.2 hst
    rw [warmStart_iff.2 hw'] at h1
    rw [Out.ok.inj h1]
    exact hω.2 i hi
  obtain ⟨w, t, c, h1, h2, -, -, -, h5, -, h7, h8, h9⟩ := C73_sparse_any E hE ERR R LIM hR hL M hMp ⟨D, ⟨n, ω⟩⟩ ω hst k hss hkn junk x A hA hmn hd hx _
    (johnExact_spec hR hA hmn hd hx)
  have hw : w = johnW ERR LIM (M.toNat - 1) A k x ω := by
    obtain ⟨c', hc'⟩ := johnLoop_fixLoop (I := fun w => (∀ i : Fin n, i.val < n - k → w i = 0) ∧ w ∈ TailPos n k)
      (next := sparseJohnNext E ERR junk x A k) (Φ := johnStep ERR A k x) (fun w hw => sparseJohnNext_tail hE hR junk hA hx hw.1 hw.2)
      (fun w hw => by
        have hI := colScaled_indep hA (slackScale_ne hR (w := fun i => w i ^ (sparseJohnExponent ((n : ℝ) - m) k / 2))
          (fun i hi => (Real.rpow_pos_of_pos (hw.2 i hi) _).ne') hx)
        constructor
        · intro i hi
          unfold johnStep sparseJohnMap
          rw [if_neg (by omega)]
        · intro i hi
          unfold johnStep sparseJohnMap
          rw [if_pos hi]
          have := colev_nonneg hI i
          have := hw.2 i hi
          linarith) hn (LIM := LIM) (M.toNat - 1) (zeroHead ω k) (zeroHead ω k) ⟨fun i hi => by
            unfold zeroHead; rw [if_neg (by rw [isTail_iff]; omega)], fun i hi => by
            unfold zeroHead; rw [if_pos ((isTail_iff i).2 hi)]; exact hβ.trans_le (hω.2 i hi).1⟩
    have h3 : sparseJohnWeightConv E ERR LIM M ⟨n, ω⟩ junk x A k = .ok (johnW ERR LIM (M.toNat - 1) A k x ω, c') := by
      unfold sparseJohnWeightConv
      rw [warmStart_iff.2 hst, Out.ok_bind]
      have : M.toNat = M.toNat - 1 + 1 := by omega
      rw [this]
      exact hc'
    rw [h3] at h2
    exact (Prod.mk.inj (Out.ok.inj h2)).1.symm
  rw [hw] at h1 h7 h8 h9
  refine ⟨h1, ⟨?_, h9 _ h8⟩, h7 (h5 hM)⟩
  intro i
  by_cases hi : n - k ≤ i.val
  · exact hβ.le.trans (h9 _ h8 i hi).1
  · refine (fixLoop_inv (I := fun w => w i = 0) (Φ := johnStep ERR A k x) (fun w _ => ?_) (LIM := LIM) (M.toNat - 1) (zeroHead ω k) ?_).ge
    · unfold johnStep sparseJohnMap
      rw [if_neg hi]
    · unfold zeroHead; rw [if_neg (by rw [isTail_iff]; exact hi)]

end

end PW
