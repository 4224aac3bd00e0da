import Verif.Lemmas.MemWalk

/-! # Sparse barrier walks with warm-started weights: laws and averages -/

namespace PW
open Matrix MeasureTheory Set Filter Topology
open scoped ENNReal
variable {m n d : ℕ}

/-- Averages up to a horizon. -/
theorem MeanWithinBy.of_follows {w : Walk ℝ} {e : Env ℝ} [MeasurableSpace e.r.G] {μ : Measure e.r.G} {A : Matrix (Fin m) (Fin n) ℝ}
    {b : Fin m → ℝ} {x : Fin n → ℝ} {k seed : Int} {q : ℕ → e.r.G → Fin n → ℝ} (hk : w.isSparse = true → 1 ≤ k ∧ k ≤ n)
    (hfol : ∀ niter burnin thin, ∀ᵐ g ∂μ, Follows w e (callArgs A b x niter k burnin thin seed) ⟨rfl, rfl⟩ q g)
    {φ : (Fin n → ℝ) → ℝ} {c : ℝ} {L H : ℕ} {ε δ : ℝ}
    (h : ∀ B τ : ℕ, 1 ≤ τ → B + L * τ ≤ H → 1 - ENNReal.ofReal δ ≤ μ {g | |(∑ i ∈ Finset.range L, φ (q (B + (i + 1) * τ) g)) / L - c| < ε}) :
    MeanWithinBy w e μ A b x k seed φ c L H ε δ := by
  intro niter burnin thin
  constructor
  · intro B τ hτ hH
    rw [pathProb_follows (hfol niter burnin thin)]
    exact h B τ hτ hH
  · intro hg hL hn
    have hthin : 1 ≤ thin := by have := hg.thin_pos; omega
    have hb := hg.burnin_nonneg
    have hle : burnin.toNat + L * thin.toNat ≤ H := by
      have h1 : (L : Int) * thin ≤ niter - burnin := by
        rw [← hL]; exact Int.ediv_mul_le _ (by omega)
      have h2 : ((burnin.toNat + L * thin.toNat : ℕ) : Int) = burnin + L * thin := by
        push_cast
        rw [Int.toNat_of_nonneg hb, Int.toNat_of_nonneg (by omega : 0 ≤ thin)]
      omega
    refine (h burnin.toNat thin.toNat (by omega) hle).trans (measure_mono_ae ?_)
    filter_upwards [rows_follows (hfol niter burnin thin) hk hg] with g ⟨f0, rows, hall, hlen, hrow⟩ hgc
    refine ⟨f0, rows, hall, ?_⟩
    have hlen' : rows.length = L := by
      have : (rows.length : Int) = (niter - burnin) / thin := hlen
      omega
    have h4 : ∀ j (hj : j < rows.length), rows[j] = q (burnin.toNat + (j + 1) * thin.toNat) g := fun j hj => by
      rw [hrow j hj]
      show q (rowTime burnin thin j) g = _
      rw [rowTime_eq hg.burnin_nonneg (by omega)]
    have h5 : (rows.map φ).sum = ∑ i ∈ Finset.range L, φ (q (burnin.toNat + (i + 1) * thin.toNat) g) := by
      rw [← Fin.sum_univ_fun_getElem, Finset.sum_congr rfl fun i _ => congrArg φ (h4 i.1 i.2), ← hlen']
      exact (Finset.sum_range fun i => φ (q (burnin.toNat + (i + 1) * thin.toNat) g)).symm
    have h6 : rowMean φ rows = (∑ i ∈ Finset.range L, φ (q (burnin.toNat + (i + 1) * thin.toNat) g)) / L := by
      unfold rowMean
      rw [h5, hlen']
    rw [h6]
    exact hgc

/-- What the class does, in terms of the weights it keeps in its object: an object with weights `ω` is `emb ω`. -/
structure MemClass {σ : Type} (cls : SparseBarrierClass ℝ σ) (ERR : ℝ) (junk : Fin n → ℝ) (A : Matrix (Fin m) (Fin n) ℝ) (k : ℕ) (D : ℝ)
    (Gm W : (Fin n → ℝ) → (Fin n → ℝ) → Fin n → ℝ) (Box : Set (Fin n → ℝ)) (emb : (Fin n → ℝ) → σ) : Prop where
  dist : ∀ ω, cls.distTerm (emb ω) = D
  gen : ∀ x ∈ TailPos n k, ∀ ω ∈ Box, generateG cls ERR junk (emb ω) x A k = .ok (Gm x (W x ω), emb (W x ω))

section
variable {A : Matrix (Fin m) (Fin n) ℝ} (hA : IndepRows A) {k : ℕ} {D : ℝ} {x₀ : Fin n → ℝ} {Gf : (Fin n → ℝ) → Fin n → ℝ}
  (hGpos : ∀ x ∈ TailPos n k, ∀ i, 0 < Gf x i) {Gm W : (Fin n → ℝ) → (Fin n → ℝ) → Fin n → ℝ} {Box : Set (Fin n → ℝ)} {τ : ℝ}
  (h : MemNear k Gf Gm W Box τ) (hτ : τ ≤ 1 / 2)
include hA hGpos h hτ

/-- One iteration of the model. -/
theorem mem_step {σ : Type} (cls : SparseBarrierClass ℝ σ) (ERR : ℝ) (E : Eigen ℝ) (hE : E.Exact) (r : Rng ℝ) (junk : Fin n → ℝ) (hk : 1 ≤ k)
    (hkn : k ≤ n) {emb : (Fin n → ℝ) → σ} (hcls : MemClass cls ERR junk A k D Gm W Box emb) {z : (Fin n → ℝ) × (Fin n → ℝ)}
    (hz : z ∈ memGood A k x₀ Box) (g : r.G)
    (hg : memProp A D Gm W z (r.gaussian n g).1 ∈ relInterior A k x₀ ∨ memProp A D Gm W z (r.gaussian n g).1 ∉ TailNonneg n k) :
    SparseBarrier.step cls ERR E r junk A k (z.1, emb z.2, g) =
      .ok ((memNext A D Gm W k r z g).1.1, emb (memNext A D Gm W k r z g).1.2, (memNext A D Gm W k r z g).2) := by
  classical
  obtain ⟨x, ω⟩ := z
  obtain ⟨hx, hω⟩ := hz
  have hx : x ∈ relInterior A k x₀ := hx
  have hω : ω ∈ Box := hω
  have b1 := h.box _ hx.1 _ hω
  have b2 := h.box _ hx.1 _ b1
  have p1 : ∀ i, 0 < Gm x (W x ω) i := near_pos hGpos hx.1 hτ (h.near _ hx.1 _ hω)
  have p2 : ∀ i, 0 < Gm x (W x (W x ω)) i := near_pos hGpos hx.1 hτ (h.near _ hx.1 _ b1)
  have hprop : SparseBarrier.proposal E D (Gm x (W x ω)) A x (r.gaussian n g).1 = memProp A D Gm W (x, ω) (r.gaussian n g).1 :=
    sparse_proposal_real hE.sparseLLTSolve hA p1 D x _
  set y := memProp A D Gm W (x, ω) (r.gaussian n g).1 with hy
  have hgs : SparseBarrier.generateSample cls ERR E r junk A k x (emb ω) g = .ok (y, emb (W x ω), (r.gaussian n g).2) := by
    unfold SparseBarrier.generateSample
    rw [if_neg (by omega), hcls.gen x hx.1 ω hω, Out.ok_bind]
    simp only
    rw [hcls.dist, hprop]
  unfold SparseBarrier.step
  simp only
  rw [hgs, Out.ok_bind]
  simp only
  rw [inPolytopeK_real y k hk hkn, Out.ok_bind]
  by_cases hzC : y ∈ TailNonneg n k
  · have hzV : y ∈ relInterior A k x₀ := by
      rcases hg with h | h
      · exact h
      · exact absurd hzC h
    have hxz : A *ᵥ x = A *ᵥ y := hx.2.trans hzV.2.symm
    have p3 : ∀ i, 0 < Gm y (W y (W x (W x ω))) i := near_pos hGpos hzV.1 hτ (h.near _ hzV.1 _ b2)
    rw [if_pos (decide_eq_true (show ∀ i : Fin n, n - k ≤ i.val → 0 ≤ y i from hzC))]
    unfold SparseBarrier.generateProposalDensity
    rw [hcls.gen x hx.1 _ b1, Out.ok_bind, Out.ok_bind]
    simp only
    rw [hcls.gen y hzV.1 _ b2, Out.ok_bind, Out.ok_bind]
    simp only
    rw [hcls.dist, hcls.dist, sparse_logDensity_real hE.sparseLLTL hA p2 hE.sparseLU D x y hxz,
      sparse_logDensity_real hE.sparseLLTL hA p3 hE.sparseLU D y x hxz.symm]
    unfold memNext drawNext
    rw [if_pos (show ((x, ω), (r.gaussian n g).1) ∈ memK A D Gm W k from hzC)]
    unfold memIn
    simp only
    rw [← hy]
    congr 2
    unfold mhAccept memAcc
    rw [cmin_real]
    simp only [rsc_exp, rsc_lt, decide_eq_true_eq]
  · rw [if_neg (by rw [decide_eq_true_iff]; exact hzC)]
    unfold memNext drawNext
    rw [if_neg (show ((x, ω), (r.gaussian n g).1) ∉ memK A D Gm W k from hzC)]
    rfl

variable (hD : 0 < D) (hx₀ : x₀ ∈ TailPos n k) {B : Matrix (Fin n) (Fin d) ℝ} (hB : IsKernelBasis A B)
include hD hx₀ hB

theorem memNext_good (r : Rng ℝ) [MeasurableSpace r.G] (μ : Measure r.G) (hs : IdealSource r μ) {z : (Fin n → ℝ) × (Fin n → ℝ)}
    (hz : z ∈ memGood A k x₀ Box) : ∀ᵐ g ∂μ, ∀ t, ∀ p, p = (fun p : ((Fin n → ℝ) × (Fin n → ℝ)) × r.G => memNext A D Gm W k r p.1 p.2)^[t] (z, g) →
      p.1 ∈ memGood A k x₀ Box ∧ (memProp A D Gm W p.1 (r.gaussian n p.2).1 ∈ relInterior A k x₀ ∨ memProp A D Gm W p.1 (r.gaussian n p.2).1 ∉ TailNonneg n k) := by
  have := hs.prob
  have := hs.probN n
  have hgm := (hs.gaussian n).measurable
  have hz' : Measurable fun p : ((Fin n → ℝ) × (Fin n → ℝ)) × r.G => memProp A D Gm W p.1 (r.gaussian n p.2).1 :=
    (measurable_memProp h A D).comp (measurable_fst.prodMk ((measurable_fst.comp hgm).comp measurable_snd))
  have mV := measurableSet_relInterior A k x₀
  have mI : MeasurableSet (memGood A k x₀ Box) := (measurable_fst mV).inter (measurable_snd h.measBox)
  let S : Set (((Fin n → ℝ) × (Fin n → ℝ)) × r.G) := {p | p.1 ∈ memGood A k x₀ Box ∧
    (memProp A D Gm W p.1 (r.gaussian n p.2).1 ∈ relInterior A k x₀ ∨ memProp A D Gm W p.1 (r.gaussian n p.2).1 ∉ TailNonneg n k)}
  have hS : MeasurableSet S := (measurable_fst mI).inter ((hz' mV).union (hz' (measurableSet_tailNonneg n k)).compl)
  have h0 : ∀ z ∈ memGood A k x₀ Box, ∀ᵐ g ∂μ, (z, g) ∈ S := by
    intro z hz
    have h1 : ∀ᵐ p ∂((stdNormal n).prod μ), memProp A D Gm W z p.1 ∈ relInterior A k x₀ ∨ memProp A D Gm W z p.1 ∉ TailNonneg n k := by
      have : Measure.QuasiMeasurePreserving (Prod.fst : (Fin n → ℝ) × r.G → _) ((stdNormal n).prod μ) (stdNormal n) := Measure.quasiMeasurePreserving_fst
      exact this.ae (memProp_ae hA hD hx₀ hB hGpos h hτ hz)
    have h2 := (hs.gaussian n).quasiMeasurePreserving.ae h1
    filter_upwards [h2] with g hg
    exact ⟨hz, hg⟩
  have key := drives_good (measurable_memNext h A D k r μ hs) (memNext_drives h A D k r μ hs) hS (memMove_ae hA hD hx₀ hB hGpos h hτ) h0 z hz
  filter_upwards [key] with g hg t p hp
  rw [hp]; exact hg t

/-- The chain of a call. -/
theorem mem_follows {σ : Type} (cls : SparseBarrierClass ℝ σ) (ERR : ℝ) (E : Eigen ℝ) (hE : E.Exact) {kI : Int} (hkI : 1 ≤ kI ∧ kI ≤ n)
    (hkk : kI.toNat = k) {emb : (Fin n → ℝ) → σ} {ω₀ : Fin n → ℝ} (hω₀ : ω₀ ∈ Box) (o o' : σ)
    (ho : cls.setDistTerm o ((n : Int) - m) kI = .ok o')
    (e : Env ℝ) [MeasurableSpace e.r.G] (μ : Measure e.r.G) (hs : IdealSource e.r μ) (hcls : MemClass cls ERR (e.junk n) A k D Gm W Box emb)
    (hinit : ∀ x ∈ TailPos n k, generateG cls ERR (e.junk n) o' x A k = generateG cls ERR (e.junk n) (emb ω₀) x A k) (b : Fin m → ℝ) {x : Fin n → ℝ}
    (hx : x ∈ relInterior A k x₀) (niter burnin thin seed : Int) :
    ∀ᵐ g ∂μ, Follows (.sparseBarrier cls ERR E o) e (callArgs A b x niter kI burnin thin seed) ⟨rfl, rfl⟩
      (fun t g => (posAt (memNext A D Gm W k e.r) (x, ω₀) t g).1) g := by
  subst hkk
  have hgood := memNext_good hA hGpos h hτ hD hx₀ hB e.r μ hs (z := (x, ω₀)) ⟨hx, hω₀⟩
  filter_upwards [hgood] with g hg
  have hit : ∀ t, iter (SparseBarrier.step cls ERR E e.r (e.junk n) A kI.toNat) t (x, emb ω₀, g) =
      .ok (((fun p : ((Fin n → ℝ) × (Fin n → ℝ)) × e.r.G => memNext A D Gm W kI.toNat e.r p.1 p.2)^[t] ((x, ω₀), g)).1.1,
        emb ((fun p : ((Fin n → ℝ) × (Fin n → ℝ)) × e.r.G => memNext A D Gm W kI.toNat e.r p.1 p.2)^[t] ((x, ω₀), g)).1.2,
        ((fun p : ((Fin n → ℝ) × (Fin n → ℝ)) × e.r.G => memNext A D Gm W kI.toNat e.r p.1 p.2)^[t] ((x, ω₀), g)).2) := by
    intro t
    induction t with
    | zero => rfl
    | succ t ih =>
      obtain ⟨h1, h2⟩ := hg t _ rfl
      rw [iter_fst, ih, Out.ok_bind, mem_step hA hGpos h hτ cls ERR E hE e.r (e.junk n) (by omega) (by omega) hcls h1 _ h2, Function.iterate_succ_apply']
  have hfirst : SparseBarrier.step cls ERR E e.r (e.junk n) A kI.toNat (x, o', g) =
      SparseBarrier.step cls ERR E e.r (e.junk n) A kI.toNat (x, emb ω₀, g) := by
    unfold SparseBarrier.step SparseBarrier.generateSample
    simp only
    rw [hinit x hx.1]
  have hsame : ∀ t, iter (SparseBarrier.step cls ERR E e.r (e.junk n) A kI.toNat) (t + 1) (x, o', g) =
      iter (SparseBarrier.step cls ERR E e.r (e.junk n) A kI.toNat) (t + 1) (x, emb ω₀, g) := by
    intro t
    induction t with
    | zero => exact hfirst
    | succ t ih => rw [iter_fst, ih, ← iter_fst]
  have hit' : ∀ t, ∃ s, iter (SparseBarrier.step cls ERR E e.r (e.junk n) A kI.toNat) t (x, o', g) = .ok s ∧
      s.1 = (posAt (memNext A D Gm W kI.toNat e.r) (x, ω₀) t g).1 := by
    intro t
    cases t with
    | zero => exact ⟨_, rfl, rfl⟩
    | succ t => exact ⟨_, (hsame t).trans (hit (t + 1)), rfl⟩
  intro t
  obtain ⟨s, hs', hp⟩ := hit' t
  refine ⟨0, fun f _ => ⟨s, ?_, hp⟩⟩
  have h1 : (Walk.sparseBarrier cls ERR E o).chain ((e.withGen g).withFuel f) (callArgs A b x niter kI burnin thin seed) ⟨rfl, rfl⟩ t =
      ((cls.setDistTerm o ((n : Int) - m) kI).bind fun o =>
        (.ok (x, o, (e.withGen g).r.initRng seed (e.withGen g).rd) : Out ((Fin n → ℝ) × σ × e.r.G))).bind
        (iter (SparseBarrier.step cls ERR E (e.withGen g).r (e.junk n) A kI.toNat) t) := rfl
  rw [h1, ho, Out.ok_bind, Out.ok_bind, withGen_init]
  exact (congrArg (fun s => iter s t (x, o', g)) (withGen_sparseBarrierStep cls ERR E e g (e.junk n) A kI.toNat)).trans hs'

end

/-! ## Convergence -/

section
variable {A : Matrix (Fin m) (Fin n) ℝ} (hA : IndepRows A) {k : ℕ} {D : ℝ} (hD : 0 < D) {x₀ : Fin n → ℝ} (hx₀ : x₀ ∈ TailPos n k)
  {B : Matrix (Fin n) (Fin d) ℝ} (hB : IsKernelBasis A B) (hb : ∃ M, ∀ y ∈ PolyEq A (A *ᵥ x₀) k, ∀ i, |y i| ≤ M)
  {Gf : (Fin n → ℝ) → Fin n → ℝ} (hGm : ∀ i, Measurable fun x => Gf x i) (hGpos : ∀ x ∈ TailPos n k, ∀ i, 0 < Gf x i) {x : Fin n → ℝ}
  (hx : x ∈ relInterior A k x₀)
include hA hD hx₀ hB hb hGm hGpos hx

/-- The deviation of one step, as a function of the error `τ` of the metric. -/
theorem mem_dev : ∃ dev : ℝ → (Fin n → ℝ) → ℝ, (∀ τ, Bdd 2 (dev τ)) ∧ (∀ τ y, 0 ≤ dev τ y) ∧
    (∀ {τ Gm W Box}, MemNear k Gf Gm W Box τ → 0 ≤ τ → τ ≤ 1 / 2 → ∀ z ∈ memGood A k x₀ Box, ∀ f : (Fin n → ℝ) → ℝ, Bdd 1 f →
      |∫ w, f (memMove A D Gm W k z w).1 ∂((stdNormal n).prod unitLaw) -
        ∫ w, f (mhMove (TailNonneg n k) (sparseProp A D Gf) (sparseAccept A D Gf) z.1 w) ∂((stdNormal n).prod unitLaw)| ≤ dev τ z.1) ∧
    ∀ (H : ℕ) (η : ℝ), 0 < η → ∃ τ₀ > 0, τ₀ ≤ 1 / 2 ∧ ∀ τ, 0 < τ → τ < τ₀ →
      driftSum ((stdNormal n).prod unitLaw) (mhMove (TailNonneg n k) (sparseProp A D Gf) (sparseAccept A D Gf)) (dev τ) H x < η := by
  have hN : IsProbabilityMeasure (stdNormal n) := inferInstance
  obtain ⟨c, hc, hdens⟩ := gaussDensity_kernel hA hB hD
  obtain ⟨c', hmh⟩ := sparse_mhData hA hD hx₀ hB hb hGm hGpos
  refine ⟨fun τ => flowDev A D Gf k x₀ B c τ, fun τ => flowDev_bdd hGm c τ, fun τ y => flowDev_nonneg c τ y,
    fun h h0 h1 z hz f hf => memMove_near hA hD hx₀ hB hGm hGpos h h0 h1 hc hdens z hz f hf, fun H η hη => ?_⟩
  have hV : ∀ y ∈ relInterior A k x₀, ∀ᵐ w ∂((stdNormal n).prod unitLaw),
      mhMove (TailNonneg n k) (sparseProp A D Gf) (sparseAccept A D Gf) y w ∈ relInterior A k x₀ := by
    intro y hy
    have hnear : MemNear k Gf (fun y _ => Gf y) (fun _ ω => ω) univ 0 := ⟨fun i => (hGm i).comp measurable_fst, measurable_snd, MeasurableSet.univ,
      fun _ _ _ _ => trivial, fun _ _ _ _ i => by simp⟩
    have hq : Measure.QuasiMeasurePreserving (Prod.fst : (Fin n → ℝ) × ℝ → _) ((stdNormal n).prod unitLaw) (stdNormal n) :=
      Measure.quasiMeasurePreserving_fst
    have h1 := memProp_ae hA hD hx₀ hB hGpos hnear (by norm_num) (z := (y, y)) ⟨hy, trivial⟩
    filter_upwards [hq.ae h1] with w hw
    have hw : sparseProp A D Gf y w.1 ∈ relInterior A k x₀ ∨ sparseProp A D Gf y w.1 ∉ TailNonneg n k := hw
    unfold mhMove
    split_ifs with hc
    · exact hw.resolve_right fun h => h hc.1
    · exact hy
  have hlim := driftSum_tendsto (ν := (stdNormal n).prod unitLaw)
    (measurable_mhMove (measurableSet_tailNonneg n k) (measurable_sparseProp A D hGm) (measurable_sparseAccept A D hGm)) hV
    (l := 𝓝[>] (0 : ℝ)) (dev := fun τ => flowDev A D Gf k x₀ B c τ) (fun τ => flowDev_bdd hGm c τ) (fun y hy => by
      obtain ⟨u, hu⟩ := hB.span (y - x₀) (by rw [Matrix.mulVec_sub, hy.2, sub_self])
      have hu : chart x₀ B u = y := by show x₀ + B *ᵥ u = y; rw [hu]; abel
      subst hu
      exact flowDev_tendsto hA hD hx₀ hB hGm hGpos hc hdens hy.1) H x hx
  have hev := hlim.eventually (gt_mem_nhds hη)
  obtain ⟨τ₀, h0, h1⟩ := mem_nhdsGT_iff_exists_Ioo_subset.1 hev
  refine ⟨min τ₀ (1 / 2), lt_min h0 (by norm_num), min_le_right _ _, fun τ ht ht' => h1 ⟨ht, lt_of_lt_of_le ht' (min_le_left _ _)⟩⟩

/-- **Laws.** -/
theorem mem_rows {ε : ℝ} (hε : 0 < ε) : ∃ t₀ : ℕ, ∀ H : ℕ, ∃ τ₀ > 0, τ₀ ≤ 1 / 2 ∧ ∀ {τ Gm W Box}, 0 < τ → τ < τ₀ → MemNear k Gf Gm W Box τ →
    ∀ (w : Walk ℝ) (e : Env ℝ) [MeasurableSpace e.r.G] (μ : Measure e.r.G), IdealSource e.r μ → ∀ (b : Fin m → ℝ) (kI seed : Int) (ω₀ : Fin n → ℝ),
    ω₀ ∈ Box → (w.isSparse = true → 1 ≤ kI ∧ kI ≤ n) →
    (∀ niter burnin thin : Int, ∀ᵐ g ∂μ, Follows w e (callArgs A b x niter kI burnin thin seed) ⟨rfl, rfl⟩
      (fun t g => (posAt (memNext A D Gm W k e.r) (x, ω₀) t g).1) g) →
    ∀ t, t₀ ≤ t → t ≤ H → LawWithin w e μ A b x kI seed (uniformOnEq x₀ B k) t ε := by
  have hN : IsProbabilityMeasure (stdNormal n) := inferInstance
  obtain ⟨c', hmh⟩ := sparse_mhData hA hD hx₀ hB hb hGm hGpos
  have := hmh.prob
  obtain ⟨dev, d1, d2, d3, d4⟩ := mem_dev hA hD hx₀ hB hb hGm hGpos hx
  obtain ⟨t₀, ht₀⟩ := hmh.converge hx (ε := ε / 2) (by positivity)
  refine ⟨t₀, fun H => ?_⟩
  obtain ⟨τ₀, hτ₀, hτ2, hdr⟩ := d4 H (ε / 2) (by positivity)
  refine ⟨τ₀, hτ₀, hτ2, fun {τ Gm W Box} hτ hττ h w e _ μ hs b kI seed ω₀ hω₀ hk hfol t ht htH =>
    LawWithin.of_follows (q := fun t g => (posAt (memNext A D Gm W k e.r) (x, ω₀) t g).1) hk hfol fun T hT => ?_⟩
  have := hs.prob
  have mT := measurable_mhMove (measurableSet_tailNonneg n k) (measurable_sparseProp A D hGm) (measurable_sparseAccept A D hGm)
  have bT : Bdd 1 (T.indicator (1 : (Fin n → ℝ) → ℝ)) := ⟨measurable_one.indicator hT, fun y => by
    by_cases hy : y ∈ T
    · rw [indicator_of_mem hy]; simp
    · rw [indicator_of_notMem hy]; simp⟩
  rw [uniformOnEq_eq_mhTarget, ← hmh.prob_share T]
  have mf := measurable_memNext h A D k e.r μ hs
  have h1 := markov_pos mf (measurable_memMove h A D k) (memNext_drives h A D k e.r μ hs) (bT.comp (measurable_fst (α := Fin n → ℝ) (β := Fin n → ℝ))) t (x, ω₀)
  have h2 := ht₀ t ht _ bT
  have h3 := near_law mT (measurable_memMove h A D k) measurable_fst (memMove_ae hA hD hx₀ hB hGpos h (by linarith)) (d1 τ) (d2 τ)
    (d3 h hτ.le (by linarith)) bT t (z := (x, ω₀)) ⟨hx, hω₀⟩
  have h4 : driftSum ((stdNormal n).prod unitLaw) (mhMove (TailNonneg n k) (sparseProp A D Gf) (sparseAccept A D Gf)) (dev τ) t x < ε / 2 :=
    lt_of_le_of_lt (driftSum_mono mT (d1 τ) (d2 τ) htH x) (hdr τ hτ hττ)
  rw [integral_indicator_one hT] at h2
  have h5 : ∫ g, T.indicator (1 : (Fin n → ℝ) → ℝ) (posAt (memNext A D Gm W k e.r) (x, ω₀) t g).1 ∂μ =
      (μ {g | (posAt (memNext A D Gm W k e.r) (x, ω₀) t g).1 ∈ T}).toReal :=
    integral_indicator_one (μ := μ) ((measurable_fst.comp (measurable_posAt mf (x, ω₀) t)) hT)
  rw [← h5]
  have h6 : ∫ g, T.indicator (1 : (Fin n → ℝ) → ℝ) (posAt (memNext A D Gm W k e.r) (x, ω₀) t g).1 ∂μ = _ := h1
  rw [h6]
  have h7 := abs_le.1 h2
  have h8 := abs_le.1 (h3.trans h4.le)
  have e1 : (mhProb (TailNonneg n k) volume (chart x₀ B)).real T = ((mhProb (TailNonneg n k) volume (chart x₀ B)) T).toReal := rfl
  rw [e1] at h7
  rw [abs_le]
  constructor
  · linarith [h7.1, h8.1]
  · linarith [h7.2, h8.2]

/-- **Averages.** -/
theorem mem_averages {φ : (Fin n → ℝ) → ℝ} (hφ : Measurable φ) {M : ℝ} (hM : 0 < M) (hφM : ∀ y ∈ relInterior A k x₀, |φ y| ≤ M) {ε δ : ℝ}
    (hε : 0 < ε) (hδ : 0 < δ) : ∃ L₀ : ℕ, ∀ H : ℕ, ∃ τ₀ > 0, τ₀ ≤ 1 / 2 ∧ ∀ {τ Gm W Box}, 0 < τ → τ < τ₀ → MemNear k Gf Gm W Box τ →
    ∀ (w : Walk ℝ) (e : Env ℝ) [MeasurableSpace e.r.G] (μ : Measure e.r.G), IdealSource e.r μ → ∀ (b : Fin m → ℝ) (kI seed : Int) (ω₀ : Fin n → ℝ),
    ω₀ ∈ Box → (w.isSparse = true → 1 ≤ kI ∧ kI ≤ n) →
    (∀ niter burnin thin : Int, ∀ᵐ g ∂μ, Follows w e (callArgs A b x niter kI burnin thin seed) ⟨rfl, rfl⟩
      (fun t g => (posAt (memNext A D Gm W k e.r) (x, ω₀) t g).1) g) →
    ∀ L ≥ L₀, MeanWithinBy w e μ A b x kI seed φ (average (uniformOnEq x₀ B k) φ) L H ε δ := by
  have hN : IsProbabilityMeasure (stdNormal n) := inferInstance
  obtain ⟨c', hmh⟩ := sparse_mhData hA hD hx₀ hB hb hGm hGpos
  have := hmh.prob
  obtain ⟨dev, d1, d2, d3, d4⟩ := mem_dev hA hD hx₀ hB hb hGm hGpos hx
  have mT := measurable_mhMove (measurableSet_tailNonneg n k) (measurable_sparseProp A D hGm) (measurable_sparseAccept A D hGm)
  have bφ : Bdd 1 (clampTo M φ) := clampTo_bdd M hφ
  have hη : 0 < δ * ε ^ 2 / M ^ 2 / 2 := by positivity
  obtain ⟨L₀, hL₀, hmse⟩ := mean_square mT (x := x) (fun ε hε => hmh.converge hx hε) bφ (hmh.l1 bφ) hη
  refine ⟨L₀, fun H => ?_⟩
  obtain ⟨τ₀, hτ₀, hτ2, hdr⟩ := d4 H (δ * ε ^ 2 / M ^ 2 / 8) (by positivity)
  refine ⟨τ₀, hτ₀, hτ2, fun {τ Gm W Box} hτ hττ h w e _ μ hs b kI seed ω₀ hω₀ hk hfol L hL =>
    MeanWithinBy.of_follows (q := fun t g => (posAt (memNext A D Gm W k e.r) (x, ω₀) t g).1) hk hfol fun Bn θ hθ hH => ?_⟩
  have := hs.prob
  have mf := measurable_memNext h A D k e.r μ hs
  have hc : ∫ y, clampTo M φ y ∂(mhProb (TailNonneg n k) volume (chart x₀ B)) = average (uniformOnEq x₀ B k) φ / M := by
    rw [uniformOnEq_eq_mhTarget, ← hmh.prob_average, ← integral_div]
    exact integral_congr_ae (hmh.prob_ae.mono fun y hy => clampTo_eq hM (hφM y hy))
  have hc1 : |average (uniformOnEq x₀ B k) φ / M| ≤ 1 := by
    rw [← hc]
    have := norm_integral_le_of_norm_le_const (μ := mhProb (TailNonneg n k) volume (chart x₀ B)) (f := clampTo M φ) (C := 1) (ae_of_all _ fun w => bφ.le _)
    rw [Real.norm_eq_abs] at this
    simpa using this
  have hK : ∀ᵐ g ∂μ, ∀ t, (posAt (memNext A D Gm W k e.r) (x, ω₀) t g).1 ∈ relInterior A k x₀ := by
    have := memNext_good hA hGpos h (by linarith) hD hx₀ hB e.r μ hs (z := (x, ω₀)) ⟨hx, hω₀⟩
    filter_upwards [this] with g hg t using (hg t _ rfl).1.1
  have ht : ∀ i, Bn + θ + i * θ = Bn + (i + 1) * θ := fun i => by ring
  have h1 := hmse μ (mhNext e.r n (TailNonneg n k) (sparseProp A D Gf) (sparseAccept A D Gf))
    (measurable_mhNext e.r n (hs.gaussian n).measurable hs.uniform.measurable (measurableSet_tailNonneg n k) (measurable_sparseProp A D hGm)
      (measurable_sparseAccept A D hGm)) (hmh.drives hs) L hL (Bn + θ) θ hθ
  rw [hc] at h1
  simp only [ht] at h1
  have h2 := near_mse mT (measurable_memMove h A D k) measurable_fst (memMove_ae hA hD hx₀ hB hGpos h (by linarith)) (d1 τ) (d2 τ)
    (d3 h hτ.le (by linarith))
    (measurable_mhNext e.r n (hs.gaussian n).measurable hs.uniform.measurable (measurableSet_tailNonneg n k) (measurable_sparseProp A D hGm)
      (measurable_sparseAccept A D hGm)) (hmh.drives hs) mf (memNext_drives h A D k e.r μ hs) bφ hc1 (hL₀.trans hL) (H := H)
    (fun i => Bn + (i + 1) * θ) (fun i j hij => by
      have := Nat.mul_le_mul_right θ (Nat.add_le_add_right hij 1)
      show Bn + (i + 1) * θ ≤ Bn + (j + 1) * θ
      omega) (fun i hi => by
      have := Nat.mul_le_mul_right θ (show i + 1 ≤ L from hi)
      show Bn + (i + 1) * θ ≤ H
      omega) (z := (x, ω₀)) ⟨hx, hω₀⟩
  have h3 := hdr τ hτ hττ
  have h4 : ∫ g, ((∑ i ∈ Finset.range L, clampTo M φ (posAt (memNext A D Gm W k e.r) (x, ω₀) (Bn + (i + 1) * θ) g).1) / L -
      average (uniformOnEq x₀ B k) φ / M) ^ 2 ∂μ ≤ δ * ε ^ 2 / M ^ 2 := by
    refine h2.trans ?_
    linarith
  have h5 := markov_close (q := fun t g => (posAt (memNext A D Gm W k e.r) (x, ω₀) t g).1)
    (fun t => measurable_fst.comp (measurable_posAt mf (x, ω₀) t)) hK (hL₀.trans hL) (fun i => Bn + (i + 1) * θ) (φ := φ) bφ.meas bφ.le
    (c := average (uniformOnEq x₀ B k) φ) hM
    (fun y hy => by rw [clampTo_eq hM (hφM y hy), sub_div, sub_add_cancel]) hε h4
  have h6 : M ^ 2 / ε ^ 2 * (δ * ε ^ 2 / M ^ 2) = δ := by field_simp
  rw [h6] at h5
  exact h5

end

end PW
