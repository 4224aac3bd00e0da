import Verif.Lemmas.Chart
import Verif.Props.FRExact
import Verif.Props.FullRunCompletes
import Verif.Props.SparseBallConverges

/-!
# From the walk inside a driver to the rows the driver returns
-/

namespace PW
open MeasureTheory Matrix Set Classical
open scoped ENNReal

section Transfer
variable {n : ℕ} {run : Driver n}

theorem driverRowProb_eq (I : run.Inner) (hI : Function.Injective I.L) (w : Walk ℝ) (e : Env ℝ) [MeasurableSpace e.r.G] (μ : Measure e.r.G)
    (niter burnin thin seed : Int) (j : ℕ) (T : Set (Fin n → ℝ)) :
    driverRowProb (fun env => run w env niter burnin thin seed) e μ j T =
      rowProb w e μ (callArgs I.M I.v I.x niter I.k burnin thin seed) j (I.L ⁻¹' T) := by
  unfold driverRowProb rowProb
  congr 1
  ext g
  constructor
  · rintro ⟨f0, rows, h, hj, hT⟩
    have h0 := h f0 le_rfl
    simp only [I.runs] at h0
    obtain ⟨rows', h1, h2⟩ := Out.map_eq_ok.1 h0
    refine ⟨f0, rows', fun f hf => ?_, ?_⟩
    · have h3 := h f hf
      simp only [I.runs] at h3
      obtain ⟨rows'', h4, h5⟩ := Out.map_eq_ok.1 h3
      rw [h4, List.map_injective_iff.2 hI (h5.trans h2.symm)]
    · subst h2
      refine ⟨by simpa using hj, ?_⟩
      simpa using hT
  · rintro ⟨f0, rows, h, hj, hT⟩
    refine ⟨f0, rows.map I.L, fun f hf => ?_, by simpa using hj, by simpa using hT⟩
    simp only [I.runs]
    rw [h f hf, Out.map_ok]

theorem driverCloseProb_eq (I : run.Inner) (hI : Function.Injective I.L) (w : Walk ℝ) (e : Env ℝ) [MeasurableSpace e.r.G] (μ : Measure e.r.G)
    (niter burnin thin seed : Int) (φ : (Fin n → ℝ) → ℝ) (a ε : ℝ) :
    driverCloseProb (fun env => run w env niter burnin thin seed) e μ φ a ε =
      closeProb w e μ (callArgs I.M I.v I.x niter I.k burnin thin seed) (φ ∘ I.L) a ε := by
  have hm : ∀ rows : List (Fin I.c → ℝ), rowMean φ (rows.map I.L) = rowMean (φ ∘ I.L) rows := by
    intro rows
    unfold rowMean
    rw [List.map_map, List.length_map]
  unfold driverCloseProb closeProb
  congr 1
  ext g
  constructor
  · rintro ⟨f0, rows, h, hT⟩
    have h0 := h f0 le_rfl
    simp only [I.runs] at h0
    obtain ⟨rows', h1, h2⟩ := Out.map_eq_ok.1 h0
    refine ⟨f0, rows', fun f hf => ?_, ?_⟩
    · have h3 := h f hf
      simp only [I.runs] at h3
      obtain ⟨rows'', h4, h5⟩ := Out.map_eq_ok.1 h3
      rw [h4, List.map_injective_iff.2 hI (h5.trans h2.symm)]
    · subst h2
      rw [hm] at hT
      exact hT
  · rintro ⟨f0, rows, h, hT⟩
    refine ⟨f0, rows.map I.L, fun f hf => ?_, by rw [hm]; exact hT⟩
    simp only [I.runs]
    rw [h f hf, Out.map_ok]

theorem Driver.lawWithin (I : run.Inner) (hI : Function.Injective I.L) (mI : Measurable I.L) {π : Measure (Fin n → ℝ)} {π' : Measure (Fin I.c → ℝ)}
    {κ : ℝ≥0∞} (h0 : κ ≠ 0) (h1 : κ ≠ ⊤) (hπ : π = κ • π'.map I.L) {w : Walk ℝ} {e : Env ℝ} [MeasurableSpace e.r.G] {μ : Measure e.r.G} {seed : Int}
    {t : ℕ} {ε : ℝ} (h : PW.LawWithin w e μ I.M I.v I.x I.k seed π' t ε) : Driver.LawWithin I w e μ seed π t ε := by
  intro niter burnin thin T hT
  obtain ⟨h2, h3⟩ := h niter burnin thin (I.L ⁻¹' T) (mI hT)
  have hs : share π T = share π' (I.L ⁻¹' T) := by rw [hπ, share_smul _ h0 h1, share_map _ mI hT]
  rw [hs]
  refine ⟨h2, fun hg j hj hr => ?_⟩
  rw [driverRowProb_eq I hI]
  exact h3 hg j hj hr

theorem Driver.meanWithin (I : run.Inner) (hI : Function.Injective I.L) (mI : Measurable I.L) {π : Measure (Fin n → ℝ)} {π' : Measure (Fin I.c → ℝ)}
    {κ : ℝ≥0∞} (h0 : κ ≠ 0) (h1 : κ ≠ ⊤) (hπ : π = κ • π'.map I.L) {w : Walk ℝ} {e : Env ℝ} [MeasurableSpace e.r.G] {μ : Measure e.r.G} {seed : Int}
    {N : ℕ} {ε δ : ℝ} {φ : (Fin n → ℝ) → ℝ} (hφ : Measurable φ)
    (h : PW.MeanWithin w e μ I.M I.v I.x I.k seed (φ ∘ I.L) (average π' (φ ∘ I.L)) N ε δ) :
    Driver.MeanWithin I w e μ seed φ (average π φ) N ε δ := by
  intro niter burnin thin
  obtain ⟨h2, h3⟩ := h niter burnin thin
  have hs : average π φ = average π' (φ ∘ I.L) := by rw [hπ, average_smul _ h0 h1, average_map _ mI hφ]
  rw [hs]
  refine ⟨h2, fun hg hN => ?_⟩
  rw [driverCloseProb_eq I hI]
  exact h3 hg hN

end Transfer

/-- A direction in which a bounded set extends in both directions for ever is zero. -/
theorem dir_zero {M a w : ℝ} (h : ∀ t : ℝ, |a + t * w| ≤ M) : w = 0 := by
  by_contra hw
  have h1 := h ((M + |a| + 1) / w)
  rw [div_mul_cancel₀ _ hw] at h1
  have h2 := abs_le.1 h1
  have h3 := neg_abs_le a
  linarith [h2.2]

theorem mapRows_total {α β : Type} {f : α → Out β} {g : α → β} (h : ∀ a, f a = .ok (g a)) : ∀ l, mapRows f l = .ok (l.map g)
  | [] => rfl
  | a :: l => by
    rw [mapRows, h a, Out.ok_bind, mapRows_total h l, Out.ok_bind, List.map_cons]

/-- What is known of the problem on which `sparseFullWalkRun` runs the walk. -/
structure SparseInner {n d : ℕ} {run : Driver n} (I : run.Inner) (P : Set (Fin n → ℝ)) (x₀ : Fin n → ℝ) (B : Matrix (Fin n) (Fin d) ℝ) (K : Int) : Prop where
  inj : Function.Injective I.L
  meas : Measurable I.L
  indep : IndepRows I.M
  dim : d + I.r = I.c
  keq : I.k = K
  k : 1 ≤ I.k ∧ I.k ≤ I.c
  maps : ∀ y, I.M *ᵥ y = I.v → (I.L y ∈ P ↔ y ∈ PolyEq I.M I.v I.k.toNat)
  hull : ∀ y, I.M *ᵥ y = I.v → ∃ u, chart x₀ B u = I.L y
  onto : ∀ u, ∃ y, I.M *ᵥ y = I.v ∧ I.L y = chart x₀ B u
  bdd : ∃ C, ∀ y ∈ PolyEq I.M I.v I.k.toNat, ∀ i, |y i| ≤ C
  xA : I.M *ᵥ I.x = I.v
  xpos : I.x ∈ TailPos I.c I.k.toNat
  iso : ∀ y z, ∑ i, (I.L y i - I.L z i) ^ 2 = ∑ i, (y i - z i) ^ 2
  law : ∃ B' : Matrix (Fin I.c) (Fin d) ℝ, IsKernelBasis I.M B' ∧ ∃ κ : ℝ≥0∞, κ ≠ 0 ∧ κ ≠ ⊤ ∧
    uniformIn P x₀ B = κ • (uniformOnEq I.x B' I.k.toNat).map I.L

section Sparse
variable {glp : Glpk ℝ} {E : Eigen ℝ} {err : ℝ} {A : DMat ℝ}

theorem selV_iso {n c : ℕ} {g : Fin c → Fin n} (hg : Function.Injective g) {V : Matrix (Fin n) (Fin c) ℝ}
    (hV : ∀ i j, V i j = if g j = i then 1 else 0) (w : Fin c → ℝ) : ∑ i, (V *ᵥ w) i ^ 2 = ∑ j, w j ^ 2 := by
  have h1 : Vᵀ *ᵥ (V *ᵥ w) = w := by
    funext j
    rw [← selV_mulVec hg hV w j]
    simp only [Matrix.mulVec, dotProduct, Matrix.transpose_apply, hV]
    rw [Finset.sum_eq_single (g j)]
    · simp
    · intro i _ hi
      rw [if_neg (Ne.symm hi), zero_mul]
    · simp
  have h2 : (V *ᵥ w) ⬝ᵥ (V *ᵥ w) = w ⬝ᵥ w := by
    rw [Matrix.dotProduct_mulVec, ← Matrix.mulVec_transpose, h1]
  simpa [dotProduct, sq] using h2

theorem sparse_inner (hS : FRSetting glp E err A) (h1 : err ≤ 1) {b : Fin A.r → ℝ} {k : Int} (hk : 0 < k ∧ k ≤ A.c)
    (hne : (PolyEq A.val b k.toNat).Nonempty) (hbd : ∃ C, ∀ y ∈ PolyEq A.val b k.toNat, ∀ i, |y i| ≤ C)
    (hcone : ¬ CoordCone (PolyEq A.val b k.toNat) k.toNat) (hright : handedK A.val b k = rightK A.val b k.toNat)
    {fuel : ℕ} (hf : k.toNat < fuel) (gi : Int) {d : ℕ} (hd : 1 ≤ d) {x₀ : Fin A.c → ℝ} {B : Matrix (Fin A.c) (Fin d) ℝ}
    (hB : IsChart (PolyEq A.val b k.toNat) x₀ B) :
    ∃ I : (sparseDriver glp E err fuel gi A b k).Inner, SparseInner I (PolyEq A.val b k.toNat) x₀ B (handedK A.val b k) := by
  set P := PolyEq A.val b k.toNat with hP
  obtain ⟨out, gi', hr⟩ := (C69_returns hS h1 b hk hne hf gi true).1 hcone
  obtain ⟨hdc, hdr⟩ := C68_dimensions hS hne hr
  have hbij := C39_facialReduction hS hne hr
  obtain ⟨y₀, hy₀, hy₀pos⟩ := C40_facialReduction hS hne hr
  obtain ⟨hinv, -, -⟩ := reduce_inv hS hr
  obtain ⟨g, hg, hgx, hV, f, hfinj, hAsel⟩ := hinv.sel
  have hker := fun u => hinv.ker hne hy₀ hy₀pos u
  have hcount := (C71_right_iff A b hk).1 hright
  have hdim := hinv.dim
  have hKc : (out.sparse.c : Int) - handedK A.val b k = A.c - k := by unfold handedK; omega
  have hrun : ∀ w env niter burnin thin seed, sparseDriver glp E err fuel gi A b k w env niter burnin thin seed =
      (SparseCenter.getInitialPoint glp ⟨_, _, out.sparse.A⟩ ⟨_, out.sparse.b⟩ (handedK A.val b k)).bind fun x =>
      (w.run env (callArgs out.sparse.A out.sparse.b x niter (handedK A.val b k) burnin thin seed)).map
        (List.map fun y => out.sparse.V *ᵥ y) := by
    intro w env niter burnin thin seed
    have hK : ((out.sparse.r : Int) - ((A.r : Int) - k)) = handedK A.val b k := by
      unfold handedK; omega
    show sparseFullWalkRun _ _ _ _ _ _ _ _ _ _ _ _ _ = _
    unfold sparseFullWalkRun
    rw [if_neg (by omega), hr, Out.ok_bind]
    simp only [hK]
    congr 1
    funext x
    show Out.bind (Out.map _ _) _ = _
    rcases w.run env (callArgs out.sparse.A out.sparse.b x niter (handedK A.val b k) burnin thin seed) with rows | _ | _ | _
    · rw [Out.map_ok, Out.ok_bind, Out.map_ok]
      refine mapRows_total (fun y => ?_) rows
      unfold sparseBack
      rw [dif_pos rfl, mulVec_real]
      rfl
    all_goals rfl
  generalize handedK A.val b k = K at *
  obtain ⟨d', B', hB'⟩ := exists_kernelBasis out.sparse.A
  have hVinj : Function.Injective fun y => out.sparse.V *ᵥ y := hinv.injective
  have hfrom : PolyFrom out.sparse.A out.sparse.b (A.c - k.toNat) = PolyEq out.sparse.A out.sparse.b K.toNat := by
    rw [polyEq_eq_polyFrom]
    congr 1
    omega
  rw [hfrom] at hbij hy₀
  have hy₀pos' : y₀ ∈ TailPos out.sparse.c K.toNat := fun j hj => hy₀pos j (by omega)
  have hmaps : ∀ y, out.sparse.A *ᵥ y = out.sparse.b → (out.sparse.V *ᵥ y ∈ P ↔ y ∈ PolyEq out.sparse.A out.sparse.b K.toNat) := by
    intro y hy
    refine ⟨fun h => ?_, fun h => hbij.mapsTo h⟩
    obtain ⟨y', hy', e⟩ := hbij.surjOn h
    rwa [← hVinj e]
  -- the chart of the reduced problem, carried over
  have hch : ∀ (z : Fin out.sparse.c → ℝ) u, chart (out.sparse.V *ᵥ z) (out.sparse.V * B') u = out.sparse.V *ᵥ chart z B' u := by
    intro z u
    simp only [chart, Matrix.mulVec_add, Matrix.mulVec_mulVec]
  have hAch : ∀ z, out.sparse.A *ᵥ z = out.sparse.b → ∀ u, out.sparse.A *ᵥ chart z B' u = out.sparse.b := by
    intro z hz u
    simp only [chart]
    rw [Matrix.mulVec_add, Matrix.mulVec_mulVec, hB'.mul_zero, Matrix.zero_mulVec, add_zero, hz]
  have hcov : ∀ z, out.sparse.A *ᵥ z = out.sparse.b → ∀ y, out.sparse.A *ᵥ y = out.sparse.b → ∃ u, chart z B' u = y := by
    intro z hz y hy
    obtain ⟨u, hu⟩ := hB'.span (y - z) (by rw [Matrix.mulVec_sub, hy, hz, sub_self])
    exact ⟨u, by simp only [chart]; rw [hu]; abel⟩
  have hset : ∀ z, out.sparse.A *ᵥ z = out.sparse.b →
      {u | chart (out.sparse.V *ᵥ z) (out.sparse.V * B') u ∈ P} = {u | chart z B' u ∈ TailNonneg out.sparse.c K.toNat} := by
    intro z hz
    ext u
    show chart _ _ u ∈ P ↔ _
    rw [hch, hmaps _ (hAch z hz u)]
    exact ⟨fun h => h.2, fun h => ⟨hAch z hz u, h⟩⟩
  have hchart : ∀ z, out.sparse.A *ᵥ z = out.sparse.b → z ∈ TailPos out.sparse.c K.toNat →
      IsChart P (out.sparse.V *ᵥ z) (out.sparse.V * B') := by
    intro z hz hzp
    refine ⟨fun u hu => hB'.inj u ?_, fun x hx => ?_, ?_⟩
    · rw [← Matrix.mulVec_mulVec] at hu
      exact hVinj (hu.trans (Matrix.mulVec_zero _).symm)
    · obtain ⟨y, hy, e⟩ := hbij.surjOn hx
      obtain ⟨u, rfl⟩ := hcov z hz y hy.1
      exact ⟨u, (hch z u).trans e⟩
    · rw [hset z hz]
      have hcont : Continuous (chart z B') := by
        unfold chart
        exact continuous_const.add (Continuous.matrix_mulVec continuous_const continuous_id)
      have ho : IsOpen {u | chart z B' u ∈ TailPos out.sparse.c K.toNat} := by
        have : {u | chart z B' u ∈ TailPos out.sparse.c K.toNat} =
            ⋂ i : Fin out.sparse.c, ⋂ _ : out.sparse.c - K.toNat ≤ i.val, {u | 0 < chart z B' u i} := by
          ext u; simp [TailPos]
        rw [this]
        exact isOpen_iInter_of_finite fun i => isOpen_iInter_of_finite fun _ =>
          isOpen_lt continuous_const ((continuous_apply i).comp hcont)
      refine ⟨0, mem_interior.2 ⟨_, fun u hu => tailPos_subset _ _ hu, ho, ?_⟩⟩
      show chart z B' 0 ∈ TailPos out.sparse.c K.toNat
      have : chart z B' 0 = z := by simp [chart]
      rw [this]
      exact hzp
  obtain rfl : d = d' := hB.dim_eq (hchart y₀ hy₀.1 hy₀pos')
  -- bounded, and therefore constrained
  obtain ⟨C, hC⟩ := hbd
  have hbdd : ∀ y ∈ PolyEq out.sparse.A out.sparse.b K.toNat, ∀ i, |y i| ≤ C := by
    intro y hy i
    have := hC _ (hbij.mapsTo hy) (g i)
    rwa [selV_mulVec hg.injective hV] at this
  have hK1 : 1 ≤ K := by
    by_contra hlt
    have hz : ∀ w : Fin out.sparse.c → ℝ, out.sparse.A *ᵥ w = 0 → w = 0 := by
      intro w hw
      funext i
      refine dir_zero (M := C) (a := y₀ i) fun t => hbdd (y₀ + t • w) ⟨?_, ?_⟩ i
      · rw [Matrix.mulVec_add, Matrix.mulVec_smul, hw, smul_zero, add_zero]
        exact hy₀.1
      · intro j hj
        have := j.isLt
        omega
    have hu := hB'.inj (fun _ => 1) (hz _ (by rw [Matrix.mulVec_mulVec, hB'.mul_zero, Matrix.zero_mulVec]))
    exact one_ne_zero (congrFun hu ⟨0, hd⟩)
  have hKn : ((K.toNat : ℕ) : Int) = K := by omega
  obtain ⟨x, hx0, hx1, -, hx2⟩ := C47_bounded glp hS.lp ⟨_, _, out.sparse.A⟩ out.sparse.b K.toNat (by omega) (by show K.toNat ≤ out.sparse.c; omega)
    ⟨y₀, hy₀⟩ ⟨C, hbdd⟩
  have hxp := hx2 ⟨y₀, hy₀, hy₀pos'⟩
  rw [hKn] at hx0
  have mV : Measurable fun y => out.sparse.V *ᵥ y := (Continuous.matrix_mulVec continuous_const continuous_id).measurable
  have hcx := hchart x hx1.1 hxp
  obtain ⟨κ, hκ0, hκ1, hκ⟩ := uniformIn_chart (measurableSet_polyEq _ _ _) hcx hB
  refine ⟨⟨_, _, out.sparse.A, out.sparse.b, x, K, fun y => out.sparse.V *ᵥ y, fun w env niter burnin thin seed => ?_⟩, ?_⟩
  · rw [hrun, hx0, Out.ok_bind]
  · refine ⟨hVinj, mV, hinv.indep, kernelBasis_card hinv.indep hB', rfl, ⟨hK1, by show K ≤ out.sparse.c; omega⟩, hmaps, ?_, ?_, ⟨C, hbdd⟩, hx1.1, hxp, ?_,
      ⟨B', hB', κ, hκ0, hκ1, ?_⟩⟩
    · intro y hy
      obtain ⟨u, rfl⟩ := hcov x hx1.1 y hy
      obtain ⟨v, hv⟩ := hcx.points hB u
      exact ⟨v, hv.trans (hch x u)⟩
    · intro u
      obtain ⟨v, hv⟩ := hB.points hcx u
      exact ⟨chart x B' v, hAch x hx1.1 v, (hch x v).symm.trans hv⟩
    · intro y z
      have := selV_iso hg.injective hV (y - z)
      rw [Matrix.mulVec_sub] at this
      exact this
    · rw [hκ]
      congr 1
      unfold uniformIn uniformOnEq
      rw [hset x hx1.1]
      have e : chart (out.sparse.V *ᵥ x) (out.sparse.V * B') = (fun y => out.sparse.V *ᵥ y) ∘ chart x B' := funext fun u => hch x u
      rw [e, Measure.map_map mV (measurable_chart x B')]
end Sparse

/-- What is known of the problem on which `denseFullWalkRun` runs the walk. -/
structure DenseInner {n d : ℕ} {run : Driver n} (I : run.Inner) (P : Set (Fin n → ℝ)) (x₀ : Fin n → ℝ) (B : Matrix (Fin n) (Fin d) ℝ) : Prop where
  inj : Function.Injective I.L
  meas : Measurable I.L
  dim : I.c = d
  rows : 1 ≤ I.r
  maps : ∀ y, I.L y ∈ P ↔ y ∈ Poly I.M I.v
  hull : ∀ y, ∃ u, chart x₀ B u = I.L y
  onto : ∀ u, ∃ y, I.L y = chart x₀ B u
  bdd : ∃ C, ∀ y ∈ Poly I.M I.v, ∀ i, |y i| ≤ C
  x : I.x ∈ Interior I.M I.v
  iso : ∀ y z, ∑ i, (I.L y i - I.L z i) ^ 2 = ∑ i, (y i - z i) ^ 2
  law : ∃ κ : ℝ≥0∞, κ ≠ 0 ∧ κ ≠ ⊤ ∧ uniformIn P x₀ B = κ • (uniformOn I.M I.v).map I.L

section Dense
variable {glp : Glpk ℝ} {E : Eigen ℝ} {err : ℝ} {A : DMat ℝ}

theorem dense_inner (hS : FRSetting glp E err A) (h1 : err ≤ 1) (hQ : E.HouseholderExact) (hI : E.InvExact) {b : Fin A.r → ℝ} {k : Int}
    (hk : 0 < k ∧ k ≤ A.c) (hpos : ∃ x ∈ PolyEq A.val b k.toNat, x ∈ TailPos A.c k.toNat)
    (hbd : ∃ C, ∀ y ∈ PolyEq A.val b k.toNat, ∀ i, |y i| ≤ C)
    {fuel : ℕ} (hf : k.toNat < fuel) (gi : Int) {d : ℕ} {x₀ : Fin A.c → ℝ} {B : Matrix (Fin A.c) (Fin d) ℝ}
    (hB : IsChart (PolyEq A.val b k.toNat) x₀ B) :
    ∃ I : (denseDriver glp E err fuel gi A b k).Inner, DenseInner I (PolyEq A.val b k.toNat) x₀ B := by
  obtain ⟨p, hp, hppos⟩ := hpos
  have hne : (PolyEq A.val b k.toNat).Nonempty := ⟨p, hp⟩
  obtain ⟨C, hC⟩ := hbd
  set P := PolyEq A.val b k.toNat with hP
  obtain ⟨out, gi', hr⟩ := C41_terminates_partial hS h1 b hk hp (ne_zero_of_tailPos (by omega) (by omega) hppos)
    ⟨C, fun y hy i => (le_abs_self _).trans (hC y hy i)⟩ hf gi false
  obtain ⟨hcA, -⟩ := reduce_keeps hS hp hppos hr
  have hbij := C39_facialReduction hS hne hr
  obtain ⟨hinv, -, -⟩ := reduce_inv hS hr
  obtain ⟨g, hg, hgx, hV, -⟩ := hinv.sel
  have hVinj : Function.Injective fun y => out.sparse.V *ᵥ y := hinv.injective
  have hindep := hinv.indep
  have hdim := hinv.dim
  obtain ⟨hrc, hxd, hout⟩ := reduce_dense_ok hr
  clear hinv
  have hdrv : ∀ w env niter burnin thin seed, denseDriver glp E err fuel gi A b k w env niter burnin thin seed =
      (DenseCenter.getInitialPoint glp out.denseA out.denseb).bind fun x =>
      (w.toDense env niter ⟨_, x⟩ out.denseA out.denseb burnin thin seed).bind fun steps => mapRows (denseBack out A.c) steps.rows := by
    intro w env niter burnin thin seed
    show denseFullWalkRun _ _ _ _ _ _ _ _ _ _ _ _ _ = _
    unfold denseFullWalkRun
    rw [if_neg (by omega), hr, Out.ok_bind]
  clear hr
  obtain ⟨s, dA, db, Q, z1⟩ := out
  simp only at hrc hxd hout hcA hbij g hg hgx hV hVinj hindep hdim hdrv
  obtain ⟨-, rfl, rfl, rfl, rfl⟩ := FROutput.mk.inj hout
  clear hout
  set xdim := A.c - k.toNat with hxdim
  have hlift := lift_bijOn hI (hQ _) hindep hrc xdim
  have hdist := lift_dist (hQ s.Aᵀ) hrc
  set L : (Fin (s.c - s.r) → ℝ) → Fin A.c → ℝ := fun y => s.V *ᵥ liftVec E s hrc y with hL
  have hiso : ∀ y z, ∑ i, (L y i - L z i) ^ 2 = ∑ i, (y i - z i) ^ 2 := by
    intro y z
    have e := selV_iso hg.injective hV (liftVec E s hrc y - liftVec E s hrc z)
    rw [Matrix.mulVec_sub] at e
    exact e.trans (hdist y z)
  have hLinj : Function.Injective L := by
    intro y z h
    have e := hiso y z
    rw [h] at e
    simp only [sub_self, ne_eq, OfNat.ofNat_ne_zero, not_false_eq_true, zero_pow, Finset.sum_const_zero] at e
    funext i
    have := (Finset.sum_eq_zero_iff_of_nonneg (fun i _ => sq_nonneg (y i - z i))).1 e.symm i (Finset.mem_univ _)
    exact sub_eq_zero.1 (pow_eq_zero_iff (two_ne_zero) |>.1 this)
  have hmaps : ∀ y, L y ∈ P ↔ y ∈ Poly (denseAOf E s xdim) (densebOf E s xdim hrc) := by
    intro y
    refine ⟨fun h => ?_, fun h => hbij.mapsTo (hlift.mapsTo h)⟩
    obtain ⟨v, hv, e⟩ := hbij.surjOn h
    obtain ⟨y', hy', e'⟩ := hlift.surjOn hv
    have : L y' = L y := by
      show s.V *ᵥ liftVec E s hrc y' = _
      rw [e']
      exact e
    rwa [← hLinj this]
  have hsurj : ∀ x ∈ P, ∃ y ∈ Poly (denseAOf E s xdim) (densebOf E s xdim hrc), L y = x := by
    intro x hx
    obtain ⟨v, hv, e⟩ := hbij.surjOn hx
    obtain ⟨y', hy', e'⟩ := hlift.surjOn hv
    exact ⟨y', hy', by rw [hL]; simp only; rw [e']; exact e⟩
  set Q2 : Matrix (Fin s.c) (Fin (s.c - s.r)) ℝ := fun i j => (E.householderQR s.Aᵀ).Q i ⟨s.r + j.val, by omega⟩ with hQ2
  have hLch : ∀ y, L y = chart (L 0) (s.V * Q2) y := by
    intro y
    have e : liftVec E s hrc y = liftVec E s hrc 0 + Q2 *ᵥ y := by
      funext i
      simp only [Pi.add_apply]
      show ∑ j, (E.householderQR s.Aᵀ).Q i j * joinVec (denseZ1 E s hrc) y j = (∑ j, (E.householderQR s.Aᵀ).Q i j * joinVec (denseZ1 E s hrc) 0 j) +
        ∑ j, Q2 i j * y j
      rw [sum_split hrc, sum_split hrc]
      simp only [joinVec_left, joinVec_right, Pi.zero_apply, mul_zero, Finset.sum_const_zero, add_zero]
      rfl
    simp only [chart, hL]
    rw [e, Matrix.mulVec_add, Matrix.mulVec_mulVec]
  have hLcont : Continuous L := by
    rw [show L = chart (L 0) (s.V * Q2) from funext hLch]
    unfold chart
    exact continuous_const.add (Continuous.matrix_mulVec continuous_const continuous_id)
  have hint : (Interior (denseAOf E s xdim) (densebOf E s xdim hrc)).Nonempty := by
    obtain ⟨y, hy, e⟩ := hsurj p hp
    refine ⟨y, fun i => ?_⟩
    have e1 := lift_slack (E := E) hrc xdim y i
    have e2 : liftVec E s hrc y ⟨xdim + i.val, by omega⟩ = p (g ⟨xdim + i.val, by omega⟩) := by
      rw [← e]
      exact (selV_mulVec hg.injective hV _ _).symm
    have h3 := hppos (g ⟨xdim + i.val, by omega⟩) ((Nat.le_add_right _ _).trans (strictMono_le hg ⟨xdim + i.val, by omega⟩))
    rw [← e2, e1] at h3
    linarith
  have hset : {u | chart (L 0) (s.V * Q2) u ∈ P} = Poly (denseAOf E s xdim) (densebOf E s xdim hrc) := by
    ext u
    show chart _ _ u ∈ P ↔ _
    rw [← hLch]
    exact hmaps u
  have hchart : IsChart P (L 0) (s.V * Q2) := by
    refine ⟨fun u hu => hLinj ?_, fun x hx => ?_, ?_⟩
    · rw [hLch u]
      simp only [chart]
      rw [hu, add_zero]
    · obtain ⟨y, -, e⟩ := hsurj x hx
      exact ⟨y, (hLch y).symm.trans e⟩
    · rw [hset]
      obtain ⟨y, hy⟩ := hint
      refine ⟨y, mem_interior.2 ⟨Interior (denseAOf E s xdim) (densebOf E s xdim hrc), interior_subset _ _, ?_, hy⟩⟩
      have : Interior (denseAOf E s xdim) (densebOf E s xdim hrc) =
          ⋂ i, {y | (denseAOf E s xdim *ᵥ y) i < densebOf E s xdim hrc i} := by
        ext u; simp [Interior]
      rw [this]
      exact isOpen_iInter_of_finite fun i => isOpen_lt (continuous_mulVec_apply _ i) continuous_const
  obtain ⟨κ, hκ0, hκ1, hκ⟩ := uniformIn_chart (measurableSet_polyEq _ _ _) hchart hB
  have hbdd : ∃ C, ∀ y ∈ Poly (denseAOf E s xdim) (densebOf E s xdim hrc), ∀ i, |y i| ≤ C := by
    refine ⟨Real.sqrt (∑ i, (C + |L 0 i|) ^ 2), fun y hy i => ?_⟩
    refine Real.abs_le_sqrt ?_
    have h2 : y i ^ 2 ≤ ∑ i, (y i - (0 : Fin (s.c - s.r) → ℝ) i) ^ 2 := by
      have := Finset.single_le_sum (f := fun i => (y i - (0 : Fin (s.c - s.r) → ℝ) i) ^ 2) (fun j _ => sq_nonneg _) (Finset.mem_univ i)
      simpa using this
    rw [← hiso] at h2
    refine h2.trans (Finset.sum_le_sum fun j _ => ?_)
    refine sq_le_sq' ?_ ?_
    · have h3 := abs_le.1 (hC _ ((hmaps y).2 hy) j)
      have := le_abs_self (L 0 j)
      linarith [h3.1]
    · have h3 := abs_le.1 (hC _ ((hmaps y).2 hy) j)
      have := neg_abs_le (L 0 j)
      linarith [h3.2]
  have hr1 : 0 < s.c - xdim := by omega
  obtain ⟨x, hx0, hx1, -, hx2⟩ := C46_bounded glp hS.lp ⟨_, _, denseAOf E s xdim⟩ (densebOf E s xdim hrc) hr1 (hint.mono (interior_subset _ _)) hbdd
  have hxi := hx2 hint
  refine ⟨⟨_, _, denseAOf E s xdim, densebOf E s xdim hrc, x, 0, L, fun w env niter burnin thin seed => ?_⟩, ?_⟩
  · rw [hdrv, hx0, Out.ok_bind]
    show Out.bind (Out.map _ _) _ = _
    rcases w.run env (callArgs (denseAOf E s xdim) (densebOf E s xdim hrc) x niter 0 burnin thin seed) with rows | _ | _ | _
    · rw [Out.map_ok, Out.ok_bind, Out.map_ok]
      refine mapRows_total (fun y => ?_) rows
      unfold denseBack
      rw [dif_pos (by show s.c - s.r + s.r = s.c; omega)]
      simp only
      rw [dif_pos (by omega)]
      congr 1
      funext i
      have hgi : g ⟨i.val, by omega⟩ = i := Fin.ext (strictMono_id hg (by omega) _)
      have e1 := selV_mulVec hg.injective hV (liftVec E s hrc y) ⟨i.val, by omega⟩
      rw [hgi] at e1
      show _ = (s.V *ᵥ liftVec E s hrc y) i
      rw [e1, mulVec_real]
      rfl
    all_goals rfl
  · refine ⟨hLinj, hLcont.measurable, hchart.dim_eq hB, hr1, hmaps, fun y => ?_, fun u => ?_, hbdd, hxi, hiso, ⟨κ, hκ0, hκ1, ?_⟩⟩
    · obtain ⟨v, hv⟩ := hchart.points hB y
      exact ⟨v, hv.trans (hLch y).symm⟩
    · obtain ⟨v, hv⟩ := hB.points hchart u
      exact ⟨v, (hLch v).trans hv⟩
    · rw [hκ]
      congr 1
      unfold uniformIn uniformOn
      rw [hset, ← show L = chart (L 0) (s.V * Q2) from funext hLch]
end Dense

end PW
