import Verif.Lemmas.Handed
import Verif.Props.EndToEnd

/-!
# C90: what `sparseFullWalkRun` samples when it hands the walk the wrong number of constraints
-/

namespace PW
open MeasureTheory Matrix Set
open scoped ENNReal

section Sets
variable {glp : Glpk ℝ} {E : Eigen ℝ} {err : ℝ} {A : DMat ℝ}

/-- **C90**: with the right number the set is the polytope; with a smaller one it contains the polytope. -/
theorem C90_right {m n : ℕ} (A : Matrix (Fin m) (Fin n) ℝ) (b : Fin m → ℝ) {k : Int} (hk : 0 < k ∧ k ≤ n) :
    (handedK A b k = rightK A b k.toNat → HandedSet A b k = PolyEq A b k.toNat) ∧
    (handedK A b k ≤ rightK A b k.toNat → PolyEq A b k.toNat ⊆ HandedSet A b k) := by
  classical
  -- a handed coordinate is constrained
  have hcon : handedK A b k ≤ rightK A b k.toNat → ∀ i, Handed A b k i → n - k.toNat ≤ i.val := by
    rintro hle i ⟨-, hlt⟩
    by_contra hi
    have h1 : rightK A b k.toNat ≤ Nat.card {j : Fin n // i < j ∧ Survives A b k.toNat j} := by
      unfold rightK
      refine Nat.card_le_card_of_injective (fun j => ⟨j.1, ?_, .inr j.2.2⟩) fun a b h => Subtype.ext (Subtype.mk.inj h)
      have := j.2.1
      exact Fin.lt_def.2 (by omega)
    omega
  have hsub : handedK A b k ≤ rightK A b k.toNat → PolyEq A b k.toNat ⊆ HandedSet A b k := by
    intro hle x hx
    refine ⟨hx.1, fun i hi => ?_, fun i hi => hx.2 i (hcon hle i hi)⟩
    by_contra h0
    exact hi (.inr ⟨x, hx, h0⟩)
  refine ⟨fun heq => Subset.antisymm ?_ (hsub heq.le), hsub⟩
  rintro x ⟨h1, h2, h3⟩
  refine ⟨h1, fun i hi => ?_⟩
  by_cases hs : Survives A b k.toNat i
  · refine h3 i ⟨hs, ?_⟩
    rw [heq]
    have hx : ∃ x ∈ PolyEq A b k.toNat, x i ≠ 0 := hs.resolve_left (by omega)
    unfold rightK
    have : Nat.card {j : Fin n // i < j ∧ Survives A b k.toNat j} < Nat.card {j : Fin n // n - k.toNat ≤ j.val ∧ ∃ x ∈ PolyEq A b k.toNat, x j ≠ 0} := by
      rw [Nat.card_eq_fintype_card, Nat.card_eq_fintype_card]
      refine Fintype.card_lt_of_injective_of_notMem
        (fun j => ⟨j.1, by have := Fin.lt_def.1 j.2.1; omega, j.2.2.resolve_left (by have := Fin.lt_def.1 j.2.1; omega)⟩)
        (fun a b h => Subtype.ext (Subtype.mk.inj h)) (b := ⟨i, hi, hx⟩) ?_
      rintro ⟨j, hj⟩
      have := congrArg Subtype.val hj
      exact absurd (j.2.1) (by rw [show j.1 = i from this]; exact lt_irrefl _)
    exact_mod_cast this
  · rw [h2 i hs]

/-- **C90**: every row the driver returns with a walk that stays inside the polytope it is given is a point of that set. -/
theorem C90_rows (hS : FRSetting glp E err A) {b : Fin A.r → ℝ} {k : Int} (hk : 0 < k ∧ k ≤ A.c)
    (hne : (PolyEq A.val b k.toNat).Nonempty) (hne' : (HandedSet A.val b k).Nonempty) {walk : SparseWalk ℝ}
    (hw : walk.StaysInside) {niter burnin thin seed : Int} (hi : SaneInts niter burnin thin) {fuel : ℕ}
    {gi : Int} {rows : List (Fin A.c → ℝ)}
    (h : sparseFullWalkRun glp E err fuel gi walk niter A ⟨A.r, b⟩ k burnin thin seed = .ok rows) : ∀ x ∈ rows, x ∈ HandedSet A.val b k := by
  unfold sparseFullWalkRun at h
  rw [if_neg (by omega)] at h
  obtain ⟨⟨out, gi'⟩, h1, h⟩ := Out.bind_eq_ok.1 h
  obtain ⟨x, h2, h⟩ := Out.bind_eq_ok.1 h
  obtain ⟨S, h3, h⟩ := Out.bind_eq_ok.1 h
  obtain ⟨hinv, -, -⟩ := reduce_inv hS h1
  obtain ⟨hdc, hdr⟩ := C68_dimensions hS hne h1
  simp only at h2 h3 h x
  have hK : ((out.sparse.r : Int) - ((A.r : Int) - k)) = handedK A.val b k := by unfold handedK; omega
  rw [hK] at h2 h3
  have hK1 : 1 ≤ handedK A.val b k ∧ handedK A.val b k ≤ out.sparse.c := by
    by_contra hc
    unfold SparseCenter.getInitialPoint at h2
    rw [if_pos (by show _ ∨ (out.sparse.c : Int) < _; omega)] at h2
    cases h2
  obtain ⟨hmaps, hbij, -⟩ := handed_maps hS hne hK1.1 h1
  have hKn : (((handedK A.val b k).toNat : ℕ) : Int) = handedK A.val b k := by omega
  have hx : x ∈ PolyEq out.sparse.A out.sparse.b (handedK A.val b k).toNat := by
    obtain ⟨z, hz⟩ := hne'
    obtain ⟨v, hv, -⟩ := hbij z hz
    obtain ⟨x', h2', hx', -⟩ := C47_sparseCenter glp hS.lp ⟨_, _, out.sparse.A⟩ out.sparse.b (handedK A.val b k).toNat (by omega)
      (by show _ ≤ out.sparse.c; omega) ⟨v, hv⟩
    rw [hKn, h2] at h2'
    cases h2'
    exact hx'
  obtain ⟨hSc, hrows⟩ := hw niter burnin thin seed ⟨_, _, out.sparse.A⟩ out.sparse.b _ x S hi hK1.1 hK1.2 hinv.indep hx h3
  intro p hp
  obtain ⟨row, hrow, hback⟩ := mapRows_mem h p hp
  have hy := hrows row hrow
  have hz := (hmaps _ hy.1).2 hy
  unfold sparseBack at hback
  rw [dif_pos hSc] at hback
  cases hback
  rw [mulVec_real]
  exact hz

theorem volume_chart_lt_top {n d : ℕ} {B : Matrix (Fin n) (Fin d) ℝ} (hB : ∀ u, B *ᵥ u = 0 → u = 0) (x₀ : Fin n → ℝ) {K : Set (Fin n → ℝ)}
    (hb : ∃ M, ∀ y ∈ K, ∀ i, |y i| ≤ M) : volume {u | chart x₀ B u ∈ K} < ⊤ := by
  obtain ⟨M, hM⟩ := hb
  have hsub : {u | chart x₀ B u ∈ K} ⊆
      Set.pi univ fun i => Icc (-(∑ j, |coordMat B i j| * (M + |x₀ j|))) (∑ j, |coordMat B i j| * (M + |x₀ j|)) := by
    intro u hx i _
    have hu : u = coordMat B *ᵥ (chart x₀ B u - x₀) := by
      show u = coordMat B *ᵥ (x₀ + B *ᵥ u - x₀)
      rw [add_sub_cancel_left, Matrix.mulVec_mulVec, coordMat_mul hB, Matrix.one_mulVec]
    have h1 : ∀ j, |(chart x₀ B u - x₀) j| ≤ M + |x₀ j| := fun j => (abs_sub _ _).trans (add_le_add (hM _ hx j) le_rfl)
    have h2 : |u i| ≤ ∑ j, |coordMat B i j| * (M + |x₀ j|) := by
      rw [hu]
      refine (Finset.abs_sum_le_sum_abs (fun j => coordMat B i j * (chart x₀ B u - x₀) j) Finset.univ).trans
        (Finset.sum_le_sum fun j _ => ?_)
      rw [abs_mul]
      exact mul_le_mul_of_nonneg_left (h1 j) (abs_nonneg _)
    exact abs_le.1 h2
  refine (measure_mono hsub).trans_lt ?_
  rw [volume_pi_pi]
  exact ENNReal.prod_lt_top fun i _ => by simp

theorem handedSet_convex {m n : ℕ} (A : Matrix (Fin m) (Fin n) ℝ) (b : Fin m → ℝ) (k : Int) : Convex ℝ (HandedSet A b k) := by
  rintro x ⟨h1, h2, h3⟩ y ⟨h4, h5, h6⟩ s t hs ht hst
  refine ⟨?_, fun i hi => ?_, fun i hi => ?_⟩
  · rw [Matrix.mulVec_add, Matrix.mulVec_smul, Matrix.mulVec_smul, h1, h4, ← add_smul, hst, one_smul]
  · show s * x i + t * y i = 0
    rw [h2 i hi, h5 i hi]; ring
  · show 0 ≤ s * x i + t * y i
    exact add_nonneg (mul_nonneg hs (h3 i hi)) (mul_nonneg ht (h6 i hi))

/-- **C90**: if the set is not the polytope, because too few coordinates are handed, a share of it, not zero, lies outside the polytope. -/
theorem C90_outside_share {m n : ℕ} {A : Matrix (Fin m) (Fin n) ℝ} {b : Fin m → ℝ} {k : Int}
    (hbd : ∃ C, ∀ y ∈ HandedSet A b k, ∀ i, |y i| ≤ C) {d : ℕ} {x₀ : Fin n → ℝ} {B : Matrix (Fin n) (Fin d) ℝ}
    (hB : IsChart (HandedSet A b k) x₀ B) (hlarge : ∃ y ∈ HandedSet A b k, y ∉ PolyEq A b k.toNat) :
    0 < share (uniformIn (HandedSet A b k) x₀ B) (PolyEq A b k.toNat)ᶜ := by
  obtain ⟨y, hy, hyP⟩ := hlarge
  set Q := HandedSet A b k with hQ
  have hneg : ∃ i : Fin n, n - k.toNat ≤ i.val ∧ y i < 0 := by
    by_contra hc
    push Not at hc
    exact hyP ⟨hy.1, fun i hi => hc i hi⟩
  obtain ⟨i, hi, hyi⟩ := hneg
  obtain ⟨v, hv⟩ := hB.covers y hy
  obtain ⟨u, hu⟩ := hB.solid
  set U := {u | chart x₀ B u ∈ Q} with hU
  have hcont : Continuous (chart x₀ B) := continuous_const.add (Continuous.matrix_mulVec continuous_const continuous_id)
  have hconv : Convex ℝ U := by
    intro p hp q hq s t hs ht hst
    have : chart x₀ B (s • p + t • q) = s • chart x₀ B p + t • chart x₀ B q := by
      simp only [chart]
      rw [Matrix.mulVec_add, Matrix.mulVec_smul, Matrix.mulVec_smul, smul_add, smul_add]
      have : s • x₀ + t • x₀ = x₀ := by rw [← add_smul, hst, one_smul]
      calc x₀ + (s • B *ᵥ p + t • B *ᵥ q) = (s • x₀ + t • x₀) + (s • B *ᵥ p + t • B *ᵥ q) := by rw [this]
        _ = _ := by abel
    show chart x₀ B _ ∈ Q
    rw [this]
    exact handedSet_convex A b k hp hq hs ht hst
  have hvU : v ∈ U := by show chart x₀ B v ∈ Q; rw [hv]; exact hy
  set W := interior U ∩ {u | chart x₀ B u i < 0} with hW
  have hWo : IsOpen W := _root_.isOpen_interior.inter (isOpen_lt ((continuous_apply i).comp hcont) continuous_const)
  have hWne : W.Nonempty := by
    have hl : Continuous fun t : ℝ => chart x₀ B (t • u + (1 - t) • v) i := (continuous_apply i).comp (hcont.comp (by fun_prop))
    have h0 : (0 : ℝ) ∈ {t : ℝ | chart x₀ B (t • u + (1 - t) • v) i < 0} := by
      show chart x₀ B ((0 : ℝ) • u + (1 - 0 : ℝ) • v) i < 0
      rw [zero_smul, zero_add, sub_zero, one_smul, hv]; exact hyi
    obtain ⟨δ, hδ, hball⟩ := Metric.isOpen_iff.1 (isOpen_lt hl continuous_const) 0 h0
    have ht0 : 0 < min (δ / 2) (1 / 2) := by positivity
    have ht1 : min (δ / 2) (1 / 2) < 1 := lt_of_le_of_lt (min_le_right _ _) (by norm_num)
    refine ⟨min (δ / 2) (1 / 2) • u + (1 - min (δ / 2) (1 / 2)) • v, ?_, hball ?_⟩
    · exact hconv.openSegment_interior_self_subset_interior hu hvU ⟨_, _, ht0, by linarith, by ring, rfl⟩
    · rw [Metric.mem_ball, Real.dist_eq, sub_zero, abs_of_pos ht0]
      exact lt_of_le_of_lt (min_le_left _ _) (by linarith)
  have hfin := volume_chart_lt_top hB.inj x₀ hbd
  have hWpos : 0 < volume W := hWo.measure_pos _ hWne
  have hmP : MeasurableSet (PolyEq A b k.toNat)ᶜ := (measurableSet_polyEq _ _ _).compl
  have e1 : uniformIn Q x₀ B (PolyEq A b k.toNat)ᶜ = volume (chart x₀ B ⁻¹' (PolyEq A b k.toNat)ᶜ ∩ U) := by
    unfold uniformIn
    rw [Measure.map_apply hcont.measurable hmP, Measure.restrict_apply (hcont.measurable hmP)]
  have e2 : uniformIn Q x₀ B univ = volume U := by
    unfold uniformIn
    rw [Measure.map_apply hcont.measurable MeasurableSet.univ, preimage_univ, Measure.restrict_apply_univ]
  have hWsub : W ⊆ chart x₀ B ⁻¹' (PolyEq A b k.toNat)ᶜ ∩ U := by
    rintro w ⟨hw1, hw2⟩
    exact ⟨fun h => absurd (h.2 i hi) (not_le.2 hw2), _root_.interior_subset hw1⟩
  have hle : volume (chart x₀ B ⁻¹' (PolyEq A b k.toNat)ᶜ ∩ U) ≤ volume U := measure_mono inter_subset_right
  unfold share
  rw [e1, e2]
  have hp := lt_of_lt_of_le hWpos (measure_mono hWsub)
  exact div_pos (ENNReal.toReal_pos hp.ne' (lt_of_le_of_lt hle hfin).ne) (ENNReal.toReal_pos (lt_of_lt_of_le hp hle).ne' hfin.ne)

end Sets

theorem half_le_of_near {a s : ℝ} (h : |a - s| ≤ s / 2) : s / 2 ≤ a := by
  have := (abs_le.1 h).1
  linarith

section Sparse
variable {glp : Glpk ℝ} {E : Eigen ℝ} {err : ℝ} {A : DMat ℝ} (hS : FRSetting glp E err A) (h1 : err ≤ 1) {b : Fin A.r → ℝ} {k : Int}
  (hk : 0 < k ∧ k ≤ A.c) (hne : (PolyEq A.val b k.toNat).Nonempty) (hcone : ¬ CoordCone (PolyEq A.val b k.toNat) k.toNat)
  (hK : 1 ≤ handedK A.val b k ∧ handedK A.val b k ≤ survivorCount A.val b k.toNat)
  (hbd : ∃ C, ∀ y ∈ HandedSet A.val b k, ∀ i, |y i| ≤ C) (hpos : ∃ y ∈ HandedSet A.val b k, ∀ i, Handed A.val b k i → 0 < y i) {fuel : ℕ}
  (hf : k.toNat < fuel) (gi : Int) {d : ℕ} {x₀ : Fin A.c → ℝ} {B : Matrix (Fin A.c) (Fin d) ℝ} (hB : IsChart (HandedSet A.val b k) x₀ B)
include hS h1 hk hne hcone hK hbd hpos hf hB

/-- **C90** (`sparseFullWalkRun` with `SparseDikinWalk`): whatever number `handedK` of constrained coordinates facial reduction hands the walk
(as long as the driver does not reject it), the law of the rows tends to the uniform distribution on the set described by that number — not on the polytope of the caller. -/
theorem C90_dikin (hd : 1 ≤ d) (hE : E.Exact) (ERR : ℝ) (hR : 0 < ERR) (R : ℝ) (hr : R ≠ 0) :
    ∃ I : (sparseDriver glp E err fuel gi A b k).Inner, ∀ ε > 0, ∃ t₀ : ℕ, ∀ (o : BState ℝ) (e : Env ℝ) [MeasurableSpace e.r.G] (μ : Measure e.r.G),
      IdealSource e.r μ → ∀ seed : Int, ∀ t ≥ t₀,
        Driver.LawWithin I (.sparseBarrier (sparseDikinClass R) ERR E o) e μ seed (uniformIn (HandedSet A.val b k) x₀ B) t ε := by
  obtain ⟨I, h⟩ := sparse_inner_handed hS h1 hk hne hcone hK hbd hpos hf gi hB
  refine ⟨I, fun ε hε => ?_⟩
  obtain ⟨B', hB', κ, hκ0, hκ1, hκ⟩ := h.law
  obtain ⟨t₀, ht₀⟩ := C64_dikin E hE ERR hR R hr h.indep (by have := h.dim; omega) I.k h.k I.v h.bdd I.x h.xA h.xpos B' hB' I.x h.xA h.xpos ε hε
  exact ⟨t₀, fun o e _ μ hs seed t ht => Driver.lawWithin I h.inj h.meas hκ0 hκ1 hκ (ht₀ o e μ hs seed t ht)⟩

/-- **C90** (`SparseDikinWalk`, averages): so do the averages over the rows. -/
theorem C90_dikin_average (hd : 1 ≤ d) (hE : E.Exact) (ERR : ℝ) (hR : 0 < ERR) (R : ℝ) (hr : R ≠ 0) :
    ∃ I : (sparseDriver glp E err fuel gi A b k).Inner, ∀ (φ : (Fin A.c → ℝ) → ℝ), Measurable φ → ∀ M > 0, (∀ y ∈ HandedSet A.val b k, |φ y| ≤ M) →
      ∀ ε > 0, ∀ δ > 0, ∃ L₀ : ℕ, ∀ (o : BState ℝ) (e : Env ℝ) [MeasurableSpace e.r.G] (μ : Measure e.r.G), IdealSource e.r μ → ∀ seed : Int, ∀ L ≥ L₀,
        Driver.MeanWithin I (.sparseBarrier (sparseDikinClass R) ERR E o) e μ seed φ (average (uniformIn (HandedSet A.val b k) x₀ B) φ) L ε δ := by
  obtain ⟨I, h⟩ := sparse_inner_handed hS h1 hk hne hcone hK hbd hpos hf gi hB
  refine ⟨I, fun φ hφ M hM hφM ε hε δ hδ => ?_⟩
  obtain ⟨B', hB', κ, hκ0, hκ1, hκ⟩ := h.law
  obtain ⟨L₀, hL₀⟩ := C65_dikin E hE ERR hR R hr h.indep (by have := h.dim; omega) I.k h.k I.v h.bdd I.x h.xA h.xpos B' hB' I.x h.xA h.xpos
    (φ ∘ I.L) (hφ.comp h.meas) M hM (fun y hy => hφM _ ((h.maps y hy.1).2 hy)) ε δ hε hδ
  exact ⟨L₀, fun o e _ μ hs seed L hL => Driver.meanWithin I h.inj h.meas hκ0 hκ1 hκ hφ (hL₀ o e μ hs seed L hL)⟩

/-- **C90** (`SparseVaidyaWalk`), when the `int` product of the number of constraints and the dimension does not overflow. -/
theorem C90_vaidya (hd : 1 ≤ d) (hE : E.Exact) (ERR : ℝ) (hR : 0 < ERR) (R : ℝ) (hr : R ≠ 0) (hov : handedK A.val b k * d ≤ 2 ^ 31 - 1) :
    ∃ I : (sparseDriver glp E err fuel gi A b k).Inner, ∀ ε > 0, ∃ t₀ : ℕ, ∀ (o : BState ℝ) (e : Env ℝ) [MeasurableSpace e.r.G] (μ : Measure e.r.G),
      IdealSource e.r μ → ∀ seed : Int, ∀ t ≥ t₀,
        Driver.LawWithin I (.sparseBarrier (sparseVaidyaClass E ERR R) ERR E o) e μ seed (uniformIn (HandedSet A.val b k) x₀ B) t ε := by
  obtain ⟨I, h⟩ := sparse_inner_handed hS h1 hk hne hcone hK hbd hpos hf gi hB
  refine ⟨I, fun ε hε => ?_⟩
  obtain ⟨B', hB', κ, hκ0, hκ1, hκ⟩ := h.law
  have hdim : (I.c : Int) - I.r = d := by have := h.dim; omega
  obtain ⟨t₀, ht₀⟩ := C64_vaidya E hE ERR hR R hr h.indep (by have := h.dim; omega) I.k h.k I.v h.bdd I.x h.xA h.xpos B' hB' I.x h.xA h.xpos
    (by rw [hdim, h.keq]; exact hov) ε hε
  exact ⟨t₀, fun o e _ μ hs seed t ht => Driver.lawWithin I h.inj h.meas hκ0 hκ1 hκ (ht₀ o e μ hs seed t ht)⟩

/-- **C90** (`SparseVaidyaWalk`, averages). -/
theorem C90_vaidya_average (hd : 1 ≤ d) (hE : E.Exact) (ERR : ℝ) (hR : 0 < ERR) (R : ℝ) (hr : R ≠ 0) (hov : handedK A.val b k * d ≤ 2 ^ 31 - 1) :
    ∃ I : (sparseDriver glp E err fuel gi A b k).Inner, ∀ (φ : (Fin A.c → ℝ) → ℝ), Measurable φ → ∀ M > 0, (∀ y ∈ HandedSet A.val b k, |φ y| ≤ M) →
      ∀ ε > 0, ∀ δ > 0, ∃ L₀ : ℕ, ∀ (o : BState ℝ) (e : Env ℝ) [MeasurableSpace e.r.G] (μ : Measure e.r.G), IdealSource e.r μ → ∀ seed : Int, ∀ L ≥ L₀,
        Driver.MeanWithin I (.sparseBarrier (sparseVaidyaClass E ERR R) ERR E o) e μ seed φ (average (uniformIn (HandedSet A.val b k) x₀ B) φ) L ε δ := by
  obtain ⟨I, h⟩ := sparse_inner_handed hS h1 hk hne hcone hK hbd hpos hf gi hB
  refine ⟨I, fun φ hφ M hM hφM ε hε δ hδ => ?_⟩
  obtain ⟨B', hB', κ, hκ0, hκ1, hκ⟩ := h.law
  have hdim : (I.c : Int) - I.r = d := by have := h.dim; omega
  obtain ⟨L₀, hL₀⟩ := C65_vaidya E hE ERR hR R hr h.indep (by have := h.dim; omega) I.k h.k I.v h.bdd I.x h.xA h.xpos B' hB' I.x h.xA h.xpos
    (by rw [hdim, h.keq]; exact hov) (φ ∘ I.L) (hφ.comp h.meas) M hM (fun y hy => hφM _ ((h.maps y hy.1).2 hy)) ε δ hε hδ
  exact ⟨L₀, fun o e _ μ hs seed L hL => Driver.meanWithin I h.inj h.meas hκ0 hκ1 hκ hφ (hL₀ o e μ hs seed L hL)⟩

/-- **C90** (`SparseHitAndRun`): for a small enough tolerance of the chord search, on a polytope of dimension at least two. `D` bounds the diameter of the set. -/
theorem C90_hitRun (hd : 2 ≤ d) (hE : E.SparseLUExact) (D : ℝ)
    (hD : ∀ y ∈ HandedSet A.val b k, ∀ z ∈ HandedSet A.val b k, ∑ i, (y i - z i) ^ 2 ≤ D ^ 2) :
    ∃ I : (sparseDriver glp E err fuel gi A b k).Inner, ∀ ε > 0, ∃ η > 0, ∃ t₀ : ℕ, ∀ R ERR : ℝ, |D| < 2 ^ 10000 * |R| → 0 < ERR → ERR ≤ η →
      ∀ (e : Env ℝ) [MeasurableSpace e.r.G] (μ : Measure e.r.G), IdealSource e.r μ → ∀ seed : Int, ∀ t ≥ t₀,
        Driver.LawWithin I (.sparseHitRun R ERR E) e μ seed (uniformIn (HandedSet A.val b k) x₀ B) t ε := by
  obtain ⟨I, h⟩ := sparse_inner_handed hS h1 hk hne hcone hK hbd hpos hf gi hB
  refine ⟨I, fun ε hε => ?_⟩
  obtain ⟨B', hB', κ, hκ0, hκ1, hκ⟩ := h.law
  obtain ⟨η, hη, t₀, ht₀⟩ := C60_sparse_limit hE h.indep (by have := h.dim; omega) I.k h.k I.v I.x h.xA h.xpos D
    (fun y hy z hz => by
      rw [← h.iso]
      exact hD _ ((h.maps y hy.1).2 hy) _ ((h.maps z hz.1).2 hz)) B' hB' ε hε
  exact ⟨η, hη, t₀, fun R ERR hR hE0 hEη e _ μ hs seed t ht =>
    Driver.lawWithin I h.inj h.meas hκ0 hκ1 hκ (ht₀ R ERR hR hE0 hEη e μ hs I.x h.xA h.xpos seed t ht)⟩

/-- **C90** (`SparseHitAndRun`, averages). -/
theorem C90_hitRun_average (hd : 2 ≤ d) (hE : E.SparseLUExact) (D : ℝ)
    (hD : ∀ y ∈ HandedSet A.val b k, ∀ z ∈ HandedSet A.val b k, ∑ i, (y i - z i) ^ 2 ≤ D ^ 2) :
    ∃ I : (sparseDriver glp E err fuel gi A b k).Inner, ∀ M > 0, ∀ ε > 0, ∀ δ > 0, ∃ η > 0, ∃ L₀ : ℕ, ∀ R ERR : ℝ, |D| < 2 ^ 10000 * |R| → 0 < ERR → ERR ≤ η →
      ∀ (e : Env ℝ) [MeasurableSpace e.r.G] (μ : Measure e.r.G), IdealSource e.r μ → ∀ seed : Int, ∀ L ≥ L₀,
        ∀ (φ : (Fin A.c → ℝ) → ℝ), Measurable φ → (∀ y ∈ HandedSet A.val b k, |φ y| ≤ M) →
        Driver.MeanWithin I (.sparseHitRun R ERR E) e μ seed φ (average (uniformIn (HandedSet A.val b k) x₀ B) φ) L ε δ := by
  obtain ⟨I, h⟩ := sparse_inner_handed hS h1 hk hne hcone hK hbd hpos hf gi hB
  refine ⟨I, fun M hM ε hε δ hδ => ?_⟩
  obtain ⟨B', hB', κ, hκ0, hκ1, hκ⟩ := h.law
  obtain ⟨η, hη, L₀, hL₀⟩ := C61_sparse_limit hE h.indep (by have := h.dim; omega) I.k h.k I.v I.x h.xA h.xpos D
    (fun y hy z hz => by
      rw [← h.iso]
      exact hD _ ((h.maps y hy.1).2 hy) _ ((h.maps z hz.1).2 hz)) B' hB' M ε δ hM hε hδ
  exact ⟨η, hη, L₀, fun R ERR hR hE0 hEη e _ μ hs seed L hL φ hφ hφM =>
    Driver.meanWithin I h.inj h.meas hκ0 hκ1 hκ hφ (hL₀ R ERR hR hE0 hEη e μ hs I.x h.xA h.xpos seed L hL (φ ∘ I.L) (hφ.comp h.meas)
      (fun y hy => hφM _ ((h.maps y hy.1).2 hy)))⟩

omit hS h1 hk hne hbd hcone hK hpos hf hB in
theorem SparseInner.ballHanded {gi : Int} {I : (sparseDriver glp E err fuel gi A b k).Inner} {K : Int}
    (h : SparseInner I (HandedSet A.val b k) x₀ B K) {u₀ : Fin d → ℝ} {ρ : ℝ}
    (hball : ∀ u, ∑ i, (chart x₀ B u i - chart x₀ B u₀ i) ^ 2 ≤ ρ ^ 2 → chart x₀ B u ∈ HandedSet A.val b k) :
    ∃ y₀, I.M *ᵥ y₀ = I.v ∧ ∀ y, I.M *ᵥ y = I.v → ∑ i, (y i - y₀ i) ^ 2 ≤ ρ ^ 2 → y ∈ PolyEq I.M I.v I.k.toNat := by
  obtain ⟨y₀, hy₀, e₀⟩ := h.onto u₀
  refine ⟨y₀, hy₀, fun y hy hle => ?_⟩
  obtain ⟨u, hu⟩ := h.hull y hy
  rw [← h.iso, e₀, ← hu] at hle
  exact (h.maps y hy).1 (hu ▸ hball u hle)

/-- **C90** (`SparseBallWalk`): on a polytope of dimension at least two that contains, in its affine hull, a ball of radius greater than the step. -/
theorem C90_ball (hd : 2 ≤ d) (hE : E.SparseLUExact) {R : ℝ} (hR : R ≠ 0) {u₀ : Fin d → ℝ} {ρ : ℝ} (hρ : |R| / Real.sqrt d < ρ)
    (hball : ∀ u, ∑ i, (chart x₀ B u i - chart x₀ B u₀ i) ^ 2 ≤ ρ ^ 2 → chart x₀ B u ∈ HandedSet A.val b k) :
    ∃ I : (sparseDriver glp E err fuel gi A b k).Inner, ∀ ε > 0, ∃ t₀ : ℕ, ∀ (e : Env ℝ) [MeasurableSpace e.r.G] (μ : Measure e.r.G),
      IdealSource e.r μ → ∀ seed : Int, ∀ t ≥ t₀,
        Driver.LawWithin I (.sparseBall R E) e μ seed (uniformIn (HandedSet A.val b k) x₀ B) t ε := by
  obtain ⟨I, h⟩ := sparse_inner_handed hS h1 hk hne hcone hK hbd hpos hf gi hB
  refine ⟨I, fun ε hε => ?_⟩
  obtain ⟨B', hB', κ, hκ0, hκ1, hκ⟩ := h.law
  obtain ⟨y₀, hy₀, hb'⟩ := h.ballHanded hball
  have hdim : (I.c : ℝ) - I.r = d := by rw [← h.dim]; push_cast; ring
  obtain ⟨κ', hκ'0, hκ'1, hκ'⟩ := uniformOnEq_chart hB' hB' (x₀ := y₀) (x₁ := I.x) (h.xA.trans hy₀.symm) I.k.toNat
  obtain ⟨t₀, ht₀⟩ := C76_limit hE h.indep (by have := h.dim; omega) h.k h.bdd hR hy₀ (by rw [hdim]; exact hρ) hb' hB' ε hε
  refine ⟨t₀, fun e _ μ hs seed t ht => Driver.lawWithin I h.inj h.meas (κ := κ * κ') (mul_ne_zero hκ0 hκ'0) (ENNReal.mul_ne_top hκ1 hκ'1) ?_
    (ht₀ e μ hs I.x ⟨h.xA, tailPos_subset _ _ h.xpos⟩ seed t ht)⟩
  rw [hκ, hκ', Measure.map_smul, smul_smul]

/-- **C90** (`SparseBallWalk`, averages). -/
theorem C90_ball_average (hd : 2 ≤ d) (hE : E.SparseLUExact) {R : ℝ} (hR : R ≠ 0) {u₀ : Fin d → ℝ} {ρ : ℝ} (hρ : |R| / Real.sqrt d < ρ)
    (hball : ∀ u, ∑ i, (chart x₀ B u i - chart x₀ B u₀ i) ^ 2 ≤ ρ ^ 2 → chart x₀ B u ∈ HandedSet A.val b k) :
    ∃ I : (sparseDriver glp E err fuel gi A b k).Inner, ∀ (φ : (Fin A.c → ℝ) → ℝ), Measurable φ → ∀ M > 0, (∀ y ∈ HandedSet A.val b k, |φ y| ≤ M) →
      ∀ ε > 0, ∀ δ > 0, ∃ L₀ : ℕ, ∀ (e : Env ℝ) [MeasurableSpace e.r.G] (μ : Measure e.r.G), IdealSource e.r μ → ∀ seed : Int, ∀ L ≥ L₀,
        Driver.MeanWithin I (.sparseBall R E) e μ seed φ (average (uniformIn (HandedSet A.val b k) x₀ B) φ) L ε δ := by
  obtain ⟨I, h⟩ := sparse_inner_handed hS h1 hk hne hcone hK hbd hpos hf gi hB
  refine ⟨I, fun φ hφ M hM hφM ε hε δ hδ => ?_⟩
  obtain ⟨B', hB', κ, hκ0, hκ1, hκ⟩ := h.law
  obtain ⟨y₀, hy₀, hb'⟩ := h.ballHanded hball
  have hdim : (I.c : ℝ) - I.r = d := by rw [← h.dim]; push_cast; ring
  obtain ⟨κ', hκ'0, hκ'1, hκ'⟩ := uniformOnEq_chart hB' hB' (x₀ := y₀) (x₁ := I.x) (h.xA.trans hy₀.symm) I.k.toNat
  obtain ⟨L₀, hL₀⟩ := C76_average hE h.indep (by have := h.dim; omega) h.k h.bdd hR hy₀ (by rw [hdim]; exact hρ) hb' hB'
    (x := I.x) ⟨h.xA, tailPos_subset _ _ h.xpos⟩ (φ ∘ I.L) (hφ.comp h.meas) M hM (fun y hy => hφM _ ((h.maps y hy.1).2 hy)) ε δ hε hδ
  refine ⟨L₀, fun e _ μ hs seed L hL => Driver.meanWithin I h.inj h.meas (κ := κ * κ') (mul_ne_zero hκ0 hκ'0) (ENNReal.mul_ne_top hκ1 hκ'1) ?_ hφ
    (hL₀ e μ hs seed L hL)⟩
  rw [hκ, hκ', Measure.map_smul, smul_smul]

/-- **C90** (`SparseJohnWalk`): if the number of constraints is at least the dimension; up to any iteration `H`, if the tolerance of the weight iteration is small
enough for that `H` and its limit large enough for that tolerance. -/
theorem C90_john (hd : 1 ≤ d) (hdk : (d : Int) ≤ handedK A.val b k) (hE : E.Exact) (ERR : ℝ) (hR : 0 < ERR) (R : ℝ) (hr : R ≠ 0) :
    ∃ I : (sparseDriver glp E err fuel gi A b k).Inner, ∀ ε > 0, ∃ t₀ : ℕ, ∀ H : ℕ, ∃ LIM₀ > 0, ∀ (LIM : ℝ) (M : Int), 0 < LIM → LIM < LIM₀ →
      3 * (handedK A.val b k : ℝ) ^ 2 / d < M * LIM ^ 2 → ∀ (o : BState ℝ) (e : Env ℝ) [MeasurableSpace e.r.G] (μ : Measure e.r.G),
      IdealSource e.r μ → ∀ seed : Int, ∀ t, t₀ ≤ t → t ≤ H →
        Driver.LawWithin I (.sparseBarrier (sparseJohnClass E ERR R LIM M) ERR E o) e μ seed (uniformIn (HandedSet A.val b k) x₀ B) t ε := by
  obtain ⟨I, h⟩ := sparse_inner_handed hS h1 hk hne hcone hK hbd hpos hf gi hB
  refine ⟨I, fun ε hε => ?_⟩
  obtain ⟨B', hB', κ, hκ0, hκ1, hκ⟩ := h.law
  have hdim : (I.c : Int) - I.r = d := by have := h.dim; omega
  have hdimR : (I.c : ℝ) - I.r = d := by rw [← h.dim]; push_cast; ring
  obtain ⟨t₀, ht₀⟩ := C79_rows E hE ERR hR R hr h.indep (by have := h.dim; omega) I.k h.k (by rw [hdim, h.keq]; exact hdk) I.v h.bdd I.x h.xA h.xpos B' hB'
    I.x h.xA h.xpos ε hε
  refine ⟨t₀, fun H => ?_⟩
  obtain ⟨LIM₀, hL0, hL⟩ := ht₀ H
  exact ⟨LIM₀, hL0, fun LIM M h0 h2 h3 o e _ μ hs seed t ht htH => Driver.lawWithin I h.inj h.meas hκ0 hκ1 hκ
    (hL LIM M h0 h2 (by rw [hdimR, h.keq]; exact h3) o e μ hs seed t ht htH)⟩

/-- **C90**: then, with `SparseDikinWalk`, after enough iterations the (image of the) position lies outside the polytope of the caller with probability bounded
away from zero, and so does every row recorded that late. -/
theorem C90_outside (hd : 1 ≤ d) (hE : E.Exact) (ERR : ℝ) (hR : 0 < ERR) (R : ℝ) (hr : R ≠ 0)
    (hlarge : ∃ y ∈ HandedSet A.val b k, y ∉ PolyEq A.val b k.toNat) :
    ∃ I : (sparseDriver glp E err fuel gi A b k).Inner, ∃ p : ℝ, 0 < p ∧ ∃ t₀ : ℕ, ∀ (o : BState ℝ) (e : Env ℝ) [MeasurableSpace e.r.G] (μ : Measure e.r.G),
      IdealSource e.r μ → ∀ niter burnin thin seed : Int, ∀ t ≥ t₀,
        p ≤ (pathProb (.sparseBarrier (sparseDikinClass R) ERR E o) e μ (callArgs I.M I.v I.x niter I.k burnin thin seed) ⟨rfl, rfl⟩
          {w | I.L (w t) ∉ PolyEq A.val b k.toNat}).toReal ∧
        (GoodInts niter burnin thin → ∀ j : ℕ, (j : Int) < (niter - burnin) / thin → rowTime burnin thin j = t →
          p ≤ (driverRowProb (fun env => sparseFullWalkRun glp E err fuel gi ((Walk.sparseBarrier (sparseDikinClass R) ERR E o).toSparse env) niter A ⟨A.r, b⟩
            k burnin thin seed) e μ j (PolyEq A.val b k.toNat)ᶜ).toReal) := by
  have hsh := C90_outside_share hbd hB hlarge
  obtain ⟨I, h⟩ := C90_dikin hS h1 hk hne hcone hK hbd hpos hf gi hB hd hE ERR hR R hr
  obtain ⟨t₀, ht₀⟩ := h _ (half_pos hsh)
  refine ⟨I, _, half_pos hsh, t₀, fun o e _ μ hs niter burnin thin seed t ht => ?_⟩
  obtain ⟨h2, h3⟩ := ht₀ o e μ hs seed t ht niter burnin thin _ (measurableSet_polyEq A.val b k.toNat).compl
  refine ⟨?_, fun hg j hj hr => ?_⟩
  · exact half_le_of_near h2
  · exact half_le_of_near (h3 hg j hj hr)

end Sparse

/-! ## An example

`P = {x ≥ 0 | x₂ + x₃ = 1, x₁ = x₂ - 1/2}` with the first equation given twice: the segment from `(0, 1/2, 1/2)` to `(1/2, 1, 0)`. The driver hands the walk
two constrained coordinates instead of three and samples the segment from `(-1/2, 0, 1)` to `(1/2, 1, 0)`. -/

/-- Its matrix. -/
def longM : Matrix (Fin 3) (Fin 3) ℝ := !![0, 1, 1; 0, 1, 1; 1, -1, 0]
/-- The same, with its dimensions. -/
def longA : DMat ℝ := ⟨3, 3, longM⟩
/-- Its right-hand side. -/
noncomputable def longB : Fin 3 → ℝ := ![1, 1, -1 / 2]

theorem long_eq (x : Fin 3 → ℝ) : longM *ᵥ x = longB ↔ x 1 + x 2 = 1 ∧ x 0 = x 1 - 1 / 2 := by
  have h0 : (longM *ᵥ x) (0 : Fin 3) = x 1 + x 2 := by
    show ∑ j : Fin 3, (!![(0 : ℝ), 1, 1; 0, 1, 1; 1, -1, 0]) 0 j * x j = _
    simp [Fin.sum_univ_three]
  have h1 : (longM *ᵥ x) (1 : Fin 3) = x 1 + x 2 := by
    show ∑ j : Fin 3, (!![(0 : ℝ), 1, 1; 0, 1, 1; 1, -1, 0]) 1 j * x j = _
    simp [Fin.sum_univ_three]
  have h2 : (longM *ᵥ x) (2 : Fin 3) = x 0 - x 1 := by
    show ∑ j : Fin 3, (!![(0 : ℝ), 1, 1; 0, 1, 1; 1, -1, 0]) 2 j * x j = _
    simp [Fin.sum_univ_three]; ring
  constructor
  · intro h
    have e0 := h0.symm.trans (congrFun h (0 : Fin 3))
    have e2 := h2.symm.trans (congrFun h (2 : Fin 3))
    have e0' : x 1 + x 2 = 1 := e0
    have e2' : x 0 - x 1 = -1 / 2 := e2
    exact ⟨e0', by linarith⟩
  · rintro ⟨e1, e2⟩
    have key : ∀ i : Fin 3, (longM *ᵥ x) i = longB i := by
      intro i
      fin_cases i
      · exact h0.trans e1
      · exact h1.trans e1
      · exact h2.trans (show x 0 - x 1 = -1 / 2 by linarith)
    exact funext key

theorem long_mem (x : Fin 3 → ℝ) : x ∈ PolyEq longM longB 3 ↔ (x 1 + x 2 = 1 ∧ x 0 = x 1 - 1 / 2) ∧ 0 ≤ x 0 ∧ 0 ≤ x 1 ∧ 0 ≤ x 2 := by
  constructor
  · rintro ⟨h1, h2⟩
    exact ⟨(long_eq x).1 h1, h2 (0 : Fin 3) (Nat.zero_le _), h2 (1 : Fin 3) (Nat.zero_le _), h2 (2 : Fin 3) (Nat.zero_le _)⟩
  · rintro ⟨h1, h2, h3, h4⟩
    have key : ∀ i : Fin 3, 0 ≤ x i := by intro i; fin_cases i <;> assumption
    exact ⟨(long_eq x).2 h1, fun i _ => key i⟩

theorem long_point : (![1 / 4, 3 / 4, 1 / 4] : Fin 3 → ℝ) ∈ PolyEq longM longB 3 := by
  rw [long_mem]
  norm_num [Matrix.cons_val_two, Matrix.tail_cons]

theorem long_survives (i : Fin 3) : Survives longM longB 3 i := by
  refine .inr ⟨_, long_point, ?_⟩
  have : ∀ i : Fin 3, (![1 / 4, 3 / 4, 1 / 4] : Fin 3 → ℝ) i ≠ 0 := by intro i; fin_cases i <;> norm_num
  exact this i

theorem long_count : survivorCount longM longB 3 = 3 :=
  survivorCount_eq (g := (id : Fin 3 → Fin 3)) Function.injective_id fun i => ⟨fun _ => ⟨i, rfl⟩, fun _ => long_survives i⟩

theorem long_rank : survivorRank longM longB 3 = 2 := by
  have h := survivorRank_eq (M := longM) (b := longB) (k := 3) (g := (id : Fin 3 → Fin 3)) fun i => ⟨fun _ => ⟨i, rfl⟩, fun _ => long_survives i⟩
  rw [h]
  show (!![(0 : ℝ), 1, 1; 0, 1, 1; 1, -1, 0]).rank = 2
  apply le_antisymm
  · have e : !![(0 : ℝ), 1, 1; 0, 1, 1; 1, -1, 0] = !![(0 : ℝ), 1; 0, 1; 1, 0] * !![(1 : ℝ), -1, 0; 0, 1, 1] := by
      ext i j; fin_cases i <;> fin_cases j <;> simp [Matrix.mul_apply, Fin.sum_univ_two]
    rw [e]
    exact (Matrix.rank_mul_le_left _ _).trans (Matrix.rank_le_width _)
  · have e : (1 : Matrix (Fin 2) (Fin 2) ℝ) = !![(0 : ℝ), 0, 1; 1, 0, 0] * !![(0 : ℝ), 1, 1; 0, 1, 1; 1, -1, 0] * !![(1 : ℝ), 1; 0, 1; 0, 0] := by
      ext i j; fin_cases i <;> fin_cases j <;> simp [Matrix.mul_apply, Fin.sum_univ_three]
    have h2 := Matrix.rank_one (R := ℝ) (n := Fin 2)
    rw [Fintype.card_fin, e] at h2
    exact h2.symm.le.trans <| (Matrix.rank_mul_le_left _ _).trans (Matrix.rank_mul_le_right _ _)

theorem long_handed : handedK longM longB 3 = 2 := by
  unfold handedK
  show (3 : Int) - ((3 : ℕ) - survivorRank longM longB 3) = 2
  rw [long_rank]; rfl

theorem long_handed_iff (i : Fin 3) : Handed longM longB 3 i ↔ 1 ≤ i.val := by
  have := handed_iff (M := longM) (b := longB) (k := 3) (g := (id : Fin 3 → Fin 3)) _root_.strictMono_id
    (fun i => ⟨fun _ => ⟨i, rfl⟩, fun _ => long_survives i⟩) (by rw [long_handed]; norm_num) i
  rw [long_handed] at this
  exact this

theorem long_set (x : Fin 3 → ℝ) : x ∈ HandedSet longM longB 3 ↔ (x 1 + x 2 = 1 ∧ x 0 = x 1 - 1 / 2) ∧ 0 ≤ x 1 ∧ 0 ≤ x 2 := by
  constructor
  · rintro ⟨h1, -, h2⟩
    exact ⟨(long_eq x).1 h1, h2 (1 : Fin 3) ((long_handed_iff 1).2 le_rfl), h2 (2 : Fin 3) ((long_handed_iff 2).2 (by norm_num))⟩
  · rintro ⟨h1, h2, h3⟩
    have key : ∀ i : Fin 3, 1 ≤ i.val → 0 ≤ x i := by
      intro i; fin_cases i
      · intro h; exact absurd h (by norm_num)
      · intro _; exact h2
      · intro _; exact h3
    exact ⟨(long_eq x).2 h1, fun i hi => absurd (long_survives i) hi, fun i hi => key i ((long_handed_iff i).1 hi)⟩

/-- Coordinates of the segment. -/
def longDir : Matrix (Fin 3) (Fin 1) ℝ := !![1; 1; -1]
/-- Its lower end. -/
noncomputable def longX : Fin 3 → ℝ := ![-1 / 2, 0, 1]

theorem long_chart (u : Fin 1 → ℝ) : chart longX longDir u = ![u 0 - 1 / 2, u 0, 1 - u 0] := by
  funext i
  simp only [chart, longX, longDir]
  fin_cases i <;> simp [Matrix.mulVec, dotProduct] <;> ring

theorem long_chart_set (u : Fin 1 → ℝ) : chart longX longDir u ∈ HandedSet longM longB 3 ↔ 0 ≤ u 0 ∧ u 0 ≤ 1 := by
  rw [long_set, long_chart]
  simp

theorem long_isChart : IsChart (HandedSet longM longB 3) longX longDir where
  inj u hu := by
    have h0 : (longDir *ᵥ u) (0 : Fin 3) = 0 := congrFun hu (0 : Fin 3)
    funext i
    have : i = 0 := Subsingleton.elim _ _
    subst this
    simpa [longDir, Matrix.mulVec, dotProduct] using h0
  covers x hx := by
    obtain ⟨⟨h1, h2⟩, -, -⟩ := (long_set x).1 hx
    refine ⟨fun _ => x 1, ?_⟩
    rw [long_chart]
    have key : ∀ i : Fin 3, (![x 1 - 1 / 2, x 1, 1 - x 1] : Fin 3 → ℝ) i = x i := by
      intro i; fin_cases i
      · exact h2.symm
      · rfl
      · show 1 - x 1 = x 2
        linarith
    exact funext key
  solid := by
    refine ⟨fun _ => 1 / 2, mem_interior.2 ⟨{u | 0 < u 0 ∧ u 0 < 1}, fun u hu => ?_, ?_, by norm_num⟩⟩
    · exact (long_chart_set u).2 ⟨hu.1.le, hu.2.le⟩
    · exact (isOpen_lt continuous_const (continuous_apply 0)).inter (isOpen_lt (continuous_apply 0) continuous_const)

theorem long_bdd : ∃ C, ∀ y ∈ HandedSet longM longB 3, ∀ i, |y i| ≤ C := by
  refine ⟨1, fun y hy => ?_⟩
  obtain ⟨⟨h1, h2⟩, h3, h4⟩ := (long_set y).1 hy
  have key : ∀ i : Fin 3, |y i| ≤ 1 := by
    intro i; fin_cases i
    · show |y 0| ≤ 1; rw [abs_le]; constructor <;> linarith
    · show |y 1| ≤ 1; rw [abs_le]; constructor <;> linarith
    · show |y 2| ≤ 1; rw [abs_le]; constructor <;> linarith
  exact key

/-- Half of the segment that is sampled lies outside the polytope. -/
theorem long_share : share (uniformIn (HandedSet longM longB 3) longX longDir) (PolyEq longM longB 3)ᶜ = 1 / 2 := by
  have hm : Measurable (chart longX longDir) := measurable_chart _ _
  have hmP : MeasurableSet (PolyEq longM longB 3)ᶜ := (measurableSet_polyEq longM longB 3).compl
  have e1 : uniformIn (HandedSet longM longB 3) longX longDir (PolyEq longM longB 3)ᶜ =
      volume (chart longX longDir ⁻¹' (PolyEq longM longB 3)ᶜ ∩ {u | chart longX longDir u ∈ HandedSet longM longB 3}) := by
    unfold uniformIn
    rw [Measure.map_apply hm hmP, Measure.restrict_apply (hm hmP)]
  have e2 : uniformIn (HandedSet longM longB 3) longX longDir univ = volume {u | chart longX longDir u ∈ HandedSet longM longB 3} := by
    unfold uniformIn
    rw [Measure.map_apply hm MeasurableSet.univ, preimage_univ, Measure.restrict_apply_univ]
  have s1 : chart longX longDir ⁻¹' (PolyEq longM longB 3)ᶜ ∩ {u | chart longX longDir u ∈ HandedSet longM longB 3} =
      Set.pi univ fun _ : Fin 1 => Ico (0 : ℝ) (1 / 2) := by
    ext u
    have hP : chart longX longDir u ∈ PolyEq longM longB 3 ↔ (1 / 2 ≤ u 0 ∧ 0 ≤ u 0 ∧ u 0 ≤ 1) := by
      rw [long_mem, long_chart]
      simp
    have hQ := long_chart_set u
    constructor
    · rintro ⟨h1, h2⟩ i -
      have hi : i = 0 := Subsingleton.elim _ _
      subst hi
      obtain ⟨h3, h4⟩ := hQ.1 h2
      refine ⟨h3, lt_of_not_ge fun h => h1 (hP.2 ⟨h, h3, h4⟩)⟩
    · intro h
      obtain ⟨h1, h2⟩ := h 0 (mem_univ _)
      exact ⟨fun h => absurd (hP.1 h).1 (not_le.2 h2), hQ.2 ⟨h1, by linarith⟩⟩
  have s2 : {u | chart longX longDir u ∈ HandedSet longM longB 3} = Set.pi univ fun _ : Fin 1 => Icc (0 : ℝ) 1 := by
    ext u
    refine (long_chart_set u).trans ⟨fun h i _ => ?_, fun h => h 0 (mem_univ _)⟩
    have hi : i = 0 := Subsingleton.elim _ _
    subst hi
    exact h
  unfold share
  rw [e1, e2, s1, s2, volume_pi_pi, volume_pi_pi]
  simp

/-- **C90** on the example: whatever the (exact) LP solver and linear algebra, in the long run half of the rows `sparseFullWalkRun` returns with
`SparseDikinWalk` lie outside the polytope of the caller: this is the limit of the probability after `t` iterations, and of the probability for a row recorded at iteration `t`. -/
theorem C90_half {glp : Glpk ℝ} {E : Eigen ℝ} {err : ℝ} (hS : FRSetting glp E err longA) (h1 : err ≤ 1) {fuel : ℕ} (hf : 3 < fuel) (gi : Int)
    (hE : E.Exact) (ERR : ℝ) (hR : 0 < ERR) (R : ℝ) (hr : R ≠ 0) :
    ∃ I : (sparseDriver glp E err fuel gi longA longB 3).Inner, ∀ ε > 0, ∃ t₀ : ℕ, ∀ (o : BState ℝ) (e : Env ℝ) [MeasurableSpace e.r.G] (μ : Measure e.r.G),
      IdealSource e.r μ → ∀ niter burnin thin seed : Int, ∀ t ≥ t₀,
        |(pathProb (.sparseBarrier (sparseDikinClass R) ERR E o) e μ (callArgs I.M I.v I.x niter I.k burnin thin seed) ⟨rfl, rfl⟩
          {w | I.L (w t) ∉ PolyEq longA.val longB 3}).toReal - 1 / 2| ≤ ε ∧
        (GoodInts niter burnin thin → ∀ j : ℕ, (j : Int) < (niter - burnin) / thin → rowTime burnin thin j = t →
          |(driverRowProb (fun env => sparseFullWalkRun glp E err fuel gi ((Walk.sparseBarrier (sparseDikinClass R) ERR E o).toSparse env) niter longA
            ⟨_, longB⟩ 3 burnin thin seed) e μ j (PolyEq longA.val longB 3)ᶜ).toReal - 1 / 2| ≤ ε) := by
  have hcone : ¬ CoordCone (PolyEq longA.val longB 3) 3 := by
    apply not_coordCone_of_zero
    intro h
    have h1 : (0 : ℝ) + 0 = 1 := ((long_mem _).1 h).1.1
    norm_num at h1
  obtain ⟨I, h⟩ := C90_dikin hS h1 (b := longB) (k := 3) (by decide) ⟨_, long_point⟩ hcone
    (by show 1 ≤ handedK longM longB 3 ∧ handedK longM longB 3 ≤ (survivorCount longM longB 3 : ℕ); rw [long_handed, long_count]; norm_num) long_bdd
    ⟨![0, 1 / 2, 1 / 2], (long_set _).2 (by norm_num [Matrix.cons_val_two, Matrix.tail_cons]), fun i hi => by
      have key : ∀ i : Fin 3, 1 ≤ i.val → 0 < (![0, 1 / 2, 1 / 2] : Fin 3 → ℝ) i := by
        intro i; fin_cases i <;> norm_num
      exact key i ((long_handed_iff i).1 hi)⟩ (fuel := fuel) (by simpa using hf) gi long_isChart le_rfl hE ERR hR R hr
  refine ⟨I, fun ε hε => ?_⟩
  obtain ⟨t₀, ht₀⟩ := h ε hε
  refine ⟨t₀, fun o e _ μ hs niter burnin thin seed t ht => ?_⟩
  have := ht₀ o e μ hs seed t ht niter burnin thin _ (measurableSet_polyEq longA.val longB 3).compl
  have hsh := long_share
  rw [← hsh]
  exact this

/-- The hypotheses of `C90_half` are met, and the set really is larger: `(-1/4, 1/4, 3/4)` belongs to it. -/
example : (∃ err, FRSetting exactGlpk exactEigen err longA ∧ err ≤ 1) ∧ exactEigen.Exact ∧
    (![-1 / 4, 1 / 4, 3 / 4] : Fin 3 → ℝ) ∈ HandedSet longA.val longB 3 ∧ (![-1 / 4, 1 / 4, 3 / 4] : Fin 3 → ℝ) ∉ PolyEq longA.val longB 3 := by
  obtain ⟨err, h1, h2⟩ := exists_frSetting longA
  refine ⟨⟨err, h2, h1⟩, exactEigen_exact, (long_set _).2 (by norm_num [Matrix.cons_val_two, Matrix.tail_cons]), fun h => ?_⟩
  have h3 : (0 : ℝ) ≤ -1 / 4 := ((long_mem _).1 h).2.1
  norm_num at h3

/-- Every row of a run of the ball walk or Hit-and-Run lies in the longer segment. -/
example (R ERR : ℝ) (env : Env ℝ) (hu : env.r.UnitDraws) {err : ℝ} (hS : FRSetting exactGlpk exactEigen err longA) {rows : List (Fin 3 → ℝ)}
    (h : sparseFullWalkRun exactGlpk exactEigen err 4 0 ((Walk.sparseHitRun R ERR exactEigen).toSparse env) 100 longA ⟨_, longB⟩ 3 10 3 7 = .ok rows) :
    ∀ x ∈ rows, (x 1 + x 2 = 1 ∧ x 0 = x 1 - 1 / 2) ∧ 0 ≤ x 1 ∧ 0 ≤ x 2 := by
  intro x hx
  refine (long_set x).1 (C90_rows hS (b := longB) (k := 3) (by decide) ⟨_, long_point⟩ ?_
    (staysInside_sparseHitRun R ERR exactEigen_exact.sparseLU env hu) ⟨by decide, by decide, by decide, by decide⟩ h x hx)
  exact ⟨![0, 1 / 2, 1 / 2], (long_set _).2 (by norm_num [Matrix.cons_val_two, Matrix.tail_cons])⟩

end PW
