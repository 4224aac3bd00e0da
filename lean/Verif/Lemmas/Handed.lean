import Verif.Lemmas.EndToEnd
import Verif.Spec.Handed

/-!
# The problem on which the sparse driver runs the walk, in general
-/

namespace PW
open MeasureTheory Matrix Set
open scoped ENNReal

/-- The survivors after the `j`-th one. -/
theorem card_after {m n c : ℕ} {M : Matrix (Fin m) (Fin n) ℝ} {b : Fin m → ℝ} {k : ℕ} {g : Fin c → Fin n} (hg : StrictMono g)
    (hs : ∀ i, Survives M b k i ↔ ∃ j, g j = i) (j : Fin c) : Nat.card {i : Fin n // g j < i ∧ Survives M b k i} = c - 1 - j.val := by
  have e : {l : Fin c // j < l} ≃ {i : Fin n // g j < i ∧ Survives M b k i} :=
    Equiv.ofBijective (fun l => ⟨g l.1, hg l.2, (hs _).2 ⟨l.1, rfl⟩⟩)
      ⟨fun a b hab => Subtype.ext (hg.injective (congrArg Subtype.val hab)), fun ⟨i, hi, hi'⟩ => by
        obtain ⟨l, rfl⟩ := (hs i).1 hi'
        exact ⟨⟨l, hg.lt_iff_lt.1 hi⟩, rfl⟩⟩
  rw [← Nat.card_congr e, Nat.card_eq_fintype_card, Fintype.card_subtype]
  have : (Finset.univ.filter fun l : Fin c => j < l) = Finset.Ioi j := by ext l; simp
  rw [this, Fin.card_Ioi]

theorem handed_iff {m n c : ℕ} {M : Matrix (Fin m) (Fin n) ℝ} {b : Fin m → ℝ} {k : Int} {g : Fin c → Fin n} (hg : StrictMono g)
    (hs : ∀ i, Survives M b k.toNat i ↔ ∃ j, g j = i) (hK : 1 ≤ handedK M b k) (j : Fin c) :
    Handed M b k (g j) ↔ c - (handedK M b k).toNat ≤ j.val := by
  unfold Handed
  rw [card_after hg hs j]
  have := j.isLt
  constructor
  · rintro ⟨-, h⟩; omega
  · intro h; exact ⟨(hs _).2 ⟨j, rfl⟩, by omega⟩

variable {glp : Glpk ℝ} {E : Eigen ℝ} {err : ℝ} {A : DMat ℝ}

/-- The reduced problem with parameter `handedK` describes `HandedSet`. -/
theorem handed_maps (hS : FRSetting glp E err A) {b : Fin A.r → ℝ} {k : Int}
    (hne : (PolyEq A.val b k.toNat).Nonempty) (hK : 1 ≤ handedK A.val b k) {fuel : ℕ} {gi gi' : Int} {sparse : Bool} {out : FROutput ℝ A.c}
    (hr : FacialReduction.reduce glp E err fuel gi A ⟨A.r, b⟩ k sparse = .ok (out, gi')) :
    (∀ y, out.sparse.A *ᵥ y = out.sparse.b →
      (out.sparse.V *ᵥ y ∈ HandedSet A.val b k ↔ y ∈ PolyEq out.sparse.A out.sparse.b (handedK A.val b k).toNat)) ∧
    (∀ x ∈ HandedSet A.val b k, ∃ y ∈ PolyEq out.sparse.A out.sparse.b (handedK A.val b k).toNat, out.sparse.V *ᵥ y = x) ∧
    ∃ g : Fin out.sparse.c → Fin A.c, StrictMono g ∧ (∀ i j, out.sparse.V i j = if g j = i then 1 else 0) ∧
      ∀ j : Fin out.sparse.c, Handed A.val b k (g j) ↔ out.sparse.c - (handedK A.val b k).toNat ≤ j.val := by
  set P := HandedSet A.val b k with hP
  have hbij0 := C39_facialReduction hS hne hr
  obtain ⟨y₁, hy₁, hy₁pos⟩ := C40_facialReduction hS hne hr
  obtain ⟨hinv, -, -⟩ := reduce_inv hS hr
  obtain ⟨g, hg, hgx, hV, f, hfinj, hAsel⟩ := hinv.sel
  have hsur := reduce_survivors hS hne hr hg hgx hV
  have hker := fun u => hinv.ker hne hy₁ hy₁pos u
  have hhand := handed_iff hg hsur hK
  have hVinj : Function.Injective fun y => out.sparse.V *ᵥ y := hinv.injective
  -- the equations
  have hVy₁ : A.val *ᵥ (out.sparse.V *ᵥ y₁) = b := (hbij0.mapsTo hy₁).1
  have hsub : ∀ y, A.val *ᵥ (out.sparse.V *ᵥ y) = 0 → out.sparse.A *ᵥ y = 0 := by
    intro y hy
    have e : out.sparse.A = (A.val.submatrix id g).submatrix f id := by rw [hAsel]; rfl
    funext i
    rw [mulVec_selV hV] at hy
    have := congrFun hy (f i)
    rw [e]
    exact this
  have heq : ∀ y, out.sparse.A *ᵥ y = out.sparse.b ↔ A.val *ᵥ (out.sparse.V *ᵥ y) = b := by
    intro y
    constructor
    · intro h
      have h2 := hker (y - y₁) (by rw [Matrix.mulVec_sub, h, hy₁.1, sub_self])
      rw [Matrix.mulVec_sub, Matrix.mulVec_sub, hVy₁, sub_eq_zero] at h2
      exact h2
    · intro h
      have h2 := hsub (y - y₁) (by rw [Matrix.mulVec_sub, Matrix.mulVec_sub, h, hVy₁, sub_self])
      rw [Matrix.mulVec_sub, hy₁.1, sub_eq_zero] at h2
      exact h2
  have hzero : ∀ y i, ¬ Survives A.val b k.toNat i → (out.sparse.V *ᵥ y) i = 0 := by
    intro y i hi
    show ∑ j, out.sparse.V i j * y j = 0
    refine Finset.sum_eq_zero fun j _ => ?_
    rw [hV, if_neg fun e => hi ((hsur i).2 ⟨j, e⟩), zero_mul]
  have hmaps : ∀ y, out.sparse.A *ᵥ y = out.sparse.b →
      (out.sparse.V *ᵥ y ∈ P ↔ y ∈ PolyEq out.sparse.A out.sparse.b (handedK A.val b k).toNat) := by
    intro y hy
    constructor
    · rintro ⟨-, -, h3⟩
      refine ⟨hy, fun j hj => ?_⟩
      have := h3 (g j) ((hhand j).2 hj)
      rwa [selV_mulVec hg.injective hV] at this
    · rintro ⟨-, h3⟩
      refine ⟨(heq y).1 hy, hzero y, fun i hi => ?_⟩
      obtain ⟨j, rfl⟩ := (hsur i).1 hi.1
      rw [selV_mulVec hg.injective hV]
      exact h3 j ((hhand j).1 hi)
  have hpre : ∀ x, A.val *ᵥ x = b → (∀ i, ¬ Survives A.val b k.toNat i → x i = 0) →
      ∃ y, out.sparse.A *ᵥ y = out.sparse.b ∧ out.sparse.V *ᵥ y = x := by
    intro x hx hx0
    have e : out.sparse.V *ᵥ (x ∘ g) = x := by
      funext i
      by_cases hi : Survives A.val b k.toNat i
      · obtain ⟨j, rfl⟩ := (hsur i).1 hi
        exact selV_mulVec hg.injective hV _ j
      · rw [hzero _ i hi, hx0 i hi]
    exact ⟨x ∘ g, (heq _).2 (by rw [e]; exact hx), e⟩
  have hbij : ∀ x ∈ P, ∃ y ∈ PolyEq out.sparse.A out.sparse.b (handedK A.val b k).toNat, out.sparse.V *ᵥ y = x := by
    intro x hx
    obtain ⟨y, hy, e⟩ := hpre x hx.1 hx.2.1
    exact ⟨y, (hmaps y hy).1 (e ▸ hx), e⟩
  exact ⟨hmaps, hbij, g, hg, hV, hhand⟩

theorem sparse_inner_handed (hS : FRSetting glp E err A) (h1 : err ≤ 1) {b : Fin A.r → ℝ} {k : Int} (hk : 0 < k ∧ k ≤ A.c)
    (hne : (PolyEq A.val b k.toNat).Nonempty) (hcone : ¬ CoordCone (PolyEq A.val b k.toNat) k.toNat)
    (hK : 1 ≤ handedK A.val b k ∧ handedK A.val b k ≤ survivorCount A.val b k.toNat)
    (hbd : ∃ C, ∀ y ∈ HandedSet A.val b k, ∀ i, |y i| ≤ C) (hpos : ∃ y ∈ HandedSet A.val b k, ∀ i, Handed A.val b k i → 0 < y i)
    {fuel : ℕ} (hf : k.toNat < fuel) (gi : Int) {d : ℕ} {x₀ : Fin A.c → ℝ} {B : Matrix (Fin A.c) (Fin d) ℝ}
    (hB : IsChart (HandedSet A.val b k) x₀ B) :
    ∃ I : (sparseDriver glp E err fuel gi A b k).Inner, SparseInner I (HandedSet A.val b k) x₀ B (handedK A.val b k) := by
  set P := HandedSet A.val b k with hP
  obtain ⟨out, gi', hr⟩ := (C69_returns hS h1 b hk hne hf gi true).1 hcone
  obtain ⟨hdc, hdr⟩ := C68_dimensions hS hne hr
  obtain ⟨hinv, -, -⟩ := reduce_inv hS hr
  obtain ⟨hmaps, hbij, g, hg, hV, hhand⟩ := handed_maps hS hne hK.1 hr
  have hrun : ∀ w env niter burnin thin seed, sparseDriver glp E err fuel gi A b k w env niter burnin thin seed =
      (SparseCenter.getInitialPoint glp ⟨_, _, out.sparse.A⟩ ⟨_, out.sparse.b⟩ (handedK A.val b k)).bind fun x =>
      (w.run env (callArgs out.sparse.A out.sparse.b x niter (handedK A.val b k) burnin thin seed)).map
        (List.map fun y => out.sparse.V *ᵥ y) := by
    intro w env niter burnin thin seed
    have hK : ((out.sparse.r : Int) - ((A.r : Int) - k)) = handedK A.val b k := by
      unfold handedK; omega
    show sparseFullWalkRun _ _ _ _ _ _ _ _ _ _ _ _ _ = _
    unfold sparseFullWalkRun
    rw [if_neg (by omega), hr, Out.ok_bind]
    simp only [hK]
    congr 1
    funext x
    show Out.bind (Out.map _ _) _ = _
    rcases w.run env (callArgs out.sparse.A out.sparse.b x niter (handedK A.val b k) burnin thin seed) with rows | _ | _ | _
    · rw [Out.map_ok, Out.ok_bind, Out.map_ok]
      refine mapRows_total (fun y => ?_) rows
      unfold sparseBack
      rw [dif_pos rfl, mulVec_real]
      rfl
    all_goals rfl
  have hVinj : Function.Injective fun y => out.sparse.V *ᵥ y := hinv.injective
  obtain ⟨q, hq, hqpos⟩ := hpos
  obtain ⟨y₀, hy₀, hyq⟩ := hbij q hq
  have hy₀pos' : y₀ ∈ TailPos out.sparse.c (handedK A.val b k).toNat := by
    intro j hj
    have := hqpos (g j) ((hhand j).2 hj)
    rwa [← hyq, selV_mulVec hg.injective hV] at this
  clear hhand
  rw [← hdc] at hK
  generalize handedK A.val b k = K at *
  obtain ⟨d', B', hB'⟩ := exists_kernelBasis out.sparse.A
  -- the chart of the reduced problem, carried over
  have hch : ∀ (z : Fin out.sparse.c → ℝ) u, chart (out.sparse.V *ᵥ z) (out.sparse.V * B') u = out.sparse.V *ᵥ chart z B' u := by
    intro z u
    simp only [chart, Matrix.mulVec_add, Matrix.mulVec_mulVec]
  have hAch : ∀ z, out.sparse.A *ᵥ z = out.sparse.b → ∀ u, out.sparse.A *ᵥ chart z B' u = out.sparse.b := by
    intro z hz u
    simp only [chart]
    rw [Matrix.mulVec_add, Matrix.mulVec_mulVec, hB'.mul_zero, Matrix.zero_mulVec, add_zero, hz]
  have hcov : ∀ z, out.sparse.A *ᵥ z = out.sparse.b → ∀ y, out.sparse.A *ᵥ y = out.sparse.b → ∃ u, chart z B' u = y := by
    intro z hz y hy
    obtain ⟨u, hu⟩ := hB'.span (y - z) (by rw [Matrix.mulVec_sub, hy, hz, sub_self])
    exact ⟨u, by simp only [chart]; rw [hu]; abel⟩
  have hset : ∀ z, out.sparse.A *ᵥ z = out.sparse.b →
      {u | chart (out.sparse.V *ᵥ z) (out.sparse.V * B') u ∈ P} = {u | chart z B' u ∈ TailNonneg out.sparse.c K.toNat} := by
    intro z hz
    ext u
    show chart _ _ u ∈ P ↔ _
    rw [hch, hmaps _ (hAch z hz u)]
    exact ⟨fun h => h.2, fun h => ⟨hAch z hz u, h⟩⟩
  have hchart : ∀ z, out.sparse.A *ᵥ z = out.sparse.b → z ∈ TailPos out.sparse.c K.toNat →
      IsChart P (out.sparse.V *ᵥ z) (out.sparse.V * B') := by
    intro z hz hzp
    refine ⟨fun u hu => hB'.inj u ?_, fun x hx => ?_, ?_⟩
    · rw [← Matrix.mulVec_mulVec] at hu
      exact hVinj (hu.trans (Matrix.mulVec_zero _).symm)
    · obtain ⟨y, hy, e⟩ := hbij x hx
      obtain ⟨u, rfl⟩ := hcov z hz y hy.1
      exact ⟨u, (hch z u).trans e⟩
    · rw [hset z hz]
      have hcont : Continuous (chart z B') := by
        unfold chart
        exact continuous_const.add (Continuous.matrix_mulVec continuous_const continuous_id)
      have ho : IsOpen {u | chart z B' u ∈ TailPos out.sparse.c K.toNat} := by
        have : {u | chart z B' u ∈ TailPos out.sparse.c K.toNat} =
            ⋂ i : Fin out.sparse.c, ⋂ _ : out.sparse.c - K.toNat ≤ i.val, {u | 0 < chart z B' u i} := by
          ext u; simp [TailPos]
        rw [this]
        exact isOpen_iInter_of_finite fun i => isOpen_iInter_of_finite fun _ =>
          isOpen_lt continuous_const ((continuous_apply i).comp hcont)
      refine ⟨0, mem_interior.2 ⟨_, fun u hu => tailPos_subset _ _ hu, ho, ?_⟩⟩
      show chart z B' 0 ∈ TailPos out.sparse.c K.toNat
      have : chart z B' 0 = z := by simp [chart]
      rw [this]
      exact hzp
  obtain rfl : d = d' := hB.dim_eq (hchart y₀ hy₀.1 hy₀pos')
  obtain ⟨C, hC⟩ := hbd
  have hbdd : ∀ y ∈ PolyEq out.sparse.A out.sparse.b K.toNat, ∀ i, |y i| ≤ C := by
    intro y hy i
    have := hC _ ((hmaps y hy.1).2 hy) (g i)
    rwa [selV_mulVec hg.injective hV] at this
  have hKn : ((K.toNat : ℕ) : Int) = K := by omega
  obtain ⟨x, hx0, hx1, -, hx2⟩ := C47_bounded glp hS.lp ⟨_, _, out.sparse.A⟩ out.sparse.b K.toNat (by omega) (by show K.toNat ≤ out.sparse.c; omega)
    ⟨y₀, hy₀⟩ ⟨C, hbdd⟩
  have hxp := hx2 ⟨y₀, hy₀, hy₀pos'⟩
  rw [hKn] at hx0
  have mV : Measurable fun y => out.sparse.V *ᵥ y := (Continuous.matrix_mulVec continuous_const continuous_id).measurable
  have hcx := hchart x hx1.1 hxp
  have mP : MeasurableSet P := by
    have : P = {x | A.val *ᵥ x = b} ∩ ((⋂ i, {x | ¬ Survives A.val b k.toNat i → x i = 0}) ∩ ⋂ i, {x | Handed A.val b k i → 0 ≤ x i}) := by
      ext x; simp only [hP, HandedSet, Set.mem_ofPred_eq, mem_inter_iff, mem_iInter]
    rw [this]
    refine (measurableSet_eq_fun (Continuous.matrix_mulVec continuous_const continuous_id).measurable measurable_const).inter
      ((MeasurableSet.iInter fun i => ?_).inter (MeasurableSet.iInter fun i => ?_))
    · exact MeasurableSet.imp (MeasurableSet.const _) (measurableSet_eq_fun (measurable_pi_apply i) measurable_const)
    · exact MeasurableSet.imp (MeasurableSet.const _) (measurableSet_le measurable_const (measurable_pi_apply i))
  obtain ⟨κ, hκ0, hκ1, hκ⟩ := uniformIn_chart mP hcx hB
  refine ⟨⟨_, _, out.sparse.A, out.sparse.b, x, K, fun y => out.sparse.V *ᵥ y, fun w env niter burnin thin seed => ?_⟩, ?_⟩
  · rw [hrun, hx0, Out.ok_bind]
  · refine ⟨hVinj, mV, hinv.indep, kernelBasis_card hinv.indep hB', rfl, ⟨hK.1, by show K ≤ out.sparse.c; omega⟩, hmaps, ?_, ?_, ⟨C, hbdd⟩, hx1.1, hxp, ?_,
      ⟨B', hB', κ, hκ0, hκ1, ?_⟩⟩
    · intro y hy
      obtain ⟨u, rfl⟩ := hcov x hx1.1 y hy
      obtain ⟨v, hv⟩ := hcx.points hB u
      exact ⟨v, hv.trans (hch x u)⟩
    · intro u
      obtain ⟨v, hv⟩ := hB.points hcx u
      exact ⟨chart x B' v, hAch x hx1.1 v, (hch x v).symm.trans hv⟩
    · intro y z
      have := selV_iso hg.injective hV (y - z)
      rw [Matrix.mulVec_sub] at this
      exact this
    · rw [hκ]
      congr 1
      unfold uniformIn uniformOnEq
      rw [hset x hx1.1]
      have e : chart (out.sparse.V *ᵥ x) (out.sparse.V * B') = (fun y => out.sparse.V *ᵥ y) ∘ chart x B' := funext fun u => hch x u
      rw [e, Measure.map_map mV (measurable_chart x B')]

end PW
