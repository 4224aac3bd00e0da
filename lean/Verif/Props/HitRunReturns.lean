import Verif.Lemmas.HitRunAE
import Verif.Lemmas.AsReturns
import Verif.Props.DensePolytope
import Verif.Props.SparseBallLaw

/-!
# C58: Hit-and-Run returns with probability one
-/

namespace PW
open Matrix MeasureTheory Set

/-! ## The chord search ends at dyadic points -/

/-- `t` is a dyadic multiple of `|R|`. -/
def Dyadic (R t : ℝ) : Prop := ∃ i j : ℕ, t = |R| * i / 2 ^ j

theorem Dyadic.mid {R a c : ℝ} (ha : Dyadic R a) (hc : Dyadic R c) : Dyadic R ((a + c) / 2) := by
  obtain ⟨i, j, rfl⟩ := ha
  obtain ⟨i', j', rfl⟩ := hc
  refine ⟨i * 2 ^ j' + i' * 2 ^ j, j + j' + 1, ?_⟩
  push_cast
  rw [pow_succ, pow_add]
  field_simp

theorem Dyadic.zero (R : ℝ) : Dyadic R 0 := ⟨0, 0, by simp⟩

theorem bisectR_dyadic (P : ℝ → Prop) (R ERR : ℝ) (fuel : ℕ) (a c μ : ℝ) (ha : Dyadic R a) (hc : Dyadic R c)
    (hμ : Dyadic R μ) {t : ℝ} (h : bisectR P ERR fuel a c μ = .ok t) : Dyadic R t := by
  induction fuel generalizing a c μ with
  | zero =>
    rw [bisectR] at h
    split_ifs at h
    cases h; exact hμ
  | succ fuel ih =>
    rw [bisectR] at h
    split_ifs at h
    · exact ih _ _ _ (ha.mid hc) hc (ha.mid hc) h
    · exact ih _ _ _ ha (ha.mid hc) (ha.mid hc) h
    · cases h; exact hμ

theorem bisectR_start_dyadic (P : ℝ → Prop) (R ERR : ℝ) (fuel : ℕ) (c : ℝ) (hc : ∃ j : ℕ, c = 2 ^ (j + 1) * |R|) {t : ℝ}
    (h : bisectR P ERR fuel 0 c (c / 2) = .ok t) : Dyadic R t := by
  obtain ⟨j, hj⟩ := hc
  have hc : Dyadic R c := ⟨2 ^ (j + 1), 0, by rw [hj]; push_cast; ring⟩
  refine bisectR_dyadic P R ERR fuel 0 c (c / 2) (Dyadic.zero R) hc ?_ h
  have := (Dyadic.zero R).mid hc
  rwa [zero_add] at this

theorem chordR_dyadic (P : ℝ → Prop) (R ERR : ℝ) (fuel : ℕ) {t : ℝ} (h : chordR P R ERR fuel = .ok t) : Dyadic R t := by
  rw [chordR, Out.bind_eq_ok] at h
  obtain ⟨c, hc, h⟩ := h
  exact bisectR_start_dyadic P R ERR fuel c (expandR_spec P fuel R hc).1 h

theorem schordR_dyadic (P : ℝ → Prop) (R ERR : ℝ) (fuel : ℕ) {t : ℝ} (h : schordR P R ERR fuel = .ok t) : Dyadic R t := by
  rw [schordR] at h
  cases hx : sexpandR P SparseHitRun.maxIter R with
  | none => rw [hx] at h; cases h; exact Dyadic.zero R
  | some c => rw [hx] at h; exact bisectR_start_dyadic P R ERR fuel c (sexpandR_spec P _ R hx).1 h

/-! ## One dense step -/

section
variable {m n : ℕ}

theorem Interior.between {A : Matrix (Fin m) (Fin n) ℝ} {b : Fin m → ℝ} {x u : Fin n → ℝ} {s r t : ℝ}
    (hs : ray x u s ∈ Interior A b) (ht : ray x u t ∈ Interior A b) (h1 : s ≤ r) (h2 : r ≤ t) :
    ray x u r ∈ Interior A b := by
  intro i
  have h3 := hs i
  have h4 := ht i
  rw [mulVec_ray] at *
  rcases le_or_gt 0 (A.mulVec u i) with h | h <;> nlinarith

/-- Both chord searches from an interior point return, and end strictly inside, unless a dyadic point is on the boundary. -/
theorem search_interior (A : Matrix (Fin m) (Fin n) ℝ) (b : Fin m → ℝ) (x u : Fin n → ℝ) (hu : IsUnitVec u)
    (hx : x ∈ Interior A b) (hb : ∃ B, ∀ y ∈ Poly A b, ∀ i, |y i| ≤ B) (R ERR : ℝ) (hR : R ≠ 0) (hE : 0 < ERR)
    (hd : ∀ i j : ℕ, ray x u (|R| * i / 2 ^ j) ∈ Poly A b → ray x u (|R| * i / 2 ^ j) ∈ Interior A b) :
    ∃ fuel t, 0 < t ∧ ray x u t ∈ Interior A b ∧ ∀ f ≥ fuel, HitRun.binarySearch R ERR f A b u x = .ok t := by
  obtain ⟨fuel, t, h⟩ := C13_chord_terminates_partial A b x u hu hx hb R ERR hR hE hd
  obtain ⟨h0, hin, hout⟩ := C12_chord A b x u hu (fun i => (hx i).le) R ERR t fuel (h fuel le_rfl)
  refine ⟨fuel, t, h0, ?_, h⟩
  have hm : 0 < m := by
    rcases Nat.eq_zero_or_pos m with rfl | h
    · exact absurd (fun i => i.elim0 : ray x u (t + ERR) ∈ Poly A b) (hout _ le_rfl)
    · exact h
  have h1 := h fuel le_rfl
  rw [chord_dense hm A b x u hu] at h1
  obtain ⟨t', h2, h3⟩ := Out.map_eq_ok.1 h1
  have hp := (chordR_spec (fun t => ray x u t ∈ Poly A b) (by rw [ray_zero]; exact fun i => (hx i).le) R ERR fuel h2).1
  rw [abs_of_pos hp] at h3
  obtain ⟨i, j, hij⟩ := chordR_dyadic _ R ERR fuel h2
  rw [h3] at hij
  rw [hij] at hin ⊢
  exact hd i j hin

theorem hitRunDraw_returns {G : Type} (A : Matrix (Fin m) (Fin n) ℝ) (b : Fin m → ℝ) (x v : Fin n → ℝ) (hv : v ≠ 0)
    (hx : x ∈ Interior A b) (hb : ∃ B, ∀ y ∈ Poly A b, ∀ i, |y i| ≤ B) (R ERR : ℝ) (hR : R ≠ 0) (hE : 0 < ERR)
    (hd : ∀ i j : ℕ, ray x (fun k => v k / norm2 v * 1) (|R| * i / 2 ^ j) ∈ Poly A b →
      ray x (fun k => v k / norm2 v * 1) (|R| * i / 2 ^ j) ∈ Interior A b)
    (hd' : ∀ i j : ℕ, ray x (fun k => v k / norm2 v * (-1)) (|R| * i / 2 ^ j) ∈ Poly A b →
      ray x (fun k => v k / norm2 v * (-1)) (|R| * i / 2 ^ j) ∈ Interior A b) (val : ℝ) (hval : val ∈ Icc (0 : ℝ) 1) :
    ∃ f0 x', x' ∈ Interior A b ∧ ∀ f ≥ f0, ∀ g : G, hitRunDraw R ERR f A b x v val g = .ok (x', g) := by
  have hu := normalize_unit v hv
  have e1 : (fun k => v k / norm2 v * 1) = fun k => v k / norm2 v := by funext k; ring
  have e2 : (fun k => v k / norm2 v * (-1)) = fun k => -(v k / norm2 v) := by funext k; ring
  rw [e1] at hd
  rw [e2] at hd'
  obtain ⟨f1, p, p0, hp, h1⟩ := search_interior A b x _ hu hx hb R ERR hR hE hd
  obtain ⟨f2, q, q0, hq, h2⟩ := search_interior A b x _ hu.neg hx hb R ERR hR hE hd'
  rw [ray_neg] at hq
  refine ⟨max f1 f2, ray x (fun k => v k / norm2 v) (val * (p + q) - q), ?_, fun f hf g => ?_⟩
  · exact Interior.between hq hp (by nlinarith [hval.1]) (by nlinarith [hval.2])
  · unfold hitRunDraw
    rw [h1 f (le_trans (le_max_left _ _) hf), Out.ok_bind, e2, h2 f (le_trans (le_max_right _ _) hf), Out.ok_bind]
    congr 2
    funext i
    simp only [ray]; ring

end

/-! ## Whole calls -/

theorem withGen_hitRunStep {m n : ℕ} (R ERR : ℝ) (e : Env ℝ) (g : e.r.G) (f : ℕ) (A : Matrix (Fin m) (Fin n) ℝ)
    (b : Fin m → ℝ) : HitRun.step R ERR f (e.withGen g).r A b = HitRun.step R ERR f e.r A b := by
  funext s
  let body : (Fin n → ℝ) × e.r.G → Out ((Fin n → ℝ) × e.r.G) := fun d =>
    (HitRun.binarySearch R ERR f A b (fun i => d.1 i / norm2 d.1) s.1).bind fun posSide =>
    (HitRun.binarySearch R ERR f A b (fun i => d.1 i / norm2 d.1 * Scalar.ofInt (-1)) s.1).bind fun ns =>
    .ok (fun i => ((e.r.uniform d.2).1 * (posSide - ns * Scalar.ofInt (-1)) + ns * Scalar.ofInt (-1)) *
      (d.1 i / norm2 d.1) + s.1 i, (e.r.uniform d.2).2)
  exact congrArg body (withGen_gaussian e g s.2 n)

section
variable {F : Type} [Scalar F]

/-- More fuel never changes the outcome of a call that did not run out of it: the fuel is not part of the behaviour. -/
theorem C58_fuel (w : Walk F) (e : Env F) (a : Args F) (f f' : ℕ) (hf : f ≤ f') (h : w.run (e.withFuel f) a ≠ .timeout) :
    w.run (e.withFuel f') a = w.run (e.withFuel f) a := by
  have key : (w.run (e.withFuel f) a).Refines (w.run (e.withFuel f') a) := by
    cases w with
    | ball R => exact .refl _
    | barrier cls E o => exact .refl _
    | sparseBall R E => exact .refl _
    | sparseBarrier cls ERR E o => exact .refl _
    | hitRun R ERR =>
      show (HitRun.generateCompleteWalk R ERR f e.r a.niter a.init a.A a.b a.burnin a.thin a.seed e.rd).Refines
        (HitRun.generateCompleteWalk R ERR f' e.r a.niter a.init a.A a.b a.burnin a.thin a.seed e.rd)
      unfold HitRun.generateCompleteWalk checkDims
      split
      · exact (runLoop_refines (hitRun_step_refines R ERR e.r _ _ hf) _ _ _ _ _).map _
      · exact .refl _
    | sparseHitRun R ERR E =>
      show (SparseHitRun.generateCompleteWalk R ERR f E e.r a.niter a.init a.A a.b a.k a.burnin a.thin a.seed e.rd).Refines
        (SparseHitRun.generateCompleteWalk R ERR f' E e.r a.niter a.init a.A a.b a.k a.burnin a.thin a.seed e.rd)
      unfold SparseHitRun.generateCompleteWalk checkKDims checkDims
      split
      · exact .refl _
      · split
        · refine (runLoop_refines (fun s => ?_) _ _ _ _ _).map _
          exact (sparseBinarySearch_refines _ _ _ _ _ hf).bind fun _ =>
            (sparseBinarySearch_refines _ _ _ _ _ hf).bind fun _ => .refl _
        · exact .refl _
  exact key.eq h

end

/-- From the chain to the call. -/
theorem returns_of_chain (w : Walk ℝ) (e : Env ℝ) (a : Args ℝ) (hg : GoodInts a.niter a.burnin a.thin) (hd : a.DimsOk)
    (hk : w.isSparse = true → a.KOk) (K : Set (Fin a.A.c → ℝ))
    (h : ∀ t, ∃ f0, ∀ f ≥ f0, ∃ s, w.chain (e.withFuel f) a hd t = .ok s ∧ w.pos (e.withFuel f) s ∈ K) :
    ∃ f0 rows, (∀ f ≥ f0, w.run (e.withFuel f) a = .ok rows) ∧ ∀ x ∈ rows, x ∈ K := by
  obtain ⟨f0, h0⟩ := h a.niter.toNat
  obtain ⟨st, hst, _⟩ := h0 f0 le_rfl
  have h1 := C01_recording_total w (e.withFuel f0) a hg hd hk
  rw [hst] at h1
  cases hr : w.run (e.withFuel f0) a with
  | ok rows =>
    have hall : ∀ f ≥ f0, w.run (e.withFuel f) a = .ok rows := fun f hf => by
      rw [C58_fuel w e a f0 f hf (by rw [hr]; exact fun h => by cases h), hr]
    refine ⟨f0, rows, hall, fun x hx => ?_⟩
    obtain ⟨j, hj, rfl⟩ := List.getElem_of_mem hx
    obtain ⟨f1, h2⟩ := h (a.burnin + ((j : Int) + 1) * a.thin).toNat
    obtain ⟨_, h3⟩ := C02_rows w (e.withFuel (max f0 f1)) a hg rows (hall _ (le_max_left _ _))
    obtain ⟨st1, h4, h5⟩ := h3 j hj
    obtain ⟨st2, h6, h7⟩ := h2 (max f0 f1) (le_max_right _ _)
    rw [h4] at h6
    cases h6
    rw [← h5]
    exact h7
  | throws _ => rw [hr] at h1; cases h1
  | ub _ => rw [hr] at h1; cases h1
  | timeout => rw [hr] at h1; cases h1

theorem measurableSet_interior {m n : ℕ} (A : Matrix (Fin m) (Fin n) ℝ) (b : Fin m → ℝ) : MeasurableSet (Interior A b) := by
  have : Interior A b = ⋂ i, {x | A.mulVec x i < b i} := by ext; simp [Interior]
  rw [this]
  refine MeasurableSet.iInter fun i => measurableSet_lt ?_ measurable_const
  exact (measurable_pi_apply i).comp
    (Continuous.measurable (Continuous.matrix_mulVec continuous_const continuous_id))

theorem stdNormal_ac (d : ℕ) : stdNormal d ≪ volume := by
  rw [stdNormal_eq]; exact withDensity_absolutelyContinuous _ _

/-- **C58** (`HitAndRun`): with ideal random draws, on a bounded polytope of dimension at least two, from a strictly
interior initial point, the call returns with probability one: for almost every generator state there are rows which it
returns whenever its loops may run long enough (`C13_chord_diverges`: not for every generator state), and they are all
strictly inside. -/
theorem C58_dense (R ERR : ℝ) (hR : R ≠ 0) (hE : 0 < ERR) (e : Env ℝ) [MeasurableSpace e.r.G] (μ : Measure e.r.G)
    (hs : IdealSource e.r μ) (a : Args ℝ) (hg : GoodInts a.niter a.burnin a.thin) (hd : a.DimsOk) (hn : 2 ≤ a.A.c)
    (hx : a.x0 hd ∈ Interior a.A.val (a.rhs hd)) (hb : ∃ B, ∀ y ∈ Poly a.A.val (a.rhs hd), ∀ i, |y i| ≤ B) :
    ∀ᵐ g ∂μ, ∃ f0 rows, (∀ f ≥ f0, (Walk.hitRun R ERR).run ((e.withGen g).withFuel f) a = .ok rows) ∧
      ∀ x ∈ rows, x ∈ Interior a.A.val (a.rhs hd) := by
  have hm : 0 < a.A.r := by
    rcases Nat.eq_zero_or_pos a.A.r with h0 | h
    · exfalso
      obtain ⟨B, hB⟩ := hb
      have := hB (fun _ => |B| + 1) (fun i => absurd i.isLt (by omega)) ⟨0, by omega⟩
      rw [abs_of_pos (by positivity)] at this
      have := le_abs_self B
      linarith
    · exact h
  have key := fun t => iter_returns_ae e.r μ stdNormal hs (Interior a.A.val (a.rhs hd)) (measurableSet_interior _ _)
    (fun f => HitRun.step R ERR f e.r a.A.val (a.rhs hd)) (fun f => hitRunDraw R ERR f a.A.val (a.rhs hd))
    (fun f x g => hitRun_step_draw R ERR f e.r a.A.val (a.rhs hd) x g)
    (fun f => hitRunDraw_pmeas hm a.A.val (a.rhs hd) R ERR f measurable_fst (measurable_fst.comp measurable_snd)
      (measurable_fst.comp (measurable_snd.comp measurable_snd)) (measurable_snd.comp (measurable_snd.comp measurable_snd)))
    (fun x hx => by
      have hne : ∀ᵐ v ∂(volume : Measure (Fin a.A.c → ℝ)), v ≠ 0 := by
        have : Nonempty (Fin a.A.c) := ⟨⟨0, by omega⟩⟩
        rw [ae_iff]; simp
      have hall := (stdNormal_ac a.A.c).ae_le
        ((ae_dyadic hn a.A.val (a.rhs hd) hx R 1).and ((ae_dyadic hn a.A.val (a.rhs hd) hx R (-1)).and hne))
      filter_upwards [hall] with v hv val hval
      exact hitRunDraw_returns a.A.val (a.rhs hd) x v hv.2.2 hx hb R ERR hR hE hv.1 hv.2.1 val hval)
    t (a.x0 hd) hx
  filter_upwards [ae_all_iff.2 key] with g hgood
  refine returns_of_chain (Walk.hitRun R ERR) (e.withGen g) a hg hd (fun h => by cases h) _ fun t => ?_
  obtain ⟨f0, h⟩ := hgood t
  refine ⟨f0, fun f hf => ?_⟩
  obtain ⟨s, h, hs'⟩ := h f hf
  refine ⟨s, ?_, hs'⟩
  have h1 : (Walk.hitRun R ERR).chain ((e.withGen g).withFuel f) a hd t =
      iter (HitRun.step R ERR f (e.withGen g).r a.A.val (a.rhs hd)) t
        (a.x0 hd, (e.withGen g).r.initRng a.seed (e.withGen g).rd) := rfl
  rw [h1, withGen_init]
  exact (congrArg (fun st => iter st t (a.x0 hd, g)) (withGen_hitRunStep R ERR e g f a.A.val (a.rhs hd))).trans h

/-! ## The sparse class -/

section
variable {m n : ℕ}

theorem TailPos.between {k : ℕ} {x u : Fin n → ℝ} {s r t : ℝ} (hs : ray x u s ∈ TailPos n k) (ht : ray x u t ∈ TailPos n k)
    (h1 : s ≤ r) (h2 : r ≤ t) : ray x u r ∈ TailPos n k := by
  intro i hi
  have h3 : 0 < x i + s * u i := hs i hi
  have h4 : 0 < x i + t * u i := ht i hi
  show 0 < x i + r * u i
  rcases le_or_gt 0 (u i) with h | h <;> nlinarith

/-- The end of a chord that leaves the cone. -/
theorem tail_chord_end {k : ℕ} {x u : Fin n → ℝ} (hx : x ∈ TailPos n k) {c : ℝ} (hc : 0 ≤ c) (hout : ray x u c ∉ TailNonneg n k) :
    ∃ e, 0 < e ∧ (∀ t, 0 ≤ t → t < e → ray x u t ∈ TailNonneg n k) ∧ ray x u e ∈ TailNonneg n k ∧
      ray x u e ∉ TailPos n k ∧ ∀ t, e < t → ray x u t ∉ TailNonneg n k := by
  let S := Finset.univ.filter fun i : Fin n => n - k ≤ i.val ∧ u i < 0
  have hSne : S.Nonempty := by
    by_contra hS
    rw [Finset.not_nonempty_iff_eq_empty] at hS
    refine hout fun i hi => ?_
    have hu : 0 ≤ u i := by
      by_contra h
      have : i ∈ S := Finset.mem_filter.2 ⟨Finset.mem_univ _, hi, not_le.1 h⟩
      rw [hS] at this; simp at this
    have := hx i hi
    show 0 ≤ x i + c * u i
    nlinarith
  obtain ⟨i0, hi0, hmin⟩ := S.exists_min_image (fun i => x i / -u i) hSne
  have hi0' : n - k ≤ i0.val ∧ u i0 < 0 := by simpa [S] using hi0
  have hx0 := hx i0 hi0'.1
  have hle : ∀ t, 0 ≤ t → t ≤ x i0 / -u i0 → ray x u t ∈ TailNonneg n k := by
    intro t ht0 ht i hi
    show 0 ≤ x i + t * u i
    have hxi := hx i hi
    rcases le_or_gt 0 (u i) with h | h
    · nlinarith
    · have h1 := ht.trans (hmin i (Finset.mem_filter.2 ⟨Finset.mem_univ _, hi, h⟩))
      rw [le_div_iff₀ (by linarith)] at h1; linarith
  have he : 0 < x i0 / -u i0 := div_pos hx0 (by linarith)
  refine ⟨x i0 / -u i0, he, fun t h0 h1 => hle t h0 h1.le, hle _ he.le le_rfl, ?_, ?_⟩
  · intro h
    have : 0 < x i0 + x i0 / -u i0 * u i0 := h i0 hi0'.1
    have h2 : x i0 / -u i0 * u i0 = -x i0 := by have := hi0'.2.ne; field_simp
    rw [h2] at this; linarith
  · intro t ht h
    have : 0 ≤ x i0 + t * u i0 := h i0 hi0'.1
    rw [div_lt_iff₀ (by linarith [hi0'.2])] at ht
    linarith

theorem schordR_terminates (P : ℝ → Prop) (R ERR : ℝ) (hERR : 0 < ERR)
    (hend : ∀ c, 0 ≤ c → ¬ P c → ∃ e, 0 < e ∧ (∀ t, 0 ≤ t → t < e → P t) ∧ (∀ t, e < t → ¬ P t) ∧
      ∀ i j : ℕ, |R| * i / 2 ^ j ≠ e) :
    ∃ fuel t, ∀ f ≥ fuel, schordR P R ERR f = .ok t := by
  unfold schordR
  cases hx : sexpandR P SparseHitRun.maxIter R with
  | none => exact ⟨0, 0, fun _ _ => rfl⟩
  | some c =>
    obtain ⟨⟨j, hj⟩, hcP⟩ := sexpandR_spec P _ R hx
    have hc0 : 0 ≤ c := by rw [hj]; positivity
    obtain ⟨e, he, hin, hout, hd⟩ := hend c hc0 hcP
    have hec : e < c := by
      have h2 : c ≠ e := by
        have := hd (2 ^ (j + 1)) 0
        rw [hj]; intro h; apply this; rw [← h]; push_cast; ring
      have h3 : e ≤ c := by
        by_contra h
        exact hcP (hin c hc0 (not_le.1 h))
      exact lt_of_le_of_ne h3 h2.symm
    obtain ⟨f2, t, h2⟩ := bisectR_terminates P ERR hERR e hin hout 0 c (c / 2) le_rfl he hec (by
      intro J i h
      have := hd (2 ^ (j + 1) * i) J
      apply this; rw [← h, hj]; push_cast; ring)
    exact ⟨f2, t, fun f hf => bisectR_mono P ERR hf h2⟩

theorem ssearch_interior {k : ℕ} (hk : 1 ≤ k) (hkn : k ≤ n) (x u : Fin n → ℝ) (hu : IsUnitVec u) (hx : x ∈ TailPos n k)
    (R ERR : ℝ) (hE : 0 < ERR)
    (hd : ∀ i j : ℕ, ray x u (|R| * i / 2 ^ j) ∈ TailNonneg n k → ray x u (|R| * i / 2 ^ j) ∈ TailPos n k) :
    ∃ fuel t, 0 ≤ t ∧ ray x u t ∈ TailPos n k ∧ ∀ f ≥ fuel, SparseHitRun.binarySearch R ERR f k u x = .ok t := by
  have h0 : ray x u 0 ∈ TailNonneg n k := by rw [ray_zero]; exact fun i hi => (hx i hi).le
  obtain ⟨fuel, t, h⟩ := schordR_terminates (fun t => ray x u t ∈ TailNonneg n k) R ERR hE (by
    intro c hc hcP
    obtain ⟨e, he, hin, hon, hnot, hout⟩ := tail_chord_end hx hc hcP
    refine ⟨e, he, hin, hout, fun i j hij => ?_⟩
    have := hd i j
    rw [hij] at this
    exact hnot (this hon))
  have ht : 0 ≤ t ∧ ray x u t ∈ TailNonneg n k := by
    rcases schordR_spec _ h0 R ERR fuel (h fuel le_rfl) with ⟨h1, _⟩ | h1
    · rw [h1]; exact ⟨le_rfl, h0⟩
    · exact ⟨h1.1.le, h1.2.1⟩
  obtain ⟨i, j, hij⟩ := schordR_dyadic _ R ERR fuel (h fuel le_rfl)
  refine ⟨fuel, t, ht.1, ?_, fun f hf => ?_⟩
  · have h2 := ht.2
    rw [hij] at h2 ⊢
    exact hd i j h2
  · rw [chord_sparse hk hkn x u hu, h f hf, Out.map_ok, abs_of_nonneg ht.1]

/-- One iteration of sparse Hit-and-Run, as a function of position, normal draws, uniform draw and next generator. -/
noncomputable def sparseHitRunDraw {G : Type} (R ERR : ℝ) (fuel : ℕ) (E : Eigen ℝ) (A : Matrix (Fin m) (Fin n) ℝ) (k : ℕ)
    (x v : Fin n → ℝ) (val : ℝ) (g : G) : Out ((Fin n → ℝ) × G) :=
  (SparseHitRun.binarySearch R ERR fuel k (normalize (kernelProject E A v)) x).bind fun p =>
  (SparseHitRun.binarySearch R ERR fuel k (fun i => -normalize (kernelProject E A v) i) x).bind fun q =>
  .ok (fun i => (val * (p - -q) + -q) * normalize (kernelProject E A v) i + x i, g)

theorem sparseHitRunDraw_returns {G : Type} (E : Eigen ℝ) (A : Matrix (Fin m) (Fin n) ℝ) {k : ℕ} (hk : 1 ≤ k) (hkn : k ≤ n)
    (x v : Fin n → ℝ) (hx : x ∈ TailPos n k) (R ERR : ℝ) (hE : 0 < ERR)
    (hd : ∀ σ : ℝ, σ = 1 ∨ σ = -1 → ∀ i j : ℕ,
      ray x (fun l => normalize (kernelProject E A v) l * σ) (|R| * i / 2 ^ j) ∈ TailNonneg n k →
      ray x (fun l => normalize (kernelProject E A v) l * σ) (|R| * i / 2 ^ j) ∈ TailPos n k)
    (val : ℝ) (hval : val ∈ Icc (0 : ℝ) 1) :
    ∃ f0 x', x' ∈ TailPos n k ∧ ∀ f ≥ f0, ∀ g : G, sparseHitRunDraw R ERR f E A k x v val g = .ok (x', g) := by
  rcases normalize_cases (kernelProject E A v) with hu | hz
  · have e1 : (fun l => normalize (kernelProject E A v) l * 1) = normalize (kernelProject E A v) := by funext l; ring
    have e2 : (fun l => normalize (kernelProject E A v) l * (-1)) = fun l => -normalize (kernelProject E A v) l := by
      funext l; ring
    have hd1 := hd 1 (.inl rfl)
    have hd2 := hd (-1) (.inr rfl)
    rw [e1] at hd1
    rw [e2] at hd2
    have hu : IsUnitVec (normalize (kernelProject E A v)) := hu
    obtain ⟨f1, p, p0, hp, h1⟩ := ssearch_interior hk hkn x _ hu hx R ERR hE hd1
    obtain ⟨f2, q, q0, hq, h2⟩ := ssearch_interior hk hkn x _ hu.neg hx R ERR hE hd2
    rw [ray_neg] at hq
    refine ⟨max f1 f2, ray x (normalize (kernelProject E A v)) (val * (p + q) - q), ?_, fun f hf g => ?_⟩
    · exact TailPos.between hq hp (by nlinarith [hval.1]) (by nlinarith [hval.2])
    · unfold sparseHitRunDraw
      rw [h1 f (le_trans (le_max_left _ _) hf), Out.ok_bind, h2 f (le_trans (le_max_right _ _) hf), Out.ok_bind]
      congr 2
      funext i
      simp only [ray]; ring
  · have hz : normalize (kernelProject E A v) = fun _ => 0 := hz
    refine ⟨0, x, hx, fun f _ g => ?_⟩
    have hx0 : x ∈ TailNonneg n k := fun i hi => (hx i hi).le
    unfold sparseHitRunDraw
    rw [hz]
    simp only [neg_zero]
    rw [ssearch_zero hk hkn hx0]
    simp

/-- In a kernel of dimension at least two, some direction is tangent to a given coordinate plane. -/
theorem exists_tangent (A : Matrix (Fin m) (Fin n) ℝ) (hmn : m + 2 ≤ n) (i : Fin n) : ∃ e, e ≠ 0 ∧ A *ᵥ e = 0 ∧ e i = 0 := by
  let l : (Fin n → ℝ) →ₗ[ℝ] (Fin m → ℝ) × ℝ := A.mulVecLin.prod (LinearMap.proj i)
  have : LinearMap.ker l ≠ ⊥ := LinearMap.ker_ne_bot_of_finrank_lt (by simp; omega)
  obtain ⟨e, he, h0⟩ := Submodule.exists_mem_ne_zero_of_ne_bot this
  have : l e = 0 := he
  have h : (A *ᵥ e, e i) = (0, 0) := this
  exact ⟨e, h0, congrArg Prod.fst h, congrArg Prod.snd h⟩

theorem ae_dyadic_sparse (A : Matrix (Fin m) (Fin n) ℝ) (hmn : m + 2 ≤ n) {k : ℕ} {x : Fin n → ℝ} (hx : x ∈ TailPos n k) (R σ : ℝ) :
    ∀ᵐ v ∂(volume : Measure (Fin n → ℝ)), ∀ i j : ℕ,
      ray x (fun l => normalize ((1 - Aᵀ * (A * Aᵀ)⁻¹ * A) *ᵥ v) l * σ) (|R| * i / 2 ^ j) ∈ TailNonneg n k →
      ray x (fun l => normalize ((1 - Aᵀ * (A * Aᵀ)⁻¹ * A) *ᵥ v) l * σ) (|R| * i / 2 ^ j) ∈ TailPos n k := by
  set P : Matrix (Fin n) (Fin n) ℝ := 1 - Aᵀ * (A * Aᵀ)⁻¹ * A with hP
  have key : ∀ (i j : ℕ) (l : Fin n), n - k ≤ l.val → ∀ᵐ v ∂(volume : Measure (Fin n → ℝ)),
      (|R| * i / 2 ^ j * σ) * (P *ᵥ v) l ≠ (-x l) * norm2 (P *ᵥ v) := by
    intro i j l hl
    let f : (Fin n → ℝ) →ₗ[ℝ] ℝ := (|R| * i / 2 ^ j * σ) • (LinearMap.proj l ∘ₗ P.mulVecLin)
    obtain ⟨e, he, hAe, hle⟩ := exists_tangent A hmn l
    have hPe : P *ᵥ e = e := by
      rw [hP, Matrix.sub_mulVec, Matrix.one_mulVec, ← Matrix.mulVec_mulVec, hAe, Matrix.mulVec_zero, sub_zero]
    have := ae_cone_ne f P.mulVecLin e (by simp [f, hPe, hle]) (by simpa [hPe] using he) (-x l)
      (by have := hx l hl; intro h; linarith)
    filter_upwards [this] with v hv
    simpa [f] using hv
  have hall : ∀ᵐ v ∂(volume : Measure (Fin n → ℝ)), ∀ (i j : ℕ) (l : Fin n), n - k ≤ l.val →
      (|R| * i / 2 ^ j * σ) * (P *ᵥ v) l ≠ (-x l) * norm2 (P *ᵥ v) := by
    refine ae_all_iff.2 fun i => ae_all_iff.2 fun j => ae_all_iff.2 fun l => ?_
    by_cases hl : n - k ≤ l.val
    · filter_upwards [key i j l hl] with v hv _ using hv
    · exact Filter.Eventually.of_forall fun v h => absurd h hl
  filter_upwards [hall] with v hv i j hin l hl
  have h0 : 0 ≤ x l + |R| * i / 2 ^ j * (normalize (P *ᵥ v) l * σ) := hin l hl
  show 0 < x l + |R| * i / 2 ^ j * (normalize (P *ᵥ v) l * σ)
  refine lt_of_le_of_ne h0 fun heq => ?_
  have hxl := hx l hl
  by_cases hz : norm2 (P *ᵥ v) = 0
  · rw [normalize, hz] at heq
    simp only [div_zero, zero_mul, mul_zero, add_zero] at heq
    linarith
  · apply hv i j l hl
    rw [normalize] at heq
    have : |R| * i / 2 ^ j * ((P *ᵥ v) l / norm2 (P *ᵥ v) * σ) = -x l := by linarith
    rw [← this]
    field_simp

/-! ### Measurability -/

variable {X : Type} [MeasurableSpace X]

theorem measurableSet_tail (k : ℕ) : MeasurableSet (TailNonneg n k) := by
  have : TailNonneg n k = ⋂ i : Fin n, ⋂ _ : n - k ≤ i.val, {x | 0 ≤ x i} := by ext; simp [TailNonneg]
  rw [this]
  exact MeasurableSet.iInter fun i => MeasurableSet.iInter fun _ => measurableSet_le measurable_const (measurable_pi_apply i)

open Classical in
theorem sexpand_pmeas {K : Set (Fin n → ℝ)} (hK : MeasurableSet K) {inside : (Fin n → ℝ) → Out Bool}
    (hI : ∀ z, inside z = .ok (decide (z ∈ K))) {dir x : X → Fin n → ℝ} (hd : Measurable dir) (hx : Measurable x)
    {h : X → Option (Fin n → ℝ) → Out ℝ} (hh : PMeas fun p : X × (Fin n → ℝ) => h p.1 (some p.2)) (h0 : PMeas fun p => h p none)
    (iters : ℕ) (far : X → Fin n → ℝ) (hf : Measurable far) :
    PMeas fun p => (SparseHitRun.expand inside (dir p) (x p) iters (far p)).bind (h p) := by
  induction iters generalizing far with
  | zero => exact h0
  | succ iters ih =>
    have hfar : Measurable fun p => (fun i => x p i + two * distance (x p) (far p) * dir p i : Fin n → ℝ) := by
      refine measurable_pi_lambda _ fun i => ?_
      exact ((measurable_pi_apply i).comp hx).add
        (((measurable_distance hx hf).const_mul _).mul ((measurable_pi_apply i).comp hd))
    have e : (fun p => (SparseHitRun.expand inside (dir p) (x p) (iters + 1) (far p)).bind (h p)) = fun p =>
        if (fun i => x p i + two * distance (x p) (far p) * dir p i : Fin n → ℝ) ∈ K then
          (SparseHitRun.expand inside (dir p) (x p) iters (fun i => x p i + two * distance (x p) (far p) * dir p i)).bind (h p)
        else h p (some fun i => x p i + two * distance (x p) (far p) * dir p i) := by
      funext p
      rw [SparseHitRun.expand]
      simp only [hI, Out.ok_bind]
      by_cases h : (fun i => x p i + two * distance (x p) (far p) * dir p i : Fin n → ℝ) ∈ K
      · rw [if_pos h]; simp only [h, decide_true, Bool.not_true, Bool.false_eq_true, if_false]
      · rw [if_neg h]; simp only [h, decide_false, Bool.not_false, if_true, Out.ok_bind]
    rw [e]
    exact PMeas.ite (hfar hK) (ih _ hfar) (hh.comp (measurable_id.prodMk hfar))

theorem sbinarySearch_pmeas {k : ℕ} (hk : 1 ≤ k) (hkn : k ≤ n) (R ERR : ℝ) (fuel : ℕ) {dir x : X → Fin n → ℝ}
    (hd : Measurable dir) (hx : Measurable x) : PMeas fun p => SparseHitRun.binarySearch R ERR fuel k (dir p) (x p) := by
  classical
  have hK := measurableSet_tail (n := n) k
  have hI := inPolytopeK_mem (n := n) hk hkn
  unfold SparseHitRun.binarySearch
  refine sexpand_pmeas hK hI hd hx ?_ (PMeas.ok measurable_const) _ _ ?_
  · have h1 : Measurable fun q : X × (Fin n → ℝ) => x q.1 := hx.comp measurable_fst
    refine PMeas.bind (bisect_pmeas hK hI ERR fuel _ _ _ h1 measurable_snd ?_) ?_
    · exact measurable_pi_lambda _ fun i =>
        (((measurable_pi_apply i).comp h1).add ((measurable_pi_apply i).comp measurable_snd)).div_const _
    · exact PMeas.ok (measurable_distance measurable_snd (h1.comp measurable_fst))
  · exact measurable_pi_lambda _ fun i =>
      ((measurable_pi_apply i).comp hx).add (((measurable_pi_apply i).comp hd).const_mul _)

theorem sparseHitRunDraw_pmeas {G : Type} [MeasurableSpace G] {E : Eigen ℝ} (hE : E.SparseLUExact)
    {A : Matrix (Fin m) (Fin n) ℝ} (hA : IndepRows A) {k : ℕ} (hk : 1 ≤ k) (hkn : k ≤ n) (R ERR : ℝ) (fuel : ℕ) :
    PMeas fun p : (Fin n → ℝ) × (Fin n → ℝ) × ℝ × G => sparseHitRunDraw R ERR fuel E A k p.1 p.2.1 p.2.2.1 p.2.2.2 := by
  unfold sparseHitRunDraw
  have hx : Measurable fun p : (Fin n → ℝ) × (Fin n → ℝ) × ℝ × G => p.1 := measurable_fst
  have hval : Measurable fun p : (Fin n → ℝ) × (Fin n → ℝ) × ℝ × G => p.2.2.1 :=
    measurable_fst.comp (measurable_snd.comp measurable_snd)
  have hg : Measurable fun p : (Fin n → ℝ) × (Fin n → ℝ) × ℝ × G => p.2.2.2 :=
    measurable_snd.comp (measurable_snd.comp measurable_snd)
  have hu : Measurable fun p : (Fin n → ℝ) × (Fin n → ℝ) × ℝ × G => normalize (kernelProject E A p.2.1) := by
    simp only [kernelProject_real hE hA]
    exact measurable_normalize.comp ((Continuous.measurable (Continuous.matrix_mulVec continuous_const continuous_id)).comp
      (measurable_fst.comp measurable_snd))
  have hu' : Measurable fun p : (Fin n → ℝ) × (Fin n → ℝ) × ℝ × G =>
      (fun i => -normalize (kernelProject E A p.2.1) i : Fin n → ℝ) :=
    measurable_pi_lambda _ fun i => ((measurable_pi_apply i).comp hu).neg
  refine PMeas.bind (sbinarySearch_pmeas hk hkn R ERR fuel hu hx) ?_
  refine PMeas.bind (f := fun q : ((Fin n → ℝ) × (Fin n → ℝ) × ℝ × G) × ℝ =>
      SparseHitRun.binarySearch R ERR fuel k (fun i => -normalize (kernelProject E A q.1.2.1) i) q.1.1)
    (sbinarySearch_pmeas hk hkn R ERR fuel (hu'.comp measurable_fst) (hx.comp measurable_fst)) ?_
  refine PMeas.ok (Measurable.prodMk (measurable_pi_lambda _ fun i => ?_) (hg.comp (measurable_fst.comp measurable_fst)))
  have hq : Measurable fun p : ((((Fin n → ℝ) × (Fin n → ℝ) × ℝ × G) × ℝ) × ℝ) => p.2 := measurable_snd
  have hp : Measurable fun p : ((((Fin n → ℝ) × (Fin n → ℝ) × ℝ × G) × ℝ) × ℝ) => p.1.2 := measurable_snd.comp measurable_fst
  have hX : Measurable fun p : ((((Fin n → ℝ) × (Fin n → ℝ) × ℝ × G) × ℝ) × ℝ) => p.1.1 := measurable_fst.comp measurable_fst
  exact ((((hval.comp hX).mul (hp.sub hq.neg)).add hq.neg).mul
    ((measurable_pi_apply i).comp (hu.comp hX))).add ((measurable_pi_apply i).comp (hx.comp hX))

end

theorem withGen_sparseHitRunStep {m n : ℕ} (R ERR : ℝ) (E : Eigen ℝ) (e : Env ℝ) (g : e.r.G) (f : ℕ)
    (A : Matrix (Fin m) (Fin n) ℝ) (k : ℕ) :
    SparseHitRun.step R ERR f E (e.withGen g).r A k = SparseHitRun.step R ERR f E e.r A k := by
  funext s
  let body : (Fin n → ℝ) × e.r.G → Out ((Fin n → ℝ) × e.r.G) := fun d =>
    (SparseHitRun.binarySearch R ERR f k (normalize (kernelProject E A d.1)) s.1).bind fun posSide =>
    (SparseHitRun.binarySearch R ERR f k (fun i => -normalize (kernelProject E A d.1) i) s.1).bind fun ns =>
    .ok (fun i => ((e.r.uniform d.2).1 * (posSide - -ns) + -ns) * normalize (kernelProject E A d.1) i + s.1 i,
      (e.r.uniform d.2).2)
  exact congrArg body (withGen_gaussian e g s.2 n)

/-- **C58** (`SparseHitAndRun`): with ideal random draws and at least two more columns than (independent) rows, from an
initial point whose constrained coordinates are positive, the call returns with probability one, for every radius and
also on unbounded polytopes; the constrained coordinates of all rows are positive. -/
theorem C58_sparse (R ERR : ℝ) (hE : 0 < ERR) (E : Eigen ℝ) (hL : E.SparseLUExact) (e : Env ℝ) [MeasurableSpace e.r.G]
    (μ : Measure e.r.G) (hs : IdealSource e.r μ) (a : Args ℝ) (hg : GoodInts a.niter a.burnin a.thin) (hd : a.DimsOk)
    (hk : a.KOk) (hA : IndepRows a.A.val) (hmn : a.A.r + 2 ≤ a.A.c) (hx : a.x0 hd ∈ TailPos a.A.c a.k.toNat) :
    ∀ᵐ g ∂μ, ∃ f0 rows, (∀ f ≥ f0, (Walk.sparseHitRun R ERR E).run ((e.withGen g).withFuel f) a = .ok rows) ∧
      ∀ x ∈ rows, x ∈ TailPos a.A.c a.k.toNat := by
  have hk' : 1 ≤ a.k ∧ a.k ≤ a.A.c := hk
  have hk1 : 1 ≤ a.k.toNat := by omega
  have hkn : a.k.toNat ≤ a.A.c := by omega
  have key := fun t => iter_returns_ae e.r μ stdNormal hs (TailPos a.A.c a.k.toNat) (measurableSet_tailPos _ _)
    (fun f => SparseHitRun.step R ERR f E e.r a.A.val a.k.toNat) (fun f => sparseHitRunDraw R ERR f E a.A.val a.k.toNat)
    (fun f x g => rfl)
    (fun f => sparseHitRunDraw_pmeas hL hA hk1 hkn R ERR f)
    (fun x hx => by
      have hall := (stdNormal_ac a.A.c).ae_le
        ((ae_dyadic_sparse a.A.val hmn hx R 1).and (ae_dyadic_sparse a.A.val hmn hx R (-1)))
      filter_upwards [hall] with v hv val hval
      refine sparseHitRunDraw_returns E a.A.val hk1 hkn x v hx R ERR hE ?_ val hval
      intro σ hσ
      rw [kernelProject_real hL hA]
      rcases hσ with rfl | rfl
      · exact hv.1
      · exact hv.2)
    t (a.x0 hd) hx
  filter_upwards [ae_all_iff.2 key] with g hgood
  refine returns_of_chain (Walk.sparseHitRun R ERR E) (e.withGen g) a hg hd (fun _ => hk) _ fun t => ?_
  obtain ⟨f0, h⟩ := hgood t
  refine ⟨f0, fun f hf => ?_⟩
  obtain ⟨s, h, hs'⟩ := h f hf
  refine ⟨s, ?_, hs'⟩
  have h1 : (Walk.sparseHitRun R ERR E).chain ((e.withGen g).withFuel f) a hd t =
      iter (SparseHitRun.step R ERR f E (e.withGen g).r a.A.val a.k.toNat) t
        (a.x0 hd, (e.withGen g).r.initRng a.seed (e.withGen g).rd) := rfl
  rw [h1, withGen_init]
  exact (congrArg (fun st => iter st t (a.x0 hd, g))
    (withGen_sparseHitRunStep R ERR E e g f a.A.val a.k.toNat)).trans h

/-! ## Two dimensions are needed -/

/-- **C58** (condition needed): in dimension one there are only two directions. On `[-1, 1]` from `0` with radius 1, exact
arithmetic, `HitAndRun` never returns, whatever the random numbers. -/
theorem C58_dimension_one (ERR : ℝ) (hE : ERR < 1) (e : Env ℝ) (niter : Int) (hn : 1 ≤ niter) (burnin thin seed : Int) :
    ∀ rows, (Walk.hitRun 1 ERR).run e
      ⟨niter, ⟨1, fun _ => 0⟩, ⟨2, 1, Matrix.of ![![1], ![-1]]⟩, ⟨2, fun _ => 1⟩, 0, burnin, thin, seed⟩ ≠ .ok rows := by
  intro rows h
  obtain ⟨hd, s0, s', _, hs, hr⟩ := Walk.run_ok h
  cases hs
  obtain ⟨s1, h1⟩ := runLoop_first hr hn
  have h1' : HitRun.step 1 ERR e.fuel e.r (Matrix.of ![![(1 : ℝ)], ![-1]]) (fun _ => 1)
    (fun _ => 0, e.r.initRng seed e.rd) = .ok s1 := h1
  have hmem : ∀ (u : Fin 1 → ℝ) (t : ℝ), ray (fun _ => 0) u t ∈ Poly (Matrix.of ![![(1 : ℝ)], ![-1]]) (fun _ => 1) ↔
      |t * u 0| ≤ 1 := by
    intro u t
    rw [abs_le]
    constructor
    · intro h
      have h0 := h 0
      have h2 := h 1
      simp [Matrix.mulVec, dotProduct, ray] at h0 h2
      constructor <;> linarith
    · intro h i
      fin_cases i <;> simp [Matrix.mulVec, dotProduct, ray] <;> linarith [h.1, h.2]
  rw [hitRun_step_draw, hitRunDraw] at h1'
  set v := (e.r.gaussian 1 (e.r.initRng seed e.rd)).1
  obtain ⟨p, hp, _⟩ := Out.bind_eq_ok.1 h1'
  rcases normalize_cases v with hu | hz
  · have hu1 : |v 0 / norm2 v| = 1 := by
      have : v 0 / norm2 v * (v 0 / norm2 v) = 1 := by simpa [IsUnitVec] using hu
      rw [← abs_mul_abs_self] at this
      nlinarith [abs_nonneg (v 0 / norm2 v)]
    rw [C13_chord_diverges _ _ (by norm_num) _ _ hu 1 ERR one_pos hE
      ((hmem _ _).2 (by rw [abs_mul, hu1]; simp))
      (fun t ht h => by
        have := (hmem _ _).1 h
        rw [abs_mul, hu1, mul_one, abs_of_pos (by linarith)] at this
        linarith)] at hp
    cases hp
  · rw [hz, search_zero (by norm_num) (by
      have := (hmem (fun _ => 0) 0).2 (by simp)
      rwa [ray_zero] at this)] at hp
    cases hp

/-! ## Concrete cases -/

/-- An environment whose generator is the ideal stream. -/
noncomputable def streamEnv : Env ℝ := ⟨streamRng, 0, fun _ _ => 0, 0⟩

noncomputable instance : MeasurableSpace streamEnv.r.G := inferInstanceAs (MeasurableSpace streamRng.G)

/-- The square `[-1, 1]²`, from the origin, 100 iterations. -/
example : ∀ᵐ g ∂(streamLaw : Measure streamEnv.r.G), ∃ f0 rows, (∀ f ≥ f0,
    (Walk.hitRun (1 / 2) (1 / 100)).run ((streamEnv.withGen g).withFuel f)
      ⟨100, ⟨2, fun _ => 0⟩, ⟨4, 2, Matrix.of ![![1, 0], ![-1, 0], ![0, 1], ![0, -1]]⟩, ⟨4, fun _ => 1⟩, 0, 0, 1, 7⟩ = .ok rows) ∧
    ∀ x ∈ rows, x ∈ Interior (Matrix.of ![![(1 : ℝ), 0], ![-1, 0], ![0, 1], ![0, -1]]) fun _ => 1 := by
  refine C58_dense (1 / 2) (1 / 100) (by norm_num) (by norm_num) streamEnv streamLaw streamRng_ideal
    ⟨100, ⟨2, fun _ => 0⟩, ⟨4, 2, Matrix.of ![![1, 0], ![-1, 0], ![0, 1], ![0, -1]]⟩, ⟨4, fun _ => 1⟩, 0, 0, 1, 7⟩
    ⟨by decide, by decide, by decide, by decide, by decide⟩ ⟨rfl, rfl⟩ (by decide) ?_ ⟨1, ?_⟩
  · intro i
    show (Matrix.of ![![(1 : ℝ), 0], ![-1, 0], ![0, 1], ![0, -1]]).mulVec (fun _ => 0) i < 1
    fin_cases i <;> simp [Matrix.mulVec, dotProduct]
  · intro y hy i
    have hy' : ∀ i, (Matrix.of ![![(1 : ℝ), 0], ![-1, 0], ![0, 1], ![0, -1]]).mulVec y i ≤ 1 := hy
    have h0 := hy' (0 : Fin 4)
    have h1 := hy' (1 : Fin 4)
    have h2 := hy' (2 : Fin 4)
    have h3 := hy' (3 : Fin 4)
    simp [Matrix.mulVec, dotProduct, Fin.sum_univ_two] at h0 h1 h2 h3
    revert i
    show ∀ i : Fin 2, |y i| ≤ 1
    intro i
    rw [abs_le]
    fin_cases i
    · exact ⟨by show -1 ≤ y (0 : Fin 2); linarith, h0⟩
    · exact ⟨by show -1 ≤ y (1 : Fin 2); linarith, h2⟩

/-- The simplex `x₁ + x₂ + x₃ = 1`, `x ≥ 0`, from its centre. -/
example (E : Eigen ℝ) (hE : E.SparseLUExact) : ∀ᵐ g ∂(streamLaw : Measure streamEnv.r.G), ∃ f0 rows, (∀ f ≥ f0,
    (Walk.sparseHitRun (1 / 2) (1 / 100) E).run ((streamEnv.withGen g).withFuel f)
      ⟨100, ⟨3, fun _ => 1 / 3⟩, ⟨1, 3, fun _ _ => 1⟩, ⟨1, fun _ => 1⟩, 3, 0, 1, 7⟩ = .ok rows) ∧
    ∀ x ∈ rows, x ∈ TailPos 3 3 := by
  refine C58_sparse (1 / 2) (1 / 100) (by norm_num) E hE streamEnv streamLaw streamRng_ideal
    ⟨100, ⟨3, fun _ => 1 / 3⟩, ⟨1, 3, fun _ _ => 1⟩, ⟨1, fun _ => 1⟩, 3, 0, 1, 7⟩
    ⟨by decide, by decide, by decide, by decide, by decide⟩ ⟨rfl, rfl⟩ ⟨by decide, by decide⟩ ?_ (by decide) ?_
  · intro y hy
    have := congrFun hy (0 : Fin 3)
    funext i
    have hi : i = (0 : Fin 1) := Subsingleton.elim (α := Fin 1) _ _
    rw [hi]
    simpa [Matrix.vecMul, dotProduct] using this
  · intro i _
    show (0 : ℝ) < 1 / 3
    norm_num

end PW
