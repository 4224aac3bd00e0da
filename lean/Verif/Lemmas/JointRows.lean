import Verif.Lemmas.NearIndep
import Verif.Lemmas.UniformRows
import Verif.Lemmas.BallMix

/-! # From the positions of the chain to several rows together -/

namespace PW
open MeasureTheory Set Filter Topology
open scoped ENNReal

section
variable {m n : ℕ} {w : Walk ℝ} {e : Env ℝ} [MeasurableSpace e.r.G] {μ : Measure e.r.G} {A : Matrix (Fin m) (Fin n) ℝ} {b : Fin m → ℝ}
  {x : Fin n → ℝ} {k seed : Int} {q : ℕ → e.r.G → Fin n → ℝ}
  (hk : w.isSparse = true → 1 ≤ k ∧ k ≤ n)
  (hfol : ∀ niter burnin thin, ∀ᵐ g ∂μ, Follows w e (callArgs A b x niter k burnin thin seed) ⟨rfl, rfl⟩ q g)
include hk hfol

theorem rowsProb_follows {niter burnin thin : Int} (hg : GoodInts niter burnin thin) {L : ℕ} (hL : (niter - burnin) / thin = L)
    (S : Set (Fin L → Fin n → ℝ)) : rowsProb w e μ (callArgs A b x niter k burnin thin seed) S =
      μ {g | (fun i : Fin L => q (rowTime burnin thin i) g) ∈ S} := by
  refine measure_congr ?_
  filter_upwards [rows_follows (hfol niter burnin thin) hk hg] with g ⟨f0, rows, hall, hlen, hrow⟩
  have hlen' : rows.length = L := by
    have : (rows.length : Int) = (niter - burnin) / thin := hlen
    omega
  have e1 : (fun i : Fin L => rows[i.val]'(by omega)) = fun i : Fin L => q (rowTime burnin thin i) g :=
    funext fun i => hrow i.val (by omega)
  refine propext ⟨?_, fun h => ⟨f0, rows, hall, hlen', ?_⟩⟩
  · rintro ⟨f1, rows', hall', hl, hS⟩
    have : rows' = rows := Out.ok.inj ((hall' (max f0 f1) (le_max_right _ _)).symm.trans (hall (max f0 f1) (le_max_left _ _)))
    subst this
    show (fun i : Fin L => q (rowTime burnin thin i) g) ∈ S
    rw [← e1]; exact hS
  · show (fun i : Fin L => rows[i.val]'(by omega)) ∈ S
    rw [e1]; exact h

theorem JointWithin.of_follows {π : Measure (Fin n → ℝ)} {L gap : ℕ} {ε : ℝ}
    (h : ∀ t : Fin L → ℕ, Apart gap t → ∀ S, MeasurableSet S →
      |(μ {g | (fun i => q (t i) g) ∈ S}).toReal - (independent π L S).toReal| ≤ ε) : JointWithin w e μ A b x k seed π L gap ε := by
  intro niter burnin thin S hS
  constructor
  · intro t ht
    rw [pathProb_follows (hfol niter burnin thin)]
    exact h t ht S hS
  · intro hg hL hgap
    rw [rowsProb_follows hk hfol hg hL S]
    refine h _ ⟨fun i => ?_, fun i j hij => ?_⟩ S hS
    · rw [rowTime_eq hg.burnin_nonneg (by have := hg.thin_pos; omega)]
      have h1 : gap ≤ thin.toNat := by omega
      calc gap ≤ thin.toNat := h1
        _ ≤ (i.val + 1) * thin.toNat := Nat.le_mul_of_pos_left _ (by omega)
        _ ≤ _ := Nat.le_add_left _ _
    · rw [rowTime_eq hg.burnin_nonneg (by have := hg.thin_pos; omega), rowTime_eq hg.burnin_nonneg (by have := hg.thin_pos; omega)]
      have h1 : gap ≤ thin.toNat := by omega
      have h2 : i.val + 1 ≤ j.val := hij
      have h3 : (i.val + 1 + 1) * thin.toNat ≤ (j.val + 1) * thin.toNat := Nat.mul_le_mul_right _ (by omega)
      have h4 : (i.val + 1 + 1) * thin.toNat = (i.val + 1) * thin.toNat + thin.toNat := by ring
      omega

omit hk hfol in
theorem JointWithin.mono {π : Measure (Fin n → ℝ)} {L gap gap' : ℕ} {ε ε' : ℝ} (h : JointWithin w e μ A b x k seed π L gap ε) (hg : gap ≤ gap')
    (hε : ε ≤ ε') : JointWithin w e μ A b x k seed π L gap' ε' := fun niter burnin thin S hS =>
  ⟨fun t ht => (((h niter burnin thin S hS).1 t ⟨fun i => hg.trans (ht.1 i), fun i j hij => (Nat.add_le_add_left hg _).trans (ht.2 i j hij)⟩)).trans hε,
    fun hi hL hgap => ((h niter burnin thin S hS).2 hi hL (by omega)).trans hε⟩

end

section
variable {m n : ℕ} {Y : Type} [MeasurableSpace Y] {l : Measure Y} [SFinite l] {C V : Set (Fin n → ℝ)} {c : Y → Fin n → ℝ}
  {P : (Fin n → ℝ) → (Fin n → ℝ) → Fin n → ℝ} {acc : (Fin n → ℝ) → (Fin n → ℝ) → ℝ} {prop : Y → (Fin n → ℝ) → Y} {q : Y → Y → ℝ≥0∞}
  (h : MHData (stdNormal n) C V l c P acc prop q)
include h

theorem MHData.prob_eq : mhProb C l c = (mhTarget C l c univ)⁻¹ • mhTarget C l c := by
  unfold mhProb
  rw [h.target_univ]

/-- Several rows together. -/
theorem MHData.joint (L : ℕ) {x : Fin n → ℝ} (hx : x ∈ V) {ε : ℝ} (hε : 0 < ε) : ∃ gap : ℕ, ∀ (w : Walk ℝ) (e : Env ℝ) [MeasurableSpace e.r.G]
    (μ : Measure e.r.G), IdealSource e.r μ → ∀ (A : Matrix (Fin m) (Fin n) ℝ) (b : Fin m → ℝ) (k seed : Int),
    (w.isSparse = true → 1 ≤ k ∧ k ≤ n) →
    (∀ niter burnin thin : Int,
      ∀ᵐ g ∂μ, Follows w e (callArgs A b x niter k burnin thin seed) ⟨rfl, rfl⟩ (posAt (mhNext e.r n C P acc) x) g) →
    JointWithin w e μ A b x k seed (mhTarget C l c) L gap ε := by
  have hN : IsProbabilityMeasure (stdNormal n) := inferInstance
  have := h.prob
  have hcv : ∀ y ∈ V, ConvFrom (mhProb C l c) ((stdNormal n).prod unitLaw) (mhMove C P acc) 0 y := fun y hy ε hε => by
    obtain ⟨N, hN⟩ := h.converge hy hε
    refine ⟨N, fun n hn f hf => ?_⟩
    rw [zero_add]; exact hN n hn f hf.bdd
  obtain ⟨N, hN'⟩ := near_indep_driven (measurable_mhMove h.measC h.measP h.measa) le_rfl (h.prob_ae.mono hcv) L (hcv x hx) hε
  refine ⟨N, fun w e _ μ hs A b k seed hk hfol => JointWithin.of_follows (q := posAt (mhNext e.r n C P acc) x) hk hfol fun t ht S hS => ?_⟩
  have := hs.prob
  have h1 := hN' μ _ (measurable_mhNext e.r n (hs.gaussian n).measurable hs.uniform.measurable h.measC h.measP h.measa) (h.drives hs) t ht S hS
  rw [mul_zero, zero_add] at h1
  unfold independent
  rw [← h.prob_eq]
  exact h1

end

section
variable {n m : ℕ} {W : Type} [MeasurableSpace W] {π : Measure (Fin n → ℝ)} {ν : Measure W} [IsProbabilityMeasure ν]
  {T : (Fin n → ℝ) → W → Fin n → ℝ} {K : Set (Fin n → ℝ)} {β : ℝ} {n₀ : ℕ} (h : Mixes (normed π) ν T K β n₀)
include h

/-- Several rows together, with a rate. -/
theorem Mixes.joint {w : Walk ℝ} {e : Env ℝ} [MeasurableSpace e.r.G] {μ : Measure e.r.G} [IsProbabilityMeasure μ]
    {f : (Fin n → ℝ) → e.r.G → (Fin n → ℝ) × e.r.G} (mf : Measurable fun p : (Fin n → ℝ) × e.r.G => f p.1 p.2) (hd : Drives μ ν f T)
    {A : Matrix (Fin m) (Fin n) ℝ} {b : Fin m → ℝ} {x : Fin n → ℝ} (hx : x ∈ K) {k seed : Int} (hk : w.isSparse = true → 1 ≤ k ∧ k ≤ n)
    (hfol : ∀ niter burnin thin : Int, ∀ᵐ g ∂μ, Follows w e (callArgs A b x niter k burnin thin seed) ⟨rfl, rfl⟩ (posAt f x) g)
    (L gap : ℕ) : JointWithin w e μ A b x k seed π L gap (L * (1 - β) ^ (gap / n₀)) := by
  have := h.prob
  refine JointWithin.of_follows (q := posAt f x) hk hfol fun t ht S hS => ?_
  refine near_indep_uniform_driven h.meas h.ae (δ := (1 - β) ^ (gap / n₀)) (N := gap) (fun y hy s hs u hu => ?_) L hx mf hd t ht hS
  have h2 := h.rate hu.bdd (lo := 0) (hi := 1) (fun y _ => hu.nonneg y) (fun y _ => hu.le_one y) s hy
  rw [sub_zero, mul_one] at h2
  exact h2.trans (pow_le_pow_of_le_one (by linarith [h.le]) (by linarith [h.pos]) (Nat.div_le_div_right hs))

end

/-! ## Walks that draw a normal vector and a uniform number per iteration -/

section
variable {n : ℕ}

/-- The move. -/
def drawStep (next : (Fin n → ℝ) → (Fin n → ℝ) → ℝ → Fin n → ℝ) (x : Fin n → ℝ) (w : (Fin n → ℝ) × ℝ) : Fin n → ℝ := next x w.1 w.2

theorem measurable_drawStep {next : (Fin n → ℝ) → (Fin n → ℝ) → ℝ → Fin n → ℝ}
    (hn : Measurable fun p : (Fin n → ℝ) × (Fin n → ℝ) × ℝ => next p.1 p.2.1 p.2.2) :
    Measurable fun p : (Fin n → ℝ) × ((Fin n → ℝ) × ℝ) => drawStep next p.1 p.2 := hn

theorem ideal_drives {r : Rng ℝ} [MeasurableSpace r.G] {μ : Measure r.G} {next : (Fin n → ℝ) → (Fin n → ℝ) → ℝ → Fin n → ℝ} (hs : IdealSource r μ)
    (hn : Measurable fun p : (Fin n → ℝ) × (Fin n → ℝ) × ℝ => next p.1 p.2.1 p.2.2) :
    Drives μ ((stdNormal n).prod unitLaw) (fun x g => idealStep r next (x, g)) (drawStep next) := by
  intro F hF x
  have := hs.prob
  have h1 := ideal_law hs hn hF 1 x
  rw [Function.iterate_one] at h1
  refine h1.trans ?_
  show ∫⁻ v, ∫⁻ val, _ ∂unitLaw ∂(stdNormal n) = _
  have m1 : Measurable fun y : Fin n → ℝ => ∫⁻ g, F (y, g) ∂μ := hF.lintegral_prod_right'
  have m2 : Measurable fun w : (Fin n → ℝ) × ℝ => next x w.1 w.2 := hn.comp measurable_prodMk_left
  exact (lintegral_prod (fun w : (Fin n → ℝ) × ℝ => ∫⁻ g, F (next x w.1 w.2, g) ∂μ) (m1.comp m2).aemeasurable).symm

theorem avg_afterSteps {next : (Fin n → ℝ) → (Fin n → ℝ) → ℝ → Fin n → ℝ}
    (hn : Measurable fun p : (Fin n → ℝ) × (Fin n → ℝ) × ℝ => next p.1 p.2.1 p.2.2) {h : (Fin n → ℝ) → ℝ} (hh : Unit01 h) (t : ℕ) (x : Fin n → ℝ) :
    ENNReal.ofReal ((avg ((stdNormal n).prod unitLaw) (drawStep next))^[t] h x) = afterSteps (stdNormal n) next (fun y => ENNReal.ofReal (h y)) t x := by
  induction t generalizing x with
  | zero => rfl
  | succ t ih =>
    rw [Function.iterate_succ_apply']
    have u := hh.avgIter (ν := (stdNormal n).prod unitLaw) (measurable_drawStep hn) t
    have u2 := u.comp (meas_at (measurable_drawStep hn) x)
    show ENNReal.ofReal (∫ w, _ ∂_) = ∫⁻ v, ∫⁻ val, _ ∂unitLaw ∂(stdNormal n)
    rw [ofReal_integral_eq_lintegral_ofReal (u2.bdd.int _) (ae_of_all _ fun w => u2.nonneg w)]
    rw [lintegral_prod _ (u2.meas.ennreal_ofReal).aemeasurable]
    exact lintegral_congr fun v => lintegral_congr fun val => ih _

/-- Several rows together, for walks whose law is within `δ` of the target after `gap` iterations, from every point of `K`. -/
theorem draw_joint {m : ℕ} {next : (Fin n → ℝ) → (Fin n → ℝ) → ℝ → Fin n → ℝ}
    (hn : Measurable fun p : (Fin n → ℝ) × (Fin n → ℝ) × ℝ => next p.1 p.2.1 p.2.2) {π : Measure (Fin n → ℝ)} (h0 : π univ ≠ 0) (ht : π univ ≠ ⊤)
    {K : Set (Fin n → ℝ)} (hK : ∀ᵐ y ∂π, y ∈ K) {δ : ℝ} {gap : ℕ}
    (hN : ∀ y ∈ K, ∀ F : (Fin n → ℝ) → ℝ≥0∞, Measurable F → (∀ x, F x ≤ 1) → ∀ t ≥ gap,
      |(afterSteps (stdNormal n) next F t y).toReal - (∫⁻ y, F y ∂π).toReal / (π univ).toReal| ≤ δ)
    {w : Walk ℝ} {e : Env ℝ} [MeasurableSpace e.r.G] {μ : Measure e.r.G} (hs : IdealSource e.r μ)
    {A : Matrix (Fin m) (Fin n) ℝ} {b : Fin m → ℝ} {x : Fin n → ℝ} (hx : x ∈ K) {k seed : Int} (hk : w.isSparse = true → 1 ≤ k ∧ k ≤ n)
    (hfol : ∀ niter burnin thin : Int, ∀ᵐ g ∂μ, Follows w e (callArgs A b x niter k burnin thin seed) ⟨rfl, rfl⟩ (idealPos e.r next x) g)
    (L : ℕ) : JointWithin w e μ A b x k seed π L gap (L * δ) := by
  have := hs.prob
  have := normed_prob h0 ht
  refine JointWithin.of_follows (q := idealPos e.r next x) hk hfol fun t ht' S hS => ?_
  refine near_indep_uniform_driven (P := normed π) (measurable_drawStep hn) (normed_ae hK) (fun y hy s hs' u hu => ?_) L hx
    (f := fun x g => idealStep e.r next (x, g)) (measurable_idealStep hs hn) (ideal_drives hs hn) t ht' hS
  have h1 := hN y hy (fun y => ENNReal.ofReal (u y)) hu.meas.ennreal_ofReal (fun y => ENNReal.ofReal_le_one.2 (hu.le_one y)) s hs'
  rw [← avg_afterSteps hn hu s y,
    ENNReal.toReal_ofReal ((hu.avgIter (ν := (stdNormal n).prod unitLaw) (measurable_drawStep hn) s).nonneg y)] at h1
  have h2 : ∫ y, u y ∂(normed π) = (∫⁻ y, ENNReal.ofReal (u y) ∂π).toReal / (π univ).toReal := by
    rw [integral_eq_lintegral_of_nonneg_ae (ae_of_all _ hu.nonneg) hu.meas.aestronglyMeasurable]
    unfold normed
    rw [lintegral_smul_measure, smul_eq_mul, ENNReal.toReal_mul, ENNReal.toReal_inv]
    ring
  rw [h2]
  exact h1

end

end PW
