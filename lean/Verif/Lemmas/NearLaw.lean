import Verif.Lemmas.ChordLaw
import Verif.Props.HitRunReturns

/-! # From one approximately invariant step to the law of the chain -/

namespace PW
open MeasureTheory Set
open scoped ENNReal

section
variable {X V : Type} [MeasurableSpace X] [MeasurableSpace V]

/-- Expectation of `F` after `t` steps of the random map `next`. -/
noncomputable def afterSteps (ν : Measure V) (next : X → V → ℝ → X) (F : X → ℝ≥0∞) : ℕ → X → ℝ≥0∞
  | 0 => F
  | t + 1 => fun x => ∫⁻ v, ∫⁻ val, afterSteps ν next F t (next x v val) ∂unitLaw ∂ν

theorem measurable_step_expect (ν : Measure V) [SFinite ν] {next : X → V → ℝ → X}
    (hn : Measurable fun p : X × V × ℝ => next p.1 p.2.1 p.2.2) {F : X → ℝ≥0∞} (hF : Measurable F) :
    Measurable fun x => ∫⁻ v, ∫⁻ val, F (next x v val) ∂unitLaw ∂ν := by
  have h1 : Measurable fun q : (X × V) × ℝ => F (next q.1.1 q.1.2 q.2) := by
    have h2 : Measurable fun q : (X × V) × ℝ => (q.1.1, q.1.2, q.2) :=
      (measurable_fst.comp measurable_fst).prodMk ((measurable_snd.comp measurable_fst).prodMk measurable_snd)
    exact hF.comp (hn.comp h2)
  have h3 : Measurable fun p : X × V => ∫⁻ val, F (next p.1 p.2 val) ∂unitLaw := h1.lintegral_prod_right'
  exact h3.lintegral_prod_right'

theorem measurable_afterSteps (ν : Measure V) [SFinite ν] {next : X → V → ℝ → X}
    (hn : Measurable fun p : X × V × ℝ => next p.1 p.2.1 p.2.2) {F : X → ℝ≥0∞} (hF : Measurable F) (t : ℕ) :
    Measurable (afterSteps ν next F t) := by
  induction t with
  | zero => exact hF
  | succ t ih => exact measurable_step_expect ν hn ih

theorem afterSteps_le_one (ν : Measure V) [IsProbabilityMeasure ν] (next : X → V → ℝ → X) {F : X → ℝ≥0∞}
    (h1 : ∀ x, F x ≤ 1) (t : ℕ) (x : X) : afterSteps ν next F t x ≤ 1 := by
  induction t generalizing x with
  | zero => exact h1 x
  | succ t ih =>
    have h2 : ∀ v, ∫⁻ val, afterSteps ν next F t (next x v val) ∂unitLaw ≤ 1 := fun v =>
      (lintegral_mono fun val => ih _).trans (by simp)
    exact (lintegral_mono h2).trans (by simp)

/-- An error of `δ` per step adds up. -/
theorem afterSteps_near (ν : Measure V) [IsProbabilityMeasure ν] (π : Measure X) {next : X → V → ℝ → X}
    (hn : Measurable fun p : X × V × ℝ => next p.1 p.2.1 p.2.2) (δ : ℝ≥0∞)
    (hnear : ∀ F : X → ℝ≥0∞, Measurable F → (∀ x, F x ≤ 1) →
      (∫⁻ x, ∫⁻ v, ∫⁻ val, F (next x v val) ∂unitLaw ∂ν ∂π) ≤ (∫⁻ x, F x ∂π) + δ ∧
      (∫⁻ x, F x ∂π) ≤ (∫⁻ x, ∫⁻ v, ∫⁻ val, F (next x v val) ∂unitLaw ∂ν ∂π) + δ)
    {F : X → ℝ≥0∞} (hF : Measurable F) (h1 : ∀ x, F x ≤ 1) (t : ℕ) :
    (∫⁻ x, afterSteps ν next F t x ∂π) ≤ (∫⁻ x, F x ∂π) + t * δ ∧
    (∫⁻ x, F x ∂π) ≤ (∫⁻ x, afterSteps ν next F t x ∂π) + t * δ := by
  induction t with
  | zero => simp [afterSteps]
  | succ t ih =>
    obtain ⟨a, b⟩ := hnear _ (measurable_afterSteps ν hn hF t) (afterSteps_le_one ν next h1 t)
    push_cast
    rw [add_mul, one_mul]
    constructor
    · exact a.trans ((add_le_add ih.1 le_rfl).trans (add_assoc _ _ _).le)
    · refine ih.2.trans ((add_le_add b le_rfl).trans (le_of_eq ?_))
      show _ = (∫⁻ x, ∫⁻ v, ∫⁻ val, afterSteps ν next F t (next x v val) ∂unitLaw ∂ν ∂π) + _
      ring

end

/-! ## The limit of the outcomes as the fuel grows -/

open Classical in
/-- The value the outcomes reach as the fuel grows (or `y`). -/
noncomputable def fuelLimit {Y : Type} (o : ℕ → Out Y) (y : Y) : Y :=
  if h : ∃ z, ∃ f0, ∀ f ≥ f0, o f = .ok z then h.choose else y

theorem fuelLimit_eq {Y : Type} {o : ℕ → Out Y} {y z : Y} {f0 : ℕ} (h : ∀ f ≥ f0, o f = .ok z) : fuelLimit o y = z := by
  have hex : ∃ z, ∃ f0, ∀ f ≥ f0, o f = .ok z := ⟨z, f0, h⟩
  unfold fuelLimit
  rw [dif_pos hex]
  obtain ⟨f1, h1⟩ := hex.choose_spec
  have h2 := h1 (max f0 f1) (le_max_right _ _)
  rw [h _ (le_max_left _ _)] at h2
  injection h2 with h2
  exact h2.symm

/-- Outcomes that only grow with the fuel. -/
def FuelMono {Y : Type} (o : ℕ → Out Y) : Prop := ∀ f f', f ≤ f' → (o f).Refines (o f')

theorem FuelMono.ok {Y : Type} {o : ℕ → Out Y} (h : FuelMono o) {f : ℕ} {z : Y} (hz : o f = .ok z) :
    ∀ f' ≥ f, o f' = .ok z := fun f' hf => by
  rw [(h f f' hf).eq (by rw [hz]; exact fun h => by cases h), hz]

theorem measurable_fuelLimit {X Y : Type} [MeasurableSpace X] [MeasurableSpace Y] {o : ℕ → X → Out Y} (ho : ∀ f, PMeas (o f))
    (hm : ∀ x, FuelMono fun f => o f x) {y : X → Y} (hy : Measurable y) : Measurable fun x => fuelLimit (fun f => o f x) (y x) := by
  intro T hT
  have e : (fun x => fuelLimit (fun f => o f x) (y x)) ⁻¹' T =
      (⋃ f, {x | ∃ z, o f x = .ok z ∧ z ∈ T}) ∪ ((⋃ f, {x | ∃ z, o f x = .ok z ∧ z ∈ univ})ᶜ ∩ y ⁻¹' T) := by
    ext x
    simp only [mem_preimage, mem_union, mem_iUnion, mem_ofPred_eq, mem_inter_iff, mem_compl_iff, mem_univ, and_true]
    by_cases h : ∃ f z, o f x = .ok z
    · obtain ⟨f, z, hz⟩ := h
      rw [fuelLimit_eq (z := z) (f0 := f) fun f' hf => (hm x).ok hz f' hf]
      constructor
      · intro ht; exact .inl ⟨f, z, hz, ht⟩
      · rintro (⟨f', z', hz', ht⟩ | ⟨hn, _⟩)
        · have h1 := (hm x).ok hz (max f f') (le_max_left _ _)
          have h2 := (hm x).ok hz' (max f f') (le_max_right _ _)
          have h1' : o (max f f') x = .ok z := h1
          have h2' : o (max f f') x = .ok z' := h2
          rw [h1'] at h2'
          injection h2' with h2'
          rw [h2']; exact ht
        · exact absurd ⟨f, z, hz⟩ hn
    · have : fuelLimit (fun f => o f x) (y x) = y x := by
        unfold fuelLimit
        rw [dif_neg]
        rintro ⟨z, f0, hz⟩
        exact h ⟨f0, z, hz f0 le_rfl⟩
      rw [this]
      constructor
      · intro ht; exact .inr ⟨h, ht⟩
      · rintro (⟨f, z, hz, _⟩ | ⟨_, ht⟩)
        · exact absurd ⟨f, z, hz⟩ h
        · exact ht
  rw [e]
  refine (MeasurableSet.iUnion fun f => (ho f).measurableSet_ok hT).union
    ((MeasurableSet.iUnion fun f => (ho f).measurableSet_ok MeasurableSet.univ).compl.inter (hy hT))

/-! ## The law of the chain -/

section
variable {n : ℕ}

/-- The event that `t` iterations return, given enough fuel, and end in `T`. -/
def chainEvent {G : Type} (step : ℕ → (Fin n → ℝ) × G → Out ((Fin n → ℝ) × G)) (t : ℕ) (T : Set (Fin n → ℝ)) :
    Set ((Fin n → ℝ) × G) := {p | ∃ f0, ∀ f ≥ f0, ∃ s, iter (step f) t p = .ok s ∧ s.1 ∈ T}

theorem measurableSet_chainEvent {G : Type} [MeasurableSpace G] {step : ℕ → (Fin n → ℝ) × G → Out ((Fin n → ℝ) × G)}
    (hs : ∀ f, PMeas (step f)) (t : ℕ) {T : Set (Fin n → ℝ)} (hT : MeasurableSet T) :
    MeasurableSet (chainEvent step t T) := by
  have : chainEvent step t T = ⋃ f0, ⋂ f, ⋂ _ : f ≥ f0, {p | ∃ s, iter (step f) t p = .ok s ∧ s ∈ Prod.fst ⁻¹' T} := by
    ext q; simp [chainEvent]
  rw [this]
  exact MeasurableSet.iUnion fun f0 => MeasurableSet.iInter fun f => MeasurableSet.iInter fun _ =>
    (iter_pmeas (hs f) t).measurableSet_ok (measurable_fst hT)

theorem step_pmeas_of_draw (r : Rng ℝ) [MeasurableSpace r.G] (μ : Measure r.G) (N : (d : ℕ) → Measure (Fin d → ℝ))
    (hs : Source r μ N) (step : (Fin n → ℝ) × r.G → Out ((Fin n → ℝ) × r.G))
    (draw : (Fin n → ℝ) → (Fin n → ℝ) → ℝ → r.G → Out ((Fin n → ℝ) × r.G))
    (hstep : ∀ x g, step (x, g) = draw x (r.gaussian n g).1 (r.uniform (r.gaussian n g).2).1 (r.uniform (r.gaussian n g).2).2)
    (hdraw : PMeas fun p : (Fin n → ℝ) × (Fin n → ℝ) × ℝ × r.G => draw p.1 p.2.1 p.2.2.1 p.2.2.2) : PMeas step := by
  have mg := (hs.gaussian n).measurable
  have mu := hs.uniform.measurable
  have e : step = fun p : (Fin n → ℝ) × r.G => draw p.1 (r.gaussian n p.2).1 (r.uniform (r.gaussian n p.2).2).1
    (r.uniform (r.gaussian n p.2).2).2 := funext fun p => hstep p.1 p.2
  rw [e]
  have h1 : Measurable fun p : (Fin n → ℝ) × r.G => (p.1, (r.gaussian n p.2).1, (r.uniform (r.gaussian n p.2).2).1,
      (r.uniform (r.gaussian n p.2).2).2) :=
    measurable_fst.prodMk ((mg.fst.comp measurable_snd).prodMk (mu.comp (mg.snd.comp measurable_snd)))
  exact hdraw.comp h1

/-- The probability that `t` iterations end in `T`. -/
theorem chain_law (r : Rng ℝ) [MeasurableSpace r.G] (μ : Measure r.G) (N : (d : ℕ) → Measure (Fin d → ℝ))
    (hs : Source r μ N) (K : Set (Fin n → ℝ))
    (step : ℕ → (Fin n → ℝ) × r.G → Out ((Fin n → ℝ) × r.G))
    (draw : ℕ → (Fin n → ℝ) → (Fin n → ℝ) → ℝ → r.G → Out ((Fin n → ℝ) × r.G))
    (hstep : ∀ f x g, step f (x, g) = draw f x (r.gaussian n g).1 (r.uniform (r.gaussian n g).2).1
      (r.uniform (r.gaussian n g).2).2)
    (hdraw : ∀ f, PMeas fun p : (Fin n → ℝ) × (Fin n → ℝ) × ℝ × r.G => draw f p.1 p.2.1 p.2.2.1 p.2.2.2)
    (next : (Fin n → ℝ) → (Fin n → ℝ) → ℝ → Fin n → ℝ)
    (hK : ∀ x ∈ K, ∀ᵐ v ∂(N n), ∀ val ∈ Icc (0 : ℝ) 1, next x v val ∈ K ∧
      ∃ f0, ∀ f ≥ f0, ∀ g, draw f x v val g = .ok (next x v val, g))
    (T : Set (Fin n → ℝ)) (hT : MeasurableSet T) (t : ℕ) :
    ∀ x ∈ K, μ {g | (x, g) ∈ chainEvent step t T} = afterSteps (N n) next (T.indicator 1) t x := by
  have := hs.prob
  have := hs.probN n
  have hsp : ∀ f, PMeas (step f) := fun f => step_pmeas_of_draw r μ N hs (step f) (draw f) (hstep f) (hdraw f)
  induction t with
  | zero =>
    intro x hx
    have e : {g | (x, g) ∈ chainEvent step 0 T} = {_g : r.G | x ∈ T} := by
      ext g
      constructor
      · rintro ⟨f0, h⟩
        obtain ⟨s, h1, h2⟩ := h f0 le_rfl
        cases h1
        exact h2
      · intro h
        exact ⟨0, fun f _ => ⟨_, rfl, h⟩⟩
    rw [e]
    by_cases h : x ∈ T <;> simp [h, afterSteps]
  | succ t ih =>
    intro x hx
    let S : Set ((Fin n → ℝ) × ℝ × r.G) :=
      {q | ∃ f0, ∀ f ≥ f0, ∃ s, (draw f x q.1 q.2.1 q.2.2).bind (iter (step f) t) = .ok s ∧ s ∈ Prod.fst ⁻¹' T}
    have hS : MeasurableSet S := by
      have : S = ⋃ f0, ⋂ f, ⋂ _ : f ≥ f0, {q | ∃ s, (draw f x q.1 q.2.1 q.2.2).bind (iter (step f) t) = .ok s ∧
          s ∈ Prod.fst ⁻¹' T} := by
        ext q; simp [S]
      rw [this]
      refine MeasurableSet.iUnion fun f0 => MeasurableSet.iInter fun f => MeasurableSet.iInter fun _ => ?_
      refine PMeas.measurableSet_ok (f := fun q : (Fin n → ℝ) × ℝ × r.G =>
        (draw f x q.1 q.2.1 q.2.2).bind (iter (step f) t)) ?_ (measurable_fst hT)
      refine PMeas.bind (f := fun q : (Fin n → ℝ) × ℝ × r.G => draw f x q.1 q.2.1 q.2.2) ?_
        (h := fun _ => iter (step f) t) ((iter_pmeas (hsp f) t).comp measurable_snd)
      exact (hdraw f).comp (g := fun q : (Fin n → ℝ) × ℝ × r.G => (x, q)) (measurable_const.prodMk measurable_id)
    have hmp : MeasurePreserving (fun g => ((r.gaussian n g).1, r.uniform (r.gaussian n g).2)) μ
        ((N n).prod ((volume.restrict (Icc (0 : ℝ) 1)).prod μ)) :=
      ((MeasurePreserving.id (N n)).prod hs.uniform).comp (hs.gaussian n)
    have e : {g | (x, g) ∈ chainEvent step (t + 1) T} =
        (fun g => ((r.gaussian n g).1, r.uniform (r.gaussian n g).2)) ⁻¹' S := by
      ext g
      show (∃ f0, ∀ f ≥ f0, ∃ s, iter (step f) (t + 1) (x, g) = .ok s ∧ s.1 ∈ T) ↔ _
      simp only [iter_front, hstep]
      rfl
    rw [e, hmp.measure_preimage hS.nullMeasurableSet, Measure.prod_apply hS]
    show _ = ∫⁻ v, ∫⁻ val, afterSteps (N n) next (T.indicator 1) t (next x v val) ∂unitLaw ∂(N n)
    refine lintegral_congr_ae ?_
    filter_upwards [hK x hx] with v hv
    have hSv : MeasurableSet (Prod.mk v ⁻¹' S) := measurable_prodMk_left hS
    rw [Measure.prod_apply hSv]
    refine setLIntegral_congr_fun measurableSet_Icc fun val hval => ?_
    obtain ⟨hx', f0, hd⟩ := hv val hval
    show μ _ = _
    rw [← ih _ hx']
    congr 1
    ext g
    show (∃ f0, ∀ f ≥ f0, ∃ s, (draw f x v val g).bind (iter (step f) t) = .ok s ∧ s.1 ∈ T) ↔
      ∃ f0, ∀ f ≥ f0, ∃ s, iter (step f) t (next x v val, g) = .ok s ∧ s.1 ∈ T
    constructor
    · rintro ⟨f1, h⟩
      refine ⟨max f0 f1, fun f hf => ?_⟩
      obtain ⟨s, h1, h2⟩ := h f (le_trans (le_max_right _ _) hf)
      rw [hd f (le_trans (le_max_left _ _) hf), Out.ok_bind] at h1
      exact ⟨s, h1, h2⟩
    · rintro ⟨f1, h⟩
      refine ⟨max f0 f1, fun f hf => ?_⟩
      obtain ⟨s, h1, h2⟩ := h f (le_trans (le_max_right _ _) hf)
      exact ⟨s, by rw [hd f (le_trans (le_max_left _ _) hf), Out.ok_bind]; exact h1, h2⟩

/-- The law of the chain started from `π`. -/
theorem chain_near (r : Rng ℝ) [MeasurableSpace r.G] (μ : Measure r.G) (N : (d : ℕ) → Measure (Fin d → ℝ))
    (hs : Source r μ N) (K : Set (Fin n → ℝ)) (π : Measure (Fin n → ℝ)) [SFinite π] (hπ : ∀ᵐ x ∂π, x ∈ K)
    (step : ℕ → (Fin n → ℝ) × r.G → Out ((Fin n → ℝ) × r.G))
    (draw : ℕ → (Fin n → ℝ) → (Fin n → ℝ) → ℝ → r.G → Out ((Fin n → ℝ) × r.G))
    (hstep : ∀ f x g, step f (x, g) = draw f x (r.gaussian n g).1 (r.uniform (r.gaussian n g).2).1
      (r.uniform (r.gaussian n g).2).2)
    (hdraw : ∀ f, PMeas fun p : (Fin n → ℝ) × (Fin n → ℝ) × ℝ × r.G => draw f p.1 p.2.1 p.2.2.1 p.2.2.2)
    (next : (Fin n → ℝ) → (Fin n → ℝ) → ℝ → Fin n → ℝ)
    (hn : Measurable fun p : (Fin n → ℝ) × (Fin n → ℝ) × ℝ => next p.1 p.2.1 p.2.2)
    (hK : ∀ x ∈ K, ∀ᵐ v ∂(N n), ∀ val ∈ Icc (0 : ℝ) 1, next x v val ∈ K ∧
      ∃ f0, ∀ f ≥ f0, ∀ g, draw f x v val g = .ok (next x v val, g))
    (δ : ℝ≥0∞)
    (hnear : ∀ F : (Fin n → ℝ) → ℝ≥0∞, Measurable F → (∀ x, F x ≤ 1) →
      (∫⁻ x, ∫⁻ v, ∫⁻ val, F (next x v val) ∂unitLaw ∂(N n) ∂π) ≤ (∫⁻ x, F x ∂π) + δ ∧
      (∫⁻ x, F x ∂π) ≤ (∫⁻ x, ∫⁻ v, ∫⁻ val, F (next x v val) ∂unitLaw ∂(N n) ∂π) + δ)
    (T : Set (Fin n → ℝ)) (hT : MeasurableSet T) (t : ℕ) :
    (π.prod μ) (chainEvent step t T) ≤ π T + t * δ ∧ π T ≤ (π.prod μ) (chainEvent step t T) + t * δ := by
  have := hs.prob
  have := hs.probN n
  have hsp : ∀ f, PMeas (step f) := fun f => step_pmeas_of_draw r μ N hs (step f) (draw f) (hstep f) (hdraw f)
  have e : (π.prod μ) (chainEvent step t T) = ∫⁻ x, afterSteps (N n) next (T.indicator 1) t x ∂π := by
    rw [Measure.prod_apply (measurableSet_chainEvent hsp t hT)]
    refine lintegral_congr_ae ?_
    filter_upwards [hπ] with x hx
    exact chain_law r μ N hs K step draw hstep hdraw next hK T hT t x hx
  have h1 : ∀ x, T.indicator (1 : (Fin n → ℝ) → ℝ≥0∞) x ≤ 1 := fun x => by
    by_cases h : x ∈ T <;> simp [h]
  have := afterSteps_near (N n) π hn δ hnear (measurable_one.indicator hT) h1 t
  rw [e]
  rwa [lintegral_indicator_one hT] at this

/-- From a random initial position in `K`, all iterations return. -/
theorem chain_returns_prod (r : Rng ℝ) [MeasurableSpace r.G] (μ : Measure r.G) (N : (d : ℕ) → Measure (Fin d → ℝ))
    (hs : Source r μ N) (K : Set (Fin n → ℝ)) (hKm : MeasurableSet K) (π : Measure (Fin n → ℝ)) [SFinite π]
    (hπ : ∀ᵐ x ∂π, x ∈ K) (step : ℕ → (Fin n → ℝ) × r.G → Out ((Fin n → ℝ) × r.G))
    (draw : ℕ → (Fin n → ℝ) → (Fin n → ℝ) → ℝ → r.G → Out ((Fin n → ℝ) × r.G))
    (hstep : ∀ f x g, step f (x, g) = draw f x (r.gaussian n g).1 (r.uniform (r.gaussian n g).2).1
      (r.uniform (r.gaussian n g).2).2)
    (hdraw : ∀ f, PMeas fun p : (Fin n → ℝ) × (Fin n → ℝ) × ℝ × r.G => draw f p.1 p.2.1 p.2.2.1 p.2.2.2)
    (hK : ∀ x ∈ K, ∀ᵐ v ∂(N n), ∀ val ∈ Icc (0 : ℝ) 1, ∃ f0 x', x' ∈ K ∧
      ∀ f ≥ f0, ∀ g, draw f x v val g = .ok (x', g)) :
    ∀ᵐ p ∂(π.prod μ), ∀ t, p ∈ chainEvent step t univ := by
  have := hs.prob
  have hsp : ∀ f, PMeas (step f) := fun f => step_pmeas_of_draw r μ N hs (step f) (draw f) (hstep f) (hdraw f)
  refine ae_all_iff.2 fun t => ?_
  refine (Measure.ae_prod_iff_ae_ae (measurableSet_chainEvent hsp t MeasurableSet.univ)).2 ?_
  filter_upwards [hπ] with x hx
  filter_upwards [iter_returns_ae r μ N hs K hKm step draw hstep hdraw hK t x hx] with g hg
  obtain ⟨f0, h⟩ := hg
  exact ⟨f0, fun f hf => (h f hf).imp fun s hs => ⟨hs.1, trivial⟩⟩

end

/-! ## The law of the rows -/

/-- The row event in terms of the chain. -/
theorem rows_event (w : Walk ℝ) (e : Env ℝ) (a : Args ℝ) (hg : GoodInts a.niter a.burnin a.thin) (hd : a.DimsOk)
    (hk : w.isSparse = true → a.KOk)
    (h : ∀ t, ∃ f0, ∀ f ≥ f0, ∃ s, w.chain (e.withFuel f) a hd t = .ok s)
    (j : ℕ) (hj : (j : Int) < (a.niter - a.burnin) / a.thin) (T : Set (Fin a.A.c → ℝ)) :
    (∃ (f0 : ℕ) (rows : List (Fin a.A.c → ℝ)), (∀ f ≥ f0, w.run (e.withFuel f) a = .ok rows) ∧
      ∃ hj : j < rows.length, rows[j] ∈ T) ↔
    ∃ f0, ∀ f ≥ f0, ∃ s, w.chain (e.withFuel f) a hd (a.burnin + ((j : Int) + 1) * a.thin).toNat = .ok s ∧
      w.pos (e.withFuel f) s ∈ T := by
  obtain ⟨f0, rows, hall, -⟩ := returns_of_chain w e a hg hd hk univ (by
    intro t
    obtain ⟨f0, h0⟩ := h t
    exact ⟨f0, fun f hf => (h0 f hf).imp fun s hs => ⟨hs, trivial⟩⟩)
  constructor
  · rintro ⟨f1, rows', h1, hj', hT⟩
    refine ⟨f1, fun f hf => ?_⟩
    obtain ⟨_, h3⟩ := C02_rows w (e.withFuel f) a hg rows' (h1 f hf)
    obtain ⟨st, h4, h5⟩ := h3 j hj'
    exact ⟨st, h4, by rw [h5]; exact hT⟩
  · rintro ⟨f1, h1⟩
    have hlen := C01_shape w (e.withFuel f0) a hg rows (hall f0 le_rfl)
    refine ⟨f0, rows, hall, by omega, ?_⟩
    obtain ⟨_, h3⟩ := C02_rows w (e.withFuel (max f0 f1)) a hg rows (hall _ (le_max_left _ _))
    obtain ⟨st, h4, h5⟩ := h3 j (by omega)
    obtain ⟨st', h6, h7⟩ := h1 (max f0 f1) (le_max_right _ _)
    rw [h4] at h6
    cases h6
    rw [← h5]
    exact h7

end PW
