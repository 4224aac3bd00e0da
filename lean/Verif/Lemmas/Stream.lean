import Verif.Lemmas.Stationary
import Verif.Lemmas.Gaussian
import Mathlib.Probability.ProductMeasure

/-! # An ideal source exists: two infinite streams of independent draws -/

namespace PW
open MeasureTheory ProbabilityTheory Set

/-- Prepend `d` values to a stream. -/
def streamCons {d : ℕ} (p : (Fin d → ℝ) × (ℕ → ℝ)) (i : ℕ) : ℝ :=
  if h : i < d then p.1 ⟨i, h⟩ else p.2 (i - d)

/-- Take `d` values off a stream. -/
def streamSplit (d : ℕ) (a : ℕ → ℝ) : (Fin d → ℝ) × (ℕ → ℝ) := (fun i => a i, fun j => a (j + d))

theorem streamSplit_cons {d : ℕ} (p : (Fin d → ℝ) × (ℕ → ℝ)) : streamSplit d (streamCons p) = p := by
  obtain ⟨v, a⟩ := p
  refine Prod.ext (funext fun i => ?_) (funext fun j => ?_)
  · simp [streamSplit, streamCons]
  · simp [streamSplit, streamCons]

theorem measurable_streamCons {d : ℕ} : Measurable (streamCons (d := d)) := by
  refine measurable_pi_lambda _ fun i => ?_
  unfold streamCons
  by_cases h : i < d
  · simp only [h, dif_pos]; exact (measurable_pi_apply _).comp measurable_fst
  · simp only [h, dif_neg, not_false_eq_true]; exact (measurable_pi_apply _).comp measurable_snd

theorem measurable_streamSplit (d : ℕ) : Measurable (streamSplit d) :=
  (measurable_pi_lambda _ fun _ => measurable_pi_apply _).prodMk
    (measurable_pi_lambda _ fun _ => measurable_pi_apply _)

theorem streamCons_map (ν : Measure ℝ) [IsProbabilityMeasure ν] (d : ℕ) :
    ((Measure.pi fun _ : Fin d => ν).prod (Measure.infinitePi fun _ : ℕ => ν)).map streamCons =
      Measure.infinitePi fun _ : ℕ => ν := by
  refine Measure.eq_infinitePi _ fun s t ht => ?_
  rw [Measure.map_apply measurable_streamCons (MeasurableSet.pi s.countable_toSet fun i _ => ht i)]
  -- the preimage is a product of boxes
  have e : (streamCons ⁻¹' (Set.pi (↑s) t) : Set ((Fin d → ℝ) × (ℕ → ℝ))) =
      (Set.pi univ fun i : Fin d => if (i : ℕ) ∈ s then t i else univ) ×ˢ
        (Set.pi (↑((s.filter (d ≤ ·)).image (· - d))) fun j => t (j + d)) := by
    ext ⟨v, a⟩
    simp only [mem_preimage, Set.mem_pi, Finset.mem_coe, mem_prod, mem_univ, forall_true_left,
      Finset.mem_image, Finset.mem_filter]
    constructor
    · intro h
      refine ⟨fun i => ?_, ?_⟩
      · split
        · have := h i ‹_›
          simpa [streamCons] using this
        · trivial
      · rintro j ⟨i, ⟨hi, hd⟩, rfl⟩
        have := h i hi
        rw [Nat.sub_add_cancel hd]
        simpa [streamCons, not_lt.2 hd] using this
    · rintro ⟨h1, h2⟩ i hi
      by_cases hd : i < d
      · have := h1 ⟨i, hd⟩
        simp only [hi, if_true] at this
        simpa [streamCons, hd] using this
      · have := h2 (i - d) ⟨i, ⟨hi, not_lt.1 hd⟩, rfl⟩
        rw [Nat.sub_add_cancel (not_lt.1 hd)] at this
        simpa [streamCons, hd] using this
  rw [e, Measure.prod_prod, Measure.pi_pi,
    Measure.infinitePi_pi (fun _ : ℕ => ν) (fun j _ => ht (j + d))]
  have h1 : ∏ i : Fin d, ν (if (i : ℕ) ∈ s then t i else univ) = ∏ i ∈ s.filter (· < d), ν (t i) := by
    have : ∀ i : Fin d, ν (if (i : ℕ) ∈ s then t i else univ) =
        if (i : ℕ) ∈ s then ν (t i) else 1 := fun i => by split <;> simp
    simp_rw [this]
    rw [Finset.prod_ite, Finset.prod_const_one, mul_one]
    refine Finset.prod_bij (fun i _ => (i : ℕ)) ?_ ?_ ?_ ?_
    · intro i hi; simp at hi ⊢; exact hi
    · intro i _ j _ h; exact Fin.ext h
    · intro i hi
      simp at hi
      exact ⟨⟨i, hi.2⟩, by simp [hi.1], rfl⟩
    · intro i _; rfl
  have h2 : ∏ i ∈ (s.filter (d ≤ ·)).image (· - d), ν (t (i + d)) = ∏ i ∈ s.filter (d ≤ ·), ν (t i) := by
    rw [Finset.prod_image]
    · refine Finset.prod_congr rfl fun i hi => ?_
      rw [Nat.sub_add_cancel (Finset.mem_filter.1 hi).2]
    · intro i hi j hj h
      have hi' := (Finset.mem_filter.1 hi).2
      have hj' := (Finset.mem_filter.1 hj).2
      simp only at h
      omega
  rw [h1, h2, ← Finset.prod_filter_mul_prod_filter_not s (· < d)]
  simp_rw [not_lt]

theorem streamSplit_preserving (ν : Measure ℝ) [IsProbabilityMeasure ν] (d : ℕ) :
    MeasurePreserving (streamSplit d) (Measure.infinitePi fun _ : ℕ => ν)
      ((Measure.pi fun _ : Fin d => ν).prod (Measure.infinitePi fun _ : ℕ => ν)) := by
  refine ⟨measurable_streamSplit d, ?_⟩
  conv_lhs => rw [← streamCons_map ν d]
  rw [Measure.map_map (measurable_streamSplit d) measurable_streamCons]
  have : streamSplit d ∘ streamCons = id := funext streamSplit_cons
  rw [this, Measure.map_id]

/-- A generator whose state is the future draws: a stream of normal and a stream of uniform variables. -/
def streamRng : Rng ℝ where
  G := (ℕ → ℝ) × (ℕ → ℝ)
  N := Unit
  seed _ := (fun _ => 0, fun _ => 0)
  normalInit := ()
  normal _ g := (g.1 0, (), (fun i => g.1 (i + 1), g.2))
  uniform g := (g.2 0, (g.1, fun i => g.2 (i + 1)))

instance : MeasurableSpace streamRng.G := inferInstanceAs (MeasurableSpace ((ℕ → ℝ) × (ℕ → ℝ)))

/-- Independent standard normal and uniform streams. -/
noncomputable def streamLaw : Measure streamRng.G :=
  Measure.prod (Measure.infinitePi fun _ : ℕ => gaussianReal 0 1) (Measure.infinitePi fun _ : ℕ => unitLaw)

theorem streamRng_normalState (a b : ℕ → ℝ) (i : ℕ) :
    streamRng.normalState (a, b) i = ((), (fun j => a (j + i), b)) := by
  induction i with
  | zero => rfl
  | succ i ih =>
    have e : streamRng.normalState (a, b) (i + 1) = (streamRng.normal (streamRng.normalState (a, b) i).1
      (streamRng.normalState (a, b) i).2).2 := rfl
    rw [e, ih]
    have : (fun j => a (j + 1 + i)) = fun j => a (j + (i + 1)) := by
      funext j; rw [Nat.add_assoc, Nat.add_comm 1 i]
    exact congrArg (fun c => (((), (c, b)) : Unit × ((ℕ → ℝ) × (ℕ → ℝ)))) this

theorem streamRng_gaussian (d : ℕ) (a b : ℕ → ℝ) :
    streamRng.gaussian d (a, b) = ((fun i => a i : Fin d → ℝ), ((fun j => a (j + d), b) : (ℕ → ℝ) × (ℕ → ℝ))) := by
  unfold Rng.gaussian
  simp only [streamRng_normalState]
  refine Prod.ext (funext fun i => ?_) rfl
  show a (0 + i) = a i
  rw [zero_add]

theorem streamLaw_gaussian (d : ℕ) : MeasurePreserving (streamRng.gaussian d) streamLaw
    ((stdNormal d).prod streamLaw) := by
  have h := streamSplit_preserving (gaussianReal 0 1) d
  have h2 := h.prod (MeasurePreserving.id (Measure.infinitePi fun _ : ℕ => unitLaw))
  have h3 := (measurePreserving_prodAssoc (Measure.pi fun _ : Fin d => gaussianReal 0 1)
    (Measure.infinitePi fun _ : ℕ => gaussianReal 0 1) (Measure.infinitePi fun _ : ℕ => unitLaw)).comp h2
  have e : streamRng.gaussian d = MeasurableEquiv.prodAssoc ∘ Prod.map (streamSplit d) id := by
    funext g
    exact streamRng_gaussian d g.1 g.2
  rw [e]
  exact h3

theorem streamLaw_uniform : MeasurePreserving streamRng.uniform streamLaw (unitLaw.prod streamLaw) := by
  have h := streamSplit_preserving unitLaw 1
  let A := Measure.infinitePi fun _ : ℕ => gaussianReal 0 1
  let B := Measure.infinitePi fun _ : ℕ => unitLaw
  let V := Measure.pi fun _ : Fin 1 => unitLaw
  have h1 : MeasurePreserving (Prod.map id (streamSplit 1)) (A.prod B) (A.prod (V.prod B)) :=
    (MeasurePreserving.id A).prod h
  have h2 := (measurePreserving_prodAssoc A V B).symm.comp h1
  have h3 := ((Measure.measurePreserving_swap (μ := A) (ν := V)).prod (MeasurePreserving.id B)).comp h2
  have h4 := (measurePreserving_prodAssoc V A B).comp h3
  have h5 := ((measurePreserving_eval (fun _ : Fin 1 => unitLaw) 0).prod
    (MeasurePreserving.id (A.prod B))).comp h4
  exact h5

/-- **An ideal source exists.** -/
theorem streamRng_ideal : IdealSource streamRng streamLaw where
  prob := inferInstanceAs (IsProbabilityMeasure (Measure.prod
    (Measure.infinitePi fun _ : ℕ => gaussianReal 0 1) (Measure.infinitePi fun _ : ℕ => unitLaw)))
  probN d := by infer_instance
  gaussian d := streamLaw_gaussian d
  uniform := streamLaw_uniform

end PW
