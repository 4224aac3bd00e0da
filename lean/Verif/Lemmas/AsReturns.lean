import Verif.Lemmas.PMeas
import Verif.Lemmas.Fuel

/-! # Chains whose steps return almost surely -/

namespace PW
open MeasureTheory Set

variable {n : ℕ}

/-- If from every position in `K` a step returns and stays in `K` for almost every normal draw, the chain returns almost
surely, for any number of steps. -/
theorem iter_returns_ae (r : Rng ℝ) [MeasurableSpace r.G] (μ : Measure r.G) (N : (d : ℕ) → Measure (Fin d → ℝ))
    (hs : Source r μ N) (K : Set (Fin n → ℝ)) (mK : MeasurableSet K)
    (step : ℕ → (Fin n → ℝ) × r.G → Out ((Fin n → ℝ) × r.G))
    (draw : ℕ → (Fin n → ℝ) → (Fin n → ℝ) → ℝ → r.G → Out ((Fin n → ℝ) × r.G))
    (hstep : ∀ f x g, step f (x, g) = draw f x (r.gaussian n g).1 (r.uniform (r.gaussian n g).2).1
      (r.uniform (r.gaussian n g).2).2)
    (hdraw : ∀ f, PMeas fun p : (Fin n → ℝ) × (Fin n → ℝ) × ℝ × r.G => draw f p.1 p.2.1 p.2.2.1 p.2.2.2)
    (hK : ∀ x ∈ K, ∀ᵐ v ∂(N n), ∀ val ∈ Icc (0 : ℝ) 1, ∃ f0 x', x' ∈ K ∧ ∀ f ≥ f0, ∀ g, draw f x v val g = .ok (x', g))
    (t : ℕ) : ∀ x ∈ K, ∀ᵐ g ∂μ, ∃ f0, ∀ f ≥ f0, ∃ s, iter (step f) t (x, g) = .ok s ∧ s.1 ∈ K := by
  have := hs.prob
  have := hs.probN n
  have mg := (hs.gaussian n).measurable
  have mu := hs.uniform.measurable
  have hsp : ∀ f, PMeas (step f) := fun f => by
    have e : step f = fun p : (Fin n → ℝ) × r.G => draw f p.1 (r.gaussian n p.2).1 (r.uniform (r.gaussian n p.2).2).1
      (r.uniform (r.gaussian n p.2).2).2 := funext fun p => hstep f p.1 p.2
    rw [e]
    have h1 : Measurable fun p : (Fin n → ℝ) × r.G => (p.1, (r.gaussian n p.2).1, (r.uniform (r.gaussian n p.2).2).1,
        (r.uniform (r.gaussian n p.2).2).2) :=
      measurable_fst.prodMk ((mg.fst.comp measurable_snd).prodMk (mu.comp (mg.snd.comp measurable_snd)))
    exact (hdraw f).comp h1
  induction t with
  | zero => exact fun x hx => Filter.Eventually.of_forall fun g => ⟨0, fun f _ => ⟨_, rfl, hx⟩⟩
  | succ t ih =>
    intro x hx
    -- the good draws
    let S : Set ((Fin n → ℝ) × ℝ × r.G) :=
      {q | ∃ f0, ∀ f ≥ f0, ∃ s, (draw f x q.1 q.2.1 q.2.2).bind (iter (step f) t) = .ok s ∧ s ∈ Prod.fst ⁻¹' K}
    have hS : MeasurableSet S := by
      have : S = ⋃ f0, ⋂ f, ⋂ _ : f ≥ f0, {q | ∃ s, (draw f x q.1 q.2.1 q.2.2).bind (iter (step f) t) = .ok s ∧ s ∈ Prod.fst ⁻¹' K} := by
        ext q; simp [S]
      rw [this]
      refine MeasurableSet.iUnion fun f0 => MeasurableSet.iInter fun f => MeasurableSet.iInter fun _ => ?_
      refine PMeas.measurableSet_ok (f := fun q : (Fin n → ℝ) × ℝ × r.G =>
        (draw f x q.1 q.2.1 q.2.2).bind (iter (step f) t)) ?_ (measurable_fst mK)
      refine PMeas.bind (f := fun q : (Fin n → ℝ) × ℝ × r.G => draw f x q.1 q.2.1 q.2.2) ?_
        (h := fun _ => iter (step f) t) ((iter_pmeas (hsp f) t).comp measurable_snd)
      exact (hdraw f).comp (g := fun q : (Fin n → ℝ) × ℝ × r.G => (x, q)) (measurable_const.prodMk measurable_id)
    have hae : ∀ᵐ q ∂((N n).prod ((volume.restrict (Icc (0 : ℝ) 1)).prod μ)), q ∈ S := by
      refine (Measure.ae_prod_mem_iff_ae_ae_mem hS).2 ?_
      filter_upwards [hK x hx] with v hv
      refine (Measure.ae_prod_mem_iff_ae_ae_mem (s := {q : ℝ × r.G | (v, q) ∈ S}) (measurable_prodMk_left hS)).2 ?_
      refine (ae_restrict_iff' measurableSet_Icc).2 (Filter.Eventually.of_forall fun val hval => ?_)
      obtain ⟨f0, x', hx', hd⟩ := hv val hval
      filter_upwards [ih x' hx'] with g hg
      obtain ⟨f1, h1⟩ := hg
      refine ⟨max f0 f1, fun f hf => ?_⟩
      obtain ⟨s, h⟩ := h1 f (le_trans (le_max_right _ _) hf)
      exact ⟨s, by rw [hd f (le_trans (le_max_left _ _) hf), Out.ok_bind]; exact h⟩
    have hmp : MeasurePreserving (fun g => ((r.gaussian n g).1, r.uniform (r.gaussian n g).2)) μ
        ((N n).prod ((volume.restrict (Icc (0 : ℝ) 1)).prod μ)) := by
      have h1 := ((MeasurePreserving.id (N n)).prod hs.uniform).comp (hs.gaussian n)
      exact h1
    filter_upwards [hmp.quasiMeasurePreserving.ae hae] with g hg
    obtain ⟨f0, h⟩ := hg
    refine ⟨f0, fun f hf => ?_⟩
    obtain ⟨s, h'⟩ := h f hf
    exact ⟨s, by rw [iter_front, hstep]; exact h'⟩

end PW
