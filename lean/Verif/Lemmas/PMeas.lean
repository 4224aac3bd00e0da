import Verif.Lemmas.Chord
import Verif.Props.BallLaw
import Mathlib.MeasureTheory.MeasurableSpace.Embedding

/-! # Measurability of outcome-valued functions -/

namespace PW
open MeasureTheory Set

section
variable {X Y Z : Type} [MeasurableSpace X] [MeasurableSpace Y] [MeasurableSpace Z]

/-- Forget which abnormal outcome it was. -/
def Out.toSum {Y : Type} : Out Y → Y ⊕ Unit
  | .ok y => .inl y
  | _ => .inr ()

/-- The outcome depends measurably on `x`. -/
def PMeas (f : X → Out Y) : Prop := Measurable fun x => (f x).toSum

theorem PMeas.ok {f : X → Y} (hf : Measurable f) : PMeas fun x => Out.ok (f x) :=
  measurable_inl.comp hf

theorem PMeas.timeout : PMeas fun _ : X => (Out.timeout : Out Y) := measurable_const

theorem PMeas.comp {f : Y → Out Z} (hf : PMeas f) {g : X → Y} (hg : Measurable g) : PMeas fun x => f (g x) :=
  Measurable.comp (g := fun y => (f y).toSum) hf hg

theorem PMeas.ite {p : X → Prop} [DecidablePred p] (hp : MeasurableSet {x | p x}) {f g : X → Out Y} (hf : PMeas f)
    (hg : PMeas g) : PMeas fun x => if p x then f x else g x := by
  have : (fun x => (if p x then f x else g x).toSum) = fun x => if p x then (f x).toSum else (g x).toSum := by
    funext x; split <;> rfl
  show Measurable _
  rw [this]
  exact Measurable.ite hp hf hg

theorem PMeas.bind {f : X → Out Y} (hf : PMeas f) {h : X → Y → Out Z} (hh : PMeas fun p : X × Y => h p.1 p.2) :
    PMeas fun x => (f x).bind (h x) := by
  let G : X × (Y ⊕ Unit) → Z ⊕ Unit := fun p => Sum.elim (fun y => (h p.1 y).toSum) (fun _ => .inr ()) p.2
  have hG : Measurable G := by
    have h1 : Measurable (G ∘ (MeasurableEquiv.prodSumDistrib X Y Unit).symm) := by
      refine measurable_fun_sum ?_ ?_
      · exact hh
      · exact measurable_const
    have := h1.comp (MeasurableEquiv.prodSumDistrib X Y Unit).measurable
    have e : (G ∘ (MeasurableEquiv.prodSumDistrib X Y Unit).symm) ∘ (MeasurableEquiv.prodSumDistrib X Y Unit) = G := by
      funext p; simp
    rwa [e] at this
  have : (fun x => ((f x).bind (h x)).toSum) = fun x => G (x, (f x).toSum) := by
    funext x
    cases f x <;> rfl
  show Measurable _
  rw [this]
  exact hG.comp (measurable_id.prodMk hf)

theorem PMeas.measurableSet_ok {f : X → Out Y} (hf : PMeas f) {T : Set Y} (hT : MeasurableSet T) :
    MeasurableSet {x | ∃ y, f x = .ok y ∧ y ∈ T} := by
  have : {x | ∃ y, f x = .ok y ∧ y ∈ T} = (fun x => (f x).toSum) ⁻¹' (Sum.inl '' T) := by
    ext x
    cases hx : f x <;> simp [hx, Out.toSum]
  rw [this]
  exact hf (measurableSet_inl_image.2 hT)

end

variable {X : Type} [MeasurableSpace X] {m n : ℕ}

theorem measurable_distance {x y : X → Fin n → ℝ} (hx : Measurable x) (hy : Measurable y) :
    Measurable fun p => distance (x p) (y p) := by
  have h : Measurable fun p => x p - y p := hx.sub hy
  exact measurable_norm2.comp h

open Classical in
theorem expand_pmeas {K : Set (Fin n → ℝ)} (hK : MeasurableSet K) {inside : (Fin n → ℝ) → Out Bool}
    (hI : ∀ z, inside z = .ok (decide (z ∈ K))) {dir x : X → Fin n → ℝ} (hd : Measurable dir) (hx : Measurable x)
    (fuel : ℕ) (far : X → Fin n → ℝ) (hf : Measurable far) :
    PMeas fun p => HitRun.expand inside (dir p) (x p) fuel (far p) := by
  induction fuel generalizing far with
  | zero => exact PMeas.timeout
  | succ fuel ih =>
    have hfar : Measurable fun p => (fun i => x p i + two * distance (x p) (far p) * dir p i : Fin n → ℝ) := by
      refine measurable_pi_lambda _ fun i => ?_
      exact ((measurable_pi_apply i).comp hx).add
        (((measurable_distance hx hf).const_mul _).mul ((measurable_pi_apply i).comp hd))
    have e : (fun p => HitRun.expand inside (dir p) (x p) (fuel + 1) (far p)) = fun p =>
        if (fun i => x p i + two * distance (x p) (far p) * dir p i : Fin n → ℝ) ∈ K then
          HitRun.expand inside (dir p) (x p) fuel (fun i => x p i + two * distance (x p) (far p) * dir p i)
        else .ok (fun i => x p i + two * distance (x p) (far p) * dir p i) := by
      funext p
      rw [HitRun.expand]
      simp only [hI, Out.ok_bind]
      by_cases h : (fun i => x p i + two * distance (x p) (far p) * dir p i : Fin n → ℝ) ∈ K <;> simp
    rw [e]
    exact PMeas.ite (hfar hK) (ih _ hfar) (PMeas.ok hfar)

open Classical in
theorem bisect_pmeas {K : Set (Fin n → ℝ)} (hK : MeasurableSet K) {inside : (Fin n → ℝ) → Out Bool}
    (hI : ∀ z, inside z = .ok (decide (z ∈ K))) (ERR : ℝ) (fuel : ℕ) (left right mid : X → Fin n → ℝ)
    (hl : Measurable left) (hr : Measurable right) (hm : Measurable mid) :
    PMeas fun p => HitRun.bisect inside ERR fuel (left p) (right p) (mid p) := by
  have hc : ∀ left right mid : X → Fin n → ℝ, Measurable left → Measurable right → Measurable mid →
      MeasurableSet {p | ERR < distance (left p) (right p) ∨ ¬ mid p ∈ K} := fun left right mid hl hr hm =>
    (measurableSet_lt measurable_const (measurable_distance hl hr)).union (hm hK).compl
  induction fuel generalizing left right mid with
  | zero =>
    have e : (fun p => HitRun.bisect inside ERR 0 (left p) (right p) (mid p)) = fun p =>
        if ERR < distance (left p) (right p) ∨ ¬ mid p ∈ K then .timeout else .ok (mid p) := by
      funext p
      rw [HitRun.bisect.eq_def]
      simp only [hI, Out.ok_bind, rsc_lt]
      by_cases h1 : ERR < distance (left p) (right p) <;> by_cases h2 : mid p ∈ K <;> simp [h1, h2]
    rw [e]
    exact PMeas.ite (hc _ _ _ hl hr hm) PMeas.timeout (PMeas.ok hm)
  | succ fuel ih =>
    have hmid : Measurable fun p => (fun i => (left p i + right p i) / two : Fin n → ℝ) :=
      measurable_pi_lambda _ fun i =>
        (((measurable_pi_apply i).comp hl).add ((measurable_pi_apply i).comp hr)).div_const _
    have e : (fun p => HitRun.bisect inside ERR (fuel + 1) (left p) (right p) (mid p)) = fun p =>
        if ERR < distance (left p) (right p) ∨ ¬ mid p ∈ K then
          (if (fun i => (left p i + right p i) / two : Fin n → ℝ) ∈ K then
            HitRun.bisect inside ERR fuel (fun i => (left p i + right p i) / two) (right p)
              (fun i => (left p i + right p i) / two)
          else HitRun.bisect inside ERR fuel (left p) (fun i => (left p i + right p i) / two)
              (fun i => (left p i + right p i) / two))
        else .ok (mid p) := by
      funext p
      rw [HitRun.bisect.eq_def]
      simp only [hI, Out.ok_bind, rsc_lt]
      by_cases h1 : ERR < distance (left p) (right p) <;> by_cases h2 : mid p ∈ K <;>
        by_cases h3 : (fun i => (left p i + right p i) / two : Fin n → ℝ) ∈ K <;> simp [h1, h2]
    rw [e]
    exact PMeas.ite (hc _ _ _ hl hr hm)
      (PMeas.ite (hmid hK) (ih _ _ _ hmid hr hmid) (ih _ _ _ hl hmid hmid)) (PMeas.ok hm)

theorem binarySearch_pmeas (hm : 0 < m) (A : Matrix (Fin m) (Fin n) ℝ) (b : Fin m → ℝ) (R ERR : ℝ) (fuel : ℕ)
    {dir x : X → Fin n → ℝ} (hd : Measurable dir) (hx : Measurable x) :
    PMeas fun p => HitRun.binarySearch R ERR fuel A b (dir p) (x p) := by
  classical
  have hK := measurableSet_poly A b
  have hI := inPolytope_mem hm A b
  unfold HitRun.binarySearch
  refine PMeas.bind (expand_pmeas hK hI hd hx fuel _ ?_) ?_
  · exact measurable_pi_lambda _ fun i =>
      ((measurable_pi_apply i).comp hx).add (((measurable_pi_apply i).comp hd).const_mul _)
  · have h1 : Measurable fun q : X × (Fin n → ℝ) => x q.1 := hx.comp measurable_fst
    refine PMeas.bind (bisect_pmeas hK hI ERR fuel _ _ _ h1 measurable_snd ?_) ?_
    · exact measurable_pi_lambda _ fun i =>
        (((measurable_pi_apply i).comp h1).add ((measurable_pi_apply i).comp measurable_snd)).div_const _
    · exact PMeas.ok (measurable_distance measurable_snd (h1.comp measurable_fst))

/-- One iteration of Hit-and-Run, as a function of the position, the normal draws, the uniform draw and the next generator. -/
noncomputable def hitRunDraw {G : Type} (R ERR : ℝ) (fuel : ℕ) (A : Matrix (Fin m) (Fin n) ℝ) (b : Fin m → ℝ)
    (x v : Fin n → ℝ) (val : ℝ) (g : G) : Out ((Fin n → ℝ) × G) :=
  (HitRun.binarySearch R ERR fuel A b (fun i => v i / norm2 v) x).bind fun p =>
  (HitRun.binarySearch R ERR fuel A b (fun i => v i / norm2 v * (-1)) x).bind fun q =>
  .ok (fun i => (val * (p - q * (-1)) + q * (-1)) * (v i / norm2 v) + x i, g)

theorem hitRun_step_draw (R ERR : ℝ) (fuel : ℕ) (r : Rng ℝ) (A : Matrix (Fin m) (Fin n) ℝ) (b : Fin m → ℝ)
    (x : Fin n → ℝ) (g : r.G) :
    HitRun.step R ERR fuel r A b (x, g) = hitRunDraw R ERR fuel A b x (r.gaussian n g).1
      (r.uniform (r.gaussian n g).2).1 (r.uniform (r.gaussian n g).2).2 := by
  unfold HitRun.step hitRunDraw
  simp [Rng.gaussianNorm]

theorem hitRunDraw_pmeas {G : Type} [MeasurableSpace G] (hm : 0 < m) (A : Matrix (Fin m) (Fin n) ℝ) (b : Fin m → ℝ)
    (R ERR : ℝ) (fuel : ℕ) {x v : X → Fin n → ℝ} {val : X → ℝ} {g : X → G} (hx : Measurable x) (hv : Measurable v)
    (hval : Measurable val) (hg : Measurable g) :
    PMeas fun p => hitRunDraw R ERR fuel A b (x p) (v p) (val p) (g p) := by
  unfold hitRunDraw
  have hu : Measurable fun p => (fun i => v p i / norm2 (v p) : Fin n → ℝ) :=
    measurable_pi_lambda _ fun i => ((measurable_pi_apply i).comp hv).div (measurable_norm2.comp hv)
  have hu' : Measurable fun p => (fun i => v p i / norm2 (v p) * (-1) : Fin n → ℝ) :=
    measurable_pi_lambda _ fun i => ((measurable_pi_apply i).comp hu).mul_const _
  refine PMeas.bind (binarySearch_pmeas hm A b R ERR fuel hu hx) ?_
  refine PMeas.bind (f := fun q : X × ℝ => HitRun.binarySearch R ERR fuel A b (fun i => v q.1 i / norm2 (v q.1) * (-1)) (x q.1))
    (binarySearch_pmeas hm A b R ERR fuel (hu'.comp measurable_fst) (hx.comp measurable_fst)) ?_
  refine PMeas.ok (Measurable.prodMk (measurable_pi_lambda _ fun i => ?_) (hg.comp (measurable_fst.comp measurable_fst)))
  have hq : Measurable fun p : (X × ℝ) × ℝ => p.2 := measurable_snd
  have hp : Measurable fun p : (X × ℝ) × ℝ => p.1.2 := measurable_snd.comp measurable_fst
  have hX : Measurable fun p : (X × ℝ) × ℝ => p.1.1 := measurable_fst.comp measurable_fst
  exact ((((hval.comp hX).mul (hp.sub (hq.mul_const _))).add (hq.mul_const _)).mul
    ((measurable_pi_apply i).comp (hu.comp hX))).add ((measurable_pi_apply i).comp (hx.comp hX))

theorem iter_pmeas {σ : Type} [MeasurableSpace σ] {step : σ → Out σ} (hs : PMeas step) (t : ℕ) : PMeas (iter step t) := by
  induction t with
  | zero => exact PMeas.ok measurable_id
  | succ t ih => exact PMeas.bind ih (hs.comp measurable_snd)

theorem iter_front {σ : Type} (step : σ → Out σ) (t : ℕ) (s : σ) : iter step (t + 1) s = (step s).bind (iter step t) := by
  induction t with
  | zero => simp [iter]
  | succ t ih =>
    rw [iter, ih, Out.bind_assoc]
    rfl

end PW
