import Verif.Lemmas.Stream
import Verif.Lemmas.Real
import Verif.Lemmas.Api

/-!
# C37: the ball walk leaves the uniform distribution invariant
-/

namespace PW
open MeasureTheory Set
open scoped ENNReal

variable {m n : ℕ}

theorem measurableSet_poly (A : Matrix (Fin m) (Fin n) ℝ) (b : Fin m → ℝ) : MeasurableSet (Poly A b) := by
  have : Poly A b = ⋂ i, {x | A.mulVec x i ≤ b i} := by ext; simp [Poly]
  rw [this]
  refine MeasurableSet.iInter fun i => measurableSet_le ?_ measurable_const
  exact (measurable_pi_apply i).comp
    (Continuous.measurable (Continuous.matrix_mulVec continuous_const continuous_id))

instance (A : Matrix (Fin m) (Fin n) ℝ) (b : Fin m → ℝ) : SFinite (uniformOn A b) := by
  unfold uniformOn; infer_instance

/-- The rows of the recording loop, through `map`. -/
theorem rows_map_iff {α β : Type} {S : Set (Fin n → ℝ)} {j : ℕ} (x : Out (List (Fin n → ℝ) × α))
    (f : List (Fin n → ℝ) × α → β) (h : β → List (Fin n → ℝ)) (hf : ∀ q, h (f q) = q.1) :
    (∃ rows, (x.map f).map h = .ok rows ∧ ∃ hj : j < rows.length, rows[j] ∈ S) ↔
      ∃ rows s, x = .ok (rows, s) ∧ ∃ hj : j < rows.length, rows[j] ∈ S := by
  cases x with
  | ok p =>
    obtain ⟨rows, s⟩ := p
    constructor
    · rintro ⟨rows', hr, hh⟩
      simp only [Out.map_ok, Out.ok.injEq, hf] at hr
      subst hr
      exact ⟨_, s, rfl, hh⟩
    · rintro ⟨rows', s', hr, hh⟩
      simp only [Out.ok.injEq, Prod.mk.injEq] at hr
      obtain ⟨rfl, rfl⟩ := hr
      exact ⟨rows, by simp [hf], hh⟩
  | throws e => simp
  | ub e => simp
  | timeout => simp

theorem out_map_id {α : Type} (x : Out α) : x.map id = x := by cases x <;> rfl

theorem withGen_init (e : Env ℝ) (g : e.r.G) (seed : Int) :
    (e.withGen g).r.initRng seed (e.withGen g).rd = g := by
  unfold Rng.initRng; split <;> rfl

theorem withGen_normalState (e : Env ℝ) (g g' : e.r.G) (i : ℕ) :
    (e.withGen g).r.normalState g' i = e.r.normalState g' i := by
  induction i with
  | zero => rfl
  | succ i ih =>
    have e1 : (e.withGen g).r.normalState g' (i + 1) =
      (e.r.normal ((e.withGen g).r.normalState g' i).1 ((e.withGen g).r.normalState g' i).2).2 := rfl
    rw [e1, ih]
    rfl

theorem withGen_gaussian (e : Env ℝ) (g g' : e.r.G) (d : ℕ) :
    (e.withGen g).r.gaussian d g' = e.r.gaussian d g' := by
  have e1 : (e.withGen g).r.gaussian d g' =
      ((fun i => (e.r.normal ((e.withGen g).r.normalState g' i).1 ((e.withGen g).r.normalState g' i).2).1 :
        Fin d → ℝ), ((e.withGen g).r.normalState g' d).2) := rfl
  rw [e1]
  simp only [withGen_normalState]
  rfl

theorem withGen_ballStep (R : ℝ) (e : Env ℝ) (g : e.r.G) (A : Matrix (Fin m) (Fin n) ℝ) (b : Fin m → ℝ) :
    BallWalk.step R (e.withGen g).r A b = BallWalk.step R e.r A b := by
  funext s
  let body : (Fin n → ℝ) × e.r.G → Out ((Fin n → ℝ) × e.r.G) := fun d =>
    let newX : Fin n → ℝ := fun i =>
      d.1 i / norm2 d.1 * R / Scalar.sqrt (Scalar.ofInt n : ℝ) + s.1 i
    (inPolytope newX A b).bind fun c => if c then .ok (newX, d.2) else .ok (s.1, d.2)
  exact congrArg body (withGen_gaussian e g s.2 n)

/-- The displacement of the ball walk. -/
noncomputable def ballShift (R : ℝ) (v : Fin n → ℝ) : Fin n → ℝ :=
  fun i => v i / norm2 v * R / Real.sqrt n

theorem measurable_norm2 : Measurable fun v : Fin n → ℝ => norm2 v := by
  have : (fun v : Fin n → ℝ => norm2 v) = fun v => Real.sqrt (∑ i, v i * v i) := by
    funext v; exact norm2_real v
  rw [this]
  refine Real.continuous_sqrt.measurable.comp (Finset.measurable_sum _ fun i _ => ?_)
  exact (measurable_pi_apply i).mul (measurable_pi_apply i)

theorem measurable_ballShift (R : ℝ) : Measurable (ballShift (n := n) R) :=
  measurable_pi_lambda _ fun i =>
    (((measurable_pi_apply i).div measurable_norm2).mul_const _).div_const _

theorem ballShift_neg (R : ℝ) (v : Fin n → ℝ) : ballShift R (-v) = -ballShift R v := by
  funext i
  have : norm2 (-v) = norm2 v := by
    rw [norm2_real, norm2_real]; congr 1; refine Finset.sum_congr rfl fun i _ => ?_
    simp
  unfold ballShift
  rw [this]
  simp only [Pi.neg_apply]
  ring

theorem symm_map {d d' : ℕ} {ν : Measure (Fin d → ℝ)} (h : SymmetricLaw ν) (c : (Fin d → ℝ) → Fin d' → ℝ)
    (hc : Measurable c) (hn : ∀ v, c (-v) = -c v) : (ν.map c).map (fun v => -v) = ν.map c := by
  rw [Measure.map_map measurable_neg hc]
  conv_rhs => rw [← h, Measure.map_map hc measurable_neg]
  congr 1
  funext v
  exact (hn v).symm

theorem ball_step_eq (R : ℝ) (r : Rng ℝ) (A : Matrix (Fin m) (Fin n) ℝ) (b : Fin m → ℝ) (hm : 0 < m)
    (x : Fin n → ℝ) (g : r.G) [DecidablePred (· ∈ Poly A b)] :
    BallWalk.step R r A b (x, g) =
      .ok (if x + ballShift R (r.gaussian n g).1 ∈ Poly A b then x + ballShift R (r.gaussian n g).1 else x,
        (r.gaussian n g).2) := by
  have e : (fun i => (r.gaussianNorm n g).1 i * R / Scalar.sqrt (Scalar.ofInt n : ℝ) + x i) =
      x + ballShift R (r.gaussian n g).1 := by
    funext i
    rw [Pi.add_apply, add_comm]
    simp [ballShift, Rng.gaussianNorm]
  unfold BallWalk.step
  simp only [e]
  rw [inPolytope_real _ _ _ hm, Out.ok_bind]
  have hiff : (∀ i, A.mulVec (x + ballShift R (r.gaussian n g).1) i ≤ b i) ↔
      x + ballShift R (r.gaussian n g).1 ∈ Poly A b := Iff.rfl
  by_cases h : x + ballShift R (r.gaussian n g).1 ∈ Poly A b
  · rw [if_pos h, if_pos (decide_eq_true (hiff.2 h))]; rfl
  · rw [if_neg h, if_neg (by simpa using fun h' => h (hiff.1 h'))]; rfl

open Classical in
theorem ball_stepLaw (R : ℝ) (r : Rng ℝ) [MeasurableSpace r.G] (μ : Measure r.G)
    (N : (d : ℕ) → Measure (Fin d → ℝ)) (hs : Source r μ N) (A : Matrix (Fin m) (Fin n) ℝ)
    (b : Fin m → ℝ) (hm : 0 < m) (hN : SymmetricLaw (N n)) :
    StepLaw (uniformOn A b) μ (N n) Prod.mk (BallWalk.step R r A b)
      (fun x g => (if x + ballShift R (r.gaussian n g).1 ∈ Poly A b then x + ballShift R (r.gaussian n g).1
        else x, (r.gaussian n g).2))
      (fun x v => if x + ballShift R v ∈ Poly A b then x + ballShift R v else x) := by
  have hK := measurableSet_poly A b
  have hprob := hs.probN n
  have hmu := hs.prob
  have mT : Measurable fun p : (Fin n → ℝ) × (Fin n → ℝ) =>
      if p.1 + ballShift R p.2 ∈ Poly A b then p.1 + ballShift R p.2 else p.1 := by
    have h1 : Measurable fun p : (Fin n → ℝ) × (Fin n → ℝ) => p.1 + ballShift R p.2 :=
      measurable_fst.add ((measurable_ballShift R).comp measurable_snd)
    exact Measurable.ite (h1 hK) h1 measurable_fst
  have mg := (hs.gaussian n).measurable
  refine ⟨⟨?_, mT, Filter.Eventually.of_forall fun p => ball_step_eq R r A b hm p.1 p.2, ?_⟩, ?_⟩
  · refine Measurable.prodMk ?_ (mg.snd.comp measurable_snd)
    have : Measurable fun p : (Fin n → ℝ) × r.G => (p.1, (r.gaussian n p.2).1) :=
      measurable_fst.prodMk (mg.fst.comp measurable_snd)
    exact mT.comp this
  · intro F hF x
    have hm2 : Measurable fun q : (Fin n → ℝ) × r.G =>
        F (if x + ballShift R q.1 ∈ Poly A b then x + ballShift R q.1 else x, q.2) := by
      have h1 : Measurable fun q : (Fin n → ℝ) × r.G => (x, q.1) := measurable_const.prodMk measurable_fst
      exact hF.comp ((mT.comp h1).prodMk measurable_snd)
    rw [← lintegral_prod _ hm2.aemeasurable, ← (hs.gaussian n).lintegral_comp hm2]
  · intro F hF
    have := translate_balance hK (ballShift R) (measurable_ballShift R)
      (symm_map hN _ (measurable_ballShift R) (ballShift_neg R)) F hF
    exact this

/-- C37: one iteration of the ball walk satisfies detailed balance with respect to the uniform distribution
on the polytope, for every law of the direction that is symmetric under negation. -/
theorem C37_reversible (R : ℝ) (r : Rng ℝ) [MeasurableSpace r.G] (μ : Measure r.G)
    (N : (d : ℕ) → Measure (Fin d → ℝ)) (hs : Source r μ N) (A : Matrix (Fin m) (Fin n) ℝ)
    (b : Fin m → ℝ) (hm : 0 < m) (hN : SymmetricLaw (N n)) :
    Reversible (uniformOn A b) μ Prod.mk Prod.fst (BallWalk.step R r A b) := by
  have := hs.prob
  exact (ball_stepLaw R r μ N hs A b hm hN).reversible fun _ _ => rfl

/-- C37: a uniform starting point stays uniform, after any number of iterations. -/
theorem C37_stationary (R : ℝ) (r : Rng ℝ) [MeasurableSpace r.G] (μ : Measure r.G)
    (N : (d : ℕ) → Measure (Fin d → ℝ)) (hs : Source r μ N) (A : Matrix (Fin m) (Fin n) ℝ)
    (b : Fin m → ℝ) (hm : 0 < m) (hN : SymmetricLaw (N n)) :
    Stationary (uniformOn A b) μ Prod.mk Prod.fst (BallWalk.step R r A b) := by
  have := hs.prob
  have := hs.probN n
  exact (ball_stepLaw R r μ N hs A b hm hN).stationary fun _ _ => rfl

/-- C37, for the returned samples: started from a uniform point, `BallWalk::generateCompleteWalk` returns
rows each of which is uniformly distributed on the polytope. -/
theorem C37_samples (R : ℝ) (e : Env ℝ) [MeasurableSpace e.r.G] (μ : Measure e.r.G)
    (N : (d : ℕ) → Measure (Fin d → ℝ)) (hs : Source e.r μ N) (a : Args ℝ) (hb : a.A.r = a.b.n)
    (hm : 0 < a.A.r) (hg : GoodInts a.niter a.burnin a.thin) (hN : SymmetricLaw (N a.A.c)) :
    SamplesHaveLaw (.ball R) e μ a (uniformOn a.A.val (a.b.at hb.symm)) := by
  intro j hj T hT
  have := hs.prob
  have := hs.probN a.A.c
  rw [← (ball_stepLaw R e.r μ N hs a.A.val (a.b.at hb.symm) hm hN).rows (pos := Prod.fst) (fun _ _ => rfl)
    a.niter a.burnin a.thin hg j hj T hT]
  congr 1
  ext p
  simp only [mem_ofPred_eq]
  have key : (Walk.ball R).run (e.withGen p.2) (a.from p.1) =
      ((runLoop (BallWalk.step R e.r a.A.val (a.b.at hb.symm)) Prod.fst a.niter a.burnin a.thin
        (p.1, p.2)).map Prod.fst).map id := by
    show BallWalk.generateCompleteWalk R (e.withGen p.2).r a.niter ⟨a.A.c, p.1⟩ a.A a.b a.burnin a.thin
      a.seed (e.withGen p.2).rd = _
    unfold BallWalk.generateCompleteWalk checkDims
    rw [dif_pos (show (⟨a.A.c, p.1⟩ : DVec ℝ).n = a.A.c ∧ a.A.r = a.b.n from ⟨rfl, hb⟩), withGen_init]
    rw [out_map_id]
    exact congrArg (fun st => (runLoop st Prod.fst a.niter a.burnin a.thin (p.1, p.2)).map Prod.fst)
      (withGen_ballStep R e p.2 a.A.val (a.b.at hb.symm))
  rw [key]
  exact rows_map_iff _ _ _ fun _ => rfl

theorem stdNormal_symmetric (d : ℕ) : SymmetricLaw (stdNormal d) := by
  have h := stdNormal_map_congr (-1 : Matrix (Fin d) (Fin d) ℝ) 1
    (by rw [Matrix.transpose_neg, Matrix.transpose_one, neg_mul_neg])
  unfold SymmetricLaw
  have e1 : (fun v : Fin d → ℝ => -v) = fun v => (-1 : Matrix (Fin d) (Fin d) ℝ).mulVec v := by
    funext v; simp [Matrix.neg_mulVec]
  have e2 : (fun v : Fin d → ℝ => (1 : Matrix (Fin d) (Fin d) ℝ).mulVec v) = id := by
    funext v; simp
  rw [e1, h, e2, Measure.map_id]

/-- The hypotheses are met by ideal normal draws, on any polytope; here the square `[-1, 1]²` … -/
example (R : ℝ) : Reversible (uniformOn (Matrix.of ![![1, 0], ![-1, 0], ![0, 1], ![0, -1]]) fun _ => 1) streamLaw
    Prod.mk Prod.fst (BallWalk.step R streamRng
      (Matrix.of ![![(1 : ℝ), 0], ![-1, 0], ![0, 1], ![0, -1]]) fun _ => 1) :=
  C37_reversible R streamRng streamLaw stdNormal streamRng_ideal _ _ (by norm_num) (stdNormal_symmetric 2)

end PW
