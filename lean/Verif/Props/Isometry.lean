import Verif.Lemmas.Isometry
import Verif.Props.SameLaw

/-!
# C109: BallWalk and HitAndRun do not depend on the choice of orthonormal coordinates

If an isometry takes one polytope to another, it takes the law of the samples of one to the law of the samples of the other, however the two polytopes are
described.
-/

namespace PW
open Matrix MeasureTheory Set
variable {m m' n : ℕ} (e : Env ℝ) [MeasurableSpace e.r.G] (μ : Measure e.r.G) (hs : IdealSource e.r μ)
  (e' : Env ℝ) [MeasurableSpace e'.r.G] (μ' : Measure e'.r.G) (hs' : IdealSource e'.r μ')
  (Q : Matrix (Fin n) (Fin n) ℝ) (hQ : Q * Qᵀ = 1) (v : Fin n → ℝ)
  (A : Matrix (Fin m) (Fin n) ℝ) (b : Fin m → ℝ) (A' : Matrix (Fin m') (Fin n) ℝ) (b' : Fin m' → ℝ) (hset : ∀ y, Q *ᵥ y + v ∈ Poly A' b' ↔ y ∈ Poly A b)
include hs hs' hQ hset

/-- **C109** (`BallWalk`), from any starting point. -/
theorem C109_ball (R : ℝ) (hm : 0 < m) (hm' : 0 < m') (x : Fin n → ℝ) (k : Int) :
    SameLaw (.ball R) e μ A b x k (.ball R) e' μ' A' b' (Q *ᵥ x + v) k fun y => Q *ᵥ y + v := by
  have := hs.prob
  have := hs'.prob
  exact sameLaw_of (φ := fun y => Q *ᵥ y + v) (measurable_ballNext R e.r μ hs A b) (ball_drives R e.r μ hs A b) (measurable_ballNext R e'.r μ' hs' A' b')
    (ball_drives R e'.r μ' hs' A' b') (fun x => meas_at (measurable_ballMove (measurableSet_poly A' b') _) x) ((measurable_mulVec Q).add_const v)
    (⟨measurable_mulVec Q, stdNormal_rot hQ⟩ : MeasurePreserving (fun w => Q *ᵥ w) (stdNormal n) (stdNormal n))
    (fun x w => ballMove_iso hQ hset _ x w) (by intro h; cases h) (by intro h; cases h)
    (fun niter burnin thin seed => ae_of_all _ (ball_follows R e A b hm x niter k burnin thin seed))
    (fun niter burnin thin seed => ae_of_all _ (ball_follows R e' A' b' hm' (Q *ᵥ x + v) niter k burnin thin seed))

omit hs hs' hQ hset in
theorem iso_sameLaw (hs : IdealSource e.r μ) (hs' : IdealSource e'.r μ') {next next' : (Fin n → ℝ) → (Fin n → ℝ) → ℝ → Fin n → ℝ}
    (hnx : Measurable fun p : (Fin n → ℝ) × (Fin n → ℝ) × ℝ => next p.1 p.2.1 p.2.2)
    (hnx' : Measurable fun p : (Fin n → ℝ) × (Fin n → ℝ) × ℝ => next' p.1 p.2.1 p.2.2) {φ : (Fin n → ℝ) → Fin n → ℝ} (hφ : Measurable φ)
    {ρ : (Fin n → ℝ) → Fin n → ℝ} (hρ : MeasurePreserving ρ (stdNormal n) (stdNormal n)) (h : ∀ x w val, next' (φ x) (ρ w) val = φ (next x w val))
    {R ERR : ℝ} {A : Matrix (Fin m) (Fin n) ℝ} {b : Fin m → ℝ} {A' : Matrix (Fin m') (Fin n) ℝ} {b' : Fin m' → ℝ} {x : Fin n → ℝ} {k : Int}
    (hf : ∀ niter burnin thin seed : Int, ∀ᵐ g ∂μ, Follows (.hitRun R ERR) e (callArgs A b x niter k burnin thin seed) ⟨rfl, rfl⟩ (idealPos e.r next x) g)
    (hf' : ∀ niter burnin thin seed : Int, ∀ᵐ g ∂μ',
      Follows (.hitRun R ERR) e' (callArgs A' b' (φ x) niter k burnin thin seed) ⟨rfl, rfl⟩ (idealPos e'.r next' (φ x)) g) :
    SameLaw (.hitRun R ERR) e μ A b x k (.hitRun R ERR) e' μ' A' b' (φ x) k φ := by
  have := hs.prob
  have := hs'.prob
  exact sameLaw_of (f := fun x g => idealStep e.r next (x, g)) (f' := fun x g => idealStep e'.r next' (x, g)) (measurable_idealStep hs hnx)
    (ideal_drives hs hnx) (measurable_idealStep hs' hnx') (ideal_drives hs' hnx')
    (fun x => hnx'.comp measurable_prodMk_left) hφ (hρ.prod (MeasurePreserving.id unitLaw)) (fun x w => h x w.1 w.2)
    (by intro h; cases h) (by intro h; cases h) hf hf'

omit hs hs' in
theorem iso_bounded (hb : ∃ M, ∀ y ∈ Poly A b, ∀ i, |y i| ≤ M) : ∃ M, ∀ y ∈ Poly A' b', ∀ i, |y i| ≤ M := by
  obtain ⟨M, hM⟩ := hb
  refine ⟨∑ i, ∑ j, |Q i j| * M + ∑ i, |v i|, fun y hy i => ?_⟩
  have e1 : Q *ᵥ (Qᵀ *ᵥ (y - v)) + v = y := by rw [mulVec_mulVec, hQ, one_mulVec, sub_add_cancel]
  have h1 : Qᵀ *ᵥ (y - v) ∈ Poly A b := (hset _).1 (by rw [e1]; exact hy)
  have h2 := hM _ h1
  rw [← e1]
  have hM0 : 0 ≤ M := (abs_nonneg _).trans (h2 i)
  have h3 : |(Q *ᵥ (Qᵀ *ᵥ (y - v))) i| ≤ ∑ j, |Q i j| * M := by
    have h0 : |∑ j, Q i j * (Qᵀ *ᵥ (y - v)) j| ≤ ∑ j, |Q i j * (Qᵀ *ᵥ (y - v)) j| := Finset.abs_sum_le_sum_abs _ _
    refine h0.trans (Finset.sum_le_sum fun j _ => ?_)
    rw [abs_mul]
    exact mul_le_mul_of_nonneg_left (h2 j) (abs_nonneg _)
  have h4 : ∑ j, |Q i j| * M ≤ ∑ i, ∑ j, |Q i j| * M :=
    Finset.single_le_sum (f := fun i => ∑ j, |Q i j| * M) (fun i _ => Finset.sum_nonneg fun j _ => mul_nonneg (abs_nonneg _) hM0) (Finset.mem_univ i)
  have h5 : |v i| ≤ ∑ i, |v i| := Finset.single_le_sum (f := fun i => |v i|) (fun i _ => abs_nonneg _) (Finset.mem_univ i)
  exact (abs_add_le _ _).trans (add_le_add (h3.trans h4) h5)

/-- **C109** (`HitAndRun`), from an interior point of a bounded polytope. -/
theorem C109_hitrun (R ERR : ℝ) (hR : R ≠ 0) (hE : 0 < ERR) (hn : 2 ≤ n) (hb : ∃ M, ∀ y ∈ Poly A b, ∀ i, |y i| ≤ M)
    (x : Fin n → ℝ) (hx : x ∈ Interior A b) (hx' : Q *ᵥ x + v ∈ Interior A' b') (k : Int) :
    SameLaw (.hitRun R ERR) e μ A b x k (.hitRun R ERR) e' μ' A' b' (Q *ᵥ x + v) k fun y => Q *ᵥ y + v := by
  have := hs.prob
  have := hs'.prob
  have hb' := iso_bounded Q hQ v A b A' b' hset hb
  have hm : 0 < m := pos_rows_of_bounded (by omega) hb
  have hm' : 0 < m' := pos_rows_of_bounded (by omega) hb'
  have hin : ∀ y, inPolytope (Q *ᵥ y + v) A' b' = inPolytope y A b := fun y => by
    rw [inPolytope_real _ _ _ hm, inPolytope_real _ _ _ hm']
    congr 1
    rw [decide_eq_decide]
    exact hset y
  exact iso_sameLaw e μ e' μ' hs hs' (measurable_hitRunNext hm R ERR A b) (measurable_hitRunNext hm' R ERR A' b') 
    ((measurable_mulVec Q).add_const v) (⟨measurable_mulVec Q, stdNormal_rot hQ⟩ : MeasurePreserving (fun w => Q *ᵥ w) (stdNormal n) (stdNormal n))
    (fun y w val => hitRunNext_iso hQ hin R ERR y w val)
    (fun niter burnin thin seed => (hitRun_follows R ERR hR hE e μ hs A b x niter k burnin thin seed hn hx hb).mono fun g h => h.1)
    (fun niter burnin thin seed => (hitRun_follows R ERR hR hE e' μ' hs' A' b' _ niter k burnin thin seed hn hx' hb').mono fun g h => h.1)

end PW
