import Verif.Lemmas.BallMix
import Verif.Props.DenseBarrierConverges

/-!
# C75: the dense ball walk converges to the uniform distribution when the polytope contains a ball larger than its step; it is stuck,
or confined to a lattice, otherwise
-/

namespace PW
open Matrix MeasureTheory Set
open scoped ENNReal
variable {m n : ℕ}

theorem ballShift_eq (R : ℝ) (v : Fin n → ℝ) : ballShift R v = (R / Real.sqrt n) • hat v := by
  funext i
  unfold ballShift hat
  rw [norm2_eq_len, Pi.smul_apply, Pi.smul_apply, smul_eq_mul, smul_eq_mul]
  ring

theorem poly_convex (A : Matrix (Fin m) (Fin n) ℝ) (b : Fin m → ℝ) : Convex ℝ (Poly A b) := by
  intro x hx y hy s t hs ht hst i
  rw [Matrix.mulVec_add, Matrix.mulVec_smul, Matrix.mulVec_smul]
  show s * (A *ᵥ x) i + t * (A *ᵥ y) i ≤ b i
  calc _ ≤ s * b i + t * b i := add_le_add (mul_le_mul_of_nonneg_left (hx i) hs) (mul_le_mul_of_nonneg_left (hy i) ht)
    _ = b i := by rw [← add_mul, hst, one_mul]

theorem len_le_iff (v : Fin n → ℝ) {r : ℝ} (hr : 0 ≤ r) : len v ≤ r ↔ ∑ i, v i ^ 2 ≤ r ^ 2 := by
  have : ∑ i, v i ^ 2 = len v ^ 2 := by rw [len_sq]; exact Finset.sum_congr rfl fun i _ => sq (v i)
  rw [this]
  exact (sq_le_sq₀ (len_nonneg v) hr).symm

/-- A point and the generator after one iteration. -/
noncomputable def ballNext (R : ℝ) (r : Rng ℝ) (A : Matrix (Fin m) (Fin n) ℝ) (b : Fin m → ℝ) (x : Fin n → ℝ) (g : r.G) : (Fin n → ℝ) × r.G :=
  (ballMove (Poly A b) (R / Real.sqrt n) x (r.gaussian n g).1, (r.gaussian n g).2)

theorem ball_step_next (R : ℝ) (r : Rng ℝ) (A : Matrix (Fin m) (Fin n) ℝ) (b : Fin m → ℝ) (hm : 0 < m) (p : (Fin n → ℝ) × r.G) :
    BallWalk.step R r A b p = .ok (ballNext R r A b p.1 p.2) := by
  classical
  obtain ⟨x, g⟩ := p
  rw [ball_step_eq R r A b hm x g]
  unfold ballNext ballMove
  rw [ballShift_eq]

theorem iter_ok {σ : Type} {step : σ → Out σ} {f : σ → σ} (h : ∀ s, step s = .ok (f s)) (t : ℕ) (s : σ) : iter step t s = .ok (f^[t] s) := by
  induction t generalizing s with
  | zero => rfl
  | succ t ih =>
    rw [iter_succ', h, Out.ok_bind, ih, Function.iterate_succ_apply]

/-- The call follows the chain, for every generator state. -/
theorem ball_follows (R : ℝ) (e : Env ℝ) (A : Matrix (Fin m) (Fin n) ℝ) (b : Fin m → ℝ) (hm : 0 < m) (x : Fin n → ℝ)
    (niter k burnin thin seed : Int) (g : e.r.G) :
    Follows (.ball R) e (callArgs A b x niter k burnin thin seed) ⟨rfl, rfl⟩ (posAt (ballNext R e.r A b) x) g := by
  intro t
  refine ⟨0, fun f _ => ⟨(fun p : (Fin n → ℝ) × e.r.G => ballNext R e.r A b p.1 p.2)^[t] (x, g), ?_, rfl⟩⟩
  have h1 : (Walk.ball R).chain ((e.withGen g).withFuel f) (callArgs A b x niter k burnin thin seed) ⟨rfl, rfl⟩ t =
      iter (BallWalk.step R (e.withGen g).r A b) t (x, (e.withGen g).r.initRng seed (e.withGen g).rd) := rfl
  rw [h1, withGen_init]
  exact (congrArg (fun s => iter s t (x, g)) (withGen_ballStep R e g A b)).trans (iter_ok (fun p => ball_step_next R e.r A b hm p) t (x, g))

theorem measurable_ballNext (R : ℝ) (r : Rng ℝ) [MeasurableSpace r.G] (μ : Measure r.G) (hs : IdealSource r μ) (A : Matrix (Fin m) (Fin n) ℝ)
    (b : Fin m → ℝ) : Measurable fun p : (Fin n → ℝ) × r.G => ballNext R r A b p.1 p.2 := by
  have mg := (hs.gaussian n).measurable
  exact ((measurable_ballMove (measurableSet_poly A b) _).comp (measurable_fst.prodMk (mg.fst.comp measurable_snd))).prodMk
    (mg.snd.comp measurable_snd)

theorem ball_drives (R : ℝ) (r : Rng ℝ) [MeasurableSpace r.G] (μ : Measure r.G) (hs : IdealSource r μ) (A : Matrix (Fin m) (Fin n) ℝ)
    (b : Fin m → ℝ) : Drives μ (stdNormal n) (ballNext R r A b) (ballMove (Poly A b) (R / Real.sqrt n)) := by
  intro F hF x
  have := hs.prob
  have := hs.probN n
  have hm2 : Measurable fun q : (Fin n → ℝ) × r.G => F (ballMove (Poly A b) (R / Real.sqrt n) x q.1, q.2) :=
    hF.comp (((meas_at (measurable_ballMove (measurableSet_poly A b) _) x).comp measurable_fst).prodMk measurable_snd)
  rw [← lintegral_prod _ hm2.aemeasurable, ← (hs.gaussian n).lintegral_comp hm2]
  rfl

theorem ball_balance (R : ℝ) (A : Matrix (Fin m) (Fin n) ℝ) (b : Fin m → ℝ) :
    Balance (uniformOn A b) (stdNormal n) (ballMove (Poly A b) (R / Real.sqrt n)) := by
  classical
  intro F hF
  have h := translate_balance (measurableSet_poly A b) (ballShift R) (measurable_ballShift R)
    (symm_map (stdNormal_symmetric n) _ (measurable_ballShift R) (ballShift_neg R)) F hF
  unfold uniformOn ballMove
  simp only [ballShift_eq] at h
  convert h

section
variable (hn : 2 ≤ n) {A : Matrix (Fin m) (Fin n) ℝ} {b : Fin m → ℝ} (hb : ∃ M, ∀ y ∈ Poly A b, ∀ i, |y i| ≤ M)
  {R : ℝ} (hR : R ≠ 0) {c : Fin n → ℝ} {ρ : ℝ} (hρ : |R| / Real.sqrt n < ρ) (hball : ∀ y, ∑ i, (y i - c i) ^ 2 ≤ ρ ^ 2 → y ∈ Poly A b)
include hn hb hR hρ hball

theorem ball_mixes : ∃ β n₀, Mixes (normed (uniformOn A b)) (stdNormal n) (ballMove (Poly A b) (R / Real.sqrt n)) (Poly A b) β n₀ := by
  have hn0 : (0 : ℝ) < Real.sqrt n := Real.sqrt_pos.2 (by exact_mod_cast (by omega : 0 < n))
  have hρ0 : 0 < ρ := lt_of_le_of_lt (by positivity) hρ
  have hball' : ∀ y, len (y - c) ≤ ρ → y ∈ Poly A b := fun y hy => hball y ((len_le_iff _ hρ0.le).1 hy)
  obtain ⟨M, hM⟩ := hb
  have hM0 : 0 ≤ M := by
    have h1 := hM c (hball' c (by rw [sub_self, len_zero]; exact hρ0.le)) ⟨0, by omega⟩
    exact (abs_nonneg _).trans h1
  have hD : ∀ y ∈ Poly A b, len (y - c) ≤ n * M + len c := fun y hy => by
    refine (len_sub_le y c).trans (add_le_add ?_ le_rfl)
    rw [← norm2_eq_len]
    exact norm2_le_of_abs hM0 (hM y hy)
  have habs : |R / Real.sqrt n| < ρ := by rwa [abs_div, abs_of_pos hn0]
  obtain ⟨n₀, hn₀, mm, h0, hK, hmin⟩ := ball_minor_measure hn (poly_convex A b) (div_ne_zero hR hn0.ne') habs hball' hD (measurableSet_poly A b)
  have hvt : uniformOn A b univ ≠ ⊤ := by
    unfold uniformOn
    rw [Measure.restrict_apply_univ]; exact (volume_poly_lt_top ⟨M, hM⟩).ne
  have hv0 : uniformOn A b univ ≠ 0 := by
    unfold uniformOn
    rw [Measure.restrict_apply_univ]
    have ho : IsOpen {y : Fin n → ℝ | len (y - c) < ρ} := by
      have hc : Continuous fun y : Fin n → ℝ => len (y - c) := by
        unfold len dotProduct
        fun_prop
      exact isOpen_lt hc continuous_const
    refine (lt_of_lt_of_le (ho.measure_pos volume ⟨c, ?_⟩) (measure_mono fun y (hy : len (y - c) < ρ) => hball' y hy.le)).ne'
    show len (c - c) < ρ
    rw [sub_self, len_zero]; exact hρ0
  have := normed_prob hv0 hvt
  obtain ⟨β, hβ⟩ := mixes_of_minor (P := normed (uniformOn A b)) (measurable_ballMove (measurableSet_poly A b) (R / Real.sqrt n)) (fun x hx v => ballMove_mem _ hx v)
    (normed_ae (ae_restrict_mem (measurableSet_poly A b))) (normed_balance (ball_balance R A b)) hn₀ h0 hK hmin
  exact ⟨β, n₀, hβ⟩

omit hR hρ hball in
theorem ball_rows_pos : 0 < m := by
  rcases Nat.eq_zero_or_pos m with rfl | h
  · exfalso
    obtain ⟨M, hM⟩ := hb
    have := hM (fun _ => M + 1) (fun i => i.elim0) ⟨0, by omega⟩
    have := (le_abs_self _).trans this
    linarith
  · exact h

/-- **C75**: if the polytope is bounded, of dimension at least two, and contains a Euclidean ball of radius greater than the step
`|R| / sqrt(n)`, then from every starting point in it the law of the position approaches the uniform distribution geometrically: the
probability that the position after `t` iterations (and any row recorded then) falls in any region `T` differs from the share of `T` by at most
`(1 - β) ^ (t / n₀)`, with `β` and `n₀` that depend only on the polytope and `R`. -/
theorem C75_rows : ∃ (β : ℝ) (n₀ : ℕ), 0 < β ∧ β ≤ 1 ∧ 0 < n₀ ∧ ∀ (e : Env ℝ) [MeasurableSpace e.r.G] (μ : Measure e.r.G),
    IdealSource e.r μ → ∀ x ∈ Poly A b, ∀ (k seed : Int) (t : ℕ),
      LawWithin (.ball R) e μ A b x k seed (uniformOn A b) t ((1 - β) ^ (t / n₀)) := by
  obtain ⟨β, n₀, h⟩ := ball_mixes hn hb hR hρ hball
  have hm := ball_rows_pos hn hb
  refine ⟨β, n₀, h.pos, h.le, h.len_pos, fun e _ μ hs x hx k seed t => ?_⟩
  have := hs.prob
  exact h.rows (measurable_ballNext R e.r μ hs A b) (ball_drives R e.r μ hs A b) hx (by intro h; cases h)
    (fun niter burnin thin => ae_of_all _ (ball_follows R e A b hm x niter k burnin thin seed)) (fun S => normed_share _ S) t

/-- **C75**, as a limit: after enough iterations the law is within `ε` of uniform, whatever the starting point. -/
theorem C75_limit (ε : ℝ) (hε : 0 < ε) : ∃ t₀ : ℕ, ∀ (e : Env ℝ) [MeasurableSpace e.r.G] (μ : Measure e.r.G),
    IdealSource e.r μ → ∀ x ∈ Poly A b, ∀ k seed : Int, ∀ t ≥ t₀, LawWithin (.ball R) e μ A b x k seed (uniformOn A b) t ε := by
  obtain ⟨β, n₀, h0, h1, hn₀, h⟩ := C75_rows hn hb hR hρ hball
  obtain ⟨t₀, ht₀⟩ := rate_small h0 h1 hn₀ 1 hε
  refine ⟨t₀, fun e _ μ hs x hx k seed t ht => (h e μ hs x hx k seed t).mono ?_⟩
  have := ht₀ _ ht
  rwa [mul_one] at this

/-- **C75**, averages: over enough positions (and over the rows of every call that returns so many) the mean of `φ` is within `ε` of its mean
over the polytope, with probability at least `1 - δ`. -/
theorem C75_average {x : Fin n → ℝ} (hx : x ∈ Poly A b) (φ : (Fin n → ℝ) → ℝ) (hφ : Measurable φ) (M : ℝ) (hM : 0 < M)
    (hφM : ∀ y ∈ Poly A b, |φ y| ≤ M) (ε δ : ℝ) (hε : 0 < ε) (hδ : 0 < δ) :
    ∃ L₀ : ℕ, ∀ (e : Env ℝ) [MeasurableSpace e.r.G] (μ : Measure e.r.G), IdealSource e.r μ → ∀ k seed : Int, ∀ L ≥ L₀,
      MeanWithin (.ball R) e μ A b x k seed φ (average (uniformOn A b) φ) L ε δ := by
  obtain ⟨β, n₀, h⟩ := ball_mixes hn hb hR hρ hball
  have hm := ball_rows_pos hn hb
  obtain ⟨L₀, hL₀⟩ := h.averages (m := m) hx hφ hM hφM hε hδ
  refine ⟨L₀, fun e _ μ hs k seed L hL => ?_⟩
  have := hs.prob
  rw [← normed_average]
  exact hL₀ (.ball R) e μ (ballNext R e.r A b) (measurable_ballNext R e.r μ hs A b) (ball_drives R e.r μ hs A b)
    (fun x hx g => ballMove_mem _ hx _) A b k seed (by intro h; cases h)
    (fun niter burnin thin => ae_of_all _ (ball_follows R e A b hm x niter k burnin thin seed)) L hL

end

/-! ## When it does not converge -/

/-- The chain of a call, in any environment. -/
theorem ball_chain (R : ℝ) (e : Env ℝ) (A : Matrix (Fin m) (Fin n) ℝ) (b : Fin m → ℝ) (hm : 0 < m) (x : Fin n → ℝ)
    (niter k burnin thin seed : Int) (t : ℕ) :
    (Walk.ball R).chain e (callArgs A b x niter k burnin thin seed) ⟨rfl, rfl⟩ t =
      .ok ((fun p : (Fin n → ℝ) × e.r.G => ballNext R e.r A b p.1 p.2)^[t] (x, e.r.initRng seed e.rd)) :=
  iter_ok (fun p => ball_step_next R e.r A b hm p) t _

/-- The call returns, and its rows stay in every set that the moves of the ball walk do not leave. -/
theorem ball_run_in (R : ℝ) (e : Env ℝ) (A : Matrix (Fin m) (Fin n) ℝ) (b : Fin m → ℝ) (hm : 0 < m) (x : Fin n → ℝ)
    (niter k burnin thin seed : Int) (hg : GoodInts niter burnin thin) (S : Set (Fin n → ℝ)) (hx : x ∈ S)
    (hS : ∀ y ∈ S, ∀ v, ballMove (Poly A b) (R / Real.sqrt n) y v ∈ S) :
    ∃ rows, (Walk.ball R).run e (callArgs A b x niter k burnin thin seed) = .ok rows ∧ (rows.length : Int) = (niter - burnin) / thin ∧
      ∀ y ∈ rows, y ∈ S := by
  have h1 := C01_recording_total (.ball R) e (callArgs A b x niter k burnin thin seed) hg ⟨rfl, rfl⟩ (by intro h; cases h)
  rw [ball_chain R e A b hm x] at h1
  cases hr : (Walk.ball R).run e (callArgs A b x niter k burnin thin seed) with
  | throws _ => rw [hr] at h1; cases h1
  | ub _ => rw [hr] at h1; cases h1
  | timeout => rw [hr] at h1; cases h1
  | ok rows =>
    refine ⟨rows, rfl, C01_shape _ _ _ hg rows hr, fun y hy => ?_⟩
    obtain ⟨hd, h3⟩ := C02_rows _ _ _ hg rows hr
    obtain ⟨j, hj, rfl⟩ := List.mem_iff_getElem.1 hy
    obtain ⟨s, hs, hp⟩ := h3 j hj
    have h4 := hs.symm.trans (ball_chain R e A b hm x niter k burnin thin seed _)
    replace h4 := Out.ok.inj h4
    rw [← hp]
    show s.1 ∈ S
    rw [h4]
    generalize (burnin + ((j : Int) + 1) * thin).toNat = t
    induction t with
    | zero => exact hx
    | succ t ih => rw [Function.iterate_succ_apply']; exact hS _ ih _

/-- **C75**, step too large: if every point of the polytope is closer to the starting point than the step `|R| / sqrt(n)`, the walk
never moves: every row is the starting point, whatever the generator. -/
theorem C75_stuck (R : ℝ) (e : Env ℝ) (A : Matrix (Fin m) (Fin n) ℝ) (b : Fin m → ℝ) (hm : 0 < m) (x : Fin n → ℝ)
    (hfar : ∀ y ∈ Poly A b, ∑ i, (y i - x i) ^ 2 < R ^ 2 / n) (niter k burnin thin seed : Int) (hg : GoodInts niter burnin thin) :
    ∃ rows, (Walk.ball R).run e (callArgs A b x niter k burnin thin seed) = .ok rows ∧ (rows.length : Int) = (niter - burnin) / thin ∧
      ∀ y ∈ rows, y = x := by
  refine ball_run_in R e A b hm x niter k burnin thin seed hg {x} rfl fun y hy v => ?_
  obtain rfl : y = x := hy
  show ballMove _ _ y v = y
  unfold ballMove
  by_cases hv : v = 0
  · have h0 : y + (R / Real.sqrt n) • hat v = y := by rw [hv]; simp [hat]
    rw [h0, ite_self]
  · rw [if_neg]
    intro h
    have h1 := hfar _ h
    have h2 : ∑ i, ((y + (R / Real.sqrt n) • hat v) i - y i) ^ 2 = R ^ 2 / n := by
      have h3 : ∑ i, ((y + (R / Real.sqrt n) • hat v) i - y i) ^ 2 = len ((R / Real.sqrt n) • hat v) ^ 2 := by
        rw [len_sq]
        refine Finset.sum_congr rfl fun i _ => ?_
        rw [Pi.add_apply, add_sub_cancel_left, sq]
      rw [h3, len_smul, len_hat hv, mul_one, sq_abs, div_pow, Real.sq_sqrt (Nat.cast_nonneg n)]
    rw [h2] at h1
    exact lt_irrefl _ h1

/-- **C75**, dimension one: every row differs from the starting point by an integer multiple of `R`, whatever the generator. -/
theorem C75_lattice (R : ℝ) (e : Env ℝ) (A : Matrix (Fin m) (Fin 1) ℝ) (b : Fin m → ℝ) (hm : 0 < m) (x : Fin 1 → ℝ)
    (niter k burnin thin seed : Int) (hg : GoodInts niter burnin thin) :
    ∃ rows, (Walk.ball R).run e (callArgs A b x niter k burnin thin seed) = .ok rows ∧ (rows.length : Int) = (niter - burnin) / thin ∧
      ∀ y ∈ rows, ∃ z : ℤ, y 0 = x 0 + z * R := by
  refine ball_run_in R e A b hm x niter k burnin thin seed hg {y | ∃ z : ℤ, y 0 = x 0 + z * R} ⟨0, by simp⟩ fun y hy v => ?_
  obtain ⟨z, hz⟩ := hy
  unfold ballMove
  split
  · by_cases hv : v = 0
    · exact ⟨z, by rw [hv]; simp [hat, hz]⟩
    · have h1 := len_hat hv
      have h2 : (hat v 0) ^ 2 = 1 := by
        have := len_sq (hat v)
        rw [h1] at this
        simpa [dotProduct, sq] using this.symm
      rcases (mul_self_eq_one_iff.1 (by rw [← sq]; exact h2) : hat v 0 = 1 ∨ hat v 0 = -1) with h | h
      · exact ⟨z + 1, by simp [h, hz]; ring⟩
      · exact ⟨z - 1, by simp [h, hz]; ring⟩
  · exact ⟨z, hz⟩

/-- **C75**, dimension one: the law of a row never gets any closer to the uniform distribution: there is a region of measure zero that
contains every row with probability one. -/
theorem C75_line_never (R : ℝ) (A : Matrix (Fin m) (Fin 1) ℝ) (b : Fin m → ℝ) (hm : 0 < m) (x : Fin 1 → ℝ) :
    ∃ T, MeasurableSet T ∧ ∀ (e : Env ℝ) [MeasurableSpace e.r.G] (μ : Measure e.r.G), IdealSource e.r μ →
      ∀ niter k burnin thin seed : Int, GoodInts niter burnin thin → ∀ j : ℕ, (j : Int) < (niter - burnin) / thin →
        |(rowProb (.ball R) e μ (callArgs A b x niter k burnin thin seed) j T).toReal - share (uniformOn A b) T| = 1 := by
  set T : Set (Fin 1 → ℝ) := ⋃ z : ℤ, {fun _ => x 0 + z * R} with hT
  have hc : T.Countable := countable_iUnion fun z => countable_singleton _
  refine ⟨T, hc.measurableSet, fun e _ μ hs niter k burnin thin seed hg j hj => ?_⟩
  have := hs.prob
  have h0 : share (uniformOn A b) T = 0 := by
    unfold share uniformOn
    have h2 : volume.restrict (Poly A b) T = 0 :=
      le_antisymm ((Measure.le_iff'.1 Measure.restrict_le_self T).trans (le_of_eq (hc.measure_zero volume))) bot_le
    rw [h2]
    simp
  have h1 : rowProb (.ball R) e μ (callArgs A b x niter k burnin thin seed) j T = 1 := by
    have : {g : e.r.G | ∃ (f0 : ℕ) (rows : List (Fin 1 → ℝ)),
        (∀ f ≥ f0, (Walk.ball R).run ((e.withGen g).withFuel f) (callArgs A b x niter k burnin thin seed) = .ok rows) ∧
          ∃ hj : j < rows.length, rows[j] ∈ T} = univ := by
      refine eq_univ_of_forall fun g => ?_
      obtain ⟨rows, hr, hl, hin⟩ := C75_lattice R (e.withGen g) A b hm x niter k burnin thin seed hg
      refine ⟨0, rows, fun f _ => hr, by omega, ?_⟩
      obtain ⟨z, hz⟩ := hin _ (List.getElem_mem (show j < rows.length by omega))
      refine mem_iUnion.2 ⟨z, ?_⟩
      rw [mem_singleton_iff]
      funext i
      rw [Subsingleton.elim i 0]; exact hz
    unfold rowProb
    exact (congrArg μ this).trans measure_univ
  rw [h0, h1]; simp

/-! ## The square -/

theorem box_ball (y : Fin 2 → ℝ) (hy : ∑ i, (y i - (0 : Fin 2 → ℝ) i) ^ 2 ≤ 1 ^ 2) : y ∈ Poly boxA (fun _ => 1) := by
  refine (squareArgs_mem y).2 fun i => ?_
  rw [Fin.sum_univ_two] at hy
  simp only [Pi.zero_apply, sub_zero, one_pow] at hy
  rw [abs_le]
  fin_cases i
  · show -1 ≤ y 0 ∧ y 0 ≤ 1
    constructor <;> nlinarith [sq_nonneg (y 1)]
  · show -1 ≤ y 1 ∧ y 1 ≤ 1
    constructor <;> nlinarith [sq_nonneg (y 0)]

theorem one_lt_sqrt_two : (1 : ℝ) < Real.sqrt ((2 : ℕ) : ℝ) := by
  rw [Real.lt_sqrt (by norm_num)]; norm_num

/-- On the square `[-1, 1]²`, with radius `1` (step `1 / √2`): the region `x₀ ≤ 1/2`, from a corner. -/
example (ε : ℝ) (hε : 0 < ε) :
    ∃ t₀ : ℕ, ∀ t ≥ t₀,
      |(pathProb (.ball 1) streamEnv streamLaw
        (callArgs boxA (fun _ => 1) (fun _ => 1) 100 0 0 1 7) ⟨rfl, rfl⟩ {p | p t (0 : Fin 2) ≤ 1 / 2}).toReal -
          share (uniformOn boxA (fun _ => 1)) {y | y (0 : Fin 2) ≤ 1 / 2}| ≤ ε := by
  have hstep : |(1 : ℝ)| / Real.sqrt ((2 : ℕ) : ℝ) < 1 := by
    rw [abs_one, div_lt_one (lt_trans one_pos one_lt_sqrt_two)]; exact one_lt_sqrt_two
  obtain ⟨t₀, h⟩ := C75_limit (le_refl 2) boxA_bdd one_ne_zero hstep box_ball ε hε
  exact ⟨t₀, fun t ht => (h streamEnv streamLaw streamRng_ideal _ ((squareArgs_mem _).2 fun i => by simp) 0 7 t ht 100 0 1 _
    (measurableSet_le (measurable_pi_apply (0 : Fin 2)) measurable_const)).1⟩

/-- On the square, from the centre, with radius `3` (step `3 / √2 > √2`): every row is the centre. -/
example (e : Env ℝ) (L : ℕ) (hL : L < 10 ^ 9) :
    ∃ rows, (Walk.ball 3).run e (callArgs boxA (fun _ => 1) (fun _ => 0) L 0 0 1 7) = .ok rows ∧ (rows.length : Int) = L ∧
      ∀ y ∈ rows, y = fun _ => 0 := by
  have h := C75_stuck 3 e boxA (fun _ => 1) (by norm_num) (fun _ => 0) (fun y hy => by
    have h0 := (squareArgs_mem y).1 hy
    have h1 := abs_le.1 (h0 0)
    have h2 := abs_le.1 (h0 1)
    rw [Fin.sum_univ_two]
    norm_num
    nlinarith) L 0 0 1 7 ⟨by norm_num, by norm_num, by omega, by simp only [intMax]; omega, by simp only [intMax]; norm_num⟩
  simpa using h

end PW
