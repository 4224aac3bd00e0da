import Verif.Props.Examples
import Verif.Props.Args
import Verif.Props.HitRunBias
import Verif.Props.ChordExact

/-!
# Concrete cases: runs and chords

The theorems about rows and chords (C02–C18, C67, C72) applied to runs on the triangle, the square and the simplex of `Props/Examples` and
`Props/HitRunBias`.
-/

namespace PW.RealToy
open PW Matrix MeasureTheory

/-! ### C02, C03, C08: which iterations the rows are -/

/-- The John walk on the triangle, ten iterations, burn-in 2, thinning 3: the rows are the positions after 5 and 8 iterations; with twenty
iterations there are more rows after these; without burn-in and thinning they are the fifth and the eighth. -/
example : ∃ r0 r1, john.run env triArgs = .ok [r0, r1] ∧ john.PosAt env triArgs triDims 5 r0 ∧ john.PosAt env triArgs triDims 8 r1 ∧
    (∃ more, john.run env { triArgs with niter := 20 } = .ok (r0 :: r1 :: more) ∧ more.length = 4) ∧
    ∃ all, john.run env { triArgs with burnin := 0, thin := 1 } = .ok all ∧ all[4]? = some r0 ∧ all[7]? = some r1 := by
  have g20 : GoodInts 20 triArgs.burnin triArgs.thin := by constructor <;> norm_num [triArgs, IsInt, intMin, intMax]
  have g01 : GoodInts triArgs.niter 0 1 := by constructor <;> norm_num [triArgs, IsInt, intMin, intMax]
  obtain ⟨rows20, h20⟩ := C54_returns john env { triArgs with niter := 20 }
    (.john _ _ _ _ _ (by norm_num [triArgs]) (by norm_num [triArgs])) g20 triDims (fun h => by cases h)
  obtain ⟨all, hall⟩ := C54_returns john env { triArgs with burnin := 0, thin := 1 }
    (.john _ _ _ _ _ (by norm_num [triArgs]) (by norm_num [triArgs])) g01 triDims (fun h => by cases h)
  obtain ⟨rows, h, hpre⟩ := C08_prefix john env triArgs 20 triInts g20 (by norm_num [triArgs]) rows20 h20
  have hlen : rows.length = 2 := by
    have h1 : (rows.length : Int) = (10 - 2) / 3 := C01_shape _ env triArgs triInts rows h
    norm_num at h1
    exact_mod_cast h1
  have hlen20 : rows20.length = 6 := by
    have h1 : (rows20.length : Int) = (20 - 2) / 3 := C01_shape _ env { triArgs with niter := 20 } g20 rows20 h20
    norm_num at h1
    exact_mod_cast h1
  have hthin := C08_thinning john env triArgs triInts rows all h hall
  obtain ⟨hd, hpos⟩ := C02_rows john env triArgs triInts rows h
  match rows, hlen with
  | [r0, r1], _ =>
    obtain ⟨more, rfl⟩ := hpre
    exact ⟨r0, r1, h, hpos 0 (by simp), hpos 1 (by simp), ⟨more, h20, by simpa using hlen20⟩, all, hall, hthin 0 (by simp), hthin 1 (by simp)⟩

/-- Without burn-in, thinning 4: the rows are visited points. -/
example : ∃ rows, (Walk.ball 1).run env { triArgs with burnin := 0, thin := 4 } = .ok rows ∧
    ∀ x ∈ rows, ∃ t : ℕ, 1 ≤ t ∧ (t : Int) ≤ 10 ∧ (Walk.ball 1).PosAt env { triArgs with burnin := 0, thin := 4 } triDims t x := by
  have hg : GoodInts triArgs.niter 0 4 := by constructor <;> norm_num [triArgs, IsInt, intMin, intMax]
  obtain ⟨rows, h⟩ := C54_returns (Walk.ball 1) env { triArgs with burnin := 0, thin := 4 } (.ball _ (by norm_num [triArgs])) hg triDims
    (fun h => by cases h)
  obtain ⟨hd, hv⟩ := C03_visited_partial _ env { triArgs with burnin := 0, thin := 4 } hg.sane rows h
  exact ⟨rows, h, hv⟩

/-- Zero rows that were never visited. -/
example : (Walk.ball 1).run env { triArgs with niter := 0, burnin := 2, thin := -1 } = .ok [fun _ => 0, fun _ => 0] :=
  C03_negative_thin_filler _ env { triArgs with niter := 0, burnin := 2, thin := -1 } triDims (fun h => by cases h) rfl rfl rfl ⟨_, rfl⟩

/-- No exception for any integers: `thin = 0`, `burnin = -5`. -/
example (ex : Exn) : john.run env { triArgs with niter := -3, burnin := -5, thin := 0 } ≠ .throws ex :=
  C03_never_rejected john (.john ..) env triArgs triDims (fun h => by cases h) (-3) (-5) 0 ex

/-! ### C04, C05: rejected arguments -/

/-- A right-hand side that is too short. -/
example : john.run env { triArgs with b := ⟨2, fun _ => 1⟩ } = .throws .badDims ∧ john.run env triArgs ≠ .throws .badDims :=
  ⟨C04_rejected john env { triArgs with b := ⟨2, fun _ => 1⟩ } (fun h => absurd h.2 (by norm_num [triArgs])) (fun h => by cases h),
    C04_no_exception john (Walk.Library.john ..).noThrow env triArgs triDims (fun h => by cases h) _⟩

/-- `k = 0` and `k = 3` on the segment. -/
example : (Walk.sparseBall 1 exactEigen).run env { segArgs with k := 0 } = .throws .badK ∧
    (Walk.sparseBall 1 exactEigen).run env { segArgs with k := 3 } = .throws .badK ∧
    (Walk.sparseBall 1 exactEigen).run env segArgs ≠ .throws .badK ∧
    SparseCenter.getInitialPoint exactGlpk segArgs.A segArgs.b 3 = .throws .badK :=
  ⟨C05_walk _ rfl env { segArgs with k := 0 } (.inl le_rfl),
    C05_walk _ rfl env { segArgs with k := 3 } (.inr (by norm_num [segArgs])),
    (C05_only_then _ (.sparseBall ..) env segArgs segK exactGlpk exactEigen 1 5 0 true).1,
    (C05_utils exactGlpk exactEigen 1 5 0 segArgs.A segArgs.b 3 (.inr (by norm_num [segArgs]))).1⟩

/-! ### C06, C07: seeds and reuse -/

/-- Seed 42: the hardware entropy does not matter. Seed `-1` with entropy 7 gives what seed 7 gives. -/
example (rd rd' : BitVec 32) : john.run { env with rd := rd } triArgs = john.run { env with rd := rd' } triArgs ∧
    john.run env { triArgs with seed := -1 } = john.run env { triArgs with seed := 7 } :=
  ⟨C06_seeded john rng _ _ triArgs (by norm_num [triArgs]) rd rd',
    C06_unseeded john rng 7 _ _ { triArgs with seed := -1 } rfl 7 (by norm_num) (by decide)⟩

/-- A John object with weights left from another polytope. -/
example : john.run env triArgs =
    (Walk.barrier (johnClass exactEigen 1 (1 / 100) 50) exactEigen ⟨5, ⟨7, fun _ => 1 / 3⟩⟩).run env triArgs :=
  C07_reuse _ _ (.john ..) env triArgs

/-! ### C09 -/

example : ∃ rows, john.run env triArgs = .ok rows ∧ ∀ x ∈ rows, x = triX ∨ Spec.PassesDense triA triB x := by
  obtain ⟨rows, h⟩ := C54_returns john env triArgs
    (.john _ _ _ _ _ (by norm_num [triArgs]) (by norm_num [triArgs])) triInts triDims (fun h => by cases h)
  obtain ⟨hd, hr⟩ := C09_rows_tested john (.barrier _ _ _) env triArgs triInts.sane rows h
  exact ⟨rows, h, hr⟩

/-! ### C11, C16, C18: Hit-and-Run -/

/-- The number itself, if it lies in `[0, 1]`. -/
noncomputable def clamp (u : ℝ) : ℝ := max 0 (min 1 u)

/-- The ideal source of `Lemmas/Stream`, with uniform draws that are in `[0, 1]` always, not only almost surely. -/
noncomputable def clampRng : Rng ℝ := { streamRng with uniform := fun g => (clamp (streamRng.uniform g).1, (streamRng.uniform g).2) }

/-- Environment with this generator. -/
noncomputable def clampEnv : Env ℝ := ⟨clampRng, 0, fun _ _ => 0, 0⟩

noncomputable instance : MeasurableSpace clampEnv.r.G := inferInstanceAs (MeasurableSpace streamRng.G)

theorem clamp_unit : clampEnv.r.UnitDraws := fun _ => ⟨le_max_left _ _, max_le zero_le_one (min_le_left _ _)⟩

theorem clamp_preserving : MeasurePreserving clamp unitLaw unitLaw := by
  have hm : Measurable clamp := measurable_const.max (measurable_const.min measurable_id)
  refine ⟨hm, ?_⟩
  have h : clamp =ᵐ[unitLaw] id := by
    unfold unitLaw
    filter_upwards [ae_restrict_mem measurableSet_Icc] with u hu
    show max 0 (min 1 u) = u
    rw [min_eq_right hu.2, max_eq_right hu.1]
  rw [Measure.map_congr h, Measure.map_id]

theorem clamp_normalState (g : streamRng.G) (i : ℕ) : clampRng.normalState g i = streamRng.normalState g i := by
  induction i with
  | zero => rfl
  | succ i ih =>
    show (streamRng.normal (clampRng.normalState g i).1 (clampRng.normalState g i).2).2 =
      (streamRng.normal (streamRng.normalState g i).1 (streamRng.normalState g i).2).2
    rw [ih]

theorem clamp_gaussian (d : ℕ) : clampRng.gaussian d = streamRng.gaussian d := by
  funext g
  have h := clamp_normalState g
  refine Prod.ext (funext fun i => ?_) (show (clampRng.normalState g d).2 = (streamRng.normalState g d).2 by rw [h])
  show (streamRng.normal (clampRng.normalState g i).1 (clampRng.normalState g i).2).1 =
    (streamRng.normal (streamRng.normalState g i).1 (streamRng.normalState g i).2).1
  rw [h]

theorem clamp_ideal : IdealSource clampEnv.r (streamLaw : Measure streamRng.G) where
  prob := streamRng_ideal.prob
  probN := streamRng_ideal.probN
  gaussian d := (congrArg (fun f => MeasurePreserving f streamLaw ((stdNormal d).prod streamLaw)) (clamp_gaussian d)).mpr (streamRng_ideal.gaussian d)
  uniform := by
    have := streamRng_ideal.prob
    exact (clamp_preserving.prod (MeasurePreserving.id _)).comp streamRng_ideal.uniform

theorem square_start : squareArgs.x0 ⟨rfl, rfl⟩ ∈ Interior squareArgs.A.val (squareArgs.rhs ⟨rfl, rfl⟩) := by
  intro i
  show (Matrix.of ![![(1 : ℝ), 0], ![-1, 0], ![0, 1], ![0, -1]]).mulVec (fun _ => 0) i < 1
  fin_cases i <;> simp [Matrix.mulVec, dotProduct]

/-- Hit-and-Run on the square: for some (almost every) state of the ideal source it returns 100 rows. -/
theorem square_runs : ∃ (e : Env ℝ) (rows : List (Fin 2 → ℝ)), e.r.UnitDraws ∧
    (Walk.hitRun (1 / 2) (1 / 100)).run e squareArgs = .ok rows ∧ rows.length = 100 := by
  have hg : GoodInts squareArgs.niter squareArgs.burnin squareArgs.thin := ⟨by decide, by decide, by decide, by decide, by decide⟩
  have hae := C58_dense (1 / 2) (1 / 100) (by norm_num) (by norm_num) clampEnv streamLaw clamp_ideal squareArgs hg ⟨rfl, rfl⟩
    (le_refl 2) square_start ⟨1, fun y hy => (squareArgs_mem y).1 hy⟩
  obtain ⟨g, f0, rows, hrun, -⟩ := @Filter.Eventually.exists _ _ _ (@IsProbabilityMeasure.ae_neBot _ _ _ clamp_ideal.prob) hae
  have h := hrun f0 le_rfl
  refine ⟨(clampEnv.withGen g).withFuel f0, rows, clamp_unit, h, ?_⟩
  have h1 : (rows.length : Int) = (100 - 0) / 1 := C01_shape _ _ squareArgs hg rows h
  norm_num at h1
  exact_mod_cast h1

/-- Its rows stay in the square (C11). -/
example : ∃ (e : Env ℝ) (rows : List (Fin 2 → ℝ)), (Walk.hitRun (1 / 2) (1 / 100)).run e squareArgs = .ok rows ∧ rows.length = 100 ∧
    ∀ x ∈ rows, ∀ i, |x i| ≤ 1 := by
  have hg : GoodInts squareArgs.niter squareArgs.burnin squareArgs.thin := ⟨by decide, by decide, by decide, by decide, by decide⟩
  obtain ⟨e, rows, hu, h, hl⟩ := square_runs
  exact ⟨e, rows, h, hl, fun x hx => (squareArgs_mem x).1
    (C11_feasible (1 / 2) (1 / 100) e hu squareArgs hg.sane ⟨rfl, rfl⟩ (fun i => (square_start i).le) rows h x hx)⟩

theorem simplex_start : simplexArgs.x0 ⟨rfl, rfl⟩ ∈ PolyEq simplexArgs.A.val (simplexArgs.rhs ⟨rfl, rfl⟩) simplexArgs.k.toNat := by
  constructor
  · funext i
    show (ones3 *ᵥ fun _ => 1 / 3) i = 1
    simp [ones3, Matrix.mulVec, dotProduct]
  · intro i _
    show (0 : ℝ) ≤ 1 / 3
    norm_num

/-- Sparse Hit-and-Run on the simplex returns rows that lie in it (C16, C18). -/
example : ∃ (e : Env ℝ) (rows : List (Fin 3 → ℝ)), (Walk.sparseHitRun (1 / 2) (1 / 100) exactEigen).run e simplexArgs = .ok rows ∧
    rows.length = 100 ∧ ∀ x ∈ rows, ones3 *ᵥ x = (fun _ => 1) ∧ x ∈ PolyEq ones3 (fun _ => 1) 3 := by
  have hg : GoodInts simplexArgs.niter simplexArgs.burnin simplexArgs.thin := ⟨by decide, by decide, by decide, by decide, by decide⟩
  have hu : IsUnit (simplexArgs.A.val * simplexArgs.A.valᵀ).det := PosDef.isUnit_det (IndepRows.posDef (A := ones3) ones3_indep)
  have hae := C58_sparse (1 / 2) (1 / 100) (by norm_num) exactEigen exactEigen_exact.sparseLU clampEnv streamLaw clamp_ideal simplexArgs hg
    ⟨rfl, rfl⟩ ⟨by decide, by decide⟩ ones3_indep (by decide) (fun i _ => by show (0 : ℝ) < 1 / 3; norm_num)
  obtain ⟨g, f0, rows, hrun, -⟩ := @Filter.Eventually.exists _ _ _ (@IsProbabilityMeasure.ae_neBot _ _ _ clamp_ideal.prob) hae
  have h := hrun f0 le_rfl
  refine ⟨(clampEnv.withGen g).withFuel f0, rows, h, ?_, fun x hx => ⟨?_, ?_⟩⟩
  · have h1 : (rows.length : Int) = (100 - 0) / 1 := C01_shape _ _ simplexArgs hg rows h
    norm_num at h1
    exact_mod_cast h1
  · exact C16_hitRun (1 / 2) (1 / 100) exactEigen exactEigen_exact.sparseLU ((clampEnv.withGen g).withFuel f0) simplexArgs hu hg.sane ⟨rfl, rfl⟩ simplex_start.1 rows h x hx
  · exact C18_feasible (1 / 2) (1 / 100) exactEigen exactEigen_exact.sparseLU ((clampEnv.withGen g).withFuel f0) clamp_unit simplexArgs hu hg.sane ⟨rfl, rfl⟩ simplex_start
      rows h x hx

/-! ### C15, C17: the sparse Ball walk on the segment -/

example : ∃ x y, (Walk.sparseBall 1 exactEigen).PosAt env segArgs segDims 3 x ∧ (Walk.sparseBall 1 exactEigen).PosAt env segArgs segDims 4 y ∧
    (y = x ∨ Real.sqrt (∑ i, (y i - x i) ^ 2) = |1| / Real.sqrt (2 - 1)) := by
  obtain ⟨s, hs⟩ := C54_chain (Walk.sparseBall 1 exactEigen) env segArgs (.sparseBall _ _) segDims (fun _ => segK) 3
  obtain ⟨s', hs'⟩ := C54_chain (Walk.sparseBall 1 exactEigen) env segArgs (.sparseBall _ _) segDims (fun _ => segK) 4
  refine ⟨_, _, ⟨s, hs, rfl⟩, ⟨s', hs', rfl⟩, ?_⟩
  have := C15_sparse_ball_step 1 exactEigen env segArgs segDims 3 _ _ ⟨s, hs, rfl⟩ ⟨s', hs', rfl⟩
  simpa [segArgs] using this

example : ∃ rows, (Walk.sparseBall 1 exactEigen).run env segArgs = .ok rows ∧ ∀ x ∈ rows, x = midpoint2 ∨ Spec.PassesSparse 2 x := by
  obtain ⟨rows, h⟩ := C54_returns (Walk.sparseBall 1 exactEigen) env segArgs (.sparseBall _ _) segInts segDims (fun _ => segK)
  obtain ⟨hd, hr⟩ := C17_rows_tested _ (.ball _ _) env segArgs segInts.sane rows h
  exact ⟨rows, h, hr⟩

/-! ### C12–C14, C72: chords of the square and of half planes -/

/-- The first axis. -/
def axis : Fin 2 → ℝ := ![1, 0]

theorem axis_unit : IsUnitVec axis := by simp [IsUnitVec, axis, Fin.sum_univ_two]

/-- The matrix of the square `[-1, 1]²`. -/
def sqA : Matrix (Fin 4) (Fin 2) ℝ := Matrix.of ![![1, 0], ![-1, 0], ![0, 1], ![0, -1]]

theorem sq_mem (y : Fin 2 → ℝ) : y ∈ Poly sqA (fun _ => 1) ↔ ∀ i, |y i| ≤ 1 := squareArgs_mem y

theorem sq_ray (t : ℝ) : ray 0 axis t ∈ Poly sqA (fun _ => 1) ↔ |t| ≤ 1 := by
  rw [sq_mem]
  simp [ray, axis, Fin.forall_fin_two]

/-- With `r = 3` the chord search on the square ends, within `err` of the wall. -/
example : ∃ fuel t, HitRun.binarySearch 3 (1 / 100) fuel sqA (fun _ => 1) axis 0 = .ok t ∧ 0 < t ∧ t ≤ 1 ∧ 1 < t + 1 / 100 := by
  obtain ⟨fuel, t, h⟩ := C13_chord_terminates_partial sqA (fun _ => 1) 0 axis axis_unit
    (fun i => by fin_cases i <;> simp [Matrix.mulVec, dotProduct]) ⟨1, fun y hy => (sq_mem y).1 hy⟩ 3 (1 / 100) (by norm_num) (by norm_num) (by
      intro i j hm
      have h1 := (sq_ray _).1 hm
      have hne : (|3| * i / 2 ^ j : ℝ) ≠ 1 := by
        intro h2
        rw [div_eq_one_iff_eq (by positivity), abs_of_pos (by norm_num)] at h2
        have h3 : 3 * i = 2 ^ j := by exact_mod_cast h2
        have h4 : 3 ∣ 2 ^ j := ⟨i, h3.symm⟩
        have h5 := Nat.Prime.dvd_of_dvd_pow Nat.prime_three h4
        omega
      have h0 : (0 : ℝ) ≤ |3| * i / 2 ^ j := by positivity
      rw [abs_of_nonneg h0] at h1
      have h3 := lt_of_le_of_ne h1 hne
      intro l
      fin_cases l <;> simp [sqA, ray, axis, Matrix.mulVec, dotProduct, Fin.sum_univ_two] at h3 h0 ⊢ <;> linarith)
  obtain ⟨h1, h2, h3⟩ := C12_chord sqA (fun _ => 1) 0 axis axis_unit ((sq_mem _).2 (by simp)) 3 (1 / 100) t fuel (h fuel le_rfl)
  refine ⟨fuel, t, h fuel le_rfl, h1, (le_abs_self t).trans ((sq_ray t).1 h2), ?_⟩
  by_contra hc
  push Not at hc
  refine h3 1 hc ((sq_ray 1).2 (by norm_num))

/-- With `r = 1` the first point tried is on the wall, and the search never ends. -/
example (fuel : ℕ) : HitRun.binarySearch 1 (1 / 2) fuel sqA (fun _ => 1) axis 0 = .timeout := by
  refine C13_chord_diverges sqA (fun _ => 1) (by norm_num) 0 axis axis_unit 1 (1 / 2) one_pos (by norm_num) ((sq_ray 1).2 (by norm_num))
    (fun t ht hm => ?_) fuel
  have := (le_abs_self t).trans ((sq_ray t).1 hm)
  linarith

/-- The half plane `x₁ ≥ 0`, along its recession direction; `r = 0`; and from its boundary outwards. -/
example (R ERR : ℝ) (hR : R ≠ 0) (fuel : ℕ) :
    HitRun.binarySearch R ERR fuel (Matrix.of ![![(-1 : ℝ), 0]]) (fun _ => 0) axis 0 = .timeout ∧
    HitRun.binarySearch 0 ERR fuel sqA (fun _ => 1) axis 0 = .timeout ∧
    HitRun.binarySearch R ERR fuel (Matrix.of ![![(1 : ℝ), 0]]) (fun _ => 0) axis 0 = .timeout := by
  refine ⟨C14_unbounded_diverges _ _ one_pos 0 axis axis_unit (fun t ht i => ?_) R ERR fuel,
    C14_radius_zero_diverges sqA _ (by norm_num) 0 axis axis_unit ((sq_mem _).2 (by simp)) ERR fuel,
    C14_boundary_diverges _ _ one_pos 0 axis axis_unit (fun t ht hm => ?_) R ERR hR fuel⟩
  · simp [Matrix.mulVec, dotProduct, Fin.sum_univ_two, ray, axis, ht]
  · have := hm 0
    simp [Matrix.mulVec, dotProduct, Fin.sum_univ_two, ray, axis] at this
    linarith

/-- The sparse search from the boundary outwards. -/
example (R ERR : ℝ) (hR : R ≠ 0) (fuel : ℕ) : SparseHitRun.binarySearch R ERR fuel 2 (fun i => -axis i) (fun _ => 0) = .timeout := by
  refine C14_boundary_diverges_sparse (n := 2) (by norm_num) le_rfl _ _ (by simp [IsUnitVec, axis, Fin.sum_univ_two]) (fun t ht hm => ?_)
    R ERR hR fuel
  have := hm 0 (by norm_num)
  simp [ray, axis] at this
  linarith

/-- Hit-and-Run never returns on the half line `x ≤ 4` from 1. -/
example (R ERR : ℝ) (rows : List (Fin 1 → ℝ)) :
    (Walk.hitRun R ERR).run env ⟨10, ⟨1, fun _ => 1⟩, ⟨1, 1, fun _ _ => 1⟩, ⟨1, fun _ => 4⟩, 1, 2, 3, 42⟩ ≠ .ok rows :=
  C14_halfline_never_returns R ERR env ⟨10, ⟨1, fun _ => 1⟩, ⟨1, 1, fun _ _ => 1⟩, ⟨1, fun _ => 4⟩, 1, 2, 3, 42⟩
    ⟨by decide, by decide, by decide, by decide⟩ (by decide) 1 4 (by norm_num) rfl rfl rfl rows

end PW.RealToy
