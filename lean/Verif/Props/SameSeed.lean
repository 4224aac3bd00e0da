import Verif.Props.Continue
import Verif.Props.Sampling

/-!
# C101: chaining calls with the same seed does not explore the polytope

Ball walks and Hit-and-Run draw their directions from the generator alone. Calls with one seed therefore use the same directions, and calls chained with one
seed stay in the span of them.
-/

namespace PW
open Matrix MeasureTheory Set
variable {m n : ℕ}

/-- Moves along a direction that depends on the generator alone. -/
structure Guided {G : Type} (step : (Fin n → ℝ) × G → Out ((Fin n → ℝ) × G)) (dir : G → Fin n → ℝ) (nxt : G → G) : Prop where
  moves : ∀ x g x' g', step (x, g) = .ok (x', g') → g' = nxt g ∧ ∃ c : ℝ, x' = x + c • dir g

theorem Guided.span {G : Type} {step : (Fin n → ℝ) × G → Out ((Fin n → ℝ) × G)} {dir : G → Fin n → ℝ} {nxt : G → G} (h : Guided step dir nxt)
    {N : ℕ} {g : G} (t : ℕ) (ht : t ≤ N) (x : Fin n → ℝ) {x' : Fin n → ℝ} {g' : G} (hi : iter step t (x, g) = .ok (x', g')) :
    g' = nxt^[t] g ∧ x' - x ∈ Submodule.span ℝ (Set.range fun i : Fin N => dir (nxt^[i] g)) := by
  induction t generalizing x' g' with
  | zero =>
    cases hi
    exact ⟨rfl, by rw [sub_self]; exact Submodule.zero_mem _⟩
  | succ t ih =>
    obtain ⟨⟨y, g1⟩, h1, h2⟩ := Out.bind_eq_ok.1 hi
    obtain ⟨e1, h3⟩ := ih (by omega) h1
    obtain ⟨e2, c, h4⟩ := h.moves y g1 x' g' h2
    subst e1
    refine ⟨by rw [e2, Function.iterate_succ_apply'], ?_⟩
    have : x' - x = (y - x) + c • dir (nxt^[t] g) := by rw [h4]; abel
    rw [this]
    exact Submodule.add_mem _ h3 (Submodule.smul_mem _ c (Submodule.subset_span ⟨⟨t, by omega⟩, rfl⟩))

theorem add_smul_fun (c : ℝ) (d x : Fin n → ℝ) : (fun i => c * d i + x i) = x + c • d := by
  funext i
  rw [Pi.add_apply, Pi.smul_apply, smul_eq_mul, add_comm]

theorem ball_guided (R : ℝ) (r : Rng ℝ) (A : Matrix (Fin m) (Fin n) ℝ) (b : Fin m → ℝ) :
    Guided (BallWalk.step R r A b) (fun g => (r.gaussianNorm n g).1) (fun g => (r.gaussianNorm n g).2) where
  moves x g x' g' h := by
    obtain ⟨c, -, h2⟩ := Out.bind_eq_ok.1 h
    cases c with
    | true =>
      simp only [if_true] at h2
      cases h2
      refine ⟨rfl, R / Scalar.sqrt (Scalar.ofInt n), ?_⟩
      rw [← add_smul_fun]
      funext i
      show _ * R / _ + x i = R / _ * _ + x i
      ring
    | false =>
      simp only [Bool.false_eq_true, if_false] at h2
      cases h2
      exact ⟨rfl, 0, by rw [zero_smul, add_zero]⟩

theorem hitRun_guided (R ERR : ℝ) (fuel : ℕ) (r : Rng ℝ) (A : Matrix (Fin m) (Fin n) ℝ) (b : Fin m → ℝ) :
    Guided (HitRun.step R ERR fuel r A b) (fun g => (r.gaussianNorm n g).1) (fun g => (r.uniform (r.gaussianNorm n g).2).2) where
  moves x g x' g' h := by
    obtain ⟨p, -, h⟩ := Out.bind_eq_ok.1 h
    obtain ⟨q, -, h⟩ := Out.bind_eq_ok.1 h
    cases h
    exact ⟨rfl, _, add_smul_fun _ _ _⟩

theorem sparseBall_guided (R : ℝ) (E : Eigen ℝ) (r : Rng ℝ) (A : Matrix (Fin m) (Fin n) ℝ) (k : ℕ) :
    Guided (SparseBallWalk.step R E r A k) (fun g => normalize (kernelProject E A (r.gaussian n g).1)) (fun g => (r.gaussian n g).2) where
  moves x g x' g' h := by
    obtain ⟨c, -, h2⟩ := Out.bind_eq_ok.1 h
    cases c with
    | true =>
      simp only [if_true] at h2
      cases h2
      exact ⟨rfl, _, add_smul_fun _ _ _⟩
    | false =>
      simp only [Bool.false_eq_true, if_false] at h2
      cases h2
      exact ⟨rfl, 0, by rw [zero_smul, add_zero]⟩

theorem sparseHitRun_guided (R ERR : ℝ) (fuel : ℕ) (E : Eigen ℝ) (r : Rng ℝ) (A : Matrix (Fin m) (Fin n) ℝ) (k : ℕ) :
    Guided (SparseHitRun.step R ERR fuel E r A k) (fun g => normalize (kernelProject E A (r.gaussian n g).1))
      (fun g => (r.uniform (r.gaussian n g).2).2) where
  moves x g x' g' h := by
    obtain ⟨p, -, h⟩ := Out.bind_eq_ok.1 h
    obtain ⟨q, -, h⟩ := Out.bind_eq_ok.1 h
    cases h
    exact ⟨rfl, _, add_smul_fun _ _ _⟩

/-- **C101**: the calls chained with one seed, from any starting point, stay in its translate of the span of `niter` fixed vectors. -/
theorem C101_span (w : Walk ℝ) (hw : w.Undirected) (e : Env ℝ) (A : Matrix (Fin m) (Fin n) ℝ) (b : Fin m → ℝ) (k niter burnin thin seed : Int)
    (hg : GoodInts niter burnin thin) (hseed : seed ≠ -1) :
    ∃ D : Fin niter.toNat → Fin n → ℝ, ∀ x y, Chained w e A b x k niter burnin thin seed y → y - x ∈ Submodule.span ℝ (Set.range D) := by
  have key : ∀ (dir : e.r.G → Fin n → ℝ) (nxt : e.r.G → e.r.G), (∀ (y z : Fin n → ℝ) rd junk fuel (t : ℕ), t ≤ niter.toNat →
      w.PosAt { e with rd := rd, junk := junk, fuel := fuel } (callArgs A b y niter k burnin thin seed) ⟨rfl, rfl⟩ t z →
        z - y ∈ Submodule.span ℝ (Set.range fun i : Fin niter.toNat => dir (nxt^[i] (e.r.seed (BitVec.ofInt 32 seed))))) →
      ∃ D : Fin niter.toNat → Fin n → ℝ, ∀ x y, Chained w e A b x k niter burnin thin seed y → y - x ∈ Submodule.span ℝ (Set.range D) := by
    intro dir nxt hpos
    refine ⟨fun i => dir (nxt^[i] (e.r.seed (BitVec.ofInt 32 seed))), fun x y h => ?_⟩
    induction h with
    | start => rw [sub_self]; exact Submodule.zero_mem _
    | @call y z rows hy rd junk fuel h hz ih =>
      have hlen := C01_shape w { e with rd := rd, junk := junk, fuel := fuel } (callArgs A b y niter k burnin thin seed) hg rows h
      obtain ⟨hd, hrow⟩ := C02_rows w { e with rd := rd, junk := junk, fuel := fuel } (callArgs A b y niter k burnin thin seed) hg rows h
      obtain ⟨j, hj, rfl⟩ := List.getElem_of_mem hz
      have hth : 0 < thin := lt_of_lt_of_le one_pos hg.thin_pos
      have ht : (burnin + ((j : Int) + 1) * thin).toNat ≤ niter.toNat := by
        have h1 : ((j : Int) + 1) * thin ≤ (rows.length : Int) * thin := Int.mul_le_mul_of_nonneg_right (by omega) hth.le
        have h2 : (rows.length : Int) * thin ≤ niter - burnin := by
          have h3 : (rows.length : Int) = (niter - burnin) / thin := hlen
          rw [h3]
          exact Int.ediv_mul_le _ hth.ne'
        omega
      have h5 := hpos y rows[j] rd junk fuel _ ht (hrow j hj)
      have h6 : rows[j] - x = (rows[j] - y) + (y - x) := by abel
      rw [h6]
      exact Submodule.add_mem _ h5 ih
  have hinit : ∀ rd, e.r.initRng seed rd = e.r.seed (BitVec.ofInt 32 seed) := fun rd => by unfold Rng.initRng; rw [if_pos hseed]
  cases w with
  | ball R =>
    refine key (fun g => (e.r.gaussianNorm n g).1) (fun g => (e.r.gaussianNorm n g).2) fun y z rd junk fuel t ht hp => ?_
    obtain ⟨st, h1, rfl⟩ := hp
    have h2 : iter (BallWalk.step R e.r A b) t (y, e.r.initRng seed rd) = .ok (st.1, st.2) := h1
    rw [hinit] at h2
    exact ((ball_guided R e.r A b).span t ht y h2).2
  | hitRun R ERR =>
    refine key (fun g => (e.r.gaussianNorm n g).1) (fun g => (e.r.uniform (e.r.gaussianNorm n g).2).2) fun y z rd junk fuel t ht hp => ?_
    obtain ⟨st, h1, rfl⟩ := hp
    have h2 : iter (HitRun.step R ERR fuel e.r A b) t (y, e.r.initRng seed rd) = .ok (st.1, st.2) := h1
    rw [hinit] at h2
    exact ((hitRun_guided R ERR fuel e.r A b).span t ht y h2).2
  | sparseBall R E =>
    refine key (fun g => normalize (kernelProject E A (e.r.gaussian n g).1)) (fun g => (e.r.gaussian n g).2) fun y z rd junk fuel t ht hp => ?_
    obtain ⟨st, h1, rfl⟩ := hp
    have h2 : iter (SparseBallWalk.step R E e.r A k.toNat) t (y, e.r.initRng seed rd) = .ok (st.1, st.2) := h1
    rw [hinit] at h2
    exact ((sparseBall_guided R E e.r A k.toNat).span t ht y h2).2
  | sparseHitRun R ERR E =>
    refine key (fun g => normalize (kernelProject E A (e.r.gaussian n g).1)) (fun g => (e.r.uniform (e.r.gaussian n g).2).2) fun y z rd junk fuel t ht hp => ?_
    obtain ⟨st, h1, rfl⟩ := hp
    have h2 : iter (SparseHitRun.step R ERR fuel E e.r A k.toNat) t (y, e.r.initRng seed rd) = .ok (st.1, st.2) := h1
    rw [hinit] at h2
    exact ((sparseHitRun_guided R ERR fuel E e.r A k.toNat).span t ht y h2).2
  | barrier => exact hw.elim
  | sparseBarrier => exact hw.elim

theorem finrank_span_range {N : ℕ} (D : Fin N → Fin n → ℝ) : Module.finrank ℝ (Submodule.span ℝ (Set.range D)) ≤ N :=
  (finrank_range_le_card D).trans (Fintype.card_fin N).le

/-- **C101**, one iteration per call: everything lies on one line through the starting point. -/
theorem C101_line (w : Walk ℝ) (hw : w.Undirected) (e : Env ℝ) (A : Matrix (Fin m) (Fin n) ℝ) (b : Fin m → ℝ) (k burnin thin seed : Int)
    (hg : GoodInts 1 burnin thin) (hseed : seed ≠ -1) :
    ∃ v : Fin n → ℝ, ∀ x y, Chained w e A b x k 1 burnin thin seed y → ∃ c : ℝ, y = x + c • v := by
  obtain ⟨D, h⟩ := C101_span w hw e A b k 1 burnin thin seed hg hseed
  refine ⟨D ⟨0, by decide⟩, fun x y hy => ?_⟩
  have h1 := h x y hy
  have h2 : Set.range D = {D ⟨0, by decide⟩} := by
    ext v
    constructor
    · rintro ⟨i, rfl⟩
      have : i = ⟨0, by decide⟩ := Fin.ext (by have := i.isLt; have h3 : (1 : Int).toNat = 1 := rfl; omega)
      rw [this]; rfl
    · rintro rfl; exact ⟨_, rfl⟩
  rw [h2, Submodule.mem_span_singleton] at h1
  obtain ⟨c, hc⟩ := h1
  exact ⟨c, by rw [hc]; abel⟩

/-- **C101** (dense classes): with fewer iterations per call than dimensions, however many calls are chained, nothing they return is outside a set of volume zero. -/
theorem C101_null (w : Walk ℝ) (hw : w.Undirected) (e : Env ℝ) (A : Matrix (Fin m) (Fin n) ℝ) (b : Fin m → ℝ) (k niter burnin thin seed : Int)
    (hg : GoodInts niter burnin thin) (hseed : seed ≠ -1) (hlt : niter < n) (x : Fin n → ℝ) :
    volume {y | Chained w e A b x k niter burnin thin seed y} = 0 := by
  obtain ⟨D, h⟩ := C101_span w hw e A b k niter burnin thin seed hg hseed
  have hV : Submodule.span ℝ (Set.range D) ≠ ⊤ := by
    intro ht
    have h1 := finrank_span_range D
    rw [ht, finrank_top, Module.finrank_fin_fun] at h1
    have := hg.burnin_nonneg.trans hg.burnin_le
    omega
  have h2 : volume ((fun y => y - x) ⁻¹' (Submodule.span ℝ (Set.range D) : Set (Fin n → ℝ))) = 0 := by
    simp only [sub_eq_add_neg]
    rw [measure_preimage_add_right]
    exact Measure.addHaar_submodule _ _ hV
  exact measure_mono_null (fun y hy => h x y hy) h2

/-- **C101** (sparse classes): the same in the solution space of the equations, whose dimension is `d`. -/
theorem C101_sparse_null (w : Walk ℝ) (hw : w.Undirected) (e : Env ℝ) (A : Matrix (Fin m) (Fin n) ℝ) (b : Fin m → ℝ) (k niter burnin thin seed : Int)
    (hg : GoodInts niter burnin thin) (hseed : seed ≠ -1) {d : ℕ} {B : Matrix (Fin n) (Fin d) ℝ} (hB : IsKernelBasis A B) (hlt : niter < d)
    (x₀ x : Fin n → ℝ) : uniformOnEq x₀ B k.toNat {y | Chained w e A b x k niter burnin thin seed y} = 0 := by
  obtain ⟨D, h⟩ := C101_span w hw e A b k niter burnin thin seed hg hseed
  have hn0 := hg.burnin_nonneg.trans hg.burnin_le
  let V := Submodule.span ℝ (Set.range D)
  have hcl : IsClosed ((fun y => y - x) ⁻¹' (V : Set (Fin n → ℝ))) := (Submodule.closed_of_finiteDimensional V).preimage (by fun_prop)
  refine measure_mono_null (t := (fun y => y - x) ⁻¹' (V : Set (Fin n → ℝ))) (fun y hy => h x y hy) ?_
  unfold uniformOnEq
  rw [Measure.map_apply (measurable_chart x₀ B) hcl.measurableSet]
  refine le_antisymm ((Measure.restrict_apply_le _ _).trans (le_of_eq ?_)) bot_le
  -- the coordinates of the translate are a translate of a proper subspace, or empty
  by_cases hne : ∃ u, chart x₀ B u - x ∈ V
  · obtain ⟨u, hu⟩ := hne
    let W : Submodule ℝ (Fin d → ℝ) := V.comap B.mulVecLin
    have hW : W ≠ ⊤ := by
      intro ht
      have hinj : Function.Injective B.mulVecLin := by
        rw [← LinearMap.ker_eq_bot, LinearMap.ker_eq_bot']
        exact fun u hu => hB.inj u hu
      have h1 : LinearMap.range B.mulVecLin ≤ V := by
        rintro _ ⟨v, rfl⟩
        have : v ∈ W := by rw [ht]; trivial
        exact this
      have h2 := LinearMap.finrank_range_of_inj hinj
      rw [Module.finrank_fin_fun] at h2
      have h3 := Submodule.finrank_mono h1
      have h4 : Module.finrank ℝ V ≤ niter.toNat := finrank_span_range D
      omega
    have h5 : volume ((fun v => v - u) ⁻¹' (W : Set (Fin d → ℝ))) = 0 := by
      simp only [sub_eq_add_neg]
      rw [measure_preimage_add_right]
      exact Measure.addHaar_submodule _ _ hW
    refine measure_mono_null (fun v hv => ?_) h5
    have hv : chart x₀ B v - x ∈ V := hv
    show B *ᵥ (v - u) ∈ V
    have h6 : B *ᵥ (v - u) = (chart x₀ B v - x) - (chart x₀ B u - x) := by
      show _ = (x₀ + B *ᵥ v - x) - (x₀ + B *ᵥ u - x)
      rw [Matrix.mulVec_sub]; abel
    rw [h6]
    exact Submodule.sub_mem _ hv hu
  · have : chart x₀ B ⁻¹' ((fun y => y - x) ⁻¹' (V : Set (Fin n → ℝ))) = ∅ := by
      ext v
      exact ⟨fun hv => hne ⟨v, hv⟩, fun hv => hv.elim⟩
    rw [this]
    exact measure_empty

end PW
