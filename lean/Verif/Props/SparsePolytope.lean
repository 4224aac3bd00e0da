import Verif.Props.DensePolytope
import Verif.Lemmas.LinAlg

/-!
# C16–C18: the sparse walks and the constrained polytope
-/

set_option linter.unusedSimpArgs false

namespace PW
open Matrix

/-! ## C17 -/

section
variable {F : Type} [Scalar F] {m n : ℕ}

theorem SparseBallWalk.step_pos {R : F} {E : Eigen F} {r : Rng F} {A : Matrix (Fin m) (Fin n) F} {k : ℕ}
    {s s' : (Fin n → F) × r.G} (h : SparseBallWalk.step R E r A k s = .ok s') :
    s'.1 = s.1 ∨ inPolytopeK s'.1 k = .ok true := by
  simp only [SparseBallWalk.step] at h
  obtain ⟨c, hc, h⟩ := Out.bind_eq_ok.1 h
  cases c <;> simp at h <;> subst h
  · exact .inl rfl
  · exact .inr hc

/-- What a completed sparse barrier step did. -/
theorem SparseBarrier.step_cases {σ : Type} {cls : SparseBarrierClass F σ} {ERR : F} {E : Eigen F}
    {r : Rng F} {junk : Fin n → F} {A : Matrix (Fin m) (Fin n) F} {k : ℕ} {s s' : (Fin n → F) × σ × r.G}
    (h : SparseBarrier.step cls ERR E r junk A k s = .ok s') :
    s'.1 = s.1 ∨ (inPolytopeK s'.1 k = .ok true ∧ ∃ Go, generateG cls ERR junk s.2.1 s.1 A k = .ok Go ∧
      s'.1 = SparseBarrier.proposal E (cls.distTerm Go.2) Go.1 A s.1 (r.gaussian n s.2.2).1) := by
  simp only [SparseBarrier.step] at h
  obtain ⟨zog, hz, h⟩ := Out.bind_eq_ok.1 h
  obtain ⟨c, hc, h⟩ := Out.bind_eq_ok.1 h
  cases c
  · simp at h; subst h; exact .inl rfl
  · simp only [if_true] at h
    obtain ⟨p, _, h⟩ := Out.bind_eq_ok.1 h
    obtain ⟨p', _, h⟩ := Out.bind_eq_ok.1 h
    simp only [Out.ok.injEq] at h
    subst h
    dsimp only
    split
    · right
      simp only [SparseBarrier.generateSample] at hz
      split at hz
      · cases hz
      · obtain ⟨Go, hG, hz⟩ := Out.bind_eq_ok.1 hz
        simp only [Out.ok.injEq] at hz
        subst hz
        exact ⟨hc, Go, hG, rfl⟩
    · exact .inl rfl

/-- Every row is the initial point or was accepted by the model's membership test. -/
theorem Walk.SparseMH.rows_tested {w : Walk F} (hw : w.SparseMH) (e : Env F) (a : Args F)
    (hi : SaneInts a.niter a.burnin a.thin) (rows : List (Fin a.A.c → F)) (h : w.run e a = .ok rows) :
    ∃ hd : a.DimsOk, ∀ x ∈ rows, x = a.x0 hd ∨ inPolytopeK x a.k.toNat = .ok true := by
  obtain ⟨hd, _⟩ := C03_visited_partial w e a hi rows h
  refine ⟨hd, fun x hx => ?_⟩
  cases hw with
  | ball R E =>
    obtain ⟨st, hP, rfl⟩ := Walk.rows_inv hi h hd
      (fun s => s.1 = a.x0 hd ∨ inPolytopeK s.1 a.k.toNat = .ok true)
      (by intro s0 h0; cases h0; exact .inl rfl)
      (by
        intro s s' hs hst
        rcases SparseBallWalk.step_pos hst with h1 | h1
        · rw [h1]; exact hs
        · exact .inr h1) x hx
    exact hP
  | barrier cls ERR E o =>
    obtain ⟨st, hP, rfl⟩ := Walk.rows_inv hi h hd
      (fun s => s.1 = a.x0 hd ∨ inPolytopeK s.1 a.k.toNat = .ok true)
      (by
        intro s0 h0
        obtain ⟨o', _, h0⟩ := Out.bind_eq_ok.1 h0
        cases h0; exact .inl rfl)
      (by
        intro s s' hs hst
        rcases SparseBarrier.step_cases hst with h1 | h1
        · rw [h1]; exact hs
        · exact .inr h1.1) x hx
    exact hP

end

section
open Classical
variable {m n : ℕ}

/-- A run that returned normally was called with a valid `k` if the walk is sparse. -/
theorem Walk.run_kOk {F : Type} [Scalar F] {w : Walk F} {e : Env F} {a : Args F}
    {rows : List (Fin a.A.c → F)} (h : w.run e a = .ok rows) (hw : w.isSparse = true) : a.KOk := by
  by_contra hk
  rw [Walk.run_eq, if_pos ⟨hw, hk⟩] at h
  cases h

/-- **C17** (any arithmetic). Every row returned by a sparse Ball walk or by any sparse barrier walk is the
initial point or passed the test `min(last k coordinates) >= 0`. -/
theorem C17_rows_tested {F : Type} [Scalar F] (w : Walk F) (hw : w.SparseMH) (e : Env F) (a : Args F)
    (hi : SaneInts a.niter a.burnin a.thin) (rows : List (Fin a.A.c → F)) (h : w.run e a = .ok rows) :
    ∃ hd : a.DimsOk, ∀ x ∈ rows, x = a.x0 hd ∨ Spec.PassesSparse a.k.toNat x := by
  obtain ⟨hd, hr⟩ := hw.rows_tested e a hi rows h
  obtain ⟨_, k2⟩ : a.KOk := Walk.run_kOk h (by cases hw <;> rfl)
  exact ⟨hd, fun x hx => (hr x hx).imp_right (inPolytopeK_iff_passes x (by omega)).1⟩

/-- **C17** (exact). If the last `k` coordinates of the initial point are non-negative, so are those of every
returned row. -/
theorem C17_nonneg (w : Walk ℝ) (hw : w.SparseMH) (e : Env ℝ) (a : Args ℝ)
    (hi : SaneInts a.niter a.burnin a.thin) (hd : a.DimsOk) (hx : a.x0 hd ∈ TailNonneg _ a.k.toNat)
    (rows : List (Fin a.A.c → ℝ)) (h : w.run e a = .ok rows) :
    ∀ x ∈ rows, x ∈ TailNonneg _ a.k.toNat := by
  obtain ⟨_, hr⟩ := hw.rows_tested e a hi rows h
  have hk : a.KOk := Walk.run_kOk h (by cases hw <;> rfl)
  intro x hxr
  rcases hr x hxr with h1 | h1
  · rw [h1]; exact hx
  · obtain ⟨k1, k2⟩ := hk
    rw [inPolytopeK_mem (by omega) (by omega)] at h1
    simpa using h1

/-! ## C16, C18 -/

theorem mulVec_shift {A : Matrix (Fin m) (Fin n) ℝ} {z x : Fin n → ℝ} (hz : A *ᵥ z = 0) (c : ℝ) :
    A *ᵥ (fun i => c * z i + x i) = A *ᵥ x := by
  have : (fun i => c * z i + x i) = c • z + x := by funext i; simp
  rw [this, Matrix.mulVec_add, Matrix.mulVec_smul, hz, smul_zero, zero_add]

theorem SparseHitRun.step_cases {R ERR : ℝ} {fuel : ℕ} {E : Eigen ℝ} {r : Rng ℝ} (hr : r.UnitDraws)
    {A : Matrix (Fin m) (Fin n) ℝ} {k : ℕ} (hk : 1 ≤ k) (hkn : k ≤ n) {s s' : (Fin n → ℝ) × r.G}
    (hx : s.1 ∈ TailNonneg n k) (h : SparseHitRun.step R ERR fuel E r A k s = .ok s') :
    s'.1 ∈ TailNonneg n k := by
  simp only [SparseHitRun.step] at h
  set v := kernelProject E A (r.gaussian n s.2).1
  obtain ⟨p, hp, h⟩ := Out.bind_eq_ok.1 h
  obtain ⟨q, hq, h⟩ := Out.bind_eq_ok.1 h
  simp only [Out.ok.injEq] at h
  subst h
  obtain ⟨l0, l1⟩ := hr (r.gaussian n s.2).2
  set l := (r.uniform (r.gaussian n s.2).2).1
  rcases normalize_cases v with hu | hz
  · set u : Fin n → ℝ := normalize v with hudef
    have e : (fun i => (l * (p - -q) + -q) * u i + s.1 i) = ray s.1 u (l * (p + q) - q) := by
      funext i; simp only [ray]; ring
    show (fun i => (l * (p - -q) + -q) * u i + s.1 i) ∈ _
    rw [e]
    have pin : 0 ≤ p ∧ ray s.1 u p ∈ TailNonneg n k := by
      rcases C12_chord_sparse hk hkn s.1 u hu hx R ERR p fuel hp with ⟨h1, _⟩ | h1
      · rw [h1, ray_zero]; exact ⟨le_rfl, hx⟩
      · exact ⟨h1.1.le, h1.2.1⟩
    have qin : 0 ≤ q ∧ ray s.1 u (-q) ∈ TailNonneg n k := by
      rcases C12_chord_sparse hk hkn s.1 _ (IsUnitVec.neg hu) hx R ERR q fuel hq with ⟨h1, _⟩ | h1
      · rw [h1, neg_zero, ray_zero]; exact ⟨le_rfl, hx⟩
      · rw [ray_neg] at h1; exact ⟨h1.1.le, h1.2.1⟩
    exact TailNonneg.between qin.2 pin.2 (by nlinarith) (by nlinarith)
  · have hz' : normalize v = fun _ => 0 := hz
    intro i hi
    show 0 ≤ (l * (p - -q) + -q) * normalize v i + s.1 i
    rw [hz', mul_zero, zero_add]
    exact hx i hi

theorem SparseHitRun.step_eq {R ERR : ℝ} {fuel : ℕ} {E : Eigen ℝ} (hE : E.SparseLUExact) {r : Rng ℝ}
    {A : Matrix (Fin m) (Fin n) ℝ} (hA : IsUnit (A * Aᵀ).det) {k : ℕ} {s s' : (Fin n → ℝ) × r.G}
    (h : SparseHitRun.step R ERR fuel E r A k s = .ok s') : A *ᵥ s'.1 = A *ᵥ s.1 := by
  simp only [SparseHitRun.step] at h
  obtain ⟨p, hp, h⟩ := Out.bind_eq_ok.1 h
  obtain ⟨q, hq, h⟩ := Out.bind_eq_ok.1 h
  simp only [Out.ok.injEq] at h
  subst h
  exact mulVec_shift (normalize_ker (kernelProject_ker hE hA _)) _

theorem SparseBallWalk.step_eq {R : ℝ} {E : Eigen ℝ} (hE : E.SparseLUExact) {r : Rng ℝ}
    {A : Matrix (Fin m) (Fin n) ℝ} (hA : IsUnit (A * Aᵀ).det) {k : ℕ} {s s' : (Fin n → ℝ) × r.G}
    (h : SparseBallWalk.step R E r A k s = .ok s') : A *ᵥ s'.1 = A *ᵥ s.1 := by
  simp only [SparseBallWalk.step] at h
  obtain ⟨c, hc, h⟩ := Out.bind_eq_ok.1 h
  cases c <;> simp at h <;> subst h
  · rfl
  · exact mulVec_shift (normalize_ker (kernelProject_ker hE hA _)) _

/-- **C16** for `SparseBallWalk`: every returned row satisfies `A x = b`. -/
theorem C16_ball (R : ℝ) (E : Eigen ℝ) (hE : E.SparseLUExact) (e : Env ℝ) (a : Args ℝ)
    (hA : IsUnit (a.A.val * a.A.valᵀ).det)
    (hi : SaneInts a.niter a.burnin a.thin) (hd : a.DimsOk) (hx : a.A.val *ᵥ a.x0 hd = a.rhs hd)
    (rows : List (Fin a.A.c → ℝ)) (h : (Walk.sparseBall R E).run e a = .ok rows) :
    ∀ x ∈ rows, a.A.val *ᵥ x = a.rhs hd := by
  intro x hxr
  obtain ⟨st, hP, rfl⟩ := Walk.rows_inv hi h hd (fun s => a.A.val *ᵥ s.1 = a.rhs hd)
    (by intro s0 h0; cases h0; exact hx)
    (fun s s' hs hst => (SparseBallWalk.step_eq hE hA hst).trans hs) x hxr
  exact hP

/-- **C16** for `SparseHitAndRun`: every returned row satisfies `A x = b`. -/
theorem C16_hitRun (R ERR : ℝ) (E : Eigen ℝ) (hE : E.SparseLUExact) (e : Env ℝ) (a : Args ℝ)
    (hA : IsUnit (a.A.val * a.A.valᵀ).det)
    (hi : SaneInts a.niter a.burnin a.thin) (hd : a.DimsOk) (hx : a.A.val *ᵥ a.x0 hd = a.rhs hd)
    (rows : List (Fin a.A.c → ℝ)) (h : (Walk.sparseHitRun R ERR E).run e a = .ok rows) :
    ∀ x ∈ rows, a.A.val *ᵥ x = a.rhs hd := by
  intro x hxr
  obtain ⟨st, hP, rfl⟩ := Walk.rows_inv hi h hd (fun s => a.A.val *ᵥ s.1 = a.rhs hd)
    (by intro s0 h0; cases h0; exact hx)
    (fun s s' hs hst => (SparseHitRun.step_eq hE hA hst).trans hs) x hxr
  exact hP

/-- **C16** for every `SparseBarrierWalk` subclass: every returned row satisfies `A x = b`, provided that at
every visited state the matrix handed to the Cholesky solver is positive definite. (That proviso holds when
the last `k` coordinates of the visited points and the weights are positive, `C16_barrier_metric`.) -/
theorem C16_barrier {σ : Type} (cls : SparseBarrierClass ℝ σ) (ERR : ℝ) (E : Eigen ℝ) (o : σ)
    (hE : E.SparseLLTSolveExact) (e : Env ℝ) (a : Args ℝ) (hi : SaneInts a.niter a.burnin a.thin)
    (hd : a.DimsOk) (hx : a.A.val *ᵥ a.x0 hd = a.rhs hd)
    (hG : ∀ t (x : Fin a.A.c → ℝ) (o' : σ) g,
      (Walk.sparseBarrier cls ERR E o).chain e a hd t = .ok (x, o', g) →
      ∀ Go, generateG cls ERR (e.junk _) o' x a.A.val a.k.toNat = .ok Go →
        (scaleCols a.A.val (invSqrt Go.1) * (scaleCols a.A.val (invSqrt Go.1))ᵀ).PosDef)
    (rows : List (Fin a.A.c → ℝ)) (h : (Walk.sparseBarrier cls ERR E o).run e a = .ok rows) :
    ∀ x ∈ rows, a.A.val *ᵥ x = a.rhs hd := by
  intro x hxr
  obtain ⟨st, hP, rfl⟩ := Walk.rows_chain_inv hi h hd (fun s => a.A.val *ᵥ s.1 = a.rhs hd)
    (by
      intro s0 h0
      obtain ⟨o', _, h0⟩ := Out.bind_eq_ok.1 h0
      cases h0
      exact hx)
    (by
      intro t st st' hch hs hst
      rcases SparseBarrier.step_cases hst with h1 | ⟨_, Go, hGo, h1⟩
      · rw [h1]; exact hs
      · rw [h1, proposal_ker hE (hG t st.1 st.2.1 st.2.2 hch Go hGo)]
        exact hs) x hxr
  exact hP

/-- The proviso of `C16_barrier`: positive metric and independent rows. -/
theorem C16_barrier_metric {A : Matrix (Fin m) (Fin n) ℝ} (hA : IndepRows A) {G : Fin n → ℝ}
    (hG : ∀ i, 0 < G i) : (scaleCols A (invSqrt G) * (scaleCols A (invSqrt G))ᵀ).PosDef := by
  apply IndepRows.posDef
  apply hA.scaleCols
  intro i
  exact (Real.sqrt_pos.2 (one_div_pos.2 (hG i))).ne'

/-- The metric is positive at points with positive tails, for positive weights and `err > 0`. -/
theorem metricG_pos {ERR : ℝ} (hERR : 0 < ERR) (junk : Fin n → ℝ) {x w : Fin n → ℝ} {k : ℕ}
    (hx : x ∈ TailPos n k) (hw : ∀ i : Fin n, n - k ≤ i.val → 0 < w i) (i : Fin n) :
    0 < metricG ERR junk x w k i := by
  unfold metricG generateSlackInverse
  by_cases hi : isTail k i = true
  · simp only [hi, if_true]
    have h1 := hx i ((isTail_iff i).1 hi)
    have h2 := hw i ((isTail_iff i).1 hi)
    positivity
  · simp only [hi]; simpa using hERR

/-- **C16** for `SparseDikinWalk`: every returned row satisfies `A x = b`, for independent rows, provided
the visited points have positive (not just non-negative) last `k` coordinates. -/
theorem C16_dikin (R ERR : ℝ) (E : Eigen ℝ) (o : BState ℝ) (hERR : 0 < ERR)
    (hE : E.SparseLLTSolveExact) (e : Env ℝ) (a : Args ℝ) (hA : IndepRows a.A.val)
    (hi : SaneInts a.niter a.burnin a.thin) (hd : a.DimsOk) (hx : a.A.val *ᵥ a.x0 hd = a.rhs hd)
    (hpos : ∀ t x, (Walk.sparseBarrier (sparseDikinClass R) ERR E o).PosAt e a hd t x →
      x ∈ TailPos _ a.k.toNat)
    (rows : List (Fin a.A.c → ℝ))
    (h : (Walk.sparseBarrier (sparseDikinClass R) ERR E o).run e a = .ok rows) :
    ∀ x ∈ rows, a.A.val *ᵥ x = a.rhs hd := by
  refine C16_barrier _ ERR E o hE e a hi hd hx ?_ rows h
  intro t x o' g hch Go hGo
  have hxp := hpos t x ⟨_, hch, rfl⟩
  simp only [generateG, sparseDikinClass, Out.ok_bind] at hGo
  rw [dif_pos (by rfl)] at hGo
  cases hGo
  exact C16_barrier_metric hA (metricG_pos hERR _ hxp fun i _ => one_pos)

/-- **C18.** If the initial point is in `{A x = b, last k ≥ 0}` and `A Aᵀ` is nonsingular, every row
returned by `SparseHitAndRun` is in that polytope. -/
theorem C18_feasible (R ERR : ℝ) (E : Eigen ℝ) (hE : E.SparseLUExact) (e : Env ℝ) (hr : e.r.UnitDraws)
    (a : Args ℝ) (hA : IsUnit (a.A.val * a.A.valᵀ).det)
    (hi : SaneInts a.niter a.burnin a.thin) (hd : a.DimsOk)
    (hx : a.x0 hd ∈ PolyEq a.A.val (a.rhs hd) a.k.toNat)
    (rows : List (Fin a.A.c → ℝ)) (h : (Walk.sparseHitRun R ERR E).run e a = .ok rows) :
    ∀ x ∈ rows, x ∈ PolyEq a.A.val (a.rhs hd) a.k.toNat := by
  obtain ⟨k1, k2⟩ := Walk.run_kOk h rfl
  intro x hxr
  refine ⟨C16_hitRun R ERR E hE e a hA hi hd hx.1 rows h x hxr, ?_⟩
  obtain ⟨st, hP, rfl⟩ := Walk.rows_inv hi h hd (fun s => s.1 ∈ TailNonneg _ a.k.toNat)
    (by intro s0 h0; cases h0; exact hx.2)
    (fun s s' hs hst => SparseHitRun.step_cases hr (by omega) (by omega) hs hst) x hxr
  exact hP

end
end PW
