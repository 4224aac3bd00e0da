import Verif.Props.Python
import Verif.Props.DenseWeights

/-!
# C83: the distance term cannot be set from Python
-/

namespace PW
open Matrix

section
variable {F : Type} [Scalar F] {σ π : Type}

/-- **C83** is false for `setDistTerm`. A Python subclass may define it and C++ calls the definition, but nothing it does reaches the member `DIST_TERM`: the walk runs
with the value that member happens to have (on a new object: uninitialised memory). -/
theorem C83_setDistTerm_unset (cls : BarrierClass F σ) (E : Eigen F) (o : σ) (p : π) (f : π → Int → Int → Out π)
    (hf : ∀ p d n, ∃ p', f p d n = .ok p') (e : Env F) :
    (DenseNative.barrier cls E o).virtualCall (some ⟨π, ⟨none, none, some f⟩, p⟩) e =
      (Walk.barrier { cls with setDistTerm := fun o _ _ => .ok o } E o).toDense e := by
  have hs : BarrierSim (PyBarrierWalk cls (⟨none, none, some f⟩ : PyDense F π)) { cls with setDistTerm := fun o _ _ => .ok o } Prod.fst := by
    refine ⟨fun o d n => ?_, fun _ => rfl, fun {m n} o x A b => ?_⟩
    · obtain ⟨p', h⟩ := hf o.2 d n
      simp only [PyBarrierWalk, h, Out.map_ok]
    · simp only [PyBarrierWalk]
      rw [Out.map_map]
      cases cls.generateWeight o.1 x A b <;> rfl
  show (Walk.barrier (PyBarrierWalk cls ⟨none, none, some f⟩) E (o, p)).toDense e = _
  unfold Walk.toDense
  funext niter init A b burnin thin seed
  rw [← hs.run]

/-- **C83**: the same for sparse classes. -/
theorem C83_setDistTerm_unset_sparse (cls : SparseBarrierClass F σ) (ERR : F) (E : Eigen F) (o : σ) (p : π) (f : π → Int → Int → Out π)
    (hf : ∀ p d n, ∃ p', f p d n = .ok p') (e : Env F) :
    (SparseNative.barrier cls ERR E o).virtualCall (some ⟨π, ⟨none, none, some f⟩, p⟩) e =
      (Walk.sparseBarrier { cls with setDistTerm := fun o _ _ => .ok o } ERR E o).toSparse e := by
  have hs : SparseBarrierSim (PySparseBarrierWalk cls (⟨none, none, some f⟩ : PySparse F π)) { cls with setDistTerm := fun o _ _ => .ok o } Prod.fst := by
    refine ⟨fun o d n => ?_, fun _ => rfl, fun {m n} junk o x A k => ?_⟩
    · obtain ⟨p', h⟩ := hf o.2 d n
      simp only [PySparseBarrierWalk, h, Out.map_ok]
    · simp only [PySparseBarrierWalk]
      rw [Out.map_map]
      cases cls.generateWeight junk o.1 x A k <;> rfl
  show (Walk.sparseBarrier (PySparseBarrierWalk cls ⟨none, none, some f⟩) ERR E (o, p)).toSparse e = _
  unfold Walk.toSparse
  funext niter init A b k burnin thin seed
  rw [← hs.run]

/-- **C83**. `BarrierWalk` itself can be constructed but not used: its weights have length 1, so a call with at least one iteration returns only for polytopes with exactly
one constraint. -/
theorem C83_base_barrier (R : F) (E : Eigen F) (o : BState F) (e : Env F) (a : Args F) (hn : 1 ≤ a.niter) (rows : List (Fin a.A.c → F))
    (h : (Walk.barrier (barrierClass R) E o).run e a = .ok rows) : a.A.r = 1 := by
  obtain ⟨hd, s0, s', -, -, h⟩ := Walk.run_ok h
  obtain ⟨t, _, h⟩ := Out.bind_eq_ok.1 h
  obtain ⟨tot, _, h⟩ := Out.bind_eq_ok.1 h
  split at h
  · cases h
  obtain ⟨N, hN⟩ : ∃ N, a.niter.toNat = N + 1 := ⟨a.niter.toNat - 1, by omega⟩
  rw [hN] at h
  obtain ⟨s1, h1, -⟩ := Out.bind_eq_ok.1 h
  obtain ⟨ho, hH, -⟩ := Out.bind_eq_ok.1 (show BarrierWalk.step (barrierClass R) E e.r a.A.val (a.rhs hd) s0 = .ok s1 from h1)
  unfold generateHessian at hH
  obtain ⟨wo, hw, hH⟩ := Out.bind_eq_ok.1 hH
  cases hw
  split at hH
  · rename_i h; exact h.symm
  · cases hH

end

/-- One recorded iteration. -/
theorem runLoop_one {F : Type} [Scalar F] {n : ℕ} {σ : Type} {step : σ → Out σ} {pos : σ → Fin n → F} {s s' : σ} (h : step s = .ok s') :
    runLoop step pos 1 0 1 s = .ok ([pos s'], s') := by
  show (step s).bind _ = _
  rw [h]
  rfl

namespace PyDist

/-- The interval `[-1, 1]`. -/
def A : Matrix (Fin 2) (Fin 1) ℝ := !![1; -1]

/-- Draws: every normal number is `1/2`, every uniform number is `0`. -/
noncomputable def rng : Rng ℝ where
  G := Unit
  N := Unit
  seed _ := ()
  normalInit := ()
  normal _ g := (1 / 2, (), g)
  uniform g := (0, g)

/-- Environment with these draws. -/
noncomputable def env : Env ℝ := ⟨rng, 0, fun _ _ => 0, 0⟩

/-- One iteration from the centre. -/
noncomputable def args : Args ℝ := ⟨1, ⟨1, fun _ => 0⟩, ⟨2, 1, A⟩, ⟨2, fun _ => 1⟩, 0, 0, 1, 7⟩

theorem indep : IndepCols A := by
  intro v hv
  funext i
  have := congrFun hv 0
  simp [A, mulVec, dotProduct] at this
  rw [Subsingleton.elim i 0]
  exact this

theorem mem {t : ℝ} (ht : |t| ≤ 1) : (fun _ : Fin 1 => t) ∈ Poly A fun _ => 1 := by
  intro i
  rw [abs_le] at ht
  fin_cases i <;> simp [A, mulVec, dotProduct] <;> linarith

theorem interior {t : ℝ} (ht : |t| < 1) : (fun _ : Fin 1 => t) ∈ Interior A fun _ => 1 := by
  intro i
  rw [abs_lt] at ht
  fin_cases i <;> simp [A, mulVec, dotProduct] <;> linarith

/-- The Dikin walk with the distance term left at `D`. -/
noncomputable def walk (D : ℝ) : Walk ℝ := .barrier { dikinClass (1 : ℝ) with setDistTerm := fun o _ _ => .ok o } exactEigen (BState.fresh D)

theorem hess_zero : hessianOf (fun _ => 1) (fun _ : Fin 1 => (0 : ℝ)) A (fun _ => 1) 0 0 = 2 := by
  rw [hessianOf_real, Matrix.mul_apply, Fin.sum_univ_two]
  simp [Matrix.mul_diagonal, A]
  norm_num

/-- The Dikin walk class with the distance term left alone. -/
noncomputable abbrev cls : BarrierClass ℝ (BState ℝ) := { dikinClass (1 : ℝ) with setDistTerm := fun o _ _ => .ok o }

theorem proposal_eq (D : ℝ) : BarrierWalk.proposal exactEigen D (hessianOf (fun _ => 1) (fun _ : Fin 1 => (0 : ℝ)) A fun _ => 1) (fun _ => 0) (fun _ => 1 / 2) =
    fun _ => Real.sqrt D * (1 / 2 / Real.sqrt 2) := by
  obtain ⟨-, hL⟩ := C26_posDef exactEigen exactEigen_exact.llt (fun _ => 1) (fun _ => one_pos) (fun _ : Fin 1 => (0 : ℝ)) A (fun _ => 1) indep
    (interior (by norm_num))
  set H := hessianOf (fun _ => 1) (fun _ : Fin 1 => (0 : ℝ)) A fun _ => 1 with hH
  set L := exactEigen.lltL H with hLdef
  have h1 : L 0 0 * L 0 0 = 2 := by
    have := congrFun (congrFun hL.mul_eq 0) 0
    rw [Matrix.mul_apply, Fin.sum_univ_one, Matrix.transpose_apply, hH, hess_zero] at this
    exact this
  have h2 : L 0 0 = Real.sqrt 2 := by
    rw [← h1, Real.sqrt_mul_self (hL.diag_pos 0).le]
  have h3 := congrFun (exactEigen_exact.lu L (fun _ => 1 / 2) (by rw [Matrix.det_fin_one]; exact (hL.diag_pos 0).ne'.isUnit)) 0
  rw [Matrix.mulVec, dotProduct, Fin.sum_univ_one, h2] at h3
  funext i
  rw [Subsingleton.elim i 0]
  show 0 + Real.sqrt D * exactEigen.luSolve L (fun _ => 1 / 2) 0 = _
  rw [zero_add, eq_div_of_mul_eq (Real.sqrt_pos.2 two_pos).ne' ((mul_comm _ _).trans h3)]

/-- The row returned is `sqrt(D) / (2 sqrt 2)` as long as that is in the interval. -/
theorem run_eq (D : ℝ) (hD : Real.sqrt D * (1 / 2 / Real.sqrt 2) ≤ 1) :
    (walk D).run env args = .ok [fun _ => Real.sqrt D * (1 / 2 / Real.sqrt 2)] := by
  have h0 : 0 ≤ Real.sqrt D * (1 / 2 / Real.sqrt 2) := by positivity
  have hstep : BarrierWalk.step cls exactEigen rng A (fun _ => 1) (fun _ : Fin 1 => (0 : ℝ), BState.fresh D, ()) =
      .ok (fun _ => Real.sqrt D * (1 / 2 / Real.sqrt 2), BState.fresh D, ()) := by
    have hH : ∀ x, generateHessian cls (BState.fresh D) x A (fun _ => 1) = .ok (hessianOf (fun _ => 1) x A fun _ => 1, BState.fresh D) := fun x => rfl
    unfold BarrierWalk.step BarrierWalk.generateSample
    simp only [hH, Out.ok_bind]
    have hp : BarrierWalk.proposal exactEigen (cls.distTerm (BState.fresh D)) (hessianOf (fun _ => 1) (fun _ : Fin 1 => (0 : ℝ)) A fun _ => 1) (fun _ => 0)
        (rng.gaussian 1 ()).1 = fun _ => Real.sqrt D * (1 / 2 / Real.sqrt 2) := proposal_eq D
    have hin : inPolytope (fun _ : Fin 1 => Real.sqrt D * (1 / 2 / Real.sqrt 2)) A (fun _ => 1) = .ok true := by
      rw [inPolytope_real _ _ _ two_pos]
      exact congrArg _ (decide_eq_true (mem (by rwa [abs_of_nonneg h0])))
    rw [hp, hin]
    simp only [Out.ok_bind, Bool.not_true, Bool.false_eq_true, if_false]
    have hacc : ∀ g g', mhAccept g g' (rng.uniform (rng.gaussian 1 ()).2).1 = true := fun g g' => (C33_real g g' 0).1.2 (lt_min one_pos (Real.exp_pos _))
    rw [if_pos (hacc _ _)]
    rfl
  have h1 : (walk D).run env args = ((runLoop (BarrierWalk.step cls exactEigen rng A fun _ => 1) Prod.fst 1 0 1
      (fun _ : Fin 1 => (0 : ℝ), BState.fresh D, ())).map fun p => (p.1, p.2.2.1)).map Prod.fst := rfl
  rw [h1, runLoop_one hstep]
  rfl

end PyDist

/-- **C83** is false for `setDistTerm`, concretely: a Python subclass of `DikinWalk` whose `setDistTerm` does whatever Python code can do returns, for the same seed and the
same arguments on `[-1, 1]`, the row `0` if the memory of the new object held `0` and the row `1/2` if it held `2`. -/
theorem C83_setDistTerm_junk (π : Type) (p : π) (f : π → Int → Int → Out π) (hf : ∀ p d n, ∃ p', f p d n = .ok p') :
    let call := fun junk => (DenseNative.barrier (dikinClass (1 : ℝ)) exactEigen (BState.fresh junk)).virtualCall (some ⟨π, ⟨none, none, some f⟩, p⟩) PyDist.env 1
      ⟨1, fun _ => 0⟩ ⟨2, 1, PyDist.A⟩ ⟨2, fun _ => 1⟩ 0 1 7
    call 0 = .ok ⟨1, [fun _ => 0]⟩ ∧ call 2 = .ok ⟨1, [fun _ => 1 / 2]⟩ := by
  have h2 : Real.sqrt 2 * (1 / 2 / Real.sqrt 2) = 1 / 2 := by
    have : Real.sqrt 2 ≠ 0 := (Real.sqrt_pos.2 two_pos).ne'
    field_simp
  refine ⟨?_, ?_⟩
  · show (DenseNative.barrier _ _ _).virtualCall _ _ _ _ _ _ _ _ _ = _
    rw [C83_setDistTerm_unset _ _ _ _ f hf]
    show ((PyDist.walk 0).run PyDist.env PyDist.args).map _ = _
    rw [PyDist.run_eq 0 (by rw [Real.sqrt_zero, zero_mul]; exact zero_le_one), Real.sqrt_zero, zero_mul]
    rfl
  · show (DenseNative.barrier _ _ _).virtualCall _ _ _ _ _ _ _ _ _ = _
    rw [C83_setDistTerm_unset _ _ _ _ f hf]
    show ((PyDist.walk 2).run PyDist.env PyDist.args).map _ = _
    rw [PyDist.run_eq 2 (by rw [h2]; norm_num), h2]
    rfl

/-! ## Weights defined in Python for a class with a distance term -/

section
open MeasureTheory Set
open scoped ENNReal
variable {m n d : ℕ}

/-- **C83**. Weights defined in Python for `SparseDikinWalk` do what a user expects: if they are a measurable function of the point, positive on the constrained coordinates, the
rows converge in law to the uniform distribution (C80; `SparseDikinWalk` sets the distance term to `r²/d > 0`). -/
theorem C83_sparse_converges (R : ℝ) (hr : 0 < R) (E : Eigen ℝ) (hE : E.Exact) (ERR : ℝ) (hR : 0 < ERR) {A : Matrix (Fin m) (Fin n) ℝ} (hA : IndepRows A) (hmn : m < n)
    (k : Int) (hk : 1 ≤ k ∧ k ≤ n) (f : (m n : ℕ) → PyMethod Unit ((Fin n → ℝ) × Matrix (Fin m) (Fin n) ℝ × ℕ) (DVec ℝ))
    {wf : (Fin n → ℝ) → Fin n → ℝ} (hf : ∀ x ∈ TailPos n k.toNat, (f m n).callsSuper () (x, A, k.toNat) = false ∧
      (f m n).result () (x, A, k.toNat) none = .ok (⟨n, wf x⟩, ()))
    (hwm : Measurable wf) (hwp : ∀ x ∈ TailPos n k.toNat, ∀ i : Fin n, n - k.toNat ≤ i.val → 0 < wf x i)
    (b : Fin m → ℝ) (hb : ∃ M, ∀ y ∈ PolyEq A b k.toNat, ∀ i, |y i| ≤ M) (x₀ : Fin n → ℝ)
    (hx₀A : A *ᵥ x₀ = b) (hx₀ : x₀ ∈ TailPos n k.toNat) (B : Matrix (Fin n) (Fin d) ℝ) (hB : IsKernelBasis A B)
    (x : Fin n → ℝ) (hxA : A *ᵥ x = b) (hx : x ∈ TailPos n k.toNat) (ε : ℝ) (hε : 0 < ε) :
    ∃ t₀ : ℕ, ∀ o, ∀ (e : Env ℝ) [MeasurableSpace e.r.G] (μ : Measure e.r.G), IdealSource e.r μ → ∀ seed : Int, ∀ t ≥ t₀,
      LawWithin (.sparseBarrier (PySparseBarrierWalk (sparseDikinClass R) ⟨none, some f, none⟩) ERR E (o, ())) e μ A b x k seed
        (uniformOnEq x₀ B k.toNat) t ε := by
  have hD : (0 : ℝ) < R * R / (((n : Int) - m : Int) : ℝ) := by
    have : (0 : ℝ) < (((n : Int) - m : Int) : ℝ) := by
      have : (0 : Int) < (n : Int) - m := by omega
      exact_mod_cast this
    positivity
  obtain ⟨t₀, h⟩ := C80_rows (PySparseBarrierWalk (sparseDikinClass R) ⟨none, some f, none⟩) E hE ERR hR hA k hk hD hwm hwp b hb x₀ hx₀A hx₀ B hB x hxA hx ε hε
  refine ⟨t₀, fun o e _ μ hs seed t ht => h (o, ()) ⟨({ o with dist := R * R / (((n : Int) - m : Int) : ℝ) }, ()), rfl, rfl, fun junk y hy => ?_⟩ e μ hs seed t ht⟩
  obtain ⟨h1, h2⟩ := hf y hy
  simp only [PySparseBarrierWalk, PyMethod.call, h1, h2, Bool.false_eq_true, if_false, Out.map_ok]

end

end PW
