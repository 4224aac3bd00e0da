import Verif.Props.PythonDist
import Verif.Props.Examples

/-!
# C83: runs that return, and concrete cases
-/

namespace PW

/-- **C83**. A subclass of `SparseBarrierWalk` that defines (only) `generateWeight`, as a function of its arguments returning one weight per variable, returns normally in
every arithmetic. (In exact arithmetic all its rows are the initial point: `C83_sparse_stuck`.) -/
theorem C83_sparse_returns {F : Type} [Scalar F] {π : Type} (ERR : F) (E : Eigen F) (o : BState F) (p : π)
    (f : (m n : ℕ) → PyMethod π ((Fin n → F) × Matrix (Fin m) (Fin n) F × ℕ) (DVec F))
    (wf : {m n : ℕ} → (Fin n → F) → Matrix (Fin m) (Fin n) F → ℕ → Fin n → F) (hf : ∀ m n, (f m n).Computes fun a => ⟨n, wf a.1 a.2.1 a.2.2⟩) (e : Env F)
    (a : Args F) (hg : GoodInts a.niter a.burnin a.thin) (hd : a.DimsOk) (hk : a.KOk) :
    ∃ S, (SparseNative.barrier sparseBarrierClass ERR E o).virtualCall (some ⟨π, ⟨none, some f, none⟩, p⟩) e a.niter a.init a.A a.b a.k a.burnin a.thin a.seed =
      .ok S ∧ (S.rows.length : Int) = (a.niter - a.burnin) / a.thin := by
  rw [C83_weight_sparse sparseBarrierClass ERR E o p f (fun {_ n} x A k => ⟨n, wf x A k⟩) hf]
  have hk' := hk
  set w : Walk F := .sparseBarrier { sparseBarrierClass with generateWeight := fun {_ n} _ o x A k => .ok (⟨n, wf x A k⟩, o) } ERR E o with hw
  obtain ⟨s, hs, -⟩ := iter_completes (step := Walk.step w e a.A.val (a.rhs hd) a.k)
    (I := fun _ => True) (fun s _ => sparseBarrier_step_completes (J := fun _ => True)
      (by have := hk.1; omega) (by have := hk.2; omega)
      (fun o x _ => ⟨wf x a.A.val a.k.toNat, o, rfl, trivial⟩) ERR E e.r s trivial) a.niter.toNat
      (s := (a.x0 hd, { o with dist := 0 }, e.r.initRng a.seed e.rd)) trivial
  have hc : w.chain e a hd a.niter.toNat = .ok s := hs
  have h1 := C01_recording_total w e a hg hd (fun _ => hk)
  rw [hc] at h1
  cases hr : w.run e a with
  | ok rows =>
    have h2 := C01_shape w e a hg rows hr
    refine ⟨⟨_, rows⟩, ?_, h2⟩
    show (w.run e a).map _ = _
    rw [hr]; rfl
  | throws _ => rw [hr] at h1; cases h1
  | ub _ => rw [hr] at h1; cases h1
  | timeout => rw [hr] at h1; cases h1

end PW

namespace PW.RealToy
open PW Matrix

/-- `class W(SparseBarrierWalk)` with `def generateWeight(self, x, A, k): self.calls += 1; return 1 + x**2`. -/
noncomputable def squares (m n : ℕ) : PyMethod ℕ ((Fin n → ℝ) × Matrix (Fin m) (Fin n) ℝ × ℕ) (DVec ℝ) where
  callsSuper _ _ := false
  result calls a _ := .ok (⟨n, fun i => 1 + a.1 i * a.1 i⟩, calls + 1)

theorem squares_computes (m n : ℕ) : (squares m n).Computes fun a => ⟨n, fun i => 1 + a.1 i * a.1 i⟩ := fun calls _ => ⟨rfl, calls + 1, rfl⟩

/-- A run on the segment returns two rows (`SparseUserLaw` shows that these weights sample the uniform distribution if the distance term is positive); both are the starting
point. -/
example : ∃ S, (SparseNative.barrier sparseBarrierClass 1 exactEigen (BState.fresh 0)).virtualCall (some ⟨ℕ, ⟨none, some squares, none⟩, 0⟩) env
      10 ⟨2, midpoint2⟩ ⟨1, 2, rowOnes⟩ ⟨1, fun _ => 1⟩ 2 2 3 42 = .ok S ∧ S.rows.length = 2 ∧
    S.c = 2 ∧ ∀ x ∈ S.rows, ∀ (j : Fin S.c) (hj : j.val < 2), x j = midpoint2 ⟨j, hj⟩ := by
  obtain ⟨S, h, hl⟩ := C83_sparse_returns (π := ℕ) 1 exactEigen (BState.fresh 0) 0 squares (fun x _ _ i => 1 + x i * x i) squares_computes env segArgs segInts
    segDims segK
  refine ⟨S, h, ?_, C83_sparse_stuck 1 exactEigen (BState.fresh 0) _ (fun π s p hs => ?_) env _ _ _ _ _ _ _ _ segInts.sane S h⟩
  · have : (S.rows.length : Int) = (10 - 2) / 3 := hl
    norm_num at this
    exact_mod_cast this
  · cases hs; exact ⟨rfl, rfl⟩

/-- A Python subclass of `BallWalk` whose `generateCompleteWalk` returns one fixed row `(7, 7)`, outside the triangle: Python code gets that row; C++ code gets rows of
the triangle. -/
example : ∃ s : PyDense ℝ Unit,
    (DenseNative.ball (1 : ℝ)).pythonCall (some ⟨Unit, s, ()⟩) env 10 ⟨2, triX⟩ ⟨3, 2, triA⟩ ⟨3, triB⟩ 2 3 42 = .ok ⟨2, [fun _ => 7]⟩ ∧
    ∃ rows : List (Fin 2 → ℝ), (DenseNative.ball (1 : ℝ)).virtualCall (some ⟨Unit, s, ()⟩) env 10 ⟨2, triX⟩ ⟨3, 2, triA⟩ ⟨3, triB⟩ 2 3 42 = .ok ⟨2, rows⟩ ∧
      rows.length = 2 ∧ ∀ x ∈ rows, x ∈ Poly triA triB := by
  obtain ⟨rows, h⟩ := C54_returns (Walk.ball 1) env triArgs (.ball _ (by norm_num [triArgs])) triInts triDims (fun h => by cases h)
  refine ⟨⟨some fun _ _ _ _ _ _ _ => .ok ⟨2, [fun _ => 7]⟩, none, none⟩, ?_, rows, ?_, ?_, ?_⟩
  · rw [(((C83_ball_ignored (1 : ℝ) 0 exactEigen env Unit ()).1 _).2.2 _ rfl).1]
  · rw [((C83_ball_ignored (1 : ℝ) 0 exactEigen env Unit ()).1 _).1]
    show ((Walk.ball 1).run env triArgs).map _ = _
    rw [h]; rfl
  · have h1 : (rows.length : Int) = (10 - 2) / 3 := C01_shape _ env triArgs triInts rows h
    norm_num at h1
    exact_mod_cast h1
  · exact C10_feasible _ (.ball _) env triArgs triInts.sane triDims triX_mem rows h

/-- A subclass of `JohnWalk` that doubles the weights and counts the calls: `self.calls += 1; return 2 * super().generateWeight(x, A, b)`. -/
example : (DenseNative.barrier (johnClass exactEigen 1 (1 / 100) 50) exactEigen (BState.fresh (0 : ℝ))).virtualCall
      (some ⟨ℕ, ⟨none, some fun _ _ => ⟨fun _ _ => true, fun calls _ w => (match w with
        | some w => .ok (⟨w.n, fun i => 2 * w.val i⟩, calls + 1) | none => .throws .python)⟩, none⟩, 0⟩) env =
    (Walk.barrier { johnClass exactEigen 1 (1 / 100) 50 with generateWeight := fun o x A b =>
      ((johnClass exactEigen 1 (1 / 100) 50).generateWeight o x A b).map fun q => (⟨q.1.n, fun i => 2 * q.1.val i⟩, q.2) } exactEigen (BState.fresh (0 : ℝ))).toDense env :=
  C83_super_dense _ _ _ _ _ (fun _ _ _ w => ⟨w.n, fun i => 2 * w.val i⟩) (fun _ _ _ _ => ⟨rfl, fun _ => ⟨_, rfl⟩⟩) env

/-- The same override in a subclass of `DikinWalk` is honoured. -/
example (f : DenseWalk ℝ) : (DenseNative.barrier (dikinClass (1 : ℝ)) exactEigen (BState.fresh 0)).virtualCall (some ⟨Unit, ⟨some f, none, none⟩, ()⟩) env = f :=
  (C83_override_dense_partial _ (fun _ h => by cases h) (fun _ _ h => by cases h) _ env).2 _ _ _ f rfl rfl

end PW.RealToy

namespace PW
open Matrix

/-- Weights `1 + x²` defined in Python for `SparseDikinWalk`, on the triangle `x + y + z = 1, x, y, z ≥ 0`: the share of runs with `x ≤ 1/2` at iteration `t` tends to the area
share of that part of the triangle. -/
example (ε : ℝ) (hε : 0 < ε) (x : Fin 3 → ℝ) (hxA : ones3 *ᵥ x = fun _ => 1) (hx : x ∈ TailPos 3 3) :
    ∃ t₀ : ℕ, ∀ t ≥ t₀,
      |(pathProb (.sparseBarrier (PySparseBarrierWalk (sparseDikinClass (1 : ℝ)) ⟨none, some (fun m n => (⟨fun _ _ => false,
          fun _ a _ => .ok (⟨n, fun i => 1 + a.1 i * a.1 i⟩, ())⟩ : PyMethod Unit ((Fin n → ℝ) × Matrix (Fin m) (Fin n) ℝ × ℕ) (DVec ℝ))), none⟩) 1 exactEigen
            (BState.fresh 0, ())) streamEnv streamLaw (callArgs ones3 (fun _ => 1) x 100 3 0 1 7) ⟨rfl, rfl⟩ {p | p t (0 : Fin 3) ≤ 1 / 2}).toReal -
          share (uniformOnEq (fun _ => 1 / 3) simplexBasis 3) {y | y (0 : Fin 3) ≤ 1 / 2}| ≤ ε := by
  obtain ⟨t₀, h⟩ := C83_sparse_converges 1 one_pos exactEigen exactEigen_exact 1 one_pos ones3_indep (by norm_num) 3 ⟨by decide, by decide⟩
    (fun m n => (⟨fun _ _ => false, fun _ a _ => .ok (⟨n, fun i => 1 + a.1 i * a.1 i⟩, ())⟩ : PyMethod Unit ((Fin n → ℝ) × Matrix (Fin m) (Fin n) ℝ × ℕ) (DVec ℝ)))
    (wf := fun x i => 1 + x i * x i) (fun x _ => ⟨rfl, rfl⟩)
    (measurable_pi_lambda _ fun i => measurable_const.add ((measurable_pi_apply i).mul (measurable_pi_apply i)))
    (fun x _ i _ => by have := mul_self_nonneg (x i); linarith)
    (fun _ => 1) simplex_bdd (fun _ => 1 / 3) simplex_start (by intro i _; show (0 : ℝ) < 1 / 3; norm_num) simplexBasis ones3_kernel x hxA hx ε hε
  exact ⟨t₀, fun t ht => (h (BState.fresh 0) streamEnv streamLaw streamRng_ideal 7 t ht 100 0 1 _
    (measurableSet_le (measurable_pi_apply (0 : Fin 3)) measurable_const)).1⟩

/-- `BarrierWalk` on a half line (one constraint) does return: the hypothesis of `C83_base_barrier` can be met. -/
example (E : Eigen ℝ) (e : Env ℝ) : ∃ rows, (Walk.barrier (barrierClass (1 : ℝ)) E (BState.fresh 0)).run e
    ⟨1, ⟨1, fun _ => 0⟩, ⟨1, 1, fun _ _ => 1⟩, ⟨1, fun _ => 1⟩, 0, 0, 1, 7⟩ = .ok rows := by
  obtain ⟨s', hs, -⟩ := barrier_step_completes (cls := barrierClass (1 : ℝ)) (J := fun _ => True) (m := 1) (n := 1) le_rfl (A := fun _ _ => 1) (b := fun _ => 1)
    (fun o x _ => ⟨_, o, rfl, trivial⟩) E e.r (fun _ => 0, { BState.fresh (0 : ℝ) with dist := 1 * 1 / Scalar.ofInt ((1 : ℕ) : Int) }, e.r.initRng 7 e.rd) trivial
  have h1 : (Walk.barrier (barrierClass (1 : ℝ)) E (BState.fresh 0)).run e ⟨1, ⟨1, fun _ => 0⟩, ⟨1, 1, fun _ _ => 1⟩, ⟨1, fun _ => 1⟩, 0, 0, 1, 7⟩ =
      ((runLoop (BarrierWalk.step (barrierClass (1 : ℝ)) E e.r (fun _ _ => 1) fun _ => 1) Prod.fst 1 0 1
        (fun _ : Fin 1 => (0 : ℝ), { BState.fresh (0 : ℝ) with dist := 1 * 1 / Scalar.ofInt ((1 : ℕ) : Int) }, e.r.initRng 7 e.rd)).map
          fun p => (p.1, p.2.2.1)).map Prod.fst := rfl
  rw [h1, runLoop_one hs]
  exact ⟨_, rfl⟩

end PW
