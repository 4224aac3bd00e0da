import Verif.Props.Sampling
import Verif.Spec.Completes
import Verif.Spec.Toy
import Verif.Lemmas.Membership

/-!
# C54: Ball and barrier walks always return

In any arithmetic (NaNs and infinities included), for every outcome of the decompositions.
-/

namespace PW
section
variable {F : Type} [Scalar F]

theorem iter_completes {σ : Type} {step : σ → Out σ} {I : σ → Prop} (h : ∀ s, I s → ∃ s', step s = .ok s' ∧ I s')
    (t : ℕ) {s : σ} (hs : I s) : ∃ s', iter step t s = .ok s' ∧ I s' := by
  induction t with
  | zero => exact ⟨s, rfl, hs⟩
  | succ t ih =>
    obtain ⟨s1, h1, h2⟩ := ih
    obtain ⟨s2, h3, h4⟩ := h s1 h2
    exact ⟨s2, by rw [iter, h1, Out.ok_bind, h3], h4⟩

theorem maxCoeff_completes {n : ℕ} (hn : 1 ≤ n) (v : Fin n → F) : ∃ c, maxCoeff v = .ok c := by
  cases n with
  | zero => omega
  | succ n => exact ⟨_, rfl⟩

theorem minCoeff_completes {n : ℕ} (hn : 1 ≤ n) (v : Fin n → F) : ∃ c, minCoeff v = .ok c := by
  cases n with
  | zero => omega
  | succ n => exact ⟨_, rfl⟩

theorem inPolytope_completes {m n : ℕ} (hm : 1 ≤ m) (x : Fin n → F) (A : Matrix (Fin m) (Fin n) F) (b : Fin m → F) :
    ∃ c, inPolytope x A b = .ok c := by
  obtain ⟨c, hc⟩ := maxCoeff_completes hm fun i => mulVec A x i - b i
  exact ⟨_, by rw [inPolytope, hc, Out.ok_bind]⟩

theorem inPolytopeK_completes {n k : ℕ} (hk : 1 ≤ k) (hkn : k ≤ n) (x : Fin n → F) :
    ∃ c, inPolytopeK x k = .ok c := by
  unfold inPolytopeK tail
  rw [dif_pos hkn, Out.ok_bind]
  obtain ⟨c, hc⟩ := minCoeff_completes hk fun i : Fin k => x ⟨n - k + i.val, by omega⟩
  exact ⟨_, by rw [hc, Out.ok_bind]⟩

/-- A dense barrier step completes whenever the weights do. -/
theorem barrier_step_completes {σ : Type} {cls : BarrierClass F σ} {J : σ → Prop} {m n : ℕ} (hm : 1 ≤ m)
    {A : Matrix (Fin m) (Fin n) F} {b : Fin m → F}
    (hw : ∀ o x, J o → ∃ (w : Fin m → F) (o' : σ), cls.generateWeight o x A b = .ok (⟨m, w⟩, o') ∧ J o')
    (E : Eigen F) (r : Rng F) (s : (Fin n → F) × σ × r.G) (hs : J s.2.1) :
    ∃ s', BarrierWalk.step cls E r A b s = .ok s' ∧ J s'.2.1 := by
  have hH : ∀ o x, J o → ∃ H o', generateHessian cls o x A b = .ok (H, o') ∧ J o' := fun o x ho => by
    obtain ⟨w, o', h1, h2⟩ := hw o x ho
    exact ⟨_, o', by rw [generateHessian, h1, Out.ok_bind, dif_pos rfl], h2⟩
  obtain ⟨H, o1, h1, hJ1⟩ := hH s.2.1 s.1 hs
  simp only [BarrierWalk.step, BarrierWalk.generateSample]
  rw [h1, Out.ok_bind]
  obtain ⟨c, hc⟩ := inPolytope_completes hm
    (BarrierWalk.proposal E (cls.distTerm o1) H s.1 (r.gaussian n s.2.2).1) A b
  simp only [hc, Out.ok_bind]
  cases c
  · exact ⟨_, rfl, hJ1⟩
  · obtain ⟨H2, o2, h2, hJ2⟩ := hH o1
      (BarrierWalk.proposal E (cls.distTerm o1) H s.1 (r.gaussian n s.2.2).1) hJ1
    simp only [Bool.not_true, Bool.false_eq_true, if_false, h2, Out.ok_bind]
    exact ⟨_, rfl, hJ2⟩

/-- A sparse barrier step completes whenever the weights do. -/
theorem sparseBarrier_step_completes {σ : Type} {cls : SparseBarrierClass F σ} {J : σ → Prop} {m n k : ℕ}
    (hk : 1 ≤ k) (hkn : k ≤ n) {A : Matrix (Fin m) (Fin n) F} {junk : Fin n → F}
    (hw : ∀ o x, J o → ∃ (w : Fin n → F) (o' : σ), cls.generateWeight junk o x A k = .ok (⟨n, w⟩, o') ∧ J o')
    (ERR : F) (E : Eigen F) (r : Rng F) (s : (Fin n → F) × σ × r.G) (hs : J s.2.1) :
    ∃ s', SparseBarrier.step cls ERR E r junk A k s = .ok s' ∧ J s'.2.1 := by
  have hG : ∀ o x, J o → ∃ G o', generateG cls ERR junk o x A k = .ok (G, o') ∧ J o' := fun o x ho => by
    obtain ⟨w, o', h1, h2⟩ := hw o x ho
    exact ⟨_, o', by rw [generateG, h1, Out.ok_bind, dif_pos rfl], h2⟩
  obtain ⟨G, o1, h1, hJ1⟩ := hG s.2.1 s.1 hs
  simp only [SparseBarrier.step, SparseBarrier.generateSample]
  rw [if_neg (by omega), h1, Out.ok_bind, Out.ok_bind]
  obtain ⟨c, hc⟩ := inPolytopeK_completes hk hkn
    (SparseBarrier.proposal E (cls.distTerm o1) G A s.1 (r.gaussian n s.2.2).1)
  simp only [hc, Out.ok_bind]
  cases c
  · exact ⟨_, rfl, hJ1⟩
  · obtain ⟨G2, o2, h2, hJ2⟩ := hG o1 s.1 hJ1
    obtain ⟨G3, o3, h3, hJ3⟩ := hG o2
      (SparseBarrier.proposal E (cls.distTerm o1) G A s.1 (r.gaussian n s.2.2).1) hJ2
    simp only [if_true, SparseBarrier.generateProposalDensity, h2, h3, Out.ok_bind]
    exact ⟨_, rfl, hJ3⟩

theorem warmStart_completes {w : DVec F} (h : 0 < w.n) (m : ℕ) : ∃ w0, warmStart w m = .ok w0 := by
  unfold warmStart
  rw [dif_pos h]
  split
  · split <;> exact ⟨_, rfl⟩
  · exact ⟨_, rfl⟩

theorem johnLoop_completes {m : ℕ} (hm : 1 ≤ m) (next : (Fin m → F) → Fin m → F)
    (diff : (Fin m → F) → (Fin m → F) → Fin m → F) (LIM : F) (k : ℕ) (w nw : Fin m → F) :
    ∃ p, johnLoop next diff LIM k w nw = .ok p := by
  induction k generalizing w nw with
  | zero => exact ⟨_, rfl⟩
  | succ k ih =>
    obtain ⟨c, hc⟩ := maxCoeff_completes hm (diff (next nw) nw)
    simp only [johnLoop, hc, Out.ok_bind]
    split
    · exact ⟨_, rfl⟩
    · exact ih _ _

/-- **C54**, iteration by iteration: the chain of a Ball or barrier walk never gets stuck. -/
theorem C54_chain (w : Walk F) (e : Env F) (a : Args F) (hw : w.NeedsMet a) (hd : a.DimsOk)
    (hk : w.isSparse = true → a.KOk) (t : ℕ) : ∃ st, w.chain e a hd t = .ok st := by
  unfold Walk.chain
  cases hw with
  | ball R hm =>
    obtain ⟨s, hs, -⟩ := iter_completes (step := Walk.step (.ball R) e a.A.val (a.rhs hd) a.k)
      (I := fun _ => True) (fun s _ => by
        simp only [Walk.step, BallWalk.step]
        obtain ⟨c, hc⟩ := inPolytope_completes hm (fun i => (e.r.gaussianNorm a.A.c s.2).1 i * R /
          Scalar.sqrt (Scalar.ofInt a.A.c) + s.1 i) a.A.val (a.rhs hd)
        simp only [hc, Out.ok_bind]
        cases c <;> exact ⟨_, rfl, trivial⟩) t (s := (a.x0 hd, e.r.initRng a.seed e.rd)) trivial
    exact ⟨s, hs⟩
  | dikin R E o hm =>
    obtain ⟨s, hs, -⟩ := iter_completes (step := Walk.step (.barrier (dikinClass R) E o) e a.A.val (a.rhs hd) a.k)
      (I := fun _ => True) (fun s _ => barrier_step_completes (J := fun _ => True) hm
        (fun o x _ => ⟨fun _ => 1, o, rfl, trivial⟩) E e.r s trivial) t
        (s := (a.x0 hd, { o with dist := R * R / Scalar.ofInt a.A.c }, e.r.initRng a.seed e.rd)) trivial
    exact ⟨s, hs⟩
  | vaidya R E o hm hi =>
    obtain ⟨s, hs, -⟩ := iter_completes
      (step := Walk.step (.barrier (vaidyaClass E R) E o) e a.A.val (a.rhs hd) a.k)
      (I := fun _ => True) (fun s _ => barrier_step_completes (J := fun _ => True) hm
        (fun o x _ => ⟨_, o, rfl, trivial⟩) E e.r s trivial) t
        (s := (a.x0 hd, { o with dist := R * R / Scalar.sqrt (Scalar.ofInt ((a.A.c : Int) * a.A.r)) },
          e.r.initRng a.seed e.rd)) trivial
    refine ⟨s, ?_⟩
    have : Walk.start (.barrier (vaidyaClass E R) E o) e a.A.r (a.x0 hd) a.k a.seed = .ok (a.x0 hd,
        { o with dist := R * R / Scalar.sqrt (Scalar.ofInt ((a.A.c : Int) * a.A.r)) },
          e.r.initRng a.seed e.rd) := by
      simp only [Walk.start, vaidyaClass, toInt, if_pos hi, Out.ok_bind]
    rw [this]; exact hs
  | john R LIM MAXITER E o hm hn =>
    obtain ⟨s, hs, -⟩ := iter_completes
      (step := Walk.step (.barrier (johnClass E R LIM MAXITER) E o) e a.A.val (a.rhs hd) a.k)
      (I := fun s => 0 < s.2.1.w.n) (fun s hs => barrier_step_completes (cls := johnClass E R LIM MAXITER) (J := fun o => 0 < o.w.n) hm
        (fun o x ho => by
          obtain ⟨w0, hw0⟩ := warmStart_completes ho a.A.r
          simp only [johnClass, johnWeightConv, johnAlpha, if_neg (show ¬ a.A.c = 0 by omega), Out.ok_bind, hw0]
          obtain ⟨p, hp⟩ := johnLoop_completes hm
            (johnNext E (1 - 1 / Scalar.log2 (Scalar.ofInt ((2 * a.A.r / a.A.c : ℕ) : Int))) (johnBeta a.A.r a.A.c)
              (scaledA x a.A.val (a.rhs hd))) (fun nw w i => Scalar.abs (nw i - w i)) LIM MAXITER.toNat w0 w0
          rw [hp, Out.map_ok]
          exact ⟨_, _, rfl, hm⟩) E e.r s hs) t
        (s := (a.x0 hd, ⟨R * R / Scalar.pow (Scalar.ofInt a.A.c) (Scalar.ofInt 3 / Scalar.ofInt 2), ones a.A.r⟩,
          e.r.initRng a.seed e.rd)) hm
    exact ⟨s, hs⟩
  | dikinLS R GLIM STEP MAXITER E o hm =>
    obtain ⟨s, hs, -⟩ := iter_completes
      (step := Walk.step (.barrier (dikinLSClass E R GLIM STEP MAXITER) E o) e a.A.val (a.rhs hd) a.k)
      (I := fun s => 0 < s.2.1.w.n) (fun s hs => barrier_step_completes (cls := dikinLSClass E R GLIM STEP MAXITER)
        (J := fun o => 0 < o.w.n) hm
        (fun o x ho => by
          obtain ⟨w0, hw0⟩ := warmStart_completes ho a.A.r
          simp only [dikinLSClass, lsWeightConv, Out.ok_bind, hw0, Out.map_ok]
          exact ⟨_, _, rfl, hm⟩) E e.r s hs) t
        (s := (a.x0 hd, ⟨R * R / ((1 + lsQ a.A.r) * (1 + lsQ a.A.r * lsQ a.A.r)), ones a.A.r⟩,
          e.r.initRng a.seed e.rd)) hm
    exact ⟨s, hs⟩
  | sparseBall R E =>
    have hk := hk rfl
    obtain ⟨s, hs, -⟩ := iter_completes (step := Walk.step (.sparseBall R E) e a.A.val (a.rhs hd) a.k)
      (I := fun _ => True) (fun s _ => by
        simp only [Walk.step, SparseBallWalk.step]
        obtain ⟨c, hc⟩ := inPolytopeK_completes (k := a.k.toNat) (by have := hk.1; omega) (by have := hk.2; omega)
          (fun i => R / Scalar.sqrt (Scalar.ofInt ((a.A.c : Int) - a.A.r)) *
          normalize (kernelProject E a.A.val (e.r.gaussian a.A.c s.2).1) i + s.1 i)
        simp only [hc, Out.ok_bind]
        cases c <;> exact ⟨_, rfl, trivial⟩) t (s := (a.x0 hd, e.r.initRng a.seed e.rd)) trivial
    exact ⟨s, hs⟩
  | sparseDikin R ERR E o =>
    have hk := hk rfl
    obtain ⟨s, hs, -⟩ := iter_completes
      (step := Walk.step (.sparseBarrier (sparseDikinClass R) ERR E o) e a.A.val (a.rhs hd) a.k)
      (I := fun _ => True) (fun s _ => sparseBarrier_step_completes (J := fun _ => True)
        (by have := hk.1; omega) (by have := hk.2; omega)
        (fun o x _ => ⟨fun _ => 1, o, rfl, trivial⟩) ERR E e.r s trivial) t
        (s := (a.x0 hd, { o with dist := R * R / Scalar.ofInt ((a.A.c : Int) - a.A.r) },
          e.r.initRng a.seed e.rd)) trivial
    exact ⟨s, hs⟩
  | sparseVaidya R ERR E o hi =>
    have hk := hk rfl
    obtain ⟨s, hs, -⟩ := iter_completes
      (step := Walk.step (.sparseBarrier (sparseVaidyaClass E ERR R) ERR E o) e a.A.val (a.rhs hd) a.k)
      (I := fun _ => True) (fun s _ => sparseBarrier_step_completes (J := fun _ => True)
        (by have := hk.1; omega) (by have := hk.2; omega)
        (fun o x _ => ⟨_, o, rfl, trivial⟩) ERR E e.r s trivial) t
        (s := (a.x0 hd, { o with dist := R * R / Scalar.sqrt (Scalar.ofInt (a.k * ((a.A.c : Int) - a.A.r))) },
          e.r.initRng a.seed e.rd)) trivial
    refine ⟨s, ?_⟩
    have : Walk.start (.sparseBarrier (sparseVaidyaClass E ERR R) ERR E o) e a.A.r (a.x0 hd) a.k a.seed =
        .ok (a.x0 hd, { o with dist := R * R / Scalar.sqrt (Scalar.ofInt (a.k * ((a.A.c : Int) - a.A.r))) },
          e.r.initRng a.seed e.rd) := by
      simp only [Walk.start, sparseVaidyaClass, toInt, if_pos hi, Out.ok_bind]
    rw [this]; exact hs
  | sparseJohn R ERR LIM MAXITER E o hdim =>
    have hk := hk rfl
    have hc : 1 ≤ a.A.c := by omega
    obtain ⟨s, hs, -⟩ := iter_completes
      (step := Walk.step (.sparseBarrier (sparseJohnClass E ERR R LIM MAXITER) ERR E o) e a.A.val (a.rhs hd) a.k)
      (I := fun s => 0 < s.2.1.w.n) (fun s hs => sparseBarrier_step_completes
        (cls := sparseJohnClass E ERR R LIM MAXITER) (J := fun o => 0 < o.w.n)
        (by have := hk.1; omega) (by have := hk.2; omega)
        (fun o x ho => by
          obtain ⟨w0, hw0⟩ := warmStart_completes ho a.A.c
          simp only [sparseJohnClass, sparseJohnWeightConv, Out.ok_bind, hw0]
          obtain ⟨p, hp⟩ := johnLoop_completes hc
            (sparseJohnNext E ERR (e.junk a.A.c) x a.A.val a.k.toNat) (fun nw w i => Scalar.abs (w i - nw i)) LIM
            MAXITER.toNat (zeroHead w0 a.k.toNat) (zeroHead w0 a.k.toNat)
          rw [hp, Out.map_ok]
          exact ⟨_, _, rfl, hc⟩) ERR E e.r s hs) t
        (s := (a.x0 hd, ⟨R * R / Scalar.pow (Scalar.ofInt ((a.A.c : Int) - a.A.r)) (Scalar.ofInt 3 / Scalar.ofInt 2),
          ones ((a.A.c : Int) - a.A.r).toNat⟩, e.r.initRng a.seed e.rd)) (by
            show 0 < ((a.A.c : Int) - a.A.r).toNat; omega)
    refine ⟨s, ?_⟩
    have : Walk.start (.sparseBarrier (sparseJohnClass E ERR R LIM MAXITER) ERR E o) e a.A.r (a.x0 hd) a.k a.seed =
        .ok (a.x0 hd, ⟨R * R / Scalar.pow (Scalar.ofInt ((a.A.c : Int) - a.A.r)) (Scalar.ofInt 3 / Scalar.ofInt 2),
          ones ((a.A.c : Int) - a.A.r).toNat⟩, e.r.initRng a.seed e.rd) := by
      simp only [Walk.start, sparseJohnClass, if_neg (show ¬ ((a.A.c : Int) - a.A.r) < 0 by omega), Out.ok_bind]
    rw [this]; exact hs
  | sparseDikinLS R ERR GLIM STEP MAXITER E o hdim =>
    have hk := hk rfl
    have hc : 1 ≤ a.A.c := by omega
    obtain ⟨s, hs, -⟩ := iter_completes
      (step := Walk.step (.sparseBarrier (sparseDikinLSClass E ERR R GLIM STEP MAXITER) ERR E o) e a.A.val
        (a.rhs hd) a.k)
      (I := fun s => 0 < s.2.1.w.n) (fun s hs => sparseBarrier_step_completes
        (cls := sparseDikinLSClass E ERR R GLIM STEP MAXITER) (J := fun o => 0 < o.w.n)
        (by have := hk.1; omega) (by have := hk.2; omega)
        (fun o x ho => by
          obtain ⟨w0, hw0⟩ := warmStart_completes ho a.A.c
          simp only [sparseDikinLSClass, sparseLSWeightConv, Out.ok_bind, hw0, Out.map_ok]
          exact ⟨_, _, rfl, hc⟩) ERR E e.r s hs) t
        (s := (a.x0 hd, ⟨R * R / ((1 + lsQ a.k) * (1 + lsQ a.k * lsQ a.k)),
          ones ((a.A.c : Int) - a.A.r).toNat⟩, e.r.initRng a.seed e.rd)) (by
            show 0 < ((a.A.c : Int) - a.A.r).toNat; omega)
    refine ⟨s, ?_⟩
    have : Walk.start (.sparseBarrier (sparseDikinLSClass E ERR R GLIM STEP MAXITER) ERR E o) e a.A.r (a.x0 hd) a.k
        a.seed = .ok (a.x0 hd, ⟨R * R / ((1 + lsQ a.k) * (1 + lsQ a.k * lsQ a.k)),
          ones ((a.A.c : Int) - a.A.r).toNat⟩, e.r.initRng a.seed e.rd) := by
      simp only [Walk.start, sparseDikinLSClass, if_neg (show ¬ ((a.A.c : Int) - a.A.r) < 0 by omega), Out.ok_bind]
    rw [this]; exact hs

/-- **C54**: a Ball or barrier walk called with matching dimensions, documented integers and (sparse) a valid `k`
returns normally: the chain never gets stuck, whatever the numbers are. -/
theorem C54_returns (w : Walk F) (e : Env F) (a : Args F) (hw : w.NeedsMet a)
    (hg : GoodInts a.niter a.burnin a.thin) (hd : a.DimsOk) (hk : w.isSparse = true → a.KOk) :
    ∃ rows, w.run e a = .ok rows := by
  obtain ⟨st, hst⟩ := C54_chain w e a hw hd hk a.niter.toNat
  have h1 := C01_recording_total w e a hg hd hk
  rw [hst] at h1
  cases hr : w.run e a with
  | ok rows => exact ⟨rows, rfl⟩
  | throws _ => rw [hr] at h1; cases h1
  | ub _ => rw [hr] at h1; cases h1
  | timeout => rw [hr] at h1; cases h1

/-! ### The dimension conditions are needed -/

theorem iter_ub {σ : Type} {step : σ → Out σ} {s : σ} {u : UB} (h : step s = .ub u) (t : ℕ) :
    iter step (t + 1) s = .ub u := by
  induction t with
  | zero => rw [iter, iter, Out.ok_bind, h]
  | succ t ih => rw [iter, ih, Out.ub_bind]

theorem run_ub_of_step {w : Walk F} {e : Env F} {a : Args F} (hg : GoodInts a.niter a.burnin a.thin) (hd : a.DimsOk)
    (hk : w.isSparse = true → a.KOk) (hn : 1 ≤ a.niter) {s : w.State e a.A.c} {u : UB}
    (hs : w.start e a.A.r (a.x0 hd) a.k a.seed = .ok s) (h : w.step e a.A.val (a.rhs hd) a.k s = .ub u) :
    w.run e a = .ub u := by
  have h1 := C01_recording_total w e a hg hd hk
  obtain ⟨t, ht⟩ : ∃ t, a.niter.toNat = t + 1 := ⟨a.niter.toNat - 1, by omega⟩
  rw [Walk.chain, hs, Out.ok_bind, ht, iter_ub h] at h1
  cases hr : w.run e a with
  | ok _ => rw [hr] at h1; cases h1
  | throws _ => rw [hr] at h1; cases h1
  | ub v => rw [hr] at h1; simpa using h1
  | timeout => rw [hr] at h1; cases h1

/-- **C54** (condition needed): without constraints (zero rows) the membership test of the dense Ball and Dikin walks reduces an
empty vector. -/
theorem C54_no_rows (w : Walk F) (e : Env F) (a : Args F)
    (hw : (∃ R, w = .ball R) ∨ ∃ R E o, w = .barrier (dikinClass R) E o)
    (hg : GoodInts a.niter a.burnin a.thin) (hd : a.DimsOk) (hn : 1 ≤ a.niter) (h0 : a.A.r = 0) :
    w.run e a = .ub .emptyReduction := by
  have hin : ∀ x, inPolytope x a.A.val (a.rhs hd) = .ub .emptyReduction := fun x => by
    have : ∀ {m n : ℕ} (_ : m = 0) (x : Fin n → F) (A : Matrix (Fin m) (Fin n) F) (b : Fin m → F),
        inPolytope x A b = .ub .emptyReduction := by rintro m n rfl x A b; rfl
    exact this h0 _ _ _
  rcases hw with ⟨R, rfl⟩ | ⟨R, E, o, rfl⟩
  · refine run_ub_of_step hg hd (fun h => by cases h) hn rfl ?_
    simp only [Walk.step, BallWalk.step, hin, Out.ub_bind]
    rfl
  · refine run_ub_of_step hg hd (fun h => by cases h) hn rfl ?_
    simp only [Walk.step, BarrierWalk.step, BarrierWalk.generateSample]
    have : ∀ (o : BState F) x, generateHessian (dikinClass R) o x a.A.val (a.rhs hd) =
        .ok (hessianOf (fun _ => 1) x a.A.val (a.rhs hd), o) := fun o x => by
      simp only [generateHessian, dikinClass, Out.ok_bind, ones, dif_pos]; rfl
    rw [this]
    simp only [Out.ok_bind, hin, Out.ub_bind]
    rfl

/-- **C54** (exception): the class `BarrierWalk` itself returns one weight whatever the number of constraints, so unless there is
exactly one constraint its first step multiplies matrices of different sizes. -/
theorem C54_base_class (R : F) (E : Eigen F) (o : BState F) (e : Env F) (a : Args F)
    (hg : GoodInts a.niter a.burnin a.thin) (hd : a.DimsOk) (hn : 1 ≤ a.niter) (h1 : a.A.r ≠ 1) :
    (Walk.barrier (barrierClass R) E o).run e a = .ub .sizeMismatch := by
  refine run_ub_of_step hg hd (fun h => by cases h) hn rfl ?_
  simp only [Walk.step, BarrierWalk.step, BarrierWalk.generateSample, generateHessian, barrierClass, ones, Out.ok_bind]
  rw [dif_neg (fun h => h1 h.symm), Out.ub_bind]
  rfl

/-- **C54** (condition needed): the sparse John and Lee-Sidford walks on a square system read an entry of an empty vector. -/
theorem C54_square (w : Walk F) (e : Env F) (a : Args F)
    (hw : (∃ R ERR LIM M E o, w = .sparseBarrier (sparseJohnClass E ERR R LIM M) ERR E o) ∨
      ∃ R ERR GLIM STEP M E o, w = .sparseBarrier (sparseDikinLSClass E ERR R GLIM STEP M) ERR E o)
    (hg : GoodInts a.niter a.burnin a.thin) (hd : a.DimsOk) (hk : a.KOk) (hn : 1 ≤ a.niter) (h0 : a.A.r = a.A.c) :
    w.run e a = .ub .indexOutOfRange := by
  have hz : ((a.A.c : Int) - a.A.r).toNat = 0 := by omega
  have hneg : ¬ ((a.A.c : Int) - a.A.r) < 0 := by omega
  have hk' : ¬ (a.k.toNat = 0 ∨ a.A.c < a.k.toNat) := by have := hk.1; have := hk.2; omega
  have hws : ∀ (w : DVec F) (m : ℕ), w.n = 0 → warmStart w m = .ub .indexOutOfRange := fun w m h => by
    unfold warmStart; rw [dif_neg (by omega)]
  rcases hw with ⟨R, ERR, LIM, M, E, o, rfl⟩ | ⟨R, ERR, GLIM, STEP, M, E, o, rfl⟩
  · have hstep : ∀ s : (Fin a.A.c → F) × BState F × e.r.G, s.2.1.w.n = 0 →
        SparseBarrier.step (sparseJohnClass E ERR R LIM M) ERR E e.r (e.junk a.A.c) a.A.val a.k.toNat s =
          .ub .indexOutOfRange := fun s hs => by
      simp only [SparseBarrier.step, SparseBarrier.generateSample, generateG, sparseJohnClass,
        sparseJohnWeightConv, hws _ _ hs, if_neg hk', Out.ub_bind, Out.map_ub]
    exact run_ub_of_step (w := .sparseBarrier (sparseJohnClass E ERR R LIM M) ERR E o) hg hd (fun _ => hk) hn
      (s := (a.x0 hd, ⟨R * R / Scalar.pow (Scalar.ofInt ((a.A.c : Int) - a.A.r)) (Scalar.ofInt 3 / Scalar.ofInt 2),
        ones ((a.A.c : Int) - a.A.r).toNat⟩, e.r.initRng a.seed e.rd))
      (by simp only [Walk.start, sparseJohnClass, if_neg hneg, Out.ok_bind]) (hstep _ hz)
  · have hstep : ∀ s : (Fin a.A.c → F) × BState F × e.r.G, s.2.1.w.n = 0 →
        SparseBarrier.step (sparseDikinLSClass E ERR R GLIM STEP M) ERR E e.r (e.junk a.A.c) a.A.val a.k.toNat s =
          .ub .indexOutOfRange := fun s hs => by
      simp only [SparseBarrier.step, SparseBarrier.generateSample, generateG, sparseDikinLSClass,
        sparseLSWeightConv, hws _ _ hs, if_neg hk', Out.ub_bind, Out.map_ub]
    exact run_ub_of_step (w := .sparseBarrier (sparseDikinLSClass E ERR R GLIM STEP M) ERR E o) hg hd (fun _ => hk) hn
      (s := (a.x0 hd, ⟨R * R / ((1 + lsQ a.k) * (1 + lsQ a.k * lsQ a.k)),
        ones ((a.A.c : Int) - a.A.r).toNat⟩, e.r.initRng a.seed e.rd))
      (by simp only [Walk.start, sparseDikinLSClass, if_neg hneg, Out.ok_bind]) (hstep _ hz)

end

/-- The half line of `Toy.args` and a John walk meet the hypotheses. -/
example (E : Eigen Int) (o : BState Int) : let _ := Toy.intScalar
    ∃ rows, (Walk.barrier (johnClass E 1 0 5) E o).run Toy.env (Toy.args 10 2 3) = .ok rows :=
  let _ := Toy.intScalar
  C54_returns _ _ _ (.john _ _ _ _ _ (by decide) (by decide)) ⟨by decide, by decide, by decide, by decide, by decide⟩
    ⟨rfl, rfl⟩ (fun h => by cases h)

/-- The base class fails on a two-row system. -/
example (E : Eigen Int) (o : BState Int) : let _ := Toy.intScalar
    (Walk.barrier (barrierClass 1) E o).run Toy.env
      ⟨1, ⟨1, fun _ => 0⟩, ⟨2, 1, fun _ _ => 1⟩, ⟨2, fun _ => 100⟩, 1, 0, 1, 3⟩ = .ub .sizeMismatch :=
  let _ := Toy.intScalar
  C54_base_class _ _ _ _ _ ⟨by decide, by decide, by decide, by decide, by decide⟩ ⟨rfl, rfl⟩ (by decide) (by decide)

end PW
