import Verif.Props.ChainFacts

/-!
# C27 for the returned samples

`C27_dense_run` and `C27_sparse_run` speak of the chain. Here: `generateCompleteWalk` returns what it would return if `DIST_TERM` were the
documented number, at every place where it is read, whatever `setDistTerm` was called with and whatever the member contained before.
-/

namespace PW

/-- The class whose `DIST_TERM` reads as the number `c` at all times. -/
def BarrierClass.withConst {F σ : Type} (cls : BarrierClass F σ) (c : F) : BarrierClass F σ := { cls with distTerm := fun _ => c }

/-- The sparse class whose `DIST_TERM` reads as the number `c` at all times. -/
def SparseBarrierClass.withConst {F σ : Type} (cls : SparseBarrierClass F σ) (c : F) : SparseBarrierClass F σ :=
  { cls with distTerm := fun _ => c }

theorem Out.bind_congr_ok {α β : Type} {x : Out α} {f g : α → Out β} (h : ∀ a, x = .ok a → f a = g a) : x.bind f = x.bind g := by
  cases x with
  | ok a => exact h a rfl
  | throws _ => rfl
  | ub _ => rfl
  | timeout => rfl

section
variable {m n : ℕ} {F : Type} [Scalar F]

theorem BarrierWalk.step_withConst (cls : BarrierClass F (BState F)) (E : Eigen F) (r : Rng F) (A : Matrix (Fin m) (Fin n) F) (b : Fin m → F)
    (c : F) (hD : ∀ o, cls.distTerm o = o.dist)
    (hw : ∀ (o : BState F) (x : Fin n → F), cls.generateWeight { o with dist := c } x A b =
      (cls.generateWeight o x A b).map fun wo => (wo.1, { wo.2 with dist := c }))
    (s : (Fin n → F) × BState F × r.G) :
    BarrierWalk.step cls E r A b (s.1, { s.2.1 with dist := c }, s.2.2) =
      (BarrierWalk.step (cls.withConst c) E r A b s).map fun s => (s.1, { s.2.1 with dist := c }, s.2.2) := by
  have hH : ∀ (o : BState F) (x : Fin n → F), generateHessian cls { o with dist := c } x A b =
      (generateHessian (cls.withConst c) o x A b).map fun ho => (ho.1, { ho.2 with dist := c }) := by
    intro o x
    unfold generateHessian
    rw [hw, Out.bind_map, Out.map_bind]
    show _ = (cls.generateWeight o x A b).bind _
    congr 1; funext wo
    by_cases h : wo.1.n = m
    · rw [dif_pos h, dif_pos h]; rfl
    · rw [dif_neg h, dif_neg h]; rfl
  unfold BarrierWalk.step BarrierWalk.generateSample
  rw [hH, Out.bind_map, Out.map_bind]
  congr 1; funext ho
  simp only [hD]
  rw [Out.map_bind]
  congr 1; funext q
  cases q
  · rfl
  · simp only [Bool.not_true, Bool.false_eq_true, if_false]
    rw [hH, Out.bind_map, Out.map_bind]
    rfl

theorem SparseBarrier.step_withConst (cls : SparseBarrierClass F (BState F)) (ERR : F) (E : Eigen F) (r : Rng F) (junk : Fin n → F)
    (A : Matrix (Fin m) (Fin n) F) (k : ℕ) (c : F) (hD : ∀ o, cls.distTerm o = o.dist)
    (hw : ∀ (o : BState F) (x : Fin n → F), cls.generateWeight junk { o with dist := c } x A k =
      (cls.generateWeight junk o x A k).map fun wo => (wo.1, { wo.2 with dist := c }))
    (s : (Fin n → F) × BState F × r.G) :
    SparseBarrier.step cls ERR E r junk A k (s.1, { s.2.1 with dist := c }, s.2.2) =
      (SparseBarrier.step (cls.withConst c) ERR E r junk A k s).map fun s => (s.1, { s.2.1 with dist := c }, s.2.2) := by
  have hG : ∀ (o : BState F) (x : Fin n → F), generateG cls ERR junk { o with dist := c } x A k =
      (generateG (cls.withConst c) ERR junk o x A k).map fun ho => (ho.1, { ho.2 with dist := c }) := by
    intro o x
    unfold generateG
    rw [hw, Out.bind_map, Out.map_bind]
    show _ = (cls.generateWeight junk o x A k).bind _
    congr 1; funext wo
    by_cases h : wo.1.n = n
    · rw [dif_pos h, dif_pos h]; rfl
    · rw [dif_neg h, dif_neg h]; rfl
  have hP : ∀ (o : BState F) (x z : Fin n → F), SparseBarrier.generateProposalDensity cls ERR E junk A k { o with dist := c } x z =
      (SparseBarrier.generateProposalDensity (cls.withConst c) ERR E junk A k o x z).map fun p => (p.1, { p.2 with dist := c }) := by
    intro o x z
    unfold SparseBarrier.generateProposalDensity
    rw [hG, Out.bind_map, Out.map_bind]
    simp only [hD]
    rfl
  unfold SparseBarrier.step SparseBarrier.generateSample
  dsimp only
  by_cases hk : k = 0 ∨ n < k
  · rw [if_pos hk, if_pos hk]; rfl
  rw [if_neg hk, if_neg hk]
  rw [hG, Out.bind_map, Out.bind_assoc, Out.bind_assoc, Out.map_bind]
  congr 1; funext Go
  rw [Out.ok_bind, Out.ok_bind, Out.map_bind]
  simp only [hD]
  congr 1; funext q
  cases q
  · rfl
  · simp only [if_true]
    rw [hP, Out.bind_map, Out.map_bind]
    congr 1; funext p
    rw [hP, Out.bind_map, Out.map_bind]
    rfl

end

/-- The step constant is the member `DIST_TERM`, and the weights do not depend on it. -/
theorem DocConst.indep {E : Eigen ℝ} {d k : ℕ} {cls : BarrierClass ℝ (BState ℝ)} {c : ℝ} (hc : DocConst E d k cls c) (c' : ℝ) {m n : ℕ}
    (A : Matrix (Fin m) (Fin n) ℝ) (b : Fin m → ℝ) : (∀ o, cls.distTerm o = o.dist) ∧
    ∀ (o : BState ℝ) (x : Fin n → ℝ), cls.generateWeight { o with dist := c' } x A b =
      (cls.generateWeight o x A b).map fun wo => (wo.1, { wo.2 with dist := c' }) := by
  cases hc with
  | dikin R => exact ⟨fun _ => rfl, fun _ _ => rfl⟩
  | vaidya R => exact ⟨fun _ => rfl, fun _ _ => rfl⟩
  | john R LIM M =>
    refine ⟨fun _ => rfl, fun o x => ?_⟩
    show (johnWeightConv E LIM M o.w x A b).map _ = ((johnWeightConv E LIM M o.w x A b).map _).map _
    rw [Out.map_map]
  | leeSidford R GLIM STEP M =>
    refine ⟨fun _ => rfl, fun o x => ?_⟩
    show (lsWeightConv E GLIM STEP M o.w x A b).map _ = ((lsWeightConv E GLIM STEP M o.w x A b).map _).map _
    rw [Out.map_map]

/-- The same for the sparse classes. -/
theorem SparseDocConst.indep {E : Eigen ℝ} {ERR : ℝ} {d l : ℕ} {cls : SparseBarrierClass ℝ (BState ℝ)} {c : ℝ}
    (hc : SparseDocConst E ERR d l cls c) (c' : ℝ) {m n : ℕ} (junk : Fin n → ℝ) (A : Matrix (Fin m) (Fin n) ℝ) (k : ℕ) :
    (∀ o, cls.distTerm o = o.dist) ∧
    ∀ (o : BState ℝ) (x : Fin n → ℝ), cls.generateWeight junk { o with dist := c' } x A k =
      (cls.generateWeight junk o x A k).map fun wo => (wo.1, { wo.2 with dist := c' }) := by
  cases hc with
  | dikin R => exact ⟨fun _ => rfl, fun _ _ => rfl⟩
  | vaidya R => exact ⟨fun _ => rfl, fun _ _ => rfl⟩
  | john R LIM M =>
    refine ⟨fun _ => rfl, fun o x => ?_⟩
    show (sparseJohnWeightConv E ERR LIM M o.w junk x A k).map _ = ((sparseJohnWeightConv E ERR LIM M o.w junk x A k).map _).map _
    rw [Out.map_map]
  | leeSidford R GLIM STEP M =>
    refine ⟨fun _ => rfl, fun o x => ?_⟩
    show (sparseLSWeightConv E ERR GLIM STEP M o.w junk x A k).map _ = ((sparseLSWeightConv E ERR GLIM STEP M o.w junk x A k).map _).map _
    rw [Out.map_map]

/-- The constant `setDistTerm` installs is the documented one. -/
theorem DocConst.installs {E : Eigen ℝ} {d n : ℕ} {cls : BarrierClass ℝ (BState ℝ)} {c : ℝ} (hc : DocConst E d n cls c) (o o1 : BState ℝ)
    (h1 : cls.setDistTerm o d n = .ok o1) : cls.distTerm o1 = c := by
  cases hc with
  | dikin R =>
    obtain ⟨o2, h2, h3⟩ := (C27_dense_partial E R 0 0 0 0 d n).1 o
    rw [h2] at h1; cases h1; exact h3
  | vaidya R =>
    by_cases hi : (d : Int) * n ≤ intMax
    · obtain ⟨o2, h2, h3⟩ := (C27_dense_partial E R 0 0 0 0 d n).2.1 hi o
      rw [h2] at h1; cases h1; exact h3
    · rw [(C27_overflow E 0 R o d n (by omega)).1] at h1; cases h1
  | john R LIM M =>
    obtain ⟨o2, h2, h3⟩ := (C27_dense_partial E R LIM 0 0 M d n).2.2.1 o
    rw [h2] at h1; cases h1; exact h3
  | leeSidford R GLIM STEP M =>
    obtain ⟨o2, h2, h3⟩ := (C27_dense_partial E R 0 GLIM STEP M d n).2.2.2 o
    rw [h2] at h1; cases h1; exact h3

/-- The constant the sparse `setDistTerm` installs is the documented one. -/
theorem SparseDocConst.installs {E : Eigen ℝ} {ERR : ℝ} {d k : ℕ} {cls : SparseBarrierClass ℝ (BState ℝ)} {c : ℝ}
    (hc : SparseDocConst E ERR d k cls c) (o o1 : BState ℝ) (h1 : cls.setDistTerm o d k = .ok o1) : cls.distTerm o1 = c := by
  cases hc with
  | dikin R =>
    obtain ⟨o2, h2, h3⟩ := (C27_sparse_partial E ERR R 0 0 0 0 d k).1 o
    rw [h2] at h1; cases h1; exact h3
  | vaidya R =>
    by_cases hi : (k : Int) * (d : Int) ≤ intMax
    · obtain ⟨o2, h2, h3⟩ := (C27_sparse_partial E ERR R 0 0 0 0 d k).2.1 hi o
      rw [h2] at h1; cases h1; exact h3
    · rw [(C27_overflow E ERR R o d k (by rw [mul_comm]; omega)).2] at h1; cases h1
  | john R LIM M =>
    obtain ⟨o2, h2, h3⟩ := (C27_sparse_partial E ERR R LIM 0 0 M d k).2.2.1 o
    rw [h2] at h1; cases h1; exact h3
  | leeSidford R GLIM STEP M =>
    obtain ⟨o2, h2, h3⟩ := (C27_sparse_partial E ERR R 0 GLIM STEP M d k).2.2.2 o
    rw [h2] at h1; cases h1; exact h3

theorem dense_samples_loop (E : Eigen ℝ) (cls : BarrierClass ℝ (BState ℝ)) (o1 : BState ℝ) (e : Env ℝ) {m n : ℕ} (A : Matrix (Fin m) (Fin n) ℝ)
    (c : ℝ) (b : Fin m → ℝ) (hD : ∀ o, cls.distTerm o = o.dist)
    (hw : ∀ (o : BState ℝ) (x : Fin n → ℝ), cls.generateWeight { o with dist := c } x A b =
      (cls.generateWeight o x A b).map fun wo => (wo.1, { wo.2 with dist := c })) (hi : o1.dist = c)
    (x : Fin n → ℝ) (niter burnin thin : Int) (g : e.r.G) :
    (runLoop (BarrierWalk.step cls E e.r A b) Prod.fst niter burnin thin (x, o1, g)).map Prod.fst =
    (runLoop (BarrierWalk.step (cls.withConst c) E e.r A b) Prod.fst niter burnin thin (x, o1, g)).map Prod.fst := by
  subst hi
  exact runLoop_sim (fun s : (Fin n → ℝ) × BState ℝ × e.r.G => (s.1, (⟨o1.dist, s.2.1.w⟩ : BState ℝ), s.2.2))
      (BarrierWalk.step (cls.withConst o1.dist) E e.r A b) (BarrierWalk.step cls E e.r A b) Prod.fst Prod.fst
      (BarrierWalk.step_withConst cls E e.r A b o1.dist hD hw) (fun _ => rfl) niter burnin thin (x, o1, g)

theorem dense_samples_aux (E : Eigen ℝ) (cls : BarrierClass ℝ (BState ℝ)) (o : BState ℝ) (e : Env ℝ) {m n : ℕ} (A : Matrix (Fin m) (Fin n) ℝ)
    (c : ℝ) (hc : DocConst E n m cls c) (x : Fin n → ℝ) (b : Fin m → ℝ) (niter burnin thin seed : Int) :
      (((cls.setDistTerm o n m).bind fun o =>
        (runLoop (BarrierWalk.step cls E e.r A b) Prod.fst niter burnin thin
          (x, o, e.r.initRng seed e.rd)).map fun p => (p.1, p.2.2.1)).map Prod.fst : Out (List (Fin n → ℝ))) =
      ((cls.setDistTerm o n m).bind fun o =>
        (runLoop (BarrierWalk.step (cls.withConst c) E e.r A b) Prod.fst niter burnin thin
          (x, o, e.r.initRng seed e.rd)).map fun p => (p.1, p.2.2.1)).map Prod.fst := by
  obtain ⟨hD, hw⟩ := hc.indep c A b
  rw [Out.map_bind, Out.map_bind]
  refine Out.bind_congr_ok fun o1 h1 => ?_
  rw [Out.map_map, Out.map_map]
  exact dense_samples_loop E cls o1 e A c b hD hw ((hD o1).symm.trans (hc.installs o o1 h1)) x niter burnin thin _

/-- **C27** (dense samples): the outcome of a call of a dense barrier walk of the library, whatever its arguments and whatever the object did
before, is the one it would have if `DIST_TERM` read as the documented constant for `d = A.cols()`, `n = A.rows()` throughout. -/
theorem C27_dense_samples (E : Eigen ℝ) (cls : BarrierClass ℝ (BState ℝ)) (o : BState ℝ) (e : Env ℝ) (a : Args ℝ)
    (c : ℝ) (hc : DocConst E a.A.c a.A.r cls c) :
    (Walk.barrier cls E o).run e a = (Walk.barrier (cls.withConst c) E o).run e a := by
  show (BarrierWalk.generateCompleteWalk cls E e.r o a.niter a.init a.A a.b a.burnin a.thin a.seed e.rd).map Prod.fst =
    (BarrierWalk.generateCompleteWalk (cls.withConst c) E e.r o a.niter a.init a.A a.b a.burnin a.thin a.seed e.rd).map Prod.fst
  unfold BarrierWalk.generateCompleteWalk checkDims
  by_cases hd : a.init.n = a.A.c ∧ a.A.r = a.b.n
  · rw [dif_pos hd, dif_pos hd]
    exact dense_samples_aux E cls o e a.A.val c hc _ _ _ _ _ _
  · rw [dif_neg hd, dif_neg hd]

/-- **C27** (sparse samples): the same for the sparse walks, with `d = A.cols() - A.rows()` and `n = k`. -/
theorem C27_sparse_samples (E : Eigen ℝ) (ERR : ℝ) (cls : SparseBarrierClass ℝ (BState ℝ)) (o : BState ℝ) (e : Env ℝ) (a : Args ℝ)
    (hk : a.KOk) (hmn : a.A.r ≤ a.A.c) (c : ℝ) (hc : SparseDocConst E ERR (a.A.c - a.A.r) a.k.toNat cls c) :
    (Walk.sparseBarrier cls ERR E o).run e a = (Walk.sparseBarrier (cls.withConst c) ERR E o).run e a := by
  have e1 : (a.A.c : Int) - a.A.r = ((a.A.c - a.A.r : ℕ) : Int) := by omega
  have e2 : a.k = ((a.k.toNat : ℕ) : Int) := by have := hk.1; omega
  have key : ∀ (x : Fin a.A.c → ℝ),
      (((cls.setDistTerm o ((a.A.c : Int) - a.A.r) a.k).bind fun o =>
        (runLoop (SparseBarrier.step cls ERR E e.r (e.junk a.A.c) a.A.val a.k.toNat) Prod.fst a.niter a.burnin a.thin
          (x, o, e.r.initRng a.seed e.rd)).map fun p => (p.1, p.2.2.1)).map Prod.fst : Out (List (Fin a.A.c → ℝ))) =
      ((cls.setDistTerm o ((a.A.c : Int) - a.A.r) a.k).bind fun o =>
        (runLoop (SparseBarrier.step (cls.withConst c) ERR E e.r (e.junk a.A.c) a.A.val a.k.toNat) Prod.fst a.niter a.burnin a.thin
          (x, o, e.r.initRng a.seed e.rd)).map fun p => (p.1, p.2.2.1)).map Prod.fst := by
    intro x
    cases h1 : cls.setDistTerm o ((a.A.c : Int) - a.A.r) a.k with
    | ok o1 =>
      have h1' : cls.setDistTerm o ((a.A.c - a.A.r : ℕ) : Int) ((a.k.toNat : ℕ) : Int) = .ok o1 := by rw [← e1, ← e2]; exact h1
      have hi := hc.installs o o1 h1'
      obtain ⟨hD, hw⟩ := hc.indep c (e.junk a.A.c) a.A.val a.k.toNat
      rw [hD] at hi
      rw [Out.ok_bind, Out.ok_bind, Out.map_map, Out.map_map]
      have := runLoop_sim (fun s : (Fin a.A.c → ℝ) × BState ℝ × e.r.G => (s.1, { s.2.1 with dist := c }, s.2.2)) _ _ Prod.fst Prod.fst
        (SparseBarrier.step_withConst cls ERR E e.r (e.junk a.A.c) a.A.val a.k.toNat c hD hw) (fun _ => rfl) a.niter a.burnin a.thin
        (x, o1, e.r.initRng a.seed e.rd)
      have ho : ({ o1 with dist := c } : BState ℝ) = o1 := by rw [← hi]
      dsimp only at this
      rw [ho] at this
      exact this
    | throws x => rfl
    | ub x => rfl
    | timeout => rfl
  show (SparseBarrier.generateCompleteWalk cls ERR E e.r o a.niter a.init a.A a.b a.k a.burnin a.thin a.seed e.rd (e.junk a.A.c)).map
      Prod.fst = (SparseBarrier.generateCompleteWalk (cls.withConst c) ERR E e.r o a.niter a.init a.A a.b a.k a.burnin a.thin a.seed e.rd
        (e.junk a.A.c)).map Prod.fst
  unfold SparseBarrier.generateCompleteWalk checkKDims
  split
  · rfl
  · unfold checkDims
    by_cases hd : a.init.n = a.A.c ∧ a.A.r = a.b.n
    · rw [dif_pos hd, dif_pos hd]
      exact key _
    · rw [dif_neg hd, dif_neg hd]

/-- A case: the Lee-Sidford walk on any polytope, after any history. -/
example (o : BState ℝ) (e : Env ℝ) (a : Args ℝ) : (Walk.barrier (dikinLSClass exactEigen 1 (1 / 100) (1 / 10) 1000) exactEigen o).run e a =
    (Walk.barrier ((dikinLSClass exactEigen 1 (1 / 100) (1 / 10) 1000).withConst (lsConst 1 a.A.r)) exactEigen o).run e a :=
  C27_dense_samples exactEigen _ o e a _ (.leeSidford 1 _ _ _)

end PW
