import Verif.Model.Python
import Verif.Lemmas.ClassSim
import Verif.Props.Drift
import Verif.Props.SparseUserLaw

/-!
# C83: walk classes derived in Python
-/

namespace PW

section
variable {F : Type} [Scalar F] {σ π : Type}

/-! ## What is honoured -/

/-- **C83** (partial: `BallWalk` and `HitAndRun` are excepted, see `C83_ball_ignored`). For every other exported dense class, C++ code (`denseFullWalkRun`)
runs the same `generateCompleteWalk` as Python code, and it is the Python definition if there is one. -/
theorem C83_override_dense_partial (c : DenseNative F) (hb : ∀ R, c ≠ .ball R) (hh : ∀ R ERR, c ≠ .hitRun R ERR) (t : PyType (PyDense F)) (e : Env F) :
    c.virtualCall t e = c.pythonCall t e ∧
      ∀ π s p f, t = some ⟨π, s, p⟩ → s.generateCompleteWalk = some f → c.virtualCall t e = f := by
  cases c with
  | ball R => exact absurd rfl (hb R)
  | hitRun R ERR => exact absurd rfl (hh R ERR)
  | randomWalk =>
    rcases t with _ | ⟨π, ⟨g, w, d⟩, p⟩
    · exact ⟨rfl, fun _ _ _ _ h => by cases h⟩
    · refine ⟨by cases g <;> rfl, fun _ _ _ f h hf => ?_⟩
      cases h
      cases hf
      rfl
  | barrier cls E o =>
    rcases t with _ | ⟨π, ⟨g, w, d⟩, p⟩
    · exact ⟨rfl, fun _ _ _ _ h => by cases h⟩
    · refine ⟨by cases g <;> rfl, fun _ _ _ f h hf => ?_⟩
      cases h
      cases hf
      rfl

/-- **C83** (partial, see `C83_ball_ignored`): the same for the sparse classes and `sparseFullWalkRun`. -/
theorem C83_override_sparse_partial (c : SparseNative F) (hb : ∀ R E, c ≠ .ball R E) (hh : ∀ R ERR E, c ≠ .hitRun R ERR E)
    (t : PyType (PySparse F)) (e : Env F) :
    c.virtualCall t e = c.pythonCall t e ∧
      ∀ π s p f, t = some ⟨π, s, p⟩ → s.generateCompleteWalk = some f → c.virtualCall t e = f := by
  cases c with
  | ball R E => exact absurd rfl (hb R E)
  | hitRun R ERR E => exact absurd rfl (hh R ERR E)
  | randomWalk =>
    rcases t with _ | ⟨π, ⟨g, w, d⟩, p⟩
    · exact ⟨rfl, fun _ _ _ _ h => by cases h⟩
    · refine ⟨by cases g <;> rfl, fun _ _ _ f h hf => ?_⟩
      cases h
      cases hf
      rfl
  | barrier cls ERR E o =>
    rcases t with _ | ⟨π, ⟨g, w, d⟩, p⟩
    · exact ⟨rfl, fun _ _ _ _ h => by cases h⟩
    · refine ⟨by cases g <;> rfl, fun _ _ _ f h hf => ?_⟩
      cases h
      cases hf
      rfl

theorem inherits_dense (cls : BarrierClass F σ) : BarrierSim (PyBarrierWalk cls (⟨none, none, none⟩ : PyDense F π)) cls Prod.fst where
  set o d n := by
    show _ = ((cls.setDistTerm o.1 d n).map fun o' => (o', o.2)).map Prod.fst
    rw [Out.map_map]; cases cls.setDistTerm o.1 d n <;> rfl
  dist _ := rfl
  weight o x A b := by
    show _ = ((cls.generateWeight o.1 x A b).map fun p => (p.1, p.2, o.2)).map _
    rw [Out.map_map]; cases cls.generateWeight o.1 x A b <;> rfl

theorem inherits_sparse (cls : SparseBarrierClass F σ) :
    SparseBarrierSim (PySparseBarrierWalk cls (⟨none, none, none⟩ : PySparse F π)) cls Prod.fst where
  set o d n := by
    show _ = ((cls.setDistTerm o.1 d n).map fun o' => (o', o.2)).map Prod.fst
    rw [Out.map_map]; cases cls.setDistTerm o.1 d n <;> rfl
  dist _ := rfl
  weight junk o x A k := by
    show _ = ((cls.generateWeight junk o.1 x A k).map fun p => (p.1, p.2, o.2)).map _
    rw [Out.map_map]; cases cls.generateWeight junk o.1 x A k <;> rfl

/-- **C83**. A Python subclass that defines none of the three methods samples like the class it derives from (every class but the abstract `RandomWalk`,
see `C83_abstract`). -/
theorem C83_inherits_dense (c : DenseNative F) (hc : c ≠ .randomWalk) (p : π) (e : Env F) :
    c.virtualCall (some ⟨π, ⟨none, none, none⟩, p⟩) e = c.virtualCall none e := by
  cases c with
  | randomWalk => exact absurd rfl hc
  | ball R => rfl
  | hitRun R ERR => rfl
  | barrier cls E o =>
    show (Walk.barrier (PyBarrierWalk cls ⟨none, none, none⟩) E (o, p)).toDense e = (Walk.barrier cls E o).toDense e
    unfold Walk.toDense
    funext niter init A b burnin thin seed
    rw [← (inherits_dense (π := π) cls).run]

/-- **C83**: the same for sparse classes. -/
theorem C83_inherits_sparse (c : SparseNative F) (hc : c ≠ .randomWalk) (p : π) (e : Env F) :
    c.virtualCall (some ⟨π, ⟨none, none, none⟩, p⟩) e = c.virtualCall none e := by
  cases c with
  | randomWalk => exact absurd rfl hc
  | ball R E => rfl
  | hitRun R ERR E => rfl
  | barrier cls ERR E o =>
    show (Walk.sparseBarrier (PySparseBarrierWalk cls ⟨none, none, none⟩) ERR E (o, p)).toSparse e = (Walk.sparseBarrier cls ERR E o).toSparse e
    unfold Walk.toSparse
    funext niter init A b k burnin thin seed
    rw [← (inherits_sparse (π := π) cls).run]

/-- The Python method computes the function `wf` of its arguments and does not call the inherited one (it may keep notes in its attributes). -/
def PyMethod.Computes {α β : Type} (f : PyMethod π α β) (wf : α → β) : Prop :=
  ∀ p x, f.callsSuper p x = false ∧ ∃ p', f.result p x none = .ok (wf x, p')

/-- **C83**. A Python subclass of a dense barrier class that defines `generateWeight` as a function `wf` of the point and the polytope samples exactly like
the C++ subclass that overrides `generateWeight` with `wf`: same distance term, same proposals, same rows. -/
theorem C83_weight_dense (cls : BarrierClass F σ) (E : Eigen F) (o : σ) (p : π)
    (f : (m n : ℕ) → PyMethod π ((Fin n → F) × Matrix (Fin m) (Fin n) F × (Fin m → F)) (DVec F))
    (wf : {m n : ℕ} → (Fin n → F) → Matrix (Fin m) (Fin n) F → (Fin m → F) → DVec F) (hf : ∀ m n, (f m n).Computes fun a => wf a.1 a.2.1 a.2.2) (e : Env F) :
    (DenseNative.barrier cls E o).virtualCall (some ⟨π, ⟨none, some f, none⟩, p⟩) e =
      (Walk.barrier { cls with generateWeight := fun o x A b => .ok (wf x A b, o) } E o).toDense e := by
  have hs : BarrierSim (PyBarrierWalk cls (⟨none, some f, none⟩ : PyDense F π))
      { cls with generateWeight := fun o x A b => .ok (wf x A b, o) } Prod.fst := by
    refine ⟨fun o d n => ?_, fun _ => rfl, fun {m n} o x A b => ?_⟩
    · show _ = ((cls.setDistTerm o.1 d n).map fun o' => (o', o.2)).map Prod.fst
      rw [Out.map_map]; show cls.setDistTerm o.1 d n = _; cases cls.setDistTerm o.1 d n <;> rfl
    · obtain ⟨h1, p', h2⟩ := hf m n o.2 (x, A, b)
      simp only [PyBarrierWalk, PyMethod.call, h1, h2, Bool.false_eq_true, if_false, Out.map_ok]
  show (Walk.barrier (PyBarrierWalk cls ⟨none, some f, none⟩) E (o, p)).toDense e = _
  unfold Walk.toDense
  funext niter init A b burnin thin seed
  rw [← hs.run]

/-- **C83**: the same for sparse barrier classes. -/
theorem C83_weight_sparse (cls : SparseBarrierClass F σ) (ERR : F) (E : Eigen F) (o : σ) (p : π)
    (f : (m n : ℕ) → PyMethod π ((Fin n → F) × Matrix (Fin m) (Fin n) F × ℕ) (DVec F))
    (wf : {m n : ℕ} → (Fin n → F) → Matrix (Fin m) (Fin n) F → ℕ → DVec F) (hf : ∀ m n, (f m n).Computes fun a => wf a.1 a.2.1 a.2.2) (e : Env F) :
    (SparseNative.barrier cls ERR E o).virtualCall (some ⟨π, ⟨none, some f, none⟩, p⟩) e =
      (Walk.sparseBarrier { cls with generateWeight := fun _ o x A k => .ok (wf x A k, o) } ERR E o).toSparse e := by
  have hs : SparseBarrierSim (PySparseBarrierWalk cls (⟨none, some f, none⟩ : PySparse F π))
      { cls with generateWeight := fun _ o x A k => .ok (wf x A k, o) } Prod.fst := by
    refine ⟨fun o d n => ?_, fun _ => rfl, fun {m n} junk o x A k => ?_⟩
    · show _ = ((cls.setDistTerm o.1 d n).map fun o' => (o', o.2)).map Prod.fst
      rw [Out.map_map]; show cls.setDistTerm o.1 d n = _; cases cls.setDistTerm o.1 d n <;> rfl
    · obtain ⟨h1, p', h2⟩ := hf m n o.2 (x, A, k)
      simp only [PySparseBarrierWalk, PyMethod.call, h1, h2, Bool.false_eq_true, if_false, Out.map_ok]
  show (Walk.sparseBarrier (PySparseBarrierWalk cls ⟨none, some f, none⟩) ERR E (o, p)).toSparse e = _
  unfold Walk.toSparse
  funext niter init A b k burnin thin seed
  rw [← hs.run]

/-- The Python method asks the inherited one and returns a function `g` of its arguments and of that result (it may keep notes in its attributes). -/
def PyMethod.Adjusts {α β : Type} (f : PyMethod π α β) (g : α → β → β) : Prop :=
  ∀ p x, f.callsSuper p x = true ∧ ∀ y, ∃ p', f.result p x (some y) = .ok (g x y, p')

/-- **C83**. An override that adjusts the inherited weights (`super().generateWeight`) samples like the C++ subclass that does; the inherited method runs once per call, on the
members of the object (John and Lee-Sidford weights are warm-started from the previous call). -/
theorem C83_super_dense (cls : BarrierClass F σ) (E : Eigen F) (o : σ) (p : π)
    (f : (m n : ℕ) → PyMethod π ((Fin n → F) × Matrix (Fin m) (Fin n) F × (Fin m → F)) (DVec F))
    (g : {m n : ℕ} → (Fin n → F) → Matrix (Fin m) (Fin n) F → (Fin m → F) → DVec F → DVec F) (hf : ∀ m n, (f m n).Adjusts fun a => g a.1 a.2.1 a.2.2) (e : Env F) :
    (DenseNative.barrier cls E o).virtualCall (some ⟨π, ⟨none, some f, none⟩, p⟩) e =
      (Walk.barrier { cls with generateWeight := fun o x A b => (cls.generateWeight o x A b).map fun q => (g x A b q.1, q.2) } E o).toDense e := by
  have hs : BarrierSim (PyBarrierWalk cls (⟨none, some f, none⟩ : PyDense F π))
      { cls with generateWeight := fun o x A b => (cls.generateWeight o x A b).map fun q => (g x A b q.1, q.2) } Prod.fst := by
    refine ⟨(inherits_dense cls).set, fun _ => rfl, fun {m n} o x A b => ?_⟩
    obtain ⟨h1, h2⟩ := hf m n o.2 (x, A, b)
    simp only [PyBarrierWalk, PyMethod.call, h1, if_true]
    cases cls.generateWeight o.1 x A b with
    | ok q => obtain ⟨p', h⟩ := h2 q.1; simp only [Out.ok_bind, h, Out.map_ok]
    | throws _ => rfl
    | ub _ => rfl
    | timeout => rfl
  show (Walk.barrier (PyBarrierWalk cls ⟨none, some f, none⟩) E (o, p)).toDense e = _
  unfold Walk.toDense
  funext niter init A b burnin thin seed
  rw [← hs.run]

/-- **C83**: the same for sparse barrier classes. -/
theorem C83_super_sparse (cls : SparseBarrierClass F σ) (ERR : F) (E : Eigen F) (o : σ) (p : π)
    (f : (m n : ℕ) → PyMethod π ((Fin n → F) × Matrix (Fin m) (Fin n) F × ℕ) (DVec F))
    (g : {m n : ℕ} → (Fin n → F) → Matrix (Fin m) (Fin n) F → ℕ → DVec F → DVec F) (hf : ∀ m n, (f m n).Adjusts fun a => g a.1 a.2.1 a.2.2) (e : Env F) :
    (SparseNative.barrier cls ERR E o).virtualCall (some ⟨π, ⟨none, some f, none⟩, p⟩) e =
      (Walk.sparseBarrier { cls with generateWeight := fun junk o x A k => (cls.generateWeight junk o x A k).map fun q => (g x A k q.1, q.2) } ERR E o).toSparse e := by
  have hs : SparseBarrierSim (PySparseBarrierWalk cls (⟨none, some f, none⟩ : PySparse F π))
      { cls with generateWeight := fun junk o x A k => (cls.generateWeight junk o x A k).map fun q => (g x A k q.1, q.2) } Prod.fst := by
    refine ⟨(inherits_sparse cls).set, fun _ => rfl, fun {m n} junk o x A k => ?_⟩
    obtain ⟨h1, h2⟩ := hf m n o.2 (x, A, k)
    simp only [PySparseBarrierWalk, PyMethod.call, h1, if_true]
    cases cls.generateWeight junk o.1 x A k with
    | ok q => obtain ⟨p', h⟩ := h2 q.1; simp only [Out.ok_bind, h, Out.map_ok]
    | throws _ => rfl
    | ub _ => rfl
    | timeout => rfl
  show (Walk.sparseBarrier (PySparseBarrierWalk cls ⟨none, some f, none⟩) ERR E (o, p)).toSparse e = _
  unfold Walk.toSparse
  funext niter init A b k burnin thin seed
  rw [← hs.run]

/-! ## What is not -/

/-- **C83** is false for `BallWalk`, `HitAndRun` and their sparse counterparts: whatever a Python subclass defines, C++ code runs the inherited walk, although
Python code runs the Python definition. -/
theorem C83_ball_ignored (R ERR : F) (E : Eigen F) (e : Env F) (π : Type) (p : π) :
    (∀ s : PyDense F π, (DenseNative.ball R).virtualCall (some ⟨π, s, p⟩) e = (Walk.ball R).toDense e ∧
      (DenseNative.hitRun R ERR).virtualCall (some ⟨π, s, p⟩) e = (Walk.hitRun R ERR).toDense e ∧
      ∀ f, s.generateCompleteWalk = some f → (DenseNative.ball R).pythonCall (some ⟨π, s, p⟩) e = f ∧
        (DenseNative.hitRun R ERR).pythonCall (some ⟨π, s, p⟩) e = f) ∧
    ∀ s : PySparse F π, (SparseNative.ball R E).virtualCall (some ⟨π, s, p⟩) e = (Walk.sparseBall R E).toSparse e ∧
      (SparseNative.hitRun R ERR E).virtualCall (some ⟨π, s, p⟩) e = (Walk.sparseHitRun R ERR E).toSparse e ∧
      ∀ f, s.generateCompleteWalk = some f → (SparseNative.ball R E).pythonCall (some ⟨π, s, p⟩) e = f ∧
        (SparseNative.hitRun R ERR E).pythonCall (some ⟨π, s, p⟩) e = f := by
  refine ⟨fun s => ⟨rfl, rfl, fun f hf => ?_⟩, fun s => ⟨rfl, rfl, fun f hf => ?_⟩⟩ <;>
  · rcases s with ⟨g, w, d⟩
    cases hf
    exact ⟨rfl, rfl⟩

/-- **C83**. Objects of the abstract classes themselves return a 1 × 1 zero matrix whatever the arguments (no dimension check, no exception); subclasses without a
definition of `generateCompleteWalk` raise an error. -/
theorem C83_abstract (e : Env F) (niter : Int) (init : DVec F) (A : DMat F) (b : DVec F) (k burnin thin seed : Int) (p : π)
    (s : PyDense F π) (s' : PySparse F π) (hs : s.generateCompleteWalk = none) (hs' : s'.generateCompleteWalk = none) :
    (DenseNative.randomWalk.pythonCall none e niter init A b burnin thin seed = .ok ⟨1, [fun _ => (0 : F)]⟩ ∧
      SparseNative.randomWalk.pythonCall none e niter init A b k burnin thin seed = .ok ⟨1, [fun _ => (0 : F)]⟩) ∧
    DenseNative.randomWalk.pythonCall (some ⟨π, s, p⟩) e niter init A b burnin thin seed = .throws .pureVirtual ∧
    SparseNative.randomWalk.pythonCall (some ⟨π, s', p⟩) e niter init A b k burnin thin seed = .throws .pureVirtual := by
  rcases s with ⟨g, w, d⟩
  rcases s' with ⟨g', w', d'⟩
  cases hs
  cases hs'
  exact ⟨⟨rfl, rfl⟩, rfl, rfl⟩

/-! ### The distance term -/

/-- A class whose distance term is zero throughout a run never moves: each coordinate of each row is related to that of the initial point by any relation kept by
adding `sqrt(0) * z`. -/
theorem sparse_zero_dist (cls : SparseBarrierClass F σ) (Inv : σ → Prop) (hset : ∀ o d n o', cls.setDistTerm o d n = .ok o' → Inv o')
    (hgen : ∀ {m n : ℕ} junk o (x : Fin n → F) (A : Matrix (Fin m) (Fin n) F) k p, Inv o → cls.generateWeight junk o x A k = .ok p → Inv p.2)
    (hdist : ∀ o, Inv o → cls.distTerm o = 0) (ERR : F) (E : Eigen F) (o : σ) (e : Env F) (a : Args F) (hi : SaneInts a.niter a.burnin a.thin)
    (Keep : F → F → Prop) (hd : a.DimsOk) (hrefl : ∀ j, Keep (a.x0 hd j) (a.x0 hd j)) (hK : ∀ j y z, Keep (a.x0 hd j) y →
      Keep (a.x0 hd j) (y + Scalar.sqrt 0 * z) ∧ Keep (a.x0 hd j) (Scalar.sqrt 0 * z + y))
    (rows : List (Fin a.A.c → F)) (h : (Walk.sparseBarrier cls ERR E o).run e a = .ok rows) : ∀ x ∈ rows, ∀ j, Keep (a.x0 hd j) (x j) := by
  have hG : ∀ {n m : ℕ} junk o (x : Fin n → F) (A : Matrix (Fin m) (Fin n) F) k p, Inv o → generateG cls ERR junk o x A k = .ok p → Inv p.2 := by
    intro n m junk o x A k p ho hp
    obtain ⟨wo, h1, h2⟩ := Out.bind_eq_ok.1 hp
    have := hgen junk o x A k wo ho h1
    split at h2
    · cases h2; exact this
    · cases h2
  have hchain : ∀ t s, (Walk.sparseBarrier cls ERR E o).chain e a hd t = .ok s → Inv s.2.1 ∧ ∀ j, Keep (a.x0 hd j) (s.1 j) := by
    intro t
    induction t with
    | zero =>
      intro s hs
      obtain ⟨s0, h0, h1⟩ := Out.bind_eq_ok.1 hs
      cases h1
      obtain ⟨o', ho', h0⟩ := Out.bind_eq_ok.1 h0
      cases h0
      exact ⟨hset _ _ _ _ ho', hrefl⟩
    | succ t ih =>
      intro s' hs'
      obtain ⟨s0, h0, h1⟩ := Out.bind_eq_ok.1 hs'
      obtain ⟨s, h1, h2⟩ := Out.bind_eq_ok.1 h1
      obtain ⟨hInv, hkeep⟩ := ih s (Out.bind_eq_ok.2 ⟨s0, h0, h1⟩)
      have hpos := C82_moves (Walk.sparseBarrier cls ERR E o) rfl e a.A.val (a.rhs hd) a.k s s' h2
      have hI : Inv s'.2.1 := by
        obtain ⟨zog, hz, h⟩ := Out.bind_eq_ok.1 (show SparseBarrier.step cls ERR E e.r (e.junk _) a.A.val a.k.toNat s = .ok s' from h2)
        obtain ⟨c, _, h⟩ := Out.bind_eq_ok.1 h
        have hz1 : Inv zog.2.1 := by
          unfold SparseBarrier.generateSample at hz
          split at hz
          · cases hz
          · obtain ⟨Go, hGo, hz⟩ := Out.bind_eq_ok.1 hz
            cases hz
            exact hG _ _ _ _ _ _ hInv hGo
        cases c with
        | false => cases h; exact hz1
        | true =>
          obtain ⟨p, hp, h⟩ := Out.bind_eq_ok.1 h
          obtain ⟨p', hp', h⟩ := Out.bind_eq_ok.1 h
          cases h
          obtain ⟨G1, hG1, hp⟩ := Out.bind_eq_ok.1 hp
          cases hp
          obtain ⟨G2, hG2, hp'⟩ := Out.bind_eq_ok.1 hp'
          cases hp'
          exact hG _ _ _ _ _ _ (hG _ _ _ _ _ _ hz1 hG1) hG2
      refine ⟨hI, fun j => ?_⟩
      rcases hpos with heq | ⟨c, z, ⟨Go, hGo, _, hc⟩, hmv⟩
      · rw [show s'.1 = s.1 from heq]; exact hkeep j
      · have h0 := hdist _ (hG _ _ _ _ _ _ hInv hGo)
        rw [h0] at hc
        subst hc
        rcases hmv with hmv | hmv
        · rw [show s'.1 j = Scalar.sqrt 0 * z j + s.1 j from hmv j]; exact (hK j _ _ (hkeep j)).2
        · rw [show s'.1 j = s.1 j + Scalar.sqrt 0 * z j from hmv j]; exact (hK j _ _ (hkeep j)).1
  obtain ⟨hd', hr⟩ := C03_visited_partial _ e a hi rows h
  intro x hx j
  obtain ⟨t, _, _, s, hs, rfl⟩ := hr x hx
  exact (hchain t s hs).2 j

/-- Objects of `SparseBarrierWalk` or of a Python subclass that defines neither `generateCompleteWalk` nor `setDistTerm`. -/
theorem sparseBase_keep (ERR : F) (E : Eigen F) (o : BState F) (t : PyType (PySparse F))
    (ht : ∀ π s p, t = some ⟨π, s, p⟩ → s.generateCompleteWalk = none ∧ s.setDistTerm = none) (e : Env F)
    (niter : Int) (init : DVec F) (A : DMat F) (b : DVec F) (k burnin thin seed : Int) (hi : SaneInts niter burnin thin)
    (Keep : F → F → Prop) (hrefl : ∀ j, Keep (init.val j) (init.val j))
    (hK : ∀ j y z, Keep (init.val j) y → Keep (init.val j) (y + Scalar.sqrt 0 * z) ∧ Keep (init.val j) (Scalar.sqrt 0 * z + y))
    (S : Samples F) (h : (SparseNative.barrier sparseBarrierClass ERR E o).virtualCall t e niter init A b k burnin thin seed = .ok S) :
    S.c = init.n ∧ ∀ x ∈ S.rows, ∀ (j : Fin S.c) (hj : j.val < init.n), Keep (init.val ⟨j, hj⟩) (x j) := by
  have key : ∀ {τ : Type} (cls : SparseBarrierClass F τ) (o : τ) (Inv : τ → Prop), (∀ o d n o', cls.setDistTerm o d n = .ok o' → Inv o') →
      (∀ {m n : ℕ} junk o (x : Fin n → F) (A : Matrix (Fin m) (Fin n) F) k p, Inv o → cls.generateWeight junk o x A k = .ok p → Inv p.2) →
      (∀ o, Inv o → cls.distTerm o = 0) → (Walk.sparseBarrier cls ERR E o).toSparse e niter init A b k burnin thin seed = .ok S →
      S.c = init.n ∧ ∀ x ∈ S.rows, ∀ (j : Fin S.c) (hj : j.val < init.n), Keep (init.val ⟨j, hj⟩) (x j) := by
    intro τ cls o Inv h1 h2 h3 hS
    obtain ⟨rows, hrun, rfl⟩ := Out.map_eq_ok.1 hS
    obtain ⟨hd, -⟩ := Walk.run_ok hrun
    refine ⟨hd.1.symm, fun x hx j hj => ?_⟩
    exact sparse_zero_dist cls Inv h1 h2 h3 ERR E o e ⟨niter, init, A, b, k, burnin, thin, seed⟩ hi Keep hd (fun j => hrefl _) (fun j => hK _) rows hrun x hx j
  rcases t with _ | ⟨π, ⟨g, w, d⟩, p⟩
  · refine key sparseBarrierClass o (fun o => o.dist = 0) (fun o d n o' h => ?_) (fun junk o x A k p ho h => ?_) (fun o h => h) h
    · cases h; rfl
    · cases h; exact ho
  · obtain ⟨h1, h2⟩ := ht _ _ _ rfl
    cases h1
    cases h2
    refine key (PySparseBarrierWalk sparseBarrierClass ⟨none, w, none⟩) (o, p) (fun o => o.1.dist = 0) (fun o d n o' h => ?_)
      (fun {m n} junk o x A k q ho h => ?_) (fun o h => h) h
    · cases h; rfl
    · cases w with
      | none => cases h; exact ho
      | some f =>
        replace h : (f m n).call (fun o p => (sparseBarrierClass (F := F)).generateWeight junk o p.1 p.2.1 p.2.2) o (x, A, k) = .ok q := h
        unfold PyMethod.call at h
        split at h
        · obtain ⟨q', _, rfl⟩ := Out.map_eq_ok.1 h; exact ho
        · obtain ⟨q', _, rfl⟩ := Out.map_eq_ok.1 h; exact ho

end

/-- **C83** is false for weights supplied in Python to `SparseBarrierWalk`: its `setDistTerm` sets the distance term to zero, Python code cannot change it, and
in exact arithmetic every row returned is the initial point, whatever weights the subclass defines. -/
theorem C83_sparse_stuck (ERR : ℝ) (E : Eigen ℝ) (o : BState ℝ) (t : PyType (PySparse ℝ))
    (ht : ∀ π s p, t = some ⟨π, s, p⟩ → s.generateCompleteWalk = none ∧ s.setDistTerm = none) (e : Env ℝ)
    (niter : Int) (init : DVec ℝ) (A : DMat ℝ) (b : DVec ℝ) (k burnin thin seed : Int) (hi : SaneInts niter burnin thin)
    (S : Samples ℝ) (h : (SparseNative.barrier sparseBarrierClass ERR E o).virtualCall t e niter init A b k burnin thin seed = .ok S) :
    S.c = init.n ∧ ∀ x ∈ S.rows, ∀ (j : Fin S.c) (hj : j.val < init.n), x j = init.val ⟨j, hj⟩ := by
  obtain ⟨h1, h2⟩ := sparseBase_keep ERR E o t ht e niter init A b k burnin thin seed hi (fun x y => y = x) (fun _ => rfl) (fun j y z hy => by
    have hs : (Scalar.sqrt (0 : ℝ) : ℝ) = 0 := Real.sqrt_zero
    rw [hs, zero_mul, zero_add, add_zero]; exact ⟨hy, hy⟩) S h
  exact ⟨h1, h2⟩

/-- **C83**: the same in floating point: every coordinate of every row is that of the initial point (a number of the format: `x + 0 = x`) or NaN. -/
theorem C83_sparse_stuck_ieee {p : ℕ} {emin emax : ℤ} (ERR : Ieee p emin emax) (E : Eigen (Ieee p emin emax)) (o : BState (Ieee p emin emax))
    (t : PyType (PySparse (Ieee p emin emax)))
    (ht : ∀ π s p, t = some ⟨π, s, p⟩ → s.generateCompleteWalk = none ∧ s.setDistTerm = none) (e : Env (Ieee p emin emax))
    (niter : Int) (init : DVec (Ieee p emin emax)) (A : DMat (Ieee p emin emax)) (b : DVec (Ieee p emin emax)) (k burnin thin seed : Int)
    (hi : SaneInts niter burnin thin) (hinit : ∀ j, init.val j + 0 = init.val j)
    (S : Samples (Ieee p emin emax)) (h : (SparseNative.barrier sparseBarrierClass ERR E o).virtualCall t e niter init A b k burnin thin seed = .ok S) :
    S.c = init.n ∧ ∀ x ∈ S.rows, ∀ (j : Fin S.c) (hj : j.val < init.n), x j = init.val ⟨j, hj⟩ ∨ x j = .nan := by
  have hround : (Ieee.round 0 : Ieee p emin emax) = 0 := by
    unfold Ieee.round
    have h0 : rnd p emin 0 = 0 := rnd_zero p emin
    rw [if_pos (by rw [h0, abs_zero]; positivity)]
    show Ieee.num _ _ = Ieee.num _ _
    congr 1
  have hsqrt : (Scalar.sqrt (0 : Ieee p emin emax) : Ieee p emin emax) = 0 := by
    show (if (0 : ℝ) ≤ 0 then Ieee.round (Real.sqrt 0) else Ieee.nan) = 0
    rw [if_pos le_rfl, Real.sqrt_zero, hround]
  have hmul : ∀ z : Ieee p emin emax, (0 : Ieee p emin emax) * z = 0 ∨ (0 : Ieee p emin emax) * z = .nan := by
    intro z
    cases z with
    | num a ha => left; show Ieee.round (0 * a) = _; rw [zero_mul, hround]
    | inf s => right; show (if (0 : ℝ) = 0 then Ieee.nan else _) = Ieee.nan; rw [if_pos rfl]
    | nan => right; rfl
  have hnan : ∀ z : Ieee p emin emax, z + .nan = .nan := by intro z; cases z <;> rfl
  have hnan' : ∀ z : Ieee p emin emax, .nan + z = .nan := by intro z; cases z <;> rfl
  have hzero : ∀ z : Ieee p emin emax, 0 + z = z + 0 := by
    intro z
    cases z with
    | num a ha => show Ieee.round (0 + a) = Ieee.round (a + 0); rw [add_comm]
    | inf s => rfl
    | nan => rfl
  exact sparseBase_keep ERR E o t ht e niter init A b k burnin thin seed hi (fun x y => y = x ∨ y = .nan) (fun _ => .inl rfl) (fun j y z hy => by
    rw [hsqrt]
    rcases hmul z with hz | hz <;> rw [hz]
    · rcases hy with rfl | rfl
      · rw [hzero, hinit j]; exact ⟨.inl rfl, .inl rfl⟩
      · rw [hnan', hnan]; exact ⟨.inr rfl, .inr rfl⟩
    · rw [hnan', hnan]; exact ⟨.inr rfl, .inr rfl⟩) S h

end PW
