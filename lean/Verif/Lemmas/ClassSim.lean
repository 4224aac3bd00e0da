import Verif.Lemmas.Api

/-!
# Walk classes that simulate one another

If the virtual functions of one class commute with those of another through a map of object states, the two walks return the same rows.
-/

namespace PW
variable {F : Type} [Scalar F] {σ τ : Type}

/-- `φ` maps objects of `cls` to objects of `cls'` that behave alike. -/
structure BarrierSim (cls : BarrierClass F σ) (cls' : BarrierClass F τ) (φ : σ → τ) : Prop where
  set : ∀ o d n, cls'.setDistTerm (φ o) d n = (cls.setDistTerm o d n).map φ
  dist : ∀ o, cls'.distTerm (φ o) = cls.distTerm o
  weight : ∀ {m n : ℕ} (o : σ) (x : Fin n → F) (A : Matrix (Fin m) (Fin n) F) (b : Fin m → F),
    cls'.generateWeight (φ o) x A b = (cls.generateWeight o x A b).map fun p => (p.1, φ p.2)

/-- The same for sparse classes. -/
structure SparseBarrierSim (cls : SparseBarrierClass F σ) (cls' : SparseBarrierClass F τ) (φ : σ → τ) : Prop where
  set : ∀ o d n, cls'.setDistTerm (φ o) d n = (cls.setDistTerm o d n).map φ
  dist : ∀ o, cls'.distTerm (φ o) = cls.distTerm o
  weight : ∀ {m n : ℕ} (junk : Fin n → F) (o : σ) (x : Fin n → F) (A : Matrix (Fin m) (Fin n) F) (k : ℕ),
    cls'.generateWeight junk (φ o) x A k = (cls.generateWeight junk o x A k).map fun p => (p.1, φ p.2)

section
variable {cls : BarrierClass F σ} {cls' : BarrierClass F τ} {φ : σ → τ} (h : BarrierSim cls cls' φ)
include h

theorem BarrierSim.hessian {m n : ℕ} (o : σ) (x : Fin n → F) (A : Matrix (Fin m) (Fin n) F) (b : Fin m → F) :
    generateHessian cls' (φ o) x A b = (generateHessian cls o x A b).map fun p => (p.1, φ p.2) := by
  unfold generateHessian
  rw [h.weight, Out.bind_map, Out.map_bind]
  congr 1; funext wo
  split <;> rfl

theorem BarrierSim.step {m n : ℕ} (E : Eigen F) (r : Rng F) (A : Matrix (Fin m) (Fin n) F) (b : Fin m → F)
    (s : (Fin n → F) × σ × r.G) : BarrierWalk.step cls' E r A b (s.1, φ s.2.1, s.2.2) =
      (BarrierWalk.step cls E r A b s).map fun s => (s.1, φ s.2.1, s.2.2) := by
  unfold BarrierWalk.step BarrierWalk.generateSample
  rw [h.hessian, Out.bind_map, Out.map_bind]
  congr 1; funext ho
  simp only [h.dist]
  rw [Out.map_bind]
  congr 1; funext c
  split
  · rfl
  · rw [h.hessian, Out.bind_map, Out.map_bind]
    congr 1; funext ho'
    simp only [h.dist, Out.map_ok]

theorem BarrierSim.run (E : Eigen F) (o : σ) (e : Env F) (a : Args F) :
    (Walk.barrier cls' E (φ o)).run e a = (Walk.barrier cls E o).run e a := by
  simp only [Walk.run, BarrierWalk.generateCompleteWalk, checkDims]
  split
  · rw [h.set, Out.bind_map, Out.map_bind, Out.map_bind]
    congr 1; funext p
    rw [Out.map_map, Out.map_map]
    exact runLoop_sim (F := F) (fun s : (Fin a.A.c → F) × σ × e.r.G => (s.1, φ s.2.1, s.2.2)) _ _ Prod.fst Prod.fst
      (fun s => h.step E e.r a.A.val _ s) (fun _ => rfl) a.niter a.burnin a.thin (_, p, e.r.initRng a.seed e.rd)
  · rfl
end

section
variable {cls : SparseBarrierClass F σ} {cls' : SparseBarrierClass F τ} {φ : σ → τ} (h : SparseBarrierSim cls cls' φ)
include h

theorem SparseBarrierSim.metric {m n : ℕ} (ERR : F) (junk : Fin n → F) (o : σ) (x : Fin n → F) (A : Matrix (Fin m) (Fin n) F) (k : ℕ) :
    generateG cls' ERR junk (φ o) x A k = (generateG cls ERR junk o x A k).map fun p => (p.1, φ p.2) := by
  unfold generateG
  rw [h.weight, Out.bind_map, Out.map_bind]
  congr 1; funext wo
  split <;> rfl

theorem SparseBarrierSim.step {m n : ℕ} (ERR : F) (E : Eigen F) (r : Rng F) (junk : Fin n → F) (A : Matrix (Fin m) (Fin n) F) (k : ℕ)
    (s : (Fin n → F) × σ × r.G) : SparseBarrier.step cls' ERR E r junk A k (s.1, φ s.2.1, s.2.2) =
      (SparseBarrier.step cls ERR E r junk A k s).map fun s => (s.1, φ s.2.1, s.2.2) := by
  unfold SparseBarrier.step SparseBarrier.generateSample SparseBarrier.generateProposalDensity
  dsimp only
  split
  · rfl
  · rw [h.metric, Out.bind_map, Out.bind_assoc, Out.bind_assoc, Out.map_bind]
    congr 1; funext Go
    simp only [h.dist, Out.ok_bind]
    rw [Out.map_bind]
    congr 1; funext c
    split
    · rw [h.metric, Out.bind_map, Out.bind_assoc, Out.bind_assoc, Out.map_bind]
      congr 1; funext G1
      simp only [h.dist, Out.ok_bind]
      rw [h.metric, Out.bind_map, Out.bind_assoc, Out.bind_assoc, Out.map_bind]
      congr 1; funext G2
      simp only [h.dist, Out.ok_bind, Out.map_ok]
    · rfl

theorem SparseBarrierSim.run (ERR : F) (E : Eigen F) (o : σ) (e : Env F) (a : Args F) :
    (Walk.sparseBarrier cls' ERR E (φ o)).run e a = (Walk.sparseBarrier cls ERR E o).run e a := by
  simp only [Walk.run, SparseBarrier.generateCompleteWalk, checkKDims, checkDims]
  split
  · rfl
  · split
    · rw [h.set, Out.bind_map, Out.map_bind, Out.map_bind]
      congr 1; funext p
      rw [Out.map_map, Out.map_map]
      exact runLoop_sim (F := F) (fun s : (Fin a.A.c → F) × σ × e.r.G => (s.1, φ s.2.1, s.2.2)) _ _ Prod.fst Prod.fst
        (fun s => h.step ERR E e.r _ a.A.val _ s) (fun _ => rfl) a.niter a.burnin a.thin (_, p, e.r.initRng a.seed e.rd)
    · rfl
end

end PW
