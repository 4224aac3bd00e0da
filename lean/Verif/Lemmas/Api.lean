import Verif.Lemmas.Loop
import Verif.Spec.Walks

set_option linter.unusedSimpArgs false
set_option linter.unusedSectionVars false
set_option linter.unusedVariables false

namespace PW
variable {F : Type} [Scalar F]

theorem Out.map_map {α : Type u} {β : Type v} {γ : Type w} (x : Out α) (f : α → β) (g : β → γ) :
    (x.map f).map g = x.map (fun a => g (f a)) := by cases x <;> rfl

theorem Out.map_bind {α : Type u} {β : Type v} {γ : Type w} (x : Out α) (f : α → Out β) (g : β → γ) :
    (x.bind f).map g = x.bind fun a => (f a).map g := by cases x <;> rfl

theorem Out.bind_map {α : Type u} {β : Type v} {γ : Type w} (x : Out α) (f : α → β) (g : β → Out γ) :
    (x.map f).bind g = x.bind fun a => g (f a) := by cases x <;> rfl

theorem checkDims_map {α β : Type} (init : DVec F) (A : DMat F) (b : DVec F)
    (body : (Fin A.c → F) → (Fin A.r → F) → Out α) (f : α → β) :
    (checkDims init A b body).map f = checkDims init A b fun x b => (body x b).map f := by
  unfold checkDims; split <;> rfl

theorem checkKDims_map {α β : Type} (k : Int) (init : DVec F) (A : DMat F) (b : DVec F)
    (body : (Fin A.c → F) → (Fin A.r → F) → Out α) (f : α → β) :
    (checkKDims k init A b body).map f = checkKDims k init A b fun x b => (body x b).map f := by
  unfold checkKDims; split
  · rfl
  · exact checkDims_map ..

/-- Every `generateCompleteWalk` is: checks, start state, recording loop over the walk's step. -/
theorem Walk.run_eq (w : Walk F) (e : Env F) (a : Args F) :
    w.run e a =
      if w.isSparse = true ∧ ¬ a.KOk then .throws .badK
      else if h : a.DimsOk then
        (w.start e a.A.r (a.x0 h) a.k a.seed).bind fun s0 =>
        (runLoop (w.step e a.A.val (a.rhs h) a.k) (w.pos e) a.niter a.burnin a.thin s0).map Prod.fst
      else .throws .badDims := by
  have hk : (a.k ≤ 0 ∨ (a.A.c : Int) < a.k) ↔ ¬ a.KOk := by unfold Args.KOk; omega
  by_cases hd : a.DimsOk
  · have hd' : a.init.n = a.A.c ∧ a.A.r = a.b.n := hd
    by_cases hK : a.KOk
    · have hK' : ¬ (a.k ≤ 0 ∨ (a.A.c : Int) < a.k) := by rw [hk]; simpa using hK
      cases w <;>
        simp [Walk.run, Walk.isSparse, BallWalk.generateCompleteWalk, HitRun.generateCompleteWalk,
          BarrierWalk.generateCompleteWalk, SparseBallWalk.generateCompleteWalk,
          SparseHitRun.generateCompleteWalk, SparseBarrier.generateCompleteWalk, checkDims, checkKDims,
          hd, hd', hK, hK', Walk.start, Out.map_bind, Out.map_map, Out.bind_assoc] <;> rfl
    · have hK' : (a.k ≤ 0 ∨ (a.A.c : Int) < a.k) := by rw [hk]; exact hK
      cases w <;>
        simp [Walk.run, Walk.isSparse, BallWalk.generateCompleteWalk, HitRun.generateCompleteWalk,
          BarrierWalk.generateCompleteWalk, SparseBallWalk.generateCompleteWalk,
          SparseHitRun.generateCompleteWalk, SparseBarrier.generateCompleteWalk, checkDims, checkKDims,
          hd, hd', hK, hK', Walk.start, Out.map_bind, Out.map_map, Out.bind_assoc] <;> rfl
  · have hd' : ¬ (a.init.n = a.A.c ∧ a.A.r = a.b.n) := hd
    cases w <;>
      simp [Walk.run, Walk.isSparse, BallWalk.generateCompleteWalk, HitRun.generateCompleteWalk,
          BarrierWalk.generateCompleteWalk, SparseBallWalk.generateCompleteWalk,
          SparseHitRun.generateCompleteWalk, SparseBarrier.generateCompleteWalk, checkDims, checkKDims,
          hd, hd', hk] <;> split <;> simp

theorem Walk.run_ok {w : Walk F} {e : Env F} {a : Args F} {rows}
    (h : w.run e a = .ok rows) : ∃ (hd : a.DimsOk) (s0 : _) (s' : _),
      (w.isSparse = true → a.KOk) ∧
      w.start e a.A.r (a.x0 hd) a.k a.seed = .ok s0 ∧
      runLoop (w.step e a.A.val (a.rhs hd) a.k) (w.pos e) a.niter a.burnin a.thin s0 = .ok (rows, s') := by
  rw [Walk.run_eq] at h
  split at h
  · cases h
  · rename_i hk
    split at h
    · rename_i hd
      rw [Out.bind_eq_ok] at h
      obtain ⟨s0, hs0, h⟩ := h
      rw [Out.map_eq_ok] at h
      obtain ⟨⟨rows', s'⟩, hr, rfl⟩ := h
      exact ⟨hd, s0, s', fun hs => by by_contra hc; exact hk ⟨hs, hc⟩, hs0, hr⟩
    · cases h

/-- If `step'` simulates `step` through `φ`, the recording loops agree. -/
theorem loopFrom_sim {n : ℕ} {σ τ : Type} (φ : σ → τ) (step : σ → Out σ) (step' : τ → Out τ)
    (pos : σ → Fin n → F) (pos' : τ → Fin n → F) (hs : ∀ s, step' (φ s) = (step s).map φ)
    (hp : ∀ s, pos' (φ s) = pos s) (B T : Int) (left : ℕ) (i : Int) (s : σ) (rows) :
    loopFrom step' pos' B T left i (φ s) rows =
      (loopFrom step pos B T left i s rows).map fun p => (p.1, φ p.2) := by
  induction left generalizing i s rows with
  | zero => rfl
  | succ left ih =>
    rw [loopFrom, loopFrom, hs, Out.bind_map, Out.map_bind]
    congr 1; funext s1
    rw [hp, Out.map_bind]
    congr 1; funext rows1
    rw [Out.map_bind]
    congr 1; funext i1
    exact ih ..

theorem runLoop_sim {n : ℕ} {σ τ : Type} (φ : σ → τ) (step : σ → Out σ) (step' : τ → Out τ)
    (pos : σ → Fin n → F) (pos' : τ → Fin n → F) (hs : ∀ s, step' (φ s) = (step s).map φ)
    (hp : ∀ s, pos' (φ s) = pos s) (N B T : Int) (s : σ) :
    (runLoop step' pos' N B T (φ s)).map Prod.fst = (runLoop step pos N B T s).map Prod.fst := by
  rw [runLoop, runLoop, Out.map_bind, Out.map_bind]
  congr 1; funext t
  rw [Out.map_bind, Out.map_bind]
  congr 1; funext tot
  split
  · rfl
  · rw [loopFrom_sim φ step step' pos pos' hs hp, Out.map_map]

end PW
