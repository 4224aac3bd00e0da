import Verif.Lemmas.NoThrow
import Verif.Spec.Toy
import Verif.Props.Sampling

/-!
# C04–C07: argument checks, seeding, object reuse
-/

set_option linter.unusedSimpArgs false
set_option linter.unusedSectionVars false

namespace PW
variable {F : Type} [Scalar F]

/-! ## C04 -/

/-- C04: a dimension mismatch is always rejected, whatever the walk class, object state, randomness and the
other arguments (for sparse walks after the check of `k`). -/
theorem C04_rejected (w : Walk F) (e : Env F) (a : Args F) (hd : ¬ a.DimsOk)
    (hk : w.isSparse = true → a.KOk) : w.run e a = .throws .badDims := by
  rw [Walk.run_eq, if_neg (by rintro ⟨h1, h2⟩; exact h2 (hk h1)), dif_neg hd]

/-- C04: with matching dimensions (and a valid `k` for sparse walks) no exception is thrown by any walk whose
virtual functions throw none; in particular by every walk of the library. -/
theorem C04_no_exception (w : Walk F) (hw : w.ClassNoThrow) (e : Env F) (a : Args F) (hd : a.DimsOk)
    (hk : w.isSparse = true → a.KOk) (ex : Exn) : w.run e a ≠ .throws ex := by
  rw [Walk.run_eq, if_neg (by rintro ⟨h1, h2⟩; exact h2 (hk h1)), dif_pos hd]
  exact ((Walk.start_noThrow hw ..).bind fun s0 =>
    (runLoop_noThrow (fun s => Walk.step_noThrow hw e _ _ _ hk s) ..).map).ne ex

/-- C04, as an equivalence for the walks of the library. -/
theorem C04_library (w : Walk F) (hw : w.Library) (e : Env F) (a : Args F)
    (hk : w.isSparse = true → a.KOk) : w.run e a = .throws .badDims ↔ ¬ a.DimsOk := by
  constructor
  · intro h hd
    exact C04_no_exception w hw.noThrow e a hd hk _ h
  · intro hd
    exact C04_rejected w e a hd hk

/-- C03: since nothing but the dimensions and `k` is checked, no value of `niter`, `burnin`, `thin` is ever
rejected with an exception. -/
theorem C03_never_rejected (w : Walk F) (hw : w.Library) (e : Env F) (a : Args F) (hd : a.DimsOk)
    (hk : w.isSparse = true → a.KOk) (niter burnin thin : Int) (ex : Exn) :
    w.run e { a with niter := niter, burnin := burnin, thin := thin } ≠ .throws ex :=
  C04_no_exception w hw.noThrow e { a with niter := niter, burnin := burnin, thin := thin } hd hk ex

/-! ## C05 -/

/-- C05: sparse walks reject every `k` outside `1 … A.cols()`, whatever the other arguments. -/
theorem C05_walk (w : Walk F) (hs : w.isSparse = true) (e : Env F) (a : Args F)
    (hk : a.k ≤ 0 ∨ (a.A.c : Int) < a.k) : w.run e a = .throws .badK := by
  rw [Walk.run_eq, if_pos ⟨hs, by unfold Args.KOk; omega⟩]

/-- C05: the initial point, facial reduction and the two drivers reject every such `k`. -/
theorem C05_utils (glp : Glpk F) (E : Eigen F) (ERR : F) (fuel : ℕ) (gi : Int) (A : DMat F) (b : DVec F)
    (k : Int) (hk : k ≤ 0 ∨ (A.c : Int) < k) :
    SparseCenter.getInitialPoint glp A b k = .throws .badK ∧
    (∀ sparse, FacialReduction.reduce glp E ERR fuel gi A b k sparse = .throws .badK) ∧
    (∀ walk niter burnin thin seed,
      denseFullWalkRun glp E ERR fuel gi walk niter A b k burnin thin seed = .throws .badK) ∧
    (∀ walk niter burnin thin seed,
      sparseFullWalkRun glp E ERR fuel gi walk niter A b k burnin thin seed = .throws .badK) := by
  refine ⟨?_, fun _ => ?_, fun _ _ _ _ _ => ?_, fun _ _ _ _ _ => ?_⟩
  · rw [SparseCenter.getInitialPoint, if_pos hk]
  · rw [FacialReduction.reduce, if_pos hk]
  · rw [denseFullWalkRun, if_pos hk]
  · rw [sparseFullWalkRun, if_pos hk]

/-- A facial reduction with a valid `k` never throws. -/
theorem reduce_noThrow (glp : Glpk F) (E : Eigen F) (ERR : F) (fuel : ℕ) (gi : Int) (A : DMat F) (b : DVec F) (k : Int)
    (hk' : ¬ (k ≤ 0 ∨ (A.c : Int) < k)) (sparse : Bool) : (FacialReduction.reduce glp E ERR fuel gi A b k sparse).NoThrow := by
  rw [FacialReduction.reduce, if_neg hk']
  split
  · refine Out.NoThrow.bind ?_ fun sg => Out.NoThrow.bind ?_ fun _ => Out.NoThrow.ok _
    · generalize frStart E ERR A.val (b.at _) = s
      generalize (A.c - k.toNat) = gi'
      have : ∀ xdim fuel gi s, (entireFacialReductionStep (d := A.c) glp E ERR xdim fuel gi s).NoThrow := by
        intro xdim fuel
        induction fuel with
        | zero => intro gi s; exact Out.NoThrow.timeout
        | succ fuel ih =>
          intro gi s
          refine Out.NoThrow.bind ?_ fun zg => ?_
          · unfold findZ
            refine Out.NoThrow.ite (Out.NoThrow.ub _) ?_
            generalize (findZRel s.c xdim) = rel
            generalize (fun _ => 0 : Fin (s.c + 1) → F) = bnd
            generalize s.c - gi = left
            induction left generalizing gi rel bnd with
            | zero => exact Out.NoThrow.ok _
            | succ left ihl =>
              refine Out.NoThrow.bind (Out.NoThrow.ite (Out.NoThrow.ub _) (Out.NoThrow.ok _)) fun sol => ?_
              exact Out.NoThrow.ite (Out.NoThrow.ok _) (ihl ..)
          · cases zg.1 with
            | none => exact Out.NoThrow.ok _
            | some z => exact ih ..
      exact this ..
    · unfold frFinish
      refine Out.NoThrow.ite (Out.NoThrow.ok _) ?_
      split
      · exact Out.NoThrow.ite (Out.NoThrow.ok _) (Out.NoThrow.ub _)
      · exact Out.NoThrow.ub _
  · exact Out.NoThrow.ub _

/-- C05, the other direction: a valid `k` is never rejected by the walks of the library, the centre or the
facial reduction. -/
theorem C05_only_then (w : Walk F) (hw : w.Library) (e : Env F) (a : Args F)
    (hk : a.KOk) (glp : Glpk F) (E : Eigen F) (ERR : F) (fuel : ℕ) (gi : Int) (sparse : Bool) :
    w.run e a ≠ .throws .badK ∧ SparseCenter.getInitialPoint glp a.A a.b a.k ≠ .throws .badK ∧
    FacialReduction.reduce glp E ERR fuel gi a.A a.b a.k sparse ≠ .throws .badK := by
  have hk' : ¬ (a.k ≤ 0 ∨ (a.A.c : Int) < a.k) := by unfold Args.KOk at hk; omega
  refine ⟨?_, ?_, ?_⟩
  · by_cases hd : a.DimsOk
    · exact C04_no_exception w hw.noThrow e a hd (fun _ => hk) _
    · rw [C04_rejected w e a hd (fun _ => hk)]
      intro h; cases h
  · rw [SparseCenter.getInitialPoint, if_neg hk']
    refine (Out.NoThrow.ite (Out.NoThrow.ub _) (Out.NoThrow.map ?_)).ne _
    exact Out.NoThrow.ite (Out.NoThrow.ub _) (Out.NoThrow.ok _)
  · exact (reduce_noThrow glp E ERR fuel gi a.A a.b a.k hk' sparse).ne _

theorem mapRows_noThrow {α β : Type} {f : α → Out β} (hf : ∀ a, (f a).NoThrow) : ∀ l, (mapRows f l).NoThrow
  | [] => Out.NoThrow.ok _
  | a :: l => (hf a).bind fun _ => (mapRows_noThrow hf l).bind fun _ => Out.NoThrow.ok _

/-- C05, the drivers: with a valid `k` the dense full run throws only what the inner walk throws, called with consistent sizes; the
sparse full run throws only what the inner walk throws, called with consistent sizes and a valid new `k`, or because the new `k` it
computes (`rows of the reduced A - (rows of A - k)`) is not valid for the reduced matrix. -/
theorem C05_fullRuns (glp : Glpk F) (E : Eigen F) (ERR : F) (fuel : ℕ) (gi : Int) (A : DMat F) (b : DVec F) (k : Int)
    (hk : 1 ≤ k ∧ k ≤ A.c) (niter burnin thin seed : Int) (ex : Exn) :
    (∀ walk : DenseWalk F, denseFullWalkRun glp E ERR fuel gi walk niter A b k burnin thin seed = .throws ex →
      ∃ (x : DVec F) (A' : DMat F) (b' : DVec F), x.n = A'.c ∧ b'.n = A'.r ∧
        walk niter x A' b' burnin thin seed = .throws ex) ∧
    (∀ walk : SparseWalk F, sparseFullWalkRun glp E ERR fuel gi walk niter A b k burnin thin seed = .throws ex →
      ∃ fr, FacialReduction.reduce glp E ERR fuel gi A b k true = .ok fr ∧
        ∃ k' : Int, k' = (fr.1.sparse.r : Int) - ((A.r : Int) - k) ∧
          ((ex = .badK ∧ (k' ≤ 0 ∨ (fr.1.sparse.c : Int) < k')) ∨
           (1 ≤ k' ∧ k' ≤ fr.1.sparse.c ∧ ∃ x : Fin fr.1.sparse.c → F,
            walk niter ⟨_, x⟩ ⟨_, _, fr.1.sparse.A⟩ ⟨_, fr.1.sparse.b⟩ k' burnin thin seed = .throws ex))) := by
  have hk' : ¬ (k ≤ 0 ∨ (A.c : Int) < k) := by omega
  constructor
  · intro walk h
    rw [denseFullWalkRun, if_neg hk'] at h
    cases hr : FacialReduction.reduce glp E ERR fuel gi A b k false with
    | throws e => exact absurd hr ((reduce_noThrow glp E ERR fuel gi A b k hk' false).ne e)
    | ub u => rw [hr] at h; cases h
    | timeout => rw [hr] at h; cases h
    | ok fr =>
      rw [hr, Out.ok_bind] at h
      cases hx : DenseCenter.getInitialPoint glp fr.1.denseA fr.1.denseb with
      | throws e => unfold DenseCenter.getInitialPoint at hx; split at hx <;> cases hx
      | ub u => rw [hx] at h; cases h
      | timeout => rw [hx] at h; cases h
      | ok x =>
        rw [hx, Out.ok_bind] at h
        cases hw : walk niter ⟨_, x⟩ fr.1.denseA fr.1.denseb burnin thin seed with
        | ub u => rw [hw] at h; cases h
        | timeout => rw [hw] at h; cases h
        | ok S =>
          rw [hw, Out.ok_bind] at h
          refine absurd h ((mapRows_noThrow (fun y => ?_) _).ne ex)
          unfold denseBack
          split
          · split
            · exact Out.NoThrow.ok _
            · exact Out.NoThrow.ub _
          · exact Out.NoThrow.ub _
        | throws e =>
          rw [hw] at h
          cases h
          refine ⟨⟨_, x⟩, _, _, rfl, ?_, hw⟩
          rw [FacialReduction.reduce, if_neg hk'] at hr
          split at hr
          · obtain ⟨sg, _, hr⟩ := Out.bind_eq_ok.1 hr
            obtain ⟨out, ho, hr⟩ := Out.bind_eq_ok.1 hr
            cases hr
            unfold frFinish at ho
            rw [if_neg (by simp)] at ho
            split at ho
            · split at ho
              · cases ho; rfl
              · cases ho
            · cases ho
          · cases hr
  · intro walk h
    rw [sparseFullWalkRun, if_neg hk'] at h
    cases hr : FacialReduction.reduce glp E ERR fuel gi A b k true with
    | throws e => exact absurd hr ((reduce_noThrow glp E ERR fuel gi A b k hk' true).ne e)
    | ub u => rw [hr] at h; cases h
    | timeout => rw [hr] at h; cases h
    | ok fr =>
      refine ⟨fr, rfl, _, rfl, ?_⟩
      rw [hr, Out.ok_bind] at h
      simp only at h
      by_cases hv : (fr.1.sparse.r : Int) - ((A.r : Int) - k) ≤ 0 ∨
          (fr.1.sparse.c : Int) < (fr.1.sparse.r : Int) - ((A.r : Int) - k)
      · left
        rw [SparseCenter.getInitialPoint, if_pos hv] at h
        cases h
        exact ⟨rfl, hv⟩
      · right
        refine ⟨by omega, by omega, ?_⟩
        cases hx : SparseCenter.getInitialPoint glp ⟨_, _, fr.1.sparse.A⟩ ⟨_, fr.1.sparse.b⟩
            ((fr.1.sparse.r : Int) - ((A.r : Int) - k)) with
        | throws e =>
          rw [SparseCenter.getInitialPoint, if_neg hv] at hx
          exact absurd hx ((Out.NoThrow.ite (Out.NoThrow.ub _)
            (Out.NoThrow.map (Out.NoThrow.ite (Out.NoThrow.ub _) (Out.NoThrow.ok _)))).ne e)
        | ub u => rw [hx] at h; cases h
        | timeout => rw [hx] at h; cases h
        | ok x =>
          rw [hx, Out.ok_bind] at h
          cases hw : walk niter ⟨_, x⟩ ⟨_, _, fr.1.sparse.A⟩ ⟨_, fr.1.sparse.b⟩
              ((fr.1.sparse.r : Int) - ((A.r : Int) - k)) burnin thin seed with
          | ub u => rw [hw] at h; cases h
          | timeout => rw [hw] at h; cases h
          | ok S =>
            rw [hw, Out.ok_bind] at h
            refine absurd h ((mapRows_noThrow (fun y => ?_) _).ne ex)
            unfold sparseBack
            split
            · exact Out.NoThrow.ok _
            · exact Out.NoThrow.ub _
          | throws e =>
            rw [hw] at h
            cases h
            exact ⟨x, hw⟩

/-! ## C06 -/

/-- C06: with a seed other than -1 the entropy source has no influence on the result. -/
theorem C06_seeded (w : Walk F) (r : Rng F) (junk : (n : ℕ) → Fin n → F) (fuel : ℕ) (a : Args F)
    (hs : a.seed ≠ -1) (rd rd' : BitVec 32) :
    w.run ⟨r, rd, junk, fuel⟩ a = w.run ⟨r, rd', junk, fuel⟩ a := by
  have : r.initRng a.seed rd = r.initRng a.seed rd' := by
    unfold Rng.initRng; rw [if_pos hs, if_pos hs]
  cases w <;>
    simp only [Walk.run, BallWalk.generateCompleteWalk, HitRun.generateCompleteWalk,
      BarrierWalk.generateCompleteWalk, SparseBallWalk.generateCompleteWalk,
      SparseHitRun.generateCompleteWalk, SparseBarrier.generateCompleteWalk, this]

/-- C06: a call with seed -1 is the call seeded with the entropy word: it equals the run with every explicit
seed that denotes the same 32-bit word. -/
theorem C06_unseeded (w : Walk F) (r : Rng F) (rd : BitVec 32) (junk : (n : ℕ) → Fin n → F) (fuel : ℕ)
    (a : Args F) (hs : a.seed = -1) (seed : Int) (hs' : seed ≠ -1) (hrd : BitVec.ofInt 32 seed = rd) :
    w.run ⟨r, rd, junk, fuel⟩ a = w.run ⟨r, rd, junk, fuel⟩ { a with seed := seed } := by
  have : r.initRng a.seed rd = r.initRng seed rd := by
    unfold Rng.initRng; rw [if_neg (by simpa using hs), if_pos hs', hrd]
  cases w <;>
    simp only [Walk.run, BallWalk.generateCompleteWalk, HitRun.generateCompleteWalk,
      BarrierWalk.generateCompleteWalk, SparseBallWalk.generateCompleteWalk,
      SparseHitRun.generateCompleteWalk, SparseBarrier.generateCompleteWalk, this]

/-- C06: -1 is the only special seed, and different `int` seeds seed the generator differently. -/
theorem C06_seed_injective (s t : Int) (hs : IsInt s) (ht : IsInt t)
    (h : BitVec.ofInt 32 s = BitVec.ofInt 32 t) : s = t := by
  have h1 := congrArg BitVec.toInt h
  rw [BitVec.toInt_ofInt, BitVec.toInt_ofInt] at h1
  unfold IsInt intMin intMax at hs ht
  have e1 : s.bmod (2 ^ 32) = s := Int.bmod_eq_of_le (by omega) (by omega)
  have e2 : t.bmod (2 ^ 32) = t := Int.bmod_eq_of_le (by omega) (by omega)
  rwa [e1, e2] at h1

theorem Rng.normalState_reseed (r : Rng F) (f : BitVec 32 → r.G) (g : r.G) (i : ℕ) :
    Rng.normalState { r with seed := f } g i = r.normalState g i := by
  induction i with
  | zero => rfl
  | succ i ih => simp only [Rng.normalState]; rw [ih]

theorem Rng.gaussian_reseed (r : Rng F) (f : BitVec 32 → r.G) (d : ℕ) (g : r.G) :
    Rng.gaussian { r with seed := f } d g = r.gaussian d g := by
  simp only [Rng.gaussian, Rng.normalState_reseed]

theorem Rng.gaussianNorm_reseed (r : Rng F) (f : BitVec 32 → r.G) (d : ℕ) (g : r.G) :
    Rng.gaussianNorm { r with seed := f } d g = r.gaussianNorm d g := by
  simp only [Rng.gaussianNorm, Rng.gaussian_reseed]

section
variable {m n : ℕ}

theorem BallWalk.step_reseed (R : F) (r : Rng F) (f : BitVec 32 → r.G) (A : Matrix (Fin m) (Fin n) F) (b : Fin m → F) :
    BallWalk.step R { r with seed := f } A b = BallWalk.step R r A b := by
  funext s; simp only [BallWalk.step, Rng.gaussianNorm_reseed]

theorem HitRun.step_reseed (R ERR : F) (fuel : ℕ) (r : Rng F) (f : BitVec 32 → r.G) (A : Matrix (Fin m) (Fin n) F)
    (b : Fin m → F) : HitRun.step R ERR fuel { r with seed := f } A b = HitRun.step R ERR fuel r A b := by
  funext s; simp only [HitRun.step, Rng.gaussianNorm_reseed]

theorem BarrierWalk.step_reseed {σ : Type} (cls : BarrierClass F σ) (E : Eigen F) (r : Rng F) (f : BitVec 32 → r.G)
    (A : Matrix (Fin m) (Fin n) F) (b : Fin m → F) :
    BarrierWalk.step cls E { r with seed := f } A b = BarrierWalk.step cls E r A b := by
  funext s; simp only [BarrierWalk.step, BarrierWalk.generateSample, Rng.gaussian_reseed]

theorem SparseBallWalk.step_reseed (R : F) (E : Eigen F) (r : Rng F) (f : BitVec 32 → r.G) (A : Matrix (Fin m) (Fin n) F)
    (k : ℕ) : SparseBallWalk.step R E { r with seed := f } A k = SparseBallWalk.step R E r A k := by
  funext s; simp only [SparseBallWalk.step, Rng.gaussian_reseed]

theorem SparseHitRun.step_reseed (R ERR : F) (fuel : ℕ) (E : Eigen F) (r : Rng F) (f : BitVec 32 → r.G)
    (A : Matrix (Fin m) (Fin n) F) (k : ℕ) :
    SparseHitRun.step R ERR fuel E { r with seed := f } A k = SparseHitRun.step R ERR fuel E r A k := by
  funext s; simp only [SparseHitRun.step, Rng.gaussian_reseed]

theorem SparseBarrier.step_reseed {σ : Type} (cls : SparseBarrierClass F σ) (ERR : F) (E : Eigen F) (r : Rng F)
    (f : BitVec 32 → r.G) (junk : Fin n → F) (A : Matrix (Fin m) (Fin n) F) (k : ℕ) :
    SparseBarrier.step cls ERR E { r with seed := f } junk A k = SparseBarrier.step cls ERR E r junk A k := by
  funext s; simp only [SparseBarrier.step, SparseBarrier.generateSample, Rng.gaussian_reseed]
end

/-- C06: the seed enters a seeded run only through its 32-bit word: the run equals the run in which the generator is put, whatever
seed or entropy is passed, in the state `mt19937(seed)`. -/
theorem C06_seed_word (w : Walk F) (r : Rng F) (junk : (n : ℕ) → Fin n → F) (fuel : ℕ) (a : Args F)
    (hs : a.seed ≠ -1) (seed' : Int) (rd rd' : BitVec 32) :
    w.run ⟨r, rd, junk, fuel⟩ a =
      w.run ⟨{ r with seed := fun _ => r.seed (BitVec.ofInt 32 a.seed) }, rd', junk, fuel⟩ { a with seed := seed' } := by
  have h1 : r.initRng a.seed rd = r.seed (BitVec.ofInt 32 a.seed) := by
    unfold Rng.initRng; rw [if_pos hs]
  have h2 : Rng.initRng { r with seed := fun _ => r.seed (BitVec.ofInt 32 a.seed) } seed' rd' =
      r.seed (BitVec.ofInt 32 a.seed) := by
    unfold Rng.initRng; split <;> rfl
  cases w <;>
    simp only [Walk.run, BallWalk.generateCompleteWalk, HitRun.generateCompleteWalk,
      BarrierWalk.generateCompleteWalk, SparseBallWalk.generateCompleteWalk,
      SparseHitRun.generateCompleteWalk, SparseBarrier.generateCompleteWalk, h1, h2, BallWalk.step_reseed,
      HitRun.step_reseed, BarrierWalk.step_reseed, SparseBallWalk.step_reseed, SparseHitRun.step_reseed,
      SparseBarrier.step_reseed]

/-- A generator with two states, told apart by the seed word `v`. -/
def seedProbe (v : BitVec 32) : Rng Int where
  G := Bool
  N := Unit
  seed w := decide (w = v)
  normalInit := ()
  normal _ g := (if g then 1 else 2, (), g)
  uniform g := (0, g)

/-- C06: distinct seeds reach the generator as distinct words: for any two distinct `int` seeds other than -1 there is a generator
for which the two runs (of a Ball walk on a half line) return different samples, whatever the entropy. -/
theorem C06_seeds_distinguished (s t : Int) (hs : IsInt s) (ht : IsInt t) (hs1 : s ≠ -1) (ht1 : t ≠ -1) (hst : s ≠ t)
    (rd rd' : BitVec 32) (junk : (n : ℕ) → Fin n → Int) (fuel : ℕ) : let _ := Toy.intScalar
    ∃ (r : Rng Int), (Walk.ball 1).run ⟨r, rd, junk, fuel⟩ { Toy.args 1 0 1 with seed := s } ≠
      (Walk.ball 1).run ⟨r, rd', junk, fuel⟩ { Toy.args 1 0 1 with seed := t } := by
  intro _
  refine ⟨seedProbe (BitVec.ofInt 32 s), ?_⟩
  have h1 : (seedProbe (BitVec.ofInt 32 s)).initRng s rd = true := by
    unfold Rng.initRng; rw [if_pos hs1]; exact decide_eq_true rfl
  have h2 : (seedProbe (BitVec.ofInt 32 s)).initRng t rd' = false := by
    unfold Rng.initRng; rw [if_pos ht1]
    exact decide_eq_false fun h => hst (C06_seed_injective t s ht hs h).symm
  simp only [Walk.run, BallWalk.generateCompleteWalk, h1, h2]
  intro h
  have h3 := congrArg Toy.col h
  revert h3
  generalize BitVec.ofInt 32 s = v
  intro h3
  have e1 : Toy.col (checkDims (Toy.args 1 0 1).init (Toy.args 1 0 1).A (Toy.args 1 0 1).b fun x b =>
      (runLoop (BallWalk.step 1 (seedProbe v) (Toy.args 1 0 1).A.val b) Prod.fst 1 0 1 (x, true)).map Prod.fst) =
      .ok [1] := by rfl
  have e2 : Toy.col (checkDims (Toy.args 1 0 1).init (Toy.args 1 0 1).A (Toy.args 1 0 1).b fun x b =>
      (runLoop (BallWalk.step 1 (seedProbe v) (Toy.args 1 0 1).A.val b) Prod.fst 1 0 1 (x, false)).map Prod.fst) =
      .ok [2] := by rfl
  exact absurd (e1.symm.trans (h3.trans e2)) (by decide)

/-! ## C07 -/

/-- Dense classes that ignore the warm-start weights: replacing them commutes with a step. -/
private theorem dense_step_forget (cls : BarrierClass F (BState F)) (E : Eigen F) (r : Rng F)
    (hdist : ∀ o, cls.distTerm o = o.dist)
    (hgen : ∀ {m n : ℕ} (x : Fin n → F) (A : Matrix (Fin m) (Fin n) F) b,
      ∃ v, ∀ o, cls.generateWeight o x A b = .ok (v, o)) {m n : ℕ} (A : Matrix (Fin m) (Fin n) F)
    (b : Fin m → F) (w : DVec F) (s : (Fin n → F) × BState F × r.G) :
    BarrierWalk.step cls E r A b (s.1, ⟨s.2.1.dist, w⟩, s.2.2) =
      (BarrierWalk.step cls E r A b s).map fun s => (s.1, ⟨s.2.1.dist, w⟩, s.2.2) := by
  obtain ⟨x, o1, g⟩ := s
  simp only [BarrierWalk.step, BarrierWalk.generateSample, generateHessian]
  obtain ⟨v, hv⟩ := hgen x A b
  simp only [hv, Out.ok_bind]
  by_cases hvn : v.n = m
  · simp only [dif_pos hvn, Out.ok_bind, hdist]
    rcases inPolytope _ A b with c | _ | _ | _
    · cases c
      · rfl
      · simp only [Out.ok_bind, Bool.not_true, Bool.false_eq_true, if_false]
        obtain ⟨v', hv'⟩ := hgen (BarrierWalk.proposal E o1.dist (hessianOf (v.at hvn) x A b) x
            (r.gaussian n g).1) A b
        simp only [hv', Out.ok_bind]
        split
        · simp only [Out.ok_bind, Out.map_ok, hdist]
        · rfl
    all_goals rfl
  · simp only [dif_neg hvn, Out.ub_bind, Out.map_ub]

private theorem dense_forget (cls : BarrierClass F (BState F)) (E : Eigen F)
    (hset : ∀ o o' d n, cls.setDistTerm o d n = (cls.setDistTerm o' d n).map fun p => ⟨p.dist, o.w⟩)
    (hdist : ∀ o, cls.distTerm o = o.dist)
    (hgen : ∀ {m n : ℕ} (x : Fin n → F) (A : Matrix (Fin m) (Fin n) F) b,
      ∃ v, ∀ o, cls.generateWeight o x A b = .ok (v, o)) (o o' : BState F) (e : Env F) (a : Args F) :
    (Walk.barrier cls E o).run e a = (Walk.barrier cls E o').run e a := by
  simp only [Walk.run, BarrierWalk.generateCompleteWalk, checkDims]
  split
  · rw [hset o o', Out.bind_map, Out.map_bind, Out.map_bind]
    congr 1; funext p
    rw [Out.map_map, Out.map_map]
    exact runLoop_sim (F := F) (fun s : (Fin a.A.c → F) × BState F × e.r.G =>
        (s.1, (⟨s.2.1.dist, o.w⟩ : BState F), s.2.2)) _ _ Prod.fst Prod.fst
      (fun s => dense_step_forget cls E e.r hdist hgen a.A.val _ o.w s) (fun _ => rfl) a.niter a.burnin
      a.thin (_, p, e.r.initRng a.seed e.rd)
  · rfl

/-- Sparse classes that ignore the warm-start weights. -/
private theorem sparse_step_forget (cls : SparseBarrierClass F (BState F)) (ERR : F) (E : Eigen F)
    (r : Rng F) (hdist : ∀ o, cls.distTerm o = o.dist)
    (hgen : ∀ {m n : ℕ} junk (x : Fin n → F) (A : Matrix (Fin m) (Fin n) F) k,
      ∃ v, ∀ o, cls.generateWeight junk o x A k = .ok (v, o)) {m n : ℕ} (junk : Fin n → F)
    (A : Matrix (Fin m) (Fin n) F) (k : ℕ) (w : DVec F) (s : (Fin n → F) × BState F × r.G) :
    SparseBarrier.step cls ERR E r junk A k (s.1, ⟨s.2.1.dist, w⟩, s.2.2) =
      (SparseBarrier.step cls ERR E r junk A k s).map fun s => (s.1, ⟨s.2.1.dist, w⟩, s.2.2) := by
  obtain ⟨x, o1, g⟩ := s
  have hG : ∀ x : Fin n → F, (∃ G, ∀ o, generateG cls ERR junk o x A k = .ok (G, o)) ∨
      ∀ o, generateG cls ERR junk o x A k = .ub .sizeMismatch := by
    intro x
    obtain ⟨v, hv⟩ := hgen junk x A k
    simp only [generateG, hv, Out.ok_bind]
    by_cases h : v.n = n
    · left; exact ⟨metricG ERR junk x (v.at h) k, fun o => dif_pos h⟩
    · right; exact fun o => dif_neg h
  simp only [SparseBarrier.step, SparseBarrier.generateSample, SparseBarrier.generateProposalDensity]
  split
  · rfl
  · rcases hG x with ⟨G, hG1⟩ | hG1
    · simp only [hG1, Out.ok_bind, hdist]
      rcases inPolytopeK _ k with c | _ | _ | _
      · cases c
        · rfl
        · simp only [Out.ok_bind, if_true]
          rcases hG (SparseBarrier.proposal E o1.dist G A x (r.gaussian n g).1) with ⟨G', hG2⟩ | hG2
          · simp only [hG2, Out.ok_bind, Out.map_ok, hdist]
          · simp only [hG2, Out.ub_bind, Out.map_ub]
      all_goals rfl
    · simp only [hG1, Out.ub_bind, Out.map_ub]

private theorem sparse_forget (cls : SparseBarrierClass F (BState F)) (ERR : F) (E : Eigen F)
    (hset : ∀ o o' d n, cls.setDistTerm o d n = (cls.setDistTerm o' d n).map fun p => ⟨p.dist, o.w⟩)
    (hdist : ∀ o, cls.distTerm o = o.dist)
    (hgen : ∀ {m n : ℕ} junk (x : Fin n → F) (A : Matrix (Fin m) (Fin n) F) k,
      ∃ v, ∀ o, cls.generateWeight junk o x A k = .ok (v, o)) (o o' : BState F) (e : Env F)
    (a : Args F) :
    (Walk.sparseBarrier cls ERR E o).run e a = (Walk.sparseBarrier cls ERR E o').run e a := by
  simp only [Walk.run, SparseBarrier.generateCompleteWalk, checkKDims, checkDims]
  split
  · rfl
  · split
    · rw [hset o o', Out.bind_map, Out.map_bind, Out.map_bind]
      congr 1; funext p
      rw [Out.map_map, Out.map_map]
      exact runLoop_sim (F := F) (fun s : (Fin a.A.c → F) × BState F × e.r.G =>
        (s.1, (⟨s.2.1.dist, o.w⟩ : BState F), s.2.2)) _ _ Prod.fst Prod.fst
        (fun s => sparse_step_forget cls ERR E e.r hdist hgen _ a.A.val _ o.w s) (fun _ => rfl) a.niter
        a.burnin a.thin (_, p, e.r.initRng a.seed e.rd)
    · rfl

/-- C07: the result of `generateCompleteWalk` does not depend on what earlier calls left in the object's
members: two objects of the same class and constructor parameters, with any member values, return the same
matrix (and fail alike) on the same arguments. -/
theorem C07_reuse (w w' : Walk F) (hw : Walk.SameWalk w w') (e : Env F) (a : Args F) :
    w.run e a = w'.run e a := by
  cases hw with
  | ball => rfl
  | hitRun => rfl
  | sparseBall => rfl
  | sparseHitRun => rfl
  | barrier R E o o' =>
    exact dense_forget _ E (fun _ _ _ _ => rfl) (fun _ => rfl) (fun _ _ _ => ⟨_, fun _ => rfl⟩) o o' e a
  | dikin R E o o' =>
    exact dense_forget _ E (fun _ _ _ _ => rfl) (fun _ => rfl) (fun _ _ _ => ⟨_, fun _ => rfl⟩) o o' e a
  | vaidya R E o o' =>
    exact dense_forget _ E (fun _ _ d n => by
      simp only [vaidyaClass, Out.map_bind, Out.map_ok]) (fun _ => rfl)
      (fun _ _ _ => ⟨_, fun _ => rfl⟩) o o' e a
  | john => rfl
  | dikinLS => rfl
  | sparseBarrier ERR E o o' =>
    exact sparse_forget _ ERR E (fun _ _ _ _ => rfl) (fun _ => rfl) (fun _ _ _ _ => ⟨_, fun _ => rfl⟩)
      o o' e a
  | sparseDikin R ERR E o o' =>
    exact sparse_forget _ ERR E (fun _ _ _ _ => rfl) (fun _ => rfl) (fun _ _ _ _ => ⟨_, fun _ => rfl⟩)
      o o' e a
  | sparseVaidya R ERR E o o' =>
    exact sparse_forget _ ERR E (fun _ _ d n => by
      simp only [sparseVaidyaClass, Out.map_bind, Out.map_ok]) (fun _ => rfl)
      (fun _ _ _ _ => ⟨_, fun _ => rfl⟩) o o' e a
  | sparseJohn => rfl
  | sparseDikinLS => rfl

/-! ## Concrete cases meeting the hypotheses -/

section Examples
open Toy
attribute [local instance] Toy.intScalar

/-- A run of the ball walk with burn-in 1 and thinning 2 returns normally; C01, C02, C08 apply to it. -/
example : GoodInts 6 1 2 ∧ (Walk.ball (F := Int) 1).Library ∧ (args 6 1 2).DimsOk ∧
    col ((Walk.ball 1).run env (args 6 1 2)) = .ok [15, 30] ∧
    col ((Walk.ball 1).run env (args 6 0 1)) = .ok [4, 9, 15, 22, 30, 39] :=
  ⟨⟨by decide, by decide, by decide, by decide, by decide⟩, .ball 1, by decide, by decide, by decide⟩

/-- The C03 witnesses are not vacuous: the ball walk meets their hypotheses. -/
example : (args 0 (-1) 1).DimsOk ∧
    (Walk.ball (F := Int) 1).run env (args 0 (-1) 1) = .ok [fun _ => 0] ∧
    (Walk.ball (F := Int) 1).run env (args 3 0 0) = .ub .divByZero ∧
    (Walk.ball (F := Int) 1).run env (args 3 10 2) = .ub .negativeSize ∧
    col ((Walk.ball (F := Int) 1).run env (args 5 10 10)) = .ok [] := by
  refine ⟨by decide, ?_, ?_, ?_, by decide⟩
  · exact C03_filler_rows _ env _ (by decide) (by decide) rfl rfl rfl ⟨_, rfl⟩
  · exact C03_thin_zero _ env _ (by decide) (by decide) rfl (by decide) ⟨_, rfl⟩
  · exact C03_negative_size _ env _ (by decide) (by decide) (by decide) (by decide) (by decide) ⟨_, rfl⟩

/-- A mismatched call (C04) and a bad `k` (C05) exist. -/
example : ¬ ({ args 3 0 1 with b := ⟨2, fun _ => 0⟩ } : Args Int).DimsOk ∧
    (({ args 3 0 1 with k := 2 } : Args Int).A.c : Int) < 2 := by decide

/-- Two objects of the same class with different histories (C07). -/
example (E : Eigen Int) : Walk.SameWalk (.barrier (johnClass E 1 1 5) E (BState.fresh 0))
    (.barrier (johnClass E 1 1 5) E ⟨4, ⟨2, fun _ => 3⟩⟩) := .john ..

end Examples

end PW
