import Verif.Lemmas.Redescribe
import Verif.Spec.Limit

/-!
# C91, C92: dense walks on equivalent descriptions, and on moved or rescaled polytopes
-/

set_option linter.unusedVariables false
set_option linter.unusedSectionVars false

namespace PW
open Finset
variable {m n : ℕ}

theorem Walk.run_callArgs (w : Walk ℝ) (hw : w.isSparse = false) (e : Env ℝ) (A : Matrix (Fin m) (Fin n) ℝ) (b : Fin m → ℝ)
    (x : Fin n → ℝ) (niter k burnin thin seed : Int) :
    w.run e (callArgs A b x niter k burnin thin seed) = (w.start e m x k seed).bind fun s0 =>
      (runLoop (w.step e A b k) (w.pos e) niter burnin thin s0).map Prod.fst := by
  rw [Walk.run_eq, if_neg (by rw [hw]; exact fun h => Bool.false_ne_true h.1), dif_pos ⟨rfl, rfl⟩]
  rfl

theorem Out.map_listId {α : Type} (o : Out (List α)) : o.map (List.map id) = o := by
  cases o
  · exact congrArg Out.ok (List.map_id _)
  · rfl
  · rfl
  · rfl

theorem barrier_same {cls : BarrierClass ℝ (BState ℝ)} {σ : Equiv.Perm (Fin m)} {Ro} (hc : PermClass σ n cls Ro) {c : Fin m → ℝ}
    {A A' : Matrix (Fin m) (Fin n) ℝ} {b b' : Fin m → ℝ} (hr : Redescribed σ c 0 A b A' b') (E : Eigen ℝ) (o : BState ℝ) (e : Env ℝ)
    (x : Fin n → ℝ) (niter k burnin thin seed : Int) :
    (Walk.barrier cls E o).run e (callArgs A' b' x niter k burnin thin seed) =
      (Walk.barrier cls E o).run e (callArgs A b x niter k burnin thin seed) := by
  rw [Walk.run_callArgs _ rfl, Walk.run_callArgs _ rfl]
  refine Out.Rel.eq ?_
  show Out.Rel _ (((cls.setDistTerm o n m).bind fun o => .ok (x, o, e.r.initRng seed e.rd)).bind _)
    (((cls.setDistTerm o n m).bind fun o => .ok (x, o, e.r.initRng seed e.rd)).bind _)
  refine Out.Rel.bind (R := BRel 0 Ro) ((hc.start o).bind fun o1 o1' h =>
    Out.Rel.ok (show BRel 0 Ro (x, o1, e.r.initRng seed e.rd) (x, o1', e.r.initRng seed e.rd) from ⟨funext fun j => (add_zero _).symm, h, rfl⟩)) ?_
  intro s s' hs
  refine Out.Rel.of_eq (R := fun a b => b = a) (fun _ => rfl) ?_
  have := runLoop_rel_zero (n := n) (n' := n) (F := ℝ) (R := BRel 0 Ro) (step := BarrierWalk.step cls E e.r A b) (step' := BarrierWalk.step cls E e.r A' b')
    hs (fun t s s' _ h => hc.step hr E e.r s s' h) (pos := Prod.fst) (pos' := Prod.fst) id rfl
    (fun s s' h => h.1.trans (funext fun j => add_zero _)) niter burnin thin
  exact (this.trans (Out.map_listId _)).symm

theorem barrier_moved {cls : BarrierClass ℝ (BState ℝ)} {σ : Equiv.Perm (Fin m)} {Ro} (hc : PermClass σ n cls Ro) {c : Fin m → ℝ} {v : Fin n → ℝ}
    {A A' : Matrix (Fin m) (Fin n) ℝ} {b b' : Fin m → ℝ} (hr : Redescribed σ c v A b A' b') (E : Eigen ℝ) (o : BState ℝ) (e : Env ℝ)
    (x : Fin n → ℝ) {niter k burnin thin seed : Int} (hg : GoodInts niter burnin thin) :
    (Walk.barrier cls E o).run e (callArgs A' b' (x + v) niter k burnin thin seed) =
      ((Walk.barrier cls E o).run e (callArgs A b x niter k burnin thin seed)).map (List.map fun y => y + v) := by
  rw [Walk.run_callArgs _ rfl, Walk.run_callArgs _ rfl, Out.map_bind]
  refine Out.Rel.eq ?_
  show Out.Rel _ (((cls.setDistTerm o n m).bind fun o => .ok (x, o, e.r.initRng seed e.rd)).bind _)
    (((cls.setDistTerm o n m).bind fun o => .ok (x + v, o, e.r.initRng seed e.rd)).bind _)
  refine Out.Rel.bind (R := BRel v Ro) ((hc.start o).bind fun o1 o1' h =>
    Out.Rel.ok (show BRel v Ro (x, o1, e.r.initRng seed e.rd) (x + v, o1', e.r.initRng seed e.rd) from ⟨rfl, h, rfl⟩)) ?_
  intro s s' hs
  refine Out.Rel.of_eq (R := fun a b => b = a) (fun _ => rfl) ?_
  exact (runLoop_rel (n := n) (n' := n) (F := ℝ) (R := BRel v Ro) (step := BarrierWalk.step cls E e.r A b) (step' := BarrierWalk.step cls E e.r A' b')
    hs (fun t s s' _ h => hc.step hr E e.r s s' h) (pos := Prod.fst) (pos' := Prod.fst) (fun y => y + v)
    (fun s s' h => h.1) hg).symm


/-- Every point is inside the second polytope exactly if its preimage is inside the first. -/
theorem inPolytope_affine {m' : ℕ} (hm : 0 < m) (hm' : 0 < m') {A : Matrix (Fin m) (Fin n) ℝ} {b : Fin m → ℝ} {A' : Matrix (Fin m') (Fin n) ℝ}
    {b' : Fin m' → ℝ} {a : ℝ} {v : Fin n → ℝ} (h : ∀ x, a • x + v ∈ Poly A' b' ↔ x ∈ Poly A b) (x : Fin n → ℝ) :
    inPolytope (fun j => a * x j + v j) A' b' = inPolytope x A b := by
  rw [inPolytope_real _ _ _ hm, inPolytope_real _ _ _ hm']
  congr 1
  exact decide_eq_decide.2 (h x)

theorem ball_affine {m' : ℕ} (hm : 0 < m) (hm' : 0 < m') {A : Matrix (Fin m) (Fin n) ℝ} {b : Fin m → ℝ} {A' : Matrix (Fin m') (Fin n) ℝ}
    {b' : Fin m' → ℝ} {a : ℝ} {v : Fin n → ℝ} (h : ∀ x, a • x + v ∈ Poly A' b' ↔ x ∈ Poly A b) (R : ℝ) (e : Env ℝ)
    (x : Fin n → ℝ) {niter k burnin thin seed : Int} (hg : GoodInts niter burnin thin ∨ v = 0) :
    (Walk.ball (a * R)).run e (callArgs A' b' (a • x + v) niter k burnin thin seed) =
      ((Walk.ball R).run e (callArgs A b x niter k burnin thin seed)).map (List.map fun y => a • y + v) := by
  rw [Walk.run_callArgs _ rfl, Walk.run_callArgs _ rfl]
  have hs := fun (t : ℕ) s s' (_ : iter (BallWalk.step R e.r A b) t (x, e.r.initRng seed e.rd) = .ok s) hh =>
    ball_rel (inPolytope_affine hm hm' h) R e.r s s' hh
  have h0 : PRel (fun x j => a * x j + v j) (x, e.r.initRng seed e.rd) (a • x + v, e.r.initRng seed e.rd) := ⟨rfl, rfl⟩
  rcases hg with hg | hv
  · exact runLoop_rel h0 hs (pos := Prod.fst) (pos' := Prod.fst) (fun y => a • y + v) (fun s s' h => h.1) hg
  · exact runLoop_rel_zero h0 hs (pos := Prod.fst) (pos' := Prod.fst) (fun y => a • y + v)
      (by funext j; subst hv; show a * 0 + 0 = (0 : ℝ); ring) (fun s s' h => h.1) niter burnin thin

theorem hitRun_affine {m' : ℕ} (hm : 0 < m) (hm' : 0 < m') {A : Matrix (Fin m) (Fin n) ℝ} {b : Fin m → ℝ} {A' : Matrix (Fin m') (Fin n) ℝ}
    {b' : Fin m' → ℝ} {a : ℝ} (ha : 0 < a) {v : Fin n → ℝ} (h : ∀ x, a • x + v ∈ Poly A' b' ↔ x ∈ Poly A b) (R ERR : ℝ) (e : Env ℝ)
    (x : Fin n → ℝ) {niter k burnin thin seed : Int} (hg : GoodInts niter burnin thin ∨ v = 0) :
    (Walk.hitRun (a * R) (a * ERR)).run e (callArgs A' b' (a • x + v) niter k burnin thin seed) =
      ((Walk.hitRun R ERR).run e (callArgs A b x niter k burnin thin seed)).map (List.map fun y => a • y + v) := by
  rw [Walk.run_callArgs _ rfl, Walk.run_callArgs _ rfl]
  have hs := fun (t : ℕ) s s' (_ : iter (HitRun.step R ERR e.fuel e.r A b) t (x, e.r.initRng seed e.rd) = .ok s) hh =>
    hitRun_rel ha (inPolytope_affine hm hm' h) R ERR e.fuel e.r s s' hh
  have h0 : PRel (fun x j => a * x j + v j) (x, e.r.initRng seed e.rd) (a • x + v, e.r.initRng seed e.rd) := ⟨rfl, rfl⟩
  rcases hg with hg | hv
  · exact runLoop_rel h0 hs (pos := Prod.fst) (pos' := Prod.fst) (fun y => a • y + v) (fun s s' h => h.1) hg
  · exact runLoop_rel_zero h0 hs (pos := Prod.fst) (pos' := Prod.fst) (fun y => a • y + v)
      (by funext j; subst hv; show a * 0 + 0 = (0 : ℝ); ring) (fun s s' h => h.1) niter burnin thin


/-- C91: `BallWalk` and `HitAndRun` look at the constraints only through the set of points that satisfy them: two
descriptions of the same polytope, with any numbers of constraints (redundant, repeated, rescaled or reordered ones), make
the same call return the same rows - or fail in the same way - for every generator, start and integer argument. -/
theorem C91_same_set {m' : ℕ} (hm : 0 < m) (hm' : 0 < m') {A : Matrix (Fin m) (Fin n) ℝ} {b : Fin m → ℝ} {A' : Matrix (Fin m') (Fin n) ℝ}
    {b' : Fin m' → ℝ} (h : Poly A' b' = Poly A b) {w : Walk ℝ} (hw : (∃ R, w = .ball R) ∨ ∃ R ERR, w = .hitRun R ERR) (e : Env ℝ)
    (x : Fin n → ℝ) (niter k burnin thin seed : Int) :
    w.run e (callArgs A' b' x niter k burnin thin seed) = w.run e (callArgs A b x niter k burnin thin seed) := by
  have ha : ∀ y : Fin n → ℝ, (1 : ℝ) • y + 0 = y := fun y => by rw [one_smul, add_zero]
  have h1 : ∀ x, (1 : ℝ) • x + 0 ∈ Poly A' b' ↔ x ∈ Poly A b := fun x => by rw [ha, h]
  have hf : (fun y : Fin n → ℝ => (1 : ℝ) • y + 0) = id := funext ha
  rcases hw with ⟨R, rfl⟩ | ⟨R, ERR, rfl⟩
  · have := ball_affine hm hm' h1 R e x (niter := niter) (k := k) (burnin := burnin) (thin := thin) (seed := seed) (.inr rfl)
    rw [ha, one_mul, hf] at this
    exact this.trans (Out.map_listId _)
  · have := hitRun_affine hm hm' one_pos h1 R ERR e x (niter := niter) (k := k) (burnin := burnin) (thin := thin) (seed := seed) (.inr rfl)
    rw [ha, one_mul, one_mul, hf] at this
    exact this.trans (Out.map_listId _)

theorem Redescribed.poly {σ : Equiv.Perm (Fin m)} {c : Fin m → ℝ} {v : Fin n → ℝ} {A A' : Matrix (Fin m) (Fin n) ℝ} {b b' : Fin m → ℝ}
    (hr : Redescribed σ c v A b A' b') (x : Fin n → ℝ) : x + v ∈ Poly A' b' ↔ x ∈ Poly A b := by
  rcases Nat.eq_zero_or_pos m with rfl | hm
  · exact ⟨fun _ i => i.elim0, fun _ i => i.elim0⟩
  · have := hr.inside x
    rw [inPolytope_real _ _ _ hm, inPolytope_real _ _ _ hm] at this
    exact decide_eq_decide.1 (Out.ok.inj this)

/-- C91: listing the constraints in another order and multiplying each of them by a positive number changes nothing in what
any of the dense walks of the library returns. -/
theorem C91_rows {σ : Equiv.Perm (Fin m)} {c : Fin m → ℝ} {A A' : Matrix (Fin m) (Fin n) ℝ} {b b' : Fin m → ℝ} (hm : 0 < m)
    (hr : Redescribed σ c 0 A b A' b') {w : Walk ℝ} (hw : w.Library) (hd : w.isSparse = false) (e : Env ℝ)
    (x : Fin n → ℝ) (niter k burnin thin seed : Int) :
    w.run e (callArgs A' b' x niter k burnin thin seed) = w.run e (callArgs A b x niter k burnin thin seed) := by
  have hp : Poly A' b' = Poly A b := Set.ext fun x => by rw [← hr.poly, add_zero]
  cases hw with
  | ball R => exact C91_same_set hm hm hp (.inl ⟨R, rfl⟩) ..
  | hitRun R ERR => exact C91_same_set hm hm hp (.inr ⟨R, ERR, rfl⟩) ..
  | barrier R E o => exact barrier_same (permClass_base σ n R) hr ..
  | dikin R E o => exact barrier_same (permClass_dikin σ n R) hr ..
  | vaidya R E o => exact barrier_same (permClass_vaidya σ n E R) hr ..
  | john R LIM M E o => exact barrier_same (permClass_john σ n E R LIM M) hr ..
  | dikinLS R G S M E o => exact barrier_same (permClass_ls σ n E R G S M) hr ..
  | _ => exact Bool.noConfusion hd

/-- C92: moving the polytope and the start by `v` moves every returned row by `v`, for every dense walk of the library and
every generator: nothing depends on where the origin is. -/
theorem C92_moved {σ : Equiv.Perm (Fin m)} {c : Fin m → ℝ} {v : Fin n → ℝ} {A A' : Matrix (Fin m) (Fin n) ℝ} {b b' : Fin m → ℝ} (hm : 0 < m)
    (hr : Redescribed σ c v A b A' b') {w : Walk ℝ} (hw : w.Library) (hd : w.isSparse = false) (e : Env ℝ)
    (x : Fin n → ℝ) {niter k burnin thin seed : Int} (hg : GoodInts niter burnin thin) :
    w.run e (callArgs A' b' (x + v) niter k burnin thin seed) =
      (w.run e (callArgs A b x niter k burnin thin seed)).map (List.map fun y => y + v) := by
  have h1 : ∀ x, (1 : ℝ) • x + v ∈ Poly A' b' ↔ x ∈ Poly A b := fun x => by rw [one_smul]; exact hr.poly x
  have e1 : (1 : ℝ) • x + v = x + v := by rw [one_smul]
  cases hw with
  | ball R =>
    have := ball_affine hm hm h1 R e x (k := k) (seed := seed) (.inl hg)
    rw [e1] at this
    simp only [one_smul, one_mul] at this
    exact this
  | hitRun R ERR =>
    have := hitRun_affine hm hm one_pos h1 R ERR e x (k := k) (seed := seed) (.inl hg)
    rw [e1] at this
    simp only [one_smul, one_mul] at this
    exact this
  | barrier R E o => exact barrier_moved (permClass_base σ n R) hr E o e x hg
  | dikin R E o => exact barrier_moved (permClass_dikin σ n R) hr E o e x hg
  | vaidya R E o => exact barrier_moved (permClass_vaidya σ n E R) hr E o e x hg
  | john R LIM M E o => exact barrier_moved (permClass_john σ n E R LIM M) hr E o e x hg
  | dikinLS R G S M E o => exact barrier_moved (permClass_ls σ n E R G S M) hr E o e x hg
  | _ => exact Bool.noConfusion hd

/-- C92: `BallWalk` and `HitAndRun` in other units. If the second polytope is the first one magnified by `a` and moved by
`v` (given by any constraints), and the lengths among the parameters are magnified as well, every returned row is the
magnified and moved row of the first call. -/
theorem C92_units {m' : ℕ} (hm : 0 < m) (hm' : 0 < m') {A : Matrix (Fin m) (Fin n) ℝ} {b : Fin m → ℝ} {A' : Matrix (Fin m') (Fin n) ℝ}
    {b' : Fin m' → ℝ} {a : ℝ} (ha : 0 < a) {v : Fin n → ℝ} (h : Poly A' b' = (fun x => a • x + v) '' Poly A b) (R ERR : ℝ) (e : Env ℝ)
    (x : Fin n → ℝ) {niter k burnin thin seed : Int} (hg : GoodInts niter burnin thin) :
    (Walk.ball (a * R)).run e (callArgs A' b' (a • x + v) niter k burnin thin seed) =
      ((Walk.ball R).run e (callArgs A b x niter k burnin thin seed)).map (List.map fun y => a • y + v) ∧
    (Walk.hitRun (a * R) (a * ERR)).run e (callArgs A' b' (a • x + v) niter k burnin thin seed) =
      ((Walk.hitRun R ERR).run e (callArgs A b x niter k burnin thin seed)).map (List.map fun y => a • y + v) := by
  have hinj : Function.Injective fun x : Fin n → ℝ => a • x + v := fun x y hxy => by
    have := add_right_cancel hxy
    exact smul_right_injective _ ha.ne' this
  have h1 : ∀ x, a • x + v ∈ Poly A' b' ↔ x ∈ Poly A b := fun x => by
    rw [h]; exact hinj.mem_set_image
  exact ⟨ball_affine hm hm' h1 R e x (.inl hg), hitRun_affine hm hm' ha h1 R ERR e x (.inl hg)⟩

/-! ### The hypotheses are met -/

theorem vec2_segment (x : Fin 1 → ℝ) (A : Matrix (Fin 2) (Fin 1) ℝ) (b : Fin 2 → ℝ) :
    x ∈ Poly A b ↔ A 0 0 * x 0 ≤ b 0 ∧ A 1 0 * x 0 ≤ b 1 := by
  show (∀ i, A.mulVec x i ≤ b i) ↔ _
  have : ∀ i, A.mulVec x i = A i 0 * x 0 := fun i => Fin.sum_univ_one (fun j => A i j * x j)
  simp only [this, Fin.forall_fin_two]

theorem vec3_segment (x : Fin 1 → ℝ) (A : Matrix (Fin 3) (Fin 1) ℝ) (b : Fin 3 → ℝ) :
    x ∈ Poly A b ↔ A 0 0 * x 0 ≤ b 0 ∧ A 1 0 * x 0 ≤ b 1 ∧ A 2 0 * x 0 ≤ b 2 := by
  show (∀ i, A.mulVec x i ≤ b i) ↔ _
  have : ∀ i, A.mulVec x i = A i 0 * x 0 := fun i => Fin.sum_univ_one (fun j => A i j * x j)
  simp only [this, Fin.forall_fin_succ, Fin.isValue, IsEmpty.forall_iff, and_true]
  rfl

/-- C91, `[-1, 1]` described by `x ≤ 1, -x ≤ 1` and, with a redundant and a rescaled constraint, by
`-2x ≤ 2, x ≤ 5, 3x ≤ 3`. -/
example (e : Env ℝ) (R ERR : ℝ) (x : Fin 1 → ℝ) :
    (Walk.hitRun R ERR).run e (callArgs (m := 3) (fun i _ => ![-2, 1, 3] i) ![2, 5, 3] x 10 0 0 1 (-1)) =
      (Walk.hitRun R ERR).run e (callArgs (m := 2) (fun i _ => ![1, -1] i) ![1, 1] x 10 0 0 1 (-1)) := by
  refine C91_same_set (by norm_num) (by norm_num) ?_ (.inr ⟨R, ERR, rfl⟩) ..
  ext x
  refine (vec3_segment _ _ _).trans (Iff.trans ?_ (vec2_segment _ _ _).symm)
  show -2 * x 0 ≤ 2 ∧ 1 * x 0 ≤ 5 ∧ 3 * x 0 ≤ 3 ↔ 1 * x 0 ≤ 1 ∧ -1 * x 0 ≤ 1
  constructor
  · rintro ⟨h1, h2, h3⟩; exact ⟨by linarith, by linarith⟩
  · rintro ⟨h1, h2⟩; exact ⟨by linarith, by linarith, by linarith⟩

/-- C91, the two constraints swapped and rescaled, for the John walk. -/
example (e : Env ℝ) (E : Eigen ℝ) (o : BState ℝ) (x : Fin 1 → ℝ) :
    (Walk.barrier (johnClass E 1 (1 / 100) 5) E o).run e (callArgs (m := 2) (fun i _ => ![-2, 3] i) ![2, 3] x 10 0 0 1 (-1)) =
      (Walk.barrier (johnClass E 1 (1 / 100) 5) E o).run e (callArgs (m := 2) (fun i _ => ![1, -1] i) ![1, 1] x 10 0 0 1 (-1)) := by
  refine C91_rows (σ := Equiv.swap 0 1) (c := ![2, 3]) (by norm_num) ⟨?_, ?_, ?_⟩ (.john ..) rfl ..
  · intro i; fin_cases i <;> norm_num
  · intro i j; fin_cases i <;> norm_num
  · intro i; fin_cases i <;> norm_num

/-- C92, `[-1, 1]` moved to `[6, 8]`, for the Vaidya walk. -/
example (e : Env ℝ) (E : Eigen ℝ) (o : BState ℝ) :
    (Walk.barrier (vaidyaClass E 1) E o).run e (callArgs (m := 2) (fun i _ => ![1, -1] i) ![8, -6] ((fun _ => 0) + fun _ => 7) 10 0 0 1 (-1)) =
      ((Walk.barrier (vaidyaClass E 1) E o).run e (callArgs (m := 2) (n := 1) (fun i _ => ![1, -1] i) ![1, 1] (fun _ => 0) 10 0 0 1 (-1))).map
        (List.map fun y => y + fun _ => 7) := by
  refine C92_moved (σ := Equiv.refl _) (c := fun _ => 1) (by norm_num) ⟨?_, ?_, ?_⟩ (.vaidya ..) rfl e _ (by constructor <;> norm_num [intMax])
  · intro i; exact one_pos
  · intro i j; fin_cases i <;> norm_num
  · intro i; fin_cases i <;> norm_num

/-- C92, `[-1, 1]` magnified to `[5, 9]`. -/
example (e : Env ℝ) (R : ℝ) :
    (Walk.ball (2 * R)).run e (callArgs (m := 2) (n := 1) (fun i _ => ![1, -1] i) ![9, -5] ((2 : ℝ) • (fun _ => 0) + fun _ => 7) 10 0 0 1 (-1)) =
      ((Walk.ball R).run e (callArgs (m := 2) (n := 1) (fun i _ => ![1, -1] i) ![1, 1] (fun _ => 0) 10 0 0 1 (-1))).map
        (List.map fun y => (2 : ℝ) • y + fun _ => 7) := by
  refine (C92_units (by norm_num) (by norm_num) two_pos ?_ R 1 e _ (by constructor <;> norm_num [intMax])).1
  ext x
  refine (vec2_segment _ _ _).trans ?_
  show 1 * x 0 ≤ 9 ∧ -1 * x 0 ≤ -5 ↔ ∃ y, y ∈ Poly _ _ ∧ (fun j => 2 * y j + 7) = x
  constructor
  · rintro ⟨h1, h2⟩
    refine ⟨fun _ => (x 0 - 7) / 2, (vec2_segment _ _ _).2 ?_, funext fun j => ?_⟩
    · show 1 * ((x 0 - 7) / 2) ≤ 1 ∧ -1 * ((x 0 - 7) / 2) ≤ 1
      constructor <;> linarith
    · rw [Subsingleton.elim j 0]; ring
  · rintro ⟨y, hy, rfl⟩
    have := (vec2_segment _ _ _).1 hy
    obtain ⟨h1, h2⟩ : 1 * y 0 ≤ 1 ∧ -1 * y 0 ≤ 1 := this
    constructor
    · show 1 * (2 * y 0 + 7) ≤ 9; linarith
    · show -1 * (2 * y 0 + 7) ≤ -5; linarith

end PW
