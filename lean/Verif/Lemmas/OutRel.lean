import Verif.Lemmas.Api

/-!
# Relating the outcomes of two runs
-/

set_option linter.unusedVariables false
set_option linter.unusedSectionVars false

namespace PW
universe u v
variable {α α' : Type u} {β β' : Type v}

/-- Both return, with related values, or both fail in the same way. -/
inductive Out.Rel (R : α → β → Prop) : Out α → Out β → Prop
  | ok {a b} (h : R a b) : Rel R (.ok a) (.ok b)
  | throws (e) : Rel R (.throws e) (.throws e)
  | ub (u) : Rel R (.ub u) (.ub u)
  | timeout : Rel R .timeout .timeout

theorem Out.Rel.bind {R : α → β → Prop} {S : α' → β' → Prop} {x : Out α} {y : Out β} (h : Out.Rel R x y)
    {f : α → Out α'} {g : β → Out β'} (hf : ∀ a b, R a b → Out.Rel S (f a) (g b)) : Out.Rel S (x.bind f) (y.bind g) := by
  cases h with
  | ok h => exact hf _ _ h
  | throws e => exact .throws e
  | ub u => exact .ub u
  | timeout => exact .timeout

theorem Out.Rel.map {R : α → β → Prop} {S : α' → β' → Prop} {x : Out α} {y : Out β} (h : Out.Rel R x y)
    {f : α → α'} {g : β → β'} (hf : ∀ a b, R a b → S (f a) (g b)) : Out.Rel S (x.map f) (y.map g) := by
  cases h with
  | ok h => exact .ok (hf _ _ h)
  | throws e => exact .throws e
  | ub u => exact .ub u
  | timeout => exact .timeout

theorem Out.Rel.refl {R : α → α → Prop} (h : ∀ a, R a a) (x : Out α) : Out.Rel R x x := by
  cases x
  · exact .ok (h _)
  · exact .throws _
  · exact .ub _
  · exact .timeout

theorem Out.Rel.of_eq {R : α → α → Prop} (h : ∀ a, R a a) {x y : Out α} (e : x = y) : Out.Rel R x y := e ▸ Out.Rel.refl h x

theorem Out.Rel.mono {R S : α → β → Prop} {x : Out α} {y : Out β} (h : Out.Rel R x y) (hf : ∀ a b, R a b → S a b) : Out.Rel S x y := by
  cases h with
  | ok h => exact .ok (hf _ _ h)
  | throws e => exact .throws e
  | ub u => exact .ub u
  | timeout => exact .timeout

theorem Out.Rel.eq_map {x : Out α} {y : Out β} {f : α → β} (h : Out.Rel (fun a b => b = f a) x y) : y = x.map f := by
  cases h with
  | ok h => exact congrArg Out.ok h
  | throws e => rfl
  | ub u => rfl
  | timeout => rfl

theorem Out.Rel.eq {x y : Out α} (h : Out.Rel (fun a b => b = a) x y) : y = x := by
  cases h with
  | ok h => exact congrArg Out.ok h
  | throws e => rfl
  | ub u => rfl
  | timeout => rfl

section
variable {F : Type} [Scalar F] {n n' : ℕ} {σ τ : Type}

theorem iter_rel {R : σ → τ → Prop} {step : σ → Out σ} {step' : τ → Out τ} {s0 : σ} {s0' : τ} (h0 : R s0 s0')
    (hs : ∀ t s s', iter step t s0 = .ok s → R s s' → Out.Rel R (step s) (step' s')) (t : ℕ) :
    Out.Rel R (iter step t s0) (iter step' t s0') := by
  induction t with
  | zero => exact .ok h0
  | succ t ih =>
    show Out.Rel R ((iter step t s0).bind step) ((iter step' t s0').bind step')
    revert ih
    generalize hx : iter step t s0 = x
    generalize iter step' t s0' = y
    intro ih
    cases ih with
    | ok h => exact hs t _ _ hx h
    | throws e => exact .throws e
    | ub u => exact .ub u
    | timeout => exact .timeout

/-- Two recording loops with related steps and the documented range of integers: the rows of the second are the images
of the rows of the first. -/
theorem runLoop_rel {R : σ → τ → Prop} {step : σ → Out σ} {step' : τ → Out τ} {s0 : σ} {s0' : τ} (h0 : R s0 s0')
    (hs : ∀ t s s', iter step t s0 = .ok s → R s s' → Out.Rel R (step s) (step' s'))
    {pos : σ → Fin n → F} {pos' : τ → Fin n' → F} (T : (Fin n → F) → Fin n' → F) (hp : ∀ s s', R s s' → pos' s' = T (pos s))
    {niter burnin thin : Int} (hg : GoodInts niter burnin thin) :
    (runLoop step' pos' niter burnin thin s0').map Prod.fst = ((runLoop step pos niter burnin thin s0).map Prod.fst).map (List.map T) := by
  obtain ⟨a1, a2⟩ := runLoop_spec step pos niter burnin thin hg s0
  obtain ⟨b1, b2⟩ := runLoop_spec step' pos' niter burnin thin hg s0'
  have hN := iter_rel h0 hs niter.toNat
  rw [← a1, ← b1] at hN
  revert hN a2 b2
  generalize runLoop step pos niter burnin thin s0 = x
  generalize runLoop step' pos' niter burnin thin s0' = y
  intro a2 b2 hN
  cases x with
  | ok p =>
    cases y with
    | ok q =>
      refine congrArg Out.ok ?_
      obtain ⟨l1, r1⟩ := a2 p.1 p.2 rfl
      obtain ⟨l2, r2⟩ := b2 q.1 q.2 rfl
      refine List.ext_getElem (by rw [List.length_map]; omega) fun j h1 h2 => ?_
      rw [List.getElem_map]
      have h3 : j < p.1.length := by rw [List.length_map] at h2; exact h2
      obtain ⟨st, e1, e2⟩ := r1 j h3
      obtain ⟨st', e1', e2'⟩ := r2 j h1
      rw [e2, e2']
      have hj := iter_rel h0 hs (burnin + ((j : Int) + 1) * thin).toNat
      rw [e1, e1'] at hj
      cases hj with
      | ok h => exact hp _ _ h
    | throws e => exact nomatch hN
    | ub u => exact nomatch hN
    | timeout => exact nomatch hN
  | throws e =>
    cases y with
    | throws e' => cases hN; rfl
    | ok q => exact nomatch hN
    | ub u => exact nomatch hN
    | timeout => exact nomatch hN
  | ub u =>
    cases y with
    | ub u' => cases hN; rfl
    | ok q => exact nomatch hN
    | throws u => exact nomatch hN
    | timeout => exact nomatch hN
  | timeout =>
    cases y with
    | timeout => rfl
    | ok q => exact nomatch hN
    | throws u => exact nomatch hN
    | ub u => exact nomatch hN

/-- The same for any integers when the positions are equal. -/
theorem loopFrom_rel {R : σ → τ → Prop} {step : σ → Out σ} {step' : τ → Out τ} {s0 : σ}
    (hs : ∀ t s s', iter step t s0 = .ok s → R s s' → Out.Rel R (step s) (step' s'))
    {pos : σ → Fin n → F} {pos' : τ → Fin n' → F} (T : (Fin n → F) → Fin n' → F) (hp : ∀ s s', R s s' → pos' s' = T (pos s))
    (B Th : Int) (left : ℕ) (i : Int) (t : ℕ) (s : σ) (s' : τ) (ht : iter step t s0 = .ok s) (h : R s s') (rows : List (Fin n → F)) :
    Out.Rel (fun p q => q.1 = p.1.map T) (loopFrom step pos B Th left i s rows) (loopFrom step' pos' B Th left i s' (rows.map T)) := by
  induction left generalizing i t s s' rows with
  | zero => exact .ok rfl
  | succ left ih =>
    rw [loopFrom, loopFrom]
    have h1 := hs t s s' ht h
    revert h1
    generalize hx : step s = x
    generalize step' s' = y
    intro h1
    cases h1 with
    | throws e => exact .throws e
    | ub u => exact .ub u
    | timeout => exact .timeout
    | @ok s1 s1' h1 =>
      have ht1 : iter step (t + 1) s0 = .ok s1 := by
        show (iter step t s0).bind step = _
        rw [ht]; exact hx
      show Out.Rel _ ((record B Th i rows (pos s1)).bind _) ((record B Th i (rows.map T) (pos' s1')).bind _)
      have hrec : record B Th i (rows.map T) (pos' s1') = (record B Th i rows (pos s1)).map (List.map T) := by
        rw [hp _ _ h1]
        unfold record
        split
        · rw [Out.map_bind]; congr 1; funext a
          rw [Out.map_bind]; congr 1; funext q
          split
          · rw [Out.map_bind]; congr 1; funext e
            rw [Out.map_bind]; congr 1; funext idx
            unfold writeRow
            rw [List.length_map]
            split
            · exact congrArg Out.ok List.map_set.symm
            · rfl
          · rfl
        · rfl
      rw [hrec]
      refine Out.Rel.bind (R := fun p q => q = p.map T) ?_ ?_
      · generalize record B Th i rows (pos s1) = r
        cases r
        · exact .ok rfl
        · exact .throws _
        · exact .ub _
        · exact .timeout
      · rintro p q rfl
        refine Out.Rel.bind (Out.Rel.refl (R := fun a b => b = a) (fun _ => rfl) _) ?_
        intro i1 i2 hi
        subst hi
        exact ih _ (t + 1) s1 s1' ht1 h1 p

theorem runLoop_rel_zero {R : σ → τ → Prop} {step : σ → Out σ} {step' : τ → Out τ} {s0 : σ} {s0' : τ} (h0 : R s0 s0')
    (hs : ∀ t s s', iter step t s0 = .ok s → R s s' → Out.Rel R (step s) (step' s'))
    {pos : σ → Fin n → F} {pos' : τ → Fin n' → F} (T : (Fin n → F) → Fin n' → F) (hT : T (fun _ => 0) = fun _ => 0)
    (hp : ∀ s s', R s s' → pos' s' = T (pos s)) (niter burnin thin : Int) :
    (runLoop step' pos' niter burnin thin s0').map Prod.fst = ((runLoop step pos niter burnin thin s0).map Prod.fst).map (List.map T) := by
  rw [runLoop, runLoop, Out.map_bind, Out.map_bind, Out.map_bind]
  congr 1; funext t
  rw [Out.map_bind, Out.map_bind, Out.map_bind]
  congr 1; funext tot
  split
  · rfl
  · have h := loopFrom_rel hs T hp burnin thin niter.toNat 1 0 s0 s0' rfl h0 (List.replicate tot.toNat fun _ => 0)
    rw [List.map_replicate, hT] at h
    exact (h.map (f := Prod.fst) (g := Prod.fst) (S := fun a b => b = a.map T) fun _ _ e => e).eq_map

end
end PW
