import Verif.Lemmas.Api
import Verif.Spec.Toy

/-!
# C01–C08: shape, burn-in, thinning, argument checks, seeding, reuse

All theorems hold for every `Scalar F`, hence for IEEE doubles.
-/

set_option linter.unusedSimpArgs false
set_option linter.unusedSectionVars false

namespace PW
variable {F : Type} [Scalar F]

/-! ## C01 -/

/-- C01: the result of a completed call has exactly `(niter - burnin)/thin` rows (each of length
`A.cols()`, by its type). -/
theorem C01_shape (w : Walk F) (e : Env F) (a : Args F) (hg : GoodInts a.niter a.burnin a.thin)
    (rows : List (Fin a.A.c → F)) (h : w.run e a = .ok rows) :
    (rows.length : Int) = (a.niter - a.burnin) / a.thin := by
  obtain ⟨hd, s0, s', _, _, hr⟩ := Walk.run_ok h
  exact ((runLoop_spec _ _ _ _ _ hg _).2 _ _ hr).1

/-- C01: recording adds no failure of its own (no overflow, out-of-range row or negative size): the call
returns normally whenever the chain completes its `niter` steps, and otherwise its outcome is the
outcome of the chain. -/
theorem C01_recording_total (w : Walk F) (e : Env F) (a : Args F)
    (hg : GoodInts a.niter a.burnin a.thin) (hd : a.DimsOk) (hk : w.isSparse = true → a.KOk) :
    (w.run e a).map (fun _ => ()) = (w.chain e a hd a.niter.toNat).map (fun _ => ()) := by
  rw [Walk.run_eq, if_neg (by rintro ⟨h1, h2⟩; exact h2 (hk h1)), dif_pos hd, Walk.chain]
  rcases w.start e a.A.r (a.x0 hd) a.k a.seed with s0 | _ | _ | _
  · simp only [Out.ok_bind]
    rw [← (runLoop_spec (w.step e a.A.val (a.rhs hd) a.k) (w.pos e) _ _ _ hg s0).1, Out.map_map,
      Out.map_map]
  all_goals rfl

/-! ## C02 -/

/-- C02: row `j` is the position of the chain after exactly `burnin + (j+1)*thin` steps. -/
theorem C02_rows (w : Walk F) (e : Env F) (a : Args F) (hg : GoodInts a.niter a.burnin a.thin)
    (rows : List (Fin a.A.c → F)) (h : w.run e a = .ok rows) :
    ∃ hd : a.DimsOk, ∀ j (hj : j < rows.length),
      w.PosAt e a hd (a.burnin + ((j : Int) + 1) * a.thin).toNat rows[j] := by
  obtain ⟨hd, s0, s', _, hs, hr⟩ := Walk.run_ok h
  refine ⟨hd, fun j hj => ?_⟩
  obtain ⟨st, h1, h2⟩ := ((runLoop_spec _ _ _ _ _ hg _).2 _ _ hr).2 j hj
  exact ⟨st, by rw [Walk.chain, hs, Out.ok_bind, h1], h2.symm⟩

/-- C02: the chain does not depend on `niter`, `burnin`, `thin`. -/
theorem C02_chain_independent (w : Walk F) (e : Env F) (a : Args F) (hd : a.DimsOk)
    (niter' burnin' thin' : Int) (t : ℕ) :
    w.chain e { a with niter := niter', burnin := burnin', thin := thin' } hd t = w.chain e a hd t := rfl

/-! ## C08 -/

/-- C08: with a larger `niter` the shorter result is a prefix. -/
theorem C08_prefix (w : Walk F) (e : Env F) (a : Args F) (niter' : Int)
    (hg : GoodInts a.niter a.burnin a.thin) (hg' : GoodInts niter' a.burnin a.thin)
    (hle : a.niter ≤ niter') (rows' : List (Fin a.A.c → F))
    (h' : w.run e { a with niter := niter' } = .ok rows') :
    ∃ rows, w.run e a = .ok rows ∧ rows <+: rows' := by
  obtain ⟨hd, s0, s', hk, hs, hr'⟩ := Walk.run_ok h'
  obtain ⟨sp1, sp2⟩ := runLoop_spec (w.step e a.A.val (a.rhs hd) a.k) (w.pos e) a.niter a.burnin a.thin hg s0
  obtain ⟨sp1', sp2'⟩ :=
    runLoop_spec (w.step e a.A.val (a.rhs hd) a.k) (w.pos e) niter' a.burnin a.thin hg' s0
  have hr'' : runLoop (w.step e a.A.val (a.rhs hd) a.k) (w.pos e) niter' a.burnin a.thin s0 =
    .ok (rows', s') := hr'
  rw [hr''] at sp1'
  obtain ⟨sN, hsN⟩ := iter_ok_of_le (t := a.niter.toNat) sp1'.symm (by omega)
  rw [hsN, Out.map_eq_ok] at sp1
  obtain ⟨⟨rows, s1⟩, hrun, -⟩ := sp1
  have hrun' : w.run e a = .ok rows := by
    rw [Walk.run_eq, if_neg (by rintro ⟨h1, h2⟩; exact h2 (hk h1)), dif_pos (show a.DimsOk from hd)]
    have hs' : w.start e a.A.r (a.x0 hd) a.k a.seed = .ok s0 := hs
    rw [hs', Out.ok_bind, hrun]; rfl
  obtain ⟨hl, hrow⟩ := sp2 _ _ hrun
  obtain ⟨hl', hrow'⟩ := sp2' _ _ hr''
  refine ⟨rows, hrun', ?_⟩
  have hlen : rows.length ≤ rows'.length := by
    have : (rows.length : Int) ≤ rows'.length := by
      rw [hl, hl']
      exact Int.ediv_le_ediv (by have := hg.thin_pos; omega) (by omega)
    omega
  rw [List.prefix_iff_eq_take]
  apply List.ext_getElem
  · simp [hlen]
  · intro j h1 h2
    rw [List.getElem_take]
    obtain ⟨st, a1, a2⟩ := hrow j h1
    obtain ⟨st', b1, b2⟩ := hrow' j (by omega)
    rw [a1] at b1
    rw [a2, b2]
    cases b1; rfl

/-- C08: the thinned run is a subsequence of the plain run: its row `j` is row
`burnin + (j+1)*thin - 1` of the run with `burnin = 0`, `thin = 1`. -/
theorem C08_thinning (w : Walk F) (e : Env F) (a : Args F) (hg : GoodInts a.niter a.burnin a.thin)
    (rows all : List (Fin a.A.c → F)) (h : w.run e a = .ok rows)
    (hall : w.run e { a with burnin := 0, thin := 1 } = .ok all) :
    ∀ j (hj : j < rows.length),
      all[(a.burnin + ((j : Int) + 1) * a.thin - 1).toNat]? = some rows[j] := by
  have hg1 : GoodInts a.niter 0 1 :=
    ⟨by omega, by omega, by have := hg.burnin_le; have := hg.burnin_nonneg; omega, hg.niter_lt,
      by unfold intMax; omega⟩
  have hlenall := C01_shape w e { a with burnin := 0, thin := 1 } hg1 all hall
  obtain ⟨hd, hr⟩ := C02_rows w e a hg rows h
  obtain ⟨_, hra⟩ := C02_rows w e { a with burnin := 0, thin := 1 } hg1 all hall
  have hlen := C01_shape w e a hg rows h
  intro j hj
  have htp := hg.thin_pos
  have hjT : 1 * 1 ≤ ((j : Int) + 1) * a.thin := Int.mul_le_mul (by omega) htp (by omega) (by omega)
  have hjle : ((j : Int) + 1) * a.thin ≤ a.niter - a.burnin := by
    have h1 : (j : Int) + 1 ≤ (a.niter - a.burnin) / a.thin := by omega
    calc ((j : Int) + 1) * a.thin ≤ (a.niter - a.burnin) / a.thin * a.thin :=
          Int.mul_le_mul_of_nonneg_right h1 (by omega)
      _ ≤ _ := Int.ediv_mul_le _ (by omega)
  have hb := hg.burnin_nonneg
  simp only [Int.sub_zero, Int.ediv_one] at hlenall
  set q := (a.burnin + ((j : Int) + 1) * a.thin - 1).toNat with hq
  have hqlt : q < all.length := by omega
  obtain ⟨st, s1, s2⟩ := hr j hj
  obtain ⟨st', t1, t2⟩ := hra q hqlt
  have hidx : ((0 : Int) + ((q : Int) + 1) * 1).toNat = (a.burnin + ((j : Int) + 1) * a.thin).toNat := by
    omega
  rw [hidx, C02_chain_independent w e a hd] at t1
  rw [s1] at t1
  rw [List.getElem?_eq_getElem hqlt, ← s2, ← t2]
  cases t1; rfl

/-! ## C03 -/

/-- C03 (true part, full characterisation for `burnin >= 0`, `thin >= 1`, `niter < INT_MAX`): a call that
returns normally returns only visited positions. Missing from the full claim: negative `burnin` and
non-positive `thin`, for which the claim is false (see `C03_filler_rows`, `C03_negative_thin_filler`,
`C03_thin_zero`), and the rejection of bad integers by an exception (see `C03_never_rejected`). -/
theorem C03_visited_partial (w : Walk F) (e : Env F) (a : Args F)
    (hi : SaneInts a.niter a.burnin a.thin) (rows : List (Fin a.A.c → F)) (h : w.run e a = .ok rows) :
    ∃ hd : a.DimsOk, ∀ x ∈ rows, ∃ t : ℕ, 1 ≤ t ∧ (t : Int) ≤ a.niter ∧ w.PosAt e a hd t x := by
  obtain ⟨ht, hb, hN, htm⟩ := hi
  by_cases hle : a.burnin ≤ a.niter
  · have hg : GoodInts a.niter a.burnin a.thin := ⟨ht, hb, hle, hN, htm⟩
    obtain ⟨hd, hr⟩ := C02_rows w e a hg rows h
    have hlen := C01_shape w e a hg rows h
    refine ⟨hd, fun x hx => ?_⟩
    obtain ⟨j, hj, rfl⟩ := List.mem_iff_getElem.1 hx
    refine ⟨_, ?_, ?_, hr j hj⟩
    · have hjT : 1 * 1 ≤ ((j : Int) + 1) * a.thin := Int.mul_le_mul (by omega) ht (by omega) (by omega)
      omega
    · have h1 : (j : Int) + 1 ≤ (a.niter - a.burnin) / a.thin := by omega
      have hjle : ((j : Int) + 1) * a.thin ≤ a.niter - a.burnin :=
        (Int.mul_le_mul_of_nonneg_right h1 (by omega)).trans (Int.ediv_mul_le _ (by omega))
      have hjT : 1 * 1 ≤ ((j : Int) + 1) * a.thin := Int.mul_le_mul (by omega) ht (by omega) (by omega)
      omega
  · obtain ⟨hd, s0, s', _, hs, hr⟩ := Walk.run_ok h
    refine ⟨hd, fun x hx => ?_⟩
    exfalso
    rw [runLoop] at hr
    obtain ⟨t, h1, hr⟩ := Out.bind_eq_ok.1 hr
    obtain ⟨q, h2, hr⟩ := Out.bind_eq_ok.1 hr
    have ht' : t = a.niter - a.burnin := by
      unfold toInt at h1; split at h1 <;> cases h1; rfl
    have hq' : q = Int.tdiv t a.thin := by
      unfold intDiv toInt at h2; rw [if_neg (by omega)] at h2
      split at h2 <;> cases h2; rfl
    have hq0 : q ≤ 0 := by
      rw [hq', ht', show a.niter - a.burnin = -(a.burnin - a.niter) by omega, Int.neg_tdiv,
        Int.tdiv_eq_ediv_of_nonneg (by omega)]
      have : 0 ≤ (a.burnin - a.niter) / a.thin := Int.ediv_nonneg (by omega) (by omega)
      omega
    split at hr
    · cases hr
    · have : q.toNat = 0 := by omega
      rw [this] at hr
      -- nothing is ever recorded, the row list stays empty
      have key : ∀ (left : ℕ) (i : Int) (s : w.State e a.A.c) (rows' : List (Fin a.A.c → F)) s2,
          loopFrom (w.step e a.A.val (a.rhs hd) a.k) (w.pos e) a.burnin a.thin left i s [] =
            .ok (rows', s2) → rows' = [] := by
        intro left
        induction left with
        | zero => intro i s rows' s2 h; simp only [loopFrom, Out.ok.injEq, Prod.mk.injEq] at h; exact h.1.symm
        | succ left ih =>
          intro i s rows' s2 h
          rw [loopFrom] at h
          obtain ⟨s1, _, h⟩ := Out.bind_eq_ok.1 h
          obtain ⟨r1, hrec, h⟩ := Out.bind_eq_ok.1 h
          obtain ⟨i1, _, h⟩ := Out.bind_eq_ok.1 h
          have : r1 = [] := by
            unfold record at hrec
            split at hrec
            · obtain ⟨_, _, hrec⟩ := Out.bind_eq_ok.1 hrec
              obtain ⟨_, _, hrec⟩ := Out.bind_eq_ok.1 hrec
              split at hrec
              · obtain ⟨_, _, hrec⟩ := Out.bind_eq_ok.1 hrec
                obtain ⟨_, _, hrec⟩ := Out.bind_eq_ok.1 hrec
                unfold writeRow at hrec
                split at hrec
                · cases hrec; rfl
                · cases hrec
              · cases hrec; rfl
            · cases hrec; rfl
          rw [this] at h
          exact ih _ _ _ _ h
      rw [key _ _ _ _ _ hr] at hx
      cases hx

/-- C03 is false, part 1: `thin = 0` is undefined behaviour, not an exception, for every walk and every
`niter`, `burnin` whose difference does not overflow. -/
theorem C03_thin_zero (w : Walk F) (e : Env F) (a : Args F) (hd : a.DimsOk)
    (hk : w.isSparse = true → a.KOk) (ht : a.thin = 0) (hi : IsInt (a.niter - a.burnin))
    (hs : ∃ s0, w.start e a.A.r (a.x0 hd) a.k a.seed = .ok s0) :
    w.run e a = .ub .divByZero := by
  obtain ⟨s0, hs⟩ := hs
  rw [Walk.run_eq, if_neg (by rintro ⟨h1, h2⟩; exact h2 (hk h1)), dif_pos hd, hs, Out.ok_bind, runLoop,
    toInt_ok hi, Out.ok_bind, ht]
  rfl

/-- C03 is false, part 2: `burnin` larger than `niter` by at least `thin` asks Eigen for a matrix with a
negative number of rows. -/
theorem C03_negative_size (w : Walk F) (e : Env F) (a : Args F) (hd : a.DimsOk)
    (hk : w.isSparse = true → a.KOk) (ht : 1 ≤ a.thin) (hi : IsInt (a.niter - a.burnin))
    (hneg : a.niter + a.thin ≤ a.burnin)
    (hs : ∃ s0, w.start e a.A.r (a.x0 hd) a.k a.seed = .ok s0) :
    w.run e a = .ub .negativeSize := by
  obtain ⟨s0, hs⟩ := hs
  have h1 : Int.tdiv (a.niter - a.burnin) a.thin = -((a.burnin - a.niter) / a.thin) := by
    rw [show a.niter - a.burnin = -(a.burnin - a.niter) by omega, Int.neg_tdiv,
      Int.tdiv_eq_ediv_of_nonneg (by omega)]
  have h2 : 1 ≤ (a.burnin - a.niter) / a.thin := by
    rw [Int.le_ediv_iff_mul_le (by omega)]; omega
  have h3 : (a.burnin - a.niter) / a.thin ≤ a.burnin - a.niter := Int.ediv_le_self _ (by omega)
  have hI : IsInt (-((a.burnin - a.niter) / a.thin)) := by
    obtain ⟨h4, h5⟩ := hi
    unfold IsInt intMin intMax at *
    omega
  rw [Walk.run_eq, if_neg (by rintro ⟨h1, h2⟩; exact h2 (hk h1)), dif_pos hd, hs, Out.ok_bind, runLoop,
    toInt_ok hi, Out.ok_bind, intDiv, if_neg (by omega), h1, toInt_ok hI, Out.ok_bind, if_pos (by omega)]
  rfl

/-- C03 is false, part 3: with a negative `burnin` and `niter = 0` every walk returns rows of zeros that
the chain never visited. -/
theorem C03_filler_rows (w : Walk F) (e : Env F) (a : Args F) (hd : a.DimsOk)
    (hk : w.isSparse = true → a.KOk) (hn : a.niter = 0) (hb : a.burnin = -1) (ht : a.thin = 1)
    (hs : ∃ s0, w.start e a.A.r (a.x0 hd) a.k a.seed = .ok s0) :
    w.run e a = .ok [fun _ => 0] := by
  obtain ⟨s0, hs⟩ := hs
  rw [Walk.run_eq, if_neg (by rintro ⟨h1, h2⟩; exact h2 (hk h1)), dif_pos hd, hs, Out.ok_bind, hn, hb, ht]
  rfl

/-- C03 is false, part 4: so does a negative `thin`. -/
theorem C03_negative_thin_filler (w : Walk F) (e : Env F) (a : Args F) (hd : a.DimsOk)
    (hk : w.isSparse = true → a.KOk) (hn : a.niter = 0) (hb : a.burnin = 2) (ht : a.thin = -1)
    (hs : ∃ s0, w.start e a.A.r (a.x0 hd) a.k a.seed = .ok s0) :
    w.run e a = .ok [fun _ => 0, fun _ => 0] := by
  obtain ⟨s0, hs⟩ := hs
  rw [Walk.run_eq, if_neg (by rintro ⟨h1, h2⟩; exact h2 (hk h1)), dif_pos hd, hs, Out.ok_bind, hn, hb, ht]
  rfl

end PW

namespace PW
variable {F : Type} [Scalar F]

/-- Invariants of the chain hold for every returned row. -/
theorem Walk.PosAt.inv {w : Walk F} {e : Env F} {a : Args F} {hd : a.DimsOk} {t : ℕ} {x : Fin a.A.c → F}
    (h : w.PosAt e a hd t x) (P : w.State e a.A.c → Prop)
    (h0 : ∀ s0, w.start e a.A.r (a.x0 hd) a.k a.seed = .ok s0 → P s0)
    (hs : ∀ s s', P s → w.step e a.A.val (a.rhs hd) a.k s = .ok s' → P s') :
    ∃ st, P st ∧ w.pos e st = x := by
  obtain ⟨st, hst, hx⟩ := h
  rw [Walk.chain, Out.bind_eq_ok] at hst
  obtain ⟨s0, hs0, hst⟩ := hst
  exact ⟨st, iter_inv P hs (h0 s0 hs0) hst, hx⟩

theorem Walk.rows_inv {w : Walk F} {e : Env F} {a : Args F} (hi : SaneInts a.niter a.burnin a.thin)
    {rows : List (Fin a.A.c → F)} (h : w.run e a = .ok rows) (hd : a.DimsOk)
    (P : w.State e a.A.c → Prop)
    (h0 : ∀ s0, w.start e a.A.r (a.x0 hd) a.k a.seed = .ok s0 → P s0)
    (hs : ∀ s s', P s → w.step e a.A.val (a.rhs hd) a.k s = .ok s' → P s') :
    ∀ x ∈ rows, ∃ st, P st ∧ w.pos e st = x := by
  obtain ⟨_, hr⟩ := C03_visited_partial w e a hi rows h
  intro x hx
  obtain ⟨t, _, _, hp⟩ := hr x hx
  exact hp.inv P h0 hs

end PW

namespace PW
variable {F : Type} [Scalar F]

/-- Invariants of the chain, with reachability available in the step. -/
theorem Walk.chain_inv {w : Walk F} {e : Env F} {a : Args F} {hd : a.DimsOk} (P : w.State e a.A.c → Prop)
    (h0 : ∀ s0, w.start e a.A.r (a.x0 hd) a.k a.seed = .ok s0 → P s0)
    (hs : ∀ t s s', w.chain e a hd t = .ok s → P s → w.step e a.A.val (a.rhs hd) a.k s = .ok s' → P s') :
    ∀ t st, w.chain e a hd t = .ok st → P st := by
  intro t
  induction t with
  | zero =>
    intro st hst
    rw [Walk.chain, Out.bind_eq_ok] at hst
    obtain ⟨s0, h1, hst⟩ := hst
    cases hst
    exact h0 _ h1
  | succ t ih =>
    intro st' hst'
    rw [Walk.chain, Out.bind_eq_ok] at hst'
    obtain ⟨s0, h1, hst'⟩ := hst'
    rw [iter] at hst'
    obtain ⟨st, hst, hstep⟩ := Out.bind_eq_ok.1 hst'
    have hch : w.chain e a hd t = .ok st := by rw [Walk.chain, h1, Out.ok_bind, hst]
    exact hs t st st' hch (ih st hch) hstep

theorem Walk.rows_chain_inv {w : Walk F} {e : Env F} {a : Args F} (hi : SaneInts a.niter a.burnin a.thin)
    {rows : List (Fin a.A.c → F)} (h : w.run e a = .ok rows) (hd : a.DimsOk)
    (P : w.State e a.A.c → Prop)
    (h0 : ∀ s0, w.start e a.A.r (a.x0 hd) a.k a.seed = .ok s0 → P s0)
    (hs : ∀ t s s', w.chain e a hd t = .ok s → P s → w.step e a.A.val (a.rhs hd) a.k s = .ok s' → P s') :
    ∀ x ∈ rows, ∃ st, P st ∧ w.pos e st = x := by
  obtain ⟨_, hr⟩ := C03_visited_partial w e a hi rows h
  intro x hx
  obtain ⟨t, _, _, st, hst, rfl⟩ := hr x hx
  exact ⟨st, Walk.chain_inv P h0 hs t st hst, rfl⟩

end PW
