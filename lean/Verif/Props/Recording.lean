import Verif.Lemmas.Loop
import Verif.Spec.Recording
import Verif.Props.Sampling

/-!
# C67: the complete behaviour of recording, for all `int` arguments
-/

namespace PW
variable {F : Type} {n : ℕ} {σ : Type}

/-- `niter`, `burnin`, `thin` for which the result matrix can be allocated. -/
structure Sized (niter burnin thin : Int) : Prop where
  noOverflow : intMin ≤ niter - burnin ∧ niter - burnin ≤ intMax
  thin_ne : thin ≠ 0
  notMin : ¬ (niter - burnin = intMin ∧ thin = -1)
  notNegative : (0 < thin → -thin < niter - burnin) ∧ (thin < 0 → niter - burnin < -thin)

theorem tdiv_cases (d t : Int) (_ht : t ≠ 0) :
    (0 < t → 0 ≤ d → Int.tdiv d t = ((d.natAbs / t.natAbs : ℕ) : Int)) ∧
    (0 < t → d < 0 → Int.tdiv d t = -((d.natAbs / t.natAbs : ℕ) : Int)) ∧
    (t < 0 → 0 ≤ d → Int.tdiv d t = -((d.natAbs / t.natAbs : ℕ) : Int)) ∧
    (t < 0 → d < 0 → Int.tdiv d t = ((d.natAbs / t.natAbs : ℕ) : Int)) := by
  have key : ∀ x y : ℕ, Int.tdiv (x : Int) (y : Int) = ((x / y : ℕ) : Int) := by
    intro x y
    rw [Int.tdiv_eq_ediv_of_nonneg (by omega)]; exact (Int.natCast_ediv x y).symm
  refine ⟨fun h1 h2 => ?_, fun h1 h2 => ?_, fun h1 h2 => ?_, fun h1 h2 => ?_⟩
  · conv_lhs => rw [show d = ((d.natAbs : ℕ) : Int) by omega, show t = ((t.natAbs : ℕ) : Int) by omega]
    exact key _ _
  · conv_lhs => rw [show d = -((d.natAbs : ℕ) : Int) by omega, show t = ((t.natAbs : ℕ) : Int) by omega]
    rw [Int.neg_tdiv, key]
  · conv_lhs => rw [show d = ((d.natAbs : ℕ) : Int) by omega, show t = -((t.natAbs : ℕ) : Int) by omega]
    rw [Int.tdiv_neg, key]
  · conv_lhs => rw [show d = -((d.natAbs : ℕ) : Int) by omega, show t = -((t.natAbs : ℕ) : Int) by omega]
    rw [Int.tdiv_neg, Int.neg_tdiv, neg_neg, key]

/-- The number of rows computed by the code, for sized arguments. -/
theorem Sized.tdiv_eq {niter burnin thin : Int} (h : Sized niter burnin thin) :
    Int.tdiv (niter - burnin) thin = (rowCount niter burnin thin : Int) := by
  obtain ⟨h1, h2, h3, h4⟩ := h
  obtain ⟨c1, c2, c3, c4⟩ := tdiv_cases (niter - burnin) thin h2
  unfold rowCount
  rcases lt_or_gt_of_ne h2 with ht | ht
  · by_cases hd : 0 ≤ niter - burnin
    · rw [c3 ht hd, Nat.div_eq_of_lt (by have := h4.2 ht; omega)]; rfl
    · rw [c4 ht (by omega)]
  · by_cases hd : 0 ≤ niter - burnin
    · rw [c1 ht hd]
    · rw [c2 ht (by omega), Nat.div_eq_of_lt (by have := h4.1 ht; omega)]; rfl

theorem Sized.rowCount_le {niter burnin thin : Int} (h : Sized niter burnin thin) :
    (rowCount niter burnin thin : Int) ≤ intMax := by
  obtain ⟨h1, h2, h3, h4⟩ := h
  unfold rowCount
  by_cases ht : thin = -1
  · subst ht
    have : (niter - burnin).natAbs / (-1 : Int).natAbs = (niter - burnin).natAbs := by simp
    rw [this]
    unfold intMin intMax at *
    omega
  by_cases ht1 : thin = 1
  · subst ht1
    have : (niter - burnin).natAbs / (1 : Int).natAbs = (niter - burnin).natAbs := by simp
    rw [this]
    have := h4.1 (by omega)
    unfold intMin intMax at *
    omega
  have h2' : 2 ≤ thin.natAbs := by omega
  have : (niter - burnin).natAbs / thin.natAbs ≤ (niter - burnin).natAbs / 2 :=
    Nat.div_le_div_left h2' (by omega)
  unfold intMin intMax at *
  omega

/-- The recording step, for all sized arguments. -/
theorem record_int {niter burnin thin i : Int} (hz : Sized niter burnin thin) (hi : i ≤ niter)
    (rows : List (Fin n → F)) (x : Fin n → F) (hlen : rows.length = rowCount niter burnin thin) :
    record burnin thin i rows x =
      .ok (if burnin < i ∧ 0 < thin ∧ thin ∣ (i - burnin) then
        rows.set ((i - burnin) / thin - 1).toNat x else rows) := by
  unfold record
  by_cases h : burnin < i
  swap
  · rw [if_neg h, if_neg (by simp [h])]
  have hI : IsInt (i - burnin) := by
    have := hz.noOverflow
    exact ⟨by unfold intMin; omega, by omega⟩
  rw [if_pos h, toInt_ok hI, Out.ok_bind]
  have ht0 := hz.thin_ne
  have hn := hz.notNegative
  have hno := hz.noOverflow
  obtain ⟨c1, -, c3, -⟩ := tdiv_cases (i - burnin) thin ht0
  rcases lt_or_gt_of_ne ht0 with ht | ht
  · -- negative `thin`: nothing is recorded
    have hlt : (i - burnin).natAbs < thin.natAbs := by have := hn.2 ht; omega
    have hd : Int.tdiv (i - burnin) thin = 0 := by
      rw [c3 ht (by omega), Nat.div_eq_of_lt hlt]; rfl
    have hm : Int.tmod (i - burnin) thin = i - burnin := by
      have := Int.mul_tdiv_add_tmod (i - burnin) thin
      rw [hd] at this
      omega
    have hmod : intMod (i - burnin) thin = .ok (i - burnin) := by
      unfold intMod
      rw [if_neg ht0, hd, hm, if_pos (by unfold IsInt intMin intMax; omega)]
    rw [hmod, Out.ok_bind, if_neg (by omega), if_neg (by omega)]
  · have hq := c1 ht (by omega)
    obtain ⟨q, hqd⟩ : ∃ q, q = (i - burnin).natAbs / thin.natAbs := ⟨_, rfl⟩
    rw [← hqd] at hq
    have hqle : q ≤ (i - burnin).natAbs := hqd ▸ Nat.div_le_self _ _
    have hqI : IsInt (q : Int) := by unfold IsInt intMin intMax at *; omega
    have hedq : (i - burnin) / thin = (q : Int) := by
      rw [← hq, Int.tdiv_eq_ediv_of_nonneg (by omega)]
    have hmod : intMod (i - burnin) thin = .ok ((i - burnin) % thin) := by
      unfold intMod
      rw [if_neg ht0, hq, if_pos hqI, Int.tmod_eq_emod_of_nonneg (by omega)]
    rw [hmod, Out.ok_bind]
    by_cases hd : thin ∣ (i - burnin)
    · have hqpos : 1 ≤ q := by
        rw [hqd]
        exact Nat.div_pos (Nat.le_of_dvd (by omega) (Int.natAbs_dvd_natAbs.2 hd)) (by omega)
      have hqr : q ≤ rows.length := by
        rw [hlen, hqd]; unfold rowCount
        exact Nat.div_le_div_right (by omega)
      rw [if_pos (Int.emod_eq_zero_of_dvd hd), intDiv, if_neg ht0, hq, toInt_ok hqI, Out.ok_bind,
        toInt_ok (by unfold IsInt intMin intMax at *; omega), Out.ok_bind, writeRow,
        if_pos ⟨by omega, by omega⟩, if_pos ⟨h, ht, hd⟩, hedq]
    · rw [if_neg (fun hc => hd (Int.dvd_of_emod_eq_zero hc)), if_neg (by simp [hd])]

/-- Invariant of the recording loop, for all sized arguments. -/
theorem loopFrom_int (step : σ → Out σ) (pos : σ → Fin n → F) {niter burnin thin : Int}
    (hz : Sized niter burnin thin) (hN : niter ≤ intMax) :
    ∀ (left : ℕ) (i : Int) (s : σ) (rows : List (Fin n → F)), 1 ≤ i → i + left = niter + 1 →
      rows.length = rowCount niter burnin thin →
      (niter < intMax →
        (loopFrom step pos burnin thin left i s rows).map Prod.snd = iter step left s) ∧
      (niter = intMax → 0 < left → ∀ st, iter step left s = .ok st →
        loopFrom step pos burnin thin left i s rows = .ub .signedOverflow) ∧
      ∀ rows' s', loopFrom step pos burnin thin left i s rows = .ok (rows', s') →
        rows'.length = rows.length ∧ ∀ j, j < rows.length →
          (0 < thin → i ≤ recTime burnin thin j → ∃ st,
            iter step (recTime burnin thin j + 1 - i).toNat s = .ok st ∧ rows'[j]? = some (pos st)) ∧
          (¬ (0 < thin ∧ i ≤ recTime burnin thin j) → rows'[j]? = rows[j]?) := by
  intro left
  have hrt : ∀ j, j < rowCount niter burnin thin → 0 < thin → 0 ≤ niter - burnin →
      recTime burnin thin j ≤ niter := by
    intro j hj ht hd
    have h1 := hz.tdiv_eq
    rw [Int.tdiv_eq_ediv_of_nonneg hd] at h1
    have h2 : (j : Int) + 1 ≤ (niter - burnin) / thin := by omega
    have h3 := (Int.mul_le_mul_of_nonneg_right h2 (by omega)).trans (Int.ediv_mul_le (niter - burnin) (by omega : thin ≠ 0))
    unfold recTime
    omega
  have hneg : 0 < thin → niter - burnin < 0 → rowCount niter burnin thin = 0 := by
    intro ht hd
    have := hz.notNegative.1 ht
    exact Nat.div_eq_of_lt (by omega)
  induction left with
  | zero =>
    intro i s rows hi1 hi hlen
    refine ⟨fun _ => by simp [loopFrom, iter], fun _ h => absurd h (by omega), ?_⟩
    intro rows' s' h
    simp only [loopFrom, Out.ok.injEq, Prod.mk.injEq] at h
    obtain ⟨rfl, rfl⟩ := h
    refine ⟨rfl, fun j hj => ⟨fun ht hij => ?_, fun _ => rfl⟩⟩
    exfalso
    rw [hlen] at hj
    by_cases hd : 0 ≤ niter - burnin
    · have := hrt j hj ht hd
      have : i = niter + 1 := by simpa using hi
      omega
    · have := hneg ht (by omega)
      omega
  | succ left ih =>
    intro i s rows hi1 hi hlen
    have hile : i ≤ niter := by push_cast at hi; omega
    rcases hstep : step s with s1 | e | u | _
    · set rows1 := (if burnin < i ∧ 0 < thin ∧ thin ∣ (i - burnin) then
        rows.set ((i - burnin) / thin - 1).toNat (pos s1) else rows) with hr1
      have hlen1 : rows1.length = rows.length := by
        rw [hr1]; split <;> simp
      have hunf : loopFrom step pos burnin thin (left + 1) i s rows =
          (toInt (i + 1)).bind fun i' => loopFrom step pos burnin thin left i' s1 rows1 := by
        rw [loopFrom, hstep, Out.ok_bind, record_int hz hile rows (pos s1) hlen, Out.ok_bind]
      rw [hunf]
      by_cases hov : i = intMax
      · -- the counter overflows after the last iteration
        have hnm : niter = intMax := by omega
        have htI : toInt (i + 1) = .ub .signedOverflow := by
          unfold toInt
          rw [if_neg (by rw [hov]; unfold IsInt; omega)]
        rw [htI]
        exact ⟨fun h => absurd h (by omega), fun _ _ _ _ => rfl, fun _ _ h => by cases h⟩
      · rw [toInt_ok ⟨by unfold intMin; omega, by omega⟩, Out.ok_bind]
        obtain ⟨ih1, ih2, ih3⟩ := ih (i + 1) s1 rows1 (by omega) (by push_cast at hi; omega)
          (by rw [hlen1, hlen])
        refine ⟨fun h => by rw [ih1 h, iter_succ', hstep, Out.ok_bind], ?_, ?_⟩
        · intro hm _ st hst
          rw [iter_succ', hstep, Out.ok_bind] at hst
          exact ih2 hm (by push_cast at hi; omega) st hst
        · intro rows' s' h
          obtain ⟨hl, hrow⟩ := ih3 rows' s' h
          refine ⟨by rw [hl, hlen1], fun j hj => ?_⟩
          obtain ⟨ha, hb⟩ := hrow j (by rw [hlen1]; exact hj)
          by_cases heq : 0 < thin ∧ i = recTime burnin thin j
          · obtain ⟨ht, heq⟩ := heq
            have hpos : 1 * 1 ≤ ((j : Int) + 1) * thin := Int.mul_le_mul (by omega) ht (by omega) (by omega)
            have hib : i - burnin = ((j : Int) + 1) * thin := by rw [heq]; unfold recTime; ring
            have hc : burnin < i ∧ 0 < thin ∧ thin ∣ (i - burnin) :=
              ⟨by omega, ht, ⟨(j : Int) + 1, by rw [hib]; ring⟩⟩
            refine ⟨fun _ _ => ⟨s1, ?_, ?_⟩, fun h => absurd ⟨ht, heq.le⟩ h⟩
            · rw [← heq, show (i + 1 - i).toNat = 1 by omega, iter_succ', hstep, Out.ok_bind, iter]
            · rw [hb (by omega), hr1, if_pos hc, hib, Int.mul_ediv_cancel _ (by omega)]
              have : ((j : Int) + 1 - 1).toNat = j := by omega
              rw [this]
              simp [hj]
          · refine ⟨fun ht hle => ?_, fun hn => ?_⟩
            · have hlt : i < recTime burnin thin j := lt_of_le_of_ne hle fun h => heq ⟨ht, h⟩
              obtain ⟨st, hst, hr⟩ := ha ht (by omega)
              refine ⟨st, ?_, hr⟩
              rw [show (recTime burnin thin j + 1 - i).toNat =
                (recTime burnin thin j + 1 - (i + 1)).toNat + 1 by omega, iter_succ', hstep, Out.ok_bind, hst]
            · rw [hb (fun ⟨h1, h2⟩ => hn ⟨h1, by omega⟩), hr1]
              split
              · rename_i hc
                obtain ⟨h1, h2, q, hq⟩ := hc
                have hqd : (i - burnin) / thin = q := by rw [hq]; exact Int.mul_ediv_cancel_left q (by omega)
                have hne : ((i - burnin) / thin - 1).toNat ≠ j := by
                  rw [hqd]
                  intro hqj
                  have hqpos : 0 < q := by
                    by_contra hcon
                    have : thin * q ≤ 0 := Int.mul_nonpos_of_nonneg_of_nonpos (by omega) (by omega)
                    omega
                  apply heq
                  refine ⟨h2, ?_⟩
                  have : q = (j : Int) + 1 := by omega
                  rw [this] at hq
                  unfold recTime
                  have : thin * ((j : Int) + 1) = ((j : Int) + 1) * thin := by ring
                  omega
                rw [List.getElem?_set_ne hne]
              · rfl
    all_goals
      refine ⟨fun _ => by simp [loopFrom, iter_succ', hstep], fun _ _ st hst => ?_, ?_⟩
      · rw [iter_succ', hstep] at hst; cases hst
      · intro rows' s' h
        simp [loopFrom, hstep] at h

theorem Recordable.sized {niter burnin thin : Int} (h : Recordable niter burnin thin) : Sized niter burnin thin :=
  ⟨h.1, h.2, h.3, h.4⟩

theorem runLoop_sized [Scalar F] (step : σ → Out σ) (pos : σ → Fin n → F) {niter burnin thin : Int}
    (hz : Sized niter burnin thin) (s : σ) :
    runLoop step pos niter burnin thin s =
      loopFrom step pos burnin thin niter.toNat 1 s
        (List.replicate (rowCount niter burnin thin) fun _ => 0) := by
  have hle := hz.rowCount_le
  rw [runLoop, toInt_ok hz.noOverflow, Out.ok_bind, intDiv, if_neg hz.thin_ne, hz.tdiv_eq,
    toInt_ok ⟨by unfold intMin; omega, hle⟩, Out.ok_bind, if_neg (by omega), Int.toNat_natCast]

/-- Arguments that cannot be sized are undefined behaviour before the first step. -/
theorem runLoop_unsized [Scalar F] (step : σ → Out σ) (pos : σ → Fin n → F) {niter burnin thin : Int}
    (hz : ¬ Sized niter burnin thin) (s : σ) : ∃ u, runLoop step pos niter burnin thin s = .ub u := by
  rw [runLoop]
  by_cases h1 : IsInt (niter - burnin)
  swap
  · exact ⟨.signedOverflow, by unfold toInt; rw [if_neg h1]; rfl⟩
  rw [toInt_ok h1, Out.ok_bind, intDiv]
  by_cases h2 : thin = 0
  · exact ⟨.divByZero, by rw [if_pos h2]; rfl⟩
  rw [if_neg h2]
  by_cases h3 : IsInt ((niter - burnin).tdiv thin)
  swap
  · exact ⟨.signedOverflow, by unfold toInt; rw [if_neg h3]; rfl⟩
  rw [toInt_ok h3, Out.ok_bind]
  by_cases h4 : (niter - burnin).tdiv thin < 0
  · exact ⟨.negativeSize, by rw [if_pos h4]⟩
  exfalso
  apply hz
  obtain ⟨-, c2, c3, -⟩ := tdiv_cases (niter - burnin) thin h2
  refine ⟨h1, h2, fun ⟨h5, h6⟩ => ?_, fun ht => ?_, fun ht => ?_⟩
  · rw [h5, h6] at h3
    exact absurd h3.2 (by unfold intMin intMax; decide)
  · by_contra hcon
    rw [c2 ht (by omega)] at h4
    have : 1 ≤ (niter - burnin).natAbs / thin.natAbs := Nat.div_pos (by omega) (by omega)
    omega
  · by_contra hcon
    rw [c3 ht (by omega)] at h4
    have : 1 ≤ (niter - burnin).natAbs / thin.natAbs := Nat.div_pos (by omega) (by omega)
    omega

variable [Scalar F]

/-- C67: whatever the three integers, if they are recordable then a call returns exactly when the chain
completes its `niter` steps, and then the result has `|niter - burnin| / |thin|` rows; row `j` is the position
of the chain at time `burnin + (j+1)*thin` if `thin` is positive and that time is at least 1, and a row of zeros
otherwise. -/
theorem C67_recordable (w : Walk F) (e : Env F) (a : Args F) (hd : a.DimsOk) (hk : w.isSparse = true → a.KOk)
    (hr : Recordable a.niter a.burnin a.thin) (rows : List (Fin a.A.c → F)) :
    w.run e a = .ok rows ↔
      (∃ st, w.chain e a hd a.niter.toNat = .ok st) ∧
      rows.length = rowCount a.niter a.burnin a.thin ∧
      ∀ j (hj : j < rows.length),
        (rowWritten a.burnin a.thin j → w.PosAt e a hd (recTime a.burnin a.thin j).toNat rows[j]) ∧
        (¬ rowWritten a.burnin a.thin j → rows[j] = fun _ => 0) := by
  have hz := hr.sized
  rw [Walk.run_eq, if_neg (by rintro ⟨h1, h2⟩; exact h2 (hk h1)), dif_pos hd]
  unfold Walk.PosAt Walk.chain
  rcases hs : w.start e a.A.r (a.x0 hd) a.k a.seed with s0 | _ | _ | _
  · simp only [Out.ok_bind]
    rw [runLoop_sized _ _ hz]
    by_cases hn : 0 ≤ a.niter
    · obtain ⟨k1, -, k3⟩ := loopFrom_int (w.step e a.A.val (a.rhs hd) a.k) (w.pos e) hz hr.counter.le
        a.niter.toNat 1 s0 (List.replicate (rowCount a.niter a.burnin a.thin) fun _ => 0) le_rfl (by omega)
        (by simp)
      have k1 := k1 hr.counter
      simp only [List.length_replicate] at k3
      have hrow : ∀ rows' s', loopFrom (w.step e a.A.val (a.rhs hd) a.k) (w.pos e) a.burnin a.thin a.niter.toNat 1 s0
          (List.replicate (rowCount a.niter a.burnin a.thin) fun _ => 0) = .ok (rows', s') →
          rows'.length = rowCount a.niter a.burnin a.thin ∧
          ∀ j (hj : j < rows'.length),
            (rowWritten a.burnin a.thin j → ∃ st, iter (w.step e a.A.val (a.rhs hd) a.k)
              (recTime a.burnin a.thin j).toNat s0 = .ok st ∧ w.pos e st = rows'[j]) ∧
            (¬ rowWritten a.burnin a.thin j → rows'[j] = fun _ => 0) := by
        intro rows' s' h
        obtain ⟨hl, hj'⟩ := k3 rows' s' h
        refine ⟨hl, fun j hj => ⟨fun hw => ?_, fun hw => ?_⟩⟩
        · obtain ⟨st, h1, h2⟩ := (hj' j (by omega)).1 hw.1 hw.2
          rw [List.getElem?_eq_getElem hj, Option.some.injEq] at h2
          exact ⟨st, by rw [← h1]; congr 1; omega, h2.symm⟩
        · have h2 := (hj' j (by omega)).2 hw
          rw [List.getElem?_eq_getElem hj, List.getElem?_replicate, if_pos (by omega), Option.some.injEq] at h2
          exact h2
      constructor
      · intro h
        obtain ⟨⟨rows', s'⟩, h1, h2⟩ := Out.map_eq_ok.1 h
        simp only at h2
        subst h2
        rw [h1] at k1
        exact ⟨⟨s', k1.symm⟩, hrow _ _ h1⟩
      · rintro ⟨⟨st, hst⟩, hl, hj⟩
        rw [hst] at k1
        obtain ⟨⟨rows', s'⟩, h1, h2⟩ := Out.map_eq_ok.1 k1
        rw [h1]
        obtain ⟨hl', hj'⟩ := hrow _ _ h1
        show Out.ok rows' = Out.ok rows
        congr 1
        refine List.ext_getElem (by rw [hl', hl]) fun j h1 h2 => ?_
        by_cases hw : rowWritten a.burnin a.thin j
        · obtain ⟨st1, e1, e2⟩ := (hj' j h1).1 hw
          obtain ⟨st2, e3, e4⟩ := (hj j h2).1 hw
          rw [e1] at e3
          cases e3
          exact e2.symm.trans e4
        · rw [(hj' j h1).2 hw, (hj j h2).2 hw]
    · have h0 : a.niter.toNat = 0 := by omega
      rw [h0]
      have hnw : ∀ j, j < rowCount a.niter a.burnin a.thin → ¬ rowWritten a.burnin a.thin j := by
        rintro j hj ⟨ht, h1⟩
        by_cases hdd : 0 ≤ a.niter - a.burnin
        · have q1 := hz.tdiv_eq
          rw [Int.tdiv_eq_ediv_of_nonneg hdd] at q1
          have h2 : (j : Int) + 1 ≤ (a.niter - a.burnin) / a.thin := by omega
          have h3 := (Int.mul_le_mul_of_nonneg_right h2 (by omega)).trans
            (Int.ediv_mul_le (a.niter - a.burnin) (by omega : a.thin ≠ 0))
          unfold recTime at h1
          omega
        · have := hz.notNegative.1 ht
          have : rowCount a.niter a.burnin a.thin = 0 := Nat.div_eq_of_lt (by omega)
          omega
      simp only [loopFrom, Out.map, Out.ok_bind, iter, Out.ok.injEq]
      constructor
      · rintro rfl
        exact ⟨⟨s0, rfl⟩, by simp, fun j hj => ⟨fun h => absurd h (hnw j (by simpa using hj)), fun _ => by simp⟩⟩
      · rintro ⟨-, hl, hj⟩
        refine List.ext_getElem (by simp [hl]) fun j h1 h2 => ?_
        rw [(hj j h2).2 (hnw j (by omega))]
        simp
  all_goals
    constructor
    · intro h; cases h
    · rintro ⟨⟨st, h⟩, -⟩; cases h

/-- C67: for recordable integers recording adds no failure of its own: the outcome is that of the chain. -/
theorem C67_outcome (w : Walk F) (e : Env F) (a : Args F) (hd : a.DimsOk) (hk : w.isSparse = true → a.KOk)
    (hr : Recordable a.niter a.burnin a.thin) :
    (w.run e a).map (fun _ => ()) = (w.chain e a hd a.niter.toNat).map (fun _ => ()) := by
  have hz := hr.sized
  rw [Walk.run_eq, if_neg (by rintro ⟨h1, h2⟩; exact h2 (hk h1)), dif_pos hd]
  unfold Walk.chain
  rcases hs : w.start e a.A.r (a.x0 hd) a.k a.seed with s0 | _ | _ | _
  · simp only [Out.ok_bind]
    rw [runLoop_sized _ _ hz]
    by_cases hn : 0 ≤ a.niter
    · have k1 := (loopFrom_int (w.step e a.A.val (a.rhs hd) a.k) (w.pos e) hz hr.counter.le
        a.niter.toNat 1 s0 (List.replicate (rowCount a.niter a.burnin a.thin) fun _ => 0) le_rfl (by omega)
        (by simp)).1 hr.counter
      rw [← k1, Out.map_map, Out.map_map]
    · rw [show a.niter.toNat = 0 by omega]; rfl
  all_goals rfl

/-- C67: integers that are not recordable are undefined behaviour (overflow, division by zero or a negative
size), whatever the walk, provided the chain itself would complete its `niter` steps. -/
theorem C67_otherwise_ub (w : Walk F) (e : Env F) (a : Args F) (hd : a.DimsOk) (hk : w.isSparse = true → a.KOk)
    (hi : IsInt a.niter) (hr : ¬ Recordable a.niter a.burnin a.thin)
    (hc : ∃ st, w.chain e a hd a.niter.toNat = .ok st) : ∃ u, w.run e a = .ub u := by
  rw [Walk.run_eq, if_neg (by rintro ⟨h1, h2⟩; exact h2 (hk h1)), dif_pos hd]
  obtain ⟨st, hst⟩ := hc
  rw [Walk.chain, Out.bind_eq_ok] at hst
  obtain ⟨s0, hs0, hst⟩ := hst
  rw [hs0, Out.ok_bind]
  by_cases hz : Sized a.niter a.burnin a.thin
  · have hm : a.niter = intMax := by
      by_contra hcon
      exact hr ⟨hz.1, hz.2, hz.3, hz.4, lt_of_le_of_ne hi.2 hcon⟩
    have hpos : 0 < a.niter.toNat := by rw [hm]; decide
    rw [runLoop_sized _ _ hz, (loopFrom_int (w.step e a.A.val (a.rhs hd) a.k) (w.pos e) hz hi.2
      a.niter.toNat 1 s0 (List.replicate (rowCount a.niter a.burnin a.thin) fun _ => 0) le_rfl (by omega)
      (by simp)).2.1 hm hpos st hst]
    exact ⟨_, rfl⟩
  · obtain ⟨u, hu⟩ := runLoop_unsized (w.step e a.A.val (a.rhs hd) a.k) (w.pos e) hz s0
    exact ⟨u, by rw [hu]; rfl⟩

/-- C67, in one line: a call with matching dimensions returns iff its integers are recordable and the chain
completes `niter` steps. -/
theorem C67_returns_iff (w : Walk F) (e : Env F) (a : Args F) (hd : a.DimsOk) (hk : w.isSparse = true → a.KOk)
    (hi : IsInt a.niter) (hc : ∃ st, w.chain e a hd a.niter.toNat = .ok st) :
    (∃ rows, w.run e a = .ok rows) ↔ Recordable a.niter a.burnin a.thin := by
  constructor
  · rintro ⟨rows, h⟩
    by_contra hcon
    obtain ⟨u, hu⟩ := C67_otherwise_ub w e a hd hk hi hcon hc
    rw [h] at hu
    cases hu
  · intro hr
    have := C67_outcome w e a hd hk hr
    obtain ⟨st, hst⟩ := hc
    rw [hst] at this
    obtain ⟨rows, h1, -⟩ := Out.map_eq_ok.1 this
    exact ⟨rows, h1⟩

/-- C67: the documented range is recordable, and so are the calls of the two counterexamples of C03. -/
theorem GoodInts.recordable {niter burnin thin : Int} (h : GoodInts niter burnin thin) :
    Recordable niter burnin thin := by
  obtain ⟨h1, h2, h3, h4, h5⟩ := h
  exact ⟨⟨by unfold intMin; omega, by omega⟩, by omega, by omega, ⟨by omega, by omega⟩, h4⟩

example : Recordable 10 (-25) 7 ∧ rowCount 10 (-25) 7 = 5 ∧ ¬ rowWritten (-25) 7 2 ∧ rowWritten (-25) 7 3 := by
  refine ⟨⟨by decide, by decide, by decide, by decide, by decide⟩, by decide, ?_, ?_⟩ <;>
    simp [rowWritten, recTime]
example : ¬ Recordable 10 20 3 := fun h => absurd (h.notNegative.1 (by decide)) (by decide)
example : Recordable 10 20 (-3) := ⟨by decide, by decide, by decide, by decide, by decide⟩

end PW
