import Verif.Model.Loop
import Verif.Spec.Chain
import Mathlib.Tactic.Ring
import Mathlib.Tactic.Linarith
import Mathlib.Algebra.Order.Ring.Nat

namespace PW
variable {F : Type} {n : ℕ} {σ : Type}

theorem iter_succ' (step : σ → Out σ) (t : ℕ) (s : σ) :
    iter step (t + 1) s = (step s).bind (iter step t) := by
  induction t generalizing s with
  | zero => simp [iter]
  | succ t ih =>
    rw [iter, ih]
    rw [Out.bind_assoc]
    rfl

theorem iter_add (step : σ → Out σ) (t u : ℕ) (s : σ) :
    iter step (t + u) s = (iter step t s).bind (iter step u) := by
  induction u with
  | zero => simp [iter]
  | succ u ih => rw [← Nat.add_assoc, iter, ih, Out.bind_assoc]; rfl

theorem iter_ok_of_le {step : σ → Out σ} {t u : ℕ} {s su : σ} (h : iter step u s = .ok su)
    (htu : t ≤ u) : ∃ st, iter step t s = .ok st := by
  obtain ⟨v, rfl⟩ := Nat.exists_eq_add_of_le htu
  rw [iter_add, Out.bind_eq_ok] at h
  obtain ⟨a, h1, _⟩ := h
  exact ⟨a, h1⟩

theorem iter_inv {step : σ → Out σ} (P : σ → Prop) (hs : ∀ s s', P s → step s = .ok s' → P s')
    {t : ℕ} {s st : σ} (h0 : P s) (h : iter step t s = .ok st) : P st := by
  induction t generalizing st with
  | zero => simp only [iter, Out.ok.injEq] at h; exact h ▸ h0
  | succ t ih =>
    rw [iter, Out.bind_eq_ok] at h
    obtain ⟨s1, h1, h2⟩ := h
    exact hs _ _ (ih h1) h2

theorem toInt_ok {z : Int} (h : IsInt z) : toInt z = .ok z := by simp [toInt, h]

theorem isInt_nat {x : ℕ} (h : (x : Int) ≤ intMax) : IsInt x := ⟨by unfold intMin; omega, h⟩

/-- The record step with natural-number arguments in range. -/
theorem record_eq (B T i : ℕ) (hT : 1 ≤ T) (hi : (i : Int) ≤ intMax)
    (rows : List (Fin n → F)) (x : Fin n → F) (hlen : B < i → i - B ≤ rows.length * T + (T - 1)) :
    record (B : Int) (T : Int) (i : Int) rows x =
      .ok (if B < i ∧ T ∣ (i - B) then rows.set ((i - B) / T - 1) x else rows) := by
  unfold record
  by_cases h : B < i
  · have h' : (B : Int) < (i : Int) := by exact_mod_cast h
    obtain ⟨e, rfl⟩ : ∃ e, i = B + e := ⟨i - B, by omega⟩
    have hsub : ((B + e : ℕ) : Int) - (B : Int) = (e : Int) := by push_cast; ring
    have hle := hlen h
    simp only [Nat.add_sub_cancel_left] at hle
    have he : IsInt (e : Int) := ⟨by unfold intMin; omega, by
      have : (e : Int) ≤ ((B + e : ℕ) : Int) := by push_cast; omega
      omega⟩
    have hdiv : Int.tdiv (e : Int) (T : Int) = ((e / T : ℕ) : Int) := by
      rw [Int.tdiv_eq_ediv_of_nonneg (by omega)]; exact (Int.natCast_ediv e T).symm
    have hmod : Int.tmod (e : Int) (T : Int) = ((e % T : ℕ) : Int) := by
      rw [Int.tmod_eq_emod_of_nonneg (by omega)]; exact (Int.natCast_emod e T).symm
    have hq : IsInt ((e / T : ℕ) : Int) := isInt_nat (by
      have : ((e / T : ℕ) : Int) ≤ (e : Int) := Int.ofNat_le.mpr (Nat.div_le_self e T)
      exact this.trans he.2)
    rw [if_pos h', hsub, toInt_ok he]
    have hT0 : (T : Int) ≠ 0 := by omega
    simp only [Out.ok_bind, intMod, intDiv, hdiv, hmod, if_neg hT0, hq, if_true,
      Nat.add_sub_cancel_left]
    by_cases hd : T ∣ e
    · have hz : e % T = 0 := Nat.mod_eq_zero_of_dvd hd
      have hepos : 0 < e := by omega
      have hqpos : 1 ≤ e / T := Nat.div_pos (Nat.le_of_dvd hepos hd) (by omega)
      have hqlen : e / T ≤ rows.length := by
        obtain ⟨q, rfl⟩ := hd
        have : (T * q) / T = q := Nat.mul_div_cancel_left q (by omega)
        rw [this]
        by_contra hcon
        have : rows.length + 1 ≤ q := by omega
        have := Nat.mul_le_mul_left T this
        have e1 : T * (rows.length + 1) = rows.length * T + T := by ring
        omega
      have hI : IsInt (((e / T : ℕ) : Int) - 1) := ⟨by unfold intMin; omega, by have := hq.2; omega⟩
      have hI' : ((e / T : ℕ) : Int) - 1 = ((e / T - 1 : ℕ) : Int) := by omega
      simp only [hz, Nat.cast_zero, if_true, toInt_ok hq, toInt_ok hI, Out.ok_bind, h, hd, and_self]
      rw [writeRow, if_pos ⟨by omega, by omega⟩, hI', Int.toNat_natCast]
    · have hz : e % T ≠ 0 := fun hz => hd (Nat.dvd_of_mod_eq_zero hz)
      have hz' : ((e % T : ℕ) : Int) ≠ 0 := by exact_mod_cast hz
      rw [if_neg hz', if_neg (by simp [hd])]
  · rw [if_neg (by exact_mod_cast h), if_neg (by simp [h])]

/-- Invariant of the recording loop. -/
theorem loopFrom_spec (step : σ → Out σ) (pos : σ → Fin n → F) (N B T : ℕ) (hT : 1 ≤ T)
    (hN : (N : Int) < intMax) :
    ∀ (left i : ℕ) (s : σ) (rows : List (Fin n → F)), i + left = N + 1 → rows.length = (N - B) / T →
      (loopFrom step pos B T left i s rows).map Prod.snd = iter step left s ∧
      ∀ rows' s', loopFrom step pos B T left i s rows = .ok (rows', s') →
        rows'.length = rows.length ∧ ∀ j, j < rows.length →
          (B + (j + 1) * T < i → rows'[j]? = rows[j]?) ∧
          (i ≤ B + (j + 1) * T → ∃ st, iter step (B + (j + 1) * T + 1 - i) s = .ok st ∧
            rows'[j]? = some (pos st)) := by
  intro left
  induction left with
  | zero =>
    intro i s rows hi hlen
    refine ⟨by simp [loopFrom, iter], ?_⟩
    intro rows' s' h
    simp only [loopFrom, Out.ok.injEq, Prod.mk.injEq] at h
    obtain ⟨rfl, rfl⟩ := h
    refine ⟨rfl, fun j hj => ⟨fun _ => rfl, fun hij => ?_⟩⟩
    exfalso
    rw [hlen] at hj
    have h1 : (j + 1) * T ≤ (N - B) / T * T := Nat.mul_le_mul_right T hj
    have h2 := Nat.div_mul_le_self (N - B) T
    have : 1 * 1 ≤ (j + 1) * T := Nat.mul_le_mul (by omega) hT
    omega
  | succ left ih =>
    intro i s rows hi hlen
    have hiN : (i : Int) ≤ intMax := by omega
    have hbound : B < i → i - B ≤ rows.length * T + (T - 1) := by
      intro _
      rw [hlen]
      have h1 := Nat.div_add_mod (N - B) T
      have h2 := Nat.mod_lt (N - B) (show 0 < T by omega)
      have : T * ((N - B) / T) = (N - B) / T * T := by ring
      omega
    have hnext : toInt ((i : Int) + 1) = .ok ((i + 1 : ℕ) : Int) := by
      rw [toInt_ok ⟨by unfold intMin; omega, by omega⟩]; push_cast; rfl
    rcases hstep : step s with s1 | e | u | _
    · have hunf : loopFrom step pos B T (left + 1) i s rows =
          loopFrom step pos B T left ((i + 1 : ℕ) : Int) s1
            (if B < i ∧ T ∣ (i - B) then rows.set ((i - B) / T - 1) (pos s1) else rows) := by
        rw [loopFrom, hstep, Out.ok_bind, record_eq B T i hT hiN rows (pos s1) hbound, Out.ok_bind,
          hnext, Out.ok_bind]
      rw [hunf]
      set rows1 := (if B < i ∧ T ∣ (i - B) then rows.set ((i - B) / T - 1) (pos s1) else rows) with hr1
      have hlen1 : rows1.length = rows.length := by
        rw [hr1]; split <;> simp
      obtain ⟨ih1, ih2⟩ := ih (i + 1) s1 rows1 (by omega) (by rw [hlen1, hlen])
      refine ⟨by rw [ih1, iter_succ', hstep, Out.ok_bind], ?_⟩
      intro rows' s' h
      obtain ⟨hl, hrow⟩ := ih2 rows' s' h
      refine ⟨by rw [hl, hlen1], fun j hj => ?_⟩
      have hj1 : j < rows1.length := by rw [hlen1]; exact hj
      obtain ⟨ha, hb⟩ := hrow j hj1
      constructor
      · intro hlt
        rw [ha (by omega)]
        rw [hr1]
        split
        · rename_i hc
          obtain ⟨q, hq⟩ := hc.2
          have hqd : (i - B) / T = q := by rw [hq]; exact Nat.mul_div_cancel_left q (by omega)
          have : (j + 1) < q := by
            by_contra hcon
            have : q ≤ j + 1 := by omega
            have := Nat.mul_le_mul_left T this
            have e2 : T * (j + 1) = (j + 1) * T := by ring
            omega
          rw [List.getElem?_set_ne (by omega)]
        · rfl
      · intro hge
        rcases Nat.lt_or_ge i (B + (j + 1) * T) with hlt | hge'
        · obtain ⟨st, hst, hr⟩ := hb (by omega)
          refine ⟨st, ?_, hr⟩
          have : B + (j + 1) * T + 1 - i = (B + (j + 1) * T + 1 - (i + 1)) + 1 := by omega
          rw [this, iter_succ', hstep, Out.ok_bind, hst]
        · have hieq : i = B + (j + 1) * T := by omega
          refine ⟨s1, ?_, ?_⟩
          · have : B + (j + 1) * T + 1 - i = 1 := by omega
            rw [this, iter_succ', hstep, Out.ok_bind, iter]
          · rw [ha (by omega), hr1]
            have hpos : 1 * 1 ≤ (j + 1) * T := Nat.mul_le_mul (by omega) hT
            have hcond : B < i ∧ T ∣ (i - B) := ⟨by omega, ⟨j + 1, by
              rw [hieq, Nat.add_sub_cancel_left]; ring⟩⟩
            rw [if_pos hcond]
            have : (i - B) / T - 1 = j := by
              rw [hieq, Nat.add_sub_cancel_left, Nat.mul_div_cancel _ (by omega)]; omega
            rw [this]
            simp [hj]
    all_goals
      refine ⟨by simp [loopFrom, iter_succ', hstep], ?_⟩
      intro rows' s' h
      simp [loopFrom, hstep] at h

/-- Everything the recording loop guarantees for arguments in the documented range. -/
theorem runLoop_spec [Scalar F] (step : σ → Out σ) (pos : σ → Fin n → F) (niter burnin thin : Int)
    (hg : GoodInts niter burnin thin) (s : σ) :
    (runLoop step pos niter burnin thin s).map Prod.snd = iter step niter.toNat s ∧
    ∀ rows s', runLoop step pos niter burnin thin s = .ok (rows, s') →
      (rows.length : Int) = (niter - burnin) / thin ∧
      ∀ j (hj : j < rows.length), ∃ st,
        iter step (burnin + ((j : Int) + 1) * thin).toNat s = .ok st ∧ rows[j] = pos st := by
  obtain ⟨h1, h2, h3, h4, h5⟩ := hg
  obtain ⟨T, rfl⟩ := Int.eq_ofNat_of_zero_le (show 0 ≤ thin by omega)
  obtain ⟨B, rfl⟩ := Int.eq_ofNat_of_zero_le h2
  obtain ⟨N, rfl⟩ := Int.eq_ofNat_of_zero_le (show 0 ≤ niter by omega)
  have hBN : B ≤ N := by omega
  have hsub : (N : Int) - (B : Int) = ((N - B : ℕ) : Int) := by omega
  have hdivq : (((N - B : ℕ) : Int)) / (T : Int) = (((N - B) / T : ℕ) : Int) :=
    (Int.natCast_ediv _ _).symm
  have hdiv : Int.tdiv (((N - B : ℕ) : Int)) (T : Int) = (((N - B) / T : ℕ) : Int) := by
    rw [Int.tdiv_eq_ediv_of_nonneg (by omega)]; exact hdivq
  have hq : IsInt (((N - B) / T : ℕ) : Int) := isInt_nat (by
    have : (((N - B) / T : ℕ) : Int) ≤ ((N - B : ℕ) : Int) := Int.ofNat_le.mpr (Nat.div_le_self _ _)
    omega)
  have hT0 : (T : Int) ≠ 0 := by omega
  have hunf : runLoop step pos N B T s =
      loopFrom step pos B T N 1 s (List.replicate ((N - B) / T) fun _ => 0) := by
    rw [runLoop, hsub, toInt_ok ⟨by unfold intMin; omega, by omega⟩, Out.ok_bind, intDiv, if_neg hT0, hdiv,
      toInt_ok hq, Out.ok_bind, if_neg (not_lt.mpr (Int.natCast_nonneg _)), Int.toNat_natCast, Int.toNat_natCast]
  obtain ⟨ha, hb⟩ := loopFrom_spec step pos N B T (by omega) h4 N 1 s
    (List.replicate ((N - B) / T) fun _ => 0) (by omega) (by simp)
  rw [hunf]
  refine ⟨by rw [Int.toNat_natCast]; exact_mod_cast ha, fun rows s' h => ?_⟩
  obtain ⟨hl, hr⟩ := hb rows s' (by exact_mod_cast h)
  simp only [List.length_replicate] at hl hr
  refine ⟨by rw [hl, hsub, hdivq], fun j hj => ?_⟩
  have hjT : 1 * 1 ≤ (j + 1) * T := Nat.mul_le_mul (by omega) (by omega)
  obtain ⟨st, hst, hrow⟩ := (hr j (by omega)).2 (by omega)
  refine ⟨st, ?_, ?_⟩
  · have e1 : ((B : Int) + ((j : Int) + 1) * (T : Int)).toNat = B + (j + 1) * T := by
      have : ((B : Int) + ((j : Int) + 1) * (T : Int)) = ((B + (j + 1) * T : ℕ) : Int) := by
        push_cast; ring
      rw [this, Int.toNat_natCast]
    have e2 : B + (j + 1) * T + 1 - 1 = B + (j + 1) * T := by omega
    rw [e1, ← e2]; exact hst
  · rw [List.getElem?_eq_getElem hj] at hrow
    exact Option.some.inj hrow

end PW

namespace PW
/-- A completed run with `niter ≥ 1` made a first step. -/
theorem runLoop_first {F σ : Type} [Scalar F] {n : ℕ} {step : σ → Out σ} {pos : σ → Fin n → F}
    {niter burnin thin : Int} {s : σ} {r : List (Fin n → F) × σ}
    (h : runLoop step pos niter burnin thin s = .ok r) (hn : 1 ≤ niter) : ∃ s', step s = .ok s' := by
  rw [runLoop] at h
  obtain ⟨t, _, h⟩ := Out.bind_eq_ok.1 h
  obtain ⟨q, _, h⟩ := Out.bind_eq_ok.1 h
  split at h
  · cases h
  · obtain ⟨l, hl⟩ : ∃ l, niter.toNat = l + 1 := ⟨niter.toNat - 1, by omega⟩
    rw [hl, loopFrom] at h
    obtain ⟨s1, h1, _⟩ := Out.bind_eq_ok.1 h
    exact ⟨s1, h1⟩
end PW
