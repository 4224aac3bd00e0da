import Verif.Spec.Rounding
import Verif.Spec.Membership
import Mathlib.Data.EReal.Operations
import Mathlib.Algebra.Order.BigOperators.Group.Finset
import Mathlib.Algebra.BigOperators.Field
import Mathlib.Algebra.BigOperators.Fin
import Mathlib.Tactic.Linarith
import Mathlib.Tactic.Positivity
import Mathlib.Tactic.Ring

/-!
# Rounding errors of sums, inner products and comparisons
-/

namespace PW
open Finset
variable {F : Type} [Scalar F] {ext : F → Option EReal} {u θ Ω : ℝ}

namespace SumOf
variable {ι : Type} [DecidableEq ι] {v : ι → F} {s : Finset ι} {d : ℕ} {a : F}

/-- A finite sum has finite terms, and the error grows with the depth. -/
theorem error (R : Rounding F ext u θ Ω) (h : SumOf v s d a) (w : ι → ℝ) (hw : ∀ i ∈ s, ∀ x : ℝ, ext (v i) = some (x : EReal) → x = w i) :
    ∀ r : ℝ, ext a = some (r : EReal) → |r - ∑ i ∈ s, w i| ≤ ((1 + u) ^ d - 1) * ∑ i ∈ s, |w i| := by
  have hu := R.u_nonneg
  induction h with
  | zero =>
    intro r hr
    rw [R.zero] at hr
    have : r = 0 := by simpa using hr.symm
    simp [this]
  | single i =>
    intro r hr
    rw [hw i (by simp) r hr]
    simp
  | @add s t d e a b hd hs ht ihs iht =>
    intro r hr
    obtain ⟨x, y, hx, hy, hxy⟩ := R.add _ _ _ hr
    have h1 := ihs (fun i hi => hw i (mem_union_left _ hi)) x hx
    have h2 := iht (fun i hi => hw i (mem_union_right _ hi)) y hy
    rw [sum_union hd, sum_union hd]
    generalize hS : ∑ i ∈ s, w i = S at *
    generalize hT : ∑ i ∈ t, w i = T at *
    have hS' : |S| ≤ ∑ i ∈ s, |w i| := hS ▸ abs_sum_le_sum_abs _ _
    have hT' : |T| ≤ ∑ i ∈ t, |w i| := hT ▸ abs_sum_le_sum_abs _ _
    generalize ∑ i ∈ s, |w i| = P at *
    generalize ∑ i ∈ t, |w i| = Q at *
    have hP : 0 ≤ P := (abs_nonneg _).trans hS'
    have hQ : 0 ≤ Q := (abs_nonneg _).trans hT'
    have p1 : (1 + u) ^ d ≤ (1 + u) ^ max d e := pow_le_pow_right₀ (by linarith) (le_max_left _ _)
    have p2 : (1 + u) ^ e ≤ (1 + u) ^ max d e := pow_le_pow_right₀ (by linarith) (le_max_right _ _)
    rw [pow_succ]
    generalize (1 + u) ^ max d e = M at *
    have e1 : |(x + y) - (S + T)| ≤ (M - 1) * (P + Q) := by
      calc |(x + y) - (S + T)| = |(x - S) + (y - T)| := by congr 1; ring
        _ ≤ |x - S| + |y - T| := abs_add_le _ _
        _ ≤ ((1 + u) ^ d - 1) * P + ((1 + u) ^ e - 1) * Q := add_le_add h1 h2
        _ ≤ (M - 1) * P + (M - 1) * Q := add_le_add (mul_le_mul_of_nonneg_right (by linarith) hP) (mul_le_mul_of_nonneg_right (by linarith) hQ)
        _ = _ := by ring
    have e2 : |x + y| ≤ M * (P + Q) := by
      calc |x + y| = |((x + y) - (S + T)) + (S + T)| := by congr 1; ring
        _ ≤ |(x + y) - (S + T)| + |S + T| := abs_add_le _ _
        _ ≤ (M - 1) * (P + Q) + (P + Q) := add_le_add e1 ((abs_add_le _ _).trans (add_le_add hS' hT'))
        _ = _ := by ring
    calc |r - (S + T)| = |(r - (x + y)) + ((x + y) - (S + T))| := by congr 1; ring
      _ ≤ |r - (x + y)| + |(x + y) - (S + T)| := abs_add_le _ _
      _ ≤ u * (M * (P + Q)) + (M - 1) * (P + Q) := add_le_add (hxy.trans (mul_le_mul_of_nonneg_left e2 hu)) e1
      _ = _ := by ring

/-- The magnitude of a computed sum. -/
theorem bound (R : Rounding F ext u θ Ω) (h : SumOf v s d a) (w : ι → ℝ) (hw : ∀ i ∈ s, ∀ x : ℝ, ext (v i) = some (x : EReal) → x = w i)
    (r : ℝ) (hr : ext a = some (r : EReal)) : |r| ≤ (1 + u) ^ d * ∑ i ∈ s, |w i| := by
  have h1 := h.error R w hw r hr
  have h2 : |∑ i ∈ s, w i| ≤ ∑ i ∈ s, |w i| := abs_sum_le_sum_abs _ _
  calc |r| = |(r - ∑ i ∈ s, w i) + ∑ i ∈ s, w i| := by congr 1; ring
    _ ≤ _ := abs_add_le _ _
    _ ≤ ((1 + u) ^ d - 1) * ∑ i ∈ s, |w i| + ∑ i ∈ s, |w i| := add_le_add h1 h2
    _ = _ := by ring

/-- No overflow. -/
theorem finite (R : Rounding F ext u θ Ω) (h : SumOf v s d a) (w : ι → ℝ) (hw : ∀ i ∈ s, ext (v i) = some (w i : EReal))
    (hΩ : (1 + u) ^ d * ∑ i ∈ s, |w i| ≤ Ω) : ∃ r : ℝ, ext a = some (r : EReal) := by
  have hu := R.u_nonneg
  have key : ∀ {s : Finset ι}, (∀ i ∈ s, ext (v i) = some (w i : EReal)) →
      ∀ i ∈ s, ∀ x : ℝ, ext (v i) = some (x : EReal) → x = w i := by
    intro s hw i hi x hx
    rw [hw i hi] at hx
    simpa using hx.symm
  induction h with
  | zero => exact ⟨0, by simpa using R.zero⟩
  | single i => exact ⟨w i, hw i (by simp)⟩
  | @add s t d e a b hd hs ht ihs iht =>
    have hs1 := fun i hi => hw i (mem_union_left t hi)
    have ht1 := fun i hi => hw i (mem_union_right s hi)
    rw [sum_union hd, pow_succ] at hΩ
    have hP : 0 ≤ ∑ i ∈ s, |w i| := sum_nonneg fun _ _ => abs_nonneg _
    have hQ : 0 ≤ ∑ i ∈ t, |w i| := sum_nonneg fun _ _ => abs_nonneg _
    have p1 : (1 + u) ^ d ≤ (1 + u) ^ max d e := pow_le_pow_right₀ (by linarith) (le_max_left _ _)
    have p2 : (1 + u) ^ e ≤ (1 + u) ^ max d e := pow_le_pow_right₀ (by linarith) (le_max_right _ _)
    have p0 : 0 ≤ (1 + u) ^ max d e := by positivity
    have b1 : (1 + u) ^ d * ∑ i ∈ s, |w i| ≤ (1 + u) ^ max d e * ∑ i ∈ s, |w i| := mul_le_mul_of_nonneg_right p1 hP
    have b2 : (1 + u) ^ e * ∑ i ∈ t, |w i| ≤ (1 + u) ^ max d e * ∑ i ∈ t, |w i| := mul_le_mul_of_nonneg_right p2 hQ
    have b3 : (1 + u) ^ max d e * ∑ i ∈ s, |w i| + (1 + u) ^ max d e * ∑ i ∈ t, |w i| ≤ Ω := by
      refine le_trans ?_ hΩ
      have : 0 ≤ u * ((1 + u) ^ max d e * (∑ i ∈ s, |w i| + ∑ i ∈ t, |w i|)) := by positivity
      linarith
    have n1 : 0 ≤ (1 + u) ^ max d e * ∑ i ∈ s, |w i| := mul_nonneg p0 hP
    have n2 : 0 ≤ (1 + u) ^ max d e * ∑ i ∈ t, |w i| := mul_nonneg p0 hQ
    obtain ⟨x, hx⟩ := ihs hs1 (by linarith)
    obtain ⟨y, hy⟩ := iht ht1 (by linarith)
    refine R.add_fin a b x y hx hy ?_
    have c1 := hs.bound R w (key hs1) x hx
    have c2 := ht.bound R w (key ht1) y hy
    have := abs_add_le x y
    linarith

/-- A term that is NaN makes the sum NaN. -/
theorem nan (R : Rounding F ext u θ Ω) (h : SumOf v s d a) {i : ι} (hi : i ∈ s) (hv : ext (v i) = none) : ext a = none := by
  induction h with
  | zero => simp at hi
  | single j =>
    rw [mem_singleton] at hi
    exact hi ▸ hv
  | add hd hs ht ihs iht =>
    rcases mem_union.1 hi with h | h
    · exact R.add_nan _ _ (.inl (ihs h))
    · exact R.add_nan _ _ (.inr (iht h))

end SumOf

/-- `Spec.dot` adds the products from the left. -/
theorem sumOf_dot {n : ℕ} (a x : Fin n → F) : SumOf (fun j => a j * x j) univ n (Spec.dot a x) := by
  have key : ∀ k : ℕ, ∀ hk : k ≤ n, SumOf (fun j => a j * x j) (univ.filter fun j : Fin n => j.1 < k) k
      ((((List.finRange n).take k).map fun j => a j * x j).foldl (· + ·) 0) := by
    intro k
    induction k with
    | zero => intro _; simpa using SumOf.zero (v := fun j => a j * x j)
    | succ k ih =>
      intro hk
      have h1 := ih (by omega)
      have h2 := SumOf.add (v := fun j => a j * x j) (by simp) h1 (.single (⟨k, hk⟩ : Fin n))
      have e1 : (univ.filter fun j : Fin n => j.1 < k + 1) = (univ.filter fun j : Fin n => j.1 < k) ∪ {⟨k, hk⟩} := by
        ext j
        simp only [mem_filter, mem_univ, true_and, mem_union, mem_singleton, Fin.ext_iff]
        omega
      have e2 : (List.finRange n).take (k + 1) = (List.finRange n).take k ++ [⟨k, hk⟩] := by
        rw [List.take_add_one, List.getElem?_eq_getElem (by simp; omega)]
        simp
      rw [e1, e2]
      simpa using h2
  have h := key n le_rfl
  have e1 : (univ.filter fun j : Fin n => j.1 < n) = univ := by ext j; simp
  rw [e1, List.take_of_length_le (by simp)] at h
  rw [Spec.dot, List.ofFn_eq_map]
  exact h

/-- The computed value of a sum of products: finite without overflow. -/
theorem dot_finite (R : Rounding F ext u θ Ω) {n d : ℕ} {a x : Fin n → F} {α ξ : Fin n → ℝ} (ha : HasValues ext a α) (hx : HasValues ext x ξ)
    {s : F} (hs : SumOf (fun j => a j * x j) univ d s) (hΩ : (1 + u) ^ (d + 1) * (∑ j, |α j * ξ j| + n * θ) ≤ Ω) :
    ∃ r : ℝ, ext s = some (r : EReal) ∧ |r - ∑ j, α j * ξ j| ≤ ((1 + u) ^ (d + 1) - 1) * ∑ j, |α j * ξ j| + (1 + u) ^ d * (n * θ) ∧
      |r| ≤ (1 + u) ^ (d + 1) * (∑ j, |α j * ξ j| + n * θ) := by
  have hu := R.u_nonneg
  have hθ := R.θ_nonneg
  have hT : 0 ≤ ∑ j, |α j * ξ j| := sum_nonneg fun _ _ => abs_nonneg _
  have hn : (0 : ℝ) ≤ n * θ := by positivity
  have hp1 : 1 ≤ (1 + u) ^ (d + 1) := one_le_pow₀ (by linarith)
  have hle : ∑ j, |α j * ξ j| ≤ Ω := by
    refine le_trans ?_ hΩ
    nlinarith
  have h1 : ∀ j, ∃ p : ℝ, ext (a j * x j) = some (p : EReal) ∧ |p - α j * ξ j| ≤ u * |α j * ξ j| + θ := by
    intro j
    obtain ⟨p, hp⟩ := R.mul_fin _ _ _ _ (ha j) (hx j) ((single_le_sum (f := fun j => |α j * ξ j|) (fun _ _ => abs_nonneg _) (mem_univ j)).trans hle)
    obtain ⟨y, z, hy, hz, he⟩ := R.mul _ _ _ hp
    have e1 : y = α j := by have := hy.symm.trans (ha j); simpa using this
    have e2 : z = ξ j := by have := hz.symm.trans (hx j); simpa using this
    exact ⟨p, hp, by rwa [← e1, ← e2]⟩
  choose p hp hpe using h1
  have hpa : ∀ j, |p j| ≤ (1 + u) * |α j * ξ j| + θ := by
    intro j
    have h2 : |p j| ≤ |p j - α j * ξ j| + |α j * ξ j| := by
      have := abs_add_le (p j - α j * ξ j) (α j * ξ j)
      rwa [sub_add_cancel] at this
    linarith [hpe j]
  have hsum : ∑ j, |p j| ≤ (1 + u) * ∑ j, |α j * ξ j| + n * θ := by
    refine (sum_le_sum fun j _ => hpa j).trans (le_of_eq ?_)
    rw [sum_add_distrib, mul_sum]
    simp
  have hpd : 0 ≤ (1 + u) ^ d := by positivity
  have hmul : (1 + u) ^ d * ∑ j, |p j| ≤ (1 + u) ^ (d + 1) * (∑ j, |α j * ξ j| + n * θ) := by
    refine (mul_le_mul_of_nonneg_left hsum hpd).trans ?_
    rw [pow_succ]
    have : 0 ≤ (1 + u) ^ d * (u * (n * θ)) := by positivity
    nlinarith
  have hw : ∀ i ∈ (univ : Finset (Fin n)), ∀ y : ℝ, ext (a i * x i) = some (y : EReal) → y = p i := by
    intro i _ y hy
    have := hy.symm.trans (hp i)
    simpa using this
  obtain ⟨r, hr⟩ := hs.finite R p (fun i _ => hp i) (hmul.trans hΩ)
  refine ⟨r, hr, ?_, (hs.bound R p hw r hr).trans hmul⟩
  have e1 := hs.error R p hw r hr
  have e2 : |∑ j, p j - ∑ j, α j * ξ j| ≤ u * ∑ j, |α j * ξ j| + n * θ := by
    rw [← sum_sub_distrib]
    refine (abs_sum_le_sum_abs _ _).trans ((sum_le_sum fun j _ => hpe j).trans (le_of_eq ?_))
    rw [sum_add_distrib, mul_sum]
    simp
  have hpd1 : 0 ≤ (1 + u) ^ d - 1 := by
    have : 1 ≤ (1 + u) ^ d := one_le_pow₀ (by linarith)
    linarith
  calc |r - ∑ j, α j * ξ j| = |(r - ∑ j, p j) + (∑ j, p j - ∑ j, α j * ξ j)| := by congr 1; ring
    _ ≤ |r - ∑ j, p j| + |∑ j, p j - ∑ j, α j * ξ j| := abs_add_le _ _
    _ ≤ ((1 + u) ^ d - 1) * ((1 + u) * ∑ j, |α j * ξ j| + n * θ) + (u * ∑ j, |α j * ξ j| + n * θ) :=
        add_le_add (e1.trans (mul_le_mul_of_nonneg_left hsum hpd1)) e2
    _ = _ := by rw [pow_succ]; ring

/-- `fl(s - b) ≤ 0` decides `s ≤ b` exactly. -/
theorem sub_le_zero_iff (R : Rounding F ext u θ Ω) {s b : F} {r β : ℝ} (hs : ext s = some (r : EReal)) (hb : ext b = some (β : EReal))
    (hΩ : |r - β| ≤ Ω) : ∃ q : ℝ, ext (s - b) = some (q : EReal) ∧ (q ≤ 0 ↔ r ≤ β) := by
  obtain ⟨q, hq⟩ := R.sub_fin _ _ _ _ hs hb hΩ
  obtain ⟨x, y, hx, hy, he⟩ := R.sub _ _ _ hq
  have e1 : x = r := by have := hx.symm.trans hs; simpa using this
  have e2 : y = β := by have := hy.symm.trans hb; simpa using this
  subst e1 e2
  refine ⟨q, hq, ?_⟩
  have hu0 := R.u_nonneg
  have hu1 := R.u_lt_one
  have := abs_le.1 he
  constructor
  · intro h
    by_contra hlt
    push Not at hlt
    rw [abs_of_pos (by linarith)] at this
    nlinarith [this.1]
  · intro h
    rw [abs_of_nonpos (by linarith)] at this
    nlinarith [this.2]

/-- Scanning for the largest entry: a NaN in first position stays. -/
theorem foldl_max_nan (R : Rounding F ext u θ Ω) {a : F} (ha : ext a = none) (l : List F) :
    l.foldl (fun s v => if Scalar.lt s v then v else s) a = a := by
  induction l with
  | nil => rfl
  | cons v l ih =>
    have : Scalar.lt a v = false := by
      rw [Bool.eq_false_iff]
      intro h
      obtain ⟨x, y, hx, _⟩ := (R.lt_iff _ _).1 h
      rw [ha] at hx; cases hx
    rw [List.foldl_cons, this, if_neg (by simp)]
    exact ih

/-- The result of the scan is not NaN if the first entry is not, and bounds every entry that is not NaN. -/
theorem foldl_max_ge (R : Rounding F ext u θ Ω) {a : F} {x : EReal} (ha : ext a = some x) (l : List F) :
    ∃ c, ext (l.foldl (fun s v => if Scalar.lt s v then v else s) a) = some c ∧ x ≤ c ∧ (∀ v ∈ l, ∀ y, ext v = some y → y ≤ c) ∧
      (c = x ∨ ∃ v ∈ l, ext v = some c) := by
  induction l generalizing a x with
  | nil => exact ⟨x, ha, le_rfl, by simp, .inl rfl⟩
  | cons v l ih =>
    rw [List.foldl_cons]
    by_cases h : Scalar.lt a v = true
    · rw [if_pos h]
      obtain ⟨x', y, hx', hy, hlt⟩ := (R.lt_iff _ _).1 h
      obtain rfl : x = x' := by have := ha.symm.trans hx'; simpa using this
      obtain ⟨c, hc, h1, h2, h3⟩ := ih hy
      refine ⟨c, hc, hlt.le.trans h1, fun w hw z hz => ?_, ?_⟩
      · rcases List.mem_cons.1 hw with rfl | hw
        · have := hz.symm.trans hy
          rw [Option.some.injEq] at this
          exact this ▸ h1
        · exact h2 w hw z hz
      · rcases h3 with rfl | ⟨w, hw, hwc⟩
        · exact .inr ⟨v, by simp, hy⟩
        · exact .inr ⟨w, by simp [hw], hwc⟩
    · rw [if_neg h]
      obtain ⟨c, hc, h1, h2, h3⟩ := ih ha
      refine ⟨c, hc, h1, fun w hw z hz => ?_, ?_⟩
      · rcases List.mem_cons.1 hw with rfl | hw
        · refine le_trans (not_lt.1 fun hlt => h ?_) h1
          exact (R.lt_iff _ _).2 ⟨x, z, ha, hz, hlt⟩
        · exact h2 w hw z hz
      · rcases h3 with rfl | ⟨w, hw, hwc⟩
        · exact .inl rfl
        · exact .inr ⟨w, by simp [hw], hwc⟩

/-- Likewise for the smallest entry. -/
theorem foldl_min_nan (R : Rounding F ext u θ Ω) {a : F} (ha : ext a = none) (l : List F) :
    l.foldl (fun s v => if Scalar.lt v s then v else s) a = a := by
  induction l with
  | nil => rfl
  | cons v l ih =>
    have : Scalar.lt v a = false := by
      rw [Bool.eq_false_iff]
      intro h
      obtain ⟨x, y, _, hx, _⟩ := (R.lt_iff _ _).1 h
      rw [ha] at hx; cases hx
    rw [List.foldl_cons, this, if_neg (by simp)]
    exact ih

/-- Likewise for the smallest entry. -/
theorem foldl_min_le (R : Rounding F ext u θ Ω) {a : F} {x : EReal} (ha : ext a = some x) (l : List F) :
    ∃ c, ext (l.foldl (fun s v => if Scalar.lt v s then v else s) a) = some c ∧ c ≤ x ∧ (∀ v ∈ l, ∀ y, ext v = some y → c ≤ y) ∧
      (c = x ∨ ∃ v ∈ l, ext v = some c) := by
  induction l generalizing a x with
  | nil => exact ⟨x, ha, le_rfl, by simp, .inl rfl⟩
  | cons v l ih =>
    rw [List.foldl_cons]
    by_cases h : Scalar.lt v a = true
    · rw [if_pos h]
      obtain ⟨y, x', hy, hx', hlt⟩ := (R.lt_iff _ _).1 h
      obtain rfl : x = x' := by have := ha.symm.trans hx'; simpa using this
      obtain ⟨c, hc, h1, h2, h3⟩ := ih hy
      refine ⟨c, hc, h1.trans hlt.le, fun w hw z hz => ?_, ?_⟩
      · rcases List.mem_cons.1 hw with rfl | hw
        · have := hz.symm.trans hy
          rw [Option.some.injEq] at this
          exact this ▸ h1
        · exact h2 w hw z hz
      · rcases h3 with rfl | ⟨w, hw, hwc⟩
        · exact .inr ⟨v, by simp, hy⟩
        · exact .inr ⟨w, by simp [hw], hwc⟩
    · rw [if_neg h]
      obtain ⟨c, hc, h1, h2, h3⟩ := ih ha
      refine ⟨c, hc, h1, fun w hw z hz => ?_, ?_⟩
      · rcases List.mem_cons.1 hw with rfl | hw
        · refine le_trans h1 (not_lt.1 fun hlt => h ?_)
          exact (R.lt_iff _ _).2 ⟨z, x, hz, ha, hlt⟩
        · exact h2 w hw z hz
      · rcases h3 with rfl | ⟨w, hw, hwc⟩
        · exact .inl rfl
        · exact .inr ⟨w, by simp [hw], hwc⟩

/-- A test `largest <= 0` that passes: the first entry is not NaN, and no entry is positive. -/
theorem largest_le_zero (R : Rounding F ext u θ Ω) {l : List F} {c : F} (h : Spec.largest l = some c) (hc : Scalar.le c 0 = true) :
    (∃ a x, l.head? = some a ∧ ext a = some x) ∧ ∀ v ∈ l, ∀ y, ext v = some y → y ≤ 0 := by
  obtain ⟨z, z0, hz, h0, hle⟩ := (R.le_iff _ _).1 hc
  obtain rfl : z0 = 0 := by have := h0.symm.trans R.zero; simpa using this
  cases l with
  | nil => cases h
  | cons a l =>
    simp only [Spec.largest, Option.some.injEq] at h
    cases ha : ext a with
    | none =>
      rw [foldl_max_nan R ha] at h
      rw [← h, ha] at hz; cases hz
    | some x =>
      obtain ⟨c', hc', h1, h2, _⟩ := foldl_max_ge R ha l
      rw [h, hz, Option.some.injEq] at hc'
      subst hc'
      refine ⟨⟨a, x, rfl, ha⟩, fun v hv y hy => ?_⟩
      rcases List.mem_cons.1 hv with rfl | hv
      · rw [ha, Option.some.injEq] at hy
        exact hy ▸ h1.trans hle
      · exact (h2 v hv y hy).trans hle

/-- If no entry is NaN or positive the test passes. -/
theorem largest_le_zero' (R : Rounding F ext u θ Ω) {l : List F} (hl : l ≠ []) (h : ∀ v ∈ l, ∃ y, ext v = some y ∧ y ≤ 0) :
    ∃ c, Spec.largest l = some c ∧ Scalar.le c 0 = true := by
  cases l with
  | nil => exact absurd rfl hl
  | cons a l =>
    obtain ⟨x, hx, hx0⟩ := h a (by simp)
    obtain ⟨c, hc, _, _, h3⟩ := foldl_max_ge R hx l
    refine ⟨_, rfl, (R.le_iff _ _).2 ⟨c, 0, hc, R.zero, ?_⟩⟩
    rcases h3 with rfl | ⟨v, hv, hvc⟩
    · exact hx0
    · obtain ⟨y, hy, hy0⟩ := h v (by simp [hv])
      rw [hvc, Option.some.injEq] at hy
      exact hy ▸ hy0

/-- A test `smallest >= 0` that passes: the first entry is not NaN, and no entry is negative. -/
theorem smallest_ge_zero (R : Rounding F ext u θ Ω) {l : List F} {c : F} (h : Spec.smallest l = some c) (hc : Scalar.le 0 c = true) :
    (∃ a x, l.head? = some a ∧ ext a = some x) ∧ ∀ v ∈ l, ∀ y, ext v = some y → 0 ≤ y := by
  obtain ⟨z0, z, h0, hz, hle⟩ := (R.le_iff _ _).1 hc
  obtain rfl : z0 = 0 := by have := h0.symm.trans R.zero; simpa using this
  cases l with
  | nil => cases h
  | cons a l =>
    simp only [Spec.smallest, Option.some.injEq] at h
    cases ha : ext a with
    | none =>
      rw [foldl_min_nan R ha] at h
      rw [← h, ha] at hz; cases hz
    | some x =>
      obtain ⟨c', hc', h1, h2, _⟩ := foldl_min_le R ha l
      rw [h, hz, Option.some.injEq] at hc'
      subst hc'
      refine ⟨⟨a, x, rfl, ha⟩, fun v hv y hy => ?_⟩
      rcases List.mem_cons.1 hv with rfl | hv
      · rw [ha, Option.some.injEq] at hy
        exact hy ▸ hle.trans h1
      · exact hle.trans (h2 v hv y hy)

end PW
