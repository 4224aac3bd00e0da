import Verif.Spec.Drift
import Verif.Lemmas.Rounding
import Verif.Lemmas.Ieee
import Verif.Props.Sampling
import Verif.Props.SparseWeights
import Verif.Props.Rounding

/-!
# C82: the equality constraints of sparse walks
-/

open Finset

namespace PW

section
variable {F : Type} [Scalar F] {m n : ℕ}

/-- **C82** (any arithmetic). A sparse walk never looks at `b`: its result is the same for every right-hand side of the right length. -/
theorem C82_rhs_unused (w : Walk F) (hw : w.isSparse = true) (e : Env F) (a : Args F) (b' : DVec F) (hb : b'.n = a.b.n) :
    w.run e { a with b := b' } = w.run e a := by
  have key : ∀ {α : Type} (f : (Fin a.A.c → F) → Out α),
      checkKDims a.k a.init a.A b' (fun x _ => f x) = checkKDims a.k a.init a.A a.b fun x _ => f x := by
    intro α f
    unfold checkKDims checkDims
    by_cases h1 : a.k ≤ 0 ∨ (a.A.c : Int) < a.k
    · rw [if_pos h1, if_pos h1]
    rw [if_neg h1, if_neg h1]
    by_cases h2 : a.init.n = a.A.c ∧ a.A.r = a.b.n
    · rw [dif_pos h2, dif_pos (by rw [hb]; exact h2)]
    · rw [dif_neg h2, dif_neg (by rw [hb]; exact h2)]
  cases w with
  | ball | hitRun | barrier => cases hw
  | sparseBall R E => exact key _
  | sparseHitRun R ERR E => exact key _
  | sparseBarrier cls ERR E o => exact congrArg (Out.map Prod.fst) (key _)

/-- **C82** (any arithmetic). One iteration of a sparse walk leaves the position or adds, with rounding, a multiple of the direction it
computed; nothing corrects the position afterwards. -/
theorem C82_moves (w : Walk F) (hw : w.isSparse = true) (e : Env F) (A : Matrix (Fin m) (Fin n) F) (b : Fin m → F) (k : Int)
    (s s' : w.State e n) (h : w.step e A b k s = .ok s') :
    w.pos e s' = w.pos e s ∨ ∃ c z, w.Displacement e A k s c z ∧ MovesAlong (w.pos e s) (w.pos e s') c z := by
  cases w with
  | ball | hitRun | barrier => cases hw
  | sparseBall R E =>
    obtain ⟨c, hc, h⟩ := Out.bind_eq_ok.1 (show SparseBallWalk.step R E e.r A k.toNat s = .ok s' from h)
    cases c with
    | true => right; cases h; exact ⟨_, _, ⟨rfl, rfl⟩, .inl fun j => rfl⟩
    | false => left; cases h; rfl
  | sparseHitRun R ERR E =>
    obtain ⟨p, hp, h⟩ := Out.bind_eq_ok.1 (show SparseHitRun.step R ERR e.fuel E e.r A k.toNat s = .ok s' from h)
    obtain ⟨q, hq, h⟩ := Out.bind_eq_ok.1 h
    right; cases h
    exact ⟨_, _, ⟨rfl, p, q, hp, hq, rfl⟩, .inl fun j => rfl⟩
  | sparseBarrier cls ERR E o =>
    obtain ⟨zog, hz, h⟩ := Out.bind_eq_ok.1 (show SparseBarrier.step cls ERR E e.r (e.junk n) A k.toNat s = .ok s' from h)
    obtain ⟨c, _, h⟩ := Out.bind_eq_ok.1 h
    have hz' : ∃ Go, generateG cls ERR (e.junk n) s.2.1 s.1 A k.toNat = .ok Go ∧
        zog.1 = SparseBarrier.proposal E (cls.distTerm Go.2) Go.1 A s.1 (e.r.gaussian n s.2.2).1 := by
      unfold SparseBarrier.generateSample at hz
      split at hz
      · cases hz
      · obtain ⟨Go, hGo, hz⟩ := Out.bind_eq_ok.1 hz
        cases hz
        exact ⟨Go, hGo, rfl⟩
    cases c with
    | false => left; cases h; rfl
    | true =>
      obtain ⟨p, _, h⟩ := Out.bind_eq_ok.1 h
      obtain ⟨p', _, h⟩ := Out.bind_eq_ok.1 h
      cases h
      by_cases hm : mhAccept p'.1 p.1 (e.r.uniform zog.2.2).1 = true
      · right
        obtain ⟨Go, hGo, hz'⟩ := hz'
        refine ⟨Scalar.sqrt (cls.distTerm Go.2), _, ⟨Go, hGo, rfl, rfl⟩, .inr fun j => ?_⟩
        show (if mhAccept p'.1 p.1 (e.r.uniform zog.2.2).1 then zog.1 else s.1) j = _
        rw [if_pos hm, hz']
        rfl
      · left
        show (if mhAccept p'.1 p.1 (e.r.uniform zog.2.2).1 then zog.1 else s.1) = s.1
        rw [if_neg hm]

variable {ext : F → Option EReal} {u θ Ω : ℝ}

theorem ext_unique {a : F} {x y : ℝ} (h : ext a = some (x : EReal)) (h' : ext a = some (y : EReal)) : x = y := by
  have := h.symm.trans h'
  simpa using this

/-- One rounded coordinate. -/
theorem coord_error (R : Rounding F ext u θ Ω) {x x' c z : F} {ξ ξ' B : ℝ} (hx : ext x = some (ξ : EReal)) (hx' : ext x' = some (ξ' : EReal))
    (hB : |ξ| ≤ B) (hB' : |ξ'| ≤ B) (h : x' = c * z + x ∨ x' = x + c * z) :
    ∃ γ ζ : ℝ, ext c = some (γ : EReal) ∧ ext z = some (ζ : EReal) ∧
      |ξ' - (ξ + γ * ζ)| ≤ (3 - 2 * u) * u * B / (1 - u) ^ 2 + θ / (1 - u) := by
  have hu := R.u_nonneg
  have hu1 : 0 < 1 - u := sub_pos.2 R.u_lt_one
  have hθ := R.θ_nonneg
  have hv : ∃ v : ℝ, ext (c * z) = some (v : EReal) ∧ |ξ' - (ξ + v)| ≤ u * |ξ + v| := by
    rcases h with rfl | rfl
    · obtain ⟨v, y, h1, h2, h3⟩ := R.add _ _ _ hx'
      cases ext_unique hx h2
      exact ⟨v, h1, by rwa [add_comm ξ v]⟩
    · obtain ⟨y, v, h1, h2, h3⟩ := R.add _ _ _ hx'
      cases ext_unique hx h1
      exact ⟨v, h2, h3⟩
  obtain ⟨v, hv, h1⟩ := hv
  obtain ⟨γ, ζ, hγ, hζ, h2⟩ := R.mul _ _ _ hv
  refine ⟨γ, ζ, hγ, hζ, ?_⟩
  -- `|ξ + v| ≤ B / (1 - u)`
  have h3 : |ξ + v| ≤ B / (1 - u) := by
    rw [le_div_iff₀ hu1]
    have := abs_sub_abs_le_abs_sub (ξ + v) ξ'
    rw [abs_sub_comm] at this
    linarith
  have h4 : |v| ≤ B / (1 - u) + B := by
    have := abs_sub_abs_le_abs_sub v (-ξ)
    rw [sub_neg_eq_add, add_comm v ξ, abs_neg] at this
    linarith
  have h5 : |γ * ζ| ≤ (|v| + θ) / (1 - u) := by
    rw [le_div_iff₀ hu1]
    have := abs_sub_abs_le_abs_sub (γ * ζ) v
    rw [abs_sub_comm] at this
    linarith
  have h6 : |ξ' - (ξ + γ * ζ)| ≤ u * |ξ + v| + (u * |γ * ζ| + θ) := by
    have : ξ' - (ξ + γ * ζ) = (ξ' - (ξ + v)) + (v - γ * ζ) := by ring
    rw [this]
    exact (abs_add_le _ _).trans (add_le_add h1 h2)
  have h7 : u * |ξ + v| ≤ u * (B / (1 - u)) := mul_le_mul_of_nonneg_left h3 hu
  have h8 : u * |γ * ζ| ≤ u * ((B / (1 - u) + B + θ) / (1 - u)) :=
    mul_le_mul_of_nonneg_left (h5.trans (div_le_div_of_nonneg_right (by linarith) hu1.le)) hu
  have h9 : u * (B / (1 - u)) + (u * ((B / (1 - u) + B + θ) / (1 - u)) + θ) = (3 - 2 * u) * u * B / (1 - u) ^ 2 + θ / (1 - u) := by
    field_simp
    ring
  linarith

/-- **C82** (floating point). After `t` iterations of a sparse walk each equality constraint has changed by at most `t` times the largest
residual `ρ` of a computed displacement plus the rounding of one coordinate update, as long as the positions stay finite and bounded
by `B`. (`α` is the row of `A`; the bound holds for every linear function.) -/
theorem C82_drift (R : Rounding F ext u θ Ω) (w : Walk F) (hw : w.isSparse = true) (e : Env F) (a : Args F) (hd : a.DimsOk)
    (α ξ₀ : Fin a.A.c → ℝ) (hξ₀ : HasValues ext (a.x0 hd) ξ₀) (B ρ : ℝ) (T : ℕ)
    (hB : ∀ t ≤ T, ∀ x, w.PosAt e a hd t x → ∃ ξ, HasValues ext x ξ ∧ ∀ j, |ξ j| ≤ B)
    (hρ : ∀ t < T, ∀ s, w.chain e a hd t = .ok s → ∀ x' c z γ ζ, w.PosAt e a hd (t + 1) x' → w.Displacement e a.A.val a.k s c z →
      MovesAlong (w.pos e s) x' c z → ext c = some ((γ : ℝ) : EReal) → HasValues ext z ζ → |γ * ∑ j, α j * ζ j| ≤ ρ)
    (hρ0 : 0 ≤ ρ) (x : Fin a.A.c → F) (ξ : Fin a.A.c → ℝ) (hx : w.PosAt e a hd T x) (hξ : HasValues ext x ξ) :
    |∑ j, α j * ξ j - ∑ j, α j * ξ₀ j| ≤ T * (ρ + (∑ j, |α j|) * ((3 - 2 * u) * u * B / (1 - u) ^ 2 + θ / (1 - u))) := by
  have hu := R.u_nonneg
  have hu1 : 0 < 1 - u := sub_pos.2 R.u_lt_one
  induction T generalizing x ξ with
  | zero =>
    obtain ⟨s, hs, hsx⟩ := hx
    have h0 : x = a.x0 hd := by
      rw [← hsx]
      obtain ⟨s0, h0, h1⟩ := Out.bind_eq_ok.1 hs
      cases h1
      cases w with
      | ball | hitRun | barrier => cases hw
      | sparseBall | sparseHitRun => cases h0; rfl
      | sparseBarrier =>
        obtain ⟨o, _, h0⟩ := Out.bind_eq_ok.1 h0
        cases h0; rfl
    subst h0
    have hval : ξ = ξ₀ := funext fun j => ext_unique (hξ j) (hξ₀ j)
    subst hval
    simp
  | succ T ih =>
    obtain ⟨s', hs', rfl⟩ := hx
    obtain ⟨s0, h0, h1⟩ := Out.bind_eq_ok.1 hs'
    obtain ⟨s, h1, h2⟩ := Out.bind_eq_ok.1 h1
    have hs : w.chain e a hd T = .ok s := Out.bind_eq_ok.2 ⟨s0, h0, h1⟩
    obtain ⟨ξ₁, hξ₁, hB₁⟩ := hB T (Nat.le_succ _) _ ⟨s, hs, rfl⟩
    obtain ⟨ξ', hξ', hB'⟩ := hB (T + 1) le_rfl _ ⟨s', hs', rfl⟩
    have : ξ = ξ' := funext fun j => ext_unique (hξ j) (hξ' j)
    subst this
    have ih := ih (fun t ht => hB t (by omega)) (fun t ht => hρ t (by omega)) _ ξ₁ ⟨s, hs, rfl⟩ hξ₁
    set κ := (3 - 2 * u) * u * B / (1 - u) ^ 2 + θ / (1 - u)
    have hS : 0 ≤ ∑ j, |α j| := sum_nonneg fun _ _ => abs_nonneg _
    have hstep : |∑ j, α j * ξ j - ∑ j, α j * ξ₁ j| ≤ ρ + (∑ j, |α j|) * κ := by
      rcases C82_moves w hw e a.A.val (a.rhs hd) a.k s s' h2 with heq | ⟨c, z, hz, hmv⟩
      · have : ξ = ξ₁ := funext fun j => ext_unique (hξ j) (by rw [heq]; exact hξ₁ j)
        subst this
        rw [sub_self, abs_zero]
        rcases isEmpty_or_nonempty (Fin a.A.c) with hn | ⟨⟨j⟩⟩
        · simp [hρ0]
        have hBn : 0 ≤ B := (abs_nonneg _).trans (hB₁ j)
        have : 0 ≤ κ := add_nonneg (div_nonneg (mul_nonneg (mul_nonneg (by linarith) hu) hBn) (by positivity)) (div_nonneg R.θ_nonneg hu1.le)
        positivity
      · rcases isEmpty_or_nonempty (Fin a.A.c) with hn | ⟨⟨j0⟩⟩
        · simp [hρ0]
        have hc := fun j => coord_error R (c := c) (z := z j) (hξ₁ j) (hξ j) (hB₁ j) (hB' j) (hmv.imp (fun h => h j) fun h => h j)
        choose γ ζ h3 h4 h5 using hc
        have hγ : ∀ j, γ j = γ j0 := fun j => ext_unique (h3 j) (h3 j0)
        have hres := hρ T (Nat.lt_succ_self _) s hs _ c z (γ j0) ζ ⟨s', hs', rfl⟩ hz hmv (h3 j0) h4
        have hsplit : ∑ j, α j * ξ j - ∑ j, α j * ξ₁ j = γ j0 * ∑ j, α j * ζ j + ∑ j, α j * (ξ j - (ξ₁ j + γ j * ζ j)) := by
          rw [mul_sum, ← sum_sub_distrib, ← sum_add_distrib]
          refine sum_congr rfl fun j _ => ?_
          rw [hγ j]; ring
        rw [hsplit]
        refine (abs_add_le _ _).trans (add_le_add hres ?_)
        refine (abs_sum_le_sum_abs _ _).trans ?_
        rw [sum_mul]
        refine sum_le_sum fun j _ => ?_
        rw [abs_mul]
        exact mul_le_mul_of_nonneg_left (h5 j) (abs_nonneg _)
    have := abs_sub_le (∑ j, α j * ξ j) (∑ j, α j * ξ₁ j) (∑ j, α j * ξ₀ j)
    push_cast
    linarith

/-- **C82** (floating point). Every row returned satisfies the equality constraints up to their violation by the initial point and the
accumulated error. -/
theorem C82_rows (R : Rounding F ext u θ Ω) (w : Walk F) (hw : w.isSparse = true) (e : Env F) (a : Args F) (hd : a.DimsOk)
    (hi : SaneInts a.niter a.burnin a.thin)
    (α ξ₀ : Fin a.A.c → ℝ) (β : ℝ) (hξ₀ : HasValues ext (a.x0 hd) ξ₀) (B ρ : ℝ)
    (hB : ∀ t ≤ a.niter.toNat, ∀ x, w.PosAt e a hd t x → ∃ ξ, HasValues ext x ξ ∧ ∀ j, |ξ j| ≤ B)
    (hρ : ∀ t < a.niter.toNat, ∀ s, w.chain e a hd t = .ok s → ∀ x' c z γ ζ, w.PosAt e a hd (t + 1) x' → w.Displacement e a.A.val a.k s c z →
      MovesAlong (w.pos e s) x' c z → ext c = some ((γ : ℝ) : EReal) → HasValues ext z ζ → |γ * ∑ j, α j * ζ j| ≤ ρ)
    (hρ0 : 0 ≤ ρ) (rows : List (Fin a.A.c → F)) (h : w.run e a = .ok rows) :
    ∀ x ∈ rows, ∃ ξ, HasValues ext x ξ ∧ |∑ j, α j * ξ j - β| ≤ |∑ j, α j * ξ₀ j - β| +
      a.niter * (ρ + (∑ j, |α j|) * ((3 - 2 * u) * u * B / (1 - u) ^ 2 + θ / (1 - u))) := by
  intro x hx
  obtain ⟨_, hr⟩ := C03_visited_partial w e a hi rows h
  obtain ⟨t, ht1, ht2, hp⟩ := hr x hx
  obtain ⟨ξ, hξ, hξB⟩ := hB t (by omega) x hp
  refine ⟨ξ, hξ, ?_⟩
  have hn : (t : ℝ) ≤ (a.niter : ℝ) := by exact_mod_cast ht2
  have h1 := C82_drift R w hw e a hd α ξ₀ hξ₀ B ρ t (fun s hs => hB s (by omega)) (fun s hs => hρ s (by omega)) hρ0 x ξ hp hξ
  have h2 : (t : ℝ) * (ρ + (∑ j, |α j|) * ((3 - 2 * u) * u * B / (1 - u) ^ 2 + θ / (1 - u))) ≤
      a.niter * (ρ + (∑ j, |α j|) * ((3 - 2 * u) * u * B / (1 - u) ^ 2 + θ / (1 - u))) := by
    refine mul_le_mul_of_nonneg_right hn (add_nonneg hρ0 ?_)
    have hu := R.u_nonneg
    have hu1 : 0 < 1 - u := sub_pos.2 R.u_lt_one
    rcases isEmpty_or_nonempty (Fin a.A.c) with hn | ⟨⟨j⟩⟩
    · simp
    have hBn : 0 ≤ B := (abs_nonneg _).trans (hξB j)
    exact mul_nonneg (sum_nonneg fun _ _ => abs_nonneg _) (add_nonneg
      (div_nonneg (mul_nonneg (mul_nonneg (by linarith) hu) hBn) (by positivity)) (div_nonneg R.θ_nonneg hu1.le))
  have h3 : |∑ j, α j * ξ j - β| ≤ |∑ j, α j * ξ j - ∑ j, α j * ξ₀ j| + |∑ j, α j * ξ₀ j - β| := abs_sub_le _ _ _
  linarith

theorem Walk.Displacement.unique {w : Walk F} {e : Env F} {A : Matrix (Fin m) (Fin n) F} {k : Int} {s : w.State e n} {c c' : F}
    {z z' : Fin n → F} (h : w.Displacement e A k s c z) (h' : w.Displacement e A k s c' z') : c = c' ∧ z = z' := by
  cases w with
  | ball | hitRun | barrier => cases h
  | sparseBall R E =>
    obtain ⟨rfl, rfl⟩ := h
    obtain ⟨rfl, rfl⟩ := h'
    exact ⟨rfl, rfl⟩
  | sparseHitRun R ERR E =>
    obtain ⟨rfl, p, q, hp, hq, rfl⟩ := h
    obtain ⟨rfl, p', q', hp', hq', rfl⟩ := h'
    cases hp.symm.trans hp'
    cases hq.symm.trans hq'
    exact ⟨rfl, rfl⟩
  | sparseBarrier cls ERR E o =>
    obtain ⟨G, hG, rfl, rfl⟩ := h
    obtain ⟨G', hG', rfl, rfl⟩ := h'
    cases hG.symm.trans hG'
    exact ⟨rfl, rfl⟩

/-- The bounds that `C82_drift` asks for exist whenever the positions are finite. -/
theorem C82_bounds_exist (w : Walk F) (e : Env F) (a : Args F) (hd : a.DimsOk) (α : Fin a.A.c → ℝ) (T : ℕ)
    (hfin : ∀ t ≤ T, ∀ x, w.PosAt e a hd t x → ∃ ξ, HasValues ext x ξ) :
    ∃ B ρ : ℝ, 0 ≤ ρ ∧ (∀ t ≤ T, ∀ x, w.PosAt e a hd t x → ∃ ξ, HasValues ext x ξ ∧ ∀ j, |ξ j| ≤ B) ∧
      ∀ t < T, ∀ s, w.chain e a hd t = .ok s → ∀ x' c z γ ζ, w.PosAt e a hd (t + 1) x' → w.Displacement e a.A.val a.k s c z →
        MovesAlong (w.pos e s) x' c z → ext c = some ((γ : ℝ) : EReal) → HasValues ext z ζ → |γ * ∑ j, α j * ζ j| ≤ ρ := by
  have h1 : ∀ t, ∃ B : ℝ, 0 ≤ B ∧ (t ≤ T → ∀ x, w.PosAt e a hd t x → ∃ ξ, HasValues ext x ξ ∧ ∀ j, |ξ j| ≤ B) := by
    intro t
    by_cases h : ∃ x ξ, w.PosAt e a hd t x ∧ HasValues ext x ξ
    · obtain ⟨x, ξ, ⟨s, hs, rfl⟩, hξ⟩ := h
      refine ⟨∑ j, |ξ j|, sum_nonneg fun _ _ => abs_nonneg _, fun _ y ⟨s', hs', hy⟩ => ⟨ξ, ?_, fun j => ?_⟩⟩
      · cases hs.symm.trans hs'
        rwa [← hy]
      · exact single_le_sum (f := fun j => |ξ j|) (fun _ _ => abs_nonneg _) (mem_univ j)
    · refine ⟨0, le_rfl, fun ht x hx => absurd ?_ h⟩
      obtain ⟨ξ, hξ⟩ := hfin t ht x hx
      exact ⟨x, ξ, hx, hξ⟩
  have h2 : ∀ t, ∃ ρ : ℝ, 0 ≤ ρ ∧ ∀ s, w.chain e a hd t = .ok s → ∀ x' c z γ ζ, w.PosAt e a hd (t + 1) x' →
      w.Displacement e a.A.val a.k s c z → MovesAlong (w.pos e s) x' c z → ext c = some ((γ : ℝ) : EReal) → HasValues ext z ζ →
        |γ * ∑ j, α j * ζ j| ≤ ρ := by
    intro t
    by_cases h : ∃ s c z, ∃ (γ : ℝ) (ζ : Fin a.A.c → ℝ), w.chain e a hd t = .ok s ∧ w.Displacement e a.A.val a.k s c z ∧
        ext c = some (γ : EReal) ∧ HasValues ext z ζ
    · obtain ⟨s, c, z, γ, ζ, hs, hD, hc, hz⟩ := h
      refine ⟨|γ * ∑ j, α j * ζ j|, abs_nonneg _, fun s' hs' x' c' z' γ' ζ' _ hD' _ hc' hz' => le_of_eq ?_⟩
      cases hs.symm.trans hs'
      obtain ⟨rfl, rfl⟩ := hD.unique hD'
      rw [ext_unique hc' hc, show ζ' = ζ from funext fun j => ext_unique (hz' j) (hz j)]
    · exact ⟨0, le_rfl, fun s hs x' c z γ ζ _ hD _ hc hz => absurd ⟨s, c, z, γ, ζ, hs, hD, hc, hz⟩ h⟩
  choose Bf hB0 hBf using h1
  choose ρf hρ0 hρf using h2
  refine ⟨∑ t ∈ range (T + 1), Bf t, ∑ t ∈ range T, ρf t, sum_nonneg fun t _ => hρ0 t, fun t ht x hx => ?_,
    fun t ht s hs x' c z γ ζ h1 h2 h3 h4 h5 => ?_⟩
  · obtain ⟨ξ, hξ, hj⟩ := hBf t ht x hx
    exact ⟨ξ, hξ, fun j => (hj j).trans (single_le_sum (f := Bf) (fun t _ => hB0 t) (mem_range.2 (by omega)))⟩
  · exact (hρf t s hs x' c z γ ζ h1 h2 h3 h4 h5).trans (single_le_sum (f := ρf) (fun t _ => hρ0 t) (mem_range.2 ht))

end

/-- **C82** (`double`). -/
theorem C82_binary64 (w : Walk Binary64) (hw : w.isSparse = true) (e : Env Binary64) (a : Args Binary64) (hd : a.DimsOk)
    (hi : SaneInts a.niter a.burnin a.thin)
    (α ξ₀ : Fin a.A.c → ℝ) (β : ℝ) (hξ₀ : HasValues Ieee.ext (a.x0 hd) ξ₀) (B ρ : ℝ)
    (hB : ∀ t ≤ a.niter.toNat, ∀ x, w.PosAt e a hd t x → ∃ ξ, HasValues Ieee.ext x ξ ∧ ∀ j, |ξ j| ≤ B)
    (hρ : ∀ t < a.niter.toNat, ∀ s, w.chain e a hd t = .ok s → ∀ x' c z γ ζ, w.PosAt e a hd (t + 1) x' → w.Displacement e a.A.val a.k s c z →
      MovesAlong (w.pos e s) x' c z → Ieee.ext c = some ((γ : ℝ) : EReal) → HasValues Ieee.ext z ζ → |γ * ∑ j, α j * ζ j| ≤ ρ)
    (hρ0 : 0 ≤ ρ) (rows : List (Fin a.A.c → Binary64)) (h : w.run e a = .ok rows) :
    ∀ x ∈ rows, ∃ ξ, HasValues Ieee.ext x ξ ∧ |∑ j, α j * ξ j - β| ≤ |∑ j, α j * ξ₀ j - β| +
      a.niter * (ρ + (∑ j, |α j|) * (2 ^ (-51 : ℤ) * B + 2 ^ (-1074 : ℤ))) := by
  intro x hx
  obtain ⟨ξ, hξ, h1⟩ := C82_rows Ieee.binary64 w hw e a hd hi α ξ₀ β hξ₀ B ρ hB hρ hρ0 rows h x hx
  refine ⟨ξ, hξ, h1.trans ?_⟩
  obtain ⟨_, hr⟩ := C03_visited_partial w e a hi rows h
  obtain ⟨t, ht1, ht2, hp⟩ := hr x hx
  obtain ⟨ξ', -, hξB⟩ := hB t (by omega) x hp
  have hn : (0 : ℝ) ≤ (a.niter : ℝ) := by exact_mod_cast (by omega : (0 : ℤ) ≤ a.niter)
  have key : (∑ j, |α j|) * ((3 - 2 * 2 ^ (-53 : ℤ)) * 2 ^ (-53 : ℤ) * B / (1 - 2 ^ (-53 : ℤ)) ^ 2 + 2 ^ (-1075 : ℤ) / (1 - 2 ^ (-53 : ℤ))) ≤
      (∑ j, |α j|) * (2 ^ (-51 : ℤ) * B + 2 ^ (-1074 : ℤ)) := by
    rcases isEmpty_or_nonempty (Fin a.A.c) with hn | ⟨⟨j⟩⟩
    · simp
    have hBn : 0 ≤ B := (abs_nonneg _).trans (hξB j)
    refine mul_le_mul_of_nonneg_left (add_le_add ?_ ?_) (sum_nonneg fun _ _ => abs_nonneg _)
    · have : ((3 : ℝ) - 2 * 2 ^ (-53 : ℤ)) * 2 ^ (-53 : ℤ) * B / (1 - 2 ^ (-53 : ℤ)) ^ 2 =
          ((3 - 2 * 2 ^ (-53 : ℤ)) * 2 ^ (-53 : ℤ) / (1 - 2 ^ (-53 : ℤ)) ^ 2) * B := by ring
      rw [this]
      refine mul_le_mul_of_nonneg_right ?_ hBn
      norm_num
    · have h2 : (2 : ℝ) ^ (-1074 : ℤ) = 2 * 2 ^ (-1075 : ℤ) := by
        rw [← zpow_one_add₀ (by norm_num)]; norm_num
      rw [h2, div_le_iff₀ (by norm_num)]
      have h3 : (0 : ℝ) < 2 ^ (-1075 : ℤ) := by positivity
      generalize (2 : ℝ) ^ (-1075 : ℤ) = q at h3 ⊢
      have : (1 : ℝ) ≤ 2 * (1 - 2 ^ (-53 : ℤ)) := by norm_num
      calc q = 1 * q := (one_mul q).symm
        _ ≤ 2 * (1 - 2 ^ (-53 : ℤ)) * q := mul_le_mul_of_nonneg_right this h3.le
        _ = _ := by ring
  have := mul_le_mul_of_nonneg_left (add_le_add (le_refl ρ) key) hn
  linarith

/-! ## Exact arithmetic -/

/-- The sparse walk classes of the library that move (with the provisos of C16 on the solver). -/
inductive Walk.KeepsEqualities (e : Env ℝ) (a : Args ℝ) (hd : a.DimsOk) : Walk ℝ → Prop
  | ball (R : ℝ) (E : Eigen ℝ) (hE : E.SparseLUExact) : KeepsEqualities e a hd (.sparseBall R E)
  | hitRun (R ERR : ℝ) (E : Eigen ℝ) (hE : E.SparseLUExact) : KeepsEqualities e a hd (.sparseHitRun R ERR E)
  | barrier (cls : SparseBarrierClass ℝ (BState ℝ)) (ERR : ℝ) (E : Eigen ℝ) (o : BState ℝ) (hE : E.LdltExact) (hS : E.SparseLLTSolveExact)
      (hR : 0 < ERR) (hc : IsSparseWeighted E ERR cls) (hmn : a.A.r < a.A.c)
      (hpos : ∀ t x, (Walk.sparseBarrier cls ERR E o).PosAt e a hd t x → x ∈ TailPos _ a.k.toNat) :
      KeepsEqualities e a hd (.sparseBarrier cls ERR E o)

open Matrix in
/-- **C82** (exact arithmetic). Whether or not the initial point is feasible, every returned row has exactly its residual: `A x - b` never
changes, so an infeasible start is neither detected nor corrected. -/
theorem C82_residual_kept (e : Env ℝ) (a : Args ℝ) (hd : a.DimsOk) (w : Walk ℝ) (hw : w.KeepsEqualities e a hd) (hA : IndepRows a.A.val)
    (hi : SaneInts a.niter a.burnin a.thin) (rows : List (Fin a.A.c → ℝ)) (h : w.run e a = .ok rows) :
    ∀ x ∈ rows, a.A.val *ᵥ x - a.rhs hd = a.A.val *ᵥ a.x0 hd - a.rhs hd := by
  have hb : (⟨a.A.r, a.A.val *ᵥ a.x0 hd⟩ : DVec ℝ).n = a.b.n := hd.2
  have hs : w.isSparse = true := by cases hw <;> rfl
  have h' := C82_rhs_unused w hs e a ⟨a.A.r, a.A.val *ᵥ a.x0 hd⟩ hb
  rw [h] at h'
  intro x hx
  congr 1
  have hdet : IsUnit (a.A.val * a.A.valᵀ).det := hA.posDef.det_pos.ne'.isUnit
  cases hw with
  | ball R E hE => exact C16_ball R E hE e { a with b := ⟨a.A.r, a.A.val *ᵥ a.x0 hd⟩ } hdet hi ⟨hd.1, rfl⟩ rfl rows h' x hx
  | hitRun R ERR E hE => exact C16_hitRun R ERR E hE e { a with b := ⟨a.A.r, a.A.val *ᵥ a.x0 hd⟩ } hdet hi ⟨hd.1, rfl⟩ rfl rows h' x hx
  | barrier cls ERR E o hE hS hR hc hmn hpos =>
    exact C16_library E hE hS ERR hR cls hc o e { a with b := ⟨a.A.r, a.A.val *ᵥ a.x0 hd⟩ } hA hmn hi ⟨hd.1, rfl⟩ rfl
      (fun t x hx => hpos t x hx) rows h' x hx

/-! ### Concrete cases -/

/-- Exact arithmetic is a case of `Rounding`, with no error. -/
theorem rounding_real (Ω : ℝ) : Rounding ℝ (fun x => some (x : EReal)) 0 0 Ω where
  u_nonneg := le_rfl
  u_lt_one := one_pos
  θ_nonneg := le_rfl
  zero := rfl
  le_iff a b := by simp [Scalar.le]
  lt_iff a b := by simp [Scalar.lt]
  add a b r h := ⟨a, b, rfl, rfl, by
    have : a + b = r := EReal.coe_injective (Option.some.inj h)
    simp [this]⟩
  sub a b r h := ⟨a, b, rfl, rfl, by
    have : a - b = r := EReal.coe_injective (Option.some.inj h)
    simp [this]⟩
  mul a b r h := ⟨a, b, rfl, rfl, by
    have : a * b = r := EReal.coe_injective (Option.some.inj h)
    simp [this]⟩
  add_fin a b _ _ _ _ _ := ⟨a + b, rfl⟩
  sub_fin a b _ _ _ _ _ := ⟨a - b, rfl⟩
  mul_fin a b _ _ _ _ _ := ⟨a * b, rfl⟩
  add_nan _ _ h := by simp at h
  sub_nan _ _ h := by simp at h
  mul_nan _ _ h := by simp at h

end PW
