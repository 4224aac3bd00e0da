import Verif.Lemmas.IeeeOrder
import Verif.Lemmas.IeeeOps
import Verif.Lemmas.NoThrow
import Verif.Lemmas.Membership
import Verif.Lemmas.Api
import Verif.Props.Rounding

/-!
# C86: chord searches of Hit-and-Run that never end in double precision
-/

namespace PW
open Classical

/-- The outcome is a value or an endless loop: no exception, no undefined behaviour. -/
def Out.Plain {α : Type} (o : Out α) : Prop := o = .timeout ∨ ∃ a, o = .ok a

theorem Out.Plain.ok {α : Type} (a : α) : (Out.ok a).Plain := .inr ⟨a, rfl⟩

theorem Out.Plain.timeout {α : Type} : (Out.timeout : Out α).Plain := .inl rfl

theorem Out.Plain.bind {α β : Type} {o : Out α} {f : α → Out β} (h : o.Plain) (hf : ∀ a, (f a).Plain) : (o.bind f).Plain := by
  rcases h with rfl | ⟨a, rfl⟩
  · exact .inl rfl
  · exact hf a

section
variable {F : Type} [Scalar F] {m n : ℕ}

theorem inPolytope_plain (i : Fin m) (x : Fin n → F) (A : Matrix (Fin m) (Fin n) F) (b : Fin m → F) : ∃ c, inPolytope x A b = .ok c := by
  cases m with
  | zero => exact i.elim0
  | succ m => exact ⟨_, rfl⟩

theorem expand_plain {inside : (Fin n → F) → Out Bool} (hi : ∀ x, (inside x).Plain) (dir x : Fin n → F) (fuel : ℕ) (farth) :
    (HitRun.expand inside dir x fuel farth).Plain := by
  induction fuel generalizing farth with
  | zero => exact .timeout
  | succ fuel ih =>
    refine (hi _).bind fun c => ?_
    split
    · exact .ok _
    · exact ih _

theorem bisect_plain {inside : (Fin n → F) → Out Bool} (hi : ∀ x, (inside x).Plain) (ERR : F) (fuel : ℕ) (l r m) :
    (HitRun.bisect inside ERR fuel l r m).Plain := by
  induction fuel generalizing l r m with
  | zero =>
    unfold HitRun.bisect
    refine Out.Plain.bind ?_ fun c => ?_
    · split
      · exact .ok _
      · exact (hi _).bind fun _ => .ok _
    · cases c
      · exact .ok _
      · exact .timeout
  | succ fuel ih =>
    unfold HitRun.bisect
    refine Out.Plain.bind ?_ fun c => ?_
    · split
      · exact .ok _
      · exact (hi _).bind fun _ => .ok _
    · cases c
      · exact .ok _
      · refine (hi _).bind fun c => ?_
        cases c
        · exact ih ..
        · exact ih ..

theorem binarySearch_plain (i : Fin m) (R ERR : F) (fuel : ℕ) (A : Matrix (Fin m) (Fin n) F) (b : Fin m → F) (dir x : Fin n → F) :
    (HitRun.binarySearch R ERR fuel A b dir x).Plain := by
  have hi : ∀ x : Fin n → F, (inPolytope x A b).Plain := fun x => .inr (inPolytope_plain i x A b)
  exact (expand_plain hi ..).bind fun _ => (bisect_plain hi ..).bind fun _ => .ok _

/-- If the first iteration of Hit-and-Run hangs, so does the run. -/
theorem hitRun_hangs (R ERR : F) (e : Env F) (a : Args F) (hd : a.DimsOk) (hi : SaneInts a.niter a.burnin a.thin) (hb : a.burnin ≤ a.niter)
    (h1 : 1 ≤ a.niter) (h : HitRun.step R ERR e.fuel e.r a.A.val (a.rhs hd) (a.x0 hd, e.r.initRng a.seed e.rd) = .timeout) :
    (Walk.hitRun R ERR).run e a = .timeout := by
  rw [Walk.run_eq, if_neg (by rintro ⟨h, _⟩; cases h), dif_pos hd]
  show ((runLoop (HitRun.step R ERR e.fuel e.r a.A.val (a.rhs hd)) Prod.fst a.niter a.burnin a.thin (a.x0 hd, e.r.initRng a.seed e.rd)).map
    Prod.fst) = .timeout
  have ht : toInt (a.niter - a.burnin) = .ok (a.niter - a.burnin) := by
    have := hi.burnin_nonneg
    have := hi.niter_lt
    unfold toInt
    rw [if_pos]
    constructor <;> unfold intMin intMax at * <;> omega
  have hq : ∃ q, intDiv (a.niter - a.burnin) a.thin = .ok q ∧ ¬ q < 0 := by
    have h0 := hi.thin_pos
    have h1 := hi.burnin_nonneg
    have h2 := hi.niter_lt
    have h3 : Int.tdiv (a.niter - a.burnin) a.thin = (a.niter - a.burnin) / a.thin := Int.tdiv_eq_ediv_of_nonneg (by omega)
    have h4 : (a.niter - a.burnin) / a.thin ≤ a.niter - a.burnin := Int.ediv_le_self _ (by omega)
    have h5 : 0 ≤ (a.niter - a.burnin) / a.thin := Int.ediv_nonneg (by omega) (by omega)
    refine ⟨_, ?_, not_lt.2 h5⟩
    unfold intDiv toInt
    rw [if_neg (by omega), h3, if_pos]
    constructor <;> unfold intMin intMax at * <;> omega
  obtain ⟨q, hq, hq0⟩ := hq
  obtain ⟨N, hN⟩ : ∃ N, a.niter.toNat = N + 1 := ⟨a.niter.toNat - 1, by omega⟩
  unfold runLoop
  rw [ht]
  show (((intDiv (a.niter - a.burnin) a.thin).bind fun total => _).map Prod.fst) = _
  rw [hq]
  show Out.map Prod.fst (if q < 0 then _ else _) = _
  rw [if_neg hq0, hN, loopFrom, h]
  rfl
end

namespace Ieee
variable {p : ℕ} {emin emax : ℤ}

theorem AtLeast.sqrt_zero (a : Ieee p emin emax) : AtLeast (Scalar.sqrt a) 0 := by
  cases a with
  | nan => exact .nan
  | inf s =>
    show AtLeast (if s then Ieee.nan else Ieee.inf False) _
    split_ifs
    · exact .nan
    · exact .inf id
  | num x hx =>
    show AtLeast (if 0 ≤ x then Ieee.round (Real.sqrt x) else Ieee.nan) _
    split_ifs
    · unfold Ieee.round
      split_ifs
      · exact .num (rnd_nonneg p emin (Real.sqrt_nonneg x))
      · exact .inf (not_lt.2 (Real.sqrt_nonneg x))
    · exact .nan

/-- A number is at least 0 (or NaN), or its opposite is. -/
theorem atLeast_or (hp : 1 ≤ p) (a : Ieee p emin emax) (m : Ieee p emin emax) (hm : ext m = some ((-1 : ℝ) : EReal)) :
    AtLeast a 0 ∨ AtLeast (a * m) 0 := by
  obtain ⟨hx, rfl⟩ := ext_eq hm
  cases a with
  | nan => exact .inl .nan
  | inf s =>
    by_cases hs : s
    · right
      show AtLeast (if (-1 : ℝ) = 0 then Ieee.nan else Ieee.inf (¬ (s ↔ (-1 : ℝ) < 0))) _
      rw [if_neg (by norm_num)]
      exact .inf fun h => h ⟨fun _ => by norm_num, fun _ => hs⟩
    · exact .inl (.inf hs)
  | num x h =>
    rcases le_or_gt 0 x with h0 | h0
    · exact .inl (.num h0)
    · right
      have := AtLeast.round (p := p) (emin := emin) (emax := emax) hp le_rfl (x := x * -1) (by linarith)
      rw [rnd_zero] at this
      exact this

theorem notNan_round (x : ℝ) : ext (round x : Ieee p emin emax) ≠ none := by
  unfold Ieee.round
  split_ifs <;> exact Option.some_ne_none _

theorem notNan_mul {a b : Ieee p emin emax} {x : ℝ} (ha : ext a = some (x : EReal)) (hx : x ≠ 0) (hb : ext b ≠ none) : ext (a * b) ≠ none := by
  obtain ⟨h, rfl⟩ := ext_eq ha
  cases b with
  | nan => exact absurd rfl hb
  | inf t =>
    show ext (if x = 0 then Ieee.nan else Ieee.inf (¬ (x < 0 ↔ t)) : Ieee p emin emax) ≠ none
    rw [if_neg hx]
    exact Option.some_ne_none _
  | num y hy => exact notNan_round _

theorem notNan_add {a b : Ieee p emin emax} {x : ℝ} (ha : ext a = some (x : EReal)) (hb : ext b ≠ none) : ext (a + b) ≠ none := by
  obtain ⟨h, rfl⟩ := ext_eq ha
  cases b with
  | nan => exact absurd rfl hb
  | inf t => exact Option.some_ne_none _
  | num y hy => exact notNan_round _

theorem notNan_sub {a b : Ieee p emin emax} {x : ℝ} (hb : ext b = some (x : EReal)) (ha : ext a ≠ none) : ext (a - b) ≠ none := by
  obtain ⟨h, rfl⟩ := ext_eq hb
  cases a with
  | nan => exact absurd rfl ha
  | inf t => exact Option.some_ne_none _
  | num y hy => exact notNan_round _

/-- Ties go to even. -/
theorem rnd_tie (hp : 2 ≤ p) {z k : ℤ} (hz : 2 ^ (p - 1) ≤ z) (hz' : z < 2 ^ p) (hk : emin ≤ k) (hodd : Odd z) :
    rnd p emin ((z : ℝ) * 2 ^ k + ((z + 1 : ℤ) : ℝ) * 2 ^ k) = ((z + 1 : ℤ) : ℝ) * 2 ^ (k + 1) := by
  have hz0 : (0 : ℝ) < ((2 * z + 1 : ℤ) : ℝ) := by
    have h1 : (0 : ℤ) < 2 ^ (p - 1) := by positivity
    have : (0 : ℤ) < 2 * z + 1 := by omega
    exact_mod_cast this
  have e : (z : ℝ) * 2 ^ k + ((z + 1 : ℤ) : ℝ) * 2 ^ k = ((2 * z + 1 : ℤ) : ℝ) * 2 ^ k := by push_cast; ring
  have hpos : (0 : ℝ) < ((2 * z + 1 : ℤ) : ℝ) * 2 ^ k := by positivity
  have hp2 : (2 : ℤ) ^ p = 2 * 2 ^ (p - 1) := by
    obtain ⟨q, rfl⟩ : ∃ q, p = q + 1 := ⟨p - 1, by omega⟩
    rw [pow_succ]; simp; ring
  have lo : (2 : ℝ) ^ (p + k : ℤ) ≤ ((2 * z + 1 : ℤ) : ℝ) * 2 ^ k := by
    rw [zpow_add₀ (by norm_num), zpow_natCast]
    refine mul_le_mul_of_nonneg_right ?_ (by positivity)
    exact_mod_cast (by omega : (2 : ℤ) ^ p ≤ 2 * z + 1)
  have hi : ((2 * z + 1 : ℤ) : ℝ) * 2 ^ k < (2 : ℝ) ^ (p + k + 1 : ℤ) := by
    rw [show (p + k + 1 : ℤ) = ((p + 1 : ℕ) : ℤ) + k by push_cast; ring, zpow_add₀ (by norm_num), zpow_natCast]
    refine mul_lt_mul_of_pos_right ?_ (by positivity)
    have : (2 * z + 1 : ℤ) < 2 ^ (p + 1) := by rw [pow_succ]; omega
    exact_mod_cast this
  have hlog : Int.log 2 (((2 * z + 1 : ℤ) : ℝ) * 2 ^ k) = p + k := le_antisymm (by have := log_lt hpos hi; omega) (le_log hpos lo)
  have hu : ulpExp p emin (((2 * z + 1 : ℤ) : ℝ) * 2 ^ k) = k + 1 := by
    unfold ulpExp
    rw [abs_of_pos hpos, hlog, max_eq_left] <;> omega
  rw [e]
  unfold rnd
  rw [hu]
  have hd : ((2 * z + 1 : ℤ) : ℝ) * 2 ^ k / 2 ^ (k + 1) = (z : ℝ) + 1 / 2 := by
    rw [zpow_add₀ (by norm_num), zpow_one, div_eq_iff (by positivity)]
    push_cast; ring
  rw [hd]
  have hfl : ⌊(z : ℝ) + 1 / 2⌋ = z := by
    rw [Int.floor_intCast_add]
    norm_num
  have hfr : Int.fract ((z : ℝ) + 1 / 2) = 1 / 2 := by
    rw [Int.fract, hfl]; ring
  have hri : rint ((z : ℝ) + 1 / 2) = z + 1 := by
    unfold rint
    rw [hfr, hfl, if_neg (lt_irrefl _), if_neg (lt_irrefl _), if_neg (Int.not_even_iff_odd.2 hodd)]
  rw [hri]

end Ieee

section
variable {m : ℕ} {A : Matrix (Fin m) (Fin 1) Binary64} {b : Fin m → Binary64} {i : Fin m} {z k : ℤ}

/-- The row `y ≤ z 2ᵏ` rejects everything from the next double on. -/
theorem row_rejects (hA : Ieee.ext (A i 0) = some ((1 : ℝ) : EReal)) (hb : Ieee.ext (b i) = some (((z : ℝ) * 2 ^ k : ℝ) : EReal))
    (hz : 0 ≤ z) (hz' : z < 2 ^ 53) (hk : -1074 ≤ k) {y : Fin 1 → Binary64}
    (hy : Ieee.AtLeast (y 0) (((z + 1 : ℤ) : ℝ) * 2 ^ k)) : ¬ Spec.PassesDense A b y := by
  by_cases hn : Ieee.ext (y 0) = none
  · exact not_passesDense_nan Ieee.binary64 hn
  rintro ⟨c, hl, hc⟩
  obtain ⟨_, hall⟩ := largest_le_zero Ieee.binary64 hl hc
  have h := hall (Spec.dot (A i) y - b i) (by rw [List.mem_ofFn]; exact ⟨i, rfl⟩)
  change ∀ w, Ieee.ext (0 + A i 0 * y 0 - b i) = some w → w ≤ 0 at h
  have hz0 : (0 : ℝ) ≤ ((z + 1 : ℤ) : ℝ) * 2 ^ k := by
    have : (0 : ℝ) ≤ ((z + 1 : ℤ) : ℝ) := by exact_mod_cast (by omega : (0 : ℤ) ≤ z + 1)
    positivity
  have hr : rnd 53 (-1074) (((z + 1 : ℤ) : ℝ) * 2 ^ k) = ((z + 1 : ℤ) : ℝ) * 2 ^ k :=
    Ieee.rnd_fits' (by norm_num) (by rw [abs_of_nonneg (by omega)]; norm_num at *; omega) hk
  have h1 : Ieee.AtLeast (A i 0) 1 := by
    obtain ⟨hx, e⟩ := Ieee.ext_eq hA
    rw [e]; exact .num le_rfl
  have h2 := Ieee.AtLeast.mul (by norm_num) h1 hy (by norm_num) hz0
  rw [one_mul, hr] at h2
  have h3 := Ieee.AtLeast.add (by norm_num) (a := (0 : Binary64)) (c := 0) (.num le_rfl) h2 (by rwa [zero_add])
  rw [zero_add, hr] at h3
  have h4 : Ieee.AtLeast (0 + A i 0 * y 0 - b i) (2 ^ k) := by
    obtain ⟨hx, e⟩ := Ieee.ext_eq hb
    rw [e]
    have e2 : ((z + 1 : ℤ) : ℝ) * 2 ^ k - z * 2 ^ k = ((1 : ℤ) : ℝ) * 2 ^ k := by push_cast; ring
    have := Ieee.AtLeast.sub_num (by norm_num) (hd := hx) h3 (by rw [e2]; positivity)
    rw [e2, Ieee.rnd_fits (by norm_num) hk, Int.cast_one, one_mul] at this
    exact this
  have hnn : Ieee.ext (0 + A i 0 * y 0 - b i) ≠ none :=
    Ieee.notNan_sub hb (Ieee.notNan_add (a := (0 : Binary64)) (x := 0) Ieee.binary64.zero (Ieee.notNan_mul hA one_ne_zero hn))
  obtain ⟨w, hw⟩ := Option.ne_none_iff_exists'.1 hnn
  have h5 := h4 w hw
  have h6 := h w hw
  have h7 : ((2 ^ k : ℝ) : EReal) ≤ 0 := h5.trans h6
  have h8 : (2 : ℝ) ^ k ≤ 0 := by exact_mod_cast h7
  exact absurd h8 (not_le.2 (by positivity))

/-- At least `ξ` (or NaN), and a rounded number. -/
structure Above (ξ : ℝ) (a : Binary64) : Prop where
  ge : Ieee.AtLeast a ξ
  rounded : ∀ v : ℝ, Ieee.ext a = some (v : EReal) → ∃ w, v = rnd 53 (-1074) w

theorem rounded_add {a c : Binary64} {v : ℝ} (h : Ieee.ext (a + c) = some (v : EReal)) : ∃ w, v = rnd 53 (-1074) w := by
  obtain ⟨x, y, hx, hy, _⟩ := Ieee.add_ext h
  obtain ⟨h1, rfl⟩ := Ieee.ext_eq hx
  obtain ⟨h2, rfl⟩ := Ieee.ext_eq hy
  exact ⟨_, Ieee.ext_round h⟩

theorem two_ext : Ieee.ext (two : Binary64) = some ((2 : ℝ) : EReal) := by
  have := Ieee.binary64_ops.ofInt 2 (by norm_num)
  have e : ((2 : ℤ) : ℝ) = 2 := by norm_num
  rw [e] at this
  exact this

theorem half_above {ξ η : ℝ} {a c : Binary64} (ha : Ieee.AtLeast a ξ) (hc : Ieee.AtLeast c η) (h0 : 0 ≤ ξ + η) {ζ : ℝ}
    (hr : rnd 53 (-1074) (ξ + η) = 2 * ζ) (hr2 : rnd 53 (-1074) ζ = ζ) : Above ζ ((a + c) / two) := by
  obtain ⟨h2, e2⟩ := Ieee.ext_eq two_ext
  have hζ : 0 ≤ 2 * ζ := by rw [← hr]; exact Ieee.rnd_nonneg _ _ h0
  constructor
  · have h1 := Ieee.AtLeast.add (by norm_num) ha hc h0
    rw [hr] at h1
    have h3 := Ieee.AtLeast.div_num (by norm_num) (hd := h2) h1 hζ (by norm_num)
    rw [mul_div_cancel_left₀ _ (by norm_num), hr2] at h3
    rw [e2]
    exact h3
  · intro v hv
    rw [e2] at hv
    cases hac : a + c with
    | nan => rw [hac] at hv; cases hv
    | inf s => rw [hac] at hv; exact absurd hv Ieee.ext_inf_ne
    | num x hx =>
      rw [hac] at hv
      change Ieee.ext (if (2 : ℝ) = 0 then (if x = 0 then Ieee.nan else Ieee.inf (x < 0)) else Ieee.round (x / 2) : Binary64) = _ at hv
      rw [if_neg (by norm_num)] at hv
      exact ⟨_, Ieee.ext_round hv⟩

/-- The doubling loop goes up, if the direction does. -/
theorem expand_above {inside : (Fin 1 → Binary64) → Out Bool} {dir x : Fin 1 → Binary64} {ξ : ℝ} (hx : Ieee.ext (x 0) = some (ξ : EReal))
    (h0 : 0 ≤ ξ) (hr : rnd 53 (-1074) ξ = ξ) (hdir : Ieee.AtLeast (dir 0) 0) (fuel : ℕ) (far : Fin 1 → Binary64) (f : Fin 1 → Binary64)
    (h : HitRun.expand inside dir x fuel far = .ok f) : inside f = .ok false ∧ Above ξ (f 0) := by
  induction fuel generalizing far with
  | zero => cases h
  | succ fuel ih =>
    unfold HitRun.expand at h
    obtain ⟨c, hc, h⟩ := Out.bind_eq_ok.1 h
    cases c with
    | true => exact ih _ h
    | false =>
      cases h
      refine ⟨hc, ?_, fun v hv => rounded_add hv⟩
      obtain ⟨h2, e2⟩ := Ieee.ext_eq two_ext
      have h1 : Ieee.AtLeast (two * distance x far) 0 := by
        have := Ieee.AtLeast.mul (p := 53) (emin := -1074) (emax := 1023) (by norm_num) (a := two) (c := 2) (by rw [e2]; exact .num le_rfl)
          (b := distance x far) (Ieee.AtLeast.sqrt_zero _) (by norm_num) le_rfl
        rw [mul_zero, rnd_zero] at this
        exact this
      have h3 := Ieee.AtLeast.mul (by norm_num) h1 hdir le_rfl le_rfl
      rw [mul_zero, rnd_zero] at h3
      have h4 : Ieee.AtLeast (x 0) ξ := by
        obtain ⟨hh, e⟩ := Ieee.ext_eq hx
        rw [e]; exact .num le_rfl
      have h5 := Ieee.AtLeast.add (by norm_num) h4 h3 (by simpa using h0)
      rw [add_zero, hr] at h5
      exact h5

/-- A rejected point above the start is beyond the bound. -/
theorem rejected_above {ξ : ℝ} (hz : 2 ^ 52 ≤ z) (hz' : z < 2 ^ 53) (hk : -1074 ≤ k)
    (H : ∀ (y : Fin 1 → Binary64) (v : ℝ), Ieee.ext (y 0) = some (v : EReal) → ξ ≤ v → v ≤ z * 2 ^ k → inPolytope y A b = .ok true)
    {f : Fin 1 → Binary64} (hf : inPolytope f A b = .ok false) (ha : Above ξ (f 0)) : Ieee.AtLeast (f 0) (((z + 1 : ℤ) : ℝ) * 2 ^ k) := by
  cases hf0 : f 0 with
  | nan => exact .nan
  | inf s =>
    have := ha.ge
    rw [hf0] at this
    exact .inf this.of_inf
  | num v hv =>
    have h1 := ha.ge
    rw [hf0] at h1
    have h2 : ¬ v ≤ z * 2 ^ k := fun hle => by
      have := H f v (by rw [hf0]; rfl) h1.of_num hle
      rw [hf] at this
      cases this
    obtain ⟨w, rfl⟩ := ha.rounded v (by rw [hf0]; rfl)
    push Not at h2
    exact .num (Ieee.rnd_gap (by norm_num) hz hz' hk h2.le h2.ne')

/-- Bisection between the last double inside and a point outside never ends, if the significand of that double is odd. -/
theorem bisect_stuck (hA : Ieee.ext (A i 0) = some ((1 : ℝ) : EReal)) (hb : Ieee.ext (b i) = some (((z : ℝ) * 2 ^ k : ℝ) : EReal))
    (hz : 2 ^ 52 ≤ z) (hz' : z < 2 ^ 53) (hk : -1074 ≤ k) (hodd : Odd z) (ERR : Binary64) {l : Fin 1 → Binary64}
    (hl : Ieee.ext (l 0) = some (((z : ℝ) * 2 ^ k : ℝ) : EReal)) (fuel : ℕ) (r mid : Fin 1 → Binary64)
    (hr : Ieee.AtLeast (r 0) (((z + 1 : ℤ) : ℝ) * 2 ^ k)) (hm : Ieee.AtLeast (mid 0) (((z + 1 : ℤ) : ℝ) * 2 ^ k)) :
    HitRun.bisect (inPolytope · A b) ERR fuel l r mid = .timeout := by
  have rej : ∀ y : Fin 1 → Binary64, Ieee.AtLeast (y 0) (((z + 1 : ℤ) : ℝ) * 2 ^ k) → inPolytope y A b = .ok false := by
    intro y hy
    obtain ⟨c, hc⟩ := inPolytope_plain i y A b
    cases c with
    | false => exact hc
    | true => exact absurd ((inPolytope_iff_passes _ _ _).1 hc) (row_rejects hA hb (by omega) hz' hk hy)
  have hmid : ∀ r : Fin 1 → Binary64, Ieee.AtLeast (r 0) (((z + 1 : ℤ) : ℝ) * 2 ^ k) →
      Ieee.AtLeast ((l 0 + r 0) / two) (((z + 1 : ℤ) : ℝ) * 2 ^ k) := by
    intro r hr
    have hl' : Ieee.AtLeast (l 0) ((z : ℝ) * 2 ^ k) := by
      obtain ⟨hh, e⟩ := Ieee.ext_eq hl
      rw [e]; exact .num le_rfl
    have hz0 : (0 : ℝ) ≤ z := by exact_mod_cast (by omega : (0 : ℤ) ≤ z)
    refine (half_above hl' hr (by push_cast; positivity) ?_ ?_).ge
    · rw [Ieee.rnd_tie (by norm_num) hz hz' hk hodd, zpow_add₀ (by norm_num), zpow_one]
      ring
    · exact Ieee.rnd_fits' (by norm_num) (by rw [abs_of_nonneg (by omega)]; norm_num at *; omega) hk
  induction fuel generalizing r mid with
  | zero =>
    unfold HitRun.bisect
    have : (if Scalar.lt ERR (distance l r) then Out.ok true else (inPolytope mid A b).bind fun c => .ok (!c)) = Out.ok true := by
      split
      · rfl
      · rw [rej mid hm]; rfl
    rw [this]
    rfl
  | succ fuel ih =>
    unfold HitRun.bisect
    have : (if Scalar.lt ERR (distance l r) then Out.ok true else (inPolytope mid A b).bind fun c => .ok (!c)) = Out.ok true := by
      split
      · rfl
      · rw [rej mid hm]; rfl
    rw [this]
    have h2 : inPolytope (fun i => (l i + r i) / two) A b = .ok false := rej _ (hmid r hr)
    show ((inPolytope (fun i => (l i + r i) / two) A b).bind fun c => _) = _
    rw [h2]
    exact ih _ _ (hmid r hr) (hmid r hr)

/-- A step whose search hangs in every direction that goes up. -/
theorem step_stuck {R ERR : Binary64} {fuel : ℕ} {rng : Rng Binary64} (i : Fin m) {x : Fin 1 → Binary64} (g : rng.G)
    (h : ∀ dir : Fin 1 → Binary64, Ieee.AtLeast (dir 0) 0 → HitRun.binarySearch R ERR fuel A b dir x = .timeout) :
    HitRun.step R ERR fuel rng A b (x, g) = .timeout := by
  show ((HitRun.binarySearch R ERR fuel A b (rng.gaussianNorm 1 g).1 x).bind fun posSide =>
    (HitRun.binarySearch R ERR fuel A b (fun i => (rng.gaussianNorm 1 g).1 i * Scalar.ofInt (-1)) x).bind fun ns => _) = _
  rcases Ieee.atLeast_or (by norm_num) ((rng.gaussianNorm 1 g).1 0) (Scalar.ofInt (-1)) (by
    have := Ieee.binary64_ops.ofInt (-1) (by norm_num)
    simpa using this) with hp | hn
  · rw [h _ hp]
    rfl
  · rcases binarySearch_plain i R ERR fuel A b (rng.gaussianNorm 1 g).1 x with h1 | ⟨s, h1⟩
    · rw [h1]; rfl
    · rw [h1]
      show ((HitRun.binarySearch R ERR fuel A b (fun i => (rng.gaussianNorm 1 g).1 i * Scalar.ofInt (-1)) x).bind fun ns => _) = _
      rw [h _ hn]
      rfl


/-- Every search for a boundary point in an upward direction, from the last double inside, hangs. -/
theorem search_stuck_boundary (hA : Ieee.ext (A i 0) = some ((1 : ℝ) : EReal)) (hb : Ieee.ext (b i) = some (((z : ℝ) * 2 ^ k : ℝ) : EReal))
    (hz : 2 ^ 52 ≤ z) (hz' : z < 2 ^ 53) (hk : -1074 ≤ k) (hodd : Odd z) (R ERR : Binary64) {x : Fin 1 → Binary64}
    (hx : Ieee.ext (x 0) = some (((z : ℝ) * 2 ^ k : ℝ) : EReal)) (hin : inPolytope x A b = .ok true) (fuel : ℕ) (dir : Fin 1 → Binary64)
    (hdir : Ieee.AtLeast (dir 0) 0) : HitRun.binarySearch R ERR fuel A b dir x = .timeout := by
  have hz0 : (0 : ℝ) ≤ z := by exact_mod_cast (by omega : (0 : ℤ) ≤ z)
  have hfit : rnd 53 (-1074) ((z : ℝ) * 2 ^ k) = (z : ℝ) * 2 ^ k := Ieee.rnd_fits (by rw [abs_of_nonneg (by omega)]; exact hz') hk
  have hfit1 : rnd 53 (-1074) (((z + 1 : ℤ) : ℝ) * 2 ^ k) = ((z + 1 : ℤ) : ℝ) * 2 ^ k :=
    Ieee.rnd_fits' (by norm_num) (by rw [abs_of_nonneg (by omega)]; norm_num at *; omega) hk
  have H : ∀ (y : Fin 1 → Binary64) (v : ℝ), Ieee.ext (y 0) = some (v : EReal) → (z : ℝ) * 2 ^ k ≤ v → v ≤ z * 2 ^ k →
      inPolytope y A b = .ok true := by
    intro y v hy h1 h2
    have : y = x := by
      funext j
      obtain rfl : j = 0 := Subsingleton.elim j 0
      obtain ⟨h3, e3⟩ := Ieee.ext_eq hy
      obtain ⟨h4, e4⟩ := Ieee.ext_eq hx
      obtain rfl := le_antisymm h1 h2
      rw [e3, e4]
    rw [this]; exact hin
  unfold HitRun.binarySearch
  rcases expand_plain (fun y => .inr (inPolytope_plain i y A b)) dir x fuel (fun i => x i + R * dir i) with h | ⟨f, h⟩
  · show ((HitRun.expand (inPolytope · A b) dir x fuel fun i => x i + R * dir i).bind _) = _
    rw [h]; rfl
  · obtain ⟨h1, h2⟩ := expand_above hx (by positivity) hfit hdir fuel _ f h
    have h3 := rejected_above hz hz' hk H h1 h2
    show ((HitRun.expand (inPolytope · A b) dir x fuel fun i => x i + R * dir i).bind _) = _
    rw [h]
    show ((HitRun.bisect (inPolytope · A b) ERR fuel x f fun i => (x i + f i) / two).bind _) = _
    rw [bisect_stuck hA hb hz hz' hk hodd ERR hx fuel f _ h3]
    · rfl
    · have hl' : Ieee.AtLeast (x 0) ((z : ℝ) * 2 ^ k) := by
        obtain ⟨hh, e⟩ := Ieee.ext_eq hx
        rw [e]; exact .num le_rfl
      refine (half_above hl' h3 (by push_cast; positivity) ?_ hfit1).ge
      rw [Ieee.rnd_tie (by norm_num) hz hz' hk hodd, zpow_add₀ (by norm_num), zpow_one]
      ring

theorem nan_half {a c : Binary64} (h : Ieee.ext c = none) : Ieee.ext ((a + c) / two) = none := by
  cases c with
  | nan => cases a <;> rfl
  | inf s => exact absurd h (Option.some_ne_none _)
  | num x hx => exact absurd h (Option.some_ne_none _)

/-- A number below the bound and one above are at least one unit in the last place apart. -/
theorem distance_gap {l r : Fin 1 → Binary64} {lam : ℝ} (hl : Ieee.ext (l 0) = some (lam : EReal)) (hle : lam ≤ z * 2 ^ k)
    (hr : Ieee.AtLeast (r 0) (((z + 1 : ℤ) : ℝ) * 2 ^ k)) (hnan : Ieee.ext (r 0) ≠ none) (hk : -537 ≤ k) {ERR : Binary64} {ε : ℝ}
    (hE : Ieee.ext ERR = some (ε : EReal)) (hε : ε < 2 ^ k) : Scalar.lt ERR (distance l r) = true := by
  have hfit : rnd 53 (-1074) ((2 : ℝ) ^ k) = 2 ^ k := by
    have := Ieee.rnd_fits (p := 53) (emin := -1074) (z := 1) (k := k) (by norm_num) (by omega)
    simpa using this
  have hfit2 : rnd 53 (-1074) ((2 : ℝ) ^ k * 2 ^ k) = 2 ^ k * 2 ^ k := by
    have := Ieee.rnd_fits (p := 53) (emin := -1074) (z := 1) (k := k + k) (by norm_num) (by omega)
    rw [zpow_add₀ (by norm_num)] at this
    simpa using this
  -- the difference
  have hd : Ieee.ext (l 0 - r 0) ≠ none ∧ ∀ v : ℝ, Ieee.ext (l 0 - r 0) = some (v : EReal) → v ≤ -2 ^ k := by
    obtain ⟨hh, e⟩ := Ieee.ext_eq hl
    rw [e]
    cases hr0 : r 0 with
    | nan => exact absurd (by rw [hr0]; rfl) hnan
    | inf s => exact ⟨Option.some_ne_none _, fun v hv => absurd hv Ieee.ext_inf_ne⟩
    | num ρ hρ =>
      rw [hr0] at hr
      refine ⟨Ieee.notNan_round _, fun v hv => ?_⟩
      have h1 : v = rnd 53 (-1074) (lam + -ρ) := Ieee.ext_round hv
      have h2 : (2 : ℝ) ^ k ≤ ρ - lam := by
        have := hr.of_num
        push_cast at this
        linarith
      have h3 := Ieee.rnd_mono (p := 53) (emin := -1074) (by norm_num) (by positivity) h2
      rw [hfit] at h3
      rw [h1, show lam + -ρ = -(ρ - lam) by ring, Ieee.rnd_neg]
      linarith
  -- its square
  have hsq : Ieee.ext ((l 0 - r 0) * (l 0 - r 0)) ≠ none ∧ Ieee.AtLeast ((l 0 - r 0) * (l 0 - r 0)) (2 ^ k * 2 ^ k) := by
    cases hx : l 0 - r 0 with
    | nan => exact absurd (by rw [hx]; rfl) hd.1
    | inf s => exact ⟨Option.some_ne_none _, .inf fun h => h Iff.rfl⟩
    | num v hv =>
      have h1 := hd.2 v (by rw [hx]; rfl)
      refine ⟨Ieee.notNan_round _, ?_⟩
      have h2 : (2 : ℝ) ^ k * 2 ^ k ≤ v * v := by
        have hpos : (0 : ℝ) < 2 ^ k := by positivity
        nlinarith
      have := Ieee.AtLeast.round (p := 53) (emin := -1074) (emax := 1023) (by norm_num) (by positivity) h2
      rw [hfit2] at this
      exact this
  have hsum : Ieee.ext (0 + (l 0 - r 0) * (l 0 - r 0)) ≠ none ∧ Ieee.AtLeast (0 + (l 0 - r 0) * (l 0 - r 0)) (2 ^ k * 2 ^ k) := by
    refine ⟨Ieee.notNan_add (x := 0) Ieee.binary64.zero hsq.1, ?_⟩
    have := Ieee.AtLeast.add (by norm_num) (a := (0 : Binary64)) (c := 0) (.num le_rfl) hsq.2 (by positivity)
    rw [zero_add, hfit2] at this
    exact this
  have hnorm : Ieee.ext (Scalar.sqrt (0 + (l 0 - r 0) * (l 0 - r 0))) ≠ none ∧
      Ieee.AtLeast (Scalar.sqrt (0 + (l 0 - r 0) * (l 0 - r 0))) (2 ^ k) := by
    constructor
    · cases hx : 0 + (l 0 - r 0) * (l 0 - r 0) with
      | nan => exact absurd (by rw [hx]; rfl) hsum.1
      | inf s =>
        have := hsum.2
        rw [hx] at this
        show Ieee.ext (if s then Ieee.nan else Ieee.inf False : Binary64) ≠ none
        rw [if_neg this.of_inf]
        exact Option.some_ne_none _
      | num v hv =>
        have := hsum.2
        rw [hx] at this
        show Ieee.ext (if 0 ≤ v then Ieee.round (Real.sqrt v) else Ieee.nan : Binary64) ≠ none
        rw [if_pos (le_trans (by positivity) this.of_num)]
        exact Ieee.notNan_round _
    · have := Ieee.AtLeast.sqrt (by norm_num) hsum.2 (by positivity)
      rw [Real.sqrt_mul_self (by positivity), hfit] at this
      exact this
  obtain ⟨y, hy⟩ := Option.ne_none_iff_exists'.1 hnorm.1
  refine (Ieee.binary64.lt_iff _ _).2 ⟨_, y, hE, hy, lt_of_lt_of_le ?_ (hnorm.2 y hy)⟩
  exact_mod_cast hε

/-- Bisection never ends if the tolerance is below the spacing of doubles at the boundary. -/
theorem bisect_unresolved (hA : Ieee.ext (A i 0) = some ((1 : ℝ) : EReal)) (hb : Ieee.ext (b i) = some (((z : ℝ) * 2 ^ k : ℝ) : EReal))
    (hz : 2 ^ 52 ≤ z) (hz' : z < 2 ^ 53) (hk : -537 ≤ k) {ERR : Binary64} {ε : ℝ} (hE : Ieee.ext ERR = some (ε : EReal)) (hε : ε < 2 ^ k)
    {w j : ℤ} (hw0 : 0 ≤ w) (hw : w < 2 ^ 53) (hj : -1074 ≤ j)
    (H : ∀ (y : Fin 1 → Binary64) (v : ℝ), Ieee.ext (y 0) = some (v : EReal) → (w : ℝ) * 2 ^ j ≤ v → v ≤ z * 2 ^ k → inPolytope y A b = .ok true)
    (fuel : ℕ) (l r mid : Fin 1 → Binary64) {lam : ℝ} (hl : Ieee.ext (l 0) = some (lam : EReal)) (hl0 : (w : ℝ) * 2 ^ j ≤ lam) (hl1 : lam ≤ z * 2 ^ k)
    (hr : Ieee.AtLeast (r 0) (((z + 1 : ℤ) : ℝ) * 2 ^ k)) (hm : Ieee.ext (r 0) = none → Ieee.ext (mid 0) = none) :
    HitRun.bisect (inPolytope · A b) ERR fuel l r mid = .timeout := by
  have hk' : -1074 ≤ k := by omega
  have hw0' : (0 : ℝ) ≤ (w : ℝ) := by exact_mod_cast hw0
  have hξ0 : (0 : ℝ) ≤ (w : ℝ) * 2 ^ j := by positivity
  have rej : ∀ y : Fin 1 → Binary64, Ieee.AtLeast (y 0) (((z + 1 : ℤ) : ℝ) * 2 ^ k) → inPolytope y A b = .ok false := by
    intro y hy
    obtain ⟨c, hc⟩ := inPolytope_plain i y A b
    cases c with
    | false => exact hc
    | true => exact absurd ((inPolytope_iff_passes _ _ _).1 hc) (row_rejects hA hb (by omega) hz' hk' hy)
  have nanrej : ∀ y : Fin 1 → Binary64, Ieee.ext (y 0) = none → inPolytope y A b = .ok false := fun y hy =>
    rej y fun v hv => by rw [hy] at hv; cases hv
  have hcont : ∀ (l r mid : Fin 1 → Binary64) (lam : ℝ), Ieee.ext (l 0) = some (lam : EReal) → lam ≤ z * 2 ^ k →
      Ieee.AtLeast (r 0) (((z + 1 : ℤ) : ℝ) * 2 ^ k) → (Ieee.ext (r 0) = none → Ieee.ext (mid 0) = none) →
      (if Scalar.lt ERR (distance l r) then Out.ok true else (inPolytope mid A b).bind fun c => .ok (!c)) = Out.ok true := by
    intro l r mid lam hl hl1 hr hm
    by_cases hn : Ieee.ext (r 0) = none
    · split
      · rfl
      · rw [nanrej mid (hm hn)]; rfl
    · rw [if_pos (distance_gap hl hl1 hr hn hk hE hε)]
  induction fuel generalizing l r mid lam with
  | zero =>
    unfold HitRun.bisect
    rw [hcont l r mid lam hl hl1 hr hm]
    rfl
  | succ fuel ih =>
    unfold HitRun.bisect
    rw [hcont l r mid lam hl hl1 hr hm]
    have hab : Above ((w : ℝ) * 2 ^ j) ((l 0 + r 0) / two) := by
      have h1 : Ieee.AtLeast (l 0) ((w : ℝ) * 2 ^ j) := by
        obtain ⟨hh, e⟩ := Ieee.ext_eq hl
        rw [e]; exact .num hl0
      have h2 : Ieee.AtLeast (r 0) ((w : ℝ) * 2 ^ j) := hr.mono (by
        push_cast
        have : (0 : ℝ) < 2 ^ k := by positivity
        linarith)
      refine half_above h1 h2 (by positivity) ?_ ?_
      · have e : (w : ℝ) * 2 ^ j + (w : ℝ) * 2 ^ j = (w : ℝ) * 2 ^ (j + 1) := by
          rw [zpow_add₀ (by norm_num), zpow_one]; ring
        rw [e, Ieee.rnd_fits (by rw [abs_of_nonneg hw0]; exact hw) (by omega), ← e]
        ring
      · exact Ieee.rnd_fits (by rw [abs_of_nonneg hw0]; exact hw) hj
    show ((inPolytope (fun i => (l i + r i) / two) A b).bind fun c => _) = _
    obtain ⟨c, hc⟩ := inPolytope_plain i (fun i => (l i + r i) / two) A b
    rw [hc]
    cases c with
    | false =>
      exact ih l (fun i => (l i + r i) / two) (fun i => (l i + r i) / two) hl hl0 hl1 (rejected_above hz hz' hk' H hc hab) id
    | true =>
      have hacc : ∃ v : ℝ, Ieee.ext ((l 0 + r 0) / two) = some (v : EReal) ∧ (w : ℝ) * 2 ^ j ≤ v ∧ v ≤ z * 2 ^ k := by
        have hnot : ¬ Ieee.AtLeast ((l 0 + r 0) / two) (((z + 1 : ℤ) : ℝ) * 2 ^ k) := fun h => by
          have := rej (fun i => (l i + r i) / two) h
          rw [hc] at this
          cases this
        cases hv : (l 0 + r 0) / two with
        | nan => rw [hv] at hnot; exact absurd .nan hnot
        | inf s =>
          have := hab.ge
          rw [hv] at this hnot
          exact absurd (.inf this.of_inf) hnot
        | num v hvg =>
          have h1 := hab.ge
          rw [hv] at h1 hnot
          refine ⟨v, rfl, h1.of_num, ?_⟩
          by_contra h2
          push Not at h2
          obtain ⟨q, rfl⟩ := hab.rounded v (by rw [hv]; rfl)
          exact hnot (.num (Ieee.rnd_gap (by norm_num) hz hz' hk' h2.le h2.ne'))
      obtain ⟨v, hv, hv0, hv1⟩ := hacc
      exact ih (fun i => (l i + r i) / two) r (fun i => (l i + r i) / two) hv hv0 hv1 hr fun h => nan_half h

/-- Every search for a boundary point in an upward direction hangs. -/
theorem search_unresolved (hA : Ieee.ext (A i 0) = some ((1 : ℝ) : EReal)) (hb : Ieee.ext (b i) = some (((z : ℝ) * 2 ^ k : ℝ) : EReal))
    (hz : 2 ^ 52 ≤ z) (hz' : z < 2 ^ 53) (hk : -537 ≤ k) (R : Binary64) {ERR : Binary64} {ε : ℝ} (hE : Ieee.ext ERR = some (ε : EReal))
    (hε : ε < 2 ^ k) {w j : ℤ} (hw0 : 0 ≤ w) (hw : w < 2 ^ 53) (hj : -1074 ≤ j) {x : Fin 1 → Binary64}
    (hx : Ieee.ext (x 0) = some (((w : ℝ) * 2 ^ j : ℝ) : EReal)) (hle : (w : ℝ) * 2 ^ j ≤ z * 2 ^ k)
    (H : ∀ (y : Fin 1 → Binary64) (v : ℝ), Ieee.ext (y 0) = some (v : EReal) → (w : ℝ) * 2 ^ j ≤ v → v ≤ z * 2 ^ k → inPolytope y A b = .ok true)
    (fuel : ℕ) (dir : Fin 1 → Binary64) (hdir : Ieee.AtLeast (dir 0) 0) : HitRun.binarySearch R ERR fuel A b dir x = .timeout := by
  have hw0' : (0 : ℝ) ≤ (w : ℝ) := by exact_mod_cast hw0
  unfold HitRun.binarySearch
  rcases expand_plain (fun y => .inr (inPolytope_plain i y A b)) dir x fuel (fun i => x i + R * dir i) with h | ⟨f, h⟩
  · show ((HitRun.expand (inPolytope · A b) dir x fuel fun i => x i + R * dir i).bind _) = _
    rw [h]; rfl
  · obtain ⟨h1, h2⟩ := expand_above hx (by positivity) (Ieee.rnd_fits (by rw [abs_of_nonneg hw0]; exact hw) hj) hdir fuel _ f h
    have h3 := rejected_above hz hz' (by omega) H h1 h2
    show ((HitRun.expand (inPolytope · A b) dir x fuel fun i => x i + R * dir i).bind _) = _
    rw [h]
    show ((HitRun.bisect (inPolytope · A b) ERR fuel x f fun i => (x i + f i) / two).bind _) = _
    rw [bisect_unresolved hA hb hz hz' hk hE hε hw0 hw hj H fuel x f _ hx le_rfl hle h3 fun h => nan_half h]
    rfl

/-- **C86.** In double precision, on an interval with an upper bound `β = z 2ᵏ`, `z` odd, `2⁵² ≤ z < 2⁵³`, started at `β`, Hit-and-Run never
returns, whatever the other inequalities, the radius, the tolerance and the random numbers: no number of search steps is enough. -/
theorem C86_boundary (hA : Ieee.ext (A i 0) = some ((1 : ℝ) : EReal)) (hb : Ieee.ext (b i) = some (((z : ℝ) * 2 ^ k : ℝ) : EReal))
    (hz : 2 ^ 52 ≤ z) (hz' : z < 2 ^ 53) (hk : -1074 ≤ k) (hodd : Odd z) (x : Binary64) (hx : Ieee.ext x = some (((z : ℝ) * 2 ^ k : ℝ) : EReal))
    (hin : Spec.PassesDense A b fun _ => x) (R ERR : Binary64) (e : Env Binary64) (niter kk burnin thin seed : Int)
    (hi : SaneInts niter burnin thin) (hburn : burnin ≤ niter) (hn : 1 ≤ niter) :
    (Walk.hitRun R ERR).run e ⟨niter, ⟨1, fun _ => x⟩, ⟨m, 1, A⟩, ⟨m, b⟩, kk, burnin, thin, seed⟩ = .timeout :=
  hitRun_hangs R ERR e _ ⟨rfl, rfl⟩ hi hburn hn
    (step_stuck i _ fun dir hdir => search_stuck_boundary hA hb hz hz' hk hodd R ERR hx ((inPolytope_iff_passes _ _ _).2 hin) e.fuel dir hdir)

/-- **C86.** In double precision, on an interval with an upper bound `β = z 2ᵏ`, `2⁵² ≤ z < 2⁵³` (so that neighbouring doubles are `2ᵏ` apart),
with a tolerance `ERR < 2ᵏ`, Hit-and-Run never returns from any start in `[0, β]`, whatever the radius and the random numbers. -/
theorem C86_resolution (hA : Ieee.ext (A i 0) = some ((1 : ℝ) : EReal)) (hb : Ieee.ext (b i) = some (((z : ℝ) * 2 ^ k : ℝ) : EReal))
    (hz : 2 ^ 52 ≤ z) (hz' : z < 2 ^ 53) (hk : -537 ≤ k) (R ERR : Binary64) {ε : ℝ} (hE : Ieee.ext ERR = some (ε : EReal)) (hε : ε < 2 ^ k)
    (x : Binary64) {w j : ℤ} (hw0 : 0 ≤ w) (hw : w < 2 ^ 53) (hj : -1074 ≤ j) (hx : Ieee.ext x = some (((w : ℝ) * 2 ^ j : ℝ) : EReal))
    (hle : (w : ℝ) * 2 ^ j ≤ z * 2 ^ k)
    (hin : ∀ (y : Fin 1 → Binary64) (v : ℝ), Ieee.ext (y 0) = some (v : EReal) → (w : ℝ) * 2 ^ j ≤ v → v ≤ z * 2 ^ k → Spec.PassesDense A b y)
    (e : Env Binary64) (niter kk burnin thin seed : Int) (hi : SaneInts niter burnin thin) (hburn : burnin ≤ niter) (hn : 1 ≤ niter) :
    (Walk.hitRun R ERR).run e ⟨niter, ⟨1, fun _ => x⟩, ⟨m, 1, A⟩, ⟨m, b⟩, kk, burnin, thin, seed⟩ = .timeout :=
  hitRun_hangs R ERR e _ ⟨rfl, rfl⟩ hi hburn hn
    (step_stuck i _ fun dir hdir => search_unresolved hA hb hz hz' hk R hE hε hw0 hw hj hx hle
      (fun y v h1 h2 h3 => (inPolytope_iff_passes _ _ _).2 (hin y v h1 h2 h3)) e.fuel dir hdir)

end
end PW
