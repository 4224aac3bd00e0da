import Verif.Lemmas.IeeeExact

/-!
# Lower bounds through IEEE operations
-/

namespace PW
open Classical

namespace Ieee
variable {p : ℕ} {emin emax : ℤ}

/-- NaN, or at least `c`. -/
def AtLeast (a : Ieee p emin emax) (c : ℝ) : Prop := ∀ y, ext a = some y → (c : EReal) ≤ y

theorem AtLeast.mono {a : Ieee p emin emax} {c d : ℝ} (h : AtLeast a c) (hd : d ≤ c) : AtLeast a d :=
  fun y hy => le_trans (by exact_mod_cast hd) (h y hy)

theorem AtLeast.nan {c : ℝ} : AtLeast (nan : Ieee p emin emax) c := fun _ h => by cases h

theorem AtLeast.num {c x : ℝ} {hx} (h : c ≤ x) : AtLeast (num x hx : Ieee p emin emax) c := fun y hy => by
  cases hy; exact_mod_cast h

theorem AtLeast.inf {c : ℝ} {s : Prop} (hs : ¬ s) : AtLeast (inf s : Ieee p emin emax) c := fun y hy => by
  simp only [ext, if_neg hs, Option.some.injEq] at hy
  rw [← hy]; exact le_top

theorem AtLeast.of_num {c x : ℝ} {hx} (h : AtLeast (Ieee.num x hx : Ieee p emin emax) c) : c ≤ x := by
  have := h _ rfl
  exact_mod_cast this

theorem AtLeast.of_inf {c : ℝ} {s : Prop} (h : AtLeast (Ieee.inf s : Ieee p emin emax) c) : ¬ s := by
  intro hs
  have := h _ rfl
  rw [if_pos hs] at this
  exact absurd (le_bot_iff.1 this) (EReal.coe_ne_bot c)

theorem AtLeast.round (hp : 1 ≤ p) {x c : ℝ} (hc : 0 ≤ c) (h : c ≤ x) : AtLeast (round x : Ieee p emin emax) (rnd p emin c) := by
  unfold Ieee.round
  split_ifs
  · exact .num (rnd_mono hp hc h)
  · exact .inf (by linarith)

theorem AtLeast.add (hp : 1 ≤ p) {a b : Ieee p emin emax} {c d : ℝ} (ha : AtLeast a c) (hb : AtLeast b d) (h : 0 ≤ c + d) :
    AtLeast (a + b) (rnd p emin (c + d)) := by
  cases a with
  | nan => cases b <;> exact .nan
  | inf s =>
    have hs := ha.of_inf
    cases b with
    | nan => exact .nan
    | num y hy => exact .inf hs
    | inf t =>
      have ht := hb.of_inf
      show AtLeast (if s = t then Ieee.inf s else Ieee.nan) _
      rw [if_pos (propext ⟨fun h => absurd h hs, fun h => absurd h ht⟩)]
      exact .inf hs
  | num x hx =>
    cases b with
    | nan => exact .nan
    | num y hy => exact .round hp h (add_le_add ha.of_num hb.of_num)
    | inf t => exact .inf hb.of_inf

theorem AtLeast.sub_num (hp : 1 ≤ p) {a : Ieee p emin emax} {c d : ℝ} {hd} (ha : AtLeast a c) (h : 0 ≤ c - d) :
    AtLeast (a - Ieee.num d hd) (rnd p emin (c - d)) := by
  have := AtLeast.add hp ha (b := neg (Ieee.num d hd)) (d := -d) (.num le_rfl) (by linarith)
  rw [← sub_eq_add_neg] at this
  exact this

theorem AtLeast.mul (hp : 1 ≤ p) {a b : Ieee p emin emax} {c d : ℝ} (ha : AtLeast a c) (hb : AtLeast b d) (hc : 0 ≤ c) (hd : 0 ≤ d) :
    AtLeast (a * b) (rnd p emin (c * d)) := by
  have key : ∀ {x y : ℝ}, 0 ≤ x → ∀ {s : Prop}, ¬ s → (¬ (s ↔ x < 0)) = False := by
    intro x _ hx s hs
    exact eq_false fun h => h ⟨fun h => absurd h hs, fun h => absurd h (not_lt.2 hx)⟩
  cases a with
  | nan => cases b <;> exact .nan
  | inf s =>
    have hs := ha.of_inf
    cases b with
    | nan => exact .nan
    | num y hy =>
      have hy0 := hd.trans hb.of_num
      show AtLeast (if y = 0 then Ieee.nan else Ieee.inf (¬ (s ↔ y < 0))) _
      split_ifs
      · exact .nan
      · exact .inf fun h => h ⟨fun h => absurd h hs, fun h => absurd h (not_lt.2 hy0)⟩
    | inf t =>
      have ht := hb.of_inf
      exact .inf fun h => h ⟨fun h => absurd h hs, fun h => absurd h ht⟩
  | num x hx =>
    have hx0 := hc.trans ha.of_num
    cases b with
    | nan => exact .nan
    | num y hy => exact .round hp (mul_nonneg hc hd) (mul_le_mul ha.of_num hb.of_num hd hx0)
    | inf t =>
      have ht := hb.of_inf
      show AtLeast (if x = 0 then Ieee.nan else Ieee.inf (¬ (x < 0 ↔ t))) _
      split_ifs
      · exact .nan
      · exact .inf fun h => h ⟨fun h => absurd h (not_lt.2 hx0), fun h => absurd h ht⟩

theorem AtLeast.div_num (hp : 1 ≤ p) {a : Ieee p emin emax} {c d : ℝ} {hd} (ha : AtLeast a c) (hc : 0 ≤ c) (h : 0 < d) :
    AtLeast (a / Ieee.num d hd) (rnd p emin (c / d)) := by
  cases a with
  | nan => exact .nan
  | inf s => exact .inf fun hh => hh ⟨fun h => absurd h ha.of_inf, fun h' => absurd h' (not_lt.2 h.le)⟩
  | num x hx =>
    show AtLeast (if d = 0 then (if x = 0 then Ieee.nan else Ieee.inf (x < 0)) else Ieee.round (x / d)) _
    rw [if_neg h.ne']
    exact .round hp (by positivity) (div_le_div_of_nonneg_right ha.of_num h.le)

theorem AtLeast.sqrt (hp : 1 ≤ p) {a : Ieee p emin emax} {c : ℝ} (ha : AtLeast a c) (hc : 0 ≤ c) :
    AtLeast (Scalar.sqrt a) (rnd p emin (Real.sqrt c)) := by
  cases a with
  | nan => exact .nan
  | inf s =>
    show AtLeast (if s then Ieee.nan else Ieee.inf False) _
    rw [if_neg ha.of_inf]
    exact .inf id
  | num x hx =>
    show AtLeast (if 0 ≤ x then Ieee.round (Real.sqrt x) else Ieee.nan) _
    rw [if_pos (hc.trans ha.of_num)]
    exact .round hp (Real.sqrt_nonneg c) (Real.sqrt_le_sqrt ha.of_num)

end Ieee
end PW
