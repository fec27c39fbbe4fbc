import Verif.Fp.Ieee
import Mathlib.Data.EReal.Inv

/-!
# C91: the operations of `Fp/Ieee` are those of the standard

Each operation of the data type is the operation on the extended real numbers, rounded: stated on `EReal`, independently of the
case distinctions of `Fp/Ieee`.
-/

namespace Stator.Fp

open Stator Ieee

variable {φ : Format} {M : ℝ} {hM : 1 ≤ M}

/-- **C91**, a negative zero: `-0*x` is simplified to `+0`. -/
theorem C91_minus_zero (L : LibI φ M hM) (n : Nat) :
    simpE Ieee.eq (ieeeOps L) (n + 2) (.bin .mul (.const (.zero true)) (.var ['x'])) = .ok (.const (.zero false)) := by
  simp [simpE, simpBinE, isConstE, BinOp.leftZero, ieeeOps, Ieee.eq, fresh]

/-- The extended real number a value stands for. -/
noncomputable def Ieee.toE : Ieee φ M → Option EReal
  | .nan => none
  | .inf true => some ⊥
  | .inf false => some ⊤
  | .zero _ => some 0
  | .fin x _ _ _ => some (x : EReal)

/-- **C91**: `==` compares the numbers (so the two zeros are equal), and a NaN is equal to nothing. -/
theorem C91_eq (x y : Ieee φ M) : Ieee.eq x y = true ↔ ∃ v, x.toE = some v ∧ y.toE = some v := by
  rcases x with _ | (_ | _) | _ | ⟨x, _, hx, _⟩ <;> rcases y with _ | (_ | _) | _ | ⟨y, _, hy, _⟩ <;>
    simp [Ieee.eq, Ieee.toE, eq_comm]
  · exact fun h => hy (EReal.coe_eq_zero.1 h.symm)
  · exact fun h => hx (EReal.coe_eq_zero.1 h.symm)

/-- Rounding to the numbers of the type, with overflow. -/
noncomputable def roundE (φ : Format) (M : ℝ) : EReal → EReal
  | ⊤ => ⊤
  | ⊥ => ⊥
  | (x : ℝ) => if |φ.rnd x| ≤ M then (φ.rnd x : EReal) else if x < 0 then ⊥ else ⊤

theorem pack_toE (hM0 : 0 ≤ M) (s : Bool) (x : ℝ) : (Ieee.pack s x : Ieee φ M).toE = some (roundE φ M (x : ℝ)) := by
  have e : roundE φ M ((x : ℝ) : EReal) = if |φ.rnd x| ≤ M then (φ.rnd x : EReal) else if x < 0 then ⊥ else ⊤ := rfl
  rw [e]
  by_cases h0 : φ.rnd x = 0
  · simp [Ieee.pack, h0, Ieee.toE, hM0]
  · by_cases hM' : |φ.rnd x| ≤ M
    · simp only [Ieee.pack, h0, hM', dite_false, dite_true, Ieee.toE, if_true]
    · by_cases h : x < 0 <;> simp [Ieee.pack, h0, hM', Ieee.toE, h]

/-- **C91**, rounding: the result of an operation has the sign of the exact result. -/
theorem C91_sign (s : Bool) (x : ℝ) (hx : x ≠ 0) : (Ieee.pack s x : Ieee φ M).sgn = decide (x < 0) := by
  have hpos : 0 < x → 0 ≤ φ.rnd x := fun h => by
    have := φ.mono h.le; rwa [Ieee.rnd_zero] at this
  have hneg : x < 0 → φ.rnd x ≤ 0 := fun h => by
    have := φ.mono h.le; rwa [Ieee.rnd_zero] at this
  by_cases h0 : φ.rnd x = 0
  · simp [Ieee.pack, h0, hx, Ieee.sgn]
  · by_cases hM' : |φ.rnd x| ≤ M
    · simp only [Ieee.pack, h0, hM', dite_false, dite_true, Ieee.sgn]
      rcases lt_or_gt_of_ne hx with h | h
      · simp [h, lt_of_le_of_ne (hneg h) h0]
      · simp [not_lt.2 h.le, not_lt.2 (hpos h)]
    · simp [Ieee.pack, h0, hM', Ieee.sgn]

theorem pack_ne_nan (s : Bool) (x : ℝ) : (Ieee.pack s x : Ieee φ M) ≠ .nan := by
  unfold Ieee.pack
  split
  · simp
  · split <;> simp

theorem roundE_zero (hM0 : 0 ≤ M) : roundE φ M 0 = 0 := by
  have := pack_toE (φ := φ) hM0 false 0
  rw [Ieee.pack_zero] at this
  exact (Option.some.inj this).symm

/-- **C91**, the operations of the specification: a sum is NaN only for a NaN or opposite infinities, and otherwise the sum of the
extended real numbers, rounded. -/
theorem C91_add (hM0 : 0 ≤ M) (x y : Ieee φ M) :
    (x.add y = .nan ↔ x = .nan ∨ y = .nan ∨ ∃ b, x = .inf b ∧ y = .inf !b) ∧
    ∀ a b, x.toE = some a → y.toE = some b → x.add y ≠ .nan → (x.add y).toE = some (roundE φ M (a + b)) := by
  have p := pack_toE (φ := φ) hM0
  have r0 := roundE_zero (φ := φ) hM0
  have rt : roundE φ M ⊤ = ⊤ := rfl
  have rb : roundE φ M ⊥ = ⊥ := rfl
  rcases x with _ | (_ | _) | _ | ⟨x, _, hx, _⟩ <;> rcases y with _ | (_ | _) | _ | ⟨y, _, hy, _⟩ <;>
    refine ⟨by simp [Ieee.add, pack_ne_nan], ?_⟩ <;> intro a b ha hb hn <;>
    simp only [Ieee.toE, Option.some.injEq, reduceCtorEq] at ha hb <;>
    subst ha hb <;> simp_all [Ieee.add, Ieee.toE, Ieee.val]

theorem toE_inf (b : Bool) : (Ieee.inf b : Ieee φ M).toE = some (if b then ⊥ else ⊤) := by cases b <;> rfl

/-- **C91**: a product is NaN only for a NaN or zero times infinity, and otherwise the product of the extended real numbers, rounded. -/
theorem C91_mul (hM0 : 0 ≤ M) (x y : Ieee φ M) :
    (x.mul y = .nan ↔ x = .nan ∨ y = .nan ∨ ∃ a b, x = .inf a ∧ y = .zero b ∨ x = .zero a ∧ y = .inf b) ∧
    ∀ a b, x.toE = some a → y.toE = some b → x.mul y ≠ .nan → (x.mul y).toE = some (roundE φ M (a * b)) := by
  have p := pack_toE (φ := φ) hM0
  have r0 := roundE_zero (φ := φ) hM0
  have rt : roundE φ M ⊤ = ⊤ := rfl
  have rb : roundE φ M ⊥ = ⊥ := rfl
  have top (x : ℝ) (hx : x ≠ 0) : (x : EReal) * ⊤ = if x < 0 then ⊥ else ⊤ := by
    rcases lt_or_gt_of_ne hx with h | h
    · rw [EReal.coe_mul_top_of_neg h, if_pos h]
    · rw [EReal.coe_mul_top_of_pos h, if_neg (not_lt.2 h.le)]
  have bot (x : ℝ) (hx : x ≠ 0) : (x : EReal) * ⊥ = if x < 0 then ⊤ else ⊥ := by
    rcases lt_or_gt_of_ne hx with h | h
    · rw [EReal.coe_mul_bot_of_neg h, if_pos h]
    · rw [EReal.coe_mul_bot_of_pos h, if_neg (not_lt.2 h.le)]
  rcases x with _ | (_ | _) | _ | ⟨x, _, hx, _⟩ <;> rcases y with _ | (_ | _) | _ | ⟨y, _, hy, _⟩ <;>
    refine ⟨by simp [Ieee.mul, pack_ne_nan], ?_⟩ <;> intro a b ha hb hn <;>
    simp only [Ieee.toE, Option.some.injEq, reduceCtorEq] at ha hb <;>
    subst ha hb <;> simp only [Ieee.mul, toE_inf, p, Ieee.val, Ieee.sgn, Option.some.injEq] at hn ⊢
  all_goals try exact absurd rfl hn
  · simp [rt]
  · simp [rb]
  · rw [mul_comm, top y hy]
    by_cases h : y < 0 <;> simp [h, rt, rb]
  · simp [rb]
  · simp [rt]
  · rw [mul_comm, bot y hy]
    by_cases h : y < 0 <;> simp [h, rt, rb]
  · simp [r0]
  · simp [r0]
  · rw [top x hx]
    by_cases h : x < 0 <;> simp [h, rt, rb]
  · rw [bot x hx]
    by_cases h : x < 0 <;> simp [h, rt, rb]
  · simp [r0]
  · rw [EReal.coe_mul]

/-- **C91**: a quotient is NaN only for a NaN, zero by zero or infinity by infinity; a division by zero gives the infinity of the sign
of the operands; otherwise the result is the quotient of the extended real numbers, rounded. -/
theorem C91_div (hM0 : 0 ≤ M) (x y : Ieee φ M) :
    (x.div y = .nan ↔ x = .nan ∨ y = .nan ∨ ∃ a b, x = .inf a ∧ y = .inf b ∨ x = .zero a ∧ y = .zero b) ∧
    (∀ s, y = .zero s → x.div y ≠ .nan → x.div y = .inf (x.sgn ^^ s)) ∧
    ∀ a b, x.toE = some a → y.toE = some b → b ≠ 0 → x.div y ≠ .nan → (x.div y).toE = some (roundE φ M (a / b)) := by
  have p := pack_toE (φ := φ) hM0
  have r0 := roundE_zero (φ := φ) hM0
  have rt : roundE φ M ⊤ = ⊤ := rfl
  have rb : roundE φ M ⊥ = ⊥ := rfl
  have z (s : Bool) : (Ieee.zero s : Ieee φ M).toE = some 0 := rfl
  rcases x with _ | (_ | _) | _ | ⟨x, _, hx, _⟩ <;> rcases y with _ | (_ | _) | _ | ⟨y, _, hy, _⟩ <;>
    refine ⟨by simp [Ieee.div, pack_ne_nan], by rintro s ⟨⟩ h <;> first | rfl | exact absurd rfl h, ?_⟩ <;> intro a b ha hb h0 hn <;>
    simp only [Ieee.toE, Option.some.injEq, reduceCtorEq] at ha hb <;>
    subst ha hb <;> simp only [Ieee.div, toE_inf, p, z, Ieee.val, Ieee.sgn, Option.some.injEq] at hn ⊢
  all_goals try exact absurd rfl hn
  all_goals try exact absurd rfl h0
  all_goals try (rcases lt_or_gt_of_ne hy with h | h <;>
    simp [h, not_lt.2 h.le, EReal.top_div_of_pos_ne_top, EReal.top_div_of_neg_ne_bot, EReal.bot_div_of_pos_ne_top, EReal.bot_div_of_neg_ne_bot, rt, rb]; done)
  all_goals simp [r0, EReal.coe_div]

/-- **C91**, signs: products and quotients have the sign of their operands, and a sum that is exactly zero is negative only if both
operands are. -/
theorem C91_signs (x y : Ieee φ M) :
    (x.mul y ≠ .nan → (x.mul y).sgn = (x.sgn ^^ y.sgn)) ∧ (x.div y ≠ .nan → (x.div y).sgn = (x.sgn ^^ y.sgn)) ∧
    (∀ a, x.toE = some a → y.toE = some (-a) → x.add y ≠ .nan → x.add y = .zero (x.sgn && y.sgn)) := by
  have sm (s : Bool) (x y : ℝ) (hx : x ≠ 0) (hy : y ≠ 0) :
      (Ieee.pack s (x * y) : Ieee φ M).sgn = (decide (x < 0) ^^ decide (y < 0)) := by
    rw [C91_sign _ _ (mul_ne_zero hx hy)]
    rcases lt_or_gt_of_ne hx with h1 | h1 <;> rcases lt_or_gt_of_ne hy with h2 | h2 <;>
      simp [h1, h2, not_lt.2 h1.le, not_lt.2 h2.le, mul_neg_iff]
  have sd (s : Bool) (x y : ℝ) (hx : x ≠ 0) (hy : y ≠ 0) :
      (Ieee.pack s (x / y) : Ieee φ M).sgn = (decide (x < 0) ^^ decide (y < 0)) := by
    rw [C91_sign _ _ (div_ne_zero hx hy)]
    rcases lt_or_gt_of_ne hx with h1 | h1 <;> rcases lt_or_gt_of_ne hy with h2 | h2 <;>
      simp [h1, h2, not_lt.2 h1.le, not_lt.2 h2.le, div_neg_iff]
  refine ⟨fun h => ?_, fun h => ?_, fun a ha hb hn => ?_⟩
  · rcases x with _ | _ | _ | ⟨x, _, hx, _⟩ <;> rcases y with _ | _ | _ | ⟨y, _, hy, _⟩
    all_goals try exact absurd rfl h
    all_goals try rfl
    · simp [Ieee.mul, Ieee.val, Ieee.pack_zero, Ieee.sgn]
    · simp [Ieee.mul, Ieee.val, Ieee.pack_zero, Ieee.sgn]
    · simp [Ieee.mul, Ieee.val, Ieee.pack_zero, Ieee.sgn]
    · exact sm _ x y hx hy
  · rcases x with _ | _ | _ | ⟨x, _, hx, _⟩ <;> rcases y with _ | _ | _ | ⟨y, _, hy, _⟩
    all_goals try exact absurd rfl h
    all_goals try rfl
    · simp [Ieee.div, Ieee.val, Ieee.pack_zero, Ieee.sgn]
    · exact sd _ x y hx hy
  · rcases x with _ | (_ | _) | _ | ⟨x, _, hx, _⟩ <;> rcases y with _ | (_ | _) | _ | ⟨y, _, hy, _⟩ <;>
      simp only [Ieee.toE, Option.some.injEq, reduceCtorEq] at ha hb
    all_goals subst ha
    all_goals try exact absurd rfl hn
    all_goals try (exfalso; simp at hb; done)
    all_goals try (exfalso; rw [← EReal.coe_neg] at hb; cases hb; done)
    · rfl
    · rw [neg_zero] at hb
      exact absurd (EReal.coe_eq_zero.1 hb) hy
    · have e : (0 : ℝ) = -x := by exact_mod_cast hb
      exact absurd (neg_eq_zero.1 e.symm) hx
    · have e : y = -x := by exact_mod_cast hb
      subst e
      simpa [Ieee.add, Ieee.val, Ieee.pack_zero, Ieee.sgn] using fun h : x < 0 => h.le

/-- One and one make two. -/
example (h : |φ.rnd 2| ≤ M) : ((Ieee.one hM).add (Ieee.one hM) : Ieee φ M).toE = some ((2 : ℝ) : EReal) := by
  have e : (Ieee.one hM).add (Ieee.one hM) = (Ieee.pack false (1 + 1) : Ieee φ M) := rfl
  have := (C91_add (zero_le_one.trans hM) (Ieee.one hM) (Ieee.one hM : Ieee φ M)).2 1 1 rfl rfl (by rw [e]; exact pack_ne_nan _ _)
  rw [this]
  have e2 : (1 : EReal) + 1 = ((2 : ℝ) : EReal) := by rw [show (2 : ℝ) = 1 + 1 by norm_num]; rfl
  rw [e2]
  change some (if |φ.rnd 2| ≤ M then (φ.rnd 2 : EReal) else _) = _
  rw [if_pos h, φ.rnd_of_mem φ.two]

/-- Minus infinity divided by minus zero is plus infinity. -/
example : (Ieee.inf true : Ieee φ 1).div (.zero true) = .inf false :=
  (C91_div zero_le_one (.inf true) (.zero true)).2.1 true rfl (by simp [Ieee.div])

end Stator.Fp
