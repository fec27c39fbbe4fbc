import Verif.Fp.Simplify
import Verif.Fp.Quadratic
import Verif.Fp.Decimal
import Verif.Rt.ParseLike
import Verif.Rt.NumericEval
import Mathlib.Analysis.SpecialFunctions.Pow.Real
import Mathlib.Analysis.SpecialFunctions.Trigonometric.Bounds

/-!
# C87: how accurate a computed number is

An expression with real constants is stored with its constants rounded, numbers are inserted for its variables (with errors of
their own), and `simplify` computes with rounded arithmetic and the functions of the mathematical library. How far the number it
returns can be from the value of the expression.
-/

namespace Stator.Fp

open Stator

variable (φ : Format)

/-! ## Specification -/

/-- `e'` is `e` with every constant replaced by a nearest representable number.
models: stator/symbolic/constants_rt.hpp:28-30, 49-50 (constants are `double`s); stator/symbolic/parser.hpp:494-497 (literals are
read with `operator>>`). -/
def Stored (e : Expr ℝ) (e' : Expr (Fl φ)) : Prop := Like (fun k c => |c.1 - k| ≤ |φ.rnd k - k|) e e'

/-- Reading literals exactly. -/
noncomputable def exactLex : NumLex ℝ := ⟨litVal, fun x => -x⟩

/-- Reading literals as numbers of the format.
models: stator/symbolic/parser.hpp:460, 494-497. -/
noncomputable def flLex : NumLex (Fl φ) := ⟨fun s => ⟨φ.rnd (litVal s), φ.mem _⟩, fun x => ⟨-x.1, φ.neg _ x.2⟩⟩

/-- The functions of the library have the relative error `w`, apart from underflow. -/
structure Accurate (lib : Libm φ) (w : ℝ) : Prop where
  sin : ∀ x, |(lib.sin x).1 - Real.sin x| ≤ w * |Real.sin x| + φ.η
  cos : ∀ x, |(lib.cos x).1 - Real.cos x| ≤ w * |Real.cos x| + φ.η
  exp : ∀ x, |(lib.exp x).1 - Real.exp x| ≤ w * |Real.exp x| + φ.η
  log : ∀ x : Fl φ, 0 < x.1 → |(lib.log x).1 - Real.log x| ≤ w * |Real.log x| + φ.η
  pow : ∀ x y : Fl φ, powDom x.1 y.1 → |(lib.pow x y).1 - (x.1 : ℝ) ^ (y.1 : ℝ)| ≤ w * |(x.1 : ℝ) ^ (y.1 : ℝ)| + φ.η

/-- A result that would be `v` but for an error `p` of the operands, and is computed with the relative error `r`. -/
noncomputable def rounded (r v p : ℝ) : ℝ := p + r * (|v| + p) + φ.η

/-- The error of a function of `x`, if the error of `x` is at most `δ`. `none`: the argument may be outside of the domain. -/
noncomputable def errUn (w : ℝ) (o : UnOp) (x δ : ℝ) : Option ℝ :=
  match o with
  | .neg => some δ
  | .abs => some δ
  | .sin => some (rounded φ w (Real.sin x) δ)
  | .cos => some (rounded φ w (Real.cos x) δ)
  | .exp => some (rounded φ w (Real.exp x) (Real.exp x * (Real.exp δ - 1)))
  | .log => if δ < x then some (rounded φ w (Real.log x) (Real.log (x / (x - δ)))) else none
  | .arbsign => none

open Classical in
/-- The error of an operation on `x` and `y`, if their errors are at most `δ` and `ε`. `none`: the operands may be outside of the
domain, or the power is neither one with a natural number as an exact exponent nor one with a positive base. -/
noncomputable def errBin (w : ℝ) (o : BinOp) (x δ y ε : ℝ) : Option ℝ :=
  match o with
  | .add => some (rounded φ φ.u (x + y) (δ + ε))
  | .sub => some (rounded φ φ.u (x - y) (δ + ε))
  | .mul => some (rounded φ φ.u (x * y) (|x| * ε + |y| * δ + δ * ε))
  | .div => if ε < |y| then some (rounded φ φ.u (x / y) ((|x| * ε + |y| * δ) / (|y| * (|y| - ε)))) else none
  | .pow =>
    if ε = 0 ∧ ∃ n : ℕ, y = n then some (rounded φ w (x ^ y) ((|x| + δ) ^ y - |x| ^ y))
    else if δ < x then
      let l := Real.log (x / (x - δ))
      some (rounded φ w (x ^ y) (x ^ y * (Real.exp (|y| * l + ε * (|Real.log x| + l)) - 1)))
    else none
  | _ => none

/-- The value of an expression and a bound for the error of the number computed for it: `ρ` are the values of the variables and `d`
the errors of the numbers inserted for them. -/
noncomputable def accuracy (w : ℝ) (ρ d : List Char → ℝ) : Expr ℝ → Option (ℝ × ℝ)
  | .const k => some (k, |φ.rnd k - k|)
  | .var n => some (ρ n, d n)
  | .un o a => do
    let (x, δ) ← accuracy w ρ d a
    let v ← unVal o x
    let e ← errUn φ w o x δ
    some (v, e)
  | .bin o l r => do
    let (x, δ) ← accuracy w ρ d l
    let (y, ε) ← accuracy w ρ d r
    let v ← binVal o x y
    let e ← errBin φ w o x δ y ε
    some (v, e)
  | .arr _ => none
  | .dict _ => none

/-! ## Proofs -/

variable {φ}

theorem rounded_spec {r v p v' c : ℝ} (hr : 0 ≤ r) (h1 : |v' - v| ≤ p) (h2 : |c - v'| ≤ r * |v'| + φ.η) :
    |c - v| ≤ rounded φ r v p := by
  unfold rounded
  have h3 : |v'| ≤ |v| + p := by have := abs_sub_abs_le_abs_sub v' v; linarith
  have h4 := mul_le_mul_of_nonneg_left h3 hr
  have h5 := abs_sub_le c v' v
  linarith

theorem log_near {x x' δ : ℝ} (h : |x' - x| ≤ δ) (hx : δ < x) :
    0 < x' ∧ |Real.log x' - Real.log x| ≤ Real.log (x / (x - δ)) := by
  have hδ : 0 ≤ δ := (abs_nonneg _).trans h
  have h0 : 0 < x := lt_of_le_of_lt hδ hx
  have h1 := abs_le.1 h
  have h2 : 0 < x' := by linarith
  have h3 : 0 < x - δ := by linarith
  refine ⟨h2, ?_⟩
  rw [Real.log_div h0.ne' h3.ne', abs_le]
  constructor
  · have := Real.log_le_log h3 (show x - δ ≤ x' by linarith); linarith
  · -- log x' - log x ≤ log x - log (x - δ)
    have h4 : x' * (x - δ) ≤ x * x := by nlinarith
    have := Real.log_le_log (by positivity) h4
    rw [Real.log_mul h2.ne' h3.ne', Real.log_mul h0.ne' h0.ne'] at this
    linarith

theorem exp_near {x x' δ : ℝ} (h : |x' - x| ≤ δ) : |Real.exp x' - Real.exp x| ≤ Real.exp x * (Real.exp δ - 1) := by
  have h1 := abs_le.1 h
  have e : Real.exp x' = Real.exp x * Real.exp (x' - x) := by rw [← Real.exp_add]; ring_nf
  have hx := Real.exp_pos x
  have h2 : Real.exp (x' - x) ≤ Real.exp δ := Real.exp_le_exp.2 h1.2
  have h3 : Real.exp (-δ) ≤ Real.exp (x' - x) := Real.exp_le_exp.2 h1.1
  have h4 : 2 - Real.exp δ ≤ Real.exp (-δ) := by
    rw [Real.exp_neg]
    have hp := Real.exp_pos δ
    rw [← sub_nonneg]
    have : (Real.exp δ)⁻¹ - (2 - Real.exp δ) = (Real.exp δ - 1) ^ 2 / Real.exp δ := by field_simp; ring
    rw [this]; positivity
  rw [e, ← mul_sub_one, abs_mul, abs_of_pos hx]
  refine mul_le_mul_of_nonneg_left (abs_le.2 ⟨?_, ?_⟩) hx.le <;> linarith

theorem mul_near {x x' δ y y' ε : ℝ} (h1 : |x' - x| ≤ δ) (h2 : |y' - y| ≤ ε) :
    |x' * y' - x * y| ≤ |x| * ε + |y| * δ + δ * ε := by
  have hδ : 0 ≤ δ := (abs_nonneg _).trans h1
  have e : x' * y' - x * y = x * (y' - y) + y * (x' - x) + (x' - x) * (y' - y) := by ring
  rw [e]
  refine (abs_add_three _ _ _).trans ?_
  rw [abs_mul, abs_mul, abs_mul]
  have a1 := mul_le_mul_of_nonneg_left h2 (abs_nonneg x)
  have a2 := mul_le_mul_of_nonneg_left h1 (abs_nonneg y)
  have a3 := mul_le_mul h1 h2 (abs_nonneg _) hδ
  linarith

theorem div_near {x x' δ y y' ε : ℝ} (h1 : |x' - x| ≤ δ) (h2 : |y' - y| ≤ ε) (hy : ε < |y|) :
    y' ≠ 0 ∧ |x' / y' - x / y| ≤ (|x| * ε + |y| * δ) / (|y| * (|y| - ε)) := by
  have hε : 0 ≤ ε := (abs_nonneg _).trans h2
  have hδ : 0 ≤ δ := (abs_nonneg _).trans h1
  have hy0 : 0 < |y| := lt_of_le_of_lt hε hy
  have hy1 : |y| - ε ≤ |y'| := by
    have := abs_sub_abs_le_abs_sub y y'; rw [abs_sub_comm] at this; linarith
  have hy2 : 0 < |y| - ε := by linarith
  have hy3 : 0 < |y'| := by linarith
  have n1 : y ≠ 0 := abs_pos.1 hy0
  have n2 : y' ≠ 0 := abs_pos.1 hy3
  refine ⟨n2, ?_⟩
  have e : x' / y' - x / y = ((x' - x) * y - x * (y' - y)) / (y * y') := by field_simp; ring
  rw [e, abs_div, abs_mul y]
  have hn : |(x' - x) * y - x * (y' - y)| ≤ |x| * ε + |y| * δ := by
    refine (abs_sub _ _).trans ?_
    rw [abs_mul, abs_mul]
    have a1 := mul_le_mul_of_nonneg_left h2 (abs_nonneg x)
    have a2 := mul_le_mul_of_nonneg_right h1 (abs_nonneg y)
    linarith
  exact div_le_div₀ (by positivity) hn (by positivity) (mul_le_mul_of_nonneg_left hy1 hy0.le)

theorem pow_near {x x' δ : ℝ} (h : |x' - x| ≤ δ) (n : ℕ) : |x' ^ n - x ^ n| ≤ (|x| + δ) ^ n - |x| ^ n := by
  have hδ : 0 ≤ δ := (abs_nonneg _).trans h
  induction n with
  | zero => simp
  | succ n ih =>
    have e : x' ^ (n + 1) - x ^ (n + 1) = x' * (x' ^ n - x ^ n) + (x' - x) * x ^ n := by ring
    have h1 : |x'| ≤ |x| + δ := by have := abs_sub_abs_le_abs_sub x' x; linarith
    rw [e]
    refine (abs_add_le _ _).trans ?_
    rw [abs_mul, abs_mul, abs_pow]
    have a1 := mul_le_mul h1 ih (abs_nonneg _) (by positivity)
    have a2 := mul_le_mul_of_nonneg_right h (pow_nonneg (abs_nonneg x) n)
    calc _ ≤ (|x| + δ) * ((|x| + δ) ^ n - |x| ^ n) + δ * |x| ^ n := add_le_add a1 a2
      _ = _ := by ring

theorem rpow_near {x x' δ y y' ε : ℝ} (h1 : |x' - x| ≤ δ) (h2 : |y' - y| ≤ ε) (hx : δ < x) :
    0 < x' ∧ |x' ^ y' - x ^ y| ≤ x ^ y * (Real.exp (|y| * Real.log (x / (x - δ)) +
      ε * (|Real.log x| + Real.log (x / (x - δ)))) - 1) := by
  have h0 : 0 < x := lt_of_le_of_lt ((abs_nonneg _).trans h1) hx
  obtain ⟨h3, h4⟩ := log_near h1 hx
  refine ⟨h3, ?_⟩
  rw [Real.rpow_def_of_pos h3, Real.rpow_def_of_pos h0]
  apply exp_near
  set l := Real.log (x / (x - δ))
  have e : Real.log x' * y' - Real.log x * y = y * (Real.log x' - Real.log x) + (y' - y) * Real.log x' := by ring
  rw [e]
  refine (abs_add_le _ _).trans ?_
  rw [abs_mul, abs_mul]
  have h5 : |Real.log x'| ≤ |Real.log x| + l := by
    have := abs_sub_abs_le_abs_sub (Real.log x') (Real.log x); linarith
  have a1 := mul_le_mul_of_nonneg_left h4 (abs_nonneg y)
  have a2 := mul_le_mul h2 h5 (abs_nonneg _) ((abs_nonneg _).trans h2)
  linarith

theorem sin_near {x x' δ : ℝ} (h : |x' - x| ≤ δ) : |Real.sin x' - Real.sin x| ≤ δ :=
  (Real.abs_sin_sub_sin_le _ _).trans h

theorem cos_near {x x' δ : ℝ} (h : |x' - x| ≤ δ) : |Real.cos x' - Real.cos x| ≤ δ :=
  (Real.abs_cos_sub_cos_le _ _).trans h

theorem errUn_spec {lib : Libm φ} {w : ℝ} (hw : 0 ≤ w) (hlib : Accurate φ lib w) {o : UnOp} {x δ v e : ℝ} {c : Fl φ}
    (hx : |c.1 - x| ≤ δ) (hv : unVal o x = some v) (he : errUn φ w o x δ = some e) :
    ∃ r, (flArith φ lib).unVal o c = some r ∧ |r.1 - v| ≤ e := by
  cases o <;> simp only [unVal, errUn, Option.some.injEq] at hv he
  case sin =>
    subst hv he
    exact ⟨_, by simp [Arith.unVal, flArith]; rfl, rounded_spec hw (sin_near hx) (hlib.sin c)⟩
  case cos =>
    subst hv he
    exact ⟨_, by simp [Arith.unVal, flArith]; rfl, rounded_spec hw (cos_near hx) (hlib.cos c)⟩
  case exp =>
    subst hv he
    exact ⟨_, by simp [Arith.unVal, flArith]; rfl, rounded_spec hw (exp_near hx) (hlib.exp c)⟩
  case log =>
    split at he
    · rename_i h
      obtain ⟨h1, h2⟩ := log_near hx h
      simp only [Option.some.injEq] at he
      split at hv
      · simp only [Option.some.injEq] at hv
        subst hv he
        exact ⟨_, by simp [Arith.unVal, flArith, h1]; rfl, rounded_spec hw h2 (hlib.log c h1)⟩
      · simp at hv
    · simp at he
  case abs =>
    subst hv he
    exact ⟨_, by simp [Arith.unVal, flArith]; rfl, (abs_abs_sub_abs_le _ _).trans hx⟩
  case neg =>
    subst hv he
    refine ⟨_, by simp [Arith.unVal, flArith]; rfl, ?_⟩
    simp only [flOps]
    rwa [neg_sub_neg, abs_sub_comm]
  case arbsign => simp at hv

theorem errBin_spec {lib : Libm φ} {w : ℝ} (hw : 0 ≤ w) (hlib : Accurate φ lib w) {o : BinOp} {x δ y ε v e : ℝ} {c c' : Fl φ}
    (hx : |c.1 - x| ≤ δ) (hy : |c'.1 - y| ≤ ε) (hv : binVal o x y = some v) (he : errBin φ w o x δ y ε = some e) :
    ∃ r, (flArith φ lib).binVal o c c' = some r ∧ |r.1 - v| ≤ e := by
  have hu := φ.u_nonneg
  cases o <;> simp only [binVal, errBin, Option.some.injEq] at hv he
  case add =>
    subst hv he
    refine ⟨_, by simp [Arith.binVal, flArith]; rfl, rounded_spec hu ?_ (φ.error _)⟩
    rw [show c.1 + c'.1 - (x + y) = (c.1 - x) + (c'.1 - y) by ring]
    exact (abs_add_le _ _).trans (add_le_add hx hy)
  case sub =>
    subst hv he
    refine ⟨_, by simp [Arith.binVal, flArith]; rfl, rounded_spec hu ?_ (φ.error _)⟩
    rw [show c.1 - c'.1 - (x - y) = (c.1 - x) - (c'.1 - y) by ring]
    exact (abs_sub _ _).trans (add_le_add hx hy)
  case mul =>
    subst hv he
    exact ⟨_, by simp [Arith.binVal, flArith]; rfl, rounded_spec hu (mul_near hx hy) (φ.error _)⟩
  case div =>
    split at he
    · rename_i h
      obtain ⟨h1, h2⟩ := div_near hx hy h
      simp only [Option.some.injEq] at he
      split at hv
      · simp at hv
      · simp only [Option.some.injEq] at hv
        subst hv he
        exact ⟨_, by simp [Arith.binVal, flArith, h1]; rfl, rounded_spec hu h2 (φ.error _)⟩
    · simp at he
  case pow =>
    split at hv
    case isFalse => simp at hv
    simp only [Option.some.injEq] at hv
    subst hv
    split at he
    · rename_i h
      obtain ⟨rfl, n, rfl⟩ := h
      have hc : c'.1 = n := by
        have := abs_nonpos_iff.1 hy
        linarith
      have hd : powDom c.1 c'.1 := by
        rw [hc]
        rcases lt_trichotomy c.1 0 with h | h | h
        · exact .inr (.inr ⟨h, n, by simp⟩)
        · exact .inr (.inl ⟨h, by positivity⟩)
        · exact .inl h
      simp only [Option.some.injEq] at he
      subst he
      refine ⟨_, by simp [Arith.binVal, flArith, hd]; rfl, rounded_spec hw ?_ (hlib.pow c c' hd)⟩
      rw [hc]
      simp only [Real.rpow_natCast]
      exact pow_near hx n
    · split at he
      · rename_i h
        obtain ⟨h1, h2⟩ := rpow_near hx hy h
        have hd : powDom c.1 c'.1 := .inl h1
        simp only [Option.some.injEq] at he
        subst he
        exact ⟨_, by simp [Arith.binVal, flArith, hd]; rfl, rounded_spec hw h2 (hlib.pow c c' hd)⟩
      · simp at he
  all_goals simp at hv

/-- The first component is the value of the expression. -/
theorem accuracy_value {w : ℝ} {ρ d : List Char → ℝ} {e : Expr ℝ} {v δ : ℝ} (h : accuracy φ w ρ d e = some (v, δ)) :
    e.eval ρ = some v := by
  induction e using Expr.ind generalizing v δ with
  | const k => simp [accuracy] at h; simp [Expr.eval, h.1]
  | var n => simp [accuracy] at h; simp [Expr.eval, h.1]
  | un o a ih =>
    simp only [accuracy, bind, Option.bind_eq_some_iff] at h
    obtain ⟨⟨x, δ'⟩, h1, v', h2, e', -, h4⟩ := h
    simp at h4
    simp [Expr.eval, ih h1, h2, h4.1]
  | bin o l r ih1 ih2 =>
    simp only [accuracy, bind, Option.bind_eq_some_iff] at h
    obtain ⟨⟨x, δ'⟩, h1, ⟨y, ε⟩, h2, v', h3, e', -, h4⟩ := h
    simp at h4
    simp [Expr.eval, ih1 h1, ih2 h2, h3, h4.1]
  | arr => simp [accuracy] at h
  | dict => simp [accuracy] at h

theorem machine {lib : Libm φ} {w : ℝ} (hw : 0 ≤ w) (hlib : Accurate φ lib w) {ρ d : List Char → ℝ} {σ : List Char → Fl φ}
    {e : Expr ℝ} {e' : Expr (Fl φ)} (hs : Stored φ e e') (hσ : ∀ n ∈ e.vars, |(σ n).1 - ρ n| ≤ d n) {v δ : ℝ}
    (h : accuracy φ w ρ d e = some (v, δ)) :
    ∃ c, (flArith φ lib).eval σ e' = some c ∧ |c.1 - v| ≤ δ := by
  induction hs generalizing v δ with
  | @const k c hk =>
    simp [accuracy] at h
    exact ⟨_, rfl, by rw [← h.1, ← h.2]; exact hk⟩
  | @var n =>
    simp [accuracy] at h
    exact ⟨_, rfl, by rw [← h.1, ← h.2]; exact hσ n (by simp [Expr.vars])⟩
  | @un o a a' _ ih =>
    simp only [accuracy, bind, Option.bind_eq_some_iff] at h
    obtain ⟨⟨x, δ'⟩, h1, v', h2, e', h3, h4⟩ := h
    simp at h4
    obtain ⟨rfl, rfl⟩ := h4
    obtain ⟨c, g1, g2⟩ := ih (fun n hn => hσ n (by simpa [Expr.vars] using hn)) h1
    obtain ⟨r, g3, g4⟩ := errUn_spec hw hlib g2 h2 h3
    exact ⟨r, by simp [Arith.eval, g1, g3], g4⟩
  | @bin o l l' r r' _ _ ih1 ih2 =>
    simp only [accuracy, bind, Option.bind_eq_some_iff] at h
    obtain ⟨⟨x, δ'⟩, h1, ⟨y, ε⟩, h2, v', h3, e', h4, h5⟩ := h
    simp at h5
    obtain ⟨rfl, rfl⟩ := h5
    obtain ⟨c, g1, g2⟩ := ih1 (fun n hn => hσ n (by simp [Expr.vars, hn])) h1
    obtain ⟨c', g3, g4⟩ := ih2 (fun n hn => hσ n (by simp [Expr.vars, hn])) h2
    obtain ⟨r, g5, g6⟩ := errBin_spec hw hlib g2 g4 h3 h4
    exact ⟨r, by simp [Arith.eval, g1, g3, g5], g6⟩
  | arr => simp [accuracy] at h
  | dict => simp [accuracy] at h

theorem like_shape {K K' : Type} {R : K → K' → Prop} {e : Expr K} {e' : Expr K'} (h : Like R e e') (hs : e.arith = true) :
    e'.vars = e.vars ∧ e'.height = e.height := by
  induction h with
  | const => exact ⟨rfl, rfl⟩
  | var => exact ⟨rfl, rfl⟩
  | un _ ih =>
    simp only [Expr.arith, Bool.and_eq_true] at hs
    have := ih hs.2
    simp [Expr.vars, Expr.height, this]
  | bin _ _ ih1 ih2 =>
    simp only [Expr.arith, Bool.and_eq_true] at hs
    have h1 := ih1 hs.1.2
    have h2 := ih2 hs.2
    simp [Expr.vars, Expr.height, h1, h2]
  | arr => simp [Expr.arith] at hs
  | dict => simp [Expr.arith] at hs

theorem stored_neg {k : ℝ} {c : Fl φ} (h : |c.1 - k| ≤ |φ.rnd k - k|) : |-c.1 - -k| ≤ |φ.rnd (-k) - -k| := by
  rw [neg_sub_neg, abs_sub_comm]
  refine h.trans ((φ.nearest k (-φ.rnd (-k)) (φ.neg _ (φ.mem _))).trans (le_of_eq ?_))
  rw [show -φ.rnd (-k) - k = -(φ.rnd (-k) - -k) by ring, abs_neg]

/-- **C87**: if the bound exists for an expression, inserting numbers for all of its variables and simplifying gives a number, and
that number is at most the bound away from the value of the expression. -/
theorem C87_accuracy (φ : Format) (lib : Libm φ) (w : ℝ) (hw : 0 ≤ w) (hlib : Accurate φ lib w) (e : Expr ℝ) (e' : Expr (Fl φ))
    (hs : Stored φ e e') (ρ d : List Char → ℝ) (σ : List Char → Fl φ) (hσ : ∀ n ∈ e.vars, |(σ n).1 - ρ n| ≤ d n) (v δ : ℝ)
    (h : accuracy φ w ρ d e = some (v, δ)) (xs : List (List Char)) (hx : ∀ n ∈ e.vars, n ∈ xs) :
    e.eval ρ = some v ∧ ∃ c : Fl φ, |c.1 - v| ≤ δ ∧
      ∀ n, e.height ≤ n → (open Classical in simp (flOps φ lib) n (subDict e' (numDict σ xs))) = .ok (.const c) := by
  classical
  obtain ⟨c, h1, h2⟩ := machine hw hlib hs hσ h
  have hv := accuracy_value h
  obtain ⟨g1, g2⟩ := like_shape hs (eval_arith ρ e hv)
  exact ⟨hv, c, h2, fun n hn =>
    C67_insert (flArith φ lib) σ e' c xs h1 (by rw [g1]; exact hx) n (by rw [g2]; exact hn)⟩

/-- **C87**, from the text: let `e` be the expression a text means, with the decimal numbers in it taken exactly. Reading the text,
inserting numbers for the variables and simplifying gives a number within the bound for `e`. -/
theorem C87_text (φ : Format) (lib : Libm φ) (w : ℝ) (hw : 0 ≤ w) (hlib : Accurate φ lib w) (s : List Char) (e : Expr ℝ)
    (hs : parse exactLex s = .ok e) (ρ d : List Char → ℝ) (σ : List Char → Fl φ) (hσ : ∀ n ∈ e.vars, |(σ n).1 - ρ n| ≤ d n)
    (v δ : ℝ) (h : accuracy φ w ρ d e = some (v, δ)) (xs : List (List Char)) (hx : ∀ n ∈ e.vars, n ∈ xs) :
    e.eval ρ = some v ∧ ∃ e' : Expr (Fl φ), parse (flLex φ) s = .ok e' ∧ ∃ c : Fl φ, |c.1 - v| ≤ δ ∧
      ∀ n, e.height ≤ n → (open Classical in simp (flOps φ lib) n (subDict e' (numDict σ xs))) = .ok (.const c) := by
  obtain ⟨e', h1, h2⟩ := parse_like (L := exactLex) (L' := flLex φ) (R := fun k (c : Fl φ) => |c.1 - k| ≤ |φ.rnd k - k|)
    (fun s => le_rfl) (fun k c hk => stored_neg hk) hs
  obtain ⟨h3, h4⟩ := C87_accuracy φ lib w hw hlib e e' h2 ρ d σ hσ v δ h xs hx
  exact ⟨h3, e', h1, h4⟩

/-! ## Sums, differences and products -/

/-- Numbers, variables, `+`, `-`, `*`, `/`, negation and absolute value. -/
def fourOps : Expr ℝ → Bool
  | .const _ => true
  | .var _ => true
  | .un o a => (o == .neg || o == .abs) && fourOps a
  | .bin o l r => (o == .add || o == .sub || o == .mul || o == .div) && fourOps l && fourOps r
  | _ => false

/-- Every constant, every value inserted and the value of every part of the expression is representable. -/
def Representable (φ : Format) (ρ : List Char → ℝ) : Expr ℝ → Prop
  | .un o a => Representable φ ρ a ∧ ∃ v ∈ φ.F, (Expr.un o a).eval ρ = some v
  | .bin o l r => Representable φ ρ l ∧ Representable φ ρ r ∧ ∃ v ∈ φ.F, (Expr.bin o l r).eval ρ = some v
  | e => ∃ v ∈ φ.F, e.eval ρ = some v

/-- **C87**: if the values of all parts of an expression with the four operations are representable, the number computed is exactly
the value. -/
theorem C87_exact (φ : Format) (lib : Libm φ) (e : Expr ℝ) (he : fourOps e = true) (e' : Expr (Fl φ)) (hs : Stored φ e e')
    (ρ : List Char → ℝ) (σ : List Char → Fl φ) (hσ : ∀ n ∈ e.vars, (σ n).1 = ρ n) (h : Representable φ ρ e)
    (xs : List (List Char)) (hx : ∀ n ∈ e.vars, n ∈ xs) :
    ∃ v, ∃ hv : v ∈ φ.F, e.eval ρ = some v ∧ ∀ n, e.height ≤ n →
      (open Classical in simp (flOps φ lib) n (subDict e' (numDict σ xs))) = .ok (.const ⟨v, hv⟩) := by
  classical
  have key : ∃ v, ∃ hv : v ∈ φ.F, e.eval ρ = some v ∧ (flArith φ lib).eval σ e' = some ⟨v, hv⟩ := by
    clear hx
    induction hs with
    | @const k c hk =>
      obtain ⟨v, h1, h2⟩ := h
      simp only [Expr.eval, Option.some.injEq] at h2
      subst h2
      refine ⟨k, h1, rfl, congrArg some (Subtype.ext ?_)⟩
      rw [φ.rnd_of_mem h1, sub_self, abs_zero] at hk
      have := abs_nonpos_iff.1 hk
      linarith
    | @var n =>
      obtain ⟨v, h1, h2⟩ := h
      simp only [Expr.eval, Option.some.injEq] at h2
      subst h2
      exact ⟨_, h1, rfl, congrArg some (Subtype.ext (hσ n (by simp [Expr.vars])))⟩
    | @un o a a' _ ih =>
      simp only [fourOps, Bool.and_eq_true, Bool.or_eq_true, beq_iff_eq] at he
      obtain ⟨h1, v, h2, h3⟩ := h
      obtain ⟨x, g1, g2, g3⟩ := ih he.2 (fun n hn => hσ n (by simpa [Expr.vars] using hn)) h1
      refine ⟨v, h2, h3, ?_⟩
      simp only [Expr.eval, g2, Option.bind_some] at h3
      simp only [Arith.eval, g3, Option.bind_some]
      rcases he.1 with rfl | rfl
      · simp only [unVal, Option.some.injEq] at h3
        simp [Arith.unVal, flArith, flOps, h3]
      · simp only [unVal, Option.some.injEq] at h3
        simp [Arith.unVal, flArith, flOps, h3]
    | @bin o l l' r r' _ _ ih1 ih2 =>
      simp only [fourOps, Bool.and_eq_true, Bool.or_eq_true, beq_iff_eq] at he
      obtain ⟨h1, h1', v, h2, h3⟩ := h
      obtain ⟨x, g1, g2, g3⟩ := ih1 he.1.2 (fun n hn => hσ n (by simp [Expr.vars, hn])) h1
      obtain ⟨y, k1, k2, k3⟩ := ih2 he.2 (fun n hn => hσ n (by simp [Expr.vars, hn])) h1'
      refine ⟨v, h2, h3, ?_⟩
      simp only [Expr.eval, g2, k2, Option.bind_some] at h3
      simp only [Arith.eval, g3, k3, Option.bind_some]
      have hr := φ.rnd_of_mem h2
      rcases he.1.1 with ((rfl | rfl) | rfl) | rfl
      · simp only [binVal, Option.some.injEq] at h3
        simp [Arith.binVal, flArith, flOps, h3, hr]
      · simp only [binVal, Option.some.injEq] at h3
        simp [Arith.binVal, flArith, flOps, h3, hr]
      · simp only [binVal, Option.some.injEq] at h3
        simp [Arith.binVal, flArith, flOps, h3, hr]
      · simp only [binVal] at h3
        split at h3
        · simp at h3
        · rename_i hy
          simp only [Option.some.injEq] at h3
          simp [Arith.binVal, flArith, flOps, hy, h3, hr]
    | arr => simp [fourOps] at he
    | dict => simp [fourOps] at he
  obtain ⟨v, hv, h1, h2⟩ := key
  obtain ⟨h3, h4⟩ := like_shape hs (eval_arith ρ e h1)
  exact ⟨v, hv, h1, fun n hn =>
    C67_insert (flArith φ lib) σ e' ⟨v, hv⟩ xs h2 (by rw [h3]; exact hx) n (by rw [h4]; exact hn)⟩

/-- All constants, variables and parts are integers of absolute value at most `M`. -/
def Integers (M : ℝ) (ρ : List Char → ℝ) : Expr ℝ → Prop
  | .un o a => Integers M ρ a ∧ ∃ k : ℤ, |(k : ℝ)| ≤ M ∧ (Expr.un o a).eval ρ = some (k : ℝ)
  | .bin o l r => Integers M ρ l ∧ Integers M ρ r ∧ ∃ k : ℤ, |(k : ℝ)| ≤ M ∧ (Expr.bin o l r).eval ρ = some (k : ℝ)
  | e => ∃ k : ℤ, |(k : ℝ)| ≤ M ∧ e.eval ρ = some (k : ℝ)

theorem binary64_int (k : ℤ) (h : |(k : ℝ)| ≤ 2 ^ 53) : (k : ℝ) ∈ binary64.F := by
  have h1 : |k| ≤ 2 ^ 53 := by exact_mod_cast h
  have := binF_of_le (p := 53) (by norm_num) (emin := -1074) (m := k) (e := 0) (by norm_num) h1
  rw [zpow_zero, mul_one] at this
  exact this

theorem Integers.representable {ρ : List Char → ℝ} {e : Expr ℝ} (h : Integers (2 ^ 53) ρ e) : Representable binary64 ρ e := by
  induction e using Expr.ind with
  | un o a ih =>
    obtain ⟨h1, k, h2, h3⟩ := h
    exact ⟨ih h1, k, binary64_int k h2, h3⟩
  | bin o l r ih1 ih2 =>
    obtain ⟨h1, h1', k, h2, h3⟩ := h
    exact ⟨ih1 h1, ih2 h1', k, binary64_int k h2, h3⟩
  | _ =>
    obtain ⟨k, h2, h3⟩ := h
    exact ⟨k, binary64_int k h2, h3⟩

/-- **C87**: integer arithmetic in `double` is exact up to 2⁵³ (divisions included, where the quotient is an integer). -/
theorem C87_integers (lib : Libm binary64) (e : Expr ℝ) (he : fourOps e = true) (e' : Expr (Fl binary64))
    (hs : Stored binary64 e e') (ρ : List Char → ℝ) (σ : List Char → Fl binary64) (hσ : ∀ n ∈ e.vars, (σ n).1 = ρ n)
    (h : Integers (2 ^ 53) ρ e) (xs : List (List Char)) (hx : ∀ n ∈ e.vars, n ∈ xs) :
    ∃ v, ∃ hv : v ∈ binary64.F, e.eval ρ = some v ∧ ∀ n, e.height ≤ n →
      (open Classical in simp (flOps binary64 lib) n (subDict e' (numDict σ xs))) = .ok (.const ⟨v, hv⟩) :=
  C87_exact binary64 lib e he e' hs ρ σ hσ h.representable xs hx

/-- Sums, differences, products and negations. -/
def ringOps : Expr ℝ → Bool
  | .const _ => true
  | .var _ => true
  | .un o a => o == .neg && ringOps a
  | .bin o l r => (o == .add || o == .sub || o == .mul) && ringOps l && ringOps r
  | _ => false

/-- The number of roundings a value goes through: one for a constant and for each operation; sums and differences go through those
of the worse operand, products through those of both. -/
def roundings : Expr ℝ → ℕ
  | .const _ => 1
  | .un _ a => roundings a
  | .bin .mul l r => roundings l + roundings r + 1
  | .bin _ l r => max (roundings l) (roundings r) + 1
  | _ => 0

/-- The value with all minus signs removed. -/
def magnitude (ρ : List Char → ℝ) : Expr ℝ → ℝ
  | .const k => |k|
  | .var n => |ρ n|
  | .un _ a => magnitude ρ a
  | .bin .mul l r => magnitude ρ l * magnitude ρ r
  | .bin _ l r => magnitude ρ l + magnitude ρ r
  | _ => 0

/-- No constant and no product underflows: no rounding has an error larger than `u` times the result. (Sums and differences cannot
underflow.) -/
def NoUnderflow (φ : Format) (lib : Libm φ) (σ : List Char → Fl φ) : Expr ℝ → Expr (Fl φ) → Prop
  | .const k, .const c => |c.1 - k| ≤ φ.u * |k|
  | .un _ a, .un _ a' => NoUnderflow φ lib σ a a'
  | .bin o l r, .bin _ l' r' => NoUnderflow φ lib σ l l' ∧ NoUnderflow φ lib σ r r' ∧
      (o = .mul → ∀ x y, (flArith φ lib).eval σ l' = some x → (flArith φ lib).eval σ r' = some y →
        |φ.rnd (x.1 * y.1) - x.1 * y.1| ≤ φ.u * |x.1 * y.1|)
  | _, _ => True

theorem magnitude_nonneg (ρ : List Char → ℝ) (e : Expr ℝ) : 0 ≤ magnitude ρ e := by
  induction e using Expr.ind with
  | bin o l r ih1 ih2 => cases o <;> simp only [magnitude] <;> positivity
  | un o a ih => simpa [magnitude] using ih
  | _ => simp [magnitude]

theorem magnitude_eval {ρ : List Char → ℝ} {e : Expr ℝ} (he : ringOps e = true) :
    ∃ v, e.eval ρ = some v ∧ |v| ≤ magnitude ρ e := by
  induction e using Expr.ind with
  | const k => exact ⟨k, rfl, le_rfl⟩
  | var n => exact ⟨_, rfl, le_rfl⟩
  | un o a ih =>
    simp only [ringOps, Bool.and_eq_true, beq_iff_eq] at he
    obtain ⟨v, h1, h2⟩ := ih he.2
    refine ⟨-v, by simp [Expr.eval, h1, he.1, unVal], ?_⟩
    rwa [abs_neg]
  | bin o l r ih1 ih2 =>
    simp only [ringOps, Bool.and_eq_true, Bool.or_eq_true, beq_iff_eq] at he
    obtain ⟨x, h1, h2⟩ := ih1 he.1.2
    obtain ⟨y, h3, h4⟩ := ih2 he.2
    rcases he.1.1 with (rfl | rfl) | rfl
    · exact ⟨x + y, by simp [Expr.eval, h1, h3, binVal], (abs_add_le _ _).trans (add_le_add h2 h4)⟩
    · exact ⟨x - y, by simp [Expr.eval, h1, h3, binVal], (abs_sub _ _).trans (add_le_add h2 h4)⟩
    · refine ⟨x * y, by simp [Expr.eval, h1, h3, binVal], ?_⟩
      rw [abs_mul]
      exact mul_le_mul h2 h4 (abs_nonneg _) (magnitude_nonneg _ _)
  | arr => simp [ringOps] at he
  | dict => simp [ringOps] at he

/-- What rounding adds to a bound of the form `((1+u)^k - 1) * M`. -/
theorem grow {u A M z v r : ℝ} (hu : 0 ≤ u) (h1 : |z - v| ≤ (A - 1) * M) (h2 : |v| ≤ M) (h3 : |r - z| ≤ u * |z|) :
    |r - v| ≤ (A * (1 + u) - 1) * M := by
  have h4 := abs_sub_le r z v
  have h5 : |z| ≤ |v| + (A - 1) * M := by have := abs_sub_abs_le_abs_sub z v; linarith
  have h6 := mul_le_mul_of_nonneg_left (h5.trans (add_le_add_left h2 _)) hu
  linarith [show (A * (1 + u) - 1) * M = (A - 1) * M + u * (M + (A - 1) * M) by ring]

theorem sum_close {u : ℝ} (hu : 0 ≤ u) {a b : ℕ} {X Y x x' y y' : ℝ} (hX : 0 ≤ X) (hY : 0 ≤ Y)
    (h1 : |x' - x| ≤ ((1 + u) ^ a - 1) * X) (h2 : |y' - y| ≤ ((1 + u) ^ b - 1) * Y) :
    |x' - x| + |y' - y| ≤ ((1 + u) ^ max a b - 1) * (X + Y) := by
  have k1 : (1 + u) ^ a ≤ (1 + u) ^ max a b := pow_le_pow_right₀ (by linarith) (le_max_left _ _)
  have k2 : (1 + u) ^ b ≤ (1 + u) ^ max a b := pow_le_pow_right₀ (by linarith) (le_max_right _ _)
  have k3 := mul_le_mul_of_nonneg_right (sub_le_sub_right k1 1) hX
  have k4 := mul_le_mul_of_nonneg_right (sub_le_sub_right k2 1) hY
  linarith [mul_add ((1 + u) ^ max a b - 1) X Y]

theorem product_close {A B X Y x x' y y' : ℝ} (hX : |x| ≤ X) (hY : |y| ≤ Y)
    (h1 : |x' - x| ≤ (A - 1) * X) (h2 : |y' - y| ≤ (B - 1) * Y) : |x' * y' - x * y| ≤ (A * B - 1) * (X * Y) := by
  refine (mul_near h1 h2).trans ?_
  have k1 : |x| * ((B - 1) * Y) ≤ X * ((B - 1) * Y) := mul_le_mul_of_nonneg_right hX ((abs_nonneg _).trans h2)
  have k2 : |y| * ((A - 1) * X) ≤ Y * ((A - 1) * X) := mul_le_mul_of_nonneg_right hY ((abs_nonneg _).trans h1)
  calc _ ≤ X * ((B - 1) * Y) + Y * ((A - 1) * X) + (A - 1) * X * ((B - 1) * Y) := by linarith
    _ = _ := by ring

theorem relative_key (φ : Format) (sums : ∀ a ∈ φ.F, ∀ b ∈ φ.F, |φ.rnd (a + b) - (a + b)| ≤ φ.u * |a + b|) (lib : Libm φ)
    (e : Expr ℝ) (hr : ringOps e = true) (e' : Expr (Fl φ)) (hs : Stored φ e e') (ρ : List Char → ℝ) (σ : List Char → Fl φ)
    (hσ : ∀ n ∈ e.vars, (σ n).1 = ρ n) (hn : NoUnderflow φ lib σ e e') :
    ∃ v, e.eval ρ = some v ∧ ∃ c : Fl φ, (flArith φ lib).eval σ e' = some c ∧
      |c.1 - v| ≤ ((1 + φ.u) ^ roundings e - 1) * magnitude ρ e := by
  have hu := φ.u_nonneg
  induction hs with
  | @const k c hk =>
    refine ⟨k, rfl, _, rfl, ?_⟩
    have : (1 + φ.u) ^ roundings (.const k) - 1 = φ.u := by simp [roundings]
    rw [this]
    exact hn
  | @var n =>
    refine ⟨ρ n, rfl, _, rfl, ?_⟩
    rw [hσ n (by simp [Expr.vars])]
    simp [roundings]
  | @un o a a' _ ih =>
    simp only [ringOps, Bool.and_eq_true, beq_iff_eq] at hr
    obtain ⟨v, g1, c, g2, g3⟩ := ih hr.2 (fun n hn => hσ n (by simpa [Expr.vars] using hn)) hn
    refine ⟨-v, by simp [Expr.eval, g1, hr.1, unVal], ⟨-c.1, φ.neg _ c.2⟩, ?_, ?_⟩
    · simp only [Arith.eval, g2, hr.1, Option.bind_some]
      simp [Arith.unVal, flArith, flOps]
    · rw [neg_sub_neg, abs_sub_comm]
      exact g3
  | @bin o l l' r r' _ _ ih1 ih2 =>
    simp only [ringOps, Bool.and_eq_true, Bool.or_eq_true, beq_iff_eq] at hr
    obtain ⟨n1, n2, n3⟩ := hn
    obtain ⟨x, g1, c, g2, g3⟩ := ih1 hr.1.2 (fun n hn => hσ n (by simp [Expr.vars, hn])) n1
    obtain ⟨y, k1, c', k2, k3⟩ := ih2 hr.2 (fun n hn => hσ n (by simp [Expr.vars, hn])) n2
    have hX := magnitude_nonneg ρ l
    have hY := magnitude_nonneg ρ r
    have hxX : |x| ≤ magnitude ρ l := by
      obtain ⟨v, h1, h2⟩ := magnitude_eval (ρ := ρ) hr.1.2
      rw [g1] at h1; simp at h1; rwa [h1]
    have hyY : |y| ≤ magnitude ρ r := by
      obtain ⟨v, h1, h2⟩ := magnitude_eval (ρ := ρ) hr.2
      rw [k1] at h1; simp at h1; rwa [h1]
    have hsum := sum_close hu hX hY g3 k3
    rcases hr.1.1 with (rfl | rfl) | rfl
    · refine ⟨x + y, by simp [Expr.eval, g1, k1, binVal], ⟨φ.rnd (c.1 + c'.1), φ.mem _⟩, ?_, ?_⟩
      · simp only [Arith.eval, g2, k2, Option.bind_some]
        simp [Arith.binVal, flArith, flOps]
      · have h1 : |c.1 + c'.1 - (x + y)| ≤ ((1 + φ.u) ^ max (roundings l) (roundings r) - 1) *
            (magnitude ρ l + magnitude ρ r) := by
          rw [show c.1 + c'.1 - (x + y) = (c.1 - x) + (c'.1 - y) by ring]
          exact (abs_add_le _ _).trans hsum
        have := grow hu h1 ((abs_add_le _ _).trans (add_le_add hxX hyY)) (sums _ c.2 _ c'.2)
        rw [← pow_succ] at this
        exact this
    · refine ⟨x - y, by simp [Expr.eval, g1, k1, binVal], ⟨φ.rnd (c.1 - c'.1), φ.mem _⟩, ?_, ?_⟩
      · simp only [Arith.eval, g2, k2, Option.bind_some]
        simp [Arith.binVal, flArith, flOps]
      · have hd := sums _ c.2 _ (φ.neg _ c'.2)
        rw [← sub_eq_add_neg] at hd
        have h1 : |c.1 - c'.1 - (x - y)| ≤ ((1 + φ.u) ^ max (roundings l) (roundings r) - 1) *
            (magnitude ρ l + magnitude ρ r) := by
          rw [show c.1 - c'.1 - (x - y) = (c.1 - x) - (c'.1 - y) by ring]
          exact (abs_sub _ _).trans hsum
        have := grow hu h1 ((abs_sub _ _).trans (add_le_add hxX hyY)) hd
        rw [← pow_succ] at this
        exact this
    · refine ⟨x * y, by simp [Expr.eval, g1, k1, binVal], ⟨φ.rnd (c.1 * c'.1), φ.mem _⟩, ?_, ?_⟩
      · simp only [Arith.eval, g2, k2, Option.bind_some]
        simp [Arith.binVal, flArith, flOps]
      · have h1 := product_close hxX hyY g3 k3
        have := grow hu h1 (by rw [abs_mul]; exact mul_le_mul hxX hyY (abs_nonneg _) hX) (n3 rfl c c' g2 k2)
        rw [← pow_add, ← pow_succ] at this
        exact this
  | arr => simp [ringOps] at hr
  | dict => simp [ringOps] at hr

section

variable {p : ℕ} {emin : ℤ} {hp : 0 < p} {he : emin ≤ 0}

/-- **C87**: without underflow, the number computed for an expression of sums, differences and products of exactly inserted numbers
has an error of at most `(1+u)^k - 1` times the magnitude of the expression, with `k` the number of roundings in a row. -/
theorem C87_relative (lib : Libm (bin p emin hp he)) (e : Expr ℝ) (hr : ringOps e = true) (e' : Expr (Fl (bin p emin hp he)))
    (hs : Stored (bin p emin hp he) e e') (ρ : List Char → ℝ) (σ : List Char → Fl (bin p emin hp he))
    (hσ : ∀ n ∈ e.vars, (σ n).1 = ρ n) (hn : NoUnderflow (bin p emin hp he) lib σ e e')
    (xs : List (List Char)) (hx : ∀ n ∈ e.vars, n ∈ xs) :
    ∃ v, e.eval ρ = some v ∧ ∃ c : Fl (bin p emin hp he),
      |c.1 - v| ≤ ((1 + (bin p emin hp he).u) ^ roundings e - 1) * magnitude ρ e ∧
      ∀ n, e.height ≤ n →
        (open Classical in simp (flOps (bin p emin hp he) lib) n (subDict e' (numDict σ xs))) = .ok (.const c) := by
  classical
  obtain ⟨v, h1, c, h2, h3⟩ := relative_key (bin p emin hp he) (by
    intro a ha b hb
    obtain ⟨δ, d1, d2⟩ := bin_sum (hp := hp) (he := he) ha hb
    rw [d2, show (a + b) * (1 + δ) - (a + b) = δ * (a + b) by ring, abs_mul]
    exact mul_le_mul_of_nonneg_right d1 (abs_nonneg _)) lib e hr e' hs ρ σ hσ hn
  obtain ⟨h4, h5⟩ := like_shape hs (eval_arith ρ e h1)
  exact ⟨v, h1, c, h3, fun n hn =>
    C67_insert (flArith _ lib) σ e' c xs h2 (by rw [h4]; exact hx) n (by rw [h5]; exact hn)⟩

end

/-! ## Concrete cases -/

/-- A correctly rounded library. -/
noncomputable def nearestLibm (φ : Format) : Libm φ where
  sin x := ⟨φ.rnd (Real.sin x), φ.mem _⟩
  cos x := ⟨φ.rnd (Real.cos x), φ.mem _⟩
  exp x := ⟨φ.rnd (Real.exp x), φ.mem _⟩
  log x := ⟨φ.rnd (Real.log x), φ.mem _⟩
  pow x y := ⟨φ.rnd ((x.1 : ℝ) ^ (y.1 : ℝ)), φ.mem _⟩
  pow_one x := Subtype.ext (by simp [φ.rnd_of_mem x.2])
  one_pow x := Subtype.ext (by simp [φ.rnd_of_mem φ.one])

theorem nearest_accurate (φ : Format) : Accurate φ (nearestLibm φ) φ.u :=
  ⟨fun _ => φ.error _, fun _ => φ.error _, fun _ => φ.error _, fun _ _ => φ.error _, fun _ _ _ => φ.error _⟩

/-- `exp(x)/2` at 1, known up to 1/8: reading the text, inserting and simplifying gives a number near `e/2`. -/
example (σ : List Char → Fl binary64) (hσ : |(σ ['x']).1 - 1| ≤ 1 / 8) :
    ∃ e' : Expr (Fl binary64), parse (flLex binary64) ['e', 'x', 'p', '(', 'x', ')', '/', '2'] = .ok e' ∧
      ∃ c : Fl binary64, (open Classical in simp (flOps binary64 (nearestLibm binary64)) 3 (subDict e' (numDict σ [['x']]))) =
        .ok (.const c) := by
  have hp : parse exactLex ['e', 'x', 'p', '(', 'x', ')', '/', '2'] =
      .ok (.bin .div (.un .exp (.var ['x'])) (.const (litVal ['2']))) := by
    rw [parse_eq_fuel]; rfl
  have h2 : litVal ['2'] = 2 := by
    rw [litVal_int (by simp [Digits]; decide), show digitsVal ['2'] = 2 from rfl]; norm_num
  rw [h2] at hp
  have hr : binary64.rnd 2 = 2 := binary64.rnd_of_mem binary64.two
  obtain ⟨-, e', h1, c, -, h3⟩ := C87_text binary64 (nearestLibm _) _ binary64.u_nonneg (nearest_accurate _) _ _ hp
    (fun _ => 1) (fun _ => 1 / 8) σ (by simpa [Expr.vars] using hσ) _ _
    (by simp [accuracy, unVal, errUn, binVal, errBin, hr]; exact ⟨rfl, rfl⟩) [['x']] (by simp [Expr.vars])
  exact ⟨e', h1, c, h3 3 (by simp [Expr.height])⟩

/-- `(x + 1)*x` at 3 is exactly 12. -/
example (σ : List Char → Fl binary64) (hσ : (σ ['x']).1 = 3) (lib : Libm binary64) :
    ∃ c : Fl binary64, c.1 = 12 ∧ (open Classical in simp (flOps binary64 lib) 3 (subDict
      (.bin .mul (.bin .add (.var ['x']) (.const ⟨1, binary64.one⟩)) (.var ['x'])) (numDict σ [['x']]))) = .ok (.const c) := by
  have h3 : |(3 : ℝ)| ≤ 2 ^ 53 := by norm_num
  obtain ⟨v, hv, h1, h2⟩ := C87_integers lib (.bin .mul (.bin .add (.var ['x']) (.const 1)) (.var ['x'])) rfl
    (.bin .mul (.bin .add (.var ['x']) (.const ⟨1, binary64.one⟩)) (.var ['x']))
    (.bin (.bin .var (.const (by simp))) .var) (fun _ => 3) σ
    (by simpa [Expr.vars] using hσ)
    ⟨⟨⟨3, by exact_mod_cast h3, by simp [Expr.eval]⟩, ⟨1, by norm_num, by simp [Expr.eval]⟩, 4, by norm_num,
      by norm_num [Expr.eval, binVal]⟩, ⟨3, by exact_mod_cast h3, by simp [Expr.eval]⟩, 12, by norm_num,
      by norm_num [Expr.eval, binVal]⟩ [['x']] (by simp [Expr.vars])
  have : v = 12 := by norm_num [Expr.eval, binVal] at h1; exact h1.symm
  exact ⟨⟨v, hv⟩, this, h2 3 (by simp [Expr.height])⟩

/-- `x - y` at 3 and 2: one rounding, magnitude 5. -/
example (σ : List Char → Fl binary64) (hx : (σ ['x']).1 = 3) (hy : (σ ['y']).1 = 2) (lib : Libm binary64) :
    ∃ c : Fl binary64, |c.1 - 1| ≤ binary64.u * 5 ∧ (open Classical in simp (flOps binary64 lib) 2 (subDict
      (.bin .sub (.var ['x']) (.var ['y'])) (numDict σ [['x'], ['y']]))) = .ok (.const c) := by
  obtain ⟨v, h1, c, h2, h3⟩ := C87_relative (p := 53) (emin := -1074) (hp := by norm_num) (he := by norm_num) lib
    (.bin .sub (.var ['x']) (.var ['y'])) rfl (.bin .sub (.var ['x']) (.var ['y'])) (.bin .var .var)
    (fun n => if n = ['x'] then 3 else 2) σ (by simp [Expr.vars]; exact ⟨hx, hy⟩)
    ⟨trivial, trivial, by simp⟩ [['x'], ['y']] (by simp [Expr.vars])
  have hc : ('y' = 'x') = False := by simp
  have : v = 1 := by norm_num [Expr.eval, binVal, hc] at h1; exact h1.symm
  subst this
  refine ⟨c, ?_, h3 2 (by simp [Expr.height])⟩
  norm_num [roundings, magnitude, hc] at h2
  exact h2

end Stator.Fp
