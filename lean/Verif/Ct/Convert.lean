import Verif.Ct.CalculusProps
import Verif.Rt.Parens
import Verif.Rt.DerivProps
import Verif.Rt.SubstProps
import Verif.Fp.Simplify
import Mathlib.Analysis.Real.Pi.Bounds

/-!
# C71: compile-time expressions as runtime expressions and as text

`Expr(f)` of a compile-time expression `f`, and the text of `f` given to the parser.
-/

namespace Stator.Ct

/-- `Expr(f)` for a compile-time expression: `conv` is `double(Num) / Denom`, `dbl` the given `double`.
models: runtime.hpp:472-484. -/
def E.toExpr {K : Type} (conv : C → K) (dbl : Option ℝ → K) : E → Expr K
  | .c a => .const (conv a)
  | .num v => .const (dbl v)
  | .var n => .var n
  | .un o a => .un o (a.toExpr conv dbl)
  | .bin o l r => .bin o.rt (l.toExpr conv dbl) (r.toExpr conv dbl)

/-- The conversion in exact arithmetic (a number that is NaN or infinite, excluded in the theorems, becomes 0). -/
noncomputable def E.toExprR : E → Expr ℝ := E.toExpr C.val fun v => v.getD 0

/-- All numbers in the expression are finite. -/
def E.finite : E → Prop
  | .c _ => True
  | .num v => v ≠ none
  | .var _ => True
  | .un _ a => a.finite
  | .bin _ l r => l.finite ∧ r.finite

theorem Op.rt_inj {o o' : Op} (h : o.rt = o'.rt) : o = o' := by cases o <;> cases o' <;> first | rfl | cases h

/-- **C71**: the runtime expression has the value of the compile-time expression. -/
theorem C71_value {f : E} (hp : f.plain) (hf : f.finite) (ρ : List Char → ℝ) (v : ℝ) :
    f.toExprR.eval ρ = some v ↔ v ∈ f.vals ρ := by
  unfold E.toExprR
  induction f generalizing v with
  | c a => simp [E.toExpr, Expr.eval, E.vals, C.val, eq_comm]
  | num x =>
    obtain ⟨x, rfl⟩ := Option.ne_none_iff_exists'.1 hf
    simp [E.toExpr, Expr.eval]
  | var n => simp [E.toExpr, Expr.eval, eq_comm]
  | un o a ih =>
    rw [E.toExpr, eval_un, mem_vals_un hp.1]
    exact exists_congr fun y => and_congr_left' (ih hp.2 hf y)
  | bin o l r ihl ihr =>
    rw [E.toExpr, eval_bin, mem_vals_bin]
    constructor
    · rintro ⟨y, z, h1, h2, h3⟩
      exact ⟨y, (ihl hp.1 hf.1 y).1 h1, z, (ihr hp.2 hf.2 z).1 h2, h3⟩
    · rintro ⟨y, h1, z, h2, h3⟩
      exact ⟨y, z, (ihl hp.1 hf.1 y).2 h1, (ihr hp.2 hf.2 z).2 h2, h3⟩

/-- **C71**: the variables are the same. -/
theorem C71_variables {K : Type} (conv : C → K) (dbl : Option ℝ → K) (conv' : C → K) (dbl' : Option ℝ → K) (f : E) :
    (f.toExpr conv dbl).vars = (f.toExpr conv' dbl').vars := by
  induction f <;> simp_all [E.toExpr, Expr.vars]

/-! ## Derivative and substitution -/

theorem Reg.finite {f : E} {ρ : List Char → ℝ} (h : f.Reg ρ) : f.finite := by
  induction f with
  | c => trivial
  | num v => exact h
  | var => trivial
  | un o a ih => cases o <;> simp only [E.Reg] at h <;> first | exact ih h | exact ih h.1 | exact h.elim
  | bin o l r ihl ihr =>
    cases o <;> simp only [E.Reg] at h
    all_goals first
      | exact ⟨ihl h.1, ihr h.2⟩
      | exact ⟨ihl h.1, ihr h.2.1⟩

theorem Reg.eval {f : E} {ρ : List Char → ℝ} (h : f.Reg ρ) : f.toExprR.eval ρ = some (f.fn ρ) :=
  (C71_value h.plain (Reg.finite h) ρ _).2 h.mem_vals

theorem Reg.smooth {f : E} {ρ : List Char → ℝ} (x : List Char) (h : f.Reg ρ) : Smooth ρ x f.toExprR := by
  induction f with
  | c => trivial
  | num v => trivial
  | var => trivial
  | un o a ih =>
    have hun : ∀ (ha : a.Reg ρ), (o = .abs → a.fn ρ ≠ 0) → Smooth ρ x (E.un o a).toExprR := by
      intro ha h0
      refine ⟨ih ha, fun ho => .inl ?_⟩
      have := Reg.eval ha
      change a.toExprR.eval ρ ≠ some 0
      rw [this]
      simpa using h0 ho
    cases o <;> simp only [E.Reg] at h
    all_goals first
      | exact h.elim
      | exact hun h (fun e => UnOp.noConfusion e)
      | exact hun h.1 (fun e => UnOp.noConfusion e)
      | exact hun h.1 (fun _ => h.2)
  | bin o l r ihl ihr =>
    have hb : ∀ (hl : l.Reg ρ) (hr : r.Reg ρ), (o = .pow →
        (0 < l.fn ρ ∨ (∃ n : ℕ, r = .c (.ofInt n)) ∨ (r.isInt ∧ l.fn ρ ≠ 0))) → Smooth ρ x (E.bin o l r).toExprR := by
      intro hl hr hpow
      refine ⟨ihl hl, ihr hr, fun ho => ?_⟩
      have ho : o = .pow := Op.rt_inj (o' := .pow) ho
      rcases hpow ho with h1 | ⟨n, rfl⟩ | ⟨h1, h2⟩
      · exact .inl ⟨_, Reg.eval hl, h1⟩
      · refine .inr (.inr (.inl ⟨by simp [E.toExpr, Expr.vars], n, ?_⟩))
        simp [E.toExpr, Expr.eval, C.val, C.ofInt]
      · refine .inr (.inl ⟨?_, _, Reg.eval hl, h2⟩)
        cases r <;> simp only [E.isInt] at h1 <;> simp [E.toExpr, Expr.vars]
    cases o <;> simp only [E.Reg] at h
    all_goals first
      | exact hb h.1 h.2 (fun e => Op.noConfusion e)
      | exact hb h.1 h.2.1 (fun e => Op.noConfusion e)
      | exact hb h.1 h.2.1 (fun _ => h.2.2)

/-- **C71**: differentiating and converting can be exchanged: where `f` is smooth, the runtime derivative of `Expr(f)` and the
converted compile-time derivative have the same value, the derivative. -/
theorem C71_derivative {x : List Char} {f g : E} (hf : f.formed) (h : deriv x f = some g) {ρ : List Char → ℝ}
    (hr : f.Reg ρ) :
    ∃ e d, Stator.deriv realOps x f.toExprR = .ok e ∧ e.evalS ρ = some d ∧ g.toExprR.eval ρ = some d ∧
      HasPartial f.toExprR ρ x d := by
  obtain ⟨e, d, h1, h2, h3⟩ := C16_derivative ρ x f.toExprR _ (Reg.eval hr) (Reg.smooth x hr)
  refine ⟨e, d, h1, h2, ?_, h3⟩
  obtain ⟨F, hF, hd⟩ := h3
  have hup : ∀ t, Function.update ρ x t = at_ ρ x t := by
    intro t; funext n; simp [at_, Function.update_apply]
  obtain ⟨v, hv, hdv⟩ := C58_derivative hf h hr (F := F) (by
    filter_upwards [hF] with t ht
    rw [hup] at ht
    exact (C71_value hr.plain (Reg.finite hr) _ _).1 ht)
  obtain ⟨hg, -⟩ := deriv_reg hf h hr
  have : v = d := hdv.unique hd
  subst this
  rw [Reg.eval hg]
  have := hg.vals_eq
  rw [hv, Set.singleton_eq_singleton_iff] at this
  rw [this]

/-- **C71**: inserting and converting can be exchanged: `Expr(sub(f, x = a))` and `sub(Expr(f), x = Expr(a))` have the same value
wherever `f` and `a` have one. -/
theorem C71_substitute {x : List Char} {a f g : E} (hf : f.formed) (ha : ∀ q, a ≠ .c q) (h : subst x a f = some g)
    (pa : a.plain) (pf : f.plain) (fa : a.finite) (ff : f.finite) (fg : g.finite) {ρ : List Char → ℝ} {w v : ℝ}
    (hw : w ∈ a.vals ρ) (hv : v ∈ f.vals (at_ ρ x w)) :
    g.toExprR.eval ρ = some v ∧ (subVar f.toExprR x a.toExprR).eval ρ = some v := by
  constructor
  · exact (C71_value (subst_plain h pa pf) fg ρ v).2 (C59_substitute hf ha h hw hv)
  · rw [(C13_value ρ f.toExprR x a.toExprR w ((C71_value pa fa ρ w).2 hw)).2]
    have hup : Function.update ρ x w = at_ ρ x w := by funext n; simp [at_, Function.update_apply]
    rw [hup]
    exact (C71_value pf ff _ v).2 hv

/-- A case of the two: `sin(x) * x`, and `y^2` for `x`. -/
example : let f : E := .bin .mul (.un .sin (.var ['x'])) (.var ['x'])
    f.formed ∧ f.Reg (fun _ => 2) ∧ (∃ g, deriv ['x'] f = some g) ∧
      ∃ g, subst ['x'] (.bin .pow (.var ['y']) (.c (.ofInt 2))) f = some g ∧ g.finite := by
  refine ⟨?_, ?_, ?_, ?_⟩
  · simp [E.formed, applyUn, applyOp, opMul, E.isC, node, E.number]
  · simp [E.Reg]
  · simp [deriv, applyUn, opMul, opAdd, C.unity, C.null, C.ofInt, E.isC, node, E.number]
  · simp [subst, applyUn, applyOp, opMul, E.isC, node, E.number, E.finite]

/-! ## The number a constant becomes -/

open Fp in
/-- `double(Num) / Denom` in rounded arithmetic: the numerator and the denominator are converted to `double`, then divided.
models: runtime.hpp:474-475. -/
noncomputable def C.toDouble (φ : Format) (a : C) : ℝ := φ.rnd (φ.rnd a.num / φ.rnd a.den)

open Fp in
/-- **C71**: the conversion of a constant is correctly rounded if numerator and denominator have at most `p` bits. -/
theorem C71_constant (p : ℕ) (emin : ℤ) (hp : 0 < p) (he : emin ≤ 0) (a : C) (h1 : |a.num| ≤ 2 ^ p) (h2 : |a.den| ≤ 2 ^ p) :
    a.toDouble (bin p emin hp he) ∈ binF p emin ∧
      ∀ y ∈ binF p emin, |a.toDouble (bin p emin hp he) - a.num / a.den| ≤ |y - a.num / a.den| := by
  have hint : ∀ m : ℤ, |m| ≤ 2 ^ p → (bin p emin hp he).rnd (m : ℝ) = m := fun m hm => (bin p emin hp he).rnd_of_mem (by
    have := binF_of_le hp (e := 0) he hm
    rw [zpow_zero, mul_one] at this
    exact this)
  unfold C.toDouble
  rw [hint _ h1, hint _ h2]
  exact ⟨(bin p emin hp he).mem _, (bin p emin hp he).nearest _⟩

open Fp in
/-- **C71**: `Expr(pi())` is not the `double` nearest to π: the compile-time π is a fraction that is further away than the
resolution of `double`. -/
theorem C71_pi : (1.5e-14 : ℝ) < Real.pi - C.pi.toDouble binary64 ∧ |binary64.rnd Real.pi - Real.pi| < 1e-15 := by
  have hpi : C.pi.num = 47627751 ∧ C.pi.den = 15160384 := by decide +kernel
  have h1 := Real.pi_gt_d20
  have h2 := Real.pi_lt_d20
  have hu : binary64.u = 2 ^ (-(53 : ℤ)) := by simp [binary64, bin]
  have hη : binary64.η ≤ 1e-16 := by
    have : binary64.η = 2 ^ (-1074 - 1 : ℤ) := by simp [binary64, bin]
    rw [this]
    calc (2 : ℝ) ^ (-1074 - 1 : ℤ) ≤ 2 ^ (-60 : ℤ) := zpow_le_zpow_right₀ (by norm_num) (by norm_num)
      _ ≤ 1e-16 := by norm_num
  constructor
  · have hq : C.pi.toDouble binary64 = binary64.rnd (47627751 / 15160384) := by
      have hint : ∀ m : ℤ, |m| ≤ 2 ^ 53 → binary64.rnd (m : ℝ) = m := fun m hm => binary64.rnd_of_mem (by
        have := binF_of_le (p := 53) (by norm_num) (e := 0) (emin := -1074) (by norm_num) hm
        rw [zpow_zero, mul_one] at this
        exact this)
      unfold C.toDouble
      rw [hpi.1, hpi.2, hint _ (by norm_num), hint _ (by norm_num)]
      push_cast
      rfl
    have h3 := binary64.error (47627751 / 15160384)
    rw [hu, abs_of_pos (by norm_num : (0 : ℝ) < 47627751 / 15160384)] at h3
    rw [hq]
    have h4 := (abs_le.1 h3).2
    norm_num at h1 h2 h4 hη ⊢
    linarith
  · have h3 := binary64.error Real.pi
    rw [hu, abs_of_pos Real.pi_pos] at h3
    refine lt_of_le_of_lt h3 ?_
    norm_num at h1 h2 hη ⊢
    linarith

/-! ## Text -/

/-- `std::to_string` of an integer. -/
def intText : ℤ → List Char
  | .ofNat n => Nat.toDigits 10 n
  | .negSucc n => '-' :: Nat.toDigits 10 (n + 1)

/-- The binding powers the printer compares. models: constants.hpp:232-239, variable.hpp:84-86, unary_ops.hpp:189-191,
binary_ops.hpp:439-444. -/
def E.BP : E → Int × Int
  | .un o _ => (0, o.bp)
  | .bin o _ _ => (o.rt.lbp, o.rt.rbp)
  | _ => (intMax, intMax)

/-- `repr(f)` of a compile-time expression; `showN` is the printing of a `double`. models: constants.hpp:223-230,
variable.hpp:72-77, unary_ops.hpp:193-208, binary_ops.hpp:448-467, repr.hpp:52-75. -/
def E.text (showN : Option ℝ → List Char) : E → List Char
  | .c a => if a.den ≠ 1 then ['('] ++ intText a.num ++ ['/'] ++ intText a.den ++ [')'] else intText a.num
  | .num v => showN v
  | .var n => n
  | .un o a => o.ltext ++ wrapIf (decide (a.BP.1 < o.bp)) (a.text showN) ++ o.rtext
  | .bin o l r => wrapIf (decide (l.BP.2 < o.rt.lbp)) (l.text showN) ++ o.rt.text
      ++ wrapIf (decide (o.rt.rbp > r.BP.1) && !o.rt.wrapped) (r.text showN) ++ o.rt.rtext

/-- The numbers the parser reads: decimal integers, and negation. -/
structure Reads (L : NumLex ℝ) : Prop where
  nat : ∀ n : ℕ, L.ofLit (Nat.toDigits 10 n) = n
  neg : ∀ x, L.neg x = -x

/-- Is the root a power? -/
def E.isPow : E → Bool
  | .bin .pow _ _ => true
  | _ => false

/-- Is it a number, or a constant written without a fraction bar? -/
def E.isNumber : E → Bool
  | .c a => decide (a.den = 1)
  | .num _ => true
  | _ => false

/-- The expressions outside of the defects of the printer (as `Printable` for runtime expressions): no absolute value and no `±`,
no power as the base of a power; a negative integer constant or number only where nothing that binds stronger than the minus sign
follows (`loose`). Fractions can be anywhere. -/
def E.TextOk (L : NumLex ℝ) (showN : Option ℝ → List Char) : Bool → E → Prop
  | loose, .c a => a.den ≠ 1 ∨ 0 ≤ a.num ∨ loose = true
  | loose, .num v => ∃ x, v = some x ∧ (PosConst L (fun x => showN (some x)) x ∨
      loose = true ∧ NegConst L (fun x => showN (some x)) x)
  | _, .var n => IsName n
  | loose, .un o a => o ≠ .abs ∧ o ≠ .arbsign ∧ (o = .neg → a.isNumber = false) ∧
      a.TextOk L showN (decide (a.BP.1 < o.bp) || loose)
  | loose, .bin o l r => (o = .pow → l.isPow = false) ∧
      l.TextOk L showN (decide (l.BP.2 < o.rt.lbp) || o.rt.weak) ∧
      r.TextOk L showN (decide (r.BP.1 < o.rt.rbp) || loose)

theorem isLit_nat (n : ℕ) : IsLit (Nat.toDigits 10 n) := by
  refine ⟨Nat.toDigits 10 n, [], [], by simp, Nat.toDigits_ne_nil, ?_, .inl rfl, .inl rfl⟩
  intro c hc
  have := Nat.isDigit_of_mem_toDigits (by norm_num) (by norm_num) hc
  simpa [isDigit, Char.isDigit, Char.le_def] using this

/-- An integer as a constant of a text with marked parentheses. -/
noncomputable def intP (n : ℤ) : PExpr ℝ := .const (intText n) n

/-- A fraction. The minus sign of the numerator is read as applied to the fraction. -/
noncomputable def fracP : ℤ → ℤ → PExpr ℝ
  | .ofNat n, d => .paren (.bin .div (intP n) (intP d))
  | .negSucc n, d => .paren (.un .neg (.bin .div (intP (n + 1 : ℕ)) (intP d)))

noncomputable def E.toP (showN : Option ℝ → List Char) : E → PExpr ℝ
  | .c a => if a.den ≠ 1 then fracP a.num a.den else intP a.num
  | .num v => .const (showN v) (v.getD 0)
  | .var n => .var n
  | .un o a => .un o (a.toP showN)
  | .bin o l r => .bin o.rt (l.toP showN) (r.toP showN)

theorem fracP_text (n d : ℤ) : (fracP n d).text = ['('] ++ intText n ++ ['/'] ++ intText d ++ [')'] := by
  cases n <;> simp [fracP, PExpr.text, intP, PExpr.BP, wrapIf, BinOp.text, BinOp.rtext, BinOp.lbp, BinOp.rbp, intMax,
    BinOp.rightAssoc, BinOp.wrapped, UnOp.ltext, UnOp.rtext, UnOp.bp, intText]

theorem fracP_BP (n d : ℤ) : (fracP n d).BP = (intMax, intMax) := by cases n <;> rfl

theorem toP_BP (showN : Option ℝ → List Char) (e : E) : (e.toP showN).BP = e.BP := by
  cases e with
  | c a =>
    unfold E.toP
    split
    · exact fracP_BP _ _
    · rfl
  | _ => rfl

theorem toP_text (showN : Option ℝ → List Char) (e : E) : (e.toP showN).text = e.text showN := by
  induction e with
  | c a => unfold E.toP E.text; split <;> simp [fracP_text, intP, PExpr.text]
  | num v => rfl
  | var n => rfl
  | un o a ih => simp only [E.toP, PExpr.text, E.text, toP_BP, ih]
  | bin o l r ihl ihr => simp only [E.toP, PExpr.text, E.text, toP_BP, ihl, ihr]

theorem intP_ok {L : NumLex ℝ} (hL : Reads L) (n : ℤ) (b : Bool) (h : 0 ≤ n ∨ b = true) : PExpr.Ok L b (intP n) := by
  cases n with
  | ofNat n => exact .const (isLit_nat n) (by show L.ofLit (Nat.toDigits 10 n) = _; rw [hL.nat]; simp)
  | negSucc n =>
    obtain rfl : b = true := by
      rcases h with h | h
      · exact absurd h (by simp)
      · exact h
    exact .negc (isLit_nat (n + 1)) (by rw [hL.neg, hL.nat, Int.negSucc_eq]; push_cast; ring)

theorem fracP_ok {L : NumLex ℝ} (hL : Reads L) (n d : ℤ) (b : Bool) : PExpr.Ok L b (fracP n d) := by
  cases n with
  | ofNat n =>
    exact .paren (.bin (by simp) (by simp) (intP_ok hL _ _ (.inl (Int.natCast_nonneg n))) (intP_ok hL _ _ (.inr (by simp))))
  | negSucc n =>
    exact .paren (.neg (by simp [PExpr.erase, Expr.isConst]) (.bin (by simp) (by simp)
      (intP_ok hL _ _ (.inl (Int.natCast_nonneg _))) (intP_ok hL _ _ (.inr (by simp)))))

theorem toP_ok {L : NumLex ℝ} (hL : Reads L) (showN : Option ℝ → List Char) (e : E) (b : Bool) (h : e.TextOk L showN b) :
    PExpr.Ok L b (e.toP showN) := by
  induction e generalizing b with
  | c a =>
    unfold E.toP
    split
    · exact fracP_ok hL _ _ _
    · rename_i hd
      exact intP_ok hL _ _ (h.resolve_left hd)
  | num v =>
    obtain ⟨x, rfl, h⟩ := h
    rcases h with h | ⟨rfl, t, h1, h2, h3⟩
    · exact .const h.1 h.2
    · simp only [E.toP, h1]
      exact .negc h2 h3
  | var n => exact .var h
  | un o a ih =>
    obtain ⟨h1, h2, h3, h4⟩ := h
    have h5 := ih _ h4
    by_cases ho : o = .neg
    · subst ho
      refine .neg ?_ (by rw [PExpr.parenU, toP_BP]; exact h5)
      have := h3 rfl
      cases a with
      | c a =>
        simp only [E.isNumber, decide_eq_false_iff_not] at this
        unfold E.toP
        rw [if_pos this]
        cases a.num <;> simp [fracP, PExpr.erase, Expr.isConst]
      | num => simp [E.isNumber] at this
      | _ => simp [E.toP, PExpr.erase, Expr.isConst]
    · cases hf : fnName o with
      | none => cases o <;> simp_all [fnName]
      | some s => exact .fn hf (by rw [PExpr.parenU, toP_BP]; exact h5)
  | bin o l r ihl ihr =>
    obtain ⟨h1, h2, h3⟩ := h
    refine .bin (fun ho => ?_) (fun ho => ?_) (by rw [PExpr.parenL, toP_BP]; exact ihl _ h2) ?_
    · have := h1 (Op.rt_inj (o' := .pow) ho)
      cases l with
      | c a => unfold E.toP; split <;> [cases a.num <;> rfl; rfl]
      | bin o' l' r' => cases o' <;> simp [E.isPow] at this <;> rfl
      | _ => rfl
    · cases o <;> cases ho
    · have hw : o.rt.wrapped = false := by cases o <;> rfl
      rw [PExpr.parenR, toP_BP, hw, Bool.false_or]
      exact ihr _ h3

theorem intP_eval (n : ℤ) (ρ : List Char → ℝ) : (intP n).erase.eval ρ = some (n : ℝ) := rfl

theorem fracP_eval (n d : ℤ) (hd : d ≠ 0) (ρ : List Char → ℝ) : (fracP n d).erase.eval ρ = some ((n : ℝ) / d) := by
  have hd' : (d : ℝ) ≠ 0 := by exact_mod_cast hd
  cases n with
  | ofNat n => simp [fracP, PExpr.erase, Expr.eval, intP, binVal, hd']
  | negSucc n =>
    simp [fracP, PExpr.erase, Expr.eval, intP, binVal, hd', unVal]
    rw [← neg_div]
    congr 1
    ring

theorem toP_eval (L : NumLex ℝ) (showN : Option ℝ → List Char) (e : E) (b : Bool) (h : e.TextOk L showN b)
    (ρ : List Char → ℝ) (v : ℝ) : (e.toP showN).erase.eval ρ = some v ↔ v ∈ e.vals ρ := by
  induction e generalizing b v with
  | c a =>
    unfold E.toP
    split
    · rw [fracP_eval _ _ a.ok]; simp [E.vals, eq_comm]
    · rename_i hd
      rw [not_not] at hd
      rw [intP_eval]; simp [E.vals, hd, eq_comm]
  | num x => obtain ⟨x, rfl, -⟩ := h; simp [E.toP, PExpr.erase, Expr.eval]
  | var n => simp [E.toP, PExpr.erase, Expr.eval, eq_comm]
  | un o a ih =>
    rw [E.toP, PExpr.erase, eval_un, mem_vals_un h.2.1]
    exact exists_congr fun y => and_congr_left' (ih _ h.2.2.2 y)
  | bin o l r ihl ihr =>
    rw [E.toP, PExpr.erase, eval_bin, mem_vals_bin]
    constructor
    · rintro ⟨y, z, h1, h2, h3⟩
      exact ⟨y, (ihl _ h.2.1 y).1 h1, z, (ihr _ h.2.2 z).1 h2, h3⟩
    · rintro ⟨y, h1, z, h2, h3⟩
      exact ⟨y, z, (ihl _ h.2.1 y).2 h1, (ihr _ h.2.2 z).2 h2, h3⟩

/-- **C71**: the parser accepts the text of a compile-time expression, and what it reads has the values of the expression. -/
theorem C71_text {L : NumLex ℝ} (hL : Reads L) (showN : Option ℝ → List Char) (f : E) (h : f.TextOk L showN true) :
    ∃ t, parse L (f.text showN) = .ok t ∧ ∀ ρ v, t.eval ρ = some v ↔ v ∈ f.vals ρ := by
  refine ⟨(f.toP showN).erase, ?_, fun ρ v => toP_eval L showN f true h ρ v⟩
  rw [← toP_text]
  exact PExpr.C70_redundant_parentheses L _ (toP_ok hL showN f true h)

/-- A number syntax as assumed. -/
theorem some_reads : ∃ L : NumLex ℝ, Reads L :=
  ⟨⟨fun s => (Nat.ofDigitChars 10 s 0 : ℝ), fun x => -x⟩, fun n => by simp [Nat.ofDigitChars_ten_toDigits], fun x => rfl⟩

/-- The text of `C<-1,3>() * pow(x, C<2>())` is `(-1/3)*x^2` and satisfies the hypotheses. -/
example (L : NumLex ℝ) (showN : Option ℝ → List Char) :
    let f : E := .bin .mul (.c ⟨-1, 3, by decide⟩) (.bin .pow (.var ['x']) (.c (.ofInt 2)))
    f.text showN = "(-1/3)*x^2".toList ∧ f.TextOk L showN true := by
  refine ⟨?_, ?_⟩
  · simp [E.text, E.BP, wrapIf, Op.rt, BinOp.text, BinOp.rtext, BinOp.lbp, BinOp.rbp, intMax, BinOp.wrapped, C.ofInt,
      BinOp.rightAssoc]
    decide
  · simp only [E.TextOk]
    exact ⟨by simp, .inl (by decide), fun _ => rfl, isName_x, .inr (.inl (by decide))⟩

/-- **C71**, the failing half: the text of `pow(C<-2>(), x)` is `-2^x`, which is read as `-(2^x)`. -/
theorem C71_negative_base_fails {L : NumLex ℝ} (hL : Reads L) (showN : Option ℝ → List Char) :
    let f : E := .bin .pow (.c (.ofInt (-2))) (.var ['x'])
    parse L (f.text showN) = .ok (.un .neg (.bin .pow (.const 2) (.var ['x']))) ∧
      (4 : ℝ) ∈ f.vals (fun _ => 2) ∧
      (Expr.un .neg (.bin .pow (.const 2) (.var ['x'])) : Expr ℝ).eval (fun _ => 2) = some (-4) := by
  intro f
  have h2 : Nat.toDigits 10 2 = ['2'] := by decide
  have h3 : intText (-2) = ['-', '2'] := by decide
  have hp : PExpr.Ok L true (.un .neg (.bin .pow (.const ['2'] (2 : ℝ)) (.var ['x']))) := by
    refine .neg (by simp [PExpr.erase, Expr.isConst]) (.bin (by simp [PExpr.isBin]) (by simp) (.const isLit_2 ?_) (.var isName_x))
    have := hL.nat 2
    rw [h2] at this
    exact_mod_cast this
  have := PExpr.C70_redundant_parentheses L _ hp
  refine ⟨?_, ?_, ?_⟩
  · simpa [f, E.text, E.BP, wrapIf, Op.rt, BinOp.text, BinOp.rtext, BinOp.lbp, BinOp.rbp, intMax, BinOp.wrapped, C.ofInt,
      BinOp.rightAssoc, PExpr.text, PExpr.BP, PExpr.erase, UnOp.ltext, UnOp.rtext, UnOp.bp, h3] using this
  · refine ⟨-2, by simp [C.ofInt, C.val], 2, rfl, ?_⟩
    have : powDom (-2) 2 := .inr (.inr ⟨by norm_num, 2, by norm_num⟩)
    simp [Op.rt, binVal, this]
    norm_num
  · have : powDom 2 2 := .inl (by norm_num)
    simp [Expr.eval, binVal, unVal, this]
    norm_num

end Stator.Ct
