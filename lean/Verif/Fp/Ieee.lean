import Verif.Fp.SimplifyMachine
import Verif.Fp.Accuracy

/-!
# C91: the whole of `double`

`Fp/Format` has numbers with unbounded exponents and one zero. Here is the data type of IEEE 754, with overflow to infinities, NaN
and signed zeros, and what `simplify` does with it.
-/

namespace Stator.Fp

open Stator

/-! ## Specification: the data type and its operations (IEEE 754-2019, sections 4.3.1, 6.1-6.3, 7.2-7.4; rounding to nearest) -/

/-- A value of a floating-point type: `M` is the largest finite number. -/
inductive Ieee (φ : Format) (M : ℝ) where
  | nan
  | inf (neg : Bool)
  | zero (neg : Bool)
  | fin (x : ℝ) (hF : x ∈ φ.F) (h0 : x ≠ 0) (hM : |x| ≤ M)

namespace Ieee

variable {φ : Format} {M : ℝ}

/-- The sign bit. -/
noncomputable def sgn : Ieee φ M → Bool
  | nan => false
  | inf b => b
  | zero b => b
  | fin x _ _ _ => open Classical in decide (x < 0)

/-- The number. -/
noncomputable def val : Ieee φ M → ℝ
  | fin x _ _ _ => x
  | _ => 0

def isZero : Ieee φ M → Prop
  | zero _ => True
  | _ => False

open Classical in
/-- The result of an operation whose exact result is the number `x`: rounded as if the exponent were not bounded; infinite if that
exceeds the largest number. `s` is the sign of the result if `x` is 0. -/
noncomputable def pack (s : Bool) (x : ℝ) : Ieee φ M :=
  if h0 : φ.rnd x = 0 then zero (if x = 0 then s else decide (x < 0))
  else if hM : |φ.rnd x| ≤ M then fin (φ.rnd x) (φ.mem x) h0 hM
  else inf (decide (x < 0))

noncomputable def add : Ieee φ M → Ieee φ M → Ieee φ M
  | nan, _ => nan
  | _, nan => nan
  | inf a, inf b => if a = b then inf a else nan
  | inf a, _ => inf a
  | _, inf b => inf b
  | zero a, zero b => zero (a && b)
  | x, y => pack false (x.val + y.val)

noncomputable def neg : Ieee φ M → Ieee φ M
  | nan => nan
  | inf b => inf !b
  | zero b => zero !b
  | fin x hF h0 hM => fin (-x) (φ.neg x hF) (neg_ne_zero.2 h0) (by rwa [abs_neg])

noncomputable def sub (x y : Ieee φ M) : Ieee φ M := add x (neg y)

noncomputable def mul : Ieee φ M → Ieee φ M → Ieee φ M
  | nan, _ => nan
  | _, nan => nan
  | inf _, zero _ => nan
  | zero _, inf _ => nan
  | inf a, y => inf (a ^^ y.sgn)
  | x, inf b => inf (x.sgn ^^ b)
  | x, y => pack (x.sgn ^^ y.sgn) (x.val * y.val)

noncomputable def div : Ieee φ M → Ieee φ M → Ieee φ M
  | nan, _ => nan
  | _, nan => nan
  | inf _, inf _ => nan
  | zero _, zero _ => nan
  | inf a, y => inf (a ^^ y.sgn)
  | x, inf b => zero (x.sgn ^^ b)
  | x, zero b => inf (x.sgn ^^ b)
  | x, y => pack (x.sgn ^^ y.sgn) (x.val / y.val)

noncomputable def abs : Ieee φ M → Ieee φ M
  | nan => nan
  | inf _ => inf false
  | zero _ => zero false
  | fin x hF h0 hM => fin |x| (abs_mem φ hF) (abs_ne_zero.2 h0) (by rwa [abs_abs])

open Classical in
/-- `==` -/
noncomputable def eq : Ieee φ M → Ieee φ M → Bool
  | inf a, inf b => a == b
  | zero _, zero _ => true
  | fin x _ _ _, fin y _ _ _ => decide (x = y)
  | _, _ => false

/-- Less than zero. -/
def negative : Ieee φ M → Prop
  | inf b => b = true
  | fin x _ _ _ => x < 0
  | _ => False

/-- The same number, but for the sign of a zero. -/
def Same (x y : Ieee φ M) : Prop := x = y ∨ x.isZero ∧ y.isZero

/-- The number one. -/
def one (hM : 1 ≤ M) : Ieee φ M := fin 1 φ.one one_ne_zero (by rwa [abs_one])

end Ieee

/-- A mathematical library: any functions that see the sign of a zero argument at most in the sign of a zero result (or, for `pow`, in
that of an infinite result for a negative exponent), and the cases of `pow` that Annex F of the C standard makes exact. -/
structure LibI (φ : Format) (M : ℝ) (hM : 1 ≤ M) where
  sin : Ieee φ M → Ieee φ M
  cos : Ieee φ M → Ieee φ M
  exp : Ieee φ M → Ieee φ M
  log : Ieee φ M → Ieee φ M
  pow : Ieee φ M → Ieee φ M → Ieee φ M
  sin_zero : ∀ a b, (sin (.zero a)).Same (sin (.zero b))
  cos_zero : ∀ a b, (cos (.zero a)).Same (cos (.zero b))
  exp_zero : ∀ a b, (exp (.zero a)).Same (exp (.zero b))
  log_zero : ∀ a b, (log (.zero a)).Same (log (.zero b))
  pow_zero : ∀ x a b, (pow x (.zero a)).Same (pow x (.zero b))
  zero_pow : ∀ a b y, ¬ y.negative → (pow (.zero a) y).Same (pow (.zero b) y)
  pow_one : ∀ x, pow x (.one hM) = x
  one_pow : ∀ x, pow (.one hM) x = .one hM

/-- The arithmetic of a floating-point type. -/
noncomputable def ieeeOps {φ : Format} {M : ℝ} {hM : 1 ≤ M} (L : LibI φ M hM) : NumOps (Ieee φ M) where
  zero := .zero false
  one := .one hM
  add := .add
  sub := .sub
  mul := .mul
  div := .div
  pow := L.pow
  neg := .neg
  sin := L.sin
  cos := L.cos
  exp := L.exp
  log := L.log
  abs := .abs

/-! ## The laws -/

namespace Ieee

variable {φ : Format} {M : ℝ}

theorem Same.refl (x : Ieee φ M) : x.Same x := .inl rfl

theorem Same.symm {x y : Ieee φ M} (h : x.Same y) : y.Same x := by
  rcases h with rfl | ⟨h1, h2⟩
  · exact .inl rfl
  · exact .inr ⟨h2, h1⟩

theorem Same.trans {x y z : Ieee φ M} (h : x.Same y) (h' : y.Same z) : x.Same z := by
  rcases h with rfl | ⟨h1, h2⟩
  · exact h'
  · rcases h' with rfl | ⟨h3, h4⟩
    · exact .inr ⟨h1, h2⟩
    · exact .inr ⟨h1, h4⟩

theorem same_zero (a b : Bool) : (zero a : Ieee φ M).Same (zero b) := .inr ⟨trivial, trivial⟩

theorem Same.cases {x y : Ieee φ M} (h : x.Same y) : x = y ∨ ∃ a b, x = zero a ∧ y = zero b := by
  rcases h with h | ⟨h1, h2⟩
  · exact .inl h
  · cases x <;> simp only [isZero] at h1
    cases y <;> simp only [isZero] at h2
    exact .inr ⟨_, _, rfl, rfl⟩

theorem Same.nan {x : Ieee φ M} (h : x.Same nan) : x = nan := by
  rcases h with h | ⟨-, h⟩
  · exact h
  · exact h.elim

theorem rnd_zero : φ.rnd 0 = 0 := φ.rnd_of_mem φ.zero

theorem pack_zero (s : Bool) : (pack s 0 : Ieee φ M) = zero s := by
  simp [pack, rnd_zero]

theorem pack_fin (s : Bool) (x : ℝ) (hF : x ∈ φ.F) (h0 : x ≠ 0) (hM : |x| ≤ M) : pack s x = fin x hF h0 hM := by
  have h := φ.rnd_of_mem hF
  simp only [pack, h, h0, hM, dite_true, dite_false]

theorem pack_same (s t : Bool) (x : ℝ) : (pack s x : Ieee φ M).Same (pack t x) := by
  by_cases h0 : φ.rnd x = 0
  · simp only [pack, h0, dite_true]; exact same_zero _ _
  · simp only [pack, h0, dite_false]; exact .refl _

theorem add_zero_l (a b : Bool) (y : Ieee φ M) : (add (zero a) y).Same (add (zero b) y) := by
  cases y <;> simp only [add] <;> first | exact .refl _ | exact same_zero _ _

theorem add_zero_r (a b : Bool) (x : Ieee φ M) : (add x (zero a)).Same (add x (zero b)) := by
  cases x <;> simp only [add] <;> first | exact .refl _ | exact same_zero _ _

theorem mul_zero_l (a b : Bool) (y : Ieee φ M) : (mul (zero a) y).Same (mul (zero b) y) := by
  cases y <;> simp only [mul, val, zero_mul] <;> first | exact .refl _ | exact pack_same _ _ _

theorem mul_zero_r (a b : Bool) (x : Ieee φ M) : (mul x (zero a)).Same (mul x (zero b)) := by
  cases x <;> simp only [mul, val, mul_zero] <;> first | exact .refl _ | exact pack_same _ _ _

theorem div_zero_l (a b : Bool) (y : Ieee φ M) : (div (zero a) y).Same (div (zero b) y) := by
  cases y <;> simp only [div] <;> first | exact .refl _ | exact same_zero _ _ | exact pack_same _ _ _

theorem neg_same {x y : Ieee φ M} (h : x.Same y) : (neg x).Same (neg y) := by
  rcases h.cases with rfl | ⟨a, b, rfl, rfl⟩
  · exact .refl _
  · exact same_zero _ _

theorem add_same {x x' y y' : Ieee φ M} (h : x.Same x') (h' : y.Same y') : (add x y).Same (add x' y') := by
  refine Same.trans (y := add x' y) ?_ ?_
  · rcases h.cases with rfl | ⟨a, b, rfl, rfl⟩
    · exact .refl _
    · exact add_zero_l _ _ _
  · rcases h'.cases with rfl | ⟨a, b, rfl, rfl⟩
    · exact .refl _
    · exact add_zero_r _ _ _

theorem sub_same {x x' y y' : Ieee φ M} (h : x.Same x') (h' : y.Same y') : (sub x y).Same (sub x' y') :=
  add_same h (neg_same h')

theorem mul_same {x x' y y' : Ieee φ M} (h : x.Same x') (h' : y.Same y') : (mul x y).Same (mul x' y') := by
  refine Same.trans (y := mul x' y) ?_ ?_
  · rcases h.cases with rfl | ⟨a, b, rfl, rfl⟩
    · exact .refl _
    · exact mul_zero_l _ _ _
  · rcases h'.cases with rfl | ⟨a, b, rfl, rfl⟩
    · exact .refl _
    · exact mul_zero_r _ _ _

theorem div_same {x x' y y' : Ieee φ M} (h : x.Same x') (h' : y.Same y') (hy : ¬ y.isZero) :
    (div x y).Same (div x' y') := by
  rcases h'.cases with rfl | ⟨a, b, rfl, rfl⟩
  · rcases h.cases with rfl | ⟨a, b, rfl, rfl⟩
    · exact .refl _
    · exact div_zero_l _ _ _
  · exact absurd trivial hy

theorem abs_same {x y : Ieee φ M} (h : x.Same y) : (abs x).Same (abs y) := by
  rcases h.cases with rfl | ⟨a, b, rfl, rfl⟩
  · exact .refl _
  · exact same_zero _ _

theorem add_id (x : Ieee φ M) (a : Bool) : (add x (zero a)).Same x := by
  cases x with
  | nan => exact .refl _
  | inf b => exact .refl _
  | zero b => exact same_zero _ _
  | fin x hF h0 hM => simp only [add, val, add_zero, pack_fin false x hF h0 hM]; exact .refl _

theorem id_add (x : Ieee φ M) (a : Bool) : (add (zero a) x).Same x := by
  cases x with
  | nan => exact .refl _
  | inf b => exact .refl _
  | zero b => exact same_zero _ _
  | fin x hF h0 hM => simp only [add, val, zero_add, pack_fin false x hF h0 hM]; exact .refl _

theorem sub_id (x : Ieee φ M) (a : Bool) : (sub x (zero a)).Same x := add_id x _

theorem zero_sub' (x : Ieee φ M) (a : Bool) : (sub (zero a) x).Same (neg x) := id_add _ _

theorem sgn_one (hM : 1 ≤ M) : (one hM : Ieee φ M).sgn = false := by
  simp [one, sgn]

theorem mul_id (x : Ieee φ M) (hM : 1 ≤ M) : (mul x (one hM)).Same x := by
  have h1 := sgn_one (φ := φ) hM
  unfold one at h1 ⊢
  cases x with
  | nan => exact .refl _
  | inf b => simp only [mul, h1, Bool.xor_false]; exact .refl _
  | zero b => simp only [mul, val, zero_mul, pack_zero]; exact same_zero _ _
  | fin x hF h0 hM' => simp only [mul, val, mul_one, pack_fin _ x hF h0 hM']; exact .refl _

theorem id_mul (x : Ieee φ M) (hM : 1 ≤ M) : (mul (one hM) x).Same x := by
  have h1 := sgn_one (φ := φ) hM
  unfold one at h1 ⊢
  cases x with
  | nan => exact .refl _
  | inf b => simp only [mul, h1, Bool.false_xor]; exact .refl _
  | zero b => simp only [mul, val, mul_zero, pack_zero]; exact same_zero _ _
  | fin x hF h0 hM' => simp only [mul, val, one_mul, pack_fin _ x hF h0 hM']; exact .refl _

theorem div_id (x : Ieee φ M) (hM : 1 ≤ M) : (div x (one hM)).Same x := by
  have h1 := sgn_one (φ := φ) hM
  unfold one at h1 ⊢
  cases x with
  | nan => exact .refl _
  | inf b => simp only [div, h1, Bool.xor_false]; exact .refl _
  | zero b => simp only [div, val, zero_div, pack_zero]; exact same_zero _ _
  | fin x hF h0 hM' => simp only [div, val, div_one, pack_fin _ x hF h0 hM']; exact .refl _

theorem mul_null (x : Ieee φ M) (a : Bool) (h : mul x (zero a) ≠ nan) : (mul x (zero a)).Same (zero false) := by
  cases x with
  | nan => simp [mul] at h
  | inf b => simp [mul] at h
  | zero b => simp only [mul, val, mul_zero, pack_zero]; exact same_zero _ _
  | fin x hF h0 hM => simp only [mul, val, mul_zero, pack_zero]; exact same_zero _ _

theorem null_mul (x : Ieee φ M) (a : Bool) (h : mul (zero a) x ≠ nan) : (mul (zero a) x).Same (zero false) := by
  cases x with
  | nan => simp [mul] at h
  | inf b => simp [mul] at h
  | zero b => simp only [mul, val, zero_mul, pack_zero]; exact same_zero _ _
  | fin x hF h0 hM => simp only [mul, val, zero_mul, pack_zero]; exact same_zero _ _

theorem null_div (x : Ieee φ M) (a : Bool) (h : div (zero a) x ≠ nan) : (div (zero a) x).Same (zero false) := by
  cases x with
  | nan => simp [div] at h
  | inf b => simp only [div]; exact same_zero _ _
  | zero b => simp [div] at h
  | fin x hF h0 hM => simp only [div, val, zero_div, pack_zero]; exact same_zero _ _

theorem eq_same {x y : Ieee φ M} (h : eq x y = true) : x.Same y := by
  cases x <;> cases y <;> simp only [eq, Bool.false_eq_true, beq_iff_eq, decide_eq_true_eq] at h
  · subst h; exact .refl _
  · exact same_zero _ _
  · subst h; exact .refl _

theorem Same.isZero_iff {x y : Ieee φ M} (h : x.Same y) : x.isZero ↔ y.isZero := by
  rcases h with rfl | ⟨h1, h2⟩
  · rfl
  · exact ⟨fun _ => h2, fun _ => h1⟩

theorem Same.negative_iff {x y : Ieee φ M} (h : x.Same y) : x.negative ↔ y.negative := by
  rcases h.cases with rfl | ⟨a, b, rfl, rfl⟩
  · rfl
  · exact Iff.rfl

theorem un_same {hM : 1 ≤ M} (L : LibI φ M hM) (o : UnOp) (x x' v : Ieee φ M) (h : x.Same x')
    (hv : unOp (ieeeOps L) o x = some v) : ∃ v', unOp (ieeeOps L) o x' = some v' ∧ v'.Same v := by
  rcases h.cases with rfl | ⟨a, b, rfl, rfl⟩
  · exact ⟨v, hv, .refl _⟩
  · cases o <;> simp only [unOp, ieeeOps, Option.some.injEq, reduceCtorEq] at hv ⊢ <;> subst hv <;> refine ⟨_, rfl, ?_⟩
    case sin => exact L.sin_zero _ _
    case cos => exact L.cos_zero _ _
    case exp => exact L.exp_zero _ _
    case log => exact L.log_zero _ _
    all_goals exact same_zero _ _

theorem bin_same {hM : 1 ≤ M} (L : LibI φ M hM) (o : BinOp) (x x' y y' v : Ieee φ M) (h : x.Same x') (h' : y.Same y')
    (hd : o = .div → ¬ y.isZero) (hp : o = .pow → ¬ (x.isZero ∧ y.negative))
    (hv : binOp (ieeeOps L) o x y = some v) : ∃ v', binOp (ieeeOps L) o x' y' = some v' ∧ v'.Same v := by
  cases o <;> simp only [binOp, ieeeOps, Option.some.injEq, reduceCtorEq] at hv ⊢ <;> subst hv <;> refine ⟨_, rfl, Same.symm ?_⟩
  case add => exact add_same h h'
  case sub => exact sub_same h h'
  case mul => exact mul_same h h'
  case div => exact div_same h h' (hd rfl)
  case pow =>
    refine Same.trans (y := L.pow x' y) ?_ ?_
    · rcases h.cases with rfl | ⟨a, b, rfl, rfl⟩
      · exact .refl _
      · exact L.zero_pow _ _ _ (fun hn => hp rfl ⟨trivial, hn⟩)
    · rcases h'.cases with rfl | ⟨a, b, rfl, rfl⟩
      · exact .refl _
      · exact L.pow_zero _ _ _

end Ieee

open Ieee

/-- Harmless operations: the result is not a NaN, the divisor is not zero, and the power is not one of zero with a negative exponent.
Infinite operands and results, for example by overflow, are allowed. -/
noncomputable def ieee {φ : Format} {M : ℝ} {hM : 1 ≤ M} (L : LibI φ M hM) : ArithE (Ieee φ M) where
  ops := ieeeOps L
  eq := Ieee.eq
  sim := Same
  unOk o x := ∀ v, unOp (ieeeOps L) o x = some v → v ≠ .nan
  binOk o x y := (∀ v, binOp (ieeeOps L) o x y = some v → v ≠ .nan) ∧ (o = .div → ¬ y.isZero) ∧
    (o = .pow → ¬ (x.isZero ∧ y.negative))
  refl := .refl
  symm _ _ h := h.symm
  trans _ _ _ h h' := h.trans h'
  eq_zero _ h := eq_same h
  eq_one _ h := eq_same h
  un_ok o x x' h hok v hv hn := by
    obtain ⟨w, hw, hs⟩ := un_same L o x' x v h.symm hv
    subst hn
    exact hok w hw hs.nan
  un_sim o x x' v h _ hv := un_same L o x x' v h hv
  bin_ok o x x' y y' h h' hok := by
    refine ⟨fun v hv hn => ?_, fun ho => by rw [← h'.isZero_iff]; exact hok.2.1 ho,
      fun ho => by rw [← h.isZero_iff, ← h'.negative_iff]; exact hok.2.2 ho⟩
    obtain ⟨w, hw, hs⟩ := bin_same L o x' x y' y v h.symm h'.symm (fun ho => by rw [← h'.isZero_iff]; exact hok.2.1 ho)
      (fun ho => by rw [← h.isZero_iff, ← h'.negative_iff]; exact hok.2.2 ho) hv
    subst hn
    exact hok.1 w hw hs.nan
  bin_sim o x x' y y' v h h' hok hv := bin_same L o x x' y y' v h h' hok.2.1 hok.2.2 hv
  add_zero x _ := add_id x _
  zero_add x _ := id_add x _
  sub_zero x _ := sub_id x _
  zero_sub x _ := zero_sub' x _
  neg_ok x h v hv := by
    have := h.1 _ rfl
    simp only [unOp, ieeeOps, Option.some.injEq] at hv this
    rintro rfl
    rw [Ieee.sub, hv] at this
    exact this rfl
  mul_one x _ := mul_id x hM
  one_mul x _ := id_mul x hM
  mul_zero x h := mul_null x _ (h.1 _ rfl)
  zero_mul x h := null_mul x _ (h.1 _ rfl)
  div_one x _ := div_id x hM
  zero_div x h := null_div x _ (h.1 _ rfl)
  pow_one x _ := by rw [show (ieeeOps L).pow x (ieeeOps L).one = x from L.pow_one x]; exact .refl _
  one_pow x _ := by rw [show (ieeeOps L).pow (ieeeOps L).one x = (ieeeOps L).one from L.one_pow x]; exact .refl _

/-! ## C91 -/

variable {φ : Format} {M : ℝ} {hM : 1 ≤ M}

/-- **C91**: `simplify` in IEEE arithmetic, with overflow, infinities and signed zeros. If the expression as it is written can be
computed node by node without a NaN, a division by zero or a negative power of zero, the simplified expression computes the same
value, bit for bit or up to the sign of a zero (unless products with numbers are regrouped: `noCollect`). -/
theorem C91_simplify (L : LibI φ M hM) (ρ : List Char → Ieee φ M) (e : Expr (Ieee φ M)) (v : Ieee φ M)
    (h : (ieee L).eval ρ e = some v) (hc : noCollect e = true) :
    ∃ e' v', (∀ n, e.height ≤ n → simpE Ieee.eq (ieeeOps L) n e = .ok e') ∧ (ieee L).eval ρ e' = some v' ∧
      (v' = v ∨ v'.isZero ∧ v.isZero) := by
  obtain ⟨e', v', h1, -, h2, h3, -⟩ := simpE_machine (ieee L) ρ e v h hc
  exact ⟨e', v', h1, h2, h3⟩

/-- **C91**: inserting values for all variables (infinities and signed zeros included) and simplifying gives the value computed node
by node, up to the sign of a zero. -/
theorem C91_insert (L : LibI φ M hM) (ρ : List Char → Ieee φ M) (e : Expr (Ieee φ M)) (v : Ieee φ M) (xs : List (List Char))
    (h : (ieee L).eval ρ e = some v) (hx : ∀ n ∈ e.vars, n ∈ xs) :
    ∃ v', (v' = v ∨ v'.isZero ∧ v.isZero) ∧
      ∀ n, e.height ≤ n → simpE Ieee.eq (ieeeOps L) n (subDict e (numDict ρ xs)) = .ok (.const v') :=
  insertE (ieee L) ρ e v xs h hx

/-! ## Without overflow -/

/-- The value is the finite number `x`. -/
def Ieee.IsNum (c : Ieee φ M) (x : ℝ) : Prop :=
  match c with
  | .zero _ => x = 0
  | .fin y _ _ _ => y = x
  | _ => False

/-- The library computes what `lib` does, unless it overflows. -/
structure Agrees (L : LibI φ M hM) (lib : Libm φ) : Prop where
  sin : ∀ c (x : Fl φ), c.IsNum x.1 → |(lib.sin x).1| ≤ M → (L.sin c).IsNum (lib.sin x).1
  cos : ∀ c (x : Fl φ), c.IsNum x.1 → |(lib.cos x).1| ≤ M → (L.cos c).IsNum (lib.cos x).1
  exp : ∀ c (x : Fl φ), c.IsNum x.1 → |(lib.exp x).1| ≤ M → (L.exp c).IsNum (lib.exp x).1
  log : ∀ c (x : Fl φ), c.IsNum x.1 → 0 < x.1 → |(lib.log x).1| ≤ M → (L.log c).IsNum (lib.log x).1
  pow : ∀ c c' (x y : Fl φ), c.IsNum x.1 → c'.IsNum y.1 → powDom x.1 y.1 → |(lib.pow x y).1| ≤ M →
    (L.pow c c').IsNum (lib.pow x y).1

/-- Reading literals as numbers of the type. (For a literal beyond the largest number the code does something else: it uses the largest
number.)
models: stator/symbolic/parser.hpp:460, 494-497. -/
noncomputable def ieeeLex (φ : Format) (M : ℝ) : NumLex (Ieee φ M) := ⟨fun s => .pack false (litVal s), .neg⟩

/-- `e'` is `e` with every constant that is safely in the range replaced by a nearest number. -/
def StoredI (e : Expr ℝ) (e' : Expr (Ieee φ M)) : Prop :=
  Like (fun k c => |k| + |φ.rnd k - k| ≤ M → ∃ x, c.IsNum x ∧ |x - k| ≤ |φ.rnd k - k|) e e'

/-- The value of every part of the expression, with the bound for its error, is in the range of the type. -/
def Fits (φ : Format) (M w : ℝ) (ρ d : List Char → ℝ) : Expr ℝ → Prop
  | .un o a => Fits φ M w ρ d a ∧ ∀ v δ, accuracy φ w ρ d (.un o a) = some (v, δ) → |v| + δ ≤ M
  | .bin o l r => Fits φ M w ρ d l ∧ Fits φ M w ρ d r ∧ ∀ v δ, accuracy φ w ρ d (.bin o l r) = some (v, δ) → |v| + δ ≤ M
  | .const k => |k| + |φ.rnd k - k| ≤ M
  | .var n => |ρ n| + d n ≤ M
  | _ => True

namespace Ieee

theorem IsNum.mem {c : Ieee φ M} {x : ℝ} (h : c.IsNum x) : x ∈ φ.F := by
  cases c <;> simp only [IsNum] at h
  · subst h; exact φ.zero
  · subst h; assumption

theorem IsNum.not_nan {c : Ieee φ M} {x : ℝ} (h : c.IsNum x) : c ≠ nan := by
  rintro rfl; exact h

theorem IsNum.same {c c' : Ieee φ M} {x : ℝ} (h : c.IsNum x) (hs : c'.Same c) : c'.IsNum x := by
  rcases hs.cases with rfl | ⟨a, b, rfl, rfl⟩
  · exact h
  · exact h

theorem pack_num (s : Bool) (x : ℝ) (h : |φ.rnd x| ≤ M) : (pack s x : Ieee φ M).IsNum (φ.rnd x) := by
  by_cases h0 : φ.rnd x = 0
  · simp only [pack, h0, dite_true]; rfl
  · simp only [pack, h0, dite_false, h, dite_true]; rfl

theorem IsNum.neg {c : Ieee φ M} {x : ℝ} (h : c.IsNum x) : c.neg.IsNum (-x) := by
  cases c <;> simp only [IsNum, Ieee.neg] at h ⊢
  · simp [h]
  · simp [h]

theorem IsNum.abs {c : Ieee φ M} {x : ℝ} (h : c.IsNum x) : c.abs.IsNum |x| := by
  cases c <;> simp only [IsNum, Ieee.abs] at h ⊢
  · simp [h]
  · simp [h]

theorem IsNum.add {c c' : Ieee φ M} {x y : ℝ} (h : c.IsNum x) (h' : c'.IsNum y) (hr : |φ.rnd (x + y)| ≤ M) :
    (c.add c').IsNum (φ.rnd (x + y)) := by
  cases c <;> simp only [IsNum] at h <;> cases c' <;> simp only [IsNum] at h' <;> subst h h' <;> simp only [Ieee.add, val]
  · simp only [IsNum, add_zero, rnd_zero]
  all_goals exact pack_num _ _ hr

theorem IsNum.sub {c c' : Ieee φ M} {x y : ℝ} (h : c.IsNum x) (h' : c'.IsNum y) (hr : |φ.rnd (x - y)| ≤ M) :
    (c.sub c').IsNum (φ.rnd (x - y)) := by
  rw [sub_eq_add_neg] at hr ⊢
  exact h.add h'.neg hr

theorem IsNum.mul {c c' : Ieee φ M} {x y : ℝ} (h : c.IsNum x) (h' : c'.IsNum y) (hr : |φ.rnd (x * y)| ≤ M) :
    (c.mul c').IsNum (φ.rnd (x * y)) := by
  cases c <;> simp only [IsNum] at h <;> cases c' <;> simp only [IsNum] at h' <;> subst h h' <;> simp only [Ieee.mul, val] <;>
    exact pack_num _ _ hr

theorem IsNum.div {c c' : Ieee φ M} {x y : ℝ} (h : c.IsNum x) (h' : c'.IsNum y) (hy : y ≠ 0) (hr : |φ.rnd (x / y)| ≤ M) :
    (c.div c').IsNum (φ.rnd (x / y)) := by
  cases c' <;> simp only [IsNum] at h'
  · exact absurd h' hy
  · cases c <;> simp only [IsNum] at h <;> subst h h' <;> simp only [Ieee.div, val] <;> exact pack_num _ _ hr

theorem IsNum.isZero {c : Ieee φ M} {x : ℝ} (h : c.IsNum x) (hz : c.isZero) : x = 0 := by
  cases c <;> simp only [Ieee.isZero] at hz
  exact h

theorem IsNum.negative {c : Ieee φ M} {x : ℝ} (h : c.IsNum x) (hz : c.negative) : x < 0 := by
  cases c <;> simp only [Ieee.negative] at hz
  · exact h.elim
  · simp only [IsNum] at h; subst h; exact hz

theorem un_num (L : LibI φ M hM) {lib : Libm φ} (ha : Agrees L lib) {o : UnOp} {c : Ieee φ M} {x r : Fl φ} (h : c.IsNum x.1)
    (hr : (flArith φ lib).unVal o x = some r) (hM' : |r.1| ≤ M) :
    ∃ v, (ieee L).unOk o c ∧ unOp (ieeeOps L) o c = some v ∧ v.IsNum r.1 := by
  have key : ∀ v, unOp (ieeeOps L) o c = some v → v.IsNum r.1 →
      ∃ v, (ieee L).unOk o c ∧ unOp (ieeeOps L) o c = some v ∧ v.IsNum r.1 := by
    intro v hv hn
    refine ⟨v, fun w hw => ?_, hv, hn⟩
    rw [hv] at hw
    simp only [Option.some.injEq] at hw
    rw [← hw]; exact hn.not_nan
  simp only [Arith.unVal] at hr
  split at hr
  case isFalse => simp at hr
  rename_i hok
  cases o <;> simp only [Option.some.injEq, reduceCtorEq] at hr <;> subst hr
  · exact key _ rfl (ha.sin c x h hM')
  · exact key _ rfl (ha.cos c x h hM')
  · exact key _ rfl (ha.exp c x h hM')
  · exact key _ rfl (ha.log c x h (hok rfl) hM')
  · exact key _ rfl h.abs
  · exact key _ rfl h.neg

theorem bin_num (L : LibI φ M hM) {lib : Libm φ} (ha : Agrees L lib) {o : BinOp} {c c' : Ieee φ M} {x y r : Fl φ}
    (h : c.IsNum x.1) (h' : c'.IsNum y.1) (hr : (flArith φ lib).binVal o x y = some r) (hM' : |r.1| ≤ M) :
    ∃ v, (ieee L).binOk o c c' ∧ binOp (ieeeOps L) o c c' = some v ∧ v.IsNum r.1 := by
  simp only [Arith.binVal] at hr
  split at hr
  case isFalse => simp at hr
  rename_i hok
  have key : ∀ v, binOp (ieeeOps L) o c c' = some v → v.IsNum r.1 →
      ∃ v, (ieee L).binOk o c c' ∧ binOp (ieeeOps L) o c c' = some v ∧ v.IsNum r.1 := by
    intro v hv hn
    refine ⟨v, ⟨fun w hw => ?_, fun ho hz => hok.1 ho (h'.isZero hz), ?_⟩, hv, hn⟩
    · rw [hv] at hw
      simp only [Option.some.injEq] at hw
      rw [← hw]; exact hn.not_nan
    · rintro ho ⟨hz, hneg⟩
      have h0 := h.isZero hz
      have h1 := h'.negative hneg
      rcases hok.2 ho with hd | hd | hd
      · linarith
      · linarith [hd.2]
      · linarith [hd.1]
  cases o <;> simp only [Option.some.injEq, reduceCtorEq] at hr <;> subst hr
  · exact key _ rfl (h.add h' hM')
  · exact key _ rfl (h.sub h' hM')
  · exact key _ rfl (h.mul h' hM')
  · exact key _ rfl (h.div h' (hok.1 rfl) hM')
  · exact key _ rfl (ha.pow c c' x y h h' (hok.2 rfl) hM')

end Ieee

theorem Format.rnd_neg_dist (φ : Format) (k : ℝ) : |φ.rnd (-k) - -k| = |φ.rnd k - k| := by
  refine le_antisymm ?_ ?_
  · have := φ.nearest (-k) (-φ.rnd k) (φ.neg _ (φ.mem _))
    rwa [neg_sub_neg, abs_sub_comm k] at this
  · have := φ.nearest k (-φ.rnd (-k)) (φ.neg _ (φ.mem _))
    rwa [show -φ.rnd (-k) - k = -(φ.rnd (-k) - -k) by ring, abs_neg] at this

theorem in_range {v δ c M : ℝ} (h : |c - v| ≤ δ) (hf : |v| + δ ≤ M) : |c| ≤ M := by
  have := abs_sub_abs_le_abs_sub c v
  linarith

theorem machineI (L : LibI φ M hM) {lib : Libm φ} (ha : Agrees L lib) {w : ℝ} (hw : 0 ≤ w) (hlib : Accurate φ lib w)
    {ρ d : List Char → ℝ} {σ : List Char → Ieee φ M} {e : Expr ℝ} {e' : Expr (Ieee φ M)} (hs : StoredI e e')
    (hσ : ∀ n ∈ e.vars, ∃ x, (σ n).IsNum x ∧ |x - ρ n| ≤ d n) (hf : Fits φ M w ρ d e) {v δ : ℝ}
    (h : accuracy φ w ρ d e = some (v, δ)) :
    ∃ c y, (ieee L).eval σ e' = some c ∧ c.IsNum y ∧ |y - v| ≤ δ := by
  induction hs generalizing v δ with
  | @const k c hk =>
    simp [accuracy] at h
    obtain ⟨x, h1, h2⟩ := hk hf
    exact ⟨c, x, rfl, h1, by rw [← h.1, ← h.2]; exact h2⟩
  | @var n =>
    simp [accuracy] at h
    obtain ⟨x, h1, h2⟩ := hσ n (by simp [Expr.vars])
    exact ⟨_, x, rfl, h1, by rw [← h.1, ← h.2]; exact h2⟩
  | @un o a a' _ ih =>
    have hfit := hf.2 v δ h
    simp only [accuracy, bind, Option.bind_eq_some_iff] at h
    obtain ⟨⟨x, δ'⟩, h1, v', h2, e', h3, h4⟩ := h
    simp at h4
    obtain ⟨rfl, rfl⟩ := h4
    obtain ⟨c, y, g1, gn, g2⟩ := ih (fun n hn => hσ n (by simpa [Expr.vars] using hn)) hf.1 h1
    obtain ⟨r, g3, g4⟩ := errUn_spec hw hlib (c := ⟨y, gn.mem⟩) g2 h2 h3
    obtain ⟨u, u1, u2, u3⟩ := Ieee.un_num L ha gn g3 (in_range g4 hfit)
    exact ⟨u, r.1, ((ieee L).eval_un ..).2 ⟨c, g1, u1, u2⟩, u3, g4⟩
  | @bin o l l' r r' _ _ ih1 ih2 =>
    have hfit := hf.2.2 v δ h
    simp only [accuracy, bind, Option.bind_eq_some_iff] at h
    obtain ⟨⟨x, δ'⟩, h1, ⟨y, ε⟩, h2, v', h3, e', h4, h5⟩ := h
    simp at h5
    obtain ⟨rfl, rfl⟩ := h5
    obtain ⟨c, z, g1, gn, g2⟩ := ih1 (fun n hn => hσ n (by simp [Expr.vars, hn])) hf.1 h1
    obtain ⟨c', z', g3, gn', g4⟩ := ih2 (fun n hn => hσ n (by simp [Expr.vars, hn])) hf.2.1 h2
    obtain ⟨r, g5, g6⟩ := errBin_spec hw hlib (c := ⟨z, gn.mem⟩) (c' := ⟨z', gn'.mem⟩) g2 g4 h3 h4
    obtain ⟨u, u1, u2, u3⟩ := Ieee.bin_num L ha gn gn' g5 (in_range g6 hfit)
    exact ⟨u, r.1, ((ieee L).eval_bin ..).2 ⟨c, c', g1, g3, u1, u2⟩, u3, g6⟩
  | arr => simp [accuracy] at h
  | dict => simp [accuracy] at h

/-- **C91**: the accuracy of C87 holds in IEEE arithmetic as long as nothing can overflow: if the value of every part of the
expression with its error bound is in the range of the type, inserting numbers and simplifying gives a finite number within the
bound. -/
theorem C91_accuracy (L : LibI φ M hM) (lib : Libm φ) (ha : Agrees L lib) (w : ℝ) (hw : 0 ≤ w) (hlib : Accurate φ lib w)
    (e : Expr ℝ) (e' : Expr (Ieee φ M)) (hs : StoredI e e') (ρ d : List Char → ℝ) (σ : List Char → Ieee φ M)
    (hσ : ∀ n ∈ e.vars, ∃ x, (σ n).IsNum x ∧ |x - ρ n| ≤ d n) (hf : Fits φ M w ρ d e) (v δ : ℝ)
    (h : accuracy φ w ρ d e = some (v, δ)) (xs : List (List Char)) (hx : ∀ n ∈ e.vars, n ∈ xs) :
    e.eval ρ = some v ∧ ∃ c y, Ieee.IsNum c y ∧ |y - v| ≤ δ ∧
      ∀ n, e.height ≤ n → simpE Ieee.eq (ieeeOps L) n (subDict e' (numDict σ xs)) = .ok (.const c) := by
  obtain ⟨c, y, h1, h2, h3⟩ := machineI L ha hw hlib hs hσ hf h
  have hv := accuracy_value h
  obtain ⟨g1, g2⟩ := like_shape hs (eval_arith ρ e hv)
  obtain ⟨c', h4, h5⟩ := C91_insert L σ e' c xs h1 (by rw [g1]; exact hx)
  exact ⟨hv, c', y, h2.same h4, h3, fun n hn => h5 n (by rw [g2]; exact hn)⟩

/-- **C91**, from the text to the number. -/
theorem C91_text (L : LibI φ M hM) (lib : Libm φ) (ha : Agrees L lib) (w : ℝ) (hw : 0 ≤ w) (hlib : Accurate φ lib w)
    (s : List Char) (e : Expr ℝ) (hs : parse exactLex s = .ok e) (ρ d : List Char → ℝ) (σ : List Char → Ieee φ M)
    (hσ : ∀ n ∈ e.vars, ∃ x, (σ n).IsNum x ∧ |x - ρ n| ≤ d n) (hf : Fits φ M w ρ d e) (v δ : ℝ)
    (h : accuracy φ w ρ d e = some (v, δ)) (xs : List (List Char)) (hx : ∀ n ∈ e.vars, n ∈ xs) :
    e.eval ρ = some v ∧ ∃ e', parse (ieeeLex φ M) s = .ok e' ∧ ∃ c y, Ieee.IsNum c y ∧ |y - v| ≤ δ ∧
      ∀ n, e.height ≤ n → simpE Ieee.eq (ieeeOps L) n (subDict e' (numDict σ xs)) = .ok (.const c) := by
  obtain ⟨e', h1, h2⟩ := parse_like (L := exactLex) (L' := ieeeLex φ M)
    (R := fun k (c : Ieee φ M) => |k| + |φ.rnd k - k| ≤ M → ∃ x, c.IsNum x ∧ |x - k| ≤ |φ.rnd k - k|)
    (fun s hr => ⟨_, Ieee.pack_num _ _ (in_range le_rfl hr), le_rfl⟩) (fun k c hk hr => by
      have hn := φ.rnd_neg_dist k
      change |-k| + |φ.rnd (-k) - -k| ≤ M at hr
      rw [abs_neg, hn] at hr
      obtain ⟨x, h1, h2⟩ := hk hr
      refine ⟨-x, h1.neg, ?_⟩
      change |-x - -k| ≤ |φ.rnd (-k) - -k|
      rw [hn, neg_sub_neg, abs_sub_comm]; exact h2) hs
  obtain ⟨h3, h4⟩ := C91_accuracy L lib ha w hw hlib e e' h2 ρ d σ hσ hf v δ h xs hx
  exact ⟨h3, e', h1, h4⟩

/-! ## What is not kept -/

/-- **C91**, NaN: `0*x` is simplified to 0. As it is written, it is NaN for an infinite `x`. -/
theorem C91_nan_lost (L : LibI φ M hM) (b : Bool) (n : Nat) :
    Ieee.mul (.zero false) (.inf b) = (.nan : Ieee φ M) ∧
    simpE Ieee.eq (ieeeOps L) (n + 2) (.bin .mul (.const (.zero false)) (.var ['x'])) = .ok (.const (.zero false)) := by
  refine ⟨rfl, ?_⟩
  simp [simpE, simpBinE, isConstE, BinOp.leftZero, ieeeOps, Ieee.eq, fresh]

/-- **C91**, the sign of zero: `0+x` is simplified to `x`, which is not the same for `x = -0`: `1/(0+x)` is +∞ as it is written, and
`1/x`, to which it is simplified, is -∞. -/
theorem C91_sign_lost (L : LibI φ M hM) (n : Nat) :
    Ieee.div (.one hM) (.add (.zero false) (.zero true)) = (.inf false : Ieee φ M) ∧
    Ieee.div (.one hM) (.zero true) = (.inf true : Ieee φ M) ∧
    simpE Ieee.eq (ieeeOps L) (n + 3) (.bin .div (.const (.one hM)) (.bin .add (.const (.zero false)) (.var ['x'])))
      = .ok (.bin .div (.const (.one hM)) (.var ['x'])) := by
  have h1 := Ieee.sgn_one (φ := φ) hM
  refine ⟨?_, ?_, ?_⟩
  · unfold Ieee.one at h1 ⊢
    simp only [Ieee.add, Ieee.div, h1]; rfl
  · unfold Ieee.one at h1 ⊢
    simp only [Ieee.div, h1]; rfl
  · have e1 : Ieee.eq (.one hM) (.zero false : Ieee φ M) = false := by unfold Ieee.one; rfl
    have e2 : Ieee.eq (.zero false) (.zero false : Ieee φ M) = true := rfl
    simp [simpE, simpBinE, isConstE, BinOp.leftZero, BinOp.leftId, BinOp.rightId, BinOp.rightZero, ieeeOps, e1, e2,
      ddVisitE, ddVisit]

/-- The largest `double`. -/
noncomputable def maxDouble : ℝ := (2 ^ 53 - 1) * 2 ^ 971

theorem big_le_maxDouble : (1000 : ℝ) ≤ maxDouble := by
  have h : (1 : ℝ) ≤ 2 ^ 971 := one_le_pow₀ (by norm_num)
  unfold maxDouble
  generalize (2 : ℝ) ^ 971 = t at h ⊢
  nlinarith

theorem one_le_maxDouble : (1 : ℝ) ≤ maxDouble := le_trans (by norm_num) big_le_maxDouble

theorem pow_mem (k : ℤ) (hk : -1074 ≤ k) : (2 : ℝ) ^ k ∈ binary64.F :=
  ⟨1, k, hk, by norm_num, by simp⟩

theorem rnd_pow (k : ℤ) (hk : -1074 ≤ k) : binary64.rnd ((2 : ℝ) ^ k) = 2 ^ k := binary64.rnd_of_mem (pow_mem k hk)

/-- The powers of two up to `2^1023` as `double`s. -/
noncomputable def twoPow (k : ℤ) (hk : -1074 ≤ k) (hk' : k ≤ 1023) : Ieee binary64 maxDouble :=
  .fin (2 ^ k) (pow_mem k hk) (two_zpow_pos k).ne' (by
    rw [abs_of_pos (two_zpow_pos k)]
    refine (zpow_le_zpow_right₀ (by norm_num) hk').trans ?_
    unfold maxDouble
    rw [show (1023 : ℤ) = 52 + 971 by norm_num, zpow_add₀ (by norm_num)]
    refine mul_le_mul_of_nonneg_right ?_ (by positivity)
    norm_num)

theorem twoPow_mul (i j : ℤ) (hi hi' hj hj') (h : -1074 ≤ i + j) (h' : i + j ≤ 1023) :
    Ieee.mul (twoPow i hi hi') (twoPow j hj hj') = twoPow (i + j) h h' := by
  have e : (2 : ℝ) ^ i * 2 ^ j = 2 ^ (i + j) := (zpow_add₀ (by norm_num) _ _).symm
  simp only [twoPow, Ieee.mul, Ieee.val, e]
  exact Ieee.pack_fin _ _ _ _ _

theorem twoPow_overflow (i j : ℤ) (hi hi' hj hj') (h : 1024 ≤ i + j) :
    Ieee.mul (twoPow i hi hi') (twoPow j hj hj') = .inf false := by
  have e : (2 : ℝ) ^ i * 2 ^ j = 2 ^ (i + j) := (zpow_add₀ (by norm_num) _ _).symm
  have h0 := two_zpow_pos (i + j)
  have hb : ¬ |(2 : ℝ) ^ (i + j)| ≤ maxDouble := by
    rw [abs_of_pos h0, not_le]
    refine lt_of_lt_of_le ?_ (zpow_le_zpow_right₀ (by norm_num) h)
    unfold maxDouble
    rw [show (1024 : ℤ) = 53 + 971 by norm_num, zpow_add₀ (by norm_num)]
    refine mul_lt_mul_of_pos_right ?_ (by positivity)
    norm_num
  simp only [twoPow, Ieee.mul, Ieee.val, e, Ieee.pack, rnd_pow (i + j) (by omega), h0.ne', hb, dite_false, not_lt.2 h0.le,
    decide_false]

/-- **C91**, overflow: collecting factors can overflow where the expression as it is written does not. `2^600*(2^600*x)` is `2^600`
for `x = 2^-600`; the simplified expression is `∞*x`. -/
theorem C91_collect_overflows (L : LibI binary64 maxDouble one_le_maxDouble) (n : Nat) :
    let big := twoPow 600 (by norm_num) (by norm_num)
    let x := twoPow (-600) (by norm_num) (by norm_num)
    Ieee.mul big (Ieee.mul big x) = big ∧
    simpE Ieee.eq (ieeeOps L) (n + 3) (.bin .mul (.const big) (.bin .mul (.const big) (.var ['x'])))
      = .ok (.bin .mul (.const (.inf false)) (.var ['x'])) ∧
    Ieee.mul (.inf false) x = .inf false := by
  intro big x
  have h1 : Ieee.mul big x = twoPow 0 (by norm_num) (by norm_num) := twoPow_mul 600 (-600) _ _ _ _ _ _
  have h2 : Ieee.mul big big = .inf false := twoPow_overflow 600 600 _ _ _ _ (by norm_num)
  have hb : (2 : ℝ) ^ (600 : ℤ) ≠ 1 := by
    have : (2 : ℝ) ^ (0 : ℤ) < 2 ^ (600 : ℤ) := zpow_lt_zpow_right₀ (by norm_num) (by norm_num)
    rw [zpow_zero] at this
    exact this.ne'
  have e0 : Ieee.eq big (.zero false) = false := rfl
  have e1 : Ieee.eq big (.one one_le_maxDouble) = false := by
    simp only [big, twoPow, Ieee.one, Ieee.eq, hb, decide_false]
  refine ⟨?_, ?_, ?_⟩
  · rw [h1]; exact twoPow_mul 600 0 _ _ _ _ _ _
  · simp [simpE, simpBinE, isConstE, BinOp.leftZero, BinOp.leftId, BinOp.rightId, BinOp.rightZero, ieeeOps, e0, e1,
      ddVisitE, ddVisit, mulUnits, mulConst, h2]
  · have := two_zpow_pos (-600)
    simp only [x, twoPow, Ieee.mul, Ieee.sgn, not_lt.2 this.le, decide_false]; rfl

/-! ## Such a library exists, and the hypotheses can be met -/

open Classical in
/-- A library for the type from one for unbounded exponents. -/
noncomputable def libOf (lib : Libm φ) (hM : 1 ≤ M) : LibI φ M hM where
  sin c := .pack false (lib.sin ⟨φ.rnd c.val, φ.mem _⟩).1
  cos c := .pack false (lib.cos ⟨φ.rnd c.val, φ.mem _⟩).1
  exp c := .pack false (lib.exp ⟨φ.rnd c.val, φ.mem _⟩).1
  log c := .pack false (lib.log ⟨φ.rnd c.val, φ.mem _⟩).1
  pow c c' := if c' = .one hM then c else if c = .one hM then c else
    .pack false (lib.pow ⟨φ.rnd c.val, φ.mem _⟩ ⟨φ.rnd c'.val, φ.mem _⟩).1
  sin_zero a b := .refl _
  cos_zero a b := .refl _
  exp_zero a b := .refl _
  log_zero a b := .refl _
  pow_zero x a b := by
    have h (a : Bool) : (Ieee.zero a : Ieee φ M) ≠ .one hM := by simp [Ieee.one]
    simp only [h, if_false]; exact .refl _
  zero_pow a b y _ := by
    have h (a : Bool) : (Ieee.zero a : Ieee φ M) ≠ .one hM := by simp [Ieee.one]
    by_cases hy : y = .one hM
    · simp only [hy, if_true]; exact Ieee.same_zero _ _
    · simp only [hy, if_false, h]; exact .refl _
  pow_one x := by simp
  one_pow x := by simp

theorem Ieee.IsNum.val {c : Ieee φ M} {x : Fl φ} (h : c.IsNum x.1) : (⟨φ.rnd c.val, φ.mem _⟩ : Fl φ) = x := by
  apply Subtype.ext
  cases c <;> simp only [IsNum] at h
  · simp only [Ieee.val, h, Ieee.rnd_zero]
  · simp only [Ieee.val, h, φ.rnd_of_mem x.2]

theorem libOf_agrees (lib : Libm φ) (hM : 1 ≤ M) : Agrees (libOf lib hM) lib := by
  have key : ∀ r : Fl φ, |r.1| ≤ M → (Ieee.pack false r.1 : Ieee φ M).IsNum r.1 := by
    intro r hr
    have := Ieee.pack_num (φ := φ) (M := M) false r.1 (by rwa [φ.rnd_of_mem r.2])
    rwa [φ.rnd_of_mem r.2] at this
  refine ⟨?_, ?_, ?_, ?_, ?_⟩
  · intro c x h hr; simp only [libOf, h.val]; exact key _ hr
  · intro c x h hr; simp only [libOf, h.val]; exact key _ hr
  · intro c x h hr; simp only [libOf, h.val]; exact key _ hr
  · intro c x h _ hr; simp only [libOf, h.val]; exact key _ hr
  · intro c c' x y h h' _ hr
    simp only [libOf, h.val, h'.val]
    by_cases h1 : c' = .one hM
    · have : y = ⟨1, φ.one⟩ := Subtype.ext (by subst h1; exact h'.symm)
      rw [if_pos h1, this, lib.pow_one]; exact h
    · rw [if_neg h1]
      by_cases h2 : c = .one hM
      · have : x = ⟨1, φ.one⟩ := Subtype.ext (by subst h2; exact h.symm)
        rw [if_pos h2, this, lib.one_pow]; subst h2; rfl
      · rw [if_neg h2]; exact key _ hr

/-- An infinite intermediate value is harmless: `1/(1+x)` for `x = ∞` is 0, also after `simplify`. -/
example (L : LibI φ M hM) :
    let e : Expr (Ieee φ M) := .bin .div (.const (.one hM)) (.bin .add (.const (.one hM)) (.var ['x']))
    noCollect e = true ∧ (ieee L).eval (fun _ => .inf false) e = some (.zero false) := by
  intro e
  refine ⟨rfl, ?_⟩
  have h1 : Ieee.add (.one hM) (.inf false) = (.inf false : Ieee φ M) := rfl
  have h2 : Ieee.div (.one hM) (.inf false) = (.zero false : Ieee φ M) := by
    have := Ieee.sgn_one (φ := φ) hM
    unfold Ieee.one at this ⊢
    simp only [Ieee.div, this]; rfl
  refine ((ieee L).eval_bin ..).2 ⟨_, .inf false, rfl, ((ieee L).eval_bin ..).2 ⟨_, _, rfl, rfl, ?_, ?_⟩, ?_, ?_⟩
  · refine ⟨fun v hv => ?_, by simp, by simp⟩
    simp only [binOp, ieeeOps, h1, Option.some.injEq] at hv
    rw [← hv]; simp
  · simp only [binOp, ieee, ieeeOps, h1]
  · refine ⟨fun v hv => ?_, by simp [Ieee.isZero], by simp⟩
    simp only [binOp, ieeeOps, h2, Option.some.injEq] at hv
    rw [← hv]; simp
  · simp only [binOp, ieee, ieeeOps, h2]

/-- `x*x + 1/2` at `x = 3`, in `double`. -/
example :
    let e : Expr ℝ := .bin .add (.bin .mul (.var ['x']) (.var ['x'])) (.const (1 / 2))
    (∃ v δ, accuracy binary64 binary64.u (fun _ => 3) (fun _ => 0) e = some (v, δ)) ∧
    Fits binary64 maxDouble binary64.u (fun _ => 3) (fun _ => 0) e ∧
    Agrees (libOf (nearestLibm binary64) one_le_maxDouble) (nearestLibm binary64) ∧
    Accurate binary64 (nearestLibm binary64) binary64.u := by
  intro e
  have hu : binary64.u ≤ 1 := by
    show (2 : ℝ) ^ _ ≤ 1
    norm_num [bin, binary64]
  have hη : binary64.η ≤ 1 := by
    show (2 : ℝ) ^ ((-1074 : ℤ) - 1) ≤ 1
    exact zpow_le_one_of_nonpos₀ (by norm_num) (by norm_num)
  have hu0 := binary64.u_nonneg
  have hη0 := binary64.η_nonneg
  have hhalf : binary64.rnd (1 / 2) = 1 / 2 := by
    have := rnd_pow (-1) (by norm_num)
    norm_num at this ⊢
    exact this
  have hM := big_le_maxDouble
  refine ⟨?_, ?_, libOf_agrees _ _, nearest_accurate _⟩
  · simp [e, accuracy, binVal, errBin]
  · simp only [e, Fits]
    refine ⟨⟨by norm_num; linarith, by norm_num; linarith, ?_⟩, ?_, ?_⟩
    · intro v δ h
      simp [accuracy, binVal, errBin, rounded] at h
      obtain ⟨rfl, rfl⟩ := h
      norm_num
      nlinarith
    · rw [hhalf]; norm_num; linarith
    · intro v δ h
      have hh : binary64.rnd 2⁻¹ = 2⁻¹ := by rw [← one_div]; exact hhalf
      simp [accuracy, binVal, errBin, rounded, hh] at h
      obtain ⟨rfl, rfl⟩ := h
      norm_num
      nlinarith

end Stator.Fp
