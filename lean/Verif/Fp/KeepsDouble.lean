import Verif.Rt.KeepsValue
import Verif.Fp.Decimal
import Verif.Fp.Accuracy

/-!
# C103 for `double`: which texts with 17 digits keep the value

`Rt/KeepsValue` with the numbers of `double`, printed and read as in `Fp/Decimal`: the conditions are stated without
the printer. Without products like `x*(-2)*y`, whose factors are regrouped, the computed `double` is the same too.
-/

namespace Stator.Fp

open Stator

/-! ## Specification -/

variable {K : Type}

/-- A negative constant. -/
def NegConstant (neg : K → Prop) (e : Expr K) : Prop := ∃ k, e = .const k ∧ neg k

/-- Expressions made of constants, variables, functions, unary minus and `+ - * / ^` in which no divisor, base,
exponent or argument of a function is a negative constant and no base is a power; unless `P`, nor is the second factor
of a product a negative constant. -/
def Admissible (neg : K → Prop) (P : Prop) : Expr K → Prop
  | .const _ => True
  | .var n => IsName n
  | .un .neg a => Admissible neg P a
  | .un .sin a => Admissible neg P a ∧ ¬ NegConstant neg a
  | .un .cos a => Admissible neg P a ∧ ¬ NegConstant neg a
  | .un .exp a => Admissible neg P a ∧ ¬ NegConstant neg a
  | .un .log a => Admissible neg P a ∧ ¬ NegConstant neg a
  | .bin .add l r => Admissible neg P l ∧ Admissible neg P r
  | .bin .sub l r => Admissible neg P l ∧ Admissible neg P r
  | .bin .mul l r => Admissible neg P l ∧ Admissible neg P r ∧ (P ∨ ¬ NegConstant neg r)
  | .bin .div l r => Admissible neg P l ∧ Admissible neg P r ∧ ¬ NegConstant neg r
  | .bin .pow l r => Admissible neg P l ∧ Admissible neg P r ∧ ¬ NegConstant neg l ∧ ¬ NegConstant neg r ∧
      l.isBin .pow = false
  | _ => False

/-- Printing a number of the format. models: repr.hpp (see `showG`). -/
noncomputable def showFl {φ : Format} (rd : ℝ → ℤ) (P : ℕ) (x : Fl φ) : List Char := showG rd P x.1

/-! ## Proofs -/

section

variable {L : NumLex K} {showK : K → List Char} {neg : K → Prop} {P : Prop}

theorem not_isNeg (hneg : ∀ k, NegConst L showK k → neg k ∧ ∃ c, NegOf L showK k c) {e : Expr K}
    (hw : Writable L showK e) (h : ¬ NegConstant neg e) : ¬ IsNeg showK e := by
  rintro ⟨k, t, rfl, hk⟩
  cases hw with
  | const hw =>
    rcases hw with hw | hw
    · exact lit_not_neg hw.1 ⟨k, t, rfl, hk⟩
    · exact h ⟨k, rfl, (hneg k hw).1⟩

theorem admissible_noNeg (hneg : ∀ k, NegConst L showK k → neg k ∧ ∃ c, NegOf L showK k c) {e : Expr K}
    (hw : Writable L showK e) (h : Admissible neg P e) : NoNegOperand L showK P e := by
  induction e using Expr.ind with
  | const k =>
    cases hw with
    | const hw =>
      rcases hw with hw | hw
      · exact .const hw
      · obtain ⟨-, c, hc⟩ := hneg k hw
        exact .negc hc
  | var n => exact .var h
  | un o a ih =>
    cases hw with
    | un hw =>
      have hn := not_isNeg hneg hw
      cases o with
      | neg => exact .neg (ih hw h)
      | sin => exact .fn (s := ['s', 'i', 'n']) rfl (ih hw h.1) (hn h.2)
      | cos => exact .fn (s := ['c', 'o', 's']) rfl (ih hw h.1) (hn h.2)
      | exp => exact .fn (s := ['e', 'x', 'p']) rfl (ih hw h.1) (hn h.2)
      | log => exact .fn (s := ['l', 'n']) rfl (ih hw h.1) (hn h.2)
      | _ => exact h.elim
  | bin o l r ih1 ih2 =>
    cases hw with
    | bin hl hr =>
      have hnl := not_isNeg hneg hl
      have hnr := not_isNeg hneg hr
      cases o with
      | add => exact .add (ih1 hl h.1) (ih2 hr h.2)
      | sub => exact .sub (ih1 hl h.1) (ih2 hr h.2)
      | mul => exact .mul (ih1 hl h.1) (ih2 hr h.2.1) (h.2.2.imp_right hnr)
      | div => exact .div (ih1 hl h.1) (ih2 hr h.2.1) (hnr h.2.2)
      | pow => exact .pow (ih1 hl h.1) (ih2 hr h.2.1) (hnl h.2.2.1) (hnr h.2.2.2.1) h.2.2.2.2
      | _ => exact h.elim
  | arr xs => exact h.elim
  | dict kvs => exact h.elim

end

theorem negOf_double (φ : Format) (hφ : IsDouble φ) {rd : ℝ → ℤ} (hrd : Nearest rd) {k : ℝ}
    (h : NegConst (numLex φ) (showG rd (precision 0)) k) :
    k < 0 ∧ NegOf (numLex φ) (showG rd (precision 0)) k (-k) := by
  obtain ⟨h1, h2⟩ := (C75_constants φ hφ hrd enough_double k).2.1 h
  have h3 := C75_sign rd (precision 0) (x := -k) (by linarith)
  rw [neg_neg] at h3
  have h4 := (C75_constants φ hφ hrd enough_double (-k)).1.2 ⟨φ.neg k h1, by linarith⟩
  exact ⟨h2, h3, h4.1, h4.2, neg_neg k⟩

/-- **C103 for doubles.** Printed with 17 digits, an admissible expression over doubles is read as an expression with
the same value for every assignment of the variables. -/
theorem C103_double (φ : Format) (hφ : IsDouble φ) {rd : ℝ → ℤ} (hrd : Nearest rd) (e : Expr ℝ) (h : Over φ e)
    (ha : Admissible (fun x : ℝ => x < 0) True e) :
    ∃ s f, e.repr (showG rd (precision 0)) = some s ∧ parse (numLex φ) s = .ok f ∧ ∀ ρ, f.eval ρ = e.eval ρ :=
  C103_plain (fun _ => rfl) e (admissible_noNeg (fun _ hk => ⟨(negOf_double φ hφ hrd hk).1, _, (negOf_double φ hφ hrd hk).2⟩)
    ((C75_writable φ hφ hrd enough_double e).2 h) ha)

/-! ### Computed values -/

section

variable {φ : Format} (lib : Libm φ) (hsym : ∀ x, φ.rnd (-x) = -φ.rnd x) (L : NumLex (Fl φ))
  (hneg : ∀ x, (L.neg x).1 = -x.1)

include hneg in
theorem evalFl_negate (ρ : List Char → Fl φ) (e : Expr (Fl φ)) :
    (flArith φ lib).eval ρ (negate L e) = ((flArith φ lib).eval ρ e).map (flArith φ lib).ops.neg := by
  cases e with
  | const k => simp only [negate, Arith.eval, Option.map_some, Option.some.injEq]; exact Subtype.ext (hneg k)
  | _ =>
    simp only [negate, Arith.eval, Option.map_eq_bind]
    first
      | rfl
      | (congr 1; funext x; simp [Arith.unVal, flArith])

include hsym in
theorem fl_mul (x y : Fl φ) :
    (flArith φ lib).binVal .mul ((flArith φ lib).ops.neg x) y = ((flArith φ lib).binVal .mul x y).map (flArith φ lib).ops.neg := by
  simp only [Arith.binVal, flArith, flOps]
  simp [neg_mul, hsym]

include hsym in
theorem fl_div (x y : Fl φ) :
    (flArith φ lib).binVal .div ((flArith φ lib).ops.neg x) y = ((flArith φ lib).binVal .div x y).map (flArith φ lib).ops.neg := by
  by_cases hy : y.1 = 0 <;> simp [Arith.binVal, flArith, flOps, neg_div, hsym, hy]

include hsym in
theorem fl_bin {o : BinOp} (ho : o = .mul ∨ o = .div) (a b : Option (Fl φ)) :
    ((a.map (flArith φ lib).ops.neg).bind fun x => b.bind fun y => (flArith φ lib).binVal o x y) =
      (a.bind fun x => b.bind fun y => (flArith φ lib).binVal o x y).map (flArith φ lib).ops.neg := by
  cases a with
  | none => rfl
  | some x =>
    cases b with
    | none => rfl
    | some y =>
      rcases ho with rfl | rfl
      · exact fl_mul lib hsym x y
      · exact fl_div lib hsym x y

include hsym hneg in
theorem leads_evalFl {showK : Fl φ → List Char} (ρ : List Char → Fl φ) {e g : Expr (Fl φ)} (h : Leads L showK e g) :
    (flArith φ lib).eval ρ e = ((flArith φ lib).eval ρ g).map (flArith φ lib).ops.neg := by
  have hk : ∀ k c, NegOf L showK k c → some k = (some c).map (flArith φ lib).ops.neg := by
    intro k c h
    rw [← h.2.2.2]
    exact congrArg some (Subtype.ext (hneg c))
  induction h with
  | @mul k c r h => simp only [Arith.eval, hk k c h]; exact fl_bin lib hsym (.inl rfl) (some c) _
  | @div k c r h => simp only [Arith.eval, hk k c h]; exact fl_bin lib hsym (.inr rfl) (some c) _
  | @mulL l l' r _ ih => simp only [Arith.eval, ih]; exact fl_bin lib hsym (.inl rfl) _ _
  | @divL l l' r _ ih => simp only [Arith.eval, ih]; exact fl_bin lib hsym (.inr rfl) _ _

include hsym hneg in
theorem moved_evalFl {showK : Fl φ → List Char} (ρ : List Char → Fl φ) {e f : Expr (Fl φ)}
    (h : Moved L showK False e f) : (flArith φ lib).eval ρ f = (flArith φ lib).eval ρ e := by
  induction h with
  | const => rfl
  | var => rfl
  | un _ ih => simp only [Arith.eval, ih]
  | neg _ ih =>
    rw [evalFl_negate lib L hneg, ih, Option.map_eq_bind]
    simp only [Arith.eval]
    congr 1; funext x; simp [Arith.unVal, flArith]
  | bin _ _ ih1 ih2 => simp only [Arith.eval, ih1, ih2]
  | lead h _ ih => rw [evalFl_negate lib L hneg, ih, leads_evalFl lib hsym L hneg ρ h]
  | inside hP => exact hP.elim

end

/-- **C103 in rounded arithmetic.** If rounding does not depend on the sign, what is read also has the same computed value
(every operation rounded, any mathematical library), provided no second factor of a product is a negative constant. -/
theorem C103_rounded {φ : Format} (lib : Libm φ) (hsym : ∀ x, φ.rnd (-x) = -φ.rnd x) (L : NumLex (Fl φ))
    (hneg : ∀ x, (L.neg x).1 = -x.1) (showK : Fl φ → List Char) (e : Expr (Fl φ)) (h : NoNegOperand L showK False e) :
    ∃ s f, e.repr showK = some s ∧ parse L s = .ok f ∧ ∀ ρ, (flArith φ lib).eval ρ f = (flArith φ lib).eval ρ e := by
  obtain ⟨s, f, h1, h2, h3⟩ := keeps_parsed (plain_keeps h).1
  exact ⟨s, f, h1, h2, fun ρ => moved_evalFl lib hsym L hneg ρ h3⟩

/-- Names are names, at any depth. -/
theorem admissible_writable {φ : Format} (hφ : IsDouble φ) {rd : ℝ → ℤ} (hrd : Nearest rd) {neg : Fl φ → Prop} {P : Prop}
    {e : Expr (Fl φ)} (h : Admissible neg P e) : Writable (flLex φ) (showFl rd (precision 0)) e := by
  induction e using Expr.ind with
  | const k =>
    have hc := C75_constants φ hφ hrd enough_double k.1
    refine .const ?_
    rcases le_or_gt 0 k.1 with h0 | h0
    · obtain ⟨h1, h2⟩ := hc.1.2 ⟨k.2, h0⟩
      exact .inl ⟨h1, Subtype.ext h2⟩
    · obtain ⟨t, h1, h2, h3⟩ := hc.2.2 ⟨k.2, h0⟩
      exact .inr ⟨t, h1, h2, Subtype.ext h3⟩
  | var n => exact .var h
  | un o a ih =>
    cases o with
    | neg => exact .un (ih h)
    | abs => exact h.elim
    | arbsign => exact h.elim
    | _ => exact .un (ih h.1)
  | bin o l r ih1 ih2 =>
    cases o with
    | add => exact .bin (ih1 h.1) (ih2 h.2)
    | sub => exact .bin (ih1 h.1) (ih2 h.2)
    | mul => exact .bin (ih1 h.1) (ih2 h.2.1)
    | div => exact .bin (ih1 h.1) (ih2 h.2.1)
    | pow => exact .bin (ih1 h.1) (ih2 h.2.1)
    | _ => exact h.elim
  | arr xs => exact h.elim
  | dict kvs => exact h.elim

/-- The same for doubles printed with 17 digits. -/
theorem C103_double_computed {φ : Format} (hφ : IsDouble φ) (lib : Libm φ) (hsym : ∀ x, φ.rnd (-x) = -φ.rnd x)
    {rd : ℝ → ℤ} (hrd : Nearest rd) (e : Expr (Fl φ)) (ha : Admissible (fun x : Fl φ => x.1 < 0) False e) :
    ∃ s f, e.repr (showFl rd (precision 0)) = some s ∧ parse (flLex φ) s = .ok f ∧
      ∀ ρ, (flArith φ lib).eval ρ f = (flArith φ lib).eval ρ e := by
  refine C103_rounded lib hsym _ (fun _ => rfl) _ e (admissible_noNeg ?_ (admissible_writable hφ hrd ha) ha)
  rintro k ⟨t, h1, h2, h3⟩
  obtain ⟨h4, h5, h6, h7, h8⟩ := negOf_double φ hφ hrd (k := k.1) ⟨t, h1, h2, congrArg Subtype.val h3⟩
  exact ⟨h4, ⟨-k.1, φ.neg _ k.2⟩, h5, h6, Subtype.ext h7, Subtype.ext h8⟩

/-! ### Rounding that does not depend on the sign -/

open Classical in
/-- The format with the rounding of positive numbers used for negative ones. -/
noncomputable def symm (φ : Format) : Format where
  F := φ.F
  rnd x := if 0 ≤ x then φ.rnd x else -φ.rnd (-x)
  u := φ.u
  η := φ.η
  mem x := by
    split
    · exact φ.mem x
    · exact φ.neg _ (φ.mem _)
  nearest x y hy := by
    split
    · exact φ.nearest x y hy
    · have := φ.nearest (-x) (-y) (φ.neg y hy)
      rw [show -φ.rnd (-x) - x = -(φ.rnd (-x) - -x) by ring, abs_neg]
      rwa [show -y - -x = -(y - x) by ring, abs_neg] at this
  one := φ.one
  neg := φ.neg
  dbl := φ.dbl
  half a ha b hb := by
    split
    · exact φ.half a ha b hb
    · rw [neg_add]
      rcases φ.half (-a) (φ.neg a ha) (-b) (φ.neg b hb) with h | h
      · left; rw [neg_div]; exact φ.neg _ h
      · right; rw [h]; ring
  finite := φ.finite
  u_nonneg := φ.u_nonneg
  η_nonneg := φ.η_nonneg
  err x := by
    split
    · exact φ.err x
    · have := φ.err (-x)
      rw [show -φ.rnd (-x) - x = -(φ.rnd (-x) - -x) by ring, abs_neg]
      rwa [abs_neg] at this

theorem symm_rnd (φ : Format) (x : ℝ) : (symm φ).rnd (-x) = -(symm φ).rnd x := by
  rcases lt_trichotomy x 0 with h | rfl | h
  · simp [symm, h.le, h.not_ge]
  · have : φ.rnd 0 = 0 := φ.rnd_of_mem φ.zero
    simp [symm, this]
  · simp [symm, h.le, h.not_ge]

/-- **The condition on products is needed**: in three-bit arithmetic `(x*(-5))*y` is -112 at `x = 3`, `y = 7`; what is read from
its text is -96. -/
theorem C103_regroup_fails (lib : Libm (symm three)) (L : NumLex (Fl (symm three))) (showK : Fl (symm three) → List Char)
    (hneg : ∀ x, (L.neg x).1 = -x.1) (k c : Fl (symm three)) (hc : c.1 = 5) (h : NegOf L showK k c)
    (x y : List Char) (hx : IsName x) (hy : IsName y) (hxy : x ≠ y) :
    ∃ s f ρ, (Expr.bin .mul (.bin .mul (.var x) (.const k)) (.var y)).repr showK = some s ∧ parse L s = .ok f ∧
      ((flArith (symm three) lib).eval ρ (.bin .mul (.bin .mul (.var x) (.const k)) (.var y))).map Subtype.val = some (-112) ∧
      ((flArith (symm three) lib).eval ρ f).map Subtype.val = some (-96) := by
  obtain ⟨s, h1, h2⟩ := C103_product_read L showK h x y hx hy
  have hk : k.1 = -5 := by rw [← h.2.2.2, hneg, hc]
  have r1 : three.rnd (5 * 7) = 32 := by
    have := binRnd_val (p := 3) (emin := 0) (x := 5 * 7) 5 4 (by norm_num) (by norm_num) (by norm_num) (by norm_num)
      (by norm_num)
    norm_num at this ⊢; exact this
  have r2 : three.rnd (3 * 32) = 96 := by
    have := binRnd_val (p := 3) (emin := 0) (x := 3 * 32) 6 6 (by norm_num) (by norm_num) (by norm_num) (by norm_num)
      (by norm_num)
    norm_num at this ⊢; exact this
  have r3 : three.rnd (3 * 5) = 16 := by
    have := binRnd_val (p := 3) (emin := 0) (x := 3 * 5) 3 8 (by norm_num) (by norm_num) (by norm_num) (by norm_num)
      (by norm_num)
    norm_num at this ⊢; exact this
  have r4 : three.rnd (16 * 7) = 112 := by
    have := binRnd_val (p := 3) (emin := 0) (x := 16 * 7) 6 7 (by norm_num) (by norm_num) (by norm_num) (by norm_num)
      (by norm_num)
    norm_num at this ⊢; exact this
  have hs : ∀ x, 0 ≤ x → (symm three).rnd x = three.rnd x := fun x hx => if_pos hx
  have s1 := (hs (5 * 7) (by norm_num)).trans r1
  have s2 := (hs (3 * 32) (by norm_num)).trans r2
  have s3 := (hs (3 * 5) (by norm_num)).trans r3
  have s4 := (hs (16 * 7) (by norm_num)).trans r4
  refine ⟨s, _, fun n => if n = x then ⟨3, by exact_mod_cast three_int 3 (by norm_num)⟩ else
    ⟨7, by exact_mod_cast three_int 7 (by norm_num)⟩, h1, h2, ?_, ?_⟩
  · simp [Arith.eval, Arith.binVal, flArith, flOps, hxy.symm, hk, symm_rnd, s3, s4]
  · simp [Arith.eval, Arith.binVal, Arith.unVal, flArith, flOps, hxy.symm, hc, symm_rnd, s1, s2]

/-! ## Concrete cases -/

theorem isDouble_symm : IsDouble (symm binary64) := rfl

/-- `(-0.25)*x - (-1)/y` satisfies the hypotheses of both theorems. -/
example : ∃ e : Expr ℝ, e = .bin .sub (.bin .mul (.const (-1 / 4)) (.var ['x'])) (.bin .div (.const (-1)) (.var ['y'])) ∧
    Over binary64 e ∧ Admissible (fun x : ℝ => x < 0) True e := by
  refine ⟨_, rfl, .bin (.bin (.const ⟨-1, -2, by norm_num, by norm_num, by norm_num⟩) (.var isName_x))
    (.bin (.const (binary64.neg _ binary64.one)) (.var isName_y)), ?_⟩
  refine ⟨⟨trivial, isName_x, .inl trivial⟩, trivial, isName_y, ?_⟩
  rintro ⟨k, h, -⟩; cases h

/-- The computed value of `(-1)*x + 1/y` survives printing. -/
example (lib : Libm (symm binary64)) := C103_double_computed isDouble_symm lib (symm_rnd _) nearest_round
  (.bin .add (.bin .mul (.const ⟨-1, (symm binary64).neg _ (symm binary64).one⟩) (.var ['x']))
    (.bin .div (.const ⟨1, (symm binary64).one⟩) (.var ['y'])))
  ⟨⟨trivial, isName_x, .inr (by rintro ⟨k, h, -⟩; cases h)⟩, trivial, isName_y, (by rintro ⟨k, h, -⟩; cases h)⟩

open Classical in
/-- The hypotheses of `C103_regroup_fails` can be met. -/
example : ∃ (L : NumLex (Fl (symm three))) (showK : Fl (symm three) → List Char) (k c : Fl (symm three)),
    (∀ x, (L.neg x).1 = -x.1) ∧ c.1 = 5 ∧ NegOf L showK k c := by
  have h5 : (5 : ℝ) ∈ (symm three).F := by exact_mod_cast three_int 5 (by norm_num)
  have hne : (⟨-5, (symm three).neg _ h5⟩ : Fl (symm three)) ≠ ⟨5, h5⟩ := by
    intro h; have := congrArg Subtype.val h; norm_num at this
  refine ⟨⟨fun _ => ⟨5, h5⟩, fun x => ⟨-x.1, (symm three).neg _ x.2⟩⟩, fun x => if x = ⟨5, h5⟩ then ['3'] else ['-', '3'],
    ⟨-5, (symm three).neg _ h5⟩, ⟨5, h5⟩, fun _ => rfl, rfl, ?_, ?_, rfl, rfl⟩
  · simp [hne]
  · simpa using isLit_3

end Stator.Fp
