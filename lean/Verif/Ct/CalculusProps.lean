import Verif.Ct.Formed
import Mathlib.Algebra.Polynomial.Taylor
import Mathlib.Algebra.Polynomial.HasseDeriv
import Mathlib.Analysis.Calculus.Deriv.Polynomial

/-!
# Properties of compile-time expressions: simplification, derivative, substitution, Taylor series,
integration (C57, C58, C59, C37, C38)
-/

namespace Stator.Ct

open Filter Topology

/-! ## Simplification -/

theorem powSub_plain : ∀ (n : ℕ) {a e : E}, powSub n a = some e → a.plain → e.plain
  | 0, a, e, h, _ => by simp only [powSub, Option.some.injEq] at h; subst h; trivial
  | 1, a, e, h, ha => by simp only [powSub, Option.some.injEq] at h; subst h; exact ha
  | n + 2, a, e, h, ha => by
    simp only [powSub, Option.bind_eq_bind, Option.bind_eq_some_iff] at h
    obtain ⟨b, hb, he⟩ := h
    exact applyOp_plain (o := .mul) he (powSub_plain (n + 1) hb ha) ha

theorem simp_plain {a b : E} (h : Simp a b) (ha : a.plain) : b.plain := by
  induction h with
  | refl a => exact ha
  | trans _ _ h1 h2 => exact h2 (h1 ha)
  | prune h => exact applyOp_plain h ha.1 ha.2
  | rightZero | mulLeftZero | divLeftZero | powLeftZero | divSelf | constant => trivial
  | addRightId | subRightId | mulRightId | divRightId | powRightId => exact ha.1
  | addLeftId | mulLeftId => exact ha.2
  | nullSub h => exact opNeg_plain h ha.2
  | @square n e h => exact applyOp_plain (o := .pow) (l := .var n) (r := .c (.ofInt 2)) h trivial trivial
  | powMul h1 h2 =>
    exact applyOp_plain (o := .pow) h2 trivial (applyOp_plain (o := .add) h1 ha.1.2 trivial)
  | mulPow h1 h2 =>
    exact applyOp_plain (o := .pow) h2 trivial (applyOp_plain (o := .add) h1 ha.2.2 trivial)
  | operands _ _ h ih1 ih2 => exact applyOp_plain h (ih1 ha.1) (ih2 ha.2)
  | power _ h ih => exact powSub_plain _ h (ih ha.1)
  | assocRight _ _ h ih => exact applyOp_plain h ha.1.1 (ih ⟨ha.1.2, ha.2⟩)
  | assocLeft _ _ h ih => exact applyOp_plain h (ih ⟨ha.1, ha.2.1⟩) ha.2.2
  | commRight _ _ h ih => exact applyOp_plain h (ih ⟨ha.1.1, ha.2⟩) ha.1.2
  | commLeft _ _ h ih => exact applyOp_plain h (ih ⟨ha.1, ha.2.2⟩) ha.2.1
  | arbsignArbsign => exact absurd rfl ha.1
  | argument _ h _ ih => exact applyUn_plain h ha.1 (ih ha.2)
  | signBoth | signLeft | signEven | signOdd => exact absurd rfl ha.1.1
  | signRight => exact absurd rfl ha.2.1

/-- **C57.** Simplifying an expression without `±` gives an expression with the same single value,
wherever the original one has a value. -/
theorem C57_value {a b : E} (h : Simp a b) (ha : a.plain) {ρ : List Char → ℝ} {v : ℝ}
    (hv : v ∈ a.vals ρ) : b.vals ρ = {v} := by
  ext w
  exact ⟨fun hw => plain_unique (simp_plain h ha) hw (C57_simplify h ρ hv), fun hw => by
    rw [Set.mem_singleton_iff] at hw; rw [hw]; exact C57_simplify h ρ hv⟩

/-- A case of C57: `x * x` becomes `x^2`. -/
example : Simp (.bin .mul (.var ['x']) (.var ['x'])) (.bin .pow (.var ['x']) (.c (.ofInt 2))) ∧
    (9 : ℝ) ∈ (E.bin .mul (.var ['x']) (.var ['x'])).vals (fun _ => -3) :=
  ⟨.square (by simp [opPow, C.unity, C.ofInt]), ⟨-3, rfl, -3, rfl, by simp [Op.rt, binVal]; norm_num⟩⟩

/-- A case of C57: `(x + 1/2) + 3` becomes `x + 7/2`. -/
example : Simp (.bin .add (.bin .add (.var ['x']) (.c ⟨1, 2, by decide⟩)) (.c (.ofInt 3)))
    (.bin .add (.var ['x']) (.c ⟨7, 2, by decide⟩)) :=
  .assocRight (.inl rfl) (d := .c ⟨7, 2, by decide⟩) (.prune (by
    simp only [applyOp, opAdd, (C.C39_arithmetic _ _).1, C.toRat, C.ofInt, C.ofRat]
    norm_num)) (by simp [applyOp, opAdd, E.isC, C.null, C.ofInt, node, E.number])

/-- **C57 fails for the cube root of a negative number.** `pow(x, C<1,3>)` of a number is `std::cbrt`,
so `sub(pow(x, C<1,3>()) * x, x = -8)` is `16`; but `simplify` turns the product into
`pow(x, C<4,3>)`, and inserting `-8` there gives no number any more. -/
theorem C57_cube_root_fails :
    let f : E := .bin .mul (.bin .pow (.var ['x']) (.c .third)) (.var ['x'])
    let g : E := .bin .pow (.var ['x']) (.c ⟨4, 3, by decide⟩)
    Simp f g ∧ subst ['x'] (.num (some (-8))) f = some (.num (some 16)) ∧
      subst ['x'] (.num (some (-8))) g = some (.num none) := by
  refine ⟨.powMul (o' := .c ⟨4, 3, by decide⟩) ?_ ?_, ?_, ?_⟩
  · simp only [opAdd, (C.C39_arithmetic _ _).1, C.toRat, C.third, C.unity, C.ofInt, C.ofRat]
    norm_num
  · simp [opPow, C.unity, C.ofInt]
  · have h : cbrt (-8) = -2 := by
      unfold cbrt
      rw [if_pos (by norm_num), neg_neg, show (8 : ℝ) = 2 ^ (3 : ℝ) by norm_num,
        ← Real.rpow_mul (by norm_num)]
      norm_num
    simp [subst, applyOp, opPow, opMul, C.unity, C.third, C.ofInt, C.null, E.isC, node, E.number, h,
      numOp, Op.rt, binVal]
    norm_num
  · have h : ¬ powDom (-8) (C.val ⟨4, 3, by decide⟩) := by
      rintro (h | ⟨h, _⟩ | ⟨_, n, hn⟩)
      · norm_num at h
      · norm_num at h
      · have : (3 * n : ℝ) = 4 := by rw [← hn]; norm_num [C.val]
        have : 3 * n = 4 := by exact_mod_cast this
        omega
    simp [subst, applyOp, opPow, C.unity, C.third, C.ofInt, numOp, Op.rt, binVal, h]

/-- **C57: `±` is kept apart only in one direction.** The square of `x * (±y)` loses no value, but
`simplify` first writes `±(x*y)` and then multiplies it with itself, so a negative value appears that
the square cannot have. -/
theorem C57_spurious_sign :
    let f : E := .bin .pow (.bin .mul (.var ['x']) (.un .arbsign (.var ['y']))) (.c (.ofInt 2))
    let m : E := .bin .mul (.var ['x']) (.var ['y'])
    let g : E := .un .arbsign (.bin .mul m m)
    Simp f g ∧ (-1 : ℝ) ∈ g.vals (fun _ => 1) ∧ ∀ ρ, ∀ v ∈ f.vals ρ, 0 ≤ v := by
  refine ⟨?_, ?_, ?_⟩
  · refine .trans (b := .bin .mul (.un .arbsign (.bin .mul (.var ['x']) (.var ['y'])))
      (.un .arbsign (.bin .mul (.var ['x']) (.var ['y'])))) ?_ ?_
    · refine .power (n := 2) (a' := .un .arbsign (.bin .mul (.var ['x']) (.var ['y']))) ?_ ?_
      · exact .signRight (.inl rfl) (by simp [applyOp, opMul, E.isC, node, E.number])
      · simp [powSub, opMul, E.isC, node, E.number]
    · exact .signBoth (.inl rfl) (by simp [applyOp, opMul, E.isC, node, E.number])
  · rw [mem_vals_arbsign]
    refine .inr ⟨1, ⟨1, rfl, 1, rfl, ?_⟩, 1, ⟨1, rfl, 1, rfl, ?_⟩, ?_⟩ <;> simp [Op.rt, binVal]
  · rintro ρ v ⟨y, _, z, hz, hv⟩
    obtain ⟨_, hv⟩ := binVal_pow.1 hv
    simp only [vals_c, Set.mem_singleton_iff, C.val_ofInt] at hz
    rw [← hv, hz, Real.rpow_intCast]
    exact even_two.zpow_nonneg y

/-! ## Derivative -/

/-- **C58.** `derivative(f, x)` is the derivative: at every smooth point it has exactly one value, and
that is the derivative of the value of `f` as a function of `x`. -/
theorem C58_derivative {x : List Char} {f g : E} (hf : f.formed) (h : deriv x f = some g)
    {ρ : List Char → ℝ} (hr : f.Reg ρ) {F : ℝ → ℝ} (hF : ∀ᶠ t in 𝓝 (ρ x), F t ∈ f.vals (at_ ρ x t)) :
    ∃ v, g.vals ρ = {v} ∧ HasDerivAt F v (ρ x) := by
  obtain ⟨hg, hd⟩ := deriv_reg hf h hr
  refine ⟨g.fn ρ, hg.vals_eq, hd.congr_of_eventuallyEq ?_⟩
  have := (reg_near (e := f) (ρ := ρ) (x := x) (w := ρ x) (by rwa [at_self])).2
  filter_upwards [hF, this] with t h1 h2
  rw [h2.vals_eq] at h1
  exact h1

/-- The value of a smooth expression is unique, and it is `f.fn`. -/
theorem C58_smooth {f : E} {ρ : List Char → ℝ} (hr : f.Reg ρ) : f.vals ρ = {f.fn ρ} := hr.vals_eq

/-- **C58.** Every expression made with the operators and functions of the library is of the kind C58
is about: variables, constants and numbers are, and the operators, the functions, `derivative` and
`sub` return such expressions. -/
theorem C58_formed : (∀ a, (E.c a).formed) ∧ (∀ v, (E.num v).formed) ∧ (∀ n, (E.var n).formed) ∧
    (∀ o l r e, l.formed → r.formed → applyOp o l r = some e → e.formed) ∧
    (∀ o a e, a.formed → applyUn o a = some e → e.formed) ∧
    (∀ x f e, f.formed → deriv x f = some e → e.formed) :=
  ⟨fun _ => trivial, fun _ => trivial, fun _ => trivial, fun _ _ _ _ hl hr h => applyOp_formed h hl hr,
    fun _ _ _ ha h => applyUn_formed h ha, fun _ _ _ hf h => deriv_formed hf h⟩

/-- A case of C58: the derivative of `sin(x) / x` at `x = 2`. -/
example : let f : E := .bin .div (.un .sin (.var ['x'])) (.var ['x'])
    f.formed ∧ f.Reg (fun _ => 2) ∧ ∃ g, deriv ['x'] f = some g := by
  refine ⟨?_, ?_, ?_⟩
  · simp [E.formed, applyUn, applyOp, opDiv, node, E.number]
  · simp [E.Reg, E.fn]
  · simp [deriv, applyUn, opMul, opSub, opDiv, opPow, C.unity, C.null, C.ofInt, E.isC, node, E.number]

/-- **A quotient with a constant denominator has no derivative**: `derivative(x / C<n>())` needs
`pow(C<n>, C<2>)`, which does not compile. -/
theorem C58_constant_denominator (x : List Char) (f : E) (q : C) :
    deriv x (.bin .div f (.c q)) = none := by
  simp only [deriv, opPow]
  simp

/-! ## Substitution -/

/-- **C59.** Inserting a number, or any expression that is not a compile-time constant, for a
variable: for every value `w` of `a`, the values of `f` at the point where `x` is `w` are values of
`sub(f, x = a)`. -/
theorem C59_substitute {x : List Char} {a f g : E} (hf : f.formed) (ha : ∀ q, a ≠ .c q)
    (h : subst x a f = some g) {ρ : List Char → ℝ} {w v : ℝ} (hw : w ∈ a.vals ρ)
    (hv : v ∈ f.vals (at_ ρ x w)) : v ∈ g.vals ρ :=
  subst_vals (trigSafe_of_not_const ha hf) h hw hv

/-- **C59.** The same for a compile-time constant, provided no argument of a `sin` or a `cos` becomes
a constant other than zero. -/
theorem C59_substitute_constant {x : List Char} {q : C} {f g : E} (hs : TrigSafe x (.c q) f)
    (h : subst x (.c q) f = some g) {ρ : List Char → ℝ} {v : ℝ}
    (hv : v ∈ f.vals (at_ ρ x ((q.num : ℝ) / (q.den : ℝ)))) : v ∈ g.vals ρ :=
  subst_vals hs h (w := (q.num : ℝ) / (q.den : ℝ)) rfl hv

theorem subst_plain {x : List Char} {a e e' : E} (h : subst x a e = some e') (ha : a.plain)
    (he : e.plain) : e'.plain := by
  induction e generalizing e' with
  | c b => simp only [subst, Option.some.injEq] at h; subst h; trivial
  | num v => simp only [subst, Option.some.injEq] at h; subst h; trivial
  | var n =>
    simp only [subst, Option.some.injEq] at h; subst h
    split
    · exact ha
    · trivial
  | un o e ih =>
    simp only [subst, Option.bind_eq_bind, Option.bind_eq_some_iff] at h
    obtain ⟨b, hb, h⟩ := h
    exact applyUn_plain h he.1 (ih hb he.2)
  | bin o l r ih1 ih2 =>
    simp only [subst, Option.bind_eq_bind, Option.bind_eq_some_iff] at h
    obtain ⟨l', hl, r', hr, h⟩ := h
    exact applyOp_plain h (ih1 hl he.1) (ih2 hr he.2)

/-- **C59.** Without `±` the result has no other values. -/
theorem C59_unique {x : List Char} {a f g : E} (hf : f.formed) (ha : ∀ q, a ≠ .c q)
    (h : subst x a f = some g) (pa : a.plain) (pf : f.plain) {ρ : List Char → ℝ} {w v : ℝ}
    (hw : w ∈ a.vals ρ) (hv : v ∈ f.vals (at_ ρ x w)) : g.vals ρ = {v} := by
  have hg := C59_substitute hf ha h hw hv
  ext u
  exact ⟨fun hu => plain_unique (subst_plain h pa pf) hu hg, fun hu => by
    rw [Set.mem_singleton_iff] at hu; rw [hu]; exact hg⟩

/-- **C59 fails for compile-time constants in `sin` and `cos`**: `sub(cos(x), x = pi())` is the
constant `1`, not `-1`. -/
theorem C59_pi_fails : subst ['x'] (.c .pi) (.un .cos (.var ['x'])) = some (.c .unity) := by
  have h : C.pi.cos = some C.unity :=
    ((C.C40_result .pi 1 (by simp) .unity).2).2 (.inl ⟨⟨1, by simp⟩, rfl⟩)
  simp [subst, applyUn, h]

/-! ## Taylor series -/

theorem taylor_reg {x : List Char} {a : E} {ρ : List Char → ℝ} (ha : a.Reg ρ) :
    ∀ (n s : ℕ) {f e : E}, f.formed → TrigSafe x a f → f.Reg (at_ ρ x (a.fn ρ)) →
    taylorWorker x a n s f = some e → e.Reg ρ ∧ e.fn ρ = ∑ k ∈ Finset.range (n + 1),
      iteratedDeriv k (f.at ρ x) (a.fn ρ) / ((s + k).factorial : ℝ) * (ρ x - a.fn ρ) ^ k := by
  have zero : ∀ (k : ℕ), iteratedDeriv k ((E.c .null).at ρ x) (a.fn ρ) = 0 := by
    intro k
    have : (E.c .null).at ρ x = fun _ => 0 := by funext t; simp [E.at]
    rw [this]; simp
  have term : ∀ {s : ℕ} {f g u : E} {q : C}, TrigSafe x a f → f.Reg (at_ ρ x (a.fn ρ)) →
      C.invFactorial s = some q → subst x a f = some g → opMul (.c q) g = some u →
      u.Reg ρ ∧ u.fn ρ = f.at ρ x (a.fn ρ) / (s.factorial : ℝ) := by
    intro s f g u q hs hr hq hg hu
    obtain ⟨r1, v1⟩ := subst_reg hs hg ha hr
    obtain ⟨r2, v2⟩ := applyOp_reg (o := .mul) hu (ρ := ρ) ⟨trivial, r1⟩
    refine ⟨r2, ?_⟩
    obtain ⟨_, c, hc, hv⟩ := C.C39_factorial s
    rw [hq] at hc
    cases hc
    have hq' : q.val = 1 / (s.factorial : ℝ) := by rw [C.val_eq, hv]; push_cast; rfl
    rw [v2]; simp only [E.fn, ← C.val.eq_def, hq', v1, E.at]; ring
  intro n
  induction n with
  | zero =>
    intro s f e hf hs hr h
    unfold taylorWorker at h
    split at h
    · rename_i h0
      rw [isC_iff] at h0; subst h0
      simp only [Option.some.injEq] at h; subst h
      exact ⟨trivial, by simp [zero]⟩
    · simp only [Option.bind_eq_bind, Option.bind_eq_some_iff] at h
      obtain ⟨q, hq, g, hg, h⟩ := h
      obtain ⟨r, v⟩ := term hs hr hq hg h
      exact ⟨r, by rw [v]; simp⟩
  | succ n ih =>
    intro s f e hf hs hr h
    unfold taylorWorker at h
    split at h
    · rename_i h0
      rw [isC_iff] at h0; subst h0
      simp only [Option.some.injEq] at h; subst h
      exact ⟨trivial, by simp [zero]⟩
    · simp only [Option.bind_eq_bind, Option.bind_eq_some_iff] at h
      obtain ⟨q, hq, g, hg, u, hu, d, hd, f', hf', b, hb, p, hp, h⟩ := h
      obtain ⟨r1, v1⟩ := term hs hr hq hg hu
      obtain ⟨r2, v2⟩ := applyOp_reg (o := .sub) (l := .var x) (r := a) hd (ρ := ρ) ⟨trivial, ha⟩
      have hr' : f'.Reg (at_ ρ x (a.fn ρ)) := (deriv_reg hf hf' hr).1
      obtain ⟨r3, v3⟩ := ih (s + 1) (deriv_formed hf hf') (deriv_safe hs hf') hr' hb
      obtain ⟨r4, v4⟩ := applyOp_reg (o := .mul) hp (ρ := ρ) ⟨r2, r3⟩
      obtain ⟨r5, v5⟩ := applyOp_reg (o := .add) h (ρ := ρ) ⟨r1, r4⟩
      refine ⟨r5, ?_⟩
      have hder : _root_.deriv (f.at ρ x) =ᶠ[𝓝 (a.fn ρ)] f'.at ρ x := by
        filter_upwards [(reg_near hr).2] with t ht
        have := (deriv_reg hf hf' ht).2.deriv
        rw [at_same] at this
        have e1 : f.at (at_ ρ x t) x = f.at ρ x := by funext u; simp [E.at, at_at]
        rw [e1] at this
        exact this
      have hk : ∀ k, iteratedDeriv k (f'.at ρ x) (a.fn ρ) =
          iteratedDeriv (k + 1) (f.at ρ x) (a.fn ρ) := by
        intro k
        rw [iteratedDeriv_succ']
        exact (hder.iteratedDeriv_eq k).symm
      rw [Finset.sum_range_succ', v5]
      simp only [E.fn, v1, v4, v2, v3]
      rw [Finset.mul_sum, add_comm]
      congr 1
      · refine Finset.sum_congr rfl fun k _ => ?_
        rw [hk, show s + 1 + k = s + (k + 1) by ring, pow_succ]; ring
      · simp

/-- What `taylor_series<n>(f, a, x)` returns: the expression of the worker, simplified.
models: taylor.hpp:55-58. -/
def TaylorSeries (x : List Char) (a : E) (n : ℕ) (f e : E) : Prop :=
  ∃ e₀, taylorWorker x a n 0 f = some e₀ ∧ Simp e₀ e

/-- **C37.** The Taylor series. Let `f` be smooth where `x` has the value `w` of `a`, and let `F t` be
the value of `f` when `x` is `t`. Then `taylor_series<n>(f, a, x)` has exactly one value, the Taylor
polynomial of order `n` of `F` around `w`, evaluated at the value of `x`. -/
theorem C37_taylor {x : List Char} {a f e : E} {n : ℕ} (h : TaylorSeries x a n f e) (hf : f.formed)
    {ρ : List Char → ℝ} {w : ℝ} (ha : a.Reg ρ) (hw : w ∈ a.vals ρ) (hs : TrigSafe x a f)
    (hr : f.Reg (at_ ρ x w)) {F : ℝ → ℝ} (hF : ∀ᶠ t in 𝓝 w, F t ∈ f.vals (at_ ρ x t)) :
    e.vals ρ =
      {∑ k ∈ Finset.range (n + 1), iteratedDeriv k F w / (k.factorial : ℝ) * (ρ x - w) ^ k} := by
  obtain ⟨e₀, h0, h1⟩ := h
  rw [ha.vals_eq, Set.mem_singleton_iff] at hw
  subst hw
  obtain ⟨hr0, hv⟩ := taylor_reg ha n 0 hf hs hr h0
  have hFf : F =ᶠ[𝓝 (a.fn ρ)] f.at ρ x := by
    filter_upwards [hF, (reg_near hr).2] with t h1 h2
    rw [h2.vals_eq] at h1
    exact h1
  have : ∀ k, iteratedDeriv k F (a.fn ρ) = iteratedDeriv k (f.at ρ x) (a.fn ρ) := fun k =>
    hFf.iteratedDeriv_eq k
  rw [C57_value h1 hr0.plain hr0.mem_vals, hv]
  simp [this]

/-- **C37.** Around a number, or a symbolic point that is not a compile-time constant, no condition on
`sin` and `cos` is needed. -/
theorem C37_taylor_number {x : List Char} {a f e : E} {n : ℕ} (h : TaylorSeries x a n f e)
    (hf : f.formed) {ρ : List Char → ℝ} {w : ℝ} (ha : a.Reg ρ) (hc : ∀ q, a ≠ .c q)
    (hw : w ∈ a.vals ρ) (hr : f.Reg (at_ ρ x w)) {F : ℝ → ℝ}
    (hF : ∀ᶠ t in 𝓝 w, F t ∈ f.vals (at_ ρ x t)) :
    e.vals ρ =
      {∑ k ∈ Finset.range (n + 1), iteratedDeriv k F w / (k.factorial : ℝ) * (ρ x - w) ^ k} :=
  C37_taylor h hf ha hw (trigSafe_of_not_const hc hf) hr hF

theorem iteratedDeriv_polynomial (p : Polynomial ℝ) (k : ℕ) :
    iteratedDeriv k (fun t => p.eval t) = fun t => (Polynomial.derivative^[k] p).eval t := by
  induction k generalizing p with
  | zero => simp
  | succ k ih =>
    rw [iteratedDeriv_succ']
    have : _root_.deriv (fun t => p.eval t) = fun t => (Polynomial.derivative p).eval t := by
      funext t; exact p.deriv
    rw [this, ih]; simp

theorem taylor_polynomial (p : Polynomial ℝ) (n : ℕ) (hp : p.natDegree ≤ n) (w y : ℝ) :
    ∑ k ∈ Finset.range (n + 1), iteratedDeriv k (fun t => p.eval t) w / (k.factorial : ℝ) * (y - w) ^ k
      = p.eval y := by
  have h1 : ∀ k, iteratedDeriv k (fun t => p.eval t) w / (k.factorial : ℝ) =
      (Polynomial.taylor w p).coeff k := by
    intro k
    rw [iteratedDeriv_polynomial, Polynomial.taylor_coeff, ← Polynomial.factorial_smul_hasseDeriv]
    have : (k.factorial : ℝ) ≠ 0 := by exact_mod_cast Nat.factorial_ne_zero k
    show Polynomial.eval w (k.factorial • (Polynomial.hasseDeriv k) p) / _ = _
    rw [Polynomial.eval_smul, nsmul_eq_mul]
    field_simp
  simp only [h1]
  rw [← Polynomial.eval_eq_sum_range' (by rw [Polynomial.natDegree_taylor]; omega),
    Polynomial.taylor_eval]
  simp

/-- **C37.** A polynomial of order at most `n` is reproduced exactly. -/
theorem C37_polynomial {x : List Char} {a f e : E} {n : ℕ} (h : TaylorSeries x a n f e) (hf : f.formed)
    {ρ : List Char → ℝ} {w : ℝ} (ha : a.Reg ρ) (hw : w ∈ a.vals ρ) (hs : TrigSafe x a f)
    (hr : f.Reg (at_ ρ x w)) {p : Polynomial ℝ} (hp : p.natDegree ≤ n)
    (hF : ∀ t, p.eval t ∈ f.vals (at_ ρ x t)) : e.vals ρ = {p.eval (ρ x)} := by
  rw [C37_taylor h hf ha hw hs hr (F := fun t => p.eval t) (.of_forall hF), taylor_polynomial p n hp]

theorem opAdd_total (l r : E) : ∃ e, opAdd l r = some e := by
  unfold opAdd; split <;> (try split) <;> (try split) <;> exact ⟨_, rfl⟩

theorem opNeg_total (e : E) : ∃ e', opNeg e = some e' := by
  unfold opNeg; split <;> exact ⟨_, rfl⟩

theorem opSub_total (l r : E) : ∃ e, opSub l r = some e := by
  unfold opSub; split <;> (try split) <;> (try split) <;> first | exact opNeg_total _ | exact ⟨_, rfl⟩

theorem opMul_total (l r : E) : ∃ e, opMul l r = some e := by
  unfold opMul; split <;> (try split) <;> (try split) <;> (try split) <;> (try split) <;> exact ⟨_, rfl⟩

/-- A case of C37: the series of `exp(x)` around the number `1` to first order exists, and its
conditions hold. -/
example : let f : E := .un .exp (.var ['x'])
    f.formed ∧ (E.num (some 1)).Reg (fun _ => 0) ∧ f.Reg (at_ (fun _ => 0) ['x'] 1) ∧
    ∃ e, TaylorSeries ['x'] (.num (some 1)) 1 f e := by
  refine ⟨⟨trivial, rfl⟩, by simp [E.Reg], trivial, ?_⟩
  suffices h : ∃ e₀, taylorWorker ['x'] (.num (some 1)) 1 0 (.un .exp (.var ['x'])) = some e₀ by
    obtain ⟨e₀, h⟩ := h; exact ⟨e₀, e₀, h, .refl _⟩
  unfold taylorWorker taylorWorker
  obtain ⟨_, c0, h0, _⟩ := C.C39_factorial 0
  obtain ⟨_, c1, h1, _⟩ := C.C39_factorial 1
  obtain ⟨u, hu⟩ := opMul_total (.c c0) (.num (unVal .exp 1))
  obtain ⟨v, hv⟩ := opMul_total (.c c1) (.num (unVal .exp 1))
  obtain ⟨d, hd⟩ := opSub_total (.var ['x']) (.num (some 1))
  obtain ⟨m, hm⟩ := opMul_total d v
  obtain ⟨e, he⟩ := opAdd_total u m
  have hd1 : deriv ['x'] (.un .exp (.var ['x'])) = some (.un .exp (.var ['x'])) := by
    simp [deriv, opMul, E.isC, C.unity, C.null, C.ofInt]
  have hs1 : subst ['x'] (.num (some 1)) (.un .exp (.var ['x'])) = some (.num (unVal .exp 1)) := by
    simp [subst, applyUn]
  refine ⟨e, ?_⟩
  simp [E.isC, h0, h1, hd1, hs1, hu, hv, hd, hm, he]

/-! ## Integration -/

/-- **C38.** The value of `integrate(f, x)` has the derivative `f` with respect to `x`, at every smooth
point of `f`. -/
theorem C38_integrate {x : List Char} {f G : E} (hf : f.formed) (h : integrate x f = some G)
    {ρ : List Char → ℝ} (hr : f.Reg ρ) :
    G.Reg ρ ∧ G.formed ∧ HasDerivAt (fun t => G.fn (at_ ρ x t)) (f.fn ρ) (ρ x) := by
  have const : ∀ {f G : E}, f.formed → f.Reg ρ → integrate.constant x f = some G →
      G.Reg ρ ∧ G.formed ∧ HasDerivAt (G.at ρ x) (f.fn ρ) (ρ x) := by
    intro f G hf hr h
    unfold integrate.constant at h
    split at h
    · rename_i d hd
      split at h
      · rename_i h0
        rw [isC_iff] at h0; subst h0
        obtain ⟨_, d1⟩ := deriv_reg hf hd hr
        have hreg : ∀ᶠ t in 𝓝 (ρ x), f.Reg (at_ ρ x t) :=
          (reg_near (ρ := ρ) (x := x) (w := ρ x) (by rwa [at_self])).2
        refine ⟨(applyOp_reg (o := .mul) h (ρ := ρ) ⟨hr, trivial⟩).1,
          applyOp_formed (o := .mul) h hf trivial, ?_⟩
        have d2 := d1.mul (hasDerivAt_id (ρ x))
        rw [at_eq] at d2
        have d3 : HasDerivAt (fun t => f.at ρ x t * t) (f.fn ρ) (ρ x) := by
          refine HasDerivAt.congr_deriv d2 ?_; simp
        refine d3.congr_of_eventuallyEq ?_
        filter_upwards [hreg] with t ht
        have := (applyOp_reg (o := .mul) h (ρ := at_ ρ x t) ⟨ht, trivial⟩).2
        simp only [E.fn, at_same] at this
        exact this
      · simp at h
    · simp at h
  induction f generalizing G with
  | c a => exact const hf hr h
  | num v => exact const hf hr h
  | var n => exact const hf hr h
  | un o a => exact const hf hr h
  | bin o l r ih1 ih2 =>
    cases o
    · simp only [integrate, Option.bind_eq_bind, Option.bind_eq_some_iff] at h
      obtain ⟨l', hl, r', hr', h⟩ := h
      obtain ⟨r1, f1, d1⟩ := ih1 hf.1 hl hr.1
      obtain ⟨r2, f2, d2⟩ := ih2 hf.2.1 hr' hr.2
      refine ⟨(applyOp_reg (o := .add) h (ρ := ρ) ⟨r1, r2⟩).1, applyOp_formed (o := .add) h f1 f2, ?_⟩
      have n1 := (reg_near (ρ := ρ) (x := x) (w := ρ x) (e := l') (by rwa [at_self])).2
      have n2 := (reg_near (ρ := ρ) (x := x) (w := ρ x) (e := r') (by rwa [at_self])).2
      refine (d1.add d2).congr_of_eventuallyEq ?_
      filter_upwards [n1, n2] with t h1 h2
      exact (applyOp_reg (o := .add) h (ρ := at_ ρ x t) ⟨h1, h2⟩).2
    · simp only [integrate, Option.bind_eq_bind, Option.bind_eq_some_iff] at h
      obtain ⟨l', hl, r', hr', h⟩ := h
      obtain ⟨r1, f1, d1⟩ := ih1 hf.1 hl hr.1
      obtain ⟨r2, f2, d2⟩ := ih2 hf.2.1 hr' hr.2
      refine ⟨(applyOp_reg (o := .sub) h (ρ := ρ) ⟨r1, r2⟩).1, applyOp_formed (o := .sub) h f1 f2, ?_⟩
      have n1 := (reg_near (ρ := ρ) (x := x) (w := ρ x) (e := l') (by rwa [at_self])).2
      have n2 := (reg_near (ρ := ρ) (x := x) (w := ρ x) (e := r') (by rwa [at_self])).2
      refine (d1.sub d2).congr_of_eventuallyEq ?_
      filter_upwards [n1, n2] with t h1 h2
      exact (applyOp_reg (o := .sub) h (ρ := at_ ρ x t) ⟨h1, h2⟩).2
    · exact const hf hr h
    · exact const hf hr h
    · by_cases hp : ∃ p, l = .var x ∧ r = .c (.ofInt p)
      · obtain ⟨p, rfl, rfl⟩ := hp
        have hh : integrate x (.bin .pow (.var x) (.c (.ofInt p))) =
            if hp : p + 1 = 0 then none
            else (do opMul (.c ⟨1, p + 1, hp⟩) (← opPow (.var x) (.c (.ofInt (p + 1))))) := by
          simp [integrate, C.ofInt]
        rw [hh] at h
        split at h
        · simp at h
        · rename_i hp0
          simp only [Option.bind_eq_bind, Option.bind_eq_some_iff] at h
          obtain ⟨q, hq, h⟩ := h
          have hp1 : ((p : ℝ) + 1) ≠ 0 := by exact_mod_cast hp0
          have reg1 : ∀ {σ : List Char → ℝ}, (E.bin .pow (.var x) (.c (.ofInt p))).Reg σ →
              (E.bin .pow (.var x) (.c (.ofInt (p + 1)))).Reg σ := by
            intro σ hσ
            refine ⟨trivial, trivial, ?_⟩
            rcases hσ.2.2 with h0 | ⟨n, hn⟩ | ⟨_, h0⟩
            · exact .inl h0
            · refine .inr (.inl ⟨n + 1, ?_⟩)
              have : p = n := by simpa [C.ofInt] using hn
              rw [this]; push_cast; rfl
            · exact .inr (.inr ⟨⟨p + 1, by simp⟩, h0⟩)
          have val : ∀ {σ : List Char → ℝ}, (E.bin .pow (.var x) (.c (.ofInt p))).Reg σ →
              G.Reg σ ∧ G.fn σ = σ x ^ ((p : ℝ) + 1) / ((p : ℝ) + 1) := by
            intro σ hσ
            obtain ⟨r1, v1⟩ := applyOp_reg (o := .pow) (l := .var x) (r := .c (.ofInt (p + 1))) hq (reg1 hσ)
            obtain ⟨r2, v2⟩ := applyOp_reg (o := .mul) h (ρ := σ) ⟨trivial, r1⟩
            refine ⟨r2, ?_⟩
            rw [v2]; simp only [E.fn, v1]; simp [C.ofInt]; ring
          refine ⟨(val hr).1, applyOp_formed (o := .mul) h trivial
            (applyOp_formed (o := .pow) (l := .var x) (r := .c (.ofInt (p + 1))) hq trivial trivial), ?_⟩
          have near := (reg_near (ρ := ρ) (x := x) (w := ρ x)
            (e := .bin .pow (.var x) (.c (.ofInt p))) (by rwa [at_self])).2
          have d : HasDerivAt (fun t : ℝ => t ^ ((p : ℝ) + 1) / ((p : ℝ) + 1)) (ρ x ^ (p : ℝ)) (ρ x) := by
            have h0 : ρ x ≠ 0 ∨ 1 ≤ (p : ℝ) + 1 := by
              rcases hr.2.2 with h0 | ⟨n, hn⟩ | ⟨_, h0⟩
              · exact .inl h0.ne'
              · have : p = n := by simpa [C.ofInt] using hn
                exact .inr (by rw [this]; simp)
              · exact .inl h0
            refine HasDerivAt.congr_deriv ((Real.hasDerivAt_rpow_const h0).div_const _) ?_
            rw [add_sub_cancel_right]; field_simp
          have : (E.bin .pow (.var x) (.c (.ofInt p))).fn ρ = ρ x ^ (p : ℝ) := by
            simp [E.fn, C.ofInt]
          rw [this]
          refine d.congr_of_eventuallyEq ?_
          filter_upwards [near] with t ht
          rw [(val ht).2, at_same]
      · have hh : integrate x (.bin .pow l r) = integrate.constant x (.bin .pow l r) := by
          cases l <;> cases r <;> try rfl
          rename_i n q
          obtain ⟨p, d, hd⟩ := q
          by_cases hd1 : d = 1
          · subst hd1
            simp only [integrate]
            rw [if_neg]
            rintro rfl
            exact hp ⟨p, rfl, rfl⟩
          · simp only [integrate]
            split
            · rename_i heq
              simp only [E.bin.injEq, E.c.injEq, C.mk.injEq] at heq
              exact absurd heq.2.2.2 hd1
            · rfl
        rw [hh] at h
        exact const hf hr h

/-- **C38.** `derivative(integrate(f, x), x)` has the value of `f`, at every smooth point of `f`. -/
theorem C38_inverse {x : List Char} {f G g : E} (hf : f.formed) (h : integrate x f = some G)
    (hg : deriv x G = some g) {ρ : List Char → ℝ} (hr : f.Reg ρ) : g.vals ρ = f.vals ρ := by
  obtain ⟨r, fo, d⟩ := C38_integrate hf h hr
  obtain ⟨r', d'⟩ := deriv_reg fo hg r
  rw [r'.vals_eq, hr.vals_eq, d'.unique d]

/-- The derivative of the expression compiles. -/
def HasDeriv (x : List Char) (e : E) : Prop := ∃ d, deriv x e = some d

theorem hasDeriv_node {x : List Char} {o : Op} (ho : o = .add ∨ o = .sub ∨ o = .mul) {l r : E} (hl : HasDeriv x l)
    (hr : HasDeriv x r) : HasDeriv x (node o l r) := by
  unfold node
  split
  · exact ⟨_, rfl⟩
  · obtain ⟨a, ha⟩ := hl
    obtain ⟨b, hb⟩ := hr
    rcases ho with rfl | rfl | rfl
    · obtain ⟨e, he⟩ := opAdd_total a b
      exact ⟨e, by simp [deriv, ha, hb, he]⟩
    · obtain ⟨e, he⟩ := opSub_total a b
      exact ⟨e, by simp [deriv, ha, hb, he]⟩
    · obtain ⟨c, hc⟩ := opMul_total a r
      obtain ⟨d, hd⟩ := opMul_total l b
      obtain ⟨e, he⟩ := opAdd_total c d
      exact ⟨e, by simp [deriv, ha, hb, hc, hd, he]⟩

theorem hasDeriv_opAdd {x : List Char} {l r e : E} (hl : HasDeriv x l) (hr : HasDeriv x r) (h : opAdd l r = some e) :
    HasDeriv x e := by
  unfold opAdd at h
  split at h
  · cases h; exact ⟨_, rfl⟩
  · split at h
    · cases h; exact hl
    · split at h
      · cases h; exact hr
      · cases h; exact hasDeriv_node (.inl rfl) hl hr

theorem hasDeriv_opNeg {x : List Char} {e e' : E} (he : HasDeriv x e) (h : opNeg e = some e') : HasDeriv x e' := by
  unfold opNeg at h
  split at h
  · cases h; exact ⟨_, rfl⟩
  · cases h; exact ⟨_, rfl⟩
  · cases h
    obtain ⟨d, hd⟩ := he
    obtain ⟨n, hn⟩ := opNeg_total d
    exact ⟨n, by simp [deriv, hd, hn]⟩

theorem hasDeriv_opSub {x : List Char} {l r e : E} (hl : HasDeriv x l) (hr : HasDeriv x r) (h : opSub l r = some e) :
    HasDeriv x e := by
  unfold opSub at h
  split at h
  · cases h; exact ⟨_, rfl⟩
  · split at h
    · cases h; exact hl
    · split at h
      · exact hasDeriv_opNeg hr h
      · cases h; exact hasDeriv_node (.inr (.inl rfl)) hl hr

theorem hasDeriv_opMul {x : List Char} {l r e : E} (hl : HasDeriv x l) (hr : HasDeriv x r) (h : opMul l r = some e) :
    HasDeriv x e := by
  unfold opMul at h
  split at h
  · cases h; exact ⟨_, rfl⟩
  · split at h
    · cases h; exact ⟨_, rfl⟩
    · split at h
      · cases h; exact ⟨_, rfl⟩
      · split at h
        · cases h; exact hl
        · split at h
          · cases h; exact hr
          · cases h; exact hasDeriv_node (.inr (.inr rfl)) hl hr

theorem hasDeriv_pow {x n : List Char} {c : C} {e : E} (h : opPow (.var n) (.c c) = some e) : HasDeriv x e := by
  simp only [opPow] at h
  split at h
  · cases h; exact ⟨_, rfl⟩
  · cases h
    have h2 : ∃ p, opPow (.var n) (.c (c.sub .unity)) = some p := by
      simp only [opPow]
      split <;> exact ⟨_, rfl⟩
    obtain ⟨p, hp⟩ := h2
    obtain ⟨q, hq⟩ := opMul_total (.c c) (.c (if n = x then .unity else .null))
    obtain ⟨r, hr⟩ := opMul_total q p
    exact ⟨r, by simp [deriv, hp, hq, hr]⟩

/-- **C38.** The integral can be differentiated: whatever `integrate(f, x)` accepts, `derivative(integrate(f, x), x)` compiles. -/
theorem C38_differentiable {x : List Char} {f G : E} (h : integrate x f = some G) : ∃ g, deriv x G = some g := by
  have const : ∀ {f G : E}, integrate.constant x f = some G → HasDeriv x G := by
    intro f G h
    unfold integrate.constant at h
    split at h
    · next d hd =>
      split at h
      · exact hasDeriv_opMul ⟨d, hd⟩ ⟨_, rfl⟩ h
      · cases h
    · cases h
  show HasDeriv x G
  fun_induction integrate x f generalizing G with
  | case1 l r ih1 ih2 =>
    simp only [Option.bind_eq_bind, Option.bind_eq_some_iff] at h
    obtain ⟨a, ha, b, hb, h⟩ := h
    exact hasDeriv_opAdd (ih1 ha) (ih2 hb) h
  | case2 l r ih1 ih2 =>
    simp only [Option.bind_eq_bind, Option.bind_eq_some_iff] at h
    obtain ⟨a, ha, b, hb, h⟩ := h
    exact hasDeriv_opSub (ih1 ha) (ih2 hb) h
  | case3 => cases h
  | case4 =>
    simp only [Option.bind_eq_bind, Option.bind_eq_some_iff] at h
    obtain ⟨a, ha, h⟩ := h
    exact hasDeriv_opMul ⟨_, rfl⟩ (hasDeriv_pow ha) h
  | case5 => exact const h
  | case6 => exact const h

/-- A case of C38: the integral of `x^2 + y`. -/
example : let f : E := .bin .add (.bin .pow (.var ['x']) (.c (.ofInt 2))) (.var ['y'])
    f.formed ∧ f.Reg (fun _ => -1) ∧ ∃ G, integrate ['x'] f = some G := by
  refine ⟨?_, ?_, ?_⟩
  · simp [E.formed, applyOp, opAdd, opPow, E.isC, C.unity, C.ofInt, node, E.number]
  · exact ⟨⟨trivial, trivial, .inr (.inl ⟨2, rfl⟩)⟩, trivial⟩
  · simp [integrate, integrate.constant, C.ofInt, opPow, opMul, opAdd, C.unity, E.isC, deriv, C.null,
      node, E.number]

/-- **Gaps of `integrate`**: the variable itself, and its power `-1`, are not accepted. -/
theorem C38_gaps (x : List Char) : integrate x (.var x) = none ∧
    integrate x (.bin .pow (.var x) (.c (.ofInt (-1)))) = none := by
  constructor
  · simp [integrate, integrate.constant, deriv, E.isC, C.unity, C.null, C.ofInt]
  · simp [integrate, C.ofInt]

end Stator.Ct
