import Verif.Rt.DerivProps
import Verif.Rt.SubstProps

/-!
# Inserting numbers: `simplify(sub(f, {x: 1.5, ...}))`

The way a user evaluates an expression. Numbers are reals or "not a number" (`none`): the result of a
function outside its domain, which propagates. (An IEEE division by zero gives an infinity; here it
gives `none`, so nothing is claimed about results that went through an infinity.)
-/

namespace Stator

/-- Real arithmetic with a not-a-number element. -/
noncomputable def nanOps : NumOps (Option ℝ) where
  zero := some 0
  one := some 1
  add x y := x.bind fun a => y.bind fun b => binVal .add a b
  sub x y := x.bind fun a => y.bind fun b => binVal .sub a b
  mul x y := x.bind fun a => y.bind fun b => binVal .mul a b
  div x y := x.bind fun a => y.bind fun b => binVal .div a b
  pow x y := x.bind fun a => y.bind fun b => binVal .pow a b
  neg x := x.bind (unVal .neg)
  sin x := x.bind (unVal .sin)
  cos x := x.bind (unVal .cos)
  exp x := x.bind (unVal .exp)
  log x := x.bind (unVal .log)
  abs x := x.bind (unVal .abs)

/-- Reading the constants of an expression as numbers of `nanOps`. -/
def Expr.embed : Expr ℝ → Expr (Option ℝ)
  | .const k => .const (some k)
  | .var n => .var n
  | .un o a => .un o a.embed
  | .bin o l r => .bin o l.embed r.embed
  | .arr _ => .arr []
  | .dict _ => .dict []

/-- Arithmetic expressions: numbers, variables, `+ - * / ^`, negation and the elementary functions. -/
def Expr.arith {K : Type} : Expr K → Bool
  | .const _ => true
  | .var _ => true
  | .un o a => o != .arbsign && a.arith
  | .bin o l r => (o == .add || o == .sub || o == .mul || o == .div || o == .pow)
      && l.arith && r.arith
  | .arr _ => false
  | .dict _ => false

/-- The dictionary `{x1: ρ x1, x2: ρ x2, ...}`. -/
def valueDict (ρ : List Char → ℝ) (xs : List (List Char)) : List (List Char × Expr (Option ℝ)) :=
  xs.map fun n => (n, .const (some (ρ n)))

theorem valueDict_find (ρ : List Char → ℝ) (xs : List (List Char)) (n : List Char) (h : n ∈ xs) :
    ((valueDict ρ xs).find? fun p => p.1 = n) = some (n, .const (some (ρ n))) := by
  induction xs with
  | nil => simp at h
  | cons m xs ih =>
    simp only [valueDict, List.map_cons, List.find?_cons]
    by_cases hm : m = n
    · simp [hm]
    · simp only [hm, decide_false]
      exact ih (by simpa [Ne.symm hm] using h)

theorem simpBin_nan (rec : Expr (Option ℝ) → Res (Expr (Option ℝ))) (o : BinOp)
    (ho : o = .add ∨ o = .sub ∨ o = .mul ∨ o = .div ∨ o = .pow) (ρ : List Char → ℝ) (l r : Expr ℝ) :
    simpBin nanOps rec o (.const (l.evalS ρ)) (.const (r.evalS ρ))
      = .ok (.const ((Expr.bin o l r).evalS ρ)) := by
  have h01 : (0:ℝ) ≠ 1 := by norm_num
  generalize hx : l.evalS ρ = x
  generalize hy : r.evalS ρ = y
  rcases ho with rfl | rfl | rfl | rfl | rfl
  · simp only [Expr.evalS, hx, hy]
    simp [simpBin, isConst, BinOp.leftZero, BinOp.leftId, BinOp.rightZero, BinOp.rightId, ddVisit,
      foldBin, nanOps]
    by_cases h1 : x = some 0
    · subst h1; cases y <;> simp [binVal]
    · by_cases h2 : y = some 0
      · subst h2; cases x <;> simp_all [binVal]
      · simp [h1, h2]
  · simp only [Expr.evalS, hx, hy]
    simp [simpBin, isConst, BinOp.leftZero, BinOp.leftId, BinOp.rightZero, BinOp.rightId, ddVisit,
      foldBin, nanOps]
    by_cases h2 : y = some 0
    · subst h2; cases x <;> simp_all [binVal]
    · by_cases h1 : x = some 0
      · subst h1; cases y <;> simp_all [binVal, unVal]
      · simp [h1, h2]
  · simp only [Expr.evalS, hx, hy]
    simp [simpBin, isConst, BinOp.leftZero, BinOp.leftId, BinOp.rightZero, BinOp.rightId, ddVisit,
      foldBin, nanOps, mulUnits]
    by_cases h1 : x = some 0
    · simp [h1]
    by_cases h3 : x = some 1
    · subst h3; cases y with
      | none => simp
      | some y => by_cases hy0 : y = 0 <;> simp [hy0, binVal]
    by_cases h2 : y = some 0
    · simp [h1, h2, h3]
    by_cases h4 : y = some 1
    · subst h4; cases x <;> simp_all [binVal]
    · simp [h1, h2, h3, h4]
  · simp only [Expr.evalS, hx, hy]
    simp [simpBin, isConst, BinOp.leftZero, BinOp.leftId, BinOp.rightZero, BinOp.rightId, ddVisit,
      foldBin, nanOps]
    by_cases h1 : x = some 0
    · simp [h1]
    by_cases h4 : y = some 1
    · subst h4; cases x <;> simp_all [binVal]
    · simp [h1, h4]
  · simp only [Expr.evalS, hx, hy]
    simp [simpBin, isConst, BinOp.leftZero, BinOp.leftId, BinOp.rightZero, BinOp.rightId, ddVisit,
      foldBin, nanOps]
    by_cases h1 : x = some 1
    · simp [h1]
    by_cases h4 : y = some 1
    · subst h4
      cases x with
      | none => simp
      | some x =>
        have : powDom x 1 := by simpa using powDom_nat x 1
        simp_all [binVal]
    · simp [h1, h4]

/-- **C52**. Inserting numbers for (at least) all variables of an arithmetic expression and
simplifying gives the value of the expression: a single number, the real value where there is one. -/
theorem C52_insert_and_simplify (ρ : List Char → ℝ) (f : Expr ℝ) (xs : List (List Char))
    (hf : f.arith = true) (hx : ∀ n ∈ f.vars, n ∈ xs) (n : Nat) (hn : f.height ≤ n) :
    simp nanOps n (subDict f.embed (valueDict ρ xs)) = .ok (.const (f.evalS ρ)) := by
  induction f using Expr.ind generalizing n with
  | const k =>
    cases n with
    | zero => simp [Expr.height] at hn
    | succ n => simp [Expr.embed, subDict, substDict, simp, Expr.evalS]
  | var m =>
    cases n with
    | zero => simp [Expr.height] at hn
    | succ n =>
      rw [Expr.embed, subDict_var, valueDict_find ρ xs m (hx m (by simp [Expr.vars]))]
      simp [simp, Expr.evalS]
  | un o a ih =>
    cases n with
    | zero => simp [Expr.height] at hn
    | succ n =>
      simp [Expr.arith] at hf
      simp only [Expr.height] at hn
      rw [Expr.embed, subDict_un, simp, ih hf.2 hx n (by omega), Res.ok_bind]
      cases o <;> simp_all [foldUn, Expr.evalS, nanOps]
  | bin o l r ih1 ih2 =>
    cases n with
    | zero => simp [Expr.height] at hn
    | succ n =>
      simp [Expr.arith] at hf
      simp only [Expr.height] at hn
      simp only [Expr.vars, List.mem_append] at hx
      rw [Expr.embed, subDict_bin, simp, ih1 hf.1.2 (fun m h => hx m (.inl h)) n (by omega),
        Res.ok_bind, ih2 hf.2 (fun m h => hx m (.inr h)) n (by omega), Res.ok_bind]
      exact simpBin_nan _ o (by tauto) ρ l r
  | arr => simp [Expr.arith] at hf
  | dict => simp [Expr.arith] at hf

theorem deriv_arith {K : Type} (N : NumOps K) (x : List Char) (f : Expr K) (hf : f.arith = true) :
    ∃ e, deriv N x f = .ok e ∧ e.arith = true ∧ ∀ n ∈ e.vars, n ∈ f.vars := by
  induction f using Expr.ind with
  | const k => exact ⟨_, by rw [deriv], by simp [Expr.arith], by simp [Expr.vars]⟩
  | var m => exact ⟨_, by rw [deriv], by simp [Expr.arith], by simp [Expr.vars]⟩
  | un o a ih =>
    simp [Expr.arith] at hf
    obtain ⟨a', h1, h2, h3⟩ := ih hf.2
    obtain ⟨e1, e2, e3, e4, e5, e6⟩ := deriv_un_eq_ok h1
    cases o with
    | sin => exact ⟨_, e1, by simp [Expr.arith, h2, hf.2], by simp [Expr.vars]; grind⟩
    | cos => exact ⟨_, e2, by simp [Expr.arith, h2, hf.2], by simp [Expr.vars]; grind⟩
    | exp => exact ⟨_, e3, by simp [Expr.arith, h2, hf.2], by simp [Expr.vars]; grind⟩
    | log => exact ⟨_, e4, by simp [Expr.arith, h2, hf.2], by simp [Expr.vars]; grind⟩
    | abs => exact ⟨_, e5, by simp [Expr.arith, h2, hf.2], by simp [Expr.vars]; grind⟩
    | neg => exact ⟨_, e6, by simp [Expr.arith, h2], by simpa [Expr.vars] using h3⟩
    | arbsign => simp at hf
  | bin o l r ih1 ih2 =>
    simp [Expr.arith] at hf
    obtain ⟨l', hl1, hl2, hl3⟩ := ih1 hf.1.2
    obtain ⟨r', hr1, hr2, hr3⟩ := ih2 hf.2
    obtain ⟨h1, h2, h3, h4, h5⟩ := deriv_bin_eq_ok hl1 hr1
    cases o with
    | add => exact ⟨_, h1, by simp [Expr.arith, *], by simp [Expr.vars]; grind⟩
    | sub => exact ⟨_, h2, by simp [Expr.arith, *], by simp [Expr.vars]; grind⟩
    | mul => exact ⟨_, h3, by simp [Expr.arith, *], by simp [Expr.vars]; grind⟩
    | div => exact ⟨_, h4, by simp [Expr.arith, *], by simp [Expr.vars]; grind⟩
    | pow => exact ⟨_, h5, by simp [Expr.arith, *], by simp [Expr.vars]; grind⟩
    | _ => simp at hf
  | arr => simp [Expr.arith] at hf
  | dict => simp [Expr.arith] at hf

theorem eval_arith (ρ : List Char → ℝ) (f : Expr ℝ) {v : ℝ} (h : f.eval ρ = some v) :
    f.arith = true := by
  induction f using Expr.ind generalizing v with
  | const => rfl
  | var => rfl
  | un o a ih =>
    obtain ⟨y, h1, h2⟩ := eval_un.1 h
    simp [Expr.arith, ih h1]
    rintro rfl; simp [unVal] at h2
  | bin o l r ih1 ih2 =>
    obtain ⟨x, y, hl, hr, hb⟩ := (eval_bin _ _ _ _ _).1 h
    simp [Expr.arith, ih1 hl, ih2 hr]
    cases o <;> simp [binVal] at hb ⊢
  | arr => simp [Expr.eval] at h
  | dict => simp [Expr.eval] at h

/-- **C16**, end to end: insert numbers for all variables into `derivative(f, x)` and simplify; the
result is the number that is the derivative of `f` at that point. -/
theorem C16_numeric (ρ : List Char → ℝ) (x : List Char) (f : Expr ℝ) (v : ℝ)
    (hv : f.eval ρ = some v) (hs : Smooth ρ x f) :
    ∃ e d, deriv realOps x f = .ok e ∧ HasPartial f ρ x d ∧
      ∀ n, e.height ≤ n → simp nanOps n (subDict e.embed (valueDict ρ f.vars)) = .ok (.const (some d)) := by
  obtain ⟨e, d, h1, h2, h3⟩ := C16_derivative ρ x f v hv hs
  obtain ⟨e', h4, h5, h6⟩ := deriv_arith realOps x f (eval_arith ρ f hv)
  rw [h1] at h4; simp at h4; subst h4
  refine ⟨e, d, h1, h3, fun n hn => ?_⟩
  rw [C52_insert_and_simplify ρ e f.vars h5 h6 n hn, h2]

/-- The hypotheses hold for `x ^ 2` at `x = -1`. -/
example : (Expr.bin .pow (.var ['x']) (.const 2) : Expr ℝ).eval (fun _ => -1) = some 1 ∧
    Smooth (fun _ => -1) ['x'] (.bin .pow (.var ['x']) (.const 2)) := by
  have : powDom (-1) 2 := by simpa using powDom_nat (-1) 2
  simp [Expr.eval, binVal, this, Smooth, Expr.vars]

/-- **C16**, why the simplification matters: the derivative of `x ^ 2`, read as it stands, contains
`0 * log(x)` and has no value for negative `x`. -/
theorem C16_unsimplified_power (x : List Char) (ρ : List Char → ℝ) (hx : ρ x < 0) :
    ∃ e, deriv realOps x (.bin .pow (.var x) (.const 2)) = .ok e ∧ e.eval ρ = none := by
  refine ⟨_, (deriv_bin_eq_ok (N := realOps) (x := x) (by rw [deriv]) (by rw [deriv])).2.2.2.2, ?_⟩
  simp [Expr.eval, unVal, not_lt.2 hx.le]

/-- **C16**, the failing half: the derivative of an array element is returned unchanged, whatever the
array contains; and for units, uncertainties and dictionaries `derivative` does not return. -/
theorem C16_access_fails {K : Type} (N : NumOps K) (x : List Char) (l r : Expr K) :
    deriv N x (.bin .access l r) = .ok (.bin .access l r) ∧
    deriv N x (.bin .units l r) = .diverge ∧ deriv N x (.bin .uncert l r) = .diverge ∧
    ∀ d, deriv N x (.dict d) = .diverge := by
  simp [deriv]

/-- **C16** for arrays: element-wise. -/
theorem C16_array {K : Type} (N : NumOps K) (x : List Char) (es ds : List (Expr K)) :
    deriv N x (.arr es) = .ok (.arr ds) ↔ List.Forall₂ (fun e d => deriv N x e = .ok d) es ds := by
  have key : ∀ es ds : List (Expr K), derivs N x es = .ok ds ↔
      List.Forall₂ (fun e d => deriv N x e = .ok d) es ds := by
    intro es
    induction es with
    | nil => intro ds; cases ds <;> simp [derivs]
    | cons e es ih =>
      intro ds
      simp only [derivs, Res.bind_eq_ok]
      constructor
      · rintro ⟨d, h1, ds', h2, h3⟩
        simp at h3; subst h3
        exact .cons h1 ((ih ds').1 h2)
      · intro h
        cases h with
        | cons h1 h2 => exact ⟨_, h1, _, (ih _).2 h2, rfl⟩
  rw [deriv]
  constructor
  · intro h
    rw [Res.bind_eq_ok] at h
    obtain ⟨ys, h1, h2⟩ := h
    simp at h2; subst h2
    exact (key _ _).1 h1
  · intro h
    rw [(key _ _).2 h]; rfl

end Stator
