import Verif.Rt.SimplifyTerm
import Mathlib.Tactic.NormNum
import Mathlib.Tactic.Linarith

/-!
# Properties C09-C12: `simplify`

`simp N n e` is `simplify(e)` with a bound `n` on the recursion depth; `.diverge` means the bound
was hit. Statements quantify over all sufficiently large `n`.
-/

namespace Stator

/-- **C09** (scalars). If an expression has a value under an assignment, `simplify` returns an
expression with the same value under that assignment. -/
theorem C09_value (ρ : List Char → ℝ) (e : Expr ℝ) (v : ℝ) (h : e.eval ρ = some v) :
    ∃ e', (∀ n, e.height ≤ n → simp realOps n e = .ok e') ∧ e'.eval ρ = some v := by
  obtain ⟨e', h1, _, h3⟩ := simp_scalar realOps e (eval_some_scalar h)
  exact ⟨e', h3, h1.value h⟩

/-- `log(x) * 0 + (2 * (x * 3) - 0) ^ 1` at `x = 1` -/
example : (Expr.bin .add (.bin .mul (.un .log (.var ['x'])) (.const 0))
    (.bin .pow (.bin .sub (.bin .mul (.const 2) (.bin .mul (.var ['x']) (.const 3))) (.const 0))
      (.const 1)) : Expr ℝ).eval (fun _ => 1) = some 6 := by
  simp [Expr.eval, unVal, binVal, powDom]; norm_num

/-- **C09**, the failing half: with arrays the value is not preserved; `0 * [a, b]` becomes the
number `0`, so a vector of two components turns into a scalar. -/
theorem C09_array_shape_lost {K : Type} [DecidableEq K] (N : NumOps K) (a b : List Char) (n : Nat) :
    simp N (n + 3) (.bin .mul (.const N.zero) (.arr [.var a, .var b])) = .ok (.const N.zero) := by
  simp [simp, mapRes, simpBin, isConst, BinOp.leftZero]

/-- **C10** (scalars, including equations, units and uncertainties). `simplify` terminates with an
expression, within a recursion depth equal to the height of the expression. -/
theorem C10_scalar_terminates {K : Type} [DecidableEq K] (N : NumOps K) (e : Expr K)
    (h : e.scalar = true) : ∃ e', ∀ n, e.height ≤ n → simp N n e = .ok e' := by
  obtain ⟨e', _, _, h3⟩ := simp_scalar N e h
  exact ⟨e', h3⟩

example : (Expr.bin .eq (.bin .units (.const 3) (.var ['m']))
    (.bin .mul (.var ['x']) (.bin .uncert (.const 2) (.const 1))) : Expr Nat).scalar = true := rfl

/-- **C10** (arrays and dictionaries). Without units and without a power of two arrays, `simplify`
terminates, with an expression or with an exception, within a recursion depth given by the weight of
the expression. -/
theorem C10_array_terminates {K : Type} [DecidableEq K] (N : NumOps K) (e : Expr K)
    (h : e.tame = true) : ∃ r : Res (Expr K), r ≠ .diverge ∧ ∀ n, e.weight ≤ n → simp N n e = r := by
  have h1 := simp_good N e.weight e h le_rfl
  exact ⟨_, h1.1, fun n hn => simp_mono_le N e hn h1.1⟩

/-- `[x, [1]] * [y, [2 ^ x]] + 3` -/
example : (Expr.bin .add (.bin .mul (.arr [.var ['x'], .arr [.const 1]])
    (.arr [.var ['y'], .arr [.bin .pow (.const 2) (.var ['x'])]])) (.const 3) : Expr Nat).tame = true ∧
    (Expr.bin .add (.bin .mul (.arr [.var ['x'], .arr [.const 1]])
    (.arr [.var ['y'], .arr [.bin .pow (.const 2) (.var ['x'])]])) (.const 3) : Expr Nat).weight = 11 := by
  simp [Expr.tame, tameList, Expr.weight, weightList, Expr.scalar]

/-- The outcome of `simplify` does not depend on the bound on the recursion depth. -/
theorem C10_deterministic {K : Type} [DecidableEq K] (N : NumOps K) (e : Expr K) (n m : Nat)
    (hn : simp N n e ≠ .diverge) (hm : simp N m e ≠ .diverge) : simp N n e = simp N m e := by
  rcases le_total n m with h | h
  · exact (simp_mono_le N e h hn).symm
  · exact simp_mono_le N e h hm

/-- **C10**, the failing half: `simplify` of a power of two arrays (here with scalar elements) never
returns: no recursion depth is enough. -/
theorem C10_array_power_diverges {K : Type} [DecidableEq K] (N : NumOps K) (n : Nat) :
    ∀ xs ys : List (Expr K), (∀ x ∈ xs, x.scalar = true) → (∀ y ∈ ys, y.scalar = true) →
    simp N n (.bin .pow (.arr xs) (.arr ys)) = .diverge := by
  have arrs : ∀ (n : Nat) (xs : List (Expr K)), (∀ x ∈ xs, x.scalar = true) →
      simp N n (.arr xs) = .diverge ∨ ∃ xs', simp N n (.arr xs) = .ok (.arr xs') ∧
        ∀ x ∈ xs', x.scalar = true := by
    intro n xs hxs
    cases n with
    | zero => exact .inl rfl
    | succ n =>
      rw [simp]
      cases h : mapRes (simp N n) xs with
      | diverge => exact .inl rfl
      | throw =>
        exfalso
        induction xs with
        | nil => simp [mapRes] at h
        | cons x xs ih =>
          simp only [mapRes] at h
          obtain ⟨e', h1, h2, h3⟩ := simp_scalar N x (hxs x (by simp))
          by_cases hd : simp N n x = .diverge
          · rw [hd] at h; simp at h
          · have := h3 (max n x.height) (by omega)
            rw [simp_mono_le N x (by omega) hd] at this
            rw [this] at h
            simp only [Res.ok_bind] at h
            cases h4 : mapRes (simp N n) xs with
            | ok ys => rw [h4] at h; simp at h
            | throw => exact ih (fun x hx => hxs x (by simp [hx])) h4
            | diverge => rw [h4] at h; simp at h
      | ok xs' =>
        refine .inr ⟨xs', rfl, fun x hx => ?_⟩
        obtain ⟨y, hy, h1⟩ := (mapRes_ok h).exists_left x hx
        obtain ⟨e', _, h2, h3⟩ := simp_scalar N y (hxs y hy)
        have := h3 (max n y.height) (by omega)
        rw [simp_mono_le N y (by omega : n ≤ _) (by rw [h1]; simp), h1] at this
        simp at this
        rw [this]; exact h2
  induction n with
  | zero => intro xs ys _ _; rfl
  | succ n ih =>
    intro xs ys hx hy
    rw [simp]
    rcases arrs n xs hx with h | ⟨xs', h1, h2⟩
    · rw [h]; rfl
    rcases arrs n ys hy with h | ⟨ys', h3, h4⟩
    · rw [h1, h]; rfl
    rw [h1, h3]
    simp only [Res.ok_bind, simpBin, isConst, ddVisit]
    exact ih xs' ys' h2 h4

example : ∀ x ∈ [Expr.var (K := Nat) ['x'], .const 2], x.scalar = true := by simp [Expr.scalar]

/-- **C11**. `simplify` of an expression without variables, built from numbers with
`+ - * / ^`, negation and the elementary functions, is a number. -/
theorem C11_ground {K : Type} [DecidableEq K] (N : NumOps K) (e : Expr K) (h : e.ground = true) :
    ∃ k, ∀ n, e.height ≤ n → simp N n e = .ok (.const k) :=
  simp_ground N e h

/-- **C11**, and over the reals, if the expression has a value, the number is that value. -/
theorem C11_ground_value (e : Expr ℝ) (h : e.ground = true) (ρ : List Char → ℝ) (v : ℝ)
    (hv : e.eval ρ = some v) : ∀ n, e.height ≤ n → simp realOps n e = .ok (.const v) := by
  intro n hn
  obtain ⟨k, hk⟩ := simp_ground realOps e h
  obtain ⟨e', h1, h2⟩ := C09_value ρ e v hv
  have h3 := (hk n hn).symm.trans (h1 n hn)
  simp at h3
  subst h3
  simp [Expr.eval] at h2
  rw [hk n hn, h2]

/-- `sin(0) - (2 ^ 3) / 4` is a ground expression with value `-2`. -/
example : (Expr.bin .sub (.un .sin (.const 0)) (.bin .div (.bin .pow (.const 2) (.const 3)) (.const 4))
      : Expr ℝ).ground = true ∧
    (Expr.bin .sub (.un .sin (.const 0)) (.bin .div (.bin .pow (.const 2) (.const 3)) (.const 4))
      : Expr ℝ).eval (fun _ => 0) = some (-2) := by
  refine ⟨rfl, ?_⟩
  simp [Expr.eval, unVal, binVal, powDom]; norm_num

/-- **C12** (simplify). Every variable of the simplified expression occurs in the original one, for
every kind of expression (arrays, dictionaries, units, ...). -/
theorem C12_simplify {K : Type} [DecidableEq K] (N : NumOps K) (n : Nat) (e e' : Expr K)
    (h : simp N n e = .ok e') : ∀ x ∈ e'.vars, x ∈ e.vars :=
  fun x hx => simp_vars N n e e' x h hx

/-- `[x] * [y]` simplifies to `[x * y]` -/
example (N : NumOps Nat) : simp N 4 (.bin .mul (.arr [.var ['x']]) (.arr [.var ['y']]))
    = .ok (.arr [.bin .mul (.var ['x']) (.var ['y'])]) := by
  simp [simp, mapRes, simpBin, isConst, ddVisit, mulUnits, elemOp]

/-- **C51**, the failing half: `simplify` is not idempotent. `0.5 * (2 * x)` becomes `1 * x`, and
only a second call gives `x`. -/
theorem C51_not_idempotent (x : List Char) (n : Nat) :
    simp realOps (n + 3) (.bin .mul (.const (1 / 2)) (.bin .mul (.const 2) (.var x)))
      = .ok (.bin .mul (.const 1) (.var x)) ∧
    simp realOps (n + 3) (.bin .mul (.const 1) (.var x)) = .ok (.var x) := by
  constructor
  · simp [simp, simpBin, isConst, BinOp.leftZero, BinOp.leftId, BinOp.rightZero, BinOp.rightId,
      ddVisit, mulUnits, mulConst, realOps]
  · simp [simp, simpBin, isConst, BinOp.leftZero, BinOp.leftId, BinOp.rightZero, BinOp.rightId,
      realOps]

/-- Number of nodes of a scalar expression. -/
def Expr.nodes {K : Type} : Expr K → Nat
  | .un _ a => a.nodes + 1
  | .bin _ l r => l.nodes + r.nodes + 1
  | _ => 1

/-- Scalar expressions (`Expr.scalar`) in which no number carries a unit. -/
def Expr.unitless {K : Type} : Expr K → Bool
  | .const _ => true
  | .var _ => true
  | .un _ a => a.unitless
  | .bin o l r => o != .access && o != .units && l.unitless && r.unitless
  | .arr _ => false
  | .dict _ => false

theorem unitless_scalar {K : Type} (e : Expr K) (h : e.unitless = true) : e.scalar = true := by
  induction e using Expr.ind with
  | un o a ih => exact ih h
  | bin o l r ih1 ih2 => simp_all [Expr.unitless, Expr.scalar]
  | arr xs => simp [Expr.unitless] at h
  | dict xs => simp [Expr.unitless] at h
  | _ => rfl

theorem foldUn_shrinks {K : Type} (N : NumOps K) (o : UnOp) (a : Expr K) :
    foldUn N o a = .un o a ∨ (foldUn N o a).nodes < a.nodes + 1 := by
  unfold foldUn
  split
  · cases o <;> simp [Expr.nodes]
  · exact .inl rfl

theorem foldUn_unitless {K : Type} (N : NumOps K) (o : UnOp) (a : Expr K)
    (h : a.unitless = true) : (foldUn N o a).unitless = true := by
  unfold foldUn
  split
  · cases o <;> rfl
  · exact h

theorem SBS.shrinks {K : Type} {N : NumOps K} {o : BinOp} {l r e : Expr K} (h : SBS N o l r e)
    (hl : l.unitless = true) (hr : r.unitless = true) (ho : o ≠ .access) (hu : o ≠ .units) :
    (e = .bin o l r ∨ e.nodes < l.nodes + r.nodes + 1) ∧ e.unitless = true := by
  cases h with
  | dd h =>
    cases h with
    | fold => cases o <;> simp_all [foldBin, Expr.nodes, Expr.unitless]
    | _ => simp_all [Expr.nodes, Expr.unitless]
           try omega
  | lz => exact ⟨.inr (by omega), hl⟩
  | li => exact ⟨.inr (by omega), hr⟩
  | rz => exact ⟨.inr (by omega), hr⟩
  | ri => exact ⟨.inr (by omega), hl⟩

theorem SimpS.shrinks {K : Type} {N : NumOps K} {e e' : Expr K} (h : SimpS N e e')
    (hu : e.unitless = true) : (e' = e ∨ e'.nodes < e.nodes) ∧ e'.unitless = true := by
  induction h with
  | const => exact ⟨.inl rfl, hu⟩
  | var => exact ⟨.inl rfl, hu⟩
  | @un o a a' h ih =>
    obtain ⟨h1, h2⟩ := ih hu
    refine ⟨?_, foldUn_unitless N o a' h2⟩
    have h3 := foldUn_shrinks N o a'
    have h4 : (Expr.un o a).nodes = a.nodes + 1 := rfl
    have h5 : (Expr.un o a').nodes = a'.nodes + 1 := rfl
    rcases h1 with rfl | h1
    · rw [h4]; exact h3
    · right
      rcases h3 with h3 | h3
      · rw [h3]; omega
      · omega
  | @bin o l r l' r' e hl hr hb ih1 ih2 =>
    simp [Expr.unitless] at hu
    obtain ⟨h1, h2⟩ := ih1 hu.1.2
    obtain ⟨h3, h4⟩ := ih2 hu.2
    obtain ⟨h5, h6⟩ := hb.shrinks h2 h4 hu.1.1.1 hu.1.1.2
    refine ⟨?_, h6⟩
    have h7 : (Expr.bin o l r).nodes = l.nodes + r.nodes + 1 := rfl
    have h8 : (Expr.bin o l' r').nodes = l'.nodes + r'.nodes + 1 := rfl
    rcases h5 with rfl | h5
    · rcases h1 with rfl | h1
      · rcases h3 with rfl | h3
        · exact .inl rfl
        · right; omega
      · right; rcases h3 with rfl | h3 <;> omega
    · right
      rcases h1 with rfl | h1 <;> rcases h3 with rfl | h3 <;> omega

/-- `simplify(e)` returns `e'`. -/
def Simplifies {K : Type} [DecidableEq K] (N : NumOps K) (e e' : Expr K) : Prop :=
  ∃ n, simp N n e = .ok e'

/-- `k` calls of `simplify`, each on the result of the one before, turn `e` into `e'`. -/
inductive Calls {K : Type} [DecidableEq K] (N : NumOps K) : Nat → Expr K → Expr K → Prop
  | zero {e} : Calls N 0 e e
  | succ {k e a e'} : Simplifies N e a → Calls N k a e' → Calls N (k + 1) e e'

theorem simplifies_det {K : Type} [DecidableEq K] {N : NumOps K} {e a b : Expr K}
    (h1 : Simplifies N e a) (h2 : Simplifies N e b) : a = b := by
  obtain ⟨n, h1⟩ := h1
  obtain ⟨m, h2⟩ := h2
  have := C10_deterministic N e n m (by rw [h1]; simp) (by rw [h2]; simp)
  rw [h1, h2] at this
  simpa using this

/-- **C51**, the half that holds: on a scalar without units every call of `simplify` either returns
the expression it was given, node by node, or one with fewer nodes (and again without units). -/
theorem C51_change_shrinks {K : Type} [DecidableEq K] (N : NumOps K) (e e' : Expr K)
    (hu : e.unitless = true) (h : Simplifies N e e') :
    (e' = e ∨ e'.nodes < e.nodes) ∧ e'.unitless = true := by
  obtain ⟨a, h1, _, h3⟩ := simp_scalar N e (unitless_scalar e hu)
  have := simplifies_det h ⟨e.height, h3 _ le_rfl⟩
  subst this
  exact h1.shrinks hu

/-- **C51**, the half that holds: calling `simplify` again and again on a scalar without units
reaches an expression that `simplify` leaves alone, after fewer calls than the expression has
nodes. -/
theorem C51_stabilises {K : Type} [DecidableEq K] (N : NumOps K) (e : Expr K)
    (hu : e.unitless = true) : ∃ k e', k < e.nodes ∧ Calls N k e e' ∧ Simplifies N e' e' := by
  generalize hm : e.nodes = m
  induction m using Nat.strongRecOn generalizing e with
  | _ m ih =>
    obtain ⟨a, h1, _, h3⟩ := simp_scalar N e (unitless_scalar e hu)
    have hs : Simplifies N e a := ⟨e.height, h3 _ le_rfl⟩
    obtain ⟨h4, h5⟩ := C51_change_shrinks N e a hu hs
    rcases h4 with rfl | h4
    · refine ⟨0, a, ?_, .zero, hs⟩
      rw [← hm]
      cases a <;> simp [Expr.nodes]
    · obtain ⟨k, e', h6, h7, h8⟩ := ih a.nodes (by omega) a h5 rfl
      exact ⟨k + 1, e', by omega, .succ hs h7, h8⟩

/-- **C51**, and for real arithmetic the expression reached this way has the value of the original
one, under every assignment under which that has a value. -/
theorem C51_limit_value (e e' : Expr ℝ) (k : Nat) (h : Calls realOps k e e') (ρ : List Char → ℝ)
    (v : ℝ) (hv : e.eval ρ = some v) : e'.eval ρ = some v := by
  induction h with
  | zero => exact hv
  | @succ k e a e' h1 _ ih =>
    obtain ⟨b, h2, h3⟩ := C09_value ρ e v hv
    have := simplifies_det h1 ⟨e.height, h2 _ le_rfl⟩
    subst this
    exact ih h3

/-- `0.5 * (2 * x)` needs two calls -/
example : Calls realOps 2 (.bin .mul (.const (1 / 2)) (.bin .mul (.const 2) (.var ['x'])))
      (.var ['x']) ∧
    (Expr.bin .mul (.const (1 / 2)) (.bin .mul (.const 2) (.var ['x'])) : Expr ℝ).unitless = true ∧
    (Expr.bin .mul (.const (1 / 2)) (.bin .mul (.const 2) (.var ['x'])) : Expr ℝ).nodes = 5 :=
  ⟨.succ ⟨_, (C51_not_idempotent ['x'] 0).1⟩ (.succ ⟨_, (C51_not_idempotent ['x'] 0).2⟩ .zero),
    rfl, rfl⟩

end Stator
