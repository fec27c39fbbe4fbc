import Verif.Rt.NumericEval
import Verif.Rt.SimplifyAll
import Verif.Ad.Props

/-!
# Higher derivatives (C86)

`derivative(derivative(f, x), x)` and so on, with or without `simplify` in between, and their agreement with the automatic
differentiation of ad.hpp.
-/

namespace Stator

open Filter Topology

/-! ## simplify and the computed value -/

theorem evalS_mul_iff {ρ : List Char → ℝ} {l r : Expr ℝ} {v : ℝ} : (Expr.bin .mul l r).evalS ρ = some v ↔
    ((l.evalS ρ = some 0 ∨ r.evalS ρ = some 0) ∧ v = 0) ∨ ∃ x y, l.evalS ρ = some x ∧ r.evalS ρ = some y ∧ x * y = v := by
  constructor
  · intro h
    by_cases hz : l.evalS ρ = some 0 ∨ r.evalS ρ = some 0
    · left
      simp only [Expr.evalS, hz, and_self, if_true, Option.some.injEq] at h
      exact ⟨hz, h.symm⟩
    · right
      simp only [Expr.evalS, hz, and_false, if_false, reduceCtorEq, false_and, Option.bind_eq_some_iff, binVal, Option.some.injEq] at h
      obtain ⟨x, h1, y, h2, h3⟩ := h
      exact ⟨x, y, h1, h2, h3⟩
  · rintro (⟨h | h, rfl⟩ | ⟨x, y, h1, h2, rfl⟩)
    · exact evalS_mul_left h
    · exact evalS_mul_right h
    · exact evalS_mul h1 h2

theorem evalS_bin_cases {ρ : List Char → ℝ} {o : BinOp} {l r : Expr ℝ} {v : ℝ} (h : (Expr.bin o l r).evalS ρ = some v) :
    (o = .mul ∧ (l.evalS ρ = some 0 ∨ r.evalS ρ = some 0) ∧ v = 0) ∨ (o = .div ∧ l.evalS ρ = some 0 ∧ v = 0) ∨
    (o = .pow ∧ l.evalS ρ = some 1 ∧ v = 1) ∨ ∃ x y, l.evalS ρ = some x ∧ r.evalS ρ = some y ∧ binVal o x y = some v := by
  simp only [Expr.evalS] at h
  split at h
  · rename_i h1; simp at h; exact Or.inl ⟨h1.1, h1.2, h.symm⟩
  split at h
  · rename_i h1; simp at h; exact Or.inr (Or.inl ⟨h1.1, h1.2, h.symm⟩)
  split at h
  · rename_i h1; simp at h; exact Or.inr (Or.inr (Or.inl ⟨h1.1, h1.2, h.symm⟩))
  · simp only [Option.bind_eq_some_iff] at h
    obtain ⟨x, h1, y, h2, h3⟩ := h
    exact Or.inr (Or.inr (Or.inr ⟨x, y, h1, h2, h3⟩))

theorem evalS_bin_mk {ρ : List Char → ℝ} {o : BinOp} {l r : Expr ℝ} {x y v : ℝ} (hl : l.evalS ρ = some x) (hr : r.evalS ρ = some y)
    (hb : binVal o x y = some v) : (Expr.bin o l r).evalS ρ = some v := by
  cases o with
  | mul => simp [binVal] at hb; subst hb; exact evalS_mul hl hr
  | div => simp [binVal] at hb; obtain ⟨h1, rfl⟩ := hb; exact evalS_div hl hr h1
  | pow => simp [binVal] at hb; obtain ⟨h1, rfl⟩ := hb; exact evalS_pow hl hr h1
  | _ => simpa [Expr.evalS, hl, hr] using hb

theorem evalS_congr {ρ : List Char → ℝ} {o : BinOp} {l r l' r' : Expr ℝ} {v : ℝ}
    (hl : ∀ x, l.evalS ρ = some x → l'.evalS ρ = some x) (hr : ∀ x, r.evalS ρ = some x → r'.evalS ρ = some x)
    (h : (Expr.bin o l r).evalS ρ = some v) : (Expr.bin o l' r').evalS ρ = some v := by
  rcases evalS_bin_cases h with ⟨rfl, h1 | h1, rfl⟩ | ⟨rfl, h1, rfl⟩ | ⟨rfl, h1, rfl⟩ | ⟨x, y, h1, h2, h3⟩
  · exact evalS_mul_left (hl _ h1)
  · exact evalS_mul_right (hr _ h1)
  · exact evalS_div_left (hl _ h1)
  · simp [Expr.evalS, hl _ h1]
  · exact evalS_bin_mk (hl _ h1) (hr _ h2) h3

open Classical in
/-- The value of a product from those of its factors. -/
noncomputable def mulS (a b : Option ℝ) : Option ℝ :=
  if a = some 0 ∨ b = some 0 then some 0 else a.bind fun x => b.bind fun y => some (x * y)

theorem evalS_mulS (ρ : List Char → ℝ) (l r : Expr ℝ) : (Expr.bin .mul l r).evalS ρ = mulS (l.evalS ρ) (r.evalS ρ) := by
  by_cases hz : l.evalS ρ = some 0 ∨ r.evalS ρ = some 0
  · simp only [Expr.evalS, hz, and_self, if_true, mulS]
  · simp only [Expr.evalS, hz, and_false, if_false, reduceCtorEq, false_and, binVal, mulS]

theorem mulS_comm (a b : Option ℝ) : mulS a b = mulS b a := by
  cases a <;> cases b <;> simp [mulS, or_comm, mul_comm]

theorem mulS_some (x y : ℝ) : mulS (some x) (some y) = some (x * y) := by
  unfold mulS
  split
  · rename_i h; simp at h; rcases h with rfl | rfl <;> simp
  · rfl

theorem mulS_assoc (a b c : Option ℝ) : mulS (mulS a b) c = mulS a (mulS b c) := by
  have z1 : ∀ a, mulS (some 0) a = some 0 := fun a => by simp [mulS]
  have z2 : ∀ a, mulS a (some 0) = some 0 := fun a => by simp [mulS]
  have n1 : ∀ a, a ≠ some 0 → mulS none a = none := fun a h => by simp [mulS, h]
  have n2 : ∀ a, a ≠ some 0 → mulS a none = none := fun a h => by rw [mulS_comm]; exact n1 a h
  by_cases ha : a = some 0
  · subst ha; simp [z1]
  by_cases hb : b = some 0
  · subst hb; simp [z1, z2]
  by_cases hc : c = some 0
  · subst hc; simp [z2]
  cases a with
  | none =>
    rw [n1 b hb, n1 c hc, n1]
    cases b with
    | none => rw [n1 c hc]; simp
    | some b =>
      cases c with
      | none => rw [n2 _ hb]; simp
      | some c => rw [mulS_some]; simp at hb hc ⊢; exact ⟨hb, hc⟩
  | some a =>
    cases b with
    | none => rw [n2 _ ha, n1 c hc, n2 _ ha]
    | some b =>
      cases c with
      | none => rw [n2 _ hb, n2 _ ha, mulS_some, n2]; simp at ha hb ⊢; exact ⟨ha, hb⟩
      | some c => simp only [mulS_some, mul_assoc]

theorem DDS.valueS {ρ : List Char → ℝ} {o : BinOp} {l r e : Expr ℝ} (h : DDS realOps o l r e) (al : l.arith = true)
    (ar : r.arith = true) {v : ℝ} (hv : (Expr.bin o l r).evalS ρ = some v) : e.evalS ρ = some v := by
  cases h with
  | same => exact hv
  | @fold _ x y =>
    rcases evalS_bin_cases hv with ⟨rfl, h1, rfl⟩ | ⟨rfl, h1, rfl⟩ | ⟨rfl, h1, rfl⟩ | ⟨x', y', h1, h2, h3⟩
    · simp [Expr.evalS] at h1
      rcases h1 with rfl | rfl <;> simp [foldBin, Expr.evalS, realOps]
    · simp [Expr.evalS] at h1; subst h1; simp [foldBin, Expr.evalS, realOps]
    · simp [Expr.evalS] at h1; subst h1; simp [foldBin, Expr.evalS, realOps]
    · simp [Expr.evalS] at h1 h2
      subst h1 h2
      exact evalS_of_eval _ _ (binVal_fold _ _ _ _ _ h3)
  | neg =>
    rcases evalS_bin_cases hv with ⟨h, -⟩ | ⟨h, -⟩ | ⟨h, -⟩ | ⟨x', y', h1, h2, h3⟩
    · cases h
    · cases h
    · cases h
    · simp [Expr.evalS, realOps] at h1
      subst h1
      simp [binVal] at h3
      exact evalS_un h2 (by simp [unVal, h3])
  | negc =>
    rcases evalS_bin_cases hv with ⟨h, -⟩ | ⟨h, -⟩ | ⟨h, -⟩ | ⟨x', y', h1, h2, h3⟩
    · cases h
    · cases h
    · cases h
    · simp [Expr.evalS, realOps] at h1 h2
      subst h1 h2
      simp [binVal] at h3
      simp [Expr.evalS, realOps, h3]
  | mc1 =>
    rw [← hv]; simp only [evalS_mulS]
    rw [← mulS_assoc]; simp only [Expr.evalS, mulS_some]; rfl
  | mc2 =>
    rw [← hv]; simp only [evalS_mulS]
    rw [mulS_comm (Expr.evalS ρ _) (Expr.evalS ρ (.const _)), ← mulS_assoc]; simp only [Expr.evalS, mulS_some]; rfl
  | mc3 =>
    rw [← hv]; simp only [evalS_mulS]
    rw [mulS_comm _ (Expr.evalS ρ (.const _)), ← mulS_assoc]; simp only [Expr.evalS, mulS_some]; rfl
  | mc4 =>
    rw [← hv]; simp only [evalS_mulS]
    rw [mulS_comm (mulS _ _), mulS_comm (Expr.evalS ρ _) (Expr.evalS ρ (.const _)), ← mulS_assoc]
    simp only [Expr.evalS, mulS_some]; rfl
  | uu | ul | du => simp [Expr.arith] at al
  | ur => simp [Expr.arith] at ar

theorem SBS.valueS {ρ : List Char → ℝ} {o : BinOp} {l r e : Expr ℝ} (h : SBS realOps o l r e) (al : l.arith = true)
    (ar : r.arith = true) (ao : (Expr.bin o l r).arith = true)
    {v : ℝ} (hv : (Expr.bin o l r).evalS ρ = some v) : e.evalS ρ = some v := by
  cases h with
  | dd h => exact h.valueS al ar hv
  | lz h =>
    cases o <;> simp [BinOp.leftZero, realOps] at h <;> subst h <;> first
      | (simp [Expr.arith] at ao; done)
      | (rw [← hv]; simp [Expr.evalS])
  | li h =>
    rcases evalS_bin_cases hv with ⟨rfl, h1, rfl⟩ | ⟨rfl, h1, rfl⟩ | ⟨rfl, h1, rfl⟩ | ⟨x', y', h1, h2, h3⟩
    · simp [BinOp.leftId, realOps] at h; subst h; simpa [Expr.evalS] using h1
    · simp [BinOp.leftId] at h
    · simp [BinOp.leftId] at h
    · simp [Expr.evalS] at h1
      subst h1
      cases o <;> simp [BinOp.leftId, realOps] at h <;> subst h <;> simp [binVal] at h3 <;> simp [h2, h3]
  | rz h =>
    cases o <;> simp [BinOp.rightZero, realOps] at h <;> subst h
    rw [← hv]; simp [Expr.evalS]
  | ri h =>
    rcases evalS_bin_cases hv with ⟨rfl, h1, rfl⟩ | ⟨rfl, h1, rfl⟩ | ⟨rfl, h1, rfl⟩ | ⟨x', y', h1, h2, h3⟩
    · simp [BinOp.rightId, realOps] at h; subst h; simpa [Expr.evalS] using h1
    · exact h1
    · exact h1
    · simp [Expr.evalS] at h2
      subst h2
      cases o <;> simp [BinOp.rightId, realOps] at h <;> subst h <;> simp [binVal] at h3
      all_goals simp [h1, h3]

theorem foldUn_valueS {ρ : List Char → ℝ} (o : UnOp) (a : Expr ℝ) {v : ℝ}
    (h : (Expr.un o a).evalS ρ = some v) : (foldUn realOps o a).evalS ρ = some v := by
  unfold foldUn
  split
  · simp only [Expr.evalS, Option.bind_some] at h
    cases o <;> simp only [unVal] at h
    case log =>
      split at h
      · simpa [Expr.evalS, realOps] using h
      · simp at h
    case arbsign => simp at h
    all_goals simpa [Expr.evalS, realOps] using h
  · exact h

theorem SimpS.arith {e e' : Expr ℝ} (h : SimpS realOps e e') (he : e.arith = true) : e'.arith = true := by
  induction h with
  | const => rfl
  | var => rfl
  | @un o a a' _ ih =>
    simp only [Expr.arith, Bool.and_eq_true] at he
    unfold foldUn
    split
    · cases o <;> first | rfl | (simp at he)
    · simp only [Expr.arith, Bool.and_eq_true]; exact ⟨he.1, ih he.2⟩
  | @bin o l r l' r' e _ _ h ih1 ih2 =>
    simp only [Expr.arith, Bool.and_eq_true] at he
    have al := ih1 he.1.2
    have ar := ih2 he.2
    cases h with
    | lz => rfl
    | li => exact ar
    | rz => rfl
    | ri => exact al
    | dd h =>
      cases h with
      | same => simp only [Expr.arith, Bool.and_eq_true]; exact ⟨⟨he.1.1, al⟩, ar⟩
      | fold => revert he; cases o <;> simp [foldBin, Expr.arith]
      | neg => simpa [Expr.arith] using ar
      | negc => rfl
      | mc1 => simpa [Expr.arith] using ar
      | mc2 => simpa [Expr.arith] using ar
      | mc3 => simpa [Expr.arith] using al
      | mc4 => simpa [Expr.arith] using al
      | uu | ul | du => simp [Expr.arith] at al
      | ur => simp [Expr.arith] at ar

theorem SimpS.valueS {ρ : List Char → ℝ} {e e' : Expr ℝ} (h : SimpS realOps e e') (he : e.arith = true) {v : ℝ}
    (hv : e.evalS ρ = some v) : e'.evalS ρ = some v := by
  induction h generalizing v with
  | const => exact hv
  | var => exact hv
  | @un o a a' _ ih =>
    apply foldUn_valueS
    simp only [Expr.arith, Bool.and_eq_true] at he
    simp only [Expr.evalS, Option.bind_eq_some_iff] at hv ⊢
    obtain ⟨x, h1, h2⟩ := hv
    exact ⟨x, ih he.2 h1, h2⟩
  | @bin o l r l' r' e h1 h2 h ih1 ih2 =>
    simp only [Expr.arith, Bool.and_eq_true] at he
    have al := h1.arith he.1.2
    have ar := h2.arith he.2
    exact h.valueS al ar (by simp only [Expr.arith, Bool.and_eq_true]; exact ⟨⟨he.1.1, al⟩, ar⟩)
      (evalS_congr (fun x => ih1 he.1.2) (fun x => ih2 he.2) hv)

theorem arith_scalar {K : Type} (e : Expr K) (h : e.arith = true) : e.scalar = true := by
  induction e using Expr.ind with
  | const => rfl
  | var => rfl
  | un o a ih => simp only [Expr.arith, Bool.and_eq_true] at h; exact ih h.2
  | bin o l r ih1 ih2 =>
    simp only [Expr.arith, Bool.and_eq_true] at h
    simp only [Expr.scalar, Bool.and_eq_true, ih1 h.1.2, ih2 h.2, and_true]
    revert h
    cases o <;> simp
  | arr => simp [Expr.arith] at h
  | dict => simp [Expr.arith] at h

/-- What `simplify` returns for an arithmetic expression has the computed value of the expression. -/
theorem simp_valueS {ρ : List Char → ℝ} {n : ℕ} {e e' : Expr ℝ} (h : simp realOps n e = .ok e') (he : e.arith = true) :
    e'.arith = true ∧ ∀ v, e.evalS ρ = some v → e'.evalS ρ = some v := by
  obtain ⟨e'', h1, -, h2⟩ := simp_scalar realOps e (arith_scalar e he)
  have : e' = e'' := simplifies_det ⟨n, h⟩ ⟨_, h2 _ le_rfl⟩
  subst this
  exact ⟨h1.arith he, fun v hv => h1.valueS he hv⟩

/-! ## Higher derivatives -/

/-- `g` is what a program gets from `f` by `derivative(f, x)` or `simplify(derivative(f, x))`.
models: the functions `derivative` and `simplify` of `Expr`; see `Rt/Deriv`, `Rt/Simplify`. -/
def DerivStep (x : List Char) (f g : Expr ℝ) : Prop :=
  ∃ d, deriv realOps x f = .ok d ∧ (g = d ∨ ∃ n, simp realOps n d = .ok g)

/-- **C86**: differentiating `n` times, with or without simplifying after each time, gives the `n`-th derivative: the number
obtained from the last expression by inserting values for the variables is the `n`-th derivative of the function given by the first
expression. It is required that the expressions in between have values near the point, and that it is not the place of a kink or
a pole of them. -/
theorem C86_higher (ρ : List Char → ℝ) (x : List Char) (es : ℕ → Expr ℝ) (n : ℕ) (hn : 0 < n)
    (hs : ∀ k < n, DerivStep x (es k) (es (k + 1)))
    (hr : ∀ k < n, ∀ᶠ t in 𝓝 (ρ x), (∃ v, (es k).eval (Function.update ρ x t) = some v) ∧
      Smooth (Function.update ρ x t) x (es k)) :
    ∃ F : ℝ → ℝ, (∀ᶠ t in 𝓝 (ρ x), (es 0).eval (Function.update ρ x t) = some (F t)) ∧
      (es n).evalS ρ = some (iteratedDeriv n F (ρ x)) := by
  set G : ℕ → ℝ → ℝ := fun k t => ((es k).eval (Function.update ρ x t)).getD 0 with hG
  have val : ∀ k < n, ∀ᶠ t in 𝓝 (ρ x), (es k).eval (Function.update ρ x t) = some (G k t) := by
    intro k hk
    filter_upwards [hr k hk] with t ht
    obtain ⟨v, hv⟩ := ht.1
    simp [hG, hv]
  -- the expression after one step has the derivative as its value
  have step : ∀ k < n, ∀ᶠ t in 𝓝 (ρ x),
      (es (k + 1)).evalS (Function.update ρ x t) = some (_root_.deriv (G k) t) := by
    intro k hk
    filter_upwards [hr k hk, (val k hk).eventually_nhds] with t ht hv'
    obtain ⟨⟨v, hv⟩, hsm⟩ := ht
    obtain ⟨e, d, h1, h2, F, h3, h4⟩ := C16_derivative _ x _ v hv hsm
    rw [Function.update_self] at h3 h4
    simp only [Function.update_idem] at h3
    have hF : F =ᶠ[𝓝 t] G k := by
      filter_upwards [h3, hv'] with u hu hu'
      rw [hu] at hu'
      simpa using hu'
    have hd : _root_.deriv (G k) t = d := (h4.congr_of_eventuallyEq hF.symm).deriv
    rw [hd]
    obtain ⟨d', g1, g2⟩ := hs k hk
    rw [h1] at g1
    have : d' = e := by simpa using g1.symm
    subst this
    rcases g2 with g2 | ⟨m, g2⟩
    · rw [g2]; exact h2
    · obtain ⟨e'', k1, k2, -⟩ := deriv_arith realOps x (es k) (eval_arith _ _ hv)
      rw [h1] at k1
      have : d' = e'' := by simpa using k1
      subst this
      exact (simp_valueS g2 k2).2 _ h2
  have main : ∀ k < n, G k =ᶠ[𝓝 (ρ x)] iteratedDeriv k (G 0) := by
    intro k
    induction k with
    | zero => intro _; rw [iteratedDeriv_zero]
    | succ k ih =>
      intro hk
      have h1 := (ih (by omega)).deriv
      rw [iteratedDeriv_succ]
      refine EventuallyEq.trans ?_ h1
      filter_upwards [step k (by omega), val (k + 1) hk] with t h2 h3
      rw [evalS_of_eval _ _ h3] at h2
      simpa using h2
  refine ⟨G 0, val 0 hn, ?_⟩
  obtain ⟨m, rfl⟩ : ∃ m, n = m + 1 := ⟨n - 1, by omega⟩
  have h1 := (step m (by omega)).self_of_nhds
  rw [Function.update_eq_self] at h1
  rw [h1, iteratedDeriv_succ, (main m (by omega)).deriv_eq]

/-- **C86**: what a program computes from it: inserting the values into the `n`-th derivative and simplifying gives that number.
(Arithmetic on numbers as `double` does it, with `none` for NaN, but without rounding.) -/
theorem C86_computed (ρ : List Char → ℝ) (x : List Char) (es : ℕ → Expr ℝ) (n : ℕ) (hn : 0 < n)
    (hs : ∀ k < n, DerivStep x (es k) (es (k + 1)))
    (hr : ∀ k < n, ∀ᶠ t in 𝓝 (ρ x), (∃ v, (es k).eval (Function.update ρ x t) = some v) ∧
      Smooth (Function.update ρ x t) x (es k)) (xs : List (List Char)) (hx : ∀ m ∈ (es n).vars, m ∈ xs) :
    ∃ F : ℝ → ℝ, (∀ᶠ t in 𝓝 (ρ x), (es 0).eval (Function.update ρ x t) = some (F t)) ∧
      ∀ k, (es n).height ≤ k →
        simp nanOps k (subDict (es n).embed (valueDict ρ xs)) = .ok (.const (some (iteratedDeriv n F (ρ x)))) := by
  obtain ⟨F, h1, h2⟩ := C86_higher ρ x es n hn hs hr
  refine ⟨F, h1, fun k hk => ?_⟩
  have ha : (es n).arith = true := by
    obtain ⟨m, rfl⟩ : ∃ m, n = m + 1 := ⟨n - 1, by omega⟩
    obtain ⟨⟨v, hv⟩, -⟩ := (hr m (by omega)).self_of_nhds
    obtain ⟨d, g1, g2⟩ := hs m (by omega)
    obtain ⟨e'', k1, k2, -⟩ := deriv_arith realOps x (es m) (eval_arith _ _ hv)
    rw [g1] at k1
    have : d = e'' := by simpa using k1
    subst this
    rcases g2 with g2 | ⟨j, g2⟩
    · rw [g2]; exact k2
    · exact (simp_valueS (ρ := ρ) g2 k2).1
  rw [C52_insert_and_simplify ρ (es n) xs ha hx k hk, h2]

/-- **C86**: symbolic and automatic differentiation agree: if `ad<N>` returns Taylor coefficients at `a`, the value of the `k`-th
symbolic derivative there is the `k`-th coefficient times `k!`. -/
theorem C86_ad (ρ : List Char → ℝ) (x : List Char) (es : ℕ → Expr ℝ) (k : ℕ) (hk : 0 < k)
    (hs : ∀ j < k, DerivStep x (es j) (es (j + 1)))
    (hr : ∀ j < k, ∀ᶠ t in 𝓝 (ρ x), (∃ v, (es j).eval (Function.update ρ x t) = some v) ∧
      Smooth (Function.update ρ x t) x (es j)) {N : ℕ} (m : ℕ) (c : Pol.Arr ℝ N)
    (had : Ad.ad N x (ρ x) m (es 0) = .ok (some c)) (hkN : k ≤ N) :
    (es k).evalS ρ = some (c ⟨k, by omega⟩ * k.factorial) := by
  obtain ⟨F, h1, h2⟩ := C86_higher ρ x es k hk hs hr
  obtain ⟨f, -, h3, h4⟩ := Ad.C36_sound x (ρ x) (by omega) (es 0) m c had
  have : f =ᶠ[𝓝 (ρ x)] F := by
    filter_upwards [h1, h3] with t ht ht'
    have e : Ad.at_ ρ x t = Function.update ρ x t := by
      funext j; simp [Ad.at_, Function.update_apply]
    have := ht' ρ
    rw [e, ht] at this
    simpa using this.symm
  rw [h2, h4 ⟨k, by omega⟩, this.iteratedDeriv_eq]
  congr 1
  exact (div_mul_cancel₀ _ (Nat.cast_ne_zero.2 (Nat.factorial_ne_zero k))).symm

/-! ## A class of expressions closed under differentiation -/

/-- Specification: `f` is an arithmetic expression without arbitrary signs, and at `ρ` the denominators, the arguments of
logarithms and absolute values and the bases of powers are positive. -/
def Nice (ρ : List Char → ℝ) : Expr ℝ → Prop
  | .const _ => True
  | .var _ => True
  | .un o a => Nice ρ a ∧ o ≠ .arbsign ∧ (o = .log ∨ o = .abs → ∃ v, a.eval ρ = some v ∧ 0 < v)
  | .bin o l r => Nice ρ l ∧ Nice ρ r ∧ (o = .add ∨ o = .sub ∨ o = .mul ∨ (o = .div ∧ ∃ v, r.eval ρ = some v ∧ 0 < v) ∨
      (o = .pow ∧ ∃ v, l.eval ρ = some v ∧ 0 < v))
  | .arr _ => False
  | .dict _ => False

theorem powDom_pos {b y : ℝ} (h : 0 < b) : powDom b y := Or.inl h

theorem Nice.eval {ρ : List Char → ℝ} (f : Expr ℝ) (h : Nice ρ f) : ∃ v, f.eval ρ = some v := by
  induction f using Expr.ind with
  | const k => exact ⟨k, rfl⟩
  | var m => exact ⟨ρ m, rfl⟩
  | un o a ih =>
    obtain ⟨v, hv⟩ := ih h.1
    simp only [Expr.eval, hv, Option.bind_some]
    cases o with
    | log =>
      obtain ⟨w, h1, h2⟩ := h.2.2 (Or.inl rfl)
      rw [hv] at h1; cases h1
      exact ⟨_, if_pos h2⟩
    | arbsign => exact absurd rfl h.2.1
    | _ => exact ⟨_, rfl⟩
  | bin o l r ih1 ih2 =>
    obtain ⟨v, hv⟩ := ih1 h.1
    obtain ⟨w, hw⟩ := ih2 h.2.1
    simp only [Expr.eval, hv, hw, Option.bind_some]
    rcases h.2.2 with rfl | rfl | rfl | ⟨rfl, u, h1, h2⟩ | ⟨rfl, u, h1, h2⟩
    · exact ⟨_, rfl⟩
    · exact ⟨_, rfl⟩
    · exact ⟨_, rfl⟩
    · rw [hw] at h1; cases h1
      exact ⟨_, if_neg h2.ne'⟩
    · rw [hv] at h1; cases h1
      exact ⟨_, if_pos (powDom_pos h2)⟩
  | arr => exact absurd h id
  | dict => exact absurd h id

theorem Nice.smooth {ρ : List Char → ℝ} {x : List Char} (f : Expr ℝ) (h : Nice ρ f) : Smooth ρ x f := by
  induction f using Expr.ind with
  | const => trivial
  | var => trivial
  | un o a ih =>
    refine ⟨ih h.1, fun ho => Or.inl ?_⟩
    obtain ⟨w, h1, h2⟩ := h.2.2 (Or.inr ho)
    rw [h1]
    simpa using h2.ne'
  | bin o l r ih1 ih2 =>
    refine ⟨ih1 h.1, ih2 h.2.1, fun ho => Or.inl ?_⟩
    subst ho
    rcases h.2.2 with h | h | h | ⟨h, -⟩ | ⟨-, h⟩
    · cases h
    · cases h
    · cases h
    · cases h
    · exact h
  | arr => trivial
  | dict => trivial

theorem Nice.near {ρ : List Char → ℝ} {x : List Char} (f : Expr ℝ) (h : Nice ρ f) :
    ∀ᶠ t in 𝓝 (ρ x), Nice (Function.update ρ x t) f := by
  have pos : ∀ g : Expr ℝ, Nice ρ g → (∃ v, g.eval ρ = some v ∧ 0 < v) →
      ∀ᶠ t in 𝓝 (ρ x), ∃ v, g.eval (Function.update ρ x t) = some v ∧ 0 < v := by
    rintro g hg ⟨v, h1, h2⟩
    obtain ⟨e, d, -, -, F, h3, h4⟩ := C16_derivative ρ x g v h1 hg.smooth
    have h5 := h3.self_of_nhds
    rw [Function.update_eq_self, h1] at h5
    have h6 : 0 < F (ρ x) := by cases h5; exact h2
    filter_upwards [h3, h4.continuousAt.eventually_const_lt h6] with t ht ht'
    exact ⟨_, ht, ht'⟩
  induction f using Expr.ind with
  | const => exact Eventually.of_forall fun _ => trivial
  | var => exact Eventually.of_forall fun _ => trivial
  | un o a ih =>
    by_cases ho : o = .log ∨ o = .abs
    · filter_upwards [ih h.1, pos a h.1 (h.2.2 ho)] with t h1 h2
      exact ⟨h1, h.2.1, fun _ => h2⟩
    · filter_upwards [ih h.1] with t h1
      exact ⟨h1, h.2.1, fun h' => absurd h' ho⟩
  | bin o l r ih1 ih2 =>
    rcases h.2.2 with h' | h' | h' | ⟨h', h2⟩ | ⟨h', h2⟩
    · filter_upwards [ih1 h.1, ih2 h.2.1] with t h1 h2; exact ⟨h1, h2, Or.inl h'⟩
    · filter_upwards [ih1 h.1, ih2 h.2.1] with t h1 h2; exact ⟨h1, h2, Or.inr (Or.inl h')⟩
    · filter_upwards [ih1 h.1, ih2 h.2.1] with t h1 h2; exact ⟨h1, h2, Or.inr (Or.inr (Or.inl h'))⟩
    · filter_upwards [ih1 h.1, ih2 h.2.1, pos r h.2.1 h2] with t h1 h2 h3
      exact ⟨h1, h2, Or.inr (Or.inr (Or.inr (Or.inl ⟨h', h3⟩)))⟩
    · filter_upwards [ih1 h.1, ih2 h.2.1, pos l h.1 h2] with t h1 h2 h3
      exact ⟨h1, h2, Or.inr (Or.inr (Or.inr (Or.inr ⟨h', h3⟩)))⟩
  | arr => exact absurd h id
  | dict => exact absurd h id

theorem Nice.deriv {ρ : List Char → ℝ} {x : List Char} (f : Expr ℝ) (h : Nice ρ f) :
    ∃ e, Stator.deriv realOps x f = .ok e ∧ Nice ρ e := by
  induction f using Expr.ind with
  | const => exact ⟨.const 0, by rw [Stator.deriv]; rfl, trivial⟩
  | var m => exact ⟨.const (if m = x then 1 else 0), by rw [Stator.deriv]; rfl, trivial⟩
  | un o a ih =>
    obtain ⟨a', h1, h2⟩ := ih h.1
    obtain ⟨e1, e2, e3, e4, e5, e6⟩ := deriv_un_eq_ok h1
    have u : ∀ o', o' ≠ .arbsign → o' ≠ .log → o' ≠ .abs → Nice ρ (.un o' a) := fun o' n1 n2 n3 =>
      ⟨h.1, n1, fun h' => by rcases h' with h' | h' <;> contradiction⟩
    cases o with
    | sin => exact ⟨_, e1, h2, u .cos (by simp) (by simp) (by simp), by simp⟩
    | cos => exact ⟨_, e2, ⟨h2, by simp, by simp⟩, u .sin (by simp) (by simp) (by simp), by simp⟩
    | exp => exact ⟨_, e3, h2, h, by simp⟩
    | log => exact ⟨_, e4, h2, h.1, Or.inr (Or.inr (Or.inr (Or.inl ⟨rfl, h.2.2 (Or.inl rfl)⟩)))⟩
    | abs => exact ⟨_, e5, ⟨h2, h, by simp⟩, h.1, Or.inr (Or.inr (Or.inr (Or.inl ⟨rfl, h.2.2 (Or.inr rfl)⟩)))⟩
    | arbsign => exact absurd rfl h.2.1
    | neg => exact ⟨_, e6, h2, by simp, by simp⟩
  | bin o l r ih1 ih2 =>
    obtain ⟨l', h1, h2⟩ := ih1 h.1
    obtain ⟨r', h3, h4⟩ := ih2 h.2.1
    obtain ⟨e1, e2, e3, e4, e5⟩ := deriv_bin_eq_ok h1 h3
    have m : ∀ a b : Expr ℝ, Nice ρ a → Nice ρ b → Nice ρ (.bin .mul a b) := fun a b ha hb => ⟨ha, hb, by simp⟩
    rcases h.2.2 with rfl | rfl | rfl | ⟨rfl, v, h5, h6⟩ | ⟨rfl, h5⟩
    · exact ⟨_, e1, h2, h4, by simp⟩
    · exact ⟨_, e2, h2, h4, by simp⟩
    · exact ⟨_, e3, m _ _ h2 h.2.1, m _ _ h.1 h4, by simp⟩
    · refine ⟨_, e4, ⟨m _ _ h2 h.2.1, m _ _ h.1 h4, by simp⟩, ⟨h.2.1, trivial, ?_⟩, ?_⟩
      · exact Or.inr (Or.inr (Or.inr (Or.inr ⟨rfl, v, h5, h6⟩)))
      · refine Or.inr (Or.inr (Or.inr (Or.inl ⟨rfl, v ^ (realOps.add realOps.one realOps.one : ℝ), ?_, Real.rpow_pos_of_pos h6 _⟩)))
        simp [Expr.eval, h5, binVal, powDom_pos h6]
    · have p : ∀ y : Expr ℝ, Nice ρ y → Nice ρ (.bin .pow l y) := fun y hy =>
        ⟨h.1, hy, Or.inr (Or.inr (Or.inr (Or.inr ⟨rfl, h5⟩)))⟩
      exact ⟨_, e5, m _ _ (m _ _ h.2.1 h2) (p _ ⟨h.2.1, trivial, by simp⟩),
        m _ _ (m _ _ h4 ⟨h.1, by simp, fun _ => h5⟩) (p _ h.2.1), by simp⟩
  | arr => exact absurd h id
  | dict => exact absurd h id

theorem Nice.simpS {ρ : List Char → ℝ} {e e' : Expr ℝ} (h : SimpS realOps e e') (he : Nice ρ e) : Nice ρ e' := by
  induction h with
  | const => trivial
  | var => trivial
  | @un o a a' ha ih =>
    unfold foldUn
    split
    · have := he.2.1
      cases o <;> trivial
    · refine ⟨ih he.1, he.2.1, fun ho => ?_⟩
      obtain ⟨v, h1, h2⟩ := he.2.2 ho
      exact ⟨v, ha.value h1, h2⟩
  | @bin o l r l' r' e hl hr h ih1 ih2 =>
    have al := ih1 he.1
    have ar := ih2 he.2.1
    have cond : o = .add ∨ o = .sub ∨ o = .mul ∨ (o = .div ∧ ∃ v, r'.eval ρ = some v ∧ 0 < v) ∨
        (o = .pow ∧ ∃ v, l'.eval ρ = some v ∧ 0 < v) := by
      rcases he.2.2 with h | h | h | ⟨h, v, h1, h2⟩ | ⟨h, v, h1, h2⟩
      · exact Or.inl h
      · exact Or.inr (Or.inl h)
      · exact Or.inr (Or.inr (Or.inl h))
      · exact Or.inr (Or.inr (Or.inr (Or.inl ⟨h, v, hr.value h1, h2⟩)))
      · exact Or.inr (Or.inr (Or.inr (Or.inr ⟨h, v, hl.value h1, h2⟩)))
    have m : ∀ (k : ℝ) (b : Expr ℝ), Nice ρ b → Nice ρ (.bin .mul (.const k) b) := fun k b hb => ⟨trivial, hb, by simp⟩
    cases h with
    | lz => trivial
    | li => exact ar
    | rz => trivial
    | ri => exact al
    | dd h =>
      cases h with
      | same => exact ⟨al, ar, cond⟩
      | fold => rcases cond with rfl | rfl | rfl | ⟨rfl, -⟩ | ⟨rfl, -⟩ <;> trivial
      | neg => exact ⟨ar, by simp, by simp⟩
      | negc => trivial
      | mc1 => exact m _ _ ar.2.1
      | mc2 => exact m _ _ ar.1
      | mc3 => exact m _ _ al.2.1
      | mc4 => exact m _ _ al.1
      | uu | ul | du => rcases al.2.2 with h | h | h | ⟨h, -⟩ | ⟨h, -⟩ <;> cases h
      | ur => rcases ar.2.2 with h | h | h | ⟨h, -⟩ | ⟨h, -⟩ <;> cases h

theorem Nice.step {ρ : List Char → ℝ} {x : List Char} {f g : Expr ℝ} (h : Nice ρ f) (hs : DerivStep x f g) : Nice ρ g := by
  obtain ⟨d, h1, h2⟩ := hs
  obtain ⟨e, h3, h4⟩ := Nice.deriv (x := x) f h
  rw [h1] at h3
  have : d = e := by simpa using h3
  subst this
  rcases h2 with rfl | ⟨n, h2⟩
  · exact h4
  · obtain ⟨v, hv⟩ := h4.eval
    obtain ⟨e'', k1, -, k2⟩ := simp_scalar realOps d (eval_some_scalar hv)
    have : g = e'' := simplifies_det ⟨n, h2⟩ ⟨_, k2 _ le_rfl⟩
    subst this
    exact Nice.simpS k1 h4

/-- **C86** without conditions on the expressions in between: if at the given point the denominators, the arguments of logarithms
and absolute values and the bases of powers in `f` are positive, then every derivative of every order, simplified or not, is defined
and its value is that of the derivative of that order. -/
theorem C86_all_orders (ρ : List Char → ℝ) (x : List Char) (f : Expr ℝ) (h : Nice ρ f) :
    ∃ F : ℝ → ℝ, (∀ᶠ t in 𝓝 (ρ x), f.eval (Function.update ρ x t) = some (F t)) ∧
      ∀ es : ℕ → Expr ℝ, es 0 = f → ∀ n, (∀ k < n, DerivStep x (es k) (es (k + 1))) →
        (es n).eval ρ = some (iteratedDeriv n F (ρ x)) ∧
        (∃ d, deriv realOps x (es n) = .ok d ∧ ∃ d', ∀ k, d.height ≤ k → simp realOps k d = .ok d') := by
  set F : ℝ → ℝ := fun t => (f.eval (Function.update ρ x t)).getD 0 with hF
  have val : ∀ᶠ t in 𝓝 (ρ x), f.eval (Function.update ρ x t) = some (F t) := by
    filter_upwards [Nice.near (x := x) f h] with t ht
    obtain ⟨v, hv⟩ := ht.eval
    simp [hF, hv]
  refine ⟨F, val, fun es h0 n hs => ?_⟩
  have nice : ∀ t, Nice (Function.update ρ x t) f → ∀ k ≤ n, Nice (Function.update ρ x t) (es k) := by
    intro t ht k
    induction k with
    | zero => intro _; rw [h0]; exact ht
    | succ k ih => intro hk; exact (ih (by omega)).step (hs k (by omega))
  have nn : Nice ρ (es n) := by
    have := nice (ρ x) (by rw [Function.update_eq_self]; exact h) n le_rfl
    rwa [Function.update_eq_self] at this
  constructor
  · obtain ⟨v, hv⟩ := nn.eval
    rcases Nat.eq_zero_or_pos n with rfl | hn
    · rw [h0, iteratedDeriv_zero]
      have := val.self_of_nhds
      rwa [Function.update_eq_self] at this
    · obtain ⟨G, h1, h2⟩ := C86_higher ρ x es n hn hs (fun k hk => by
        filter_upwards [Nice.near (x := x) f h] with t ht
        have := nice t ht k (by omega)
        exact ⟨this.eval, this.smooth⟩)
      have hFG : G =ᶠ[𝓝 (ρ x)] F := by
        rw [h0] at h1
        filter_upwards [h1, val] with t h3 h4
        rw [h3] at h4
        simpa using h4
      rw [evalS_of_eval _ _ hv, hFG.iteratedDeriv_eq] at h2
      rw [hv, h2]
  · obtain ⟨d, h1, h2⟩ := Nice.deriv (x := x) (es n) nn
    obtain ⟨v, hv⟩ := h2.eval
    obtain ⟨d', -, -, k2⟩ := simp_scalar realOps d (eval_some_scalar hv)
    exact ⟨d, h1, d', k2⟩

/-- `x ^ 2.5 / (1 + exp(x)) * log(x)` at `x = 2` -/
example : Nice (fun _ => 2) (.bin .mul (.bin .div (.bin .pow (.var ['x']) (.const (5 / 2)))
    (.bin .add (.const 1) (.un .exp (.var ['x'])))) (.un .log (.var ['x']))) := by
  refine ⟨⟨⟨trivial, trivial, ?_⟩, ⟨trivial, ⟨trivial, by simp, by simp⟩, by simp⟩, ?_⟩, ⟨trivial, by simp, fun _ => ?_⟩, by simp⟩
  · exact Or.inr (Or.inr (Or.inr (Or.inr ⟨rfl, 2, rfl, by norm_num⟩)))
  · exact Or.inr (Or.inr (Or.inr (Or.inl ⟨rfl, 1 + Real.exp 2, rfl, by positivity⟩)))
  · exact ⟨2, rfl, by norm_num⟩

/-- Two steps from `sin(x)`: `cos(x)` and `-1 * sin(x)`, at any point. -/
example (a : ℝ) : ∃ es : ℕ → Expr ℝ, es 0 = .un .sin (.var ['x']) ∧ es 1 = .un .cos (.var ['x']) ∧
    (∀ k < 2, DerivStep ['x'] (es k) (es (k + 1))) ∧
    ∀ k < 2, ∀ᶠ t in 𝓝 a, (∃ v, (es k).eval (Function.update (fun _ => a) ['x'] t) = some v) ∧
      Smooth (Function.update (fun _ => a) ['x'] t) ['x'] (es k) := by
  refine ⟨fun k => if k = 0 then .un .sin (.var ['x']) else if k = 1 then .un .cos (.var ['x']) else
    .bin .mul (.const (-1)) (.un .sin (.var ['x'])), rfl, rfl, ?_, ?_⟩
  · intro k hk
    interval_cases k
    · exact ⟨.bin .mul (.const 1) (.un .cos (.var ['x'])), by simp [deriv, realOps], Or.inr ⟨4, by
        simp [simp, foldUn, simpBin, isConst, BinOp.leftZero, BinOp.leftId, realOps]⟩⟩
    · exact ⟨.bin .mul (.un .neg (.const 1)) (.un .sin (.var ['x'])), by simp [deriv, realOps], Or.inr ⟨4, by
        simp [simp, foldUn, simpBin, isConst, BinOp.leftZero, BinOp.leftId, BinOp.rightZero, BinOp.rightId, realOps, ddVisit, mulUnits]
        norm_num⟩⟩
  · intro k hk
    refine Filter.Eventually.of_forall fun t => ?_
    interval_cases k <;> simp [Expr.eval, unVal, Smooth]

end Stator
