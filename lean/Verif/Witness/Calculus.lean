import Verif.Ct.CalculusProps
import Verif.Ct.Convert
import Verif.Ad.Props

/-! # Theorems of the compile-time part and of automatic differentiation, applied to concrete cases -/

namespace Stator.Ct

/-- C57: the value of `x * x` is a value of the simplified expression. -/
example (ρ : List Char → ℝ) : (E.bin .mul (.var ['x']) (.var ['x'])).vals ρ ⊆ (E.bin .pow (.var ['x']) (.c (.ofInt 2))).vals ρ :=
  C57_simplify (.square (by simp [opPow, C.unity, C.ofInt])) ρ

/-- C59: `y^2` for `x` in `sin(x) * x`. -/
example (ρ : List Char → ℝ) : ∃ g : E, subst ['x'] (.bin .pow (.var ['y']) (.c (.ofInt 2)))
    (.bin .mul (.un .sin (.var ['x'])) (.var ['x'])) = some g ∧ Real.sin (ρ ['y'] ^ 2) * ρ ['y'] ^ 2 ∈ g.vals ρ := by
  obtain ⟨g, hg⟩ : ∃ g, subst ['x'] (.bin .pow (.var ['y']) (.c (.ofInt 2)))
      (.bin .mul (.un .sin (.var ['x'])) (.var ['x'])) = some g := by
    simp [subst, applyUn, applyOp, opMul, E.isC, node, E.number]
  refine ⟨g, hg, C59_substitute ?_ (by simp) hg (w := ρ ['y'] ^ 2) ?_ ?_⟩
  · simp [E.formed, applyUn, applyOp, opMul, E.isC, node, E.number]
  · exact ⟨ρ ['y'], rfl, 2, by simp [E.vals, C.ofInt], by
      have : powDom (ρ ['y']) 2 := by
        rcases lt_trichotomy (ρ ['y']) 0 with h | h | h
        · exact .inr (.inr ⟨h, 2, by norm_num⟩)
        · exact .inr (.inl ⟨h, by norm_num⟩)
        · exact .inl h
      simp [Op.rt, binVal, this]⟩
  · exact ⟨_, ⟨_, rfl, by simp [unVal]; rfl⟩, _, rfl, by simp [Op.rt, binVal, at_]⟩

end Stator.Ct

namespace Stator.Ad

open Pol

/-- C36: what `ad` returns for `exp(sin(x))` at 3 are its Taylor coefficients. -/
example : ∃ c : Arr ℝ 5, ad 5 ['x'] 3 9 (.un .exp (.un .sin (.var ['x']))) = .ok (some c) ∧ ∃ f : ℝ → ℝ,
    ∀ k : Fin 6, c k = iteratedDeriv k f 3 / (k : ℕ).factorial := by
  have hr : Regular ['x'] 3 (.un .exp (.un .sin (.var ['x']))) := rfl
  obtain ⟨f, -, -, h⟩ := C36_taylor_coefficients ['x'] 3 _ hr
  obtain ⟨c, h1, -⟩ := h 5
  have e := h1 9 (by simp [Expr.height])
  obtain ⟨f, -, -, hf⟩ := C36_sound ['x'] 3 (by norm_num) _ 9 c e
  exact ⟨c, e, f, hf⟩

/-- C36: of order 0 it is the value. -/
example : ∃ c : Arr ℝ 0, ad 0 ['x'] 3 9 (.un .exp (.un .sin (.var ['x']))) = .ok (some c) ∧
    (Expr.un .exp (.un .sin (.var ['x']))).eval (at_ (fun _ => 0) ['x'] 3) = some (c 0) := by
  have hr : Regular ['x'] 3 (.un .exp (.un .sin (.var ['x']))) := rfl
  obtain ⟨f, -, -, h⟩ := C36_taylor_coefficients ['x'] 3 _ hr
  obtain ⟨c, h1, -⟩ := h 0
  have e := h1 9 (by simp [Expr.height])
  exact ⟨c, e, C36_order_zero ['x'] 3 _ 9 c e _⟩

end Stator.Ad
