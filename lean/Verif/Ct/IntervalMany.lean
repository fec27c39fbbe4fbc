import Verif.Ct.IntervalExact

/-!
# Intervals for several variables (C92)
-/

namespace Stator.Ct

variable {I : Type} {A : Ivl I} {ρ : List Char → ℝ}

/-- `sub(g, y = a)` for an expression `g` that may contain intervals, when `s` is `sub(f, y = a)` for expressions without: there is no
overload of `sub` for an interval, which is neither a `Var` nor constant in the sense of `IsConstant`.
models: sub.hpp:35-57, constants.hpp:212-213, binary_ops.hpp:421-424, unary_ops.hpp:181-183. -/
noncomputable def isubI (A : Ivl I) (s : E → Option (IE I)) : IE I → Option (IE I)
  | .val f => s f
  | .ivl _ => none
  | .un o a => do iapplyUn A o (← isubI A s a)
  | .bin o l r => do iapply A o (← isubI A s l) (← isubI A s r)

/-- An interval occurs in the expression. -/
def IE.hasIvl : IE I → Prop
  | .val _ => False
  | .ivl _ => True
  | .un _ a => a.hasIvl
  | .bin _ l r => l.hasIvl ∨ r.hasIvl

/-- What an operator gives. -/
theorem iapply_cases {o : Op} {l r e : IE I} (h : iapply A o l r = some e) :
    (∃ a b c, l = .val a ∧ r = .val b ∧ e = .val c ∧ applyOp o a b = some c) ∨ e = .bin o l r ∨ (∃ j, e = .ivl j) ∨ (e = l ∧ ∃ b, r = .val b ∧ ∀ a, l ≠ .val a) ∨
      (e = r ∧ ∃ b, l = .val b ∧ ∀ a, r ≠ .val a) ∨ (e = .val (.c .null) ∧ o = .mul ∧ (l = .val (.c .null) ∨ r = .val (.c .null))) ∨
      (e = .un .neg r ∧ iapplyUn A .neg r = some e) := by
  have nn : ∀ o, inode A o l r = some e → e = .bin o l r ∨ ∃ j, e = .ivl j := by
    intro o h
    unfold inode at h
    split at h
    · rw [Option.map_eq_some_iff] at h
      obtain ⟨j, -, rfl⟩ := h
      exact .inr ⟨j, rfl⟩
    · cases h
    · cases h
    · cases h; exact .inl rfl
  unfold iapply at h
  split at h
  · rw [Option.map_eq_some_iff] at h
    obtain ⟨c, hc, rfl⟩ := h
    exact .inl ⟨_, _, c, rfl, rfl, rfl, hc⟩
  · rename_i hnv
    have hl : ∀ {a : C}, r.isC a = true → ∃ b, r = .val b ∧ ∀ a, l ≠ .val a := fun h0 =>
      ⟨_, IE.isC_iff.1 h0, fun a ha => hnv _ _ ha (IE.isC_iff.1 h0)⟩
    have hr : ∀ {a : C}, l.isC a = true → ∃ b, l = .val b ∧ ∀ a, r ≠ .val a := fun h0 =>
      ⟨_, IE.isC_iff.1 h0, fun a ha => hnv _ _ (IE.isC_iff.1 h0) ha⟩
    cases o <;> dsimp only at h
    · split at h
      · rename_i h0; cases h; exact .inr (.inr (.inr (.inl ⟨rfl, hl h0⟩)))
      · split at h
        · rename_i h0; cases h; exact .inr (.inr (.inr (.inr (.inl ⟨rfl, hr h0⟩))))
        · rcases nn _ h with h | h
          · exact .inr (.inl h)
          · exact .inr (.inr (.inl h))
    · split at h
      · rename_i h0; cases h; exact .inr (.inr (.inr (.inl ⟨rfl, hl h0⟩)))
      · split at h
        · rename_i h0
          obtain ⟨-, -, hn⟩ := hr h0
          cases r with
          | val b => exact absurd rfl (hn b)
          | ivl i => cases h; exact .inr (.inr (.inl ⟨_, rfl⟩))
          | un p b => cases h; exact .inr (.inr (.inr (.inr (.inr (.inr ⟨rfl, rfl⟩)))))
          | bin p b c => cases h; exact .inr (.inr (.inr (.inr (.inr (.inr ⟨rfl, rfl⟩)))))
        · rcases nn _ h with h | h
          · exact .inr (.inl h)
          · exact .inr (.inr (.inl h))
    · split at h
      · rename_i h0; cases h; exact .inr (.inr (.inr (.inr (.inr (.inl ⟨rfl, rfl, .inr (IE.isC_iff.1 h0)⟩)))))
      · split at h
        · rename_i h0; cases h; exact .inr (.inr (.inr (.inr (.inr (.inl ⟨rfl, rfl, .inl (IE.isC_iff.1 h0)⟩)))))
        · split at h
          · rename_i h0; cases h; exact .inr (.inr (.inr (.inl ⟨rfl, hl h0⟩)))
          · split at h
            · rename_i h0; cases h; exact .inr (.inr (.inr (.inr (.inl ⟨rfl, hr h0⟩))))
            · rcases nn _ h with h | h
              · exact .inr (.inl h)
              · exact .inr (.inr (.inl h))
    · rcases nn _ h with h | h
      · exact .inr (.inl h)
      · exact .inr (.inr (.inl h))
    · split at h
      · rename_i h0; cases h; exact .inr (.inr (.inr (.inl ⟨rfl, hl h0⟩)))
      · unfold ipow at h
        split at h
        all_goals first
          | (rw [Option.map_eq_some_iff] at h; obtain ⟨j, _, rfl⟩ := h; exact .inr (.inr (.inl ⟨j, rfl⟩)))
          | (cases h; done)
          | (cases h; exact .inr (.inl rfl))

theorem iapplyUn_cases {o : UnOp} {a e : IE I} (h : iapplyUn A o a = some e) :
    (∃ b c, a = .val b ∧ e = .val c ∧ applyUn o b = some c) ∨ e = .un o a ∨ ∃ j, e = .ivl j := by
  cases a with
  | val b =>
    simp only [iapplyUn, Option.map_eq_some_iff] at h
    obtain ⟨c, hc, rfl⟩ := h
    exact .inl ⟨b, c, rfl, rfl, hc⟩
  | ivl i =>
    cases o <;> simp only [iapplyUn, Option.some.injEq, reduceCtorEq] at h <;> subst h
    · exact .inr (.inr ⟨_, rfl⟩)
    · exact .inr (.inl rfl)
    · exact .inr (.inr ⟨_, rfl⟩)
  | un p b => cases h; exact .inr (.inl rfl)
  | bin p b c => cases h; exact .inr (.inl rfl)

theorem not_bin_val {o : Op} {a b : E} {l r : IE I} : iapply A o (.val a) (.val b) ≠ some (.bin o l r) := by
  simp [iapply]

theorem mul_null_not_bin {l r : IE I} (h : l = .val (.c .null) ∨ r = .val (.c .null)) {p q : IE I} : iapply A .mul l r ≠ some (.bin .mul p q) := by
  intro hc
  cases l with
  | val a =>
    cases r with
    | val b => exact not_bin_val hc
    | _ =>
      rcases h with h | h
      · cases h; simp [iapply, IE.isC, E.isC] at hc
      · cases h
  | _ =>
    rcases h with h | h
    · cases h
    · subst h; simp [iapply, IE.isC, E.isC] at hc

theorem isub_val {x : List Char} {i : I} {f e : E} (hf : f.formed) (h : isub A x i f = some (.val e)) : f = e := by
  induction f generalizing e with
  | c b => simpa [isub] using h
  | num v => simpa [isub] using h
  | var n =>
    simp only [isub, Option.some.injEq] at h
    split at h
    · cases h
    · cases h; rfl
  | un o a ih =>
    simp only [isub, Option.bind_eq_bind, Option.bind_eq_some_iff] at h
    obtain ⟨a', ha, h⟩ := h
    rcases iapplyUn_cases h with ⟨b, c, rfl, hc, h'⟩ | hc | ⟨j, hc⟩
    · cases hc
      obtain rfl := ih hf.1 ha
      exact Option.some.inj (hf.2.symm.trans h')
    · cases hc
    · cases hc
  | bin o l r ih1 ih2 =>
    simp only [isub, Option.bind_eq_bind, Option.bind_eq_some_iff] at h
    obtain ⟨l', hl, r', hr, h⟩ := h
    rcases iapply_cases h with ⟨a, b, c, rfl, rfl, hc, h'⟩ | hc | ⟨j, hc⟩ | ⟨hc, b, -, hn⟩ | ⟨hc, b, -, hn⟩ | ⟨-, rfl, hn⟩ | ⟨hc, -⟩
    · cases hc
      obtain rfl := ih1 hf.1 hl
      obtain rfl := ih2 hf.2.1 hr
      exact Option.some.inj (hf.2.2.symm.trans h')
    · cases hc
    · cases hc
    · exact absurd hc.symm (hn _)
    · exact absurd hc.symm (hn _)
    · rcases hn with rfl | rfl
      · rw [ih1 hf.1 hl] at hf
        cases opMul_null_left hf.2.2
      · rw [ih2 hf.2.1 hr] at hf
        cases opMul_null_right hf.2.2
    · cases hc

theorem not_val {x : List Char} {i : I} {f e : E} (hf : f.formed) (hx : f.has x) : isub A x i f ≠ some (.val e) := by
  induction f generalizing e with
  | c b => exact hx.elim
  | num v => exact hx.elim
  | var n =>
    have hx : n = x := hx
    simp [isub, hx]
  | un o a ih =>
    intro h
    simp only [isub, Option.bind_eq_bind, Option.bind_eq_some_iff] at h
    obtain ⟨a', ha, h⟩ := h
    rcases iapplyUn_cases h with ⟨b, c, rfl, -, -⟩ | hc | ⟨j, hc⟩
    · exact ih hf.1 hx ha
    · cases hc
    · cases hc
  | bin o l r ih1 ih2 =>
    intro h
    simp only [isub, Option.bind_eq_bind, Option.bind_eq_some_iff] at h
    obtain ⟨l', hl, r', hr, h⟩ := h
    rcases iapply_cases h with ⟨a, b, c, rfl, rfl, -, -⟩ | hc | ⟨j, hc⟩ | ⟨hc, b, -, hn⟩ | ⟨hc, b, -, hn⟩ | ⟨-, rfl, hn⟩ | ⟨hc, -⟩
    · exact hx.elim (fun h => ih1 hf.1 h hl) (fun h => ih2 hf.2.1 h hr)
    · cases hc
    · cases hc
    · exact hn _ hc.symm
    · exact hn _ hc.symm
    · rcases hn with rfl | rfl
      · rw [isub_val hf.1 hl] at hf
        cases opMul_null_left hf.2.2
      · rw [isub_val hf.2.1 hr] at hf
        cases opMul_null_right hf.2.2
    · cases hc

theorem isub_hasIvl {x : List Char} {i : I} {f : E} {g : IE I} (hf : f.formed) (h : isub A x i f = some g) :
    (∃ e, g = .val e) ∨ g.hasIvl := by
  induction f generalizing g with
  | c b => cases h; exact .inl ⟨_, rfl⟩
  | num v => cases h; exact .inl ⟨_, rfl⟩
  | var n =>
    simp only [isub, Option.some.injEq] at h; subst h; split
    · exact .inr trivial
    · exact .inl ⟨_, rfl⟩
  | un o a ih =>
    simp only [isub, Option.bind_eq_bind, Option.bind_eq_some_iff] at h
    obtain ⟨a', ha, h⟩ := h
    rcases iapplyUn_cases h with ⟨b, c, -, rfl, -⟩ | rfl | ⟨j, rfl⟩
    · exact .inl ⟨_, rfl⟩
    · rcases ih hf.1 ha with ⟨e, rfl⟩ | h'
      · simp [iapplyUn] at h
      · exact .inr h'
    · exact .inr trivial
  | bin o l r ih1 ih2 =>
    simp only [isub, Option.bind_eq_bind, Option.bind_eq_some_iff] at h
    obtain ⟨l', hl, r', hr, h⟩ := h
    have kl := ih1 hf.1 hl
    have kr := ih2 hf.2.1 hr
    rcases iapply_cases h with ⟨a, b, c, -, -, rfl, -⟩ | rfl | ⟨j, rfl⟩ | ⟨rfl, -⟩ | ⟨rfl, -⟩ | ⟨rfl, -⟩ | ⟨rfl, h'⟩
    · exact .inl ⟨_, rfl⟩
    · rcases kl with ⟨a, rfl⟩ | kl
      · rcases kr with ⟨b, rfl⟩ | kr
        · exact absurd h not_bin_val
        · exact .inr (.inr kr)
      · exact .inr (.inl kl)
    · exact .inr trivial
    · exact kl
    · exact kr
    · exact .inl ⟨_, rfl⟩
    · rcases kr with ⟨b, rfl⟩ | kr
      · simp [iapplyUn] at h'
      · exact .inr kr

theorem isubI_none {s : E → Option (IE I)} : ∀ {g : IE I}, g.hasIvl → isubI A s g = none
  | .ivl _, _ => rfl
  | .un o a, h => by simp [isubI, isubI_none (g := a) h]
  | .bin o l r, h => by
    rcases h with h | h
    · simp [isubI, isubI_none h]
    · cases hl : isubI A s l <;> simp [isubI, hl, isubI_none h]

/-- **C92 fails for several variables**: after an interval has been inserted for a variable of an expression, nothing can be inserted
for another one, neither an interval nor a number; such a `sub` does not compile. -/
theorem C92_second_variable_fails {x : List Char} {i : I} {f : E} {g : IE I} (hf : f.formed) (hx : f.has x)
    (h : isub A x i f = some g) (s : E → Option (IE I)) : isubI A s g = none := by
  rcases isub_hasIvl hf h with ⟨e, rfl⟩ | h'
  · exact absurd h (not_val hf hx)
  · exact isubI_none h'

theorem subst_formed {y : List Char} {a f g : E} (ha : a.formed) (hf : f.formed) (h : subst y a f = some g) : g.formed := by
  induction f generalizing g with
  | c b => cases h; trivial
  | num v => cases h; trivial
  | var n => simp only [subst] at h; split at h <;> cases h <;> first | exact ha | trivial
  | un o e ih =>
    simp only [subst, Option.bind_eq_bind, Option.bind_eq_some_iff] at h
    obtain ⟨e', he, h⟩ := h
    exact applyUn_formed h (ih hf.1 he)
  | bin o l r ih1 ih2 =>
    simp only [subst, Option.bind_eq_bind, Option.bind_eq_some_iff] at h
    obtain ⟨l', hl, r', hr, h⟩ := h
    exact applyOp_formed h (ih1 hf.1 hl) (ih2 hf.2.1 hr)

/-- **C92**: the other order works. After a number has been inserted for `y`, the interval inserted for `x` gives the values of the
expression for that `y` and every `x` of the interval. -/
theorem C92_numbers_first (hA : A.Sound) {x y : List Char} {w : ℝ} {i : I} {f f' : E} {g : IE I} (hf : f.formed)
    (h : subst y (.num (some w)) f = some f') (hp : f'.wholePowers x) (h' : isub A x i f' = some g) {t v : ℝ} (ht : t ∈ A.mem i)
    (hv : v ∈ f.vals (at_ (at_ ρ x t) y w)) : v ∈ g.vals A ρ := by
  refine C92_contains hA (subst_formed (a := .num (some w)) trivial hf h) hp h' ht ?_
  exact subst_vals (trigSafe_of_not_const (by simp) hf) h rfl hv

/-- `x * y`: after `x = [1,2]` it is a product of an interval and `y`, and `y` cannot be replaced; after `y = 3` it is `x * 3`, which is
`[3,6]` for this interval. -/
example :
    isub (box exactDir) ['x'] (1, 2) (.bin .mul (.var ['x']) (.var ['y'])) = some (.bin .mul (.ivl (1, 2)) (.val (.var ['y']))) ∧
    (E.bin .mul (.var ['x']) (.var ['y'])).formed ∧ (E.bin .mul (.var ['x']) (.var ['y'])).has ['x'] ∧
    subst ['y'] (.num (some 3)) (.bin .mul (.var ['x']) (.var ['y'])) = some (.bin .mul (.var ['x']) (.num (some 3))) ∧
    isub (box exactDir) ['x'] (1, 2) (.bin .mul (.var ['x']) (.num (some 3))) = some (.ivl (3, 6)) := by
  have h : (box exactDir).op .mul (.inl (1, 2)) (.inr (some 3)) = some (3, 6) := by
    simp [box, ends, boxMul, exactDir]; norm_num
  refine ⟨?_, ?_, .inl rfl, ?_, ?_⟩
  · simp [isub, iapply, IE.isC, E.isC, inode, IE.kind]
  · simp [E.formed, applyOp, opMul, E.isC, node, E.number]
  · simp [subst, applyOp, opMul, E.isC, node, E.number]
  · simp [isub, iapply, IE.isC, E.isC, inode, IE.kind, h]

end Stator.Ct
