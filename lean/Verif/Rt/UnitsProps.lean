import Verif.Rt.SimplifyProps

/-!
# C18: quantities with units

`a{b}` stands for the quantity `a` times the unit `b`. Give every unit symbol (`m`, `s`, ...) an
arbitrary size: then the quantity has a real value, and a simplification is consistent when it keeps
that value for *every* choice of the sizes. (Multiplying the number and forgetting the unit, or
attaching a wrong unit, changes the value for some choice.)
-/

namespace Stator

/-- Specification: the value of an expression in which `a{b}` is `a` times the unit `b`, under an
assignment of the variables and of the sizes of the units. -/
noncomputable def quantity (ρ : List Char → ℝ) : Expr ℝ → Option ℝ
  | .const k => some k
  | .var n => some (ρ n)
  | .un o a => (quantity ρ a).bind (unVal o)
  | .bin .units l r => (quantity ρ l).bind fun x => (quantity ρ r).bind fun y => some (x * y)
  | .bin o l r => (quantity ρ l).bind fun x => (quantity ρ r).bind fun y => binVal o x y
  | .arr _ => none
  | .dict _ => none

/-- Specification: no unit appears anywhere. -/
def unitFree {K : Type} : Expr K → Bool
  | .const _ => true
  | .var _ => true
  | .un _ a => unitFree a
  | .bin o l r => o != .units && unitFree l && unitFree r
  | .arr _ => false
  | .dict _ => false

/-- Specification: quantities occur only as the left factor of a product (`5{m} * x`, never
`x * 5{m}` or `2{m} * 3{s}`); no restriction on any other operation. -/
def unitsOnLeft {K : Type} : Expr K → Bool
  | .const _ => true
  | .var _ => true
  | .un _ a => unitsOnLeft a
  | .bin o l r => unitsOnLeft l && unitsOnLeft r && (o != .mul || unitFree r)
  | .arr _ => false
  | .dict _ => false

/-- Value of an operation when `a{b}` is the product. -/
noncomputable def qVal (o : BinOp) (x y : ℝ) : Option ℝ :=
  match o with
  | .units => some (x * y)
  | o => binVal o x y

theorem quantity_bin (ρ : List Char → ℝ) (o : BinOp) (l r : Expr ℝ) (v : ℝ) :
    quantity ρ (.bin o l r) = some v ↔
      ∃ x y, quantity ρ l = some x ∧ quantity ρ r = some y ∧ qVal o x y = some v := by
  cases o <;> simp [quantity, qVal, Option.bind_eq_some_iff]

/-- The product whose simplification goes wrong: the right factor is a quantity, the left one is not. -/
def badPair {K : Type} (o : BinOp) (l r : Expr K) : Prop :=
  o = .mul ∧ (∃ c d, r = .bin .units c d) ∧ ¬ ∃ a b, l = .bin .units a b

theorem DDS.quantity {ρ : List Char → ℝ} {o : BinOp} {l r e : Expr ℝ} (h : DDS realOps o l r e)
    (hb : ¬ badPair o l r) {v : ℝ} (hv : Stator.quantity ρ (.bin o l r) = some v) :
    Stator.quantity ρ e = some v := by
  obtain ⟨x, y, hl, hr, hq⟩ := (quantity_bin _ _ _ _ _).1 hv
  cases h with
  | same => exact hv
  | fold =>
    simp [Stator.quantity] at hl hr
    subst hl hr
    cases o with
    | units => simpa [foldBin] using hv
    | div =>
      simp only [qVal, binVal] at hq
      split at hq
      · simp at hq
      · simpa [foldBin, Stator.quantity, realOps] using hq
    | pow =>
      simp only [qVal, binVal] at hq
      split at hq
      · simpa [foldBin, Stator.quantity, realOps] using hq
      · simp at hq
    | _ => simpa [qVal, binVal, foldBin, Stator.quantity, realOps] using hq
  | neg =>
    simp [Stator.quantity, realOps] at hl
    subst hl
    simp [qVal, binVal] at hq
    simp [Stator.quantity, hr, unVal, hq]
  | negc =>
    simp [Stator.quantity, realOps] at hl hr
    subst hl hr
    simp [qVal, binVal] at hq
    simp [Stator.quantity, realOps, hq]
  | mc1 =>
    obtain ⟨x', y', hl', hr', hq'⟩ := (quantity_bin _ _ _ _ _).1 hr
    simp [Stator.quantity] at hl hl'
    subst hl hl'
    simp [qVal, binVal] at hq hq'
    rw [quantity_bin]
    exact ⟨_, _, rfl, hr', by simp [qVal, binVal, realOps, ← hq, ← hq']; ring⟩
  | mc2 =>
    obtain ⟨x', y', hl', hr', hq'⟩ := (quantity_bin _ _ _ _ _).1 hr
    simp [Stator.quantity] at hl hr'
    subst hl hr'
    simp [qVal, binVal] at hq hq'
    rw [quantity_bin]
    exact ⟨_, _, rfl, hl', by simp [qVal, binVal, realOps, ← hq, ← hq']; ring⟩
  | mc3 =>
    obtain ⟨x', y', hl', hr', hq'⟩ := (quantity_bin _ _ _ _ _).1 hl
    simp [Stator.quantity] at hr hl'
    subst hr hl'
    simp [qVal, binVal] at hq hq'
    rw [quantity_bin]
    exact ⟨_, _, rfl, hr', by simp [qVal, binVal, realOps, ← hq, ← hq']; ring⟩
  | mc4 =>
    obtain ⟨x', y', hl', hr', hq'⟩ := (quantity_bin _ _ _ _ _).1 hl
    simp [Stator.quantity] at hr hr'
    subst hr hr'
    simp [qVal, binVal] at hq hq'
    rw [quantity_bin]
    exact ⟨_, _, rfl, hl', by simp [qVal, binVal, realOps, ← hq, ← hq']; ring⟩
  | uu =>
    obtain ⟨a, b, ha, hb', h1⟩ := (quantity_bin _ _ _ _ _).1 hl
    obtain ⟨c, d, hc, hd, h2⟩ := (quantity_bin _ _ _ _ _).1 hr
    simp [qVal, binVal] at hq h1 h2
    rw [quantity_bin]
    refine ⟨a * c, b * d, ?_, ?_, ?_⟩
    · exact (quantity_bin _ _ _ _ _).2 ⟨_, _, ha, hc, by simp [qVal, binVal]⟩
    · exact (quantity_bin _ _ _ _ _).2 ⟨_, _, hb', hd, by simp [qVal, binVal]⟩
    · simp [qVal, ← hq, ← h1, ← h2]; ring
  | ul =>
    obtain ⟨a, b, ha, hb', h1⟩ := (quantity_bin _ _ _ _ _).1 hl
    simp [qVal, binVal] at hq h1
    rw [quantity_bin]
    refine ⟨a * y, b, ?_, hb', ?_⟩
    · exact (quantity_bin _ _ _ _ _).2 ⟨_, _, ha, hr, by simp [qVal, binVal]⟩
    · simp [qVal, ← hq, ← h1]; ring
  | ur hn => exact absurd ⟨rfl, ⟨_, _, rfl⟩, fun ⟨a, b, h⟩ => hn a b h⟩ hb
  | du =>
    obtain ⟨a, b, ha, hb', h1⟩ := (quantity_bin _ _ _ _ _).1 hl
    obtain ⟨c, d, hc, hd, h2⟩ := (quantity_bin _ _ _ _ _).1 hr
    simp [qVal, binVal] at hq h1 h2
    obtain ⟨hy, hq⟩ := hq
    have hc0 : c ≠ 0 := by rintro rfl; simp at h2; exact hy h2.symm
    have hd0 : d ≠ 0 := by rintro rfl; simp at h2; exact hy h2.symm
    rw [quantity_bin]
    refine ⟨a / c, b / d, ?_, ?_, ?_⟩
    · exact (quantity_bin _ _ _ _ _).2 ⟨_, _, ha, hc, by simp [qVal, binVal, hc0]⟩
    · exact (quantity_bin _ _ _ _ _).2 ⟨_, _, hb', hd, by simp [qVal, binVal, hd0]⟩
    · simp [qVal, ← hq, ← h1, ← h2]; field_simp

theorem SBS.quantity {ρ : List Char → ℝ} {o : BinOp} {l r e : Expr ℝ} (h : SBS realOps o l r e)
    (hb : ¬ badPair o l r) {v : ℝ} (hv : Stator.quantity ρ (.bin o l r) = some v) :
    Stator.quantity ρ e = some v := by
  obtain ⟨x, y, hl, hr, hq⟩ := (quantity_bin _ _ _ _ _).1 hv
  cases h with
  | dd h => exact h.quantity hb hv
  | lz h =>
    simp [Stator.quantity] at hl
    subst hl
    cases o <;> simp [BinOp.leftZero, realOps] at h <;> subst h <;> simp [qVal, binVal] at hq
    · simp [Stator.quantity, hq]
    · simp [Stator.quantity, hq.2]
    · simp [Stator.quantity, hq.2]
    · simp [Stator.quantity, hq]
  | li h =>
    simp [Stator.quantity] at hl
    subst hl
    cases o <;> simp [BinOp.leftId, realOps] at h <;> subst h <;> simp [qVal, binVal] at hq <;>
      simp [hr, hq]
  | rz h =>
    simp [Stator.quantity] at hr
    subst hr
    cases o <;> simp [BinOp.rightZero, realOps] at h <;> subst h <;> simp [qVal, binVal] at hq
    simp [Stator.quantity, hq]
  | ri h =>
    simp [Stator.quantity] at hr
    subst hr
    cases o <;> simp [BinOp.rightId, realOps] at h <;> subst h <;> simp [qVal, binVal] at hq
    all_goals first | (simp [hl, hq]; done) | simp [hl, hq.2]

theorem foldUn_quantity {ρ : List Char → ℝ} (o : UnOp) (a : Expr ℝ) {v : ℝ}
    (h : quantity ρ (.un o a) = some v) : quantity ρ (foldUn realOps o a) = some v := by
  unfold foldUn
  split
  · simp only [quantity, Option.bind_some] at h
    cases o <;> simp only [unVal] at h
    case log =>
      split at h
      · simpa [quantity, realOps] using h
      · simp at h
    case arbsign => simp at h
    all_goals simpa [quantity, realOps] using h
  · exact h

/-! ### the unit-free and units-on-the-left fragments -/

theorem foldBin_unitFree {K : Type} (N : NumOps K) (o : BinOp) (x y : K) (h : o ≠ .units) :
    unitFree (foldBin N o x y) = true := by
  cases o <;> simp_all [foldBin, unitFree]

theorem SBS.unitFree {K : Type} {N : NumOps K} {o : BinOp} {l r e : Expr K} (h : SBS N o l r e)
    (ho : o ≠ .units) (hl : Stator.unitFree l = true) (hr : Stator.unitFree r = true) :
    Stator.unitFree e = true := by
  cases h with
  | lz => exact hl
  | li => exact hr
  | rz => exact hr
  | ri => exact hl
  | dd h =>
    cases h with
    | fold => exact foldBin_unitFree _ _ _ _ ho
    | _ => simp_all [Stator.unitFree]

theorem SimpS.unitFree {K : Type} {N : NumOps K} {e e' : Expr K} (h : SimpS N e e')
    (hu : Stator.unitFree e = true) : Stator.unitFree e' = true := by
  induction h with
  | const => rfl
  | var => rfl
  | @un o a a' _ ih =>
    have := ih hu
    unfold foldUn
    split
    · cases o <;> rfl
    · exact this
  | bin _ _ h ih1 ih2 =>
    simp only [Stator.unitFree, Bool.and_eq_true, bne_iff_ne] at hu
    exact h.unitFree hu.1.1 (ih1 hu.1.2) (ih2 hu.2)

theorem quantity_scalar {ρ : List Char → ℝ} {e : Expr ℝ} {v : ℝ} (h : quantity ρ e = some v)
    : (∀ a b, e ≠ .bin .access a b) := by
  rintro a b rfl
  obtain ⟨x, y, _, _, hb⟩ := (quantity_bin _ _ _ _ _).1 h
  simp [qVal, binVal] at hb

theorem quantity_some_scalar {ρ : List Char → ℝ} {e : Expr ℝ} {v : ℝ} (h : quantity ρ e = some v) :
    e.scalar = true := by
  induction e using Expr.ind generalizing v with
  | const => rfl
  | var => rfl
  | un o a ih =>
    simp only [quantity, Option.bind_eq_some_iff] at h
    obtain ⟨x, h1, h2⟩ := h
    exact ih h1
  | bin o l r ih1 ih2 =>
    have hn := quantity_scalar h
    obtain ⟨x, y, hl, hr, hb⟩ := (quantity_bin _ _ _ _ _).1 h
    simp only [Expr.scalar, Bool.and_eq_true, ih1 hl, ih2 hr, and_true, bne_iff_ne]
    rintro rfl
    exact hn _ _ rfl
  | arr => simp [quantity] at h
  | dict => simp [quantity] at h

/-- The condition under which products of quantities are handled right: whenever the (simplified)
right factor of a product is a quantity `c{d}`, so is the (simplified) left factor. -/
def goodProducts : Expr ℝ → Prop
  | .const _ => True
  | .var _ => True
  | .un _ a => goodProducts a
  | .bin o l r => goodProducts l ∧ goodProducts r ∧
      (o = .mul → ∀ n l' c d, simp realOps n l = .ok l' → simp realOps n r = .ok (.bin .units c d) →
        ∃ a b, l' = .bin .units a b)
  | .arr _ => True
  | .dict _ => True

theorem goodProducts_simp (ρ : List Char → ℝ) (e : Expr ℝ) (hg : goodProducts e) (v : ℝ)
    (hv : quantity ρ e = some v) :
    ∃ e', (∀ n, e.height ≤ n → simp realOps n e = .ok e') ∧ e'.scalar = true ∧
      quantity ρ e' = some v := by
  induction e using Expr.ind generalizing v with
  | const k =>
    obtain ⟨e', _, h2, h3⟩ := simp_scalar realOps (.const k) rfl
    have := h3 _ le_rfl
    simp [Expr.height, simp] at this
    subst this
    exact ⟨_, h3, h2, hv⟩
  | var k =>
    obtain ⟨e', _, h2, h3⟩ := simp_scalar realOps (.var k : Expr ℝ) rfl
    have := h3 _ le_rfl
    simp [Expr.height, simp] at this
    subst this
    exact ⟨_, h3, h2, hv⟩
  | un o a ih =>
    simp only [quantity, Option.bind_eq_some_iff] at hv
    obtain ⟨x, h1, h2⟩ := hv
    obtain ⟨a', k1, k2, k3⟩ := ih hg x h1
    refine ⟨foldUn realOps o a', fun n hn => ?_, foldUn_scalar _ _ _ k2, ?_⟩
    · cases n with
      | zero => simp [Expr.height] at hn
      | succ n =>
        rw [Expr.height] at hn
        rw [simp, k1 n (by omega)]; rfl
    · exact foldUn_quantity _ _ (by simp [quantity, k3, h2])
  | bin o l r ih1 ih2 =>
    have hs := quantity_some_scalar hv
    obtain ⟨g1, g2, g3⟩ := hg
    obtain ⟨x, y, hl, hr, hb⟩ := (quantity_bin _ _ _ _ _).1 hv
    obtain ⟨l', a1, a2, a3⟩ := ih1 g1 x hl
    obtain ⟨r', b1, b2, b3⟩ := ih2 g2 y hr
    simp only [Expr.scalar, Bool.and_eq_true, bne_iff_ne] at hs
    obtain ⟨e, c1, c2⟩ := simpBin_scalar realOps o l' r' a2 b2 hs.1.1
    refine ⟨e, fun n hn => ?_, c1.scalar a2 b2 hs.1.1, ?_⟩
    · cases n with
      | zero => simp [Expr.height] at hn
      | succ n =>
        rw [Expr.height] at hn
        rw [simp, a1 n (by omega), Res.ok_bind, b1 n (by omega), Res.ok_bind, c2]
    · refine c1.quantity ?_ ((quantity_bin _ _ _ _ _).2 ⟨x, y, a3, b3, hb⟩)
      rintro ⟨rfl, ⟨c, d, rfl⟩, hn⟩
      exact hn (g3 rfl (max l.height r.height) l' c d (a1 _ (le_max_left _ _))
        (b1 _ (le_max_right _ _)))
  | arr => simp [quantity] at hv
  | dict => simp [quantity] at hv

/-- **C18**. If, whenever the right factor of a product simplifies to a quantity `c{d}`, the left
factor does too, then `simplify` keeps the value of the quantity, for every size of the units: the
numbers and the units of products, quotients, sums and powers are combined consistently. -/
theorem C18_value (ρ : List Char → ℝ) (e : Expr ℝ) (hg : goodProducts e) (v : ℝ)
    (hv : quantity ρ e = some v) :
    ∃ e', (∀ n, e.height ≤ n → simp realOps n e = .ok e') ∧ quantity ρ e' = some v := by
  obtain ⟨e', h1, _, h3⟩ := goodProducts_simp ρ e hg v hv
  exact ⟨e', h1, h3⟩

/-- The product of two quantities `p{u} * q{w}` meets the condition. -/
example (p q : ℝ) (hp : p ≠ 0) (u w : List Char) :
    goodProducts (.bin .mul (.bin .units (.const p) (.var u)) (.bin .units (.const q) (.var w))) := by
  refine ⟨⟨trivial, trivial, by simp⟩, ⟨trivial, trivial, by simp⟩, fun _ n l' c d h _ => ?_⟩
  refine ⟨.const p, .var u, ?_⟩
  match n, h with
  | n + 2, h =>
    simp [simp, simpBin, isConst, BinOp.leftZero, BinOp.leftId, BinOp.rightZero, BinOp.rightId,
      ddVisit, realOps, hp] at h
    exact h.symm

/-- **C18**, for a class of expressions that can be read off: quantities occur anywhere except in the
right factor of a product. -/
theorem C18_units_on_left (ρ : List Char → ℝ) (e : Expr ℝ) (h : unitsOnLeft e = true) (v : ℝ)
    (hv : quantity ρ e = some v) :
    ∃ e', (∀ n, e.height ≤ n → simp realOps n e = .ok e') ∧ quantity ρ e' = some v := by
  refine C18_value ρ e ?_ v hv
  have hs := quantity_some_scalar hv
  clear hv
  induction e using Expr.ind with
  | const => trivial
  | var => trivial
  | un o a ih => exact ih h hs
  | bin o l r ih1 ih2 =>
    simp only [unitsOnLeft, Bool.and_eq_true, Bool.or_eq_true, bne_iff_ne] at h
    simp only [Expr.scalar, Bool.and_eq_true, bne_iff_ne] at hs
    refine ⟨ih1 h.1.1 hs.1.2, ih2 h.1.2 hs.2, ?_⟩
    rintro rfl n l' c d _ h2
    obtain ⟨r', k1, _, k3⟩ := simp_scalar realOps r hs.2
    have hf := k1.unitFree (by simpa using h.2)
    have : r' = .bin .units c d := by
      have e1 := simp_mono_le realOps r (le_max_left n r.height) (by rw [h2]; simp)
      rw [k3 _ (le_max_right _ _), h2] at e1
      simpa using e1
    subst this
    simp [unitFree] at hf
  | arr => trivial
  | dict => trivial

/-- `(5{m} * x) / 2{s} + y{u}` is such an expression, and has a value. -/
example : unitsOnLeft (.bin .add (.bin .div (.bin .mul (.bin .units (.const 5) (.var ['m'])) (.var ['x']))
      (.bin .units (.const 2) (.var ['s']))) (.bin .units (.var ['y']) (.var ['u'])) : Expr ℝ) = true ∧
    quantity (fun _ => 1) (.bin .add (.bin .div (.bin .mul (.bin .units (.const 5) (.var ['m']))
      (.var ['x'])) (.bin .units (.const 2) (.var ['s']))) (.bin .units (.var ['y']) (.var ['u'])))
      = some (7 / 2) := by
  refine ⟨rfl, ?_⟩
  simp [quantity, binVal]; norm_num

/-- **C18**, product of two quantities: the numbers are multiplied, and so are the units. -/
theorem C18_product (p q : ℝ) (hp : p ≠ 0) (hq : q ≠ 0) (u w : List Char) (n : Nat) :
    simp realOps (n + 3)
      (.bin .mul (.bin .units (.const p) (.var u)) (.bin .units (.const q) (.var w)))
      = .ok (.bin .units (.bin .mul (.const p) (.const q)) (.bin .mul (.var u) (.var w))) ∧
    simp realOps (n + 3)
      (.bin .units (.bin .mul (.const p) (.const q)) (.bin .mul (.var u) (.var w)))
      = .ok (.bin .units (.const (p * q)) (.bin .mul (.var u) (.var w))) := by
  constructor
  · simp [simp, simpBin, isConst, BinOp.leftZero, BinOp.leftId, BinOp.rightZero, BinOp.rightId,
      ddVisit, mulUnits, realOps, hp, hq]
  · by_cases h1 : p = 1 <;> by_cases h2 : q = 1 <;>
    simp [simp, simpBin, isConst, BinOp.leftZero, BinOp.leftId, BinOp.rightZero, BinOp.rightId,
      ddVisit, mulUnits, realOps, hp, hq, foldBin, h1, h2]

/-- **C18**, quotient of two quantities. -/
theorem C18_quotient (p q : ℝ) (hp : p ≠ 0) (hq : q ≠ 0) (u w : List Char) (n : Nat) :
    simp realOps (n + 3)
      (.bin .div (.bin .units (.const p) (.var u)) (.bin .units (.const q) (.var w)))
      = .ok (.bin .units (.bin .div (.const p) (.const q)) (.bin .div (.var u) (.var w))) := by
  simp [simp, simpBin, isConst, BinOp.leftZero, BinOp.leftId, BinOp.rightZero, BinOp.rightId,
    ddVisit, realOps, hp, hq]

/-- **C18**, the failing case: a plain factor on the left of a quantity. `x * 5{m}` simplifies to
`(x * 5){5}`: the unit is replaced by the number. -/
theorem C18_scalar_times_quantity_fails (x m : List Char) (p : ℝ) (hp : p ≠ 0) (hx : x ≠ m) (n : Nat) :
    simp realOps (n + 3) (.bin .mul (.var x) (.bin .units (.const p) (.var m)))
      = .ok (.bin .units (.bin .mul (.var x) (.const p)) (.const p)) ∧
    ∃ ρ, quantity ρ (.bin .mul (.var x) (.bin .units (.const p) (.var m))) ≠
      quantity ρ (.bin .units (.bin .mul (.var x) (.const p)) (.const p)) := by
  refine ⟨by simp [simp, simpBin, isConst, BinOp.leftZero, BinOp.leftId, BinOp.rightZero,
    BinOp.rightId, ddVisit, mulUnits, mulTyped, realOps, hp], ?_⟩
  refine ⟨fun y => if y = m then p + 1 else 1, ?_⟩
  simp [quantity, binVal, hx, hp]

end Stator
