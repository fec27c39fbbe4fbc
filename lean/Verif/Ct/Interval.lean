import Verif.Ct.Formed
import Verif.Fp.Decimal

/-!
# C92: intervals

`interval.hpp` makes the intervals of Boost available as values of variables: `sub(f, x = interval<double>(a, b))`. Boost itself is not
part of the repository: its operations are a parameter, and what its documentation promises (the result contains what the operation
can give for numbers of the operands) is the hypothesis `Ivl.Sound`.
-/

namespace Stator.Ct

/-- The operations of an interval type, for operands that are intervals or `double`s (`none`: NaN or infinite). A result `none` is an
exception. Functions (`exp`, `sin`, ...) are missing: the default policies of Boost have no rounded functions, and their use does not
compile. -/
structure Ivl (I : Type) where
  mem : I → Set ℝ
  op : Op → I ⊕ Option ℝ → I ⊕ Option ℝ → Option I
  neg : I → I
  abs : I → I
  pow : I → ℤ → Option I

/-- An expression that may contain intervals; `val e` is one without. models: binary_ops.hpp:25-35, unary_ops.hpp:24-31 with an
interval as operand type. -/
inductive IE (I : Type)
  | val (e : E)
  | ivl (i : I)
  | un (o : UnOp) (a : IE I)
  | bin (o : Op) (l r : IE I)

variable {I : Type}

/-- The type of the expression is `C<a>`. -/
def IE.isC (a : C) : IE I → Bool
  | .val e => e.isC a
  | _ => false

/-- What overload resolution sees of an operand: something symbolic, a compile-time constant, or an interval or a number. -/
inductive Kind (I : Type)
  | sym
  | const
  | arg (a : I ⊕ Option ℝ)

/-- models: symbolic.hpp:66-72 (`IsSymbolic`), constants.hpp:46-48 (`is_C`). -/
def IE.kind : IE I → Kind I
  | .val (.c _) => .const
  | .val (.num v) => .arg (.inr v)
  | .ivl i => .arg (.inl i)
  | _ => .sym

/-- An operator with an interval, or an expression containing one, among its operands: a tree if an operand is symbolic, the operator
of Boost for intervals and numbers. There is no operator for an interval and a `C`.
models: binary_ops.hpp:236-272. -/
def inode (A : Ivl I) (o : Op) (l r : IE I) : Option (IE I) :=
  match l.kind, r.kind with
  | .arg a, .arg b => (A.op o a b).map .ivl
  | .const, .arg _ => none
  | .arg _, .const => none
  | _, _ => some (.bin o l r)

/-- The conversion of a `double` to the parameter type `int` of Boost's `pow`; undefined if the value does not fit. -/
noncomputable def toInt (v : ℝ) : Option ℤ :=
  let n := if 0 ≤ v then ⌊v⌋ else ⌈v⌉
  if -2 ^ 31 ≤ n ∧ n < 2 ^ 31 then some n else none

/-- `pow` with an interval among its operands. `pow(interval, C<n,d>)` and `pow(interval, double)` are calls of Boost's
`pow(interval, int)`, with the exponent converted: `C` has a conversion to `double`. models: binary_ops.hpp:274-308,
constants.hpp:32-34. -/
noncomputable def ipow (A : Ivl I) (l r : IE I) : Option (IE I) :=
  match l, r with
  | .ivl i, .val (.c q) => ((toInt q.val).bind (A.pow i)).map .ivl
  | .ivl i, .val (.num (some v)) => ((toInt v).bind (A.pow i)).map .ivl
  | .ivl _, .val (.num none) => none
  | .ivl _, .ivl _ => none
  | .val (.c _), .ivl _ => none
  | .val (.num _), .ivl _ => none
  | l, r => some (.bin .pow l r)

/-- Unary minus. models: unary_ops.hpp:124-129. -/
noncomputable def ineg (A : Ivl I) : IE I → Option (IE I)
  | .val e => (opNeg e).map .val
  | .ivl i => some (.ivl (A.neg i))
  | e => some (.un .neg e)

/-- `Op::apply` of a binary operator. models: binary_ops.hpp:75, 95, 115, 135, 155-159; constants.hpp:138-154; binary_ops.hpp:308. -/
noncomputable def iapply (A : Ivl I) (o : Op) (l r : IE I) : Option (IE I) :=
  match l, r with
  | .val a, .val b => (applyOp o a b).map .val
  | l, r =>
    match o with
    | .add => if r.isC .null then some l else if l.isC .null then some r else inode A .add l r
    | .sub => if r.isC .null then some l else if l.isC .null then ineg A r else inode A .sub l r
    | .mul =>
      if r.isC .null then some (.val (.c .null)) else if l.isC .null then some (.val (.c .null))
      else if r.isC .unity then some l else if l.isC .unity then some r
      else inode A .mul l r
    | .div => inode A .div l r
    | .pow => if r.isC .unity then some l else ipow A l r

/-- `Op::apply` of a unary operator. models: unary_ops.hpp:44-162. -/
noncomputable def iapplyUn (A : Ivl I) (o : UnOp) (e : IE I) : Option (IE I) :=
  match e with
  | .val a => (applyUn o a).map .val
  | .ivl i =>
    match o with
    | .neg => some (.ivl (A.neg i))
    | .abs => some (.ivl (A.abs i))
    | .arbsign => some (.un .arbsign (.ivl i))
    | _ => none
  | e => some (.un o e)

/-- `sub(f, x = i)` for an interval `i`. models: sub.hpp:35-57, binary_ops.hpp:421-424, unary_ops.hpp:181-183. -/
noncomputable def isub (A : Ivl I) (x : List Char) (i : I) : E → Option (IE I)
  | .c b => some (.val (.c b))
  | .num v => some (.val (.num v))
  | .var n => some (if n = x then .ivl i else .val (.var n))
  | .un o e => do iapplyUn A o (← isub A x i e)
  | .bin o l r => do iapply A o (← isub A x i l) (← isub A x i r)

/-! ## Specification -/

/-- The numbers an operand stands for. -/
def Ivl.arg (A : Ivl I) : I ⊕ Option ℝ → Set ℝ
  | .inl i => A.mem i
  | .inr v => {t | v = some t}

/-- The promise of an interval library: the result of an operation contains its value for all numbers in the operands. -/
structure Ivl.Sound (A : Ivl I) : Prop where
  op : ∀ o, o ≠ .pow → ∀ a b j, A.op o a b = some j → ∀ s ∈ A.arg a, ∀ t ∈ A.arg b, ∀ v, binVal o.rt s t = some v → v ∈ A.mem j
  neg : ∀ i, ∀ t ∈ A.mem i, -t ∈ A.mem (A.neg i)
  abs : ∀ i, ∀ t ∈ A.mem i, |t| ∈ A.mem (A.abs i)
  pow : ∀ i n j, A.pow i n = some j → ∀ t ∈ A.mem i, (t ≠ 0 ∨ 0 ≤ n) → t ^ n ∈ A.mem j

/-- The values of an expression with intervals: any numbers from the intervals may be meant. -/
noncomputable def IE.vals (A : Ivl I) (ρ : List Char → ℝ) : IE I → Set ℝ
  | .val e => e.vals ρ
  | .ivl i => A.mem i
  | .un .arbsign a => {x | x ∈ a.vals A ρ ∨ -x ∈ a.vals A ρ}
  | .un o a => {x | ∃ y ∈ a.vals A ρ, unVal o y = some x}
  | .bin o l r => {x | ∃ y ∈ l.vals A ρ, ∃ z ∈ r.vals A ρ, binVal o.rt y z = some x}

/-- The variable occurs in the expression. -/
def E.has (x : List Char) : E → Prop
  | .c _ => False
  | .num _ => False
  | .var n => n = x
  | .un _ a => a.has x
  | .bin _ l r => l.has x ∨ r.has x

/-- The number or constant is an integer. -/
def E.whole : E → Prop
  | .c q => ∃ n : ℤ, q.val = n
  | .num v => ∃ n : ℤ, v = some (n : ℝ)
  | _ => True

/-- Powers of expressions with `x` have integer exponents. -/
def E.wholePowers (x : List Char) : E → Prop
  | .c _ => True
  | .num _ => True
  | .var _ => True
  | .un _ a => a.wholePowers x
  | .bin o l r => l.wholePowers x ∧ r.wholePowers x ∧ (o = .pow → l.has x → r.whole)

/-! ## Proofs -/

variable {A : Ivl I} {ρ : List Char → ℝ}

theorem IE.isC_iff {a : C} {e : IE I} : e.isC a = true ↔ e = .val (.c a) := by
  cases e <;> simp [IE.isC, Ct.isC_iff]

theorem toInt_whole {n m : ℤ} (h : toInt (n : ℝ) = some m) : m = n := by
  unfold toInt at h
  simp only [Int.floor_intCast, Int.ceil_intCast, ite_self] at h
  split at h
  · simpa using h.symm
  · simp at h

theorem inode_vals (hA : A.Sound) {o : Op} (ho : o ≠ .pow) {l r e : IE I} (h : inode A o l r = some e) :
    (IE.bin o l r).vals A ρ ⊆ e.vals A ρ := by
  have key : ∀ (l : IE I) a, l.kind = .arg a → l.vals A ρ ⊆ A.arg a := by
    intro l a ha
    match l, ha with
    | .val (.num v), ha => cases ha; intro t ht; exact ht
    | .ivl i, ha => cases ha; intro t ht; exact ht
  unfold inode at h
  split at h
  · rename_i a b ha hb
    rw [Option.map_eq_some_iff] at h
    obtain ⟨j, hj, rfl⟩ := h
    rintro v ⟨y, hy, z, hz, hv⟩
    exact hA.op o ho a b j hj y (key _ _ ha hy) z (key _ _ hb hz) v hv
  · cases h
  · cases h
  · simp only [Option.some.injEq] at h; subst h; exact subset_rfl

theorem ineg_vals (hA : A.Sound) {a e : IE I} (h : ineg A a = some e) : (IE.un .neg a).vals A ρ ⊆ e.vals A ρ := by
  cases a with
  | val a =>
    simp only [ineg, Option.map_eq_some_iff] at h
    obtain ⟨b, hb, rfl⟩ := h
    exact opNeg_vals hb ρ
  | ivl i =>
    simp only [ineg, Option.some.injEq] at h; subst h
    rintro v ⟨y, hy, hv⟩
    simp only [unVal, Option.some.injEq] at hv
    rw [← hv]; exact hA.neg i y hy
  | un o a => simp only [ineg, Option.some.injEq] at h; subst h; exact subset_rfl
  | bin o l r => simp only [ineg, Option.some.injEq] at h; subst h; exact subset_rfl

/-- A number or a compile-time constant. -/
def E.Atom (e : E) : Prop := e.number.isSome

theorem atom_bin {o : Op} {l r : E} : ¬ (E.bin o l r).Atom := by simp [E.Atom, E.number]

theorem atom_un {o : UnOp} {a : E} : ¬ (E.un o a).Atom := by simp [E.Atom, E.number]

theorem node_atom {o : Op} {l r : E} (h : (node o l r).Atom) : l.Atom ∧ r.Atom := by
  unfold node at h
  split at h
  · rename_i h1 h2; simp [E.Atom, h1, h2]
  · exact absurd h atom_bin

theorem opNeg_atom {a e : E} (h : opNeg a = some e) (he : e.Atom) : a.Atom := by
  cases a <;> simp only [opNeg, Option.some.injEq] at h <;> subst h <;> simp_all [E.Atom, E.number]

theorem atom_c (a : C) : (E.c a).Atom := by simp [E.Atom, E.number]

theorem applyUn_atom {o : UnOp} {a e : E} (h : applyUn o a = some e) (he : e.Atom) : a.Atom := by
  cases a with
  | c q => exact atom_c q
  | num v => simp [E.Atom, E.number]
  | var n => cases o <;> simp only [applyUn, opNeg, Option.some.injEq] at h <;> subst h <;> exact absurd he atom_un
  | un p b => cases o <;> simp only [applyUn, opNeg, Option.some.injEq] at h <;> subst h <;> exact absurd he atom_un
  | bin p b c => cases o <;> simp only [applyUn, opNeg, Option.some.injEq] at h <;> subst h <;> exact absurd he atom_un

/-- A number or a constant comes only from numbers and constants, or from a product with the constant 0. -/
theorem applyOp_atom {o : Op} {l r e : E} (h : applyOp o l r = some e) (he : e.Atom) :
    (l.Atom ∧ r.Atom) ∨ o = .mul ∧ (l = .c .null ∨ r = .c .null) := by
  cases o <;> simp only [applyOp] at h
  · left
    unfold opAdd at h
    split at h
    · exact ⟨atom_c _, atom_c _⟩
    · split at h
      · rename_i h0
        simp only [Option.some.injEq] at h; subst h
        rw [isC_iff.1 h0]; exact ⟨he, atom_c _⟩
      · split at h
        · rename_i h0
          simp only [Option.some.injEq] at h; subst h
          rw [isC_iff.1 h0]; exact ⟨atom_c _, he⟩
        · simp only [Option.some.injEq] at h; subst h; exact node_atom he
  · left
    unfold opSub at h
    split at h
    · exact ⟨atom_c _, atom_c _⟩
    · split at h
      · rename_i h0
        simp only [Option.some.injEq] at h; subst h
        rw [isC_iff.1 h0]; exact ⟨he, atom_c _⟩
      · split at h
        · rename_i h0
          rw [isC_iff.1 h0]; exact ⟨atom_c _, opNeg_atom h he⟩
        · simp only [Option.some.injEq] at h; subst h; exact node_atom he
  · unfold opMul at h
    split at h
    · exact .inl ⟨atom_c _, atom_c _⟩
    · split at h
      · rename_i h0; exact .inr ⟨rfl, .inr (isC_iff.1 h0)⟩
      · split at h
        · rename_i h0; exact .inr ⟨rfl, .inl (isC_iff.1 h0)⟩
        · left
          split at h
          · rename_i h0
            simp only [Option.some.injEq] at h; subst h
            rw [isC_iff.1 h0]; exact ⟨he, atom_c _⟩
          · split at h
            · rename_i h0
              simp only [Option.some.injEq] at h; subst h
              rw [isC_iff.1 h0]; exact ⟨atom_c _, he⟩
            · simp only [Option.some.injEq] at h; subst h; exact node_atom he
  · left
    unfold opDiv at h
    split at h
    · exact ⟨atom_c _, atom_c _⟩
    · simp only [Option.some.injEq] at h; subst h; exact node_atom he
  · left
    unfold opPow at h
    split at h
    · exact ⟨atom_c _, atom_c _⟩
    · exact ⟨atom_c _, by simp [E.Atom, E.number]⟩
    · exact ⟨by simp [E.Atom, E.number], atom_c _⟩
    · split at h
      · simp only [Option.some.injEq] at h; subst h; exact ⟨he, atom_c _⟩
      · simp only [Option.some.injEq] at h; subst h; exact absurd he atom_bin
    · simp only [Option.some.injEq] at h; subst h; exact node_atom he

/-- An expression that the operators build is not turned into a number or a constant by inserting an interval. -/
theorem isub_atom {x : List Char} {i : I} {f g : E} (hf : f.formed) (h : isub A x i f = some (.val g)) (hg : g.Atom) : f = g := by
  induction f generalizing g with
  | c b => simpa [isub] using h
  | num v => simpa [isub] using h
  | var n =>
    simp only [isub, Option.some.injEq] at h
    split at h
    · cases h
    · cases h; simp [E.Atom, E.number] at hg
  | un o e ih =>
    exfalso
    simp only [isub, Option.bind_eq_bind, Option.bind_eq_some_iff] at h
    obtain ⟨e', he, h⟩ := h
    cases e' with
    | val a =>
      simp only [iapplyUn, Option.map_eq_some_iff, IE.val.injEq] at h
      obtain ⟨b, hb, rfl⟩ := h
      have := ih hf.1 he (applyUn_atom hb hg)
      subst this
      rw [hf.2] at hb
      cases hb; exact atom_un hg
    | ivl i => cases o <;> simp [iapplyUn] at h
    | un p b => simp [iapplyUn] at h
    | bin p b c => simp [iapplyUn] at h
  | bin o l r ih1 ih2 =>
    exfalso
    simp only [isub, Option.bind_eq_bind, Option.bind_eq_some_iff] at h
    obtain ⟨l', hl, r', hr, h⟩ := h
    obtain ⟨fl, fr, hf⟩ := hf
    have z1 : l' = .val (.c .null) → o = .mul → False := by
      rintro rfl rfl
      rw [ih1 fl hl (atom_c _)] at hf
      cases opMul_null_left hf
    have z2 : r' = .val (.c .null) → o = .mul → False := by
      rintro rfl rfl
      rw [ih2 fr hr (atom_c _)] at hf
      cases opMul_null_right hf
    have nn : ∀ o, inode A o l' r' ≠ some (.val g) := by
      intro o h
      unfold inode at h
      split at h <;> simp [Option.map_eq_some_iff] at h
    unfold iapply at h
    split at h
    · rename_i a b
      rw [Option.map_eq_some_iff] at h
      obtain ⟨e, he, h⟩ := h
      cases h
      rcases applyOp_atom he hg with ⟨ha, hb⟩ | ⟨ho, h0 | h0⟩
      · rw [ih1 fl hl ha, ih2 fr hr hb] at hf
        rw [hf] at he
        cases he; exact atom_bin hg
      · exact z1 (by rw [h0]) ho
      · exact z2 (by rw [h0]) ho
    · rename_i hnv
      cases o <;> dsimp only at h
      · split at h
        · rename_i h0
          cases h
          rw [IE.isC_iff] at h0
          exact hnv _ _ rfl h0
        · split at h
          · rename_i h0
            cases h
            rw [IE.isC_iff] at h0
            exact hnv _ _ h0 rfl
          · exact nn _ h
      · split at h
        · rename_i h0
          cases h
          rw [IE.isC_iff] at h0
          exact hnv _ _ rfl h0
        · split at h
          · rename_i h0
            rw [IE.isC_iff] at h0
            cases r' with
            | val b => exact hnv _ _ h0 rfl
            | ivl i => simp [ineg] at h
            | un p b => simp [ineg] at h
            | bin p b c => simp [ineg] at h
          · exact nn _ h
      · split at h
        · rename_i h0; exact z2 (IE.isC_iff.1 h0) rfl
        · split at h
          · rename_i h0; exact z1 (IE.isC_iff.1 h0) rfl
          · split at h
            · rename_i h0
              cases h
              exact hnv _ _ rfl (IE.isC_iff.1 h0)
            · split at h
              · rename_i h0
                cases h
                exact hnv _ _ (IE.isC_iff.1 h0) rfl
              · exact nn _ h
      · exact nn _ h
      · split at h
        · rename_i h0
          cases h
          exact hnv _ _ rfl (IE.isC_iff.1 h0)
        · unfold ipow at h
          split at h
          all_goals first
            | (rw [Option.map_eq_some_iff] at h; obtain ⟨_, _, h⟩ := h; cases h; done)
            | (cases h; done)

theorem isub_free {x : List Char} {i : I} {f : E} {g : IE I} (hf : ¬ f.has x) (h : isub A x i f = some g) : ∃ e, g = .val e := by
  induction f generalizing g with
  | c b => simp only [isub, Option.some.injEq] at h; exact ⟨_, h.symm⟩
  | num v => simp only [isub, Option.some.injEq] at h; exact ⟨_, h.symm⟩
  | var n =>
    simp only [isub, Option.some.injEq] at h
    rw [if_neg (by simpa [E.has] using hf)] at h
    exact ⟨_, h.symm⟩
  | un o e ih =>
    simp only [isub, Option.bind_eq_bind, Option.bind_eq_some_iff] at h
    obtain ⟨e', he, h⟩ := h
    obtain ⟨a, rfl⟩ := ih (by simpa [E.has] using hf) he
    simp only [iapplyUn, Option.map_eq_some_iff] at h
    obtain ⟨b, _, rfl⟩ := h
    exact ⟨b, rfl⟩
  | bin o l r ih1 ih2 =>
    simp only [E.has, not_or] at hf
    simp only [isub, Option.bind_eq_bind, Option.bind_eq_some_iff] at h
    obtain ⟨l', hl, r', hr, h⟩ := h
    obtain ⟨a, rfl⟩ := ih1 hf.1 hl
    obtain ⟨b, rfl⟩ := ih2 hf.2 hr
    simp only [iapply, Option.map_eq_some_iff] at h
    obtain ⟨e, _, rfl⟩ := h
    exact ⟨e, rfl⟩

theorem ipow_vals (hA : A.Sound) {l r e : IE I} (h : ipow A l r = some e)
    (hw : ∀ i, l = .ivl i → ∀ a, r = .val a → a.whole) : (IE.bin .pow l r).vals A ρ ⊆ e.vals A ρ := by
  have key : ∀ (n : ℤ) (i j : I) (t v : ℝ), A.pow i n = some j → t ∈ A.mem i → binVal (Op.rt .pow) t (n : ℝ) = some v →
      v ∈ A.mem j := by
    intro n i j t v hj ht hv
    simp only [Op.rt, binVal] at hv
    split at hv
    · rename_i hd
      simp only [Option.some.injEq] at hv
      rw [← hv, Real.rpow_intCast]
      refine hA.pow i n j hj t ht ?_
      rcases hd with h | ⟨_, h⟩ | ⟨h, _⟩
      · exact .inl h.ne'
      · exact .inr (by exact_mod_cast h)
      · exact .inl h.ne
    · cases hv
  unfold ipow at h
  split at h
  · rename_i i q
    rw [Option.map_eq_some_iff] at h
    obtain ⟨j, hj, rfl⟩ := h
    rw [Option.bind_eq_some_iff] at hj
    obtain ⟨m, hm, hj⟩ := hj
    obtain ⟨n, hn⟩ := hw i rfl _ rfl
    rw [hn] at hm
    have := toInt_whole hm; subst this
    rintro v ⟨y, hy, z, hz, hv⟩
    have hz : z = C.val q := hz
    rw [hz, hn] at hv
    exact key _ i j y v hj hy hv
  · rename_i i q
    rw [Option.map_eq_some_iff] at h
    obtain ⟨j, hj, rfl⟩ := h
    rw [Option.bind_eq_some_iff] at hj
    obtain ⟨m, hm, hj⟩ := hj
    obtain ⟨n, hn⟩ := hw i rfl _ rfl
    cases hn
    have := toInt_whole hm; subst this
    rintro v ⟨y, hy, z, hz, hv⟩
    have hz : some ((m : ℤ) : ℝ) = some z := hz
    cases hz
    exact key _ i j y v hj hy hv
  all_goals first
    | cases h; done
    | (simp only [Option.some.injEq] at h; subst h; exact subset_rfl)

theorem IE.mem_isC {a : C} {e : IE I} (h : e.isC a = true) {v : ℝ} (hv : v ∈ e.vals A ρ) : v = a.val := by
  rw [IE.isC_iff] at h; subst h; exact hv

theorem iapply_vals (hA : A.Sound) {o : Op} {l r e : IE I} (h : iapply A o l r = some e)
    (hw : o = .pow → ∀ i, l = .ivl i → ∀ a, r = .val a → a.whole) : (IE.bin o l r).vals A ρ ⊆ e.vals A ρ := by
  have c0 : C.val .null = 0 := by simp [C.val, C.null, C.ofInt]
  have c1 : C.val .unity = 1 := by simp [C.val, C.unity, C.ofInt]
  unfold iapply at h
  split at h
  · rw [Option.map_eq_some_iff] at h
    obtain ⟨b, hb, rfl⟩ := h
    exact applyOp_vals hb ρ
  · cases o <;> dsimp only at h
    · split at h
      · rename_i h0
        simp only [Option.some.injEq] at h; subst h
        rintro v ⟨y, hy, z, hz, hv⟩
        rw [IE.mem_isC h0 hz, c0] at hv
        simp only [Op.rt, binVal, add_zero, Option.some.injEq] at hv; rw [← hv]; exact hy
      · split at h
        · rename_i h0
          simp only [Option.some.injEq] at h; subst h
          rintro v ⟨y, hy, z, hz, hv⟩
          rw [IE.mem_isC h0 hy, c0] at hv
          simp only [Op.rt, binVal, zero_add, Option.some.injEq] at hv; rw [← hv]; exact hz
        · exact inode_vals hA (by simp) h
    · split at h
      · rename_i h0
        simp only [Option.some.injEq] at h; subst h
        rintro v ⟨y, hy, z, hz, hv⟩
        rw [IE.mem_isC h0 hz, c0] at hv
        simp only [Op.rt, binVal, sub_zero, Option.some.injEq] at hv; rw [← hv]; exact hy
      · split at h
        · rename_i h0
          rintro v ⟨y, hy, z, hz, hv⟩
          rw [IE.mem_isC h0 hy, c0] at hv
          simp only [Op.rt, binVal, zero_sub, Option.some.injEq] at hv; rw [← hv]
          exact ineg_vals hA h ⟨z, hz, rfl⟩
        · exact inode_vals hA (by simp) h
    · split at h
      · rename_i h0
        simp only [Option.some.injEq] at h; subst h
        rintro v ⟨y, hy, z, hz, hv⟩
        rw [IE.mem_isC h0 hz, c0] at hv
        simp only [Op.rt, binVal, mul_zero, Option.some.injEq] at hv; rw [← hv]; exact c0.symm
      · split at h
        · rename_i h0
          simp only [Option.some.injEq] at h; subst h
          rintro v ⟨y, hy, z, hz, hv⟩
          rw [IE.mem_isC h0 hy, c0] at hv
          simp only [Op.rt, binVal, zero_mul, Option.some.injEq] at hv; rw [← hv]; exact c0.symm
        · split at h
          · rename_i h0
            simp only [Option.some.injEq] at h; subst h
            rintro v ⟨y, hy, z, hz, hv⟩
            rw [IE.mem_isC h0 hz, c1] at hv
            simp only [Op.rt, binVal, mul_one, Option.some.injEq] at hv; rw [← hv]; exact hy
          · split at h
            · rename_i h0
              simp only [Option.some.injEq] at h; subst h
              rintro v ⟨y, hy, z, hz, hv⟩
              rw [IE.mem_isC h0 hy, c1] at hv
              simp only [Op.rt, binVal, one_mul, Option.some.injEq] at hv; rw [← hv]; exact hz
            · exact inode_vals hA (by simp) h
    · exact inode_vals hA (by simp) h
    · split at h
      · rename_i h0
        simp only [Option.some.injEq] at h; subst h
        rintro v ⟨y, hy, z, hz, hv⟩
        rw [IE.mem_isC h0 hz, c1] at hv
        simp only [Op.rt, binVal] at hv
        split at hv
        · simp only [Real.rpow_one, Option.some.injEq] at hv; rw [← hv]; exact hy
        · cases hv
      · exact ipow_vals hA h (hw rfl)

theorem iapplyUn_vals (hA : A.Sound) {o : UnOp} {a e : IE I} (h : iapplyUn A o a = some e)
    (ht : ∀ b, a = .val b → TrigOk o b) : (IE.un o a).vals A ρ ⊆ e.vals A ρ := by
  cases a with
  | val b =>
    simp only [iapplyUn, Option.map_eq_some_iff] at h
    obtain ⟨c, hc, rfl⟩ := h
    have := applyUn_vals hc (ht b rfl) ρ
    cases o <;> exact this
  | ivl i =>
    cases o <;> simp only [iapplyUn, Option.some.injEq, reduceCtorEq] at h <;> subst h
    · rintro v ⟨y, hy, hv⟩
      simp only [unVal, Option.some.injEq] at hv; rw [← hv]; exact hA.abs i y hy
    · exact subset_rfl
    · rintro v ⟨y, hy, hv⟩
      simp only [unVal, Option.some.injEq] at hv; rw [← hv]; exact hA.neg i y hy
  | un p b => simp only [iapplyUn, Option.some.injEq] at h; subst h; exact subset_rfl
  | bin p b c => simp only [iapplyUn, Option.some.injEq] at h; subst h; exact subset_rfl

/-- **C92**: inserting an interval into a compile-time expression. Whatever number `t` of the interval the variable has, the value of
the expression at `t` is in the result. -/
theorem C92_contains (hA : A.Sound) {x : List Char} {i : I} {f : E} {g : IE I} (hf : f.formed) (hp : f.wholePowers x)
    (h : isub A x i f = some g) {t v : ℝ} (ht : t ∈ A.mem i) (hv : v ∈ f.vals (at_ ρ x t)) : v ∈ g.vals A ρ := by
  induction f generalizing g v with
  | c b => simp only [isub, Option.some.injEq] at h; subst h; exact hv
  | num w => simp only [isub, Option.some.injEq] at h; subst h; exact hv
  | var n =>
    simp only [isub, Option.some.injEq] at h; subst h
    have hv : v = at_ ρ x t n := hv
    unfold at_ at hv
    split
    · rename_i hn; rw [if_pos hn] at hv; rw [hv]; exact ht
    · rename_i hn; rw [if_neg hn] at hv; rw [hv]; exact rfl
  | un o e ih =>
    simp only [isub, Option.bind_eq_bind, Option.bind_eq_some_iff] at h
    obtain ⟨e', he, h⟩ := h
    refine iapplyUn_vals hA h ?_ ?_
    · rintro b rfl ho q rfl
      have := isub_atom hf.1 he (atom_c q)
      subst this
      have := formed_un_c hf
      subst this
      simp at ho
    · cases o
      case arbsign => exact hv.imp (fun h => ih hf.1 hp he h) (fun h => ih hf.1 hp he h)
      all_goals
        obtain ⟨y, hy, hv⟩ := hv
        exact ⟨y, ih hf.1 hp he hy, hv⟩
  | bin o l r ih1 ih2 =>
    simp only [isub, Option.bind_eq_bind, Option.bind_eq_some_iff] at h
    obtain ⟨l', hl, r', hr, h⟩ := h
    refine iapply_vals hA h ?_ ?_
    · rintro rfl j rfl a rfl
      by_cases hx : l.has x
      · by_cases ha : a.Atom
        · have := isub_atom hf.2.1 hr ha
          subst this
          exact hp.2.2 rfl hx
        · cases a <;> first | trivial | exact absurd (by simp [E.Atom, E.number]) ha
      · obtain ⟨e, he⟩ := isub_free hx hl
        cases he
    · obtain ⟨y, hy, z, hz, hv⟩ := hv
      exact ⟨y, ih1 hf.1 hp.1 hl hy, z, ih2 hf.2.1 hp.2.1 hr hz, hv⟩

/-- Sums, differences, products, negations and absolute values of finite numbers and the variable `x`. -/
def E.Arithmetic (x : List Char) : E → Prop
  | .num v => v ≠ none
  | .var n => n = x
  | .un o a => (o = .neg ∨ o = .abs) ∧ a.Arithmetic x
  | .bin o l r => (o = .add ∨ o = .sub ∨ o = .mul) ∧ l.Arithmetic x ∧ r.Arithmetic x
  | .c _ => False

theorem iapply_arith {o : Op} (ho : o = .add ∨ o = .sub ∨ o = .mul) {l r : IE I}
    (hl : (∃ i, l = .ivl i) ∨ ∃ v : ℝ, l = .val (.num (some v))) (hr : (∃ i, r = .ivl i) ∨ ∃ v : ℝ, r = .val (.num (some v)))
    (hop : ∀ a b, a ≠ .inr none → b ≠ .inr none → ∃ j, A.op o a b = some j) :
    (∃ j, iapply A o l r = some (.ivl j)) ∨
      (∃ v, l = .val (.num v)) ∧ (∃ v, r = .val (.num v)) ∧ ∃ v : ℝ, iapply A o l r = some (.val (.num (some v))) := by
  rcases hl with ⟨i, rfl⟩ | ⟨u, rfl⟩ <;> rcases hr with ⟨k, rfl⟩ | ⟨w, rfl⟩
  · obtain ⟨j, hj⟩ := hop (.inl i) (.inl k) (by simp) (by simp)
    rcases ho with rfl | rfl | rfl <;> exact .inl ⟨j, by simp [iapply, IE.isC, inode, IE.kind, hj]⟩
  · obtain ⟨j, hj⟩ := hop (.inl i) (.inr (some w)) (by simp) (by simp)
    rcases ho with rfl | rfl | rfl <;> exact .inl ⟨j, by simp [iapply, IE.isC, E.isC, inode, IE.kind, hj]⟩
  · obtain ⟨j, hj⟩ := hop (.inr (some u)) (.inl k) (by simp) (by simp)
    rcases ho with rfl | rfl | rfl <;> exact .inl ⟨j, by simp [iapply, IE.isC, E.isC, inode, IE.kind, hj]⟩
  · refine .inr ⟨⟨_, rfl⟩, ⟨_, rfl⟩, ?_⟩
    rcases ho with rfl | rfl | rfl
    · exact ⟨u + w, by simp [iapply, applyOp, opAdd, E.isC, node, E.number, numOp, Op.rt, binVal]⟩
    · exact ⟨u - w, by simp [iapply, applyOp, opSub, E.isC, node, E.number, numOp, Op.rt, binVal]⟩
    · exact ⟨u * w, by simp [iapply, applyOp, opMul, E.isC, node, E.number, numOp, Op.rt, binVal]⟩

theorem isub_arith {x : List Char} {i : I} {f : E} (hf : f.Arithmetic x)
    (hop : ∀ o, o = .add ∨ o = .sub ∨ o = .mul → ∀ a b, a ≠ .inr none → b ≠ .inr none → ∃ j, A.op o a b = some j) :
    (∃ j, isub A x i f = some (.ivl j)) ∨ ¬ f.has x ∧ ∃ v : ℝ, isub A x i f = some (.val (.num (some v))) := by
  induction f with
  | c b => exact hf.elim
  | num v =>
    obtain ⟨v, rfl⟩ := Option.ne_none_iff_exists'.1 hf
    exact .inr ⟨not_false, v, rfl⟩
  | var n => have hf : n = x := hf; exact .inl ⟨i, by simp [isub, hf]⟩
  | un o a ih =>
    rcases ih hf.2 with ⟨j, hj⟩ | ⟨hx, v, hj⟩
    · left
      simp only [isub, hj, Option.bind_eq_bind, Option.bind_some]
      rcases hf.1 with rfl | rfl
      · exact ⟨_, rfl⟩
      · exact ⟨_, rfl⟩
    · rcases hf.1 with rfl | rfl
      · exact .inr ⟨hx, -v, by simp [isub, hj, iapplyUn, applyUn, opNeg, unVal]⟩
      · exact .inr ⟨hx, |v|, by simp [isub, hj, iapplyUn, applyUn, unVal]⟩
  | bin o l r ih1 ih2 =>
    have e1 := ih1 hf.2.1
    have e2 := ih2 hf.2.2
    obtain ⟨l', hl, hl'⟩ : ∃ l', isub A x i l = some l' ∧ ((∃ i, l' = .ivl i) ∨ ¬ l.has x ∧ ∃ v : ℝ, l' = .val (.num (some v))) := by
      rcases e1 with ⟨j, h⟩ | ⟨hx, v, h⟩
      · exact ⟨_, h, .inl ⟨j, rfl⟩⟩
      · exact ⟨_, h, .inr ⟨hx, v, rfl⟩⟩
    obtain ⟨r', hr, hr'⟩ : ∃ r', isub A x i r = some r' ∧ ((∃ i, r' = .ivl i) ∨ ¬ r.has x ∧ ∃ v : ℝ, r' = .val (.num (some v))) := by
      rcases e2 with ⟨j, h⟩ | ⟨hx, v, h⟩
      · exact ⟨_, h, .inl ⟨j, rfl⟩⟩
      · exact ⟨_, h, .inr ⟨hx, v, rfl⟩⟩
    simp only [isub, hl, hr, Option.bind_eq_bind, Option.bind_some]
    rcases iapply_arith hf.1 (hl'.imp_right And.right) (hr'.imp_right And.right) (hop o hf.1) with h | ⟨⟨v, rfl⟩, ⟨w, rfl⟩, h⟩
    · exact .inl h
    · refine .inr ⟨?_, h⟩
      rcases hl' with ⟨_, h⟩ | ⟨hl', _⟩
      · cases h
      rcases hr' with ⟨_, h⟩ | ⟨hr', _⟩
      · cases h
      exact fun h => h.elim hl' hr'

theorem E.Arithmetic.value {x : List Char} {f : E} (hf : f.Arithmetic x) (ρ : List Char → ℝ) : f.fn ρ ∈ f.vals ρ := by
  induction f with
  | c b => exact hf.elim
  | num v =>
    obtain ⟨v, rfl⟩ := Option.ne_none_iff_exists'.1 hf
    rfl
  | var n => rfl
  | un o a ih => rcases hf.1 with rfl | rfl <;> exact ⟨_, ih hf.2, rfl⟩
  | bin o l r ih1 ih2 => rcases hf.1 with rfl | rfl | rfl <;> exact ⟨_, ih1 hf.2.1, _, ih2 hf.2.2, rfl⟩

theorem E.Arithmetic.whole {x : List Char} {f : E} (hf : f.Arithmetic x) : f.wholePowers x := by
  induction f with
  | c b => exact hf.elim
  | num v => trivial
  | var n => trivial
  | un o a ih => exact ih hf.2
  | bin o l r ih1 ih2 => exact ⟨ih1 hf.2.1, ih2 hf.2.2, fun h => by rcases hf.1 with rfl | rfl | rfl <;> cases h⟩

/-- **C92**, in the simplest case: inserting an interval into a sum, difference, product, ... of numbers and the variable gives an
interval that contains the values of the function on the interval. -/
theorem C92_range (hA : A.Sound) {x : List Char} {i : I} {f : E} (hf : f.Arithmetic x) (ff : f.formed) (hx : f.has x)
    (hop : ∀ o, o = .add ∨ o = .sub ∨ o = .mul → ∀ a b, a ≠ .inr none → b ≠ .inr none → ∃ j, A.op o a b = some j) :
    ∃ j, isub A x i f = some (.ivl j) ∧ ∀ ρ, ∀ t ∈ A.mem i, f.at ρ x t ∈ A.mem j := by
  rcases isub_arith hf hop with ⟨j, hj⟩ | ⟨h, _⟩
  · exact ⟨j, hj, fun ρ t ht => C92_contains (ρ := ρ) hA ff hf.whole hj ht (hf.value _)⟩
  · exact absurd hx h

/-! ## An interval type with the promised properties -/

/-- Intervals with outward rounding: `dn` and `up` round down and up. -/
structure Dir where
  dn : ℝ → ℝ
  up : ℝ → ℝ
  dn_le : ∀ x, dn x ≤ x
  le_up : ∀ x, x ≤ up x

/-- The ends of an operand. -/
def ends : (ℝ × ℝ) ⊕ Option ℝ → Option (ℝ × ℝ)
  | .inl i => some i
  | .inr v => v.map fun t => (t, t)

/-- The product of two intervals: the smallest and the largest of the products of the ends. -/
def boxMul (d : Dir) (a b : ℝ × ℝ) : ℝ × ℝ :=
  (min (min (d.dn (a.1 * b.1)) (d.dn (a.1 * b.2))) (min (d.dn (a.2 * b.1)) (d.dn (a.2 * b.2))),
   max (max (d.up (a.1 * b.1)) (d.up (a.1 * b.2))) (max (d.up (a.2 * b.1)) (d.up (a.2 * b.2))))

open Classical in
/-- The reciprocal, unless the interval contains 0. -/
noncomputable def boxInv (d : Dir) (a : ℝ × ℝ) : Option (ℝ × ℝ) :=
  if 0 < a.1 ∨ a.2 < 0 then some (d.dn (1 / a.2), d.up (1 / a.1)) else none

def boxPow (d : Dir) (a : ℝ × ℝ) : ℕ → ℝ × ℝ
  | 0 => (1, 1)
  | n + 1 => boxMul d (boxPow d a n) a

/-- An interval type. -/
noncomputable def box (d : Dir) : Ivl (ℝ × ℝ) where
  mem i := Set.Icc i.1 i.2
  op o a b := do
    let a ← ends a
    let b ← ends b
    match o with
    | .add => some (d.dn (a.1 + b.1), d.up (a.2 + b.2))
    | .sub => some (d.dn (a.1 - b.2), d.up (a.2 - b.1))
    | .mul => some (boxMul d a b)
    | .div => (boxInv d b).map (boxMul d a)
    | .pow => none
  neg i := (-i.2, -i.1)
  abs i := (max 0 (max i.1 (-i.2)), max (-i.1) i.2)
  pow i n := if 0 ≤ n then some (boxPow d i n.toNat) else boxInv d (boxPow d i (-n).toNat)

theorem mul_between {a b t y : ℝ} (h1 : a ≤ t) (h2 : t ≤ b) : min (a * y) (b * y) ≤ t * y ∧ t * y ≤ max (a * y) (b * y) := by
  rcases le_total 0 y with hy | hy
  · exact ⟨min_le_of_left_le (mul_le_mul_of_nonneg_right h1 hy), le_max_of_le_right (mul_le_mul_of_nonneg_right h2 hy)⟩
  · exact ⟨min_le_of_right_le (mul_le_mul_of_nonpos_right h2 hy), le_max_of_le_left (mul_le_mul_of_nonpos_right h1 hy)⟩

theorem boxMul_mem (d : Dir) {a b : ℝ × ℝ} {s t : ℝ} (hs : s ∈ Set.Icc a.1 a.2) (ht : t ∈ Set.Icc b.1 b.2) :
    s * t ∈ Set.Icc (boxMul d a b).1 (boxMul d a b).2 := by
  obtain ⟨h1, h2⟩ := mul_between (y := t) hs.1 hs.2
  obtain ⟨h3, h4⟩ := mul_between (y := a.1) ht.1 ht.2
  obtain ⟨h5, h6⟩ := mul_between (y := a.2) ht.1 ht.2
  rw [mul_comm b.1, mul_comm b.2, mul_comm t] at h3 h4 h5 h6
  constructor
  · refine le_trans ?_ h1
    refine le_min ((le_trans ?_ h3)) (le_trans ?_ h5)
    · exact (min_le_left _ _).trans (min_le_min (d.dn_le _) (d.dn_le _))
    · exact (min_le_right _ _).trans (min_le_min (d.dn_le _) (d.dn_le _))
  · refine h2.trans ?_
    refine max_le (h4.trans ?_) (h6.trans ?_)
    · exact (max_le_max (d.le_up _) (d.le_up _)).trans (le_max_left _ _)
    · exact (max_le_max (d.le_up _) (d.le_up _)).trans (le_max_right _ _)

theorem boxInv_mem (d : Dir) {a b : ℝ × ℝ} {t : ℝ} (h : boxInv d a = some b) (ht : t ∈ Set.Icc a.1 a.2) :
    t⁻¹ ∈ Set.Icc b.1 b.2 := by
  unfold boxInv at h
  split at h
  · rename_i h0
    cases h
    rw [← one_div]
    obtain ⟨h1, h2⟩ := ht
    rcases h0 with h0 | h0
    · exact ⟨(d.dn_le _).trans (one_div_le_one_div_of_le (h0.trans_le h1) h2),
        (one_div_le_one_div_of_le h0 h1).trans (d.le_up _)⟩
    · exact ⟨(d.dn_le _).trans (one_div_le_one_div_of_neg_of_le h0 h2),
        (one_div_le_one_div_of_neg_of_le (h2.trans_lt h0) h1).trans (d.le_up _)⟩
  · cases h

theorem boxPow_mem (d : Dir) {a : ℝ × ℝ} {t : ℝ} (ht : t ∈ Set.Icc a.1 a.2) : ∀ n, t ^ n ∈ Set.Icc (boxPow d a n).1 (boxPow d a n).2
  | 0 => by simp [boxPow]
  | n + 1 => by rw [pow_succ]; exact boxMul_mem d (boxPow_mem d ht n) ht

theorem ends_mem {d : Dir} {a : (ℝ × ℝ) ⊕ Option ℝ} {b : ℝ × ℝ} (h : ends a = some b) {t : ℝ} (ht : t ∈ (box d).arg a) :
    t ∈ Set.Icc b.1 b.2 := by
  cases a with
  | inl i => cases h; exact ht
  | inr v =>
    have ht : v = some t := ht
    subst ht
    cases h; simp

theorem box_sound (d : Dir) : (box d).Sound where
  op o ho a b j h s hs t ht v hv := by
    simp only [box, Option.bind_eq_bind, Option.bind_eq_some_iff] at h
    obtain ⟨a', ha, b', hb, h⟩ := h
    have hs := ends_mem ha hs
    have ht := ends_mem hb ht
    cases o
    · cases h; cases hv
      exact ⟨(d.dn_le _).trans (add_le_add hs.1 ht.1), (add_le_add hs.2 ht.2).trans (d.le_up _)⟩
    · cases h; cases hv
      exact ⟨(d.dn_le _).trans (sub_le_sub hs.1 ht.2), (sub_le_sub hs.2 ht.1).trans (d.le_up _)⟩
    · cases h; cases hv
      exact boxMul_mem d hs ht
    · dsimp only at h
      rw [Option.map_eq_some_iff] at h
      obtain ⟨c, hc, rfl⟩ := h
      simp only [Op.rt, binVal] at hv
      split at hv
      · cases hv
      · cases hv
        rw [div_eq_mul_inv]
        exact boxMul_mem d hs (boxInv_mem d hc ht)
    · exact absurd rfl ho
  neg i t ht := ⟨neg_le_neg ht.2, neg_le_neg ht.1⟩
  abs i t ht := by
    refine ⟨max_le (abs_nonneg t) (max_le (ht.1.trans (le_abs_self t)) ((neg_le_neg ht.2).trans (neg_le_abs t))), ?_⟩
    rw [abs_le]
    have h1 := le_max_left (-i.1) i.2
    have h2 : i.1 ≤ t := ht.1
    refine ⟨?_, ht.2.trans (le_max_right _ _)⟩
    change -max (-i.1) i.2 ≤ t
    linarith
  pow i n j h t ht h0 := by
    simp only [box] at h
    split at h
    · rename_i hn
      cases h
      lift n to ℕ using hn
      rw [zpow_natCast]
      exact boxPow_mem d ht n
    · rename_i hn
      have h1 := boxInv_mem d h (boxPow_mem d ht _)
      obtain ⟨m, rfl⟩ : ∃ m : ℕ, n = -(m : ℤ) := ⟨(-n).toNat, by omega⟩
      rw [zpow_neg, zpow_natCast]
      simp only [neg_neg, Int.toNat_natCast] at h1
      exact h1

/-- Exact arithmetic. -/
def exactDir : Dir := ⟨id, id, fun _ => le_rfl, fun _ => le_rfl⟩

/-- **C92 fails for fractional powers**: the exponent is converted to `int`, so the root of any interval is the 0th power, `[1,1]`.
The roots of the numbers in [4,9] are not in it. -/
theorem C92_fraction_power_fails (d : Dir) (x : List Char) (i : ℝ × ℝ) :
    isub (box d) x i (.bin .pow (.var x) (.c ⟨1, 2, by decide⟩)) = some (.ivl (1, 1)) ∧
    isub (box d) x i (.bin .pow (.var x) (.num (some (1 / 2)))) = some (.ivl (1, 1)) ∧
    ∀ t ∈ Set.Icc (4 : ℝ) 9, ∃ v, binVal .pow t (1 / 2) = some v ∧ v ∉ (box d).mem (1, 1) := by
  have h : toInt 2⁻¹ = some 0 := by
    have : ⌊(2⁻¹ : ℝ)⌋ = 0 := by norm_num
    have h0 : (0 : ℝ) ≤ 2⁻¹ := by norm_num
    simp only [toInt, if_pos h0, this]
    norm_num
  have hq : C.val ⟨1, 2, by decide⟩ = 2⁻¹ := by norm_num [C.val]
  refine ⟨?_, ?_, ?_⟩
  · simp [isub, iapply, IE.isC, E.isC, C.unity, C.ofInt, ipow, hq, h, box, boxPow]
  · simp [isub, iapply, IE.isC, E.isC, ipow, h, box, boxPow]
  · intro t ht
    have h0 : (0 : ℝ) < t := by linarith [ht.1]
    refine ⟨t ^ (1 / 2 : ℝ), by simp [binVal, powDom, h0], ?_⟩
    intro hm
    have h1 : t ^ (1 / 2 : ℝ) ≤ 1 := hm.2
    rw [← Real.sqrt_eq_rpow] at h1
    have := Real.sqrt_le_one.1 h1
    linarith [ht.1]

/-- **C92**: the result can be wider than the range of the expression, because every occurrence of the variable is treated as if it
were a variable of its own: `x*x - 2*x + 1` on [0,2] gives [-3,5] (as in the tests); the values are in [0,1]. -/
theorem C92_wider :
    isub (box exactDir) ['x'] (0, 2) (.bin .add (.bin .sub (.bin .mul (.var ['x']) (.var ['x']))
      (.bin .mul (.num (some 2)) (.var ['x']))) (.num (some 1))) = some (.ivl (-3, 5)) ∧
    ∀ t ∈ Set.Icc (0 : ℝ) 2, t * t - 2 * t + 1 ∈ Set.Icc (0 : ℝ) 1 := by
  refine ⟨?_, fun t ht => ⟨by nlinarith [ht.1, ht.2, sq_nonneg (t - 1)], by nlinarith [ht.1, ht.2]⟩⟩
  have h1 : (box exactDir).op .mul (.inl (0, 2)) (.inl (0, 2)) = some (0, 4) := by
    simp [box, ends, boxMul, exactDir]; norm_num
  have h2 : (box exactDir).op .mul (.inr (some 2)) (.inl (0, 2)) = some (0, 4) := by
    simp [box, ends, boxMul, exactDir]; norm_num
  have h3 : (box exactDir).op .sub (.inl (0, 4)) (.inl (0, 4)) = some (-4, 4) := by
    simp [box, ends, exactDir]
  have h4 : (box exactDir).op .add (.inl (-4, 4)) (.inr (some 1)) = some (-3, 5) := by
    simp [box, ends, exactDir]; norm_num
  simp only [isub, Option.bind_eq_bind, Option.bind_some, if_true, iapply, IE.isC, E.isC, Bool.false_eq_true, if_false, inode,
    IE.kind, h1, h2, h3, h4, Option.map_some]

/-- The hypotheses of `C92_range` are met by `x*x - 2*x + 1` and by this interval type. -/
example :
    let f : E := .bin .add (.bin .sub (.bin .mul (.var ['x']) (.var ['x'])) (.bin .mul (.num (some 2)) (.var ['x']))) (.num (some 1))
    f.Arithmetic ['x'] ∧ f.formed ∧ f.has ['x'] ∧ (box exactDir).Sound ∧
    ∀ o, o = .add ∨ o = .sub ∨ o = .mul → ∀ a b, a ≠ .inr none → b ≠ .inr none → ∃ j, (box exactDir).op o a b = some j := by
  intro f
  refine ⟨by simp [f, E.Arithmetic], ?_, by simp [f, E.has], box_sound _, ?_⟩
  · simp [f, E.formed, applyOp, opAdd, opSub, opMul, E.isC, node, E.number]
  · intro o ho a b ha hb
    have he : ∀ a : (ℝ × ℝ) ⊕ Option ℝ, a ≠ .inr none → ∃ b, ends a = some b := by
      rintro (i | _ | v) h
      · exact ⟨_, rfl⟩
      · exact absurd rfl h
      · exact ⟨_, rfl⟩
    obtain ⟨a', ha⟩ := he a ha
    obtain ⟨b', hb⟩ := he b hb
    rcases ho with rfl | rfl | rfl <;> simp [box, ha, hb]

/-- `pow(x, C<-2>())` and a second variable: the hypotheses of `C92_contains` are met. -/
example : let f : E := .bin .mul (.bin .pow (.var ['x']) (.c (.ofInt (-2)))) (.var ['y'])
    f.formed ∧ f.wholePowers ['x'] ∧ ∃ g, isub (box exactDir) ['x'] (1, 2) f = some g := by
  intro f
  refine ⟨?_, ⟨⟨trivial, trivial, fun _ _ => ⟨-2, by simp [C.val, C.ofInt]⟩⟩, trivial, by simp⟩, ?_⟩
  · simp [f, E.formed, applyOp, opMul, opPow, E.isC, node, E.number, C.ofInt, C.unity]
  · have h : toInt (C.val (.ofInt (-2))) = some (-2) := by
      have : C.val (.ofInt (-2)) = ((-2 : ℤ) : ℝ) := by simp [C.val, C.ofInt]
      rw [this]; unfold toInt
      rw [Int.floor_intCast, Int.ceil_intCast, ite_self]
      rfl
    have h0 : boxInv exactDir (boxPow exactDir (1, 2) 2) = some (1 / 4, 1) := by
      simp [boxPow, boxMul, exactDir, boxInv]; norm_num
    refine ⟨.bin .mul (.ivl (1 / 4, 1)) (.val (.var ['y'])), ?_⟩
    have hp : (box exactDir).pow (1, 2) (-2) = some (1 / 4, 1) := h0
    have hu : (C.ofInt (-2) = C.unity) = False := by simp [C.ofInt, C.unity]
    have h1 : isub (box exactDir) ['x'] (1, 2) (.bin .pow (.var ['x']) (.c (.ofInt (-2)))) = some (.ivl (1 / 4, 1)) := by
      simp only [isub, Option.bind_eq_bind, Option.bind_some, if_true, iapply, IE.isC, E.isC, hu, decide_false, Bool.false_eq_true,
        if_false, ipow, h, hp, Option.map_some]
    have h2 : isub (box exactDir) ['x'] (1, 2) (.var ['y']) = some (.val (.var ['y'])) := by simp [isub]
    simp only [f]
    rw [isub, h1, h2]
    simp [iapply, IE.isC, E.isC, inode, IE.kind]

/-! ## The text of an interval -/

/-- `repr(interval)`, from the texts of the ends. models: interval.hpp:28-32. -/
def ivlText (lo hi : List Char) : List Char := lo ++ ['.', '.', '.'] ++ hi

theorem ivlText_inj {a a' b b' : List Char} (ha : a.count '.' ≤ 1) (ha' : a'.count '.' ≤ 1) (hb : b.head? ≠ some '.')
    (hb' : b'.head? ≠ some '.') (h : ivlText a b = ivlText a' b') : a = a' ∧ b = b' := by
  have key : ∀ {a b c b' : List Char}, (a ++ c).count '.' ≤ 1 → b.head? ≠ some '.' →
      ['.', '.', '.'] ++ b = c ++ (['.', '.', '.'] ++ b') → c = [] := by
    intro a b c b' hc hb h
    match c, h with
    | [], _ => rfl
    | [_], h => simp at h; rw [h.2] at hb; simp at hb
    | [_, _], h => simp at h; rw [h.2.2] at hb; simp at hb
    | x :: y :: z :: c, h =>
      simp at h
      obtain ⟨rfl, rfl, rfl, _⟩ := h
      simp at hc
      omega
  simp only [ivlText, List.append_assoc] at h
  rcases List.append_eq_append_iff.1 h with ⟨c, rfl, h1⟩ | ⟨c, rfl, h1⟩
  · have := key ha' hb h1
    subst this
    simpa using h1
  · have := key ha hb' h1
    subst this
    simpa using h1.symm

theorem digits_no_point {s : List Char} (h : Digits s) : s.count '.' = 0 := by
  rw [List.count_eq_zero]
  intro hm
  exact absurd (h _ hm) (by decide)

theorem lit_point {s : List Char} (h : IsLit s) : s.count '.' ≤ 1 ∧ s.head? ≠ some '.' := by
  obtain ⟨ip, fp, ep, rfl, hne, hd, hf, he⟩ := h
  constructor
  · have h1 := digits_no_point hd
    have h2 : fp.count '.' ≤ 1 := by
      rcases hf with rfl | ⟨ds, rfl, hds⟩
      · simp
      · simp [digits_no_point hds]
    have h3 : ep.count '.' = 0 := by
      rcases he with rfl | ⟨x, sg, ds, rfl, hx, hs, _, hds⟩
      · simp
      · rcases hx with rfl | rfl <;> rcases hs with rfl | rfl | rfl <;> simp [digits_no_point hds]
    simp only [List.count_append]
    omega
  · cases ip with
    | nil => exact absurd rfl hne
    | cons c cs =>
      intro hc
      simp at hc
      subst hc
      exact absurd (hd '.' (by simp)) (by decide)

/-- **C92**: different intervals of `double`s have different texts. -/
theorem C92_text (φ : Fp.Format) (hφ : Fp.IsDouble φ) {rd : ℝ → ℤ} (hrd : Fp.Nearest rd) {a b a' b' : ℝ} (ha : a ∈ φ.F) (hb : b ∈ φ.F)
    (ha' : a' ∈ φ.F) (hb' : b' ∈ φ.F)
    (h : ivlText (Fp.showG rd 17 a) (Fp.showG rd 17 b) = ivlText (Fp.showG rd 17 a') (Fp.showG rd 17 b')) : a = a' ∧ b = b' := by
  have hP : 2 ^ 53 + 1 ≤ 10 ^ (17 - 1) := by norm_num
  have key : ∀ x ∈ φ.F, (Fp.showG rd 17 x).count '.' ≤ 1 ∧ (Fp.showG rd 17 x).head? ≠ some '.' := by
    intro x hx
    have c := Fp.C75_constants φ hφ hrd hP x
    rcases le_or_gt 0 x with h0 | h0
    · exact lit_point (c.1.2 ⟨hx, h0⟩).1
    · obtain ⟨t, h1, h2, _⟩ := c.2.2 ⟨hx, h0⟩
      rw [h1]
      have := lit_point h2
      exact ⟨by simpa using this.1, by simp⟩
  obtain ⟨h1, h2⟩ := ivlText_inj (key a ha).1 (key a' ha').1 (key b hb).2 (key b' hb').2 h
  exact ⟨Fp.C75_injective φ hφ hrd hP ha ha' h1, Fp.C75_injective φ hφ hrd hP hb hb' h2⟩

end Stator.Ct
