import Verif.Fp.SimplifyEq

/-!
# `simplify` in an arithmetic with signed zeros, infinities and NaN

The value computed for the simplified expression agrees with that of the expression as written up to a relation `sim` (for
`double`: up to the sign of a zero).
-/

namespace Stator.Fp

open Stator

variable {K : Type}

/-- The operator on a number (`none` for the arbitrary sign, which stays symbolic). -/
def unOp (N : NumOps K) (o : UnOp) (x : K) : Option K :=
  match o with
  | .sin => some (N.sin x)
  | .cos => some (N.cos x)
  | .exp => some (N.exp x)
  | .log => some (N.log x)
  | .abs => some (N.abs x)
  | .neg => some (N.neg x)
  | .arbsign => none

/-- The operator on two numbers (`none` for those that stay symbolic). -/
def binOp (N : NumOps K) (o : BinOp) (x y : K) : Option K :=
  match o with
  | .add => some (N.add x y)
  | .sub => some (N.sub x y)
  | .mul => some (N.mul x y)
  | .div => some (N.div x y)
  | .pow => some (N.pow x y)
  | _ => none

/-- An arithmetic with a comparison and a relation "the same but for the sign of zero". `unOk`, `binOk` say for which operands the
operation is harmless; the laws are required for harmless operands only. -/
structure ArithE (K : Type) where
  ops : NumOps K
  eq : K → K → Bool
  sim : K → K → Prop
  unOk : UnOp → K → Prop
  binOk : BinOp → K → K → Prop
  refl : ∀ x, sim x x
  symm : ∀ x y, sim x y → sim y x
  trans : ∀ x y z, sim x y → sim y z → sim x z
  eq_zero : ∀ x, eq x ops.zero = true → sim x ops.zero
  eq_one : ∀ x, eq x ops.one = true → sim x ops.one
  un_ok : ∀ o x x', sim x x' → unOk o x → unOk o x'
  un_sim : ∀ o x x' v, sim x x' → unOk o x → unOp ops o x = some v → ∃ v', unOp ops o x' = some v' ∧ sim v' v
  bin_ok : ∀ o x x' y y', sim x x' → sim y y' → binOk o x y → binOk o x' y'
  bin_sim : ∀ o x x' y y' v, sim x x' → sim y y' → binOk o x y → binOp ops o x y = some v →
    ∃ v', binOp ops o x' y' = some v' ∧ sim v' v
  add_zero : ∀ x, binOk .add x ops.zero → sim (ops.add x ops.zero) x
  zero_add : ∀ x, binOk .add ops.zero x → sim (ops.add ops.zero x) x
  sub_zero : ∀ x, binOk .sub x ops.zero → sim (ops.sub x ops.zero) x
  zero_sub : ∀ x, binOk .sub ops.zero x → sim (ops.sub ops.zero x) (ops.neg x)
  neg_ok : ∀ x, binOk .sub ops.zero x → unOk .neg x
  mul_one : ∀ x, binOk .mul x ops.one → sim (ops.mul x ops.one) x
  one_mul : ∀ x, binOk .mul ops.one x → sim (ops.mul ops.one x) x
  mul_zero : ∀ x, binOk .mul x ops.zero → sim (ops.mul x ops.zero) ops.zero
  zero_mul : ∀ x, binOk .mul ops.zero x → sim (ops.mul ops.zero x) ops.zero
  div_one : ∀ x, binOk .div x ops.one → sim (ops.div x ops.one) x
  zero_div : ∀ x, binOk .div ops.zero x → sim (ops.div ops.zero x) ops.zero
  pow_one : ∀ x, binOk .pow x ops.one → sim (ops.pow x ops.one) x
  one_pow : ∀ x, binOk .pow ops.one x → sim (ops.pow ops.one x) ops.one

namespace ArithE

open Classical in
/-- The computed value of an expression, one operation of the machine per node; `none` if one of them is not harmless. -/
noncomputable def eval (A : ArithE K) (ρ : List Char → K) : Expr K → Option K
  | .const k => some k
  | .var n => some (ρ n)
  | .un o a => (A.eval ρ a).bind fun x => if A.unOk o x then unOp A.ops o x else none
  | .bin o l r => (A.eval ρ l).bind fun x => (A.eval ρ r).bind fun y => if A.binOk o x y then binOp A.ops o x y else none
  | .arr _ => none
  | .dict _ => none

variable (A : ArithE K)

theorem eval_un (ρ : List Char → K) (o : UnOp) (a : Expr K) (v : K) :
    A.eval ρ (.un o a) = some v ↔ ∃ x, A.eval ρ a = some x ∧ A.unOk o x ∧ unOp A.ops o x = some v := by
  simp [eval, Option.bind_eq_some_iff]

theorem eval_bin (ρ : List Char → K) (o : BinOp) (l r : Expr K) (v : K) :
    A.eval ρ (.bin o l r) = some v ↔
      ∃ x y, A.eval ρ l = some x ∧ A.eval ρ r = some y ∧ A.binOk o x y ∧ binOp A.ops o x y = some v := by
  simp [eval, Option.bind_eq_some_iff]

theorem eval_scalar {ρ : List Char → K} {e : Expr K} {v : K} (h : A.eval ρ e = some v) : e.scalar = true := by
  induction e using Expr.ind generalizing v with
  | const => rfl
  | var => rfl
  | un o a ih => obtain ⟨x, hx, -⟩ := (A.eval_un ..).1 h; exact ih hx
  | bin o l r ih1 ih2 =>
    obtain ⟨x, y, hx, hy, -, hv⟩ := (A.eval_bin ..).1 h
    have ho : o ≠ .access := by rintro rfl; simp [binOp] at hv
    simp [Expr.scalar, ih1 hx, ih2 hy, ho]
  | arr => simp [eval] at h
  | dict => simp [eval] at h

theorem not_units {ρ : List Char → K} {e : Expr K} {x : K} (h : A.eval ρ e = some x) :
    ∀ a b, e ≠ .bin .units a b := by
  rintro a b rfl
  obtain ⟨_, _, -, -, -, hv⟩ := (A.eval_bin ..).1 h
  simp [binOp] at hv

end ArithE

/-- The outcomes of `simpBinE` on scalars. -/
inductive SBE (eq : K → K → Bool) (N : NumOps K) (o : BinOp) : Expr K → Expr K → Expr K → Prop
  | lz {k c r} : o.leftZero N = some c → eq k c = true → SBE eq N o (.const k) r (.const c)
  | li {k c r} : o.leftId N = some c → eq k c = true → SBE eq N o (.const k) r r
  | rz {k c l} : o.rightZero N = some c → eq k c = true → SBE eq N o l (.const k) (.const c)
  | ri {k c l} : o.rightId N = some c → eq k c = true → SBE eq N o l (.const k) l
  | neg {k r} : o = .sub → eq k N.zero = true → SBE eq N o (.const k) r (.un .neg r)
  | negc {k y} : o = .sub → eq k N.zero = true → SBE eq N o (.const k) (.const y) (.const (N.neg y))
  | dd {l r e} : DDS N o l r e → SBE eq N o l r e

theorem isConstE_iff (eq : K → K → Bool) (e : Expr K) (c : Option K) :
    isConstE eq e c = true ↔ ∃ k d, e = .const k ∧ c = some d ∧ eq k d = true := by
  unfold isConstE
  split
  · simp
  · rename_i h
    simp only [Bool.false_eq_true, false_iff]
    rintro ⟨k, d, rfl, rfl, -⟩
    exact h k d rfl rfl

theorem ddVisitE_scalar (eq : K → K → Bool) (N : NumOps K) (o : BinOp) (l r : Expr K)
    (hl : l.scalar = true) (hr : r.scalar = true) (ho : o ≠ .access) :
    ∃ e, SBE eq N o l r e ∧ ∀ rec, ddVisitE eq N rec o l r = .ok e := by
  classical
  obtain ⟨e, h1, h2⟩ := ddVisit_scalar N o l r hl hr ho
  by_cases hs : o = .sub
  · subst hs
    cases l with
    | const x =>
      by_cases hx : eq x N.zero = true
      · cases r with
        | const y => exact ⟨_, .negc rfl hx, fun rec => by simp [ddVisitE, hx]⟩
        | _ => exact ⟨_, .neg rfl hx, fun rec => by simp [ddVisitE, hx]⟩
      · cases r with
        | const y => exact ⟨_, .dd .fold, fun rec => by simp [ddVisitE, hx]⟩
        | _ => exact ⟨_, .dd .same, fun rec => by simp [ddVisitE, hx]⟩
    | _ => exact ⟨e, .dd h1, fun rec => by rw [← h2 rec]; rfl⟩
  · refine ⟨e, .dd h1, fun rec => ?_⟩
    have : ddVisitE eq N rec o l r = ddVisit N rec o l r := by
      cases o <;> first | rfl | exact absurd rfl hs
    rw [this]
    convert h2 rec

theorem simpBinE_scalar (eq : K → K → Bool) (N : NumOps K) (o : BinOp) (l r : Expr K)
    (hl : l.scalar = true) (hr : r.scalar = true) (ho : o ≠ .access) :
    ∃ e, SBE eq N o l r e ∧ ∀ rec, simpBinE eq N rec o l r = .ok e := by
  unfold simpBinE
  by_cases h1 : isConstE eq l (o.leftZero N) = true
  · obtain ⟨k, d, rfl, h, h'⟩ := (isConstE_iff ..).1 h1
    exact ⟨_, .lz h h', fun _ => by rw [if_pos h1, h]; rfl⟩
  by_cases h2 : isConstE eq l (o.leftId N) = true
  · obtain ⟨k, d, rfl, h, h'⟩ := (isConstE_iff ..).1 h2
    exact ⟨_, .li h h', fun _ => by rw [if_neg h1, if_pos h2]⟩
  by_cases h3 : isConstE eq r (o.rightZero N) = true
  · obtain ⟨k, d, rfl, h, h'⟩ := (isConstE_iff ..).1 h3
    exact ⟨_, .rz h h', fun _ => by rw [if_neg h1, if_neg h2, if_pos h3, h]; rfl⟩
  by_cases h4 : isConstE eq r (o.rightId N) = true
  · obtain ⟨k, d, rfl, h, h'⟩ := (isConstE_iff ..).1 h4
    exact ⟨_, .ri h h', fun _ => by rw [if_neg h1, if_neg h2, if_neg h3, if_pos h4]⟩
  obtain ⟨e, h5, h6⟩ := ddVisitE_scalar eq N o l r hl hr ho
  exact ⟨e, h5, fun rec => by rw [if_neg h1, if_neg h2, if_neg h3, if_neg h4, h6]⟩

theorem SBE.toSBS {eq : K → K → Bool} {N : NumOps K} {o : BinOp} {l r e : Expr K} (h : SBE eq N o l r e) :
    ∃ l0 r0, SBS N o l0 r0 e ∧ (l0 = l ∨ (∃ k, l0 = .const k) ∧ ∃ k, l = .const k) ∧
      (r0 = r ∨ (∃ k, r0 = .const k) ∧ ∃ k, r = .const k) := by
  cases h with
  | lz h => exact ⟨_, r, .lz h, .inr ⟨⟨_, rfl⟩, _, rfl⟩, .inl rfl⟩
  | li h => exact ⟨_, r, .li h, .inr ⟨⟨_, rfl⟩, _, rfl⟩, .inl rfl⟩
  | rz h => exact ⟨l, _, .rz h, .inl rfl, .inr ⟨⟨_, rfl⟩, _, rfl⟩⟩
  | ri h => exact ⟨l, _, .ri h, .inl rfl, .inr ⟨⟨_, rfl⟩, _, rfl⟩⟩
  | neg h => subst h; exact ⟨_, r, .dd .neg, .inr ⟨⟨_, rfl⟩, _, rfl⟩, .inl rfl⟩
  | negc h => subst h; exact ⟨_, _, .dd .negc, .inr ⟨⟨_, rfl⟩, _, rfl⟩, .inl rfl⟩
  | dd h => exact ⟨l, r, .dd h, .inl rfl, .inl rfl⟩

theorem const_shape {l0 l : Expr K} (h : l0 = l ∨ (∃ k, l0 = .const k) ∧ ∃ k, l = .const k) :
    ((∃ k, l0 = .const k) → ∃ k, l = .const k) ∧ (IsCP l0 → IsCP l) ∧
    ((∀ a b, l ≠ .bin .units a b) → ∀ a b, l0 ≠ .bin .units a b) ∧ (l.scalar = true → l0.scalar = true) := by
  rcases h with rfl | ⟨⟨k, rfl⟩, h⟩
  · exact ⟨id, id, id, id⟩
  · refine ⟨fun _ => h, ?_, fun _ a b => by simp, fun _ => rfl⟩
    rintro ⟨c, a, e | e⟩ <;> simp at e

namespace ArithE

variable (A : ArithE K)

theorem foldBin_val (ρ : List Char → K) (o : BinOp) (x y v : K) (h : binOp A.ops o x y = some v) :
    A.eval ρ (foldBin A.ops o x y) = some v := by
  cases o <;> simp_all [binOp, foldBin, eval]

/-- One step of `simplify` keeps the value up to `sim`. -/
theorem eval_sbe (ρ : List Char → K) {o : BinOp} {l r e : Expr K} (h : SBE A.eq A.ops o l r e) {v : K}
    (hv : A.eval ρ (.bin o l r) = some v)
    (h1 : o = .mul → ¬ ((∃ k, l = .const k) ∧ IsCP r)) (h2 : o = .mul → ¬ (IsCP l ∧ ∃ k, r = .const k)) :
    ∃ v', A.eval ρ e = some v' ∧ A.sim v' v := by
  obtain ⟨x, y, hx, hy, hok, hb⟩ := (A.eval_bin ..).1 hv
  cases h with
  | @lz k c _ hz hk =>
    simp only [eval, Option.some.injEq] at hx ⊢
    subst hx
    refine ⟨c, rfl, ?_⟩
    have hs : A.sim k c := by
      cases o <;> simp [BinOp.leftZero] at hz <;> subst hz <;> first | exact A.eq_zero _ hk | exact A.eq_one _ hk
    obtain ⟨w, hw, hw'⟩ := A.bin_sim o k c y y v hs (A.refl y) hok hb
    have hok' := A.bin_ok o k c y y hs (A.refl y) hok
    refine A.trans _ _ _ ?_ hw'
    cases o <;> simp [BinOp.leftZero] at hz <;> simp [binOp] at hw <;> subst hz hw <;>
      first
      | exact A.symm _ _ (A.zero_mul _ hok')
      | exact A.symm _ _ (A.zero_div _ hok')
      | exact A.symm _ _ (A.one_pow _ hok')
  | @li k c _ hz hk =>
    simp only [eval, Option.some.injEq] at hx ⊢
    subst hx
    refine ⟨y, hy, ?_⟩
    have hs : A.sim k c := by
      cases o <;> simp [BinOp.leftId] at hz <;> subst hz <;> first | exact A.eq_zero _ hk | exact A.eq_one _ hk
    obtain ⟨w, hw, hw'⟩ := A.bin_sim o k c y y v hs (A.refl y) hok hb
    have hok' := A.bin_ok o k c y y hs (A.refl y) hok
    refine A.trans _ _ _ ?_ hw'
    cases o <;> simp [BinOp.leftId] at hz <;> simp [binOp] at hw <;> subst hz hw <;>
      first
      | exact A.symm _ _ (A.zero_add _ hok')
      | exact A.symm _ _ (A.one_mul _ hok')
  | @rz k c _ hz hk =>
    simp only [eval, Option.some.injEq] at hy ⊢
    subst hy
    refine ⟨c, rfl, ?_⟩
    have hs : A.sim k c := by
      cases o <;> simp [BinOp.rightZero] at hz <;> subst hz <;> exact A.eq_zero _ hk
    obtain ⟨w, hw, hw'⟩ := A.bin_sim o x x k c v (A.refl x) hs hok hb
    have hok' := A.bin_ok o x x k c (A.refl x) hs hok
    refine A.trans _ _ _ ?_ hw'
    cases o <;> simp [BinOp.rightZero] at hz <;> simp [binOp] at hw <;> subst hz hw
    exact A.symm _ _ (A.mul_zero _ hok')
  | @ri k c _ hz hk =>
    simp only [eval, Option.some.injEq] at hy ⊢
    subst hy
    refine ⟨x, hx, ?_⟩
    have hs : A.sim k c := by
      cases o <;> simp [BinOp.rightId] at hz <;> subst hz <;> first | exact A.eq_zero _ hk | exact A.eq_one _ hk
    obtain ⟨w, hw, hw'⟩ := A.bin_sim o x x k c v (A.refl x) hs hok hb
    have hok' := A.bin_ok o x x k c (A.refl x) hs hok
    refine A.trans _ _ _ ?_ hw'
    cases o <;> simp [BinOp.rightId] at hz <;> simp [binOp] at hw <;> subst hz hw <;>
      first
      | exact A.symm _ _ (A.add_zero _ hok')
      | exact A.symm _ _ (A.sub_zero _ hok')
      | exact A.symm _ _ (A.mul_one _ hok')
      | exact A.symm _ _ (A.div_one _ hok')
      | exact A.symm _ _ (A.pow_one _ hok')
  | @neg k _ ho hk =>
    subst ho
    simp only [eval, Option.some.injEq] at hx
    subst hx
    have hs := A.eq_zero _ hk
    obtain ⟨w, hw, hw'⟩ := A.bin_sim .sub k A.ops.zero y y v hs (A.refl y) hok hb
    have hok' := A.bin_ok .sub k A.ops.zero y y hs (A.refl y) hok
    simp only [binOp, Option.some.injEq] at hw
    subst hw
    exact ⟨A.ops.neg y, (A.eval_un ..).2 ⟨y, hy, A.neg_ok _ hok', rfl⟩,
      A.trans _ _ _ (A.symm _ _ (A.zero_sub y hok')) hw'⟩
  | @negc k y' ho hk =>
    subst ho
    simp only [eval, Option.some.injEq] at hx hy
    subst hx hy
    have hs := A.eq_zero _ hk
    obtain ⟨w, hw, hw'⟩ := A.bin_sim .sub k A.ops.zero y' y' v hs (A.refl _) hok hb
    have hok' := A.bin_ok .sub k A.ops.zero y' y' hs (A.refl _) hok
    simp only [binOp, Option.some.injEq] at hw
    subst hw
    exact ⟨A.ops.neg y', rfl, A.trans _ _ _ (A.symm _ _ (A.zero_sub y' hok')) hw'⟩
  | dd hd =>
    cases hd with
    | same => exact ⟨v, hv, A.refl v⟩
    | fold =>
      simp only [eval, Option.some.injEq] at hx hy
      subst hx hy
      exact ⟨v, A.foldBin_val ρ o _ _ v hb, A.refl v⟩
    | neg =>
      simp only [eval, Option.some.injEq] at hx
      subst hx
      simp only [binOp, Option.some.injEq] at hb
      subst hb
      exact ⟨A.ops.neg y, (A.eval_un ..).2 ⟨y, hy, A.neg_ok _ hok, rfl⟩, A.symm _ _ (A.zero_sub y hok)⟩
    | negc =>
      simp only [eval, Option.some.injEq] at hx hy
      subst hx hy
      simp only [binOp, Option.some.injEq] at hb
      subst hb
      exact ⟨_, rfl, A.symm _ _ (A.zero_sub _ hok)⟩
    | mc1 => exact absurd ⟨⟨_, rfl⟩, _, _, .inl rfl⟩ (h1 rfl)
    | mc2 => exact absurd ⟨⟨_, rfl⟩, _, _, .inr rfl⟩ (h1 rfl)
    | mc3 => exact absurd ⟨⟨_, _, .inl rfl⟩, _, rfl⟩ (h2 rfl)
    | mc4 => exact absurd ⟨⟨_, _, .inr rfl⟩, _, rfl⟩ (h2 rfl)
    | uu => exact absurd rfl (A.not_units hx _ _)
    | ul => exact absurd rfl (A.not_units hx _ _)
    | ur => exact absurd rfl (A.not_units hy _ _)
    | du => exact absurd rfl (A.not_units hx _ _)

theorem eval_foldUn (ρ : List Char → K) (o : UnOp) (a : Expr K) (v : K) (h : A.eval ρ (.un o a) = some v) :
    A.eval ρ (foldUn A.ops o a) = some v := by
  obtain ⟨x, hx, -, hv⟩ := (A.eval_un ..).1 h
  unfold foldUn
  split
  · simp only [eval, Option.some.injEq] at hx
    subst hx
    cases o <;> simp_all [unOp, eval]
  · exact h

end ArithE

/-- A ground operation on two numbers is carried out. -/
theorem simpBinE_consts (eq : K → K → Bool) (N : NumOps K) (o : BinOp) (x y : K)
    (ho : o = .add ∨ o = .sub ∨ o = .mul ∨ o = .div ∨ o = .pow) :
    ∃ k, ∀ rec, simpBinE eq N rec o (.const x) (.const y) = .ok (.const k) := by
  have hdd : ∃ k, ∀ rec, ddVisitE eq N rec o (.const x) (.const y) = .ok (.const k) := by
    rcases ho with rfl | rfl | rfl | rfl | rfl
    · exact ⟨_, fun _ => rfl⟩
    · by_cases hx : eq x N.zero = true
      · exact ⟨N.neg y, fun _ => by simp [ddVisitE, hx]⟩
      · exact ⟨N.sub x y, fun _ => by simp [ddVisitE, hx, foldBin]⟩
    · exact ⟨_, fun _ => rfl⟩
    · exact ⟨_, fun _ => rfl⟩
    · exact ⟨_, fun _ => rfl⟩
  obtain ⟨k, hk⟩ := hdd
  have hf : ∀ c z, ∃ k, fresh c (.const z : Expr K) = .const k := by
    intro c z; cases c
    · exact ⟨z, rfl⟩
    · exact ⟨_, rfl⟩
  obtain ⟨k1, hk1⟩ := hf (o.leftZero N) x
  obtain ⟨k2, hk2⟩ := hf (o.rightZero N) y
  by_cases h1 : isConstE eq (.const x) (o.leftZero N) = true
  · exact ⟨k1, fun _ => by rw [simpBinE, if_pos h1, hk1]⟩
  by_cases h2 : isConstE eq (.const x) (o.leftId N) = true
  · exact ⟨y, fun _ => by rw [simpBinE, if_neg h1, if_pos h2]⟩
  by_cases h3 : isConstE eq (.const y) (o.rightZero N) = true
  · exact ⟨k2, fun _ => by rw [simpBinE, if_neg h1, if_neg h2, if_pos h3, hk2]⟩
  by_cases h4 : isConstE eq (.const y) (o.rightId N) = true
  · exact ⟨x, fun _ => by rw [simpBinE, if_neg h1, if_neg h2, if_neg h3, if_pos h4]⟩
  · exact ⟨k, fun rec => by rw [simpBinE, if_neg h1, if_neg h2, if_neg h3, if_neg h4, hk]⟩

theorem simpE_ground (eq : K → K → Bool) (N : NumOps K) (e : Expr K) (hg : e.ground = true) :
    ∃ k, ∀ n, e.height ≤ n → simpE eq N n e = .ok (.const k) := by
  induction e using Expr.ind with
  | const k =>
    refine ⟨k, fun n hn => ?_⟩
    cases n with
    | zero => simp [Expr.height] at hn
    | succ n => simp [simpE]
  | var => simp [Expr.ground] at hg
  | un o a ih =>
    simp [Expr.ground] at hg
    obtain ⟨k, h⟩ := ih hg.2
    have : ∃ k', foldUn N o (.const k) = .const k' := by
      cases o <;> simp_all [foldUn]
    obtain ⟨k', hk⟩ := this
    refine ⟨k', fun n hn => ?_⟩
    cases n with
    | zero => simp [Expr.height] at hn
    | succ n =>
      rw [Expr.height] at hn
      rw [simpE, h n (by omega), Res.ok_bind, hk]
  | bin o l r ih1 ih2 =>
    simp [Expr.ground] at hg
    obtain ⟨k1, h1⟩ := ih1 hg.1.2
    obtain ⟨k2, h2⟩ := ih2 hg.2
    obtain ⟨k, hk⟩ := simpBinE_consts eq N o k1 k2 (by tauto)
    refine ⟨k, fun n hn => ?_⟩
    cases n with
    | zero => simp [Expr.height] at hn
    | succ n =>
      rw [Expr.height] at hn
      rw [simpE, h1 n (by omega), Res.ok_bind, h2 n (by omega), Res.ok_bind, hk]
  | arr => simp [Expr.ground] at hg
  | dict => simp [Expr.ground] at hg

/-- Everything about the result of `simplify` that the induction needs. -/
theorem simpE_machine (A : ArithE K) (ρ : List Char → K) (e : Expr K) :
    ∀ v, A.eval ρ e = some v → noCollect e = true →
    ∃ e' v', (∀ n, e.height ≤ n → simpE A.eq A.ops n e = .ok e') ∧ e'.scalar = true ∧ A.eval ρ e' = some v' ∧ A.sim v' v ∧
      ((∃ k, e' = .const k) → mayNum e = true) ∧ (IsCP e' → mayProd e = true) := by
  induction e using Expr.ind with
  | const k =>
    intro v hv _
    refine ⟨.const k, v, fun n hn => ?_, rfl, hv, A.refl v, fun _ => rfl, ?_⟩
    · cases n with
      | zero => simp [Expr.height] at hn
      | succ n => simp [simpE]
    · rintro ⟨c, a, h | h⟩ <;> simp at h
  | var m =>
    intro v hv _
    refine ⟨.var m, v, fun n hn => ?_, rfl, hv, A.refl v, by simp, ?_⟩
    · cases n with
      | zero => simp [Expr.height] at hn
      | succ n => simp [simpE]
    · rintro ⟨c, a, h | h⟩ <;> simp at h
  | un o a ih =>
    intro v hv hc
    obtain ⟨x, hx, hok, hb⟩ := (A.eval_un ..).1 hv
    obtain ⟨a', x', h1, h2, h3, hs, h4, h5⟩ := ih x hx hc
    obtain ⟨s1, s2⟩ := foldUn_shape A.ops o a'
    have hs' := A.symm _ _ hs
    obtain ⟨w, hw, hw'⟩ := A.un_sim o x x' v hs' hok hb
    refine ⟨_, w, fun n hn => ?_, foldUn_scalar A.ops o a' h2,
      A.eval_foldUn ρ o a' w ((A.eval_un ..).2 ⟨x', h3, A.un_ok o x x' hs' hok, hw⟩), hw', fun h => h4 (s1 h),
      fun h => absurd h s2⟩
    cases n with
    | zero => simp [Expr.height] at hn
    | succ n =>
      rw [Expr.height] at hn
      rw [simpE, h1 n (by omega)]; rfl
  | bin o l r ih1 ih2 =>
    intro v hv hc
    have hsc := A.eval_scalar hv
    obtain ⟨x, y, hx, hy, hok, hb⟩ := (A.eval_bin ..).1 hv
    have hcl : noCollect l = true ∧ noCollect r = true := by
      cases o <;> simp_all [noCollect]
    obtain ⟨l', x', l1, l2, l3, ls, l4, l5⟩ := ih1 x hx hcl.1
    obtain ⟨r', y', r1, r2, r3, rs, r4, r5⟩ := ih2 y hy hcl.2
    have ho : o ≠ .access := by simp [Expr.scalar] at hsc; exact hsc.1.1
    obtain ⟨e, e1, e2⟩ := simpBinE_scalar A.eq A.ops o l' r' l2 r2 ho
    have hrun : ∀ n, (Expr.bin o l r).height ≤ n → simpE A.eq A.ops n (.bin o l r) = .ok e := by
      intro n hn
      cases n with
      | zero => simp [Expr.height] at hn
      | succ n =>
        rw [Expr.height] at hn
        rw [simpE, l1 n (by omega), Res.ok_bind, r1 n (by omega), Res.ok_bind, e2]
    have ls' := A.symm _ _ ls
    have rs' := A.symm _ _ rs
    obtain ⟨w, hw, hw'⟩ := A.bin_sim o x x' y y' v ls' rs' hok hb
    obtain ⟨v', hv', hs'⟩ := A.eval_sbe ρ e1 ((A.eval_bin ..).2 ⟨x', y', l3, r3, A.bin_ok o x x' y y' ls' rs' hok, hw⟩)
      (by
        rintro rfl ⟨ha, hb⟩
        simp [noCollect, l4 ha, r5 hb] at hc)
      (by
        rintro rfl ⟨ha, hb⟩
        simp [noCollect, l5 ha, r4 hb] at hc)
    obtain ⟨l0, r0, hsbs, hl0, hr0⟩ := e1.toSBS
    obtain ⟨lc, lp, lu, lsc⟩ := const_shape hl0
    obtain ⟨rc, rp, ru, rsc⟩ := const_shape hr0
    refine ⟨e, v', hrun, hsbs.scalar (lsc l2) (rsc r2) ho, hv', A.trans _ _ _ hs' hw', ?_, ?_⟩
    · exact sbs_num A.ops hsbs (fun h => l4 (lc h)) (fun h => r4 (rc h))
    · intro hcp
      refine sbs_prod A.ops hsbs (lu (A.not_units l3)) (ru (A.not_units r3)) (fun h => l4 (lc h)) (fun h => r4 (rc h))
        (fun h => l5 (lp h)) (fun h => r5 (rp h)) ?_ hcp
      -- a ground expression becomes a number
      rintro rfl
      by_contra hg
      simp only [Bool.not_eq_false] at hg
      have hg' : (Expr.bin .mul l r).ground = true := by simpa [Expr.ground] using hg
      obtain ⟨k, hk⟩ := simpE_ground A.eq A.ops _ hg'
      have := (hk _ le_rfl).symm.trans (hrun _ le_rfl)
      simp at this
      subst this
      obtain ⟨c, a, h | h⟩ := hcp <;> simp at h
  | arr => intro v hv; simp [ArithE.eval] at hv
  | dict => intro v hv; simp [ArithE.eval] at hv

/-- Inserting numbers for all variables and simplifying gives the number computed node by node, up to `sim`. -/
theorem insertE (A : ArithE K) (ρ : List Char → K) (e : Expr K) (v : K) (xs : List (List Char))
    (h : A.eval ρ e = some v) (hx : ∀ n ∈ e.vars, n ∈ xs) :
    ∃ v', A.sim v' v ∧ ∀ n, e.height ≤ n → simpE A.eq A.ops n (subDict e (numDict ρ xs)) = .ok (.const v') := by
  have key : ∀ e : Expr K, ∀ v, A.eval ρ e = some v → (∀ n ∈ e.vars, n ∈ xs) →
      (subDict e (numDict ρ xs)).ground = true ∧ A.eval ρ (subDict e (numDict ρ xs)) = some v ∧
      (subDict e (numDict ρ xs)).height = e.height := by
    intro e
    induction e using Expr.ind with
    | const k => intro v hv _; exact ⟨rfl, hv, rfl⟩
    | var m =>
      intro v hv hx
      rw [subDict_var, numDict_find ρ xs m (hx m (by simp [Expr.vars]))]
      exact ⟨rfl, hv, rfl⟩
    | un o a ih =>
      intro v hv hx
      obtain ⟨x, hx', hok, hv⟩ := (A.eval_un ..).1 hv
      obtain ⟨h1, h2, h3⟩ := ih x hx' hx
      rw [subDict_un]
      refine ⟨?_, (A.eval_un ..).2 ⟨x, h2, hok, hv⟩, by simp [Expr.height, h3]⟩
      have : o ≠ .arbsign := by rintro rfl; simp [unOp] at hv
      simp [Expr.ground, h1, this]
    | bin o l r ih1 ih2 =>
      intro v hv hx
      obtain ⟨x, y, hx', hy, hok, hb⟩ := (A.eval_bin ..).1 hv
      obtain ⟨l1, l2, l3⟩ := ih1 x hx' (fun n hn => hx n (by simp [Expr.vars, hn]))
      obtain ⟨r1, r2, r3⟩ := ih2 y hy (fun n hn => hx n (by simp [Expr.vars, hn]))
      rw [subDict_bin]
      refine ⟨?_, (A.eval_bin ..).2 ⟨x, y, l2, r2, hok, hb⟩, by simp [Expr.height, l3, r3]⟩
      cases o <;> simp_all [Expr.ground, binOp]
    | arr => intro v hv; simp [ArithE.eval] at hv
    | dict => intro v hv; simp [ArithE.eval] at hv
  obtain ⟨h1, h2, h3⟩ := key e v h hx
  obtain ⟨e', v', hr, -, hv', hs, -⟩ := simpE_machine A ρ _ v h2 (ground_noCollect _ h1)
  obtain ⟨k, hk⟩ := simpE_ground A.eq A.ops _ h1
  have := (hk _ le_rfl).symm.trans (hr _ le_rfl)
  simp at this
  subst this
  simp only [ArithE.eval, Option.some.injEq] at hv'
  subst hv'
  exact ⟨k, hs, fun n hn => hk n (by rw [h3]; exact hn)⟩

end Stator.Fp
