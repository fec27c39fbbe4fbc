import Verif.Rt.Eval
import Verif.Rt.ParseLemmas
import Verif.Rt.RoundTripLemmas

/-!
# Helper lemmas about `simplify`
-/

namespace Stator

/-- The outcomes of `ddVisit` on scalars. -/
inductive DDS {K : Type} (N : NumOps K) : BinOp → Expr K → Expr K → Expr K → Prop
  | same {o l r} : DDS N o l r (.bin o l r)
  | fold {o x y} : DDS N o (.const x) (.const y) (foldBin N o x y)
  | neg {r} : DDS N .sub (.const N.zero) r (.un .neg r)
  | negc {y} : DDS N .sub (.const N.zero) (.const y) (.const (N.neg y))
  | mc1 {k c b} : DDS N .mul (.const k) (.bin .mul (.const c) b) (.bin .mul (.const (N.mul k c)) b)
  | mc2 {k c a} : DDS N .mul (.const k) (.bin .mul a (.const c)) (.bin .mul (.const (N.mul k c)) a)
  | mc3 {k c b} : DDS N .mul (.bin .mul (.const c) b) (.const k) (.bin .mul (.const (N.mul k c)) b)
  | mc4 {k c a} : DDS N .mul (.bin .mul a (.const c)) (.const k) (.bin .mul (.const (N.mul k c)) a)
  | uu {a b c d} : DDS N .mul (.bin .units a b) (.bin .units c d)
      (.bin .units (.bin .mul a c) (.bin .mul b d))
  | ul {a b r} : DDS N .mul (.bin .units a b) r (.bin .units (.bin .mul a r) b)
  | ur {l c d} : (∀ a b, l ≠ .bin .units a b) →
      DDS N .mul l (.bin .units c d) (.bin .units (.bin .mul l c) c)
  | du {a b c d} : DDS N .div (.bin .units a b) (.bin .units c d)
      (.bin .units (.bin .div a c) (.bin .div b d))

/-- The outcomes of `simpBin` on scalars. -/
inductive SBS {K : Type} (N : NumOps K) (o : BinOp) : Expr K → Expr K → Expr K → Prop
  | lz {k r} : o.leftZero N = some k → SBS N o (.const k) r (.const k)
  | li {k r} : o.leftId N = some k → SBS N o (.const k) r r
  | rz {k l} : o.rightZero N = some k → SBS N o l (.const k) (.const k)
  | ri {k l} : o.rightId N = some k → SBS N o l (.const k) l
  | dd {l r e} : DDS N o l r e → SBS N o l r e

theorem mulTyped_scalar {K : Type} (t c : Expr K) (b : Bool) (h : t.scalar = true) :
    mulTyped t c b = if b then .bin .mul t c else .bin .mul c t := by
  cases t <;> simp_all [mulTyped, Expr.scalar]

theorem mulConst_dds {K : Type} (N : NumOps K) (k : K) (a b : Expr K) :
    DDS N .mul (.const k) (.bin .mul a b) (mulConst N k a b (.bin .mul (.const k) (.bin .mul a b))) ∧
    DDS N .mul (.bin .mul a b) (.const k) (mulConst N k a b (.bin .mul (.bin .mul a b) (.const k))) := by
  unfold mulConst
  split
  · exact ⟨.mc1, .mc3⟩
  · exact ⟨.mc2, .mc4⟩
  · exact ⟨.same, .same⟩

theorem ddVisit_mul_scalar {K : Type} [DecidableEq K] (N : NumOps K) (l r : Expr K)
    (hl : l.scalar = true) (hr : r.scalar = true) :
    ∃ e, DDS N .mul l r e ∧ ∀ rec, ddVisit N rec .mul l r = .ok e := by
  cases hm : mulUnits l r with
  | some e =>
    refine ⟨e, ?_, fun rec => by simp [ddVisit, hm]⟩
    unfold mulUnits at hm
    split at hm
    · simp at hm; subst hm; exact .uu
    · simp at hm; subst hm; rw [mulTyped_scalar _ _ _ hr]; exact .ul
    · simp at hm; subst hm; rename_i hn; rw [mulTyped_scalar _ _ _ hl]
      exact .ur (fun a b h => hn a b h)
    · simp at hm
  | none =>
    simp only [ddVisit, hm]
    split
    · simp [Expr.scalar] at hl
    · simp [Expr.scalar] at hl
    · simp [Expr.scalar] at hr
    · exact ⟨_, .fold, fun _ => rfl⟩
    · exact ⟨_, (mulConst_dds N _ _ _).1, fun _ => rfl⟩
    · exact ⟨_, (mulConst_dds N _ _ _).2, fun _ => rfl⟩
    · exact ⟨_, .same, fun _ => rfl⟩

theorem ddVisit_scalar {K : Type} [DecidableEq K] (N : NumOps K) (o : BinOp) (l r : Expr K)
    (hl : l.scalar = true) (hr : r.scalar = true) (ho : o ≠ .access) :
    ∃ e, DDS N o l r e ∧ ∀ rec, ddVisit N rec o l r = .ok e := by
  cases o with
  | mul => exact ddVisit_mul_scalar N l r hl hr
  | access => simp at ho
  | add =>
    simp only [ddVisit]
    split
    · simp [Expr.scalar] at hl
    · simp [Expr.scalar] at hl
    · exact ⟨_, .fold, fun _ => rfl⟩
    · exact ⟨_, .same, fun _ => rfl⟩
  | sub =>
    simp only [ddVisit]
    split
    · simp [Expr.scalar] at hl
    · simp [Expr.scalar] at hl
    · split
      · rename_i h; subst h; exact ⟨_, .negc, fun _ => rfl⟩
      · exact ⟨_, .fold, fun _ => rfl⟩
    · split
      · rename_i h; subst h; exact ⟨_, .neg, fun _ => rfl⟩
      · exact ⟨_, .same, fun _ => rfl⟩
    · exact ⟨_, .same, fun _ => rfl⟩
  | div =>
    simp only [ddVisit]
    split
    · exact ⟨_, .du, fun _ => rfl⟩
    · simp [Expr.scalar] at hl
    · simp [Expr.scalar] at hl
    · exact ⟨_, .fold, fun _ => rfl⟩
    · exact ⟨_, .same, fun _ => rfl⟩
  | pow =>
    simp only [ddVisit]
    split
    · simp [Expr.scalar] at hl
    · exact ⟨_, .fold, fun _ => rfl⟩
    · exact ⟨_, .same, fun _ => rfl⟩
  | _ => exact ⟨_, .same, fun _ => rfl⟩

theorem isConst_iff {K : Type} [DecidableEq K] (e : Expr K) (c : Option K) :
    isConst e c = true ↔ ∃ k, e = .const k ∧ c = some k := by
  unfold isConst
  split
  · simp [eq_comm]
  · rename_i h
    simp only [Bool.false_eq_true, false_iff]
    rintro ⟨k, rfl, rfl⟩
    exact h k k rfl rfl

theorem simpBin_scalar {K : Type} [DecidableEq K] (N : NumOps K) (o : BinOp) (l r : Expr K)
    (hl : l.scalar = true) (hr : r.scalar = true) (ho : o ≠ .access) :
    ∃ e, SBS N o l r e ∧ ∀ rec, simpBin N rec o l r = .ok e := by
  unfold simpBin
  by_cases h1 : isConst l (o.leftZero N) = true
  · simp only [h1, if_true]
    obtain ⟨k, rfl, h⟩ := (isConst_iff _ _).1 h1
    exact ⟨_, .lz h, fun _ => rfl⟩
  by_cases h2 : isConst l (o.leftId N) = true
  · simp only [h1, h2, if_true]
    obtain ⟨k, rfl, h⟩ := (isConst_iff _ _).1 h2
    exact ⟨_, .li h, fun _ => rfl⟩
  by_cases h3 : isConst r (o.rightZero N) = true
  · simp only [h1, h2, h3, if_true]
    obtain ⟨k, rfl, h⟩ := (isConst_iff _ _).1 h3
    exact ⟨_, .rz h, fun _ => rfl⟩
  by_cases h4 : isConst r (o.rightId N) = true
  · simp only [h1, h2, h3, h4, if_true]
    obtain ⟨k, rfl, h⟩ := (isConst_iff _ _).1 h4
    exact ⟨_, .ri h, fun _ => rfl⟩
  simp only [h1, h2, h3, h4]
  obtain ⟨e, h5, h6⟩ := ddVisit_scalar N o l r hl hr ho
  exact ⟨e, .dd h5, h6⟩

theorem foldBin_scalar {K : Type} (N : NumOps K) (o : BinOp) (x y : K) (ho : o ≠ .access) :
    (foldBin N o x y).scalar = true := by
  cases o <;> simp_all [foldBin, Expr.scalar]

theorem DDS.scalar {K : Type} {N : NumOps K} {o : BinOp} {l r e : Expr K} (h : DDS N o l r e)
    (hl : l.scalar = true) (hr : r.scalar = true) (ho : o ≠ .access) : e.scalar = true := by
  cases h with
  | fold => exact foldBin_scalar _ _ _ _ ho
  | _ => simp_all [Expr.scalar]

theorem SBS.scalar {K : Type} {N : NumOps K} {o : BinOp} {l r e : Expr K} (h : SBS N o l r e)
    (hl : l.scalar = true) (hr : r.scalar = true) (ho : o ≠ .access) : e.scalar = true := by
  cases h with
  | dd h => exact h.scalar hl hr ho
  | lz => exact hl
  | li => exact hr
  | rz => exact hr
  | ri => exact hl

theorem foldUn_scalar {K : Type} (N : NumOps K) (o : UnOp) (a : Expr K) (h : a.scalar = true) :
    (foldUn N o a).scalar = true := by
  unfold foldUn
  split
  · cases o <;> rfl
  · exact h

/-- Simplification of a scalar as a relation. -/
inductive SimpS {K : Type} (N : NumOps K) : Expr K → Expr K → Prop
  | const {k} : SimpS N (.const k) (.const k)
  | var {n} : SimpS N (.var n) (.var n)
  | un {o a a'} : SimpS N a a' → SimpS N (.un o a) (foldUn N o a')
  | bin {o l r l' r' e} : SimpS N l l' → SimpS N r r' → SBS N o l' r' e → SimpS N (.bin o l r) e

theorem simp_scalar {K : Type} [DecidableEq K] (N : NumOps K) (e : Expr K) (h : e.scalar = true) :
    ∃ e', SimpS N e e' ∧ e'.scalar = true ∧ ∀ n, e.height ≤ n → simp N n e = .ok e' := by
  induction e using Expr.ind with
  | const k =>
    refine ⟨_, .const, rfl, fun n hn => ?_⟩
    cases n with
    | zero => simp [Expr.height] at hn
    | succ n => rfl
  | var k =>
    refine ⟨_, .var, rfl, fun n hn => ?_⟩
    cases n with
    | zero => simp [Expr.height] at hn
    | succ n => rfl
  | un o a ih =>
    obtain ⟨a', h1, h2, h3⟩ := ih h
    refine ⟨_, .un h1, foldUn_scalar N o a' h2, fun n hn => ?_⟩
    cases n with
    | zero => simp [Expr.height] at hn
    | succ n =>
      rw [Expr.height] at hn
      rw [simp, h3 n (by omega)]; rfl
  | bin o l r ih1 ih2 =>
    simp [Expr.scalar] at h
    obtain ⟨l', h1, h2, h3⟩ := ih1 h.1.2
    obtain ⟨r', h4, h5, h6⟩ := ih2 h.2
    obtain ⟨e, h7, h8⟩ := simpBin_scalar N o l' r' h2 h5 h.1.1
    refine ⟨e, .bin h1 h4 h7, h7.scalar h2 h5 h.1.1, fun n hn => ?_⟩
    cases n with
    | zero => simp [Expr.height] at hn
    | succ n =>
      rw [Expr.height] at hn
      rw [simp, h3 n (by omega), Res.ok_bind, h6 n (by omega), Res.ok_bind, h8]
  | arr xs => simp [Expr.scalar] at h
  | dict xs => simp [Expr.scalar] at h

/-! ## Values -/

theorem binVal_fold (o : BinOp) (x y v : ℝ) (ρ : List Char → ℝ) (h : binVal o x y = some v) :
    (foldBin realOps o x y).eval ρ = some v := by
  cases o with
  | div =>
    simp only [binVal] at h
    split at h
    · simp at h
    · simpa [foldBin, Expr.eval, realOps] using h
  | pow =>
    simp only [binVal] at h
    split at h
    · simpa [foldBin, Expr.eval, realOps] using h
    · simp at h
  | _ => simpa [binVal, foldBin, Expr.eval, realOps] using h

theorem eval_bin (ρ : List Char → ℝ) (o : BinOp) (l r : Expr ℝ) (v : ℝ) :
    (Expr.bin o l r).eval ρ = some v ↔
      ∃ x y, l.eval ρ = some x ∧ r.eval ρ = some y ∧ binVal o x y = some v := by
  simp [Expr.eval, Option.bind_eq_some_iff]

theorem eval_units (ρ : List Char → ℝ) (l r : Expr ℝ) : (Expr.bin .units l r).eval ρ = none := by
  simp only [Expr.eval]
  cases l.eval ρ <;> cases r.eval ρ <;> simp [binVal]

theorem DDS.value {ρ : List Char → ℝ} {o : BinOp} {l r e : Expr ℝ} (h : DDS realOps o l r e)
    {v : ℝ} (hv : (Expr.bin o l r).eval ρ = some v) : e.eval ρ = some v := by
  obtain ⟨x, y, hl, hr, hb⟩ := (eval_bin _ _ _ _ _).1 hv
  cases h with
  | same => exact hv
  | fold =>
    simp [Expr.eval] at hl hr
    subst hl hr
    exact binVal_fold _ _ _ _ _ hb
  | neg =>
    simp [Expr.eval, realOps] at hl
    subst hl
    simp [binVal] at hb
    simp [Expr.eval, hr, unVal, hb]
  | negc =>
    simp [Expr.eval, realOps] at hl hr
    subst hl hr
    simp [binVal] at hb
    simp [Expr.eval, realOps, hb]
  | mc1 =>
    obtain ⟨x', y', hl', hr', hb'⟩ := (eval_bin _ _ _ _ _).1 hr
    simp [Expr.eval] at hl hl'
    subst hl hl'
    simp [binVal] at hb hb'
    rw [eval_bin]
    exact ⟨_, _, rfl, hr', by simp [binVal, realOps, ← hb, ← hb']; ring⟩
  | mc2 =>
    obtain ⟨x', y', hl', hr', hb'⟩ := (eval_bin _ _ _ _ _).1 hr
    simp [Expr.eval] at hl hr'
    subst hl hr'
    simp [binVal] at hb hb'
    rw [eval_bin]
    exact ⟨_, _, rfl, hl', by simp [binVal, realOps, ← hb, ← hb']; ring⟩
  | mc3 =>
    obtain ⟨x', y', hl', hr', hb'⟩ := (eval_bin _ _ _ _ _).1 hl
    simp [Expr.eval] at hr hl'
    subst hr hl'
    simp [binVal] at hb hb'
    rw [eval_bin]
    exact ⟨_, _, rfl, hr', by simp [binVal, realOps, ← hb, ← hb']; ring⟩
  | mc4 =>
    obtain ⟨x', y', hl', hr', hb'⟩ := (eval_bin _ _ _ _ _).1 hl
    simp [Expr.eval] at hr hr'
    subst hr hr'
    simp [binVal] at hb hb'
    rw [eval_bin]
    exact ⟨_, _, rfl, hl', by simp [binVal, realOps, ← hb, ← hb']; ring⟩
  | uu => rw [eval_units] at hl; simp at hl
  | ul => rw [eval_units] at hl; simp at hl
  | ur => rw [eval_units] at hr; simp at hr
  | du => rw [eval_units] at hl; simp at hl

theorem SBS.value {ρ : List Char → ℝ} {o : BinOp} {l r e : Expr ℝ} (h : SBS realOps o l r e)
    {v : ℝ} (hv : (Expr.bin o l r).eval ρ = some v) : e.eval ρ = some v := by
  obtain ⟨x, y, hl, hr, hb⟩ := (eval_bin _ _ _ _ _).1 hv
  cases h with
  | dd h => exact h.value hv
  | lz h =>
    simp [Expr.eval] at hl
    subst hl
    cases o <;> simp [BinOp.leftZero, realOps] at h <;> subst h <;> simp [binVal] at hb
    · simp [Expr.eval, hb]
    · simp [Expr.eval, hb.2]
    · simp [Expr.eval, hb.2]
  | li h =>
    simp [Expr.eval] at hl
    subst hl
    cases o <;> simp [BinOp.leftId, realOps] at h <;> subst h <;> simp [binVal] at hb <;> simp [hr, hb]
  | rz h =>
    simp [Expr.eval] at hr
    subst hr
    cases o <;> simp [BinOp.rightZero, realOps] at h <;> subst h <;> simp [binVal] at hb
    simp [Expr.eval, hb]
  | ri h =>
    simp [Expr.eval] at hr
    subst hr
    cases o <;> simp [BinOp.rightId, realOps] at h <;> subst h <;> simp [binVal] at hb
    all_goals first | (simp [hl, hb]; done) | simp [hl, hb.2]

theorem foldUn_value {ρ : List Char → ℝ} (o : UnOp) (a : Expr ℝ) {v : ℝ}
    (h : (Expr.un o a).eval ρ = some v) : (foldUn realOps o a).eval ρ = some v := by
  unfold foldUn
  split
  · simp only [Expr.eval, Option.bind_some] at h
    cases o <;> simp only [unVal] at h
    case log =>
      split at h
      · simpa [Expr.eval, realOps] using h
      · simp at h
    case arbsign => simp at h
    all_goals simpa [Expr.eval, realOps] using h
  · exact h

theorem SimpS.value {ρ : List Char → ℝ} {e e' : Expr ℝ} (h : SimpS realOps e e') {v : ℝ}
    (hv : e.eval ρ = some v) : e'.eval ρ = some v := by
  induction h generalizing v with
  | const => exact hv
  | var => exact hv
  | @un o a a' _ ih =>
    apply foldUn_value
    simp only [Expr.eval, Option.bind_eq_some_iff] at hv ⊢
    obtain ⟨x, h1, h2⟩ := hv
    exact ⟨x, ih h1, h2⟩
  | bin _ _ h ih1 ih2 =>
    apply h.value
    obtain ⟨x, y, hl, hr, hb⟩ := (eval_bin _ _ _ _ _).1 hv
    exact (eval_bin _ _ _ _ _).2 ⟨x, y, ih1 hl, ih2 hr, hb⟩

theorem eval_some_scalar {ρ : List Char → ℝ} {e : Expr ℝ} {v : ℝ} (h : e.eval ρ = some v) :
    e.scalar = true := by
  induction e using Expr.ind generalizing v with
  | const => rfl
  | var => rfl
  | un o a ih =>
    simp only [Expr.eval, Option.bind_eq_some_iff] at h
    obtain ⟨x, h1, h2⟩ := h
    exact ih h1
  | bin o l r ih1 ih2 =>
    obtain ⟨x, y, hl, hr, hb⟩ := (eval_bin _ _ _ _ _).1 h
    simp only [Expr.scalar, Bool.and_eq_true, ih1 hl, ih2 hr, and_true]
    cases o <;> simp [binVal] at hb <;> rfl
  | arr => simp [Expr.eval] at h
  | dict => simp [Expr.eval] at h

/-! ## Ground expressions -/

theorem simpBin_consts {K : Type} [DecidableEq K] (N : NumOps K) (o : BinOp) (x y : K)
    (ho : o = .add ∨ o = .sub ∨ o = .mul ∨ o = .div ∨ o = .pow) :
    ∃ k, ∀ rec, simpBin N rec o (.const x) (.const y) = .ok (.const k) := by
  unfold simpBin
  split
  · exact ⟨_, fun _ => rfl⟩
  split
  · exact ⟨_, fun _ => rfl⟩
  split
  · exact ⟨_, fun _ => rfl⟩
  split
  · exact ⟨_, fun _ => rfl⟩
  rcases ho with rfl | rfl | rfl | rfl | rfl
  · exact ⟨_, fun _ => rfl⟩
  · simp only [ddVisit]
    split
    · exact ⟨_, fun _ => rfl⟩
    · exact ⟨_, fun _ => rfl⟩
  · exact ⟨_, fun _ => rfl⟩
  · exact ⟨_, fun _ => rfl⟩
  · exact ⟨_, fun _ => rfl⟩

theorem simp_ground {K : Type} [DecidableEq K] (N : NumOps K) (e : Expr K) (hg : e.ground = true) :
    ∃ k, ∀ n, e.height ≤ n → simp N n e = .ok (.const k) := by
  induction e using Expr.ind with
  | const k =>
    refine ⟨k, fun n hn => ?_⟩
    cases n with
    | zero => simp [Expr.height] at hn
    | succ n => rfl
  | var => simp [Expr.ground] at hg
  | un o a ih =>
    simp [Expr.ground] at hg
    obtain ⟨k, h⟩ := ih hg.2
    have : ∃ k', foldUn N o (.const k) = .const k' := by
      cases o <;> simp_all [foldUn]
    obtain ⟨k', hk⟩ := this
    refine ⟨k', fun n hn => ?_⟩
    cases n with
    | zero => simp [Expr.height] at hn
    | succ n =>
      rw [Expr.height] at hn
      rw [simp, h n (by omega), Res.ok_bind, hk]
  | bin o l r ih1 ih2 =>
    simp [Expr.ground] at hg
    obtain ⟨k1, h1⟩ := ih1 hg.1.2
    obtain ⟨k2, h2⟩ := ih2 hg.2
    obtain ⟨k, hk⟩ := simpBin_consts N o k1 k2 (by tauto)
    refine ⟨k, fun n hn => ?_⟩
    cases n with
    | zero => simp [Expr.height] at hn
    | succ n =>
      rw [Expr.height] at hn
      rw [simp, h1 n (by omega), Res.ok_bind, h2 n (by omega), Res.ok_bind, hk]
  | arr => simp [Expr.ground] at hg
  | dict => simp [Expr.ground] at hg

end Stator
