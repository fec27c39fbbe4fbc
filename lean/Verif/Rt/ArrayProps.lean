import Verif.Rt.SimplifyProps

/-!
# Arithmetic on runtime arrays (C46) and value preservation with arrays (C09)

The values are nested tuples of reals; `Val.Op` says what an arithmetic operation on two of them is:
element by element on tuples of the same length, and a scalar is applied to every element. The
cases the code does not implement element-wise (`s + [..]`, `s - [..]`, `s / [..]`, powers and
functions of arrays) have no value here; multiplication of an array by zero is excluded too, because
it forgets the shape (`C09_array_shape_lost`).
-/

namespace Stator

/-- A number or a (nested) tuple of numbers. -/
inductive Val
  | num (x : ℝ)
  | arr (vs : List Val)

/-- The operations that work element by element. -/
def BinOp.arith (o : BinOp) : Prop := o = .add ∨ o = .sub ∨ o = .mul ∨ o = .div

/-- `Val.Op o u v w`: `u o v` is `w`. -/
inductive Val.Op (o : BinOp) : Val → Val → Val → Prop
  /-- two numbers -/
  | num {x y z} : binVal o x y = some z → Op o (.num x) (.num y) (.num z)
  /-- two tuples of the same length -/
  | nil : o.arith → Op o (.arr []) (.arr []) (.arr [])
  | cons {u v w us vs ws} : Op o u v w → Op o (.arr us) (.arr vs) (.arr ws) →
      Op o (.arr (u :: us)) (.arr (v :: vs)) (.arr (w :: ws))
  /-- a tuple and a number -/
  | nilR {y} : o.arith → (o = .mul → y ≠ 0) → Op o (.arr []) (.num y) (.arr [])
  | consR {u y w us ws} : Op o u (.num y) w → Op o (.arr us) (.num y) (.arr ws) →
      Op o (.arr (u :: us)) (.num y) (.arr (w :: ws))
  /-- a number times a tuple -/
  | nilL {x} : o = .mul → x ≠ 0 → Op o (.num x) (.arr []) (.arr [])
  | consL {x v w vs ws} : Op o (.num x) v w → Op o (.num x) (.arr vs) (.arr ws) →
      Op o (.num x) (.arr (v :: vs)) (.arr (w :: ws))

/-- `EvalV ρ e v`: the expression `e` has the value `v` under the assignment `ρ`. -/
inductive EvalV (ρ : List Char → ℝ) : Expr ℝ → Val → Prop
  | num {e x} : e.eval ρ = some x → EvalV ρ e (.num x)
  | nil : EvalV ρ (.arr []) (.arr [])
  | cons {x v xs vs} : EvalV ρ x v → EvalV ρ (.arr xs) (.arr vs) →
      EvalV ρ (.arr (x :: xs)) (.arr (v :: vs))
  | bin {o l r u v w} : EvalV ρ l u → EvalV ρ r v → u.Op o v w → EvalV ρ (.bin o l r) w

theorem Val.Op.num_inv {o : BinOp} {u v : Val} {z : ℝ} (h : u.Op o v (.num z)) :
    ∃ x y, u = .num x ∧ v = .num y ∧ binVal o x y = some z := by
  cases h with
  | num h => exact ⟨_, _, rfl, rfl, h⟩

theorem EvalV.num_iff {ρ : List Char → ℝ} {e : Expr ℝ} {x : ℝ} :
    EvalV ρ e (.num x) ↔ e.eval ρ = some x := by
  refine ⟨fun h => ?_, .num⟩
  generalize hv : Val.num x = v at h
  induction h generalizing x with
  | num h => cases hv; exact h
  | nil => cases hv
  | cons _ _ _ _ => cases hv
  | bin _ _ h ih1 ih2 =>
    subst hv
    obtain ⟨x, y, rfl, rfl, hb⟩ := h.num_inv
    exact (eval_bin _ _ _ _ _).2 ⟨x, y, ih1 rfl, ih2 rfl, hb⟩

theorem evalV_arr_iff {ρ : List Char → ℝ} {xs : List (Expr ℝ)} {v : Val} :
    EvalV ρ (.arr xs) v ↔ ∃ vs, v = .arr vs ∧ List.Forall₂ (EvalV ρ) xs vs := by
  constructor
  · intro h
    generalize he : Expr.arr xs = e at h
    induction h generalizing xs with
    | num h => subst he; simp [Expr.eval] at h
    | nil => cases he; exact ⟨[], rfl, .nil⟩
    | cons h1 _ _ ih =>
      cases he
      obtain ⟨vs, hv, h2⟩ := ih rfl
      cases hv
      exact ⟨_, rfl, .cons h1 h2⟩
    | bin _ _ _ _ _ => cases he
  · rintro ⟨vs, rfl, h⟩
    induction h with
    | nil => exact .nil
    | cons h _ ih => exact .cons h ih

theorem binVal_tame {o : BinOp} {x y z : ℝ} (h : binVal o x y = some z) : o ≠ .units := by
  rintro rfl; simp [binVal] at h

theorem op_arr_arith {o : BinOp} {u v : Val} {ws : List Val} (h : u.Op o v (.arr ws)) : o.arith := by
  generalize hw : Val.arr ws = w at h
  induction h generalizing ws with
  | num => cases hw
  | nil h => exact h
  | cons _ _ _ ih => exact ih rfl
  | nilR h _ => exact h
  | consR _ _ _ ih => exact ih rfl
  | nilL h _ => exact .inr (.inr (.inl h))
  | consL _ _ _ ih => exact ih rfl

theorem eval_tame {ρ : List Char → ℝ} {e : Expr ℝ} {x : ℝ} (h : e.eval ρ = some x) :
    e.tame = true := by
  induction e using Expr.ind generalizing x with
  | const => simp [Expr.tame]
  | var => simp [Expr.tame]
  | un o a ih =>
    simp only [Expr.eval, Option.bind_eq_some_iff] at h
    obtain ⟨y, h1, -⟩ := h
    simpa [Expr.tame] using ih h1
  | bin o l r ih1 ih2 =>
    obtain ⟨y, z, h1, h2, h3⟩ := (eval_bin _ _ _ _ _).1 h
    simp only [Expr.tame, ih1 h1, ih2 h2, eval_some_scalar h1, Bool.true_and, Bool.or_true,
      Bool.true_or, Bool.and_true, bne_iff_ne, ne_eq]
    exact binVal_tame h3
  | arr => simp [Expr.eval] at h
  | dict => simp [Expr.eval] at h

theorem evalV_tame {ρ : List Char → ℝ} {e : Expr ℝ} {v : Val} (h : EvalV ρ e v) :
    e.tame = true := by
  induction h with
  | num h => exact eval_tame h
  | nil => simp [Expr.tame, tameList]
  | cons _ _ ih1 ih2 => simp [Expr.tame, tameList] at ih2 ⊢; exact ⟨ih1, ih2⟩
  | @bin o l r u v w hl hr ho ih1 ih2 =>
    cases w with
    | num z =>
      obtain ⟨x, y, rfl, rfl, hb⟩ := ho.num_inv
      exact eval_tame ((eval_bin _ _ _ _ _).2 ⟨x, y, EvalV.num_iff.1 hl, EvalV.num_iff.1 hr, hb⟩)
    | arr ws =>
      have := op_arr_arith ho
      rcases this with rfl | rfl | rfl | rfl <;> simp [Expr.tame, ih1, ih2]

/-- Unfolding the relation on tuples. -/
theorem op_arr_arr {o : BinOp} {us vs : List Val} {w : Val} (h : (Val.arr us).Op o (.arr vs) w) :
    us.length = vs.length ∧ ∃ ws, w = .arr ws ∧ us.length = ws.length ∧
      ∀ i (h1 : i < us.length) (h2 : i < vs.length) (h3 : i < ws.length), us[i].Op o vs[i] ws[i] := by
  generalize ha : Val.arr us = a at h
  generalize hb : Val.arr vs = b at h
  induction h generalizing us vs with
  | num => cases ha
  | nil => cases ha; cases hb; exact ⟨rfl, [], rfl, rfl, fun i h => by simp at h⟩
  | cons h _ _ ih =>
    cases ha; cases hb
    obtain ⟨h1, ws, h2, h3, h4⟩ := ih rfl rfl
    cases h2
    refine ⟨by simp [h1], _, rfl, by simp [h3], fun i a b c => ?_⟩
    cases i with
    | zero => exact h
    | succ i => exact h4 i (by simpa using a) (by simpa using b) (by simpa using c)
  | nilR => cases hb
  | consR => cases hb
  | nilL => cases ha
  | consL => cases ha

theorem op_arr_num {o : BinOp} {us : List Val} {y : ℝ} {w : Val} (h : (Val.arr us).Op o (.num y) w) :
    (o = .mul → y ≠ 0) ∧ ∃ ws, w = .arr ws ∧ List.Forall₂ (fun u w => u.Op o (.num y) w) us ws := by
  generalize ha : Val.arr us = a at h
  generalize hb : Val.num y = b at h
  induction h generalizing us y with
  | num => cases ha
  | nil => cases hb
  | cons => cases hb
  | nilR _ h => cases ha; cases hb; exact ⟨h, [], rfl, .nil⟩
  | consR h _ _ ih =>
    cases ha; cases hb
    obtain ⟨h1, ws, h2, h3⟩ := ih rfl rfl
    cases h2
    exact ⟨h1, _, rfl, .cons h h3⟩
  | nilL => cases ha
  | consL => cases ha

theorem op_num_arr {o : BinOp} {vs : List Val} {x : ℝ} {w : Val} (h : (Val.num x).Op o (.arr vs) w) :
    o = .mul ∧ x ≠ 0 ∧ ∃ ws, w = .arr ws ∧ List.Forall₂ (fun v w => (Val.num x).Op o v w) vs ws := by
  generalize ha : Val.num x = a at h
  generalize hb : Val.arr vs = b at h
  induction h generalizing vs x with
  | num => cases hb
  | nil => cases ha
  | cons => cases ha
  | nilR => cases ha
  | consR => cases ha
  | nilL h0 h => cases ha; cases hb; exact ⟨h0, h, [], rfl, .nil⟩
  | consL h _ _ ih =>
    cases ha; cases hb
    obtain ⟨h0, h1, ws, h2, h3⟩ := ih rfl rfl
    cases h2
    exact ⟨h0, h1, _, rfl, .cons h h3⟩

/-- The right identities do not change a value. -/
theorem op_rightId {o : BinOp} {u w : Val} {y : ℝ} (hy : o.rightId realOps = some y)
    (h : u.Op o (.num y) w) : w = u := by
  generalize hb : Val.num y = b at h
  induction h generalizing y with
  | @num x y' z h =>
    cases hb
    cases o <;> simp [BinOp.rightId, realOps] at hy <;> subst hy <;> simp [binVal] at h <;> simp_all
  | nil => cases hb
  | cons => cases hb
  | nilR => rfl
  | consR _ _ ih1 ih2 =>
    cases hb
    rw [ih1 hy rfl]
    have := ih2 hy rfl
    cases this
    rfl
  | nilL => cases hb
  | consL => cases hb

theorem op_leftId {v w : Val} (h : (Val.num 1).Op .mul v w) : w = v := by
  generalize ha : Val.num 1 = a at h
  induction h with
  | @num x y' z h => cases ha; simp [binVal] at h; rw [h]
  | nil => cases ha
  | cons => cases ha
  | nilR => cases ha
  | consR => cases ha
  | nilL => rfl
  | consL _ _ ih1 ih2 =>
    cases ha
    rw [ih1 rfl]
    have := ih2 rfl
    cases this
    rfl

/-- What simplification does to one expression that has a value. -/
def GoodV (ρ : List Char → ℝ) (n : Nat) (e : Expr ℝ) (v : Val) : Prop :=
  simp realOps n e = .diverge ∨ ∃ e', simp realOps n e = .ok e' ∧ EvalV ρ e' v ∧
    ∀ vs, v = .arr vs → ∃ ys, e' = .arr ys

theorem mapRes_goodV {ρ : List Char → ℝ} {n : Nat} {xs : List (Expr ℝ)} {vs : List Val}
    (h : List.Forall₂ (GoodV ρ n) xs vs) :
    mapRes (simp realOps n) xs = .diverge ∨
      ∃ ys, mapRes (simp realOps n) xs = .ok ys ∧ List.Forall₂ (EvalV ρ) ys vs := by
  induction h with
  | nil => exact .inr ⟨[], rfl, .nil⟩
  | cons h _ ih =>
    rcases h with h | ⟨e', h1, h2, -⟩
    · left; simp [mapRes, h]
    · rcases ih with ih | ⟨ys, h3, h4⟩
      · left; simp [mapRes, h1, ih]
      · right
        refine ⟨e' :: ys, ?_, .cons h2 h4⟩
        simp [mapRes, h1, h3]

theorem goodV_num {ρ : List Char → ℝ} (n : Nat) {e : Expr ℝ} {x : ℝ} (h : e.eval ρ = some x) :
    GoodV ρ n e (.num x) := by
  obtain ⟨e', h1, h2⟩ := C09_value ρ e x h
  by_cases hd : simp realOps n e = .diverge
  · exact .inl hd
  · right
    have h3 := h1 (max n e.height) (by omega)
    rw [simp_mono_le realOps e (by omega : n ≤ max n e.height) hd] at h3
    exact ⟨e', h3, .num h2, by simp⟩

theorem isConst_arr {K : Type} [DecidableEq K] (xs : List (Expr K)) (c : Option K) :
    isConst (.arr xs) c = false := by
  simp [isConst]

theorem isConst_eval {ρ : List Char → ℝ} {e : Expr ℝ} {c : Option ℝ} {x : ℝ} (h : e.eval ρ = some x)
    (hc : isConst e c = true) : c = some x := by
  obtain ⟨k, rfl, rfl⟩ := (isConst_iff _ _).1 hc
  simpa [Expr.eval] using h

theorem mulUnits_eval {ρ : List Char → ℝ} {l r : Expr ℝ} {u v : Val} (hl : EvalV ρ l u)
    (hr : EvalV ρ r v) : mulUnits l r = none := mulUnits_tame (evalV_tame hl) (evalV_tame hr)

/-- Two arrays. -/
theorem simpBin_arr_arr {K : Type} [DecidableEq K] (N : NumOps K) (rec : Expr K → Res (Expr K))
    {o : BinOp} (ho : o.arith) (xs ys : List (Expr K)) :
    simpBin N rec o (.arr xs) (.arr ys) = if xs.length = ys.length then
      (do let zs ← mapRes rec (List.zipWith (.bin o) xs ys); .ok (.arr zs)) else .throw := by
  unfold simpBin
  simp only [isConst_arr, Bool.false_eq_true, if_false]
  rcases ho with rfl | rfl | rfl | rfl <;> rfl

/-- An array and something that is not an array. -/
theorem simpBin_arr_other {K : Type} [DecidableEq K] (N : NumOps K) (rec : Expr K → Res (Expr K))
    {o : BinOp} (ho : o.arith) (xs : List (Expr K)) {r : Expr K} (hr : r.scalar = true)
    (hu : ∀ a b, r ≠ .bin .units a b)
    (hz : isConst r (o.rightZero N) = false) (hi : isConst r (o.rightId N) = false) :
    simpBin N rec o (.arr xs) r = .ok (.arr (xs.map fun x => .bin o x r)) := by
  unfold simpBin
  simp only [isConst_arr, hz, hi, Bool.false_eq_true, if_false]
  have hm : mulUnits (.arr xs) r = none := by
    unfold mulUnits
    split <;> first | rfl | (simp_all; done) | (exfalso; simp_all)
  rcases ho with rfl | rfl | rfl | rfl
  all_goals cases r <;> first | (simp [Expr.scalar] at hr; done) | (simp only [ddVisit, hm]; rfl) | rfl

/-- Something that is not an array times an array. -/
theorem simpBin_other_arr {K : Type} [DecidableEq K] (N : NumOps K) (rec : Expr K → Res (Expr K))
    (ys : List (Expr K)) {l : Expr K} (hl : l.scalar = true) (hu : ∀ a b, l ≠ .bin .units a b)
    (hz : isConst l (some N.zero) = false) (hi : isConst l (some N.one) = false) :
    simpBin N rec .mul l (.arr ys) = .ok (.arr (ys.map fun y => .bin .mul l y)) := by
  unfold simpBin
  simp only [isConst_arr, BinOp.leftZero, BinOp.leftId, hz, hi, Bool.false_eq_true, if_false]
  have hm : mulUnits l (.arr ys) = none := by
    unfold mulUnits
    split <;> first | rfl | (simp_all; done) | (exfalso; simp_all)
  cases l <;> first | (simp [Expr.scalar] at hl; done) | (simp only [ddVisit, hm]; rfl)

theorem eval_not_units {ρ : List Char → ℝ} {e : Expr ℝ} {x : ℝ} (h : e.eval ρ = some x) :
    ∀ a b, e ≠ .bin .units a b := by
  rintro a b rfl
  rw [eval_units] at h; simp at h

theorem forall₂_map_bin {ρ : List Char → ℝ} {xs : List (Expr ℝ)} {us ws : List Val} {f : Expr ℝ → Expr ℝ}
    {P : Val → Val → Prop} (hf : ∀ x u w, EvalV ρ x u → P u w → EvalV ρ (f x) w)
    (h1 : List.Forall₂ (EvalV ρ) xs us) (h2 : List.Forall₂ P us ws) :
    List.Forall₂ (EvalV ρ) (xs.map f) ws := by
  induction h1 generalizing ws with
  | nil => cases h2; exact .nil
  | cons h _ ih =>
    cases h2 with
    | cons h3 h4 => exact .cons (hf _ _ _ h h3) (ih h4)

theorem simp_goodV (ρ : List Char → ℝ) : ∀ (n : Nat) (e : Expr ℝ) (v : Val), EvalV ρ e v → GoodV ρ n e v
  | 0, e, v, _ => .inl rfl
  | n + 1, e, .num x, h => goodV_num _ (EvalV.num_iff.1 h)
  | n + 1, .arr xs, .arr vs, h => by
    obtain ⟨vs', hv, hf⟩ := evalV_arr_iff.1 h
    cases hv
    have hg : List.Forall₂ (GoodV ρ n) xs vs := hf.imp fun x v hx => simp_goodV ρ n x v hx
    rcases mapRes_goodV hg with h | ⟨ys, h1, h2⟩
    · left; simp [simp, h]
    · right
      exact ⟨.arr ys, by simp [simp, h1], evalV_arr_iff.2 ⟨vs, rfl, h2⟩, fun _ _ => ⟨ys, rfl⟩⟩
  | n + 1, .const _, .arr vs, h => by cases h
  | n + 1, .var _, .arr vs, h => by cases h
  | n + 1, .un _ _, .arr vs, h => by cases h
  | n + 1, .dict _, .arr vs, h => by cases h
  | n + 1, .bin o l r, .arr ws, h => by
    cases h with
    | @bin _ _ _ u v _ hl hr hop =>
    have ha := op_arr_arith hop
    rcases simp_goodV ρ n l u hl with h1 | ⟨l', h1, hl', al⟩
    · left; simp [simp, h1]
    rcases simp_goodV ρ n r v hr with h2 | ⟨r', h2, hr', ar⟩
    · left; simp [simp, h1, h2]
    have e : simp realOps (n + 1) (.bin o l r) = simpBin realOps (simp realOps n) o l' r' := by
      simp [simp, h1, h2]
    unfold GoodV
    rw [e]
    cases u with
    | num x =>
      cases v with
      | num y => cases hop
      | arr vs =>
        obtain ⟨rfl, hx, ws', hw, hf⟩ := op_num_arr hop
        cases hw
        obtain ⟨ys, rfl⟩ := ar vs rfl
        obtain ⟨vs', hv, hys⟩ := evalV_arr_iff.1 hr'
        cases hv
        have hlx := EvalV.num_iff.1 hl'
        have hz : isConst l' (some realOps.zero) = false := by
          by_contra hc
          have := isConst_eval hlx (by simpa using hc)
          simp [realOps] at this
          exact hx this.symm
        by_cases hi : isConst l' (some realOps.one) = true
        · have := isConst_eval hlx hi
          simp [realOps] at this
          subst this
          have := op_leftId hop
          cases this
          right
          refine ⟨.arr ys, ?_, hr', fun _ _ => ⟨ys, rfl⟩⟩
          unfold simpBin
          simp only [BinOp.leftZero, BinOp.leftId, hz, hi, Bool.false_eq_true, if_false, if_true]
        · right
          refine ⟨_, simpBin_other_arr realOps _ ys (eval_some_scalar hlx) (eval_not_units hlx) hz
            (by simpa using hi), ?_, fun _ _ => ⟨_, rfl⟩⟩
          refine evalV_arr_iff.2 ⟨ws, rfl, ?_⟩
          exact forall₂_map_bin (fun x u w hx hp => .bin hl' hx hp) hys hf
    | arr us =>
      obtain ⟨xs, rfl⟩ := al us rfl
      obtain ⟨us', hu, hxs⟩ := evalV_arr_iff.1 hl'
      cases hu
      cases v with
      | num y =>
        obtain ⟨hy, ws', hw, hf⟩ := op_arr_num hop
        cases hw
        have hry := EvalV.num_iff.1 hr'
        have hz : isConst r' (o.rightZero realOps) = false := by
          by_contra hc
          have := isConst_eval hry (by simpa using hc)
          cases o <;> simp [BinOp.rightZero, realOps] at this
          exact hy rfl this.symm
        by_cases hi : isConst r' (o.rightId realOps) = true
        · have := isConst_eval hry hi
          have := op_rightId this hop
          cases this
          right
          refine ⟨.arr xs, ?_, hl', fun _ _ => ⟨xs, rfl⟩⟩
          unfold simpBin
          simp only [isConst_arr, hz, hi, Bool.false_eq_true, if_false, if_true]
        · right
          refine ⟨_, simpBin_arr_other realOps _ ha xs (eval_some_scalar hry) (eval_not_units hry) hz
            (by simpa using hi), ?_, fun _ _ => ⟨_, rfl⟩⟩
          refine evalV_arr_iff.2 ⟨ws, rfl, ?_⟩
          exact forall₂_map_bin (fun x u w hx hp => .bin hx hr' hp) hxs hf
      | arr vs =>
        obtain ⟨ys, rfl⟩ := ar vs rfl
        obtain ⟨vs', hv, hys⟩ := evalV_arr_iff.1 hr'
        cases hv
        obtain ⟨hlen, ws', hw, hlw, hf⟩ := op_arr_arr hop
        cases hw
        rw [simpBin_arr_arr realOps _ ha, if_pos (by rw [hxs.length_eq, hys.length_eq, hlen])]
        have hz : List.Forall₂ (GoodV ρ n) (List.zipWith (.bin o) xs ys) ws := by
          rw [List.forall₂_iff_get]
          have l1 := hxs.length_eq
          have l2 := hys.length_eq
          refine ⟨by simp; omega, fun i h1 h2 => ?_⟩
          simp at h1
          apply simp_goodV ρ n
          simp only [List.get_eq_getElem, List.getElem_zipWith]
          exact .bin (hxs.get (by omega) (by omega)) (hys.get (by omega) (by omega))
            (hf i (by omega) (by omega) (by omega))
        rcases mapRes_goodV hz with h | ⟨zs, h3, h4⟩
        · left; simp [h]
        · right
          exact ⟨.arr zs, by simp [h3], evalV_arr_iff.2 ⟨ws, rfl, h4⟩, fun _ _ => ⟨zs, rfl⟩⟩

/-- **C09**, with arrays. If an expression built from numbers, variables, functions, arithmetic and
(nested) arrays has a value, `simplify` returns an expression with the same value, within a recursion
depth given by the weight of the expression. -/
theorem C09_array_value (ρ : List Char → ℝ) (e : Expr ℝ) (v : Val) (h : EvalV ρ e v) :
    ∃ e', (∀ n, e.weight ≤ n → simp realOps n e = .ok e') ∧ EvalV ρ e' v := by
  have hg := simp_good realOps e.weight e (evalV_tame h) le_rfl
  rcases simp_goodV ρ e.weight e v h with hd | ⟨e', h1, h2, -⟩
  · exact absurd hd hg.1
  · refine ⟨e', fun n hn => ?_, h2⟩
    rw [simp_mono_le realOps e hn hg.1, h1]

/-- **C46**. The value of an array-valued expression is reached: `simplify` returns an array literal,
one expression per element. -/
theorem C46_literal (ρ : List Char → ℝ) (e : Expr ℝ) (vs : List Val) (h : EvalV ρ e (.arr vs)) :
    ∃ ys, (∀ n, e.weight ≤ n → simp realOps n e = .ok (.arr ys)) ∧ List.Forall₂ (EvalV ρ) ys vs := by
  obtain ⟨e', h1, h2⟩ := C09_array_value ρ e _ h
  rcases simp_goodV ρ e.weight e _ h with hd | ⟨e'', h3, h4, h5⟩
  · rw [h1 _ le_rfl] at hd; simp at hd
  · rw [h1 _ le_rfl] at h3
    simp at h3; subst h3
    obtain ⟨ys, rfl⟩ := h5 vs rfl
    obtain ⟨vs', hv, hf⟩ := evalV_arr_iff.1 h2
    cases hv
    exact ⟨ys, h1, hf⟩

/-- The value of an expression is unique. -/
theorem C46_unique {ρ : List Char → ℝ} {e : Expr ℝ} {v w : Val} (hv : EvalV ρ e v) (hw : EvalV ρ e w) :
    v = w := by
  have opu : ∀ (o : BinOp) (a b c : Val), a.Op o b c → ∀ d, a.Op o b d → c = d := by
    intro o a b c h
    induction h with
    | num h => intro d hd; cases hd with | num h' => rw [h] at h'; simp at h'; rw [h']
    | nil => intro d hd; cases hd; rfl
    | cons _ _ ih1 ih2 =>
      intro d hd
      cases hd with
      | cons h1 h2 => have := ih2 _ h2; cases this; rw [ih1 _ h1]
    | nilR => intro d hd; cases hd; rfl
    | consR _ _ ih1 ih2 =>
      intro d hd
      cases hd with
      | consR h1 h2 => have := ih2 _ h2; cases this; rw [ih1 _ h1]
    | nilL => intro d hd; cases hd; rfl
    | consL _ _ ih1 ih2 =>
      intro d hd
      cases hd with
      | consL h1 h2 => have := ih2 _ h2; cases this; rw [ih1 _ h1]
  induction hv generalizing w with
  | @num e x h =>
    cases w with
    | num y => have := EvalV.num_iff.1 hw; rw [h] at this; simp at this; rw [this]
    | arr ws =>
      exfalso
      clear opu
      generalize hv : Val.arr ws = v at hw
      induction hw generalizing x ws with
      | num => cases hv
      | nil => simp [Expr.eval] at h
      | cons => simp [Expr.eval] at h
      | bin hl hr hop ih1 ih2 =>
        subst hv
        obtain ⟨a, b, h1, h2, -⟩ := (eval_bin _ _ _ _ _).1 h
        cases hop with
        | nil => exact ih1 h1 _ rfl
        | cons => exact ih1 h1 _ rfl
        | nilR => exact ih1 h1 _ rfl
        | consR => exact ih1 h1 _ rfl
        | nilL => exact ih2 h2 _ rfl
        | consL => exact ih2 h2 _ rfl
  | nil =>
    obtain ⟨vs, rfl, h⟩ := evalV_arr_iff.1 hw
    cases h; rfl
  | cons _ _ ih1 ih2 =>
    obtain ⟨vs, rfl, h⟩ := evalV_arr_iff.1 hw
    cases h with
    | cons h1 h2 =>
      rw [ih1 h1]
      have := ih2 (evalV_arr_iff.2 ⟨_, rfl, h2⟩)
      cases this; rfl
  | bin hl hr hop ih1 ih2 =>
    cases hw with
    | num h =>
      obtain ⟨a, b, h1, h2, h3⟩ := (eval_bin _ _ _ _ _).1 h
      have := ih1 (.num h1); subst this
      have := ih2 (.num h2); subst this
      exact opu _ _ _ _ hop _ (.num h3)
    | bin hl' hr' hop' =>
      have := ih1 hl'; subst this
      have := ih2 hr'; subst this
      exact opu _ _ _ _ hop _ hop'

/-- **C46**. Arithmetic on two arrays of different lengths throws (whatever their elements are, and
whatever the number type, as long as simplification of the operands terminates). -/
theorem C46_mismatch {K : Type} [DecidableEq K] (N : NumOps K) {o : BinOp} (ho : o.arith)
    (xs ys : List (Expr K)) (hx : (Expr.arr xs).tame = true) (hy : (Expr.arr ys).tame = true)
    (hlen : xs.length ≠ ys.length) (n : Nat) (hn : (Expr.bin o (.arr xs) (.arr ys)).weight ≤ n) :
    simp N n (.bin o (.arr xs) (.arr ys)) = .throw := by
  obtain ⟨m, rfl⟩ : ∃ m, n = m + 1 := ⟨n - 1, by simp [Expr.weight] at hn; omega⟩
  simp only [Expr.weight] at hn
  have h1 := simp_good N m (.arr xs) hx (by simp only [Expr.weight]; omega)
  have h2 := simp_good N m (.arr ys) hy (by simp only [Expr.weight]; omega)
  have key : ∀ zs : List (Expr K), simp N m (.arr zs) ≠ .diverge → simp N m (.arr zs) = .throw ∨
      ∃ zs', simp N m (.arr zs) = .ok (.arr zs') ∧ zs.length = zs'.length := by
    intro zs hd
    cases m with
    | zero => simp [simp] at hd
    | succ m =>
      simp only [simp] at hd ⊢
      cases hm : mapRes (simp N m) zs with
      | ok zs' => right; exact ⟨zs', by simp, (mapRes_ok hm).length_eq⟩
      | throw => left; rfl
      | diverge => rw [hm] at hd; simp at hd
  rw [simp]
  rcases key xs h1.1 with h | ⟨xs', h3, h4⟩
  · rw [h]; rfl
  · rcases key ys h2.1 with h | ⟨ys', h5, h6⟩
    · rw [h3, h]; rfl
    · rw [h3, h5, Res.ok_bind, Res.ok_bind, simpBin_arr_arr N _ ho, if_neg (by omega)]

/-- **C46**, the failing half: the element-wise rules depend on the form of the operand. A negated
array, or the sum of a scalar and an array, stays symbolic, and the product of an array with it is a
table of products of elements and *whole arrays*. -/
theorem C46_symbolic_operand_fails {K : Type} [DecidableEq K] (N : NumOps K) (a b c d : List Char) (n : Nat) :
    simp N (n + 4) (.bin .mul (.arr [.var a, .var b]) (.un .neg (.arr [.var c, .var d]))) =
      .ok (.arr [.bin .mul (.var a) (.un .neg (.arr [.var c, .var d])),
        .bin .mul (.var b) (.un .neg (.arr [.var c, .var d]))]) ∧
    simp N (n + 4) (.bin .mul (.arr [.var a, .var b]) (.bin .add (.var a) (.arr [.var c, .var d]))) =
      .ok (.arr [.bin .mul (.var a) (.bin .add (.var a) (.arr [.var c, .var d])),
        .bin .mul (.var b) (.bin .add (.var a) (.arr [.var c, .var d]))]) := by
  constructor <;>
  simp [simp, mapRes, simpBin, isConst, BinOp.leftZero, BinOp.leftId, BinOp.rightZero,
    BinOp.rightId, ddVisit, mulUnits, elemOp, foldUn]

/-- `[x, [1, 2]] * [3, [x, x]] - 1` at `x = 5` is `[14, [4, 9]]` -/
example : EvalV (fun _ => 5)
    (.bin .sub (.bin .mul (.arr [.var ['x'], .arr [.const 1, .const 2]])
      (.arr [.const 3, .arr [.var ['x'], .var ['x']]])) (.const 1))
    (.arr [.num 14, .arr [.num 4, .num 9]]) := by
  refine .bin (u := .arr [.num 15, .arr [.num 5, .num 10]]) (v := .num 1) ?_ (.num rfl) ?_
  · refine .bin (u := .arr [.num 5, .arr [.num 1, .num 2]]) (v := .arr [.num 3, .arr [.num 5, .num 5]])
      ?_ ?_ ?_
    · exact .cons (.num rfl) (.cons (.cons (.num rfl) (.cons (.num rfl) .nil)) .nil)
    · exact .cons (.num rfl) (.cons (.cons (.num rfl) (.cons (.num rfl) .nil)) .nil)
    · have ar : BinOp.mul.arith := .inr (.inr (.inl rfl))
      refine .cons (.num ?_) (.cons (.cons (.num ?_) (.cons (.num ?_) (.nil ar))) (.nil ar)) <;>
        (simp [binVal]; try norm_num)
  · have ar : BinOp.sub.arith := .inr (.inl rfl)
    refine .consR (.num ?_) (.consR (.consR (.num ?_) (.consR (.num ?_) (.nilR ar ?_))) (.nilR ar ?_)) <;>
      (simp [binVal]; try norm_num)

/-- `[x] + [y, z]` throws -/
example : simp realOps 10 (.bin .add (.arr [.var ['x']]) (.arr [.var ['y'], .var ['z']])) = .throw :=
  C46_mismatch realOps (.inl rfl) _ _ (by simp [Expr.tame, tameList]) (by simp [Expr.tame, tameList])
    (by simp) _ (by simp [Expr.weight, weightList])

end Stator
