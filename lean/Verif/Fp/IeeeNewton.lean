import Verif.Fp.IeeeBisect
import Verif.Fp.Newton

/-!
# C93: Newton-Raphson and Halley on the whole of `double`

`Fp/Newton` has exponents without a bound and a function that always returns numbers. Here the methods run on the data type of IEEE
754: the function may return NaN and infinities, quotients and midpoints overflow.
-/

namespace Stator.Fp

open Stator Ieee Num

variable {φ : Format} {M : ℝ}

/-- The objective function: `f x 0` is the value, `f x 1`, `f x 2` the derivatives. -/
abbrev ObjI (φ : Format) (M : ℝ) := Ieee φ M → ℕ → Ieee φ M

/-- The variables the step functions change through references. -/
structure StI (φ : Format) (M : ℝ) where
  x : Ieee φ M
  lo : Ieee φ M
  hi : Ieee φ M
  st : ℕ → Ieee φ M

/-- Zero, of either sign. -/
def Ieee.IsZ (c : Ieee φ M) : Prop := c = .zero true ∨ c = .zero false

open Classical in
/-- models: stator/symbolic/numeric.hpp:33-80 `process_iterative_step`. -/
noncomputable def processStepI (f : ObjI φ M) (prec : Ieee φ M) (s : StI φ M) (newX : Ieee φ M) : ℕ × StI φ M :=
  if ge newX s.hi ∨ ge s.lo newX then (0, s)
  else
    let ns := f newX
    let delta := newX.sub s.x
    if lt delta.abs (prec.mul newX).abs ∨ (ns 0).eq (.zero false) = true then (2, { s with x := newX, st := ns })
    else if lt (s.st 0).abs (ns 0).abs then (0, s)
    else (1, { x := newX, st := ns,
               lo := if ge delta (.zero false) then s.x else s.lo,
               hi := if ge (.zero false) delta then s.x else s.hi })

/-- models: stator/symbolic/numeric.hpp:85-98 `newton_raphson_step`. -/
noncomputable def newtonStepI (f : ObjI φ M) (prec : Ieee φ M) (s : StI φ M) : ℕ × StI φ M :=
  if (s.st 1).eq (.zero false) = true then (0, s)
  else processStepI f prec s (s.x.sub ((s.st 0).div (s.st 1)))

open Classical in
/-- models: stator/symbolic/numeric.hpp:102-132 `halley_step`. The sign bit of a NaN is `ns`. -/
noncomputable def halleyStepI (h2 : 2 ≤ M) (ns : Bool) (f : ObjI φ M) (prec : Ieee φ M) (s : StI φ M) : ℕ × StI φ M :=
  let numerator := ((two h2).mul (s.st 0)).mul (s.st 1)
  let denominator := (((two h2).mul (s.st 1)).mul (s.st 1)).sub ((s.st 0).mul (s.st 2))
  if denominator.eq (.zero false) = true ∨ denominator = .nan ∨ denominator.isInf then (0, s)
  else
    let delta := numerator.neg.div denominator
    let deltaNR := (s.st 0).neg.div (s.st 1)
    if bit ns delta ≠ bit ns deltaNR then (0, s)
    else processStepI f prec s (s.x.add delta)

open Classical in
/-- models: stator/symbolic/numeric.hpp:149-200 `bisection_step`. -/
noncomputable def bisectStepI (h2 : 2 ≤ M) (ns : Bool) (f : ObjI φ M) (prec : Ieee φ M) (s : StI φ M) : ℕ × StI φ M :=
  if ge s.lo s.hi ∨ s.lo.isInf ∨ s.hi.isInf then (0, s)
  else if bit ns (f s.lo 0) = bit ns (f s.hi 0) then (0, s)
  else
    let mid := (s.lo.add s.hi).div (two h2)
    let st := f mid
    let delta := mid.sub s.x
    if lt delta.abs (prec.mul mid).abs ∨ (st 0).eq (.zero false) = true ∨ mid.eq s.lo = true ∨ mid.eq s.hi = true then
      (2, { s with x := mid, st := st })
    else if bit ns (st 0) = bit ns (f s.hi 0) then (1, { s with x := mid, st := st, hi := mid })
    else (1, { s with x := mid, st := st, lo := mid })

/-- models: stator/symbolic/numeric.hpp:222-230 and 256-267: try one method, and the next one if it fails. -/
def orElseI (a b : StI φ M → ℕ × StI φ M) (s : StI φ M) : ℕ × StI φ M :=
  let r := a s
  if r.1 = 0 then b r.2 else r

/-- models: stator/symbolic/numeric.hpp:222-230 `while ((--iterations) && (status != 2))`; the first argument is the number of steps
still allowed. -/
def iterateI (step : StI φ M → ℕ × StI φ M) : ℕ → ℕ → StI φ M → ℕ × StI φ M
  | 0, status, s => (status, s)
  | n + 1, status, s =>
    if status = 2 then (status, s)
    else
      let r := step s
      if r.1 = 0 then (0, r.2) else iterateI step n r.1 r.2

open Classical in
/-- Common shape of models: stator/symbolic/numeric.hpp:207-233 and 240-270. The result is the return value and the final `x`. -/
noncomputable def solveWithI (step : StI φ M → ℕ × StI φ M) (f : ObjI φ M) (maxSize : ℕ) (x lo hi : Ieee φ M)
    (iterations : ℕ) : Bool × Ieee φ M :=
  if (f x 0).eq (.zero false) = true then (true, x)
  else
    let r := iterateI step (iters maxSize iterations - 1) 1 ⟨x, lo, hi, f x⟩
    (decide (r.1 = 2), r.2.x)

/-- models: stator/symbolic/numeric.hpp:222-230, one turn of the loop of `newton_raphson`. -/
noncomputable def newtonTurnI (h2 : 2 ≤ M) (ns : Bool) (f : ObjI φ M) (prec : Ieee φ M) : StI φ M → ℕ × StI φ M :=
  orElseI (newtonStepI f prec) (bisectStepI h2 ns f prec)

/-- models: stator/symbolic/numeric.hpp:256-267, one turn of the loop of `halleys_method`. -/
noncomputable def halleyTurnI (h2 : 2 ≤ M) (ns : Bool) (f : ObjI φ M) (prec : Ieee φ M) : StI φ M → ℕ × StI φ M :=
  orElseI (halleyStepI h2 ns f prec) (newtonTurnI h2 ns f prec)

/-- models: stator/symbolic/numeric.hpp:207-233 `newton_raphson`. -/
noncomputable def newtonI (h2 : 2 ≤ M) (ns : Bool) (f : ObjI φ M) (maxSize : ℕ) (prec x lo hi : Ieee φ M) (iterations : ℕ) :
    Bool × Ieee φ M :=
  solveWithI (newtonTurnI h2 ns f prec) f maxSize x lo hi iterations

/-- models: stator/symbolic/numeric.hpp:240-270 `halleys_method`. -/
noncomputable def halleyI (h2 : 2 ≤ M) (ns : Bool) (f : ObjI φ M) (maxSize : ℕ) (prec x lo hi : Ieee φ M) (iterations : ℕ) :
    Bool × Ieee φ M :=
  solveWithI (halleyTurnI h2 ns f prec) f maxSize x lo hi iterations

/-! ## Specification -/

/-- `x'` is the Newton-Raphson iterate of `y`. -/
def IsNewtonI (f : ObjI φ M) (y x' : Ieee φ M) : Prop := ¬ (f y 1).IsZ ∧ x' = y.sub ((f y 0).div (f y 1))

/-- `x'` is the Halley iterate of `y`. -/
def IsHalleyI (h2 : 2 ≤ M) (f : ObjI φ M) (y x' : Ieee φ M) : Prop :=
  x' = y.add ((((two h2).mul (f y 0)).mul (f y 1)).neg.div
    ((((two h2).mul (f y 1)).mul (f y 1)).sub ((f y 0).mul (f y 2))))

/-- A number of the interval. -/
def Within (lo hi x : Ieee φ M) : Prop := (∃ w, x.IsNum w) ∧ ge x lo ∧ ge hi x

/-- Why success may be reported at `x'`: the function is zero there; `x'` is one of two adjacent numbers at which the function has
different signs; or the last step, a step of the method or a step to the middle of an interval with a change of sign, came from a
number `y` of the interval and was shorter than the precision. -/
def FoundN (h2 : 2 ≤ M) (ns : Bool) (f : ObjI φ M) (prec lo hi : Ieee φ M) (cand : Ieee φ M → Ieee φ M → Prop) (x' : Ieee φ M) :
    Prop :=
  (f x' 0).IsZ ∨
  (∃ a b u v, a.IsNum u ∧ b.IsNum v ∧ Adjacent φ u v ∧ bit ns (f a 0) ≠ bit ns (f b 0) ∧ (x'.IsNum u ∨ x'.IsNum v)) ∨
  ∃ y, Within lo hi y ∧ lt (x'.sub y).abs (prec.mul x').abs ∧ (cand y x' ∨
    ∃ l h, Within lo hi l ∧ Within lo hi h ∧ lt l h ∧ bit ns (f l 0) ≠ bit ns (f h 0) ∧ x' = (l.add h).div (two h2))

/-! ## Comparisons -/

theorem toE_none {c : Ieee φ M} : c.toE = none ↔ c = .nan := by
  rcases c with _ | (_ | _) | _ | _ <;> simp [Ieee.toE]

theorem toE_some {c : Ieee φ M} (h : c ≠ .nan) : ∃ a, c.toE = some a := by
  cases hc : c.toE with
  | none => exact absurd (toE_none.1 hc) h
  | some a => exact ⟨a, rfl⟩

theorem ge_trans' {a b c : Ieee φ M} (h1 : ge a b) (h2 : ge b c) : ge a c := by
  obtain ⟨u, v, e1, e2, h⟩ := h1
  obtain ⟨v', w, e2', e3, h'⟩ := h2
  rw [e2] at e2'
  cases e2'
  exact ⟨u, w, e1, e3, h'.trans h⟩

theorem ge_rfl {a : Ieee φ M} (h : a ≠ .nan) : ge a a := by
  obtain ⟨u, e⟩ := toE_some h
  exact ⟨u, u, e, e, le_rfl⟩

theorem lt_of_not_ge' {a b : Ieee φ M} (ha : a ≠ .nan) (hb : b ≠ .nan) (h : ¬ ge a b) : lt a b := by
  obtain ⟨u, eu⟩ := toE_some ha
  obtain ⟨v, ev⟩ := toE_some hb
  exact ⟨u, v, eu, ev, not_le.1 fun h' => h ⟨u, v, eu, ev, h'⟩⟩

theorem ge_of_lt' {a b : Ieee φ M} (h : lt a b) : ge b a := by
  obtain ⟨u, v, e1, e2, h⟩ := h
  exact ⟨v, u, e2, e1, h.le⟩

theorem num_of_between {a b c : Ieee φ M} (h1 : lt a b) (h2 : lt b c) : ∃ w, b.IsNum w := by
  obtain ⟨u, v, e1, e2, h⟩ := h1
  obtain ⟨v', w, e2', e3, h'⟩ := h2
  rcases b with _ | (_ | _) | _ | ⟨b, _, _, _⟩ <;> simp only [Ieee.toE, reduceCtorEq, Option.some.injEq] at e2 e2'
  · subst e2'; exact absurd h' not_top_lt
  · subst e2; exact absurd h not_lt_bot
  · exact ⟨0, rfl⟩
  · exact ⟨b, rfl⟩

theorem num_of_not_inf {a : Ieee φ M} (h1 : a ≠ .nan) (h2 : ¬ a.isInf) : ∃ w, a.IsNum w := by
  rcases a with _ | b | _ | ⟨b, _, _, _⟩
  · exact absurd rfl h1
  · exact absurd ⟨b, rfl⟩ h2
  · exact ⟨0, rfl⟩
  · exact ⟨b, rfl⟩

theorem ge_ne_nan {a b : Ieee φ M} (h : ge a b) : a ≠ .nan ∧ b ≠ .nan := by
  obtain ⟨u, v, e1, e2, -⟩ := h
  exact ⟨(by rintro rfl; cases e1), (by rintro rfl; cases e2)⟩

theorem nan_lt (b : Ieee φ M) : ¬ lt .nan b := by
  rintro ⟨u, v, e1, e2, h⟩
  cases e1

theorem nan_abs : (Ieee.nan : Ieee φ M).abs = .nan := rfl

theorem add_nan' (x : Ieee φ M) : x.add .nan = .nan := by rcases x with _ | _ | _ | _ <;> rfl

theorem sub_nan' (x : Ieee φ M) : x.sub .nan = .nan := add_nan' x

theorem nan_sub (x : Ieee φ M) : (Ieee.nan : Ieee φ M).sub x = .nan := rfl

theorem nan_add (x : Ieee φ M) : (Ieee.nan : Ieee φ M).add x = .nan := rfl

/-- An infinity plus anything is that infinity or NaN. -/
theorem inf_add (s : Bool) (y : Ieee φ M) : (Ieee.inf s).add y = .inf s ∨ (Ieee.inf s).add y = .nan := by
  rcases y with _ | b | _ | _
  · exact .inr rfl
  · by_cases h : s = b <;> simp [Ieee.add, h]
  · exact .inl rfl
  · exact .inl rfl

theorem inf_sub_num {x : Ieee φ M} {a : ℝ} (hx : x.IsNum a) (s : Bool) : (Ieee.inf s : Ieee φ M).sub x = .inf s := by
  rcases x with _ | _ | _ | _ <;> simp only [IsNum] at hx <;> simp [Ieee.sub, Ieee.neg, Ieee.add]

theorem inf_ne_num {x : Ieee φ M} {a : ℝ} (hx : x.IsNum a) (s : Bool) : (Ieee.inf s : Ieee φ M).eq x = false := by
  rcases x with _ | _ | _ | _ <;> simp only [IsNum] at hx <;> simp [Ieee.eq]

theorem Ieee.IsNum.le (h0 : 0 ≤ M) {c : Ieee φ M} {x : ℝ} (h : c.IsNum x) : |x| ≤ M := by
  rcases c with _ | _ | _ | ⟨y, _, _, hy⟩ <;> simp only [IsNum] at h
  · subst h; rwa [abs_zero]
  · subst h; exact hy

theorem num_add_ne_nan {a b : Ieee φ M} {u v : ℝ} (h : a.IsNum u) (h' : b.IsNum v) : a.add b ≠ .nan := by
  rcases a with _ | _ | _ | _ <;> simp only [IsNum] at h <;> rcases b with _ | _ | _ | _ <;> simp only [IsNum] at h' <;>
    simp [Ieee.add, pack_ne_nan]

/-- The sum of two numbers is the rounded sum or infinite. -/
theorem num_add (hM0 : 0 ≤ M) {a b : Ieee φ M} {u v : ℝ} (h : a.IsNum u) (h' : b.IsNum v) :
    (a.add b).IsNum (φ.rnd (u + v)) ∨ ∃ s, a.add b = .inf s := by
  by_cases hi : (a.add b).isInf
  · exact .inr hi
  left
  have hnn := num_add_ne_nan h h'
  obtain ⟨w, hw⟩ := num_of_not_inf hnn hi
  have := (C91_add hM0 a b).2 _ _ h.toE h'.toE hnn
  rw [hw.toE] at this
  have this := Option.some.inj this
  have e : roundE φ M (((u : ℝ) : EReal) + v) = if |φ.rnd (u + v)| ≤ M then (φ.rnd (u + v) : EReal) else if u + v < 0 then ⊥ else ⊤ := rfl
  rw [e] at this
  split at this
  · rwa [← EReal.coe_eq_coe_iff.1 this]
  · split at this
    · exact absurd this (EReal.coe_ne_bot w)
    · exact absurd this (EReal.coe_ne_top w)

/-- The midpoint of two numbers is the rounded midpoint or infinite. -/
theorem mid_cases (h2 : 2 ≤ M) {a b : Ieee φ M} {u v : ℝ} (h : a.IsNum u) (h' : b.IsNum v) (hlt : u < v) :
    ((a.add b).div (two h2)).IsNum (φ.rnd (φ.rnd (u + v) / 2)) ∨ ∃ s, (a.add b).div (two h2) = .inf s := by
  rcases num_add (by linarith) h h' with hs | ⟨s, hs⟩
  · left
    have hb := mid_between φ h.mem h'.mem hlt
    have bu : |u| ≤ M := h.le (by linarith)
    have bv : |v| ≤ M := h'.le (by linarith)
    rw [abs_le] at bu bv
    exact hs.div (two_num h2) two_ne_zero (abs_le.2 ⟨by linarith, by linarith⟩)
  · exact .inr ⟨s, by rw [hs, inf_half]⟩

/-! ## Soundness -/

/-- The states the loop reaches. Either all is well, or the midpoint has overflowed: then nothing more can be found. -/
structure OkI (f : ObjI φ M) (lo hi : Ieee φ M) (s : StI φ M) : Prop where
  st : s.st = f s.x
  x : s.x = .nan ∨ Within lo hi s.x
  lo_le : ge s.lo lo
  hi_le : ge hi s.hi

def Dead (s : StI φ M) : Prop :=
  ∃ b, (s.lo = .inf b ∨ s.hi = .inf b) ∧ (s.x = .inf b ∨ s.x = .nan)

def GoodI (h2 : 2 ≤ M) (ns : Bool) (f : ObjI φ M) (prec lo hi : Ieee φ M) (cand : Ieee φ M → Ieee φ M → Prop)
    (r : ℕ × StI φ M) : Prop :=
  (r.1 = 0 ∨ r.1 = 1) ∧ (OkI f lo hi r.2 ∨ Dead r.2) ∨
  r.1 = 2 ∧ (Within lo hi r.2.x ∧ FoundN h2 ns f prec lo hi cand r.2.x ∨ r.2.x.isInf ∧ (f r.2.x 0).IsZ)

open Classical in
theorem processStepI_nan {f : ObjI φ M} (hf : ¬ (f .nan 0).IsZ) (prec : Ieee φ M) (s : StI φ M) :
    processStepI f prec s .nan = if lt (s.st 0).abs (f .nan 0).abs then (0, s) else (1, { s with x := .nan, st := f .nan }) := by
  unfold processStepI
  rw [if_neg]
  · dsimp only
    rw [if_neg]
    · rw [if_neg (c := ge ((Ieee.nan : Ieee φ M).sub s.x) (.zero false)) (fun h => (ge_ne_nan h).1 rfl),
        if_neg (c := ge (.zero false) ((Ieee.nan : Ieee φ M).sub s.x)) (fun h => (ge_ne_nan h).2 rfl)]
    · rintro (h | h)
      · exact nan_lt _ h
      · exact hf ((eq_zero_iff _).1 h)
  · rintro (h | h)
    · exact (ge_ne_nan h).1 rfl
    · exact (ge_ne_nan h).2 rfl

theorem processStepI_good {h2 : 2 ≤ M} {ns : Bool} {f : ObjI φ M} (hf : ¬ (f .nan 0).IsZ) {prec lo hi : Ieee φ M}
    {cand : Ieee φ M → Ieee φ M → Prop} {s : StI φ M} (hs : OkI f lo hi s) (newX : Ieee φ M)
    (hc : cand s.x newX) : GoodI h2 ns f prec lo hi cand (processStepI f prec s newX) := by
  by_cases hn : newX = .nan
  · subst hn
    rw [processStepI_nan hf]
    split
    · exact .inl ⟨.inl rfl, .inl hs⟩
    · exact .inl ⟨.inr rfl, .inl ⟨rfl, .inl rfl, hs.lo_le, hs.hi_le⟩⟩
  unfold processStepI
  split
  · exact .inl ⟨.inl rfl, .inl hs⟩
  next hb =>
  rw [not_or] at hb
  · have h1 := lt_of_not_ge' hn (ge_ne_nan hs.hi_le).2 hb.1
    have h3 := lt_of_not_ge' (ge_ne_nan hs.lo_le).1 hn hb.2
    have hw : Within lo hi newX := ⟨num_of_between h3 h1, ge_trans' (ge_of_lt' h3) hs.lo_le, ge_trans' hs.hi_le (ge_of_lt' h1)⟩
    simp only
    have hx : newX.sub s.x ≠ .nan → Within lo hi s.x := fun h => by
      rcases hs.x with h' | h'
      · rw [h', sub_nan'] at h; exact absurd rfl h
      · exact h'
    split
    · next hcv =>
      refine .inr ⟨rfl, .inl ⟨hw, ?_⟩⟩
      rcases hcv with h | h
      · refine .inr (.inr ⟨s.x, hx fun e => ?_, h, .inl hc⟩)
        rw [e] at h
        exact nan_lt _ h
      · exact .inl ((eq_zero_iff _).1 h)
    · split
      · exact .inl ⟨.inl rfl, .inl hs⟩
      · refine .inl ⟨.inr rfl, .inl ⟨rfl, .inr hw, ?_, ?_⟩⟩
        · dsimp only
          split
          · next h => exact (hx (ge_ne_nan h).1).2.1
          · exact hs.lo_le
        · dsimp only
          split
          · next h => exact (hx (ge_ne_nan h).2).2.2
          · exact hs.hi_le

/-- After an overflow nothing more is found. -/
theorem processStepI_dead {h2 : 2 ≤ M} {ns : Bool} {f : ObjI φ M} (hf : ¬ (f .nan 0).IsZ) {prec lo hi : Ieee φ M}
    {cand : Ieee φ M → Ieee φ M → Prop} {s : StI φ M} (hs : Dead s) (y : Ieee φ M) :
    GoodI h2 ns f prec lo hi cand (processStepI f prec s (s.x.add y)) := by
  obtain ⟨b, hb, hx⟩ := id hs
  have hnew : s.x.add y = .inf b ∨ s.x.add y = .nan := by
    rcases hx with h | h
    · rw [h]; exact inf_add b y
    · rw [h]; exact .inr rfl
  rcases hnew with h | h
  · unfold processStepI
    rw [if_pos]
    · exact .inl ⟨.inl rfl, .inr hs⟩
    · rw [h]
      rcases hb with e | e
      · right; rw [e]; exact ge_rfl (by simp)
      · left; rw [e]; exact ge_rfl (by simp)
  · rw [h, processStepI_nan hf]
    split
    · exact .inl ⟨.inl rfl, .inr hs⟩
    · exact .inl ⟨.inr rfl, .inr ⟨b, hb, .inr rfl⟩⟩

theorem bisectStepI_good {h2 : 2 ≤ M} {ns : Bool} {f : ObjI φ M} {prec lo hi : Ieee φ M}
    {cand : Ieee φ M → Ieee φ M → Prop} {s : StI φ M} (hs : OkI f lo hi s ∨ Dead s) :
    GoodI h2 ns f prec lo hi cand (bisectStepI h2 ns f prec s) := by
  unfold bisectStepI
  split
  · exact .inl ⟨.inl rfl, hs⟩
  next hb =>
  rcases hs with hs | ⟨b, hs, -⟩
  swap
  · exact absurd (by
      rcases hs with h | h
      · exact .inr (.inl ⟨b, h⟩)
      · exact .inr (.inr ⟨b, h⟩)) hb
  rw [not_or, not_or] at hb
  obtain ⟨hlt, i1, i2⟩ := hb
  obtain ⟨l, hl⟩ := num_of_not_inf (ge_ne_nan hs.lo_le).1 i1
  obtain ⟨h, hh⟩ := num_of_not_inf (ge_ne_nan hs.hi_le).2 i2
  have hlt := lt_of_not_ge' (ge_ne_nan hs.lo_le).1 (ge_ne_nan hs.hi_le).2 hlt
  have hlh : l < h := by
    obtain ⟨u, v, e1, e2, h'⟩ := hlt
    rw [hl.toE] at e1
    rw [hh.toE] at e2
    cases e1; cases e2
    exact EReal.coe_lt_coe_iff.1 h'
  have wl : Within lo hi s.lo := ⟨⟨l, hl⟩, hs.lo_le, ge_trans' hs.hi_le (ge_of_lt' hlt)⟩
  have wh : Within lo hi s.hi := ⟨⟨h, hh⟩, ge_trans' (ge_of_lt' hlt) hs.lo_le, hs.hi_le⟩
  split
  · exact .inl ⟨.inl rfl, .inl hs⟩
  next hsg =>
  simp only
  rcases mid_cases h2 hl hh hlh with hm | ⟨b, hm⟩
  · have hbt := mid_between φ hl.mem hh.mem hlh
    have hstrict := fun m hm h1 h2 => mid_strict φ (m := m) hl.mem hh.mem hm h1 h2
    generalize φ.rnd (φ.rnd (l + h) / 2) = w at *
    have g1 : ge ((s.lo.add s.hi).div (two h2)) s.lo := ⟨_, _, hm.toE, hl.toE, EReal.coe_le_coe_iff.2 hbt.1⟩
    have g2 : ge s.hi ((s.lo.add s.hi).div (two h2)) := ⟨_, _, hh.toE, hm.toE, EReal.coe_le_coe_iff.2 hbt.2⟩
    have hw : Within lo hi ((s.lo.add s.hi).div (two h2)) := ⟨⟨w, hm⟩, ge_trans' g1 hs.lo_le, ge_trans' hs.hi_le g2⟩
    split
    · next hcv =>
      refine .inr ⟨rfl, .inl ⟨hw, ?_⟩⟩
      rcases hcv with h' | h' | h' | h'
      · refine .inr (.inr ⟨s.x, ?_, h', .inr ⟨_, _, wl, wh, hlt, hsg, rfl⟩⟩)
        rcases hs.x with e | e
        · rw [e, sub_nan'] at h'; exact absurd h' (nan_lt _)
        · exact e
      · exact .inl ((eq_zero_iff _).1 h')
      · have e := (hm.eq_iff hl).1 h'
        exact .inr (.inl ⟨_, _, l, h, hl, hh, ⟨hl.mem, hh.mem, hlh, fun m hm hc => (hstrict m hm hc.1 hc.2).1 e⟩, hsg, .inl (e ▸ hm)⟩)
      · have e := (hm.eq_iff hh).1 h'
        exact .inr (.inl ⟨_, _, l, h, hl, hh, ⟨hl.mem, hh.mem, hlh, fun m hm hc => (hstrict m hm hc.1 hc.2).2 e⟩, hsg, .inr (e ▸ hm)⟩)
    · split
      · exact .inl ⟨.inr rfl, .inl ⟨rfl, .inr hw, hs.lo_le, hw.2.2⟩⟩
      · exact .inl ⟨.inr rfl, .inl ⟨rfl, .inr hw, hw.2.1, hs.hi_le⟩⟩
  · rw [hm]
    split
    · next hcv =>
      refine .inr ⟨rfl, .inr ⟨⟨b, rfl⟩, ?_⟩⟩
      rcases hcv with h' | h' | h' | h'
      · exfalso
        rcases hs.x with e | ⟨⟨a, e⟩, -⟩
        · rw [e, sub_nan'] at h'; exact nan_lt _ h'
        · rw [inf_sub_num e] at h'
          obtain ⟨u, v, e1, -, h'⟩ := h'
          cases e1
          exact not_top_lt h'
      · exact (eq_zero_iff _).1 h'
      · rw [inf_ne_num hl] at h'; cases h'
      · rw [inf_ne_num hh] at h'; cases h'
    · split
      · exact .inl ⟨.inr rfl, .inr ⟨b, .inr rfl, .inl rfl⟩⟩
      · exact .inl ⟨.inr rfl, .inr ⟨b, .inl rfl, .inl rfl⟩⟩

theorem GoodI.mono {h2 : 2 ≤ M} {ns : Bool} {f : ObjI φ M} {prec lo hi : Ieee φ M} {c c' : Ieee φ M → Ieee φ M → Prop}
    (hc : ∀ y x, c y x → c' y x) {r : ℕ × StI φ M} (h : GoodI h2 ns f prec lo hi c r) : GoodI h2 ns f prec lo hi c' r := by
  rcases h with h | ⟨e, ⟨hw, h⟩ | h⟩
  · exact .inl h
  · refine .inr ⟨e, .inl ⟨hw, ?_⟩⟩
    rcases h with h | h | ⟨y, hy, hl, h⟩
    · exact .inl h
    · exact .inr (.inl h)
    · exact .inr (.inr ⟨y, hy, hl, h.imp_left (hc _ _)⟩)
  · exact .inr ⟨e, .inr h⟩

theorem orElseI_good {h2 : 2 ≤ M} {ns : Bool} {f : ObjI φ M} {prec lo hi : Ieee φ M} {c : Ieee φ M → Ieee φ M → Prop}
    {a b : StI φ M → ℕ × StI φ M} (ha : ∀ s, OkI f lo hi s ∨ Dead s → GoodI h2 ns f prec lo hi c (a s))
    (hb : ∀ s, OkI f lo hi s ∨ Dead s → GoodI h2 ns f prec lo hi c (b s)) (s : StI φ M) (hs : OkI f lo hi s ∨ Dead s) :
    GoodI h2 ns f prec lo hi c (orElseI a b s) := by
  have := ha s hs
  unfold orElseI
  dsimp only
  split
  · next e =>
    rcases this with ⟨_, h⟩ | ⟨h, _⟩
    · exact hb _ h
    · rw [e] at h; cases h
  · exact this

theorem iterateI_good {h2 : 2 ≤ M} {ns : Bool} {f : ObjI φ M} {prec lo hi : Ieee φ M} {c : Ieee φ M → Ieee φ M → Prop}
    {step : StI φ M → ℕ × StI φ M} (hstep : ∀ s, OkI f lo hi s ∨ Dead s → GoodI h2 ns f prec lo hi c (step s)) :
    ∀ (n status : ℕ) (s : StI φ M), GoodI h2 ns f prec lo hi c (status, s) → GoodI h2 ns f prec lo hi c (iterateI step n status s) := by
  intro n
  induction n with
  | zero => exact fun _ _ h => h
  | succ n ih =>
    intro status s h
    rw [iterateI]
    split
    · exact h
    · next hne =>
      have hs : OkI f lo hi s ∨ Dead s := by
        rcases h with h | h
        · exact h.2
        · exact absurd h.1 hne
      have := hstep s hs
      dsimp only
      split
      · next e =>
        rcases this with ⟨_, h⟩ | ⟨h, _⟩
        · exact .inl ⟨.inl rfl, h⟩
        · rw [e] at h; cases h
      · exact ih _ _ this

theorem solveWithI_good {h2 : 2 ≤ M} {ns : Bool} {f : ObjI φ M} {prec lo hi : Ieee φ M} {c : Ieee φ M → Ieee φ M → Prop}
    {step : StI φ M → ℕ × StI φ M} (hstep : ∀ s, OkI f lo hi s ∨ Dead s → GoodI h2 ns f prec lo hi c (step s)) (maxSize : ℕ)
    {x : Ieee φ M} (hx : Within lo hi x) (iterations : ℕ) {x' : Ieee φ M}
    (e : solveWithI step f maxSize x lo hi iterations = (true, x')) :
    Within lo hi x' ∧ FoundN h2 ns f prec lo hi c x' ∨ x'.isInf ∧ (f x' 0).IsZ := by
  unfold solveWithI at e
  split at e
  · next h0 =>
    simp only [Prod.mk.injEq, true_and] at e
    subst e
    exact .inl ⟨hx, .inl ((eq_zero_iff _).1 h0)⟩
  · have := iterateI_good hstep (iters maxSize iterations - 1) 1 ⟨x, lo, hi, f x⟩
      (.inl ⟨.inr rfl, .inl ⟨rfl, .inr hx, ge_rfl (ge_ne_nan hx.2.1).2, ge_rfl (ge_ne_nan hx.2.2).1⟩⟩)
    dsimp only at e
    generalize iterateI step (iters maxSize iterations - 1) 1 ⟨x, lo, hi, f x⟩ = r at e this
    simp only [Prod.mk.injEq, decide_eq_true_eq] at e
    obtain ⟨e1, rfl⟩ := e
    rcases this with ⟨h | h, _⟩ | ⟨_, h⟩
    · rw [h] at e1; cases e1
    · rw [h] at e1; cases e1
    · exact h

theorem newtonStepI_good {h2 : 2 ≤ M} {ns : Bool} {f : ObjI φ M} (hf : ¬ (f .nan 0).IsZ) {prec lo hi : Ieee φ M} (s : StI φ M)
    (hs : OkI f lo hi s ∨ Dead s) : GoodI h2 ns f prec lo hi (IsNewtonI f) (newtonStepI f prec s) := by
  unfold newtonStepI
  split
  · exact .inl ⟨.inl rfl, hs⟩
  next h =>
  rcases hs with hs | hs
  · exact processStepI_good hf hs _ ⟨fun h' => h ((eq_zero_iff _).2 (by rw [hs.st]; exact h')), by rw [hs.st]⟩
  · exact processStepI_dead hf hs _

theorem halleyStepI_good {h2 : 2 ≤ M} {ns : Bool} {f : ObjI φ M} (hf : ¬ (f .nan 0).IsZ) {prec lo hi : Ieee φ M} (s : StI φ M)
    (hs : OkI f lo hi s ∨ Dead s) : GoodI h2 ns f prec lo hi (IsHalleyI h2 f) (halleyStepI h2 ns f prec s) := by
  unfold halleyStepI
  dsimp only
  split
  · exact .inl ⟨.inl rfl, hs⟩
  split
  · exact .inl ⟨.inl rfl, hs⟩
  rcases hs with hs | hs
  · exact processStepI_good hf hs _ (by unfold IsHalleyI; rw [hs.st])
  · exact processStepI_dead hf hs _

/-- **C93**, `newton_raphson` in IEEE arithmetic. Whatever the function returns (NaN, infinities; only a zero value at NaN is excluded)
and whatever the (possibly infinite) bounds of the start `x` are: if success is reported, `x'` is a number in the bounds at which
the function is zero, at which its sign changes, or that was reached by a Newton step or bisection step shorter than the precision.
The one exception is an infinite root of a function that is zero at infinity. -/
theorem C93_newton (h2 : 2 ≤ M) (ns : Bool) (f : ObjI φ M) (hf : ¬ (f .nan 0).IsZ) (maxSize : ℕ) (prec x lo hi : Ieee φ M)
    (hx : Within lo hi x) (iterations : ℕ) (x' : Ieee φ M) (e : newtonI h2 ns f maxSize prec x lo hi iterations = (true, x')) :
    Within lo hi x' ∧ FoundN h2 ns f prec lo hi (IsNewtonI f) x' ∨ x'.isInf ∧ (f x' 0).IsZ :=
  solveWithI_good (orElseI_good (newtonStepI_good hf) fun _ hs => bisectStepI_good hs) maxSize hx iterations e

/-- **C93**, `halleys_method` in IEEE arithmetic. -/
theorem C93_halley (h2 : 2 ≤ M) (ns : Bool) (f : ObjI φ M) (hf : ¬ (f .nan 0).IsZ) (maxSize : ℕ) (prec x lo hi : Ieee φ M)
    (hx : Within lo hi x) (iterations : ℕ) (x' : Ieee φ M) (e : halleyI h2 ns f maxSize prec x lo hi iterations = (true, x')) :
    Within lo hi x' ∧ FoundN h2 ns f prec lo hi (fun y x' => IsHalleyI h2 f y x' ∨ IsNewtonI f y x') x' ∨
      x'.isInf ∧ (f x' 0).IsZ :=
  solveWithI_good (orElseI_good (fun s hs => (halleyStepI_good hf s hs).mono fun _ _ => .inl)
    (orElseI_good (fun s hs => (newtonStepI_good hf s hs).mono fun _ _ => .inr) fun _ hs => bisectStepI_good hs)) maxSize hx
    iterations e

/-! ## NaN -/

/-- At NaN the function and its derivative are NaN. -/
def Strict (f : ObjI φ M) : Prop := f .nan 0 = .nan ∧ f .nan 1 = .nan

theorem nan_div (y : Ieee φ M) : (Ieee.nan : Ieee φ M).div y = .nan := by rcases y with _ | _ | _ | _ <;> rfl

/-- Once `x` is NaN the loop goes on to the last iteration. -/
theorem nan_runs (h2 : 2 ≤ M) (ns : Bool) {f : ObjI φ M} (hf : Strict f) (prec : Ieee φ M) : ∀ (n : ℕ) (s : StI φ M),
    s.x = .nan → s.st = f .nan → (iterateI (newtonTurnI h2 ns f prec) n 1 s).1 = 1 ∧
      (iterateI (newtonTurnI h2 ns f prec) n 1 s).2.x = .nan := by
  intro n
  induction n with
  | zero => exact fun s h _ => ⟨rfl, h⟩
  | succ n ih =>
    intro s hx hst
    have hz : ¬ (f .nan 0).IsZ := by rw [hf.1]; rintro (h | h) <;> cases h
    have step : newtonTurnI h2 ns f prec s = (1, { s with x := .nan, st := f .nan }) := by
      have : newtonStepI f prec s = (1, { s with x := .nan, st := f .nan }) := by
        unfold newtonStepI
        rw [hst, hf.1, hf.2, if_neg (by simp [Ieee.eq]), hx, nan_sub, processStepI_nan hz, hst, hf.1, if_neg]
        exact nan_lt _
      unfold newtonTurnI orElseI
      simp [this]
    rw [iterateI, if_neg (by decide)]
    simp only [step, one_ne_zero, if_false]
    exact ih _ rfl rfl

/-- **C93**, NaN is not noticed: if the function returns NaN at the first Newton iterate of `x` (with a derivative that is not zero),
`newton_raphson` neither fails nor falls back to bisection: it uses up all its iterations (by default the largest `size_t`), however
many they are, and leaves NaN in `x`. -/
theorem C93_nan_trap (h2 : 2 ≤ M) (ns : Bool) (f : ObjI φ M) (hf : Strict f) (maxSize : ℕ) (prec x lo hi y : Ieee φ M)
    (hy : IsNewtonI f x y) (hlo : lt lo y) (hhi : lt y hi) (h0 : ¬ (f x 0).IsZ) (hp : ¬ lt (y.sub x).abs (prec.mul y).abs)
    (hn : f y 0 = .nan) (h1 : ¬ (f y 1).IsZ) :
    (∀ n, (iterateI (newtonTurnI h2 ns f prec) n 1 ⟨x, lo, hi, f x⟩).1 = 1) ∧
    ∀ iterations, 3 ≤ iters maxSize iterations → newtonI h2 ns f maxSize prec x lo hi iterations = (false, .nan) := by
  have hz : ¬ (f .nan 0).IsZ := by rw [hf.1]; rintro (h | h) <;> cases h
  have nge : ∀ {a b : Ieee φ M}, lt a b → ¬ ge a b := by
    rintro a b ⟨u, v, e1, e2, h⟩ ⟨u', v', e1', e2', h'⟩
    rw [e1] at e1'
    rw [e2] at e2'
    cases e1'; cases e2'
    exact absurd h' (not_le.2 h)
  have s1 : ∃ lo' hi', newtonTurnI h2 ns f prec ⟨x, lo, hi, f x⟩ = (1, ⟨y, lo', hi', f y⟩) := by
    have : ∃ lo' hi', newtonStepI f prec ⟨x, lo, hi, f x⟩ = (1, ⟨y, lo', hi', f y⟩) := by
      unfold newtonStepI
      rw [if_neg (fun h => hy.1 ((eq_zero_iff _).1 h))]
      dsimp only
      rw [← hy.2]
      unfold processStepI
      rw [if_neg (by rintro (h | h); exacts [nge hhi h, nge hlo h])]
      dsimp only
      rw [if_neg (by rintro (h | h); exacts [hp h, by rw [hn] at h; simp [Ieee.eq] at h]), if_neg]
      · exact ⟨_, _, rfl⟩
      · rw [hn]; rintro ⟨u, v, e1, e2, h⟩; cases e2
    obtain ⟨lo', hi', this⟩ := this
    exact ⟨lo', hi', by unfold newtonTurnI orElseI; simp [this]⟩
  obtain ⟨lo', hi', s1⟩ := s1
  have s2 : newtonTurnI h2 ns f prec ⟨y, lo', hi', f y⟩ = (1, ⟨.nan, lo', hi', f .nan⟩) := by
    have : newtonStepI f prec ⟨y, lo', hi', f y⟩ = (1, ⟨.nan, lo', hi', f .nan⟩) := by
      unfold newtonStepI
      dsimp only
      rw [if_neg (fun h => h1 ((eq_zero_iff _).1 h)), hn, nan_div, sub_nan', processStepI_nan hz, hf.1]
      rw [if_neg]
      dsimp only
      rw [hn]
      exact nan_lt _
    unfold newtonTurnI orElseI
    simp [this]
  have run : ∀ n, (iterateI (newtonTurnI h2 ns f prec) (n + 2) 1 ⟨x, lo, hi, f x⟩).1 = 1 ∧
      (iterateI (newtonTurnI h2 ns f prec) (n + 2) 1 ⟨x, lo, hi, f x⟩).2.x = .nan := by
    intro n
    rw [iterateI, if_neg (by decide)]
    simp only [s1, one_ne_zero, if_false]
    rw [iterateI, if_neg (by decide)]
    simp only [s2, one_ne_zero, if_false]
    exact nan_runs h2 ns hf prec n _ rfl rfl
  refine ⟨fun n => ?_, fun iterations hi => ?_⟩
  · rcases n with _ | _ | n
    · rfl
    · rw [iterateI, if_neg (by decide)]
      simp only [s1, one_ne_zero, if_false]
      rfl
    · exact (run n).1
  · unfold newtonI solveWithI
    rw [if_neg (fun h => h0 ((eq_zero_iff _).1 h))]
    obtain ⟨n, e⟩ : ∃ n, iters maxSize iterations - 1 = n + 2 := ⟨iters maxSize iterations - 3, by omega⟩
    simp only [e, (run n).1, (run n).2]
    rfl

/-! ## Where nothing overflows and nothing is NaN, this is the method of `Fp/Newton` -/

theorem pack_cases (hM0 : 0 ≤ M) (s : Bool) (x : ℝ) :
    (Ieee.pack s x : Ieee φ M).IsNum (φ.rnd x) ∨ M < |φ.rnd x| ∧ (Ieee.pack s x : Ieee φ M) = .inf (decide (x < 0)) := by
  by_cases h : |φ.rnd x| ≤ M
  · exact .inl (pack_num s x h)
  · refine .inr ⟨not_le.1 h, ?_⟩
    have h0 : φ.rnd x ≠ 0 := fun e => h (by rw [e, abs_zero]; exact hM0)
    simp [Ieee.pack, h0, h]

theorem num_add_cases (hM0 : 0 ≤ M) {a b : Ieee φ M} {u v : ℝ} (h : a.IsNum u) (h' : b.IsNum v) :
    (a.add b).IsNum (φ.rnd (u + v)) ∨ M < |φ.rnd (u + v)| ∧ a.add b = .inf (decide (u + v < 0)) := by
  by_cases hM : |φ.rnd (u + v)| ≤ M
  · exact .inl (h.add h' hM)
  · refine .inr ⟨not_le.1 hM, ?_⟩
    have key : ∀ s, (Ieee.pack s (u + v) : Ieee φ M) = .inf (decide (u + v < 0)) := fun s => by
      rcases pack_cases (φ := φ) hM0 s (u + v) with h | h
      · exact absurd (h.le hM0) hM
      · exact h.2
    rcases a with _ | _ | _ | _ <;> simp only [IsNum] at h <;> rcases b with _ | _ | _ | _ <;> simp only [IsNum] at h' <;>
      subst h h' <;> simp only [Ieee.add, Ieee.val]
    · exfalso; apply hM; rw [add_zero, Ieee.rnd_zero, abs_zero]; exact hM0
    all_goals exact key _

theorem num_div_cases (hM0 : 0 ≤ M) {a b : Ieee φ M} {u v : ℝ} (h : a.IsNum u) (h' : b.IsNum v) (hv : v ≠ 0) :
    (a.div b).IsNum (φ.rnd (u / v)) ∨ M < |φ.rnd (u / v)| ∧ a.div b = .inf (decide (u / v < 0)) := by
  rcases b with _ | _ | _ | _ <;> simp only [IsNum] at h'
  · exact absurd h' hv
  · rcases a with _ | _ | _ | _ <;> simp only [IsNum] at h <;> subst h h' <;> simp only [Ieee.div, Ieee.val] <;>
      exact pack_cases hM0 _ _

theorem Ieee.IsNum.lt_iff {c d : Ieee φ M} {x y : ℝ} (h : c.IsNum x) (h' : d.IsNum y) : lt c d ↔ x < y := by
  unfold Ieee.lt
  rw [h.toE, h'.toE]
  constructor
  · rintro ⟨a, b, e1, e2, h⟩
    cases e1; cases e2
    exact EReal.coe_lt_coe_iff.1 h
  · exact fun h => ⟨_, _, rfl, rfl, EReal.coe_lt_coe_iff.2 h⟩

theorem Ieee.IsNum.ge_iff {c d : Ieee φ M} {x y : ℝ} (h : c.IsNum x) (h' : d.IsNum y) : ge c d ↔ y ≤ x := by
  unfold Ieee.ge
  rw [h.toE, h'.toE]
  constructor
  · rintro ⟨a, b, e1, e2, h⟩
    cases e1; cases e2
    exact EReal.coe_le_coe_iff.1 h
  · exact fun h => ⟨_, _, rfl, rfl, EReal.coe_le_coe_iff.2 h⟩

theorem Ieee.IsNum.zero_iff {c : Ieee φ M} {x : ℝ} (h : c.IsNum x) : c.eq (.zero false) = true ↔ x = 0 :=
  h.eq_iff (show (Ieee.zero false : Ieee φ M).IsNum 0 from rfl)

/-- At the numbers of `[lo, hi]` the function computes the numbers `g`, and its value is not a negative zero. -/
def Computes (f : ObjI φ M) (g : Obj) (lo hi : ℝ) : Prop :=
  ∀ (c : Ieee φ M) (w : ℝ), c.IsNum w → lo ≤ w → w ≤ hi → (f c 0).IsNum (g w 0) ∧ (f c 1).IsNum (g w 1) ∧ f c 0 ≠ .zero true

theorem bit_num {c : Ieee φ M} {x : ℝ} (h : c.IsNum x) (hz : c ≠ .zero true) (ns : Bool) : bit ns c = signbit x := by
  rcases c with _ | _ | (_ | _) | _ <;> simp only [IsNum] at h
  · subst h; simp [bit, Ieee.sgn, signbit]
  · exact absurd rfl hz
  · subst h; simp [bit, Ieee.sgn, signbit]

structure Sim (lo hi : ℝ) (s : StI φ M) (t : St) : Prop where
  x : s.x.IsNum t.x
  x_lo : lo ≤ t.x
  x_hi : t.x ≤ hi
  bnd : ∃ l h : ℝ, s.lo.IsNum l ∧ s.hi.IsNum h ∧ t.lo = l ∧ t.hi = h ∧ lo ≤ l ∧ l ≤ hi ∧ lo ≤ h ∧ h ≤ hi
  st0 : (s.st 0).IsNum (t.st 0)
  st1 : (s.st 1).IsNum (t.st 1)

def SimR (lo hi : ℝ) (r : ℕ × StI φ M) (r' : ℕ × St) : Prop := r.1 = r'.1 ∧ Sim lo hi r.2 r'.2

theorem small_rnd (hMF : M ∈ φ.F) {y : ℝ} (h : |y| ≤ M) : |φ.rnd y| ≤ M := by
  rw [abs_le] at h ⊢
  have h1 := φ.mono h.1
  have h3 := φ.mono h.2
  rw [φ.rnd_of_mem hMF] at h3
  rw [φ.rnd_of_mem (φ.neg M hMF)] at h1
  exact ⟨h1, h3⟩

section
variable {lo hi : ℝ} (h2 : 2 ≤ M) (hMF : M ∈ φ.F) (bl : -(M / 2) ≤ lo) (bh : hi ≤ M / 2) {f : ObjI φ M} {g : Obj}
  (hf : Computes f g lo hi) {prec : Ieee φ M} {p : ℝ} (hp : prec.IsNum p) (hp1 : |p| ≤ 1)
include h2 hMF bl bh hf hp hp1

theorem process_sim {s : StI φ M} {t : St} (h : Sim lo hi s t) {c : Ieee φ M} {r : ℝ}
    (hc : c.IsNum r ∨ c = .inf false ∧ hi ≤ r ∨ c = .inf true ∧ r ≤ lo) :
    SimR lo hi (processStepI f prec s c) (processStepR φ.rnd g p t r) := by
  obtain ⟨l, u, hl, hu, el, eu, l1, l2, u1, u2⟩ := h.bnd
  unfold processStepI processStepR
  rcases hc with hc | ⟨rfl, hr⟩ | ⟨rfl, hr⟩
  · have hb : (ge c s.hi ∨ ge s.lo c) ↔ (t.hi ≤ (r : EReal) ∨ (r : EReal) ≤ t.lo) := by
      rw [hc.ge_iff hu, hl.ge_iff hc, el, eu, EReal.coe_le_coe_iff, EReal.coe_le_coe_iff]
    by_cases hin : ge c s.hi ∨ ge s.lo c
    · rw [if_pos hin, if_pos (hb.1 hin)]
      exact ⟨rfl, h⟩
    · rw [if_neg hin, if_neg (fun h => hin (hb.2 h))]
      rw [hc.ge_iff hu, hl.ge_iff hc, not_or, not_le, not_le] at hin
      have r1 : lo ≤ r := by linarith
      have r2 : r ≤ hi := by linarith
      obtain ⟨f0, f1, fz⟩ := hf c r hc r1 r2
      have hx := h.x_lo
      have hx' := h.x_hi
      have hd : (c.sub s.x).IsNum (φ.rnd (r - t.x)) := hc.sub h.x (small_rnd hMF (abs_le.2 ⟨by linarith, by linarith⟩))
      have hpr : (prec.mul c).IsNum (φ.rnd (p * r)) := hp.mul hc (small_rnd hMF (by
        have hr : |r| ≤ M := abs_le.2 ⟨by linarith, by linarith⟩
        rw [abs_mul]
        calc |p| * |r| ≤ 1 * |r| := mul_le_mul_of_nonneg_right hp1 (abs_nonneg _)
          _ ≤ M := by rw [one_mul]; exact hr))
      dsimp only
      have hcv : (lt (c.sub s.x).abs (prec.mul c).abs ∨ (f c 0).eq (.zero false) = true) ↔
          (|φ.rnd (r - t.x)| < |φ.rnd (p * r)| ∨ g r 0 = 0) := by
        rw [hd.abs.lt_iff hpr.abs, f0.zero_iff]
      by_cases hcv' : |φ.rnd (r - t.x)| < |φ.rnd (p * r)| ∨ g r 0 = 0
      · rw [if_pos (hcv.2 hcv'), if_pos hcv']
        exact ⟨rfl, hc, r1, r2, ⟨l, u, hl, hu, el, eu, l1, l2, u1, u2⟩, f0, f1⟩
      · rw [if_neg (fun h => hcv' (hcv.1 h)), if_neg hcv']
        have hinc : lt (s.st 0).abs (f c 0).abs ↔ |g r 0| > |t.st 0| := h.st0.abs.lt_iff f0.abs
        by_cases hinc' : |g r 0| > |t.st 0|
        · rw [if_pos (hinc.2 hinc'), if_pos hinc']
          exact ⟨rfl, h⟩
        · rw [if_neg (fun h => hinc' (hinc.1 h)), if_neg hinc']
          have z : (Ieee.zero false : Ieee φ M).IsNum 0 := rfl
          refine ⟨rfl, hc, r1, r2, ?_, f0, f1⟩
          have d1 : ge (c.sub s.x) (.zero false) ↔ φ.rnd (r - t.x) ≥ 0 := hd.ge_iff z
          have d2 : ge (.zero false) (c.sub s.x) ↔ φ.rnd (r - t.x) ≤ 0 := z.ge_iff hd
          dsimp only
          refine ⟨if φ.rnd (r - t.x) ≥ 0 then t.x else l, if φ.rnd (r - t.x) ≤ 0 then t.x else u, ?_, ?_, ?_, ?_, ?_, ?_, ?_, ?_⟩
          · by_cases e : φ.rnd (r - t.x) ≥ 0
            · rw [if_pos (d1.2 e), if_pos e]; exact h.x
            · rw [if_neg (fun h => e (d1.1 h)), if_neg e]; exact hl
          · by_cases e : φ.rnd (r - t.x) ≤ 0
            · rw [if_pos (d2.2 e), if_pos e]; exact h.x
            · rw [if_neg (fun h => e (d2.1 h)), if_neg e]; exact hu
          · split
            · rfl
            · exact el
          · split
            · rfl
            · exact eu
          all_goals split <;> linarith
  · rw [if_pos (.inl ⟨⊤, _, rfl, hu.toE, le_top⟩), if_pos (.inl (by rw [eu, EReal.coe_le_coe_iff]; linarith))]
    exact ⟨rfl, h⟩
  · rw [if_pos (.inr ⟨_, ⊥, hl.toE, rfl, bot_le⟩), if_pos (.inr (by rw [el, EReal.coe_le_coe_iff]; linarith))]
    exact ⟨rfl, h⟩

theorem newton_sim (ml : lo ∈ φ.F) (mh : hi ∈ φ.F) {s : StI φ M} {t : St} (h : Sim lo hi s t) :
    SimR lo hi (newtonStepI f prec s) (newtonStepR φ.rnd g p t) := by
  unfold newtonStepI newtonStepR
  by_cases h1 : t.st 1 = 0
  · rw [if_pos (h.st1.zero_iff.2 h1), if_pos h1]
    exact ⟨rfl, h⟩
  rw [if_neg (fun e => h1 (h.st1.zero_iff.1 e)), if_neg h1]
  refine process_sim h2 hMF bl bh hf hp hp1 h ?_
  have hM0 : 0 ≤ M := by linarith
  have hx := h.x_lo
  have hx' := h.x_hi
  have pos : ∀ {y : ℝ}, 0 ≤ y → 0 ≤ φ.rnd y := fun h => by have := φ.mono h; rwa [Ieee.rnd_zero] at this
  have neg : ∀ {y : ℝ}, y ≤ 0 → φ.rnd y ≤ 0 := fun h => by have := φ.mono h; rwa [Ieee.rnd_zero] at this
  rcases num_div_cases hM0 h.st0 h.st1 h1 with hq | ⟨hq, e⟩
  · rcases num_add_cases hM0 h.x hq.neg with hs | ⟨hs, e⟩
    · left; rw [sub_eq_add_neg]; exact hs
    · right
      unfold Ieee.sub
      rw [e, sub_eq_add_neg]
      by_cases hn : t.x + -φ.rnd (t.st 0 / t.st 1) < 0
      · right
        have := neg hn.le
        rw [abs_of_nonpos this] at hs
        simp only [hn, decide_true, true_and]
        linarith
      · left
        have := pos (not_lt.1 hn)
        rw [abs_of_nonneg this] at hs
        simp only [hn, decide_false, true_and]
        linarith
  · right
    unfold Ieee.sub
    rw [e]
    simp only [Ieee.neg, (num_add_inf h.x _).1]
    by_cases hn : t.st 0 / t.st 1 < 0
    · left
      have := neg hn.le
      rw [abs_of_nonpos this] at hq
      simp only [hn, decide_true, Bool.not_true, true_and]
      have h3 := φ.mono (show hi ≤ t.x - φ.rnd (t.st 0 / t.st 1) by linarith)
      rwa [φ.rnd_of_mem mh] at h3
    · right
      have := pos (not_lt.1 hn)
      rw [abs_of_nonneg this] at hq
      simp only [hn, decide_false, Bool.not_false, true_and]
      have h3 := φ.mono (show t.x - φ.rnd (t.st 0 / t.st 1) ≤ lo by linarith)
      rwa [φ.rnd_of_mem ml] at h3

theorem bisect_sim (ns : Bool) {s : StI φ M} {t : St} (h : Sim lo hi s t) :
    SimR lo hi (bisectStepI h2 ns f prec s) (bisectStepR φ.rnd g p t) := by
  obtain ⟨l, u, hl, hu, el, eu, l1, l2, u1, u2⟩ := h.bnd
  unfold bisectStepI bisectStepR
  have ninf : ∀ {c : Ieee φ M} {w : ℝ}, c.IsNum w → ¬ c.isInf := by rintro c w hc ⟨b, rfl⟩; exact hc
  have hb : (ge s.lo s.hi ∨ s.lo.isInf ∨ s.hi.isInf) ↔ u ≤ l := by
    simp [hl.ge_iff hu, ninf hl, ninf hu]
  have hb' : (t.lo ≥ t.hi ∨ t.lo = ⊥ ∨ t.lo = ⊤ ∨ t.hi = ⊥ ∨ t.hi = ⊤) ↔ u ≤ l := by
    rw [el, eu]; simp
  by_cases hlu : u ≤ l
  · rw [if_pos (hb.2 hlu), if_pos (hb'.2 hlu)]
    exact ⟨rfl, h⟩
  rw [if_neg (fun h => hlu (hb.1 h)), if_neg (fun h => hlu (hb'.1 h))]
  rw [not_le] at hlu
  have tl : t.lo.toReal = l := by rw [el]; rfl
  have tu : t.hi.toReal = u := by rw [eu]; rfl
  obtain ⟨fl0, fl1, flz⟩ := hf s.lo l hl l1 l2
  obtain ⟨fu0, fu1, fuz⟩ := hf s.hi u hu u1 u2
  rw [bit_num fl0 flz, bit_num fu0 fuz]
  dsimp only
  rw [tl, tu]
  by_cases hsg : signbit (g l 0) = signbit (g u 0)
  · rw [if_pos hsg, if_pos hsg]
    exact ⟨rfl, h⟩
  rw [if_neg hsg, if_neg hsg]
  have hm := mid_num h2 hMF hl hu hlu (by linarith) (by linarith)
  have hbt := mid_between φ hl.mem hu.mem hlu
  generalize φ.rnd (φ.rnd (l + u) / 2) = w at *
  generalize (s.lo.add s.hi).div (two h2) = c at *
  obtain ⟨f0, f1, fz⟩ := hf c w hm (by linarith) (by linarith)
  have hx := h.x_lo
  have hx' := h.x_hi
  have hd : (c.sub s.x).IsNum (φ.rnd (w - t.x)) := hm.sub h.x (small_rnd hMF (abs_le.2 ⟨by linarith, by linarith⟩))
  have hpr : (prec.mul c).IsNum (φ.rnd (p * w)) := hp.mul hm (small_rnd hMF (by
    have hr : |w| ≤ M := abs_le.2 ⟨by linarith, by linarith⟩
    rw [abs_mul]
    calc |p| * |w| ≤ 1 * |w| := mul_le_mul_of_nonneg_right hp1 (abs_nonneg _)
      _ ≤ M := by rw [one_mul]; exact hr))
  have hcv : (lt (c.sub s.x).abs (prec.mul c).abs ∨ (f c 0).eq (.zero false) = true ∨ c.eq s.lo = true ∨ c.eq s.hi = true) ↔
      (|φ.rnd (w - t.x)| < |φ.rnd (p * w)| ∨ g w 0 = 0 ∨ w = l ∨ w = u) := by
    rw [hd.abs.lt_iff hpr.abs, f0.zero_iff, hm.eq_iff hl, hm.eq_iff hu]
  by_cases hcv' : |φ.rnd (w - t.x)| < |φ.rnd (p * w)| ∨ g w 0 = 0 ∨ w = l ∨ w = u
  · rw [if_pos (hcv.2 hcv'), if_pos hcv']
    exact ⟨rfl, hm, by dsimp only; linarith, by dsimp only; linarith, ⟨l, u, hl, hu, el, eu, l1, l2, u1, u2⟩, f0, f1⟩
  rw [if_neg (fun h => hcv' (hcv.1 h)), if_neg hcv', bit_num f0 fz]
  by_cases hs2 : signbit (g w 0) = signbit (g u 0)
  · rw [if_pos hs2, if_pos hs2]
    exact ⟨rfl, hm, by dsimp only; linarith, by dsimp only; linarith,
      ⟨l, w, hl, hm, el, rfl, l1, l2, by linarith, by linarith⟩, f0, f1⟩
  · rw [if_neg hs2, if_neg hs2]
    exact ⟨rfl, hm, by dsimp only; linarith, by dsimp only; linarith,
      ⟨w, u, hm, hu, rfl, eu, by linarith, by linarith, u1, u2⟩, f0, f1⟩

theorem turn_sim (ml : lo ∈ φ.F) (mh : hi ∈ φ.F) (ns : Bool) {s : StI φ M} {t : St} (h : Sim lo hi s t) :
    SimR lo hi (newtonTurnI h2 ns f prec s) (newtonTurn φ.rnd g p t) := by
  unfold newtonTurnI newtonTurn orElseI orElse
  have hn := newton_sim h2 hMF bl bh hf hp hp1 ml mh h
  dsimp only
  rw [hn.1]
  split
  · exact bisect_sim h2 hMF bl bh hf hp hp1 ns hn.2
  · exact hn

theorem iterate_sim (ml : lo ∈ φ.F) (mh : hi ∈ φ.F) (ns : Bool) : ∀ (n status : ℕ) (s : StI φ M) (t : St), Sim lo hi s t →
    SimR lo hi (iterateI (newtonTurnI h2 ns f prec) n status s) (iterate (newtonTurn φ.rnd g p) n status t) := by
  intro n
  induction n with
  | zero => exact fun _ _ _ h => ⟨rfl, h⟩
  | succ n ih =>
    intro status s t h
    rw [iterateI, iterate]
    split
    · exact ⟨rfl, h⟩
    · have ht := turn_sim h2 hMF bl bh hf hp hp1 ml mh ns h
      dsimp only
      rw [ht.1]
      split
      · exact ⟨rfl, ht.2⟩
      · exact ih _ _ _ ht.2

/-- **C93**, agreement. With bounds of at most half the largest number, a precision of at most 1 and a function that returns numbers
(and no negative zero) at the numbers between the bounds, nothing that overflows on the way matters: `newton_raphson` gives what
it gives in the rounded arithmetic of C90, whose exponents have no bound. -/
theorem C93_agrees (ns : Bool) (maxSize : ℕ) {xI loI hiI : Ieee φ M} {x : ℝ} (hx : xI.IsNum x) (hlo : loI.IsNum lo)
    (hhi : hiI.IsNum hi) (h1 : lo ≤ x) (h3 : x ≤ hi) (iterations : ℕ) :
    (newtonI h2 ns f maxSize prec xI loI hiI iterations).1 = (newtonR φ.rnd g maxSize p x lo hi iterations).1 ∧
    (newtonI h2 ns f maxSize prec xI loI hiI iterations).2.IsNum (newtonR φ.rnd g maxSize p x lo hi iterations).2 := by
  obtain ⟨f0, f1, fz⟩ := hf xI x hx h1 h3
  unfold newtonI newtonR solveWithI solveWith
  by_cases h0 : g x 0 = 0
  · rw [if_pos (f0.zero_iff.2 h0), if_pos h0]
    exact ⟨rfl, hx⟩
  · rw [if_neg (fun h => h0 (f0.zero_iff.1 h)), if_neg h0]
    have := iterate_sim h2 hMF bl bh hf hp hp1 hlo.mem hhi.mem ns (iters maxSize iterations - 1) 1 ⟨xI, loI, hiI, f xI⟩ ⟨x, lo, hi, g x⟩
      ⟨hx, h1, h3, ⟨lo, hi, hlo, hhi, rfl, rfl, le_rfl, by linarith, by linarith, le_rfl⟩, f0, f1⟩
    exact ⟨by dsimp only; rw [this.1], this.2.x⟩

end

/-- **C93**, success. With such bounds and such a function, if the function is monotone at the numbers between the bounds and changes its
sign between them, `newton_raphson` succeeds with a number between the bounds, unless the precision times a number is rounded to
zero. -/
theorem C93_success (h2 : 2 ≤ M) (hMF : M ∈ φ.F) {lo hi x p : ℝ} (bl : -(M / 2) ≤ lo) (bh : hi ≤ M / 2) {f : ObjI φ M} {g : Obj}
    (hf : Computes f g lo hi) {prec xI loI hiI : Ieee φ M} (hp : prec.IsNum p) (hp1 : |p| ≤ 1) (ns : Bool) (maxSize : ℕ)
    (hx : xI.IsNum x) (hlo : loI.IsNum lo) (hhi : hiI.IsNum hi) (hlt : lo < hi) (h1 : lo ≤ x) (h3 : x ≤ hi)
    (iterations : ℕ) (hg : HonestR φ g lo hi) (hs : SignChange (fun x => g x 0) lo hi)
    (hn : 2 * inside φ lo hi + 4 ≤ iters maxSize iterations) (hp0 : ∀ y ∈ φ.F, lo ≤ y → y ≤ hi → φ.rnd (p * y) ≠ 0) :
    ∃ x' w, newtonI h2 ns f maxSize prec xI loI hiI iterations = (true, x') ∧ x'.IsNum w ∧ lo ≤ w ∧ w ≤ hi := by
  obtain ⟨⟨w, e⟩, -⟩ := C90_monotone_success g false maxSize p x lo hi iterations hx.mem hlo.mem hhi.mem hlt h1 h3 hg hs hn hp0
  obtain ⟨e1, e2⟩ := C93_agrees h2 hMF bl bh hf hp hp1 ns maxSize hx hlo hhi h1 h3 iterations
  rw [e] at e1 e2
  obtain ⟨-, b1, b2, -⟩ := C90_newton g maxSize p x lo hi iterations hx.mem (.real hlo.mem) (.real hhi.mem)
    (EReal.coe_le_coe_iff.2 h1) (EReal.coe_le_coe_iff.2 h3) _ _ e
  exact ⟨_, w, Prod.ext e1 rfl, e2, EReal.coe_le_coe_iff.1 b1, EReal.coe_le_coe_iff.1 b2⟩

/-! ## Examples: `double` -/

theorem dy_mem (m : ℤ) (k : ℕ) (hm : |m| < 2 ^ 53) (hk : k ≤ 1074) : (m : ℝ) / 2 ^ k ∈ binary64.F :=
  ⟨m, -(k : ℤ), by omega, hm, by rw [zpow_neg, zpow_natCast, div_eq_mul_inv]⟩

/-- The number three. -/
noncomputable def threeD : Ieee binary64 maxDouble :=
  .fin 3 (by simpa using dy_mem 3 0 (by norm_num) (by norm_num)) (by norm_num)
    (by rw [abs_of_pos (by norm_num)]; linarith [big_le_maxDouble])

/-- The logarithm `lg` and its derivative `1/x`, as a user would write them. -/
noncomputable def logObj (lg : Ieee binary64 maxDouble → Ieee binary64 maxDouble) : ObjI binary64 maxDouble :=
  fun x i => if i = 0 then lg x else (Ieee.one one_le_maxDouble).div x

/-- **C93**, NaN is not noticed: the root of the logarithm, from 3, without bounds. The first iterate is negative, there the logarithm is
NaN, and `newton_raphson` runs to the limit of its iterations. -/
theorem C93_log (lg : Ieee binary64 maxDouble → Ieee binary64 maxDouble) (hnan : lg .nan = .nan)
    (hneg : ∀ c w, Ieee.IsNum c w → w < 0 → lg c = .nan) {c3 : ℝ} (h3 : (lg threeD).IsNum c3) (b1 : 1.09 ≤ c3) (b2 : c3 ≤ 1.1)
    {prec : Ieee binary64 maxDouble} {p : ℝ} (hp : prec.IsNum p) (hp1 : |p| ≤ 1) (ns : Bool) (maxSize iterations : ℕ)
    (hi : 3 ≤ iters maxSize iterations) :
    newtonI two_le_maxDouble ns (logObj lg) maxSize prec threeD (.inf true) (.inf false) iterations = (false, .nan) := by
  have hbig := big_le_maxDouble
  have hM0 : 0 ≤ maxDouble := by linarith
  have lower : ∀ (m : ℤ) (k : ℕ), |m| < 2 ^ 53 → k ≤ 1074 → ∀ y : ℝ, (m : ℝ) / 2 ^ k ≤ y → (m : ℝ) / 2 ^ k ≤ binary64.rnd y := by
    intro m k hm hk y hy
    have := binary64.mono hy
    rwa [binary64.rnd_of_mem (dy_mem m k hm hk)] at this
  have upper : ∀ (m : ℤ) (k : ℕ), |m| < 2 ^ 53 → k ≤ 1074 → ∀ y : ℝ, y ≤ (m : ℝ) / 2 ^ k → binary64.rnd y ≤ (m : ℝ) / 2 ^ k := by
    intro m k hm hk y hy
    have := binary64.mono hy
    rwa [binary64.rnd_of_mem (dy_mem m k hm hk)] at this
  have one1 : (Ieee.one one_le_maxDouble : Ieee binary64 maxDouble).IsNum 1 := rfl
  have th : threeD.IsNum 3 := rfl
  -- the derivative
  have d1 := lower 5 4 (by norm_num) (by norm_num) (1 / 3) (by norm_num)
  have d2 := upper 11 5 (by norm_num) (by norm_num) (1 / 3) (by norm_num)
  have hd := one1.div th (by norm_num) (show |binary64.rnd (1 / 3)| ≤ maxDouble by
    norm_num at d1 d2
    rw [abs_of_pos (by linarith)]; linarith)
  generalize binary64.rnd (1 / 3) = d at *
  norm_num at d1 d2
  have hd0 : 0 < d := by linarith
  -- the quotient
  have q1 := lower 25 3 (by norm_num) (by norm_num) (c3 / d) (by norm_num; rw [le_div_iff₀ hd0]; norm_num at b1; linarith)
  have q2 := upper 15 2 (by norm_num) (by norm_num) (c3 / d) (by norm_num; rw [div_le_iff₀ hd0]; norm_num at b2; linarith)
  norm_num at q1 q2
  have hq := h3.div hd hd0.ne' (show |binary64.rnd (c3 / d)| ≤ maxDouble by rw [abs_of_pos (by linarith)]; linarith)
  generalize binary64.rnd (c3 / d) = q at *
  -- the iterate
  have y1 := lower (-3) 2 (by norm_num) (by norm_num) (3 - q) (by norm_num; linarith)
  have y2 := upper (-1) 3 (by norm_num) (by norm_num) (3 - q) (by norm_num; linarith)
  norm_num at y1 y2
  have hy := th.sub hq (show |binary64.rnd (3 - q)| ≤ maxDouble by rw [abs_le]; constructor <;> linarith)
  generalize binary64.rnd (3 - q) = y at *
  have nz : ∀ {c : Ieee binary64 maxDouble} {w : ℝ}, c.IsNum w → w ≠ 0 → ¬ c.IsZ := by
    rintro c w hc hw (rfl | rfl) <;> exact hw hc
  refine (C93_nan_trap two_le_maxDouble ns (logObj lg) ⟨hnan, rfl⟩ maxSize prec threeD (.inf true) (.inf false) _
    ⟨nz hd hd0.ne', rfl⟩ ⟨⊥, _, rfl, hy.toE, EReal.bot_lt_coe _⟩ ⟨_, ⊤, hy.toE, rfl, EReal.coe_lt_top _⟩
    (nz h3 (by linarith)) ?_ (hneg _ y hy (by linarith)) ?_).2 iterations hi
  · have z1 := upper (-2) 0 (by norm_num) (by norm_num) (y - 3) (by norm_num; linarith)
    have z2 := lower (-4) 0 (by norm_num) (by norm_num) (y - 3) (by norm_num; linarith)
    norm_num at z1 z2
    have hs := hy.sub th (show |binary64.rnd (y - 3)| ≤ maxDouble by rw [abs_le]; constructor <;> linarith)
    have hpy : |p * y| ≤ 1 := by
      rw [abs_mul]
      calc |p| * |y| ≤ 1 * 1 := mul_le_mul hp1 (by rw [abs_le]; constructor <;> linarith) (abs_nonneg _) zero_le_one
        _ = 1 := one_mul 1
    rw [abs_le] at hpy
    have w1 := upper 1 0 (by norm_num) (by norm_num) (p * y) (by norm_num; linarith)
    have w2 := lower (-1) 0 (by norm_num) (by norm_num) (p * y) (by norm_num; linarith)
    norm_num at w1 w2
    have hm := hp.mul hy (show |binary64.rnd (p * y)| ≤ maxDouble by rw [abs_le]; constructor <;> linarith)
    change ¬ lt (Ieee.abs (Ieee.sub _ threeD)) _
    intro h
    have h := (hs.abs.lt_iff hm.abs).1 h
    rw [abs_of_neg (by linarith)] at h
    have : |binary64.rnd (p * y)| ≤ 1 := abs_le.2 ⟨w2, w1⟩
    linarith
  · have z1 := upper (-1) 0 (by norm_num) (by norm_num) (1 / y) (by norm_num; rw [inv_le_of_neg (by linarith) (by norm_num)]; norm_num; linarith)
    have z2 := lower (-8) 0 (by norm_num) (by norm_num) (1 / y) (by norm_num; rw [le_inv_of_neg (by norm_num) (by linarith)]; norm_num; linarith)
    norm_num at z1 z2
    have hz := one1.div hy (by linarith) (show |binary64.rnd (1 / y)| ≤ maxDouble by rw [abs_le]; norm_num; constructor <;> linarith)
    exact nz hz (by norm_num; intro h; norm_num [h] at z1)

/-- There is such a logarithm. -/
example : ∃ (lg : Ieee binary64 maxDouble → Ieee binary64 maxDouble) (c3 : ℝ), lg .nan = .nan ∧
    (∀ c w, Ieee.IsNum c w → w < 0 → lg c = .nan) ∧ (lg threeD).IsNum c3 ∧ 1.09 ≤ c3 ∧ c3 ≤ 1.1 := by
  have hm : ((35 : ℤ) : ℝ) / 2 ^ 5 ∈ binary64.F := dy_mem 35 5 (by norm_num) (by norm_num)
  refine ⟨fun c => match c with
    | .fin x _ _ _ => if x < 0 then .nan else .fin _ hm (by norm_num) (by norm_num; linarith [big_le_maxDouble])
    | c => c, ((35 : ℤ) : ℝ) / 2 ^ 5, rfl, ?_, ?_, by norm_num, by norm_num⟩
  · rintro c w hc hw
    rcases c with _ | _ | _ | _ <;> simp only [IsNum] at hc
    · subst hc; exact absurd hw (lt_irrefl _)
    · subst hc; simp [hw]
  · have : ¬ (3 : ℝ) < 0 := by norm_num
    simp only [threeD, this, if_false]
    rfl

/-- The step function between 1 and 2, with derivative 1. -/
noncomputable def belowObj : ObjI binary64 maxDouble := fun x i => if i = 0 then below 1.5 x else .one one_le_maxDouble

/-- `newton_raphson` succeeds on it. -/
example (ns : Bool) : ∃ x' w, newtonI two_le_maxDouble ns belowObj (2 * inside binary64 1 2 + 4)
    (twoPow (-25) (by norm_num) (by norm_num)) (twoPow 0 (by norm_num) (by norm_num)) (twoPow 0 (by norm_num) (by norm_num))
    (twoPow 1 (by norm_num) (by norm_num)) 0 = (true, x') ∧ x'.IsNum w ∧ 1 ≤ w ∧ w ≤ 2 := by
  have e0 : (twoPow 0 (by norm_num) (by norm_num)).IsNum 1 := show (2 : ℝ) ^ (0 : ℤ) = 1 by norm_num
  have e1 : (twoPow 1 (by norm_num) (by norm_num)).IsNum 2 := show (2 : ℝ) ^ (1 : ℤ) = 2 by norm_num
  have hp : (0 : ℝ) < 2 ^ (-25 : ℤ) := two_zpow_pos _
  have hp1 : (2 : ℝ) ^ (-25 : ℤ) ≤ 1 := by norm_num
  have hpn : (twoPow (-25) (by norm_num) (by norm_num)).IsNum (2 ^ (-25 : ℤ)) := rfl
  refine C93_success two_le_maxDouble maxDouble_mem (g := fun w i => if i = 0 then if w < 1.5 then -1 else 1 else 1)
    (p := 2 ^ (-25 : ℤ)) (by linarith [big_le_maxDouble]) (by linarith [big_le_maxDouble]) ?_ hpn (by rwa [abs_of_pos hp]) ns _
    e0 e0 e1 (by norm_num) (by norm_num) (by norm_num) 0 (.inl ⟨?_, ?_⟩) (.inl ⟨?_, ?_⟩) le_rfl ?_
  · intro c w hc h1 _
    rcases c with _ | _ | _ | ⟨y, _, _, _⟩ <;> simp only [IsNum] at hc
    · linarith
    · subst hc
      by_cases h : y < 1.5 <;>
        simp [belowObj, below, h, Ieee.one, Ieee.neg, IsNum]
  · intro a _ b _ hab
    by_cases ha : a < 1.5 <;> by_cases hb : b < 1.5 <;> simp only [ha, hb, if_true, if_false] <;>
      first | exact le_rfl | (norm_num; done) | (exfalso; linarith)
  · intro a _; norm_num
  · norm_num
  · norm_num
  · intro y _ h1 _
    have h := binary64.mono (show (2 : ℝ) ^ (-25 : ℤ) ≤ 2 ^ (-25 : ℤ) * y from le_mul_of_one_le_right hp.le h1)
    rw [rnd_pow _ (by norm_num)] at h
    linarith

end Stator.Fp
