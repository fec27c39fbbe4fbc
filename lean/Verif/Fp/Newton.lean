import Verif.Fp.Bisect
import Verif.Num.Monotone

/-!
# Newton-Raphson and Halley in rounded arithmetic

The model of `newton_raphson` and `halleys_method` with every operation rounded. In exact arithmetic nothing bounds the number
of steps; in rounded arithmetic every step uses up a number of the bracket.
-/

namespace Stator.Fp

open Stator.Num

/-- models: stator/symbolic/numeric.hpp:33-80 `process_iterative_step`, every operation rounded by `rnd`. -/
noncomputable def processStepR (rnd : ℝ → ℝ) (f : Obj) (prec : ℝ) (s : St) (newX : ℝ) : ℕ × St :=
  if s.hi ≤ (newX : EReal) ∨ (newX : EReal) ≤ s.lo then (0, s)
  else
    let ns := f newX
    let delta := rnd (newX - s.x)
    if |delta| < |rnd (prec * newX)| ∨ ns 0 = 0 then (2, { s with x := newX, st := ns })
    else if |ns 0| > |s.st 0| then (0, s)
    else (1, { x := newX, st := ns,
               lo := if delta ≥ 0 then (s.x : EReal) else s.lo,
               hi := if delta ≤ 0 then (s.x : EReal) else s.hi })

/-- models: stator/symbolic/numeric.hpp:85-98 `newton_raphson_step`, every operation rounded by `rnd`. -/
noncomputable def newtonStepR (rnd : ℝ → ℝ) (f : Obj) (prec : ℝ) (s : St) : ℕ × St :=
  if s.st 1 = 0 then (0, s)
  else processStepR rnd f prec s (rnd (s.x - rnd (s.st 0 / s.st 1)))

/-- models: stator/symbolic/numeric.hpp:102-132 `halley_step`, every operation rounded by `rnd`, none of them fused. A product or a
quotient that underflows to zero keeps the sign of its factors, so the sign bits are computed as in `Stator.Num.halleyStep`. -/
noncomputable def halleyStepR (rnd : ℝ → ℝ) (f : Obj) (z : Bool) (prec : ℝ) (s : St) : ℕ × St :=
  let numerator := rnd (rnd (2 * s.st 0) * s.st 1)
  let denominator := rnd (rnd (rnd (2 * s.st 1) * s.st 1) - rnd (s.st 0 * s.st 2))
  if denominator = 0 then (0, s)
  else
    let delta := rnd (-numerator / denominator)
    let sDelta := !(xor (xor (sgn z (s.st 0)) (sgn z (s.st 1))) (sgn z denominator))
    let sDeltaNR := !(xor (sgn z (s.st 0)) (sgn z (s.st 1)))
    if sDelta ≠ sDeltaNR then (0, s)
    else processStepR rnd f prec s (rnd (s.x + delta))

/-- models: stator/symbolic/numeric.hpp:149-200 `bisection_step`, every operation rounded by `rnd`. -/
noncomputable def bisectStepR (rnd : ℝ → ℝ) (f : Obj) (prec : ℝ) (s : St) : ℕ × St :=
  if s.lo ≥ s.hi ∨ s.lo = ⊥ ∨ s.lo = ⊤ ∨ s.hi = ⊥ ∨ s.hi = ⊤ then (0, s)
  else
    let l := s.lo.toReal
    let h := s.hi.toReal
    if signbit (f l 0) = signbit (f h 0) then (0, s)
    else
      let mid := rnd (rnd (l + h) / 2)
      let ns := f mid
      let delta := rnd (mid - s.x)
      if |delta| < |rnd (prec * mid)| ∨ ns 0 = 0 ∨ mid = l ∨ mid = h then
        (2, { s with x := mid, st := ns })
      else if signbit (ns 0) = signbit (f h 0) then
        (1, { s with x := mid, st := ns, hi := (mid : EReal) })
      else (1, { s with x := mid, st := ns, lo := (mid : EReal) })

/-- models: stator/symbolic/numeric.hpp:222-230, one turn of the loop of `newton_raphson`. -/
noncomputable def newtonTurn (rnd : ℝ → ℝ) (f : Obj) (prec : ℝ) : St → ℕ × St :=
  orElse (newtonStepR rnd f prec) (bisectStepR rnd f prec)

/-- models: stator/symbolic/numeric.hpp:256-267, one turn of the loop of `halleys_method`. -/
noncomputable def halleyTurn (rnd : ℝ → ℝ) (f : Obj) (z : Bool) (prec : ℝ) : St → ℕ × St :=
  orElse (halleyStepR rnd f z prec) (newtonTurn rnd f prec)

/-- models: stator/symbolic/numeric.hpp:207-233 `newton_raphson`, every operation rounded by `rnd`. -/
noncomputable def newtonR (rnd : ℝ → ℝ) (f : Obj) (maxSize : ℕ) (prec : ℝ) (x : ℝ) (lo hi : EReal)
    (iterations : ℕ) : Bool × ℝ :=
  solveWith (newtonTurn rnd f prec) f maxSize x lo hi iterations

/-- models: stator/symbolic/numeric.hpp:240-270 `halleys_method`, every operation rounded by `rnd`. -/
noncomputable def halleyR (rnd : ℝ → ℝ) (f : Obj) (z : Bool) (maxSize : ℕ) (prec : ℝ) (x : ℝ) (lo hi : EReal)
    (iterations : ℕ) : Bool × ℝ :=
  solveWith (halleyTurn rnd f z prec) f maxSize x lo hi iterations

/-! ## Without rounding these are the models in exact arithmetic -/

theorem processStepR_id (f : Obj) (prec : ℝ) (s : St) (newX : ℝ) :
    processStepR id f prec s newX = processStep f prec s newX := rfl

theorem newtonStepR_id (f : Obj) (prec : ℝ) (s : St) : newtonStepR id f prec s = newtonStep f prec s := rfl

theorem halleyStepR_id (f : Obj) (z : Bool) (prec : ℝ) (s : St) : halleyStepR id f z prec s = halleyStep f z prec s := rfl

theorem bisectStepR_id (f : Obj) (prec : ℝ) (s : St) : bisectStepR id f prec s = bisectStep f prec s := rfl

theorem newtonR_id (f : Obj) (maxSize : ℕ) (prec x : ℝ) (lo hi : EReal) (iterations : ℕ) :
    newtonR id f maxSize prec x lo hi iterations = newtonRaphson f maxSize prec x lo hi iterations := rfl

theorem halleyR_id (f : Obj) (z : Bool) (maxSize : ℕ) (prec x : ℝ) (lo hi : EReal) (iterations : ℕ) :
    halleyR id f z maxSize prec x lo hi iterations = halley f z maxSize prec x lo hi iterations := rfl

variable (φ : Format)

/-! ## Specification -/

/-- How many representable numbers lie strictly between `lo` and `hi`. -/
noncomputable def inside (lo hi : ℝ) : ℕ := (φ.F ∩ Set.Ioo lo hi).ncard

/-- `x'` is the computed Newton-Raphson iterate of `y`. -/
def IsNewtonR (f : Obj) (y x' : ℝ) : Prop := f y 1 ≠ 0 ∧ x' = φ.rnd (y - φ.rnd (f y 0 / f y 1))

/-- `x'` is the computed Halley iterate of `y`. -/
def IsHalleyR (f : Obj) (y x' : ℝ) : Prop :=
  let den := φ.rnd (φ.rnd (φ.rnd (2 * f y 1) * f y 1) - φ.rnd (f y 0 * f y 2))
  den ≠ 0 ∧ x' = φ.rnd (y + φ.rnd (-φ.rnd (φ.rnd (2 * f y 0) * f y 1) / den))

/-- A bound that is infinite or representable. -/
def Bound (b : EReal) : Prop := b = ⊥ ∨ b = ⊤ ∨ ∃ y ∈ φ.F, b = (y : ℝ)

/-- Why success may be reported at `x'`: the computed function is zero there; `x'` is an end of two adjacent numbers between which
the computed function changes its sign; or the last step, a Newton step, a Halley step or a step to the middle of an interval with a
change of sign, came from a point `y` in the bounds and was shorter than the precision. -/
def FoundR (f : Obj) (prec : ℝ) (lo hi : EReal) (cand : ℝ → ℝ → Prop) (x' : ℝ) : Prop :=
  f x' 0 = 0 ∨ (∃ a b, Adjacent φ a b ∧ SignChange (fun x => f x 0) a b ∧ (x' = a ∨ x' = b)) ∨
  ∃ y ∈ φ.F, lo ≤ y ∧ (y : EReal) ≤ hi ∧ |φ.rnd (x' - y)| < |φ.rnd (prec * x')| ∧ (cand y x' ∨
    ∃ l ∈ φ.F, ∃ h ∈ φ.F, lo ≤ (l : EReal) ∧ l < h ∧ (h : EReal) ≤ hi ∧ SignChange (fun x => f x 0) l h ∧
      x' = φ.rnd (φ.rnd (l + h) / 2))

/-- What is assumed of the computed function at the numbers of `[lo, hi]`: it never turns back, and its first derivative has the
right sign and is not zero. -/
def HonestR (f : Obj) (lo hi : ℝ) : Prop :=
  (MonotoneOn (fun x => f x 0) (φ.F ∩ Set.Icc lo hi) ∧ ∀ x ∈ φ.F ∩ Set.Icc lo hi, 0 < f x 1) ∨
  (AntitoneOn (fun x => f x 0) (φ.F ∩ Set.Icc lo hi) ∧ ∀ x ∈ φ.F ∩ Set.Icc lo hi, f x 1 < 0)

/-! ## Soundness -/

structure InvR (f : Obj) (lo hi : EReal) (s : St) : Prop where
  st : s.st = f s.x
  mem : s.x ∈ φ.F
  blo : Bound φ s.lo
  bhi : Bound φ s.hi
  x_lo : lo ≤ s.x
  x_hi : (s.x : EReal) ≤ hi
  lo_le : lo ≤ s.lo
  hi_le : s.hi ≤ hi

def GoodR (f : Obj) (prec : ℝ) (lo hi : EReal) (cand : ℝ → ℝ → Prop) (r : ℕ × St) : Prop :=
  InvR φ f lo hi r.2 ∧ (r.1 = 2 → FoundR φ f prec lo hi cand r.2.x)

variable {φ}

theorem Bound.real {y : ℝ} (h : y ∈ φ.F) : Bound φ (y : EReal) := .inr (.inr ⟨y, h, rfl⟩)

theorem Bound.mem {b : EReal} (h : Bound φ b) (h1 : b ≠ ⊥) (h2 : b ≠ ⊤) : b.toReal ∈ φ.F := by
  rcases h with h | h | ⟨y, hy, rfl⟩
  · exact absurd h h1
  · exact absurd h h2
  · exact hy

theorem processStepR_good {f : Obj} {prec : ℝ} {lo hi : EReal} {cand : ℝ → ℝ → Prop} {s : St}
    (hs : InvR φ f lo hi s) (newX : ℝ) (hm : newX ∈ φ.F) (hc : cand s.x newX) :
    GoodR φ f prec lo hi cand (processStepR φ.rnd f prec s newX) := by
  unfold processStepR
  split
  · exact ⟨hs, by simp⟩
  · next hb =>
    rw [not_or, not_le, not_le] at hb
    have h1 : lo ≤ (newX : EReal) := hs.lo_le.trans hb.2.le
    have h2 : (newX : EReal) ≤ hi := hb.1.le.trans hs.hi_le
    simp only
    split
    · next hcv =>
      refine ⟨⟨rfl, hm, hs.blo, hs.bhi, h1, h2, hs.lo_le, hs.hi_le⟩, fun _ => ?_⟩
      rcases hcv with h | h
      · exact .inr (.inr ⟨s.x, hs.mem, hs.x_lo, hs.x_hi, h, .inl hc⟩)
      · exact .inl h
    · split
      · exact ⟨hs, by simp⟩
      · refine ⟨⟨rfl, hm, ?_, ?_, h1, h2, ?_, ?_⟩, by simp⟩
        · show Bound φ (if _ then (s.x : EReal) else s.lo)
          split
          · exact .real hs.mem
          · exact hs.blo
        · show Bound φ (if _ then (s.x : EReal) else s.hi)
          split
          · exact .real hs.mem
          · exact hs.bhi
        · show lo ≤ if _ then (s.x : EReal) else s.lo
          split
          · exact hs.x_lo
          · exact hs.lo_le
        · show (if _ then (s.x : EReal) else s.hi) ≤ hi
          split
          · exact hs.x_hi
          · exact hs.hi_le

theorem bisectStepR_good {f : Obj} {prec : ℝ} {lo hi : EReal} {cand : ℝ → ℝ → Prop} {s : St}
    (hs : InvR φ f lo hi s) : GoodR φ f prec lo hi cand (bisectStepR φ.rnd f prec s) := by
  unfold bisectStepR
  split
  · exact ⟨hs, by simp⟩
  · next hb =>
    simp only [not_or, ge_iff_le, not_le] at hb
    obtain ⟨hlt, hl1, hl2, hh1, hh2⟩ := hb
    have el : (s.lo.toReal : EReal) = s.lo := EReal.coe_toReal hl2 hl1
    have eh : (s.hi.toReal : EReal) = s.hi := EReal.coe_toReal hh2 hh1
    have ml := hs.blo.mem hl1 hl2
    have mh := hs.bhi.mem hh1 hh2
    have hlt' : s.lo.toReal < s.hi.toReal := by
      rw [← EReal.coe_lt_coe_iff, el, eh]; exact hlt
    simp only
    generalize hL : s.lo.toReal = l at *
    generalize hH : s.hi.toReal = h at *
    have hb := mid_between φ ml mh hlt'
    have hmem := φ.mem (φ.rnd (l + h) / 2)
    have hstrict := fun m hm h1 h2 => mid_strict φ (m := m) ml mh hm h1 h2
    have emid : ∃ m, m = φ.rnd (φ.rnd (l + h) / 2) := ⟨_, rfl⟩
    obtain ⟨mid, emid⟩ := emid
    rw [← emid] at hb hmem hstrict ⊢
    have hmL : lo ≤ (mid : EReal) :=
      hs.lo_le.trans (by rw [← el]; exact EReal.coe_le_coe_iff.2 hb.1)
    have hmH : (mid : EReal) ≤ hi :=
      le_trans (by rw [← eh]; exact EReal.coe_le_coe_iff.2 hb.2) hs.hi_le
    split
    · exact ⟨hs, by simp⟩
    · next hsc =>
      have hsc := (signbit_ne _ _).1 hsc
      split
      · next hcv =>
        refine ⟨⟨rfl, hmem, hs.blo, hs.bhi, hmL, hmH, hs.lo_le, hs.hi_le⟩, fun _ => ?_⟩
        rcases hcv with h1 | h1 | h1
        · exact .inr (.inr ⟨s.x, hs.mem, hs.x_lo, hs.x_hi, h1, .inr ⟨l, ml, h, mh, by rw [el]; exact hs.lo_le, hlt',
            by rw [eh]; exact hs.hi_le, hsc, emid⟩⟩)
        · exact .inl h1
        · refine .inr (.inl ⟨l, h, ⟨ml, mh, hlt', fun m hm hc => ?_⟩, hsc, h1⟩)
          have := hstrict m hm hc.1 hc.2
          rcases h1 with h1 | h1
          · exact this.1 h1
          · exact this.2 h1
      · split
        · exact ⟨⟨rfl, hmem, hs.blo, .real hmem, hmL, hmH, hs.lo_le, hmH⟩, by simp⟩
        · exact ⟨⟨rfl, hmem, .real hmem, hs.bhi, hmL, hmH, hmL, hs.hi_le⟩, by simp⟩

theorem orElse_goodR {f : Obj} {prec : ℝ} {lo hi : EReal} {cand : ℝ → ℝ → Prop}
    {a b : St → ℕ × St} (ha : ∀ s, InvR φ f lo hi s → GoodR φ f prec lo hi cand (a s))
    (hb : ∀ s, InvR φ f lo hi s → GoodR φ f prec lo hi cand (b s)) (s : St) (hs : InvR φ f lo hi s) :
    GoodR φ f prec lo hi cand (orElse a b s) := by
  unfold orElse
  simp only
  split
  · exact hb _ (ha s hs).1
  · exact ha s hs

theorem iterate_goodR {f : Obj} {prec : ℝ} {lo hi : EReal} {cand : ℝ → ℝ → Prop} {step : St → ℕ × St}
    (h : ∀ s, InvR φ f lo hi s → GoodR φ f prec lo hi cand (step s)) :
    ∀ (n status : ℕ) (s : St), GoodR φ f prec lo hi cand (status, s) →
      GoodR φ f prec lo hi cand (iterate step n status s) := by
  intro n
  induction n with
  | zero => intro status s hs; exact hs
  | succ n ih =>
    intro status s hs
    rw [iterate]
    split
    · exact hs
    · simp only
      have := h s hs.1
      split
      · exact ⟨this.1, by simp⟩
      · exact ih _ _ this

theorem solveWith_goodR {f : Obj} {prec : ℝ} {lo hi : EReal} {cand : ℝ → ℝ → Prop} {step : St → ℕ × St}
    (h : ∀ s, InvR φ f lo hi s → GoodR φ f prec lo hi cand (step s)) (maxSize : ℕ) (x : ℝ) (hx : x ∈ φ.F)
    (bl : Bound φ lo) (bh : Bound φ hi) (hlo : lo ≤ (x : EReal)) (hhi : (x : EReal) ≤ hi) (iterations : ℕ) (b : Bool) (x' : ℝ)
    (e : solveWith step f maxSize x lo hi iterations = (b, x')) :
    x' ∈ φ.F ∧ lo ≤ (x' : EReal) ∧ (x' : EReal) ≤ hi ∧ (b = true → FoundR φ f prec lo hi cand x') := by
  unfold solveWith at e
  split at e
  · next h0 => cases e; exact ⟨hx, hlo, hhi, fun _ => .inl h0⟩
  · simp only [Prod.mk.injEq] at e
    obtain ⟨rfl, rfl⟩ := e
    have := iterate_goodR h (iters maxSize iterations - 1) 1 ⟨x, lo, hi, f x⟩
      ⟨⟨rfl, hx, bl, bh, hlo, hhi, le_refl _, le_refl _⟩, by simp⟩
    exact ⟨this.1.mem, this.1.x_lo, this.1.x_hi, fun hb => this.2 (by simpa using hb)⟩

/-- **C90**, `newton_raphson` in rounded arithmetic, for any computed function, any bounds (also infinite), precision and number of
iterations: the result is a representable number inside the bounds, and success is only reported for one of the reasons in `FoundR`. -/
theorem C90_newton (f : Obj) (maxSize : ℕ) (prec x : ℝ) (lo hi : EReal) (iterations : ℕ) (hx : x ∈ φ.F)
    (bl : Bound φ lo) (bh : Bound φ hi) (hlo : lo ≤ (x : EReal)) (hhi : (x : EReal) ≤ hi) (b : Bool) (x' : ℝ)
    (e : newtonR φ.rnd f maxSize prec x lo hi iterations = (b, x')) :
    x' ∈ φ.F ∧ lo ≤ (x' : EReal) ∧ (x' : EReal) ≤ hi ∧
      (b = true → FoundR φ f prec lo hi (IsNewtonR φ f) x') := by
  refine solveWith_goodR (orElse_goodR (fun s hs => ?_) (fun s hs => bisectStepR_good hs)) maxSize x hx bl bh
    hlo hhi iterations b x' e
  unfold newtonStepR
  split
  · exact ⟨hs, by simp⟩
  · next h => exact processStepR_good hs _ (φ.mem _) ⟨by rw [← hs.st]; exact h, by rw [← hs.st]⟩

/-- **C90**, `halleys_method`. -/
theorem C90_halley (f : Obj) (z : Bool) (maxSize : ℕ) (prec x : ℝ) (lo hi : EReal) (iterations : ℕ) (hx : x ∈ φ.F)
    (bl : Bound φ lo) (bh : Bound φ hi) (hlo : lo ≤ (x : EReal)) (hhi : (x : EReal) ≤ hi) (b : Bool) (x' : ℝ)
    (e : halleyR φ.rnd f z maxSize prec x lo hi iterations = (b, x')) :
    x' ∈ φ.F ∧ lo ≤ (x' : EReal) ∧ (x' : EReal) ≤ hi ∧
      (b = true → FoundR φ f prec lo hi (fun y x' => IsHalleyR φ f y x' ∨ IsNewtonR φ f y x') x') := by
  refine solveWith_goodR (orElse_goodR (fun s hs => ?_) (orElse_goodR (fun s hs => ?_)
    (fun s hs => bisectStepR_good hs))) maxSize x hx bl bh hlo hhi iterations b x' e
  · unfold halleyStepR
    simp only
    split
    · exact ⟨hs, by simp⟩
    · next h =>
      split
      · exact ⟨hs, by simp⟩
      · refine processStepR_good hs _ (φ.mem _) (.inl ⟨by rw [← hs.st]; exact h, ?_⟩)
        rw [← hs.st]
  · unfold newtonStepR
    split
    · exact ⟨hs, by simp⟩
    · next h => exact processStepR_good hs _ (φ.mem _) (.inr ⟨by rw [← hs.st]; exact h, by rw [← hs.st]⟩)

/-! ## Termination -/

variable (φ) in
/-- At most `n` more steps go on: the bracket is empty, or there are few numbers left in it. -/
def Live (n : ℕ) (s : St) : Prop :=
  ∃ l ∈ φ.F, ∃ h ∈ φ.F, s.lo = (l : ℝ) ∧ s.hi = (h : ℝ) ∧ s.x ∈ φ.F ∧
    (h ≤ l ∨ (l ≤ s.x ∧ s.x ≤ h ∧ (2 * inside φ l h + 2 ≤ n ∨ (l < s.x ∧ s.x < h ∧ 2 * inside φ l h + 1 ≤ n))))

variable (φ) in
/-- A step uses up something of `Live`. -/
def Uses (n : ℕ) (s : St) (r : ℕ × St) : Prop :=
  r = (0, s) ∨ r.1 = 2 ∨ (r.1 = 1 ∧ ∃ m, n = m + 1 ∧ Live φ m r.2)

theorem inside_lt {l h l' h' y : ℝ} (hy : y ∈ φ.F) (h1 : l < y) (h2 : y < h) (hl : l ≤ l') (hh : h' ≤ h)
    (hn : y ≤ l' ∨ h' ≤ y) : inside φ l' h' + 1 ≤ inside φ l h := by
  have hfin : (φ.F ∩ Set.Ioo l h).Finite := (φ.finite l h).subset
    (Set.inter_subset_inter_right _ Set.Ioo_subset_Icc_self)
  refine Set.ncard_lt_ncard ⟨Set.inter_subset_inter_right _ (Set.Ioo_subset_Ioo hl hh), fun hsub => ?_⟩ hfin
  have := (hsub ⟨hy, h1, h2⟩).2
  rcases hn with hn | hn
  · exact absurd this.1 hn.not_gt
  · exact absurd this.2 hn.not_gt

theorem inside_le {l h l' h' : ℝ} (hl : l ≤ l') (hh : h' ≤ h) : inside φ l' h' ≤ inside φ l h := by
  have hfin : (φ.F ∩ Set.Ioo l h).Finite := (φ.finite l h).subset
    (Set.inter_subset_inter_right _ Set.Ioo_subset_Icc_self)
  exact Set.ncard_le_ncard (Set.inter_subset_inter_right _ (Set.Ioo_subset_Ioo hl hh)) hfin

theorem rnd_nonpos {x : ℝ} (h : x ≤ 0) : φ.rnd x ≤ 0 := by
  have := φ.mono h
  rwa [φ.rnd_of_mem φ.zero] at this

theorem rnd_nonneg {x : ℝ} (h : 0 ≤ x) : 0 ≤ φ.rnd x := by
  have := φ.mono h
  rwa [φ.rnd_of_mem φ.zero] at this

theorem processStepR_uses {f : Obj} {prec : ℝ} {n : ℕ} {s : St} (hs : Live φ n s) (newX : ℝ) (hm : newX ∈ φ.F) :
    Uses φ n s (processStepR φ.rnd f prec s newX) := by
  obtain ⟨l, ml, h, mh, el, eh, mx, hcase⟩ := hs
  unfold processStepR
  split
  · exact .inl rfl
  · next hb =>
    rw [not_or, not_le, not_le, el, eh, EReal.coe_lt_coe_iff, EReal.coe_lt_coe_iff] at hb
    simp only
    split
    · exact .inr (.inl rfl)
    · split
      · exact .inl rfl
      · refine .inr (.inr ⟨rfl, ?_⟩)
        rcases hcase with hle | ⟨hx, hx', hn⟩
        · linarith [hb.1, hb.2]
        rcases lt_trichotomy (φ.rnd (newX - s.x)) 0 with hneg | hz | hpos
        · rw [if_neg (by linarith), if_pos hneg.le]
          have hlt : newX < s.x := by
            by_contra hc
            exact absurd (rnd_nonneg (φ := φ) (sub_nonneg.2 (not_lt.1 hc))) hneg.not_ge
          refine ⟨n - 1, by omega, l, ml, s.x, mx, el, rfl, hm, .inr ⟨hb.2.le, hlt.le, .inr ⟨hb.2, hlt, ?_⟩⟩⟩
          have a1 := inside_le (φ := φ) (le_refl l) hx'
          rcases hn with hn | ⟨q1, q2, hn⟩
          · omega
          · have a2 := inside_lt mx q1 q2 (le_refl l) hx' (.inr le_rfl)
            omega
        · rw [if_pos hz.ge, if_pos hz.le]
          exact ⟨n - 1, by omega, s.x, mx, s.x, mx, rfl, rfl, hm, .inl le_rfl⟩
        · rw [if_pos hpos.le, if_neg (by linarith)]
          have hlt : s.x < newX := by
            by_contra hc
            exact absurd (rnd_nonpos (φ := φ) (sub_nonpos.2 (not_lt.1 hc))) hpos.not_ge
          refine ⟨n - 1, by omega, s.x, mx, h, mh, rfl, eh, hm, .inr ⟨hlt.le, hb.1.le, .inr ⟨hlt, hb.1, ?_⟩⟩⟩
          have a1 := inside_le (φ := φ) hx (le_refl h)
          rcases hn with hn | ⟨q1, q2, hn⟩
          · omega
          · have a2 := inside_lt mx q1 q2 hx (le_refl h) (.inl le_rfl)
            omega

theorem newtonStepR_uses {f : Obj} {prec : ℝ} {n : ℕ} {s : St} (hs : Live φ n s) :
    Uses φ n s (newtonStepR φ.rnd f prec s) := by
  unfold newtonStepR
  split
  · exact .inl rfl
  · exact processStepR_uses hs _ (φ.mem _)

theorem halleyStepR_uses {f : Obj} {z : Bool} {prec : ℝ} {n : ℕ} {s : St} (hs : Live φ n s) :
    Uses φ n s (halleyStepR φ.rnd f z prec s) := by
  unfold halleyStepR
  simp only
  split
  · exact .inl rfl
  · split
    · exact .inl rfl
    · exact processStepR_uses hs _ (φ.mem _)

theorem bisectStepR_uses {f : Obj} {prec : ℝ} {n : ℕ} {s : St} (hs : Live φ n s) :
    Uses φ n s (bisectStepR φ.rnd f prec s) := by
  obtain ⟨l, ml, h, mh, el, eh, mx, hcase⟩ := hs
  by_cases hlt : l < h
  · unfold bisectStepR
    rw [if_neg (by simp [el, eh, hlt])]
    simp only [el, eh, EReal.toReal_coe]
    have hbt := mid_between φ ml mh hlt
    have hmem := φ.mem (φ.rnd (l + h) / 2)
    rcases hcase with hle | ⟨hx, hx', hn⟩
    · exact absurd hlt hle.not_gt
    split
    · exact .inl rfl
    · split
      · exact .inr (.inl rfl)
      · next hcv =>
        simp only [not_or] at hcv
        have h1 : l < φ.rnd (φ.rnd (l + h) / 2) := lt_of_le_of_ne hbt.1 (Ne.symm hcv.2.2.1)
        have h2 : φ.rnd (φ.rnd (l + h) / 2) < h := lt_of_le_of_ne hbt.2 hcv.2.2.2
        have hn' : 2 * inside φ l h + 1 ≤ n := by rcases hn with hn | ⟨-, -, hn⟩ <;> omega
        split
        · have := inside_lt hmem h1 h2 (le_refl l) h2.le (.inr le_rfl)
          refine .inr (.inr ⟨rfl, n - 1, by omega, l, ml, _, hmem, by first | exact el | rfl, rfl, hmem,
            .inr ⟨h1.le, le_rfl, .inl ?_⟩⟩)
          omega
        · have := inside_lt hmem h1 h2 h1.le (le_refl h) (.inl le_rfl)
          refine .inr (.inr ⟨rfl, n - 1, by omega, _, hmem, h, mh, rfl, by first | exact eh | rfl, hmem,
            .inr ⟨le_rfl, h2.le, .inl ?_⟩⟩)
          omega
  · left
    unfold bisectStepR
    rw [if_pos (.inl (by rw [el, eh, ge_iff_le, EReal.coe_le_coe_iff]; exact not_lt.1 hlt))]

theorem orElse_uses {n : ℕ} {a b : St → ℕ × St} {s : St} (ha : Uses φ n s (a s)) (hb : Uses φ n s (b s)) :
    Uses φ n s (orElse a b s) := by
  unfold orElse
  rcases ha with h | h | h
  · simp only [h, if_true]; exact hb
  · simp only [h]; rw [if_neg (by decide)]; exact .inr (.inl h)
  · simp only [h.1]; rw [if_neg (by decide)]; exact .inr (.inr h)

theorem iterate_done {step : St → ℕ × St} (h : ∀ n s, Live φ n s → Uses φ n s (step s)) :
    ∀ n s, Live φ n s → ∀ k, n + 1 ≤ k → iterate step k 1 s = iterate step (n + 1) 1 s ∧ (iterate step k 1 s).1 ≠ 1 := by
  have two : ∀ k s, iterate step k 2 s = (2, s) := by
    intro k s
    cases k with
    | zero => rfl
    | succ k => rw [iterate, if_pos rfl]
  have one : ∀ k s, (step s).1 = 1 → iterate step (k + 1) 1 s = iterate step k 1 (step s).2 := by
    intro k s e
    rw [iterate, if_neg (by decide)]
    simp only
    rw [if_neg (by omega), e]
  intro n
  induction n with
  | zero =>
    intro s hs k hk
    obtain ⟨k, rfl⟩ : ∃ j, k = j + 1 := ⟨k - 1, by omega⟩
    rcases h 0 s hs with e | e | ⟨e, m, hm, -⟩
    · simp [iterate, e]
    · rw [iterate, iterate]
      simp [e, two]
    · omega
  | succ n ih =>
    intro s hs k hk
    obtain ⟨k, rfl⟩ : ∃ j, k = j + 1 := ⟨k - 1, by omega⟩
    rcases h _ s hs with e | e | ⟨e, m, hm, hl⟩
    · simp [iterate, e]
    · rw [iterate, iterate]
      simp [e, two]
    · obtain rfl : m = n := by omega
      obtain ⟨i1, i2⟩ := ih _ hl k (by omega)
      rw [one k s e, one (m + 1) s e]
      exact ⟨i1, i2⟩

theorem newtonTurn_uses (f : Obj) (prec : ℝ) (n : ℕ) (s : St) (hs : Live φ n s) :
    Uses φ n s (newtonTurn φ.rnd f prec s) := orElse_uses (newtonStepR_uses hs) (bisectStepR_uses hs)

theorem halleyTurn_uses (f : Obj) (z : Bool) (prec : ℝ) (n : ℕ) (s : St) (hs : Live φ n s) :
    Uses φ n s (halleyTurn φ.rnd f z prec s) := orElse_uses (halleyStepR_uses hs) (newtonTurn_uses f prec n s hs)

theorem start_live (f : Obj) {x lo hi : ℝ} (hx : x ∈ φ.F) (ml : lo ∈ φ.F) (mh : hi ∈ φ.F) (hlo : lo ≤ x) (hhi : x ≤ hi) :
    Live φ (2 * inside φ lo hi + 2) ⟨x, lo, hi, f x⟩ :=
  ⟨lo, ml, hi, mh, rfl, rfl, hx, .inr ⟨hlo, hhi, .inl le_rfl⟩⟩

theorem solveWith_limit {f : Obj} {step : St → ℕ × St} (h : ∀ n s, Live φ n s → Uses φ n s (step s)) (m₁ m₂ : ℕ) (x lo hi : ℝ)
    (i₁ i₂ : ℕ) (hx : x ∈ φ.F) (ml : lo ∈ φ.F) (mh : hi ∈ φ.F) (hlo : lo ≤ x) (hhi : x ≤ hi)
    (h1 : 2 * inside φ lo hi + 4 ≤ iters m₁ i₁) (h2 : 2 * inside φ lo hi + 4 ≤ iters m₂ i₂) :
    solveWith step f m₁ x lo hi i₁ = solveWith step f m₂ x lo hi i₂ := by
  unfold solveWith
  split
  · rfl
  · have e1 := (iterate_done h _ _ (start_live f hx ml mh hlo hhi) (iters m₁ i₁ - 1) (by omega)).1
    have e2 := (iterate_done h _ _ (start_live f hx ml mh hlo hhi) (iters m₂ i₂ - 1) (by omega)).1
    rw [e1, e2]

/-- **C90**: on a finite bracket neither method runs for ever, whatever the function is: raising the iteration limit beyond twice
the number of representable numbers of the bracket (plus four) never changes the answer. -/
theorem C90_terminates (f : Obj) (z : Bool) (m₁ m₂ : ℕ) (prec x lo hi : ℝ) (i₁ i₂ : ℕ) (hx : x ∈ φ.F) (ml : lo ∈ φ.F)
    (mh : hi ∈ φ.F) (hlo : lo ≤ x) (hhi : x ≤ hi) (h1 : 2 * inside φ lo hi + 4 ≤ iters m₁ i₁)
    (h2 : 2 * inside φ lo hi + 4 ≤ iters m₂ i₂) :
    newtonR φ.rnd f m₁ prec x lo hi i₁ = newtonR φ.rnd f m₂ prec x lo hi i₂ ∧
    halleyR φ.rnd f z m₁ prec x lo hi i₁ = halleyR φ.rnd f z m₂ prec x lo hi i₂ :=
  ⟨solveWith_limit (newtonTurn_uses f prec) m₁ m₂ x lo hi i₁ i₂ hx ml mh hlo hhi h1 h2,
    solveWith_limit (halleyTurn_uses f z prec) m₁ m₂ x lo hi i₁ i₂ hx ml mh hlo hhi h1 h2⟩

/-! ## Functions that are monotone at the numbers of the bracket -/

theorem HonestR.ne {f : Obj} {lo hi x : ℝ} (hf : HonestR φ f lo hi) (hx : x ∈ φ.F) (h1 : lo ≤ x) (h2 : x ≤ hi) : f x 1 ≠ 0 := by
  rcases hf with ⟨-, h⟩ | ⟨-, h⟩
  · exact (h x ⟨hx, h1, h2⟩).ne'
  · exact (h x ⟨hx, h1, h2⟩).ne

theorem HonestR.towards {f : Obj} {lo hi l h x d : ℝ} (hf : HonestR φ f lo hi) (ml : l ∈ φ.F) (mh : h ∈ φ.F) (mx : x ∈ φ.F)
    (hl : lo ≤ l) (hlh : l < h) (hh : h ≤ hi) (hx : l ≤ x) (hx' : x ≤ h) (hs : SignChange (fun x => f x 0) l h)
    (hd : d * (f x 0 * f x 1) < 0) :
    (0 < d → SignChange (fun x => f x 0) x h) ∧ (d < 0 → SignChange (fun x => f x 0) l x) := by
  have il : l ∈ φ.F ∩ Set.Icc lo hi := ⟨ml, hl, by linarith⟩
  have ih : h ∈ φ.F ∩ Set.Icc lo hi := ⟨mh, by linarith, hh⟩
  have ix : x ∈ φ.F ∩ Set.Icc lo hi := ⟨mx, by linarith, by linarith⟩
  unfold SignChange at *
  rcases hf with ⟨hm, hp⟩ | ⟨hm, hp⟩
  · have h1 := hm il ih hlh.le
    have h2 := hp x ix
    simp only at h1
    have h3 : f l 0 < 0 ∧ 0 ≤ f h 0 := by
      rcases hs with h | h
      · exact h
      · exact absurd h1 (by linarith [h.1, h.2])
    constructor
    · intro hd'
      have : f x 0 < 0 := by
        by_contra hc
        have := mul_nonneg hd'.le (mul_nonneg (not_lt.1 hc) h2.le)
        linarith
      exact .inl ⟨this, h3.2⟩
    · intro hd'
      have : 0 < f x 0 := by
        by_contra hc
        have := mul_nonneg_of_nonpos_of_nonpos hd'.le (mul_nonpos_of_nonpos_of_nonneg (not_lt.1 hc) h2.le)
        linarith
      exact .inl ⟨h3.1, this.le⟩
  · have h1 := hm il ih hlh.le
    have h2 := hp x ix
    simp only at h1
    have h3 : 0 ≤ f l 0 ∧ f h 0 < 0 := by
      rcases hs with h | h
      · exact absurd h1 (by linarith [h.1, h.2])
      · exact h
    constructor
    · intro hd'
      have : 0 < f x 0 := by
        by_contra hc
        have := mul_nonneg hd'.le (mul_nonneg_of_nonpos_of_nonpos (not_lt.1 hc) h2.le)
        linarith
      exact .inr ⟨this.le, h3.2⟩
    · intro hd'
      have : f x 0 < 0 := by
        by_contra hc
        have := mul_nonneg_of_nonpos_of_nonpos hd'.le (mul_nonpos_of_nonneg_of_nonpos (not_lt.1 hc) h2.le)
        linarith
      exact .inr ⟨h3.1, this⟩

variable (φ) in
/-- The bracket still holds a change of sign. -/
def BracketedR (f : Obj) (lo hi : ℝ) (s : St) : Prop :=
  s.st = f s.x ∧ f s.x 0 ≠ 0 ∧ s.x ∈ φ.F ∧ ∃ l ∈ φ.F, ∃ h ∈ φ.F, s.lo = (l : ℝ) ∧ s.hi = (h : ℝ) ∧ lo ≤ l ∧ l < h ∧ h ≤ hi ∧
    l ≤ s.x ∧ s.x ≤ h ∧ SignChange (fun x => f x 0) l h

variable (φ) in
/-- The step was lost in rounding, and so was the precision: the bracket has collapsed. -/
def Trapped (prec : ℝ) (s : St) : Prop := ∃ y : ℝ, s.lo = (y : ℝ) ∧ s.hi = (y : ℝ) ∧ φ.rnd (prec * s.x) = 0

variable (φ) in
def KeepsR (f : Obj) (prec lo hi : ℝ) (s : St) (r : ℕ × St) : Prop :=
  r = (0, s) ∨ r.1 = 2 ∨ (r.1 = 1 ∧ (BracketedR φ f lo hi r.2 ∨ Trapped φ prec r.2))

theorem processStepR_keeps {f : Obj} {lo hi prec : ℝ} (hf : HonestR φ f lo hi) {s : St} (hs : BracketedR φ f lo hi s)
    (newX : ℝ) (hm : newX ∈ φ.F) (d1 : 0 < f s.x 0 * f s.x 1 → newX ≤ s.x) (d2 : f s.x 0 * f s.x 1 < 0 → s.x ≤ newX) :
    KeepsR φ f prec lo hi s (processStepR φ.rnd f prec s newX) := by
  obtain ⟨hst, hne, mx, l, ml, h, mh, el, eh, hl, hlh, hh, hx, hx', hsc⟩ := hs
  unfold processStepR
  split
  · exact .inl rfl
  · next hb =>
    rw [not_or, not_le, not_le, el, eh, EReal.coe_lt_coe_iff, EReal.coe_lt_coe_iff] at hb
    simp only
    split
    · exact .inr (.inl rfl)
    · next hcv =>
      rw [not_or] at hcv
      split
      · exact .inl rfl
      · refine .inr (.inr ⟨rfl, ?_⟩)
        have hprod : f s.x 0 * f s.x 1 ≠ 0 := mul_ne_zero hne (hf.ne mx (by linarith) (by linarith))
        rcases lt_trichotomy (φ.rnd (newX - s.x)) 0 with hneg | hz | hpos
        · rw [if_neg (by linarith), if_pos hneg.le]
          have hlt : newX < s.x := by
            by_contra hc
            exact absurd (rnd_nonneg (φ := φ) (sub_nonneg.2 (not_lt.1 hc))) hneg.not_ge
          have hp : 0 < f s.x 0 * f s.x 1 := by
            rcases lt_or_gt_of_ne hprod with q | q
            · linarith [d2 q]
            · exact q
          obtain ⟨-, t2⟩ := hf.towards ml mh mx hl hlh hh hx hx' hsc (d := newX - s.x) (mul_neg_of_neg_of_pos (by linarith) hp)
          exact .inl ⟨rfl, hcv.2, hm, l, ml, s.x, mx, el, rfl, hl, by linarith, by linarith, hb.2.le, hlt.le, t2 (by linarith)⟩
        · rw [if_pos hz.ge, if_pos hz.le]
          refine .inr ⟨s.x, rfl, rfl, ?_⟩
          have := hcv.1
          rw [hz, abs_zero, not_lt] at this
          exact abs_nonpos_iff.1 this
        · rw [if_pos hpos.le, if_neg (by linarith)]
          have hlt : s.x < newX := by
            by_contra hc
            exact absurd (rnd_nonpos (φ := φ) (sub_nonpos.2 (not_lt.1 hc))) hpos.not_ge
          have hp : f s.x 0 * f s.x 1 < 0 := by
            rcases lt_or_gt_of_ne hprod with q | q
            · exact q
            · linarith [d1 q]
          obtain ⟨t1, -⟩ := hf.towards ml mh mx hl hlh hh hx hx' hsc (d := newX - s.x) (mul_neg_of_pos_of_neg (by linarith) hp)
          exact .inl ⟨rfl, hcv.2, hm, s.x, mx, h, mh, rfl, eh, by linarith, by linarith, hh, hlt.le, hb.1.le, t1 (by linarith)⟩

theorem rnd_le {x y : ℝ} (hy : y ∈ φ.F) (h : x ≤ y) : φ.rnd x ≤ y := by
  have := φ.mono h
  rwa [φ.rnd_of_mem hy] at this

theorem le_rnd {x y : ℝ} (hy : y ∈ φ.F) (h : y ≤ x) : y ≤ φ.rnd x := by
  have := φ.mono h
  rwa [φ.rnd_of_mem hy] at this

theorem newtonStepR_keeps {f : Obj} {lo hi prec : ℝ} (hf : HonestR φ f lo hi) {s : St} (hs : BracketedR φ f lo hi s) :
    KeepsR φ f prec lo hi s (newtonStepR φ.rnd f prec s) := by
  unfold newtonStepR
  split
  · exact .inl rfl
  · rw [hs.1]
    refine processStepR_keeps hf hs _ (φ.mem _) (fun h => rnd_le hs.2.2.1 ?_) (fun h => le_rnd hs.2.2.1 ?_)
    · have := rnd_nonneg (φ := φ) (x := f s.x 0 / f s.x 1) (by
        rcases pos_and_pos_or_neg_and_neg_of_mul_pos h with ⟨a, b⟩ | ⟨a, b⟩
        · exact (div_pos a b).le
        · exact (div_pos_of_neg_of_neg a b).le)
      linarith
    · have := rnd_nonpos (φ := φ) (x := f s.x 0 / f s.x 1) (by
        rcases mul_neg_iff.1 h with ⟨a, b⟩ | ⟨a, b⟩
        · exact (div_neg_of_pos_of_neg a b).le
        · exact (div_neg_of_neg_of_pos a b).le)
      linarith

theorem halleyStepR_keeps {f : Obj} {z : Bool} {lo hi prec : ℝ} (hf : HonestR φ f lo hi) {s : St}
    (hs : BracketedR φ f lo hi s) : KeepsR φ f prec lo hi s (halleyStepR φ.rnd f z prec s) := by
  unfold halleyStepR
  simp only
  rw [hs.1]
  split
  · left; rfl
  · next hden =>
    split
    · left; rfl
    · next hsg =>
      have hpos : 0 < φ.rnd (φ.rnd (φ.rnd (2 * f s.x 1) * f s.x 1) - φ.rnd (f s.x 0 * f s.x 2)) := by
        rcases lt_or_gt_of_ne hden with hn | hp
        · exfalso
          apply hsg
          simp [sgn, hden, hn]
        · exact hp
      refine processStepR_keeps hf hs _ (φ.mem _) (fun h => rnd_le hs.2.2.1 ?_) (fun h => le_rnd hs.2.2.1 ?_)
      · have hnum : 0 ≤ φ.rnd (φ.rnd (2 * f s.x 0) * f s.x 1) := by
          refine rnd_nonneg ?_
          rcases pos_and_pos_or_neg_and_neg_of_mul_pos h with ⟨a, b⟩ | ⟨a, b⟩
          · exact mul_nonneg (rnd_nonneg (by linarith)) b.le
          · exact mul_nonneg_of_nonpos_of_nonpos (rnd_nonpos (by linarith)) b.le
        have := rnd_nonpos (φ := φ) (div_nonpos_of_nonpos_of_nonneg (neg_nonpos.2 hnum) hpos.le)
        linarith
      · have hnum : φ.rnd (φ.rnd (2 * f s.x 0) * f s.x 1) ≤ 0 := by
          refine rnd_nonpos ?_
          rcases mul_neg_iff.1 h with ⟨a, b⟩ | ⟨a, b⟩
          · exact mul_nonpos_of_nonneg_of_nonpos (rnd_nonneg (by linarith)) b.le
          · exact mul_nonpos_of_nonpos_of_nonneg (rnd_nonpos (by linarith)) b.le
        have := rnd_nonneg (φ := φ) (div_nonneg (neg_nonneg.2 hnum) hpos.le)
        linarith

theorem bisectStepR_keeps {f : Obj} {lo hi prec : ℝ} {s : St} (hs : BracketedR φ f lo hi s) :
    (bisectStepR φ.rnd f prec s).1 = 2 ∨
      ((bisectStepR φ.rnd f prec s).1 = 1 ∧ BracketedR φ f lo hi (bisectStepR φ.rnd f prec s).2) := by
  obtain ⟨hst, hne, mx, l, ml, h, mh, el, eh, hl, hlh, hh, hx, hx', hsc⟩ := id hs
  unfold bisectStepR
  rw [if_neg (by simp [el, eh, hlh])]
  simp only [el, eh, EReal.toReal_coe]
  rw [if_neg ((signbit_ne (f l 0) (f h 0)).2 hsc)]
  have hbt := mid_between φ ml mh hlh
  have hmem := φ.mem (φ.rnd (l + h) / 2)
  split
  · left; rfl
  · next hcv =>
    simp only [not_or] at hcv
    have h1 : l < φ.rnd (φ.rnd (l + h) / 2) := lt_of_le_of_ne hbt.1 (Ne.symm hcv.2.2.1)
    have h2 : φ.rnd (φ.rnd (l + h) / 2) < h := lt_of_le_of_ne hbt.2 hcv.2.2.2
    right
    split
    · next he =>
      refine ⟨rfl, rfl, hcv.2.1, hmem, l, ml, _, hmem, rfl, rfl, hl, h1, by linarith, h1.le, le_rfl, ?_⟩
      refine (signbit_ne (f l 0) (f _ 0)).1 ?_
      rw [he]; exact (signbit_ne (f l 0) (f h 0)).2 hsc
    · next he =>
      exact ⟨rfl, rfl, hcv.2.1, hmem, _, hmem, h, mh, rfl, rfl, by linarith, h2, hh, le_rfl, h2.le,
        (signbit_ne (f _ 0) (f h 0)).1 he⟩

variable (φ) in
/-- A turn of the loop from a bracketed or trapped state. -/
def GoesR (f : Obj) (prec lo hi : ℝ) (s : St) (r : ℕ × St) : Prop :=
  r.1 = 2 ∨ (r.1 = 1 ∧ (BracketedR φ f lo hi r.2 ∨ Trapped φ prec r.2)) ∨ (r = (0, s) ∧ Trapped φ prec s)

theorem orElse_goesR {f : Obj} {prec lo hi : ℝ} {a b : St → ℕ × St} {s : St}
    (ha : KeepsR φ f prec lo hi s (a s)) (hb : GoesR φ f prec lo hi s (b s)) : GoesR φ f prec lo hi s (orElse a b s) := by
  unfold orElse
  rcases ha with h | h | h
  · simp only [h, if_true]; exact hb
  · simp only [h]; rw [if_neg (by decide)]; exact .inl h
  · simp only [h.1]; rw [if_neg (by decide)]; exact .inr (.inl h)

theorem trapped_process {f : Obj} {prec : ℝ} {s : St} (h : Trapped φ prec s) (newX : ℝ) :
    processStepR φ.rnd f prec s newX = (0, s) := by
  obtain ⟨y, e1, e2, -⟩ := h
  unfold processStepR
  rw [if_pos]
  rw [e1, e2, EReal.coe_le_coe_iff, EReal.coe_le_coe_iff]
  exact le_total _ _

theorem trapped_newton {f : Obj} {prec : ℝ} {s : St} (h : Trapped φ prec s) : newtonStepR φ.rnd f prec s = (0, s) := by
  unfold newtonStepR
  split
  · rfl
  · exact trapped_process h _

theorem trapped_halley {f : Obj} {z : Bool} {prec : ℝ} {s : St} (h : Trapped φ prec s) :
    halleyStepR φ.rnd f z prec s = (0, s) := by
  unfold halleyStepR
  simp only
  split
  · rfl
  · split
    · rfl
    · exact trapped_process h _

theorem trapped_bisect {f : Obj} {prec : ℝ} {s : St} (h : Trapped φ prec s) : bisectStepR φ.rnd f prec s = (0, s) := by
  obtain ⟨y, e1, e2, -⟩ := h
  unfold bisectStepR
  rw [if_pos (.inl (by rw [e1, e2]))]

theorem newtonTurn_goes {f : Obj} {prec lo hi : ℝ} (hf : HonestR φ f lo hi) {s : St}
    (hs : BracketedR φ f lo hi s ∨ Trapped φ prec s) : GoesR φ f prec lo hi s (newtonTurn φ.rnd f prec s) := by
  rcases hs with hs | hs
  · refine orElse_goesR (newtonStepR_keeps hf hs) ?_
    rcases bisectStepR_keeps (prec := prec) hs with h | h
    · exact .inl h
    · exact .inr (.inl ⟨h.1, .inl h.2⟩)
  · exact orElse_goesR (.inl (trapped_newton hs)) (.inr (.inr ⟨trapped_bisect hs, hs⟩))

theorem halleyTurn_goes {f : Obj} {z : Bool} {prec lo hi : ℝ} (hf : HonestR φ f lo hi) {s : St}
    (hs : BracketedR φ f lo hi s ∨ Trapped φ prec s) : GoesR φ f prec lo hi s (halleyTurn φ.rnd f z prec s) := by
  refine orElse_goesR ?_ (newtonTurn_goes hf hs)
  rcases hs with hs | hs
  · exact halleyStepR_keeps hf hs
  · exact .inl (trapped_halley hs)

theorem iterate_goesR {f : Obj} {prec lo hi : ℝ} {step : St → ℕ × St}
    (h : ∀ s, BracketedR φ f lo hi s ∨ Trapped φ prec s → GoesR φ f prec lo hi s (step s)) :
    ∀ n s, BracketedR φ f lo hi s ∨ Trapped φ prec s → (iterate step n 1 s).1 = 2 ∨
      (iterate step n 1 s).1 = 1 ∨ Trapped φ prec (iterate step n 1 s).2
  | 0, s, hs => .inr (.inl rfl)
  | n + 1, s, hs => by
    rw [iterate, if_neg (by decide)]
    simp only
    rcases h s hs with h2 | ⟨h1, hb⟩ | ⟨h0, ht⟩
    · rw [if_neg (by omega), h2]
      left
      cases n with
      | zero => rfl
      | succ n => rw [iterate, if_pos rfl]
    · rw [if_neg (by omega), h1]
      exact iterate_goesR h n _ hb
    · rw [h0]
      exact .inr (.inr ht)

/-- **C90**: on a finite bracket whose ends have computed values of opposite sign, for a computed function that never turns back on
the bracket and has a first derivative of the right sign, `newton_raphson` and `halleys_method` always succeed if the iteration limit
allows twice the numbers of the bracket plus four - with one exception: they may stop with a failure at a number so small that
its product with the precision underflows to zero. -/
theorem C90_monotone (f : Obj) (z : Bool) (maxSize : ℕ) (prec x lo hi : ℝ) (iterations : ℕ) (hx : x ∈ φ.F) (ml : lo ∈ φ.F)
    (mh : hi ∈ φ.F) (hlt : lo < hi) (hlo : lo ≤ x) (hhi : x ≤ hi) (hf : HonestR φ f lo hi)
    (hs : SignChange (fun x => f x 0) lo hi) (hn : 2 * inside φ lo hi + 4 ≤ iters maxSize iterations) :
    (∃ x', newtonR φ.rnd f maxSize prec x lo hi iterations = (true, x') ∨
      newtonR φ.rnd f maxSize prec x lo hi iterations = (false, x') ∧ φ.rnd (prec * x') = 0) ∧
    (∃ x', halleyR φ.rnd f z maxSize prec x lo hi iterations = (true, x') ∨
      halleyR φ.rnd f z maxSize prec x lo hi iterations = (false, x') ∧ φ.rnd (prec * x') = 0) := by
  have key : ∀ step : St → ℕ × St, (∀ s, BracketedR φ f lo hi s ∨ Trapped φ prec s → GoesR φ f prec lo hi s (step s)) →
      (∀ n s, Live φ n s → Uses φ n s (step s)) → ∃ x', solveWith step f maxSize x lo hi iterations = (true, x') ∨
        solveWith step f maxSize x lo hi iterations = (false, x') ∧ φ.rnd (prec * x') = 0 := by
    intro step h1 h2
    unfold solveWith
    split
    · exact ⟨x, .inl rfl⟩
    · next h0 =>
      have hl := (iterate_done h2 _ _ (start_live f hx ml mh hlo hhi) (iters maxSize iterations - 1) (by omega)).2
      have hb := iterate_goesR h1 (iters maxSize iterations - 1) ⟨x, lo, hi, f x⟩
        (.inl ⟨rfl, h0, hx, lo, ml, hi, mh, rfl, rfl, le_rfl, hlt, le_rfl, hlo, hhi, hs⟩)
      simp only
      generalize iterate step (iters maxSize iterations - 1) 1 ⟨x, lo, hi, f x⟩ = r at *
      refine ⟨r.2.x, ?_⟩
      by_cases e : r.1 = 2
      · left; simp [e]
      · rcases hb with q | q | ⟨-, -, -, q⟩
        · exact absurd q e
        · exact absurd q hl
        · right; exact ⟨by simp [e], q⟩
  exact ⟨key _ (fun s => newtonTurn_goes hf) (newtonTurn_uses f prec), key _ (fun s => halleyTurn_goes hf) (halleyTurn_uses f z prec)⟩

/-- **C90**: away from zero there is no exception. -/
theorem C90_monotone_success (f : Obj) (z : Bool) (maxSize : ℕ) (prec x lo hi : ℝ) (iterations : ℕ) (hx : x ∈ φ.F) (ml : lo ∈ φ.F)
    (mh : hi ∈ φ.F) (hlt : lo < hi) (hlo : lo ≤ x) (hhi : x ≤ hi) (hf : HonestR φ f lo hi)
    (hs : SignChange (fun x => f x 0) lo hi) (hn : 2 * inside φ lo hi + 4 ≤ iters maxSize iterations)
    (hp : ∀ y ∈ φ.F, lo ≤ y → y ≤ hi → φ.rnd (prec * y) ≠ 0) :
    (∃ x', newtonR φ.rnd f maxSize prec x lo hi iterations = (true, x')) ∧
    (∃ x', halleyR φ.rnd f z maxSize prec x lo hi iterations = (true, x')) := by
  obtain ⟨⟨x₁, h1⟩, x₂, h2⟩ := C90_monotone f z maxSize prec x lo hi iterations hx ml mh hlt hlo hhi hf hs hn
  constructor
  · rcases h1 with h | ⟨h, h0⟩
    · exact ⟨_, h⟩
    · obtain ⟨a, b, c, -⟩ := C90_newton f maxSize prec x lo hi iterations hx (.real ml) (.real mh) (EReal.coe_le_coe_iff.2 hlo)
        (EReal.coe_le_coe_iff.2 hhi) _ _ h
      exact absurd h0 (hp _ a (EReal.coe_le_coe_iff.1 b) (EReal.coe_le_coe_iff.1 c))
  · rcases h2 with h | ⟨h, h0⟩
    · exact ⟨_, h⟩
    · obtain ⟨a, b, c, -⟩ := C90_halley f z maxSize prec x lo hi iterations hx (.real ml) (.real mh) (EReal.coe_le_coe_iff.2 hlo)
        (EReal.coe_le_coe_iff.2 hhi) _ _ h
      exact absurd h0 (hp _ a (EReal.coe_le_coe_iff.1 b) (EReal.coe_le_coe_iff.1 c))

/-! ## The exception is real -/

/-- `4 x + 2^-1074` and its derivatives. -/
noncomputable def tinyObj : Obj := fun x n => if n = 0 then 4 * x + 2 ^ (-1074 : ℤ) else if n = 1 then 4 else 0

theorem quarter_lost : binRnd 53 (-1074) (2 ^ (-1076 : ℤ)) = 0 := by
  have hl : Int.log 2 |(2 : ℝ) ^ (-1076 : ℤ)| = -1076 := by
    rw [abs_of_pos (two_zpow_pos _)]
    exact_mod_cast Int.log_zpow (R := ℝ) (b := 2) (by norm_num) (-1076)
  have hu : ulpExp 53 (-1074) (2 ^ (-1076 : ℤ)) = -1074 := by
    unfold ulpExp
    rw [hl]
    norm_num
  unfold binRnd
  rw [hu, ← zpow_sub₀ (by norm_num)]
  norm_num

theorem quarter_lost' : binRnd 53 (-1074) (-2 ^ (-1076 : ℤ)) = 0 := by
  have hl : Int.log 2 |-(2 : ℝ) ^ (-1076 : ℤ)| = -1076 := by
    rw [abs_neg, abs_of_pos (two_zpow_pos _)]
    exact_mod_cast Int.log_zpow (R := ℝ) (b := 2) (by norm_num) (-1076)
  have hu : ulpExp 53 (-1074) (-2 ^ (-1076 : ℤ)) = -1074 := by
    unfold ulpExp
    rw [hl]
    norm_num
  unfold binRnd
  rw [hu, neg_div, ← zpow_sub₀ (by norm_num)]
  norm_num

theorem solveWith_trapped {f : Obj} {step : St → ℕ × St} {maxSize iterations : ℕ} {x : ℝ} {lo hi : EReal} {s : St} (h0 : f x 0 ≠ 0)
    (h1 : step ⟨x, lo, hi, f x⟩ = (1, s)) (h2 : step s = (0, s)) (hn : 3 ≤ iters maxSize iterations) :
    solveWith step f maxSize x lo hi iterations = (false, s.x) := by
  unfold solveWith
  rw [if_neg h0]
  obtain ⟨k, hk⟩ : ∃ k, iters maxSize iterations - 1 = k + 1 + 1 := ⟨iters maxSize iterations - 3, by omega⟩
  rw [hk, iterate, if_neg (by decide)]
  simp only [h1]
  rw [if_neg (by decide), iterate, if_neg (by decide)]
  simp [h2]

/-- **C90**: on `double`, for the increasing function `4 x + 2^-1074` on `[-1, 1]`, started at 0 (the number nearest to the root),
both methods give up, whatever the precision and however many iterations are allowed: the step underflows to zero, the precision is
relative to zero, so no convergence is seen and both bounds are moved to 0. -/
theorem C90_zero_trap (z : Bool) (maxSize : ℕ) (prec : ℝ) (iterations : ℕ) (hn : 3 ≤ iters maxSize iterations) :
    newtonR binary64.rnd tinyObj maxSize prec 0 ((-1 : ℝ) : EReal) ((1 : ℝ) : EReal) iterations = (false, 0) ∧
    halleyR binary64.rnd tinyObj z maxSize prec 0 ((-1 : ℝ) : EReal) ((1 : ℝ) : EReal) iterations = (false, 0) ∧
    HonestR binary64 tinyObj (-1) 1 ∧ SignChange (fun x => tinyObj x 0) (-1) 1 := by
  have r0 : binary64.rnd 0 = 0 := binary64.rnd_of_mem binary64.zero
  have hpos := two_zpow_pos (-1074)
  have hlt1 : (2 : ℝ) ^ (-1074 : ℤ) < 1 := by
    have := zpow_lt_zpow_right₀ (a := (2 : ℝ)) (by norm_num) (show (-1074 : ℤ) < 0 by norm_num)
    simpa using this
  have f0 : tinyObj 0 0 = 2 ^ (-1074 : ℤ) := by simp [tinyObj]
  have f1 : ∀ x, tinyObj x 1 = 4 := fun x => by simp [tinyObj]
  have f2 : ∀ x, tinyObj x 2 = 0 := fun x => by simp [tinyObj]
  have hp : processStepR binary64.rnd tinyObj prec ⟨0, ((-1 : ℝ) : EReal), ((1 : ℝ) : EReal), tinyObj 0⟩ 0 =
      (1, ⟨0, ((0 : ℝ) : EReal), ((0 : ℝ) : EReal), tinyObj 0⟩) := by
    unfold processStepR
    rw [if_neg (by
      rw [EReal.coe_le_coe_iff, EReal.coe_le_coe_iff]
      norm_num)]
    simp only [sub_self, r0, mul_zero, abs_zero, lt_irrefl, f0, false_or, if_neg hpos.ne', ge_iff_le, le_refl, if_true, if_false, gt_iff_lt]
  have hn1 : newtonStepR binary64.rnd tinyObj prec ⟨0, ((-1 : ℝ) : EReal), ((1 : ℝ) : EReal), tinyObj 0⟩ =
      (1, ⟨0, ((0 : ℝ) : EReal), ((0 : ℝ) : EReal), tinyObj 0⟩) := by
    unfold newtonStepR
    dsimp only
    rw [if_neg (by rw [f1]; norm_num)]
    rw [f0, f1, show (2 : ℝ) ^ (-1074 : ℤ) / 4 = 2 ^ (-1076 : ℤ) by
      rw [show (4 : ℝ) = 2 ^ (2 : ℤ) by norm_num, ← zpow_sub₀ (by norm_num)]; norm_num]
    rw [show binary64.rnd (2 ^ (-1076 : ℤ)) = 0 from quarter_lost, sub_zero, r0]
    exact hp
  have mem : ∀ k : ℤ, -1074 ≤ k → (2 : ℝ) ^ k ∈ binary64.F := by
    intro k hk
    have := binF_of_le (p := 53) (by norm_num) (m := 1) hk (by norm_num)
    rwa [Int.cast_one, one_mul] at this
  have hh1 : halleyStepR binary64.rnd tinyObj z prec ⟨0, ((-1 : ℝ) : EReal), ((1 : ℝ) : EReal), tinyObj 0⟩ =
      (1, ⟨0, ((0 : ℝ) : EReal), ((0 : ℝ) : EReal), tinyObj 0⟩) := by
    have d1 : binary64.rnd (2 * 4 : ℝ) = 8 := by
      rw [show (2 * 4 : ℝ) = 2 ^ (3 : ℤ) by norm_num, binary64.rnd_of_mem (mem _ (by norm_num))]; norm_num
    have d2 : binary64.rnd (8 * 4 : ℝ) = 32 := by
      rw [show (8 * 4 : ℝ) = 2 ^ (5 : ℤ) by norm_num, binary64.rnd_of_mem (mem _ (by norm_num))]; norm_num
    have d3 : binary64.rnd (32 : ℝ) = 32 := by
      rw [show (32 : ℝ) = 2 ^ (5 : ℤ) by norm_num, binary64.rnd_of_mem (mem _ (by norm_num))]
    have n1 : binary64.rnd (2 * 2 ^ (-1074 : ℤ)) = 2 ^ (-1073 : ℤ) := by
      rw [show (2 : ℝ) * 2 ^ (-1074 : ℤ) = 2 ^ (-1073 : ℤ) by
        rw [show (-1073 : ℤ) = 1 + -1074 by norm_num, zpow_add₀ (by norm_num), zpow_one],
        binary64.rnd_of_mem (mem _ (by norm_num))]
    have n2 : binary64.rnd (2 ^ (-1073 : ℤ) * 4) = 2 ^ (-1071 : ℤ) := by
      rw [show (2 : ℝ) ^ (-1073 : ℤ) * 4 = 2 ^ (-1071 : ℤ) by
        rw [show (-1071 : ℤ) = -1073 + 2 by norm_num, zpow_add₀ (by norm_num)]; norm_num,
        binary64.rnd_of_mem (mem _ (by norm_num))]
    have n3 : -(2 : ℝ) ^ (-1071 : ℤ) / 32 = -2 ^ (-1076 : ℤ) := by
      rw [neg_div, show (32 : ℝ) = 2 ^ (5 : ℤ) by norm_num, ← zpow_sub₀ (by norm_num)]; norm_num
    unfold halleyStepR
    simp only [f0, f1, f2, d1, d2, d3, mul_zero, r0, sub_zero, n1, n2, n3]
    rw [if_neg (by norm_num)]
    rw [show binary64.rnd (-2 ^ (-1076 : ℤ)) = 0 from quarter_lost', add_zero, r0, hp]
    have s1 : sgn z ((2 : ℝ) ^ (-1074 : ℤ)) = false := by
      unfold sgn; rw [if_neg hpos.ne']; exact decide_eq_false hpos.not_gt
    have s2 : sgn z (4 : ℝ) = false := by unfold sgn; norm_num
    have s3 : sgn z (32 : ℝ) = false := by unfold sgn; norm_num
    rw [s1, s2, s3]
    rfl
  have tr : Trapped binary64 prec ⟨0, ((0 : ℝ) : EReal), ((0 : ℝ) : EReal), tinyObj 0⟩ := ⟨0, rfl, rfl, by rw [mul_zero]; exact r0⟩
  have hne : tinyObj 0 0 ≠ 0 := by rw [f0]; exact hpos.ne'
  have t1 : newtonTurn binary64.rnd tinyObj prec ⟨0, ((-1 : ℝ) : EReal), ((1 : ℝ) : EReal), tinyObj 0⟩ =
      (1, ⟨0, ((0 : ℝ) : EReal), ((0 : ℝ) : EReal), tinyObj 0⟩) := by
    unfold newtonTurn orElse
    rw [hn1]
    rfl
  have t2 : newtonTurn binary64.rnd tinyObj prec ⟨0, ((0 : ℝ) : EReal), ((0 : ℝ) : EReal), tinyObj 0⟩ =
      (0, ⟨0, ((0 : ℝ) : EReal), ((0 : ℝ) : EReal), tinyObj 0⟩) := by
    unfold newtonTurn orElse
    simp only [trapped_newton tr, if_true, trapped_bisect tr]
  refine ⟨solveWith_trapped hne t1 t2 hn, solveWith_trapped (s := ⟨0, ((0 : ℝ) : EReal), ((0 : ℝ) : EReal), tinyObj 0⟩) hne ?_ ?_ hn,
    .inl ⟨fun a _ b _ h => ?_, fun x _ => ?_⟩, .inl ⟨?_, ?_⟩⟩
  · unfold halleyTurn orElse
    rw [hh1]
    rfl
  · unfold halleyTurn orElse
    simp only [trapped_halley tr, if_true, t2]
  · simp only [tinyObj, if_true]; linarith
  · rw [f1]; norm_num
  · simp only [tinyObj, if_true]; linarith
  · simp only [tinyObj, if_true]; linarith

/-- Between 1 and 2 there are fewer than `2^52` numbers of type `double`. -/
theorem inside_double : inside binary64 1 2 ≤ 2 ^ 52 := by
  have hsub : binary64.F ∩ Set.Ioo 1 2 ⊆ (fun k : ℤ => (k : ℝ) * 2 ^ (-52 : ℤ)) '' (Finset.Ioc (2 ^ 52) (2 ^ 53) : Finset ℤ) := by
    rintro y ⟨⟨m, e, -, hm, rfl⟩, h1, h2⟩
    have hm' : (m : ℝ) < 2 ^ (53 : ℤ) := by
      have : m < 2 ^ 53 := (le_abs_self m).trans_lt hm
      exact_mod_cast this
    have he : -52 ≤ e := by
      by_contra hc
      have h3 : (2 : ℝ) ^ e ≤ 2 ^ (-53 : ℤ) := zpow_le_zpow_right₀ (by norm_num) (by omega)
      have h4 : (m : ℝ) * 2 ^ e ≤ 2 ^ (53 : ℤ) * 2 ^ e := mul_le_mul_of_nonneg_right hm'.le (two_zpow_pos e).le
      have h5 : (2 : ℝ) ^ (53 : ℤ) * 2 ^ e ≤ 2 ^ (53 : ℤ) * 2 ^ (-53 : ℤ) := mul_le_mul_of_nonneg_left h3 (two_zpow_pos 53).le
      rw [show (2 : ℝ) ^ (53 : ℤ) * 2 ^ (-53 : ℤ) = 1 by norm_num] at h5
      linarith
    refine ⟨m * 2 ^ (e + 52).toNat, ?_, ?_⟩
    · have e1 : ((m * 2 ^ (e + 52).toNat : ℤ) : ℝ) = m * 2 ^ e * 2 ^ (52 : ℤ) := by
        push_cast
        rw [mul_assoc, ← zpow_natCast, ← zpow_add₀ (by norm_num)]
        congr 2
        omega
      rw [Finset.mem_coe, Finset.mem_Ioc]
      constructor
      · have : (2 : ℝ) ^ 52 < ((m * 2 ^ (e + 52).toNat : ℤ) : ℝ) := by
          rw [e1]; norm_num; linarith
        exact_mod_cast this
      · have : ((m * 2 ^ (e + 52).toNat : ℤ) : ℝ) ≤ (2 : ℝ) ^ 53 := by
          rw [e1]; norm_num; linarith
        exact_mod_cast this
    · push_cast
      rw [mul_assoc, ← zpow_natCast, ← zpow_add₀ (by norm_num)]
      congr 2
      omega
  have h1 := Set.ncard_le_ncard hsub ((Finset.finite_toSet _).image _)
  have h2 := Set.ncard_image_le (f := fun k : ℤ => (k : ℝ) * 2 ^ (-52 : ℤ)) (Finset.finite_toSet (Finset.Ioc (2 ^ 52 : ℤ) (2 ^ 53)))
  rw [Set.ncard_coe_finset, Int.card_Ioc] at h2
  exact h1.trans (h2.trans (by norm_num))

/-- The hypotheses of `C90_terminates` and `C90_newton`, for `double` and `[1, 2]`: the default limit, `2^64 - 1`, is never what ends
the search. -/
example (f : Obj) (prec : ℝ) (n : ℕ) (hn : 2 ^ 53 + 4 ≤ n) :
    newtonR binary64.rnd f (2 ^ 64 - 1) prec (3 / 2) (1 : ℝ) (2 : ℝ) 0 =
      newtonR binary64.rnd f (2 ^ 64 - 1) prec (3 / 2) (1 : ℝ) (2 : ℝ) n := by
  have m3 : (3 / 2 : ℝ) ∈ binary64.F := by
    have := binF_of_le (p := 53) (by norm_num) (m := 3) (e := -1) (emin := -1074) (by norm_num) (by norm_num)
    rwa [show ((3 : ℤ) : ℝ) * 2 ^ (-1 : ℤ) = 3 / 2 by norm_num] at this
  have hi := inside_double
  refine (C90_terminates f false _ _ prec (3 / 2) 1 2 _ _ m3 binary64.one binary64.two (by norm_num) (by norm_num) ?_ ?_).1
  · unfold iters; rw [if_pos rfl]; omega
  · unfold iters; rw [if_neg (by omega)]; omega

/-- The hypotheses of `C90_monotone_success` hold for `x - 3/2` on `[1, 2]` with the default precision of `double`. -/
example : HonestR binary64 (fun x n => if n = 0 then x - 3 / 2 else 1) 1 2 ∧
    SignChange (fun x => (fun x n => if n = 0 then x - 3 / 2 else 1 : Obj) x 0) 1 2 ∧
    ∀ y ∈ binary64.F, (1 : ℝ) ≤ y → y ≤ 2 → binary64.rnd (2 ^ (-25 : ℤ) * y) ≠ 0 := by
  refine ⟨.inl ⟨fun a _ b _ h => by simpa using h, fun _ _ => by norm_num⟩, by norm_num [SignChange], fun y _ h1 _ => ?_⟩
  have mem : (2 : ℝ) ^ (-25 : ℤ) ∈ binary64.F := by
    have := binF_of_le (p := 53) (by norm_num) (m := 1) (e := -25) (emin := -1074) (by norm_num) (by norm_num)
    rwa [Int.cast_one, one_mul] at this
  have hpos := two_zpow_pos (-25)
  have := le_rnd mem (x := (2 : ℝ) ^ (-25 : ℤ) * y) (by nlinarith)
  linarith

end Stator.Fp
