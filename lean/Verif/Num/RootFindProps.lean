import Verif.Num.RootFind
import Mathlib.Topology.Order.IntermediateValue
import Mathlib.Topology.Instances.Real.Lemmas
import Mathlib.Tactic.NormNum
import Mathlib.Tactic.FieldSimp
import Mathlib.Tactic.Linarith
import Mathlib.Tactic.Positivity

/-! # Properties C34 and C35: iterative root finding -/

namespace Stator.Num

/-! ## C34: bisection -/

/-- The values at the ends of `[l, h]` have different signs (zero counts as positive). -/
def SignChange (f : ℝ → ℝ) (l h : ℝ) : Prop := (f l < 0 ∧ 0 ≤ f h) ∨ (0 ≤ f l ∧ f h < 0)

theorem signbit_ne (a b : ℝ) : signbit a ≠ signbit b ↔ (a < 0 ∧ 0 ≤ b) ∨ (0 ≤ a ∧ b < 0) := by
  unfold signbit
  by_cases ha : a < 0 <;> by_cases hb : b < 0 <;> simp [ha, hb] <;> first | linarith | skip

theorem SignChange.root {f : ℝ → ℝ} {l h : ℝ} (hs : SignChange f l h) (hlh : l ≤ h)
    (hc : ContinuousOn f (Set.Icc l h)) : ∃ c, l ≤ c ∧ c ≤ h ∧ f c = 0 := by
  rcases hs with ⟨h1, h2⟩ | ⟨h1, h2⟩
  · obtain ⟨c, hc, e⟩ := intermediate_value_Icc hlh hc ⟨h1.le, h2⟩
    exact ⟨c, hc.1, hc.2, e⟩
  · obtain ⟨c, hc, e⟩ := intermediate_value_Icc' hlh hc ⟨h2.le, h1⟩
    exact ⟨c, hc.1, hc.2, e⟩

/-- **C34**: the bracket. However often the loop has run, either it has converged or it goes on with
a sub-interval with a sign change, of length `(hi - lo) / 2ⁿ`. -/
theorem C34_bracket (f : ℝ → ℝ) (prec x : ℝ) : ∀ (n : ℕ) (lo hi : ℝ), lo < hi →
    SignChange f lo hi →
    (∃ x', ∀ m, bisectLoop f prec x (n + m) lo hi (signbit (f hi)) = some x') ∨
    ∃ l h, (∀ m, bisectLoop f prec x (n + m) lo hi (signbit (f hi)) =
        bisectLoop f prec x m l h (signbit (f h))) ∧
      lo ≤ l ∧ h ≤ hi ∧ h - l = (hi - lo) / 2 ^ n ∧ SignChange f l h := by
  intro n
  induction n with
  | zero => intro lo hi _ hs; exact .inr ⟨lo, hi, by simp, le_refl _, le_refl _, by simp, hs⟩
  | succ n ih =>
    intro lo hi hlt hs
    have e : ∀ m, n + 1 + m = (n + m) + 1 := fun m => by omega
    simp only [e, bisectLoop]
    by_cases hstop : |(lo + hi) / 2 - x| < |prec * ((lo + hi) / 2)| ∨ f ((lo + hi) / 2) = 0 ∨
        (lo + hi) / 2 = lo ∨ (lo + hi) / 2 = hi
    · left
      exact ⟨_, fun m => by rw [if_pos hstop]⟩
    · simp only [if_neg hstop]
      by_cases hsg : signbit (f ((lo + hi) / 2)) = signbit (f hi)
      · simp only [if_pos hsg]
        have hs' : SignChange f lo ((lo + hi) / 2) := by
          have := (signbit_ne (f lo) (f hi)).2 hs
          exact (signbit_ne _ _).1 (by rw [hsg]; exact this)
        rcases ih lo ((lo + hi) / 2) (by linarith) hs' with h | ⟨l, h, e1, e2, e3, e4, e5⟩
        · exact .inl h
        · exact .inr ⟨l, h, e1, e2, by linarith, by rw [e4, pow_succ]; field_simp; ring, e5⟩
      · simp only [if_neg hsg]
        have hs' : SignChange f ((lo + hi) / 2) hi := (signbit_ne _ _).1 hsg
        rcases ih ((lo + hi) / 2) hi (by linarith) hs' with h | ⟨l, h, e1, e2, e3, e4, e5⟩
        · exact .inl h
        · exact .inr ⟨l, h, e1, by linarith, e3, by rw [e4, pow_succ]; field_simp; ring, e5⟩

theorem bisectLoop_sound (f : ℝ → ℝ) (prec x a b : ℝ) (hx : x = a ∨ x = b)
    (hcont : ContinuousOn f (Set.Icc a b)) : ∀ (n : ℕ) (lo hi m : ℝ), lo < hi → a ≤ lo → hi ≤ b →
    SignChange f lo hi → bisectLoop f prec x n lo hi (signbit (f hi)) = some m →
    lo < m ∧ m < hi ∧ ∃ c, lo ≤ c ∧ c ≤ hi ∧ f c = 0 ∧ |m - c| ≤ |prec * m| := by
  intro n
  induction n with
  | zero => intro lo hi m _ _ _ _ h; simp [bisectLoop] at h
  | succ n ih =>
    intro lo hi m hlt ha hb hs h
    rw [bisectLoop] at h
    split at h
    · next hstop =>
      cases h
      refine ⟨by linarith, by linarith, ?_⟩
      rcases hstop with h | h | h | h
      · obtain ⟨c, h1, h2, h3⟩ := hs.root hlt.le (hcont.mono (Set.Icc_subset_Icc ha hb))
        refine ⟨c, h1, h2, h3, le_trans ?_ h.le⟩
        have hmc : |(lo + hi) / 2 - c| ≤ (hi - lo) / 2 := abs_le.2 ⟨by linarith, by linarith⟩
        refine hmc.trans ?_
        rcases hx with rfl | rfl
        · exact le_trans (by linarith) (le_abs_self _)
        · exact le_trans (by linarith) (neg_le_abs _)
      · exact ⟨_, by linarith, by linarith, h, by rw [sub_self, abs_zero]; exact abs_nonneg _⟩
      · exfalso; linarith
      · exfalso; linarith
    · split at h
      · next hsg =>
        have hs' : SignChange f lo ((lo + hi) / 2) := by
          have := (signbit_ne (f lo) (f hi)).2 hs
          exact (signbit_ne _ _).1 (by rw [hsg]; exact this)
        obtain ⟨h1, h2, c, h3, h4, h5⟩ := ih lo _ m (by linarith) ha (by linarith) hs' h
        exact ⟨h1, by linarith, c, h3, by linarith, h5⟩
      · next hsg =>
        have hs' : SignChange f ((lo + hi) / 2) hi := (signbit_ne _ _).1 hsg
        obtain ⟨h1, h2, c, h3, h4, h5⟩ := ih _ hi m (by linarith) (by linarith) hb hs' h
        exact ⟨by linarith, h2, c, by linarith, h4, h5⟩

/-- **C34**: a success of `bisection` is not false: for a function continuous on the interval, the
returned point lies inside the interval and within the requested relative precision of a root. -/
theorem C34_success (f : ℝ → ℝ) (maxSize : ℕ) (prec x lo hi : ℝ) (iterations : ℕ) (x' : ℝ)
    (hcont : ContinuousOn f (Set.Icc lo hi))
    (h : bisection f maxSize prec x lo hi iterations = (true, x')) :
    lo < x' ∧ x' < hi ∧ ∃ c, lo ≤ c ∧ c ≤ hi ∧ f c = 0 ∧ |x' - c| ≤ |prec * x'| := by
  unfold bisection at h
  split at h
  · simp at h
  · next hlt =>
    split at h
    · simp at h
    · next hs =>
      simp only at h
      split at h
      · next m hm =>
        cases h
        refine bisectLoop_sound f prec _ lo hi ?_ hcont _ lo hi _ (not_le.1 hlt) (le_refl _)
          (le_refl _) ((signbit_ne _ _).1 hs) hm
        split <;> simp
      · simp at h

/-- **C34**: without a sign change, or for an empty interval, it fails and leaves `x` alone. -/
theorem C34_rejects (f : ℝ → ℝ) (maxSize : ℕ) (prec x lo hi : ℝ) (iterations : ℕ)
    (h : hi ≤ lo ∨ ¬ SignChange f lo hi) :
    bisection f maxSize prec x lo hi iterations = (false, x) := by
  unfold bisection
  by_cases hlt : hi ≤ lo
  · rw [if_pos hlt]
  · rw [if_neg hlt, if_pos]
    by_contra hs
    rcases h with h | h
    · exact hlt h
    · exact h ((signbit_ne _ _).1 hs)

/-- **C34**: if it fails on a valid bracket, `x` is the end point with the smaller function value. -/
theorem C34_failure (f : ℝ → ℝ) (maxSize : ℕ) (prec x lo hi : ℝ) (iterations : ℕ) (x' : ℝ)
    (hlt : lo < hi) (hs : SignChange f lo hi)
    (h : bisection f maxSize prec x lo hi iterations = (false, x')) :
    (x' = lo ∨ x' = hi) ∧ |f x'| ≤ |f lo| ∧ |f x'| ≤ |f hi| := by
  unfold bisection at h
  rw [if_neg (not_le.2 hlt), if_neg ((signbit_ne _ _).2 hs)] at h
  simp only at h
  split at h
  · simp at h
  · cases h
    split
    · next hl => exact ⟨.inl rfl, le_refl _, hl.le⟩
    · next hl => exact ⟨.inr rfl, not_lt.1 hl, le_refl _⟩

/-- **C34**: the requested precision does not make it stop, because `x` is not updated inside the
loop: for `f(x) = x - 1/3` on `[0, 1]` and any precision `≤ 1`, exact bisection never converges,
however many iterations are allowed (in floating point only the exhaustion of the mantissa ends it). -/
theorem C34_precision_ignored (maxSize : ℕ) (prec x : ℝ) (hp0 : 0 ≤ prec) (hp : prec ≤ 1)
    (iterations : ℕ) :
    bisection (fun x => x - 1 / 3) maxSize prec x 0 1 iterations = (false, 0) := by
  have key : ∀ (n k a : ℕ) (s : Bool),
      bisectLoop (fun x => x - 1 / 3) prec 0 n ((a : ℝ) / 2 ^ k) (((a : ℝ) + 1) / 2 ^ k) s = none := by
    intro n
    induction n with
    | zero => intro k a s; rfl
    | succ n ih =>
      intro k a s
      rw [bisectLoop]
      have hmid : ((a : ℝ) / 2 ^ k + ((a : ℝ) + 1) / 2 ^ k) / 2 = ((2 * a + 1 : ℕ) : ℝ) / 2 ^ (k + 1) := by
        rw [pow_succ]; push_cast; field_simp; ring
      have hpos : (0 : ℝ) < ((2 * a + 1 : ℕ) : ℝ) / 2 ^ (k + 1) := by positivity
      have hk : (0 : ℝ) < 2 ^ k := by positivity
      have hstop : ¬ (|((2 * a + 1 : ℕ) : ℝ) / 2 ^ (k + 1) - 0| < |prec * (((2 * a + 1 : ℕ) : ℝ) / 2 ^ (k + 1))| ∨
          ((2 * a + 1 : ℕ) : ℝ) / 2 ^ (k + 1) - 1 / 3 = 0 ∨
          ((2 * a + 1 : ℕ) : ℝ) / 2 ^ (k + 1) = (a : ℝ) / 2 ^ k ∨
          ((2 * a + 1 : ℕ) : ℝ) / 2 ^ (k + 1) = ((a : ℝ) + 1) / 2 ^ k) := by
        rintro (h | h | h | h)
        · rw [sub_zero, abs_of_pos hpos, abs_of_nonneg (by positivity)] at h
          nlinarith
        · have h3 : (3 * (2 * a + 1) : ℕ) = 2 ^ (k + 1) := by
            have : (3 * (2 * a + 1 : ℕ) : ℝ) = 2 ^ (k + 1) := by
              field_simp at h; linarith
            exact_mod_cast this
          have h4 : 2 ∣ 3 * (2 * a + 1) := h3 ▸ dvd_pow_self 2 (by omega)
          omega
        · rw [pow_succ] at h; push_cast at h; field_simp at h; linarith
        · rw [pow_succ] at h; push_cast at h; field_simp at h; linarith
      simp only [hmid]
      rw [if_neg hstop]
      split
      · have := ih (k + 1) (2 * a) (signbit (((2 * a + 1 : ℕ) : ℝ) / 2 ^ (k + 1) - 1 / 3))
        rw [show (a : ℝ) / 2 ^ k = ((2 * a : ℕ) : ℝ) / 2 ^ (k + 1) by rw [pow_succ]; push_cast; field_simp]
        push_cast at this ⊢
        exact this
      · have := ih (k + 1) (2 * a + 1) s
        rw [show ((a : ℝ) + 1) / 2 ^ k = (((2 * a + 1 : ℕ) : ℝ) + 1) / 2 ^ (k + 1) by
          rw [pow_succ]; push_cast; field_simp; ring]
        exact this
  unfold bisection
  rw [if_neg (by norm_num), if_neg (by norm_num [signbit])]
  have hx : (if |(0 : ℝ) - 1 / 3| < |(1 : ℝ) - 1 / 3| then (0 : ℝ) else 1) = 0 := by
    rw [if_pos]; norm_num [abs_of_nonneg, abs_of_neg]
  have := key (iters maxSize iterations - 1) 0 0 (signbit ((1 : ℝ) - 1 / 3))
  simp only [Nat.cast_zero, pow_zero, div_one, zero_add] at this
  simp only [hx, this]

-- the hypotheses of `C34_success` are met
example : bisection (fun x => 2 * x - 1) 10 (1 / 8) 7 0 1 5 = (true, 1 / 2) := by
  norm_num [bisection, bisectLoop, iters, signbit]

/-! ## C35: Newton-Raphson and Halley -/

/-- What is invariant: the cached state belongs to `x`, and nothing leaves `[lo, hi]`. -/
structure Inv (f : Obj) (lo hi : EReal) (s : St) : Prop where
  st : s.st = f s.x
  x_lo : lo ≤ s.x
  x_hi : (s.x : EReal) ≤ hi
  lo_le : lo ≤ s.lo
  hi_le : s.hi ≤ hi

/-- Why a step from `s` to `s'` may report convergence. -/
def Converged (f : Obj) (prec : ℝ) (lo hi : EReal) (cand : ℝ → ℝ → Prop) (x' : ℝ) : Prop :=
  f x' 0 = 0 ∨
  (∃ y : ℝ, lo ≤ y ∧ (y : EReal) ≤ hi ∧ |x' - y| < |prec * x'| ∧ (cand y x' ∨
    ∃ l h : ℝ, lo ≤ l ∧ l < h ∧ (h : EReal) ≤ hi ∧ SignChange (fun x => f x 0) l h ∧
      x' = (l + h) / 2))

/-- A good step. -/
def Good (f : Obj) (prec : ℝ) (lo hi : EReal) (cand : ℝ → ℝ → Prop) (r : ℕ × St) : Prop :=
  Inv f lo hi r.2 ∧ (r.1 = 2 → Converged f prec lo hi cand r.2.x)

theorem processStep_good {f : Obj} {prec : ℝ} {lo hi : EReal} {cand : ℝ → ℝ → Prop} {s : St}
    (hs : Inv f lo hi s) (newX : ℝ) (hc : cand s.x newX) :
    Good f prec lo hi cand (processStep f prec s newX) := by
  unfold processStep
  split
  · exact ⟨hs, by simp⟩
  · next hb =>
    rw [not_or, not_le, not_le] at hb
    have h1 : lo ≤ (newX : EReal) := hs.lo_le.trans hb.2.le
    have h2 : (newX : EReal) ≤ hi := hb.1.le.trans hs.hi_le
    simp only
    split
    · next hcv =>
      refine ⟨⟨rfl, h1, h2, hs.lo_le, hs.hi_le⟩, fun _ => ?_⟩
      rcases hcv with h | h
      · exact .inr ⟨s.x, hs.x_lo, hs.x_hi, h, .inl hc⟩
      · exact .inl h
    · split
      · exact ⟨hs, by simp⟩
      · refine ⟨⟨rfl, h1, h2, ?_, ?_⟩, by simp⟩
        · show lo ≤ if newX - s.x ≥ 0 then (s.x : EReal) else s.lo
          split
          · exact hs.x_lo
          · exact hs.lo_le
        · show (if newX - s.x ≤ 0 then (s.x : EReal) else s.hi) ≤ hi
          split
          · exact hs.x_hi
          · exact hs.hi_le

theorem bisectStep_good {f : Obj} {prec : ℝ} {lo hi : EReal} {cand : ℝ → ℝ → Prop} {s : St}
    (hs : Inv f lo hi s) : Good f prec lo hi cand (bisectStep f prec s) := by
  unfold bisectStep
  split
  · exact ⟨hs, by simp⟩
  · next hb =>
    simp only [not_or, ge_iff_le, not_le] at hb
    obtain ⟨hlt, hl1, hl2, hh1, hh2⟩ := hb
    have el : (s.lo.toReal : EReal) = s.lo := EReal.coe_toReal hl2 hl1
    have eh : (s.hi.toReal : EReal) = s.hi := EReal.coe_toReal hh2 hh1
    have hlt' : s.lo.toReal < s.hi.toReal := by
      rw [← EReal.coe_lt_coe_iff, el, eh]; exact hlt
    simp only
    generalize hL : s.lo.toReal = l at *
    generalize hH : s.hi.toReal = h at *
    have hmL : lo ≤ (((l + h) / 2 : ℝ) : EReal) :=
      hs.lo_le.trans (by rw [← el]; exact EReal.coe_le_coe_iff.2 (by linarith))
    have hmH : (((l + h) / 2 : ℝ) : EReal) ≤ hi :=
      le_trans (by rw [← eh]; exact EReal.coe_le_coe_iff.2 (by linarith)) hs.hi_le
    split
    · exact ⟨hs, by simp⟩
    · next hsc =>
      split
      · next hcv =>
        refine ⟨⟨rfl, hmL, hmH, hs.lo_le, hs.hi_le⟩, fun _ => ?_⟩
        rcases hcv with h1 | h1 | h1 | h1
        · exact .inr ⟨s.x, hs.x_lo, hs.x_hi, h1, .inr ⟨l, h, by rw [el]; exact hs.lo_le, hlt',
            by rw [eh]; exact hs.hi_le, (signbit_ne _ _).1 hsc, rfl⟩⟩
        · exact .inl h1
        · exfalso; linarith
        · exfalso; linarith
      · split
        · exact ⟨⟨rfl, hmL, hmH, hs.lo_le, hmH⟩, by simp⟩
        · exact ⟨⟨rfl, hmL, hmH, hmL, hs.hi_le⟩, by simp⟩

theorem orElse_good {f : Obj} {prec : ℝ} {lo hi : EReal} {cand : ℝ → ℝ → Prop}
    {a b : St → ℕ × St} (ha : ∀ s, Inv f lo hi s → Good f prec lo hi cand (a s))
    (hb : ∀ s, Inv f lo hi s → Good f prec lo hi cand (b s)) (s : St) (hs : Inv f lo hi s) :
    Good f prec lo hi cand (orElse a b s) := by
  unfold orElse
  simp only
  split
  · exact hb _ (ha s hs).1
  · exact ha s hs

theorem iterate_good {f : Obj} {prec : ℝ} {lo hi : EReal} {cand : ℝ → ℝ → Prop} {step : St → ℕ × St}
    (h : ∀ s, Inv f lo hi s → Good f prec lo hi cand (step s)) :
    ∀ (n status : ℕ) (s : St), Good f prec lo hi cand (status, s) →
      Good f prec lo hi cand (iterate step n status s) := by
  intro n
  induction n with
  | zero => intro status s hs; exact hs
  | succ n ih =>
    intro status s hs
    rw [iterate]
    split
    · exact hs
    · simp only
      have := h s hs.1
      split
      · exact ⟨this.1, by simp⟩
      · exact ih _ _ this

theorem solveWith_good {f : Obj} {prec : ℝ} {lo hi : EReal} {cand : ℝ → ℝ → Prop} {step : St → ℕ × St}
    (h : ∀ s, Inv f lo hi s → Good f prec lo hi cand (step s)) (maxSize : ℕ) (x : ℝ)
    (hlo : lo ≤ (x : EReal)) (hhi : (x : EReal) ≤ hi) (iterations : ℕ) (b : Bool) (x' : ℝ)
    (e : solveWith step f maxSize x lo hi iterations = (b, x')) :
    lo ≤ (x' : EReal) ∧ (x' : EReal) ≤ hi ∧ (b = true → Converged f prec lo hi cand x') := by
  unfold solveWith at e
  split at e
  · next h0 => cases e; exact ⟨hlo, hhi, fun _ => .inl h0⟩
  · simp only [Prod.mk.injEq] at e
    obtain ⟨rfl, rfl⟩ := e
    have := iterate_good h (iters maxSize iterations - 1) 1 ⟨x, lo, hi, f x⟩
      ⟨⟨rfl, hlo, hhi, le_refl _, le_refl _⟩, by simp⟩
    exact ⟨this.1.x_lo, this.1.x_hi, fun hb => this.2 (by simpa using hb)⟩

/-- `x'` is the Newton-Raphson iterate of `y`. -/
def IsNewton (f : Obj) (y x' : ℝ) : Prop := f y 1 ≠ 0 ∧ x' = y - f y 0 / f y 1

/-- `x'` is the Halley iterate of `y`. -/
def IsHalley (f : Obj) (y x' : ℝ) : Prop :=
  2 * f y 1 * f y 1 - f y 0 * f y 2 ≠ 0 ∧
    x' = y - 2 * f y 0 * f y 1 / (2 * f y 1 * f y 1 - f y 0 * f y 2)

/-- **C35**, `newton_raphson`, for any function, bounds, precision and number of iterations: started
inside the bounds, the result stays inside them, and a reported success means that the function is
zero there, or that the last step, a Newton step or the halving of an interval with a sign change,
was shorter than the precision. -/
theorem C35_newton (f : Obj) (maxSize : ℕ) (prec x : ℝ) (lo hi : EReal) (iterations : ℕ)
    (hlo : lo ≤ (x : EReal)) (hhi : (x : EReal) ≤ hi) (b : Bool) (x' : ℝ)
    (e : newtonRaphson f maxSize prec x lo hi iterations = (b, x')) :
    lo ≤ (x' : EReal) ∧ (x' : EReal) ≤ hi ∧
      (b = true → Converged f prec lo hi (IsNewton f) x') := by
  refine solveWith_good (orElse_good (fun s hs => ?_) (fun s hs => bisectStep_good hs)) maxSize x
    hlo hhi iterations b x' e
  unfold newtonStep
  split
  · exact ⟨hs, by simp⟩
  · next h => exact processStep_good hs _ ⟨by rw [← hs.st]; exact h, by rw [← hs.st]⟩

/-- **C35**, `halleys_method`. -/
theorem C35_halley (f : Obj) (z : Bool) (maxSize : ℕ) (prec x : ℝ) (lo hi : EReal) (iterations : ℕ)
    (hlo : lo ≤ (x : EReal)) (hhi : (x : EReal) ≤ hi) (b : Bool) (x' : ℝ)
    (e : halley f z maxSize prec x lo hi iterations = (b, x')) :
    lo ≤ (x' : EReal) ∧ (x' : EReal) ≤ hi ∧
      (b = true → Converged f prec lo hi (fun y x' => IsHalley f y x' ∨ IsNewton f y x') x') := by
  refine solveWith_good (orElse_good (fun s hs => ?_) (orElse_good (fun s hs => ?_)
    (fun s hs => bisectStep_good hs))) maxSize x hlo hhi iterations b x' e
  · unfold halleyStep
    simp only
    split
    · exact ⟨hs, by simp⟩
    · next h =>
      split
      · exact ⟨hs, by simp⟩
      · refine processStep_good hs _ (.inl ⟨by rw [← hs.st]; exact h, ?_⟩)
        rw [← hs.st]; ring
  · unfold newtonStep
    split
    · exact ⟨hs, by simp⟩
    · next h => exact processStep_good hs _ (.inr ⟨by rw [← hs.st]; exact h, by rw [← hs.st]⟩)

/-- **C35**: an exact root is returned unchanged, with success. -/
theorem C35_exact_root (f : Obj) (z : Bool) (maxSize : ℕ) (prec x : ℝ) (lo hi : EReal)
    (iterations : ℕ) (h : f x 0 = 0) :
    newtonRaphson f maxSize prec x lo hi iterations = (true, x) ∧
      halley f z maxSize prec x lo hi iterations = (true, x) := by
  simp [newtonRaphson, halley, solveWith, h]

/-- **C35**: a limit of `n` iterations allows `n - 1` steps; with `n = 1` nothing is done and failure
is reported unless the start is a root. -/
theorem C35_one_iteration (f : Obj) (z : Bool) (maxSize : ℕ) (prec x : ℝ) (lo hi : EReal)
    (h : f x 0 ≠ 0) :
    newtonRaphson f maxSize prec x lo hi 1 = (false, x) ∧
      halley f z maxSize prec x lo hi 1 = (false, x) := by
  simp [newtonRaphson, halley, solveWith, h, iters, iterate]

/-- A step that converges at once. -/
theorem solve_once {f : Obj} {step : St → ℕ × St} {maxSize iterations : ℕ} {x : ℝ} {lo hi : EReal}
    {s' : St} (h0 : f x 0 ≠ 0) (hm : 2 ≤ iters maxSize iterations)
    (h : step ⟨x, lo, hi, f x⟩ = (2, s')) :
    solveWith step f maxSize x lo hi iterations = (true, s'.x) := by
  unfold solveWith
  rw [if_neg h0]
  obtain ⟨k, hk⟩ : ∃ k, iters maxSize iterations - 1 = k + 1 :=
    ⟨iters maxSize iterations - 2, by omega⟩
  simp only [hk, iterate, h]
  cases k <;> simp [iterate]

/-- The cubic `x³ - 7/10` with its derivative. -/
noncomputable def cubicObj : Obj := fun x i => match i with
  | 0 => x ^ 3 - 7 / 10
  | 1 => 3 * x ^ 2
  | _ => 6 * x

theorem bounds01 (f : Obj) (st : ℕ → ℝ) (prec : ℝ) (hp : 0 < prec) (hs : SignChange (fun x => f x 0) 0 1) :
    bisectStep f prec ⟨1 / 2, 0, 1, st⟩ = (2, ⟨1 / 2, 0, 1, f (1 / 2)⟩) := by
  unfold bisectStep
  have h1 : ¬ ((0 : EReal) ≥ 1 ∨ (0 : EReal) = ⊥ ∨ (0 : EReal) = ⊤ ∨ (1 : EReal) = ⊥ ∨ (1 : EReal) = ⊤) := by
    refine not_or.2 ⟨not_le.2 (by exact_mod_cast (zero_lt_one (α := ℝ))), ?_⟩
    refine not_or.2 ⟨EReal.zero_ne_bot, not_or.2 ⟨EReal.zero_ne_top, not_or.2 ⟨?_, ?_⟩⟩⟩
    · exact EReal.coe_ne_bot 1
    · exact EReal.coe_ne_top 1
  rw [if_neg h1]
  have e0 : (0 : EReal).toReal = 0 := EReal.toReal_zero
  have e1 : (1 : EReal).toReal = 1 := EReal.toReal_one
  simp only [e0, e1]
  rw [if_neg ((signbit_ne _ _).2 hs), if_pos]
  · norm_num
  · left
    norm_num
    exact hp.ne'

/-- **C35** fails: a false success. Started at the middle of the bounds, when the Newton step leaves
the bounds the bisection step compares the mid point with the current point, finds no difference and
reports convergence: `newton_raphson` on `x³ - 7/10` with bounds `[0, 1]` and start `1/2` returns
`true` and `1/2`, whatever the precision. -/
theorem C35_false_success (maxSize : ℕ) (hm : 2 ≤ maxSize) (prec : ℝ) (hp : 0 < prec) :
    newtonRaphson cubicObj maxSize prec (1 / 2) 0 1 0 = (true, 1 / 2) ∧ cubicObj (1 / 2) 0 ≠ 0 := by
  refine ⟨?_, by norm_num [cubicObj]⟩
  have hn : newtonStep cubicObj prec ⟨1 / 2, 0, 1, cubicObj (1 / 2)⟩ =
      (0, ⟨1 / 2, 0, 1, cubicObj (1 / 2)⟩) := by
    unfold newtonStep processStep
    rw [if_neg (by norm_num [cubicObj]), if_pos]
    left
    have : (1 : ℝ) ≤ 1 / 2 - cubicObj (1 / 2) 0 / cubicObj (1 / 2) 1 := by norm_num [cubicObj]
    exact EReal.coe_le_coe_iff.2 this
  have hb := bounds01 cubicObj (cubicObj (1 / 2)) prec hp (.inl ⟨by norm_num [cubicObj], by norm_num [cubicObj]⟩)
  have hstep : orElse (newtonStep cubicObj prec) (bisectStep cubicObj prec)
      ⟨1 / 2, 0, 1, cubicObj (1 / 2)⟩ = (2, ⟨1 / 2, 0, 1, cubicObj (1 / 2)⟩) := by
    simp only [orElse, hn, if_true, hb]
  exact solve_once (by norm_num [cubicObj]) (by simpa [iters] using hm) hstep

/-- `2x - x²` with its derivatives; it has a maximum at 1. -/
def parabolaObj : Obj := fun x i => match i with
  | 0 => 2 * x - x ^ 2
  | 1 => 2 - 2 * x
  | 2 => -2
  | _ => 0

/-- **C35** fails: `halleys_method` started at an extremum, with the default infinite bounds, reports
success there: `2x - x²` at `x = 1`, where its value is 1. -/
theorem C35_halley_false_success (z : Bool) (maxSize : ℕ) (hm : 2 ≤ maxSize) (prec : ℝ)
    (hp : 0 < prec) :
    halley parabolaObj z maxSize prec 1 ⊥ ⊤ 0 = (true, 1) ∧ parabolaObj 1 0 = 1 := by
  refine ⟨?_, by norm_num [parabolaObj]⟩
  have hh : halleyStep parabolaObj z prec ⟨1, ⊥, ⊤, parabolaObj 1⟩ = (2, ⟨1, ⊥, ⊤, parabolaObj 1⟩) := by
    unfold halleyStep processStep
    have h0 : parabolaObj 1 0 = 1 := by norm_num [parabolaObj]
    have h1 : parabolaObj 1 1 = 0 := by norm_num [parabolaObj]
    have h2 : parabolaObj 1 2 = -2 := by norm_num [parabolaObj]
    simp only [h0, h1, h2]
    rw [if_neg (by norm_num), if_neg (by norm_num [sgn])]
    have e : (1 : ℝ) + -(2 * 1 * 0) / (2 * 0 * 0 - 1 * -2) = 1 := by norm_num
    rw [e, if_neg (not_or.2 ⟨not_le.2 (EReal.coe_lt_top 1), not_le.2 (EReal.bot_lt_coe 1)⟩),
      if_pos (by left; norm_num; exact hp.ne')]
  have hstep : orElse (halleyStep parabolaObj z prec) (orElse (newtonStep parabolaObj prec)
      (bisectStep parabolaObj prec)) ⟨1, ⊥, ⊤, parabolaObj 1⟩ = (2, ⟨1, ⊥, ⊤, parabolaObj 1⟩) := by
    rw [orElse, hh]; simp
  exact solve_once (by norm_num [parabolaObj]) (by simpa [iters] using hm) hstep

/-- `x` with its derivatives. -/
def linObj : Obj := fun x i => if i = 0 then x else if i = 1 then 1 else 0

/-- **C35**: `schroeder_step` proposes `x - 2 f f' - f'' f²/(2 f'³)`, not Schröder's
`x - f/f' - f'' f²/(2 f'³)`; on `f(x) = x` (value `x`, derivative 1) it goes to `-x`, so it never
converges from any start but 0. -/
theorem C35_schroeder_wrong (prec : ℝ) (x : ℝ) (hx : x ≠ 0) (hp0 : 0 ≤ prec) (hp : prec ≤ 2) :
    schroederStep linObj prec ⟨x, ⊥, ⊤, linObj x⟩ =
    (1, ⟨-x, if x ≤ 0 then (x : EReal) else ⊥, if 0 ≤ x then (x : EReal) else ⊤, linObj (-x)⟩) := by
  have l0 : ∀ x, linObj x 0 = x := fun _ => rfl
  have l1 : ∀ x, linObj x 1 = 1 := fun _ => rfl
  have l2 : ∀ x, linObj x 2 = 0 := fun _ => rfl
  unfold schroederStep
  simp only [l0, l1, l2]
  rw [if_neg one_ne_zero, show x - 2 * x * 1 - 0 * x * x / (2 * 1 * 1 * 1) = -x by ring]
  unfold processStep
  rw [if_neg (not_or.2 ⟨not_le.2 (EReal.coe_lt_top (-x)), not_le.2 (EReal.bot_lt_coe (-x))⟩)]
  simp only [l0]
  rw [if_neg, if_neg (by simp)]
  · have h1 : (-x - x ≥ 0) ↔ x ≤ 0 := by constructor <;> intro h <;> linarith
    have h2 : (-x - x ≤ 0) ↔ 0 ≤ x := by constructor <;> intro h <;> linarith
    simp only [h1, h2]
  · rintro (h | h)
    · rw [show -x - x = -(2 * x) by ring, abs_neg, abs_mul, abs_mul, abs_neg, abs_of_nonneg hp0] at h
      have := abs_pos.2 hx
      norm_num at h
      nlinarith
    · exact hx (neg_eq_zero.1 h)

-- Newton on x - 1 (linObj shifted) from 3 within [0, 5] succeeds
example : newtonRaphson (fun x => linObj (x - 1)) 10 (1 / 8) 3 ((0 : ℝ) : EReal) ((5 : ℝ) : EReal) 5 =
    (true, 1) := by
  have h : newtonStep (fun x => linObj (x - 1)) (1 / 8)
      ⟨3, ((0 : ℝ) : EReal), ((5 : ℝ) : EReal), linObj (3 - 1)⟩ =
      (2, ⟨1, ((0 : ℝ) : EReal), ((5 : ℝ) : EReal), linObj (1 - 1)⟩) := by
    unfold newtonStep processStep
    have e : (3 : ℝ) - linObj (3 - 1) 0 / linObj (3 - 1) 1 = 1 := by norm_num [linObj]
    rw [if_neg (by norm_num [linObj])]
    simp only [e]
    rw [if_neg (not_or.2 ⟨not_le.2 (EReal.coe_lt_coe_iff.2 (by norm_num)),
      not_le.2 (EReal.coe_lt_coe_iff.2 (by norm_num))⟩), if_pos (by right; norm_num [linObj])]
  refine solve_once (s' := ⟨1, ((0 : ℝ) : EReal), ((5 : ℝ) : EReal), linObj (1 - 1)⟩)
    (by norm_num [linObj]) (by norm_num [iters]) ?_
  rw [orElse, h]; simp

end Stator.Num
