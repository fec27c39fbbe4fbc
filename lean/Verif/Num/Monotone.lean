import Verif.Num.RootFindProps
import Mathlib.Order.Monotone.Defs

/-!
# C35, functions that are strictly monotone on the bracket

For a function with a sign change on a finite bracket, strictly monotone on it, and with a first
"derivative" of the right sign, neither `newton_raphson` nor `halleys_method` ever gives up: every step
keeps a sign change inside the bracket, and a call that reports failure did all the steps its iteration
limit allows.
-/

namespace Stator.Num

/-- What the theorems assume of the objective function on `[lo, hi]`. -/
def Honest (f : Obj) (lo hi : ℝ) : Prop :=
  (StrictMonoOn (fun x => f x 0) (Set.Icc lo hi) ∧ ∀ x ∈ Set.Icc lo hi, 0 < f x 1) ∨
  (StrictAntiOn (fun x => f x 0) (Set.Icc lo hi) ∧ ∀ x ∈ Set.Icc lo hi, f x 1 < 0)

/-- The bracket still holds the root: it lies in the original one, contains the current position, which
is not a root, and the function changes its sign on it. -/
def Bracketed (f : Obj) (lo hi : ℝ) (s : St) : Prop :=
  s.st = f s.x ∧ f s.x 0 ≠ 0 ∧ ∃ l h : ℝ, s.lo = l ∧ s.hi = h ∧ lo ≤ l ∧ l < h ∧ h ≤ hi ∧ l ≤ s.x ∧ s.x ≤ h ∧
    SignChange (fun x => f x 0) l h

/-- A step from a bracketed state: it changes nothing (status 0), converges (2), or leads to a bracketed
state. -/
def Keeps (f : Obj) (lo hi : ℝ) (s : St) (r : ℕ × St) : Prop :=
  r = (0, s) ∨ r.1 = 2 ∨ (r.1 = 1 ∧ Bracketed f lo hi r.2)

theorem Honest.ne {f : Obj} {lo hi x : ℝ} (hf : Honest f lo hi) (h1 : lo ≤ x) (h2 : x ≤ hi) : f x 1 ≠ 0 := by
  rcases hf with ⟨-, h⟩ | ⟨-, h⟩
  · exact (h x ⟨h1, h2⟩).ne'
  · exact (h x ⟨h1, h2⟩).ne

/-- Moving against `f / f'` moves towards the root. -/
theorem Honest.towards {f : Obj} {lo hi l h x d : ℝ} (hf : Honest f lo hi) (hl : lo ≤ l) (hlh : l < h)
    (hh : h ≤ hi) (hx : l ≤ x) (hx' : x ≤ h) (hs : SignChange (fun x => f x 0) l h)
    (hd : d * (f x 0 * f x 1) < 0) :
    (0 < d → SignChange (fun x => f x 0) x h) ∧ (d < 0 → SignChange (fun x => f x 0) l x) := by
  have il : l ∈ Set.Icc lo hi := ⟨hl, by linarith⟩
  have ih : h ∈ Set.Icc lo hi := ⟨by linarith, hh⟩
  have ix : x ∈ Set.Icc lo hi := ⟨by linarith, by linarith⟩
  unfold SignChange at *
  rcases hf with ⟨hm, hp⟩ | ⟨hm, hp⟩
  · have h1 := hm il ih hlh
    have h2 := hp x ix
    simp only at h1
    have h3 : f l 0 < 0 ∧ 0 ≤ f h 0 := by
      rcases hs with h | h
      · exact h
      · exact absurd h1 (by linarith [h.1, h.2])
    constructor
    · intro hd'
      have : f x 0 < 0 := by
        by_contra hc
        have := mul_nonneg hd'.le (mul_nonneg (not_lt.1 hc) h2.le)
        linarith
      exact .inl ⟨this, h3.2⟩
    · intro hd'
      have : 0 < f x 0 := by
        by_contra hc
        have := mul_nonneg_of_nonpos_of_nonpos hd'.le (mul_nonpos_of_nonpos_of_nonneg (not_lt.1 hc) h2.le)
        linarith
      exact .inl ⟨h3.1, this.le⟩
  · have h1 := hm il ih hlh
    have h2 := hp x ix
    simp only at h1
    have h3 : 0 ≤ f l 0 ∧ f h 0 < 0 := by
      rcases hs with h | h
      · exact absurd h1 (by linarith [h.1, h.2])
      · exact h
    constructor
    · intro hd'
      have : 0 < f x 0 := by
        by_contra hc
        have := mul_nonneg hd'.le (mul_nonneg_of_nonpos_of_nonpos (not_lt.1 hc) h2.le)
        linarith
      exact .inr ⟨this.le, h3.2⟩
    · intro hd'
      have : f x 0 < 0 := by
        by_contra hc
        have := mul_nonneg_of_nonpos_of_nonpos hd'.le (mul_nonpos_of_nonneg_of_nonpos (not_lt.1 hc) h2.le)
        linarith
      exact .inr ⟨h3.1, this⟩

theorem processStep_keeps {f : Obj} {lo hi prec : ℝ} (hf : Honest f lo hi) {s : St} (hs : Bracketed f lo hi s)
    (newX : ℝ) (hd : (newX - s.x) * (f s.x 0 * f s.x 1) < 0) : Keeps f lo hi s (processStep f prec s newX) := by
  obtain ⟨hst, hne, l, h, el, eh, hl, hlh, hh, hx, hx', hsc⟩ := hs
  unfold processStep
  split
  · exact .inl rfl
  · next hb =>
    rw [not_or, not_le, not_le, el, eh, EReal.coe_lt_coe_iff, EReal.coe_lt_coe_iff] at hb
    simp only
    split
    · exact .inr (.inl rfl)
    · next hcv =>
      rw [not_or] at hcv
      split
      · exact .inl rfl
      · obtain ⟨t1, t2⟩ := hf.towards hl hlh hh hx hx' hsc hd
        refine .inr (.inr ⟨rfl, rfl, hcv.2, ?_⟩)
        rcases lt_trichotomy (newX - s.x) 0 with hneg | hz | hpos
        · rw [if_neg (by linarith), if_pos hneg.le]
          exact ⟨l, s.x, el, rfl, hl, by linarith, by linarith, hb.2.le, by simp only; linarith, t2 hneg⟩
        · rw [hz, zero_mul] at hd; exact absurd hd (lt_irrefl _)
        · rw [if_pos hpos.le, if_neg (by linarith)]
          exact ⟨s.x, h, rfl, eh, by linarith, by linarith, hh, by simp only; linarith, hb.1.le, t1 hpos⟩

theorem newtonStep_keeps {f : Obj} {lo hi prec : ℝ} (hf : Honest f lo hi) {s : St} (hs : Bracketed f lo hi s) :
    Keeps f lo hi s (newtonStep f prec s) := by
  unfold newtonStep
  split
  · exact .inl rfl
  · next h =>
    refine processStep_keeps hf hs _ ?_
    have h0 := hs.2.1
    rw [hs.1] at h ⊢
    have : (s.x - f s.x 0 / f s.x 1 - s.x) * (f s.x 0 * f s.x 1) = -(f s.x 0) ^ 2 := by field_simp; ring
    rw [this]
    have := pow_pos (abs_pos.2 h0) 2
    rw [sq_abs] at this
    linarith

theorem halleyStep_keeps {f : Obj} {z : Bool} {lo hi prec : ℝ} (hf : Honest f lo hi) {s : St}
    (hs : Bracketed f lo hi s) : Keeps f lo hi s (halleyStep f z prec s) := by
  obtain ⟨hst, hne, l, h, el, eh, hl, hlh, hh, hx, hx', hsc⟩ := id hs
  have h1 : f s.x 1 ≠ 0 := hf.ne (by linarith) (by linarith)
  unfold halleyStep
  simp only
  rw [hst]
  split
  · left; rfl
  · next hden =>
    split
    · left; rfl
    · next hsg =>
      have hpos : 0 < 2 * f s.x 1 * f s.x 1 - f s.x 0 * f s.x 2 := by
        rcases lt_or_gt_of_ne hden with hn | hp
        · exfalso
          apply hsg
          simp [sgn, hden, hn]
        · exact hp
      refine processStep_keeps hf hs _ ?_
      have e : (s.x + -(2 * f s.x 0 * f s.x 1) / (2 * f s.x 1 * f s.x 1 - f s.x 0 * f s.x 2) - s.x) *
          (f s.x 0 * f s.x 1) = -(2 * (f s.x 0 * f s.x 1) ^ 2 / (2 * f s.x 1 * f s.x 1 - f s.x 0 * f s.x 2)) := by
        field_simp; ring
      rw [e, neg_lt_zero]
      have := pow_pos (abs_pos.2 (mul_ne_zero hne h1)) 2
      rw [sq_abs] at this
      exact div_pos (by linarith) hpos

/-- The bisection step does not fail, and when it goes on it halves the bracket. -/
theorem bisectStep_keeps {f : Obj} {lo hi prec : ℝ} {s : St} (hs : Bracketed f lo hi s) :
    (bisectStep f prec s).1 = 2 ∨ ((bisectStep f prec s).1 = 1 ∧ Bracketed f lo hi (bisectStep f prec s).2) := by
  obtain ⟨hst, hne, l, h, el, eh, hl, hlh, hh, hx, hx', hsc⟩ := id hs
  unfold bisectStep
  rw [if_neg (by simp [el, eh, hlh])]
  simp only [el, eh, EReal.toReal_coe]
  rw [if_neg ((signbit_ne (f l 0) (f h 0)).2 hsc)]
  split
  · left; rfl
  · next hcv =>
    simp only [not_or] at hcv
    right
    split
    · next he =>
      refine ⟨rfl, rfl, hcv.2.1, l, (l + h) / 2, ?_, rfl, hl, by linarith, by linarith, ?_, ?_, ?_⟩
      · rfl
      · simp only; linarith
      · simp only; linarith
      · refine (signbit_ne (f l 0) (f ((l + h) / 2) 0)).1 ?_
        rw [he]; exact (signbit_ne (f l 0) (f h 0)).2 hsc
    · next he =>
      refine ⟨rfl, rfl, hcv.2.1, (l + h) / 2, h, rfl, ?_, by linarith, by linarith, hh, ?_, ?_, ?_⟩
      · rfl
      · simp only; linarith
      · simp only; linarith
      · exact (signbit_ne (f ((l + h) / 2) 0) (f h 0)).1 he

/-- **C35**: one step of bisection that goes on halves the bracket and keeps the sign change. -/
theorem C35_bisection_step (f : Obj) (prec l h : ℝ) (s : St) (el : s.lo = (l : EReal))
    (eh : s.hi = (h : EReal)) (hlh : l < h) (hs : SignChange (fun x => f x 0) l h) (s' : St)
    (e : bisectStep f prec s = (1, s')) :
    ∃ l' h' : ℝ, s'.lo = l' ∧ s'.hi = h' ∧ l ≤ l' ∧ h' ≤ h ∧ h' - l' = (h - l) / 2 ∧
      SignChange (fun x => f x 0) l' h' ∧ s'.x = (l + h) / 2 ∧ s'.st = f s'.x := by
  unfold bisectStep at e
  rw [if_neg (by simp [el, eh, hlh])] at e
  simp only [el, eh, EReal.toReal_coe] at e
  rw [if_neg ((signbit_ne (f l 0) (f h 0)).2 hs)] at e
  split at e
  · simp at e
  · split at e
    · next he =>
      simp only [Prod.mk.injEq, true_and] at e
      subst e
      refine ⟨l, (l + h) / 2, rfl, rfl, le_rfl, by linarith, by ring, ?_, rfl, rfl⟩
      refine (signbit_ne (f l 0) (f ((l + h) / 2) 0)).1 ?_
      rw [he]; exact (signbit_ne (f l 0) (f h 0)).2 hs
    · next he =>
      simp only [Prod.mk.injEq, true_and] at e
      subst e
      exact ⟨(l + h) / 2, h, rfl, rfl, by linarith, le_rfl, by ring, (signbit_ne (f ((l + h) / 2) 0) (f h 0)).1 he, rfl, rfl⟩

theorem orElse_keeps {f : Obj} {lo hi : ℝ} {a b : St → ℕ × St} {s : St}
    (ha : Keeps f lo hi s (a s)) (hb : Keeps f lo hi s (b s)) : Keeps f lo hi s (orElse a b s) := by
  unfold orElse
  rcases ha with h | h | h
  · simp only [h, if_true]; exact hb
  · simp only [h]; rw [if_neg (by decide)]; exact .inr (.inl h)
  · simp only [h.1]; rw [if_neg (by decide)]; exact .inr (.inr h)

theorem orElse_goes {f : Obj} {lo hi : ℝ} {a b : St → ℕ × St} {s : St}
    (ha : Keeps f lo hi s (a s)) (hb : (b s).1 = 2 ∨ ((b s).1 = 1 ∧ Bracketed f lo hi (b s).2)) :
    (orElse a b s).1 = 2 ∨ ((orElse a b s).1 = 1 ∧ Bracketed f lo hi (orElse a b s).2) := by
  unfold orElse
  rcases ha with h | h | h
  · simp only [h, if_true]; exact hb
  · simp only [h]; rw [if_neg (by decide)]; exact .inl h
  · simp only [h.1]; rw [if_neg (by decide)]; exact .inr h

theorem iterate_goes {f : Obj} {lo hi : ℝ} {step : St → ℕ × St}
    (h : ∀ s, Bracketed f lo hi s → (step s).1 = 2 ∨ ((step s).1 = 1 ∧ Bracketed f lo hi (step s).2)) :
    ∀ n s, Bracketed f lo hi s → (iterate step n 1 s).1 = 2 ∨
      ((iterate step n 1 s).1 = 1 ∧ Bracketed f lo hi (iterate step n 1 s).2)
  | 0, s, hs => .inr ⟨rfl, hs⟩
  | n + 1, s, hs => by
    rw [iterate, if_neg (by decide)]
    simp only
    rcases h s hs with h2 | ⟨h1, hb⟩
    · rw [if_neg (by omega), h2]
      left
      cases n with
      | zero => rfl
      | succ n => rw [iterate, if_pos rfl]
    · rw [if_neg (by omega), h1]
      exact iterate_goes h n _ hb

/-- **C35**: on a finite bracket with a sign change, for a strictly monotone function whose first
derivative has the right sign, no step of `newton_raphson` or `halleys_method` fails, whatever the number of
steps: the status is 2 (converged) or 1 (could go on), and as long as it is 1 the root is kept in the
bracket. So `false` is only returned because the iteration limit is reached. -/
theorem C35_monotone (f : Obj) (z : Bool) (prec x lo hi : ℝ) (hlt : lo < hi) (hlo : lo ≤ x) (hhi : x ≤ hi)
    (hf : Honest f lo hi) (hs : SignChange (fun x => f x 0) lo hi) (hx : f x 0 ≠ 0) (n : ℕ) :
    (∀ r, r = iterate (orElse (newtonStep f prec) (bisectStep f prec)) n 1 ⟨x, lo, hi, f x⟩ →
      r.1 = 2 ∨ (r.1 = 1 ∧ Bracketed f lo hi r.2)) ∧
    (∀ r, r = iterate (orElse (halleyStep f z prec) (orElse (newtonStep f prec) (bisectStep f prec))) n 1
        ⟨x, lo, hi, f x⟩ → r.1 = 2 ∨ (r.1 = 1 ∧ Bracketed f lo hi r.2)) := by
  have hb : Bracketed f lo hi ⟨x, lo, hi, f x⟩ := ⟨rfl, hx, lo, hi, rfl, rfl, le_rfl, hlt, le_rfl, hlo, hhi, hs⟩
  constructor
  · rintro r rfl
    exact iterate_goes (fun s h => orElse_goes (newtonStep_keeps hf h) (bisectStep_keeps h)) n _ hb
  · rintro r rfl
    exact iterate_goes (fun s h => orElse_goes (halleyStep_keeps hf h)
      (orElse_goes (newtonStep_keeps hf h) (bisectStep_keeps h))) n _ hb

/-- **C35**: the same at the level of the calls: whatever `newton_raphson` and `halleys_method` return, the
position reported together with a failure lies in a part of the bracket on which the function still
changes its sign. -/
theorem C35_monotone_call (f : Obj) (z : Bool) (maxSize : ℕ) (prec x lo hi : ℝ) (iterations : ℕ)
    (hlt : lo < hi) (hlo : lo ≤ x) (hhi : x ≤ hi)
    (hf : Honest f lo hi) (hs : SignChange (fun x => f x 0) lo hi) (x' : ℝ)
    (e : newtonRaphson f maxSize prec x lo hi iterations = (false, x') ∨
      halley f z maxSize prec x lo hi iterations = (false, x')) :
    ∃ l h, lo ≤ l ∧ l < h ∧ h ≤ hi ∧ l ≤ x' ∧ x' ≤ h ∧ SignChange (fun x => f x 0) l h := by
  by_cases hx : f x 0 = 0
  · rw [(C35_exact_root f z maxSize prec x lo hi iterations hx).1,
      (C35_exact_root f z maxSize prec x lo hi iterations hx).2] at e
    simp at e
  obtain ⟨h1, h2⟩ := C35_monotone f z prec x lo hi hlt hlo hhi hf hs hx (iters maxSize iterations - 1)
  have key : ∀ step : St → ℕ × St, (∀ r, r = iterate step (iters maxSize iterations - 1) 1 ⟨x, lo, hi, f x⟩ →
      r.1 = 2 ∨ (r.1 = 1 ∧ Bracketed f lo hi r.2)) → solveWith step f maxSize x lo hi iterations = (false, x') →
      ∃ l h, lo ≤ l ∧ l < h ∧ h ≤ hi ∧ l ≤ x' ∧ x' ≤ h ∧ SignChange (fun x => f x 0) l h := by
    intro step hstep e
    unfold solveWith at e
    rw [if_neg hx] at e
    simp only [Prod.mk.injEq, decide_eq_false_iff_not] at e
    rcases hstep _ rfl with h | ⟨-, -, -, l, h, -, -, a, b, c, d, g, s⟩
    · exact absurd h e.1
    · rw [e.2] at d g
      exact ⟨l, h, a, b, c, d, g, s⟩
  rcases e with e | e
  · exact key _ h1 e
  · exact key _ h2 e

/-- The hypotheses hold for `x - 1/3` on `[0, 1]`. -/
example : Honest (fun x n => if n = 0 then x - 1 / 3 else 1) 0 1 ∧
    SignChange (fun x => (fun x n => if n = 0 then x - 1 / 3 else 1 : Obj) x 0) 0 1 := by
  refine ⟨.inl ⟨fun a _ b _ h => by simpa using h, fun _ _ => by norm_num⟩, ?_⟩
  norm_num [SignChange]

end Stator.Num
