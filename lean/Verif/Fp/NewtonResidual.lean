import Verif.Fp.Newton

/-!
# Newton and Halley in rounded arithmetic: a failing call does not make `x` worse
-/

namespace Stator.Fp
open Stator.Num

variable {φ : Format}

variable (φ) in
/-- A step that does not converge does not increase the computed value; the bounds stay where they are allowed to be. -/
def ShrinksR (f : Obj) (lo hi : EReal) (c : ℝ) (r : ℕ × St) : Prop :=
  InvR φ f lo hi r.2 ∧ (r.1 ≠ 2 → |f r.2.x 0| ≤ c)

theorem processStepR_shrinks {f : Obj} {prec : ℝ} {lo hi : EReal} {c : ℝ} {s : St}
    (hs : InvR φ f lo hi s) (hc : |f s.x 0| ≤ c) (newX : ℝ) (hm : newX ∈ φ.F) : ShrinksR φ f lo hi c (processStepR φ.rnd f prec s newX) := by
  refine ⟨(processStepR_good (cand := fun _ _ => True) hs newX hm trivial).1, ?_⟩
  unfold processStepR
  split
  · exact fun _ => hc
  · simp only
    split
    · exact fun h => absurd rfl h
    · split
      · exact fun _ => hc
      · next h =>
        intro _
        rw [hs.st] at h
        exact (not_lt.1 h).trans hc

theorem newtonStepR_shrinks {f : Obj} {prec : ℝ} {lo hi : EReal} {c : ℝ} {s : St}
    (hs : InvR φ f lo hi s) (hc : |f s.x 0| ≤ c) : ShrinksR φ f lo hi c (newtonStepR φ.rnd f prec s) := by
  unfold newtonStepR
  split
  · exact ⟨hs, fun _ => hc⟩
  · exact processStepR_shrinks hs hc _ (φ.mem _)

theorem halleyStepR_shrinks {f : Obj} {z : Bool} {prec : ℝ} {lo hi : EReal} {c : ℝ} {s : St}
    (hs : InvR φ f lo hi s) (hc : |f s.x 0| ≤ c) : ShrinksR φ f lo hi c (halleyStepR φ.rnd f z prec s) := by
  unfold halleyStepR
  simp only
  split
  · exact ⟨hs, fun _ => hc⟩
  · split
    · exact ⟨hs, fun _ => hc⟩
    · exact processStepR_shrinks hs hc _ (φ.mem _)

theorem bisectStepR_rejects {f : Obj} {prec : ℝ} {lo hi : EReal} {s : St} (hs : InvR φ f lo hi s)
    (hn : ∀ l ∈ φ.F, ∀ h ∈ φ.F, lo ≤ (l : EReal) → l < h → (h : EReal) ≤ hi → ¬ SignChange (fun x => f x 0) l h) :
    bisectStepR φ.rnd f prec s = (0, s) := by
  unfold bisectStepR
  split
  · rfl
  · next hb =>
    simp only [not_or, ge_iff_le, not_le] at hb
    obtain ⟨hlt, hl1, hl2, hh1, hh2⟩ := hb
    have el : (s.lo.toReal : EReal) = s.lo := EReal.coe_toReal hl2 hl1
    have eh : (s.hi.toReal : EReal) = s.hi := EReal.coe_toReal hh2 hh1
    have hlt' : s.lo.toReal < s.hi.toReal := by
      rw [← EReal.coe_lt_coe_iff, el, eh]; exact hlt
    simp only
    rw [if_pos]
    by_contra hne
    exact hn _ (hs.blo.mem hl1 hl2) _ (hs.bhi.mem hh1 hh2) (by rw [el]; exact hs.lo_le) hlt' (by rw [eh]; exact hs.hi_le) ((signbit_ne _ _).1 hne)

theorem orElse_shrinksR {f : Obj} {lo hi : EReal} {c : ℝ} {a b : St → ℕ × St} {s : St}
    (ha : ShrinksR φ f lo hi c (a s)) (hb : ∀ s, InvR φ f lo hi s → |f s.x 0| ≤ c → ShrinksR φ f lo hi c (b s)) :
    ShrinksR φ f lo hi c (orElse a b s) := by
  unfold orElse
  simp only
  split
  · next h => exact hb _ ha.1 (ha.2 (by omega))
  · exact ha

theorem iterate_shrinksR {f : Obj} {lo hi : EReal} {c : ℝ} {step : St → ℕ × St}
    (h : ∀ s, InvR φ f lo hi s → |f s.x 0| ≤ c → ShrinksR φ f lo hi c (step s)) :
    ∀ (n status : ℕ) (s : St), ShrinksR φ f lo hi c (status, s) → ShrinksR φ f lo hi c (iterate step n status s)
  | 0, _, _, hs => hs
  | n + 1, status, s, hs => by
    rw [iterate]
    split
    · exact hs
    · next h2 =>
      have h3 := h s hs.1 (hs.2 h2)
      simp only
      split
      · next h0 => exact ⟨h3.1, fun _ => h3.2 (by omega)⟩
      · exact iterate_shrinksR h n _ _ h3

/-- **C90**: if the computed function has no sign change between two representable numbers within the bounds (so that there is nothing to bisect), a
failing call of `newton_raphson` or `halleys_method` never leaves `x` worse than it found it. -/
theorem C90_residual (f : Obj) (z : Bool) (maxSize : ℕ) (prec x : ℝ) (lo hi : EReal) (iterations : ℕ)
    (hx : x ∈ φ.F) (bl : Bound φ lo) (bh : Bound φ hi)
    (hlo : lo ≤ (x : EReal)) (hhi : (x : EReal) ≤ hi)
    (hn : ∀ l ∈ φ.F, ∀ h ∈ φ.F, lo ≤ (l : EReal) → l < h → (h : EReal) ≤ hi → ¬ SignChange (fun x => f x 0) l h) (x' : ℝ)
    (e : newtonR φ.rnd f maxSize prec x lo hi iterations = (false, x') ∨
      halleyR φ.rnd f z maxSize prec x lo hi iterations = (false, x')) :
    |f x' 0| ≤ |f x 0| := by
  have hbis : ∀ s, InvR φ f lo hi s → |f s.x 0| ≤ |f x 0| → ShrinksR φ f lo hi |f x 0| (bisectStepR φ.rnd f prec s) :=
    fun s hs hc => by rw [bisectStepR_rejects hs hn]; exact ⟨hs, fun _ => hc⟩
  have key : ∀ step : St → ℕ × St,
      (∀ s, InvR φ f lo hi s → |f s.x 0| ≤ |f x 0| → ShrinksR φ f lo hi |f x 0| (step s)) →
      solveWith step f maxSize x lo hi iterations = (false, x') → |f x' 0| ≤ |f x 0| := by
    intro step hstep e
    unfold solveWith at e
    split at e
    · simp at e
    · simp only [Prod.mk.injEq, decide_eq_false_iff_not] at e
      have := (iterate_shrinksR hstep (iters maxSize iterations - 1) 1 ⟨x, lo, hi, f x⟩
        ⟨⟨rfl, hx, bl, bh, hlo, hhi, le_refl _, le_refl _⟩, fun _ => le_refl _⟩).2 e.1
      rwa [e.2] at this
  rcases e with e | e
  · exact key _ (fun s hs hc => orElse_shrinksR (newtonStepR_shrinks hs hc) hbis) e
  · exact key _ (fun s hs hc => orElse_shrinksR (halleyStepR_shrinks hs hc)
      (fun s hs hc => orElse_shrinksR (newtonStepR_shrinks hs hc) hbis)) e

/-- On `double` the hypotheses hold for `x² + 1` on the whole line; one Newton step from 2 ends at `3/4`. -/
example : (∀ l ∈ binary64.F, ∀ h ∈ binary64.F, (⊥ : EReal) ≤ (l : EReal) → l < h → (h : EReal) ≤ ⊤ →
      ¬ SignChange (fun x => (fun x i => if i = 0 then x ^ 2 + 1 else 2 * x : Obj) x 0) l h) ∧
    newtonR binary64.rnd (fun x i => if i = 0 then x ^ 2 + 1 else 2 * x) 10 (1 / 8) 2 ⊥ ⊤ 2 = (false, 3 / 4) := by
  have h0 : (5 / 4 : ℝ) ∈ binary64.F := by
    have := binF_of_le (p := 53) (by norm_num) (emin := -1074) (m := 5) (e := -2) (by norm_num) (by norm_num)
    norm_num at this ⊢; exact this
  have h1 := binary64.rnd_of_mem h0
  have h2 : binary64.rnd (3 / 4) = 3 / 4 := binary64.rnd_of_mem (by
    have := binF_of_le (p := 53) (by norm_num) (emin := -1074) (m := 3) (e := -2) (by norm_num) (by norm_num)
    norm_num at this ⊢; exact this)
  have h3 : binary64.rnd (-(5 / 4)) = -(5 / 4) := binary64.rnd_of_mem (binary64.neg _ h0)
  have h4 : binary64.rnd (3 / 32) = 3 / 32 := binary64.rnd_of_mem (by
    have := binF_of_le (p := 53) (by norm_num) (emin := -1074) (m := 3) (e := -5) (by norm_num) (by norm_num)
    norm_num at this ⊢; exact this)
  constructor
  · rintro l - h - - - - (h | h)
    · simp only [if_true] at h; nlinarith [sq_nonneg l]
    · simp only [if_true] at h; rename_i h'; nlinarith [sq_nonneg h']
  · norm_num [newtonR, newtonTurn, solveWith, iters, iterate, orElse, newtonStepR, processStepR, abs_of_pos, abs_of_neg, h1, h2, h3, h4]

end Stator.Fp
