import Verif.Num.RootFindProps

/-! # C35: the value of the function does not grow -/

namespace Stator.Num

/-- A step that does not fail and does not converge does not increase the value; the bounds stay where they
are allowed to be. -/
def Shrinks (f : Obj) (lo hi : EReal) (c : ℝ) (r : ℕ × St) : Prop :=
  Inv f lo hi r.2 ∧ (r.1 ≠ 2 → |f r.2.x 0| ≤ c)

theorem processStep_shrinks {f : Obj} {prec : ℝ} {lo hi : EReal} {c : ℝ} {s : St}
    (hs : Inv f lo hi s) (hc : |f s.x 0| ≤ c) (newX : ℝ) : Shrinks f lo hi c (processStep f prec s newX) := by
  refine ⟨(processStep_good (cand := fun _ _ => True) hs newX trivial).1, ?_⟩
  unfold processStep
  split
  · exact fun _ => hc
  · simp only
    split
    · exact fun h => absurd rfl h
    · split
      · exact fun _ => hc
      · next h =>
        intro _
        rw [hs.st] at h
        exact (not_lt.1 h).trans hc

theorem newtonStep_shrinks {f : Obj} {prec : ℝ} {lo hi : EReal} {c : ℝ} {s : St}
    (hs : Inv f lo hi s) (hc : |f s.x 0| ≤ c) : Shrinks f lo hi c (newtonStep f prec s) := by
  unfold newtonStep
  split
  · exact ⟨hs, fun _ => hc⟩
  · exact processStep_shrinks hs hc _

theorem halleyStep_shrinks {f : Obj} {z : Bool} {prec : ℝ} {lo hi : EReal} {c : ℝ} {s : St}
    (hs : Inv f lo hi s) (hc : |f s.x 0| ≤ c) : Shrinks f lo hi c (halleyStep f z prec s) := by
  unfold halleyStep
  simp only
  split
  · exact ⟨hs, fun _ => hc⟩
  · split
    · exact ⟨hs, fun _ => hc⟩
    · exact processStep_shrinks hs hc _

theorem bisectStep_rejects {f : Obj} {prec : ℝ} {lo hi : EReal} {s : St} (hs : Inv f lo hi s)
    (hn : ∀ l h : ℝ, lo ≤ l → l < h → (h : EReal) ≤ hi → ¬ SignChange (fun x => f x 0) l h) :
    bisectStep f prec s = (0, s) := by
  unfold bisectStep
  split
  · rfl
  · next hb =>
    simp only [not_or, ge_iff_le, not_le] at hb
    obtain ⟨hlt, hl1, hl2, hh1, hh2⟩ := hb
    have el : (s.lo.toReal : EReal) = s.lo := EReal.coe_toReal hl2 hl1
    have eh : (s.hi.toReal : EReal) = s.hi := EReal.coe_toReal hh2 hh1
    have hlt' : s.lo.toReal < s.hi.toReal := by
      rw [← EReal.coe_lt_coe_iff, el, eh]; exact hlt
    simp only
    rw [if_pos]
    by_contra hne
    exact hn _ _ (by rw [el]; exact hs.lo_le) hlt' (by rw [eh]; exact hs.hi_le) ((signbit_ne _ _).1 hne)

theorem orElse_shrinks {f : Obj} {lo hi : EReal} {c : ℝ} {a b : St → ℕ × St} {s : St}
    (ha : Shrinks f lo hi c (a s)) (hb : ∀ s, Inv f lo hi s → |f s.x 0| ≤ c → Shrinks f lo hi c (b s)) :
    Shrinks f lo hi c (orElse a b s) := by
  unfold orElse
  simp only
  split
  · next h => exact hb _ ha.1 (ha.2 (by omega))
  · exact ha

theorem iterate_shrinks {f : Obj} {lo hi : EReal} {c : ℝ} {step : St → ℕ × St}
    (h : ∀ s, Inv f lo hi s → |f s.x 0| ≤ c → Shrinks f lo hi c (step s)) :
    ∀ (n status : ℕ) (s : St), Shrinks f lo hi c (status, s) → Shrinks f lo hi c (iterate step n status s)
  | 0, _, _, hs => hs
  | n + 1, status, s, hs => by
    rw [iterate]
    split
    · exact hs
    · next h2 =>
      have h3 := h s hs.1 (hs.2 h2)
      simp only
      split
      · next h0 => exact ⟨h3.1, fun _ => h3.2 (by omega)⟩
      · exact iterate_shrinks h n _ _ h3

/-- **C35**: if the function has no sign change between the bounds (so that there is nothing to bisect), a
failing call of `newton_raphson` or `halleys_method` never leaves `x` worse than it found it. -/
theorem C35_residual (f : Obj) (z : Bool) (maxSize : ℕ) (prec x : ℝ) (lo hi : EReal) (iterations : ℕ)
    (hlo : lo ≤ (x : EReal)) (hhi : (x : EReal) ≤ hi)
    (hn : ∀ l h : ℝ, lo ≤ l → l < h → (h : EReal) ≤ hi → ¬ SignChange (fun x => f x 0) l h) (x' : ℝ)
    (e : newtonRaphson f maxSize prec x lo hi iterations = (false, x') ∨
      halley f z maxSize prec x lo hi iterations = (false, x')) :
    |f x' 0| ≤ |f x 0| := by
  have hbis : ∀ s, Inv f lo hi s → |f s.x 0| ≤ |f x 0| → Shrinks f lo hi |f x 0| (bisectStep f prec s) :=
    fun s hs hc => by rw [bisectStep_rejects hs hn]; exact ⟨hs, fun _ => hc⟩
  have key : ∀ step : St → ℕ × St,
      (∀ s, Inv f lo hi s → |f s.x 0| ≤ |f x 0| → Shrinks f lo hi |f x 0| (step s)) →
      solveWith step f maxSize x lo hi iterations = (false, x') → |f x' 0| ≤ |f x 0| := by
    intro step hstep e
    unfold solveWith at e
    split at e
    · simp at e
    · simp only [Prod.mk.injEq, decide_eq_false_iff_not] at e
      have := (iterate_shrinks hstep (iters maxSize iterations - 1) 1 ⟨x, lo, hi, f x⟩
        ⟨⟨rfl, hlo, hhi, le_refl _, le_refl _⟩, fun _ => le_refl _⟩).2 e.1
      rwa [e.2] at this
  rcases e with e | e
  · exact key _ (fun s hs hc => orElse_shrinks (newtonStep_shrinks hs hc) hbis) e
  · exact key _ (fun s hs hc => orElse_shrinks (halleyStep_shrinks hs hc)
      (fun s hs hc => orElse_shrinks (newtonStep_shrinks hs hc) hbis)) e

/-- The hypotheses hold for `x² + 1` on the whole line; one Newton step from 2 ends at `3/4`. -/
example : (∀ l h : ℝ, (⊥ : EReal) ≤ l → l < h → (h : EReal) ≤ ⊤ →
      ¬ SignChange (fun x => (fun x i => if i = 0 then x ^ 2 + 1 else 2 * x : Obj) x 0) l h) ∧
    newtonRaphson (fun x i => if i = 0 then x ^ 2 + 1 else 2 * x) 10 (1 / 8) 2 ⊥ ⊤ 2 = (false, 3 / 4) := by
  constructor
  · rintro l h - - - (h | h)
    · simp only [if_true] at h; nlinarith [sq_nonneg l]
    · simp only [if_true] at h; rename_i h'; nlinarith [sq_nonneg h']
  · norm_num [newtonRaphson, solveWith, iters, iterate, orElse, newtonStep, processStep, abs_of_pos, abs_of_neg]

end Stator.Num
