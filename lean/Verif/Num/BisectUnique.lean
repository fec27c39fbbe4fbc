import Verif.Num.RootFindProps
import Mathlib.Analysis.Calculus.LocalExtr.Basic

/-! # `bisection` on an interval with one root -/

namespace Stator.Num

/-- On success the loop has a bracket that is short enough around the returned midpoint. -/
theorem bisectLoop_bracket (f : ℝ → ℝ) (prec x a b : ℝ) (hx : x = a ∨ x = b) :
    ∀ (n : ℕ) (lo hi m : ℝ), lo < hi → a ≤ lo → hi ≤ b →
    SignChange f lo hi → bisectLoop f prec x n lo hi (signbit (f hi)) = some m →
    ∃ l h, lo ≤ l ∧ h ≤ hi ∧ l < h ∧ m = (l + h) / 2 ∧ SignChange f l h ∧
      signbit (f h) = signbit (f hi) ∧ (f m = 0 ∨ (h - l) / 2 ≤ |prec * m|) := by
  intro n
  induction n with
  | zero => intro lo hi m _ _ _ _ h; simp [bisectLoop] at h
  | succ n ih =>
    intro lo hi m hlt ha hb hs h
    rw [bisectLoop] at h
    split at h
    · next hstop =>
      cases h
      refine ⟨lo, hi, le_refl _, le_refl _, hlt, rfl, hs, rfl, ?_⟩
      rcases hstop with h | h | h | h
      · refine .inr (le_trans ?_ h.le)
        rcases hx with rfl | rfl
        · exact le_trans (by linarith) (le_abs_self _)
        · exact le_trans (by linarith) (neg_le_abs _)
      · exact .inl h
      · exfalso; linarith
      · exfalso; linarith
    · split at h
      · next hsg =>
        have hs' : SignChange f lo ((lo + hi) / 2) := by
          have := (signbit_ne (f lo) (f hi)).2 hs
          exact (signbit_ne _ _).1 (by rw [hsg]; exact this)
        obtain ⟨l, h', h1, h2, h3, h4, h5, h6, h7⟩ := ih lo _ m (by linarith) ha (by linarith) hs' h
        exact ⟨l, h', h1, by linarith, h3, h4, h5, by rw [h6, hsg], h7⟩
      · next hsg =>
        have hs' : SignChange f ((lo + hi) / 2) hi := (signbit_ne _ _).1 hsg
        obtain ⟨l, h', h1, h2, h3, h4, h5, h6, h7⟩ := ih _ hi m (by linarith) (by linarith) hb hs' h
        exact ⟨l, h', by linarith, h2, h3, h4, h5, h6, h7⟩

/-- A function without zeros on `[u, v]` keeps its sign. -/
theorem neg_of_no_root {f : ℝ → ℝ} {u v : ℝ} (hc : ContinuousOn f (Set.Icc u v)) (huv : u ≤ v)
    (h : ∀ x, u ≤ x → x ≤ v → f x ≠ 0) : (f u < 0 ↔ f v < 0) := by
  constructor
  · intro hu
    by_contra hv
    obtain ⟨x, hx, e⟩ := intermediate_value_Icc huv hc ⟨hu.le, not_lt.1 hv⟩
    exact h x hx.1 hx.2 e
  · intro hv
    by_contra hu
    obtain ⟨x, hx, e⟩ := intermediate_value_Icc' huv hc ⟨hv.le, not_lt.1 hu⟩
    exact h x hx.1 hx.2 e

/-- If `(lo, hi]` contains exactly one root, then a success of `bisection` is a point close to that root; also when `lo` is
another root, unless the graph touches the axis from below at the root in `(lo, hi]`. -/
theorem bisection_unique (f : ℝ → ℝ) (maxSize : ℕ) (prec x lo hi : ℝ) (iterations : ℕ) (x' : ℝ)
    (hcont : Continuous f) {c : ℝ} (hc1 : lo < c) (hc2 : c ≤ hi) (hc0 : f c = 0)
    (huniq : ∀ x, lo < x → x ≤ hi → f x = 0 → x = c) (hd : f lo = 0 → ¬ IsLocalMax f c)
    (h : bisection f maxSize prec x lo hi iterations = (true, x')) : |x' - c| ≤ |prec * x'| := by
  unfold bisection at h
  split at h
  · simp at h
  next hlt =>
  rw [not_le] at hlt
  split at h
  · simp at h
  next hs =>
  simp only at h
  split at h
  swap
  · simp at h
  next m hm =>
  simp only [Prod.mk.injEq, true_and] at h
  subst h
  obtain ⟨l, h, h1, h2, h3, h4, h5, h6, h7⟩ := bisectLoop_bracket f prec _ lo hi (by
    split <;> simp) _ lo hi m hlt le_rfl le_rfl ((signbit_ne _ _).1 hs) hm
  rcases h7 with h7 | h7
  · have : m = c := huniq m (by linarith) (by linarith) h7
    rw [this, sub_self, abs_zero]; exact abs_nonneg _
  · have hin : l ≤ c ∧ c ≤ h := by
      obtain ⟨r, r1, r2, r3⟩ := h5.root h3.le hcont.continuousOn
      by_cases hr : lo < r
      · have : r = c := huniq r hr (by linarith) r3
        rw [← this]; exact ⟨r1, r2⟩
      have hrl : r = lo := by linarith
      have hll : l = lo := by linarith
      rcases h5 with ⟨a1, -⟩ | ⟨-, a2⟩
      · exfalso; rw [hll, ← hrl, r3] at a1; exact lt_irrefl _ a1
      refine ⟨by linarith, ?_⟩
      by_contra hch
      rw [not_le] at hch
      have hhi : f hi < 0 := by
        simpa [signbit, a2] using h6
      have hchi : c < hi := lt_of_le_of_ne hc2 fun e => by rw [e] at hc0; linarith
      have hmax : IsLocalMax f c := by
        have hmem : Set.Ioo h hi ∈ nhds c := Ioo_mem_nhds hch hchi
        filter_upwards [hmem] with y hy
        rw [hc0]
        rcases lt_trichotomy y c with hyc | hyc | hyc
        · refine ((neg_of_no_root hcont.continuousOn hy.1.le ?_).1 a2).le
          intro z z1 z2 z3
          have := huniq z (by linarith) (by linarith [hy.2]) z3
          linarith
        · rw [hyc, hc0]
        · refine ((neg_of_no_root hcont.continuousOn hy.2.le ?_).2 hhi).le
          intro z z1 z2 z3
          have := huniq z (by linarith) z2 z3
          linarith
      exact hd (by rw [← hrl]; exact r3) hmax
    have : |m - c| ≤ (h - l) / 2 := abs_le.2 ⟨by linarith [hin.1, hin.2], by linarith [hin.1, hin.2]⟩
    exact this.trans h7

end Stator.Num
