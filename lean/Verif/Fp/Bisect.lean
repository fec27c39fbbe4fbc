import Verif.Fp.Format
import Verif.Num.RootFindProps
import Mathlib.Data.Set.Card
import Mathlib.Topology.Order.IntermediateValue

/-!
# Bisection in rounded arithmetic

In exact arithmetic the loop of `bisection` normally uses up its iterations (`C34_precision_ignored`), because its precision
test looks at a point that does not move. In rounded arithmetic the midpoint meets an end of the interval at last.
-/

namespace Stator.Fp

open Stator.Num

/-- models: stator/symbolic/numeric.hpp:296-322, the loop of `bisection` with every operation rounded by `rnd`; `none` =
iterations used up, `some x` = converged. -/
noncomputable def bisectLoopR (rnd : ℝ → ℝ) (f : ℝ → ℝ) (prec : ℝ) (x : ℝ) : ℕ → ℝ → ℝ → Bool → Option ℝ
  | 0, _, _, _ => none
  | n + 1, lo, hi, sHigh =>
    let mid := rnd (rnd (lo + hi) / 2)
    let v := f mid
    if |rnd (mid - x)| < |rnd (prec * mid)| ∨ v = 0 ∨ mid = lo ∨ mid = hi then some mid
    else if signbit v = sHigh then bisectLoopR rnd f prec x n lo mid (signbit v)
    else bisectLoopR rnd f prec x n mid hi sHigh

/-- models: stator/symbolic/numeric.hpp:272-328 `bisection` (finite bounds) with every operation rounded by `rnd`. The function
is any function: the one the machine computes. -/
noncomputable def bisectionR (rnd : ℝ → ℝ) (f : ℝ → ℝ) (maxSize : ℕ) (prec : ℝ) (x lo hi : ℝ) (iterations : ℕ) :
    Bool × ℝ :=
  if lo ≥ hi then (false, x)
  else if signbit (f lo) = signbit (f hi) then (false, x)
  else
    let x := if |f lo| < |f hi| then lo else hi
    match bisectLoopR rnd f prec x (iters maxSize iterations - 1) lo hi (signbit (f hi)) with
    | some m => (true, m)
    | none => (false, x)

/-- Without rounding this is the model in exact arithmetic. -/
theorem bisectLoopR_id (f : ℝ → ℝ) (prec x : ℝ) : ∀ (n : ℕ) (lo hi : ℝ) (s : Bool),
    bisectLoopR id f prec x n lo hi s = bisectLoop f prec x n lo hi s := by
  intro n
  induction n with
  | zero => intros; rfl
  | succ n ih => intro lo hi s; simp only [bisectLoopR, bisectLoop, id_eq, ih]

theorem bisectionR_id (f : ℝ → ℝ) (maxSize : ℕ) (prec x lo hi : ℝ) (iterations : ℕ) :
    bisectionR id f maxSize prec x lo hi iterations = bisection f maxSize prec x lo hi iterations := by
  unfold bisectionR bisection
  simp only [bisectLoopR_id]
  rfl

variable (φ : Format)

theorem half_rnd {a b : ℝ} (ha : a ∈ φ.F) (hb : b ∈ φ.F) : φ.rnd (φ.rnd (a + b) / 2) = φ.rnd (a + b) / 2 ∨ φ.rnd (a + b) = a + b := by
  rcases φ.half a ha b hb with h | h
  · exact .inl (φ.rnd_of_mem h)
  · exact .inr h

/-- The midpoint stays between the ends. -/
theorem mid_between {lo hi : ℝ} (hl : lo ∈ φ.F) (hh : hi ∈ φ.F) (hlt : lo < hi) :
    lo ≤ φ.rnd (φ.rnd (lo + hi) / 2) ∧ φ.rnd (φ.rnd (lo + hi) / 2) ≤ hi := by
  have h1 := φ.mono (show 2 * lo ≤ lo + hi by linarith)
  have h2 := φ.mono (show lo + hi ≤ 2 * hi by linarith)
  rw [φ.rnd_of_mem (φ.dbl lo hl)] at h1
  rw [φ.rnd_of_mem (φ.dbl hi hh)] at h2
  have h3 := φ.mono (show lo ≤ φ.rnd (lo + hi) / 2 by linarith)
  have h4 := φ.mono (show φ.rnd (lo + hi) / 2 ≤ hi by linarith)
  rw [φ.rnd_of_mem hl] at h3
  rw [φ.rnd_of_mem hh] at h4
  exact ⟨h3, h4⟩

/-- As long as there is a number strictly between the ends, the midpoint is one. -/
theorem mid_strict {lo hi m : ℝ} (hl : lo ∈ φ.F) (hh : hi ∈ φ.F) (hm : m ∈ φ.F) (h1 : lo < m) (h2 : m < hi) :
    φ.rnd (φ.rnd (lo + hi) / 2) ≠ lo ∧ φ.rnd (φ.rnd (lo + hi) / 2) ≠ hi := by
  rcases half_rnd φ hl hh with e | e
  · rw [e]
    have n := φ.nearest (lo + hi) (2 * m) (φ.dbl m hm)
    constructor
    · intro h
      rw [show φ.rnd (lo + hi) = 2 * lo by linarith, show 2 * lo - (lo + hi) = -(hi - lo) by ring, abs_neg,
        abs_of_pos (by linarith)] at n
      rcases abs_cases (2 * m - (lo + hi)) with ⟨e, _⟩ | ⟨e, _⟩ <;> rw [e] at n <;> linarith
    · intro h
      rw [show φ.rnd (lo + hi) = 2 * hi by linarith, show 2 * hi - (lo + hi) = (hi - lo) by ring,
        abs_of_pos (by linarith)] at n
      rcases abs_cases (2 * m - (lo + hi)) with ⟨e, _⟩ | ⟨e, _⟩ <;> rw [e] at n <;> linarith
  · rw [e]
    have n := φ.nearest ((lo + hi) / 2) m hm
    constructor
    · intro h
      rw [h, show lo - (lo + hi) / 2 = -((hi - lo) / 2) by ring, abs_neg, abs_of_pos (by linarith)] at n
      rcases abs_cases (m - (lo + hi) / 2) with ⟨e, _⟩ | ⟨e, _⟩ <;> rw [e] at n <;> linarith
    · intro h
      rw [h, show hi - (lo + hi) / 2 = ((hi - lo) / 2) by ring, abs_of_pos (by linarith)] at n
      rcases abs_cases (m - (lo + hi) / 2) with ⟨e, _⟩ | ⟨e, _⟩ <;> rw [e] at n <;> linarith

/-! ## Specification -/

/-- Two different representable numbers with no representable number between them. -/
def Adjacent (x y : ℝ) : Prop := x ∈ φ.F ∧ y ∈ φ.F ∧ x < y ∧ ∀ m ∈ φ.F, ¬ (x < m ∧ m < y)

/-- What `bisection` may return: a point where the function is zero, one of two adjacent numbers between which it changes its
sign, or a point that is within the precision of `x0`, the end of the given interval with the smaller function value. -/
def Found (f : ℝ → ℝ) (prec x0 x : ℝ) : Prop :=
  f x = 0 ∨ (∃ a b, Adjacent φ a b ∧ SignChange f a b ∧ (x = a ∨ x = b)) ∨ |φ.rnd (x - x0)| < |φ.rnd (prec * x)|

theorem bisectLoopR_spec (f : ℝ → ℝ) (prec x : ℝ) : ∀ (c n : ℕ) (lo hi : ℝ), lo ∈ φ.F → hi ∈ φ.F → lo < hi →
    SignChange f lo hi → (φ.F ∩ Set.Ioo lo hi).ncard ≤ c → c + 1 ≤ n →
    ∃ x', bisectLoopR φ.rnd f prec x n lo hi (signbit (f hi)) = some x' ∧ x' ∈ φ.F ∧ lo ≤ x' ∧ x' ≤ hi ∧
      Found φ f prec x x' := by
  intro c
  induction c with
  | zero =>
    intro n lo hi hl hh hlt hs hc hn
    obtain ⟨n, rfl⟩ : ∃ k, n = k + 1 := ⟨n - 1, by omega⟩
    have hfin : (φ.F ∩ Set.Ioo lo hi).Finite := (φ.finite lo hi).subset
      (Set.inter_subset_inter_right _ Set.Ioo_subset_Icc_self)
    have hempty : φ.F ∩ Set.Ioo lo hi = ∅ := (Set.ncard_eq_zero hfin).1 (by omega)
    have hno : ∀ m ∈ φ.F, ¬ (lo < m ∧ m < hi) := fun m hm h =>
      Set.notMem_empty m (hempty ▸ (⟨hm, h⟩ : m ∈ φ.F ∩ Set.Ioo lo hi))
    have hb := mid_between φ hl hh hlt
    have hmem := φ.mem (φ.rnd (lo + hi) / 2)
    have hend : φ.rnd (φ.rnd (lo + hi) / 2) = lo ∨ φ.rnd (φ.rnd (lo + hi) / 2) = hi := by
      by_contra h
      push Not at h
      exact hno _ hmem ⟨lt_of_le_of_ne hb.1 (Ne.symm h.1), lt_of_le_of_ne hb.2 h.2⟩
    refine ⟨φ.rnd (φ.rnd (lo + hi) / 2), ?_, hmem, hb.1, hb.2, .inr (.inl ⟨lo, hi, ⟨hl, hh, hlt, hno⟩, hs, hend⟩)⟩
    rw [bisectLoopR]
    rw [if_pos]
    rcases hend with h | h
    · exact .inr (.inr (.inl h))
    · exact .inr (.inr (.inr h))
  | succ c ih =>
    intro n lo hi hl hh hlt hs hc hn
    obtain ⟨n, rfl⟩ : ∃ k, n = k + 1 := ⟨n - 1, by omega⟩
    have hfin : ∀ a b, (φ.F ∩ Set.Ioo a b).Finite := fun a b => (φ.finite a b).subset
      (Set.inter_subset_inter_right _ Set.Ioo_subset_Icc_self)
    have hb := mid_between φ hl hh hlt
    have hmem := φ.mem (φ.rnd (lo + hi) / 2)
    have hstrict := fun m hm h1 h2 => mid_strict φ (m := m) hl hh hm h1 h2
    rw [bisectLoopR]
    generalize φ.rnd (φ.rnd (lo + hi) / 2) = mid at *
    split
    next hstop =>
      refine ⟨mid, rfl, hmem, hb.1, hb.2, ?_⟩
      rcases hstop with h | h | h
      · exact .inr (.inr h)
      · exact .inl h
      · refine .inr (.inl ⟨lo, hi, ⟨hl, hh, hlt, fun m hm hc => ?_⟩, hs, h⟩)
        have := hstrict m hm hc.1 hc.2
        rcases h with h | h
        · exact this.1 h
        · exact this.2 h
    next hgo =>
      push Not at hgo
      obtain ⟨-, hv, h1, h2⟩ := hgo
      have h1' : lo < mid := lt_of_le_of_ne hb.1 (Ne.symm h1)
      have h2' : mid < hi := lt_of_le_of_ne hb.2 h2
      have hcard : ∀ a b, lo ≤ a → b ≤ hi → (mid = a ∨ mid = b) → (φ.F ∩ Set.Ioo a b).ncard ≤ c := by
        intro a b ha hb' hab
        have hsub : φ.F ∩ Set.Ioo a b ⊂ φ.F ∩ Set.Ioo lo hi := by
          refine ⟨Set.inter_subset_inter_right _ (Set.Ioo_subset_Ioo ha hb'), fun hsub => ?_⟩
          have := (hsub ⟨hmem, h1', h2'⟩).2
          rcases hab with h | h
          · exact absurd this.1 (by rw [h]; exact lt_irrefl _)
          · exact absurd this.2 (by rw [h]; exact lt_irrefl _)
        have := Set.ncard_lt_ncard hsub (hfin lo hi)
        omega
      split
      next hsgn =>
        have hs' : SignChange f lo mid := by
          refine (signbit_ne _ _).1 ?_; rw [hsgn]; exact (signbit_ne _ _).2 hs
        obtain ⟨x', e1, e2, e3, e4, e5⟩ := ih n lo mid hl hmem h1' hs' (hcard lo mid le_rfl h2'.le (.inr rfl)) (by omega)
        exact ⟨x', e1, e2, e3, e4.trans h2'.le, e5⟩
      next hsgn =>
        have hs' : SignChange f mid hi := (signbit_ne _ _).1 hsgn
        obtain ⟨x', e1, e2, e3, e4, e5⟩ := ih n mid hi hmem hh h2' hs' (hcard mid hi h1'.le le_rfl (.inl rfl)) (by omega)
        exact ⟨x', e1, e2, h1'.le.trans e3, e4, e5⟩

/-- **C68**. In rounded arithmetic, on an interval of representable ends between which the computed function changes its sign,
`bisection` succeeds if more iterations are allowed than there are numbers in the interval, whatever the function is. What it returns
is a zero of the computed function, one of two adjacent numbers with a change of sign between them, or a point within the precision
of the better end. -/
theorem C68_bisection (f : ℝ → ℝ) (maxSize : ℕ) (prec x lo hi : ℝ) (iterations : ℕ) (hl : lo ∈ φ.F) (hh : hi ∈ φ.F)
    (hlt : lo < hi) (hs : SignChange f lo hi)
    (hn : (φ.F ∩ Set.Ioo lo hi).ncard + 2 ≤ iters maxSize iterations) :
    ∃ x', bisectionR φ.rnd f maxSize prec x lo hi iterations = (true, x') ∧ x' ∈ φ.F ∧ lo ≤ x' ∧ x' ≤ hi ∧
      Found φ f prec (if |f lo| < |f hi| then lo else hi) x' := by
  unfold bisectionR
  rw [if_neg (not_le.2 hlt), if_neg ((signbit_ne _ _).2 hs)]
  simp only
  obtain ⟨x', h1, h2⟩ := bisectLoopR_spec φ f prec (if |f lo| < |f hi| then lo else hi) _ (iters maxSize iterations - 1) lo hi
    hl hh hlt hs le_rfl (by omega)
  rw [h1]
  exact ⟨x', rfl, h2⟩

/-- **C68**: a zero precision asks for the best possible answer: then there is no third case. -/
theorem C68_best (f : ℝ → ℝ) (maxSize : ℕ) (x lo hi : ℝ) (iterations : ℕ) (hl : lo ∈ φ.F) (hh : hi ∈ φ.F)
    (hlt : lo < hi) (hs : SignChange f lo hi)
    (hn : (φ.F ∩ Set.Ioo lo hi).ncard + 2 ≤ iters maxSize iterations) :
    ∃ x', bisectionR φ.rnd f maxSize 0 x lo hi iterations = (true, x') ∧
      (f x' = 0 ∨ ∃ a b, Adjacent φ a b ∧ SignChange f a b ∧ (x' = a ∨ x' = b)) := by
  obtain ⟨x', h1, -, -, -, h2⟩ := C68_bisection φ f maxSize 0 x lo hi iterations hl hh hlt hs hn
  refine ⟨x', h1, ?_⟩
  rcases h2 with h | h | h
  · exact .inl h
  · exact .inr h
  · rw [zero_mul, φ.rnd_of_mem φ.zero, abs_zero] at h
    exact absurd h (abs_nonneg _).not_gt

/-! ## How many iterations -/

/-- The midpoint is as good as any number near the exact midpoint. -/
theorem mid_near {lo hi m d : ℝ} (hl : lo ∈ φ.F) (hh : hi ∈ φ.F) (hm : m ∈ φ.F) (h : |m - (lo + hi) / 2| ≤ d) :
    |φ.rnd (φ.rnd (lo + hi) / 2) - (lo + hi) / 2| ≤ d := by
  rcases half_rnd φ hl hh with e | e
  · rw [e]
    have n := φ.nearest (lo + hi) (2 * m) (φ.dbl m hm)
    rw [show 2 * m - (lo + hi) = 2 * (m - (lo + hi) / 2) by ring, abs_mul, abs_of_pos (by norm_num : (0 : ℝ) < 2)] at n
    rw [show φ.rnd (lo + hi) / 2 - (lo + hi) / 2 = (φ.rnd (lo + hi) - (lo + hi)) / 2 by ring, abs_div,
      abs_of_pos (by norm_num : (0 : ℝ) < 2)]
    linarith
  · rw [e]
    exact (φ.nearest ((lo + hi) / 2) m hm).trans h

/-- In a binary format, either there is a number in the middle half of an interval, or the interval has at most four numbers
inside. -/
theorem bin_middle (p : ℕ) (emin : ℤ) (hp : 2 ≤ p) {lo hi : ℝ} (hlt : lo < hi) :
    (∃ m ∈ binF p emin, |m - (lo + hi) / 2| ≤ (hi - lo) / 4) ∨ (binF p emin ∩ Set.Ioo lo hi).ncard ≤ 4 := by
  by_cases hex : ∃ m ∈ binF p emin, |m - (lo + hi) / 2| ≤ (hi - lo) / 4
  · exact .inl hex
  right
  push Not at hex
  have h0 : 0 < p := by omega
  have hr := hex _ (binRnd_mem h0 emin ((lo + hi) / 2))
  generalize hc : (lo + hi) / 2 = c at *
  have hpos := two_zpow_pos (ulpExp p emin c)
  -- the interval is shorter than two last places
  have hL : hi - lo < 2 * 2 ^ ulpExp p emin c := by
    have h1 := abs_sub_round (c / (2 : ℝ) ^ ulpExp p emin c)
    have e1 : binRnd p emin c - c =
        -((c / (2 : ℝ) ^ ulpExp p emin c - round (c / (2 : ℝ) ^ ulpExp p emin c)) * 2 ^ ulpExp p emin c) := by
      unfold binRnd; rw [sub_mul, div_mul_cancel₀ _ hpos.ne']; ring
    rw [e1, abs_neg, abs_mul, abs_of_pos hpos] at hr
    have := mul_le_mul_of_nonneg_right h1 hpos.le
    linarith
  -- every number inside is a multiple of half a last place
  have hw : ∃ w : ℝ, 0 < w ∧ 2 ^ ulpExp p emin c ≤ 2 * w ∧ ∀ y ∈ binF p emin ∩ Set.Ioo lo hi, ∃ k : ℤ, y = k * w := by
    rcases max_choice emin (Int.log 2 |c| + 1 - p) with hE | hE
    · refine ⟨2 ^ emin, two_zpow_pos _, ?_, fun y hy => binF_multiple hy.1⟩
      unfold ulpExp; rw [hE]; linarith [two_zpow_pos emin]
    · have hE' : ulpExp p emin c = Int.log 2 |c| + 1 - p := hE
      refine ⟨2 ^ (ulpExp p emin c - 1), two_zpow_pos _, ?_, ?_⟩
      · rw [zpow_sub₀ (by norm_num), zpow_one]; linarith
      · rintro y ⟨hy, hy1, hy2⟩
        obtain ⟨m, f, hf, hm, rfl⟩ := hy
        by_cases hfe : ulpExp p emin c - 1 ≤ f
        · refine ⟨m * 2 ^ (f - (ulpExp p emin c - 1)).toNat, ?_⟩
          push_cast
          rw [mul_assoc, ← zpow_natCast, ← zpow_add₀ (by norm_num)]
          congr 2
          omega
        · exfalso
          push Not at hfe
          by_cases hc0 : c = 0
          · have := hex 0 ⟨0, emin, le_rfl, by rw [abs_zero]; positivity, by simp⟩
            rw [hc0, sub_zero, abs_zero] at this
            linarith
          have hlog := Int.zpow_log_le_self (b := 2) (by norm_num) (abs_pos.2 hc0)
          push_cast at hlog
          have hyb : |(m : ℝ) * 2 ^ f| < 2 ^ (Int.log 2 |c| - 1) := by
            rw [abs_mul, abs_of_pos (two_zpow_pos f)]
            have h1 : |(m : ℝ)| < 2 ^ p := by exact_mod_cast hm
            have h2 : (2 : ℝ) ^ p * 2 ^ f ≤ 2 ^ (Int.log 2 |c| - 1) := by
              rw [← zpow_natCast (2 : ℝ) p, ← zpow_add₀ (by norm_num)]
              exact zpow_le_zpow_right₀ (by norm_num) (by omega)
            exact lt_of_lt_of_le (mul_lt_mul_of_pos_right h1 (two_zpow_pos f)) h2
          have hul : (2 : ℝ) ^ ulpExp p emin c ≤ 2 ^ (Int.log 2 |c| - 1) :=
            zpow_le_zpow_right₀ (by norm_num) (by omega)
          have hhalf : (2 : ℝ) ^ Int.log 2 |c| = 2 * 2 ^ (Int.log 2 |c| - 1) := by
            rw [zpow_sub₀ (by norm_num), zpow_one]; ring
          have hyc : |(m : ℝ) * 2 ^ f - c| < 2 ^ ulpExp p emin c := by
            rw [abs_lt]; constructor <;> linarith
          have := abs_sub_abs_le_abs_sub c ((m : ℝ) * 2 ^ f)
          rw [abs_sub_comm] at hyc
          linarith
  obtain ⟨w, hw0, hw1, hw2⟩ := hw
  have hsub : binF p emin ∩ Set.Ioo lo hi ⊆ (fun k : ℤ => (k : ℝ) * w) '' Set.Icc (⌊lo / w⌋ + 1) (⌈hi / w⌉ - 1) := by
    intro y hy
    obtain ⟨k, rfl⟩ := hw2 y hy
    refine ⟨k, ⟨?_, ?_⟩, rfl⟩
    · have : (⌊lo / w⌋ : ℝ) < k := lt_of_le_of_lt (Int.floor_le _) ((div_lt_iff₀ hw0).2 hy.2.1)
      have : ⌊lo / w⌋ < k := by exact_mod_cast this
      omega
    · have : (k : ℝ) < ⌈hi / w⌉ := lt_of_lt_of_le ((lt_div_iff₀ hw0).2 hy.2.2) (Int.le_ceil _)
      have : k < ⌈hi / w⌉ := by exact_mod_cast this
      omega
  have hfin : (Set.Icc (⌊lo / w⌋ + 1) (⌈hi / w⌉ - 1)).Finite := Set.finite_Icc _ _
  have h1 := Set.ncard_le_ncard hsub (hfin.image _)
  have h2 := Set.ncard_image_le (f := fun k : ℤ => (k : ℝ) * w) hfin
  have h3 : (Set.Icc (⌊lo / w⌋ + 1) (⌈hi / w⌉ - 1)).ncard ≤ 4 := by
    rw [← Finset.coe_Icc, Set.ncard_coe_finset, Int.card_Icc]
    have a1 := Int.ceil_lt_add_one (hi / w)
    have a2 := Int.lt_floor_add_one (lo / w)
    have a3 : hi / w - lo / w < 4 := by
      rw [← sub_div, div_lt_iff₀ hw0]; linarith
    have : ((⌈hi / w⌉ - ⌊lo / w⌋ : ℤ) : ℝ) < 6 := by push_cast; linarith
    have : (⌈hi / w⌉ - ⌊lo / w⌋ : ℤ) < 6 := by exact_mod_cast this
    omega
  omega

/-- Different numbers differ by at least the smallest positive one. -/
theorem bin_apart (p : ℕ) (emin : ℤ) {a b : ℝ} (ha : a ∈ binF p emin) (hb : b ∈ binF p emin) (h : a < b) :
    (2 : ℝ) ^ emin ≤ b - a := by
  obtain ⟨j, rfl⟩ := binF_multiple ha
  obtain ⟨k, rfl⟩ := binF_multiple hb
  have hpos := two_zpow_pos emin
  have h1 : (j : ℝ) < k := lt_of_mul_lt_mul_right h hpos.le
  have h2 : j + 1 ≤ k := by have : j < k := by exact_mod_cast h1
                            omega
  have h3 : (j : ℝ) + 1 ≤ k := by exact_mod_cast h2
  nlinarith

/-- **C68**: the number of iterations is logarithmic: a quarter of the interval goes with every step until at most four numbers
are left. `k + 6` iterations suffice if `(3/4)^k` times the length is less than the smallest positive number. -/
theorem C68_iterations (p : ℕ) (emin : ℤ) (hp : 2 ≤ p) (he : emin ≤ 0) (f : ℝ → ℝ) (maxSize : ℕ) (prec x lo hi : ℝ)
    (iterations k : ℕ) (hl : lo ∈ binF p emin) (hh : hi ∈ binF p emin) (hlt : lo < hi) (hs : SignChange f lo hi)
    (hk : (3 / 4 : ℝ) ^ k * (hi - lo) < 2 ^ emin) (hn : k + 6 ≤ iters maxSize iterations) :
    ∃ x', bisectionR (binRnd p emin) f maxSize prec x lo hi iterations = (true, x') ∧ lo ≤ x' ∧ x' ≤ hi ∧
      Found (bin p emin (by omega) he) f prec (if |f lo| < |f hi| then lo else hi) x' := by
  have hloop : ∀ (x0 : ℝ) (k n : ℕ) (lo hi : ℝ), lo ∈ binF p emin → hi ∈ binF p emin → lo < hi → SignChange f lo hi →
      (3 / 4 : ℝ) ^ k * (hi - lo) < 2 ^ emin → k + 5 ≤ n →
      ∃ x', bisectLoopR (binRnd p emin) f prec x0 n lo hi (signbit (f hi)) = some x' ∧ lo ≤ x' ∧ x' ≤ hi ∧
        Found (bin p emin (by omega) he) f prec x0 x' := by
    intro x0 k
    induction k with
    | zero =>
      intro n lo hi hl hh hlt hs hk _
      have := bin_apart p emin hl hh hlt
      rw [pow_zero, one_mul] at hk
      linarith
    | succ k ih =>
      intro n lo hi hl hh hlt hs hk hn
      rcases bin_middle p emin hp hlt with ⟨m, hm, hmid⟩ | hfew
      · obtain ⟨n, rfl⟩ : ∃ j, n = j + 1 := ⟨n - 1, by omega⟩
        have hb := mid_between (bin p emin (by omega) he) hl hh hlt
        have hmem := binRnd_mem (show 0 < p by omega) emin (binRnd p emin (lo + hi) / 2)
        have hstrict := fun m hm h1 h2 => mid_strict (bin p emin (by omega) he) (m := m) hl hh hm h1 h2
        have hnear := mid_near (bin p emin (by omega) he) hl hh hm hmid
        rw [bisectLoopR]
        change lo ≤ binRnd p emin (binRnd p emin (lo + hi) / 2) ∧ binRnd p emin (binRnd p emin (lo + hi) / 2) ≤ hi at hb
        change ∀ m ∈ binF p emin, lo < m → m < hi → binRnd p emin (binRnd p emin (lo + hi) / 2) ≠ lo ∧
          binRnd p emin (binRnd p emin (lo + hi) / 2) ≠ hi at hstrict
        change |binRnd p emin (binRnd p emin (lo + hi) / 2) - (lo + hi) / 2| ≤ (hi - lo) / 4 at hnear
        generalize binRnd p emin (binRnd p emin (lo + hi) / 2) = mid at *
        rw [abs_le] at hnear
        split
        next hstop =>
          refine ⟨mid, rfl, hb.1, hb.2, ?_⟩
          rcases hstop with h | h | h
          · exact .inr (.inr h)
          · exact .inl h
          · refine .inr (.inl ⟨lo, hi, ⟨hl, hh, hlt, fun m hm hc => ?_⟩, hs, h⟩)
            have := hstrict m hm hc.1 hc.2
            rcases h with h | h
            · exact this.1 h
            · exact this.2 h
        next hgo =>
          push Not at hgo
          obtain ⟨-, hv, h1, h2⟩ := hgo
          have h1' : lo < mid := lt_of_le_of_ne hb.1 (Ne.symm h1)
          have h2' : mid < hi := lt_of_le_of_ne hb.2 h2
          have hpow : (0 : ℝ) < (3 / 4 : ℝ) ^ k := by positivity
          rw [pow_succ] at hk
          split
          next hsgn =>
            have hs' : SignChange f lo mid := by
              refine (signbit_ne _ _).1 ?_; rw [hsgn]; exact (signbit_ne _ _).2 hs
            obtain ⟨x', e1, e3, e4, e5⟩ := ih n lo mid hl hmem h1' hs' (by nlinarith [hnear.2]) (by omega)
            exact ⟨x', e1, e3, e4.trans h2'.le, e5⟩
          next hsgn =>
            have hs' : SignChange f mid hi := (signbit_ne _ _).1 hsgn
            obtain ⟨x', e1, e3, e4, e5⟩ := ih n mid hi hmem hh h2' hs' (by nlinarith [hnear.1]) (by omega)
            exact ⟨x', e1, h1'.le.trans e3, e4, e5⟩
      · obtain ⟨x', e1, -, e3, e4, e5⟩ := bisectLoopR_spec (bin p emin (by omega) he) f prec x0 4 n lo hi hl hh hlt hs hfew
          (by omega)
        exact ⟨x', e1, e3, e4, e5⟩
  unfold bisectionR
  rw [if_neg (not_le.2 hlt), if_neg ((signbit_ne _ _).2 hs)]
  simp only
  obtain ⟨x', h1, h2⟩ := hloop (if |f lo| < |f hi| then lo else hi) k (iters maxSize iterations - 1) lo hi
    hl hh hlt hs hk (by omega)
  rw [h1]
  exact ⟨x', rfl, h2⟩

/-- **C68**: if the computed function is continuous (say it is computed without error), with precision 0 the number returned is
a root, or is next to a root with no other number between them. -/
theorem C68_root (f : ℝ → ℝ) (maxSize : ℕ) (x lo hi : ℝ) (iterations : ℕ) (hl : lo ∈ φ.F) (hh : hi ∈ φ.F)
    (hlt : lo < hi) (hs : SignChange f lo hi) (hcont : Continuous f)
    (hn : (φ.F ∩ Set.Ioo lo hi).ncard + 2 ≤ iters maxSize iterations) :
    ∃ x' c, bisectionR φ.rnd f maxSize 0 x lo hi iterations = (true, x') ∧ f c = 0 ∧
      ∀ m ∈ φ.F, ¬ (min x' c < m ∧ m < max x' c) := by
  obtain ⟨x', h1, h2⟩ := C68_best φ f maxSize x lo hi iterations hl hh hlt hs hn
  rcases h2 with h | ⟨a, b, ⟨-, -, hab, hno⟩, hsc, hx⟩
  · exact ⟨x', x', h1, h, fun m _ hm => by rw [min_self, max_self] at hm; exact absurd hm.1 hm.2.not_gt⟩
  · obtain ⟨c, hc1, hc2, hc⟩ := hsc.root hab.le hcont.continuousOn
    refine ⟨x', c, h1, hc, fun m hm ⟨m1, m2⟩ => hno m hm ?_⟩
    rcases hx with rfl | rfl
    · rw [min_eq_left hc1] at m1
      rw [max_eq_right hc1] at m2
      exact ⟨m1, lt_of_lt_of_le m2 hc2⟩
    · rw [min_eq_right hc2] at m1
      rw [max_eq_left hc2] at m2
      exact ⟨lt_of_le_of_lt hc1 m1, m2⟩

/-- `double`: from `[0, 1]` at most 2696 iterations. -/
example : ∃ x', bisectionR (binRnd 53 (-1074)) (fun x => x - 1 / 3) 10000 0 0 0 1 0 = (true, x') ∧ 0 ≤ x' ∧ x' ≤ 1 ∧
    Found (bin 53 (-1074) (by norm_num) (by norm_num)) (fun x => x - 1 / 3) 0
      (if |(0 : ℝ) - 1 / 3| < |1 - 1 / 3| then 0 else 1) x' := by
  refine C68_iterations 53 (-1074) (by norm_num) (by norm_num) (fun x => x - 1 / 3) 10000 0 0 0 1 0 2690
    ⟨0, 0, by norm_num, by norm_num, by norm_num⟩ ⟨1, 0, by norm_num, by norm_num, by norm_num⟩ (by norm_num)
    (.inl ⟨by norm_num, by norm_num⟩) ?_ (by decide)
  rw [show 2690 = 5 * 538 from rfl, pow_mul, sub_zero, mul_one]
  have h1 : ((3 / 4 : ℝ) ^ 5) ^ 538 ≤ ((1 / 4 : ℝ)) ^ 538 := pow_le_pow_left₀ (by norm_num) (by norm_num) _
  refine lt_of_le_of_lt h1 ?_
  rw [show (1 / 4 : ℝ) = 2 ^ (-2 : ℤ) by norm_num, ← zpow_natCast, ← zpow_mul]
  exact zpow_lt_zpow_right₀ (by norm_num) (by norm_num)

end Stator.Fp
