import Verif.Fp.IeeeSpec
import Verif.Fp.Bisect

/-!
# C68: bisection on the whole of `double`

`Fp/Bisect` has exponents without a bound. Here `bisection` runs on the data type of IEEE 754: the midpoint of two large ends overflows,
the objective function may return NaN or a negative zero.
-/

namespace Stator.Fp

open Stator Ieee Num

variable {φ : Format} {M : ℝ}

namespace Ieee

/-- `<` -/
def lt (x y : Ieee φ M) : Prop := ∃ a b, x.toE = some a ∧ y.toE = some b ∧ a < b

/-- `>=` -/
def ge (x y : Ieee φ M) : Prop := ∃ a b, x.toE = some a ∧ y.toE = some b ∧ b ≤ a

/-- `std::isinf` -/
def isInf (x : Ieee φ M) : Prop := ∃ b, x = .inf b

/-- `std::signbit`; that of a NaN is `ns`. -/
noncomputable def bit (ns : Bool) : Ieee φ M → Bool
  | .nan => ns
  | x => x.sgn

/-- The number two. -/
def two (h2 : 2 ≤ M) : Ieee φ M := .fin 2 φ.two two_ne_zero (by rwa [abs_two])

end Ieee

open Classical in
/-- models: stator/symbolic/numeric.hpp:296-322, the loop of `bisection`; `none` = iterations used up, `some x` = converged. Only the
sign of `f_high` is kept, and `f_low`, which nothing reads, is not. -/
noncomputable def bisectLoopI (h2 : 2 ≤ M) (ns : Bool) (f : Ieee φ M → Ieee φ M) (prec x : Ieee φ M) :
    ℕ → Ieee φ M → Ieee φ M → Bool → Option (Ieee φ M)
  | 0, _, _, _ => none
  | n + 1, lo, hi, sHigh =>
    let mid := (lo.add hi).div (two h2)
    let v := f mid
    if lt (mid.sub x).abs (prec.mul mid).abs ∨ v.eq (.zero false) = true ∨ mid.eq lo = true ∨ mid.eq hi = true then some mid
    else if bit ns v = sHigh then bisectLoopI h2 ns f prec x n lo mid (bit ns v)
    else bisectLoopI h2 ns f prec x n mid hi sHigh

open Classical in
/-- models: stator/symbolic/numeric.hpp:272-328 `bisection`. The function is any function: the one the machine computes. -/
noncomputable def bisectionI (h2 : 2 ≤ M) (ns : Bool) (f : Ieee φ M → Ieee φ M) (maxSize : ℕ) (prec x lo hi : Ieee φ M)
    (iterations : ℕ) : Bool × Ieee φ M :=
  if ge lo hi ∨ lo.isInf ∨ hi.isInf then (false, x)
  else if bit ns (f lo) = bit ns (f hi) then (false, x)
  else
    let x := if lt (f lo).abs (f hi).abs then lo else hi
    match bisectLoopI h2 ns f prec x (iters maxSize iterations - 1) lo hi (bit ns (f hi)) with
    | some m => (true, m)
    | none => (false, x)

/-! ## Specification -/

/-- What `bisection` may return: a point where the function is zero, one of two adjacent numbers between `l` and `h` at which the
function has different signs, or a point that is within the precision of `x0`. -/
def FoundI (ns : Bool) (f : Ieee φ M → Ieee φ M) (prec x0 x : Ieee φ M) (l h : ℝ) : Prop :=
  f x = .zero true ∨ f x = .zero false ∨
  (∃ a b u v, a.IsNum u ∧ b.IsNum v ∧ l ≤ u ∧ v ≤ h ∧ Adjacent φ u v ∧ bit ns (f a) ≠ bit ns (f b) ∧ (x.IsNum u ∨ x.IsNum v)) ∨
  lt (x.sub x0).abs (prec.mul x).abs

/-! ## The proof -/

theorem Ieee.IsNum.toE {c : Ieee φ M} {x : ℝ} (h : c.IsNum x) : c.toE = some ((x : ℝ) : EReal) := by
  cases c <;> simp only [IsNum] at h <;> subst h <;> rfl

theorem Ieee.IsNum.eq_iff {c d : Ieee φ M} {x y : ℝ} (h : c.IsNum x) (h' : d.IsNum y) : c.eq d = true ↔ x = y := by
  rw [C91_eq, h.toE, h'.toE]
  constructor
  · rintro ⟨v, h1, h2⟩
    have := (Option.some.inj h1).trans (Option.some.inj h2).symm
    exact_mod_cast this
  · rintro rfl
    exact ⟨_, rfl, rfl⟩

theorem eq_zero_iff (c : Ieee φ M) : c.eq (.zero false) = true ↔ c = .zero true ∨ c = .zero false := by
  rcases c with _ | _ | (_ | _) | _ <;> simp [Ieee.eq]

theorem two_num (h2 : 2 ≤ M) : (two h2 : Ieee φ M).IsNum 2 := rfl

/-- The midpoint of numbers that are not too large is a number. -/
theorem mid_num (h2 : 2 ≤ M) (hMF : M ∈ φ.F) {lo hi : Ieee φ M} {l h : ℝ} (hl : lo.IsNum l) (hh : hi.IsNum h) (hlt : l < h)
    (bl : -(M / 2) ≤ l) (bh : h ≤ M / 2) : ((lo.add hi).div (two h2)).IsNum (φ.rnd (φ.rnd (l + h) / 2)) := by
  have h1 := φ.mono (show l + h ≤ M by linarith)
  have h0 := φ.mono (show -M ≤ l + h by linarith)
  rw [φ.rnd_of_mem hMF] at h1
  rw [φ.rnd_of_mem (φ.neg M hMF)] at h0
  have hb := mid_between φ hl.mem hh.mem hlt
  exact (hl.add hh (abs_le.2 ⟨h0, h1⟩)).div (two_num h2) two_ne_zero (abs_le.2 ⟨by linarith, by linarith⟩)

/-- A bound for the number of iterations that goes down with every step. -/
def Enough (φ : Format) (P : ℕ → ℝ → ℝ → Prop) : Prop :=
  ∀ n l h, l ∈ φ.F → h ∈ φ.F → l < h → P n l h → ∃ k, n = k + 1 ∧
    (l < φ.rnd (φ.rnd (l + h) / 2) → φ.rnd (φ.rnd (l + h) / 2) < h →
      P k l (φ.rnd (φ.rnd (l + h) / 2)) ∧ P k (φ.rnd (φ.rnd (l + h) / 2)) h)

theorem FoundI.widen {ns : Bool} {f : Ieee φ M → Ieee φ M} {prec x0 x : Ieee φ M} {l h l' h' : ℝ} (H : FoundI ns f prec x0 x l h)
    (hl : l' ≤ l) (hh : h ≤ h') : FoundI ns f prec x0 x l' h' := by
  rcases H with H | H | ⟨a, b, u, v, h1, h2, h3, h4, h5⟩ | H
  · exact .inl H
  · exact .inr (.inl H)
  · exact .inr (.inr (.inl ⟨a, b, u, v, h1, h2, hl.trans h3, h4.trans hh, h5⟩))
  · exact .inr (.inr (.inr H))

theorem bisectLoopI_spec (h2 : 2 ≤ M) (hMF : M ∈ φ.F) (ns : Bool) (f : Ieee φ M → Ieee φ M) (prec x : Ieee φ M)
    {P : ℕ → ℝ → ℝ → Prop} (hP : Enough φ P) : ∀ (n : ℕ) (lo hi : Ieee φ M) (l h : ℝ), lo.IsNum l → hi.IsNum h → l < h →
    -(M / 2) ≤ l → h ≤ M / 2 → bit ns (f lo) ≠ bit ns (f hi) → P n l h →
    ∃ x' w, bisectLoopI h2 ns f prec x n lo hi (bit ns (f hi)) = some x' ∧ x'.IsNum w ∧ l ≤ w ∧ w ≤ h ∧ FoundI ns f prec x x' l h := by
  intro n
  induction n with
  | zero =>
    intro lo hi l h hl hh hlt _ _ _ hn
    obtain ⟨k, hk, _⟩ := hP 0 l h hl.mem hh.mem hlt hn
    omega
  | succ n ih =>
    intro lo hi l h hl hh hlt bl bh hs hn
    obtain ⟨k, hk, hstep⟩ := hP _ l h hl.mem hh.mem hlt hn
    obtain rfl : n = k := by omega
    have hb := mid_between φ hl.mem hh.mem hlt
    have hm := mid_num h2 hMF hl hh hlt bl bh
    have hstrict := fun m hm h1 h2 => mid_strict φ (m := m) hl.mem hh.mem hm h1 h2
    rw [bisectLoopI]
    generalize φ.rnd (φ.rnd (l + h) / 2) = w at *
    generalize (lo.add hi).div (two h2) = mid at *
    split
    next hstop =>
      refine ⟨mid, w, rfl, hm, hb.1, hb.2, ?_⟩
      rcases hstop with h' | h' | h' | h'
      · exact .inr (.inr (.inr h'))
      · rcases (eq_zero_iff _).1 h' with h' | h'
        · exact .inl h'
        · exact .inr (.inl h')
      · have e := (hm.eq_iff hl).1 h'
        refine .inr (.inr (.inl ⟨lo, hi, l, h, hl, hh, le_rfl, le_rfl, ⟨hl.mem, hh.mem, hlt, fun m hm hc => ?_⟩, hs, .inl (e ▸ hm)⟩))
        exact (hstrict m hm hc.1 hc.2).1 e
      · have e := (hm.eq_iff hh).1 h'
        refine .inr (.inr (.inl ⟨lo, hi, l, h, hl, hh, le_rfl, le_rfl, ⟨hl.mem, hh.mem, hlt, fun m hm hc => ?_⟩, hs, .inr (e ▸ hm)⟩))
        exact (hstrict m hm hc.1 hc.2).2 e
    next hgo =>
      push Not at hgo
      obtain ⟨-, -, g1, g2⟩ := hgo
      have g1' : l < w := lt_of_le_of_ne hb.1 fun e => g1 ((hm.eq_iff hl).2 e.symm)
      have g2' : w < h := lt_of_le_of_ne hb.2 fun e => g2 ((hm.eq_iff hh).2 e)
      obtain ⟨p1, p2⟩ := hstep g1' g2'
      split
      next hsgn =>
        obtain ⟨x', w', e1, e2, e3, e4, e5⟩ := ih lo mid l w hl hm g1' bl (by linarith) (by rw [hsgn]; exact hs) p1
        exact ⟨x', w', e1, e2, e3, by linarith, e5.widen le_rfl g2'.le⟩
      next hsgn =>
        obtain ⟨x', w', e1, e2, e3, e4, e5⟩ := ih mid hi w h hm hh g2' (by linarith) bh hsgn p2
        exact ⟨x', w', e1, e2, by linarith, e4, e5.widen g1'.le le_rfl⟩

/-- More iterations than there are numbers in the interval are enough. -/
theorem enough_count (φ : Format) : Enough φ fun n l h => (φ.F ∩ Set.Ioo l h).ncard + 1 ≤ n := by
  intro n l h hl hh hlt hn
  refine ⟨n - 1, by omega, fun h1 h2 => ?_⟩
  have hmem := φ.mem (φ.rnd (l + h) / 2)
  generalize φ.rnd (φ.rnd (l + h) / 2) = mid at *
  have hfin : ∀ a b, (φ.F ∩ Set.Ioo a b).Finite := fun a b => (φ.finite a b).subset
    (Set.inter_subset_inter_right _ Set.Ioo_subset_Icc_self)
  have hcard : ∀ a b, l ≤ a → b ≤ h → (mid = a ∨ mid = b) → (φ.F ∩ Set.Ioo a b).ncard + 1 ≤ n - 1 := by
    intro a b ha hb' hab
    have hsub : φ.F ∩ Set.Ioo a b ⊂ φ.F ∩ Set.Ioo l h := by
      refine ⟨Set.inter_subset_inter_right _ (Set.Ioo_subset_Ioo ha hb'), fun hsub => ?_⟩
      have := (hsub ⟨hmem, h1, h2⟩).2
      rcases hab with h | h
      · exact absurd this.1 (by rw [h]; exact lt_irrefl _)
      · exact absurd this.2 (by rw [h]; exact lt_irrefl _)
    have := Set.ncard_lt_ncard hsub (hfin l h)
    omega
  exact ⟨hcard l mid le_rfl h2.le (.inr rfl), hcard mid h h1.le le_rfl (.inl rfl)⟩

/-- In a binary format, a quarter of the interval goes with every step until four numbers are left. -/
theorem enough_log (p : ℕ) (emin : ℤ) (hp : 2 ≤ p) (he : emin ≤ 0) : Enough (bin p emin (by omega) he) fun n l h =>
    (binF p emin ∩ Set.Ioo l h).ncard + 1 ≤ n ∨ ∃ k, (3 / 4 : ℝ) ^ k * (h - l) < 2 ^ emin ∧ k + 5 ≤ n := by
  intro n l h hl hh hlt hn
  have hc := enough_count (bin p emin (by omega) he)
  rcases hn with hn | ⟨k, hk, hn⟩
  · obtain ⟨j, e, hj⟩ := hc n l h hl hh hlt hn
    exact ⟨j, e, fun h1 h2 => ⟨.inl (hj h1 h2).1, .inl (hj h1 h2).2⟩⟩
  · rcases k with _ | k
    · have := bin_apart p emin hl hh hlt
      rw [pow_zero, one_mul] at hk
      linarith
    rcases bin_middle p emin hp hlt with ⟨m, hm, hmid⟩ | hfew
    · refine ⟨n - 1, by omega, fun h1 h2 => ?_⟩
      have hnear := mid_near (bin p emin (by omega) he) hl hh hm hmid
      generalize (bin p emin _ he).rnd ((bin p emin _ he).rnd (l + h) / 2) = mid at *
      rw [abs_le] at hnear
      rw [pow_succ] at hk
      have hpow : (0 : ℝ) < (3 / 4 : ℝ) ^ k := by positivity
      exact ⟨.inr ⟨k, by nlinarith [hnear.2], by omega⟩, .inr ⟨k, by nlinarith [hnear.1], by omega⟩⟩
    · obtain ⟨j, e, hj⟩ := hc n l h hl hh hlt (show (binF p emin ∩ Set.Ioo l h).ncard + 1 ≤ n by omega)
      exact ⟨j, e, fun h1 h2 => ⟨.inl (hj h1 h2).1, .inl (hj h1 h2).2⟩⟩

open Classical in
theorem bisectionI_spec (h2 : 2 ≤ M) (hMF : M ∈ φ.F) (ns : Bool) (f : Ieee φ M → Ieee φ M) (maxSize : ℕ) (prec x lo hi : Ieee φ M)
    (iterations : ℕ) {P : ℕ → ℝ → ℝ → Prop} (hP : Enough φ P) {l h : ℝ} (hl : lo.IsNum l) (hh : hi.IsNum h) (hlt : l < h)
    (bl : -(M / 2) ≤ l) (bh : h ≤ M / 2) (hs : bit ns (f lo) ≠ bit ns (f hi)) (hn : P (iters maxSize iterations - 1) l h) :
    ∃ x' w, bisectionI h2 ns f maxSize prec x lo hi iterations = (true, x') ∧ x'.IsNum w ∧ l ≤ w ∧ w ≤ h ∧
      FoundI ns f prec (if lt (f lo).abs (f hi).abs then lo else hi) x' l h := by
  unfold bisectionI
  rw [if_neg, if_neg hs]
  · simp only
    generalize (if lt (f lo).abs (f hi).abs then lo else hi) = x0
    obtain ⟨x', w, h1, e2, e3, e4, e5⟩ := bisectLoopI_spec h2 hMF ns f prec x0 hP _ lo hi l h hl hh hlt bl bh hs hn
    rw [h1]
    exact ⟨x', w, rfl, e2, e3, e4, e5⟩
  · rintro (⟨a, b, ha, hb, hab⟩ | ⟨b, rfl⟩ | ⟨b, rfl⟩)
    · rw [hl.toE] at ha
      rw [hh.toE] at hb
      cases ha; cases hb
      exact absurd (EReal.coe_le_coe_iff.1 hab) (not_le.2 hlt)
    · exact hl
    · exact hh

open Classical in
/-- **C68**, in IEEE arithmetic. Whatever the function is (it may return NaN, infinities and negative zeros), on an interval whose ends
are numbers of at most half the largest number, at which the function has different sign bits, `bisection` succeeds if more
iterations are allowed than there are numbers in the interval. What it returns is a number of the interval at which the function
is zero, that has a neighbour in the interval at which the function has another sign, or that is within the precision of the better end. -/
theorem C68_ieee (h2 : 2 ≤ M) (hMF : M ∈ φ.F) (ns : Bool) (f : Ieee φ M → Ieee φ M) (maxSize : ℕ) (prec x lo hi : Ieee φ M)
    (iterations : ℕ) {l h : ℝ} (hl : lo.IsNum l) (hh : hi.IsNum h) (hlt : l < h) (bl : -(M / 2) ≤ l) (bh : h ≤ M / 2)
    (hs : bit ns (f lo) ≠ bit ns (f hi)) (hn : (φ.F ∩ Set.Ioo l h).ncard + 2 ≤ iters maxSize iterations) :
    ∃ x' w, bisectionI h2 ns f maxSize prec x lo hi iterations = (true, x') ∧ x'.IsNum w ∧ l ≤ w ∧ w ≤ h ∧
      FoundI ns f prec (if lt (f lo).abs (f hi).abs then lo else hi) x' l h :=
  bisectionI_spec h2 hMF ns f maxSize prec x lo hi iterations (enough_count φ) hl hh hlt bl bh hs (by omega)

open Classical in
/-- **C68**, in IEEE arithmetic: the number of iterations is logarithmic. -/
theorem C68_ieee_iterations (p : ℕ) (emin : ℤ) (hp : 2 ≤ p) (he : emin ≤ 0) (h2 : 2 ≤ M) (hMF : M ∈ binF p emin) (ns : Bool)
    (f : Ieee (bin p emin (by omega) he) M → Ieee (bin p emin (by omega) he) M) (maxSize : ℕ)
    (prec x lo hi : Ieee (bin p emin (by omega) he) M) (iterations k : ℕ) {l h : ℝ} (hl : lo.IsNum l) (hh : hi.IsNum h)
    (hlt : l < h) (bl : -(M / 2) ≤ l) (bh : h ≤ M / 2) (hs : bit ns (f lo) ≠ bit ns (f hi))
    (hk : (3 / 4 : ℝ) ^ k * (h - l) < 2 ^ emin) (hn : k + 6 ≤ iters maxSize iterations) :
    ∃ x' w, bisectionI h2 ns f maxSize prec x lo hi iterations = (true, x') ∧ x'.IsNum w ∧ l ≤ w ∧ w ≤ h ∧
      FoundI ns f prec (if lt (f lo).abs (f hi).abs then lo else hi) x' l h :=
  bisectionI_spec h2 hMF ns f maxSize prec x lo hi iterations (enough_log p emin hp he) hl hh hlt bl bh hs
    (.inr ⟨k, hk, by omega⟩)

theorem inf_half (h2 : 2 ≤ M) (s : Bool) : (Ieee.inf s : Ieee φ M).div (two h2) = .inf s := by
  have : ¬ (2 : ℝ) < 0 := by norm_num
  simp [Ieee.div, two, Ieee.sgn, this]

theorem num_add_inf {x : Ieee φ M} {a : ℝ} (hx : x.IsNum a) (s : Bool) : x.add (.inf s) = .inf s ∧ (Ieee.inf s).add x = .inf s := by
  rcases x with _ | _ | _ | _ <;> simp only [IsNum] at hx <;> simp [Ieee.add]

/-- The sum of numbers that overflows. -/
theorem num_add_overflow {lo hi : Ieee φ M} {l h : ℝ} (hl : lo.IsNum l) (hh : hi.IsNum h) (hM0 : 0 ≤ M) (ho : M < φ.rnd (l + h)) :
    lo.add hi = .inf false := by
  have hnn : lo.add hi ≠ .nan := by
    rcases lo with _ | _ | _ | _ <;> simp only [IsNum] at hl <;> rcases hi with _ | _ | _ | _ <;> simp only [IsNum] at hh <;>
      simp [Ieee.add, pack_ne_nan]
  have := (C91_add hM0 lo hi).2 _ _ hl.toE hh.toE hnn
  have e : ((l : ℝ) : EReal) + h = ((l + h : ℝ) : EReal) := rfl
  have hpos : ¬ (l + h < 0) := fun h' => by
    have := φ.mono h'.le
    rw [Ieee.rnd_zero] at this
    linarith
  have e' : roundE φ M ((l + h : ℝ) : EReal) = ⊤ := by
    change (if |φ.rnd (l + h)| ≤ M then (φ.rnd (l + h) : EReal) else if l + h < 0 then ⊥ else ⊤) = ⊤
    rw [if_neg (by rw [abs_of_pos (by linarith)]; linarith), if_neg hpos]
  rw [e, e'] at this
  rcases hlh : lo.add hi with _ | (_ | _) | _ | _ <;> rw [hlh] at this <;> cases this

/-- **C68**, the limit of the range: if the sum of the ends overflows, `bisection` reports success with the root *infinity*, whatever
the function and the precision are. -/
theorem C68_overflow (h2 : 2 ≤ M) (ns : Bool) (f : Ieee φ M → Ieee φ M) (maxSize : ℕ) (prec x lo hi : Ieee φ M)
    (iterations : ℕ) {l h : ℝ} (hl : lo.IsNum l) (hh : hi.IsNum h) (hlt : l < h) (ho : M < φ.rnd (l + h))
    (hs : bit ns (f lo) ≠ bit ns (f hi)) (hn : 3 ≤ iters maxSize iterations) :
    bisectionI h2 ns f maxSize prec x lo hi iterations = (true, .inf false) := by
  unfold bisectionI
  rw [if_neg, if_neg hs]
  · simp only
    obtain ⟨n, hn⟩ : ∃ n, iters maxSize iterations - 1 = n + 2 := ⟨iters maxSize iterations - 3, by omega⟩
    rw [hn]
    have hsum := num_add_overflow hl hh (by linarith) ho
    have key : ∀ x0, bisectLoopI h2 ns f prec x0 (n + 2) lo hi (bit ns (f hi)) = some (.inf false) := ?_
    · rw [key]
    intro x0
    rw [bisectLoopI]
    simp only [hsum, inf_half]
    split
    · rfl
    split
    · rw [bisectLoopI]
      simp only [(num_add_inf hl false).1, inf_half]
      rw [if_pos]
      exact .inr (.inr (.inr (by rw [(num_add_inf hl false).1, inf_half]; rfl)))
    · rw [bisectLoopI]
      simp only [(num_add_inf hh false).2, inf_half]
      rw [if_pos]
      exact .inr (.inr (.inl (by rw [(num_add_inf hh false).2, inf_half]; rfl)))
  · rintro (⟨a, b, ha, hb, hab⟩ | ⟨b, rfl⟩ | ⟨b, rfl⟩)
    · rw [hl.toE] at ha
      rw [hh.toE] at hb
      cases ha; cases hb
      exact absurd (EReal.coe_le_coe_iff.1 hab) (not_le.2 hlt)
    · exact hl
    · exact hh

/-! ## Examples: `double` -/

theorem maxDouble_mem : maxDouble ∈ binF 53 (-1074) := by
  refine ⟨2 ^ 53 - 1, 971, by norm_num, by norm_num, ?_⟩
  unfold maxDouble
  rw [show ((2 : ℝ) ^ (971 : ℤ)) = 2 ^ (971 : ℕ) from zpow_natCast 2 971]
  generalize (2 : ℝ) ^ 971 = t
  norm_num

theorem two_le_maxDouble : (2 : ℝ) ≤ maxDouble := le_trans (by norm_num) big_le_maxDouble

/-- The largest `double`. -/
noncomputable def topDouble : Ieee binary64 maxDouble :=
  .fin maxDouble maxDouble_mem (by linarith [two_le_maxDouble]) (by rw [abs_of_pos (by linarith [two_le_maxDouble])])

/-- `x` compared with `c`: a function with a change of sign at `c`, computed without error. -/
noncomputable def below (c : ℝ) : Ieee binary64 maxDouble → Ieee binary64 maxDouble
  | .fin x _ _ _ => if x < c then .neg (.one one_le_maxDouble) else .one one_le_maxDouble
  | _ => .one one_le_maxDouble

/-- Between 1 and 2 `bisection` finds a number. -/
example (x : Ieee binary64 maxDouble) : ∃ x' w, bisectionI two_le_maxDouble false (below 1.5) 10000 (.zero false) x (twoPow 0 (by norm_num) (by norm_num))
    (twoPow 1 (by norm_num) (by norm_num)) 0 = (true, x') ∧ x'.IsNum w ∧ 1 ≤ w ∧ w ≤ 2 := by
  have hs : bit false (below 1.5 (twoPow 0 (by norm_num) (by norm_num))) ≠ bit false (below 1.5 (twoPow 1 (by norm_num) (by norm_num))) := by
    simp only [below, twoPow, show ((2 : ℝ) ^ (0 : ℤ)) < 1.5 by norm_num, show ¬ ((2 : ℝ) ^ (1 : ℤ)) < 1.5 by norm_num, if_true,
      if_false, Ieee.neg, Ieee.one, bit, Ieee.sgn]
    norm_num
  have hk : (3 / 4 : ℝ) ^ 2690 * (2 - 1) < 2 ^ (-1074 : ℤ) := by
    rw [show 2690 = 5 * 538 from rfl, pow_mul, show (2 : ℝ) - 1 = 1 by norm_num, mul_one]
    have h1 : ((3 / 4 : ℝ) ^ 5) ^ 538 ≤ ((1 / 4 : ℝ)) ^ 538 := pow_le_pow_left₀ (by norm_num) (by norm_num) _
    refine lt_of_le_of_lt h1 ?_
    rw [show (1 / 4 : ℝ) = 2 ^ (-2 : ℤ) by norm_num, ← zpow_natCast, ← zpow_mul]
    exact zpow_lt_zpow_right₀ (by norm_num) (by norm_num)
  obtain ⟨x', w, h1, h2, h3, h4, -⟩ := C68_ieee_iterations 53 (-1074) (by norm_num) (by norm_num) two_le_maxDouble maxDouble_mem
    false (below 1.5) 10000 (.zero false) x (twoPow 0 (by norm_num) (by norm_num)) (twoPow 1 (by norm_num) (by norm_num)) 0 2690
    (l := 1) (h := 2) (show (2 : ℝ) ^ (0 : ℤ) = 1 by norm_num) (show (2 : ℝ) ^ (1 : ℤ) = 2 by norm_num) (by norm_num)
    (by linarith [two_le_maxDouble]) (by linarith [big_le_maxDouble]) hs hk (by decide)
  exact ⟨x', w, h1, h2, h3, h4⟩

/-- Between `2^1023` and the largest `double` it finds infinity. -/
example (prec x : Ieee binary64 maxDouble) : bisectionI two_le_maxDouble false (below (1.5 * 2 ^ (1023 : ℤ))) 10000 prec x
    (twoPow 1023 (by norm_num) le_rfl) topDouble 0 = (true, .inf false) := by
  have e : maxDouble = (2 - 2 ^ (-52 : ℤ)) * 2 ^ (1023 : ℤ) := by
    unfold maxDouble
    rw [show (1023 : ℤ) = 52 + 971 by norm_num, zpow_add₀ (by norm_num), ← mul_assoc,
      show ((2 : ℝ) ^ (971 : ℤ)) = 2 ^ (971 : ℕ) from zpow_natCast 2 971]
    generalize (2 : ℝ) ^ 971 = t
    norm_num
  have hp : (0 : ℝ) < 2 ^ (1023 : ℤ) := two_zpow_pos _
  have h52 : (2 : ℝ) ^ (-52 : ℤ) ≤ 1 / 4 := by norm_num
  have h52' : (0 : ℝ) < 2 ^ (-52 : ℤ) := two_zpow_pos _
  have e4 : (2 : ℝ) ^ (1024 : ℤ) = 2 * 2 ^ (1023 : ℤ) := by
    rw [show (1024 : ℤ) = 1 + 1023 by norm_num, zpow_add₀ (by norm_num), zpow_one]
  have k1 : (2 : ℝ) ^ (-52 : ℤ) * 2 ^ (1023 : ℤ) ≤ 1 / 4 * 2 ^ (1023 : ℤ) := mul_le_mul_of_nonneg_right h52 hp.le
  have k2 : (0 : ℝ) < (2 : ℝ) ^ (-52 : ℤ) * 2 ^ (1023 : ℤ) := mul_pos h52' hp
  rw [sub_mul] at e
  generalize (2 : ℝ) ^ (-52 : ℤ) * 2 ^ (1023 : ℤ) = d at *
  have facts : ∀ t : ℝ, 0 < t → d ≤ 1 / 4 * t → t < 2 * t - d ∧ 2 * t ≤ t + (2 * t - d) ∧ 2 * t - d < 2 * t ∧
      t < 1.5 * t ∧ ¬ 2 * t - d < 1.5 * t := fun t h1 h2 =>
    ⟨by linarith, by linarith, by linarith, by linarith, by linarith⟩
  obtain ⟨f1, f2, f3, f4, f5⟩ := facts _ hp k1
  refine C68_overflow two_le_maxDouble false _ 10000 prec x _ _ 0 (l := 2 ^ (1023 : ℤ)) (h := maxDouble) rfl rfl ?_ ?_ ?_ (by decide)
  · rw [e]; exact f1
  · have h1 : (2 : ℝ) ^ (1024 : ℤ) ≤ 2 ^ (1023 : ℤ) + maxDouble := by
      rw [e, e4]; exact f2
    have h2 := binary64.mono h1
    rw [rnd_pow _ (by norm_num)] at h2
    refine lt_of_lt_of_le ?_ h2
    rw [e, e4]; exact f3
  · have h1 : (2 : ℝ) ^ (1023 : ℤ) < 1.5 * 2 ^ (1023 : ℤ) := f4
    have h2 : ¬ maxDouble < 1.5 * 2 ^ (1023 : ℤ) := by rw [e]; exact f5
    simp only [below, twoPow, topDouble, h1, h2, if_true, if_false, Ieee.neg, Ieee.one, bit, Ieee.sgn]
    norm_num

end Stator.Fp
