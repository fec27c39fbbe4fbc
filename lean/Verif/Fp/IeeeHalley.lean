import Verif.Fp.IeeeQuadratic
import Verif.Fp.IeeeNewton

/-!
# C93: Halley's method on the whole of `double`

When `halleys_method` gives what it gives in the rounded arithmetic of C90, whose exponents have no bound.
-/

namespace Stator.Fp

open Stator Ieee Num

variable {φ : Format} {M : ℝ}

/-- At the numbers of `[lo, hi]` the function and its derivatives compute the numbers `g`, of at most `K`; value and derivative are not
negative zeros. -/
def ComputesH (f : ObjI φ M) (g : Obj) (K lo hi : ℝ) : Prop :=
  ∀ (c : Ieee φ M) (w : ℝ), c.IsNum w → lo ≤ w → w ≤ hi → (f c 0).IsNum (g w 0) ∧ (f c 1).IsNum (g w 1) ∧ (f c 2).IsNum (g w 2) ∧
    f c 0 ≠ .zero true ∧ f c 1 ≠ .zero true ∧ |g w 0| ≤ K ∧ |g w 1| ≤ K ∧ |g w 2| ≤ K

theorem ComputesH.computes {f : ObjI φ M} {g : Obj} {K lo hi : ℝ} (h : ComputesH f g K lo hi) : Computes f g lo hi :=
  fun c w h1 h2 h3 => ⟨(h c w h1 h2 h3).1, (h c w h1 h2 h3).2.1, (h c w h1 h2 h3).2.2.2.1⟩

/-- The current state belongs to the current point. -/
def Fresh (f : ObjI φ M) (s : StI φ M) : Prop := s.st = f s.x

def FreshR (g : Obj) (t : St) : Prop := t.st = g t.x

theorem process_fresh {f : ObjI φ M} {prec : Ieee φ M} {s : StI φ M} (h : Fresh f s) (c : Ieee φ M) : Fresh f (processStepI f prec s c).2 := by
  unfold processStepI
  split
  · exact h
  · dsimp only
    split
    · rfl
    · split
      · exact h
      · rfl

theorem process_freshR {rnd : ℝ → ℝ} {g : Obj} {p : ℝ} {t : St} (h : FreshR g t) (r : ℝ) : FreshR g (processStepR rnd g p t r).2 := by
  unfold processStepR
  split
  · exact h
  · dsimp only
    split
    · rfl
    · split
      · exact h
      · rfl

theorem newton_fresh {f : ObjI φ M} {prec : Ieee φ M} {s : StI φ M} (h : Fresh f s) : Fresh f (newtonStepI f prec s).2 := by
  unfold newtonStepI
  split
  · exact h
  · exact process_fresh h _

theorem newton_freshR {rnd : ℝ → ℝ} {g : Obj} {p : ℝ} {t : St} (h : FreshR g t) : FreshR g (newtonStepR rnd g p t).2 := by
  unfold newtonStepR
  split
  · exact h
  · exact process_freshR h _

theorem bisect_fresh (h2 : 2 ≤ M) (ns : Bool) {f : ObjI φ M} {prec : Ieee φ M} {s : StI φ M} (h : Fresh f s) :
    Fresh f (bisectStepI h2 ns f prec s).2 := by
  unfold bisectStepI
  split
  · exact h
  split
  · exact h
  dsimp only
  split
  · rfl
  split <;> rfl

theorem bisect_freshR {rnd : ℝ → ℝ} {g : Obj} {p : ℝ} {t : St} (h : FreshR g t) : FreshR g (bisectStepR rnd g p t).2 := by
  unfold bisectStepR
  split
  · exact h
  dsimp only
  split
  · exact h
  split
  · rfl
  split <;> rfl

theorem sgn_num {c : Ieee φ M} {x : ℝ} (h : c.IsNum x) (hz : c ≠ .zero true) : c.sgn = Num.sgn false x := by
  rcases c with _ | _ | (_ | _) | ⟨y, _, h0, _⟩ <;> simp only [IsNum] at h
  · subst h; simp [Ieee.sgn, Num.sgn]
  · exact absurd rfl hz
  · subst h; simp [Ieee.sgn, Num.sgn, h0]

theorem bit_sgn {c : Ieee φ M} (h : c ≠ .nan) (ns : Bool) : bit ns c = c.sgn := by
  rcases c with _ | _ | _ | _ <;> first | exact absurd rfl h | rfl

theorem neg_sgn {c : Ieee φ M} {x : ℝ} (h : c.IsNum x) : c.neg.sgn = !c.sgn := by
  rcases c with _ | _ | _ | ⟨y, _, h0, _⟩ <;> simp only [IsNum] at h
  · rfl
  · simp only [Ieee.neg, Ieee.sgn]
    rcases lt_or_gt_of_ne h0 with h | h
    · simp [h, not_lt.2 h.le]
    · simp [h, not_lt.2 h.le]

theorem halley_fresh (h2 : 2 ≤ M) (ns : Bool) {f : ObjI φ M} {prec : Ieee φ M} {s : StI φ M} (h : Fresh f s) :
    Fresh f (halleyStepI h2 ns f prec s).2 := by
  unfold halleyStepI
  dsimp only
  split
  · exact h
  split
  · exact h
  · exact process_fresh h _

theorem halley_freshR {rnd : ℝ → ℝ} {g : Obj} {z : Bool} {p : ℝ} {t : St} (h : FreshR g t) : FreshR g (halleyStepR rnd g z p t).2 := by
  unfold halleyStepR
  dsimp only
  split
  · exact h
  split
  · exact h
  · exact process_freshR h _

theorem halleyTurn_fresh (h2 : 2 ≤ M) (ns : Bool) {f : ObjI φ M} {prec : Ieee φ M} {s : StI φ M} (h : Fresh f s) :
    Fresh f (halleyTurnI h2 ns f prec s).2 := by
  unfold halleyTurnI newtonTurnI orElseI
  dsimp only
  split
  · split
    · exact bisect_fresh h2 ns (newton_fresh (halley_fresh h2 ns h))
    · exact newton_fresh (halley_fresh h2 ns h)
  · exact halley_fresh h2 ns h

theorem halleyTurn_freshR {rnd : ℝ → ℝ} {g : Obj} {z : Bool} {p : ℝ} {t : St} (h : FreshR g t) : FreshR g (halleyTurn rnd g z p t).2 := by
  unfold halleyTurn newtonTurn orElse
  dsimp only
  split
  · split
    · exact bisect_freshR (newton_freshR (halley_freshR h))
    · exact newton_freshR (halley_freshR h)
  · exact halley_freshR h

section
variable {lo hi : ℝ} (h2 : 2 ≤ M) (hMF : M ∈ φ.F) (bl : -(M / 2) ≤ lo) (bh : hi ≤ M / 2) {f : ObjI φ M} {g : Obj} {K : ℝ}
  (hf : ComputesH f g K lo hi) (hK : 2 * K ≤ M) (hK1 : K * K ∈ φ.F) (hK3 : 3 * (K * K) ≤ M)
  {prec : Ieee φ M} {p : ℝ} (hp : prec.IsNum p) (hp1 : |p| ≤ 1)
include h2 hMF bl bh hf hp hp1 hK hK1 hK3

omit hK hK1 hK3 in
/-- The step `x + d` for a quotient `d` that may have overflowed. -/
theorem add_sim (ml : lo ∈ φ.F) (mh : hi ∈ φ.F) {s : StI φ M} {t : St} (h : Sim lo hi s t) {d : Ieee φ M} {v : ℝ}
    (hd : d.IsNum (φ.rnd v) ∨ M < |φ.rnd v| ∧ d = .inf (decide (v < 0))) :
    SimR lo hi (processStepI f prec s (s.x.add d)) (processStepR φ.rnd g p t (φ.rnd (t.x + φ.rnd v))) := by
  refine process_sim h2 hMF bl bh hf.computes hp hp1 h ?_
  have hM0 : 0 ≤ M := by linarith
  have hx := h.x_lo
  have hx' := h.x_hi
  have pos : ∀ {y : ℝ}, 0 ≤ y → 0 ≤ φ.rnd y := fun h => by have := φ.mono h; rwa [Ieee.rnd_zero] at this
  have neg : ∀ {y : ℝ}, y ≤ 0 → φ.rnd y ≤ 0 := fun h => by have := φ.mono h; rwa [Ieee.rnd_zero] at this
  rcases hd with hq | ⟨hq, rfl⟩
  · rcases num_add_cases hM0 h.x hq with hs | ⟨hs, e⟩
    · exact .inl hs
    · right
      rw [e]
      by_cases hn : t.x + φ.rnd v < 0
      · right
        have := neg hn.le
        rw [abs_of_nonpos this] at hs
        simp only [hn, decide_true, true_and]
        linarith
      · left
        have := pos (not_lt.1 hn)
        rw [abs_of_nonneg this] at hs
        simp only [hn, decide_false, true_and]
        linarith
  · right
    rw [(num_add_inf h.x _).1]
    by_cases hn : v < 0
    · right
      have := neg hn.le
      rw [abs_of_nonpos this] at hq
      simp only [hn, decide_true, true_and]
      have h3 := φ.mono (show t.x + φ.rnd v ≤ lo by linarith)
      rwa [φ.rnd_of_mem ml] at h3
    · left
      have := pos (not_lt.1 hn)
      rw [abs_of_nonneg this] at hq
      simp only [hn, decide_false, true_and]
      have h3 := φ.mono (show hi ≤ t.x + φ.rnd v by linarith)
      rwa [φ.rnd_of_mem mh] at h3

theorem halley_sim (ml : lo ∈ φ.F) (mh : hi ∈ φ.F) (ns : Bool) {s : StI φ M} {t : St} (h : Sim lo hi s t) (hs : Fresh f s)
    (ht : FreshR g t) : SimR lo hi (halleyStepI h2 ns f prec s) (halleyStepR φ.rnd g false p t) := by
  obtain ⟨n0, n1, n2, z0, z1, b0, b1, b2⟩ := hf s.x t.x h.x h.x_lo h.x_hi
  have es : s.st = f s.x := hs
  have et : t.st = g t.x := ht
  rw [← es, ← et] at n0 n1 n2
  rw [← es] at z0 z1
  rw [← et] at b0 b1 b2
  have hM0 : 0 ≤ M := by linarith
  have K0 : 0 ≤ K := (abs_nonneg _).trans b0
  have two := two_num (φ := φ) h2
  have KK : 0 ≤ K * K := mul_nonneg K0 K0
  have dbl : ∀ {x : ℝ}, x ∈ φ.F → φ.rnd (2 * x) = 2 * x := fun hx => φ.rnd_of_mem (φ.dbl _ hx)
  have small : ∀ {x : ℝ}, |x| ≤ K → |2 * x| ≤ M := fun hx => by rw [abs_mul, abs_two]; linarith
  have small_prod : ∀ {B y : ℝ}, B ∈ φ.F → |y| ≤ B → |φ.rnd y| ≤ B := fun hB h => by
    rw [abs_le] at h ⊢
    have h1 := φ.mono h.1
    have h3 := φ.mono h.2
    rw [φ.rnd_of_mem hB] at h3
    rw [φ.rnd_of_mem (φ.neg _ hB)] at h1
    exact ⟨h1, h3⟩
  have m0 := two.mul n0 (by rw [dbl n0.mem]; exact small b0)
  have m1 := two.mul n1 (by rw [dbl n1.mem]; exact small b1)
  rw [dbl n0.mem] at m0
  rw [dbl n1.mem] at m1
  have K2 := φ.dbl _ hK1
  have p01 : |2 * t.st 0 * t.st 1| ≤ 2 * (K * K) := by
    rw [abs_mul, abs_mul, abs_two, mul_assoc]
    exact mul_le_mul_of_nonneg_left (mul_le_mul b0 b1 (abs_nonneg _) K0) (by norm_num)
  have p11 : |2 * t.st 1 * t.st 1| ≤ 2 * (K * K) := by
    rw [abs_mul, abs_mul, abs_two, mul_assoc]
    exact mul_le_mul_of_nonneg_left (mul_le_mul b1 b1 (abs_nonneg _) K0) (by norm_num)
  have p02 : |t.st 0 * t.st 2| ≤ K * K := by rw [abs_mul]; exact mul_le_mul b0 b2 (abs_nonneg _) K0
  have r01 := small_prod K2 p01
  have r11 := small_prod K2 p11
  have r02 := small_prod hK1 p02
  have num := m0.mul n1 (by linarith : |φ.rnd (2 * t.st 0 * t.st 1)| ≤ M)
  have d1 := m1.mul n1 (by linarith : |φ.rnd (2 * t.st 1 * t.st 1)| ≤ M)
  have d2 := n0.mul n2 (by linarith : |φ.rnd (t.st 0 * t.st 2)| ≤ M)
  have den := d1.sub d2 (small_rnd hMF ((abs_sub _ _).trans (by linarith)))
  have sgnum : ((((Ieee.two h2).mul (s.st 0)).mul (s.st 1)).sgn) = (Num.sgn false (t.st 0) ^^ Num.sgn false (t.st 1)) := by
    rw [(C91_signs _ _).1 num.not_nan, (C91_signs _ _).1 m0.not_nan, sgn_num n0 z0, sgn_num n1 z1,
      sgn_num two (by intro h; cases h), show Num.sgn false 2 = false by simp [Num.sgn], Bool.false_xor]
  unfold halleyStepI halleyStepR
  dsimp only
  rw [dbl n0.mem, dbl n1.mem]
  generalize ((Ieee.two h2).mul (s.st 0)).mul (s.st 1) = cn at *
  generalize (((Ieee.two h2).mul (s.st 1)).mul (s.st 1)).sub ((s.st 0).mul (s.st 2)) = cd at *
  by_cases e : φ.rnd (φ.rnd (2 * t.st 1 * t.st 1) - φ.rnd (t.st 0 * t.st 2)) = 0
  · rw [if_pos e, if_pos (.inl (den.zero_iff.2 e))]
    exact ⟨rfl, h⟩
  rw [if_neg e, if_neg (by
    rintro (h' | h' | ⟨b, h'⟩)
    · exact e (den.zero_iff.1 h')
    · exact den.not_nan h'
    · rw [h'] at den; exact den)]
  have not01 : ¬ (t.st 0 = 0 ∧ t.st 1 = 0) := by
    rintro ⟨h0, h1⟩
    apply e
    rw [h0, h1]
    simp [Ieee.rnd_zero]
  generalize φ.rnd (2 * t.st 0 * t.st 1) = vn at *
  generalize φ.rnd (φ.rnd (2 * t.st 1 * t.st 1) - φ.rnd (t.st 0 * t.st 2)) = vd at *
  have hq := num_div_cases hM0 num.neg den e
  have nn : cn.neg.div cd ≠ .nan := by
    rcases hq with hq | ⟨-, hq⟩
    · exact hq.not_nan
    · rw [hq]; intro h; cases h
  have nr : (s.st 0).neg.div (s.st 1) ≠ .nan := by
    by_cases h1 : t.st 1 = 0
    · have h0 : t.st 0 ≠ 0 := fun h0 => not01 ⟨h0, h1⟩
      generalize s.st 0 = c0 at n0 ⊢
      generalize s.st 1 = c1 at n1 ⊢
      rcases c0 with _ | _ | _ | _ <;> simp only [IsNum] at n0
      · exact absurd n0 h0
      · rcases c1 with _ | _ | _ | ⟨_, _, hne, _⟩ <;> simp only [IsNum] at n1
        · intro h; cases h
        · exact absurd (n1.trans h1) hne
    · rcases num_div_cases hM0 n0.neg n1 h1 with hq | ⟨-, hq⟩
      · exact hq.not_nan
      · rw [hq]; intro h; cases h
  have hzd : cd.sgn = Num.sgn false vd := sgn_num den (by rintro rfl; exact e den)
  rw [bit_sgn nn, bit_sgn nr, (C91_signs _ _).2.1 nn, (C91_signs _ _).2.1 nr, neg_sgn num, neg_sgn n0, sgnum, hzd, sgn_num n0 z0, sgn_num n1 z1]
  have e1 : (!(Num.sgn false (t.st 0) ^^ Num.sgn false (t.st 1)) ^^ Num.sgn false vd) =
      !((Num.sgn false (t.st 0) ^^ Num.sgn false (t.st 1)) ^^ Num.sgn false vd) := by
    cases Num.sgn false (t.st 0) <;> cases Num.sgn false (t.st 1) <;> cases Num.sgn false vd <;> rfl
  have e2 : ((!Num.sgn false (t.st 0)) ^^ Num.sgn false (t.st 1)) = !(Num.sgn false (t.st 0) ^^ Num.sgn false (t.st 1)) := by
    cases Num.sgn false (t.st 0) <;> cases Num.sgn false (t.st 1) <;> rfl
  rw [e1, e2]
  split
  · exact ⟨rfl, h⟩
  · exact add_sim h2 hMF bl bh hf hp hp1 ml mh h hq

theorem halleyTurn_sim (ml : lo ∈ φ.F) (mh : hi ∈ φ.F) (ns : Bool) {s : StI φ M} {t : St} (h : Sim lo hi s t) (hs : Fresh f s)
    (ht : FreshR g t) : SimR lo hi (halleyTurnI h2 ns f prec s) (halleyTurn φ.rnd g false p t) ∧
      Fresh f (halleyTurnI h2 ns f prec s).2 ∧ FreshR g (halleyTurn φ.rnd g false p t).2 := by
  refine ⟨?_, halleyTurn_fresh h2 ns hs, halleyTurn_freshR ht⟩
  have hh := halley_sim h2 hMF bl bh hf hK hK1 hK3 hp hp1 ml mh ns h hs ht
  unfold halleyTurnI halleyTurn
  unfold orElseI orElse
  dsimp only
  rw [hh.1]
  split
  · exact turn_sim h2 hMF bl bh hf.computes hp hp1 ml mh ns hh.2
  · exact hh

theorem iterate_halley_sim (ml : lo ∈ φ.F) (mh : hi ∈ φ.F) (ns : Bool) : ∀ (n status : ℕ) (s : StI φ M) (t : St), Sim lo hi s t →
    Fresh f s → FreshR g t →
    SimR lo hi (iterateI (halleyTurnI h2 ns f prec) n status s) (iterate (halleyTurn φ.rnd g false p) n status t) := by
  intro n
  induction n with
  | zero => exact fun _ _ _ h _ _ => ⟨rfl, h⟩
  | succ n ih =>
    intro status s t h hs ht
    rw [iterateI, iterate]
    split
    · exact ⟨rfl, h⟩
    · obtain ⟨ht, h4, h5⟩ := halleyTurn_sim h2 hMF bl bh hf hK hK1 hK3 hp hp1 ml mh ns h hs ht
      dsimp only
      rw [ht.1]
      split
      · exact ⟨rfl, ht.2⟩
      · exact ih _ _ _ ht.2 h4 h5

/-- **C93**, agreement, `halleys_method`. With bounds of at most half the largest number, a precision of at most 1 and a function that
returns, with its two derivatives, numbers of at most `K` at the numbers between the bounds, where `3 K²` does not overflow (and no
negative zero for value and first derivative), `halleys_method` gives what it gives in the rounded arithmetic of C90. -/
theorem C93_halley_agrees (ns : Bool) (maxSize : ℕ) {xI loI hiI : Ieee φ M} {x : ℝ} (hx : xI.IsNum x) (hlo : loI.IsNum lo)
    (hhi : hiI.IsNum hi) (h1 : lo ≤ x) (h3 : x ≤ hi) (iterations : ℕ) :
    (halleyI h2 ns f maxSize prec xI loI hiI iterations).1 = (halleyR φ.rnd g false maxSize p x lo hi iterations).1 ∧
    (halleyI h2 ns f maxSize prec xI loI hiI iterations).2.IsNum (halleyR φ.rnd g false maxSize p x lo hi iterations).2 := by
  obtain ⟨f0, f1, -⟩ := hf xI x hx h1 h3
  unfold halleyI halleyR solveWithI solveWith
  by_cases h0 : g x 0 = 0
  · rw [if_pos (f0.zero_iff.2 h0), if_pos h0]
    exact ⟨rfl, hx⟩
  · rw [if_neg (fun h => h0 (f0.zero_iff.1 h)), if_neg h0]
    have := iterate_halley_sim h2 hMF bl bh hf hK hK1 hK3 hp hp1 hlo.mem hhi.mem ns (iters maxSize iterations - 1) 1 ⟨xI, loI, hiI, f xI⟩
      ⟨x, lo, hi, g x⟩
      ⟨hx, h1, h3, ⟨lo, hi, hlo, hhi, rfl, rfl, le_rfl, by linarith, by linarith, le_rfl⟩, f0, f1⟩ rfl rfl
    exact ⟨by dsimp only; rw [this.1], this.2.x⟩

end

/-- **C93**, success, `halleys_method`. With such bounds and such a function, if the function is monotone at the numbers between the
bounds and changes its sign between them, `halleys_method` succeeds with a number between the bounds, unless the precision times a
number is rounded to zero. -/
theorem C93_halley_success (h2 : 2 ≤ M) (hMF : M ∈ φ.F) {lo hi x p K : ℝ} (bl : -(M / 2) ≤ lo) (bh : hi ≤ M / 2) {f : ObjI φ M} {g : Obj}
    (hf : ComputesH f g K lo hi) (hK : 2 * K ≤ M) (hK1 : K * K ∈ φ.F) (hK3 : 3 * (K * K) ≤ M)
    {prec xI loI hiI : Ieee φ M} (hp : prec.IsNum p) (hp1 : |p| ≤ 1) (ns : Bool) (maxSize : ℕ)
    (hx : xI.IsNum x) (hlo : loI.IsNum lo) (hhi : hiI.IsNum hi) (hlt : lo < hi) (h1 : lo ≤ x) (h3 : x ≤ hi)
    (iterations : ℕ) (hg : HonestR φ g lo hi) (hs : SignChange (fun x => g x 0) lo hi)
    (hn : 2 * inside φ lo hi + 4 ≤ iters maxSize iterations) (hp0 : ∀ y ∈ φ.F, lo ≤ y → y ≤ hi → φ.rnd (p * y) ≠ 0) :
    ∃ x' w, halleyI h2 ns f maxSize prec xI loI hiI iterations = (true, x') ∧ x'.IsNum w ∧ lo ≤ w ∧ w ≤ hi := by
  obtain ⟨-, ⟨w, e⟩⟩ := C90_monotone_success g false maxSize p x lo hi iterations hx.mem hlo.mem hhi.mem hlt h1 h3 hg hs hn hp0
  obtain ⟨e1, e2⟩ := C93_halley_agrees h2 hMF bl bh hf hK hK1 hK3 hp hp1 ns maxSize hx hlo hhi h1 h3 iterations
  rw [e] at e1 e2
  obtain ⟨-, b1, b2, -⟩ := C90_halley g false maxSize p x lo hi iterations hx.mem (.real hlo.mem) (.real hhi.mem)
    (EReal.coe_le_coe_iff.2 h1) (EReal.coe_le_coe_iff.2 h3) _ _ e
  exact ⟨_, w, Prod.ext e1 rfl, e2, EReal.coe_le_coe_iff.1 b1, EReal.coe_le_coe_iff.1 b2⟩

/-- `halleys_method` succeeds on the step function between 1 and 2, with derivatives 1. -/
example (ns : Bool) : ∃ x' w, halleyI two_le_maxDouble ns belowObj (2 * inside binary64 1 2 + 4)
    (twoPow (-25) (by norm_num) (by norm_num)) (twoPow 0 (by norm_num) (by norm_num)) (twoPow 0 (by norm_num) (by norm_num))
    (twoPow 1 (by norm_num) (by norm_num)) 0 = (true, x') ∧ x'.IsNum w ∧ 1 ≤ w ∧ w ≤ 2 := by
  have e0 : (twoPow 0 (by norm_num) (by norm_num)).IsNum 1 := show (2 : ℝ) ^ (0 : ℤ) = 1 by norm_num
  have e1 : (twoPow 1 (by norm_num) (by norm_num)).IsNum 2 := show (2 : ℝ) ^ (1 : ℤ) = 2 by norm_num
  have hp : (0 : ℝ) < 2 ^ (-25 : ℤ) := two_zpow_pos _
  have hp1 : (2 : ℝ) ^ (-25 : ℤ) ≤ 1 := by norm_num
  have hpn : (twoPow (-25) (by norm_num) (by norm_num)).IsNum (2 ^ (-25 : ℤ)) := rfl
  have hm : (1 : ℝ) * 1 ∈ binary64.F := by rw [mul_one]; exact binary64.one
  refine C93_halley_success two_le_maxDouble maxDouble_mem (g := fun w i => if i = 0 then if w < 1.5 then -1 else 1 else 1)
    (p := 2 ^ (-25 : ℤ)) (K := 1) (by linarith [big_le_maxDouble]) (by linarith [big_le_maxDouble]) ?_ (by linarith [big_le_maxDouble]) hm
    (by linarith [big_le_maxDouble]) hpn (by rwa [abs_of_pos hp]) ns _
    e0 e0 e1 (by norm_num) (by norm_num) (by norm_num) 0 (.inl ⟨?_, ?_⟩) (.inl ⟨?_, ?_⟩) le_rfl ?_
  · intro c w hc h1 _
    rcases c with _ | _ | _ | ⟨y, _, _, _⟩ <;> simp only [IsNum] at hc
    · linarith
    · subst hc
      by_cases h : y < 1.5 <;>
        simp [belowObj, below, h, Ieee.one, Ieee.neg, IsNum]
  · intro a _ b _ hab
    by_cases ha : a < 1.5 <;> by_cases hb : b < 1.5 <;> simp only [ha, hb, if_true, if_false] <;>
      first | exact le_rfl | (norm_num; done) | (exfalso; linarith)
  · intro a _; norm_num
  · norm_num
  · norm_num
  · intro y _ h1 _
    have h := binary64.mono (show (2 : ℝ) ^ (-25 : ℤ) ≤ 2 ^ (-25 : ℤ) * y from le_mul_of_one_le_right hp.le h1)
    rw [rnd_pow _ (by norm_num)] at h
    linarith

/-- The bound on values and derivatives can be as large as `2^510`. -/
theorem half_range : 2 * (2 : ℝ) ^ (510 : ℤ) ≤ maxDouble ∧ (2 : ℝ) ^ (510 : ℤ) * 2 ^ (510 : ℤ) ∈ binary64.F ∧
    3 * ((2 : ℝ) ^ (510 : ℤ) * 2 ^ (510 : ℤ)) ≤ maxDouble := by
  have e : (2 : ℝ) ^ (510 : ℤ) * 2 ^ (510 : ℤ) = 2 ^ (1020 : ℤ) := by rw [← zpow_add₀ (by norm_num)]; norm_num
  have e1 : (2 : ℝ) ^ (511 : ℤ) = 2 * 2 ^ (510 : ℤ) := by
    rw [show (511 : ℤ) = 1 + 510 by norm_num, zpow_add₀ (by norm_num), zpow_one]
  have e2 : (2 : ℝ) ^ (1022 : ℤ) = 4 * 2 ^ (1020 : ℤ) := by
    rw [show (1022 : ℤ) = 2 + 1020 by norm_num, zpow_add₀ (by norm_num)]; norm_num
  refine ⟨by rw [← e1]; exact pow_le_maxDouble (by norm_num), by rw [e]; exact pow_mem _ (by norm_num), ?_⟩
  rw [e]
  refine le_trans ?_ (pow_le_maxDouble (k := 1022) (by norm_num))
  rw [e2]
  exact mul_le_mul_of_nonneg_right (by norm_num) (two_zpow_pos _).le

end Stator.Fp
