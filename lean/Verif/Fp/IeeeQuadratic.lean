import Verif.Fp.IeeeNewton
import Verif.Fp.QuadraticProps

/-!
# C95: the quadratic solver on the whole of `double`

`Fp/Quadratic` has exponents without a bound. Here `solve_real_roots` of a polynomial of order 2 runs on the data type of IEEE 754.
-/

namespace Stator.Fp

open Stator Ieee Num Stator.Pol

variable {φ : Format} {M : ℝ}

namespace Ieee

open Classical in
/-- `std::sqrt` (IEEE 754-2019, 5.4.1 and 6.3: the root of `-0` is `-0`, of other negative operands NaN). -/
noncomputable def sqrt : Ieee φ M → Ieee φ M
  | nan => nan
  | inf false => inf false
  | inf true => nan
  | zero b => zero b
  | fin x _ _ _ => if x < 0 then nan else pack false (Real.sqrt x)

/-- `std::copysign` (the sign bit of a NaN is taken as 0: in `quadI` the first operand is NaN then as well). -/
noncomputable def copysign (x y : Ieee φ M) : Ieee φ M := if y.sgn then x.abs.neg else x.abs

open Classical in
/-- `std::min(x, y)`: `(y < x) ? y : x`. -/
noncomputable def min (x y : Ieee φ M) : Ieee φ M := if lt y x then y else x

open Classical in
/-- `std::max(x, y)`: `(x < y) ? y : x`. -/
noncomputable def max (x y : Ieee φ M) : Ieee φ M := if lt x y then y else x

end Ieee

/-- models: stator/symbolic/polynomial.hpp:768-774 order 1; the arguments are the coefficients. -/
noncomputable def linI (f0 f1 : Ieee φ M) : List (Ieee φ M) := if f1.eq (.zero false) = true then [] else [f0.neg.div f1]

open Classical in
/-- models: stator/symbolic/polynomial.hpp:783-823 order 2 and simplify.hpp:404-414 (`f / f[2]`: the quotients are added to zeros); the
arguments are the constants 4, 0.5 and `maxSqrt`, and the coefficients. -/
noncomputable def quadI (four half maxSqrt f0 f1 f2 : Ieee φ M) : List (Ieee φ M) :=
  if f2.eq (.zero false) = true then linI f0 f1
  else
    let q := (Ieee.zero false).add (f0.div f2)
    let p := (Ieee.zero false).add (f1.div f2)
    if q.eq (.zero false) = true then [p.neg.min (.zero false), p.neg.max (.zero false)]
    else if lt maxSqrt p.abs then
      let a := p.neg
      let b := q.neg.div p
      if lt b a then [b, a] else [a, b]
    else
      let arg := (p.mul p).sub (four.mul q)
      if lt arg (.zero false) then []
      else if arg.eq (.zero false) = true then [p.neg.mul half]
      else
        let root1 := (p.add (arg.sqrt.copysign p)).neg.mul half
        let root2 := q.div root1
        if lt root2 root1 then [root2, root1] else [root1, root2]

/-- `quadI` for `double`: `maxSqrt` is the square root of the largest `double`. -/
noncomputable def quadD : Ieee binary64 maxDouble → Ieee binary64 maxDouble → Ieee binary64 maxDouble → List (Ieee binary64 maxDouble) :=
  quadI (twoPow 2 (by norm_num) (by norm_num)) (twoPow (-1) (by norm_num) (by norm_num)) topDouble.sqrt

/-! ## Operations on numbers -/

theorem Ieee.IsNum.sqrt {c : Ieee φ M} {x : ℝ} (h : c.IsNum x) (h0 : 0 ≤ x) (hr : |φ.rnd (Real.sqrt x)| ≤ M) :
    c.sqrt.IsNum (φ.rnd (Real.sqrt x)) := by
  rcases c with _ | _ | _ | ⟨y, _, _, _⟩ <;> simp only [IsNum] at h
  · subst h; rw [Real.sqrt_zero, rnd_zero]; rfl
  · subst h
    simp only [Ieee.sqrt, not_lt.2 h0, if_false]
    exact pack_num _ _ hr

theorem plus_zero {c : Ieee φ M} {x : ℝ} (h : c.IsNum x) (h1 : |x| ≤ M) :
    ((Ieee.zero false).add c).IsNum x ∧ ((Ieee.zero false).add c).sgn = decide (x < 0) := by
  rcases c with _ | _ | _ | ⟨y, hF, h0, hM⟩ <;> simp only [IsNum] at h
  · subst h; simp [Ieee.add, Ieee.sgn, IsNum]
  · subst h
    simp only [Ieee.add, Ieee.val, zero_add, pack_fin false _ hF h0 hM]
    exact ⟨rfl, rfl⟩

theorem copysign_num {c d : Ieee φ M} {x y : ℝ} (h : c.IsNum x) (hs : d.sgn = decide (y < 0)) :
    (c.copysign d).IsNum (Pol.copysign x y) := by
  unfold Ieee.copysign Pol.copysign
  rw [hs]
  by_cases hy : y < 0
  · simp only [hy, decide_true, if_true]; exact h.abs.neg
  · simp only [hy, decide_false, if_false]; exact h.abs

theorem zero_num (b : Bool) : (Ieee.zero b : Ieee φ M).IsNum 0 := rfl

/-! ## Agreement with the unbounded arithmetic -/

/-- No result of an operation exceeds the largest number. `p`, `q` are the coefficients of the normalised polynomial. -/
structure QuadFits (φ : Format) (M s p q : ℝ) : Prop where
  large : s < |p| → |φ.rnd (-q / p)| ≤ M
  square : |p| ≤ s → |φ.rnd (p * p)| ≤ M
  prod : |φ.rnd (4 * q)| ≤ M
  arg : |p| ≤ s → |φ.rnd (φ.rnd (p * p) - φ.rnd (4 * q))| ≤ M
  half : |φ.rnd (-p * (1 / 2))| ≤ M
  root : ∀ a, a = φ.rnd (φ.rnd (p * p) - φ.rnd (4 * q)) → |p| ≤ s → q ≠ 0 → 0 < a → |φ.rnd (Real.sqrt a)| ≤ M ∧
    |φ.rnd (p + Pol.copysign (φ.rnd (Real.sqrt a)) p)| ≤ M ∧
    |φ.rnd (-(φ.rnd (p + Pol.copysign (φ.rnd (Real.sqrt a)) p)) * (1 / 2))| ≤ M ∧
    φ.rnd (-(φ.rnd (p + Pol.copysign (φ.rnd (Real.sqrt a)) p)) * (1 / 2)) ≠ 0 ∧
    |φ.rnd (q / φ.rnd (-(φ.rnd (p + Pol.copysign (φ.rnd (Real.sqrt a)) p)) * (1 / 2)))| ≤ M

theorem order_num {a b : Ieee φ M} {x y : ℝ} (ha : a.IsNum x) (hb : b.IsNum y) :
    open Classical in List.Forall₂ IsNum (if lt b a then [b, a] else [a, b]) (if x > y then [y, x] else [x, y]) := by
  by_cases h : y < x
  · rw [if_pos ((hb.lt_iff ha).2 h), if_pos h]
    exact .cons hb (.cons ha .nil)
  · rw [if_neg (fun h' => h ((hb.lt_iff ha).1 h')), if_neg h]
    exact .cons ha (.cons hb .nil)

theorem quad_agrees {four half ms f0 f1 f2 : Ieee φ M} {s : ℝ} {f : Arr ℝ 2} (h4 : four.IsNum 4) (hh : half.IsNum (1 / 2))
    (hs : ms.IsNum s) (e0 : f0.IsNum (f 0)) (e1 : f1.IsNum (f 1)) (e2 : f2.IsNum (f 2)) (h2 : f 2 ≠ 0)
    (b0 : |φ.rnd (f 0 / f 2)| ≤ M) (b1 : |φ.rnd (f 1 / f 2)| ≤ M) (s0 : 0 ≤ s)
    (H : QuadFits φ M s (φ.rnd (f 1 / f 2)) (φ.rnd (f 0 / f 2))) :
    ∃ l, solve2R φ.rnd s f = some l ∧ List.Forall₂ IsNum (quadI four half ms f0 f1 f2) l := by
  rw [solve2R_eq φ s f h2]
  unfold quadI
  rw [if_neg (fun h => h2 (e2.zero_iff.1 h))]
  obtain ⟨nq, -⟩ := plus_zero (e0.div e2 h2 b0) b0
  obtain ⟨np, sp⟩ := plus_zero (e1.div e2 h2 b1) b1
  dsimp only
  generalize φ.rnd (f 0 / f 2) = q at *
  generalize φ.rnd (f 1 / f 2) = p at *
  generalize (Ieee.zero false).add (f0.div f2) = cq at *
  generalize (Ieee.zero false).add (f1.div f2) = cp at *
  by_cases q0 : q = 0
  · rw [if_pos q0, if_pos (nq.zero_iff.2 q0)]
    refine ⟨_, rfl, .cons ?_ (.cons ?_ .nil)⟩
    · unfold Ieee.min
      by_cases h : 0 < -p
      · rw [if_pos ((zero_num false).lt_iff np.neg |>.2 h), min_eq_right h.le]; exact zero_num _
      · rw [if_neg (fun h' => h (((zero_num false).lt_iff np.neg).1 h')), min_eq_left (not_lt.1 h)]; exact np.neg
    · unfold Ieee.max
      by_cases h : -p < 0
      · rw [if_pos (np.neg.lt_iff (zero_num false) |>.2 h), max_eq_right h.le]; exact zero_num _
      · rw [if_neg (fun h' => h ((np.neg.lt_iff (zero_num false)).1 h')), max_eq_left (not_lt.1 h)]; exact np.neg
  rw [if_neg q0, if_neg (fun h => q0 (nq.zero_iff.1 h))]
  by_cases hp : |p| > s
  · rw [if_pos hp, if_pos ((hs.lt_iff np.abs).2 hp)]
    have p0 : p ≠ 0 := by rintro rfl; rw [abs_zero] at hp; exact absurd s0 (not_le.2 hp)
    exact ⟨_, rfl, order_num np.neg (nq.neg.div np p0 (H.large hp))⟩
  rw [if_neg hp, if_neg (fun h => hp ((hs.lt_iff np.abs).1 h))]
  have hp := not_lt.1 hp
  have na := (np.mul np (H.square hp)).sub (h4.mul nq H.prod) (H.arg hp)
  have hr := H.root _ rfl hp q0
  generalize (cp.mul cp).sub (four.mul cq) = ca at *
  generalize φ.rnd (φ.rnd (p * p) - φ.rnd (4 * q)) = a at *
  by_cases a0 : a < 0
  · rw [if_pos a0, if_pos ((na.lt_iff (zero_num false)).2 a0)]
    exact ⟨_, rfl, .nil⟩
  rw [if_neg a0, if_neg (fun h => a0 ((na.lt_iff (zero_num false)).1 h))]
  by_cases a1 : a = 0
  · rw [if_pos a1, if_pos (na.zero_iff.2 a1)]
    exact ⟨_, rfl, .cons (np.neg.mul hh H.half) .nil⟩
  rw [if_neg a1, if_neg (fun h => a1 (na.zero_iff.1 h))]
  have a2 : 0 < a := lt_of_le_of_ne (not_lt.1 a0) (Ne.symm a1)
  obtain ⟨r1, r2, r3, r4, r5⟩ := hr a2
  have n1 := (np.add (copysign_num (na.sqrt a2.le r1) sp) r2).neg.mul hh r3
  exact ⟨_, rfl, order_num n1 (nq.div n1 r4 r5)⟩

/-! ## Coefficients that cannot overflow -/

theorem quad_fits (hMF : M ∈ φ.F) {s e B p q : ℝ} (hg : ∀ y ∈ φ.F, 0 < y → e ^ 2 ≤ y) (he : e ∈ φ.F) (he2 : e / 2 ∈ φ.F) (e0 : 0 < e)
    (heM : 2 / e ≤ M) (hB : B ∈ φ.F) (hB2 : B ^ 2 ∈ φ.F) (B1 : 1 ≤ B) (hM : 8 * B ^ 2 ≤ M) (hq : q ∈ φ.F) (bs : B ≤ s)
    (bp : |p| ≤ B) (bq : |q| ≤ B ^ 2) : QuadFits φ M s p q := by
  have BB : B ≤ B ^ 2 := by nlinarith
  have M1 : 1 ≤ M := by linarith
  have q4 : (4 * q) ∈ φ.F := by
    have := φ.dbl _ (φ.dbl _ hq)
    rwa [show 2 * (2 * q) = 4 * q by ring] at this
  have pp : |p * p| ≤ B ^ 2 := by
    rw [abs_mul, ← pow_two]; exact pow_le_pow_left₀ (abs_nonneg _) bp 2
  have rpp : φ.rnd (p * p) ≤ B ^ 2 := rnd_le hB2 (le_trans (le_abs_self _) pp)
  have rpp0 : 0 ≤ φ.rnd (p * p) := le_rnd φ.zero (mul_self_nonneg p)
  obtain ⟨bq1, bq2⟩ := abs_le.1 bq
  have diff : |φ.rnd (p * p) - φ.rnd (4 * q)| ≤ 5 * B ^ 2 := by
    rw [φ.rnd_of_mem q4, abs_le]; constructor <;> linarith
  have B4 : (4 * B) ∈ φ.F := by
    have := φ.dbl _ (φ.dbl _ hB)
    rwa [show 2 * (2 * B) = 4 * B by ring] at this
  refine ⟨fun h => absurd (bp.trans bs) (not_le.2 h), fun _ => small_rnd hMF (by linarith), ?_, fun _ => small_rnd hMF (by linarith), ?_, ?_⟩
  · refine small_rnd hMF ?_
    rw [abs_le]; constructor <;> linarith
  · refine small_rnd hMF ?_
    rw [abs_mul, abs_neg, abs_of_pos (by norm_num : (0 : ℝ) < 1 / 2)]
    linarith [abs_nonneg p]
  · intro a ha _ q0 a0
    have ha' : a ≤ 8 * B ^ 2 := by
      rw [ha]
      have : (8 * B ^ 2) ∈ φ.F := by
        have := φ.dbl _ (φ.dbl _ (φ.dbl _ hB2))
        rwa [show 2 * (2 * (2 * B ^ 2)) = 8 * B ^ 2 by ring] at this
      refine rnd_le this ((le_abs_self _).trans (diff.trans ?_))
      nlinarith [sq_nonneg B]
    have S1 : Real.sqrt a ≤ 4 * B := by
      rw [Real.sqrt_le_left (by linarith)]
      nlinarith [sq_nonneg B]
    have s1 : φ.rnd (Real.sqrt a) ≤ 4 * B := rnd_le B4 S1
    have Slow : ∀ c ∈ φ.F, 0 ≤ c → c ^ 2 ≤ a → c ≤ φ.rnd (Real.sqrt a) := fun c hc c0 h =>
      le_rnd hc (Real.le_sqrt_of_sq_le h)
    have s2 : e ≤ φ.rnd (Real.sqrt a) := Slow e he e0.le (hg a (by rw [ha]; exact φ.mem _) a0)
    -- the sum
    have sum : ∃ σ : ℝ, (σ = 1 ∨ σ = -1) ∧ p + Pol.copysign (φ.rnd (Real.sqrt a)) p = σ * (|p| + φ.rnd (Real.sqrt a)) := by
      have hs : |φ.rnd (Real.sqrt a)| = φ.rnd (Real.sqrt a) := abs_of_nonneg (by linarith)
      unfold Pol.copysign
      rw [hs]
      by_cases h : p < 0
      · exact ⟨-1, .inr rfl, by rw [if_pos h, abs_of_neg h]; ring⟩
      · exact ⟨1, .inl rfl, by rw [if_neg h, abs_of_nonneg (not_lt.1 h)]; ring⟩
    obtain ⟨σ, hσ, es⟩ := sum
    generalize hS : φ.rnd (Real.sqrt a) = S at *
    have p0 := abs_nonneg p
    have aσ : |σ| = 1 := by rcases hσ with rfl | rfl <;> simp
    have t1 : |φ.rnd (p + Pol.copysign S p)| ≤ 8 * B := by
      have B8 := φ.dbl _ B4
      rw [show 2 * (4 * B) = 8 * B by ring] at B8
      refine small_rnd B8 ?_
      rw [es, abs_mul, aσ, one_mul, abs_of_nonneg (by linarith)]; linarith
    -- lower bounds
    have low : ∀ c ∈ φ.F, c ≤ |p| + S → 0 < c → c / 2 ∈ φ.F → c / 2 ≤ |φ.rnd (-(φ.rnd (p + Pol.copysign S p)) * (1 / 2))| := by
      intro c hc h c0 hc2
      have h1 : c ≤ σ * φ.rnd (p + Pol.copysign S p) := by
        rw [es]
        rcases hσ with rfl | rfl
        · rw [one_mul, one_mul]; exact le_rnd hc h
        · have := rnd_le (φ.neg _ hc) (show -1 * (|p| + S) ≤ -c by linarith)
          linarith
      rcases hσ with rfl | rfl
      · have := rnd_le (φ.neg _ hc2) (show -(φ.rnd (p + Pol.copysign S p)) * (1 / 2) ≤ -(c / 2) by linarith)
        exact le_trans (by linarith) (neg_le_abs _)
      · have := le_rnd hc2 (show c / 2 ≤ -(φ.rnd (p + Pol.copysign S p)) * (1 / 2) by linarith)
        exact this.trans (le_abs_self _)
    have r1 : |φ.rnd (-(φ.rnd (p + Pol.copysign S p)) * (1 / 2))| ≤ M := by
      refine small_rnd hMF ?_
      rw [abs_mul, abs_neg, abs_of_pos (by norm_num : (0 : ℝ) < 1 / 2)]
      linarith
    have l1 := low e he (by linarith) e0 he2
    have r0 : φ.rnd (-(φ.rnd (p + Pol.copysign S p)) * (1 / 2)) ≠ 0 := by
      intro h; rw [h, abs_zero] at l1; linarith
    refine ⟨by rw [abs_le]; constructor <;> linarith, by linarith, r1, r0, small_rnd hMF ?_⟩
    rw [abs_div, div_le_iff₀ (abs_pos.2 r0)]
    by_cases hq1 : |q| ≤ 1
    · have : 1 ≤ M * (e / 2) := by
        rw [div_le_iff₀ e0] at heM; linarith
      exact hq1.trans (this.trans (mul_le_mul_of_nonneg_left l1 (by linarith)))
    · have one : (1 : ℝ) ≤ |φ.rnd (-(φ.rnd (p + Pol.copysign S p)) * (1 / 2))| := by
        have := low 2 φ.two ?_ two_pos (by norm_num; exact φ.one)
        · linarith
        · rcases lt_or_gt_of_ne q0 with hn | hn
          · rw [abs_of_neg hn] at hq1
            have : (4 : ℝ) ≤ a := by
              rw [ha, φ.rnd_of_mem q4]
              have four : (4 : ℝ) ∈ φ.F := by
                have := φ.dbl _ φ.two
                rwa [show (2 : ℝ) * 2 = 4 by norm_num] at this
              exact le_rnd four (by linarith)
            have := Slow 2 φ.two (by norm_num) (by linarith)
            linarith
          · rw [abs_of_pos hn] at hq1
            have : 4 * q < p * p := by
              by_contra h
              have h := rnd_le q4 (not_lt.1 h)
              rw [φ.rnd_of_mem q4] at ha
              have := rnd_le φ.zero (show φ.rnd (p * p) - 4 * q ≤ 0 by linarith)
              linarith
            have : 2 ^ 2 ≤ |p| ^ 2 := by rw [sq_abs]; nlinarith
            have := abs_le_of_sq_le_sq' this (abs_nonneg _)
            linarith [this.2]
      calc |q| ≤ B ^ 2 := bq
        _ ≤ M * 1 := by nlinarith [sq_nonneg B]
        _ ≤ _ := mul_le_mul_of_nonneg_left one (by linarith)

/-! ## `double` -/

theorem pow_le_maxDouble {k : ℤ} (hk : k ≤ 1023) : (2 : ℝ) ^ k ≤ maxDouble := by
  refine (zpow_le_zpow_right₀ (by norm_num) hk).trans ?_
  unfold maxDouble
  rw [show (1023 : ℤ) = 52 + 971 by norm_num, zpow_add₀ (by norm_num)]
  refine mul_le_mul_of_nonneg_right ?_ (by positivity)
  norm_num

theorem maxDouble_lt : maxDouble < (2 : ℝ) ^ (1024 : ℤ) := by
  unfold maxDouble
  rw [show (1024 : ℤ) = 53 + 971 by norm_num, zpow_add₀ (by norm_num)]
  refine mul_lt_mul_of_pos_right ?_ (by positivity)
  norm_num

theorem maxDouble_nonneg : 0 ≤ maxDouble := by linarith [big_le_maxDouble]

theorem pow_sq (k : ℤ) : ((2 : ℝ) ^ k) ^ 2 = 2 ^ (2 * k) := by
  rw [pow_two, ← zpow_add₀ (by norm_num)]; congr 1; ring

/-- The value of `maxSqrt`. -/
theorem maxSqrt_num : topDouble.sqrt.IsNum (binary64.rnd (Real.sqrt maxDouble)) ∧ (2 : ℝ) ^ (511 : ℤ) ≤ binary64.rnd (Real.sqrt maxDouble) ∧
    binary64.rnd (Real.sqrt maxDouble) ≤ 2 ^ (512 : ℤ) := by
  have h1 : (2 : ℝ) ^ (511 : ℤ) ≤ binary64.rnd (Real.sqrt maxDouble) := by
    refine le_rnd (pow_mem _ (by norm_num)) (Real.le_sqrt_of_sq_le ?_)
    rw [pow_sq]; exact pow_le_maxDouble (by norm_num)
  have h2 : binary64.rnd (Real.sqrt maxDouble) ≤ 2 ^ (512 : ℤ) := by
    refine rnd_le (pow_mem _ (by norm_num)) ?_
    rw [Real.sqrt_le_left (two_zpow_pos _).le, pow_sq]
    exact maxDouble_lt.le
  refine ⟨Ieee.IsNum.sqrt rfl maxDouble_nonneg ?_, h1, h2⟩
  rw [abs_of_nonneg ((two_zpow_pos _).le.trans h1)]
  exact h2.trans (pow_le_maxDouble (by norm_num))

/-- The coefficients are so small, compared to the leading one, that nothing can overflow. -/
def Moderate (f : Arr ℝ 2) : Prop := f 2 ≠ 0 ∧ |f 1| ≤ 2 ^ (510 : ℤ) * |f 2| ∧ |f 0| ≤ 2 ^ (1020 : ℤ) * |f 2|

/-- **C95**: the solver on `double` computes what it would compute with exponents without a bound; the results are numbers. -/
theorem C95_agrees {f0 f1 f2 : Ieee binary64 maxDouble} {f : Arr ℝ 2} (e0 : f0.IsNum (f 0)) (e1 : f1.IsNum (f 1)) (e2 : f2.IsNum (f 2))
    (hf : Moderate f) :
    ∃ l, solve2R binary64.rnd (binary64.rnd (Real.sqrt maxDouble)) f = some l ∧ List.Forall₂ IsNum (quadD f0 f1 f2) l := by
  obtain ⟨h2, m1, m0⟩ := hf
  obtain ⟨n1, n2, -⟩ := maxSqrt_num
  have a2 : 0 < |f 2| := abs_pos.2 h2
  have b1 : |binary64.rnd (f 1 / f 2)| ≤ 2 ^ (510 : ℤ) :=
    small_rnd (pow_mem _ (by norm_num)) (by rw [abs_div, div_le_iff₀ a2]; exact m1)
  have b0 : |binary64.rnd (f 0 / f 2)| ≤ 2 ^ (1020 : ℤ) :=
    small_rnd (pow_mem _ (by norm_num)) (by rw [abs_div, div_le_iff₀ a2]; exact m0)
  refine quad_agrees (show (2 : ℝ) ^ (2 : ℤ) = 4 by norm_num) (show (2 : ℝ) ^ (-1 : ℤ) = 1 / 2 by norm_num) n1 e0 e1 e2 h2
    (b0.trans (pow_le_maxDouble (by norm_num))) (b1.trans (pow_le_maxDouble (by norm_num))) ((two_zpow_pos _).le.trans n2) ?_
  have hB2 : ((2 : ℝ) ^ (510 : ℤ)) ^ 2 = 2 ^ (1020 : ℤ) := by rw [pow_sq]; norm_num
  refine quad_fits maxDouble_mem (e := 2 ^ (-537 : ℤ)) (B := 2 ^ (510 : ℤ)) ?_ (pow_mem _ (by norm_num)) ?_ (two_zpow_pos _) ?_
    (pow_mem _ (by norm_num)) ?_ (one_le_zpow₀ (by norm_num) (by norm_num)) ?_ (binary64.mem _)
    ((zpow_le_zpow_right₀ (by norm_num) (by norm_num)).trans n2) b1 (by rw [hB2]; exact b0)
  · intro y hy y0
    have := (bin_good (p := 53) (emin := -1074) (by norm_num) (by norm_num)).least y hy y0
    rw [pow_sq]
    refine le_trans (le_of_eq ?_) this
    show (2 : ℝ) ^ (2 * (-537) : ℤ) = 2 * 2 ^ ((-1074 : ℤ) - 1)
    rw [zpow_sub₀ (by norm_num), zpow_one, show (2 * (-537) : ℤ) = -1074 by norm_num]
    generalize (2 : ℝ) ^ (-1074 : ℤ) = t
    ring
  · have : (2 : ℝ) ^ (-537 : ℤ) / 2 = 2 ^ (-538 : ℤ) := by
      rw [show (-538 : ℤ) = -537 - 1 by norm_num, zpow_sub₀ (by norm_num) (-537) 1, zpow_one]
    rw [this]; exact pow_mem _ (by norm_num)
  · have : (2 : ℝ) / 2 ^ (-537 : ℤ) = 2 ^ (538 : ℤ) := by
      rw [show (538 : ℤ) = 1 - (-537) by norm_num, zpow_sub₀ (by norm_num) 1 (-537), zpow_one]
    rw [this]; exact pow_le_maxDouble (by norm_num)
  · rw [hB2]; exact pow_mem _ (by norm_num)
  · rw [hB2]
    have : (8 : ℝ) * 2 ^ (1020 : ℤ) = 2 ^ (1023 : ℤ) := by
      rw [show (1023 : ℤ) = 3 + 1020 by norm_num, zpow_add₀ (by norm_num)]; norm_num
    rw [this]; exact pow_le_maxDouble (by norm_num)

/-- **C95**, accuracy: if constant and leading coefficient have opposite signs the solver on `double` returns both roots, each with a
relative error of at most `7 * 2^-53`. -/
theorem C95_opposite_signs {f0 f1 f2 : Ieee binary64 maxDouble} {f : Arr ℝ 2} (e0 : f0.IsNum (f 0)) (e1 : f1.IsNum (f 1))
    (e2 : f2.IsNum (f 2)) (hf : Moderate f) (hQ : f 0 / f 2 < 0) (hC : Clear binary64 (f 1 / f 2) (f 0 / f 2)) :
    ∃ c1 c2 x1 x2 y1 y2, quadD f0 f1 f2 = [c1, c2] ∧ c1.IsNum y1 ∧ c2.IsNum y2 ∧ value f x1 = 0 ∧ value f x2 = 0 ∧ x1 < 0 ∧ 0 < x2 ∧
      |y1 - x1| ≤ 7 * 2 ^ (-53 : ℤ) * |x1| ∧ |y2 - x2| ≤ 7 * 2 ^ (-53 : ℤ) * |x2| := by
  obtain ⟨l, hl, h⟩ := C95_agrees e0 e1 e2 hf
  have hm : (1 + binary64.u) * |f 1 / f 2| ≤ binary64.rnd (Real.sqrt maxDouble) := by
    refine le_trans ?_ maxSqrt_num.2.1
    have h1 : |f 1 / f 2| ≤ 2 ^ (510 : ℤ) := by rw [abs_div, div_le_iff₀ (abs_pos.2 hf.1)]; exact hf.2.1
    have hu : binary64.u ≤ 1 / 64 := (bin_good (p := 53) (emin := -1074) (by norm_num) (by norm_num)).u_le
    have : (2 : ℝ) ^ (511 : ℤ) = 2 * 2 ^ (510 : ℤ) := by
      rw [show (511 : ℤ) = 1 + 510 by norm_num, zpow_add₀ (by norm_num), zpow_one]
    rw [this]
    clear this hf
    generalize (2 : ℝ) ^ (510 : ℤ) = t at h1 ⊢
    have := abs_nonneg (f 1 / f 2)
    have := mul_le_mul_of_nonneg_right hu this
    linarith
  obtain ⟨x1, x2, y1, y2, v1, v2, s1, s2, e, d1, d2⟩ :=
    C81_opposite_signs (p := 53) (emin := -1074) (by norm_num) (by norm_num) _ f hQ hC hm
  have e' : solve2R binary64.rnd (binary64.rnd (Real.sqrt maxDouble)) f = some [y1, y2] := e
  rw [e'] at hl
  cases hl
  generalize hq : quadD f0 f1 f2 = r at h
  cases h with
  | cons a h => cases h with
    | cons b h => cases h; exact ⟨_, _, x1, x2, y1, y2, rfl, a, b, v1, v2, s1, s2, d1, d2⟩

/-! ## What goes wrong -/

theorem unit_coef {f f2 : Ieee binary64 maxDouble} {x : ℝ} (e : f.IsNum x) (e2 : f2.IsNum 1) :
    ((Ieee.zero false).add (f.div f2)).IsNum x ∧ ((Ieee.zero false).add (f.div f2)).sgn = decide (x < 0) := by
  have hr : binary64.rnd (x / 1) = x := by rw [div_one, binary64.rnd_of_mem e.mem]
  have hx := e.le maxDouble_nonneg
  have := e.div e2 one_ne_zero (by rw [hr]; exact hx)
  rw [hr] at this
  exact plus_zero this hx

/-- **C95**, the linear case: with a leading coefficient that is zero, of either sign, the root of `b x + a` is returned, rounded; nothing
if `b` is zero too. -/
theorem C95_linear {f0 f1 f2 : Ieee binary64 maxDouble} {a b : ℝ} (e2 : f2.IsNum 0) (e1 : f1.IsNum b) (e0 : f0.IsNum a) :
    (b = 0 → quadD f0 f1 f2 = []) ∧
    (b ≠ 0 → |a| ≤ maxDouble * |b| → ∃ c r, quadD f0 f1 f2 = [c] ∧ c.IsNum r ∧ |r - -a / b| ≤ 2 ^ (-53 : ℤ) * |a / b| + 2 ^ (-1075 : ℤ)) := by
  unfold quadD quadI
  rw [if_pos (e2.zero_iff.2 rfl)]
  unfold linI
  refine ⟨fun h => ?_, fun h hm => ?_⟩
  · rw [if_pos (e1.zero_iff.2 h)]
  · rw [if_neg (fun h' => h (e1.zero_iff.1 h'))]
    have hb : |-a / b| ≤ maxDouble := by rw [abs_div, abs_neg, div_le_iff₀ (abs_pos.2 h)]; exact hm
    refine ⟨_, _, rfl, e0.neg.div e1 h (small_rnd maxDouble_mem hb), ?_⟩
    have := binary64.error (-a / b)
    rw [abs_div (-a), abs_neg, ← abs_div] at this
    exact this

/-- **C95**: for `x² + P x + Q` with `|P| > 2^512` and any `Q` other than zero the solver returns two numbers, even if there is no real
root. -/
theorem C95_false_roots {f0 f1 f2 : Ieee binary64 maxDouble} {P Q : ℝ} (e2 : f2.IsNum 1) (e1 : f1.IsNum P) (e0 : f0.IsNum Q)
    (hP : 2 ^ (512 : ℤ) < |P|) (hQ : Q ≠ 0) : ∃ a b x y, quadD f0 f1 f2 = [a, b] ∧ a.IsNum x ∧ b.IsNum y := by
  obtain ⟨np, -⟩ := unit_coef e1 e2
  obtain ⟨nq, -⟩ := unit_coef e0 e2
  unfold quadD quadI
  rw [if_neg (fun h => one_ne_zero (e2.zero_iff.1 h))]
  dsimp only
  rw [if_neg (fun h => hQ (nq.zero_iff.1 h)), if_pos ((maxSqrt_num.1.lt_iff np.abs).2 (maxSqrt_num.2.2.trans_lt hP))]
  have P1 : 1 ≤ |P| := le_trans (one_le_zpow₀ (by norm_num) (by norm_num)) hP.le
  have P0 : P ≠ 0 := by rintro rfl; rw [abs_zero] at P1; linarith
  have hb : |binary64.rnd (-Q / P)| ≤ maxDouble := by
    refine small_rnd maxDouble_mem ?_
    rw [abs_div, abs_neg, div_le_iff₀ (lt_of_lt_of_le one_pos P1)]
    have := e0.le maxDouble_nonneg
    have := mul_le_mul_of_nonneg_left P1 maxDouble_nonneg
    linarith
  have nb := nq.neg.div np P0 hb
  split
  · exact ⟨_, _, _, _, rfl, nb, np.neg⟩
  · exact ⟨_, _, _, _, rfl, np.neg, nb⟩

/-- **C95**: for `x² + P x + Q` with `Q ≤ -2^1022` the discriminant overflows and both roots are lost: the solver returns an infinity and
a zero. -/
theorem C95_overflow {f0 f1 f2 : Ieee binary64 maxDouble} {P Q : ℝ} (e2 : f2.IsNum 1) (e1 : f1.IsNum P) (e0 : f0.IsNum Q)
    (hP : |P| ≤ 2 ^ (511 : ℤ)) (hQ : Q ≤ -2 ^ (1022 : ℤ)) :
    quadD f0 f1 f2 = if P < 0 then [.zero true, .inf false] else [.inf true, .zero false] := by
  obtain ⟨np, sp⟩ := unit_coef e1 e2
  obtain ⟨nq, sq⟩ := unit_coef e0 e2
  have Qn : Q < 0 := lt_of_le_of_lt hQ (neg_lt_zero.2 (two_zpow_pos 1022))
  unfold quadD quadI
  rw [if_neg (fun h => one_ne_zero (e2.zero_iff.1 h))]
  dsimp only
  rw [if_neg (fun h => Qn.ne (nq.zero_iff.1 h)), if_neg (fun h => absurd ((maxSqrt_num.1.lt_iff np.abs).1 h)
    (not_lt.2 (hP.trans maxSqrt_num.2.1)))]
  generalize (Ieee.zero false).add (f0.div f2) = cq at *
  generalize (Ieee.zero false).add (f1.div f2) = cp at *
  have hprod : (twoPow 2 (by norm_num) (by norm_num)).mul cq = .inf true := by
    rcases cq with _ | _ | _ | ⟨y, hF, h0, hM⟩ <;> simp only [IsNum] at nq
    · exact absurd nq.symm Qn.ne'
    · subst nq
      have m4 : (2 : ℝ) ^ (2 : ℤ) * y ≤ -2 ^ (1024 : ℤ) := by
        rw [show (1024 : ℤ) = 2 + 1022 by norm_num, zpow_add₀ (by norm_num)]
        have := mul_le_mul_of_nonneg_left hQ (two_zpow_pos 2).le
        linarith
      have hr := rnd_le (binary64.neg _ (pow_mem 1024 (by norm_num))) m4
      have hneg : (2 : ℝ) ^ (2 : ℤ) * y < 0 := mul_neg_of_pos_of_neg (two_zpow_pos 2) Qn
      have hlt := maxDouble_lt
      have big : ¬ |binary64.rnd ((2 : ℝ) ^ (2 : ℤ) * y)| ≤ maxDouble := by
        rw [not_le]
        exact lt_of_lt_of_le (by linarith) (neg_le_abs _)
      have hz : binary64.rnd ((2 : ℝ) ^ (2 : ℤ) * y) ≠ 0 := by
        intro h; rw [h, abs_zero] at big; exact big maxDouble_nonneg
      simp only [twoPow, Ieee.mul, Ieee.val, Ieee.pack, hz, big, dite_false, hneg, decide_true]
  have hsq : cp.mul cp ≠ .nan ∧ cp.mul cp ≠ .inf true := by
    rcases cp with _ | _ | _ | ⟨y, hF, h0, hM⟩ <;> simp only [IsNum] at np
    · simp [Ieee.mul, Ieee.val, pack_zero]
    · simp only [Ieee.mul, Ieee.val]
      refine ⟨pack_ne_nan _ _, ?_⟩
      unfold Ieee.pack
      split
      · simp
      · split
        · simp
        · simp [not_lt.2 (mul_self_nonneg y)]
  have harg : (cp.mul cp).sub ((twoPow 2 (by norm_num) (by norm_num)).mul cq) = .inf false := by
    rw [hprod]
    obtain ⟨s1, s2⟩ := hsq
    generalize cp.mul cp = c at *
    rcases c with _ | (_ | _) | _ | _
    · exact absurd rfl s1
    · rfl
    · exact absurd rfl s2
    · rfl
    · rfl
  rw [harg, if_neg, if_neg (by simp [Ieee.eq])]
  · have hs : (Ieee.inf false : Ieee binary64 maxDouble).sqrt = .inf false := rfl
    rw [hs]
    by_cases h : P < 0
    · rw [if_pos h]
      have e : cp.add ((Ieee.inf false).copysign cp) = .inf true := by
        rw [Ieee.copysign, sp]
        simp only [h, decide_true, if_true, Ieee.abs, Ieee.neg, Bool.not_false]
        exact (num_add_inf np true).1
      rw [e]
      have e' : (Ieee.inf true : Ieee binary64 maxDouble).neg.mul (twoPow (-1) (by norm_num) (by norm_num)) = .inf false := by
        simp [Ieee.neg, twoPow, Ieee.mul, Ieee.sgn]
      have e'' : cq.div (.inf false) = .zero true := by
        rcases cq with _ | _ | _ | _ <;> simp only [IsNum] at nq
        · exact absurd nq.symm Qn.ne'
        · simp [Ieee.div, sq, Qn]
      rw [e', e'', if_pos]
      exact ⟨0, ⊤, rfl, rfl, EReal.zero_lt_top⟩
    · rw [if_neg h]
      have e : cp.add ((Ieee.inf false).copysign cp) = .inf false := by
        rw [Ieee.copysign, sp]
        simp only [h, decide_false, Ieee.abs]
        exact (num_add_inf np false).1
      rw [e]
      have e' : (Ieee.inf false : Ieee binary64 maxDouble).neg.mul (twoPow (-1) (by norm_num) (by norm_num)) = .inf true := by
        simp [Ieee.neg, twoPow, Ieee.mul, Ieee.sgn]
      have e'' : cq.div (.inf true) = .zero false := by
        rcases cq with _ | _ | _ | _ <;> simp only [IsNum] at nq
        · exact absurd nq.symm Qn.ne'
        · simp [Ieee.div, sq, Qn]
      rw [e', e'', if_neg]
      rintro ⟨u, v, h1, h2, h3⟩
      cases h1; cases h2
      exact absurd h3 not_lt_bot
  · rintro ⟨u, v, h1, h2, h3⟩
    cases h1; cases h2
    exact absurd h3 not_top_lt

/-- **C95**: if dividing the linear coefficient by the leading one overflows, the small root is lost too: the solver returns an infinity
and a zero. -/
theorem C95_scaling {f0 f1 f2 : Ieee binary64 maxDouble} {a b c : ℝ} (e2 : f2.IsNum a) (e1 : f1.IsNum b) (e0 : f0.IsNum c) (ha : a ≠ 0)
    (hb : maxDouble < |binary64.rnd (b / a)|) (hc : |binary64.rnd (c / a)| ≤ maxDouble) (hc0 : binary64.rnd (c / a) ≠ 0) :
    ∃ s t, quadD f0 f1 f2 = [.inf s, .zero t] ∨ quadD f0 f1 f2 = [.zero t, .inf s] := by
  have nq := (plus_zero (e0.div e2 ha hc) hc).1
  have np : f1.div f2 = .inf (decide (b / a < 0)) := by
    rcases num_div_cases maxDouble_nonneg e1 e2 ha with h | h
    · exact absurd (h.le maxDouble_nonneg) (not_le.2 hb)
    · exact h.2
  unfold quadD quadI
  rw [if_neg (fun h => ha (e2.zero_iff.1 h))]
  dsimp only
  rw [if_neg (fun h => hc0 (nq.zero_iff.1 h)), np]
  generalize (Ieee.zero false).add (f0.div f2) = cq at *
  have ep : (Ieee.zero false : Ieee binary64 maxDouble).add (.inf (decide (b / a < 0))) = .inf (decide (b / a < 0)) := rfl
  rw [ep, if_pos]
  · generalize decide (b / a < 0) = s
    obtain ⟨t, ht⟩ : ∃ t, cq.neg.div (.inf s) = .zero t := by
      rcases cq with _ | _ | _ | _ <;> simp only [IsNum] at nq <;> exact ⟨_, rfl⟩
    rw [ht]
    refine ⟨!s, t, ?_⟩
    split
    · exact .inr rfl
    · exact .inl rfl
  · exact ⟨_, ⊤, maxSqrt_num.1.toE, rfl, EReal.coe_lt_top _⟩

/-- **C95**: a NaN among the coefficients is not lost: two values are returned, the second of which is NaN. -/
theorem C95_nan (f0 f1 f2 : Ieee binary64 maxDouble) (h : f2 = .nan ∨ ¬ f2.eq (.zero false) = true ∧ (f0 = .nan ∨ f1 = .nan)) :
    ∃ x, quadD f0 f1 f2 = [x, .nan] := by
  have div_nan : ∀ x : Ieee binary64 maxDouble, x.div .nan = .nan := fun x => by rcases x with _ | _ | _ | _ <;> rfl
  have nan_div : ∀ x : Ieee binary64 maxDouble, (Ieee.nan : Ieee binary64 maxDouble).div x = .nan := fun x => by
    rcases x with _ | _ | _ | _ <;> rfl
  have h2 : ¬ f2.eq (.zero false) = true := by
    rcases h with rfl | h
    · simp [Ieee.eq]
    · exact h.1
  have nlt : ∀ x : Ieee binary64 maxDouble, ¬ lt x .nan := by
    rintro x ⟨u, v, e1, e2, h⟩; cases e2
  have mul_nan : ∀ x : Ieee binary64 maxDouble, x.mul .nan = .nan := fun x => by rcases x with _ | _ | _ | _ <;> rfl
  have nan_mul : ∀ x : Ieee binary64 maxDouble, (Ieee.nan : Ieee binary64 maxDouble).mul x = .nan := fun x => by
    rcases x with _ | _ | _ | _ <;> rfl
  unfold quadD quadI
  rw [if_neg h2]
  dsimp only
  by_cases hp : (Ieee.zero false).add (f1.div f2) = .nan
  · rw [hp]
    have e1 : (Ieee.nan : Ieee binary64 maxDouble).neg = .nan := rfl
    have e2 : (Ieee.nan : Ieee binary64 maxDouble).abs = .nan := rfl
    rw [e1, e2]
    split
    · rw [Ieee.min, if_neg (nlt _), Ieee.max, if_neg (nan_lt _)]; exact ⟨_, rfl⟩
    · rw [if_neg (nlt _), nan_mul, nan_sub, if_neg (nan_lt _), if_neg (by simp [Ieee.eq]), nan_add, e1, nan_mul, div_nan,
        if_neg (nlt _)]
      exact ⟨_, rfl⟩
  · have hq : (Ieee.zero false).add (f0.div f2) = .nan := by
      rcases h with rfl | ⟨-, rfl | rfl⟩
      · rw [div_nan, add_nan']
      · rw [nan_div, add_nan']
      · rw [nan_div, add_nan'] at hp; exact absurd rfl hp
    rw [hq, if_neg (by simp [Ieee.eq])]
    have e1 : (Ieee.nan : Ieee binary64 maxDouble).neg = .nan := rfl
    have e3 : (Ieee.nan : Ieee binary64 maxDouble).sqrt = .nan := rfl
    split
    · rw [e1, nan_div, if_neg (nan_lt _)]; exact ⟨_, rfl⟩
    · rw [mul_nan, sub_nan', if_neg (nan_lt _), if_neg (by simp [Ieee.eq]), e3]
      have : ∀ y : Ieee binary64 maxDouble, (Ieee.nan : Ieee binary64 maxDouble).copysign y = .nan := by
        intro y; unfold Ieee.copysign; split <;> rfl
      rw [this, add_nan', e1, nan_mul, div_nan, if_neg (nlt _)]; exact ⟨_, rfl⟩

/-! ## Examples -/

/-- `x² - 3x + 2` -/
example : Moderate (![2, -3, 1] : Arr ℝ 2) ∧ (twoPow 1 (by norm_num) (by norm_num)).IsNum ((![2, -3, 1] : Arr ℝ 2) 0) ∧
    threeD.neg.IsNum ((![2, -3, 1] : Arr ℝ 2) 1) ∧ (twoPow 0 (by norm_num) (by norm_num)).IsNum ((![2, -3, 1] : Arr ℝ 2) 2) := by
  have h1 : (4 : ℝ) ≤ 2 ^ (510 : ℤ) := by
    rw [show (4 : ℝ) = 2 ^ (2 : ℤ) by norm_num]; exact zpow_le_zpow_right₀ (by norm_num) (by norm_num)
  have h2 : (4 : ℝ) ≤ 2 ^ (1020 : ℤ) := by
    rw [show (4 : ℝ) = 2 ^ (2 : ℤ) by norm_num]; exact zpow_le_zpow_right₀ (by norm_num) (by norm_num)
  refine ⟨⟨?_, ?_, ?_⟩, ?_, rfl, ?_⟩
  · show (1 : ℝ) ≠ 0; norm_num
  · show |(-3 : ℝ)| ≤ 2 ^ (510 : ℤ) * |1|
    rw [abs_one, mul_one, abs_neg, abs_of_pos (by norm_num)]; exact le_trans (by norm_num) h1
  · show |(2 : ℝ)| ≤ 2 ^ (1020 : ℤ) * |1|
    rw [abs_one, mul_one, abs_of_pos (by norm_num)]; exact le_trans (by norm_num) h2
  · show (2 : ℝ) ^ (1 : ℤ) = 2; norm_num
  · show (2 : ℝ) ^ (0 : ℤ) = 1; norm_num

/-- `x² - 4` is clear of underflow. -/
example : Clear binary64 (0 / 1) (-4 / 1) := by
  have h : 4 * (2 : ℝ) ^ ((-1074 : ℤ) - 1) ≤ 2 ^ (-((53 : ℕ) : ℤ)) * 1 := by
    have : 4 * (2 : ℝ) ^ ((-1074 : ℤ) - 1) = 2 ^ (-1073 : ℤ) := by
      rw [show (4 : ℝ) = 2 ^ (2 : ℤ) by norm_num, ← zpow_add₀ (by norm_num)]; norm_num
    rw [this, mul_one]; exact zpow_le_zpow_right₀ (by norm_num) (by norm_num)
  have up : ∀ z : ℝ, 1 ≤ z → 4 * binary64.η ≤ binary64.u * z := fun z hz =>
    h.trans (mul_le_mul_of_nonneg_left hz (two_zpow_pos _).le)
  refine ⟨.inl (by norm_num), up _ (by norm_num), up _ ?_⟩
  have : Real.sqrt (4 : ℝ) = 2 := by rw [show (4 : ℝ) = 2 ^ 2 by norm_num]; exact Real.sqrt_sq (by norm_num)
  norm_num [this]

/-- `x² + 3 * 2^511 x + 7 * 2^1021` has no real root, and the solver returns two numbers. -/
example : ∃ f0 f1 f2 : Ieee binary64 maxDouble, ∃ P Q : ℝ, f2.IsNum 1 ∧ f1.IsNum P ∧ f0.IsNum Q ∧ (∀ x : ℝ, 0 < x ^ 2 + P * x + Q) ∧
    (quadD f0 f1 f2).length = 2 := by
  have hQ : (7 : ℝ) * 2 ^ (1021 : ℤ) ≤ maxDouble := by
    unfold maxDouble
    rw [show (1021 : ℤ) = 50 + 971 by norm_num, zpow_add₀ (by norm_num), ← mul_assoc]
    refine mul_le_mul_of_nonneg_right ?_ (by positivity)
    norm_num
  have p1 := two_zpow_pos 1021
  have p2 := two_zpow_pos 511
  have e2 : (2 : ℝ) ^ (1022 : ℤ) = 2 * 2 ^ (1021 : ℤ) := by
    rw [show (1022 : ℤ) = 1 + 1021 by norm_num, zpow_add₀ (by norm_num), zpow_one]
  have e3 : ((2 : ℝ) ^ (511 : ℤ)) ^ 2 = 2 * 2 ^ (1021 : ℤ) := by rw [pow_sq, ← e2]; norm_num
  have e4 : (2 : ℝ) ^ (512 : ℤ) = 2 * 2 ^ (511 : ℤ) := by
    rw [show (512 : ℤ) = 1 + 511 by norm_num, zpow_add₀ (by norm_num), zpow_one]
  have hP : (3 : ℝ) * 2 ^ (511 : ℤ) ≤ maxDouble := by
    have := pow_le_maxDouble (k := 513) (by norm_num)
    rw [show (513 : ℤ) = 2 + 511 by norm_num, zpow_add₀ (by norm_num)] at this
    refine le_trans (mul_le_mul_of_nonneg_right ?_ p2.le) this
    norm_num
  refine ⟨.fin (7 * 2 ^ (1021 : ℤ)) ⟨7, 1021, by norm_num, by norm_num, by norm_num⟩ (by positivity) (by rwa [abs_of_pos (by positivity)]),
    .fin (3 * 2 ^ (511 : ℤ)) ⟨3, 511, by norm_num, by norm_num, by norm_num⟩ (by positivity) (by rwa [abs_of_pos (by positivity)]),
    .one one_le_maxDouble, 3 * 2 ^ (511 : ℤ), 7 * 2 ^ (1021 : ℤ), rfl, rfl, rfl, ?_, ?_⟩
  · intro x
    clear hP hQ e2 e4
    generalize (2 : ℝ) ^ (1021 : ℤ) = t at *
    generalize (2 : ℝ) ^ (511 : ℤ) = r at *
    nlinarith [sq_nonneg (x + 3 / 2 * r)]
  · obtain ⟨a, b, _, _, e, -⟩ := C95_false_roots (P := 3 * 2 ^ (511 : ℤ)) (Q := 7 * 2 ^ (1021 : ℤ)) (f2 := .one one_le_maxDouble)
      (f1 := .fin (3 * 2 ^ (511 : ℤ)) ⟨3, 511, by norm_num, by norm_num, by norm_num⟩ (by positivity) (by rwa [abs_of_pos (by positivity)]))
      (f0 := .fin (7 * 2 ^ (1021 : ℤ)) ⟨7, 1021, by norm_num, by norm_num, by norm_num⟩ (by positivity) (by rwa [abs_of_pos (by positivity)]))
      rfl rfl rfl (by rw [abs_of_pos (by positivity), e4]; exact mul_lt_mul_of_pos_right (by norm_num) p2) (by positivity)
    rw [e]; rfl

/-- `x² - 2^1022` has the roots `±2^511`; the solver returns `-∞` and 0. -/
example : quadD (twoPow 1022 (by norm_num) (by norm_num)).neg (.zero false) (.one one_le_maxDouble) = [.inf true, .zero false] ∧
    ((2 : ℝ) ^ (511 : ℤ)) ^ 2 + 0 * 2 ^ (511 : ℤ) + -2 ^ (1022 : ℤ) = 0 := by
  refine ⟨?_, by rw [pow_sq]; norm_num⟩
  rw [C95_overflow (f2 := .one one_le_maxDouble) (f1 := .zero false) (f0 := (twoPow 1022 (by norm_num) (by norm_num)).neg)
    (P := 0) (Q := -2 ^ (1022 : ℤ)) rfl rfl rfl (by rw [abs_zero]; exact (two_zpow_pos _).le) le_rfl, if_neg (lt_irrefl _)]

/-- `2^-1020 x² + 1024 x + 1` has a root near `-1/1024`; the solver returns an infinity and a zero. -/
example : ∃ s t, quadD (twoPow 0 (by norm_num) (by norm_num)) (twoPow 10 (by norm_num) (by norm_num))
      (twoPow (-1020) (by norm_num) (by norm_num)) = [.inf s, .zero t] ∨
    quadD (twoPow 0 (by norm_num) (by norm_num)) (twoPow 10 (by norm_num) (by norm_num))
      (twoPow (-1020) (by norm_num) (by norm_num)) = [.zero t, .inf s] := by
  have d : ∀ i j : ℤ, (2 : ℝ) ^ i / 2 ^ j = 2 ^ (i - j) := fun i j => (zpow_sub₀ (by norm_num) i j).symm
  refine C95_scaling (a := 2 ^ (-1020 : ℤ)) (b := 2 ^ (10 : ℤ)) (c := 2 ^ (0 : ℤ)) rfl rfl rfl (two_zpow_pos _).ne' ?_ ?_ ?_
  · rw [d, rnd_pow _ (by norm_num), abs_of_pos (two_zpow_pos _)]
    exact lt_of_lt_of_le maxDouble_lt (zpow_le_zpow_right₀ (by norm_num) (by norm_num))
  · rw [d, rnd_pow _ (by norm_num), abs_of_pos (two_zpow_pos _)]
    exact pow_le_maxDouble (by norm_num)
  · rw [d, rnd_pow _ (by norm_num)]
    exact (two_zpow_pos _).ne'

/-- `4 x - 2`, as a polynomial of order 2. -/
example : ∃ c r, quadD (twoPow 1 (by norm_num) (by norm_num)).neg (twoPow 2 (by norm_num) (by norm_num)) (.zero true) = [c] ∧ c.IsNum r ∧
    |r - 1 / 2| ≤ 2 ^ (-53 : ℤ) * (1 / 2) + 2 ^ (-1075 : ℤ) := by
  have h := (C95_linear (f0 := (twoPow 1 (by norm_num) (by norm_num)).neg) (f1 := twoPow 2 (by norm_num) (by norm_num)) (f2 := .zero true)
    (a := -2) (b := 4) rfl (show (2 : ℝ) ^ (2 : ℤ) = 4 by norm_num)
    (show -(2 : ℝ) ^ (1 : ℤ) = -2 by norm_num)).2 (by norm_num) (by
      rw [show |(-2 : ℝ)| = 2 by norm_num, show |(4 : ℝ)| = 4 by norm_num]; linarith [two_le_maxDouble])
  rwa [show -(-2 : ℝ) / 4 = 1 / 2 by norm_num, show |(-2 : ℝ) / 4| = 1 / 2 by norm_num] at h

end Stator.Fp
