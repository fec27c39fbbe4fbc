import Verif.Fp.IeeeEvalDeriv
import Verif.Fp.IeeeHalley

/-!
# C97: Newton-Raphson and Halley for polynomials, on `double`

The function given to `newton_raphson` and `halleys_method` is `eval_derivatives` of a polynomial: what a success says about the
polynomial.
-/

namespace Stator.Fp

open Stator Pol Ieee Num

/-- The lambda `[&](double x) { return eval_derivatives<D>(f, x); }`; models: stator/symbolic/polynomial.hpp:319-338 as the objective
function of stator/symbolic/numeric.hpp:207-270. An index the methods never use gives NaN. -/
noncomputable def polyObjI {n : ℕ} (D : ℕ) (f : Arr (Ieee binary64 maxDouble) n) : ObjI binary64 maxDouble := fun x i =>
  match evalDerivI one_le_maxDouble D f x with
  | none => .nan
  | some c => if h : i < D + 1 then c ⟨i, h⟩ else .nan

/-- The same in rounded arithmetic. -/
noncomputable def polyObjR {n : ℕ} (D : ℕ) (a : Arr ℝ n) : Obj := fun x i =>
  match evalDerivR binary64.rnd D a x with
  | none => 0
  | some c => if h : i < D + 1 then c ⟨i, h⟩ else 0

/-- What the methods can find of a root of the polynomial `a` at `w`: its value is within the error of the evaluation, or `w` has a
neighbour such that there is a root between the two or one of the two values is within the error of the evaluation. -/
def RootAt {n : ℕ} (a : Arr ℝ n) (w : ℝ) : Prop :=
  |value a w| ≤ hornerBound binary64 a w ∨ ∃ u v, Adjacent binary64 u v ∧ (w = u ∨ w = v) ∧
    ((∃ c, u ≤ c ∧ c ≤ v ∧ value a c = 0) ∨ |value a u| ≤ hornerBound binary64 a u ∨ |value a v| ≤ hornerBound binary64 a v)

/-! ## Proofs -/

theorem derivSum_zero {n : ℕ} (a : Arr ℝ n) (x : ℝ) : derivSum a x 0 = value a x := by
  unfold derivSum value
  simp

theorem polyObjR_error {n : ℕ} (D : ℕ) (a : Arr ℝ n) (x : ℝ) : |polyObjR D a x 0 - value a x| ≤ hornerBound binary64 a x := by
  obtain ⟨r, e, h⟩ := C97_error binary64 D a x
  have h0 := h ⟨0, by omega⟩ (by norm_num)
  unfold polyObjR
  rw [e]
  dsimp only at h0 ⊢
  rw [dif_pos (by omega)]
  rw [derivSum_zero] at h0
  refine h0.trans (le_of_eq ?_)
  unfold hornerBound underflowSum
  rw [derivSum_zero]
  simp [value, absArr, absValue]

theorem derivSum_nonneg {n : ℕ} (a : Arr ℝ n) {b : ℝ} (hb : 0 ≤ b) (j : ℕ) : 0 ≤ derivSum (absArr a) b j :=
  Finset.sum_nonneg fun _ _ => mul_nonneg (Nat.cast_nonneg _) (mul_nonneg (abs_nonneg _) (pow_nonneg hb _))

theorem derivBound_mono (φ : Format) {n : ℕ} (a : Arr ℝ n) {y z : ℝ} (h : |y| ≤ |z|) (j : ℕ) : derivBound φ a y j ≤ derivBound φ a z j := by
  have hu := φ.u_nonneg
  have hη := φ.η_nonneg
  have h0 : (0 : ℝ) ≤ max 1 |y| := by positivity
  have hm : max 1 |y| ≤ max 1 |z| := max_le_max le_rfl h
  rw [derivBound_eq, derivBound_eq]
  refine add_le_add (mul_le_mul_of_nonneg_left (mul_le_mul_of_nonneg_right ?_ (Nat.cast_nonneg _)) (by linarith)) le_rfl
  unfold magS
  refine add_le_add (mul_le_mul_of_nonneg_left (exactS_mono a h0 hm n j) (by positivity)) (mul_le_mul_of_nonneg_left ?_ (mul_nonneg hη (by linarith)))
  exact gSum_mono (by linarith) (by positivity) (mul_le_mul_of_nonneg_left hm (by positivity)) n j

theorem polyObjR_le {n : ℕ} (D : ℕ) (hD : D ≤ 22) (a : Arr ℝ n) (y : ℝ) (j : ℕ) (hj : j ≤ D) : |polyObjR D a y j| ≤ derivBound binary64 a y j := by
  have hy : |y| ≤ max 1 |y| := le_max_right _ _
  have hmag : 0 ≤ magS binary64 a (max 1 |y|) n j := (abs_nonneg _).trans (roundS_mag binary64 a hy n j)
  have hfac : (1 : ℝ) ≤ (j.factorial : ℝ) := by exact_mod_cast Nat.one_le_iff_ne_zero.2 (Nat.factorial_ne_zero _)
  obtain ⟨r, e, h⟩ := evalDerivR_run binary64.rnd D a y
  obtain ⟨-, c2⟩ := factors_num one_le_maxDouble (factorials_double hD) j hj
  unfold polyObjR
  rw [e]
  dsimp only
  rw [dif_pos (by omega), h, derivBound_eq]
  dsimp only
  rw [c2]
  split
  · refine (roundS_mag binary64 a hy n j).trans ?_
    have h1 := le_mul_of_one_le_right hmag hfac
    have h2 := mul_nonneg binary64.u_nonneg (hmag.trans h1)
    have h3 := binary64.η_nonneg
    generalize binary64.u = t at *
    generalize binary64.η = t' at *
    linarith
  · refine (rnd_abs_le binary64 _).trans (add_le_add (mul_le_mul_of_nonneg_left ?_ (by linarith [binary64.u_nonneg])) le_rfl)
    rw [abs_mul, abs_of_nonneg (a := (j.factorial : ℝ)) (Nat.cast_nonneg _)]
    exact mul_le_mul_of_nonneg_right (roundS_mag binary64 a hy n j) (Nat.cast_nonneg _)

/-- A sum is a negative zero only if both terms are. -/
theorem add_minus_zero {s c : Ieee binary64 maxDouble} {u v : ℝ} (hs : s.IsNum u) (hc : c.IsNum v) (h : c ≠ .zero true) :
    s.add c ≠ .zero true := by
  have key : ∀ a ∈ binary64.F, ∀ b ∈ binary64.F, (pack false (a + b) : Ieee binary64 maxDouble) ≠ .zero true := by
    intro a ha b hb e
    obtain ⟨δ, hδ, hr⟩ := bin_sum (p := 53) (emin := -1074) (hp := by norm_num) (he := by norm_num) ha hb
    have hu : (bin 53 (-1074) (by norm_num) (by norm_num)).u ≤ 1 / 2 := by
      change (2 : ℝ) ^ (-53 : ℤ) ≤ 1 / 2
      norm_num
    have hδ' := (abs_le.1 (hδ.trans hu)).1
    unfold pack at e
    split at e
    · next h0 =>
      have h1 : a + b = 0 := by
        have : (a + b) * (1 + δ) = 0 := by rw [← hr]; exact h0
        rcases mul_eq_zero.1 this with h | h
        · exact h
        · linarith
      rw [if_pos h1] at e
      cases e
    · split at e <;> cases e
  rcases s with _ | _ | a | ⟨a, ha, _, _⟩ <;> rcases c with _ | _ | b | ⟨b, hb, _, _⟩ <;> simp only [IsNum] at hs hc
  · cases a <;> cases b <;> first | exact absurd rfl h | (intro e; cases e)
  · exact key 0 binary64.zero b hb
  · exact key a ha 0 binary64.zero
  · exact key a ha b hb

section
variable {n : ℕ} {f : Arr (Ieee binary64 maxDouble) n} {a : Arr ℝ n} (hf : Coefs f a)
include hf

theorem entry_minus_zero (D : ℕ) {x : Ieee binary64 maxDouble} {y : ℝ} (hx : x.IsNum y)
    (hb : ∀ j, j ≤ D → derivBound binary64 a y j ≤ maxDouble) {c : Arr (Ieee binary64 maxDouble) D}
    (e : evalDerivI one_le_maxDouble D f x = some c) :
    (f 0 ≠ .zero true → c ⟨0, by omega⟩ ≠ .zero true) ∧
    ((∀ h : 1 < n + 1, f ⟨1, h⟩ ≠ .zero true) → ∀ h : 1 < D + 1, c ⟨1, h⟩ ≠ .zero true) := by
  have hu := binary64.u_nonneg
  have hη := binary64.η_nonneg
  have hy : |y| ≤ max 1 |y| := le_max_right _ _
  have hB : (1 : ℝ) ≤ max 1 |y| := le_max_left _ _
  have hmag : ∀ j, 0 ≤ magS binary64 a (max 1 |y|) n j := fun j => (abs_nonneg _).trans (roundS_mag binary64 a hy n j)
  have hb' : ∀ j, j ≤ D → magS binary64 a (max 1 |y|) n j ≤ maxDouble := fun j hj => by
    refine le_trans ?_ (hb j hj)
    rw [derivBound_eq]
    have h1 := le_mul_of_one_le_right (hmag j) (show (1 : ℝ) ≤ (j.factorial : ℝ) by
      exact_mod_cast Nat.one_le_iff_ne_zero.2 (Nat.factorial_ne_zero _))
    have h2 := mul_nonneg hu ((hmag j).trans h1)
    generalize binary64.u = t at *
    generalize binary64.η = t' at *
    linarith
  have hent := entries_num D hf hx hb'
  have hprod : ∀ k, k < n → ∀ j, j ≤ D → j ≤ k + 1 →
      ((seqS (fun s c => (s.mul x).add c) (.zero false) f k j).mul x).IsNum (binary64.rnd (roundS binary64 a y k j * y)) := fun k hk j hj hjk =>
    (hent k hk.le j hj).mul hx (((prod_mag binary64 a hy hjk).trans (magS_top binary64 a hB hk j)).trans (hb' j hj))
  obtain ⟨c', e', h⟩ := evalDerivI_run one_le_maxDouble D f x
  rw [e] at e'
  obtain rfl := Option.some.inj e'
  have first : ∀ k, k ≤ n → f ⟨n - k, by omega⟩ ≠ .zero true → seqS (fun s c => (s.mul x).add c) (.zero false) f k 0 ≠ .zero true := by
    intro k hk h0
    cases k with
    | zero => exact h0
    | succ k => exact add_minus_zero (hprod k (by omega) 0 (by omega) (by omega)) (hf _) h0
  refine ⟨fun h0 => ?_, fun h1 hD => ?_⟩
  · rw [h, if_pos (by norm_num)]
    refine first n le_rfl ?_
    have : (⟨n - n, by omega⟩ : Fin (n + 1)) = 0 := Fin.ext (by simp)
    rw [this]
    exact h0
  · rw [h, if_pos (by norm_num)]
    cases n with
    | zero => intro h; cases h
    | succ n =>
      change (if 0 ≤ n then ((seqS (fun s c => (s.mul x).add c) (.zero false) f n 1).mul x).add
          (seqS (fun s c => (s.mul x).add c) (.zero false) f n 0) else .zero false) ≠ _
      rw [if_pos (Nat.zero_le _)]
      refine add_minus_zero (hprod n (by omega) 1 (by omega) (by omega)) (hent n (by omega) 0 (by omega)) (first n (by omega) ?_)
      have : (⟨n + 1 - n, by omega⟩ : Fin (n + 1 + 1)) = ⟨1, by omega⟩ := Fin.ext (by simp)
      rw [this]
      exact h1 _

theorem poly_num (D : ℕ) (hD : D ≤ 22) {x : Ieee binary64 maxDouble} {y : ℝ} (hx : x.IsNum y)
    (hb : ∀ j, j ≤ D → derivBound binary64 a y j ≤ maxDouble) (i : ℕ) (hi : i ≤ D) :
    (polyObjI D f x i).IsNum (polyObjR D a y i) := by
  obtain ⟨c, r, e1, e2, h⟩ := C97_agrees one_le_maxDouble D hf hx (factorials_double hD) hb
  unfold polyObjI polyObjR
  rw [e1, e2]
  dsimp only
  rw [dif_pos (by omega), dif_pos (by omega)]
  exact h _

theorem poly_minus_zero (D : ℕ) (hD : D ≤ 22) {x : Ieee binary64 maxDouble} {y : ℝ} (hx : x.IsNum y)
    (hb : ∀ j, j ≤ D → derivBound binary64 a y j ≤ maxDouble) :
    (f 0 ≠ .zero true → polyObjI D f x 0 ≠ .zero true) ∧
    ((∀ h : 1 < n + 1, f ⟨1, h⟩ ≠ .zero true) → 1 ≤ D → polyObjI D f x 1 ≠ .zero true) := by
  obtain ⟨c, r, e1, e2, h⟩ := C97_agrees one_le_maxDouble D hf hx (factorials_double hD) hb
  have hz := entry_minus_zero hf D hx hb e1
  unfold polyObjI
  rw [e1]
  dsimp only
  refine ⟨fun h0 => ?_, fun h1 hd => ?_⟩
  · rw [dif_pos (by omega)]; exact hz.1 h0
  · rw [dif_pos (by omega)]; exact hz.2 h1 _

end

/-- The computed polynomial decides about the polynomial. -/
theorem root_of_computed {n : ℕ} (D : ℕ) (a : Arr ℝ n) {p w : ℝ} {lo hi : EReal} {cand : ℝ → ℝ → Prop}
    (h : FoundR binary64 (polyObjR D a) p lo hi cand w) :
    RootAt a w ∨ ∃ y ∈ binary64.F, lo ≤ (y : EReal) ∧ (y : EReal) ≤ hi ∧ |binary64.rnd (w - y)| < |binary64.rnd (p * w)| := by
  have sign : ∀ t, ¬ |value a t| ≤ hornerBound binary64 a t → (polyObjR D a t 0 < 0 ↔ value a t < 0) := by
    intro t ht
    have h1 := abs_le.1 (polyObjR_error D a t)
    generalize hornerBound binary64 a t = E at *
    generalize polyObjR D a t 0 = r at *
    rcases abs_cases (value a t) with ⟨e, _⟩ | ⟨e, _⟩ <;> rw [e] at ht <;> constructor <;> intro _ <;> linarith
  rcases h with h | ⟨u, v, had, hs, hw⟩ | ⟨y, h1, h2, h3, h4, -⟩
  · left; left
    have := polyObjR_error D a w
    rwa [h, zero_sub, abs_neg] at this
  · left; right
    refine ⟨u, v, had, hw, ?_⟩
    by_cases hu : |value a u| ≤ hornerBound binary64 a u
    · exact .inr (.inl hu)
    by_cases hv : |value a v| ≤ hornerBound binary64 a v
    · exact .inr (.inr hv)
    left
    have hcont : ContinuousOn (value a) (Set.Icc u v) := by
      refine Continuous.continuousOn ?_
      unfold value; exact continuous_finsetSum _ fun i _ => continuous_const.mul (continuous_id.pow _)
    have su := sign u hu
    have sv := sign v hv
    have hsc : SignChange (value a) u v := by
      rcases hs with ⟨h1, h2⟩ | ⟨h1, h2⟩
      · exact .inl ⟨su.1 h1, not_lt.1 fun h => absurd (sv.2 h) (not_lt.2 h2)⟩
      · exact .inr ⟨not_lt.1 fun h => absurd (su.2 h) (not_lt.2 h1), sv.1 h2⟩
    obtain ⟨c, c1, c2, c3⟩ := hsc.root had.2.2.1.le hcont
    exact ⟨c, c1, c2, c3⟩
  · exact .inr ⟨y, h1, h2, h3, h4⟩

section
variable {n : ℕ} {f : Arr (Ieee binary64 maxDouble) n} {a : Arr ℝ n} (hf : Coefs f a) {lo hi x : ℝ}
  (bl : -(maxDouble / 2) ≤ lo) (bh : hi ≤ maxDouble / 2) {prec : Ieee binary64 maxDouble} {p : ℝ} (hp : prec.IsNum p) (hp1 : |p| ≤ 1)
  {xI loI hiI : Ieee binary64 maxDouble} (hx : xI.IsNum x) (hlo : loI.IsNum lo) (hhi : hiI.IsNum hi) (h1 : lo ≤ x) (h3 : x ≤ hi)
include hf bl bh hp hp1 hx hlo hhi h1 h3

/-- **C97**, `newton_raphson` of a polynomial: if nothing can overflow between the bounds, a success at `x'` says that `x'` is a number
between the bounds and, as far as the evaluation can tell, next to a root - or that the last step was shorter than the precision, which
is impossible for precision 0. -/
theorem C97_newton (h0 : f 0 ≠ .zero true) (hb : ∀ j, j ≤ 1 → derivBound binary64 a (max |lo| |hi|) j ≤ maxDouble)
    (ns : Bool) (maxSize iterations : ℕ) {x' : Ieee binary64 maxDouble}
    (e : newtonI two_le_maxDouble ns (polyObjI 1 f) maxSize prec xI loI hiI iterations = (true, x')) :
    ∃ w, x'.IsNum w ∧ lo ≤ w ∧ w ≤ hi ∧ (RootAt a w ∨
      p ≠ 0 ∧ ∃ y ∈ binary64.F, lo ≤ y ∧ y ≤ hi ∧ |binary64.rnd (w - y)| < |binary64.rnd (p * w)|) := by
  have hm : (0 : ℝ) ≤ max |lo| |hi| := le_max_of_le_left (abs_nonneg _)
  have fits : ∀ t, lo ≤ t → t ≤ hi → ∀ j, j ≤ 1 → derivBound binary64 a t j ≤ maxDouble := fun t h1 h2 j hj =>
    (derivBound_mono binary64 a (by
      rw [abs_of_nonneg hm]
      exact abs_le.2 ⟨(neg_le_neg (le_max_left |lo| |hi|)).trans ((neg_abs_le lo).trans h1), h2.trans ((le_abs_self hi).trans (le_max_right _ _))⟩) j).trans (hb j hj)
  have hc : Computes (polyObjI 1 f) (polyObjR 1 a) lo hi := fun c w hc h1 h2 =>
    ⟨poly_num hf 1 (by norm_num) hc (fits w h1 h2) 0 (by norm_num), poly_num hf 1 (by norm_num) hc (fits w h1 h2) 1 le_rfl,
      (poly_minus_zero hf 1 (by norm_num) hc (fits w h1 h2)).1 h0⟩
  obtain ⟨e1, e2⟩ := C93_agrees two_le_maxDouble maxDouble_mem bl bh hc hp hp1 ns maxSize hx hlo hhi h1 h3 iterations
  rw [e] at e1 e2
  obtain ⟨b, w, e3⟩ : ∃ b w, newtonR binary64.rnd (polyObjR 1 a) maxSize p x lo hi iterations = (b, w) := ⟨_, _, rfl⟩
  rw [e3] at e1 e2
  obtain ⟨-, b1, b2, hF⟩ := C90_newton (polyObjR 1 a) maxSize p x lo hi iterations hx.mem (.real hlo.mem) (.real hhi.mem)
    (EReal.coe_le_coe_iff.2 h1) (EReal.coe_le_coe_iff.2 h3) _ _ e3
  refine ⟨w, e2, EReal.coe_le_coe_iff.1 b1, EReal.coe_le_coe_iff.1 b2, ?_⟩
  rcases root_of_computed 1 a (hF e1.symm) with h | ⟨y, y1, y2, y3, y4⟩
  · exact .inl h
  · refine .inr ⟨?_, y, y1, EReal.coe_le_coe_iff.1 y2, EReal.coe_le_coe_iff.1 y3, y4⟩
    rintro rfl
    rw [zero_mul, Ieee.rnd_zero, abs_zero] at y4
    exact absurd y4 (not_lt.2 (abs_nonneg _))

/-- **C97**, `halleys_method` of a polynomial. -/
theorem C97_halley (h0 : f 0 ≠ .zero true) (h1' : ∀ h : 1 < n + 1, f ⟨1, h⟩ ≠ .zero true)
    (hb : ∀ j, j ≤ 2 → derivBound binary64 a (max |lo| |hi|) j ≤ 2 ^ (510 : ℤ))
    (ns : Bool) (maxSize iterations : ℕ) {x' : Ieee binary64 maxDouble}
    (e : halleyI two_le_maxDouble ns (polyObjI 2 f) maxSize prec xI loI hiI iterations = (true, x')) :
    ∃ w, x'.IsNum w ∧ lo ≤ w ∧ w ≤ hi ∧ (RootAt a w ∨
      p ≠ 0 ∧ ∃ y ∈ binary64.F, lo ≤ y ∧ y ≤ hi ∧ |binary64.rnd (w - y)| < |binary64.rnd (p * w)|) := by
  have hm : (0 : ℝ) ≤ max |lo| |hi| := le_max_of_le_left (abs_nonneg _)
  have hK : (2 : ℝ) ^ (510 : ℤ) ≤ maxDouble := pow_le_maxDouble (by norm_num)
  have fits : ∀ t, lo ≤ t → t ≤ hi → ∀ j, j ≤ 2 → derivBound binary64 a t j ≤ 2 ^ (510 : ℤ) := fun t h1 h2 j hj =>
    (derivBound_mono binary64 a (by
      rw [abs_of_nonneg hm]
      exact abs_le.2 ⟨(neg_le_neg (le_max_left |lo| |hi|)).trans ((neg_abs_le lo).trans h1), h2.trans ((le_abs_self hi).trans (le_max_right _ _))⟩) j).trans (hb j hj)
  have small : ∀ t, lo ≤ t → t ≤ hi → ∀ j, j ≤ 2 → |polyObjR 2 a t j| ≤ 2 ^ (510 : ℤ) := fun t h1 h2 j hj =>
    (polyObjR_le 2 (by norm_num) a t j hj).trans (fits t h1 h2 j hj)
  have hc : ComputesH (polyObjI 2 f) (polyObjR 2 a) (2 ^ (510 : ℤ)) lo hi := fun c w hc h1 h2 => by
    have fits' := fun j hj => (fits w h1 h2 j hj).trans hK
    exact ⟨poly_num hf 2 (by norm_num) hc fits' 0 (by norm_num), poly_num hf 2 (by norm_num) hc fits' 1 (by norm_num),
      poly_num hf 2 (by norm_num) hc fits' 2 le_rfl, (poly_minus_zero hf 2 (by norm_num) hc fits').1 h0,
      (poly_minus_zero hf 2 (by norm_num) hc fits').2 h1' (by norm_num), small w h1 h2 0 (by norm_num), small w h1 h2 1 (by norm_num),
      small w h1 h2 2 le_rfl⟩
  obtain ⟨k1, k2, k3⟩ := half_range
  obtain ⟨e1, e2⟩ := C93_halley_agrees two_le_maxDouble maxDouble_mem bl bh hc k1 k2 k3 hp hp1 ns maxSize hx hlo hhi h1 h3 iterations
  rw [e] at e1 e2
  obtain ⟨b, w, e3⟩ : ∃ b w, halleyR binary64.rnd (polyObjR 2 a) false maxSize p x lo hi iterations = (b, w) := ⟨_, _, rfl⟩
  rw [e3] at e1 e2
  obtain ⟨-, b1, b2, hF⟩ := C90_halley (polyObjR 2 a) false maxSize p x lo hi iterations hx.mem (.real hlo.mem) (.real hhi.mem)
    (EReal.coe_le_coe_iff.2 h1) (EReal.coe_le_coe_iff.2 h3) _ _ e3
  refine ⟨w, e2, EReal.coe_le_coe_iff.1 b1, EReal.coe_le_coe_iff.1 b2, ?_⟩
  rcases root_of_computed 2 a (hF e1.symm) with h | ⟨y, y1, y2, y3, y4⟩
  · exact .inl h
  · refine .inr ⟨?_, y, y1, EReal.coe_le_coe_iff.1 y2, EReal.coe_le_coe_iff.1 y3, y4⟩
    rintro rfl
    rw [zero_mul, Ieee.rnd_zero, abs_zero] at y4
    exact absurd y4 (not_lt.2 (abs_nonneg _))

end

/-! ## Examples -/

/-- `4 x - 2` with coefficients of type `double`. -/
noncomputable def lin42 : Arr (Ieee binary64 maxDouble) 1 :=
  ![(twoPow 1 (by norm_num) (by norm_num)).neg, twoPow 2 (by norm_num) (by norm_num)]

theorem lin42_coefs : Coefs lin42 ![-2, 4] := by
  intro i
  fin_cases i
  · show -(2 : ℝ) ^ (1 : ℤ) = -2
    norm_num
  · show (2 : ℝ) ^ (2 : ℤ) = 4
    norm_num

theorem lin42_bound {j : ℕ} (hj : j ≤ 2) : derivBound binary64 ![-2, 4] (max |(0 : ℝ)| |2|) j ≤ maxDouble := by
  refine derivBound_double (B := 2) (C := 4) (by norm_num) (by omega) (by norm_num) (by norm_num) (by norm_num)
    (by intro i; fin_cases i <;> norm_num) ?_
  have h1 : (((1 : ℕ) : ℝ) + 1) ^ (j + 1) ≤ 8 := by
    have : (((1 : ℕ) : ℝ) + 1) ^ (j + 1) ≤ (((1 : ℕ) : ℝ) + 1) ^ 3 := pow_le_pow_right₀ (by norm_num) (by omega)
    refine this.trans ?_
    norm_num
  refine le_trans (b := (2 : ℝ) ^ (6 : ℤ)) ?_ (zpow_le_zpow_right₀ (by norm_num) (by norm_num))
  refine le_trans (mul_le_mul_of_nonneg_right (mul_le_mul_of_nonneg_right h1 (by norm_num)) (by norm_num)) ?_
  norm_num

/-- The computed values of `4 x - 2`. -/
theorem lin42_values {x : ℝ} (h : 4 * x ∈ binary64.F) (h' : 4 * x - 2 ∈ binary64.F) :
    polyObjR 1 ![-2, 4] x 0 = 4 * x - 2 ∧ polyObjR 1 ![-2, 4] x 1 = 4 := by
  obtain ⟨r, e, hr⟩ := evalDerivR_run binary64.rnd 1 (![-2, 4] : Arr ℝ 1) x
  have m4 : (4 : ℝ) ∈ binary64.F := by simpa using dy_mem 4 0 (by norm_num) (by norm_num)
  unfold polyObjR
  rw [e]
  dsimp only
  rw [dif_pos (by omega), dif_pos (by omega), hr, hr]
  simp only [seqS, if_true, le_refl, Nat.reduceAdd, Nat.sub_self, Nat.one_lt_ofNat, Nat.zero_lt_succ]
  constructor
  · have : (![-2, 4] : Arr ℝ 1) ⟨1, by omega⟩ = 4 := rfl
    rw [this]
    have : (![-2, 4] : Arr ℝ 1) ⟨0, by omega⟩ = -2 := rfl
    rw [this, binary64.rnd_of_mem h, ← sub_eq_add_neg, binary64.rnd_of_mem h']
  · have : (![-2, 4] : Arr ℝ 1) ⟨1, by omega⟩ = 4 := rfl
    rw [this, zero_mul, Ieee.rnd_zero, zero_add, binary64.rnd_of_mem m4]

/-- `newton_raphson` of `4 x - 2`, from 1 between 0 and 2 with precision 0, finds the root. -/
example (ns : Bool) : ∃ x', newtonI two_le_maxDouble ns (polyObjI 1 lin42) 10 (.zero false) (twoPow 0 (by norm_num) (by norm_num)) (.zero false)
    (twoPow 1 (by norm_num) (by norm_num)) 0 = (true, x') ∧ x'.IsNum (1 / 2) := by
  have e0 : (twoPow 0 (by norm_num) (by norm_num)).IsNum 1 := show (2 : ℝ) ^ (0 : ℤ) = 1 by norm_num
  have e1 : (twoPow 1 (by norm_num) (by norm_num)).IsNum 2 := show (2 : ℝ) ^ (1 : ℤ) = 2 by norm_num
  have m4 : (4 : ℝ) ∈ binary64.F := by simpa using dy_mem 4 0 (by norm_num) (by norm_num)
  have mh : (1 / 2 : ℝ) ∈ binary64.F := by simpa using dy_mem 1 1 (by norm_num) (by norm_num)
  have v1 := lin42_values (x := 1) (by norm_num; exact m4) (by norm_num; exact binary64.two)
  have v2 := lin42_values (x := 1 / 2) (by norm_num; exact binary64.two) (by norm_num; exact binary64.zero)
  have big := big_le_maxDouble
  have fits : ∀ t, 0 ≤ t → t ≤ 2 → ∀ j, j ≤ 1 → derivBound binary64 ![-2, 4] t j ≤ maxDouble := fun t h1 h2 j hj =>
    (derivBound_mono binary64 _ (by rw [abs_zero, abs_two, max_eq_right (by norm_num), abs_two]; rwa [abs_of_nonneg h1]) j).trans
      (lin42_bound (by omega))
  have hc : Computes (polyObjI 1 lin42) (polyObjR 1 ![-2, 4]) 0 2 := fun c w hc h1 h2 =>
    ⟨poly_num lin42_coefs 1 (by norm_num) hc (fits w h1 h2) 0 (by norm_num), poly_num lin42_coefs 1 (by norm_num) hc (fits w h1 h2) 1 le_rfl,
      (poly_minus_zero lin42_coefs 1 (by norm_num) hc (fits w h1 h2)).1 (by intro h; cases h)⟩
  obtain ⟨a1, a2⟩ := C93_agrees two_le_maxDouble maxDouble_mem (by linarith) (by linarith) hc (prec := .zero false) (p := 0) (zero_num false)
    (by rw [abs_zero]; norm_num) ns 10 e0 (zero_num false) e1 (by norm_num) (by norm_num) 0
  have run : newtonR binary64.rnd (polyObjR 1 ![-2, 4]) 10 0 1 ((0 : ℝ) : EReal) ((2 : ℝ) : EReal) 0 = (true, 1 / 2) := by
    clear a1 a2 hc fits big
    have r1 : binary64.rnd (1 / 2) = 1 / 2 := binary64.rnd_of_mem mh
    have b1 : ¬ ((2 : ℝ) : EReal) ≤ ((1 / 2 : ℝ) : EReal) := by rw [EReal.coe_le_coe_iff]; norm_num
    have b2 : ¬ ((1 / 2 : ℝ) : EReal) ≤ ((0 : ℝ) : EReal) := by rw [EReal.coe_le_coe_iff]; norm_num
    have s1 : polyObjR 1 ![-2, 4] 1 0 = 2 := by rw [v1.1]; norm_num
    have s3 : polyObjR 1 ![-2, 4] (1 / 2) 0 = 0 := by rw [v2.1]; norm_num
    have hstep : newtonStepR binary64.rnd (polyObjR 1 ![-2, 4]) 0 ⟨1, ((0 : ℝ) : EReal), ((2 : ℝ) : EReal), polyObjR 1 ![-2, 4] 1⟩ =
        (2, ⟨1 / 2, ((0 : ℝ) : EReal), ((2 : ℝ) : EReal), polyObjR 1 ![-2, 4] (1 / 2)⟩) := by
      unfold newtonStepR
      dsimp only
      rw [if_neg (by rw [v1.2]; norm_num), s1, v1.2, show (2 : ℝ) / 4 = 1 / 2 by norm_num, r1, show (1 : ℝ) - 1 / 2 = 1 / 2 by norm_num, r1]
      unfold processStepR
      dsimp only
      rw [if_neg (by rw [not_or]; exact ⟨b1, b2⟩), if_pos (.inr s3)]
    unfold newtonR solveWith
    rw [if_neg (by rw [s1]; norm_num)]
    have : iters 10 0 - 1 = 8 + 1 := rfl
    rw [this]
    simp only [iterate, newtonTurn, orElse, hstep]
    simp
  rw [run] at a1 a2
  exact ⟨_, Prod.ext a1 rfl, a2⟩

/-- A success on `4 x - 2` with precision 0 is at a root, as far as the evaluation can tell. -/
example (ns : Bool) (x' : Ieee binary64 maxDouble)
    (e : newtonI two_le_maxDouble ns (polyObjI 1 lin42) 10 (.zero false) (twoPow 0 (by norm_num) (by norm_num)) (.zero false)
      (twoPow 1 (by norm_num) (by norm_num)) 0 = (true, x')) : ∃ w, x'.IsNum w ∧ RootAt (![-2, 4] : Arr ℝ 1) w := by
  have e0 : (twoPow 0 (by norm_num) (by norm_num)).IsNum 1 := show (2 : ℝ) ^ (0 : ℤ) = 1 by norm_num
  have e1 : (twoPow 1 (by norm_num) (by norm_num)).IsNum 2 := show (2 : ℝ) ^ (1 : ℤ) = 2 by norm_num
  obtain ⟨w, h1, -, -, h | ⟨h, -⟩⟩ := C97_newton lin42_coefs (lo := 0) (hi := 2) (by linarith [big_le_maxDouble]) (by linarith [big_le_maxDouble])
    (p := 0) (zero_num false) (by rw [abs_zero]; norm_num) e0 (zero_num false) e1 (by norm_num) (by norm_num) (by intro h; cases h)
    (fun j hj => lin42_bound (by omega)) ns 10 0 e
  · exact ⟨w, h1, h⟩
  · exact absurd rfl h

/-- The derivatives of `x² - 2` at every number up to `2^500`. -/
example {x : Ieee binary64 maxDouble} {y : ℝ} (hx : x.IsNum y) (hy : |y| ≤ 2 ^ (500 : ℤ)) :
    ∃ c : Arr (Ieee binary64 maxDouble) 2, evalDerivI one_le_maxDouble 2 sq2 x = some c ∧ ∀ j, ∃ r, (c j).IsNum r ∧
      |r - derivSum ![-2, 0, 1] y j| ≤ ((1 + binary64.u) ^ 5 - 1) * derivSum (absArr ![-2, 0, 1]) |y| j +
        ((1 + binary64.u) * ((j : ℕ).factorial * underflowSum binary64 y 2 j) + binary64.η) :=
  C97_double (B := 2 ^ (500 : ℤ)) (C := 2) sq2_coefs hx (by norm_num) (by norm_num) (one_le_zpow₀ (by norm_num) (by norm_num)) hy
    (by norm_num) (by intro i; fin_cases i <;> simp) (by
      rw [pow_sq, show (1022 : ℤ) = 22 + 2 * 500 by norm_num, zpow_add₀ (by norm_num)]
      refine mul_le_mul_of_nonneg_right ?_ (two_zpow_pos _).le
      norm_num)

/-- For `x² - 2` these are `y² - 2`, `2 y` and 2. -/
example (y : ℝ) : derivSum (![-2, 0, 1] : Arr ℝ 2) y 0 = y ^ 2 - 2 ∧ derivSum (![-2, 0, 1] : Arr ℝ 2) y 1 = 2 * y ∧
    derivSum (![-2, 0, 1] : Arr ℝ 2) y 2 = 2 := by
  refine ⟨?_, ?_, ?_⟩
  · simp [derivSum, Fin.sum_univ_succ, Nat.descFactorial]; ring
  · norm_num [derivSum, Fin.sum_univ_succ, Nat.descFactorial]
  · norm_num [derivSum, Fin.sum_univ_succ, Nat.descFactorial]

end Stator.Fp
