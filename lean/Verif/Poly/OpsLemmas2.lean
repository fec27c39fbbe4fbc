import Verif.Poly.OpsLemmas

/-! # Ring operations, division, deflation, derivatives -/

namespace Stator.Pol

open Polynomial

variable {K : Type*}

theorem evalDerivatives_spec [CommRing K] {n : ℕ} (D : ℕ) (f : Arr K n) (x : K) :
    ∃ r, evalDerivatives D f x = some r ∧
      ∀ j, j ≤ D → coef r j = (derivative^[j] (polyOf f)).eval x := by
  unfold evalDerivatives
  obtain ⟨r0, e0, h0⟩ := wr_coef (zeros D : Arr K D) (i := 0) (coef f n) (by omega)
  simp only [rd_coef f (le_refl n), Option.bind_eq_bind, Option.bind_some, e0]
  have key : ∃ r, forDown (fun i r => (forDown (fun j r => (rd r j).bind fun rj =>
      (rd r (j - 1)).bind fun rj1 => wr r j (rj * x + rj1)) (min D (n - (i - 1))) r).bind fun r =>
      (rd r 0).bind fun r0 => (rd f (i - 1)).bind fun c => wr r 0 (r0 * x + c)) n r0 = some r ∧
      ∀ j, j ≤ D → coef r j = ((polyOf f).comp (X + C x)).coeff j := by
    refine outer_spec (D := D) x f _ (fun j r => (rd r j).bind fun rj =>
        (rd r (j - 1)).bind fun rj1 => wr r j (rj * x + rj1)) ?_ ?_ r0 ?_
    · intro j r _ hj
      simp [rd_coef r hj, rd_coef r (show j - 1 ≤ D by omega)]
    · intro i r r' h1 h2 hr
      rw [hr, Option.bind_some, rd_coef r' (by omega), rd_coef f (show i - 1 ≤ n by omega)]
      rfl
    · intro j; rw [h0, coef_zeros]
  obtain ⟨r1, e1, h1⟩ := key
  rw [e1, Option.bind_some]
  obtain ⟨s, e2, hc, h2⟩ := forUp_inv (lo := 2) (body := fun i (s : K × Arr K D) =>
      (rd s.2 i).bind fun ri => (wr s.2 i (ri * (s.1 * (i : K)))).bind fun r =>
        some (s.1 * (i : K), r))
    (fun c s => s.1 = ((c + 1).factorial : K) ∧
      ∀ j, coef s.2 j = if j < c + 2 then (j.factorial : K) * coef r1 j else coef r1 j)
    (D - 1) (1, r1)
    ⟨by simp, fun j => by
      by_cases hj : j < 2
      · rw [if_pos (by omega)]
        rcases (by omega : j = 0 ∨ j = 1) with rfl | rfl <;> simp
      · rw [if_neg (by omega)]⟩
    (fun c s hc ⟨hs1, hs2⟩ => by
      obtain ⟨r', e', h'⟩ := wr_coef s.2 (i := 2 + c)
        (coef s.2 (2 + c) * (s.1 * ((2 + c : ℕ) : K))) (by omega)
      refine ⟨(s.1 * ((2 + c : ℕ) : K), r'), ?_, ?_, fun j => ?_⟩
      · rw [rd_coef s.2 (show 2 + c ≤ D by omega), Option.bind_some, e']; rfl
      · show s.1 * _ = _
        rw [hs1, show c + 1 + 1 = (c + 1) + 1 from rfl, Nat.factorial_succ (c + 1)]
        push_cast; ring
      · show coef r' j = _
        rw [h']
        by_cases hj : j = 2 + c
        · subst hj
          rw [if_pos rfl, if_pos (by omega), hs2, if_neg (by omega), hs1,
            show 2 + c = (c + 1) + 1 by omega, Nat.factorial_succ (c + 1)]
          push_cast; ring
        · rw [if_neg hj, hs2]
          by_cases h3 : j < c + 2
          · rw [if_pos h3, if_pos (by omega)]
          · rw [if_neg h3, if_neg (by omega)])
  refine ⟨s.2, by rw [e2]; rfl, fun j hj => ?_⟩
  have : coef s.2 j = (j.factorial : K) * coef r1 j := by
    rw [h2]
    by_cases h3 : j < D - 1 + 2
    · rw [if_pos h3]
    · omega
  rw [this, h1 j hj, ← taylor_apply, taylor_coeff, ← factorial_smul_hasseDeriv]
  simp [eval_smul, nsmul_eq_mul]

theorem add_spec [CommRing K] (op : K → K → K) {n m : ℕ} (f : Arr K n) (g : Arr K m) :
    ∃ r, addOp op f g = some r ∧ ∀ i, i ≤ max m n → coef r i = op (coef f i) (coef g i) := by
  unfold addOp
  obtain ⟨r1, e1, h1⟩ := forUp_fill (m := max m n) (lo := 0) (s := 0) (cnt := min n m + 1)
    (body := fun i r => do let a ← rd f i; let b ← rd g i; wr r i (op a b))
    (fun i => op (coef f i) (coef g i))
    (fun i a _ hi => by
      simp [rd_coef f (show i ≤ n by omega), rd_coef g (show i ≤ m by omega)]) (by omega)
    (zeros (max m n))
  obtain ⟨r2, e2, h2⟩ := forUp_fill (m := max m n) (lo := min n m + 1) (s := 0) (cnt := n - min n m)
    (body := fun i r => do let a ← rd f i; wr r i (op a 0)) (fun i => op (coef f i) 0)
    (fun i a _ hi => by simp [rd_coef f (show i ≤ n by omega)]) (by omega) r1
  obtain ⟨r3, e3, h3⟩ := forUp_fill (m := max m n) (lo := min n m + 1) (s := 0) (cnt := m - min n m)
    (body := fun i r => do let b ← rd g i; wr r i (op 0 b)) (fun i => op 0 (coef g i))
    (fun i a _ hi => by simp [rd_coef g (show i ≤ m by omega)]) (by omega) r2
  refine ⟨r3, by rw [e1]; simp only [Option.bind_eq_bind, Option.bind_some]
                 simp only [Option.bind_eq_bind] at e2 e3; rw [e2, Option.bind_some, e3], ?_⟩
  intro i hi
  rw [h3, h2, h1]
  by_cases ha : i ≤ n
  · by_cases hb : i ≤ m
    · rw [if_neg (by omega), if_neg (by omega), if_pos (by omega), Nat.sub_zero]
    · rw [if_neg (by omega), if_pos (by omega), coef_gt g (by omega), Nat.sub_zero]
  · rw [if_pos (by omega), coef_gt f (by omega), Nat.sub_zero]

theorem mulPoly_spec [CommRing K] {m n : ℕ} (f : Arr K m) (g : Arr K n) :
    ∃ r, mulPoly f g = some r ∧ polyOf r = polyOf f * polyOf g := by
  unfold mulPoly
  obtain ⟨r, e, h⟩ := forUp_inv (lo := 0) (body := fun i r =>
      let lo := if i > n then i - n else 0
      forUp (fun j r => do
        let ri ← rd r i
        let a ← rd f j
        let b ← rd g (i - j)
        wr r i (ri + a * b)) lo (min i m + 1 - lo) r)
    (fun c (r : Arr K (m + n)) => ∀ j, coef r j = if j < c then (polyOf f * polyOf g).coeff j else 0)
    (n + m + 1) (zeros (m + n)) (fun j => by rw [if_neg (by omega), coef_zeros])
    (fun c r hc hI => by
      simp only [Nat.zero_add]
      set lo := if c > n then c - n else 0 with hlo
      have hlo' : lo = c - n := by rw [hlo]; split <;> omega
      obtain ⟨r', e', h'⟩ := forUp_inv (lo := lo) (body := fun j r => do
          let ri ← rd r c
          let a ← rd f j
          let b ← rd g (c - j)
          wr r c (ri + a * b))
        (fun k (r' : Arr K (m + n)) => ∀ j, coef r' j = if j = c then
          ∑ l ∈ Finset.range k, coef f (lo + l) * coef g (c - (lo + l)) else coef r j)
        (min c m + 1 - lo) r
        (fun j => by
          by_cases hj : j = c
          · subst hj; rw [if_pos rfl, hI, if_neg (by omega)]; simp
          · rw [if_neg hj])
        (fun k r' hk hI' => by
          obtain ⟨r2, e2, h2⟩ := wr_coef r' (i := c)
            (coef r' c + coef f (lo + k) * coef g (c - (lo + k))) (by omega)
          refine ⟨r2, ?_, fun j => ?_⟩
          · rw [rd_coef r' (show c ≤ m + n by omega), rd_coef f (show lo + k ≤ m by omega),
              rd_coef g (show c - (lo + k) ≤ n by omega)]
            exact e2
          · rw [h2]
            by_cases hj : j = c
            · rw [if_pos hj, if_pos hj, hI', if_pos rfl, Finset.sum_range_succ]
            · rw [if_neg hj, if_neg hj, hI', if_neg hj])
      refine ⟨r', e', fun j => ?_⟩
      rw [h']
      by_cases hj : j = c
      · subst hj
        rw [if_pos rfl, if_pos (by omega), coeff_mul, Finset.Nat.sum_antidiagonal_eq_sum_range_succ
          (fun a b => (polyOf f).coeff a * (polyOf g).coeff b)]
        simp only [polyOf_coeff]
        rw [← Finset.sum_Ico_eq_sum_range (fun a => coef f a * coef g (j - a)) lo (min j m + 1)]
        apply Finset.sum_subset
        · intro a ha
          rw [Finset.mem_Ico] at ha
          rw [Finset.mem_range]; omega
        · intro a ha hb
          rw [Finset.mem_range] at ha
          rw [Finset.mem_Ico] at hb
          by_cases h1 : m < a
          · rw [coef_gt f h1, zero_mul]
          · rw [coef_gt g (show n < j - a by omega), mul_zero]
      · rw [if_neg hj, hI]
        by_cases h1 : j < c
        · rw [if_pos h1, if_pos (by omega)]
        · rw [if_neg h1, if_neg (by omega)])
  refine ⟨r, e, polyOf_eq fun i => ?_⟩
  rw [h]
  split
  · rfl
  · rw [coeff_eq_zero_of_natDegree_lt]
    have := natDegree_mul_le (p := polyOf f) (q := polyOf g)
    have := polyOf_degree f
    have := polyOf_degree g
    omega

theorem divConst_spec [Field K] {m : ℕ} (f : Arr K m) (g : Arr K 0) :
    ∃ r, divConst f g = some r ∧ ∀ i, coef r i = coef f i / coef g 0 := by
  unfold divConst
  obtain ⟨r, e, h⟩ := forUp_inv (lo := 0) (body := fun i r => do
      let ri ← rd r i
      let a ← rd f i
      let b ← rd g 0
      wr r i (ri + a / b))
    (fun c (r : Arr K m) => ∀ j, coef r j = if j < c then coef f j / coef g 0 else 0)
    (m + 1) (zeros m) (fun j => by rw [if_neg (by omega), coef_zeros])
    (fun c r hc hI => by
      obtain ⟨r2, e2, h2⟩ := wr_coef r (i := c) (coef r c + coef f c / coef g 0) (by omega)
      refine ⟨r2, ?_, fun j => ?_⟩
      · rw [Nat.zero_add, rd_coef r (show c ≤ m by omega), rd_coef f (show c ≤ m by omega),
          rd_coef g (le_refl 0)]
        exact e2
      · rw [h2]
        by_cases hj : j = c
        · subst hj; rw [if_pos rfl, if_pos (by omega), hI, if_neg (by omega), zero_add]
        · rw [if_neg hj, hI]
          by_cases h1 : j < c
          · rw [if_pos h1, if_pos (by omega)]
          · rw [if_neg h1, if_neg (by omega)])
  refine ⟨r, e, fun i => ?_⟩
  rw [h]
  split
  · rfl
  · rw [coef_gt f (by omega), zero_div]

theorem mulVar_spec [CommRing K] {n : ℕ} (f : Arr K n) :
    ∃ r, mulVar f = some r ∧ polyOf r = X * polyOf f := by
  unfold mulVar
  obtain ⟨r0, e0, h0⟩ := wr_coef (zeros (n + 1) : Arr K (n + 1)) (i := 0) 0 (by omega)
  simp only [e0, Option.bind_eq_bind, Option.bind_some]
  obtain ⟨r, e, h⟩ := forUp_fill (m := n + 1) (lo := 0) (s := 1) (cnt := n + 1)
    (body := fun i r => (rd f i).bind fun c => wr r (1 + i) c) (coef f)
    (fun i a _ hi => by simp [rd_coef f (show i ≤ n by omega)]) (by omega) r0
  refine ⟨r, e, polyOf_eq fun i => ?_⟩
  rw [h]
  cases i with
  | zero => rw [if_neg (by omega), h0, if_pos rfl]; simp
  | succ i =>
    rw [coeff_X_mul, polyOf_coeff]
    by_cases hi : i < n + 1
    · rw [if_pos (by omega), Nat.add_sub_cancel]
    · rw [if_neg (by omega), h0, if_neg (by omega), coef_zeros, coef_gt f (by omega)]

theorem varPow_spec [CommRing K] (p : ℕ) :
    ∃ r, (varPow p : Option (Arr K p)) = some r ∧ polyOf r = X ^ p := by
  unfold varPow
  obtain ⟨r0, e0, h0⟩ := wr_coef (zeros p : Arr K p) (i := p) 1 (le_refl _)
  refine ⟨r0, e0, polyOf_eq fun i => ?_⟩
  rw [h0, coeff_X_pow, coef_zeros]

theorem derivArr_spec [CommRing K] {n : ℕ} (f : Arr K (n + 1)) :
    ∃ r, derivArr f = some r ∧ polyOf r = derivative (polyOf f) := by
  unfold derivArr
  obtain ⟨r, e, h⟩ := forUp_fill (m := n) (lo := 0) (s := 0) (cnt := n + 1)
    (body := fun i r => do let c ← rd f (i + 1); wr r i (c * ((i : K) + 1)))
    (fun i => coef f (i + 1) * ((i : K) + 1))
    (fun i a _ hi => by simp [rd_coef f (show i + 1 ≤ n + 1 by omega)]) (by omega) (zeros n)
  refine ⟨r, e, polyOf_eq fun i => ?_⟩
  rw [h, coeff_derivative, polyOf_coeff]
  split
  · rfl
  · rw [coef_zeros, coef_gt f (by omega), zero_mul]

theorem reflect_spec [CommRing K] {n : ℕ} (f : Arr K n) :
    ∃ r, reflect f = some r ∧ polyOf r = (polyOf f).comp (-X) := by
  unfold reflect
  obtain ⟨r, e, h⟩ := forUp_inv (lo := 0)
    (body := fun c g => do let v ← rd g (1 + 2 * c); wr g (1 + 2 * c) (-v))
    (fun c (r : Arr K n) => ∀ j, coef r j = if j % 2 = 1 ∧ j < 2 * c then -coef f j else coef f j)
    ((n + 1) / 2) f (fun j => by rw [if_neg (by omega)])
    (fun c r hc hI => by
      obtain ⟨r2, e2, h2⟩ := wr_coef r (i := 1 + 2 * c) (-coef r (1 + 2 * c)) (by omega)
      refine ⟨r2, ?_, fun j => ?_⟩
      · rw [Nat.zero_add, rd_coef r (show 1 + 2 * c ≤ n by omega)]; exact e2
      · rw [h2]
        by_cases hj : j = 1 + 2 * c
        · subst hj; rw [if_pos rfl, if_pos (by omega), hI, if_neg (by omega)]
        · rw [if_neg hj, hI]
          by_cases h1 : j % 2 = 1 ∧ j < 2 * c
          · rw [if_pos h1, if_pos (by omega)]
          · rw [if_neg h1, if_neg (by omega)])
  refine ⟨r, e, polyOf_eq fun i => ?_⟩
  rw [h, show (-X : K[X]) = C (-1) * X by simp, comp_C_mul_X_coeff, polyOf_coeff]
  by_cases hi : i % 2 = 1
  · rw [(Nat.odd_iff.2 hi).neg_one_pow]
    by_cases h1 : i < 2 * ((n + 1) / 2)
    · rw [if_pos ⟨hi, h1⟩]; ring
    · rw [if_neg (by omega), coef_gt f (by omega)]; ring
  · rw [if_neg (by omega), (Nat.even_iff.2 (by omega)).neg_one_pow, mul_one]

theorem scale_spec [CommRing K] {n : ℕ} (f : Arr K n) (a : K) :
    ∃ r, scale f a = some r ∧ polyOf r = (polyOf f).comp (C a * X) := by
  unfold scale
  obtain ⟨s, e, h1, h2⟩ := forUp_inv (lo := 1) (body := fun i (s : K × Arr K n) => do
      let factor := s.1 * a
      let v ← rd s.2 i
      let g ← wr s.2 i (v * factor)
      some (factor, g))
    (fun c s => s.1 = a ^ c ∧ ∀ j, coef s.2 j = if j ≤ c then coef f j * a ^ j else coef f j)
    n (1, f)
    ⟨by simp, fun j => by
      by_cases hj : j ≤ 0
      · obtain rfl : j = 0 := by omega
        simp
      · rw [if_neg hj]⟩
    (fun c s hc ⟨hs1, hs2⟩ => by
      obtain ⟨r2, e2, h2⟩ := wr_coef s.2 (i := 1 + c) (coef s.2 (1 + c) * (s.1 * a)) (by omega)
      refine ⟨(s.1 * a, r2), ?_, ?_, fun j => ?_⟩
      · rw [rd_coef s.2 (show 1 + c ≤ n by omega)]
        simp only [Option.bind_eq_bind, Option.bind_some]
        rw [e2]; rfl
      · show s.1 * a = _
        rw [hs1, pow_succ]
      · show coef r2 j = _
        rw [h2]
        by_cases hj : j = 1 + c
        · subst hj
          rw [if_pos rfl, if_pos (by omega), hs2, if_neg (by omega), hs1, Nat.add_comm 1 c, pow_succ]
        · rw [if_neg hj, hs2]
          by_cases h3 : j ≤ c
          · rw [if_pos h3, if_pos (by omega)]
          · rw [if_neg h3, if_neg (by omega)])
  refine ⟨s.2, by rw [e]; rfl, polyOf_eq fun i => ?_⟩
  rw [h2, comp_C_mul_X_coeff, polyOf_coeff]
  split
  · rfl
  · rw [coef_gt f (by omega), zero_mul]

theorem deflateZero_spec [CommRing K] {n : ℕ} (a : Arr K (n + 1)) (h0 : coef a 0 = 0) :
    ∃ b, deflateZero a = some b ∧ polyOf a = X * polyOf b := by
  unfold deflateZero
  obtain ⟨b, e, h⟩ := forUp_fill (m := n) (lo := 0) (s := 0) (cnt := n + 1)
    (body := fun i b => do let c ← rd a (1 + i); wr b i c) (fun i => coef a (1 + i))
    (fun i b _ hi => by simp [rd_coef a (show 1 + i ≤ n + 1 by omega)]) (by omega) (zeros n)
  refine ⟨b, e, polyOf_eq fun i => ?_⟩
  cases i with
  | zero => rw [h0]; simp
  | succ i =>
    rw [coeff_X_mul, polyOf_coeff, h]
    by_cases hi : i < n + 1
    · rw [if_pos (by omega), Nat.sub_zero, Nat.add_comm i 1]
    · rw [if_neg (by omega), coef_zeros, coef_gt a (by omega)]

/-! ### Deflation -/

theorem deflateLoop_spec [Field K] {S : ℕ} (sp : K → K → ℕ) {n : ℕ} (hn : n < S) (a : Arr K (n + 1))
    (root : K) (hr : root ≠ 0) (β : ℕ → K)
    (hmid : ∀ i, i < n → coef a (i + 1) = β i - root * β (i + 1)) :
    ∀ (fuel it ib : ℕ) (b : Arr K n), it + 1 ≤ fuel + ib → 0 < ib → ib ≤ it + 1 → it < n →
      (∀ j, j ≤ n → j < ib ∨ it < j → coef b j = β j) →
      ∃ b', deflateLoop S sp a root fuel it ib b = some b' ∧ ∀ j, j ≤ n → coef b' j = β j
  | 0, it, ib, b, h1, h2, h3, h4, hI => by
    rw [deflateLoop, if_neg (by omega)]
    exact ⟨b, rfl, fun j hj => hI j hj (by omega)⟩
  | fuel + 1, it, ib, b, h1, h2, h3, h4, hI => by
    rw [deflateLoop]
    by_cases hlt : it ≥ ib
    · rw [if_pos hlt, Nat.mod_eq_of_lt (show it + 1 < S by omega),
        rd_coef b (show it + 1 ≤ n by omega), rd_coef b (show ib ≤ n by omega),
        rd_coef a (show ib ≤ n + 1 by omega), rd_coef a (show it + 1 ≤ n + 1 by omega)]
      simp only [Option.bind_eq_bind, Option.bind_some]
      split
      · rw [rd_coef b (show ib - 1 ≤ n by omega), Option.bind_some]
        obtain ⟨b2, e2, hb2⟩ := wr_coef b (i := ib)
          ((coef b (ib - 1) - coef a ib) / root) (by omega)
        rw [e2, Option.bind_some]
        refine deflateLoop_spec sp hn a root hr β hmid fuel it (ib + 1) b2 (by omega) (by omega)
          (by omega) h4 (fun j hj hjj => ?_)
        rw [hb2]
        by_cases hji : j = ib
        · subst hji
          rw [if_pos rfl, hI _ (by omega) (by omega)]
          have := hmid (j - 1) (by omega)
          rw [show j - 1 + 1 = j by omega] at this
          rw [this]; field_simp; ring
        · rw [if_neg hji]; exact hI j hj (by omega)
      · obtain ⟨b2, e2, hb2⟩ := wr_coef b (i := it)
          (coef a (it + 1) + root * coef b (it + 1)) (by omega)
        rw [e2, Option.bind_some]
        refine deflateLoop_spec sp hn a root hr β hmid fuel (it - 1) ib b2 (by omega) (by omega)
          (by omega) (by omega) (fun j hj hjj => ?_)
        rw [hb2]
        by_cases hji : j = it
        · subst hji
          rw [if_pos rfl, hI _ (by omega) (by omega), hmid j (by omega)]; ring
        · rw [if_neg hji]; exact hI j hj (by omega)
    · rw [if_neg hlt]
      exact ⟨b, rfl, fun j hj => hI j hj (by omega)⟩

theorem deflate_spec [Field K] [DecidableEq K] {S : ℕ} (sp : K → K → ℕ) {n : ℕ} (hn : n < S)
    (a : Arr K (n + 1)) (root : K) (hroot : (polyOf a).eval root = 0) (hok : root = 0 ∨ 0 < n) :
    ∃ b, deflate S sp a root = some b ∧ polyOf a = (X - C root) * polyOf b := by
  unfold deflate
  by_cases hz : root = 0
  · subst hz
    rw [if_pos rfl]
    have h0 : coef a 0 = 0 := by
      rw [← polyOf_coeff, coeff_zero_eq_eval_zero, hroot]
    obtain ⟨b, e, h⟩ := deflateZero_spec a h0
    exact ⟨b, e, by rw [h]; simp⟩
  · rw [if_neg hz]
    have hn0 : 0 < n := by rcases hok with h | h; exact absurd h hz; exact h
    obtain ⟨q, hq⟩ := dvd_iff_isRoot.2 (show (polyOf a).IsRoot root from hroot)
    have c0 : coef a 0 = -root * q.coeff 0 := by
      rw [← polyOf_coeff, hq, sub_mul, coeff_sub, coeff_C_mul]; simp
    have cs : ∀ i, coef a (i + 1) = q.coeff i - root * q.coeff (i + 1) := by
      intro i
      rw [← polyOf_coeff, hq, sub_mul, coeff_sub, coeff_C_mul, coeff_X_mul]
    have hdeg : q.natDegree ≤ n := by
      by_cases hq0 : q = 0
      · simp [hq0]
      · have := polyOf_degree a
        rw [hq, natDegree_mul (X_sub_C_ne_zero root) hq0, natDegree_X_sub_C] at this
        omega
    have ctop : coef a (n + 1) = q.coeff n := by
      rw [cs n, coeff_eq_zero_of_natDegree_lt (show q.natDegree < n + 1 by omega)]; ring
    rw [rd_coef a (le_refl (n + 1)), rd_coef a (Nat.zero_le (n + 1))]
    simp only [Option.bind_eq_bind, Option.bind_some]
    obtain ⟨b1, e1, h1⟩ := wr_coef (zeros n : Arr K n) (i := n) (coef a (n + 1)) (le_refl _)
    obtain ⟨b2, e2, h2⟩ := wr_coef b1 (i := 0) (-coef a 0 / root) (by omega)
    have hmod : (n + S - 1) % S = n - 1 := by
      rw [show n + S - 1 = (n - 1) + S by omega, Nat.add_mod_right,
        Nat.mod_eq_of_lt (by omega)]
    rw [e1, Option.bind_some, e2, Option.bind_some, hmod]
    obtain ⟨b', e', h'⟩ := deflateLoop_spec sp hn a root hz q.coeff (fun i _ => cs i) (n + 1) (n - 1) 1
      b2 (by omega) (by omega) (by omega) (by omega) (fun j hj hjj => by
        rw [h2]
        by_cases hj0 : j = 0
        · subst hj0
          rw [if_pos rfl, c0]; field_simp
        · rw [if_neg hj0, h1, if_pos (by omega), ctop]
          congr 1; omega)
    refine ⟨b', e', ?_⟩
    rw [hq]
    congr 1
    exact (polyOf_eq_le hdeg h').symm

/-- For order 1 and a root other than 0 the loop reads outside of the array. -/
theorem deflate_order1 [Field K] [DecidableEq K] {S : ℕ} (hS : 1 < S) (sp : K → K → ℕ) (a : Arr K 1) (root : K)
    (h : root ≠ 0) : deflate S sp a root = none := by
  unfold deflate
  rw [if_neg h, rd_coef a (le_refl 1), rd_coef a (Nat.zero_le 1)]
  simp only [Option.bind_eq_bind, Option.bind_some]
  obtain ⟨b1, e1, h1⟩ := wr_coef (zeros 0 : Arr K 0) (i := 0) (coef a 1) (le_refl _)
  obtain ⟨b2, e2, h2⟩ := wr_coef b1 (i := 0) (-coef a 0 / root) (by omega)
  rw [e1, Option.bind_some, e2, Option.bind_some, deflateLoop, if_pos (by rw [Nat.mod_eq_of_lt (by omega)]; omega)]
  have h3 : rd b2 1 = none := rfl
  have h4 : (0 + S - 1) % S + 1 = S := by
    rw [Nat.mod_eq_of_lt (by omega)]; omega
  rw [h4, Nat.mod_self, rd_coef b2 (le_refl 0), h3]
  rfl

/-! ### Euclidean division -/

theorem longDivision_spec [Field K] {n1 n2 : ℕ} (f : Arr K n1) (g : Arr K n2) (hn : n2 ≤ n1)
    (hg : coef g n2 ≠ 0) :
    ∃ s, longDivision f g = some s ∧ polyOf f = polyOf s.1 * polyOf g + polyOf s.2 ∧
      ∀ i, n2 ≤ i → coef s.2 i = 0 := by
  unfold longDivision
  obtain ⟨s, e, h1, h2, h3⟩ := forDown_inv (body := fun c (s : Arr K n1 × Arr K n1) => do
      let k := c - 1 + n2
      let rk ← rd s.2 k
      let gl ← rd g n2
      let q ← wr s.1 (k - n2) (rk / gl)
      let r ← forUp (fun j r => do
        let rv ← rd r (k + j - n2)
        let qv ← rd q (k - n2)
        let gv ← rd g j
        wr r (k + j - n2) (rv - qv * gv)) 0 (n2 + 1) s.2
      some (q, r))
    (fun c s => polyOf f = polyOf s.1 * polyOf g + polyOf s.2 ∧ (∀ i, n2 + c ≤ i → coef s.2 i = 0) ∧
      ∀ i, i < c → coef s.1 i = 0)
    (n1 + 1 - n2) (zeros n1, f)
    ⟨by rw [polyOf_zeros]; ring, fun i hi => coef_gt f (by omega), fun i _ => coef_zeros _ _⟩
    (fun c s hc ⟨hs, hs2, hs3⟩ => by
      simp only [Nat.add_sub_cancel]
      rw [rd_coef s.2 (show c + n2 ≤ n1 by omega), rd_coef g (le_refl n2)]
      simp only [Option.bind_eq_bind, Option.bind_some]
      obtain ⟨q, eq, hq⟩ := wr_coef s.1 (i := c) (coef s.2 (c + n2) / coef g n2) (by omega)
      rw [eq, Option.bind_some]
      have hqc : coef q c = coef s.2 (c + n2) / coef g n2 := by rw [hq, if_pos rfl]
      obtain ⟨r, er, hr⟩ := forUp_inv (lo := 0) (body := fun j (r : Arr K n1) =>
          (rd r (c + n2 + j - n2)).bind fun rv => (rd q c).bind fun qv => (rd g j).bind fun gv =>
            wr r (c + n2 + j - n2) (rv - qv * gv))
        (fun k r => ∀ i, coef r i =
          if c ≤ i ∧ i < c + k then coef s.2 i - coef q c * coef g (i - c) else coef s.2 i)
        (n2 + 1) s.2 (fun i => by rw [if_neg (by omega)])
        (fun k r hk hI => by
          obtain ⟨r', e', h'⟩ := wr_coef r (i := c + k)
            (coef r (c + k) - coef q c * coef g k) (by omega)
          refine ⟨r', ?_, fun i => ?_⟩
          · rw [Nat.zero_add, show c + n2 + k - n2 = c + k by omega,
              rd_coef r (show c + k ≤ n1 by omega), rd_coef q (show c ≤ n1 by omega),
              rd_coef g (show k ≤ n2 by omega)]
            exact e'
          · rw [h']
            by_cases hi : i = c + k
            · subst hi
              rw [if_pos rfl, if_pos (by omega), hI, if_neg (by omega), Nat.add_sub_cancel_left]
            · rw [if_neg hi, hI]
              by_cases h1 : c ≤ i ∧ i < c + k
              · rw [if_pos h1, if_pos (by omega)]
              · rw [if_neg h1, if_neg (by omega)])
      refine ⟨(q, r), by rw [er]; rfl, ?_, ?_, ?_⟩
      · show polyOf f = polyOf q * polyOf g + polyOf r
        have hpq : polyOf q = polyOf s.1 + C (coef q c) * X ^ c := polyOf_eq fun i => by
          rw [coeff_add, coeff_C_mul, coeff_X_pow, polyOf_coeff, hq]
          by_cases hi : i = c
          · rw [if_pos hi, if_pos hi, hi, hs3 c (by omega), hqc]; ring
          · rw [if_neg hi, if_neg hi]; ring
        have hpr : polyOf r = polyOf s.2 - C (coef q c) * X ^ c * polyOf g := polyOf_eq fun i => by
          rw [coeff_sub, mul_assoc, coeff_C_mul, coeff_X_pow_mul', polyOf_coeff, hr]
          by_cases hi : c ≤ i
          · rw [if_pos hi, polyOf_coeff]
            by_cases h2 : i < c + (n2 + 1)
            · rw [if_pos ⟨hi, h2⟩]
            · rw [if_neg (by omega), coef_gt g (show n2 < i - c by omega)]; ring
          · rw [if_neg (by omega), if_neg hi]; ring
        rw [hs, hpq, hpr]; ring
      · intro i hi
        show coef r i = 0
        rw [hr]
        by_cases h1 : i = n2 + c
        · rw [if_pos (by omega), hqc, h1, show n2 + c - c = n2 by omega, Nat.add_comm n2 c]
          field_simp; ring
        · rw [if_neg (by omega), hs2 i (by omega)]
      · intro i hi
        show coef q i = 0
        rw [hq, if_neg (by omega), hs3 i (by omega)])
  exact ⟨s, e, h1, fun i hi => h2 i (by omega)⟩

theorem degree_eq_top [Field K] {n : ℕ} (g : Arr K n) (h : coef g n ≠ 0) :
    (polyOf g).degree = n := by
  apply le_antisymm
  · exact (degree_le_natDegree).trans (by exact_mod_cast polyOf_degree g)
  · exact le_degree_of_ne_zero (by rw [polyOf_coeff]; exact h)

theorem divide_spec [Field K] [DecidableEq K] (inf : K) {n1 : ℕ} (f : Arr K n1) :
    ∀ (n2 : ℕ) (g : Arr K n2), n2 ≤ n1 → polyOf g ≠ 0 →
      ∃ q r, divide inf f n2 g = some (q, r) ∧ polyOf f = polyOf q * polyOf g + polyOf r ∧
        (polyOf r).degree < (polyOf g).degree
  | 0, g, _, hg => by
    rw [divide, divideConst, rd_coef g (le_refl 0)]
    simp only [Option.bind_eq_bind, Option.bind_some]
    have hg0 : coef g 0 ≠ 0 := by
      intro h; apply hg; rw [polyOf_zero_order, h, C_0]
    rw [if_neg hg0]
    obtain ⟨q, e, hq⟩ := mulPoly_spec f (fun _ => 1 / coef g 0 : Arr K 0)
    refine ⟨q, zeros 0, by rw [e]; rfl, ?_, ?_⟩
    · rw [hq, polyOf_zero_order g, polyOf_zero_order, polyOf_zeros]
      have : coef (fun _ => 1 / coef g 0 : Arr K 0) 0 = 1 / coef g 0 := rfl
      rw [this, mul_assoc, ← C_mul, one_div, inv_mul_cancel₀ hg0]; simp
    · rw [polyOf_zeros, degree_zero]; exact bot_lt_iff_ne_bot.2 (by rwa [Ne, degree_eq_bot])
  | n2 + 1, g, hn, hg => by
    rw [divide, rd_coef g (le_refl (n2 + 1))]
    simp only [Option.bind_eq_bind, Option.bind_some]
    by_cases h0 : coef g (n2 + 1) = 0
    · rw [if_pos h0]
      obtain ⟨g', eg, hg'⟩ := changeOrder_poly n2 g (fun i hi => by
        by_cases h : i = n2 + 1
        · rw [h]; exact h0
        · exact coef_gt g (by omega))
      rw [eg, Option.bind_some]
      obtain ⟨q, r, e, h1, h2⟩ := divide_spec inf f n2 g' (by omega) (by rwa [hg'])
      rw [e, Option.bind_some]
      obtain ⟨r', er, hr'⟩ := promote_spec (m := n2) r (by omega)
      exact ⟨q, r', by simp only; rw [er]; rfl, by rw [h1, hg', hr'], by rw [hr', ← hg']; exact h2⟩
    · rw [if_neg h0]
      obtain ⟨s, e, h1, h2⟩ := longDivision_spec f g hn h0
      rw [e, Option.bind_some]
      obtain ⟨r', er, hr'⟩ := changeOrder_poly n2 s.2 (fun i hi => h2 i (by omega))
      refine ⟨s.1, r', by rw [er]; rfl, by rw [hr']; exact h1, ?_⟩
      rw [degree_eq_top g h0, degree_lt_iff_coeff_zero]
      intro i hi
      rw [hr', polyOf_coeff, h2 i hi]

end Stator.Pol
