import Verif.Fp.Format
import Verif.Rt.Reparse
import Mathlib.Data.List.DropRight
import Mathlib.Data.List.TakeWhile

/-!
# Printed numbers

The text of a floating-point number (`printf` with `%.*g`), the value of a numeric literal, and when reading a printed
number gives the number back. The conversions of the C library are modelled as ISO C and IEEE 754 describe them: both
round the exact value to nearest.
-/

namespace Stator.Fp

/-! ## The text of a number -/

/-- The number of digits asked for by `Rounding_digits<r>`. A negative precision counts as omitted, which means 6, and `%g`
takes 0 as 1. models: repr.hpp:60 (`std::numeric_limits<double>::max_digits10` is 17) -/
def precision (r : ℤ) : ℕ := if 17 - r < 0 then 6 else if 17 - r = 0 then 1 else (17 - r).toNat

/-- The `P` significant digits of a positive number, as an integer, and the decimal exponent of the first of them; `rd`
rounds to a nearest integer. models: repr.hpp:60 (the style `e` conversion of ISO C) -/
noncomputable def sig (rd : ℝ → ℤ) (P : ℕ) (x : ℝ) : ℕ × ℤ :=
  let e := Int.log 10 x
  let m := (rd (x / (10 : ℝ) ^ (e - P + 1))).toNat
  if m = 10 ^ P then (10 ^ (P - 1), e + 1) else (m, e)

/-- Integer part, point and fraction without trailing zeros; no point if nothing is left. models: repr.hpp:60 -/
def withPoint (ip fp : List Char) : List Char :=
  if fp.rdropWhile (· == '0') = [] then ip else ip ++ '.' :: fp.rdropWhile (· == '0')

/-- Sign and at least two digits of the exponent. models: repr.hpp:60 -/
def expText (e : ℤ) : List Char :=
  (if e < 0 then '-' else '+') :: (if e.natAbs < 10 then '0' :: Nat.toDigits 10 e.natAbs else Nat.toDigits 10 e.natAbs)

/-- `%g` for `P` digits `m` with exponent `e`. models: repr.hpp:60 -/
def fmtG (P m : ℕ) (e : ℤ) : List Char :=
  let D := Nat.toDigits 10 m
  if e < -4 ∨ P ≤ e then withPoint (D.take 1) (D.drop 1) ++ 'e' :: expText e
  else if 0 ≤ e then withPoint (D.take (e.toNat + 1)) (D.drop (e.toNat + 1))
  else withPoint ['0'] (List.replicate (-e - 1).toNat '0' ++ D)

/-- The text of a finite number. The sign of a zero is not modelled. models: repr.hpp:56-60, 74 -/
noncomputable def showG (rd : ℝ → ℤ) (P : ℕ) (x : ℝ) : List Char :=
  if x = 0 then ['0']
  else if x < 0 then '-' :: fmtG P (sig rd P (-x)).1 (sig rd P (-x)).2
  else fmtG P (sig rd P x).1 (sig rd P x).2

/-! ## Specification: the number a literal stands for -/

/-- The number written by the digits. -/
def digitsVal (ds : List Char) : ℕ := Nat.ofDigitChars 10 ds 0

/-- Digits after a point, and the rest. -/
def fracOf : List Char → List Char × List Char
  | [] => ([], [])
  | c :: r => if c = '.' then (r.takeWhile isDigit, r.dropWhile isDigit) else ([], c :: r)

/-- The exponent after an `e`. -/
def expOf : List Char → ℤ
  | [] => 0
  | _ :: r =>
    match r with
    | [] => 0
    | s :: ds => if s = '-' then -digitsVal ds else if s = '+' then digitsVal ds else digitsVal (s :: ds)

/-- The value of `digits [. digits] [e [sign] digits]`. -/
noncomputable def litVal (s : List Char) : ℝ :=
  let ip := s.takeWhile isDigit
  let fr := fracOf (s.dropWhile isDigit)
  digitsVal (ip ++ fr.1) * (10 : ℝ) ^ (expOf fr.2 - fr.1.length)

/-- Numbers of the format `φ` as the parser reads them: the literal, rounded. models: parser.hpp:494-499 -/
noncomputable def numLex (φ : Format) : NumLex ℝ := ⟨fun s => φ.rnd (litVal s), fun x => -x⟩

/-- Rounding to a nearest integer, with any rule for ties. -/
def Nearest (rd : ℝ → ℤ) : Prop := ∀ x, |(rd x : ℝ) - x| ≤ 1 / 2

/-! ## Literals -/

theorem litVal_int {ip : List Char} (hi : Digits ip) : litVal ip = digitsVal ip := by
  have h1 : ip.takeWhile isDigit = ip := List.takeWhile_eq_self_iff.2 hi
  have h2 : ip.dropWhile isDigit = [] := List.dropWhile_eq_nil_iff.2 hi
  simp [litVal, h1, h2, fracOf, expOf]

theorem span_digits {ip r : List Char} (hi : Digits ip) (hr : ∀ c, r.head? = some c → isDigit c = false) :
    (ip ++ r).takeWhile isDigit = ip ∧ (ip ++ r).dropWhile isDigit = r := by
  constructor
  · rw [List.takeWhile_append_of_pos hi]
    cases r with
    | nil => simp
    | cons c r => rw [List.takeWhile_cons_of_neg (by simp [hr c rfl])]; simp
  · rw [List.dropWhile_append_of_pos hi]
    cases r with
    | nil => simp
    | cons c r => rw [List.dropWhile_cons_of_neg (by simp [hr c rfl])]

/-- A tail of a literal: nothing, or an exponent. -/
def ExpTail (r : List Char) : Prop := r = [] ∨ ∃ r', r = 'e' :: r'

theorem ExpTail.head {r : List Char} (h : ExpTail r) : ∀ c, r.head? = some c → isDigit c = false := by
  intro c hc
  rcases h with rfl | ⟨r', rfl⟩
  · simp at hc
  · simp at hc; subst hc; decide

theorem litVal_noPoint {ip r : List Char} (hi : Digits ip) (hr : ExpTail r) :
    litVal (ip ++ r) = digitsVal ip * (10 : ℝ) ^ expOf r := by
  obtain ⟨h1, h2⟩ := span_digits hi hr.head
  have h3 : fracOf r = ([], r) := by
    rcases hr with rfl | ⟨r', rfl⟩ <;> simp [fracOf]
  simp [litVal, h1, h2, h3]

theorem litVal_point {ip fp r : List Char} (hi : Digits ip) (hf : Digits fp) (hr : ExpTail r) :
    litVal (ip ++ '.' :: (fp ++ r)) = digitsVal (ip ++ fp) * (10 : ℝ) ^ (expOf r - fp.length) := by
  obtain ⟨h1, h2⟩ := span_digits (r := '.' :: (fp ++ r)) hi (by intro c hc; simp at hc; subst hc; decide)
  obtain ⟨h3, h4⟩ := span_digits hf hr.head
  simp [litVal, h1, h2, fracOf, h3, h4]

/-! ## The value of the text -/

theorem rdrop_spec (fp : List Char) :
    fp = fp.rdropWhile (· == '0') ++ List.replicate (fp.length - (fp.rdropWhile (· == '0')).length) '0' := by
  induction fp using List.reverseRecOn with
  | nil => simp
  | append_singleton l a ih =>
    rw [List.rdropWhile_concat]
    by_cases h : a = '0'
    · subst h
      simp only [beq_self_eq_true, if_true]
      have hle : (l.rdropWhile (· == '0')).length ≤ l.length := (List.rdropWhile_prefix _ l).length_le
      rw [List.length_append, List.length_singleton, Nat.sub_add_comm hle, List.replicate_succ', ← List.append_assoc, ← ih]
    · simp [h]

theorem digitsVal_append (a b : List Char) : digitsVal (a ++ b) = digitsVal a * 10 ^ b.length + digitsVal b := by
  unfold digitsVal
  rw [Nat.ofDigitChars_append, Nat.ofDigitChars_eq_ofDigitChars_zero, mul_comm]

theorem digitsVal_zeros (n : ℕ) : digitsVal (List.replicate n '0') = 0 := by
  unfold digitsVal; rw [Nat.ofDigitChars_replicate_zero, mul_zero]

theorem digitsVal_toDigits (n : ℕ) : digitsVal (Nat.toDigits 10 n) = n := Nat.ofDigitChars_ten_toDigits

theorem digits_toDigits (n : ℕ) : Digits (Nat.toDigits 10 n) := by
  intro c hc
  have := Nat.isDigit_of_mem_toDigits (by norm_num) (by norm_num) hc
  simpa [isDigit, Char.isDigit, Char.le_def] using this

theorem digits_append {a b : List Char} (ha : Digits a) (hb : Digits b) : Digits (a ++ b) := by
  intro c hc
  rcases List.mem_append.1 hc with h | h
  · exact ha c h
  · exact hb c h

theorem digits_zeros (n : ℕ) : Digits (List.replicate n '0') := by
  intro c hc
  rw [List.eq_of_mem_replicate hc]; decide

theorem withPoint_val {ip fp r : List Char} (hi : Digits ip) (hf : Digits fp) (hr : ExpTail r) :
    litVal (withPoint ip fp ++ r) = digitsVal (ip ++ fp) * (10 : ℝ) ^ (expOf r - fp.length) := by
  have hs := rdrop_spec fp
  have hle : (fp.rdropWhile (· == '0')).length ≤ fp.length := (List.rdropWhile_prefix _ fp).length_le
  have hd : Digits (fp.rdropWhile (· == '0')) := fun c hc => hf c ((List.rdropWhile_prefix _ fp).subset hc)
  unfold withPoint
  generalize fp.rdropWhile (· == '0') = g at *
  have key : (digitsVal (ip ++ fp) : ℝ) * (10 : ℝ) ^ (expOf r - fp.length)
      = digitsVal (ip ++ g) * (10 : ℝ) ^ (expOf r - g.length) := by
    obtain ⟨k, hk⟩ : ∃ k, fp.length = g.length + k := ⟨fp.length - g.length, by omega⟩
    rw [hk, Nat.add_sub_cancel_left] at hs
    have : digitsVal (ip ++ fp) = digitsVal (ip ++ g) * 10 ^ k := by
      rw [hs, ← List.append_assoc, digitsVal_append, digitsVal_zeros, List.length_replicate, add_zero]
    rw [this, hk, show expOf r - (g.length : ℤ) = (k : ℤ) + (expOf r - ((g.length + k : ℕ) : ℤ)) by push_cast; ring,
      zpow_add₀ (by norm_num) (k : ℤ), zpow_natCast]
    push_cast
    ring
  rw [key]
  split
  · rename_i h
    subst h
    rw [litVal_noPoint hi hr]
    simp
  · rw [List.append_assoc, List.cons_append, litVal_point hi hd hr]

theorem withPoint_lit {ip fp r : List Char} (hi : Digits ip) (hn : ip ≠ []) (hf : Digits fp) (hr : IsExp r) :
    IsLit (withPoint ip fp ++ r) := by
  have hd : Digits (fp.rdropWhile (· == '0')) := fun c hc => hf c ((List.rdropWhile_prefix _ fp).subset hc)
  unfold withPoint
  split
  · exact ⟨ip, [], r, by simp, hn, hi, .inl rfl, hr⟩
  · exact ⟨ip, _, r, rfl, hn, hi, .inr ⟨_, rfl, hd⟩, hr⟩

theorem expText_digits (n : ℕ) : Digits (if n < 10 then '0' :: Nat.toDigits 10 n else Nat.toDigits 10 n) ∧
    (if n < 10 then '0' :: Nat.toDigits 10 n else Nat.toDigits 10 n) ≠ [] ∧
    digitsVal (if n < 10 then '0' :: Nat.toDigits 10 n else Nat.toDigits 10 n) = n := by
  split
  · refine ⟨digits_cons.2 ⟨by decide, digits_toDigits n⟩, by simp, ?_⟩
    have := digitsVal_append ['0'] (Nat.toDigits 10 n)
    rw [List.singleton_append, digitsVal_toDigits] at this
    rw [this, show digitsVal ['0'] = 0 by decide]
    simp
  · exact ⟨digits_toDigits n, Nat.toDigits_ne_nil, digitsVal_toDigits n⟩

theorem expText_exp (e : ℤ) : expOf ('e' :: expText e) = e ∧ IsExp ('e' :: expText e) := by
  obtain ⟨h1, h2, h3⟩ := expText_digits e.natAbs
  unfold expText
  generalize (if e.natAbs < 10 then '0' :: Nat.toDigits 10 e.natAbs else Nat.toDigits 10 e.natAbs) = ds at *
  by_cases h : e < 0
  · rw [if_pos h]
    refine ⟨?_, .inr ⟨'e', ['-'], ds, rfl, .inl rfl, .inr (.inr rfl), h2, h1⟩⟩
    simp only [expOf, if_true, h3]
    omega
  · rw [if_neg h]
    refine ⟨?_, .inr ⟨'e', ['+'], ds, rfl, .inl rfl, .inr (.inl rfl), h2, h1⟩⟩
    simp only [expOf, h3]
    rw [if_neg (by decide), if_pos trivial]
    omega

theorem length_toDigits {P m : ℕ} (hP : 0 < P) (h1 : 10 ^ (P - 1) ≤ m) (h2 : m < 10 ^ P) :
    (Nat.toDigits 10 m).length = P := by
  have h3 := (Nat.length_toDigits_le_iff (b := 10) (n := m) (k := P) (by norm_num) hP).2 h2
  by_cases hp : P = 1
  · subst hp
    have := List.length_pos_iff.2 (Nat.toDigits_ne_nil (n := m) (b := 10))
    omega
  · have h4 := (Nat.length_toDigits_le_iff (b := 10) (n := m) (k := P - 1) (by norm_num) (by omega)).not.2 (by omega)
    omega

/-- The text of `P` digits is a literal for the number they stand for. -/
theorem fmtG_spec {P m : ℕ} (hP : 0 < P) (h1 : 10 ^ (P - 1) ≤ m) (h2 : m < 10 ^ P) (e : ℤ) :
    IsLit (fmtG P m e) ∧ litVal (fmtG P m e) = m * (10 : ℝ) ^ (e - P + 1) := by
  have hl := length_toDigits hP h1 h2
  have hd := digits_toDigits m
  have hne : Nat.toDigits 10 m ≠ [] := Nat.toDigits_ne_nil
  have htk : ∀ n, Digits ((Nat.toDigits 10 m).take n) := fun n c hc => hd c (List.mem_of_mem_take hc)
  have hdr : ∀ n, Digits ((Nat.toDigits 10 m).drop n) := fun n c hc => hd c (List.mem_of_mem_drop hc)
  unfold fmtG
  by_cases h : e < -4 ∨ (P : ℤ) ≤ e
  · simp only [if_pos h]
    obtain ⟨h3, h4⟩ := expText_exp e
    refine ⟨withPoint_lit (htk 1) (by simp [hne]) (hdr 1) h4, ?_⟩
    rw [withPoint_val (htk 1) (hdr 1) (.inr ⟨_, rfl⟩), h3, List.take_append_drop, digitsVal_toDigits, List.length_drop, hl]
    congr 2
    omega
  · simp only [if_neg h]
    push Not at h
    by_cases h0 : 0 ≤ e
    · simp only [if_pos h0]
      have h5 := withPoint_lit (r := []) (htk (e.toNat + 1)) (by simp [hne]) (hdr (e.toNat + 1)) (.inl rfl)
      have h6 := withPoint_val (r := []) (htk (e.toNat + 1)) (hdr (e.toNat + 1)) (.inl rfl)
      rw [List.append_nil] at h5 h6
      refine ⟨h5, ?_⟩
      rw [h6, List.take_append_drop, digitsVal_toDigits, List.length_drop, hl]
      congr 2
      simp only [expOf]
      omega
    · simp only [if_neg h0]
      have h7 : Digits (List.replicate (-e - 1).toNat '0' ++ Nat.toDigits 10 m) := digits_append (digits_zeros _) hd
      have hz : Digits ['0'] := digits_zeros 1
      have h5 := withPoint_lit (r := []) hz (by simp) h7 (.inl rfl)
      have h6 := withPoint_val (r := []) hz h7 (.inl rfl)
      rw [List.append_nil] at h5 h6
      refine ⟨h5, ?_⟩
      rw [h6, ← List.append_assoc, digitsVal_append, digitsVal_toDigits, List.length_append, List.length_replicate, hl]
      rw [show ['0'] ++ List.replicate (-e - 1).toNat '0' = List.replicate ((-e - 1).toNat + 1) '0' by
        simp [List.replicate_succ], digitsVal_zeros]
      rw [zero_mul, zero_add]
      congr 2
      simp only [expOf]
      omega

/-! ## The digits -/

theorem ten_zpow_pos (e : ℤ) : (0 : ℝ) < 10 ^ e := zpow_pos (by norm_num) e

/-- The digits are `P` digits, and the number they stand for is within half a unit of the last of them. -/
theorem sig_spec {rd : ℝ → ℤ} (hrd : Nearest rd) {P : ℕ} (hP : 0 < P) {x : ℝ} (hx : 0 < x) :
    10 ^ (P - 1) ≤ (sig rd P x).1 ∧ (sig rd P x).1 < 10 ^ P ∧
    |((sig rd P x).1 : ℝ) * (10 : ℝ) ^ ((sig rd P x).2 - P + 1) - x| ≤ 1 / 2 * (10 : ℝ) ^ (Int.log 10 x - P + 1) := by
  have hlo := Int.zpow_log_le_self (b := 10) (by norm_num) hx
  have hhi := Int.lt_zpow_succ_log_self (b := 10) (by norm_num) x
  push_cast at hlo hhi
  obtain ⟨q, rfl⟩ : ∃ q, P = q + 1 := ⟨P - 1, by omega⟩
  set E := Int.log 10 x with hE
  set y := x / (10 : ℝ) ^ (E - ((q + 1 : ℕ) : ℤ) + 1) with hy
  have hu := ten_zpow_pos (E - ((q + 1 : ℕ) : ℤ) + 1)
  have hxy : x = y * (10 : ℝ) ^ (E - ((q + 1 : ℕ) : ℤ) + 1) := by rw [hy, div_mul_cancel₀ _ hu.ne']
  have e1 : (10 : ℝ) ^ E = 10 ^ q * (10 : ℝ) ^ (E - ((q + 1 : ℕ) : ℤ) + 1) := by
    rw [← zpow_natCast, ← zpow_add₀ (by norm_num)]; congr 1; push_cast; ring
  have e2 : (10 : ℝ) ^ (E + 1) = 10 ^ (q + 1) * (10 : ℝ) ^ (E - ((q + 1 : ℕ) : ℤ) + 1) := by
    rw [← zpow_natCast, ← zpow_add₀ (by norm_num)]; congr 1; push_cast; ring
  have y1 : (10 : ℝ) ^ q ≤ y := by
    rw [e1, hxy] at hlo
    exact le_of_mul_le_mul_right hlo hu
  have y2 : y < (10 : ℝ) ^ (q + 1) := by
    rw [e2, hxy] at hhi
    exact lt_of_mul_lt_mul_right hhi hu.le
  have hr := abs_le.1 (hrd y)
  have r1 : (10 : ℤ) ^ q ≤ rd y := by
    have : ((10 : ℤ) ^ q : ℝ) < (rd y : ℝ) + 1 := by push_cast; linarith [hr.1]
    have : (10 : ℤ) ^ q < rd y + 1 := by exact_mod_cast this
    omega
  have r2 : rd y ≤ (10 : ℤ) ^ (q + 1) := by
    have : (rd y : ℝ) < ((10 : ℤ) ^ (q + 1) : ℝ) + 1 := by push_cast; linarith [hr.2]
    have : rd y < (10 : ℤ) ^ (q + 1) + 1 := by exact_mod_cast this
    omega
  have hpos : (0 : ℤ) < 10 ^ q := by positivity
  have r3 : (((rd y).toNat : ℕ) : ℤ) = rd y := Int.toNat_of_nonneg (by omega)
  have r3' : (((rd y).toNat : ℕ) : ℝ) = rd y := by exact_mod_cast r3
  have herr : |(rd y : ℝ) * (10 : ℝ) ^ (E - ((q + 1 : ℕ) : ℤ) + 1) - x|
      ≤ 1 / 2 * (10 : ℝ) ^ (E - ((q + 1 : ℕ) : ℤ) + 1) := by
    conv_lhs => rw [hxy]
    rw [← sub_mul, abs_mul, abs_of_pos hu]
    exact mul_le_mul_of_nonneg_right (hrd y) hu.le
  have hsig : sig rd (q + 1) x =
      if (rd y).toNat = 10 ^ (q + 1) then (10 ^ q, E + 1) else ((rd y).toNat, E) := rfl
  rw [hsig]
  split
  · rename_i h
    refine ⟨by simp, by simp [pow_lt_pow_right₀], ?_⟩
    have : (rd y : ℝ) = 10 ^ (q + 1) := by rw [← r3', h]; push_cast; rfl
    rw [this] at herr
    convert herr using 3
    push_cast
    rw [show E + 1 - ((q : ℤ) + 1) + 1 = (E - ((q : ℤ) + 1) + 1) + 1 by ring, zpow_add_one₀ (by norm_num), pow_succ]
    ring
  · rename_i h
    refine ⟨?_, ?_, ?_⟩
    · have : ((10 ^ q : ℕ) : ℤ) ≤ ((rd y).toNat : ℤ) := by rw [r3]; push_cast; exact r1
      exact_mod_cast this
    · have : (rd y).toNat ≤ 10 ^ (q + 1) := by
        have : ((rd y).toNat : ℤ) ≤ ((10 ^ (q + 1) : ℕ) : ℤ) := by rw [r3]; push_cast; exact r2
        exact_mod_cast this
      exact lt_of_le_of_ne this h
    · show |(((rd y).toNat : ℕ) : ℝ) * _ - x| ≤ _
      rw [r3']
      exact herr

/-! ## Binary numbers are apart -/

/-- The next number above `s` is more than `s / 2^p` away. -/
theorem gap_above {p : ℕ} {emin : ℤ} {s l : ℝ} (hs : s ∈ binF p emin) (hl : l ∈ binF p emin)
    (h0 : 0 ≤ s) (hlt : s < l) : s < 2 ^ p * (l - s) := by
  rcases h0.eq_or_lt with rfl | hs0
  · rw [sub_zero]; positivity
  have hp : 0 < p := by
    rcases Nat.eq_zero_or_pos p with rfl | h
    · obtain ⟨m, e, -, hm, rfl⟩ := hl
      have : m = 0 := abs_eq_zero.1 (by have := abs_nonneg m; omega)
      subst this
      simp at hlt
      linarith
    · exact h
  have hpos := two_zpow_pos (ulpExp p emin s)
  have hsE : binRnd p emin s = s := by
    have h1 := binRnd_nearest hp emin s s hs
    rw [sub_self, abs_zero] at h1
    have := abs_nonpos_iff.1 h1
    linarith
  obtain ⟨j, hj⟩ : ∃ j : ℤ, s = j * (2 : ℝ) ^ ulpExp p emin s := ⟨_, hsE.symm⟩
  have hb := abs_lt_ulp p emin s
  rw [abs_of_nonneg h0] at hb
  obtain ⟨m, e, he, hm, hle⟩ := hl
  have hE : ulpExp p emin s ≤ e := by
    by_contra hc
    push Not at hc
    have hE : ulpExp p emin s = Int.log 2 |s| + 1 - p := by
      rcases max_choice emin (Int.log 2 |s| + 1 - p) with h | h
      · exfalso; unfold ulpExp at hc; omega
      · exact h
    have hlog := Int.zpow_log_le_self (b := 2) (by norm_num) (abs_pos.2 hs0.ne')
    push_cast at hlog
    rw [abs_of_pos hs0] at hlog hE
    have h1 : (m : ℝ) < 2 ^ p := lt_of_le_of_lt (le_abs_self _) (by exact_mod_cast hm)
    have h2 : (2 : ℝ) ^ p * 2 ^ e ≤ 2 ^ Int.log 2 s := by
      rw [← zpow_natCast (2 : ℝ) p, ← zpow_add₀ (by norm_num)]
      exact zpow_le_zpow_right₀ (by norm_num) (by omega)
    have h3 := mul_lt_mul_of_pos_right h1 (two_zpow_pos e)
    linarith
  obtain ⟨k, hk⟩ : ∃ k : ℤ, l = k * (2 : ℝ) ^ ulpExp p emin s := by
    refine ⟨m * 2 ^ (e - ulpExp p emin s).toNat, ?_⟩
    push_cast
    rw [hle, mul_assoc, ← zpow_natCast, ← zpow_add₀ (by norm_num)]
    congr 2
    omega
  have hjk : j + 1 ≤ k := by
    rw [hj, hk] at hlt
    have h1 := lt_of_mul_lt_mul_right hlt hpos.le
    have : j < k := by exact_mod_cast h1
    omega
  have h2 : (2 : ℝ) ^ ulpExp p emin s ≤ l - s := by
    have : ((j : ℝ) + 1) ≤ k := by exact_mod_cast hjk
    have := mul_le_mul_of_nonneg_right this hpos.le
    linarith
  have := mul_le_mul_of_nonneg_left h2 (by positivity : (0 : ℝ) ≤ 2 ^ p)
  linarith

/-- Two different numbers are more than `x / (2^p + 1)` apart. -/
theorem gap {p : ℕ} {emin : ℤ} {x y : ℝ} (hx : x ∈ binF p emin) (hy : y ∈ binF p emin) (h0 : 0 < x) (hne : y ≠ x) :
    x < (2 ^ p + 1) * |y - x| := by
  have h2p : (0 : ℝ) < 2 ^ p := by positivity
  rcases lt_or_gt_of_ne hne with h | h
  · rw [abs_of_neg (by linarith)]
    rcases le_or_gt 0 y with hy0 | hy0
    · have := gap_above hy hx hy0 h
      nlinarith
    · nlinarith
  · rw [abs_of_pos (by linarith)]
    have := gap_above hx hy h0.le h
    nlinarith

/-! ## Reading back -/

theorem showG_pos {rd : ℝ → ℤ} {P : ℕ} {x : ℝ} (hx : 0 < x) :
    showG rd P x = fmtG P (sig rd P x).1 (sig rd P x).2 := by
  rw [showG, if_neg hx.ne', if_neg hx.not_gt]

/-- A negative number is printed as a minus sign and its absolute value. -/
theorem C75_sign (rd : ℝ → ℤ) (P : ℕ) {x : ℝ} (hx : 0 < x) : showG rd P (-x) = '-' :: showG rd P x := by
  rw [showG_pos hx, showG, if_neg (by simp [hx.ne']), if_pos (by linarith), neg_neg]

/-- The text of a positive number is a literal, and its value is within half a unit of the `P`-th digit. -/
theorem C75_accuracy {rd : ℝ → ℤ} (hrd : Nearest rd) {P : ℕ} (hP : 0 < P) {x : ℝ} (hx : 0 < x) :
    IsLit (showG rd P x) ∧ |litVal (showG rd P x) - x| ≤ 1 / 2 * (10 : ℝ) ^ (Int.log 10 x - P + 1) := by
  obtain ⟨h1, h2, h3⟩ := sig_spec hrd hP hx
  obtain ⟨h4, h5⟩ := fmtG_spec hP h1 h2 (sig rd P x).2
  rw [showG_pos hx]
  exact ⟨h4, by rw [h5]; exact h3⟩

theorem accuracy_rel {rd : ℝ → ℤ} (hrd : Nearest rd) {P : ℕ} (hP : 0 < P) {x : ℝ} (hx : 0 < x) :
    2 * 10 ^ (P - 1) * |litVal (showG rd P x) - x| ≤ x := by
  have h := (C75_accuracy hrd hP hx).2
  have hlo := Int.zpow_log_le_self (b := 10) (by norm_num) hx
  push_cast at hlo
  have e1 : (10 : ℝ) ^ (P - 1) * (10 : ℝ) ^ (Int.log 10 x - P + 1) = 10 ^ Int.log 10 x := by
    rw [← zpow_natCast, ← zpow_add₀ (by norm_num)]; congr 1; omega
  have := mul_le_mul_of_nonneg_left h (by positivity : (0 : ℝ) ≤ 2 * 10 ^ (P - 1))
  nlinarith

/-- **Enough digits.** With `P` digits where `2^p + 1 ≤ 10^(P-1)`, the text of every representable number reads back as the
number. -/
theorem C75_reads_back (φ : Format) {p : ℕ} {emin : ℤ} (hF : φ.F = binF p emin) {rd : ℝ → ℤ} (hrd : Nearest rd) {P : ℕ}
    (hP : 2 ^ p + 1 ≤ 10 ^ (P - 1)) {x : ℝ} (hx : 0 < x) (hm : x ∈ φ.F) : φ.rnd (litVal (showG rd P x)) = x := by
  have hP0 : 0 < P := by
    rcases Nat.eq_zero_or_pos P with rfl | h
    · have : 0 < 2 ^ p := by positivity
      simp at hP
    · exact h
  have h1 := accuracy_rel hrd hP0 hx
  by_contra hne
  have h2 := gap (hF ▸ hm) (hF ▸ φ.mem (litVal (showG rd P x))) hx hne
  have h3 := φ.nearest (litVal (showG rd P x)) x hm
  have h4 := abs_add_le (φ.rnd (litVal (showG rd P x)) - litVal (showG rd P x)) (litVal (showG rd P x) - x)
  rw [sub_add_sub_cancel] at h4
  rw [abs_sub_comm x] at h3
  have h5 : ((2 : ℝ) ^ p + 1) ≤ 10 ^ (P - 1) := by exact_mod_cast hP
  have h6 : ((2 : ℝ) ^ p + 1) * |φ.rnd (litVal (showG rd P x)) - x| ≤
      10 ^ (P - 1) * (2 * |litVal (showG rd P x) - x|) :=
    mul_le_mul h5 (by linarith) (abs_nonneg _) (by positivity)
  linarith

theorem isLit_head {t : List Char} : ¬ IsLit ('-' :: t) := by
  rintro ⟨ip, fp, ep, h, hn, hd, -⟩
  cases ip with
  | nil => exact hn rfl
  | cons c ip =>
    simp at h
    have := hd c (by simp)
    rw [← h.1] at this
    exact absurd this (by decide)

theorem litVal_zero : litVal ['0'] = 0 := by
  rw [litVal_int (ip := ['0']) (digits_zeros 1), show digitsVal ['0'] = 0 by decide]; simp

/-- Exactly the representable numbers are constants that the parser reads back from their text: the nonnegative ones as a
literal, the negative ones as a minus sign and a literal. -/
theorem C75_constants (φ : Format) {p : ℕ} {emin : ℤ} (hF : φ.F = binF p emin) {rd : ℝ → ℤ} (hrd : Nearest rd) {P : ℕ}
    (hP : 2 ^ p + 1 ≤ 10 ^ (P - 1)) (x : ℝ) :
    (PosConst (numLex φ) (showG rd P) x ↔ x ∈ φ.F ∧ 0 ≤ x) ∧
    (NegConst (numLex φ) (showG rd P) x ↔ x ∈ φ.F ∧ x < 0) := by
  have hP0 : 0 < P := by
    rcases Nat.eq_zero_or_pos P with rfl | h
    · have : 0 < 2 ^ p := by positivity
      simp at hP
    · exact h
  refine ⟨⟨fun ⟨h1, h2⟩ => ?_, fun ⟨h1, h2⟩ => ?_⟩, ⟨fun ⟨t, h1, h2, h3⟩ => ?_, fun ⟨h1, h2⟩ => ?_⟩⟩
  · refine ⟨h2 ▸ φ.mem _, ?_⟩
    by_contra hn
    push Not at hn
    have := C75_sign rd P (x := -x) (by linarith)
    rw [neg_neg] at this
    rw [this] at h1
    exact isLit_head h1
  · rcases h2.eq_or_lt with rfl | h
    · have hz : showG rd P 0 = ['0'] := by simp [showG]
      refine ⟨hz ▸ ⟨['0'], [], [], rfl, by simp, digits_zeros 1, .inl rfl, .inl rfl⟩, ?_⟩
      show φ.rnd (litVal (showG rd P 0)) = 0
      rw [hz, litVal_zero, φ.rnd_of_mem φ.zero]
    · exact ⟨(C75_accuracy hrd hP0 h).1, C75_reads_back φ hF hrd hP h h1⟩
  · have hx : x < 0 := by
      by_contra hn
      push Not at hn
      rcases hn.eq_or_lt with rfl | h
      · simp [showG] at h1
      · have := (C75_accuracy hrd hP0 h).1
        rw [h1] at this
        exact isLit_head this
    refine ⟨?_, hx⟩
    have h4 : -φ.rnd (litVal t) = x := h3
    exact h4 ▸ φ.neg _ (φ.mem _)
  · have hs := C75_sign rd P (x := -x) (by linarith)
    rw [neg_neg] at hs
    refine ⟨showG rd P (-x), hs, (C75_accuracy hrd hP0 (by linarith)).1, ?_⟩
    show -φ.rnd (litVal (showG rd P (-x))) = x
    rw [C75_reads_back φ hF hrd hP (by linarith) (φ.neg x h1), neg_neg]

/-- Different numbers have different texts. -/
theorem C75_injective (φ : Format) {p : ℕ} {emin : ℤ} (hF : φ.F = binF p emin) {rd : ℝ → ℤ} (hrd : Nearest rd) {P : ℕ}
    (hP : 2 ^ p + 1 ≤ 10 ^ (P - 1)) {x y : ℝ} (hx : x ∈ φ.F) (hy : y ∈ φ.F) (h : showG rd P x = showG rd P y) : x = y := by
  have cx := C75_constants φ hF hrd hP x
  have cy := C75_constants φ hF hrd hP y
  rcases le_or_gt 0 x with hx0 | hx0 <;> rcases le_or_gt 0 y with hy0 | hy0
  · have h1 := (cx.1.2 ⟨hx, hx0⟩).2
    rw [h, (cy.1.2 ⟨hy, hy0⟩).2] at h1
    exact h1.symm
  · have h1 := (cx.1.2 ⟨hx, hx0⟩).1
    obtain ⟨t, h2, -⟩ := cy.2.2 ⟨hy, hy0⟩
    rw [h, h2] at h1
    exact absurd h1 isLit_head
  · have h1 := (cy.1.2 ⟨hy, hy0⟩).1
    obtain ⟨t, h2, -⟩ := cx.2.2 ⟨hx, hx0⟩
    rw [← h, h2] at h1
    exact absurd h1 isLit_head
  · obtain ⟨t, h1, -, h2⟩ := cx.2.2 ⟨hx, hx0⟩
    obtain ⟨t', h1', -, h2'⟩ := cy.2.2 ⟨hy, hy0⟩
    rw [h, h1'] at h1
    simp at h1
    rw [h1, h2] at h2'
    exact h2'

/-! ## Short decimals survive -/

theorem log_eq {x : ℝ} {e : ℤ} (h1 : (10 : ℝ) ^ e ≤ x) (h2 : x < 10 ^ (e + 1)) : Int.log 10 x = e := by
  have hx : 0 < x := lt_of_lt_of_le (ten_zpow_pos e) h1
  apply le_antisymm
  · have := (Int.lt_zpow_iff_log_lt (b := 10) (by norm_num) hx).1 (by exact_mod_cast h2)
    omega
  · exact (Int.zpow_le_iff_le_log (b := 10) (by norm_num) hx).1 (by exact_mod_cast h1)

theorem rd_eq {rd : ℝ → ℤ} (hrd : Nearest rd) {y : ℝ} {k : ℤ} (h : |y - k| < 1 / 2) : rd y = k := by
  have h1 := hrd y
  have h2 := abs_add_le ((rd y : ℝ) - y) (y - k)
  rw [sub_add_sub_cancel] at h2
  have h3 : |((rd y - k : ℤ) : ℝ)| < 1 := by push_cast; linarith
  have h4 : |rd y - k| < 1 := by exact_mod_cast h3
  have := Int.abs_lt_one_iff.1 h4
  omega

/-- If `x` is within less than half a unit of the last place of a `P`-digit number `d`, relative to the power of ten above
`d`, then the digits of `x` are those of `d`. -/
theorem sig_near {rd : ℝ → ℤ} (hrd : Nearest rd) {q m : ℕ} {e : ℤ} (h1 : 10 ^ q ≤ m) (h2 : m < 10 ^ (q + 1)) {x v : ℝ}
    (hv : v * 10 ^ (q + 1) < 1 / 2) (hx : |x - m * (10 : ℝ) ^ (e - q)| ≤ v * (m * (10 : ℝ) ^ (e - q))) :
    0 < x ∧ sig rd (q + 1) x = (m, e) := by
  have hU := ten_zpow_pos (e - q)
  set U := (10 : ℝ) ^ (e - q) with hUd
  have m1 : ((10 : ℝ) ^ q) ≤ m := by exact_mod_cast h1
  have m2 : ((m : ℝ) + 1) ≤ 10 ^ (q + 1) := by exact_mod_cast h2
  have hq : (1 : ℝ) ≤ 10 ^ q := one_le_pow₀ (by norm_num)
  have e1 : (10 : ℝ) ^ e = 10 ^ q * U := by
    rw [hUd, ← zpow_natCast, ← zpow_add₀ (by norm_num)]; congr 1; ring
  have e2 : (10 : ℝ) ^ (e + 1) = 10 ^ (q + 1) * U := by
    rw [zpow_add_one₀ (by norm_num), e1, pow_succ]; ring
  have hv0 : 0 ≤ v := by
    have := (abs_nonneg _).trans hx
    have hm : 0 < (m : ℝ) * U := by nlinarith
    by_contra hn
    push Not at hn
    nlinarith
  -- the error is below half a unit
  have herr : |x - m * U| < 1 / 2 * U := by
    refine lt_of_le_of_lt hx ?_
    have : v * m ≤ v * 10 ^ (q + 1) := mul_le_mul_of_nonneg_left (by linarith) hv0
    have : v * m * U < 1 / 2 * U := mul_lt_mul_of_pos_right (by linarith) hU
    linarith
  have habs := abs_lt.1 herr
  have hxpos : 0 < x := by nlinarith
  have hxhi : x < 10 ^ (e + 1) := by rw [e2]; nlinarith
  refine ⟨hxpos, ?_⟩
  by_cases hlo : (10 : ℝ) ^ e ≤ x
  · have hlog : Int.log 10 x = e := log_eq hlo hxhi
    have hr : rd (x / (10 : ℝ) ^ (e - ((q + 1 : ℕ) : ℤ) + 1)) = m := by
      apply rd_eq hrd
      rw [show e - ((q + 1 : ℕ) : ℤ) + 1 = e - q by push_cast; ring, ← hUd]
      push_cast
      rw [show x / U - (m : ℝ) = (x - m * U) / U by field_simp, abs_div, abs_of_pos hU, div_lt_iff₀ hU]
      exact herr
    simp only [sig, hlog, hr, Int.toNat_natCast]
    rw [if_neg (by omega)]
  · push Not at hlo
    have hm : m = 10 ^ q := by
      by_contra hne
      have h3 : 10 ^ q + 1 ≤ m := by omega
      have h4 : ((10 : ℝ) ^ q + 1) ≤ m := by exact_mod_cast h3
      rw [e1] at hlo
      nlinarith
    subst hm
    push_cast at hx habs
    have e0 : (10 : ℝ) ^ (e - 1) * 10 = 10 ^ q * U := by
      rw [← zpow_add_one₀ (by norm_num), ← e1]; congr 1; ring
    have hlog : Int.log 10 x = e - 1 := by
      apply log_eq
      · nlinarith
      · rw [show e - 1 + 1 = e by ring]; exact hlo
    have hV := ten_zpow_pos (e - 1 - q)
    have e3 : (10 : ℝ) ^ (e - 1 - q) * 10 = U := by
      rw [← zpow_add_one₀ (by norm_num), hUd]; congr 1; ring
    have hr : rd (x / (10 : ℝ) ^ (e - 1 - ((q + 1 : ℕ) : ℤ) + 1)) = (10 ^ (q + 1) : ℕ) := by
      apply rd_eq hrd
      rw [show e - 1 - ((q + 1 : ℕ) : ℤ) + 1 = e - 1 - q by push_cast; ring]
      push_cast
      generalize (10 : ℝ) ^ (e - 1 - (q : ℤ)) = V at *
      have e4 : x - (10 : ℝ) ^ (q + 1) * V = x - 10 ^ q * U := by rw [← e3, pow_succ]; ring
      rw [show x / V - (10 : ℝ) ^ (q + 1) = (x - 10 ^ (q + 1) * V) / V by field_simp, abs_div, abs_of_pos hV,
        div_lt_iff₀ hV, e4]
      refine lt_of_le_of_lt hx ?_
      have e5 : v * (10 ^ q * U) = v * 10 ^ (q + 1) * V := by rw [← e3, pow_succ]; ring
      rw [e5]
      exact mul_lt_mul_of_pos_right hv hV
    simp only [sig, hlog, hr, Int.toNat_natCast]
    rw [if_pos trivial]
    simp

theorem normalise {P m : ℕ} (h0 : 0 < m) (hm : m < 10 ^ (P + 1)) (k : ℤ) :
    ∃ (m' : ℕ) (e : ℤ), 10 ^ P ≤ m' ∧ m' < 10 ^ (P + 1) ∧ (m : ℝ) * (10 : ℝ) ^ k = m' * (10 : ℝ) ^ (e - P) := by
  have h1 := Nat.pow_log_le_self 10 h0.ne'
  have h2 := Nat.lt_pow_succ_log_self (b := 10) (by norm_num) m
  have h3 : Nat.log 10 m ≤ P := by
    have := (Nat.pow_lt_pow_iff_right (a := 10) (by norm_num)).1 (lt_of_le_of_lt h1 hm)
    omega
  refine ⟨m * 10 ^ (P - Nat.log 10 m), k + Nat.log 10 m, ?_, ?_, ?_⟩
  · calc 10 ^ P = 10 ^ Nat.log 10 m * 10 ^ (P - Nat.log 10 m) := by rw [← pow_add]; congr 1; omega
      _ ≤ _ := Nat.mul_le_mul_right _ h1
  · calc m * 10 ^ (P - Nat.log 10 m) < 10 ^ (Nat.log 10 m + 1) * 10 ^ (P - Nat.log 10 m) :=
          Nat.mul_lt_mul_of_pos_right h2 (by positivity)
      _ = _ := by rw [← pow_add]; congr 1; omega
  · push_cast
    rw [mul_assoc, ← zpow_natCast, ← zpow_add₀ (by norm_num)]
    congr 2
    omega

/-- **Short decimals survive.** A literal whose value has at most `P` significant digits, read into a number of the format
and printed with `P` digits, is printed with the same value, if `u * 10^P < 1/2` and it is not subnormal. -/
theorem C75_decimal_survives (φ : Format) {rd : ℝ → ℤ} (hrd : Nearest rd) {P : ℕ} (hP : 0 < P)
    (hu : φ.u * 10 ^ P < 1 / 2) {m : ℕ} (h0 : 0 < m) (hm : m < 10 ^ P) (k : ℤ) {s : List Char}
    (hs : litVal s = m * (10 : ℝ) ^ k) (hη : φ.η ≤ φ.u * litVal s) :
    litVal (showG rd P (φ.rnd (litVal s))) = litVal s := by
  obtain ⟨q, rfl⟩ : ∃ q, P = q + 1 := ⟨P - 1, by omega⟩
  obtain ⟨m', e, h1, h2, h3⟩ := normalise h0 hm k
  have hpos : 0 < litVal s := by rw [hs]; have := ten_zpow_pos k; positivity
  have herr : |φ.rnd (litVal s) - litVal s| ≤ φ.u * litVal s := by
    rcases φ.err (litVal s) with h | h
    · rwa [abs_of_pos hpos] at h
    · exact h.trans hη
  generalize litVal s = d at *
  obtain rfl := hs.trans h3
  obtain ⟨h4, h5⟩ := sig_near hrd h1 h2 hu herr
  rw [showG_pos h4, h5]
  rw [(fmtG_spec hP (by simpa using h1) h2 e).2]
  congr 2
  push_cast
  ring

/-! ## Expressions over floating-point numbers -/

/-- Constants are numbers of the format, names are names, and the keys of a dictionary are different names. -/
inductive Over (φ : Format) : Expr ℝ → Prop
  | const {k} : k ∈ φ.F → Over φ (.const k)
  | var {n} : IsName n → Over φ (.var n)
  | un {o a} : Over φ a → Over φ (.un o a)
  | bin {o l r} : Over φ l → Over φ r → Over φ (.bin o l r)
  | arr {xs} : (∀ x ∈ xs, Over φ x) → Over φ (.arr xs)
  | dict {kvs} : (kvs.map Prod.fst).Nodup → (∀ p ∈ kvs, IsName p.1) → (∀ p ∈ kvs, Over φ p.2) → Over φ (.dict kvs)

/-- What can be written is exactly what has constants of the format. -/
theorem C75_writable (φ : Format) {p : ℕ} {emin : ℤ} (hF : φ.F = binF p emin) {rd : ℝ → ℤ} (hrd : Nearest rd) {P : ℕ}
    (hP : 2 ^ p + 1 ≤ 10 ^ (P - 1)) (e : Expr ℝ) : Writable (numLex φ) (showG rd P) e ↔ Over φ e := by
  constructor
  · intro h
    induction h with
    | @const k h =>
      have := C75_constants φ hF hrd hP k
      rcases h with h | h
      · exact .const (this.1.1 h).1
      · exact .const (this.2.1 h).1
    | var h => exact .var h
    | un _ ih => exact .un ih
    | bin _ _ h1 h2 => exact .bin h1 h2
    | arr _ ih => exact .arr ih
    | dict h1 h2 _ ih => exact .dict h1 h2 ih
  · intro h
    induction h with
    | @const k h =>
      have := C75_constants φ hF hrd hP k
      rcases le_or_gt 0 k with h0 | h0
      · exact .const (.inl (this.1.2 ⟨h, h0⟩))
      · exact .const (.inr (this.2.2 ⟨h, h0⟩))
    | var h => exact .var h
    | un _ ih => exact .un ih
    | bin _ _ h1 h2 => exact .bin h1 h2
    | arr _ ih => exact .arr ih
    | dict h1 h2 _ ih => exact .dict h1 h2 ih

/-- Every format whose numbers are those of `double` (any rule for ties). -/
def IsDouble (φ : Format) : Prop := φ.F = binF 53 (-1074)

theorem precision_double : precision 0 = 17 ∧ precision 1 = 16 ∧ precision 2 = 15 := by decide

theorem enough_double : 2 ^ 53 + 1 ≤ 10 ^ (precision 0 - 1) := by decide

/-- **Doubles.** With the default configuration, an expression over doubles is read back from its text exactly when it is
outside the defects of the printer; the numbers do not matter, apart from their sign. With forced parentheses it is read
back exactly when no constant is directly under a negation and there is no `|..|` and no dictionary operand. -/
theorem C75_double_roundtrip (φ : Format) (hφ : IsDouble φ) {rd : ℝ → ℤ} (hrd : Nearest rd) (e : Expr ℝ) (h : Over φ e) :
    ((∃ s, e.repr (showG rd (precision 0)) = some s ∧ parse (numLex φ) s = .ok e) ↔
      Printable (numLex φ) (showG rd (precision 0)) true e) ∧
    ((∃ s, e.reprF (showG rd (precision 0)) = some s ∧ parse (numLex φ) s = .ok e) ↔ Plain e ∧ e.negConst = false) :=
  have hw := (C75_writable φ hφ hrd enough_double e).2 h
  ⟨C02_roundtrip_iff _ _ e hw, C65_roundtrip_iff _ _ e hw⟩

/-- A double alone is read back from its text. -/
theorem C75_double (φ : Format) (hφ : IsDouble φ) {rd : ℝ → ℤ} (hrd : Nearest rd) (x : ℝ) (hx : x ∈ φ.F) :
    parse (numLex φ) (showG rd (precision 0) x) = .ok (.const x) := by
  have hc := C75_constants φ hφ hrd enough_double x
  have hp : Printable (numLex φ) (showG rd (precision 0)) true (.const x) := by
    rcases le_or_gt 0 x with h0 | h0
    · exact .const (hc.1.2 ⟨hx, h0⟩)
    · exact .negc (hc.2.2 ⟨hx, h0⟩)
  obtain ⟨s, h1, h2⟩ := printable_roundtrip hp
  simp only [Expr.repr, Option.some.injEq] at h1
  rwa [h1]

/-- Doubles are read back, whichever literal they came from. -/
theorem faithful_double (φ : Format) (hφ : IsDouble φ) {rd : ℝ → ℤ} (hrd : Nearest rd) :
    Faithful (numLex φ) (showG rd (precision 0)) := by
  have key : ∀ x ∈ φ.F, PosConst (numLex φ) (showG rd (precision 0)) x ∨ NegConst (numLex φ) (showG rd (precision 0)) x := by
    intro x hx
    have hc := C75_constants φ hφ hrd enough_double x
    rcases le_or_gt 0 x with h0 | h0
    · exact .inl (hc.1.2 ⟨hx, h0⟩)
    · exact .inr (hc.2.2 ⟨hx, h0⟩)
  refine ⟨fun s _ => key _ (φ.mem _), fun k hk => ?_⟩
  have hc := C75_constants φ hφ hrd enough_double k
  refine key _ (φ.neg k ?_)
  rcases hk with h | h
  · exact (hc.1.1 h).1
  · exact (hc.2.1 h).1

/-- **Texts over doubles are stable.** Whatever the text, what it is read as, printed with forced parentheses and 17 digits, is
read as the same expression again, unless a dictionary is an operand. -/
theorem C76_double (φ : Format) (hφ : IsDouble φ) {rd : ℝ → ℤ} (hrd : Nearest rd) (s : List Char) (e : Expr ℝ)
    (h : parse (numLex φ) s = .ok e) :
    (∀ s', e.reprF (showG rd (precision 0)) = some s' → parse (numLex φ) s' = .ok e) ∧
    ((∃ s', e.reprF (showG rd (precision 0)) = some s') ↔ Plain e) :=
  C76_stable _ _ (faithful_double φ hφ hrd) s e h

/-- One digit less is not enough: 1 and the next double have the same text, so the second does not read back. -/
theorem C75_one_digit_less (φ : Format) (hφ : IsDouble φ) {rd : ℝ → ℤ} (hrd : Nearest rd) :
    (1 + (2 : ℝ) ^ (-52 : ℤ)) ∈ φ.F ∧ showG rd (precision 1) (1 + (2 : ℝ) ^ (-52 : ℤ)) = ['1'] ∧
    showG rd (precision 1) 1 = ['1'] ∧ φ.rnd (litVal ['1']) = 1 := by
  have hsig : ∀ x : ℝ, 1 ≤ x → x ≤ 1 + (2 : ℝ) ^ (-52 : ℤ) → showG rd (precision 1) x = ['1'] := by
    intro x h1 h2
    rw [show precision 1 = 16 by decide]
    have h3 : (2 : ℝ) ^ (-52 : ℤ) ≤ 1 / 4 * (10 : ℝ) ^ (-15 : ℤ) := by norm_num
    have hlog : Int.log 10 x = 0 := by
      apply log_eq
      · simpa using h1
      · norm_num at h2 ⊢
        linarith
    have hr : rd (x / (10 : ℝ) ^ ((0 : ℤ) - ((16 : ℕ) : ℤ) + 1)) = (10 ^ 15 : ℕ) := by
      apply rd_eq hrd
      rw [abs_of_nonneg]
      · norm_num at h2 ⊢
        linarith
      · norm_num
        linarith
    have hs : sig rd 16 x = (10 ^ 15, 0) := by
      simp only [sig, hlog, hr, Int.toNat_natCast]
      rw [if_neg (by decide)]
    rw [showG_pos (by linarith), hs]
    decide +kernel
  have hone : litVal ['1'] = 1 := by
    rw [litVal_int (ip := ['1']) (by intro c hc; simp at hc; subst hc; decide), show digitsVal ['1'] = 1 by decide]
    simp
  refine ⟨?_, hsig _ (by have := two_zpow_pos (-52); linarith) le_rfl, hsig _ le_rfl (by have := two_zpow_pos (-52); linarith), ?_⟩
  · rw [hφ]
    exact ⟨2 ^ 52 + 1, -52, by norm_num, by norm_num, by push_cast; norm_num⟩
  · rw [hone]
    exact φ.rnd_of_mem φ.one

/-- Literals with at most 15 significant digits survive being read into a double and printed with `Rounding_digits<2>`. -/
theorem C75_double_decimal {rd : ℝ → ℤ} (hrd : Nearest rd) {m : ℕ} (h0 : 0 < m) (hm : m < 10 ^ 15) (k : ℤ)
    {s : List Char} (hs : litVal s = m * (10 : ℝ) ^ k) (hn : (2 : ℝ) ^ (-1022 : ℤ) ≤ litVal s) :
    litVal (showG rd (precision 2) (binary64.rnd (litVal s))) = litVal s := by
  refine C75_decimal_survives binary64 hrd (by decide) ?_ h0 (by rw [precision_double.2.2]; exact hm) k hs ?_
  · rw [precision_double.2.2]
    show (2 : ℝ) ^ (-((53 : ℕ) : ℤ)) * _ < _
    norm_num
  · show (2 : ℝ) ^ ((-1074 : ℤ) - 1) ≤ (2 : ℝ) ^ (-((53 : ℕ) : ℤ)) * _
    calc (2 : ℝ) ^ ((-1074 : ℤ) - 1) = (2 : ℝ) ^ (-((53 : ℕ) : ℤ)) * (2 : ℝ) ^ (-1022 : ℤ) := by
          rw [← zpow_add₀ (by norm_num)]; congr 1
      _ ≤ _ := mul_le_mul_of_nonneg_left hn (two_zpow_pos _).le

/-! ## The hypotheses are met -/

theorem nearest_round : Nearest round := fun x => by rw [abs_sub_comm]; exact abs_sub_round x

theorem isDouble_binary64 : IsDouble binary64 := rfl

/-- 1/4 is a double, and so is its negation. -/
example : parse (numLex binary64) (showG round (precision 0) (-1 / 4)) = .ok (.const (-1 / 4)) :=
  C75_double binary64 rfl nearest_round _ ⟨-1, -2, by norm_num, by norm_num, by norm_num⟩

/-- `x + 1/4` is an expression over doubles. -/
example : Over binary64 (.bin .add (.var ['x']) (.const (1 / 4))) :=
  .bin (.var isName_x) (.const ⟨1, -2, by norm_num, by norm_num, by norm_num⟩)

/-- Texts of digits: the double nearest 0.1 has the digits 10000000000000001 and the exponent -1. -/
example : fmtG 17 10000000000000001 (-1) = "0.10000000000000001".toList ∧
    fmtG 17 10000000000000000 (-5) = "1e-05".toList ∧ fmtG 17 12500000000000000 2 = "125".toList ∧
    fmtG 17 12500000000000000 0 = "1.25".toList ∧ fmtG 17 12500000000000000 (-4) = "0.000125".toList ∧
    fmtG 17 17976931348623157 308 = "1.7976931348623157e+308".toList ∧
    fmtG 17 10000000000000000 17 = "1e+17".toList ∧ fmtG 17 10000000000000000 16 = "10000000000000000".toList := by
  decide +kernel

/-- A literal of three digits. -/
example : litVal "0.125".toList = (125 : ℕ) * (10 : ℝ) ^ (-3 : ℤ) := by
  have := litVal_point (ip := ['0']) (fp := ['1', '2', '5']) (r := []) (digits_zeros 1)
    (by intro c hc; simp at hc; rcases hc with rfl | rfl | rfl <;> decide) (.inl rfl)
  simp only [List.append_nil, List.singleton_append] at this
  rw [show "0.125".toList = '0' :: '.' :: ['1', '2', '5'] by decide, this,
    show digitsVal ['0', '1', '2', '5'] = 125 by decide]
  simp [expOf]

end Stator.Fp
