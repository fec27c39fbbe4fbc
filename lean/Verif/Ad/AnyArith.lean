import Verif.Ad.Props
import Verif.Fp.FastSub

/-!
# C104: automatic differentiation in any arithmetic

The loops of `ad.hpp` over any type of numbers, with whatever the operations of that type give (rounded results, infinities, NaN).
What holds without any assumption on the arithmetic: the entries do not depend on how many are asked for, the first entry is the
number a plain evaluation computes, and no access is out of bounds. With the real numbers the loops are those of C36.
-/

namespace Stator.Ad

open Stator.Pol

variable {α : Type}

/-- The operations of a type of numbers. `none`: not a number of the type. -/
structure Ops (α : Type) where
  zero : α
  one : α
  /-- `double(i)` for a `size_t`. -/
  nat : ℕ → α
  neg : α → α
  add : α → α → α
  sub : α → α → α
  mul : α → α → α
  div : α → α → Option α
  exp : α → α
  sin : α → α
  cos : α → α
  log : α → Option α
  pow : α → α → Option α

/-- The real numbers. -/
noncomputable def realOps : Ops ℝ where
  zero := 0
  one := 1
  nat i := i
  neg x := -x
  add x y := x + y
  sub x y := x - y
  mul x y := x * y
  div := quo
  exp := Real.exp
  sin := Real.sin
  cos := Real.cos
  log := log?
  pow := pow?

/-- A type whose operations always give something, as those of `double` do. -/
def total (N : NumOps α) (nat : ℕ → α) : Ops α where
  zero := N.zero
  one := N.one
  nat := nat
  neg := N.neg
  add := N.add
  sub := N.sub
  mul := N.mul
  div x y := some (N.div x y)
  exp := N.exp
  sin := N.sin
  cos := N.cos
  log x := some (N.log x)
  pow x y := some (N.pow x y)

section Model

variable (O : Ops α)

/-- `Matrix::Zero()`. -/
def zerosG (N : ℕ) : Arr α N := fun _ => O.zero

/-- `s[k] += v` -/
def addToG {N : ℕ} (s : Arr α N) (k : ℕ) (v : α) : Option (Arr α N) :=
  (rd s k).bind fun x => wr s k (O.add x v)

/-- `s[k] -= v` -/
def subToG {N : ℕ} (s : Arr α N) (k : ℕ) (v : α) : Option (Arr α N) :=
  (rd s k).bind fun x => wr s k (O.sub x v)

/-- models: ad.hpp:28-34. -/
def constG (N : ℕ) (v : α) : Option (Arr α N) := wr (zerosG O N) 0 v

/-- models: ad.hpp:36-46. -/
def varG (N : ℕ) (n x : List Char) (a : α) : Option (Arr α N) :=
  if n = x then
    (wr (zerosG O N) 0 a).bind fun r => if N > 0 then wr r 1 O.one else some r
  else none

/-- models: ad.hpp:48-51. -/
def addG {N : ℕ} (l r : Arr α N) : Option (Arr α N) := some fun i => O.add (l i) (r i)

/-- models: ad.hpp:53-56. -/
def subG {N : ℕ} (l r : Arr α N) : Option (Arr α N) := some fun i => O.sub (l i) (r i)

/-- models: ad.hpp:58-70. -/
def mulG {N : ℕ} (l r : Arr α N) : Option (Arr α N) := do
  let l0 ← rd l 0
  let r0 ← rd r 0
  let s ← wr (zerosG O N) 0 (O.mul l0 r0)
  forUp (fun k s =>
    forUp (fun i s => do
      let x ← rd l i
      let y ← rd r (k - i)
      addToG O s k (O.mul x y)) 0 (k + 1) s) 1 N s

/-- models: ad.hpp:72-87. -/
def divG {N : ℕ} (l r : Arr α N) : Option (Arr α N) := do
  let l0 ← rd l 0
  let r0 ← rd r 0
  let q ← O.div l0 r0
  let s ← wr (zerosG O N) 0 q
  forUp (fun k s => do
    let lk ← rd l k
    let s ← wr s k lk
    let s ← forUp (fun i s => do
      let x ← rd s i
      let y ← rd r (k - i)
      subToG O s k (O.mul x y)) 0 k s
    let v ← rd s k
    let v ← O.div v r0
    wr s k v) 1 N s

/-- models: ad.hpp:89-102. -/
def expG {N : ℕ} (g : Arr α N) : Option (Arr α N) := do
  let g0 ← rd g 0
  let s ← wr (zerosG O N) 0 (O.exp g0)
  forUp (fun k s => do
    let s ← forUp (fun i s => do
      let x ← rd g i
      let y ← rd s (k - i)
      addToG O s k (O.mul (O.mul (O.nat i) x) y)) 1 k s
    let v ← rd s k
    let v ← O.div v (O.nat k)
    wr s k v) 1 N s

/-- models: ad.hpp:104-118. -/
def logG {N : ℕ} (g : Arr α N) : Option (Arr α N) := do
  let g0 ← rd g 0
  let l0 ← O.log g0
  let s ← wr (zerosG O N) 0 l0
  forUp (fun k s => do
    let s ← forUp (fun i s => do
      let x ← rd s i
      let y ← rd g (k - i)
      addToG O s k (O.mul (O.mul (O.nat i) x) y)) 1 (k - 1) s
    let v ← rd s k
    let gk ← rd g k
    let v ← O.div v (O.nat k)
    let v ← O.div (O.sub gk v) g0
    wr s k v) 1 N s

/-- models: ad.hpp:120-139, 141-160 (the two updates in the inner loop are in the other order for the cosine; they write to different
arrays and read entries below `k` only). -/
def sinCosG {N : ℕ} (g : Arr α N) : Option (Arr α N × Arr α N) := do
  let g0 ← rd g 0
  let c ← wr (zerosG O N) 0 (O.cos g0)
  let s ← wr (zerosG O N) 0 (O.sin g0)
  forUp (fun k p => do
    let p ← forUp (fun i p => do
      let x ← rd g i
      let y ← rd p.2 (k - i)
      let s ← addToG O p.1 k (O.mul (O.mul (O.nat i) x) y)
      let z ← rd s (k - i)
      let c ← addToG O p.2 k (O.mul (O.mul (O.nat i) x) z)
      some (s, c)) 1 k p
    let v ← rd p.1 k
    let v ← O.div v (O.nat k)
    let s ← wr p.1 k v
    let w ← rd p.2 k
    let w ← O.div w (O.neg (O.nat k))
    let c ← wr p.2 k w
    some (s, c)) 1 N (s, c)

/-- models: ad.hpp:163-178. -/
def powConstG {N : ℕ} (g : Arr α N) (a : α) : Option (Arr α N) := do
  let g0 ← rd g 0
  let p ← O.pow g0 a
  let s ← wr (zerosG O N) 0 p
  forUp (fun k s => do
    let s ← forUp (fun i s => do
      let q ← O.div (O.mul (O.add a O.one) (O.nat i)) (O.nat k)
      let x ← rd g i
      let y ← rd s (k - i)
      addToG O s k (O.mul (O.mul (O.sub q O.one) x) y)) 1 k s
    let v ← rd s k
    let v ← O.div v g0
    wr s k v) 1 N s

/-- models: ad.hpp:180-205. -/
def powG {N : ℕ} (f g lnf : Arr α N) : Option (Arr α N) := do
  let f0 ← rd f 0
  let g0 ← rd g 0
  let p ← O.pow f0 g0
  let s ← wr (zerosG O N) 0 p
  forUp (fun m s => do
    let s ← forUp (fun j s =>
      forUp (fun i s => do
        let flnf ← forUp (fun k (acc : α) => do
          let x ← rd f k
          let y ← rd lnf (m - i - j - k)
          some (O.add acc (O.mul x y))) 0 (m - i - j + 1) O.zero
        let ri ← rd s i
        let fj ← rd f j
        let gm ← rd g (m - i - j)
        let gj ← rd g j
        addToG O s m (O.mul (O.mul (O.nat j) ri) (O.add (O.mul fj gm) (O.mul gj flnf)))) 0 (m - j + 1) s) 1 m s
    let s ← forUp (fun j s => do
      let x ← rd f (m - j)
      let y ← rd s j
      subToG O s m (O.mul (O.mul (O.nat j) x) y)) 1 (m - 1) s
    let v ← rd s m
    let v ← O.div v (O.mul (O.nat m) f0)
    wr s m v) 1 N s

/-- `ad<Nd>(f, x = a)`, with fuel. models: ad.hpp:28-251, runtime.hpp:159,470. -/
def adG (N : ℕ) (x : List Char) (a : α) : ℕ → Expr α → Res (Option (Arr α N))
  | 0, _ => .diverge
  | _ + 1, .const v => .ok (constG O N v)
  | _ + 1, .var n => .ok (varG O N n x a)
  | n + 1, .un .exp u => do
    let g ← adG N x a n u
    .ok (g.bind (expG O))
  | n + 1, .un .log u => do
    let g ← adG N x a n u
    .ok (g.bind (logG O))
  | n + 1, .un .sin u => do
    let g ← adG N x a n u
    .ok (g.bind fun g => (sinCosG O g).map Prod.fst)
  | n + 1, .un .cos u => do
    let g ← adG N x a n u
    .ok (g.bind fun g => (sinCosG O g).map Prod.snd)
  | n + 1, .bin .add l r => do
    let l ← adG N x a n l
    let r ← adG N x a n r
    .ok (l.bind fun l => r.bind (addG O l))
  | n + 1, .bin .sub l r => do
    let l ← adG N x a n l
    let r ← adG N x a n r
    .ok (l.bind fun l => r.bind (subG O l))
  | n + 1, .bin .mul l r => do
    let l ← adG N x a n l
    let r ← adG N x a n r
    .ok (l.bind fun l => r.bind (mulG O l))
  | n + 1, .bin .div l r => do
    let l ← adG N x a n l
    let r ← adG N x a n r
    .ok (l.bind fun l => r.bind (divG O l))
  | n + 1, .bin .pow l (.const c) => do
    let l ← adG N x a n l
    .ok (l.bind fun l => powConstG O l c)
  | n + 1, .bin .pow l r => do
    let f ← adG N x a n l
    let g ← adG N x a n r
    .ok (f.bind fun f => g.bind fun g => (logG O f).bind (powG O f g))
  | n + 1, e => adG N x a n e

end Model

/-- Specification: the expressions `ad` has an overload for, with no variable but `x`. -/
def Differentiable (x : List Char) : Expr α → Prop
  | .const _ => True
  | .var n => n = x
  | .un o u => (o = .exp ∨ o = .log ∨ o = .sin ∨ o = .cos) ∧ Differentiable x u
  | .bin o l r => (o = .add ∨ o = .sub ∨ o = .mul ∨ o = .div ∨ o = .pow) ∧ Differentiable x l ∧ Differentiable x r
  | _ => False

/-! ## With the real numbers -/

theorem subTo_real {N : ℕ} (s : Arr ℝ N) (k : ℕ) (v : ℝ) : subToG realOps s k v = addTo s k (-v) := by
  unfold subToG addTo
  simp [realOps, sub_eq_add_neg]

theorem addTo_real {N : ℕ} (s : Arr ℝ N) (k : ℕ) (v : ℝ) : addToG realOps s k v = addTo s k v := rfl

theorem divG_real {N : ℕ} (l r : Arr ℝ N) : divG realOps l r = adDiv l r := by
  unfold divG adDiv
  simp only [subTo_real]
  rfl

theorem powG_real {N : ℕ} (f g h : Arr ℝ N) : powG realOps f g h = adPow f g h := by
  unfold powG adPow
  simp only [subTo_real]
  rfl

/-- **C104**: with the real numbers it is the function of C36. -/
theorem C104_real (N : ℕ) (x : List Char) (a : ℝ) (n : ℕ) (e : Expr ℝ) : adG realOps N x a n e = ad N x a n e := by
  have hd : ∀ l : Arr ℝ N, divG realOps l = adDiv l := fun l => funext fun r => divG_real l r
  have hp : ∀ f g : Arr ℝ N, powG realOps f g = adPow f g := fun f g => funext fun h => powG_real f g h
  induction n generalizing e with
  | zero => rfl
  | succ n ih =>
    cases e with
    | const => rfl
    | var => rfl
    | arr => simp only [adG, ad, ih]
    | dict => simp only [adG, ad, ih]
    | un o u => cases o <;> simp only [adG, ad, ih] <;> rfl
    | bin o l r =>
      cases o
      case pow => cases r <;> simp only [adG, ad, ih, hp] <;> rfl
      all_goals simp only [adG, ad, ih, hd] <;> rfl

/-! ## Loops -/

/-- The array whose entries up to `k` are those of the series `S`. -/
def upto (N k : ℕ) (S : ℕ → α) (z : α) : Arr α N := fun j => if (j : ℕ) ≤ k then S j else z

/-- The array `upto N (k-1) S z` with the entry `k` replaced. -/
def setAt (N k : ℕ) (S : ℕ → α) (z v : α) : Arr α N := fun j => if (j : ℕ) < k then S j else if (j : ℕ) = k then v else z

theorem rd_upto {N k i : ℕ} (S : ℕ → α) (z : α) (h : i ≤ k) (hN : i ≤ N) : rd (upto N k S z) i = some (S i) := by
  unfold rd upto
  rw [dif_pos (by omega), if_pos h]

theorem rd_lt {N k i : ℕ} (S : ℕ → α) (z v : α) (h : i < k) (hN : i ≤ N) : rd (setAt N k S z v) i = some (S i) := by
  unfold rd setAt
  rw [dif_pos (by omega), if_pos h]

theorem rd_at {N k : ℕ} (S : ℕ → α) (z v : α) (hN : k ≤ N) : rd (setAt N k S z v) k = some v := by
  unfold rd setAt
  rw [dif_pos (by omega)]
  simp

theorem wr_at {N k : ℕ} (S : ℕ → α) (z v w : α) (hN : k ≤ N) : wr (setAt N k S z v) k w = some (setAt N k S z w) := by
  unfold wr
  rw [dif_pos (by omega)]
  congr 1
  funext j
  by_cases h : j = ⟨k, by omega⟩
  · subst h
    simp [setAt]
  · rw [Function.update_of_ne h]
    have : (j : ℕ) ≠ k := fun h' => h (Fin.ext h')
    simp [setAt, this]

theorem upto_set {N k : ℕ} (S : ℕ → α) (z : α) : upto N k S z = setAt N (k + 1) S z z := by
  funext j
  unfold upto setAt
  by_cases h : (j : ℕ) ≤ k
  · rw [if_pos h, if_pos (by omega)]
  · rw [if_neg h, if_neg (by omega)]
    split <;> rfl

theorem set_upto {N k : ℕ} (S : ℕ → α) (z : α) : setAt N k S z (S k) = upto N k S z := by
  funext j
  unfold upto setAt
  by_cases h : (j : ℕ) < k
  · rw [if_pos h, if_pos (by omega)]
  · rw [if_neg h]
    by_cases h' : (j : ℕ) = k
    · rw [if_pos h', if_pos h'.le, h']
    · rw [if_neg h', if_neg (by omega)]

theorem upto_full {N : ℕ} (S : ℕ → α) (z : α) : upto N N S z = fun j : Fin (N + 1) => S j := by
  funext j
  unfold upto
  rw [if_pos (by omega)]

/-- The result of a loop over `i = lo, …` that changes one number. -/
def fold (g : ℕ → α → α) (lo : ℕ) : ℕ → α → α
  | 0, v => v
  | c + 1, v => g (lo + c) (fold g lo c v)

theorem fold_congr {g g' : ℕ → α → α} {lo c : ℕ} (h : ∀ i, lo ≤ i → i < lo + c → ∀ v, g i v = g' i v) (v : α) :
    fold g lo c v = fold g' lo c v := by
  induction c with
  | zero => rfl
  | succ c ih =>
    simp only [fold]
    rw [ih fun i h1 h2 => h i h1 (by omega), h _ (by omega) (by omega)]

/-- A loop every round of which takes `A v` to `A (g i v)`. -/
theorem forUp_fold {σ : Type} (A : α → σ) (body : ℕ → σ → Option σ) (g : ℕ → α → α) (lo c : ℕ)
    (h : ∀ i, lo ≤ i → i < lo + c → ∀ v, body i (A v) = some (A (g i v))) (v : α) :
    forUp body lo c (A v) = some (A (fold g lo c v)) := by
  induction c with
  | zero => rfl
  | succ c ih =>
    rw [forUp, ih fun i h1 h2 => h i h1 (by omega)]
    exact h _ (by omega) (by omega) _

/-- A loop that fills an array entry by entry. -/
theorem forUp_steps {σ : Type} (A : ℕ → σ) (body : ℕ → σ → Option σ) (N : ℕ)
    (h : ∀ k, k < N → body (k + 1) (A k) = some (A (k + 1))) : forUp body 1 N (A 0) = some (A N) := by
  have : ∀ c, c ≤ N → forUp body 1 c (A 0) = some (A c) := by
    intro c hc
    induction c with
    | zero => rfl
    | succ c ih =>
      rw [forUp, ih (by omega), Option.bind_some, Nat.add_comm]
      exact h c (by omega)
  exact this N le_rfl

theorem start {N : ℕ} (z v : α) (S : ℕ → α) (h : S 0 = v) : wr (fun _ => z : Arr α N) 0 v = some (upto N 0 S z) := by
  unfold wr
  rw [dif_pos (by omega)]
  congr 1
  funext j
  by_cases h' : j = ⟨0, by omega⟩
  · subst h'
    simp [upto, h]
  · rw [Function.update_of_ne h']
    have : (j : ℕ) ≠ 0 := fun h'' => h' (Fin.ext h'')
    simp [upto, this]

/-- A series is determined by its first entry and a rule that gives every entry from those before. -/
theorem series {β : Type} (s : β) (F : ℕ → (ℕ → β) → β)
    (hF : ∀ k S S', (∀ j, j < k → S j = S' j) → F k S = F k S') : ∃ S : ℕ → β, S 0 = s ∧ ∀ k, S (k + 1) = F (k + 1) S := by
  let H : ℕ → ℕ → β := fun k => Nat.rec (fun _ => s) (fun k h => fun j => if j = k + 1 then F (k + 1) h else h j) k
  have hs : ∀ k j, H (k + 1) j = if j = k + 1 then F (k + 1) (H k) else H k j := fun k j => rfl
  have hH : ∀ k d, H (k + d) k = H k k := by
    intro k d
    induction d with
    | zero => rfl
    | succ d ih => rw [← Nat.add_assoc, hs, if_neg (by omega), ih]
  refine ⟨fun k => H k k, rfl, fun k => ?_⟩
  show H (k + 1) (k + 1) = _
  rw [hs, if_pos rfl]
  apply hF
  intro j hj
  obtain ⟨d, rfl⟩ := Nat.exists_eq_add_of_le (show j ≤ k by omega)
  exact hH j d

/-! ## The operations on series -/

/-- The first entries of a series. -/
def cut (N : ℕ) (S : ℕ → α) : Arr α N := fun j => S j

theorem rd_cut {N i : ℕ} (S : ℕ → α) (h : i ≤ N) : rd (cut N S) i = some (S i) := by
  unfold rd cut
  rw [dif_pos (by omega)]

theorem upto_cut {N : ℕ} (S : ℕ → α) (z : α) : upto N N S z = cut N S := upto_full S z

variable (P : NumOps α) (nat : ℕ → α)

theorem total_zero : (total P nat).zero = P.zero := rfl
theorem total_one : (total P nat).one = P.one := rfl
theorem total_nat : (total P nat).nat = nat := rfl
theorem total_neg : (total P nat).neg = P.neg := rfl
theorem total_add : (total P nat).add = P.add := rfl
theorem total_sub : (total P nat).sub = P.sub := rfl
theorem total_mul : (total P nat).mul = P.mul := rfl
theorem total_div (x y : α) : (total P nat).div x y = some (P.div x y) := rfl
theorem total_exp : (total P nat).exp = P.exp := rfl
theorem total_sin : (total P nat).sin = P.sin := rfl
theorem total_cos : (total P nat).cos = P.cos := rfl
theorem total_log (x : α) : (total P nat).log x = some (P.log x) := rfl
theorem total_pow (x y : α) : (total P nat).pow x y = some (P.pow x y) := rfl

theorem addTo_at {N k : ℕ} (S : ℕ → α) (z v w : α) (hN : k ≤ N) :
    addToG (total P nat) (setAt N k S z v) k w = some (setAt N k S z (P.add v w)) := by
  unfold addToG
  rw [rd_at _ _ _ hN, Option.bind_some, wr_at _ _ _ _ hN]
  rfl

theorem subTo_at {N k : ℕ} (S : ℕ → α) (z v w : α) (hN : k ≤ N) :
    subToG (total P nat) (setAt N k S z v) k w = some (setAt N k S z (P.sub v w)) := by
  unfold subToG
  rw [rd_at _ _ _ hN, Option.bind_some, wr_at _ _ _ _ hN]
  rfl

theorem const_series (v : α) : ∃ S : ℕ → α, S 0 = v ∧ (∀ N, constG (total P nat) N v = some (cut N S)) ∧
    ∀ k, S k = if k = 0 then v else P.zero := by
  refine ⟨fun k => if k = 0 then v else P.zero, rfl, fun N => ?_, fun _ => rfl⟩
  unfold constG zerosG
  rw [start _ v (fun k => if k = 0 then v else P.zero) rfl]
  congr 1
  funext j
  unfold upto cut
  by_cases h : (j : ℕ) = 0 <;> simp [h, total]

theorem var_series (x : List Char) (a : α) : ∃ S : ℕ → α, S 0 = a ∧ (∀ N, varG (total P nat) N x x a = some (cut N S)) ∧
    ∀ k, S k = if k = 0 then a else if k = 1 then P.one else P.zero := by
  refine ⟨fun k => if k = 0 then a else if k = 1 then P.one else P.zero, rfl, fun N => ?_, fun _ => rfl⟩
  unfold varG zerosG
  rw [if_pos rfl, start _ a (fun k => if k = 0 then a else if k = 1 then P.one else P.zero) rfl, Option.bind_some]
  split
  · rw [upto_set, zero_add, wr_at _ _ _ _ (by omega)]
    congr 1
    funext j
    unfold setAt cut
    by_cases h : (j : ℕ) = 0
    · simp [h]
    · by_cases h' : (j : ℕ) = 1 <;> simp [h, h', total]
  · congr 1
    funext j
    have : (j : ℕ) = 0 := by omega
    simp [upto, cut, this]

theorem add_series (L R : ℕ → α) :
    ∃ S : ℕ → α, S 0 = P.add (L 0) (R 0) ∧ (∀ N, addG (total P nat) (cut N L) (cut N R) = some (cut N S)) ∧
      ∀ k, S k = P.add (L k) (R k) :=
  ⟨fun k => P.add (L k) (R k), rfl, fun _ => rfl, fun _ => rfl⟩

theorem sub_series (L R : ℕ → α) :
    ∃ S : ℕ → α, S 0 = P.sub (L 0) (R 0) ∧ (∀ N, subG (total P nat) (cut N L) (cut N R) = some (cut N S)) ∧
      ∀ k, S k = P.sub (L k) (R k) :=
  ⟨fun k => P.sub (L k) (R k), rfl, fun _ => rfl, fun _ => rfl⟩

theorem mul_series (L R : ℕ → α) :
    ∃ S : ℕ → α, S 0 = P.mul (L 0) (R 0) ∧ (∀ N, mulG (total P nat) (cut N L) (cut N R) = some (cut N S)) ∧
      ∀ k, S (k + 1) = fold (fun i v => P.add v (P.mul (L i) (R (k + 1 - i)))) 0 (k + 1 + 1) P.zero := by
  obtain ⟨S, h0, hS⟩ := series (P.mul (L 0) (R 0))
    (fun k _ => fold (fun i v => P.add v (P.mul (L i) (R (k - i)))) 0 (k + 1) P.zero) (fun _ _ _ _ => rfl)
  refine ⟨S, h0, fun N => ?_, hS⟩
  unfold mulG zerosG
  rw [rd_cut _ (by omega), rd_cut _ (by omega)]
  simp only [Option.bind_eq_bind, Option.bind_some, total_zero, total_one, total_nat, total_neg, total_add, total_sub, total_mul, total_div, total_exp, total_sin,
    total_cos, total_log, total_pow]
  rw [start _ _ S h0, Option.bind_some, ← upto_cut S P.zero]
  refine forUp_steps (fun k => upto N k S P.zero) _ N fun k hk => ?_
  show forUp _ 0 (k + 1 + 1) (upto N k S P.zero) = _
  rw [upto_set]
  rw [forUp_fold (setAt N (k + 1) S P.zero) _ (fun i v => P.add v (P.mul (L i) (R (k + 1 - i)))) 0 (k + 1 + 1)
    (fun i h1 h2 v => by
      rw [rd_cut _ (by omega), rd_cut _ (by omega)]
      exact addTo_at P nat _ _ _ _ (by omega)), ← hS, set_upto]

theorem div_series (L R : ℕ → α) :
    ∃ S : ℕ → α, S 0 = P.div (L 0) (R 0) ∧ ∀ N, divG (total P nat) (cut N L) (cut N R) = some (cut N S) := by
  obtain ⟨S, h0, hS⟩ := series (P.div (L 0) (R 0))
    (fun k S => P.div (fold (fun i v => P.sub v (P.mul (S i) (R (k - i)))) 0 k (L k)) (R 0))
    (fun k S S' h => by
      rw [fold_congr fun i h1 h2 v => by rw [h i (by omega)]])
  refine ⟨S, h0, fun N => ?_⟩
  unfold divG zerosG
  rw [rd_cut _ (by omega), rd_cut _ (by omega)]
  simp only [Option.bind_eq_bind, Option.bind_some, total_zero, total_one, total_nat, total_neg, total_add, total_sub, total_mul, total_div, total_exp, total_sin,
    total_cos, total_log, total_pow]
  rw [start _ _ S h0, Option.bind_some, ← upto_cut S P.zero]
  refine forUp_steps (fun k => upto N k S P.zero) _ N fun k hk => ?_
  show (rd (cut N L) (k + 1)).bind _ = _
  rw [rd_cut _ (by omega), Option.bind_some, upto_set]
  show (wr (setAt N (k + 1) S P.zero P.zero) _ _).bind _ = _
  rw [wr_at _ _ _ _ (by omega), Option.bind_some]
  rw [forUp_fold (setAt N (k + 1) S P.zero) _ (fun i v => P.sub v (P.mul (S i) (R (k + 1 - i)))) 0 (k + 1)
    (fun i h1 h2 v => by
      rw [rd_lt _ _ _ (by omega) (by omega), rd_cut _ (by omega)]
      exact subTo_at P nat _ _ _ _ (by omega)), Option.bind_some, rd_at _ _ _ (by omega), Option.bind_some]
  show (wr _ _ (P.div _ _)) = _
  rw [wr_at _ _ _ _ (by omega), ← hS, set_upto]

theorem exp_series (G : ℕ → α) :
    ∃ S : ℕ → α, S 0 = P.exp (G 0) ∧ ∀ N, expG (total P nat) (cut N G) = some (cut N S) := by
  obtain ⟨S, h0, hS⟩ := series (P.exp (G 0))
    (fun k S => P.div (fold (fun i v => P.add v (P.mul (P.mul (nat i) (G i)) (S (k - i)))) 1 k P.zero) (nat k))
    (fun k S S' h => by
      rw [fold_congr fun i h1 h2 v => by rw [h (k - i) (by omega)]])
  refine ⟨S, h0, fun N => ?_⟩
  unfold expG zerosG
  rw [rd_cut _ (by omega)]
  simp only [Option.bind_eq_bind, Option.bind_some, total_zero, total_one, total_nat, total_neg, total_add, total_sub, total_mul, total_div, total_exp, total_sin,
    total_cos, total_log, total_pow]
  rw [start _ _ S h0, Option.bind_some, ← upto_cut S P.zero]
  refine forUp_steps (fun k => upto N k S P.zero) _ N fun k hk => ?_
  show (forUp _ 1 (k + 1) (upto N k S P.zero)).bind _ = _
  rw [upto_set]
  rw [forUp_fold (setAt N (k + 1) S P.zero) _ (fun i v => P.add v (P.mul (P.mul (nat i) (G i)) (S (k + 1 - i)))) 1 (k + 1)
    (fun i h1 h2 v => by
      rw [rd_cut _ (by omega), Option.bind_some, rd_lt _ _ _ (by omega) (by omega)]
      exact addTo_at P nat _ _ _ _ (by omega)), Option.bind_some, rd_at _ _ _ (by omega), Option.bind_some]
  show (wr _ _ (P.div _ _)) = _
  rw [wr_at _ _ _ _ (by omega), ← set_upto, hS]

theorem log_series (G : ℕ → α) :
    ∃ S : ℕ → α, S 0 = P.log (G 0) ∧ ∀ N, logG (total P nat) (cut N G) = some (cut N S) := by
  obtain ⟨S, h0, hS⟩ := series (P.log (G 0))
    (fun k S => P.div (P.sub (G k)
      (P.div (fold (fun i v => P.add v (P.mul (P.mul (nat i) (S i)) (G (k - i)))) 1 (k - 1) P.zero) (nat k))) (G 0))
    (fun k S S' h => by
      rw [fold_congr fun i h1 h2 v => by rw [h i (by omega)]])
  refine ⟨S, h0, fun N => ?_⟩
  unfold logG zerosG
  rw [rd_cut _ (by omega)]
  simp only [Option.bind_eq_bind, Option.bind_some, total_zero, total_one, total_nat, total_neg, total_add, total_sub, total_mul, total_div, total_exp, total_sin,
    total_cos, total_log, total_pow]
  rw [start _ _ S h0, Option.bind_some, ← upto_cut S P.zero]
  refine forUp_steps (fun k => upto N k S P.zero) _ N fun k hk => ?_
  show (forUp _ 1 (k + 1 - 1) (upto N k S P.zero)).bind _ = _
  rw [upto_set]
  rw [forUp_fold (setAt N (k + 1) S P.zero) _ (fun i v => P.add v (P.mul (P.mul (nat i) (S i)) (G (k + 1 - i)))) 1 (k + 1 - 1)
    (fun i h1 h2 v => by
      rw [rd_lt _ _ _ (by omega) (by omega), Option.bind_some, rd_cut _ (by omega)]
      exact addTo_at P nat _ _ _ _ (by omega)), Option.bind_some, rd_at _ _ _ (by omega), Option.bind_some, rd_cut _ (by omega), Option.bind_some]
  show (wr _ _ (P.div (P.sub _ (P.div _ _)) _)) = _
  rw [wr_at _ _ _ _ (by omega), ← set_upto, hS]

theorem sinCos_series (G : ℕ → α) :
    ∃ S C : ℕ → α, S 0 = P.sin (G 0) ∧ C 0 = P.cos (G 0) ∧
      ∀ N, sinCosG (total P nat) (cut N G) = some (cut N S, cut N C) := by
  obtain ⟨Q, h0, hQ⟩ := series (P.sin (G 0), P.cos (G 0))
    (fun k Q => (P.div (fold (fun i v => P.add v (P.mul (P.mul (nat i) (G i)) (Q (k - i)).2)) 1 k P.zero) (nat k),
      P.div (fold (fun i v => P.add v (P.mul (P.mul (nat i) (G i)) (Q (k - i)).1)) 1 k P.zero) (P.neg (nat k))))
    (fun k Q Q' h => by
      rw [fold_congr fun i h1 h2 v => by rw [h (k - i) (by omega)]]
      congr 2
      exact fold_congr (fun i h1 h2 v => by rw [h (k - i) (by omega)]) _)
  obtain ⟨S, hS'⟩ : ∃ S : ℕ → α, ∀ k, S k = (Q k).1 := ⟨fun k => (Q k).1, fun _ => rfl⟩
  obtain ⟨C, hC'⟩ : ∃ C : ℕ → α, ∀ k, C k = (Q k).2 := ⟨fun k => (Q k).2, fun _ => rfl⟩
  have hS0 : S 0 = P.sin (G 0) := by rw [hS', h0]
  have hC0 : C 0 = P.cos (G 0) := by rw [hC', h0]
  have hS : ∀ k, S (k + 1) = P.div (fold (fun i v => P.add v (P.mul (P.mul (nat i) (G i)) (C (k + 1 - i)))) 1 (k + 1) P.zero)
      (nat (k + 1)) := fun k => by simp only [hC', hS', hQ]
  have hC : ∀ k, C (k + 1) = P.div (fold (fun i v => P.add v (P.mul (P.mul (nat i) (G i)) (S (k + 1 - i)))) 1 (k + 1) P.zero)
      (P.neg (nat (k + 1))) := fun k => by simp only [hC', hS', hQ]
  refine ⟨S, C, hS0, hC0, fun N => ?_⟩
  unfold sinCosG zerosG
  rw [rd_cut _ (by omega)]
  simp only [Option.bind_eq_bind, Option.bind_some, total_zero, total_one, total_nat, total_neg, total_add, total_sub, total_mul, total_div, total_exp, total_sin,
    total_cos, total_log, total_pow]
  rw [start _ _ C hC0, Option.bind_some, start _ _ S hS0, Option.bind_some, ← upto_cut S P.zero, ← upto_cut C P.zero]
  refine forUp_steps (fun k => (upto N k S P.zero, upto N k C P.zero)) _ N fun k hk => ?_
  rw [upto_set, upto_set]
  have key : ∀ c, c ≤ k + 1 → forUp (fun i (p : Arr α N × Arr α N) => (rd (cut N G) i).bind fun x => (rd p.2 (k + 1 - i)).bind fun y =>
      (addToG (total P nat) p.1 (k + 1) (P.mul (P.mul (nat i) x) y)).bind fun s => (rd s (k + 1 - i)).bind fun z =>
      (addToG (total P nat) p.2 (k + 1) (P.mul (P.mul (nat i) x) z)).bind fun c => some (s, c)) 1 c
      (setAt N (k + 1) S P.zero P.zero, setAt N (k + 1) C P.zero P.zero) =
      some (setAt N (k + 1) S P.zero (fold (fun i v => P.add v (P.mul (P.mul (nat i) (G i)) (C (k + 1 - i)))) 1 c P.zero),
        setAt N (k + 1) C P.zero (fold (fun i v => P.add v (P.mul (P.mul (nat i) (G i)) (S (k + 1 - i)))) 1 c P.zero)) := by
    intro c hc
    induction c with
    | zero => rfl
    | succ c ih =>
      rw [forUp, ih (by omega), Option.bind_some, rd_cut _ (by omega), Option.bind_some,
        rd_lt _ _ _ (by omega) (by omega), Option.bind_some, addTo_at _ _ _ _ _ _ (by omega), Option.bind_some,
        rd_lt _ _ _ (by omega) (by omega), Option.bind_some, addTo_at _ _ _ _ _ _ (by omega)]
      rfl
  rw [key (k + 1) le_rfl, Option.bind_some, rd_at _ _ _ (by omega), Option.bind_some, wr_at _ _ _ _ (by omega), Option.bind_some,
    rd_at _ _ _ (by omega), Option.bind_some, wr_at _ _ _ _ (by omega), Option.bind_some, ← hS, ← hC, set_upto, set_upto]

theorem powConst_series (G : ℕ → α) (a : α) :
    ∃ S : ℕ → α, S 0 = P.pow (G 0) a ∧ ∀ N, powConstG (total P nat) (cut N G) a = some (cut N S) := by
  obtain ⟨S, h0, hS⟩ := series (P.pow (G 0) a)
    (fun k S => P.div (fold (fun i v => P.add v (P.mul (P.mul (P.sub (P.div (P.mul (P.add a P.one) (nat i)) (nat k)) P.one) (G i))
      (S (k - i)))) 1 k P.zero) (G 0))
    (fun k S S' h => by rw [fold_congr fun i h1 h2 v => by rw [h (k - i) (by omega)]])
  refine ⟨S, h0, fun N => ?_⟩
  unfold powConstG zerosG
  rw [rd_cut _ (by omega)]
  simp only [Option.bind_eq_bind, Option.bind_some, total_zero, total_one, total_nat, total_neg, total_add, total_sub, total_mul, total_div, total_exp, total_sin,
    total_cos, total_log, total_pow]
  rw [start _ _ S h0, Option.bind_some, ← upto_cut S P.zero]
  refine forUp_steps (fun k => upto N k S P.zero) _ N fun k hk => ?_
  show (forUp _ 1 (k + 1) (upto N k S P.zero)).bind _ = _
  rw [upto_set]
  rw [forUp_fold (setAt N (k + 1) S P.zero) _ (fun i v => P.add v (P.mul (P.mul
      (P.sub (P.div (P.mul (P.add a P.one) (nat i)) (nat (k + 1))) P.one) (G i)) (S (k + 1 - i)))) 1 (k + 1)
    (fun i h1 h2 v => by
      rw [rd_cut _ (by omega), Option.bind_some, rd_lt _ _ _ (by omega) (by omega)]
      exact addTo_at P nat _ _ _ _ (by omega)), Option.bind_some, rd_at _ _ _ (by omega), Option.bind_some]
  rw [wr_at _ _ _ _ (by omega), ← set_upto, hS]

theorem pow_series (F G H : ℕ → α) :
    ∃ S : ℕ → α, S 0 = P.pow (F 0) (G 0) ∧ ∀ N, powG (total P nat) (cut N F) (cut N G) (cut N H) = some (cut N S) := by
  -- the sum in the innermost loop
  obtain ⟨I, hI⟩ : ∃ I : ℕ → α, ∀ d, I d = fold (fun k v => P.add v (P.mul (F k) (H (d - k)))) 0 (d + 1) P.zero := ⟨_, fun _ => rfl⟩
  obtain ⟨S, h0, hS⟩ := series (P.pow (F 0) (G 0))
    (fun m S => P.div (fold (fun j v => P.sub v (P.mul (P.mul (nat j) (F (m - j))) (S j))) 1 (m - 1)
      (fold (fun j => fold (fun i v => P.add v (P.mul (P.mul (nat j) (S i))
        (P.add (P.mul (F j) (G (m - i - j))) (P.mul (G j) (I (m - i - j)))))) 0 (m - j + 1)) 1 m P.zero))
      (P.mul (nat m) (F 0)))
    (fun m S S' h => by
      congr 1
      rw [fold_congr (fun j h1 h2 v => by rw [h j (by omega)])]
      congr 1
      exact fold_congr (fun j h1 h2 v => fold_congr (fun i h3 h4 w => by rw [h i (by omega)]) v) _)
  refine ⟨S, h0, fun N => ?_⟩
  unfold powG zerosG
  rw [rd_cut _ (by omega), rd_cut _ (by omega)]
  simp only [Option.bind_eq_bind, Option.bind_some, total_zero, total_one, total_nat, total_neg, total_add, total_sub, total_mul, total_div, total_exp, total_sin,
    total_cos, total_log, total_pow]
  rw [start _ _ S h0, Option.bind_some, ← upto_cut S P.zero]
  refine forUp_steps (fun k => upto N k S P.zero) _ N fun m hm => ?_
  rw [upto_set]
  rw [forUp_fold (setAt N (m + 1) S P.zero) _
    (fun j => fold (fun i v => P.add v (P.mul (P.mul (nat j) (S i))
        (P.add (P.mul (F j) (G (m + 1 - i - j))) (P.mul (G j) (I (m + 1 - i - j)))))) 0 (m + 1 - j + 1)) 1 (m + 1)
    (fun j h1 h2 v => by
      refine forUp_fold (setAt N (m + 1) S P.zero) _ _ 0 _ (fun i h3 h4 w => ?_) v
      rw [forUp_fold (fun v => v) _ (fun k v => P.add v (P.mul (F k) (H (m + 1 - i - j - k)))) 0 _ (fun k h5 h6 w => by
        rw [rd_cut _ (by omega), rd_cut _ (by omega)]; rfl), Option.bind_some, ← hI,
        rd_lt _ _ _ (by omega) (by omega), Option.bind_some, rd_cut _ (by omega), Option.bind_some, rd_cut _ (by omega),
        Option.bind_some, rd_cut _ (by omega), Option.bind_some]
      exact addTo_at P nat _ _ _ _ (by omega)), Option.bind_some]
  rw [forUp_fold (setAt N (m + 1) S P.zero) _ (fun j v => P.sub v (P.mul (P.mul (nat j) (F (m + 1 - j))) (S j))) 1 (m + 1 - 1)
    (fun j h1 h2 v => by
      rw [rd_cut _ (by omega), Option.bind_some, rd_lt _ _ _ (by omega) (by omega), Option.bind_some]
      exact subTo_at P nat _ _ _ _ (by omega)), Option.bind_some, rd_at _ _ _ (by omega), Option.bind_some]
  rw [wr_at _ _ _ _ (by omega), ← set_upto, hS]

/-! ## C104 -/

/-- **C104**: for every expression with overloads of `ad`, in every arithmetic, there is one series of numbers whose first entries
`ad` returns, whatever order is asked for; its first entry is the number that evaluating the expression at `x = a` with the same
arithmetic gives. In particular no access is out of bounds, and asking for more derivatives changes none of those already there. -/
theorem C104_one_series (x : List Char) (a : α) (e : Expr α) (he : Differentiable x e) :
    ∃ S : ℕ → α, (∀ s, fastSub P x a s e = .ok (S 0)) ∧
      ∀ N n, e.height ≤ n → adG (total P nat) N x a n e = .ok (some fun j => S j) := by
  unfold fastSub
  induction e using Expr.ind with
  | const k =>
    obtain ⟨S, h0, hS, -⟩ := const_series P nat k
    refine ⟨S, fun s => by rw [fastVisit, h0], fun N n hn => ?_⟩
    obtain ⟨n, rfl⟩ : ∃ m, n = m + 1 := ⟨n - 1, by rw [Expr.height] at hn; omega⟩
    rw [adG, hS]; rfl
  | var m =>
    obtain rfl : m = x := he
    obtain ⟨S, h0, hS, -⟩ := var_series P nat m a
    refine ⟨S, fun s => by rw [fastVisit, if_pos rfl, h0], fun N n hn => ?_⟩
    obtain ⟨n, rfl⟩ : ∃ m, n = m + 1 := ⟨n - 1, by rw [Expr.height] at hn; omega⟩
    rw [adG, hS]; rfl
  | un o u ih =>
    obtain ⟨ho, hu⟩ := he
    obtain ⟨G, h1, h2⟩ := ih hu
    have hn' : ∀ n, (Expr.un o u).height ≤ n → ∃ m, n = m + 1 ∧ u.height ≤ m := fun n hn => by
      rw [Expr.height] at hn; exact ⟨n - 1, by omega, by omega⟩
    rcases ho with rfl | rfl | rfl | rfl
    · obtain ⟨S, h0, hS⟩ := exp_series P nat G
      refine ⟨S, fun s => (fast_un ..).2 ⟨_, h1 s, by rw [h0]; rfl⟩, fun N n hn => ?_⟩
      obtain ⟨n, rfl, hn1⟩ := hn' n hn
      rw [adG, h2 N n hn1]
      exact congrArg Res.ok (hS N)
    · obtain ⟨S, h0, hS⟩ := log_series P nat G
      refine ⟨S, fun s => (fast_un ..).2 ⟨_, h1 s, by rw [h0]; rfl⟩, fun N n hn => ?_⟩
      obtain ⟨n, rfl, hn1⟩ := hn' n hn
      rw [adG, h2 N n hn1]
      exact congrArg Res.ok (hS N)
    · obtain ⟨S, C, h0, -, hS⟩ := sinCos_series P nat G
      refine ⟨S, fun s => (fast_un ..).2 ⟨_, h1 s, by rw [h0]; rfl⟩, fun N n hn => ?_⟩
      obtain ⟨n, rfl, hn1⟩ := hn' n hn
      rw [adG, h2 N n hn1]
      exact congrArg Res.ok (congrArg (Option.map Prod.fst) (hS N))
    · obtain ⟨C, S, -, h0, hS⟩ := sinCos_series P nat G
      refine ⟨S, fun s => (fast_un ..).2 ⟨_, h1 s, by rw [h0]; rfl⟩, fun N n hn => ?_⟩
      obtain ⟨n, rfl, hn1⟩ := hn' n hn
      rw [adG, h2 N n hn1]
      exact congrArg Res.ok (congrArg (Option.map Prod.snd) (hS N))
  | bin o l r ihl ihr =>
    obtain ⟨ho, hl, hr⟩ := he
    obtain ⟨L, l1, l2⟩ := ihl hl
    obtain ⟨R, r1, r2⟩ := ihr hr
    have hn' : ∀ n, (Expr.bin o l r).height ≤ n → ∃ m, n = m + 1 ∧ l.height ≤ m ∧ r.height ≤ m := fun n hn => by
      rw [Expr.height] at hn; exact ⟨n - 1, by omega, by omega, by omega⟩
    have fin : ∀ (S : ℕ → α) s, applyBin P o (L 0) (R 0) = some (S 0) → fastVisit P x a (.bin o l r) s = .ok (S 0) :=
      fun S s h => (fast_bin ..).2 ⟨_, _, l1 s, r1 _, h⟩
    rcases ho with rfl | rfl | rfl | rfl | rfl
    · obtain ⟨S, h0, hS, -⟩ := add_series P nat L R
      refine ⟨S, fun s => fin S s (by rw [h0]; rfl), fun N n hn => ?_⟩
      obtain ⟨n, rfl, hn1, hn2⟩ := hn' n hn
      rw [adG, l2 N n hn1, r2 N n hn2]
      exact congrArg Res.ok (hS N)
    · obtain ⟨S, h0, hS, -⟩ := sub_series P nat L R
      refine ⟨S, fun s => fin S s (by rw [h0]; rfl), fun N n hn => ?_⟩
      obtain ⟨n, rfl, hn1, hn2⟩ := hn' n hn
      rw [adG, l2 N n hn1, r2 N n hn2]
      exact congrArg Res.ok (hS N)
    · obtain ⟨S, h0, hS, -⟩ := mul_series P nat L R
      refine ⟨S, fun s => fin S s (by rw [h0]; rfl), fun N n hn => ?_⟩
      obtain ⟨n, rfl, hn1, hn2⟩ := hn' n hn
      rw [adG, l2 N n hn1, r2 N n hn2]
      exact congrArg Res.ok (hS N)
    · obtain ⟨S, h0, hS⟩ := div_series P nat L R
      refine ⟨S, fun s => fin S s (by rw [h0]; rfl), fun N n hn => ?_⟩
      obtain ⟨n, rfl, hn1, hn2⟩ := hn' n hn
      rw [adG, l2 N n hn1, r2 N n hn2]
      exact congrArg Res.ok (hS N)
    · by_cases hc : ∃ c, r = .const c
      · obtain ⟨c, rfl⟩ := hc
        obtain ⟨S, h0, hS⟩ := powConst_series P nat L c
        have : R 0 = c := by have := r1 c; rw [fastVisit] at this; injection this with this; exact this.symm
        refine ⟨S, fun s => fin S s (by rw [h0, this]; rfl), fun N n hn => ?_⟩
        obtain ⟨n, rfl, hn1, hn2⟩ := hn' n hn
        rw [adG, l2 N n hn1]
        exact congrArg Res.ok (hS N)
      · obtain ⟨H, -, hH⟩ := log_series P nat L
        obtain ⟨S, h0, hS⟩ := pow_series P nat L R H
        refine ⟨S, fun s => fin S s (by rw [h0]; rfl), fun N n hn => ?_⟩
        obtain ⟨n, rfl, hn1, hn2⟩ := hn' n hn
        rw [adG, l2 N n hn1, r2 N n hn2]
        · show Res.ok ((logG (total P nat) (cut N L)).bind (powG (total P nat) (cut N L) (cut N R))) = _
          rw [hH N, Option.bind_some, hS N]; rfl
        · intro c h; exact hc ⟨c, h⟩
  | arr => exact he.elim
  | dict => exact he.elim

/-- **C104**, the converse: only such expressions are differentiated. Another variable gives NaN, another operation (a negation, an
absolute value, an array, …) is visited without end. -/
theorem C104_only (O : Ops α) (x : List Char) (a : α) (N n : ℕ) (e : Expr α) (c : Arr α N)
    (h : adG O N x a n e = .ok (some c)) : Differentiable x e := by
  induction n generalizing e c with
  | zero => cases h
  | succ n ih =>
    have un : ∀ {u : Expr α} {F : Arr α N → Option (Arr α N)},
        ((adG O N x a n u) >>= fun g => (.ok (g.bind F) : Res (Option (Arr α N)))) = .ok (some c) → Differentiable x u := by
      intro u F h
      rw [Res.bind_eq_ok] at h
      obtain ⟨g, h1, h2⟩ := h
      injection h2 with h2
      cases g with
      | none => cases h2
      | some g => exact ih _ _ h1
    have bin : ∀ {l r : Expr α} {F : Arr α N → Arr α N → Option (Arr α N)},
        ((adG O N x a n l) >>= fun l => (adG O N x a n r) >>= fun r =>
          (.ok (l.bind fun l => r.bind (F l)) : Res (Option (Arr α N)))) = .ok (some c) →
        Differentiable x l ∧ Differentiable x r := by
      intro l r F h
      rw [Res.bind_eq_ok] at h
      obtain ⟨g, h1, h2⟩ := h
      rw [Res.bind_eq_ok] at h2
      obtain ⟨k, h2, h3⟩ := h2
      injection h3 with h3
      cases g with
      | none => cases h3
      | some g =>
        cases k with
        | none => cases h3
        | some k => exact ⟨ih _ _ h1, ih _ _ h2⟩
    cases e with
    | const k => trivial
    | var m =>
      rw [adG] at h
      injection h with h
      unfold varG at h
      split at h
      · assumption
      · cases h
    | un o u =>
      cases o
      case sin => exact ⟨by simp, un h⟩
      case cos => exact ⟨by simp, un h⟩
      case exp => exact ⟨by simp, un h⟩
      case log => exact ⟨by simp, un h⟩
      all_goals
        rw [adG] at h
        · exact absurd (ih _ _ h).1 (by simp)
        all_goals simp
    | bin o l r =>
      cases o
      case add => exact ⟨by simp, bin h⟩
      case sub => exact ⟨by simp, bin h⟩
      case mul => exact ⟨by simp, bin h⟩
      case div => exact ⟨by simp, bin h⟩
      case pow =>
        cases r
        case const k => exact ⟨by simp, un h, trivial⟩
        all_goals exact ⟨by simp, bin h⟩
      all_goals
        rw [adG] at h
        · exact absurd (ih _ _ h).1 (by simp)
        all_goals simp
    | arr xs => rw [adG] at h; · exact ih _ _ h
                all_goals simp
    | dict xs => rw [adG] at h; · exact ih _ _ h
                 all_goals simp

end Stator.Ad
