import Verif.Ad.Loops
import Verif.Rt.SimplifyLemmas

/-!
# C36: automatic differentiation computes Taylor coefficients
-/

namespace Stator.Ad

open Stator.Pol Filter Topology

/-- The assignment in which `x` is `t` and every other variable has its value under `ρ`. -/
def at_ (ρ : List Char → ℝ) (x : List Char) (t : ℝ) : List Char → ℝ := fun n => if n = x then t else ρ n

/-- Specification: the expressions and points at which `ad` is meant to work. Only the variable `x`
occurs; the operations are `+ - * / ^ exp log sin cos`; denominators are not zero, arguments of
logarithms are positive, and the base of a power is positive, or not zero if the exponent is a
number (an integer if the base is negative). -/
def Regular (x : List Char) (a : ℝ) : Expr ℝ → Prop
  | .const _ => True
  | .var n => n = x
  | .un .exp u => Regular x a u
  | .un .sin u => Regular x a u
  | .un .cos u => Regular x a u
  | .un .log u => Regular x a u ∧ ∃ v, u.eval (at_ 0 x a) = some v ∧ 0 < v
  | .bin .add l r => Regular x a l ∧ Regular x a r
  | .bin .sub l r => Regular x a l ∧ Regular x a r
  | .bin .mul l r => Regular x a l ∧ Regular x a r
  | .bin .div l r => Regular x a l ∧ Regular x a r ∧ ∃ v, r.eval (at_ 0 x a) = some v ∧ v ≠ 0
  | .bin .pow l (.const c) => Regular x a l ∧ ∃ v, l.eval (at_ 0 x a) = some v ∧ v ≠ 0 ∧ powDom v c
  | .bin .pow l r => Regular x a l ∧ Regular x a r ∧ ∃ v, l.eval (at_ 0 x a) = some v ∧ 0 < v
  | _ => False

/-- `f` is the function of `x` that `e` stands for, near `a`. -/
def Denotes (x : List Char) (a : ℝ) (e : Expr ℝ) (f : ℝ → ℝ) : Prop :=
  AnalyticAt ℝ f a ∧ ∀ᶠ t in 𝓝 a, ∀ ρ, e.eval (at_ ρ x t) = some (f t)

theorem Denotes.val {x : List Char} {a : ℝ} {e : Expr ℝ} {f : ℝ → ℝ} (h : Denotes x a e f) :
    e.eval (at_ 0 x a) = some (f a) := h.2.self_of_nhds 0

theorem powDom_near {f : ℝ → ℝ} {a c : ℝ} (hf : ContinuousAt f a) (h0 : f a ≠ 0)
    (hd : powDom (f a) c) : ∀ᶠ t in 𝓝 a, powDom (f t) c := by
  rcases hd with h | ⟨h, _⟩ | ⟨h, k⟩
  · filter_upwards [hf.eventually (lt_mem_nhds h)] with t ht using Or.inl ht
  · exact absurd h h0
  · filter_upwards [hf.eventually (gt_mem_nhds h)] with t ht using Or.inr (Or.inr ⟨ht, k⟩)

theorem height_pos (e : Expr ℝ) : 1 ≤ e.height := by
  cases e <;> simp [Expr.height]

/-- The working of `ad` on a node, given the two arrays of its operands. -/
theorem main (x : List Char) (a : ℝ) (e : Expr ℝ) (h : Regular x a e) :
    ∃ f, Denotes x a e f ∧ ∀ N, ∃ c, (∀ n, e.height ≤ n → ad N x a n e = .ok (some c)) ∧
      Holds c f a := by
  induction e using Expr.ind with
  | const v =>
    refine ⟨fun _ => v, ⟨analyticAt_const, .of_forall fun t ρ => rfl⟩, fun N => ?_⟩
    obtain ⟨c, h1, h2⟩ := adConst_holds (N := N) v a
    refine ⟨c, fun n hn => ?_, h2⟩
    cases n with
    | zero => simp [Expr.height] at hn
    | succ n => rw [ad, h1]
  | var n =>
    have h : n = x := h
    subst h
    refine ⟨fun t => t, ⟨analyticAt_id, .of_forall fun t ρ => by simp [Expr.eval, at_]⟩, fun N => ?_⟩
    obtain ⟨c, h1, h2⟩ := adVar_holds (N := N) n a
    refine ⟨c, fun m hn => ?_, h2⟩
    cases m with
    | zero => simp [Expr.height] at hn
    | succ m => rw [ad, h1]
  | un o u ih =>
    cases o with
    | exp =>
      obtain ⟨f, ⟨d1, d2⟩, hf⟩ := ih h
      refine ⟨fun t => Real.exp (f t), ⟨d1.rexp', d2.mono fun t ht ρ => by
        simp [Expr.eval, ht ρ, unVal]⟩, fun N => ?_⟩
      obtain ⟨c, h1, h2⟩ := hf N
      obtain ⟨r, h3, h4⟩ := adExp_holds h2 d1
      refine ⟨r, fun n hn => ?_, h4⟩
      cases n with
      | zero => simp [Expr.height] at hn
      | succ n =>
        rw [Expr.height] at hn
        rw [ad, h1 n (by omega), Res.ok_bind, Option.bind_some, h3]
    | sin =>
      obtain ⟨f, ⟨d1, d2⟩, hf⟩ := ih h
      refine ⟨fun t => Real.sin (f t), ⟨Real.analyticAt_sin.comp d1, d2.mono fun t ht ρ => by
        simp [Expr.eval, ht ρ, unVal]⟩, fun N => ?_⟩
      obtain ⟨c, h1, h2⟩ := hf N
      obtain ⟨r, h3, h4, _⟩ := adSinCos_holds h2 d1
      refine ⟨r.1, fun n hn => ?_, h4⟩
      cases n with
      | zero => simp [Expr.height] at hn
      | succ n =>
        rw [Expr.height] at hn
        rw [ad, h1 n (by omega), Res.ok_bind, Option.bind_some, adSin, h3]; rfl
    | cos =>
      obtain ⟨f, ⟨d1, d2⟩, hf⟩ := ih h
      refine ⟨fun t => Real.cos (f t), ⟨Real.analyticAt_cos.comp d1, d2.mono fun t ht ρ => by
        simp [Expr.eval, ht ρ, unVal]⟩, fun N => ?_⟩
      obtain ⟨c, h1, h2⟩ := hf N
      obtain ⟨r, h3, _, h4⟩ := adSinCos_holds h2 d1
      refine ⟨r.2, fun n hn => ?_, h4⟩
      cases n with
      | zero => simp [Expr.height] at hn
      | succ n =>
        rw [Expr.height] at hn
        rw [ad, h1 n (by omega), Res.ok_bind, Option.bind_some, adCos, h3]; rfl
    | log =>
      obtain ⟨h, v, hv, hv0⟩ := h
      obtain ⟨f, hd, hf⟩ := ih h
      rw [hd.val, Option.some_inj] at hv
      subst hv
      obtain ⟨d1, d2⟩ := hd
      refine ⟨fun t => Real.log (f t), ⟨d1.log hv0, ?_⟩, fun N => ?_⟩
      · filter_upwards [d2, d1.continuousAt.eventually (lt_mem_nhds hv0)] with t h1 h2 ρ
        simp [Expr.eval, h1 ρ, unVal, h2]
      obtain ⟨c, h1, h2⟩ := hf N
      obtain ⟨r, h3, h4⟩ := adLog_holds h2 d1 hv0
      refine ⟨r, fun n hn => ?_, h4⟩
      cases n with
      | zero => simp [Expr.height] at hn
      | succ n =>
        rw [Expr.height] at hn
        rw [ad, h1 n (by omega), Res.ok_bind, Option.bind_some, h3]
    | abs => exact h.elim
    | neg => exact h.elim
    | arbsign => exact h.elim
  | bin o l r ih1 ih2 =>
    cases o with
    | add =>
      obtain ⟨f, ⟨d1, d2⟩, hf⟩ := ih1 h.1
      obtain ⟨g, ⟨d3, d4⟩, hg⟩ := ih2 h.2
      refine ⟨f + g, ⟨d1.add d3, ?_⟩, fun N => ?_⟩
      · filter_upwards [d2, d4] with t h1 h2 ρ
        simp [Expr.eval, h1 ρ, h2 ρ, binVal]
      obtain ⟨c, h1, h2⟩ := hf N
      obtain ⟨c', h1', h2'⟩ := hg N
      obtain ⟨r, h3, h4⟩ := adAdd_holds h2 h2' d1 d3
      refine ⟨r, fun n hn => ?_, h4⟩
      cases n with
      | zero => simp [Expr.height] at hn
      | succ n =>
        rw [Expr.height] at hn
        rw [ad, h1 n (by omega), Res.ok_bind, h1' n (by omega), Res.ok_bind, Option.bind_some,
          Option.bind_some, h3]
    | sub =>
      obtain ⟨f, ⟨d1, d2⟩, hf⟩ := ih1 h.1
      obtain ⟨g, ⟨d3, d4⟩, hg⟩ := ih2 h.2
      refine ⟨f - g, ⟨d1.sub d3, ?_⟩, fun N => ?_⟩
      · filter_upwards [d2, d4] with t h1 h2 ρ
        simp [Expr.eval, h1 ρ, h2 ρ, binVal]
      obtain ⟨c, h1, h2⟩ := hf N
      obtain ⟨c', h1', h2'⟩ := hg N
      obtain ⟨r, h3, h4⟩ := adSub_holds h2 h2' d1 d3
      refine ⟨r, fun n hn => ?_, h4⟩
      cases n with
      | zero => simp [Expr.height] at hn
      | succ n =>
        rw [Expr.height] at hn
        rw [ad, h1 n (by omega), Res.ok_bind, h1' n (by omega), Res.ok_bind, Option.bind_some,
          Option.bind_some, h3]
    | mul =>
      obtain ⟨f, ⟨d1, d2⟩, hf⟩ := ih1 h.1
      obtain ⟨g, ⟨d3, d4⟩, hg⟩ := ih2 h.2
      refine ⟨f * g, ⟨d1.mul d3, ?_⟩, fun N => ?_⟩
      · filter_upwards [d2, d4] with t h1 h2 ρ
        simp [Expr.eval, h1 ρ, h2 ρ, binVal]
      obtain ⟨c, h1, h2⟩ := hf N
      obtain ⟨c', h1', h2'⟩ := hg N
      obtain ⟨r, h3, h4⟩ := adMul_holds h2 h2' d1 d3
      refine ⟨r, fun n hn => ?_, h4⟩
      cases n with
      | zero => simp [Expr.height] at hn
      | succ n =>
        rw [Expr.height] at hn
        rw [ad, h1 n (by omega), Res.ok_bind, h1' n (by omega), Res.ok_bind, Option.bind_some,
          Option.bind_some, h3]
    | div =>
      obtain ⟨hl, hr, v, hv, hv0⟩ := h
      obtain ⟨f, ⟨d1, d2⟩, hf⟩ := ih1 hl
      obtain ⟨g, hd, hg⟩ := ih2 hr
      rw [hd.val, Option.some_inj] at hv
      subst hv
      obtain ⟨d3, d4⟩ := hd
      refine ⟨fun t => f t / g t, ⟨d1.div d3 hv0, ?_⟩, fun N => ?_⟩
      · filter_upwards [d2, d4, d3.continuousAt.eventually_ne hv0] with t h1 h2 h3 ρ
        simp [Expr.eval, h1 ρ, h2 ρ, binVal, h3]
      obtain ⟨c, h1, h2⟩ := hf N
      obtain ⟨c', h1', h2'⟩ := hg N
      obtain ⟨r, h3, h4⟩ := adDiv_holds h2 h2' d1 d3 hv0
      refine ⟨r, fun n hn => ?_, h4⟩
      cases n with
      | zero => simp [Expr.height] at hn
      | succ n =>
        rw [Expr.height] at hn
        rw [ad, h1 n (by omega), Res.ok_bind, h1' n (by omega), Res.ok_bind, Option.bind_some,
          Option.bind_some, h3]
    | pow =>
      by_cases hc : ∃ p, r = .const p
      · obtain ⟨p, rfl⟩ := hc
        obtain ⟨hl, v, hv, hv0, hp⟩ := h
        obtain ⟨f, hd, hf⟩ := ih1 hl
        rw [hd.val, Option.some_inj] at hv
        subst hv
        obtain ⟨d1, d2⟩ := hd
        refine ⟨fun t => f t ^ p, ⟨analyticAt_rpow d1 analyticAt_const hv0, ?_⟩, fun N => ?_⟩
        · filter_upwards [d2, powDom_near d1.continuousAt hv0 hp] with t h1 h2 ρ
          simp [Expr.eval, h1 ρ, binVal, h2]
        obtain ⟨c, h1, h2⟩ := hf N
        obtain ⟨r, h3, h4⟩ := adPowConst_holds p h2 d1 hv0 hp
        refine ⟨r, fun n hn => ?_, h4⟩
        cases n with
        | zero => simp [Expr.height] at hn
        | succ n =>
          rw [Expr.height] at hn
          rw [ad, h1 n (by omega), Res.ok_bind, Option.bind_some, h3]
      · have hR : Regular x a l ∧ Regular x a r ∧ ∃ v, l.eval (at_ 0 x a) = some v ∧ 0 < v := by
          cases r <;> first | exact h | exact absurd ⟨_, rfl⟩ hc
        obtain ⟨hl, hr, v, hv, hv0⟩ := hR
        obtain ⟨f, hd, hf⟩ := ih1 hl
        obtain ⟨g, ⟨d3, d4⟩, hg⟩ := ih2 hr
        rw [hd.val, Option.some_inj] at hv
        subst hv
        obtain ⟨d1, d2⟩ := hd
        refine ⟨fun t => f t ^ g t, ⟨analyticAt_rpow d1 d3 hv0.ne', ?_⟩, fun N => ?_⟩
        · filter_upwards [d2, d4, d1.continuousAt.eventually (lt_mem_nhds hv0)] with t h1 h2 h3 ρ
          simp [Expr.eval, h1 ρ, h2 ρ, binVal, powDom, h3]
        obtain ⟨c, h1, h2⟩ := hf N
        obtain ⟨c', h1', h2'⟩ := hg N
        obtain ⟨cl, h5, h6⟩ := adLog_holds h2 d1 hv0
        obtain ⟨s, h3, h4⟩ := adPow_holds h2 h2' h6 d1 d3 hv0
        refine ⟨s, fun n hn => ?_, h4⟩
        cases n with
        | zero => simp [Expr.height] at hn
        | succ n =>
          rw [Expr.height] at hn
          rw [ad, h1 n (by omega), Res.ok_bind, h1' n (by omega), Res.ok_bind, Option.bind_some,
            Option.bind_some, h5, Option.bind_some, h3]
          intro p hp; exact hc ⟨p, hp⟩
    | _ => exact h.elim
  | arr => exact h.elim
  | dict => exact h.elim

/-! ### `ad` gives numbers only at regular points -/

theorem forUp_first_none {σ : Type*} (body : ℕ → σ → Option σ) (lo : ℕ) (s : σ) (h : body lo s = none) :
    ∀ n, forUp body lo (n + 1) s = none
  | 0 => by simp [forUp, h]
  | n + 1 => by rw [forUp, forUp_first_none body lo s h n]; rfl

theorem adLog_some {N : ℕ} {c r : Arr ℝ N} (h : adLog c = some r) : 0 < coef c 0 := by
  by_contra hn
  simp [adLog, rd_coef c (Nat.zero_le N), log?, hn] at h

theorem adDiv_some {N : ℕ} {l c r : Arr ℝ N} (h : adDiv l c = some r) : coef c 0 ≠ 0 := by
  intro hn
  simp [adDiv, rd_coef c (Nat.zero_le N), rd_coef l (Nat.zero_le N), quo, hn] at h

theorem adPowConst_some {N : ℕ} {c r : Arr ℝ N} {p : ℝ} (hN : 1 ≤ N) (h : adPowConst c p = some r) :
    coef c 0 ≠ 0 ∧ powDom (coef c 0) p := by
  have hd : powDom (coef c 0) p := by
    by_contra hn
    simp [adPowConst, rd_coef c (Nat.zero_le N), pow?, hn] at h
  refine ⟨fun h0 => ?_, hd⟩
  obtain ⟨s, h1, -, -⟩ := init (N := N) (coef c 0 ^ p)
  obtain ⟨M, rfl⟩ : ∃ M, N = M + 1 := ⟨N - 1, by omega⟩
  simp only [adPowConst, rd_coef c (Nat.zero_le _), pow?, if_pos hd, Option.bind_eq_bind,
    Option.bind_some, h1] at h
  rw [forUp_first_none] at h
  · simp at h
  · simp [quo, h0]

theorem Res.bind_ok_iff {α β : Type} (x : Res α) (f : α → Res β) (b : β) :
    (x >>= f) = .ok b ↔ ∃ y, x = .ok y ∧ f y = .ok b := by
  cases x with
  | ok y => rw [Res.ok_bind]; simp
  | throw => exact ⟨fun h => (nomatch h), fun ⟨_, h, _⟩ => nomatch h⟩
  | diverge => exact ⟨fun h => (nomatch h), fun ⟨_, h, _⟩ => nomatch h⟩

/-- If `ad` returns numbers (for at least one derivative), the point is regular. -/
theorem regular_of_some (x : List Char) (a : ℝ) {N : ℕ} (hN : 1 ≤ N) (e : Expr ℝ) (n : ℕ) (c : Arr ℝ N)
    (h : ad N x a n e = .ok (some c)) : Regular x a e ∧ e.height ≤ n := by
  induction e using Expr.ind generalizing n c with
  | const v => cases n with
    | zero => simp [ad] at h
    | succ n => exact ⟨trivial, by simp [Expr.height]⟩
  | var m => cases n with
    | zero => simp [ad] at h
    | succ n =>
      refine ⟨?_, by simp [Expr.height]⟩
      by_contra hne
      have hne : ¬ m = x := hne
      simp [ad, adVar, hne] at h
  | un o u ih =>
    have un1 : ∀ (n : ℕ) (F : Arr ℝ N → Option (Arr ℝ N)) (c : Arr ℝ N),
        (do let g ← ad N x a n u; .ok (g.bind F) : Res (Option (Arr ℝ N))) = .ok (some c) →
        ∃ g, ad N x a n u = .ok (some g) ∧ F g = some c := by
      intro n F c h
      rw [Res.bind_ok_iff] at h
      obtain ⟨g, h1, h2⟩ := h
      cases g with
      | none => simp at h2
      | some g => exact ⟨g, h1, by simpa using h2⟩
    have loop : ∀ n, (∀ m, ad N x a (m + 1) (.un o u) = ad N x a m (.un o u)) →
        ad N x a n (.un o u) = .diverge := by
      intro n hs
      induction n with
      | zero => rfl
      | succ n ih => rw [hs, ih]
    cases o with
    | exp => cases n with
      | zero => simp [ad] at h
      | succ n =>
        obtain ⟨g, h1, h2⟩ := un1 n _ c (by simpa only [ad] using h)
        obtain ⟨k1, k2⟩ := ih n g h1
        exact ⟨k1, by rw [Expr.height]; omega⟩
    | sin => cases n with
      | zero => simp [ad] at h
      | succ n =>
        obtain ⟨g, h1, h2⟩ := un1 n _ c (by simpa only [ad] using h)
        obtain ⟨k1, k2⟩ := ih n g h1
        exact ⟨k1, by rw [Expr.height]; omega⟩
    | cos => cases n with
      | zero => simp [ad] at h
      | succ n =>
        obtain ⟨g, h1, h2⟩ := un1 n _ c (by simpa only [ad] using h)
        obtain ⟨k1, k2⟩ := ih n g h1
        exact ⟨k1, by rw [Expr.height]; omega⟩
    | log => cases n with
      | zero => simp [ad] at h
      | succ n =>
        obtain ⟨g, h1, h2⟩ := un1 n _ c (by simpa only [ad] using h)
        obtain ⟨k1, k2⟩ := ih n g h1
        obtain ⟨f, hd, hf⟩ := main x a u k1
        obtain ⟨c', e1, e2⟩ := hf N
        rw [e1 n k2] at h1
        simp at h1; subst h1
        have := adLog_some h2
        rw [e2 0 (by omega), T_zero] at this
        exact ⟨⟨k1, _, hd.val, this⟩, by rw [Expr.height]; omega⟩
    | abs => rw [loop n (fun m => by rw [ad] <;> simp)] at h; simp at h
    | neg => rw [loop n (fun m => by rw [ad] <;> simp)] at h; simp at h
    | arbsign => rw [loop n (fun m => by rw [ad] <;> simp)] at h; simp at h
  | bin o l r ih1 ih2 =>
    have bin1 : ∀ (n : ℕ) (F : Arr ℝ N → Arr ℝ N → Option (Arr ℝ N)) (c : Arr ℝ N),
        (do let g ← ad N x a n l; let g' ← ad N x a n r; .ok (g.bind fun g => g'.bind (F g))
          : Res (Option (Arr ℝ N))) = .ok (some c) →
        ∃ g g', ad N x a n l = .ok (some g) ∧ ad N x a n r = .ok (some g') ∧ F g g' = some c := by
      intro n F c h
      rw [Res.bind_ok_iff] at h
      obtain ⟨g, h1, h2⟩ := h
      rw [Res.bind_ok_iff] at h2
      obtain ⟨g', h2, h3⟩ := h2
      cases g with
      | none => simp at h3
      | some g =>
        cases g' with
        | none => simp at h3
        | some g' => exact ⟨g, g', h1, h2, by simpa using h3⟩
    have loop : ∀ n, (∀ m, ad N x a (m + 1) (.bin o l r) = ad N x a m (.bin o l r)) →
        ad N x a n (.bin o l r) = .diverge := by
      intro n hs
      induction n with
      | zero => rfl
      | succ n ih => rw [hs, ih]
    cases o with
    | add => cases n with
      | zero => simp [ad] at h
      | succ n =>
        obtain ⟨g, g', h1, h2, h3⟩ := bin1 n _ c (by simpa only [ad] using h)
        obtain ⟨k1, k2⟩ := ih1 n g h1
        obtain ⟨k3, k4⟩ := ih2 n g' h2
        exact ⟨⟨k1, k3⟩, by rw [Expr.height]; omega⟩
    | sub => cases n with
      | zero => simp [ad] at h
      | succ n =>
        obtain ⟨g, g', h1, h2, h3⟩ := bin1 n _ c (by simpa only [ad] using h)
        obtain ⟨k1, k2⟩ := ih1 n g h1
        obtain ⟨k3, k4⟩ := ih2 n g' h2
        exact ⟨⟨k1, k3⟩, by rw [Expr.height]; omega⟩
    | mul => cases n with
      | zero => simp [ad] at h
      | succ n =>
        obtain ⟨g, g', h1, h2, h3⟩ := bin1 n _ c (by simpa only [ad] using h)
        obtain ⟨k1, k2⟩ := ih1 n g h1
        obtain ⟨k3, k4⟩ := ih2 n g' h2
        exact ⟨⟨k1, k3⟩, by rw [Expr.height]; omega⟩
    | div => cases n with
      | zero => simp [ad] at h
      | succ n =>
        obtain ⟨g, g', h1, h2, h3⟩ := bin1 n _ c (by simpa only [ad] using h)
        obtain ⟨k1, k2⟩ := ih1 n g h1
        obtain ⟨k3, k4⟩ := ih2 n g' h2
        obtain ⟨f, hd, hf⟩ := main x a r k3
        obtain ⟨c', e1, e2⟩ := hf N
        rw [e1 n k4] at h2
        simp at h2; subst h2
        have := adDiv_some h3
        rw [e2 0 (by omega), T_zero] at this
        exact ⟨⟨k1, k3, _, hd.val, this⟩, by rw [Expr.height]; omega⟩
    | pow => cases n with
      | zero => simp [ad] at h
      | succ n =>
        by_cases hc : ∃ p, r = .const p
        · obtain ⟨p, rfl⟩ := hc
          rw [ad, Res.bind_ok_iff] at h
          obtain ⟨g, h1, h2⟩ := h
          cases g with
          | none => simp at h2
          | some g =>
            simp only [Option.bind_some, Res.ok.injEq] at h2
            obtain ⟨k1, k2⟩ := ih1 n g h1
            obtain ⟨f, hd, hf⟩ := main x a l k1
            obtain ⟨c', e1, e2⟩ := hf N
            rw [e1 n k2] at h1
            simp at h1; subst h1
            have := adPowConst_some hN h2
            rw [e2 0 (by omega), T_zero] at this
            refine ⟨⟨k1, _, hd.val, this⟩, ?_⟩
            have := height_pos l
            simp only [Expr.height]; omega
        · have hR : ad N x a (n + 1) (.bin .pow l r) = (do
              let f ← ad N x a n l
              let g ← ad N x a n r
              .ok (f.bind fun f => g.bind fun g => (adLog f).bind (adPow f g))) := by
            rw [ad]
            intro p hp; exact hc ⟨p, hp⟩
          rw [hR] at h
          obtain ⟨g, g', h1, h2, h3⟩ := bin1 n (fun f g => (adLog f).bind (adPow f g)) c h
          obtain ⟨k1, k2⟩ := ih1 n g h1
          obtain ⟨k3, k4⟩ := ih2 n g' h2
          obtain ⟨f, hd, hf⟩ := main x a l k1
          obtain ⟨c', e1, e2⟩ := hf N
          rw [e1 n k2] at h1
          simp at h1; subst h1
          obtain ⟨lg, h4, h5⟩ := Option.bind_eq_some_iff.1 h3
          have := adLog_some h4
          rw [e2 0 (by omega), T_zero] at this
          refine ⟨?_, by rw [Expr.height]; omega⟩
          have hR : Regular x a l ∧ Regular x a r ∧ ∃ v, l.eval (at_ 0 x a) = some v ∧ 0 < v :=
            ⟨k1, k3, _, hd.val, this⟩
          cases r <;> first | exact hR | exact absurd ⟨_, rfl⟩ hc
    | eq => rw [loop n (fun m => by rw [ad] <;> simp)] at h; simp at h
    | access => rw [loop n (fun m => by rw [ad] <;> simp)] at h; simp at h
    | units => rw [loop n (fun m => by rw [ad] <;> simp)] at h; simp at h
    | uncert => rw [loop n (fun m => by rw [ad] <;> simp)] at h; simp at h
  | arr xs =>
    have : ∀ n, ad N x a n (.arr xs) = .diverge := by
      intro n
      induction n with
      | zero => rfl
      | succ n ih => rw [ad]; exact ih; all_goals simp
    simp [this] at h
  | dict xs =>
    have : ∀ n, ad N x a n (.dict xs) = .diverge := by
      intro n
      induction n with
      | zero => rfl
      | succ n ih => rw [ad]; exact ih; all_goals simp
    simp [this] at h

/-- **C36**. At a regular point, `ad<N>(f, x = a)` returns an array whose `k`-th entry is
`f⁽ᵏ⁾(a) / k!` for every `k ≤ N`, where `f` is the function of `x` that the expression stands for (it
is analytic at `a`). -/
theorem C36_taylor_coefficients (x : List Char) (a : ℝ) (e : Expr ℝ) (h : Regular x a e) :
    ∃ f : ℝ → ℝ, AnalyticAt ℝ f a ∧ (∀ᶠ t in 𝓝 a, ∀ ρ, e.eval (at_ ρ x t) = some (f t)) ∧
      ∀ N, ∃ c : Arr ℝ N, (∀ n, e.height ≤ n → ad N x a n e = .ok (some c)) ∧
        ∀ k : Fin (N + 1), c k = iteratedDeriv k f a / (k : ℕ).factorial := by
  obtain ⟨f, hd, hf⟩ := main x a e h
  refine ⟨f, hd.1, hd.2, fun N => ?_⟩
  obtain ⟨c, h1, h2⟩ := hf N
  exact ⟨c, h1, fun k => by rw [← coef_fin c k, h2 k (by omega)]; rfl⟩

/-- `x ^ 3.5 * exp(sin(x)) / log(x)` is regular at `3`. -/
example : Regular ['x'] 3 (.bin .div (.bin .mul (.bin .pow (.var ['x']) (.const (7 / 2)))
    (.un .exp (.un .sin (.var ['x'])))) (.un .log (.var ['x']))) := by
  refine ⟨⟨⟨rfl, 3, by simp [Expr.eval, at_], by norm_num, Or.inl (by norm_num)⟩, rfl⟩,
    ⟨rfl, 3, by simp [Expr.eval, at_], by norm_num⟩, Real.log 3, ?_, ?_⟩
  · simp [Expr.eval, at_, unVal]
  · exact (Real.log_pos (by norm_num)).ne'

/-- **C36**, the converse: whenever `ad` (of order at least 1) returns numbers, they are the Taylor
coefficients. Whatever lies outside the regular points gives NaN, infinities or no result. -/
theorem C36_sound (x : List Char) (a : ℝ) {N : ℕ} (hN : 1 ≤ N) (e : Expr ℝ) (n : ℕ) (c : Arr ℝ N)
    (h : ad N x a n e = .ok (some c)) :
    ∃ f : ℝ → ℝ, AnalyticAt ℝ f a ∧ (∀ᶠ t in 𝓝 a, ∀ ρ, e.eval (at_ ρ x t) = some (f t)) ∧
      ∀ k : Fin (N + 1), c k = iteratedDeriv k f a / (k : ℕ).factorial := by
  obtain ⟨h1, h2⟩ := regular_of_some x a hN e n c h
  obtain ⟨f, k1, k2, k3⟩ := C36_taylor_coefficients x a e h1
  refine ⟨f, k1, k2, ?_⟩
  obtain ⟨c', k4, k5⟩ := k3 N
  rw [k4 n h2] at h
  simp at h; subst h
  exact k5

theorem wr0 (s : Arr ℝ 0) (v : ℝ) : wr s 0 v = some fun _ => v := by
  unfold wr
  rw [dif_pos (by omega)]
  congr 1
  funext i
  have : i = 0 := Fin.ext (by omega)
  subst this
  simp

theorem rd0 (s : Arr ℝ 0) : rd s 0 = some (s 0) := by simp [rd]

/-- **C36**, order 0: whenever `ad<0>` returns a number, it is the value of the expression at `a`
(also at the zero of the base of a power). -/
theorem C36_order_zero (x : List Char) (a : ℝ) (e : Expr ℝ) (n : ℕ) (c : Arr ℝ 0)
    (h : ad 0 x a n e = .ok (some c)) (ρ : List Char → ℝ) : e.eval (at_ ρ x a) = some (c 0) := by
  induction n generalizing e c with
  | zero => simp [ad] at h
  | succ n ih =>
    have un1 : ∀ (u : Expr ℝ) (F : Arr ℝ 0 → Option (Arr ℝ 0)) (c : Arr ℝ 0),
        (do let g ← ad 0 x a n u; .ok (g.bind F) : Res (Option (Arr ℝ 0))) = .ok (some c) →
        ∃ g : Arr ℝ 0, u.eval (at_ ρ x a) = some (g 0) ∧ F g = some c := by
      intro u F c h
      rw [Res.bind_ok_iff] at h
      obtain ⟨g, h1, h2⟩ := h
      cases g with
      | none => simp at h2
      | some g => exact ⟨g, ih u g h1, by simpa using h2⟩
    have bin1 : ∀ (l r : Expr ℝ) (F : Arr ℝ 0 → Arr ℝ 0 → Option (Arr ℝ 0)) (c : Arr ℝ 0),
        (do let g ← ad 0 x a n l; let g' ← ad 0 x a n r; .ok (g.bind fun g => g'.bind (F g))
          : Res (Option (Arr ℝ 0))) = .ok (some c) →
        ∃ g g' : Arr ℝ 0, l.eval (at_ ρ x a) = some (g 0) ∧ r.eval (at_ ρ x a) = some (g' 0) ∧
          F g g' = some c := by
      intro l r F c h
      rw [Res.bind_ok_iff] at h
      obtain ⟨g, h1, h2⟩ := h
      rw [Res.bind_ok_iff] at h2
      obtain ⟨g', h2, h3⟩ := h2
      cases g with
      | none => simp at h3
      | some g =>
        cases g' with
        | none => simp at h3
        | some g' => exact ⟨g, g', ih l g h1, ih r g' h2, by simpa using h3⟩
    unfold ad at h
    split at h
    · rename_i h0; simp at h0
    · simp only [adConst, wr0, Res.ok.injEq, Option.some.injEq] at h
      simp [Expr.eval, ← h]
    · rename_i m hm
      simp only [adVar, Res.ok.injEq] at h
      split at h
      · rename_i hx
        simp only [wr0, Option.bind_some, gt_iff_lt, lt_irrefl, if_false, Option.some.injEq] at h
        simp [Expr.eval, at_, hx, ← h]
      · simp at h
    · rename_i k u hk
      obtain rfl : n = k := by omega
      obtain ⟨g, h1, h2⟩ := un1 _ _ _ h
      simp only [adExp, rd0, wr0, forUp, Option.bind_eq_bind, Option.bind_some, Option.some.injEq] at h2
      simp [Expr.eval, h1, unVal, ← h2]
    · rename_i k u hk
      obtain rfl : n = k := by omega
      obtain ⟨g, h1, h2⟩ := un1 _ _ _ h
      have h0 := adLog_some h2
      have h0 : 0 < g 0 := by simpa [coef] using h0
      simp only [adLog, rd0, wr0, forUp, Option.bind_eq_bind, Option.bind_some, Option.some.injEq,
        log?, if_pos h0] at h2
      simp [Expr.eval, h1, unVal, ← h2, h0]
    · rename_i k u hk
      obtain rfl : n = k := by omega
      obtain ⟨g, h1, h2⟩ := un1 _ _ _ h
      simp only [adSin, adSinCos, rd0, wr0, forUp, Option.bind_eq_bind, Option.bind_some,
        Option.map_some, Option.some.injEq] at h2
      simp [Expr.eval, h1, unVal, ← h2]
    · rename_i k u hk
      obtain rfl : n = k := by omega
      obtain ⟨g, h1, h2⟩ := un1 _ _ _ h
      simp only [adCos, adSinCos, rd0, wr0, forUp, Option.bind_eq_bind, Option.bind_some,
        Option.map_some, Option.some.injEq] at h2
      simp [Expr.eval, h1, unVal, ← h2]
    · rename_i k l r hk
      obtain rfl : n = k := by omega
      obtain ⟨g, g', h1, h2, h3⟩ := bin1 _ _ _ _ h
      simp only [adAdd, Option.some.injEq] at h3
      simp [Expr.eval, h1, h2, binVal, ← h3]
    · rename_i k l r hk
      obtain rfl : n = k := by omega
      obtain ⟨g, g', h1, h2, h3⟩ := bin1 _ _ _ _ h
      simp only [adSub, Option.some.injEq] at h3
      simp [Expr.eval, h1, h2, binVal, ← h3]
    · rename_i k l r hk
      obtain rfl : n = k := by omega
      obtain ⟨g, g', h1, h2, h3⟩ := bin1 _ _ _ _ h
      simp only [adMul, rd0, wr0, forUp, Option.bind_eq_bind, Option.bind_some,
        Option.some.injEq] at h3
      simp [Expr.eval, h1, h2, binVal, ← h3]
    · rename_i k l r hk
      obtain rfl : n = k := by omega
      obtain ⟨g, g', h1, h2, h3⟩ := bin1 _ _ _ _ h
      have h0 := adDiv_some h3
      have h0 : g' 0 ≠ 0 := by simpa [coef] using h0
      simp only [adDiv, rd0, wr0, forUp, Option.bind_eq_bind, Option.bind_some, quo_some h0,
        Option.some.injEq] at h3
      simp [Expr.eval, h1, h2, binVal, ← h3, h0]
    · rename_i k l p hk
      obtain rfl : n = k := by omega
      obtain ⟨g, h1, h2⟩ := un1 l (fun l => adPowConst l p) _ h
      simp only [adPowConst, rd0, wr0, forUp, Option.bind_eq_bind, Option.bind_some, pow?] at h2
      split at h2
      · rename_i hd
        simp only [Option.bind_some, Option.some.injEq] at h2
        simp [Expr.eval, h1, binVal, ← h2, hd]
      · simp at h2
    · rename_i k l r _ hk
      obtain rfl : n = k := by omega
      obtain ⟨g, g', h1, h2, h3⟩ := bin1 l r (fun f g => (adLog f).bind (adPow f g)) _ h
      obtain ⟨lg, h4, h5⟩ := Option.bind_eq_some_iff.1 h3
      have h0 := adLog_some h4
      have h0 : 0 < g 0 := by simpa [coef] using h0
      have hd : powDom (g 0) (g' 0) := Or.inl h0
      simp only [adPow, rd0, wr0, forUp, Option.bind_eq_bind, Option.bind_some, pow?, if_pos hd,
        Option.some.injEq] at h5
      simp [Expr.eval, h1, h2, binVal, ← h5, hd]
    · rename_i k _ _ _ _ _ _ _ _ _ _ _ _ hk
      obtain rfl : n = k := by omega
      exact ih _ _ h

/-- **C36**, a gap in the code: at a zero of the base, the derivatives of a power are not computed,
although they exist: `ad` of `x ^ p` at `0` divides zero by zero, for every exponent `p` and order
`N ≥ 1` (for example `x ^ 2`). -/
theorem C36_power_at_zero (x : List Char) (p : ℝ) {N : ℕ} (hN : 1 ≤ N) (n : ℕ) :
    ad N x 0 (n + 2) (.bin .pow (.var x) (.const p)) = .ok none := by
  obtain ⟨c, h1, h2⟩ := adVar_holds (N := N) x 0
  have h0 : coef c 0 = 0 := by rw [h2 0 (by omega), T_id]; simp
  rw [ad, ad, h1, Res.ok_bind, Option.bind_some]
  cases h : adPowConst c p with
  | none => rfl
  | some r => exact absurd h0 (adPowConst_some hN h).1

/-- **C36**, another gap: `ad` of a negation never returns (each visit converts the node back to an
expression and visits it again). The same holds for absolute values, units, arrays, ... -/
theorem C36_negation_diverges (x : List Char) (a : ℝ) (N n : ℕ) (e : Expr ℝ) :
    ad N x a n (.un .neg e) = .diverge := by
  induction n with
  | zero => rfl
  | succ n ih => rw [ad]; exact ih; all_goals simp

end Stator.Ad
