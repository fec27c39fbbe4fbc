import Verif.Ad.Model
import Verif.Ad.Taylor

/-!
# What the loops of `ad.hpp` compute
-/

namespace Stator.Ad

open Stator.Pol Finset

theorem coef_zeros {N : ℕ} (j : ℕ) : coef (zeros N) j = 0 := by
  unfold coef zeros; split <;> rfl

theorem addTo_coef {N : ℕ} (s : Arr ℝ N) {k : ℕ} (v : ℝ) (h : k ≤ N) :
    ∃ b, addTo s k v = some b ∧ ∀ j, coef b j = if j = k then coef s k + v else coef s j := by
  unfold addTo
  rw [rd_coef s h, Option.bind_some]
  exact wr_coef s _ h

/-- A loop that adds to entry `k`, term after term. -/
theorem forUp_acc {N k lo cnt : ℕ} (hk : k ≤ N) (body : ℕ → Arr ℝ N → Option (Arr ℝ N)) (t : ℕ → ℝ)
    (s0 : Arr ℝ N)
    (hb : ∀ i, i < cnt → ∀ s, (∀ j, j ≠ k → coef s j = coef s0 j) →
      body (lo + i) s = addTo s k (t i)) :
    ∃ s, forUp body lo cnt s0 = some s ∧ coef s k = coef s0 k + ∑ i ∈ range cnt, t i ∧
      ∀ j, j ≠ k → coef s j = coef s0 j := by
  obtain ⟨s, h1, h2⟩ := forUp_inv (lo := lo) (body := body)
    (fun c s => coef s k = coef s0 k + ∑ i ∈ range c, t i ∧ ∀ j, j ≠ k → coef s j = coef s0 j) cnt s0
    ⟨by simp, fun _ _ => rfl⟩ (fun c s hc ⟨i1, i2⟩ => by
      obtain ⟨b, e1, e2⟩ := addTo_coef s (t c) hk
      refine ⟨b, by rw [hb c hc s i2, e1], ?_, fun j hj => ?_⟩
      · rw [e2, if_pos rfl, i1, sum_range_succ, add_assoc]
      · rw [e2, if_neg hj, i2 j hj])
  exact ⟨s, h1, h2⟩

/-- A loop that fills the entries `1..N` of an array one after the other, each from the ones before. -/
theorem forUp_fill {N : ℕ} (body : ℕ → Arr ℝ N → Option (Arr ℝ N)) (t : ℕ → ℝ) (s0 : Arr ℝ N)
    (h0 : coef s0 0 = t 0) (hz : ∀ j, 1 ≤ j → coef s0 j = 0)
    (hb : ∀ k, k + 1 ≤ N → ∀ s, (∀ j, j ≤ k → coef s j = t j) → (∀ j, k < j → coef s j = 0) →
      ∃ s', body (k + 1) s = some s' ∧ coef s' (k + 1) = t (k + 1) ∧
        ∀ j, j ≠ k + 1 → coef s' j = coef s j) :
    ∃ s, forUp body 1 N s0 = some s ∧ ∀ j, j ≤ N → coef s j = t j := by
  obtain ⟨s, h1, h2, h3⟩ := forUp_inv (lo := 1) (body := body)
    (fun c s => (∀ j, j ≤ c → coef s j = t j) ∧ ∀ j, c < j → coef s j = 0) N s0
    ⟨fun j hj => by rw [Nat.le_zero.1 hj, h0], fun j hj => hz j hj⟩ (fun c s hc ⟨i1, i2⟩ => by
      obtain ⟨s', e1, e2, e3⟩ := hb c (by omega) s i1 i2
      refine ⟨s', by rw [Nat.add_comm 1 c, e1], fun j hj => ?_, fun j hj => ?_⟩
      · by_cases hj' : j = c + 1
        · rw [hj', e2]
        · rw [e3 j hj', i1 j (by omega)]
      · rw [e3 j (by omega), i2 j (by omega)])
  exact ⟨s, h1, h2⟩

/-- The first entry set, the rest zero. -/
theorem init {N : ℕ} (v : ℝ) : ∃ s, wr (zeros N) 0 v = some s ∧ coef s 0 = v ∧
    ∀ j, 1 ≤ j → coef s j = 0 := by
  obtain ⟨s, h1, h2⟩ := wr_coef (zeros N) v (Nat.zero_le N)
  exact ⟨s, h1, by rw [h2, if_pos rfl], fun j hj => by rw [h2, if_neg (by omega), coef_zeros]⟩

theorem quo_some {x y : ℝ} (h : y ≠ 0) : quo x y = some (x / y) := by simp [quo, h]

/-- An array holds the first `N+1` Taylor coefficients of a function. -/
def Holds {N : ℕ} (c : Arr ℝ N) (f : ℝ → ℝ) (a : ℝ) : Prop := ∀ k, k ≤ N → coef c k = T f a k

theorem adConst_holds {N : ℕ} (v a : ℝ) : ∃ c, adConst N v = some c ∧ Holds c (fun _ => v) a := by
  obtain ⟨s, h1, h2, h3⟩ := init (N := N) v
  refine ⟨s, h1, fun k _ => ?_⟩
  rw [T_const]
  split
  · rename_i h; subst h; exact h2
  · exact h3 k (by omega)

theorem adVar_holds {N : ℕ} (x : List Char) (a : ℝ) :
    ∃ c, adVar N x x a = some c ∧ Holds c (fun t => t) a := by
  obtain ⟨s, h1, h2, h3⟩ := init (N := N) a
  unfold adVar
  rw [if_pos rfl, h1, Option.bind_some]
  by_cases hN : N > 0
  · rw [if_pos hN]
    obtain ⟨b, e1, e2⟩ := wr_coef s 1 (i := 1) (n := N) hN
    refine ⟨b, e1, fun k _ => ?_⟩
    rw [T_id, e2]
    by_cases h0 : k = 0
    · subst h0; simp [h2]
    · by_cases h1' : k = 1
      · simp [h1']
      · simp [h0, h1', h3 k (by omega)]
  · rw [if_neg hN]
    refine ⟨s, rfl, fun k hk => ?_⟩
    have : k = 0 := by omega
    subst this
    rw [T_id]; simp [h2]

theorem adAdd_holds {N : ℕ} {l r : Arr ℝ N} {f g : ℝ → ℝ} {a : ℝ} (hl : Holds l f a)
    (hr : Holds r g a) (hf : AnalyticAt ℝ f a) (hg : AnalyticAt ℝ g a) :
    ∃ c, adAdd l r = some c ∧ Holds c (f + g) a := by
  refine ⟨_, rfl, fun k hk => ?_⟩
  rw [T_add hf hg, ← hl k hk, ← hr k hk]
  unfold coef
  split <;> simp

theorem adSub_holds {N : ℕ} {l r : Arr ℝ N} {f g : ℝ → ℝ} {a : ℝ} (hl : Holds l f a)
    (hr : Holds r g a) (hf : AnalyticAt ℝ f a) (hg : AnalyticAt ℝ g a) :
    ∃ c, adSub l r = some c ∧ Holds c (f - g) a := by
  refine ⟨_, rfl, fun k hk => ?_⟩
  rw [T_sub hf hg, ← hl k hk, ← hr k hk]
  unfold coef
  split <;> simp

theorem adMul_holds {N : ℕ} {l r : Arr ℝ N} {f g : ℝ → ℝ} {a : ℝ} (hl : Holds l f a)
    (hr : Holds r g a) (hf : AnalyticAt ℝ f a) (hg : AnalyticAt ℝ g a) :
    ∃ c, adMul l r = some c ∧ Holds c (f * g) a := by
  unfold adMul
  obtain ⟨s, h1, h2, h3⟩ := init (N := N) (coef l 0 * coef r 0)
  simp only [rd_coef l (Nat.zero_le N), rd_coef r (Nat.zero_le N), Option.bind_eq_bind,
    Option.bind_some, h1]
  apply forUp_fill _ (T (f * g) a) s _ h3
  · intro k hk s' i1 i2
    obtain ⟨b, e1, e2, e3⟩ := forUp_acc (lo := 0) (cnt := k + 1 + 1) (k := k + 1) hk
      (fun i s => (rd l i).bind fun x => (rd r (k + 1 - i)).bind fun y => addTo s (k + 1) (x * y))
      (fun i => T f a i * T g a (k + 1 - i)) s' (fun i hi s'' _ => by
        rw [Nat.zero_add, rd_coef l (by omega), rd_coef r (by omega), Option.bind_some,
          Option.bind_some, hl i (by omega), hr _ (by omega)])
    refine ⟨b, e1, ?_, e3⟩
    rw [e2, i2 _ (by omega), zero_add, T_mul hf hg]
  · rw [h2, hl 0 (by omega), hr 0 (by omega), T_mul hf hg]; simp

theorem adDiv_holds {N : ℕ} {l r : Arr ℝ N} {f g : ℝ → ℝ} {a : ℝ} (hl : Holds l f a)
    (hr : Holds r g a) (hf : AnalyticAt ℝ f a) (hg : AnalyticAt ℝ g a) (h0 : g a ≠ 0) :
    ∃ c, adDiv l r = some c ∧ Holds c (fun t => f t / g t) a := by
  have hh : AnalyticAt ℝ (fun t => f t / g t) a := hf.div hg h0
  have e : ((fun t => f t / g t) * g) =ᶠ[nhds a] f := by
    filter_upwards [hg.continuousAt.eventually_ne h0] with t ht
    simp [ht]
  have hrec := rec_div hg hh e h0
  have hr0 : coef r 0 = g a := by rw [hr 0 (by omega), T_zero]
  unfold adDiv
  obtain ⟨s, h1, h2, h3⟩ := init (N := N) (coef l 0 / coef r 0)
  simp only [rd_coef l (Nat.zero_le N), rd_coef r (Nat.zero_le N), Option.bind_eq_bind,
    Option.bind_some, quo_some (hr0 ▸ h0), h1]
  apply forUp_fill _ (T (fun t => f t / g t) a) s _ h3
  · intro k hk s' i1 i2
    rw [rd_coef l hk]
    obtain ⟨b, e1, e2⟩ := wr_coef s' (coef l (k + 1)) hk
    obtain ⟨b', e3, e4, e5⟩ := forUp_acc (lo := 0) (cnt := k + 1) (k := k + 1) hk
      (fun i s => (rd s i).bind fun x => (rd r (k + 1 - i)).bind fun y => addTo s (k + 1) (-(x * y)))
      (fun i => -(T (fun t => f t / g t) a i * T g a (k + 1 - i))) b (fun i hi s'' hs => by
        rw [Nat.zero_add, rd_coef s'' (by omega), rd_coef r (by omega), Option.bind_some,
          Option.bind_some, hs i (by omega), e2, if_neg (by omega), i1 i (by omega),
          hr _ (by omega)])
    obtain ⟨c, c1, c2⟩ := wr_coef b' (coef b' (k + 1) / coef r 0) hk
    refine ⟨c, ?_, ?_, fun j hj => ?_⟩
    · simp only [Option.bind_some, e1, e3, rd_coef b' hk, c1]
    · rw [c2, if_pos rfl, e4, e2, if_pos rfl, hrec, hl _ hk, hr0, sum_neg_distrib]; rfl
    · rw [c2, if_neg hj, e5 j hj, e2, if_neg hj]
  · rw [h2, hl 0 (by omega), hr0, T_zero, T_zero]

theorem adExp_holds {N : ℕ} {c : Arr ℝ N} {g : ℝ → ℝ} {a : ℝ} (hc : Holds c g a)
    (hg : AnalyticAt ℝ g a) : ∃ r, adExp c = some r ∧ Holds r (fun t => Real.exp (g t)) a := by
  unfold adExp
  obtain ⟨s, h1, h2, h3⟩ := init (N := N) (Real.exp (coef c 0))
  simp only [rd_coef c (Nat.zero_le N), Option.bind_eq_bind, Option.bind_some, h1]
  apply forUp_fill _ (T (fun t => Real.exp (g t)) a) s _ h3
  · intro k hk s' i1 i2
    have hk0 : ((k + 1 : ℕ) : ℝ) ≠ 0 := by positivity
    obtain ⟨b, e1, e2, e3⟩ := forUp_acc (lo := 1) (cnt := k + 1) (k := k + 1) hk
      (fun i s => (rd c i).bind fun x => (rd s (k + 1 - i)).bind fun y => addTo s (k + 1) (i * x * y))
      (fun i => ((i : ℝ) + 1) * T g a (i + 1) * T (fun t => Real.exp (g t)) a (k - i)) s'
      (fun i hi s'' hs => by
        rw [Nat.add_comm 1 i, rd_coef c (by omega), rd_coef s'' (by omega), Option.bind_some,
          Option.bind_some, hs _ (by omega), i1 _ (by omega), hc _ (by omega),
          show k + 1 - (i + 1) = k - i by omega]
        push_cast; rfl)
    obtain ⟨b', c1, c2⟩ := wr_coef b (coef b (k + 1) / ((k + 1 : ℕ) : ℝ)) hk
    refine ⟨b', ?_, ?_, fun j hj => ?_⟩
    · simp only [e1, Option.bind_some, rd_coef b hk, quo_some hk0, c1]
    · rw [c2, if_pos rfl, e2, i2 _ (by omega), zero_add, rec_exp hg]; push_cast; rfl
    · rw [c2, if_neg hj, e3 j hj]
  · rw [h2, hc 0 (by omega), T_zero, T_zero]

theorem adLog_holds {N : ℕ} {c : Arr ℝ N} {g : ℝ → ℝ} {a : ℝ} (hc : Holds c g a)
    (hg : AnalyticAt ℝ g a) (h0 : 0 < g a) :
    ∃ r, adLog c = some r ∧ Holds r (fun t => Real.log (g t)) a := by
  have hc0 : coef c 0 = g a := by rw [hc 0 (by omega), T_zero]
  unfold adLog
  obtain ⟨s, h1, h2, h3⟩ := init (N := N) (Real.log (g a))
  simp only [rd_coef c (Nat.zero_le N), Option.bind_eq_bind, Option.bind_some, hc0, log?, if_pos h0,
    h1]
  apply forUp_fill _ (T (fun t => Real.log (g t)) a) s _ h3
  · intro k hk s' i1 i2
    have hk0 : ((k + 1 : ℕ) : ℝ) ≠ 0 := by positivity
    obtain ⟨b, e1, e2, e3⟩ := forUp_acc (lo := 1) (cnt := k) (k := k + 1) hk
      (fun i s => (rd s i).bind fun x => (rd c (k + 1 - i)).bind fun y => addTo s (k + 1) (i * x * y))
      (fun i => ((i : ℝ) + 1) * T (fun t => Real.log (g t)) a (i + 1) * T g a (k - i)) s'
      (fun i hi s'' hs => by
        rw [Nat.add_comm 1 i, rd_coef s'' (by omega), rd_coef c (by omega), Option.bind_some,
          Option.bind_some, hs _ (by omega), i1 _ (by omega), hc _ (by omega),
          show k + 1 - (i + 1) = k - i by omega]
        push_cast; rfl)
    obtain ⟨b', c1, c2⟩ := wr_coef b ((coef c (k + 1) - coef b (k + 1) / ((k + 1 : ℕ) : ℝ)) / g a) hk
    refine ⟨b', ?_, ?_, fun j hj => ?_⟩
    · simp only [Nat.add_sub_cancel, e1, Option.bind_some, rd_coef b hk, rd_coef c hk, quo_some hk0,
        quo_some h0.ne', c1]
    · rw [c2, if_pos rfl, e2, i2 _ (by omega), zero_add, rec_log hg h0, hc _ hk]; push_cast; rfl
    · rw [c2, if_neg hj, e3 j hj]
  · rw [h2, T_zero]

theorem adPowConst_holds {N : ℕ} {c : Arr ℝ N} {g : ℝ → ℝ} {a : ℝ} (p : ℝ) (hc : Holds c g a)
    (hg : AnalyticAt ℝ g a) (h0 : g a ≠ 0) (hd : powDom (g a) p) :
    ∃ r, adPowConst c p = some r ∧ Holds r (fun t => g t ^ p) a := by
  have hc0 : coef c 0 = g a := by rw [hc 0 (by omega), T_zero]
  unfold adPowConst
  obtain ⟨s, h1, h2, h3⟩ := init (N := N) (g a ^ p)
  simp only [rd_coef c (Nat.zero_le N), Option.bind_eq_bind, Option.bind_some, hc0, pow?, if_pos hd,
    h1]
  apply forUp_fill _ (T (fun t => g t ^ p) a) s _ h3
  · intro k hk s' i1 i2
    have hk0 : ((k + 1 : ℕ) : ℝ) ≠ 0 := by positivity
    obtain ⟨b, e1, e2, e3⟩ := forUp_acc (lo := 1) (cnt := k + 1) (k := k + 1) hk
      (fun i s => (quo ((p + 1) * (i : ℝ)) ((k + 1 : ℕ) : ℝ)).bind fun q => (rd c i).bind fun x =>
        (rd s (k + 1 - i)).bind fun y => addTo s (k + 1) ((q - 1) * x * y))
      (fun i => ((p + 1) * (i + 1) / (k + 1) - 1) * T g a (i + 1) * T (fun t => g t ^ p) a (k - i)) s'
      (fun i hi s'' hs => by
        rw [Nat.add_comm 1 i, quo_some hk0, rd_coef c (by omega), rd_coef s'' (by omega),
          Option.bind_some, Option.bind_some, Option.bind_some, hs _ (by omega), i1 _ (by omega),
          hc _ (by omega), show k + 1 - (i + 1) = k - i by omega]
        push_cast; rfl)
    obtain ⟨b', c1, c2⟩ := wr_coef b (coef b (k + 1) / g a) hk
    refine ⟨b', ?_, ?_, fun j hj => ?_⟩
    · simp only [e1, Option.bind_some, rd_coef b hk, quo_some h0, c1]
    · rw [c2, if_pos rfl, e2, i2 _ (by omega), zero_add, rec_powConst hg h0]
    · rw [c2, if_neg hj, e3 j hj]
  · rw [h2, T_zero]

theorem adSinCos_holds {N : ℕ} {c : Arr ℝ N} {g : ℝ → ℝ} {a : ℝ} (hc : Holds c g a)
    (hg : AnalyticAt ℝ g a) : ∃ r, adSinCos c = some r ∧ Holds r.1 (fun t => Real.sin (g t)) a ∧
      Holds r.2 (fun t => Real.cos (g t)) a := by
  have hc0 : coef c 0 = g a := by rw [hc 0 (by omega), T_zero]
  unfold adSinCos
  obtain ⟨s, h1, h2, h3⟩ := init (N := N) (Real.sin (g a))
  obtain ⟨s', h1', h2', h3'⟩ := init (N := N) (Real.cos (g a))
  simp only [rd_coef c (Nat.zero_le N), Option.bind_eq_bind, Option.bind_some, hc0, h1, h1']
  obtain ⟨r, k1, k2⟩ := forUp_inv (lo := 1) (body := fun k (p : Arr ℝ N × Arr ℝ N) =>
      (forUp (fun i (p : Arr ℝ N × Arr ℝ N) => (rd c i).bind fun x => (rd p.2 (k - i)).bind fun y =>
        (addTo p.1 k (i * x * y)).bind fun s => (rd s (k - i)).bind fun z =>
        (addTo p.2 k (i * x * z)).bind fun c => some (s, c)) 1 k p).bind fun p =>
      (rd p.1 k).bind fun v => (quo v k).bind fun v => (wr p.1 k v).bind fun s =>
      (rd p.2 k).bind fun w => (quo w (-(k : ℝ))).bind fun w => (wr p.2 k w).bind fun c => some (s, c))
    (fun n p => (∀ j, j ≤ n → coef p.1 j = T (fun t => Real.sin (g t)) a j ∧
        coef p.2 j = T (fun t => Real.cos (g t)) a j) ∧
      ∀ j, n < j → coef p.1 j = 0 ∧ coef p.2 j = 0) N (s, s')
    ⟨fun j hj => by
      rw [Nat.le_zero.1 hj, T_zero, T_zero]; exact ⟨h2, h2'⟩, fun j hj => ⟨h3 j hj, h3' j hj⟩⟩
    (fun k p hk ⟨i1, i2⟩ => by
      have hk : k + 1 ≤ N := hk
      have hk0 : ((k + 1 : ℕ) : ℝ) ≠ 0 := by positivity
      rw [Nat.add_comm 1 k]
      obtain ⟨q, e1, e2, e3, e4⟩ := forUp_inv (lo := 1) (body := fun i (p : Arr ℝ N × Arr ℝ N) =>
          (rd c i).bind fun x => (rd p.2 (k + 1 - i)).bind fun y =>
          (addTo p.1 (k + 1) (i * x * y)).bind fun s => (rd s (k + 1 - i)).bind fun z =>
          (addTo p.2 (k + 1) (i * x * z)).bind fun c => some (s, c))
        (fun m q =>
          (coef q.1 (k + 1) = ∑ i ∈ range m, ((i : ℝ) + 1) * T g a (i + 1)
            * T (fun t => Real.cos (g t)) a (k - i)) ∧
          (coef q.2 (k + 1) = ∑ i ∈ range m, ((i : ℝ) + 1) * T g a (i + 1)
            * T (fun t => Real.sin (g t)) a (k - i)) ∧
          ∀ j, j ≠ k + 1 → coef q.1 j = coef p.1 j ∧ coef q.2 j = coef p.2 j) (k + 1) p
        ⟨by simp [(i2 (k + 1) (by omega)).1], by simp [(i2 (k + 1) (by omega)).2],
          fun _ _ => ⟨rfl, rfl⟩⟩
        (fun m q hm ⟨j1, j2, j3⟩ => by
          obtain ⟨b, b1, b2⟩ := addTo_coef q.1 (((m + 1 : ℕ) : ℝ) * T g a (m + 1)
            * T (fun t => Real.cos (g t)) a (k - m)) hk
          obtain ⟨b', b1', b2'⟩ := addTo_coef q.2 (((m + 1 : ℕ) : ℝ) * T g a (m + 1)
            * T (fun t => Real.sin (g t)) a (k - m)) hk
          refine ⟨(b, b'), ?_, ?_, ?_, fun j hj => ?_⟩
          · have z1 : rd b (k - m) = some (T (fun t => Real.sin (g t)) a (k - m)) := by
              rw [rd_coef b (by omega), b2, if_neg (by omega), (j3 _ (by omega)).1,
                (i1 _ (by omega)).1]
            rw [Nat.add_comm 1 m, rd_coef c (by omega), Option.bind_some, rd_coef q.2 (by omega),
              Option.bind_some, (j3 _ (by omega)).2, (i1 _ (by omega)).2, hc _ (by omega),
              show k + 1 - (m + 1) = k - m by omega, b1, Option.bind_some, z1, Option.bind_some,
              b1', Option.bind_some]
          · rw [b2, if_pos rfl, j1, sum_range_succ]; push_cast; rfl
          · rw [b2', if_pos rfl, j2, sum_range_succ]; push_cast; rfl
          · rw [b2, if_neg hj, b2', if_neg hj]; exact j3 j hj)
      obtain ⟨b, b1, b2⟩ := wr_coef q.1 (coef q.1 (k + 1) / ((k + 1 : ℕ) : ℝ)) hk
      obtain ⟨b', b1', b2'⟩ := wr_coef q.2 (coef q.2 (k + 1) / (-((k + 1 : ℕ) : ℝ))) hk
      refine ⟨(b, b'), ?_, fun j hj => ?_, fun j hj => ?_⟩
      · rw [e1]
        simp only [Option.bind_some, rd_coef q.1 hk, rd_coef q.2 hk, quo_some hk0,
          quo_some (neg_ne_zero.2 hk0), b1, b1']
      · by_cases hj' : j = k + 1
        · subst hj'
          refine ⟨?_, ?_⟩
          · rw [b2, if_pos rfl, e2, rec_sin hg]; push_cast; rfl
          · rw [b2', if_pos rfl, e3, rec_cos hg]; push_cast; rfl
        · rw [b2, if_neg hj', b2', if_neg hj', (e4 j hj').1, (e4 j hj').2]
          exact i1 j (by omega)
      · have hj' : j ≠ k + 1 := by omega
        rw [b2, if_neg hj', b2', if_neg hj', (e4 j hj').1, (e4 j hj').2]
        exact i2 j (by omega))
  exact ⟨r, k1, fun j hj => (k2.1 j hj).1, fun j hj => (k2.1 j hj).2⟩

theorem forUp_sum {cnt : ℕ} (body : ℕ → ℝ → Option ℝ) (t : ℕ → ℝ)
    (hb : ∀ i, i < cnt → ∀ s, body i s = some (s + t i)) :
    forUp body 0 cnt 0 = some (∑ i ∈ range cnt, t i) := by
  obtain ⟨s, h1, h2⟩ := forUp_inv (lo := 0) (body := body)
    (fun c (s : ℝ) => s = ∑ i ∈ range c, t i) cnt 0 (by simp) (fun c s hc hs => by
      exact ⟨_, by rw [Nat.zero_add, hb c hc], by rw [sum_range_succ, hs]⟩)
  rw [h1, h2]

theorem adPow_holds {N : ℕ} {cf cg cl : Arr ℝ N} {f g : ℝ → ℝ} {a : ℝ} (hcf : Holds cf f a)
    (hcg : Holds cg g a) (hcl : Holds cl (fun t => Real.log (f t)) a)
    (hf : AnalyticAt ℝ f a) (hg : AnalyticAt ℝ g a) (h0 : 0 < f a) :
    ∃ r, adPow cf cg cl = some r ∧ Holds r (fun t => f t ^ g t) a := by
  have hf0 : coef cf 0 = f a := by rw [hcf 0 (by omega), T_zero]
  have hg0 : coef cg 0 = g a := by rw [hcg 0 (by omega), T_zero]
  unfold adPow
  obtain ⟨s, h1, h2, h3⟩ := init (N := N) (f a ^ g a)
  have hd : powDom (f a) (g a) := Or.inl h0
  simp only [rd_coef cf (Nat.zero_le N), rd_coef cg (Nat.zero_le N), Option.bind_eq_bind,
    Option.bind_some, hf0, hg0, pow?, if_pos hd, h1]
  apply forUp_fill _ (T (fun t => f t ^ g t) a) s _ h3
  · intro k hk s0 i1 i2
    have hk0 : ((k + 1 : ℕ) : ℝ) * f a ≠ 0 := mul_ne_zero (by positivity) h0.ne'
    -- the innermost sum
    have inner : ∀ j i, i + j ≤ k → forUp (fun q (acc : ℝ) => (rd cf q).bind fun x =>
        (rd cl (k + 1 - i - (j + 1) - q)).bind fun y => some (acc + x * y)) 0
          (k + 1 - i - (j + 1) + 1) 0 =
        some (∑ q ∈ range (k - i - j + 1), T f a q * T (fun t => Real.log (f t)) a (k - i - j - q)) := by
      intro j i hij
      rw [show k + 1 - i - (j + 1) = k - i - j by omega]
      refine forUp_sum _ _ fun q hq s => ?_
      rw [rd_coef cf (by omega), rd_coef cl (by omega), Option.bind_some, Option.bind_some,
        hcf _ (by omega), hcl _ (by omega)]
    -- the double loop
    obtain ⟨b, e1, e2, e3⟩ := forUp_inv (lo := 1) (body := fun j s =>
        forUp (fun i s =>
          (forUp (fun q (acc : ℝ) => (rd cf q).bind fun x =>
            (rd cl (k + 1 - i - j - q)).bind fun y => some (acc + x * y)) 0
              (k + 1 - i - j + 1) 0).bind fun flnf =>
          (rd s i).bind fun ri => (rd cf j).bind fun fj => (rd cg (k + 1 - i - j)).bind fun gm =>
          (rd cg j).bind fun gj =>
          addTo s (k + 1) (j * ri * (fj * gm + gj * flnf))) 0 (k + 1 - j + 1) s)
      (fun m (q : Arr ℝ N) =>
        (coef q (k + 1) = ∑ j ∈ range m, ∑ i ∈ range (k - j + 1),
          ((j : ℝ) + 1) * T (fun t => f t ^ g t) a i *
            (T f a (j + 1) * T g a (k - i - j) +
             T g a (j + 1) * ∑ q ∈ range (k - i - j + 1),
                T f a q * T (fun t => Real.log (f t)) a (k - i - j - q))) ∧
        ∀ j, j ≠ k + 1 → coef q j = coef s0 j) (k + 1) s0
      ⟨by simp [i2 (k + 1) (by omega)], fun _ _ => rfl⟩
      (fun m q hm ⟨j1, j2⟩ => by
        obtain ⟨b, b1, b2, b3⟩ := forUp_acc (lo := 0) (cnt := k - m + 1) (k := k + 1) hk
          (fun i s =>
            (forUp (fun q (acc : ℝ) => (rd cf q).bind fun x =>
              (rd cl (k + 1 - i - (m + 1) - q)).bind fun y => some (acc + x * y)) 0
                (k + 1 - i - (m + 1) + 1) 0).bind fun flnf =>
            (rd s i).bind fun ri => (rd cf (m + 1)).bind fun fj =>
            (rd cg (k + 1 - i - (m + 1))).bind fun gm =>
            (rd cg (m + 1)).bind fun gj =>
            addTo s (k + 1) (((m + 1 : ℕ) : ℝ) * ri * (fj * gm + gj * flnf)))
          (fun i => ((m : ℝ) + 1) * T (fun t => f t ^ g t) a i *
            (T f a (m + 1) * T g a (k - i - m) +
             T g a (m + 1) * ∑ q ∈ range (k - i - m + 1),
                T f a q * T (fun t => Real.log (f t)) a (k - i - m - q))) q
          (fun i hi s'' hs => by
            rw [Nat.zero_add, inner m i (by omega)]
            rw [rd_coef s'' (by omega), rd_coef cf (by omega), rd_coef cg (by omega),
              rd_coef cg (by omega), Option.bind_some, Option.bind_some, Option.bind_some,
              Option.bind_some, Option.bind_some, hs i (by omega), j2 i (by omega), i1 i (by omega),
              hcf _ (by omega), hcg _ (by omega), hcg _ (by omega),
              show k + 1 - i - (m + 1) = k - i - m by omega]
            push_cast; rfl)
        refine ⟨b, ?_, ?_, fun j hj => by rw [b3 j hj, j2 j hj]⟩
        · rw [Nat.add_comm 1 m, show k + 1 - (m + 1) + 1 = k - m + 1 by omega]; exact b1
        · rw [b2, j1]; exact (sum_range_succ _ m).symm)
    -- the subtracted sum
    obtain ⟨b', e4, e5, e6⟩ := forUp_acc (lo := 1) (cnt := k) (k := k + 1) hk
      (fun j s => (rd cf (k + 1 - j)).bind fun x => (rd s j).bind fun y =>
        addTo s (k + 1) (-(j * x * y)))
      (fun j => -(((j : ℝ) + 1) * T f a (k - j) * T (fun t => f t ^ g t) a (j + 1))) b
      (fun i hi s'' hs => by
        rw [Nat.add_comm 1 i, rd_coef cf (by omega), rd_coef s'' (by omega), Option.bind_some,
          Option.bind_some, hs _ (by omega), e3 _ (by omega), i1 _ (by omega), hcf _ (by omega),
          show k + 1 - (i + 1) = k - i by omega]
        push_cast; rfl)
    obtain ⟨c, c1, c2⟩ := wr_coef b' (coef b' (k + 1) / (((k + 1 : ℕ) : ℝ) * f a)) hk
    refine ⟨c, ?_, ?_, fun j hj => ?_⟩
    · rw [e1]
      simp only [Nat.add_sub_cancel, e4, Option.bind_some, rd_coef b' hk, quo_some hk0, c1]
    · rw [c2, if_pos rfl, e5, e2, rec_pow hf hg h0, sum_neg_distrib]; push_cast; rfl
    · rw [c2, if_neg hj, e6 j hj, e3 j hj]
  · rw [h2, T_zero]

end Stator.Ad
