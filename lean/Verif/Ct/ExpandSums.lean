import Verif.Ct.ExpandMany

/-!
# Sums in several variables always expand (C98)
-/

namespace Stator.Ct.Expand

open Stator.Pol (Arr rd wr forUp zeros addOp mulPoly divConst mulVar varPow value polyOf coef)

/-! ## Specification -/

/-- Sums, differences and negations, in any order and depth, of expressions each of which has only one variable. -/
inductive Sums : X → Prop
  | one {x : List Char} {s : X} : s.over x → s.exact → Sums s
  | add {l r : X} : Sums l → Sums r → Sums (.bin .add l r)
  | sub {l r : X} : Sums l → Sums r → Sums (.bin .sub l r)
  | neg {a : X} : Sums a → Sums (.neg a)

/-! ## Proofs -/

/-- Sums of terms, with a weight that the rules lower. -/
inductive Sum : X → ℕ → Prop
  | flat {x : List Char} {e : X} : Flat x e → Sum e 1
  | const (a : C) : Sum (.c a) 3
  | term {x : List Char} {e r : X} : Gives e (some r) → Form x r → (∀ c, e.isC c = false) → Sum e 3
  | var (x : List Char) : Sum (.var x) 2
  | pow (x : List Char) (p : ℕ) : Sum (.pow (.var x) p) 2
  | add {l r : X} {m n : ℕ} : Sum l m → Sum r n → Sum (.bin .add l r) (m + n)
  | sub {l r : X} {m n : ℕ} : Sum l m → Sum r n → Sum (.bin .sub l r) (m + n)
  | neg {a : X} {m : ℕ} : Sum a m → Sum (.neg a) (m + 1)

theorem Sum.pos {e : X} {n : ℕ} (h : Sum e n) : 1 ≤ n := by
  induction h <;> omega

/-- `e` is simplified to something lighter than `n`, or not at all. -/
def Settles (e : X) (n : ℕ) : Prop :=
  ∃ q, Gives e q ∧ ∀ r, q = some r → ∃ m, m < n ∧ Sum r m ∧ ∀ c, r.isC c = false

theorem sum_form {x : List Char} {e : X} (h : Form x e) : ∃ n, n ≤ 2 ∧ Sum e n := by
  cases h with
  | flat h => exact ⟨1, by omega, .flat h⟩
  | var => exact ⟨2, by omega, .var x⟩
  | pow p => exact ⟨2, by omega, .pow x p⟩

theorem flat_number {e : X} (hn : e.number ≠ none) (hc : ∀ c, e.isC c = false) (x : List Char) : Flat x e := by
  cases e with
  | c a => simpa [X.isC] using hc a
  | int z => exact .int z
  | dbl y => exact .dbl y
  | _ => simp [X.number] at hn

theorem sum_bin {o : BOp} (ho : o = .add ∨ o = .sub) {l r : X} {m n : ℕ} (hl : Sum l m) (hr : Sum r n) : Sum (.bin o l r) (m + n) := by
  rcases ho with rfl | rfl
  · exact .add hl hr
  · exact .sub hl hr

theorem sum_apply {o : BOp} (ho : o = .add ∨ o = .sub) {l r : X} {m n : ℕ} (hl : Sum l m) (hr : Sum r n)
    (cl : ∀ c, l.isC c = false) (cr : ∀ c, r.isC c = false) :
    ∃ e k, apply o l r = some e ∧ k ≤ m + n ∧ Sum e k ∧ ∀ c, e.isC c = false := by
  rw [apply_node cl cr]
  by_cases hn : l.number ≠ none ∧ r.number ≠ none
  · obtain ⟨e, he, hf, _⟩ := node_number (o := o) (flat_number hn.1 cl []) (flat_number hn.2 cr []) (by rintro rfl; simp at ho) hn
    exact ⟨e, 1, he, by have := hl.pos; omega, .flat hf, flat_not_c hf⟩
  · exact ⟨_, m + n, node_tree hn, le_rfl, sum_bin ho hl hr, fun c => rfl⟩

theorem rules_sum {o : BOp} (ho : o = .add ∨ o = .sub) (l r : X) :
    rules o l r = none ∨ ∃ x e, rules o l r = some (some e) ∧ Flat x e := by
  have hd : o ≠ .div := by rintro rfl; simp at ho
  have hm : o ≠ .mul := by rintro rfl; simp at ho
  have z {u v : List Char} {n m : ℕ} (f : Arr ℤ n) (g : Arr ℤ m) : rulesZ o u v f g = none ∨ ∃ x e, rulesZ o u v f g = some (some e) ∧ Flat x e := by
    by_cases huv : u = v
    · subst huv
      obtain ⟨r, e, h, _⟩ := rulesZ_ok o u f g hd
      exact .inr ⟨u, r, e, h⟩
    · rcases ho with rfl | rfl <;> exact .inl (by simp [rulesZ, huv])
  have q {u v : List Char} {n m : ℕ} (f : Arr ℝ n) (g : Arr ℝ m) : rulesR o u v f g = none ∨ ∃ x e, rulesR o u v f g = some (some e) ∧ Flat x e := by
    by_cases huv : u = v
    · subst huv
      obtain ⟨k, r, e, h⟩ := rulesR_ok o u f g fun h => absurd h hd
      exact .inr ⟨u, _, e, .polyR _ r⟩
    · rcases ho with rfl | rfl <;> exact .inl (by simp [rulesR, huv])
  unfold rules
  split
  · exact z _ _
  · exact q _ _
  · exact q _ _
  · exact q _ _
  · simp [hm]
  · simp [hm]
  · exact .inl rfl

theorem lift_flat {o : BOp} (ho : o = .add ∨ o = .sub) {l r e : X} (h : lift o l r = some e) :
    ∃ x q, Gives e (some q) ∧ Flat x q := by
  have hs : ∀ b, Side o b := by intro b hd; subst hd; simp at ho
  have key : ∀ (x : List Char), Flat x l → Flat x r →
      ((l.number = none ∧ r.number ≠ none) ∨ (l.number ≠ none ∧ r.number = none)) → ∃ x q, Gives e (some q) ∧ Flat x q := by
    intro x hl hr hn
    obtain ⟨e', q, he, hg, hf, _⟩ := lift_ok (o := o) hl hr (hs _) hn
    rw [h] at he
    cases he
    exact ⟨x, q, hg, hf⟩
  unfold lift at h
  split at h
  · exact key _ (.polyZ _ _) (.int _) (.inl ⟨rfl, by simp [X.number]⟩)
  · exact key _ (.polyZ _ _) (.dbl _) (.inl ⟨rfl, by simp [X.number]⟩)
  · exact key _ (.polyR _ _) (.int _) (.inl ⟨rfl, by simp [X.number]⟩)
  · exact key _ (.polyR _ _) (.dbl _) (.inl ⟨rfl, by simp [X.number]⟩)
  · exact key _ (.int _) (.polyZ _ _) (.inr ⟨by simp [X.number], rfl⟩)
  · exact key _ (.dbl _) (.polyZ _ _) (.inr ⟨by simp [X.number], rfl⟩)
  · exact key _ (.int _) (.polyR _ _) (.inr ⟨by simp [X.number], rfl⟩)
  · exact key _ (.dbl _) (.polyR _ _) (.inr ⟨by simp [X.number], rfl⟩)
  · cases h

theorem first_sum {o : BOp} (ho : o = .add ∨ o = .sub) {l r e : X} (h : first o l r = some e) : ∃ x, Flat x e := by
  unfold first at h
  split at h
  all_goals first
    | (cases h; exact ⟨[], .int _⟩)
    | (cases h; exact ⟨[], .dbl _⟩)
    | (simp at ho)
    | (cases h)

/-- A value that does not depend on the depth of the recursion. -/
def Stable (a : ℕ → Option (Option X)) (q : Option X) : Prop := ∃ k, ∀ m, k ≤ m → a m = some q

/-- Something lighter than `n`, or nothing. -/
def Light (n : ℕ) (q : Option X) : Prop := ∀ r, q = some r → ∃ m, m < n ∧ Sum r m ∧ ∀ c, r.isC c = false

theorem attempt_stable {e : X} {f : X → Option X} {n w : ℕ} (h : Settles e w)
    (hf : ∀ d m, m < w → Sum d m → (∀ c, d.isC c = false) → ∃ e' k, f d = some e' ∧ k < n ∧ Sum e' k ∧ (∀ c, e'.isC c = false) ∧ Settles e' k) :
    ∃ q, Stable (fun k => attempt (simp k) e f) q ∧ Light n q := by
  obtain ⟨q, ⟨k, hk⟩, hq⟩ := h
  cases q with
  | none => exact ⟨none, ⟨k, fun m hm => by simp [attempt, hk m hm]⟩, fun r hr => by cases hr⟩
  | some d =>
    obtain ⟨m, hm, hd, cd⟩ := hq d rfl
    obtain ⟨e', w', he, hw, hs, hc, q', ⟨k', hk'⟩, hq'⟩ := hf d m hm hd cd
    refine ⟨some (q'.getD e'), ⟨max k k', fun m hm => by simp [attempt, hk m (by omega), he, orSelf, hk' m (by omega)]⟩, fun r hr => ?_⟩
    cases hr
    cases q' with
    | none => exact ⟨w', hw, hs, hc⟩
    | some x =>
      obtain ⟨m', hm', h1, h2⟩ := hq' x rfl
      exact ⟨m', by omega, h1, h2⟩

theorem either_stable {a b : ℕ → Option (Option X)} {p q : Option X} (ha : Stable a p) (hb : Stable b q) {n : ℕ} (hp : Light n p) (hq : Light n q) :
    (∃ k, ∀ m, k ≤ m → either (a m) (b m) = some (.inr ())) ∨
    ∃ x, Light n x ∧ ∃ k, ∀ m, k ≤ m → either (a m) (b m) = some (.inl x) := by
  obtain ⟨k, hk⟩ := ha
  obtain ⟨k', hk'⟩ := hb
  cases p with
  | none =>
    cases q with
    | none => exact .inl ⟨max k k', fun m hm => by simp [either, hk m (by omega), hk' m (by omega)]⟩
    | some y => exact .inr ⟨some y, hq, max k k', fun m hm => by simp [either, hk m (by omega), hk' m (by omega)]⟩
  | some x =>
    cases q with
    | none => exact .inr ⟨some x, hp, max k k', fun m hm => by simp [either, hk m (by omega), hk' m (by omega)]⟩
    | some y => exact .inr ⟨none, (fun r hr => by cases hr), max k k', fun m hm => by simp [either, hk m (by omega), hk' m (by omega)]⟩

/-- A sum or difference with a constant `C<..>` is always simplified. -/
theorem const_left {o : BOp} (ho : o = .add ∨ o = .sub) (a : C) (b : X) : ¬ Gives (.bin o (.c a) b) none := by
  rintro ⟨k, hk⟩
  have h := hk (k + 2) (by omega)
  have h1 : rules o (.c a) b = none := by cases b <;> rfl
  have h2 : first o (.c a) b = none := by rcases ho with rfl | rfl <;> cases b <;> rfl
  have h3 : ¬ (o = .div ∧ b.isC .unity) := by rintro ⟨rfl, -⟩; simp at ho
  rw [simp] at h
  simp only [h1, h2, if_neg h3, Option.bind_eq_bind, Option.bind_eq_some_iff] at h
  obtain ⟨p, hp, q, hq, h⟩ := h
  rw [simp] at hp
  cases hp
  cases q <;> simp only [Option.bind_eq_some_iff] at h <;> obtain ⟨_, _, _, _, h⟩ := h <;> cases h

theorem const_right {o : BOp} (ho : o = .add ∨ o = .sub) (a : C) (b : X) : ¬ Gives (.bin o b (.c a)) none := by
  rintro ⟨k, hk⟩
  have h := hk (k + 2) (by omega)
  have h1 : rules o b (.c a) = none := by cases b <;> rfl
  have h2 : first o b (.c a) = none := by rcases ho with rfl | rfl <;> cases b <;> rfl
  have h3 : ¬ (o = .div ∧ (X.c a).isC .unity) := by rintro ⟨rfl, -⟩; simp at ho
  rw [simp] at h
  simp only [h1, h2, if_neg h3, Option.bind_eq_bind, Option.bind_eq_some_iff] at h
  obtain ⟨p, hp, q, hq, h⟩ := h
  rw [simp] at hq
  cases hq
  cases p <;> simp only [Option.bind_eq_some_iff] at h <;> obtain ⟨_, _, _, _, h⟩ := h <;> cases h

theorem not_c {e : X} (h : ∀ a, e ≠ .c a) (c : C) : e.isC c = false := by
  by_contra hc
  exact h c (isC_eq (by simpa using hc))

theorem none_not_c {e : X} (h : Gives e none) (c : C) : e.isC c = false :=
  not_c (fun a ha => by subst ha; cases gives_unique h (gives_c a)) c

/-- The parts of a sum that is not simplified. -/
theorem sum_parts {l a b : X} {m : ℕ} (h : Sum l m) (hg : Gives l none) (hp : l.parts .add = some (a, b)) :
    ∃ i j, i + j = m ∧ Sum a i ∧ Sum b j ∧ (∀ c, a.isC c = false) ∧ ∀ c, b.isC c = false := by
  obtain rfl := parts_eq hp
  cases h with
  | flat h => cases h
  | term h _ _ => cases gives_unique h hg
  | add h1 h2 =>
    exact ⟨_, _, rfl, h1, h2, not_c fun a ha => const_left (.inl rfl) a _ (ha ▸ hg), not_c fun a ha => const_right (.inl rfl) a _ (ha ▸ hg)⟩

theorem neg_sum {a : X} {m : ℕ} (h : Sum a m) (hc : ∀ c, a.isC c = false) :
    ∃ e k, opNeg a = some e ∧ k ≤ m + 1 ∧ Sum e k ∧ ∀ c, e.isC c = false := by
  cases a with
  | c a => simpa [X.isC] using hc a
  | int z => exact ⟨_, 1, rfl, by omega, .flat (x := []) (.int _), fun c => rfl⟩
  | dbl z => exact ⟨_, 1, rfl, by omega, .flat (x := []) (.dbl _), fun c => rfl⟩
  | polyZ v n f =>
    obtain ⟨r, e, hf, _⟩ := flat_neg (.polyZ n f : Flat v _)
    exact ⟨r, 1, e, by omega, .flat hf, flat_not_c hf⟩
  | polyR v n f =>
    obtain ⟨r, e, hf, _⟩ := flat_neg (.polyR n f : Flat v _)
    exact ⟨r, 1, e, by omega, .flat hf, flat_not_c hf⟩
  | _ => exact ⟨_, m + 1, rfl, le_rfl, .neg h, fun c => rfl⟩

theorem neg_settles {a : X} {m : ℕ} (h : Sum a m) (ih : ∀ k < m + 1, ∀ e, Sum e k → Settles e k) : Settles (.neg a) (m + 1) := by
  obtain ⟨q, ⟨k, hk⟩, hq⟩ := ih m (by omega) a h
  cases q with
  | none => exact ⟨none, gives_succ k fun i hi => by simp [simp, hk i hi], fun r hr => by cases hr⟩
  | some d =>
    obtain ⟨w, hw, hs, hc⟩ := hq d rfl
    obtain ⟨e, w', he, hw', hs', hc'⟩ := neg_sum hs hc
    obtain ⟨q', hg, hq'⟩ := ih w' (by omega) e hs'
    cases q' with
    | none => exact ⟨some e, gives_neg ⟨k, hk⟩ he (.inr ⟨hg, rfl⟩), fun r hr => by cases hr; exact ⟨w', by omega, hs', hc'⟩⟩
    | some x =>
      refine ⟨some x, gives_neg ⟨k, hk⟩ he (.inl hg), fun r hr => ?_⟩
      cases hr
      obtain ⟨m', h1, h2⟩ := hq' x rfl
      exact ⟨m', by omega, h2⟩

theorem stable_none : Stable (fun _ => some none) none := ⟨0, fun _ _ => rfl⟩

theorem light_none (n : ℕ) : Light n none := fun r hr => by cases hr

/-- The rules for reordering end. -/
theorem reorder_stable {l r : X} {m n : ℕ} (hl : Sum l m) (hr : Sum r n) (gl : Gives l none) (gr : Gives r none)
    (ih : ∀ k < m + n, ∀ e, Sum e k → Settles e k) : ∃ q, Stable (fun k => reorder (simp k) .add l r) q ∧ Light (m + n) q := by
  have cl := none_not_c gl
  have cr := none_not_c gr
  have pl := hl.pos
  have pr := hr.pos
  -- one attempt
  have att : ∀ {e : X} {w v : ℕ} {g : X} (f : X → Option X), Sum e w → Sum g v → w + v = m + n → (∀ c, g.isC c = false) →
      ((∀ d, f d = apply .add g d) ∨ ∀ d, f d = apply .add d g) → ∃ q, Stable (fun k => attempt (simp k) e f) q ∧ Light (m + n) q := by
    intro e w v g f he hg hwv cg hf
    have pv := hg.pos
    refine attempt_stable (ih w (by omega) e he) fun d i hi hd cd => ?_
    obtain ⟨e', k, h1, h2, h3, h4⟩ : ∃ e' k, f d = some e' ∧ k ≤ v + i ∧ Sum e' k ∧ ∀ c, e'.isC c = false := by
      rcases hf with hf | hf
      · rw [hf]; exact sum_apply (.inl rfl) hg hd cg cd
      · rw [hf, add_comm v i]; exact sum_apply (.inl rfl) hd hg cd cg
    exact ⟨e', k, h1, by omega, h3, h4, ih k (by omega) e' h3⟩
  have a1 : ∃ q, Stable (fun k => onParts (l.parts .add)
      fun a b => attempt (simp k) (.bin .add b r) (fun d => apply .add a d)) q ∧ Light (m + n) q := by
    cases hp : l.parts .add with
    | none => exact ⟨none, stable_none, light_none _⟩
    | some p =>
      obtain ⟨i, j, hij, ha, hb, ca, cb⟩ := sum_parts hl gl hp
      exact att _ (.add hb hr) ha (by omega) ca (.inl fun d => rfl)
  have a2 : ∃ q, Stable (fun k => onParts (r.parts .add)
      fun b c => attempt (simp k) (.bin .add l b) (fun d => apply .add d c)) q ∧ Light (m + n) q := by
    cases hp : r.parts .add with
    | none => exact ⟨none, stable_none, light_none _⟩
    | some p =>
      obtain ⟨i, j, hij, ha, hb, ca, cb⟩ := sum_parts hr gr hp
      exact att _ (.add hl ha) hb (by omega) cb (.inr fun d => rfl)
  have a3 : ∃ q, Stable (fun k => onParts (l.parts .add)
      fun a b => attempt (simp k) (.bin .add a r) (fun d => apply .add d b)) q ∧ Light (m + n) q := by
    cases hp : l.parts .add with
    | none => exact ⟨none, stable_none, light_none _⟩
    | some p =>
      obtain ⟨i, j, hij, ha, hb, ca, cb⟩ := sum_parts hl gl hp
      exact att _ (.add ha hr) hb (by omega) cb (.inr fun d => rfl)
  have a4 : ∃ q, Stable (fun k => onParts (r.parts .add)
      fun b c => attempt (simp k) (.bin .add l c) (fun d => apply .add d b)) q ∧ Light (m + n) q := by
    cases hp : r.parts .add with
    | none => exact ⟨none, stable_none, light_none _⟩
    | some p =>
      obtain ⟨i, j, hij, ha, hb, ca, cb⟩ := sum_parts hr gr hp
      exact att _ (.add hl hb) ha (by omega) ca (.inr fun d => rfl)
  obtain ⟨q1, s1, l1⟩ := a1
  obtain ⟨q2, s2, l2⟩ := a2
  obtain ⟨q3, s3, l3⟩ := a3
  obtain ⟨q4, s4, l4⟩ := a4
  rcases either_stable s1 s2 l1 l2 with ⟨k, hk⟩ | ⟨x, lx, k, hk⟩
  · rcases either_stable s3 s4 l3 l4 with ⟨k', hk'⟩ | ⟨x, lx, k', hk'⟩
    · refine ⟨none, ⟨max k k', fun i hi => ?_⟩, light_none _⟩
      have h1 := hk i (by omega)
      have h2 := hk' i (by omega)
      simp only [reorder, true_or, if_true, h1, h2, Option.bind_eq_bind, Option.bind_some]
    · refine ⟨x, ⟨max k k', fun i hi => ?_⟩, lx⟩
      have h1 := hk i (by omega)
      have h2 := hk' i (by omega)
      simp only [reorder, true_or, if_true, h1, h2, Option.bind_eq_bind, Option.bind_some]
  · refine ⟨x, ⟨k, fun i hi => ?_⟩, lx⟩
    have h1 := hk i (by omega)
    simp only [reorder, true_or, if_true, h1, Option.bind_eq_bind, Option.bind_some]

theorem bin_settles {o : BOp} (ho : o = .add ∨ o = .sub) {l r : X} {m n : ℕ} (hl : Sum l m) (hr : Sum r n)
    (ih : ∀ k < m + n, ∀ e, Sum e k → Settles e k) : Settles (.bin o l r) (m + n) := by
  have pl := hl.pos
  have pr := hr.pos
  have hu : ¬ (o = .div ∧ r.isC .unity) := by rintro ⟨rfl, -⟩; simp at ho
  have flat {x : List Char} {e : X} (h : Flat x e) : ∃ k, k < m + n ∧ Sum e k ∧ ∀ c, e.isC c = false :=
    ⟨1, by omega, .flat h, flat_not_c h⟩
  rcases rules_sum ho l r with hrules | ⟨x, e, he, hf⟩
  · cases hfirst : first o l r with
    | some e =>
      obtain ⟨x, hf⟩ := first_sum ho hfirst
      exact ⟨some e, gives_first hrules hfirst, fun q hq => by cases hq; exact flat hf⟩
    | none =>
      obtain ⟨ql, gl, dl⟩ := ih m (by omega) l hl
      obtain ⟨qr, gr, dr⟩ := ih n (by omega) r hr
      -- the operands
      have ops : ∀ (l' r' : X) (i j : ℕ), Ready l l' → Ready r r' → ¬ (Gives l none ∧ Gives r none) → Sum l' i → Sum r' j →
          (∀ c, l'.isC c = false) → (∀ c, r'.isC c = false) → i + j < m + n → Settles (.bin o l r) (m + n) := by
        intro l' r' i j rl rr hn hl' hr' cl cr hij
        obtain ⟨e, k, he, hk, hs, hc⟩ := sum_apply ho hl' hr' cl cr
        obtain ⟨q, hg, hq⟩ := ih k (by omega) e hs
        cases q with
        | none =>
          exact ⟨some e, gives_operands hrules hfirst hu rl rr hn he (.inr ⟨hg, rfl⟩), fun x hx => by
            cases hx; exact ⟨k, by omega, hs, hc⟩⟩
        | some y =>
          refine ⟨some y, gives_operands hrules hfirst hu rl rr hn he (.inl hg), fun x hx => ?_⟩
          cases hx
          obtain ⟨m', h1, h2⟩ := hq y rfl
          exact ⟨m', by omega, h2⟩
      cases ql with
      | some l' =>
        obtain ⟨i, hi, sl, cl⟩ := dl l' rfl
        have hn : ¬ (Gives l none ∧ Gives r none) := fun h => by cases gives_unique h.1 gl
        cases qr with
        | some r' =>
          obtain ⟨j, hj, sr, cr⟩ := dr r' rfl
          exact ops l' r' i j (.inl gl) (.inl gr) hn sl sr cl cr (by omega)
        | none => exact ops l' r i n (.inl gl) (.inr ⟨gr, rfl⟩) hn sl hr cl (none_not_c gr) (by omega)
      | none =>
        cases qr with
        | some r' =>
          obtain ⟨j, hj, sr, cr⟩ := dr r' rfl
          exact ops l r' m j (.inr ⟨gl, rfl⟩) (.inl gr) (fun h => by cases gives_unique h.2 gr) hl sr (none_not_c gl) cr (by omega)
        | none =>
          cases hlift : lift o l r with
          | some e =>
            obtain ⟨x, q, hg, hf⟩ := lift_flat ho hlift
            exact ⟨some q, gives_lift hrules hfirst hu gl gr hlift (.inl hg), fun y hy => by cases hy; exact flat hf⟩
          | none =>
            obtain ⟨k1, h1⟩ := gl
            obtain ⟨k2, h2⟩ := gr
            have step : ∀ i, max k1 k2 ≤ i → simp (i + 1) (.bin o l r) = reorder (simp i) o l r := by
              intro i hi
              rw [simp]
              simp only [hrules, hfirst, if_neg hu, h1 i (by omega), h2 i (by omega), hlift, Option.bind_eq_bind, Option.bind_some]
            rcases ho with rfl | rfl
            · obtain ⟨q, ⟨k, hk⟩, hq⟩ := reorder_stable hl hr ⟨k1, h1⟩ ⟨k2, h2⟩ ih
              exact ⟨q, gives_succ (max k (max k1 k2)) fun i hi => by rw [step i (by omega)]; exact hk i (by omega), hq⟩
            · exact ⟨none, gives_succ (max k1 k2) fun i hi => by rw [step i hi]; simp [reorder], fun x hx => by cases hx⟩
  · exact ⟨some e, gives_rules he, fun q hq => by cases hq; exact flat hf⟩

theorem sum_settles : ∀ (n : ℕ) (e : X), Sum e n → Settles e n := by
  intro n
  induction n using Nat.strong_induction_on with
  | _ n ih =>
    intro e h
    cases h with
    | flat h => exact ⟨none, flat_none h, fun r hr => by cases hr⟩
    | const a => exact ⟨_, gives_c a, fun r hr => by cases hr; exact ⟨1, by omega, .flat (x := []) (.dbl _), fun c => rfl⟩⟩
    | term h hf hc =>
      obtain ⟨k, hk, hs⟩ := sum_form hf
      exact ⟨_, h, fun r hr => by cases hr; exact ⟨k, by omega, hs, form_not_c hf⟩⟩
    | var x => exact ⟨_, gives_var x, fun r hr => by cases hr; exact ⟨1, by omega, .flat (.polyZ _ _), fun c => rfl⟩⟩
    | pow x p =>
      obtain ⟨f, hg, _⟩ := gives_varPow x p
      exact ⟨_, hg, fun r hr => by cases hr; exact ⟨1, by omega, .flat (.polyZ _ _), fun c => rfl⟩⟩
    | add h1 h2 => exact bin_settles (.inl rfl) h1 h2 ih
    | sub h1 h2 => exact bin_settles (.inr rfl) h1 h2 ih
    | neg h => exact neg_settles h ih

/-! ## Sources -/

theorem over_uses {x : List Char} {s : X} (h : s.over x) {v : List Char} (hv : s.uses v) : v = x := by
  induction s with
  | var u => exact hv ▸ h
  | polyZ u n f => exact hv ▸ h
  | polyR u n f => exact hv ▸ h
  | bin o l r ihl ihr => exact hv.elim (ihl h.1) (ihr h.2)
  | neg a ih => exact ih h hv
  | pow a p ih => exact ih h hv
  | c a => exact hv.elim
  | int z => exact hv.elim
  | dbl y => exact hv.elim

theorem constants_tame {s : X} (h : s.constants) : s.real ∧ (∀ v, ¬ s.uses v) := by
  induction s with
  | bin o l r ihl ihr => exact ⟨⟨(ihl h.1).1, (ihr h.2).1⟩, fun v hv => hv.elim ((ihl h.1).2 v) ((ihr h.2).2 v)⟩
  | neg a ih => exact ih h
  | pow a p ih => exact ih h
  | c a => exact ⟨trivial, fun v hv => hv.elim⟩
  | var u => exact h.elim
  | polyZ u n f => exact h.elim
  | polyR u n f => exact h.elim
  | int z => exact h.elim
  | dbl y => exact h.elim

theorem constants_tame' {s : X} (h : s.constants) : s.tame := by
  induction s with
  | bin o l r ihl ihr =>
    have := ihl h.1
    have := ihr h.2
    cases o
    · exact ⟨ihl h.1, ihr h.2⟩
    · exact ⟨ihl h.1, ihr h.2⟩
    · exact ⟨ihl h.1, ihr h.2, .inr (.inl (constants_tame h.1).2)⟩
    · exact ⟨ihl h.1, ihr h.2, (constants_tame h.2).1⟩
  | neg a ih => exact ih h
  | pow a p ih => exact ⟨ih h, [], fun v hv => absurd hv ((constants_tame h).2 v)⟩
  | _ => trivial

theorem divisor_tame {s : X} (h : s.divisor) : s.tame ∧ s.real := by
  cases s with
  | dbl y => exact ⟨trivial, trivial⟩
  | _ => exact ⟨constants_tame' h.1, (constants_tame h.1).1⟩

theorem one_tame {x : List Char} {s : X} (ho : s.over x) (hx : s.exact) : s.tame := by
  induction s with
  | bin o l r ihl ihr =>
    cases o
    · exact ⟨ihl ho.1 hx.1, ihr ho.2 hx.2⟩
    · exact ⟨ihl ho.1 hx.1, ihr ho.2 hx.2⟩
    · exact ⟨ihl ho.1 hx.1, ihr ho.2 hx.2, .inl ⟨x, fun v hv => hv.elim (over_uses ho.1) (over_uses ho.2)⟩⟩
    · exact ⟨ihl ho.1 hx.1, divisor_tame hx.2⟩
  | neg a ih => exact ih ho hx
  | pow a p ih => exact ⟨ih ho hx, x, fun v hv => over_uses ho hv⟩
  | _ => trivial

theorem sums_tame {s : X} (h : Sums s) : s.tame := by
  induction h with
  | one ho hx => exact one_tame ho hx
  | add _ _ h1 h2 => exact ⟨h1, h2⟩
  | sub _ _ h1 h2 => exact ⟨h1, h2⟩
  | neg _ h => exact h

theorem sum_ready {x : List Char} {e r : X} (h : Ready e r) (hf : Form x r) : ∃ n, Sum e n := by
  rcases h with h | ⟨h, rfl⟩
  · by_cases hc : ∃ a, e = .c a
    · obtain ⟨a, rfl⟩ := hc
      exact ⟨_, .const a⟩
    · exact ⟨_, .term h hf (not_c fun a ha => hc ⟨a, ha⟩)⟩
  · obtain ⟨n, _, h⟩ := sum_form hf
    exact ⟨n, h⟩

theorem isC_c (a b : C) : (X.c a).isC b = decide (a = b) := rfl

theorem sums_apply {o : BOp} (ho : o = .add ∨ o = .sub) {l r e : X} (hl : ∃ m, Sum l m) (hr : ∃ n, Sum r n) (h : apply o l r = some e) :
    ∃ k, Sum e k := by
  obtain ⟨m, hl⟩ := hl
  obtain ⟨n, hr⟩ := hr
  by_cases cl : ∃ a, l = .c a
  · obtain ⟨a, rfl⟩ := cl
    by_cases cr : ∃ b, r = .c b
    · obtain ⟨b, rfl⟩ := cr
      rcases ho with rfl | rfl <;> (simp only [apply, Option.some.injEq] at h; subst h; exact ⟨_, .const _⟩)
    · have hr' : ∀ c, r.isC c = false := not_c fun a ha => cr ⟨a, ha⟩
      by_cases ha : a = .null
      · subst ha
        rcases ho with rfl | rfl
        · have : apply .add (.c .null) r = some r := by
            unfold apply; split
            · exact absurd ⟨_, rfl⟩ cr
            · simp [hr', isC_c]
          rw [this] at h; cases h; exact ⟨n, hr⟩
        · have : apply .sub (.c .null) r = opNeg r := by
            unfold apply; split
            · exact absurd ⟨_, rfl⟩ cr
            · simp [hr', isC_c]
          rw [this] at h
          obtain ⟨e', k, he, _, hs, _⟩ := neg_sum hr hr'
          rw [h] at he; cases he
          exact ⟨k, hs⟩
      · have : apply o (.c a) r = node o (.c a) r := by
          unfold apply; split
          · exact absurd ⟨_, rfl⟩ cr
          · rcases ho with rfl | rfl <;> simp [hr', isC_c, ha]
        rw [this] at h
        by_cases hn : r.number = none
        · rw [node_tree (fun h => h.2 hn)] at h; cases h; exact ⟨_, sum_bin ho hl hr⟩
        · cases flat_number hn hr' [] with
          | int z => rcases ho with rfl | rfl <;> (simp only [node, X.number, realOp, Option.map_some, Option.some.injEq] at h; subst h; exact ⟨1, .flat (x := []) (.dbl _)⟩)
          | dbl z => rcases ho with rfl | rfl <;> (simp only [node, X.number, realOp, Option.map_some, Option.some.injEq] at h; subst h; exact ⟨1, .flat (x := []) (.dbl _)⟩)
          | _ => simp [X.number] at hn
  · have hl' : ∀ c, l.isC c = false := not_c fun a ha => cl ⟨a, ha⟩
    by_cases cr : ∃ b, r = .c b
    · obtain ⟨b, rfl⟩ := cr
      by_cases hb : b = .null
      · subst hb
        have : apply o l (.c .null) = some l := by
          unfold apply; split
          · exact absurd ⟨_, rfl⟩ cl
          · rcases ho with rfl | rfl <;> simp [isC_c]
        rw [this] at h; cases h; exact ⟨m, hl⟩
      · have : apply o l (.c b) = node o l (.c b) := by
          unfold apply; split
          · exact absurd ⟨_, rfl⟩ cl
          · rcases ho with rfl | rfl <;> simp [hl', isC_c, hb]
        rw [this] at h
        by_cases hn : l.number = none
        · rw [node_tree (fun h => h.1 hn)] at h; cases h; exact ⟨_, sum_bin ho hl hr⟩
        · cases flat_number hn hl' [] with
          | int z => rcases ho with rfl | rfl <;> (simp only [node, X.number, realOp, Option.map_some, Option.some.injEq] at h; subst h; exact ⟨1, .flat (x := []) (.dbl _)⟩)
          | dbl z => rcases ho with rfl | rfl <;> (simp only [node, X.number, realOp, Option.map_some, Option.some.injEq] at h; subst h; exact ⟨1, .flat (x := []) (.dbl _)⟩)
          | _ => simp [X.number] at hn
    · obtain ⟨e', k, he, _, hs, _⟩ := sum_apply ho hl hr hl' (not_c fun a ha => cr ⟨a, ha⟩)
      rw [h] at he; cases he
      exact ⟨k, hs⟩

theorem build_sum {s : X} (h : Sums s) : ∀ {e : X}, build s = some e → ∃ n, Sum e n := by
  induction h with
  | one ho hx =>
    intro e he
    obtain ⟨r, hr, hf, _⟩ := build_ready ho hx he
    exact sum_ready hr hf
  | add _ _ h1 h2 =>
    intro e he
    simp only [build, Option.bind_eq_bind, Option.bind_eq_some_iff] at he
    obtain ⟨l', hl, r', hr, he⟩ := he
    exact sums_apply (.inl rfl) (h1 hl) (h2 hr) he
  | sub _ _ h1 h2 =>
    intro e he
    simp only [build, Option.bind_eq_bind, Option.bind_eq_some_iff] at he
    obtain ⟨l', hl, r', hr, he⟩ := he
    exact sums_apply (.inr rfl) (h1 hl) (h2 hr) he
  | neg _ h =>
    intro e he
    simp only [build, Option.bind_eq_bind, Option.bind_eq_some_iff] at he
    obtain ⟨a', ha, he⟩ := he
    obtain ⟨n, hn⟩ := h ha
    by_cases hc : ∃ a, a' = .c a
    · obtain ⟨a, rfl⟩ := hc
      cases he
      exact ⟨_, .const _⟩
    · obtain ⟨e', k, he', _, hs, _⟩ := neg_sum hn (not_c fun a ha => hc ⟨a, ha⟩)
      rw [he] at he'; cases he'
      exact ⟨k, hs⟩

/-- **C98.** A sum or difference, nested in any way, of expressions each of which has one variable expands to exactly one result, and
the result has the value of the expression for all values of the variables. -/
theorem C98_sums {s e : X} (hs : Sums s) (h : build s = some e) :
    ∃ r, (∀ r', TryExpand e r' ↔ r' = r) ∧ ∀ ρ, r.val ρ = s.val ρ := by
  obtain ⟨n, hn⟩ := build_sum hs h
  obtain ⟨q, hg, _⟩ := sum_settles n e hn
  have hr : Ready e (q.getD e) := by
    cases q with
    | none => exact .inr ⟨hg, rfl⟩
    | some r => exact .inl hg
  refine ⟨q.getD e, tryExpand_iff (x := []) hr, ?_⟩
  exact (C98_value (sums_tame hs) h ((tryExpand_iff (x := []) hr _).2 rfl)).1

end Stator.Ct.Expand
