import Verif.Rt.RoundTripLemmas
import Mathlib.Data.List.Basic
import Mathlib.Data.List.Nodup
import Mathlib.Data.List.Perm.Subperm
import Mathlib.Algebra.Order.BigOperators.Group.List
import Mathlib.Algebra.Order.Ring.Nat

/-!
# Round trip: only the expressions of `Printable` come back

From a derivation that reads the printed tokens of `e` as `e` itself, the conditions of `Printable` follow.
-/

namespace Stator

variable {K : Type}

/-! ## Depth of brackets -/

/-- Bracket depth, with failure at a closing bracket or separator on depth 0. -/
def scan : ℕ → List Tok → Option ℕ
  | d, [] => some d
  | d, .sym ['('] :: ts => scan (d + 1) ts
  | d, .sym ['['] :: ts => scan (d + 1) ts
  | d, .sym ['{'] :: ts => scan (d + 1) ts
  | d, .sym [')'] :: ts => if d = 0 then none else scan (d - 1) ts
  | d, .sym [']'] :: ts => if d = 0 then none else scan (d - 1) ts
  | d, .sym ['}'] :: ts => if d = 0 then none else scan (d - 1) ts
  | d, .sym [','] :: ts => if d = 0 then none else scan d ts
  | d, .sym [':'] :: ts => if d = 0 then none else scan d ts
  | d, _ :: ts => scan d ts

/-- The text is closed: no bracket is left open, and no closing bracket or separator is at the top. -/
def Closed (ts : List Tok) : Prop := ∀ d rest, scan d (ts ++ rest) = scan d rest

/-- The same, but with separators at the top, inside brackets. -/
def Closed1 (ts : List Tok) : Prop := ∀ d rest, scan (d + 1) (ts ++ rest) = scan (d + 1) rest

theorem Closed.closed1 {a : List Tok} (h : Closed a) : Closed1 a := fun d rest => h _ _

theorem Closed.append {a b : List Tok} (ha : Closed a) (hb : Closed b) : Closed (a ++ b) := by
  intro d rest; rw [List.append_assoc, ha, hb]
theorem Closed1.append {a b : List Tok} (ha : Closed1 a) (hb : Closed1 b) : Closed1 (a ++ b) := by
  intro d rest; rw [List.append_assoc, ha, hb]

theorem closed_infix {o : BinOp} {t : Tok} (h : infixTok o = some t) : Closed [t] := by
  intro d rest
  cases o <;> simp [infixTok, pmSign] at h <;> subst h <;> simp [scan]

theorem closed1_comma : Closed1 [.sym [',']] := by intro d rest; simp [scan]
theorem closed1_colon : Closed1 [.sym [':']] := by intro d rest; simp [scan]

theorem closed_paren {a : List Tok} (ha : Closed1 a) : Closed ([.sym ['(']] ++ a ++ [.sym [')']]) := by
  intro d rest; simp only [List.append_assoc, List.cons_append, List.nil_append]
  rw [scan, ha]; simp [scan]
theorem closed_square {a : List Tok} (ha : Closed1 a) : Closed ([.sym ['[']] ++ a ++ [.sym [']']]) := by
  intro d rest; simp only [List.append_assoc, List.cons_append, List.nil_append]
  rw [scan, ha]; simp [scan]
theorem closed_brace {a : List Tok} (ha : Closed1 a) : Closed ([.sym ['{']] ++ a ++ [.sym ['}']]) := by
  intro d rest; simp only [List.append_assoc, List.cons_append, List.nil_append]
  rw [scan, ha]; simp [scan]

theorem gram_closed (L : NumLex K) {ts : List Tok} {e : Expr K} (h : Gram L ts e) : Closed ts := by
  refine Gram.rec (motive_1 := fun ts _ _ => Closed ts) (motive_2 := fun ts _ _ => Closed1 ts)
    (motive_3 := fun ts _ _ => Closed1 ts) ?_ ?_ ?_ ?_ ?_ ?_ ?_ ?_ ?_ ?_ ?_ ?_ ?_ ?_ ?_ ?_ ?_ h
  · intro s st rest; simp [scan]
  · intro s _ st rest; simp [scan]
  · intro ts e _ ih st rest; simp [scan, ih _ _]
  · intro ts e _ ih st rest; simp [scan, ih _ _]
  · intro ts e o s _ _ ih st rest; simp [scan, ih _ _]
  · intro ts e _ ih; exact closed_paren ih.closed1
  · intro ts1 ts2 l r o t ho _ _ ih1 ih2; exact (ih1.append (closed_infix ho)).append ih2
  · intro ts1 ts2 l r _ _ ih1 ih2
    have := ih1.append (closed_square ih2.closed1)
    simpa using this
  · intro ts1 ts2 l r _ _ ih1 ih2
    have := ih1.append (closed_brace ih2.closed1)
    simpa using this
  · intro st rest; simp [scan]
  · intro ts e _ ih; exact closed_square ih
  · intro st rest; simp [scan]
  · intro ts e _ _ _ ih; exact closed_brace ih
  · intro ts e _ ih; exact ih.closed1
  · intro _ _ _ _ _ _ ih1 ih2; exact (ih1.append closed1_comma).append ih2.closed1
  · intro _ _ _ _ _ _ ih1 ih2; exact (ih1.closed1.append closed1_colon).append ih2.closed1
  · intro _ _ _ _ _ _ _ _ _ ih1 ih2 ih3
    exact (((ih1.append closed1_comma).append ih2.closed1).append closed1_colon).append ih3.closed1

/-- A token at which every expression ends. -/
theorem scan_halt {t : Tok} (h : rightOp t = some .halt) (ts : List Tok) : scan 0 (t :: ts) = none := by
  unfold rightOp at h
  split at h <;> first | (simp at h; done) | simp [scan]

/-- Two closed texts in front of the same end are the same. -/
theorem closed_unique {p q r s : List Tok} {t u : Tok} (hp : Closed p) (hq : Closed q)
    (ht : rightOp t = some .halt) (hu : rightOp u = some .halt) (h : p ++ t :: r = q ++ u :: s) :
    p = q ∧ t = u ∧ r = s := by
  rw [List.append_eq_append_iff] at h
  rcases h with ⟨z, h1, h2⟩ | ⟨z, h1, h2⟩
  · cases z with
    | nil => simp_all
    | cons z zs =>
      simp at h2
      obtain ⟨rfl, -⟩ := h2
      have h3 := hq 0 []
      rw [List.append_nil, h1, hp, scan_halt ht] at h3
      simp [scan] at h3
  · cases z with
    | nil => simp_all
    | cons z zs =>
      simp at h2
      obtain ⟨rfl, -⟩ := h2
      have h3 := hp 0 []
      rw [List.append_nil, h1, hq, scan_halt hu] at h3
      simp [scan] at h3

theorem closed_const (s : List Char) : Closed (constToks s) := by
  unfold constToks; split <;> (intro d rest; simp [scan])

theorem Closed.wrap {a : List Tok} (h : Closed a) (b : Bool) : Closed (wrapT b a) := by
  cases b
  · exact h
  · exact closed_paren h.closed1

theorem closed_terms {showK : K → List Char} {xs : List (Expr K)} (h : ∀ x ∈ xs, Closed (x.toks showK)) :
    Closed1 (toksTerms showK xs) := by
  induction xs with
  | nil => intro d rest; simp [toksTerms]
  | cons x xs ih =>
    rw [toksTerms]
    refine (h x (by simp)).closed1.append ?_
    split
    · intro d rest; simp
    · exact closed1_comma.append (ih fun y hy => h y (by simp [hy]))

theorem closed_entries {showK : K → List Char} {xs : List (List Char × Expr K)}
    (h : ∀ x ∈ xs, Closed (x.2.toks showK)) : Closed1 (toksEntries showK xs) := by
  induction xs with
  | nil => intro d rest; simp [toksEntries]
  | cons x xs ih =>
    obtain ⟨k, v⟩ := x
    rw [toksEntries]
    have h1 : Closed1 (toksEntries showK xs) := ih fun y hy => h y (by simp [hy])
    have h2 : Closed1 (v.toks showK) := (h (k, v) (by simp)).closed1
    intro d rest
    simp only [List.cons_append, List.append_assoc, scan]
    rw [if_neg (by omega), h2]
    split
    · simp
    · simp only [List.cons_append, scan]
      rw [if_neg (by omega), h1]

theorem toks_closed (showK : K → List Char) (e : Expr K) : Closed (e.toks showK) := by
  induction e using Expr.ind with
  | const k => exact closed_const _
  | var n => intro d rest; simp [Expr.toks, scan]
  | un o a ih =>
    intro d rest
    rw [Expr.toks, List.cons_append]
    have := ih.wrap (parenU o a) d rest
    cases o <;> simpa [UnOp.tok, scan] using this
  | bin o l r ih1 ih2 =>
    rw [Expr.toks]
    cases hw : o.wrapped with
    | false =>
      simp only [Bool.not_false, Bool.and_true, Bool.false_eq_true, if_false, List.append_nil]
      refine ((ih1.wrap _).append ?_).append (ih2.wrap _)
      cases o <;> first | (simp [BinOp.wrapped] at hw; done) | (intro d rest; simp [BinOp.text, pmSign, scan])
    | true =>
      simp only [Bool.not_true, Bool.and_false, if_true, wrapT, Bool.false_eq_true, if_false]
      have hs := closed_square ih2.closed1
      have hb := closed_brace ih2.closed1
      have hl := ih1.wrap (parenL o l)
      cases o <;> first | (simp [BinOp.wrapped] at hw; done) | skip
      · have := hl.append hs
        simpa [BinOp.text, BinOp.closer, wrapT] using this
      · have := hl.append hb
        simpa [BinOp.text, BinOp.closer, wrapT] using this
  | arr xs ih => rw [Expr.toks]; exact closed_square (closed_terms ih)
  | dict kvs ih => rw [Expr.toks]; exact closed_brace (closed_entries ih)

/-! ## Counting -/

/-- Names, literals and the brackets of arrays, accesses, units and dictionaries. -/
def leafTok : Tok → ℕ
  | .num _ => 1
  | .word _ => 1
  | .sym ['['] => 1
  | .sym [']'] => 1
  | .sym ['{'] => 1
  | .sym ['}'] => 1
  | _ => 0

def leaves (ts : List Tok) : ℕ := (ts.map leafTok).sum

@[simp] theorem leaves_nil : leaves [] = 0 := rfl
@[simp] theorem leaves_cons (t : Tok) (ts : List Tok) : leaves (t :: ts) = leafTok t + leaves ts := by
  simp [leaves]
@[simp] theorem leaves_append (a b : List Tok) : leaves (a ++ b) = leaves a + leaves b := by
  simp [leaves]

mutual
def Expr.cnt : Expr K → ℕ
  | .const _ => 1
  | .var _ => 1
  | .un o a => leafTok o.tok + a.cnt
  | .bin o l r => l.cnt + r.cnt + (if o.wrapped then 2 else 0)
  | .arr xs => 2 + cntTerms xs
  | .dict kvs => 2 + cntEntries kvs
def cntTerms : List (Expr K) → ℕ
  | [] => 0
  | x :: xs => x.cnt + cntTerms xs
def cntEntries : List (List Char × Expr K) → ℕ
  | [] => 0
  | (_, v) :: kvs => 1 + v.cnt + cntEntries kvs
end

theorem cntTerms_append (xs ys : List (Expr K)) : cntTerms (xs ++ ys) = cntTerms xs + cntTerms ys := by
  induction xs with
  | nil => simp [cntTerms]
  | cons x xs ih => simp [cntTerms, ih]; omega

theorem cntEntries_eq (kvs : List (List Char × Expr K)) :
    cntEntries kvs = (kvs.map fun p => 1 + p.2.cnt).sum := by
  induction kvs with
  | nil => simp [cntEntries]
  | cons x xs ih => obtain ⟨k, v⟩ := x; simp [cntEntries, ih]

theorem leaves_const (s : List Char) : leaves (constToks s) = 1 := by
  unfold constToks; split <;> simp [leafTok]

theorem leaves_wrap (b : Bool) (ts : List Tok) : leaves (wrapT b ts) = leaves ts := by
  cases b <;> simp [wrapT, leafTok]

theorem leaves_text (o : BinOp) : leafTok (.sym o.text) + leaves (if o.wrapped then [.sym o.closer] else [])
    = if o.wrapped then 2 else 0 := by
  cases o <;> simp [BinOp.text, BinOp.closer, BinOp.wrapped, leafTok, pmSign]

theorem leaves_terms {showK : K → List Char} {xs : List (Expr K)}
    (h : ∀ x ∈ xs, leaves (x.toks showK) = x.cnt) : leaves (toksTerms showK xs) = cntTerms xs := by
  induction xs with
  | nil => simp [toksTerms, cntTerms]
  | cons x xs ih =>
    rw [toksTerms, cntTerms, leaves_append, h x (by simp), ← ih fun y hy => h y (by simp [hy])]
    cases xs <;> simp [toksTerms, leafTok]

theorem leaves_entries {showK : K → List Char} {xs : List (List Char × Expr K)}
    (h : ∀ x ∈ xs, leaves (x.2.toks showK) = x.2.cnt) : leaves (toksEntries showK xs) = cntEntries xs := by
  induction xs with
  | nil => simp [toksEntries, cntEntries]
  | cons x xs ih =>
    obtain ⟨k, v⟩ := x
    have h1 : leaves (v.toks showK) = v.cnt := h (k, v) (by simp)
    rw [toksEntries, cntEntries, ← ih fun y hy => h y (by simp [hy])]
    cases xs <;> simp [toksEntries, leafTok, h1]; omega

theorem leaves_toks (showK : K → List Char) (e : Expr K) : leaves (e.toks showK) = e.cnt := by
  induction e using Expr.ind with
  | const k => exact leaves_const _
  | var n => simp [Expr.toks, Expr.cnt, leafTok]
  | un o a ih => rw [Expr.toks, Expr.cnt, leaves_cons, leaves_wrap, ih]
  | bin o l r ih1 ih2 =>
    rw [Expr.toks, Expr.cnt]
    simp only [leaves_append, leaves_wrap, ih1, ih2, leaves_cons, leaves_nil]
    have := leaves_text o
    omega
  | arr xs ih => rw [Expr.toks, Expr.cnt]; simp [leaves_terms ih, leafTok]; omega
  | dict kvs ih => rw [Expr.toks, Expr.cnt]; simp [leaves_entries ih, leafTok]; omega

theorem cnt_negate (L : NumLex K) (e : Expr K) : (negate L e).cnt = e.cnt := by
  cases e <;> simp [negate, Expr.cnt, UnOp.tok, leafTok]

theorem cntEntries_mapOf {es kvs : List (List Char × Expr K)} (h : MapOf es kvs) :
    cntEntries kvs ≤ cntEntries es := by
  rw [cntEntries_eq, cntEntries_eq]
  have hn : kvs.Nodup := h.1.of_map
  have hs : kvs ⊆ es := by
    rintro ⟨k, v⟩ hm
    obtain ⟨a, b, rfl, -⟩ := (h.2 k v).1 hm
    simp
  obtain ⟨l, hl, hsub⟩ := List.subperm_of_subset hn hs
  rw [← (hl.map _).sum_eq]
  exact (hsub.map _).sum_le_sum (fun _ _ => Nat.zero_le _)

theorem cntEntries_append (xs ys : List (List Char × Expr K)) :
    cntEntries (xs ++ ys) = cntEntries xs + cntEntries ys := by
  rw [cntEntries_eq, cntEntries_eq, cntEntries_eq]; simp

theorem gram_cnt (L : NumLex K) {ts : List Tok} {e : Expr K} (h : Gram L ts e) : e.cnt ≤ leaves ts := by
  refine Gram.rec (motive_1 := fun ts e _ => e.cnt ≤ leaves ts)
    (motive_2 := fun ts xs _ => cntTerms xs ≤ leaves ts)
    (motive_3 := fun ts es _ => cntEntries es ≤ leaves ts) ?_ ?_ ?_ ?_ ?_ ?_ ?_ ?_ ?_ ?_ ?_ ?_ ?_ ?_ ?_ ?_ ?_ h
  · intro s; simp [Expr.cnt, leafTok]
  · intro s _; simp [Expr.cnt, leafTok]
  · intro ts e _ ih; simp [leafTok]; exact ih
  · intro ts e _ ih; rw [cnt_negate]; simp [leafTok]; exact ih
  · intro ts e o s hs _ ih
    rw [Expr.cnt, leaves_cons]
    cases o <;> simp [fnName] at hs <;> subst hs <;> simp [UnOp.tok, leafTok] <;> omega
  · intro ts e _ ih; simp [leafTok]; exact ih
  · intro ts1 ts2 l r o t ho _ _ ih1 ih2
    rw [Expr.cnt]
    cases o <;> simp [infixTok] at ho <;> subst ho <;> simp [BinOp.wrapped] <;> omega
  · intro ts1 ts2 l r _ _ ih1 ih2
    simp [Expr.cnt, BinOp.wrapped, leafTok]; omega
  · intro ts1 ts2 l r _ _ ih1 ih2
    simp [Expr.cnt, BinOp.wrapped, leafTok]; omega
  · simp [Expr.cnt, cntTerms, leafTok]
  · intro ts e _ ih; simp [Expr.cnt, leafTok]; omega
  · simp [Expr.cnt, cntEntries, leafTok]
  · intro ts es kvs _ hm ih; have := cntEntries_mapOf hm; simp [Expr.cnt, leafTok]; omega
  · intro ts e _ ih; simpa [cntTerms] using ih
  · intro _ _ _ _ _ _ ih1 ih2; rw [cntTerms_append]; simp [cntTerms]; omega
  · intro _ _ k v _ _ ih1 ih2
    simp [Expr.cnt] at ih1
    simp [cntEntries]; omega
  · intro _ _ _ _ _ _ _ _ _ ih1 ih2 ih3
    simp [Expr.cnt] at ih2
    rw [cntEntries_append]; simp [cntEntries]; omega

/-- After every token other than a closing parenthesis there is still a leaf. -/
def EndLeaf (ts : List Tok) : Prop :=
  1 ≤ leaves ts ∧ ∀ a t z, ts = a ++ t :: z → t ≠ .sym [')'] → 1 ≤ leaves (t :: z)

theorem EndLeaf.append {b : List Tok} (a : List Tok) (h : EndLeaf b) : EndLeaf (a ++ b) := by
  refine ⟨by have := h.1; simp; omega, fun c t z hc ht => ?_⟩
  rw [List.append_eq_append_iff] at hc
  rcases hc with ⟨u, h1, h2⟩ | ⟨u, h1, h2⟩
  · exact h.2 u t z h2 ht
  · cases u with
    | nil => simp at h2; exact h.2 [] t z h2.symm ht
    | cons w u =>
      simp at h2
      obtain ⟨rfl, rfl⟩ := h2
      have := h.1; simp; omega

theorem EndLeaf.close {b : List Tok} (h : EndLeaf b) : EndLeaf (b ++ [.sym [')']]) := by
  refine ⟨by have := h.1; simp; omega, fun c t z hc ht => ?_⟩
  rw [List.append_eq_append_iff] at hc
  rcases hc with ⟨u, h1, h2⟩ | ⟨u, h1, h2⟩
  · cases u with
    | nil => simp at h2; exact absurd h2.1.symm ht
    | cons w u => simp at h2
  · cases u with
    | nil => simp at h2; exact absurd h2.1 ht
    | cons w u =>
      simp at h2
      obtain ⟨rfl, rfl⟩ := h2
      have := h.2 c t u h1 ht
      simp at this ⊢; omega

theorem endLeaf_one {t : Tok} (h : leafTok t = 1) : EndLeaf [t] := by
  refine ⟨by simp [h], fun a u z hc hu => ?_⟩
  cases a with
  | nil => simp at hc; obtain ⟨rfl, rfl⟩ := hc; simp [h]
  | cons a as => simp at hc

theorem EndLeaf.wrap {b : List Tok} (h : EndLeaf b) (c : Bool) : EndLeaf (wrapT c b) := by
  cases c
  · exact h
  · exact (h.append [.sym ['(']]).close

theorem gram_endLeaf (L : NumLex K) {ts : List Tok} {e : Expr K} (h : Gram L ts e) : EndLeaf ts := by
  refine Gram.rec (motive_1 := fun ts _ _ => EndLeaf ts) (motive_2 := fun ts _ _ => True)
    (motive_3 := fun ts _ _ => True) ?_ ?_ ?_ ?_ ?_ ?_ ?_ ?_ ?_ ?_ ?_ ?_ ?_ ?_ ?_ ?_ ?_ h
  · intro s; exact endLeaf_one rfl
  · intro s _; exact endLeaf_one rfl
  · intro ts e _ ih; exact ih.append [_]
  · intro ts e _ ih; exact ih.append [_]
  · intro ts e o s _ _ ih; exact ih.append [_]
  · intro ts e _ ih; exact (ih.append _).close
  · intro ts1 ts2 l r o t ho _ _ ih1 ih2; exact ih2.append _
  · intro ts1 ts2 l r _ _ ih1 ih2; exact (endLeaf_one rfl).append _
  · intro ts1 ts2 l r _ _ ih1 ih2; exact (endLeaf_one rfl).append _
  · exact (endLeaf_one (t := .sym [']']) rfl).append [_]
  · intro ts e _ ih; exact (endLeaf_one rfl).append _
  · exact (endLeaf_one (t := .sym ['}']) rfl).append [_]
  · intro ts e _ _ _ ih; exact (endLeaf_one rfl).append _
  all_goals intros; trivial

theorem toks_endLeaf (showK : K → List Char) (e : Expr K) : EndLeaf (e.toks showK) := by
  induction e using Expr.ind with
  | const k =>
    rw [Expr.toks]; unfold constToks; split
    · exact (endLeaf_one rfl).append [_]
    · exact endLeaf_one rfl
  | var n => exact endLeaf_one rfl
  | un o a ih => rw [Expr.toks]; exact (ih.wrap _).append [_]
  | bin o l r ih1 ih2 =>
    rw [Expr.toks]
    cases hw : o.wrapped with
    | false => simp only [Bool.false_eq_true, if_false, List.append_nil]; exact (ih2.wrap _).append _
    | true =>
      simp only [if_true]
      refine EndLeaf.append _ (endLeaf_one ?_)
      cases o <;> simp [BinOp.wrapped, BinOp.closer, leafTok] at hw ⊢
  | arr xs ih => rw [Expr.toks]; exact (endLeaf_one rfl).append _
  | dict kvs ih => rw [Expr.toks]; exact (endLeaf_one rfl).append _

/-- Two texts with the same number of leaves in front of the same operator are the same. -/
theorem split_unique {p q r s : List Tok} {t : Tok} (hp : EndLeaf p) (hq : EndLeaf q) (ht : t ≠ .sym [')'])
    (hl : leaves p = leaves q) (h : p ++ t :: r = q ++ t :: s) : p = q ∧ r = s := by
  rw [List.append_eq_append_iff] at h
  rcases h with ⟨z, h1, h2⟩ | ⟨z, h1, h2⟩
  · cases z with
    | nil => simp_all
    | cons z zs =>
      simp at h2
      obtain ⟨rfl, -⟩ := h2
      have h3 := hq.2 p t zs h1 ht
      rw [h1] at hl; simp at hl h3; omega
  · cases z with
    | nil => simp_all
    | cons z zs =>
      simp at h2
      obtain ⟨rfl, -⟩ := h2
      have h3 := hp.2 q t zs h1 ht
      rw [h1] at hl; simp at hl h3; omega

/-! ## Steps of the operator loop -/

/-- `Steps L m M t ts M' t' ts'`: the loop with minimum `m` gets from the limit `M`, the expression `t` and
the tokens `ts` to `M'`, `t'`, `ts'`. -/
inductive Steps (L : NumLex K) (m M : Int) (t : Expr K) (ts : List Tok) : Int → Expr K → List Tok → Prop
  | refl : Steps L m M t ts M t ts
  | wrap {M1 l tok ts1 b r ts2} : Steps L m M t ts M1 l (tok :: ts1) → rightOp tok = some (.bin b) →
      b.lbp ≤ M1 → b.wrapped = true → D L (.expr 0) ts1 r (.sym b.closer :: ts2) →
      Steps L m M t ts b.nbp (.bin b l r) ts2
  | bin {M1 l tok ts1 b r ts2} : Steps L m M t ts M1 l (tok :: ts1) → rightOp tok = some (.bin b) →
      b.lbp ≤ M1 → b.wrapped = false → D L (.expr b.rbp) ts1 r ts2 →
      Steps L m M t ts b.nbp (.bin b l r) ts2

/-- The loop stops in front of `rest`. -/
def Stops (m M : Int) (rest : List Tok) : Prop :=
  rest = [] ∨ ∃ tok ts o, rest = tok :: ts ∧ rightOp tok = some o ∧ (m > o.lbp ∨ o.lbp > M)

theorem steps_trans (L : NumLex K) {m M M1 M2 : Int} {t t1 t2 : Expr K} {ts ts1 ts2 : List Tok}
    (h : Steps L m M t ts M1 t1 ts1) (h' : Steps L m M1 t1 ts1 M2 t2 ts2) : Steps L m M t ts M2 t2 ts2 := by
  induction h' with
  | refl => exact h
  | wrap _ h2 h3 h4 h5 ih => exact .wrap ih h2 h3 h4 h5
  | bin _ h2 h3 h4 h5 ih => exact .bin ih h2 h3 h4 h5

theorem D_steps (L : NumLex K) {c : Cat K} {ts rest : List Tok} {e : Expr K} (h : D L c ts e rest) :
    ∀ m M t, c = .loop m M t → ∃ M', Steps L m M t ts M' e rest ∧ Stops m M' rest := by
  induction h with
  | loopEnd => rintro _ _ _ ⟨⟩; exact ⟨_, .refl, .inl rfl⟩
  | loopStop h1 h2 => rintro _ _ _ ⟨⟩; exact ⟨_, .refl, .inr ⟨_, _, _, rfl, h1, h2⟩⟩
  | loopWrap h1 _ h3 h4 _ h5 _ _ _ ih =>
    rintro _ _ _ ⟨⟩
    obtain ⟨M', h6, h7⟩ := ih _ _ _ rfl
    exact ⟨M', steps_trans L (.wrap .refl h1 h3 h4 h5) h6, h7⟩
  | loopBin h1 _ h3 h4 _ h5 _ _ ih =>
    rintro _ _ _ ⟨⟩
    obtain ⟨M', h6, h7⟩ := ih _ _ _ rfl
    exact ⟨M', steps_trans L (.bin .refl h1 h3 h4 h5) h6, h7⟩
  | _ => rintro _ _ _ h; simp at h

/-- `ts` is read as `e`, up to `rest`, but the loop may go on from there, with the limit `M`. -/
def Part (L : NumLex K) (m : Int) (ts : List Tok) (e : Expr K) (M : Int) (rest : List Tok) : Prop :=
  ∃ t ts1, D L .tok ts t ts1 ∧ Steps L m intMax t ts1 M e rest

theorem D_part (L : NumLex K) {m : Int} {ts rest : List Tok} {e : Expr K} (h : D L (.expr m) ts e rest) :
    ∃ M, Part L m ts e M rest ∧ Stops m M rest := by
  cases h with
  | expr h1 h2 =>
    obtain ⟨M, h3, h4⟩ := D_steps L h2 _ _ _ rfl
    exact ⟨M, ⟨_, _, h1, h3⟩, h4⟩

theorem D_gram (L : NumLex K) {m : Int} {ts rest : List Tok} {e : Expr K} (h : D L (.expr m) ts e rest) :
    ∃ p, ts = p ++ rest ∧ Gram L p e := D_sound L h

theorem steps_gram (L : NumLex K) {m M M' : Int} {t t' : Expr K} {ts ts' : List Tok}
    (h : Steps L m M t ts M' t' ts') : ∃ p, ts = p ++ ts' ∧ ∀ pre, Gram L pre t → Gram L (pre ++ p) t' := by
  induction h with
  | refl => exact ⟨[], rfl, fun pre h => by simpa using h⟩
  | @wrap M1 l tok ts1 b r ts2 _ h2 h3 h4 h5 ih =>
    obtain ⟨p, rfl, h6⟩ := ih
    obtain ⟨u, rfl, h7⟩ := D_gram L h5
    refine ⟨p ++ tok :: u ++ [.sym b.closer], by simp, fun pre hp => ?_⟩
    rcases rightOp_wrapped h2 h4 with ⟨rfl, rfl⟩ | ⟨rfl, rfl⟩
    · have := Gram.access (h6 _ hp) h7
      simpa [BinOp.closer] using this
    · have := Gram.units (h6 _ hp) h7
      simpa [BinOp.closer] using this
  | @bin M1 l tok ts1 b r ts2 _ h2 h3 h4 h5 ih =>
    obtain ⟨p, rfl, h6⟩ := ih
    obtain ⟨u, rfl, h7⟩ := D_gram L h5
    refine ⟨p ++ tok :: u, by simp, fun pre hp => ?_⟩
    have := Gram.infix (rightOp_infix h2 h4) (h6 _ hp) h7
    simpa using this

theorem part_gram (L : NumLex K) {m M : Int} {ts rest : List Tok} {e : Expr K} (h : Part L m ts e M rest) :
    ∃ p, ts = p ++ rest ∧ Gram L p e := by
  obtain ⟨t, ts1, h1, h2⟩ := h
  obtain ⟨p, rfl, h3⟩ := steps_gram L h2
  obtain ⟨q, rfl, h4⟩ : ∃ q, ts = q ++ (p ++ rest) ∧ Gram L q t := D_sound L h1
  exact ⟨q ++ p, by simp, h3 _ h4⟩

theorem steps_length (L : NumLex K) {m M M' : Int} {t t' : Expr K} {ts ts' : List Tok}
    (h : Steps L m M t ts M' t' ts') : ts'.length < ts.length ∨ (t' = t ∧ M' = M ∧ ts' = ts) := by
  induction h with
  | refl => exact .inr ⟨rfl, rfl, rfl⟩
  | wrap _ _ _ _ h5 ih =>
    obtain ⟨u, rfl, -⟩ := D_gram L h5
    left
    rcases ih with ih | ⟨-, -, ih⟩
    · simp at ih ⊢; omega
    · rw [← ih]; simp; omega
  | bin _ _ _ _ h5 ih =>
    obtain ⟨u, rfl, -⟩ := D_gram L h5
    left
    rcases ih with ih | ⟨-, -, ih⟩
    · simp at ih ⊢; omega
    · rw [← ih]; simp; omega

/-- Expressions other than operations are read as one operand. -/
theorem part_tok (L : NumLex K) {m M : Int} {ts rest : List Tok} {e : Expr K} (h : Part L m ts e M rest)
    (he : ∀ o l r, e ≠ .bin o l r) : D L .tok ts e rest ∧ M = intMax := by
  obtain ⟨t, ts1, h1, h2⟩ := h
  cases h2 with
  | refl => exact ⟨h1, rfl⟩
  | wrap => exact absurd rfl (he _ _ _)
  | bin => exact absurd rfl (he _ _ _)

theorem rightOp_bin {tok : Tok} {o : BinOp} (h : rightOp tok = some (.bin o)) : tok = .sym o.text := by
  unfold rightOp at h
  split at h <;> simp at h <;> subst h <;> rfl

/-- How an operation is read: as a parenthesised operand, or its left side, the operator and its right side. -/
theorem part_bin (L : NumLex K) {m M : Int} {ts rest : List Tok} {o : BinOp} {l r : Expr K}
    (h : Part L m ts (.bin o l r) M rest) :
    D L .tok ts (.bin o l r) rest ∨
    ∃ M1 mid, Part L m ts l M1 (.sym o.text :: mid) ∧ o.lbp ≤ M1 ∧ M = o.nbp ∧
      if o.wrapped then D L (.expr 0) mid r (.sym o.closer :: rest) else D L (.expr o.rbp) mid r rest := by
  obtain ⟨t, ts1, h1, h2⟩ := h
  cases h2 with
  | refl => exact .inl h1
  | wrap h3 h4 h5 h6 h7 =>
    rw [rightOp_bin h4] at h3
    exact .inr ⟨_, _, ⟨_, _, h1, h3⟩, h5, rfl, by rw [if_pos h6]; exact h7⟩
  | bin h3 h4 h5 h6 h7 =>
    rw [rightOp_bin h4] at h3
    exact .inr ⟨_, _, ⟨_, _, h1, h3⟩, h5, rfl, by rw [if_neg (by simp [h6])]; exact h7⟩

/-! ## First tokens -/

/-- What printed text begins with. -/
theorem toks_head (showK : K → List Char) (e : Expr K) :
    ∃ t z, e.toks showK = t :: z ∧ t ≠ .sym ['+'] ∧
      ((∃ o l r, e = .bin o l r) → t = .sym ['('] →
        ∃ p q, Closed p ∧ e.toks showK = [.sym ['(']] ++ p ++ [.sym [')']] ++ q ∧ q ≠ []) ∧
      ((∀ o l r, e ≠ .bin o l r) → t ≠ .sym ['(']) := by
  induction e using Expr.ind with
  | const k =>
    rw [Expr.toks]; unfold constToks; split
    · exact ⟨_, _, rfl, by simp, by simp, by simp⟩
    · exact ⟨_, _, rfl, by simp, by simp, by simp⟩
  | var n => exact ⟨_, _, rfl, by simp, by simp, by simp⟩
  | un o a ih => exact ⟨_, _, by rw [Expr.toks], by cases o <;> simp [UnOp.tok], by simp,
      by cases o <;> simp [UnOp.tok]⟩
  | bin o l r ih1 ih2 =>
    obtain ⟨t, z, h1, h2, h3, h4⟩ := ih1
    obtain ⟨Q, hQ, hne⟩ : ∃ Q, (Expr.bin o l r).toks showK = wrapT (parenL o l) (l.toks showK) ++ Q ∧ Q ≠ [] :=
      ⟨_, by rw [Expr.toks, List.append_assoc, List.append_assoc], by simp⟩
    rw [hQ]
    cases hp : parenL o l with
    | true =>
      refine ⟨.sym ['('], l.toks showK ++ [.sym [')']] ++ Q, by simp [wrapT], by simp, ?_,
        fun h => absurd rfl (h _ _ _)⟩
      intro _ _
      exact ⟨l.toks showK, Q, toks_closed showK l, by simp [wrapT], hne⟩
    | false =>
      refine ⟨t, z ++ Q, by simp [wrapT, h1], h2, ?_, fun h => absurd rfl (h _ _ _)⟩
      intro _ ht
      by_cases hb : ∃ o' l' r', l = .bin o' l' r'
      · obtain ⟨p, q, h5, h6, h7⟩ := h3 hb ht
        exact ⟨p, q ++ Q, h5, by simp [wrapT, h6], by simp [h7]⟩
      · exact absurd ht (h4 (fun o' l' r' h => hb ⟨o', l', r', h⟩))
  | arr xs ih => exact ⟨_, _, by rw [Expr.toks]; rfl, by simp, by simp, by simp⟩
  | dict kvs ih => exact ⟨_, _, by rw [Expr.toks]; rfl, by simp, by simp, by simp⟩

/-- A printed operation is not read as a parenthesised operand. -/
theorem bin_not_tok (L : NumLex K) {showK : K → List Char} {rest : List Tok} {o : BinOp} {l r : Expr K}
    (h : D L .tok ((Expr.bin o l r).toks showK ++ rest) (.bin o l r) rest) : False := by
  obtain ⟨t, z, h1, h2, h3, -⟩ := toks_head showK (.bin o l r)
  rw [h1, List.cons_append] at h
  generalize he : Expr.bin o l r = e at h
  generalize hts : t :: (z ++ rest) = ts at h
  cases h with
  | paren h4 _ h5 _ =>
    rw [leftOp_paren h4] at hts
    simp at hts
    obtain ⟨rfl, rfl⟩ := hts
    obtain ⟨p, q, h6, h7, h8⟩ := h3 ⟨_, _, _, rfl⟩ rfl
    obtain ⟨u, h9, h10⟩ := D_gram L h5
    rw [h7] at h1
    simp at h1
    rw [← h1] at h9
    have h11 := closed_unique (r := q ++ rest) (s := rest) (t := .sym [')']) (u := .sym [')']) h6
      (gram_closed L h10) rfl rfl (by simpa using h9)
    have := congrArg List.length h11.2.2
    simp at this
    exact h8 this
  | skip h4 => rw [leftOp_skip h4] at hts; simp at hts; exact h2 hts.1
  | minus h4 =>
    rename_i e' _ _
    cases e' <;> simp [negate] at he
  | arr h4 _ _ h5 =>
    obtain ⟨u, xs, -, h6, -⟩ : SoundCat L (.arr []) _ _ _ := D_sound L h5
    subst he; simp at h6
  | dict h4 _ _ h5 =>
    obtain ⟨u, xs, -, h6, -⟩ : SoundCat L (.dict []) _ _ _ := D_sound L h5
    subst he; simp at h6
  | _ => simp at he

/-! ## The inversion -/

/-- What follows is nothing, a closing bracket, a separator, or an operator weaker than unary minus. -/
def looseRest (rest : List Tok) : Bool :=
  match rest.head?.bind rightOp with
  | some (.bin o) => o.weak
  | _ => true

theorem looseRest_halt {t : Tok} (h : rightOp t = some .halt) (rest : List Tok) : looseRest (t :: rest) = true := by
  simp [looseRest, h]

theorem looseRest_op (o : BinOp) (rest : List Tok) : looseRest (.sym o.text :: rest) = o.weak := by
  simp [looseRest, rightOp_text]

/-- What the induction proves. -/
def Inv (L : NumLex K) (showK : K → List Char) (e : Expr K) : Prop :=
  ∀ m M rest, e.repr showK ≠ none → Part L m (e.toks showK ++ rest) e M rest →
    Printable L showK (looseRest rest) e

theorem tok_paren (L : NumLex K) {ts rest : List Tok} {t : Expr K} (h : D L .tok (.sym ['('] :: ts) t rest) :
    D L (.expr 0) ts t (.sym [')'] :: rest) := by
  cases h with
  | paren _ _ h _ => exact h
  | skip h => simp [leftOp] at h
  | minus h => simp [leftOp] at h
  | arr0 h => simp [leftOp] at h
  | arr h => simp [leftOp] at h
  | dict0 h => simp [leftOp] at h
  | dict h => simp [leftOp] at h
  | fn h => simp [leftOp] at h

theorem part_paren (L : NumLex K) {m M : Int} {ts rest : List Tok} {e : Expr K} (hc : Closed ts)
    (h : Part L m (wrapT true ts ++ rest) e M rest) : D L (.expr 0) (ts ++ .sym [')'] :: rest) e (.sym [')'] :: rest) := by
  obtain ⟨t, ts1, h1, h2⟩ := h
  simp only [wrapT, if_true, List.append_assoc, List.cons_append, List.nil_append] at h1
  have h3 := tok_paren L h1
  obtain ⟨u, h4, h5⟩ := D_gram L h3
  obtain ⟨-, -, h6⟩ := closed_unique hc (gram_closed L h5) (by rfl) (by rfl) h4
  subst h6
  rcases steps_length L h2 with h7 | ⟨rfl, -, -⟩
  · omega
  · exact h3

theorem Inv.operandPart {L : NumLex K} {showK : K → List Char} {e : Expr K} (h : Inv L showK e)
    (hr : e.repr showK ≠ none) {b : Bool} {m M : Int} {rest : List Tok}
    (hp : Part L m (wrapT b (e.toks showK) ++ rest) e M rest) : Printable L showK (b || looseRest rest) e := by
  cases b with
  | false => exact h m M rest hr hp
  | true =>
    obtain ⟨M, h1, -⟩ := D_part L (part_paren L (toks_closed showK e) hp)
    have := h 0 M _ hr h1
    rwa [looseRest_halt rfl] at this

theorem Inv.operand {L : NumLex K} {showK : K → List Char} {e : Expr K} (h : Inv L showK e)
    (hr : e.repr showK ≠ none) {b : Bool} {m : Int} {rest : List Tok}
    (hp : D L (.expr m) (wrapT b (e.toks showK) ++ rest) e rest) : Printable L showK (b || looseRest rest) e := by
  obtain ⟨M, h1, -⟩ := D_part L hp
  exact h.operandPart hr h1

theorem Inv.delim {L : NumLex K} {showK : K → List Char} {e : Expr K} (h : Inv L showK e)
    (hr : e.repr showK ≠ none) {m : Int} {t : Tok} (ht : rightOp t = some .halt) {rest : List Tok}
    (hp : D L (.expr m) (e.toks showK ++ t :: rest) e (t :: rest)) : Printable L showK true e := by
  have := h.operand hr (b := false) hp
  rwa [looseRest_halt ht] at this

theorem repr_un {showK : K → List Char} {o : UnOp} {a : Expr K} (h : (Expr.un o a).repr showK ≠ none) :
    a.repr showK ≠ none ∧ a.isDict = false := by
  rw [Expr.repr] at h
  constructor
  · intro h1; simp [h1] at h
  · cases a <;> simp [Expr.isDict, Expr.BP] at h ⊢

theorem repr_bin {showK : K → List Char} {o : BinOp} {l r : Expr K} (h : (Expr.bin o l r).repr showK ≠ none) :
    l.repr showK ≠ none ∧ r.repr showK ≠ none ∧ l.isDict = false ∧ r.isDict = false := by
  rw [Expr.repr] at h
  have hl : l.isDict = false := by cases l <;> simp [Expr.isDict, Expr.BP] at h ⊢
  have hr : r.isDict = false := by
    rw [BP_some hl] at h
    cases r <;> simp [Expr.isDict, Expr.BP] at h ⊢
  rw [BP_some hl, BP_some hr] at h
  refine ⟨fun h1 => ?_, fun h1 => ?_, hl, hr⟩
  · simp [h1] at h
  · cases h2 : l.repr showK <;> simp [h1, h2] at h

theorem reprTerms_ne {showK : K → List Char} {xs : List (Expr K)} (h : reprTerms showK xs ≠ none) :
    ∀ x ∈ xs, x.repr showK ≠ none := by
  induction xs with
  | nil => simp
  | cons x xs ih =>
    rw [reprTerms] at h
    intro y hy
    cases h1 : x.repr showK with
    | none => simp [h1] at h
    | some s =>
      rcases List.mem_cons.1 hy with rfl | hy
      · simp [h1]
      · refine ih (fun h2 => ?_) y hy
        simp [h1, h2] at h

theorem reprEntries_ne {showK : K → List Char} {xs : List (List Char × Expr K)} (h : reprEntries showK xs ≠ none) :
    ∀ x ∈ xs, x.2.repr showK ≠ none := by
  induction xs with
  | nil => simp
  | cons x xs ih =>
    obtain ⟨k, v⟩ := x
    rw [reprEntries] at h
    intro y hy
    cases h1 : v.repr showK with
    | none => simp [h1] at h
    | some s =>
      rcases List.mem_cons.1 hy with rfl | hy
      · simp [h1]
      · refine ih (fun h2 => ?_) y hy
        simp [h1, h2] at h

theorem repr_arr {showK : K → List Char} {xs : List (Expr K)} (h : (Expr.arr xs).repr showK ≠ none) :
    ∀ x ∈ xs, x.repr showK ≠ none := by
  cases xs with
  | nil => simp
  | cons x xs =>
    refine reprTerms_ne (fun h1 => ?_)
    rw [Expr.repr, h1] at h; simp at h

theorem repr_dict {showK : K → List Char} {xs : List (List Char × Expr K)} (h : (Expr.dict xs).repr showK ≠ none) :
    ∀ x ∈ xs, x.2.repr showK ≠ none := by
  cases xs with
  | nil => simp
  | cons x xs =>
    refine reprEntries_ne (fun h1 => ?_)
    rw [Expr.repr, h1] at h; simp at h

/-- The operator loop has not gone past the limit: a power is not the base of a power, and so on. -/
theorem part_nest (L : NumLex K) {showK : K → List Char} {m M : Int} {rest : List Tok} {o : BinOp} {l r : Expr K}
    (h : Part L m ((Expr.bin o l r).toks showK ++ rest) (.bin o l r) M rest) : M = o.nbp := by
  rcases part_bin L h with h | ⟨_, _, _, _, h, _⟩
  · exact (bin_not_tok L h).elim
  · exact h

theorem inv_bin {L : NumLex K} {showK : K → List Char} {o : BinOp} {l r : Expr K}
    (ih1 : Inv L showK l) (ih2 : Inv L showK r) : Inv L showK (.bin o l r) := by
  intro m M rest hr hp
  obtain ⟨hrl, hrr, hdl, hdr⟩ := repr_bin hr
  rcases part_bin L hp with h | ⟨M1, mid, h1, h2, -, h3⟩
  · exact (bin_not_tok L h).elim
  · obtain ⟨p, h4, h5⟩ := part_gram L h1
    -- the tokens of the right side
    obtain ⟨q, h6, h7⟩ : ∃ q, mid = q ++ (if o.wrapped then [.sym o.closer] else []) ++ rest ∧ Gram L q r := by
      cases hw : o.wrapped with
      | true =>
        rw [if_pos hw] at h3
        obtain ⟨q, h6, h7⟩ := D_gram L h3
        exact ⟨q, by simpa using h6, h7⟩
      | false =>
        rw [if_neg (by simp [hw])] at h3
        obtain ⟨q, h6, h7⟩ := D_gram L h3
        exact ⟨q, by simpa using h6, h7⟩
    have hcnt := leaves_toks showK (.bin o l r)
    have h8 : (Expr.bin o l r).toks showK = p ++ [.sym o.text] ++ q ++ (if o.wrapped then [.sym o.closer] else []) := by
      have : (Expr.bin o l r).toks showK ++ rest
          = (p ++ [.sym o.text] ++ q ++ (if o.wrapped then [.sym o.closer] else [])) ++ rest := by
        rw [h4, h6]; simp
      exact List.append_cancel_right this
    have hpl := gram_cnt L h5
    have hqr := gram_cnt L h7
    have htx := leaves_text o
    have hleaf : leaves p = leaves (wrapT (parenL o l) (l.toks showK)) := by
      rw [h8, Expr.cnt] at hcnt
      simp only [leaves_append, leaves_cons, leaves_nil] at hcnt
      rw [leaves_wrap, leaves_toks]
      omega
    rw [Expr.toks] at h8
    simp only [List.append_assoc, List.cons_append, List.nil_append] at h8
    obtain ⟨h9, h10⟩ := split_unique (gram_endLeaf L h5) ((toks_endLeaf showK l).wrap _)
      (by cases o <;> simp [BinOp.text, pmSign]) hleaf h8.symm
    have h11 : q = wrapT (parenR o r && !o.wrapped) (r.toks showK) := List.append_cancel_right h10
    subst h9
    subst h6
    rw [h4] at h1
    have h12 := ih1.operandPart hrl h1
    rw [looseRest_op] at h12
    have hnest : ∀ a b, l = .bin o a b → o.lbp ≤ o.nbp := by
      rintro a b rfl
      by_cases hb : parenL o (.bin o a b) = true
      · have hb : o.rbp < o.lbp := of_decide_eq_true hb
        have : ∀ o : BinOp, ¬ o.rbp < o.lbp := by intro o; cases o <;> decide
        exact absurd hb (this o)
      · have : parenL o (.bin o a b) = false := by simpa using hb
        rw [this] at h1
        have := part_nest L h1
        omega
    have hright : Printable L showK (parenR o r || looseRest rest) r := by
      cases hw : o.wrapped with
      | true =>
        rw [if_pos hw] at h3
        rw [h11, hw] at h3
        simp only [Bool.not_true, Bool.and_false, if_true, List.append_assoc, List.cons_append, List.nil_append] at h3
        have := ih2.operand hrr h3
        rw [looseRest_halt (closer_halt hw)] at this
        simpa [parenR, hw] using this
      | false =>
        rw [if_neg (by simp [hw])] at h3
        rw [h11, hw] at h3
        simp only [Bool.not_false, Bool.and_true, Bool.false_eq_true, if_false, List.append_nil] at h3
        exact ih2.operand hrr h3
    refine .bin hdl hdr ?_ ?_ h12 hright
    · rintro rfl
      cases l with
      | bin o' a b =>
        rw [Expr.isBin, beq_eq_false_iff_ne]
        rintro rfl
        exact absurd (hnest a b rfl) (by decide)
      | _ => rfl
    · rintro rfl
      cases l with
      | bin o' a b =>
        rw [Expr.isBin, beq_eq_false_iff_ne]
        rintro rfl
        exact absurd (hnest a b rfl) (by decide)
      | _ => rfl

theorem D_arr (L : NumLex K) {c : Cat K} {ts rest : List Tok} {e : Expr K} (h : D L c ts e rest) :
    ∀ acc, c = .arr acc → ∃ zs, e = .arr (acc ++ zs) := by
  induction h with
  | arrLast => rintro _ ⟨⟩; exact ⟨_, rfl⟩
  | arrMore _ _ _ _ ih =>
    rintro _ ⟨⟩
    obtain ⟨zs, h⟩ := ih _ rfl
    exact ⟨_, by rw [h, List.append_assoc]⟩
  | _ => rintro _ h; simp at h

theorem inv_arr (L : NumLex K) {showK : K → List Char} (xs : List (Expr K)) (x : Expr K)
    (acc : List (Expr K)) (ts rest : List Tok) (e : Expr K) (hi : ∀ y ∈ x :: xs, Inv L showK y)
    (hr : ∀ y ∈ x :: xs, y.repr showK ≠ none)
    (h : D L (.arr acc) ts e rest) (hts : ts = toksTerms showK (x :: xs) ++ .sym [']'] :: rest)
    (he : e = .arr (acc ++ x :: xs)) : ∀ y ∈ x :: xs, Printable L showK true y := by
  induction xs generalizing x acc ts with
  | nil =>
    rw [toksTerms] at hts
    simp only [List.isEmpty_nil, if_true, List.append_nil] at hts
    cases h with
    | arrLast h1 _ =>
      simp at he
      subst hts
      rw [he] at h1
      simpa using (hi x (by simp)).delim (hr x (by simp)) rfl h1
    | arrMore h1 _ h2 =>
      obtain ⟨u, h3, h4⟩ := D_gram L h1
      subst hts
      have := closed_unique (toks_closed showK x) (gram_closed L h4) (by rfl) (by rfl) h3
      simp at this
  | cons y ys ih =>
    rw [toksTerms] at hts
    simp only [List.isEmpty_cons, Bool.false_eq_true, if_false, List.append_assoc, List.cons_append] at hts
    cases h with
    | arrLast h1 _ =>
      obtain ⟨u, h3, h4⟩ := D_gram L h1
      subst hts
      have := closed_unique (toks_closed showK x) (gram_closed L h4) (by rfl) (by rfl) h3
      simp at this
    | @arrMore _ _ z ts1 _ _ h1 _ h2 =>
      obtain ⟨u, h3, h4⟩ := D_gram L h1
      subst hts
      obtain ⟨h5, -, h6⟩ := closed_unique (toks_closed showK x) (gram_closed L h4) (by rfl) (by rfl) h3
      obtain ⟨zs, h7⟩ := D_arr L h2 _ rfl
      have hz : z = x := by
        rw [he] at h7
        simp at h7
        exact h7.1.symm
      subst hz
      subst h6
      have h8 := (hi z (by simp)).delim (hr z (by simp)) rfl h1
      have h9 := ih y (acc ++ [z]) _ (fun w hw => hi w (by simp at hw ⊢; tauto))
        (fun w hw => hr w (by simp at hw ⊢; tauto)) h2 rfl (by rw [he]; simp)
      intro w hw
      rcases List.mem_cons.1 hw with rfl | hw
      · exact h8
      · exact h9 w hw

/-- Reading a key. -/
theorem D_keyI (L : NumLex K) {k : List Char} {ts rest : List Tok} (hk : IsName k) {e : Expr K}
    (h : D L (.expr 0) (.word k :: .sym [':'] :: ts) e rest) : e = .var k ∧ rest = .sym [':'] :: ts := by
  have hl := leftOp_word_of_not_fn hk.2.2
  cases h with
  | expr h1 h2 =>
    cases h1 with
    | var =>
      cases h2 with
      | loopStop => exact ⟨rfl, rfl⟩
      | loopWrap h => simp [rightOp] at h
      | loopBin h => simp [rightOp] at h
    | skip h => simp [hl] at h
    | minus h => simp [hl] at h
    | paren h => simp [hl] at h
    | arr h => simp [hl] at h
    | dict h => simp [hl] at h
    | fn h => simp [hl] at h

/-- How the entries of a printed dictionary are read. -/
theorem D_entries (L : NumLex K) {showK : K → List Char} (kvs : List (List Char × Expr K))
    (p : List Char × Expr K) (acc : List (List Char × Expr K)) (ts rest : List Tok) (e : Expr K)
    (hk : ((acc ++ p :: kvs).map Prod.fst).Nodup) (hN : ∀ q ∈ p :: kvs, IsName q.1)
    (h : D L (.dict acc) ts e rest) (hts : ts = toksEntries showK (p :: kvs) ++ .sym ['}'] :: rest) :
    ∃ es, e = .dict (acc ++ es) ∧ List.Forall₂ (fun q q' => ∃ t r, rightOp t = some .halt ∧
      D L (.expr 0) (q.2.toks showK ++ t :: r) q'.2 (t :: r)) (p :: kvs) es := by
  obtain ⟨k, v⟩ := p
  have hnew : k ∉ acc.map Prod.fst := by
    rw [List.map_append, List.nodup_append] at hk
    intro hm
    exact hk.2.2 k hm k (by simp) rfl
  induction kvs generalizing k v acc ts with
  | nil =>
    rw [toksEntries] at hts
    simp only [List.isEmpty_nil, if_true, List.append_nil, List.cons_append] at hts
    subst hts
    cases h with
    | dictLast h1 _ h2 _ =>
      obtain ⟨h3, h4⟩ := D_keyI L (hN (k, v) (by simp)) h1
      simp at h3 h4
      subst h3 h4
      exact ⟨[(_, _)], by rw [dictSet_new _ _ _ hnew], .cons ⟨_, _, rfl, h2⟩ .nil⟩
    | dictMore h1 _ h2 _ h3 =>
      obtain ⟨h3, h4⟩ := D_keyI L (hN (k, v) (by simp)) h1
      simp at h3 h4
      subst h3 h4
      obtain ⟨u, h5, h6⟩ := D_gram L h2
      have := closed_unique (toks_closed showK v) (gram_closed L h6) (by rfl) (by rfl) h5
      simp at this
  | cons q kvs ih =>
    rw [toksEntries] at hts
    simp only [List.isEmpty_cons, Bool.false_eq_true, if_false, List.append_assoc, List.cons_append] at hts
    subst hts
    cases h with
    | dictLast h1 _ h2 _ =>
      obtain ⟨h3, h4⟩ := D_keyI L (hN (k, v) (by simp)) h1
      simp at h3 h4
      subst h3 h4
      obtain ⟨u, h5, h6⟩ := D_gram L h2
      have := closed_unique (toks_closed showK v) (gram_closed L h6) (by rfl) (by rfl) h5
      simp at this
    | @dictMore _ _ k1 _ v1 _ _ _ h1 _ h2 _ h3 =>
      obtain ⟨h4, h5⟩ := D_keyI L (hN (k, v) (by simp)) h1
      simp at h4 h5
      subst h4 h5
      obtain ⟨u, h6, h7⟩ := D_gram L h2
      obtain ⟨-, -, h8⟩ := closed_unique (toks_closed showK v) (gram_closed L h7) (by rfl) (by rfl) h6
      subst h8
      rw [dictSet_new _ _ _ hnew] at h3
      obtain ⟨k', v'⟩ := q
      obtain ⟨es, h9, h10⟩ := ih (acc ++ [(k1, v1)]) _ h3 k' v' (by simpa using hk)
        (fun z hz => hN z (by simp at hz ⊢; tauto)) rfl (by
          have hk' : ((acc ++ [(k1, v1)] ++ (k', v') :: kvs).map Prod.fst).Nodup := by simpa using hk
          rw [List.map_append, List.nodup_append] at hk'
          intro hm
          exact hk'.2.2 k' hm k' (by simp) rfl)
      exact ⟨(k1, v1) :: es, by rw [h9]; simp, .cons ⟨_, _, rfl, h2⟩ h10⟩

theorem forall2_self {α : Type} {R : α → α → Prop} {l : List α} (h : List.Forall₂ R l l) : ∀ x ∈ l, R x x := by
  induction l with
  | nil => simp
  | cons a l ih =>
    cases h with
    | cons h1 h2 => simpa using ⟨h1, ih h2⟩

/-- The conditions of `Printable` are necessary. -/
theorem writable_inv {L : NumLex K} {showK : K → List Char} {e : Expr K} (h : Writable L showK e) :
    Inv L showK e := by
  induction h with
  | @const k h =>
    intro m M rest _ hp
    rcases h with h | h
    · exact .const h
    · obtain ⟨t, h1, h2, h3⟩ := id h
      have hl : looseRest rest = true := by
        have h4 := (part_tok L hp (by simp)).1
        rw [Expr.toks, h1] at h4
        simp only [constToks, List.cons_append, List.nil_append] at h4
        generalize he : Expr.const k = e at h4
        cases h4 with
        | @minus _ _ e' _ _ _ h5 =>
          cases e' <;> simp [negate] at he
          obtain ⟨M, h6, h7⟩ := D_part L h5
          obtain ⟨-, rfl⟩ := part_tok L h6 (by simp)
          rcases h7 with rfl | ⟨tok, ts, o, rfl, h8, h9⟩
          · rfl
          · have := rightOp_lbp_lt o
            rcases h9 with h9 | h9
            · cases o with
              | halt => exact looseRest_halt h8 ts
              | bin o =>
                simp only [looseRest, List.head?_cons, Option.bind_some, h8]
                revert h9; simp only [RightOp.lbp]
                cases o <;> simp [BinOp.lbp, BinOp.weak]
            · omega
        | skip h => simp [leftOp] at h
        | paren h => simp [leftOp] at h
        | arr h => simp [leftOp] at h
        | dict h => simp [leftOp] at h
        | fn h => simp [leftOp] at h
      rw [hl]
      exact .negc h
  | var h => intro m M rest _ hp; exact .var h
  | @un o a h ih =>
    intro m M rest hr hp
    obtain ⟨hra, hda⟩ := repr_un hr
    have h4 := (part_tok L hp (by simp)).1
    rw [Expr.toks, List.cons_append] at h4
    generalize he : Expr.un o a = e at h4
    generalize ht : o.tok = tk at h4
    generalize hw : wrapT (parenU o a) (a.toks showK) ++ rest = ws at h4
    cases h4 with
    | var h5 => simp at he
    | num h5 => simp at he
    | skip h5 =>
      have := leftOp_skip h5
      rw [← ht] at this
      cases o <;> simp [UnOp.tok] at this
    | @minus _ _ e' _ h5 _ h6 =>
      have ho := leftOp_minus h5
      rw [← ht] at ho
      have ho' : o = .neg := by cases o <;> simp [UnOp.tok] at ho ⊢
      subst ho'
      have : e' = a ∧ e'.isConst = false := by
        cases e' <;> simp [negate, Expr.isConst] at he ⊢ <;> exact he.symm
      obtain ⟨rfl, hc⟩ := this
      rw [← hw] at h6
      rw [← he]
      exact .neg hda hc (ih.operand hra h6)
    | paren h5 =>
      have := leftOp_paren h5
      rw [← ht] at this
      cases o <;> simp [UnOp.tok] at this
    | arr h5 =>
      have := leftOp_array h5
      rw [← ht] at this
      cases o <;> simp [UnOp.tok] at this
    | dict h5 =>
      have := leftOp_dict h5
      rw [← ht] at this
      cases o <;> simp [UnOp.tok] at this
    | arr0 => simp at he
    | dict0 => simp at he
    | @fn _ o' _ e' _ h5 _ h6 =>
      simp at he
      obtain ⟨rfl, rfl⟩ := he
      obtain ⟨s, h7, h8⟩ := leftOp_fn h5
      rw [← hw] at h6
      exact .fn h8 hda (ih.operand hra h6)
  | bin _ _ ih1 ih2 => exact inv_bin ih1 ih2
  | @arr xs h ih =>
    intro m M rest hr hp
    have h4 := (part_tok L hp (by simp)).1
    have hr := repr_arr hr
    refine .arr ?_
    cases xs with
    | nil => simp
    | cons x xs =>
      rw [Expr.toks] at h4
      simp only [List.append_assoc, List.cons_append, List.nil_append] at h4
      generalize he : Expr.arr (x :: xs) = e at h4
      generalize hts : toksTerms showK (x :: xs) ++ Tok.sym [']'] :: rest = ts at h4
      cases h4 with
      | arr0 => simp at he
      | arr _ _ _ h5 => exact inv_arr L xs x [] ts rest e ih hr h5 hts.symm (by simpa using he.symm)
      | skip h => simp [leftOp] at h
      | minus h => simp [leftOp] at h
      | paren h => simp [leftOp] at h
      | dict h => simp [leftOp] at h
      | dict0 h => simp [leftOp] at h
      | fn h => simp [leftOp] at h
  | @dict kvs h1 h2 h3 ih =>
    intro m M rest hr hp
    have h4 := (part_tok L hp (by simp)).1
    have hr := repr_dict hr
    refine .dict h1 h2 ?_
    cases kvs with
    | nil => simp
    | cons x xs =>
      rw [Expr.toks] at h4
      simp only [List.append_assoc, List.cons_append, List.nil_append] at h4
      generalize he : Expr.dict (x :: xs) = e at h4
      generalize hts : toksEntries showK (x :: xs) ++ Tok.sym ['}'] :: rest = ts at h4
      cases h4 with
      | dict0 => simp at he
      | dict _ _ _ h5 =>
        obtain ⟨es, h6, h7⟩ := D_entries L xs x [] ts rest e (by simpa using h1) h2 h5 hts.symm
        rw [← he] at h6
        simp at h6
        subst h6
        intro y hy
        obtain ⟨t, r, h8, h9⟩ := forall2_self h7 y hy
        exact (ih y hy).delim (hr y hy) h8 h9
      | skip h => simp [leftOp] at h
      | minus h => simp [leftOp] at h
      | paren h => simp [leftOp] at h
      | arr h => simp [leftOp] at h
      | arr0 h => simp [leftOp] at h
      | fn h => simp [leftOp] at h

theorem roundtrip_iff {L : NumLex K} {showK : K → List Char} {e : Expr K} (h : Writable L showK e) :
    (∃ s, e.repr showK = some s ∧ parse L s = .ok e) ↔ Printable L showK true e := by
  refine ⟨?_, printable_roundtrip⟩
  rintro ⟨s, h1, h2⟩
  have h3 := repr_lexes h s h1
  rw [parse_ok_iff] at h2
  obtain ⟨-, h2⟩ := h2
  rcases h3 with ⟨-, h3⟩ | ⟨-, h3⟩
  · have h3 := h3 [] sep_nil
    simp only [List.append_nil, lex_nil] at h3
    rw [h3] at h2
    obtain ⟨M, h4, -⟩ := D_part L h2
    exact writable_inv h 0 M [] (by rw [h1]; simp) (by simpa using h4)
  · have h3 := h3 [] sep_nil
    obtain ⟨u, h4, h5⟩ := D_gram L h2
    rw [List.append_nil] at h3 h4
    rw [h4] at h3
    exact absurd h3 (gram_no_bad L h5)

theorem Printable.mono {L : NumLex K} {showK : K → List Char} {e : Expr K} {b b' : Bool}
    (h : Printable L showK b e) (hb : b = true → b' = true) : Printable L showK b' e := by
  induction h generalizing b' with
  | const h => exact .const h
  | negc h => rw [hb rfl]; exact .negc h
  | var h => exact .var h
  | fn h1 h2 _ ih => exact .fn h1 h2 (ih (by simp; tauto))
  | neg h1 h2 _ ih => exact .neg h1 h2 (ih (by simp; tauto))
  | bin h1 h2 h3 h4 h5 _ _ ih => exact .bin h1 h2 h3 h4 h5 (ih (by simp; tauto))
  | arr h _ => exact .arr h
  | dict h1 h2 h3 _ => exact .dict h1 h2 h3

end Stator
