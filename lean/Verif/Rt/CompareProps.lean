import Verif.Rt.Compare
import Verif.Rt.RoundTripLemmas
import Mathlib.Data.List.Nodup
import Mathlib.Data.List.Perm.Subperm
import Mathlib.Tactic.Tauto

/-!
# Properties C07, C08: equality and hashing
-/

namespace Stator

/-! ## Helper lemmas -/

theorem HExpr.ind {K : Type} {P : HExpr K → Prop} (const : ∀ a k, P (.const a k))
    (var : ∀ a n, P (.var a n))
    (un : ∀ i o a, P a → P (.un i o a)) (bin : ∀ i o l r, P l → P r → P (.bin i o l r))
    (arr : ∀ i xs, (∀ x ∈ xs, P x) → P (.arr i xs))
    (dict : ∀ i (kvs : List (List Char × HExpr K)), (∀ p ∈ kvs, P p.2) → P (.dict i kvs))
    (e : HExpr K) : P e := by
  refine HExpr.rec (motive_1 := P) (motive_2 := fun xs => ∀ x ∈ xs, P x)
    (motive_3 := fun kvs => ∀ p ∈ kvs, P p.2) (motive_4 := fun p => P p.2)
    const var un bin arr dict ?_ ?_ ?_ ?_ ?_ e
  · simp
  · intro x xs h1 h2; simpa using ⟨h1, h2⟩
  · simp
  · intro p kvs h1 h2; simpa using ⟨h1, by simpa using h2⟩
  · intro k v h; exact h

theorem eraseList_eq {K : Type} (xs : List (HExpr K)) : eraseList xs = xs.map HExpr.erase := by
  induction xs with
  | nil => simp [eraseList]
  | cons x xs ih => simp [eraseList, ih]

theorem eraseDict_eq {K : Type} (xs : List (List Char × HExpr K)) :
    eraseDict xs = xs.map fun p => (p.1, p.2.erase) := by
  induction xs with
  | nil => simp [eraseDict]
  | cons x xs ih => simp [eraseDict, ih]

theorem allConstList_iff {K : Type} {P : K → Prop} (xs : List (Expr K)) :
    allConstList P xs ↔ ∀ x ∈ xs, x.allConst P := by
  induction xs with
  | nil => simp [allConstList]
  | cons x xs ih => simp [allConstList, ih]

theorem allConstDict_iff {K : Type} {P : K → Prop} (xs : List (List Char × Expr K)) :
    allConstDict P xs ↔ ∀ x ∈ xs, x.2.allConst P := by
  induction xs with
  | nil => simp [allConstDict]
  | cons x xs ih => simp [allConstDict, ih]

theorem mapsOkList_iff {K : Type} (xs : List (Expr K)) :
    mapsOkList xs ↔ ∀ x ∈ xs, x.mapsOk := by
  induction xs with
  | nil => simp [mapsOkList]
  | cons x xs ih => simp [mapsOkList, ih]

theorem mapsOkDict_iff {K : Type} (xs : List (List Char × Expr K)) :
    mapsOkDict xs ↔ ∀ x ∈ xs, x.2.mapsOk := by
  induction xs with
  | nil => simp [mapsOkDict]
  | cons x xs ih => simp [mapsOkDict, ih]

theorem mem_nodesList {K : Type} (n : HExpr K) (xs : List (HExpr K)) :
    n ∈ nodesList xs ↔ ∃ x ∈ xs, n ∈ x.nodes := by
  induction xs with
  | nil => simp [nodesList]
  | cons x xs ih => simp [nodesList, ih]

theorem mem_nodesDict {K : Type} (n : HExpr K) (xs : List (List Char × HExpr K)) :
    n ∈ nodesDict xs ↔ ∃ x ∈ xs, n ∈ x.2.nodes := by
  induction xs with
  | nil => simp [nodesDict]
  | cons x xs ih => simp [nodesDict, ih]

theorem self_mem_nodes {K : Type} (a : HExpr K) : a ∈ a.nodes := by
  cases a <;> simp [HExpr.nodes]

theorem cmpList_iff {K : Type} (eqK : K → K → Bool) : ∀ xs ys : List (HExpr K),
    cmpList eqK xs ys = true ↔ xs.length = ys.length ∧
      ∀ i (h1 : i < xs.length) (h2 : i < ys.length), xs[i].cmp eqK ys[i] = true
  | [], [] => by simp [cmpList]
  | [], _ :: _ => by simp [cmpList]
  | _ :: _, [] => by simp [cmpList]
  | x :: xs, y :: ys => by
    simp only [cmpList, Bool.and_eq_true, cmpList_iff eqK xs ys, List.length_cons]
    constructor
    · rintro ⟨h, hl, hi⟩
      refine ⟨by omega, fun i h1 h2 => ?_⟩
      cases i with
      | zero => exact h
      | succ i => simpa using hi i (by omega) (by omega)
    · rintro ⟨hl, hi⟩
      refine ⟨by simpa using hi 0 (by omega) (by omega), by omega, fun i h1 h2 => ?_⟩
      have := hi (i + 1) (by simp; omega) (by simp; omega)
      simpa only [List.getElem_cons_succ] using this

theorem cmpDict_iff {K : Type} (eqK : K → K → Bool) (xs ys : List (List Char × HExpr K)) :
    cmpDict eqK xs ys = true ↔ ∀ p ∈ xs, ∃ q, (ys.find? fun q => q.1 == p.1) = some q ∧
      p.2.cmp eqK q.2 = true := by
  induction xs with
  | nil => simp [cmpDict]
  | cons p xs ih =>
    obtain ⟨k, v⟩ := p
    simp only [cmpDict, Bool.and_eq_true, ih, List.forall_mem_cons]
    refine and_congr_left fun _ => ?_
    cases ys.find? fun q => q.1 == k with
    | none => simp
    | some q => simp

theorem find?_key {V : Type} {ys : List (List Char × V)} (hn : (ys.map (·.1)).Nodup) (k : List Char)
    (q : List Char × V) : (ys.find? fun q => q.1 == k) = some q ↔ q ∈ ys ∧ q.1 = k := by
  induction ys with
  | nil => simp
  | cons p ys ih =>
    simp only [List.map_cons, List.nodup_cons] at hn
    rw [List.find?_cons]
    by_cases hp : p.1 = k
    · simp only [hp, beq_self_eq_true, Option.some.injEq, List.mem_cons]
      constructor
      · rintro rfl; exact ⟨.inl rfl, hp⟩
      · rintro ⟨h | h, h2⟩
        · exact h.symm
        · exact absurd (List.mem_map.2 ⟨q, h, by rw [h2, hp]⟩) hn.1
    · have : (p.1 == k) = false := by simpa using hp
      simp only [this, ih hn.2, List.mem_cons]
      constructor
      · rintro ⟨h1, h2⟩; exact ⟨.inr h1, h2⟩
      · rintro ⟨h | h, h2⟩
        · subst h; exact absurd h2 hp
        · exact ⟨h, h2⟩

theorem key_unique {V : Type} {ys : List (List Char × V)} (hn : (ys.map (·.1)).Nodup) {k : List Char}
    {v w : V} (h1 : (k, v) ∈ ys) (h2 : (k, w) ∈ ys) : v = w := by
  have a := (find?_key hn k (k, v)).2 ⟨h1, rfl⟩
  have b := (find?_key hn k (k, w)).2 ⟨h2, rfl⟩
  rw [a] at b; simpa using b

theorem SameTree.refl {K : Type} {R : K → K → Prop} {P : K → Prop} (hR : ∀ k, P k → R k k)
    (e : Expr K) (hc : e.allConst P) (hm : e.mapsOk) : SameTree R e e := by
  induction e using Expr.ind with
  | const k => exact .const (hR k hc)
  | var n => exact .var
  | un o a ih => exact .un (ih hc hm)
  | bin o l r ih1 ih2 => exact .bin (ih1 hc.1 hm.1) (ih2 hc.2 hm.2)
  | arr xs ih =>
    simp only [Expr.allConst, allConstList_iff, Expr.mapsOk, mapsOkList_iff] at hc hm
    exact .arr rfl fun i h1 h2 => ih _ (List.getElem_mem h1) (hc _ (List.getElem_mem h1))
      (hm _ (List.getElem_mem h1))
  | dict xs ih =>
    simp only [Expr.allConst, allConstDict_iff, Expr.mapsOk, mapsOkDict_iff] at hc hm
    refine .dict (fun k => Iff.rfl) fun k v w hv hw => ?_
    rw [key_unique hm.1 hw hv]
    exact ih _ hv (hc _ hv) (hm.2 _ hv)

theorem SameTree.symm {K : Type} {R : K → K → Prop} (hR : ∀ x y, R x y → R y x) {a b : Expr K}
    (h : SameTree R a b) : SameTree R b a := by
  induction h with
  | const h => exact .const (hR _ _ h)
  | var => exact .var
  | un _ ih => exact .un ih
  | bin _ _ ih1 ih2 => exact .bin ih1 ih2
  | arr hl _ ih => exact .arr hl.symm fun i h1 h2 => ih i h2 h1
  | dict hk _ ih => exact .dict (fun k => (hk k).symm) fun k v w hv hw => ih k w v hw hv

theorem SameTree.trans {K : Type} {R : K → K → Prop} (hR : ∀ x y z, R x y → R y z → R x z)
    {a b c : Expr K} (h : SameTree R a b) (h2 : SameTree R b c) : SameTree R a c := by
  induction h generalizing c with
  | const h => cases h2 with | const h2 => exact .const (hR _ _ _ h h2)
  | var => exact h2
  | un _ ih => cases h2 with | un h2 => exact .un (ih h2)
  | bin _ _ ih1 ih2 => cases h2 with | bin h3 h4 => exact .bin (ih1 h3) (ih2 h4)
  | arr hl _ ih =>
    cases h2 with
    | arr hl' h' =>
      exact .arr (hl.trans hl') fun i h1 h2 => ih i h1 (by omega) (h' i (by omega) h2)
  | @dict xs ys hk _ ih =>
    cases h2 with
    | @dict _ zs hk' h' =>
      refine .dict (fun k => (hk k).trans (hk' k)) fun k v w hv hw => ?_
      have : k ∈ ys.map (·.1) := (hk k).1 (List.mem_map.2 ⟨_, hv, rfl⟩)
      obtain ⟨⟨k', u⟩, hu, rfl⟩ := List.mem_map.1 this
      exact ih _ v u hv hu (h' _ u w hu hw)

theorem Coherent.sub {K : Type} {a b a' b' : HExpr K} (h : Coherent a b)
    (ha : ∀ n ∈ a'.nodes, n ∈ a.nodes) (hb : ∀ n ∈ b'.nodes, n ∈ b.nodes) : Coherent a' b' :=
  fun x hx y hy => h x (ha x hx) y (hb y hy)

theorem cmp_iff {K : Type} (eqK : K → K → Bool) (P : K → Prop) (hP : ∀ k, P k → eqK k k = true)
    (a b : HExpr K) (hc : Coherent a b) (ha : a.erase.allConst P) (hma : a.erase.mapsOk)
    (hmb : b.erase.mapsOk) :
    a.cmp eqK b = true ↔ SameTree (fun x y => eqK x y = true) a.erase b.erase := by
  induction a using HExpr.ind generalizing b with
  | const i k =>
    cases b with
    | const j k' =>
      simp only [HExpr.cmp, HExpr.erase]
      exact ⟨fun h => .const h, fun h => by cases h with | const h => exact h⟩
    | _ => simp only [HExpr.cmp, HExpr.erase, Bool.false_eq_true, false_iff]; intro h; cases h
  | var i n =>
    cases b with
    | var j m =>
      simp only [HExpr.cmp, HExpr.erase, Bool.or_eq_true, beq_iff_eq]
      constructor
      · rintro (h | h)
        · have := hc _ (self_mem_nodes _) _ (self_mem_nodes _) h
          simp [HExpr.erase] at this
          subst this; exact .var
        · subst h; exact .var
      · intro h; cases h; exact .inr rfl
    | _ => simp only [HExpr.cmp, HExpr.erase, Bool.false_eq_true, false_iff]; intro h; cases h
  | un i o x ih =>
    cases b with
    | un j p y =>
      simp only [HExpr.erase, Expr.allConst, Expr.mapsOk] at ha hma hmb
      have ih' := ih y (hc.sub (by simp [HExpr.nodes]; tauto) (by simp [HExpr.nodes]; tauto)) ha hma hmb
      simp only [HExpr.cmp, HExpr.erase, Bool.or_eq_true, beq_iff_eq, Bool.and_eq_true]
      constructor
      · rintro ⟨rfl, h | h⟩
        · have := hc _ (self_mem_nodes _) _ (self_mem_nodes _) h
          simp [HExpr.erase] at this
          rw [← this]
          exact .un (SameTree.refl hP _ ha hma)
        · exact .un (ih'.1 h)
      · intro h
        cases h with
        | un h => exact ⟨rfl, .inr (ih'.2 h)⟩
    | _ => simp only [HExpr.cmp, HExpr.erase, Bool.false_eq_true, false_iff]; intro h; cases h
  | bin i o l r ih1 ih2 =>
    cases b with
    | bin j p l' r' =>
      simp only [HExpr.erase, Expr.allConst, Expr.mapsOk] at ha hma hmb
      have ih1' := ih1 l' (hc.sub (by simp [HExpr.nodes]; tauto) (by simp [HExpr.nodes]; tauto))
        ha.1 hma.1 hmb.1
      have ih2' := ih2 r' (hc.sub (by simp [HExpr.nodes]; tauto) (by simp [HExpr.nodes]; tauto))
        ha.2 hma.2 hmb.2
      simp only [HExpr.cmp, HExpr.erase, Bool.or_eq_true, beq_iff_eq, Bool.and_eq_true]
      constructor
      · rintro ⟨rfl, h | h⟩
        · have := hc _ (self_mem_nodes _) _ (self_mem_nodes _) h
          simp [HExpr.erase] at this
          rw [← this.1, ← this.2]
          exact .bin (SameTree.refl hP _ ha.1 hma.1) (SameTree.refl hP _ ha.2 hma.2)
        · exact .bin (ih1'.1 h.1) (ih2'.1 h.2)
      · intro h
        cases h with
        | bin h1 h2 => exact ⟨rfl, .inr ⟨ih1'.2 h1, ih2'.2 h2⟩⟩
    | _ => simp only [HExpr.cmp, HExpr.erase, Bool.false_eq_true, false_iff]; intro h; cases h
  | arr i xs ih =>
    cases b with
    | arr j ys =>
      simp only [HExpr.erase, Expr.allConst, Expr.mapsOk, allConstList_iff, mapsOkList_iff,
        eraseList_eq, List.forall_mem_map] at ha hma hmb
      simp only [HExpr.cmp, HExpr.erase, cmpList_iff, eraseList_eq]
      have ih' : ∀ i (h1 : i < xs.length) (h2 : i < ys.length), xs[i].cmp eqK ys[i] = true ↔
          SameTree (fun x y => eqK x y = true) xs[i].erase ys[i].erase := fun i h1 h2 =>
        ih xs[i] (List.getElem_mem h1) ys[i]
          (hc.sub (fun n hn => by
              simp only [HExpr.nodes, List.mem_cons, mem_nodesList]
              exact .inr ⟨_, List.getElem_mem h1, hn⟩)
            (fun n hn => by
              simp only [HExpr.nodes, List.mem_cons, mem_nodesList]
              exact .inr ⟨_, List.getElem_mem h2, hn⟩))
          (ha _ (List.getElem_mem h1)) (hma _ (List.getElem_mem h1)) (hmb _ (List.getElem_mem h2))
      constructor
      · rintro ⟨hl, hi⟩
        refine .arr (by simpa using hl) fun i h1 h2 => ?_
        simp only [List.length_map] at h1 h2
        simpa using (ih' i h1 h2).1 (hi i h1 h2)
      · intro h
        cases h with
        | arr hl hi =>
          simp only [List.length_map] at hl hi
          refine ⟨hl, fun i h1 h2 => (ih' i h1 h2).2 ?_⟩
          simpa using hi i h1 h2
    | _ => simp only [HExpr.cmp, HExpr.erase, Bool.false_eq_true, false_iff]; intro h; cases h
  | dict i xs ih =>
    cases b with
    | dict j ys =>
      have hrefl : (HExpr.dict i xs).erase = (HExpr.dict j ys).erase →
          SameTree (fun x y => eqK x y = true) (HExpr.dict i xs).erase (HExpr.dict j ys).erase := by
        intro h; rw [← h]; exact SameTree.refl hP _ ha hma
      simp only [HExpr.erase, Expr.allConst, Expr.mapsOk, allConstDict_iff, mapsOkDict_iff,
        eraseDict_eq, List.forall_mem_map, List.map_map] at ha hma hmb hrefl
      have hxs : (xs.map (·.1)).Nodup := by simpa [Function.comp_def] using hma.1
      have hys : (ys.map (·.1)).Nodup := by simpa [Function.comp_def] using hmb.1
      have ih' : ∀ p ∈ xs, ∀ q ∈ ys, p.2.cmp eqK q.2 = true ↔
          SameTree (fun x y => eqK x y = true) p.2.erase q.2.erase := fun p hp q hq =>
        ih p hp q.2
          (hc.sub (fun n hn => by
              simp only [HExpr.nodes, List.mem_cons, mem_nodesDict]
              exact .inr ⟨_, hp, hn⟩)
            (fun n hn => by
              simp only [HExpr.nodes, List.mem_cons, mem_nodesDict]
              exact .inr ⟨_, hq, hn⟩))
          (ha _ hp) (hma.2 _ hp) (hmb.2 _ hq)
      simp only [HExpr.cmp, HExpr.erase, Bool.or_eq_true, beq_iff_eq, Bool.and_eq_true, cmpDict_iff,
        eraseDict_eq]
      constructor
      · rintro (h | ⟨hl, h⟩)
        · have := hc _ (self_mem_nodes _) _ (self_mem_nodes _) h
          simp only [HExpr.erase, eraseDict_eq] at this
          exact hrefl this
        · have hsub : xs.map (·.1) ⊆ ys.map (·.1) := by
            intro k hk
            obtain ⟨p, hp, rfl⟩ := List.mem_map.1 hk
            obtain ⟨q, hq, _⟩ := h p hp
            obtain ⟨h1, h2⟩ := (find?_key hys _ _).1 hq
            exact List.mem_map.2 ⟨q, h1, h2⟩
          have hperm : (xs.map (·.1)).Perm (ys.map (·.1)) :=
            (List.subperm_of_subset hxs hsub).perm_of_length_le (by simp [hl])
          refine .dict (fun k => ?_) fun k v w hv hw => ?_
          · simp only [List.map_map, Function.comp_def]
            exact hperm.mem_iff
          · obtain ⟨p, hp, hpe⟩ := List.mem_map.1 hv
            obtain ⟨q, hq, hqe⟩ := List.mem_map.1 hw
            simp only [Prod.mk.injEq] at hpe hqe
            obtain ⟨q', hq', hcmp⟩ := h p hp
            have : q' = q := by
              have h1 := (find?_key hys p.1 q).2 ⟨hq, by rw [hqe.1, hpe.1]⟩
              rw [hq'] at h1; simpa using h1
            subst this
            rw [← hpe.2, ← hqe.2]
            exact (ih' p hp q' hq).1 hcmp
      · intro h
        right
        cases h with
        | dict hk hv =>
          simp only [List.map_map, Function.comp_def] at hk
          have hperm : (xs.map (·.1)).Perm (ys.map (·.1)) := (List.perm_ext_iff_of_nodup hxs hys).2 hk
          refine ⟨by simpa using hperm.length_eq, fun p hp => ?_⟩
          have hpk : p.1 ∈ ys.map (·.1) := hperm.mem_iff.1 (List.mem_map.2 ⟨p, hp, rfl⟩)
          obtain ⟨q, hq, hqk⟩ := List.mem_map.1 hpk
          refine ⟨q, (find?_key hys _ _).2 ⟨hq, hqk⟩, (ih' p hp q hq).2 ?_⟩
          refine hv p.1 _ _ (List.mem_map.2 ⟨p, hp, rfl⟩) (List.mem_map.2 ⟨q, hq, ?_⟩)
          rw [← hqk]
    | _ => simp only [HExpr.cmp, HExpr.erase, Bool.false_eq_true, false_iff]; intro h; cases h

/-! ## C07 -/

/-- An expression in memory that a user can build and that contains no NaN: constants are equal to
themselves, dictionaries have distinct keys. -/
def Proper {K : Type} (eqK : K → K → Bool) (a : HExpr K) : Prop :=
  a.erase.allConst (fun k => eqK k k = true) ∧ a.erase.mapsOk

/-- **C07**. For expressions without NaN, in one memory, `a == b` holds exactly when the two trees
are the same; in particular neither sharing of subtrees nor the pointer shortcuts matter. -/
theorem C07_structural {K : Type} (eqK : K → K → Bool) (a b : HExpr K) (hc : Coherent a b)
    (ha : Proper eqK a) (hb : Proper eqK b) :
    a.cmp eqK b = true ↔ SameTree (fun x y => eqK x y = true) a.erase b.erase :=
  cmp_iff eqK _ (fun _ h => h) a b hc ha.1 ha.2 hb.2

/-- **C07**: reflexive (two occurrences or copies `a`, `b` of the same tree compare equal). -/
theorem C07_refl {K : Type} (eqK : K → K → Bool) (a b : HExpr K) (hc : Coherent a b)
    (ha : Proper eqK a) (hab : a.erase = b.erase) : a.cmp eqK b = true := by
  have hb : Proper eqK b := by unfold Proper; rw [← hab]; exact ha
  rw [C07_structural eqK a b hc ha hb, ← hab]
  exact SameTree.refl (R := fun x y => eqK x y = true) (P := fun k => eqK k k = true)
    (fun _ h => h) _ ha.1 ha.2

/-- **C07**: symmetric. -/
theorem C07_symm {K : Type} (eqK : K → K → Bool) (hs : ∀ x y, eqK x y = true → eqK y x = true)
    (a b : HExpr K) (hc : Coherent a b) (ha : Proper eqK a) (hb : Proper eqK b)
    (h : a.cmp eqK b = true) : b.cmp eqK a = true := by
  have hc' : Coherent b a := fun x hx y hy he => (hc y hy x hx he.symm).symm
  rw [C07_structural eqK a b hc ha hb] at h
  rw [C07_structural eqK b a hc' hb ha]
  exact h.symm hs

/-- **C07**: transitive. -/
theorem C07_trans {K : Type} (eqK : K → K → Bool)
    (ht : ∀ x y z, eqK x y = true → eqK y z = true → eqK x z = true)
    (a b c : HExpr K) (hab : Coherent a b) (hbc : Coherent b c) (hac : Coherent a c)
    (ha : Proper eqK a) (hb : Proper eqK b) (hcc : Proper eqK c)
    (h1 : a.cmp eqK b = true) (h2 : b.cmp eqK c = true) : a.cmp eqK c = true := by
  rw [C07_structural eqK a b hab ha hb] at h1
  rw [C07_structural eqK b c hbc hb hcc] at h2
  rw [C07_structural eqK a c hac ha hcc]
  exact h1.trans ht h2

/-- `{x: 1, y: s + s}` (`s` shared) and `{y: t + t', x: 1}` in one memory. -/
example :
    let a : HExpr Nat := .dict 1 [(['x'], .const 2 1), (['y'], .bin 3 .add (.var 4 ['s']) (.var 4 ['s']))]
    let b : HExpr Nat := .dict 9 [(['y'], .bin 8 .add (.var 7 ['s']) (.var 4 ['s'])), (['x'], .const 6 1)]
    Coherent a b ∧ Proper (· == ·) a ∧ Proper (· == ·) b ∧ a.cmp (· == ·) b = true := by
  refine ⟨?_, ?_, ?_, by decide⟩
  · intro x hx y hy
    simp [HExpr.nodes, nodesDict] at hx hy
    rcases hx with rfl | rfl | rfl | rfl <;> rcases hy with rfl | rfl | rfl | rfl | rfl <;>
      simp [HExpr.addr, HExpr.erase]
  · simp [Proper, HExpr.erase, eraseDict, Expr.allConst, allConstDict, Expr.mapsOk, mapsOkDict]
  · simp [Proper, HExpr.erase, eraseDict, Expr.allConst, allConstDict, Expr.mapsOk, mapsOkDict]

/-- **C07**, why NaN is excluded: with a constant that is not equal to itself the pointer shortcut is
observable: an expression equals itself but not its copy. -/
theorem C07_nan {K : Type} (eqK : K → K → Bool) (nan : K) (h : eqK nan nan = false) (o : UnOp) :
    (HExpr.un 1 o (.const 2 nan)).cmp eqK (.un 1 o (.const 2 nan)) = true ∧
    (HExpr.un 1 o (.const 2 nan)).cmp eqK (.un 3 o (.const 4 nan)) = false := by
  simp [HExpr.cmp, h]

/-! ## C08 -/

theorem hashList_eq {K : Type} (hK : K → UInt64) (hS : List Char → UInt64) (xs : List (Expr K)) :
    ∀ s, hashList hK hS s xs = xs.foldl (fun s x => hashCombine s (x.hash hK hS)) s := by
  induction xs with
  | nil => simp [hashList]
  | cons x xs ih => intro s; simp [hashList, ih]

theorem foldl_hash {K : Type} (hK : K → UInt64) (hS : List Char → UInt64) (zs : List (Expr K)) (s : UInt64) :
    zs.foldl (fun s x => hashCombine s (x.hash hK hS)) s =
      (zs.map fun x => x.hash hK hS).foldl hashCombine s := by
  rw [List.foldl_map]

theorem hashDict_congr {K : Type} (hK : K → UInt64) (hS : List Char → UInt64) :
    ∀ (xs ys : List (List Char × Expr K)) (s : UInt64), xs.map (·.1) = ys.map (·.1) →
      (∀ k v w, (k, v) ∈ xs → (k, w) ∈ ys → v.hash hK hS = w.hash hK hS) →
      hashDict hK hS s xs = hashDict hK hS s ys
  | [], [], _, _, _ => rfl
  | [], _ :: _, _, h, _ => by simp at h
  | _ :: _, [], _, h, _ => by simp at h
  | (k, v) :: xs, (k', w) :: ys, s, h, hv => by
    simp only [List.map_cons, List.cons.injEq] at h
    obtain ⟨rfl, h⟩ := h
    simp only [hashDict]
    rw [hv k v w (by simp) (by simp)]
    exact hashDict_congr hK hS xs ys _ h fun k' v' w' h1 h2 =>
      hv k' v' w' (List.mem_cons_of_mem _ h1) (List.mem_cons_of_mem _ h2)

theorem sameTree_hash {K : Type} (R : K → K → Prop) (hK : K → UInt64) (hS : List Char → UInt64)
    (hR : ∀ x y, R x y → hK x = hK y) (a b : Expr K) (h : SameTree R a b)
    (ho : SameOrder a b) : a.hash hK hS = b.hash hK hS := by
  induction h with
  | const h => simp [Expr.hash, hR _ _ h]
  | var => rfl
  | un _ ih => cases ho with | un ho => simp only [Expr.hash]; rw [ih ho]
  | bin _ _ ih1 ih2 => cases ho with | bin h1 h2 => simp only [Expr.hash]; rw [ih1 h1, ih2 h2]
  | @arr xs ys hl _ ih =>
    cases ho with
    | arr ho =>
    simp only [Expr.hash, hashList_eq, foldl_hash]
    have : xs.map (fun x => x.hash hK hS) = ys.map fun x => x.hash hK hS := by
      apply List.ext_getElem (by simpa using hl)
      intro i h1 h2
      simp only [List.length_map] at h1 h2
      simpa using ih i h1 h2 (ho i h1 h2)
    rw [this]
  | @dict xs ys hk _ ih =>
    cases ho with
    | dict ho ho' =>
    simp only [Expr.hash]
    exact hashDict_congr hK hS xs ys _ ho fun k v w h1 h2 => ih k v w h1 h2 (ho' k v w h1 h2)

/-- **C08**. If two expressions compare equal and their dictionaries iterate over their keys in the same
order, their hashes are equal. (`hK`, the hash of numbers, respects `==` on numbers, e.g. `0.0` and `-0.0`.)
The condition on the order cannot be left out: see `C08_dict_fails`. -/
theorem C08_equal_hash {K : Type} (eqK : K → K → Bool) (hK : K → UInt64)
    (hS : List Char → UInt64) (hR : ∀ x y, eqK x y = true → hK x = hK y) (a b : HExpr K)
    (hc : Coherent a b) (ha : Proper eqK a) (hb : Proper eqK b) (ho : SameOrder a.erase b.erase)
    (h : a.cmp eqK b = true) :
    a.erase.hash hK hS = b.erase.hash hK hS :=
  sameTree_hash _ hK hS hR _ _ ((C07_structural eqK a b hc ha hb).1 h) ho

mutual
/-- There is no dictionary with two or more entries. -/
def Expr.smallDicts {K : Type} : Expr K → Bool
  | .const _ => true
  | .var _ => true
  | .un _ a => a.smallDicts
  | .bin _ l r => l.smallDicts && r.smallDicts
  | .arr xs => smallDictsList xs
  | .dict kvs => kvs.length ≤ 1 && smallDictsDict kvs
def smallDictsList {K : Type} : List (Expr K) → Bool
  | [] => true
  | x :: xs => x.smallDicts && smallDictsList xs
def smallDictsDict {K : Type} : List (List Char × Expr K) → Bool
  | [] => true
  | (_, v) :: xs => v.smallDicts && smallDictsDict xs
end

theorem smallDictsList_iff {K : Type} (xs : List (Expr K)) :
    smallDictsList xs = true ↔ ∀ x ∈ xs, x.smallDicts = true := by
  induction xs with
  | nil => simp [smallDictsList]
  | cons x xs ih => simp [smallDictsList, ih]

theorem sameOrder_small {K : Type} (R : K → K → Prop) (a b : Expr K) (h : SameTree R a b)
    (ha : a.smallDicts = true) (hb : b.smallDicts = true) : SameOrder a b := by
  induction h with
  | const h => exact .const
  | var => exact .var
  | un _ ih => exact .un (ih ha hb)
  | bin _ _ ih1 ih2 =>
    simp only [Expr.smallDicts, Bool.and_eq_true] at ha hb
    exact .bin (ih1 ha.1 hb.1) (ih2 ha.2 hb.2)
  | arr hl _ ih =>
    simp only [Expr.smallDicts, smallDictsList_iff] at ha hb
    exact .arr fun i h1 h2 => ih i h1 h2 (ha _ (List.getElem_mem h1)) (hb _ (List.getElem_mem h2))
  | @dict xs ys hk _ ih =>
    simp only [Expr.smallDicts, Bool.and_eq_true, decide_eq_true_eq] at ha hb
    match xs, ys, ha, hb, hk, ih with
    | [], [], _, _, _, _ => exact .dict rfl (by simp)
    | [], (k, v) :: _, _, _, hk, _ => have := (hk k).2 (by simp); simp at this
    | (k, v) :: _, [], _, _, hk, _ => have := (hk k).1 (by simp); simp at this
    | [(k, v)], [(k', w)], ha, hb, hk, ih =>
      have : k = k' := by simpa using (hk k).1 (by simp)
      subst this
      simp only [smallDictsDict, Bool.and_true] at ha hb
      refine .dict rfl fun k' v' w' h1 h2 => ?_
      simp only [List.mem_singleton, Prod.mk.injEq] at h1 h2
      obtain ⟨rfl, rfl⟩ := h1
      obtain ⟨_, rfl⟩ := h2
      exact ih _ _ _ List.mem_cons_self List.mem_cons_self ha.2 hb.2
    | _ :: _ :: _, _, ha, _, _, _ => simp at ha
    | _, _ :: _ :: _, _, hb, _, _ => simp at hb

/-- **C08**: without a dictionary of two or more entries, equal expressions have equal hashes. -/
theorem C08_equal_hash_small {K : Type} (eqK : K → K → Bool) (hK : K → UInt64)
    (hS : List Char → UInt64) (hR : ∀ x y, eqK x y = true → hK x = hK y) (a b : HExpr K)
    (hc : Coherent a b) (ha : Proper eqK a) (hb : Proper eqK b) (hda : a.erase.smallDicts = true)
    (hdb : b.erase.smallDicts = true) (h : a.cmp eqK b = true) :
    a.erase.hash hK hS = b.erase.hash hK hS :=
  C08_equal_hash eqK hK hS hR a b hc ha hb
    (sameOrder_small _ _ _ ((C07_structural eqK a b hc ha hb).1 h) hda hdb) h

/-- `[x, {y: 2}]` -/
example : let a : HExpr Nat := .arr 0 [.var 1 ['x'], .dict 2 [(['y'], .const 3 2)]]
    a.erase.smallDicts = true ∧ Proper (· == ·) a := by
  simp [HExpr.erase, eraseList, eraseDict, Expr.smallDicts, smallDictsList, smallDictsDict, Proper,
    Expr.allConst, allConstList, allConstDict, Expr.mapsOk, mapsOkList, mapsOkDict]

/-- Two different allocations of `{x: 1, y: s}`, with the same order. -/
example :
    let a : HExpr Nat := .dict 1 [(['x'], .const 2 1), (['y'], .var 3 ['s'])]
    let b : HExpr Nat := .dict 4 [(['x'], .const 5 1), (['y'], .var 6 ['s'])]
    Coherent a b ∧ Proper (· == ·) a ∧ Proper (· == ·) b ∧ SameOrder a.erase b.erase ∧
      a.cmp (· == ·) b = true := by
  refine ⟨?_, ?_, ?_, ?_, by decide⟩
  · intro x hx y hy
    simp [HExpr.nodes, nodesDict] at hx hy
    rcases hx with rfl | rfl | rfl <;> rcases hy with rfl | rfl | rfl <;>
      simp [HExpr.addr, HExpr.erase]
  · simp [Proper, HExpr.erase, eraseDict, Expr.allConst, allConstDict, Expr.mapsOk, mapsOkDict]
  · simp [Proper, HExpr.erase, eraseDict, Expr.allConst, allConstDict, Expr.mapsOk, mapsOkDict]
  · simp only [HExpr.erase, eraseDict]
    refine .dict rfl fun k v w h1 h2 => ?_
    simp at h1 h2
    rcases h1 with ⟨rfl, rfl⟩ | ⟨rfl, rfl⟩ <;> rcases h2 with ⟨h, rfl⟩ | ⟨h, rfl⟩ <;>
      first | exact .const | exact .var | (simp at h)

/-- **C08**, the failing half: two dictionaries that compare equal, `{x:1, y:2}` and `{y:2, x:1}`
(iteration order of an `unordered_map` depends on its history), have different hashes. -/
theorem C08_dict_fails :
    ∃ (hK : Nat → UInt64) (hS : List Char → UInt64) (a b : HExpr Nat),
      Coherent a b ∧ Proper (· == ·) a ∧ Proper (· == ·) b ∧ a.cmp (· == ·) b = true ∧
      a.erase.hash hK hS ≠ b.erase.hash hK hS := by
  refine ⟨fun k => k.toUInt64, fun s => if s = ['x'] then 1 else 2,
    .dict 1 [(['x'], .const 2 1), (['y'], .const 3 2)],
    .dict 4 [(['y'], .const 5 2), (['x'], .const 6 1)], ?_, ?_, ?_, by decide, by decide⟩
  · intro x hx y hy
    simp [HExpr.nodes, nodesDict] at hx hy
    rcases hx with rfl | rfl | rfl <;> rcases hy with rfl | rfl | rfl <;>
      simp [HExpr.addr, HExpr.erase]
  · simp [Proper, HExpr.erase, eraseDict, Expr.allConst, allConstDict, Expr.mapsOk, mapsOkDict]
  · simp [Proper, HExpr.erase, eraseDict, Expr.allConst, allConstDict, Expr.mapsOk, mapsOkDict]

end Stator
