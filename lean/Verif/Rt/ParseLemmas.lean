import Verif.Rt.Parse

/-!
# Helper lemmas about the parser: termination, and a derivation relation equivalent to it
-/

namespace Stator

@[simp] theorem Res.ok_bind {α β : Type} (a : α) (f : α → Res β) : ((Res.ok a : Res α) >>= f) = f a := rfl
@[simp] theorem Res.throw_bind {α β : Type} (f : α → Res β) : ((Res.throw : Res α) >>= f) = Res.throw := rfl
@[simp] theorem Res.diverge_bind {α β : Type} (f : α → Res β) :
    ((Res.diverge : Res α) >>= f) = Res.diverge := rfl

theorem Res.bind_eq_ok {α β : Type} {x : Res α} {f : α → Res β} {b : β} :
    (x >>= f) = .ok b ↔ ∃ a, x = .ok a ∧ f a = .ok b := by
  cases x <;> simp

theorem Res.bind_ne_diverge {α β : Type} {x : Res α} {f : α → Res β}
    (hx : x ≠ .diverge) (hf : ∀ a, x = .ok a → f a ≠ .diverge) : (x >>= f) ≠ .diverge := by
  cases x <;> simp_all

/-- The five mutually recursive routines as one family. -/
inductive Cat (K : Type)
  | expr (m : Int)
  | loop (m M : Int) (t : Expr K)
  | tok
  | arr (acc : List (Expr K))
  | dict (acc : List (List Char × Expr K))

/-- The five routines as one function. -/
def run {K : Type} (L : NumLex K) (n : Nat) : Cat K → List Tok → Res (Expr K × List Tok)
  | .expr m => parseExpr L n m
  | .loop m M t => opLoop L n m M t
  | .tok => parseToken L n
  | .arr acc => arrayItems L n acc
  | .dict acc => dictItems L n acc

theorem consume_ok {ts ts' : List Tok} (h : consume ts = .ok ts') : ts' = ts.tail := by
  unfold consume at h; split at h <;> simp_all

theorem consume_ne_diverge (ts : List Tok) : consume ts ≠ .diverge := by
  unfold consume; split <;> simp

theorem expect_ok {t : Tok} {ts ts' : List Tok} (h : expect t ts = .ok ts') : ts = t :: ts' := by
  unfold expect at h
  split at h
  · have := consume_ok h
    cases ts <;> simp_all
  · simp at h

theorem expect_ne_diverge (t : Tok) (ts : List Tok) : expect t ts ≠ .diverge := by
  unfold expect; split
  · exact consume_ne_diverge _
  · simp

/-- Amount of input a routine must leave behind, relative to what it got. -/
def Cat.strict {K : Type} : Cat K → Nat
  | .expr _ => 1
  | .loop .. => 0
  | .tok => 1
  | .arr _ => 2
  | .dict _ => 4

theorem run_length {K : Type} (L : NumLex K) (n : Nat) (c : Cat K) (ts rest : List Tok) (e : Expr K)
    (h : run L n c ts = .ok (e, rest)) : rest.length + c.strict ≤ ts.length := by
  induction n generalizing c ts rest e with
  | zero => cases c <;> simp [run, parseExpr, opLoop, parseToken, arrayItems, dictItems] at h
  | succ n ih =>
    have iE := fun m ts rest e => ih (.expr m) ts rest e
    have iL := fun m M t ts rest e => ih (.loop m M t) ts rest e
    have iT := fun ts rest e => ih .tok ts rest e
    have iA := fun acc ts rest e => ih (.arr acc) ts rest e
    have iD := fun acc ts rest e => ih (.dict acc) ts rest e
    simp only [run, Cat.strict] at iE iL iT iA iD
    cases c with
    | expr m =>
      simp only [run, parseExpr, Res.bind_eq_ok] at h
      obtain ⟨⟨t, ts1⟩, h1, h2⟩ := h
      have := iT _ _ _ h1
      have := iL _ _ _ _ _ _ h2
      dsimp only at *
      simp only [Cat.strict]; omega
    | loop m M t =>
      simp only [run, opLoop] at h
      simp only [Cat.strict]
      split at h
      · simp at h; simp [h]
      · split at h
        · simp at h
        · split at h
          · simp at h; simp [h]
          · simp only [Res.bind_eq_ok] at h
            obtain ⟨ts1, h1, h⟩ := h
            have := consume_ok h1
            split at h
            · simp at h
            · split at h
              · simp only [Res.bind_eq_ok] at h
                obtain ⟨⟨r, ts2⟩, h2, ts3, h3, h4⟩ := h
                have := iE _ _ _ _ h2
                have := expect_ok h3
                have := iL _ _ _ _ _ _ h4
                simp_all
                omega
              · simp only [Res.bind_eq_ok] at h
                obtain ⟨⟨r, ts2⟩, h2, h4⟩ := h
                have := iE _ _ _ _ h2
                have := iL _ _ _ _ _ _ h4
                simp_all
                omega
    | tok =>
      simp only [run, parseToken, Res.bind_eq_ok] at h
      obtain ⟨tl, h1, h⟩ := h
      have htl := consume_ok h1
      simp only [Cat.strict]
      cases ts with
      | nil => simp at h
      | cons tok tl' =>
        simp only [List.tail_cons] at htl
        subst htl
        simp only [List.length_cons]
        dsimp only at h
        split at h
        · simp at h; simp [h]
        · split at h
          · have := iE _ _ _ _ h; omega
          · simp only [Res.bind_eq_ok] at h
            obtain ⟨⟨r, ts2⟩, h2, h4⟩ := h
            have := iE _ _ _ _ h2
            simp at h4; simp_all; omega
          · simp only [Res.bind_eq_ok] at h
            obtain ⟨⟨r, ts2⟩, h2, ts3, h3, h4⟩ := h
            have := iE _ _ _ _ h2
            have := expect_ok h3
            simp at h4; simp_all; omega
          · by_cases hc : tl.head? = some (Tok.sym [']'])
            · rw [if_pos hc] at h
              simp only [Res.bind_eq_ok] at h
              obtain ⟨ts2, h2, h4⟩ := h
              have := consume_ok h2
              simp at h4; simp_all
            · rw [if_neg hc] at h
              have := iA _ _ _ _ h; omega
          · by_cases hc : tl.head? = some (Tok.sym ['}'])
            · rw [if_pos hc] at h
              simp only [Res.bind_eq_ok] at h
              obtain ⟨ts2, h2, h4⟩ := h
              have := consume_ok h2
              simp at h4; simp_all
            · rw [if_neg hc] at h
              have := iD _ _ _ _ h; omega
          · simp only [Res.bind_eq_ok] at h
            obtain ⟨⟨r, ts2⟩, h2, h4⟩ := h
            have := iE _ _ _ _ h2
            simp at h4; simp_all; omega
          · split at h
            · simp at h; simp [h]
            · simp at h
    | arr acc =>
      simp only [run, arrayItems, Res.bind_eq_ok] at h
      obtain ⟨⟨r, ts2⟩, h2, h⟩ := h
      have := iE _ _ _ _ h2
      simp only [Cat.strict]
      split at h
      · simp only [Res.bind_eq_ok] at h
        obtain ⟨ts3, h3, h4⟩ := h
        have := expect_ok h3
        simp at h4; simp_all
      · simp only [Res.bind_eq_ok] at h
        obtain ⟨ts3, h3, h4⟩ := h
        have := expect_ok h3
        have := iA _ _ _ _ h4
        simp_all; omega
    | dict acc =>
      simp only [run, dictItems, Res.bind_eq_ok] at h
      obtain ⟨⟨r, ts2⟩, h2, h⟩ := h
      have := iE _ _ _ _ h2
      simp only [Cat.strict]
      split at h
      · simp only [Res.bind_eq_ok] at h
        obtain ⟨ts3, h3, ⟨v, ts4⟩, h4, h⟩ := h
        have := expect_ok h3
        have := iE _ _ _ _ h4
        split at h
        · simp only [Res.bind_eq_ok] at h
          obtain ⟨ts5, h5, h6⟩ := h
          have := expect_ok h5
          simp at h6; simp_all; omega
        · simp only [Res.bind_eq_ok] at h
          obtain ⟨ts5, h5, h6⟩ := h
          have := expect_ok h5
          have := iD _ _ _ _ h6
          simp_all; omega
      · simp at h

/-- Fuel constant of each routine. -/
def Cat.slack {K : Type} : Cat K → Nat
  | .expr _ => 2
  | .loop .. => 1
  | .tok => 1
  | .arr _ => 3
  | .dict _ => 3

theorem run_terminates {K : Type} (L : NumLex K) (n : Nat) (c : Cat K) (ts : List Tok)
    (h : 3 * ts.length + c.slack ≤ n) : run L n c ts ≠ .diverge := by
  induction n generalizing c ts with
  | zero => cases c <;> simp [Cat.slack] at h
  | succ n ih =>
    have iE := fun m ts => ih (.expr m) ts
    have iL := fun m M t ts => ih (.loop m M t) ts
    have iT := fun ts => ih .tok ts
    have iA := fun acc ts => ih (.arr acc) ts
    have iD := fun acc ts => ih (.dict acc) ts
    have lE := fun m ts rest e => run_length L n (.expr m) ts rest e
    have lT := fun ts rest e => run_length L n .tok ts rest e
    simp only [run, Cat.slack, Cat.strict] at iE iL iT iA iD lE lT
    cases c with
    | expr m =>
      simp only [Cat.slack] at h
      simp only [run, parseExpr]
      refine Res.bind_ne_diverge (iT _ (by omega)) ?_
      rintro ⟨t, ts1⟩ h1
      have := lT _ _ _ h1
      dsimp only
      exact iL _ _ _ _ (by omega)
    | loop m M t =>
      simp only [Cat.slack] at h
      simp only [run, opLoop]
      split
      · simp
      · split
        · simp
        · split
          · simp
          · simp only [List.length_cons] at h
            refine Res.bind_ne_diverge (consume_ne_diverge _) ?_
            intro ts1 h1
            have := consume_ok h1
            simp only [List.tail_cons] at this
            subst this
            split
            · simp
            · split
              · refine Res.bind_ne_diverge (iE _ _ (by omega)) ?_
                rintro ⟨r, ts2⟩ h2
                have := lE _ _ _ _ h2
                refine Res.bind_ne_diverge (expect_ne_diverge _ _) ?_
                intro ts3 h3
                have := expect_ok h3
                subst this
                simp only [List.length_cons] at *
                exact iL _ _ _ _ (by omega)
              · refine Res.bind_ne_diverge (iE _ _ (by omega)) ?_
                rintro ⟨r, ts2⟩ h2
                have := lE _ _ _ _ h2
                dsimp only
                exact iL _ _ _ _ (by omega)
    | tok =>
      simp only [Cat.slack] at h
      simp only [run, parseToken]
      refine Res.bind_ne_diverge (consume_ne_diverge _) ?_
      intro tl h1
      have htl := consume_ok h1
      cases ts with
      | nil => simp
      | cons tok tl' =>
        simp only [List.tail_cons] at htl
        subst htl
        simp only [List.length_cons] at h
        dsimp only
        split
        · simp
        · split
          · exact iE _ _ (by omega)
          · exact Res.bind_ne_diverge (iE _ _ (by omega)) (by simp)
          · refine Res.bind_ne_diverge (iE _ _ (by omega)) ?_
            rintro ⟨r, ts2⟩ h2
            exact Res.bind_ne_diverge (expect_ne_diverge _ _) (by simp)
          · by_cases hc : tl.head? = some (Tok.sym [']'])
            · rw [if_pos hc]
              exact Res.bind_ne_diverge (consume_ne_diverge _) (by simp)
            · rw [if_neg hc]
              exact iA _ _ (by omega)
          · by_cases hc : tl.head? = some (Tok.sym ['}'])
            · rw [if_pos hc]
              exact Res.bind_ne_diverge (consume_ne_diverge _) (by simp)
            · rw [if_neg hc]
              exact iD _ _ (by omega)
          · exact Res.bind_ne_diverge (iE _ _ (by omega)) (by simp)
          · split <;> simp
    | arr acc =>
      simp only [Cat.slack] at h
      simp only [run, arrayItems]
      refine Res.bind_ne_diverge (iE _ _ (by omega)) ?_
      rintro ⟨r, ts2⟩ h2
      have := lE _ _ _ _ h2
      dsimp only
      split
      · exact Res.bind_ne_diverge (expect_ne_diverge _ _) (by simp)
      · refine Res.bind_ne_diverge (expect_ne_diverge _ _) ?_
        intro ts3 h3
        have := expect_ok h3
        subst this
        simp only [List.length_cons] at *
        exact iA _ _ (by omega)
    | dict acc =>
      simp only [Cat.slack] at h
      simp only [run, dictItems]
      refine Res.bind_ne_diverge (iE _ _ (by omega)) ?_
      rintro ⟨r, ts2⟩ h2
      have := lE _ _ _ _ h2
      dsimp only
      split
      · refine Res.bind_ne_diverge (expect_ne_diverge _ _) ?_
        intro ts3 h3
        have := expect_ok h3
        subst this
        simp only [List.length_cons] at *
        refine Res.bind_ne_diverge (iE _ _ (by omega)) ?_
        rintro ⟨v, ts4⟩ h4
        have := lE _ _ _ _ h4
        dsimp only
        split
        · exact Res.bind_ne_diverge (expect_ne_diverge _ _) (by simp)
        · refine Res.bind_ne_diverge (expect_ne_diverge _ _) ?_
          intro ts5 h5
          have := expect_ok h5
          subst this
          simp only [List.length_cons] at *
          exact iD _ _ (by omega)
      · simp

/-- The current token is not one that makes `consume` throw. -/
def NB (ts : List Tok) : Prop := ts.head? ≠ some .bad

theorem consume_cons (t : Tok) (ts : List Tok) (h : NB ts) : consume (t :: ts) = .ok ts := by
  cases ts with
  | nil => rfl
  | cons a ts => cases a <;> simp_all [NB, consume]

theorem NB_of_consume {t : Tok} {ts ts' : List Tok} (h : consume (t :: ts) = .ok ts') :
    NB ts ∧ ts' = ts := by
  refine ⟨?_, consume_ok h⟩
  cases ts with
  | nil => simp [NB]
  | cons a ts =>
    cases a with
    | bad => simp [consume] at h
    | _ => simp [NB]

theorem expect_cons (t : Tok) (ts : List Tok) (h : NB ts) : expect t (t :: ts) = .ok ts := by
  simp [expect, consume_cons t ts h]

theorem NB_of_expect {t : Tok} {ts ts' : List Tok} (h : expect t ts = .ok ts') :
    ts = t :: ts' ∧ NB ts' := by
  have h1 := expect_ok h
  subst h1
  unfold expect at h
  simp only [List.head?_cons, if_true] at h
  exact ⟨rfl, (NB_of_consume h).1⟩

/-- Derivations: the parser without fuel. -/
inductive D {K : Type} (L : NumLex K) : Cat K → List Tok → Expr K → List Tok → Prop
  | expr {m ts t ts1 e rest} : D L .tok ts t ts1 → D L (.loop m intMax t) ts1 e rest →
      D L (.expr m) ts e rest
  | loopEnd {m M t} : D L (.loop m M t) [] t []
  | loopStop {m M t tok ts o} : rightOp tok = some o → (m > o.lbp ∨ o.lbp > M) →
      D L (.loop m M t) (tok :: ts) t (tok :: ts)
  | loopWrap {m M t tok ts b r ts2 e rest} : rightOp tok = some (.bin b) → m ≤ b.lbp → b.lbp ≤ M →
      b.wrapped = true → NB ts → D L (.expr 0) ts r (.sym b.closer :: ts2) → NB ts2 →
      D L (.loop m b.nbp (.bin b t r)) ts2 e rest → D L (.loop m M t) (tok :: ts) e rest
  | loopBin {m M t tok ts b r ts2 e rest} : rightOp tok = some (.bin b) → m ≤ b.lbp → b.lbp ≤ M →
      b.wrapped = false → NB ts → D L (.expr b.rbp) ts r ts2 →
      D L (.loop m b.nbp (.bin b t r)) ts2 e rest → D L (.loop m M t) (tok :: ts) e rest
  | num {s ts} : NB ts → D L .tok (.num s :: ts) (.const (L.ofLit s)) ts
  | var {s ts} : leftOp (.word s) = none → NB ts → D L .tok (.word s :: ts) (.var s) ts
  | skip {tok ts e rest} : leftOp tok = some .skip → NB ts → D L (.expr 21) ts e rest →
      D L .tok (tok :: ts) e rest
  | minus {tok ts e rest} : leftOp tok = some .minus → NB ts → D L (.expr 21) ts e rest →
      D L .tok (tok :: ts) (negate L e) rest
  | paren {tok ts e rest} : leftOp tok = some .paren → NB ts →
      D L (.expr 0) ts e (.sym [')'] :: rest) → NB rest → D L .tok (tok :: ts) e rest
  | arr0 {tok rest} : leftOp tok = some .array → NB rest →
      D L .tok (tok :: .sym [']'] :: rest) (.arr []) rest
  | arr {tok ts e rest} : leftOp tok = some .array → NB ts → ts.head? ≠ some (.sym [']']) →
      D L (.arr []) ts e rest → D L .tok (tok :: ts) e rest
  | dict0 {tok rest} : leftOp tok = some .dict → NB rest →
      D L .tok (tok :: .sym ['}'] :: rest) (.dict []) rest
  | dict {tok ts e rest} : leftOp tok = some .dict → NB ts → ts.head? ≠ some (.sym ['}']) →
      D L (.dict []) ts e rest → D L .tok (tok :: ts) e rest
  | fn {tok o ts e rest} : leftOp tok = some (.fn o) → NB ts → D L (.expr o.bp) ts e rest →
      D L .tok (tok :: ts) (.un o e) rest
  | arrLast {acc ts e rest} : D L (.expr 0) ts e (.sym [']'] :: rest) → NB rest →
      D L (.arr acc) ts (.arr (acc ++ [e])) rest
  | arrMore {acc ts x ts1 e rest} : D L (.expr 0) ts x (.sym [','] :: ts1) → NB ts1 →
      D L (.arr (acc ++ [x])) ts1 e rest → D L (.arr acc) ts e rest
  | dictLast {acc ts k ts1 v rest} : D L (.expr 0) ts (.var k) (.sym [':'] :: ts1) → NB ts1 →
      D L (.expr 0) ts1 v (.sym ['}'] :: rest) → NB rest →
      D L (.dict acc) ts (.dict (dictSet acc k v)) rest
  | dictMore {acc ts k ts1 v ts2 e rest} : D L (.expr 0) ts (.var k) (.sym [':'] :: ts1) → NB ts1 →
      D L (.expr 0) ts1 v (.sym [','] :: ts2) → NB ts2 →
      D L (.dict (dictSet acc k v)) ts2 e rest → D L (.dict acc) ts e rest

theorem leftOp_num (s : List Char) : leftOp (.num s) = none := by
  unfold leftOp; split <;> simp_all

theorem D_of_run {K : Type} (L : NumLex K) (n : Nat) (c : Cat K) (ts rest : List Tok) (e : Expr K)
    (h : run L n c ts = .ok (e, rest)) : D L c ts e rest := by
  induction n generalizing c ts rest e with
  | zero => cases c <;> simp [run, parseExpr, opLoop, parseToken, arrayItems, dictItems] at h
  | succ n ih =>
    have iE := fun m ts rest e => ih (.expr m) ts rest e
    have iL := fun m M t ts rest e => ih (.loop m M t) ts rest e
    have iT := fun ts rest e => ih .tok ts rest e
    have iA := fun acc ts rest e => ih (.arr acc) ts rest e
    have iD := fun acc ts rest e => ih (.dict acc) ts rest e
    simp only [run] at iE iL iT iA iD
    cases c with
    | expr m =>
      simp only [run, parseExpr, Res.bind_eq_ok] at h
      obtain ⟨⟨t, ts1⟩, h1, h2⟩ := h
      exact .expr (iT _ _ _ h1) (iL _ _ _ _ _ _ h2)
    | loop m M t =>
      simp only [run, opLoop] at h
      split at h
      · simp only [Res.ok.injEq, Prod.mk.injEq] at h
        obtain ⟨rfl, rfl⟩ := h
        exact .loopEnd
      · split at h
        · simp at h
        · rename_i o ho
          split at h
          · rename_i hs
            simp only [Res.ok.injEq, Prod.mk.injEq] at h
            obtain ⟨rfl, rfl⟩ := h
            exact .loopStop ho hs
          · rename_i hs
            simp only [Res.bind_eq_ok] at h
            obtain ⟨ts1, h1, h⟩ := h
            obtain ⟨hnb, rfl⟩ := NB_of_consume h1
            split at h
            · simp at h
            · simp only [RightOp.lbp] at hs
              split at h
              · simp only [Res.bind_eq_ok] at h
                obtain ⟨⟨r, ts2⟩, h2, ts3, h3, h4⟩ := h
                obtain ⟨h5, h6⟩ := NB_of_expect h3
                dsimp only at h5
                subst h5
                exact .loopWrap ho (by omega) (by omega) (by assumption) hnb (iE _ _ _ _ h2) h6
                  (iL _ _ _ _ _ _ h4)
              · simp only [Res.bind_eq_ok] at h
                obtain ⟨⟨r, ts2⟩, h2, h4⟩ := h
                exact .loopBin ho (by omega) (by omega) (by simp_all) hnb (iE _ _ _ _ h2)
                  (iL _ _ _ _ _ _ h4)
    | tok =>
      simp only [run, parseToken, Res.bind_eq_ok] at h
      obtain ⟨tl, h1, h⟩ := h
      cases ts with
      | nil => simp at h
      | cons tok tl' =>
        obtain ⟨hnb, rfl⟩ := NB_of_consume h1
        dsimp only at h
        split at h
        · simp only [Res.ok.injEq, Prod.mk.injEq] at h
          obtain ⟨rfl, rfl⟩ := h
          exact .num hnb
        · split at h
          · exact .skip (by assumption) hnb (iE _ _ _ _ h)
          · simp only [Res.bind_eq_ok] at h
            obtain ⟨⟨r, ts2⟩, h2, h4⟩ := h
            simp only [Res.ok.injEq, Prod.mk.injEq] at h4
            obtain ⟨rfl, rfl⟩ := h4
            exact .minus (by assumption) hnb (iE _ _ _ _ h2)
          · simp only [Res.bind_eq_ok] at h
            obtain ⟨⟨r, ts2⟩, h2, ts3, h3, h4⟩ := h
            simp only [Res.ok.injEq, Prod.mk.injEq] at h4
            obtain ⟨rfl, rfl⟩ := h4
            obtain ⟨h5, h6⟩ := NB_of_expect h3
            dsimp only at h5
            subst h5
            exact .paren (by assumption) hnb (iE _ _ _ _ h2) h6
          · by_cases hc : tl.head? = some (Tok.sym [']'])
            · rw [if_pos hc] at h
              simp only [Res.bind_eq_ok] at h
              obtain ⟨ts2, h2, h4⟩ := h
              simp only [Res.ok.injEq, Prod.mk.injEq] at h4
              obtain ⟨rfl, rfl⟩ := h4
              cases tl with
              | nil => simp at hc
              | cons a tl =>
                simp only [List.head?_cons, Option.some.injEq] at hc
                subst hc
                obtain ⟨h5, rfl⟩ := NB_of_consume h2
                exact .arr0 (by assumption) h5
            · rw [if_neg hc] at h
              exact .arr (by assumption) hnb hc (iA _ _ _ _ h)
          · by_cases hc : tl.head? = some (Tok.sym ['}'])
            · rw [if_pos hc] at h
              simp only [Res.bind_eq_ok] at h
              obtain ⟨ts2, h2, h4⟩ := h
              simp only [Res.ok.injEq, Prod.mk.injEq] at h4
              obtain ⟨rfl, rfl⟩ := h4
              cases tl with
              | nil => simp at hc
              | cons a tl =>
                simp only [List.head?_cons, Option.some.injEq] at hc
                subst hc
                obtain ⟨h5, rfl⟩ := NB_of_consume h2
                exact .dict0 (by assumption) h5
            · rw [if_neg hc] at h
              exact .dict (by assumption) hnb hc (iD _ _ _ _ h)
          · simp only [Res.bind_eq_ok] at h
            obtain ⟨⟨r, ts2⟩, h2, h4⟩ := h
            simp only [Res.ok.injEq, Prod.mk.injEq] at h4
            obtain ⟨rfl, rfl⟩ := h4
            exact .fn (by assumption) hnb (iE _ _ _ _ h2)
          · split at h
            · simp only [Res.ok.injEq, Prod.mk.injEq] at h
              obtain ⟨rfl, rfl⟩ := h
              exact .var (by assumption) hnb
            · simp at h
    | arr acc =>
      simp only [run, arrayItems, Res.bind_eq_ok] at h
      obtain ⟨⟨r, ts2⟩, h2, h⟩ := h
      split at h
      · simp only [Res.bind_eq_ok] at h
        obtain ⟨ts3, h3, h4⟩ := h
        simp only [Res.ok.injEq, Prod.mk.injEq] at h4
        obtain ⟨rfl, rfl⟩ := h4
        obtain ⟨h5, h6⟩ := NB_of_expect h3
        subst h5
        exact .arrLast (iE _ _ _ _ h2) h6
      · simp only [Res.bind_eq_ok] at h
        obtain ⟨ts3, h3, h4⟩ := h
        obtain ⟨h5, h6⟩ := NB_of_expect h3
        subst h5
        exact .arrMore (iE _ _ _ _ h2) h6 (iA _ _ _ _ h4)
    | dict acc =>
      simp only [run, dictItems, Res.bind_eq_ok] at h
      obtain ⟨⟨r, ts2⟩, h2, h⟩ := h
      split at h
      · rename_i hk
        subst hk
        simp only [Res.bind_eq_ok] at h
        obtain ⟨ts3, h3, ⟨v, ts4⟩, h4, h⟩ := h
        obtain ⟨h5, h6⟩ := NB_of_expect h3
        subst h5
        split at h
        · simp only [Res.bind_eq_ok] at h
          obtain ⟨ts5, h5, h7⟩ := h
          simp only [Res.ok.injEq, Prod.mk.injEq] at h7
          obtain ⟨rfl, rfl⟩ := h7
          obtain ⟨h8, h9⟩ := NB_of_expect h5
          subst h8
          exact .dictLast (iE _ _ _ _ h2) h6 (iE _ _ _ _ h4) h9
        · simp only [Res.bind_eq_ok] at h
          obtain ⟨ts5, h5, h7⟩ := h
          obtain ⟨h8, h9⟩ := NB_of_expect h5
          subst h8
          exact .dictMore (iE _ _ _ _ h2) h6 (iE _ _ _ _ h4) h9 (iD _ _ _ _ h7)
      · simp at h

theorem run_of_D {K : Type} (L : NumLex K) (c : Cat K) (ts rest : List Tok) (e : Expr K)
    (h : D L c ts e rest) : ∃ N, ∀ n, N ≤ n → run L n c ts = .ok (e, rest) := by
  induction h with
  | expr _ _ ih1 ih2 =>
    obtain ⟨N1, h1⟩ := ih1
    obtain ⟨N2, h2⟩ := ih2
    refine ⟨N1 + N2 + 1, fun n hn => ?_⟩
    obtain ⟨n, rfl⟩ : ∃ k, n = k + 1 := ⟨n - 1, by omega⟩
    have h1 := h1 n (by omega)
    have h2 := h2 n (by omega)
    simp only [run] at h1 h2 ⊢
    simp [parseExpr, h1, h2]
  | loopEnd =>
    refine ⟨1, fun n hn => ?_⟩
    obtain ⟨n, rfl⟩ : ∃ k, n = k + 1 := ⟨n - 1, by omega⟩
    simp [run, opLoop]
  | loopStop ho hs =>
    refine ⟨1, fun n hn => ?_⟩
    obtain ⟨n, rfl⟩ : ∃ k, n = k + 1 := ⟨n - 1, by omega⟩
    simp [run, opLoop, ho, hs]
  | @loopWrap m M t tok ts b r ts2 e rest ho hm hM hw hnb _ hnb2 _ ih1 ih2 =>
    obtain ⟨N1, h1⟩ := ih1
    obtain ⟨N2, h2⟩ := ih2
    refine ⟨N1 + N2 + 1, fun n hn => ?_⟩
    obtain ⟨n, rfl⟩ : ∃ k, n = k + 1 := ⟨n - 1, by omega⟩
    have h1 := h1 n (by omega)
    have h2 := h2 n (by omega)
    simp only [run] at h1 h2 ⊢
    have hc : ¬ (m > (RightOp.bin b).lbp ∨ (RightOp.bin b).lbp > M) := by
      simp only [RightOp.lbp]; omega
    simp [opLoop, ho, hc, consume_cons _ _ hnb, hw, h1, expect_cons _ _ hnb2, h2]
  | @loopBin m M t tok ts b r ts2 e rest ho hm hM hw hnb _ _ ih1 ih2 =>
    obtain ⟨N1, h1⟩ := ih1
    obtain ⟨N2, h2⟩ := ih2
    refine ⟨N1 + N2 + 1, fun n hn => ?_⟩
    obtain ⟨n, rfl⟩ : ∃ k, n = k + 1 := ⟨n - 1, by omega⟩
    have h1 := h1 n (by omega)
    have h2 := h2 n (by omega)
    simp only [run] at h1 h2 ⊢
    have hc : ¬ (m > (RightOp.bin b).lbp ∨ (RightOp.bin b).lbp > M) := by
      simp only [RightOp.lbp]; omega
    simp [opLoop, ho, hc, consume_cons _ _ hnb, hw, h1, h2]
  | num hnb =>
    refine ⟨1, fun n hn => ?_⟩
    obtain ⟨n, rfl⟩ : ∃ k, n = k + 1 := ⟨n - 1, by omega⟩
    simp [run, parseToken, consume_cons _ _ hnb]
  | var hl hnb =>
    refine ⟨1, fun n hn => ?_⟩
    obtain ⟨n, rfl⟩ : ∃ k, n = k + 1 := ⟨n - 1, by omega⟩
    simp [run, parseToken, consume_cons _ _ hnb, hl]
  | @skip tok ts e rest hl hnb _ ih =>
    obtain ⟨N1, h1⟩ := ih
    refine ⟨N1 + 1, fun n hn => ?_⟩
    obtain ⟨n, rfl⟩ : ∃ k, n = k + 1 := ⟨n - 1, by omega⟩
    have h1 := h1 n (by omega)
    cases tok <;> simp_all [run, parseToken, consume_cons _ _ hnb, leftOp_num]
  | @minus tok ts e rest hl hnb _ ih =>
    obtain ⟨N1, h1⟩ := ih
    refine ⟨N1 + 1, fun n hn => ?_⟩
    obtain ⟨n, rfl⟩ : ∃ k, n = k + 1 := ⟨n - 1, by omega⟩
    have h1 := h1 n (by omega)
    cases tok <;> simp_all [run, parseToken, consume_cons _ _ hnb, leftOp_num]
  | @paren tok ts e rest hl hnb _ hnb2 ih =>
    obtain ⟨N1, h1⟩ := ih
    refine ⟨N1 + 1, fun n hn => ?_⟩
    obtain ⟨n, rfl⟩ : ∃ k, n = k + 1 := ⟨n - 1, by omega⟩
    have h1 := h1 n (by omega)
    cases tok <;> simp_all [run, parseToken, consume_cons _ _ hnb, leftOp_num, expect_cons _ _ hnb2]
  | @arr0 tok rest hl hnb =>
    refine ⟨1, fun n hn => ?_⟩
    obtain ⟨n, rfl⟩ : ∃ k, n = k + 1 := ⟨n - 1, by omega⟩
    have hc : consume (tok :: Tok.sym [']'] :: rest) = .ok (Tok.sym [']'] :: rest) :=
      consume_cons _ _ (by simp [NB])
    cases tok <;> simp_all [run, parseToken, consume_cons _ _ hnb, leftOp_num]
  | @arr tok ts e rest hl hnb hh _ ih =>
    obtain ⟨N1, h1⟩ := ih
    refine ⟨N1 + 1, fun n hn => ?_⟩
    obtain ⟨n, rfl⟩ : ∃ k, n = k + 1 := ⟨n - 1, by omega⟩
    have h1 := h1 n (by omega)
    cases tok <;> simp_all [run, parseToken, consume_cons _ _ hnb, leftOp_num]
  | @dict0 tok rest hl hnb =>
    refine ⟨1, fun n hn => ?_⟩
    obtain ⟨n, rfl⟩ : ∃ k, n = k + 1 := ⟨n - 1, by omega⟩
    have hc : consume (tok :: Tok.sym ['}'] :: rest) = .ok (Tok.sym ['}'] :: rest) :=
      consume_cons _ _ (by simp [NB])
    cases tok <;> simp_all [run, parseToken, consume_cons _ _ hnb, leftOp_num]
  | @dict tok ts e rest hl hnb hh _ ih =>
    obtain ⟨N1, h1⟩ := ih
    refine ⟨N1 + 1, fun n hn => ?_⟩
    obtain ⟨n, rfl⟩ : ∃ k, n = k + 1 := ⟨n - 1, by omega⟩
    have h1 := h1 n (by omega)
    cases tok <;> simp_all [run, parseToken, consume_cons _ _ hnb, leftOp_num]
  | @fn tok o ts e rest hl hnb _ ih =>
    obtain ⟨N1, h1⟩ := ih
    refine ⟨N1 + 1, fun n hn => ?_⟩
    obtain ⟨n, rfl⟩ : ∃ k, n = k + 1 := ⟨n - 1, by omega⟩
    have h1 := h1 n (by omega)
    cases tok <;> simp_all [run, parseToken, consume_cons _ _ hnb, leftOp_num]
  | arrLast _ hnb ih =>
    obtain ⟨N1, h1⟩ := ih
    refine ⟨N1 + 1, fun n hn => ?_⟩
    obtain ⟨n, rfl⟩ : ∃ k, n = k + 1 := ⟨n - 1, by omega⟩
    have h1 := h1 n (by omega)
    simp only [run] at h1
    simp [run, arrayItems, h1, expect_cons _ _ hnb]
  | arrMore _ hnb _ ih1 ih2 =>
    obtain ⟨N1, h1⟩ := ih1
    obtain ⟨N2, h2⟩ := ih2
    refine ⟨N1 + N2 + 1, fun n hn => ?_⟩
    obtain ⟨n, rfl⟩ : ∃ k, n = k + 1 := ⟨n - 1, by omega⟩
    have h1 := h1 n (by omega)
    have h2 := h2 n (by omega)
    simp only [run] at h1 h2
    simp [run, arrayItems, h1, h2, expect_cons _ _ hnb]
  | dictLast _ hnb _ hnb2 ih1 ih2 =>
    obtain ⟨N1, h1⟩ := ih1
    obtain ⟨N2, h2⟩ := ih2
    refine ⟨N1 + N2 + 1, fun n hn => ?_⟩
    obtain ⟨n, rfl⟩ : ∃ k, n = k + 1 := ⟨n - 1, by omega⟩
    have h1 := h1 n (by omega)
    have h2 := h2 n (by omega)
    simp only [run] at h1 h2
    simp [run, dictItems, h1, h2, expect_cons _ _ hnb, expect_cons _ _ hnb2]
  | dictMore _ hnb _ hnb2 _ ih1 ih2 ih3 =>
    obtain ⟨N1, h1⟩ := ih1
    obtain ⟨N2, h2⟩ := ih2
    obtain ⟨N3, h3⟩ := ih3
    refine ⟨N1 + N2 + N3 + 1, fun n hn => ?_⟩
    obtain ⟨n, rfl⟩ : ∃ k, n = k + 1 := ⟨n - 1, by omega⟩
    have h1 := h1 n (by omega)
    have h2 := h2 n (by omega)
    have h3 := h3 n (by omega)
    simp only [run] at h1 h2 h3
    simp [run, dictItems, h1, h2, h3, expect_cons _ _ hnb, expect_cons _ _ hnb2]

/-- `x` is `y`, or has no answer yet. -/
def Res.le {α : Type} (x y : Res α) : Prop := x = .diverge ∨ y = x

theorem Res.le_refl {α : Type} (x : Res α) : x.le x := .inr rfl

theorem Res.bind_le {α β : Type} {x y : Res α} {f g : α → Res β} (h : x.le y)
    (hf : ∀ a, (f a).le (g a)) : (x >>= f).le (y >>= g) := by
  rcases h with h | h
  · left; simp [h]
  · subst h
    cases y with
    | ok a => simpa using hf a
    | throw => right; simp
    | diverge => left; simp

theorem run_mono {K : Type} (L : NumLex K) (n : Nat) (c : Cat K) (ts : List Tok) :
    (run L n c ts).le (run L (n + 1) c ts) := by
  induction n generalizing c ts with
  | zero => cases c <;> simp [run, parseExpr, opLoop, parseToken, arrayItems, dictItems, Res.le]
  | succ n ih =>
    have iE := fun m ts => ih (.expr m) ts
    have iL := fun m M t ts => ih (.loop m M t) ts
    have iT := fun ts => ih .tok ts
    have iA := fun acc ts => ih (.arr acc) ts
    have iD := fun acc ts => ih (.dict acc) ts
    simp only [run] at iE iL iT iA iD
    cases c with
    | expr m =>
      simp only [run]
      rw [parseExpr, parseExpr]
      exact Res.bind_le (iT _) fun _ => iL _ _ _ _
    | loop m M t =>
      simp only [run]
      rw [opLoop.eq_def L (n + 1), opLoop.eq_def L (n + 1 + 1)]
      dsimp only
      split
      · exact Res.le_refl _
      · split
        · exact Res.le_refl _
        · split
          · exact Res.le_refl _
          · refine Res.bind_le (Res.le_refl _) fun ts1 => ?_
            split
            · exact Res.le_refl _
            · split
              · exact Res.bind_le (iE _ _) fun _ => Res.bind_le (Res.le_refl _) fun _ => iL _ _ _ _
              · exact Res.bind_le (iE _ _) fun _ => iL _ _ _ _
    | tok =>
      simp only [run]
      rw [parseToken, parseToken]
      refine Res.bind_le (Res.le_refl _) fun tl => ?_
      split
      · exact Res.le_refl _
      · split
        · exact Res.le_refl _
        · split
          · exact iE _ _
          · exact Res.bind_le (iE _ _) fun _ => Res.le_refl _
          · exact Res.bind_le (iE _ _) fun _ => Res.le_refl _
          · split
            · exact Res.le_refl _
            · exact iA _ _
          · split
            · exact Res.le_refl _
            · exact iD _ _
          · exact Res.bind_le (iE _ _) fun _ => Res.le_refl _
          · exact Res.le_refl _
    | arr acc =>
      simp only [run]
      rw [arrayItems, arrayItems]
      refine Res.bind_le (iE _ _) fun p => ?_
      split
      split
      · exact Res.le_refl _
      · exact Res.bind_le (Res.le_refl _) fun _ => iA _ _
    | dict acc =>
      simp only [run]
      rw [dictItems, dictItems]
      refine Res.bind_le (iE _ _) fun p => ?_
      split
      split
      · refine Res.bind_le (Res.le_refl _) fun _ => Res.bind_le (iE _ _) fun p => ?_
        split
        split
        · exact Res.le_refl _
        · exact Res.bind_le (Res.le_refl _) fun _ => iD _ _
      · exact Res.le_refl _

theorem run_mono' {K : Type} (L : NumLex K) (n k : Nat) (c : Cat K) (ts : List Tok)
    (h : run L n c ts ≠ .diverge) : run L (n + k) c ts = run L n c ts := by
  induction k with
  | zero => rfl
  | succ k ih =>
    rcases run_mono L (n + k) c ts with h1 | h1
    · rw [ih] at h1; exact absurd h1 h
    · rw [← ih, ← h1]; rfl

/-- With enough fuel the answer does not depend on the fuel. -/
theorem run_det {K : Type} (L : NumLex K) (n m : Nat) (c : Cat K) (ts : List Tok)
    (hn : run L n c ts ≠ .diverge) (hm : 3 * ts.length + c.slack ≤ m) :
    run L m c ts = run L n c ts := by
  have h2 := run_terminates L m c ts hm
  rcases Nat.le_total n m with h | h
  · obtain ⟨k, rfl⟩ := Nat.exists_eq_add_of_le h
    exact run_mono' L n k c ts hn
  · obtain ⟨k, rfl⟩ := Nat.exists_eq_add_of_le h
    exact (run_mono' L m k c ts h2).symm

end Stator
