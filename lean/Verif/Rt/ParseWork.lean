import Verif.Rt.ParserProps

/-!
# The work done by the parser

`Rt/Parse` with a counter: every call of `parseExpression` and `parseToken` and every turn of their loops is counted, whether the
call returns, throws or runs out of fuel.
-/

namespace Stator

/-- The number of calls so far, and the outcome. -/
def Counted (α : Type) : Type := Nat × Res α

namespace Counted

/-- Sequencing: the counts add up. -/
def bind {α β : Type} (x : Counted α) (f : α → Counted β) : Counted β :=
  match x with
  | (n, .ok a) => (n + (f a).1, (f a).2)
  | (n, .throw) => (n, .throw)
  | (n, .diverge) => (n, .diverge)

instance : Monad Counted where
  pure a := (0, .ok a)
  bind := bind

/-- One call. -/
def tick : Counted Unit := (1, .ok ())

/-- A step that is not counted. -/
def lift {α : Type} (x : Res α) : Counted α := (0, x)

end Counted

open Counted

mutual

/-- `parseExpression(minLBP)`. models: parser.hpp:562-606. -/
def parseExprC {K : Type} (L : NumLex K) (fuel : Nat) (minLBP : Int) (ts : List Tok) :
    Counted (Expr K × List Tok) :=
  match fuel with
  | 0 => (0, .diverge)
  | n + 1 => do
    tick
    let (t, ts) ← parseTokenC L n ts
    opLoopC L n minLBP intMax t ts

/-- The `while(true)` loop of `parseExpression`, with the loop variables `t` and `maxLBP`.
models: parser.hpp:575-603 (and `BinaryOpToken::apply`, 315-324). -/
def opLoopC {K : Type} (L : NumLex K) (fuel : Nat) (minLBP maxLBP : Int) (t : Expr K)
    (ts : List Tok) : Counted (Expr K × List Tok) :=
  match fuel with
  | 0 => (0, .diverge)
  | n + 1 => do
    tick
    match ts with
    | [] => lift (.ok (t, []))
    | tok :: _ =>
      match rightOp tok with
      | none => lift .throw
      | some o =>
        if minLBP > o.lbp ∨ o.lbp > maxLBP then lift (.ok (t, ts))
        else do
          let ts ← lift (consume ts)
          match o with
          | .halt => lift .throw
          | .bin b =>
            if b.wrapped then
              let (r, ts) ← parseExprC L n 0 ts
              let ts ← lift (expect (.sym b.closer) ts)
              opLoopC L n minLBP b.nbp (.bin b t r) ts
            else
              let (r, ts) ← parseExprC L n b.rbp ts
              opLoopC L n minLBP b.nbp (.bin b t r) ts

/-- `parseToken()`. models: parser.hpp:482-517 and the `apply` of the left operators, 339-474. -/
def parseTokenC {K : Type} (L : NumLex K) (fuel : Nat) (ts : List Tok) :
    Counted (Expr K × List Tok) :=
  match fuel with
  | 0 => (0, .diverge)
  | n + 1 => do
    tick
    let rest ← lift (consume ts)
    match ts with
    | [] => lift .throw
    | tok :: _ =>
      match tok with
      | .num s => lift (.ok (.const (L.ofLit s), rest))
      | tok =>
        match leftOp tok with
        | some .skip => parseExprC L n 21 rest
        | some .minus => do
          let (e, ts) ← parseExprC L n 21 rest
          lift (.ok (negate L e, ts))
        | some .paren => do
          let (e, ts) ← parseExprC L n 0 rest
          let ts ← lift (expect (.sym [')']) ts)
          lift (.ok (e, ts))
        | some .array =>
          if rest.head? = some (Tok.sym [']']) then do
            let ts ← lift (consume rest)
            lift (.ok (.arr [], ts))
          else arrayItemsC L n [] rest
        | some .dict =>
          if rest.head? = some (Tok.sym ['}']) then do
            let ts ← lift (consume rest)
            lift (.ok (.dict [], ts))
          else dictItemsC L n [] rest
        | some (.fn o) => do
          let (e, ts) ← parseExprC L n o.bp rest
          lift (.ok (.un o e, ts))
        | none =>
          match tok with
          | .word s => lift (.ok (.var s, rest))
          | _ => lift .throw

/-- The loop of `ArrayToken::apply`; `acc` are the elements pushed so far.
models: parser.hpp:367-377. -/
def arrayItemsC {K : Type} (L : NumLex K) (fuel : Nat) (acc : List (Expr K)) (ts : List Tok) :
    Counted (Expr K × List Tok) :=
  match fuel with
  | 0 => (0, .diverge)
  | n + 1 => do
    tick
    let (e, ts) ← parseExprC L n 0 ts
    if ts.head? = some (Tok.sym [']']) then do
      let ts ← lift (expect (.sym [']']) ts)
      lift (.ok (.arr (acc ++ [e]), ts))
    else do
      let ts ← lift (expect (.sym [',']) ts)
      arrayItemsC L n (acc ++ [e]) ts

/-- The loop of `DictToken::apply`; `acc` are the entries so far.
models: parser.hpp:400-414. -/
def dictItemsC {K : Type} (L : NumLex K) (fuel : Nat) (acc : List (List Char × Expr K))
    (ts : List Tok) : Counted (Expr K × List Tok) :=
  match fuel with
  | 0 => (0, .diverge)
  | n + 1 => do
    tick
    let (k, ts) ← parseExprC L n 0 ts
    match k with
    | .var key => do
      let ts ← lift (expect (.sym [':']) ts)
      let (v, ts) ← parseExprC L n 0 ts
      if ts.head? = some (Tok.sym ['}']) then do
        let ts ← lift (expect (.sym ['}']) ts)
        lift (.ok (.dict (dictSet acc key v), ts))
      else do
        let ts ← lift (expect (.sym [',']) ts)
        dictItemsC L n (dictSet acc key v) ts
    | _ => lift .throw
end

/-- `Expr(const std::string&)` without `simplify`, counted. models: parser.hpp:615-627. -/
def parseStringC {K : Type} (L : NumLex K) (fuel : Nat) (s : List Char) : Counted (Expr K) :=
  if (lex s).head? = some .bad then lift .throw
  else do
    let (e, rest) ← parseExprC L fuel 0 (lex s)
    if rest.isEmpty then lift (.ok e) else lift .throw

/-! ## The counter does not change the outcome -/

@[simp] theorem Counted.bind_snd {α β : Type} (x : Counted α) (f : α → Counted β) :
    (x >>= f).2 = (x.2 >>= fun a => (f a).2) := by
  obtain ⟨n, x⟩ := x
  cases x <;> rfl

@[simp] theorem Counted.lift_snd {α : Type} (x : Res α) : (lift x).2 = x := rfl
@[simp] theorem Counted.tick_snd : tick.2 = .ok () := rfl
@[simp] theorem Counted.ite_snd {α : Type} (p : Prop) [Decidable p] (x y : Counted α) :
    (if p then x else y).2 = if p then x.2 else y.2 := by split <;> rfl

/-- The five routines as one function. -/
def runC {K : Type} (L : NumLex K) (n : Nat) : Cat K → List Tok → Counted (Expr K × List Tok)
  | .expr m => parseExprC L n m
  | .loop m M t => opLoopC L n m M t
  | .tok => parseTokenC L n
  | .arr acc => arrayItemsC L n acc
  | .dict acc => dictItemsC L n acc

theorem runC_snd {K : Type} (L : NumLex K) (n : Nat) (c : Cat K) (ts : List Tok) : (runC L n c ts).2 = run L n c ts := by
  induction n generalizing c ts with
  | zero => cases c <;> rfl
  | succ n ih =>
    have iE := fun m ts => ih (.expr m) ts
    have iL := fun m M t ts => ih (.loop m M t) ts
    have iT := fun ts => ih .tok ts
    have iA := fun acc ts => ih (.arr acc) ts
    have iD := fun acc ts => ih (.dict acc) ts
    simp only [runC, run] at iE iL iT iA iD
    cases c with
    | expr m => simp only [runC, run, parseExprC, parseExpr, bind_snd, tick_snd, Res.ok_bind, iT, iL]
    | loop m M t =>
      simp only [runC, run, opLoopC, opLoop, bind_snd, tick_snd, Res.ok_bind]
      cases ts with
      | nil => rfl
      | cons tok tl =>
        cases h : rightOp tok with
        | none => simp only [h, lift_snd]
        | some o =>
          simp only [h, ite_snd, lift_snd, bind_snd]
          split
          · rfl
          · congr 1; funext ts1
            cases o with
            | halt => rfl
            | bin b => simp only [ite_snd, bind_snd, lift_snd, iE, iL]
    | tok =>
      simp only [runC, run, parseTokenC, parseToken, bind_snd, tick_snd, Res.ok_bind, lift_snd]
      congr 1; funext rest
      cases ts with
      | nil => rfl
      | cons tok tl =>
        have key : ∀ tok : Tok, (match leftOp tok with
          | some .skip => parseExprC L n 21 rest
          | some .minus => do
            let (e, ts) ← parseExprC L n 21 rest
            lift (.ok (negate L e, ts))
          | some .paren => do
            let (e, ts) ← parseExprC L n 0 rest
            let ts ← lift (expect (.sym [')']) ts)
            lift (.ok (e, ts))
          | some .array =>
            if rest.head? = some (Tok.sym [']']) then do
              let ts ← lift (consume rest)
              lift (.ok (.arr [], ts))
            else arrayItemsC L n [] rest
          | some .dict =>
            if rest.head? = some (Tok.sym ['}']) then do
              let ts ← lift (consume rest)
              lift (.ok (.dict [], ts))
            else dictItemsC L n [] rest
          | some (.fn o) => do
            let (e, ts) ← parseExprC L n o.bp rest
            lift (.ok (.un o e, ts))
          | none =>
            match tok with
            | .word s => lift (.ok (.var s, rest))
            | _ => lift .throw).2 = (match leftOp tok with
          | some .skip => parseExpr L n 21 rest
          | some .minus => do
            let (e, ts) ← parseExpr L n 21 rest
            .ok (negate L e, ts)
          | some .paren => do
            let (e, ts) ← parseExpr L n 0 rest
            let ts ← expect (.sym [')']) ts
            .ok (e, ts)
          | some .array =>
            if rest.head? = some (Tok.sym [']']) then do
              let ts ← consume rest
              .ok (.arr [], ts)
            else arrayItems L n [] rest
          | some .dict =>
            if rest.head? = some (Tok.sym ['}']) then do
              let ts ← consume rest
              .ok (.dict [], ts)
            else dictItems L n [] rest
          | some (.fn o) => do
            let (e, ts) ← parseExpr L n o.bp rest
            .ok (.un o e, ts)
          | none =>
            match tok with
            | .word s => .ok (.var s, rest)
            | _ => .throw) := by
          intro tok
          cases h : leftOp tok with
          | none => cases tok <;> rfl
          | some o => cases o <;> simp only [ite_snd, bind_snd, lift_snd, iE, iA, iD]
        cases tok with
        | num t => rfl
        | word w => exact key (.word w)
        | sym w => exact key (.sym w)
        | bad => exact key .bad
    | arr acc =>
      simp only [runC, run, arrayItemsC, arrayItems, bind_snd, tick_snd, Res.ok_bind, lift_snd, ite_snd, iE, iA]
    | dict acc =>
      simp only [runC, run, dictItemsC, dictItems, bind_snd, tick_snd, Res.ok_bind, iE]
      congr 1; funext p
      obtain ⟨k, ts1⟩ := p
      cases k <;> simp only [bind_snd, lift_snd, ite_snd, iE, iD]

/-! ## The number of calls -/

/-- If the step succeeds then its calls, and three for each token of the rest, are within `A`; if it does not, its calls are within
`B`. -/
def Use {α : Type} (x : Counted α) (len : α → Nat) (A B : Int) : Prop :=
  (∀ a, x.2 = .ok a → (x.1 : Int) + 3 * len a ≤ A) ∧ ((∀ a, x.2 ≠ .ok a) → (x.1 : Int) ≤ B)

namespace Use

variable {α β : Type} {len : α → Nat} {len2 : β → Nat}

theorem ok {a : α} {A B : Int} (h : 3 * (len a : Int) ≤ A) : Use (lift (.ok a)) len A B :=
  ⟨fun b hb => (by cases hb; simpa [lift] using h), fun h => absurd rfl (h a)⟩

theorem throw {A B : Int} (h : 0 ≤ B) : Use (lift .throw : Counted α) len A B :=
  ⟨fun b hb => (by cases hb), fun _ => by simpa [lift] using h⟩

theorem diverge {A B : Int} (h : 0 ≤ B) : Use ((0, .diverge) : Counted α) len A B :=
  ⟨fun b hb => (by cases hb), fun _ => by simpa using h⟩

theorem mono {x : Counted α} {A B A' B' : Int} (h : Use x len A B) (hA : A ≤ A') (hB : B ≤ B') : Use x len A' B' :=
  ⟨fun a ha => Int.le_trans (h.1 a ha) hA, fun hn => Int.le_trans (h.2 hn) hB⟩

theorem bind {x : Counted α} {f : α → Counted β} {A1 B1 A B : Int} (hx : Use x len A1 B1) (hB : B1 ≤ B)
    (hf : ∀ a, x.2 = .ok a → Use (f a) len2 (A - (A1 - 3 * len a)) (B - (A1 - 3 * len a))) : Use (x >>= f) len2 A B := by
  obtain ⟨n, x⟩ := x
  cases x with
  | ok a =>
    have h1 := hx.1 a rfl
    have hf := hf a rfl
    refine ⟨fun b hb => ?_, fun hn => ?_⟩
    · have := hf.1 b hb
      show ((n + (f a).1 : Nat) : Int) + _ ≤ _
      push_cast
      dsimp only at h1
      omega
    · have := hf.2 hn
      show ((n + (f a).1 : Nat) : Int) ≤ _
      push_cast
      dsimp only at h1
      omega
  | throw => exact ⟨fun b hb => (by cases hb), fun _ => Int.le_trans (hx.2 (by intro a h; cases h)) hB⟩
  | diverge => exact ⟨fun b hb => (by cases hb), fun _ => Int.le_trans (hx.2 (by intro a h; cases h)) hB⟩

theorem lift_bind {r : Res α} {f : α → Counted β} {A B : Int} (hB : 0 ≤ B) (hf : ∀ a, r = .ok a → Use (f a) len2 A B) :
    Use (lift r >>= f) len2 A B := by
  cases r with
  | ok a =>
    have := hf a rfl
    simpa [Use, lift, Bind.bind, Counted.bind] using this
  | throw => exact ⟨fun b hb => (by cases hb), fun _ => hB⟩
  | diverge => exact ⟨fun b hb => (by cases hb), fun _ => hB⟩

theorem tick_bind {f : Unit → Counted β} {A B : Int} (hf : Use (f ()) len2 (A - 1) (B - 1)) : Use (tick >>= f) len2 A B := by
  refine ⟨fun b hb => ?_, fun hn => ?_⟩
  · have := hf.1 b hb
    show ((1 + (f ()).1 : Nat) : Int) + _ ≤ _
    push_cast; omega
  · have := hf.2 hn
    show ((1 + (f ()).1 : Nat) : Int) ≤ _
    push_cast; omega

end Use

/-- The length of the rest. -/
def restLen {K : Type} (p : Expr K × List Tok) : Nat := p.2.length

/-- How many calls a routine may make over three for each token it consumes. -/
def Cat.over {K : Type} : Cat K → Int
  | .expr _ => 0
  | .loop _ _ _ => 1
  | .tok => -2
  | .arr _ => -2
  | .dict _ => -2

/-- How many calls a routine that fails may make over three for each token. -/
def Cat.fails {K : Type} : Cat K → Int
  | .expr _ => 2
  | .loop _ _ _ => 1
  | .tok => 1
  | .arr _ => 3
  | .dict _ => 3

theorem consume_len {t : Tok} {ts rest : List Tok} (h : consume (t :: ts) = .ok rest) : rest.length = ts.length := by
  cases ts with
  | nil => cases h; rfl
  | cons u us => cases u <;> cases h <;> rfl

theorem expect_len {t : Tok} {ts rest : List Tok} (h : expect t ts = .ok rest) : rest.length + 1 = ts.length := by
  unfold expect at h
  split at h
  · cases ts with
    | nil => simp_all
    | cons u us => simpa using consume_len h
  · cases h

theorem runC_use {K : Type} (L : NumLex K) (n : Nat) (c : Cat K) (ts : List Tok) :
    Use (runC L n c ts) restLen (3 * ts.length + c.over) (3 * ts.length + c.fails) := by
  induction n generalizing c ts with
  | zero =>
    have : runC L 0 c ts = (0, .diverge) := by cases c <;> (simp only [runC]; first | rw [parseExprC] | rw [opLoopC] | rw [parseTokenC] | rw [arrayItemsC] | rw [dictItemsC])
    rw [this]
    exact Use.diverge (by cases c <;> simp only [Cat.fails] <;> omega)
  | succ n ih =>
    have iE := fun m ts => ih (.expr m) ts
    have iL := fun m M t ts => ih (.loop m M t) ts
    have iT := fun ts => ih .tok ts
    have iA := fun acc ts => ih (.arr acc) ts
    have iD := fun acc ts => ih (.dict acc) ts
    simp only [runC, Cat.over, Cat.fails] at iE iL iT iA iD
    cases c with
    | expr m =>
      simp only [runC, Cat.over, Cat.fails]
      rw [parseExprC]
      refine Use.tick_bind (Use.bind (iT ts) (by omega) ?_)
      rintro ⟨t, ts1⟩ -
      exact (iL _ _ _ _).mono (by simp only [restLen] at *; omega) (by simp only [restLen] at *; omega)
    | loop m M t =>
      simp only [runC, Cat.over, Cat.fails]
      rw [opLoopC.eq_def]
      dsimp only
      refine Use.tick_bind ?_
      cases ts with
      | nil => exact Use.ok (by simp [restLen])
      | cons tok tl =>
        cases h : rightOp tok with
        | none => simp only [h]; exact Use.throw (by omega)
        | some o =>
          simp only [h]
          split
          · exact Use.ok (by simp only [restLen] at *; omega)
          · refine Use.lift_bind (by omega) fun ts1 h1 => ?_
            have l1 := consume_len h1
            have l0 : (tok :: tl).length = tl.length + 1 := rfl
            cases o with
            | halt => exact Use.throw (by omega)
            | bin b =>
              dsimp only
              split
              · refine Use.bind (iE _ _) (by omega) ?_
                rintro ⟨r, ts2⟩ -
                refine Use.lift_bind (by simp only [restLen] at *; omega) fun ts3 h3 => ?_
                have l3 := expect_len h3
                exact (iL _ _ _ _).mono (by simp only [restLen] at *; omega) (by simp only [restLen] at *; omega)
              · refine Use.bind (iE _ _) (by omega) ?_
                rintro ⟨r, ts2⟩ -
                exact (iL _ _ _ _).mono (by simp only [restLen] at *; omega) (by simp only [restLen] at *; omega)
    | tok =>
      simp only [runC, Cat.over, Cat.fails]
      rw [parseTokenC]
      refine Use.tick_bind (Use.lift_bind (by omega) fun rest hr => ?_)
      cases ts with
      | nil => exact Use.throw (by omega)
      | cons tok tl =>
        have l1 := consume_len hr
        have l0 : (tok :: tl).length = tl.length + 1 := rfl
        dsimp only
        split
        · exact Use.ok (by simp only [restLen] at *; omega)
        · split
          · exact (iE _ _).mono (by omega) (by omega)
          · refine Use.bind (iE _ _) (by omega) ?_
            rintro ⟨r, ts2⟩ -
            exact Use.ok (by simp only [restLen] at *; omega)
          · refine Use.bind (iE _ _) (by omega) ?_
            rintro ⟨r, ts2⟩ -
            refine Use.lift_bind (by simp only [restLen] at *; omega) fun ts3 h3 => ?_
            have l3 := expect_len h3
            exact Use.ok (by simp only [restLen] at *; omega)
          · split
            · refine Use.lift_bind (by omega) fun ts3 h3 => ?_
              have l3 : ts3.length ≤ rest.length := by
                cases rest with
                | nil => cases h3; simp
                | cons u us => have := consume_len h3; simp only [List.length_cons]; omega
              exact Use.ok (by simp only [restLen] at *; omega)
            · exact (iA _ _).mono (by omega) (by omega)
          · split
            · refine Use.lift_bind (by omega) fun ts3 h3 => ?_
              have l3 : ts3.length ≤ rest.length := by
                cases rest with
                | nil => cases h3; simp
                | cons u us => have := consume_len h3; simp only [List.length_cons]; omega
              exact Use.ok (by simp only [restLen] at *; omega)
            · exact (iD _ _).mono (by omega) (by omega)
          · refine Use.bind (iE _ _) (by omega) ?_
            rintro ⟨r, ts2⟩ -
            exact Use.ok (by simp only [restLen] at *; omega)
          · split
            · exact Use.ok (by simp only [restLen] at *; omega)
            · exact Use.throw (by omega)
    | arr acc =>
      simp only [runC, Cat.over, Cat.fails]
      rw [arrayItemsC]
      refine Use.tick_bind (Use.bind (iE _ _) (by omega) ?_)
      rintro ⟨r, ts1⟩ -
      dsimp only
      split
      · refine Use.lift_bind (by simp only [restLen] at *; omega) fun ts3 h3 => ?_
        have l3 := expect_len h3
        exact Use.ok (by simp only [restLen] at *; omega)
      · refine Use.lift_bind (by simp only [restLen] at *; omega) fun ts3 h3 => ?_
        have l3 := expect_len h3
        exact (iA _ _).mono (by simp only [restLen] at *; omega) (by simp only [restLen] at *; omega)
    | dict acc =>
      simp only [runC, Cat.over, Cat.fails]
      rw [dictItemsC]
      refine Use.tick_bind (Use.bind (iE _ _) (by omega) ?_)
      rintro ⟨r, ts1⟩ -
      dsimp only
      split
      · refine Use.lift_bind (by simp only [restLen] at *; omega) fun ts2 h2 => ?_
        have l2 := expect_len h2
        refine Use.bind (iE _ _) (by simp only [restLen] at *; omega) ?_
        rintro ⟨v, ts3⟩ -
        dsimp only
        split
        · refine Use.lift_bind (by simp only [restLen] at *; omega) fun ts4 h4 => ?_
          have l4 := expect_len h4
          exact Use.ok (by simp only [restLen] at *; omega)
        · refine Use.lift_bind (by simp only [restLen] at *; omega) fun ts4 h4 => ?_
          have l4 := expect_len h4
          exact (iD _ _).mono (by simp only [restLen] at *; omega) (by simp only [restLen] at *; omega)
      · exact Use.throw (by simp only [restLen] at *; omega)

/-- The counted parser is the parser: its outcome is that of `parseString`. -/
theorem C01_same_result {K : Type} (L : NumLex K) (fuel : Nat) (s : List Char) : (parseStringC L fuel s).2 = parseString L fuel s := by
  have h := runC_snd L fuel (.expr 0) (lex s)
  simp only [runC, run] at h
  unfold parseStringC parseString parseToks
  cases hl : lex s with
  | nil => rw [hl] at h; simp only [ite_snd, bind_snd, lift_snd, h]; simp
  | cons t ts =>
    rw [hl] at h
    cases t <;> simp [ite_snd, bind_snd, lift_snd, h]

/-- Whatever the text, and whether it is accepted or refused, the parser makes at most three calls for each character, and two: the
work of recognising a text is linear in its length. -/
theorem C01_calls {K : Type} (L : NumLex K) (fuel : Nat) (s : List Char) : (parseStringC L fuel s).1 ≤ 3 * s.length + 2 := by
  have hl := lex_length s
  have h := runC_use L fuel (.expr 0) (lex s)
  simp only [runC, Cat.over, Cat.fails] at h
  unfold parseStringC
  split
  · simp [lift]
  · have : Use (parseExprC L fuel 0 (lex s) >>= fun p => if p.2.isEmpty then lift (.ok p.1) else lift .throw) (fun _ => 0)
        (3 * (lex s).length + 2) (3 * (lex s).length + 2) := by
      refine Use.bind h (by omega) ?_
      rintro ⟨e, rest⟩ -
      dsimp only
      split
      · exact Use.ok (by simp only [restLen] at *; omega)
      · exact Use.throw (by simp only [restLen] at *; omega)
    generalize hx : (parseExprC L fuel 0 (lex s) >>= fun p => if p.2.isEmpty then lift (.ok p.1) else lift .throw) = x at this
    show x.1 ≤ _
    rcases hr : x.2 with a | _ | _
    · have := this.1 a hr; omega
    · have := this.2 (by rw [hr]; intro a h; cases h); omega
    · have := this.2 (by rw [hr]; intro a h; cases h); omega

/-- The bound is met: the empty text is refused after two calls. -/
example : parseStringC (K := Unit) ⟨fun _ => (), id⟩ 5 [] = (2, .throw) := by
  have h : lex [] = [] := by rw [lex_eq_fuel 1 _ (by simp)]; rfl
  unfold parseStringC; rw [h]; rfl

/-- `x+(y` is refused after eight calls (`x`, `+`, `(`, `y` and the missing bracket; at most fourteen). -/
example : (parseStringC (K := Unit) ⟨fun _ => (), id⟩ 40 ['x', '+', '(', 'y']).1 = 8 ∧
    parseString (K := Unit) ⟨fun _ => (), id⟩ 40 ['x', '+', '(', 'y'] = .throw := by
  have h : lex ['x', '+', '(', 'y'] = [.word ['x'], .sym ['+'], .sym ['('], .word ['y']] := by
    rw [lex_eq_fuel 9 _ (by simp)]; rfl
  constructor
  · unfold parseStringC; rw [h]; rfl
  · unfold parseString; rw [h]; rfl

end Stator
