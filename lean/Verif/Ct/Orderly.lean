import Verif.Ct.Configs

/-!
# The values of expressions simplified by `simplify`, `N` and `expand` (C100)
-/

namespace Stator.Ct.Expand

open C (val_neg val_add val_sub val_mul val_div val_null val_unity)
open Stator.Pol (Arr rd wr forUp zeros addOp mulPoly divConst mulVar varPow value polyOf coef)

/-! ## Specification -/

/-- The variable `v` occurs in a polynomial of the expression, or, if `q`, anywhere in it. -/
def X.seen (q : Bool) (v : List Char) : X → Prop
  | .var u => q = true ∧ u = v
  | .polyZ u _ _ => u = v
  | .polyR u _ _ => u = v
  | .bin _ l r => l.seen q v ∨ r.seen q v
  | .neg a => a.seen q v
  | .pow a _ => a.seen q v
  | _ => False

/-- `X.tame`, for the variables that are seen. -/
def X.orderly (q : Bool) : X → Prop
  | .bin .mul l r => l.orderly q ∧ r.orderly q ∧ Compat (fun v => l.seen q v) (fun v => r.seen q v)
  | .bin .div l r => l.orderly q ∧ r.orderly q ∧ r.real
  | .bin _ l r => l.orderly q ∧ r.orderly q
  | .neg a => a.orderly q
  | .pow a _ => a.orderly q ∧ ∃ x, ∀ v, a.seen q v → v = x
  | _ => True

/-! ## Proofs -/

variable {q : Bool}

/-- `r` can stand for `e`. -/
structure Kept (q : Bool) (e r : X) : Prop where
  uses : ∀ v, r.uses v → e.uses v
  seen : ∀ v, r.seen q v → e.seen q v
  orderly : r.orderly q
  real : e.real → r.real
  val : ∀ ρ, r.val ρ = e.val ρ

theorem Kept.rfl {e : X} (h : e.orderly q) : Kept q e e := ⟨fun _ h => h, fun _ h => h, h, fun h => h, fun _ => Eq.refl _⟩

theorem Kept.trans {a b c : X} (h : Kept q a b) (h' : Kept q b c) : Kept q a c :=
  ⟨fun v hv => h.uses v (h'.uses v hv), fun v hv => h.seen v (h'.seen v hv), h'.orderly, fun hr => h'.real (h.real hr), fun ρ => (h'.val ρ).trans (h.val ρ)⟩

theorem orderly_left {o : BOp} {l r : X} (h : (X.bin o l r).orderly q) : l.orderly q := by cases o <;> exact h.1

theorem orderly_right {o : BOp} {l r : X} (h : (X.bin o l r).orderly q) : r.orderly q := by
  cases o
  · exact h.2
  · exact h.2
  · exact h.2.1
  · exact h.2.1

theorem orderly_bin {o : BOp} {l r l' r' : X} (h : (X.bin o l r).orderly q) (hl : Kept q l l') (hr : Kept q r r') : (X.bin o l' r').orderly q := by
  cases o
  · exact ⟨hl.orderly, hr.orderly⟩
  · exact ⟨hl.orderly, hr.orderly⟩
  · exact ⟨hl.orderly, hr.orderly, h.2.2.mono hl.seen hr.seen⟩
  · exact ⟨hl.orderly, hr.orderly, hr.real h.2.2⟩

/-- The operands of an operation can be replaced. -/
theorem Kept.bin {o : BOp} {l r l' r' : X} (h : (X.bin o l r).orderly q) (hl : Kept q l l') (hr : Kept q r r') :
    Kept q (.bin o l r) (.bin o l' r') :=
  ⟨fun v hv => hv.imp (hl.uses v) (hr.uses v), fun v hv => hv.imp (hl.seen v) (hr.seen v), orderly_bin h hl hr, fun hv => ⟨hl.real hv.1, hr.real hv.2⟩, fun ρ => by
    simp only [X.val, hl.val, hr.val]⟩

theorem Kept.neg {a a' : X} (h : Kept q a a') : Kept q (.neg a) (.neg a') :=
  ⟨h.uses, h.seen, h.orderly, h.real, fun ρ => by simp only [X.val, h.val]⟩

theorem opNeg_kept {a e : X} (ha : a.orderly q) (h : opNeg a = some e) : Kept q (.neg a) e := by
  cases a with
  | c b => simp only [opNeg, Option.some.injEq] at h; subst h; exact ⟨fun _ h => h, fun _ h => h, trivial, fun _ => trivial, fun ρ => by simp [X.val, val_neg]⟩
  | int z => simp only [opNeg, Option.some.injEq] at h; subst h; exact ⟨fun _ h => h, fun _ h => h, trivial, fun h => h, fun ρ => by simp [X.val]⟩
  | dbl y => simp only [opNeg, Option.some.injEq] at h; subst h; exact ⟨fun _ h => h, fun _ h => h, trivial, fun h => h, fun ρ => by simp [X.val]⟩
  | polyZ v n f =>
    simp only [opNeg, Option.map_eq_some_iff] at h
    obtain ⟨g, hg, rfl⟩ := h
    exact ⟨fun _ h => h, fun _ h => h, trivial, fun h => h, fun ρ => by simp [X.val, neg_poly f g hg]⟩
  | polyR v n f =>
    simp only [opNeg, Option.map_eq_some_iff] at h
    obtain ⟨g, hg, rfl⟩ := h
    exact ⟨fun _ h => h, fun _ h => h, trivial, fun h => h, fun ρ => by simp [X.val, neg_poly f g hg]⟩
  | var v => simp only [opNeg, Option.some.injEq] at h; subst h; exact .rfl ha
  | bin o l r => simp only [opNeg, Option.some.injEq] at h; subst h; exact .rfl ha
  | neg b => simp only [opNeg, Option.some.injEq] at h; subst h; exact .rfl ha
  | pow b p => simp only [opNeg, Option.some.injEq] at h; subst h; exact .rfl ha

theorem node_kept {o : BOp} {l r e : X} (ht : (X.bin o l r).orderly q) (h : node o l r = some e) : Kept q (.bin o l r) e := by
  unfold node at h
  split at h
  · rename_i a b ha hb
    split at h
    · rename_i i j
      simp only [Option.map_eq_some_iff] at h
      obtain ⟨z, hz, rfl⟩ := h
      have ho : o ≠ .div := by rintro rfl; exact ht.2.2
      exact ⟨fun v hv => hv.elim, fun v hv => hv.elim, trivial, fun hr => hr.1.elim, fun ρ => intOp_val ho hz⟩
    · simp only [Option.map_eq_some_iff] at h
      obtain ⟨y, hy, rfl⟩ := h
      exact ⟨fun v hv => hv.elim, fun v hv => hv.elim, trivial, fun hr => trivial, fun ρ => by
        simp only [X.val]
        rw [number_val ha, number_val hb]
        exact realOp_val hy⟩
  · cases h
    exact .rfl ht

theorem apply_kept {o : BOp} {l r e : X} (ht : (X.bin o l r).orderly q) (h : apply o l r = some e) : Kept q (.bin o l r) e := by
  unfold apply at h
  split at h
  · rename_i a b
    cases o with
    | add => cases h; exact ⟨fun v hv => hv.elim, fun v hv => hv.elim, trivial, fun _ => trivial, fun ρ => by simp [X.val, BOp.real, val_add]⟩
    | sub => cases h; exact ⟨fun v hv => hv.elim, fun v hv => hv.elim, trivial, fun _ => trivial, fun ρ => by simp [X.val, BOp.real, val_sub]⟩
    | mul => cases h; exact ⟨fun v hv => hv.elim, fun v hv => hv.elim, trivial, fun _ => trivial, fun ρ => by simp [X.val, BOp.real, val_mul]⟩
    | div =>
      simp only [Option.map_eq_some_iff] at h
      obtain ⟨c, hc, rfl⟩ := h
      exact ⟨fun v hv => hv.elim, fun v hv => hv.elim, trivial, fun _ => trivial, fun ρ => by simp [X.val, BOp.real, (val_div hc).2]⟩
  · cases o with
    | add =>
      dsimp only at h
      split_ifs at h with h1 h2
      · cases h; obtain rfl := isC_eq h1
        exact ⟨fun v hv => .inl hv, fun v hv => .inl hv, orderly_left ht, fun hr => hr.1, fun ρ => by simp [X.val, BOp.real, val_null]⟩
      · cases h; obtain rfl := isC_eq h2
        exact ⟨fun v hv => .inr hv, fun v hv => .inr hv, orderly_right ht, fun hr => hr.2, fun ρ => by simp [X.val, BOp.real, val_null]⟩
      · exact node_kept ht h
    | sub =>
      dsimp only at h
      split_ifs at h with h1 h2
      · cases h; obtain rfl := isC_eq h1
        exact ⟨fun v hv => .inl hv, fun v hv => .inl hv, orderly_left ht, fun hr => hr.1, fun ρ => by simp [X.val, BOp.real, val_null]⟩
      · obtain rfl := isC_eq h2
        have k := opNeg_kept (orderly_right ht) h
        exact ⟨fun v hv => .inr (k.uses v hv), fun v hv => .inr (k.seen v hv), k.orderly, fun hr => k.real hr.2, fun ρ => by simp [k.val, X.val, BOp.real, val_null]⟩
      · exact node_kept ht h
    | mul =>
      dsimp only at h
      split_ifs at h with h1 h2 h3 h4
      · cases h; obtain rfl := isC_eq h1
        exact ⟨fun v hv => hv.elim, fun v hv => hv.elim, trivial, fun hr => trivial, fun ρ => by simp [X.val, BOp.real, val_null]⟩
      · cases h; obtain rfl := isC_eq h2
        exact ⟨fun v hv => hv.elim, fun v hv => hv.elim, trivial, fun hr => trivial, fun ρ => by simp [X.val, BOp.real, val_null]⟩
      · cases h; obtain rfl := isC_eq h3
        exact ⟨fun v hv => .inl hv, fun v hv => .inl hv, orderly_left ht, fun hr => hr.1, fun ρ => by simp [X.val, BOp.real, val_unity]⟩
      · cases h; obtain rfl := isC_eq h4
        exact ⟨fun v hv => .inr hv, fun v hv => .inr hv, orderly_right ht, fun hr => hr.2, fun ρ => by simp [X.val, BOp.real, val_unity]⟩
      · exact node_kept ht h
    | div => exact node_kept ht h

/-- The rules for two polynomials. -/
theorem rulesZ_kept {o : BOp} {u v : List Char} {n m : ℕ} {f : Arr ℤ n} {g : Arr ℤ m} {e : X}
    (ht : (X.bin o (.polyZ u n f) (.polyZ v m g)).orderly q) (h : rulesZ o u v f g = some (some e)) :
    Kept q (.bin o (.polyZ u n f) (.polyZ v m g)) e := by
  have ho : o ≠ .div := by rintro rfl; exact ht.2.2
  have huv : u = v := by
    cases o with
    | add => by_contra hc; simp [rulesZ, hc] at h
    | sub => by_contra hc; simp [rulesZ, hc] at h
    | mul => exact compat_eq ht.2.2 (by simp [X.seen]) (by simp [X.seen])
    | div => exact absurd _root_.rfl ho
  subst huv
  obtain ⟨r, er, hf, hi⟩ := rulesZ_ok o u f g ho
  rw [h] at er
  simp only [Option.some.injEq] at er
  subst er
  refine ⟨fun w hw => ?_, fun w hw => ?_, ?_, fun hr => hr.1.elim, hi⟩
  · cases hf <;> simp_all [X.uses]
  · cases hf <;> simp_all [X.seen]
  · cases hf <;> trivial

theorem rulesR_kept {o : BOp} {u v : List Char} {n m : ℕ} {f : Arr ℝ n} {g : Arr ℝ m} {e : X}
    (hm : o = .mul → u = v) (h : rulesR o u v f g = some (some e)) :
    (∀ w, e.uses w → u = w) ∧ (∀ w, e.seen q w → u = w) ∧ e.orderly q ∧ e.real ∧ Is o (.polyR u n f) (.polyR v m g) e := by
  by_cases ho : o = .div
  · subst ho
    cases m with
    | succ m => simp [rulesR] at h
    | zero =>
      simp only [rulesR, Option.some.injEq] at h
      split_ifs at h with h0
      obtain ⟨r, er, hr⟩ := Pol.C22_div_const f g
      rw [er] at h
      simp only [Option.map_some, Option.some.injEq] at h
      subst h
      refine ⟨fun w hw => hw, fun w hw => hw, trivial, trivial, fun ρ => ?_⟩
      rw [show (X.polyR v 0 g).val ρ = g 0 by simp [X.val]]
      exact hr (ρ u)
  · have huv : u = v := by
      cases o with
      | add => by_contra hc; simp [rulesR, hc] at h
      | sub => by_contra hc; simp [rulesR, hc] at h
      | mul => exact hm _root_.rfl
      | div => exact absurd _root_.rfl ho
    subst huv
    obtain ⟨k, r, er, hi⟩ := rulesR_ok o u f g fun hd => absurd hd ho
    rw [h] at er
    simp only [Option.some.injEq] at er
    subst er
    exact ⟨fun w hw => hw, fun w hw => hw, trivial, trivial, hi⟩

theorem rules_kept {o : BOp} {l r e : X} (ht : (X.bin o l r).orderly q) (h : rules o l r = some (some e)) : Kept q (.bin o l r) e := by
  unfold rules at h
  split at h
  · exact rulesZ_kept ht h
  · obtain ⟨h1, h5, h2, h3, h4⟩ := rulesR_kept (by rintro rfl; exact compat_eq ht.2.2 (by simp [X.seen]) (by simp [X.seen])) h
    exact ⟨fun w hw => .inl (h1 w hw), fun w hw => .inl (h5 w hw), h2, fun _ => h3, h4⟩
  · obtain ⟨h1, h5, h2, h3, h4⟩ := rulesR_kept (by rintro rfl; exact compat_eq ht.2.2 (by simp [X.seen]) (by simp [X.seen])) h
    exact ⟨fun w hw => .inl (h1 w hw), fun w hw => .inl (h5 w hw), h2, fun _ => h3, h4⟩
  · obtain ⟨h1, h5, h2, h3, h4⟩ := rulesR_kept (by rintro rfl; exact compat_eq ht.2.2 (by simp [X.seen]) (by simp [X.seen])) h
    exact ⟨fun w hw => .inl (h1 w hw), fun w hw => .inl (h5 w hw), h2, fun _ => h3, h4⟩
  · rename_i u n f v
    split_ifs at h with h0
    obtain ⟨rfl, rfl⟩ := h0
    obtain ⟨g, eg, hg⟩ := Pol.mulVar_spec f
    rw [eg] at h
    cases h
    exact ⟨fun w hw => .inl hw, fun w hw => .inl hw, trivial, fun hr => hr.1.elim, fun ρ => by
      simp only [val_polyZ, hg]
      simp [X.val, BOp.real, Polynomial.eval₂_mul, mul_comm, ← val_polyZ]⟩
  · rename_i u n f v
    split_ifs at h with h0
    obtain ⟨rfl, rfl⟩ := h0
    obtain ⟨g, eg, hg⟩ := Pol.mulVar_spec f
    rw [eg] at h
    cases h
    exact ⟨fun w hw => .inl hw, fun w hw => .inl hw, trivial, fun hr => hr.2.elim, fun ρ => by
      simp only [val_polyR, hg]
      simp [X.val, BOp.real, Polynomial.eval_mul, mul_comm, ← val_polyR]⟩
  · cases h

theorem varPower_seen (u : List Char) (p : ℕ) (v : List Char) (h : (varPower u p).seen q v) : q = true ∧ u = v := by
  unfold varPower at h; split_ifs at h <;> simpa [X.seen] using h

theorem varPower_orderly (u : List Char) (p : ℕ) : (varPower u p).orderly q := by
  unfold varPower; split_ifs
  · trivial
  · exact ⟨trivial, u, fun v hv => hv.2.symm⟩

theorem first_kept {o : BOp} {l r e : X} (ht : (X.bin o l r).orderly q) (h : first o l r = some e) : Kept q (.bin o l r) e := by
  unfold first at h
  split at h
  iterate 8
    cases h
    exact ⟨fun v hv => hv.elim, fun v hv => hv.elim, trivial, fun hr => by simp_all [X.real], fun ρ => by simp [X.val, BOp.real]⟩
  · split_ifs at h with h0
    subst h0; cases h
    exact ⟨fun v hv => .inl (varPower_uses _ _ _ hv), fun v hv => .inl (varPower_seen _ _ _ hv), varPower_orderly _ _, fun hr => hr.1.elim, fun ρ => by
      simp [X.val, BOp.real, varPower_val, sq]⟩
  · split_ifs at h with h0
    subst h0; cases h
    exact ⟨fun v hv => .inl (varPower_uses _ _ _ hv), fun v hv => .inl (varPower_seen _ _ _ hv), varPower_orderly _ _, fun hr => hr.1.elim, fun ρ => by
      simp [X.val, BOp.real, varPower_val, pow_succ]⟩
  · split_ifs at h with h0
    subst h0; cases h
    exact ⟨fun v hv => .inl (varPower_uses _ _ _ hv), fun v hv => .inl (varPower_seen _ _ _ hv), varPower_orderly _ _, fun hr => hr.1.elim, fun ρ => by
      simp [X.val, BOp.real, varPower_val, pow_succ']⟩
  · exact ht.2.2.elim
  · split_ifs at h with h0
    obtain ⟨rfl, -⟩ := h0; cases h
    exact ⟨fun v hv => hv.elim, fun v hv => hv.elim, trivial, fun _ => trivial, fun ρ => by simp [X.val, BOp.real]⟩
  · cases h

theorem lift_kept {o : BOp} {l r e : X} (ht : (X.bin o l r).orderly q) (h : lift o l r = some e) : Kept q (.bin o l r) e := by
  unfold lift at h
  split at h
  all_goals
    first
    | (simp at h; done)
    | (cases h
       refine ⟨fun v hv => ?_, fun v hv => ?_, ?_, fun hr => ?_, fun ρ => by
         simp [X.val]⟩
       · simp_all [X.uses]
       · simp_all [X.seen]
       · cases o <;> simp_all [X.orderly, X.real, X.seen, Compat]
       · simp_all [X.real])

theorem powSub_kept {a : X} (ha : a.orderly q) {x : List Char} (hx : ∀ v, a.seen q v → v = x) :
    ∀ {p : ℕ} {e : X}, powSub p a = some e → Kept q (.pow a p) e
  | 0, e, h => by
    cases h
    exact ⟨fun v hv => hv.elim, fun v hv => hv.elim, trivial, fun _ => trivial, fun ρ => by simp [X.val]⟩
  | 1, e, h => by
    cases h
    exact ⟨fun v hv => hv, fun v hv => hv, ha, fun hr => hr, fun ρ => by simp [X.val]⟩
  | p + 2, e, h => by
    simp only [powSub, Option.bind_eq_bind, Option.bind_eq_some_iff] at h
    obtain ⟨b, hb, h⟩ := h
    have k := powSub_kept ha hx hb
    have kt : (X.bin .mul b a).orderly q := ⟨k.orderly, ha, .inl ⟨x, fun v hv => hv.elim (fun hv => hx v (k.seen v hv)) (hx v)⟩⟩
    have k2 := apply_kept kt h
    exact ⟨fun v hv => (k2.uses v hv).elim (k.uses v) id, fun v hv => (k2.seen v hv).elim (k.seen v) id, k2.orderly, fun hr => k2.real ⟨k.real hr, hr⟩, fun ρ => by
      rw [k2.val]; simp only [X.val, BOp.real, k.val]; ring⟩

/-- `orSelf` -/
theorem orSelf_kept {s : X → Option (Option X)} (hs : ∀ e r, e.orderly q → s e = some (some r) → Kept q e r) {e r : X} (ht : e.orderly q)
    (h : orSelf e (s e) = some r) : Kept q e r := by
  simp only [orSelf, Option.map_eq_some_iff] at h
  obtain ⟨y, hq, rfl⟩ := h
  cases y with
  | none => exact .rfl ht
  | some y => exact hs e y ht hq

theorem attempt_kept {s : X → Option (Option X)} (hs : ∀ e r, e.orderly q → s e = some (some r) → Kept q e r) {e g x : X} {f : X → Option X}
    (ht : e.orderly q) (hf : ∀ d e', Kept q e d → f d = some e' → Kept q g e') (h : attempt s e f = some (some x)) : Kept q g x := by
  simp only [attempt, Option.bind_eq_bind, Option.bind_eq_some_iff] at h
  obtain ⟨y0, hq, h⟩ := h
  cases y0 with
  | none => simp at h
  | some d =>
    simp only [Option.bind_eq_some_iff] at h
    obtain ⟨e', he', y, hy, h⟩ := h
    cases h
    have k := hf d e' (hs e d ht hq) he'
    exact k.trans (orSelf_kept hs k.orderly hy)

theorem orderly_assoc {o : BOp} (ho : o = .add ∨ o = .mul) {a b c : X} (h : (X.bin o (.bin o a b) c).orderly q) :
    (X.bin o b c).orderly q ∧ (X.bin o a c).orderly q ∧ (X.bin o a (.bin o b c)).orderly q ∧ (X.bin o (.bin o a c) b).orderly q := by
  rcases ho with rfl | rfl
  · obtain ⟨⟨h1, h2⟩, h3⟩ := h
    exact ⟨⟨h2, h3⟩, ⟨h1, h3⟩, ⟨h1, h2, h3⟩, ⟨h1, h3⟩, h2⟩
  · obtain ⟨⟨h1, h2, h4⟩, h3, h5⟩ := h
    obtain ⟨c1, c2, c3, c4⟩ := h4.assoc h5
    exact ⟨⟨h2, h3, c1⟩, ⟨h1, h3, c2⟩, ⟨h1, ⟨h2, h3, c1⟩, c3⟩, ⟨h1, h3, c2⟩, h2, c4⟩

theorem orderly_comm {o : BOp} (ho : o = .add ∨ o = .mul) {a b : X} (h : (X.bin o a b).orderly q) : (X.bin o b a).orderly q := by
  rcases ho with rfl | rfl
  · exact ⟨h.2, h.1⟩
  · exact ⟨h.2.1, h.1, h.2.2.symm⟩

theorem reorder_kept {s : X → Option (Option X)} (hs : ∀ e r, e.orderly q → s e = some (some r) → Kept q e r) {o : BOp} {l r x : X}
    (ht : (X.bin o l r).orderly q) (h : reorder s o l r = some (some x)) : Kept q (.bin o l r) x := by
  unfold reorder at h
  split_ifs at h with ho
  · have val1 (a b c : ℝ) : o.real a (o.real b c) = o.real (o.real a b) c := by
      rcases ho with rfl | rfl <;> simp only [BOp.real] <;> ring
    have val2 (a b c : ℝ) : o.real (o.real a c) b = o.real (o.real a b) c := by
      rcases ho with rfl | rfl <;> simp only [BOp.real] <;> ring
    have val3 (a b c : ℝ) : o.real (o.real a c) b = o.real a (o.real b c) := by
      rcases ho with rfl | rfl <;> simp only [BOp.real] <;> ring
    -- the four rules
    have r1 : ∀ y, (onParts (l.parts o) fun a b => attempt s (.bin o b r) (fun d => apply o a d))
        = some (some y) → Kept q (.bin o l r) y := by
      intro y hy
      unfold onParts at hy
      split at hy
      · rename_i a b hp
        obtain rfl := parts_eq hp
        obtain ⟨t1, t2, t3, t4⟩ := orderly_assoc ho ht
        refine attempt_kept hs t1 (fun d e' kd he => ?_) hy
        have k := (Kept.bin t3 (.rfl (orderly_left t3)) kd)
        refine Kept.trans ⟨?_, ?_, t3, ?_, fun ρ => ?_⟩ (k.trans (apply_kept k.orderly he))
        · simp only [X.uses]; tauto
        · simp only [X.seen]; tauto
        · simp only [X.real]; tauto
        · simp only [X.val, val1]
      · simp at hy
    have r2 : ∀ y, (onParts (r.parts o) fun b c => attempt s (.bin o l b) (fun d => apply o d c))
        = some (some y) → Kept q (.bin o l r) y := by
      intro y hy
      unfold onParts at hy
      split at hy
      · rename_i b c hp
        obtain rfl := parts_eq hp
        -- `l*(b*c)` as `(b*c)*l`, `(c*b)*l`
        have t0 := orderly_comm ho ht
        obtain ⟨t1, t2, t3, t4⟩ := orderly_assoc ho t0
        have t5 : (X.bin o l b).orderly q := orderly_comm ho t2
        have t6 : (X.bin o (.bin o l b) c).orderly q := by
          rcases ho with rfl | rfl
          · exact ⟨t5, orderly_right t2 |> fun _ => orderly_right (orderly_left t0)⟩
          · refine ⟨t5, t4.2.1, t4.2.2.mono (fun v hv => ?_) (fun _ h => h)⟩
            simp only [X.seen] at hv ⊢; tauto
        refine attempt_kept hs t5 (fun d e' kd he => ?_) hy
        have k := (Kept.bin t6 kd (.rfl (orderly_right t6)))
        refine Kept.trans ⟨?_, ?_, t6, ?_, fun ρ => ?_⟩ (k.trans (apply_kept k.orderly he))
        · simp only [X.uses]; tauto
        · simp only [X.seen]; tauto
        · simp only [X.real]; tauto
        · simp only [X.val, val1]
      · simp at hy
    have r3 : ∀ y, (onParts (l.parts o) fun a b => attempt s (.bin o a r) (fun d => apply o d b))
        = some (some y) → Kept q (.bin o l r) y := by
      intro y hy
      unfold onParts at hy
      split at hy
      · rename_i a b hp
        obtain rfl := parts_eq hp
        obtain ⟨t1, t2, t3, t4⟩ := orderly_assoc ho ht
        refine attempt_kept hs t2 (fun d e' kd he => ?_) hy
        have k := (Kept.bin t4 kd (.rfl (orderly_right t4)))
        refine Kept.trans ⟨?_, ?_, t4, ?_, fun ρ => ?_⟩ (k.trans (apply_kept k.orderly he))
        · simp only [X.uses]; tauto
        · simp only [X.seen]; tauto
        · simp only [X.real]; tauto
        · simp only [X.val, val2]
      · simp at hy
    have r4 : ∀ y, (onParts (r.parts o) fun b c => attempt s (.bin o l c) (fun d => apply o d b))
        = some (some y) → Kept q (.bin o l r) y := by
      intro y hy
      unfold onParts at hy
      split at hy
      · rename_i b c hp
        obtain rfl := parts_eq hp
        have t0 := orderly_comm ho ht
        obtain ⟨t1, t2, t3, t4⟩ := orderly_assoc ho t0
        have t5 : (X.bin o l c).orderly q := orderly_comm ho t1
        have t6 : (X.bin o (.bin o l c) b).orderly q := by
          have := orderly_comm ho t3
          rcases ho with rfl | rfl
          · exact ⟨t5, this.2⟩
          · refine ⟨t5, this.2.1, this.2.2.mono (fun v hv => ?_) (fun _ h => h)⟩
            simp only [X.seen] at hv ⊢; tauto
        refine attempt_kept hs t5 (fun d e' kd he => ?_) hy
        have k := (Kept.bin t6 kd (.rfl (orderly_right t6)))
        refine Kept.trans ⟨?_, ?_, t6, ?_, fun ρ => ?_⟩ (k.trans (apply_kept k.orderly he))
        · simp only [X.uses]; tauto
        · simp only [X.seen]; tauto
        · simp only [X.real]; tauto
        · simp only [X.val, val3]
      · simp at hy
    simp only [Option.bind_eq_bind, Option.bind_eq_some_iff] at h
    obtain ⟨y0, hq, h⟩ := h
    cases y0 with
    | inl y0 =>
      simp only [Option.some.injEq] at h
      subst h
      exact (either_left hq).elim (r1 x) (r2 x)
    | inr _ =>
      simp only [Option.bind_eq_some_iff] at h
      obtain ⟨y0, hq, h⟩ := h
      cases y0 with
      | inl y0 =>
        simp only [Option.some.injEq] at h
        subst h
        exact (either_left hq).elim (r3 x) (r4 x)
      | inr _ => simp at h
  · simp at h

theorem opPow_kept {a e : X} {p : ℕ} (ht : (X.pow a p).orderly q) (h : opPow a p = some e) : Kept q (.pow a p) e := by
  unfold opPow at h
  split at h
  · cases h
  · split_ifs at h with h1 <;> cases h
    · exact ⟨fun v hv => hv, fun v hv => hv, trivial, fun hr => hr, fun ρ => by simp [X.val, h1]⟩
    · exact ⟨fun v hv => hv, fun v hv => hv, trivial, fun hr => hr.elim, fun ρ => by simp [X.val]⟩
  · split_ifs at h with h1 <;> cases h
    · exact ⟨fun v hv => hv, fun v hv => hv, trivial, fun hr => hr, fun ρ => by simp [X.val, h1]⟩
    · exact ⟨fun v hv => hv, fun v hv => hv, trivial, fun hr => hr, fun ρ => by simp [X.val]⟩
  · split_ifs at h with h1 <;> cases h
    · exact ⟨fun v hv => hv, fun v hv => hv, ht.1, fun hr => hr, fun ρ => by simp [X.val, h1]⟩
    · exact .rfl ht

theorem build_kept : ∀ {s e : X}, s.orderly q → build s = some e → Kept q s e := by
  intro s
  induction s with
  | bin o l r ihl ihr =>
    intro e ht h
    simp only [build, Option.bind_eq_bind, Option.bind_eq_some_iff] at h
    obtain ⟨l', hl, r', hr, h⟩ := h
    have k := Kept.bin ht (ihl (orderly_left ht) hl) (ihr (orderly_right ht) hr)
    exact k.trans (apply_kept k.orderly h)
  | neg a ih =>
    intro e ht h
    simp only [build, Option.bind_eq_bind, Option.bind_eq_some_iff] at h
    obtain ⟨a', ha, h⟩ := h
    have k := ih ht ha
    exact k.neg.trans (opNeg_kept k.orderly h)
  | pow a p ih =>
    intro e ht h
    simp only [build, Option.bind_eq_bind, Option.bind_eq_some_iff] at h
    obtain ⟨a', ha, h⟩ := h
    obtain ⟨hta, x, hx⟩ := ht
    have k := ih hta ha
    have k3 : Kept q (.pow a p) (.pow a' p) := ⟨k.uses, k.seen, ⟨k.orderly, x, fun v hv => hx v (k.seen v hv)⟩, k.real, fun ρ => by
      simp only [X.val, k.val]⟩
    exact k3.trans (opPow_kept k3.orderly h)
  | _ => intro e ht h; cases h; exact .rfl ht



/-! ## The value -/

theorem rulesC_kept {cfg : Cfg} {o : BOp} {l r e : X} (ht : (X.bin o l r).orderly q) (h : rulesC cfg o l r = some (some e)) :
    Kept q (.bin o l r) e := by
  unfold rulesC at h
  split_ifs at h
  exact rules_kept ht h

theorem firstC_kept {o : BOp} {l r e : X} (ht : (X.bin o l r).orderly q) (h : firstC o l r = some e) : Kept q (.bin o l r) e := by
  unfold firstC at h
  split_ifs at h
  · exact apply_kept ht h
  · exact first_kept ht h

theorem liftC_kept {cfg : Cfg} {o : BOp} {l r e : X} (ht : (X.bin o l r).orderly q) (h : liftC cfg o l r = some e) :
    Kept q (.bin o l r) e := by
  unfold liftC at h
  split_ifs at h
  exact lift_kept ht h

theorem step_kept {cfg : Cfg} (hc : cfg.poly = true → q = true) (ih : ∀ e r, e.orderly q → s e = some (some r) → Kept q e r) {e r : X} (ht : e.orderly q)
    (h : step cfg s e = some (some r)) : Kept q e r := by
  cases e with
  | c a => simp only [step] at h; split_ifs at h <;> cases h; exact ⟨fun v hv => hv.elim, fun v hv => hv.elim, trivial, fun _ => trivial, fun ρ => rfl⟩
  | int z => cases h
  | dbl y => cases h
  | polyZ v n f => cases h
  | polyR v n f => cases h
  | var v =>
    simp only [step] at h; split_ifs at h with h0 <;> cases h
    exact ⟨fun w hw => hw, fun w hw => ⟨hc h0, hw⟩, trivial, fun hr => hr.elim, fun ρ => by simp [X.val, Fin.sum_univ_succ]⟩
  | neg a =>
    simp only [step, Option.bind_eq_bind, Option.bind_eq_some_iff] at h
    obtain ⟨q, hq, h⟩ := h
    cases q with
    | none => simp at h
    | some a' =>
      simp only [Option.bind_eq_some_iff] at h
      obtain ⟨e, he, y, hy, h⟩ := h
      cases h
      have k1 := ih a a' ht hq
      have k2 := opNeg_kept k1.orderly he
      exact k1.neg.trans (k2.trans (orSelf_kept ih k2.orderly hy))
  | pow a p =>
    by_cases hv : ∃ v, a = .var v
    · obtain ⟨v, rfl⟩ := hv
      simp only [step] at h
      split_ifs at h with h0
      · simp only [Option.bind_eq_bind, Option.bind_eq_some_iff] at h
        obtain ⟨f, hf, h⟩ := h
        cases h
        obtain ⟨f', ef, hf'⟩ := Pol.varPow_spec (K := ℤ) p
        rw [hf] at ef
        cases ef
        exact ⟨fun w hw => hw, fun w hw => ⟨hc h0, hw⟩, trivial, fun hr => hr.elim, fun ρ => by rw [val_polyZ, hf']; simp [X.val]⟩
      · cases h
    · rw [step] at h
      · obtain ⟨hta, x, hx⟩ := ht
        simp only [Option.bind_eq_bind, Option.bind_eq_some_iff] at h
        obtain ⟨q, hq, h⟩ := h
        cases q with
        | none =>
          simp only [Option.bind_eq_some_iff] at h
          obtain ⟨e, he, q', hs, y, rfl, h⟩ := h
          cases h
          have k1 := powSub_kept hta hx he
          exact k1.trans (ih _ _ k1.orderly hs)
        | some a' =>
          simp only [Option.bind_eq_some_iff] at h
          obtain ⟨e, he, y, hy, h⟩ := h
          cases h
          have k1 := ih a a' hta hq
          have k2 := powSub_kept k1.orderly (fun v hv => hx v (k1.seen v hv)) he
          have k3 : Kept q (.pow a p) (.pow a' p) := ⟨k1.uses, k1.seen, ⟨k1.orderly, x, fun v hv => hx v (k1.seen v hv)⟩, k1.real, fun ρ => by
            simp only [X.val, k1.val]⟩
          exact k3.trans (k2.trans (orSelf_kept ih k2.orderly hy))
      · intro v hv'; exact hv ⟨v, hv'⟩
  | bin o l r' =>
    rw [step] at h
    split at h
    · rename_i e he
      simp only [Option.map_eq_some_iff] at h
      obtain ⟨y, rfl, h⟩ := h
      cases h
      exact rulesC_kept ht he
    · split at h
      · rename_i e he
        cases h
        exact firstC_kept ht he
      · split_ifs at h with hu
        · simp only [Option.bind_eq_bind, Option.bind_eq_some_iff] at h
          obtain ⟨y, hy, h⟩ := h
          cases h
          obtain ⟨rfl, hu⟩ := hu
          obtain rfl := isC_eq hu
          refine Kept.trans ⟨fun v hv => .inl hv, fun v hv => .inl hv, orderly_left ht, fun hr => hr.1, fun ρ => ?_⟩ (orSelf_kept ih (orderly_left ht) hy)
          simp [X.val, BOp.real, val_unity]
        · simp only [Option.bind_eq_bind, Option.bind_eq_some_iff] at h
          obtain ⟨p, hp, q', hq, h⟩ := h
          have kl : Kept q l (p.getD l) := by
            cases p with
            | none => exact .rfl (orderly_left ht)
            | some l' => exact ih l l' (orderly_left ht) hp
          have kr : Kept q r' (q'.getD r') := by
            cases q' with
            | none => exact .rfl (orderly_right ht)
            | some l' => exact ih r' l' (orderly_right ht) hq
          have kb := Kept.bin ht kl kr
          have fin : ∀ e, apply o (p.getD l) (q'.getD r') = some e → orSelf e (s e) = some r → Kept q (.bin o l r') r :=
            fun e he hy => (kb.trans (apply_kept kb.orderly he)).trans (orSelf_kept ih (apply_kept kb.orderly he).orderly hy)
          cases p <;> cases q' <;> simp only [Option.bind_eq_some_iff] at h
          · split at h
            · rename_i e he
              simp only [Option.bind_eq_some_iff] at h
              obtain ⟨y, hy, h⟩ := h
              cases h
              have k1 := liftC_kept ht he
              exact k1.trans (orSelf_kept ih k1.orderly hy)
            · exact reorder_kept ih ht h
          all_goals
            obtain ⟨e, he, y, hy, h⟩ := h
            cases h
            exact fin e he hy

theorem upTo_kept {cfg : Cfg} (hc : cfg.poly = true → q = true) : ∀ (k : ℕ) (e r : X), e.orderly q →
    upTo cfg (fun _ => none) k e = some (some r) → Kept q e r
  | 0, e, r, _, h => by cases h
  | k + 1, e, r, ht, h => step_kept hc (upTo_kept hc k) ht h

theorem try_kept {cfg : Cfg} (hc : cfg.poly = true → q = true) {e r : X} (ht : e.orderly q) (h : trySimplify cfg e = some r) :
    Kept q e r :=
  orSelf_kept (fun e r => upTo_kept hc _ e r) ht h

/-- **C100.** `try_simplify`, `try_N` and `try_expand` never change the value of an expression, and bring in no variables.
`simplify` and `N` make no polynomial of a variable either. With
`expand`, the two factors of a product must have one variable between them, or one of them none, and powers one variable. The others
leave variables alone, and this is needed for the polynomials of the expression only. Divisors are not of integer type. -/
theorem C100_value {cfg : Cfg} {s e r : X} (hs : s.orderly cfg.poly) (h : build s = some e) (hr : trySimplify cfg e = some r) :
    (∀ ρ, r.val ρ = s.val ρ) ∧ (∀ v, r.uses v → s.uses v) ∧ ∀ v, r.seen cfg.poly v → s.seen cfg.poly v := by
  have k := build_kept hs h
  have := k.trans (try_kept id k.orderly hr)
  exact ⟨this.val, this.uses, this.seen⟩

end Stator.Ct.Expand
