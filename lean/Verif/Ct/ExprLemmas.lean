import Verif.Ct.Expr
import Verif.Ct.ConstProps

/-!
# Values of compile-time expressions
-/

namespace Stator.Ct

namespace C

theorem val_eq (a : C) : a.val = (a.toRat : ℝ) := by simp [val, toRat]

theorem val_add (a b : C) : (a.add b).val = a.val + b.val := by
  rw [val_eq, val_eq, val_eq, (C39_arithmetic a b).1, toRat_ofRat]; push_cast; rfl

theorem val_sub (a b : C) : (a.sub b).val = a.val - b.val := by
  rw [val_eq, val_eq, val_eq, (C39_arithmetic a b).2.1, toRat_ofRat]; push_cast; rfl

theorem val_mul (a b : C) : (a.mul b).val = a.val * b.val := by
  rw [val_eq, val_eq, val_eq, (C39_arithmetic a b).2.2.1, toRat_ofRat]; push_cast; rfl

theorem val_div {a b c : C} (h : a.div b = some c) : b.val ≠ 0 ∧ c.val = a.val / b.val := by
  rw [(C39_arithmetic a b).2.2.2] at h
  split at h
  · simp at h
  · rename_i hb
    simp only [Option.some.injEq] at h
    rw [val_eq, val_eq, val_eq, ← h, toRat_ofRat]
    refine ⟨by exact_mod_cast hb, by push_cast; rfl⟩

theorem val_neg (a : C) : a.neg.val = -a.val := by
  rw [val_eq, val_eq, (C39_neg_abs a).1]; push_cast; rfl

theorem val_abs (a : C) : a.abs.val = |a.val| := by
  rw [val_eq, val_eq, (C39_neg_abs a).2]; push_cast; rfl

@[simp] theorem val_ofInt (n : ℤ) : (ofInt n).val = n := by simp [val, ofInt]

@[simp] theorem val_null : null.val = 0 := by simp [null]

@[simp] theorem val_unity : unity.val = 1 := by simp [unity]

theorem val_third : third.val = 1 / 3 := by simp [val, third]

theorem sin_zero {a r : C} (ha : a.val = 0) (h : a.sin = some r) : r.val = 0 := by
  have h0 : a.toRat = (0 : ℚ) * pi.toRat := by
    rw [val_eq] at ha; rw [zero_mul]; exact_mod_cast ha
  have := (C40_sin a 0 h0 r h).1.2 (by
    rintro ⟨k, _, hk⟩
    exact whole_half 0 ⟨0, by simp⟩ ⟨k, hk⟩)
  rw [val_eq, this]; simp

theorem cos_zero {a r : C} (ha : a.val = 0) (h : a.cos = some r) : r.val = 1 := by
  have h0 : a.toRat = (0 : ℚ) * pi.toRat := by
    rw [val_eq] at ha; rw [zero_mul]; exact_mod_cast ha
  have := (C40_cos a 0 h0 r h).1.2 (by
    rintro ⟨k, hk, h⟩
    have : k = 0 := by exact_mod_cast h.symm
    rw [this] at hk; exact absurd hk (by decide))
  rw [val_eq, this]; simp

end C

open E

theorem isC_iff {a : C} {e : E} : e.isC a = true ↔ e = .c a := by
  cases e <;> simp [E.isC]

@[simp] theorem vals_c (ρ : List Char → ℝ) (a : C) : (E.c a).vals ρ = {a.val} := rfl

@[simp] theorem mem_vals_num (ρ : List Char → ℝ) (v : Option ℝ) (x : ℝ) :
    x ∈ (E.num v).vals ρ ↔ v = some x := Iff.rfl

@[simp] theorem vals_var (ρ : List Char → ℝ) (n : List Char) : (E.var n).vals ρ = {ρ n} := rfl

theorem mem_vals_bin (ρ : List Char → ℝ) (o : Op) (l r : E) (x : ℝ) :
    x ∈ (E.bin o l r).vals ρ ↔ ∃ y ∈ l.vals ρ, ∃ z ∈ r.vals ρ, binVal o.rt y z = some x := Iff.rfl

theorem mem_vals_un {o : UnOp} (ho : o ≠ .arbsign) (ρ : List Char → ℝ) (a : E) (x : ℝ) :
    x ∈ (E.un o a).vals ρ ↔ ∃ y ∈ a.vals ρ, unVal o y = some x := by
  cases o <;> first | exact Iff.rfl | exact absurd rfl ho

theorem mem_vals_arbsign (ρ : List Char → ℝ) (a : E) (x : ℝ) :
    x ∈ (E.un .arbsign a).vals ρ ↔ x ∈ a.vals ρ ∨ -x ∈ a.vals ρ := Iff.rfl

/-- A number, as a set of values. -/
theorem mem_number {e : E} {v : Option ℝ} (h : e.number = some v) (ρ : List Char → ℝ) (x : ℝ) :
    x ∈ e.vals ρ ↔ v = some x := by
  cases e <;> simp [E.number] at h
  · subst h; simp [eq_comm]
  · subst h; simp

theorem node_vals (o : Op) (l r : E) (ρ : List Char → ℝ) :
    (node o l r).vals ρ = (E.bin o l r).vals ρ := by
  unfold node
  split
  · rename_i x y hx hy
    ext z
    rw [mem_vals_bin, mem_vals_num, numOp]
    simp only [mem_number hx, mem_number hy]
    cases x <;> cases y <;> simp
  · rfl

theorem plain_unique {e : E} (h : e.plain) {ρ : List Char → ℝ} {v w : ℝ} (hv : v ∈ e.vals ρ)
    (hw : w ∈ e.vals ρ) : v = w := by
  induction e generalizing v w with
  | c a => simp_all
  | num x => simp_all
  | var n => simp_all
  | un o a ih =>
    obtain ⟨y, hy, h1⟩ := (mem_vals_un h.1 ρ a v).1 hv
    obtain ⟨z, hz, h2⟩ := (mem_vals_un h.1 ρ a w).1 hw
    rw [ih h.2 hy hz] at h1
    exact Option.some.inj (h1.symm.trans h2)
  | bin o l r ih1 ih2 =>
    obtain ⟨y, hy, z, hz, h1⟩ := hv
    obtain ⟨y', hy', z', hz', h2⟩ := hw
    rw [ih1 h.1 hy hy', ih2 h.2 hz hz'] at h1
    exact Option.some.inj (h1.symm.trans h2)

theorem opAdd_vals {l r e : E} (h : opAdd l r = some e) (ρ : List Char → ℝ) :
    (E.bin .add l r).vals ρ ⊆ e.vals ρ := by
  rintro x ⟨y, hy, z, hz, hx⟩
  simp only [Op.rt, binVal, Option.some.injEq] at hx
  subst hx
  unfold opAdd at h
  split at h
  · simp only [Option.some.injEq] at h; subst h
    simp only [vals_c, Set.mem_singleton_iff] at hy hz ⊢
    rw [hy, hz, C.val_add]
  · split at h
    · rename_i hr
      rw [isC_iff] at hr; subst hr
      simp only [Option.some.injEq] at h; subst h
      simp only [vals_c, Set.mem_singleton_iff] at hz
      simpa [hz] using hy
    · split at h
      · rename_i hl
        rw [isC_iff] at hl; subst hl
        simp only [Option.some.injEq] at h; subst h
        simp only [vals_c, Set.mem_singleton_iff] at hy
        simpa [hy] using hz
      · simp only [Option.some.injEq] at h; subst h
        rw [node_vals]; exact ⟨y, hy, z, hz, rfl⟩

theorem opNeg_vals {a e : E} (h : opNeg a = some e) (ρ : List Char → ℝ) :
    (E.un .neg a).vals ρ ⊆ e.vals ρ := by
  rintro x ⟨y, hy, hx⟩
  unfold opNeg at h
  split at h <;> simp only [Option.some.injEq] at h <;> subst h
  · simp only [unVal, Option.some.injEq] at hx
    simp only [vals_c, Set.mem_singleton_iff] at hy ⊢
    rw [← hx, hy, C.val_neg]
  · rw [mem_vals_num] at hy ⊢
    rw [hy]; exact hx
  · exact ⟨y, hy, hx⟩

theorem opSub_vals {l r e : E} (h : opSub l r = some e) (ρ : List Char → ℝ) :
    (E.bin .sub l r).vals ρ ⊆ e.vals ρ := by
  rintro x ⟨y, hy, z, hz, hx⟩
  simp only [Op.rt, binVal, Option.some.injEq] at hx
  subst hx
  unfold opSub at h
  split at h
  · simp only [Option.some.injEq] at h; subst h
    simp only [vals_c, Set.mem_singleton_iff] at hy hz ⊢
    rw [hy, hz, C.val_sub]
  · split at h
    · rename_i hr
      rw [isC_iff] at hr; subst hr
      simp only [Option.some.injEq] at h; subst h
      simp only [vals_c, Set.mem_singleton_iff] at hz
      simpa [hz] using hy
    · split at h
      · rename_i hl
        rw [isC_iff] at hl; subst hl
        simp only [vals_c, Set.mem_singleton_iff] at hy
        apply opNeg_vals h
        exact ⟨z, hz, by simp [unVal, hy]⟩
      · simp only [Option.some.injEq] at h; subst h
        rw [node_vals]; exact ⟨y, hy, z, hz, rfl⟩

theorem opMul_vals {l r e : E} (h : opMul l r = some e) (ρ : List Char → ℝ) :
    (E.bin .mul l r).vals ρ ⊆ e.vals ρ := by
  rintro x ⟨y, hy, z, hz, hx⟩
  simp only [Op.rt, binVal, Option.some.injEq] at hx
  subst hx
  unfold opMul at h
  split at h
  · simp only [Option.some.injEq] at h; subst h
    simp only [vals_c, Set.mem_singleton_iff] at hy hz ⊢
    rw [hy, hz, C.val_mul]
  · split at h
    · rename_i hr
      rw [isC_iff] at hr; subst hr
      simp only [Option.some.injEq] at h; subst h
      simp only [vals_c, Set.mem_singleton_iff] at hz
      simp [hz]
    · split at h
      · rename_i hl
        rw [isC_iff] at hl; subst hl
        simp only [Option.some.injEq] at h; subst h
        simp only [vals_c, Set.mem_singleton_iff] at hy
        simp [hy]
      · split at h
        · rename_i hr
          rw [isC_iff] at hr; subst hr
          simp only [Option.some.injEq] at h; subst h
          simp only [vals_c, Set.mem_singleton_iff] at hz
          simpa [hz] using hy
        · split at h
          · rename_i hl
            rw [isC_iff] at hl; subst hl
            simp only [Option.some.injEq] at h; subst h
            simp only [vals_c, Set.mem_singleton_iff] at hy
            simpa [hy] using hz
          · simp only [Option.some.injEq] at h; subst h
            rw [node_vals]; exact ⟨y, hy, z, hz, rfl⟩

theorem opDiv_vals {l r e : E} (h : opDiv l r = some e) (ρ : List Char → ℝ) :
    (E.bin .div l r).vals ρ ⊆ e.vals ρ := by
  rintro x ⟨y, hy, z, hz, hx⟩
  unfold opDiv at h
  split at h
  · rw [Option.map_eq_some_iff] at h
    obtain ⟨c, hc, rfl⟩ := h
    obtain ⟨h0, h1⟩ := C.val_div hc
    simp only [vals_c, Set.mem_singleton_iff] at hy hz ⊢
    simp only [Op.rt, binVal, hy, hz, h0, if_false, Option.some.injEq] at hx
    rw [← hx, h1]
  · simp only [Option.some.injEq] at h; subst h
    rw [node_vals]; exact ⟨y, hy, z, hz, hx⟩

theorem cbrt_eq {x : ℝ} (h : powDom x (1 / 3)) : cbrt x = x ^ ((1 : ℝ) / 3) := by
  unfold cbrt
  rw [if_neg]
  intro hx
  rcases h with h | h | h
  · linarith
  · linarith [h.1]
  · obtain ⟨n, hn⟩ := h.2
    have : (3 * n : ℝ) = 1 := by rw [← hn]; norm_num
    have : 3 * n = 1 := by exact_mod_cast this
    omega

theorem opPow_vals {l r e : E} (h : opPow l r = some e) (ρ : List Char → ℝ) :
    (E.bin .pow l r).vals ρ ⊆ e.vals ρ := by
  rintro x ⟨y, hy, z, hz, hx⟩
  have hx' := hx
  simp only [Op.rt, binVal, Option.ite_none_right_eq_some, Option.some.injEq] at hx
  obtain ⟨hd, hx⟩ := hx
  unfold opPow at h
  split at h
  · simp at h
  · simp at h
  · rename_i v b
    rw [mem_vals_num] at hy
    simp only [vals_c, Set.mem_singleton_iff] at hz
    subst hz
    split at h
    · rename_i hb
      subst hb
      simp only [Option.some.injEq] at h; subst h
      rw [mem_vals_num, hy, ← hx]; simp
    · split at h
      · rename_i hb
        subst hb
        rw [C.val_third] at hd hx
        simp only [Option.some.injEq] at h; subst h
        rw [mem_vals_num, hy, ← hx, Option.map_some, cbrt_eq hd]
      · simp only [Option.some.injEq] at h; subst h
        rw [mem_vals_num, hy]
        simpa [numOp] using hx'
  · split at h
    · rename_i hb
      subst hb
      simp only [vals_c, Set.mem_singleton_iff] at hz
      simp only [Option.some.injEq] at h; subst h
      rw [← hx, hz]; simpa using hy
    · simp only [Option.some.injEq] at h; subst h
      exact ⟨y, hy, z, hz, hx'⟩
  · simp only [Option.some.injEq] at h; subst h
    rw [node_vals]; exact ⟨y, hy, z, hz, hx'⟩

/-- A binary operator keeps the values of its operands. -/
theorem applyOp_vals {o : Op} {l r e : E} (h : applyOp o l r = some e) (ρ : List Char → ℝ) :
    (E.bin o l r).vals ρ ⊆ e.vals ρ := by
  cases o
  · exact opAdd_vals h ρ
  · exact opSub_vals h ρ
  · exact opMul_vals h ρ
  · exact opDiv_vals h ρ
  · exact opPow_vals h ρ

/-- A function is not `sin` or `cos` of a compile-time constant other than zero. -/
def TrigOk (o : UnOp) (e : E) : Prop := o = .sin ∨ o = .cos → ∀ a : C, e = .c a → a.val = 0

theorem applyUn_vals {o : UnOp} {a e : E} (h : applyUn o a = some e) (ht : TrigOk o a)
    (ρ : List Char → ℝ) : (E.un o a).vals ρ ⊆ e.vals ρ := by
  by_cases hn : o = .neg
  · subst hn; exact opNeg_vals h ρ
  by_cases hs : o = .arbsign
  · subst hs
    simp only [applyUn, Option.some.injEq] at h
    subst h; exact subset_rfl
  intro x hx
  rw [mem_vals_un hs] at hx
  obtain ⟨y, hy, hx⟩ := hx
  cases a with
  | c q =>
    simp only [vals_c, Set.mem_singleton_iff] at hy
    subst hy
    cases o <;> simp only [applyUn, Option.map_eq_some_iff, Option.some.injEq] at h
    · obtain ⟨r, hr, rfl⟩ := h
      have h0 := ht (.inl rfl) q rfl
      simp only [unVal, h0, Real.sin_zero, Option.some.injEq] at hx
      simp [← hx, C.sin_zero h0 hr]
    · obtain ⟨r, hr, rfl⟩ := h
      have h0 := ht (.inr rfl) q rfl
      simp only [unVal, h0, Real.cos_zero, Option.some.injEq] at hx
      simp [← hx, C.cos_zero h0 hr]
    · subst h; simpa using hx
    · subst h; simpa using hx
    · subst h
      simp only [unVal, Option.some.injEq] at hx
      simp [← hx, C.val_abs]
    · exact absurd rfl hs
    · exact absurd rfl hn
  | num v =>
    rw [mem_vals_num] at hy
    subst hy
    have : e = .num ((some y).bind (unVal o)) := by
      cases o <;> simp_all [applyUn]
    subst this
    simpa using hx
  | var n =>
    have : e = .un o (.var n) := by cases o <;> simp_all [applyUn]
    subst this; exact (mem_vals_un hs ρ _ x).2 ⟨y, hy, hx⟩
  | un p b =>
    have : e = .un o (.un p b) := by cases o <;> simp_all [applyUn]
    subst this; exact (mem_vals_un hs ρ _ x).2 ⟨y, hy, hx⟩
  | bin p b c =>
    have : e = .un o (.bin p b c) := by cases o <;> simp_all [applyUn]
    subst this; exact (mem_vals_un hs ρ _ x).2 ⟨y, hy, hx⟩

/-! ## `±` is never introduced -/

theorem node_plain {o : Op} {l r : E} (hl : l.plain) (hr : r.plain) : (node o l r).plain := by
  unfold node; split <;> simp [E.plain, hl, hr]

theorem opNeg_plain {a e : E} (h : opNeg a = some e) (ha : a.plain) : e.plain := by
  unfold opNeg at h
  split at h <;> simp only [Option.some.injEq] at h <;> subst h <;> simp_all [E.plain]

theorem applyOp_plain {o : Op} {l r e : E} (h : applyOp o l r = some e) (hl : l.plain) (hr : r.plain) :
    e.plain := by
  have hn := fun o => node_plain (o := o) hl hr
  cases o <;> simp only [applyOp] at h
  · unfold opAdd at h
    repeat' split at h
    all_goals simp only [Option.some.injEq] at h; subst h
    all_goals first | assumption | exact hn _ | trivial
  · unfold opSub at h
    repeat' split at h
    all_goals first | exact opNeg_plain h hr | (simp only [Option.some.injEq] at h; subst h)
    all_goals first | assumption | exact hn _ | trivial
  · unfold opMul at h
    repeat' split at h
    all_goals simp only [Option.some.injEq] at h; subst h
    all_goals first | assumption | exact hn _ | trivial
  · unfold opDiv at h
    repeat' split at h
    · rw [Option.map_eq_some_iff] at h
      obtain ⟨c, _, rfl⟩ := h; trivial
    · simp only [Option.some.injEq] at h; subst h; exact hn _
  · unfold opPow at h
    repeat' split at h
    all_goals first | (simp at h; done) | (simp only [Option.some.injEq] at h; subst h)
    all_goals first | assumption | exact hn _ | trivial | exact ⟨hl, hr⟩

theorem applyUn_plain {o : UnOp} {a e : E} (h : applyUn o a = some e) (ho : o ≠ .arbsign)
    (ha : a.plain) : e.plain := by
  by_cases hn : o = .neg
  · subst hn; exact opNeg_plain h ha
  cases a <;> cases o <;> simp_all [applyUn] <;>
    first | (subst h; simp_all [E.plain]; done) | (obtain ⟨c, _, rfl⟩ := h; trivial)

end Stator.Ct
