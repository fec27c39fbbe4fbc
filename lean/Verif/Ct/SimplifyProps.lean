import Verif.Ct.Simplify

/-!
# Simplification of compile-time expressions keeps the value (C57)
-/

namespace Stator.Ct

theorem powSub_vals : ∀ (n : ℕ) {a e : E} (_ : powSub n a = some e) (ρ : List Char → ℝ) (y : ℝ),
    y ∈ a.vals ρ → y ^ n ∈ e.vals ρ
  | 0, a, e, h, ρ, y, _ => by
    simp only [powSub, Option.some.injEq] at h; subst h; simp
  | 1, a, e, h, ρ, y, hy => by
    simp only [powSub, Option.some.injEq] at h; subst h; simpa
  | n + 2, a, e, h, ρ, y, hy => by
    simp only [powSub, Option.bind_eq_bind, Option.bind_eq_some_iff] at h
    obtain ⟨b, hb, he⟩ := h
    refine opMul_vals he ρ ⟨y ^ (n + 1), powSub_vals (n + 1) hb ρ y hy, y, hy, ?_⟩
    simp [Op.rt, binVal, pow_succ]

theorem binVal_pow {x y z : ℝ} : binVal (Op.rt .pow) x y = some z ↔ powDom x y ∧ x ^ y = z := by
  simp [Op.rt, binVal]

theorem powDom_succ {x y : ℝ} (h : powDom x y) : powDom x (y + 1) ∧ x ^ (y + 1) = x ^ y * x := by
  rcases h with h | ⟨h, h'⟩ | ⟨h, n, rfl⟩
  · exact ⟨.inl h, by rw [Real.rpow_add h, Real.rpow_one]⟩
  · refine ⟨.inr (.inl ⟨h, by linarith⟩), ?_⟩
    rw [h, Real.zero_rpow (by linarith), mul_zero]
  · refine ⟨.inr (.inr ⟨h, n + 1, by push_cast; rfl⟩), ?_⟩
    rw [Real.rpow_add_one h.ne]

theorem powDom_two (x : ℝ) : powDom x 2 := by
  rcases lt_trichotomy x 0 with h | h | h
  · exact .inr (.inr ⟨h, 2, by norm_num⟩)
  · exact .inr (.inl ⟨h, by norm_num⟩)
  · exact .inl h

theorem powDom_neg {x : ℝ} {p : ℤ} (h : powDom x p) : powDom (-x) p := by
  rcases lt_trichotomy x 0 with h' | h' | h'
  · exact .inl (by linarith)
  · rw [h', neg_zero]; rwa [h'] at h
  · exact .inr (.inr ⟨by linarith, p, rfl⟩)

theorem mul_div_vals {o : Op} (ho : o = .mul ∨ o = .div) {y z x : ℝ} (h : binVal o.rt y z = some x) :
    binVal o.rt (-y) z = some (-x) ∧ binVal o.rt y (-z) = some (-x) ∧
    binVal o.rt (-y) (-z) = some x := by
  rcases ho with rfl | rfl
  · simp only [Op.rt, binVal, Option.some.injEq] at h ⊢
    refine ⟨?_, ?_, ?_⟩ <;> rw [← h] <;> ring
  · simp only [Op.rt, binVal, Option.ite_none_left_eq_some, Option.some.injEq, neg_eq_zero] at h ⊢
    refine ⟨⟨h.1, ?_⟩, ⟨h.1, ?_⟩, ⟨h.1, ?_⟩⟩ <;> rw [← h.2]
    · ring
    · rw [div_neg]
    · rw [neg_div_neg_eq]

/-- **C57.** Every value of an expression is a value of what `simplify`, `try_simplify` or `N` make
of it. -/
theorem C57_simplify {a b : E} (h : Simp a b) (ρ : List Char → ℝ) : a.vals ρ ⊆ b.vals ρ := by
  have as {o : Op} (ho : o = .add ∨ o = .mul) {x y z w v : ℝ} :
      binVal o.rt x y = some w → binVal o.rt w z = some v →
      ∃ u, binVal o.rt y z = some u ∧ binVal o.rt x u = some v := by
    rcases ho with rfl | rfl <;> simp [Op.rt, binVal, add_assoc, mul_assoc] <;> rintro rfl rfl <;> ring
  have cm {o : Op} (ho : o = .add ∨ o = .mul) (x y : ℝ) : binVal o.rt x y = binVal o.rt y x := by
    rcases ho with rfl | rfl <;> simp [Op.rt, binVal, add_comm, mul_comm]
  induction h with
  | refl a => exact subset_rfl
  | trans _ _ h1 h2 => exact h1.trans h2
  | prune h => exact applyOp_vals h ρ
  | rightZero l =>
    rintro x ⟨y, _, z, hz, hx⟩
    simp only [vals_c, Set.mem_singleton_iff] at hz
    simp only [Op.rt, binVal, hz, C.val_null, mul_zero, Option.some.injEq] at hx
    simp [hx]
  | mulLeftZero r =>
    rintro x ⟨y, hy, z, _, hx⟩
    simp only [vals_c, Set.mem_singleton_iff] at hy
    simp only [Op.rt, binVal, hy, C.val_null, zero_mul, Option.some.injEq] at hx
    simp [hx]
  | divLeftZero r =>
    rintro x ⟨y, hy, z, _, hx⟩
    simp only [vals_c, Set.mem_singleton_iff] at hy
    simp only [Op.rt, binVal, hy, C.val_null, zero_div, Option.ite_none_left_eq_some,
      Option.some.injEq] at hx
    simp [hx.2]
  | powLeftZero r =>
    rintro x ⟨y, hy, z, _, hx⟩
    simp only [vals_c, Set.mem_singleton_iff] at hy
    obtain ⟨_, hx⟩ := binVal_pow.1 hx
    simp [← hx, hy]
  | addRightId l =>
    rintro x ⟨y, hy, z, hz, hx⟩
    simp only [vals_c, Set.mem_singleton_iff] at hz
    simp only [Op.rt, binVal, hz, C.val_null, add_zero, Option.some.injEq] at hx
    exact hx ▸ hy
  | subRightId l =>
    rintro x ⟨y, hy, z, hz, hx⟩
    simp only [vals_c, Set.mem_singleton_iff] at hz
    simp only [Op.rt, binVal, hz, C.val_null, sub_zero, Option.some.injEq] at hx
    exact hx ▸ hy
  | mulRightId l =>
    rintro x ⟨y, hy, z, hz, hx⟩
    simp only [vals_c, Set.mem_singleton_iff] at hz
    simp only [Op.rt, binVal, hz, C.val_unity, mul_one, Option.some.injEq] at hx
    exact hx ▸ hy
  | divRightId l =>
    rintro x ⟨y, hy, z, hz, hx⟩
    simp only [vals_c, Set.mem_singleton_iff] at hz
    simp only [Op.rt, binVal, hz, C.val_unity, div_one, Option.ite_none_left_eq_some,
      Option.some.injEq] at hx
    exact hx.2 ▸ hy
  | powRightId l =>
    rintro x ⟨y, hy, z, hz, hx⟩
    simp only [vals_c, Set.mem_singleton_iff] at hz
    obtain ⟨_, hx⟩ := binVal_pow.1 hx
    rw [hz, C.val_unity, Real.rpow_one] at hx
    exact hx ▸ hy
  | addLeftId r =>
    rintro x ⟨y, hy, z, hz, hx⟩
    simp only [vals_c, Set.mem_singleton_iff] at hy
    simp only [Op.rt, binVal, hy, C.val_null, zero_add, Option.some.injEq] at hx
    exact hx ▸ hz
  | mulLeftId r =>
    rintro x ⟨y, hy, z, hz, hx⟩
    simp only [vals_c, Set.mem_singleton_iff] at hy
    simp only [Op.rt, binVal, hy, C.val_unity, one_mul, Option.some.injEq] at hx
    exact hx ▸ hz
  | divSelf n =>
    rintro x ⟨y, hy, z, hz, hx⟩
    simp only [vals_var, Set.mem_singleton_iff] at hy hz
    simp only [Op.rt, binVal, hy, hz, Option.ite_none_left_eq_some, Option.some.injEq] at hx
    simp [← hx.2, div_self hx.1]
  | nullSub h =>
    rintro x ⟨y, hy, z, hz, hx⟩
    simp only [vals_c, Set.mem_singleton_iff] at hy
    refine opNeg_vals h ρ ⟨z, hz, ?_⟩
    simp only [Op.rt, binVal, hy, C.val_null, zero_sub, Option.some.injEq] at hx
    simp [unVal, hx]
  | @square n e h =>
    rintro x ⟨y, hy, z, hz, hx⟩
    simp only [vals_var, Set.mem_singleton_iff] at hy hz
    simp only [Op.rt, binVal, hy, hz, Option.some.injEq] at hx
    refine opPow_vals h ρ ⟨ρ n, rfl, 2, by simp, binVal_pow.2 ⟨powDom_two _, ?_⟩⟩
    rw [← hx]; norm_num [sq]
  | @powMul n o o' e h1 h2 =>
    rintro x ⟨y, ⟨u, hu, v, hv, hy⟩, z, hz, hx⟩
    simp only [vals_var, Set.mem_singleton_iff] at hu hz
    obtain ⟨hd, hy⟩ := binVal_pow.1 hy
    simp only [Op.rt, binVal, Option.some.injEq] at hx
    subst hu hz
    obtain ⟨hd', hp⟩ := powDom_succ hd
    refine opPow_vals h2 ρ ⟨ρ n, rfl, v + 1, opAdd_vals h1 ρ ⟨v, hv, 1, by simp, by simp [Op.rt, binVal]⟩,
      binVal_pow.2 ⟨hd', ?_⟩⟩
    rw [hp, ← hx, hy]
  | @mulPow n o o' e h1 h2 =>
    rintro x ⟨z, hz, y, ⟨u, hu, v, hv, hy⟩, hx⟩
    simp only [vals_var, Set.mem_singleton_iff] at hu hz
    obtain ⟨hd, hy⟩ := binVal_pow.1 hy
    simp only [Op.rt, binVal, Option.some.injEq] at hx
    subst hu hz
    obtain ⟨hd', hp⟩ := powDom_succ hd
    refine opPow_vals h2 ρ ⟨ρ n, rfl, v + 1, opAdd_vals h1 ρ ⟨v, hv, 1, by simp, by simp [Op.rt, binVal]⟩,
      binVal_pow.2 ⟨hd', ?_⟩⟩
    rw [hp, ← hx, hy, mul_comm]
  | operands _ _ h ih1 ih2 =>
    rintro x ⟨y, hy, z, hz, hx⟩
    exact applyOp_vals h ρ ⟨y, ih1 hy, z, ih2 hz, hx⟩
  | @power n a a' e _ h ih =>
    rintro x ⟨y, hy, z, hz, hx⟩
    simp only [vals_c, Set.mem_singleton_iff, C.val_ofInt] at hz
    obtain ⟨_, hx⟩ := binVal_pow.1 hx
    rw [hz] at hx
    rw [← hx, Int.cast_natCast, Real.rpow_natCast]
    exact powSub_vals n h ρ y (ih hy)
  | assocRight ho _ h ih =>
    rintro x ⟨w, ⟨y, hy, z, hz, hw⟩, v, hv, hx⟩
    obtain ⟨u, h1, h2⟩ := as ho hw hx
    exact applyOp_vals h ρ ⟨y, hy, u, ih ⟨z, hz, v, hv, h1⟩, h2⟩
  | assocLeft ho _ h ih =>
    rintro x ⟨y, hy, w, ⟨z, hz, v, hv, hw⟩, hx⟩
    rw [cm ho] at hw hx
    obtain ⟨u, h1, h2⟩ := as ho hw hx
    rw [cm ho] at h1 h2
    exact applyOp_vals h ρ ⟨u, ih ⟨y, hy, z, hz, h1⟩, v, hv, h2⟩
  | commRight ho _ h ih =>
    rintro x ⟨w, ⟨y, hy, z, hz, hw⟩, v, hv, hx⟩
    rw [cm ho] at hw
    obtain ⟨u, h1, h2⟩ := as ho hw hx
    rw [cm ho] at h2
    exact applyOp_vals h ρ ⟨u, ih ⟨y, hy, v, hv, h1⟩, z, hz, h2⟩
  | commLeft ho _ h ih =>
    rintro x ⟨y, hy, w, ⟨z, hz, v, hv, hw⟩, hx⟩
    rw [cm ho] at hx
    obtain ⟨u, h1, h2⟩ := as ho hw hx
    rw [cm ho] at h1 h2
    exact applyOp_vals h ρ ⟨u, ih ⟨y, hy, v, hv, h1⟩, z, hz, h2⟩
  | arbsignArbsign a =>
    intro x hx
    simp only [mem_vals_arbsign, neg_neg] at hx ⊢
    tauto
  | @argument o a a' e _ h ht ih =>
    intro x hx
    by_cases ho : o = .arbsign
    · subst ho
      refine applyUn_vals h ht ρ ?_
      rw [mem_vals_arbsign] at hx ⊢
      exact hx.imp (fun h => ih h) (fun h => ih h)
    · rw [mem_vals_un ho] at hx
      obtain ⟨y, hy, hx⟩ := hx
      exact applyUn_vals h ht ρ ((mem_vals_un ho ρ _ x).2 ⟨y, ih hy, hx⟩)
  | signBoth ho h =>
    rintro x ⟨y, hy, z, hz, hx⟩
    rw [mem_vals_arbsign] at hy hz ⊢
    have h3 := mul_div_vals ho hx
    rcases hy with hy | hy <;> rcases hz with hz | hz
    · exact .inl (applyOp_vals h ρ ⟨_, hy, _, hz, hx⟩)
    · exact .inr (applyOp_vals h ρ ⟨_, hy, _, hz, h3.2.1⟩)
    · exact .inr (applyOp_vals h ρ ⟨_, hy, _, hz, h3.1⟩)
    · exact .inl (applyOp_vals h ρ ⟨_, hy, _, hz, h3.2.2⟩)
  | signRight ho h =>
    rintro x ⟨y, hy, z, hz, hx⟩
    rw [mem_vals_arbsign] at hz ⊢
    have h3 := mul_div_vals ho hx
    rcases hz with hz | hz
    · exact .inl (applyOp_vals h ρ ⟨_, hy, _, hz, hx⟩)
    · exact .inr (applyOp_vals h ρ ⟨_, hy, _, hz, h3.2.1⟩)
  | signLeft ho h =>
    rintro x ⟨y, hy, z, hz, hx⟩
    rw [mem_vals_arbsign] at hy ⊢
    have h3 := mul_div_vals ho hx
    rcases hy with hy | hy
    · exact .inl (applyOp_vals h ρ ⟨_, hy, _, hz, hx⟩)
    · exact .inr (applyOp_vals h ρ ⟨_, hy, _, hz, h3.1⟩)
  | @signEven p a e hp h =>
    rintro x ⟨y, hy, z, hz, hx⟩
    rw [mem_vals_arbsign] at hy
    have hz' := hz
    simp only [vals_c, Set.mem_singleton_iff, C.val_ofInt] at hz
    rcases hy with hy | hy
    · exact opPow_vals h ρ ⟨y, hy, z, hz', hx⟩
    · obtain ⟨hd, hx⟩ := binVal_pow.1 hx
      rw [hz] at hd hx
      refine opPow_vals h ρ ⟨-y, hy, z, hz', binVal_pow.2 ⟨hz ▸ powDom_neg hd, ?_⟩⟩
      rw [hz, ← hx, Real.rpow_intCast, Real.rpow_intCast, Even.neg_zpow]
      exact even_iff_two_dvd.2 (Int.dvd_of_tmod_eq_zero hp)
  | @signOdd p a e hp h =>
    rintro x ⟨y, hy, z, hz, hx⟩
    rw [mem_vals_arbsign] at hy ⊢
    have hz' := hz
    simp only [vals_c, Set.mem_singleton_iff, C.val_ofInt] at hz
    rcases hy with hy | hy
    · exact .inl (opPow_vals h ρ ⟨y, hy, z, hz', hx⟩)
    · obtain ⟨hd, hx⟩ := binVal_pow.1 hx
      rw [hz] at hd hx
      refine .inr (opPow_vals h ρ ⟨-y, hy, z, hz', binVal_pow.2 ⟨hz ▸ powDom_neg hd, ?_⟩⟩)
      rw [hz, ← hx, Real.rpow_intCast, Real.rpow_intCast, Odd.neg_zpow]
      rw [← Int.not_even_iff_odd, even_iff_two_dvd]
      exact fun h => hp (Int.tmod_eq_zero_of_dvd h)
  | constant a => intro x hx; simp only [vals_c, Set.mem_singleton_iff] at hx; simp [hx]

end Stator.Ct
