import Verif.Rt.SimplifyLemmas

/-!
# Helper lemmas about `simplify` on arrays and dictionaries
-/

namespace Stator

theorem mapRes_ok {α β : Type} {f : α → Res β} : ∀ {xs : List α} {ys : List β},
    mapRes f xs = .ok ys → List.Forall₂ (fun x y => f x = .ok y) xs ys
  | [], ys, h => by simp [mapRes] at h; subst h; exact .nil
  | x :: xs, ys, h => by
    simp only [mapRes, Res.bind_eq_ok] at h
    obtain ⟨y, h1, ys', h2, h3⟩ := h
    simp at h3; subst h3
    exact .cons h1 (mapRes_ok h2)

theorem mapRes_ne_diverge {α β : Type} {f : α → Res β} : ∀ {xs : List α},
    (∀ x ∈ xs, f x ≠ .diverge) → mapRes f xs ≠ .diverge
  | [], _ => by simp [mapRes]
  | x :: xs, h => by
    simp only [mapRes]
    apply Res.bind_ne_diverge
    · exact h x (by simp)
    · intro y _
      apply Res.bind_ne_diverge
      · exact mapRes_ne_diverge fun x hx => h x (by simp [hx])
      · intro _ _; simp

theorem mapRes_congr {α β : Type} {f g : α → Res β} : ∀ {xs : List α},
    (∀ x ∈ xs, f x ≠ .diverge → g x = f x) → mapRes f xs ≠ .diverge → mapRes g xs = mapRes f xs
  | [], _, _ => rfl
  | x :: xs, h, hd => by
    simp only [mapRes] at hd ⊢
    have h1 : f x ≠ .diverge := by
      intro h1; rw [h1] at hd; simp at hd
    rw [h x (by simp) h1]
    cases hf : f x with
    | ok y =>
      rw [hf] at hd
      simp only [Res.ok_bind] at hd ⊢
      have h2 : mapRes f xs ≠ .diverge := by
        intro h2; rw [h2] at hd; simp at hd
      rw [mapRes_congr (fun x hx => h x (by simp [hx])) h2]
    | throw => rfl
    | diverge => exact absurd hf h1

/-! ## More fuel never changes an outcome -/

theorem ddVisit_mono {K : Type} [DecidableEq K] (N : NumOps K) {f g : Expr K → Res (Expr K)}
    (h : ∀ e, f e ≠ .diverge → g e = f e) (o : BinOp) (l r : Expr K)
    (hd : ddVisit N f o l r ≠ .diverge) : ddVisit N g o l r = ddVisit N f o l r := by
  have key : ∀ zs : List (Expr K), (do let ys ← mapRes f zs; .ok (Expr.arr ys) : Res (Expr K)) ≠ .diverge →
      (do let ys ← mapRes g zs; .ok (Expr.arr ys) : Res (Expr K))
        = (do let ys ← mapRes f zs; .ok (Expr.arr ys) : Res (Expr K)) := by
    intro zs hz
    rw [mapRes_congr (fun x _ => h x)]
    intro h2; rw [h2] at hz; simp at hz
  cases o <;> simp only [ddVisit] at hd ⊢
  case add =>
    split <;> try rfl
    split <;> try rfl
    rename_i h'; simp only [h', if_true] at hd; exact key _ hd
  case sub =>
    split <;> try rfl
    split <;> try rfl
    rename_i h'; simp only [h', if_true] at hd; exact key _ hd
  case mul =>
    cases hm : mulUnits l r with
    | some e => rfl
    | none =>
      rw [hm] at hd
      simp only at hd ⊢
      split <;> try rfl
      split <;> try rfl
      rename_i h'; simp only [h', if_true] at hd; exact key _ hd
  case div =>
    split <;> try rfl
    split <;> try rfl
    rename_i h'; simp only [h', if_true] at hd; exact key _ hd
  case pow =>
    split <;> try rfl
    exact h _ hd

theorem simpBin_mono {K : Type} [DecidableEq K] (N : NumOps K) {f g : Expr K → Res (Expr K)}
    (h : ∀ e, f e ≠ .diverge → g e = f e) (o : BinOp) (l r : Expr K)
    (hd : simpBin N f o l r ≠ .diverge) : simpBin N g o l r = simpBin N f o l r := by
  unfold simpBin at hd ⊢
  split
  · rfl
  split
  · rfl
  split
  · rfl
  split
  · rfl
  rename_i h1 h2 h3 h4
  simp only [h1, h2, h3, h4] at hd
  exact ddVisit_mono N h o l r hd

theorem bind_mono {α β : Type} {x x' : Res α} {f f' : α → Res β} (h1 : x ≠ .diverge → x' = x)
    (h2 : ∀ a, x = .ok a → f a ≠ .diverge → f' a = f a) (hd : (x >>= f) ≠ .diverge) :
    (x' >>= f') = (x >>= f) := by
  have : x ≠ .diverge := by intro h; rw [h] at hd; simp at hd
  rw [h1 this]
  cases hx : x with
  | ok a => rw [hx] at hd; exact h2 a hx hd
  | throw => rfl
  | diverge => exact absurd hx this

theorem simp_mono {K : Type} [DecidableEq K] (N : NumOps K) : ∀ (n : Nat) (e : Expr K),
    simp N n e ≠ .diverge → simp N (n + 1) e = simp N n e
  | 0, e, h => by simp [simp] at h
  | n + 1, .const _, _ => rfl
  | n + 1, .var _, _ => rfl
  | n + 1, .un o a, h => by
    rw [simp] at h ⊢
    rw [simp]
    exact bind_mono (simp_mono N n a) (fun _ _ _ => rfl) h
  | n + 1, .bin o l r, h => by
    rw [simp] at h ⊢
    rw [simp]
    refine bind_mono (simp_mono N n l) (fun a ha hd => ?_) h
    refine bind_mono (simp_mono N n r) (fun b hb hd => ?_) hd
    exact simpBin_mono N (simp_mono N n) o a b hd
  | n + 1, .arr xs, h => by
    rw [simp] at h ⊢
    rw [simp]
    exact bind_mono (mapRes_congr (fun x _ => simp_mono N n x)) (fun _ _ _ => rfl) h
  | n + 1, .dict kvs, h => by
    rw [simp] at h ⊢
    rw [simp]
    refine bind_mono (mapRes_congr (fun p _ hp => ?_)) (fun _ _ _ => rfl) h
    exact bind_mono (simp_mono N n p.2) (fun _ _ _ => rfl) hp

theorem simp_mono_le {K : Type} [DecidableEq K] (N : NumOps K) {n m : Nat} (e : Expr K) (hnm : n ≤ m)
    (h : simp N n e ≠ .diverge) : simp N m e = simp N n e := by
  induction m, hnm using Nat.le_induction with
  | base => rfl
  | succ m _ ih => rw [simp_mono N m e (by rw [ih]; exact h), ih]

/-! ## Variables -/

theorem mem_varsList {K : Type} (n : List Char) : ∀ xs : List (Expr K),
    n ∈ varsList xs ↔ ∃ x ∈ xs, n ∈ x.vars
  | [] => by simp [varsList]
  | x :: xs => by simp [varsList, mem_varsList n xs]

theorem mem_varsDict {K : Type} (n : List Char) : ∀ xs : List (List Char × Expr K),
    n ∈ varsDict xs ↔ ∃ x ∈ xs, n ∈ x.2.vars
  | [] => by simp [varsDict]
  | (k, v) :: xs => by simp [varsDict, mem_varsDict n xs]

theorem mulUnits_vars {K : Type} {l r e : Expr K} (h : mulUnits l r = some e) {n : List Char}
    (hn : n ∈ e.vars) : n ∈ l.vars ∨ n ∈ r.vars := by
  have ht : ∀ (t c : Expr K) (b : Bool), n ∈ (mulTyped t c b).vars → n ∈ t.vars ∨ n ∈ c.vars := by
    intro t c b ht
    cases t with
    | arr xs =>
      simp only [mulTyped, Expr.vars, mem_varsList, List.mem_map] at ht ⊢
      obtain ⟨_, ⟨x, hx, rfl⟩, hn⟩ := ht
      cases b <;> simp [Expr.vars] at hn <;> rcases hn with hn | hn <;>
        first | exact .inr hn | exact .inl ⟨x, hx, hn⟩
    | _ => cases b <;> simp [mulTyped, Expr.vars] at ht ⊢ <;> tauto
  unfold mulUnits at h
  split at h
  · simp at h; subst h; simp [Expr.vars] at hn ⊢; tauto
  · simp at h; subst h
    simp [Expr.vars] at hn ⊢
    rcases hn with hn | hn
    · have := ht _ _ _ hn; tauto
    · tauto
  · simp at h; subst h
    simp [Expr.vars] at hn ⊢
    rcases hn with hn | hn
    · have := ht _ _ _ hn; tauto
    · tauto
  · simp at h

theorem ddVisit_vars {K : Type} [DecidableEq K] (N : NumOps K) (rec : Expr K → Res (Expr K))
    (hrec : ∀ e e' n, rec e = .ok e' → n ∈ e'.vars → n ∈ e.vars) (o : BinOp) (l r e : Expr K)
    (h : ddVisit N rec o l r = .ok e) {n : List Char} (hn : n ∈ e.vars) :
    n ∈ l.vars ∨ n ∈ r.vars := by
  have arr2 : ∀ (xs ys : List (Expr K)) (o : BinOp),
      (do let zs ← mapRes rec (List.zipWith (elemOp o) xs ys); .ok (Expr.arr zs) : Res (Expr K)) = .ok e →
      n ∈ (Expr.arr xs).vars ∨ n ∈ (Expr.arr ys).vars := by
    intro xs ys o h
    rw [Res.bind_eq_ok] at h
    obtain ⟨zs, h1, h2⟩ := h
    simp at h2; subst h2
    have h3 := mapRes_ok h1
    simp only [Expr.vars, mem_varsList] at hn ⊢
    obtain ⟨z, hz, hnz⟩ := hn
    obtain ⟨i, hi, rfl⟩ := List.getElem_of_mem hz
    have hi' : i < (List.zipWith (elemOp o) xs ys).length := by rw [h3.length_eq]; exact hi
    have h4 := hrec _ _ n (h3.get hi' hi) hnz
    simp [elemOp, Expr.vars] at h4
    simp at hi'
    rcases h4 with h4 | h4
    · exact .inl ⟨_, List.getElem_mem _, h4⟩
    · exact .inr ⟨_, List.getElem_mem _, h4⟩
  have arr1 : ∀ (xs : List (Expr K)) (r : Expr K) (o : BinOp),
      (Res.ok (Expr.arr (xs.map fun x => elemOp o x r)) : Res (Expr K)) = .ok e →
      n ∈ (Expr.arr xs).vars ∨ n ∈ r.vars := by
    intro xs r o h
    simp at h; subst h
    simp only [Expr.vars, mem_varsList, List.mem_map] at hn ⊢
    obtain ⟨_, ⟨x, hx, rfl⟩, hn⟩ := hn
    simp [elemOp, Expr.vars] at hn
    rcases hn with hn | hn
    · exact .inl ⟨x, hx, hn⟩
    · exact .inr hn
  have mc : ∀ (k : K) (a b u : Expr K), n ∈ (mulConst N k a b u).vars →
      n ∈ a.vars ∨ n ∈ b.vars ∨ n ∈ u.vars := by
    intro k a b u hm
    unfold mulConst at hm
    split at hm
    · simp [Expr.vars] at hm ⊢; tauto
    · simp [Expr.vars] at hm ⊢; tauto
    · exact .inr (.inr hm)
  cases o <;> (try simp only [ddVisit] at h)
  case add =>
    split at h
    · split at h
      · exact arr2 _ _ _ h
      · simp at h
    · exact arr1 _ _ _ h
    · simp [foldBin] at h; subst h; simp [Expr.vars] at hn
    · simp at h; subst h; simpa [Expr.vars] using hn
  case sub =>
    split at h
    · split at h
      · exact arr2 _ _ _ h
      · simp at h
    · exact arr1 _ _ _ h
    · split at h <;> simp [foldBin] at h <;> subst h <;> simp [Expr.vars] at hn
    · split at h <;> simp at h <;> subst h <;> simp [Expr.vars] at hn ⊢ <;> exact hn
    · simp at h; subst h; simpa [Expr.vars] using hn
  case mul =>
    cases hm : mulUnits l r with
    | some e' =>
      rw [hm] at h; simp at h; subst h
      exact mulUnits_vars hm hn
    | none =>
      rw [hm] at h
      simp only at h
      split at h
      · split at h
        · exact arr2 _ _ _ h
        · simp at h
      · exact arr1 _ _ _ h
      · simp at h; subst h
        simp only [Expr.vars, mem_varsList, List.mem_map] at hn ⊢
        obtain ⟨_, ⟨x, hx, rfl⟩, hn⟩ := hn
        simp [elemOp, Expr.vars] at hn
        rcases hn with hn | hn
        · exact .inl hn
        · exact .inr ⟨x, hx, hn⟩
      · simp [foldBin] at h; subst h; simp [Expr.vars] at hn
      · simp at h; subst h
        have := mc _ _ _ _ hn
        simp [Expr.vars] at this ⊢; tauto
      · simp at h; subst h
        have := mc _ _ _ _ hn
        simp [Expr.vars] at this ⊢; tauto
      · simp at h; subst h; simpa [Expr.vars] using hn
  case div =>
    split at h
    · simp at h; subst h; simp [Expr.vars] at hn ⊢; tauto
    · split at h
      · exact arr2 _ _ _ h
      · simp at h
    · exact arr1 _ _ _ h
    · simp [foldBin] at h; subst h; simp [Expr.vars] at hn
    · simp at h; subst h; simpa [Expr.vars] using hn
  case pow =>
    split at h
    · have := hrec _ _ n h hn
      simpa [Expr.vars] using this
    · simp [foldBin] at h; subst h; simp [Expr.vars] at hn
    · simp at h; subst h; simpa [Expr.vars] using hn
  case access =>
    split at h
    · simp at h; subst h; simpa [Expr.vars] using hn
    · simp at h
  all_goals (simp [ddVisit] at h; subst h; simpa [Expr.vars] using hn)

theorem simpBin_vars {K : Type} [DecidableEq K] (N : NumOps K) (rec : Expr K → Res (Expr K))
    (hrec : ∀ e e' n, rec e = .ok e' → n ∈ e'.vars → n ∈ e.vars) (o : BinOp) (l r e : Expr K)
    (h : simpBin N rec o l r = .ok e) {n : List Char} (hn : n ∈ e.vars) :
    n ∈ l.vars ∨ n ∈ r.vars := by
  unfold simpBin at h
  split at h
  · simp at h; subst h; exact .inl hn
  split at h
  · simp at h; subst h; exact .inr hn
  split at h
  · simp at h; subst h; exact .inr hn
  split at h
  · simp at h; subst h; exact .inl hn
  exact ddVisit_vars N rec hrec o l r e h hn

theorem simp_vars {K : Type} [DecidableEq K] (N : NumOps K) : ∀ (n : Nat) (e e' : Expr K)
    (x : List Char), simp N n e = .ok e' → x ∈ e'.vars → x ∈ e.vars
  | 0, e, e', x, h, _ => by simp [simp] at h
  | n + 1, .const _, e', x, h, hx => by simp [simp] at h; subst h; exact hx
  | n + 1, .var _, e', x, h, hx => by simp [simp] at h; subst h; exact hx
  | n + 1, .un o a, e', x, h, hx => by
    simp only [simp, Res.bind_eq_ok] at h
    obtain ⟨a', h1, h2⟩ := h
    simp at h2; subst h2
    have : x ∈ a'.vars := by
      unfold foldUn at hx
      split at hx
      · cases o <;> simp [Expr.vars] at hx
      · exact hx
    exact simp_vars N n a a' x h1 this
  | n + 1, .bin o l r, e', x, h, hx => by
    simp only [simp, Res.bind_eq_ok] at h
    obtain ⟨l', h1, r', h2, h3⟩ := h
    have := simpBin_vars N (simp N n) (fun e e' x => simp_vars N n e e' x) o l' r' e' h3 hx
    simp only [Expr.vars, List.mem_append]
    rcases this with h | h
    · exact .inl (simp_vars N n _ _ x h1 h)
    · exact .inr (simp_vars N n _ _ x h2 h)
  | n + 1, .arr xs, e', x, h, hx => by
    simp only [simp, Res.bind_eq_ok] at h
    obtain ⟨ys, h1, h2⟩ := h
    simp at h2; subst h2
    have h3 := mapRes_ok h1
    simp only [Expr.vars, mem_varsList] at hx ⊢
    obtain ⟨y, hy, hxy⟩ := hx
    obtain ⟨i, hi, rfl⟩ := List.getElem_of_mem hy
    have hi' : i < xs.length := by rw [h3.length_eq]; exact hi
    exact ⟨_, List.getElem_mem hi', simp_vars N n _ _ x (h3.get hi' hi) hxy⟩
  | n + 1, .dict xs, e', x, h, hx => by
    simp only [simp, Res.bind_eq_ok] at h
    obtain ⟨ys, h1, h2⟩ := h
    simp at h2; subst h2
    have h3 := mapRes_ok h1
    simp only [Expr.vars, mem_varsDict] at hx ⊢
    obtain ⟨y, hy, hxy⟩ := hx
    obtain ⟨i, hi, rfl⟩ := List.getElem_of_mem hy
    have hi' : i < xs.length := by rw [h3.length_eq]; exact hi
    have h4 := h3.get hi' hi
    rw [Res.bind_eq_ok] at h4
    obtain ⟨v, h5, h6⟩ := h4
    simp at h6
    have h7 : ys[i].2 = v := by rw [← h6]
    refine ⟨_, List.getElem_mem hi', simp_vars N n _ _ x h5 ?_⟩
    rw [← h7]; exact hxy

end Stator
