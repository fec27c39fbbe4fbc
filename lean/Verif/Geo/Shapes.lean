import Mathlib.MeasureTheory.Measure.Lebesgue.VolumeOfBalls
import Mathlib.Analysis.SpecialFunctions.Gamma.Beta
import Mathlib.Analysis.Calculus.Deriv.Pow
import Mathlib.Analysis.InnerProductSpace.PiL2

/-!
# Shapes (C47, C48, C61)

Models `stator/geometry/{box,sphere,point,plane,indicator}.hpp` over the real numbers: `Scalar` is `ℝ`, so
`std::pow`, `std::tgamma` and `π` are exact. A vector is a point of `ℝ^D`.
-/

open MeasureTheory Real

namespace Stator.Geo

/-- `v[i]`; the loops below read positions below `D` only (for `D ≥ 1`). -/
noncomputable def at' {D : ℕ} (v : Fin D → ℝ) (i : ℕ) : ℝ := if h : i < D then v ⟨i, h⟩ else 0

/-- `AABox`: the constructor takes the upper corner first. models: box.hpp:34-50. -/
structure AABox (D : ℕ) where
  max : Fin D → ℝ
  min : Fin D → ℝ

/-- `AABox::dimensions`. models: box.hpp:45. -/
def AABox.dimensions {D : ℕ} (b : AABox D) : Fin D → ℝ := fun i => b.max i - b.min i

/-- `volume(AABox)`, for `D ≥ 1` (`extent[0]` is read first). models: box.hpp:53-60. -/
noncomputable def boxVolume {D : ℕ} (b : AABox D) : ℝ :=
  let extent := b.dimensions
  (List.range' 1 (D - 1)).foldl (fun measure i => measure * at' extent i) (at' extent 0)

/-- `area(AABox)`. models: box.hpp:63-71. -/
noncomputable def boxArea {D : ℕ} (b : AABox D) : ℝ :=
  let extent := b.dimensions
  let measure := (List.range D).foldl (fun m i =>
    (List.range' (i + 1) (D - (i + 1))).foldl (fun m j => m + at' extent i * at' extent j) m) 0
  2 * measure

/-- `Ball`. models: sphere.hpp:42-66. -/
structure Ball (D : ℕ) where
  radius : ℝ
  center : EuclideanSpace ℝ (Fin D)

/-- `volume(UnitBall)`, its four overloads. models: sphere.hpp:93-111. -/
noncomputable def unitBallVolume (D : ℕ) : ℝ :=
  if D = 0 then 1 else if D = 1 then 2
  else if D % 2 = 1 then
    2 * Gamma (((D - 1) / 2 + 1 : ℕ)) * (4 * π) ^ ((D - 1) / 2) / Gamma ((D + 1 : ℕ))
  else π ^ (D / 2) / Gamma ((D / 2 + 1 : ℕ))

/-- `area(UnitBall)`. models: sphere.hpp:113-116. -/
noncomputable def unitBallArea (D : ℕ) : ℝ := D * unitBallVolume D

/-- `volume(Ball)`. models: sphere.hpp:120-123. -/
noncomputable def ballVolume {D : ℕ} (b : Ball D) : ℝ := unitBallVolume D * b.radius ^ D

/-- `area(Ball)`, for `D ≥ 1` (the exponent is unsigned). models: sphere.hpp:126-129. -/
noncomputable def ballArea {D : ℕ} (b : Ball D) : ℝ := unitBallArea D * b.radius ^ (D - 1)

/-! ## Specification -/

/-- The surface measure of a box in `d + 1` dimensions: for each axis there are two faces, and a face is the
`d`-dimensional box without that axis. -/
noncomputable def surface {d : ℕ} (b : AABox (d + 1)) : ℝ :=
  ∑ i : Fin (d + 1), 2 * (volume (Set.Icc (fun j => b.min (i.succAbove j)) (fun j => b.max (i.succAbove j)))).toReal

/-! ## C47 -/

theorem foldl_mul_eq {D : ℕ} (v : Fin D → ℝ) (s n : ℕ) (a : ℝ) :
    (List.range' s n).foldl (fun m i => m * at' v i) a = a * ∏ i ∈ Finset.range n, at' v (s + i) := by
  induction n generalizing a s with
  | zero => simp
  | succ n ih =>
    rw [List.range'_succ, List.foldl_cons, ih, Finset.prod_range_succ']
    simp only [Nat.add_zero]
    have : ∀ i, s + 1 + i = s + (i + 1) := by intro i; omega
    simp only [this]
    ring

theorem boxVolume_eq {d : ℕ} (b : AABox (d + 1)) : boxVolume b = ∏ i, (b.max i - b.min i) := by
  unfold boxVolume
  simp only [foldl_mul_eq, Nat.add_sub_cancel]
  rw [Finset.prod_fin_eq_prod_range, Finset.prod_range_succ', mul_comm]
  congr 1
  · apply Finset.prod_congr rfl
    intro i hi
    have : i + 1 < d + 1 := by simpa using hi
    rw [Nat.add_comm 1 i, dif_pos this, at', dif_pos this]
    rfl

/-- C47: the volume of a box, in one dimension or more, is its measure. -/
theorem C47_volume {d : ℕ} (b : AABox (d + 1)) (h : ∀ i, b.min i ≤ b.max i) :
    boxVolume b = (volume (Set.Icc b.min b.max)).toReal := by
  rw [boxVolume_eq, Real.volume_Icc_pi_toReal h]

theorem at'_lt {D : ℕ} (v : Fin D → ℝ) {i : ℕ} (h : i < D) : at' v i = v ⟨i, h⟩ := by
  simp [at', h]

/-- C47: in three dimensions the area of a box is its surface measure. -/
theorem C47_area (b : AABox 3) (h : ∀ i, b.min i ≤ b.max i) : boxArea b = surface b := by
  have h1 : surface b = ∑ i : Fin 3, 2 * ∏ j : Fin 2, (b.max (i.succAbove j) - b.min (i.succAbove j)) := by
    unfold surface
    apply Finset.sum_congr rfl
    intro i _
    rw [Real.volume_Icc_pi_toReal (fun j => h _)]
  rw [h1]
  have e0 : at' b.dimensions 0 = b.max 0 - b.min 0 := at'_lt _ (by decide)
  have e1 : at' b.dimensions 1 = b.max 1 - b.min 1 := at'_lt _ (by decide)
  have e2 : at' b.dimensions 2 = b.max 2 - b.min 2 := at'_lt _ (by decide)
  have s00 : (0 : Fin 3).succAbove (0 : Fin 2) = 1 := rfl
  have s01 : (0 : Fin 3).succAbove (1 : Fin 2) = 2 := rfl
  have s10 : (1 : Fin 3).succAbove (0 : Fin 2) = 0 := rfl
  have s11 : (1 : Fin 3).succAbove (1 : Fin 2) = 2 := rfl
  have s20 : (2 : Fin 3).succAbove (0 : Fin 2) = 0 := rfl
  have s21 : (2 : Fin 3).succAbove (1 : Fin 2) = 1 := rfl
  simp only [boxArea, List.range, List.range.loop, List.range', List.foldl, Fin.sum_univ_three, Fin.prod_univ_two,
    s00, s01, s10, s11, s20, s21, e0, e1, e2]
  have r3 : List.range' 3 0 1 = [] := rfl
  simp only [Nat.reduceAdd, Nat.reduceSub, r3, List.range', List.foldl, e0, e1, e2]
  ring

/-- The unit box. -/
def unitBox (D : ℕ) : AABox D := ⟨fun _ => 1, fun _ => 0⟩

theorem inner_count (D i s n : ℕ) (hi : i < D) (hs : s + n ≤ D) (m : ℝ) :
    (List.range' s n).foldl (fun m j => m + at' (unitBox D).dimensions i * at' (unitBox D).dimensions j) m
      = m + n := by
  induction n generalizing s m with
  | zero => simp
  | succ n ih =>
    rw [List.range'_succ, List.foldl_cons, ih (s + 1) (by omega)]
    rw [at'_lt _ hi, at'_lt _ (show s < D by omega)]
    simp only [unitBox, AABox.dimensions]
    push_cast; ring

theorem outer_count (D k : ℕ) (hk : k ≤ D) :
    (List.range k).foldl (fun m i =>
      (List.range' (i + 1) (D - (i + 1))).foldl
        (fun m j => m + at' (unitBox D).dimensions i * at' (unitBox D).dimensions j) m) (0 : ℝ)
      = k * D - k * (k + 1) / 2 := by
  induction k with
  | zero => simp
  | succ k ih =>
    rw [List.range_succ, List.foldl_append, ih (by omega)]
    simp only [List.foldl_cons, List.foldl_nil]
    rw [inner_count D k _ _ (by omega) (by omega), Nat.cast_sub (by omega)]
    push_cast; ring

/-- C47 fails for the area outside of three dimensions: the unit box in `D = d + 1` dimensions has surface
measure `2 D` but `area` gives `D (D - 1)`, so in every dimension other than three there is a box whose area is
wrong. -/
theorem C47_area_only_3d (d : ℕ) (hd : d + 1 ≠ 3) :
    boxArea (unitBox (d + 1)) = (d + 1) * d ∧ surface (unitBox (d + 1)) = 2 * (d + 1) ∧
      boxArea (unitBox (d + 1)) ≠ surface (unitBox (d + 1)) := by
  have h1 : boxArea (unitBox (d + 1)) = (d + 1) * d := by
    unfold boxArea
    simp only
    rw [outer_count (d + 1) (d + 1) (Nat.le_refl _)]
    push_cast; ring
  have h2 : surface (unitBox (d + 1)) = 2 * (d + 1) := by
    unfold surface
    have : ∀ i : Fin (d + 1), 2 * (volume (Set.Icc (fun j => (unitBox (d + 1)).min (i.succAbove j))
        (fun j => (unitBox (d + 1)).max (i.succAbove j)))).toReal = 2 := by
      intro i
      rw [Real.volume_Icc_pi_toReal (fun j => by simp [unitBox])]
      simp [unitBox]
    rw [Finset.sum_congr rfl (fun i _ => this i)]
    simp; ring
  refine ⟨h1, h2, ?_⟩
  rw [h1, h2]
  intro h
  have : (d : ℝ) = 2 := by
    have h0 : (d : ℝ) + 1 ≠ 0 := by positivity
    have : ((d : ℝ) + 1) * (d - 2) = 0 := by linear_combination h
    rcases mul_eq_zero.1 this with h | h
    · exact absurd h h0
    · linarith
  have : d = 2 := by exact_mod_cast this
  omega

/-! ## C48 -/

theorem unitBallVolume_eq (D : ℕ) : unitBallVolume D = √π ^ D / Gamma (D / 2 + 1) := by
  unfold unitBallVolume
  have hpi : √π * √π = π := Real.mul_self_sqrt pi_nonneg
  have hpi0 : √π ≠ 0 := by positivity
  split
  · subst_vars; simp
  split
  · subst_vars
    have : Gamma (1 / 2 + 1 : ℝ) = 1 / 2 * √π := by
      rw [Gamma_add_one (by norm_num), Gamma_one_half_eq]
    simp only [Nat.cast_one, this, pow_one]
    field_simp
  split
  · obtain ⟨k, rfl⟩ : ∃ k, D = 2 * k + 1 := ⟨D / 2, by omega⟩
    have e1 : (2 * k + 1 - 1) / 2 = k := by omega
    have hG := Gamma_mul_Gamma_add_half ((k : ℝ) + 1)
    have e2 : ((2 * k + 1 : ℕ) : ℝ) / 2 + 1 = (k : ℝ) + 1 + 1 / 2 := by push_cast; ring
    have e3 : (2 : ℝ) * (k + 1) = ((2 * k + 1 : ℕ) : ℝ) + 1 := by push_cast; ring
    have e4 : (2 : ℝ) ^ (1 - 2 * ((k : ℝ) + 1)) = ((2 : ℝ) ^ (2 * k + 1))⁻¹ := by
      rw [← Real.rpow_natCast, ← Real.rpow_neg (by norm_num)]
      congr 1; push_cast; ring
    rw [e4, e3] at hG
    rw [e1, e2]
    push_cast at hG ⊢
    have g1 : Gamma ((k : ℝ) + 1) ≠ 0 := (Gamma_pos_of_pos (by positivity)).ne'
    have g2 : Gamma ((k : ℝ) + 1 + 1 / 2) ≠ 0 := (Gamma_pos_of_pos (by positivity)).ne'
    have g3 : Gamma (2 * (k : ℝ) + 1 + 1) ≠ 0 := (Gamma_pos_of_pos (by positivity)).ne'
    rw [div_eq_div_iff g3 g2]
    have h4 : (4 * π) ^ k = (2 ^ (2 * k)) * √π ^ (2 * k) := by
      rw [mul_pow, pow_mul, pow_mul, pow_two √π, hpi]; norm_num
    have : 2 * Gamma ((k : ℝ) + 1) * (4 * π) ^ k * Gamma ((k : ℝ) + 1 + 1 / 2)
        = 2 * (4 * π) ^ k * (Gamma ((k : ℝ) + 1) * Gamma ((k : ℝ) + 1 + 1 / 2)) := by ring
    rw [this, hG, h4, pow_succ, pow_succ]
    field_simp
  · obtain ⟨k, rfl⟩ : ∃ k, D = 2 * k := ⟨D / 2, by omega⟩
    have e1 : 2 * k / 2 = k := by omega
    have e2 : ((2 * k : ℕ) : ℝ) / 2 = k := by push_cast; ring
    rw [e1, e2, pow_mul, pow_two √π, hpi]
    push_cast
    rfl

/-- C48: the volume of a ball is its measure, in every dimension from one on. -/
theorem C48_volume {D : ℕ} (hD : 0 < D) (b : Ball D) (h : 0 ≤ b.radius) :
    ballVolume b = (volume (Metric.ball b.center b.radius)).toReal := by
  haveI : Nonempty (Fin D) := ⟨⟨0, hD⟩⟩
  rw [EuclideanSpace.volume_ball, Fintype.card_fin, ballVolume, unitBallVolume_eq, ENNReal.toReal_mul,
    ENNReal.toReal_pow, ENNReal.toReal_ofReal h, ENNReal.toReal_ofReal, mul_comm]
  exact div_nonneg (by positivity) (Gamma_nonneg_of_nonneg (by positivity))

/-- C48: in no dimensions a ball is a point, and its (counting) measure is one. -/
theorem C48_volume_zero (b : Ball 0) : ballVolume b = 1 := by
  simp [ballVolume, unitBallVolume]

/-- C48: the area of a ball is the rate at which its volume grows with the radius. -/
theorem C48_area {D : ℕ} (c : EuclideanSpace ℝ (Fin D)) (r : ℝ) (hr : 0 < r) (hD : 0 < D) :
    HasDerivAt (fun ρ => (volume (Metric.ball c ρ)).toReal) (ballArea ⟨r, c⟩) r := by
  have h1 : (fun ρ => (volume (Metric.ball c ρ)).toReal) =ᶠ[nhds r]
      fun ρ => unitBallVolume D * ρ ^ D := by
    filter_upwards [lt_mem_nhds hr] with ρ hρ
    exact (C48_volume hD ⟨ρ, c⟩ hρ.le).symm
  have h2 : HasDerivAt (fun ρ => unitBallVolume D * ρ ^ D) (ballArea ⟨r, c⟩) r := by
    have := (hasDerivAt_pow D r).const_mul (unitBallVolume D)
    have e : ballArea ⟨r, c⟩ = unitBallVolume D * ((D : ℝ) * r ^ (D - 1)) := by
      simp only [ballArea, unitBallArea]; ring
    rw [e]
    exact this
  exact h2.congr_of_eventuallyEq h1

/-- C48 in the dimensions people use. -/
theorem C48_known (r : ℝ) :
    (∀ c, ballVolume (⟨r, c⟩ : Ball 2) = π * r ^ 2) ∧ (∀ c, ballArea (⟨r, c⟩ : Ball 2) = 2 * π * r) ∧
    (∀ c, ballVolume (⟨r, c⟩ : Ball 3) = 4 / 3 * π * r ^ 3) ∧ (∀ c, ballArea (⟨r, c⟩ : Ball 3) = 4 * π * r ^ 2) := by
  have g4 : Gamma ((3 + 1 : ℕ) : ℝ) = 6 := by
    have := Gamma_nat_eq_factorial 3
    norm_num [Nat.factorial] at this ⊢
  have g2 : Gamma ((2 : ℕ) : ℝ) = 1 := by norm_num
  have h2 : unitBallVolume 2 = π := by norm_num [unitBallVolume]
  have h3 : unitBallVolume 3 = 4 / 3 * π := by
    unfold unitBallVolume
    rw [if_neg (by decide), if_neg (by decide), if_pos (by decide), g4]
    norm_num
    ring
  refine ⟨fun c => ?_, fun c => ?_, fun c => ?_, fun c => ?_⟩ <;>
    simp only [ballVolume, ballArea, unitBallArea, h2, h3] <;> push_cast <;> ring

/-- A box in three dimensions with three different sides. -/
example : boxVolume (⟨![1, 2, 3], ![0, 0, 0]⟩ : AABox 3) = 6 ∧
    (∀ i, (⟨![1, 2, 3], ![0, 0, 0]⟩ : AABox 3).min i ≤ (⟨![1, 2, 3], ![0, 0, 0]⟩ : AABox 3).max i) := by
  refine ⟨?_, ?_⟩
  · rw [boxVolume_eq, Fin.prod_univ_three]; norm_num [Matrix.cons_val_two, Matrix.tail_cons]
  · intro i; fin_cases i <;> norm_num

/-! ## C61: intersection tests

`indicator.hpp` names a namespace `stator::symbolic`, a function template `pow<2>` and a function `dot` that do
not exist at this commit, and the only program that includes it is commented out of the build
(`CMakeLists.txt:168`). The formulas are modelled as they are written, `pow<2>` of a vector as the squared norm
(as `pow(l, C<2>)` in binary_ops.hpp:303-306) and `dot` as the inner product. -/

/-- `Point`. models: point.hpp:34-55. -/
structure Pt (D : ℕ) where
  center : EuclideanSpace ℝ (Fin D)

/-- `HalfSpace`. models: plane.hpp:40-54. -/
structure HalfSpace (D : ℕ) where
  center : EuclideanSpace ℝ (Fin D)
  normal : EuclideanSpace ℝ (Fin D)

/-- Ball-Point `indicator`. models: indicator.hpp:34-36. -/
noncomputable def indBP {D : ℕ} (bi : Ball D) (bj : Pt D) (δ : EuclideanSpace ℝ (Fin D)) : ℝ :=
  ‖δ + bi.center - bj.center‖ ^ 2 - bi.radius ^ 2

/-- Point-Ball `indicator`. models: indicator.hpp:39-41. -/
noncomputable def indPB {D : ℕ} (bi : Pt D) (bj : Ball D) (δ : EuclideanSpace ℝ (Fin D)) : ℝ :=
  indBP bj bi (-δ)

/-- Ball-Ball `indicator`. models: indicator.hpp:44-46. -/
noncomputable def indBB {D : ℕ} (bi bj : Ball D) (δ : EuclideanSpace ℝ (Fin D)) : ℝ :=
  ‖δ + bi.center - bj.center‖ ^ 2 - (bi.radius + bj.radius) ^ 2

/-- Ball-HalfSpace `indicator`. models: indicator.hpp:50-52. -/
noncomputable def indBH {D : ℕ} (bi : Ball D) (bj : HalfSpace D) (δ : EuclideanSpace ℝ (Fin D)) : ℝ :=
  inner ℝ bj.normal (δ + bi.center - bj.center) - bi.radius

/-- HalfSpace-Ball `indicator`. models: indicator.hpp:55-57. -/
noncomputable def indHB {D : ℕ} (bi : HalfSpace D) (bj : Ball D) (δ : EuclideanSpace ℝ (Fin D)) : ℝ :=
  indBH bj bi (-δ)

/-- Specification: the open ball moved by `δ`, the open half-space (the normal points away from it, and has
length one) moved by `δ`, and the point moved by `δ`. -/
def ballSet {D : ℕ} (b : Ball D) (δ : EuclideanSpace ℝ (Fin D)) : Set (EuclideanSpace ℝ (Fin D)) :=
  Metric.ball (δ + b.center) b.radius
@[inherit_doc ballSet]
def halfSet {D : ℕ} (b : HalfSpace D) (δ : EuclideanSpace ℝ (Fin D)) : Set (EuclideanSpace ℝ (Fin D)) :=
  {x | inner ℝ b.normal (x - (δ + b.center)) < 0}
@[inherit_doc ballSet]
def ptSet {D : ℕ} (b : Pt D) (δ : EuclideanSpace ℝ (Fin D)) : Set (EuclideanSpace ℝ (Fin D)) :=
  {δ + b.center}

/-- C61: with the first shape moved by `δ`, the ball-point indicator is negative exactly when they
intersect. -/
theorem C61_ball_point {D : ℕ} (bi : Ball D) (bj : Pt D) (δ) (h : 0 ≤ bi.radius) :
    indBP bi bj δ < 0 ↔ (ballSet bi δ ∩ ptSet bj 0).Nonempty := by
  have : (ballSet bi δ ∩ ptSet bj 0).Nonempty ↔ ‖δ + bi.center - bj.center‖ < bi.radius := by
    simp only [ballSet, ptSet, Set.inter_singleton_nonempty, Metric.mem_ball, dist_eq_norm, zero_add]
    rw [norm_sub_rev]
  rw [this, indBP, sub_neg]
  exact sq_lt_sq₀ (norm_nonneg _) h

/-- C61: point-ball. -/
theorem C61_point_ball {D : ℕ} (bi : Pt D) (bj : Ball D) (δ) (h : 0 ≤ bj.radius) :
    indPB bi bj δ < 0 ↔ (ptSet bi δ ∩ ballSet bj 0).Nonempty := by
  rw [indPB, C61_ball_point bj bi _ h]
  simp only [ballSet, ptSet, Set.inter_singleton_nonempty, Set.singleton_inter_nonempty, Metric.mem_ball,
    dist_eq_norm, zero_add]
  rw [show bi.center - (-δ + bj.center) = δ + bi.center - bj.center by abel]

/-- C61: ball-ball. -/
theorem C61_ball_ball {D : ℕ} (bi bj : Ball D) (δ) (hi : 0 < bi.radius) (hj : 0 < bj.radius) :
    indBB bi bj δ < 0 ↔ (ballSet bi δ ∩ ballSet bj 0).Nonempty := by
  have : (ballSet bi δ ∩ ballSet bj 0).Nonempty ↔ ‖δ + bi.center - bj.center‖ < bi.radius + bj.radius := by
    rw [← Set.not_disjoint_iff_nonempty_inter, ballSet, ballSet, disjoint_ball_ball_iff hi hj, dist_eq_norm,
      zero_add, not_le]
  rw [this, indBB, sub_neg]
  exact sq_lt_sq₀ (norm_nonneg _) (by linarith)

/-- C61: ball-half-space, the normal being a unit vector. -/
theorem C61_ball_half {D : ℕ} (bi : Ball D) (bj : HalfSpace D) (δ) (hi : 0 < bi.radius)
    (hn : ‖bj.normal‖ = 1) :
    indBH bi bj δ < 0 ↔ (ballSet bi δ ∩ halfSet bj 0).Nonempty := by
  have hnn : inner ℝ bj.normal bj.normal = (1 : ℝ) := by rw [real_inner_self_eq_norm_sq, hn]; norm_num
  simp only [indBH, ballSet, halfSet, zero_add]
  constructor
  · intro h
    set s : ℝ := inner ℝ bj.normal (δ + bi.center - bj.center) with hs
    -- go from the centre against the normal
    obtain ⟨t, ht1, ht2, ht0⟩ : ∃ t : ℝ, s < t ∧ t < bi.radius ∧ 0 < t := by
      refine ⟨(max s 0 + bi.radius) / 2, ?_, ?_, ?_⟩
      · have := le_max_left s 0
        rcases le_or_gt s 0 with h' | h'
        · rw [max_eq_right h']; linarith
        · rw [max_eq_left h'.le]; linarith
      · have : max s 0 < bi.radius := max_lt (by linarith) hi
        linarith
      · have := le_max_right s 0
        linarith
    refine ⟨δ + bi.center - t • bj.normal, ?_, ?_⟩
    · rw [Metric.mem_ball, dist_eq_norm, show δ + bi.center - t • bj.normal - (δ + bi.center) = -(t • bj.normal) by abel,
        norm_neg, norm_smul, hn, Real.norm_eq_abs, abs_of_pos ht0]
      linarith
    · change inner ℝ bj.normal (δ + bi.center - t • bj.normal - bj.center) < 0
      rw [show δ + bi.center - t • bj.normal - bj.center = (δ + bi.center - bj.center) - t • bj.normal by abel,
        inner_sub_right, inner_smul_right, hnn, ← hs]
      linarith
  · rintro ⟨x, hx, hx'⟩
    change inner ℝ bj.normal (x - bj.center) < 0 at hx'
    rw [Metric.mem_ball, dist_eq_norm] at hx
    have h1 : inner ℝ bj.normal (δ + bi.center - bj.center)
        = inner ℝ bj.normal (x - bj.center) - inner ℝ bj.normal (x - (δ + bi.center)) := by
      rw [← inner_sub_right]; congr 1; abel
    have h2 := abs_real_inner_le_norm bj.normal (x - (δ + bi.center))
    rw [hn, one_mul] at h2
    have h3 := neg_abs_le (inner ℝ bj.normal (x - (δ + bi.center)))
    rw [h1]
    linarith

/-- C61: half-space-ball. -/
theorem C61_half_ball {D : ℕ} (bi : HalfSpace D) (bj : Ball D) (δ) (hj : 0 < bj.radius)
    (hn : ‖bi.normal‖ = 1) :
    indHB bi bj δ < 0 ↔ (halfSet bi δ ∩ ballSet bj 0).Nonempty := by
  rw [indHB, C61_ball_half bj bi _ hj hn]
  constructor
  · rintro ⟨x, hx, hx'⟩
    refine ⟨δ + x, ?_, ?_⟩
    · simp only [halfSet, Set.mem_ofPred_eq, zero_add] at hx' ⊢
      rwa [show δ + x - (δ + bi.center) = x - bi.center by abel]
    · simp only [ballSet, Metric.mem_ball, dist_eq_norm, zero_add] at hx ⊢
      rwa [show δ + x - bj.center = x - (-δ + bj.center) by abel]
  · rintro ⟨x, hx, hx'⟩
    refine ⟨-δ + x, ?_, ?_⟩
    · simp only [ballSet, Metric.mem_ball, dist_eq_norm, zero_add] at hx' ⊢
      rwa [show -δ + x - (-δ + bj.center) = x - bj.center by abel]
    · simp only [halfSet, Set.mem_ofPred_eq, zero_add] at hx ⊢
      rwa [show -δ + x - bi.center = x - (δ + bi.center) by abel]

/-- The hypotheses are met by two unit balls that touch: they do not intersect. -/
example : ¬ indBB (⟨1, 0⟩ : Ball 1) ⟨1, EuclideanSpace.single 0 2⟩ 0 < 0 := by
  simp [indBB]; norm_num

end Stator.Geo
