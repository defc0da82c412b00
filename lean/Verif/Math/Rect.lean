import Verif.Math.Vec
import Mathlib.Tactic.Linarith

/-!
# Rectangles and boxes (code/source/math.c:1656-1828)  -  C90, C91, C92

## Model

As in `Vec`, the numbers are left open.  `int` results that are 0 or 1 are booleans. -/

set_option linter.unusedSectionVars false

namespace Zpl.Math

/-- math.h:116-118 `zpl_rect2`. -/
structure Rect2 (K : Type) where
  pos : V2 K
  dim : V2 K
  deriving DecidableEq

/-- math.h:119-121 `zpl_rect3`. -/
structure Rect3 (K : Type) where
  pos : V3 K
  dim : V3 K
  deriving DecidableEq

/-- math.h:123-125 `zpl_aabb2`. -/
structure Aabb2 (K : Type) where
  min : V2 K
  max : V2 K
  deriving DecidableEq

/-- math.h:126-128 `zpl_aabb3`. -/
structure Aabb3 (K : Type) where
  min : V3 K
  max : V3 K
  deriving DecidableEq

section model

variable {K : Type}

/-- math.c:1670-1675 `zpl_aabb2f`. -/
def aabb2f (minx miny maxx maxy : K) : Aabb2 K := ⟨⟨minx, miny⟩, ⟨maxx, maxy⟩⟩

/-- math.c:1683-1688 `zpl_aabb2_rect2`. -/
def aabb2_rect2 [Add K] (a : Rect2 K) : Aabb2 K := ⟨a.pos, a.pos.add a.dim⟩

/-- math.c:1689-1694 `zpl_aabb3_rect3`. -/
def aabb3_rect3 [Add K] (a : Rect3 K) : Aabb3 K := ⟨a.pos, a.pos.add a.dim⟩

/-- math.c:1696-1701 `zpl_rect2_aabb2`. -/
def rect2_aabb2 [Sub K] (a : Aabb2 K) : Rect2 K := ⟨a.min, a.max.sub a.min⟩

/-- math.c:1702-1707 `zpl_rect3_aabb3`. -/
def rect3_aabb3 [Sub K] (a : Aabb3 K) : Rect3 K := ⟨a.min, a.max.sub a.min⟩

/-- math.c:1709-1716 `zpl_rect2_contains`. -/
def rect2_contains [LE K] [LT K] [DecidableLE K] [DecidableLT K] [Add K] (a : Rect2 K) (x y : K) : Bool :=
  let min_x := zmin a.pos.x (a.pos.x + a.dim.x)
  let max_x := zmax a.pos.x (a.pos.x + a.dim.x)
  let min_y := zmin a.pos.y (a.pos.y + a.dim.y)
  let max_y := zmax a.pos.y (a.pos.y + a.dim.y)
  decide (x ≥ min_x) && decide (x < max_x) && decide (y ≥ min_y) && decide (y < max_y)

/-- math.c:1718 `zpl_rect2_contains_vec2`. -/
def rect2_contains_vec2 [LE K] [LT K] [DecidableLE K] [DecidableLT K] [Add K] (a : Rect2 K) (p : V2 K) : Bool := rect2_contains a p.x p.y

/-- math.c:1725-1750 `zpl_rect2_intersection_result`: the result and `*intersection`. -/
def rect2_intersection_result [LT K] [DecidableLT K] [Zero K] [Add K] [Sub K] (a b : Rect2 K) : Bool × Rect2 K :=
  let a_min_x := zmin a.pos.x (a.pos.x + a.dim.x)
  let a_max_x := zmax a.pos.x (a.pos.x + a.dim.x)
  let a_min_y := zmin a.pos.y (a.pos.y + a.dim.y)
  let a_max_y := zmax a.pos.y (a.pos.y + a.dim.y)
  let b_min_x := zmin b.pos.x (b.pos.x + b.dim.x)
  let b_max_x := zmax b.pos.x (b.pos.x + b.dim.x)
  let b_min_y := zmin b.pos.y (b.pos.y + b.dim.y)
  let b_max_y := zmax b.pos.y (b.pos.y + b.dim.y)
  let x0 := zmax a_min_x b_min_x
  let y0 := zmax a_min_y b_min_y
  let x1 := zmin a_max_x b_max_x
  let y1 := zmin a_max_y b_max_y
  if x0 < x1 ∧ y0 < y1 then (true, ⟨⟨x0, y0⟩, ⟨x1 - x0, y1 - y0⟩⟩) else (false, ⟨⟨0, 0⟩, ⟨0, 0⟩⟩)

/-- math.c:1720-1723 `zpl_rect2_intersects`. -/
def rect2_intersects [LT K] [DecidableLT K] [Zero K] [Add K] [Sub K] (a b : Rect2 K) : Bool := (rect2_intersection_result a b).1

/-- helpers.h:128 `zpl_is_between_limit`. -/
def betweenLimit [LE K] [LT K] [DecidableLE K] [DecidableLT K] (x lower upper : K) : Bool := decide (lower ≤ x) && decide (x < upper)

/-- math.c:1752-1754 `zpl_aabb2_contains`. -/
def aabb2_contains [LE K] [LT K] [DecidableLE K] [DecidableLT K] (a : Aabb2 K) (x y : K) : Bool :=
  betweenLimit x a.min.x a.max.x && betweenLimit y a.min.y a.max.y

/-- math.c:1756-1758 `zpl_aabb3_contains`. -/
def aabb3_contains [LE K] [LT K] [DecidableLE K] [DecidableLT K] (a : Aabb3 K) (x y z : K) : Bool :=
  betweenLimit x a.min.x a.max.x && betweenLimit y a.min.y a.max.y && betweenLimit z a.min.z a.max.z

/-- math.c:1760-1764 `zpl_aabb2_cut_left`: the part cut off and what is left in `*a`; so for the other three. -/
def cut_left [LT K] [DecidableLT K] [Add K] (a : Aabb2 K) (b : K) : Aabb2 K × Aabb2 K :=
  let minx := a.min.x
  let a := { a with min := { a.min with x := zmin a.max.x (a.min.x + b) } }
  (aabb2f minx a.min.y a.min.x a.max.y, a)

/-- math.c:1765-1769 `zpl_aabb2_cut_right`. -/
def cut_right [LT K] [DecidableLT K] [Sub K] (a : Aabb2 K) (b : K) : Aabb2 K × Aabb2 K :=
  let maxx := a.max.x
  let a := { a with max := { a.max with x := zmax a.min.x (a.max.x - b) } }
  (aabb2f a.max.x a.min.y maxx a.max.y, a)

/-- math.c:1770-1774 `zpl_aabb2_cut_top`. -/
def cut_top [LT K] [DecidableLT K] [Add K] (a : Aabb2 K) (b : K) : Aabb2 K × Aabb2 K :=
  let miny := a.min.y
  let a := { a with min := { a.min with y := zmin a.max.y (a.min.y + b) } }
  (aabb2f a.min.x miny a.max.x a.min.y, a)

/-- math.c:1775-1779 `zpl_aabb2_cut_bottom`. -/
def cut_bottom [LT K] [DecidableLT K] [Sub K] (a : Aabb2 K) (b : K) : Aabb2 K × Aabb2 K :=
  let maxy := a.max.y
  let a := { a with max := { a.max with y := zmax a.min.y (a.max.y - b) } }
  (aabb2f a.min.x a.max.y a.max.x maxy, a)

/-- math.c:1781-1785 `zpl_aabb2_get_left`. -/
def get_left [LT K] [DecidableLT K] [Add K] (a : Aabb2 K) (b : K) : Aabb2 K :=
  aabb2f a.min.x a.min.y (zmin a.max.x (a.min.x + b)) a.max.y

/-- math.c:1786-1790 `zpl_aabb2_get_right`. -/
def get_right [LT K] [DecidableLT K] [Sub K] (a : Aabb2 K) (b : K) : Aabb2 K :=
  aabb2f (zmax a.min.x (a.max.x - b)) a.min.y a.max.x a.max.y

/-- math.c:1791-1795 `zpl_aabb2_get_top`. -/
def get_top [LT K] [DecidableLT K] [Add K] (a : Aabb2 K) (b : K) : Aabb2 K :=
  aabb2f a.min.x a.min.y a.max.x (zmin a.max.y (a.min.y + b))

/-- math.c:1796-1800 `zpl_aabb2_get_bottom`. -/
def get_bottom [LT K] [DecidableLT K] [Sub K] (a : Aabb2 K) (b : K) : Aabb2 K :=
  aabb2f a.min.x (zmax a.min.y (a.max.y - b)) a.max.x a.max.y

/-- math.c:1802-1804 `zpl_aabb2_add_left`. -/
def add_left [Sub K] (a : Aabb2 K) (b : K) : Aabb2 K := aabb2f (a.min.x - b) a.min.y a.min.x a.max.y
/-- math.c:1805-1807 `zpl_aabb2_add_right`. -/
def add_right [Add K] (a : Aabb2 K) (b : K) : Aabb2 K := aabb2f a.max.x a.min.y (a.max.x + b) a.max.y
/-- math.c:1808-1810 `zpl_aabb2_add_top`. -/
def add_top [Sub K] (a : Aabb2 K) (b : K) : Aabb2 K := aabb2f a.min.x (a.min.y - b) a.max.x a.min.y
/-- math.c:1811-1813 `zpl_aabb2_add_bottom`. -/
def add_bottom [Add K] (a : Aabb2 K) (b : K) : Aabb2 K := aabb2f a.min.x a.max.y a.max.x (a.max.y + b)

/-- math.c:1815-1825 `zpl_aabb2_contract`. -/
def contract [LT K] [DecidableLT K] [Zero K] [Add K] [Sub K] [Mul K] (a : Aabb2 K) (b : K) : Aabb2 K :=
  let r : Aabb2 K := ⟨a.min.add ⟨b, b⟩, a.max.sub ⟨b, b⟩⟩
  if r.min.mag2 > r.max.mag2 then aabb2f 0 0 0 0 else r

/-- math.c:1826-1828 `zpl_aabb2_expand`. -/
def expand [LT K] [DecidableLT K] [Zero K] [Neg K] [Add K] [Sub K] [Mul K] (a : Aabb2 K) (b : K) : Aabb2 K := contract a (-b)

end model

/-! ## Specification -/

/-- `x` lies between the two ends, the lower one included and the upper one not; the ends may be given in any order. -/
def Between {K : Type} [LE K] [LT K] (p q x : K) : Prop := (p ≤ x ∧ x < q) ∨ (q ≤ x ∧ x < p)

/-- The point lies in the rectangle: a rectangle reaches from `pos` to `pos + dim`, and `dim` may be negative. -/
def Rect2.Has {K : Type} [LE K] [LT K] [Add K] (r : Rect2 K) (x y : K) : Prop :=
  Between r.pos.x (r.pos.x + r.dim.x) x ∧ Between r.pos.y (r.pos.y + r.dim.y) y

/-- The point lies in the box; the lower edges belong to it, the upper ones do not. -/
def Aabb2.Has {K : Type} [LE K] [LT K] (a : Aabb2 K) (x y : K) : Prop := (a.min.x ≤ x ∧ x < a.max.x) ∧ (a.min.y ≤ y ∧ y < a.max.y)

/-- A box whose upper ends are not below its lower ends. -/
def Aabb2.Ordered {K : Type} [LE K] (a : Aabb2 K) : Prop := a.min.x ≤ a.max.x ∧ a.min.y ≤ a.max.y

section order

variable {K : Type} [LinearOrder K]

theorem zmin_eq (a b : K) : zmin a b = min a b := by
  unfold zmin
  split
  · rename_i h; rw [min_eq_left (le_of_lt h)]
  · rename_i h; rw [min_eq_right (not_lt.mp h)]

theorem zmax_eq (a b : K) : zmax a b = max a b := by
  unfold zmax
  split
  · rename_i h; rw [max_eq_left (le_of_lt h)]
  · rename_i h; rw [max_eq_right (not_lt.mp h)]

theorem between_iff (p q x : K) : Between p q x ↔ min p q ≤ x ∧ x < max p q := by
  unfold Between
  rcases le_total p q with h | h
  · rw [min_eq_left h, max_eq_right h]
    constructor
    · rintro (h1 | ⟨h1, h2⟩)
      · exact h1
      · exact absurd (lt_of_le_of_lt (le_trans h h1) h2) (lt_irrefl _)
    · exact Or.inl
  · rw [min_eq_right h, max_eq_left h]
    constructor
    · rintro (⟨h1, h2⟩ | h1)
      · exact absurd (lt_of_le_of_lt (le_trans h h1) h2) (lt_irrefl _)
      · exact h1
    · exact Or.inr

theorem aabb2_contains_iff (a : Aabb2 K) (x y : K) : aabb2_contains a x y = true ↔ a.Has x y := by
  simp [aabb2_contains, betweenLimit, Aabb2.Has]

end order

/-! ## C90: rectangles -/

section C90

variable {K : Type} [LinearOrder K]

/-- C90: a point is reported to lie in a rectangle exactly when it does.  Nothing is asked of the addition. -/
theorem C90_contains [Add K] (r : Rect2 K) (x y : K) : rect2_contains r x y = true ↔ r.Has x y := by
  simp only [rect2_contains, Rect2.Has, between_iff, zmin_eq, zmax_eq, Bool.and_eq_true, decide_eq_true_eq, ge_iff_le]
  constructor
  · rintro ⟨⟨⟨h1, h2⟩, h3⟩, h4⟩; exact ⟨⟨h1, h2⟩, h3, h4⟩
  · rintro ⟨⟨h1, h2⟩, h3, h4⟩; exact ⟨⟨⟨h1, h2⟩, h3⟩, h4⟩

/-- C90: two rectangles are reported to intersect exactly when some point lies in both.  Nothing is asked of the arithmetic. -/
theorem C90_intersects [Zero K] [Add K] [Sub K] (a b : Rect2 K) : rect2_intersects a b = true ↔ ∃ x y, a.Has x y ∧ b.Has x y := by
  simp only [rect2_intersects, rect2_intersection_result, Rect2.Has, between_iff, zmin_eq, zmax_eq]
  constructor
  · intro h
    split at h
    · rename_i hc
      obtain ⟨h1, h2⟩ := hc
      obtain ⟨h3, h4⟩ := lt_min_iff.mp h1
      obtain ⟨h5, h6⟩ := lt_min_iff.mp h2
      exact ⟨_, _, ⟨⟨le_max_left _ _, h3⟩, le_max_left _ _, h5⟩, ⟨le_max_right _ _, h4⟩, le_max_right _ _, h6⟩
    · exact absurd h (by simp)
  · rintro ⟨x, y, ⟨⟨h1, h2⟩, h3, h4⟩, ⟨h5, h6⟩, h7, h8⟩
    rw [if_pos ⟨lt_of_le_of_lt (max_le h1 h5) (lt_min h2 h6), lt_of_le_of_lt (max_le h3 h7) (lt_min h4 h8)⟩]

/-- C90: the order of the two rectangles does not matter. -/
theorem C90_intersects_comm [Zero K] [Add K] [Sub K] (a b : Rect2 K) : rect2_intersects a b = rect2_intersects b a := by
  rw [Bool.eq_iff_iff, C90_intersects, C90_intersects]
  constructor <;> rintro ⟨x, y, h1, h2⟩ <;> exact ⟨x, y, h2, h1⟩

end C90

section exact

variable {K : Type} [Field K] [LinearOrder K] [IsStrictOrderedRing K]

/-- C90: in exact arithmetic the intersection holds the points that lie in both rectangles and no others. -/
theorem C90_intersection (a b : Rect2 K) (x y : K) :
    (rect2_intersection_result a b).2.Has x y ↔ a.Has x y ∧ b.Has x y := by
  simp only [rect2_intersection_result, Rect2.Has, between_iff, zmin_eq, zmax_eq]
  split
  · rename_i hc
    obtain ⟨h1, h2⟩ := hc
    simp only [add_sub_cancel]
    rw [min_eq_left (le_of_lt h1), max_eq_right (le_of_lt h1), min_eq_left (le_of_lt h2), max_eq_right (le_of_lt h2)]
    simp only [max_le_iff, lt_min_iff]
    constructor
    · rintro ⟨⟨⟨a1, a2⟩, a3, a4⟩, ⟨a5, a6⟩, a7, a8⟩; exact ⟨⟨⟨a1, a3⟩, a5, a7⟩, ⟨a2, a4⟩, a6, a8⟩
    · rintro ⟨⟨⟨a1, a3⟩, a5, a7⟩, ⟨a2, a4⟩, a6, a8⟩; exact ⟨⟨⟨a1, a2⟩, a3, a4⟩, ⟨a5, a6⟩, a7, a8⟩
  · rename_i hc
    constructor
    · rintro ⟨⟨h1, h2⟩, -⟩
      simp only [add_zero, min_self, max_self] at h1 h2
      exact absurd (lt_of_le_of_lt h1 h2) (lt_irrefl _)
    · rintro ⟨⟨⟨h1, h2⟩, h3, h4⟩, ⟨h5, h6⟩, h7, h8⟩
      exact absurd ⟨lt_of_le_of_lt (max_le h1 h5) (lt_min h2 h6), lt_of_le_of_lt (max_le h3 h7) (lt_min h4 h8)⟩ hc

/-- C90: in exact arithmetic a box survives being turned into a rectangle and back, and so does a rectangle. -/
theorem C90_box_and_rectangle (a : Aabb2 K) (r : Rect2 K) (a3 : Aabb3 K) (r3 : Rect3 K) :
    aabb2_rect2 (rect2_aabb2 a) = a ∧ rect2_aabb2 (aabb2_rect2 r) = r ∧
    aabb3_rect3 (rect3_aabb3 a3) = a3 ∧ rect3_aabb3 (aabb3_rect3 r3) = r3 := by
  refine ⟨?_, ?_, ?_, ?_⟩
  · simp [aabb2_rect2, rect2_aabb2, V2.add, V2.sub]
  · simp [aabb2_rect2, rect2_aabb2, V2.add, V2.sub]
  · simp [aabb3_rect3, rect3_aabb3, V3.add, V3.sub]
  · simp [aabb3_rect3, rect3_aabb3, V3.add, V3.sub]

/-- C90: for a rectangle whose sides are not negative the box made of it holds the same points. -/
theorem C90_same_points_partial (r : Rect2 K) (hx : 0 ≤ r.dim.x) (hy : 0 ≤ r.dim.y) (x y : K) :
    aabb2_contains (aabb2_rect2 r) x y = rect2_contains r x y := by
  rw [Bool.eq_iff_iff, C90_contains, aabb2_contains_iff]
  simp only [Rect2.Has, between_iff, Aabb2.Has, aabb2_rect2, V2.add]
  rw [min_eq_left (by linarith), max_eq_right (by linarith), min_eq_left (by linarith), max_eq_right (by linarith)]

/-- C90, what fails: a rectangle with a negative side has points (if the other side is not zero), the box made of it has none. -/
theorem C90_negative_sides_lost (r : Rect2 K) (hx : r.dim.x < 0) (hy : r.dim.y ≠ 0) :
    (∃ x y, rect2_contains r x y = true) ∧ ∀ x y, aabb2_contains (aabb2_rect2 r) x y = false := by
  constructor
  · rcases lt_or_gt_of_ne hy with h | h
    · refine ⟨r.pos.x + r.dim.x, r.pos.y + r.dim.y, (C90_contains r _ _).mpr ⟨Or.inr ⟨le_refl _, by linarith⟩, Or.inr ⟨le_refl _, by linarith⟩⟩⟩
    · refine ⟨r.pos.x + r.dim.x, r.pos.y, (C90_contains r _ _).mpr ⟨Or.inr ⟨le_refl _, by linarith⟩, Or.inl ⟨le_refl _, by linarith⟩⟩⟩
  · intro x y
    rw [Bool.eq_false_iff]
    intro h
    obtain ⟨⟨h1, h2⟩, -⟩ := (aabb2_contains_iff _ _ _).mp h
    simp only [aabb2_rect2, V2.add] at h1 h2
    linarith

end exact

example : rect2_intersection_result (K := ℚ) ⟨⟨0, 0⟩, ⟨4, 4⟩⟩ ⟨⟨6, 1⟩, ⟨-3, 2⟩⟩ = (true, ⟨⟨3, 1⟩, ⟨1, 2⟩⟩) := by decide +kernel

example : rect2_intersects (K := ℚ) ⟨⟨0, 0⟩, ⟨4, 4⟩⟩ ⟨⟨4, 1⟩, ⟨3, 2⟩⟩ = false := by decide +kernel

/-! ## C91: cutting boxes -/

/-- The side a strip is cut off from; `top` is the lower end of `y`. -/
inductive Side where
  | left | right | top | bottom
  deriving DecidableEq

section C91

variable {K : Type} [LinearOrder K] [Zero K] [Add K] [Sub K]

/-- The four functions under one name. -/
def cut : Side → Aabb2 K → K → Aabb2 K × Aabb2 K
  | .left, a, b => cut_left a b
  | .right, a, b => cut_right a b
  | .top, a, b => cut_top a b
  | .bottom, a, b => cut_bottom a b

/-- The four functions under one name. -/
def get : Side → Aabb2 K → K → Aabb2 K
  | .left, a, b => get_left a b
  | .right, a, b => get_right a b
  | .top, a, b => get_top a b
  | .bottom, a, b => get_bottom a b

/-- The four functions under one name. -/
def grow : Side → Aabb2 K → K → Aabb2 K
  | .left, a, b => add_left a b
  | .right, a, b => add_right a b
  | .top, a, b => add_top a b
  | .bottom, a, b => add_bottom a b

/-- A client that cuts strips off one after another: the strips and what is left. -/
def cutAll : List (Side × K) → Aabb2 K → List (Aabb2 K) × Aabb2 K
  | [], a => ([], a)
  | (s, b) :: cs, a => ((cut s a b).1 :: (cutAll cs (cut s a b).2).1, (cutAll cs (cut s a b).2).2)

/-- What is asked of the arithmetic: adding what is not negative does not make a number smaller, taking it away does not make it larger.  Rounded arithmetic does this too. -/
structure Mono (K : Type) [LinearOrder K] [Zero K] [Add K] [Sub K] : Prop where
  le_add : ∀ a b : K, 0 ≤ b → a ≤ a + b
  sub_le : ∀ a b : K, 0 ≤ b → a - b ≤ a

theorem cut_ordered (s : Side) (a : Aabb2 K) (b : K) (ha : a.Ordered) : (cut s a b).2.Ordered := by
  obtain ⟨h1, h2⟩ := ha
  cases s <;> simp only [cut, cut_left, cut_right, cut_top, cut_bottom, Aabb2.Ordered, zmin_eq, zmax_eq]
  · exact ⟨min_le_left _ _, h2⟩
  · exact ⟨le_max_left _ _, h2⟩
  · exact ⟨h1, min_le_left _ _⟩
  · exact ⟨h1, le_max_left _ _⟩

theorem split_low {p q c x : K} (h1 : p ≤ c) (h2 : c ≤ q) : (p ≤ x ∧ x < q) ↔ ((p ≤ x ∧ x < c) ∨ (c ≤ x ∧ x < q)) := by
  constructor
  · rintro ⟨h3, h4⟩
    rcases lt_or_ge x c with h | h
    · exact Or.inl ⟨h3, h⟩
    · exact Or.inr ⟨h, h4⟩
  · rintro (⟨h3, h4⟩ | ⟨h3, h4⟩)
    · exact ⟨h3, lt_of_lt_of_le h4 h2⟩
    · exact ⟨le_trans h1 h3, h4⟩

/-- C91: cutting a strip off a box moves each point of the box to the strip or leaves it in the box, never both, and adds no point. -/
theorem C91_cut (M : Mono K) (s : Side) (a : Aabb2 K) (b : K) (ha : a.Ordered) (hb : 0 ≤ b) (x y : K) :
    (a.Has x y ↔ (cut s a b).1.Has x y ∨ (cut s a b).2.Has x y) ∧ ¬ ((cut s a b).1.Has x y ∧ (cut s a b).2.Has x y) := by
  obtain ⟨h1, h2⟩ := ha
  cases s <;> simp only [cut, cut_left, cut_right, cut_top, cut_bottom, Aabb2.Has, aabb2f, zmin_eq, zmax_eq]
  · constructor
    · rw [split_low (p := a.min.x) (q := a.max.x) (le_min h1 (M.le_add _ _ hb)) (min_le_left _ _)]
      exact or_and_right
    · rintro ⟨⟨⟨-, h3⟩, -⟩, ⟨h4, -⟩, -⟩; exact lt_irrefl _ (lt_of_lt_of_le h3 h4)
  · constructor
    · rw [split_low (p := a.min.x) (q := a.max.x) (le_max_left _ (a.max.x - b)) (max_le h1 (M.sub_le _ _ hb)), or_and_right]
      exact Or.comm
    · rintro ⟨⟨⟨h3, -⟩, -⟩, ⟨-, h4⟩, -⟩; exact lt_irrefl _ (lt_of_lt_of_le h4 h3)
  · constructor
    · rw [split_low (p := a.min.y) (q := a.max.y) (le_min h2 (M.le_add _ _ hb)) (min_le_left _ _)]
      exact and_or_left
    · rintro ⟨⟨-, -, h3⟩, -, h4, -⟩; exact lt_irrefl _ (lt_of_lt_of_le h3 h4)
  · constructor
    · rw [split_low (p := a.min.y) (q := a.max.y) (le_max_left _ (a.max.y - b)) (max_le h2 (M.sub_le _ _ hb)), and_or_left]
      exact Or.comm
    · rintro ⟨⟨-, h3, -⟩, -, -, h4⟩; exact lt_irrefl _ (lt_of_lt_of_le h4 h3)

/-- C91: however many strips are cut off, each point of the box is in exactly one of the strips and the rest, and each other point in none. -/
theorem C91_partition (M : Mono K) (cs : List (Side × K)) (hcs : ∀ c ∈ cs, 0 ≤ c.2) (a : Aabb2 K) (ha : a.Ordered) (x y : K) :
    (((cutAll cs a).1 ++ [(cutAll cs a).2]).filter (aabb2_contains · x y)).length = if aabb2_contains a x y then 1 else 0 := by
  induction cs generalizing a with
  | nil => simp only [cutAll, List.nil_append, List.filter_cons, List.filter_nil]; split <;> rfl
  | cons c cs ih =>
    obtain ⟨s, b⟩ := c
    have hb : 0 ≤ b := hcs _ (List.mem_cons_self)
    have ih' := ih (fun c hc => hcs c (List.mem_cons_of_mem _ hc)) (cut s a b).2 (cut_ordered s a b ha)
    obtain ⟨h1, h2⟩ := C91_cut M s a b ha hb x y
    rw [← aabb2_contains_iff, ← aabb2_contains_iff, ← aabb2_contains_iff] at h1
    rw [← aabb2_contains_iff, ← aabb2_contains_iff] at h2
    simp only [cutAll, List.cons_append, List.filter_cons]
    by_cases hp : aabb2_contains (cut s a b).1 x y = true
    · have hr : ¬ aabb2_contains (cut s a b).2 x y = true := fun h => h2 ⟨hp, h⟩
      rw [if_pos hp, List.length_cons, ih', if_neg hr, if_pos (h1.mpr (Or.inl hp))]
    · rw [if_neg hp, ih']
      by_cases hr : aabb2_contains (cut s a b).2 x y = true
      · rw [if_pos hr, if_pos (h1.mpr (Or.inr hr))]
      · rw [if_neg hr, if_neg]
        intro h
        rcases h1.mp h with h | h
        · exact hp h
        · exact hr h

/-- C91: looking at a strip gives the strip that cutting would. -/
theorem C91_get (s : Side) (a : Aabb2 K) (b : K) : get s a b = (cut s a b).1 := by
  cases s <;> rfl

/-- C91: cutting never makes a strip or a rest reach beyond the box. -/
theorem C91_inside (M : Mono K) (cs : List (Side × K)) (hcs : ∀ c ∈ cs, 0 ≤ c.2) (a : Aabb2 K) (ha : a.Ordered) (x y : K) :
    (∃ p ∈ (cutAll cs a).1 ++ [(cutAll cs a).2], p.Has x y) ↔ a.Has x y := by
  have h := C91_partition M cs hcs a ha x y
  constructor
  · rintro ⟨p, hp, hx⟩
    by_contra hn
    rw [← aabb2_contains_iff] at hx hn
    rw [if_neg hn, List.length_eq_zero_iff, List.filter_eq_nil_iff] at h
    exact h p hp hx
  · intro hx
    rw [if_pos ((aabb2_contains_iff _ _ _).mpr hx)] at h
    have hne : ((cutAll cs a).1 ++ [(cutAll cs a).2]).filter (aabb2_contains · x y) ≠ [] := by
      intro h0; rw [h0] at h; exact absurd h (by simp)
    obtain ⟨p, hp⟩ := List.exists_mem_of_ne_nil _ hne
    obtain ⟨h1, h2⟩ := List.mem_filter.mp hp
    exact ⟨p, h1, (aabb2_contains_iff _ _ _).mp h2⟩

end C91

section C91exact

variable {K : Type} [Field K] [LinearOrder K] [IsStrictOrderedRing K]

theorem mono_exact : Mono K := ⟨fun a b h => by linarith, fun a b h => by linarith⟩

/-- The width of a box. -/
def Aabb2.width (a : Aabb2 K) : K := a.max.x - a.min.x
/-- The height of a box. -/
def Aabb2.height (a : Aabb2 K) : K := a.max.y - a.min.y

/-- C91: in exact arithmetic a strip is as wide as asked for when the box is wide enough, and the whole box otherwise; the other measure is that of the box. -/
theorem C91_size (a : Aabb2 K) (b : K) :
    ((cut .left a b).1.width = min a.width b ∧ (cut .left a b).1.height = a.height) ∧
    ((cut .right a b).1.width = min a.width b ∧ (cut .right a b).1.height = a.height) ∧
    ((cut .top a b).1.height = min a.height b ∧ (cut .top a b).1.width = a.width) ∧
    ((cut .bottom a b).1.height = min a.height b ∧ (cut .bottom a b).1.width = a.width) := by
  simp only [cut, cut_left, cut_right, cut_top, cut_bottom, Aabb2.width, Aabb2.height, aabb2f, zmin_eq, zmax_eq, and_true]
  refine ⟨?_, ?_, ?_, ?_⟩
  · rcases le_total a.max.x (a.min.x + b) with h | h
    · rw [min_eq_left h, min_eq_left (by linarith)]
    · rw [min_eq_right h, min_eq_right (by linarith)]; ring
  · rcases le_total a.min.x (a.max.x - b) with h | h
    · rw [max_eq_right h, min_eq_right (by linarith)]; ring
    · rw [max_eq_left h, min_eq_left (by linarith)]
  · rcases le_total a.max.y (a.min.y + b) with h | h
    · rw [min_eq_left h, min_eq_left (by linarith)]
    · rw [min_eq_right h, min_eq_right (by linarith)]; ring
  · rcases le_total a.min.y (a.max.y - b) with h | h
    · rw [max_eq_right h, min_eq_right (by linarith)]; ring
    · rw [max_eq_left h, min_eq_left (by linarith)]

/-- C91: in exact arithmetic a strip put beside a box has the asked width, touches the box and shares no point with it; cutting it off the joined box gives both back. -/
theorem C91_grow (a : Aabb2 K) (b : K) (ha : a.Ordered) :
    cut .left ⟨(grow .left a b).min, a.max⟩ b = (grow .left a b, a) ∧
    cut .right ⟨a.min, (grow .right a b).max⟩ b = (grow .right a b, a) ∧
    cut .top ⟨(grow .top a b).min, a.max⟩ b = (grow .top a b, a) ∧
    cut .bottom ⟨a.min, (grow .bottom a b).max⟩ b = (grow .bottom a b, a) := by
  obtain ⟨h1, h2⟩ := ha
  simp only [cut, grow, cut_left, cut_right, cut_top, cut_bottom, add_left, add_right, add_top, add_bottom, aabb2f, zmin_eq, zmax_eq]
  have e1 : a.min.x - b + b = a.min.x := by ring
  have e2 : a.max.x + b - b = a.max.x := by ring
  have e3 : a.min.y - b + b = a.min.y := by ring
  have e4 : a.max.y + b - b = a.max.y := by ring
  rw [e1, e2, e3, e4, min_eq_right h1, max_eq_right h1, min_eq_right h2, max_eq_right h2]
  exact ⟨rfl, rfl, rfl, rfl⟩

/-- C91, why the width must not be negative: otherwise the strip holds nothing and the box grows beyond its edge. -/
theorem C91_negative_grows (a : Aabb2 K) (b : K) (hx : a.min.x ≤ a.max.x) (hy : a.min.y < a.max.y) (hb : b < 0) :
    (∀ x y, ¬ (cut .left a b).1.Has x y) ∧ (cut .left a b).2.Has (a.min.x + b) a.min.y ∧ ¬ a.Has (a.min.x + b) a.min.y := by
  simp only [cut, cut_left, Aabb2.Has, aabb2f, zmin_eq]
  rw [min_eq_right (by linarith)]
  refine ⟨?_, ⟨⟨le_refl _, by linarith⟩, le_refl _, hy⟩, ?_⟩
  · rintro x y ⟨⟨h1, h2⟩, -⟩; linarith
  · rintro ⟨⟨h1, -⟩, -⟩; linarith

end C91exact

example : Mono ℚ := mono_exact

example : cutAll (K := ℚ) [(.left, 3), (.top, 2), (.right, 100)] ⟨⟨0, 0⟩, ⟨10, 5⟩⟩ =
    ([⟨⟨0, 0⟩, ⟨3, 5⟩⟩, ⟨⟨3, 0⟩, ⟨10, 2⟩⟩, ⟨⟨3, 2⟩, ⟨10, 5⟩⟩], ⟨⟨3, 2⟩, ⟨3, 5⟩⟩) := by decide +kernel

example : (⟨⟨0, 0⟩, ⟨10, 5⟩⟩ : Aabb2 ℚ).Ordered := ⟨by decide, by decide⟩

/-! ## C92: shrinking and growing boxes -/

section C92

variable {K : Type} [Field K] [LinearOrder K] [IsStrictOrderedRing K]

theorem shrunk_has (a : Aabb2 K) (b x y : K) :
    (⟨a.min.add ⟨b, b⟩, a.max.sub ⟨b, b⟩⟩ : Aabb2 K).Has x y ↔
      (a.min.x + b ≤ x ∧ x < a.max.x - b) ∧ (a.min.y + b ≤ y ∧ y < a.max.y - b) := Iff.rfl

theorem mag2_gap (a : Aabb2 K) (b : K) :
    (a.min.add ⟨b, b⟩).mag2 - (a.max.sub ⟨b, b⟩).mag2 =
      -((a.width - 2 * b) * (a.min.x + a.max.x) + (a.height - 2 * b) * (a.min.y + a.max.y)) := by
  simp only [V2.add, V2.sub, V2.mag2, V2.dot, Aabb2.width, Aabb2.height]; ring

/-- C92, for boxes whose centre has no negative coordinate: shrinking a box by `b` leaves the points that are at least `b` away from its edges in both directions. -/
theorem C92_contract_partial (a : Aabb2 K) (b : K) (hx : 0 ≤ a.min.x + a.max.x) (hy : 0 ≤ a.min.y + a.max.y) (x y : K) :
    (contract a b).Has x y ↔ (a.min.x + b ≤ x ∧ x < a.max.x - b) ∧ (a.min.y + b ≤ y ∧ y < a.max.y - b) := by
  simp only [contract]
  split
  · rename_i hc
    constructor
    · rintro ⟨⟨h1, h2⟩, -⟩
      exact absurd (lt_of_le_of_lt h1 h2) (lt_irrefl _)
    · rintro ⟨⟨h1, h2⟩, h3, h4⟩
      exfalso
      have hg := mag2_gap a b
      have hw : 0 ≤ a.width - 2 * b := by simp only [Aabb2.width]; linarith
      have hh : 0 ≤ a.height - 2 * b := by simp only [Aabb2.height]; linarith
      have := mul_nonneg hw hx
      have := mul_nonneg hh hy
      linarith
  · exact shrunk_has a b x y

/-- C92, for boxes whose centre has no negative coordinate: growing a box by `b` adds the points that are less than `b` away from its edges. -/
theorem C92_expand_partial (a : Aabb2 K) (b : K) (hx : 0 ≤ a.min.x + a.max.x) (hy : 0 ≤ a.min.y + a.max.y) (x y : K) :
    (expand a b).Has x y ↔ (a.min.x - b ≤ x ∧ x < a.max.x + b) ∧ (a.min.y - b ≤ y ∧ y < a.max.y + b) := by
  rw [expand, C92_contract_partial a (-b) hx hy]
  simp only [sub_neg_eq_add, ← sub_eq_add_neg]

/-- C92, for boxes whose centre has no negative coordinate and that are not empty: growing and shrinking by the same amount gives the box back. -/
theorem C92_round_trip_partial (a : Aabb2 K) (b : K) (ha : a.Ordered) (hb : 0 ≤ b) (hx : 0 ≤ a.min.x + a.max.x) (hy : 0 ≤ a.min.y + a.max.y) :
    contract (expand a b) b = a := by
  obtain ⟨h1, h2⟩ := ha
  have ne : ∀ (c : Aabb2 K) (d : K), 0 ≤ c.min.x + c.max.x → 0 ≤ c.min.y + c.max.y → 0 ≤ c.width - 2 * d → 0 ≤ c.height - 2 * d →
      contract c d = ⟨c.min.add ⟨d, d⟩, c.max.sub ⟨d, d⟩⟩ := by
    intro c d k1 k2 k3 k4
    simp only [contract]
    rw [if_neg]
    intro hc
    have hg := mag2_gap c d
    have := mul_nonneg k3 k1
    have := mul_nonneg k4 k2
    linarith
  have he : expand a b = ⟨a.min.add ⟨-b, -b⟩, a.max.sub ⟨-b, -b⟩⟩ := by
    rw [expand, ne a (-b) hx hy]
    · simp only [Aabb2.width]; linarith
    · simp only [Aabb2.height]; linarith
  rw [he, ne]
  · simp only [V2.add, V2.sub, neg_add_cancel_right, sub_neg_eq_add, add_sub_cancel_right]
  · simp only [V2.add, V2.sub]; linarith
  · simp only [V2.add, V2.sub]; linarith
  · simp only [Aabb2.width, V2.add, V2.sub]; linarith
  · simp only [Aabb2.height, V2.add, V2.sub]; linarith

/-- C92, what fails: a box with a positive width whose centre has negative coordinates loses all its points when it is grown, however large it is and whatever the amount. -/
theorem C92_expand_loses (a : Aabb2 K) (b : K) (ha : a.Ordered) (hw : a.min.x < a.max.x) (hb : 0 ≤ b)
    (hx : a.min.x + a.max.x < 0) (hy : a.min.y + a.max.y ≤ 0) : expand a b = aabb2f 0 0 0 0 := by
  simp only [expand, contract]
  rw [if_pos]
  have hg := mag2_gap a (-b)
  have k1 : 0 < a.width - 2 * (-b) := by simp only [Aabb2.width]; linarith
  have k2 : 0 ≤ a.height - 2 * (-b) := by simp only [Aabb2.height]; linarith [ha.2]
  have := mul_neg_of_pos_of_neg k1 hx
  have := mul_nonpos_of_nonneg_of_nonpos k2 hy
  linarith

/-- C92, what fails: so does such a box when it is shrunk by less than half its width and height. -/
theorem C92_contract_loses (a : Aabb2 K) (b : K) (hw : 2 * b < a.width) (hh : 2 * b ≤ a.height)
    (hx : a.min.x + a.max.x < 0) (hy : a.min.y + a.max.y ≤ 0) : contract a b = aabb2f 0 0 0 0 := by
  simp only [contract]
  rw [if_pos]
  have hg := mag2_gap a b
  have := mul_neg_of_pos_of_neg (sub_pos.mpr hw) hx
  have := mul_nonpos_of_nonneg_of_nonpos (sub_nonneg.mpr hh) hy
  linarith

end C92

example : contract (K := ℚ) ⟨⟨0, 0⟩, ⟨10, 10⟩⟩ 2 = ⟨⟨2, 2⟩, ⟨8, 8⟩⟩ ∧ expand (K := ℚ) ⟨⟨-3, -3⟩, ⟨1, 1⟩⟩ 2 = ⟨⟨0, 0⟩, ⟨0, 0⟩⟩ := by decide +kernel

end Zpl.Math
