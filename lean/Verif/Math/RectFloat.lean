import Verif.Math.MatFloat
import Verif.Math.Rect

/-!
# Rectangles and boxes in single precision (code/source/math.c:1656-1828)  -  C156

The functions are those of `Math/Rect`, which are written for any numbers; here the numbers are those of single precision.

## Model -/

namespace Zpl.RectF

open Math F32 MathF MatF
open F64 (pow2 pow2_eq pow2_pos pow2_add pow2_le pow2_lt_iff)

/-- The `<` of `zpl_f32`, as in math.c:1714. -/
instance : LT F32 := ⟨fun a b => F32.lt a b = true⟩
instance : DecidableLT F32 := fun a b => inferInstanceAs (Decidable (F32.lt a b = true))
/-- The `<=` of `zpl_f32`, as in math.c:1714; no number is at most NaN. -/
instance : LE F32 := ⟨fun a b => F32.lt a b = true ∨ (a = b ∧ a ≠ nan)⟩
instance : DecidableLE F32 := fun a b => inferInstanceAs (Decidable (F32.lt a b = true ∨ (a = b ∧ a ≠ nan)))

/-- The four functions `zpl_aabb2_cut_left`, … (math.c:1761-1780) under one name. -/
def cutF : Side → Aabb2 F32 → F32 → Aabb2 F32 × Aabb2 F32
  | .left, a, b => cut_left a b
  | .right, a, b => cut_right a b
  | .top, a, b => cut_top a b
  | .bottom, a, b => cut_bottom a b

/-- A client that cuts strips off one after another: the strips and what is left. -/
def cutAllF : List (Side × F32) → Aabb2 F32 → List (Aabb2 F32) × Aabb2 F32
  | [], a => ([], a)
  | (s, b) :: cs, a => ((cutF s a b).1 :: (cutAllF cs (cutF s a b).2).1, (cutAllF cs (cutF s a b).2).2)

/-! ## Specification -/

/-- The numbers of single precision: not infinite, not NaN. -/
def Num : Type := {q : ℚ // Representable q}

/-- The same number as `zpl_f32`. -/
def num (x : Num) : F32 := fin x.1

/-- A box with finite corners. -/
def box (a : Aabb2 Num) : Aabb2 F32 := ⟨⟨num a.min.x, num a.min.y⟩, ⟨num a.max.x, num a.max.y⟩⟩

/-- A rectangle with finite numbers. -/
def rect (a : Rect2 Num) : Rect2 F32 := ⟨⟨num a.pos.x, num a.pos.y⟩, ⟨num a.dim.x, num a.dim.y⟩⟩

instance : LinearOrder Num := inferInstanceAs (LinearOrder {q : ℚ // Representable q})
instance : Zero Num := ⟨⟨0, rep_zero⟩⟩

/-- `x` is between the edges `p` and `q`: at or after the lower, before the higher. -/
def Inside (p q x : ℚ) : Prop := (p ≤ x ∧ x < q) ∨ (q ≤ x ∧ x < p)

/-- The far edge of a side that begins at `p` and is `d` long, in single precision. -/
def edge (p d : Num) : ℚ := rounded (p.1 + d.1)

/-- The point is in the rectangle with these (rounded) edges. -/
def In (r : Rect2 Num) (x y : ℚ) : Prop := Inside r.pos.x.1 (edge r.pos.x r.dim.x) x ∧ Inside r.pos.y.1 (edge r.pos.y r.dim.y) y

/-- No edge is beyond the largest number. -/
def Fits (r : Rect2 Num) : Prop :=
  |r.pos.x.1| ≤ pow2 126 ∧ |r.pos.y.1| ≤ pow2 126 ∧ |r.dim.x.1| ≤ pow2 126 ∧ |r.dim.y.1| ≤ pow2 126

/-! ## Lemmas -/

theorem rep_big : Representable ((2 ^ 24 - 1) * pow2 104) := ⟨2 ^ 24 - 1, 104, by norm_num, by norm_num, by norm_num, by norm_num⟩

/-- The largest number. -/
def big : Num := ⟨_, rep_big⟩

theorem le_big (x : Num) : |x.1| ≤ big.1 := by
  obtain ⟨q, m, e, hm, he, he', rfl⟩ := x
  change |(m : ℚ) * pow2 e| ≤ (2 ^ 24 - 1) * pow2 104
  rw [abs_mul, abs_of_pos (pow2_pos e)]
  have h1 : |(m : ℚ)| ≤ 2 ^ 24 - 1 := by
    have : |m| ≤ 2 ^ 24 - 1 := by omega
    exact_mod_cast this
  exact mul_le_mul h1 (pow2_le he') (pow2_pos _).le (by norm_num)

theorem le_iff (a b : Num) : a ≤ b ↔ a.1 ≤ b.1 := Iff.rfl

theorem le_big' (a : Num) : a ≤ big := (le_iff _ _).mpr ((le_abs_self a.1).trans (le_big a))

/-- A result, or the largest number where it overflows. -/
def clamp : (r : F32) → (∀ q, r = fin q → Representable q) → Num
  | fin q, h => ⟨q, h q rfl⟩
  | inf true, _ => ⟨-big.1, rep_big.neg⟩
  | inf false, _ => big
  | nan, _ => 0

instance : Add Num := ⟨fun a b => clamp (F32.round (a.1 + b.1)) fun _ h => round_representable h⟩
instance : Sub Num := ⟨fun a b => clamp (F32.round (a.1 - b.1)) fun _ h => round_representable h⟩

theorem clamp_fin {q : ℚ} {r : F32} (h : ∀ q, r = fin q → Representable q) (e : r = fin q) : num (clamp r h) = r := by
  subst e; rfl

theorem lt_num (a b : Num) : (num a < num b) ↔ a < b := by
  change decide (a.1 < b.1) = true ↔ a.1 < b.1
  simp

theorem le_num (a b : Num) : (num a ≤ num b) ↔ a ≤ b := by
  change (decide (a.1 < b.1) = true ∨ (fin a.1 = fin b.1 ∧ fin a.1 ≠ nan)) ↔ a.1 ≤ b.1
  simp [le_iff_lt_or_eq]

theorem min_num (a b : Num) : zmin (num a) (num b) = num (zmin a b) := by
  unfold zmin
  by_cases h : a < b
  · rw [if_pos h, if_pos ((lt_num a b).mpr h)]
  · rw [if_neg h, if_neg (fun h' => h ((lt_num a b).mp h'))]

theorem max_num (a b : Num) : zmax (num a) (num b) = num (zmax a b) := by
  unfold zmax
  by_cases h : b < a
  · rw [if_pos h, if_pos ((lt_num b a).mpr h)]
  · rw [if_neg h, if_neg (fun h' => h ((lt_num b a).mp h'))]

theorem num_lt (x : Num) : |x.1| < pow2 128 := by
  have h := round_rep x.2
  unfold F32.round at h
  rw [x.2.rounded] at h
  split at h
  · assumption
  · exact absurd h (by simp)

theorem round_cases (q : ℚ) : (F32.round q = fin (rounded q)) ∨ (F32.round q = inf true ∧ q < 0 ∧ rounded q ≤ -pow2 128) ∨
    (F32.round q = inf false ∧ 0 ≤ q ∧ pow2 128 ≤ rounded q) := by
  unfold F32.round
  split
  · exact Or.inl rfl
  · next h =>
    rw [not_lt] at h
    by_cases hq : q < 0
    · refine Or.inr (Or.inl ⟨by simp [hq], hq, ?_⟩)
      have : rounded q ≤ 0 := rounded_le rep_zero.grid hq.le
      rw [abs_of_nonpos this] at h; linarith
    · refine Or.inr (Or.inr ⟨by simp [hq], not_lt.mp hq, ?_⟩)
      have : 0 ≤ rounded q := rounded_nonneg (not_lt.mp hq)
      rwa [abs_of_nonneg this] at h

theorem val_num (x : Num) : num x = fin x.1 := rfl

/-- Adding what is not negative: the sum, or more than any number. -/
theorem add_up (p b : Num) (hb : 0 ≤ b) : (num p + num b = num (p + b) ∧ p ≤ p + b) ∨ (num p + num b = inf false ∧ p + b = big) := by
  have e : num p + num b = F32.round (p.1 + b.1) := rfl
  have hb' : (0 : ℚ) ≤ b.1 := hb
  have low : p.1 ≤ rounded (p.1 + b.1) := le_rounded p.2.grid (by linarith)
  have hp := (abs_lt.mp (num_lt p)).1
  rcases round_cases (p.1 + b.1) with h | ⟨-, -, h⟩ | ⟨h, -, -⟩
  · left
    have f : num (p + b) = F32.round (p.1 + b.1) := clamp_fin _ h
    refine ⟨e.trans f.symm, ?_⟩
    rw [h, val_num, F32.fin.injEq] at f
    change p.1 ≤ (p + b).1
    rw [f]; exact low
  · linarith
  · right
    refine ⟨e.trans h, ?_⟩
    change clamp (F32.round (p.1 + b.1)) _ = _
    have : ∀ r (hr : ∀ q, r = fin q → Representable q), r = inf false → clamp r hr = big := by rintro r hr rfl; rfl
    exact this _ _ h

/-- Taking away what is not negative: the difference, or less than any number. -/
theorem sub_down (p b : Num) (hb : 0 ≤ b) : (num p - num b = num (p - b) ∧ p - b ≤ p) ∨ (num p - num b = inf true ∧ (p - b).1 = -big.1) := by
  have e : num p - num b = F32.round (p.1 - b.1) := sub_fin _ _
  have hb' : (0 : ℚ) ≤ b.1 := hb
  have high : rounded (p.1 - b.1) ≤ p.1 := rounded_le p.2.grid (by linarith)
  have hp := (abs_lt.mp (num_lt p)).2
  rcases round_cases (p.1 - b.1) with h | ⟨h, -, -⟩ | ⟨-, -, h⟩
  · left
    have f : num (p - b) = F32.round (p.1 - b.1) := clamp_fin _ h
    refine ⟨e.trans f.symm, ?_⟩
    rw [h, val_num, F32.fin.injEq] at f
    change (p - b).1 ≤ p.1
    rw [f]; exact high
  · right
    refine ⟨e.trans h, ?_⟩
    change (clamp (F32.round (p.1 - b.1)) _).1 = _
    have : ∀ r (hr : ∀ q, r = fin q → Representable q), r = inf true → (clamp r hr).1 = -big.1 := by rintro r hr rfl; rfl
    exact this _ _ h
  · linarith

theorem mono : Mono Num := by
  constructor
  · intro a b hb
    rcases add_up a b hb with ⟨-, h⟩ | ⟨-, h⟩
    · exact h
    · rw [h]; exact le_big' a
  · intro a b hb
    rcases sub_down a b hb with ⟨-, h⟩ | ⟨-, h⟩
    · exact h
    · rw [le_iff, h]; exact (abs_le.mp (le_big a)).1

theorem min_add (m p b : Num) (hb : 0 ≤ b) : zmin (num m) (num p + num b) = num (zmin m (p + b)) := by
  rcases add_up p b hb with ⟨h, -⟩ | ⟨h, h'⟩
  · rw [h, min_num]
  · rw [h, h', zmin_eq, min_eq_left (le_big' m)]
    rfl

theorem max_sub (m p b : Num) (hb : 0 ≤ b) : zmax (num m) (num p - num b) = num (zmax m (p - b)) := by
  rcases sub_down p b hb with ⟨h, -⟩ | ⟨h, h'⟩
  · rw [h, max_num]
  · rw [h, zmax_eq, max_eq_left ((le_iff _ _).mpr (by rw [h']; exact (abs_le.mp (le_big m)).1))]
    rfl

/-- Cutting finite boxes gives finite boxes. -/
theorem cut_box (s : Side) (a : Aabb2 Num) (b : Num) (hb : 0 ≤ b) : cutF s (box a) (num b) = (box (cut s a b).1, box (cut s a b).2) := by
  cases s
  · simp only [cutF, cut, cut_left, box, aabb2f, min_add _ _ _ hb]
  · simp only [cutF, cut, cut_right, box, aabb2f, max_sub _ _ _ hb]
  · simp only [cutF, cut, cut_top, box, aabb2f, min_add _ _ _ hb]
  · simp only [cutF, cut, cut_bottom, box, aabb2f, max_sub _ _ _ hb]

theorem cutAll_box (cs : List (Side × Num)) (hcs : ∀ c ∈ cs, 0 ≤ c.2) (a : Aabb2 Num) :
    cutAllF (cs.map fun c => (c.1, num c.2)) (box a) = ((cutAll cs a).1.map box, box (cutAll cs a).2) := by
  induction cs generalizing a with
  | nil => rfl
  | cons c cs ih =>
    obtain ⟨s, b⟩ := c
    have h := cut_box s a b (hcs _ List.mem_cons_self)
    have ih' := ih (fun c hc => hcs c (List.mem_cons_of_mem _ hc)) (cut s a b).2
    simp only [List.map_cons, cutAllF, h, ih', cutAll]

theorem contains_box (a : Aabb2 Num) (x y : Num) : aabb2_contains (box a) (num x) (num y) = aabb2_contains a x y := by
  simp only [aabb2_contains, betweenLimit, box, lt_num, le_num]

/-! ## C156 -/

/-- C156: however many strips are cut off a box in single precision, with whatever rounding or overflow, each point of the box is in exactly one of the strips and the rest, and each
other point in none. -/
theorem C156_partition (cs : List (Side × Num)) (hcs : ∀ c ∈ cs, 0 ≤ c.2.1) (a : Aabb2 Num) (hx : a.min.x.1 ≤ a.max.x.1) (hy : a.min.y.1 ≤ a.max.y.1) (x y : Num) :
    let r := cutAllF (cs.map fun c => (c.1, num c.2)) (box a)
    ((r.1 ++ [r.2]).filter (aabb2_contains · (num x) (num y))).length = if aabb2_contains (box a) (num x) (num y) then 1 else 0 := by
  have h := C91_partition mono cs hcs a ⟨hx, hy⟩ x y
  simp only [cutAll_box cs hcs, contains_box]
  rw [← h, ← List.map_singleton, ← List.map_append, List.filter_map, List.length_map]
  congr 2
  funext b
  exact (contains_box b x y)

theorem add_small (a b : Num) (ha : |a.1| ≤ pow2 126) (hb : |b.1| ≤ pow2 126) : num a + num b = num (a + b) ∧ (a + b).1 = rounded (a.1 + b.1) := by
  have h : F32.round (a.1 + b.1) = fin (rounded (a.1 + b.1)) := by
    refine round_small ((abs_add_le _ _).trans ?_)
    rw [show (127 : ℤ) = 126 + 1 by norm_num, ← two_pow]
    linarith
  have f : num (a + b) = F32.round (a.1 + b.1) := clamp_fin _ h
  refine ⟨f.symm, ?_⟩
  rw [h, val_num, F32.fin.injEq] at f
  exact f

theorem contains_rect (r : Rect2 Num) (hr : Fits r) (x y : Num) : rect2_contains (rect r) (num x) (num y) = rect2_contains r x y := by
  obtain ⟨h1, h2, h3, h4⟩ := hr
  simp only [rect2_contains, rect, (add_small _ _ h1 h3).1, (add_small _ _ h2 h4).1, min_num, max_num, ge_iff_le, le_num, lt_num]

theorem has_in (r : Rect2 Num) (hr : Fits r) (x y : Num) : r.Has x y ↔ In r x.1 y.1 := by
  obtain ⟨h1, h2, h3, h4⟩ := hr
  have e1 := (add_small _ _ h1 h3).2
  have e2 := (add_small _ _ h2 h4).2
  unfold Rect2.Has In Inside edge Between
  rw [← e1, ← e2]
  rfl

/-- C156: a point is said to be in a rectangle exactly if it is between its edges, the far one rounded. -/
theorem C156_contains (r : Rect2 Num) (hr : Fits r) (x y : Num) : rect2_contains (rect r) (num x) (num y) = true ↔ In r x.1 y.1 := by
  rw [contains_rect r hr, C90_contains, has_in r hr]

/-- C156: two rectangles are said to intersect exactly if there is a point in both. -/
theorem C156_intersects (r s : Rect2 Num) (hr : Fits r) (hs : Fits s) : rect2_intersects (rect r) (rect s) = true ↔ ∃ x y : Num, In r x.1 y.1 ∧ In s x.1 y.1 := by
  have e : rect2_intersects (rect r) (rect s) = rect2_intersects r s := by
    obtain ⟨h1, h2, h3, h4⟩ := hr
    obtain ⟨k1, k2, k3, k4⟩ := hs
    simp only [rect2_intersects, rect2_intersection_result, rect, (add_small _ _ h1 h3).1, (add_small _ _ h2 h4).1, (add_small _ _ k1 k3).1, (add_small _ _ k2 k4).1, min_num, max_num, lt_num]
    split <;> rfl
  rw [e, C90_intersects]
  simp only [has_in r hr, has_in s hs]

/-- C156: rectangles put side by side, each beginning at the computed end of the one before, have no point in common and leave no gap. -/
theorem C156_tiles (r s : Rect2 Num) (hr : Fits r) (hs : Fits s) (hw : 0 ≤ r.dim.x.1) (hw' : 0 ≤ s.dim.x.1) (hx : num s.pos.x = num r.pos.x + num r.dim.x)
    (hy : s.pos.y = r.pos.y) (hd : s.dim.y = r.dim.y) (x y : Num) :
    ¬ (rect2_contains (rect r) (num x) (num y) = true ∧ rect2_contains (rect s) (num x) (num y) = true) ∧
    ((rect2_contains (rect r) (num x) (num y) = true ∨ rect2_contains (rect s) (num x) (num y) = true) ↔
      (r.pos.x.1 ≤ x.1 ∧ x.1 < edge s.pos.x s.dim.x) ∧ Inside r.pos.y.1 (edge r.pos.y r.dim.y) y.1) := by
  rw [C156_contains r hr, C156_contains s hs]
  have e : s.pos.x.1 = edge r.pos.x r.dim.x := by
    obtain ⟨h1, h2, h3, h4⟩ := hr
    rw [(add_small _ _ h1 h3).1, val_num, val_num, F32.fin.injEq] at hx
    rw [hx]; exact (add_small _ _ h1 h3).2
  have l1 : r.pos.x.1 ≤ edge r.pos.x r.dim.x := le_rounded r.pos.x.2.grid (by linarith)
  have l2 : s.pos.x.1 ≤ edge s.pos.x s.dim.x := le_rounded s.pos.x.2.grid (by linarith)
  unfold In Inside
  rw [hy, hd, ← e] at *
  generalize edge s.pos.x s.dim.x = E at *
  generalize edge r.pos.y r.dim.y = F at *
  constructor
  · rintro ⟨⟨h1 | h1, -⟩, ⟨h2 | h2, -⟩⟩ <;> linarith [h1.1, h1.2, h2.1, h2.2]
  · constructor
    · rintro (⟨h1 | h1, h⟩ | ⟨h1 | h1, h⟩) <;> exact ⟨⟨by linarith [h1.1, h1.2], by linarith [h1.1, h1.2]⟩, h⟩
    · rintro ⟨⟨h1, h2⟩, h⟩
      rcases lt_or_ge x.1 s.pos.x.1 with g | g
      · exact Or.inl ⟨Or.inl ⟨h1, g⟩, h⟩
      · exact Or.inr ⟨Or.inl ⟨g, h2⟩, h⟩

/-! ## C156: whole numbers -/

/-- A whole number as `zpl_f32`. -/
def wh (n : ℤ) : F32 := fin (n : ℚ)

/-- A rectangle of whole numbers. -/
def wholeRect (r : Rect2 ℤ) : Rect2 F32 := ⟨⟨wh r.pos.x, wh r.pos.y⟩, ⟨wh r.dim.x, wh r.dim.y⟩⟩

/-- A box of whole numbers. -/
def wholeBox (r : Aabb2 ℤ) : Aabb2 F32 := ⟨⟨wh r.min.x, wh r.min.y⟩, ⟨wh r.max.x, wh r.max.y⟩⟩

/-- Numbers that leave room for sums and differences. -/
def Small (b : ℤ) (r : V2 ℤ) : Prop := |r.x| < b ∧ |r.y| < b

theorem wh_add {m n : ℤ} (h : |m + n| < 2 ^ 24) : wh m + wh n = wh (m + n) := add_whole h
theorem wh_sub {m n : ℤ} (h : |m - n| < 2 ^ 24) : wh m - wh n = wh (m - n) := by
  change F32.sub (fin m) (fin n) = _
  rw [sub_fin, ← Int.cast_sub, round_rep (rep_int h)]; rfl
theorem wh_lt {m n : ℤ} : wh m < wh n ↔ m < n := by
  change decide ((m : ℚ) < n) = true ↔ _
  simp
theorem wh_min (m n : ℤ) : zmin (wh m) (wh n) = wh (zmin m n) := by
  unfold zmin; simp only [wh_lt]; split <;> rfl
theorem wh_max (m n : ℤ) : zmax (wh m) (wh n) = wh (zmax m n) := by
  unfold zmax; simp only [gt_iff_lt, wh_lt]; split <;> rfl

/-- The same rectangle over the rational numbers. -/
def ratRect (r : Rect2 ℤ) : Rect2 ℚ := ⟨⟨r.pos.x, r.pos.y⟩, ⟨r.dim.x, r.dim.y⟩⟩

theorem rat_min (m n : ℤ) : zmin (m : ℚ) (n : ℚ) = ((zmin m n : ℤ) : ℚ) := by
  simp only [zmin_eq, Int.cast_min]
theorem rat_max (m n : ℤ) : zmax (m : ℚ) (n : ℚ) = ((zmax m n : ℤ) : ℚ) := by
  simp only [zmax_eq, Int.cast_max]

theorem lower_small {p d : ℤ} (h1 : |p| < 2 ^ 22) (h2 : |d| < 2 ^ 22) : |zmin p (p + d)| < 2 ^ 23 ∧ |zmax p (p + d)| < 2 ^ 23 ∧ |p + d| < 2 ^ 24 := by
  rw [zmin_eq, zmax_eq]
  rw [abs_lt] at *
  simp only [abs_lt]
  omega

theorem both_small {a b : ℤ} (h1 : |a| < 2 ^ 23) (h2 : |b| < 2 ^ 23) : |zmin a b| < 2 ^ 23 ∧ |zmax a b| < 2 ^ 23 ∧ |b - a| < 2 ^ 24 := by
  rw [zmin_eq, zmax_eq]
  rw [abs_lt] at *
  simp only [abs_lt]
  omega

theorem intersection_whole (r s : Rect2 ℤ) (hr : Small (2 ^ 22) r.pos ∧ Small (2 ^ 22) r.dim) (hs : Small (2 ^ 22) s.pos ∧ Small (2 ^ 22) s.dim) :
    rect2_intersection_result (wholeRect r) (wholeRect s) = ((rect2_intersection_result r s).1, wholeRect (rect2_intersection_result r s).2) := by
  obtain ⟨⟨r1, r2⟩, r3, r4⟩ := hr
  obtain ⟨⟨s1, s2⟩, s3, s4⟩ := hs
  have a1 := lower_small r1 r3
  have a2 := lower_small r2 r4
  have a3 := lower_small s1 s3
  have a4 := lower_small s2 s4
  have x0 := (both_small a1.1 a3.1).2.1
  have x1 := (both_small a1.2.1 a3.2.1).1
  have y0 := (both_small a2.1 a4.1).2.1
  have y1 := (both_small a2.2.1 a4.2.1).1
  simp only [rect2_intersection_result, wholeRect, wh_add a1.2.2, wh_add a2.2.2, wh_add a3.2.2, wh_add a4.2.2, wh_min, wh_max, wh_lt,
    wh_sub (both_small x0 x1).2.2, wh_sub (both_small y0 y1).2.2]
  split <;> rfl

theorem intersection_rat (r s : Rect2 ℤ) :
    rect2_intersection_result (ratRect r) (ratRect s) = ((rect2_intersection_result r s).1, ratRect (rect2_intersection_result r s).2) := by
  simp only [rect2_intersection_result, ratRect, ← Int.cast_add, rat_min, rat_max, Int.cast_lt, ← Int.cast_sub]
  split <;> rfl

theorem wh_le_num (n : ℤ) (x : Num) : wh n ≤ num x ↔ (n : ℚ) ≤ x.1 := by
  change (decide ((n : ℚ) < x.1) = true ∨ (fin (n : ℚ) = fin x.1 ∧ fin (n : ℚ) ≠ nan)) ↔ _
  simp [le_iff_lt_or_eq]

theorem num_lt_wh (n : ℤ) (x : Num) : num x < wh n ↔ x.1 < (n : ℚ) := by
  change decide (x.1 < (n : ℚ)) = true ↔ _
  simp

/-- Containment when nothing is rounded. -/
theorem contains_whole (r : Rect2 ℤ) (h : |r.pos.x + r.dim.x| < 2 ^ 24 ∧ |r.pos.y + r.dim.y| < 2 ^ 24) (x y : Num) :
    rect2_contains (wholeRect r) (num x) (num y) = true ↔ (ratRect r).Has x.1 y.1 := by
  rw [← C90_contains]
  simp only [rect2_contains, wholeRect, wh_add h.1, wh_add h.2, wh_min, wh_max, ge_iff_le, wh_le_num, num_lt_wh, ratRect, ← Int.cast_add, rat_min, rat_max]

/-- C156: for rectangles of whole numbers below 2²² the intersection holds the points that lie in both and no others. -/
theorem C156_intersection_partial (r s : Rect2 ℤ) (hr : Small (2 ^ 22) r.pos ∧ Small (2 ^ 22) r.dim) (hs : Small (2 ^ 22) s.pos ∧ Small (2 ^ 22) s.dim) (x y : Num) :
    rect2_contains (rect2_intersection_result (wholeRect r) (wholeRect s)).2 (num x) (num y) = true ↔
    rect2_contains (wholeRect r) (num x) (num y) = true ∧ rect2_contains (wholeRect s) (num x) (num y) = true := by
  have c := C90_intersection (ratRect r) (ratRect s) x.1 y.1
  rw [intersection_rat] at c
  rw [intersection_whole r s hr hs]
  obtain ⟨⟨r1, r2⟩, r3, r4⟩ := hr
  obtain ⟨⟨s1, s2⟩, s3, s4⟩ := hs
  have a1 := lower_small r1 r3
  have a2 := lower_small r2 r4
  have a3 := lower_small s1 s3
  have a4 := lower_small s2 s4
  rw [contains_whole r ⟨a1.2.2, a2.2.2⟩, contains_whole s ⟨a3.2.2, a4.2.2⟩, contains_whole, c]
  have x1 := (both_small a1.2.1 a3.2.1).1
  have y1 := (both_small a2.2.1 a4.2.1).1
  simp only [rect2_intersection_result]
  split
  · simp only [add_sub_cancel]
    constructor <;> omega
  · norm_num

/-- C156: boxes and rectangles of whole numbers below 2²³ turn into each other without loss. -/
theorem C156_round_trip_partial (a : Aabb2 ℤ) (r : Rect2 ℤ) (ha : Small (2 ^ 23) a.min ∧ Small (2 ^ 23) a.max) (hr : Small (2 ^ 23) r.pos ∧ Small (2 ^ 23) r.dim) :
    aabb2_rect2 (rect2_aabb2 (wholeBox a)) = wholeBox a ∧ rect2_aabb2 (aabb2_rect2 (wholeRect r)) = wholeRect r := by
  obtain ⟨⟨a1, a2⟩, a3, a4⟩ := ha
  obtain ⟨⟨r1, r2⟩, r3, r4⟩ := hr
  rw [abs_lt] at *
  constructor
  · simp only [aabb2_rect2, rect2_aabb2, wholeBox, V2.add, V2.sub]
    rw [wh_sub (by rw [abs_lt]; omega), wh_sub (by rw [abs_lt]; omega), wh_add (by rw [abs_lt]; omega), wh_add (by rw [abs_lt]; omega), add_sub_cancel, add_sub_cancel]
  · simp only [aabb2_rect2, rect2_aabb2, wholeRect, V2.add, V2.sub]
    rw [wh_add (by rw [abs_lt]; omega), wh_add (by rw [abs_lt]; omega), wh_sub (by rw [abs_lt]; omega), wh_sub (by rw [abs_lt]; omega), add_sub_cancel_left, add_sub_cancel_left]

theorem rep_1 : Representable (-1 : ℚ) := ⟨-1, 0, by norm_num, by norm_num, by norm_num, by norm_num [pow2_eq]⟩
theorem rep_3 : Representable (3 : ℚ) := ⟨3, 0, by norm_num, by norm_num, by norm_num, by norm_num [pow2_eq]⟩
theorem rep_15 : Representable (16777215 : ℚ) := ⟨16777215, 0, by norm_num, by norm_num, by norm_num, by norm_num [pow2_eq]⟩
theorem rep_16 : Representable (16777216 : ℚ) := ⟨1, 24, by norm_num, by norm_num, by norm_num, by norm_num [pow2_eq]⟩
theorem rep_18 : Representable (16777218 : ℚ) := ⟨8388609, 1, by norm_num, by norm_num, by norm_num, by norm_num [pow2_eq]⟩
theorem rep_25 : Representable (33554432 : ℚ) := ⟨1, 25, by norm_num, by norm_num, by norm_num, by norm_num [pow2_eq]⟩

/-! ## C156: what does not hold in single precision -/

/-- C156, what fails: a box that begins before zero, turned into a rectangle and back, ends earlier, if it is wide. -/
theorem C156_box_lost : aabb2_rect2 (rect2_aabb2 (wholeBox ⟨⟨-1, 0⟩, ⟨16777216, 1⟩⟩)) = wholeBox ⟨⟨-1, 0⟩, ⟨16777215, 1⟩⟩ := by decide +kernel

/-- C156, what fails: a rectangle has a point that is not in the intersection of the rectangle with itself. -/
theorem C156_intersection_lost : ∃ (r : Rect2 Num) (x y : Num), Fits r ∧ rect2_contains (rect r) (num x) (num y) = true ∧
    rect2_contains (rect2_intersection_result (rect r) (rect r)).2 (num x) (num y) = false := by
  refine ⟨⟨⟨⟨_, rep_1⟩, ⟨_, rep_zero⟩⟩, ⟨⟨_, rep_18⟩, ⟨_, rep_one⟩⟩⟩, ⟨_, rep_15⟩, ⟨_, rep_zero⟩, ?_, by decide +kernel, by decide +kernel⟩
  have e : (33554432 : ℚ) ≤ pow2 126 := by rw [← show pow2 25 = 33554432 from rfl]; exact pow2_le (by norm_num)
  refine ⟨?_, ?_, ?_, ?_⟩ <;> refine le_trans ?_ e <;> norm_num

/-- C156, what fails: a strip cut off a box far from the origin can be empty however often the cut is repeated, although its width is not zero. -/
theorem C156_empty_strip : ∃ (a : Aabb2 Num) (b : Num), a.min.x.1 < a.max.x.1 ∧ 0 < b.1 ∧ (cutF .left (box a) (num b)).2 = box a := by
  exact ⟨⟨⟨⟨_, rep_16⟩, ⟨_, rep_zero⟩⟩, ⟨⟨_, rep_25⟩, ⟨_, rep_one⟩⟩⟩, ⟨_, rep_one⟩, by norm_num, by norm_num, by decide +kernel⟩

/-! ## Concrete cases -/

example : cutAllF [(.left, fin (1 / 4)), (.top, fin 1), (.right, inf false)] ⟨⟨fin 0, fin 0⟩, ⟨fin 4, fin 3⟩⟩ =
    ([⟨⟨fin 0, fin 0⟩, ⟨fin (1 / 4), fin 3⟩⟩, ⟨⟨fin (1 / 4), fin 0⟩, ⟨fin 4, fin 1⟩⟩, ⟨⟨fin (1 / 4), fin 1⟩, ⟨fin 4, fin 3⟩⟩], ⟨⟨fin (1 / 4), fin 1⟩, ⟨fin (1 / 4), fin 3⟩⟩) := by
  decide +kernel

example : Small (2 ^ 22) ⟨-100, 4194303⟩ ∧ rect2_intersection_result (wholeRect ⟨⟨0, 0⟩, ⟨4, 4⟩⟩) (wholeRect ⟨⟨6, 1⟩, ⟨-3, 2⟩⟩) = (true, wholeRect ⟨⟨3, 1⟩, ⟨1, 2⟩⟩) :=
  ⟨⟨by norm_num, by norm_num⟩, by decide +kernel⟩

/-- Two rectangles side by side. -/
example : ∃ r s : Rect2 Num, Fits r ∧ Fits s ∧ 0 < r.dim.x.1 ∧ 0 < s.dim.x.1 ∧ num s.pos.x = num r.pos.x + num r.dim.x ∧ s.pos.y = r.pos.y ∧ s.dim.y = r.dim.y := by
  have e : (33554432 : ℚ) ≤ pow2 126 := by rw [← show pow2 25 = 33554432 from rfl]; exact pow2_le (by norm_num)
  refine ⟨⟨⟨⟨_, rep_zero⟩, ⟨_, rep_zero⟩⟩, ⟨⟨_, rep_3⟩, ⟨_, rep_3⟩⟩⟩, ⟨⟨⟨_, rep_3⟩, ⟨_, rep_zero⟩⟩, ⟨⟨_, rep_3⟩, ⟨_, rep_3⟩⟩⟩, ⟨?_, ?_, ?_, ?_⟩, ⟨?_, ?_, ?_, ?_⟩, ?_, ?_, ?_, rfl, rfl⟩
  all_goals first | (refine le_trans ?_ e; norm_num; done) | (norm_num; done) | decide +kernel

end Zpl.RectF
