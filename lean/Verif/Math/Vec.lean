import Mathlib.Algebra.Order.Field.Basic
import Mathlib.Tactic.Ring
import Mathlib.Tactic.LinearCombination

/-!
# Vectors (code/source/math.c:355-615, code/header/math.h)

## Model

`zpl_f32` is left open: the functions are written for any type with the operations they use, and each theorem says which laws it needs.  With the laws of an ordered field
they are statements about exact arithmetic: rounding, overflow and NaN are not modelled.  Theorems that ask for less say so, and hold of rounded arithmetic as well.

A function that writes its result through a pointer returns it.  Vectors are passed by value, so that the result may go to the place of an argument. -/

namespace Zpl.Math

/-- math.h:14-22 `zpl_vec2`. -/
structure V2 (K : Type) where
  x : K
  y : K
  deriving DecidableEq

/-- math.h:24-38 `zpl_vec3`. -/
structure V3 (K : Type) where
  x : K
  y : K
  z : K
  deriving DecidableEq

/-- math.h:40-59 `zpl_vec4`. -/
structure V4 (K : Type) where
  x : K
  y : K
  z : K
  w : K
  deriving DecidableEq

@[ext] theorem V2.ext' {K : Type} {a b : V2 K} (hx : a.x = b.x) (hy : a.y = b.y) : a = b := by cases a; cases b; simp_all

@[ext] theorem V3.ext' {K : Type} {a b : V3 K} (hx : a.x = b.x) (hy : a.y = b.y) (hz : a.z = b.z) : a = b := by cases a; cases b; simp_all

@[ext] theorem V4.ext' {K : Type} {a b : V4 K} (hx : a.x = b.x) (hy : a.y = b.y) (hz : a.z = b.z) (hw : a.w = b.w) : a = b := by
  cases a; cases b; simp_all

/-- helpers.h:100 `zpl_min`. -/
def zmin {K : Type} [LT K] [DecidableLT K] (a b : K) : K := if a < b then a else b

/-- helpers.h:104 `zpl_max`. -/
def zmax {K : Type} [LT K] [DecidableLT K] (a b : K) : K := if a > b then a else b

/-- helpers.h:136 `zpl_abs`. -/
def zabs {K : Type} [LT K] [DecidableLT K] [Zero K] [Neg K] (a : K) : K := if a < 0 then -a else a

section ops

variable {K : Type}

/-- math.c:385-388 `zpl_vec2f_zero`. -/
def V2.zero [Zero K] : V2 K := ⟨0, 0⟩
/-- math.c:402-405 `zpl_vec3f_zero`. -/
def V3.zero [Zero K] : V3 K := ⟨0, 0, 0⟩
/-- math.c:421-424 `zpl_vec4f_zero`. -/
def V4.zero [Zero K] : V4 K := ⟨0, 0, 0, 0⟩

/-- math.c:443 `zpl_vec2_side`. -/
def V2.side [Sub K] [Mul K] (p q r : V2 K) : K := (q.x - p.x) * (r.y - p.y) - (r.x - p.x) * (q.y - p.y)

/-- math.c:445 and 462 `zpl_vec2_add`, `zpl_vec2_addeq`; the `+ 0` of the macro is left out, as in the other operations. -/
def V2.add [Add K] (a b : V2 K) : V2 K := ⟨a.x + b.x, a.y + b.y⟩
/-- math.c:446 and 463 `zpl_vec2_sub`, `zpl_vec2_subeq`. -/
def V2.sub [Sub K] (a b : V2 K) : V2 K := ⟨a.x - b.x, a.y - b.y⟩
/-- math.c:447 and 464 `zpl_vec2_mul`, `zpl_vec2_muleq`. -/
def V2.mul [Mul K] (a : V2 K) (s : K) : V2 K := ⟨a.x * s, a.y * s⟩
/-- math.c:448 and 465 `zpl_vec2_div`, `zpl_vec2_diveq`. -/
def V2.div [Div K] (a : V2 K) (s : K) : V2 K := ⟨a.x / s, a.y / s⟩

/-- math.c:450 `zpl_vec3_max`. -/
def V3.max [LT K] [DecidableLT K] (v : V3 K) : K := zmax (zmax v.x v.y) v.z
/-- math.c:442 `zpl_vec2_max`. -/
def V2.max [LT K] [DecidableLT K] (v : V2 K) : K := zmax v.x v.y

/-- math.c:452 and 467 `zpl_vec3_add`, `zpl_vec3_addeq`. -/
def V3.add [Add K] (a b : V3 K) : V3 K := ⟨a.x + b.x, a.y + b.y, a.z + b.z⟩
/-- math.c:453 and 468 `zpl_vec3_sub`, `zpl_vec3_subeq`. -/
def V3.sub [Sub K] (a b : V3 K) : V3 K := ⟨a.x - b.x, a.y - b.y, a.z - b.z⟩
/-- math.c:454 and 469 `zpl_vec3_mul`, `zpl_vec3_muleq`. -/
def V3.mul [Mul K] (a : V3 K) (s : K) : V3 K := ⟨a.x * s, a.y * s, a.z * s⟩
/-- math.c:455 and 470 `zpl_vec3_div`, `zpl_vec3_diveq`. -/
def V3.div [Div K] (a : V3 K) (s : K) : V3 K := ⟨a.x / s, a.y / s, a.z / s⟩

/-- math.c:457 and 472 `zpl_vec4_add`, `zpl_vec4_addeq`. -/
def V4.add [Add K] (a b : V4 K) : V4 K := ⟨a.x + b.x, a.y + b.y, a.z + b.z, a.w + b.w⟩
/-- math.c:458 and 473 `zpl_vec4_sub`, `zpl_vec4_subeq`. -/
def V4.sub [Sub K] (a b : V4 K) : V4 K := ⟨a.x - b.x, a.y - b.y, a.z - b.z, a.w - b.w⟩
/-- math.c:459 and 474 `zpl_vec4_mul`, `zpl_vec4_muleq`. -/
def V4.mul [Mul K] (a : V4 K) (s : K) : V4 K := ⟨a.x * s, a.y * s, a.z * s, a.w * s⟩
/-- math.c:460 and 475 `zpl_vec4_div`, `zpl_vec4_diveq`. -/
def V4.div [Div K] (a : V4 K) (s : K) : V4 K := ⟨a.x / s, a.y / s, a.z / s, a.w / s⟩

/-- math.c:484 `zpl_vec2_dot`. -/
def V2.dot [Add K] [Mul K] (a b : V2 K) : K := a.x * b.x + a.y * b.y
/-- math.c:485 `zpl_vec3_dot`. -/
def V3.dot [Add K] [Mul K] (a b : V3 K) : K := a.x * b.x + a.y * b.y + a.z * b.z
/-- math.c:486 `zpl_vec4_dot`. -/
def V4.dot [Add K] [Mul K] (a b : V4 K) : K := a.x * b.x + a.y * b.y + a.z * b.z + a.w * b.w

/-- math.c:488 `zpl_vec2_cross`. -/
def V2.cross [Sub K] [Mul K] (a b : V2 K) : K := a.x * b.y - b.x * a.y
/-- math.c:489-493 `zpl_vec3_cross`. -/
def V3.cross [Sub K] [Mul K] (a b : V3 K) : V3 K := ⟨a.y * b.z - a.z * b.y, a.z * b.x - a.x * b.z, a.x * b.y - a.y * b.x⟩

/-- math.c:495 `zpl_vec2_mag2`. -/
def V2.mag2 [Add K] [Mul K] (v : V2 K) : K := v.dot v
/-- math.c:496 `zpl_vec3_mag2`. -/
def V3.mag2 [Add K] [Mul K] (v : V3 K) : K := v.dot v
/-- math.c:497 `zpl_vec4_mag2`. -/
def V4.mag2 [Add K] [Mul K] (v : V4 K) : K := v.dot v

/-- math.c:539-543 `zpl_vec2_reflect`. -/
def V2.reflect [Add K] [Sub K] [Mul K] [OfNat K 2] (i n : V2 K) : V2 K := i.sub (n.mul (2 * n.dot i))
/-- math.c:545-549 `zpl_vec3_reflect`. -/
def V3.reflect [Add K] [Sub K] [Mul K] [OfNat K 2] (i n : V3 K) : V3 K := i.sub (n.mul (2 * n.dot i))

end ops

end Zpl.Math
