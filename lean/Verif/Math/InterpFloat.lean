import Verif.Math.Single
import Verif.Math.Interp

/-!
# Going from one value to another in single precision (code/source/math.c:1513-1534)  -  C145

`Math/Interp` has the same functions over exact numbers (C103).

## Model -/

namespace Zpl.MathF

open Math F32
open F64 (pow2 pow2_eq pow2_pos pow2_add pow2_le pow2_lt_iff)

/-- math.c:1514 `zpl_lerp`. -/
def lerp (a b t : F32) : F32 := add (mul a (sub (fin 1) t)) (mul b t)

/-- math.c:1515 `zpl_unlerp`. -/
def unlerp (t a b : F32) : F32 := div (sub t a) (sub b a)

/-- math.c:1516-1519 `zpl_smooth_step`. -/
def smooth_step (a b t : F32) : F32 :=
  let x := div (sub t a) (sub b a)
  mul (mul x x) (sub (fin 3) (mul (fin 2) x))

/-- math.c:1520-1523 `zpl_smoother_step`. -/
def smoother_step (a b t : F32) : F32 :=
  let x := div (sub t a) (sub b a)
  mul (mul (mul x x) x) (add (mul x (sub (mul (fin 6) x) (fin 15))) (fin 10))

/-- math.c:1525-1529 `ZPL_VEC_LERPN`, one coordinate. -/
def glide (a b t : F32) : F32 :=
  let db := sub b a
  let db := mul db t
  add a db

/-- math.c:1531 `zpl_vec2_lerp`. -/
def vec2_lerp (a b : V2 F32) (t : F32) : V2 F32 := ⟨glide a.x b.x t, glide a.y b.y t⟩

/-- math.c:1532 `zpl_vec3_lerp`. -/
def vec3_lerp (a b : V3 F32) (t : F32) : V3 F32 := ⟨glide a.x b.x t, glide a.y b.y t, glide a.z b.z t⟩

/-- math.c:1533 `zpl_vec4_lerp`. -/
def vec4_lerp (a b : V4 F32) (t : F32) : V4 F32 := ⟨glide a.x b.x t, glide a.y b.y t, glide a.z b.z t, glide a.w b.w t⟩

/-! ## Lemmas -/

theorem rep_zero : Representable 0 := ⟨0, 0, by norm_num, by norm_num, by norm_num, by norm_num⟩
theorem rep_int {n : ℤ} (h : |n| < 2 ^ 24) : Representable n := ⟨n, 0, h, by norm_num, by norm_num, by norm_num [pow2_eq]⟩
theorem rep_one : Representable 1 := by exact_mod_cast rep_int (n := 1) (by norm_num)

theorem u_le : pow2 (-24) ≤ 1 / 16777216 := by norm_num [pow2_eq]
theorem tiny : pow2 (-150) ≤ pow2 (-148) / 4 := by norm_num [pow2_eq]

theorem one_sub {t : ℚ} : sub (fin 1) (fin t) = F32.round (1 - t) := by
  change F32.round (1 + -t) = _
  rw [sub_eq_add_neg]

theorem sub_fin (a b : ℚ) : sub (fin a) (fin b) = F32.round (a - b) := by
  change F32.round (a + -b) = _
  rw [sub_eq_add_neg]

theorem mul_fin (a b : ℚ) : mul (fin a) (fin b) = F32.round (a * b) := rfl
theorem add_fin (a b : ℚ) : add (fin a) (fin b) = F32.round (a + b) := rfl
theorem div_fin {a b : ℚ} (h : b ≠ 0) : div (fin a) (fin b) = F32.round (a / b) := if_neg h

theorem two_pow (e : ℤ) : pow2 e + pow2 e = pow2 (e + 1) := by
  rw [pow2_add, show pow2 1 = 2 from rfl]; ring

theorem rounded_nonneg {q : ℚ} (h : 0 ≤ q) : 0 ≤ rounded q := le_rounded rep_zero.grid h

theorem rounded_le_one {q : ℚ} (h : q ≤ 1) : rounded q ≤ 1 := rounded_le rep_one.grid h

/-- The parts of `zpl_lerp`, none of which overflows. -/
theorem lerp_eq {a b t : ℚ} (ha : |a| ≤ pow2 126) (hb : |b| ≤ pow2 126) (h0 : 0 ≤ t) (h1 : t ≤ 1) :
    lerp (fin a) (fin b) (fin t) = fin (rounded (rounded (a * rounded (1 - t)) + rounded (b * t))) ∧
    |a * rounded (1 - t)| ≤ pow2 126 ∧ |b * t| ≤ pow2 126 := by
  have s0 : 0 ≤ rounded (1 - t) := rounded_nonneg (by linarith)
  have s1 : rounded (1 - t) ≤ 1 := rounded_le_one (by linarith)
  have p1 : |a * rounded (1 - t)| ≤ pow2 126 := by
    rw [abs_mul, abs_of_nonneg s0]; have := abs_nonneg a; nlinarith
  have p2 : |b * t| ≤ pow2 126 := by
    rw [abs_mul, abs_of_nonneg h0]; have := abs_nonneg b; nlinarith
  have le127 : pow2 126 ≤ pow2 127 := pow2_le (by norm_num)
  have e1 : pow2 0 = 1 := rfl
  refine ⟨?_, p1, p2⟩
  unfold lerp
  rw [sub_fin, round_small (q := 1 - t) (by
    rw [abs_of_nonneg (by linarith)]; have := pow2_le (show (0 : ℤ) ≤ 127 by norm_num); linarith)]
  rw [mul_fin, mul_fin, round_small (p1.trans le127), round_small (p2.trans le127), add_fin, round_small]
  refine (abs_add_le _ _).trans ?_
  rw [show (127 : ℤ) = 126 + 1 by norm_num, ← two_pow]
  exact add_le_add (rounded_abs_le (by norm_num) p1) (rounded_abs_le (by norm_num) p2)

/-! ## C145 -/

/-- C145: `zpl_lerp` is at its first value at 0 and at its second value at 1, exactly, whatever finite numbers they are. -/
theorem C145_ends {a b : ℚ} (ha : Representable a) (hb : Representable b) :
    lerp (fin a) (fin b) (fin 0) = fin a ∧ lerp (fin a) (fin b) (fin 1) = fin b := by
  constructor
  · unfold lerp
    rw [sub_fin, sub_zero, round_rep rep_one, mul_fin, mul_one, round_rep ha, mul_fin, mul_zero, round_rep rep_zero, add_fin, add_zero, round_rep ha]
  · unfold lerp
    rw [sub_fin, sub_self, round_rep rep_zero, mul_fin, mul_zero, round_rep rep_zero, mul_fin, mul_one, round_rep hb, add_fin, zero_add, round_rep hb]

/-- C145: between the ends `zpl_lerp` differs from the exact value by at most a four millionth of the larger end (and four of the least numbers there are). -/
theorem C145_error {a b t M : ℚ} (ha : |a| ≤ M) (hb : |b| ≤ M) (hM : M ≤ pow2 126) (h0 : 0 ≤ t) (h1 : t ≤ 1) :
    ∃ r, lerp (fin a) (fin b) (fin t) = fin r ∧ |r - (a * (1 - t) + b * t)| ≤ M * pow2 (-22) + pow2 (-148) := by
  obtain ⟨e, -, -⟩ := lerp_eq (ha.trans hM) (hb.trans hM) h0 h1
  refine ⟨_, e, ?_⟩
  have hM0 : 0 ≤ M := (abs_nonneg a).trans ha
  have s0 : 0 ≤ rounded (1 - t) := rounded_nonneg (by linarith)
  have s1 : rounded (1 - t) ≤ 1 := rounded_le_one (by linarith)
  have es : |rounded (1 - t) - (1 - t)| ≤ 1 * pow2 (-24) := rounded_error (by rw [abs_of_nonneg (by linarith)]; linarith)
    (by rw [show (1 : ℚ) = pow2 0 from rfl]; exact pow2_le (by norm_num))
  have ep := rounded_close (a * rounded (1 - t))
  have eq := rounded_close (b * t)
  have er := rounded_close (rounded (a * rounded (1 - t)) + rounded (b * t))
  have hu := u_le
  have hu0 := pow2_pos (-24)
  have ht := tiny
  have ht0 := pow2_pos (-150)
  rw [show M * pow2 (-22) = 4 * (M * pow2 (-24)) by rw [show (-22 : ℤ) = -24 + 2 by norm_num, pow2_add, show pow2 2 = 4 from rfl]; ring]
  generalize pow2 (-24) = u at *
  generalize pow2 (-150) = η at *
  generalize rounded (1 - t) = s at *
  generalize rounded (a * s) = p at *
  generalize rounded (b * t) = q at *
  generalize rounded (p + q) = r at *
  rw [abs_mul, abs_of_nonneg s0] at ep
  rw [abs_mul, abs_of_nonneg h0] at eq
  have a0 := abs_nonneg a
  have b0 := abs_nonneg b
  have d1 : |a * s - a * (1 - t)| ≤ M * u := by
    rw [← mul_sub, abs_mul]
    calc |a| * |s - (1 - t)| ≤ M * (1 * u) := by gcongr
      _ = _ := by ring
  have d2 : |a| * s * u ≤ M * u * s := by nlinarith [mul_nonneg s0 hu0.le]
  have d3 : |b| * t * u ≤ M * u * t := by nlinarith [mul_nonneg h0 hu0.le]
  have st : s + t ≤ 1 + u := by have := (abs_le.1 es).2; linarith
  have hMu : 0 ≤ M * u := by positivity
  have d4 : M * u * s + M * u * t ≤ M * u + M * u * u := by nlinarith
  have d5 : M * u * u ≤ M * u / 16777216 := by nlinarith
  have sum : |p + q - (a * (1 - t) + b * t)| ≤ 2 * (M * u) + M * u / 16777216 + 2 * η := by
    rw [abs_le] at *
    constructor <;> linarith
  have ex : |a * (1 - t) + b * t| ≤ M := by
    rw [abs_le] at *
    constructor <;> nlinarith
  have pq : |p + q| ≤ M + (2 * (M * u) + M * u / 16777216 + 2 * η) := by
    rw [abs_le] at *
    constructor <;> linarith
  have pqu : |p + q| * u ≤ M * u + (2 * (M * u) + M * u / 16777216 + 2 * η) * u := by nlinarith
  have z1 : M * u * u ≤ M * u / 16777216 := d5
  have z2 : η * u ≤ η / 16777216 := by nlinarith
  have z3 : (2 * (M * u) + M * u / 16777216 + 2 * η) * u = 2 * (M * u * u) + M * u * u / 16777216 + 2 * (η * u) := by ring
  have tot : |r - (a * (1 - t) + b * t)| ≤ |p + q| * u + η + (2 * (M * u) + M * u / 16777216 + 2 * η) := by
    rw [abs_le] at *
    constructor <;> linarith
  linarith

/-- C145: larger ends do not give smaller values. -/
theorem C145_order {a b a' b' t : ℚ} (ha : |a| ≤ pow2 126) (hb : |b| ≤ pow2 126) (ha' : |a'| ≤ pow2 126) (hb' : |b'| ≤ pow2 126)
    (haa : a ≤ a') (hbb : b ≤ b') (h0 : 0 ≤ t) (h1 : t ≤ 1) :
    ∃ r r', lerp (fin a) (fin b) (fin t) = fin r ∧ lerp (fin a') (fin b') (fin t) = fin r' ∧ r ≤ r' := by
  refine ⟨_, _, (lerp_eq ha hb h0 h1).1, (lerp_eq ha' hb' h0 h1).1, ?_⟩
  have s0 : 0 ≤ rounded (1 - t) := rounded_nonneg (by linarith)
  exact rounded_mono (add_le_add (rounded_mono (by nlinarith)) (rounded_mono (by nlinarith)))

/-- C145: yet between two equal numbers `zpl_lerp` may leave them, -/
theorem C145_not_between : ∃ t r, Representable t ∧ 0 < t ∧ t < 1 ∧ lerp (fin 3) (fin 3) (fin t) = fin r ∧ 3 < r :=
  ⟨0xf4898d / 2 ^ 30, 3 + 1 / 2 ^ 22, ⟨0xf4898d, -30, by norm_num, by norm_num, by norm_num, by norm_num [pow2_eq]⟩, by norm_num, by norm_num,
    by decide +kernel, by norm_num⟩

/-- and a larger share of the way may lead less far. -/
theorem C145_goes_back : ∃ a b t u r s, Representable a ∧ Representable b ∧ Representable t ∧ Representable u ∧ a < b ∧ 0 < t ∧ t < u ∧ u < 1 ∧
    lerp (fin a) (fin b) (fin t) = fin r ∧ lerp (fin a) (fin b) (fin u) = fin s ∧ s < r :=
  ⟨0x8d6431 / 2 ^ 23, 0x133c14c / 2 ^ 24, 91 / 2 ^ 10, 0x16c001 / 2 ^ 24, 0x11d0082 / 2 ^ 24, 0x11d0080 / 2 ^ 24,
    ⟨0x8d6431, -23, by norm_num, by norm_num, by norm_num, by norm_num [pow2_eq]⟩,
    ⟨0x4cf053, -22, by norm_num, by norm_num, by norm_num, by norm_num [pow2_eq]⟩,
    ⟨91, -10, by norm_num, by norm_num, by norm_num, by norm_num [pow2_eq]⟩,
    ⟨0x16c001, -24, by norm_num, by norm_num, by norm_num, by norm_num [pow2_eq]⟩,
    by norm_num, by norm_num, by norm_num, by norm_num, by decide +kernel, by decide +kernel, by norm_num⟩

/-! ### The share of the way -/

theorem rounded_pos_sub {a b : ℚ} (ha : Representable a) (hb : Representable b) (h : a < b) : 0 < rounded (b - a) :=
  lt_of_le_of_ne (rounded_nonneg (by linarith)) (Ne.symm (rounded_sub_ne hb ha (ne_of_gt h)))

theorem unlerp_eq {a b t : ℚ} (ha : Representable a) (hb : Representable b) (hab : a < b) (hd : b - a ≤ pow2 127) (h0 : a ≤ t) (h1 : t ≤ b) :
    unlerp (fin t) (fin a) (fin b) = fin (rounded (rounded (t - a) / rounded (b - a))) ∧ 0 ≤ rounded (t - a) / rounded (b - a) ∧ rounded (t - a) / rounded (b - a) ≤ 1 := by
  have p := rounded_pos_sub ha hb hab
  have n := rounded_nonneg (show 0 ≤ t - a by linarith)
  have l : rounded (t - a) ≤ rounded (b - a) := rounded_mono (by linarith)
  have q0 : 0 ≤ rounded (t - a) / rounded (b - a) := by positivity
  have q1 : rounded (t - a) / rounded (b - a) ≤ 1 := by rw [div_le_one p]; exact l
  refine ⟨?_, q0, q1⟩
  unfold unlerp
  rw [sub_fin, sub_fin, round_small (q := t - a) (by rw [abs_of_nonneg (by linarith)]; linarith), round_small (q := b - a) (by rw [abs_of_nonneg (by linarith)]; linarith),
    div_fin (ne_of_gt p), round_small]
  rw [abs_of_nonneg q0]
  exact q1.trans (pow2_le (show (0 : ℤ) ≤ 127 by norm_num))

/-- C145: the share of the way is 0 at the first end and 1 at the second, exactly; between them it is between 0 and 1 and never goes back. -/
theorem C145_unlerp {a b : ℚ} (ha : Representable a) (hb : Representable b) (hab : a < b) (hd : b - a ≤ pow2 127) :
    unlerp (fin a) (fin a) (fin b) = fin 0 ∧ unlerp (fin b) (fin a) (fin b) = fin 1 ∧
    ∀ t t', a ≤ t → t ≤ t' → t' ≤ b → ∃ r r', unlerp (fin t) (fin a) (fin b) = fin r ∧ unlerp (fin t') (fin a) (fin b) = fin r' ∧ 0 ≤ r ∧ r ≤ r' ∧ r' ≤ 1 := by
  have p := rounded_pos_sub ha hb hab
  refine ⟨?_, ?_, fun t t' h0 h1 h2 => ?_⟩
  · rw [(unlerp_eq ha hb hab hd le_rfl hab.le).1, sub_self, rounded_zero, zero_div, rounded_zero]
  · rw [(unlerp_eq ha hb hab hd hab.le le_rfl).1, div_self (ne_of_gt p), rep_one.rounded]
  · obtain ⟨e, n, -⟩ := unlerp_eq ha hb hab hd h0 (h1.trans h2)
    obtain ⟨e', -, l⟩ := unlerp_eq ha hb hab hd (h0.trans h1) h2
    refine ⟨_, _, e, e', rounded_nonneg n, rounded_mono ?_, rounded_le_one l⟩
    have := rounded_mono (show t - a ≤ t' - a by linarith)
    gcongr

/-- C145: the smooth steps are 0 at the first end and 1 at the second, exactly, -/
theorem C145_smooth {a b : ℚ} (ha : Representable a) (hb : Representable b) (hab : a < b) (hd : b - a ≤ pow2 127) :
    smooth_step (fin a) (fin b) (fin a) = fin 0 ∧ smooth_step (fin a) (fin b) (fin b) = fin 1 ∧
    smoother_step (fin a) (fin b) (fin a) = fin 0 ∧ smoother_step (fin a) (fin b) (fin b) = fin 1 := by
  obtain ⟨h0, h1, -⟩ := C145_unlerp ha hb hab hd
  unfold unlerp at h0 h1
  refine ⟨?_, ?_, ?_, ?_⟩
  · unfold smooth_step; rw [h0]; decide +kernel
  · unfold smooth_step; rw [h1]; decide +kernel
  · unfold smoother_step; rw [h0]; decide +kernel
  · unfold smoother_step; rw [h1]; decide +kernel

/-- but no number at all if the distance of the ends is too large for the type. -/
theorem C145_unlerp_overflow {a b : ℚ} (hd : pow2 128 ≤ b - a) :
    unlerp (fin b) (fin a) (fin b) = nan ∧ smooth_step (fin a) (fin b) (fin b) = nan ∧ smoother_step (fin a) (fin b) (fin b) = nan := by
  have p := pow2_pos 128
  have e : sub (fin b) (fin a) = inf false := by
    rw [sub_fin, round_large (hd.trans (le_abs_self _)), decide_eq_false (by linarith)]
  refine ⟨?_, ?_, ?_⟩
  · unfold unlerp; rw [e]; rfl
  · unfold smooth_step; rw [e]; rfl
  · unfold smoother_step; rw [e]; rfl

/-! ### Vectors -/

/-- A coordinate starts exactly, -/
theorem coord_start {a b : ℚ} (ha : Representable a) (hd : |b - a| ≤ pow2 127) : glide (fin a) (fin b) (fin 0) = fin a := by
  unfold glide
  dsimp only
  rw [sub_fin, round_small hd, mul_fin, mul_zero, round_rep rep_zero, add_fin, add_zero, round_rep ha]

/-- unless the distance is too large for the type: then not even the start is a number. -/
theorem coord_nan {a b : ℚ} (hd : pow2 128 ≤ |b - a|) : glide (fin a) (fin b) (fin 0) = nan := by
  unfold glide
  dsimp only
  rw [sub_fin, round_large hd]
  rfl

/-- The difference of two numbers within a factor of two is exact (Sterbenz). -/
theorem sterbenz {a b : ℚ} (ha : Representable a) (hb : Representable b) (h1 : a ≤ 2 * b) (h2 : b ≤ 2 * a) : rounded (b - a) = b - a := by
  have a0 : 0 ≤ a := by linarith
  have b0 : 0 ≤ b := by linarith
  obtain ⟨m, e, hm, he, -, ea⟩ := ha
  obtain ⟨n, f, hn, hf, -, eb⟩ := hb
  have key : ∀ {x y : ℚ} {m n e f : ℤ}, x = m * pow2 e → y = n * pow2 f → |m| < 2 ^ 24 → -149 ≤ e → e ≤ f → |y - x| ≤ |x| → rounded (y - x) = y - x := by
    intro x y m n e f ex ey hm he hef hle
    obtain ⟨d, hd⟩ := Int.eq_ofNat_of_zero_le (show 0 ≤ f - e by omega)
    have e2 : pow2 f = ((2 ^ d : ℕ) : ℚ) * pow2 e := by
      rw [show f = (d : ℤ) + e by omega, pow2_add]; congr 1
    have e3 : y - x = ((n * (2 ^ d : ℕ) - m : ℤ) : ℚ) * pow2 e := by rw [ex, ey, e2]; push_cast; ring
    refine rounded_eq (m := n * (2 ^ d : ℕ) - m) (e := e) (lt_of_le_of_lt ?_ hm) he e3
    have hp := pow2_pos e
    rw [e3, ex, abs_mul, abs_mul, abs_of_pos hp] at hle
    have := le_of_mul_le_mul_right hle hp
    exact_mod_cast this
  rcases le_total e f with h | h
  · exact key ea eb hm he h (by rw [abs_of_nonneg a0, abs_le]; constructor <;> linarith)
  · have := key eb ea hn hf h (by rw [abs_of_nonneg b0, abs_le]; constructor <;> linarith)
    obtain ⟨k, g, hk, hg, e4⟩ := rounded_grid (a - b)
    rw [this] at e4
    exact rounded_eq (m := -k) (e := g) (by rwa [abs_neg]) hg (by push_cast; linarith)

/-- A coordinate ends exactly if the ends have the same sign and are within a factor of two. -/
theorem coord_end {a b : ℚ} (ha : Representable a) (hb : Representable b) (hn : a ≤ 2 * b) (hp : b ≤ 2 * a) (hs : b ≤ pow2 127) : glide (fin a) (fin b) (fin 1) = fin b := by
  have h := sterbenz ha hb hn hp
  have hs' : |b - a| ≤ pow2 127 := by rw [abs_le]; constructor <;> linarith
  unfold glide
  dsimp only
  rw [sub_fin, round_small hs', h, mul_fin, mul_one, round_small hs', h, add_fin, show a + (b - a) = b by ring, round_rep hb]

/-- Two numbers of the type are at least the `2 ^ 24`th part apart. -/
theorem spacing {a g : ℚ} (ha : ∃ m e : ℤ, |m| < 2 ^ 24 ∧ -149 ≤ e ∧ a = m * pow2 e) (hg : ∃ m e : ℤ, |m| < 2 ^ 24 ∧ -149 ≤ e ∧ g = m * pow2 e) (h : g ≠ a) :
    |a| * pow2 (-24) ≤ |g - a| := by
  obtain ⟨m, e, hm, -, ea⟩ := ha
  obtain ⟨n, f, hn, -, eg⟩ := hg
  have hu : pow2 (-24) = 1 / 16777216 := by norm_num [pow2_eq]
  rw [hu]
  have mult : ∀ {x y : ℚ} {m n e f : ℤ}, x = m * pow2 e → y = n * pow2 f → e ≤ f → y ≠ x → pow2 e ≤ |y - x| := by
    intro x y m n e f ex ey hef hne
    obtain ⟨d, hd⟩ := Int.eq_ofNat_of_zero_le (show 0 ≤ f - e by omega)
    have e2 : pow2 f = ((2 ^ d : ℕ) : ℚ) * pow2 e := by
      rw [show f = (d : ℤ) + e by omega, pow2_add]; congr 1
    have e3 : y - x = ((n * (2 ^ d : ℕ) - m : ℤ) : ℚ) * pow2 e := by rw [ex, ey, e2]; push_cast; ring
    have hp := pow2_pos e
    have k0 : n * (2 ^ d : ℕ) - m ≠ 0 := by
      intro h0
      rw [h0, Int.cast_zero, zero_mul] at e3
      exact hne (sub_eq_zero.1 e3)
    have : (1 : ℚ) ≤ |((n * (2 ^ d : ℕ) - m : ℤ) : ℚ)| := by exact_mod_cast Int.one_le_abs k0
    rw [e3, abs_mul, abs_of_pos hp]
    nlinarith
  have size : ∀ {x : ℚ} {m e : ℤ}, x = m * pow2 e → |m| < 2 ^ 24 → |x| ≤ 16777215 * pow2 e := by
    intro x m e ex hm
    have hp := pow2_pos e
    have : |m| ≤ 16777215 := by omega
    have : (|(m : ℚ)|) ≤ 16777215 := by exact_mod_cast this
    rw [ex, abs_mul, abs_of_pos hp]
    nlinarith
  rcases le_total e f with hef | hef
  · have h1 := mult ea eg hef h
    have h2 := size ea hm
    linarith [pow2_pos e]
  · have h1 := mult eg ea hef (Ne.symm h)
    have h2 := size eg hn
    rw [abs_sub_comm] at h1
    have h3 : |a| ≤ |g| + |g - a| := by
      have := abs_sub_abs_le_abs_sub a g
      rw [abs_sub_comm a g] at this
      linarith
    linarith [pow2_pos f]

/-- A coordinate that goes to a much smaller number ends at zero. -/
theorem coord_miss {a b : ℚ} (ha : Representable a) (hb : Representable b) (h0 : b ≠ 0) (h : |b| ≤ |a| * pow2 (-26)) (hs : |a| ≤ pow2 126) :
    glide (fin a) (fin b) (fin 1) = fin 0 ∧ glide (fin a) (fin b) (fin 1) ≠ fin b := by
  have hu : pow2 (-26) = 1 / 67108864 := by norm_num [pow2_eq]
  have hu' : pow2 (-24) = 1 / 16777216 := by norm_num [pow2_eq]
  have b0 : 0 < |b| := abs_pos.2 h0
  have r : rounded (b - a) = -a := by
    by_contra hne
    have h1 := spacing (neg_grid ha.grid) (rounded_grid (b - a)) hne
    obtain ⟨m, e, hm, he, ea⟩ := neg_grid ha.grid
    have h2 := rounded_nearest (b - a) hm he
    rw [← ea] at h2
    rw [abs_neg, hu'] at h1
    rw [hu] at h
    have h3 : |-a - (b - a)| = |b| := by rw [show -a - (b - a) = -b by ring, abs_neg]
    rw [h3] at h2
    have h4 : |rounded (b - a) - -a| ≤ |rounded (b - a) - (b - a)| + |b| := by
      have := abs_add_le (rounded (b - a) - (b - a)) b
      rwa [show rounded (b - a) - (b - a) + b = rounded (b - a) - -a by ring] at this
    linarith
  have hs' : |b - a| ≤ pow2 127 := by
    have h1 : |b| ≤ |a| := by rw [hu] at h; have := abs_nonneg a; linarith
    have h2 : |b - a| ≤ |b| + |a| := abs_sub _ _
    rw [show (127 : ℤ) = 126 + 1 by norm_num, ← two_pow]
    linarith
  have e : glide (fin a) (fin b) (fin 1) = fin 0 := by
    unfold glide
    dsimp only
    rw [sub_fin, round_small hs', r, mul_fin, mul_one, round_rep ha.neg, add_fin, show a + -a = 0 by ring, round_rep rep_zero]
  refine ⟨e, ?_⟩
  rw [e]
  intro h'
  exact h0 (F32.fin.inj h').symm

/-- A coordinate on its way differs from the exact place by at most a two millionth of the larger end (and four of the least numbers there are). -/
theorem coord_error {a b t M : ℚ} (ha : |a| ≤ M) (hb : |b| ≤ M) (hM : M ≤ pow2 125) (h0 : 0 ≤ t) (h1 : t ≤ 1) :
    ∃ r, glide (fin a) (fin b) (fin t) = fin r ∧ |r - (a + (b - a) * t)| ≤ M * pow2 (-21) + pow2 (-148) := by
  have hM0 : 0 ≤ M := (abs_nonneg a).trans ha
  have d126 : |b - a| ≤ pow2 126 := by
    rw [show (126 : ℤ) = 125 + 1 by norm_num, ← two_pow]
    exact (abs_sub _ _).trans (by linarith)
  have r126 := rounded_abs_le (by norm_num) d126
  have p126 : |rounded (b - a) * t| ≤ pow2 126 := by
    rw [abs_mul, abs_of_nonneg h0]; have := abs_nonneg (rounded (b - a)); nlinarith
  have q126 := rounded_abs_le (by norm_num) p126
  have le127 : pow2 126 ≤ pow2 127 := pow2_le (by norm_num)
  have le126 : pow2 125 ≤ pow2 126 := pow2_le (by norm_num)
  have s127 : |a + rounded (rounded (b - a) * t)| ≤ pow2 127 := by
    rw [show (127 : ℤ) = 126 + 1 by norm_num, ← two_pow]
    exact (abs_add_le _ _).trans (by linarith)
  refine ⟨rounded (a + rounded (rounded (b - a) * t)), ?_, ?_⟩
  · unfold glide
    dsimp only
    rw [sub_fin, round_small (d126.trans le127), mul_fin, round_small (p126.trans le127), add_fin, round_small s127]
  have ed := rounded_close (b - a)
  have ep := rounded_close (rounded (b - a) * t)
  have er := rounded_close (a + rounded (rounded (b - a) * t))
  have hu := u_le
  have hu0 := pow2_pos (-24)
  have ht := tiny
  have ht0 := pow2_pos (-150)
  rw [show M * pow2 (-21) = 8 * (M * pow2 (-24)) by rw [show (-21 : ℤ) = -24 + 3 by norm_num, pow2_add, show pow2 3 = 8 from rfl]; ring]
  clear r126 p126 q126 le127 le126 s127 d126 hM
  generalize pow2 (-24) = u at *
  generalize pow2 (-150) = η at *
  generalize rounded (b - a) = d at *
  generalize rounded (d * t) = p at *
  generalize rounded (a + p) = r at *
  have hMu : 0 ≤ M * u := by positivity
  have hba : |b - a| ≤ 2 * M := (abs_sub _ _).trans (by linarith)
  have k1 : |d - (b - a)| ≤ 2 * (M * u) + η := ed.trans (by nlinarith)
  have k2 : |d| ≤ 2 * M + 2 * (M * u) + η := by
    have := abs_sub_abs_le_abs_sub d (b - a)
    linarith
  have k3 : |d * t - (b - a) * t| ≤ 2 * (M * u) + η := by
    rw [← sub_mul, abs_mul, abs_of_nonneg h0]
    have := abs_nonneg (d - (b - a))
    nlinarith
  have z1 : M * u * u ≤ M * u / 16777216 := by nlinarith
  have z2 : η * u ≤ η / 16777216 := by nlinarith
  have k4 : |d * t| * u ≤ 2 * (M * u) + 2 * (M * u) / 16777216 + η / 16777216 := by
    have : |d * t| ≤ |d| := by rw [abs_mul, abs_of_nonneg h0]; have := abs_nonneg d; nlinarith
    calc |d * t| * u ≤ (2 * M + 2 * (M * u) + η) * u := by gcongr; linarith
      _ = 2 * (M * u) + 2 * (M * u * u) + η * u := by ring
      _ ≤ _ := by linarith
  have k5 : |a + p - (a + (b - a) * t)| ≤ 4 * (M * u) + 2 * (M * u) / 16777216 + 2 * η + η / 16777216 := by
    rw [abs_le] at *
    constructor <;> linarith
  have k6 : |a + (b - a) * t| ≤ M := by
    rw [abs_le] at *
    constructor <;> nlinarith
  have k7 : |a + p| ≤ M + (4 * (M * u) + 2 * (M * u) / 16777216 + 2 * η + η / 16777216) := by
    have := abs_sub_abs_le_abs_sub (a + p) (a + (b - a) * t)
    linarith
  have k8 : |a + p| * u ≤ M * u + (4 * (M * u) + 2 * (M * u) + 2 * η + η) / 16777216 := by
    calc |a + p| * u ≤ (M + (4 * (M * u) + 2 * (M * u) / 16777216 + 2 * η + η / 16777216)) * u := by gcongr
      _ = M * u + (4 * (M * u * u) + 2 * (M * u * u) / 16777216 + 2 * (η * u) + η * u / 16777216) := by ring
      _ ≤ _ := by linarith
  have tot : |r - (a + (b - a) * t)| ≤ |a + p| * u + η + (4 * (M * u) + 2 * (M * u) / 16777216 + 2 * η + η / 16777216) := by
    rw [abs_le] at *
    constructor <;> linarith
  linarith

/-- The vector of the given numbers. -/
def vec2 (v : V2 ℚ) : V2 F32 := ⟨fin v.x, fin v.y⟩
def vec3 (v : V3 ℚ) : V3 F32 := ⟨fin v.x, fin v.y, fin v.z⟩
def vec4 (v : V4 ℚ) : V4 F32 := ⟨fin v.x, fin v.y, fin v.z, fin v.w⟩

/-- `P` holds for each coordinate. -/
def Each2 (P : ℚ → ℚ → Prop) (a b : V2 ℚ) : Prop := P a.x b.x ∧ P a.y b.y
def Each3 (P : ℚ → ℚ → Prop) (a b : V3 ℚ) : Prop := P a.x b.x ∧ P a.y b.y ∧ P a.z b.z
def Each4 (P : ℚ → ℚ → Prop) (a b : V4 ℚ) : Prop := P a.x b.x ∧ P a.y b.y ∧ P a.z b.z ∧ P a.w b.w

/-- C145: vectors start exactly where they should, -/
theorem C145_vec_start (a2 b2 : V2 ℚ) (a3 b3 : V3 ℚ) (a4 b4 : V4 ℚ) :
    (Each2 (fun a b => Representable a ∧ |b - a| ≤ pow2 127) a2 b2 → vec2_lerp (vec2 a2) (vec2 b2) (fin 0) = vec2 a2) ∧
    (Each3 (fun a b => Representable a ∧ |b - a| ≤ pow2 127) a3 b3 → vec3_lerp (vec3 a3) (vec3 b3) (fin 0) = vec3 a3) ∧
    (Each4 (fun a b => Representable a ∧ |b - a| ≤ pow2 127) a4 b4 → vec4_lerp (vec4 a4) (vec4 b4) (fin 0) = vec4 a4) := by
  refine ⟨fun ⟨h1, h2⟩ => ?_, fun ⟨h1, h2, h3⟩ => ?_, fun ⟨h1, h2, h3, h4⟩ => ?_⟩ <;>
    simp only [vec2_lerp, vec3_lerp, vec4_lerp, vec2, vec3, vec4, coord_start, *]

/-- unless the distance in some coordinate is too large for the type: then not even the start is a number. -/
theorem C145_vec_nan (a b : V2 ℚ) (hd : pow2 128 ≤ |b.x - a.x|) : (vec2_lerp (vec2 a) (vec2 b) (fin 0)).x = nan := coord_nan hd

/-- C145: vectors end exactly where they should if the ends of each coordinate have the same sign and are within a factor of two.  Not in general, see `C145_vec_miss`. -/
theorem C145_vec_end_partial (a2 b2 : V2 ℚ) (a3 b3 : V3 ℚ) (a4 b4 : V4 ℚ) :
    (Each2 (fun a b => Representable a ∧ Representable b ∧ a ≤ 2 * b ∧ b ≤ 2 * a ∧ b ≤ pow2 127) a2 b2 → vec2_lerp (vec2 a2) (vec2 b2) (fin 1) = vec2 b2) ∧
    (Each3 (fun a b => Representable a ∧ Representable b ∧ a ≤ 2 * b ∧ b ≤ 2 * a ∧ b ≤ pow2 127) a3 b3 → vec3_lerp (vec3 a3) (vec3 b3) (fin 1) = vec3 b3) ∧
    (Each4 (fun a b => Representable a ∧ Representable b ∧ a ≤ 2 * b ∧ b ≤ 2 * a ∧ b ≤ pow2 127) a4 b4 → vec4_lerp (vec4 a4) (vec4 b4) (fin 1) = vec4 b4) := by
  refine ⟨fun ⟨h1, h2⟩ => ?_, fun ⟨h1, h2, h3⟩ => ?_, fun ⟨h1, h2, h3, h4⟩ => ?_⟩ <;>
    simp only [vec2_lerp, vec3_lerp, vec4_lerp, vec2, vec3, vec4, coord_end, *]

/-- C145: a vector with a coordinate that goes to a number other than zero but much smaller does not get there: the coordinate ends at zero. -/
theorem C145_vec_miss (a b : V2 ℚ) (ha : Representable a.x) (hb : Representable b.x) (h0 : b.x ≠ 0) (h : |b.x| ≤ |a.x| * pow2 (-26)) (hs : |a.x| ≤ pow2 126) :
    (vec2_lerp (vec2 a) (vec2 b) (fin 1)).x = fin 0 ∧ vec2_lerp (vec2 a) (vec2 b) (fin 1) ≠ vec2 b :=
  ⟨(coord_miss ha hb h0 h hs).1, fun e => (coord_miss ha hb h0 h hs).2 (congrArg V2.x e)⟩

/-- The number is `x` but for a two millionth of `M` and four of the least numbers there are. -/
def Near (M : ℚ) (r : F32) (x : ℚ) : Prop := ∃ q, r = fin q ∧ |q - x| ≤ M * pow2 (-21) + pow2 (-148)

/-- C145: vectors on their way are near the place where they should be. -/
theorem C145_vec_error {t M : ℚ} (hM : M ≤ pow2 125) (h0 : 0 ≤ t) (h1 : t ≤ 1) (a2 b2 : V2 ℚ) (a3 b3 : V3 ℚ) (a4 b4 : V4 ℚ) :
    (Each2 (fun a b => |a| ≤ M ∧ |b| ≤ M) a2 b2 →
      Near M (vec2_lerp (vec2 a2) (vec2 b2) (fin t)).x (a2.x + (b2.x - a2.x) * t) ∧ Near M (vec2_lerp (vec2 a2) (vec2 b2) (fin t)).y (a2.y + (b2.y - a2.y) * t)) ∧
    (Each3 (fun a b => |a| ≤ M ∧ |b| ≤ M) a3 b3 →
      Near M (vec3_lerp (vec3 a3) (vec3 b3) (fin t)).x (a3.x + (b3.x - a3.x) * t) ∧ Near M (vec3_lerp (vec3 a3) (vec3 b3) (fin t)).y (a3.y + (b3.y - a3.y) * t) ∧
      Near M (vec3_lerp (vec3 a3) (vec3 b3) (fin t)).z (a3.z + (b3.z - a3.z) * t)) ∧
    (Each4 (fun a b => |a| ≤ M ∧ |b| ≤ M) a4 b4 →
      Near M (vec4_lerp (vec4 a4) (vec4 b4) (fin t)).x (a4.x + (b4.x - a4.x) * t) ∧ Near M (vec4_lerp (vec4 a4) (vec4 b4) (fin t)).y (a4.y + (b4.y - a4.y) * t) ∧
      Near M (vec4_lerp (vec4 a4) (vec4 b4) (fin t)).z (a4.z + (b4.z - a4.z) * t) ∧ Near M (vec4_lerp (vec4 a4) (vec4 b4) (fin t)).w (a4.w + (b4.w - a4.w) * t)) :=
  ⟨fun ⟨x, y⟩ => ⟨coord_error x.1 x.2 hM h0 h1, coord_error y.1 y.2 hM h0 h1⟩,
    fun ⟨x, y, z⟩ => ⟨coord_error x.1 x.2 hM h0 h1, coord_error y.1 y.2 hM h0 h1, coord_error z.1 z.2 hM h0 h1⟩,
    fun ⟨x, y, z, w⟩ => ⟨coord_error x.1 x.2 hM h0 h1, coord_error y.1 y.2 hM h0 h1, coord_error z.1 z.2 hM h0 h1, coord_error w.1 w.2 hM h0 h1⟩⟩

/-! ### The hypotheses can be met -/

theorem rep_tenth : Representable (0xcccccd / 2 ^ 27) := ⟨0xcccccd, -27, by norm_num, by norm_num, by norm_num, by norm_num [pow2_eq]⟩

/-- From a tenth to seven, a third of the way: the ends are met, and the way is not exact. -/
example : lerp (fin (0xcccccd / 2 ^ 27)) (fin 7) (fin 0) = fin (0xcccccd / 2 ^ 27) ∧ lerp (fin (0xcccccd / 2 ^ 27)) (fin 7) (fin 1) = fin 7 ∧
    ∃ r, lerp (fin (0xcccccd / 2 ^ 27)) (fin 7) (fin (0xaaaaab / 2 ^ 25)) = fin r ∧ |r - (0xcccccd / 2 ^ 27 * (1 - 0xaaaaab / 2 ^ 25) + 7 * (0xaaaaab / 2 ^ 25))| ≤ 7 * pow2 (-22) + pow2 (-148) :=
  ⟨(C145_ends rep_tenth (by exact_mod_cast rep_int (n := 7) (by norm_num))).1, (C145_ends rep_tenth (by exact_mod_cast rep_int (n := 7) (by norm_num))).2,
    C145_error (by rw [abs_le]; norm_num) (by norm_num) (by norm_num [pow2_eq]) (by norm_num) (by norm_num)⟩

example : unlerp (fin 7) (fin (0xcccccd / 2 ^ 27)) (fin 7) = fin 1 :=
  (C145_unlerp rep_tenth (by exact_mod_cast rep_int (n := 7) (by norm_num)) (by norm_num) (by norm_num [pow2_eq])).2.1

/-- The largest numbers of the type are too far apart. -/
example : (vec2_lerp (vec2 ⟨-(0xffffff * 2 ^ 104), 0⟩) (vec2 ⟨0xffffff * 2 ^ 104, 0⟩) (fin 0)).x = nan := C145_vec_nan _ _ (by norm_num [pow2_eq, abs_of_pos])

/-- From a hundred million to one. -/
example : (vec2_lerp (vec2 ⟨100000000, 0⟩) (vec2 ⟨1, 0⟩) (fin 1)).x = fin 0 :=
  (C145_vec_miss ⟨100000000, 0⟩ ⟨1, 0⟩ ⟨6250000, 4, by norm_num, by norm_num, by norm_num, by norm_num [pow2_eq]⟩ rep_one (by norm_num) (by norm_num [pow2_eq]) (by norm_num [pow2_eq])).1

example : vec2_lerp (vec2 ⟨3, 5⟩) (vec2 ⟨4, 9⟩) (fin 1) = vec2 ⟨4, 9⟩ :=
  (C145_vec_end_partial ⟨3, 5⟩ ⟨4, 9⟩ ⟨0, 0, 0⟩ ⟨0, 0, 0⟩ ⟨0, 0, 0, 0⟩ ⟨0, 0, 0, 0⟩).1
    ⟨⟨by exact_mod_cast rep_int (n := 3) (by norm_num), by exact_mod_cast rep_int (n := 4) (by norm_num), by norm_num, by norm_num, by norm_num [pow2_eq]⟩,
     ⟨by exact_mod_cast rep_int (n := 5) (by norm_num), by exact_mod_cast rep_int (n := 9) (by norm_num), by norm_num, by norm_num, by norm_num [pow2_eq]⟩⟩

end Zpl.MathF
