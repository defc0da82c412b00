import Verif.Math.Single
import Verif.Math.VecReal

/-!
# Lengths and directions in single precision (code/source/math.c:231-232, 484-486, 495-537)  -  C147

`Math/VecReal` has the same functions over the real numbers (C93).

## Model -/

namespace Zpl.LengthF

open Math F32
open F64 (pow2 logTwo pow2_eq pow2_pos pow2_add pow2_le pow2_lt_iff logTwo_spec)

/-- The square root of a positive number with 24 places: the square root of the whole number `q / 4 ^ p`, `p` being the exponent of the last place, rounded to the nearest. -/
def rootRounded (q : ℚ) : ℚ :=
  let p := logTwo q / 2 - 23
  let x := q / pow2 (2 * p)
  let n := Nat.sqrt x.floor.toNat
  ((if 4 * x < (2 * n + 1) ^ 2 then n else n + 1 : ℕ) : ℚ) * pow2 p

/-- `sqrtf`, correctly rounded as IEEE 754 demands. -/
def sqrt : F32 → F32
  | fin q => if q < 0 then nan else if q = 0 then fin 0 else fin (rootRounded q)
  | inf false => inf false
  | inf true => nan
  | nan => nan

/-- math.c:231 `zpl_rsqrt`. -/
def rsqrt (a : F32) : F32 := div (fin 1) (sqrt a)

/-- math.c:484 `zpl_vec2_dot`. -/
def dot2 (a b : V2 F32) : F32 := add (mul a.x b.x) (mul a.y b.y)
/-- math.c:485 `zpl_vec3_dot`. -/
def dot3 (a b : V3 F32) : F32 := add (add (mul a.x b.x) (mul a.y b.y)) (mul a.z b.z)
/-- math.c:486 `zpl_vec4_dot`. -/
def dot4 (a b : V4 F32) : F32 := add (add (add (mul a.x b.x) (mul a.y b.y)) (mul a.z b.z)) (mul a.w b.w)

/-- math.c:500 `zpl_vec2_mag`. -/
def mag2 (v : V2 F32) : F32 := sqrt (dot2 v v)
/-- math.c:501 `zpl_vec3_mag`. -/
def mag3 (v : V3 F32) : F32 := sqrt (dot3 v v)
/-- math.c:502 `zpl_vec4_mag`. -/
def mag4 (v : V4 F32) : F32 := sqrt (dot4 v v)

/-- math.c:504-507 `zpl_vec2_norm`. -/
def norm2 (v : V2 F32) : V2 F32 :=
  let inv_mag := rsqrt (dot2 v v)
  ⟨mul v.x inv_mag, mul v.y inv_mag⟩
/-- math.c:508-511 `zpl_vec3_norm`. -/
def norm3 (v : V3 F32) : V3 F32 :=
  let inv_mag := rsqrt (dot3 v v)
  ⟨mul v.x inv_mag, mul v.y inv_mag, mul v.z inv_mag⟩
/-- math.c:512-515 `zpl_vec4_norm`. -/
def norm4 (v : V4 F32) : V4 F32 :=
  let inv_mag := rsqrt (dot4 v v)
  ⟨mul v.x inv_mag, mul v.y inv_mag, mul v.z inv_mag, mul v.w inv_mag⟩

/-- math.c:517-523 `zpl_vec2_norm0`. -/
def normZero2 (v : V2 F32) : V2 F32 :=
  let mag := mag2 v
  if lt (fin 0) mag then ⟨div v.x mag, div v.y mag⟩ else ⟨fin 0, fin 0⟩
/-- math.c:524-530 `zpl_vec3_norm0`. -/
def normZero3 (v : V3 F32) : V3 F32 :=
  let mag := mag3 v
  if lt (fin 0) mag then ⟨div v.x mag, div v.y mag, div v.z mag⟩ else ⟨fin 0, fin 0, fin 0⟩
/-- math.c:531-537 `zpl_vec4_norm0`. -/
def normZero4 (v : V4 F32) : V4 F32 :=
  let mag := mag4 v
  if lt (fin 0) mag then ⟨div v.x mag, div v.y mag, div v.z mag, div v.w mag⟩ else ⟨fin 0, fin 0, fin 0, fin 0⟩

/-! ## The square root -/

theorem root_core {x : ℚ} (hx : 0 ≤ x) : let c := (if 4 * x < (2 * Nat.sqrt x.floor.toNat + 1) ^ 2 then Nat.sqrt x.floor.toNat else Nat.sqrt x.floor.toNat + 1 : ℕ)
    (∀ k : ℕ, (k : ℚ) ^ 2 ≤ x → k ≤ c) ∧ (1 ≤ c → ((c : ℚ) - 1 / 2) ^ 2 ≤ x) ∧ x ≤ ((c : ℚ) + 1 / 2) ^ 2 := by
  dsimp only
  have a : ((⌊x⌋.toNat : ℕ) : ℚ) ≤ x := by
    have h1 := Int.floor_le x
    have h2 : (0 : ℤ) ≤ ⌊x⌋ := Int.floor_nonneg.2 hx
    have h3 : ((⌊x⌋.toNat : ℕ) : ℤ) = ⌊x⌋ := Int.toNat_of_nonneg h2
    have h4 : ((⌊x⌋.toNat : ℕ) : ℚ) = ((⌊x⌋ : ℤ) : ℚ) := by exact_mod_cast h3
    rw [h4]; exact h1
  have b : x < ((⌊x⌋.toNat : ℕ) : ℚ) + 1 := by
    have h1 := Int.lt_floor_add_one x
    have h2 : (0 : ℤ) ≤ ⌊x⌋ := Int.floor_nonneg.2 hx
    have h3 : ((⌊x⌋.toNat : ℕ) : ℤ) = ⌊x⌋ := Int.toNat_of_nonneg h2
    have h4 : ((⌊x⌋.toNat : ℕ) : ℚ) = ((⌊x⌋ : ℤ) : ℚ) := by exact_mod_cast h3
    rw [h4]; exact h1
  have e : x.floor.toNat = ⌊x⌋.toNat := rfl
  rw [e]
  generalize ⌊x⌋.toNat = N at *
  have s1 := Nat.sqrt_le' N
  have s2 := Nat.lt_succ_sqrt' N
  have s1' : ((Nat.sqrt N : ℕ) : ℚ) ^ 2 ≤ x := by
    have : ((Nat.sqrt N : ℕ) : ℚ) ^ 2 ≤ N := by exact_mod_cast s1
    linarith
  have s2' : x < ((Nat.sqrt N : ℕ) + 1 : ℚ) ^ 2 := by
    have : N + 1 ≤ (Nat.sqrt N + 1) ^ 2 := s2
    have : ((N : ℕ) + 1 : ℚ) ≤ ((Nat.sqrt N : ℕ) + 1 : ℚ) ^ 2 := by exact_mod_cast this
    linarith
  have k1 : ∀ k : ℕ, (k : ℚ) ^ 2 ≤ x → k ≤ Nat.sqrt N := by
    intro k hk
    by_contra hc
    have : Nat.sqrt N + 1 ≤ k := by omega
    have : ((Nat.sqrt N : ℕ) + 1 : ℚ) ≤ k := by exact_mod_cast this
    have h0 : (0 : ℚ) ≤ (Nat.sqrt N : ℕ) := by positivity
    nlinarith
  generalize Nat.sqrt N = n at *
  have n0 : (0 : ℚ) ≤ n := by positivity
  split
  · next h =>
    refine ⟨k1, fun h1 => ?_, by nlinarith⟩
    have : (1 : ℚ) ≤ n := by exact_mod_cast h1
    nlinarith
  · next h =>
    refine ⟨fun k hk => by have := k1 k hk; omega, fun _ => ?_, ?_⟩
    · push_cast; nlinarith [not_lt.1 h]
    · push_cast; nlinarith

/-- The root is right but for one part in `2 ^ 24`. -/
theorem root_spec {q : ℚ} (hq : 0 < q) :
    0 < rootRounded q ∧ (rootRounded q * (1 - pow2 (-24))) ^ 2 ≤ q ∧ q ≤ (rootRounded q * (1 + pow2 (-24))) ^ 2 := by
  obtain ⟨l1, l2⟩ := logTwo_spec (ne_of_gt hq)
  rw [abs_of_pos hq] at l1 l2
  unfold rootRounded
  dsimp only
  have hp := pow2_pos (logTwo q / 2 - 23)
  have h2p : pow2 (2 * (logTwo q / 2 - 23)) = pow2 (logTwo q / 2 - 23) * pow2 (logTwo q / 2 - 23) := by rw [← pow2_add]; congr 1; ring
  have hpp := pow2_pos (2 * (logTwo q / 2 - 23))
  have lo : ((2 ^ 23 : ℕ) : ℚ) ^ 2 ≤ q / pow2 (2 * (logTwo q / 2 - 23)) := by
    rw [le_div_iff₀ hpp, show (((2 ^ 23 : ℕ) : ℚ)) ^ 2 = pow2 46 by norm_num [pow2_eq], ← pow2_add]
    exact (pow2_le (by omega)).trans l1
  have h0 : 0 ≤ q / pow2 (2 * (logTwo q / 2 - 23)) := by positivity
  obtain ⟨c1, c2, c3⟩ := root_core h0
  generalize hx : q / pow2 (2 * (logTwo q / 2 - 23)) = x at *
  have c1' := c1 _ lo
  generalize (if 4 * x < (2 * Nat.sqrt x.floor.toNat + 1) ^ 2 then Nat.sqrt x.floor.toNat else Nat.sqrt x.floor.toNat + 1 : ℕ) = c at *
  have c2' := c2 (by omega)
  have hc : (8388608 : ℚ) ≤ c := by
    have : 8388608 ≤ c := by omega
    exact_mod_cast this
  have hq' : q = x * (pow2 (logTwo q / 2 - 23) * pow2 (logTwo q / 2 - 23)) := by rw [← hx, ← h2p]; field_simp
  have hu : pow2 (-24) = 1 / 16777216 := by norm_num [pow2_eq]
  rw [hu]
  generalize pow2 (logTwo q / 2 - 23) = P at *
  refine ⟨by positivity, ?_, ?_⟩
  · rw [hq']
    have e1 : (c * P * (1 - 1 / 16777216)) ^ 2 = (c * (1 - 1 / 16777216)) ^ 2 * (P * P) := by ring
    rw [e1]
    have : ((c : ℚ) * (1 - 1 / 16777216)) ^ 2 ≤ x := by
      refine le_trans ?_ c2'
      have h1 : (0 : ℚ) ≤ c * (1 - 1 / 16777216) := by nlinarith
      have h2 : (c : ℚ) * (1 - 1 / 16777216) ≤ c - 1 / 2 := by linarith
      exact pow_le_pow_left₀ h1 h2 2
    have hPP : 0 ≤ P * P := by positivity
    nlinarith
  · rw [hq']
    have e1 : (c * P * (1 + 1 / 16777216)) ^ 2 = (c * (1 + 1 / 16777216)) ^ 2 * (P * P) := by ring
    rw [e1]
    have : x ≤ ((c : ℚ) * (1 + 1 / 16777216)) ^ 2 := by
      refine le_trans c3 ?_
      have h1 : (0 : ℚ) ≤ c + 1 / 2 := by linarith
      have h2 : (c : ℚ) + 1 / 2 ≤ c * (1 + 1 / 16777216) := by linarith
      exact pow_le_pow_left₀ h1 h2 2
    have hPP : 0 ≤ P * P := by positivity
    nlinarith

theorem sqrt_zero : sqrt (fin 0) = fin 0 := by decide +kernel

theorem sqrt_pos {q : ℚ} (hq : 0 < q) : sqrt (fin q) = fin (rootRounded q) := by
  simp only [sqrt]
  rw [if_neg (by linarith), if_neg (by linarith)]

/-! ## Sums of squares -/

/-- The sum of the squares with all the roundings. -/
def squares (x y z w : ℚ) : ℚ := rounded (rounded (rounded (rounded (x * x) + rounded (y * y)) + rounded (z * z)) + rounded (w * w))

theorem rounded_rounded (q : ℚ) : rounded (rounded q) = rounded q := by
  obtain ⟨m, e, hm, he, h⟩ := rounded_grid q
  exact rounded_eq hm he h

theorem rounded_nonneg {q : ℚ} (h : 0 ≤ q) : 0 ≤ rounded q := le_rounded ⟨0, 0, by norm_num, by norm_num, by norm_num⟩ h

theorem sq_round {x : ℚ} (h : |x| ≤ pow2 62) : mul (fin x) (fin x) = fin (rounded (x * x)) ∧ 0 ≤ rounded (x * x) ∧ rounded (x * x) ≤ pow2 124 := by
  have h1 : x * x ≤ pow2 124 := by
    rw [show (124 : ℤ) = 62 + 62 by norm_num, pow2_add, ← abs_mul_abs_self]
    have := abs_nonneg x
    nlinarith
  have h0 : 0 ≤ x * x := mul_self_nonneg x
  refine ⟨?_, rounded_nonneg h0, rounded_le (pow2_grid (by norm_num)) h1⟩
  change F32.round (x * x) = _
  rw [round_small (by rw [abs_of_nonneg h0]; exact h1.trans (pow2_le (by norm_num)))]

theorem add_round {a b : ℚ} (ha : 0 ≤ a) (hb : 0 ≤ b) {i : ℤ} (hi : -149 ≤ i) (hi2 : i ≤ 126) (h1 : a ≤ pow2 i) (h2 : b ≤ pow2 i) :
    add (fin a) (fin b) = fin (rounded (a + b)) ∧ 0 ≤ rounded (a + b) ∧ rounded (a + b) ≤ pow2 (i + 1) := by
  have h3 : a + b ≤ pow2 (i + 1) := by rw [pow2_add, show pow2 1 = 2 from rfl]; linarith
  refine ⟨?_, rounded_nonneg (by linarith), rounded_le (pow2_grid (by omega)) h3⟩
  change F32.round (a + b) = _
  rw [round_small (by rw [abs_of_nonneg (by linarith)]; exact h3.trans (pow2_le (by omega)))]

theorem dot4_eq {x y z w : ℚ} (hx : |x| ≤ pow2 62) (hy : |y| ≤ pow2 62) (hz : |z| ≤ pow2 62) (hw : |w| ≤ pow2 62) :
    dot4 ⟨fin x, fin y, fin z, fin w⟩ ⟨fin x, fin y, fin z, fin w⟩ = fin (squares x y z w) := by
  obtain ⟨x1, x2, x3⟩ := sq_round hx
  obtain ⟨y1, y2, y3⟩ := sq_round hy
  obtain ⟨z1, z2, z3⟩ := sq_round hz
  obtain ⟨w1, w2, w3⟩ := sq_round hw
  obtain ⟨a1, a2, a3⟩ := add_round x2 y2 (by norm_num) (by norm_num) x3 y3
  obtain ⟨b1, b2, b3⟩ := add_round a2 z2 (by norm_num) (by norm_num) a3 (z3.trans (pow2_le (by norm_num)))
  obtain ⟨c1, c2, c3⟩ := add_round b2 w2 (by norm_num) (by norm_num) b3 (w3.trans (pow2_le (by norm_num)))
  unfold dot4 squares
  dsimp only
  rw [x1, y1, z1, w1, a1, b1, c1]

theorem dot3_eq {x y z : ℚ} (hx : |x| ≤ pow2 62) (hy : |y| ≤ pow2 62) (hz : |z| ≤ pow2 62) :
    dot3 ⟨fin x, fin y, fin z⟩ ⟨fin x, fin y, fin z⟩ = fin (squares x y z 0) := by
  obtain ⟨x1, x2, x3⟩ := sq_round hx
  obtain ⟨y1, y2, y3⟩ := sq_round hy
  obtain ⟨z1, z2, z3⟩ := sq_round hz
  obtain ⟨a1, a2, a3⟩ := add_round x2 y2 (by norm_num) (by norm_num) x3 y3
  obtain ⟨b1, b2, b3⟩ := add_round a2 z2 (by norm_num) (by norm_num) a3 (z3.trans (pow2_le (by norm_num)))
  unfold dot3 squares
  dsimp only
  rw [x1, y1, z1, a1, b1, mul_zero, rounded_zero, add_zero, rounded_rounded]

theorem dot2_eq {x y : ℚ} (hx : |x| ≤ pow2 62) (hy : |y| ≤ pow2 62) : dot2 ⟨fin x, fin y⟩ ⟨fin x, fin y⟩ = fin (squares x y 0 0) := by
  obtain ⟨x1, x2, x3⟩ := sq_round hx
  obtain ⟨y1, y2, y3⟩ := sq_round hy
  obtain ⟨a1, a2, a3⟩ := add_round x2 y2 (by norm_num) (by norm_num) x3 y3
  unfold dot2 squares
  dsimp only
  rw [x1, y1, a1, mul_zero, rounded_zero, add_zero, rounded_rounded, add_zero, rounded_rounded]

/-- The rounded sum is right but for five parts in `2 ^ 24`, unless it is very small. -/
theorem squares_near {x y z w : ℚ} (h : pow2 (-120) ≤ x * x + y * y + z * z + w * w) :
    |squares x y z w - (x * x + y * y + z * z + w * w)| ≤ (x * x + y * y + z * z + w * w) * (5 * pow2 (-24)) := by
  have ex := rounded_close (x * x)
  have ey := rounded_close (y * y)
  have ez := rounded_close (z * z)
  have ew := rounded_close (w * w)
  have ea := rounded_close (rounded (x * x) + rounded (y * y))
  have eb := rounded_close (rounded (rounded (x * x) + rounded (y * y)) + rounded (z * z))
  have ec := rounded_close (rounded (rounded (rounded (x * x) + rounded (y * y)) + rounded (z * z)) + rounded (w * w))
  have x0 := mul_self_nonneg x
  have y0 := mul_self_nonneg y
  have z0 := mul_self_nonneg z
  have w0 := mul_self_nonneg w
  have rx := rounded_nonneg x0
  have ry := rounded_nonneg y0
  have rz := rounded_nonneg z0
  have rw' := rounded_nonneg w0
  have ra := rounded_nonneg (add_nonneg rx ry)
  have rb := rounded_nonneg (add_nonneg ra rz)
  rw [abs_of_nonneg x0] at ex
  rw [abs_of_nonneg y0] at ey
  rw [abs_of_nonneg z0] at ez
  rw [abs_of_nonneg w0] at ew
  rw [abs_of_nonneg (add_nonneg rx ry)] at ea
  rw [abs_of_nonneg (add_nonneg ra rz)] at eb
  rw [abs_of_nonneg (add_nonneg rb rw')] at ec
  have hη : pow2 (-150) = pow2 (-120) * (1 / 1073741824) := by
    rw [show (-150 : ℤ) = -120 + -30 by norm_num, pow2_add]; norm_num [pow2_eq]
  have h120 := pow2_pos (-120)
  have hu : pow2 (-24) = 1 / 16777216 := by norm_num [pow2_eq]
  unfold squares
  rw [hu, hη] at ex ey ez ew ea eb ec
  rw [hu]
  clear hu hη
  generalize pow2 (-120) = T at *
  generalize x * x = X at *
  generalize y * y = Y at *
  generalize z * z = Z at *
  generalize w * w = W at *
  generalize rounded X = X' at *
  generalize rounded Y = Y' at *
  generalize rounded Z = Z' at *
  generalize rounded W = W' at *
  generalize rounded (X' + Y') = A at *
  generalize rounded (A + Z') = B at *
  generalize rounded (B + W') = C at *
  rw [abs_le] at *
  constructor <;> linarith

/-- The rounded length is right but for eight parts in `2 ^ 24` of its square. -/
theorem length_near {x y z w : ℚ} (h : pow2 (-120) ≤ x * x + y * y + z * z + w * w) :
    0 < squares x y z w ∧ 0 < rootRounded (squares x y z w) ∧
    |rootRounded (squares x y z w) ^ 2 - (x * x + y * y + z * z + w * w)| ≤ (x * x + y * y + z * z + w * w) * pow2 (-21) := by
  have hn := squares_near h
  have h0 := pow2_pos (-120)
  have hu : pow2 (-24) = 1 / 16777216 := by norm_num [pow2_eq]
  have hu' : pow2 (-21) = 8 / 16777216 := by norm_num [pow2_eq]
  rw [hu, abs_le] at hn
  have hd : 0 < squares x y z w := by linarith
  obtain ⟨r0, r1, r2⟩ := root_spec hd
  rw [hu, mul_pow] at r1 r2
  refine ⟨hd, r0, ?_⟩
  rw [hu', abs_le]
  generalize rootRounded (squares x y z w) ^ 2 = R at *
  constructor <;> linarith

/-! ## Specification -/

/-- The sum of the squares. -/
def total (v : List ℚ) : ℚ := (v.map (· ^ 2)).sum

/-- `r` is a vector of length one in the direction of `v`: a positive multiple of it but for the rounding of each coordinate, its length being right to one part in 500000. -/
def UnitAlong (v : List ℚ) (r : List F32) : Prop :=
  ∃ (l : ℚ) (v' : List ℚ), 0 < l ∧ r = v'.map fin ∧ |l ^ 2 * total v - 1| ≤ pow2 (-20) ∧ |total v' - 1| ≤ pow2 (-19) ∧
    List.Forall₂ (fun x x' => |x' - l * x| ≤ |l * x| * pow2 (-24) + pow2 (-150)) v v'

theorem coordinate_square {a d : ℚ} (ha : |a| ≤ 2) (hd : |d - a| ≤ |a| * pow2 (-24) + pow2 (-150)) : |d ^ 2 - a ^ 2| ≤ a ^ 2 * (3 * pow2 (-24)) + pow2 (-140) := by
  have hη : pow2 (-150) = pow2 (-140) * (1 / 1024) := by rw [show (-150 : ℤ) = -140 + -10 by norm_num, pow2_add]; norm_num [pow2_eq]
  have hη1 : pow2 (-140) ≤ 1 / 16777216 := by
    refine (pow2_le (show (-140 : ℤ) ≤ -24 by norm_num)).trans ?_
    norm_num [pow2_eq]
  have hη0 := pow2_pos (-140)
  have hu : pow2 (-24) = 1 / 16777216 := by norm_num [pow2_eq]
  rw [hη, hu] at hd
  rw [hu]
  have e : d ^ 2 - a ^ 2 = (d - a) * (2 * a + (d - a)) := by ring
  rw [e, abs_mul]
  have h1 : |2 * a + (d - a)| ≤ 2 * |a| + |d - a| := by
    refine (abs_add_le _ _).trans ?_
    rw [abs_mul, abs_two]
  have ea : a ^ 2 = |a| ^ 2 := (sq_abs a).symm
  rw [ea]
  have a0 := abs_nonneg a
  have d0 := abs_nonneg (d - a)
  generalize |a| = A at *
  generalize |d - a| = D at *
  generalize pow2 (-140) = η at *
  have h2 : D * |2 * a + (d - a)| ≤ D * (2 * A + D) := by gcongr
  refine h2.trans ?_
  have h3 : D * (2 * A + D) ≤ (A * (1 / 16777216) + η * (1 / 1024)) * (2 * A + (A * (1 / 16777216) + η * (1 / 1024))) := by gcongr
  refine h3.trans ?_
  have h4 : A * η ≤ 2 * η := by nlinarith
  have h5 : η * η ≤ η * (1 / 16777216) := by nlinarith
  nlinarith [mul_nonneg a0 a0, mul_nonneg a0 hη0.le]

theorem coordinate_le {l x S : ℚ} (hl : |l ^ 2 * S - 1| ≤ pow2 (-20)) (hx : x * x ≤ S) : |l * x| ≤ 2 := by
  have h1 : pow2 (-20) ≤ 1 := by norm_num [pow2_eq]
  have h2 : (l * x) ^ 2 ≤ 2 ^ 2 := by
    have := (abs_le.1 hl).2
    have h3 : l ^ 2 * (x * x) ≤ l ^ 2 * S := mul_le_mul_of_nonneg_left hx (sq_nonneg l)
    nlinarith
  exact abs_le_of_sq_le_sq h2 (by norm_num)

theorem small_round {q : ℚ} (h : |q| ≤ 2) : F32.round q = fin (rounded q) :=
  round_small (h.trans (by rw [show (2 : ℚ) = pow2 1 from rfl]; exact pow2_le (by norm_num)))

/-- The square of the length after the coordinates have been rounded. -/
theorem unit_length {l x y z w : ℚ} (hl : |l ^ 2 * (x * x + y * y + z * z + w * w) - 1| ≤ pow2 (-20)) :
    |l * x| ≤ 2 ∧ |l * y| ≤ 2 ∧ |l * z| ≤ 2 ∧ |l * w| ≤ 2 ∧
    |rounded (l * x) ^ 2 + rounded (l * y) ^ 2 + rounded (l * z) ^ 2 + rounded (l * w) ^ 2 - 1| ≤ pow2 (-19) := by
  have x0 := mul_self_nonneg x
  have y0 := mul_self_nonneg y
  have z0 := mul_self_nonneg z
  have w0 := mul_self_nonneg w
  have hx := coordinate_le (x := x) hl (by linarith)
  have hy := coordinate_le (x := y) hl (by linarith)
  have hz := coordinate_le (x := z) hl (by linarith)
  have hw := coordinate_le (x := w) hl (by linarith)
  refine ⟨hx, hy, hz, hw, ?_⟩
  have sx := coordinate_square hx (rounded_close _)
  have sy := coordinate_square hy (rounded_close _)
  have sz := coordinate_square hz (rounded_close _)
  have sw := coordinate_square hw (rounded_close _)
  have hη1 : pow2 (-140) ≤ 1 / 16777216 / 16 := by
    refine (pow2_le (show (-140 : ℤ) ≤ -28 by norm_num)).trans ?_
    norm_num [pow2_eq]
  have hu : pow2 (-24) = 1 / 16777216 := by norm_num [pow2_eq]
  have hu' : pow2 (-20) = 16 / 16777216 := by norm_num [pow2_eq]
  have hu'' : pow2 (-19) = 32 / 16777216 := by norm_num [pow2_eq]
  rw [hu] at sx sy sz sw
  rw [hu'] at hl
  rw [hu'']
  have e : l ^ 2 * (x * x + y * y + z * z + w * w) = (l * x) ^ 2 + (l * y) ^ 2 + (l * z) ^ 2 + (l * w) ^ 2 := by ring
  rw [e] at hl
  rw [abs_le] at *
  constructor <;> linarith

/-- The factor of `zpl_vec2_norm` and so on, and that of the safe variants. -/
theorem factor_near {x y z w : ℚ} (h : pow2 (-120) ≤ x * x + y * y + z * z + w * w) (h' : x * x + y * y + z * z + w * w ≤ pow2 126) :
    rsqrt (fin (squares x y z w)) = fin (rounded (1 / rootRounded (squares x y z w))) ∧ 0 < rounded (1 / rootRounded (squares x y z w)) ∧
    |rounded (1 / rootRounded (squares x y z w)) ^ 2 * (x * x + y * y + z * z + w * w) - 1| ≤ pow2 (-20) ∧
    |(1 / rootRounded (squares x y z w)) ^ 2 * (x * x + y * y + z * z + w * w) - 1| ≤ pow2 (-20) := by
  obtain ⟨d0, r0, hr⟩ := length_near h
  have hS := lt_of_lt_of_le (pow2_pos (-120)) h
  have hu : pow2 (-24) = 1 / 16777216 := by norm_num [pow2_eq]
  have hu' : pow2 (-20) = 16 / 16777216 := by norm_num [pow2_eq]
  have hu'' : pow2 (-21) = 8 / 16777216 := by norm_num [pow2_eq]
  rw [hu''] at hr
  rw [hu']
  generalize hS' : x * x + y * y + z * z + w * w = S at *
  have up : rootRounded (squares x y z w) ≤ pow2 64 := by
    by_contra hc
    rw [not_le] at hc
    have : pow2 64 * pow2 64 < rootRounded (squares x y z w) ^ 2 := by have := pow2_pos 64; nlinarith
    rw [← pow2_add] at this
    have h1 := (abs_le.1 hr).2
    have h2 : pow2 (64 + 64) = pow2 126 * 4 := by rw [show (64 + 64 : ℤ) = 126 + 2 by norm_num, pow2_add]; rfl
    linarith
  have lo : pow2 (-64) ≤ rootRounded (squares x y z w) := by
    by_contra hc
    rw [not_le] at hc
    have : rootRounded (squares x y z w) ^ 2 < pow2 (-64) * pow2 (-64) := by nlinarith
    rw [← pow2_add] at this
    have h1 := (abs_le.1 hr).1
    have h2 : pow2 (-120) = pow2 (-64 + -64) * 256 := by rw [show (-120 : ℤ) = (-64 + -64) + 8 by norm_num, pow2_add]; rfl
    linarith [pow2_pos (-64 + -64)]
  generalize hr' : rootRounded (squares x y z w) = r at *
  have i0 : 0 < 1 / r := by positivity
  have i1 : 1 / r ≤ pow2 64 := by
    rw [div_le_iff₀ r0]
    have : pow2 64 * pow2 (-64) = 1 := by rw [← pow2_add]; rfl
    have := pow2_pos 64
    nlinarith
  have i2 : pow2 (-126) ≤ 1 / r := by
    refine (pow2_le (show (-126 : ℤ) ≤ -64 by norm_num)).trans ?_
    rw [le_div_iff₀ r0]
    have : pow2 64 * pow2 (-64) = 1 := by rw [← pow2_add]; rfl
    have := pow2_pos (-64)
    nlinarith
  have er := rounded_error (le_of_eq (abs_of_pos i0)) i2
  rw [hu, abs_le] at er
  have l0 : 0 < rounded (1 / r) := by linarith
  have e2 : (1 / r) ^ 2 * r ^ 2 = 1 := by field_simp
  have s1 : |(1 / r) ^ 2 * S - 1| ≤ 9 / 16777216 := by
    have i2 : 0 < (1 / r) ^ 2 := by positivity
    have hr1 := (abs_le.1 hr).1
    have hr2 := (abs_le.1 hr).2
    have m1 : (1 / r) ^ 2 * (r ^ 2 - S) ≤ (1 / r) ^ 2 * (S * (8 / 16777216)) := mul_le_mul_of_nonneg_left hr2 i2.le
    have m2 : (1 / r) ^ 2 * -(S * (8 / 16777216)) ≤ (1 / r) ^ 2 * (r ^ 2 - S) := mul_le_mul_of_nonneg_left hr1 i2.le
    rw [mul_sub, e2] at m1 m2
    rw [abs_le]
    have e3 : (1 / r) ^ 2 * (S * (8 / 16777216)) = (1 / r) ^ 2 * S * (8 / 16777216) := by ring
    have e4 : (1 / r) ^ 2 * -(S * (8 / 16777216)) = -((1 / r) ^ 2 * S * (8 / 16777216)) := by ring
    rw [e3] at m1
    rw [e4] at m2
    constructor <;> linarith
  refine ⟨?_, l0, ?_, s1.trans (by norm_num)⟩
  · unfold rsqrt
    rw [sqrt_pos d0, hr']
    change (if r = 0 then _ else F32.round (1 / r)) = _
    rw [if_neg (ne_of_gt r0), round_small (by rw [abs_of_pos i0]; exact i1.trans (pow2_le (by norm_num)))]
  · have q1 : rounded (1 / r) ^ 2 ≤ (1 / r * (1 + 1 / 16777216)) ^ 2 := pow_le_pow_left₀ l0.le (by linarith) 2
    have q2 : (1 / r * (1 - 1 / 16777216)) ^ 2 ≤ rounded (1 / r) ^ 2 := pow_le_pow_left₀ (by nlinarith) (by linarith) 2
    have q1' := mul_le_mul_of_nonneg_right q1 hS.le
    have q2' := mul_le_mul_of_nonneg_right q2 hS.le
    rw [mul_pow] at q1' q2'
    have e3 : (1 / r) ^ 2 * (1 + 1 / 16777216) ^ 2 * S = (1 / r) ^ 2 * S * (1 + 1 / 16777216) ^ 2 := by ring
    have e4 : (1 / r) ^ 2 * (1 - 1 / 16777216) ^ 2 * S = (1 / r) ^ 2 * S * (1 - 1 / 16777216) ^ 2 := by ring
    rw [e3] at q1'
    rw [e4] at q2'
    rw [abs_le] at s1 ⊢
    constructor <;> linarith

theorem total_le {x y z w : ℚ} (hx : |x| ≤ pow2 62) (hy : |y| ≤ pow2 62) (hz : |z| ≤ pow2 62) (hw : |w| ≤ pow2 62) : x * x + y * y + z * z + w * w ≤ pow2 126 := by
  have e : pow2 126 = pow2 62 * pow2 62 * 4 := by rw [← pow2_add, show (126 : ℤ) = 62 + 62 + 2 by norm_num, pow2_add]; rfl
  have k : ∀ {t : ℚ}, |t| ≤ pow2 62 → t * t ≤ pow2 62 * pow2 62 := by
    intro t ht
    rw [← abs_mul_abs_self]
    have := abs_nonneg t
    nlinarith
  rw [e]
  linarith [k hx, k hy, k hz, k hw]

/-! ## C147 -/

/-- C147: the length is right: its square is the sum of the squares but for one part in two million, if no coordinate is above `2 ^ 62` and the sum is not below `2 ^ -120`. -/
theorem C147_mag {x y z w : ℚ} (hx : |x| ≤ pow2 62) (hy : |y| ≤ pow2 62) (hz : |z| ≤ pow2 62) (hw : |w| ≤ pow2 62) :
    (pow2 (-120) ≤ total [x, y] → ∃ r, mag2 ⟨fin x, fin y⟩ = fin r ∧ 0 < r ∧ |r ^ 2 - total [x, y]| ≤ total [x, y] * pow2 (-21)) ∧
    (pow2 (-120) ≤ total [x, y, z] → ∃ r, mag3 ⟨fin x, fin y, fin z⟩ = fin r ∧ 0 < r ∧ |r ^ 2 - total [x, y, z]| ≤ total [x, y, z] * pow2 (-21)) ∧
    (pow2 (-120) ≤ total [x, y, z, w] → ∃ r, mag4 ⟨fin x, fin y, fin z, fin w⟩ = fin r ∧ 0 < r ∧ |r ^ 2 - total [x, y, z, w]| ≤ total [x, y, z, w] * pow2 (-21)) := by
  have t2 : total [x, y] = x * x + y * y + 0 * 0 + 0 * 0 := by simp [total]; ring
  have t3 : total [x, y, z] = x * x + y * y + z * z + 0 * 0 := by simp [total]; ring
  have t4 : total [x, y, z, w] = x * x + y * y + z * z + w * w := by simp [total]; ring
  refine ⟨fun h => ?_, fun h => ?_, fun h => ?_⟩
  · rw [t2] at h ⊢
    obtain ⟨d0, r0, hr⟩ := length_near h
    exact ⟨_, by unfold mag2; rw [dot2_eq hx hy, sqrt_pos d0], r0, hr⟩
  · rw [t3] at h ⊢
    obtain ⟨d0, r0, hr⟩ := length_near h
    exact ⟨_, by unfold mag3; rw [dot3_eq hx hy hz, sqrt_pos d0], r0, hr⟩
  · rw [t4] at h ⊢
    obtain ⟨d0, r0, hr⟩ := length_near h
    exact ⟨_, by unfold mag4; rw [dot4_eq hx hy hz hw, sqrt_pos d0], r0, hr⟩

/-- C147: normalising gives a vector of length one in the same direction, under the same conditions. -/
theorem C147_norm_partial {x y z w : ℚ} (hx : |x| ≤ pow2 62) (hy : |y| ≤ pow2 62) (hz : |z| ≤ pow2 62) (hw : |w| ≤ pow2 62) :
    (pow2 (-120) ≤ total [x, y] → UnitAlong [x, y] [(norm2 ⟨fin x, fin y⟩).x, (norm2 ⟨fin x, fin y⟩).y]) ∧
    (pow2 (-120) ≤ total [x, y, z] → UnitAlong [x, y, z] [(norm3 ⟨fin x, fin y, fin z⟩).x, (norm3 ⟨fin x, fin y, fin z⟩).y, (norm3 ⟨fin x, fin y, fin z⟩).z]) ∧
    (pow2 (-120) ≤ total [x, y, z, w] → UnitAlong [x, y, z, w] [(norm4 ⟨fin x, fin y, fin z, fin w⟩).x, (norm4 ⟨fin x, fin y, fin z, fin w⟩).y,
      (norm4 ⟨fin x, fin y, fin z, fin w⟩).z, (norm4 ⟨fin x, fin y, fin z, fin w⟩).w]) := by
  have t2 : total [x, y] = x * x + y * y + 0 * 0 + 0 * 0 := by simp [total]; ring
  have t3 : total [x, y, z] = x * x + y * y + z * z + 0 * 0 := by simp [total]; ring
  have t4 : total [x, y, z, w] = x * x + y * y + z * z + w * w := by simp [total]; ring
  have z62 : |(0 : ℚ)| ≤ pow2 62 := by rw [abs_zero]; exact (pow2_pos 62).le
  have m : ∀ {a l : ℚ}, |l * a| ≤ 2 → mul (fin a) (fin l) = fin (rounded (l * a)) := by
    intro a l h
    change F32.round (a * l) = _
    rw [mul_comm, small_round h]
  refine ⟨fun h => ?_, fun h => ?_, fun h => ?_⟩
  · rw [t2] at h
    obtain ⟨f1, f2, f3, -⟩ := factor_near h (total_le hx hy z62 z62)
    obtain ⟨lx, ly, -, -, u⟩ := unit_length f3
    refine ⟨_, [_, _], f2, ?_, by rw [t2]; exact f3, ?_, .cons (rounded_close _) (.cons (rounded_close _) .nil)⟩
    · unfold norm2
      dsimp only
      rw [dot2_eq hx hy, f1, m lx, m ly]
      rfl
    · simp only [mul_zero, rounded_zero] at u
      simp only [total, List.map_cons, List.map_nil, List.sum_cons, List.sum_nil]
      ring_nf at u ⊢
      exact u
  · rw [t3] at h
    obtain ⟨f1, f2, f3, -⟩ := factor_near h (total_le hx hy hz z62)
    obtain ⟨lx, ly, lz, -, u⟩ := unit_length f3
    refine ⟨_, [_, _, _], f2, ?_, by rw [t3]; exact f3, ?_, .cons (rounded_close _) (.cons (rounded_close _) (.cons (rounded_close _) .nil))⟩
    · unfold norm3
      dsimp only
      rw [dot3_eq hx hy hz, f1, m lx, m ly, m lz]
      rfl
    · simp only [mul_zero, rounded_zero] at u
      simp only [total, List.map_cons, List.map_nil, List.sum_cons, List.sum_nil]
      ring_nf at u ⊢
      exact u
  · rw [t4] at h
    obtain ⟨f1, f2, f3, -⟩ := factor_near h (total_le hx hy hz hw)
    obtain ⟨lx, ly, lz, lw, u⟩ := unit_length f3
    refine ⟨_, [_, _, _, _], f2, ?_, by rw [t4]; exact f3, ?_,
      .cons (rounded_close _) (.cons (rounded_close _) (.cons (rounded_close _) (.cons (rounded_close _) .nil)))⟩
    · unfold norm4
      dsimp only
      rw [dot4_eq hx hy hz hw, f1, m lx, m ly, m lz, m lw]
      rfl
    · simp only [total, List.map_cons, List.map_nil, List.sum_cons, List.sum_nil]
      ring_nf at u ⊢
      exact u

/-- C147: so do the safe variants. -/
theorem C147_norm0_partial {x y z w : ℚ} (hx : |x| ≤ pow2 62) (hy : |y| ≤ pow2 62) (hz : |z| ≤ pow2 62) (hw : |w| ≤ pow2 62) :
    (pow2 (-120) ≤ total [x, y] → UnitAlong [x, y] [(normZero2 ⟨fin x, fin y⟩).x, (normZero2 ⟨fin x, fin y⟩).y]) ∧
    (pow2 (-120) ≤ total [x, y, z] →
      UnitAlong [x, y, z] [(normZero3 ⟨fin x, fin y, fin z⟩).x, (normZero3 ⟨fin x, fin y, fin z⟩).y, (normZero3 ⟨fin x, fin y, fin z⟩).z]) ∧
    (pow2 (-120) ≤ total [x, y, z, w] → UnitAlong [x, y, z, w] [(normZero4 ⟨fin x, fin y, fin z, fin w⟩).x, (normZero4 ⟨fin x, fin y, fin z, fin w⟩).y,
      (normZero4 ⟨fin x, fin y, fin z, fin w⟩).z, (normZero4 ⟨fin x, fin y, fin z, fin w⟩).w]) := by
  have t2 : total [x, y] = x * x + y * y + 0 * 0 + 0 * 0 := by simp [total]; ring
  have t3 : total [x, y, z] = x * x + y * y + z * z + 0 * 0 := by simp [total]; ring
  have t4 : total [x, y, z, w] = x * x + y * y + z * z + w * w := by simp [total]; ring
  have z62 : |(0 : ℚ)| ≤ pow2 62 := by rw [abs_zero]; exact (pow2_pos 62).le
  have m : ∀ {a r : ℚ}, 0 < r → |1 / r * a| ≤ 2 → div (fin a) (fin r) = fin (rounded (1 / r * a)) := by
    intro a r hr h
    have e : a / r = 1 / r * a := by ring
    change (if r = 0 then _ else F32.round (a / r)) = _
    rw [if_neg (ne_of_gt hr), e, small_round h]
  have pos : ∀ {r : ℚ}, 0 < r → lt (fin 0) (fin r) = true := fun h => decide_eq_true h
  refine ⟨fun h => ?_, fun h => ?_, fun h => ?_⟩
  · rw [t2] at h
    obtain ⟨d0, r0, -⟩ := length_near h
    obtain ⟨-, -, -, f3⟩ := factor_near h (total_le hx hy z62 z62)
    obtain ⟨lx, ly, -, -, u⟩ := unit_length f3
    refine ⟨_, [_, _], one_div_pos.2 r0, ?_, by rw [t2]; exact f3, ?_, .cons (rounded_close _) (.cons (rounded_close _) .nil)⟩
    · unfold normZero2 mag2
      dsimp only
      rw [dot2_eq hx hy, sqrt_pos d0, pos r0, if_pos rfl, m r0 lx, m r0 ly]
      rfl
    · simp only [mul_zero, rounded_zero] at u
      simp only [total, List.map_cons, List.map_nil, List.sum_cons, List.sum_nil]
      ring_nf at u ⊢
      exact u
  · rw [t3] at h
    obtain ⟨d0, r0, -⟩ := length_near h
    obtain ⟨-, -, -, f3⟩ := factor_near h (total_le hx hy hz z62)
    obtain ⟨lx, ly, lz, -, u⟩ := unit_length f3
    refine ⟨_, [_, _, _], one_div_pos.2 r0, ?_, by rw [t3]; exact f3, ?_, .cons (rounded_close _) (.cons (rounded_close _) (.cons (rounded_close _) .nil))⟩
    · unfold normZero3 mag3
      dsimp only
      rw [dot3_eq hx hy hz, sqrt_pos d0, pos r0, if_pos rfl, m r0 lx, m r0 ly, m r0 lz]
      rfl
    · simp only [mul_zero, rounded_zero] at u
      simp only [total, List.map_cons, List.map_nil, List.sum_cons, List.sum_nil]
      ring_nf at u ⊢
      exact u
  · rw [t4] at h
    obtain ⟨d0, r0, -⟩ := length_near h
    obtain ⟨-, -, -, f3⟩ := factor_near h (total_le hx hy hz hw)
    obtain ⟨lx, ly, lz, lw, u⟩ := unit_length f3
    refine ⟨_, [_, _, _, _], one_div_pos.2 r0, ?_, by rw [t4]; exact f3, ?_,
      .cons (rounded_close _) (.cons (rounded_close _) (.cons (rounded_close _) (.cons (rounded_close _) .nil)))⟩
    · unfold normZero4 mag4
      dsimp only
      rw [dot4_eq hx hy hz hw, sqrt_pos d0, pos r0, if_pos rfl, m r0 lx, m r0 ly, m r0 lz, m r0 lw]
      rfl
    · simp only [total, List.map_cons, List.map_nil, List.sum_cons, List.sum_nil]
      ring_nf at u ⊢
      exact u

/-! ### Too large, too small -/

/-- What a square can be. -/
def Square (f : F32) : Prop := f = inf false ∨ ∃ q, 0 ≤ q ∧ f = fin q

theorem square_round {q : ℚ} (h : 0 ≤ q) : Square (F32.round q) := by
  unfold F32.round
  split
  · exact Or.inr ⟨_, rounded_nonneg h, rfl⟩
  · exact Or.inl (by rw [decide_eq_false (not_lt.2 h)])

theorem square_mul (x : ℚ) : Square (mul (fin x) (fin x)) := square_round (mul_self_nonneg x)

theorem square_add {a b : F32} (ha : Square a) (hb : Square b) : Square (add a b) := by
  rcases ha with rfl | ⟨p, hp, rfl⟩ <;> rcases hb with rfl | ⟨q, hq, rfl⟩
  · exact Or.inl rfl
  · exact Or.inl rfl
  · exact Or.inl rfl
  · exact square_round (add_nonneg hp hq)

theorem inf_add {b : F32} (hb : Square b) : add (inf false) b = inf false := by
  rcases hb with rfl | ⟨q, hq, rfl⟩ <;> rfl

theorem add_inf {a : F32} (ha : Square a) : add a (inf false) = inf false := by
  rcases ha with rfl | ⟨q, hq, rfl⟩ <;> rfl

theorem mul_large {x : ℚ} (h : pow2 64 ≤ |x|) : mul (fin x) (fin x) = inf false := by
  change F32.round (x * x) = _
  have h0 := mul_self_nonneg x
  rw [round_large, decide_eq_false (not_lt.2 h0)]
  rw [abs_of_nonneg h0, show (128 : ℤ) = 64 + 64 by norm_num, pow2_add, ← abs_mul_abs_self x]
  have := pow2_pos 64
  nlinarith

/-- C147: if a coordinate is `2 ^ 64` or more the length is infinite and the normalised vector is zero, although all is finite. -/
theorem C147_too_large {x y z w : ℚ} :
    (pow2 64 ≤ |x| ∨ pow2 64 ≤ |y| → mag2 ⟨fin x, fin y⟩ = inf false ∧ norm2 ⟨fin x, fin y⟩ = ⟨fin 0, fin 0⟩ ∧ normZero2 ⟨fin x, fin y⟩ = ⟨fin 0, fin 0⟩) ∧
    (pow2 64 ≤ |x| ∨ pow2 64 ≤ |y| ∨ pow2 64 ≤ |z| → mag3 ⟨fin x, fin y, fin z⟩ = inf false ∧ norm3 ⟨fin x, fin y, fin z⟩ = ⟨fin 0, fin 0, fin 0⟩ ∧
      normZero3 ⟨fin x, fin y, fin z⟩ = ⟨fin 0, fin 0, fin 0⟩) ∧
    (pow2 64 ≤ |x| ∨ pow2 64 ≤ |y| ∨ pow2 64 ≤ |z| ∨ pow2 64 ≤ |w| → mag4 ⟨fin x, fin y, fin z, fin w⟩ = inf false ∧
      norm4 ⟨fin x, fin y, fin z, fin w⟩ = ⟨fin 0, fin 0, fin 0, fin 0⟩ ∧ normZero4 ⟨fin x, fin y, fin z, fin w⟩ = ⟨fin 0, fin 0, fin 0, fin 0⟩) := by
  have sx := square_mul x
  have sy := square_mul y
  have sz := square_mul z
  have sw := square_mul w
  have m0 : ∀ q : ℚ, mul (fin q) (fin 0) = fin 0 := by
    intro q
    change F32.round (q * 0) = _
    rw [mul_zero]; decide +kernel
  have ri : rsqrt (inf false) = fin 0 := rfl
  refine ⟨fun h => ?_, fun h => ?_, fun h => ?_⟩
  · have d : dot2 ⟨fin x, fin y⟩ ⟨fin x, fin y⟩ = inf false := by
      unfold dot2
      dsimp only
      rcases h with h | h
      · rw [mul_large h, inf_add sy]
      · rw [mul_large h, add_inf sx]
    refine ⟨by unfold mag2; rw [d]; rfl, by unfold norm2; dsimp only; rw [d, ri, m0, m0], by unfold normZero2 mag2; dsimp only; rw [d]; rfl⟩
  · have d : dot3 ⟨fin x, fin y, fin z⟩ ⟨fin x, fin y, fin z⟩ = inf false := by
      unfold dot3
      dsimp only
      rcases h with h | h | h
      · rw [mul_large h, inf_add sy, inf_add sz]
      · rw [mul_large h, add_inf sx, inf_add sz]
      · rw [mul_large h, add_inf (square_add sx sy)]
    refine ⟨by unfold mag3; rw [d]; rfl, by unfold norm3; dsimp only; rw [d, ri, m0, m0, m0], by unfold normZero3 mag3; dsimp only; rw [d]; rfl⟩
  · have d : dot4 ⟨fin x, fin y, fin z, fin w⟩ ⟨fin x, fin y, fin z, fin w⟩ = inf false := by
      unfold dot4
      dsimp only
      rcases h with h | h | h | h
      · rw [mul_large h, inf_add sy, inf_add sz, inf_add sw]
      · rw [mul_large h, add_inf sx, inf_add sz, inf_add sw]
      · rw [mul_large h, add_inf (square_add sx sy), inf_add sw]
      · rw [mul_large h, add_inf (square_add (square_add sx sy) sz)]
    refine ⟨by unfold mag4; rw [d]; rfl, by unfold norm4; dsimp only; rw [d, ri, m0, m0, m0, m0], by unfold normZero4 mag4; dsimp only; rw [d]; rfl⟩

theorem mul_tiny {x : ℚ} (h : |x| < pow2 (-75)) : mul (fin x) (fin x) = fin 0 := by
  have h0 := mul_self_nonneg x
  have h1 : x * x < pow2 (-150) := by
    rw [show (-150 : ℤ) = -75 + -75 by norm_num, pow2_add, ← abs_mul_abs_self]
    have := abs_nonneg x
    have := pow2_pos (-75)
    nlinarith
  have hr0 := rounded_nonneg h0
  have hr1 : rounded (x * x) < pow2 (-149) := by
    have := rounded_nearest (x * x) (m := 0) (e := 0) (by norm_num) (by norm_num)
    rw [Int.cast_zero, zero_mul, zero_sub, abs_neg, abs_of_nonneg h0] at this
    have h2 := (abs_le.1 this).2
    have e : pow2 (-149) = 2 * pow2 (-150) := by rw [show (-149 : ℤ) = -150 + 1 by norm_num, pow2_add, show pow2 1 = 2 from rfl]; ring
    linarith
  have hz : rounded (x * x) = 0 := by
    by_contra hne
    obtain ⟨m, e, -, he, hg⟩ := rounded_grid (x * x)
    rw [hg] at hr0 hr1 hne
    have hp := pow2_pos e
    have hp' := pow2_le he
    have m1 : (0 : ℚ) < m := by
      by_contra hc
      rcases lt_or_eq_of_le (not_lt.1 hc) with h | h
      · nlinarith
      · rw [h, zero_mul] at hne; exact hne rfl
    have m2 : (1 : ℚ) ≤ m := by
      have : 0 < m := by exact_mod_cast m1
      exact_mod_cast this
    nlinarith
  change F32.round (x * x) = _
  rw [round_small, hz]
  rw [abs_of_nonneg h0]
  exact h1.le.trans (pow2_le (by norm_num))

/-- C147: if all coordinates are below `2 ^ -75` the length is zero.  The safe variants give zero; the others give infinity, or no number where the coordinate is zero. -/
theorem C147_too_small {x y z w : ℚ} (hx : |x| < pow2 (-75)) (hy : |y| < pow2 (-75)) (hz : |z| < pow2 (-75)) (hw : |w| < pow2 (-75)) (h0 : x ≠ 0) :
    (mag2 ⟨fin x, fin y⟩ = fin 0 ∧ normZero2 ⟨fin x, fin y⟩ = ⟨fin 0, fin 0⟩ ∧ (norm2 ⟨fin x, fin y⟩).x = inf (decide (x < 0)) ∧ (y = 0 → (norm2 ⟨fin x, fin y⟩).y = nan)) ∧
    (mag3 ⟨fin x, fin y, fin z⟩ = fin 0 ∧ normZero3 ⟨fin x, fin y, fin z⟩ = ⟨fin 0, fin 0, fin 0⟩ ∧ (norm3 ⟨fin x, fin y, fin z⟩).x = inf (decide (x < 0)) ∧
      (y = 0 → (norm3 ⟨fin x, fin y, fin z⟩).y = nan)) ∧
    (mag4 ⟨fin x, fin y, fin z, fin w⟩ = fin 0 ∧ normZero4 ⟨fin x, fin y, fin z, fin w⟩ = ⟨fin 0, fin 0, fin 0, fin 0⟩ ∧
      (norm4 ⟨fin x, fin y, fin z, fin w⟩).x = inf (decide (x < 0)) ∧ (y = 0 → (norm4 ⟨fin x, fin y, fin z, fin w⟩).y = nan)) := by
  have a0 : add (fin 0) (fin 0) = fin 0 := by decide +kernel
  have d2 : dot2 ⟨fin x, fin y⟩ ⟨fin x, fin y⟩ = fin 0 := by unfold dot2; dsimp only; rw [mul_tiny hx, mul_tiny hy, a0]
  have d3 : dot3 ⟨fin x, fin y, fin z⟩ ⟨fin x, fin y, fin z⟩ = fin 0 := by unfold dot3; dsimp only; rw [mul_tiny hx, mul_tiny hy, mul_tiny hz, a0, a0]
  have d4 : dot4 ⟨fin x, fin y, fin z, fin w⟩ ⟨fin x, fin y, fin z, fin w⟩ = fin 0 := by
    unfold dot4; dsimp only; rw [mul_tiny hx, mul_tiny hy, mul_tiny hz, mul_tiny hw, a0, a0, a0]
  have r0 : rsqrt (fin 0) = inf false := by unfold rsqrt; rw [sqrt_zero]; decide +kernel
  have mi : ∀ q : ℚ, mul (fin q) (inf false) = if q = 0 then nan else inf (false != decide (q < 0)) := fun q => rfl
  have l0 : lt (fin 0) (fin 0) = false := by decide +kernel
  have xi : mul (fin x) (inf false) = inf (decide (x < 0)) := by rw [mi, if_neg h0]; simp
  have yn : y = 0 → mul (fin y) (inf false) = nan := fun h => by rw [mi, if_pos h]
  refine ⟨⟨by unfold mag2; rw [d2, sqrt_zero], ?_, ?_, fun h => ?_⟩, ⟨by unfold mag3; rw [d3, sqrt_zero], ?_, ?_, fun h => ?_⟩, ⟨by unfold mag4; rw [d4, sqrt_zero], ?_, ?_, fun h => ?_⟩⟩
  · unfold normZero2 mag2; dsimp only; rw [d2, sqrt_zero, l0, if_neg Bool.false_ne_true]
  · unfold norm2; dsimp only; rw [d2, r0, xi]
  · unfold norm2; dsimp only; rw [d2, r0, yn h]
  · unfold normZero3 mag3; dsimp only; rw [d3, sqrt_zero, l0, if_neg Bool.false_ne_true]
  · unfold norm3; dsimp only; rw [d3, r0, xi]
  · unfold norm3; dsimp only; rw [d3, r0, yn h]
  · unfold normZero4 mag4; dsimp only; rw [d4, sqrt_zero, l0, if_neg Bool.false_ne_true]
  · unfold norm4; dsimp only; rw [d4, r0, xi]
  · unfold norm4; dsimp only; rw [d4, r0, yn h]

/-! ### The hypotheses can be met -/

/-- Three and four. -/
example : ∃ r, mag2 ⟨fin 3, fin 4⟩ = fin r ∧ 0 < r ∧ |r ^ 2 - total [3, 4]| ≤ total [3, 4] * pow2 (-21) :=
  (C147_mag (x := 3) (y := 4) (z := 0) (w := 0) (by norm_num [pow2_eq]) (by norm_num [pow2_eq]) (by norm_num [pow2_eq]) (by norm_num [pow2_eq])).1 (by norm_num [pow2_eq, total])

example : mag2 ⟨fin 3, fin 4⟩ = fin 5 := by decide +kernel

/-- The square root of two as `float` has it. -/
example : sqrt (fin 2) = fin (11863283 / 2 ^ 23) := by decide +kernel

example : UnitAlong [1, 2, 3] [(norm3 ⟨fin 1, fin 2, fin 3⟩).x, (norm3 ⟨fin 1, fin 2, fin 3⟩).y, (norm3 ⟨fin 1, fin 2, fin 3⟩).z] :=
  (C147_norm_partial (x := 1) (y := 2) (z := 3) (w := 0) (by norm_num [pow2_eq]) (by norm_num [pow2_eq]) (by norm_num [pow2_eq]) (by norm_num [pow2_eq])).2.1 (by norm_num [pow2_eq, total])

example : normZero2 ⟨fin (2 ^ 64), fin 1⟩ = ⟨fin 0, fin 0⟩ := (C147_too_large (z := 0) (w := 0)).1 (Or.inl (by norm_num [pow2_eq])) |>.2.2

example : normZero2 ⟨fin (1 / 2 ^ 76), fin 0⟩ = ⟨fin 0, fin 0⟩ :=
  (C147_too_small (x := 1 / 2 ^ 76) (y := 0) (z := 0) (w := 0) (by norm_num [pow2_eq, abs_of_pos]) (by norm_num [pow2_eq]) (by norm_num [pow2_eq]) (by norm_num [pow2_eq])
    (by norm_num)).1.2.1

end Zpl.LengthF
