import Verif.Math.MatFloat
import Mathlib.Analysis.Quaternion

/-!
# Turning again and again (code/source/math.c:1182-1200)  -  C158

A game turns an object a little in every frame: `zpl_quat_muleq(&orientation, turn)`.  Each product is rounded, and the next begins with the rounded one.

## Model -/

namespace Zpl.Drift

open Math F32 MathF MatF
open F64 (pow2 pow2_eq pow2_pos pow2_add pow2_le pow2_lt_iff)

/-- math.c:1200 `zpl_quat_muleq`, called for each of the quaternions in turn. -/
def turns (q : Q F32) : List (Q F32) → Q F32
  | [] => q
  | d :: ds => turns (q.mul d) ds

/-! ## Specification -/

/-- The quaternion as one of the real numbers, for its length. -/
noncomputable def real (q : Q ℚ) : Quaternion ℝ := ⟨(q.w : ℝ), (q.x : ℝ), (q.y : ℝ), (q.z : ℝ)⟩

/-- What one product may be off, as a part of the length. -/
def unit : ℚ := 41 / 2 ^ 24

/-! ## C158 -/

theorem normSq_real (q : Q ℚ) : ‖real q‖ * ‖real q‖ = (((q.w ^ 2 + q.x ^ 2 + q.y ^ 2 + q.z ^ 2 : ℚ)) : ℝ) := by
  rw [← Quaternion.normSq_eq_norm_mul_self, Quaternion.normSq_def']
  simp [real]

theorem component {q : Q ℚ} {A : ℚ} (h : ‖real q‖ ≤ A) : |q.x| ≤ A ∧ |q.y| ≤ A ∧ |q.z| ≤ A ∧ |q.w| ≤ A := by
  have h0 : (0 : ℝ) ≤ A := (norm_nonneg _).trans h
  have h0' : (0 : ℚ) ≤ A := by exact_mod_cast h0
  have h1 : ‖real q‖ * ‖real q‖ ≤ (A : ℝ) * A := mul_self_le_mul_self (norm_nonneg _) h
  rw [normSq_real] at h1
  have h2 : q.w ^ 2 + q.x ^ 2 + q.y ^ 2 + q.z ^ 2 ≤ A * A := by exact_mod_cast h1
  refine ⟨?_, ?_, ?_, ?_⟩ <;> refine abs_le_of_sq_le_sq ?_ h0' <;> nlinarith [sq_nonneg q.x, sq_nonneg q.y, sq_nonneg q.z, sq_nonneg q.w]

theorem real_mul (p q : Q ℚ) : real p * real q = real ⟨(p.toQ * q.toQ).imI, (p.toQ * q.toQ).imJ, (p.toQ * q.toQ).imK, (p.toQ * q.toQ).re⟩ := by
  apply Quaternion.ext <;> simp only [Quaternion.re_mul, Quaternion.imI_mul, Quaternion.imJ_mul, Quaternion.imK_mul] <;> simp only [real] <;>
    push_cast <;> rfl

theorem real_sub (p q : Q ℚ) : real p - real q = real ⟨p.x - q.x, p.y - q.y, p.z - q.z, p.w - q.w⟩ := by
  apply Quaternion.ext <;> simp only [Quaternion.re_sub, Quaternion.imI_sub, Quaternion.imJ_sub, Quaternion.imK_sub, real] <;> push_cast <;> rfl

theorem norm_le_of {q : Q ℚ} {e : ℚ} (h0 : 0 ≤ e) (hx : |q.x| ≤ e) (hy : |q.y| ≤ e) (hz : |q.z| ≤ e) (hw : |q.w| ≤ e) : ‖real q‖ ≤ (2 * e : ℚ) := by
  have sq2 : ∀ {a : ℚ}, |a| ≤ e → a ^ 2 ≤ e ^ 2 := fun h => sq_le_sq' (by linarith [abs_le.mp h]) (abs_le.mp h).2
  have h2 : q.w ^ 2 + q.x ^ 2 + q.y ^ 2 + q.z ^ 2 ≤ (2 * e) * (2 * e) := by linarith [sq2 hx, sq2 hy, sq2 hz, sq2 hw]
  refine abs_le_of_sq_le_sq' ?_ (by exact_mod_cast (by linarith : (0 : ℚ) ≤ 2 * e)) |>.2
  rw [sq, sq, normSq_real]
  exact_mod_cast h2

theorem close {r : Q ℚ} {m : Quaternion ℚ} {e : ℚ} (hx : |r.x - m.imI| ≤ e) (hy : |r.y - m.imJ| ≤ e) (hz : |r.z - m.imK| ≤ e) (hw : |r.w - m.re| ≤ e) :
    ‖real r - real ⟨m.imI, m.imJ, m.imK, m.re⟩‖ ≤ (2 * e : ℚ) := by
  rw [real_sub]
  exact norm_le_of ((abs_nonneg _).trans hx) hx hy hz hw

theorem slack {m : ℚ} (h1 : 1 ≤ m) : 2 * (m * (20 * pow2 (-24)) + pow2 (-146)) ≤ m * unit := by
  have t : pow2 (-146) ≤ 1 / 2 ^ 25 := by norm_num [pow2_eq]
  rw [u_eq, unit]
  linarith

/-- One product. -/
theorem one (q d : Q ℚ) {A B : ℚ} (hq : ‖real q‖ ≤ A) (hd : ‖real d‖ ≤ B) (h1 : 1 ≤ A * B) (h : A * B ≤ pow2 124) :
    ∃ r, (quat q).mul (quat d) = quat r ∧ ‖real r - real q * real d‖ ≤ ((A * B * unit : ℚ) : ℝ) := by
  have c := C155_quat q d (component hq) (component hd) h
  have sl := slack h1
  revert c
  generalize A * B * (20 * pow2 (-24)) + pow2 (-146) = e at sl ⊢
  intro c
  obtain ⟨cx, cy, cz, cw⟩ := c
  obtain ⟨x, hx, ex⟩ := cx
  obtain ⟨y, hy, ey⟩ := cy
  obtain ⟨z, hz, ez⟩ := cz
  obtain ⟨w, hw, ew⟩ := cw
  refine ⟨⟨x, y, z, w⟩, Q.ext' hx hy hz hw, ?_⟩
  rw [real_mul]
  revert ex ey ez ew
  generalize q.toQ * d.toQ = m
  intro ex ey ez ew
  exact (close (r := ⟨x, y, z, w⟩) ex ey ez ew).trans (Rat.cast_le.mpr sl)

theorem many (ds : List (Q ℚ)) (L : ℚ) (hL : 1 ≤ L) (hds : ∀ d ∈ ds, ‖real d‖ ≤ L) (q : Q ℚ) (X : Quaternion ℝ) (P G : ℚ) (hP : 1 ≤ P) (hG : 1 ≤ G)
    (hX : ‖X‖ ≤ P) (hq : ‖real q - X‖ ≤ ((P * (G - 1) : ℚ) : ℝ)) (h : P * G * (L * (1 + unit)) ^ ds.length ≤ pow2 124) :
    ∃ r, turns (quat q) (ds.map quat) = quat r ∧
      ‖real r - X * (ds.map real).prod‖ ≤ ((P * L ^ ds.length * (G * (1 + unit) ^ ds.length - 1) : ℚ) : ℝ) := by
  have u0 : (0 : ℚ) ≤ unit := by norm_num [unit]
  induction ds generalizing q X P G with
  | nil => exact ⟨q, rfl, by simpa using hq⟩
  | cons d ds ih =>
    have hd := hds d List.mem_cons_self
    have hd0 : (0 : ℝ) ≤ ‖real d‖ := norm_nonneg _
    have hL0 : (0 : ℝ) ≤ (L : ℝ) := hd0.trans hd
    have hqA : ‖real q‖ ≤ ((P * G : ℚ) : ℝ) := by
      have : real q = X + (real q - X) := by abel
      rw [this]
      refine (norm_add_le _ _).trans ((add_le_add hX hq).trans (le_of_eq ?_))
      push_cast; ring
    have hPG : 1 ≤ P * G := one_le_mul_of_one_le_of_one_le hP hG
    have hPGL : 1 ≤ P * G * L := one_le_mul_of_one_le_of_one_le hPG hL
    have hpow : (1 : ℚ) ≤ (L * (1 + unit)) ^ ds.length := one_le_pow₀ (one_le_mul_of_one_le_of_one_le hL (by linarith))
    have h' : P * L * (G * (1 + unit)) * (L * (1 + unit)) ^ ds.length ≤ pow2 124 := by
      refine le_trans (le_of_eq ?_) h
      rw [List.length_cons, pow_succ]; ring
    obtain ⟨r, hr, er⟩ := one q d hqA hd hPGL (by
      refine le_trans ?_ h'
      have e1 : P * G * L ≤ P * L * (G * (1 + unit)) := by nlinarith
      exact e1.trans (le_mul_of_one_le_right (by nlinarith) hpow))
    have er' : ‖real r - X * real d‖ ≤ ((P * L * (G * (1 + unit) - 1) : ℚ) : ℝ) := by
      have : real r - X * real d = (real r - real q * real d) + (real q - X) * real d := by rw [sub_mul]; abel
      rw [this]
      refine (norm_add_le _ _).trans ?_
      rw [_root_.norm_mul]
      have e2 : ‖real q - X‖ * ‖real d‖ ≤ ((P * (G - 1) : ℚ) : ℝ) * L := mul_le_mul hq hd hd0 ((norm_nonneg _).trans hq)
      refine (add_le_add er e2).trans (le_of_eq ?_)
      push_cast; ring
    have hX' : ‖X * real d‖ ≤ ((P * L : ℚ) : ℝ) := by
      rw [_root_.norm_mul]; push_cast
      exact mul_le_mul hX hd hd0 ((norm_nonneg _).trans hX)
    obtain ⟨s, hs, es⟩ := ih (fun e he => hds e (List.mem_cons_of_mem _ he)) r (X * real d) (P * L) (G * (1 + unit)) (one_le_mul_of_one_le_of_one_le hP hL)
      (one_le_mul_of_one_le_of_one_le hG (by linarith)) hX' er' h'
    refine ⟨s, ?_, ?_⟩
    · rw [List.map_cons, turns, hr, hs]
    · rw [List.map_cons, List.prod_cons, ← mul_assoc, List.length_cons]
      refine es.trans (le_of_eq ?_)
      push_cast; ring

/-- C158: an orientation of length at most one, turned `n` times by quaternions of length at most `L`, each product rounded, differs from the exact product by at most
Lⁿ((1 + 41·2⁻²⁴)ⁿ − 1), in length, and is finite, as long as this stays below 2¹²⁴. -/
theorem C158_drift (p : Q ℚ) (ds : List (Q ℚ)) (L : ℚ) (hL : 1 ≤ L) (hp : ‖real p‖ ≤ 1) (hds : ∀ d ∈ ds, ‖real d‖ ≤ L) (h : (L * (1 + 41 / 2 ^ 24)) ^ ds.length ≤ pow2 124) :
    ∃ r, turns (quat p) (ds.map quat) = quat r ∧ ‖real r - real p * (ds.map real).prod‖ ≤ (L : ℝ) ^ ds.length * ((1 + 41 / 2 ^ 24) ^ ds.length - 1) := by
  obtain ⟨r, hr, er⟩ := many ds L hL hds p (real p) 1 1 le_rfl le_rfl (by simpa using hp) (by simp) (by simpa [unit] using h)
  refine ⟨r, hr, er.trans (le_of_eq ?_)⟩
  simp [unit]

theorem linear (n : ℕ) {u : ℚ} (hu : 0 ≤ u) (h : 2 * n * u ≤ 1) : (1 + u) ^ n ≤ 1 + 2 * n * u := by
  induction n with
  | zero => simp
  | succ n ih =>
    push_cast at h ⊢
    have hn : (0 : ℚ) ≤ n := Nat.cast_nonneg n
    have := ih (by nlinarith)
    rw [pow_succ]
    nlinarith

/-- C158: so `n` turns, up to a hundred thousand, whose length exceeds one by at most 2⁻²², are off by at most `n · 100 · 2⁻²⁴`. -/
theorem C158_linear (p : Q ℚ) (ds : List (Q ℚ)) (hp : ‖real p‖ ≤ 1) (hds : ∀ d ∈ ds, ‖real d‖ ≤ 1 + 1 / 2 ^ 22) (hn : ds.length ≤ 100000) :
    ∃ r, turns (quat p) (ds.map quat) = quat r ∧ ‖real r - real p * (ds.map real).prod‖ ≤ ds.length * (100 / 2 ^ 24) := by
  have n0 : ((ds.length : ℕ) : ℚ) ≤ 100000 := by exact_mod_cast hn
  have n1 : (0 : ℚ) ≤ ds.length := Nat.cast_nonneg _
  have a := linear ds.length (u := 1 / 2 ^ 22) (by norm_num) (by linarith)
  have b := linear ds.length (u := 41 / 2 ^ 24) (by norm_num) (by linarith)
  have a0 : (0 : ℚ) ≤ (1 + 1 / 2 ^ 22) ^ ds.length := by positivity
  have b0 : (1 : ℚ) ≤ (1 + 41 / 2 ^ 24) ^ ds.length := one_le_pow₀ (by norm_num)
  have a1 : (1 + 1 / 2 ^ 22 : ℚ) ^ ds.length ≤ 1.05 := by linarith
  have b1 : (1 + 41 / 2 ^ 24 : ℚ) ^ ds.length - 1 ≤ 2 * ds.length * (41 / 2 ^ 24) := by linarith
  obtain ⟨r, hr, er⟩ := C158_drift p ds (1 + 1 / 2 ^ 22) (by norm_num) hp (fun d hd => by simpa using hds d hd) (by
    rw [mul_pow]
    have : (1 + 1 / 2 ^ 22 : ℚ) ^ ds.length * (1 + 41 / 2 ^ 24) ^ ds.length ≤ 1.05 * 2 := mul_le_mul a1 (by linarith) (by linarith) (by norm_num)
    refine this.trans ?_
    have := pow2_le (a := 2) (b := 124) (by norm_num)
    refine le_trans ?_ this
    norm_num [pow2_eq])
  refine ⟨r, hr, er.trans ?_⟩
  have : (1 + 1 / 2 ^ 22 : ℚ) ^ ds.length * ((1 + 41 / 2 ^ 24) ^ ds.length - 1) ≤ ds.length * (100 / 2 ^ 24) := by
    refine (mul_le_mul a1 b1 (by linarith) (by norm_num)).trans ?_
    linarith
  have c := Rat.cast_le (K := ℝ).mpr this
  push_cast at c ⊢
  exact c

theorem odd_squares {a b c d : ℤ} (h : (8 : ℤ) ∣ a ^ 2 + b ^ 2 + c ^ 2 + d ^ 2) : 2 ∣ a ∧ 2 ∣ b ∧ 2 ∣ c ∧ 2 ∣ d := by
  have sq : ∀ x : ℤ, (x % 2 = 0 ∧ (x ^ 2 % 8 = 0 ∨ x ^ 2 % 8 = 4)) ∨ (x % 2 = 1 ∧ x ^ 2 % 8 = 1) := by
    intro x
    have : x % 8 = 0 ∨ x % 8 = 1 ∨ x % 8 = 2 ∨ x % 8 = 3 ∨ x % 8 = 4 ∨ x % 8 = 5 ∨ x % 8 = 6 ∨ x % 8 = 7 := by omega
    have e : x ^ 2 % 8 = (x % 8) ^ 2 % 8 := by rw [pow_two, pow_two, Int.mul_emod]
    rcases this with h | h | h | h | h | h | h | h <;> rw [h] at e <;> norm_num at e <;> omega
  have := sq a
  have := sq b
  have := sq c
  have := sq d
  omega

theorem four_squares (k : ℕ) {a b c d : ℤ} (h : a ^ 2 + b ^ 2 + c ^ 2 + d ^ 2 = 4 ^ k) :
    ∀ x ∈ [a, b, c, d], (x : ℚ) / 2 ^ k ∈ ({0, 1, -1, 1 / 2, -1 / 2} : Set ℚ) := by
  induction k generalizing a b c d with
  | zero =>
    intro x hx
    have : x ^ 2 ≤ 1 := by
      simp only [List.mem_cons, List.not_mem_nil, or_false] at hx
      rcases hx with rfl | rfl | rfl | rfl <;> first | nlinarith [sq_nonneg x, sq_nonneg b, sq_nonneg c, sq_nonneg d] | nlinarith [sq_nonneg a, sq_nonneg x, sq_nonneg c, sq_nonneg d] | nlinarith [sq_nonneg a, sq_nonneg b, sq_nonneg x, sq_nonneg d] | nlinarith [sq_nonneg a, sq_nonneg b, sq_nonneg c, sq_nonneg x]
    have h1 : -1 ≤ x := by nlinarith
    have h2 : x ≤ 1 := by nlinarith
    interval_cases x <;> simp
  | succ k ih =>
    rcases k with _ | k
    · intro x hx
      norm_num at h
      have : x ^ 2 ≤ 4 := by
        simp only [List.mem_cons, List.not_mem_nil, or_false] at hx
        rcases hx with rfl | rfl | rfl | rfl <;> first | nlinarith [sq_nonneg x, sq_nonneg b, sq_nonneg c, sq_nonneg d] | nlinarith [sq_nonneg a, sq_nonneg x, sq_nonneg c, sq_nonneg d] | nlinarith [sq_nonneg a, sq_nonneg b, sq_nonneg x, sq_nonneg d] | nlinarith [sq_nonneg a, sq_nonneg b, sq_nonneg c, sq_nonneg x]
      have h1 : -2 ≤ x := by nlinarith
      have h2 : x ≤ 2 := by nlinarith
      interval_cases x <;> norm_num
    · obtain ⟨⟨a, rfl⟩, ⟨b, rfl⟩, ⟨c, rfl⟩, d, rfl⟩ := odd_squares (a := a) (b := b) (c := c) (d := d) (by
        rw [h]; exact ⟨2 * 4 ^ k, by ring⟩)
      have := ih (a := a) (b := b) (c := c) (d := d) (by rw [pow_succ 4] at h; linarith)
      intro x hx
      have e : ∀ y : ℤ, ((2 * y : ℤ) : ℚ) / 2 ^ (k + 1 + 1) = y / 2 ^ (k + 1) := fun y => by
        push_cast; rw [pow_succ _ (k + 1)]; field_simp
      simp only [List.mem_cons, List.not_mem_nil, or_false] at hx
      rcases hx with rfl | rfl | rfl | rfl <;> rw [e] <;> exact this _ (by simp)

theorem dyadic {q : ℚ} (h : Representable q) : ∃ m : ℤ, q = m / 2 ^ 149 := by
  obtain ⟨m, e, _, he, _, rfl⟩ := h
  refine ⟨m * 2 ^ (e + 149).toNat, ?_⟩
  rw [pow2_eq]
  push_cast
  rw [mul_div_assoc]
  congr 1
  rw [eq_div_iff (by positivity), ← zpow_natCast, ← zpow_natCast, ← zpow_add₀ (by norm_num)]
  congr 1
  omega

/-- C158, why lengths other than one have to be allowed: a quaternion of single precision numbers has length one exactly only if its components are 0, ±1/2 and ±1. -/
theorem C158_units (q : Q ℚ) (hx : Representable q.x) (hy : Representable q.y) (hz : Representable q.z) (hw : Representable q.w) (h : ‖real q‖ = 1) :
    ∀ c ∈ [q.x, q.y, q.z, q.w], c ∈ ({0, 1, -1, 1 / 2, -1 / 2} : Set ℚ) := by
  obtain ⟨x, ex⟩ := dyadic hx
  obtain ⟨y, ey⟩ := dyadic hy
  obtain ⟨z, ez⟩ := dyadic hz
  obtain ⟨w, ew⟩ := dyadic hw
  have e := normSq_real q
  rw [h] at e
  have e1 : (1 : ℚ) = q.w ^ 2 + q.x ^ 2 + q.y ^ 2 + q.z ^ 2 := by
    rw [one_mul] at e
    exact_mod_cast e
  rw [ex, ey, ez, ew] at e1
  have ht : (2 : ℚ) ^ 149 ≠ 0 := by positivity
  have e2 : ((x ^ 2 + y ^ 2 + z ^ 2 + w ^ 2 : ℤ) : ℚ) = ((4 ^ 149 : ℤ) : ℚ) := by
    rw [show ((4 ^ 149 : ℤ) : ℚ) = (2 ^ 149) ^ 2 by norm_num]
    push_cast
    generalize (2 : ℚ) ^ 149 = t at e1 ht ⊢
    field_simp at e1
    linarith
  have := four_squares 149 (Int.cast_injective e2)
  rw [ex, ey, ez, ew]
  simpa using this

/-- A quarter turn and a turn of length slightly above one. -/
example : ∃ r, turns (quat ⟨1 / 2, 1 / 2, 1 / 2, 1 / 2⟩) ([⟨0, 1, 0, 0⟩, ⟨0, 0, 0, 1 + 1 / 2 ^ 23⟩].map quat) = quat r ∧
    ‖real r - real ⟨1 / 2, 1 / 2, 1 / 2, 1 / 2⟩ * (([⟨0, 1, 0, 0⟩, ⟨0, 0, 0, 1 + 1 / 2 ^ 23⟩] : List (Q ℚ)).map real).prod‖ ≤ (2 : ℕ) * (100 / 2 ^ 24) := by
  have len : ∀ (q : Q ℚ) (L : ℚ), 0 ≤ L → q.w ^ 2 + q.x ^ 2 + q.y ^ 2 + q.z ^ 2 ≤ L * L → ‖real q‖ ≤ (L : ℝ) := by
    intro q L hL h
    refine abs_le_of_sq_le_sq' ?_ (by exact_mod_cast hL) |>.2
    rw [sq, sq, normSq_real]
    exact_mod_cast h
  refine C158_linear _ _ ?_ ?_ (by simp)
  · simpa using len ⟨1 / 2, 1 / 2, 1 / 2, 1 / 2⟩ 1 (by norm_num) (by norm_num)
  · intro d hd
    have := len d (1 + 1 / 2 ^ 22) (by norm_num) (by
      simp only [List.mem_cons, List.not_mem_nil, or_false] at hd
      rcases hd with rfl | rfl <;> norm_num)
    push_cast at this
    exact this

end Zpl.Drift
