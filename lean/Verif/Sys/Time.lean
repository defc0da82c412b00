import Mathlib.Data.BitVec
import Verif.Math.Double

/-!
# Clocks and sleeping (code/source/core/time.c:121-233, code/header/core/time.h:56-66)  -  C130

The Linux variant.  The clock of the system is the pair of seconds and nanoseconds that `clock_gettime` stores.

## Model -/

namespace Zpl.Time

open Zpl

/-- time.h:57 `ZPL__UNIX_TO_WIN32_EPOCH` -/
def epoch : BitVec 64 := 11644473600000#64

/-- time.h:60-62 `zpl_time_win32_to_unix` -/
def win32ToUnix (ms : BitVec 64) : BitVec 64 := ms - epoch

/-- time.h:64-66 `zpl_time_unix_to_win32` -/
def unixToWin32 (ms : BitVec 64) : BitVec 64 := ms + epoch

/-- The literals `1e-3`, `1e-6` and `1e6`. -/
def milli : F64 := F64.round (1 / 10 ^ 3)
def micro : F64 := F64.round (1 / 10 ^ 6)
def million : F64 := .fin (10 ^ 6)

/-- Conversion to a signed 64 bit integer: the fraction is dropped; undefined if the rest is no value of the type. -/
def toI64 : F64 → Except Fault Int
  | .fin q => if -(2 ^ 63) - 1 < q ∧ q < 2 ^ 63 then .ok (if 0 ≤ q then q.floor else -(-q).floor) else .error .ub
  | _ => .error .ub

/-- time.c:151-158 `zpl__unix_gettime` -/
def unixGettime (sec nsec : Int) : Except Fault (BitVec 64) :=
  if -(2 ^ 63) ≤ 1000 * sec ∧ 1000 * sec < 2 ^ 63 then F64.toU64 (F64.add (F64.ofInt (1000 * sec)) (F64.mul micro (F64.ofInt nsec))) else .error .arith

/-- time.c:161-188 `zpl_time_rel_ms` (180-186): the static variable `unix_timestart`, and what the clock says at the first call of `zpl__unix_gettime` (if it is made) and at the second. -/
def timeRelMs (start : BitVec 64) (first second : Int × Int) : Except Fault (BitVec 64 × BitVec 64) := do
  let start ← if start = 0 then unixGettime first.1 first.2 else .ok start
  let now ← unixGettime second.1 second.2
  .ok (now - start, start)

/-- time.c:190-204 `zpl_time_utc_ms` -/
def timeUtcMs (sec nsec : Int) : Except Fault (BitVec 64) :=
  F64.toU64 (F64.add (F64.add (F64.ofInt ((BitVec.ofInt 64 sec * 1000#64).toNat : Int)) (F64.mul (F64.ofInt nsec) micro)) (F64.ofInt (epoch.toNat : Int)))

/-- time.c:206-210 `zpl_sleep_ms`: the seconds and nanoseconds that `nanosleep` gets. -/
def sleepMs (ms : BitVec 32) : Except Fault (Int × Int) := do
  let sec ← toI64 (F64.mul (F64.ofInt (ms.toNat : Int)) milli)
  let nsec ← toI64 (F64.mul (F64.ofInt ((ms.umod 1000#32).toNat : Int)) million)
  .ok (sec, nsec)

/-- time.c:212-220 `zpl_time_tz_ms`.  `mktime` gives back the time that `localtime_r` took apart; `timezone` holds the seconds west of Greenwich, `isdst` tells of each time if summer
time is in force. -/
def timeTzMs (timezone : Int) (isdst : BitVec 64 → Bool) (sec nsec : Int) : Except Fault (BitVec 64) := do
  let utc ← timeUtcMs sec nsec
  let result := utc - epoch
  let ms := (result.umod 1000#64).setWidth 16
  let result ← F64.toU64 (F64.mul (F64.ofInt (result.toNat : Int)) milli)
  .ok ((result - BitVec.ofInt 64 timezone + BitVec.ofInt 64 (if isdst result then 3600 else 0)) * 1000#64 + ms.setWidth 64 + epoch)

/-- time.c:223-233 `zpl_time_rel`, `zpl_time_utc`, `zpl_time_tz`: milliseconds to seconds. -/
def seconds (ms : BitVec 64) : F64 := F64.mul (F64.ofInt (ms.toNat : Int)) milli

/-! ## Specification -/

/-- The years with a 29 February. -/
def LeapYear (y : Nat) : Bool := (y % 4 == 0 && y % 100 != 0) || y % 400 == 0

/-- The days from 1 January of the year `a` to 1 January `n` years later. -/
def daysFrom (a : Nat) : Nat → Nat
  | 0 => 0
  | n + 1 => daysFrom a n + if LeapYear (a + n) then 366 else 365

/-- What a clock can say: nanoseconds below a second, and a time before the year 2248. -/
def Reading (t : Int × Int) : Prop := 0 ≤ t.1 ∧ 1000 * t.1 < 2 ^ 43 - 1000 ∧ 0 ≤ t.2 ∧ t.2 < 10 ^ 9

/-- The time in milliseconds, with its fraction. -/
def exact (t : Int × Int) : ℚ := 1000 * t.1 + t.2 / 10 ^ 6

/-! ## Lemmas -/

theorem milli_eq : milli = .fin (1152921504606847 / 2 ^ 60) := by decide +kernel

theorem micro_eq : micro = .fin (4722366482869645 / 2 ^ 72) := by decide +kernel

/-- A product with `1e-6` that is exactly whole is computed so. -/
theorem micro_whole : ∀ k : Fin 1000, F64.rounded ((k.val : ℚ) * 10 ^ 6 * (4722366482869645 / 2 ^ 72)) = k.val := by decide +kernel

theorem toU64_ok {q : ℚ} (h0 : 0 ≤ q) (h1 : q < 2 ^ 60) : ∃ r : BitVec 64, F64.toU64 (.fin q) = .ok r ∧ (r.toNat : ℤ) = ⌊q⌋ := by
  refine ⟨BitVec.ofNat 64 q.floor.toNat, ?_, ?_⟩
  · rw [F64.toU64, if_pos]
    refine ⟨by linarith, ?_⟩
    refine h1.trans ?_
    norm_num [F64.pow2_eq]
  · have hf : 0 ≤ ⌊q⌋ := Int.floor_nonneg.2 h0
    have hl : ⌊q⌋ < 2 ^ 60 := by
      rw [Int.floor_lt]
      exact_mod_cast h1
    change (((BitVec.ofNat 64 ⌊q⌋.toNat).toNat : ℕ) : ℤ) = _
    rw [BitVec.toNat_ofNat, Nat.mod_eq_of_lt (by omega)]
    omega

theorem round_small {q : ℚ} (h0 : 0 ≤ q) (h : q ≤ 2 ^ 60) : F64.round q = .fin (F64.rounded q) := by
  apply F64.round_fin
  rw [abs_of_nonneg h0]
  refine h.trans (le_trans ?_ (F64.pow2_le (show (60 : ℤ) ≤ 100 by norm_num)))
  norm_num [F64.pow2_eq]

theorem rounded_up {q B : ℚ} (h0 : 0 ≤ q) (h : q ≤ B) (hB : 1 ≤ B) : F64.rounded q ≤ q + B / 2 ^ 53 := by
  have := F64.rounded_error (q := q) (B := B) (by rwa [abs_of_nonneg h0]) (by
    refine le_trans (F64.pow2_le (show (-1022 : ℤ) ≤ 0 by norm_num)) ?_
    norm_num [F64.pow2_eq]
    exact hB)
  have h2 := (abs_le.1 this).2
  rw [show F64.pow2 (-53) = 1 / 2 ^ 53 by norm_num [F64.pow2_eq]] at h2
  linarith

/-- The milliseconds below a second as they are computed. -/
def part (n : Int) : ℚ := F64.rounded (n * (4722366482869645 / 2 ^ 72))

theorem part_bounds {n : Int} (h0 : 0 ≤ n) (h1 : n < 10 ^ 9) : ((n / 10 ^ 6 : Int) : ℚ) ≤ part n ∧ part n ≤ n / 10 ^ 6 + 1 / 2 ^ 43 ∧ part n ≤ 1000 := by
  have hn0 : (0 : ℚ) ≤ n := by exact_mod_cast h0
  have hn1 : (n : ℚ) < 10 ^ 9 := by exact_mod_cast h1
  have hc : (n : ℚ) * (4722366482869645 / 2 ^ 72) ≤ n / 10 ^ 6 := by
    rw [div_eq_mul_one_div (n : ℚ)]
    refine mul_le_mul_of_nonneg_left ?_ hn0
    norm_num
  refine ⟨?_, ?_, ?_⟩
  · obtain ⟨k, hk⟩ := Int.eq_ofNat_of_zero_le (show 0 ≤ n / 10 ^ 6 by omega)
    have hk1 : k < 1000 := by omega
    have h := micro_whole ⟨k, hk1⟩
    dsimp only at h
    rw [hk]
    have hle : (k : ℚ) * 10 ^ 6 ≤ n := by
      have : (k : ℤ) * 10 ^ 6 ≤ n := by omega
      exact_mod_cast this
    calc (((k : ℕ) : ℤ) : ℚ) = k := by norm_num
      _ = _ := h.symm
      _ ≤ _ := by
        unfold part
        apply F64.rounded_mono
        gcongr
  · have := rounded_up (q := n * (4722366482869645 / 2 ^ 72)) (B := 1000) (by positivity) (by linarith [show (n : ℚ) / 10 ^ 6 ≤ 1000 by rw [div_le_iff₀ (by norm_num)]; linarith]) (by norm_num)
    unfold part
    have h3 : (1000 : ℚ) / 2 ^ 53 ≤ 1 / 2 ^ 43 := by norm_num
    linarith
  · have h3 : (n : ℚ) / 10 ^ 6 ≤ 1000 := by rw [div_le_iff₀ (by norm_num)]; linarith
    have := F64.rounded_le (q := n * (4722366482869645 / 2 ^ 72)) (F64.int_grid (n := 1000) (by norm_num)) (by push_cast; linarith)
    unfold part
    exact_mod_cast this

theorem part_mono {a b : Int} (h : a ≤ b) : part a ≤ part b := by
  unfold part
  apply F64.rounded_mono
  have : (a : ℚ) ≤ b := by exact_mod_cast h
  gcongr

theorem part_nonneg {n : Int} (h0 : 0 ≤ n) : 0 ≤ part n := by
  have h : part 0 ≤ part n := part_mono h0
  have e : part 0 = 0 := by unfold part; simp [F64.rounded_zero]
  rwa [e] at h

/-- The milliseconds as they are computed. -/
def sum (t : Int × Int) : ℚ := F64.rounded (1000 * t.1 + part t.2)

theorem sum_bounds {t : Int × Int} (h : Reading t) : ((⌊exact t⌋ : ℤ) : ℚ) ≤ sum t ∧ sum t ≤ exact t + 1 / 2 ^ 10 + 1 / 2 ^ 43 ∧ sum t ≤ 1000 * t.1 + 1000 ∧ 0 ≤ sum t := by
  obtain ⟨s, n⟩ := t
  obtain ⟨h1, h2, h3, h4⟩ := h
  dsimp only at *
  obtain ⟨p1, p2, p3⟩ := part_bounds h3 h4
  have p0 := part_nonneg h3
  have hs0 : (0 : ℚ) ≤ s := by exact_mod_cast h1
  have hs1 : (1000 : ℚ) * s < 2 ^ 43 - 1000 := by exact_mod_cast h2
  have hfl : ⌊exact (s, n)⌋ = 1000 * s + n / 10 ^ 6 := by
    rw [Int.floor_eq_iff]
    unfold exact
    dsimp only
    have e1 : (n / 10 ^ 6) * 10 ^ 6 ≤ n := by omega
    have e2 : n < (n / 10 ^ 6) * 10 ^ 6 + 10 ^ 6 := by omega
    have e1' : ((n / 10 ^ 6 : ℤ) : ℚ) * 10 ^ 6 ≤ n := by exact_mod_cast e1
    have e2' : (n : ℚ) < ((n / 10 ^ 6 : ℤ) : ℚ) * 10 ^ 6 + 10 ^ 6 := by exact_mod_cast e2
    have e3 : ((n / 10 ^ 6 : ℤ) : ℚ) ≤ n / 10 ^ 6 := by rw [le_div_iff₀ (by norm_num)]; exact e1'
    have e4 : (n : ℚ) / 10 ^ 6 < ((n / 10 ^ 6 : ℤ) : ℚ) + 1 := by rw [div_lt_iff₀ (by norm_num)]; linarith
    push_cast at e3 e4 ⊢
    constructor <;> linarith
  refine ⟨?_, ?_, ?_, ?_⟩
  · rw [hfl]
    refine F64.le_rounded (F64.int_grid ?_) ?_
    · rw [abs_lt]; constructor <;> omega
    · push_cast at p1 ⊢
      linarith
  · have := rounded_up (q := 1000 * s + part n) (B := 2 ^ 43) (by linarith) (by linarith) (by norm_num)
    unfold sum exact
    dsimp only
    have h3 : (2 : ℚ) ^ 43 / 2 ^ 53 = 1 / 2 ^ 10 := by norm_num
    linarith
  · have := F64.rounded_le (q := 1000 * s + part n) (F64.int_grid (n := 1000 * s + 1000) (by rw [abs_lt]; constructor <;> omega)) (by push_cast; linarith)
    unfold sum
    dsimp only
    exact_mod_cast this
  · have := F64.le_rounded (q := 1000 * s + part n) (F64.int_grid (n := 0) (by norm_num)) (by push_cast; linarith)
    unfold sum
    dsimp only
    exact_mod_cast this

theorem exact_order {a b : Int × Int} (ha : Reading a) (hb : Reading b) (h : exact a ≤ exact b) : a.1 < b.1 ∨ a.1 = b.1 ∧ a.2 ≤ b.2 := by
  have h1 : 1000 * 10 ^ 6 * a.1 + a.2 ≤ 1000 * 10 ^ 6 * b.1 + b.2 := by
    unfold exact at h
    have : (1000 : ℚ) * 10 ^ 6 * a.1 + a.2 ≤ 1000 * 10 ^ 6 * b.1 + b.2 := by linarith
    exact_mod_cast this
  have := ha.2.2
  have := hb.2.2
  omega

theorem sum_mono {a b : Int × Int} (ha : Reading a) (hb : Reading b) (h : exact a ≤ exact b) : sum a ≤ sum b := by
  unfold sum
  apply F64.rounded_mono
  rcases exact_order ha hb h with h1 | ⟨h1, h2⟩
  · have h3 := (part_bounds ha.2.2.1 ha.2.2.2).2.2
    have h4 := part_nonneg hb.2.2.1
    have : ((a.1 + 1 : ℤ) : ℚ) ≤ b.1 := by exact_mod_cast h1
    push_cast at this
    linarith
  · rw [h1]
    have := part_mono h2
    linarith

theorem mul_micro {n : Int} (h0 : 0 ≤ n) (h1 : n < 10 ^ 9) : F64.mul micro (F64.ofInt n) = .fin (part n) ∧ F64.mul (F64.ofInt n) micro = .fin (part n) := by
  have hn0 : (0 : ℚ) ≤ n := by exact_mod_cast h0
  have hn1 : (n : ℚ) < 10 ^ 9 := by exact_mod_cast h1
  have e : F64.ofInt n = .fin n := F64.ofInt_eq (by rw [abs_of_nonneg h0]; omega)
  have hc : (n : ℚ) * (4722366482869645 / 2 ^ 72) ≤ 2 ^ 60 := by
    have : (n : ℚ) * (4722366482869645 / 2 ^ 72) ≤ n * 1 := by
      refine mul_le_mul_of_nonneg_left ?_ hn0
      norm_num
    linarith
  rw [e, micro_eq]
  unfold F64.mul part
  dsimp only
  rw [mul_comm, round_small (by positivity) hc]
  exact ⟨rfl, rfl⟩

theorem gettime_value {t : Int × Int} (h : Reading t) : ∃ r : BitVec 64, unixGettime t.1 t.2 = .ok r ∧ (r.toNat : ℤ) = ⌊sum t⌋ := by
  obtain ⟨b1, b2, b3, b4⟩ := sum_bounds h
  obtain ⟨h1, h2, h3, h4⟩ := h
  have p0 := part_nonneg h3
  have p3 := (part_bounds h3 h4).2.2
  have hs0 : (0 : ℚ) ≤ t.1 := by exact_mod_cast h1
  have hs1 : (1000 : ℚ) * t.1 < 2 ^ 43 - 1000 := by exact_mod_cast h2
  obtain ⟨r, e1, e2⟩ := toU64_ok b4 (by linarith)
  refine ⟨r, ?_, e2⟩
  rw [unixGettime, if_pos (by omega), (mul_micro h3 h4).1, F64.ofInt_eq (by rw [abs_of_nonneg (by omega)]; omega), ← e1]
  unfold F64.add sum
  dsimp only
  rw [← round_small (by linarith) (by linarith)]
  push_cast
  rfl

/-! ## C130 -/

/-- The two ways to count from 1601 and from 1970 differ by the days between, and the conversions undo each other. -/
theorem C130_epoch : epoch.toNat = daysFrom 1601 (1970 - 1601) * (24 * 60 * 60 * 1000) ∧
    ∀ ms : BitVec 64, win32ToUnix (unixToWin32 ms) = ms ∧ unixToWin32 (win32ToUnix ms) = ms ∧ (epoch.toNat ≤ ms.toNat → (win32ToUnix ms).toNat = ms.toNat - epoch.toNat) := by
  refine ⟨by decide +kernel, fun ms => ⟨?_, ?_, fun h => ?_⟩⟩
  · exact BitVec.add_sub_cancel ms epoch
  · exact BitVec.sub_add_cancel ms epoch
  · unfold win32ToUnix
    exact BitVec.toNat_sub_of_le (BitVec.le_def.2 h)

/-- The clock in milliseconds: never behind the last whole millisecond, and at most 1/256 ms early. -/
theorem C130_clock {t : Int × Int} (h : Reading t) : ∃ r : BitVec 64, unixGettime t.1 t.2 = .ok r ∧ ⌊exact t⌋ ≤ (r.toNat : ℤ) ∧ (r.toNat : ℚ) ≤ exact t + 1 / 256 := by
  obtain ⟨r, e1, e2⟩ := gettime_value h
  obtain ⟨b1, b2, -, -⟩ := sum_bounds h
  refine ⟨r, e1, ?_, ?_⟩
  · rw [e2]; exact Int.le_floor.2 b1
  · have : ((r.toNat : ℤ) : ℚ) ≤ sum t := by rw [e2]; exact Int.floor_le _
    have e : ((r.toNat : ℤ) : ℚ) = (r.toNat : ℚ) := by norm_num
    rw [e] at this
    norm_num at b2 ⊢
    linarith

/-- It never goes back when the clock of the system does not. -/
theorem C130_clock_order {a b : Int × Int} (ha : Reading a) (hb : Reading b) (h : exact a ≤ exact b) {r s : BitVec 64} (hr : unixGettime a.1 a.2 = .ok r) (hs : unixGettime b.1 b.2 = .ok s) : r.toNat ≤ s.toNat := by
  obtain ⟨r', e1, e2⟩ := gettime_value ha
  obtain ⟨s', f1, f2⟩ := gettime_value hb
  rw [hr] at e1
  rw [hs] at f1
  injection e1 with e1
  injection f1 with f1
  subst e1 f1
  have := Int.floor_le_floor (sum_mono ha hb h)
  omega

/-- time.c:180-186: several calls of `zpl_time_rel_ms`, with what the clock says at the two places of each. -/
def relCalls : BitVec 64 → List ((Int × Int) × Int × Int) → Except Fault (List (BitVec 64))
  | _, [] => .ok []
  | start, c :: cs => do
    let (r, start) ← timeRelMs start c.1 c.2
    let rs ← relCalls start cs
    .ok (r :: rs)

theorem rel_started {t0 : Int × Int} (h0 : Reading t0) {s : BitVec 64} (hs : unixGettime t0.1 t0.2 = .ok s) (hne : s ≠ 0) : ∀ {cs : List ((Int × Int) × Int × Int)},
    (∀ c ∈ cs, Reading c.2 ∧ exact t0 ≤ exact c.2) → ∃ rs, relCalls s cs = .ok rs ∧
      List.Forall₂ (fun (c : (Int × Int) × Int × Int) (r : BitVec 64) => ∃ x : BitVec 64, unixGettime c.2.1 c.2.2 = .ok x ∧ r.toNat = x.toNat - s.toNat) cs rs
  | [], _ => ⟨[], rfl, .nil⟩
  | c :: cs, h => by
    obtain ⟨hc, hle⟩ := h c (by simp)
    obtain ⟨x, e1, -⟩ := gettime_value hc
    obtain ⟨rs, e3, e4⟩ := rel_started h0 hs hne (cs := cs) (fun d hd => h d (by simp [hd]))
    have hsx := C130_clock_order h0 hc hle hs e1
    refine ⟨(x - s) :: rs, ?_, .cons ⟨x, e1, BitVec.toNat_sub_of_le (BitVec.le_def.2 hsx)⟩ e4⟩
    rw [relCalls, timeRelMs, if_neg hne]
    change (do let now ← unixGettime c.2.1 c.2.2; _) >>= _ = _
    rw [e1]
    change (do let rs ← relCalls s cs; _) = _
    rw [e3]
    rfl

/-- The time since the first call: every call tells the time that has passed, up to a millisecond and 1/256, and never less than a call before, if the clock stood at one millisecond or
more at the first. -/
theorem C130_relative_partial {c : (Int × Int) × Int × Int} {cs : List ((Int × Int) × Int × Int)} (h0 : Reading c.1) (h1 : 1 ≤ exact c.1)
    (h : ∀ d ∈ c :: cs, Reading d.2 ∧ exact c.1 ≤ exact d.2) :
    ∃ rs, relCalls 0 (c :: cs) = .ok rs ∧ List.Forall₂ (fun (d : (Int × Int) × Int × Int) (r : BitVec 64) => |(r.toNat : ℚ) - (exact d.2 - exact c.1)| < 1 + 1 / 256) (c :: cs) rs ∧
      ((c :: cs).Pairwise (fun a b => exact a.2 ≤ exact b.2) → rs.Pairwise (fun a b => a.toNat ≤ b.toNat)) := by
  obtain ⟨s, e1, e2, e3⟩ := C130_clock h0
  have hs1 : 1 ≤ s.toNat := by
    have : (1 : ℤ) ≤ ⌊exact c.1⌋ := Int.le_floor.2 (by exact_mod_cast h1)
    omega
  have hne : s ≠ 0 := by rintro rfl; simp at hs1
  obtain ⟨rs, f1, f2⟩ := rel_started h0 e1 hne h
  refine ⟨rs, ?_, ?_, ?_⟩
  · rw [← f1, relCalls, relCalls, timeRelMs, timeRelMs, if_pos rfl, if_neg hne]
    rw [e1]
  · have key : ∀ {ds : List ((Int × Int) × Int × Int)} {rs : List (BitVec 64)}, (∀ d ∈ ds, Reading d.2 ∧ exact c.1 ≤ exact d.2) →
        List.Forall₂ (fun (c : (Int × Int) × Int × Int) (r : BitVec 64) => ∃ x : BitVec 64, unixGettime c.2.1 c.2.2 = .ok x ∧ r.toNat = x.toNat - s.toNat) ds rs →
        List.Forall₂ (fun (d : (Int × Int) × Int × Int) (r : BitVec 64) => |(r.toNat : ℚ) - (exact d.2 - exact c.1)| < 1 + 1 / 256) ds rs := by
      intro ds rs hd hf
      induction hf with
      | nil => exact .nil
      | @cons d r ds rs hh _ ih =>
        obtain ⟨x, x1, x2⟩ := hh
        obtain ⟨hd1, hd2⟩ := hd d (by simp)
        refine .cons ?_ (ih fun e he => hd e (by simp [he]))
        obtain ⟨x', g1, g2, g3⟩ := C130_clock hd1
        rw [x1] at g1
        injection g1 with g1
        subst g1
        have hle := C130_clock_order h0 hd1 hd2 e1 x1
        rw [x2, Nat.cast_sub hle]
        have a1 : exact d.2 - 1 < (x.toNat : ℚ) := by
          have := Int.lt_floor_add_one (exact d.2)
          have g2' : ((⌊exact d.2⌋ : ℤ) : ℚ) ≤ x.toNat := by exact_mod_cast g2
          linarith
        have a2 : exact c.1 - 1 < (s.toNat : ℚ) := by
          have := Int.lt_floor_add_one (exact c.1)
          have g2' : ((⌊exact c.1⌋ : ℤ) : ℚ) ≤ s.toNat := by exact_mod_cast e2
          linarith
        rw [abs_lt]
        constructor <;> linarith
    exact key h f2
  · have key : ∀ {ds : List ((Int × Int) × Int × Int)} {rs : List (BitVec 64)}, (∀ d ∈ ds, Reading d.2 ∧ exact c.1 ≤ exact d.2) →
        List.Forall₂ (fun (c : (Int × Int) × Int × Int) (r : BitVec 64) => ∃ x : BitVec 64, unixGettime c.2.1 c.2.2 = .ok x ∧ r.toNat = x.toNat - s.toNat) ds rs →
        ds.Pairwise (fun a b => exact a.2 ≤ exact b.2) → rs.Pairwise (fun a b => a.toNat ≤ b.toNat) := by
      intro ds rs hd hf
      induction hf with
      | nil => intro _; exact .nil
      | @cons d r ds rs hh hf ih =>
        intro hp
        rw [List.pairwise_cons] at hp ⊢
        refine ⟨?_, ih (fun e he => hd e (by simp [he])) hp.2⟩
        intro r' hr'
        obtain ⟨x, x1, x2⟩ := hh
        obtain ⟨i, hi, rfl⟩ := List.getElem_of_mem hr'
        have hlen := hf.length_eq
        obtain ⟨y, y1, y2⟩ := (List.forall₂_iff_get.1 hf).2 i (by omega) hi
        simp only [List.get_eq_getElem] at y1 y2
        have hm : ds[i]'(by omega) ∈ ds := List.getElem_mem _
        have := C130_clock_order (hd d (by simp)).1 (hd _ (List.mem_cons_of_mem _ hm)).1 (hp.1 _ hm) x1 y1
        omega
    exact key h f2

/-- A first call in the first millisecond of the clock does not count: the time starts again, and goes back. -/
theorem C130_restarts : relCalls 0 [((0, 0), (0, 3000000)), ((0, 5000000), (0, 5000000)), ((0, 6000000), (0, 7000000))] = .ok [3#64, 0#64, 2#64] := by decide +kernel

/-! ### The time of day -/

theorem epoch_nat : epoch.toNat = 11644473600000 := rfl

/-- The time of day as it is computed. -/
def daySum (t : Int × Int) : ℚ := F64.rounded (sum t + 11644473600000)

theorem utc_value {t : Int × Int} (h : Reading t) : ∃ r : BitVec 64, timeUtcMs t.1 t.2 = .ok r ∧ (r.toNat : ℤ) = ⌊daySum t⌋ ∧ 0 ≤ daySum t := by
  obtain ⟨b1, b2, b3, b4⟩ := sum_bounds h
  obtain ⟨h1, h2, h3, h4⟩ := h
  have p0 := part_nonneg h3
  have p3 := (part_bounds h3 h4).2.2
  have hs0 : (0 : ℚ) ≤ t.1 := by exact_mod_cast h1
  have hs1 : (1000 : ℚ) * t.1 < 2 ^ 43 - 1000 := by exact_mod_cast h2
  have hd0 : 0 ≤ daySum t := by
    have := F64.le_rounded (q := sum t + 11644473600000) (F64.int_grid (n := 0) (by norm_num)) (by push_cast; linarith)
    unfold daySum
    exact_mod_cast this
  have hd1 : daySum t < 2 ^ 60 := by
    have := rounded_up (q := sum t + 11644473600000) (B := 2 ^ 45) (by linarith) (by norm_num at *; linarith) (by norm_num)
    unfold daySum
    norm_num at *
    linarith
  obtain ⟨r, e1, e2⟩ := toU64_ok hd0 hd1
  refine ⟨r, ?_, e2, hd0⟩
  have hb : ((BitVec.ofInt 64 t.1 * 1000#64).toNat : Int) = 1000 * t.1 := by
    obtain ⟨k, hk⟩ := Int.eq_ofNat_of_zero_le h1
    rw [hk] at h2 ⊢
    rw [BitVec.toNat_mul, BitVec.toNat_ofInt]
    simp only [BitVec.toNat_ofNat]
    omega
  rw [timeUtcMs, (mul_micro h3 h4).2, hb, F64.ofInt_eq (by rw [abs_of_nonneg (by omega)]; omega), epoch_nat, F64.ofInt_eq (by norm_num), ← e1]
  have ha : F64.add (.fin ((1000 * t.1 : ℤ) : ℚ)) (.fin (part t.2)) = .fin (sum t) := by
    unfold F64.add sum
    dsimp only
    rw [← round_small (by linarith) (by linarith)]
    push_cast
    rfl
  rw [ha]
  unfold F64.add daySum
  dsimp only
  rw [← round_small (by linarith) (by norm_num at *; linarith)]
  push_cast
  rfl

/-- The milliseconds since 1601: never behind the last whole millisecond, and at most 1/128 ms early. -/
theorem C130_utc {t : Int × Int} (h : Reading t) : ∃ r : BitVec 64, timeUtcMs t.1 t.2 = .ok r ∧ ⌊exact t⌋ + 11644473600000 ≤ (r.toNat : ℤ) ∧ (r.toNat : ℚ) ≤ exact t + 11644473600000 + 1 / 128 := by
  obtain ⟨r, e1, e2, e3⟩ := utc_value h
  obtain ⟨b1, b2, b3, b4⟩ := sum_bounds h
  have h2 := h.2.1
  have hs1 : (1000 : ℚ) * t.1 < 2 ^ 43 - 1000 := by exact_mod_cast h2
  have hfl : ⌊exact t⌋ < 2 ^ 43 := by
    have : ((⌊exact t⌋ : ℤ) : ℚ) < 2 ^ 43 := by linarith
    exact_mod_cast this
  have hfl0 : 0 ≤ ⌊exact t⌋ := by
    apply Int.floor_nonneg.2
    have h1 : (0 : ℚ) ≤ t.1 := by exact_mod_cast h.1
    have h3 : (0 : ℚ) ≤ t.2 := by exact_mod_cast h.2.2.1
    unfold exact
    positivity
  refine ⟨r, e1, ?_, ?_⟩
  · rw [e2]
    apply Int.le_floor.2
    unfold daySum
    refine F64.le_rounded (F64.int_grid ?_) ?_
    · rw [abs_of_nonneg (by omega)]; omega
    · push_cast; linarith
  · have hu := rounded_up (q := sum t + 11644473600000) (B := 2 ^ 45) (by linarith) (by norm_num at *; linarith) (by norm_num)
    have : ((r.toNat : ℤ) : ℚ) ≤ daySum t := by rw [e2]; exact Int.floor_le _
    have e : ((r.toNat : ℤ) : ℚ) = (r.toNat : ℚ) := by norm_num
    rw [e] at this
    unfold daySum at this
    norm_num at b2 hu ⊢
    linarith

theorem C130_utc_order {a b : Int × Int} (ha : Reading a) (hb : Reading b) (h : exact a ≤ exact b) {r s : BitVec 64} (hr : timeUtcMs a.1 a.2 = .ok r) (hs : timeUtcMs b.1 b.2 = .ok s) : r.toNat ≤ s.toNat := by
  obtain ⟨r', e1, e2, -⟩ := utc_value ha
  obtain ⟨s', f1, f2, -⟩ := utc_value hb
  rw [hr] at e1
  rw [hs] at f1
  injection e1 with e1
  injection f1 with f1
  subst e1 f1
  have hm : daySum a ≤ daySum b := by
    unfold daySum
    apply F64.rounded_mono
    linarith [sum_mono ha hb h]
  have := Int.floor_le_floor hm
  omega

/-- The time of day is not rounded down: in the last microsecond but one of every millisecond it is already the next one. -/
theorem C130_utc_early {s k : Int} (hs0 : 0 ≤ s) (hs1 : 1000 * s < 2 ^ 43 - 1000) (hk0 : 0 ≤ k) (hk1 : k < 1000) :
    ∃ r : BitVec 64, timeUtcMs s (k * 10 ^ 6 + 999999) = .ok r ∧ (r.toNat : ℤ) = 1000 * s + k + 1 + 11644473600000 := by
  have h : Reading (s, k * 10 ^ 6 + 999999) := ⟨hs0, hs1, by dsimp only; omega, by dsimp only; omega⟩
  obtain ⟨r, e1, e2, -⟩ := utc_value h
  refine ⟨r, e1, ?_⟩
  have hq0 : (0 : ℚ) ≤ s := by exact_mod_cast hs0
  have hq1 : (1000 : ℚ) * s < 2 ^ 43 - 1000 := by exact_mod_cast hs1
  have hk0' : (0 : ℚ) ≤ k := by exact_mod_cast hk0
  have hk1' : (k : ℚ) ≤ 999 := by exact_mod_cast (show k ≤ 999 by omega)
  obtain ⟨n, hn⟩ : ∃ n : ℤ, n = k * 10 ^ 6 + 999999 := ⟨_, rfl⟩
  rw [← hn] at e2
  have hnq : (n : ℚ) = k * 1000000 + 999999 := by rw [hn]; push_cast; norm_num
  obtain ⟨-, p2, -⟩ := part_bounds (n := n) (by omega) (by omega)
  have hp : (k : ℚ) + 999998 / 1000000 ≤ part n := by
    have := F64.rounded_error (q := (n : ℚ) * (4722366482869645 / 2 ^ 72)) (B := 1000) (by
      rw [abs_of_nonneg (by rw [hnq]; positivity), hnq]
      norm_num
      linarith) (by
      refine le_trans (F64.pow2_le (show (-1022 : ℤ) ≤ 0 by norm_num)) ?_
      norm_num [F64.pow2_eq])
    have h2 := (abs_le.1 this).1
    rw [show F64.pow2 (-53) = 1 / 2 ^ 53 by norm_num [F64.pow2_eq]] at h2
    unfold part
    rw [hnq] at h2 ⊢
    norm_num at h2 ⊢
    linarith
  have hp' : part n ≤ k + 1 := by
    rw [hnq] at p2
    norm_num at p2
    linarith
  -- the sum
  have hsum := F64.rounded_nearest (1000 * s + part n) (m := 1000 * s + k + 1) (e := 0) (by rw [abs_lt]; constructor <;> omega) (by norm_num)
  have hcast : ((1000 * s + k + 1 : ℤ) : ℚ) = 1000 * s + k + 1 := by push_cast; ring
  rw [show F64.pow2 0 = 1 by norm_num [F64.pow2_eq], mul_one, hcast, abs_of_nonneg (show (0 : ℚ) ≤ (1000 * s + k + 1) - (1000 * s + part n) by linarith), abs_le] at hsum
  have hsum1 : 1000 * (s : ℚ) + k + 1 - 1 / 10 ^ 5 ≤ sum (s, n) := by
    unfold sum
    dsimp only
    norm_num
    linarith [hsum.1]
  have hsum2 : sum (s, n) ≤ 1000 * (s : ℚ) + k + 1 + 1 / 10 ^ 5 := by
    unfold sum
    dsimp only
    norm_num
    linarith [hsum.2]
  -- the day
  have hu0 : (2 : ℚ) ^ 43 ≤ sum (s, n) + 11644473600000 := by norm_num at hsum1 ⊢; linarith
  have hu1 : 0 < sum (s, n) + 11644473600000 := lt_of_lt_of_le (by norm_num) hu0
  have hlog : 43 ≤ F64.logTwo (sum (s, n) + 11644473600000) := by
    have h2 := (F64.logTwo_spec hu1.ne').2
    rw [abs_of_pos hu1] at h2
    have h3 : F64.pow2 43 < F64.pow2 (F64.logTwo (sum (s, n) + 11644473600000) + 1) := by
      refine lt_of_le_of_lt ?_ h2
      rw [show F64.pow2 43 = 2 ^ 43 by norm_num [F64.pow2_eq]]
      exact hu0
    have := F64.pow2_lt_iff.1 h3
    omega
  have hpl : -9 ≤ F64.place (sum (s, n) + 11644473600000) := by unfold F64.place; omega
  have hday : daySum (s, n) = 1000 * s + k + 1 + 11644473600000 := by
    have hd := F64.rounded_nearest (sum (s, n) + 11644473600000) (m := 1000 * s + k + 1 + 11644473600000) (e := 0) (by rw [abs_lt]; constructor <;> omega) (by norm_num)
    have hcast2 : ((1000 * s + k + 1 + 11644473600000 : ℤ) : ℚ) = 1000 * s + k + 1 + 11644473600000 := by push_cast; ring
    rw [show F64.pow2 0 = 1 by norm_num [F64.pow2_eq], mul_one, hcast2] at hd
    have hb : |(1000 * (s : ℚ) + k + 1 + 11644473600000) - (sum (s, n) + 11644473600000)| ≤ 1 / 10 ^ 5 := by
      rw [abs_le]
      constructor <;> linarith
    have hd2 := abs_le.1 (hd.trans hb)
    have hb2 := abs_le.1 hb
    obtain ⟨j, hj⟩ := Int.eq_ofNat_of_zero_le (show 0 ≤ F64.place (sum (s, n) + 11644473600000) + 9 by omega)
    have hgrid : ∃ z : ℤ, daySum (s, n) = z / 512 := by
      refine ⟨F64.nearest ((sum (s, n) + 11644473600000) / F64.pow2 (F64.place (sum (s, n) + 11644473600000))) * 2 ^ j, ?_⟩
      unfold daySum F64.rounded
      conv => lhs; rw [show F64.place (sum (s, n) + 11644473600000) = (j : ℤ) + -9 by omega]
      rw [F64.pow2_add, show F64.pow2 (j : ℤ) = 2 ^ j by rw [F64.pow2_eq, zpow_natCast], show F64.pow2 (-9) = 1 / 512 by norm_num [F64.pow2_eq]]
      conv => rhs; rw [show F64.place (sum (s, n) + 11644473600000) = (j : ℤ) + -9 by omega]
      rw [F64.pow2_add, show F64.pow2 (j : ℤ) = 2 ^ j by rw [F64.pow2_eq, zpow_natCast], show F64.pow2 (-9) = 1 / 512 by norm_num [F64.pow2_eq]]
      push_cast
      ring
    obtain ⟨z, hz⟩ := hgrid
    have hrd : F64.rounded (sum (s, n) + 11644473600000) = z / 512 := hz
    rw [hrd] at hd2
    have hlt1 : (z : ℚ) < (512 * (1000 * s + k + 1 + 11644473600000) : ℤ) + 1 := by
      push_cast
      norm_num at hd2 hb2 ⊢
      linarith [hd2.2, hb2.1]
    have hlt2 : ((512 * (1000 * s + k + 1 + 11644473600000) : ℤ) : ℚ) - 1 < z := by
      push_cast
      norm_num at hd2 hb2 ⊢
      linarith [hd2.1, hb2.2]
    have hlt1' : z < 512 * (1000 * s + k + 1 + 11644473600000) + 1 := by exact_mod_cast hlt1
    have hlt2' : 512 * (1000 * s + k + 1 + 11644473600000) - 1 < z := by exact_mod_cast hlt2
    have hzz : z = 512 * (1000 * s + k + 1 + 11644473600000) := by omega
    rw [hz, hzz]
    push_cast
    ring
  rw [e2, hday]
  have : (1000 * (s : ℚ) + k + 1 + 11644473600000) = ((1000 * s + k + 1 + 11644473600000 : ℤ) : ℚ) := by push_cast; ring
  rw [this, Int.floor_intCast]

/-! ### Sleeping, local time, seconds -/

/-- Multiplying with `1e-3` and dropping the fraction is division by 1000. -/
theorem milli_div {x : Nat} (hx : x < 2 ^ 45) : ∃ q : ℚ, F64.mul (F64.ofInt (x : Int)) milli = .fin q ∧ 0 ≤ q ∧ q < 2 ^ 45 ∧ ⌊q⌋ = ((x / 1000 : Nat) : ℤ) := by
  have hxq : (x : ℚ) < 35184372088832 := by exact_mod_cast hx
  have hx0 : (0 : ℚ) ≤ x := by positivity
  have hq0 : (0 : ℚ) ≤ x * (1152921504606847 / 2 ^ 60) := by positivity
  have hk : (1000 * (x / 1000 : Nat) : ℚ) ≤ x := by exact_mod_cast (show 1000 * (x / 1000) ≤ x by omega)
  have hk2 : (x : ℚ) ≤ 1000 * (x / 1000 : Nat) + 999 := by exact_mod_cast (show x ≤ 1000 * (x / 1000) + 999 by omega)
  have hlow : ((x / 1000 : Nat) : ℚ) ≤ x * (1152921504606847 / 2 ^ 60) := by
    have : (x : ℚ) * (1 / 1000) ≤ x * (1152921504606847 / 2 ^ 60) := by
      refine mul_le_mul_of_nonneg_left ?_ hx0
      norm_num
    linarith
  have hup : (x : ℚ) * (1152921504606847 / 2 ^ 60) ≤ x / 1000 + 1 / 10 ^ 4 := by
    norm_num
    linarith
  refine ⟨F64.rounded (x * (1152921504606847 / 2 ^ 60)), ?_, ?_, ?_, ?_⟩
  · rw [F64.ofInt_eq (by rw [abs_of_nonneg (by omega)]; omega), milli_eq]
    unfold F64.mul
    dsimp only
    rw [← round_small hq0 (by norm_num at hup ⊢; linarith)]
    norm_num
  · have := F64.le_rounded (q := x * (1152921504606847 / 2 ^ 60)) (F64.int_grid (n := 0) (by norm_num)) (by push_cast; linarith)
    exact_mod_cast this
  · have := rounded_up hq0 (B := 2 ^ 44) (by norm_num at hup ⊢; linarith) (by norm_num)
    norm_num at this hup ⊢
    linarith
  · rw [Int.floor_eq_iff]
    constructor
    · have := F64.le_rounded (q := x * (1152921504606847 / 2 ^ 60)) (F64.int_grid (n := ((x / 1000 : Nat) : ℤ)) (by rw [abs_of_nonneg (by omega)]; omega)) (by rw [Int.cast_natCast]; exact hlow)
      exact this
    · have := rounded_up hq0 (B := 2 ^ 36) (by norm_num at hup ⊢; linarith) (by norm_num)
      rw [Int.cast_natCast]
      norm_num at this hup ⊢
      linarith

theorem toI64_ok {q : ℚ} (h0 : 0 ≤ q) (h1 : q < 2 ^ 60) : toI64 (.fin q) = .ok ⌊q⌋ := by
  rw [toI64, if_pos ⟨by linarith [show (0 : ℚ) < 2 ^ 63 by norm_num], by norm_num at h1 ⊢; linarith⟩, if_pos h0]
  rfl

/-- Sleeping asks for exactly the given time. -/
theorem C130_sleep (ms : BitVec 32) : ∃ sec nsec : Int, sleepMs ms = .ok (sec, nsec) ∧ sec * 10 ^ 9 + nsec = ms.toNat * 10 ^ 6 ∧ 0 ≤ nsec ∧ nsec < 10 ^ 9 := by
  have hms := ms.isLt
  obtain ⟨q, h1, h2, h3, h4⟩ := milli_div (x := ms.toNat) (by omega)
  have hm : (ms.umod 1000#32).toNat = ms.toNat % 1000 := by simp [BitVec.umod]
  have h5 : F64.mul (F64.ofInt ((ms.umod 1000#32).toNat : Int)) million = .fin ((ms.toNat % 1000 * 10 ^ 6 : Nat) : ℤ) := by
    rw [hm, F64.ofInt_eq (by rw [abs_of_nonneg (by omega)]; omega), ← F64.ofInt_eq (n := ((ms.toNat % 1000 * 10 ^ 6 : Nat) : ℤ)) (by rw [abs_of_nonneg (by omega)]; omega), million]
    unfold F64.mul F64.ofInt
    dsimp only
    congr 1
    push_cast
    rfl
  have h6 : toI64 (.fin ((ms.toNat % 1000 * 10 ^ 6 : Nat) : ℤ)) = .ok ((ms.toNat % 1000 * 10 ^ 6 : Nat) : ℤ) := by
    rw [toI64_ok, Int.floor_intCast]
    · rw [Int.cast_natCast]; positivity
    · have : (ms.toNat % 1000 * 10 ^ 6 : Nat) < 2 ^ 60 := by omega
      exact_mod_cast this
  refine ⟨((ms.toNat / 1000 : Nat) : ℤ), ((ms.toNat % 1000 * 10 ^ 6 : Nat) : ℤ), ?_, ?_, ?_, ?_⟩
  · rw [sleepMs, h1, h5, toI64_ok h2 (h3.trans (by norm_num)), h4]
    change (do let nsec ← toI64 _; _) = _
    rw [h6]
    rfl
  all_goals (push_cast; omega)

/-- Local time differs from the time of day by the offset of the time zone and summer time, to the millisecond. -/
theorem C130_local {t : Int × Int} (h : Reading t) (timezone : Int) (isdst : BitVec 64 → Bool) :
    ∃ (u r now : BitVec 64), timeUtcMs t.1 t.2 = .ok u ∧ timeTzMs timezone isdst t.1 t.2 = .ok r ∧ now.toNat = (win32ToUnix u).toNat / 1000 ∧
      r = u + BitVec.ofInt 64 (1000 * ((if isdst now then 3600 else 0) - timezone)) := by
  obtain ⟨u, e1, e2, e3⟩ := C130_utc h
  have hfl0 : 0 ≤ ⌊exact t⌋ := by
    apply Int.floor_nonneg.2
    have h1 : (0 : ℚ) ≤ t.1 := by exact_mod_cast h.1
    have h3 : (0 : ℚ) ≤ t.2 := by exact_mod_cast h.2.2.1
    unfold exact
    positivity
  have hex : exact t < 2 ^ 43 := by
    have h1 : (1000 : ℚ) * t.1 < 2 ^ 43 - 1000 := by exact_mod_cast h.2.1
    have h2 : (t.2 : ℚ) < 10 ^ 9 := by exact_mod_cast h.2.2.2
    unfold exact
    norm_num at h1 h2 ⊢
    linarith
  have hu : u.toNat < 2 ^ 45 := by
    have : (u.toNat : ℚ) < 35184372088832 := by norm_num at hex; linarith
    exact_mod_cast this
  have hw := (C130_epoch.2 u).2.2 (by rw [epoch_nat]; omega)
  have hw' : (u - epoch).toNat = u.toNat - epoch.toNat := hw
  obtain ⟨q, h1, h2, h3, h4⟩ := milli_div (x := (u - epoch).toNat) (by omega)
  obtain ⟨r, f1, f2⟩ := toU64_ok h2 (h3.trans (by norm_num))
  have hr : r.toNat = (u - epoch).toNat / 1000 := by
    rw [h4] at f2
    exact_mod_cast f2
  refine ⟨u, _, r, e1, by rw [timeTzMs, e1]; change (do let result ← F64.toU64 _; _) = _; rw [h1, f1]; rfl, hr, ?_⟩
  have hx : r * 1000#64 + (((u - epoch).umod 1000#64).setWidth 16).setWidth 64 = u - epoch := by
    apply BitVec.eq_of_toNat_eq
    rw [BitVec.toNat_add, BitVec.toNat_mul, BitVec.toNat_setWidth, BitVec.toNat_setWidth, BitVec.umod_eq, BitVec.toNat_umod, hr, show (1000#64).toNat = 1000 from rfl]
    have := epoch_nat
    omega
  have hd : BitVec.ofInt 64 (1000 * ((if isdst r then 3600 else 0) - timezone)) = (BitVec.ofInt 64 (if isdst r then 3600 else 0) - BitVec.ofInt 64 timezone) * 1000#64 := by
    rw [show (1000#64 : BitVec 64) = BitVec.ofInt 64 1000 by decide, BitVec.sub_eq_add_neg, ← BitVec.ofInt_neg, ← BitVec.ofInt_add, ← BitVec.ofInt_mul, mul_comm, sub_eq_add_neg]
  have hu' : u = r * 1000#64 + (((u - epoch).umod 1000#64).setWidth 16).setWidth 64 + epoch := by rw [hx, BitVec.sub_add_cancel]
  generalize (((u - epoch).umod 1000#64).setWidth 16).setWidth 64 = m at *
  generalize BitVec.ofInt 64 (if isdst r then 3600 else 0) = d at *
  rw [hd]
  conv => rhs; rw [hu']
  rw [BitVec.sub_eq_add_neg, BitVec.sub_eq_add_neg]
  ring

/-- The functions that give seconds: within 2^-51 of a second for each second. -/
theorem C130_seconds {ms : BitVec 64} (h : ms.toNat < 2 ^ 53) : ∃ q : ℚ, seconds ms = .fin q ∧ |q - ms.toNat / 1000| ≤ ms.toNat / 1000 / 2 ^ 51 := by
  have hxq : (ms.toNat : ℚ) < 9007199254740992 := by exact_mod_cast h
  have hx0 : (0 : ℚ) ≤ ms.toNat := by positivity
  have hq0 : (0 : ℚ) ≤ ms.toNat * (1152921504606847 / 2 ^ 60) := by positivity
  refine ⟨F64.rounded (ms.toNat * (1152921504606847 / 2 ^ 60)), ?_, ?_⟩
  · rw [seconds, F64.ofInt_eq (by rw [abs_of_nonneg (by omega)]; omega), milli_eq]
    unfold F64.mul
    dsimp only
    rw [← round_small hq0 (by norm_num; linarith)]
    norm_num
  · rcases Nat.eq_zero_or_pos ms.toNat with h0 | h0
    · rw [h0]
      norm_num [F64.rounded_zero]
    · have h1 : (1 : ℚ) ≤ ms.toNat := by exact_mod_cast h0
      have := F64.rounded_error (q := ms.toNat * (1152921504606847 / 2 ^ 60)) (B := ms.toNat * (1152921504606847 / 2 ^ 60)) (by rw [abs_of_nonneg hq0]) (by
        refine le_trans (F64.pow2_le (show (-1022 : ℤ) ≤ -60 by norm_num)) ?_
        norm_num [F64.pow2_eq]
        linarith)
      rw [show F64.pow2 (-53) = 1 / 2 ^ 53 by norm_num [F64.pow2_eq]] at this
      have h2 := abs_le.1 this
      rw [abs_le]
      norm_num at h2 ⊢
      constructor <;> linarith [h2.1, h2.2]

/-- time.c:121-130, the Windows variant of `zpl_time_utc_ms`: `FILETIME` counts 100 nanoseconds. -/
def windowsUtcMs (filetime : BitVec 64) : BitVec 64 := filetime.udiv 1000#64

/-- There the result is ten times the milliseconds. -/
theorem C130_windows_tenfold {ms : Nat} (h : ms * 10000 < 2 ^ 64) : (windowsUtcMs (BitVec.ofNat 64 (ms * 10000))).toNat = 10 * ms := by
  unfold windowsUtcMs
  rw [BitVec.udiv_eq, BitVec.toNat_udiv, BitVec.toNat_ofNat, Nat.mod_eq_of_lt h, show (1000#64).toNat = 1000 from rfl]
  omega

/-! ### Examples -/

/-- A reading of November 2023, and a second one a little later: the hypotheses of the theorems on the clocks are met. -/
example : Reading (1700000000, 123456789) ∧ Reading (1700000001, 0) ∧ exact (1700000000, 123456789) ≤ exact (1700000001, 0) ∧ 1 ≤ exact (1700000000, 123456789) := by
  refine ⟨?_, ?_, ?_, ?_⟩
  · unfold Reading; decide
  · unfold Reading; decide
  · norm_num [exact]
  · norm_num [exact]

example : unixGettime 1700000000 123456789 = .ok 1700000000123#64 ∧ timeUtcMs 1700000000 123456789 = .ok 13344473600123#64 ∧
    timeTzMs (-3600) (fun _ => true) 1700000000 123456789 = .ok 13344480800123#64 ∧ sleepMs 1500#32 = .ok (1, 500000000) := by decide +kernel

end Zpl.Time
