import Verif.Sys.Time

/-!
# The time since the first question on Windows and macOS (code/source/core/time.c:99-117, 160-178)  -  C172

Both keep what they learnt at the first call in static variables.  The counter of the system is what `QueryPerformanceCounter` or `mach_absolute_time` says at each of the two places
where a call may ask it.

## Model -/

namespace Zpl.TimeOther

open Zpl Zpl.Time

/-- A value of a signed 64 bit type, or an overflow. -/
def signed (n : Int) : Except Fault Int := if -(2 ^ 63) ≤ n ∧ n < 2 ^ 63 then .ok n else .error .arith

/-- time.c:99-115 `zpl_time_rel_ms` on Windows: the static variables `win32_perf_count_freq` and `win32_perf_counter`, the ticks per second that the system tells, and its counter at the
first place (if it is asked there) and at the second. -/
def winRel (osFreq : Int) (st : Int × Int) (first second : Int) : Except Fault (BitVec 64 × Int × Int) := do
  let st ← if st.1 = 0 then (if osFreq ≠ 0 then .ok (osFreq, first) else .error .assertion) else .ok st
  let d ← signed (second - st.2)
  let p ← signed (d * 1000)
  .ok (BitVec.ofInt 64 (p.tdiv st.1), st)

/-- time.c:99-115: several calls. -/
def winCalls (osFreq : Int) : Int × Int → List (Int × Int) → Except Fault (List (BitVec 64))
  | _, [] => .ok []
  | st, c :: cs => do
    let (r, st) ← winRel osFreq st c.1 c.2
    let rs ← winCalls osFreq st cs
    .ok (r :: rs)

/-- time.c:160-178 `zpl_time_rel_ms` on macOS: the static variables `timebase` and `timestart`; `numer / denom` nanoseconds make one tick of the counter. -/
def macRel (numer denom : BitVec 32) (st : BitVec 64 × BitVec 64) (first second : BitVec 64) : Except Fault (BitVec 64 × BitVec 64 × BitVec 64) := do
  let st ← if st.2 = 0 then (if denom = 0 then .error .divZero else .ok ((numer.setWidth 64).udiv (denom.setWidth 64), first)) else .ok st
  let r ← F64.toU64 (F64.mul (F64.mul micro (F64.ofInt ((second - st.2).toNat : Int))) (F64.ofInt (st.1.toNat : Int)))
  .ok (r, st)

/-- time.c:160-178: several calls. -/
def macCalls (numer denom : BitVec 32) : BitVec 64 × BitVec 64 → List (BitVec 64 × BitVec 64) → Except Fault (List (BitVec 64))
  | _, [] => .ok []
  | st, c :: cs => do
    let (r, st) ← macRel numer denom st c.1 c.2
    let rs ← macCalls numer denom st cs
    .ok (r :: rs)

/-! ## Windows -/

theorem win_known {F : Int} (osFreq s first second : Int) (hF : 0 < F) :
    winRel osFreq (F, s) first second = (do let d ← signed (second - s); let p ← signed (d * 1000); .ok (BitVec.ofInt 64 (p.tdiv F), F, s)) := by
  rw [winRel, if_neg (by simpa using hF.ne')]
  rfl

theorem win_call {F s second : Int} (osFreq first : Int) (hF : 0 < F) (h : s ≤ second) (hb : (second - s) * 1000 < 2 ^ 63) :
    winRel osFreq (F, s) first second = .ok (BitVec.ofInt 64 ((second - s) * 1000 / F), F, s) := by
  have e1 : signed (second - s) = .ok (second - s) := by rw [signed, if_pos (by omega)]
  have e2 : signed ((second - s) * 1000) = .ok ((second - s) * 1000) := by rw [signed, if_pos (by omega)]
  rw [win_known _ _ _ _ hF, e1]
  change (do let p ← signed ((second - s) * 1000); _) = _
  rw [e2, ← Int.tdiv_eq_ediv_of_nonneg (by omega)]
  rfl

theorem win_toNat {F s second : Int} (hF : 0 < F) (h : s ≤ second) (hb : (second - s) * 1000 < 2 ^ 63) :
    ((BitVec.ofInt 64 ((second - s) * 1000 / F)).toNat : ℤ) = (second - s) * 1000 / F := by
  have h0 : 0 ≤ (second - s) * 1000 / F := Int.ediv_nonneg (by omega) hF.le
  have h1 : (second - s) * 1000 / F ≤ (second - s) * 1000 := Int.ediv_le_self _ (by omega)
  rw [BitVec.toNat_ofInt, Int.emod_eq_of_lt h0 (by push_cast; omega)]
  omega

theorem win_started {F s : Int} (osFreq : Int) (hF : 0 < F) : ∀ {cs : List (Int × Int)}, (∀ c ∈ cs, s ≤ c.2 ∧ (c.2 - s) * 1000 < 2 ^ 63) →
    winCalls osFreq (F, s) cs = .ok (cs.map fun c => BitVec.ofInt 64 ((c.2 - s) * 1000 / F))
  | [], _ => rfl
  | c :: cs, h => by
    rw [winCalls, win_call osFreq c.1 hF (h c (by simp)).1 (h c (by simp)).2]
    change (do let rs ← winCalls osFreq (F, s) cs; _) = _
    rw [win_started osFreq hF (fun d hd => h d (by simp [hd]))]
    rfl

/-- On Windows every call tells the whole milliseconds since the first, never more and never a millisecond less, and never less than a call before, as long as a thousand times the ticks
since the first call fit in 63 bits. -/
theorem C172_windows_partial {F : Int} (hF : 0 < F) {c : Int × Int} {cs : List (Int × Int)} (h : ∀ d ∈ c :: cs, c.1 ≤ d.2 ∧ (d.2 - c.1) * 1000 < 2 ^ 63) :
    ∃ rs, winCalls F (0, 0) (c :: cs) = .ok rs ∧
      List.Forall₂ (fun (d : Int × Int) (r : BitVec 64) => (r.toNat : ℚ) ≤ (d.2 - c.1) * 1000 / F ∧ ((d.2 - c.1) * 1000 / F : ℚ) < r.toNat + 1) (c :: cs) rs ∧
      ((c :: cs).Pairwise (fun a b => a.2 ≤ b.2) → rs.Pairwise (fun a b => a.toNat ≤ b.toNat)) := by
  have e : winCalls F (0, 0) (c :: cs) = winCalls F (F, c.1) (c :: cs) := by
    have : winRel F (0, 0) c.1 c.2 = winRel F (F, c.1) c.1 c.2 := by
      rw [winRel, winRel, if_pos rfl, if_pos hF.ne', if_neg (by simpa using hF.ne')]
    rw [winCalls, winCalls, this]
  rw [e, win_started F hF h]
  refine ⟨_, rfl, ?_, ?_⟩
  · rw [List.forall₂_map_right_iff, List.forall₂_same]
    intro d hd
    have hn := win_toNat hF (h d hd).1 (h d hd).2
    have hF' : (0 : ℚ) < F := by exact_mod_cast hF
    have hq : ((BitVec.ofInt 64 ((d.2 - c.1) * 1000 / F)).toNat : ℚ) = (((d.2 - c.1) * 1000 / F : ℤ) : ℚ) := by exact_mod_cast hn
    rw [hq, le_div_iff₀ hF', div_lt_iff₀ hF']
    have h1 : (d.2 - c.1) * 1000 / F * F ≤ (d.2 - c.1) * 1000 := Int.ediv_mul_le _ hF.ne'
    have h2 : (d.2 - c.1) * 1000 < ((d.2 - c.1) * 1000 / F + 1) * F := Int.lt_ediv_add_one_mul_self _ hF
    constructor
    · exact_mod_cast h1
    · exact_mod_cast h2
  · intro hp
    rw [List.pairwise_map]
    refine hp.imp_of_mem fun {a b} ha hb hab => ?_
    have h1 := win_toNat hF (h a ha).1 (h a ha).2
    have h2 := win_toNat hF (h b hb).1 (h b hb).2
    have : (a.2 - c.1) * 1000 / F ≤ (b.2 - c.1) * 1000 / F := Int.ediv_le_ediv hF (by omega)
    omega

/-- From then on the product overflows, which is undefined: with a counter at 3 GHz after 36 days. -/
theorem C172_windows_overflow {F s second : Int} (osFreq first : Int) (hF : 0 < F) (h : 2 ^ 63 ≤ (second - s) * 1000) : winRel osFreq (F, s) first second = .error .arith := by
  rw [win_known _ _ _ _ hF]
  by_cases hd : second - s < 2 ^ 63
  · rw [signed, if_pos (by omega)]
    change (do let p ← signed ((second - s) * 1000); _) = _
    rw [signed, if_neg (by omega)]
    rfl
  · rw [signed, if_neg (by omega)]
    rfl

/-! ## macOS -/

/-- The product as it is computed. -/
def ticks (e k : Nat) : ℚ := F64.rounded (F64.rounded (4722366482869645 / 2 ^ 72 * e) * k)

theorem ticks_mono {a b : Nat} (k : Nat) (h : a ≤ b) : ticks a k ≤ ticks b k := by
  have h' : (a : ℚ) ≤ b := by exact_mod_cast h
  unfold ticks
  apply F64.rounded_mono
  have : F64.rounded (4722366482869645 / 2 ^ 72 * a) ≤ F64.rounded (4722366482869645 / 2 ^ 72 * b) := by
    apply F64.rounded_mono
    gcongr
  have hk : (0 : ℚ) ≤ k := Nat.cast_nonneg k
  exact mul_le_mul_of_nonneg_right this hk

theorem rounded_pos {q : ℚ} (h : 0 ≤ q) : 0 ≤ F64.rounded q := by
  have := F64.rounded_mono h
  rwa [F64.rounded_zero] at this

theorem rounded_near_small {q B : ℚ} (h0 : 0 ≤ q) (h : q ≤ B) (hB : 1 / 2 ^ 60 ≤ B) : |F64.rounded q - q| ≤ B / 2 ^ 53 := by
  have := F64.rounded_error (q := q) (B := B) (by rwa [abs_of_nonneg h0]) (by
    refine le_trans (F64.pow2_le (show (-1022 : ℤ) ≤ -60 by norm_num)) ?_
    norm_num [F64.pow2_eq] at hB ⊢
    exact hB)
  rwa [show F64.pow2 (-53) = 1 / 2 ^ 53 by norm_num [F64.pow2_eq], mul_one_div] at this

theorem ticks_bounds {e k : Nat} (h : e * k < 2 ^ 53) : 0 ≤ ticks e k ∧ |ticks e k - e * k / 10 ^ 6| ≤ 1 / 2 ^ 16 ∧ ticks e k ≤ 2 ^ 34 := by
  have hE : (0 : ℚ) ≤ e := Nat.cast_nonneg e
  have hK : (0 : ℚ) ≤ k := Nat.cast_nonneg k
  rcases Nat.eq_zero_or_pos e with h0 | h0
  · subst h0
    have : ticks 0 k = 0 := by unfold ticks; simp [F64.rounded_zero]
    rw [this]
    norm_num
  · have he : (1 : ℚ) ≤ e := by exact_mod_cast h0
    have hek : (e : ℚ) * k < 2 ^ 53 := by exact_mod_cast h
    have hek0 : (0 : ℚ) ≤ (e : ℚ) * k := mul_nonneg hE hK
    have a1 := rounded_near_small (q := 4722366482869645 / 2 ^ 72 * e) (B := (e : ℚ) / 10 ^ 6) (by positivity) (by
      rw [div_eq_mul_one_div (e : ℚ), mul_comm (e : ℚ)]
      exact mul_le_mul_of_nonneg_right (by norm_num) hE) (by
      rw [le_div_iff₀ (by norm_num)]
      norm_num
      linarith)
    have p := rounded_pos (q := 4722366482869645 / 2 ^ 72 * e) (by positivity)
    unfold ticks
    generalize F64.rounded (4722366482869645 / 2 ^ 72 * e) = v at a1 p ⊢
    obtain ⟨a2, a3⟩ := abs_le.1 a1
    have l1 : v * k ≤ (4722366482869645 / 2 ^ 72 * e + (e : ℚ) / 10 ^ 6 / 2 ^ 53) * k := mul_le_mul_of_nonneg_right (by linarith) hK
    have l2 : (4722366482869645 / 2 ^ 72 * e - (e : ℚ) / 10 ^ 6 / 2 ^ 53) * k ≤ v * k := mul_le_mul_of_nonneg_right (by linarith) hK
    have r1 : (4722366482869645 / 2 ^ 72 * e + (e : ℚ) / 10 ^ 6 / 2 ^ 53) * k = (4722366482869645 / 2 ^ 72 + 1 / 10 ^ 6 / 2 ^ 53) * (e * k) := by ring
    have r2 : (4722366482869645 / 2 ^ 72 * e - (e : ℚ) / 10 ^ 6 / 2 ^ 53) * k = (4722366482869645 / 2 ^ 72 - 1 / 10 ^ 6 / 2 ^ 53) * (e * k) := by ring
    rw [r1] at l1
    rw [r2] at l2
    have p2 : 0 ≤ v * k := mul_nonneg p hK
    have hd : (e : ℚ) * k / 10 ^ 6 = 1 / 10 ^ 6 * (e * k) := by ring
    rw [hd]
    generalize (e : ℚ) * k = x at *
    have hu : v * k ≤ 2 ^ 34 := by
      norm_num at l1 hek ⊢
      linarith
    have b1 := rounded_near_small (q := v * k) (B := 2 ^ 34) p2 hu (by norm_num)
    obtain ⟨b2, b3⟩ := abs_le.1 b1
    refine ⟨rounded_pos p2, ?_, ?_⟩
    · rw [abs_le]
      norm_num at l1 l2 b2 b3 hek ⊢
      constructor <;> linarith
    · have := F64.rounded_le (q := v * k) (F64.int_grid (n := 2 ^ 34) (by norm_num)) (by push_cast; exact hu)
      push_cast at this
      exact this

theorem mac_call {k s second : BitVec 64} (numer denom : BitVec 32) (first : BitVec 64) (hs : s ≠ 0) (h : s.toNat ≤ second.toNat) (he : second.toNat - s.toNat < 2 ^ 53) (hk : k.toNat < 2 ^ 32)
    (hb : (second.toNat - s.toNat) * k.toNat < 2 ^ 53) : ∃ r : BitVec 64, macRel numer denom (k, s) first second = .ok (r, k, s) ∧ (r.toNat : ℤ) = ⌊ticks (second.toNat - s.toNat) k.toNat⌋ := by
  obtain ⟨t0, -, t2⟩ := ticks_bounds hb
  obtain ⟨r, e1, e2⟩ := toU64_ok t0 (lt_of_le_of_lt t2 (by norm_num))
  refine ⟨r, ?_, e2⟩
  rw [macRel, if_neg hs]
  have hd : (second - s).toNat = second.toNat - s.toNat := BitVec.toNat_sub_of_le (BitVec.le_def.2 h)
  have hm : F64.mul (F64.mul micro (F64.ofInt ((second - s).toNat : Int))) (F64.ofInt (k.toNat : Int)) = .fin (ticks (second.toNat - s.toNat) k.toNat) := by
    rw [hd, F64.ofInt_eq (by rw [abs_of_nonneg (by omega)]; exact_mod_cast he), F64.ofInt_eq (by rw [abs_of_nonneg (by omega)]; omega), micro_eq]
    generalize second.toNat - s.toNat = e at *
    generalize k.toNat = n at *
    have hE : (0 : ℚ) ≤ e := Nat.cast_nonneg e
    have hK : (0 : ℚ) ≤ n := Nat.cast_nonneg n
    have hE1 : (e : ℚ) < 2 ^ 53 := by exact_mod_cast he
    have hN1 : (n : ℚ) < 2 ^ 32 := by exact_mod_cast hk
    have q1 : (4722366482869645 / 2 ^ 72 * e : ℚ) ≤ 2 ^ 34 :=
      (mul_le_mul_of_nonneg_left hE1.le (by norm_num)).trans (by norm_num)
    have q2 : F64.rounded (4722366482869645 / 2 ^ 72 * e) ≤ 2 ^ 34 := by
      have := F64.rounded_le (q := 4722366482869645 / 2 ^ 72 * e) (F64.int_grid (n := 2 ^ 34) (by norm_num)) (by push_cast; exact q1)
      push_cast at this
      exact this
    have q0 := rounded_pos (q := 4722366482869645 / 2 ^ 72 * e) (by positivity)
    have q3 : F64.round (4722366482869645 / 2 ^ 72 * e) = .fin (F64.rounded (4722366482869645 / 2 ^ 72 * e)) := round_small (by positivity) (q1.trans (by norm_num))
    have q4 : F64.round (F64.rounded (4722366482869645 / 2 ^ 72 * e) * n) = .fin (ticks e n) := by
      apply F64.round_fin
      rw [abs_of_nonneg (mul_nonneg q0 hK)]
      calc F64.rounded (4722366482869645 / 2 ^ 72 * e) * n ≤ 2 ^ 34 * 2 ^ 32 := mul_le_mul q2 hN1.le hK (by norm_num)
        _ ≤ _ := by norm_num [F64.pow2_eq]
    unfold F64.mul
    dsimp only
    rw [show (((e : ℕ) : ℤ) : ℚ) = (e : ℚ) by norm_num, show (((n : ℕ) : ℤ) : ℚ) = (n : ℚ) by norm_num, q3]
    exact q4
  change (do let r ← F64.toU64 (F64.mul (F64.mul micro (F64.ofInt ((second - s).toNat : Int))) (F64.ofInt (k.toNat : Int))); _) = _
  rw [hm, e1]
  rfl

theorem mac_started {k s : BitVec 64} (numer denom : BitVec 32) (hs : s ≠ 0) (hk : k.toNat < 2 ^ 32) : ∀ {cs : List (BitVec 64 × BitVec 64)},
    (∀ c ∈ cs, s.toNat ≤ c.2.toNat ∧ c.2.toNat - s.toNat < 2 ^ 53 ∧ (c.2.toNat - s.toNat) * k.toNat < 2 ^ 53) →
    ∃ rs, macCalls numer denom (k, s) cs = .ok rs ∧ List.Forall₂ (fun (c : BitVec 64 × BitVec 64) (r : BitVec 64) => (r.toNat : ℤ) = ⌊ticks (c.2.toNat - s.toNat) k.toNat⌋) cs rs
  | [], _ => ⟨[], rfl, .nil⟩
  | c :: cs, h => by
    obtain ⟨h1, h2, h3⟩ := h c (by simp)
    obtain ⟨r, e1, e2⟩ := mac_call numer denom c.1 hs h1 h2 hk h3
    obtain ⟨rs, e3, e4⟩ := mac_started numer denom hs hk (cs := cs) (fun d hd => h d (by simp [hd]))
    refine ⟨r :: rs, ?_, .cons e2 e4⟩
    rw [macCalls, e1]
    change (do let rs ← macCalls numer denom (k, s) cs; _) = _
    rw [e3]
    rfl

theorem mac_first {numer denom : BitVec 32} (hd : denom ≠ 0) {c : BitVec 64 × BitVec 64} (cs : List (BitVec 64 × BitVec 64)) (h0 : c.1 ≠ 0) :
    macCalls numer denom (0, 0) (c :: cs) = macCalls numer denom (BitVec.ofNat 64 (numer.toNat / denom.toNat), c.1) (c :: cs) := by
  have hk : (numer.setWidth 64).udiv (denom.setWidth 64) = BitVec.ofNat 64 (numer.toNat / denom.toNat) := by
    apply BitVec.eq_of_toNat_eq
    rw [BitVec.udiv_eq, BitVec.toNat_udiv, BitVec.toNat_setWidth, BitVec.toNat_setWidth, BitVec.toNat_ofNat, Nat.mod_eq_of_lt (by omega), Nat.mod_eq_of_lt (by omega),
      Nat.mod_eq_of_lt (lt_of_le_of_lt (Nat.div_le_self _ _) (by omega))]
  have : macRel numer denom (0, 0) c.1 c.2 = macRel numer denom (BitVec.ofNat 64 (numer.toNat / denom.toNat), c.1) c.1 c.2 := by
    rw [macRel, macRel, if_pos rfl, if_neg hd, if_neg h0, hk]
  rw [macCalls, macCalls, this]

/-- What every call on macOS tells: the ticks since the first call, counted as a whole number of nanoseconds each. -/
theorem mac_value {numer denom : BitVec 32} (hd : denom ≠ 0) {c : BitVec 64 × BitVec 64} {cs : List (BitVec 64 × BitVec 64)} (h0 : c.1 ≠ 0)
    (h : ∀ d ∈ c :: cs, c.1.toNat ≤ d.2.toNat ∧ d.2.toNat - c.1.toNat < 2 ^ 53 ∧ (d.2.toNat - c.1.toNat) * (numer.toNat / denom.toNat) < 2 ^ 53) :
    ∃ rs, macCalls numer denom (0, 0) (c :: cs) = .ok rs ∧
      List.Forall₂ (fun (d : BitVec 64 × BitVec 64) (r : BitVec 64) => (r.toNat : ℤ) = ⌊ticks (d.2.toNat - c.1.toNat) (numer.toNat / denom.toNat)⌋) (c :: cs) rs := by
  have hk : (BitVec.ofNat 64 (numer.toNat / denom.toNat)).toNat = numer.toNat / denom.toNat := by
    rw [BitVec.toNat_ofNat, Nat.mod_eq_of_lt (lt_of_le_of_lt (Nat.div_le_self _ _) (by omega))]
  rw [mac_first hd cs h0]
  have := mac_started numer denom h0 (k := BitVec.ofNat 64 (numer.toNat / denom.toNat)) (by rw [hk]; exact lt_of_le_of_lt (Nat.div_le_self _ _) (by omega)) (cs := c :: cs) (by rw [hk]; exact h)
  rwa [hk] at this

theorem forall₂_pairwise {α β : Type} {R : α → β → Prop} {P : α → α → Prop} {Q : β → β → Prop} (H : ∀ a b x y, R a x → R b y → P a b → Q x y) :
    ∀ {as : List α} {bs : List β}, List.Forall₂ R as bs → as.Pairwise P → bs.Pairwise Q
  | [], _, .nil, _ => .nil
  | a :: as, _, .cons (l₂ := bs) h t, hp => by
    rw [List.pairwise_cons] at hp ⊢
    refine ⟨fun y hy => ?_, forall₂_pairwise H t hp.2⟩
    obtain ⟨i, hi, rfl⟩ := List.getElem_of_mem hy
    have hl := t.length_eq
    exact H _ _ _ _ h (t.get (hl ▸ hi) hi) (hp.1 _ (List.getElem_mem _))

/-- Where a tick is a whole number of nanoseconds (as on Intel), every call on macOS tells the milliseconds since the first, up to one and a rounding, and never less than a call before. -/
theorem C172_mac_partial {numer denom : BitVec 32} (hd : denom ≠ 0) (hw : denom.toNat ∣ numer.toNat) {c : BitVec 64 × BitVec 64} {cs : List (BitVec 64 × BitVec 64)} (h0 : c.1 ≠ 0)
    (h : ∀ d ∈ c :: cs, c.1.toNat ≤ d.2.toNat ∧ d.2.toNat - c.1.toNat < 2 ^ 53 ∧ (d.2.toNat - c.1.toNat) * (numer.toNat / denom.toNat) < 2 ^ 53) :
    ∃ rs, macCalls numer denom (0, 0) (c :: cs) = .ok rs ∧
      List.Forall₂ (fun (d : BitVec 64 × BitVec 64) (r : BitVec 64) => |(r.toNat : ℚ) - ((d.2.toNat : ℚ) - c.1.toNat) * (numer.toNat / denom.toNat) / 10 ^ 6| < 1 + 1 / 2 ^ 16) (c :: cs) rs ∧
      ((c :: cs).Pairwise (fun a b => a.2.toNat ≤ b.2.toNat) → rs.Pairwise (fun a b => a.toNat ≤ b.toNat)) := by
  obtain ⟨rs, e1, e2⟩ := mac_value hd h0 h
  refine ⟨rs, e1, ?_, ?_⟩
  · rw [List.forall₂_iff_get] at e2 ⊢
    refine ⟨e2.1, fun i hi hj => ?_⟩
    have hr := e2.2 i hi hj
    have hm := h _ (List.get_mem (c :: cs) ⟨i, hi⟩)
    generalize (c :: cs).get ⟨i, hi⟩ = d at hr hm ⊢
    generalize rs.get ⟨i, hj⟩ = r at hr ⊢
    obtain ⟨-, t1, -⟩ := ticks_bounds hm.2.2
    have f1 := Int.floor_le (ticks (d.2.toNat - c.1.toNat) (numer.toNat / denom.toNat))
    have f2 := Int.lt_floor_add_one (ticks (d.2.toNat - c.1.toNat) (numer.toNat / denom.toNat))
    rw [← hr] at f1 f2
    have hz : (denom.toNat : ℚ) ≠ 0 := by
      intro hz
      apply hd
      apply BitVec.eq_of_toNat_eq
      exact_mod_cast hz
    have hq : ((numer.toNat / denom.toNat : ℕ) : ℚ) = numer.toNat / denom.toNat := by
      rw [eq_div_iff hz]
      exact_mod_cast Nat.div_mul_cancel hw
    rw [Nat.cast_sub hm.1, hq] at t1
    push_cast at f1 f2
    obtain ⟨t2, t3⟩ := abs_le.1 t1
    rw [abs_lt]
    constructor <;> linarith
  · intro hp
    refine forall₂_pairwise (fun a b x y hx hy hab => ?_) e2 hp
    have := Int.floor_le_floor (ticks_mono (numer.toNat / denom.toNat) (show a.2.toNat - c.1.toNat ≤ b.2.toNat - c.1.toNat by omega))
    omega

/-- On Apple's own processors a tick is 125/3 nanoseconds, taken for 41: the time told falls behind by 16 milliseconds every second. -/
theorem C172_mac_slow {c : BitVec 64 × BitVec 64} {cs : List (BitVec 64 × BitVec 64)} (h0 : c.1 ≠ 0)
    (h : ∀ d ∈ c :: cs, c.1.toNat ≤ d.2.toNat ∧ (d.2.toNat - c.1.toNat) * 41 < 2 ^ 53) :
    ∃ rs, macCalls 125#32 3#32 (0, 0) (c :: cs) = .ok rs ∧
      List.Forall₂ (fun (d : BitVec 64 × BitVec 64) (r : BitVec 64) => (r.toNat : ℚ) ≤ ((d.2.toNat : ℚ) - c.1.toNat) * (125 / 3) / 10 ^ 6 * (1 - 16 / 1000) + 1 / 2 ^ 16) (c :: cs) rs := by
  obtain ⟨rs, e1, e2⟩ := mac_value (numer := 125#32) (denom := 3#32) (by decide) h0 (fun d hd => ⟨(h d hd).1, by have := (h d hd).2; omega, (h d hd).2⟩)
  refine ⟨rs, e1, ?_⟩
  rw [List.forall₂_iff_get] at e2 ⊢
  refine ⟨e2.1, fun i hi hj => ?_⟩
  have hr := e2.2 i hi hj
  have hm := h _ (List.get_mem (c :: cs) ⟨i, hi⟩)
  generalize (c :: cs).get ⟨i, hi⟩ = d at hr hm ⊢
  generalize rs.get ⟨i, hj⟩ = r at hr ⊢
  rw [show (125#32).toNat / (3#32).toNat = 41 from rfl] at hr
  obtain ⟨-, t1, -⟩ := ticks_bounds hm.2
  have f1 := Int.floor_le (ticks (d.2.toNat - c.1.toNat) 41)
  rw [← hr] at f1
  rw [Nat.cast_sub hm.1] at t1
  push_cast at f1 t1
  obtain ⟨-, t3⟩ := abs_le.1 t1
  linarith

/-- Where a tick is shorter than a nanosecond the time told stays at zero. -/
theorem C172_mac_stopped {numer denom : BitVec 32} (hn : numer.toNat < denom.toNat) {c : BitVec 64 × BitVec 64} {cs : List (BitVec 64 × BitVec 64)} (h0 : c.1 ≠ 0)
    (h : ∀ d ∈ c :: cs, c.1.toNat ≤ d.2.toNat ∧ d.2.toNat - c.1.toNat < 2 ^ 53) : macCalls numer denom (0, 0) (c :: cs) = .ok (List.replicate (cs.length + 1) 0#64) := by
  have hk : numer.toNat / denom.toNat = 0 := Nat.div_eq_of_lt hn
  have hd : denom ≠ 0 := by
    intro hz
    rw [hz] at hn
    exact Nat.not_lt_zero _ hn
  obtain ⟨rs, e1, e2⟩ := mac_value (numer := numer) (denom := denom) hd h0 (fun d hd => ⟨(h d hd).1, (h d hd).2, by rw [hk, Nat.mul_zero]; exact Nat.two_pow_pos 53⟩)
  rw [hk] at e2
  rw [e1]
  have z : ∀ e, ticks e 0 = 0 := fun e => by unfold ticks; simp [F64.rounded_zero]
  have hl := e2.length_eq
  have : rs = List.replicate (cs.length + 1) 0#64 := by
    rw [List.eq_replicate_iff]
    refine ⟨hl.symm, fun r hr => ?_⟩
    obtain ⟨i, hi, rfl⟩ := List.getElem_of_mem hr
    have h2 := (List.forall₂_iff_get.1 e2).2 i (by rw [hl]; exact hi) hi
    rw [z, Int.floor_zero] at h2
    apply BitVec.eq_of_toNat_eq
    exact Int.ofNat.inj h2
  rw [this]

/-! ### Examples -/

/-- Three calls with ten million ticks to a second. -/
example : winCalls 10000000 (0, 0) [(500, 700), (0, 10000500), (0, 25010499)] = .ok [0#64, 1000#64, 2500#64] := by decide +kernel

example : ∀ d ∈ [((500 : Int), (700 : Int)), (0, 10000500), (0, 25010499)], (500 : Int) ≤ d.2 ∧ (d.2 - 500) * 1000 < 2 ^ 63 := by decide

/-- 36 days at 3 GHz. -/
example : (2 : Int) ^ 63 ≤ (36 * 86400 * 3000000000 - 0) * 1000 := by decide

/-- Ten seconds: on Intel the call tells 10000 milliseconds, on Apple's processors 9840. -/
example : macCalls 1#32 1#32 (0, 0) [(7#64, 7#64), (0#64, 10000000007#64)] = .ok [0#64, 10000#64] ∧
    macCalls 125#32 3#32 (0, 0) [(7#64, 7#64), (0#64, 240000007#64)] = .ok [0#64, 9840#64] := by decide +kernel

example : macCalls 1#32 2#32 (0, 0) [(7#64, 7#64), (0#64, 10000000007#64)] = .ok [0#64, 0#64] := by decide +kernel

end Zpl.TimeOther
