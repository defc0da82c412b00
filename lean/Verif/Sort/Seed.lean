import Verif.Sort.Random
import Verif.Sys.Time

/-!
# Making random generators (code/source/core/random.c:12-77)  -  C166

The Linux variant.  What the clocks say is an argument: `clock i` is the i-th answer of `zpl_time_rel_ms`.

## Model -/

namespace Zpl.Seed

open Zpl Zpl.Random

/-- Conversion to `zpl_u32`: the fraction is dropped; undefined if the rest is no value of the type (C11 6.3.1.4). -/
def toU32 : F64 → Except Fault (BitVec 32)
  | .fin q => if -1 < q ∧ q < 2 ^ 32 then .ok (BitVec.ofNat 32 q.floor.toNat) else .error .ub
  | _ => .error .ub

/-- random.c:15, 18-19: `end`, from `start`. -/
def limit (start : F64) : Except Fault F64 := do
  let scaled ← F64.toU64 (F64.mul (F64.ofInt 100000) start)
  let left := 100000#64 - scaled % 100000#64
  return F64.add start (F64.div (F64.ofInt (left.toNat : Int)) (F64.ofInt 100000))

/-- random.c:21-24, the loop, from the i-th answer of the clock: the sum and the number of the next answer.  The comparison is `curr >= end` (no value is NaN). -/
def noiseLoop (clock : Nat → BitVec 64) (last : F64) : Nat → Nat → BitVec 32 → Except Fault (BitVec 32 × Nat)
  | 0, _, _ => .error .diverge
  | fuel + 1, i, accum => do
    let curr := Time.seconds (clock i)
    let v ← toU32 curr
    let accum := accum + v
    if F64.lt curr last then return (accum, i + 1) else noiseLoop clock last fuel (i + 1) accum

/-- random.c:12-26 `zpl__get_noise_from_time` -/
def noise (clock : Nat → BitVec 64) (fuel i : Nat) : Except Fault (BitVec 32 × Nat) := do
  let start := Time.seconds (clock i)
  let last ← limit start
  noiseLoop clock last fuel (i + 1) 0#32

/-- random.c:73-75, the inner loop. -/
def pass : List (BitVec 32) → BitVec 32 → List (BitVec 32)
  | [], _ => []
  | o :: os, x =>
    let x := permute x o
    x :: pass os x

/-- random.c:72-76, the outer loop, `j` passes to go. -/
def passes : Nat → List (BitVec 32) → BitVec 32 → List (BitVec 32)
  | 0, os, _ => os
  | j + 1, os, x =>
    let os := pass os x
    passes j os (os.getLastD x)

/-- What a call finds: the answers of the clock, the number of the thread, the local time and the counter of the processor. -/
structure Found where
  clock : Nat → BitVec 64
  thread : BitVec 32
  time : BitVec 64
  tick : BitVec 64

/-- random.c:49-77 `zpl_random_init`; `counter` is what line 57 (or 61) takes from the shared counter.  Without threads (line 61-63) `thread` is 0. -/
def init (f : Found) (counter : BitVec 32) (fuel : Nat) : Except Fault Rnd := do
  let (n0, i) ← noise f.clock fuel 0
  let (n6, _) ← noise f.clock fuel i
  let offsets := [n0, counter, f.thread, f.thread * 3#32 + 1#32, (f.time >>> 32).setWidth 32, f.time.setWidth 32, n6, (f.tick ^^^ (f.tick >>> 32)).setWidth 32]
  return { offsets := passes 4 offsets 0#32, value := 0#32 }

/-- Calls of any number of threads, in the order in which they raise the shared counter (random.c:57, one atomic step, or 61); nothing else is shared. -/
def inits (fuel : Nat) : BitVec 32 → List Found → Except Fault (List Rnd)
  | _, [] => .ok []
  | counter, f :: fs => do
    let r ← init f counter fuel
    let rs ← inits fuel (counter + 1#32) fs
    return r :: rs

/-! ## Different generators -/

theorem permute_inj {x a b : BitVec 32} (h : permute x a = permute x b) : a = b := by
  unfold permute at h
  have h1 := congrArg (· ^^^ 0x5bf03635#32) h
  simp only [BitVec.xor_assoc, BitVec.xor_self, BitVec.xor_zero] at h1
  exact (BitVec.add_right_inj (qpr x)).1 h1

theorem pass_inj : ∀ (a b : List (BitVec 32)) (x : BitVec 32), pass a x = pass b x → a = b
  | [], [], _, _ => rfl
  | [], _ :: _, _, h => by simp [pass] at h
  | _ :: _, [], _, h => by simp [pass] at h
  | o :: a, p :: b, x, h => by
    simp only [pass, List.cons.injEq] at h
    obtain rfl := permute_inj h.1
    rw [pass_inj a b _ h.2]

theorem pass_tail {o p x y : BitVec 32} {a b : List (BitVec 32)} (h : pass (o :: a) x = pass (p :: b) y) : a = b := by
  simp only [pass, List.cons.injEq] at h
  rw [h.1] at h
  exact pass_inj a b _ h.2

theorem pass_length : ∀ (a : List (BitVec 32)) (x : BitVec 32), (pass a x).length = a.length
  | [], _ => rfl
  | _ :: a, _ => by simp [pass, pass_length a]

theorem passes_last : ∀ (n : Nat) (a b : List (BitVec 32)) (u v : BitVec 32), 2 ≤ a.length → 2 ≤ b.length → passes n a (a.getLastD u) = passes n b (b.getLastD v) → a = b
  | 0, a, b, _, _, _, _, h => h
  | n + 1, a, b, u, v, ha, hb, h => by
    simp only [passes] at h
    have h1 := passes_last n _ _ _ _ (by rw [pass_length]; exact ha) (by rw [pass_length]; exact hb) h
    match a, b, ha, hb with
    | o :: o2 :: a, p :: p2 :: b, _, _ =>
      have h2 := pass_tail h1
      have h3 : (o :: o2 :: a).getLastD u = (p :: p2 :: b).getLastD v := by
        rw [h2]
        simp only [List.getLastD_eq_getLast?, List.getLast?_cons_cons]
        cases h5 : (p2 :: b).getLast? with
        | none => simp at h5
        | some _ => rfl
      rw [h3] at h1
      exact pass_inj _ _ _ h1

theorem passes_inj {n : Nat} {a b : List (BitVec 32)} {x : BitVec 32} (ha : 2 ≤ a.length) (hb : 2 ≤ b.length) (h : passes n a x = passes n b x) : a = b := by
  match n with
  | 0 => exact h
  | n + 1 =>
    simp only [passes] at h
    exact pass_inj _ _ _ (passes_last n _ _ _ _ (by rw [pass_length]; exact ha) (by rw [pass_length]; exact hb) h)

/-- The state depends on the counter. -/
theorem init_counter {f g : Found} {c d : BitVec 32} {m n : Nat} {r : Rnd} (h : init f c m = .ok r) (h' : init g d n = .ok r) : c = d := by
  unfold init at h h'
  cases h1 : noise f.clock m 0 with
  | error e => rw [h1] at h; cases h
  | ok p =>
    cases h2 : noise f.clock m p.2 with
    | error e => rw [h1] at h; simp only [except_ok_bind] at h; rw [h2] at h; cases h
    | ok q =>
      cases h3 : noise g.clock n 0 with
      | error e => rw [h3] at h'; cases h'
      | ok p' =>
        cases h4 : noise g.clock n p'.2 with
        | error e => rw [h3] at h'; simp only [except_ok_bind] at h'; rw [h4] at h'; cases h'
        | ok q' =>
          rw [h1] at h; simp only [except_ok_bind] at h; rw [h2] at h; simp only [except_ok_bind] at h
          rw [h3] at h'; simp only [except_ok_bind] at h'; rw [h4] at h'; simp only [except_ok_bind] at h'
          have e1 := Except.ok.inj h
          have e2 := Except.ok.inj h'
          have e3 : passes 4 _ 0#32 = passes 4 _ 0#32 := congrArg Rnd.offsets (e1.trans e2.symm)
          have e4 := passes_inj (by simp) (by simp) e3
          simp only [List.cons.injEq] at e4
          exact e4.2.1

/-- The list of generators has one for each call. -/
theorem inits_get {fuel : Nat} : ∀ {fs : List Found} {c : BitVec 32} {rs : List Rnd}, inits fuel c fs = .ok rs → ∀ (i : Nat) (r : Rnd), rs[i]? = some r →
    ∃ f, fs[i]? = some f ∧ init f (c + BitVec.ofNat 32 i) fuel = .ok r
  | [], c, rs, h, i, r, hr => by
    simp only [inits, Except.ok.injEq] at h
    subst h
    simp at hr
  | f :: fs, c, rs, h, i, r, hr => by
    simp only [inits] at h
    cases h1 : init f c fuel with
    | error e => rw [h1] at h; cases h
    | ok r1 =>
      rw [h1, except_ok_bind] at h
      cases h2 : inits fuel (c + 1#32) fs with
      | error e => rw [h2] at h; cases h
      | ok rs1 =>
        rw [h2, except_ok_bind] at h
        obtain rfl := Except.ok.inj h
        cases i with
        | zero =>
          simp only [List.getElem?_cons_zero, Option.some.injEq] at hr ⊢
          subst hr
          exact ⟨f, rfl, by simpa using h1⟩
        | succ i =>
          simp only [List.getElem?_cons_succ] at hr ⊢
          obtain ⟨g, hg, e⟩ := inits_get h2 i r hr
          refine ⟨g, hg, ?_⟩
          rw [← e]
          congr 1
          rw [BitVec.add_assoc]
          congr 1
          apply BitVec.eq_of_toNat_eq
          simp [Nat.add_comm]

/-- **C166.**  Whatever the clocks, the threads and the order of the calls: up to 2^32 generators made in one program all differ. -/
theorem C166_differ {fuel : Nat} {c : BitVec 32} {fs : List Found} {rs : List Rnd} (h : inits fuel c fs = .ok rs) {i j : Nat} (hij : i < j) (hj : j - i < 2 ^ 32) {r s : Rnd}
    (hr : rs[i]? = some r) (hs : rs[j]? = some s) : r.offsets ≠ s.offsets := by
  obtain ⟨f, -, e1⟩ := inits_get h i r hr
  obtain ⟨g, -, e2⟩ := inits_get h j s hs
  intro e
  have hv : ∀ {f : Found} {c : BitVec 32} {n : Nat} {r : Rnd}, init f c n = .ok r → r.value = 0#32 := by
    intro f c n r h
    unfold init at h
    cases h1 : noise f.clock n 0 with
    | error e => rw [h1] at h; cases h
    | ok p =>
      rw [h1] at h; simp only [except_ok_bind] at h
      cases h2 : noise f.clock n p.2 with
      | error e => rw [h2] at h; cases h
      | ok q =>
        rw [h2] at h; simp only [except_ok_bind] at h
        rw [← Except.ok.inj h]
  have e3 : r = s := by
    cases r; cases s
    have h1 := hv e1
    have h2 := hv e2
    simp only at e h1 h2
    rw [e, h1, h2]
  subst e3
  have e4 := init_counter e1 e2
  have e5 := congrArg BitVec.toNat ((BitVec.add_right_inj c).1 e4)
  simp only [BitVec.toNat_ofNat] at e5
  omega

/-! ## The noise -/

theorem seconds_floor {ms : BitVec 64} (h : ms.toNat < 2 ^ 40) : ∃ q : ℚ, Time.seconds ms = .fin q ∧ |q - ms.toNat / 1000| ≤ 1 / 2 ^ 20 ∧ ((ms.toNat / 1000 : ℕ) : ℚ) ≤ q := by
  obtain ⟨q, hq, he⟩ := Time.C130_seconds (ms := ms) (by omega)
  have hm : (ms.toNat : ℚ) < 1099511627776 := by exact_mod_cast h
  refine ⟨q, hq, he.trans ?_, ?_⟩
  · norm_num
    linarith
  · have hq0 : (0 : ℚ) ≤ ms.toNat * (1152921504606847 / 2 ^ 60) := by positivity
    rw [Time.seconds, F64.ofInt_eq (by rw [abs_of_nonneg (by omega)]; omega), Time.milli_eq] at hq
    unfold F64.mul at hq
    dsimp only at hq
    rw [show (((ms.toNat : ℤ) : ℚ)) = (ms.toNat : ℚ) by norm_num, Time.round_small hq0 (by norm_num; linarith)] at hq
    rw [← F64.fin.inj hq]
    refine F64.le_rounded (F64.int_grid (n := ((ms.toNat / 1000 : ℕ) : ℤ)) (by rw [abs_of_nonneg (by omega)]; omega)) ?_
    have h1 : (((ms.toNat / 1000 : ℕ) : ℚ)) * 1000 ≤ ms.toNat := by exact_mod_cast Nat.div_mul_le_self _ _
    have h2 : (0 : ℚ) ≤ ms.toNat := by positivity
    norm_num
    linarith

theorem left_eq {n : Nat} (h : n < 2 ^ 64) : (100000#64 - BitVec.ofNat 64 n % 100000#64).toNat = 100000 - n % 100000 := by
  have h1 : (100000#64).toNat = 100000 := by decide
  have h2 : (BitVec.ofNat 64 n % 100000#64).toNat = n % 100000 := by rw [BitVec.toNat_umod, BitVec.toNat_ofNat, Nat.mod_eq_of_lt h, h1]
  have h3 : BitVec.ofNat 64 n % 100000#64 ≤ 100000#64 := by
    rw [BitVec.le_def, h2, h1]
    omega
  rw [BitVec.toNat_sub_of_le h3, h1, h2]

/-- `end` is close to the next whole second. -/
theorem limit_near {ms : BitVec 64} (h : ms.toNat < 2 ^ 40) : ∃ e : ℚ, limit (Time.seconds ms) = .ok (.fin e) ∧ ((ms.toNat / 1000 : ℕ) : ℚ) + 1 - 1 / 2 ^ 12 ≤ e ∧
    e ≤ ((ms.toNat / 1000 : ℕ) : ℚ) + 1 + 1 / 2 ^ 12 := by
  obtain ⟨s, hs, h1, h2⟩ := seconds_floor h
  have hm : (ms.toNat : ℚ) < 1099511627776 := by exact_mod_cast h
  have hm0 : (0 : ℚ) ≤ ms.toNat := by positivity
  have h3 := abs_le.1 h1
  have hs0 : 0 ≤ s := le_trans (by positivity) h2
  have hsu : s ≤ 1099511628 := by have := h3.2; norm_num at this; linarith
  rw [hs]
  unfold limit
  rw [F64.ofInt_eq (by norm_num)]
  have hp0 : (0 : ℚ) ≤ 100000 * s := mul_nonneg (by norm_num) hs0
  have hmul : F64.mul (.fin ((100000 : ℤ) : ℚ)) (.fin s) = .fin (F64.rounded (100000 * s)) := by
    unfold F64.mul
    dsimp only
    rw [← Time.round_small hp0 (by norm_num; linarith)]
    norm_num
  rw [hmul]
  have he := F64.rounded_error (q := 100000 * s) (B := 109951162800000) (by rw [abs_of_nonneg hp0]; linarith) (by
    refine le_trans (F64.pow2_le (show (-1022 : ℤ) ≤ 0 by norm_num)) ?_
    norm_num [F64.pow2_eq])
  rw [show F64.pow2 (-53) = 1 / 2 ^ 53 by norm_num [F64.pow2_eq]] at he
  have hg : (((100000 * (ms.toNat / 1000) : ℕ) : ℤ) : ℚ) ≤ F64.rounded (100000 * s) := by
    refine F64.le_rounded (F64.int_grid (by rw [abs_of_nonneg (by omega)]; omega)) ?_
    rw [Int.cast_natCast]
    push_cast
    linarith
  generalize hP : F64.rounded (100000 * s) = P at he hg ⊢
  have he' := abs_le.1 he
  have hP0 : 0 ≤ P := by
    rw [← hP]
    simpa using F64.rounded_mono hp0 |>.trans' (by rw [F64.rounded_zero])
  have hPu : P ≤ 109951162800001 := by have := he'.2; norm_num at this; linarith
  unfold F64.toU64
  dsimp only
  rw [if_pos ⟨by linarith, lt_of_le_of_lt hPu (by norm_num [F64.pow2_eq])⟩]
  rw [except_ok_bind]
  -- the whole part
  obtain ⟨n, hn⟩ : ∃ n : ℕ, n = P.floor.toNat := ⟨_, rfl⟩
  rw [← hn]
  have hfl0 : 0 ≤ P.floor := Int.floor_nonneg.2 hP0
  have hnP : ((n : ℕ) : ℚ) = ((P.floor : ℤ) : ℚ) := by
    have : ((P.floor.toNat : ℕ) : ℤ) = P.floor := Int.toNat_of_nonneg hfl0
    rw [hn]
    exact_mod_cast this
  have hn1 : (n : ℚ) ≤ P := by rw [hnP]; exact Int.floor_le P
  have hn2 : P < n + 1 := by rw [hnP]; exact Int.lt_floor_add_one P
  have hn3 : 100000 * (ms.toNat / 1000) ≤ n := by
    have : ((100000 * (ms.toNat / 1000) : ℕ) : ℤ) ≤ P.floor := show _ ≤ ⌊P⌋ from Int.le_floor.2 hg
    rw [hn]
    omega
  have hn4 : (n : ℚ) ≤ 100 * ms.toNat + 1 := by
    have a := he'.2; have b := h3.2
    norm_num at a b
    linarith
  have hn5 : 100 * (ms.toNat : ℚ) ≤ n + 2 := by
    have a := he'.1; have b := h3.1
    norm_num at a b
    linarith
  have hn4' : n ≤ 100 * ms.toNat + 1 := by exact_mod_cast hn4
  have hn5' : 100 * ms.toNat ≤ n + 2 := by exact_mod_cast hn5
  have hnb : n < 2 ^ 64 := by omega
  have hleft := left_eq hnb
  rw [hleft]
  obtain ⟨l, hl⟩ : ∃ l : ℕ, l = 100000 - n % 100000 := ⟨_, rfl⟩
  rw [← hl]
  have hl1 : 1 ≤ l ∧ l ≤ 100000 := by omega
  -- the whole seconds of n are those of ms
  have hdiv : n / 100000 = ms.toNat / 1000 := by omega
  have hll : (l : ℤ) = 100000 * (ms.toNat / 1000) + 100000 - n := by omega
  have hlq : (l : ℚ) = 100000 * ((ms.toNat / 1000 : ℕ) : ℚ) + 100000 - n := by
    have := congrArg (fun z : ℤ => (z : ℚ)) hll
    push_cast at this
    exact this
  rw [F64.ofInt_eq (by rw [abs_of_nonneg (by omega)]; omega)]
  have hlq1 : (1 : ℚ) ≤ l ∧ (l : ℚ) ≤ 100000 := ⟨by exact_mod_cast hl1.1, by exact_mod_cast hl1.2⟩
  clear hl hleft hdiv hll
  have hd0 : (0 : ℚ) ≤ (l : ℚ) / 100000 := div_nonneg (Nat.cast_nonneg l) (by norm_num)
  have hdv : F64.div (.fin (((l : ℕ) : ℤ) : ℚ)) (.fin ((100000 : ℤ) : ℚ)) = .fin (F64.rounded (l / 100000)) := by
    unfold F64.div
    dsimp only
    rw [if_neg (by norm_num), ← Time.round_small hd0 (by norm_num; linarith)]
    norm_num
  rw [hdv]
  have he2 := F64.rounded_error (q := (l : ℚ) / 100000) (B := 1) (by rw [abs_of_nonneg hd0]; linarith) (by
    refine le_trans (F64.pow2_le (show (-1022 : ℤ) ≤ 0 by norm_num)) ?_
    norm_num [F64.pow2_eq])
  rw [show F64.pow2 (-53) = 1 / 2 ^ 53 by norm_num [F64.pow2_eq]] at he2
  have hR0 : 0 ≤ F64.rounded (l / 100000) := by
    simpa using F64.rounded_mono hd0 |>.trans' (by rw [F64.rounded_zero])
  generalize hR : F64.rounded ((l : ℚ) / 100000) = R at he2 hR0 ⊢
  have he2' := abs_le.1 he2
  have hsum0 : 0 ≤ s + R := add_nonneg hs0 hR0
  have hsumu : s + R ≤ 1099511630 := by have := he2'.2; norm_num at this; linarith
  have he3 := F64.rounded_error (q := s + R) (B := 1099511630) (by rw [abs_of_nonneg hsum0]; linarith) (by
    refine le_trans (F64.pow2_le (show (-1022 : ℤ) ≤ 0 by norm_num)) ?_
    norm_num [F64.pow2_eq])
  rw [show F64.pow2 (-53) = 1 / 2 ^ 53 by norm_num [F64.pow2_eq]] at he3
  have he3' := abs_le.1 he3
  refine ⟨F64.rounded (s + R), ?_, ?_, ?_⟩
  · show Except.ok _ = _
    unfold F64.add
    dsimp only
    rw [Time.round_small hsum0 (by norm_num; linarith)]
  · have a := he3'.1; have b := he2'.1; have c := h3.1; have d := he'.2
    norm_num at a b c d ⊢
    linarith
  · have a := he3'.2; have b := he2'.2; have c := h3.2; have d := he'.1
    norm_num at a b c d ⊢
    linarith

theorem toU32_seconds {ms : BitVec 64} (h : ms.toNat < 2 ^ 40) : toU32 (Time.seconds ms) = .ok (BitVec.ofNat 32 (ms.toNat / 1000)) := by
  obtain ⟨q, hq, h1, h2⟩ := seconds_floor h
  have h3 := abs_le.1 h1
  have hm : (ms.toNat : ℚ) < 1099511627776 := by exact_mod_cast h
  have hq0 : 0 ≤ q := le_trans (Nat.cast_nonneg _) h2
  have hup : q < ((ms.toNat / 1000 : ℕ) : ℚ) + 1 := by
    have a : ms.toNat + 1 ≤ 1000 * (ms.toNat / 1000) + 1000 := by omega
    have b : ((ms.toNat : ℚ)) + 1 ≤ 1000 * ((ms.toNat / 1000 : ℕ) : ℚ) + 1000 := by exact_mod_cast a
    have c := h3.2
    norm_num at c
    linarith
  have hfl : q.floor = ((ms.toNat / 1000 : ℕ) : ℤ) := show ⌊q⌋ = _ from Int.floor_eq_iff.2 ⟨by exact_mod_cast h2, by exact_mod_cast hup⟩
  rw [hq]
  unfold toU32
  dsimp only
  rw [if_pos ⟨by linarith, by have := h3.2; norm_num at this ⊢; linarith⟩, hfl, Int.toNat_natCast]

/-- **C166.**  If the clock does not pass a whole second between the first two answers, the noise is ready after these two - and it is the number of whole seconds, the same for all callers. -/
theorem C166_noise {clock : Nat → BitVec 64} {i : Nat} (h0 : (clock i).toNat < 2 ^ 40) (h1 : (clock (i + 1)).toNat < 2 ^ 40) (h : (clock (i + 1)).toNat / 1000 = (clock i).toNat / 1000) (fuel : Nat) :
    noise clock (fuel + 1) i = .ok (BitVec.ofNat 32 ((clock i).toNat / 1000), i + 2) := by
  obtain ⟨e, he, e1, e2⟩ := limit_near h0
  obtain ⟨q, hq, q1, q2⟩ := seconds_floor h1
  unfold noise
  dsimp only
  rw [he, except_ok_bind, noiseLoop]
  dsimp only
  rw [toU32_seconds h1, except_ok_bind, hq, if_pos]
  · rw [h, BitVec.zero_add]
    rfl
  · unfold F64.lt
    dsimp only
    rw [decide_eq_true_eq]
    have a : (clock (i + 1)).toNat + 1 ≤ 1000 * ((clock i).toNat / 1000) + 1000 := by omega
    have b : ((clock (i + 1)).toNat : ℚ) + 1 ≤ 1000 * (((clock i).toNat / 1000 : ℕ) : ℚ) + 1000 := by exact_mod_cast a
    have c := (abs_le.1 q1).2
    norm_num at c e1
    linarith

theorem loop_hangs {clock : Nat → BitVec 64} {e : ℚ} (fuel : Nat) : ∀ (i : Nat) (accum : BitVec 32), (∀ k, (clock k).toNat < 2 ^ 40) → (∀ k, i ≤ k → ∃ q : ℚ, Time.seconds (clock k) = .fin q ∧ e ≤ q) →
    noiseLoop clock (.fin e) fuel i accum = .error .diverge := by
  induction fuel with
  | zero => intro i accum _ _; rfl
  | succ n ih =>
    intro i accum hb h
    obtain ⟨q, hq, hle⟩ := h i (Nat.le_refl _)
    rw [noiseLoop]
    dsimp only
    rw [toU32_seconds (hb i), except_ok_bind, hq, if_neg]
    · exact ih (i + 1) _ hb (fun k hk => h k (by omega))
    · unfold F64.lt
      dsimp only
      rw [decide_eq_true_eq]
      exact not_lt.2 hle

/-- **C166 (deviation).**  If the clock passes a whole second (by a millisecond at least) between the first two answers, the loop never ends, on any clock that does not go back. -/
theorem C166_noise_hangs {clock : Nat → BitVec 64} (hb : ∀ k, (clock k).toNat < 2 ^ 40) (hm : ∀ k l, k ≤ l → (clock k).toNat ≤ (clock l).toNat) {i : Nat}
    (h : 1000 * ((clock i).toNat / 1000 + 1) < (clock (i + 1)).toNat) (fuel : Nat) : noise clock fuel i = .error .diverge := by
  obtain ⟨e, he, e1, e2⟩ := limit_near (hb i)
  unfold noise
  dsimp only
  rw [he, except_ok_bind]
  refine loop_hangs fuel (i + 1) _ hb ?_
  intro k hk
  obtain ⟨q, hq, q1, q2⟩ := seconds_floor (hb k)
  refine ⟨q, hq, ?_⟩
  have a : 1000 * ((clock i).toNat / 1000) + 1001 ≤ (clock k).toNat := by
    have := hm (i + 1) k hk
    omega
  have b : 1000 * (((clock i).toNat / 1000 : ℕ) : ℚ) + 1001 ≤ ((clock k).toNat : ℚ) := by exact_mod_cast a
  have c := (abs_le.1 q1).1
  norm_num at c e2
  linarith

/-- **C166 (partial).**  A generator is made if the clock passes no whole second between the two answers of either measurement.

`_partial`: otherwise it is not (`C166_hangs`). -/
theorem C166_made_partial (f : Found) (counter : BitVec 32) (hb : ∀ k, (f.clock k).toNat < 2 ^ 40) (h0 : (f.clock 1).toNat / 1000 = (f.clock 0).toNat / 1000)
    (h1 : (f.clock 3).toNat / 1000 = (f.clock 2).toNat / 1000) (fuel : Nat) : ∃ r, init f counter (fuel + 1) = .ok r ∧ r.offsets.length = 8 ∧ r.value = 0#32 := by
  unfold init
  rw [C166_noise (hb 0) (hb 1) h0]
  simp only [except_ok_bind]
  rw [C166_noise (hb 2) (hb 3) h1]
  refine ⟨_, rfl, ?_, rfl⟩
  simp [passes, pass]

/-- **C166 (deviation).**  If the clock passes a whole second between the first two answers, `zpl_random_init` never returns. -/
theorem C166_hangs (f : Found) (counter : BitVec 32) (hb : ∀ k, (f.clock k).toNat < 2 ^ 40) (hm : ∀ k l, k ≤ l → (f.clock k).toNat ≤ (f.clock l).toNat)
    (h : 1000 * ((f.clock 0).toNat / 1000 + 1) < (f.clock 1).toNat) (fuel : Nat) : init f counter fuel = .error .diverge := by
  unfold init
  rw [C166_noise_hangs hb hm h]
  rfl

/-! ## Examples -/

/-- Two generators made in the same second. -/
def calm : Found := { clock := fun k => BitVec.ofNat 64 (12300 + min k 3), thread := 7#32, time := 0x18c2f3a4b5d#64, tick := 0x123456789ab#64 }

/-- A clock that passes a second between the first two answers. -/
def late : Found := { calm with clock := fun k => if k = 0 then 12999#64 else 13001#64 }

example : ∃ rs, inits 1 5#32 [calm, calm] = .ok rs ∧ rs.length = 2 := by
  have hb : ∀ k, (calm.clock k).toNat < 2 ^ 40 := by
    intro k
    simp only [calm, BitVec.toNat_ofNat]
    omega
  obtain ⟨r, hr, -⟩ := C166_made_partial calm 5#32 hb (by decide) (by decide) 0
  obtain ⟨s, hs, -⟩ := C166_made_partial calm (5#32 + 1#32) hb (by decide) (by decide) 0
  refine ⟨[r, s], ?_, rfl⟩
  simp only [inits]
  rw [hr, except_ok_bind, hs]
  rfl

example (fuel : Nat) : init late 5#32 fuel = .error .diverge := by
  refine C166_hangs late 5#32 ?_ ?_ (by decide) fuel
  · intro k
    simp only [late]
    split <;> decide
  · intro k l hkl
    simp only [late]
    split <;> split <;> first | decide | (exfalso; omega)

end Zpl.Seed
