import Verif.Basic
import Verif.Sort.Sort

/-!
# Random numbers and shuffle (code/source/core/random.c, code/source/core/sort.c:152-164)  -  C37, C38, C39

## Model

The generator is modelled from an arbitrary state: `zpl_random_init` fills the offsets from clocks and thread ids, which are
inputs from outside.  A 64-bit machine is taken (`ZPL_ARCH_32_BIT` not defined). -/

namespace Zpl.Random

/-- random.h:6-9: eight offsets and the value. -/
structure Rnd where
  offsets : List (BitVec 32)
  value : BitVec 32

/-- random.c:31-42 `zpl__permute_qpr`.  Line 36 casts the 64-bit square to 32 bits *before* the remainder, so the square is taken modulo
2^32 (a 32-bit product). -/
def qpr (x : BitVec 32) : BitVec 32 :=
  if 4294967291#32 ≤ x then x
  else
    let residue := (x * x) % 4294967291#32
    if x ≤ 4294967291#32 / 2#32 then residue else 4294967291#32 - residue

/-- random.c:44-46 `zpl__permute_with_offset`. -/
def permute (x offset : BitVec 32) : BitVec 32 := (qpr x + offset) ^^^ 0x5bf03635#32

/-- random.c:83-88, the loop of `zpl_random_gen_u32`: returns `x` and the new offsets. -/
def genLoop : List (BitVec 32) → BitVec 32 → Bool → BitVec 32 × List (BitVec 32)
  | [], x, _ => (x, [])
  | o :: os, x, carry =>
    let x := permute x o
    if carry then
      let o := o + 1#32
      let (y, os) := genLoop os x (o == 0#32)
      (y, o :: os)
    else
      let (y, os) := genLoop os x false
      (y, o :: os)

/-- random.c:79-92 `zpl_random_gen_u32`. -/
def genU32 (r : Rnd) : BitVec 32 × Rnd :=
  let (x, os) := genLoop r.offsets r.value true
  (x, { offsets := os, value := x })

/-- random.c:94-103 `zpl_random_gen_u32_unique`. -/
def genUnique (r : Rnd) : BitVec 32 × Rnd :=
  (r.offsets.foldl permute r.value, { r with value := r.value + 1#32 })

/-- random.c:105-107 `zpl_random_gen_u64`.  C leaves the order of the two calls open; the model takes left to right. -/
def genU64 (r : Rnd) : BitVec 64 × Rnd :=
  let (a, r) := genU32 r
  let (b, r) := genU32 r
  ((a.setWidth 64 <<< 32) ||| b.setWidth 64, r)

/-- Does the mathematical value fit an `i64`? -/
def fits (v : Int) : Prop := -(2 ^ 63) ≤ v ∧ v < 2 ^ 63

instance (v : Int) : Decidable (fits v) := by unfold fits; infer_instance

/-- random.c:124-129, from the raw draw `u` on.  `u %= diff` converts `diff` to unsigned; overflow in the subtraction, in the `+ 1` and
in `i += lower_inc` is undefined. -/
def rangeOf (u : BitVec 64) (lo hi : Int) : Except Fault Int :=
  if fits (hi - lo) ∧ fits (hi - lo + 1) then
    let diff := hi - lo + 1
    if diff = 0 then .error .divZero
    else
      let u := u % BitVec.ofInt 64 diff
      let i := u.toInt
      if fits (i + lo) then .ok (i + lo) else .error .arith
  else .error .arith

/-- random.c:122-130 `zpl_random_range_i64` (and 132-144 `zpl_random_range_isize`, the same on a 64-bit machine). -/
def range (r : Rnd) (lo hi : Int) : Except Fault (Int × Rnd) := do
  let (u, r) := genU64 r
  let v ← rangeOf u lo hi
  .ok (v, r)

variable {α : Type _}

/-- sort.c:159-163, the loop of `zpl_shuffle`; `a` points to element `i - 1`.  `%` on signed numbers truncates towards zero, so `j` may
be negative: an access before the array. -/
def shuffleLoop : Nat → Rnd → List α → Except Fault (List α)
  | i + 2, r, xs => do
    let (u, r) := genU64 r
    let j := Int.tmod u.toInt (i + 2 : Nat)
    if j < 0 then .error .oob
    else do
      let xs ← Sort.swp xs (i + 1) j.toNat
      shuffleLoop (i + 1) r xs
  | _, _, xs => .ok xs

/-- sort.c:152-164 `zpl_shuffle`, with the state that `zpl_random_init` produced. -/
def shuffle (r : Rnd) (xs : List α) : Except Fault (List α) := shuffleLoop xs.length r xs

/-! ## Shuffle -/

/-- The remainders that the calls of the generator give for `i = n, n-1, ..., 2`. -/
def remainders : Nat → Rnd → List Int
  | i + 2, r => Int.tmod (genU64 r).1.toInt (i + 2 : Nat) :: remainders (i + 1) (genU64 r).2
  | _, _ => []

theorem shuffleLoop_ok (n : Nat) (r : Rnd) (xs : List α) (hn : n ≤ xs.length) :
    ((∀ j ∈ remainders n r, 0 ≤ j) → ∃ ys, shuffleLoop n r xs = .ok ys ∧ ys.Perm xs ∧ ∀ k, n ≤ k → ys[k]? = xs[k]?) ∧
    ((∃ j : Int, j ∈ remainders n r ∧ j < 0) → shuffleLoop n r xs = .error .oob) := by
  match n with
  | 0 => exact ⟨fun _ => ⟨xs, rfl, .refl _, fun _ _ => rfl⟩, fun ⟨j, h, _⟩ => by simp [remainders] at h⟩
  | 1 => exact ⟨fun _ => ⟨xs, rfl, .refl _, fun _ _ => rfl⟩, fun ⟨j, h, _⟩ => by simp [remainders] at h⟩
  | i + 2 =>
    have hlt : Int.tmod (genU64 r).1.toInt (i + 2 : Nat) < (i + 2 : Nat) := Int.tmod_lt_of_pos _ (by omega)
    simp only [remainders, List.mem_cons, shuffleLoop]
    generalize Int.tmod (genU64 r).1.toInt (i + 2 : Nat) = j at *
    by_cases hj : j < 0
    · refine ⟨fun h => by have := h j (.inl rfl); omega, fun _ => by rw [if_pos hj]⟩
    · rw [if_neg hj]
      obtain ⟨ys, e, hp, h1, h2, h3⟩ := Sort.swp_spec (xs := xs) (b := 0) (l := i + 2) (p := i + 1) (q := j.toNat) (by omega) (by omega)
        (by omega) (by omega) hn
      obtain ⟨a, b⟩ := shuffleLoop_ok (i + 1) (genU64 r).2 ys (by rw [hp.length]; omega)
      rw [e, except_ok_bind]
      refine ⟨fun h => ?_, fun h => ?_⟩
      · obtain ⟨zs, e2, p2, o2⟩ := a (fun k hk => h k (.inr hk))
        exact ⟨zs, e2, p2.trans hp.perm, fun k hk => (o2 k (by omega)).trans (hp.out k (by omega))⟩
      · obtain ⟨k, rfl | hk, hk0⟩ := h
        · omega
        · exact b ⟨k, hk, hk0⟩

/-- **C37, shuffle, partial.** For every array and every generator state: if no draw gives a negative remainder, `zpl_shuffle` stays inside
the array and leaves a permutation of its elements; otherwise it swaps an element with memory before the array.  Missing: the
full property, which the second case contradicts (`C37_shuffle_can_leave_array`). -/
theorem C37_shuffle_partial (r : Rnd) (xs : List α) :
    ((∀ j ∈ remainders xs.length r, 0 ≤ j) → ∃ ys, shuffle r xs = .ok ys ∧ ys.Perm xs) ∧
    ((∃ j : Int, j ∈ remainders xs.length r ∧ j < 0) → shuffle r xs = .error .oob) := by
  have h := shuffleLoop_ok xs.length r xs (Nat.le_refl _)
  exact ⟨fun hh => by obtain ⟨ys, e, p, _⟩ := h.1 hh; exact ⟨ys, e, p⟩, h.2⟩

/-- Deviation: there are generator states for which `zpl_shuffle` of a three element array accesses memory before the array. -/
theorem C37_shuffle_can_leave_array : ∃ r : Rnd, r.offsets.length = 8 ∧ r.value = 0#32 ∧ shuffle r [1, 2, 3] = .error .oob := by
  refine ⟨⟨[1#32, 1#32, 1#32, 1#32, 1#32, 1#32, 1#32, 1#32], 0#32⟩, rfl, rfl, ?_⟩
  decide +kernel

/-! ## Range -/

theorem rangeOf_ok (u : BitVec 64) {lo hi : Int} (hlo : fits lo) (hhi : fits hi) (hle : lo ≤ hi) (hw : hi - lo + 1 < 2 ^ 63) :
    rangeOf u lo hi = .ok (lo + (u.toNat % (hi - lo + 1).toNat : Nat)) := by
  unfold fits at hlo hhi
  unfold rangeOf
  have f1 : fits (hi - lo) ∧ fits (hi - lo + 1) := by unfold fits; omega
  rw [if_pos f1]
  have hd : BitVec.ofInt 64 (hi - lo + 1) = BitVec.ofNat 64 (hi - lo + 1).toNat := by
    rw [← BitVec.ofInt_natCast, Int.toNat_of_nonneg (by omega)]
  have hdn : (BitVec.ofInt 64 (hi - lo + 1)).toNat = (hi - lo + 1).toNat := by
    rw [hd, BitVec.toNat_ofNat, Nat.mod_eq_of_lt (by omega)]
  have hpos : 0 < (hi - lo + 1).toNat := by omega
  have hm : u.toNat % (hi - lo + 1).toNat < (hi - lo + 1).toNat := Nat.mod_lt _ hpos
  have hi' : (u % BitVec.ofInt 64 (hi - lo + 1)).toInt = (u.toNat % (hi - lo + 1).toNat : Nat) := by
    rw [BitVec.toInt_eq_toNat_of_lt (by rw [BitVec.toNat_umod, hdn]; omega), BitVec.toNat_umod, hdn]
  dsimp only
  rw [if_neg (by omega), hi', if_pos (by unfold fits; omega)]
  congr 1; omega

/-- **C38.** For every generator state and every range `lo ≤ hi` of 64-bit numbers whose width fits an `i64`, the call succeeds and the
result lies in `[lo, hi]`; and every value of the range is the result for some raw 64-bit draw. -/
theorem C38_range {lo hi : Int} (hlo : fits lo) (hhi : fits hi) (hle : lo ≤ hi) (hw : hi - lo + 1 < 2 ^ 63) :
    (∀ r : Rnd, ∃ v r', range r lo hi = .ok (v, r') ∧ lo ≤ v ∧ v ≤ hi) ∧
    (∀ v, lo ≤ v → v ≤ hi → ∃ u : BitVec 64, rangeOf u lo hi = .ok v) := by
  constructor
  · intro r
    refine ⟨lo + ((genU64 r).1.toNat % (hi - lo + 1).toNat : Nat), (genU64 r).2, ?_, by omega, ?_⟩
    · simp only [range, rangeOf_ok (genU64 r).1 hlo hhi hle hw, except_ok_bind]
    · have : (genU64 r).1.toNat % (hi - lo + 1).toNat < (hi - lo + 1).toNat := Nat.mod_lt _ (by omega)
      omega
  · intro v h1 h2
    refine ⟨BitVec.ofNat 64 (v - lo).toNat, ?_⟩
    rw [rangeOf_ok _ hlo hhi hle hw, BitVec.toNat_ofNat, Nat.mod_eq_of_lt (by omega : (v - lo).toNat < 2 ^ 64),
      Nat.mod_eq_of_lt (by omega)]
    congr 1; omega

/-- **C38, uniformity.** The result is `lo` plus the raw draw modulo the width: two raw draws give the same result exactly when they are
congruent modulo the width. -/
theorem C38_range_residue {lo hi : Int} (hlo : fits lo) (hhi : fits hi) (hle : lo ≤ hi) (hw : hi - lo + 1 < 2 ^ 63) (u v : BitVec 64) :
    rangeOf u lo hi = rangeOf v lo hi ↔ u.toNat % (hi - lo + 1).toNat = v.toNat % (hi - lo + 1).toNat := by
  rw [rangeOf_ok u hlo hhi hle hw, rangeOf_ok v hlo hhi hle hw, Except.ok.injEq]
  omega

/-- Deviation (outside the precondition): the full 64-bit range is not usable, its width overflows. -/
theorem C38_full_range_overflows (r : Rnd) : range r (-(2 ^ 63)) (2 ^ 63 - 1) = .error .arith := by
  simp only [range, rangeOf]
  rw [if_neg (by unfold fits; omega)]
  rfl

/-! ## Unique -/

/-- The results of `n` calls of `zpl_random_gen_u32_unique` in a row. -/
def draws : Nat → Rnd → List (BitVec 32)
  | 0, _ => []
  | n + 1, r => (genUnique r).1 :: draws n (genUnique r).2

theorem draws_getElem (n : Nat) (r : Rnd) (k : Nat) (h : k < n) :
    (draws n r)[k]? = some (r.offsets.foldl permute (r.value + BitVec.ofNat 32 k)) := by
  induction n generalizing r k with
  | zero => omega
  | succ n ih =>
    cases k with
    | zero => simp [draws, genUnique]
    | succ k =>
      simp only [draws, List.getElem?_cons_succ]
      rw [ih _ _ (by omega)]
      simp only [genUnique]
      congr 2
      rw [BitVec.add_assoc]
      congr 1
      apply BitVec.eq_of_toNat_eq
      simp
      omega

/-- The rounds of the generator on a start value: the arguments given to `zpl__permute_qpr`. -/
def rounds : List (BitVec 32) → BitVec 32 → List (BitVec 32)
  | [], _ => []
  | o :: os, x => x :: rounds os (permute x o)

theorem permute_inj {x y o : BitVec 32} (h : permute x o = permute y o) : qpr x = qpr y := by
  unfold permute at h
  have h2 : qpr x + o = qpr y + o := by
    have := congrArg (· ^^^ 0x5bf03635#32) h
    simpa [BitVec.xor_assoc] using this
  simpa using h2

theorem fold_collision (os : List (BitVec 32)) (x y : BitVec 32) (hne : x ≠ y) (h : os.foldl permute x = os.foldl permute y) :
    ∃ (i : Nat) (a b : BitVec 32), (rounds os x)[i]? = some a ∧ (rounds os y)[i]? = some b ∧ a ≠ b ∧ qpr a = qpr b := by
  induction os generalizing x y with
  | nil => exact absurd h hne
  | cons o os ih =>
    by_cases hp : permute x o = permute y o
    · exact ⟨0, x, y, rfl, rfl, hne, permute_inj hp⟩
    · obtain ⟨i, a, b, h1, h2, h3⟩ := ih _ _ hp h
      exact ⟨i + 1, a, b, by simpa [rounds] using h1, by simpa [rounds] using h2, h3⟩

/-- **C39, partial.** For every state and every two calls within the period of `2^32` calls: the counter values differ, and the two results
can only be equal if the squaring step maps two different numbers to the same value in one of the rounds (the additions, the
exclusive-ors and the counter never cause a repetition).  Missing: that such collisions do not occur; they do,
see `C39_repeats`. -/
theorem C39_unique_partial (r : Rnd) (i j : Nat) (hij : i < j) (hj : j < 2 ^ 32) :
    r.value + BitVec.ofNat 32 i ≠ r.value + BitVec.ofNat 32 j ∧
    ((draws (j + 1) r)[i]? = (draws (j + 1) r)[j]? →
      ∃ (k : Nat) (a b : BitVec 32), (rounds r.offsets (r.value + BitVec.ofNat 32 i))[k]? = some a ∧
        (rounds r.offsets (r.value + BitVec.ofNat 32 j))[k]? = some b ∧ a ≠ b ∧ qpr a = qpr b) := by
  have hne : r.value + BitVec.ofNat 32 i ≠ r.value + BitVec.ofNat 32 j := by
    intro h
    have h' : BitVec.ofNat 32 i = BitVec.ofNat 32 j := by simpa using h
    have := congrArg BitVec.toNat h'
    rw [BitVec.toNat_ofNat, BitVec.toNat_ofNat, Nat.mod_eq_of_lt (by omega), Nat.mod_eq_of_lt hj] at this
    omega
  refine ⟨hne, fun h => ?_⟩
  rw [draws_getElem _ _ _ (by omega), draws_getElem _ _ _ (by omega)] at h
  exact fold_collision _ _ _ hne (Option.some.inj h)

/-- Deviation: for *every* generator state with the value 0 that `zpl_random_init` sets and any offsets (at least one), call number 0 and call
number 65536 return the same number. -/
theorem C39_repeats (r : Rnd) (hv : r.value = 0#32) (ho : r.offsets ≠ []) :
    (draws 65537 r)[0]? = (draws 65537 r)[65536]? := by
  rw [draws_getElem _ _ _ (by omega), draws_getElem _ _ _ (by omega), hv]
  cases h : r.offsets with
  | nil => exact absurd h ho
  | cons o os =>
    have : permute (0#32 + BitVec.ofNat 32 0) o = permute (0#32 + BitVec.ofNat 32 65536) o := by
      have e : qpr (0#32 + BitVec.ofNat 32 0) = qpr (0#32 + BitVec.ofNat 32 65536) := by decide +kernel
      unfold permute; rw [e]
    rw [List.foldl_cons, List.foldl_cons, this]

/-! ## The hypotheses are met -/

example : fits (-5) ∧ fits 7 ∧ range ⟨[1#32, 2#32, 3#32, 4#32, 5#32, 6#32, 7#32, 8#32], 9#32⟩ (-5) 7 =
    .ok (-5 + ((genU64 ⟨[1#32, 2#32, 3#32, 4#32, 5#32, 6#32, 7#32, 8#32], 9#32⟩).1.toNat % 13 : Nat),
      (genU64 ⟨[1#32, 2#32, 3#32, 4#32, 5#32, 6#32, 7#32, 8#32], 9#32⟩).2) := by
  refine ⟨by decide, by decide, ?_⟩
  simp only [range]
  rw [rangeOf_ok _ (by decide) (by decide) (by decide) (by decide)]
  rfl

/-- A generator state without negative remainders, for a three element array. -/
example : ∃ r : Rnd, r.offsets.length = 8 ∧ (∀ j ∈ remainders 3 r, 0 ≤ j) ∧ remainders 3 r ≠ [] := by
  refine ⟨⟨[1#32, 1#32, 1#32, 1#32, 1#32, 1#32, 1#32, 0x80000000#32], 0#32⟩, rfl, by decide +kernel, by decide +kernel⟩

end Zpl.Random
