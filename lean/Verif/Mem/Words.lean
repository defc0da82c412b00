import Verif.Mem.Arena

/-!
# 64-bit words in byte memory

Loads and stores of `zpl_uintptr`, `zpl_u64` and `zpl_isize` words by the allocators, little-endian.  Misaligned word accesses,
which C leaves undefined, behave as on x86 here: this only matters for pools and stacks whose geometry is not a multiple of 8.
-/
namespace Zpl.Mem

/-- The eight bytes of a word, least significant first. -/
def wordLE (v : Nat) : List Byte := (List.range 8).map (fun i => BitVec.ofNat 8 (v / 256 ^ i))

/-- The value of bytes, least significant first. -/
def unLE : List Byte → Nat
  | [] => 0
  | b :: bs => b.toNat + 256 * unLE bs

/-- Load a 64-bit word. -/
def ld64 (m : Memory) (a : Nat) : Except Fault Nat := do
  let bs ← ldN m a 8
  .ok (unLE bs)

/-- Store a 64-bit word. -/
def st64w (m : Memory) (a v : Nat) : Except Fault Memory := stN m a (wordLE v)

/-- The memory after word `v` has been stored at `a`. -/
def put (m : Memory) (a v : Nat) : Memory := fun x => if a ≤ x ∧ x < a + 8 then some (BitVec.ofNat 8 (v / 256 ^ (x - a))) else m x

/-- Word `v` is stored at `a`. -/
def Holds (m : Memory) (a v : Nat) : Prop := v < 2 ^ 64 ∧ ∀ i, i < 8 → m (a + i) = some (BitVec.ofNat 8 (v / 256 ^ i))

theorem unLE_wordLE (v : Nat) (h : v < 2 ^ 64) : unLE (wordLE v) = v := by
  simp [wordLE, List.range, List.range.loop, unLE]
  omega

theorem st64w_ok {m : Memory} {a v : Nat} (h : Mapped m a 8) : st64w m a v = .ok (put m a v) := by
  unfold st64w
  rw [stN_ok (wordLE v) m a (by simpa [wordLE] using h)]
  apply congrArg
  funext x
  unfold put
  have hl : (wordLE v).length = 8 := by simp [wordLE]
  simp only [hl]
  split
  · next hx =>
    have : x - a < 8 := by omega
    simp [wordLE, List.getElem?_map, List.getElem?_range, this]
  · rfl

theorem ld64_ok {m : Memory} {a v : Nat} (h : Holds m a v) : ld64 m a = .ok v := by
  have hm : Mapped m a 8 := fun i hi => by rw [h.2 i hi]; rfl
  obtain ⟨bs, h1, h2, h3⟩ := ldN_ok 8 a hm
  have : bs = wordLE v := by
    apply List.ext_getElem?
    intro i
    by_cases hi : i < 8
    · rw [h3 i hi, h.2 i hi]
      simp [wordLE, List.getElem?_map, List.getElem?_range, hi]
    · rw [List.getElem?_eq_none (by omega), List.getElem?_eq_none (by simp [wordLE]; omega)]
  unfold ld64
  rw [h1, except_ok_bind, this, unLE_wordLE v h.1]

theorem holds_put (m : Memory) {a v : Nat} (h : v < 2 ^ 64) : Holds (put m a v) a v := by
  refine ⟨h, ?_⟩
  intro i hi
  unfold put
  rw [if_pos (by omega), show a + i - a = i by omega]

/-- A word is still stored if its bytes have not changed. -/
theorem Holds.frame {m m' : Memory} {a v : Nat} (h : Holds m a v) (hf : ∀ x, a ≤ x → x < a + 8 → m' x = m x) : Holds m' a v :=
  ⟨h.1, fun i hi => by rw [hf (a + i) (by omega) (by omega)]; exact h.2 i hi⟩

theorem sameDom_put {m : Memory} {a v : Nat} (h : Mapped m a 8) : Arena.SameDom (put m a v) m := by
  intro x
  unfold put
  split
  · next hx => have := h (x - a) (by omega); rw [show a + (x - a) = x by omega] at this; rw [this]; rfl
  · rfl

theorem put_outside {m : Memory} {a v x : Nat} (h : x < a ∨ a + 8 ≤ x) : put m a v x = m x := by
  unfold put; rw [if_neg (by omega)]

theorem filled_outside {m : Memory} {d n x : Nat} {c : Byte} (h : x < d ∨ d + n ≤ x) : filled m d n c x = m x := by
  unfold filled; rw [if_neg (by omega)]

end Zpl.Mem
