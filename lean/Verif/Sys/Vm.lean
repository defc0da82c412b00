import Verif.Basic

/-!
# Trimming virtual memory (code/source/core/memory_virtual.c:11-16, 83-100, POSIX branch)  -  C64

## Model

The address space is the set of mapped byte addresses, `munmap` (trusted) removes a range from it.  Addresses and sizes are the byte
values handed to `munmap`; page rounding is left out, which is exact when `lead_size` and `size` are multiples of the page size. -/

namespace Zpl.Vm

/-- memory_virtual.h `zpl_virtual_memory`. -/
structure Region where
  data : Nat
  size : Nat

/-- The mapped addresses. -/
abbrev Space := Nat → Prop

/-- memory_virtual.c:84-87 `zpl_vm_free`, that is `munmap(vm.data, vm.size)`. -/
def free (m : Space) (vm : Region) : Space := fun a => m a ∧ ¬ (vm.data ≤ a ∧ a < vm.data + vm.size)

/-- memory_virtual.c:89-101 `zpl_vm_trim`. -/
def trim (m : Space) (vm : Region) (lead size : Nat) : Except Fault (Region × Space) :=
  if vm.size ≥ lead + size then
    let ptr := vm.data + lead
    let trail := vm.size - lead - size
    let m := if lead ≠ 0 then free m ⟨vm.data, lead⟩ else m
    let m := if trail ≠ 0 then free m ⟨ptr, trail⟩ else m
    .ok (⟨ptr, size⟩, m)
  else .error .assertion

/-! ## Specification -/

/-- The whole region is mapped. -/
def Mapped (m : Space) (vm : Region) : Prop := ∀ a, vm.data ≤ a → a < vm.data + vm.size → m a

/-! ## Properties -/

/-- **C64, partial.** When nothing is to be cut at the end (`lead + size = vm.size`), exactly the leading `lead` bytes are unmapped and the returned
region, of `size` bytes after them, stays mapped.  Missing: a cut at the end, where the code unmaps the wrong bytes (`C64_trim_unmaps_kept`). -/
theorem C64_trim_lead_partial (m : Space) (vm : Region) (lead size : Nat) (hm : Mapped m vm) (h : lead + size = vm.size) :
    ∃ m', trim m vm lead size = .ok (⟨vm.data + lead, size⟩, m') ∧ Mapped m' ⟨vm.data + lead, size⟩ ∧
      ∀ a, m' a ↔ m a ∧ ¬ (vm.data ≤ a ∧ a < vm.data + lead) := by
  have ht : vm.size - lead - size = 0 := by omega
  refine ⟨if lead ≠ 0 then free m ⟨vm.data, lead⟩ else m, ?_, ?_, ?_⟩
  · simp only [trim, ht]
    rw [if_pos (by omega)]
    simp
  · intro a h1 h2
    dsimp only at h1 h2
    split
    · exact ⟨hm a (by omega) (by omega), by simp; omega⟩
    · exact hm a (by omega) (by omega)
  · intro a
    split
    · rfl
    · rename_i h0
      have h0 : lead = 0 := by omega
      subst h0
      constructor
      · exact fun h => ⟨h, by omega⟩
      · exact fun h => h.1

/-- Deviation: whenever something is to be cut at the end, `zpl_vm_trim` unmaps that many bytes at the *start of the kept part*: the returned region is
no longer mapped at its first byte, and every byte of the part to be cut that lies beyond twice its length from there stays mapped. -/
theorem C64_trim_unmaps_kept (m : Space) (vm : Region) (lead size : Nat) (h : lead + size < vm.size) (hs : 0 < size) :
    ∃ m', trim m vm lead size = .ok (⟨vm.data + lead, size⟩, m') ∧ ¬ Mapped m' ⟨vm.data + lead, size⟩ ∧
      (Mapped m vm → ∀ a, vm.data + lead + (vm.size - lead - size) ≤ a → a < vm.data + vm.size → m' a) := by
  have ht : vm.size - lead - size ≠ 0 := by omega
  refine ⟨free (if lead ≠ 0 then free m ⟨vm.data, lead⟩ else m) ⟨vm.data + lead, vm.size - lead - size⟩, ?_, ?_, ?_⟩
  · simp only [trim]
    rw [if_pos (by omega), if_pos ht]
  · intro hm
    have := hm (vm.data + lead) (Nat.le_refl _) (by simp; omega)
    exact this.2 ⟨Nat.le_refl _, by simp; omega⟩
  · intro hm a h1 h2
    refine ⟨?_, by simp; omega⟩
    split
    · exact ⟨hm a (by omega) h2, by simp; omega⟩
    · exact hm a (by omega) h2

/-- The assertion stops requests that do not fit. -/
theorem C64_trim_too_large (m : Space) (vm : Region) (lead size : Nat) (h : vm.size < lead + size) : trim m vm lead size = .error .assertion := by
  rw [trim, if_neg (by omega)]

/-! ## The hypotheses are met -/

/-- A region of 12288 bytes at 4096: one page cut at the front; one page cut at the end. -/
example : Mapped (fun a => 4096 ≤ a ∧ a < 16384) ⟨4096, 12288⟩ ∧ 4096 + 8192 = (⟨4096, 12288⟩ : Region).size ∧
    0 + 8192 < (⟨4096, 12288⟩ : Region).size := ⟨fun _ h1 h2 => ⟨h1, h2⟩, rfl, by decide⟩

end Zpl.Vm
