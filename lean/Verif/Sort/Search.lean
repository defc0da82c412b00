import Verif.Basic
import Verif.Sort.Sort

/-!
# Binary search and reverse (code/header/core/sort.h:75-92, code/source/core/sort.c:166-169)  -  C36, C37

## Model -/

namespace Zpl.Search

open Zpl.Sort

variable {α κ : Type _}

/-- sort.h:80-91, the loop of `zpl_binary_search`; the comparison gets the key first, the element second. -/
def searchLoop (cmp : κ → α → Int) (key : κ) (xs : List α) (start fin : Nat) : Except Fault Int :=
  if start < fin then do
    let mid := start + (fin - start) / 2
    let x ← rd xs mid
    let result := cmp key x
    if result < 0 then searchLoop cmp key xs start mid
    else if result > 0 then searchLoop cmp key xs (mid + 1) fin
    else .ok mid
  else .ok (-1)
termination_by fin - start

/-- sort.h:75-92 `zpl_binary_search` (with `count` the length of the array). -/
def binarySearch (cmp : κ → α → Int) (key : κ) (xs : List α) : Except Fault Int := searchLoop cmp key xs 0 xs.length

/-- sort.c:168: `for (i = 0; i < j; i++, j++) zpl_memswap(...)` on an array of `n` elements.  A `j` outside the array makes the swap access
memory outside of it. -/
def reverseLoop (n : Nat) (xs : List α) (i j : Nat) : Except Fault (List α) :=
  if i < j then
    if j < n then do
      let xs ← swp xs i j
      reverseLoop n xs (i + 1) (j + 1)
    else .error .oob
  else .ok xs
termination_by n - j

/-- sort.c:166-169 `zpl_reverse`. -/
def reverse (xs : List α) : Except Fault (List α) := if xs.length = 0 then .ok xs else reverseLoop xs.length xs 0 (xs.length - 1)

/-! ## Lemmas -/

/-- The array, seen from the key: first the elements smaller than the key, then the equal ones, then the greater ones. -/
def Ordered (cmp : κ → α → Int) (key : κ) (xs : List α) : Prop :=
  ∀ p q (hp : p < xs.length) (hq : q < xs.length), p < q →
    (cmp key xs[p] < 0 → cmp key xs[q] < 0) ∧ (cmp key xs[q] > 0 → cmp key xs[p] > 0)

theorem searchLoop_ok {cmp : κ → α → Int} {key : κ} {xs : List α} (ho : Ordered cmp key xs) (start fin : Nat) (hf : fin ≤ xs.length)
    (lo : ∀ k (h : k < xs.length), k < start → cmp key xs[k] > 0) (hi : ∀ k (h : k < xs.length), fin ≤ k → cmp key xs[k] < 0) :
    ∃ r, searchLoop cmp key xs start fin = .ok r ∧
      ((∃ i, ∃ h : i < xs.length, r = i ∧ cmp key xs[i] = 0) ∨ (r = -1 ∧ ∀ k (h : k < xs.length), cmp key xs[k] ≠ 0)) := by
  fun_induction searchLoop cmp key xs start fin with
  | case1 start fin hlt mid ih1 ih2 =>
    have hm : mid < xs.length := by omega
    have hm1 : start ≤ mid := by omega
    have hm2 : mid < fin := by omega
    rw [rd_ok hm, except_ok_bind]
    by_cases h1 : cmp key xs[mid] < 0
    · simp only [h1, if_true]
      refine ih1 (by omega) lo (fun k h hk => ?_)
      by_cases e : k = mid
      · subst e; exact h1
      · exact (ho mid k hm h (by omega)).1 h1
    · by_cases h2 : cmp key xs[mid] > 0
      · simp only [h1, h2, if_true, if_false]
        refine ih2 hf (fun k h hk => ?_) hi
        by_cases e : k = mid
        · subst e; exact h2
        · exact (ho k mid h hm (by omega)).2 h2
      · simp only [h1, h2, if_false]
        exact ⟨mid, rfl, .inl ⟨mid, hm, rfl, by omega⟩⟩
  | case2 start fin h =>
    refine ⟨-1, rfl, .inr ⟨rfl, fun k hk => ?_⟩⟩
    by_cases h1 : k < start
    · have := lo k hk h1; omega
    · have := hi k hk (by omega); omega

/-! ## Properties -/

/-- **C36.** On an array sorted by a total preorder, `zpl_binary_search` returns without leaving the array: an index holding an element that
compares equal to the key if there is one, `-1` if there is none. -/
theorem C36_binary_search {cmp : α → α → Int} (hc : Consistent cmp) (xs : List α) (hs : Sorted cmp xs) (key : α) :
    ∃ r, binarySearch cmp key xs = .ok r ∧
      ((∃ i, ∃ h : i < xs.length, r = i ∧ cmp key xs[i] = 0) ∨ (r = -1 ∧ ∀ x ∈ xs, cmp key x ≠ 0)) := by
  have ho : Ordered cmp key xs := by
    intro p q hp hq hpq
    have hle := (List.pairwise_iff_getElem.1 hs) p q hp hq hpq
    constructor
    · intro h
      -- key < xs[p] ≤ xs[q]
      apply Classical.byContradiction
      intro hn
      have h1 : cmp xs[q] key ≤ 0 := hc.le_of_not hn
      have h2 := hc.trans _ _ _ hle h1
      have := hc.anti xs[p] key
      omega
    · intro h
      apply Classical.byContradiction
      intro hn
      have h1 : cmp key xs[p] ≤ 0 := by omega
      have h2 := hc.trans _ _ _ h1 hle
      omega
  obtain ⟨r, e, h⟩ := searchLoop_ok ho 0 xs.length (Nat.le_refl _) (fun k h hk => by omega) (fun k h hk => by omega)
  refine ⟨r, e, ?_⟩
  rcases h with h | ⟨h1, h2⟩
  · exact .inl h
  · refine .inr ⟨h1, fun x hx => ?_⟩
    obtain ⟨i, hi, rfl⟩ := List.getElem_of_mem hx
    exact h2 i hi

/-- **C36, heterogeneous keys.** The same when the comparison relates a key to an element of another type, provided the array is
ordered as seen from that key. -/
theorem C36_binary_search_by (cmp : κ → α → Int) (xs : List α) (key : κ) (ho : Ordered cmp key xs) :
    ∃ r, binarySearch cmp key xs = .ok r ∧
      ((∃ i, ∃ h : i < xs.length, r = i ∧ cmp key xs[i] = 0) ∨ (r = -1 ∧ ∀ k (h : k < xs.length), cmp key xs[k] ≠ 0)) :=
  searchLoop_ok ho 0 xs.length (Nat.le_refl _) (fun k h hk => by omega) (fun k h hk => by omega)

/-- **C37, reverse, partial.** Reversal is right for arrays of at most one element.  Missing: every longer array, see
`C37_reverse_out_of_bounds`. -/
theorem C37_reverse_partial (xs : List α) (h : xs.length ≤ 1) : reverse xs = .ok xs.reverse := by
  match xs, h with
  | [], _ => rfl
  | [a], _ => simp [reverse, reverseLoop]

/-- Deviation: for *every* array of two or more elements `zpl_reverse` leaves the array, because line 168 increments `j`. -/
theorem C37_reverse_out_of_bounds (xs : List α) (h : 2 ≤ xs.length) : reverse xs = .error .oob := by
  have h0 : ¬ xs.length = 0 := by omega
  obtain ⟨ys, e, hp, -⟩ := swp_spec (xs := xs) (b := 0) (l := xs.length) (p := 0) (q := xs.length - 1) (by omega) (by omega) (by omega)
    (by omega) (Nat.le_refl _)
  clear hp
  unfold reverse
  rw [if_neg h0]
  unfold reverseLoop
  rw [if_pos (by omega), if_pos (by omega)]
  rw [e, except_ok_bind]
  unfold reverseLoop
  rw [if_pos (by omega), if_neg (by omega)]

/-! ## The hypotheses are met -/

example : Sorted intCmp [1, 3, 3, 8] ∧ binarySearch intCmp 3 [1, 3, 3, 8] = .ok 2 ∧ binarySearch intCmp 5 [1, 3, 3, 8] = .ok (-1) := by
  refine ⟨by unfold Sorted; decide +kernel, by decide +kernel, by decide +kernel⟩

example : Ordered (fun (k : Nat) (s : String) => (k : Int) - s.length) 2 ["a", "bb", "ccc"] ∧
    binarySearch (fun (k : Nat) (s : String) => (k : Int) - s.length) 2 ["a", "bb", "ccc"] = .ok 1 := by
  constructor
  · intro p q hp hq hpq
    have h1 : (p = 0 ∧ q = 1) ∨ (p = 0 ∧ q = 2) ∨ (p = 1 ∧ q = 2) := by simp at hp hq; omega
    rcases h1 with ⟨rfl, rfl⟩ | ⟨rfl, rfl⟩ | ⟨rfl, rfl⟩ <;> simp [String.length]
  · simp [binarySearch, searchLoop, rd, String.length]

end Zpl.Search
