import Verif.Array.Model

namespace Zpl.Arr
variable {α : Type _}

/-- Representation invariant: the count never exceeds the capacity. -/
def Inv (a : Arr α) : Prop := a.count ≤ a.cells.length

theorem setCapacity_ok (z : α) (a : Arr α) (n : Nat) (h : Inv a) :
    ∃ a', setCapacity z true a n = (a', true) ∧ Inv a' ∧ a'.capacity = n ∧ a'.count = min a.count n ∧
      a'.toList = a.toList.take n := by
  unfold setCapacity Inv Arr.capacity Arr.toList at *
  by_cases h1 : n = a.cells.length
  · refine ⟨a, by simp [h1], h, h1.symm, by omega, ?_⟩
    simp [List.take_take]; omega
  · simp only [h1, if_false, if_true]
    by_cases h2 : n < a.count
    · simp only [h2, if_true]
      refine ⟨_, rfl, ?_, ?_, ?_, ?_⟩ <;> simp [List.take_take] <;> omega
    · simp only [h2, if_false]
      refine ⟨_, rfl, ?_, ?_, ?_, ?_⟩
      · simp; omega
      · simp; omega
      · simp; omega
      · rw [List.take_left' (by simp; omega), List.take_take, Nat.min_eq_right (by omega)]

theorem setCapacity_fail (z : α) (a : Arr α) (n : Nat) :
    setCapacity z false a n = (a, true) ∧ n = a.capacity ∨
    (n ≠ a.capacity ∧ setCapacity z false a n = ({ a with count := min a.count n }, false)) := by
  unfold setCapacity
  by_cases h1 : n = a.capacity
  · left; simp [h1]
  · right; simp [h1]; split <;> omega

theorem grow_ok (z : α) (a : Arr α) (n : Nat) (h : Inv a) :
    ∃ a', grow z true a n = (a', true) ∧ Inv a' ∧ a'.capacity = max (2 * a.capacity + 8) n ∧ a'.count = a.count ∧
      a'.toList = a.toList := by
  unfold grow growFormula
  obtain ⟨a', h1, h2, h3, h4, h5⟩ := setCapacity_ok z a (if 2 * a.capacity + 8 < n then n else 2 * a.capacity + 8) h
  refine ⟨a', h1, h2, ?_, ?_, ?_⟩
  · rw [h3]; split <;> omega
  · rw [h4]; unfold Inv Arr.capacity at *; split <;> omega
  · rw [h5]; apply List.take_of_length_le
    unfold Inv Arr.toList Arr.capacity at *; simp; split <;> omega

theorem grow_fail (z : α) (a : Arr α) (n : Nat) (h : Inv a) : grow z false a n = (a, false) := by
  unfold grow growFormula
  rcases setCapacity_fail z a (if 2 * a.capacity + 8 < n then n else 2 * a.capacity + 8) with h1 | h1
  · exfalso; have := h1.2; split at this <;> omega
  · rw [h1.2]
    have : min a.count (if 2 * a.capacity + 8 < n then n else 2 * a.capacity + 8) = a.count := by
      unfold Inv Arr.capacity at *; split <;> omega
    rw [this]

/-- "ensure room for `m` elements": the common prologue of the appending calls. -/
theorem ensure_ok (z : α) (a : Arr α) (m n : Nat) (h : Inv a) (hn : m ≤ max (2 * a.capacity + 8) n) :
    ∃ a', (if a.capacity < m then grow z true a n else (a, true)) = (a', true) ∧ Inv a' ∧ m ≤ a'.cells.length ∧
      a'.count = a.count ∧ a'.toList = a.toList ∧ a.capacity ≤ a'.capacity := by
  by_cases hc : a.capacity < m
  · obtain ⟨a', h1, h2, h3, h4, h5⟩ := grow_ok z a n h
    refine ⟨a', by simp [hc, h1], h2, ?_, h4, h5, ?_⟩
    · show m ≤ a'.capacity; omega
    · omega
  · refine ⟨a, by simp [hc], h, ?_, rfl, rfl, Nat.le_refl _⟩
    show m ≤ a.capacity; omega

theorem ensure_fail (z : α) (a : Arr α) (m n : Nat) (h : Inv a) :
    (if a.capacity < m then grow z false a n else (a, true)) = if a.capacity < m then (a, false) else (a, true) := by
  split
  · exact grow_fail z a n h
  · rfl

theorem fillLoop_ok (v : α) (n : Nat) : ∀ (i : Nat) (cells : List α), i + n ≤ cells.length →
    fillLoop v i n cells = .ok (cells.mapIdx fun k x => if i ≤ k ∧ k < i + n then v else x) := by
  induction n with
  | zero =>
    intro i cells _
    simp only [fillLoop]; congr 1
    apply List.ext_getElem <;> simp; intro k h1 h2 h3; omega
  | succ n ih =>
    intro i cells h
    simp only [fillLoop, wr_ok (show i < cells.length by omega), except_ok_bind]
    rw [ih _ _ (by simp; omega)]; congr 1
    apply List.ext_getElem
    · simp
    · intro k h1 h2
      simp [List.getElem_set]
      grind

end Zpl.Arr

namespace Zpl.Arr
variable {α : Type _}

theorem toList_length (a : Arr α) (h : Inv a) : a.toList.length = a.count := by
  unfold Inv Arr.toList at *; simp; omega

/-- A well-formed array is its elements followed by unused cells. -/
theorem cells_split (a : Arr α) (h : Inv a) :
    ∃ s, a = ⟨a.toList.length, a.toList ++ s⟩ ∧ a.toList.length + s.length = a.capacity := by
  refine ⟨a.cells.drop a.count, ?_, ?_⟩
  · rw [toList_length a h]; simp [Arr.toList]
  · rw [toList_length a h]; unfold Inv Arr.capacity at *; simp; omega

theorem toList_mk (xs s : List α) (n : Nat) (h : n = xs.length) : (⟨n, xs ++ s⟩ : Arr α).toList = xs := by
  simp [Arr.toList, h]

/-- `ensure_ok` in decomposed form. -/
theorem ensure_split (z : α) (a : Arr α) (m n : Nat) (h : Inv a) (hn : m ≤ max (2 * a.capacity + 8) n) :
    ∃ s, (if a.capacity < m then grow z true a n else (a, true)) = (⟨a.count, a.toList ++ s⟩, true) ∧
      m ≤ a.count + s.length := by
  obtain ⟨b, h1, h2, h3, h4, h5, -⟩ := ensure_ok z a m n h hn
  obtain ⟨s, h6, h7⟩ := cells_split b h2
  rw [toList_length b h2, h4, h5] at h6
  rw [toList_length b h2, h4] at h7
  refine ⟨s, by rw [h1]; rw [← h6], ?_⟩
  unfold Arr.capacity at h7; omega

theorem moveCells_right (p q s : List α) (n : Nat) (hq : 0 < q.length) (hn : n ≤ s.length) :
    moveCells (p ++ q ++ s) (p.length + n) p.length q.length = .ok (p ++ (q ++ s).take n ++ q ++ s.drop n) := by
  unfold moveCells
  rw [if_neg (by omega), if_pos (by simp; omega)]
  congr 1
  have h1 : List.take (p.length + n) (p ++ q ++ s) = p ++ (q ++ s).take n := by
    rw [List.append_assoc, List.take_length_add_append]
  have h2 : List.take q.length (List.drop p.length (p ++ q ++ s)) = q := by
    rw [List.append_assoc, List.drop_left, List.take_left]
  have h3 : List.drop (p.length + n + q.length) (p ++ q ++ s) = s.drop n := by
    rw [show p.length + n + q.length = (p ++ q).length + n by simp; omega, List.drop_length_add_append]
  rw [h1, h2, h3]

theorem moveCells_left (p q s : List α) (x : α) :
    moveCells (p ++ x :: q ++ s) p.length (p.length + 1) q.length =
      .ok (p ++ q ++ (x :: q ++ s).drop q.length) := by
  unfold moveCells
  by_cases hq : q.length = 0
  · have : q = [] := by simpa using hq
    subst this; simp
  rw [if_neg hq, if_pos (by simp; omega)]
  congr 1
  have h1 : List.take p.length (p ++ x :: q ++ s) = p := by
    rw [List.append_assoc, List.take_left]
  have h2 : List.take q.length (List.drop (p.length + 1) (p ++ x :: q ++ s)) = q := by
    rw [List.append_assoc, List.drop_length_add_append]; simp
  have h3 : List.drop (p.length + q.length) (p ++ x :: q ++ s) = (x :: q ++ s).drop q.length := by
    rw [List.append_assoc, List.drop_length_add_append]
  rw [h1, h2, h3]

theorem putCells_mid (p r s items : List α) (h : r.length = items.length) :
    putCells (p ++ r ++ s) p.length items = .ok (p ++ items ++ s) := by
  unfold putCells
  by_cases h0 : items.length = 0
  · have h1 : items = [] := by simpa using h0
    have h2 : r = [] := by simpa [h1] using h
    simp [h1, h2]
  · rw [if_neg h0, if_pos (by simp; omega)]
    congr 1
    have h1 : List.take p.length (p ++ r ++ s) = p := by rw [List.append_assoc, List.take_left]
    have h3 : List.drop (p.length + items.length) (p ++ r ++ s) = s := by
      rw [← h, ← List.length_append, List.drop_left]
    rw [h1, h3]

theorem wr_mid (p s : List α) (y x : α) : wr (p ++ y :: s) p.length x = .ok (p ++ x :: s) := by
  rw [wr_ok (by simp)]; simp

end Zpl.Arr
