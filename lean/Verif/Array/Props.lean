import Verif.Array.Lemmas

/-!
# C01, C02: the dynamic array is a sequence
-/

namespace Zpl.Arr
variable {α : Type _}

/-! ## Specification: sequences -/

/-- The calls a user may make when the array holds `n` elements. -/
def Allowed : Op α → Nat → Prop
  | .appendAt _ i, n => 0 ≤ i ∧ i ≤ n
  | .appendvAt _ i, _ => 0 ≤ i
  | .fill b e _, n => 0 ≤ b ∧ e ≤ n
  | .removeAt i, n => 0 ≤ i ∧ i < n
  | .pop, n => 0 < n
  | .store i _, n => i < n
  | _, _ => True

/-- What each call means on sequences: `Spec op xs ys` says that `op` turns `xs` into `ys`. -/
def Spec : Op α → List α → List α → Prop
  | .append x, xs, ys => ys = xs ++ [x]
  | .appendAt x i, xs, ys => ys = xs.take i.toNat ++ x :: xs.drop i.toNat
  | .appendv l, xs, ys => ys = xs ++ l
  | .appendvAt l i, xs, ys => ys = xs.take i.toNat ++ l ++ xs.drop i.toNat
  | .fill b e v, xs, ys => ys = xs.mapIdx fun k x => if b ≤ (k : Int) ∧ (k : Int) < e then v else x
  | .removeAt i, xs, ys => ys = xs.eraseIdx i.toNat
  | .pop, xs, ys => ys = xs.dropLast
  | .clear, _, ys => ys = []
  | .resize n, xs, ys => ys.length = n ∧ ys.take xs.length = xs.take n   -- new elements unspecified
  | .reserve _, xs, ys => ys = xs
  | .grow _, xs, ys => ys = xs
  | .setCapacity n, xs, ys => ys = xs.take n
  | .store i v, xs, ys => ys = xs.set i v

/-- The number of elements after a call, which does not depend on the elements. -/
def lenAfter : Op α → Nat → Nat
  | .append _, n => n + 1
  | .appendAt _ _, n => n + 1
  | .appendv l, n => n + l.length
  | .appendvAt l _, n => n + l.length
  | .removeAt _, n => n - 1
  | .pop, n => n - 1
  | .clear, _ => 0
  | .resize m, _ => m
  | .setCapacity m, n => min n m
  | _, n => n

/-- A history in which every call is allowed at the moment it is made, starting from `n` elements. -/
def AllowedHist : List (Op α) → Nat → Prop
  | [], _ => True
  | op :: ops, n => Allowed op n ∧ AllowedHist ops (lenAfter op n)

/-- `SpecHist xs ops ys`: performing the calls `ops` on the sequence `xs` gives `ys`. -/
inductive SpecHist : List α → List (Op α) → List α → Prop
  | nil (xs) : SpecHist xs [] xs
  | cons {xs ys zs op ops} : Spec op xs ys → SpecHist ys ops zs → SpecHist xs (op :: ops) zs

/-! ## One call -/

/-- One allowed call whose allocation succeeds: it returns true, stays in bounds and means what `Spec` says. -/
theorem array_step_refines (z : α) (op : Op α) (a : Arr α) (h : Inv a) (hp : Allowed op a.count) :
    ∃ a', step z op true a = .ok (a', true) ∧ Inv a' ∧ a'.count = lenAfter op a.count ∧
      Spec op a.toList a'.toList := by
  cases op with
  | append x =>
    obtain ⟨s, h1, h2⟩ := ensure_split z a (a.count + 1) 0 h (by unfold Inv Arr.capacity at *; omega)
    have hl := toList_length a h
    obtain ⟨y, s, rfl⟩ : ∃ y s', s = y :: s' := by cases s with
      | nil => simp at h2; omega
      | cons y s => exact ⟨y, s, rfl⟩
    refine ⟨⟨a.count + 1, (a.toList ++ [x]) ++ s⟩, ?_, ?_, rfl, ?_⟩
    · have := wr_mid a.toList s y x
      rw [hl] at this
      simp [step, append, appendHelper, h1, this]
    · simp [Inv]; omega
    · simp only [Spec]; rw [toList_mk]; simp [hl]
  | appendAt x i =>
    obtain ⟨s, h1, h2⟩ := ensure_split z a (a.count + 1) 0 h (by unfold Inv Arr.capacity at *; omega)
    have hl := toList_length a h
    obtain ⟨hi0, hi1⟩ := hp
    obtain ⟨i, rfl⟩ : ∃ k : Nat, i = k := ⟨i.toNat, by omega⟩
    obtain ⟨y, s, rfl⟩ : ∃ y s', s = y :: s' := by cases s with
      | nil => simp at h2; omega
      | cons y s => exact ⟨y, s, rfl⟩
    refine ⟨⟨a.count + 1, (a.toList.take i ++ x :: a.toList.drop i) ++ s⟩, ?_, ?_, rfl, ?_⟩
    · by_cases hlt : i < a.count
      · have e1 : ¬ ((i : Int) ≥ a.count) := by omega
        have e2 : ¬ ((i : Int) < 0) := by omega
        simp only [step, appendAt, appendAtHelper, e1, if_false, e2, h1, if_true, Int.toNat_natCast]
        have hp : (a.toList.take i).length = i := by simp; omega
        have hd : (a.toList.drop i).length = a.count - i := by simp; omega
        have hm := moveCells_right (a.toList.take i) (a.toList.drop i) (y :: s) 1 (by omega) (by simp)
        rw [List.take_append_drop, hp, hd] at hm
        rw [hm]
        obtain ⟨w, hw⟩ : ∃ w, (a.toList.drop i ++ y :: s).take 1 = [w] := by
          cases hq : a.toList.drop i with
          | nil => exact ⟨y, by simp⟩
          | cons w q => exact ⟨w, by simp⟩
        have hwr := wr_mid (a.toList.take i) (a.toList.drop i ++ s) w x
        rw [hp] at hwr
        have hcell : a.toList.take i ++ (a.toList.drop i ++ y :: s).take 1 ++ a.toList.drop i ++ List.drop 1 (y :: s) =
            a.toList.take i ++ w :: (a.toList.drop i ++ s) := by rw [hw]; simp
        rw [hcell]
        simp only [except_ok_bind, if_true, except_pure, hwr]
        simp
      · have hic : i = a.count := by omega
        subst hic
        have e6 : ¬ ((a.count : Int) < 0) := by omega
        simp only [step, appendAt, appendAtHelper, ge_iff_le, Int.le_refl, if_true, h1]
        have hmv : ∃ w, moveCells (a.toList ++ y :: s) ((if (a.count : Int) - 1 < 0 then (0 : Int) else (a.count : Int) - 1).toNat + 1)
            (if (a.count : Int) - 1 < 0 then (0 : Int) else (a.count : Int) - 1).toNat
            (a.count - (if (a.count : Int) - 1 < 0 then (0 : Int) else (a.count : Int) - 1).toNat) =
            .ok (a.toList ++ w :: s) := by
          by_cases h0 : a.count = 0
          · exact ⟨y, by simp [h0, moveCells]⟩
          · have e3 : (if (a.count : Int) - 1 < 0 then (0 : Int) else (a.count : Int) - 1).toNat = a.count - 1 := by
              split <;> omega
            rw [e3]
            have hne : a.toList ≠ [] := by intro h; rw [h] at hl; simp at hl; omega
            have hs := List.dropLast_concat_getLast hne
            have hm := moveCells_right a.toList.dropLast [a.toList.getLast hne] (y :: s) 1 (by simp) (by simp)
            rw [hs] at hm
            simp only [List.length_dropLast, hl, List.length_singleton, List.singleton_append, List.take_succ_cons, List.take_zero,
              List.drop_succ_cons, List.drop_zero] at hm
            refine ⟨a.toList.getLast hne, ?_⟩
            rw [show a.count - (a.count - 1) = 1 by omega, hm, hs]
            simp
        obtain ⟨w, hw⟩ := hmv
        rw [hw]
        have hwr := wr_mid a.toList s w x
        rw [hl] at hwr
        simp only [except_ok_bind, except_pure, e6, if_true, if_false, Int.toNat_natCast, hwr]
        rw [List.take_of_length_le (by omega), List.drop_of_length_le (by omega)]
        simp
    · simp [Inv]; simp at h2; omega
    · simp only [Spec]; rw [toList_mk]; simp; simp; omega
  | appendv l =>
    obtain ⟨s, h1, h2⟩ := ensure_split z a (a.count + l.length) (a.count + l.length) h (by omega)
    have hl := toList_length a h
    have hput := putCells_mid a.toList (s.take l.length) (s.drop l.length) l (by simp; omega)
    rw [List.append_assoc, List.take_append_drop, hl] at hput
    refine ⟨⟨a.count + l.length, (a.toList ++ l) ++ s.drop l.length⟩, ?_, ?_, rfl, ?_⟩
    · simp only [step, appendv, h1, if_true, hput]; simp
    · simp [Inv]; omega
    · simp only [Spec]; rw [toList_mk]; simp [hl]
  | appendvAt l i =>
    obtain ⟨s, h1, h2⟩ := ensure_split z a (a.count + l.length) (a.count + l.length) h (by omega)
    have hl := toList_length a h
    have hi0 : 0 ≤ i := hp
    obtain ⟨i, rfl⟩ : ∃ k : Nat, i = k := ⟨i.toNat, by omega⟩
    refine ⟨⟨a.count + l.length, (a.toList.take i ++ l ++ a.toList.drop i) ++ s.drop l.length⟩, ?_, ?_, rfl, ?_⟩
    · by_cases hlt : i < a.count
      · have e1 : ¬ ((i : Int) ≥ a.count) := by omega
        have e2 : ¬ ((i : Int) < 0) := by omega
        simp only [step, appendvAt, e1, if_false, h1, e2, Int.toNat_natCast, if_true]
        have hp : (a.toList.take i).length = i := by simp; omega
        have hd : (a.toList.drop i).length = a.count - i := by simp; omega
        have hm := moveCells_right (a.toList.take i) (a.toList.drop i) s l.length (by omega) (by omega)
        rw [List.take_append_drop, hp, hd] at hm
        have hput := putCells_mid (a.toList.take i) ((a.toList.drop i ++ s).take l.length)
          (a.toList.drop i ++ s.drop l.length) l (by simp; omega)
        rw [hp, ← List.append_assoc] at hput
        rw [hm]
        simp only [except_ok_bind]
        rw [hput]
        simp
      · have e1 : ((i : Int) ≥ a.count) := by omega
        have hput := putCells_mid a.toList (s.take l.length) (s.drop l.length) l (by simp; omega)
        rw [List.append_assoc, List.take_append_drop, hl] at hput
        simp only [step, appendvAt, e1, if_true, appendv, h1, hput]
        rw [List.take_of_length_le (i := i) (by omega), List.drop_of_length_le (i := i) (by omega)]
        simp
    · simp [Inv]; omega
    · simp only [Spec, Int.toNat_natCast]; rw [toList_mk]; simp; omega
  | fill b e v =>
    obtain ⟨hb, he⟩ := hp
    obtain ⟨b, rfl⟩ : ∃ k : Nat, b = k := ⟨b.toNat, by omega⟩
    unfold Inv at h
    by_cases hbe : (b : Int) ≤ e
    · have hfill := fillLoop_ok v (e - b).toNat b a.cells (by omega)
      refine ⟨⟨a.count, a.cells.mapIdx fun k x => if b ≤ k ∧ k < b + (e - b).toNat then v else x⟩, ?_, ?_, ?_, ?_⟩
      · have hc : 0 ≤ (b : Int) ∧ e ≤ a.count := ⟨hb, he⟩
        simp only [step, fill, hc, if_true, Int.toNat_natCast, and_self, hfill]
        simp
      · simp [Inv]; omega
      · simp [lenAfter]
      · simp only [Spec, Arr.toList]
        apply List.ext_getElem
        · simp
        · intro k h1 h2; simp; split <;> split <;> first | rfl | omega
    · refine ⟨a, ?_, h, by simp [lenAfter], ?_⟩
      · have : (e - (b : Int)).toNat = 0 := by omega
        simp [step, fill, he, this, fillLoop]
      · simp only [Spec]
        apply List.ext_getElem
        · simp
        · intro k h1 h2; simp; omega
  | removeAt i =>
    obtain ⟨hi0, hi1⟩ := hp
    obtain ⟨i, rfl⟩ : ∃ k : Nat, i = k := ⟨i.toNat, by omega⟩
    unfold Inv at h
    have e2 : ¬ ((i : Int) < 0) := by omega
    obtain ⟨s, h1, h2⟩ := cells_split a h
    have hl := toList_length a h
    have hsp : a.toList = a.toList.take i ++ a.toList[i] :: a.toList.drop (i + 1) := by simp
    have hp : (a.toList.take i).length = i := by simp; omega
    have hd : (a.toList.drop (i + 1)).length = a.count - i - 1 := by simp; omega
    have hm := moveCells_left (a.toList.take i) (a.toList.drop (i + 1)) s a.toList[i]
    rw [← hsp, hp, hd] at hm
    refine ⟨⟨a.count - 1, (a.toList.take i ++ a.toList.drop (i + 1)) ++ (a.toList[i] :: a.toList.drop (i + 1) ++ s).drop (a.count - i - 1)⟩, ?_, ?_, rfl, ?_⟩
    · have hc : a.cells = a.toList ++ s := by rw [h1]; simp [Arr.toList]
      simp only [step, removeAt, hi1, if_true, e2, if_false, Int.toNat_natCast]
      rw [hc, hm]
      rfl
    · simp [Inv]; omega
    · simp only [Spec, Int.toNat_natCast]; rw [toList_mk, List.eraseIdx_eq_take_drop_succ]
      simp; omega
  | pop =>
    refine ⟨⟨a.count - 1, a.cells⟩, ?_, ?_, rfl, ?_⟩
    · have : a.count > 0 := hp
      simp [step, pop, this]
    · unfold Inv at *; simp; omega
    · have : a.count > 0 := hp
      unfold Inv at h
      simp only [Spec, Arr.toList]
      rw [List.dropLast_eq_take, List.take_take]
      congr 1; simp; omega
  | clear =>
    exact ⟨⟨0, a.cells⟩, rfl, by simp [Inv], rfl, by simp [Spec, Arr.toList]⟩
  | resize n =>
    obtain ⟨b, h1, h2, h3, h4, h5, -⟩ := ensure_ok z a n n h (by omega)
    refine ⟨⟨n, b.cells⟩, ?_, ?_, rfl, ?_, ?_⟩
    · simp [step, resize, h1]
    · simpa [Inv] using h3
    · simp [Arr.toList]; omega
    · rw [← h5]
      unfold Inv at h2
      simp only [Arr.toList, List.take_take, List.length_take]
      congr 1; omega
  | reserve n =>
    by_cases hc : a.capacity < n
    · obtain ⟨b, h1, h2, h3, h4, h5⟩ := setCapacity_ok z a n h
      unfold Inv Arr.capacity at *
      refine ⟨b, by simp [step, reserve, hc, h1, Arr.capacity], h2, ?_, ?_⟩
      · simp [lenAfter]; omega
      · simp only [Spec, h5]; apply List.take_of_length_le; rw [toList_length a h]; omega
    · exact ⟨a, by simp [step, reserve, hc], h, rfl, rfl⟩
  | grow n =>
    obtain ⟨b, h1, h2, h3, h4, h5⟩ := grow_ok z a n h
    exact ⟨b, by simp [step, h1], h2, h4, h5⟩
  | setCapacity n =>
    obtain ⟨b, h1, h2, h3, h4, h5⟩ := setCapacity_ok z a n h
    exact ⟨b, by simp [step, h1], h2, h4, h5⟩
  | store i v =>
    unfold Inv at h
    have hi : i < a.count := hp
    refine ⟨⟨a.count, a.cells.set i v⟩, ?_, ?_, rfl, ?_⟩
    · simp [step, set, wr_ok (show i < a.cells.length by omega)]
    · simpa [Inv] using h
    · simp [Spec, Arr.toList, List.take_set]

/-- Running a history of calls, all allocations succeeding. -/
def run (z : α) : List (Op α) → Arr α → Except Fault (Arr α)
  | [], a => .ok a
  | op :: ops, a => do
    let (a, _) ← step z op true a
    run z ops a

/-- **C01.**  For every history of calls in which each call is allowed (valid index, non-empty pop), starting from
a fresh array of any capacity: no call faults (no out-of-bounds access, no failed assertion), the elements are those of the
mathematical sequence obtained by the same calls, and the count never exceeds the capacity. -/
theorem C01_array_is_sequence (z : α) (cap : Nat) (ops : List (Op α)) (hv : AllowedHist ops 0)
    (a₀ : Arr α) (h₀ : initReserve z cap true = some a₀) :
    ∃ a, run z ops a₀ = .ok a ∧ a.count ≤ a.capacity ∧ SpecHist [] ops a.toList ∧
      ∀ i, i < a.count → ∃ v, get a i = .ok v ∧ a.toList[i]? = some v := by
  have key : ∀ (ops : List (Op α)) (a : Arr α), Inv a → AllowedHist ops a.count →
      ∃ a', run z ops a = .ok a' ∧ Inv a' ∧ SpecHist a.toList ops a'.toList := by
    intro ops
    induction ops with
    | nil => intro a h _; exact ⟨a, rfl, h, .nil _⟩
    | cons op ops ih =>
      intro a h hv
      obtain ⟨b, h1, h2, h3, h4⟩ := array_step_refines z op a h hv.1
      obtain ⟨c, h5, h6, h7⟩ := ih b h2 (h3 ▸ hv.2)
      exact ⟨c, by simp [run, h1, h5], h6, .cons h4 h7⟩
  simp [initReserve] at h₀
  subst h₀
  obtain ⟨a, h1, h2, h3⟩ := key ops ⟨0, List.replicate cap z⟩ (by simp [Inv]) hv
  refine ⟨a, h1, h2, by simpa [Arr.toList] using h3, ?_⟩
  intro i hi
  unfold Inv at h2
  refine ⟨a.cells[i], rd_ok (by omega), ?_⟩
  rw [List.getElem?_eq_getElem (by rw [toList_length a h2]; exact hi)]
  simp [Arr.toList]

/-- The default initial capacity of `zpl_array_init` is positive, so C01 applies to it. -/
example (z : α) : init z true = initReserve z 8 true := rfl

/-- Non-vacuity of C01: a history that inserts at both ends and in the middle, removes, resizes and shrinks. -/
example : AllowedHist (α := Nat)
    [.append 1, .appendAt 2 0, .appendvAt [3, 4] 1, .removeAt 2, .fill 0 2 9, .resize 7, .pop, .setCapacity 3, .store 2 5, .clear] 0 := by
  simp [AllowedHist, Allowed, lenAfter]

/-- Capacity effects: `reserve n` and `set_capacity n` give the capacity they promise. -/
theorem C01_capacity (z : α) (a : Arr α) (n : Nat) (h : a.count ≤ a.capacity) :
    (∃ a', step z (.reserve n) true a = .ok (a', true) ∧ n ≤ a'.capacity ∧ a.capacity ≤ a'.capacity) ∧
    (∃ a', step z (.setCapacity n) true a = .ok (a', true) ∧ a'.capacity = n) := by
  constructor
  · by_cases hc : a.capacity < n
    · obtain ⟨b, h1, h2, h3, h4, h5⟩ := setCapacity_ok z a n h
      exact ⟨b, by simp [step, reserve, hc, h1], by omega, by omega⟩
    · exact ⟨a, by simp [step, reserve, hc], by omega, by omega⟩
  · obtain ⟨b, h1, h2, h3, h4, h5⟩ := setCapacity_ok z a n h
    exact ⟨b, by simp [step, h1], h3⟩

example : (⟨1, [1, 0]⟩ : Arr Nat).count ≤ (⟨1, [1, 0]⟩ : Arr Nat).capacity := by decide

/-- `zpl_array_copy_init` gives an independent array with the same elements, or reports failure. -/
theorem C01_copy_init (z : α) (ok : Bool) (x : Arr α) :
    (ok = true → ∃ y, copyInit z ok x = .ok (some y) ∧ y.toList = x.toList ∧ y.capacity = x.capacity) ∧
    (ok = false → copyInit z ok x = .ok none) := by
  constructor
  · rintro rfl
    have := putCells_mid [] (List.replicate x.capacity z) [] x.cells (by simp [Arr.capacity])
    simp at this
    refine ⟨⟨x.count, x.cells⟩, ?_, rfl, rfl⟩
    simp [copyInit, initReserve, this]
  · rintro rfl; rfl

/-- `zpl_array_back`/`front` read the last/first element of a non-empty array. -/
theorem C01_back_front (a : Arr α) (h : a.count ≤ a.capacity) (hne : 0 < a.count) :
    (∃ v, back a = .ok v ∧ a.toList.getLast? = some v) ∧ (∃ v, front a = .ok v ∧ a.toList.head? = some v) := by
  unfold Arr.capacity at h
  constructor
  · refine ⟨a.cells[a.count - 1], ?_, ?_⟩
    · simp [back, rd_ok (show a.count - 1 < a.cells.length by omega)]; omega
    · rw [List.getLast?_eq_getElem?, toList_length a h, List.getElem?_eq_getElem (by rw [toList_length a h]; omega)]
      simp [Arr.toList]
  · refine ⟨a.cells[0], rd_ok (by omega), ?_⟩
    rw [List.head?_eq_getElem?, List.getElem?_eq_getElem (by rw [toList_length a h]; omega)]
    simp [Arr.toList]

/-! ## C02: allocation failures -/

/-- The calls of C02: those of C01, except that `set_capacity` may not cut below the current count (see
`C02_set_capacity_failure_truncates`). -/
def AllowedF : Op α → Nat → Prop
  | .setCapacity m, n => n ≤ m
  | op, n => Allowed op n

instance (op : Op α) (n : Nat) : Decidable (AllowedF op n) := by
  cases op <;> simp only [AllowedF, Allowed] <;> infer_instance

/-- A call whose allocation fails (if it makes one) either did not need it and behaves as usual, or returns false and
leaves the array as it was. -/
theorem array_step_fail (z : α) (op : Op α) (a : Arr α) (h : Inv a) (hp : AllowedF op a.count) :
    step z op false a = .ok (a, false) ∨
    (∃ a', step z op false a = .ok (a', true) ∧ step z op true a = .ok (a', true)) := by
  have eg := fun n => grow_fail z a n h
  have ok1 : ∀ op', Allowed op' a.count → ∀ r, step z op' true a = r → ∃ a', r = .ok (a', true) := by
    rintro op' h' r rfl
    obtain ⟨b, h1, -⟩ := array_step_refines z op' a h h'
    exact ⟨b, h1⟩
  cases op with
  | append x =>
    by_cases hc : a.capacity < a.count + 1
    · left; simp [step, append, appendHelper, hc, eg]
    · right
      obtain ⟨b, hb⟩ := ok1 (.append x) trivial _ rfl
      refine ⟨b, ?_, hb⟩
      simpa [step, append, appendHelper, hc] using hb
  | appendAt x i =>
    by_cases hc : a.capacity < a.count + 1
    · left; simp [step, appendAt, appendAtHelper, hc, eg]
    · right
      obtain ⟨b, hb⟩ := ok1 (.appendAt x i) hp _ rfl
      refine ⟨b, ?_, hb⟩
      simpa only [step, appendAt, appendAtHelper, hc, if_false] using hb
  | appendv l =>
    by_cases hc : a.capacity < a.count + l.length
    · left; simp [step, appendv, hc, eg]
    · right
      obtain ⟨b, hb⟩ := ok1 (.appendv l) trivial _ rfl
      refine ⟨b, ?_, hb⟩
      simpa only [step, appendv, hc, if_false] using hb
  | appendvAt l i =>
    by_cases hc : a.capacity < a.count + l.length
    · left; simp only [step, appendvAt, appendv, hc, eg, if_true]; split <;> simp
    · right
      obtain ⟨b, hb⟩ := ok1 (.appendvAt l i) hp _ rfl
      refine ⟨b, ?_, hb⟩
      simpa only [step, appendvAt, appendv, hc, if_false] using hb
  | fill b e v => right; obtain ⟨b, hb⟩ := ok1 (.fill b e v) hp _ rfl; exact ⟨b, hb, hb⟩
  | removeAt i => right; obtain ⟨b, hb⟩ := ok1 (.removeAt i) hp _ rfl; exact ⟨b, hb, hb⟩
  | pop => right; obtain ⟨b, hb⟩ := ok1 .pop hp _ rfl; exact ⟨b, hb, hb⟩
  | clear => right; obtain ⟨b, hb⟩ := ok1 .clear hp _ rfl; exact ⟨b, hb, hb⟩
  | store i v => right; obtain ⟨b, hb⟩ := ok1 (.store i v) hp _ rfl; exact ⟨b, hb, hb⟩
  | resize n =>
    by_cases hc : a.capacity < n
    · left; simp [step, resize, hc, eg]
    · right; exact ⟨⟨n, a.cells⟩, by simp [step, resize, hc], by simp [step, resize, hc]⟩
  | reserve n =>
    by_cases hc : a.capacity < n
    · left
      rcases setCapacity_fail z a n with h1 | h1
      · omega
      · simp [step, reserve, hc, h1.2]
        have : min a.count n = a.count := by unfold Inv Arr.capacity at *; omega
        rw [this]
    · right; exact ⟨a, by simp [step, reserve, hc], by simp [step, reserve, hc]⟩
  | grow n => left; simp [step, eg]
  | setCapacity n =>
    rcases setCapacity_fail z a n with h1 | h1
    · right; exact ⟨a, by simp [step, h1.1], by simp [step, setCapacity, h1.2]⟩
    · left
      have : min a.count n = a.count := by have : a.count ≤ n := hp; omega
      simp [step, h1.2, this]

/-- Run a history with an allocation outcome for each call; a call that is not allowed at that point is not made.
Returns the final array and the calls that were made and returned true. -/
def runF (z : α) : List (Op α × Bool) → Arr α → Except Fault (Arr α × List (Op α))
  | [], a => .ok (a, [])
  | (op, ok) :: ops, a =>
    if AllowedF op a.count then do
      let (a, r) ← step z op ok a
      let (a, done) ← runF z ops a
      return (a, if r then op :: done else done)
    else runF z ops a

/-- **C02 (partial).**  For every history of calls and every schedule of allocation failures: no fault, and the array holds the sequence
obtained by replaying only the calls that returned true.  Missing from the full property: `set_capacity` below the
current count, for which it is false (`C02_set_capacity_failure_truncates`). -/
theorem C02_failed_calls_change_nothing_partial (z : α) (cap : Nat) (hist : List (Op α × Bool)) (a₀ : Arr α)
    (h₀ : initReserve z cap true = some a₀) :
    ∃ a done, runF z hist a₀ = .ok (a, done) ∧ a.count ≤ a.capacity ∧ SpecHist [] done a.toList := by
  have key : ∀ (hist : List (Op α × Bool)) (a : Arr α), Inv a →
      ∃ a' done, runF z hist a = .ok (a', done) ∧ Inv a' ∧ SpecHist a.toList done a'.toList := by
    intro hist
    induction hist with
    | nil => intro a h; exact ⟨a, [], rfl, h, .nil _⟩
    | cons p hist ih =>
      obtain ⟨op, ok⟩ := p
      intro a h
      by_cases hp : AllowedF op a.count
      · have hp' : Allowed op a.count := by cases op <;> first | exact hp | trivial
        obtain ⟨b, h1, h2, h3, h4⟩ := array_step_refines z op a h hp'
        have good : ∀ r, r = Except.ok (b, true) → step z op ok a = r →
            ∃ a' done, runF z ((op, ok) :: hist) a = .ok (a', done) ∧ Inv a' ∧ SpecHist a.toList done a'.toList := by
          rintro r rfl hr
          obtain ⟨c, done, h5, h6, h7⟩ := ih b h2
          exact ⟨c, op :: done, by simp [runF, hp, hr, h5], h6, .cons h4 h7⟩
        cases ok with
        | true => exact good _ h1 rfl
        | false =>
          rcases array_step_fail z op a h hp with hf | ⟨b', hf, hb'⟩
          · obtain ⟨c, done, h5, h6, h7⟩ := ih a h
            exact ⟨c, done, by simp [runF, hp, hf, h5], h6, h7⟩
          · rw [h1] at hb'
            cases hb'
            exact good _ hf rfl
      · obtain ⟨c, done, h5, h6, h7⟩ := ih a h
        exact ⟨c, done, by simp [runF, hp, h5], h6, h7⟩
  simp [initReserve] at h₀
  subst h₀
  obtain ⟨a, done, h1, h2, h3⟩ := key hist ⟨0, List.replicate cap z⟩ (by simp [Inv])
  exact ⟨a, done, h1, h2, by simpa [Arr.toList] using h3⟩

/-- One failing call returns false only if its allocation failed, and then changes neither elements nor capacity. -/
theorem C02_single_call (z : α) (op : Op α) (ok : Bool) (a a' : Arr α) (h : a.count ≤ a.capacity)
    (hp : AllowedF op a.count) (hs : step z op ok a = .ok (a', false)) : ok = false ∧ a' = a := by
  cases ok with
  | true =>
    have hp' : Allowed op a.count := by cases op <;> first | exact hp | trivial
    obtain ⟨b, h1, -⟩ := array_step_refines z op a h hp'
    rw [h1] at hs; simp at hs
  | false =>
    rcases array_step_fail z op a h hp with hf | ⟨b', hf, hb'⟩
    · rw [hf] at hs; simp at hs; exact ⟨rfl, hs.symm⟩
    · rw [hf] at hs; simp at hs

/-- Non-vacuity of C02: in this history the second and fourth calls fail for lack of memory. -/
example : ∃ a, runF (z := 0) [(.appendv [1, 2], true), (.appendv [3, 4], false), (.append 5, true), (.reserve 100, false)]
    (⟨0, [0, 0, 0]⟩ : Arr Nat) = .ok (a, [.appendv [1, 2], .append 5]) ∧ a.toList = [1, 2, 5] :=
  ⟨_, rfl, rfl⟩

/-- Deviation: `set_capacity` to fewer than `count` elements drops elements even when it reports failure
(array.h:118 runs before the allocation of line 120). -/
theorem C02_set_capacity_failure_truncates :
    ∃ (a a' : Arr Nat), a.count ≤ a.capacity ∧ step 0 (.setCapacity 1) false a = .ok (a', false) ∧ a'.toList ≠ a.toList :=
  ⟨⟨2, [7, 8]⟩, ⟨1, [7, 8]⟩, by decide, rfl, by decide⟩

/-- Deviation: `zpl_array_append_at` past the end stores through the unclamped index (array.h:152 against 162), so it
either writes outside the block or loses the item and duplicates the last element. -/
theorem C01_append_at_past_end :
    (step 0 (.appendAt 9 3) true (⟨1, [5, 0]⟩ : Arr Nat) = .error .oob) ∧
    (∃ a, step 0 (.appendAt 9 3) true (⟨1, [5, 0, 0, 0]⟩ : Arr Nat) = .ok (a, true) ∧ a.toList = [5, 5]) :=
  ⟨rfl, _, rfl, rfl⟩

end Zpl.Arr
