import Verif.Basic

/-!
# Radix sort (code/source/core/sort.c:117-150)  -  C35

## Model

`items` and `temp` are lists of cells; the counters are natural numbers (they never exceed `count`). -/

namespace Zpl.Radix

variable {w : Nat}

/-- sort.c:127-128: byte number `k` of the value. -/
def piece (k : Nat) (x : BitVec w) : Nat := ((x >>> (8 * k)) &&& 0xff#w).toNat

/-- sort.c:126-130, the counting loop. -/
def countLoop (k : Nat) : List (BitVec w) → List Nat → Except Fault (List Nat)
  | [], offs => .ok offs
  | x :: xs, offs => do
    let c ← rd offs (piece k x)
    let offs ← wr offs (piece k x) (c + 1)
    countLoop k xs offs

/-- sort.c:132-136, counts to offsets; `i` is the loop variable, `n` the iterations left. -/
def offsetLoop : Nat → Nat → Nat → List Nat → Except Fault (List Nat)
  | 0, _, _, offs => .ok offs
  | n + 1, i, total, offs => do
    let sk ← rd offs i
    let offs ← wr offs i total
    offsetLoop n (i + 1) (total + sk) offs

/-- sort.c:138-142, the placing loop. -/
def placeLoop (k : Nat) : List (BitVec w) → List Nat → List (BitVec w) → Except Fault (List (BitVec w))
  | [], _, dest => .ok dest
  | x :: xs, offs, dest => do
    let o ← rd offs (piece k x)
    let dest ← wr dest o x
    let offs ← wr offs (piece k x) (o + 1)
    placeLoop k xs offs dest

/-- sort.c:122-142, one pass; returns the new contents of `dest`. -/
def pass (k : Nat) (source dest : List (BitVec w)) : Except Fault (List (BitVec w)) := do
  let offs ← countLoop k source (List.replicate 256 0)
  let offs ← offsetLoop 256 0 0 offs
  placeLoop k source offs dest

/-- sort.c:122-144: passes `k`, `k+1`, ... (`n` of them), swapping the two pointers after each.  Returns the blocks that
`source` and `dest` point to at the end. -/
def passes : Nat → Nat → List (BitVec w) → List (BitVec w) → Except Fault (List (BitVec w) × List (BitVec w))
  | 0, _, source, dest => .ok (source, dest)
  | n + 1, k, source, dest => do
    let dest ← pass k source dest
    passes n (k + 1) dest source

/-- sort.c:118-145: `zpl_radix_sort_u8/u16/u32/u64` for `w = 8, 16, 32, 64`: `w / 8` passes.  Returns the contents of `items` and `temp`;
after an even number of passes `source` is `items` again, after an odd number it is `temp`. -/
def radixSort (items temp : List (BitVec w)) : Except Fault (List (BitVec w) × List (BitVec w)) := do
  let (source, dest) ← passes (w / 8) 0 items temp
  if w / 8 % 2 = 0 then .ok (source, dest) else .ok (dest, source)

/-! ## Lemmas -/

/-- Cells of `offsets`, described by a function of the index. -/
def tab (n : Nat) (f : Nat → Nat) : List Nat := (List.range n).map f

theorem rd_tab {n : Nat} {f : Nat → Nat} {i : Nat} (h : i < n) : rd (tab n f) i = .ok (f i) := by
  simp [rd, tab, h]

theorem wr_tab {n : Nat} {f : Nat → Nat} {i v : Nat} (h : i < n) : wr (tab n f) i v = .ok (tab n (fun j => if j = i then v else f j)) := by
  have : i < (tab n f).length := by simp [tab, h]
  rw [wr_ok this]
  congr 1
  apply List.ext_getElem?
  intro j
  rw [List.getElem?_set]
  by_cases hj : i = j
  · subst hj; simp [tab, h]
  · simp only [hj, if_false]
    by_cases hjn : j < n
    · simp [tab, hjn, Ne.symm hj]
    · simp [tab, hjn]

theorem tab_congr {n : Nat} {f g : Nat → Nat} (h : ∀ i, i < n → f i = g i) : tab n f = tab n g := by
  unfold tab
  apply List.map_congr_left
  intro i hi
  exact h i (by simpa using hi)

theorem piece_eq (k : Nat) (x : BitVec w) (hw : 8 ≤ w) : piece k x = x.toNat / 2 ^ (8 * k) % 256 := by
  unfold piece
  rw [BitVec.toNat_and, BitVec.toNat_ushiftRight, Nat.shiftRight_eq_div_pow, BitVec.toNat_ofNat]
  have : 0xff % 2 ^ w = 2 ^ 8 - 1 := by
    rw [Nat.mod_eq_of_lt]
    have : 2 ^ 8 ≤ 2 ^ w := Nat.pow_le_pow_right (by omega) hw
    omega
  rw [this, Nat.and_two_pow_sub_one_eq_mod]

theorem piece_lt (k : Nat) (x : BitVec w) (hw : 8 ≤ w) : piece k x < 256 := by rw [piece_eq k x hw]; omega

/-- The items whose byte `k` is `d`, in order. -/
def bucket (k d : Nat) (xs : List (BitVec w)) : List (BitVec w) := xs.filter (fun x => piece k x == d)

theorem countLoop_ok (hw : 8 ≤ w) (k : Nat) (xs : List (BitVec w)) (f : Nat → Nat) :
    countLoop k xs (tab 256 f) = .ok (tab 256 (fun d => f d + (bucket k d xs).length)) := by
  induction xs generalizing f with
  | nil => simp [countLoop, bucket]
  | cons x xs ih =>
    have hp := piece_lt k x hw
    simp only [countLoop, rd_tab hp, wr_tab hp, except_ok_bind, ih]
    congr 1
    apply tab_congr
    intro d hd
    by_cases h : d = piece k x
    · subst h; simp [bucket]; omega
    · have h' : ¬ piece k x = d := fun e => h e.symm
      simp [bucket, h, h']

theorem offsetLoop_ok (f : Nat → Nat) (n i : Nat) (h : i + n = 256) :
    offsetLoop n i (((List.range i).map f).sum) (tab 256 (fun d => if d < i then ((List.range d).map f).sum else f d)) =
      .ok (tab 256 (fun d => ((List.range d).map f).sum)) := by
  induction n generalizing i with
  | zero =>
    simp only [offsetLoop]
    congr 1
    apply tab_congr
    intro d hd
    rw [if_pos (by omega)]
  | succ n ih =>
    have hi : i < 256 := by omega
    simp only [offsetLoop, rd_tab hi, wr_tab hi, except_ok_bind]
    rw [if_neg (by omega)]
    have e := ih (i + 1) (by omega)
    have hs : ((List.range (i + 1)).map f).sum = ((List.range i).map f).sum + f i := by simp [List.range_succ]
    rw [hs] at e
    rw [← e]
    congr 1
    apply tab_congr
    intro d hd
    by_cases h1 : d = i
    · subst h1; simp
    · by_cases h2 : d < i
      · simp [h1, h2]; omega
      · have : ¬ d < i + 1 := by omega
        simp [h1, h2, this]

theorem flatMap_congr' {β γ : Type _} {l : List β} {f g : β → List γ} (h : ∀ x ∈ l, f x = g x) : l.flatMap f = l.flatMap g := by
  induction l with
  | nil => rfl
  | cons a l ih =>
    rw [List.flatMap_cons, List.flatMap_cons, h a (by simp), ih (fun x hx => h x (by simp [hx]))]

/-- `dest` while placing: bucket after bucket, each with the items placed so far followed by the cells `g d` not yet written. -/
def layout (n : Nat) (p g : Nat → List (BitVec w)) : List (BitVec w) := (List.range n).flatMap (fun d => p d ++ g d)

theorem layout_split (p g : Nat → List (BitVec w)) {d n : Nat} (hd : d < n) :
    ∃ rest : List Nat, (∀ e ∈ rest, d < e) ∧ List.range n = List.range d ++ d :: rest := by
  refine ⟨List.range' (d + 1) (n - d - 1), fun e he => by simp at he; omega, ?_⟩
  rw [List.range_eq_range', List.range_eq_range']
  have : n = d + (1 + (n - d - 1)) := by omega
  conv => lhs; rw [this, ← List.range'_append_1]
  congr 1
  rw [Nat.zero_add, Nat.add_comm 1, List.range'_succ]

theorem layout_len (p g : Nat → List (BitVec w)) (d : Nat) :
    (layout d p g).length = ((List.range d).map (fun e => (p e).length + (g e).length)).sum := by
  simp [layout, List.length_flatMap]

theorem place_one {n : Nat} {p g p' g' : Nat → List (BitVec w)} {d : Nat} {x y : BitVec w} {ys : List (BitVec w)} (hd : d < n)
    (hg : g d = y :: ys) (hp' : p' d = p d ++ [x]) (hg' : g' d = ys) (ho : ∀ e, e ≠ d → p' e = p e ∧ g' e = g e) :
    wr (layout n p g) ((layout d p g).length + (p d).length) x = .ok (layout n p' g') := by
  obtain ⟨rest, hr, e⟩ := layout_split p g hd
  have e1 : layout n p g = layout d p g ++ (p d ++ y :: ys) ++ rest.flatMap (fun e => p e ++ g e) := by
    unfold layout; rw [e]; simp [hg]
  have e2 : layout n p' g' = layout d p g ++ (p d ++ x :: ys) ++ rest.flatMap (fun e => p e ++ g e) := by
    unfold layout; rw [e]
    simp only [List.flatMap_append, List.flatMap_cons, hp', hg', List.append_assoc, List.singleton_append, List.cons_append,
      List.nil_append]
    have a1 : List.flatMap (fun d => p' d ++ g' d) (List.range d) = List.flatMap (fun d => p d ++ g d) (List.range d) := by
      apply flatMap_congr'
      intro e he
      have : e ≠ d := by simp at he; omega
      rw [(ho e this).1, (ho e this).2]
    have a2 : List.flatMap (fun d => p' d ++ g' d) rest = List.flatMap (fun d => p d ++ g d) rest := by
      apply flatMap_congr'
      intro e he
      have : e ≠ d := by have := hr e he; omega
      rw [(ho e this).1, (ho e this).2]
    rw [a1, a2]
  rw [e1, e2, wr_ok (by simp)]
  congr 1
  simp only [List.append_assoc]
  rw [List.set_append_right _ _ (by omega), Nat.add_sub_cancel_left, List.set_append_right _ _ (by omega)]
  simp

theorem placeLoop_ok (hw : 8 ≤ w) (k : Nat) (xs pre : List (BitVec w)) (g : Nat → List (BitVec w)) (f : Nat → Nat)
    (hg : ∀ d, d < 256 → (g d).length = (bucket k d xs).length)
    (hf : ∀ d, d < 256 → f d = (layout d (fun d => bucket k d pre) g).length + (bucket k d pre).length) :
    placeLoop k xs (tab 256 f) (layout 256 (fun d => bucket k d pre) g) =
      .ok (layout 256 (fun d => bucket k d (pre ++ xs)) (fun _ => [])) := by
  induction xs generalizing pre g f with
  | nil =>
    simp only [placeLoop, List.append_nil]
    congr 1
    unfold layout
    apply flatMap_congr'
    intro d hd
    have := hg d (by simpa using hd)
    simp [bucket] at this
    simp [this]
  | cons x xs ih =>
    have hp := piece_lt k x hw
    have hgx := hg _ hp
    obtain ⟨y, ys, hy⟩ : ∃ y ys, g (piece k x) = y :: ys := by
      cases h : g (piece k x) with
      | nil => rw [h] at hgx; simp [bucket] at hgx
      | cons y ys => exact ⟨y, ys, rfl⟩
    let g' : Nat → List (BitVec w) := fun d => if d = piece k x then ys else g d
    have hone := place_one (n := 256) (p := fun d => bucket k d pre) (g := g) (p' := fun d => bucket k d (pre ++ [x])) (g' := g')
      (d := piece k x) (x := x) hp hy (by simp [bucket]) (by simp [g'])
      (fun e he => ⟨by simp [bucket, Ne.symm he], by simp [g', he]⟩)
    simp only [placeLoop, rd_tab hp, except_ok_bind]
    rw [hf _ hp]
    rw [hone, except_ok_bind, wr_tab hp, except_ok_bind]
    have := ih (pre ++ [x]) g' (fun j => if j = piece k x then (layout (piece k x) (fun d => bucket k d pre) g).length + (bucket k (piece k x) pre).length + 1 else f j) ?_ ?_
    · rw [this]; simp
    · intro d hd
      have h0 := hg d hd
      by_cases h : d = piece k x
      · subst h; rw [hy] at h0; simp [bucket] at h0; simp [g', bucket, h0]
      · simp only [g', h, if_false]; rw [h0]; simp [bucket, Ne.symm h]
    · intro d hd
      have hlen : (layout d (fun d => bucket k d (pre ++ [x])) g').length = (layout d (fun d => bucket k d pre) g).length := by
        rw [layout_len, layout_len]
        congr 1
        apply List.map_congr_left
        intro e he
        by_cases h : e = piece k x
        · subst h; simp [g', hy, bucket]; omega
        · simp [g', h, bucket, Ne.symm h]
      rw [hlen]
      by_cases h : d = piece k x
      · subst h; simp [bucket]; omega
      · rw [if_neg h, hf d hd]; simp [bucket, Ne.symm h]

/-- What a pass produces. -/
def grouped (k : Nat) (xs : List (BitVec w)) : List (BitVec w) := (List.range 256).flatMap (fun d => bucket k d xs)

theorem grouped_perm_aux (k : Nat) (xs : List (BitVec w)) (n : Nat) :
    ((List.range n).flatMap (fun d => bucket k d xs)).Perm (xs.filter (fun x => decide (piece k x < n))) := by
  induction n with
  | zero => simp
  | succ n ih =>
    rw [List.range_succ, List.flatMap_append]
    refine (List.Perm.append_right _ ih).trans ?_
    have h := List.filter_append_perm (fun x => decide (piece k x < n)) (xs.filter (fun x => decide (piece k x < n + 1)))
    rw [List.filter_filter, List.filter_filter] at h
    refine List.Perm.trans (List.Perm.of_eq ?_) h
    simp only [List.flatMap_cons, List.flatMap_nil, List.append_nil, bucket]
    congr 1
    · apply List.filter_congr
      intro x _
      by_cases h1 : piece k x < n
      · have : piece k x < n + 1 := by omega
        simp [h1, this]
      · simp [h1]
    · apply List.filter_congr
      intro x _
      rw [Bool.eq_iff_iff]
      simp
      omega

theorem grouped_perm (hw : 8 ≤ w) (k : Nat) (xs : List (BitVec w)) : (grouped k xs).Perm xs := by
  refine (grouped_perm_aux k xs 256).trans (List.Perm.of_eq ?_)
  rw [List.filter_eq_self]
  intro x _
  simpa using piece_lt k x hw

/-- A block of cells cut into consecutive pieces of given lengths. -/
theorem cut (lens : Nat → Nat) (n : Nat) (dst : List (BitVec w)) (h : dst.length = ((List.range n).map lens).sum) :
    ∃ g : Nat → List (BitVec w), (∀ d, d < n → (g d).length = lens d) ∧ dst = (List.range n).flatMap g := by
  induction n generalizing dst with
  | zero =>
    refine ⟨fun _ => [], fun d hd => by omega, ?_⟩
    simp at h; simp [h]
  | succ n ih =>
    rw [List.range_succ, List.map_append, List.sum_append] at h
    simp at h
    obtain ⟨g, hg, e⟩ := ih (dst.take ((List.range n).map lens).sum) (by simp; omega)
    refine ⟨fun d => if d = n then dst.drop ((List.range n).map lens).sum else g d, fun d hd => ?_, ?_⟩
    · by_cases hdn : d = n
      · subst hdn; simp; omega
      · simp only [hdn, if_false]; exact hg d (by omega)
    · rw [List.range_succ, List.flatMap_append]
      have : List.flatMap (fun d => if d = n then dst.drop ((List.range n).map lens).sum else g d) (List.range n) = List.flatMap g (List.range n) := by
        apply flatMap_congr'
        intro d hd
        have : d ≠ n := by simp at hd; omega
        simp [this]
      rw [this, ← e]
      simp

theorem pass_ok (hw : 8 ≤ w) (k : Nat) (src dst : List (BitVec w)) (hl : dst.length = src.length) : pass k src dst = .ok (grouped k src) := by
  have e0 : List.replicate 256 0 = tab 256 (fun _ => 0) := by decide +kernel
  have hlen := (grouped_perm hw k src).length_eq
  rw [grouped, List.length_flatMap] at hlen
  obtain ⟨g, hg, e⟩ := cut (fun d => (bucket k d src).length) 256 dst (by rw [hl, hlen])
  unfold pass
  rw [e0, countLoop_ok hw, except_ok_bind]
  have h1 := offsetLoop_ok (fun d => (bucket k d src).length) 256 0 rfl
  simp only [Nat.not_lt_zero, if_false, List.range_zero, List.map_nil, List.sum_nil] at h1
  simp only [Nat.zero_add]
  rw [h1, except_ok_bind]
  have e2 : dst = layout 256 (fun d => bucket k d []) g := by rw [e]; simp [layout, bucket]
  rw [e2, placeLoop_ok hw k src [] g _ hg]
  · simp [layout, grouped]
  · intro d hd
    rw [layout_len]
    have hb : ∀ d, (bucket k d ([] : List (BitVec w))).length = 0 := fun d => by simp [bucket]
    have : (List.range d).map (fun e => (bucket k e ([] : List (BitVec w))).length + (g e).length) =
        (List.range d).map (fun d => (bucket k d src).length) := by
      apply List.map_congr_left
      intro e he
      have he' : e < d := by simpa using he
      rw [hb, hg e (by omega), Nat.zero_add]
    rw [this, hb, Nat.add_zero]

/-- Order by the lowest `k` bytes. -/
def Low (k : Nat) (x y : BitVec w) : Prop := x.toNat % 2 ^ (8 * k) ≤ y.toNat % 2 ^ (8 * k)

theorem grouped_sorted (hw : 8 ≤ w) (k : Nat) (xs : List (BitVec w)) (h : xs.Pairwise (Low k)) : (grouped k xs).Pairwise (Low (k + 1)) := by
  have key : ∀ x : BitVec w, x.toNat % 2 ^ (8 * (k + 1)) = x.toNat % 2 ^ (8 * k) + 2 ^ (8 * k) * piece k x := by
    intro x
    rw [piece_eq k x hw, show 8 * (k + 1) = 8 * k + 8 by omega, Nat.pow_add, Nat.mod_mul]
  rw [grouped, List.pairwise_flatMap]
  constructor
  · intro d _
    have h1 : (bucket k d xs).Pairwise (Low k) := h.sublist List.filter_sublist
    have h2 : ∀ x ∈ bucket k d xs, piece k x = d := by intro x hx; simpa [bucket] using (List.mem_filter.1 hx).2
    refine h1.imp_of_mem ?_
    intro x y hx hy hxy
    unfold Low at hxy ⊢
    rw [key, key, h2 x hx, h2 y hy]; omega
  · refine List.pairwise_lt_range.imp ?_
    intro d e hde x hx y hy
    have h1 : piece k x = d := by simpa [bucket] using (List.mem_filter.1 hx).2
    have h2 : piece k y = e := by simpa [bucket] using (List.mem_filter.1 hy).2
    unfold Low
    rw [key, key, h1, h2]
    have h3 : x.toNat % 2 ^ (8 * k) < 2 ^ (8 * k) := Nat.mod_lt _ (Nat.two_pow_pos _)
    have h4 : 2 ^ (8 * k) * (d + 1) ≤ 2 ^ (8 * k) * e := Nat.mul_le_mul_left _ hde
    rw [Nat.mul_add] at h4
    omega

theorem passes_ok (hw : 8 ≤ w) (n : Nat) : ∀ (k : Nat) (src dst : List (BitVec w)), dst.length = src.length → src.Pairwise (Low k) →
    ∃ r d, passes n k src dst = .ok (r, d) ∧ r.Perm src ∧ r.Pairwise (Low (k + n)) ∧ d.length = src.length := by
  induction n with
  | zero => intro k src dst hl h; exact ⟨src, dst, rfl, .refl _, h, hl⟩
  | succ n ih =>
    intro k src dst hl h
    have hp := grouped_perm hw k src
    obtain ⟨r, d, e, h1, h2, h3⟩ := ih (k + 1) (grouped k src) src hp.length_eq.symm (grouped_sorted hw k src h)
    refine ⟨r, d, ?_, h1.trans hp, ?_, h3.trans hp.length_eq⟩
    · simp only [passes, pass_ok hw k src dst hl, except_ok_bind, e]
    · rw [show k + (n + 1) = k + 1 + n by omega]; exact h2

/-! ## Properties -/

/-- A width for which the code has a radix sort with an even number of passes: `u16`, `u32`, `u64`. -/
def Width (w : Nat) : Prop := w = 16 ∨ w = 32 ∨ w = 64

/-- **C35.** `zpl_radix_sort_u16`, `_u32` and `_u64` stay inside `items`, `temp` and the counters and leave `items` a sorted permutation
of its original contents, for every array and every content of `temp`. -/
theorem C35_radix_sort (hw : Width w) (items temp : List (BitVec w)) (ht : temp.length = items.length) :
    ∃ r t, radixSort items temp = .ok (r, t) ∧ r.Perm items ∧ r.Pairwise (fun x y => x.toNat ≤ y.toNat) := by
  have h8 : 8 ≤ w := by unfold Width at hw; omega
  have hev : w / 8 % 2 = 0 := by rcases hw with rfl | rfl | rfl <;> rfl
  have hm : 8 * (w / 8) = w := by rcases hw with rfl | rfl | rfl <;> rfl
  obtain ⟨r, d, e, h1, h2, -⟩ := passes_ok h8 (w / 8) 0 items temp ht (by
    apply List.pairwise_of_forall; intro x y; simp [Low, Nat.mod_one])
  refine ⟨r, d, ?_, h1, h2.imp ?_⟩
  · simp only [radixSort, e, except_ok_bind, hev, if_true]
  · intro x y hxy
    unfold Low at hxy
    rw [Nat.zero_add, hm, Nat.mod_eq_of_lt x.isLt, Nat.mod_eq_of_lt y.isLt] at hxy
    exact hxy

/-- Deviation: `zpl_radix_sort_u8` makes a single pass, so its result ends up in `temp` and `items` keeps its original order. -/
theorem C35_u8_result_in_temp (items temp : List (BitVec 8)) (ht : temp.length = items.length) :
    ∃ r, radixSort items temp = .ok (items, r) ∧ r.Perm items ∧ r.Pairwise (fun x y => x.toNat ≤ y.toNat) := by
  refine ⟨grouped 0 items, ?_, grouped_perm (by omega) 0 items, ?_⟩
  · simp only [radixSort, passes, pass_ok (w := 8) (by omega) 0 items temp ht, except_ok_bind]
    rfl
  · refine (grouped_sorted (w := 8) (by omega) 0 items ?_).imp ?_
    · apply List.pairwise_of_forall; intro x y; simp [Low, Nat.mod_one]
    · intro x y hxy
      have hx := x.isLt
      have hy := y.isLt
      simp only [Low] at hxy
      omega

/-! ## The hypotheses are met -/

example : radixSort [700#16, 3#16, 256#16, 3#16] (List.replicate 4 0#16) = .ok ([3#16, 3#16, 256#16, 700#16], [256#16, 3#16, 3#16, 700#16]) := by
  decide +kernel

end Zpl.Radix
