import Verif.Basic

/-!
# `zpl_sort` (code/source/core/sort.c:58-112)  -  C33, C34

## Model

The array is a list of cells, one per element of `size` bytes; pointers are cell indices (`(ptr - base_) / size`).  Every access
outside the array is the fault `oob`.  Overrunning the internal stack of 64 pointers (32 frames) is the fault `ub`. -/

namespace Zpl.Sort

variable {α : Type _}

/-- `zpl_memswap(i, j, size)` on two elements (its byte level behaviour is C12). -/
def swp (xs : List α) (i j : Nat) : Except Fault (List α) := do
  let a ← rd xs i
  let b ← rd xs j
  let xs ← wr xs i b
  wr xs j a

/-- `cmp(i, j)` -/
def cmpAt (cmp : α → α → Int) (xs : List α) (i j : Nat) : Except Fault Int := do
  let a ← rd xs i
  let b ← rd xs j
  .ok (cmp a b)

/-- sort.c:75-77, `if (cmp(i, j) > 0) zpl_memswap(i, j, size)`. -/
def cmpSwp (cmp : α → α → Int) (xs : List α) (i j : Nat) : Except Fault (List α) := do
  let c ← cmpAt cmp xs i j
  if c > 0 then swp xs i j else .ok xs

/-- sort.c:80-82, `do i += size; while (cmp(i, base) < 0);` -/
def scanUp (cmp : α → α → Int) (xs : List α) (base i : Nat) : Except Fault Nat :=
  if i + 1 < xs.length then do
    let c ← cmpAt cmp xs (i + 1) base
    if c < 0 then scanUp cmp xs base (i + 1) else .ok (i + 1)
  else .error .oob
termination_by xs.length - i

/-- sort.c:83-85, `do j -= size; while (cmp(j, base) > 0);` -/
def scanDown (cmp : α → α → Int) (xs : List α) (base : Nat) : Nat → Except Fault Nat
  | 0 => .error .oob
  | j + 1 => do
    let c ← cmpAt cmp xs j base
    if c > 0 then scanDown cmp xs base j else .ok j

/-- sort.c:79-88, the partition loop; `fuel` bounds the iterations (running out is the fault `diverge`). -/
def partLoop (cmp : α → α → Int) (base : Nat) : Nat → List α → Nat → Nat → Except Fault (List α × Nat × Nat)
  | 0, _, _, _ => .error .diverge
  | fuel + 1, xs, i, j => do
    let i ← scanUp cmp xs base i
    let j ← scanDown cmp xs base j
    if i > j then .ok (xs, i, j)
    else do
      let xs ← swp xs i j
      partLoop cmp base fuel xs i j

/-- sort.c:71-90: choose the pivot, partition, put the pivot between the parts.  Returns the array and `i`, `j`. -/
def partition (cmp : α → α → Int) (xs : List α) (base limit : Nat) : Except Fault (List α × Nat × Nat) := do
  let i := base + 1
  let j := limit - 1
  let xs ← swp xs ((limit - base) / 2 + base) base
  let xs ← cmpSwp cmp xs i j
  let xs ← cmpSwp cmp xs base j
  let xs ← cmpSwp cmp xs i base
  let (xs, i, j) ← partLoop cmp base (xs.length + 1) xs i j
  let xs ← swp xs base j
  .ok (xs, i, j)

/-- sort.c:102-105, the inner loop of the insertion sort: `for (; cmp(j, j + size) > 0; j -= size)`. -/
def sink (cmp : α → α → Int) (base j : Nat) (xs : List α) : Except Fault (List α) := do
  let c ← cmpAt cmp xs j (j + 1)
  if c > 0 then do
    let xs ← swp xs j (j + 1)
    if j = base then .ok xs
    else if _h : j = 0 then .error .oob
    else sink cmp base (j - 1) xs
  else .ok xs
termination_by j

/-- sort.c:101-106, with `i = j + 1`. -/
def insertion (cmp : α → α → Int) (base limit : Nat) (j : Nat) (xs : List α) : Except Fault (List α) :=
  if j + 1 < limit then do
    let xs ← sink cmp base j xs
    insertion cmp base limit (j + 1) xs
  else .ok xs
termination_by limit - j

/-- The variables of the main loop; `stack` has the newest frame first. -/
structure State (α : Type _) where
  xs : List α
  base : Nat
  limit : Nat
  stack : List (Nat × Nat)

/-- sort.c:44-49 `ZPL__SORT_PUSH`: 64 pointers, two per frame. -/
def push (stack : List (Nat × Nat)) (b l : Nat) : Except Fault (List (Nat × Nat)) :=
  if stack.length < 32 then .ok ((b, l) :: stack) else .error .ub

/-- sort.c:92-98 -/
def split (s : State α) (xs : List α) (i j : Nat) : Except Fault (State α) :=
  if (j : Int) - s.base > (s.limit : Int) - i then do
    let stack ← push s.stack s.base j
    .ok { xs := xs, base := i, limit := s.limit, stack := stack }
  else do
    let stack ← push s.stack i s.limit
    .ok { xs := xs, base := s.base, limit := j, stack := stack }

/-- One iteration of the main loop, sort.c:69-110; `.inr` is the exit on line 108. -/
def iter (cmp : α → α → Int) (s : State α) : Except Fault (State α ⊕ List α) :=
  if s.limit - s.base > 8 then do
    let (xs, i, j) ← partition cmp s.xs s.base s.limit
    let s ← split s xs i j
    .ok (.inl s)
  else do
    let xs ← insertion cmp s.base s.limit s.base s.xs
    match s.stack with
    | [] => .ok (.inr xs)
    | (b, l) :: stack => .ok (.inl { xs := xs, base := b, limit := l, stack := stack })

/-- sort.c:68-111; `fuel` bounds the iterations. -/
def loop (cmp : α → α → Int) : Nat → State α → Except Fault (List α)
  | 0, _ => .error .diverge
  | fuel + 1, s => do
    match ← iter cmp s with
    | .inl s => loop cmp fuel s
    | .inr xs => .ok xs

/-- sort.c:58-112 `zpl_sort`. -/
def sort (cmp : α → α → Int) (xs : List α) : Except Fault (List α) :=
  loop cmp (2 * xs.length + 2) { xs := xs, base := 0, limit := xs.length, stack := [] }

/-! ## Specification -/

/-- A comparison function that is a total preorder. -/
structure Consistent (cmp : α → α → Int) : Prop where
  /-- swapping the arguments flips the sign -/
  anti : ∀ a b, 0 < cmp a b ↔ cmp b a < 0
  trans : ∀ a b c, cmp a b ≤ 0 → cmp b c ≤ 0 → cmp a c ≤ 0

/-- Every element compares less or equal to every later one. -/
def Sorted (cmp : α → α → Int) (xs : List α) : Prop := xs.Pairwise (fun a b => cmp a b ≤ 0)

/-! ## Lemmas -/

/-- `ys` is `xs` with the cells of `[b, l)` rearranged. -/
structure PermIn (b l : Nat) (xs ys : List α) : Prop where
  perm : ys.Perm xs
  out : ∀ k, k < b ∨ l ≤ k → ys[k]? = xs[k]?
  inn : ∀ k, b ≤ k → k < l → ∃ k', b ≤ k' ∧ k' < l ∧ ys[k]? = xs[k']?

theorem PermIn.refl (b l : Nat) (xs : List α) : PermIn b l xs xs :=
  ⟨.refl _, fun _ _ => rfl, fun k h1 h2 => ⟨k, h1, h2, rfl⟩⟩

theorem PermIn.trans {b l : Nat} {xs ys zs : List α} (h1 : PermIn b l xs ys) (h2 : PermIn b l ys zs) : PermIn b l xs zs := by
  refine ⟨h2.perm.trans h1.perm, fun k hk => (h2.out k hk).trans (h1.out k hk), fun k hb hl => ?_⟩
  obtain ⟨k1, h11, h12, h13⟩ := h2.inn k hb hl
  obtain ⟨k2, h21, h22, h23⟩ := h1.inn k1 h11 h12
  exact ⟨k2, h21, h22, h13.trans h23⟩

theorem PermIn.length {b l : Nat} {xs ys : List α} (h : PermIn b l xs ys) : ys.length = xs.length := h.perm.length_eq

theorem swp_spec {xs : List α} {b l p q : Nat} (hp : b ≤ p) (hp' : p < l) (hq : b ≤ q) (hq' : q < l) (hl : l ≤ xs.length) :
    ∃ ys, swp xs p q = .ok ys ∧ PermIn b l xs ys ∧ ys[p]? = xs[q]? ∧ ys[q]? = xs[p]? ∧
      ∀ k, k ≠ p → k ≠ q → ys[k]? = xs[k]? := by
  have h1 : p < xs.length := by omega
  have h2 : q < xs.length := by omega
  have key : ∀ k, ((xs.set p xs[q]).set q xs[p])[k]? = if k = q then xs[p]? else if k = p then xs[q]? else xs[k]? := by
    intro k
    rw [List.getElem?_set, List.getElem?_set, List.length_set]
    by_cases e1 : q = k
    · subst e1; simp [h2, h1]
    · by_cases e2 : p = k
      · subst e2; simp [e1, h1, h2, Ne.symm e1]
      · simp [e1, e2, Ne.symm e1, Ne.symm e2]
  refine ⟨(xs.set p xs[q]).set q xs[p], ?_, ⟨List.set_set_perm h1 h2, ?_, ?_⟩, ?_, ?_, ?_⟩
  · simp [swp, rd_ok, wr_ok, h1, h2]
  · intro k hk; rw [key, if_neg (by omega), if_neg (by omega)]
  · intro k hb hl'
    rw [key]
    split
    · exact ⟨p, hp, hp', rfl⟩
    · split
      · exact ⟨q, hq, hq', rfl⟩
      · exact ⟨k, hb, hl', rfl⟩
  · rw [key]; split
    · next h => rw [h]
    · rw [if_pos rfl]
  · rw [key, if_pos rfl]
  · intro k h1 h2; rw [key, if_neg h2, if_neg h1]

/-- Cells `p` and `q` are in order (vacuous outside the array). -/
def Le (cmp : α → α → Int) (xs : List α) (p q : Nat) : Prop :=
  ∀ a b, xs[p]? = some a → xs[q]? = some b → cmp a b ≤ 0

theorem cmpAt_ok {cmp : α → α → Int} {xs : List α} {i j : Nat} (hi : i < xs.length) (hj : j < xs.length) :
    cmpAt cmp xs i j = .ok (cmp xs[i] xs[j]) := by simp [cmpAt, rd_ok, hi, hj]

theorem Le.of {cmp : α → α → Int} {xs : List α} {i j : Nat} (hi : i < xs.length) (hj : j < xs.length) :
    Le cmp xs i j ↔ cmp xs[i] xs[j] ≤ 0 := by
  constructor
  · intro h; exact h _ _ (by simp [hi]) (by simp [hj])
  · intro h a b ha hb
    rw [List.getElem?_eq_getElem hi] at ha; rw [List.getElem?_eq_getElem hj] at hb
    cases ha; cases hb; exact h

theorem Le.trans {cmp : α → α → Int} (hc : Consistent cmp) {xs : List α} {i j k : Nat} (hj : j < xs.length)
    (h1 : Le cmp xs i j) (h2 : Le cmp xs j k) : Le cmp xs i k := by
  intro a b ha hb
  have hj' : xs[j]? = some xs[j] := List.getElem?_eq_getElem hj
  exact hc.trans _ _ _ (h1 _ _ ha hj') (h2 _ _ hj' hb)

theorem Le.congr {cmp : α → α → Int} {xs ys : List α} {p q p' q' : Nat} (h1 : ys[p]? = xs[p']?) (h2 : ys[q]? = xs[q']?) :
    Le cmp ys p q ↔ Le cmp xs p' q' := by unfold Le; rw [h1, h2]

theorem Consistent.refl {cmp : α → α → Int} (hc : Consistent cmp) (a : α) : cmp a a ≤ 0 := by
  have := hc.anti a a; omega

theorem Consistent.le_of_not {cmp : α → α → Int} (hc : Consistent cmp) {a b : α} (h : ¬ cmp a b < 0) : cmp b a ≤ 0 := by
  have := hc.anti b a; omega

theorem cmpSwp_spec {cmp : α → α → Int} (hc : Consistent cmp) {xs : List α} {b l p q : Nat} (hp : b ≤ p) (hp' : p < l) (hq : b ≤ q)
    (hq' : q < l) (hl : l ≤ xs.length) :
    ∃ ys, cmpSwp cmp xs p q = .ok ys ∧ PermIn b l xs ys ∧ Le cmp ys p q ∧ (∀ k, k ≠ p → k ≠ q → ys[k]? = xs[k]?) ∧
      ((ys[p]? = xs[p]? ∧ ys[q]? = xs[q]? ∧ Le cmp xs p q) ∨ (ys[p]? = xs[q]? ∧ ys[q]? = xs[p]? ∧ Le cmp xs q p)) := by
  have h1 : p < xs.length := by omega
  have h2 : q < xs.length := by omega
  unfold cmpSwp
  rw [cmpAt_ok h1 h2, except_ok_bind]
  by_cases h : cmp xs[p] xs[q] > 0
  · rw [if_pos h]
    obtain ⟨ys, e, hpi, hyp, hyq, ho⟩ := swp_spec hp hp' hq hq' hl
    have hle : Le cmp xs q p := (Le.of h2 h1).2 (by have := hc.anti xs[p] xs[q]; omega)
    exact ⟨ys, e, hpi, (Le.congr hyp hyq).2 hle, ho, .inr ⟨hyp, hyq, hle⟩⟩
  · rw [if_neg h]
    have hle : Le cmp xs p q := (Le.of h1 h2).2 (by omega)
    exact ⟨xs, rfl, .refl _ _ _, hle, fun _ _ _ => rfl, .inl ⟨rfl, rfl, hle⟩⟩

theorem scanUp_spec {cmp : α → α → Int} (hc : Consistent cmp) {xs : List α} {base s : Nat} (hs : s < xs.length) (hb : base < xs.length)
    (hsent : Le cmp xs base s) (i : Nat) (his : i < s) :
    ∃ i', scanUp cmp xs base i = .ok i' ∧ i < i' ∧ i' ≤ s ∧ Le cmp xs base i' ∧ ∀ k, i < k → k < i' → Le cmp xs k base := by
  fun_induction scanUp cmp xs base i with
  | case1 i h ih =>
    rw [cmpAt_ok h hb, except_ok_bind]
    by_cases hlt : cmp xs[i + 1] xs[base] < 0
    · rw [if_pos hlt]
      have hne : i + 1 ≠ s := by
        intro e; subst e
        have := (Le.of hb hs).1 hsent
        have := hc.anti xs[base] xs[i + 1]; omega
      obtain ⟨i', e, h1, h2, h3, h4⟩ := ih (by omega)
      refine ⟨i', e, by omega, h2, h3, fun k hk hk' => ?_⟩
      by_cases hki : k = i + 1
      · subst hki; exact (Le.of h hb).2 (by omega)
      · exact h4 k (by omega) hk'
    · rw [if_neg hlt]
      exact ⟨i + 1, rfl, by omega, by omega, (Le.of hb h).2 (hc.le_of_not hlt), fun k h1 h2 => by omega⟩
  | case2 i h => omega

theorem scanDown_spec {cmp : α → α → Int} (hc : Consistent cmp) {xs : List α} {base s : Nat} (hb : base < xs.length)
    (hsent : Le cmp xs s base) (j : Nat) (hj : j ≤ xs.length) (hjs : s < j) :
    ∃ j', scanDown cmp xs base j = .ok j' ∧ j' < j ∧ s ≤ j' ∧ Le cmp xs j' base ∧ ∀ k, j' < k → k < j → Le cmp xs base k := by
  induction j with
  | zero => omega
  | succ j ih =>
    have h : j < xs.length := by omega
    simp only [scanDown]
    rw [cmpAt_ok h hb, except_ok_bind]
    by_cases hgt : cmp xs[j] xs[base] > 0
    · rw [if_pos hgt]
      have hne : j ≠ s := by
        intro e; subst e
        have := (Le.of h hb).1 hsent; omega
      obtain ⟨j', e, h1, h2, h3, h4⟩ := ih (by omega) (by omega)
      refine ⟨j', e, by omega, h2, h3, fun k hk hk' => ?_⟩
      by_cases hkj : k = j
      · subst hkj; exact (Le.of hb h).2 (by have := hc.anti xs[k] xs[base]; omega)
      · exact h4 k hk (by omega)
    · rw [if_neg hgt]
      exact ⟨j, rfl, by omega, by omega, (Le.of h hb).2 (by omega), fun k h1 h2 => by omega⟩

/-- What the partition loop maintains: the pivot is at `b`, the cells up to `i` are small, the cells from `j` on are big. -/
structure PInv (cmp : α → α → Int) (b l i j : Nat) (xs : List α) : Prop where
  bi : b < i
  jl : j < l
  len : l ≤ xs.length
  ij : i < j ∨ (i = j ∧ b + 1 < i ∧ j + 1 < l)
  small : ∀ k, b < k → k ≤ i → Le cmp xs k b
  big : ∀ k, j ≤ k → k < l → Le cmp xs b k

theorem partLoop_spec {cmp : α → α → Int} (hc : Consistent cmp) {b l : Nat} (fuel : Nat) :
    ∀ (xs : List α) (i j : Nat), PInv cmp b l i j xs → l < fuel + i →
    ∃ ys i' j', partLoop cmp b fuel xs i j = .ok (ys, i', j') ∧ PermIn b l xs ys ∧ b < j' ∧ j' < i' ∧ i' < l ∧
      (∀ k, b < k → k < i' → Le cmp ys k b) ∧ (∀ k, j' < k → k < l → Le cmp ys b k) := by
  induction fuel with
  | zero => intro xs i j h hf; have := h.ij; have := h.jl; omega
  | succ fuel ih =>
    intro xs i j h hf
    have bi := h.bi
    have jl := h.jl
    have len := h.len
    have ij := h.ij
    have hbl : b < xs.length := by omega
    obtain ⟨i', e1, i1, i2, i3, i4⟩ := scanUp_spec hc (s := max (i + 1) j) (by omega) hbl (h.big _ (by omega) (by omega)) i (by omega)
    obtain ⟨j', e2, j1, j2, j3, j4⟩ := scanDown_spec hc (s := min i (j - 1)) hbl (h.small _ (by omega) (by omega)) j (by omega) (by omega)
    have small : ∀ k, b < k → k < i' → Le cmp xs k b := fun k h1 h2 => by
      by_cases hk : k ≤ i
      · exact h.small k h1 hk
      · exact i4 k (by omega) h2
    have big : ∀ k, j' < k → k < l → Le cmp xs b k := fun k h1 h2 => by
      by_cases hk : j ≤ k
      · exact h.big k hk h2
      · exact j4 k h1 (by omega)
    simp only [partLoop, e1, e2, except_ok_bind]
    by_cases hij : i' > j'
    · rw [if_pos hij]
      exact ⟨xs, i', j', rfl, .refl _ _ _, by omega, hij, by omega, small, big⟩
    · rw [if_neg hij]
      obtain ⟨ys, e3, hpi, hyi, hyj, ho⟩ := swp_spec (b := b) (l := l) (p := i') (q := j') (by omega) (by omega) (by omega) (by omega) len
      have hyb : ys[b]? = xs[b]? := ho b (by omega) (by omega)
      have inv : PInv cmp b l i' j' ys := by
        refine ⟨by omega, by omega, by rw [hpi.length]; exact len, by omega, fun k h1 h2 => ?_, fun k h1 h2 => ?_⟩
        · by_cases hk : k = i'
          · subst hk; exact (Le.congr hyi hyb).2 j3
          · exact (Le.congr (ho k hk (by omega)) hyb).2 (small k h1 (by omega))
        · by_cases hk : k = j'
          · subst hk; exact (Le.congr hyb hyj).2 i3
          · exact (Le.congr hyb (ho k (by omega) hk)).2 (big k (by omega) h2)
      obtain ⟨zs, i'', j'', e4, hpi2, r⟩ := ih ys i' j' inv (by omega)
      rw [e3, except_ok_bind]
      exact ⟨zs, i'', j'', e4, hpi.trans hpi2, r⟩

theorem partition_spec {cmp : α → α → Int} (hc : Consistent cmp) {xs : List α} {b l : Nat} (hbl : 8 < l - b) (hl : l ≤ xs.length) :
    ∃ ys i j, partition cmp xs b l = .ok (ys, i, j) ∧ PermIn b l xs ys ∧ b < j ∧ j < i ∧ i < l ∧
      (∀ k, b ≤ k → k < i → Le cmp ys k j) ∧ (∀ k, j ≤ k → k < l → Le cmp ys j k) := by
  obtain ⟨x1, e1, p1, -⟩ := swp_spec (xs := xs) (b := b) (l := l) (p := (l - b) / 2 + b) (q := b) (by omega) (by omega) (by omega) (by omega) hl
  have l1 := p1.length
  obtain ⟨x2, e2, p2, le2, o2, -⟩ := cmpSwp_spec hc (xs := x1) (b := b) (l := l) (p := b + 1) (q := l - 1) (by omega) (by omega) (by omega) (by omega) (by omega)
  have l2 := p2.length
  obtain ⟨x3, e3, p3, le3, o3, c3⟩ := cmpSwp_spec hc (xs := x2) (b := b) (l := l) (p := b) (q := l - 1) (by omega) (by omega) (by omega) (by omega) (by omega)
  have l3 := p3.length
  have o31 := o3 (b + 1) (by omega) (by omega)
  have le31 : Le cmp x3 (b + 1) (l - 1) := by
    rcases c3 with ⟨_, h, _⟩ | ⟨_, h, h'⟩
    · exact (Le.congr o31 h).2 le2
    · exact (Le.congr o31 h).2 (Le.trans hc (by omega) le2 h')
  obtain ⟨x4, e4, p4, le4, o4, c4⟩ := cmpSwp_spec hc (xs := x3) (b := b) (l := l) (p := b + 1) (q := b) (by omega) (by omega) (by omega) (by omega) (by omega)
  have l4 := p4.length
  have o4l := o4 (l - 1) (by omega) (by omega)
  have le4l : Le cmp x4 b (l - 1) := by
    rcases c4 with ⟨_, h, _⟩ | ⟨_, h, h'⟩
    · exact (Le.congr h o4l).2 le3
    · exact (Le.congr h o4l).2 le31
  have inv : PInv cmp b l (b + 1) (l - 1) x4 := by
    refine ⟨by omega, by omega, by omega, by omega, fun k h1 h2 => ?_, fun k h1 h2 => ?_⟩
    · have : k = b + 1 := by omega
      subst this; exact le4
    · have : k = l - 1 := by omega
      subst this; exact le4l
  obtain ⟨x5, i, j, e5, p5, bj, ji, il, small, big⟩ := partLoop_spec hc (x4.length + 1) x4 _ _ inv (by omega)
  have l5 := p5.length
  obtain ⟨x6, e6, p6, s1, s2, o6⟩ := swp_spec (xs := x5) (b := b) (l := l) (p := b) (q := j) (by omega) (by omega) (by omega) (by omega) (by omega)
  have hb5 : b < x5.length := by omega
  refine ⟨x6, i, j, ?_, p1.trans (p2.trans (p3.trans (p4.trans (p5.trans p6)))), bj, ji, il, fun k h1 h2 => ?_, fun k h1 h2 => ?_⟩
  · simp only [partition, e1, e2, e3, e4, e5, e6, except_ok_bind]
  · by_cases hkj : k = j
    · subst hkj; exact (Le.congr s2 s2).2 (fun a b h1 h2 => by rw [h1] at h2; cases h2; exact hc.refl a)
    · by_cases hkb : k = b
      · subst hkb; exact (Le.congr s1 s2).2 (small j bj ji)
      · exact (Le.congr (o6 k hkb hkj) s2).2 (small k (by omega) h2)
  · by_cases hkj : k = j
    · subst hkj; exact (Le.congr s2 s2).2 (fun a b h1 h2 => by rw [h1] at h2; cases h2; exact hc.refl a)
    · exact (Le.congr s2 (o6 k (by omega) hkj)).2 (big k (by omega) h2)

/-! ### Insertion sort -/

/-- Cells `[b, h)` are in order. -/
def SortedIn (cmp : α → α → Int) (xs : List α) (b h : Nat) : Prop := ∀ p q, b ≤ p → p < q → q < h → Le cmp xs p q

theorem PermIn.mono {b l l' : Nat} {xs ys : List α} (h : PermIn b l xs ys) (hl : l ≤ l') : PermIn b l' xs ys := by
  refine ⟨h.perm, fun k hk => h.out k (by omega), fun k hb hk => ?_⟩
  by_cases hkl : k < l
  · obtain ⟨k', h1, h2, h3⟩ := h.inn k hb hkl
    exact ⟨k', h1, by omega, h3⟩
  · exact ⟨k, hb, hk, h.out k (by omega)⟩

theorem sinkStep {cmp : α → α → Int} {b h j n : Nat} {xs ys : List α} (_hb : j = b + n) (_h1 : j < xs.length)
    (hs : ∀ p q, b ≤ p → p < q → q < h → q ≠ j + 1 → Le cmp xs p q)
    (s1 : ys[j]? = xs[j + 1]?) (s2 : ys[j + 1]? = xs[j]?) (o : ∀ k, k ≠ j → k ≠ j + 1 → ys[k]? = xs[k]?) (hle : Le cmp xs (j + 1) j)
    (p q : Nat) (hp : b ≤ p) (hpq : p < q) (hq : q < h) (hne : q ≠ j) : Le cmp ys p q := by
  by_cases hq1 : q = j + 1
  · subst hq1
    by_cases hpj : p = j
    · subst hpj; exact (Le.congr s1 s2).2 hle
    · exact (Le.congr (o p hpj (by omega)) s2).2 (hs p j hp (by omega) (by omega) (by omega))
  · have oq := o q hne hq1
    by_cases hpj : p = j
    · subst hpj; exact (Le.congr s1 oq).2 (hs (p + 1) q (by omega) (by omega) hq hq1)
    · by_cases hpj1 : p = j + 1
      · subst hpj1; exact (Le.congr s2 oq).2 (hs j q (by omega) (by omega) hq hq1)
      · exact (Le.congr (o p hpj hpj1) oq).2 (hs p q hp hpq hq hq1)

theorem sinkDone {cmp : α → α → Int} (hc : Consistent cmp) {b h j : Nat} {xs : List α} (_hb : b ≤ j) (h1 : j < xs.length)
    (hs : ∀ p q, b ≤ p → p < q → q < h → q ≠ j + 1 → Le cmp xs p q) (hle : Le cmp xs j (j + 1)) : SortedIn cmp xs b h := by
  intro p q hp hpq hq
  by_cases hq1 : q = j + 1
  · subst hq1
    by_cases hpj : p = j
    · subst hpj; exact hle
    · exact Le.trans hc h1 (hs p j hp (by omega) (by omega) (by omega)) hle
  · exact hs p q hp hpq hq hq1

/-- `sink` at `j`: everything in `[b, h)` is in order except that cell `j + 1` may be too small. -/
theorem sink_spec {cmp : α → α → Int} (hc : Consistent cmp) {b h : Nat} (n : Nat) : ∀ (j : Nat) (xs : List α), j = b + n → j + 1 < h →
    h ≤ xs.length → (∀ p q, b ≤ p → p < q → q < h → q ≠ j + 1 → Le cmp xs p q) →
    ∃ ys, sink cmp b j xs = .ok ys ∧ PermIn b h xs ys ∧ SortedIn cmp ys b h := by
  induction n with
  | zero =>
    intro j xs hb hh hl hs
    have h1 : j < xs.length := by omega
    have h2 : j + 1 < xs.length := by omega
    unfold sink
    rw [cmpAt_ok h1 h2, except_ok_bind]
    by_cases hgt : cmp xs[j] xs[j + 1] > 0
    · rw [if_pos hgt]
      obtain ⟨ys, e, hpi, s1, s2, o⟩ := swp_spec (xs := xs) (b := b) (l := h) (p := j) (q := j + 1) (by omega) (by omega) (by omega) (by omega) hl
      have hle : Le cmp xs (j + 1) j := (Le.of h2 h1).2 (by have := hc.anti xs[j] xs[j + 1]; omega)
      rw [e, except_ok_bind, if_pos (by omega)]
      refine ⟨ys, rfl, hpi, fun p q hp hpq hq => ?_⟩
      exact sinkStep hb h1 hs s1 s2 o hle p q hp hpq hq (by omega)
    · rw [if_neg hgt]
      exact ⟨xs, rfl, .refl _ _ _, sinkDone hc (by omega) h1 hs ((Le.of h1 h2).2 (by omega))⟩
  | succ n ih =>
    intro j xs hb hh hl hs
    have h1 : j < xs.length := by omega
    have h2 : j + 1 < xs.length := by omega
    unfold sink
    rw [cmpAt_ok h1 h2, except_ok_bind]
    by_cases hgt : cmp xs[j] xs[j + 1] > 0
    · rw [if_pos hgt]
      obtain ⟨ys, e, hpi, s1, s2, o⟩ := swp_spec (xs := xs) (b := b) (l := h) (p := j) (q := j + 1) (by omega) (by omega) (by omega) (by omega) hl
      have hle : Le cmp xs (j + 1) j := (Le.of h2 h1).2 (by have := hc.anti xs[j] xs[j + 1]; omega)
      rw [e, except_ok_bind, if_neg (by omega), dif_neg (by omega)]
      obtain ⟨zs, e2, hpi2, hs2⟩ := ih (j - 1) ys (by omega) (by omega) (by rw [hpi.length]; exact hl)
        (fun p q hp hpq hq hne => sinkStep hb h1 hs s1 s2 o hle p q hp hpq hq (by omega))
      exact ⟨zs, e2, hpi.trans hpi2, hs2⟩
    · rw [if_neg hgt]
      exact ⟨xs, rfl, .refl _ _ _, sinkDone hc (by omega) h1 hs ((Le.of h1 h2).2 (by omega))⟩

theorem insertion_spec {cmp : α → α → Int} (hc : Consistent cmp) {b l : Nat} (j : Nat) (xs : List α) (hb : b ≤ j) (hl : l ≤ xs.length)
    (hs : SortedIn cmp xs b (j + 1)) :
    ∃ ys, insertion cmp b l j xs = .ok ys ∧ PermIn b (max l (j + 1)) xs ys ∧ SortedIn cmp ys b l := by
  fun_induction insertion cmp b l j xs with
  | case1 j xs h ih =>
    obtain ⟨ys, e, hpi, hs'⟩ := sink_spec hc (b := b) (h := j + 2) (j - b) j xs (by omega) (by omega) (by omega)
      (fun p q h1 h2 h3 h4 => hs p q h1 h2 (by omega))
    obtain ⟨zs, e2, hpi2, hs2⟩ := ih ys (by omega) (by rw [hpi.length]; exact hl) hs'
    rw [e, except_ok_bind]
    have em : max l (j + 1 + 1) = max l (j + 1) := by omega
    rw [em] at hpi2
    refine ⟨zs, e2, PermIn.trans (PermIn.mono hpi (by omega)) hpi2, hs2⟩
  | case2 j xs h =>
    exact ⟨xs, rfl, .refl _ _ _, fun p q h1 h2 h3 => hs p q h1 h2 (by omega)⟩

/-! ### Any comparison function whatsoever -/

/-- The call returns a value satisfying `P` or goes out of bounds; it does nothing else. -/
def Safe {β : Type _} (P : β → Prop) (r : Except Fault β) : Prop := (∃ v, r = .ok v ∧ P v) ∨ r = .error .oob

theorem Safe.bind {β γ : Type _} {P : β → Prop} {Q : γ → Prop} {r : Except Fault β} {f : β → Except Fault γ} (h : Safe P r)
    (hf : ∀ v, P v → Safe Q (f v)) : Safe Q (r >>= f) := by
  rcases h with ⟨v, rfl, hv⟩ | rfl
  · exact hf v hv
  · exact .inr rfl

theorem Safe.ok {β : Type _} {P : β → Prop} {v : β} (h : P v) : Safe P (.ok v) := .inl ⟨v, rfl, h⟩

theorem Safe.oob {β : Type _} {P : β → Prop} : Safe P (.error .oob : Except Fault β) := .inr rfl

theorem rd_oob {xs : List α} {i : Nat} (h : ¬ i < xs.length) : rd xs i = .error .oob := by
  simp [rd, List.getElem?_eq_none (Nat.le_of_not_lt h)]

theorem swp_safe (xs : List α) (i j : Nat) : Safe (fun ys => ys.Perm xs) (swp xs i j) := by
  by_cases hi : i < xs.length
  · by_cases hj : j < xs.length
    · simp only [swp, rd_ok hi, rd_ok hj, except_ok_bind, wr_ok hi]
      rw [wr_ok (by simpa using hj)]
      exact .ok (List.set_set_perm hi hj)
    · right; simp [swp, rd_ok hi, rd_oob hj]
  · right; simp [swp, rd, List.getElem?_eq_none (Nat.le_of_not_lt hi)]

theorem cmpAt_safe (cmp : α → α → Int) (xs : List α) (i j : Nat) : Safe (fun _ => i < xs.length ∧ j < xs.length) (cmpAt cmp xs i j) := by
  by_cases hi : i < xs.length
  · by_cases hj : j < xs.length
    · rw [cmpAt_ok hi hj]; exact .ok ⟨hi, hj⟩
    · right; simp [cmpAt, rd_ok hi, rd_oob hj]
  · right; simp [cmpAt, rd, List.getElem?_eq_none (Nat.le_of_not_lt hi)]

theorem cmpSwp_safe (cmp : α → α → Int) (xs : List α) (i j : Nat) : Safe (fun ys => ys.Perm xs) (cmpSwp cmp xs i j) := by
  refine (cmpAt_safe cmp xs i j).bind fun c _ => ?_
  split
  · exact swp_safe _ _ _
  · exact .ok (.refl _)

theorem scanUp_safe (cmp : α → α → Int) (xs : List α) (base i : Nat) :
    Safe (fun i' => i < i' ∧ i' < xs.length) (scanUp cmp xs base i) := by
  fun_induction scanUp cmp xs base i with
  | case1 i h ih =>
    refine (cmpAt_safe cmp xs _ _).bind fun c _ => ?_
    split
    · rcases ih with ⟨v, e, h1, h2⟩ | e
      · rw [e]; exact .ok ⟨by omega, h2⟩
      · rw [e]; exact .oob
    · exact .ok ⟨by omega, h⟩
  | case2 i h => exact .oob

theorem scanDown_safe (cmp : α → α → Int) (xs : List α) (base j : Nat) : Safe (fun j' => j' < j) (scanDown cmp xs base j) := by
  induction j with
  | zero => exact .oob
  | succ j ih =>
    refine (cmpAt_safe cmp xs _ _).bind fun c _ => ?_
    split
    · rcases ih with ⟨v, e, h1⟩ | e
      · rw [e]; exact .ok (by omega)
      · rw [e]; exact .oob
    · exact .ok (by omega)

theorem partLoop_safe (cmp : α → α → Int) (base : Nat) (fuel : Nat) : ∀ (xs : List α) (i j : Nat), xs.length < fuel + i →
    Safe (fun (r : List α × Nat × Nat) => r.1.Perm xs ∧ i < r.2.1 ∧ r.2.2 < j ∧ r.2.2 < r.2.1) (partLoop cmp base fuel xs i j) ∨ xs.length ≤ i := by
  induction fuel with
  | zero => intro xs i j h; right; omega
  | succ fuel ih =>
    intro xs i j h
    by_cases hi : xs.length ≤ i
    · exact .inr hi
    left
    refine (scanUp_safe cmp xs base i).bind fun i' ⟨h1, h1'⟩ => ?_
    refine (scanDown_safe cmp xs base j).bind fun j' h2 => ?_
    split
    · next hgt => exact .ok ⟨.refl _, h1, h2, hgt⟩
    · refine (swp_safe xs i' j').bind fun ys hp => ?_
      rcases ih ys i' j' (by rw [hp.length_eq]; omega) with (⟨⟨zs, i2, j2⟩, e, q1, q2, q3, q4⟩ | e) | e
      · rw [e]; exact .ok ⟨q1.trans hp, by omega, by omega, q4⟩
      · rw [e]; exact .oob
      · rw [hp.length_eq] at e; omega

theorem partition_safe (cmp : α → α → Int) (xs : List α) (b l : Nat) (hbl : 8 < l - b) :
    Safe (fun (r : List α × Nat × Nat) => r.1.Perm xs ∧ b + 1 < r.2.1 ∧ r.2.2 + 1 < l ∧ r.2.2 < r.2.1) (partition cmp xs b l) := by
  unfold partition
  refine (swp_safe xs _ _).bind fun x1 p1 => ?_
  refine (cmpSwp_safe cmp x1 _ _).bind fun x2 p2 => ?_
  refine (cmpSwp_safe cmp x2 _ _).bind fun x3 p3 => ?_
  rcases hx : cmpSwp_safe cmp x3 (b + 1) b with ⟨x4, e4, p4⟩ | e4
  · rw [e4, except_ok_bind]
    have hb : b + 1 < x4.length := by
      apply Classical.byContradiction
      intro hn
      rw [p4.length_eq] at hn
      simp [cmpSwp, cmpAt, rd, List.getElem?_eq_none (Nat.le_of_not_lt hn)] at e4
    rcases partLoop_safe cmp b (x4.length + 1) x4 (b + 1) (l - 1) (by omega) with h | h
    · refine h.bind fun ⟨x5, i, j⟩ ⟨q1, q2, q3, q4⟩ => ?_
      refine (swp_safe x5 _ _).bind fun x6 p6 => ?_
      exact .ok ⟨p6.trans (q1.trans (p4.trans (p3.trans (p2.trans p1)))), q2, by dsimp only at q3 ⊢; omega, q4⟩
    · omega
  · rw [e4]; exact .oob

theorem sink_safe (cmp : α → α → Int) (b j : Nat) (xs : List α) : Safe (fun ys => ys.Perm xs) (sink cmp b j xs) := by
  induction j generalizing xs with
  | zero =>
    unfold sink
    refine (cmpAt_safe cmp xs _ _).bind fun c _ => ?_
    split
    · refine (swp_safe xs _ _).bind fun ys p => ?_
      split
      · exact .ok p
      · exact .oob
    · exact .ok (.refl _)
  | succ j ih =>
    unfold sink
    refine (cmpAt_safe cmp xs _ _).bind fun c _ => ?_
    split
    · refine (swp_safe xs _ _).bind fun ys p => ?_
      split
      · exact .ok p
      · rw [dif_neg (by omega)]
        rcases ih ys with ⟨zs, e, p2⟩ | e
        · simp only [Nat.add_sub_cancel]; rw [e]; exact .ok (p2.trans p)
        · simp only [Nat.add_sub_cancel]; rw [e]; exact .oob
    · exact .ok (.refl _)

theorem insertion_safe (cmp : α → α → Int) (b l j : Nat) (xs : List α) : Safe (fun ys => ys.Perm xs) (insertion cmp b l j xs) := by
  fun_induction insertion cmp b l j xs with
  | case1 j xs h ih =>
    refine (sink_safe cmp b j xs).bind fun ys p => ?_
    rcases ih ys with ⟨zs, e, p2⟩ | e
    · rw [e]; exact .ok (p2.trans p)
    · rw [e]; exact .oob
  | case2 j xs h => exact .ok (.refl _)

/-- The frame at depth `d` covers at most `N / 2^d` elements. -/
def StackOk (N : Nat) : List (Nat × Nat) → Prop
  | [] => True
  | (b, l) :: st => (l - b) * 2 ^ st.length ≤ N ∧ StackOk N st

def State.pending (s : State α) : List (Nat × Nat) := (s.base, s.limit) :: s.stack

/-- Bounds the number of iterations still to come. -/
def weight : List (Nat × Nat) → Nat
  | [] => 0
  | (b, l) :: st => 2 * (l - b) + 1 + weight st

theorem push_ok {N : Nat} (hN : N ≤ 2 ^ 35) {s : State α} (h : StackOk N s.pending) (hbl : 8 < s.limit - s.base) (b l : Nat) :
    push s.stack b l = .ok ((b, l) :: s.stack) := by
  have h1 : (s.limit - s.base) * 2 ^ s.stack.length ≤ N := h.1
  have : s.stack.length < 32 := by
    apply Classical.byContradiction
    intro hn
    have h2 : 2 ^ 32 ≤ 2 ^ s.stack.length := Nat.pow_le_pow_right (by omega) (by omega)
    have h3 : 9 * 2 ^ s.stack.length ≤ (s.limit - s.base) * 2 ^ s.stack.length := Nat.mul_le_mul_right _ hbl
    omega
  rw [push, if_pos this]

theorem split_ok {N : Nat} (hN : N ≤ 2 ^ 35) {s : State α} (h : StackOk N s.pending) (hbl : 8 < s.limit - s.base) (xs : List α) {i j : Nat}
    (hi : s.base < i) (hj : j < s.limit) (hij : j < i) :
    ∃ s', split s xs i j = .ok s' ∧ s'.xs = xs ∧ StackOk N s'.pending ∧ weight s'.pending < weight s.pending ∧
      (s'.pending = (i, s.limit) :: (s.base, j) :: s.stack ∨ s'.pending = (s.base, j) :: (i, s.limit) :: s.stack) := by
  obtain ⟨h1, h2⟩ := h
  unfold split
  have key : ∀ d, 2 * d ≤ s.limit - s.base → d * 2 ^ (s.stack.length + 1) ≤ N := by
    intro d hd
    rw [Nat.pow_succ, Nat.mul_comm _ 2, ← Nat.mul_assoc, Nat.mul_comm d 2]
    exact Nat.le_trans (Nat.mul_le_mul_right _ hd) h1
  have key2 : ∀ d, d ≤ s.limit - s.base → d * 2 ^ s.stack.length ≤ N := fun d hd =>
    Nat.le_trans (Nat.mul_le_mul_right _ hd) h1
  split
  · next hc =>
    rw [push_ok hN ⟨h1, h2⟩ hbl, except_ok_bind]
    exact ⟨_, rfl, rfl, ⟨key _ (by dsimp only; omega), key2 _ (by omega), h2⟩, by simp only [State.pending, weight]; omega, .inl rfl⟩
  · next hc =>
    rw [push_ok hN ⟨h1, h2⟩ hbl, except_ok_bind]
    exact ⟨_, rfl, rfl, ⟨key _ (by dsimp only; omega), key2 _ (by omega), h2⟩, by simp only [State.pending, weight]; omega, .inr rfl⟩

theorem loop_safe {N : Nat} (hN : N ≤ 2 ^ 35) (cmp : α → α → Int) (fuel : Nat) : ∀ s : State α, StackOk N s.pending → weight s.pending ≤ fuel →
    Safe (fun ys => ys.Perm s.xs) (loop cmp fuel s) := by
  induction fuel with
  | zero => intro s _ hw; simp [State.pending, weight] at hw
  | succ fuel ih =>
    intro s hs hw
    unfold loop iter
    split
    · next hbl =>
      rcases partition_safe cmp s.xs s.base s.limit hbl with ⟨⟨xs, i, j⟩, e, p, q1, q2, q3⟩ | e
      · dsimp only at q1 q2 q3
        obtain ⟨s', e', hx, h1, h2, -⟩ := split_ok hN hs hbl xs (i := i) (j := j) (by omega) (by omega) q3
        simp only [e, e', except_ok_bind]
        have := ih s' h1 (by omega)
        rw [hx] at this
        rcases this with ⟨ys, e, p'⟩ | e
        · rw [e]; exact .ok (p'.trans p)
        · rw [e]; exact .oob
      · rw [e]; exact .oob
    · rcases insertion_safe cmp s.base s.limit s.base s.xs with ⟨xs, e, p⟩ | e
      · rw [e, except_ok_bind]
        cases hst : s.stack with
        | nil => exact .ok p
        | cons r st =>
          obtain ⟨b, l⟩ := r
          simp only [except_ok_bind]
          simp only [State.pending, hst] at hs hw
          have := ih { xs := xs, base := b, limit := l, stack := st } hs.2 (by
            simp only [State.pending, weight] at hw ⊢; omega)
          rcases this with ⟨ys, e, p'⟩ | e
          · rw [e]; exact .ok (p'.trans p)
          · rw [e]; exact .oob
      · rw [e]; exact .oob

/-! ### A consistent comparison function -/

/-- The two ranges have no cell in common. -/
def Apart (r r' : Nat × Nat) : Prop := r.2 ≤ r'.1 ∨ r'.2 ≤ r.1

structure Inv (cmp : α → α → Int) (xs : List α) (pend : List (Nat × Nat)) : Prop where
  bound : ∀ r ∈ pend, r.2 ≤ xs.length
  apart : pend.Pairwise Apart
  order : ∀ p q, p < q → q < xs.length → (∃ r ∈ pend, r.1 ≤ p ∧ q < r.2) ∨ Le cmp xs p q

/-- Rearranging one pending range and replacing it by ranges inside of it. -/
theorem Inv.refine {cmp : α → α → Int} {xs ys : List α} {b l : Nat} {new st : List (Nat × Nat)} (h : Inv cmp xs ((b, l) :: st))
    (hp : PermIn b l xs ys) (hsub : ∀ r ∈ new, b ≤ r.1 ∧ r.2 ≤ l) (hap : new.Pairwise Apart)
    (hord : ∀ p q, b ≤ p → p < q → q < l → (∃ r ∈ new, r.1 ≤ p ∧ q < r.2) ∨ Le cmp ys p q) : Inv cmp ys (new ++ st) := by
  have hbl := h.bound (b, l) (by simp)
  have hap' := List.pairwise_cons.1 h.apart
  refine ⟨fun r hr => ?_, ?_, fun p q hpq hq => ?_⟩
  · rw [hp.length]
    rcases List.mem_append.1 hr with hr | hr
    · exact Nat.le_trans (hsub r hr).2 hbl
    · exact h.bound r (by simp [hr])
  · rw [List.pairwise_append]
    refine ⟨hap, hap'.2, fun r hr r' hr' => ?_⟩
    have h1 := hsub r hr
    have h2 := hap'.1 r' hr'
    unfold Apart at h2 ⊢
    dsimp only at h2
    omega
  · rw [hp.length] at hq
    by_cases hin : b ≤ p ∧ q < l
    · rcases hord p q hin.1 hpq hin.2 with ⟨r, hr, h1⟩ | h1
      · exact .inl ⟨r, List.mem_append_left _ hr, h1⟩
      · exact .inr h1
    · -- at most one of the two is inside
      have gen : ∀ p' q', (b ≤ p ∧ p < l → b ≤ p' ∧ p' < l) → (¬ (b ≤ p ∧ p < l) → p' = p) →
          (b ≤ q ∧ q < l → b ≤ q' ∧ q' < l) → (¬ (b ≤ q ∧ q < l) → q' = q) → ys[p]? = xs[p']? → ys[q]? = xs[q']? →
          (∃ r ∈ new ++ st, r.1 ≤ p ∧ q < r.2) ∨ Le cmp ys p q := by
        intro p' q' a1 a2 a3 a4 e1 e2
        have hpq' : p' < q' ∧ q' < xs.length := by omega
        rcases h.order p' q' hpq'.1 hpq'.2 with ⟨r, hr, h1, h2⟩ | h1
        · rcases List.mem_cons.1 hr with rfl | hr'
          · dsimp only at h1 h2
            exfalso; omega
          · have hA := hap'.1 r hr'
            unfold Apart at hA
            dsimp only at hA
            have hp' : p' = p := a2 (by omega)
            have hq' : q' = q := a4 (by omega)
            exact .inl ⟨r, List.mem_append_right _ hr', by omega, by omega⟩
        · exact .inr ((Le.congr e1 e2).2 h1)
      by_cases hpi : b ≤ p ∧ p < l
      · obtain ⟨p', a1, a2, a3⟩ := hp.inn p hpi.1 hpi.2
        exact gen p' q (fun _ => ⟨a1, a2⟩) (fun h => absurd hpi h) (by omega) (by omega) a3 (hp.out q (by omega))
      · by_cases hqi : b ≤ q ∧ q < l
        · obtain ⟨q', a1, a2, a3⟩ := hp.inn q hqi.1 hqi.2
          exact gen p q' (by omega) (by omega) (fun _ => ⟨a1, a2⟩) (fun h => absurd hqi h) (hp.out p (by omega)) a3
        · exact gen p q (by omega) (by omega) (by omega) (by omega) (hp.out p (by omega)) (hp.out q (by omega))

theorem Inv.done {cmp : α → α → Int} {xs : List α} (h : Inv cmp xs []) : Sorted cmp xs := by
  unfold Sorted
  rw [List.pairwise_iff_getElem]
  intro p q hp hq hpq
  rcases h.order p q hpq hq with ⟨r, hr, _⟩ | h
  · simp at hr
  · exact (Le.of hp hq).1 h

/-- What can come out: a sorted array, or one of the two faults excluded by `loop_safe`. -/
theorem loop_sorts {cmp : α → α → Int} (hc : Consistent cmp) {N : Nat} (hN : N ≤ 2 ^ 35) (fuel : Nat) : ∀ s : State α, Inv cmp s.xs s.pending →
    StackOk N s.pending → weight s.pending ≤ fuel → ∃ ys, loop cmp fuel s = .ok ys ∧ Sorted cmp ys := by
  induction fuel with
  | zero => intro s _ _ hw; simp [State.pending, weight] at hw
  | succ fuel ih =>
    intro s hI hs hw
    have hl : s.limit ≤ s.xs.length := hI.bound (s.base, s.limit) (by simp [State.pending])
    unfold loop iter
    split
    · next hbl =>
      obtain ⟨ys, i, j, e, hp, bj, ji, il, small, big⟩ := partition_spec hc hbl hl
      obtain ⟨s', e', hx, h1, h2, hpend⟩ := split_ok hN hs hbl ys (i := i) (j := j) (by omega) (by omega) ji
      simp only [e, e', except_ok_bind]
      refine ih s' ?_ h1 (by omega)
      rw [hx]
      have hj : j < ys.length := by rw [hp.length]; omega
      have ord : ∀ p q, s.base ≤ p → p < q → q < s.limit → ((s.base ≤ p ∧ q < j) ∨ (i ≤ p ∧ q < s.limit)) ∨ Le cmp ys p q := by
        intro p q h1 h2 h3
        by_cases c1 : q < j
        · exact .inl (.inl ⟨h1, c1⟩)
        · by_cases c2 : i ≤ p
          · exact .inl (.inr ⟨c2, h3⟩)
          · exact .inr (Le.trans hc hj (small p h1 (by omega)) (big q (by omega) h3))
      rcases hpend with hpend | hpend
      · rw [hpend]
        refine Inv.refine (new := [(i, s.limit), (s.base, j)]) hI hp ?_ ?_ ?_
        · intro r hr; simp at hr; rcases hr with rfl | rfl <;> simp <;> omega
        · simp [Apart]; omega
        · intro p q h1 h2 h3
          rcases ord p q h1 h2 h3 with (h | h) | h
          · exact .inl ⟨(s.base, j), by simp, h⟩
          · exact .inl ⟨(i, s.limit), by simp, h⟩
          · exact .inr h
      · rw [hpend]
        refine Inv.refine (new := [(s.base, j), (i, s.limit)]) hI hp ?_ ?_ ?_
        · intro r hr; simp at hr; rcases hr with rfl | rfl <;> simp <;> omega
        · simp [Apart]; omega
        · intro p q h1 h2 h3
          rcases ord p q h1 h2 h3 with (h | h) | h
          · exact .inl ⟨(s.base, j), by simp, h⟩
          · exact .inl ⟨(i, s.limit), by simp, h⟩
          · exact .inr h
    · have hi : ∃ ys, insertion cmp s.base s.limit s.base s.xs = .ok ys ∧ Inv cmp ys s.stack := by
        by_cases hlt : s.base < s.limit
        · obtain ⟨ys, e, hp, hso⟩ := insertion_spec hc (b := s.base) (l := s.limit) s.base s.xs (Nat.le_refl _) hl
            (fun p q h1 h2 h3 => by omega)
          have em : max s.limit (s.base + 1) = s.limit := by omega
          rw [em] at hp
          refine ⟨ys, e, ?_⟩
          exact Inv.refine (new := []) hI hp (by simp) .nil (fun p q h1 h2 h3 => .inr (hso p q h1 h2 h3))
        · refine ⟨s.xs, ?_, ?_⟩
          · unfold insertion; rw [if_neg (by omega)]
          · exact Inv.refine (new := []) hI (.refl _ _ _) (by simp) .nil (fun p q h1 h2 h3 => by omega)
      obtain ⟨ys, e, hI'⟩ := hi
      rw [e, except_ok_bind]
      cases hst : s.stack with
      | nil => rw [hst] at hI'; exact ⟨ys, rfl, hI'.done⟩
      | cons r st =>
        obtain ⟨b, l⟩ := r
        rw [hst] at hI'
        simp only [except_ok_bind]
        simp only [State.pending, hst] at hs hw
        exact ih { xs := ys, base := b, limit := l, stack := st } hI' hs.2 (by simp only [State.pending, weight] at hw ⊢; omega)

/-! ## Properties -/

/-- **C33.** For every array of up to `2^35` elements and every comparison function that is a total preorder, `zpl_sort` returns without
touching anything outside the array, and leaves a sorted permutation of the elements. -/
theorem C33_sort {cmp : α → α → Int} (hc : Consistent cmp) (xs : List α) (hn : xs.length ≤ 2 ^ 35) :
    ∃ ys, sort cmp xs = .ok ys ∧ ys.Perm xs ∧ Sorted cmp ys := by
  have hs : StackOk xs.length (State.pending { xs := xs, base := 0, limit := xs.length, stack := [] }) := by
    simp [State.pending, StackOk]
  have hw : weight (State.pending { xs := xs, base := 0, limit := xs.length, stack := [] }) ≤ 2 * xs.length + 2 := by
    simp only [State.pending, weight]; omega
  obtain ⟨ys, e, hso⟩ := loop_sorts hc hn _ { xs := xs, base := 0, limit := xs.length, stack := [] }
    ⟨by simp [State.pending], by simp [State.pending], fun p q h1 h2 => .inl ⟨(0, xs.length), by simp [State.pending], by simp, h2⟩⟩ hs hw
  refine ⟨ys, e, ?_, hso⟩
  rcases loop_safe hn cmp _ { xs := xs, base := 0, limit := xs.length, stack := [] } hs hw with ⟨zs, e', p⟩ | e'
  · rw [e] at e'; cases e'; exact p
  · rw [e] at e'; cases e'

/-- **C34.** For every comparison function whatsoever (even an inconsistent one) and every array of up to `2^35 = 2^32 * 8` elements the
call never overruns its internal stack (`ub`) and never loops for ever (`diverge`): it returns a permutation of the elements, or an
inconsistent comparison drives it out of the array. -/
theorem C34_stack_bound (cmp : α → α → Int) (xs : List α) (hn : xs.length ≤ 2 ^ 35) :
    sort cmp xs ≠ .error .ub ∧ sort cmp xs ≠ .error .diverge ∧
    ((∃ ys, sort cmp xs = .ok ys ∧ ys.Perm xs) ∨ sort cmp xs = .error .oob) := by
  have h := loop_safe hn cmp (2 * xs.length + 2) { xs := xs, base := 0, limit := xs.length, stack := [] }
    (by simp [State.pending, StackOk]) (by simp only [State.pending, weight]; omega)
  change Safe _ (sort cmp xs) at h
  refine ⟨fun e => ?_, fun e => ?_, h⟩
  · rcases h with ⟨ys, e', _⟩ | e' <;> rw [e] at e' <;> cases e'
  · rcases h with ⟨ys, e', _⟩ | e' <;> rw [e] at e' <;> cases e'

/-! ## The hypotheses are met -/

/-- sort.c:6-16: the comparison functions generated for the integer types. -/
def intCmp (p q : Int) : Int := if p < q then -1 else if p > q then 1 else 0

theorem intCmp_consistent : Consistent intCmp :=
  ⟨fun a b => by unfold intCmp; split <;> split <;> (try split) <;> (try split) <;> omega,
   fun a b c => by unfold intCmp; split <;> split <;> (try split) <;> (try split) <;> (try split) <;> (try split) <;> omega⟩

example : sort intCmp [5, 3, 9, 1, 1, 8, 2, 7, 6, 4, 0, 3] = .ok [0, 1, 1, 2, 3, 3, 4, 5, 6, 7, 8, 9] := by decide +kernel

/-- An inconsistent comparison function ("always greater") does drive the scan out of the array. -/
example : sort (fun (_ _ : Nat) => -1) [1, 2, 3, 4, 5, 6, 7, 8, 9] = .error .oob := by decide +kernel

end Zpl.Sort
