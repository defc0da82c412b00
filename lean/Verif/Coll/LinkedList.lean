import Verif.Basic

/-!
# `zpl_list` (code/header/essentials/collections/list.h)  -  C09

## Model
-/

namespace Zpl.LList

/-- list.h:47-50; nodes are named by natural numbers, `none` is NULL, the user pointer `ptr` is left out. -/
structure Node where
  next : Option Nat
  prev : Option Nat
  deriving DecidableEq

/-- The memory holding the nodes. -/
abbrev Store := Nat → Node

def upd (σ : Store) (a : Nat) (n : Node) : Store := fun b => if b = a then n else σ b

/-- list.h:59-63 `zpl_list_init`. -/
def init (σ : Store) (list : Nat) : Store := upd σ list { next := none, prev := none }

/-- list.h:65-73 `zpl_list_add`, statement by statement; the old successor's `prev` is not updated. -/
def add (σ : Store) (list item : Nat) : Store :=
  let σ := upd σ item { σ item with next := none }
  let σ := if (σ list).next.isSome then upd σ item { σ item with next := (σ list).next } else σ
  let σ := upd σ list { σ list with next := some item }
  upd σ item { σ item with prev := some list }

/-- list.h:75-79 `zpl_list_remove`; the successor's `prev` is not updated.  Returns the next node. -/
def remove (σ : Store) (list : Nat) : Store × Option Nat :=
  let σ := match (σ list).prev with
    | some p => upd σ p { σ p with next := (σ list).next }
    | none => σ
  (σ, (σ list).next)

/-- The user's traversal loop `for (l = head; l; l = l->next)` (list.h:37), limited to `fuel` nodes; `none` if NULL was not
reached within the limit. -/
def walk (σ : Store) : Nat → Option Nat → Option (List Nat)
  | _, none => some []
  | 0, some _ => none
  | fuel + 1, some x => (walk σ fuel (σ x).next).map (x :: ·)

inductive Op where
  | add (list item : Nat)
  | remove (list : Nat)

def step (σ : Store) : Op → Store
  | .add l i => add σ l i
  | .remove l => (remove σ l).1

def run (σ : Store) (ops : List Op) : Store := ops.foldl step σ

/-! ## Specification: a sequence of node names, each with a flag

The flag says that the node's predecessor has not changed since the node was linked.  A node may only be removed
while its flag is set (and it is not the head): that is the part of the property that the code satisfies. -/

abbrev Seq := List (Nat × Bool)

def names (s : Seq) : List Nat := s.map Prod.fst

/-- Clear the flag of the first node. -/
def stale : Seq → Seq
  | [] => []
  | (x, _) :: s => (x, false) :: s

/-- Insert `item` directly after `list`; the node after it has a new predecessor. -/
def insertAfter (list item : Nat) : Seq → Seq
  | [] => []
  | (x, t) :: s => if x = list then (x, t) :: (item, true) :: stale s else (x, t) :: insertAfter list item s

/-- Remove node `y`; the node after it has a new predecessor. -/
def removeNode (y : Nat) : Seq → Seq
  | [] => []
  | (x, t) :: s => if x = y then stale s else (x, t) :: removeNode y s

/-- Calls that are allowed on a sequence (whose first node is the list head). -/
def Allowed (s : Seq) : Op → Prop
  | .add l i => l ∈ names s ∧ i ∉ names s
  | .remove y => (y, true) ∈ s.tail

def specStep (s : Seq) : Op → Seq
  | .add l i => insertAfter l i s
  | .remove y => removeNode y s

def AllowedHist : List Op → Seq → Prop
  | [], _ => True
  | op :: ops, s => Allowed s op ∧ AllowedHist ops (specStep s op)

/-! ## Lemmas -/

def Links (σ : Store) : Option Nat → Seq → Prop
  | _, [] => True
  | pred, (x, t) :: s => (t = true → (σ x).prev = pred) ∧ (σ x).next = (names s).head? ∧ Links σ (some x) s

theorem links_congr {σ τ : Store} : ∀ {s : Seq} {p : Option Nat}, (∀ x ∈ names s, σ x = τ x) → Links σ p s → Links τ p s
  | [], _, _, _ => trivial
  | (x, t) :: s, p, h, hl => by
    obtain ⟨h1, h2, h3⟩ := hl
    have hx := h x (by simp [names])
    exact ⟨by rw [← hx]; exact h1, by rw [← hx]; exact h2, links_congr (fun y hy => h y (by simp [names] at hy ⊢; exact Or.inr hy)) h3⟩

theorem names_stale (s : Seq) : names (stale s) = names s := by
  cases s <;> simp [stale, names]

theorem links_stale {σ : Store} {s : Seq} {p q : Option Nat} (h : Links σ p s) : Links σ q (stale s) := by
  cases s with
  | nil => trivial
  | cons a s => exact ⟨by simp, h.2.1, h.2.2⟩

theorem add_eq (σ : Store) (l i : Nat) (h : l ≠ i) (x : Nat) :
    add σ l i x = if x = i then ⟨(σ l).next, some l⟩ else if x = l then { σ l with next := some i } else σ x := by
  have h1 : ¬ (i = l) := fun e => h e.symm
  unfold add
  cases hn : (σ l).next <;> simp [upd, h, h1, hn] <;> grind

theorem names_insertAfter (l i : Nat) (s : Seq) (h : l ∈ names s) :
    ∃ a b, names s = a ++ l :: b ∧ names (insertAfter l i s) = a ++ l :: i :: b := by
  induction s with
  | nil => simp [names] at h
  | cons x s ih =>
    obtain ⟨x, t⟩ := x
    by_cases hx : x = l
    · subst hx
      refine ⟨[], names s, rfl, ?_⟩
      have := names_stale s
      simp [names] at this
      simp [insertAfter, names, this]
    · obtain ⟨a, b, h1, h2⟩ := ih (by simp [names] at h ⊢; rcases h with h | h; exact absurd h.symm hx; exact h)
      refine ⟨x :: a, b, ?_, ?_⟩
      · simp [names] at h1 ⊢; exact h1
      · simp [names] at h2
        simp [insertAfter, hx, names, h2]

theorem head_insertAfter (l i : Nat) (s : Seq) : (names (insertAfter l i s)).head? = (names s).head? := by
  cases s with
  | nil => rfl
  | cons x s => obtain ⟨x, t⟩ := x; simp only [insertAfter]; split <;> simp [names]

theorem links_insertAfter {σ : Store} {l i : Nat} : ∀ {s : Seq} {p : Option Nat}, (names s).Nodup → i ∉ names s → l ∈ names s →
    Links σ p s → Links (add σ l i) p (insertAfter l i s)
  | [], _, _, _, hl, _ => by simp [names] at hl
  | (x, t) :: s, p, hnd, hi, hl, h => by
    obtain ⟨h1, h2, h3⟩ := h
    have hli : l ≠ i := fun e => hi (e ▸ hl)
    have hxi : x ≠ i := by rintro rfl; simp [names] at hi
    have hnd' : (names s).Nodup := by simp [names] at hnd ⊢; exact hnd.2
    have hxs : x ∉ names s := by simp [names] at hnd ⊢; exact hnd.1
    have his : i ∉ names s := by simp [names] at hi ⊢; exact hi.2
    by_cases hx : x = l
    · subst hx
      simp only [insertAfter, if_true]
      have hn : names ((i, true) :: stale s) = i :: names s := by
        have := names_stale s
        simp [names] at this ⊢; exact this
      refine ⟨?_, ?_, ?_, ?_, ?_⟩
      · rw [add_eq _ _ _ hli]; simpa [hli] using h1
      · rw [add_eq _ _ _ hli, hn]; simp [hli]
      · rw [add_eq _ _ _ hli]; simp
      · rw [add_eq _ _ _ hli, names_stale]; simpa using h2
      · apply links_stale
        refine links_congr (fun y hy => ?_) h3
        rw [add_eq _ _ _ hli]
        rw [if_neg (by rintro rfl; exact his hy), if_neg (by rintro rfl; exact hxs hy)]
    · simp only [insertAfter, hx, if_false]
      have hls : l ∈ names s := by
        simp [names] at hl ⊢; rcases hl with h | h; exact absurd h.symm hx; exact h
      refine ⟨?_, ?_, ?_⟩
      · rw [add_eq _ _ _ hli]; simpa [hxi, hx] using h1
      · rw [add_eq _ _ _ hli, head_insertAfter]; simpa [hxi, hx] using h2
      · exact links_insertAfter hnd' his hls h3

theorem remove_eq (σ : Store) (y p : Nat) (h : (σ y).prev = some p) (x : Nat) :
    (remove σ y).1 x = if x = p then { σ p with next := (σ y).next } else σ x := by
  simp [remove, h, upd]

/-- Removing `y` from the tail `s` of a list whose preceding node is `w`. -/
theorem links_removeNode {σ : Store} {y : Nat} : ∀ {s : Seq} {w : Nat}, (w :: names s).Nodup → (y, true) ∈ s →
    Links σ (some w) s → ∃ p, (σ y).prev = some p ∧ (p = w ∨ p ∈ names s) ∧
      (w ≠ p → (names (removeNode y s)).head? = (names s).head?) ∧
      (w = p → (names (removeNode y s)).head? = (σ y).next) ∧
      Links (remove σ y).1 (some w) (removeNode y s)
  | [], _, _, hy, _ => by simp at hy
  | (x, t) :: s, w, hnd, hy, h => by
    obtain ⟨h1, h2, h3⟩ := h
    have hwx : w ≠ x := by rintro rfl; simp [names] at hnd
    have hws : w ∉ names s := by simp [names] at hnd ⊢; exact hnd.1.2
    have hxs : x ∉ names s := by simp [names] at hnd ⊢; exact hnd.2.1
    have hnd' : (x :: names s).Nodup := by simp [names] at hnd ⊢; exact hnd.2
    by_cases hx : x = y
    · subst hx
      have ht : t = true := by
        simp at hy
        rcases hy with h | h
        · exact h
        · exact absurd (List.mem_map_of_mem h) hxs
      have hp := h1 ht
      refine ⟨w, hp, Or.inl rfl, fun e => absurd rfl e, fun _ => ?_, ?_⟩
      · simp [removeNode, names_stale, h2]
      · simp only [removeNode, if_true]
        apply links_stale (p := some x)
        refine links_congr (fun z hz => ?_) h3
        rw [remove_eq σ x w hp, if_neg (by rintro rfl; exact hws hz)]
    · have hys : (y, true) ∈ s := by
        simp at hy; rcases hy with h | h
        · exact absurd h.1.symm hx
        · exact h
      obtain ⟨p, hp, hpm, hne, heq, hl⟩ := links_removeNode hnd' hys h3
      have hpw : p ≠ w := by
        rcases hpm with rfl | hpm
        · exact fun e => hwx e.symm
        · rintro rfl; exact hws hpm
      refine ⟨p, hp, Or.inr ?_, fun _ => ?_, fun e => absurd e.symm hpw, ?_⟩
      · simp [names] at hpm ⊢; exact hpm
      · simp [removeNode, hx, names]
      · simp only [removeNode, hx, if_false]
        refine ⟨?_, ?_, hl⟩
        · intro ht
          rw [remove_eq σ y p hp]
          split
          · rename_i e; subst e; exact h1 ht
          · exact h1 ht
        · rw [remove_eq σ y p hp]
          split
          · rename_i e; subst e; exact (heq rfl).symm
          · rename_i e; rw [h2]; exact (hne e).symm

theorem names_removeNode (y : Nat) (s : Seq) : names (removeNode y s) = (names s).erase y := by
  induction s with
  | nil => rfl
  | cons a s ih =>
    obtain ⟨x, t⟩ := a
    simp only [removeNode]
    split
    · rename_i h; subst h; rw [names_stale]; simp [names]
    · rename_i h
      have : names ((x, t) :: removeNode y s) = x :: (names s).erase y := by rw [← ih]; rfl
      rw [this]
      simp [names, h]

theorem walk_of_links {σ : Store} : ∀ (s : Seq) (p : Option Nat) (fuel : Nat), Links σ p s → s.length ≤ fuel →
    walk σ fuel (names s).head? = some (names s)
  | [], _, fuel, _, _ => by cases fuel <;> rfl
  | (x, t) :: s, p, 0, _, hf => by simp at hf
  | (x, t) :: s, p, fuel + 1, h, hf => by
    have := walk_of_links s (some x) fuel h.2.2 (by simpa using hf)
    simp only [names, List.map_cons, List.head?_cons, walk, h.2.1]
    simp only [names] at this
    rw [this]; rfl

/-- The whole-list invariant: distinct names, linked, head first. -/
structure Rep (σ : Store) (h : Nat) (s : Seq) : Prop where
  head : (names s).head? = some h
  nodup : (names s).Nodup
  links : Links σ (σ h).prev s

theorem rep_step {σ : Store} {h : Nat} {s : Seq} (hr : Rep σ h s) (op : Op) (ha : Allowed s op) :
    Rep (step σ op) h (specStep s op) := by
  obtain ⟨h1, h2, h3⟩ := hr
  cases op with
  | add l i =>
    obtain ⟨hl, hi⟩ := ha
    have hli : l ≠ i := fun e => hi (e ▸ hl)
    have hhi : h ≠ i := by
      rintro rfl; exact hi (List.mem_of_mem_head? (by rw [h1]; rfl))
    refine ⟨by rw [specStep, head_insertAfter, h1], ?_, ?_⟩
    · obtain ⟨a, b, e1, e2⟩ := names_insertAfter l i s hl
      rw [e1] at h2 hi
      simp only [specStep, e2]
      rw [show a ++ l :: i :: b = (a ++ [l]) ++ i :: b by simp]
      rw [show a ++ l :: b = (a ++ [l]) ++ b by simp] at h2 hi
      rw [(List.perm_middle).nodup_iff]
      exact List.nodup_cons.mpr ⟨hi, h2⟩
    · have := links_insertAfter h2 hi hl h3
      have e : (add σ l i h).prev = (σ h).prev := by
        rw [add_eq _ _ _ hli, if_neg hhi]; split
        · rename_i e; rw [e]
        · rfl
      simp only [step, specStep, e]; exact this
  | remove y =>
    cases s with
    | nil => simp [names] at h1
    | cons a s =>
      obtain ⟨x, t⟩ := a
      have hx : x = h := by simpa [names] using h1
      subst hx
      have hy : (y, true) ∈ s := ha
      have hxy : x ≠ y := by
        rintro rfl
        exact (List.nodup_cons.mp h2).1 (List.mem_map.mpr ⟨_, hy, rfl⟩)
      obtain ⟨l1, l2, l3⟩ := h3
      obtain ⟨p, hp, hpm, hne, heq, hl⟩ := links_removeNode (w := x) h2 hy l3
      have hpr : ((remove σ y).1 x).prev = (σ x).prev := by
        rw [remove_eq σ y p hp]; split
        · rename_i e; rw [e]
        · rfl
      refine ⟨by simp [specStep, removeNode, hxy, names], ?_, ?_⟩
      · simp only [specStep]; rw [names_removeNode]; exact h2.erase _
      · simp only [step, specStep, removeNode, hxy, if_false]
        refine ⟨fun _ => rfl, ?_, hl⟩
        rw [remove_eq σ y p hp]
        split
        · rename_i e; exact (heq e).symm
        · rename_i e; rw [l2]; exact (hne e).symm

/-! ## Properties -/

/-- **C09 (partial).**  Start from a head node just initialised; for every history of adds (of a node not in the list after any node
of the list) and removes of nodes other than the head whose predecessor has not changed since they were linked,
the traversal from the head terminates and visits exactly the nodes of the sequence obtained by the same
insertions and deletions.  Missing from the full property: removal of a node whose predecessor was itself removed or had a node
inserted after it (`C09_remove_after_remove_fails`), and backward links (`C09_prev_links_not_maintained`). -/
theorem C09_forward_traversal_partial (σ₀ : Store) (h : Nat) (ops : List Op)
    (ha : AllowedHist ops [(h, true)]) :
    let s := ops.foldl specStep [(h, true)]
    walk (run (init σ₀ h) ops) s.length (some h) = some (names s) := by
  intro s
  have key : ∀ (ops : List Op) (σ : Store) (s : Seq), Rep σ h s → AllowedHist ops s →
      Rep (run σ ops) h (ops.foldl specStep s) := by
    intro ops
    induction ops with
    | nil => intro σ s hr _; exact hr
    | cons op ops ih => intro σ s hr ha; exact ih _ _ (rep_step hr op ha.1) ha.2
  have hr := key ops (init σ₀ h) [(h, true)] ⟨rfl, by simp [names], fun _ => rfl, by simp [init, upd, names], trivial⟩ ha
  have := walk_of_links s _ s.length hr.links (Nat.le_refl _)
  rwa [hr.head] at this

/-- The names of the specification sequence: an add inserts the item directly after the given node. -/
theorem C09_add_inserts_after (s : Seq) (l i : Nat) (hl : l ∈ names s) :
    ∃ a b, names s = a ++ l :: b ∧ names (specStep s (.add l i)) = a ++ l :: i :: b :=
  names_insertAfter l i s hl

/-- The names of the specification sequence: a remove deletes exactly that node. -/
theorem C09_remove_erases (s : Seq) (y : Nat) : names (specStep s (.remove y)) = (names s).erase y :=
  names_removeNode y s

/-- Non-vacuity of C09: appends, an insertion in the middle, removals at the end and in the middle. -/
example : AllowedHist [.add 0 1, .add 1 2, .add 0 3, .add 2 4, .remove 4, .remove 3] [(0, true)] ∧
    names ([Op.add 0 1, .add 1 2, .add 0 3, .add 2 4, .remove 4, .remove 3].foldl specStep [(0, true)]) = [0, 1, 2] := by
  simp [AllowedHist, Allowed, specStep, insertAfter, removeNode, stale, names]

/-- Deviation: after head -> 1 -> 2, removing 1 and then 2 leaves 2 in the list (list.h:76 does not fix `next->prev`). -/
theorem C09_remove_after_remove_fails (σ₀ : Store) :
    walk (run (init σ₀ 0) [.add 0 1, .add 1 2, .remove 1, .remove 2]) 3 (some 0) = some [0, 2] := by
  simp [walk, run, step, add, remove, init, upd]

/-- Deviation: inserting 2 after the head in head -> 1 leaves the backward link of 1 at the head instead of 2
(list.h:68 does not set `list->next->prev`). -/
theorem C09_prev_links_not_maintained (σ₀ : Store) :
    let σ := run (init σ₀ 0) [.add 0 1, .add 0 2]
    walk σ 3 (some 0) = some [0, 2, 1] ∧ (σ 1).prev = some 0 := by
  simp [walk, run, step, add, init, upd]

end Zpl.LList
