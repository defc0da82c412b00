import Verif.Basic

/-!
# Order of memory accesses between threads (code/source/threading/fence.c, atomic.c)  -  C160

Threads run on processors of the x86 family: each has a buffer of the stores it has made, from which they reach the memory in order at any later moment, and it reads its own stores
from the buffer (x86-TSO).  `zpl_atomic32_store` is a plain store and `zpl_atomic32_load` a plain load there.  A locked instruction waits until the buffer is empty.  It is assumed that
the compiler keeps the order of the accesses.

## Model -/

namespace Zpl.Tso

/-- The systems `fence.c` tells apart, on x86. -/
inductive System where
  | windows
  | tinyc
  | osx
  | gnu
  deriving DecidableEq, Repr

inductive Fence where
  | mfence
  | sfence
  | lfence
  deriving DecidableEq, Repr

/-- fence.c:36-46 `zpl_mfence`, 48-56 `zpl_sfence`, 58-66 `zpl_lfence`: whether it waits for the buffer.  `_ReadWriteBarrier` and an empty `asm` with `memory` only bind the compiler;
`__sync_synchronize` and `_mm_mfence` are instructions that wait; `_mm_sfence` and `_mm_lfence` do not change the order of ordinary stores and loads. -/
def drains : System → Fence → Bool
  | .windows, _ => false
  | .tinyc, _ => false
  | .osx, .mfence => true
  | .osx, _ => false
  | .gnu, .mfence => true
  | .gnu, _ => false

/-- What a thread can do.  atomic.c:141-142 `zpl_atomic32_load` and `zpl_atomic32_store` (and 206-235 for 64 bits on a 64-bit machine) are the plain `read` and `write`; 144-152
`zpl_atomic32_compare_exchange`, 154-163 `zpl_atomic32_exchange` and 165-173 `zpl_atomic32_fetch_add` are locked instructions. -/
inductive Instr where
  | write (a : Nat) (v : Int)
  | read (a : Nat)
  | fence (f : Fence)
  | exchange (a : Nat) (v : Int)
  | fetchAdd (a : Nat) (v : Int)
  | compareExchange (a : Nat) (expected desired : Int)
  deriving DecidableEq, Repr

/-- The memory, the buffer of each thread (oldest store first), what each thread has still to do, and the values that were read (oldest first). -/
structure State where
  mem : Nat → Int
  buf : Nat → List (Nat × Int)
  prog : Nat → List Instr
  log : List (Nat × Nat × Int)

def put {α : Type} (f : Nat → α) (i : Nat) (x : α) : Nat → α := fun j => if j = i then x else f j

/-- The newest store to `a` in a buffer. -/
def newest : List (Nat × Int) → Nat → Option Int
  | [], _ => none
  | (b, v) :: r, a => match newest r a with
    | some w => some w
    | none => if b = a then some v else none

/-- What thread `t` reads at `a`. -/
def see (s : State) (t a : Nat) : Int := (newest (s.buf t) a).getD (s.mem a)

/-- A thread does its next instruction, or its oldest store reaches the memory. -/
inductive Move where
  | step (t : Nat)
  | flush (t : Nat)
  deriving DecidableEq, Repr

/-- A locked instruction on `a`, after which the memory has `v` there. -/
def locked (s : State) (t a : Nat) (v : Int) (p : List Instr) : State :=
  if s.buf t = [] then { s with mem := put s.mem a v, prog := put s.prog t p, log := s.log ++ [(t, a, s.mem a)] } else s

/-- One move of the machine.  A thread that waits for its buffer does nothing. -/
def move (sys : System) (s : State) : Move → State
  | .flush t => match s.buf t with
    | [] => s
    | (a, v) :: r => { s with mem := put s.mem a v, buf := put s.buf t r }
  | .step t => match s.prog t with
    | [] => s
    | .write a v :: p => { s with buf := put s.buf t (s.buf t ++ [(a, v)]), prog := put s.prog t p }
    | .read a :: p => { s with prog := put s.prog t p, log := s.log ++ [(t, a, see s t a)] }
    | .fence f :: p => if drains sys f = true ∧ s.buf t ≠ [] then s else { s with prog := put s.prog t p }
    | .exchange a v :: p => locked s t a v p
    | .fetchAdd a v :: p => locked s t a (s.mem a + v) p
    | .compareExchange a e d :: p => locked s t a (if s.mem a = e then d else s.mem a) p

def run (sys : System) (s : State) (ms : List Move) : State := ms.foldl (move sys) s

/-! ## Specification -/

/-- All buffers are empty and nothing was read. -/
def Start (s : State) : Prop := (∀ t, s.buf t = []) ∧ s.log = []

/-- The instruction changes the variable `a`. -/
def Instr.changes (a : Nat) : Instr → Prop
  | .write b _ => b = a
  | .exchange b _ => b = a
  | .fetchAdd b _ => b = a
  | .compareExchange b _ _ => b = a
  | _ => False

/-- The plain stores of a program, in order. -/
def stores (p : List Instr) : List (Nat × Int) := p.filterMap fun i => match i with
  | .write a v => some (a, v)
  | _ => none

/-- The value of `a` after a list of stores: that of the last one to it. -/
def latest (m : Nat → Int) (l : List (Nat × Int)) (a : Nat) : Int := (((l.filter fun p => p.1 == a).getLast?).map (·.2)).getD (m a)

/-- Of the variables in `D`, only thread `A` changes any, and only by plain stores. -/
def Owner (prog : Nat → List Instr) (A : Nat) (D : Nat → Prop) : Prop :=
  (∀ i ∈ prog A, ∀ a, D a → i.changes a → ∃ v, i = .write a v) ∧ ∀ u, u ≠ A → ∀ i ∈ prog u, ∀ a, D a → ¬ i.changes a

/-! ## Lemmas -/

theorem put_same {α : Type} (f : Nat → α) (i : Nat) (x : α) : put f i x i = x := if_pos rfl

theorem put_other {α : Type} (f : Nat → α) {i j : Nat} (x : α) (h : j ≠ i) : put f i x j = f j := if_neg h

theorem latest_nil (m : Nat → Int) (a : Nat) : latest m [] a = m a := rfl

theorem latest_snoc (m : Nat → Int) (l : List (Nat × Int)) (b : Nat) (v : Int) (a : Nat) : latest m (l ++ [(b, v)]) a = if b = a then v else latest m l a := by
  unfold latest
  rw [List.filter_append]
  by_cases h : b = a
  · simp [h]
  · simp [h]

theorem newest_snoc (l : List (Nat × Int)) (b : Nat) (v : Int) (a : Nat) : newest (l ++ [(b, v)]) a = if b = a then some v else newest l a := by
  induction l with
  | nil => simp [newest]
  | cons p l ih =>
    obtain ⟨c, w⟩ := p
    simp only [List.cons_append, newest, ih]
    by_cases h : b = a <;> simp [h]

theorem newest_mem {l : List (Nat × Int)} {a : Nat} {v : Int} (h : newest l a = some v) : (a, v) ∈ l := by
  induction l with
  | nil => cases h
  | cons p l ih =>
    obtain ⟨c, w⟩ := p
    simp only [newest] at h
    split at h
    · next x hx =>
      cases h
      exact List.mem_cons_of_mem _ (ih hx)
    · split at h
      · next e =>
        cases h
        subst e
        exact List.mem_cons_self
      · cases h

theorem stores_append (p q : List Instr) : stores (p ++ q) = stores p ++ stores q := List.filterMap_append

/-- The state of the machine, as far as the variables of one owner go. -/
structure Owned (s₀ s : State) (A : Nat) (D : Nat → Prop) (E : List Instr) (out : List (Nat × Int)) (ks : List Nat) : Prop where
  owner : Owner s.prog A D
  done : s₀.prog A = E ++ s.prog A
  order : stores E = out ++ s.buf A
  memory : ∀ a, D a → s.mem a = latest s₀.mem out a
  others : ∀ u, u ≠ A → ∀ p ∈ s.buf u, ¬ D p.1
  length : ks.length = s.log.length
  sorted : ks.Pairwise (· ≤ ·)
  bound : ∀ k ∈ ks, k ≤ out.length
  reads : ∀ (i u a : Nat) (v : Int) (k : Nat), s.log[i]? = some (u, a, v) → ks[i]? = some k → u ≠ A → D a → v = latest s₀.mem ((stores (s₀.prog A)).take k) a

theorem owner_put {prog : Nat → List Instr} {A : Nat} {D : Nat → Prop} (h : Owner prog A D) {t : Nat} {i : Instr} {p : List Instr} (ht : prog t = i :: p) : Owner (put prog t p) A D := by
  constructor
  · intro j hj
    by_cases e : A = t
    · subst e
      rw [put_same] at hj
      exact h.1 j (by rw [ht]; exact List.mem_cons_of_mem _ hj)
    · rw [put_other _ _ e] at hj
      exact h.1 j hj
  · intro u hu j hj
    by_cases e : u = t
    · subst e
      rw [put_same] at hj
      exact h.2 u hu j (by rw [ht]; exact List.mem_cons_of_mem _ hj)
    · rw [put_other _ _ e] at hj
      exact h.2 u hu j hj

theorem getElem_snoc {α : Type} {l : List α} {x y : α} {i : Nat} (h : (l ++ [x])[i]? = some y) : (i < l.length ∧ l[i]? = some y) ∨ (i = l.length ∧ x = y) := by
  rcases Nat.lt_trichotomy i l.length with hi | hi | hi
  · rw [List.getElem?_append_left hi] at h
    exact Or.inl ⟨hi, h⟩
  · subst hi
    simp at h
    exact Or.inr ⟨rfl, h⟩
  · rw [List.getElem?_eq_none (by simp; omega)] at h
    cases h

/-- One more value is read. -/
theorem reads_snoc {s₀ s : State} {A : Nat} {D : Nat → Prop} {E : List Instr} {out : List (Nat × Int)} {ks : List Nat} (h : Owned s₀ s A D E out ks) {t b : Nat} {w : Int}
    (hw : t ≠ A → D b → w = s.mem b) :
    (ks ++ [out.length]).length = (s.log ++ [(t, b, w)]).length ∧ (ks ++ [out.length]).Pairwise (· ≤ ·) ∧ (∀ k ∈ ks ++ [out.length], k ≤ out.length) ∧
    ∀ (i u a : Nat) (v : Int) (k : Nat), (s.log ++ [(t, b, w)])[i]? = some (u, a, v) → (ks ++ [out.length])[i]? = some k → u ≠ A → D a →
      v = latest s₀.mem ((stores (s₀.prog A)).take k) a := by
  refine ⟨by simp [h.length], ?_, ?_, ?_⟩
  · rw [List.pairwise_append]
    exact ⟨h.sorted, List.pairwise_singleton _ _, fun k hk x hx => by rw [List.mem_singleton.1 hx]; exact h.bound k hk⟩
  · intro k hk
    rcases List.mem_append.1 hk with hk | hk
    · exact h.bound k hk
    · rw [List.mem_singleton.1 hk]
      exact Nat.le_refl _
  · intro i u a v k hi hk hu ha
    rcases getElem_snoc hi with ⟨l1, e1⟩ | ⟨l1, e1⟩
    · rcases getElem_snoc hk with ⟨l2, e2⟩ | ⟨l2, -⟩
      · exact h.reads i u a v k e1 e2 hu ha
      · rw [h.length] at l2
        omega
    · rcases getElem_snoc hk with ⟨l2, -⟩ | ⟨-, e2⟩
      · rw [h.length] at l2
        omega
      · cases e1
        subst e2
        rw [hw hu ha, h.memory _ ha, h.done, stores_append, h.order, List.append_assoc, List.take_append_of_le_length (Nat.le_refl _), List.take_length]

/-- A thread but the owner reads the variables from the memory. -/
theorem see_other {s₀ s : State} {A : Nat} {D : Nat → Prop} {E : List Instr} {out : List (Nat × Int)} {ks : List Nat} (h : Owned s₀ s A D E out ks) {t b : Nat} (ht : t ≠ A) (hb : D b) :
    see s t b = s.mem b := by
  unfold see
  cases e : newest (s.buf t) b with
  | none => rfl
  | some v => exact absurd hb (h.others t ht _ (newest_mem e))

/-- The owner reads its own last store. -/
theorem see_own {s₀ s : State} {A : Nat} {D : Nat → Prop} {E : List Instr} {out : List (Nat × Int)} {ks : List Nat} (h : Owned s₀ s A D E out ks) {b : Nat} (hb : D b) :
    see s A b = latest s₀.mem (stores E) b := by
  have key : ∀ (l out : List (Nat × Int)), latest s₀.mem (out ++ l) b = (newest l b).getD (latest s₀.mem out b) := by
    intro l
    induction l with
    | nil => intro out; simp [newest]
    | cons p l ih =>
      intro out
      obtain ⟨c, v⟩ := p
      rw [show out ++ (c, v) :: l = (out ++ [(c, v)]) ++ l by simp, ih, latest_snoc]
      simp only [newest]
      cases newest l b with
      | some w => rfl
      | none => by_cases e : c = b <;> simp [e]
  rw [h.order, key, ← h.memory _ hb]
  rfl

/-- One move keeps it. -/
theorem owned_move {sys : System} {s₀ s : State} {A : Nat} {D : Nat → Prop} {E : List Instr} {out : List (Nat × Int)} {ks : List Nat} (h : Owned s₀ s A D E out ks) (m : Move) :
    ∃ E' out' ks', Owned s₀ (move sys s m) A D E' out' ks' := by
  cases m with
  | flush t =>
    simp only [move]
    split
    · exact ⟨_, _, _, h⟩
    · next a v r hb =>
      by_cases e : t = A
      · subst e
        refine ⟨E, out ++ [(a, v)], ks, h.owner, h.done, ?_, ?_, ?_, h.length, h.sorted, ?_, h.reads⟩
        · rw [h.order, hb]
          simp [put_same]
        · intro c hc
          rw [latest_snoc]
          by_cases e : c = a
          · subst e
            rw [if_pos rfl]
            exact put_same _ _ _
          · rw [if_neg (fun e' => e e'.symm)]
            exact (put_other _ _ e).trans (h.memory c hc)
        · intro u hu
          dsimp only
          rw [put_other _ _ hu]
          exact h.others u hu
        · intro k hk
          have := h.bound k hk
          simp
          omega
      · have na : ¬ D a := h.others t e (a, v) (by rw [hb]; exact List.mem_cons_self)
        refine ⟨E, out, ks, h.owner, h.done, ?_, ?_, ?_, h.length, h.sorted, h.bound, h.reads⟩
        · dsimp only
          rw [put_other _ _ (fun e' => e e'.symm)]
          exact h.order
        · intro c hc
          dsimp only
          rw [put_other _ _ (show c ≠ a from fun e' => na (e' ▸ hc))]
          exact h.memory c hc
        · intro u hu
          dsimp only
          by_cases e' : u = t
          · subst e'
            rw [put_same]
            intro p hp
            exact h.others u hu p (by rw [hb]; exact List.mem_cons_of_mem _ hp)
          · rw [put_other _ _ e']
            exact h.others u hu
  | step t =>
    have quiet : ∀ (i : Instr) (p : List Instr), s.prog t = i :: p → stores [i] = [] → s₀.prog A = (if t = A then E ++ [i] else E) ++ put s.prog t p A ∧
        stores (if t = A then E ++ [i] else E) = out ++ s.buf A := by
      intro i p hp hs
      by_cases e : t = A
      · subst e
        rw [if_pos rfl, put_same, stores_append, hs, List.append_nil]
        exact ⟨by rw [h.done, hp]; simp, h.order⟩
      · rw [if_neg e, put_other _ _ (fun e' => e e'.symm)]
        exact ⟨h.done, h.order⟩
    have lock : ∀ (i : Instr) (p : List Instr) (a : Nat) (v : Int), s.prog t = i :: p → stores [i] = [] → i.changes a → ∃ E' out' ks', Owned s₀ (locked s t a v p) A D E' out' ks' := by
      intro i p a v hp hs hc
      unfold locked
      split
      · have na : ¬ D a := by
          intro ha
          by_cases e : t = A
          · subst e
            obtain ⟨w, rfl⟩ := h.owner.1 i (by rw [hp]; exact List.mem_cons_self) a ha hc
            cases hs
          · exact h.owner.2 t e i (by rw [hp]; exact List.mem_cons_self) a ha hc
        obtain ⟨r1, r2, r3, r4⟩ := reads_snoc h (t := t) (b := a) (w := s.mem a) (fun _ _ => rfl)
        obtain ⟨q1, q2⟩ := quiet i p hp hs
        refine ⟨_, out, _, owner_put h.owner hp, q1, q2, ?_, h.others, r1, r2, r3, r4⟩
        intro c hc
        dsimp only
        rw [put_other _ _ (show c ≠ a from fun e' => na (e' ▸ hc))]
        exact h.memory c hc
      · exact ⟨_, _, _, h⟩
    simp only [move]
    split
    · exact ⟨_, _, _, h⟩
    · next a v p hp =>
      by_cases e : t = A
      · subst e
        refine ⟨E ++ [.write a v], out, ks, owner_put h.owner hp, ?_, ?_, h.memory, ?_, h.length, h.sorted, h.bound, h.reads⟩
        · dsimp only
          rw [put_same, h.done, hp]
          simp
        · dsimp only
          rw [put_same, stores_append, h.order, List.append_assoc]
          rfl
        · intro u hu
          dsimp only
          rw [put_other _ _ hu]
          exact h.others u hu
      · refine ⟨E, out, ks, owner_put h.owner hp, ?_, ?_, h.memory, ?_, h.length, h.sorted, h.bound, h.reads⟩
        · dsimp only
          rw [put_other _ _ (fun e' => e e'.symm)]
          exact h.done
        · dsimp only
          rw [put_other _ _ (fun e' => e e'.symm)]
          exact h.order
        · intro u hu
          dsimp only
          by_cases e' : u = t
          · subst e'
            rw [put_same]
            intro q hq
            rcases List.mem_append.1 hq with hq | hq
            · exact h.others u hu q hq
            · rw [List.mem_singleton.1 hq]
              exact fun hd => h.owner.2 u hu (.write a v) (by rw [hp]; exact List.mem_cons_self) a hd rfl
          · rw [put_other _ _ e']
            exact h.others u hu
    · next a p hp =>
      obtain ⟨r1, r2, r3, r4⟩ := reads_snoc h (t := t) (b := a) (w := see s t a) (fun ht ha => see_other h ht ha)
      obtain ⟨q1, q2⟩ := quiet _ p hp rfl
      exact ⟨_, out, _, owner_put h.owner hp, q1, q2, h.memory, h.others, r1, r2, r3, r4⟩
    · next f p hp =>
      split
      · exact ⟨_, _, _, h⟩
      · obtain ⟨q1, q2⟩ := quiet _ p hp rfl
        exact ⟨_, out, _, owner_put h.owner hp, q1, q2, h.memory, h.others, h.length, h.sorted, h.bound, h.reads⟩
    · next a v p hp => exact lock _ p a v hp rfl rfl
    · next a v p hp => exact lock _ p a _ hp rfl rfl
    · next a e d p hp => exact lock _ p a _ hp rfl rfl

theorem owned_run {sys : System} {s₀ : State} {A : Nat} {D : Nat → Prop} : ∀ (ms : List Move) {s : State} {E : List Instr} {out : List (Nat × Int)} {ks : List Nat},
    Owned s₀ s A D E out ks → ∃ E' out' ks', Owned s₀ (run sys s ms) A D E' out' ks'
  | [], _, _, _, _, h => ⟨_, _, _, h⟩
  | m :: ms, _, _, _, _, h => by
    obtain ⟨E', out', ks', h'⟩ := owned_move (sys := sys) h m
    exact owned_run ms h'

theorem owned_start {s : State} (h0 : Start s) {A : Nat} {D : Nat → Prop} (h : Owner s.prog A D) : Owned s s A D [] [] [] where
  owner := h
  done := rfl
  order := by rw [h0.1]; rfl
  memory := fun _ _ => rfl
  others := fun u _ p hp => by rw [h0.1] at hp; cases hp
  length := by rw [h0.2]; rfl
  sorted := List.Pairwise.nil
  bound := fun _ hk => by cases hk
  reads := fun i u a v k hi => by rw [h0.2] at hi; cases hi

/-! ## Theorems -/

/-- C160: all threads see the stores of one thread in the order in which it made them: each value read is that after the first so many of them, and that number never falls, whoever
reads. -/
theorem C160_order (sys : System) {s₀ : State} (h0 : Start s₀) {A : Nat} {D : Nat → Prop} (ho : Owner s₀.prog A D) (ms : List Move) :
    ∃ ks : List Nat, ks.length = (run sys s₀ ms).log.length ∧ ks.Pairwise (· ≤ ·) ∧
      ∀ (i u a : Nat) (v : Int) (k : Nat), (run sys s₀ ms).log[i]? = some (u, a, v) → ks[i]? = some k → u ≠ A → D a → v = latest s₀.mem ((stores (s₀.prog A)).take k) a := by
  obtain ⟨E, out, ks, h⟩ := owned_run (sys := sys) ms (owned_start h0 ho)
  exact ⟨ks, h.length, h.sorted, h.reads⟩

/-- C160: a thread reads its own variables as it left them: with the last of the stores it has made so far. -/
theorem C160_own (sys : System) {s₀ : State} (h0 : Start s₀) {A : Nat} {D : Nat → Prop} (ho : Owner s₀.prog A D) (ms : List Move) {a : Nat} (ha : D a) {p : List Instr}
    (hp : (run sys s₀ ms).prog A = .read a :: p) :
    ∃ E, s₀.prog A = E ++ .read a :: p ∧ (run sys s₀ (ms ++ [.step A])).log = (run sys s₀ ms).log ++ [(A, a, latest s₀.mem (stores E) a)] := by
  obtain ⟨E, out, ks, h⟩ := owned_run (sys := sys) ms (owned_start h0 ho)
  refine ⟨E, by rw [h.done, hp], ?_⟩
  rw [← see_own h ha]
  unfold run at hp ⊢
  rw [List.foldl_append]
  simp only [List.foldl_cons, List.foldl_nil, move]
  rw [hp]

theorem latest_ne {m : Nat → Int} {l : List (Nat × Int)} {a : Nat} {v : Int} (h : m a ≠ v) (hl : (a, v) ∉ l) : latest m l a ≠ v := by
  unfold latest
  cases e : (l.filter fun p => p.1 == a).getLast? with
  | none => simpa using h
  | some p =>
    have := List.mem_of_getLast? e
    simp only [List.mem_filter, beq_iff_eq] at this
    obtain ⟨b, w⟩ := p
    obtain ⟨h1, rfl⟩ := this
    simp only [Option.map_some, Option.getD_some]
    intro e
    subst e
    exact hl h1

theorem latest_append {m : Nat → Int} {l r : List (Nat × Int)} {a : Nat} (h : ∀ p ∈ r, p.1 ≠ a) : latest m (l ++ r) a = latest m l a := by
  unfold latest
  rw [List.filter_append, (List.filter_eq_nil_iff (l := r)).2 (fun p hp => by simpa using h p hp), List.append_nil]

/-- C160 (handing over): a thread writes data and then a flag, with plain stores.  Once any other thread has read the flag, every other thread reads the data as they were written, on
every system and without fences. -/
theorem C160_message (sys : System) {s₀ : State} (h0 : Start s₀) {A flag : Nat} {v : Int} {D : Nat → Prop} (ho : Owner s₀.prog A D) (hf : D flag) {pre post : List Instr}
    (hp : s₀.prog A = pre ++ .write flag v :: post) (h1 : s₀.mem flag ≠ v) (h2 : .write flag v ∉ pre) (ms : List Move) {i j u w d : Nat} {x : Int} (hi : (run sys s₀ ms).log[i]? = some (u, flag, v))
    (hj : (run sys s₀ ms).log[j]? = some (w, d, x)) (hij : i < j) (hu : u ≠ A) (hw : w ≠ A) (hd : D d) (hne : d ≠ flag) (h3 : ∀ y, .write d y ∉ post) : x = latest s₀.mem (stores pre) d := by
  obtain ⟨ks, hlen, hsort, hk⟩ := C160_order sys h0 ho ms
  have li : i < ks.length := by rw [hlen]; exact (List.getElem?_eq_some_iff.1 hi).1
  have lj : j < ks.length := by rw [hlen]; exact (List.getElem?_eq_some_iff.1 hj).1
  have ki := hk i u flag v _ hi (List.getElem?_eq_getElem li) hu hf
  have kj := hk j w d x _ hj (List.getElem?_eq_getElem lj) hw hd
  have le : ks[i] ≤ ks[j] := List.pairwise_iff_getElem.1 hsort i j li lj hij
  have hst : stores (s₀.prog A) = stores pre ++ (flag, v) :: stores post := by rw [hp, stores_append]; rfl
  rw [hst] at ki kj
  have big : (stores pre).length < ks[i] := by
    rcases Nat.lt_or_ge (stores pre).length ks[i] with h | h
    · exact h
    · rw [List.take_append_of_le_length h] at ki
      refine absurd ki.symm (latest_ne h1 (fun hm => ?_))
      have := List.mem_of_mem_take hm
      simp only [stores, List.mem_filterMap] at this
      obtain ⟨c, hc, e⟩ := this
      cases c with
      | write b y =>
        simp only [Option.some.injEq, Prod.mk.injEq] at e
        obtain ⟨rfl, rfl⟩ := e
        exact h2 hc
      | _ => cases e
  rw [kj, List.take_append, List.take_of_length_le (by omega)]
  refine (latest_append (fun p hp => ?_))
  have := List.mem_of_mem_take hp
  rcases List.mem_cons.1 this with e | e
  · rw [e]
    exact fun e => hne e.symm
  · simp only [stores, List.mem_filterMap] at e
    obtain ⟨c, hc, e⟩ := e
    cases c with
    | write b y =>
      simp only [Option.some.injEq] at e
      subst e
      rintro rfl
      exact h3 _ hc
    | _ => cases e

/-! ### Fences -/

/-- The flags of the threads: different variables, changed by plain stores of 1 only. -/
def Flags (prog : Nat → List Instr) (flag : Nat → Nat) : Prop := ∀ t u, ∀ i ∈ prog t, i.changes (flag u) → i = .write (flag u) 1

/-- What holds while threads announce themselves: of a thread that is past its fence, the flag is in memory; nobody who has read that another is not there yet is himself not seen. -/
structure Announce (flag : Nat → Nat) (before : Nat → List Instr → List (Nat × Int) → (Nat → Int) → Prop) (s : State) : Prop where
  flags : Flags s.prog flag
  buffers : ∀ t, ∀ p ∈ s.buf t, ∀ u, p.1 = flag u → p.2 = 1
  stage : ∀ t, before t (s.prog t) (s.buf t) s.mem ∨ s.mem (flag t) = 1
  absent : ∀ t u, (t, flag u, 0) ∈ s.log → s.mem (flag t) = 1
  pairs : ∀ t u, t ≠ u → (t, flag u, 0) ∈ s.log → (u, flag t, 0) ∉ s.log

theorem flags_put {prog : Nat → List Instr} {flag : Nat → Nat} (h : Flags prog flag) {t : Nat} {i : Instr} {p : List Instr} (ht : prog t = i :: p) : Flags (put prog t p) flag := by
  intro u w j hj
  by_cases e : u = t
  · subst e
    rw [put_same] at hj
    exact h u w j (by rw [ht]; exact List.mem_cons_of_mem _ hj)
  · rw [put_other _ _ e] at hj
    exact h u w j hj

/-- A store that reaches the memory keeps a flag that is set. -/
theorem flag_kept {flag : Nat → Nat} {m : Nat → Int} {a : Nat} {v : Int} (h : ∀ u, a = flag u → v = 1) {t : Nat} (ht : m (flag t) = 1) : put m a v (flag t) = 1 := by
  unfold put
  split
  · next e => exact h t e.symm
  · exact ht

/-- A value read. -/
theorem absent_snoc {flag : Nat → Nat} {before : Nat → List Instr → List (Nat × Int) → (Nat → Int) → Prop} {s : State} (h : Announce flag before s) {t a : Nat} {x : Int}
    (hm : s.mem (flag t) = 1) (hx : ∀ u, a = flag u → x = 0 → s.mem a = 0) :
    (∀ t' u, (t', flag u, 0) ∈ s.log ++ [(t, a, x)] → s.mem (flag t') = 1) ∧
    ∀ t' u, t' ≠ u → (t', flag u, 0) ∈ s.log ++ [(t, a, x)] → (u, flag t', 0) ∉ s.log ++ [(t, a, x)] := by
  have new : ∀ {t' u : Nat}, (t', flag u, (0 : Int)) = (t, a, x) → t' = t ∧ s.mem (flag u) = 0 := by
    intro t' u e
    simp only [Prod.mk.injEq] at e
    refine ⟨e.1, ?_⟩
    rw [e.2.1]
    exact hx u e.2.1.symm e.2.2.symm
  constructor
  · intro t' u hm'
    rcases List.mem_append.1 hm' with hm' | hm'
    · exact h.absent t' u hm'
    · rw [(new (List.mem_singleton.1 hm')).1]
      exact hm
  · intro t' u hne h1 h2
    rcases List.mem_append.1 h1 with h1 | h1 <;> rcases List.mem_append.1 h2 with h2 | h2
    · exact h.pairs t' u hne h1 h2
    · have a1 := (new (List.mem_singleton.1 h2)).2
      rw [h.absent t' u h1] at a1
      cases a1
    · have a1 := (new (List.mem_singleton.1 h1)).2
      rw [h.absent u t' h2] at a1
      cases a1
    · exact hne ((new (List.mem_singleton.1 h1)).1.trans (new (List.mem_singleton.1 h2)).1.symm)

/-- A flag that is read as 0 is 0 in memory. -/
theorem see_flag {flag : Nat → Nat} {before : Nat → List Instr → List (Nat × Int) → (Nat → Int) → Prop} {s : State} (h : Announce flag before s) {t u : Nat} (hs : see s t (flag u) = 0) :
    s.mem (flag u) = 0 := by
  unfold see at hs
  cases e : newest (s.buf t) (flag u) with
  | none => rwa [e] at hs
  | some v =>
    have := h.buffers t _ (newest_mem e) u rfl
    dsimp only at this
    rw [e, this] at hs
    cases hs

/-- What makes a thread wait for its stores: `zpl_mfence` where it is an instruction, and the locked instructions. -/
def Barrier (sys : System) : Instr → Prop
  | .fence f => f = .mfence ∧ (sys = .osx ∨ sys = .gnu)
  | .write _ _ => False
  | .read _ => False
  | _ => True

/-- Before a thread is past its barrier. -/
def Before (flag : Nat → Nat) (B : Nat → Instr) (post : Nat → List Instr) (t : Nat) (prog : List Instr) (buf : List (Nat × Int)) (_ : Nat → Int) : Prop :=
  (prog = [] ∧ buf = []) ∨ (prog = .write (flag t) 1 :: B t :: post t ∧ buf = []) ∨ (prog = B t :: post t ∧ buf = [(flag t, 1)])

theorem announce_move {sys : System} {flag : Nat → Nat} {B : Nat → Instr} (hB : ∀ t, Barrier sys (B t)) {post : Nat → List Instr} {s : State} (h : Announce flag (Before flag B post) s)
    (m : Move) :
    Announce flag (Before flag B post) (move sys s m) := by
  cases m with
  | flush t =>
    simp only [move]
    split
    · exact h
    · next a v r hb =>
      have hv : ∀ u, a = flag u → v = 1 := fun u hu => h.buffers t (a, v) (by rw [hb]; exact List.mem_cons_self) u hu
      refine ⟨h.flags, ?_, ?_, fun t' u hl => flag_kept hv (h.absent t' u hl), h.pairs⟩
      · intro u p hp
        dsimp only at hp
        by_cases e : u = t
        · subst e
          rw [put_same] at hp
          exact h.buffers u p (by rw [hb]; exact List.mem_cons_of_mem _ hp)
        · rw [put_other _ _ e] at hp
          exact h.buffers u p hp
      · intro u
        dsimp only
        rcases h.stage u with hs | hs
        · by_cases e : u = t
          · subst e
            rcases hs with ⟨-, h2⟩ | ⟨-, h2⟩ | ⟨-, h2⟩
            · rw [hb] at h2
              cases h2
            · rw [hb] at h2
              cases h2
            · rw [hb] at h2
              simp only [List.cons.injEq, Prod.mk.injEq] at h2
              obtain ⟨⟨rfl, rfl⟩, -⟩ := h2
              exact Or.inr (put_same _ _ _)
          · rw [put_other _ _ e]
            exact Or.inl hs
        · exact Or.inr (flag_kept hv hs)
  | step t =>
    have keep : ∀ (p q : List Instr), (s.prog t = p) → s.mem (flag t) = 1 → ∀ u, Before flag B post u (put s.prog t q u) (s.buf u) s.mem ∨ s.mem (flag u) = 1 := by
      intro p q _ h1 u
      by_cases e : u = t
      · subst e
        exact Or.inr h1
      · rw [put_other _ _ e]
        exact h.stage u
    have past : ∀ (i : Instr) (p : List Instr), s.prog t = i :: p → i ≠ .write (flag t) 1 → (i = B t → s.buf t = []) → s.mem (flag t) = 1 := by
      intro i p hp h1 h2
      rcases h.stage t with (⟨h3, -⟩ | ⟨h3, -⟩ | ⟨h3, h4⟩) | h3
      · rw [hp] at h3
        cases h3
      · rw [hp] at h3
        simp only [List.cons.injEq] at h3
        exact absurd h3.1 h1
      · rw [hp] at h3
        simp only [List.cons.injEq] at h3
        rw [h2 h3.1] at h4
        cases h4
      · exact h3
    have lock : ∀ (i : Instr) (p : List Instr) (a : Nat) (v : Int), s.prog t = i :: p → i.changes a → (∀ b w, i ≠ .write b w) →
        Announce flag (Before flag B post) (locked s t a v p) := by
      intro i p a v hp hc hw
      unfold locked
      split
      · next hb =>
        have na : ∀ u, a ≠ flag u := fun u e => hw _ _ (h.flags t u i (by rw [hp]; exact List.mem_cons_self) (e ▸ hc))
        have same : ∀ u, put s.mem a v (flag u) = s.mem (flag u) := fun u => put_other _ _ (fun e => na u e.symm)
        have h1 := past i p hp (hw _ _) (fun _ => hb)
        obtain ⟨a1, a2⟩ := absent_snoc h (t := t) (a := a) (x := s.mem a) h1 (fun u e => absurd e (na u))
        refine ⟨flags_put h.flags hp, h.buffers, fun u => ?_, fun t' u hl => ?_, a2⟩
        · dsimp only
          rw [same]
          exact keep _ p hp h1 u
        · dsimp only
          rw [same]
          exact a1 t' u hl
      · exact h
    simp only [move]
    split
    · exact h
    · next a v p hp =>
      refine ⟨flags_put h.flags hp, ?_, ?_, h.absent, h.pairs⟩
      · intro u q hq w hw
        dsimp only at hq
        by_cases e : u = t
        · subst e
          rw [put_same] at hq
          rcases List.mem_append.1 hq with hq | hq
          · exact h.buffers u q hq w hw
          · rw [List.mem_singleton.1 hq] at hw ⊢
            have := h.flags u w (.write a v) (by rw [hp]; exact List.mem_cons_self) hw
            simp only [Instr.write.injEq] at this
            exact this.2
        · rw [put_other _ _ e] at hq
          exact h.buffers u q hq w hw
      · intro u
        dsimp only
        by_cases e : u = t
        · subst e
          rw [put_same, put_same]
          rcases h.stage u with (⟨h3, -⟩ | ⟨h3, h4⟩ | ⟨h3, h4⟩) | h3
          · rw [hp] at h3
            cases h3
          · rw [hp] at h3
            simp only [List.cons.injEq, Instr.write.injEq] at h3
            obtain ⟨⟨rfl, rfl⟩, rfl⟩ := h3
            exact Or.inl (Or.inr (Or.inr ⟨rfl, by rw [h4]; rfl⟩))
          · rw [hp] at h3
            simp only [List.cons.injEq] at h3
            have hb := hB u
            rw [← h3.1] at hb
            cases hb
          · exact Or.inr h3
        · rw [put_other _ _ e, put_other _ _ e]
          exact h.stage u
    · next a p hp =>
      have h1 := past _ p hp (by simp) (fun e => by have := hB t; rw [← e] at this; cases this)
      obtain ⟨a1, a2⟩ := absent_snoc h (t := t) (a := a) (x := see s t a) h1 (fun u e e0 => by subst e; exact see_flag h e0)
      exact ⟨flags_put h.flags hp, h.buffers, keep _ p hp h1, a1, a2⟩
    · next f p hp =>
      split
      · exact h
      · next hn =>
        refine ⟨flags_put h.flags hp, h.buffers, ?_, h.absent, h.pairs⟩
        refine keep _ p hp (past _ p hp (by simp) (fun e => ?_))
        have hb := hB t
        rw [← e] at hb
        obtain ⟨rfl, h1⟩ := hb
        have hd : drains sys .mfence = true := by rcases h1 with rfl | rfl <;> rfl
        rw [hd] at hn
        simpa using hn
    · next a v p hp => exact lock _ p a v hp rfl (by simp)
    · next a v p hp => exact lock _ p a _ hp rfl (by simp)
    · next a e d p hp => exact lock _ p a _ hp rfl (by simp)

/-- C160: threads announce themselves by a plain store to their flag, make a locked operation or call `zpl_mfence`, and then look for others.  Of two of them at least one sees the
other, with `zpl_mfence` if it is an instruction. -/
theorem C160_fence_partial {sys : System} {s₀ : State} (h0 : Start s₀) {flag : Nat → Nat} {B : Nat → Instr} (hB : ∀ t, Barrier sys (B t)) {post : Nat → List Instr}
    (hp : ∀ t, s₀.prog t = [] ∨ s₀.prog t = .write (flag t) 1 :: B t :: post t) (hf : Flags s₀.prog flag) (ms : List Move) {t u : Nat} (hne : t ≠ u) :
    (t, flag u, 0) ∈ (run sys s₀ ms).log → (u, flag t, 0) ∉ (run sys s₀ ms).log := by
  have start : Announce flag (Before flag B post) s₀ := by
    refine ⟨hf, fun t p hp => absurd hp (by rw [h0.1]; exact List.not_mem_nil), fun t => ?_, fun t u hl => absurd hl (by rw [h0.2]; exact List.not_mem_nil),
      fun t u _ hl => absurd hl (by rw [h0.2]; exact List.not_mem_nil)⟩
    rcases hp t with e | e
    · exact Or.inl (Or.inl ⟨e, h0.1 t⟩)
    · exact Or.inl (Or.inr (Or.inl ⟨e, h0.1 t⟩))
  have all : ∀ (ms : List Move) (s : State), Announce flag (Before flag B post) s → Announce flag (Before flag B post) (run sys s ms) := by
    intro ms
    induction ms with
    | nil => exact fun s h => h
    | cons m ms ih => exact fun s h => ih _ (announce_move hB h m)
  exact (all ms s₀ start).pairs t u hne

/-- Each of `n` threads sets its flag, calls the fence and then reads the flags of all the others. -/
def lookAround (f : Fence) (n : Nat) : State where
  mem := fun _ => 0
  buf := fun _ => []
  prog := fun t => if t < n then .write t 1 :: .fence f :: ((List.range n).filter (· ≠ t)).map .read else []
  log := []

theorem run_append (sys : System) (s : State) (a b : List Move) : run sys s (a ++ b) = run sys (run sys s a) b := List.foldl_append

/-- A thread reads variables that are 0 in memory and not in its buffer. -/
theorem run_reads (sys : System) {t : Nat} : ∀ (l : List Nat) {s : State}, s.prog t = l.map .read → (∀ a ∈ l, newest (s.buf t) a = none ∧ s.mem a = 0) →
    run sys s (List.replicate l.length (.step t)) = { s with prog := put s.prog t [], log := s.log ++ l.map fun a => (t, a, 0) }
  | [], s, hp, _ => by
    have : put s.prog t [] = s.prog := by
      funext u
      unfold put
      split
      · next e => rw [e, hp]; rfl
      · rfl
    simp only [List.length_nil, List.replicate_zero, List.map_nil, List.append_nil, this]
    rfl
  | a :: l, s, hp, ha => by
    have e : move sys s (.step t) = { s with prog := put s.prog t (l.map .read), log := s.log ++ [(t, a, 0)] } := by
      simp only [move]
      rw [hp]
      simp only [List.map_cons]
      have := ha a List.mem_cons_self
      rw [see, this.1, this.2]
      rfl
    rw [show List.replicate (a :: l).length (Move.step t) = .step t :: List.replicate l.length (.step t) from rfl]
    change run sys (move sys s (.step t)) _ = _
    rw [e, run_reads sys l (s := { s with prog := put s.prog t (l.map .read), log := s.log ++ [(t, a, 0)] }) (put_same _ _ _) (fun b hb => ha b (List.mem_cons_of_mem _ hb))]
    simp only [List.map_cons, List.append_assoc, List.cons_append, List.nil_append]
    congr 1
    funext u
    unfold put
    split <;> rfl

/-- All steps of thread `t`. -/
def turn (n t : Nat) : List Move := List.replicate (2 + ((List.range n).filter (· ≠ t)).length) (.step t)

theorem run_turn {sys : System} {f : Fence} (hf : drains sys f = false) {n t : Nat} (ht : t < n) {s : State} (hm : ∀ a, s.mem a = 0) (hb : s.buf t = [])
    (hp : s.prog t = (lookAround f n).prog t) : let s' := run sys s (turn n t)
    (∀ a, s'.mem a = 0) ∧ (∀ u, u ≠ t → s'.buf u = s.buf u ∧ s'.prog u = s.prog u) ∧ s'.log = s.log ++ ((List.range n).filter (· ≠ t)).map fun a => (t, a, 0) := by
  intro s'
  have hp' : s.prog t = .write t 1 :: .fence f :: ((List.range n).filter (· ≠ t)).map .read := by rw [hp]; exact if_pos ht
  have e1 : move sys s (.step t) = { s with buf := put s.buf t [(t, 1)], prog := put s.prog t (.fence f :: ((List.range n).filter (· ≠ t)).map .read) } := by
    simp only [move]
    rw [hp']
    simp only [hb, List.nil_append]
  have e2 : move sys (move sys s (.step t)) (.step t) = { s with buf := put s.buf t [(t, 1)], prog := put s.prog t (((List.range n).filter (· ≠ t)).map .read) } := by
    rw [e1]
    simp only [move, put_same, hf, Bool.false_eq_true, false_and, if_false]
    congr 1
    funext u
    unfold put
    split <;> rfl
  have e3 : s' = ⟨s.mem, put s.buf t [(t, 1)], put (put s.prog t (((List.range n).filter (· ≠ t)).map .read)) t [],
      s.log ++ ((List.range n).filter (· ≠ t)).map (fun a => (t, a, (0 : Int)))⟩ := by
    have : s' = run sys (move sys (move sys s (.step t)) (.step t)) (List.replicate ((List.range n).filter (· ≠ t)).length (.step t)) := by
      change run sys s (turn n t) = _
      unfold turn
      rw [Nat.add_comm]
      rfl
    rw [this, e2]
    refine run_reads sys _ (put_same _ _ _) (fun a ha => ⟨?_, hm a⟩)
    dsimp only
    rw [put_same]
    have : a ≠ t := by simpa using (List.mem_filter.1 ha).2
    simp [newest]
    exact fun e => this e.symm
  rw [e3]
  refine ⟨hm, fun u hu => ⟨put_other _ _ hu, ?_⟩, rfl⟩
  dsimp only
  rw [put_other _ _ hu, put_other _ _ hu]

/-- C160 (the code disagrees): on Windows, and with the tiny compiler, `zpl_mfence` is no instruction; any number of threads can announce themselves, call it, look for the others, and
nobody sees anybody.  So it is with `zpl_sfence` and `zpl_lfence` everywhere. -/
theorem C160_nobody_seen {sys : System} {f : Fence} (h : sys = .windows ∨ sys = .tinyc ∨ f ≠ .mfence) (n : Nat) :
    ∃ ms, ∀ t u, t < n → u < n → t ≠ u → (t, u, 0) ∈ (run sys (lookAround f n) ms).log := by
  have hf : drains sys f = false := by
    cases sys <;> cases f <;> simp_all [drains]
  have all : ∀ k, k ≤ n → ∃ ms, (∀ a, (run sys (lookAround f n) ms).mem a = 0) ∧
      (∀ u, k ≤ u → (run sys (lookAround f n) ms).buf u = [] ∧ (run sys (lookAround f n) ms).prog u = (lookAround f n).prog u) ∧
      ∀ t u, t < k → u < n → t ≠ u → (t, u, 0) ∈ (run sys (lookAround f n) ms).log := by
    intro k
    induction k with
    | zero => exact fun _ => ⟨[], fun _ => rfl, fun _ _ => ⟨rfl, rfl⟩, fun _ _ h => absurd h (by omega)⟩
    | succ k ih =>
      intro hk
      obtain ⟨ms, h1, h2, h3⟩ := ih (by omega)
      obtain ⟨r1, r2, r3⟩ := run_turn hf (show k < n by omega) h1 (h2 k (Nat.le_refl _)).1 (h2 k (Nat.le_refl _)).2
      refine ⟨ms ++ turn n k, ?_, ?_, ?_⟩
      · rw [run_append]
        exact r1
      · intro u hu
        rw [run_append]
        obtain ⟨a, b⟩ := r2 u (by omega)
        rw [a, b]
        exact h2 u (by omega)
      · intro t u ht hu hne
        rw [run_append, r3]
        by_cases e : t = k
        · subst e
          refine List.mem_append_right _ (List.mem_map.2 ⟨u, ?_, rfl⟩)
          simp [hu]
          omega
        · exact List.mem_append_left _ (h3 t u (by omega) hu hne)
  obtain ⟨ms, -, -, h⟩ := all n (Nat.le_refl n)
  exact ⟨ms, h⟩

/-! ### The 64-bit store of 32-bit machines -/

/-- atomic.c:221-235 `zpl_atomic64_store` on a 32-bit machine: `cmpxchg8b` without `lock`.  It reads the variable, and in a second step writes it: the new value if it had read what was
expected, and else what it has read (the instruction always writes); then it tries again with that.  The first read, of two halves, is taken to be one step. -/
inductive Store64 where
  | begin
  | compare (expected : Int)
  | write (expected old : Int)
  | done
  deriving DecidableEq, Repr

def step64 (v : Int) (value : Int) : Store64 → Int × Store64
  | .begin => (value, .compare value)
  | .compare e => (value, .write e value)
  | .write e old => if old = e then (v, .done) else (old, .compare old)
  | .done => (value, .done)

/-- What the other thread does: `zpl_atomic64_fetch_add` of 1, or `zpl_atomic64_load`; each returns the value before. -/
inductive Act64 where
  | store
  | add
  | load
  deriving DecidableEq, Repr

/-- The variable, the store, and what the other thread got. -/
def run64 (v : Int) : Int × Store64 × List Int → List Act64 → Int × Store64 × List Int
  | s, [] => s
  | (x, p, l), .store :: as => run64 v ((step64 v x p).1, (step64 v x p).2, l) as
  | (x, p, l), .add :: as => run64 v (x + 1, p, l ++ [x]) as
  | (x, p, l), .load :: as => run64 v (x, p, l ++ [x]) as

/-- Operations that each happen at one moment. -/
def atomic64 (v : Int) : Int → List Act64 → List Int
  | _, [] => []
  | _, .store :: as => atomic64 v v as
  | x, .add :: as => x :: atomic64 v (x + 1) as
  | x, .load :: as => x :: atomic64 v x as

/-- C160 (the code disagrees): while one thread stores, another adds twice and reads; the second addition is undone before the store is made, and there is no moment at which the store
could have happened that would explain what it reads. -/
theorem C160_store64 (x v : Int) (h : v ≠ x + 1) :
    ∃ as, as.filter (· ≠ .store) = [.add, .add, .load] ∧ (run64 v (x, .begin, []) as).2.1 = .done ∧
      ∀ a b, a ++ b = [.add, .add, .load] → (run64 v (x, .begin, []) as).2.2 ≠ atomic64 v x (a ++ .store :: b) := by
  have ne : ¬ x + 1 = x := by omega
  refine ⟨[.store, .add, .store, .add, .store, .load, .store, .store], by decide, by simp [run64, step64, ne], ?_⟩
  intro a b hab e
  have e0 : (run64 v (x, .begin, []) [.store, .add, .store, .add, .store, .load, .store, .store]).2.2 = [x, x + 1, x + 1] := by simp [run64, step64, ne]
  rw [e0] at e
  rcases a with _ | ⟨a1, _ | ⟨a2, _ | ⟨a3, _ | ⟨a4, a⟩⟩⟩⟩ <;> simp at hab
  · subst hab
    simp [atomic64] at e
    omega
  · obtain ⟨rfl, rfl⟩ := hab
    simp [atomic64] at e
    omega
  · obtain ⟨rfl, rfl, rfl⟩ := hab
    simp [atomic64] at e
    omega
  · obtain ⟨rfl, rfl, rfl, rfl⟩ := hab
    simp [atomic64] at e
    omega

/-! ### The hypotheses can be met -/

/-- Thread 0 writes two variables and then flag 9; thread 1 reads the flag and the variables. -/
def mail : State where
  mem := fun _ => 0
  buf := fun _ => []
  prog := fun t => if t = 0 then [.write 1 7, .write 2 8, .write 9 1] else if t = 1 then [.read 9, .read 1] else []
  log := []

theorem mail_owner : Owner mail.prog 0 (fun a => a = 1 ∨ a = 2 ∨ a = 9) := by
  constructor
  · intro i hi a ha hc
    simp only [mail, if_true, List.mem_cons, List.not_mem_nil, or_false] at hi
    rcases hi with rfl | rfl | rfl <;> cases hc <;> exact ⟨_, rfl⟩
  · intro u hu i hi a ha hc
    simp only [mail, hu, if_false] at hi
    split at hi
    · simp only [List.mem_cons, List.not_mem_nil, or_false] at hi
      rcases hi with rfl | rfl <;> cases hc
    · cases hi

example (ms : List Move) {i j : Nat} {x : Int} (hij : i < j) (hi : (run .windows mail ms).log[i]? = some (1, 9, 1)) (hj : (run .windows mail ms).log[j]? = some (1, 1, x)) : x = 7 :=
  C160_message .windows (s₀ := mail) ⟨fun _ => rfl, rfl⟩ mail_owner (flag := 9) (Or.inr (Or.inr rfl)) (pre := [.write 1 7, .write 2 8]) (post := []) rfl (by decide) (by decide) ms hi hj hij
    (by decide) (by decide) (Or.inl rfl) (by decide) (by simp)

/-- And it happens. -/
example : (run .windows mail [.step 0, .step 0, .step 0, .flush 0, .flush 0, .flush 0, .step 1, .step 1]).log = [(1, 9, 1), (1, 1, 7)] := by decide

/-- Two threads with `zpl_mfence` on Linux: at most one does not see the other. -/
example (ms : List Move) : (0, 1, 0) ∈ (run .gnu (lookAround .mfence 2) ms).log → (1, 0, 0) ∉ (run .gnu (lookAround .mfence 2) ms).log := by
  refine C160_fence_partial (B := fun _ => .fence .mfence) (hB := fun _ => ⟨rfl, Or.inr rfl⟩) (flag := id) (post := fun t => ((List.range 2).filter (· ≠ t)).map .read) (h0 := ⟨fun _ => rfl, rfl⟩) (hp := ?_) (hf := ?_) (ms := ms) (hne := by decide)
  · intro t
    simp only [lookAround, id]
    split
    · exact Or.inr rfl
    · exact Or.inl rfl
  · intro t u i hi hc
    simp only [lookAround] at hi
    split at hi
    · simp only [List.mem_cons, List.mem_map] at hi
      rcases hi with rfl | rfl | ⟨a, -, rfl⟩
      · have : t = u := hc
        subst this
        rfl
      · cases hc
      · cases hc
    · cases hi

end Zpl.Tso
