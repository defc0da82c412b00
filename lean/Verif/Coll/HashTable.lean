import Verif.Basic

/-!
# `ZPL_TABLE` (code/header/essentials/collections/hashtable.h)  -  C03, C04, C05

## Model

The two dynamic arrays of a table are modelled by their live cells (their own behaviour is C01).  Allocation is assumed to
succeed: the code ignores the result of `zpl_array_append` (hashtable.h:114).  Keys are natural numbers; the code's
keys are 64-bit and only compared and reduced modulo the bucket count, so the width plays no role. -/

namespace Zpl.Table

/-- hashtable.h:53-58 -/
structure Entry (V : Type) where
  key : Nat
  next : Int
  value : V
  deriving DecidableEq

/-- hashtable.h:60-63 -/
structure Tbl (V : Type) where
  hashes : List Int
  entries : List (Entry V)
  deriving DecidableEq

/-- zpl_hash_table_find_result, hashtable.h:40-44 -/
structure Found where
  hashIndex : Int
  prev : Int
  index : Int
  deriving DecidableEq

variable {V : Type}

/-- hashtable.h:84-87 `init`: both arrays have count 0. -/
def init : Tbl V := ⟨[], []⟩

/-- hashtable.h:94-97 `clear`. -/
def clear (h : Tbl V) : Tbl V := ⟨h.hashes.map (fun _ => -1), []⟩

/-- hashtable.h:99-106 `slot`: linear scan, -1 if absent. -/
def slotFrom (key : Nat) : List (Entry V) → Nat → Int
  | [], _ => -1
  | e :: es, i => if e.key = key then i else slotFrom key es (i + 1)

def slot (h : Tbl V) (key : Nat) : Int := slotFrom key h.entries 0

/-- hashtable.h:123-127, the chain walk; `fuel` bounds the number of iterations and running out is a fault. -/
def findFrom (es : List (Entry V)) (key : Nat) : Nat → Int → Int → Except Fault (Int × Int)
  | 0, _, _ => .error .diverge
  | fuel + 1, prev, idx =>
    if 0 ≤ idx then do
      let e ← rd es idx.toNat
      if e.key = key then .ok (prev, idx) else findFrom es key fuel idx e.next
    else .ok (prev, idx)

/-- hashtable.h:118-130 `_find`.  `entries.length + 1` iterations suffice unless the walk never ends. -/
def find (h : Tbl V) (key : Nat) : Except Fault Found :=
  if h.hashes.length > 0 then do
    let hi := key % h.hashes.length
    let start ← rd h.hashes hi
    let (p, i) ← findFrom h.entries key (h.entries.length + 1) (-1) start
    .ok ⟨hi, p, i⟩
  else .ok ⟨-1, -1, -1⟩

/-- hashtable.h:132-134 `_full`; `0.75f * n < m` written over integers (the float product is exact below 2^24 buckets). -/
def full (h : Tbl V) : Bool := 3 * h.hashes.length < 4 * h.entries.length

/-- Store `v` at signed index `i`: negative is out of bounds. -/
def wrI {α : Type} (xs : List α) (i : Int) (v : α) : Except Fault (List α) :=
  if 0 ≤ i then wr xs i.toNat v else .error .oob

/-- Set the `next` field of entry `i`. -/
def setNext (es : List (Entry V)) (i : Int) (nx : Int) : Except Fault (List (Entry V)) :=
  if 0 ≤ i then do
    let e ← rd es i.toNat
    wr es i.toNat { e with next := nx }
  else .error .oob

/-- hashtable.h:153-160, one iteration of the `rehash` loop for the old entry `e`. -/
def rehashEntry (nh : Tbl V) (e : Entry V) : Except Fault (Tbl V) := do
  let fr ← find nh e.key
  -- `_add_entry`, hashtable.h:108-116: the zero-initialised value field is overwritten two statements later.
  let j := nh.entries.length
  let es := nh.entries ++ [{ key := e.key, next := -1, value := e.value }]
  if fr.prev < 0 then do
    let hs ← wrI nh.hashes fr.hashIndex j
    let es ← setNext es j fr.index
    .ok ⟨hs, es⟩
  else do
    let es ← setNext es fr.prev j
    let es ← setNext es j fr.index
    .ok ⟨nh.hashes, es⟩

def rehashLoop (nh : Tbl V) : List (Entry V) → Except Fault (Tbl V)
  | [] => .ok nh
  | e :: es => do
    let nh ← rehashEntry nh e
    rehashLoop nh es

/-- hashtable.h:136-139 `grow`.  Its call of `rehash` always asks for at least 8 buckets, so the test on line 151 is
false there; that call is therefore written without the test. -/
def grow (h : Tbl V) : Except Fault (Tbl V) :=
  rehashLoop ⟨List.replicate (2 * h.entries.length + 8) (-1), []⟩ h.entries

/-- hashtable.h:220 (and 151): give an empty table its first buckets. -/
def ensureBuckets (h : Tbl V) : Except Fault (Tbl V) :=
  if h.hashes.length = 0 then grow h else .ok h

/-- hashtable.h:148-161, the `rehash` loop including the test on line 151. -/
def rehashLoopG (nh : Tbl V) : List (Entry V) → Except Fault (Tbl V)
  | [] => .ok nh
  | e :: es => do
    let nh ← ensureBuckets nh
    let nh ← rehashEntry nh e
    rehashLoopG nh es

/-- hashtable.h:141-165 `rehash`. -/
def rehash (h : Tbl V) (newCount : Nat) : Except Fault (Tbl V) :=
  rehashLoopG ⟨List.replicate newCount (-1), []⟩ h.entries

/-- hashtable.h:171-180, the loop of `rehash_fast` from entry `i` for `n` entries. -/
def fastLoop (h : Tbl V) (i : Nat) : Nat → Except Fault (Tbl V)
  | 0 => .ok h
  | n + 1 => do
    let e ← rd h.entries i
    let fr ← find h e.key
    if fr.prev < 0 then do
      let hs ← wrI h.hashes fr.hashIndex i
      fastLoop ⟨hs, h.entries⟩ (i + 1) n
    else do
      let es ← setNext h.entries fr.prev i
      fastLoop ⟨h.hashes, es⟩ (i + 1) n

/-- hashtable.h:167-181 `rehash_fast`. -/
def rehashFast (h : Tbl V) : Except Fault (Tbl V) :=
  fastLoop ⟨h.hashes.map (fun _ => -1), h.entries.map (fun e => { e with next := -1 })⟩ 0 h.entries.length

/-- hashtable.h:183-187 `get`; the returned pointer is modelled by the value it points to. -/
def get (h : Tbl V) (key : Nat) : Except Fault (Option V) := do
  let fr ← find h key
  if 0 ≤ fr.index then do
    let e ← rd h.entries fr.index.toNat
    .ok (some e.value)
  else .ok none

/-- hashtable.h:197-199 `remove_entry`: array.h:198-204 with its assertion. -/
def removeEntry (h : Tbl V) (i : Nat) : Except Fault (Tbl V) :=
  if i < h.entries.length then .ok ⟨h.hashes, h.entries.eraseIdx i⟩ else .error .assertion

/-- hashtable.h:189-195 `remove`. -/
def remove (h : Tbl V) (key : Nat) : Except Fault (Tbl V) := do
  let fr ← find h key
  if 0 ≤ fr.index then do
    let h ← removeEntry h fr.index.toNat
    rehashFast h
  else .ok h

/-- hashtable.h:222-232, the body of `set` once the search result is known. -/
def store (h : Tbl V) (key : Nat) (value : V) (fr : Found) : Except Fault (Tbl V) :=
  if 0 ≤ fr.index then do
    let e ← rd h.entries fr.index.toNat
    let es ← wr h.entries fr.index.toNat { e with value := value }
    .ok ⟨h.hashes, es⟩
  else
    -- `_add_entry` followed by the store of the value (hashtable.h:225, 232)
    let index := h.entries.length
    let es := h.entries ++ [{ key := key, next := -1, value := value }]
    if 0 ≤ fr.prev then do
      let es ← setNext es fr.prev index
      .ok ⟨h.hashes, es⟩
    else do
      let hs ← wrI h.hashes fr.hashIndex index
      .ok ⟨hs, es⟩

/-- hashtable.h:233 -/
def growIfFull (h : Tbl V) : Except Fault (Tbl V) := if full h then grow h else .ok h

/-- hashtable.h:217-234 `set`. -/
def set (h : Tbl V) (key : Nat) (value : V) : Except Fault (Tbl V) := do
  let h ← ensureBuckets h
  let fr ← find h key
  let h ← store h key value fr
  growIfFull h

/-- hashtable.h:201-207 `map`: the sequence of calls made. -/
def map (h : Tbl V) : List (Nat × V) := h.entries.map (fun e => (e.key, e.value))

/-- hashtable.h:209-215 `map_mut`: a visitor with its own state `S`, which may change the value it is given. -/
def mapMut {S : Type} (f : S → Nat → V → S × V) : S → List (Entry V) → S × List (Entry V)
  | s, [] => (s, [])
  | s, e :: es =>
    let (s, v) := f s e.key e.value
    let (s, r) := mapMut f s es
    (s, { e with value := v } :: r)

/-! ## Histories -/

inductive Op (V : Type) where
  | set (k : Nat) (v : V)
  | get (k : Nat)
  | slot (k : Nat)
  | remove (k : Nat)
  | clear
  | grow
  | rehash (n : Nat)
  | rehashFast

inductive Out (V : Type) where
  | none
  | value (v : Option V)
  | index (i : Int)
  deriving DecidableEq

def step (h : Tbl V) : Op V → Except Fault (Tbl V × Out V)
  | .set k v => do .ok (← set h k v, .none)
  | .get k => do .ok (h, .value (← get h k))
  | .slot k => .ok (h, .index (slot h k))
  | .remove k => do .ok (← remove h k, .none)
  | .clear => .ok (clear h, .none)
  | .grow => do .ok (← grow h, .none)
  | .rehash n => do .ok (← rehash h n, .none)
  | .rehashFast => do .ok (← rehashFast h, .none)

def run (h : Tbl V) : List (Op V) → Except Fault (Tbl V × List (Out V))
  | [] => .ok (h, [])
  | op :: ops => do
    let (h, o) ← step h op
    let (h, os) ← run h ops
    .ok (h, o :: os)

/-! ## Specification: bindings in insertion order -/

abbrev Binds (V : Type) := List (Nat × V)

def bSet (m : Binds V) (k : Nat) (v : V) : Binds V :=
  if k ∈ m.map Prod.fst then m.map (fun b => if b.1 = k then (k, v) else b) else m ++ [(k, v)]

def bRemove (m : Binds V) (k : Nat) : Binds V := m.filter (fun b => b.1 ≠ k)

def bGet (m : Binds V) (k : Nat) : Option V := (m.find? (fun b => b.1 = k)).map Prod.snd

def bIndex (m : Binds V) (k : Nat) : Int :=
  match (m.map Prod.fst).idxOf? k with
  | some i => i
  | none => -1

def specStep (m : Binds V) : Op V → Binds V × Out V
  | .set k v => (bSet m k v, .none)
  | .get k => (m, .value (bGet m k))
  | .slot k => (m, .index (bIndex m k))
  | .remove k => (bRemove m k, .none)
  | .clear => ([], .none)
  | .grow => (m, .none)
  | .rehash _ => (m, .none)
  | .rehashFast => (m, .none)

def specRun (m : Binds V) : List (Op V) → Binds V × List (Out V)
  | [] => (m, [])
  | op :: ops =>
    let (m, o) := specStep m op
    let (m, os) := specRun m ops
    (m, o :: os)

/-! ## Lemmas -/

/-- The chain starting at `s` visits exactly the entries `ch`. -/
def ChainFrom (es : List (Entry V)) : Int → List Nat → Prop
  | s, [] => s = -1
  | s, i :: is => s = (i : Int) ∧ ∃ e, es[i]? = some e ∧ ChainFrom es e.next is

/-- Indices below `m` whose key falls in bucket `b` of `n`. -/
def bucket (es : List (Entry V)) (n b m : Nat) : List Nat :=
  (List.range m).filter (fun i => es[i]?.any (fun e => e.key % n = b))

theorem mem_bucket {es : List (Entry V)} {n b m i : Nat} :
    i ∈ bucket es n b m ↔ i < m ∧ ∃ e, es[i]? = some e ∧ e.key % n = b := by
  simp [bucket, Option.any_eq_true]

theorem bucket_nodup {es : List (Entry V)} {n b m : Nat} : (bucket es n b m).Nodup :=
  (List.nodup_range).sublist List.filter_sublist

theorem bucket_length {es : List (Entry V)} {n b m : Nat} : (bucket es n b m).length ≤ m := by
  have := List.length_filter_le (fun i => es[i]?.any (fun e => e.key % n = b)) (List.range m)
  simpa [bucket] using this

theorem bucket_succ (es : List (Entry V)) (n b m : Nat) {e : Entry V} (he : es[m]? = some e) :
    bucket es n b (m + 1) = if e.key % n = b then bucket es n b m ++ [m] else bucket es n b m := by
  simp only [bucket, List.range_succ, List.filter_append]
  by_cases h : e.key % n = b <;> simp [he, h]

/-- Bucket contents depend only on the keys. -/
theorem bucket_congr {es es' : List (Entry V)} {n b m : Nat}
    (h : ∀ i < m, es[i]?.map Entry.key = es'[i]?.map Entry.key) : bucket es n b m = bucket es' n b m := by
  apply List.filter_congr
  intro i hi
  have := h i (List.mem_range.mp hi)
  cases h1 : es[i]? <;> cases h2 : es'[i]? <;> simp [h1, h2] at this ⊢
  rw [this]

theorem chain_congr {es es' : List (Entry V)} : ∀ {ch : List Nat} {s : Int},
    (∀ i ∈ ch, es[i]?.map Entry.next = es'[i]?.map Entry.next) → ChainFrom es s ch → ChainFrom es' s ch
  | [], _, _, h => h
  | i :: is, s, hc, ⟨h1, e, h2, h3⟩ => by
    have := hc i (by simp)
    rw [h2] at this
    cases h4 : es'[i]? with
    | none => simp [h4] at this
    | some e' =>
      simp [h4] at this
      exact ⟨h1, e', h4, by rw [← this]; exact chain_congr (fun j hj => hc j (by simp [hj])) h3⟩

/-- The last index of a chain, or `p` when it is empty. -/
def lastOr (p : Int) : List Nat → Int
  | [] => p
  | i :: is => lastOr i is

theorem find_absent {es : List (Entry V)} {key : Nat} : ∀ {ch : List Nat} {s p : Int} {fuel : Nat}, ChainFrom es s ch →
    ch.length < fuel → (∀ i ∈ ch, ∀ e, es[i]? = some e → e.key ≠ key) →
    findFrom es key fuel p s = .ok (lastOr p ch, -1)
  | _, _, _, 0, _, hf, _ => by simp at hf
  | [], s, p, fuel + 1, h, _, _ => by
    have : s = -1 := h
    subst this
    simp [findFrom, lastOr]
  | i :: is, s, p, fuel + 1, ⟨h1, e, h2, h3⟩, hf, hk => by
    subst h1
    have hne := hk i (by simp) e h2
    have := find_absent (p := i) h3 (by simpa using hf) (fun j hj => hk j (by simp [hj]))
    simp [findFrom, rd, h2, hne, this, lastOr]

theorem find_present {es : List (Entry V)} {key : Nat} : ∀ {ch : List Nat} {s p : Int} {fuel : Nat} {j : Nat} {e : Entry V},
    ChainFrom es s ch → ch.length < fuel → j ∈ ch → es[j]? = some e → e.key = key →
    (∀ i ∈ ch, ∀ e, es[i]? = some e → e.key = key → i = j) →
    ∃ q, findFrom es key fuel p s = .ok (q, j)
  | _, _, _, 0, _, _, _, hf, _, _, _, _ => by simp at hf
  | [], _, _, _, _, _, _, _, hj, _, _, _ => by simp at hj
  | i :: is, s, p, fuel + 1, j, e, ⟨h1, e', h2, h3⟩, hf, hj, he, hk, hu => by
    subst h1
    by_cases hi : e'.key = key
    · have : i = j := hu i (by simp) e' h2 hi
      subst this
      exact ⟨p, by simp [findFrom, rd, h2, hi]⟩
    · have hji : j ∈ is := by
        rcases List.mem_cons.mp hj with h | h
        · subst h; rw [h2] at he; injection he with he; subst he; exact absurd hk hi
        · exact h
      obtain ⟨q, hq⟩ := find_present (p := i) h3 (by simpa using hf) hji he hk (fun l hl => hu l (by simp [hl]))
      exact ⟨q, by simp [findFrom, rd, h2, hi, hq]⟩

theorem lastOr_cases (ch : List Nat) (p : Int) : (ch = [] ∧ lastOr p ch = p) ∨ ∃ i ∈ ch, lastOr p ch = (i : Int) := by
  induction ch generalizing p with
  | nil => exact Or.inl ⟨rfl, rfl⟩
  | cons i is ih =>
    right
    rcases ih (i : Int) with ⟨h1, h2⟩ | ⟨j, h1, h2⟩
    · exact ⟨i, by simp, by simpa [lastOr] using h2⟩
    · exact ⟨j, by simp [h1], by simpa [lastOr] using h2⟩

theorem lastOr_ne_nil {ch : List Nat} (h : ch ≠ []) (p q : Int) : lastOr p ch = lastOr q ch := by
  cases ch with
  | nil => exact absurd rfl h
  | cons i is => rfl

/-- Appending `m` at the end of a chain by setting the `next` field of its last entry. -/
theorem chain_snoc {es : List (Entry V)} {m : Nat} {em : Entry V} (hm : es[m]? = some em) (hnx : em.next = -1) :
    ∀ {ch : List Nat} {s : Int} {l : Nat} {el : Entry V}, ChainFrom es s ch → ch.Nodup → m ∉ ch → ch ≠ [] →
      lastOr (-1) ch = (l : Int) → es[l]? = some el → ChainFrom (es.set l { el with next := m }) s (ch ++ [m])
  | [], _, _, _, _, _, _, hne, _, _ => absurd rfl hne
  | [i], s, l, el, ⟨h1, e, h2, h3⟩, hnd, hmi, _, hl, hel => by
    have hil : i = l := by
      have : ((i : Nat) : Int) = l := hl
      omega
    subst hil
    rw [h2] at hel; injection hel with hel; subst hel
    have hmi' : i ≠ m := fun h => hmi (by simp [h])
    have hlt : i < es.length := by
      rw [List.getElem?_eq_some_iff] at h2; exact h2.1
    refine ⟨h1, { e with next := m }, by simp [hlt], rfl, em, ?_, hnx⟩
    rw [List.getElem?_set_ne hmi']; exact hm
  | i :: k :: is, s, l, el, ⟨h1, e, h2, h3⟩, hnd, hmi, _, hl, hel => by
    have hl' : lastOr (-1) (k :: is) = (l : Int) := by simpa [lastOr] using hl
    have hli : i ≠ l := by
      rintro rfl
      rcases lastOr_cases (k :: is) (-1) with ⟨h, _⟩ | ⟨j, h, h'⟩
      · simp at h
      · rw [hl'] at h'
        have : j = i := by omega
        subst this
        exact (List.nodup_cons.mp hnd).1 h
    have := chain_snoc hm hnx h3 (List.nodup_cons.mp hnd).2 (fun h => hmi (by simp [h])) (by simp) hl' hel
    refine ⟨h1, e, ?_, this⟩
    rw [List.getElem?_set_ne (fun h => hli h.symm)]; exact h2

/-- The first `m` entries are linked into their buckets in index order; the others are not linked. -/
structure Linked (h : Tbl V) (m : Nat) : Prop where
  le : m ≤ h.entries.length
  chains : ∀ b (hb : b < h.hashes.length), ChainFrom h.entries h.hashes[b] (bucket h.entries h.hashes.length b m)

/-- Keys are distinct. -/
def Keys (es : List (Entry V)) : Prop := (es.map Entry.key).Nodup

theorem keys_inj {es : List (Entry V)} (h : Keys es) {i j : Nat} {e f : Entry V} (hi : es[i]? = some e) (hj : es[j]? = some f)
    (hk : e.key = f.key) : i = j := by
  obtain ⟨h1, h1'⟩ := List.getElem?_eq_some_iff.mp hi
  obtain ⟨h2, h2'⟩ := List.getElem?_eq_some_iff.mp hj
  refine (List.getElem_inj (h₀ := by simpa using h1) (h₁ := by simpa using h2) h).mp ?_
  simp [h1', h2', hk]

theorem find_none {h : Tbl V} {m key : Nat} (hl : Linked h m) (hn : 0 < h.hashes.length)
    (ha : ∀ i < m, ∀ e, h.entries[i]? = some e → e.key ≠ key) :
    find h key = .ok ⟨(key % h.hashes.length : Nat), lastOr (-1) (bucket h.entries h.hashes.length (key % h.hashes.length) m), -1⟩ := by
  have hb := Nat.mod_lt key hn
  have hc := hl.chains _ hb
  have hlen := bucket_length (es := h.entries) (n := h.hashes.length) (b := key % h.hashes.length) (m := m)
  have := find_absent (key := key) (p := -1) (fuel := h.entries.length + 1) hc (by have := hl.le; omega)
    (fun i hi e he => ha i (mem_bucket.mp hi).1 e he)
  simp only [find, gt_iff_lt, hn, if_true, rd_ok hb, except_ok_bind, this]

theorem find_some {h : Tbl V} {key j : Nat} {e : Entry V} (hl : Linked h h.entries.length) (hk : Keys h.entries)
    (hn : 0 < h.hashes.length) (hj : h.entries[j]? = some e) (he : e.key = key) :
    ∃ p, find h key = .ok ⟨(key % h.hashes.length : Nat), p, j⟩ := by
  have hb := Nat.mod_lt key hn
  have hc := hl.chains _ hb
  have hlen := bucket_length (es := h.entries) (n := h.hashes.length) (b := key % h.hashes.length) (m := h.entries.length)
  obtain ⟨q, hq⟩ := find_present (key := key) (p := -1) (fuel := h.entries.length + 1) (j := j) (e := e) hc (by omega)
    (mem_bucket.mpr ⟨(List.getElem?_eq_some_iff.mp hj).1, e, hj, by rw [he]⟩) hj he
    (fun i _ f hf hfk => keys_inj hk hf hj (by rw [hfk, he]))
  exact ⟨q, by simp only [find, gt_iff_lt, hn, if_true, rd_ok hb, except_ok_bind, hq]⟩

/-- What linking entry `m` does, in both forms used by the code. -/
theorem link_step {h : Tbl V} {m : Nat} {e : Entry V} (hl : Linked h m)
    (hn : 0 < h.hashes.length) (he : h.entries[m]? = some e) (hnx : e.next = -1) :
    let b := e.key % h.hashes.length
    let p := lastOr (-1) (bucket h.entries h.hashes.length b m)
    (p < 0 → Linked ⟨h.hashes.set b m, h.entries⟩ (m + 1)) ∧
    (0 ≤ p → ∃ f, h.entries[p.toNat]? = some f ∧ p.toNat < m ∧
      Linked ⟨h.hashes, h.entries.set p.toNat { f with next := m }⟩ (m + 1)) := by
  intro b p
  have hb : b < h.hashes.length := Nat.mod_lt _ hn
  have hm : m < h.entries.length := (List.getElem?_eq_some_iff.mp he).1
  constructor
  · intro hp
    have hemp : bucket h.entries h.hashes.length b m = [] := by
      rcases lastOr_cases (bucket h.entries h.hashes.length b m) (-1) with ⟨h1, _⟩ | ⟨i, _, h2⟩
      · exact h1
      · exfalso; simp only [p] at hp; omega
    refine ⟨hm, fun c hc => ?_⟩
    simp only [List.length_set] at hc ⊢
    rw [bucket_succ _ _ _ _ he]
    by_cases hbc : b = c
    · subst hbc
      simp only [b, if_true]
      rw [show bucket h.entries h.hashes.length (e.key % h.hashes.length) m = [] from hemp]
      simp only [List.getElem_set_self, List.nil_append]
      exact ⟨rfl, e, he, hnx⟩
    · rw [if_neg hbc, List.getElem_set_ne hbc]
      exact hl.chains c hc
  · intro hp
    have hc0 := hl.chains b hb
    rcases lastOr_cases (bucket h.entries h.hashes.length b m) (-1) with ⟨_, h2⟩ | ⟨i, hi, h2⟩
    · exfalso; simp only [p] at hp; omega
    · have hpi : p = (i : Int) := h2
      obtain ⟨him, f, hf, hfb⟩ := mem_bucket.mp hi
      have hpt : p.toNat = i := by omega
      rw [hpt]
      refine ⟨f, hf, him, ?_, ?_⟩
      · simp; exact hm
      · intro c hc
        simp only at hc ⊢
        have hkeys : ∀ j : Nat, (h.entries.set i { f with next := (m : Int) })[j]?.map Entry.key = h.entries[j]?.map Entry.key := by
          intro j
          by_cases hij : i = j
          · subst hij
            have : i < h.entries.length := by omega
            simp only [List.getElem?_set_self this, hf, Option.map_some]
          · rw [List.getElem?_set_ne hij]
        rw [bucket_congr (es' := h.entries) (fun j _ => hkeys j), bucket_succ _ _ _ _ he]
        by_cases hbc : b = c
        · subst hbc
          simp only [b, if_true]
          refine chain_snoc he hnx (hl.chains b hb) bucket_nodup ?_ (List.ne_nil_of_mem hi) (by rw [h2]) hf
          intro hmem
          have := (mem_bucket.mp hmem).1
          omega
        · rw [if_neg hbc]
          refine chain_congr (fun j hj => ?_) (hl.chains c hc)
          have hij : i ≠ j := by
            rintro rfl
            obtain ⟨_, f', hf', hfc⟩ := mem_bucket.mp hj
            rw [hf] at hf'; injection hf' with hf'; subst hf'
            exact hbc (by rw [← hfb, hfc])
          rw [List.getElem?_set_ne hij]

/-- Key/value contents in index order. -/
def binds (es : List (Entry V)) : Binds V := es.map (fun e => (e.key, e.value))

theorem binds_setNext {es : List (Entry V)} {i : Nat} {f : Entry V} {x : Int} (h : es[i]? = some f) :
    binds (es.set i { f with next := x }) = binds es := by
  obtain ⟨h1, h2⟩ := List.getElem?_eq_some_iff.mp h
  apply List.ext_getElem?
  intro j
  simp only [binds, List.getElem?_map]
  by_cases hij : i = j
  · subst hij; simp [h1, h2]
  · rw [List.getElem?_set_ne hij]

theorem keys_eq (es : List (Entry V)) : (binds es).map Prod.fst = es.map Entry.key := by
  simp [binds]

theorem keys_of_binds {es es' : List (Entry V)} (h : binds es = binds es') : Keys es ↔ Keys es' := by
  unfold Keys; rw [← keys_eq es, ← keys_eq es', h]

/-- The invariant of reachable tables. -/
structure Inv (h : Tbl V) : Prop where
  keys : Keys h.entries
  linked : Linked h h.entries.length
  nonempty : h.entries ≠ [] → 0 < h.hashes.length

/-! ### rehash -/

theorem linked_append {h : Tbl V} {e : Entry V} (hl : Linked h h.entries.length) :
    Linked ⟨h.hashes, h.entries ++ [e]⟩ h.entries.length := by
  refine ⟨by simp, fun b hb => ?_⟩
  simp only
  have : ∀ i < h.entries.length, (h.entries ++ [e])[i]? = h.entries[i]? := fun i hi => by
    rw [List.getElem?_append_left hi]
  rw [bucket_congr (es' := h.entries) (fun i hi => by rw [this i hi])]
  refine chain_congr (fun i hi => ?_) (hl.chains b hb)
  rw [this i (mem_bucket.mp hi).1]

/-- The common effect of "add an entry at the end and link it", as done by `set` and `rehash`. -/
theorem add_link {h : Tbl V} {k : Nat} {v : V} (hl : Linked h h.entries.length) (hk : Keys h.entries)
    (hn : 0 < h.hashes.length) (hnew : k ∉ h.entries.map Entry.key) :
    ∃ p : Int, find h k = .ok ⟨(k % h.hashes.length : Nat), p, -1⟩ ∧
      (p < 0 → Inv ⟨h.hashes.set (k % h.hashes.length) h.entries.length, h.entries ++ [⟨k, -1, v⟩]⟩) ∧
      (0 ≤ p → ∃ f, (h.entries ++ [⟨k, -1, v⟩])[p.toNat]? = some f ∧ p.toNat < h.entries.length ∧
        binds ((h.entries ++ [(⟨k, -1, v⟩ : Entry V)]).set p.toNat { f with next := (h.entries.length : Int) }) = binds h.entries ++ [(k, v)] ∧
        Inv ⟨h.hashes, (h.entries ++ [(⟨k, -1, v⟩ : Entry V)]).set p.toNat { f with next := (h.entries.length : Int) }⟩) := by
  have habs : ∀ i < h.entries.length, ∀ e, h.entries[i]? = some e → e.key ≠ k := by
    intro i hi e he hek
    obtain ⟨h1, h2⟩ := List.getElem?_eq_some_iff.mp he
    exact hnew (List.mem_map.mpr ⟨e, by rw [← h2]; exact List.getElem_mem h1, hek⟩)
  have hf := find_none hl hn habs
  have hkeys : Keys (h.entries ++ [⟨k, -1, v⟩]) := by
    simp only [Keys, List.map_append, List.map_cons, List.map_nil]
    exact List.nodup_append.mpr ⟨hk, by simp, by
      intro a ha b hb; simp at hb; subst hb; rintro rfl; exact hnew ha⟩
  have hem : (h.entries ++ [⟨k, -1, v⟩])[h.entries.length]? = some ⟨k, -1, v⟩ := by simp
  have key := link_step (linked_append (e := ⟨k, -1, v⟩) hl) hn hem rfl
  simp only at key
  have hbk : bucket (h.entries ++ [⟨k, -1, v⟩]) h.hashes.length (k % h.hashes.length) h.entries.length
      = bucket h.entries h.hashes.length (k % h.hashes.length) h.entries.length :=
    bucket_congr (fun i hi => by rw [List.getElem?_append_left hi])
  rw [hbk] at key
  refine ⟨_, hf, fun hp => ?_, fun hp => ?_⟩
  · have := key.1 hp
    refine ⟨hkeys, ?_, fun _ => by simpa using hn⟩
    simpa using this
  · obtain ⟨f, h1, h2, h3⟩ := key.2 hp
    refine ⟨f, h1, h2, ?_, ?_, ?_, fun _ => hn⟩
    · rw [binds_setNext h1]; simp [binds]
    · rw [keys_of_binds (binds_setNext h1)]; exact hkeys
    · simpa using h3

theorem setNext_last {es : List (Entry V)} {k : Nat} {v : V} :
    setNext (es ++ [⟨k, -1, v⟩]) (es.length : Int) (-1) = .ok (es ++ [⟨k, -1, v⟩]) := by
  simp [setNext, rd, wr]

theorem setNext_same {es : List (Entry V)} {i : Nat} {k : Nat} {v : V} (h : es[i]? = some ⟨k, -1, v⟩) :
    setNext es (i : Int) (-1) = .ok es := by
  obtain ⟨h1, h2⟩ := List.getElem?_eq_some_iff.mp h
  have : es.set i ⟨k, -1, v⟩ = es := by rw [← h2]; simp
  have hr : rd es i = .ok ⟨k, -1, v⟩ := by simp [rd, h1, h2]
  simp only [setNext, Int.natCast_nonneg, if_true, Int.toNat_natCast, hr, except_ok_bind, wr_ok h1, this]

theorem rehashEntry_ok {nh : Tbl V} {e : Entry V} (hi : Inv nh) (hn : 0 < nh.hashes.length)
    (hnew : e.key ∉ nh.entries.map Entry.key) :
    ∃ nh', rehashEntry nh e = .ok nh' ∧ Inv nh' ∧ nh'.hashes.length = nh.hashes.length ∧
      binds nh'.entries = binds nh.entries ++ [(e.key, e.value)] := by
  obtain ⟨p, hf, h1, h2⟩ := add_link (v := e.value) hi.linked hi.keys hn hnew
  have hb := Nat.mod_lt e.key hn
  by_cases hp : p < 0
  · refine ⟨_, ?_, h1 hp, by simp, by simp [binds]⟩
    simp only [rehashEntry, hf, except_ok_bind, hp, if_true, wrI, wr, Int.toNat_natCast, hb, Int.natCast_nonneg]
    rw [setNext_last]; rfl
  · obtain ⟨f, h3, h4, h5, h6⟩ := h2 (by omega)
    refine ⟨_, ?_, h6, rfl, h5⟩
    have hp0 : 0 ≤ p := by omega
    have hne : p.toNat ≠ nh.entries.length := by omega
    have hr : rd (nh.entries ++ [(⟨e.key, -1, e.value⟩ : Entry V)]) p.toNat = .ok f := by simp [rd, h3]
    have hlt : p.toNat < (nh.entries ++ [(⟨e.key, -1, e.value⟩ : Entry V)]).length := by simp; omega
    have hm : ((nh.entries ++ [(⟨e.key, -1, e.value⟩ : Entry V)]).set p.toNat { f with next := (nh.entries.length : Int) })[nh.entries.length]?
        = some ⟨e.key, -1, e.value⟩ := by rw [List.getElem?_set_ne hne]; simp
    have hs1 : setNext (nh.entries ++ [(⟨e.key, -1, e.value⟩ : Entry V)]) p (nh.entries.length : Int) = .ok ((nh.entries ++ [(⟨e.key, -1, e.value⟩ : Entry V)]).set p.toNat { f with next := (nh.entries.length : Int) }) := by
      simp only [setNext, hp0, if_true, hr, except_ok_bind, wr_ok hlt]
    have hs2 := setNext_same hm
    simp only [rehashEntry, hf, except_ok_bind, hp, if_false, hs1, hs2]

theorem rehashLoop_ok : ∀ (es : List (Entry V)) (nh : Tbl V), Inv nh → 0 < nh.hashes.length →
    ((binds nh.entries ++ binds es).map Prod.fst).Nodup →
    ∃ nh', rehashLoop nh es = .ok nh' ∧ Inv nh' ∧ 0 < nh'.hashes.length ∧ binds nh'.entries = binds nh.entries ++ binds es
  | [], nh, hi, hn, _ => ⟨nh, rfl, hi, hn, by simp [binds]⟩
  | e :: es, nh, hi, hn, hd => by
    have hnew : e.key ∉ nh.entries.map Entry.key := by
      intro hmem
      rw [List.map_append, keys_eq] at hd
      exact (List.nodup_append.mp hd).2.2 _ hmem e.key (by simp [binds]) rfl
    obtain ⟨nh1, h1, h2, h3, h4⟩ := rehashEntry_ok hi hn hnew
    obtain ⟨nh2, h5, h6, h7, h8⟩ := rehashLoop_ok es nh1 h2 (by omega) (by rw [h4]; simpa [binds] using hd)
    exact ⟨nh2, by simp [rehashLoop, h1, h5], h6, h7, by rw [h8, h4]; simp [binds]⟩

theorem inv_fresh (n : Nat) : Inv (⟨List.replicate n (-1), []⟩ : Tbl V) :=
  ⟨by simp [Keys], ⟨by simp, fun b hb => by simp [bucket, ChainFrom]⟩, by simp⟩

theorem grow_ok {h : Tbl V} (hk : Keys h.entries) :
    ∃ h', grow h = .ok h' ∧ Inv h' ∧ 0 < h'.hashes.length ∧ binds h'.entries = binds h.entries := by
  obtain ⟨h', h1, h2, h3, h4⟩ := rehashLoop_ok h.entries ⟨List.replicate (2 * h.entries.length + 8) (-1), []⟩
    (inv_fresh _) (by simp) (by simp only [binds, List.map_nil, List.nil_append]; exact (keys_eq h.entries) ▸ hk)
  exact ⟨h', h1, h2, h3, by rw [h4]; simp [binds]⟩

theorem rehashLoopG_eq : ∀ (es : List (Entry V)) (nh : Tbl V), Inv nh → 0 < nh.hashes.length →
    ((binds nh.entries ++ binds es).map Prod.fst).Nodup → rehashLoopG nh es = rehashLoop nh es
  | [], _, _, _, _ => rfl
  | e :: es, nh, hi, hn, hd => by
    have hnew : e.key ∉ nh.entries.map Entry.key := by
      intro hmem
      rw [List.map_append, keys_eq] at hd
      exact (List.nodup_append.mp hd).2.2 _ hmem e.key (by simp [binds]) rfl
    obtain ⟨nh1, h1, h2, h3, h4⟩ := rehashEntry_ok hi hn hnew
    have hne : nh.hashes.length ≠ 0 := by omega
    have := rehashLoopG_eq es nh1 h2 (by omega) (by rw [h4]; simpa [binds] using hd)
    simp [rehashLoopG, rehashLoop, ensureBuckets, hne, h1, this]

theorem rehash_ok {h : Tbl V} (hk : Keys h.entries) (n : Nat) :
    ∃ h', rehash h n = .ok h' ∧ Inv h' ∧ binds h'.entries = binds h.entries := by
  have hd : ((binds h.entries).map Prod.fst).Nodup := (keys_eq h.entries) ▸ hk
  cases hes : h.entries with
  | nil => exact ⟨_, by rw [rehash, hes]; rfl, inv_fresh n, by simp [binds]⟩
  | cons e es =>
    rw [hes] at hd
    by_cases hn : n = 0
    · subst hn
      obtain ⟨g, g1, g2, g3, g4⟩ := grow_ok (h := (⟨[], []⟩ : Tbl V)) (by simp [Keys])
      have g5 : g.entries = [] := by simpa [binds] using g4
      have hnew : e.key ∉ g.entries.map Entry.key := by simp [g5]
      obtain ⟨nh1, h1, h2, h3, h4⟩ := rehashEntry_ok g2 g3 hnew
      have hd1 : ((binds nh1.entries ++ binds es).map Prod.fst).Nodup := by
        rw [h4, g5]; simpa [binds] using hd
      obtain ⟨nh2, h5, h6, h7, h8⟩ := rehashLoop_ok es nh1 h2 (by omega) hd1
      refine ⟨nh2, ?_, h6, ?_⟩
      · rw [rehash, hes]
        simp only [List.replicate_zero, rehashLoopG, ensureBuckets, List.length_nil, if_true, g1, except_ok_bind, h1]
        rw [rehashLoopG_eq es nh1 h2 (by omega) hd1, h5]
      · rw [h8, h4, g5]; simp [binds]
    · have hl : 0 < (⟨List.replicate n (-1), []⟩ : Tbl V).hashes.length := by simp; omega
      have hd0 : ((binds (⟨List.replicate n (-1), []⟩ : Tbl V).entries ++ binds (e :: es)).map Prod.fst).Nodup := by
        simpa [binds] using hd
      obtain ⟨h', h1, h2, h3, h4⟩ := rehashLoop_ok (e :: es) _ (inv_fresh n) hl hd0
      refine ⟨h', ?_, h2, ?_⟩
      · rw [rehash, hes, rehashLoopG_eq _ _ (inv_fresh n) hl hd0, h1]
      · rw [h4]; simp [binds]

/-! ### rehash_fast -/

theorem fastLoop_ok : ∀ (n i : Nat) (h : Tbl V), Linked h i → Keys h.entries → 0 < h.hashes.length →
    i + n = h.entries.length → (∀ j ≥ i, ∀ e, h.entries[j]? = some e → e.next = -1) →
    ∃ h', fastLoop h i n = .ok h' ∧ Inv h' ∧ 0 < h'.hashes.length ∧ binds h'.entries = binds h.entries
  | 0, i, h, hl, hk, hn, hlen, _ => by
    refine ⟨h, rfl, ⟨hk, ?_, fun _ => hn⟩, hn, rfl⟩
    have : i = h.entries.length := by omega
    rw [← this]; exact hl
  | n + 1, i, h, hl, hk, hn, hlen, hnx => by
    have hi : i < h.entries.length := by omega
    have he : h.entries[i]? = some h.entries[i] := by simp [hi]
    have habs : ∀ j < i, ∀ e, h.entries[j]? = some e → e.key ≠ h.entries[i].key := by
      intro j hj e hje hke
      have := keys_inj hk hje he hke
      omega
    have hf := find_none hl hn habs
    have key := link_step hl hn he (hnx i (Nat.le_refl _) _ he)
    simp only at key
    have hb := Nat.mod_lt h.entries[i].key hn
    generalize hp : lastOr (-1) (bucket h.entries h.hashes.length (h.entries[i].key % h.hashes.length) i) = p at key hf
    by_cases hp0 : p < 0
    · have h1 := key.1 hp0
      obtain ⟨h', h2, h3, h4, h5⟩ := fastLoop_ok n (i + 1) _ h1 hk (by simpa using hn) (by simp; omega)
        (fun j hj e hje => hnx j (by omega) e hje)
      refine ⟨h', ?_, h3, h4, h5⟩
      simp only [fastLoop, rd_ok hi, except_ok_bind, hf, hp0, if_true, wrI, wr, Int.toNat_natCast, hb, Int.natCast_nonneg, h2]
    · obtain ⟨f, h1, h1', h2⟩ := key.2 (by omega)
      have hpl : p.toNat < h.entries.length := (List.getElem?_eq_some_iff.mp h1).1
      obtain ⟨h', h3, h4, h5, h6⟩ := fastLoop_ok n (i + 1) _ h2 ((keys_of_binds (binds_setNext h1)).mpr hk) hn
        (by simp; omega) (fun j hj e hje => by
          simp only at hje
          rw [List.getElem?_set_ne (by omega)] at hje
          exact hnx j (by omega) e hje)
      refine ⟨h', ?_, h4, h5, by rw [h6, binds_setNext h1]⟩
      have hp1 : 0 ≤ p := by omega
      have hr : rd h.entries p.toNat = .ok f := by simp [rd, h1]
      simp only [fastLoop, rd_ok hi, except_ok_bind, hf, hp0, if_false, setNext, hp1, if_true, hr, wr, hpl, h3]

theorem rehashFast_ok {h : Tbl V} (hk : Keys h.entries) (hn : h.entries ≠ [] → 0 < h.hashes.length) :
    ∃ h', rehashFast h = .ok h' ∧ Inv h' ∧ binds h'.entries = binds h.entries := by
  by_cases he : h.entries = []
  · refine ⟨⟨h.hashes.map (fun _ => -1), []⟩, by simp [rehashFast, he, fastLoop], ?_, by simp [he]⟩
    have := inv_fresh (V := V) h.hashes.length
    rwa [show List.replicate h.hashes.length (-1 : Int) = h.hashes.map (fun _ => -1) from (List.map_const' ..).symm] at this
  · have hb : binds (h.entries.map (fun e => { e with next := -1 })) = binds h.entries := by simp [binds]
    obtain ⟨h', h1, h2, _, h4⟩ := fastLoop_ok h.entries.length 0
      ⟨h.hashes.map (fun _ => -1), h.entries.map (fun e => { e with next := -1 })⟩
      ⟨by simp, fun b hb => by simp [bucket, ChainFrom]⟩
      ((keys_of_binds hb).mpr hk) (by simpa using hn he) (by simp)
      (fun j _ e hje => by
        simp only [List.getElem?_map, Option.map_eq_some_iff] at hje
        obtain ⟨a, _, rfl⟩ := hje; rfl)
    exact ⟨h', h1, h2, by rw [h4, hb]⟩

/-! ### get, set, remove -/

theorem binds_mem_keys {h : Tbl V} {k : Nat} : k ∈ (binds h.entries).map Prod.fst ↔
    ∃ (i : Nat) (e : Entry V), h.entries[i]? = some e ∧ e.key = k := by
  rw [keys_eq, List.mem_map]
  constructor
  · rintro ⟨e, he, rfl⟩
    obtain ⟨i, h1, h2⟩ := List.getElem_of_mem he
    exact ⟨i, e, by simp [h1, h2], rfl⟩
  · rintro ⟨i, e, he, rfl⟩
    obtain ⟨h1, h2⟩ := List.getElem?_eq_some_iff.mp he
    exact ⟨e, by rw [← h2]; exact List.getElem_mem h1, rfl⟩

theorem find_absent_tbl {h : Tbl V} (hi : Inv h) {k : Nat} (hk : k ∉ (binds h.entries).map Prod.fst) :
    ∃ fr, find h k = .ok fr ∧ fr.index = -1 := by
  by_cases hn : 0 < h.hashes.length
  · have := find_none hi.linked hn (key := k) (fun i _ e he hek => hk (binds_mem_keys.mpr ⟨i, e, he, hek⟩))
    exact ⟨_, this, rfl⟩
  · exact ⟨⟨-1, -1, -1⟩, by simp only [find, gt_iff_lt, hn, if_false], rfl⟩

theorem inv_nodup {h : Tbl V} (hi : Inv h) : ((binds h.entries).map Prod.fst).Nodup := by
  rw [keys_eq]; exact hi.keys

theorem find_present_tbl {h : Tbl V} (hi : Inv h) {k i : Nat} {e : Entry V} (he : h.entries[i]? = some e) (hk : e.key = k) :
    ∃ fr, find h k = .ok fr ∧ fr.index = (i : Int) := by
  have hne : h.entries ≠ [] := by rintro h0; simp [h0] at he
  obtain ⟨p, hp⟩ := find_some hi.linked hi.keys (hi.nonempty hne) he hk
  exact ⟨_, hp, rfl⟩

theorem find?_of_nodup {m : Binds V} (hn : (m.map Prod.fst).Nodup) {i : Nat} {b : Nat × V} (hb : m[i]? = some b) :
    m.find? (fun x => x.1 = b.1) = some b := by
  obtain ⟨h1, h2⟩ := List.getElem?_eq_some_iff.mp hb
  have hmem : b ∈ m := by rw [← h2]; exact List.getElem_mem h1
  rw [List.find?_eq_some_iff_append]
  refine ⟨by simp, m.take i, m.drop (i + 1), ?_, ?_⟩
  · rw [← h2]; simp
  · intro a ha
    obtain ⟨j, hj, rfl⟩ := List.getElem_of_mem ha
    simp only [List.length_take] at hj
    simp only [List.getElem_take, Bool.not_eq_eq_eq_not, Bool.not_true, decide_eq_false_iff_not]
    intro heq
    have := (List.getElem_inj (i := j) (j := i) (h₀ := by simp; omega) (h₁ := by simpa using h1) hn).mp
      (by simp [heq, h2])
    omega

theorem get_ok {h : Tbl V} (hi : Inv h) (k : Nat) : get h k = .ok (bGet (binds h.entries) k) := by
  by_cases hk : k ∈ (binds h.entries).map Prod.fst
  · obtain ⟨i, e, he, hek⟩ := binds_mem_keys.mp hk
    obtain ⟨fr, h1, h2⟩ := find_present_tbl hi he hek
    have hb : (binds h.entries)[i]? = some (e.key, e.value) := by simp [binds, he]
    have := find?_of_nodup (inv_nodup hi) hb
    simp only at this
    rw [hek] at this
    simp [get, h1, h2, rd, he, bGet, this]
  · obtain ⟨fr, h1, h2⟩ := find_absent_tbl hi hk
    have hnone : (binds h.entries).find? (fun b => b.1 = k) = none := by
      rw [List.find?_eq_none]
      intro b hb hbk
      exact hk (List.mem_map.mpr ⟨b, hb, by simpa using hbk⟩)
    simp [get, h1, h2, bGet, hnone]

theorem bRemove_eq {m : Binds V} (hn : (m.map Prod.fst).Nodup) {i : Nat} {b : Nat × V} (hb : m[i]? = some b) :
    m.eraseIdx i = bRemove m b.1 := by
  induction m generalizing i with
  | nil => simp at hb
  | cons a m ih =>
    have hn' := List.nodup_cons.mp (by simpa using hn : (a.1 :: m.map Prod.fst).Nodup)
    cases i with
    | zero =>
      have hab : a = b := by simpa using hb
      subst hab
      have : bRemove m a.1 = m := List.filter_eq_self.mpr (fun x hx => by
        simp only [ne_eq, decide_not, Bool.not_eq_eq_eq_not, Bool.not_true, decide_eq_false_iff_not]
        intro heq
        exact hn'.1 (by rw [← heq]; exact List.mem_map.mpr ⟨x, hx, rfl⟩))
      show m = bRemove (a :: m) a.1
      rw [bRemove, List.filter_cons_of_neg (by simp)]
      exact this.symm
    | succ i =>
      have hb' : m[i]? = some b := by simpa using hb
      have hne : a.1 ≠ b.1 := by
        intro heq
        obtain ⟨h1, h2⟩ := List.getElem?_eq_some_iff.mp hb'
        exact hn'.1 (by rw [heq]; exact List.mem_map.mpr ⟨b, by rw [← h2]; exact List.getElem_mem h1, rfl⟩)
      have := ih hn'.2 hb'
      simp [bRemove, hne] at this ⊢
      exact this

theorem keys_eraseIdx {es : List (Entry V)} (hk : Keys es) (i : Nat) : Keys (es.eraseIdx i) :=
  hk.sublist ((List.eraseIdx_sublist es i).map _)

theorem binds_eraseIdx (es : List (Entry V)) (i : Nat) : binds (es.eraseIdx i) = (binds es).eraseIdx i := by
  induction es generalizing i with
  | nil => rfl
  | cons e es ih => cases i with
    | zero => rfl
    | succ i => simpa [binds] using ih i

theorem remove_ok {h : Tbl V} (hi : Inv h) (k : Nat) :
    ∃ h', remove h k = .ok h' ∧ Inv h' ∧ binds h'.entries = bRemove (binds h.entries) k := by
  by_cases hk : k ∈ (binds h.entries).map Prod.fst
  · obtain ⟨i, e, he, hek⟩ := binds_mem_keys.mp hk
    obtain ⟨fr, h1, h2⟩ := find_present_tbl hi he hek
    have hil : i < h.entries.length := (List.getElem?_eq_some_iff.mp he).1
    have hne : h.entries ≠ [] := by rintro h0; simp [h0] at he
    obtain ⟨h', h3, h4, h5⟩ := rehashFast_ok (h := ⟨h.hashes, h.entries.eraseIdx i⟩) (keys_eraseIdx hi.keys i)
      (fun _ => hi.nonempty hne)
    have hb : (binds h.entries)[i]? = some (e.key, e.value) := by simp [binds, he]
    refine ⟨h', by simp [remove, h1, h2, removeEntry, hil, h3], h4, ?_⟩
    rw [h5, binds_eraseIdx, bRemove_eq (inv_nodup hi) hb, hek]
  · obtain ⟨fr, h1, h2⟩ := find_absent_tbl hi hk
    refine ⟨h, by simp [remove, h1, h2], hi, ?_⟩
    refine (List.filter_eq_self.mpr (fun x hx => ?_)).symm
    simp only [ne_eq, decide_not, Bool.not_eq_eq_eq_not, Bool.not_true, decide_eq_false_iff_not]
    rintro rfl
    exact hk (List.mem_map.mpr ⟨x, hx, rfl⟩)

/-- Overwriting the value of an existing entry. -/
theorem inv_setValue {h : Tbl V} (hi : Inv h) {i : Nat} {e : Entry V} (he : h.entries[i]? = some e) (v : V) :
    Inv ⟨h.hashes, h.entries.set i { e with value := v }⟩ := by
  obtain ⟨hil, hie⟩ := List.getElem?_eq_some_iff.mp he
  have hk : ∀ j : Nat, (h.entries.set i { e with value := v })[j]?.map Entry.key = h.entries[j]?.map Entry.key := by
    intro j
    by_cases hij : i = j
    · subst hij; simp [hil, hie]
    · rw [List.getElem?_set_ne hij]
  have hx : ∀ j : Nat, (h.entries.set i { e with value := v })[j]?.map Entry.next = h.entries[j]?.map Entry.next := by
    intro j
    by_cases hij : i = j
    · subst hij; simp [hil, hie]
    · rw [List.getElem?_set_ne hij]
  have hkl : (h.entries.set i { e with value := v }).map Entry.key = h.entries.map Entry.key := by
    apply List.ext_getElem?; intro j; simp only [List.getElem?_map]; exact hk j
  refine ⟨by rw [Keys, hkl]; exact hi.keys, ⟨by simp, fun b hb => ?_⟩, fun hne => ?_⟩
  · simp only [List.length_set]
    rw [bucket_congr (es' := h.entries) (fun j _ => hk j)]
    exact chain_congr (fun j _ => (hx j).symm) (hi.linked.chains b hb)
  · exact hi.nonempty (by rintro h0; simp [h0] at hil)

theorem binds_setValue {es : List (Entry V)} (hk : Keys es) {i : Nat} {e : Entry V} (he : es[i]? = some e) (v : V) :
    binds (es.set i { e with value := v }) = (binds es).map (fun b => if b.1 = e.key then (e.key, v) else b) := by
  obtain ⟨hil, hie⟩ := List.getElem?_eq_some_iff.mp he
  apply List.ext_getElem?
  intro j
  simp only [binds, List.getElem?_map]
  by_cases hij : i = j
  · subst hij; simp [hil, hie]
  · rw [List.getElem?_set_ne hij]
    cases hj : es[j]? with
    | none => rfl
    | some f =>
      have : f.key ≠ e.key := fun h => hij (keys_inj hk he hj h.symm)
      simp [this]

theorem set_ok {h : Tbl V} (hi : Inv h) (k : Nat) (v : V) :
    ∃ h', set h k v = .ok h' ∧ Inv h' ∧ binds h'.entries = bSet (binds h.entries) k v := by
  -- the table after the first `grow`
  obtain ⟨g, hg, gi, gn, gb⟩ : ∃ g : Tbl V, ensureBuckets h = .ok g ∧ Inv g ∧ 0 < g.hashes.length ∧
      binds g.entries = binds h.entries := by
    by_cases hn : h.hashes.length = 0
    · obtain ⟨g, h1, h2, h3, h4⟩ := grow_ok (h := h) hi.keys
      exact ⟨g, by rw [ensureBuckets, if_pos hn, h1], h2, h3, h4⟩
    · exact ⟨h, by rw [ensureBuckets, if_neg hn], hi, by omega, rfl⟩
  have fin : ∀ t : Tbl V, Inv t → binds t.entries = bSet (binds h.entries) k v →
      ∃ h', growIfFull t = .ok h' ∧ Inv h' ∧ binds h'.entries = bSet (binds h.entries) k v := by
    intro t ti tb
    by_cases hf : full t
    · obtain ⟨g, h1, h2, h3, h4⟩ := grow_ok (h := t) ti.keys
      exact ⟨g, by rw [growIfFull, if_pos hf, h1], h2, by rw [h4, tb]⟩
    · exact ⟨t, by rw [growIfFull, if_neg hf], ti, tb⟩
  by_cases hk : k ∈ (binds g.entries).map Prod.fst
  · obtain ⟨i, e, he, hek⟩ := binds_mem_keys.mp hk
    obtain ⟨fr, h1, h2⟩ := find_present_tbl gi he hek
    have hil : i < g.entries.length := (List.getElem?_eq_some_iff.mp he).1
    obtain ⟨h', h3, h4, h5⟩ := fin ⟨g.hashes, g.entries.set i { e with value := v }⟩ (inv_setValue gi he v)
      (by rw [binds_setValue gi.keys he, ← gb, bSet, if_pos hk, hek])
    refine ⟨h', ?_, h4, h5⟩
    have hr : rd g.entries i = .ok e := by simp [rd, he]
    simp only [set, store, hg, except_ok_bind, h1, h2, Int.natCast_nonneg, if_true, Int.toNat_natCast, hr, wr, hil, h3]
  · have hnew : k ∉ g.entries.map Entry.key := by rw [← keys_eq]; exact hk
    obtain ⟨p, h1, h2, h3⟩ := add_link (v := v) gi.linked gi.keys gn hnew
    have hb := Nat.mod_lt k gn
    by_cases hp : p < 0
    · obtain ⟨h', h5, h6, h7⟩ := fin _ (h2 hp) (by rw [← gb, bSet, if_neg hk]; simp [binds])
      refine ⟨h', ?_, h6, h7⟩
      have hp' : ¬ (0 ≤ p) := by omega
      have hm1 : ¬ ((0 : Int) ≤ -1) := by omega
      simp only [set, store, hg, except_ok_bind, h1, hm1, if_false, hp', wrI, Int.natCast_nonneg, if_true, Int.toNat_natCast, wr, hb, h5]
    · obtain ⟨f, h4, h4', h5, h6⟩ := h3 (by omega)
      obtain ⟨h', h7, h8, h9⟩ := fin _ h6 (by rw [← gb, bSet, if_neg hk]; exact h5)
      refine ⟨h', ?_, h8, h9⟩
      have hp' : 0 ≤ p := by omega
      have hm1 : ¬ ((0 : Int) ≤ -1) := by omega
      have hr : rd (g.entries ++ [⟨k, -1, v⟩]) p.toNat = .ok f := by simp [rd, h4]
      have hlt : p.toNat < (g.entries ++ [(⟨k, -1, v⟩ : Entry V)]).length := by simp; omega
      simp only [set, store, hg, except_ok_bind, h1, hm1, if_false, hp', if_true, setNext, hr, wr, hlt, h7]

theorem slotFrom_eq (k : Nat) : ∀ (es : List (Entry V)) (i : Nat),
    slotFrom k es i = match ((binds es).map Prod.fst).idxOf? k with | some j => ((i + j : Nat) : Int) | none => -1
  | [], i => by simp [slotFrom, binds]
  | e :: es, i => by
    have ih := slotFrom_eq k es (i + 1)
    by_cases h : e.key = k
    · simp [slotFrom, h, binds, List.idxOf?_cons]
    · rw [slotFrom, if_neg h, ih]
      simp only [binds, List.map_cons, List.idxOf?_cons, beq_iff_eq, h, if_false]
      cases h : List.idxOf? k (List.map Prod.fst (List.map (fun e => (e.key, e.value)) es)) with
      | none => simp
      | some j => simp only [Option.map_some]; exact congrArg Int.ofNat (by omega)

theorem step_ok {h : Tbl V} (hi : Inv h) (op : Op V) :
    ∃ h', step h op = .ok (h', (specStep (binds h.entries) op).2) ∧ Inv h' ∧ binds h'.entries = (specStep (binds h.entries) op).1 := by
  cases op with
  | set k v =>
    obtain ⟨h', h1, h2, h3⟩ := set_ok hi k v
    exact ⟨h', by simp [step, h1, specStep], h2, h3⟩
  | get k => exact ⟨h, by simp [step, get_ok hi k, specStep], hi, rfl⟩
  | slot k =>
    refine ⟨h, ?_, hi, rfl⟩
    simp [step, slot, slotFrom_eq, specStep, bIndex]
  | remove k =>
    obtain ⟨h', h1, h2, h3⟩ := remove_ok hi k
    exact ⟨h', by simp [step, h1, specStep], h2, h3⟩
  | clear =>
    refine ⟨clear h, rfl, ?_, rfl⟩
    have := inv_fresh (V := V) h.hashes.length
    rwa [show List.replicate h.hashes.length (-1 : Int) = h.hashes.map (fun _ => -1) from (List.map_const' ..).symm] at this
  | grow =>
    obtain ⟨h', h1, h2, _, h3⟩ := grow_ok hi.keys
    exact ⟨h', by simp [step, h1, specStep], h2, h3⟩
  | rehash n =>
    obtain ⟨h', h1, h2, h3⟩ := rehash_ok hi.keys n
    exact ⟨h', by simp [step, h1, specStep], h2, h3⟩
  | rehashFast =>
    obtain ⟨h', h1, h2, h3⟩ := rehashFast_ok hi.keys hi.nonempty
    exact ⟨h', by simp [step, h1, specStep], h2, h3⟩

theorem inv_init : Inv (init : Tbl V) := inv_fresh 0

theorem run_ok : ∀ (ops : List (Op V)) (h : Tbl V), Inv h →
    ∃ h', run h ops = .ok (h', (specRun (binds h.entries) ops).2) ∧ Inv h' ∧ binds h'.entries = (specRun (binds h.entries) ops).1
  | [], h, hi => ⟨h, rfl, hi, rfl⟩
  | op :: ops, h, hi => by
    obtain ⟨h1, e1, i1, b1⟩ := step_ok hi op
    obtain ⟨h2, e2, i2, b2⟩ := run_ok ops h1 i1
    rw [b1] at e2 b2
    exact ⟨h2, by simp [run, e1, e2, specRun], i2, by simpa [specRun] using b2⟩

end Zpl.Table
