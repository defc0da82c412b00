import Verif.Parse.JsonErrors
import Verif.Parse.AdtFree

/-!
# JSON documents in memory (code/source/parsers/json.c:32-51, 70-80, 107-280)  -  C148, C149

The parser of `Parse/Json` again, together with what it does to memory: which arrays it allocates and frees, in which of them the nodes are and which parent they record.  The nodes are
those of `Parse/Adt`.

## Model -/

namespace Zpl.JsonMem

open Zpl Zpl.Str Zpl.Json
open Zpl.Adt (Ptr grow blocks blocksL release destroy)

/-- The allocator: the identity of the next array and the arrays that are allocated. -/
structure Alloc where
  next : Nat
  heap : List Nat

/-- json.h:6-16: the errors of `Parse/Json` and `ZPL_JSON_ERROR_OUT_OF_MEMORY`. -/
inductive MErr where
  | json (e : Err)
  | outOfMemory
  deriving DecidableEq

/-- What a parsing function stores in its node, other than the name: a value, or the array of the children (its identity, its capacity and its contents). -/
inductive Body (ν : Type) where
  | leaf (k : Kind ν)
  | branch (isArr : Bool) (blk cap : Nat) (kids : List Adt.Node)

/-- What a parsing function leaves: an error, or the text from the returned pointer on; in both cases what it has stored in its node and the allocator. -/
inductive Res (ν : Type) where
  | err (e : MErr) (b : Body ν) (m : Alloc)
  | ok (b : Body ν) (p : List Byte) (m : Alloc)

section
variable {ν : Type} (val : Kind ν → Adt.Value)

/-- json.c:128, 238: the node is zeroed before, so that it has no parent.  `val` says how values are stored. -/
def Body.node (name : Option (List Byte)) : Body ν → Adt.Node
  | .leaf k => .leaf name none (val k)
  | .branch a b c ks => .branch name none a b c ks

/-- json.c:76-79: the children of the node that was appended get the address it has now as their parent. -/
def adopt (q : Ptr) : Adt.Node → Adt.Node
  | .leaf n p v => .leaf n p v
  | .branch n p a b c ks => .branch n p a b c (ks.map (Adt.Node.withParent q))

/-- json.c:70-80 `zpl__json_append_node`; if the array is full array.h:115-130 `zpl__array_set_capacity` allocates another and frees it.  `mem` says which allocations succeed;
`none`: this one did not. -/
def append (mem : Nat → Bool) (m : Alloc) (blk cap : Nat) (kids : List Adt.Node) (x : Adt.Node) : Except Fault (Option (Alloc × Nat × Nat × List Adt.Node)) :=
  if kids.length < cap then .ok (some (m, blk, cap, kids ++ [adopt ⟨blk, kids.length⟩ x]))
  else if mem m.next then do
    let h ← release (m.next :: m.heap) blk
    .ok (some (⟨m.next + 1, h⟩, m.next, grow cap, kids ++ [adopt ⟨m.next, kids.length⟩ x]))
  else .ok none

mutual
/-- json.c:152-217 `zpl__json_parse_value`. -/
def parseValue (io : NumIO ν) (mem : Nat → Bool) : Nat → Alloc → List Byte → Except Fault (Res ν)
  | 0, _, _ => .error .diverge
  | n + 1, m, p => do
    let c ← rd p 0
    if ← strchr [0x60#8, 0x22#8, 0x27#8, 0] c then do
      match ← parseQuoted (ν := ν) c p with
      | .err e => .ok (.err (.json e) (.leaf .unset) m)
      | .ok a p => .ok (.ok (.leaf a.1) p m)
    else if ← startsWord p then do
      match ← findWord p words with
      | some (k, len) => .ok (.ok (.leaf (.const k)) (p.drop len) m)
      | none => .ok (.err (.json .unknownKeyword) (.leaf .unset) m)
    else if Chars.isDigit c = Bool.true ∨ c = 0x2b#8 ∨ c = 0x2d#8 ∨ c = 0x2e#8 then do
      let (v, k) ← io.read p
      .ok (.ok (.leaf (match v with | some v => .num v | none => .unset)) (p.drop k) m)
    else if ← strchr [0x5b#8, 0x7b#8, 0] c then do
      match ← parseObject io mem n m p with
      | .err e b m => .ok (.err e b m)
      | .ok b p m => .ok (.ok b (p.drop 1) m)
    else .ok (.ok (.leaf .unset) p m)

/-- json.c:219-235 and 113-117: the start of `zpl__json_parse_object` and of `zpl__json_parse_array`: the array of the node is allocated. -/
def parseObject (io : NumIO ν) (mem : Nat → Bool) : Nat → Alloc → List Byte → Except Fault (Res ν)
  | 0, _, _ => .error .diverge
  | n + 1, m, p => do
    let p ← trimText Bool.false p
    let c ← rd p 0
    if mem m.next = Bool.false then .ok (.err .outOfMemory (.leaf .unset) m)
    else if c = 0x7b#8 then parseMembers io mem n ⟨m.next + 1, m.next :: m.heap⟩ m.next (grow 0) [] (p.drop 1)
    else if c = 0x5b#8 then parseElements io mem n ⟨m.next + 1, m.next :: m.heap⟩ m.next (grow 0) [] (p.drop 1)
    else parseMembers io mem n ⟨m.next + 1, m.next :: m.heap⟩ m.next (grow 0) [] p

/-- json.c:119-149: the loop of `zpl__json_parse_array`. -/
def parseElements (io : NumIO ν) (mem : Nat → Bool) : Nat → Alloc → Nat → Nat → List Adt.Node → List Byte → Except Fault (Res ν)
  | 0, _, _, _, _, _ => .error .diverge
  | n + 1, m, blk, cap, done, p => do
    if (← rd p 0) = 0 then .ok (.err (.json .internal) (.branch true blk cap done) m)
    else do
      let p ← trimText Bool.false p
      if (← rd p 0) = 0x5d#8 then .ok (.ok (.branch true blk cap done) p m)
      else do
        match ← parseValue io mem n m p with
        | .err e _ m => .ok (.err e (.branch true blk cap done) m)
        | .ok b p m => do
          match ← append mem m blk cap done (b.node val none) with
          | none => .ok (.err .outOfMemory (.branch true blk cap done) m)
          | some (m, blk, cap, done) => do
            let p ← trimText Bool.false p
            let c ← rd p 0
            if c = 0x2c#8 then parseElements io mem n m blk cap done (p.drop 1)
            else if c ≠ 0x5d#8 then .ok (.err (.json .arrayLeftOpen) (.branch true blk cap done) m)
            else .ok (.ok (.branch true blk cap done) p m)

/-- json.c:237-280: the loop of `zpl__json_parse_object`. -/
def parseMembers (io : NumIO ν) (mem : Nat → Bool) : Nat → Alloc → Nat → Nat → List Adt.Node → List Byte → Except Fault (Res ν)
  | 0, _, _, _, _, _ => .error .diverge
  | n + 1, m, blk, cap, done, p => do
    let p ← trimText Bool.false p
    let c ← rd p 0
    if c = 0x7d#8 then .ok (.ok (.branch false blk cap done) p m)
    else if ← strchr [0x7d#8, 0x5d#8, 0] c then .ok (.err (.json .endPairMismatched) (.branch false blk cap done) m)
    else do
      match ← parseName p with
      | .err e => .ok (.err (.json e) (.branch false blk cap done) m)
      | .ok info p => do
        let p ← trimText Bool.false (p.drop 1)
        match ← parseValue io mem n m p with
        | .err e _ m => .ok (.err e (.branch false blk cap done) m)
        | .ok b p m => do
          match ← append mem m blk cap done (b.node val info.name) with
          | none => .ok (.err .outOfMemory (.branch false blk cap done) m)
          | some (m, blk, cap, done) => do
            let f ← delimiter p
            let (_, stop, p) := f info.style
            if stop then .ok (.ok (.branch false blk cap done) p m)
            else do
              let p ← trimText Bool.false p
              if (← rd p 0) ≠ 0 then parseMembers io mem n m blk cap done p else .ok (.ok (.branch false blk cap done) p m)
end

/-- json.c:32-47 `zpl_json_parse`: the error if there is one, the root and the allocator.  Identity 0 stands for the variable of the client that is the root. -/
def parse (io : NumIO ν) (mem : Nat → Bool) (text : List Byte) : Except Fault (Option MErr × Adt.Node × Alloc) := do
  let p ← trimText Bool.true text
  let _ ← strchr [0x7b#8, 0x5b#8, 0] (← rd p 0)
  match ← parseObject val io mem (4 * text.length + 4) ⟨1, []⟩ p with
  | .err e b m => .ok (some e, b.node val none, m)
  | .ok b _ m => .ok (none, b.node val none, m)

/-! ## Specification -/

mutual
/-- The document as the functions on trees see it. -/
def treeOf : Json.Node ν → Adt.Tree
  | .mk name _ .arr kids => .branch name true (treesOf kids)
  | .mk name _ .obj kids => .branch name false (treesOf kids)
  | .mk name _ k _ => .leaf name (val k)
def treesOf : List (Json.Node ν) → List Adt.Tree
  | [] => []
  | k :: ks => treeOf k :: treesOf ks
end
end

/-! ## Lemmas -/

def Body.blocks {ν : Type} : Body ν → List Nat
  | .leaf _ => []
  | .branch _ b _ ks => b :: blocksL ks

theorem blocks_node {ν : Type} (val : Kind ν → Adt.Value) (name : Option (List Byte)) (b : Body ν) : blocks (b.node val name) = b.blocks := by
  cases b <;> simp [Body.node, Body.blocks, Adt.blocks]

theorem blocks_withParent (q : Ptr) (n : Adt.Node) : blocks (n.withParent q) = blocks n := by
  cases n <;> simp [Adt.Node.withParent, Adt.blocks]

theorem blocksL_map (q : Ptr) (ks : List Adt.Node) : blocksL (ks.map (Adt.Node.withParent q)) = blocksL ks := by
  induction ks with
  | nil => rfl
  | cons k ks ih => rw [List.map_cons, Adt.blocksL, Adt.blocksL, blocks_withParent, ih]

theorem blocks_adopt (q : Ptr) (n : Adt.Node) : blocks (adopt q n) = blocks n := by
  cases n with
  | leaf => rfl
  | branch => rw [adopt, Adt.blocks, Adt.blocks, blocksL_map]

theorem blocksL_append (a b : List Adt.Node) : blocksL (a ++ b) = blocksL a ++ blocksL b := by
  induction a with
  | nil => rfl
  | cons k ks ih => rw [List.cons_append, Adt.blocksL, Adt.blocksL, ih, List.append_assoc]

/-- All allocated arrays have identities that have been given. -/
structure Alloc.Ok (m : Alloc) : Prop where
  nodup : m.heap.Nodup
  pos : 0 < m.next
  bound : ∀ x ∈ m.heap, 0 < x ∧ x < m.next

/-- `m` is a later state than `m0`: what was not allocated then and had an identity is not allocated now. -/
structure Later (m0 m : Alloc) : Prop where
  ok : m.Ok
  next : m0.next ≤ m.next
  old : ∀ x ∈ m.heap, x < m0.next → x ∈ m0.heap

theorem Later.refl {m : Alloc} (h : m.Ok) : Later m m := ⟨h, Nat.le_refl _, fun _ hx _ => hx⟩

theorem Later.trans {a b c : Alloc} (h : Later a b) (h' : Later b c) : Later a c :=
  ⟨h'.ok, Nat.le_trans h.next h'.next, fun x hx hl => h.old x (h'.old x hx (Nat.lt_of_lt_of_le hl h.next)) hl⟩

/-- An identity that was given and whose array is freed. -/
def Dead (m : Alloc) (x : Nat) : Prop := 0 < x ∧ x < m.next ∧ x ∉ m.heap

theorem Dead.later {a b : Alloc} (h : Later a b) {x : Nat} (hd : Dead a x) : Dead b x :=
  ⟨hd.1, Nat.lt_of_lt_of_le hd.2.1 h.next, fun hx => hd.2.2 (h.old x hx hd.2.1)⟩

/-- The parent that the children of the node at index `i` record: where the node was when it was appended. -/
def Recorded (m : Alloc) (blk cap i : Nat) (k : Adt.Node) : Prop :=
  ∀ j ∈ k.kids, ∃ q, j.parent = some q ∧ q.idx = i ∧ if (cap - 8) / 2 ≤ i then q.blk = blk else Dead m q.blk

/-- How large an array becomes when it has moved `j` times. -/
def size (j : Nat) : Nat := 8 * (2 ^ (j + 1) - 1)

/-- The capacity tells how often the array has moved. -/
def Capacity (cap len : Nat) : Prop := ∃ j, cap = size j ∧ len ≤ cap ∧ (j = 0 ∨ (cap - 8) / 2 < len)

theorem size_grow (j : Nat) : grow (size j) = size (j + 1) := by
  have : 0 < 2 ^ (j + 1) := Nat.pow_pos (by decide)
  unfold grow size
  rw [Nat.pow_succ 2 (j + 1)]
  omega

theorem Capacity.less {cap len : Nat} (h : Capacity cap len) : (cap - 8) / 2 ≤ len := by
  obtain ⟨j, h1, h2, rfl | h3⟩ := h
  · rw [h1]; exact Nat.zero_le _
  · exact Nat.le_of_lt h3

theorem Capacity.succ {cap len : Nat} (h : Capacity cap len) (hl : len < cap) : Capacity cap (len + 1) := by
  obtain ⟨j, h1, h2, h3⟩ := h
  exact ⟨j, h1, hl, h3.imp id (by omega)⟩

theorem Capacity.grown {cap : Nat} (h : Capacity cap cap) : Capacity (grow cap) (cap + 1) := by
  obtain ⟨j, h1, h2, h3⟩ := h
  exact ⟨j + 1, by rw [h1, size_grow], by unfold grow; omega, .inr (by unfold grow; omega)⟩

mutual
def Shape (m : Alloc) : Adt.Node → Prop
  | .leaf _ _ _ => True
  | .branch _ _ _ blk cap ks => Capacity cap ks.length ∧ ShapeL m blk cap 0 ks
def ShapeL (m : Alloc) (blk cap : Nat) : Nat → List Adt.Node → Prop
  | _, [] => True
  | i, k :: ks => Recorded m blk cap i k ∧ Shape m k ∧ ShapeL m blk cap (i + 1) ks
end

mutual
theorem Shape.later {a b : Alloc} (h : Later a b) : (n : Adt.Node) → Shape a n → Shape b n
  | .leaf _ _ _, _ => by rw [Shape]; trivial
  | .branch _ _ _ blk cap ks, hs => by
    rw [Shape] at hs ⊢
    exact ⟨hs.1, ShapeL.later h blk cap 0 ks hs.2⟩
theorem ShapeL.later {a b : Alloc} (h : Later a b) (blk cap : Nat) : (i : Nat) → (ks : List Adt.Node) → ShapeL a blk cap i ks → ShapeL b blk cap i ks
  | _, [], _ => by rw [ShapeL]; trivial
  | i, k :: ks, hs => by
    rw [ShapeL] at hs ⊢
    refine ⟨fun j hj => ?_, Shape.later h k hs.2.1, ShapeL.later h blk cap (i + 1) ks hs.2.2⟩
    obtain ⟨q, h1, h2, h3⟩ := hs.1 j hj
    refine ⟨q, h1, h2, ?_⟩
    split at h3
    · next hc => rw [if_pos hc]; exact h3
    · next hc => rw [if_neg hc]; exact h3.later h
end

theorem shape_withParent {m : Alloc} (q : Ptr) {n : Adt.Node} (h : Shape m n) : Shape m (n.withParent q) := by
  cases n with
  | leaf => rw [Adt.Node.withParent, Shape]; trivial
  | branch => rw [Adt.Node.withParent, Shape]; rw [Shape] at h; exact h

theorem kids_withParent (q : Ptr) (n : Adt.Node) : (n.withParent q).kids = n.kids := by cases n <;> rfl

theorem shapeL_map {m : Alloc} {blk cap : Nat} (q : Ptr) : ∀ {i : Nat} {ks : List Adt.Node}, ShapeL m blk cap i ks → ShapeL m blk cap i (ks.map (Adt.Node.withParent q))
  | _, [], h => h
  | i, k :: ks, h => by
    rw [ShapeL] at h
    rw [List.map_cons, ShapeL]
    refine ⟨?_, shape_withParent q h.2.1, shapeL_map q h.2.2⟩
    unfold Recorded at *
    rw [kids_withParent]
    exact h.1

theorem shape_adopt {m : Alloc} (q : Ptr) {n : Adt.Node} (h : Shape m n) : Shape m (adopt q n) := by
  cases n with
  | leaf => rw [adopt]; exact h
  | branch =>
    rw [adopt, Shape]
    rw [Shape] at h
    exact ⟨by rw [List.length_map]; exact h.1, shapeL_map q h.2⟩

theorem adopt_parent (q : Ptr) (n : Adt.Node) : (adopt q n).parent = n.parent := by cases n <;> rfl

theorem withParent_parent (q : Ptr) (n : Adt.Node) : (n.withParent q).parent = some q := by cases n <;> rfl

theorem adopt_kids (q : Ptr) (n : Adt.Node) : ∀ j ∈ (adopt q n).kids, j.parent = some q := by
  intro j hj
  cases n with
  | leaf => cases hj
  | branch n p a b c ks =>
    rw [adopt, Adt.Node.kids] at hj
    obtain ⟨k, -, rfl⟩ := List.mem_map.1 hj
    exact withParent_parent q k

theorem shapeL_snoc {m : Alloc} {blk cap : Nat} : ∀ {i : Nat} {ks : List Adt.Node} {x : Adt.Node}, ShapeL m blk cap i ks → Recorded m blk cap (i + ks.length) x → Shape m x →
    ShapeL m blk cap i (ks ++ [x])
  | i, [], x, _, hr, hs => by
    rw [List.nil_append, ShapeL, ShapeL]
    exact ⟨hr, hs, trivial⟩
  | i, k :: ks, x, h, hr, hs => by
    rw [ShapeL] at h
    rw [List.cons_append, ShapeL]
    refine ⟨h.1, h.2.1, shapeL_snoc h.2.2 ?_ hs⟩
    rw [List.length_cons] at hr
    rwa [show i + 1 + ks.length = i + (ks.length + 1) by omega]

/-- When the array moves, none of the recorded parents is right any more. -/
theorem shapeL_move {a b : Alloc} (hab : Later a b) {blk cap blk' : Nat} (hd : Dead b blk) : ∀ {i : Nat} {ks : List Adt.Node}, i + ks.length ≤ cap → ShapeL a blk cap i ks →
    ShapeL b blk' (grow cap) i ks
  | _, [], _, _ => by rw [ShapeL]; trivial
  | i, k :: ks, hl, h => by
    rw [ShapeL] at h
    rw [List.length_cons] at hl
    rw [ShapeL]
    refine ⟨fun j hj => ?_, h.2.1.later hab, shapeL_move hab hd (by omega) h.2.2⟩
    obtain ⟨q, h1, h2, h3⟩ := h.1 j hj
    refine ⟨q, h1, h2, ?_⟩
    rw [if_neg (by unfold grow; omega)]
    split at h3
    · rw [h3]; exact hd
    · exact h3.later hab

/-- What is stored in a node is in order. -/
def Good {ν : Type} (m : Alloc) : Body ν → Prop
  | .leaf _ => True
  | .branch _ blk cap ks => Capacity cap ks.length ∧ ShapeL m blk cap 0 ks ∧ ∀ k ∈ ks, k.parent = none

theorem Good.shape {ν : Type} (val : Kind ν → Adt.Value) {m : Alloc} {b : Body ν} (h : Good m b) (name : Option (List Byte)) : Shape m (b.node val name) := by
  cases b with
  | leaf => rw [Body.node, Shape]; trivial
  | branch => rw [Body.node, Shape]; exact ⟨h.1, h.2.1⟩

theorem Good.later {ν : Type} {m m' : Alloc} (hl : Later m m') {b : Body ν} (h : Good m b) : Good m' b := by
  cases b with
  | leaf => trivial
  | branch => exact ⟨h.1, ShapeL.later hl _ _ _ _ h.2.1, h.2.2⟩

theorem ok_fresh {m : Alloc} (h : m.Ok) : Later m ⟨m.next + 1, m.next :: m.heap⟩ := by
  refine ⟨⟨?_, ?_, fun x hx => ?_⟩, ?_, fun x hx hl => ?_⟩
  · exact List.nodup_cons.2 ⟨fun hm => absurd (h.bound _ hm).2 (by omega), h.nodup⟩
  · exact Nat.succ_pos _
  · rcases List.mem_cons.1 hx with rfl | hx
    · exact ⟨h.pos, Nat.lt_succ_self _⟩
    · exact ⟨(h.bound x hx).1, Nat.lt_succ_of_lt (h.bound x hx).2⟩
  · exact Nat.le_succ _
  · rcases List.mem_cons.1 hx with rfl | hx
    · omega
    · exact hx

/-- One more node in the array of a node. -/
theorem append_post {ν : Type} {m : Alloc} (hm : m.Ok) {isArr : Bool} {blk cap : Nat} {done : List Adt.Node} (hg : Good (ν := ν) m (.branch isArr blk cap done)) {x : Adt.Node} (hx : Shape m x)
    (hp : x.parent = none) {F : List Nat} (hh : m.heap.Perm (blk :: blocksL done ++ (blocks x ++ F))) (mem : Nat → Bool) :
    append mem m blk cap done x = .ok none ∧ ¬ (∀ i, mem i = true) ∨
    ∃ m' blk' cap' done', append mem m blk cap done x = .ok (some (m', blk', cap', done ++ [done'])) ∧ (∃ q, done' = adopt q x) ∧ Later m m' ∧
      Good (ν := ν) m' (.branch isArr blk' cap' (done ++ [done'])) ∧ m'.heap.Perm (blk' :: blocksL (done ++ [done']) ++ F) := by
  obtain ⟨hc, hs, hn⟩ := hg
  unfold append
  have parents : ∀ q, ∀ k ∈ done ++ [adopt q x], k.parent = none := by
    intro q k hk
    rcases List.mem_append.1 hk with hk | hk
    · exact hn k hk
    · rw [List.mem_singleton.1 hk, adopt_parent, hp]
  split
  · next hl =>
    refine .inr ⟨m, blk, cap, _, rfl, ⟨_, rfl⟩, .refl hm, ⟨?_, ?_, parents _⟩, ?_⟩
    · rw [List.length_append, List.length_singleton]
      exact hc.succ hl
    · refine shapeL_snoc hs (fun j hj => ⟨_, adopt_kids _ _ j hj, (Nat.zero_add _).symm, ?_⟩) (shape_adopt _ hx)
      rw [if_pos (by rw [Nat.zero_add]; exact hc.less)]
    · rw [blocksL_append, Adt.blocksL, Adt.blocksL, blocks_adopt, List.append_nil, List.cons_append, List.append_assoc]
      exact hh
  · next hl =>
    split
    · next hmem =>
      have hb : blk ∈ m.heap := hh.symm.subset (by simp)
      have lt := hm.bound blk hb
      have hrel : release (m.next :: m.heap) blk = .ok ((m.next :: m.heap).erase blk) := by rw [release, if_pos (by simp [hb])]
      have hf := ok_fresh hm
      have he : (m.next :: m.heap).erase blk = m.next :: m.heap.erase blk := List.erase_cons_tail (by simp; omega)
      have hlat : Later m ⟨m.next + 1, (m.next :: m.heap).erase blk⟩ :=
        ⟨⟨hf.ok.nodup.erase blk, hf.ok.pos, fun y hy => hf.ok.bound y (List.mem_of_mem_erase hy)⟩, hf.next, fun y hy hl => hf.old y (List.mem_of_mem_erase hy) hl⟩
      have hlen : done.length = cap := by
        obtain ⟨j, h1, h2, h3⟩ := hc
        omega
      have hdead : Dead ⟨m.next + 1, (m.next :: m.heap).erase blk⟩ blk := ⟨lt.1, by dsimp only; omega, fun hy => (hf.ok.nodup.mem_erase_iff.1 hy).1 rfl⟩
      rw [hrel]
      refine .inr ⟨_, _, _, _, rfl, ⟨_, rfl⟩, hlat, ⟨?_, ?_, parents _⟩, ?_⟩
      · rw [List.length_append, List.length_singleton, hlen]
        rw [hlen] at hc
        exact hc.grown
      · refine shapeL_snoc (shapeL_move hlat hdead (by omega) hs) (fun j hj => ⟨_, adopt_kids _ _ j hj, (Nat.zero_add _).symm, ?_⟩) (shape_adopt _ (hx.later hlat))
        rw [if_pos (by unfold grow; omega)]
      · rw [blocksL_append, Adt.blocksL, Adt.blocksL, blocks_adopt, List.append_nil, List.cons_append, List.append_assoc]
        dsimp only
        rw [he]
        refine List.Perm.cons _ ?_
        have := hh.erase blk
        rwa [List.cons_append, List.erase_cons_head] at this
    · next hmem => exact .inl ⟨rfl, fun h => hmem (h _)⟩

/-! ### The invariant -/

theorem okBind {α β : Type} (a : α) (f : α → Except Fault β) : (Except.ok a >>= f) = f a := rfl

def Holds {α : Type} (P : α → Prop) (r : Except Fault α) : Prop := ∀ a, r = .ok a → P a

theorem Holds.bind {α β : Type} {P : β → Prop} {r : Except Fault α} {f : α → Except Fault β} (h : ∀ a, r = .ok a → Holds P (f a)) : Holds P (r >>= f) := by
  cases r with
  | error e => intro a ha; cases ha
  | ok a => exact h a rfl

theorem Holds.ok {α : Type} {P : α → Prop} {a : α} (h : P a) : Holds P (.ok a) := by
  intro b hb
  cases hb
  exact h

theorem Holds.error {α : Type} {P : α → Prop} {e : Fault} : Holds P (.error e) := by
  intro b hb
  cases hb

/-- What a parsing function leaves, if `F` are the arrays that were allocated before and belong to others. -/
def Post {ν : Type} (m0 : Alloc) (F : List Nat) : Res ν → Prop
  | .ok b _ m => Later m0 m ∧ Good m b ∧ m.heap.Perm (b.blocks ++ F)
  | .err e b m => Later m0 m ∧ ∃ left, m.heap.Perm (b.blocks ++ (left ++ F))

theorem Post.from {ν : Type} {a b : Alloc} {F : List Nat} (h : Later a b) : ∀ {r : Res ν}, Post b F r → Post a F r
  | .ok _ _ _, hr => ⟨h.trans hr.1, hr.2⟩
  | .err _ _ _, hr => ⟨h.trans hr.1, hr.2⟩

/-- What is left by a function that has been given an array of its own: on an error it stays in the node. -/
def PostB {ν : Type} (m0 : Alloc) (F : List Nat) : Res ν → Prop
  | .ok b _ m => Later m0 m ∧ Good m b ∧ b.blocks ≠ [] ∧ m.heap.Perm (b.blocks ++ F)
  | .err e b m => Later m0 m ∧ (b.blocks = [] → e = .outOfMemory) ∧ ∃ left, m.heap.Perm (b.blocks ++ (left ++ F))

theorem PostB.post {ν : Type} {m0 : Alloc} {F : List Nat} : ∀ {r : Res ν}, PostB m0 F r → Post m0 F r
  | .ok _ _ _, h => ⟨h.1, h.2.1, h.2.2.2⟩
  | .err _ _ _, h => ⟨h.1, h.2.2⟩

theorem PostB.from {ν : Type} {a b : Alloc} {F : List Nat} (h : Later a b) : ∀ {r : Res ν}, PostB b F r → PostB a F r
  | .ok _ _ _, hr => ⟨h.trans hr.1, hr.2⟩
  | .err _ _ _, hr => ⟨h.trans hr.1, hr.2⟩

theorem node_parent {ν : Type} (val : Kind ν → Adt.Value) (name : Option (List Byte)) (b : Body ν) : (b.node val name).parent = none := by cases b <;> rfl

theorem parse_post {ν : Type} (val : Kind ν → Adt.Value) (io : NumIO ν) (mem : Nat → Bool) (n : Nat) :
    (∀ m p, m.Ok → Holds (Post m m.heap) (parseValue val io mem n m p)) ∧
    (∀ m p, m.Ok → Holds (PostB m m.heap) (parseObject val io mem n m p)) ∧
    (∀ m blk cap done p F, m.Ok → Good (ν := ν) m (.branch true blk cap done) → m.heap.Perm (blk :: blocksL done ++ F) → Holds (PostB m F) (parseElements val io mem n m blk cap done p)) ∧
    (∀ m blk cap done p F, m.Ok → Good (ν := ν) m (.branch false blk cap done) → m.heap.Perm (blk :: blocksL done ++ F) → Holds (PostB m F) (parseMembers val io mem n m blk cap done p)) := by
  induction n with
  | zero => exact ⟨fun _ _ _ => .error, fun _ _ _ => .error, fun _ _ _ _ _ _ _ _ _ => .error, fun _ _ _ _ _ _ _ _ _ => .error⟩
  | succ n ih =>
    obtain ⟨ihV, ihO, ihE, ihM⟩ := ih
    refine ⟨fun m p hm => ?_, fun m p hm => ?_, fun m blk cap done p F hm hg hh => ?_, fun m blk cap done p F hm hg hh => ?_⟩
    · have leaf : ∀ (k : Kind ν) q, Post m m.heap (.ok (.leaf k) q m) := fun k q => ⟨.refl hm, trivial, List.Perm.refl _⟩
      have bad : ∀ e, Post (ν := ν) m m.heap (.err e (.leaf .unset) m) := fun e => ⟨.refl hm, [], List.Perm.refl _⟩
      rw [parseValue]
      refine .bind fun c _ => .bind fun b _ => ?_
      split
      · refine .bind fun r _ => ?_
        cases r with
        | err e => exact .ok (bad _)
        | ok a q => exact .ok (leaf _ _)
      · refine .bind fun b _ => ?_
        split
        · refine .bind fun r _ => ?_
          rcases r with _ | ⟨k, len⟩
          · exact .ok (bad _)
          · exact .ok (leaf _ _)
        · split
          · refine .bind fun r _ => ?_
            exact .ok (leaf _ _)
          · refine .bind fun b _ => ?_
            split
            · refine .bind fun r hr => ?_
              have := (ihO m p hm r hr).post
              cases r with
              | err e b m' => exact .ok this
              | ok b q m' => exact .ok this
            · exact .ok (leaf _ _)
    · rw [parseObject]
      refine .bind fun q _ => .bind fun c _ => ?_
      have hf := ok_fresh hm
      have hg : ∀ isArr, Good (ν := ν) ⟨m.next + 1, m.next :: m.heap⟩ (.branch isArr m.next (grow 0) []) := fun _ =>
        ⟨⟨0, rfl, Nat.zero_le _, .inl rfl⟩, by rw [ShapeL]; trivial, by simp⟩
      have hh : (m.next :: m.heap).Perm (m.next :: blocksL [] ++ m.heap) := by simp [Adt.blocksL]
      split
      · exact .ok ⟨.refl hm, fun _ => rfl, [], List.Perm.refl _⟩
      · split
        · exact fun r hr => (ihM _ _ _ _ _ _ hf.ok (hg _) hh r hr).from hf
        · split
          · exact fun r hr => (ihE _ _ _ _ _ _ hf.ok (hg _) hh r hr).from hf
          · exact fun r hr => (ihM _ _ _ _ _ _ hf.ok (hg _) hh r hr).from hf
    · have bad : ∀ e, PostB (ν := ν) m F (.err e (.branch true blk cap done) m) := fun e => ⟨.refl hm, fun h => by simp [Body.blocks] at h, [], hh⟩
      rw [parseElements]
      refine .bind fun c _ => ?_
      split
      · exact .ok (bad _)
      · refine .bind fun q _ => .bind fun c' _ => ?_
        split
        · exact .ok ⟨.refl hm, hg, by simp [Body.blocks], hh⟩
        · refine .bind fun r hr => ?_
          have hv := ihV m q hm r hr
          rcases r with ⟨e, b, m1⟩ | ⟨b, q1, m1⟩
          · obtain ⟨h1, left, h2⟩ := hv
            refine .ok ⟨h1, fun h => by simp [Body.blocks] at h, b.blocks ++ left, ?_⟩
            refine h2.trans ?_
            rw [Body.blocks]
            refine ((hh.append_left _).append_left _).trans ?_
            rw [List.perm_iff_count]; intro x; simp only [List.cons_append, List.count_append, List.count_cons]; omega
          · obtain ⟨h1, h2, h3⟩ := hv
            have hh' : m1.heap.Perm (blk :: blocksL done ++ (blocks (b.node val none) ++ F)) := by
              rw [blocks_node]
              refine h3.trans ((hh.append_left _).trans ?_)
              rw [List.perm_iff_count]; intro x; simp only [List.cons_append, List.count_append, List.count_cons]; omega
            dsimp only
            rcases append_post (ν := ν) h1.ok (hg.later h1) (h2.shape val none) (node_parent _ _ _) hh' mem with ⟨e, -⟩ | ⟨m2, blk2, cap2, x2, e, -, l2, g2, p2⟩
            · rw [e, okBind]
              refine .ok ⟨h1, fun h => by simp [Body.blocks] at h, b.blocks, ?_⟩
              rw [blocks_node] at hh'
              exact hh'
            · rw [e, okBind]
              dsimp only
              have l02 := h1.trans l2
              refine .bind fun q2 _ => .bind fun c2 _ => ?_
              split
              · exact fun r hr => (ihE _ _ _ _ _ _ l2.ok g2 p2 r hr).from l02
              · split
                · exact .ok ⟨l02, fun h => by simp [Body.blocks] at h, [], p2⟩
                · exact .ok ⟨l02, g2, by simp [Body.blocks], p2⟩
    · have bad : ∀ e, PostB (ν := ν) m F (.err e (.branch false blk cap done) m) := fun e => ⟨.refl hm, fun h => by simp [Body.blocks] at h, [], hh⟩
      rw [parseMembers]
      refine .bind fun q _ => .bind fun c _ => ?_
      split
      · exact .ok ⟨.refl hm, hg, by simp [Body.blocks], hh⟩
      · refine .bind fun b _ => ?_
        split
        · exact .ok (bad _)
        · refine .bind fun r _ => ?_
          rcases r with e | ⟨info, q1⟩
          · exact .ok (bad _)
          · dsimp only
            refine .bind fun q _ => .bind fun r hr => ?_
            have hv := ihV m q hm r hr
            rcases r with ⟨e, b, m1⟩ | ⟨b, q1, m1⟩
            · obtain ⟨h1, left, h2⟩ := hv
              refine .ok ⟨h1, fun h => by simp [Body.blocks] at h, b.blocks ++ left, ?_⟩
              refine h2.trans ?_
              rw [Body.blocks]
              refine ((hh.append_left _).append_left _).trans ?_
              rw [List.perm_iff_count]; intro x; simp only [List.cons_append, List.count_append, List.count_cons]; omega
            · obtain ⟨h1, h2, h3⟩ := hv
              have hh' : m1.heap.Perm (blk :: blocksL done ++ (blocks (b.node val info.name) ++ F)) := by
                rw [blocks_node]
                refine h3.trans ((hh.append_left _).trans ?_)
                rw [List.perm_iff_count]; intro x; simp only [List.cons_append, List.count_append, List.count_cons]; omega
              dsimp only
              rcases append_post (ν := ν) h1.ok (hg.later h1) (h2.shape val info.name) (node_parent _ _ _) hh' mem with ⟨e, -⟩ | ⟨m2, blk2, cap2, x2, e, -, l2, g2, p2⟩
              · rw [e, okBind]
                refine .ok ⟨h1, fun h => by simp [Body.blocks] at h, b.blocks, ?_⟩
                rw [blocks_node] at hh'
                exact hh'
              · rw [e, okBind]
                dsimp only
                have l02 := h1.trans l2
                refine .bind fun f _ => ?_
                split
                · exact .ok ⟨l02, g2, by simp [Body.blocks], p2⟩
                · refine .bind fun q5 _ => .bind fun c5 _ => ?_
                  split
                  · exact fun r hr => (ihM _ _ _ _ _ _ l2.ok g2 p2 r hr).from l02
                  · exact .ok ⟨l02, g2, by simp [Body.blocks], p2⟩

/-! ### The same document as in `Parse/Json` -/

section
variable {ν : Type} (val : Kind ν → Adt.Value)

/-- The two parsers do the same. -/
def Same : Except Fault (Json.Res (Kind ν × List (Json.Node ν))) → Except Fault (Res ν) → Prop
  | .error e, .error e' => e' = e
  | .ok (.err e), .ok (.err e' _ _) => e' = .json e
  | .ok (.ok (k, kids) p), .ok (.ok b p' _) => p' = p ∧ ∀ name st, (b.node val name).tree = treeOf val (.mk name st k kids)
  | _, _ => False

theorem Same.bind {α : Type} (x : Except Fault α) {f : α → Except Fault (Json.Res (Kind ν × List (Json.Node ν)))} {g : α → Except Fault (Res ν)}
    (h : ∀ a, x = .ok a → Same val (f a) (g a)) : Same val (x >>= f) (x >>= g) := by
  cases x with
  | error e => exact rfl
  | ok a => exact h a rfl

/-- The same after calls that do the same. -/
theorem Same.bindRes {x : Except Fault (Json.Res (Kind ν × List (Json.Node ν)))} {y : Except Fault (Res ν)} (hxy : Same val x y)
    {f : Json.Res (Kind ν × List (Json.Node ν)) → Except Fault (Json.Res (Kind ν × List (Json.Node ν)))} {g : Res ν → Except Fault (Res ν)}
    (he : ∀ e b m, y = .ok (.err (.json e) b m) → Same val (f (.err e)) (g (.err (.json e) b m)))
    (hk : ∀ k kids b p m, y = .ok (.ok b p m) → (∀ name st, (b.node val name).tree = treeOf val (.mk name st k kids)) → Same val (f (.ok (k, kids) p)) (g (.ok b p m))) :
    Same val (x >>= f) (y >>= g) := by
  rcases x with e | (e | ⟨⟨k, kids⟩, p⟩) <;> rcases y with e' | (⟨e', b, m⟩ | ⟨b, p', m⟩)
  · exact hxy
  · exact hxy.elim
  · exact hxy.elim
  · exact hxy.elim
  · obtain rfl : e' = .json e := hxy
    exact he _ _ _ rfl
  · exact hxy.elim
  · exact hxy.elim
  · exact hxy.elim
  · obtain ⟨rfl, h⟩ := hxy
    exact hk _ _ _ _ _ rfl h

theorem parseQuoted_kind {c : Byte} {p : List Byte} {r : Json.Res (Kind ν × List (Json.Node ν))} (h : parseQuoted c p = .ok r) : ∃ m s q, r = .ok (.str m s, []) q := by
  unfold parseQuoted at h
  dsimp only at h
  cases h1 : Token.skipLiteral c (p.drop 1) with
  | error => rw [h1] at h; cases h
  | ok e =>
    rw [h1, okBind] at h
    cases h2 : wr (p.drop 1) e 0 with
    | error => rw [h2] at h; cases h
    | ok b =>
      rw [h2, okBind] at h
      cases h3 : strlen b with
      | error => rw [h3] at h; cases h
      | ok l =>
        rw [h3, okBind] at h
        cases h
        exact ⟨_, _, _, rfl⟩

theorem treesOf_append (a b : List (Json.Node ν)) : treesOf val (a ++ b) = treesOf val a ++ treesOf val b := by
  induction a with
  | nil => rw [List.nil_append, treesOf, List.nil_append]
  | cons k ks ih => rw [List.cons_append, treesOf, treesOf, ih, List.cons_append]

theorem tree_withParent (q : Ptr) (n : Adt.Node) : (n.withParent q).tree = n.tree := by cases n <;> simp [Adt.Node.withParent, Adt.Node.tree]

theorem tree_adopt (q : Ptr) (n : Adt.Node) : (adopt q n).tree = n.tree := by
  cases n with
  | leaf => rfl
  | branch n p a b c ks =>
    rw [adopt, Adt.Node.tree, Adt.Node.tree, Adt.trees_eq, Adt.trees_eq, List.map_map]
    congr 1
    exact List.map_congr_left fun k _ => tree_withParent q k

theorem trees_snoc {done : List Adt.Node} {jdone : List (Json.Node ν)} (h : Adt.trees done = treesOf val jdone) {x y : Adt.Node} (hq : ∃ q, x = adopt q y) {j : Json.Node ν}
    (hj : y.tree = treeOf val j) : Adt.trees (done ++ [x]) = treesOf val (jdone ++ [j]) := by
  obtain ⟨q, rfl⟩ := hq
  rw [treesOf_append, ← h, Adt.trees_eq, Adt.trees_eq, List.map_append, List.map_singleton, tree_adopt, hj]
  simp [treesOf]

theorem same_parse (io : NumIO ν) {mem : Nat → Bool} (hmem : ∀ i, mem i = true) (n : Nat) :
    (∀ m p, m.Ok → Same val (Json.parseValue io n p) (parseValue val io mem n m p)) ∧
    (∀ m p, m.Ok → Same val (Json.parseObject io n p) (parseObject val io mem n m p)) ∧
    (∀ m blk cap done jdone p F, m.Ok → Good (ν := ν) m (.branch true blk cap done) → m.heap.Perm (blk :: blocksL done ++ F) → Adt.trees done = treesOf val jdone →
      Same val (Json.parseElements io n jdone p) (parseElements val io mem n m blk cap done p)) ∧
    (∀ m blk cap done jdone p F, m.Ok → Good (ν := ν) m (.branch false blk cap done) → m.heap.Perm (blk :: blocksL done ++ F) → Adt.trees done = treesOf val jdone →
      Same val (Json.parseMembers io n jdone p) (parseMembers val io mem n m blk cap done p)) := by
  induction n with
  | zero => exact ⟨fun _ _ _ => rfl, fun _ _ _ => rfl, fun _ _ _ _ _ _ _ _ _ _ _ => rfl, fun _ _ _ _ _ _ _ _ _ _ _ => rfl⟩
  | succ n ih =>
    obtain ⟨ihV, ihO, ihE, ihM⟩ := ih
    refine ⟨fun m p hm => ?_, fun m p hm => ?_, fun m blk cap done jdone p F hm hg hh ht => ?_, fun m blk cap done jdone p F hm hg hh ht => ?_⟩
    · rw [Json.parseValue, parseValue]
      refine .bind val _ fun c _ => .bind val _ fun b _ => ?_
      split
      · cases hr : parseQuoted (ν := ν) c p with
        | error e => exact rfl
        | ok r =>
          obtain ⟨mm, s, q, rfl⟩ := parseQuoted_kind hr
          exact ⟨rfl, fun name st => by rw [Body.node, Adt.Node.tree, treeOf] <;> simp⟩
      · refine .bind val _ fun b _ => ?_
        split
        · refine .bind val _ fun r _ => ?_
          rcases r with _ | ⟨k, len⟩
          · exact rfl
          · exact ⟨rfl, fun name st => by rw [Body.node, Adt.Node.tree, treeOf] <;> simp⟩
        · split
          · refine .bind val _ fun r _ => ?_
            obtain ⟨v, k⟩ := r
            refine ⟨rfl, fun name st => ?_⟩
            cases v <;> rw [Body.node, Adt.Node.tree, treeOf] <;> simp
          · refine .bind val _ fun b _ => ?_
            split
            · exact (ihO m p hm).bindRes val (fun e b m _ => rfl) (fun k kids b p m _ h => ⟨rfl, h⟩)
            · exact ⟨rfl, fun name st => by rw [Body.node, Adt.Node.tree, treeOf] <;> simp⟩
    · rw [Json.parseObject, parseObject]
      have hf := ok_fresh hm
      have hg : ∀ isArr, Good (ν := ν) ⟨m.next + 1, m.next :: m.heap⟩ (.branch isArr m.next (grow 0) []) := fun _ =>
        ⟨⟨0, rfl, Nat.zero_le _, .inl rfl⟩, by rw [ShapeL]; trivial, by simp⟩
      have hh : (m.next :: m.heap).Perm (m.next :: blocksL [] ++ m.heap) := by simp [Adt.blocksL]
      refine .bind val _ fun q _ => .bind val _ fun c _ => ?_
      rw [if_neg (show ¬ mem m.next = Bool.false by rw [hmem]; decide)]
      split
      · exact ihM _ _ _ _ _ _ _ hf.ok (hg _) hh (by rw [Adt.trees, treesOf])
      · split
        · exact ihE _ _ _ _ _ _ _ hf.ok (hg _) hh (by rw [Adt.trees, treesOf])
        · exact ihM _ _ _ _ _ _ _ hf.ok (hg _) hh (by rw [Adt.trees, treesOf])
    · rw [Json.parseElements, parseElements]
      refine .bind val _ fun c _ => ?_
      split
      · exact rfl
      · refine .bind val _ fun q _ => .bind val _ fun c' _ => ?_
        split
        · exact ⟨rfl, fun name st => by rw [Body.node, Adt.Node.tree, treeOf, ht]⟩
        · refine (ihV m q hm).bindRes val (fun e b m _ => rfl) (fun k kids b p m1 hr htree => ?_)
          obtain ⟨h1, h2, h3⟩ := (parse_post val io mem n).1 m q hm _ hr
          have hh' : m1.heap.Perm (blk :: blocksL done ++ (blocks (b.node val none) ++ F)) := by
            rw [blocks_node]
            refine h3.trans ((hh.append_left _).trans ?_)
            rw [List.perm_iff_count]; intro x; simp only [List.cons_append, List.count_append, List.count_cons]; omega
          dsimp only
          rcases append_post (ν := ν) h1.ok (hg.later h1) (h2.shape val none) (node_parent _ _ _) hh' mem with ⟨-, e⟩ | ⟨m2, blk2, cap2, x2, e, hq, l2, g2, p2⟩
          · exact absurd hmem e
          · rw [e, okBind]
            dsimp only
            have ht2 := trees_snoc val ht hq (htree none {})
            refine .bind val _ fun q2 _ => .bind val _ fun c2 _ => ?_
            split
            · exact ihE _ _ _ _ _ _ _ l2.ok g2 p2 ht2
            · split
              · exact rfl
              · exact ⟨rfl, fun name st => by rw [Body.node, Adt.Node.tree, treeOf, ht2]⟩
    · rw [Json.parseMembers, parseMembers]
      refine .bind val _ fun q _ => .bind val _ fun c _ => ?_
      split
      · exact ⟨rfl, fun name st => by rw [Body.node, Adt.Node.tree, treeOf, ht]⟩
      · refine .bind val _ fun b _ => ?_
        split
        · exact rfl
        · refine .bind val _ fun r _ => ?_
          rcases r with e | ⟨info, q1⟩
          · exact rfl
          · dsimp only
            refine .bind val _ fun q _ => ?_
            refine (ihV m q hm).bindRes val (fun e b m _ => rfl) (fun k kids b p m1 hr htree => ?_)
            obtain ⟨h1, h2, h3⟩ := (parse_post val io mem n).1 m q hm _ hr
            have hh' : m1.heap.Perm (blk :: blocksL done ++ (blocks (b.node val info.name) ++ F)) := by
              rw [blocks_node]
              refine h3.trans ((hh.append_left _).trans ?_)
              rw [List.perm_iff_count]; intro x; simp only [List.cons_append, List.count_append, List.count_cons]; omega
            dsimp only
            rcases append_post (ν := ν) h1.ok (hg.later h1) (h2.shape val info.name) (node_parent _ _ _) hh' mem with ⟨-, e⟩ | ⟨m2, blk2, cap2, x2, e, hq, l2, g2, p2⟩
            · exact absurd hmem e
            · rw [e, okBind]
              dsimp only
              refine .bind val _ fun f _ => ?_
              have ht2 := trees_snoc val ht hq (htree info.name (f info.style).1)
              split
              · exact ⟨rfl, fun name st => by rw [Body.node, Adt.Node.tree, treeOf, ht2]⟩
              · refine .bind val _ fun q5 _ => .bind val _ fun c5 _ => ?_
                split
                · exact ihM _ _ _ _ _ _ _ l2.ok g2 p2 ht2
                · exact ⟨rfl, fun name st => by rw [Body.node, Adt.Node.tree, treeOf, ht2]⟩

theorem start_ok : Alloc.Ok ⟨1, []⟩ := ⟨List.nodup_nil, Nat.one_pos, by simp⟩

/-! ## Theorems -/

/-- **C148.** As long as memory suffices, the parser accepts and refuses the same texts as that of `Parse/Json`, with the same errors, and the tree in memory is the document. -/
theorem C148_same_document (io : NumIO ν) {mem : Nat → Bool} (hmem : ∀ i, mem i = true) (text : List Byte) :
    match Json.parse io text with
    | .error e => parse val io mem text = .error e
    | .ok (.error e) => ∃ root m, parse val io mem text = .ok (some (.json e), root, m)
    | .ok (.ok doc) => ∃ root m, parse val io mem text = .ok (none, root, m) ∧ root.tree = treeOf val doc := by
  rw [Json.parse, parse]
  cases h1 : trimText Bool.true text with
  | error e => exact rfl
  | ok p =>
    rw [okBind, okBind]
    cases h2 : rd p 0 with
    | error e => exact rfl
    | ok c =>
      rw [okBind, okBind]
      cases h3 : strchr [0x7b#8, 0x5b#8, 0] c with
      | error e => exact rfl
      | ok b =>
        rw [okBind, okBind]
        have hs := (same_parse val io hmem (4 * text.length + 4)).2.1 ⟨1, []⟩ p start_ok
        revert hs
        rcases Json.parseObject io (4 * text.length + 4) p with e | (e | ⟨⟨k, kids⟩, q⟩) <;> rcases parseObject val io mem (4 * text.length + 4) ⟨1, []⟩ p with e' | (⟨e', b, m⟩ | ⟨b, p', m⟩) <;>
          intro hs
        · obtain rfl : e' = e := hs; exact rfl
        · exact hs.elim
        · exact hs.elim
        · exact hs.elim
        · obtain rfl : e' = .json e := hs; exact ⟨_, _, rfl⟩
        · exact hs.elim
        · exact hs.elim
        · exact hs.elim
        · exact ⟨_, _, rfl, hs.2 _ _⟩

theorem parse_inv (io : NumIO ν) (mem : Nat → Bool) {text : List Byte} {e : Option MErr} {root : Adt.Node} {m : Alloc} (h : parse val io mem text = .ok (e, root, m)) :
    m.Ok ∧ ∃ b : Body ν, root = b.node val none ∧ (e = none → Good m b ∧ m.heap.Perm (blocks root)) ∧ (∃ left, m.heap.Perm (blocks root ++ left)) := by
  rw [parse] at h
  cases h1 : trimText Bool.true text with
  | error e => rw [h1] at h; cases h
  | ok p =>
    rw [h1, okBind] at h
    cases h2 : rd p 0 with
    | error e => rw [h2] at h; cases h
    | ok c =>
      rw [h2, okBind] at h
      cases h3 : strchr [0x7b#8, 0x5b#8, 0] c with
      | error e => rw [h3] at h; cases h
      | ok b =>
        rw [h3, okBind] at h
        cases h4 : parseObject val io mem (4 * text.length + 4) ⟨1, []⟩ p with
        | error e => rw [h4] at h; cases h
        | ok r =>
          rw [h4, okBind] at h
          have hp := (parse_post val io mem (4 * text.length + 4)).2.1 ⟨1, []⟩ p start_ok r h4
          cases r with
          | err e' b m' =>
            cases h
            obtain ⟨l, -, left, hp⟩ := hp
            refine ⟨l.ok, b, rfl, fun h => (by cases h), left, ?_⟩
            rw [blocks_node]
            simpa using hp
          | ok b q m' =>
            cases h
            obtain ⟨l, hg, -, hp⟩ := hp
            have : m.heap.Perm (blocks (b.node val none)) := by rw [blocks_node]; simpa using hp
            exact ⟨l.ok, b, rfl, fun _ => ⟨hg, this⟩, [], by simpa using this⟩

/-- **C148.** `zpl_json_free` (json.c:49-51) of an accepted document frees every array that parsing it has allocated, each of them once, whatever the text and whichever allocations have
failed. -/
theorem C148_accepted_freed (io : NumIO ν) (mem : Nat → Bool) {text : List Byte} {root : Adt.Node} {m : Alloc} (h : parse val io mem text = .ok (none, root, m)) :
    destroy root m.heap = .ok [] := by
  obtain ⟨-, b, -, h1, -⟩ := parse_inv val io mem h
  obtain ⟨h', e, hp⟩ := Adt.destroy_perm root m.heap [] (by simpa using (h1 rfl).2)
  rw [e, hp.eq_nil]

/-- **C148.** `zpl_json_free` of what a refused text has left is safe: nothing is freed that is not allocated. -/
theorem C148_refused_safe (io : NumIO ν) (mem : Nat → Bool) {text : List Byte} {e : Option MErr} {root : Adt.Node} {m : Alloc} (h : parse val io mem text = .ok (e, root, m)) :
    ∃ left, destroy root m.heap = .ok left := by
  obtain ⟨-, b, -, -, left, hp⟩ := parse_inv val io mem h
  obtain ⟨h', e, -⟩ := Adt.destroy_perm root m.heap left hp
  exact ⟨h', e⟩

/-- An object or array within something else. -/
theorem value_object (io : NumIO ν) (mem : Nat → Bool) (n : Nat) (m : Alloc) {c : Byte} (hc : c = 0x7b#8 ∨ c = 0x5b#8) (p : List Byte) :
    parseValue val io mem (n + 1) m (c :: p) = (parseObject val io mem n m (c :: p) >>= fun r => match r with
      | .err e b m => .ok (.err e b m)
      | .ok b p m => .ok (.ok b (p.drop 1) m)) := by
  have h1 : strchr [0x60#8, 0x22#8, 0x27#8, 0] c = .ok Bool.false := by rcases hc with rfl | rfl <;> decide
  have h2 : ∀ u, startsWord (c :: u) = .ok Bool.false := fun u => by rcases hc with rfl | rfl <;> rfl
  have h3 : strchr [0x5b#8, 0x7b#8, 0] c = .ok Bool.true := by rcases hc with rfl | rfl <;> decide
  have h4 : ¬ (Chars.isDigit c = Bool.true ∨ c = 0x2b#8 ∨ c = 0x2d#8 ∨ c = 0x2e#8) := by rcases hc with rfl | rfl <;> decide
  rw [parseValue, Json.rd_cons, okBind, h1, okBind, if_neg Bool.false_ne_true, h2, okBind, if_neg Bool.false_ne_true, if_neg h4, h3, okBind, if_pos rfl]

/-- **C148 fails** for refused texts: if an object or array within an array is wrong, at any depth in it and after any number of right parts, its array of nodes stays allocated; the root does
not lead to it and `zpl_json_free` does not free it. -/
theorem C148_refused_leaks {io : NumIO ν} {mem : Nat → Bool} (hmem : ∀ i, mem i = true) {w w' t : List Byte} (hw : Inline w) (hw' : Blanks w') {c : Byte} (hc : c = 0x7b#8 ∨ c = 0x5b#8)
    {e : Err} (h : Broken io .value (c :: t) e) (rest : List Byte) :
    ∃ root m left, parse val io mem (w ++ 0x5b#8 :: w' ++ c :: t ++ rest) = .ok (some (.json e), root, m) ∧ destroy root m.heap = .ok left ∧ left ≠ [] := by
  have hst : Stop Bool.false 0x5b#8 := ⟨by decide, .inl (by unfold Token.Blank; decide)⟩
  have hst' : Stop Bool.false c := by rcases hc with rfl | rfl <;> exact ⟨by decide, .inl (by unfold Token.Blank; decide)⟩
  have h1 : strchr [0x7b#8, 0x5b#8, 0] 0x5b#8 = .ok Bool.true := by decide
  obtain ⟨w2, -, hw2, e1⟩ := trim_first hw.blanks hst (w' ++ c :: (t ++ rest))
  obtain rfl := hw2 hw
  have e0 : w ++ 0x5b#8 :: w' ++ c :: t ++ rest = w ++ 0x5b#8 :: (w' ++ c :: (t ++ rest)) := by simp
  obtain ⟨n, hn⟩ : ∃ n, 4 * (w ++ 0x5b#8 :: (w' ++ c :: (t ++ rest))).length + 4 = n + 1 + 1 + 1 + 1 := ⟨4 * (w ++ 0x5b#8 :: (w' ++ c :: (t ++ rest))).length, rfl⟩
  have ez : ∃ z, rd (w' ++ c :: (t ++ rest)) 0 = .ok z ∧ z ≠ 0 := by
    cases w' with
    | nil => exact ⟨c, rfl, by rcases hc with rfl | rfl <;> decide⟩
    | cons z w => exact ⟨z, rfl, (blank_ne (hw' z (by simp))).2⟩
  obtain ⟨z, ez, hz⟩ := ez
  have hf := fails h rest (n + 1 + 1) (by simp only [List.length_append, List.length_cons] at hn ⊢; omega)
  have ok1 : Alloc.Ok ⟨1 + 1, [1]⟩ := (ok_fresh start_ok).ok
  have hsame := (same_parse val io hmem (n + 1 + 1)).1 ⟨1 + 1, [1]⟩ (c :: t ++ rest) ok1
  rw [hf] at hsame
  rw [List.cons_append] at hsame
  have hv : ∃ b m, parseValue val io mem (n + 1 + 1) ⟨1 + 1, [1]⟩ (c :: (t ++ rest)) = .ok (.err (.json e) b m) ∧ b.blocks ≠ [] ∧ ∃ left, m.heap.Perm (b.blocks ++ (left ++ [1])) := by
    rw [value_object val io mem (n + 1) _ hc] at hsame ⊢
    have hp := (parse_post val io mem (n + 1)).2.1 ⟨1 + 1, [1]⟩ (c :: (t ++ rest)) ok1
    cases hr : parseObject val io mem (n + 1) ⟨1 + 1, [1]⟩ (c :: (t ++ rest)) with
    | error e => rw [hr] at hsame; exact hsame.elim
    | ok r =>
      have hp := hp r hr
      rw [hr, okBind] at hsame
      cases r with
      | ok => exact hsame.elim
      | err e' b m =>
        obtain rfl : e' = .json e := hsame
        exact ⟨b, m, rfl, fun hb => (by cases hp.2.1 hb), hp.2.2⟩
  obtain ⟨b, m, ev, hb, left, hp⟩ := hv
  refine ⟨.branch none none true 1 (grow 0) [], m, ?_⟩
  have hperm : m.heap.Perm (blocks (.branch none none true 1 (grow 0) []) ++ (b.blocks ++ left)) := by
    refine hp.trans ?_
    rw [Adt.blocks, Adt.blocksL]
    rw [List.perm_iff_count]; intro x; simp only [List.cons_append, List.nil_append, List.count_append, List.count_cons, List.count_nil]; omega
  obtain ⟨h', ed, pd⟩ := Adt.destroy_perm _ _ _ hperm
  refine ⟨h', ?_, ed, fun hnil => ?_⟩
  · rw [e0, parse, e1, okBind, List.nil_append, Json.rd_cons, okBind, h1, okBind, hn, parseObject, trim_stop hst, okBind, Json.rd_cons, okBind,
      if_neg (show ¬ mem 1 = Bool.false by rw [hmem]; decide), if_neg (by decide), if_pos rfl, drop_one, parseElements, ez, okBind, if_neg hz, trim_blanks hw' hst', okBind, Json.rd_cons, okBind,
      if_neg (by rcases hc with rfl | rfl <;> decide), ev, okBind]
    rfl
  · rw [hnil] at pd
    exact hb (List.append_eq_nil_iff.1 pd.symm.eq_nil).1

/-! ### Removing nodes -/

theorem shapeL_get {m : Alloc} {blk cap : Nat} : ∀ {i k : Nat} {ks : List Adt.Node} {x : Adt.Node}, ShapeL m blk cap i ks → ks[k]? = some x → Recorded m blk cap (i + k) x ∧ Shape m x
  | i, 0, y :: ks, x, h, e => by
    rw [ShapeL] at h
    cases e
    exact ⟨h.1, h.2.1⟩
  | i, k + 1, y :: ks, x, h, e => by
    rw [ShapeL] at h
    have := shapeL_get (k := k) (x := x) h.2.2 (by simpa using e)
    rwa [show i + (k + 1) = i + 1 + k by omega]

theorem shape_at {m : Alloc} {n x : Adt.Node} {path : List Nat} (h : Shape m n) (hx : Adt.at? n path = some x) : Shape m x := by
  induction path generalizing n with
  | nil => cases hx; exact h
  | cons i path ih =>
    cases n with
    | leaf => simp [Adt.at?, Adt.Node.kids] at hx
    | branch nm p a b c ks =>
      rw [Shape] at h
      simp only [Adt.at?, Adt.Node.kids] at hx
      cases hk : ks[i]? with
      | none => rw [hk] at hx; cases hx
      | some k =>
        rw [hk] at hx
        exact ih (shapeL_get h.2 hk).2 hx

/-- An array of nodes moves when the number of its nodes passes 8, 24, 56, ...: `k` is in it before such a moment and `len` are its nodes afterwards. -/
def Moved (len k : Nat) : Prop := ∃ j, k < 8 * (2 ^ j - 1) ∧ 8 * (2 ^ j - 1) < len

theorem half_size (j : Nat) : (size j - 8) / 2 = 8 * (2 ^ j - 1) := by
  have : 0 < 2 ^ j := Nat.pow_pos (by decide)
  unfold size
  rw [Nat.pow_succ]
  omega

theorem Capacity.moved {cap len : Nat} (h : Capacity cap len) {k : Nat} (hk : k < len) : Moved len k ↔ ¬ (cap - 8) / 2 ≤ k := by
  obtain ⟨j, rfl, h2, h3⟩ := h
  rw [half_size] at h3 ⊢
  constructor
  · rintro ⟨i, h4, h5⟩ h6
    have : j < i := by
      refine Nat.lt_of_not_le fun hij => ?_
      have : 2 ^ i ≤ 2 ^ j := Nat.pow_le_pow_right (by decide) hij
      omega
    have : 2 ^ (j + 1) ≤ 2 ^ i := Nat.pow_le_pow_right (by decide) this
    unfold size at h2
    omega
  · intro h4
    refine ⟨j, by omega, ?_⟩
    rcases h3 with rfl | h3
    · exact absurd (Nat.zero_le k) h4
    · exact h3

/-- What is in memory after a text was accepted. -/
def state (root : Adt.Node) (m : Alloc) : Adt.State := ⟨root, m.next⟩

theorem accepted_wf {io : NumIO ν} {mem : Nat → Bool} {text : List Byte} {root : Adt.Node} {m : Alloc} (h : parse val io mem text = .ok (none, root, m)) : (state root m).Wf := by
  obtain ⟨hm, b, -, h1, -⟩ := parse_inv val io mem h
  have hp := (h1 rfl).2
  exact ⟨hp.nodup hm.nodup, fun x hx => hm.bound x (hp.symm.subset hx)⟩

/-- **C149 fails** for the nodes directly below the root of any accepted document: they record no parent, so that `zpl_adt_remove_node` violates an assertion. -/
theorem C149_top_nodes {io : NumIO ν} {mem : Nat → Bool} {text : List Byte} {root : Adt.Node} {m : Alloc} (h : parse val io mem text = .ok (none, root, m)) {p : Ptr} {i : Nat}
    (hp : (state root m).PointsTo p [i]) : Adt.removeNode (state root m) p = .error .assertion := by
  obtain ⟨hm, b, rfl, h1, -⟩ := parse_inv val io mem h
  obtain ⟨x, hx⟩ := Adt.at_of_addr hp
  have hd := Adt.deref_ok (accepted_wf val h) hp hx
  obtain ⟨nm, pp, a, bk, c, ks, ho, hk⟩ := Adt.at_snoc (path := []) hx
  have hpar : x.parent = none := by
    have hg := (h1 rfl).1
    cases b with
    | leaf => cases ho
    | branch a' bk' c' ks' =>
      cases ho
      exact hg.2.2 x (List.mem_of_getElem? hk)
  rw [Adt.removeNode, hd, okBind, hpar]

/-- **C149.** Every other node can be removed, if the array its parent lies in has not moved since its parent was stored there: exactly that node and what is below it disappear. -/
theorem C149_remove_partial {io : NumIO ν} {mem : Nat → Bool} {text : List Byte} {root : Adt.Node} {m : Alloc} (h : parse val io mem text = .ok (none, root, m)) {p : Ptr}
    {path : List Nat} {k i : Nat} (hp : (state root m).PointsTo p (path ++ [k] ++ [i])) {nm : Option (List Byte)} {a : Bool} {ts : List Adt.Tree} (ht : root.tree.sub? path = some (.branch nm a ts))
    (hk : ¬ Moved ts.length k) :
    ∃ s', Adt.removeNode (state root m) p = .ok s' ∧ s'.root.tree = root.tree.update (path ++ [k]) (.onKids (·.eraseIdx i)) := by
  obtain ⟨hm, b, rfl, h1, -⟩ := parse_inv val io mem h
  have hsh := (h1 rfl).1.shape val none
  have hw := accepted_wf val h
  obtain ⟨x, hx⟩ := Adt.at_of_addr hp
  obtain ⟨nm1, p1, a1, b1, c1, ks1, ho1, hk1⟩ := Adt.at_snoc hx
  obtain ⟨nm2, p2, a2, b2, c2, ks2, ho2, hk2⟩ := Adt.at_snoc ho1
  have hlen : ts.length = ks2.length := by
    rw [Adt.sub_tree, show Adt.at? (b.node val none) path = _ from ho2, Option.map_some, Adt.Node.tree, Option.some.injEq] at ht
    injection ht with _ _ ht
    rw [← ht, Adt.trees_eq, List.length_map]
  have hs2 := shape_at hsh ho2
  rw [Shape] at hs2
  have hlt := (List.getElem?_eq_some_iff.1 hk2).1
  obtain ⟨q, hq1, hq2, hq3⟩ := (shapeL_get hs2.2 hk2).1 x (by rw [Adt.Node.kids]; exact List.mem_of_getElem? hk1)
  rw [hlen, hs2.1.moved hlt, Decidable.not_not] at hk
  rw [if_pos (by rw [Nat.zero_add]; exact hk)] at hq3
  have hpo : (state (b.node val none) m).ParentOk (path ++ [k]) i := by
    refine ⟨x, q, hx, hq1, ?_⟩
    rw [Adt.State.PointsTo, Adt.addr_snoc _ ho2 k hlt]
    obtain ⟨qb, qi⟩ := q
    dsimp only at hq2 hq3
    rw [hq3, hq2, Nat.zero_add]
  obtain ⟨s', e, -, hs'⟩ := Adt.C62_remove_partial hw hp hpo
  exact ⟨s', e, hs'⟩

/-- **C149 fails** for the nodes whose parent was stored in an array that has moved since: they record a parent in freed memory, and `zpl_adt_remove_node` reads it. -/
theorem C149_dangling_parent {io : NumIO ν} {mem : Nat → Bool} {text : List Byte} {root : Adt.Node} {m : Alloc} (h : parse val io mem text = .ok (none, root, m)) {p : Ptr}
    {path : List Nat} {k i : Nat} (hp : (state root m).PointsTo p (path ++ [k] ++ [i])) {nm : Option (List Byte)} {a : Bool} {ts : List Adt.Tree} (ht : root.tree.sub? path = some (.branch nm a ts))
    (hk : Moved ts.length k) : Adt.removeNode (state root m) p = .error .ub := by
  obtain ⟨hm, b, rfl, h1, -⟩ := parse_inv val io mem h
  have hsh := (h1 rfl).1.shape val none
  have hw := accepted_wf val h
  obtain ⟨x, hx⟩ := Adt.at_of_addr hp
  obtain ⟨nm1, p1, a1, b1, c1, ks1, ho1, hk1⟩ := Adt.at_snoc hx
  obtain ⟨nm2, p2, a2, b2, c2, ks2, ho2, hk2⟩ := Adt.at_snoc ho1
  have hlen : ts.length = ks2.length := by
    rw [Adt.sub_tree, show Adt.at? (b.node val none) path = _ from ho2, Option.map_some, Adt.Node.tree, Option.some.injEq] at ht
    injection ht with _ _ ht
    rw [← ht, Adt.trees_eq, List.length_map]
  have hs2 := shape_at hsh ho2
  rw [Shape] at hs2
  have hlt := (List.getElem?_eq_some_iff.1 hk2).1
  obtain ⟨q, hq1, hq2, hq3⟩ := (shapeL_get hs2.2 hk2).1 x (by rw [Adt.Node.kids]; exact List.mem_of_getElem? hk1)
  rw [hlen, hs2.1.moved hlt] at hk
  rw [if_neg (by rw [Nat.zero_add]; exact hk)] at hq3
  have hnot : q.blk ∉ blocks (b.node val none) := fun hm => hq3.2.2 ((h1 rfl).2.symm.subset hm)
  rw [Adt.removeNode, Adt.deref_ok hw hp hx, okBind, hq1]
  dsimp only
  rw [Adt.deref, if_neg (by have := hq3.1; omega)]
  simp only [state, Adt.owner_absent _ _ hnot]
  rfl
end

/-! ## The theorems are not vacuous -/

/-- Whether a text is accepted, how many arrays it has allocated and how many are left after `zpl_json_free`. -/
def outcome (mem : Nat → Bool) (text : List Byte) : Except Fault (Bool × Nat × Nat) := do
  let (e, root, m) ← parse (fun _ => .none) noNumbers mem text
  let left ← destroy root m.heap
  .ok (e.isNone, m.heap.length, left.length)

/-- Removes the node at a path of an accepted document; does its parent have no children then? -/
def removeAt (text : List Byte) (path : List Nat) : Except Fault Bool := do
  let (e, root, m) ← parse (fun _ => .none) noNumbers (fun _ => true) text
  match e, Adt.addr ⟨0, 0⟩ root path with
  | none, some p => do
    let s ← Adt.removeNode (state root m) p
    .ok ((s.root.tree.sub? path.dropLast).map (·.kids.length) = some 0)
  | _, _ => .ok false

/-- `[true],` -/
def item : List Byte := [0x5b#8, 0x74#8, 0x72#8, 0x75#8, 0x65#8, 0x5d#8, 0x2c#8]

/-- `[[true],[true],...]` with that many. -/
def items (n : Nat) : List Byte := 0x5b#8 :: (List.replicate n item).flatten ++ [0x5d#8, 0]

/-- Nine arrays in an array, whose array has moved once. -/
example : outcome (fun _ => true) (items 9) = .ok (true, 10, 0) := by decide +kernel

/-- `[[[y`: the inner arrays are lost. -/
example : outcome (fun _ => true) [0x5b#8, 0x5b#8, 0x5b#8, 0x79#8, 0] = .ok (false, 3, 2) := by decide +kernel

example {ν : Type} (val : Kind ν → Adt.Value) (io : NumIO ν) (rest : List Byte) : ∃ root m left, parse val io (fun _ => true) ([0x5b#8, 0x5b#8, 0x79#8] ++ rest) = .ok (some (.json .unknownKeyword), root, m) ∧
    destroy root m.heap = .ok left ∧ left ≠ [] := by
  refine C148_refused_leaks val (w := []) (w' := []) (t := [0x79#8]) (fun _ => rfl) (by simp [Inline]) (by simp [Blanks]) (.inr rfl)
    (.arr (.inElem (w := []) (by simp [Blanks]) (.word (s := []) (by decide) ?_))) rest
  intro k
  cases k <;> decide

/-- The same if memory runs out: when the array would have to move, and when the first inner array or that of the root would be allocated. -/
example : outcome (fun i => i < 11) (items 9) = .ok (false, 10, 1) := by decide +kernel
example : outcome (fun i => i ≠ 2) (items 9) = .ok (false, 1, 0) := by decide +kernel
example : outcome (fun i => i ≠ 1) (items 9) = .ok (false, 0, 0) := by decide +kernel

/-- Removing from the array of nine: a node below the root, a node in the first and in the last array. -/
example : removeAt (items 9) [8] = .error .assertion := by decide +kernel
example : removeAt (items 9) [0, 0] = .error .ub := by decide +kernel
example : removeAt (items 9) [8, 0] = .ok true := by decide +kernel
example : removeAt (items 8) [0, 0] = .ok true := by decide +kernel

example : Moved 9 0 ∧ Moved 9 7 ∧ ¬ Moved 9 8 ∧ ¬ Moved 8 0 ∧ Moved 25 23 := by
  refine ⟨⟨1, by decide, by decide⟩, ⟨1, by decide, by decide⟩, ?_, ?_, ⟨2, by decide, by decide⟩⟩
  · rintro ⟨j, h1, h2⟩
    have : 2 ^ j < 3 := by omega
    have : 2 ≤ 2 ^ j := by omega
    omega
  · rintro ⟨j, h1, h2⟩
    have : 2 ^ j < 2 := by omega
    omega

end Zpl.JsonMem
