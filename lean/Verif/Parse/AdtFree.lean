import Verif.Parse.AdtUp

/-!
# Who frees the arrays of a tree (code/source/adt.c:25-33, parsers/json.c:49-51, csv.c:144-146, uri.c:182-184)  -  C141

The functions of `Parse/Adt` together with the allocator's view: the list of arrays that have been allocated and not yet freed.  Freeing an array that is not on the list, or reading
one, is `ub`. -/

namespace Zpl.Adt

open Zpl Zpl.Str

/-! ## Model -/

/-- The arrays that are allocated. -/
abbrev Heap := List Nat

/-- array.h:107-113 `zpl_array_free`. -/
def release (h : Heap) (b : Nat) : Except Fault Heap := if b ∈ h then .ok (h.erase b) else .error .ub

mutual
/-- adt.c:25-33 `zpl_adt_destroy_branch`: the children first, then the array.  The array is read before. -/
def destroy : Node → Heap → Except Fault Heap
  | .leaf _ _ _, h => .ok h
  | .branch _ _ _ blk _ ks, h => if blk ∈ h then do release (← destroyL ks h) blk else .error .ub
def destroyL : List Node → Heap → Except Fault Heap
  | [], h => .ok h
  | k :: ks, h => do destroyL ks (← destroy k h)
end

/-- adt.c:219-236 `zpl_adt_alloc_at`: if the array is full, array.h:115-130 `zpl__array_set_capacity` allocates another and frees it. -/
def allocAtH (ok : Bool) (s : State) (h : Heap) (p : Ptr) (i : Int) : Except Fault (State × Heap × Option Ptr) := do
  let (s', r) ← allocAt ok s p i
  match ← deref s.root p with
  | .leaf _ _ _ => .ok (s', h, r)
  | .branch _ _ _ blk cap ks =>
    if r.isSome ∧ cap ≤ ks.length then do .ok (s', ← release (s.next :: h) blk, r) else .ok (s', h, r)

/-- adt.c:238-247 `zpl_adt_alloc`. -/
def allocH (ok : Bool) (s : State) (h : Heap) (p : Ptr) : Except Fault (State × Heap × Option Ptr) := do
  match ← deref s.root p with
  | .leaf _ _ _ => .ok (s, h, none)
  | .branch _ _ _ _ _ ks => allocAtH ok s h p ks.length

/-- adt.c:10-23 `zpl_adt_make_branch`, as `zpl_adt_set_obj`, `_arr` (250-255). -/
def setBranchH (ok : Bool) (s : State) (h : Heap) (p : Ptr) (name : Option (List Byte)) (isArr : Bool) : Except Fault (State × Heap × Bool) := do
  let (s', r) ← setBranch ok s p name isArr
  .ok (s', if r then s.next :: h else h, r)

/-- adt.c:272-283 `zpl_adt_move_node_at`: of the calls it makes only `zpl_adt_alloc_at` allocates; copying a node and array.h:198-204 `zpl_array_remove_at` do not. -/
def moveNodeAtH (ok : Bool) (s : State) (h : Heap) (p q : Ptr) (i : Int) : Except Fault (State × Heap × Ptr) := do
  let (s', o) ← moveNodeAt ok s p q i
  let (_, h', _) ← allocAtH ok s h q i
  .ok (s', h', o)

/-- What a client may do with a tree.  The flags say whether the allocator has memory. -/
inductive Call
  | allocAt (ok : Bool) (p : Ptr) (i : Int)
  | setLeaf (p : Ptr) (name : Option (List Byte)) (v : Value)
  | setBranch (ok : Bool) (p : Ptr) (name : Option (List Byte)) (isArr : Bool)
  | appendLeaf (ok : Bool) (p : Ptr) (name : Option (List Byte)) (v : Value)
  | appendBranch (ok ok2 : Bool) (p : Ptr) (name : Option (List Byte)) (isArr : Bool)
  | remove (p : Ptr)
  | swap (p q : Ptr)
  | moveAt (ok : Bool) (p newParent : Ptr) (i : Int)

/-- adt.c:219-350.  The results, which are those of `Parse/Adt`, are left out. -/
def step (s : State) (h : Heap) : Call → Except Fault (State × Heap)
  | .allocAt ok p i => do
    let (s, h, _) ← allocAtH ok s h p i
    .ok (s, h)
  | .setLeaf p name v => do .ok (← setLeaf s p name v, h)
  | .setBranch ok p name isArr => do
    let (s, h, _) ← setBranchH ok s h p name isArr
    .ok (s, h)
  | .appendLeaf ok p name v => do
    match ← allocH ok s h p with
    | (s, h, none) => .ok (s, h)
    | (s, h, some o) => do .ok (← setLeaf s o name v, h)
  | .appendBranch ok ok2 p name isArr => do
    match ← allocH ok s h p with
    | (s, h, none) => .ok (s, h)
    | (s, h, some o) => do
      match ← setBranchH ok2 s h o name isArr with
      | (s, h, true) => .ok (s, h)
      | (s, h, false) => do .ok (← removeNode s o, h)
  | .remove p => do .ok (← removeNode s p, h)
  | .swap p q => do .ok (← swapNodes s p q, h)
  | .moveAt ok p q i => do
    let (s, h, _) ← moveNodeAtH ok s h p q i
    .ok (s, h)

/-- adt.c:10-23: a new root. -/
def fresh (name : Option (List Byte)) (isArr : Bool) : State × Heap := (⟨.branch name none isArr 1 (grow 0) [], 2⟩, [1])

/-! ## Specification -/

/-- A call that does not overwrite or remove a node that has an array of children; that does not swap a node with one inside it; and that does not move the root, or a node into itself. -/
def Careful (s : State) : Call → Prop
  | .setLeaf p _ _ => ∀ n, deref s.root p = .ok n → ∃ nm pp v, n = .leaf nm pp v
  | .setBranch _ p _ _ => ∀ n, deref s.root p = .ok n → ∃ nm pp v, n = .leaf nm pp v
  | .remove p => ∀ n, deref s.root p = .ok n → ∃ nm pp v, n = .leaf nm pp v
  | .swap p q => (∀ P k R, s.PointsTo p P → ¬ s.PointsTo q (P ++ k :: R)) ∧ ∀ Q k R, s.PointsTo q Q → ¬ s.PointsTo p (Q ++ k :: R)
  | .moveAt _ p q _ => (∀ n, deref s.root p = .ok n → n.parent ≠ none) ∧ ∀ P R, s.PointsTo p P → ¬ s.PointsTo q (P ++ R)
  | _ => True

/-- The states a client can reach by careful calls on a new tree. -/
inductive Reach : State → Heap → Prop
  | fresh (name isArr) : Reach (fresh name isArr).1 (fresh name isArr).2
  | call {s h c s' h'} : Reach s h → Careful s c → step s h c = .ok (s', h') → Reach s' h'

/-! ## Lemmas -/

/-- The arrays of the tree are the ones allocated. -/
structure Owned (s : State) (h : Heap) : Prop where
  wf : s.Wf
  pos : 0 < s.next
  perm : h.Perm (blocks s.root)

theorem release_perm {h l : Heap} {b : Nat} (hp : h.Perm (b :: l)) : ∃ h', release h b = .ok h' ∧ h'.Perm l := by
  have hb : b ∈ h := hp.symm.subset (by simp)
  refine ⟨h.erase b, by rw [release, if_pos hb], ?_⟩
  have := hp.erase b
  rwa [List.erase_cons_head] at this

mutual
theorem destroy_perm : (n : Node) → (h l : Heap) → h.Perm (blocks n ++ l) → ∃ h', destroy n h = .ok h' ∧ h'.Perm l
  | .leaf _ _ _, h, l, hp => ⟨h, by rw [destroy], by simpa [blocks] using hp⟩
  | .branch _ _ _ blk _ ks, h, l, hp => by
    rw [blocks] at hp
    have hb : blk ∈ h := hp.symm.subset (by simp)
    obtain ⟨h1, e1, p1⟩ := destroyL_perm ks h (blk :: l) (by
      refine hp.trans ?_
      rw [List.perm_iff_count]; intro x; simp only [List.cons_append, List.count_append, List.count_cons]; omega)
    obtain ⟨h2, e2, p2⟩ := release_perm p1
    exact ⟨h2, by rw [destroy, if_pos hb, e1]; exact e2, p2⟩
theorem destroyL_perm : (ks : List Node) → (h l : Heap) → h.Perm (blocksL ks ++ l) → ∃ h', destroyL ks h = .ok h' ∧ h'.Perm l
  | [], h, l, hp => ⟨h, by rw [destroyL], by simpa [blocksL] using hp⟩
  | k :: ks, h, l, hp => by
    rw [blocksL, List.append_assoc] at hp
    obtain ⟨h1, e1, p1⟩ := destroy_perm k h _ hp
    obtain ⟨h2, e2, p2⟩ := destroyL_perm ks h1 l p1
    exact ⟨h2, by rw [destroyL, e1]; exact e2, p2⟩
end

theorem allocAtH_owned {ok : Bool} {s s' : State} {h h' : Heap} {p : Ptr} {i : Int} {r : Option Ptr} (hI : Owned s h) (e : allocAtH ok s h p i = .ok (s', h', r)) :
    Owned s' h' ∧ ∀ o, r = some o → ∃ nm v, deref s'.root o = .ok (.leaf nm (some p) v) := by
  rw [allocAtH] at e
  cases hd : deref s.root p with
  | error f => rw [allocAt, hd] at e; cases e
  | ok m =>
    obtain ⟨P, hm, hp⟩ := path_of_deref hd
    rw [hd] at e
    cases m with
    | leaf nm pp v =>
      rw [allocAt, hd] at e
      simp only [except_ok_bind] at e
      injection e with e; injection e with e1 e; injection e with e2 e3
      subst e1 e2 e3
      exact ⟨hI, fun o ho => by cases ho⟩
    | branch nm pp a b c ks =>
      by_cases hi : i < 0 ∨ i > ks.length
      · rw [allocAt, hd] at e
        simp only [except_ok_bind, if_pos hi] at e
        rw [if_neg (by simp)] at e
        injection e with e; injection e with e1 e; injection e with e2 e3
        subst e1 e2 e3
        exact ⟨hI, fun o ho => by cases ho⟩
      · by_cases hr : ks.length < c ∨ ok = true
        · obtain ⟨j, rfl⟩ : ∃ j : Nat, i = j := ⟨i.toNat, by omega⟩
          have hj : j ≤ ks.length := by omega
          obtain ⟨b', c', ea, eb⟩ := allocAt_ok hI.wf hp hm hj hr
          have hw := wf_alloc hI.wf hm hj (.leaf none (some p) .none) rfl eb nm pp a
          rw [ea] at e
          simp only [except_ok_bind] at e
          obtain ⟨l, t, es, em⟩ := blocks_split hm
          have hk : (ks.insertIdx j (.leaf none (some p) .none))[j]? = some (Node.leaf none (some p) .none) := by
            rw [getElem?_insertIdx' _ _ _ hj]; simp
          have hat : at? (s.root.modify P (fun _ => .branch nm pp a b' c' (ks.insertIdx j (.leaf none (some p) .none)))) P = some (.branch nm pp a b' c' (ks.insertIdx j (.leaf none (some p) .none))) :=
            at_modify hm _
          have hdo : ∀ nx, State.Wf ⟨s.root.modify P (fun _ => .branch nm pp a b' c' (ks.insertIdx j (.leaf none (some p) .none))), nx⟩ →
              deref (s.root.modify P (fun _ => .branch nm pp a b' c' (ks.insertIdx j (.leaf none (some p) .none)))) ⟨b', j⟩ = .ok (.leaf none (some p) .none) := by
            intro nx hw
            refine deref_ok hw (path := P ++ [j]) ?_ (by rw [at_below hat, at?, Node.kids, hk]; rfl)
            exact addr_snoc _ hat j (List.getElem?_eq_some_iff.1 hk).1
          by_cases hc : ks.length < c
          · rw [if_neg (by simp; omega)] at e
            rw [if_pos hc] at eb hw e
            injection eb with eb1 eb2
            injection e with e; injection e with e1 e; injection e with e2 e3
            subst e1 e2 e3
            refine ⟨⟨hw, hI.pos, ?_⟩, ?_⟩
            · dsimp only
              rw [em, blocks, blocksL_insert _ _ _ rfl hj, eb1, ← blocks.eq_2 nm pp a b c ks, ← es]
              exact hI.perm
            · intro o ho
              injection ho with ho
              subst ho
              exact ⟨_, _, hdo _ hw⟩
          · rw [if_pos (by simp; omega)] at e
            rw [if_neg hc] at eb hw e
            injection eb with eb1 eb2
            have hpm : (s.next :: h).Perm (b :: (l ++ (s.next :: blocksL ks) ++ t)) := by
              have := hI.perm
              rw [es, blocks] at this
              rw [List.perm_iff_count] at this ⊢
              intro x
              have := this x
              simp only [List.count_append, List.count_cons] at this ⊢
              omega
            obtain ⟨h2, er, hp2⟩ := release_perm hpm
            rw [er] at e
            simp only [except_ok_bind] at e
            injection e with e; injection e with e1 e; injection e with e2 e3
            subst e1 e2 e3
            refine ⟨⟨hw, Nat.succ_pos _, ?_⟩, ?_⟩
            · dsimp only
              rw [em, blocks, blocksL_insert _ _ _ rfl hj, eb1]
              exact hp2
            · intro o ho
              injection ho with ho
              subst ho
              exact ⟨_, _, hdo _ hw⟩
        · rw [allocAt, hd] at e
          simp only [except_ok_bind, if_neg hi] at e
          rw [if_neg (fun hh => hr (.inl hh)), if_neg (fun hh => hr (.inr hh))] at e
          simp only [except_ok_bind] at e
          rw [if_neg (by simp)] at e
          injection e with e; injection e with e1 e; injection e with e2 e3
          subst e1 e2 e3
          exact ⟨hI, fun o ho => by cases ho⟩

theorem allocH_owned {ok : Bool} {s s' : State} {h h' : Heap} {p : Ptr} {r : Option Ptr} (hI : Owned s h) (e : allocH ok s h p = .ok (s', h', r)) :
    Owned s' h' ∧ ∀ o, r = some o → ∃ nm v, deref s'.root o = .ok (.leaf nm (some p) v) := by
  rw [allocH] at e
  cases hd : deref s.root p with
  | error f => rw [hd] at e; cases e
  | ok m =>
    rw [hd] at e
    cases m with
    | leaf nm pp v =>
      simp only [except_ok_bind] at e
      injection e with e; injection e with e1 e; injection e with e2 e3
      subst e1 e2 e3
      exact ⟨hI, fun o ho => by cases ho⟩
    | branch nm pp a b c ks => exact allocAtH_owned hI e

/-- Storing a node in the place of another. -/
theorem store_perm {s : State} (hw : s.Wf) {p : Ptr} {n : Node} (hd : deref s.root p = .ok n) (x : Node) :
    (blocks s.root ++ blocks x).Perm (blocks n ++ blocks (store s.root p x)) := by
  obtain ⟨P, hm, hp⟩ := path_of_deref hd
  obtain ⟨l, t, es, em⟩ := blocks_split hm
  rw [store_ok hw hp hm, em, es, List.perm_iff_count]
  intro y
  simp only [List.count_append]
  omega

theorem setLeaf_perm {s s' : State} (hw : s.Wf) {p : Ptr} {n : Node} (hd : deref s.root p = .ok n) {name v} (e : setLeaf s p name v = .ok s') :
    s'.Wf ∧ s'.next = s.next ∧ (blocks s.root).Perm (blocks n ++ blocks s'.root) := by
  obtain ⟨P, hm, hp⟩ := path_of_deref hd
  obtain ⟨s2, e2, hw2, -⟩ := C62_set_leaf hw hp name v
  rw [e] at e2
  injection e2 with e2
  subst e2
  rw [setLeaf, hd, except_ok_bind] at e
  injection e with e
  subst e
  refine ⟨hw2, rfl, ?_⟩
  have := store_perm hw hd (.leaf name n.parent v)
  simpa [blocks] using this

theorem setBranch_perm {s s' : State} (hw : s.Wf) (hpos : 0 < s.next) {p : Ptr} {n : Node} (hd : deref s.root p = .ok n) {ok r : Bool} {name isArr}
    (e : setBranch ok s p name isArr = .ok (s', r)) :
    s'.Wf ∧ 0 < s'.next ∧ r = ok ∧ ((if r then [s.next] else []) ++ blocks s.root).Perm (blocks n ++ blocks s'.root) := by
  obtain ⟨P, hm, hp⟩ := path_of_deref hd
  cases ok with
  | true =>
    obtain ⟨s2, e2, hw2, -⟩ := C62_set_branch hw hp hpos name isArr
    rw [e] at e2
    injection e2 with e2; injection e2 with e2 e3
    subst e2 e3
    rw [setBranch, hd, except_ok_bind, if_pos rfl] at e
    injection e with e; injection e with e
    subst e
    refine ⟨hw2, Nat.succ_pos _, rfl, ?_⟩
    have := store_perm hw hd (.branch name n.parent isArr s.next (grow 0) [])
    simp only [blocks, blocksL] at this
    exact List.perm_append_comm.trans this
  | false =>
    rw [setBranch, hd, except_ok_bind, if_neg (by simp)] at e
    injection e with e; injection e with e e3
    subst e e3
    obtain ⟨s2, e2, hw2, -⟩ := C62_set_leaf hw hp name .none
    rw [setLeaf, hd, except_ok_bind] at e2
    injection e2 with e2
    rw [← e2] at hw2
    refine ⟨hw2, hpos, rfl, ?_⟩
    have := store_perm hw hd (.leaf name n.parent .none)
    simpa [blocks] using this

theorem removeNode_perm {s s' : State} (hw : s.Wf) {p : Ptr} {n : Node} (hd : deref s.root p = .ok n) (e : removeNode s p = .ok s') :
    s'.Wf ∧ s'.next = s.next ∧ (blocks s.root).Perm (blocks n ++ blocks s'.root) := by
  obtain ⟨P, hm, hp⟩ := path_of_deref hd
  rw [removeNode, hd, except_ok_bind] at e
  cases hpar : n.parent with
  | none => rw [hpar] at e; cases e
  | some q =>
    rw [hpar] at e
    dsimp only at e
    cases hdq : deref s.root q with
    | error f => rw [hdq] at e; cases e
    | ok m =>
      rw [hdq, except_ok_bind] at e
      cases m with
      | leaf _ _ _ => cases e
      | branch nm pp a b c ks =>
        dsimp only at e
        obtain ⟨Q, hmq, hpq⟩ := path_of_deref hdq
        by_cases hb : p.blk ≠ b
        · rw [if_pos hb] at e; cases e
        rw [if_neg hb] at e
        have hb : p.blk = b := by simpa using hb
        by_cases hk : ks.length ≤ p.idx
        · rw [if_pos hk] at e; cases e
        rw [if_neg hk, onOwner_at hw.nodup hmq] at e
        injection e with e
        subst e
        -- the node lies in the array of the branch
        have hb0 := hw.bound b (mem_of_at hmq)
        have hat : at? s.root (Q ++ [p.idx]) = some n := by
          have hd' := hd
          rw [deref, if_neg (by omega), hb, owner_at hw.nodup hmq] at hd'
          dsimp only [Node.kids] at hd'
          rw [at_below hmq, at?, Node.kids]
          cases hx : ks[p.idx]? with
          | none => rw [hx] at hd'; cases hd'
          | some x =>
            rw [hx] at hd'
            injection hd' with hd'
            subst hd'
            rfl
        have hpq' : s.PointsTo p (Q ++ [p.idx]) := by
          rw [State.PointsTo, addr_snoc _ hmq _ (by omega), ← hb]
        obtain ⟨s2, e2, hw2, -⟩ := C62_remove_partial hw hpq' ⟨n, q, hat, hpar, hpq⟩
        rw [removeNode_ok hw hpq' ⟨n, q, hat, hpar, hpq⟩] at e2
        injection e2 with e2
        rw [← e2] at hw2
        exact ⟨hw2, rfl, blocks_erase_perm hat⟩

theorem leaf_blocks {n : Node} (h : ∃ nm pp v, n = .leaf nm pp v) : blocks n = [] := by
  obtain ⟨nm, pp, v, rfl⟩ := h
  rw [blocks]

theorem allocAtH_state {ok : Bool} {s s1 s' : State} {h h' : Heap} {p : Ptr} {i : Int} {r r' : Option Ptr} (e : allocAtH ok s h p i = .ok (s', h', r)) (e1 : allocAt ok s p i = .ok (s1, r')) : s' = s1 := by
  rw [allocAtH, e1, except_ok_bind] at e
  dsimp only at e
  cases hd : deref s.root p with
  | error f => rw [hd] at e; cases e
  | ok m =>
    rw [hd, except_ok_bind] at e
    cases m with
    | leaf => exact (Prod.mk.inj (Except.ok.inj e)).1.symm
    | branch nm pp a b c ks =>
      dsimp only at e
      split at e
      · cases hr : release (s.next :: h) b with
        | error f => rw [hr] at e; cases e
        | ok x => rw [hr] at e; exact (Prod.mk.inj (Except.ok.inj e)).1.symm
      · exact (Prod.mk.inj (Except.ok.inj e)).1.symm

theorem step_owned {s s' : State} {h h' : Heap} {c : Call} (hI : Owned s h) (hc : Careful s c) (e : step s h c = .ok (s', h')) : Owned s' h' := by
  cases c with
  | allocAt ok p i =>
    rw [step] at e
    cases ha : allocAtH ok s h p i with
    | error f => rw [ha] at e; cases e
    | ok r =>
      obtain ⟨s1, h1, r⟩ := r
      rw [ha] at e
      injection e with e; injection e with e1 e2
      subst e1 e2
      exact (allocAtH_owned hI ha).1
  | setLeaf p name v =>
    rw [step] at e
    cases ha : setLeaf s p name v with
    | error f => rw [ha] at e; cases e
    | ok s1 =>
      rw [ha] at e
      injection e with e; injection e with e1 e2
      subst e1 e2
      cases hd : deref s.root p with
      | error f => rw [setLeaf, hd] at ha; cases ha
      | ok n =>
        obtain ⟨w1, w2, w3⟩ := setLeaf_perm hI.wf hd ha
        rw [leaf_blocks (hc n hd)] at w3
        exact ⟨w1, w2 ▸ hI.pos, hI.perm.trans w3⟩
  | setBranch ok p name isArr =>
    rw [step, setBranchH] at e
    cases ha : setBranch ok s p name isArr with
    | error f => rw [ha] at e; cases e
    | ok r =>
      obtain ⟨s1, r⟩ := r
      rw [ha] at e
      injection e with e; injection e with e1 e2
      subst e1 e2
      cases hd : deref s.root p with
      | error f => rw [setBranch, hd] at ha; cases ha
      | ok n =>
        obtain ⟨w1, w2, w3, w4⟩ := setBranch_perm hI.wf hI.pos hd ha
        rw [leaf_blocks (hc n hd)] at w4
        refine ⟨w1, w2, ?_⟩
        cases r with
        | true => exact (hI.perm.cons _).trans w4
        | false => exact hI.perm.trans w4
  | appendLeaf ok p name v =>
    rw [step] at e
    cases ha : allocH ok s h p with
    | error f => rw [ha] at e; cases e
    | ok r =>
      obtain ⟨s1, h1, r⟩ := r
      rw [ha] at e
      obtain ⟨i1, i2⟩ := allocH_owned hI ha
      cases r with
      | none =>
        injection e with e; injection e with e1 e2
        subst e1 e2
        exact i1
      | some o =>
        simp only [except_ok_bind] at e
        cases hs : setLeaf s1 o name v with
        | error f => rw [hs] at e; cases e
        | ok s2 =>
          rw [hs] at e
          injection e with e; injection e with e1 e2
          subst e1 e2
          obtain ⟨nm, v', hd⟩ := i2 o rfl
          obtain ⟨w1, w2, w3⟩ := setLeaf_perm i1.wf hd hs
          rw [leaf_blocks ⟨_, _, _, rfl⟩] at w3
          exact ⟨w1, w2 ▸ i1.pos, i1.perm.trans w3⟩
  | appendBranch ok ok2 p name isArr =>
    rw [step] at e
    cases ha : allocH ok s h p with
    | error f => rw [ha] at e; cases e
    | ok r =>
      obtain ⟨s1, h1, r⟩ := r
      rw [ha] at e
      obtain ⟨i1, i2⟩ := allocH_owned hI ha
      cases r with
      | none =>
        injection e with e; injection e with e1 e2
        subst e1 e2
        exact i1
      | some o =>
        simp only [except_ok_bind, setBranchH] at e
        cases hs : setBranch ok2 s1 o name isArr with
        | error f => rw [hs] at e; cases e
        | ok r =>
          obtain ⟨s2, r⟩ := r
          rw [hs] at e
          simp only [except_ok_bind] at e
          obtain ⟨nm, v', hd⟩ := i2 o rfl
          obtain ⟨w1, w2, w3, w4⟩ := setBranch_perm i1.wf i1.pos hd hs
          rw [leaf_blocks ⟨_, _, _, rfl⟩] at w4
          cases r with
          | true =>
            injection e with e; injection e with e1 e2
            subst e1 e2
            exact ⟨w1, w2, (i1.perm.cons _).trans w4⟩
          | false =>
            simp only [Bool.false_eq_true, if_false] at e w4
            cases hr : removeNode s2 o with
            | error f => rw [hr] at e; cases e
            | ok s3 =>
              rw [hr] at e
              injection e with e; injection e with e1 e2
              subst e1 e2
              have hd2 : ∃ nm pp v, deref s2.root o = .ok (.leaf nm pp v) := by
                subst w3
                rw [setBranch, hd, except_ok_bind, if_neg (by simp)] at hs
                injection hs with hs; injection hs with hs
                obtain ⟨P, hm, hp⟩ := path_of_deref hd
                rw [← hs] at w1 ⊢
                dsimp only
                have e5 := store_ok i1.wf hp hm (.leaf name (Node.leaf nm (some p) v').parent .none)
                rw [e5] at w1 ⊢
                exact ⟨_, _, _, deref_ok w1 ((addr_modify hm _ _).trans hp) (at_modify hm _)⟩
              obtain ⟨nm2, pp2, v2, hd2⟩ := hd2
              obtain ⟨x1, x2, x3⟩ := removeNode_perm w1 hd2 hr
              rw [leaf_blocks ⟨_, _, _, rfl⟩] at x3
              exact ⟨x1, x2 ▸ w2, (i1.perm.trans w4).trans x3⟩
  | remove p =>
    rw [step] at e
    cases ha : removeNode s p with
    | error f => rw [ha] at e; cases e
    | ok s1 =>
      rw [ha] at e
      injection e with e; injection e with e1 e2
      subst e1 e2
      cases hd : deref s.root p with
      | error f => rw [removeNode, hd] at ha; cases ha
      | ok n =>
        obtain ⟨w1, w2, w3⟩ := removeNode_perm hI.wf hd ha
        rw [leaf_blocks (hc n hd)] at w3
        exact ⟨w1, w2 ▸ hI.pos, hI.perm.trans w3⟩
  | swap p q =>
    rw [step] at e
    cases ha : swapNodes s p q with
    | error f => rw [ha] at e; cases e
    | ok s1 =>
      rw [ha] at e
      injection e with e; injection e with e1 e2
      subst e1 e2
      obtain ⟨w1, w2⟩ := swapNodes_perm hI.wf hc.1 hc.2 ha
      exact ⟨⟨w1.nodup_iff.2 hI.wf.nodup, fun b hb => w2 ▸ hI.wf.bound b (w1.subset hb)⟩, w2 ▸ hI.pos, hI.perm.trans w1.symm⟩
  | moveAt ok p q i =>
    rw [step, moveNodeAtH] at e
    cases hm : moveNodeAt ok s p q i with
    | error f => rw [hm] at e; cases e
    | ok r =>
      obtain ⟨s2, o⟩ := r
      rw [hm, except_ok_bind] at e
      dsimp only at e
      cases ha : allocAtH ok s h q i with
      | error f => rw [ha] at e; cases e
      | ok r =>
        obtain ⟨s1, h1, r⟩ := r
        rw [ha] at e
        injection e with e; injection e with e1 e2
        subst e1 e2
        obtain ⟨s9, w0, w1, w2⟩ := moveNodeAt_perm hI.wf hc.1 hc.2 hm
        have := allocAtH_state ha w0
        subst this
        have i1 := (allocAtH_owned hI ha).1
        exact ⟨⟨w1.nodup_iff.2 i1.wf.nodup, fun b hb => w2 ▸ i1.wf.bound b (w1.subset hb)⟩, w2 ▸ i1.pos, i1.perm.trans w1.symm⟩

theorem Reach.owned {s : State} {h : Heap} (hr : Reach s h) : Owned s h := by
  induction hr with
  | fresh name isArr => exact ⟨⟨by simp [Adt.fresh, blocks, blocksL], by simp [Adt.fresh, blocks, blocksL]⟩, Nat.succ_pos _, by simp [Adt.fresh, blocks, blocksL]⟩
  | call _ hc e ih => exact step_owned ih hc e

/-! ## Properties -/

/-- **C141 (partial).**  After any history of calls that add nodes, fill in nodes, move and swap nodes and remove nodes without children arrays - with an allocator that may refuse at any
time - destroying the tree frees every array that was allocated, each of them once, and touches none that is not allocated.

`_partial`: removing or overwriting a node that has children loses their arrays (`C141_removed_lost`, `C141_overwritten_lost`); moving a node into itself or swapping it with a node inside it
makes a cycle of pointers. -/
theorem C141_all_freed_partial {s : State} {h : Heap} (hr : Reach s h) : destroy s.root h = .ok [] := by
  obtain ⟨h', e, hp⟩ := destroy_perm s.root h [] (by simpa using hr.owned.perm)
  rw [e, hp.eq_nil]

/-- **C141, false as stated.**  Removing a node leaves its array of children, and those below it, allocated: after the tree is destroyed they are still there. -/
theorem C141_removed_lost {s s' : State} {h : Heap} (hr : Reach s h) {p : Ptr} {nm pp a b c ks} (hd : deref s.root p = .ok (.branch nm pp a b c ks))
    (e : step s h (.remove p) = .ok (s', h)) : ∃ left, destroy s'.root h = .ok left ∧ left.Perm (blocks (.branch nm pp a b c ks)) ∧ b ∈ left := by
  rw [step] at e
  cases ha : removeNode s p with
  | error f => rw [ha] at e; cases e
  | ok s1 =>
    rw [ha] at e
    injection e with e; injection e with e1 _
    subst e1
    obtain ⟨w1, w2, w3⟩ := removeNode_perm hr.owned.wf hd ha
    obtain ⟨h', e, hp⟩ := destroy_perm s1.root h _ ((hr.owned.perm.trans w3).trans List.perm_append_comm)
    exact ⟨h', e, hp, hp.symm.subset (by simp [blocks])⟩

/-- **C141, false as stated.**  So does giving a node that has children another value. -/
theorem C141_overwritten_lost {s s' : State} {h : Heap} (hr : Reach s h) {p : Ptr} {nm pp a b c ks} (hd : deref s.root p = .ok (.branch nm pp a b c ks)) {name v}
    (e : step s h (.setLeaf p name v) = .ok (s', h)) : ∃ left, destroy s'.root h = .ok left ∧ left.Perm (blocks (.branch nm pp a b c ks)) ∧ b ∈ left := by
  rw [step] at e
  cases ha : setLeaf s p name v with
  | error f => rw [ha] at e; cases e
  | ok s1 =>
    rw [ha] at e
    injection e with e; injection e with e1 _
    subst e1
    obtain ⟨w1, w2, w3⟩ := setLeaf_perm hr.owned.wf hd ha
    obtain ⟨h', e, hp⟩ := destroy_perm s1.root h _ ((hr.owned.perm.trans w3).trans List.perm_append_comm)
    exact ⟨h', e, hp, hp.symm.subset (by simp [blocks])⟩

/-- **C141.**  A tree can be destroyed once only: the root keeps its pointer to the freed array. -/
theorem C141_once {s : State} {h : Heap} (hr : Reach s h) {nm pp a b c ks} (hroot : s.root = .branch nm pp a b c ks) :
    ∃ h', destroy s.root h = .ok h' ∧ destroy s.root h' = .error .ub := by
  refine ⟨[], C141_all_freed_partial hr, ?_⟩
  rw [hroot, destroy, if_neg (by simp)]

/-! ## Non-vacuity -/

/-- Nine members, so that the root's array is moved once, one of them an array with a member, one refused by the allocator. -/
def busy : List Call :=
  [.appendBranch true true ⟨0, 0⟩ (some [0x61#8]) true, .appendLeaf true ⟨1, 0⟩ none (.int 7), .appendBranch true false ⟨0, 0⟩ none false,
   .appendLeaf true ⟨0, 0⟩ none (.int 1), .appendLeaf true ⟨0, 0⟩ none (.int 2), .appendLeaf true ⟨0, 0⟩ none (.int 3), .appendLeaf true ⟨0, 0⟩ none (.int 4),
   .appendLeaf true ⟨0, 0⟩ none (.int 5), .appendLeaf true ⟨0, 0⟩ none (.int 6), .appendLeaf true ⟨0, 0⟩ none (.int 7), .appendLeaf false ⟨0, 0⟩ none (.int 8),
   .appendBranch true true ⟨0, 0⟩ none false]

/-- A history. -/
def runs (s : State) (h : Heap) : List Call → Except Fault (State × Heap)
  | [] => .ok (s, h)
  | c :: cs => do
    let (s, h) ← step s h c
    runs s h cs

theorem reach_runs : ∀ {cs : List Call} {s s' : State} {h h' : Heap}, Reach s h → (∀ c ∈ cs, ∀ t, Careful t c) → runs s h cs = .ok (s', h') → Reach s' h'
  | [], s, s', h, h', hr, _, e => by
    rw [runs] at e
    injection e with e; injection e with e1 e2
    subst e1 e2
    exact hr
  | c :: cs, s, s', h, h', hr, hc, e => by
    rw [runs] at e
    cases hs : step s h c with
    | error f => rw [hs] at e; cases e
    | ok r =>
      obtain ⟨s1, h1⟩ := r
      rw [hs] at e
      exact reach_runs (.call hr (hc c (by simp) s) hs) (fun d hd => hc d (by simp [hd])) e

/-- What is left allocated after the calls and a further one, and after then destroying the tree. -/
def leftover (more : List Call) : Except Fault (Heap × Heap) := do
  let (s, h) ← runs (fresh none false).1 (fresh none false).2 (busy ++ more)
  .ok (h, ← destroy s.root h)

/-- The calls leave three arrays: the root's second one, that of the first member and that of the last.  Destroying the tree frees them; if the last member is removed before,
its array is lost, and if the first is overwritten, its. -/
example : leftover [] = .ok ([4, 3, 2], []) ∧ leftover [.remove ⟨3, 8⟩] = .ok ([4, 3, 2], [4]) ∧ leftover [.setLeaf ⟨3, 0⟩ none (.int 0)] = .ok ([4, 3, 2], [2]) := by decide +kernel

/-- Moves and swaps: the first member (the array) is swapped with the last (the object); two members are moved into the object. -/
example : leftover [.swap ⟨3, 0⟩ ⟨3, 8⟩] = .ok ([4, 3, 2], []) ∧ leftover [.moveAt true ⟨3, 3⟩ ⟨3, 8⟩ 0, .moveAt true ⟨3, 4⟩ ⟨3, 7⟩ 1] = .ok ([4, 3, 2], []) := by decide +kernel

/-- These calls are careful, so that the state they lead to is one of those the theorems speak of. -/
example (s : State) (h : Heap) (e : runs (fresh none false).1 (fresh none false).2 busy = .ok (s, h)) : Reach s h :=
  reach_runs (.fresh none false) (by intro c hc t; simp [busy] at hc; rcases hc with h | h | h | h | h | h | h | h | h | h | h | h <;> subst h <;> trivial) e

end Zpl.Adt
