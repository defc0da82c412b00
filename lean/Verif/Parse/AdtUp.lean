import Verif.Parse.AdtMove

/-!
# Moving a node up the tree, and the memory of moved and swapped nodes (code/source/adt.c:272-304)  -  C78, C141

`Parse/AdtMove` treats moves to a parent with which the node has nothing to do and moves within one parent.  What is left is a new parent further up: one of the nodes the moved node lies
in.  A move of a node into itself, or to a place below it, makes a cycle of pointers in C; the model has no such states. -/

namespace Zpl.Adt

open Zpl Zpl.Str

/-! ## Lemmas -/

theorem mem_blocks_of_at {k n : Node} {R : List Nat} (h : at? k R = some n) {b : Nat} (hb : b ∈ blocks n) : b ∈ blocks k := by
  obtain ⟨l, r, e, -⟩ := blocks_split h
  rw [e]; simp [hb]

/-- The place of a child after another one has been put in at `j`. -/
def shifted (j k : Nat) : Nat := if k < j then k else k + 1

theorem getElem?_shifted (ks : List Node) (j k : Nat) (x : Node) (hj : j ≤ ks.length) : (ks.insertIdx j x)[shifted j k]? = ks[k]? := by
  rw [getElem?_insertIdx' _ _ _ hj, shifted]
  split <;> rename_i h
  · rfl
  · rw [if_neg (by omega), if_neg (by omega)]; rfl

/-- What a move up does: the node is copied into the new parent, and then the child at the node's old place is taken out - provided the parent recorded in the node is, after the
insertion, still where the record says. -/
theorem move_up {s : State} (hw : s.Wf) {p q pp : Ptr} {Q R : List Nat} {k i j : Nat} (hp : s.PointsTo p ((Q ++ k :: R) ++ [i])) (hq : s.PointsTo q Q) {n : Node}
    (hn : at? s.root ((Q ++ k :: R) ++ [i]) = some n) (hnp : n.parent = some pp) {nm q0 a bq cq ksq} (hmq : at? s.root Q = some (.branch nm q0 a bq cq ksq)) (hj : j ≤ ksq.length)
    {b' c' : Nat} (hb : (b', c') = (if ksq.length < cq then (bq, cq) else (s.next, grow cq)))
    (hpar : (R ≠ [] ∧ s.PointsTo pp (Q ++ k :: R)) ∨ (R = [] ∧ pp = ⟨b', shifted j k⟩)) :
    moveNodeAt true s p q j = .ok (⟨(s.root.modify Q (fun _ => .branch nm q0 a b' c' (ksq.insertIdx j (n.withParent q)))).modify (Q ++ shifted j k :: R) (Node.onKids (·.eraseIdx i)),
      if ksq.length < cq then s.next else s.next + 1⟩, ⟨b', j⟩) ∧
    at? (s.root.modify Q (fun _ => .branch nm q0 a b' c' (ksq.insertIdx j (n.withParent q)))) ((Q ++ shifted j k :: R) ++ [i]) = some n ∧
    (blocks ((s.root.modify Q (fun _ => .branch nm q0 a b' c' (ksq.insertIdx j (n.withParent q)))).modify (Q ++ shifted j k :: R) (Node.onKids (·.eraseIdx i)))).Perm
      (blocks (s.root.modify Q (fun _ => .branch nm q0 a b' c' (ksq.insertIdx j (.leaf none (some q) .none))))) := by
  obtain ⟨b'', c'', e1, hb2⟩ := allocAt_ok (ok := true) hw hq hmq hj (Or.inr rfl)
  rw [← hb] at hb2
  injection hb2 with h1 h2
  subst h1 h2
  have hw1 := wf_alloc hw hmq hj (Node.leaf none (some q) .none) (by rw [blocks]) hb nm q0 a
  generalize hnext : (if ksq.length < cq then s.next else s.next + 1) = next1 at *
  -- the child of the new parent below which the node lies
  obtain ⟨kk, hkk, hkn⟩ : ∃ kk, ksq[k]? = some kk ∧ at? kk (R ++ [i]) = some n := by
    rw [List.append_assoc, at_below hmq, List.cons_append, at?, Node.kids] at hn
    cases h : ksq[k]? with
    | none => rw [h] at hn; cases hn
    | some kk => rw [h] at hn; exact ⟨kk, rfl, hn⟩
  obtain ⟨nm1, p1, a1, b1, c1, ks1, ho1, hk1⟩ := at_snoc hkn
  have hi : i < ks1.length := (List.getElem?_eq_some_iff.1 hk1).1
  have below : ∀ (x : Node) (T : List Nat), at? (s.root.modify Q (fun _ => Node.branch nm q0 a b'' c'' (ksq.insertIdx j x))) (Q ++ shifted j k :: T) = at? kk T := by
    intro x T
    rw [at_below (at_modify hmq _), at?, Node.kids, getElem?_shifted _ _ _ _ hj, hkk]
  have below0 : ∀ T : List Nat, at? s.root (Q ++ k :: T) = at? kk T := by
    intro T
    rw [at_below hmq, at?, Node.kids, hkk]
  have hp' : p = ⟨b1, i⟩ := by
    have := hp
    rw [State.PointsTo, addr_snoc _ ((below0 R).trans ho1) i hi] at this
    injection this with this
    exact this.symm
  have hb1 := hw.bound b1 (mem_of_at ((below0 R).trans ho1))
  have hb1n : b1 ∉ blocks n := child_blocks hw ((below0 R).trans ho1) hk1
  have hb'n : b'' ∉ blocks n := by
    have := child_blocks hw1 (at_modify hmq _) ((getElem?_shifted ksq j k (Node.leaf none (some q) .none) hj).trans hkk)
    exact fun h => this (mem_blocks_of_at hkn h)
  have hb' := hw1.bound b'' (mem_of_at (at_modify hmq _))
  -- the copy
  have hnew := at_modify hmq (fun _ => Node.branch nm q0 a b'' c'' (ksq.insertIdx j (.leaf none (some q) .none)))
  have e2 := store_once (by omega) (count_le_one hw1.nodup b'') hnew j (n.withParent q)
  rw [modify_append, modify_modify] at e2
  simp only [Node.modify] at e2
  rw [← set_eq_modify, insert_set _ _ _ _ hj] at e2
  have ho2 := at_modify hmq (fun _ => Node.branch nm q0 a b'' c'' (ksq.insertIdx j (n.withParent q)))
  obtain ⟨l, r, eb, eb2⟩ := blocks_split hmq
  have hcnt : ∀ x, (blocks (s.root.modify Q (fun _ => Node.branch nm q0 a b'' c'' (ksq.insertIdx j (n.withParent q))))).count x =
      (blocks (s.root.modify Q (fun _ => Node.branch nm q0 a b'' c'' (ksq.insertIdx j (.leaf none (some q) .none))))).count x + (blocks n).count x := by
    intro x
    rw [eb2, eb2]
    simp only [List.count_append, blocks, List.count_cons, blocksL_insert_count _ _ _ hj, withParent_blocks, List.count_nil]
    omega
  have hcount : ∀ x, x ∉ blocks n → (blocks (s.root.modify Q (fun _ => Node.branch nm q0 a b'' c'' (ksq.insertIdx j (n.withParent q))))).count x ≤ 1 := by
    intro x hx
    rw [hcnt, List.count_eq_zero.2 hx]
    exact count_le_one hw1.nodup x
  have hv1 : deref (s.root.modify Q (fun _ => Node.branch nm q0 a b'' c'' (ksq.insertIdx j (.leaf none (some q) .none)))) p = .ok n := by
    rw [hp']
    exact deref_once (by omega) (count_le_one hw1.nodup b1) ((below _ R).trans ho1) hk1
  have e3 : deref (s.root.modify Q (fun _ => Node.branch nm q0 a b'' c'' (ksq.insertIdx j (n.withParent q)))) p = .ok n := by
    rw [hp']
    exact deref_once (by omega) (hcount b1 hb1n) ((below _ R).trans ho1) hk1
  have e4 : deref (s.root.modify Q (fun _ => Node.branch nm q0 a b'' c'' (ksq.insertIdx j (n.withParent q)))) pp = .ok (.branch nm1 p1 a1 b1 c1 ks1) := by
    rcases hpar with ⟨hR, hpp⟩ | ⟨hR, hpp⟩
    · rcases exists_snoc R with rfl | ⟨R', t, rfl⟩
      · exact absurd rfl hR
      obtain ⟨nm3, p3, a3, b3, c3, ks3, ho3, hk3⟩ := at_snoc ho1
      have ht : t < ks3.length := (List.getElem?_eq_some_iff.1 hk3).1
      have h3 := (below0 R').trans ho3
      have hpp' : pp = ⟨b3, t⟩ := by
        have := hpp
        rw [← List.cons_append, ← List.append_assoc, State.PointsTo, addr_snoc _ h3 t ht] at this
        injection this with this
        exact this.symm
      have hb3 := hw.bound b3 (mem_of_at h3)
      have hb3n : b3 ∉ blocks n := by
        have := child_blocks hw h3 hk3
        intro h
        refine this (mem_blocks_of_at (R := [i]) ?_ h)
        rw [at?, Node.kids, hk1]
        rfl
      rw [hpp']
      exact deref_once (by omega) (hcount b3 hb3n) ((below _ R').trans ho3) hk3
    · subst hR
      rw [hpp]
      simp only [at?, Option.some.injEq] at ho1
      subst ho1
      exact deref_once (by omega) (hcount b'' hb'n) ho2 ((getElem?_shifted _ _ _ _ hj).trans hkk)
  have hat : at? (s.root.modify Q (fun _ => .branch nm q0 a b'' c'' (ksq.insertIdx j (n.withParent q)))) ((Q ++ shifted j k :: R) ++ [i]) = some n := by
    rw [List.append_assoc, List.cons_append]
    exact (below _ _).trans hkn
  refine ⟨?_, hat, ?_⟩
  · rw [moveNodeAt, deref_ok hw hp hn, except_ok_bind, e1, except_ok_bind]
    dsimp only
    rw [hv1, except_ok_bind, e2, hnp]
    dsimp only
    rw [removeNode]
    dsimp only
    rw [e3, except_ok_bind, hnp]
    dsimp only
    rw [e4, except_ok_bind]
    dsimp only
    rw [hp']
    dsimp only
    rw [if_neg (by simp), if_neg (by omega), onOwner_once (hcount b1 hb1n) ((below _ R).trans ho1)]
    rfl
  · have h1 := blocks_erase_perm hat
    rw [List.perm_iff_count] at h1 ⊢
    intro y
    have := h1 y
    rw [hcnt, List.count_append] at this
    omega

/-! ## Moves up -/

/-- **C78, moving up.** Moving a node to a place of one of the nodes it lies in: to any place of a node above its grandparent; or to a place of its grandparent behind its parent, if the
grandparent's array has room.  The node is taken out of its place and put at the requested index of the new parent, the rest of the tree is as before, and the pointer returned points to it. -/
theorem C78_move_up_partial {s : State} (hw : s.Wf) {p q : Ptr} {Q R : List Nat} {k i j : Nat} (hp : s.PointsTo p ((Q ++ k :: R) ++ [i])) (hq : s.PointsTo q Q)
    (hl : s.ParentOk (Q ++ k :: R) i) {x : Tree} (hx : s.root.tree.sub? ((Q ++ k :: R) ++ [i]) = some x) {nm a ts} (ht : s.root.tree.sub? Q = some (.branch nm a ts)) (hj : j ≤ ts.length)
    (hR : R ≠ [] ∨ k < j ∧ ∀ nm' pp' a' b c ks, at? s.root Q = some (.branch nm' pp' a' b c ks) → ks.length < c) :
    ∃ s' o, moveNodeAt true s p q j = .ok (s', o) ∧ s'.Wf ∧ s'.root.tree = (s.root.tree.update (Q ++ k :: R) (.onKids (·.eraseIdx i))).update Q (.onKids (·.insertIdx j x)) ∧
      o ≠ p ∧ ∃ m, deref s.root p = .ok m ∧ m.tree = x ∧ deref s'.root o = .ok (m.withParent q) := by
  obtain ⟨n, pp, hn, hnp, hpp⟩ := hl
  have hxn : n.tree = x := by rw [sub_tree, hn] at hx; simpa using hx
  obtain ⟨q0, bq, cq, ksq, hmq, rfl⟩ := branch_of_tree ht
  rw [List.length_map] at hj
  obtain ⟨kk, hkk, hkn⟩ : ∃ kk, ksq[k]? = some kk ∧ at? kk (R ++ [i]) = some n := by
    rw [List.append_assoc, at_below hmq, List.cons_append, at?, Node.kids] at hn
    cases h : ksq[k]? with
    | none => rw [h] at hn; cases hn
    | some kk => rw [h] at hn; exact ⟨kk, rfl, hn⟩
  have hkl : k < ksq.length := (List.getElem?_eq_some_iff.1 hkk).1
  obtain ⟨b', c', hb⟩ : ∃ b' c', (b', c') = (if ksq.length < cq then (bq, cq) else (s.next, grow cq)) := ⟨_, _, rfl⟩
  have hpar : (R ≠ [] ∧ s.PointsTo pp (Q ++ k :: R)) ∨ (R = [] ∧ pp = ⟨b', shifted j k⟩) := by
    by_cases h : R = []
    · subst h
      rcases hR with h | ⟨h1, h2⟩
      · exact absurd rfl h
      have hroom := h2 _ _ _ _ _ _ hmq
      rw [if_pos hroom] at hb
      injection hb with hb1 hb2
      subst hb1 hb2
      rw [State.PointsTo, addr_snoc _ hmq k hkl] at hpp
      injection hpp with hpp
      exact .inr ⟨rfl, by rw [← hpp, shifted, if_pos h1]⟩
    · exact .inl ⟨h, hpp⟩
  obtain ⟨e, hat, hperm⟩ := move_up hw hp hq hn hnp hmq hj hb hpar
  have hw1 := wf_alloc hw hmq hj (Node.leaf none (some q) .none) (by rw [blocks]) hb nm q0 a
  have hw3 : State.Wf ⟨(s.root.modify Q (fun _ => .branch nm q0 a b' c' (ksq.insertIdx j (n.withParent q)))).modify (Q ++ shifted j k :: R) (Node.onKids (·.eraseIdx i)),
      if ksq.length < cq then s.next else s.next + 1⟩ := ⟨hperm.nodup_iff.2 hw1.nodup, fun b hb => hw1.bound b (hperm.subset hb)⟩
  obtain ⟨nm1, p1, a1, b1, c1, ks1, ho1, hk1⟩ := at_snoc hkn
  obtain ⟨nm1', p1', a1', b1', c1', ks1', ho1', hk1'⟩ := at_snoc hat
  refine ⟨_, _, e, hw3, ?_, ?_⟩
  · dsimp only
    rw [tree_modify ho1' _ (.onKids (·.eraseIdx i)) (by rw [Node.onKids, Node.tree, Node.tree, Tree.onKids, trees_eq, trees_eq, map_eraseIdx']),
      tree_modify hmq _ (.onKids (·.insertIdx j x)) (by rw [Node.tree, Node.tree, Tree.onKids, trees_eq, trees_eq, map_insertIdx', withParent_tree, hxn]),
      Tree.update_append, Tree.update_append, Tree.update_update, Tree.update_update]
    refine Tree.update_congr ht ?_
    simp only [Tree.onKids, Tree.update]
    congr 1
    apply List.ext_getElem?
    intro t
    rw [List.getElem?_modify, List.getElem?_insertIdx, List.getElem?_insertIdx, List.getElem?_modify, List.getElem?_modify, List.length_modify, shifted]
    rw [List.length_map]
    by_cases h1 : k < j
    · rw [if_pos h1]
      by_cases h2 : t < j
      · simp [h2]
      · by_cases h3 : t = j
        · subst h3
          simp [show ¬ k = t by omega, hj]
        · simp [h2, h3, show ¬ k = t by omega, show ¬ k = t - 1 by omega]
    · rw [if_neg h1]
      by_cases h2 : t < j
      · simp [h2, show ¬ k + 1 = t by omega, show ¬ k = t by omega]
      · by_cases h3 : t = j
        · subst h3
          simp [show ¬ k + 1 = t by omega, hj]
        · by_cases h4 : k + 1 = t
          · subst h4
            simp [h2, h3]
          · simp [h2, h3, h4, show ¬ k = t - 1 by omega]
  · have h2 := at_modify_below (at_modify hmq (fun _ => Node.branch nm q0 a b' c' (ksq.insertIdx j (n.withParent q)))) (shifted j k) R (Node.onKids (·.eraseIdx i))
    have hb' := hw3.bound b' (mem_of_at h2)
    refine ⟨?_, n, deref_ok hw hp hn, hxn, deref_once (i := j) (by omega) (count_le_one hw3.nodup _) h2 ?_⟩
    · intro h
      have hat0 : at? s.root (Q ++ k :: R) = some (.branch nm1 p1 a1 b1 c1 ks1) := by
        rw [at_below hmq, at?, Node.kids, hkk]; exact ho1
      have := hp
      rw [State.PointsTo, addr_snoc _ hat0 i (List.getElem?_eq_some_iff.1 hk1).1, ← h] at this
      injection this with this
      injection this with this _
      have hc := child_blocks hw1 (at_modify hmq _) ((getElem?_shifted ksq j k (Node.leaf none (some q) .none) hj).trans hkk)
      exact hc (mem_blocks_of_at ho1 (by rw [blocks, this]; simp))
    · rw [List.getElem?_modify, getElem?_insertIdx' _ _ _ hj, if_neg (by omega), if_pos rfl]
      have : ¬ shifted j k = j := by rw [shifted]; split <;> omega
      simp [this]

/-- **C78 fails: out of the parent, before it.** Moving a node to its grandparent (whose array has room), to a place at or before its parent: the insertion shifts the parent, so that the
parent recorded in the node is another node when it is taken out of its old place, and the node is looked for in an array in which it does not lie. -/
theorem C78_up_before {s : State} (hw : s.Wf) {p q : Ptr} {Q : List Nat} {k i j : Nat} (hp : s.PointsTo p ((Q ++ [k]) ++ [i])) (hq : s.PointsTo q Q) (hl : s.ParentOk (Q ++ [k]) i)
    {nm q0 a bq cq ksq} (hmq : at? s.root Q = some (.branch nm q0 a bq cq ksq)) (hroom : ksq.length < cq) (hjk : j ≤ k) : moveNodeAt true s p q j = .error .ub := by
  obtain ⟨n, pp, hn, hnp, hpp⟩ := hl
  obtain ⟨nm1, p1, a1, b1, c1, ks1, ho1, hk1⟩ := at_snoc hn
  have hi : i < ks1.length := (List.getElem?_eq_some_iff.1 hk1).1
  have hkk : ksq[k]? = some (.branch nm1 p1 a1 b1 c1 ks1) := by
    rw [at_below hmq, at?, Node.kids] at ho1
    cases h : ksq[k]? with
    | none => rw [h] at ho1; cases ho1
    | some kk => rw [h] at ho1; exact ho1
  have hkl : k < ksq.length := (List.getElem?_eq_some_iff.1 hkk).1
  have hj : j ≤ ksq.length := by omega
  have hp' : p = ⟨b1, i⟩ := by
    have := hp
    rw [State.PointsTo, addr_snoc _ ho1 i hi] at this
    injection this with this
    exact this.symm
  have hpp' : pp = ⟨bq, k⟩ := by
    have := hpp
    rw [State.PointsTo, addr_snoc _ hmq k hkl] at this
    injection this with this
    exact this.symm
  obtain ⟨b', c', e1, hb⟩ := allocAt_ok (ok := true) hw hq hmq hj (Or.inr rfl)
  have hw1 := wf_alloc hw hmq hj (Node.leaf none (some q) .none) (by rw [blocks]) hb nm q0 a
  rw [if_pos hroom] at hb e1 hw1
  injection hb with h1 h2
  subst h1 h2
  have below : ∀ (x : Node), at? (s.root.modify Q (fun _ => Node.branch nm q0 a b' c' (ksq.insertIdx j x))) (Q ++ [k + 1]) = some (.branch nm1 p1 a1 b1 c1 ks1) := by
    intro x
    rw [at_below (at_modify hmq _), at?, Node.kids, getElem?_insertIdx' _ _ _ hj, if_neg (by omega), if_neg (by omega), Nat.add_sub_cancel, hkk]
    rfl
  have hb1 := hw.bound b1 (mem_of_at ho1)
  have hbq := hw.bound b' (mem_of_at hmq)
  have hb1n : b1 ∉ blocks n := child_blocks hw ho1 hk1
  have hbqk := child_blocks hw hmq hkk
  have hbqn : b' ∉ blocks n := fun h => hbqk (mem_blocks_of_at (R := [i]) (by rw [at?, Node.kids, hk1]; rfl) h)
  have hnew := at_modify hmq (fun _ => Node.branch nm q0 a b' c' (ksq.insertIdx j (.leaf none (some q) .none)))
  have e2 := store_once (by omega) (count_le_one hw1.nodup b') hnew j (n.withParent q)
  rw [modify_append, modify_modify] at e2
  simp only [Node.modify] at e2
  rw [← set_eq_modify, insert_set _ _ _ _ hj] at e2
  have ho2 := at_modify hmq (fun _ => Node.branch nm q0 a b' c' (ksq.insertIdx j (n.withParent q)))
  obtain ⟨l, r, eb, eb2⟩ := blocks_split hmq
  have hcount : ∀ x, x ∉ blocks n → (blocks (s.root.modify Q (fun _ => Node.branch nm q0 a b' c' (ksq.insertIdx j (n.withParent q))))).count x ≤ 1 := by
    intro x hx
    have h1 := count_le_one hw.nodup x
    rw [eb] at h1
    rw [eb2]
    simp only [List.count_append, blocks, List.count_cons, blocksL_insert_count _ _ _ hj, withParent_blocks, List.count_eq_zero.2 hx] at h1 ⊢
    omega
  have hv1 : deref (s.root.modify Q (fun _ => Node.branch nm q0 a b' c' (ksq.insertIdx j (.leaf none (some q) .none)))) p = .ok n := by
    rw [hp']
    exact deref_once (by omega) (count_le_one hw1.nodup b1) (below _) hk1
  have e3 : deref (s.root.modify Q (fun _ => Node.branch nm q0 a b' c' (ksq.insertIdx j (n.withParent q)))) p = .ok n := by
    rw [hp']
    exact deref_once (by omega) (hcount b1 hb1n) (below _) hk1
  -- what is at the recorded place of the parent now
  obtain ⟨z, hz, hzb⟩ : ∃ z, (ksq.insertIdx j (n.withParent q))[k]? = some z ∧ b1 ∉ blocks z := by
    rw [getElem?_insertIdx' _ _ _ hj]
    by_cases h : k = j
    · rw [if_neg (by omega), if_pos h]
      exact ⟨_, rfl, by rw [withParent_blocks]; exact hb1n⟩
    · rw [if_neg (by omega), if_neg h]
      obtain ⟨z, hz⟩ : ∃ z, ksq[k - 1]? = some z := ⟨_, List.getElem?_eq_getElem (by omega)⟩
      refine ⟨z, hz, fun hb => ?_⟩
      have hnd := hw.nodup
      rw [eb] at hnd
      have := (List.nodup_append.1 (List.nodup_append.1 hnd).1).2.1
      rw [blocks, List.nodup_cons] at this
      exact not_nodup_of_mem (show k - 1 < k by omega) hz hkk hb (by rw [blocks]; simp) this.2
  have e4 : deref (s.root.modify Q (fun _ => Node.branch nm q0 a b' c' (ksq.insertIdx j (n.withParent q)))) pp = .ok z := by
    rw [hpp']
    exact deref_once (by omega) (hcount b' hbqn) ho2 hz
  rw [moveNodeAt, deref_ok hw hp hn, except_ok_bind, e1, except_ok_bind]
  dsimp only
  rw [hv1, except_ok_bind, e2, hnp]
  dsimp only
  rw [removeNode]
  dsimp only
  rw [e3, except_ok_bind, hnp]
  dsimp only
  rw [e4, except_ok_bind]
  cases z with
  | leaf => rfl
  | branch nm9 p9 a9 b9 c9 ks9 =>
    dsimp only
    rw [if_pos]
    · rfl
    · rw [hp']
      intro h
      exact hzb (by rw [blocks]; simp [← h])

/-- **C78 fails: out of the parent, a full array.** If the grandparent's array has no room, it is reallocated, and the parent recorded in the node is in the freed block. -/
theorem C78_up_full {s : State} (hw : s.Wf) {p q : Ptr} {Q : List Nat} {k i j : Nat} (hp : s.PointsTo p ((Q ++ [k]) ++ [i])) (hq : s.PointsTo q Q) (hl : s.ParentOk (Q ++ [k]) i)
    {nm q0 a bq cq ksq} (hmq : at? s.root Q = some (.branch nm q0 a bq cq ksq)) (hroom : ¬ ksq.length < cq) (hj : j ≤ ksq.length) : moveNodeAt true s p q j = .error .ub := by
  obtain ⟨n, pp, hn, hnp, hpp⟩ := hl
  obtain ⟨nm1, p1, a1, b1, c1, ks1, ho1, hk1⟩ := at_snoc hn
  have hi : i < ks1.length := (List.getElem?_eq_some_iff.1 hk1).1
  have hkk : ksq[k]? = some (.branch nm1 p1 a1 b1 c1 ks1) := by
    rw [at_below hmq, at?, Node.kids] at ho1
    cases h : ksq[k]? with
    | none => rw [h] at ho1; cases ho1
    | some kk => rw [h] at ho1; exact ho1
  have hkl : k < ksq.length := (List.getElem?_eq_some_iff.1 hkk).1
  have hp' : p = ⟨b1, i⟩ := by
    have := hp
    rw [State.PointsTo, addr_snoc _ ho1 i hi] at this
    injection this with this
    exact this.symm
  have hpp' : pp = ⟨bq, k⟩ := by
    have := hpp
    rw [State.PointsTo, addr_snoc _ hmq k hkl] at this
    injection this with this
    exact this.symm
  obtain ⟨b', c', e1, hb⟩ := allocAt_ok (ok := true) hw hq hmq hj (Or.inr rfl)
  have hw1 := wf_alloc hw hmq hj (Node.leaf none (some q) .none) (by rw [blocks]) hb nm q0 a
  rw [if_neg hroom] at hb e1 hw1
  injection hb with h1 h2
  subst h1 h2
  have below : ∀ (x : Node), at? (s.root.modify Q (fun _ => Node.branch nm q0 a s.next (grow cq) (ksq.insertIdx j x))) (Q ++ [shifted j k]) = some (.branch nm1 p1 a1 b1 c1 ks1) := by
    intro x
    rw [at_below (at_modify hmq _), at?, Node.kids, getElem?_shifted _ _ _ _ hj, hkk]
    rfl
  have hb1 := hw.bound b1 (mem_of_at ho1)
  have hbq := hw.bound bq (mem_of_at hmq)
  have hb1n : b1 ∉ blocks n := child_blocks hw ho1 hk1
  have hbqk := child_blocks hw hmq hkk
  have hbqn : bq ∉ blocks n := fun h => hbqk (mem_blocks_of_at (R := [i]) (by rw [at?, Node.kids, hk1]; rfl) h)
  have hnew := at_modify hmq (fun _ => Node.branch nm q0 a s.next (grow cq) (ksq.insertIdx j (.leaf none (some q) .none)))
  have e2 := store_once (by omega) (count_le_one hw1.nodup s.next) hnew j (n.withParent q)
  rw [modify_append, modify_modify] at e2
  simp only [Node.modify] at e2
  rw [← set_eq_modify, insert_set _ _ _ _ hj] at e2
  obtain ⟨l, r, eb, eb2⟩ := blocks_split hmq
  have hcnt : ∀ x, x ∉ blocks n → (blocks (s.root.modify Q (fun _ => Node.branch nm q0 a s.next (grow cq) (ksq.insertIdx j (n.withParent q))))).count x =
      (blocks (s.root.modify Q (fun _ => Node.branch nm q0 a s.next (grow cq) (ksq.insertIdx j (.leaf none (some q) .none))))).count x := by
    intro x hx
    rw [eb2, eb2]
    simp only [List.count_append, blocks, List.count_cons, blocksL_insert_count _ _ _ hj, withParent_blocks, List.count_nil, List.count_eq_zero.2 hx]
  have hv1 : deref (s.root.modify Q (fun _ => Node.branch nm q0 a s.next (grow cq) (ksq.insertIdx j (.leaf none (some q) .none)))) p = .ok n := by
    rw [hp']
    exact deref_once (by omega) (count_le_one hw1.nodup b1) (below _) hk1
  have e3 : deref (s.root.modify Q (fun _ => Node.branch nm q0 a s.next (grow cq) (ksq.insertIdx j (n.withParent q)))) p = .ok n := by
    rw [hp']
    exact deref_once (by omega) (by rw [hcnt b1 hb1n]; exact count_le_one hw1.nodup b1) (below _) hk1
  have hgone : bq ∉ blocks (s.root.modify Q (fun _ => Node.branch nm q0 a s.next (grow cq) (ksq.insertIdx j (n.withParent q)))) := by
    rw [← List.count_eq_zero, hcnt bq hbqn, eb2]
    have h1 := count_le_one hw.nodup bq
    rw [eb] at h1
    simp only [List.count_append, blocks, List.count_cons, blocksL_insert_count _ _ _ hj, List.count_nil, beq_self_eq_true, if_true] at h1 ⊢
    rw [if_neg (by simp; omega)]
    omega
  rw [moveNodeAt, deref_ok hw hp hn, except_ok_bind, e1, except_ok_bind]
  dsimp only
  rw [hv1, except_ok_bind, e2, hnp]
  dsimp only
  rw [removeNode]
  dsimp only
  rw [e3, except_ok_bind, hnp]
  dsimp only
  rw [hpp', deref, if_neg (by dsimp only; omega), owner_absent _ _ hgone]
  rfl

/-! ## The arrays of a tree after a move or a swap -/

theorem path_cases (p q : List Nat) : Apart p q ∨ (∃ r, q = p ++ r) ∨ ∃ k r, p = q ++ k :: r := by
  induction p generalizing q with
  | nil => exact .inr (.inl ⟨q, rfl⟩)
  | cons i p ih =>
    cases q with
    | nil => exact .inr (.inr ⟨i, p, rfl⟩)
    | cons j q =>
      by_cases h : i = j
      · subst h
        rcases ih q with h | ⟨r, rfl⟩ | ⟨k, r, rfl⟩
        · exact .inl (by simpa [Apart] using h)
        · exact .inr (.inl ⟨r, rfl⟩)
        · exact .inr (.inr ⟨k, r, rfl⟩)
      · exact .inl (by simp [Apart, h])

/-- A node that has been copied to a new place outside itself and is then taken out of its old one. -/
theorem moved_perm {s : State} (hw : s.Wf) {o p : Ptr} {n : Node} (hd : deref s.root p = .ok n) {nm0 pp0 v0} (ho : deref s.root o = .ok (.leaf nm0 pp0 v0)) (ho0 : o.blk ≠ 0)
    (hon : o.blk ∉ blocks n) {q : Ptr} {s3 : State} (e : removeNode ⟨store s.root o (n.withParent q), s.next⟩ p = .ok s3) : (blocks s3.root).Perm (blocks s.root) ∧ s3.next = s.next := by
  obtain ⟨O, hOm, hOp⟩ := path_of_deref ho
  obtain ⟨P1, hPm, hPp⟩ := path_of_deref hd
  rcases exists_snoc O with rfl | ⟨O', jo, rfl⟩
  · simp only [State.PointsTo, addr, Option.some.injEq] at hOp
    rw [← hOp] at ho0
    exact absurd rfl ho0
  obtain ⟨nmo, po, ao, bo, co, kso, hoo, hko⟩ := at_snoc hOm
  have hob : o = ⟨bo, jo⟩ := by
    rw [State.PointsTo, addr_snoc _ hoo jo (List.getElem?_eq_some_iff.1 hko).1] at hOp
    injection hOp with hOp
    exact hOp.symm
  rcases exists_snoc P1 with rfl | ⟨P', ip, rfl⟩
  · simp only [at?, Option.some.injEq] at hPm
    subst hPm
    exact absurd (by rw [hob]; exact mem_of_at hoo) hon
  obtain ⟨nm1, p1, a1, b1, c1, ks1, ho1, hk1⟩ := at_snoc hPm
  have hpb : p = ⟨b1, ip⟩ := by
    rw [State.PointsTo, addr_snoc _ ho1 ip (List.getElem?_eq_some_iff.1 hk1).1] at hPp
    injection hPp with hPp
    exact hPp.symm
  have hb1 := hw.bound b1 (mem_of_at ho1)
  have hb1n : b1 ∉ blocks n := child_blocks hw ho1 hk1
  rw [store_ok hw hOp hOm] at e
  obtain ⟨l, r, eb, eb2⟩ := blocks_split hOm
  have hcnt : ∀ x, (blocks (s.root.modify (O' ++ [jo]) (fun _ => n.withParent q))).count x = (blocks s.root).count x + (blocks n).count x := by
    intro x
    rw [eb2, eb]
    simp only [List.count_append, blocks, withParent_blocks, List.count_nil]
    omega
  obtain ⟨ks2, n2, ho2, hk2, hn2⟩ : ∃ ks2 n2, at? (s.root.modify (O' ++ [jo]) (fun _ => n.withParent q)) P' = some (.branch nm1 p1 a1 b1 c1 ks2) ∧ ks2[ip]? = some n2 ∧ blocks n2 = blocks n := by
    rcases path_cases (O' ++ [jo]) P' with h | ⟨t, h⟩ | ⟨t, t', h⟩
    · exact ⟨ks1, n, (at_modify_apart h _).trans ho1, hk1, rfl⟩
    · rw [h, at_below hOm] at ho1
      cases t with
      | nil => cases ho1
      | cons t ts => rw [at?, Node.kids] at ho1; simp at ho1
    · rw [h]
      by_cases ht : t = ip
      · subst ht
        refine ⟨_, _, at_modify_below ho1 t t' _, by rw [List.getElem?_modify, hk1]; rfl, ?_⟩
        simp only [if_true]
        rcases exists_snoc t' with rfl | ⟨u, v, rfl⟩
        · simp only [Node.modify, withParent_blocks]
        · exfalso
          rw [← List.cons_append, ← List.append_assoc] at h
          obtain ⟨h1, h2⟩ := List.append_inj' h rfl
          subst h1
          rw [at_below ho1, at?, Node.kids, hk1] at hoo
          exact hon (by rw [hob]; exact mem_of_at hoo)
      · exact ⟨_, n, at_modify_below ho1 t t' _, by rw [List.getElem?_modify, hk1]; simp [ht], rfl⟩
  have hlt : ip < ks2.length := (List.getElem?_eq_some_iff.1 hk2).1
  have hc1 : (blocks (s.root.modify (O' ++ [jo]) (fun _ => n.withParent q))).count b1 ≤ 1 := by
    rw [hcnt, List.count_eq_zero.2 hb1n]
    exact count_le_one hw.nodup b1
  have e3 : deref (s.root.modify (O' ++ [jo]) (fun _ => n.withParent q)) p = .ok n2 := by
    rw [hpb]
    exact deref_once (by omega) hc1 ho2 hk2
  rw [removeNode] at e
  dsimp only at e
  rw [e3, except_ok_bind] at e
  cases hpar : n2.parent with
  | none => rw [hpar] at e; cases e
  | some q2 =>
    rw [hpar] at e
    dsimp only at e
    cases hz : deref (s.root.modify (O' ++ [jo]) (fun _ => n.withParent q)) q2 with
    | error f => rw [hz] at e; cases e
    | ok z =>
      rw [hz, except_ok_bind] at e
      cases z with
      | leaf => cases e
      | branch nm9 p9 a9 b9 c9 ks9 =>
        dsimp only at e
        by_cases hb : p.blk ≠ b9
        · rw [if_pos hb] at e; cases e
        rw [if_neg hb] at e
        have hb : b9 = b1 := by
          have : p.blk = b9 := by simpa using hb
          rw [hpb] at this
          exact this.symm
        subst hb
        by_cases hk : ks9.length ≤ p.idx
        · rw [if_pos hk] at e; cases e
        rw [if_neg hk, onOwner_once hc1 ho2] at e
        injection e with e
        subst e
        refine ⟨?_, rfl⟩
        have h1 := blocks_erase_perm (n := s.root.modify (O' ++ [jo]) (fun _ => n.withParent q)) (P := P') (i := ip) (m := n2) (by rw [at_below ho2, at?, Node.kids, hk2]; rfl)
        rw [hpb]
        dsimp only
        rw [List.perm_iff_count] at h1 ⊢
        intro y
        have := h1 y
        rw [hcnt, List.count_append, hn2] at this
        omega

theorem allocAt_some {ok : Bool} {s s1 : State} (hw : s.Wf) {q o : Ptr} {i : Int} (e : allocAt ok s q i = .ok (s1, some o)) :
    ∃ (Q : List Nat) (nm : Option (List Byte)) (q0 : Option Ptr) (a : Bool) (b c : Nat) (ks : List Node) (j b' c' : Nat), s.PointsTo q Q ∧ at? s.root Q = some (.branch nm q0 a b c ks) ∧
      j ≤ ks.length ∧ s1 = ⟨s.root.modify Q (fun _ => .branch nm q0 a b' c' (ks.insertIdx j (.leaf none (some q) .none))), if ks.length < c then s.next else s.next + 1⟩ ∧ o = ⟨b', j⟩ ∧ s1.Wf := by
  cases hd : deref s.root q with
  | error f => rw [allocAt, hd] at e; cases e
  | ok m =>
    obtain ⟨Q, hm, hq⟩ := path_of_deref hd
    cases m with
    | leaf nm pp v => rw [allocAt, hd, except_ok_bind] at e; cases e
    | branch nm q0 a b c ks =>
      by_cases hi : i < 0 ∨ i > ks.length
      · rw [allocAt, hd, except_ok_bind] at e
        simp only [if_pos hi] at e
        cases e
      · obtain ⟨j, rfl⟩ : ∃ j : Nat, i = j := ⟨i.toNat, by omega⟩
        have hj : j ≤ ks.length := by omega
        by_cases hr : ks.length < c ∨ ok = true
        · obtain ⟨b', c', ea, eb⟩ := allocAt_ok hw hq hm hj hr
          have hw1 := wf_alloc hw hm hj (.leaf none (some q) .none) rfl eb nm q0 a
          rw [ea] at e
          injection e with e; injection e with e1 e2
          injection e2 with e2
          subst e1 e2
          exact ⟨Q, nm, q0, a, b, c, ks, j, b', c', hq, hm, hj, rfl, rfl, hw1⟩
        · rw [allocAt, hd, except_ok_bind] at e
          simp only [if_neg hi] at e
          rw [if_neg (fun hh => hr (.inl hh)), if_neg (fun hh => hr (.inr hh))] at e
          cases e

mutual
theorem at_of_mem {b : Nat} : {n : Node} → b ∈ blocks n → ∃ path nm p a c ks, at? n path = some (.branch nm p a b c ks)
  | .leaf _ _ _, h => by rw [blocks] at h; cases h
  | .branch nm p a b0 c ks, h => by
    rw [blocks, List.mem_cons] at h
    rcases h with rfl | h
    · exact ⟨[], nm, p, a, c, ks, rfl⟩
    · obtain ⟨i, path, k, nm1, p1, a1, c1, ks1, hk, h1⟩ := at_of_memL h
      exact ⟨i :: path, nm1, p1, a1, c1, ks1, by rw [at?, Node.kids, hk]; exact h1⟩
theorem at_of_memL {b : Nat} : {ks : List Node} → b ∈ blocksL ks → ∃ (i : Nat) (path : List Nat) (k : Node) (nm : Option (List Byte)) (p : Option Ptr) (a : Bool) (c : Nat) (ks1 : List Node),
      ks[i]? = some k ∧ at? k path = some (.branch nm p a b c ks1)
  | [], h => by rw [blocksL] at h; cases h
  | k :: ks, h => by
    rw [blocksL, List.mem_append] at h
    rcases h with h | h
    · obtain ⟨path, nm, p, a, c, ks1, h1⟩ := at_of_mem h
      exact ⟨0, path, k, nm, p, a, c, ks1, rfl, h1⟩
    · obtain ⟨i, path, k1, nm, p, a, c, ks1, hk, h1⟩ := at_of_memL h
      exact ⟨i + 1, path, k1, nm, p, a, c, ks1, hk, h1⟩
end

/-- A move of a node that has a parent, to a place outside the node. -/
theorem moveNodeAt_perm {ok : Bool} {s s' : State} (hw : s.Wf) {p q o : Ptr} {i : Int} (hpar : ∀ n, deref s.root p = .ok n → n.parent ≠ none)
    (hout : ∀ P R, s.PointsTo p P → ¬ s.PointsTo q (P ++ R)) (e : moveNodeAt ok s p q i = .ok (s', o)) :
    ∃ s1, allocAt ok s q i = .ok (s1, some o) ∧ (blocks s'.root).Perm (blocks s1.root) ∧ s'.next = s1.next := by
  rw [moveNodeAt] at e
  cases hd : deref s.root p with
  | error f => rw [hd] at e; cases e
  | ok old =>
    rw [hd, except_ok_bind] at e
    cases ha : allocAt ok s q i with
    | error f => rw [ha] at e; cases e
    | ok r =>
      obtain ⟨s1, r⟩ := r
      rw [ha, except_ok_bind] at e
      cases r with
      | none => cases e
      | some o1 =>
        dsimp only at e
        cases hd1 : deref s1.root p with
        | error f => rw [hd1] at e; cases e
        | ok n =>
          rw [hd1, except_ok_bind] at e
          cases hop : old.parent with
          | none => exact absurd hop (hpar old hd)
          | some x =>
            rw [hop] at e
            dsimp only at e
            cases hr : removeNode ⟨store s1.root o1 (n.withParent q), s1.next⟩ p with
            | error f => rw [hr] at e; cases e
            | ok s3 =>
              rw [hr] at e
              injection e with e; injection e with e1 e2
              subst e1 e2
              obtain ⟨Q, nm, q0, a, b, c, ks, j, b', c', hq, hm, hj, rfl, rfl, hw1⟩ := allocAt_some hw ha
              have hnew := at_modify hm (fun _ => Node.branch nm q0 a b' c' (ks.insertIdx j (.leaf none (some q) .none)))
              have hb' := hw1.bound b' (mem_of_at hnew)
              have hblank : (ks.insertIdx j (Node.leaf none (some q) .none))[j]? = some (.leaf none (some q) .none) := by
                rw [getElem?_insertIdx' _ _ _ hj, if_neg (by omega), if_pos rfl]
              have ho := deref_once (by omega) (count_le_one hw1.nodup b') hnew hblank
              refine ⟨_, rfl, moved_perm hw1 hd1 ho (by dsimp only; omega) ?_ hr⟩
              dsimp only
              intro hin
              obtain ⟨P1, hP1, hp1⟩ := path_of_deref hd1
              obtain ⟨T, nm5, p5, a5, c5, ks5, hT⟩ := at_of_mem hin
              have hTT : at? (s.root.modify Q (fun _ => Node.branch nm q0 a b' c' (ks.insertIdx j (.leaf none (some q) .none)))) (P1 ++ T) = some (.branch nm5 p5 a5 b' c5 ks5) := by
                rw [at_below hP1]; exact hT
              have hQ := at_inj hw1.nodup hnew hTT
              subst hQ
              refine hout P1 T ?_ hq
              exact (addr_modify_below s.root P1 T _ _).symm.trans hp1

theorem wf_withParent {s : State} (hw : s.Wf) {Q : List Nat} {m : Node} (hm : at? s.root Q = some m) (pp : Ptr) :
    State.Wf ⟨s.root.modify Q (fun _ => m.withParent pp), s.next⟩ ∧ blocks (s.root.modify Q (fun _ => m.withParent pp)) = blocks s.root := by
  obtain ⟨l, r, e, h⟩ := blocks_split hm
  have : blocks (s.root.modify Q (fun _ => m.withParent pp)) = blocks s.root := by rw [h, e, withParent_blocks]
  exact ⟨⟨by rw [this]; exact hw.nodup, by rw [this]; exact hw.bound⟩, this⟩

/-- A swap of two nodes neither of which lies in the other. -/
theorem swapNodes_perm {s s' : State} (hw : s.Wf) {p q : Ptr} (h1 : ∀ P k R, s.PointsTo p P → ¬ s.PointsTo q (P ++ k :: R)) (h2 : ∀ Q k R, s.PointsTo q Q → ¬ s.PointsTo p (Q ++ k :: R))
    (e : swapNodes s p q = .ok s') : (blocks s'.root).Perm (blocks s.root) ∧ s'.next = s.next := by
  rw [swapNodes] at e
  cases hdp : deref s.root p with
  | error f => rw [hdp] at e; cases e
  | ok n =>
  cases hdq : deref s.root q with
  | error f => rw [hdp, hdq] at e; cases e
  | ok m =>
  rw [hdp, hdq, except_ok_bind, except_ok_bind] at e
  cases hnp : n.parent with
  | none => rw [hnp] at e; cases e
  | some pp =>
  cases hmp : m.parent with
  | none => rw [hnp, hmp] at e; cases e
  | some qp =>
  rw [hnp, hmp] at e
  dsimp only at e
  cases hz : deref s.root pp with
  | error f => rw [hz] at e; cases e
  | ok z =>
  cases hy : deref s.root qp with
  | error f => rw [hz, hy] at e; cases e
  | ok y =>
  rw [hz, hy, except_ok_bind, except_ok_bind] at e
  cases z with
  | leaf => cases e
  | branch nmz pz az bz cz ksz =>
  cases y with
  | leaf => cases e
  | branch nmy py ay by' cy ksy =>
  dsimp only at e
  split at e
  · cases e
  obtain ⟨P, hn, hp⟩ := path_of_deref hdp
  obtain ⟨Q, hm, hq⟩ := path_of_deref hdq
  obtain ⟨hw1, hb1⟩ := wf_withParent hw hm pp
  have hq1 : State.PointsTo ⟨s.root.modify Q (fun _ => m.withParent pp), s.next⟩ q Q := (addr_modify hm _ _).trans hq
  have hm1 : at? (s.root.modify Q (fun _ => m.withParent pp)) Q = some (m.withParent pp) := at_modify hm _
  rw [store_ok hw hq hm, deref_ok hw1 hq1 hm1, except_ok_bind] at e
  rcases path_cases P Q with hap | ⟨R, rfl⟩ | ⟨k, R, rfl⟩
  · have hp1 : State.PointsTo ⟨s.root.modify Q (fun _ => m.withParent pp), s.next⟩ p P := (addr_modify_apart hap.symm _ _).trans hp
    have hn1 : at? (s.root.modify Q (fun _ => m.withParent pp)) P = some n := (at_modify_apart hap.symm _).trans hn
    have e3 := store_ok hw1 hp1 hn1 (m.withParent pp)
    dsimp only at e3
    rw [e3] at e
    injection e with e
    subst e
    refine ⟨?_, rfl⟩
    dsimp only
    rcases exists_snoc Q with rfl | ⟨Q', j, rfl⟩
    · cases P <;> exact hap.elim
    obtain ⟨nm2, p2, a2, b2, c2, ks2, ho2, hk2⟩ := at_snoc hm
    have hj : j < ks2.length := (List.getElem?_eq_some_iff.1 hk2).1
    have hq' := hq
    rw [State.PointsTo, addr_snoc _ ho2 j hj] at hq'
    injection hq' with hq'
    have hb2 := hw.bound b2 (mem_of_at ho2)
    have ho2' : at? (s.root.modify (Q' ++ [j]) (fun _ => m.withParent pp)) Q' = some (.branch nm2 p2 a2 b2 c2 (ks2.modify j (fun _ => m.withParent pp))) := at_modify_below ho2 j [] _
    obtain ⟨ks3, h3, -, -⟩ := at_parent_apart hap ho2' (fun _ => m.withParent pp)
    have hb2m : b2 ∉ blocks m := child_blocks hw ho2 hk2
    obtain ⟨l, r, eb, hb⟩ := blocks_split hn1
    have hcount : (blocks ((s.root.modify (Q' ++ [j]) (fun _ => m.withParent pp)).modify P (fun _ => m.withParent pp))).count b2 ≤ 1 := by
      rw [hb]
      have h1 := count_le_one hw1.nodup b2
      dsimp only at h1
      rw [eb] at h1
      rw [List.count_append, List.count_append] at h1 ⊢
      rw [withParent_blocks, List.count_eq_zero.2 hb2m]
      omega
    have e4 := store_once (by omega) hcount h3 j (n.withParent qp)
    rw [hq'] at e4
    have hm2 : at? ((s.root.modify (Q' ++ [j]) (fun _ => m.withParent pp)).modify P (fun _ => m.withParent pp)) (Q' ++ [j]) = some (m.withParent pp) := (at_modify_apart hap _).trans hm1
    obtain ⟨l2, r2, eb2, hb3⟩ := blocks_split hm2
    rw [e4, hb3, ← hb1, eb, List.perm_iff_count]
    intro x
    have c1 := hb (fun _ => m.withParent pp)
    rw [eb2] at c1
    have c2 := congrArg (List.count x) c1
    simp only [List.count_append, withParent_blocks] at c2 ⊢
    omega
  · cases R with
    | cons k R => exact absurd hq (h1 P k R hp)
    | nil =>
      simp only [List.append_nil] at hm hq hw1 hb1 hq1 hm1 e
      have hpq : p = q := by
        rw [State.PointsTo] at hp hq
        rw [hp] at hq
        injection hq
      subst hpq
      rw [hn] at hm
      injection hm with hm
      subst hm
      have e3 := store_ok hw1 hq1 hm1 (n.withParent pp)
      dsimp only at e3
      rw [e3, modify_modify] at e
      have e4 := store_ok hw1 hq1 hm1 (n.withParent qp)
      dsimp only at e4
      rw [e4, modify_modify] at e
      injection e with e
      subst e
      exact ⟨by dsimp only; rw [(wf_withParent hw hn qp).2], rfl⟩
  · exact absurd hp (h2 Q k R hq)

/-! ## The theorems are not vacuous -/

/-- `{a: {x: {y: {z: 7}}}, b: 1}`, all arrays with room. -/
def deepRoot : Node :=
  .branch none none false 1 8
    [.branch (some [0x61#8]) (some ⟨0, 0⟩) false 2 8 [.branch (some [0x78#8]) (some ⟨1, 0⟩) false 3 8 [.branch (some [0x79#8]) (some ⟨2, 0⟩) false 4 8 [.leaf (some [0x7a#8]) (some ⟨3, 0⟩) (.int 7)]]],
     .leaf (some [0x62#8]) (some ⟨0, 0⟩) (.int 1)]

/-- `y` is moved to the front of the root, two levels up. -/
example : State.PointsTo ⟨deepRoot, 5⟩ ⟨3, 0⟩ (([] ++ 0 :: [0]) ++ [0]) ∧ State.PointsTo ⟨deepRoot, 5⟩ ⟨0, 0⟩ [] ∧ State.ParentOk ⟨deepRoot, 5⟩ ([] ++ 0 :: [0]) 0 ∧
    moveNodeAt true ⟨deepRoot, 5⟩ ⟨3, 0⟩ ⟨0, 0⟩ 0 = .ok (⟨.branch none none false 1 8
      [.branch (some [0x79#8]) (some ⟨0, 0⟩) false 4 8 [.leaf (some [0x7a#8]) (some ⟨3, 0⟩) (.int 7)],
       .branch (some [0x61#8]) (some ⟨0, 0⟩) false 2 8 [.branch (some [0x78#8]) (some ⟨1, 0⟩) false 3 8 []],
       .leaf (some [0x62#8]) (some ⟨0, 0⟩) (.int 1)], 5⟩, ⟨1, 0⟩) :=
  ⟨rfl, rfl, ⟨_, ⟨2, 0⟩, rfl, rfl, rfl⟩, by rfl⟩

/-- `x` is moved out of `a`, behind it. -/
example : State.PointsTo ⟨deepRoot, 5⟩ ⟨2, 0⟩ (([] ++ 0 :: []) ++ [0]) ∧ State.ParentOk ⟨deepRoot, 5⟩ ([] ++ 0 :: []) 0 ∧ (0 < 1 ∧ deepRoot.kids.length < 8) ∧
    moveNodeAt true ⟨deepRoot, 5⟩ ⟨2, 0⟩ ⟨0, 0⟩ 1 = .ok (⟨.branch none none false 1 8
      [.branch (some [0x61#8]) (some ⟨0, 0⟩) false 2 8 [],
       .branch (some [0x78#8]) (some ⟨0, 0⟩) false 3 8 [.branch (some [0x79#8]) (some ⟨2, 0⟩) false 4 8 [.leaf (some [0x7a#8]) (some ⟨3, 0⟩) (.int 7)]],
       .leaf (some [0x62#8]) (some ⟨0, 0⟩) (.int 1)], 5⟩, ⟨1, 1⟩) :=
  ⟨rfl, ⟨_, ⟨1, 0⟩, rfl, rfl, rfl⟩, by decide, by rfl⟩

/-- `x` cannot be moved out of `a` to the place of `a`. -/
example : moveNodeAt true ⟨deepRoot, 5⟩ ⟨2, 0⟩ ⟨0, 0⟩ 0 = .error .ub := by rfl

/-- Nor to a full array. -/
example : moveNodeAt true ⟨.branch none none true 1 1 [.branch none (some ⟨0, 0⟩) true 2 8 [.leaf none (some ⟨1, 0⟩) (.int 7)]], 3⟩ ⟨2, 0⟩ ⟨0, 0⟩ 1 = .error .ub := by rfl

end Zpl.Adt
