import Verif.Parse.Adt

/-!
# Moving and swapping nodes of a tree; appending when memory runs out (code/source/adt.c:250-330)  -  C62, C78

The functions are modelled in `Parse/Adt`. -/

namespace Zpl.Adt

open Zpl Zpl.Str

/-! ## Specification -/

/-- Two paths part at some node, so that neither leads into the other. -/
def Apart : List Nat → List Nat → Prop
  | i :: p, j :: q => if i = j then Apart p q else True
  | _, _ => False

/-! ## Arrays that are used once -/

theorem onOwnerL_once (b : Nat) (f g : Node → Node) (ks : List Node) (i : Nat) (k : Node) (h : ks[i]? = some k) (hn : (blocksL ks).count b ≤ 1) (hb : b ∈ blocks k)
    (hk : onOwner b f k = g k) : onOwnerL b f ks = ks.modify i g := by
  induction ks generalizing i with
  | nil => simp at h
  | cons x ks ih =>
    rw [blocksL, List.count_append] at hn
    cases i with
    | zero =>
      simp at h
      subst h
      have h1 : 0 < (blocks x).count b := List.count_pos_iff.2 hb
      rw [onOwnerL, hk, onOwnerL_absent b f ks (fun hm => by have := List.count_pos_iff.2 hm; omega)]
      simp
    | succ i =>
      simp at h
      have hm : b ∈ blocksL ks := by
        obtain ⟨l, r, e, -⟩ := blocksL_split ks i k h
        simp [e, hb]
      have h1 : 0 < (blocksL ks).count b := List.count_pos_iff.2 hm
      rw [onOwnerL, onOwner_absent b f x (fun hx => by have := List.count_pos_iff.2 hx; omega), ih i h (by omega)]
      simp

theorem ownerL_once (b : Nat) (ks : List Node) (i : Nat) (k o : Node) (h : ks[i]? = some k) (hn : (blocksL ks).count b ≤ 1) (hb : b ∈ blocks k)
    (hk : owner b k = some o) : ownerL b ks = some o := by
  induction ks generalizing i with
  | nil => simp at h
  | cons x ks ih =>
    rw [blocksL, List.count_append] at hn
    cases i with
    | zero =>
      simp at h
      subst h
      rw [ownerL, hk]
      rfl
    | succ i =>
      simp at h
      have hm : b ∈ blocksL ks := by
        obtain ⟨l, r, e, -⟩ := blocksL_split ks i k h
        simp [e, hb]
      have h1 : 0 < (blocksL ks).count b := List.count_pos_iff.2 hm
      rw [ownerL, owner_absent b x (fun hx => by have := List.count_pos_iff.2 hx; omega), ih i h (by omega)]
      rfl

/-- Changing the owner of an array that is used once is changing the node at its path. -/
theorem onOwner_once {n : Node} {path : List Nat} {nm p a b c ks} (hn : (blocks n).count b ≤ 1) (h : at? n path = some (.branch nm p a b c ks)) (f : Node → Node) :
    onOwner b f n = n.modify path f := by
  induction path generalizing n with
  | nil =>
    simp only [at?, Option.some.injEq] at h
    subst h
    rw [onOwner, if_pos rfl, Node.modify]
  | cons i path ih =>
    cases n with
    | leaf => simp [at?, Node.kids] at h
    | branch nm' p' a' b' c' ks' =>
      simp only [at?, Node.kids] at h
      cases hk : ks'[i]? with
      | none => simp [hk] at h
      | some k =>
        rw [hk] at h
        rw [blocks, List.count_cons] at hn
        obtain ⟨l, r, e, -⟩ := blocksL_split ks' i k hk
        have hb : b ∈ blocks k := mem_of_at h
        have h1 : 0 < (blocks k).count b := List.count_pos_iff.2 hb
        have e' := e
        replace e' := congrArg (List.count b) e'
        rw [List.count_append, List.count_append] at e'
        have hne : b' ≠ b := by
          rintro rfl
          rw [if_pos (by simp)] at hn
          omega
        rw [onOwner, if_neg hne, Node.modify, onOwnerL_once b f (Node.modify path f) ks' i k hk (by split at hn <;> omega) hb (ih (by split at hn <;> omega) h)]

theorem owner_once {n : Node} {path : List Nat} {nm p a b c ks} (hn : (blocks n).count b ≤ 1) (h : at? n path = some (.branch nm p a b c ks)) :
    owner b n = some (.branch nm p a b c ks) := by
  induction path generalizing n with
  | nil =>
    simp only [at?, Option.some.injEq] at h
    subst h
    rw [owner, if_pos rfl]
  | cons i path ih =>
    cases n with
    | leaf => simp [at?, Node.kids] at h
    | branch nm' p' a' b' c' ks' =>
      simp only [at?, Node.kids] at h
      cases hk : ks'[i]? with
      | none => simp [hk] at h
      | some k =>
        rw [hk] at h
        rw [blocks, List.count_cons] at hn
        obtain ⟨l, r, e, -⟩ := blocksL_split ks' i k hk
        have hb : b ∈ blocks k := mem_of_at h
        have h1 : 0 < (blocks k).count b := List.count_pos_iff.2 hb
        have e' := e
        replace e' := congrArg (List.count b) e'
        rw [List.count_append, List.count_append] at e'
        have hne : b' ≠ b := by
          rintro rfl
          rw [if_pos (by simp)] at hn
          omega
        rw [owner, if_neg hne, ownerL_once b ks' i k _ hk (by split at hn <;> omega) hb (ih (by split at hn <;> omega) h)]

theorem deref_once {root : Node} {path : List Nat} {nm p a b c ks} (hb : b ≠ 0) (hn : (blocks root).count b ≤ 1) (h : at? root path = some (.branch nm p a b c ks)) {i : Nat} {m : Node}
    (hm : ks[i]? = some m) : deref root ⟨b, i⟩ = .ok m := by
  rw [deref, if_neg hb]
  dsimp only
  rw [owner_once hn h]
  dsimp only [Node.kids]
  rw [hm]

theorem store_once {root : Node} {path : List Nat} {nm p a b c ks} (hb : b ≠ 0) (hn : (blocks root).count b ≤ 1) (h : at? root path = some (.branch nm p a b c ks)) (i : Nat) (x : Node) :
    store root ⟨b, i⟩ x = root.modify (path ++ [i]) (fun _ => x) := by
  rw [store, if_neg hb, onOwner_once hn h, modify_append]
  refine modify_congr h ?_
  rw [Node.onKids, Node.modify]
  congr 1
  rw [set_eq_modify]
  rfl

theorem count_le_one {l : List Nat} (h : l.Nodup) (b : Nat) : l.count b ≤ 1 := List.nodup_iff_count.1 h b

/-! ## Paths that part -/

theorem Apart.symm {p q : List Nat} (h : Apart p q) : Apart q p := by
  induction p generalizing q with
  | nil => cases q <;> exact h.elim
  | cons i p ih =>
    cases q with
    | nil => exact h.elim
    | cons j q =>
      rw [Apart] at h ⊢
      by_cases hij : i = j
      · rw [if_pos hij] at h
        rw [if_pos hij.symm]
        exact ih h
      · rw [if_neg (Ne.symm hij)]
        trivial

theorem Apart.append {p q : List Nat} (h : Apart p q) (r : List Nat) : Apart p (q ++ r) := by
  induction p generalizing q with
  | nil => cases q <;> exact h.elim
  | cons i p ih =>
    cases q with
    | nil => exact h.elim
    | cons j q =>
      rw [List.cons_append, Apart]
      rw [Apart] at h
      split
      · rename_i hij
        rw [if_pos hij] at h
        exact ih h
      · trivial

theorem at_modify_apart {n : Node} {p q : List Nat} (h : Apart p q) (f : Node → Node) : at? (n.modify p f) q = at? n q := by
  induction p generalizing n q with
  | nil => cases q <;> exact h.elim
  | cons i p ih =>
    cases q with
    | nil => exact h.elim
    | cons j q =>
      cases n with
      | leaf => rfl
      | branch nm pp a b c ks =>
        rw [Apart] at h
        simp only [Node.modify, at?, Node.kids, List.getElem?_modify]
        by_cases hij : i = j
        · subst hij
          rw [if_pos rfl] at h
          cases hk : ks[i]? with
          | none => simp
          | some k => simp [ih h]
        · simp [hij]

theorem addr_modify_apart {n : Node} {p q : List Nat} (h : Apart p q) (f : Node → Node) (cur : Ptr) : addr cur (n.modify p f) q = addr cur n q := by
  induction p generalizing n q cur with
  | nil => cases q <;> exact h.elim
  | cons i p ih =>
    cases q with
    | nil => exact h.elim
    | cons j q =>
      cases n with
      | leaf => rfl
      | branch nm pp a b c ks =>
        rw [Apart] at h
        simp only [Node.modify, addr, List.getElem?_modify]
        by_cases hij : i = j
        · subst hij
          rw [if_pos rfl] at h
          cases hk : ks[i]? with
          | none => simp
          | some k => simp [ih h]
        · simp [hij]

/-- Changing a node below does not change the address of a node. -/
theorem addr_modify_below (n : Node) (p r : List Nat) (f : Node → Node) (cur : Ptr) : addr cur (n.modify (p ++ r) f) p = addr cur n p := by
  induction p generalizing n cur with
  | nil => rfl
  | cons i p ih =>
    cases n with
    | leaf => rfl
    | branch nm pp a b c ks =>
      simp only [List.cons_append, Node.modify, addr, List.getElem?_modify]
      cases hk : ks[i]? with
      | none => simp
      | some k => simp [ih]

/-- Changing a node below a branch leaves a branch with the same array. -/
theorem at_modify_below {n : Node} {p : List Nat} {nm pp a b c ks} (h : at? n p = some (.branch nm pp a b c ks)) (i : Nat) (r : List Nat) (f : Node → Node) :
    at? (n.modify (p ++ i :: r) f) p = some (.branch nm pp a b c (ks.modify i (Node.modify r f))) := by
  rw [modify_append]
  have := at_modify h (Node.modify (i :: r) f)
  rw [this, Node.modify]

theorem at_below {n : Node} {p q : List Nat} {m : Node} (h : at? n p = some m) : at? n (p ++ q) = at? m q := by
  rw [at_append, h, Option.bind_some]

/-- The parent of a node outside of what is changed keeps its array, and the node is still in it. -/
theorem at_parent_apart {n : Node} {p q : List Nat} {j : Nat} (h : Apart p (q ++ [j])) {nm pp a b c ks} (hq : at? n q = some (.branch nm pp a b c ks)) (f : Node → Node) :
    ∃ ks', at? (n.modify p f) q = some (.branch nm pp a b c ks') ∧ ks'[j]? = ks[j]? ∧ ks'.length = ks.length := by
  induction q generalizing n p with
  | nil =>
    simp only [at?, Option.some.injEq] at hq
    subst hq
    cases p with
    | nil => exact h.elim
    | cons i p =>
      rw [List.nil_append, Apart] at h
      have hij : i ≠ j := by
        rintro rfl
        rw [if_pos rfl] at h
        cases p <;> exact h.elim
      refine ⟨_, by rw [Node.modify, at?], ?_, by simp⟩
      rw [List.getElem?_modify]
      simp [hij]
  | cons k q ih =>
    cases n with
    | leaf => simp [at?, Node.kids] at hq
    | branch nm' pp' a' b' c' ks' =>
      simp only [at?, Node.kids] at hq
      cases hk : ks'[k]? with
      | none => simp [hk] at hq
      | some x =>
        rw [hk] at hq
        cases p with
        | nil => exact h.elim
        | cons i p =>
          rw [List.cons_append, Apart] at h
          simp only [Node.modify, at?, Node.kids, List.getElem?_modify, hk]
          by_cases hik : i = k
          · rw [if_pos hik] at h
            obtain ⟨l, h1, h2, h3⟩ := ih h hq
            exact ⟨l, by simpa [hik] using h1, h2, h3⟩
          · exact ⟨ks, by simpa [hik] using hq, rfl, rfl⟩

/-- A change outside of a node leaves the address of its parent as it is. -/
theorem addr_parent_apart {n : Node} {p q : List Nat} {j : Nat} (h : Apart p (q ++ [j])) (f : Node → Node) (cur : Ptr) : addr cur (n.modify p f) q = addr cur n q := by
  induction q generalizing n p cur with
  | nil =>
    cases p with
    | nil => exact h.elim
    | cons i p => cases n <;> rfl
  | cons k q ih =>
    cases n with
    | leaf => cases p <;> first | exact h.elim | rfl
    | branch nm' pp' a' b' c' ks' =>
      cases p with
      | nil => exact h.elim
      | cons i p =>
        rw [List.cons_append, Apart] at h
        simp only [Node.modify, addr, List.getElem?_modify]
        by_cases hik : i = k
        · rw [if_pos hik] at h
          subst hik
          cases hk : ks'[i]? with
          | none => simp
          | some x => simp [ih h]
        · simp [hik]

theorem Tree.update_id (t : Tree) (path : List Nat) : t.update path (fun t => t) = t := by
  induction path generalizing t with
  | nil => rfl
  | cons k path ih =>
    cases t with
    | leaf => rfl
    | branch nm a ks =>
      rw [Tree.update]
      congr 1
      have : Tree.update path (fun t => t) = id := funext ih
      rw [this]
      simp

theorem withParent_blocks (q : Ptr) (n : Node) : blocks (n.withParent q) = blocks n := by
  cases n <;> simp [Node.withParent, blocks]

theorem withParent_tree (q : Ptr) (n : Node) : (n.withParent q).tree = n.tree := by
  cases n <;> simp [Node.withParent, Node.tree]

theorem withParent_parent (q : Ptr) (n : Node) : (n.withParent q).parent = some q := by
  cases n <;> rfl

/-- A child of a branch does not use the array of the branch. -/
theorem child_blocks {s : State} (hw : s.Wf) {path : List Nat} {nm pp a b c ks} (h : at? s.root path = some (.branch nm pp a b c ks)) {i : Nat} {m : Node} (hm : ks[i]? = some m) : b ∉ blocks m := by
  obtain ⟨l, r, e, -⟩ := blocks_split h
  have hn := hw.nodup
  rw [e] at hn
  have hn' := (List.nodup_append.1 (List.nodup_append.1 hn).1).2.1
  rw [blocks, List.nodup_cons] at hn'
  obtain ⟨l', r', e', -⟩ := blocksL_split ks i m hm
  intro hb
  exact hn'.1 (by rw [e']; simp [hb])

theorem modify_modify (n : Node) (p : List Nat) (f g : Node → Node) : (n.modify p f).modify p g = n.modify p (fun x => g (f x)) := by
  induction p generalizing n with
  | nil => rfl
  | cons i p ih =>
    cases n with
    | leaf => rfl
    | branch nm pp a b c ks =>
      rw [Node.modify, Node.modify, Node.modify]
      congr 1
      apply List.ext_getElem?
      intro j
      rw [List.getElem?_modify, List.getElem?_modify, List.getElem?_modify]
      by_cases hj : i = j
      · subst hj
        cases ks[i]? with
        | none => rfl
        | some k => simp [ih]
      · simp [hj]

/-- **C78, swapping.** `zpl_adt_swap_nodes` on two nodes that record their parents rightly, neither of which lies in the other, exchanges them: everything else is as before, and both record
their new parents rightly. -/
theorem C78_swap {s : State} (hw : s.Wf) {p q : Ptr} {P Q : List Nat} {i j : Nat} (hp : s.PointsTo p (P ++ [i])) (hq : s.PointsTo q (Q ++ [j])) (hlp : s.ParentOk P i) (hlq : s.ParentOk Q j)
    (hap : Apart (P ++ [i]) (Q ++ [j])) {x y : Tree} (hx : s.root.tree.sub? (P ++ [i]) = some x) (hy : s.root.tree.sub? (Q ++ [j]) = some y) :
    ∃ s', swapNodes s p q = .ok s' ∧ s'.Wf ∧ s'.root.tree = (s.root.tree.update (P ++ [i]) fun _ => y).update (Q ++ [j]) (fun _ => x) ∧ s'.ParentOk P i ∧ s'.ParentOk Q j := by
  obtain ⟨n, pp, hn, hnp, hpp⟩ := hlp
  obtain ⟨m, qp, hm, hmp, hqp⟩ := hlq
  obtain ⟨nm1, p1, a1, b1, c1, ks1, ho1, hk1⟩ := at_snoc hn
  obtain ⟨nm2, p2, a2, b2, c2, ks2, ho2, hk2⟩ := at_snoc hm
  have hi : i < ks1.length := (List.getElem?_eq_some_iff.1 hk1).1
  have hj : j < ks2.length := (List.getElem?_eq_some_iff.1 hk2).1
  have hp' := hp
  rw [State.PointsTo, addr_snoc _ ho1 i hi] at hp'
  have hq' := hq
  rw [State.PointsTo, addr_snoc _ ho2 j hj] at hq'
  injection hp' with hp'
  injection hq' with hq'
  have hb1 := hw.bound b1 (mem_of_at ho1)
  have hb2 := hw.bound b2 (mem_of_at ho2)
  have hxn : n.tree = x := by rw [sub_tree, hn] at hx; simpa using hx
  have hym : m.tree = y := by rw [sub_tree, hm] at hy; simpa using hy
  -- the stores
  have e1 : store s.root q (m.withParent pp) = s.root.modify (Q ++ [j]) (fun _ => m.withParent pp) := store_ok hw hq hm _
  have hw1 : State.Wf ⟨s.root.modify (Q ++ [j]) (fun _ => m.withParent pp), s.next⟩ := by
    obtain ⟨l, r, e, -⟩ := blocks_split hm
    have hnd := hw.nodup
    rw [e] at hnd
    exact wf_modify hw hm _ _ (Nat.le_refl _) (by rw [withParent_blocks]; exact (List.nodup_append.1 (List.nodup_append.1 hnd).1).2.1) (by rw [withParent_blocks]; exact fun b h => .inl h)
  have hp1 : State.PointsTo ⟨s.root.modify (Q ++ [j]) (fun _ => m.withParent pp), s.next⟩ p (P ++ [i]) := (addr_modify_apart hap.symm _ _).trans hp
  have hn1 : at? (s.root.modify (Q ++ [j]) (fun _ => m.withParent pp)) (P ++ [i]) = some n := (at_modify_apart hap.symm _).trans hn
  have hq1 : State.PointsTo ⟨s.root.modify (Q ++ [j]) (fun _ => m.withParent pp), s.next⟩ q (Q ++ [j]) := (addr_modify hm _ _).trans hq
  have hm1 : at? (s.root.modify (Q ++ [j]) (fun _ => m.withParent pp)) (Q ++ [j]) = some (m.withParent pp) := at_modify hm _
  have e2 : deref (s.root.modify (Q ++ [j]) (fun _ => m.withParent pp)) q = .ok (m.withParent pp) := deref_ok hw1 hq1 hm1
  have e3 : store (s.root.modify (Q ++ [j]) (fun _ => m.withParent pp)) p (m.withParent pp) = (s.root.modify (Q ++ [j]) (fun _ => m.withParent pp)).modify (P ++ [i]) (fun _ => m.withParent pp) :=
    store_ok hw1 hp1 hn1 _
  obtain ⟨l, r, eb, hb⟩ := blocks_split hn1
  -- the last store
  have ho2' : at? (s.root.modify (Q ++ [j]) (fun _ => m.withParent pp)) Q = some (.branch nm2 p2 a2 b2 c2 (ks2.modify j (fun _ => m.withParent pp))) := at_modify_below ho2 j [] _
  obtain ⟨ks3, h3, h4, h5⟩ := at_parent_apart hap ho2' (fun _ => m.withParent pp)
  have hb2m : b2 ∉ blocks m := child_blocks hw ho2 hk2
  have hcount : (blocks ((s.root.modify (Q ++ [j]) (fun _ => m.withParent pp)).modify (P ++ [i]) (fun _ => m.withParent pp))).count b2 ≤ 1 := by
    rw [hb]
    have h1 := count_le_one hw1.nodup b2
    dsimp only at h1
    rw [eb] at h1
    rw [List.count_append, List.count_append] at h1 ⊢
    rw [withParent_blocks, List.count_eq_zero.2 hb2m]
    omega
  have e4 := store_once (by omega) hcount h3 j (n.withParent qp)
  rw [hq'] at e4
  have hm2 : at? ((s.root.modify (Q ++ [j]) (fun _ => m.withParent pp)).modify (P ++ [i]) (fun _ => m.withParent pp)) (Q ++ [j]) = some (m.withParent pp) := (at_modify_apart hap _).trans hm1
  obtain ⟨l2, r2, eb2, hb3⟩ := blocks_split hm2
  refine ⟨⟨((s.root.modify (Q ++ [j]) (fun _ => m.withParent pp)).modify (P ++ [i]) (fun _ => m.withParent pp)).modify (Q ++ [j]) (fun _ => n.withParent qp), s.next⟩, ?_, ?_, ?_, ?_, ?_⟩
  · rw [swapNodes, deref_ok hw hp hn, except_ok_bind, deref_ok hw hq hm, except_ok_bind, hnp, hmp]
    dsimp only
    rw [deref_ok hw hpp ho1, except_ok_bind, deref_ok hw hqp ho2, except_ok_bind]
    dsimp only
    rw [if_neg (by rw [← hp', ← hq']; simp), e1, e2, except_ok_bind, e3, e4]
  · -- well-formed
    have perm : (blocks (((s.root.modify (Q ++ [j]) (fun _ => m.withParent pp)).modify (P ++ [i]) (fun _ => m.withParent pp)).modify (Q ++ [j]) (fun _ => n.withParent qp))).Perm
        (blocks (s.root.modify (Q ++ [j]) (fun _ => m.withParent pp))) := by
      rw [hb3, eb]
      have h1 := hb (fun _ => m.withParent pp)
      rw [eb2] at h1
      rw [withParent_blocks] at h1 ⊢
      have h2 : (l2 ++ blocks n ++ r2 ++ blocks m).Perm (l ++ blocks n ++ r ++ blocks m) := by
        have c1 : (l2 ++ blocks n ++ r2 ++ blocks m).Perm (l2 ++ blocks m ++ r2 ++ blocks n) := by
          rw [List.perm_iff_count]; intro a; simp only [List.count_append]; omega
        have c2 : (l ++ blocks m ++ r ++ blocks n).Perm (l ++ blocks n ++ r ++ blocks m) := by
          rw [List.perm_iff_count]; intro a; simp only [List.count_append]; omega
        rw [h1] at c1
        exact c1.trans c2
      exact (List.perm_append_right_iff _).1 h2
    exact ⟨perm.nodup_iff.2 hw1.nodup, fun b hb => hw1.bound b (perm.subset hb)⟩
  · -- the tree
    dsimp only
    rw [tree_modify hm2 (fun _ => n.withParent qp) (fun _ => x) (by rw [withParent_tree, hxn]),
      tree_modify hn1 (fun _ => m.withParent pp) (fun _ => y) (by rw [withParent_tree, hym]),
      tree_modify hm (fun _ => m.withParent pp) (fun t => t) (by rw [withParent_tree])]
    rw [Tree.update_id]
  · refine ⟨_, pp, (at_modify_apart hap.symm _).trans (at_modify hn1 _), withParent_parent _ _, ?_⟩
    exact (addr_parent_apart hap.symm _ _).trans ((addr_modify_below _ P [i] _ _).trans ((addr_parent_apart hap.symm _ _).trans hpp))
  · refine ⟨_, qp, at_modify hm2 _, withParent_parent _ _, ?_⟩
    exact (addr_modify_below _ Q [j] _ _).trans ((addr_parent_apart hap _ _).trans ((addr_modify_below _ Q [j] _ _).trans hqp))

theorem blocks_erase_perm {n : Node} {P : List Nat} {i : Nat} {m : Node} (h : at? n (P ++ [i]) = some m) : (blocks n).Perm (blocks m ++ blocks (n.modify P (Node.onKids (·.eraseIdx i)))) := by
  obtain ⟨nm, pp, a, b, c, ks, ho, hk⟩ := at_snoc h
  obtain ⟨l, r, e, hm⟩ := blocks_split ho
  have h1 : ∀ (ks : List Node) (i : Nat), ks[i]? = some m → (blocksL ks).Perm (blocks m ++ blocksL (ks.eraseIdx i)) := by
    intro ks
    induction ks with
    | nil => intro i h; simp at h
    | cons x ks ih =>
      intro i h
      cases i with
      | zero =>
        simp at h
        subst h
        simp [blocksL]
      | succ i =>
        have := ih i (by simpa using h)
        rw [List.eraseIdx_cons_succ, blocksL, blocksL]
        rw [List.perm_iff_count] at this ⊢
        intro y
        have := this y
        simp only [List.count_append] at this ⊢
        omega
  rw [e, hm, Node.onKids, blocks, blocks]
  have := h1 ks i hk
  rw [List.perm_iff_count] at this ⊢
  intro y
  have := this y
  simp only [List.count_append, List.count_cons] at this ⊢
  omega

theorem Apart.cases {P Q : List Nat} {i : Nat} (h : Apart (P ++ [i]) Q) : Apart P Q ∨ ∃ k R, Q = P ++ k :: R ∧ k ≠ i := by
  induction P generalizing Q with
  | nil =>
    cases Q with
    | nil => exact h.elim
    | cons k R =>
      refine .inr ⟨k, R, rfl, ?_⟩
      rintro rfl
      rw [List.nil_append, Apart, if_pos rfl] at h
      cases R <;> exact h.elim
  | cons y P ih =>
    cases Q with
    | nil => exact h.elim
    | cons z Q =>
      rw [List.cons_append, Apart] at h
      by_cases hyz : y = z
      · rw [if_pos hyz] at h
        rcases ih h with h1 | ⟨k, R, h1, h2⟩
        · exact .inl (by rw [Apart, if_pos hyz]; exact h1)
        · exact .inr ⟨k, R, by rw [h1, hyz]; rfl, h2⟩
      · exact .inl (by rw [Apart, if_neg hyz]; trivial)

/-- A node outside of a removed one is still there, and at the same address unless it is a later sibling of it. -/
theorem at_erase {n : Node} {P Q : List Nat} {i : Nat} (h : Apart (P ++ [i]) Q) {m : Node} (hm : at? n Q = some m) : ∃ Q', at? (n.modify P (Node.onKids (·.eraseIdx i))) Q' = some m := by
  rcases h.cases with h | ⟨k, R, rfl, hk⟩
  · exact ⟨Q, by rw [at_modify_apart h, hm]⟩
  · rw [at_append] at hm
    cases hP : at? n P with
    | none => rw [hP] at hm; cases hm
    | some v =>
      rw [hP, Option.bind_some] at hm
      refine ⟨P ++ (if k < i then k else k - 1) :: R, ?_⟩
      rw [at_below (at_modify hP _)]
      cases v with
      | leaf => simp [at?, Node.kids] at hm
      | branch nm pp a b c ks =>
        simp only [at?, Node.kids, Node.onKids] at hm ⊢
        rw [List.getElem?_eraseIdx]
        by_cases hki : k < i
        · rw [if_pos hki, if_pos hki]
          exact hm
        · rw [if_neg hki, if_neg (by omega), show k - 1 + 1 = k by omega]
          exact hm

theorem not_nodup_of_mem {ks : List Node} {i j : Nat} (hij : i < j) {x y : Node} {b : Nat} (h1 : ks[i]? = some x) (h2 : ks[j]? = some y) (hx : b ∈ blocks x) (hy : b ∈ blocks y) : ¬ (blocksL ks).Nodup := by
  induction ks generalizing i j with
  | nil => simp at h1
  | cons k ks ih =>
    intro h
    rw [blocksL] at h
    have hd := List.nodup_append.1 h
    cases j with
    | zero => omega
    | succ j =>
      have h2' : ks[j]? = some y := by simpa using h2
      cases i with
      | zero =>
        have : k = x := by simpa using h1
        obtain ⟨l, r, e, -⟩ := blocksL_split ks j _ h2'
        exact hd.2.2 b (by rw [this]; exact hx) b (by simp [e, hy]) rfl
      | succ i => exact ih (i := i) (j := j) (by omega) (by simpa using h1) h2' hd.2.1

/-- An array belongs to one place. -/
theorem at_inj {n : Node} (hn : (blocks n).Nodup) {p q : List Nat} {b nm1 p1 a1 c1 ks1 nm2 p2 a2 c2 ks2} (hp : at? n p = some (.branch nm1 p1 a1 b c1 ks1)) (hq : at? n q = some (.branch nm2 p2 a2 b c2 ks2)) : p = q := by
  induction p generalizing n q with
  | nil =>
    cases q with
    | nil => rfl
    | cons k q =>
      simp only [at?, Option.some.injEq] at hp
      subst hp
      simp only [at?, Node.kids] at hq
      cases hk : ks1[k]? with
      | none => simp [hk] at hq
      | some y =>
        rw [hk] at hq
        obtain ⟨l, r, e, -⟩ := blocksL_split ks1 k y hk
        rw [blocks, List.nodup_cons] at hn
        exact absurd (by rw [e]; simp [mem_of_at hq]) hn.1
  | cons i p ih =>
    cases n with
    | leaf => simp [at?, Node.kids] at hp
    | branch nm pp a b0 c ks =>
      simp only [at?, Node.kids] at hp
      cases hi : ks[i]? with
      | none => simp [hi] at hp
      | some x =>
        rw [hi] at hp
        dsimp only at hp
        rw [blocks, List.nodup_cons] at hn
        obtain ⟨l, r, e, -⟩ := blocksL_split ks i x hi
        cases q with
        | nil =>
          simp only [at?, Option.some.injEq, Node.branch.injEq] at hq
          obtain ⟨-, -, -, rfl, -, -⟩ := hq
          exact absurd (by rw [e]; simp [mem_of_at hp]) hn.1
        | cons k q =>
          simp only [at?, Node.kids] at hq
          cases hk : ks[k]? with
          | none => simp [hk] at hq
          | some y =>
            rw [hk] at hq
            dsimp only at hq
            rcases Nat.lt_trichotomy i k with h | h | h
            · exact absurd hn.2 (not_nodup_of_mem h hi hk (mem_of_at hp) (mem_of_at hq))
            · subst h
              rw [hi] at hk
              injection hk with hk
              subst hk
              rw [e] at hn
              rw [ih (List.nodup_append.1 (List.nodup_append.1 hn.2).1).2.1 hp hq]
            · exact absurd hn.2 (not_nodup_of_mem h hk hi (mem_of_at hq) (mem_of_at hp))

mutual
/-- Whoever owns an array is in the tree. -/
theorem at_of_owner (b : Nat) : (n : Node) → {o : Node} → owner b n = some o → ∃ path nm p a c ks, o = .branch nm p a b c ks ∧ at? n path = some o
  | .leaf _ _ _, o, h => by rw [owner] at h; cases h
  | .branch nm p a blk cap ks, o, h => by
    rw [owner] at h
    by_cases hb : blk = b
    · rw [if_pos hb] at h
      injection h with h
      subst h
      exact ⟨[], nm, p, a, cap, ks, by rw [hb], rfl⟩
    · rw [if_neg hb] at h
      obtain ⟨i, k, path, nm', p', a', c', ks', hk, ho, hat⟩ := at_of_ownerL b ks h
      refine ⟨i :: path, nm', p', a', c', ks', ho, ?_⟩
      rw [at?, Node.kids, hk]
      exact hat
theorem at_of_ownerL (b : Nat) : (ks : List Node) → {o : Node} → ownerL b ks = some o → ∃ (i : Nat) (k : Node) (path : List Nat) (nm : Option (List Byte)) (p : Option Ptr) (a : Bool) (c : Nat) (ks' : List Node), ks[i]? = some k ∧ o = .branch nm p a b c ks' ∧ at? k path = some o
  | [], o, h => by rw [ownerL] at h; cases h
  | k :: ks, o, h => by
    rw [ownerL] at h
    cases hk : owner b k with
    | some o' =>
      rw [hk, Option.some_or] at h
      injection h with h
      subst h
      obtain ⟨path, nm, p, a, c, ks', ho, hat⟩ := at_of_owner b k hk
      exact ⟨0, k, path, nm, p, a, c, ks', rfl, ho, hat⟩
    | none =>
      rw [hk, Option.none_or] at h
      obtain ⟨i, k', path, nm, p, a, c, ks', hk', ho, hat⟩ := at_of_ownerL b ks h
      exact ⟨i + 1, k', path, nm, p, a, c, ks', by simpa using hk', ho, hat⟩
end

theorem path_of_deref {s : State} {p : Ptr} {m : Node} (h : deref s.root p = .ok m) : ∃ P, at? s.root P = some m ∧ s.PointsTo p P := by
  rw [deref] at h
  by_cases h0 : p.blk = 0
  · rw [if_pos h0] at h
    by_cases h1 : p.idx = 0
    · rw [if_pos h1] at h
      injection h with h
      refine ⟨[], by rw [at?, h], ?_⟩
      rw [State.PointsTo, addr]
      cases p
      simp only at h0 h1
      rw [h0, h1]
    · rw [if_neg h1] at h
      cases h
  · rw [if_neg h0] at h
    cases ho : owner p.blk s.root with
    | none => rw [ho] at h; cases h
    | some o =>
      rw [ho] at h
      dsimp only at h
      obtain ⟨P, nm, pp, a, c, ks, rfl, hat⟩ := at_of_owner _ _ ho
      dsimp only [Node.kids] at h
      cases hk : ks[p.idx]? with
      | none => rw [hk] at h; cases h
      | some k =>
        rw [hk] at h
        injection h with h
        subst h
        refine ⟨P ++ [p.idx], by rw [at_below hat, at?, Node.kids, hk]; rfl, addr_snoc _ hat _ (List.getElem?_eq_some_iff.1 hk).1⟩

/-- Two pointers to the node that owns an array are the same. -/
theorem deref_inj {s : State} (hw : s.Wf) {p q : Ptr} {b nm1 p1 a1 c1 ks1 nm2 p2 a2 c2 ks2} (hp : deref s.root p = .ok (.branch nm1 p1 a1 b c1 ks1)) (hq : deref s.root q = .ok (.branch nm2 p2 a2 b c2 ks2)) : p = q := by
  obtain ⟨P, h1, h2⟩ := path_of_deref hp
  obtain ⟨Q, h3, h4⟩ := path_of_deref hq
  have := at_inj hw.nodup h1 h3
  subst this
  rw [State.PointsTo] at h2 h4
  rw [h2] at h4
  injection h4

theorem apart_irrefl (p : List Nat) : ¬ Apart p p := by
  induction p with
  | nil => exact id
  | cons x p ih =>
    rw [Apart, if_pos rfl]
    exact ih

/-- **C78, moving.** `zpl_adt_move_node_at` on a node that records its parent rightly takes it from its place and puts it at the given index of the new parent, if neither of the two lies in the other
and the new parent is not the old one.  The pointer that is returned points to it.  (If the new parent stands behind the node, or in a node behind it, its path has changed by the removal.)

The node records its new parent; its own children are as they were, recording the old place of the node (`C78_moved_children_lost`). -/
theorem C78_move_partial {s : State} (hw : s.Wf) {p q : Ptr} {P Q : List Nat} {i : Nat} (hp : s.PointsTo p (P ++ [i])) (hq : s.PointsTo q Q) (hl : s.ParentOk P i) (hap : Apart (P ++ [i]) Q)
    {x : Tree} (hx : s.root.tree.sub? (P ++ [i]) = some x) {nm a ts} (ht : s.root.tree.sub? Q = some (.branch nm a ts)) {j : Nat} (hj : j ≤ ts.length) :
    ∃ s' o, moveNodeAt true s p q j = .ok (s', o) ∧ s'.Wf ∧ s'.root.tree = (s.root.tree.update Q (.onKids (·.insertIdx j x))).update P (.onKids (·.eraseIdx i)) ∧
      o ≠ p ∧ ∃ m, deref s.root p = .ok m ∧ m.tree = x ∧ deref s'.root o = .ok (m.withParent q) := by
  obtain ⟨n, pp, hn, hnp, hpp⟩ := hl
  have hxn : n.tree = x := by rw [sub_tree, hn] at hx; simpa using hx
  obtain ⟨nm1, p1, a1, b1, c1, ks1, ho1, hk1⟩ := at_snoc hn
  have hi : i < ks1.length := (List.getElem?_eq_some_iff.1 hk1).1
  have hp' := hp
  rw [State.PointsTo, addr_snoc _ ho1 i hi] at hp'
  injection hp' with hp'
  obtain ⟨q0, bq, cq, ksq, hmq, rfl⟩ := branch_of_tree ht
  rw [List.length_map] at hj
  obtain ⟨b', c', e1, hb⟩ := allocAt_ok (ok := true) hw hq hmq hj (Or.inr rfl)
  have hw1 := wf_alloc hw hmq hj (Node.leaf none (some q) .none) (by rw [blocks]) hb nm q0 a
  have ht1 := tree_modify hmq (fun _ => Node.branch nm q0 a b' c' (ksq.insertIdx j (.leaf none (some q) .none))) (.onKids (·.insertIdx j .blank)) (by
    rw [Node.tree, Node.tree, Tree.onKids, trees_eq, trees_eq, map_insertIdx']; rfl)
  have hnew : at? (s.root.modify Q (fun _ => Node.branch nm q0 a b' c' (ksq.insertIdx j (.leaf none (some q) .none)))) Q =
      some (Node.branch nm q0 a b' c' (ksq.insertIdx j (.leaf none (some q) .none))) := at_modify hmq _
  have hp1 : addr ⟨0, 0⟩ (s.root.modify Q (fun _ => Node.branch nm q0 a b' c' (ksq.insertIdx j (.leaf none (some q) .none)))) (P ++ [i]) = some p := (addr_modify_apart hap.symm _ _).trans hp
  have hn1 : at? (s.root.modify Q (fun _ => Node.branch nm q0 a b' c' (ksq.insertIdx j (.leaf none (some q) .none)))) (P ++ [i]) = some n := (at_modify_apart hap.symm _).trans hn
  have hpp1 : addr ⟨0, 0⟩ (s.root.modify Q (fun _ => Node.branch nm q0 a b' c' (ksq.insertIdx j (.leaf none (some q) .none)))) P = some pp := (addr_parent_apart hap.symm _ _).trans hpp
  obtain ⟨ks1', ho1', hks1, hlen1⟩ := at_parent_apart hap.symm ho1 (fun _ => Node.branch nm q0 a b' c' (ksq.insertIdx j (.leaf none (some q) .none)))
  generalize hs1 : s.root.modify Q (fun _ => Node.branch nm q0 a b' c' (ksq.insertIdx j (.leaf none (some q) .none))) = root1 at *
  generalize hnext : (if ksq.length < cq then s.next else s.next + 1) = next1 at *
  have hjl : j < (ksq.insertIdx j (Node.leaf none (some q) .none)).length := by rw [List.length_insertIdx_of_le_length hj]; omega
  have ho : State.PointsTo ⟨root1, next1⟩ ⟨b', j⟩ (Q ++ [j]) := addr_snoc _ hnew j hjl
  have hblank : at? root1 (Q ++ [j]) = some (.leaf none (some q) .none) := by
    rw [at_below hnew, at?, Node.kids, getElem?_insertIdx' ksq j _ hj, if_neg (by omega), if_pos rfl]
    rfl
  have e2 : store root1 ⟨b', j⟩ (n.withParent q) = root1.modify (Q ++ [j]) (fun _ => n.withParent q) := store_ok hw1 ho hblank _
  have hap2 : Apart (P ++ [i]) (Q ++ [j]) := hap.append _
  -- after the copy
  obtain ⟨l, r, eb, hbm⟩ := blocks_split hblank
  have eb2 := hbm (fun _ => n.withParent q)
  obtain ⟨ks2, ho2, hks2, hlen2⟩ := at_parent_apart hap2.symm ho1' (fun _ => n.withParent q)
  have hn2 : at? (root1.modify (Q ++ [j]) (fun _ => n.withParent q)) (P ++ [i]) = some n := (at_modify_apart hap2.symm _).trans hn1
  have hpp2 : addr ⟨0, 0⟩ (root1.modify (Q ++ [j]) (fun _ => n.withParent q)) P = some pp := (addr_parent_apart hap2.symm _ _).trans hpp1
  have hk2 : ks2[i]? = some n := by rw [hks2, hks1, hk1]
  have hcount : ∀ b, b ∉ blocks n → (blocks (root1.modify (Q ++ [j]) (fun _ => n.withParent q))).count b ≤ 1 := by
    intro b hbn
    have h1 := count_le_one hw1.nodup b
    dsimp only at h1
    rw [eb] at h1
    rw [eb2, withParent_blocks]
    rw [List.count_append, List.count_append] at h1 ⊢
    rw [List.count_eq_zero.2 hbn]
    omega
  have hk1' : ks1'[i]? = some n := by rw [hks1, hk1]
  have hb1 := hw1.bound b1 (mem_of_at ho1')
  have hb1n : b1 ∉ blocks n := child_blocks hw1 ho1' hk1'
  have e3 : deref (root1.modify (Q ++ [j]) (fun _ => n.withParent q)) p = .ok n := by
    rw [← hp']
    exact deref_once (by omega) (hcount b1 hb1n) ho2 hk2
  have e4 : deref (root1.modify (Q ++ [j]) (fun _ => n.withParent q)) pp = .ok (.branch nm1 p1 a1 b1 c1 ks2) := by
    rcases exists_snoc P with rfl | ⟨R, k, rfl⟩
    · simp only [addr, Option.some.injEq] at hpp2
      simp only [at?, Option.some.injEq] at ho2
      rw [← hpp2, ← ho2]
      rfl
    · obtain ⟨nm3, p3, a3, b3, c3, ks3, ho3, hk3⟩ := at_snoc ho2
      have hk : k < ks3.length := (List.getElem?_eq_some_iff.1 hk3).1
      rw [addr_snoc _ ho3 k hk] at hpp2
      injection hpp2 with hpp2
      obtain ⟨nm4, p4, a4, b4, c4, ks4, ho4, hk4⟩ := at_snoc ho1'
      have hap3 : Apart (Q ++ [j]) (R ++ [k] ++ [i]) := hap2.symm
      have hb34 : b3 = b4 := by
        obtain ⟨ks5, h5⟩ : ∃ ks5, at? (root1.modify (Q ++ [j]) (fun _ => n.withParent q)) R = some (.branch nm4 p4 a4 b4 c4 ks5) := by
          have : ∀ (R : List Nat) (r M : List Nat) (root : Node), Apart M (R ++ r) → r ≠ [] → at? root R = some (.branch nm4 p4 a4 b4 c4 ks4) →
              ∃ ks5, at? (root.modify M (fun _ => n.withParent q)) R = some (.branch nm4 p4 a4 b4 c4 ks5) := by
            intro R
            induction R with
            | nil =>
              intro r M root h1 h2 h3
              cases M with
              | nil => cases r <;> exact h1.elim
              | cons y M =>
                simp only [at?, Option.some.injEq] at h3
                subst h3
                exact ⟨_, by rw [Node.modify, at?]⟩
            | cons z R ih =>
              intro r M root h1 h2 h3
              cases M with
              | nil => exact h1.elim
              | cons y M =>
                cases root with
                | leaf => simp [at?, Node.kids] at h3
                | branch nm' pp' a' b' c' ks' =>
                  simp only [at?, Node.kids] at h3
                  cases hkz : ks'[z]? with
                  | none => simp [hkz] at h3
                  | some v =>
                    rw [hkz] at h3
                    rw [List.cons_append, Apart] at h1
                    simp only [Node.modify, at?, Node.kids, List.getElem?_modify, hkz]
                    by_cases hyz : y = z
                    · rw [if_pos hyz] at h1
                      obtain ⟨ks5, h5⟩ := ih r M v h1 h2 h3
                      exact ⟨ks5, by simpa [hyz] using h5⟩
                    · exact ⟨ks4, by simpa [hyz] using h3⟩
          exact this R ([k] ++ [i]) (Q ++ [j]) root1 (by rw [← List.append_assoc]; exact hap3) (by simp) ho4
        rw [ho3] at h5
        injection h5 with h5
        injection h5
      subst hb34
      have hb3 := hw1.bound b3 (mem_of_at ho4)
      have hb3n : b3 ∉ blocks n := by
        have hbig : b3 ∉ blocks (Node.branch nm1 p1 a1 b1 c1 ks1') := child_blocks hw1 ho4 hk4
        obtain ⟨l', r', e', -⟩ := blocksL_split ks1' i n hk1'
        intro hin
        exact hbig (by rw [blocks, e']; simp [hin])
      rw [← hpp2]
      exact deref_once (by omega) (hcount b3 hb3n) ho3 hk3
  have e5 : removeNode ⟨root1.modify (Q ++ [j]) (fun _ => n.withParent q), next1⟩ p = .ok ⟨(root1.modify (Q ++ [j]) (fun _ => n.withParent q)).modify P (Node.onKids (·.eraseIdx i)), next1⟩ := by
    rw [removeNode]
    dsimp only
    rw [e3, except_ok_bind, hnp]
    dsimp only
    rw [e4, except_ok_bind]
    dsimp only
    have hlt : i < ks2.length := (List.getElem?_eq_some_iff.1 hk2).1
    rw [← hp', if_neg (by simp), if_neg (by simp; omega), onOwner_once (hcount b1 hb1n) ho2]
  have perm : (blocks ((root1.modify (Q ++ [j]) (fun _ => n.withParent q)).modify P (Node.onKids (·.eraseIdx i)))).Perm (blocks root1) := by
    have h1 := blocks_erase_perm hn2
    rw [eb2, withParent_blocks] at h1
    rw [eb, blocks]
    rw [List.perm_iff_count] at h1 ⊢
    intro y
    have := h1 y
    simp only [List.count_append, List.count_nil] at this ⊢
    omega
  have hw3 : State.Wf ⟨(root1.modify (Q ++ [j]) (fun _ => n.withParent q)).modify P (Node.onKids (·.eraseIdx i)), next1⟩ :=
    ⟨perm.nodup_iff.2 hw1.nodup, fun b hb => hw1.bound b (perm.subset hb)⟩
  refine ⟨_, ⟨b', j⟩, ?_, hw3, ?_, ?_⟩
  · rw [moveNodeAt, deref_ok hw hp hn, except_ok_bind, e1, except_ok_bind]
    dsimp only
    rw [deref_ok hw1 hp1 hn1, except_ok_bind, e2, hnp]
    dsimp only
    rw [e5, except_ok_bind]
  · dsimp only
    rw [tree_modify ho2 _ (.onKids (·.eraseIdx i)) (by rw [Node.onKids, Node.tree, Node.tree, Tree.onKids, trees_eq, trees_eq, map_eraseIdx']),
      tree_modify hblank (fun _ => n.withParent q) (fun _ => x) (by rw [withParent_tree, hxn]), ht1, Tree.update_append, Tree.update_update]
    congr 1
    refine Tree.update_congr ht ?_
    simp only [Tree.onKids, Tree.update]
    congr 1
    apply List.ext_getElem?
    intro k
    rw [List.getElem?_modify, List.getElem?_insertIdx, List.getElem?_insertIdx]
    by_cases h1 : k < j
    · simp [h1, show ¬ j = k by omega]
    · by_cases h2 : k = j
      · subst h2
        simp
      · simp [h1, h2, show ¬ j = k by omega]
  · have hnew2 : at? (root1.modify (Q ++ [j]) (fun _ => n.withParent q)) Q =
        some (Node.branch nm q0 a b' c' ((ksq.insertIdx j (Node.leaf none (some q) .none)).modify j (fun _ => n.withParent q))) := at_modify_below hnew j [] _
    obtain ⟨Q', h1⟩ := at_erase hap hnew2
    have hb' := hw3.bound b' (mem_of_at h1)
    refine ⟨?_, n, deref_ok hw hp hn, hxn, deref_once (i := j) (by omega) (count_le_one hw3.nodup _) h1 ?_⟩
    · intro h
      rw [← hp'] at h
      injection h with h _
      subst h
      have := at_inj hw1.nodup hnew ho1'
      subst this
      rcases hap.cases with h | ⟨k, R, h, -⟩
      · exact apart_irrefl _ h
      · exact absurd (congrArg List.length h) (by simp)
    rw [List.getElem?_modify, List.getElem?_eq_getElem hjl]
    simp

/-- **C78, moving to the end.** `zpl_adt_move_node` makes the node the last child of the new parent. -/
theorem C78_move_last_partial {s : State} (hw : s.Wf) {p q : Ptr} {P Q : List Nat} {i : Nat} (hp : s.PointsTo p (P ++ [i])) (hq : s.PointsTo q Q) (hl : s.ParentOk P i) (hap : Apart (P ++ [i]) Q)
    {x : Tree} (hx : s.root.tree.sub? (P ++ [i]) = some x) {nm a ts} (ht : s.root.tree.sub? Q = some (.branch nm a ts)) :
    ∃ s' o, moveNode true s p q = .ok (s', o) ∧ s'.Wf ∧ s'.root.tree = (s.root.tree.update Q (.onKids (· ++ [x]))).update P (.onKids (·.eraseIdx i)) ∧
      o ≠ p ∧ ∃ m, deref s.root p = .ok m ∧ m.tree = x ∧ deref s'.root o = .ok (m.withParent q) := by
  obtain ⟨s', o, e, h1, h2, h3⟩ := C78_move_partial hw hp hq hl hap hx ht (Nat.le_refl _)
  obtain ⟨q0, bq, cq, ksq, hmq, rfl⟩ := branch_of_tree ht
  refine ⟨s', o, ?_, h1, ?_, h3⟩
  · rw [List.length_map] at e
    rw [moveNode, deref_ok hw hq hmq, except_ok_bind]
    exact e
  · rw [h2]
    congr 1
    refine Tree.update_congr ht ?_
    simp only [Tree.onKids]
    congr 1
    have := modify_at_length (ksq.map Node.tree) x x
    rw [← this]
    apply List.ext_getElem?
    intro k
    rw [List.getElem?_modify, List.getElem?_insertIdx]
    by_cases h1 : k < (ksq.map Node.tree).length
    · simp only [h1, if_true, show ¬ (ksq.map Node.tree).length = k by omega, if_false]
      simp
    · by_cases h2 : k = (ksq.map Node.tree).length
      · subst h2
        simp
      · simp only [h1, h2, if_false, show ¬ (ksq.map Node.tree).length = k by omega]
        simp

theorem insert_set {α} (ks : List α) (j : Nat) (x y : α) (hj : j ≤ ks.length) : (ks.insertIdx j x).set j y = ks.insertIdx j y := by
  induction ks generalizing j with
  | nil => cases j with
    | zero => rfl
    | succ j => simp at hj
  | cons k ks ih => cases j with
    | zero => rfl
    | succ j => simp only [List.insertIdx_succ_cons, List.set_cons_succ]; rw [ih j (by simp at hj; omega)]

theorem blocksL_insert_count (ks : List Node) (j : Nat) (x : Node) (hj : j ≤ ks.length) (b : Nat) : (blocksL (ks.insertIdx j x)).count b = (blocksL ks).count b + (blocks x).count b := by
  induction ks generalizing j with
  | nil => cases j with
    | zero => simp [blocksL]
    | succ j => simp at hj
  | cons k ks ih => cases j with
    | zero => simp [blocksL]; omega
    | succ j => simp only [List.insertIdx_succ_cons, blocksL, List.count_append]; rw [ih j (by simp at hj; omega)]; omega

/-- Moving a child within its parent's array when there is room: what the function does. -/
theorem move_within {s : State} (hw : s.Wf) {p q : Ptr} {P : List Nat} {i : Nat} (hp : s.PointsTo p (P ++ [i])) (hq : s.PointsTo q P) {nm p1 a b c ks}
    (ho : at? s.root P = some (.branch nm p1 a b c ks)) (hall : ∀ k ∈ ks, k.parent = some q) (hroom : ks.length < c) {j : Nat} (hj : j ≤ ks.length) {v : Node}
    (hv : (ks.insertIdx j (.leaf none (some q) .none))[i]? = some v) :
    moveNodeAt true s p q j = .ok (⟨s.root.modify P (fun _ => .branch nm p1 a b c ((ks.insertIdx j (v.withParent q)).eraseIdx i)), s.next⟩, ⟨b, j⟩) := by
  obtain ⟨n, hn⟩ := at_of_addr hp
  have hk : ks[i]? = some n := by
    rw [at_below ho, at?, Node.kids] at hn
    cases h : ks[i]? with
    | none => rw [h] at hn; cases hn
    | some k => rw [h] at hn; exact hn
  have hi : i < ks.length := (List.getElem?_eq_some_iff.1 hk).1
  have hp' := hp
  rw [State.PointsTo, addr_snoc _ ho i hi] at hp'
  injection hp' with hp'
  subst hp'
  have hb := hw.bound b (mem_of_at ho)
  have hnp : n.parent = some q := hall n (List.mem_of_getElem? hk)
  obtain ⟨b', c', e1, hbc⟩ := allocAt_ok (ok := true) hw hq ho hj (Or.inr rfl)
  have hw1 := wf_alloc hw ho hj (Node.leaf none (some q) .none) (by rw [blocks]) hbc nm p1 a
  rw [if_pos hroom] at hbc e1 hw1
  injection hbc with h1 h2
  subst h1 h2
  have hnew := at_modify ho (fun _ => Node.branch nm p1 a b' c' (ks.insertIdx j (.leaf none (some q) .none)))
  have hlen : (ks.insertIdx j (Node.leaf none (some q) .none)).length = ks.length + 1 := by rw [List.length_insertIdx_of_le_length hj]
  have hvc : v = .leaf none (some q) .none ∨ v ∈ ks := by
    rw [getElem?_insertIdx' ks j _ hj] at hv
    split at hv
    · exact Or.inr (List.mem_of_getElem? hv)
    · split at hv
      · injection hv with hv
        exact Or.inl hv.symm
      · exact Or.inr (List.mem_of_getElem? hv)
  have hvp : v.parent = some q := by
    rcases hvc with rfl | h
    · rfl
    · exact hall v h
  have hvb : ∀ x, x ∉ blocksL ks → x ∉ blocks v := by
    intro x hx
    rcases hvc with rfl | h
    · simp [blocks]
    · obtain ⟨k, hk⟩ := List.mem_iff_getElem?.1 h
      obtain ⟨l', r', e', -⟩ := blocksL_split ks k v hk
      intro hin
      exact hx (by rw [e']; simp [hin])
  have e2 := store_once (by omega) (count_le_one hw1.nodup b') hnew j (v.withParent q)
  rw [modify_append, modify_modify] at e2
  simp only [Node.modify] at e2
  rw [← set_eq_modify, insert_set _ _ _ _ hj] at e2
  obtain ⟨l, r, eb, eb2⟩ := blocks_split ho
  have hcount : ∀ x, x ∉ blocksL ks → (blocks (s.root.modify P (fun _ => Node.branch nm p1 a b' c' (ks.insertIdx j (v.withParent q))))).count x ≤ 1 := by
    intro x hx
    have h1 := count_le_one hw.nodup x
    rw [eb] at h1
    rw [eb2]
    simp only [List.count_append, blocks, List.count_cons, blocksL_insert_count _ _ _ hj, withParent_blocks, List.count_eq_zero.2 (hvb x hx)] at h1 ⊢
    omega
  have hbks : b' ∉ blocksL ks := by
    have := hw.nodup
    rw [eb] at this
    have := (List.nodup_append.1 (List.nodup_append.1 this).1).2.1
    rw [blocks, List.nodup_cons] at this
    exact this.1
  have ho2 := at_modify ho (fun _ => Node.branch nm p1 a b' c' (ks.insertIdx j (v.withParent q)))
  obtain ⟨w, hk2, hwp⟩ : ∃ w, (ks.insertIdx j (v.withParent q))[i]? = some w ∧ w.parent = some q := by
    rw [getElem?_insertIdx' ks j _ hj] at hv ⊢
    split
    · rename_i h
      rw [if_pos h] at hv
      exact ⟨v, hv, hvp⟩
    · rename_i h
      rw [if_neg h] at hv
      split
      · exact ⟨_, rfl, withParent_parent q v⟩
      · rename_i h2
        rw [if_neg h2] at hv
        exact ⟨v, hv, hvp⟩
  have e3 := deref_once (by omega) (hcount b' hbks) ho2 hk2
  have hq2 := (addr_modify ho (fun _ => Node.branch nm p1 a b' c' (ks.insertIdx j (v.withParent q))) ⟨0, 0⟩).trans hq
  have e4 : deref (s.root.modify P (fun _ => Node.branch nm p1 a b' c' (ks.insertIdx j (v.withParent q)))) q = .ok (.branch nm p1 a b' c' (ks.insertIdx j (v.withParent q))) := by
    rcases exists_snoc P with rfl | ⟨R, k, rfl⟩
    · simp only [addr, Option.some.injEq] at hq2
      rw [← hq2]
      rfl
    · obtain ⟨nm3, p3, a3, b3, c3, ks3, ho3, hk3⟩ := at_snoc ho
      have hk : k < ks3.length := (List.getElem?_eq_some_iff.1 hk3).1
      have hq' := hq
      rw [State.PointsTo, addr_snoc _ ho3 k hk] at hq'
      injection hq' with hq'
      subst hq'
      have hbig := child_blocks hw ho3 hk3
      rw [blocks, List.mem_cons, not_or] at hbig
      have h4 := at_modify_below ho3 k [] (fun _ => Node.branch nm p1 a b' c' (ks.insertIdx j (v.withParent ⟨b3, k⟩)))
      have hb3 := hw.bound b3 (mem_of_at ho3)
      refine deref_once (by omega) (hcount b3 hbig.2) h4 ?_
      rw [List.getElem?_modify, hk3]
      simp [Node.modify]
  rw [moveNodeAt, deref_ok hw hp hn, except_ok_bind, e1, except_ok_bind]
  dsimp only
  have hv1 : deref (s.root.modify P (fun _ => Node.branch nm p1 a b' c' (ks.insertIdx j (.leaf none (some q) .none)))) ⟨b', i⟩ = .ok v :=
    deref_once (by omega) (count_le_one hw1.nodup b') hnew hv
  rw [hv1, except_ok_bind, e2, hnp]
  dsimp only
  rw [removeNode]
  dsimp only
  rw [e3, except_ok_bind, hwp]
  dsimp only
  rw [e4, except_ok_bind]
  dsimp only
  have hlt : i < (ks.insertIdx j (v.withParent q)).length := (List.getElem?_eq_some_iff.1 hk2).1
  rw [if_neg (by simp), if_neg (by omega), onOwner_once (hcount b' hbks) ho2, modify_modify]
  rfl

theorem move_within_le {ks : List Node} {i j : Nat} (hij : i < j) (hj : j ≤ ks.length) {n : Node} (hn : ks[i]? = some n) (x : Node) : (ks.insertIdx j x)[i]? = some n := by
  rw [getElem?_insertIdx' _ _ _ hj, if_pos hij, hn]

/-- **C78 fails within one parent: the returned pointer.** Moving a child to a later place of the same object or array (whose array has room): the child does end up
just before the sibling that was at the given index, but the pointer returned is not to the moved child: it is to that sibling, or outside the array if there is
none.  So `zpl_adt_move_node` of a child to the end of its own parent always returns a pointer to a node that does not exist. -/
theorem C78_within_later {s : State} (hw : s.Wf) {p q : Ptr} {P : List Nat} {i : Nat} (hp : s.PointsTo p (P ++ [i])) (hq : s.PointsTo q P) {nm p1 a b c ks}
    (ho : at? s.root P = some (.branch nm p1 a b c ks)) (hall : ∀ k ∈ ks, k.parent = some q) (hroom : ks.length < c) {j : Nat} (hij : i < j) (hj : j ≤ ks.length) {n : Node} (hn : ks[i]? = some n) :
    ∃ s' o, moveNodeAt true s p q j = .ok (s', o) ∧ s'.root.tree = s.root.tree.update P (.onKids (fun ts => (ts.insertIdx j n.tree).eraseIdx i)) ∧
      deref s'.root o = match ks[j]? with | some k => .ok k | none => .error .ub := by
  refine ⟨_, _, move_within hw hp hq ho hall hroom hj (move_within_le hij hj hn _), ?_, ?_⟩
  · refine tree_modify ho _ _ ?_
    rw [Node.tree, Node.tree, Tree.onKids, trees_eq, trees_eq, map_eraseIdx', map_insertIdx', withParent_tree]
  · have hbn := child_blocks hw ho hn
    have hb := hw.bound b (mem_of_at ho)
    obtain ⟨l, r, eb, eb2⟩ := blocks_split ho
    have h1 := count_le_one hw.nodup b
    rw [eb] at h1
    have hc : (blocks (s.root.modify P (fun _ => Node.branch nm p1 a b c ((ks.insertIdx j (n.withParent q)).eraseIdx i)))).count b ≤ 1 := by
      rw [eb2]
      have h2 := (blocksL_erase (ks.insertIdx j (n.withParent q)) i).count_le b
      rw [blocksL_insert_count _ _ _ hj, withParent_blocks, List.count_eq_zero.2 hbn] at h2
      simp only [List.count_append, blocks, List.count_cons_self] at h1 ⊢
      omega
    rw [deref, if_neg (by dsimp only; omega)]
    dsimp only
    rw [owner_once hc (at_modify ho _)]
    dsimp only [Node.kids]
    rw [List.getElem?_eraseIdx, if_neg (by omega), getElem?_insertIdx' _ _ _ hj, if_neg (by omega), if_neg (by omega), Nat.add_sub_cancel]
    cases ks[j]? <;> rfl

/-- **C78 fails within one parent: the wrong node.** Moving a child to an earlier place of the same object or array (whose array has room) moves its left neighbour
instead, because the insertion has shifted the children before the child is read through the pointer given. -/
theorem C78_within_earlier {s : State} (hw : s.Wf) {p q : Ptr} {P : List Nat} {i : Nat} (hp : s.PointsTo p (P ++ [i + 1])) (hq : s.PointsTo q P) {nm p1 a b c ks}
    (ho : at? s.root P = some (.branch nm p1 a b c ks)) (hall : ∀ k ∈ ks, k.parent = some q) (hroom : ks.length < c) {j : Nat} (hij : j ≤ i) {n : Node} (hn : ks[i]? = some n) :
    ∃ s' o, moveNodeAt true s p q j = .ok (s', o) ∧ s'.root.tree = s.root.tree.update P (.onKids (fun ts => (ts.insertIdx j n.tree).eraseIdx (i + 1))) := by
  have hi : i < ks.length := (List.getElem?_eq_some_iff.1 hn).1
  refine ⟨_, _, move_within hw hp hq ho hall hroom (v := n) (by omega) ?_, ?_⟩
  · rw [getElem?_insertIdx' _ _ _ (by omega), if_neg (by omega), if_neg (by omega)]
    exact hn
  · refine tree_modify ho _ _ ?_
    rw [Node.tree, Node.tree, Tree.onKids, trees_eq, trees_eq, map_eraseIdx', map_insertIdx', withParent_tree]

/-- **C78 fails within one parent: a full array.** If the array has no room, it is reallocated before the node is read: the pointer given is used after its block was
freed. -/
theorem C78_within_full {s : State} (hw : s.Wf) {p q : Ptr} {P : List Nat} {i : Nat} (hp : s.PointsTo p (P ++ [i])) (hq : s.PointsTo q P) {nm p1 a b c ks}
    (ho : at? s.root P = some (.branch nm p1 a b c ks)) (hroom : ¬ ks.length < c) {j : Nat} (hj : j ≤ ks.length) : moveNodeAt true s p q j = .error .ub := by
  obtain ⟨n, hn⟩ := at_of_addr hp
  obtain ⟨_, _, _, _, _, _, ho', hk⟩ := at_snoc hn
  rw [ho] at ho'
  simp only [Option.some.injEq, Node.branch.injEq] at ho'
  obtain ⟨rfl, rfl, rfl, rfl, rfl, rfl⟩ := ho'
  have hi : i < ks.length := (List.getElem?_eq_some_iff.1 hk).1
  have hp' := hp
  rw [State.PointsTo, addr_snoc _ ho i hi] at hp'
  injection hp' with hp'
  obtain ⟨b', c', e1, hbc⟩ := allocAt_ok (ok := true) hw hq ho hj (Or.inr rfl)
  rw [if_neg hroom] at hbc
  injection hbc with h1 h2
  subst h1 h2
  have hb := hw.bound b (mem_of_at ho)
  rw [moveNodeAt, deref_ok hw hp hn, except_ok_bind, e1, except_ok_bind]
  dsimp only
  rw [deref, ← hp', if_neg (by dsimp only; omega), owner_absent]
  · rfl
  · obtain ⟨l1, r1, e1, hf⟩ := blocks_split ho
    have hnd := hw.nodup
    rw [e1] at hnd
    rw [hf, blocks, blocksL_insert ks j _ (by rw [blocks]) hj]
    rw [blocks] at hnd
    have h1 := List.nodup_append.1 hnd
    have h2 := List.nodup_append.1 h1.1
    have h3 := List.nodup_cons.1 h2.2.1
    simp only [List.mem_append, List.mem_cons, not_or]
    exact ⟨⟨fun h => h2.2.2 b h b (by simp) rfl, by omega, h3.1⟩, fun h => h1.2.2 b (by simp) b h rfl⟩

/-- **C62, setting keeps the links.** Setting a node to a value leaves what every node records as its parent as it was, right if it was right. -/
theorem C62_set_leaf_links {s : State} (hw : s.Wf) (hl : s.Linked) {p : Ptr} {path : List Nat} (hp : s.PointsTo p path) (name : Option (List Byte)) (v : Value) :
    ∃ s', setLeaf s p name v = .ok s' ∧ s'.Linked := by
  obtain ⟨m, hm⟩ := at_of_addr hp
  refine ⟨_, by rw [setLeaf, deref_ok hw hp hm, except_ok_bind], ?_⟩
  rw [State.Linked]
  dsimp only
  rw [store_ok hw hp hm]
  exact links_modify hl hm hp _ (by rw [Links]; trivial) rfl

/-- The same for making a node an empty object or array. -/
theorem C62_set_branch_links {s : State} (hw : s.Wf) (hl : s.Linked) {p : Ptr} {path : List Nat} (hp : s.PointsTo p path) (ok : Bool) (name : Option (List Byte)) (isArr : Bool) :
    ∃ s', setBranch ok s p name isArr = .ok (s', ok) ∧ s'.Linked := by
  obtain ⟨m, hm⟩ := at_of_addr hp
  cases ok with
  | true =>
    refine ⟨_, by rw [setBranch, deref_ok hw hp hm, except_ok_bind, if_pos rfl], ?_⟩
    rw [State.Linked]
    dsimp only
    rw [store_ok hw hp hm]
    exact links_modify hl hm hp _ (links_childless _ ⟨0, 0⟩ _ rfl) rfl
  | false =>
    refine ⟨_, by rw [setBranch, deref_ok hw hp hm, except_ok_bind, if_neg (by simp)], ?_⟩
    rw [State.Linked]
    dsimp only
    rw [store_ok hw hp hm]
    exact links_modify hl hm hp _ (by rw [Links]; trivial) rfl

/-- **C62, a branch that cannot be allocated.** If there is no memory for the array of the new node, `zpl_adt_append_obj`, `_arr` return NULL and the tree has the same
nodes as before. -/
theorem C62_append_branch_refused {s : State} (hw : s.Wf) {p : Ptr} {path : List Nat} (hp : s.PointsTo p path) {nm a ts} (ht : s.root.tree.sub? path = some (.branch nm a ts))
    (ok : Bool) (name : Option (List Byte)) (isArr : Bool) :
    ∃ s', appendBranch ok false s p name isArr = .ok (s', none) ∧ s'.Wf ∧ s'.root.tree = s.root.tree := by
  obtain ⟨pp, b, c, ks, hm, rfl⟩ := branch_of_tree ht
  by_cases hr : ks.length < c ∨ ok = true
  · obtain ⟨b', c', e1, hbc⟩ := allocAt_ok hw hp hm (Nat.le_refl _) hr
    have hw1 := wf_alloc hw hm (Nat.le_refl _) (Node.leaf none (some p) .none) (by rw [blocks]) hbc nm pp a
    generalize hnext : (if ks.length < c then s.next else s.next + 1) = next1 at e1 hw1
    generalize hroot : s.root.modify path (fun _ => Node.branch nm pp a b' c' (ks.insertIdx ks.length (Node.leaf none (some p) .none))) = root1 at e1 hw1
    have hm1 : at? root1 path = some (Node.branch nm pp a b' c' (ks.insertIdx ks.length (Node.leaf none (some p) .none))) := by rw [← hroot]; exact at_modify hm _
    have hp1 : State.PointsTo ⟨root1, next1⟩ p path := by rw [State.PointsTo]; dsimp only; rw [← hroot]; exact (addr_modify hm _ _).trans hp
    have hk1 : (ks.insertIdx ks.length (Node.leaf none (some p) .none))[ks.length]? = some (Node.leaf none (some p) .none) := by simp
    have hn1 : at? root1 (path ++ [ks.length]) = some (Node.leaf none (some p) .none) := by rw [at_below hm1, at?, Node.kids, hk1]; rfl
    have ho1 : State.PointsTo ⟨root1, next1⟩ ⟨b', ks.length⟩ (path ++ [ks.length]) := addr_snoc _ hm1 _ (by simp [List.length_insertIdx_of_le_length])
    obtain ⟨s2, e2, hw2, ho2, ht2⟩ := C62_set_leaf hw1 ho1 name .none
    rw [setLeaf, deref_ok hw1 ho1 hn1, except_ok_bind] at e2
    injection e2 with e2
    have hroot2 : s2.root = root1.modify (path ++ [ks.length]) (fun _ => .leaf name (some p) .none) := by rw [← e2]; dsimp only; rw [store_ok hw1 ho1 hn1]; rfl
    have hn2 : at? s2.root (path ++ [ks.length]) = some (.leaf name (some p) .none) := by rw [hroot2]; exact at_modify hn1 _
    have hp2 : s2.PointsTo p path := by rw [State.PointsTo, hroot2, addr_modify_below]; exact hp1
    obtain ⟨s3, e3, hw3, ht3⟩ := C62_remove_partial hw2 ho2 ⟨_, p, hn2, rfl, hp2⟩
    refine ⟨s3, ?_, hw3, ?_⟩
    · rw [appendBranch, alloc_eq hw hp hm, e1, except_ok_bind]
      dsimp only
      rw [setBranch, deref_ok hw1 ho1 hn1, except_ok_bind, if_neg (by simp), except_ok_bind]
      dsimp only
      rw [e2, e3, except_ok_bind]
    · have ht1 : root1.tree = s.root.tree.update path (.onKids (fun ts => ts.insertIdx ks.length Tree.blank)) := by
        rw [← hroot]
        refine tree_modify hm _ _ ?_
        rw [Node.tree, Node.tree, Tree.onKids, trees_eq, trees_eq, map_insertIdx']
        rfl
      rw [ht3, ht2]
      dsimp only
      rw [ht1, Tree.update_append, Tree.update_update, Tree.update_update]
      conv => rhs; rw [← Tree.update_id s.root.tree path]
      refine Tree.update_congr ht ?_
      simp only [Tree.onKids, Tree.update]
      congr 1
      apply List.ext_getElem?
      intro k
      have hl : (List.map Node.tree ks).length = ks.length := by simp
      rw [← hl, modify_at_length, List.eraseIdx_append_of_length_le (Nat.le_refl _)]
      simp
  · refine ⟨s, ?_, hw, rfl⟩
    have h1 : ¬ ks.length < c := fun h => hr (Or.inl h)
    have h2 : ok = false := by
      cases ok with
      | false => rfl
      | true => exact absurd (Or.inr rfl) hr
    subst h2
    rw [appendBranch, alloc_eq hw hp hm, allocAt, deref_ok hw hp hm, except_ok_bind]
    dsimp only
    rw [if_neg (by omega), if_neg h1, if_neg (by simp), except_ok_bind]

/-- **C78: the children of a moved node are lost.** In a tree in which all recorded parents are right, an object or array is moved (to a parent with which it has
nothing to do).  Its children still record its old place; removing one of them is undefined, because what is there now, if anything, is not their parent. -/
theorem C78_moved_children_lost {s : State} (hw : s.Wf) (hl : s.Linked) {p q : Ptr} {P Q : List Nat} {i : Nat} (hp : s.PointsTo p (P ++ [i])) (hq : s.PointsTo q Q) (hap : Apart (P ++ [i]) Q)
    {nm0 p0 a0 b0 c0 ks0} (hn : at? s.root (P ++ [i]) = some (.branch nm0 p0 a0 b0 c0 ks0)) {nm a ts} (ht : s.root.tree.sub? Q = some (.branch nm a ts)) {j : Nat} (hj : j ≤ ts.length)
    {l : Nat} (hk : l < ks0.length) :
    ∃ s' o, moveNodeAt true s p q j = .ok (s', o) ∧ removeNode s' ⟨b0, l⟩ = .error .ub := by
  obtain ⟨s', o, e, hw', -, hne, m, hdm, -, hd⟩ := C78_move_partial hw hp hq (Linked.parentOk hl hn) hap (x := (Node.branch nm0 p0 a0 b0 c0 ks0).tree) (by rw [sub_tree, hn]; rfl) ht hj
  refine ⟨s', o, e, ?_⟩
  rw [deref_ok hw hp hn] at hdm
  injection hdm with hdm
  subst hdm
  rw [Node.withParent] at hd
  obtain ⟨O, ho, hop⟩ := path_of_deref hd
  have hb := hw'.bound b0 (mem_of_at ho)
  obtain ⟨k, hk'⟩ : ∃ k, ks0[l]? = some k := ⟨_, List.getElem?_eq_getElem hk⟩
  have hpar : k.parent = some p := by
    have := links_at hl hn hp
    rw [links_branch] at this
    exact (this l k hk').1
  rw [removeNode, deref_once (by omega) (count_le_one hw'.nodup _) ho hk', except_ok_bind, hpar]
  dsimp only
  cases hz : deref s'.root p with
  | error f =>
    rw [deref] at hz
    have : f = .ub := by
      split at hz
      · split at hz
        · cases hz
        · injection hz with hz; exact hz.symm
      · split at hz
        · split at hz
          · cases hz
          · injection hz with hz; exact hz.symm
        · injection hz with hz; exact hz.symm
    rw [this]
    rfl
  | ok z =>
    rw [except_ok_bind]
    cases z with
    | leaf => rfl
    | branch nm1 p1 a1 b1 c1 ks1 =>
      dsimp only
      rw [if_pos]
      rintro rfl
      exact hne (deref_inj hw' hd hz)

/-! ## The theorems are not vacuous -/

/-- `a` and `l` are exchanged. -/
example : State.ParentOk ⟨sampleRoot, 4⟩ [] 0 ∧ State.ParentOk ⟨sampleRoot, 4⟩ [] 1 ∧ Apart [0] [1] ∧
    swapNodes ⟨sampleRoot, 4⟩ ⟨1, 0⟩ ⟨1, 1⟩ = .ok ⟨.branch none none false 1 8
      [.branch (some [0x6c#8]) (some ⟨0, 0⟩) true 3 8 [.leaf none (some ⟨1, 1⟩) (.int 1), .leaf none (some ⟨1, 1⟩) (.str false (some [0x79#8]))],
       .branch (some [0x61#8]) (some ⟨0, 0⟩) false 2 8 [.leaf (some [0x78#8]) (some ⟨1, 0⟩) (.int 7)]], 4⟩ :=
  ⟨⟨_, ⟨0, 0⟩, rfl, rfl, rfl⟩, ⟨_, ⟨0, 0⟩, rfl, rfl, rfl⟩, by simp [Apart], by rfl⟩

/-- `x` is moved from `a` to the front of `l`. -/
example : State.PointsTo ⟨sampleRoot, 4⟩ ⟨2, 0⟩ ([0] ++ [0]) ∧ State.PointsTo ⟨sampleRoot, 4⟩ ⟨1, 1⟩ [1] ∧ State.ParentOk ⟨sampleRoot, 4⟩ [0] 0 ∧ Apart ([0] ++ [0]) [1] ∧
    moveNodeAt true ⟨sampleRoot, 4⟩ ⟨2, 0⟩ ⟨1, 1⟩ 0 = .ok (⟨.branch none none false 1 8
      [.branch (some [0x61#8]) (some ⟨0, 0⟩) false 2 8 [],
       .branch (some [0x6c#8]) (some ⟨0, 0⟩) true 3 8 [.leaf (some [0x78#8]) (some ⟨1, 1⟩) (.int 7), .leaf none (some ⟨1, 1⟩) (.int 1),
         .leaf none (some ⟨1, 1⟩) (.str false (some [0x79#8]))]], 4⟩, ⟨3, 0⟩) :=
  ⟨rfl, rfl, ⟨_, ⟨1, 0⟩, rfl, rfl, rfl⟩, by simp [Apart], by rfl⟩

/-- `a` is moved into `l`; then `x` cannot be removed. -/
example : (do let (s, _) ← moveNodeAt true ⟨sampleRoot, 4⟩ ⟨1, 0⟩ ⟨1, 1⟩ 0; removeNode s ⟨2, 0⟩) = .error .ub := by rfl

/-- The first element of `l` is to be moved to its end: the pointer that comes back points to nothing. -/
example : (do let (s, o) ← moveNode true ⟨sampleRoot, 4⟩ ⟨3, 0⟩ ⟨1, 1⟩; (deref s.root o).map Node.tree) = .error .ub := by rfl

/-- The second element of `l` is to be moved to its front: nothing changes. -/
example : (do let (s, _) ← moveNodeAt true ⟨sampleRoot, 4⟩ ⟨3, 1⟩ ⟨1, 1⟩ 0; .ok s) = .ok ⟨sampleRoot, 4⟩ := by rfl

/-- A full array: eight children. -/
example : moveNodeAt true ⟨.branch none none true 1 8 (List.replicate 8 (.leaf none (some ⟨0, 0⟩) .none)), 2⟩ ⟨1, 0⟩ ⟨0, 0⟩ 3 = .error .ub := by rfl

/-- No memory for the array of the new node. -/
example : appendBranch true false ⟨sampleRoot, 4⟩ ⟨1, 0⟩ (some [0x7a#8]) true = .ok (⟨sampleRoot, 4⟩, none) := by rfl

end Zpl.Adt
